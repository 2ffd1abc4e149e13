import Mathlib.MeasureTheory.Integral.Bochner.Basic
import Mathlib.MeasureTheory.Integral.Bochner.Set
import Mathlib.MeasureTheory.Measure.Lebesgue.Basic
import Verif.Spec.SlabModes
import Verif.Model.MatrixElements

/-!
# Specification vocabulary for the guided-mode matrix elements
-/
namespace Legume.Spec

open MeasureTheory

/-- Heights occupied by a layer, measured from its middle (inner layers) or from the interface
(claddings). -/
noncomputable def layMeasure : LPos → Measure ℝ
  | .lower => volume.restrict (Set.Iic 0)
  | .inner d => volume.restrict (Set.Ioc (-(d / 2)) (d / 2))
  | .upper => volume.restrict (Set.Ioi 0)

/-- The exact integral of `exp(i a t)` over a layer. -/
noncomputable def ijExact (pos : LPos) (a : ℂ) : ℂ :=
  ∫ t, Complex.exp (Complex.I * a * t) ∂(layMeasure pos)

/-- The part of a mode in a layer is square integrable: in the claddings only the decaying wave is
present. -/
def Decays : LPos → ModeL → Prop
  | .lower, m => m.A = 0 ∧ 0 < m.x.im
  | .inner d, _ => 0 ≤ d
  | .upper, m => m.B = 0 ∧ 0 < m.x.im

/-- The electric displacement (curl of the magnetic field) of a state at height `t` of a layer with
effective permittivity `eps`, up to a common phase: along `q` for TE; along `p` and `z` for TM. -/
noncomputable def dispField (s : GmeState) (eps : ℝ) (m : ModeL) (t : ℝ) : Fin 3 → ℂ :=
  match s.pol with
  | .te => ![(s.om : ℂ) ^ 2 * eps * fieldSum m.x (m.A, m.B) t * s.q.1,
      (s.om : ℂ) ^ 2 * eps * fieldSum m.x (m.A, m.B) t * s.q.2, 0]
  | .tm => ![-Complex.I * fieldDiff m.x m.x (m.A, m.B) t * s.p.1,
      -Complex.I * fieldDiff m.x m.x (m.A, m.B) t * s.p.2,
      Complex.I * s.gk * fieldSum m.x (m.A, m.B) t]

end Legume.Spec
