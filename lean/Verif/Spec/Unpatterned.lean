import Verif.Model.Unpatterned
import Verif.Spec.MatrixElements

/-!
# Specification vocabulary for the unpatterned slab
-/
namespace Legume.Spec

open MeasureTheory

/-- Squared magnetic field of a mode at height `t` of a layer. -/
noncomputable def magSq (pol : Pol) (g : ℝ) (m : ModeL) (t : ℝ) : ℝ :=
  match pol with
  | .tm => intensityTM m.x (m.A, m.B) t
  | .te => intensityTE g m.x (m.A, m.B) t

/-- Squared magnetic field of a mode integrated over all heights. -/
noncomputable def slabNorm (pol : Pol) (g : ℝ) (stack : List (LPos × ℝ)) (layers : List ModeL) : ℝ :=
  ((stack.zip layers).map fun z => ∫ t, magSq pol g z.2 t ∂(layMeasure z.1.1)).sum

end Legume.Spec
