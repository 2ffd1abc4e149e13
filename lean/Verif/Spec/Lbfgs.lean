import Verif.Model.Lbfgs

/-! # Executions of SciPy's L-BFGS-B -/
namespace Legume.Spec

/-- The points at which SciPy reports an iteration. -/
def reported {P : Type} : List (LbEv P) → List P
  | [] => []
  | .eval _ :: es => reported es
  | .cb x :: es => x :: reported es

/-- SciPy's contract: an iteration is reported at the point evaluated last. -/
def Reports {P : Type} : Option P → List (LbEv P) → Prop
  | _, [] => True
  | _, .eval p :: es => Reports (some p) es
  | last, .cb x :: es => last = some x ∧ Reports last es

end Legume.Spec
