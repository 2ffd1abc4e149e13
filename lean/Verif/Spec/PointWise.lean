import Verif.Model.Py

/-!
# Runs over a list of wave vectors
-/
namespace Legume.Spec

/-- A run over a list of points succeeds exactly if the run over every point alone succeeds, and then its results are those of
the single runs in the same order. -/
def PointWise {A B : Type} (run : List A → Except PyErr (List B)) : Prop :=
  ∀ ks : List A, ks ≠ [] → ∀ rs : List B,
    run ks = .ok rs ↔ rs.length = ks.length ∧ ∀ (i : Nat) (k : A) (r : B), ks[i]? = some k → rs[i]? = some r → run [k] = .ok [r]

end Legume.Spec
