import Verif.Model.GmeGrad

/-!
# Gradients with respect to the transforms of the layers

The remaining step of the reverse pass of `gme/gme.py` with `truncate_g='abs'`: from the samples at all unique differences of
plane waves back to those at which `compute_ft` was called (gme.py 509-513).
-/
namespace Legume

open scoped ComplexConjugate

/-- Through `concatenate((pos, conj(pos[-2::-1])))` for `nU` samples (gme.py 509-513). -/
noncomputable def backHalf (nU : ℕ) (g : ℕ → ℂ) (u : ℕ) : ℂ :=
  g u + if u < (nU - 1) / 2 then conj (g (nU - 1 - u)) else 0

end Legume
