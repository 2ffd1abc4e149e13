import Verif.Spec.PermittivityMap

/-! # Components of functions along the plane waves of a lattice -/
namespace Legume.Spec

/-- The part of a function on the elementary cell along `exp(i g·r)`. -/
noncomputable def component (a1 a2 : ℝ × ℝ) (g : ℝ × ℝ) (f : ℝ → ℝ → ℂ) : ℂ :=
  cellMean a1 a2 fun x y => f x y * Complex.exp (-Complex.I * ((g.1 * x + g.2 * y : ℝ) : ℂ))

/-- The structure seen after the inversion `r ↦ -r` of the plane. -/
def inverted (eps : ℝ × ℝ → ℝ) : ℝ × ℝ → ℝ := fun p => eps (-p)

end Legume.Spec
