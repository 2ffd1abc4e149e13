import Verif.Spec.EpsPlot
import Mathlib.MeasureTheory.Integral.Bochner.Basic
import Mathlib.MeasureTheory.Measure.Lebesgue.Basic

/-! # The permittivity of a layer as a function of the position -/
namespace Legume.Spec
open MeasureTheory

/-- No two copies of the region, displaced by vectors of the lattice, overlap. -/
def Isolated (a1 a2 : ℝ × ℝ) (R : Set (ℝ × ℝ)) : Prop := ∀ m : ℤ × ℤ, ∀ p ∈ R, p + latVec a1 a2 m ∈ R → m = 0

/-- No two copies of any of the regions overlap. -/
def Apart (a1 a2 : ℝ × ℝ) (Rs : List (Set (ℝ × ℝ))) : Prop :=
  (∀ R ∈ Rs, Isolated a1 a2 R) ∧ Rs.Pairwise fun R S => ∀ p m, p ∈ R → p + latVec a1 a2 m ∉ S

/-- The permittivity at every point of the plane: that of the shape of which a copy contains the point, otherwise that of
the background. -/
structure IsPermittivity (a1 a2 : ℝ × ℝ) (eb : ℝ) (shapes : List (ℝ × Set (ℝ × ℝ))) (eps : ℝ × ℝ → ℝ) : Prop where
  inside : ∀ s ∈ shapes, ∀ p m, p + latVec a1 a2 m ∈ s.2 → eps p = s.1
  outside : ∀ p, (∀ s ∈ shapes, ∀ m, p + latVec a1 a2 m ∉ s.2) → eps p = eb

/-- `∫ exp(-i g·r) d²r` over a region. -/
noncomputable def regionFourier (R : Set (ℝ × ℝ)) (g : ℝ × ℝ) : ℂ :=
  ∫ p in R, Complex.exp (-Complex.I * ((g.1 * p.1 + g.2 * p.2 : ℝ) : ℂ))

/-- The coefficient of `exp(i g·r)` in the Fourier series of a periodic permittivity. -/
noncomputable def epsCoeff (a1 a2 : ℝ × ℝ) (eps : ℝ × ℝ → ℝ) (g : ℝ × ℝ) : ℂ :=
  cellMean a1 a2 fun x y => (eps (x, y) : ℂ) * Complex.exp (-Complex.I * ((g.1 * x + g.2 * y : ℝ) : ℂ))

end Legume.Spec
