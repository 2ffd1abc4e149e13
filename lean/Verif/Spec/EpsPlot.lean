import Mathlib.Analysis.SpecialFunctions.Integrals.Basic
import Mathlib.Data.Finset.Prod
import Mathlib.Order.Interval.Finset.Nat
import Mathlib.Data.Int.Interval

/-! # Fourier series on a lattice, averages over the elementary cell -/
namespace Legume.Spec

/-- The vector `m₁ b₁ + m₂ b₂`. -/
noncomputable def latVec (b1 b2 : ℝ × ℝ) (m : ℤ × ℤ) : ℝ × ℝ :=
  (m.1 * b1.1 + m.2 * b2.1, m.1 * b1.2 + m.2 * b2.2)

/-- The Fourier series with the coefficients of `F` at the vectors numbered by `S`. -/
noncomputable def fourierSum (F : ℝ × ℝ → ℂ) (b1 b2 : ℝ × ℝ) (S : Finset (ℤ × ℤ)) (x y : ℝ) : ℂ :=
  ∑ m ∈ S, F (latVec b1 b2 m) *
    Complex.exp (Complex.I * (((latVec b1 b2 m).1 * x + (latVec b1 b2 m).2 * y : ℝ) : ℂ))

/-- Average over the elementary cell spanned by `a1` and `a2`. -/
noncomputable def cellMean (a1 a2 : ℝ × ℝ) (f : ℝ → ℝ → ℂ) : ℂ :=
  ∫ u in (0 : ℝ)..1, ∫ v in (0 : ℝ)..1, f (u * a1.1 + v * a2.1) (u * a1.2 + v * a2.2)

/-- Direct and reciprocal basis. -/
structure Dual (a1 a2 b1 b2 : ℝ × ℝ) : Prop where
  h11 : a1.1 * b1.1 + a1.2 * b1.2 = 2 * Real.pi
  h12 : a1.1 * b2.1 + a1.2 * b2.2 = 0
  h21 : a2.1 * b1.1 + a2.2 * b1.2 = 0
  h22 : a2.1 * b2.1 + a2.2 * b2.2 = 2 * Real.pi

/-- All pairs of integers of absolute values at most `2 n1` and `2 n2`. -/
noncomputable def rect (n1 n2 : ℕ) : Finset (ℤ × ℤ) :=
  Finset.Icc (-(2 * n1 : ℤ)) (2 * n1) ×ˢ Finset.Icc (-(2 * n2 : ℤ)) (2 * n2)

end Legume.Spec
