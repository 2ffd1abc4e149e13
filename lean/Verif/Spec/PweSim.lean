import Verif.Model.Shapes

/-! # Lattices resolved by the code, displaced shapes -/
namespace Legume.Spec

/-- Every reciprocal lattice vector other than zero has a component of at least `1e-10`, the value below which
the code takes a component as zero (any lattice with periods below `1e10`). -/
def Resolved (b1 b2 : ℝ × ℝ) : Prop :=
  ∀ i j : ℤ, (i, j) ≠ (0, 0) →
    ¬ (|b1.1 * i + b2.1 * j| < 1e-10 ∧ |b1.2 * i + b2.2 * j| < 1e-10)

/-- A shape of the same permittivity, displaced by `t`. -/
def Displaced (t : ℝ × ℝ) (s s' : FShape) : Prop :=
  s'.eps = s.eps ∧ ∀ g : ℝ × ℝ, ¬ (|g.1| < 1e-10 ∧ |g.2| < 1e-10) →
    s'.ft g = Complex.exp (-Complex.I * (g.1 * t.1 + g.2 * t.2)) * s.ft g

/-- The transform of a real function. -/
def RealShape (s : FShape) : Prop := ∀ g : ℝ × ℝ, s.ft (-g.1, -g.2) = (starRingEnd ℂ) (s.ft g)

end Legume.Spec
