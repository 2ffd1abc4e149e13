import Verif.Model.Shapes

/-! # Rotations, mirrors and changes of the unit of length -/
namespace Legume.Spec

/-- A linear map of the plane which multiplies all lengths by `c` and keeps all angles: a rotation or a mirror followed by
a change of scale. -/
structure Similarity (c : ℝ) (q : ℝ × ℝ → ℝ × ℝ) : Prop where
  pos : 0 < c
  lin : ∀ (x y : ℝ) (a b : ℝ × ℝ), q (a.1 * x + b.1 * y, a.2 * x + b.2 * y) =
    ((q a).1 * x + (q b).1 * y, (q a).2 * x + (q b).2 * y)
  dot : ∀ a b : ℝ × ℝ, (q a).1 * (q b).1 + (q a).2 * (q b).2 = c ^ 2 * (a.1 * b.1 + a.2 * b.2)

/-- Shape `s'` is the image of shape `s` when all reciprocal vectors of a lattice are mapped by `q`: same permittivity, and
the transform is that of `s` times the change of area. -/
structure ShapeImage (c : ℝ) (q : ℝ × ℝ → ℝ × ℝ) (b1 b2 : ℝ × ℝ) (s s' : FShape) : Prop where
  eps : s'.eps = s.eps
  ft : ∀ m n : ℤ, (c : ℂ) ^ 2 * s'.ft (q (b1.1 * m + b2.1 * n, b1.2 * m + b2.2 * n)) =
    s.ft (b1.1 * m + b2.1 * n, b1.2 * m + b2.2 * n)

/-- Rotation of the plane by an angle. -/
noncomputable def turn (a : ℝ) (v : ℝ × ℝ) : ℝ × ℝ :=
  (v.1 * Real.cos a - v.2 * Real.sin a, v.1 * Real.sin a + v.2 * Real.cos a)

end Legume.Spec
