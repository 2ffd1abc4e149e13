import Mathlib.Data.Complex.Basic

/-!
# Specification vocabulary for shapes (independent of the model)
-/
namespace Legume.Spec

/-- Signed area of the triangle `v p q`. -/
noncomputable def triArea (v p q : ℝ × ℝ) : ℝ :=
  ((p.1 - v.1) * (q.2 - v.2) - (p.2 - v.2) * (q.1 - v.1)) / 2

/-- Signed area of the polygon `v, p, ...` as the sum over its fan of triangles with apex
`v`. -/
noncomputable def fanArea (v : ℝ × ℝ) : List (ℝ × ℝ) → ℝ
  | p :: q :: l => triArea v p q + fanArea v (q :: l)
  | _ => 0

/-- The rigid motion `p ↦ R p + t` with rotation matrix `[[c, -s], [s, c]]`. -/
def rigid (c s : ℝ) (t p : ℝ × ℝ) : ℝ × ℝ := (c * p.1 - s * p.2 + t.1, s * p.1 + c * p.2 + t.2)

/-- Translation. -/
def shift (t p : ℝ × ℝ) : ℝ × ℝ := (p.1 + t.1, p.2 + t.2)

end Legume.Spec
