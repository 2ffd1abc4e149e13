import Mathlib.Analysis.SpecialFunctions.Trigonometric.Basic

/-!
# Outlines of plane figures
-/
namespace Legume
namespace Spec

/-- The point at fraction `t` of the way from `a` to `b`. -/
def between (a b : ℝ × ℝ) (p : ℝ × ℝ) : Prop :=
  ∃ t : ℝ, 0 ≤ t ∧ t ≤ 1 ∧ p = (a.1 + t * (b.1 - a.1), a.2 + t * (b.2 - a.2))

/-- The points of the broken line through a list of points. -/
def OnPath (l : List (ℝ × ℝ)) (p : ℝ × ℝ) : Prop :=
  ∃ i a b, l[i]? = some a ∧ l[i + 1]? = some b ∧ between a b p

/-- The boundary of the polygon with the given corners: the last one is joined to the first. -/
def OnPolygon (vs : List (ℝ × ℝ)) (p : ℝ × ℝ) : Prop :=
  ∃ i a b, vs[i]? = some a ∧ vs[(i + 1) % vs.length]? = some b ∧ between a b p

/-- The circle of radius `|r|` about `c`. -/
def OnCircle (c : ℝ × ℝ) (r : ℝ) (p : ℝ × ℝ) : Prop := (p.1 - c.1) ^ 2 + (p.2 - c.2) ^ 2 = r ^ 2

end Spec
end Legume
