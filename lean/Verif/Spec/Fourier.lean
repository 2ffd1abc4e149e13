import Mathlib.MeasureTheory.Integral.IntervalIntegral.Basic
import Mathlib.Analysis.SpecialFunctions.Complex.Circle

/-!
# Specification vocabulary: Fourier integrals over polygons (independent of the model)
-/
namespace Legume.Spec

open Complex

/-- `∫ exp(-i g·r) d²r` over the triangle with corners `0`, `p`, `q`, counted with the sign of
its orientation. The triangle is parametrised by `r = s ((1 - t) p + t q)`, `0 ≤ s, t ≤ 1`, with
Jacobian `s (p × q)`. -/
noncomputable def triFourier (g p q : ℝ × ℝ) : ℂ :=
  ((p.1 * q.2 - p.2 * q.1 : ℝ) : ℂ) * ∫ s in (0:ℝ)..1, (s : ℂ) * ∫ t in (0:ℝ)..1,
    exp (-I * ((g.1 * (s * ((1 - t) * p.1 + t * q.1)) +
      g.2 * (s * ((1 - t) * p.2 + t * q.2)) : ℝ) : ℂ))

/-- `∫ exp(-i g·r) d²r` over the polygon with the given vertices, as the sum over the triangles
spanned by the origin and each edge, with the sign of their orientation. The last vertex is
joined to the first. -/
noncomputable def polyFourier (vs : List (ℝ × ℝ)) (g : ℝ × ℝ) : ℂ :=
  ((vs.zip (vs.rotate 1)).map fun e => triFourier g e.1 e.2).sum

/-- The Bessel function of the first kind and order one, by Bessel's integral. -/
noncomputable def besselJ1 (x : ℝ) : ℝ :=
  (∫ t in (0:ℝ)..2 * Real.pi, Real.cos (t - x * Real.sin t)) / (2 * Real.pi)

/-- `∫ exp(-i g·r) d²r` over the ellipse of centre `c` with half axes `a u` and `b v`, where `u` is
the unit vector at the angle `phi` and `v` is `u` turned by a right angle. The ellipse is
parametrised by `r = c + s (a cos t u + b sin t v)`, `0 ≤ s ≤ 1`, `0 ≤ t ≤ 2π`, with Jacobian
`a b s`. -/
noncomputable def ellipseFourier (c : ℝ × ℝ) (a b phi : ℝ) (g : ℝ × ℝ) : ℂ :=
  ((a * b : ℝ) : ℂ) * ∫ s in (0:ℝ)..1, (s : ℂ) * ∫ t in (0:ℝ)..2 * Real.pi,
    exp (-I * ((g.1 * (c.1 + s * (a * Real.cos t * Real.cos phi - b * Real.sin t * Real.sin phi)) +
      g.2 * (c.2 + s * (a * Real.cos t * Real.sin phi + b * Real.sin t * Real.cos phi)) : ℝ) : ℂ))

end Legume.Spec
