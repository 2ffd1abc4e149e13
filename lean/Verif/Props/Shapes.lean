import Verif.Lemmas.Shapes
import Mathlib.Analysis.SpecialFunctions.Trigonometric.Bounds
import Mathlib.Tactic.NormNum.RealSqrt
import Mathlib.Algebra.BigOperators.Intervals

/-!
# Properties C12 - C16, C39, C62: shapes and their Fourier transforms
-/
namespace Legume

open Spec Real

/-! ### C12: transforms of real functions -/

theorem conj_exp_I_mul (x : ℝ) :
    (starRingEnd ℂ) (Complex.exp (Complex.I * x)) = Complex.exp (Complex.I * ((-x : ℝ) : ℂ)) := by
  rw [← Complex.exp_conj]; simp

theorem edgeGen_neg (gx gy : ℝ) (p q : R2) :
    edgeGen (-gx) (-gy) p q = (starRingEnd ℂ) (edgeGen gx gy p q) := by
  simp only [edgeGen]
  have e0 : (-gx) * ((-gy) + (-gx) * slope p q) = gx * (gy + gx * slope p q) := by ring
  simp only [← Complex.ofReal_mul, ← Complex.ofReal_add, map_mul, map_sub, conj_exp_I_mul,
    Complex.conj_ofReal, e0]
  congr 3
  · congr 2; congr 1; ring
  · congr 2; congr 1; ring
  · congr 2; congr 1; ring

theorem edgeGx0_neg (gx gy : ℝ) (p q : R2) :
    edgeGx0 (-gx) (-gy) p q = (starRingEnd ℂ) (edgeGx0 gx gy p q) := by
  simp only [edgeGx0]
  have e0 : (-gy) * ((-gx) + (-gy) * (1 / slope p q)) = gy * (gx + gy * (1 / slope p q)) := by ring
  simp only [← Complex.ofReal_mul, ← Complex.ofReal_add, map_mul, map_sub, conj_exp_I_mul,
    Complex.conj_ofReal, e0]
  congr 3
  · congr 2; congr 1; ring
  · congr 2; congr 1; ring
  · congr 2; congr 1; ring

/-- **C12 (circle).** For every circle and every `G`, whatever real function is used for the
Bessel function. -/
theorem C12_circle_conj (J : ℝ → ℝ) (c : Circle) (g : R2) :
    c.ft J (-g.1, -g.2) = (starRingEnd ℂ) (c.ft J g) := by
  simp only [Circle.ft, neg_sq, map_mul, map_div₀, Complex.conj_ofReal, ← Complex.exp_conj,
    map_sub, map_neg, Complex.conj_I, Complex.ofReal_neg, map_ofNat]
  congr 5
  congr 2 <;> ring

/-- **C12 (ellipse).** -/
theorem C12_ellipse_conj (J : ℝ → ℝ) (e : Ellipse) (g : R2) :
    e.ft J (-g.1, -g.2) = (starRingEnd ℂ) (e.ft J g) := by
  have hf : toFrame e.phi (-g.1, -g.2) = (-(toFrame e.phi g).1, -(toFrame e.phi g).2) := by
    simp only [toFrame, Prod.mk.injEq]; constructor <;> ring
  simp only [Ellipse.ft, hf, neg_mul, neg_sq, map_mul, map_div₀, Complex.conj_ofReal,
    ← Complex.exp_conj, map_sub, map_neg, Complex.conj_I, Complex.ofReal_neg, map_ofNat]
  congr 5
  congr 2 <;> ring

/-- **C12 (polygon).** For every polygon with any number of vertices and every `G`, including
all regularising constants of the code. (Exact arithmetic; the code divides by zero if an edge
has `dy = -1e-20` exactly.) -/
theorem C12_poly_conj (vs : List R2) (g : R2) :
    polyFt vs (-g.1, -g.2) = (starRingEnd ℂ) (polyFt vs g) := by
  simp only [polyFt, abs_neg, neg_neg]
  split_ifs
  · simp
  · rw [edgeSumC_eq, edgeSumC_eq, eSum_conj]
    refine eSum_congr (fun p q => ?_) vs
    rw [← edgeGx0_neg, neg_neg, neg_neg]
  · rw [edgeSumC_eq, edgeSumC_eq, map_neg, eSum_conj]
    congr 1
    refine eSum_congr (fun p q => ?_) vs
    rw [← edgeGen_neg, neg_neg, neg_neg]

theorem foldl_add_eq_sum {α : Type} (f : α → ℂ) (l : List α) (z : ℂ) :
    l.foldl (fun F s => F + f s) z = z + (l.map f).sum := by
  induction l generalizing z with
  | nil => simp
  | cons a l ih => simp [ih, add_assoc]

/-- **C12 (layer).** If the transforms of all its shapes are conjugate-symmetric, so is the
transform of the layer permittivity, and its zero component is the average permittivity. -/
theorem C12_layer_conj (epsB epsAvg ecArea : ℝ) (shapes : List FShape)
    (h : ∀ s ∈ shapes, ∀ g : R2, s.ft (-g.1, -g.2) = (starRingEnd ℂ) (s.ft g)) (g : R2) :
    layerFt epsB epsAvg ecArea shapes (-g.1, -g.2) =
      (starRingEnd ℂ) (layerFt epsB epsAvg ecArea shapes g) ∧
    layerFt epsB epsAvg ecArea shapes (0, 0) = epsAvg := by
  constructor
  · have h0 : isG0 (-g.1, -g.2) ↔ isG0 g := by simp [isG0]
    have hs : (shapes.map fun s => ((s.eps - epsB : ℝ) : ℂ) * s.ft (-g.1, -g.2)).sum =
        (starRingEnd ℂ) (shapes.map fun s => ((s.eps - epsB : ℝ) : ℂ) * s.ft g).sum := by
      clear h0
      induction shapes with
      | nil => simp
      | cons a l ih =>
        simp only [List.map_cons, List.sum_cons, map_add, map_mul, Complex.conj_ofReal]
        rw [ih fun s hs => h s (List.mem_cons_of_mem _ hs), h a (List.mem_cons_self ..) g]
    simp only [layerFt, foldl_add_eq_sum, zero_add, hs]
    by_cases hg : isG0 g
    · rw [if_pos hg, if_pos (h0.2 hg)]; simp
    · rw [if_neg hg, if_neg (fun h => hg (h0.1 h))]; simp
  · have h0 : isG0 (0, 0) := by simp [isG0]; norm_num
    simp [layerFt, h0]

/-- **C12 (layer value).** Away from `G = 0` the transform of the layer permittivity is the sum of
its shapes' transforms weighted by their contrast with the background, over the cell area. -/
theorem C12_layer_value (epsB epsAvg ecArea : ℝ) (shapes : List FShape) (g : R2)
    (hg : ¬ |g.1| + |g.2| < 1e-10) :
    layerFt epsB epsAvg ecArea shapes g =
      (shapes.map fun s => ((s.eps : ℂ) - epsB) * s.ft g).sum / ecArea := by
  have h0 : ¬ isG0 g := hg
  simp only [layerFt, foldl_add_eq_sum, if_neg h0]
  push_cast
  ring

example : ¬ |((1 : ℝ), (0 : ℝ)).1| + |((1 : ℝ), (0 : ℝ)).2| < 1e-10 := by norm_num

/-- Non-vacuity of the layer statement: a circle and a triangle. -/
example (J : ℝ → ℝ) : ∀ s ∈ [(⟨2, (Circle.mk 0.1 0.2 0.3).ft J⟩ : FShape),
    ⟨3, polyFt [(0, 0), (1, 0), (0, 1), (0, 0)]⟩], ∀ g : R2,
    s.ft (-g.1, -g.2) = (starRingEnd ℂ) (s.ft g) := by
  intro s hs g
  simp only [List.mem_cons, List.not_mem_nil, or_false] at hs
  rcases hs with rfl | rfl
  · exact C12_circle_conj J _ g
  · exact C12_poly_conj _ g

/-! ### C13: areas -/

/-- **C13 (area).** A polygon that `Poly` accepts is closed, its `area` is the (signed, hence
non-negative) area of the fan of triangles spanned by its vertices, and that is also its zero
Fourier component. -/
theorem C13_area (l : List R2) (p : Poly) (h : Poly.new l = .ok p) :
    ∃ v vs, l = v :: vs ∧ p.verts = l ++ [v] ∧ p.area = fanArea v vs ∧ 0 ≤ p.area ∧
      polyFt p.verts (0, 0) = p.area := by
  obtain ⟨v, vs, rfl, hv, ha, h0⟩ := polyNew_ok h
  refine ⟨v, vs, rfl, hv, ?_, h0, ?_⟩
  · rw [ha, hv, shoelace_closed, shoelace_fan]
  · rw [polyFt_zero, ha]

/-- **C13 (rejection).** `Poly` raises `ValueError` exactly for vertex lists of negative signed
area (clockwise), `IndexError` exactly for the empty list. -/
theorem C13_rejects_clockwise (v : R2) (vs : List R2) :
    (Poly.new (v :: vs) = .error .valueError ↔ fanArea v vs < 0) ∧
    ((∃ p, Poly.new (v :: vs) = .ok p) ↔ 0 ≤ fanArea v vs) ∧
    Poly.new [] = .error .indexError := by
  have e : (polyFt ((v :: vs) ++ [v]) (0, 0)).re = fanArea v vs := by
    rw [polyFt_zero, Complex.ofReal_re, shoelace_closed, shoelace_fan]
  simp only [Poly.new, e]
  refine ⟨?_, ?_, trivial⟩
  · split_ifs with h <;> simp [h]
  · split_ifs with h
    · simp only [reduceCtorEq, exists_false, false_iff]; linarith
    · simp; linarith

theorem edgeGen_self (gx gy : ℝ) (v : R2) : edgeGen gx gy v v = 0 := by simp [edgeGen]
theorem edgeGx0_self (gx gy : ℝ) (v : R2) : edgeGx0 gx gy v v = 0 := by simp [edgeGx0]

theorem polyFt_closed (v : R2) (vs : List R2) (g : R2) :
    polyFt ((v :: vs) ++ [v]) g = polyFt (v :: vs) g := by
  simp only [polyFt, edgeSumC_eq, shoelace_closed]
  rw [eSum_closed _ (edgeGen_self _ _), eSum_closed _ (edgeGx0_self _ _)]

theorem polyFt_rotate (l : List R2) (k : Nat) (g : R2) : polyFt (l.rotate k) g = polyFt l g := by
  simp only [polyFt, edgeSumC_eq, shoelace_eq, eSum_rotate]

/-- **C13 (first vertex).** Listing the same polygon from another first vertex changes neither
acceptance, nor the area, nor any Fourier component. -/
theorem C13_first_vertex (l : List R2) (k : Nat) (p : Poly) (h : Poly.new l = .ok p) :
    ∃ p', Poly.new (l.rotate k) = .ok p' ∧ p'.area = p.area ∧
      ∀ g, polyFt p'.verts g = polyFt p.verts g := by
  obtain ⟨v, vs, rfl, hv, ha, h0⟩ := polyNew_ok h
  cases hr : (v :: vs).rotate k with
  | nil => simp [List.rotate_eq_nil_iff] at hr
  | cons w ws =>
    have hft : ∀ g, polyFt ((w :: ws) ++ [w]) g = polyFt p.verts g := by
      intro g
      rw [hv, polyFt_closed, polyFt_closed, ← hr, polyFt_rotate]
    have h0' : (polyFt ((w :: ws) ++ [w]) (0, 0)).re = p.area := by
      rw [hft, polyFt_zero, ha, Complex.ofReal_re]
    refine ⟨⟨(w :: ws) ++ [w], p.area⟩, ?_, rfl, hft⟩
    simp only [Poly.new, h0']
    rw [if_neg (by linarith)]

/-- **C13 (rigid motions).** Translating and rotating the vertices changes neither acceptance
nor the area. -/
theorem C13_rigid_motion (c s : ℝ) (hcs : c ^ 2 + s ^ 2 = 1) (t : R2) (l : List R2) (p : Poly)
    (h : Poly.new l = .ok p) :
    ∃ p', Poly.new (l.map (rigid c s t)) = .ok p' ∧ p'.area = p.area := by
  obtain ⟨v, vs, rfl, hv, ha, h0⟩ := polyNew_ok h
  have e : (polyFt (rigid c s t v :: vs.map (rigid c s t) ++ [rigid c s t v]) (0, 0)).re = p.area := by
    rw [polyFt_zero, Complex.ofReal_re, ha, hv, ← shoelace_rigid c s hcs t (v :: vs ++ [v])]
    simp
  refine ⟨⟨rigid c s t v :: vs.map (rigid c s t) ++ [rigid c s t v], p.area⟩, ?_, rfl⟩
  simp only [List.map_cons, Poly.new, e]
  rw [if_neg (by linarith)]

/-- Non-vacuity of C13: an accepted triangle of area 1/2, and the same one clockwise. -/
example : (∃ p, Poly.new [(0, 0), (1, 0), (0, 1)] = .ok p ∧ p.area = 1 / 2) ∧
    Poly.new [(0, 0), (0, 1), (1, 0)] = .error .valueError := by
  constructor
  · obtain ⟨p, hp⟩ := (C13_rejects_clockwise (0, 0) [(1, 0), (0, 1)]).2.1.2
      (by norm_num [fanArea, triArea])
    refine ⟨p, hp, ?_⟩
    obtain ⟨v, vs, h1, -, h2, -⟩ := C13_area _ _ hp
    cases h1
    rw [h2]; norm_num [fanArea, triArea]
  · exact (C13_rejects_clockwise (0, 0) [(0, 1), (1, 0)]).1.2 (by norm_num [fanArea, triArea])

/-! ### C14: rotation -/

/-- A polygon object whose `area` attribute agrees with its vertices: every polygon made by
`Poly(...)`, and (by `C14_rotate_area_com`) every one obtained from it by rotations. -/
def Poly.Consistent (p : Poly) : Prop := p.area = shoelace p.verts

theorem new_consistent {l : List R2} {p : Poly} (h : Poly.new l = .ok p) : p.Consistent :=
  (polyNew_ok h).choose_spec.choose_spec.2.2.1

theorem com_rigid (c s : ℝ) (h : c ^ 2 + s ^ 2 = 1) (t : R2) (l : List R2) (A : ℝ)
    (hA : A = shoelace l) (hA0 : A ≠ 0) :
    centerOfMass (l.map (rigid c s t)) A = rigid c s t (centerOfMass l A) := by
  simp only [centerOfMass_eq, momX_rigid c s h, momY_rigid c s h, rigid, ← hA, Prod.mk.injEq]
  constructor <;> field_simp

/-- **C14 (area, centre).** Rotation keeps the area (attribute and actual area of the vertices)
and the centre of mass. -/
theorem C14_rotate_area_com (p : Poly) (hp : p.Consistent) (h0 : p.area ≠ 0) (a : ℝ) :
    (p.rotate a).Consistent ∧ (p.rotate a).area = p.area ∧
    shoelace (p.rotate a).verts = shoelace p.verts ∧
    centerOfMass (p.rotate a).verts (p.rotate a).area = centerOfMass p.verts p.area := by
  have hcs : cos a ^ 2 + sin a ^ 2 = 1 := Real.cos_sq_add_sin_sq a
  have hs : shoelace (p.rotate a).verts = shoelace p.verts := by
    simp only [Poly.rotate, rotatePt_eq, shoelace_rigid _ _ hcs]
  refine ⟨?_, rfl, hs, ?_⟩
  · unfold Poly.Consistent; rw [hs]; exact hp
  · simp only [Poly.rotate]
    rw [rotatePt_eq, com_rigid _ _ hcs _ _ _ hp h0, ← rotatePt_eq]
    simp [rotatePt]

/-- **C14 (composition).** Rotating by `a` and then by `b` is rotating by `a + b`; rotating by
`0` changes nothing. -/
theorem C14_rotate_compose (p : Poly) (hp : p.Consistent) (h0 : p.area ≠ 0) (a b : ℝ) :
    (p.rotate a).rotate b = p.rotate (a + b) ∧ p.rotate 0 = p := by
  constructor
  · have hc := (C14_rotate_area_com p hp h0 a).2.2.2
    have e : (p.rotate a).rotate b = ⟨(p.rotate a).verts.map
        (rotatePt b (centerOfMass (p.rotate a).verts (p.rotate a).area)), p.area⟩ := rfl
    rw [e, hc]
    simp only [Poly.rotate, List.map_map]
    congr 2
    funext v
    simp only [Function.comp, rotatePt, Real.cos_add, Real.sin_add, Prod.mk.injEq]
    constructor <;> ring
  · obtain ⟨vs, A⟩ := p
    simp only [Poly.rotate, Poly.mk.injEq, and_true]
    have : rotatePt 0 (centerOfMass vs A) = id := by
      funext v; simp [rotatePt]
    rw [this, List.map_id]

/-- **C14 (rigidity).** Every vertex is carried to a vertex in the same position of the list,
pairwise distances are preserved, and vertex `v` turns about the centre of mass by the angle
`a`. -/
theorem C14_rotate_rigid (p : Poly) (a : ℝ) :
    (p.rotate a).verts.length = p.verts.length ∧
    ∀ (i j : Nat) (v w v' w' : R2), p.verts[i]? = some v → p.verts[j]? = some w →
      (p.rotate a).verts[i]? = some v' → (p.rotate a).verts[j]? = some w' →
      (v'.1 - w'.1) ^ 2 + (v'.2 - w'.2) ^ 2 = (v.1 - w.1) ^ 2 + (v.2 - w.2) ^ 2 ∧
      (let c := centerOfMass p.verts p.area
       v' = (c.1 + (cos a * (v.1 - c.1) - sin a * (v.2 - c.2)),
             c.2 + (sin a * (v.1 - c.1) + cos a * (v.2 - c.2)))) := by
  refine ⟨by simp [Poly.rotate], ?_⟩
  intro i j v w v' w' hv hw hv' hw'
  simp only [Poly.rotate, List.getElem?_map, hv, hw, Option.map_some, Option.some.injEq] at hv' hw'
  subst hv' hw'
  have hcs : cos a ^ 2 + sin a ^ 2 = 1 := Real.cos_sq_add_sin_sq a
  constructor
  · simp only [rotatePt]
    linear_combination ((v.1 - w.1) ^ 2 + (v.2 - w.2) ^ 2) * hcs
  · simp only [rotatePt, Prod.mk.injEq]
    constructor <;> ring

/-- Non-vacuity of C14. -/
example : ∃ p, Poly.new [(0, 0), (1, 0), (0, 1)] = .ok p ∧ p.Consistent ∧ p.area ≠ 0 := by
  obtain ⟨p, hp⟩ := (C13_rejects_clockwise (0, 0) [(1, 0), (0, 1)]).2.1.2
    (by norm_num [fanArea, triArea])
  refine ⟨p, hp, new_consistent hp, ?_⟩
  obtain ⟨v, vs, h1, -, h2, -⟩ := C13_area _ _ hp
  cases h1
  rw [h2]; norm_num [fanArea, triArea]

/-! ### C15: squares and hexagons -/

/-- **C15 (square).** -/
theorem C15_square (x y a : ℝ) : ∃ p, Poly.new (squareVerts x y a) = .ok p ∧ p.area = a ^ 2 ∧
    (a ≠ 0 → centerOfMass p.verts p.area = (x, y)) := by
  have hs : shoelace (squareVerts x y a ++ [(x + -a / 2, y + -a / 2)]) = a ^ 2 := by
    simp [squareVerts, shoelace, edgeSum, edges, crossTerm]; ring
  refine ⟨⟨squareVerts x y a ++ [(x + -a / 2, y + -a / 2)], a ^ 2⟩, ?_, rfl, ?_⟩
  · have e : (polyFt (squareVerts x y a ++ [(x + -a / 2, y + -a / 2)]) (0, 0)).re = a ^ 2 := by
      rw [polyFt_zero, Complex.ofReal_re, hs]
    simp only [squareVerts] at e ⊢
    simp only [Poly.new, e]
    rw [if_neg (by nlinarith [sq_nonneg a])]
  · intro ha
    simp only [centerOfMass, squareVerts, edgeSum, edges, Prod.mk.injEq]
    constructor <;> (simp; field_simp; ring)

/-- **C15 (hexagon).** -/
theorem C15_hexagon (x y a : ℝ) : ∃ p, Poly.new (hexagonVerts x y a) = .ok p ∧
    p.area = 3 * √3 / 2 * a ^ 2 ∧ (a ≠ 0 → centerOfMass p.verts p.area = (x, y)) := by
  have h3p : (0 : ℝ) < √3 := Real.sqrt_pos.2 (by norm_num)
  have hs : shoelace (hexagonVerts x y a ++ [(x + a, y + 0)]) = 3 * √3 / 2 * a ^ 2 := by
    simp [hexagonVerts, shoelace, edgeSum, edges, crossTerm]; ring
  refine ⟨⟨hexagonVerts x y a ++ [(x + a, y + 0)], 3 * √3 / 2 * a ^ 2⟩, ?_, rfl, ?_⟩
  · have e : (polyFt (hexagonVerts x y a ++ [(x + a, y + 0)]) (0, 0)).re = 3 * √3 / 2 * a ^ 2 := by
      rw [polyFt_zero, Complex.ofReal_re, hs]
    simp only [hexagonVerts] at e ⊢
    simp only [Poly.new, e]
    rw [if_neg]
    have := mul_nonneg h3p.le (sq_nonneg a)
    nlinarith
  · intro ha
    simp only [centerOfMass, hexagonVerts, edgeSum, edges, Prod.mk.injEq]
    constructor <;> (simp; field_simp; ring)

/-- Non-vacuity of the centre clause: a unit hexagon has non-zero side. -/
example : ∃ p, Poly.new (hexagonVerts 1 2 1) = .ok p ∧ centerOfMass p.verts p.area = (1, 2) := by
  obtain ⟨p, h1, -, h2⟩ := C15_hexagon 1 2 1
  exact ⟨p, h1, h2 one_ne_zero⟩

/-! ### C16: translations -/

/-- **C16 (circle).** -/
theorem C16_circle_translate (J : ℝ → ℝ) (c : Circle) (t g : R2) :
    Circle.ft J ⟨c.x + t.1, c.y + t.2, c.r⟩ g =
      Complex.exp (-Complex.I * (g.1 * t.1 + g.2 * t.2)) * c.ft J g := by
  simp only [Circle.ft]
  rw [show -Complex.I * g.1 * ((c.x + t.1 : ℝ) : ℂ) - Complex.I * g.2 * ((c.y + t.2 : ℝ) : ℂ) =
    -Complex.I * (g.1 * t.1 + g.2 * t.2) + (-Complex.I * g.1 * c.x - Complex.I * g.2 * c.y) by
    push_cast; ring, Complex.exp_add]
  ring

theorem edgeGen_shift (gx gy : ℝ) (t p q : R2) :
    edgeGen gx gy (shift t p) (shift t q) =
      Complex.exp (Complex.I * ((gx * t.1 + gy * t.2 : ℝ) : ℂ)) * edgeGen gx gy p q := by
  have hs : slope (shift t p) (shift t q) = slope p q := by
    simp only [slope, shift]; congr 1 <;> ring
  simp only [edgeGen, hs]
  simp only [shift]
  generalize slope p q = a
  rw [show Complex.I * ((gx * (p.1 + t.1 - a * (p.2 + t.2)) : ℝ) : ℂ) =
    Complex.I * ((gx * (t.1 - a * t.2) : ℝ) : ℂ) + Complex.I * ((gx * (p.1 - a * p.2) : ℝ) : ℂ) by
    push_cast; ring]
  rw [show Complex.I * ((gy * (q.2 + t.2) + gx * (a * (q.2 + t.2)) : ℝ) : ℂ) =
    Complex.I * ((gy * t.2 + gx * (a * t.2) : ℝ) : ℂ) + Complex.I * ((gy * q.2 + gx * (a * q.2) : ℝ) : ℂ) by
    push_cast; ring]
  rw [show Complex.I * ((gy * (p.2 + t.2) + gx * (a * (p.2 + t.2)) : ℝ) : ℂ) =
    Complex.I * ((gy * t.2 + gx * (a * t.2) : ℝ) : ℂ) + Complex.I * ((gy * p.2 + gx * (a * p.2) : ℝ) : ℂ) by
    push_cast; ring]
  rw [show Complex.I * ((gx * t.1 + gy * t.2 : ℝ) : ℂ) =
    Complex.I * ((gx * (t.1 - a * t.2) : ℝ) : ℂ) + Complex.I * ((gy * t.2 + gx * (a * t.2) : ℝ) : ℂ) by
    push_cast; ring]
  simp only [Complex.exp_add]
  ring

theorem edgeGx0_shift (gx gy : ℝ) (t p q : R2) :
    edgeGx0 gx gy (shift t p) (shift t q) =
      Complex.exp (Complex.I * ((gx * t.1 + gy * t.2 : ℝ) : ℂ)) * edgeGx0 gx gy p q := by
  have hs : slope (shift t p) (shift t q) = slope p q := by
    simp only [slope, shift]; congr 1 <;> ring
  simp only [edgeGx0, hs]
  simp only [shift]
  generalize 1 / slope p q = a
  rw [show Complex.I * ((gy * (p.2 + t.2 - a * (p.1 + t.1)) : ℝ) : ℂ) =
    Complex.I * ((gy * (t.2 - a * t.1) : ℝ) : ℂ) + Complex.I * ((gy * (p.2 - a * p.1) : ℝ) : ℂ) by
    push_cast; ring]
  rw [show Complex.I * ((gx * (q.1 + t.1) + gy * (a * (q.1 + t.1)) : ℝ) : ℂ) =
    Complex.I * ((gx * t.1 + gy * (a * t.1) : ℝ) : ℂ) + Complex.I * ((gx * q.1 + gy * (a * q.1) : ℝ) : ℂ) by
    push_cast; ring]
  rw [show Complex.I * ((gx * (p.1 + t.1) + gy * (a * (p.1 + t.1)) : ℝ) : ℂ) =
    Complex.I * ((gx * t.1 + gy * (a * t.1) : ℝ) : ℂ) + Complex.I * ((gx * p.1 + gy * (a * p.1) : ℝ) : ℂ) by
    push_cast; ring]
  rw [show Complex.I * ((gx * t.1 + gy * t.2 : ℝ) : ℂ) =
    Complex.I * ((gy * (t.2 - a * t.1) : ℝ) : ℂ) + Complex.I * ((gx * t.1 + gy * (a * t.1) : ℝ) : ℂ) by
    push_cast; ring]
  simp only [Complex.exp_add]
  ring

/-- **C16 (polygon), partial.** Moving the vertices by `t` multiplies `compute_ft(G)` by
`exp(-i G.t)`, exactly and with all regularising constants of the code, at `G = 0` and at every
`G` outside the box `|Gx|, |Gy| < 1e-10`. Missing: the non-zero `G` inside that box, where the
code returns the area and the statement is false (`C16_tiny_g_no_phase`). -/
theorem C16_poly_translate_partial (vs : List R2) (t g : R2)
    (hg : g = (0, 0) ∨ ¬ (|g.1| < 1e-10 ∧ |g.2| < 1e-10)) :
    polyFt (vs.map (shift t)) g =
      Complex.exp (-Complex.I * (g.1 * t.1 + g.2 * t.2)) * polyFt vs g := by
  have hphase : Complex.exp (-Complex.I * (g.1 * t.1 + g.2 * t.2)) =
      Complex.exp (Complex.I * ((-g.1 * t.1 + -g.2 * t.2 : ℝ) : ℂ)) := by
    congr 1; push_cast; ring
  have hshoe : shoelace (vs.map (shift t)) = shoelace vs := by
    have : shift t = rigid 1 0 t := by funext p; simp [shift, rigid]
    rw [this, shoelace_rigid 1 0 (by norm_num)]
  rcases hg with rfl | hg
  · simp [polyFt_zero, hshoe]
  · simp only [polyFt, abs_neg, edgeSumC_eq]
    rw [hphase]
    split_ifs with h1 h2
    · exact absurd ⟨h1, h2⟩ hg
    · rw [eSum_map, eSum_congr (edgeGx0_shift _ _ t), eSum_mulC]
    · rw [eSum_map, eSum_congr (edgeGen_shift _ _ t), eSum_mulC]; ring

/-- Non-vacuity: a generic vector and one with `Gx = 0` are outside the box. -/
example : ¬ (|((1 : ℝ), (2 : ℝ)).1| < 1e-10 ∧ |((1 : ℝ), (2 : ℝ)).2| < 1e-10) ∧
    ¬ (|((0 : ℝ), (2 : ℝ)).1| < 1e-10 ∧ |((0 : ℝ), (2 : ℝ)).2| < 1e-10) := by
  constructor <;> norm_num

/-- **C16 (exception).** Inside the box the phase is lost: for the unit right triangle moved by
`pi * 1e11` along x and `G = (1e-11, 0)` the phase is `-1`, but `compute_ft` does not change. -/
theorem C16_tiny_g_no_phase :
    let vs : List R2 := [(0, 0), (1, 0), (0, 1), (0, 0)]
    let t : R2 := (π * 1e11, 0)
    let g : R2 := (1e-11, 0)
    polyFt (vs.map (shift t)) g ≠
      Complex.exp (-Complex.I * (g.1 * t.1 + g.2 * t.2)) * polyFt vs g := by
  intro vs t g
  have hshoe : shoelace (vs.map (shift t)) = shoelace vs := by
    have : shift t = rigid 1 0 t := by funext p; simp [shift, rigid]
    rw [this, shoelace_rigid 1 0 (by norm_num)]
  have hv : shoelace vs = 1 / 2 := by
    simp [vs, shoelace, edgeSum, edges, crossTerm]
  have hb : |-g.1| < 1e-10 ∧ |-g.2| < 1e-10 := by
    simp only [g]; constructor
    · rw [abs_neg, abs_of_pos] <;> norm_num
    · norm_num
  have hp : Complex.exp (-Complex.I * (g.1 * t.1 + g.2 * t.2)) = -1 := by
    rw [show -Complex.I * ((g.1 : ℂ) * t.1 + g.2 * t.2) = -(π * Complex.I) by
      simp only [g, t]; push_cast; norm_num; ring_nf]
    rw [Complex.exp_neg, Complex.exp_pi_mul_I]; norm_num
  simp only [polyFt, hb.1, hb.2, if_true, hshoe, hv, hp]
  push_cast
  intro h
  have := congrArg Complex.re h
  norm_num at this

/-- **C16 (ellipse).** The transform and the indicator function of an ellipse agree on where it
is: both are those of the centred ellipse moved by the rotation of `(x_cent, y_cent)` by
`phi`. -/
theorem C16_ellipse_translate (J : ℝ → ℝ) (e : Ellipse) :
    let t : R2 := rigid (cos e.phi) (sin e.phi) (0, 0) (e.x, e.y)
    (∀ g : R2, e.ft J g = Complex.exp (-Complex.I * (g.1 * t.1 + g.2 * t.2)) *
      Ellipse.ft J { e with x := 0, y := 0 } g) ∧
    (∀ p : R2, e.isInside p ↔ Ellipse.isInside { e with x := 0, y := 0 } (p.1 - t.1, p.2 - t.2)) := by
  intro t
  have hcs : cos e.phi ^ 2 + sin e.phi ^ 2 = 1 := Real.cos_sq_add_sin_sq _
  constructor
  · intro g
    simp only [Ellipse.ft]
    rw [show -Complex.I * ((toFrame e.phi g).1 : ℂ) * (e.x : ℂ) -
        Complex.I * ((toFrame e.phi g).2 : ℂ) * (e.y : ℂ) =
      -Complex.I * (g.1 * t.1 + g.2 * t.2) by
        simp only [toFrame, t, rigid]; push_cast; ring]
    simp
    ring
  · intro p
    simp only [Ellipse.isInside]
    have e1 : (toFrame e.phi p).1 - e.x = (toFrame e.phi (p.1 - t.1, p.2 - t.2)).1 - 0 := by
      simp only [toFrame, t, rigid]; linear_combination e.x * hcs
    have e2 : (toFrame e.phi p).2 - e.y = (toFrame e.phi (p.1 - t.1, p.2 - t.2)).2 - 0 := by
      simp only [toFrame, t, rigid]; linear_combination e.y * hcs
    rw [e1, e2]

/-- **C16 (ellipse, documentation).** Hence the documented meaning of `x_cent`, `y_cent` ("center
coordinates") fails for a tilted ellipse: the point `(x_cent, y_cent)` need not even be inside. -/
theorem C16_ellipse_center_rotated :
    ¬ Ellipse.isInside ⟨1, 0, 1 / 10, 1 / 10, π / 2⟩ (1, 0) ∧
    Ellipse.isInside ⟨1, 0, 1 / 10, 1 / 10, π / 2⟩ (0, 1) := by
  constructor <;> norm_num [Ellipse.isInside, toFrame]

/-! ### C39: the potential of a quantum well -/

theorem zip_map_self (gs : List R2) (G : R2 → ℂ) :
    gs.zip (gs.map G) = gs.map fun g => (g, G g) := by
  induction gs with
  | nil => rfl
  | cons a l ih => simp [ih]

/-- One round of the loop for the single vector `G = 0`. -/
theorem excStep_zero (A V : ℝ) (z w : ℂ) (f : R2 → ℂ) (hw : (z + V * f (0, 0)) / A = w) :
    (¬ (w.re < 0 ∨ (w.re = 0 ∧ w.im < 0)) → excStep [(0, 0)] A V [z] f = .ok [w]) ∧
    ((w.re < 0 ∨ (w.re = 0 ∧ w.im < 0)) → excStep [(0, 0)] A V [z] f = .ok [w + |V|]) := by
  have h0 : isG0 (0, 0) := by simp [isG0]; norm_num
  constructor <;> intro h
  · simp only [excStep, List.map_cons, List.map_nil, List.zip_cons_cons, List.zip_nil_right,
      List.filter_cons, List.filter_nil, hw, h0, decide_true, if_true, List.head?_cons, if_neg h]
  · simp only [excStep, List.map_cons, List.map_nil, List.zip_cons_cons, List.zip_nil_right,
      List.filter_cons, List.filter_nil, hw, h0, decide_true, if_true, List.head?_cons, if_pos h]

/-- What the loop computes when no shift occurs: the `j`-th of `n` shapes is divided by the cell
area `n - j` times (counting from 0). -/
noncomputable def excActual (A V : ℝ) : List (R2 → ℂ) → R2 → ℂ
  | [], _ => 0
  | s :: l, g => V * s g / (A : ℂ) ^ (l.length + 1) + excActual A V l g

theorem excFt_actual (gs : List R2) (A V : ℝ) (hA : 0 < A) (shapes : List (R2 → ℂ))
    (hz : ∃ g ∈ gs, isG0 g)
    (hpos : ∀ s ∈ shapes, ∀ g, isG0 g → 0 ≤ V * (s g).re ∧ (s g).im = 0) :
    excFt gs A V shapes = .ok (gs.map (excActual A V shapes)) := by
  classical
  suffices H : ∀ (shapes : List (R2 → ℂ)) (F : R2 → ℂ),
      (∀ s ∈ shapes, ∀ g, isG0 g → 0 ≤ V * (s g).re ∧ (s g).im = 0) →
      (∀ g, isG0 g → 0 ≤ (F g).re ∧ (F g).im = 0) →
      shapes.foldlM (excStep gs A V) (gs.map F) =
        .ok (gs.map fun g => F g / (A : ℂ) ^ shapes.length + excActual A V shapes g) by
    have := H shapes (fun _ => 0) hpos (by simp)
    simpa [excFt] using this
  have hA' : (A : ℂ) ≠ 0 := by exact_mod_cast hA.ne'
  intro shapes
  induction shapes with
  | nil => intro F _ _; simp [pure, Except.pure, excActual]
  | cons s shapes ih =>
    intro F hs hF
    let F' : R2 → ℂ := fun g => (F g + V * s g) / A
    have hF' : ∀ g, isG0 g → 0 ≤ (F' g).re ∧ (F' g).im = 0 := by
      intro g hg
      obtain ⟨h1, h2⟩ := hs s (List.mem_cons_self ..) g hg
      obtain ⟨h3, h4⟩ := hF g hg
      simp only [F', Complex.div_ofReal_re, Complex.div_ofReal_im, Complex.add_re, Complex.add_im,
        Complex.mul_re, Complex.mul_im, Complex.ofReal_re, Complex.ofReal_im, zero_mul, sub_zero,
        add_zero]
      exact ⟨div_nonneg (by linarith) hA.le, by rw [h4, h2]; simp⟩
    have hstep : excStep gs A V (gs.map F) s = .ok (gs.map F') := by
      have hzip : ∀ (G : R2 → ℂ), gs.zip (gs.map G) = gs.map fun g => (g, G g) := zip_map_self gs
      have h1 : ((gs.zip (gs.map F)).map fun x => (x.2 + V * s x.1) / (A : ℂ)) = gs.map F' := by
        rw [hzip, List.map_map]
        apply List.map_congr_left
        intro g _
        simp [F']
      simp only [excStep, h1]
      rw [hzip, List.filter_map]
      cases hf : gs.filter ((fun x : R2 × ℂ => decide (isG0 x.1)) ∘ fun g => (g, F' g)) with
      | nil =>
        obtain ⟨g, hg, hg0⟩ := hz
        have : g ∈ gs.filter ((fun x : R2 × ℂ => decide (isG0 x.1)) ∘ fun g => (g, F' g)) :=
          List.mem_filter.2 ⟨hg, by simpa using hg0⟩
        rw [hf] at this; simp at this
      | cons g0 l =>
        have hg0 : isG0 g0 := by
          have : g0 ∈ gs.filter ((fun x : R2 × ℂ => decide (isG0 x.1)) ∘ fun g => (g, F' g)) := by
            rw [hf]; exact List.mem_cons_self ..
          simpa using (List.mem_filter.1 this).2
        obtain ⟨h3, h4⟩ := hF' g0 hg0
        simp only [List.map_cons, List.head?_cons]
        rw [if_neg]
        rintro (h | ⟨-, h⟩) <;> linarith
    rw [List.foldlM_cons, hstep]
    have := ih F' (fun s' h => hs s' (List.mem_cons_of_mem _ h)) hF'
    simp only [bind, Except.bind]
    rw [this]
    congr 1
    apply List.map_congr_left
    intro g _
    simp only [F', List.length_cons, excActual]
    field_simp
    ring

/-- **C39 (partial).** If the potential at `G = 0` never becomes negative while shapes are
accumulated, and either there is a single shape or the unit cell has area 1, the exciton
potential is the sum over the shapes of `V * FT / cell_area`. Missing: several shapes in a cell of
another area and negative potentials, where the statement is false of the code
(`C39_two_shapes_wrong`, `C39_negative_shift`). -/
theorem C39_sum_partial (gs : List R2) (A V : ℝ) (hA : 0 < A) (shapes : List (R2 → ℂ))
    (h1 : A = 1 ∨ shapes.length ≤ 1) (hz : ∃ g ∈ gs, isG0 g)
    (hpos : ∀ s ∈ shapes, ∀ g, isG0 g → 0 ≤ V * (s g).re ∧ (s g).im = 0) :
    excFt gs A V shapes = .ok (gs.map fun g => (shapes.map fun s => V * s g / (A : ℂ)).sum) := by
  rw [excFt_actual gs A V hA shapes hz hpos]
  congr 1
  apply List.map_congr_left
  intro g _
  rcases h1 with rfl | h1
  · clear hpos
    induction shapes with
    | nil => simp [excActual]
    | cons s l ih => simp only [excActual, List.map_cons, List.sum_cons, ih]; simp
  · match shapes, h1 with
    | [], _ => simp [excActual]
    | [s], _ => simp [excActual]

/-- **C39 (what is computed).** In general the `j`-th of `n` shapes (from 0) enters with
`V * FT / cell_area ^ (n - j)`. -/
theorem C39_actual_weights (gs : List R2) (A V : ℝ) (hA : 0 < A) (shapes : List (R2 → ℂ))
    (hz : ∃ g ∈ gs, isG0 g)
    (hpos : ∀ s ∈ shapes, ∀ g, isG0 g → 0 ≤ V * (s g).re ∧ (s g).im = 0) :
    excFt gs A V shapes = .ok (gs.map fun g =>
      ((shapes.mapIdx fun j s => V * s g / (A : ℂ) ^ (shapes.length - j)).sum)) := by
  rw [excFt_actual gs A V hA shapes hz hpos]
  congr 1
  apply List.map_congr_left
  intro g _
  clear hpos
  induction shapes with
  | nil => simp [excActual]
  | cons s l ih =>
    simp only [excActual, List.mapIdx_cons, List.sum_cons, ih, List.length_cons, Nat.sub_zero]
    congr 2
    congr 1
    funext j s
    congr 2
    omega

/-- Non-vacuity of C39: the zero vector and a shape with a positive area. -/
example : (∃ g ∈ [((0 : ℝ), (0 : ℝ)), (1, 0)], isG0 g) ∧
    ((2 : ℝ) = 1 ∨ [fun _ : R2 => (1 / 4 : ℂ)].length ≤ 1) ∧
    ∀ s ∈ [fun _ : R2 => (1 / 4 : ℂ)], ∀ g, isG0 g → 0 ≤ 2 * (s g).re ∧ (s g).im = 0 := by
  refine ⟨⟨(0, 0), by simp, by simp [isG0]; norm_num⟩, by simp, ?_⟩
  intro s hs g _
  simp at hs; subst hs
  norm_num

/-- **C39 (negation).** In a cell of area 2 two identical shapes of area 1 do not give the sum of
their potentials at `G = 0` (which would be `V`): the code divides the first one by the cell area
twice. -/
theorem C39_two_shapes_wrong :
    excFt [(0, 0)] 2 1 [fun _ => 1, fun _ => 1] = .ok [3 / 4] ∧
    ((3 / 4 : ℂ) ≠ ([fun _ : R2 => (1 : ℂ), fun _ => 1].map fun s => 1 * s (0, 0) / 2).sum) := by
  constructor
  · have h1 := (excStep_zero 2 1 0 (1 / 2) (fun _ => 1) (by norm_num)).1 (by norm_num)
    have h2 := (excStep_zero 2 1 (1 / 2) (3 / 4) (fun _ => 1) (by norm_num)).1 (by norm_num)
    simp only [excFt, List.foldlM_cons, List.foldlM_nil, List.map_cons, List.map_nil, h1, bind,
      Except.bind, h2, pure, Except.pure]
  · norm_num

/-- **C39 (negation).** For an attractive potential the zero component is shifted by `|V|` (an
intended energy offset), so it is not the sum either, even for a single shape. -/
theorem C39_negative_shift :
    excFt [(0, 0)] 1 (-1) [fun _ => 1 / 4] = .ok [3 / 4] ∧ (3 / 4 : ℂ) ≠ -1 * (1 / 4) / 1 := by
  constructor
  · have h1 := (excStep_zero 1 (-1) 0 (-1 / 4) (fun _ => 1 / 4) (by norm_num)).2 (by norm_num)
    simp only [excFt, List.foldlM_cons, List.foldlM_nil, List.map_cons, List.map_nil, h1, bind,
      Except.bind, pure, Except.pure]
    norm_num
  · norm_num

/-! ### C62: shapes given by a Fourier series of the radius -/

theorem chain_range (f : R2 → R2 → ℝ) (n : Nat) (V : Nat → R2) :
    chain f (V 0) ((List.range n).map fun (i : Nat) => V (i + 1)) =
      ((List.range n).map fun (i : Nat) => f (V i) (V (i + 1))).sum := by
  induction n generalizing V with
  | zero => simp [chain]
  | succ n ih =>
    rw [List.range_succ_eq_map]
    simp only [List.map_cons, List.map_map, chain, List.sum_cons]
    congr 1
    exact ih fun i => V (i + 1)

theorem eSum_range (f : R2 → R2 → ℝ) (n : Nat) (V : Nat → R2) :
    eSum f ((List.range (n + 1)).map V) =
      ((List.range n).map fun (i : Nat) => f (V i) (V (i + 1))).sum + f (V n) (V 0) := by
  have h : (List.range (n + 1)).map V = V 0 :: (List.range n).map fun (i : Nat) => V (i + 1) := by
    rw [List.range_succ_eq_map]; simp
  have hl : (V 0 :: (List.range n).map fun (i : Nat) => V (i + 1)).getLast (by simp) = V n := by
    cases n with
    | zero => simp
    | succ n => rw [List.getLast_cons (by simp)]; simp [List.getLast_map, List.getLast_range]
  rw [h, eSum_chain, chain_range, hl]

theorem fourierR_periodic (fas fbs : List ℝ) (t : ℝ) :
    fourierR fas fbs (t + 2 * π) = fourierR fas fbs t := by
  unfold fourierR
  have hc : ∀ n : Nat, cos ((n + 1 : ℝ) * (t + 2 * π)) = cos ((n + 1 : ℝ) * t) := by
    intro n
    have := Real.cos_add_nat_mul_two_pi ((n + 1 : ℝ) * t) (n + 1)
    rw [← this]; congr 1; push_cast; ring
  have hs : ∀ n : Nat, sin ((n + 1 : ℝ) * (t + 2 * π)) = sin ((n + 1 : ℝ) * t) := by
    intro n
    have := Real.sin_add_nat_mul_two_pi ((n + 1 : ℝ) * t) (n + 1)
    rw [← this]; congr 1; push_cast; ring
  simp only [hc, hs]

/-- **C62.** `FourierShape` with a non-empty coefficient list and `npts >= 1` raises `ValueError`
exactly when the radius is negative at one of the sampled angles `2 pi i / npts`; otherwise it
succeeds (the orientation check of `Poly` never fires), its vertices are at distance `R(phi)` from
the given centre in direction `phi`, and its area is that of the sampled polygon,
`sin(2 pi / npts) / 2 * sum_i R_i R_{i+1}`. -/
theorem C62_fourier_shape (x y : ℝ) (fas fbs : List ℝ) (hne : fas ≠ []) (npts : Nat)
    (hn : 1 ≤ npts) :
    let R : Nat → ℝ := fun i => fourierR fas fbs (i * (2 * π / npts))
    (fourierShape x y fas fbs npts = .error .valueError ↔ ∃ i, i ≤ npts ∧ R i < 0) ∧
    ((∀ i ≤ npts, 0 ≤ R i) → ∃ p, fourierShape x y fas fbs npts = .ok p ∧
      (∀ (i : Nat), i ≤ npts → p.verts[i]? = some
        (x + R i * cos (i * (2 * π / npts)), y + R i * sin (i * (2 * π / npts)))) ∧
      p.area = sin (2 * π / npts) / 2 *
        ((List.range npts).map fun (i : Nat) => R i * R (i + 1)).sum) := by
  intro R
  have hn0 : (npts : ℝ) ≠ 0 := by exact_mod_cast (by omega : npts ≠ 0)
  have hex : (∃ phi ∈ fourierPhis npts, fourierR fas fbs phi < 0) ↔ ∃ i, i ≤ npts ∧ R i < 0 := by
    simp only [fourierPhis, List.mem_map, List.mem_range]
    constructor
    · rintro ⟨_, ⟨i, hi, rfl⟩, h⟩; exact ⟨i, by omega, h⟩
    · rintro ⟨i, hi, h⟩; exact ⟨_, ⟨i, by omega, rfl⟩, h⟩
  let V : Nat → R2 := fun i => (R i * cos (i * (2 * π / npts)) + x, R i * sin (i * (2 * π / npts)) + y)
  have hverts : ((fourierPhis npts).map fun phi =>
      (fourierR fas fbs phi * cos phi + x, fourierR fas fbs phi * sin phi + y)) =
      (List.range (npts + 1)).map V := by
    simp only [fourierPhis, List.map_map]; rfl
  -- the polygon closes on itself
  have hRper : R npts = R 0 := by
    simp only [R]
    rw [show ((npts : ℝ) * (2 * π / npts)) = (0 : ℝ) + 2 * π by field_simp; ring,
      fourierR_periodic]
    congr 1; push_cast; ring
  have hVn : V npts = V 0 := by
    simp only [V, hRper, Prod.mk.injEq]
    have e1 : ((npts : ℝ) * (2 * π / npts)) = 2 * π := by field_simp
    rw [e1]; simp
  -- its area
  have harea : shoelace ((List.range (npts + 1)).map V) = sin (2 * π / npts) / 2 *
        ((List.range npts).map fun (i : Nat) => R i * R (i + 1)).sum := by
    let W : Nat → R2 := fun i => (R i * cos (i * (2 * π / npts)), R i * sin (i * (2 * π / npts)))
    have hVW : (List.range (npts + 1)).map V = ((List.range (npts + 1)).map W).map (rigid 1 0 (x, y)) := by
      rw [List.map_map]
      apply List.map_congr_left
      intro i _
      simp [V, W, rigid]
    have hWn : W npts = W 0 := by
      have e1 : ((npts : ℝ) * (2 * π / npts)) = 2 * π := by field_simp
      simp only [W, hRper, e1, Prod.mk.injEq]; simp
    rw [hVW, shoelace_rigid 1 0 (by norm_num), shoelace_eq, eSum_range, hWn, crossTerm_self, add_zero]
    rw [show (fun (i : Nat) => crossTerm (W i) (W (i + 1))) = fun (i : Nat) =>
        sin (2 * π / npts) * (R i * R (i + 1)) by
      funext i
      simp only [crossTerm, W]
      have : sin (2 * π / npts) = sin (((i + 1 : Nat) : ℝ) * (2 * π / npts) - i * (2 * π / npts)) := by
        congr 1; push_cast; ring
      rw [this, Real.sin_sub]; ring]
    rw [List.sum_map_mul_left]; ring
  constructor
  · rw [← hex]
    unfold fourierShape
    rw [if_neg hne]
    by_cases h : ∃ phi ∈ fourierPhis npts, fourierR fas fbs phi < 0
    · rw [if_pos h]; simp [h]
    · rw [if_neg h]
      simp only [h, iff_false]
      rw [hverts]
      intro hc
      have hv0 : (List.range (npts + 1)).map V = V 0 :: (List.range npts).map fun (i : Nat) => V (i + 1) := by
        rw [List.range_succ_eq_map]; simp
      rw [hv0] at hc
      have := (C13_rejects_clockwise _ _).1.1 hc
      rw [← shoelace_fan, ← hv0, harea] at this
      have hRnn : ∀ i ≤ npts, 0 ≤ R i := by
        intro i hi
        by_contra hneg
        exact h (hex.2 ⟨i, hi, by linarith⟩)
      have hsum : 0 ≤ ((List.range npts).map fun (i : Nat) => R i * R (i + 1)).sum := by
        apply List.sum_nonneg
        intro z hz
        obtain ⟨i, hi, rfl⟩ := List.mem_map.1 hz
        rw [List.mem_range] at hi
        exact mul_nonneg (hRnn i (by omega)) (hRnn (i + 1) (by omega))
      have hsin : 0 ≤ sin (2 * π / npts) := by
        rcases Nat.lt_or_ge npts 2 with h2 | h2
        · have : npts = 1 := by omega
          subst this; simp
        · apply Real.sin_nonneg_of_nonneg_of_le_pi (by positivity)
          rw [div_le_iff₀ (by positivity)]
          have : (2 : ℝ) ≤ npts := by exact_mod_cast h2
          nlinarith [Real.pi_pos]
      have := mul_nonneg (div_nonneg hsin (by norm_num : (0:ℝ) ≤ 2)) hsum
      linarith
  · intro hRnn
    have hno : ¬ ∃ phi ∈ fourierPhis npts, fourierR fas fbs phi < 0 := by
      rw [hex]; rintro ⟨i, hi, h⟩; linarith [hRnn i hi]
    have hv0 : (List.range (npts + 1)).map V = V 0 :: (List.range npts).map fun (i : Nat) => V (i + 1) := by
      rw [List.range_succ_eq_map]; simp
    have hsum : 0 ≤ ((List.range npts).map fun (i : Nat) => R i * R (i + 1)).sum := by
      apply List.sum_nonneg
      intro z hz
      obtain ⟨i, hi, rfl⟩ := List.mem_map.1 hz
      rw [List.mem_range] at hi
      exact mul_nonneg (hRnn i (by omega)) (hRnn (i + 1) (by omega))
    have hsin : 0 ≤ sin (2 * π / npts) := by
      rcases Nat.lt_or_ge npts 2 with h2 | h2
      · have : npts = 1 := by omega
        subst this; simp
      · apply Real.sin_nonneg_of_nonneg_of_le_pi (by positivity)
        rw [div_le_iff₀ (by positivity)]
        have : (2 : ℝ) ≤ npts := by exact_mod_cast h2
        nlinarith [Real.pi_pos]
    have hnn := mul_nonneg (div_nonneg hsin (by norm_num : (0:ℝ) ≤ 2)) hsum
    obtain ⟨p, hp⟩ := (C13_rejects_clockwise (V 0) ((List.range npts).map fun (i : Nat) => V (i + 1))).2.1.2
      (by rw [← shoelace_fan, ← hv0, harea]; exact hnn)
    have hp' : fourierShape x y fas fbs npts = .ok p := by
      unfold fourierShape
      rw [if_neg hne, if_neg hno, hverts, hv0]; exact hp
    obtain ⟨v, vs, h1, hv, ha, -⟩ := C13_area _ _ hp
    refine ⟨p, hp', ?_, ?_⟩
    · intro i hi
      rw [hv, ← hv0, List.getElem?_append_left (by simp; omega), List.getElem?_map,
        List.getElem?_range (by omega)]
      simp only [Option.map_some, V, Option.some.injEq, Prod.mk.injEq]
      constructor <;> ring
    · cases h1
      rw [ha, ← shoelace_fan, ← hv0, harea]

theorem mapIdx_sum (l : List ℝ) (F : Nat → ℝ → ℝ) :
    (l.mapIdx fun n c => F (n + 1) c).sum = ∑ n ∈ Finset.Icc 1 l.length, F n (l.getD (n - 1) 0) := by
  have h1 : ∀ k, Finset.Icc 1 k = Finset.Ico 1 (k + 1) := by intro k; ext; simp
  rw [h1, Finset.sum_Ico_eq_sum_range]
  simp only [Nat.add_sub_cancel, Nat.add_sub_cancel_left]
  clear h1
  induction l generalizing F with
  | nil => simp
  | cons a l ih =>
    rw [List.mapIdx_cons, List.sum_cons, ih fun n c => F (n + 1) c, List.length_cons,
      Finset.sum_range_succ', add_comm]
    simp only [List.getD_cons_succ, List.getD_cons_zero]
    congr 1

/-- **C62 (radius).** The radius at angle `phi` is the documented series
`a0/2 + sum_n a_n cos(n phi) + sum_n b_n sin(n phi)`, `f_as = [a0, a1, ...]`,
`f_bs = [b1, b2, ...]`. -/
theorem C62_radius (fas fbs : List ℝ) (phi : ℝ) :
    fourierR fas fbs phi = fas.getD 0 0 / 2 +
      ∑ n ∈ Finset.Icc 1 (fas.length - 1), fas.getD n 0 * cos (n * phi) +
      ∑ n ∈ Finset.Icc 1 fbs.length, fbs.getD (n - 1) 0 * sin (n * phi) := by
  unfold fourierR
  have h1 := mapIdx_sum fas.tail fun n c => c * cos ((n : ℝ) * phi)
  have h2 := mapIdx_sum fbs fun n c => c * sin ((n : ℝ) * phi)
  push_cast at h1 h2
  rw [h1, h2, List.length_tail]
  congr 1
  congr 1
  · congr 1; cases fas <;> simp
  · apply Finset.sum_congr rfl
    intro n hn
    simp only [Finset.mem_Icc] at hn
    cases fas with
    | nil => simp
    | cons a l =>
      obtain ⟨m, rfl⟩ : ∃ m, n = m + 1 := ⟨n - 1, by omega⟩
      simp

/-- Non-vacuity of C62: the discretised disc of radius 1 (`f_as = [2]`) with 4 points. -/
example : ∀ i ≤ 4, 0 ≤ fourierR [2] [] ((i : Nat) * (2 * π / (4 : Nat))) := by
  intro i _; norm_num [fourierR]

end Legume
