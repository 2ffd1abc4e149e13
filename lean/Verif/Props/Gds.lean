import Mathlib.Tactic.Linarith
import Mathlib.Tactic.FieldSimp
import Verif.Model.Gds
import Verif.Props.Shapes
import Verif.Props.Lattice

/-! # C89: export to GDS -/
namespace Legume

open Real Spec

theorem rotatePt_rigid (a : ℝ) (c : R2) : ∃ t, rotatePt a c = rigid (cos a) (sin a) t := by
  refine ⟨(c.1 - (cos a * c.1 - sin a * c.2), c.2 - (sin a * c.1 + cos a * c.2)), ?_⟩
  funext v
  simp only [rotatePt, rigid, Prod.mk.injEq]
  constructor <;> ring

theorem rigid_comp (c s c' s' : ℝ) (t t' : R2) :
    (rigid c' s' t') ∘ (rigid c s t) = rigid (c' * c - s' * s) (s' * c + c' * s)
      (c' * t.1 - s' * t.2 + t'.1, s' * t.1 + c' * t.2 + t'.2) := by
  funext v
  simp only [Function.comp, rigid, Prod.mk.injEq]
  constructor <;> ring

/-- **C89 (polygons).** A polygon created from the vertices `l` and then rotated any number of times is
exported with exactly as many vertices, which are the images of `l` under a rotation and translation, on the
layer with its number; their signed area is the area of the shape. -/
theorem C89_polygon (l : List R2) (p : Poly) (h : Poly.new l = .ok p) (angles : List ℝ) (i : ℕ) :
    ∃ (c s : ℝ) (t : R2), c ^ 2 + s ^ 2 = 1 ∧
      (∀ q, q = angles.foldl Poly.rotate p → gdsShape i (.poly q) = .ok (.polygon (l.map (rigid c s t)) i 1) ∧
        gdsShape i (.square q) = .ok (.polygon (l.map (rigid c s t)) i 1) ∧
        gdsShape i (.hexagon q) = .ok (.polygon (l.map (rigid c s t)) i 1) ∧
        ∃ v vs, l.map (rigid c s t) = v :: vs ∧ fanArea v vs = q.area) ∧
      (angles = [] → l.map (rigid c s t) = l) := by
  obtain ⟨v, vs, rfl, hv, ha, h0⟩ := C13_area l p h
  have key : ∀ angles : List ℝ, ∃ (c s : ℝ) (t : R2), c ^ 2 + s ^ 2 = 1 ∧
      (angles.foldl Poly.rotate p).verts = ((v :: vs) ++ [v]).map (rigid c s t) ∧
      (angles.foldl Poly.rotate p).area = p.area ∧ (angles = [] → c = 1 ∧ s = 0 ∧ t = (0, 0)) := by
    intro angles
    induction angles using List.reverseRecOn with
    | nil =>
      refine ⟨1, 0, (0, 0), by norm_num, ?_, rfl, fun _ => ⟨rfl, rfl, rfl⟩⟩
      have : rigid 1 0 ((0, 0) : ℝ × ℝ) = id := by funext v; simp [rigid]
      rw [this, List.map_id]; exact hv
    | append_singleton as a ih =>
      obtain ⟨c, s, t, hcs, hvs, har, -⟩ := ih
      rw [List.foldl_append]
      simp only [List.foldl_cons, List.foldl_nil]
      obtain ⟨t', ht'⟩ := rotatePt_rigid a
        (centerOfMass (as.foldl Poly.rotate p).verts (as.foldl Poly.rotate p).area)
      refine ⟨cos a * c - sin a * s, sin a * c + cos a * s,
        (cos a * t.1 - sin a * t.2 + t'.1, sin a * t.1 + cos a * t.2 + t'.2), ?_, ?_, har, by simp⟩
      · have := Real.sin_sq_add_cos_sq a
        linear_combination (cos a ^ 2 + sin a ^ 2) * hcs + this
      · rw [← rigid_comp, ← List.map_map, ← hvs, ← ht']; rfl
  obtain ⟨c, s, t, hcs, hvs, har, hnil⟩ := key angles
  refine ⟨c, s, t, hcs, ?_, ?_⟩
  · rintro q rfl
    have hd : (angles.foldl Poly.rotate p).verts.dropLast = (v :: vs).map (rigid c s t) := by
      rw [hvs, List.map_append, List.map_singleton, List.dropLast_concat]
    refine ⟨by simp [gdsShape, hd], by simp [gdsShape, hd], by simp [gdsShape, hd],
      rigid c s t v, vs.map (rigid c s t), rfl, ?_⟩
    rw [har, ha, ← shoelace_fan, ← shoelace_fan, ← List.map_cons, shoelace_rigid c s hcs]
  · intro hn
    obtain ⟨rfl, rfl, rfl⟩ := hnil hn
    have : rigid 1 0 ((0, 0) : ℝ × ℝ) = id := by funext v; simp [rigid]
    rw [this, List.map_id]

/-- A triangle of positive orientation. -/
example : ∃ p, Poly.new [(0, 0), (1, 0), (0, 1)] = .ok p :=
  ((C13_rejects_clockwise (0, 0) [(1, 0), (0, 1)]).2.1).2 (by norm_num [fanArea, triArea])

/-- Whether a shape can be exported. -/
def Spec.Exportable : GdsShape → Prop
  | .other => False
  | _ => True

/-- The layer number of an exported element. -/
def Spec.elemLayer : GdsElem → ℕ
  | .polygon _ i _ => i
  | .round _ _ i _ => i

/-- The element that stands for a shape: a disc of the same centre and radius, or a polygon with the same
vertices (which the code stores with the first one repeated at the end). -/
def Spec.Exported (i : ℕ) : GdsShape → GdsElem → Prop
  | .circle c, e => e = .round (c.x, c.y) c.r i 1
  | .poly p, e => ∃ l, e = .polygon l i 1 ∧ l = p.verts.take (p.verts.length - 1)
  | .square p, e => ∃ l, e = .polygon l i 1 ∧ l = p.verts.take (p.verts.length - 1)
  | .hexagon p, e => ∃ l, e = .polygon l i 1 ∧ l = p.verts.take (p.verts.length - 1)
  | .other, _ => False

theorem gdsShape_exported (i : ℕ) (s : GdsShape) (e : GdsElem) (h : gdsShape i s = .ok e) : Exported i s e := by
  cases s <;> simp_all [gdsShape, Exported, List.dropLast_eq_take]

theorem gdsShape_ok (i : ℕ) (s : GdsShape) : (∃ e, gdsShape i s = .ok e ∧ elemLayer e = i) ↔ Exportable s := by
  cases s <;> simp [gdsShape, Exportable, elemLayer]

theorem gdsShape_err (i : ℕ) (s : GdsShape) (h : ¬ Exportable s) : gdsShape i s = .error .runtimeError := by
  cases s <;> simp_all [gdsShape, Exportable]

theorem gdsMap (i : ℕ) (l : List GdsShape) :
    ((∀ s ∈ l, Exportable s) → ∃ r, l.mapM (gdsShape i) = .ok r ∧ r.length = l.length ∧
      ∀ (j : ℕ) (s : GdsShape), l[j]? = some s → ∃ e, r[j]? = some e ∧ gdsShape i s = .ok e) ∧
    (¬ (∀ s ∈ l, Exportable s) → l.mapM (gdsShape i) = .error .runtimeError) := by
  induction l with
  | nil => exact ⟨fun _ => ⟨[], rfl, rfl, by simp⟩, by simp⟩
  | cons a l ih =>
    by_cases ha : Exportable a
    · obtain ⟨e, he, -⟩ := (gdsShape_ok i a).2 ha
      constructor
      · intro h
        obtain ⟨r, hr, hl, hg⟩ := ih.1 fun s hs => h s (by simp [hs])
        refine ⟨e :: r, by simp [List.mapM_cons, he, hr, bind, Except.bind, pure, Except.pure], by simp [hl], ?_⟩
        intro j s hj
        cases j with
        | zero => simp at hj; subst hj; exact ⟨e, rfl, he⟩
        | succ j => simpa using hg j s (by simpa using hj)
      · intro h
        have : ¬ ∀ s ∈ l, Exportable s := fun hall => h (by simp; exact ⟨ha, hall⟩)
        simp [List.mapM_cons, he, ih.2 this, bind, Except.bind]
    · refine ⟨fun h => absurd (h a (by simp)) ha, fun _ => ?_⟩
      simp [List.mapM_cons, gdsShape_err i a ha, bind, Except.bind]

theorem gdsLayers_spec (ls : List (List GdsShape)) : ∀ i,
    ((∀ l ∈ ls, ∀ s ∈ l, Exportable s) → ∃ r, gdsLayers i ls = .ok r ∧ r.length = (ls.map List.length).sum ∧
      ∀ (k j : ℕ) (l : List GdsShape) (s : GdsShape), ls[k]? = some l → l[j]? = some s →
        ∃ e, r[((ls.take k).map List.length).sum + j]? = some e ∧ gdsShape (i + k) s = .ok e) ∧
    (¬ (∀ l ∈ ls, ∀ s ∈ l, Exportable s) → gdsLayers i ls = .error .runtimeError) := by
  induction ls with
  | nil => intro i; exact ⟨fun _ => ⟨[], rfl, rfl, by simp⟩, by simp⟩
  | cons a ls ih =>
    intro i
    by_cases ha : ∀ s ∈ a, Exportable s
    · obtain ⟨r, hr, hl, hg⟩ := (gdsMap i a).1 ha
      constructor
      · intro h
        obtain ⟨r', hr', hl', hg'⟩ := (ih (i + 1)).1 fun l hl => h l (by simp [hl])
        refine ⟨r ++ r', by simp [gdsLayers, hr, hr', bind, Except.bind, pure, Except.pure], by simp [hl, hl'], ?_⟩
        intro k j l s hk hj
        cases k with
        | zero =>
          simp at hk; subst hk
          obtain ⟨e, he, hs⟩ := hg j s hj
          refine ⟨e, ?_, by simpa using hs⟩
          have : j < r.length := by
            by_contra hc
            rw [List.getElem?_eq_none (by omega)] at he; cases he
          simp [List.getElem?_append_left this, he]
        | succ k =>
          simp at hk
          obtain ⟨e, he, hs⟩ := hg' k j l s hk hj
          refine ⟨e, ?_, by rw [show i + (k + 1) = i + 1 + k by omega]; exact hs⟩
          rw [List.getElem?_append_right (by simp [hl]; omega)]
          rw [← he]
          congr 1
          simp [hl]; omega
      · intro h
        have : ¬ ∀ l ∈ ls, ∀ s ∈ l, Exportable s := fun hall => h (by
          intro l hl
          rcases List.mem_cons.1 hl with rfl | hl
          · exact ha
          · exact hall l hl)
        simp [gdsLayers, hr, (ih (i + 1)).2 this, bind, Except.bind]
    · refine ⟨fun h => absurd (h a (by simp)) ha, fun _ => ?_⟩
      simp [gdsLayers, (gdsMap i a).2 ha, bind, Except.bind]

/-- **C89 (every shape once, on its layer).** If every shape of every layer is a polygon, square, hexagon or
circle, the file contains exactly one element per shape, in the order of layers and shapes, each on the layer
with the index of its layer, with the centre and radius or the vertices of its shape. If some shape is an ellipse, a Fourier shape or of any other type, `RuntimeError`
is raised and no file is written. -/
theorem C89_layers (layers : List (List GdsShape)) :
    ((∀ l ∈ layers, ∀ s ∈ l, Exportable s) →
      ∃ r, generateGds layers = .ok r ∧ r.length = (layers.map List.length).sum ∧
        ∀ (k j : ℕ) (l : List GdsShape) (s : GdsShape), layers[k]? = some l → l[j]? = some s →
          ∃ e, r[((layers.take k).map List.length).sum + j]? = some e ∧ Exported k s e ∧ elemLayer e = k) ∧
    (¬ (∀ l ∈ layers, ∀ s ∈ l, Exportable s) → generateGds layers = .error .runtimeError) := by
  refine ⟨fun h => ?_, (gdsLayers_spec layers 0).2⟩
  obtain ⟨r, h1, h2, h3⟩ := (gdsLayers_spec layers 0).1 h
  refine ⟨r, h1, h2, fun k j l s hk hj => ?_⟩
  obtain ⟨e, he, hs⟩ := h3 k j l s hk hj
  rw [Nat.zero_add] at hs
  obtain ⟨e', he', hl'⟩ := (gdsShape_ok k s).2 (h l (List.mem_of_getElem? hk) s (List.mem_of_getElem? hj))
  rw [hs] at he'; cases he'
  exact ⟨e, he, gdsShape_exported k s e hs, hl'⟩

/-- Two layers, the second with two circles; and a layer with an ellipse. -/
example : (∀ l ∈ [[GdsShape.circle ⟨0, 0, 1⟩], [.circle ⟨0, 0, 1⟩, .circle ⟨1, 1, 1⟩]], ∀ s ∈ l, Exportable s) ∧
    generateGds [[GdsShape.circle ⟨0, 0, 1⟩, .other]] = .error .runtimeError := by
  refine ⟨by simp [Exportable], (C89_layers _).2 ?_⟩
  simp [Exportable]

/-- **C89 (raster).** The contours of a raster are mapped into the unit cell centred at the origin, the
corners of the raster to the corners of the cell, and the outline added to the file is that cell, of the
area of the lattice; only with `cell_bound=False`, `NameError` is raised. -/
theorem C89_raster (L : Lattice) (n0 n1 : ℕ) (h0 : 2 ≤ n0) (h1 : 2 ≤ n1) (contours : List (List R2)) :
    (∃ r, generateGdsRaster L n0 n1 contours true = .ok r ∧ r.length = contours.length + 1 ∧
      r.getLast? = some (.polygon (cellBound L) 0 1) ∧
      ∀ (i : ℕ) (c : List R2), contours[i]? = some c → ∃ pts, r[i]? = some (.polygon pts 0 0) ∧
        pts.length = c.length ∧ ∀ (j : ℕ) (q : R2), c[j]? = some q →
          0 ≤ q.1 → q.1 ≤ (n0 : ℝ) - 1 → 0 ≤ q.2 → q.2 ≤ (n1 : ℝ) - 1 →
            ∃ u v : ℝ, |u| ≤ 1 / 2 ∧ |v| ≤ 1 / 2 ∧
              pts[j]? = some (u * L.a1.1 + v * L.a2.1, u * L.a1.2 + v * L.a2.2)) ∧
    cellBound L = [rasterPoint L n0 n1 (0, 0), rasterPoint L n0 n1 (0, n1 - 1),
      rasterPoint L n0 n1 (n0 - 1, n1 - 1), rasterPoint L n0 n1 (n0 - 1, 0)] ∧
    |shoelace (cellBound L)| = |L.a1.1 * L.a2.2 - L.a1.2 * L.a2.1| ∧
    generateGdsRaster L n0 n1 contours false = .error .nameError := by
  have hn0 : (0 : ℝ) < (n0 : ℝ) - 1 := by
    have : (2 : ℝ) ≤ n0 := by exact_mod_cast h0
    linarith
  have hn1 : (0 : ℝ) < (n1 : ℝ) - 1 := by
    have : (2 : ℝ) ≤ n1 := by exact_mod_cast h1
    linarith
  refine ⟨⟨_, rfl, by simp, by simp, ?_⟩, ?_, ?_, rfl⟩
  · intro i c hc
    have hi : i < contours.length := by
      by_contra hcon
      rw [List.getElem?_eq_none (by omega)] at hc; cases hc
    refine ⟨c.map (rasterPoint L n0 n1), ?_, by simp, ?_⟩
    · rw [List.getElem?_append_left (by simpa using hi), List.getElem?_map, hc]; rfl
    · intro j q hq a b c' d
      refine ⟨q.1 / ((n0 : ℝ) - 1) - 0.5, q.2 / ((n1 : ℝ) - 1) - 0.5, ?_, ?_, ?_⟩
      · have h1 : 0 ≤ q.1 / ((n0 : ℝ) - 1) := by positivity
        have h2 : q.1 / ((n0 : ℝ) - 1) ≤ 1 := by rw [div_le_one hn0]; exact b
        rw [abs_le]; constructor <;> norm_num <;> linarith
      · have h1 : 0 ≤ q.2 / ((n1 : ℝ) - 1) := by positivity
        have h2 : q.2 / ((n1 : ℝ) - 1) ≤ 1 := by rw [div_le_one hn1]; exact d
        rw [abs_le]; constructor <;> norm_num <;> linarith
      · rw [List.getElem?_map, hq]
        simp only [Option.map_some, rasterPoint, cellMap, Option.some.injEq, Prod.mk.injEq]
        constructor <;> ring
  · simp only [cellBound, rasterPoint, List.map_cons, List.map_nil, div_self hn0.ne', div_self hn1.ne', zero_div]
    norm_num
  · have : shoelace (cellBound L) = -(L.a1.1 * L.a2.2 - L.a1.2 * L.a2.1) := by
      simp [shoelace, edgeSum, edges, cellBound, cellMap, crossTerm]
      ring
    rw [this, abs_neg]

end Legume
