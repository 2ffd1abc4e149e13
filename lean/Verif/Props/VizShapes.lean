import Verif.Model.VizShapes
import Verif.Spec.VizShapes
import Verif.Props.BzAxis
import Verif.Props.VizEps
import Verif.Props.Shapes
import Verif.Props.GuidedNorm

/-!
# C124, C125: drawing outlines and printing structures
-/
namespace Legume

open Real
open Spec

/-! ## C124 -/

/-- The broken line which returns to its first point is the boundary of the polygon. -/
theorem path_closed (v : R2) (t : List R2) (p : R2) : OnPath (v :: t ++ [v]) p ↔ OnPolygon (v :: t) p := by
  have hlen : (v :: t ++ [v]).length = t.length + 2 := by simp
  have key : ∀ (i : ℕ), i < t.length + 1 → (v :: t ++ [v])[i]? = (v :: t)[i]? ∧
      (v :: t ++ [v])[i + 1]? = (v :: t)[(i + 1) % (v :: t).length]? := by
    intro i hi
    refine ⟨List.getElem?_append_left (by simpa using hi), ?_⟩
    rcases Nat.lt_or_ge (i + 1) (t.length + 1) with h | h
    · rw [List.getElem?_append_left (by simpa using h), List.length_cons, Nat.mod_eq_of_lt h]
    · have : i = t.length := by omega
      subst this
      rw [List.length_cons, Nat.mod_self, List.getElem?_append_right (by simp)]
      simp
  constructor
  · rintro ⟨i, a, b, ha, hb, hp⟩
    have hi : i < t.length + 1 := by
      have := (List.getElem?_eq_some_iff.mp hb).1
      simp only [hlen] at this
      omega
    obtain ⟨k1, k2⟩ := key i hi
    exact ⟨i, a, b, k1 ▸ ha, k2 ▸ hb, hp⟩
  · rintro ⟨i, a, b, ha, hb, hp⟩
    have hi : i < t.length + 1 := by
      have := (List.getElem?_eq_some_iff.mp ha).1
      simpa using this
    obtain ⟨k1, k2⟩ := key i hi
    exact ⟨i, a, b, k1.symm ▸ ha, k2.symm ▸ hb, hp⟩

theorem between_shift (a b p t : R2) :
    between (a.1 + t.1, a.2 + t.2) (b.1 + t.1, b.2 + t.2) p ↔ between a b (p.1 - t.1, p.2 - t.2) := by
  unfold between
  constructor
  · rintro ⟨s, h0, h1, h⟩
    refine ⟨s, h0, h1, ?_⟩
    rw [h]
    ext <;> simp <;> ring
  · rintro ⟨s, h0, h1, h⟩
    refine ⟨s, h0, h1, ?_⟩
    have e1 := congrArg Prod.fst h
    have e2 := congrArg Prod.snd h
    simp only at e1 e2
    ext <;> simp <;> linarith

theorem path_shift (l : List R2) (t p : R2) :
    OnPath (l.map fun v => (v.1 + t.1, v.2 + t.2)) p ↔ OnPath l (p.1 - t.1, p.2 - t.2) := by
  unfold OnPath
  constructor
  · rintro ⟨i, a, b, ha, hb, hp⟩
    rw [List.getElem?_map, Option.map_eq_some_iff] at ha hb
    obtain ⟨a', ha', rfl⟩ := ha
    obtain ⟨b', hb', rfl⟩ := hb
    exact ⟨i, a', b', ha', hb', (between_shift a' b' p t).mp hp⟩
  · rintro ⟨i, a, b, ha, hb, hp⟩
    exact ⟨i, _, _, by rw [List.getElem?_map, ha]; rfl, by rw [List.getElem?_map, hb]; rfl, (between_shift a b p t).mpr hp⟩

theorem plotCircle_on (x y r : ℝ) (npts : ℕ) : ∀ p ∈ plotCircle x y r npts, OnCircle (x, y) r p := by
  intro p hp
  obtain ⟨phi, -, rfl⟩ := List.mem_map.mp hp
  unfold OnCircle
  simp only
  linear_combination r ^ 2 * sin_sq_add_cos_sq phi

theorem plotCircle_closed (x y r : ℝ) (npts : ℕ) (h : 2 ≤ npts) :
    (plotCircle x y r npts).head? = (plotCircle x y r npts).getLast? := by
  have hl : (plotCircle x y r npts).length = npts := by simp [plotCircle, linspace_length]
  rw [List.getLast?_eq_getElem?, List.head?_eq_getElem?, hl]
  unfold plotCircle
  rw [List.getElem?_map, List.getElem?_map, linspace_last _ _ _ h, linspace_first _ _ _ h]
  simp

/-- Points of a circle have an angle in `[0, 2 pi]`. -/
theorem circle_angle {x y r : ℝ} {p : R2} (h : OnCircle (x, y) r p) :
    ∃ θ, 0 ≤ θ ∧ θ ≤ 2 * π ∧ p = (x + r * cos θ, y + r * sin θ) := by
  unfold OnCircle at h
  simp only at h
  by_cases hr : r = 0
  · subst hr
    refine ⟨0, le_rfl, by positivity, ?_⟩
    have h1 : p.1 - x = 0 := by nlinarith [sq_nonneg (p.1 - x), sq_nonneg (p.2 - y)]
    have h2 : p.2 - y = 0 := by nlinarith [sq_nonneg (p.1 - x), sq_nonneg (p.2 - y)]
    ext <;> simp <;> linarith
  · let z : ℂ := ⟨(p.1 - x) / r, (p.2 - y) / r⟩
    have hz : ‖z‖ = 1 := by
      rw [Complex.norm_def, Complex.normSq_mk]
      have : (p.1 - x) / r * ((p.1 - x) / r) + (p.2 - y) / r * ((p.2 - y) / r) = 1 := by
        field_simp
        linarith
      rw [this, Real.sqrt_one]
    have hz0 : z ≠ 0 := by
      intro h0
      rw [h0, norm_zero] at hz
      exact zero_ne_one hz
    have hc : cos z.arg = (p.1 - x) / r := by rw [Complex.cos_arg hz0, hz]; simp [z]
    have hs : sin z.arg = (p.2 - y) / r := by rw [Complex.sin_arg, hz]; simp [z]
    have hp : p = (x + r * cos z.arg, y + r * sin z.arg) := by
      rw [hc, hs]
      ext <;> simp <;> field_simp <;> ring
    rcases le_or_gt 0 z.arg with h0 | h0
    · exact ⟨z.arg, h0, by linarith [Complex.arg_le_pi z, pi_pos], hp⟩
    · refine ⟨z.arg + 2 * π, by linarith [Complex.neg_pi_lt_arg z, pi_pos], by linarith, ?_⟩
      rw [cos_add_two_pi, sin_add_two_pi]
      exact hp

/-- Every point of the circle is close to a point which is drawn. -/
theorem plotCircle_dense (x y r : ℝ) (npts : ℕ) (h : 2 ≤ npts) (p : R2) (hp : OnCircle (x, y) r p) :
    ∃ q ∈ plotCircle x y r npts, (p.1 - q.1) ^ 2 + (p.2 - q.2) ^ 2 ≤ (r * (π / ((npts : ℝ) - 1))) ^ 2 := by
  obtain ⟨θ, h0, h1, rfl⟩ := circle_angle hp
  have hn : (0 : ℝ) < (npts : ℝ) - 1 := by
    have : (2 : ℝ) ≤ npts := by exact_mod_cast h
    linarith
  set n : ℝ := (npts : ℝ) - 1 with hndef
  set u : ℝ := θ / (2 * π) * n with hu
  have hu0 : 0 ≤ u := by positivity
  have hu1 : u ≤ n := by
    have : θ / (2 * π) ≤ 1 := by rw [div_le_one (by positivity)]; exact h1
    calc u ≤ 1 * n := by rw [hu]; exact mul_le_mul_of_nonneg_right this hn.le
      _ = n := one_mul n
  obtain ⟨i, hi, hui⟩ : ∃ i : ℕ, i < npts ∧ |u - i| ≤ 1 / 2 := by
    refine ⟨⌊u + 1 / 2⌋₊, ?_, ?_⟩
    · have hlt : u + 1 / 2 < npts := by linarith
      exact (Nat.floor_lt (by linarith)).mpr hlt
    · have f1 := Nat.floor_le (show 0 ≤ u + 1 / 2 by linarith)
      have f2 := Nat.lt_floor_add_one (u + 1 / 2)
      rw [abs_le]
      constructor <;> linarith
  set φ : ℝ := 0 + (2 * π - 0) * ((i : ℝ) / ((npts : ℝ) - 1)) with hφ
  have hmem : φ ∈ linspace 0 (2 * π) npts := List.mem_of_getElem? (linspace_get 0 (2 * π) npts i h hi)
  refine ⟨_, List.mem_map_of_mem hmem, ?_⟩
  have hd : |θ - φ| ≤ π / n := by
    have e : θ - φ = 2 * π / n * (u - i) := by
      rw [hφ, hu, ← hndef]
      field_simp
      ring
    rw [e, abs_mul, abs_of_nonneg (by positivity)]
    calc 2 * π / n * |u - i| ≤ 2 * π / n * (1 / 2) := mul_le_mul_of_nonneg_left hui (by positivity)
      _ = π / n := by ring
  have hsq : (θ - φ) ^ 2 ≤ (π / n) ^ 2 := sq_le_sq' (by linarith [(abs_le.mp hd).1]) (abs_le.mp hd).2
  have hc := one_sub_sq_div_two_le_cos (x := θ - φ)
  have e2 : (x + r * cos θ - (x + r * cos φ)) ^ 2 + (y + r * sin θ - (y + r * sin φ)) ^ 2 =
      r ^ 2 * (2 - 2 * cos (θ - φ)) := by
    rw [cos_sub]
    linear_combination r ^ 2 * sin_sq_add_cos_sq θ + r ^ 2 * sin_sq_add_cos_sq φ
  simp only
  rw [e2, mul_pow]
  exact mul_le_mul_of_nonneg_left (by linarith) (sq_nonneg r)

/-- The displacements of the copies that are drawn. -/
def drawnCopies (L : Lattice) (pad : Bool) : List R2 := (0, 0) :: padShifts L pad

/-- What a curve must be to show the outline of a shape displaced by `t`: for a circle, a closed line with `npts` corners on the
circle, to which every point of the circle is as near as `|r| pi / (npts - 1)`; for a polygon, exactly its boundary. -/
def ShowsOutline (npts : ℕ) (s : DShape) (t : R2) (c : List R2) : Prop :=
  match s with
  | .circle _ x y r => c.length = npts ∧ (∀ p ∈ c, OnCircle (x + t.1, y + t.2) r p) ∧ (2 ≤ npts → c.head? = c.getLast? ∧
      ∀ p, OnCircle (x + t.1, y + t.2) r p → ∃ q ∈ c, (p.1 - q.1) ^ 2 + (p.2 - q.2) ^ 2 ≤ (r * (π / ((npts : ℝ) - 1))) ^ 2)
  | s => ∃ vs, s.edges = some vs ∧ ∀ v w, vs = v :: w ++ [v] → ∀ p, OnPath c p ↔ OnPolygon (v :: w) (p.1 - t.1, p.2 - t.2)

theorem showsOutline_circle (e x y r : ℝ) (npts : ℕ) (t : R2) :
    ShowsOutline npts (.circle e x y r) t (plotCircle (x + t.1) (y + t.2) r npts) :=
  ⟨by simp [plotCircle, linspace_length], plotCircle_on _ _ _ _, fun h =>
    ⟨plotCircle_closed _ _ _ _ h, fun p hp => plotCircle_dense _ _ _ _ h p hp⟩⟩

theorem outline_poly (vs : List R2) (t : R2) : ∀ v w, vs = v :: w ++ [v] → ∀ p,
    OnPath (vs.map fun v => (v.1 + t.1, v.2 + t.2)) p ↔ OnPolygon (v :: w) (p.1 - t.1, p.2 - t.2) := by
  intro v w hv p
  rw [path_shift, hv, path_closed]

theorem drawShape_shows (L : Lattice) (npts : ℕ) (pad : Bool) (s : DShape) (b : List (List R2))
    (h : drawShape L npts pad s = .ok b) : List.Forall₂ (ShowsOutline npts s) (drawnCopies L pad) b := by
  have poly : ∀ vs, (∀ t c, (∀ v w, vs = v :: w ++ [v] → ∀ p, OnPath c p ↔ OnPolygon (v :: w) (p.1 - t.1, p.2 - t.2)) →
      ShowsOutline npts s t c) → b = (vs :: (padShifts L pad).map fun t => vs.map fun v => (v.1 + t.1, v.2 + t.2)) →
      List.Forall₂ (ShowsOutline npts s) (drawnCopies L pad) b := by
    intro vs hs hb
    subst hb
    refine .cons (hs _ _ ?_) ?_
    · intro v w hv p
      rw [hv, path_closed]
      simp
    · rw [List.forall₂_map_right_iff, List.forall₂_same]
      intro t _
      exact hs _ _ (outline_poly vs t)
  cases s with
  | circle e x y r =>
    cases h
    refine .cons ?_ ?_
    · have := showsOutline_circle e x y r npts (0, 0)
      simpa using this
    · rw [List.forall₂_map_right_iff, List.forall₂_same]
      exact fun t _ => showsOutline_circle e x y r npts t
  | ellipse => cases h
  | poly e p => cases h; exact poly p.verts (fun t c hc => ⟨_, rfl, hc⟩) rfl
  | square e x y a p => cases h; exact poly p.verts (fun t c hc => ⟨_, rfl, hc⟩) rfl
  | hexagon e x y a p => cases h; exact poly p.verts (fun t c hc => ⟨_, rfl, hc⟩) rfl
  | fourier e x y n p => cases h; exact poly p.verts (fun t c hc => ⟨_, rfl, hc⟩) rfl

/-- Whether a shape is an ellipse. -/
def DShape.IsEllipse (s : DShape) : Prop := ∃ e x y rx ry phi, s = .ellipse e x y rx ry phi

theorem drawShape_ok (L : Lattice) (npts : ℕ) (pad : Bool) (s : DShape) :
    (s.IsEllipse → drawShape L npts pad s = .error .attributeError) ∧ (¬ s.IsEllipse → ∃ b, drawShape L npts pad s = .ok b) := by
  constructor
  · rintro ⟨e, x, y, rx, ry, phi, rfl⟩
    rfl
  · intro h
    cases s with
    | ellipse e x y rx ry phi => exact absurd ⟨e, x, y, rx, ry, phi, rfl⟩ h
    | _ => exact ⟨_, rfl⟩

/-- `mapM` over a function with one kind of error. -/
theorem mapM_single_error {α β : Type} (f : α → Except PyErr β) (P : α → Prop) (e : PyErr)
    (h : ∀ a, (P a → f a = .error e) ∧ (¬ P a → ∃ b, f a = .ok b)) (l : List α) :
    ((∃ a ∈ l, P a) → l.mapM f = .error e) ∧ ((∀ a ∈ l, ¬ P a) → ∃ bs, l.mapM f = .ok bs ∧
      List.Forall₂ (fun a b => f a = .ok b) l bs) := by
  induction l with
  | nil => exact ⟨by simp, fun _ => ⟨[], rfl, .nil⟩⟩
  | cons a l ih =>
    constructor
    · intro hP
      by_cases ha : P a
      · rw [List.mapM_cons, (h a).1 ha]
        rfl
      · obtain ⟨b, hb⟩ := (h a).2 ha
        have : ∃ a ∈ l, P a := by
          obtain ⟨x, hx, hpx⟩ := hP
          rcases List.mem_cons.mp hx with rfl | hx
          · exact absurd hpx ha
          · exact ⟨x, hx, hpx⟩
        rw [List.mapM_cons, hb, ih.1 this]
        rfl
    · intro hP
      obtain ⟨b, hb⟩ := (h a).2 (hP a (by simp))
      obtain ⟨bs, hbs, hf⟩ := ih.2 fun x hx => hP x (by simp [hx])
      exact ⟨b :: bs, by rw [List.mapM_cons, hb, hbs]; rfl, .cons hb hf⟩

/-- **C124.** Without ellipses, `viz.shapes` draws for each shape, in order, its outline and, with `pad`, the outlines displaced
by `a1`, `-a1`, `a2`, `-a2`; the window is that of `xy_grid`. -/
theorem C124_outlines_partial (L : Lattice) (shapes : List DShape) (npts : ℕ) (pad : Bool)
    (hs : ∀ s ∈ shapes, ¬ s.IsEllipse) :
    ∃ blocks xl yl, vizShapes L shapes npts pad = .ok (blocks.flatten, xl, yl) ∧ L.xyGrid 2 2 .none = .ok (xl, yl) ∧
      List.Forall₂ (fun s b => List.Forall₂ (ShowsOutline npts s) (drawnCopies L pad) b) shapes blocks := by
  obtain ⟨⟨xl, yl⟩, hg, -, -⟩ := xyGrid_ok L 2 2
  obtain ⟨blocks, hb, hf⟩ := (mapM_single_error _ _ _ (drawShape_ok L npts pad) shapes).2 hs
  refine ⟨blocks, xl, yl, ?_, hg, ?_⟩
  · unfold vizShapes
    rw [hg]
    simp only [bind, Except.bind, hb]
    rfl
  · exact hf.imp fun s b h => drawShape_shows L npts pad s b h

/-- **C124.** With an ellipse among the shapes nothing can be drawn: `viz.shapes` raises AttributeError. -/
theorem C124_ellipse (L : Lattice) (shapes : List DShape) (npts : ℕ) (pad : Bool) (hs : ∃ s ∈ shapes, s.IsEllipse) :
    vizShapes L shapes npts pad = .error .attributeError := by
  obtain ⟨⟨xl, yl⟩, hg, -, -⟩ := xyGrid_ok L 2 2
  unfold vizShapes
  rw [hg]
  simp only [bind, Except.bind, (mapM_single_error _ _ _ (drawShape_ok L npts pad) shapes).1 hs]

/-- **C124.** The vertex list of every polygon ends where it begins, also after rotations. -/
theorem C124_closed (vs : List R2) (p : Poly) (h : Poly.new vs = .ok p) (angles : List ℝ) :
    ∃ v w, (angles.foldl Poly.rotate p).verts = v :: w ++ [v] ∧ w.length + 1 = vs.length := by
  have base : ∃ v w, p.verts = v :: w ++ [v] ∧ w.length + 1 = vs.length := by
    cases vs with
    | nil => cases h
    | cons v w =>
      unfold Poly.new at h
      simp only at h
      split at h
      · cases h
      · cases h
        exact ⟨v, w, rfl, rfl⟩
  clear h
  induction angles generalizing p with
  | nil => exact base
  | cons a as ih =>
    refine ih _ ?_
    obtain ⟨v, w, hv, hl⟩ := base
    refine ⟨rotatePt a (centerOfMass p.verts p.area) v, w.map (rotatePt a (centerOfMass p.verts p.area)), ?_, by simpa using hl⟩
    unfold Poly.rotate
    simp only
    generalize rotatePt a (centerOfMass p.verts p.area) = f
    rw [hv]
    simp

/-- **C124, refuted part.** `pad` leaves out the copies displaced along both lattice vectors: for a circle of radius 0.2 at the
corner of the square cell, a point within the window which lies on its outline (displaced by `-a1 - a2`) is further than 0.5 from
everything that is drawn. -/
theorem C124_corner (e : ℝ) (npts : ℕ) (L : Lattice) (hL : Lattice.new (.name "square") = .ok L) :
    ∃ curves p, vizShapes L [.circle e 0.5 0.5 0.2] npts true = .ok (curves, [-0.5, 0.5], [-0.5, 0.5]) ∧
      (-0.5 < p.1 ∧ p.1 < 0.5 ∧ -0.5 < p.2 ∧ p.2 < 0.5) ∧
      OnCircle (0.5 - L.a1.1 - L.a2.1, 0.5 - L.a1.2 - L.a2.2) 0.2 p ∧
      ∀ c ∈ curves, ∀ q ∈ c, 0.5 ^ 2 < (p.1 - q.1) ^ 2 + (p.2 - q.2) ^ 2 := by
  have hL' : L = mkLattice .square ⟨1, 0, 0⟩ ⟨0, 1, 0⟩ := by
    unfold Lattice.new parseLatInput at hL
    simp at hL
    exact hL.symm
  have ha1 : L.a1 = (1, 0) := by rw [hL']; rfl
  have ha2 : L.a2 = (0, 1) := by rw [hL']; rfl
  have ht : L.type = .square := by rw [hL']; rfl
  have hgrid : L.xyGrid 2 2 .none = .ok ([-0.5, 0.5], [-0.5, 0.5]) := by
    unfold Lattice.xyGrid parsePeriods
    simp only [ht, ha1, ha2, true_or, if_true, bind, Except.bind]
    have : linspace (-(|max (1 : ℝ) 0| * 1 / 2)) (|max (1 : ℝ) 0| * 1 / 2) 2 = [-0.5, 0.5] := by
      unfold linspace
      norm_num [List.range_succ]
    have h2 : linspace (-(|max (0 : ℝ) 1| * 1 / 2)) (|max (0 : ℝ) 1| * 1 / 2) 2 = [-0.5, 0.5] := by
      rw [max_comm]
      exact this
    rw [this, h2]
    rfl
  refine ⟨plotCircle 0.5 0.5 0.2 npts :: (padShifts L true).map fun t => plotCircle (0.5 + t.1) (0.5 + t.2) 0.2 npts,
    (-0.38, -0.34), ?_, by norm_num, ?_, ?_⟩
  · unfold vizShapes
    rw [hgrid]
    simp [bind, Except.bind, drawShape, pure, Except.pure]
  · unfold OnCircle
    rw [ha1, ha2]
    norm_num
  · intro c hc q hq
    have far : ∀ x y : ℝ, (0.75 : ℝ) ^ 2 ≤ (x + 0.38) ^ 2 + (y + 0.34) ^ 2 → OnCircle (x, y) 0.2 q →
        0.5 ^ 2 < (-0.38 - q.1) ^ 2 + (-0.34 - q.2) ^ 2 := by
      intro x y h1 h2
      unfold OnCircle at h2
      simp only at h2
      by_contra hcon
      push Not at hcon
      -- |c - p| ≤ |c - q| + |q - p| ≤ 0.2 + 0.5 < 0.75
      set u := q.1 - x
      set v := q.2 - y
      set s := -0.38 - q.1
      set w := -0.34 - q.2
      have e1 : x + 0.38 = -(u + s) := by simp only [u, s]; ring
      have e2 : y + 0.34 = -(v + w) := by simp only [v, w]; ring
      rw [e1, e2] at h1
      have cs : (u * s + v * w) ^ 2 ≤ 0.2 ^ 2 * 0.5 ^ 2 := by
        have : (u * s + v * w) ^ 2 ≤ (u ^ 2 + v ^ 2) * (s ^ 2 + w ^ 2) := by nlinarith [sq_nonneg (u * w - v * s)]
        calc _ ≤ _ := this
          _ ≤ _ := by rw [h2]; exact mul_le_mul_of_nonneg_left hcon (by norm_num)
      have cs' : u * s + v * w ≤ 0.2 * 0.5 := by
        apply le_of_sq_le_sq _ (by norm_num) 
        rw [mul_pow]; exact cs
      nlinarith
    rw [List.mem_cons] at hc
    rcases hc with rfl | hc
    · exact far 0.5 0.5 (by norm_num) (plotCircle_on _ _ _ _ q hq)
    · obtain ⟨t, ht', rfl⟩ := List.mem_map.mp hc
      refine far _ _ ?_ (plotCircle_on _ _ _ _ q hq)
      simp only [padShifts, ha1, ha2, if_true, List.mem_cons, List.not_mem_nil, or_false] at ht'
      rcases ht' with rfl | rfl | rfl | rfl <;> norm_num

/-- A circle and a triangle can be drawn. -/
example (L : Lattice) : ∃ (blocks : List (List (List R2))) (xl yl : List ℝ),
    vizShapes L [.circle 1 0 0 0.3, .poly 2 ⟨[(0, 0), (1, 0), (0, 1), (0, 0)], 0.5⟩] 101 true = .ok (blocks.flatten, xl, yl) ∧
      blocks.length = 2 ∧ ∀ b ∈ blocks, b.length = 5 := by
  obtain ⟨blocks, xl, yl, h, -, hf⟩ := C124_outlines_partial L
    [.circle 1 0 0 0.3, .poly 2 ⟨[(0, 0), (1, 0), (0, 1), (0, 0)], 0.5⟩] 101 true (by
      rintro s hs ⟨e, x, y, rx, ry, phi, rfl⟩
      simp at hs)
  refine ⟨blocks, xl, yl, h, hf.length_eq.symm, fun b hb => ?_⟩
  obtain ⟨s, -, hs⟩ := forall2_mem_right hf b hb
  rw [← hs.length_eq]
  rfl

example (L : Lattice) : vizShapes L [.circle 1 0 0 0.3, .ellipse 1 0 0 0.3 0.2 0] 101 true = .error .attributeError :=
  C124_ellipse L _ _ _ ⟨.ellipse 1 0 0 0.3 0.2 0, by simp, 1, 0, 0, 0.3, 0.2, 0, rfl⟩

example : ∃ p, Poly.new (squareVerts 0 0 1) = .ok p ∧ ∃ v w, ([0.3, 0.4].foldl Poly.rotate p).verts = v :: w ++ [v] ∧
    w.length = 3 := by
  obtain ⟨p, hp, -⟩ := C15_square 0 0 1
  obtain ⟨v, w, hv, hl⟩ := C124_closed _ p hp [0.3, 0.4]
  refine ⟨p, hp, v, w, hv, ?_⟩
  simpa [squareVerts] using hl

example : ∃ L, Lattice.new (.name "square") = .ok L := ⟨_, rfl⟩

/-! ## C125 -/

theorem reprShape_ok (F : Fmt) (s : DShape) :
    (s.IsEllipse → s.repr F = .error .nameError) ∧ (¬ s.IsEllipse → ∃ b, s.repr F = .ok b) := by
  constructor
  · rintro ⟨e, x, y, rx, ry, phi, rfl⟩
    rfl
  · intro h
    cases s with
    | ellipse e x y rx ry phi => exact absurd ⟨e, x, y, rx, ry, phi, rfl⟩ h
    | _ => exact ⟨_, rfl⟩

theorem reprLayer_ok (F : Fmt) (l : DLayer) :
    ((∃ s ∈ l.shapes, s.IsEllipse) → l.repr F = .error .nameError) ∧
      (¬ (∃ s ∈ l.shapes, s.IsEllipse) → ∃ b, l.repr F = .ok b) := by
  have := mapM_single_error _ _ _ (reprShape_ok F) l.shapes
  constructor
  · intro h
    unfold DLayer.repr
    rw [this.1 h]
    rfl
  · intro h
    obtain ⟨bs, hb, -⟩ := this.2 fun s hs he => h ⟨s, hs, he⟩
    unfold DLayer.repr
    rw [hb]
    exact ⟨_, rfl⟩

/-- **C125.** Printing a structure raises NameError if any layer contains an ellipse, and succeeds otherwise. -/
theorem C125_ellipse (F : Fmt) (L : Lattice) (layers : List DLayer) (qws : List String) :
    ((∃ l ∈ layers, ∃ s ∈ l.shapes, s.IsEllipse) → phcRepr F L layers qws = .error .nameError) ∧
      ((∀ l ∈ layers, ∀ s ∈ l.shapes, ¬ s.IsEllipse) → ∃ t, phcRepr F L layers qws = .ok t) := by
  have := mapM_single_error _ _ _ (reprLayer_ok F) layers
  constructor
  · intro h
    unfold phcRepr
    rw [this.1 h]
    rfl
  · intro h
    obtain ⟨bs, hb, -⟩ := this.2 fun l hl he => by
      obtain ⟨s, hs, he⟩ := he
      exact h l hl s hs he
    unfold phcRepr
    rw [hb]
    exact ⟨_, rfl⟩

/-- The text of a list of lines grows at the end. -/
theorem join_snoc (l : List String) (s : String) : String.join (l ++ [s]) = String.join l ++ s := by
  simp [String.join, List.foldl_append]

theorem mapM_snoc {α β : Type} (f : α → Except PyErr β) (l : List α) (a : α) (bs : List β) (b : β) (h : l.mapM f = .ok bs)
    (ha : f a = .ok b) : (l ++ [a]).mapM f = .ok (bs ++ [b]) := by
  rw [List.mapM_append, h]
  simp only [bind, Except.bind, List.mapM_cons, ha, List.mapM_nil, pure, Except.pure]

/-- **C125.** The text of a layer shows its shapes in the order in which they were added: adding a shape puts a line with the text
of this shape before the closing bracket. -/
theorem C125_layer (F : Fmt) (l : DLayer) (s : DShape) (u : String) (hs : s.repr F = .ok u) :
    (l.shapes = [] → l.repr F = .ok ("ShapesLayer(eps_b = " ++ F.f2 l.epsB ++ ", d = " ++ F.f2 l.d ++ ")") ∧
      DLayer.repr F { l with shapes := [s] } =
        .ok ("ShapesLayer(eps_b = " ++ F.f2 l.epsB ++ ", d = " ++ F.f2 l.d ++ ",\n" ++ u ++ "\n)")) ∧
    (l.shapes ≠ [] → ∀ t, l.repr F = .ok t → ∃ t', t = t' ++ "\n)" ∧
      DLayer.repr F { l with shapes := l.shapes ++ [s] } = .ok (t' ++ "\n" ++ u ++ "\n)")) := by
  constructor
  · intro h
    unfold DLayer.repr
    rw [h]
    constructor
    · simp [bind, Except.bind, pure, Except.pure, String.join]
    · simp [bind, Except.bind, pure, Except.pure, String.join, hs, String.append_assoc]
      rw [← String.append_assoc]
      rfl
  · intro h t ht
    have hpos : l.shapes.length > 0 := List.length_pos_of_ne_nil h
    unfold DLayer.repr at ht ⊢
    obtain ⟨bs, hb, ht⟩ := bind_ok ht
    simp only [hpos, if_true] at ht
    cases ht
    refine ⟨_, rfl, ?_⟩
    simp only [mapM_snoc _ _ _ _ _ hb hs, bind, Except.bind, pure, Except.pure, List.length_append, List.length_singleton,
      Nat.succ_pos, gt_iff_lt, if_true, List.map_append, List.map_cons, List.map_nil, join_snoc, String.append_assoc]

/-- **C125.** The text of a structure without wells shows its layers, numbered from 0 in the order in which they were added: adding a
layer puts its number and its text before the closing bracket. -/
theorem C125_structure (F : Fmt) (L : Lattice) (layers : List DLayer) (l : DLayer) (u : String) (hl : l.repr F = .ok u) :
    phcRepr F L [] [] = .ok ("PhotonicCrystal(\n" ++ L.repr F ++ ")") ∧
    ∀ t, phcRepr F L layers [] = .ok t → ∃ t', (t = t' ++ "\n)" ∨ (layers = [] ∧ t = t' ++ ")")) ∧
      phcRepr F L (layers ++ [l]) [] = .ok (t' ++ "\n" ++ F.d layers.length ++ ": " ++ u ++ "\n)") := by
  constructor
  · simp only [phcRepr, List.mapM_nil, bind, Except.bind, pure, Except.pure]
    simp [String.join]
  · intro t ht
    unfold phcRepr at ht ⊢
    obtain ⟨bs, hb, ht⟩ := bind_ok ht
    have hlen : bs.length = layers.length := mapM_length hb
    cases ht
    refine ⟨"PhotonicCrystal(" ++ "\n" ++ L.repr F ++ String.join (bs.zipIdx.map fun li => "\n" ++ F.d li.2 ++ ": " ++ li.1), ?_, ?_⟩
    · by_cases h : layers = []
      · subst h
        right
        simp [String.join]
      · left
        have hpos : layers.length > 0 := List.length_pos_of_ne_nil h
        simp [hpos, String.join, String.append_assoc]
    · simp only [mapM_snoc _ _ _ _ _ hb hl, bind, Except.bind, pure, Except.pure, List.length_append, List.length_singleton,
        Nat.succ_pos, gt_iff_lt, true_or, if_true, List.zipIdx_append, List.zipIdx_cons, List.zipIdx_nil, List.map_append,
        List.map_cons, List.map_nil, join_snoc, String.append_assoc, hlen, Nat.zero_add, List.zipIdx_nil]
      simp [String.join]

/-- **C125.** Wells are shown after the layers, numbered from 0 in the order in which they were added: adding a well puts its number
and its text before the closing bracket. -/
theorem C125_wells (F : Fmt) (L : Lattice) (layers : List DLayer) (qws : List String) (q : String) :
    ∀ t, phcRepr F L layers qws = .ok t → ∃ t', (t = t' ++ "\n)" ∨ (layers = [] ∧ qws = [] ∧ t = t' ++ ")")) ∧
      phcRepr F L layers (qws ++ [q]) = .ok (t' ++ "\n" ++ F.d qws.length ++ ": " ++ q ++ "\n)") := by
  intro t ht
  unfold phcRepr at ht ⊢
  obtain ⟨bs, hb, ht⟩ := bind_ok ht
  cases ht
  refine ⟨"PhotonicCrystal(" ++ "\n" ++ L.repr F ++ String.join (bs.zipIdx.map fun li => "\n" ++ F.d li.2 ++ ": " ++ li.1) ++
    String.join (qws.zipIdx.map fun qi => "\n" ++ F.d qi.2 ++ ": " ++ qi.1), ?_, ?_⟩
  · by_cases h : layers = [] ∧ qws = []
    · right
      refine ⟨h.1, h.2, ?_⟩
      rw [if_neg (by simp [h.1, h.2])]
    · left
      rw [if_pos]
      rcases not_and_or.mp h with h | h
      · exact Or.inl (List.length_pos_of_ne_nil h)
      · exact Or.inr (List.length_pos_of_ne_nil h)
  · simp only [hb, bind, Except.bind, pure, Except.pure, List.length_append, List.length_singleton,
      Nat.succ_pos, gt_iff_lt, or_true, if_true, List.zipIdx_append, List.zipIdx_cons, List.zipIdx_nil, List.map_append,
      List.map_cons, List.map_nil, join_snoc, String.append_assoc, Nat.zero_add]

/-- What stands before the first separator is determined. -/
theorem split_at_sep {α : Type} (c : α) : ∀ (x x' r r' : List α), c ∉ x → c ∉ x' → x ++ c :: r = x' ++ c :: r' → x = x' ∧ r = r'
  | [], [], r, r', _, _, h => ⟨rfl, by simpa using h⟩
  | [], b :: x', r, r', _, h', h => by
    simp only [List.nil_append, List.cons_append, List.cons.injEq] at h
    exact absurd (h.1 ▸ List.mem_cons_self) h'
  | a :: x, [], r, r', h', _, h => by
    simp only [List.nil_append, List.cons_append, List.cons.injEq] at h
    exact absurd (h.1 ▸ List.mem_cons_self) h'
  | a :: x, b :: x', r, r', h1, h2, h => by
    simp only [List.cons_append, List.cons.injEq] at h
    obtain ⟨e, h⟩ := h
    obtain ⟨i, j⟩ := split_at_sep c x x' r r' (fun m => h1 (List.mem_cons_of_mem _ m)) (fun m => h2 (List.mem_cons_of_mem _ m)) h
    exact ⟨by rw [e, i], j⟩

/-- **C125.** The text of a lattice determines the texts of the four components of its primitive vectors, since formatted numbers
contain neither commas nor brackets. -/
theorem C125_lattice (F : Fmt) (hc : ∀ x, ',' ∉ (F.f4 x).toList) (hb : ∀ x, ']' ∉ (F.f4 x).toList) (L L' : Lattice) :
    L.repr F = L'.repr F ↔ F.f4 L.a1.1 = F.f4 L'.a1.1 ∧ F.f4 L.a1.2 = F.f4 L'.a1.2 ∧ F.f4 L.a2.1 = F.f4 L'.a2.1 ∧
      F.f4 L.a2.2 = F.f4 L'.a2.2 := by
  constructor
  · intro h
    have h := congrArg String.toList h
    unfold Lattice.repr at h
    simp only [String.toList_append, List.append_assoc] at h
    have h := List.append_cancel_left h
    obtain ⟨h1, h⟩ := split_at_sep ',' _ _ _ _ (hc _) (hc _) h
    have h := (List.cons.inj h).2
    obtain ⟨h2, h⟩ := split_at_sep ']' _ _ _ _ (hb _) (hb _) h
    have h : ", a2 = [".toList ++ ((F.f4 L.a2.1).toList ++ (", ".toList ++ ((F.f4 L.a2.2).toList ++ "])".toList))) =
      ", a2 = [".toList ++ ((F.f4 L'.a2.1).toList ++ (", ".toList ++ ((F.f4 L'.a2.2).toList ++ "])".toList))) := h
    have h := List.append_cancel_left h
    obtain ⟨h3, h⟩ := split_at_sep ',' _ _ _ _ (hc _) (hc _) h
    have h := (List.cons.inj h).2
    obtain ⟨h4, h⟩ := split_at_sep ']' _ _ _ _ (hb _) (hb _) h
    exact ⟨String.toList_inj.mp h1, String.toList_inj.mp h2, String.toList_inj.mp h3, String.toList_inj.mp h4⟩
  · rintro ⟨h1, h2, h3, h4⟩
    unfold Lattice.repr
    rw [h1, h2, h3, h4]

open Classical in
/-- A format without commas and brackets which tells 0 from other numbers. -/
noncomputable def plainFmt : Fmt := ⟨fun _ => "1.00", fun x => if x = 0 then "0.0000" else "1.0000", fun _ => "0", fun _ => "[]"⟩

example : (∀ x, ',' ∉ (plainFmt.f4 x).toList) ∧ (∀ x, ']' ∉ (plainFmt.f4 x).toList) := by
  constructor <;> intro x <;> simp only [plainFmt] <;> split_ifs <;> decide

/-- A slab with a circular hole can be printed, a slab with an elliptical hole cannot. -/
example (F : Fmt) (L : Lattice) : (∃ t, phcRepr F L [⟨12, 0.5, [.circle 1 0 0 0.3]⟩] [] = .ok t) ∧
    phcRepr F L [⟨12, 0.5, []⟩, ⟨12, 0.5, [.ellipse 1 0 0 0.3 0.2 0]⟩] [] = .error .nameError := by
  refine ⟨(C125_ellipse F L _ _).2 ?_, (C125_ellipse F L _ _).1
    ⟨_, by simp only [List.mem_cons]; exact Or.inr (Or.inl rfl), _, by simp, 1, 0, 0, 0.3, 0.2, 0, rfl⟩⟩
  rintro l hl s hs ⟨e, x, y, rx, ry, phi, rfl⟩
  simp only [List.mem_singleton] at hl
  subst hl
  simp at hs

/-- The text of a structure with one patterned layer. -/
example (F : Fmt) (L : Lattice) (p : Poly) : ∃ u, DLayer.repr F ⟨12, 0.5, [.square 1 0 0 0.3 p, .circle 1 0 0 0.1]⟩ = .ok u ∧
    ∃ t, phcRepr F L [⟨12, 0.5, [.square 1 0 0 0.3 p, .circle 1 0 0 0.1]⟩] [] = .ok t := by
  obtain ⟨u, hu⟩ := (reprLayer_ok F ⟨12, 0.5, [.square 1 0 0 0.3 p, .circle 1 0 0 0.1]⟩).2 (by
    rintro ⟨s, hs, e, x, y, rx, ry, phi, rfl⟩
    simp at hs)
  obtain ⟨h1, h2⟩ := C125_structure F L [] _ u hu
  obtain ⟨t', -, ht⟩ := h2 _ h1
  exact ⟨u, hu, _, ht⟩

end Legume
