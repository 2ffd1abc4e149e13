import Verif.Model.VizField
import Verif.Props.FieldPlanes
import Verif.Props.Utils

/-!
# C114: what `viz.field` shows
-/
namespace Legume

namespace Spec

/-- What is shown of a complex number. -/
inductive Part where
  | re
  | im
  | abs

/-- Name of the argument `val`. -/
def Part.name : Part → String
  | .re => "re"
  | .im => "im"
  | .abs => "abs"

/-- The number shown. -/
noncomputable def Part.val : Part → ℂ → ℝ
  | .re, z => z.re
  | .im, z => z.im
  | .abs, z => ‖z‖

/-- Lower end of the colour scale for the upper end `m`. -/
def Part.low : Part → ℝ → ℝ
  | .abs, _ => 0
  | _, m => -m

/-- Coordinates of the point with in-plane coordinates `a, b` of the plane. -/
def planePoint : FPlane → ℝ → ℝ → ℝ × ℝ × ℝ
  | .xy z, a, b => (a, b, z)
  | .yz x, a, b => (x, a, b)
  | .xz y, a, b => (a, y, b)

/-- The full field of a mode with wave vector `k` at the point `(x, y)`: the sum of the waves with wave vectors `G + k`. -/
noncomputable def blochField (gvec : List (ℝ × ℝ)) (k : ℝ × ℝ) (cs : List ℂ) (x y : ℝ) : ℂ :=
  (List.zipWith (fun (c : ℂ) (g : ℝ × ℝ) => c * Complex.exp (Complex.I * (((g.1 + k.1) * x + (g.2 + k.2) * y : ℝ) : ℂ)))
    cs gvec).sum

/-- The panel shows the component `c`: its pixel in row `r` and column `s` is the part `q` of `F r s`, its extent is that
of the grids, its colour scale is symmetric about zero for real and imaginary parts, starts at zero for moduli, and ends at
the largest modulus shown. -/
def Shows (P : Panel) (c : Char) (q : Part) (g1 g2 : List ℝ) (F : ℕ → ℕ → ℂ) : Prop :=
  P.comp = c ∧ P.Z = ((List.range g2.length).map fun (r : ℕ) => (List.range g1.length).map fun (s : ℕ) => q.val (F r s)) ∧
  (g1[0]? = some P.extent.1 ∧ g1[g1.length - 1]? = some P.extent.2.1 ∧
    g2[0]? = some P.extent.2.2.1 ∧ g2[g2.length - 1]? = some P.extent.2.2.2) ∧
  P.vmin = q.low P.vmax ∧
  (∀ r s, r < g2.length → s < g1.length → |q.val (F r s)| ≤ P.vmax) ∧
  ∃ r s, r < g2.length ∧ s < g1.length ∧ |q.val (F r s)| = P.vmax

end Spec

open Spec

theorem bloch_eq (gvec : List R2) (k : R2) (cs : List ℂ) (x y : ℝ) :
    blochField gvec k cs x y = pointField gvec cs x y * Complex.exp (Complex.I * ((k.1 * x + k.2 * y : ℝ) : ℂ)) := by
  unfold blochField pointField
  induction cs generalizing gvec with
  | nil => simp
  | cons c cs ih =>
    cases gvec with
    | nil => simp
    | cons g gs =>
      simp only [List.zipWith_cons_cons, List.sum_cons, ih]
      have : Complex.exp (Complex.I * (((g.1 + k.1) * x + (g.2 + k.2) * y : ℝ) : ℂ)) =
          Complex.exp (Complex.I * ((g.1 * x + g.2 * y : ℝ) : ℂ)) *
            Complex.exp (Complex.I * ((k.1 * x + k.2 * y : ℝ) : ℂ)) := by
        rw [← Complex.exp_add]
        congr 1
        push_cast; ring
      rw [this]; ring

theorem rowMax_spec (l : List ℝ) (a : ℝ) : l.foldl max a ∈ a :: l ∧ ∀ b ∈ a :: l, b ≤ l.foldl max a := by
  induction l generalizing a with
  | nil => simp
  | cons b l ih =>
    rw [List.foldl_cons]
    obtain ⟨h1, h2⟩ := ih (max a b)
    constructor
    · rcases List.mem_cons.1 h1 with h | h
      · rw [h]
        rcases max_choice a b with h' | h' <;> rw [h'] <;> simp
      · exact List.mem_cons_of_mem _ (List.mem_cons_of_mem _ h)
    · have h3 := h2 _ List.mem_cons_self
      intro x hx
      rcases List.mem_cons.1 hx with rfl | hx
      · exact (le_max_left _ _).trans h3
      · rcases List.mem_cons.1 hx with rfl | hx
        · exact (le_max_right _ _).trans h3
        · exact h2 _ (List.mem_cons_of_mem _ hx)

/-- A table with `R` rows and `C` columns. -/
def table {α : Type} (R C : ℕ) (v : ℕ → ℕ → α) : List (List α) :=
  (List.range R).map fun (r : ℕ) => (List.range C).map fun (s : ℕ) => v r s

theorem table_map {α β : Type} (R C : ℕ) (v : ℕ → ℕ → α) (f : α → β) :
    ((table R C v).map fun row => row.map f) = table R C fun r s => f (v r s) := by
  simp [table, Function.comp_def]

theorem arrMax_table (R C : ℕ) (hR : 0 < R) (hC : 0 < C) (v : ℕ → ℕ → ℝ) :
    ∃ m, arrMax (table R C v) = .ok m ∧ (∀ r s, r < R → s < C → v r s ≤ m) ∧ ∃ r s, r < R ∧ s < C ∧ v r s = m := by
  have mem : ∀ x, x ∈ (table R C v).flatten ↔ ∃ r s, r < R ∧ s < C ∧ v r s = x := by
    intro x
    simp only [table, List.mem_flatten, List.mem_map, List.mem_range]
    constructor
    · rintro ⟨_, ⟨r, hr, rfl⟩, hx⟩
      obtain ⟨s, hs, rfl⟩ := List.mem_map.1 hx
      exact ⟨r, s, hr, List.mem_range.1 hs, rfl⟩
    · rintro ⟨r, s, hr, hs, rfl⟩
      exact ⟨_, ⟨r, hr, rfl⟩, List.mem_map.2 ⟨s, List.mem_range.2 hs, rfl⟩⟩
  have h0 := (mem _).2 ⟨0, 0, hR, hC, rfl⟩
  unfold arrMax
  cases hfl : (table R C v).flatten with
  | nil => rw [hfl] at h0; cases h0
  | cons a l =>
    obtain ⟨h1, h2⟩ := rowMax_spec l a
    rw [hfl] at mem
    exact ⟨_, rfl, fun r s hr hs => h2 _ ((mem _).2 ⟨r, s, hr, hs, rfl⟩), (mem _).1 h1⟩

theorem pyLower_parts : pyLower "re" = ['r', 'e'] ∧ pyLower "im" = ['i', 'm'] ∧ pyLower "abs" = ['a', 'b', 's'] := by
  decide

theorem vizValue_table (q : Part) (R C : ℕ) (hR : 0 < R) (hC : 0 < C) (v : ℕ → ℕ → ℂ) :
    ∃ m, vizValue (pyLower q.name) (table R C v) = .ok (table R C (fun r s => q.val (v r s)), q.low m, m) ∧
      (∀ r s, r < R → s < C → |q.val (v r s)| ≤ m) ∧ ∃ r s, r < R ∧ s < C ∧ |q.val (v r s)| = m := by
  obtain ⟨p1, p2, p3⟩ := pyLower_parts
  obtain ⟨m, h1, h2, h3⟩ := arrMax_table R C hR hC fun r s => |q.val (v r s)|
  refine ⟨m, ?_, h2, h3⟩
  cases q with
  | re =>
    simp only [Part.name, p1, vizValue, true_or, if_true, table_map]
    simp only [Part.val] at h1
    rw [h1]; rfl
  | im =>
    simp only [Part.name, p2, vizValue, or_true, if_true, table_map]
    simp only [Part.val] at h1
    have hne : ∀ a b : ℝ, (if (['i', 'm'] : List Char) = ['r', 'e'] then a else b) = b := fun a b => if_neg (by decide)
    simp only [hne]
    rw [h1]; rfl
  | abs =>
    simp only [Part.name, p3, vizValue, table_map]
    simp only [Part.val, abs_norm] at h1
    rw [if_neg (by decide), if_pos trivial, h1]; rfl

theorem mapM_eq_ok {α β : Type} {f : α → Except PyErr β} {g : α → β} {l : List α} (h : ∀ a ∈ l, f a = .ok (g a)) :
    l.mapM f = .ok (l.map g) := by
  induction l with
  | nil => rfl
  | cons a l ih =>
    rw [List.mapM_cons, h a List.mem_cons_self, ih fun b hb => h b (List.mem_cons_of_mem _ hb)]
    rfl

theorem mulRows_table (R C : ℕ) (v : ℕ → ℕ → ℂ) (e : ℕ → ℂ) :
    mulRows (table R C v) ((List.range C).map e) = .ok (table R C fun r s => v r s * e s) := by
  unfold mulRows table
  rw [mapM_eq_ok (g := fun row : List ℂ => List.zipWith (· * ·) row ((List.range C).map e))]
  · simp [List.map_map, Function.comp_def, List.zipWith_map]
  · intro row hrow
    obtain ⟨r, -, rfl⟩ := List.mem_map.1 hrow
    rw [if_pos (by simp)]

/-- Factor by which a panel is multiplied: nothing for `periodic=True`. -/
def Factor (kenv : Option (List ℂ)) (C : ℕ) (e : ℕ → ℂ) : Prop :=
  (kenv = none ∧ ∀ s, e s = 1) ∨ kenv = some ((List.range C).map e)

theorem vizPanels_table (q : Part) (R C : ℕ) (hR : 0 < R) (hC : 0 < C) (kenv : Option (List ℂ)) (e : ℕ → ℂ)
    (hk : Factor kenv C e) (ext : ℝ × ℝ × ℝ × ℝ) (cont : Option (List (List ℝ))) (cs : List Char)
    (fi : List (Char × List (List ℂ))) (v : Char → ℕ → ℕ → ℂ) (hf : ∀ p ∈ fi, p.2 = table R C (v p.1))
    (hc : ∀ c ∈ cs, c ∈ fi.map Prod.fst) :
    ∃ Ps, vizPanels kenv (pyLower q.name) ext cont cs fi = .ok Ps ∧ Ps.length = cs.length ∧
      ∀ i c, cs[i]? = some c → ∃ P, Ps[i]? = some P ∧ P.comp = c ∧
        P.Z = table R C (fun r s => q.val (v c r s * e s ^ (cs.take (i + 1)).count c)) ∧ P.extent = ext ∧
        P.contour = cont ∧ P.vmin = q.low P.vmax ∧
        (∀ r s, r < R → s < C → |q.val (v c r s * e s ^ (cs.take (i + 1)).count c)| ≤ P.vmax) ∧
        ∃ r s, r < R ∧ s < C ∧ |q.val (v c r s * e s ^ (cs.take (i + 1)).count c)| = P.vmax := by
  induction cs generalizing fi v with
  | nil => exact ⟨[], rfl, rfl, by simp⟩
  | cons c cs ih =>
    have hget : ((fi.find? fun p => p.1 = c).map Prod.snd).getD [] = table R C (v c) := by
      obtain ⟨p, hp, hpc⟩ := List.mem_map.1 (hc c List.mem_cons_self)
      cases hfind : fi.find? fun p => p.1 = c with
      | none => exact absurd hpc (by simpa using List.find?_eq_none.1 hfind p hp)
      | some p' =>
        have h1 := List.find?_some hfind
        have h2 := hf _ (List.mem_of_find?_eq_some hfind)
        simp only [decide_eq_true_eq] at h1
        rw [Option.map_some, Option.getD_some, h2, h1]
    have hmul : applyKenv (table R C (v c)) kenv = .ok (table R C fun r s => v c r s * e s) := by
      rcases hk with ⟨rfl, h1⟩ | rfl
      · simp [h1, applyKenv]
      · exact mulRows_table R C (v c) e
    obtain ⟨m, m1, m2, m3⟩ := vizValue_table q R C hR hC fun r s => v c r s * e s
    obtain ⟨Ps, p1, p2, p3⟩ := ih (fi.map fun p => if p.1 = c then (c, table R C fun r s => v c r s * e s) else p)
      (fun d => if d = c then fun r s => v c r s * e s else v d)
      (by
        intro p hp
        obtain ⟨p', hp', rfl⟩ := List.mem_map.1 hp
        by_cases h : p'.1 = c
        · simp [h]
        · simpa [h] using hf _ hp')
      (by
        intro d hd
        obtain ⟨p, hp, rfl⟩ := List.mem_map.1 (hc d (List.mem_cons_of_mem _ hd))
        refine List.mem_map.2 ⟨_, List.mem_map.2 ⟨p, hp, rfl⟩, ?_⟩
        split_ifs with h
        · exact h.symm
        · rfl)
    refine ⟨⟨c, table R C (fun r s => q.val (v c r s * e s)), q.low m, m, ext, cont⟩ :: Ps, ?_, by simp [p2], ?_⟩
    · unfold vizPanels
      simp only [hget]
      rw [hmul]
      simp only [bind, Except.bind]
      rw [m1]
      simp only
      rw [p1]; rfl
    · intro i d hd
      cases i with
      | zero =>
        simp only [List.getElem?_cons_zero, Option.some.injEq] at hd
        subst hd
        refine ⟨_, rfl, rfl, ?_⟩
        have hone : ∀ s, e s ^ ((c :: cs).take (0 + 1)).count c = e s := by intro s; simp
        simp only [hone]
        exact ⟨trivial, trivial, trivial, trivial, m2, m3⟩
      | succ i =>
        rw [List.getElem?_cons_succ] at hd
        obtain ⟨P, h1, h2, h3, h4, h5, h6, h7, h8⟩ := p3 i d hd
        refine ⟨P, h1, h2, ?_⟩
        have hv : ∀ r s, (if d = c then fun r s => v c r s * e s else v d) r s * e s ^ (cs.take (i + 1)).count d =
            v d r s * e s ^ ((c :: cs).take (i + 1 + 1)).count d := by
          intro r s
          rw [List.take_succ_cons, List.count_cons]
          split_ifs with h h' h'
          · subst h; rw [pow_succ]; ring
          · subst h; simp at h'
          · simp at h'; exact absurd h'.symm h
          · simp
        simp only [hv] at h3 h7 h8
        exact ⟨h3, h4, h5, h6, h7, h8⟩

namespace Spec

/-- The grids of the plane: those of `xy_grid` for the unit cell and, vertically, of `z_grid` with its default distance. -/
def Grids (S : FieldSrc) (N1 N2 : ℕ) (g1 g2 : List ℝ) : FPlane → Prop
  | .xy _ => S.L.xyGrid N1 N2 .none = .ok (g1, g2)
  | .yz _ => (∃ g, S.L.xyGrid 2 N1 .none = .ok g ∧ g1 = g.2) ∧ zGrid S.layers N2 1 = .ok g2
  | .xz _ => (∃ g, S.L.xyGrid N1 2 .none = .ok g ∧ g1 = g.1) ∧ zGrid S.layers N2 1 = .ok g2

/-- The periodic part of component `c` of the mode at a point of the plane. -/
noncomputable def periodicPart (S : FieldSrc) (c : Char) (r : ℝ × ℝ × ℝ) : ℂ := pointField S.gvec (S.ft r.2.2 c) r.1 r.2.1

/-- Component `c` of the mode at a point of the plane. -/
noncomputable def fullField (S : FieldSrc) (c : Char) (r : ℝ × ℝ × ℝ) : ℂ :=
  blochField S.gvec S.k (S.ft r.2.2 c) r.1 r.2.1

/-- The permittivity outlined is that of the pixels. -/
def Outlines (S : FieldSrc) (p : FPlane) (eps : Bool) (g1 g2 : List ℝ) (P : Panel) : Prop :=
  (eps = false → P.contour = none) ∧ (eps = true → ∃ A, P.contour = some A ∧ A.length = g2.length ∧
    ∀ (r s : ℕ) (a b : ℝ), g2[r]? = some b → g1[s]? = some a → ∃ row, A[r]? = some row ∧ row.length = g1.length ∧
      row[s]? = some (S.eps (planePoint p a b).1 (planePoint p a b).2.1 (planePoint p a b).2.2))

end Spec

theorem xyGrid_ok (L : Lattice) (nx ny : ℕ) : ∃ g, L.xyGrid nx ny .none = .ok g ∧ g.1.length = nx ∧ g.2.length = ny := by
  unfold Lattice.xyGrid parsePeriods
  split_ifs
  · exact ⟨_, rfl, linspace_length _ _ _, linspace_length _ _ _⟩
  · exact ⟨_, rfl, linspace_length _ _ _, linspace_length _ _ _⟩

theorem zGrid_length {layers : List (ℝ × ℝ)} {nz : ℕ} {dist : ℝ} {zs : List ℝ} (h : zGrid layers nz dist = .ok zs) :
    zs.length = nz := by
  unfold zGrid at h
  split at h
  · cases h; exact linspace_length _ _ _
  · cases h

theorem grids_length {S : FieldSrc} {p : FPlane} {N1 N2 : ℕ} {g1 g2 : List ℝ} (h : Grids S N1 N2 g1 g2 p) :
    g1.length = N1 ∧ g2.length = N2 := by
  cases p with
  | xy z =>
    obtain ⟨g, h1, h2, h3⟩ := xyGrid_ok S.L N1 N2
    cases h1.symm.trans h
    exact ⟨h2, h3⟩
  | yz x =>
    obtain ⟨⟨g', h', rfl⟩, hz⟩ := h
    obtain ⟨g, h1, h2, h3⟩ := xyGrid_ok S.L 2 N1
    cases h1.symm.trans h'
    exact ⟨h3, zGrid_length hz⟩
  | xz y =>
    obtain ⟨⟨g', h', rfl⟩, hz⟩ := h
    obtain ⟨g, h1, h2, h3⟩ := xyGrid_ok S.L N1 2
    cases h1.symm.trans h'
    exact ⟨h2, zGrid_length hz⟩

theorem tabulates_table {fi : List (Char × List (List ℂ))} {cs : List Char} {rows cols : List ℝ} {value : Char → ℝ → ℝ → ℂ}
    (h : Tabulates fi cs rows cols value) :
    ∀ p ∈ fi, p.2 = table rows.length cols.length fun r s => value p.1 (rows.getD r 0) (cols.getD s 0) := by
  intro p hp
  obtain ⟨h1, h2⟩ := h.2.2 p.1 p.2 hp
  apply List.ext_getElem?
  intro r
  by_cases hr : r < rows.length
  · obtain ⟨row, r1, r2, r3⟩ := h2 r rows[r] (List.getElem?_eq_getElem hr)
    rw [r1]
    simp only [table, List.getElem?_map, List.getElem?_range hr, Option.map_some]
    congr 1
    apply List.ext_getElem?
    intro s
    by_cases hs : s < cols.length
    · rw [r3 s cols[s] (List.getElem?_eq_getElem hs)]
      simp [List.getElem?_range hs, hr, hs]
    · rw [List.getElem?_eq_none (by omega), List.getElem?_eq_none (by simp; omega)]
  · rw [List.getElem?_eq_none (by omega), List.getElem?_eq_none (by simp [table]; omega)]

theorem vizData_ok (S : FieldSrc) (hg : S.gvec.Nodup) (p : FPlane) (cs : List Char) (N1 N2 : ℕ)
    (hcs : ∀ c ∈ cs, c = 'x' ∨ c = 'y' ∨ c = 'z') (hl : S.layers ≠ [] ∨ ∃ z, p = .xy z) :
    ∃ fi g1 g2, vizData S p cs N1 N2 = .ok (fi, g1, g2) ∧ Grids S N1 N2 g1 g2 p ∧
      Tabulates fi cs g2 g1 fun c b a => periodicPart S c (planePoint p a b) := by
  cases p with
  | xy z =>
    obtain ⟨fi, xs, ys, h, -, -, hx, hy, ht⟩ := C100_xy S.L S.ft S.gvec hg z none none cs N1 N2 hcs
    refine ⟨fi, xs, ys, h, ?_, ht⟩
    obtain ⟨g, h1, rfl⟩ := hx rfl
    obtain ⟨g', h2, rfl⟩ := hy rfl
    cases h1.symm.trans h2
    exact h1
  | yz x =>
    obtain ⟨fi, xs, ys, h, -, -, hx, hy, ht⟩ := C100_yz S.L S.layers S.ft S.gvec hg x none none cs N1 N2 1 hcs fun _ =>
      hl.elim id (by rintro ⟨z, h⟩; cases h)
    exact ⟨fi, xs, ys, h, ⟨hx rfl 2, hy rfl⟩, ht⟩
  | xz y =>
    obtain ⟨fi, xs, ys, h, -, -, hx, hy, ht⟩ := C100_xz S.L S.layers S.ft S.gvec hg y none none cs N1 N2 1 hcs fun _ =>
      hl.elim id (by rintro ⟨z, h⟩; cases h)
    exact ⟨fi, xs, ys, h, ⟨hx rfl 2, hy rfl⟩, ht⟩

theorem vizEps_outlines (S : FieldSrc) (p : FPlane) (eps : Bool) (g1 g2 : List ℝ) (P : Panel)
    (h : P.contour = if eps then some (vizEps S p g1 g2) else none) : Outlines S p eps g1 g2 P := by
  refine ⟨?_, ?_⟩
  · rintro rfl; simpa using h
  · rintro rfl
    refine ⟨_, h, by simp [vizEps], ?_⟩
    intro r s a b hb ha
    refine ⟨g1.map fun a => S.eps (planePoint p a b).1 (planePoint p a b).2.1 (planePoint p a b).2.2, ?_, by simp, ?_⟩
    · simp only [vizEps, List.getElem?_map, hb, Option.map_some]
      cases p <;> rfl
    · simp [ha]

/-- The panels when the phases are known. -/
theorem vizField_shows (S : FieldSrc) (hg : S.gvec.Nodup) (x y z : Option ℝ) (p : FPlane)
    (hp : vizPlane S.isGme x y z = .ok p) (hl : S.layers ≠ [] ∨ ∃ z, p = .xy z) (periodic : Bool) (component : String) (q : Part) (val : String)
    (hv : pyLower val = pyLower q.name) (N1 N2 : ℕ) (h1 : 0 < N1) (h2 : 0 < N2) (eps : Bool)
    (hne : pyLower component ≠ []) (hcs : ∀ c ∈ pyLower component, c = 'x' ∨ c = 'y' ∨ c = 'z') :
    ∃ g1 g2, Grids S N1 N2 g1 g2 p ∧ ∀ e : ℕ → ℂ, ((periodic = true ∧ ∀ s, e s = 1) ∨
        (periodic = false ∧ vizKenv S.k p g1 g2 = .ok ((List.range N1).map e))) →
      ∃ Ps, vizField S x y z periodic component val N1 N2 eps = .ok Ps ∧ Ps.length = (pyLower component).length ∧
        ∀ (i : ℕ) (c : Char), (pyLower component)[i]? = some c → ∃ P, Ps[i]? = some P ∧
          Shows P c q g1 g2 (fun r s => periodicPart S c (planePoint p (g1.getD s 0) (g2.getD r 0)) *
            e s ^ ((pyLower component).take (i + 1)).count c) ∧
          Outlines S p eps g1 g2 P := by
  obtain ⟨fi, g1, g2, hd, hgr, ht⟩ := vizData_ok S hg p (pyLower component) N1 N2 hcs hl
  obtain ⟨l1, l2⟩ := grids_length hgr
  refine ⟨g1, g2, hgr, ?_⟩
  intro e he
  have hk : ∃ kenv, vizPhase S.k p periodic g1 g2 = .ok kenv ∧ Factor kenv N1 e := by
    rcases he with ⟨rfl, h⟩ | ⟨rfl, h⟩
    · exact ⟨none, rfl, Or.inl ⟨rfl, h⟩⟩
    · exact ⟨some _, by simp only [vizPhase]; rw [h]; rfl, Or.inr rfl⟩
  obtain ⟨kenv, hk1, hk2⟩ := hk
  have htab := tabulates_table ht
  rw [l1, l2] at htab
  obtain ⟨Ps, p1, p2, p3⟩ := vizPanels_table q N2 N1 h2 h1 kenv e hk2
    (g1.headD 0, g1.getLastD 0, g2.headD 0, g2.getLastD 0) (if eps then some (vizEps S p g1 g2) else none)
    (pyLower component) fi
    (fun c r s => periodicPart S c (planePoint p (g1.getD s 0) (g2.getD r 0))) htab fun c hc => (ht.2.1 c).2 hc
  refine ⟨Ps, ?_, p2, ?_⟩
  · unfold vizField
    rw [hp]
    simp only [bind, Except.bind]
    rw [hd]
    simp only
    rw [hk1]
    simp only
    rw [if_neg hne, hv]
    exact p1
  · intro i c hc
    obtain ⟨P, q1, q2, q3, q4, q5, q6, q7, q8⟩ := p3 i c hc
    refine ⟨P, q1, ⟨q2, ?_, ?_, q6, ?_, ?_⟩, vizEps_outlines S p eps g1 g2 P q5⟩
    · rw [q3, l1, l2]; rfl
    · rw [q4]
      have hd : ∀ g : List ℝ, 0 < g.length → g[0]? = some (g.headD 0) ∧ g[g.length - 1]? = some (g.getLastD 0) := by
        intro g hg
        cases g with
        | nil => simp at hg
        | cons a l => exact ⟨rfl, by rw [← List.getLast?_eq_getElem?, List.getLastD_eq_getLast?]; simp [List.getLast?_cons]⟩
      exact ⟨(hd g1 (by omega)).1, (hd g1 (by omega)).2, (hd g2 (by omega)).1, (hd g2 (by omega)).2⟩
    · rw [l1, l2]; exact q7
    · rw [l1, l2]; exact q8

/-- **C114 (planes).** For a slab exactly one coordinate must be given, and it selects the plane; anything else raises
`ValueError`. A two-dimensional structure can only be shown in the xy plane: without coordinates or with `z` alone; `x` alone
or `y` alone raises `NotImplementedError` and several coordinates raise `ValueError`. -/
theorem C114_planes (S : FieldSrc) (periodic : Bool) (component val : String) (N1 N2 : ℕ) (eps : Bool) (x y z : ℝ) :
    (S.isGme = true → vizPlane true none none (some z) = .ok (.xy z) ∧ vizPlane true (some x) none none = .ok (.yz x) ∧
      vizPlane true none (some y) none = .ok (.xz y) ∧
      ∀ ox oy oz : Option ℝ, ([ox, oy, oz].filterMap id).length ≠ 1 →
        vizField S ox oy oz periodic component val N1 N2 eps = .error .valueError) ∧
    (S.isGme = false → (∃ z', vizPlane false none none none = .ok (.xy z')) ∧
      vizPlane false none none (some z) = .ok (.xy z) ∧
      vizField S (some x) none none periodic component val N1 N2 eps = .error .notImplementedError ∧
      vizField S none (some y) none periodic component val N1 N2 eps = .error .notImplementedError ∧
      ∀ ox oy oz : Option ℝ, 2 ≤ ([ox, oy, oz].filterMap id).length →
        vizField S ox oy oz periodic component val N1 N2 eps = .error .valueError) := by
  refine ⟨fun h => ⟨rfl, rfl, rfl, ?_⟩, fun h => ⟨⟨0, rfl⟩, rfl, ?_, ?_, ?_⟩⟩
  · intro ox oy oz hne
    unfold vizField
    rw [h]
    cases ox <;> cases oy <;> cases oz <;> first | rfl | exact absurd rfl hne
  · unfold vizField; rw [h]; rfl
  · unfold vizField; rw [h]; rfl
  · intro ox oy oz hne
    unfold vizField
    rw [h]
    cases ox <;> cases oy <;> cases oz <;> first | rfl | (exfalso; revert hne; decide) | (simp at hne)

/-- **C114 (periodic part).** With `periodic=True` there is one panel per letter of `component`, in its order. A panel shows
the real part, the imaginary part or the modulus of that component of the periodic part of the mode at the points of the
grid, and the outline is that of the permittivity at the same points. -/
theorem C114_periodic (S : FieldSrc) (hg : S.gvec.Nodup) (x y z : Option ℝ) (p : FPlane)
    (hp : vizPlane S.isGme x y z = .ok p) (hl : S.layers ≠ [] ∨ ∃ z, p = .xy z) (component : String) (q : Part)
    (val : String) (hv : pyLower val = pyLower q.name) (N1 N2 : ℕ) (h1 : 2 ≤ N1) (h2 : 2 ≤ N2) (eps : Bool)
    (hne : pyLower component ≠ []) (hcs : ∀ c ∈ pyLower component, c = 'x' ∨ c = 'y' ∨ c = 'z') :
    ∃ g1 g2 Ps, Grids S N1 N2 g1 g2 p ∧ vizField S x y z true component val N1 N2 eps = .ok Ps ∧
      Ps.length = (pyLower component).length ∧ ∀ (i : ℕ) (c : Char), (pyLower component)[i]? = some c → ∃ P, Ps[i]? = some P ∧
        Shows P c q g1 g2 (fun r s => periodicPart S c (planePoint p (g1.getD s 0) (g2.getD r 0))) ∧
        Outlines S p eps g1 g2 P := by
  obtain ⟨g1, g2, hgr, h⟩ := vizField_shows S hg x y z p hp hl true component q val hv N1 N2 (by omega) (by omega) eps hne hcs
  obtain ⟨Ps, a, b, c⟩ := h (fun _ => 1) (Or.inl ⟨rfl, fun _ => rfl⟩)
  refine ⟨g1, g2, Ps, hgr, a, b, ?_⟩
  simpa only [one_pow, mul_one] using c

theorem range_map_getD {β : Type} (g : List ℝ) (f : ℝ → β) :
    ((List.range g.length).map fun (s : ℕ) => f (g.getD s 0)) = g.map f := by
  apply List.ext_getElem?
  intro i
  by_cases hi : i < g.length
  · simp [List.getElem?_range hi, hi]
  · rw [List.getElem?_eq_none (by simp; omega), List.getElem?_eq_none (by simp; omega)]

/-- Phase of column `s`. -/
noncomputable def columnPhase (k : R2) (g1 g2 : List ℝ) : FPlane → ℕ → ℂ
  | .xy _, s => Complex.exp (Complex.I * ((k.1 * g1.getD s 0 + k.2 * g2.getD s 0 : ℝ) : ℂ))
  | .yz x, s => Complex.exp (Complex.I * ((k.1 * x + k.2 * g1.getD s 0 : ℝ) : ℂ))
  | .xz y, s => Complex.exp (Complex.I * ((k.1 * g1.getD s 0 + k.2 * y : ℝ) : ℂ))

theorem vizKenv_ok (k : R2) (p : FPlane) (g1 g2 : List ℝ) (h : g1.length = g2.length ∨ ∀ z, p ≠ .xy z) :
    vizKenv k p g1 g2 = .ok ((List.range g1.length).map (columnPhase k g1 g2 p)) := by
  cases p with
  | xy z =>
    replace h : g1.length = g2.length := h.elim id fun h => absurd rfl (h z)
    unfold vizKenv addRows
    simp only
    rw [if_pos (by simpa using h)]
    simp only [Except.map]
    congr 1
    apply List.ext_getElem?
    intro i
    by_cases hi : i < g1.length
    · have hi' : i < g2.length := by omega
      simp only [List.getElem?_map, List.getElem?_zipWith, List.getElem?_eq_getElem hi, List.getElem?_eq_getElem hi',
        Option.map_some, List.getElem?_range hi, columnPhase]
      simp only [List.getD_eq_getElem?_getD, List.getElem?_eq_getElem hi, List.getElem?_eq_getElem hi', Option.getD_some]
      congr 2
      push_cast; ring
    · rw [List.getElem?_eq_none (by simp; omega), List.getElem?_eq_none (by simp; omega)]
  | yz x =>
    unfold vizKenv columnPhase
    simp only
    rw [range_map_getD g1 fun a => Complex.exp (Complex.I * ((k.1 * x + k.2 * a : ℝ) : ℂ))]
    congr 1
    refine List.map_congr_left fun a _ => ?_
    congr 1; push_cast; ring
  | xz y =>
    unfold vizKenv columnPhase
    simp only
    rw [range_map_getD g1 fun a => Complex.exp (Complex.I * ((k.1 * a + k.2 * y : ℝ) : ℂ))]
    congr 1
    refine List.map_congr_left fun a _ => ?_
    congr 1; push_cast; ring

/-- **C114 (full field, partial).** The claim that `periodic=False` shows the full field, whose waves have the wave vectors
`G + k`, holds in vertical planes, and in the xy plane if the two grids have the same number of points and `k` has no
y component; letters of `component` must not be repeated. Missing: other wave vectors and grids in the xy plane
(`C114_xy_phase`, `C114_xy_wrong`, `C114_xy_unequal`) and repeated letters (`C114_repeated`). -/
theorem C114_bloch_partial (S : FieldSrc) (hg : S.gvec.Nodup) (x y z : Option ℝ) (p : FPlane)
    (hp : vizPlane S.isGme x y z = .ok p) (hl : S.layers ≠ [] ∨ ∃ z, p = .xy z) (component : String) (q : Part)
    (val : String) (hv : pyLower val = pyLower q.name) (N1 N2 : ℕ) (h1 : 2 ≤ N1) (h2 : 2 ≤ N2) (eps : Bool)
    (hne : pyLower component ≠ []) (hcs : ∀ c ∈ pyLower component, c = 'x' ∨ c = 'y' ∨ c = 'z')
    (hnd : (pyLower component).Nodup) (hk : (N1 = N2 ∧ S.k.2 = 0) ∨ ∀ z, p ≠ .xy z) :
    ∃ g1 g2 Ps, Grids S N1 N2 g1 g2 p ∧ vizField S x y z false component val N1 N2 eps = .ok Ps ∧
      Ps.length = (pyLower component).length ∧ ∀ (i : ℕ) (c : Char), (pyLower component)[i]? = some c → ∃ P, Ps[i]? = some P ∧
        Shows P c q g1 g2 (fun r s => fullField S c (planePoint p (g1.getD s 0) (g2.getD r 0))) ∧
        Outlines S p eps g1 g2 P := by
  obtain ⟨g1, g2, hgr, h⟩ := vizField_shows S hg x y z p hp hl false component q val hv N1 N2 (by omega) (by omega) eps hne hcs
  obtain ⟨l1, l2⟩ := grids_length hgr
  obtain ⟨Ps, a, b, c⟩ := h (columnPhase S.k g1 g2 p) (Or.inr ⟨rfl, by
    rw [vizKenv_ok _ _ _ _ (hk.imp (fun h => by omega) id), l1]⟩)
  refine ⟨g1, g2, Ps, hgr, a, b, ?_⟩
  intro i d hd
  obtain ⟨P, c1, c2, c3⟩ := c i d hd
  refine ⟨P, c1, ?_, c3⟩
  have hcount : ((pyLower component).take (i + 1)).count d = 1 := by
    refine List.count_eq_one_of_mem (hnd.sublist (List.take_sublist _ _)) ?_
    exact List.mem_of_getElem? (i := i) (by rw [List.getElem?_take_of_lt (by omega), hd])
  convert c2 using 3 with r s
  rw [hcount, pow_one, fullField, bloch_eq, periodicPart]
  congr 1
  cases p with
  | xy z =>
    obtain ⟨-, hky⟩ := hk.elim id fun h => absurd rfl (h z)
    simp only [planePoint, columnPhase, hky, zero_mul]
  | yz x => rfl
  | xz y => rfl

/-- **C114 (xy plane).** With as many points in `x` as in `y`, `periodic=False` in the xy plane shows the full field with a
wrong phase: the pixel at `(x_s, y_r)` is multiplied by `exp(i k_y (y_s - y_r))`. -/
theorem C114_xy_phase (S : FieldSrc) (hg : S.gvec.Nodup) (z : ℝ) (component : String) (q : Part)
    (val : String) (hv : pyLower val = pyLower q.name) (N : ℕ) (h1 : 2 ≤ N) (eps : Bool)
    (hne : pyLower component ≠ []) (hcs : ∀ c ∈ pyLower component, c = 'x' ∨ c = 'y' ∨ c = 'z')
    (hnd : (pyLower component).Nodup) :
    ∃ g1 g2 Ps, S.L.xyGrid N N .none = .ok (g1, g2) ∧ vizField S none none (some z) false component val N N eps = .ok Ps ∧
      Ps.length = (pyLower component).length ∧ ∀ (i : ℕ) (c : Char), (pyLower component)[i]? = some c → ∃ P, Ps[i]? = some P ∧
        Shows P c q g1 g2 (fun r s => fullField S c (g1.getD s 0, g2.getD r 0, z) *
          Complex.exp (Complex.I * ((S.k.2 * (g2.getD s 0 - g2.getD r 0) : ℝ) : ℂ))) := by
  have hp : vizPlane S.isGme none none (some z) = .ok (.xy z) := rfl
  obtain ⟨g1, g2, hgr, h⟩ := vizField_shows S hg none none (some z) _ hp (Or.inr ⟨z, rfl⟩) false component q val hv N N
    (by omega) (by omega) eps hne hcs
  obtain ⟨l1, l2⟩ := grids_length hgr
  obtain ⟨Ps, a, b, c⟩ := h (columnPhase S.k g1 g2 (.xy z)) (Or.inr ⟨rfl, by
    rw [vizKenv_ok _ _ _ _ (Or.inl (by omega)), l1]⟩)
  refine ⟨g1, g2, Ps, hgr, a, b, ?_⟩
  intro i d hd
  obtain ⟨P, c1, c2, c3⟩ := c i d hd
  refine ⟨P, c1, ?_⟩
  have hcount : ((pyLower component).take (i + 1)).count d = 1 := by
    refine List.count_eq_one_of_mem (hnd.sublist (List.take_sublist _ _)) ?_
    exact List.mem_of_getElem? (i := i) (by rw [List.getElem?_take_of_lt (by omega), hd])
  convert c2 using 3 with r s
  rw [hcount, pow_one, fullField, bloch_eq, periodicPart, mul_assoc, ← Complex.exp_add, columnPhase]
  simp only [planePoint]
  congr 2
  push_cast; ring

/-- **C114 (different numbers of points).** With different numbers of points in `x` and `y`, `periodic=False` in the xy plane
raises `ValueError`, whatever the wave vector. -/
theorem C114_xy_unequal (S : FieldSrc) (hg : S.gvec.Nodup) (z : ℝ) (component val : String) (N1 N2 : ℕ) (h1 : 2 ≤ N1)
    (h2 : 2 ≤ N2) (hne : N1 ≠ N2) (eps : Bool) (hcs : ∀ c ∈ pyLower component, c = 'x' ∨ c = 'y' ∨ c = 'z') :
    vizField S none none (some z) false component val N1 N2 eps = .error .valueError := by
  obtain ⟨fi, g1, g2, hd, hgr, ht⟩ := vizData_ok S hg (.xy z) (pyLower component) N1 N2 hcs (Or.inr ⟨z, rfl⟩)
  obtain ⟨l1, l2⟩ := grids_length hgr
  have hk : vizPhase S.k (.xy z) false g1 g2 = .error .valueError := by
    unfold vizPhase vizKenv addRows
    simp only [List.length_map]
    rw [if_neg Bool.false_ne_true, if_neg (by omega), if_neg (by omega), if_neg (by omega)]
    rfl
  unfold vizField
  have hp : vizPlane S.isGme none none (some z) = .ok (.xy z) := rfl
  rw [hp]
  simp only [bind, Except.bind]
  rw [hd]
  simp only
  rw [hk]

/-- **C114 (moduli).** With `val='abs'` the modulus of the full field is shown in every plane, also where the phase is wrong
and for repeated letters; it is that of the periodic part. -/
theorem C114_abs (S : FieldSrc) (hg : S.gvec.Nodup) (x y z : Option ℝ) (p : FPlane)
    (hp : vizPlane S.isGme x y z = .ok p) (hl : S.layers ≠ [] ∨ ∃ z, p = .xy z) (periodic : Bool) (component : String)
    (val : String) (hv : pyLower val = pyLower "abs") (N1 N2 : ℕ) (h1 : 2 ≤ N1) (h2 : 2 ≤ N2) (eps : Bool)
    (hne : pyLower component ≠ []) (hcs : ∀ c ∈ pyLower component, c = 'x' ∨ c = 'y' ∨ c = 'z')
    (hN : periodic = true ∨ N1 = N2 ∨ ∀ z, p ≠ .xy z) :
    ∃ g1 g2 Ps, Grids S N1 N2 g1 g2 p ∧ vizField S x y z periodic component val N1 N2 eps = .ok Ps ∧
      Ps.length = (pyLower component).length ∧ ∀ (i : ℕ) (c : Char), (pyLower component)[i]? = some c → ∃ P, Ps[i]? = some P ∧
        Shows P c .abs g1 g2 (fun r s => fullField S c (planePoint p (g1.getD s 0) (g2.getD r 0))) := by
  obtain ⟨g1, g2, hgr, h⟩ := vizField_shows S hg x y z p hp hl periodic component .abs val hv N1 N2 (by omega) (by omega)
    eps hne hcs
  obtain ⟨l1, l2⟩ := grids_length hgr
  have hn : ∀ t : ℝ, ‖Complex.exp (Complex.I * (t : ℂ))‖ = 1 := by
    intro t; rw [mul_comm]; exact Complex.norm_exp_ofReal_mul_I t
  have hmod : ∀ (c : Char) (r : ℝ × ℝ × ℝ), ‖periodicPart S c r‖ = ‖fullField S c r‖ := by
    intro c r
    rw [fullField, bloch_eq, norm_mul, hn, mul_one, periodicPart]
  have key : ∃ e : ℕ → ℂ, (∀ s, ‖e s‖ = 1) ∧ ((periodic = true ∧ ∀ s, e s = 1) ∨
      (periodic = false ∧ vizKenv S.k p g1 g2 = .ok ((List.range N1).map e))) := by
    cases periodic with
    | true => exact ⟨fun _ => 1, by simp, Or.inl ⟨rfl, fun _ => rfl⟩⟩
    | false =>
      refine ⟨columnPhase S.k g1 g2 p, ?_, Or.inr ⟨rfl, ?_⟩⟩
      · intro s; cases p <;> exact hn _
      · rw [vizKenv_ok _ _ _ _ ((hN.resolve_left (by simp)).imp (fun h => by omega) id), l1]
  obtain ⟨e, he1, he2⟩ := key
  obtain ⟨Ps, a, b, c⟩ := h e he2
  refine ⟨g1, g2, Ps, hgr, a, b, ?_⟩
  intro i d hd
  obtain ⟨P, c1, ⟨d1, d2, d3, d4, d5, d6⟩, -⟩ := c i d hd
  have hval : ∀ r s, Part.abs.val (periodicPart S d (planePoint p (g1.getD s 0) (g2.getD r 0)) *
      e s ^ ((pyLower component).take (i + 1)).count d) =
      Part.abs.val (fullField S d (planePoint p (g1.getD s 0) (g2.getD r 0))) := by
    intro r s
    simp only [Part.val]
    rw [norm_mul, norm_pow, he1, one_pow, mul_one, hmod]
  simp only [hval] at d2 d5 d6
  exact ⟨P, c1, d1, d2, d3, d4, d5, d6⟩

/-- **C114 (repeated letters).** In a vertical plane with `periodic=False`, the `n`-th panel of the same component shows the
periodic part times the `n`-th power of the phase. -/
theorem C114_repeated (S : FieldSrc) (hg : S.gvec.Nodup) (x y z : Option ℝ) (p : FPlane)
    (hp : vizPlane S.isGme x y z = .ok p) (hl : S.layers ≠ []) (hv' : ∀ z, p ≠ .xy z) (component : String) (q : Part)
    (val : String) (hv : pyLower val = pyLower q.name) (N1 N2 : ℕ) (h1 : 2 ≤ N1) (h2 : 2 ≤ N2) (eps : Bool)
    (hne : pyLower component ≠ []) (hcs : ∀ c ∈ pyLower component, c = 'x' ∨ c = 'y' ∨ c = 'z') :
    ∃ g1 g2 Ps, Grids S N1 N2 g1 g2 p ∧ vizField S x y z false component val N1 N2 eps = .ok Ps ∧
      ∀ (i : ℕ) (c : Char), (pyLower component)[i]? = some c → ∃ P, Ps[i]? = some P ∧
        Shows P c q g1 g2 (fun r s => periodicPart S c (planePoint p (g1.getD s 0) (g2.getD r 0)) *
          Complex.exp (Complex.I * ((S.k.1 * (planePoint p (g1.getD s 0) (g2.getD r 0)).1 +
            S.k.2 * (planePoint p (g1.getD s 0) (g2.getD r 0)).2.1 : ℝ) : ℂ)) ^
              ((pyLower component).take (i + 1)).count c) := by
  obtain ⟨g1, g2, hgr, h⟩ := vizField_shows S hg x y z p hp (Or.inl hl) false component q val hv N1 N2 (by omega) (by omega)
    eps hne hcs
  obtain ⟨l1, l2⟩ := grids_length hgr
  obtain ⟨Ps, a, b, c⟩ := h (columnPhase S.k g1 g2 p) (Or.inr ⟨rfl, by rw [vizKenv_ok _ _ _ _ (Or.inr hv'), l1]⟩)
  refine ⟨g1, g2, Ps, hgr, a, ?_⟩
  intro i d hd
  obtain ⟨P, c1, c2, c3⟩ := c i d hd
  refine ⟨P, c1, ?_⟩
  convert c2 using 5 with r s
  cases p with
  | xy z => exact absurd rfl (hv' z)
  | yz x => rfl
  | xz y => rfl

/-- **C114 (errors).** Without letters in `component`, with other letters than x, y, z, or with another `val`, `ValueError`
is raised. -/
theorem C114_errors (S : FieldSrc) (hg : S.gvec.Nodup) (x y z : Option ℝ) (p : FPlane)
    (hp : vizPlane S.isGme x y z = .ok p) (hl : S.layers ≠ [] ∨ ∃ z, p = .xy z) (periodic : Bool) (component val : String)
    (N1 N2 : ℕ) (h1 : 2 ≤ N1) (h2 : 2 ≤ N2) (eps : Bool)
    (h : pyLower component = [] ∨ (∃ c ∈ pyLower component, c ≠ 'x' ∧ c ≠ 'y' ∧ c ≠ 'z') ∨
      ∀ q : Part, pyLower val ≠ pyLower q.name) :
    vizField S x y z periodic component val N1 N2 eps = .error .valueError := by
  by_cases hbad : ∃ c ∈ pyLower component, c ≠ 'x' ∧ c ≠ 'y' ∧ c ≠ 'z'
  · have hd : vizData S p (pyLower component) N1 N2 = .error .valueError := by
      obtain ⟨gg, hgg, -, -⟩ := xyGrid_ok S.L N1 N2
      obtain ⟨gg1, hgg1, -, -⟩ := xyGrid_ok S.L N1 2
      obtain ⟨gg2, hgg2, -, -⟩ := xyGrid_ok S.L 2 N1
      cases p with
      | xy z =>
        simp only [vizData, getFieldXy, hgg, Except.map, bind, Except.bind]
        rw [(C74_components _ _ _).1 hbad]
      | yz x =>
        have hz : ∃ zs, zGrid S.layers N2 1 = .ok zs := by
          obtain ⟨_, _, zs, -, ⟨-, hz⟩, -⟩ := vizData_ok S hg (.yz x) ['x'] N1 N2 (by simp) hl
          exact ⟨zs, hz⟩
        obtain ⟨zs, hz⟩ := hz
        simp only [vizData, getFieldYz, gridOr, hgg2, hz, Except.map, bind, Except.bind]
        rw [(C74_components _ _ _).1 hbad]
      | xz y =>
        have hz : ∃ zs, zGrid S.layers N2 1 = .ok zs := by
          obtain ⟨_, _, zs, -, ⟨-, hz⟩, -⟩ := vizData_ok S hg (.xz y) ['x'] N1 N2 (by simp) hl
          exact ⟨zs, hz⟩
        obtain ⟨zs, hz⟩ := hz
        simp only [vizData, getFieldXz, gridOr, hgg1, hz, Except.map, bind, Except.bind]
        rw [(C74_components _ _ _).1 hbad]
    unfold vizField
    rw [hp]
    simp only [bind, Except.bind]
    rw [hd]
  · have hcs : ∀ c ∈ pyLower component, c = 'x' ∨ c = 'y' ∨ c = 'z' := by
      intro c hc
      by_contra hn
      push Not at hn
      exact hbad ⟨c, hc, hn⟩
    obtain ⟨fi, g1, g2, hd, hgr, ht⟩ := vizData_ok S hg p (pyLower component) N1 N2 hcs hl
    unfold vizField
    rw [hp]
    simp only [bind, Except.bind]
    rw [hd]
    simp only
    have hkv : ∀ e, vizPhase S.k p periodic g1 g2 = .error e → e = .valueError := by
      intro e he
      unfold vizPhase at he
      split_ifs at he
      cases p with
      | xy z =>
        unfold vizKenv addRows at he
        simp only at he
        split_ifs at he
        · cases he
        · cases he
        · cases he
        · exact (Except.error.inj he).symm
      | yz x => cases he
      | xz y => cases he
    cases hph : vizPhase S.k p periodic g1 g2 with
    | error e => rw [hkv e hph]
    | ok kenv =>
      simp only
      by_cases hc0 : pyLower component = []
      · rw [if_pos hc0]
      · rw [if_neg hc0]
        rcases h with h | h | h
        · exact absurd h hc0
        · exact absurd h hbad
        · obtain ⟨p1, p2, p3⟩ := pyLower_parts
          have hvv : ∀ f, vizValue (pyLower val) f = .error .valueError := by
            intro f
            unfold vizValue
            have e1 := h .re; have e2 := h .im; have e3 := h .abs
            simp only [Part.name, p1, p2, p3] at e1 e2 e3
            rw [if_neg (by simp [e1, e2]), if_neg e3]
          obtain ⟨c, cs, hc⟩ := List.exists_cons_of_ne_nil hc0
          rw [hc]
          unfold vizPanels
          simp only [bind, Except.bind]
          have hmv : ∀ f e, applyKenv f kenv = .error e → e = .valueError := by
            intro f e he
            cases kenv with
            | none => cases he
            | some l =>
              replace he : mulRows f l = .error e := he
              unfold mulRows at he
              induction f with
              | nil => cases he
              | cons row f ih =>
                rw [List.mapM_cons] at he
                by_cases hlen : row.length = l.length
                · rw [if_pos hlen] at he
                  simp only [bind, Except.bind] at he
                  split at he
                  · rename_i e' he'
                    cases he
                    exact ih he'
                  · cases he
                · rw [if_neg hlen] at he
                  by_cases h1 : l.length = 1
                  · rw [if_pos h1] at he
                    simp only [bind, Except.bind] at he
                    split at he
                    · rename_i e' he'
                      cases he
                      exact ih he'
                    · cases he
                  · rw [if_neg h1] at he
                    cases he; rfl
          split
          · rename_i e he
            rw [hmv _ e he]
          · rw [hvv]

/-- A slab on the square lattice with one plane wave at the wave vector `(0, π)`. -/
noncomputable def oneWave : FieldSrc where
  isGme := true
  L := ⟨.square, (1, 0), (0, 1), (2 * Real.pi, 0), (0, 2 * Real.pi), 1, 4 * Real.pi ^ 2⟩
  layers := [(0, 1)]
  ft := fun _ _ => [1]
  gvec := [(0, 0)]
  k := (0, Real.pi)
  eps := fun _ _ z => if z < 1 then 12 else 1

theorem oneWave_nodup : oneWave.gvec.Nodup := by simp [oneWave]

theorem oneWave_grid : oneWave.L.xyGrid 2 2 .none = .ok ([-1 / 2, 1 / 2], [-1 / 2, 1 / 2]) := by
  have h2 : ∀ a b : ℝ, linspace a b 2 = [a, b] := by
    intro a b
    simp [linspace, List.range_succ]
    norm_num
  simp only [Lattice.xyGrid, parsePeriods, oneWave, true_or, if_true, bind, Except.bind, pure, Except.pure, h2]
  norm_num

theorem oneWave_field (x y z : ℝ) : (fullField oneWave 'x' (x, y, z)) = Complex.exp (Complex.I * ((Real.pi * y : ℝ) : ℂ)) := by
  simp [fullField, blochField, oneWave]

/-- **C114 (wrong phase).** In the xy plane `periodic=False` shows at some pixels the opposite of the full field: for the
plane wave at `(0, π)` the pixel at `(1/2, -1/2)` shows `1` where the field has the imaginary part `-1`. -/
theorem C114_xy_wrong : ∃ P, vizField oneWave none none (some 0) false "x" "im" 2 2 false = .ok [P] ∧
    (P.Z[0]?.bind fun row => row[1]?) = some 1 ∧ P.extent = (-1 / 2, 1 / 2, -1 / 2, 1 / 2) ∧
    (fullField oneWave 'x' (1 / 2, -1 / 2, 0)).im = -1 := by
  have hx : pyLower "x" = ['x'] := by decide
  obtain ⟨g1, g2, Ps, hgr, hok, hlen, hP⟩ := C114_xy_phase oneWave oneWave_nodup 0 "x" .im "im" rfl 2 le_rfl false
    (by rw [hx]; simp) (by rw [hx]; simp) (by rw [hx]; simp)
  rw [hx] at hlen hP
  cases oneWave_grid.symm.trans hgr
  obtain ⟨P, hP1, h1, h2, h3, -⟩ := hP 0 'x' rfl
  have hf : fullField oneWave 'x' (1 / 2, -1 / 2, 0) = -Complex.I := by
    rw [oneWave_field]
    have : Complex.I * ((Real.pi * (-1 / 2) : ℝ) : ℂ) = -(Real.pi / 2 * Complex.I) := by push_cast; ring
    rw [this, Complex.exp_neg, Complex.exp_pi_div_two_mul_I, Complex.inv_I]
  refine ⟨P, ?_, ?_, ?_, ?_⟩
  · rw [hok]
    congr 1
    match Ps, hlen, hP1 with
    | [a], _, h => simpa using h
  · rw [h2]
    simp [List.range_succ]
    have hf' := hf
    norm_num at hf'
    rw [Part.val]
    have hpi : Complex.exp (Complex.I * (((oneWave.k.2 : ℝ) : ℂ) * (2⁻¹ - -1 / 2))) = -1 := by
      have : Complex.I * (((oneWave.k.2 : ℝ) : ℂ) * (2⁻¹ - -1 / 2)) = Real.pi * Complex.I := by
        simp only [oneWave]; ring
      rw [this, Complex.exp_pi_mul_I]
    rw [hpi, show (2⁻¹ : ℝ) = 1 / 2 by norm_num, hf]
    simp
  · obtain ⟨e1, e2, e3, e4⟩ := h3
    simp at e1 e2 e3 e4
    refine Prod.ext ?_ (Prod.ext ?_ (Prod.ext ?_ ?_))
    · exact e1.symm
    · exact e2.symm.trans (by norm_num)
    · exact e3.symm
    · exact e4.symm.trans (by norm_num)
  · rw [hf]; simp

example : ∃ g1 g2 Ps, Grids oneWave 3 4 g1 g2 (.xz 5) ∧ vizField oneWave none (some 5) none false "zX" "Re" 3 4 true = .ok Ps ∧
    Ps.length = 2 := by
  have hx : pyLower "zX" = ['z', 'x'] := by decide
  obtain ⟨g1, g2, Ps, h1, h2, h3, -⟩ := C114_bloch_partial oneWave oneWave_nodup none (some 5) none (.xz 5) rfl (Or.inl (by simp [oneWave]))
    "zX" .re "Re" (by decide) 3 4 (by norm_num) (by norm_num) true (by rw [hx]; simp) (by rw [hx]; simp) (by rw [hx]; simp)
    (Or.inr (by simp))
  exact ⟨g1, g2, Ps, h1, h2, by rw [h3, hx]; rfl⟩

example : ∃ g1 g2 Ps, Grids oneWave 3 4 g1 g2 (.yz 5) ∧ vizField oneWave (some 5) none none false "xx" "im" 3 4 true = .ok Ps ∧
    ∃ P, Ps[1]? = some P ∧ P.comp = 'x' := by
  have hx : pyLower "xx" = ['x', 'x'] := by decide
  obtain ⟨g1, g2, Ps, h1, h2, h3⟩ := C114_repeated oneWave oneWave_nodup (some 5) none none (.yz 5) rfl (by simp [oneWave])
    (by simp) "xx" .im "im" (by decide) 3 4 (by norm_num) (by norm_num) true (by rw [hx]; simp) (by rw [hx]; simp)
  obtain ⟨P, p1, p2⟩ := h3 1 'x' (by rw [hx]; rfl)
  exact ⟨g1, g2, Ps, h1, h2, P, p1, p2.1⟩

example : (∃ Ps, vizField oneWave none none (some 0) true "xyz" "abs" 3 4 true = .ok Ps) ∧
    (∃ Ps, vizField oneWave none none (some 0) false "xyzx" "abs" 3 3 true = .ok Ps) ∧
    vizField oneWave none none (some 0) false "xyz" "abs" 3 4 true = .error .valueError ∧
    vizField oneWave none none (some 0) false "xyw" "abs" 3 4 true = .error .valueError ∧
    vizField oneWave (some 1) none (some 0) false "xyz" "abs" 3 4 true = .error .valueError := by
  have hx : pyLower "xyz" = ['x', 'y', 'z'] := by decide
  have hx' : pyLower "xyzx" = ['x', 'y', 'z', 'x'] := by decide
  refine ⟨?_, ?_, ?_, ?_, ?_⟩
  · obtain ⟨_, _, Ps, -, h, -⟩ := C114_periodic oneWave oneWave_nodup none none (some 0) (.xy 0) rfl (Or.inr ⟨0, rfl⟩) "xyz" .abs
      "abs" rfl 3 4 (by norm_num) (by norm_num) true (by rw [hx]; simp) (by rw [hx]; simp)
    exact ⟨Ps, h⟩
  · obtain ⟨_, _, Ps, -, h, -⟩ := C114_abs oneWave oneWave_nodup none none (some 0) (.xy 0) rfl (Or.inr ⟨0, rfl⟩) false "xyzx"
      "abs" rfl 3 3 (by norm_num) (by norm_num) true (by rw [hx']; simp) (by rw [hx']; simp) (Or.inr (Or.inl rfl))
    exact ⟨Ps, h⟩
  · exact C114_xy_unequal oneWave oneWave_nodup 0 "xyz" "abs" 3 4 (by norm_num) (by norm_num) (by norm_num) true
      (by rw [hx]; simp)
  · exact C114_errors oneWave oneWave_nodup none none (some 0) (.xy 0) rfl (Or.inr ⟨0, rfl⟩) false "xyw" "abs" 3 4
      (by norm_num) (by norm_num) true (Or.inr (Or.inl ⟨'w', by decide, by decide⟩))
  · exact ((C114_planes oneWave false "xyz" "abs" 3 4 true 0 0 0).1 rfl).2.2.2 (some 1) none (some 0) (by simp)

end Legume
