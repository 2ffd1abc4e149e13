import Verif.Model.FieldPlanes
import Verif.Spec.FieldOverlap
import Verif.Props.Pwe
import Verif.Props.Utils
import Verif.Props.BzAxis

/-!
# C100: fields in the three planes
-/
namespace Legume

open Complex

namespace Spec

/-- The field with the Fourier coefficients `cs` at the point `(x, y)`: the sum of the plane waves. -/
noncomputable def pointField (gvec : List (ℝ × ℝ)) (cs : List ℂ) (x y : ℝ) : ℂ :=
  (List.zipWith (fun (c : ℂ) (g : ℝ × ℝ) => c * Complex.exp (Complex.I * ((g.1 * x + g.2 * y : ℝ) : ℂ))) cs gvec).sum

/-- A dictionary of arrays with exactly the components `cs`, each once, whose entry in row `r` and column `s` is
`value c (rows[r]) (cols[s])`. -/
def Tabulates (fi : List (Char × List (List ℂ))) (cs : List Char) (rows cols : List ℝ)
    (value : Char → ℝ → ℝ → ℂ) : Prop :=
  (fi.map Prod.fst).Nodup ∧ (∀ c, c ∈ fi.map Prod.fst ↔ c ∈ cs) ∧
  ∀ c A, (c, A) ∈ fi → A.length = rows.length ∧ ∀ (r : ℕ) (a : ℝ), rows[r]? = some a →
    ∃ row, A[r]? = some row ∧ row.length = cols.length ∧
      ∀ (s : ℕ) (b : ℝ), cols[s]? = some b → row[s]? = some (value c a b)

end Spec

open Spec

theorem keepFirst_nodup (cg : List (ℂ × ℝ × ℝ)) (seen : List (ℝ × ℝ)) (h : (cg.map Prod.snd).Nodup)
    (hs : ∀ c ∈ cg, c.2 ∉ seen) : keepFirst seen cg = cg := by
  induction cg generalizing seen with
  | nil => rfl
  | cons a cg ih =>
    obtain ⟨a1, a2⟩ := a
    rw [List.map_cons, List.nodup_cons] at h
    rw [keepFirst, if_neg (hs _ List.mem_cons_self), ih _ h.2]
    intro c hc hmem
    rcases List.mem_cons.1 hmem with h' | h'
    · exact h.1 (List.mem_map.2 ⟨c, hc, h'⟩)
    · exact hs c (List.mem_cons_of_mem _ hc) h'

theorem zip_snd_sublist {α β : Type} : ∀ (l : List α) (l' : List β), ((l.zip l').map Prod.snd).Sublist l'
  | [], l' => by simp
  | _ :: _, [] => by simp
  | _ :: l, b :: l' => by
    rw [List.zip_cons_cons, List.map_cons]
    exact (zip_snd_sublist l l').cons_cons b

theorem ftinvAt_point (gvec : List R2) (cs : List ℂ) (hg : gvec.Nodup) (x y : ℝ) :
    ftinvAt (withG gvec cs) x y = pointField gvec cs x y := by
  unfold ftinvAt withG
  rw [keepFirst_nodup]
  · unfold pointField
    rw [List.zip, List.map_zipWith]
    congr 2
    funext c g
    congr 2
    push_cast; ring
  · refine List.Nodup.sublist ?_ hg
    exact zip_snd_sublist cs gvec
  · simp

theorem tabulates_of {F : Type} (ft : Char → F) (inv : F → List (List ℂ)) (cs : List Char) (rows cols : List ℝ)
    (value : Char → ℝ → ℝ → ℂ) (hcs : ∀ c ∈ cs, c = 'x' ∨ c = 'y' ∨ c = 'z')
    (h : ∀ c, inv (ft c) = rows.map fun a => cols.map fun b => value c a b) :
    ∃ fi, fieldComponents ft inv cs [] = .ok fi ∧ Tabulates fi cs rows cols value := by
  obtain ⟨fi, h1, h2, h3, h4⟩ := (C74_components ft inv cs).2 hcs
  refine ⟨fi, h1, h2, h4, ?_⟩
  intro c A hA
  have := h3 _ hA
  simp only [h c] at this
  subst this
  refine ⟨by simp, ?_⟩
  intro r a ha
  refine ⟨cols.map fun b => value c a b, by simp [ha], by simp, ?_⟩
  intro s b hb
  simp [hb]

/-- **C100 (xy).** `get_field_xy` returns the requested components once each; the entry in row `i` and column `j` is
the field at `(xgrid[j], ygrid[i])` and the given height. Grids that are given are used as they are. -/
theorem C100_xy (L : Lattice) (ft : ℝ → Char → List ℂ) (gvec : List R2) (hg : gvec.Nodup) (z : ℝ)
    (xgrid ygrid : Option (List ℝ)) (cs : List Char) (nx ny : ℕ)
    (hcs : ∀ c ∈ cs, c = 'x' ∨ c = 'y' ∨ c = 'z') :
    ∃ fi xs ys, getFieldXy L ft gvec z xgrid ygrid cs nx ny = .ok (fi, xs, ys) ∧
      (∀ a, xgrid = some a → xs = a) ∧ (∀ a, ygrid = some a → ys = a) ∧
      (xgrid = none → ∃ g, L.xyGrid nx ny .none = .ok g ∧ xs = g.1) ∧
      (ygrid = none → ∃ g, L.xyGrid nx ny .none = .ok g ∧ ys = g.2) ∧
      Tabulates fi cs ys xs fun c y x => pointField gvec (ft z c) x y := by
  have grid : ∃ g, L.xyGrid nx ny .none = .ok g := by
    unfold Lattice.xyGrid parsePeriods
    split_ifs <;> exact ⟨_, rfl⟩
  obtain ⟨g, hgr⟩ := grid
  have tab : ∀ xs ys : List ℝ, ∃ fi, fieldComponents (ft z) (fun cs => ftinv (withG gvec cs) xs ys) cs [] = .ok fi ∧
      Tabulates fi cs ys xs fun c y x => pointField gvec (ft z c) x y := by
    intro xs ys
    refine tabulates_of _ _ _ _ _ _ hcs fun c => ?_
    unfold ftinv
    simp only [ftinvAt_point gvec _ hg]
  obtain ⟨fi, hf, ht⟩ := tab (xgrid.getD g.1) (ygrid.getD g.2)
  refine ⟨fi, xgrid.getD g.1, ygrid.getD g.2, ?_, ?_, ?_, ?_, ?_, ht⟩
  · unfold getFieldXy
    cases xgrid <;> cases ygrid <;>
      simp only [Option.getD_none, Option.getD_some, hgr, Except.map, bind, Except.bind, pure, Except.pure] at hf ⊢ <;> rw [hf]
  · rintro a rfl; rfl
  · rintro a rfl; rfl
  · rintro rfl; exact ⟨g, hgr, rfl⟩
  · rintro rfl; exact ⟨g, hgr, rfl⟩

/-- **C100 (xz).** `get_field_xz`: the entry in row `i` and column `j` is the field at `(xgrid[j], y)` and height
`zgrid[i]`; the default grid in `x` is that of `get_field_xy`. -/
theorem C100_xz (L : Lattice) (layers : List (ℝ × ℝ)) (ft : ℝ → Char → List ℂ) (gvec : List R2) (hg : gvec.Nodup)
    (y : ℝ) (xgrid zgrid : Option (List ℝ)) (cs : List Char) (nx nz : ℕ) (dist : ℝ)
    (hcs : ∀ c ∈ cs, c = 'x' ∨ c = 'y' ∨ c = 'z') (hl : zgrid = none → layers ≠ []) :
    ∃ fi xs zs, getFieldXz L layers ft gvec y xgrid zgrid cs nx nz dist = .ok (fi, xs, zs) ∧
      (∀ a, xgrid = some a → xs = a) ∧ (∀ a, zgrid = some a → zs = a) ∧
      (xgrid = none → ∀ ny, ∃ g, L.xyGrid nx ny .none = .ok g ∧ xs = g.1) ∧
      (zgrid = none → zGrid layers nz dist = .ok zs) ∧
      Tabulates fi cs zs xs fun c z x => pointField gvec (ft z c) x y := by
  have gx : ∃ xs, gridOr xgrid ((L.xyGrid nx 2 .none).map Prod.fst) = .ok xs ∧ (∀ a, xgrid = some a → xs = a) ∧
      (xgrid = none → ∀ ny, ∃ g, L.xyGrid nx ny .none = .ok g ∧ xs = g.1) := by
    cases xgrid with
    | some a => exact ⟨a, rfl, by simp, by simp⟩
    | none =>
      unfold Lattice.xyGrid parsePeriods
      split_ifs
      · exact ⟨_, rfl, by simp, fun _ ny => ⟨_, rfl, rfl⟩⟩
      · exact ⟨_, rfl, by simp, fun _ ny => ⟨_, rfl, rfl⟩⟩
  have gz : ∃ zs, gridOr zgrid (zGrid layers nz dist) = .ok zs ∧ (∀ a, zgrid = some a → zs = a) ∧
      (zgrid = none → zGrid layers nz dist = .ok zs) := by
    cases zgrid with
    | some a => exact ⟨a, rfl, by simp, by simp⟩
    | none =>
      cases layers with
      | nil => exact absurd rfl (hl rfl)
      | cons l ls =>
        obtain ⟨b, hb⟩ : ∃ b, (l :: ls).getLast? = some b := ⟨_, List.getLast?_eq_some_getLast (by simp)⟩
        have : zGrid (l :: ls) nz dist = .ok (linspace (l.1 - dist) (b.2 + dist) nz) := by
          unfold zGrid; rw [hb]; rfl
        exact ⟨_, this, by simp, fun _ => this⟩
  obtain ⟨xs, hx, x1, x2⟩ := gx
  obtain ⟨zs, hz, z1, z2⟩ := gz
  obtain ⟨fi, hf, ht⟩ := tabulates_of (fun c => zs.map fun z => ft z c)
    (fun rows => rows.map fun cs => (ftinv (withG gvec cs) xs [y]).flatten) cs zs xs
    (fun c z x => pointField gvec (ft z c) x y) hcs (by
      intro c
      rw [List.map_map]
      refine List.map_congr_left fun z _ => ?_
      simp only [Function.comp, ftinv, List.map_cons, List.map_nil, List.flatten_cons, List.flatten_nil,
        List.append_nil, ftinvAt_point gvec _ hg])
  refine ⟨fi, xs, zs, ?_, x1, z1, x2, z2, ht⟩
  unfold getFieldXz
  rw [hx, hz]
  simp only [bind, Except.bind, pure, Except.pure]
  rw [hf]

theorem flatten_column {α β : Type} (f : α → β) (l : List α) : (l.map fun a => [f a]).flatten = l.map f := by
  induction l with
  | nil => rfl
  | cons a l ih => simp [ih]

/-- **C100 (yz).** `get_field_yz`: the entry in row `i` and column `j` is the field at `(x, ygrid[j])` and height
`zgrid[i]`; the default grid in `y` is that of `get_field_xy`. -/
theorem C100_yz (L : Lattice) (layers : List (ℝ × ℝ)) (ft : ℝ → Char → List ℂ) (gvec : List R2) (hg : gvec.Nodup)
    (x : ℝ) (ygrid zgrid : Option (List ℝ)) (cs : List Char) (ny nz : ℕ) (dist : ℝ)
    (hcs : ∀ c ∈ cs, c = 'x' ∨ c = 'y' ∨ c = 'z') (hl : zgrid = none → layers ≠ []) :
    ∃ fi ys zs, getFieldYz L layers ft gvec x ygrid zgrid cs ny nz dist = .ok (fi, ys, zs) ∧
      (∀ a, ygrid = some a → ys = a) ∧ (∀ a, zgrid = some a → zs = a) ∧
      (ygrid = none → ∀ nx, ∃ g, L.xyGrid nx ny .none = .ok g ∧ ys = g.2) ∧
      (zgrid = none → zGrid layers nz dist = .ok zs) ∧
      Tabulates fi cs zs ys fun c z y => pointField gvec (ft z c) x y := by
  have gy : ∃ ys, gridOr ygrid ((L.xyGrid 2 ny .none).map Prod.snd) = .ok ys ∧ (∀ a, ygrid = some a → ys = a) ∧
      (ygrid = none → ∀ nx, ∃ g, L.xyGrid nx ny .none = .ok g ∧ ys = g.2) := by
    cases ygrid with
    | some a => exact ⟨a, rfl, by simp, by simp⟩
    | none =>
      unfold Lattice.xyGrid parsePeriods
      split_ifs
      · exact ⟨_, rfl, by simp, fun _ nx => ⟨_, rfl, rfl⟩⟩
      · exact ⟨_, rfl, by simp, fun _ nx => ⟨_, rfl, rfl⟩⟩
  have gz : ∃ zs, gridOr zgrid (zGrid layers nz dist) = .ok zs ∧ (∀ a, zgrid = some a → zs = a) ∧
      (zgrid = none → zGrid layers nz dist = .ok zs) := by
    cases zgrid with
    | some a => exact ⟨a, rfl, by simp, by simp⟩
    | none =>
      cases layers with
      | nil => exact absurd rfl (hl rfl)
      | cons l ls =>
        obtain ⟨b, hb⟩ : ∃ b, (l :: ls).getLast? = some b := ⟨_, List.getLast?_eq_some_getLast (by simp)⟩
        have : zGrid (l :: ls) nz dist = .ok (linspace (l.1 - dist) (b.2 + dist) nz) := by
          unfold zGrid; rw [hb]; rfl
        exact ⟨_, this, by simp, fun _ => this⟩
  obtain ⟨ys, hy, y1, y2⟩ := gy
  obtain ⟨zs, hz, z1, z2⟩ := gz
  obtain ⟨fi, hf, ht⟩ := tabulates_of (fun c => zs.map fun z => ft z c)
    (fun rows => rows.map fun cs => (ftinv (withG gvec cs) [x] ys).flatten) cs zs ys
    (fun c z y => pointField gvec (ft z c) x y) hcs (by
      intro c
      rw [List.map_map]
      refine List.map_congr_left fun z _ => ?_
      simp only [Function.comp, ftinv, List.map_cons, List.map_nil, flatten_column, ftinvAt_point gvec _ hg])
  refine ⟨fi, ys, zs, ?_, y1, z1, y2, z2, ht⟩
  unfold getFieldYz
  rw [hy, hz]
  simp only [bind, Except.bind, pure, Except.pure]
  rw [hf]

/-- **C100 (meeting planes).** Where the planes meet the three functions return the same values: the row of `z` in the
vertical planes at `y` and at `x` agrees with the row of `y` and the column of `x` in the horizontal plane at `z`. -/
theorem C100_planes (L : Lattice) (layers : List (ℝ × ℝ)) (ft : ℝ → Char → List ℂ) (gvec : List R2) (hg : gvec.Nodup)
    (xs ys zs : List ℝ) (cs : List Char) (hcs : ∀ c ∈ cs, c = 'x' ∨ c = 'y' ∨ c = 'z') (nx ny nz : ℕ) (dist : ℝ)
    (i j k : ℕ) (x y z : ℝ) (hx : xs[i]? = some x) (hy : ys[j]? = some y) (hz : zs[k]? = some z) (c : Char)
    (hc : c ∈ cs) :
    ∃ fxy fxz fyz Axy Axz Ayz v, getFieldXy L ft gvec z (some xs) (some ys) cs nx ny = .ok (fxy, xs, ys) ∧
      getFieldXz L layers ft gvec y (some xs) (some zs) cs nx nz dist = .ok (fxz, xs, zs) ∧
      getFieldYz L layers ft gvec x (some ys) (some zs) cs ny nz dist = .ok (fyz, ys, zs) ∧
      (c, Axy) ∈ fxy ∧ (c, Axz) ∈ fxz ∧ (c, Ayz) ∈ fyz ∧
      (Axy[j]?.bind (·[i]?)) = some v ∧ (Axz[k]?.bind (·[i]?)) = some v ∧ (Ayz[k]?.bind (·[j]?)) = some v := by
  obtain ⟨f1, a1, b1, h1, ha1, hb1, -, -, -, m1, t1⟩ := C100_xy L ft gvec hg z (some xs) (some ys) cs nx ny hcs
  obtain ⟨f2, a2, b2, h2, ha2, hb2, -, -, -, m2, t2⟩ :=
    C100_xz L layers ft gvec hg y (some xs) (some zs) cs nx nz dist hcs (by simp)
  obtain ⟨f3, a3, b3, h3, ha3, hb3, -, -, -, m3, t3⟩ :=
    C100_yz L layers ft gvec hg x (some ys) (some zs) cs ny nz dist hcs (by simp)
  obtain rfl := ha1 _ rfl
  obtain rfl := hb1 _ rfl
  obtain rfl := ha2 _ rfl
  obtain rfl := hb2 _ rfl
  obtain rfl := ha3 _ rfl
  obtain rfl := hb3 _ rfl
  have get : ∀ fi : List (Char × List (List ℂ)), (∀ c, c ∈ fi.map Prod.fst ↔ c ∈ cs) → ∃ A, (c, A) ∈ fi := by
    intro fi h
    obtain ⟨⟨c', A⟩, hA, rfl⟩ := List.mem_map.1 ((h c).2 hc)
    exact ⟨A, hA⟩
  obtain ⟨A1, hA1⟩ := get f1 m1
  obtain ⟨A2, hA2⟩ := get f2 m2
  obtain ⟨A3, hA3⟩ := get f3 m3
  refine ⟨f1, f2, f3, A1, A2, A3, pointField gvec (ft z c) x y, h1, h2, h3, hA1, hA2, hA3, ?_, ?_, ?_⟩
  · obtain ⟨row, r1, -, r2⟩ := (t1 c A1 hA1).2 j y hy
    rw [r1, Option.bind_some, r2 i x hx]
  · obtain ⟨row, r1, -, r2⟩ := (t2 c A2 hA2).2 k z hz
    rw [r1, Option.bind_some, r2 i x hx]
  · obtain ⟨row, r1, -, r2⟩ := (t3 c A3 hA3).2 k z hz
    rw [r1, Option.bind_some, r2 j y hy]

/-- **C100 (errors).** Any other letter raises `ValueError` in all three functions; without layers the default heights
of the vertical planes raise `IndexError`. -/
theorem C100_errors (L : Lattice) (layers : List (ℝ × ℝ)) (ft : ℝ → Char → List ℂ) (gvec : List R2) (p : ℝ)
    (g g' : List ℝ) (og : Option (List ℝ)) (cs : List Char) (n n' : ℕ) (dist : ℝ) :
    ((∃ c ∈ cs, c ≠ 'x' ∧ c ≠ 'y' ∧ c ≠ 'z') →
      getFieldXy L ft gvec p (some g) (some g') cs n n' = .error .valueError ∧
      getFieldXz L layers ft gvec p (some g) (some g') cs n n' dist = .error .valueError ∧
      getFieldYz L layers ft gvec p (some g) (some g') cs n n' dist = .error .valueError) ∧
    getFieldXz L [] ft gvec p og none cs n n' dist = .error .indexError ∧
    getFieldYz L [] ft gvec p og none cs n n' dist = .error .indexError := by
  refine ⟨fun h => ⟨?_, ?_, ?_⟩, ?_, ?_⟩
  · unfold getFieldXy
    simp only [gridOr, bind, Except.bind]
    rw [(C74_components _ _ cs).1 h]
  · unfold getFieldXz
    simp only [gridOr, bind, Except.bind]
    rw [(C74_components _ _ cs).1 h]
  · unfold getFieldYz
    simp only [gridOr, bind, Except.bind]
    rw [(C74_components _ _ cs).1 h]
  · unfold getFieldXz Lattice.xyGrid parsePeriods zGrid gridOr
    cases og
    · split_ifs <;> rfl
    · rfl
  · unfold getFieldYz Lattice.xyGrid parsePeriods zGrid gridOr
    cases og
    · split_ifs <;> rfl
    · rfl

example (L : Lattice) : ∃ fi, getFieldXz L [] (fun z c => if c = 'z' then [z, 2 * z] else [1, Complex.I * z])
      [(0, 0), (1, 0)] 3 (some [0, 1]) (some [5, 7, 9]) ['z', 'x', 'z'] 0 0 0 = .ok (fi, [0, 1], [5, 7, 9]) ∧
    (fi.map Prod.fst).Nodup ∧ ∀ A, ('z', A) ∈ fi → ∃ row, A[1]? = some row ∧ row[0]? = some 21 := by
  have hg : ([(0, 0), (1, 0)] : List R2).Nodup := by simp
  obtain ⟨fi, xs, zs, h, hx, hz, -, -, ht⟩ := C100_xz L [] (fun z c => if c = 'z' then [z, 2 * z] else [1, Complex.I * z])
    [(0, 0), (1, 0)] hg 3 (some [0, 1]) (some [5, 7, 9]) ['z', 'x', 'z'] 0 0 0 (by simp) (by simp)
  obtain rfl := hx _ rfl
  obtain rfl := hz _ rfl
  refine ⟨fi, h, ht.1, fun A hA => ?_⟩
  obtain ⟨row, r1, -, r2⟩ := (ht.2.2 'z' A hA).2 1 7 rfl
  refine ⟨row, r1, (r2 0 0 rfl).trans ?_⟩
  simp [pointField]; norm_num

end Legume
