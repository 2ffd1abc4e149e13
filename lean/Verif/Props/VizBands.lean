import Verif.Model.VizBands
import Verif.Props.VizField
import Verif.Props.Plot

/-!
# C115: what the plots of bands show
-/
namespace Legume

namespace Spec

/-- A table with `nk` rows of `N` entries. -/
def IsTable (A : List (List ℝ)) (nk N : ℕ) : Prop := A.length = nk ∧ ∀ row ∈ A, row.length = N

/-- There are as many markers as modes, one at `(X0[i], c f[i, n])` for every wave vector `i` and mode `n`, with the face
and edge colours `face i n` and `edge i n`. -/
def Marks (ms : List Marker) (xs : List (Option ℝ)) (c : ℝ) (freqs : List (List ℝ)) (nk N : ℕ)
    (face edge : ℕ → ℕ → Option ℝ) : Prop :=
  ms.length = nk * N ∧ ∀ i n, i < nk → n < N → ∃ m x f, ms[i * N + n]? = some m ∧ xs[i]? = some x ∧
    (freqs[i]?.bind (·[n]?)) = some f ∧ m.x = x ∧ m.y = c * f ∧ m.face = face i n ∧ m.edge = edge i n

/-- The limits of the vertical axis are zero and the largest value. -/
def TopIs (ymax c : ℝ) (freqs : List (List ℝ)) : Prop :=
  (∀ (i n : ℕ) (f : ℝ), (freqs[i]?.bind (·[n]?)) = some f → c * f ≤ ymax) ∧
  ∃ (i n : ℕ) (f : ℝ), (freqs[i]?.bind (·[n]?)) = some f ∧ c * f = ymax

end Spec

open Spec

theorem flatten_table {α : Type} (A : List (List α)) (N : ℕ) (h : ∀ row ∈ A, row.length = N) (i n : ℕ) (hn : n < N) :
    A.flatten[i * N + n]? = A[i]?.bind (·[n]?) := by
  induction A generalizing i with
  | nil => simp
  | cons row A ih =>
    have hr := h row List.mem_cons_self
    rw [List.flatten_cons]
    cases i with
    | zero => rw [List.getElem?_append_left (by omega)]; simp
    | succ i =>
      rw [List.getElem?_append_right (by rw [hr, Nat.add_mul]; omega), hr,
        show (i + 1) * N + n - N = i * N + n by rw [Nat.add_mul]; omega, ih (fun r hr => h r (List.mem_cons_of_mem _ hr))]
      rfl

theorem flatten_table_length {α : Type} (A : List (List α)) (N : ℕ) (h : ∀ row ∈ A, row.length = N) :
    A.flatten.length = A.length * N := by
  induction A with
  | nil => simp
  | cons row A ih =>
    rw [List.flatten_cons, List.length_append, ih fun r hr => h r (List.mem_cons_of_mem _ hr), h row List.mem_cons_self,
      List.length_cons, Nat.add_mul]
    omega

theorem index_lt {i n nk N : ℕ} (hi : i < nk) (hn : n < N) : i * N + n < nk * N := by
  calc i * N + n < i * N + N := by omega
    _ = (i + 1) * N := by ring
    _ ≤ nk * N := Nat.mul_le_mul_right _ hi

theorem table_get {A : List (List ℝ)} {nk N : ℕ} (h : IsTable A nk N) {i n : ℕ} (hi : i < nk) (hn : n < N) :
    ∃ f, (A[i]?.bind (·[n]?)) = some f := by
  have hi' : i < A.length := by rw [h.1]; exact hi
  have hr := h.2 _ (List.getElem_mem hi')
  exact ⟨A[i][n], by rw [List.getElem?_eq_getElem hi']; simp [hr, hn]⟩

theorem markers_spec (kpoints : List R2) (hk : kpoints ≠ []) (kUnits : Bool) (freqs : List (List ℝ)) (N : ℕ)
    (hf : IsTable freqs kpoints.length N) (c : ℝ) (face edge : Option (List ℝ)) :
    Marks (vizMarkers (calcX kpoints (freqs.headD []).length kUnits) (freqs.flatten.map (c * ·)) face edge)
      (calcX0 kpoints kUnits) c freqs kpoints.length N (fun i n => face.bind (·[i * N + n]?)) fun i n =>
        edge.bind (·[i * N + n]?) := by
  have hN : (freqs.headD []).length = N := by
    cases freqs with
    | nil =>
      have := hf.1
      simp only [List.length_nil] at this
      exact absurd (List.length_eq_zero_iff.1 this.symm) hk
    | cons row A => exact hf.2 row List.mem_cons_self
  have hlen := flatten_table_length freqs N hf.2
  rw [hf.1] at hlen
  refine ⟨by simp only [vizMarkers, List.length_map, List.length_range]; exact hlen, ?_⟩
  intro i n hi hn
  obtain ⟨f, hff⟩ := table_get hf hi hn
  obtain ⟨x1, -, -, x2, x3⟩ := C58_axis kpoints hk N kUnits
  have hix : i < (calcX0 kpoints kUnits).length := by omega
  have hidx : i * N + n < freqs.flatten.length := by rw [hlen]; exact index_lt hi hn
  refine ⟨⟨(calcX kpoints (freqs.headD []).length kUnits).flatten.getD (i * N + n) none,
    (freqs.flatten.map (c * ·)).getD (i * N + n) 0, face.bind (·[i * N + n]?), edge.bind (·[i * N + n]?)⟩,
    (calcX0 kpoints kUnits)[i], f, ?_, List.getElem?_eq_getElem hix, hff, ?_⟩
  · unfold vizMarkers
    rw [List.getElem?_map, List.getElem?_range (by rw [List.length_map]; exact hidx)]
    rfl
  · have hx : (calcX kpoints (freqs.headD []).length kUnits).flatten[i * N + n]? = some ((calcX0 kpoints kUnits)[i]) := by
      rw [hN, flatten_table _ N _ i n hn]
      · have hi' : i < (calcX kpoints N kUnits).length := by omega
        rw [List.getElem?_eq_getElem hi', Option.bind_some, (x3 i n _ (List.getElem?_eq_getElem hi') hn).2,
          List.getElem?_eq_getElem hix]
      · intro row hrow
        simp only [calcX, List.mem_map] at hrow
        obtain ⟨_, _, rfl⟩ := hrow
        simp
    refine ⟨?_, ?_, rfl, rfl⟩
    · simp only [List.getD_eq_getElem?_getD, hx, Option.getD_some]
    · simp only [List.getD_eq_getElem?_getD, List.getElem?_map]
      rw [flatten_table freqs N hf.2 i n hn, hff]
      rfl

theorem arrMax_ok (A : List (List ℝ)) (h : A.flatten ≠ []) :
    ∃ m, arrMax A = .ok m ∧ m ∈ A.flatten ∧ ∀ x ∈ A.flatten, x ≤ m := by
  unfold arrMax
  cases hA : A.flatten with
  | nil => exact absurd hA h
  | cons a l => exact ⟨_, rfl, (rowMax_spec l a).1, (rowMax_spec l a).2⟩

theorem mem_flatten_get (A : List (List ℝ)) (x : ℝ) : x ∈ A.flatten ↔ ∃ i n : ℕ, (A[i]?.bind (·[n]?)) = some x := by
  rw [List.mem_flatten]
  constructor
  · rintro ⟨row, hr, hx⟩
    obtain ⟨i, hi⟩ := List.getElem?_of_mem hr
    obtain ⟨n, hn⟩ := List.getElem?_of_mem hx
    exact ⟨i, n, by rw [hi]; exact hn⟩
  · rintro ⟨i, n, h⟩
    obtain ⟨row, h1, h2⟩ := Option.bind_eq_some_iff.1 h
    exact ⟨row, List.mem_of_getElem? h1, List.mem_of_getElem? h2⟩

theorem arrMax_top (freqs : List (List ℝ)) (nk N : ℕ) (h : IsTable freqs nk N) (hk : 0 < nk) (hN : 0 < N) (c : ℝ)
    (hc : 0 < c) : ∃ m, arrMax freqs = .ok m ∧ TopIs (c * m) c freqs := by
  obtain ⟨f, hf⟩ := table_get h hk hN
  obtain ⟨m, h1, h2, h3⟩ := arrMax_ok freqs (List.ne_nil_of_mem ((mem_flatten_get freqs f).2 ⟨_, _, hf⟩))
  refine ⟨m, h1, ?_, ?_⟩
  · intro i n g hg
    exact mul_le_mul_of_nonneg_left (h3 _ ((mem_flatten_get freqs g).2 ⟨i, n, hg⟩)) hc.le
  · obtain ⟨i, n, hin⟩ := (mem_flatten_get freqs m).1 h2
    exact ⟨i, n, m, hin, rfl⟩

theorem pyMax_ok (x : Option ℝ) (l : List (Option ℝ)) : ∃ m, pyMax (x :: l) = .ok m := ⟨_, rfl⟩

theorem pyMax_spec (l : List ℝ) (hl : l ≠ []) : ∃ m, pyMax (l.map some) = .ok (some m) ∧ m ∈ l ∧ ∀ x ∈ l, x ≤ m := by
  cases l with
  | nil => exact absurd rfl hl
  | cons a l =>
    have key : ∀ (l : List ℝ) (a : ℝ), (l.map some).foldl (fun (m y : Option ℝ) => if floatGt y m then y else m) (some a) =
        some (l.foldl max a) := by
      intro l
      induction l with
      | nil => intro a; rfl
      | cons b l ih =>
        intro a
        rw [List.map_cons, List.foldl_cons, List.foldl_cons]
        have : (if floatGt (some b) (some a) then some b else some a : Option ℝ) = some (max a b) := by
          unfold floatGt
          by_cases h : a < b
          · simp [h, max_eq_right h.le]
          · simp [h, max_eq_left (not_lt.1 h)]
        rw [this, ih]
    refine ⟨l.foldl max a, ?_, (rowMax_spec l a).1, (rowMax_spec l a).2⟩
    rw [List.map_cons, pyMax, key]

theorem vizConv_pos {eV : Bool} {a : Option ℝ} {c : ℝ} (h : vizConv eV a = .ok c) :
    0 < c ∧ (eV = false → c = 1) ∧ (eV = true → ∃ l, a = some l ∧ c = hcEV / l) := by
  cases eV with
  | false => cases h; exact ⟨one_pos, fun _ => rfl, by simp⟩
  | true =>
    cases a with
    | none => cases h
    | some l =>
      have hl : 0 < l := by
        by_contra hn
        simp only [vizConv, if_true] at h
        unfold fromFreqToE at h
        split_ifs at h
        · cases h
        · cases h
        · exact hn (lt_of_not_ge ‹_›)
      obtain ⟨w, h1, h2, -⟩ := (C56_convert_partial false l (Or.inl hl.ne')).2 hl
      simp only [vizConv, if_true, h1, Except.map] at h
      cases h
      exact ⟨h2, by simp, fun _ => ⟨l, rfl, rfl⟩⟩

theorem vizCone_ok (kpoints : List R2) (hk : kpoints ≠ []) (e1 e2 c : ℝ) (xs : List (Option ℝ)) (ymax : ℝ) :
    ∃ C, vizCone kpoints e1 e2 c xs ymax = .ok C ∧ C.xs = xs ∧ C.low = kpoints.map (lightLine e1 e2 c) ∧ ymax ≤ C.top ∧
      100 ≤ C.top ∧ ∀ l ∈ C.low, l ≤ C.top := by
  obtain ⟨m, h1, h2, h3⟩ := arrMax_ok [kpoints.map (lightLine e1 e2 c)] (by simpa using hk)
  refine ⟨⟨xs, kpoints.map (lightLine e1 e2 c), max (max 100 m) ymax⟩, ?_, rfl, rfl, le_max_right _ _,
    (le_max_left _ _).trans (le_max_left _ _), ?_⟩
  · unfold vizCone; simp only; rw [h1]; rfl
  · intro l hl
    exact (h3 l (by simpa using hl)).trans ((le_max_right _ _).trans (le_max_left _ _))

theorem calcX0_cons (kpoints : List R2) (hk : kpoints ≠ []) (kUnits : Bool) : ∃ m, pyMax (calcX0 kpoints kUnits) = .ok m := by
  cases h : calcX0 kpoints kUnits with
  | nil =>
    have := (C58_axis kpoints hk 0 kUnits).1
    rw [h] at this
    exact absurd (List.length_eq_zero_iff.1 this.symm) hk
  | cons x l => exact pyMax_ok x l

/-- The plot once the colours are known. -/
theorem vizBands_of (B : BandSrc) (N : ℕ) (hk : B.kpoints ≠ []) (hN : 0 < N) (hf : IsTable B.freqs B.kpoints.length N)
    (Q : Bool) (Qclip : ℝ) (cone showSymm eV : Bool) (a : Option ℝ) (kUnits : Bool) (c : ℝ) (hc : vizConv eV a = .ok c)
    (hg : B.isGme = true ∨ cone = false) (face : Option (List ℝ)) (vmax : Option ℝ)
    (hface : vizFaces B Q showSymm Qclip = .ok (face, vmax)) :
    ∃ P, vizBands B Q Qclip cone showSymm eV a kUnits = .ok P ∧ P.vmax = vmax ∧ TopIs P.ymax c B.freqs ∧
      Marks P.markers (calcX0 B.kpoints kUnits) c B.freqs B.kpoints.length N (fun i n => face.bind (·[i * N + n]?))
        (fun i n => (vizEdges B Q showSymm).bind (·[i * N + n]?)) ∧
      pyMax (calcX0 B.kpoints kUnits) = .ok P.xmax ∧
      (cone = false → P.cone = none) ∧
      (cone = true → ∃ C, P.cone = some C ∧ C.xs = calcX0 B.kpoints kUnits ∧
        C.low = B.kpoints.map (lightLine B.epsLo B.epsHi c) ∧ P.ymax ≤ C.top ∧ 100 ≤ C.top ∧ ∀ l ∈ C.low, l ≤ C.top) := by
  obtain ⟨hc0, -, -⟩ := vizConv_pos hc
  obtain ⟨m, hm, htop⟩ := arrMax_top B.freqs _ N hf (List.length_pos_iff.2 hk) hN c hc0
  obtain ⟨xm, hx⟩ := calcX0_cons B.kpoints hk kUnits
  obtain ⟨C, hC, hC'⟩ := vizCone_ok B.kpoints hk B.epsLo B.epsHi c (calcX0 B.kpoints kUnits) (c * m)
  have hmarks := markers_spec B.kpoints hk kUnits B.freqs N hf c face (vizEdges B Q showSymm)
  cases cone with
  | false =>
    refine ⟨⟨vizMarkers (calcX B.kpoints (B.freqs.headD []).length kUnits) (B.freqs.flatten.map (c * ·)) face
      (vizEdges B Q showSymm), vmax, none, xm, c * m⟩, ?_, rfl, htop, hmarks, hx, fun _ => rfl, by simp⟩
    unfold vizBands
    rw [hc]
    simp only [bind, Except.bind]
    rw [hface]
    simp only
    rw [hm]
    simp only
    rw [hx]
    rfl
  | true =>
    refine ⟨⟨vizMarkers (calcX B.kpoints (B.freqs.headD []).length kUnits) (B.freqs.flatten.map (c * ·)) face
      (vizEdges B Q showSymm), vmax, some C, xm, c * m⟩, ?_, rfl, htop, hmarks, hx, by simp, fun _ => ⟨C, rfl, hC'⟩⟩
    unfold vizBands
    rw [hc]
    simp only [bind, Except.bind]
    rw [hface]
    simp only
    rw [hm]
    simp only
    rw [hx, if_pos trivial, if_pos (hg.resolve_right (by simp)), hC]
    rfl

/-- The face colour of the modes without quality factors: the symmetry, if both symmetries are shown. -/
noncomputable def Spec.symmFace (B : BandSrc) (showSymm : Bool) (i n : ℕ) : Option ℝ :=
  if B.symm.map pyLower = some ['b', 'o', 't', 'h'] ∧ showSymm = true then B.kzSymms[i]?.bind (·[n]?) else none

theorem marks_congr {ms : List Marker} {xs : List (Option ℝ)} {c : ℝ} {freqs : List (List ℝ)} {nk N : ℕ}
    {f f' e e' : ℕ → ℕ → Option ℝ} (h : Marks ms xs c freqs nk N f e) (hf : ∀ i n, i < nk → n < N → f i n = f' i n)
    (he : ∀ i n, i < nk → n < N → e i n = e' i n) : Marks ms xs c freqs nk N f' e' := by
  refine ⟨h.1, fun i n hi hn => ?_⟩
  obtain ⟨m, x, g, h1, h2, h3, h4, h5, h6, h7⟩ := h.2 i n hi hn
  exact ⟨m, x, g, h1, h2, h3, h4, h5, h6.trans (hf i n hi hn), h7.trans (he i n hi hn)⟩

/-- **C115 (markers).** Without quality factors `bands` draws one marker per mode at the abscissa of its wave vector and the
height `c f`, where `c` is 1 or, in eV, `h c / a`; with `kz_symmetry='both'` it is coloured by its symmetry unless
`show_symmetry=False`. The vertical axis runs from zero to the largest height. A slab is needed only for the light cone. -/
theorem C115_markers (B : BandSrc) (N : ℕ) (hk : B.kpoints ≠ []) (hN : 0 < N) (hf : IsTable B.freqs B.kpoints.length N)
    (hs : IsTable B.kzSymms B.kpoints.length N) (Qclip : ℝ) (cone showSymm eV : Bool) (a : Option ℝ) (kUnits : Bool) (c : ℝ)
    (hc : (eV = false ∧ c = 1) ∨ (eV = true ∧ ∃ l, a = some l ∧ 0 < l ∧ c = hcEV / l))
    (hg : B.isGme = true ∨ cone = false) :
    ∃ P, vizBands B false Qclip cone showSymm eV a kUnits = .ok P ∧ P.vmax = none ∧ TopIs P.ymax c B.freqs ∧
      Marks P.markers (calcX0 B.kpoints kUnits) c B.freqs B.kpoints.length N (symmFace B showSymm) (fun _ _ => none) ∧
      (cone = false → P.cone = none) := by
  have hconv : vizConv eV a = .ok c := by
    rcases hc with ⟨rfl, rfl⟩ | ⟨rfl, l, rfl, hl, rfl⟩
    · rfl
    · obtain ⟨w, h1, -, -⟩ := (C56_convert_partial false l (Or.inl hl.ne')).2 hl
      simp only [vizConv, if_true, h1, Except.map]
  have hface : ∃ face, vizFaces B false showSymm Qclip = .ok (face, none) ∧
      ∀ i n, i < B.kpoints.length → n < N → face.bind (·[i * N + n]?) = symmFace B showSymm i n := by
    unfold vizFaces symmFace
    rw [if_neg Bool.false_ne_true]
    by_cases h : B.symm.map pyLower = some ['b', 'o', 't', 'h'] ∧ showSymm = true
    · rw [if_pos h]
      refine ⟨_, rfl, fun i n hi hn => ?_⟩
      rw [if_pos h, Option.bind_some, flatten_table _ N hs.2 i n hn]
    · rw [if_neg h]
      refine ⟨_, rfl, fun i n hi hn => ?_⟩
      rw [if_neg h]; rfl
  obtain ⟨face, h1, h2⟩ := hface
  obtain ⟨P, p1, p2, p3, p4, -, p5, -⟩ := vizBands_of B N hk hN hf false Qclip cone showSymm eV a kUnits c hconv hg face none h1
  refine ⟨P, p1, p2, p3, marks_congr p4 h2 fun i n _ _ => ?_, p5⟩
  unfold vizEdges
  rw [if_neg (by simp)]; rfl

theorem vizConv_of {eV : Bool} {a : Option ℝ} {c : ℝ}
    (hc : (eV = false ∧ c = 1) ∨ (eV = true ∧ ∃ l, a = some l ∧ 0 < l ∧ c = hcEV / l)) : vizConv eV a = .ok c := by
  rcases hc with ⟨rfl, rfl⟩ | ⟨rfl, l, rfl, hl, rfl⟩
  · rfl
  · obtain ⟨w, h1, -, -⟩ := (C56_convert_partial false l (Or.inl hl.ne')).2 hl
    simp only [vizConv, if_true, h1, Except.map]

theorem vizBands_parts {B : BandSrc} {Q : Bool} {Qclip : ℝ} {cone showSymm eV : Bool} {a : Option ℝ} {kUnits : Bool}
    {P : BandPlot} (h : vizBands B Q Qclip cone showSymm eV a kUnits = .ok P) :
    ∃ c face vmax, vizConv eV a = .ok c ∧ vizFaces B Q showSymm Qclip = .ok (face, vmax) ∧ (B.isGme = true ∨ cone = false) := by
  unfold vizBands at h
  cases h1 : vizConv eV a with
  | error e => rw [h1] at h; cases h
  | ok c =>
    cases h2 : vizFaces B Q showSymm Qclip with
    | error e => rw [h1, h2] at h; cases h
    | ok fv =>
      refine ⟨c, fv.1, fv.2, rfl, rfl, ?_⟩
      by_contra hn
      push Not at hn
      obtain ⟨n1, n2⟩ := hn
      replace n2 : cone = true := by simpa using n2
      rw [h1, h2] at h
      simp only [bind, Except.bind] at h
      cases h3 : arrMax B.freqs with
      | error e => rw [h3] at h; cases h
      | ok m =>
        rw [h3] at h
        simp only at h
        rw [if_pos n2, if_neg n1] at h
        cases h

/-- **C115 (horizontal axis).** The axis runs from zero to `nk - 1`, or to 1 with `k_units=True` and a path of positive
length, and all markers are on it. -/
theorem C115_axis (B : BandSrc) (N : ℕ) (hk : B.kpoints ≠ []) (hN : 0 < N) (hf : IsTable B.freqs B.kpoints.length N)
    (Q : Bool) (Qclip : ℝ) (cone showSymm eV : Bool) (a : Option ℝ) (kUnits : Bool)
    (hd : kUnits = true → (kDists B.kpoints).sum ≠ 0) (P : BandPlot)
    (hP : vizBands B Q Qclip cone showSymm eV a kUnits = .ok P) :
    P.xmax = some (if kUnits then 1 else ((B.kpoints.length - 1 : ℕ) : ℝ)) ∧
    ∀ m ∈ P.markers, ∃ x X, m.x = some x ∧ P.xmax = some X ∧ 0 ≤ x ∧ x ≤ X := by
  obtain ⟨c, face, vmax, h1, h2, h3⟩ := vizBands_parts hP
  obtain ⟨P', p1, -, -, p4, p5, -⟩ := vizBands_of B N hk hN hf Q Qclip cone showSymm eV a kUnits c h1 h3 face vmax h2
  cases hP.symm.trans p1
  have hl : 0 < B.kpoints.length := List.length_pos_iff.2 hk
  -- the abscissae are numbers between 0 and the last of them
  have key : ∃ l : List ℝ, calcX0 B.kpoints kUnits = l.map some ∧ l.length = B.kpoints.length ∧
      (∀ x ∈ l, 0 ≤ x ∧ x ≤ if kUnits then 1 else ((B.kpoints.length - 1 : ℕ) : ℝ)) ∧
      (if kUnits then 1 else ((B.kpoints.length - 1 : ℕ) : ℝ)) ∈ l := by
    cases kUnits with
    | false =>
      refine ⟨(List.range B.kpoints.length).map fun (i : ℕ) => (i : ℝ), ?_, by simp, ?_, ?_⟩
      · simp [calcX0]
      · intro x hx
        obtain ⟨i, hi, rfl⟩ := List.mem_map.1 hx
        have := List.mem_range.1 hi
        refine ⟨Nat.cast_nonneg _, ?_⟩
        simp only [Bool.false_eq_true, if_false]
        exact_mod_cast (by omega : i ≤ B.kpoints.length - 1)
      · simp only [Bool.false_eq_true, if_false]
        exact List.mem_map.2 ⟨B.kpoints.length - 1, List.mem_range.2 (by omega), rfl⟩
    | true =>
      have hd' := hd rfl
      obtain ⟨-, hlast, hstep⟩ := C58_kunits_partial B.kpoints hd'
      obtain ⟨hlen, hfirst, -⟩ := C58_axis B.kpoints hk N true
      set D := (kDists B.kpoints).map (· / (kDists B.kpoints).sum)
      have hX : calcX0 B.kpoints true = (0 :: cumsum D).map some := by
        unfold calcX0
        rw [if_pos rfl, if_neg hd']
        rfl
      have hlen' : (0 :: cumsum D).length = B.kpoints.length := by rw [hX] at hlen; simpa using hlen
      rw [hX] at hlast hstep hfirst
      set l := 0 :: cumsum D
      have get : ∀ (i : ℕ) (v : ℝ), (l.map some)[i]? = some (some v) ↔ l[i]? = some v := by
        intro i v; simp
      have mono : ∀ j i : ℕ, i + j < B.kpoints.length → ∀ u v : ℝ, l[i]? = some u → l[i + j]? = some v → u ≤ v := by
        intro j
        induction j with
        | zero => intro i _ u v hu hv; rw [Nat.add_zero, hu] at hv; cases hv; exact le_rfl
        | succ j ih =>
          intro i hij u v hu hv
          obtain ⟨p, q, s1, s2, s3, -⟩ := hstep (i + j) (by omega)
          rw [get] at s1 s2
          have := ih i (by omega) u p hu s1
          rw [show i + (j + 1) = i + j + 1 by omega, s2] at hv
          cases hv
          exact this.trans s3
      refine ⟨l, hX, hlen', ?_, ?_⟩
      · intro x hx
        obtain ⟨i, hi⟩ := List.getElem?_of_mem hx
        have hil : i < B.kpoints.length := by
          rw [← hlen']; exact (List.getElem?_eq_some_iff.1 hi).1
        rw [get] at hlast
        refine ⟨?_, ?_⟩
        · exact mono i 0 (by omega) 0 x rfl (by rw [Nat.zero_add]; exact hi)
        · exact mono (B.kpoints.length - 1 - i) i (by omega) x 1 hi (by
            rw [show i + (B.kpoints.length - 1 - i) = B.kpoints.length - 1 by omega]; exact hlast)
      · rw [get] at hlast
        exact List.mem_of_getElem? hlast
  obtain ⟨l, l1, l2, l3, l4⟩ := key
  obtain ⟨m, m1, m2, m3⟩ := pyMax_spec l (List.ne_nil_of_mem l4)
  rw [l1, m1] at p5
  have hm : m = if kUnits then 1 else ((B.kpoints.length - 1 : ℕ) : ℝ) := le_antisymm (l3 m m2).2 (m3 _ l4)
  have hx : P.xmax = some m := (Except.ok.inj p5).symm
  refine ⟨by rw [hx, hm], ?_⟩
  intro mk hmk
  obtain ⟨t, ht⟩ := List.getElem?_of_mem hmk
  have htl : t < B.kpoints.length * N := by rw [← p4.1]; exact (List.getElem?_eq_some_iff.1 ht).1
  obtain ⟨mk', x, f, q1, q2, -, q4, -⟩ := p4.2 (t / N) (t % N) (Nat.div_lt_of_lt_mul (by rwa [Nat.mul_comm] at htl))
    (Nat.mod_lt _ hN)
  rw [Nat.div_add_mod' t N, ht] at q1
  cases q1
  rw [l1, List.getElem?_map] at q2
  obtain ⟨y, y1, y2⟩ := Option.map_eq_some_iff.1 q2
  refine ⟨y, m, by rw [q4, ← y2], hx, ?_⟩
  rw [hm]
  exact l3 y (List.mem_of_getElem? y1)

/-- **C115 (light cone).** A marker lies in the shaded region above its abscissa exactly if the lower or the upper cladding has
an open channel at the wave vector and frequency of the mode. -/
theorem C115_cone (B : BandSrc) (N : ℕ) (hk : B.kpoints ≠ []) (hN : 0 < N) (hf : IsTable B.freqs B.kpoints.length N)
    (hlo : 0 < B.epsLo) (hhi : 0 < B.epsHi) (Q : Bool) (Qclip : ℝ) (showSymm eV : Bool) (a : Option ℝ) (kUnits : Bool)
    (P : BandPlot) (hP : vizBands B Q Qclip true showSymm eV a kUnits = .ok P) :
    ∃ C, P.cone = some C ∧ C.xs = calcX0 B.kpoints kUnits ∧ C.low.length = B.kpoints.length ∧
      ∀ (i n : ℕ) (k : R2) (f : ℝ), B.kpoints[i]? = some k → (B.freqs[i]?.bind (·[n]?)) = some f → 0 ≤ f →
        ∃ m low, P.markers[i * N + n]? = some m ∧ C.low[i]? = some low ∧
          ((low ≤ m.y ∧ m.y ≤ C.top) ↔ openChannels B.epsLo (2 * Real.pi * f) [√(k.1 ^ 2 + k.2 ^ 2)] ≠ [] ∨
            openChannels B.epsHi (2 * Real.pi * f) [√(k.1 ^ 2 + k.2 ^ 2)] ≠ []) := by
  obtain ⟨c, face, vmax, h1, h2, h3⟩ := vizBands_parts hP
  obtain ⟨P', p1, -, pt, p4, -, -, p6⟩ := vizBands_of B N hk hN hf Q Qclip true showSymm eV a kUnits c h1 h3 face vmax h2
  cases hP.symm.trans p1
  obtain ⟨C, c1, c2, c3, c4, -, -⟩ := p6 rfl
  refine ⟨C, c1, c2, by rw [c3]; simp, ?_⟩
  intro i n k f hik hif hf0
  have hi : i < B.kpoints.length := (List.getElem?_eq_some_iff.1 hik).1
  have hn : n < N := by
    obtain ⟨row, r1, r2⟩ := Option.bind_eq_some_iff.1 hif
    rw [← hf.2 row (List.mem_of_getElem? r1)]
    exact (List.getElem?_eq_some_iff.1 r2).1
  obtain ⟨m, x, g, q1, -, q3, -, q5, -⟩ := p4.2 i n hi hn
  cases q3.symm.trans hif
  refine ⟨m, lightLine B.epsLo B.epsHi c k, q1, by rw [c3, List.getElem?_map, hik]; rfl, ?_⟩
  rw [← C59_light_line B.epsLo B.epsHi c f k hlo hhi (vizConv_pos h1).1 hf0, q5]
  exact ⟨fun h => h.1, fun h => ⟨h, (pt.1 i n f hif).trans c4⟩⟩

/-- The losses used: those stored, or those of `run_im` if none are stored. -/
def Spec.losses (B : BandSrc) : List (List ℝ) := if B.freqsIm = [] then B.runIm else B.freqsIm

theorem vizQ_get {re im : List (List ℝ)} {nk N : ℕ} (h1 : IsTable re nk N) (h2 : IsTable im nk N) {i n : ℕ} (hi : i < nk)
    (hn : n < N) : ∃ f g, (re[i]?.bind (·[n]?)) = some f ∧ (im[i]?.bind (·[n]?)) = some g ∧
      (vizQ re im)[i * N + n]? = some (calcQ f g) := by
  obtain ⟨f, hf⟩ := table_get h1 hi hn
  obtain ⟨g, hg⟩ := table_get h2 hi hn
  refine ⟨f, g, hf, hg, ?_⟩
  unfold vizQ
  rw [List.getElem?_zipWith, flatten_table _ N h1.2 i n hn, flatten_table _ N h2.2 i n hn, hf, hg]

theorem mem_vizQ {re im : List (List ℝ)} {nk N : ℕ} (h1 : IsTable re nk N) (h2 : IsTable im nk N) (q : ℝ) :
    q ∈ vizQ re im ↔ ∃ (i n : ℕ) (f g : ℝ), (re[i]?.bind (·[n]?)) = some f ∧ (im[i]?.bind (·[n]?)) = some g ∧ q = calcQ f g := by
  constructor
  · intro h
    obtain ⟨t, ht⟩ := List.getElem?_of_mem h
    have htl : t < nk * N := by
      have h3 := (List.getElem?_eq_some_iff.1 ht).1
      unfold vizQ at h3
      rw [List.length_zipWith, flatten_table_length _ N h1.2, h1.1] at h3
      omega
    have hN : 0 < N := Nat.pos_of_ne_zero (by rintro rfl; simp at htl)
    obtain ⟨f, g, e1, e2, e3⟩ := vizQ_get h1 h2 (i := t / N) (n := t % N)
      (Nat.div_lt_of_lt_mul (by rwa [Nat.mul_comm] at htl)) (Nat.mod_lt _ hN)
    rw [Nat.div_add_mod' t N, ht] at e3
    exact ⟨_, _, f, g, e1, e2, Option.some.inj e3⟩
  · rintro ⟨i, n, f, g, e1, e2, rfl⟩
    obtain ⟨row, r1, r2⟩ := Option.bind_eq_some_iff.1 e1
    have hi : i < nk := by rw [← h1.1]; exact (List.getElem?_eq_some_iff.1 r1).1
    have hn : n < N := by
      rw [← h1.2 row (List.mem_of_getElem? r1)]
      exact (List.getElem?_eq_some_iff.1 r2).1
    obtain ⟨f', g', e1', e2', e3⟩ := vizQ_get h1 h2 hi hn
    cases e1'.symm.trans e1
    cases e2'.symm.trans e2
    exact List.mem_of_getElem? e3

theorem vizFaces_Q (B : BandSrc) (hgme : B.isGme = true) (showSymm : Bool) (Qclip : ℝ) :
    vizFaces B true showSymm Qclip = (clipMax Qclip (vizQ B.freqs (losses B))).map fun v =>
      (some (vizQ B.freqs (losses B)), some v) := by
  unfold vizFaces losses
  rw [if_pos rfl, if_pos hgme]
  have : (if B.freqsIm.length = 0 then B.runIm else B.freqsIm) = if B.freqsIm = [] then B.runIm else B.freqsIm := by
    by_cases h : B.freqsIm = []
    · rw [if_pos h, if_pos (by rw [h]; rfl)]
    · rw [if_neg h, if_neg (by simpa using h)]
  rw [this]
  simp only [bind, Except.bind]
  cases h : clipMax Qclip (vizQ B.freqs (if B.freqsIm = [] then B.runIm else B.freqsIm)) <;> rfl

/-- **C115 (quality factors, partial).** The claim that with `Q=True` every marker is coloured by the quality factor of its mode,
with a colour scale ending at the largest quality factor below `Q_clip`, holds if some mode has a quality factor below
`Q_clip`. Losses are computed if none are stored. With `kz_symmetry='both'` and `show_symmetry` the edges show the
symmetries. Missing: bands whose quality factors all reach `Q_clip` (`C115_lossless`). -/
theorem C115_quality_partial (B : BandSrc) (N : ℕ) (hk : B.kpoints ≠ []) (hN : 0 < N)
    (hf : IsTable B.freqs B.kpoints.length N) (him : IsTable (losses B) B.kpoints.length N)
    (hs : IsTable B.kzSymms B.kpoints.length N) (hgme : B.isGme = true)
    (Qclip : ℝ) (cone showSymm eV : Bool) (a : Option ℝ) (kUnits : Bool) (c : ℝ)
    (hc : (eV = false ∧ c = 1) ∨ (eV = true ∧ ∃ l, a = some l ∧ 0 < l ∧ c = hcEV / l))
    (hq : ∃ (i n : ℕ) (f g : ℝ), (B.freqs[i]?.bind (·[n]?)) = some f ∧ ((losses B)[i]?.bind (·[n]?)) = some g ∧
      calcQ f g < Qclip) :
    ∃ P v, vizBands B true Qclip cone showSymm eV a kUnits = .ok P ∧ P.vmax = some v ∧ v < Qclip ∧
      (∃ (i n : ℕ) (f g : ℝ), (B.freqs[i]?.bind (·[n]?)) = some f ∧ ((losses B)[i]?.bind (·[n]?)) = some g ∧ v = calcQ f g) ∧
      (∀ (i n : ℕ) (f g : ℝ), (B.freqs[i]?.bind (·[n]?)) = some f → ((losses B)[i]?.bind (·[n]?)) = some g →
        calcQ f g < Qclip → calcQ f g ≤ v) ∧
      Marks P.markers (calcX0 B.kpoints kUnits) c B.freqs B.kpoints.length N
        (fun i n => (B.freqs[i]?.bind (·[n]?)).bind fun f => ((losses B)[i]?.bind (·[n]?)).map fun g => f / (2 * (g + 1e-16)))
        (fun i n => (symmFace B showSymm i n).map fun s => (s + 1) / 2) := by
  have hmem := mem_vizQ hf him
  obtain ⟨i0, n0, f0, g0, a1, a2, a3⟩ := hq
  have hne : ([(vizQ B.freqs (losses B)).filter fun q => decide (q < Qclip)] : List (List ℝ)).flatten ≠ [] := by
    refine List.ne_nil_of_mem (a := calcQ f0 g0) ?_
    simp only [List.flatten_cons, List.flatten_nil, List.append_nil, List.mem_filter, decide_eq_true_eq]
    exact ⟨(hmem _).2 ⟨_, _, _, _, a1, a2, rfl⟩, a3⟩
  obtain ⟨v, v1, v2, v3⟩ := arrMax_ok _ hne
  simp only [List.flatten_cons, List.flatten_nil, List.append_nil, List.mem_filter, decide_eq_true_eq] at v2 v3
  have hfaces : vizFaces B true showSymm Qclip = .ok (some (vizQ B.freqs (losses B)), some v) := by
    rw [vizFaces_Q B hgme, clipMax, v1]; rfl
  obtain ⟨P, p1, p2, -, p4, -⟩ := vizBands_of B N hk hN hf true Qclip cone showSymm eV a kUnits c (vizConv_of hc)
    (Or.inl hgme) _ _ hfaces
  refine ⟨P, v, p1, p2, v2.2, ?_, ?_, marks_congr p4 ?_ ?_⟩
  · obtain ⟨i, n, f, g, e1, e2, e3⟩ := (hmem v).1 v2.1
    exact ⟨i, n, f, g, e1, e2, e3⟩
  · intro i n f g e1 e2 e3
    exact v3 _ ⟨(hmem _).2 ⟨i, n, f, g, e1, e2, rfl⟩, e3⟩
  · intro i n hi hn
    obtain ⟨f, g, e1, e2, e3⟩ := vizQ_get hf him hi hn
    rw [Option.bind_some, e3, e1, e2]
    simp only [Option.bind_some, Option.map_some, calcQ]
    rw [div_div]
  · intro i n hi hn
    unfold vizEdges symmFace
    by_cases h : B.symm.map pyLower = some ['b', 'o', 't', 'h'] ∧ showSymm = true
    · rw [if_pos ⟨rfl, h⟩, if_pos h, Option.bind_some, List.getElem?_map, flatten_table _ N hs.2 i n hn]
    · rw [if_neg (by rintro ⟨-, h'⟩; exact h h'), if_neg h]; rfl

/-- **C115 (lossless bands).** If all quality factors reach `Q_clip` then `Q=True` raises `ValueError` and nothing is shown; in
particular for lossless modes with frequencies of at least `2e-6` and the default `Q_clip=1e10`. -/
theorem C115_lossless (B : BandSrc) (N : ℕ) (hf : IsTable B.freqs B.kpoints.length N)
    (him : IsTable (losses B) B.kpoints.length N) (hgme : B.isGme = true) (Qclip : ℝ) (cone showSymm eV : Bool)
    (a : Option ℝ) (kUnits : Bool) (c : ℝ)
    (hc : (eV = false ∧ c = 1) ∨ (eV = true ∧ ∃ l, a = some l ∧ 0 < l ∧ c = hcEV / l))
    (h : (∀ (i n : ℕ) (f g : ℝ), (B.freqs[i]?.bind (·[n]?)) = some f → ((losses B)[i]?.bind (·[n]?)) = some g →
        Qclip ≤ calcQ f g) ∨
      (Qclip = 1e10 ∧ ∀ (i n : ℕ) (f g : ℝ), (B.freqs[i]?.bind (·[n]?)) = some f → ((losses B)[i]?.bind (·[n]?)) = some g →
        2e-6 ≤ f ∧ g = 0)) :
    vizBands B true Qclip cone showSymm eV a kUnits = .error .valueError := by
  have hall : ∀ (i n : ℕ) (f g : ℝ), (B.freqs[i]?.bind (·[n]?)) = some f → ((losses B)[i]?.bind (·[n]?)) = some g →
      Qclip ≤ calcQ f g := by
    rcases h with h | ⟨rfl, h⟩
    · exact h
    · intro i n f g e1 e2
      obtain ⟨h1, rfl⟩ := h i n f g e1 e2
      unfold calcQ
      rw [zero_add, le_div_iff₀ (by norm_num)]
      linarith
  have hclip : clipMax Qclip (vizQ B.freqs (losses B)) = .error .valueError := by
    unfold clipMax
    rw [List.filter_eq_nil_iff.2]
    · rfl
    · intro q hq
      obtain ⟨i, n, f, g, e1, e2, rfl⟩ := (mem_vizQ hf him q).1 hq
      simpa using hall i n f g e1 e2
  unfold vizBands
  rw [vizConv_of hc]
  simp only [bind, Except.bind]
  rw [vizFaces_Q B hgme, hclip]
  rfl

/-- **C115 (two-dimensional structures and units).** For a `PlaneWaveExp` object the default arguments raise `AttributeError`, as
does `Q=True`: the light cone needs claddings and the quality factors losses. Energies in eV without the lattice constant raise
`ValueError`, as does a negative one. -/
theorem C115_errors (B : BandSrc) (Qclip : ℝ) (Q cone showSymm kUnits : Bool) (a : Option ℝ) :
    (B.isGme = false → B.symm = none → ∀ N, 0 < N → B.kpoints ≠ [] → IsTable B.freqs B.kpoints.length N →
      (Q = true ∨ cone = true) → vizBands B Q Qclip cone showSymm false a kUnits = .error .attributeError) ∧
    vizBands B Q Qclip cone showSymm true none kUnits = .error .valueError ∧
    ∀ l, l < 0 → vizBands B Q Qclip cone showSymm true (some l) kUnits = .error .valueError := by
  refine ⟨?_, rfl, ?_⟩
  · intro hg hs N hN hk hf h
    obtain ⟨m, hm, -⟩ := arrMax_top B.freqs _ N hf (List.length_pos_iff.2 hk) hN 1 one_pos
    have hc : vizConv false a = .ok 1 := rfl
    unfold vizBands
    rw [hc]
    simp only [bind, Except.bind]
    cases Q with
    | true =>
      have : vizFaces B true showSymm Qclip = .error .attributeError := by
        unfold vizFaces; rw [if_pos rfl, if_neg (by simp [hg])]
      rw [this]
    | false =>
      have : vizFaces B false showSymm Qclip = .ok (none, none) := by
        unfold vizFaces; rw [if_neg Bool.false_ne_true, if_neg (by simp [hs])]
      rw [this]
      simp only
      rw [hm]
      simp only
      rw [if_pos (h.resolve_left (by simp)), if_neg (by simp [hg])]
  · intro l hl
    have : vizConv true (some l) = .error .valueError := by
      simp only [vizConv, if_true]
      rw [(C56_convert_partial false l (Or.inl hl.ne)).1 hl.le]
      rfl
    unfold vizBands
    rw [this]
    rfl

/-- **C115 (polaritons).** `pol_bands` draws one marker per polariton at its energy, coloured by the excitonic fraction if
`fraction` is set and otherwise by the quality factor if `Q` is set; the vertical axis runs from zero to the largest energy. -/
theorem C115_pol (B : PolBandSrc) (N : ℕ) (hk : B.kpoints ≠ []) (hN : 0 < N) (hf : IsTable B.eners B.kpoints.length N)
    (him : IsTable B.enersIm B.kpoints.length N) (hx : IsTable B.fractions B.kpoints.length N) (ha : 0 < B.a)
    (Q fraction cone kUnits : Bool) :
    ∃ P, vizPolBands B Q fraction cone kUnits = .ok P ∧ TopIs P.ymax 1 B.eners ∧
      Marks P.markers (calcX0 B.kpoints kUnits) 1 B.eners B.kpoints.length N
        (fun i n => if fraction then B.fractions[i]?.bind (·[n]?) else if Q then (B.eners[i]?.bind (·[n]?)).bind fun f =>
          (B.enersIm[i]?.bind (·[n]?)).map fun g => f / (2 * (g + 1e-16)) else none) (fun _ _ => none) ∧
      (cone = true → ∃ C, P.cone = some C ∧ C.low = B.kpoints.map (lightLine B.epsLo B.epsHi (hcEV / B.a)) ∧ P.ymax ≤ C.top) := by
  obtain ⟨m, hm, htop⟩ := arrMax_top B.eners _ N hf (List.length_pos_iff.2 hk) hN 1 one_pos
  rw [one_mul] at htop
  obtain ⟨xm, hxm⟩ := calcX0_cons B.kpoints hk kUnits
  obtain ⟨C, hC, c2, c3, c4, -⟩ := vizCone_ok B.kpoints hk B.epsLo B.epsHi (hcEV / B.a) (calcX0 B.kpoints kUnits) m
  obtain ⟨w, hw, -⟩ := (C56_convert_partial false B.a (Or.inl ha.ne')).2 ha
  have hmarks := markers_spec B.kpoints hk kUnits B.eners N hf 1 (if Q && !fraction then some (vizQ B.eners B.enersIm)
    else if fraction then some B.fractions.flatten else none) none
  have hone : B.eners.flatten.map ((1 : ℝ) * ·) = B.eners.flatten := by simp
  rw [hone] at hmarks
  have hmarks' := marks_congr hmarks (f' := fun i n => if fraction then B.fractions[i]?.bind (·[n]?) else if Q then
      (B.eners[i]?.bind (·[n]?)).bind fun f => (B.enersIm[i]?.bind (·[n]?)).map fun g => f / (2 * (g + 1e-16)) else none)
    (e' := fun _ _ => none) (by
      intro i n hi hn
      cases fraction with
      | true =>
        simp only [Bool.not_true, Bool.and_false, Bool.false_eq_true, if_false, if_true, Option.bind_some]
        rw [flatten_table _ N hx.2 i n hn]
      | false =>
        cases Q with
        | true =>
          obtain ⟨f, g, e1, e2, e3⟩ := vizQ_get hf him hi hn
          simp only [Bool.not_false, Bool.and_true, Bool.false_eq_true, if_false, if_true, Option.bind_some]
          rw [e3, e1, e2]
          simp only [Option.bind_some, Option.map_some, calcQ]
          rw [div_div]
        | false => rfl) (fun _ _ _ _ => rfl)
  cases cone with
  | false =>
    refine ⟨⟨_, none, none, xm, m⟩, ?_, htop, hmarks', by simp⟩
    unfold vizPolBands
    simp only [bind, Except.bind, Bool.false_eq_true, if_false]
    rw [hxm]
    simp only
    rw [hm]
    rfl
  | true =>
    refine ⟨⟨_, none, some C, xm, m⟩, ?_, htop, hmarks', fun _ => ⟨C, rfl, c3, c4⟩⟩
    unfold vizPolBands
    simp only [bind, Except.bind, if_true, hw, Except.map, hm, hC, hxm]
    rfl

/-- A slab with two modes at three wave vectors, one of them lossy. -/
noncomputable def threeK : BandSrc :=
  ⟨true, some "Both", [(0, 0), (3, 4), (3, 9)], [[1, 2], [3, 4], [5, 6]], [], [[0, 0], [0, 1], [0, 0]],
    [[1, -1], [1, 1], [-1, 1]], 1, 2⟩

example : ∃ P v, vizBands threeK true 1e10 true true true (some 1) true = .ok P ∧ P.vmax = some v ∧ v < 1e10 := by
  obtain ⟨P, v, h1, h2, h3, -⟩ := C115_quality_partial threeK 2 (by simp [threeK]) (by norm_num)
    (by simp [threeK, IsTable]) (by simp [threeK, IsTable, losses]) (by simp [threeK, IsTable]) rfl 1e10 true true true
    (some 1) true (hcEV / 1) (Or.inr ⟨rfl, 1, rfl, one_pos, rfl⟩)
    ⟨1, 1, 4, 1, rfl, by simp [threeK, losses], by norm_num [calcQ]⟩
  exact ⟨P, v, h1, h2, h3⟩

example : ∃ P, vizBands threeK false 1e10 true true false none false = .ok P ∧ P.xmax = some 2 ∧ P.ymax = 6 ∧
    ∃ m, P.markers[3]? = some m ∧ m.x = some 1 ∧ m.y = 4 ∧ m.face = some 1 := by
  have hf : IsTable threeK.freqs threeK.kpoints.length 2 := by simp [threeK, IsTable]
  obtain ⟨P, h1, h2, h3, h4, -⟩ := C115_markers threeK 2 (by simp [threeK]) (by norm_num) hf
    (by simp [threeK, IsTable]) 1e10 true true false none false 1 (Or.inl ⟨rfl, rfl⟩) (Or.inl rfl)
  have hax := (C115_axis threeK 2 (by simp [threeK]) (by norm_num) hf false 1e10 true true false none false (by simp) P h1).1
  refine ⟨P, h1, ?_, ?_, ?_⟩
  · rw [hax]; norm_num [threeK]
  · have u := h3.1 2 1 6 rfl
    obtain ⟨i, n, f, e1, e2⟩ := h3.2
    have : f ∈ threeK.freqs.flatten := (mem_flatten_get _ _).2 ⟨i, n, e1⟩
    simp [threeK] at this
    rcases this with rfl | rfl | rfl | rfl | rfl | rfl <;> linarith
  · obtain ⟨m, x, f, e1, e2, e3, e4, e5, e6, -⟩ := h4.2 1 1 (by simp [threeK]) (by norm_num)
    refine ⟨m, e1, ?_, ?_, ?_⟩
    · rw [e4]
      simp [calcX0, threeK, List.range_succ] at e2
      exact e2.symm
    · rw [e5]
      simp [threeK] at e3
      rw [← e3]; norm_num
    · rw [e6, symmFace, if_pos (by simp [threeK]; decide)]
      simp [threeK]

example : vizBands { threeK with runIm := [[0, 0], [0, 0], [0, 0]] } true 1e10 true true false none false = .error .valueError := by
  refine C115_lossless _ 2 (by simp [threeK, IsTable]) (by simp [threeK, IsTable, losses]) rfl 1e10 true true false none false 1
    (Or.inl ⟨rfl, rfl⟩) (Or.inr ⟨rfl, ?_⟩)
  intro i n f g e1 e2
  have h1 : f ∈ threeK.freqs.flatten := (mem_flatten_get _ _).2 ⟨i, n, e1⟩
  have h2 : g ∈ ([[0, 0], [0, 0], [0, 0]] : List (List ℝ)).flatten := (mem_flatten_get _ _).2 ⟨i, n, by simpa [losses, threeK] using e2⟩
  simp [threeK] at h1
  simp at h2
  refine ⟨?_, h2⟩
  rcases h1 with rfl | rfl | rfl | rfl | rfl | rfl <;> norm_num

example : ∃ P, vizBands threeK false 1e10 true true false none true = .ok P ∧ ∃ C, P.cone = some C ∧ C.low.length = 3 := by
  have hf : IsTable threeK.freqs threeK.kpoints.length 2 := by simp [threeK, IsTable]
  obtain ⟨P, h1, -⟩ := C115_markers threeK 2 (by simp [threeK]) (by norm_num) hf
    (by simp [threeK, IsTable]) 1e10 true true false none true 1 (Or.inl ⟨rfl, rfl⟩) (Or.inl rfl)
  obtain ⟨C, c1, -, c3, -⟩ := C115_cone threeK 2 (by simp [threeK]) (by norm_num) hf (by norm_num [threeK]) (by norm_num [threeK])
    false 1e10 true false none true P h1
  exact ⟨P, h1, C, c1, c3⟩

example : ∃ P, vizPolBands ⟨[(0, 0), (1, 0)], [[1, 2], [3, 4]], [[0, 1], [1, 0]], [[0, 1], [1, 0]], 1, 1, 4e-7⟩ true true true
    false = .ok P := by
  obtain ⟨P, h, -⟩ := C115_pol ⟨[(0, 0), (1, 0)], [[1, 2], [3, 4]], [[0, 1], [1, 0]], [[0, 1], [1, 0]], 1, 1, 4e-7⟩ 2 (by simp)
    (by norm_num) (by simp [IsTable]) (by simp [IsTable]) (by simp [IsTable]) (by norm_num) true true true false
  exact ⟨P, h⟩

end Legume
