import Verif.Model.Guided
import Verif.Props.Primitives
import Mathlib.Analysis.Complex.Basic
import Mathlib.Tactic.Linarith
import Mathlib.Tactic.NormNum

/-!
# C57 (guided-mode bookkeeping) and C80 (interpolation grid)
-/
namespace Legume

/-! ### C57 -/

theorem foldl_max_ge (l : List ℕ) (a : ℕ) : a ≤ l.foldl max a ∧ ∀ x ∈ l, x ≤ l.foldl max a := by
  induction l generalizing a with
  | nil => simp
  | cons y l ih =>
    obtain ⟨h1, h2⟩ := ih (max a y)
    refine ⟨le_trans (le_max_left _ _) h1, ?_⟩
    intro x hx
    rcases List.mem_cons.1 hx with rfl | hx
    · exact le_trans (le_max_right _ _) h1
    · exact h2 x hx

theorem foldl_max_mem (l : List ℕ) (a : ℕ) : l.foldl max a = a ∨ l.foldl max a ∈ l := by
  induction l generalizing a with
  | nil => simp
  | cons y l ih =>
    rw [List.foldl_cons]
    rcases ih (max a y) with h | h
    · rw [h]
      rcases max_choice a y with h' | h'
      · left; exact h'
      · right; rw [h']; exact List.mem_cons_self
    · right; exact List.mem_cons_of_mem _ h

/-- **C57.** Mode order `m` is stored iff some wave vector has more than `m` modes, it has one entry for each such
wave vector, and the entries are in the order of the wave vectors. -/
theorem C57_orders {α : Type} (x : List (List α)) (m : ℕ) :
    ((∃ om, (reshapeList x)[m]? = some om) ↔ ∃ l ∈ x, m < l.length) ∧
    ∀ om, (reshapeList x)[m]? = some om →
      om = x.filterMap (fun l => l[m]?) ∧ om.length = (x.filter fun l => decide (m < l.length)).length := by
  have hlen : m < (x.map List.length).foldl max 0 ↔ ∃ l ∈ x, m < l.length := by
    constructor
    · intro h
      rcases foldl_max_mem (x.map List.length) 0 with h0 | h0
      · omega
      · obtain ⟨l, hl, he⟩ := List.mem_map.1 h0
        exact ⟨l, hl, by omega⟩
    · rintro ⟨l, hl, h⟩
      exact lt_of_lt_of_le h ((foldl_max_ge _ _).2 _ (List.mem_map_of_mem hl))
  unfold reshapeList
  refine ⟨?_, ?_⟩
  · rw [← hlen]
    constructor
    · rintro ⟨om, h⟩
      by_contra hc
      rw [List.getElem?_eq_none (by simp; omega)] at h
      simp at h
    · intro h
      exact ⟨_, by rw [List.getElem?_map, List.getElem?_range h]; rfl⟩
  · intro om h
    have hm : m < (x.map List.length).foldl max 0 := by
      have := (List.getElem?_eq_some_iff.1 h).1
      simpa using this
    rw [List.getElem?_map, List.getElem?_range hm] at h
    simp only [Option.map_some, Option.some.injEq] at h
    subst h
    refine ⟨rfl, ?_⟩
    clear hlen hm
    induction x with
    | nil => rfl
    | cons l x ih =>
      by_cases hl : m < l.length
      · rw [List.filterMap_cons, List.filter_cons, List.getElem?_eq_getElem hl, if_pos (by simpa using hl)]
        simp [ih]
      · rw [List.filterMap_cons, List.filter_cons, List.getElem?_eq_none (by omega), if_neg (by simpa using hl)]
        exact ih

/-- With non-decreasing numbers of modes, the wave vectors that have more than `m` modes are a tail. -/
theorem tail_pairing {K α : Type} (m : ℕ) : ∀ (x : List (List α)) (g : List K), g.length = x.length →
    (x.map List.length).Pairwise (· ≤ ·) →
    (g.drop (g.length - (x.filterMap fun l => l[m]?).length)).zip (x.filterMap fun l => l[m]?) =
      (g.zip x).filterMap fun p => p.2[m]?.map fun v => (p.1, v) := by
  intro x
  induction x with
  | nil => intro g hg _; simp
  | cons l x ih =>
    intro g hg hm
    cases g with
    | nil => simp at hg
    | cons g0 g =>
      have hg' : g.length = x.length := by simpa using hg
      have hle : (x.filterMap fun l => l[m]?).length ≤ x.length := List.length_filterMap_le _ _
      rw [List.map_cons, List.pairwise_cons] at hm
      by_cases hl : m < l.length
      · have hall : (x.filterMap fun l => l[m]?).length = x.length := by
          have hx : ∀ l' ∈ x, m < l'.length := fun l' h' =>
            lt_of_lt_of_le hl (hm.1 _ (List.mem_map_of_mem h'))
          clear ih hm hg hg' hle
          induction x with
          | nil => rfl
          | cons a x ih =>
            rw [List.filterMap_cons, List.getElem?_eq_getElem (hx a List.mem_cons_self)]
            simp [ih fun l' h' => hx l' (List.mem_cons_of_mem _ h')]
        have := ih g hg' hm.2
        rw [hall, hg', Nat.sub_self, List.drop_zero] at this
        rw [List.filterMap_cons, List.getElem?_eq_getElem hl]
        simp only [List.length_cons, hall, hg', Nat.sub_self, List.drop_zero, List.zip_cons_cons,
          List.filterMap_cons, List.getElem?_eq_getElem hl, Option.map_some, this]
      · have := ih g hg' hm.2
        rw [List.filterMap_cons, List.getElem?_eq_none (by omega)]
        simp only [List.length_cons, List.zip_cons_cons, List.filterMap_cons,
          List.getElem?_eq_none (show l.length ≤ m by omega), Option.map_none]
        rw [show g.length + 1 - (x.filterMap fun l => l[m]?).length =
          (g.length - (x.filterMap fun l => l[m]?).length) + 1 by omega, List.drop_succ_cons]
        exact this

/-- **C57 (partial).** If the number of modes does not decrease along the grid, the frequencies stored for mode
order `m` are paired with exactly the wave vectors at which that mode exists.  Missing: other lists of mode counts,
where the pairing is wrong (`C57_pairing_wrong`). -/
theorem C57_pairing_partial {K α : Type} (x : List (List α)) (g : List K) (hg : g.length = x.length)
    (hm : (x.map List.length).Pairwise (· ≤ ·)) (m : ℕ) (om : List α) (h : (reshapeList x)[m]? = some om) :
    (gsOf g om).zip om = (g.zip x).filterMap fun p => p.2[m]?.map fun v => (p.1, v) := by
  obtain ⟨l, hl, hlm⟩ := (C57_orders x m).1.1 ⟨om, h⟩
  obtain ⟨rfl, hlen⟩ := (C57_orders x m).2 om h
  have hpos : (x.filterMap fun l => l[m]?).length ≠ 0 := by
    rw [hlen]
    have : l ∈ x.filter fun l => decide (m < l.length) := List.mem_filter.2 ⟨hl, by simpa using hlm⟩
    exact (List.length_pos_of_mem this).ne'
  unfold gsOf
  rw [if_neg hpos]
  exact tail_pairing m x g hg hm

/-- **C57.** A wave vector with a missing mode shifts the frequencies of all smaller wave vectors: with one mode at
the first grid point and none at the second, the frequency is attributed to the second. -/
theorem C57_pairing_wrong : ∃ (x : List (List ℚ)) (g : List ℚ) (om : List ℚ), g.length = x.length ∧
    (reshapeList x)[0]? = some om ∧
    (gsOf g om).zip om ≠ (g.zip x).filterMap fun p => p.2[0]?.map fun v => (p.1, v) :=
  ⟨[[5], []], [1, 2], [5], rfl, rfl, by decide +kernel⟩

section
variable {K : Type} [Field K] [LinearOrder K] [IsStrictOrderedRing K]

theorem gridExact_mem (delta : K) (hd : 0 ≤ delta) (gk : List K) (x : K) (hx : x ∈ gk) :
    ∃ a ∈ gridExact delta gk, a ≤ x ∧ x ≤ a + delta := by
  have hs : x ∈ gk.insertionSort (· ≤ ·) := (List.perm_insertionSort _ _).mem_iff.2 hx
  unfold gridExact gridShift
  set s := gk.insertionSort (· ≤ ·)
  have hne : s ≠ [] := List.ne_nil_of_mem hs
  rw [← List.dropLast_append_getLast hne, List.mem_append] at hs
  rcases hs with hs | hs
  · refine ⟨x - delta, List.mem_append_left _ (List.mem_map_of_mem hs), by linarith, by linarith⟩
  · refine ⟨x - delta + delta, List.mem_append_right _ ?_, by linarith, by linarith⟩
    rw [List.mem_singleton] at hs
    rw [List.getLast?_eq_getLast_of_ne_nil hne, hs]
    simp

theorem gridExact_sorted (delta : K) (hd : 0 ≤ delta) (gk : List K) :
    (gridExact delta gk).Pairwise (· ≤ ·) := by
  have hs : (gk.insertionSort (· ≤ ·)).Pairwise (· ≤ ·) := List.pairwise_insertionSort _ _
  unfold gridExact gridShift
  set s := gk.insertionSort (· ≤ ·)
  rcases eq_or_ne s [] with h | hne
  · rw [h]; simp
  · rw [← List.dropLast_append_getLast hne, List.pairwise_append] at hs
    rw [List.getLast?_eq_getLast_of_ne_nil hne]
    simp only [Option.toList_some, List.map_cons, List.map_nil, sub_add_cancel]
    rw [List.pairwise_append]
    refine ⟨?_, by simp, ?_⟩
    · rw [List.pairwise_map]
      exact hs.1.imp fun {a b} h => by linarith
    · intro a ha b hb
      obtain ⟨a', ha', rfl⟩ := List.mem_map.1 ha
      have := hs.2.2 a' ha' b hb
      linarith

theorem tail_filter {α : Type} (c : α → ℕ) (m : ℕ) : ∀ (G : List α), G.Pairwise (fun a b => c a ≤ c b) →
    G.drop (G.length - (G.filter fun a => decide (m < c a)).length) = G.filter fun a => decide (m < c a) := by
  intro G
  induction G with
  | nil => intro _; rfl
  | cons a G ih =>
    intro h
    rw [List.pairwise_cons] at h
    by_cases ha : m < c a
    · have : (a :: G).filter (fun a => decide (m < c a)) = a :: G := by
        rw [List.filter_eq_self]
        intro b hb
        rcases List.mem_cons.1 hb with rfl | hb
        · simpa using ha
        · simpa using lt_of_lt_of_le ha (h.1 b hb)
      rw [this, Nat.sub_self, List.drop_zero]
    · have hle := List.length_filter_le (fun a => decide (m < c a)) G
      rw [List.filter_cons, if_neg (by simpa using ha), List.length_cons,
        show G.length + 1 - (G.filter fun a => decide (m < c a)).length =
          (G.length - (G.filter fun a => decide (m < c a)).length) + 1 by omega, List.drop_succ_cons]
      exact ih h.2

/-- **C57 (partial).** `gmode_compute='exact'`: let the number of modes be a non-decreasing function `c` of the wave
vector, such that a mode that appears between two grid points `a < b` appears with `b - a` at least
`1e-10 + delta`.  Then a plane wave takes part in mode order `m` iff its grid point has more than `m` modes.
Missing: cutoffs closer than that, and decreasing mode counts. -/
theorem C57_present_partial (delta : K) (hd : 0 ≤ delta) (gk : List K) (c : K → ℕ) (modes : K → List K)
    (hc : ∀ a, (modes a).length = c a) (hmono : ∀ a b, a ≤ b → c a ≤ c b) (m : ℕ)
    (hsep : ∀ a ∈ gridExact delta gk, ∀ b ∈ gridExact delta gk, c a ≤ m → m < c b → a + delta ≤ b - 1e-10)
    (ind : List ℕ) (oms : List K)
    (h : getGuided gk (gridExact delta gk) (reshapeList ((gridExact delta gk).map modes)) m = .ok (ind, oms)) :
    ∀ j < gk.length, ∃ a ∈ gridExact delta gk, a ≤ gk.getD j 0 ∧ gk.getD j 0 ≤ a + delta ∧
      (j ∈ ind ↔ m < c a) := by
  intro j hj
  have hjm : gk.getD j 0 ∈ gk := by
    rw [List.getD_eq_getElem?_getD, List.getElem?_eq_getElem hj, Option.getD_some]; exact List.getElem_mem _
  obtain ⟨a, ha, ha1, ha2⟩ := gridExact_mem delta hd gk _ hjm
  refine ⟨a, ha, ha1, ha2, ?_⟩
  set G := gridExact delta gk with hG
  unfold getGuided at h
  cases hom : (reshapeList (G.map modes))[m]? with
  | none => rw [hom] at h; simp at h
  | some om =>
    rw [hom] at h
    simp only at h
    cases hgs : gsOf G om with
    | nil => rw [hgs] at h; simp at h
    | cons gs0 gs =>
      rw [hgs] at h
      simp only [Except.ok.injEq, Prod.mk.injEq] at h
      rw [← h.1]
      -- the first wave vector of the slice has the mode, the smaller ones have not
      have hsorted : G.Pairwise (· ≤ ·) := gridExact_sorted delta hd gk
      have hfil : gs0 :: gs = G.filter fun a => decide (m < c a) := by
        have hlen := ((C57_orders _ m).2 om hom).2
        obtain ⟨l, hl, hlm⟩ := (C57_orders _ m).1.1 ⟨om, hom⟩
        have hlen' : om.length = (G.filter fun a => decide (m < c a)).length := by
          rw [hlen, List.filter_map, List.length_map]
          congr 2
          funext a
          simp [hc]
        have hpos : om.length ≠ 0 := by
          rw [hlen]
          exact (List.length_pos_of_mem (List.mem_filter.2 ⟨hl, by simpa using hlm⟩)).ne'
        rw [← hgs]
        unfold gsOf
        rw [if_neg hpos, hlen']
        exact tail_filter c m G (hsorted.imp fun {a b} hab => hmono a b hab)
      have h0 : gs0 ∈ G.filter fun a => decide (m < c a) := by rw [← hfil]; exact List.mem_cons_self
      rw [List.mem_filter, decide_eq_true_eq] at h0
      have hmin : ∀ b ∈ G, m < c b → gs0 ≤ b := by
        intro b hb hmb
        have hb' : b ∈ gs0 :: gs := by rw [hfil]; exact List.mem_filter.2 ⟨hb, by simpa using hmb⟩
        have hs' : (gs0 :: gs).Pairwise (· ≤ ·) := by rw [hfil]; exact hsorted.filter _
        rcases List.mem_cons.1 hb' with rfl | hb'
        · exact le_refl _
        · exact (List.pairwise_cons.1 hs').1 b hb'
      unfold indMode
      rw [List.mem_filter, List.mem_range, decide_eq_true_eq]
      constructor
      · rintro ⟨_, h1⟩
        by_contra hca
        have := hsep a ha gs0 h0.1 (by omega) h0.2
        linarith
      · intro hca
        refine ⟨hj, ?_⟩
        have := hmin a ha hca
        have h10 : (0 : K) < 1e-10 := by norm_num
        linarith

/-- Examples for C57: the third plane wave has a second mode, the others have not. -/
example : getGuided [3, 1, 2] (gridExact 0 [3, 1, 2]) (reshapeList ([1, 2, 3].map fun g : ℚ =>
    if g = 3 then [g / 2, g] else [g / 2])) 1 = .ok ([0], [3]) := by decide +kernel

example : ∀ j < 3, ∃ a ∈ gridExact 0 [3, 1, (2 : ℚ)], a ≤ [3, 1, (2 : ℚ)].getD j 0 ∧
    [3, 1, (2 : ℚ)].getD j 0 ≤ a + 0 ∧ (j ∈ [0] ↔ 1 < if 3 ≤ a then 2 else 1) :=
  C57_present_partial 0 (le_refl 0) [3, 1, 2] (fun g => if 3 ≤ g then 2 else 1)
    (fun g => if 3 ≤ g then [g / 2, g] else [g / 2]) (by intro a; split <;> rfl)
    (by intro a b h; split_ifs <;> first | omega | linarith) 1 (by decide +kernel) [0] [3] (by decide +kernel)

/-- **C57.** The mode indexes used are those requested whose order was found, in the requested order; if there is
none, `RuntimeError` is raised. -/
theorem C57_include (inds : List ℕ) (nTE nTM : ℕ) :
    (∀ l, gmodeInclude inds nTE nTM = .ok l →
      l ≠ [] ∧ l.Sublist inds ∧ ∀ i ∈ inds, i ∈ l ↔ i / 2 < if i % 2 = 0 then nTE else nTM) ∧
    ((∀ i ∈ inds, ¬ i / 2 < if i % 2 = 0 then nTE else nTM) → gmodeInclude inds nTE nTM = .error .runtimeError) := by
  have key : ∀ i, ((i % 2 = 0 ∧ i / 2 < nTE) ∨ (i % 2 = 1 ∧ i / 2 < nTM)) ↔
      i / 2 < if i % 2 = 0 then nTE else nTM := by
    intro i
    split_ifs with h
    · simp [h]
    · have : i % 2 = 1 := by omega
      simp [this]
  unfold gmodeInclude
  simp only [key]
  refine ⟨?_, ?_⟩
  · intro l h
    split_ifs at h with h0
    simp only [Except.ok.injEq] at h
    subst h
    refine ⟨h0, List.filter_sublist, ?_⟩
    intro i hi
    simp [List.mem_filter, hi]
  · intro h
    rw [if_pos]
    rw [List.filter_eq_nil_iff]
    intro i hi
    simpa using h i hi

example : gmodeInclude [0, 3, 1, 4] 2 1 = .ok [0, 1] ∧ gmodeInclude [4, 3] 2 1 = .error .runtimeError := by decide

/-! ### C80 -/

theorem headD_getD (l : List K) : l.headD 0 = l.getD 0 0 := by cases l <;> rfl

theorem tail_getD (l : List K) (n : ℕ) : l.tail.getD n 0 = l.getD (n + 1) 0 := by cases l <;> rfl

theorem getD_lt (xp : List K) (h : xp.Pairwise (· < ·)) (i j : ℕ) (hij : i < j) (hj : j < xp.length) :
    xp.getD i 0 < xp.getD j 0 := by
  rw [List.getD_eq_getElem?_getD, List.getD_eq_getElem?_getD, List.getElem?_eq_getElem hj,
    List.getElem?_eq_getElem (by omega)]
  exact List.pairwise_iff_getElem.1 h i j (by omega) hj hij

theorem npInterp_left (xp yp : List K) (x : K) (hp : 0 < xp.length) (hx : x ≤ xp.getD 0 0) :
    npInterp xp yp x = yp.getD 0 0 := by
  match xp, hp, hx with
  | [_], _, _ => unfold npInterp; exact headD_getD yp
  | x0 :: x1 :: xp, _, hx =>
    unfold npInterp
    rw [if_pos (by simpa using hx)]; exact headD_getD yp

theorem npInterp_right (xp yp : List K) (h : xp.Pairwise (· < ·)) (x : K) (hp : 0 < xp.length)
    (hx : xp.getD (xp.length - 1) 0 ≤ x) (hx' : 1 < xp.length → xp.getD (xp.length - 1) 0 < x) :
    npInterp xp yp x = yp.getD (xp.length - 1) 0 := by
  induction xp generalizing yp with
  | nil => simp at hp
  | cons a xp ih =>
    cases xp with
    | nil => unfold npInterp; exact headD_getD yp
    | cons b xp =>
      obtain ⟨ha, hp'⟩ := List.pairwise_cons.1 h
      have hx2 := hx' (by simp)
      have hl : (a :: b :: xp).getD ((a :: b :: xp).length - 1) 0 = (b :: xp).getD ((b :: xp).length - 1) 0 := by
        simp
      rw [hl] at hx2
      have hb : b < x := by
        rcases Nat.eq_zero_or_pos xp.length with h0 | h0
        · rw [List.length_eq_zero_iff] at h0; subst h0; simpa using hx2
        · exact (getD_lt (b :: xp) hp' 0 ((b :: xp).length - 1) (by simp; omega) (by simp)).trans hx2
      have hab := (ha b List.mem_cons_self).trans hb
      unfold npInterp
      rw [if_neg (not_le.2 hab), if_neg (not_le.2 hb), ih yp.tail hp' (by simp) hx2.le fun _ => hx2, tail_getD]
      simp

theorem npInterp_node (xp yp : List K) (h : xp.Pairwise (· < ·)) (k : ℕ) (hk : k < xp.length) :
    npInterp xp yp (xp.getD k 0) = yp.getD k 0 := by
  cases k with
  | zero => exact npInterp_left xp yp _ hk (le_refl _)
  | succ k =>
    have hlt := getD_lt xp h k (k + 1) (by omega) hk
    rw [npInterp_eq xp yp h k _ hk hlt (le_refl _), div_mul_cancel₀ _ (sub_ne_zero.2 hlt.ne')]
    ring

theorem segment_between (y0 y1 x0 x1 x : K) (h : x0 < x1) (h0 : x0 ≤ x) (h1 : x ≤ x1) :
    min y0 y1 ≤ y0 + (y1 - y0) / (x1 - x0) * (x - x0) ∧ y0 + (y1 - y0) / (x1 - x0) * (x - x0) ≤ max y0 y1 := by
  have hd : 0 < x1 - x0 := sub_pos.2 h
  set t := (x - x0) / (x1 - x0) with ht
  have ht0 : 0 ≤ t := div_nonneg (sub_nonneg.2 h0) hd.le
  have ht1 : t ≤ 1 := (div_le_one hd).2 (by linarith)
  rw [show (y1 - y0) / (x1 - x0) * (x - x0) = (y1 - y0) * t by rw [ht]; ring]
  rcases le_total y0 y1 with hy | hy
  · rw [min_eq_left hy, max_eq_right hy]; constructor <;> nlinarith
  · rw [min_eq_right hy, max_eq_left hy]; constructor <;> nlinarith

/-- **C80.** Between two samples the interpolated value lies between theirs; below the first sample it is the first
and above the last it is the last. -/
theorem C80_between (xp yp : List K) (h : xp.Pairwise (· < ·)) (x : K) :
    (∀ k, k + 1 < xp.length → xp.getD k 0 ≤ x → x ≤ xp.getD (k + 1) 0 →
      min (yp.getD k 0) (yp.getD (k + 1) 0) ≤ npInterp xp yp x ∧
      npInterp xp yp x ≤ max (yp.getD k 0) (yp.getD (k + 1) 0)) ∧
    (0 < xp.length → x ≤ xp.getD 0 0 → npInterp xp yp x = yp.getD 0 0) ∧
    (0 < xp.length → xp.getD (xp.length - 1) 0 ≤ x → npInterp xp yp x = yp.getD (xp.length - 1) 0) := by
  refine ⟨fun k hk h0 h1 => ?_, fun hp hx => npInterp_left xp yp x hp hx, fun hp hx => ?_⟩
  · have hlt : xp.getD k 0 < xp.getD (k + 1) 0 := getD_lt xp h k (k + 1) (by omega) hk
    rcases eq_or_lt_of_le h0 with h0 | h0
    · rw [← h0, npInterp_node xp yp h k (by omega)]
      exact ⟨min_le_left _ _, le_max_left _ _⟩
    · rw [npInterp_eq xp yp h k x hk h0 h1]
      exact segment_between _ _ _ _ _ hlt h0.le h1
  · rcases eq_or_lt_of_le hx with hx | hx
    · rw [← hx, npInterp_node xp yp h _ (by omega)]
    · exact npInterp_right xp yp h x hp hx.le fun _ => hx

theorem exists_segment (xp : List K) (x : K) (h0 : xp.getD 0 0 ≤ x) (n : ℕ) (hn : n < xp.length) :
    xp.getD n 0 ≤ x ∨ ∃ k, k + 1 < xp.length ∧ xp.getD k 0 ≤ x ∧ x ≤ xp.getD (k + 1) 0 := by
  induction n with
  | zero => left; exact h0
  | succ n ih =>
    rcases ih (by omega) with h | h
    · rcases le_total (xp.getD (n + 1) 0) x with h' | h'
      · left; exact h'
      · right; exact ⟨n, hn, h, h'⟩
    · right; exact h

/-- **C80.** The frequency used for a plane wave in mode order `m` differs from the frequency `f` of the mode at the
wave vector of the plane wave by at most `L` times the grid spacing `h`, if `f` is `L`-Lipschitz, the grid reaches up
to the wave vector within `h`, and `h` is at least `1e-10`. -/
theorem C80_frequency (gk g : List K) (omegas : List (List K)) (m : ℕ) (f : K → K) (L h : K) (hL : 0 ≤ L)
    (hh : 1e-10 ≤ h) (om : List K) (hom : omegas[m]? = some om) (hf : om = (gsOf g om).map f)
    (hg : g.Pairwise (· < ·)) (hs : ∀ k, k + 1 < g.length → g.getD (k + 1) 0 - g.getD k 0 ≤ h)
    (hend : ∀ x ∈ gk, x ≤ g.getD (g.length - 1) 0 + h) (hlip : ∀ a b, |f a - f b| ≤ L * |a - b|)
    (ind : List ℕ) (oms : List K) (hok : getGuided gk g omegas m = .ok (ind, oms)) :
    oms.length = ind.length ∧ ∀ i (hi : i < ind.length) (hi' : i < oms.length), ind[i] < gk.length ∧
      |oms[i] - f (gk.getD ind[i] 0)| ≤ L * h := by
  obtain ⟨d, hd⟩ : ∃ d, gsOf g om = g.drop d := by
    unfold gsOf; split_ifs
    · exact ⟨0, by simp⟩
    · exact ⟨_, rfl⟩
  unfold getGuided at hok
  rw [hom] at hok
  simp only at hok
  cases hgs : gsOf g om with
  | nil => rw [hgs] at hok; simp at hok
  | cons gs0 gs =>
    rw [hgs] at hok
    simp only [Except.ok.injEq, Prod.mk.injEq] at hok
    obtain ⟨h1, h2⟩ := hok
    subst h2
    rw [h1]
    refine ⟨by simp, ?_⟩
    intro i hi hi'
    have hmem : ind[i] ∈ indMode gk gs0 := by rw [h1]; exact List.getElem_mem _
    unfold indMode at hmem
    rw [List.mem_filter, List.mem_range, decide_eq_true_eq] at hmem
    refine ⟨hmem.1, ?_⟩
    rw [List.getElem_map]
    set x := gk.getD ind[i] 0 with hx
    have hxm : x ∈ gk := by
      rw [hx, List.getD_eq_getElem?_getD, List.getElem?_eq_getElem hmem.1]; exact List.getElem_mem _
    set xp := gs0 :: gs with hxp
    have hxd : xp = g.drop d := by rw [← hgs, hd]
    have hpw : xp.Pairwise (· < ·) := by rw [hxd]; exact hg.drop
    have hget : ∀ k, xp.getD k 0 = g.getD (d + k) 0 := by
      intro k; rw [hxd]; simp [List.getD_eq_getElem?_getD, List.getElem?_drop]
    have hlen : xp.length = g.length - d := by rw [hxd]; simp
    have hpos : 0 < xp.length := by simp [hxp]
    have hval : ∀ k, k < xp.length → om.getD k 0 = f (xp.getD k 0) := by
      intro k hk
      rw [hf, hgs, List.getD_eq_getElem?_getD, List.getElem?_map, List.getD_eq_getElem?_getD,
        List.getElem?_eq_getElem hk]
      rfl
    have hb := C80_between xp om hpw x
    have hclose : ∀ a, |a - x| ≤ h → |f a - f x| ≤ L * h := fun a ha =>
      (hlip a x).trans (mul_le_mul_of_nonneg_left ha hL)
    rcases le_total x (xp.getD 0 0) with hx0 | hx0
    · rw [hb.2.1 hpos hx0, hval 0 hpos]
      apply hclose
      have hgs0 : xp.getD 0 0 = gs0 := by simp [hxp]
      rw [abs_of_nonneg (by linarith)]
      linarith [hmem.2]
    · rcases exists_segment xp x hx0 (xp.length - 1) (by omega) with hx1 | ⟨k, hk, hk0, hk1⟩
      · rw [hb.2.2 hpos hx1, hval _ (by omega)]
        apply hclose
        have := hend x hxm
        rw [hget, hlen] at hx1
        rw [hget, hlen, abs_of_nonpos (by linarith), show d + (g.length - d - 1) = g.length - 1 by omega]
        linarith
      · obtain ⟨hlo, hhi⟩ := hb.1 k hk hk0 hk1
        rw [hval k (by omega), hval (k + 1) hk] at hlo hhi
        have hstep := hs (d + k) (by omega)
        rw [show d + k + 1 = d + (k + 1) by omega, ← hget, ← hget] at hstep
        have ha := hclose (xp.getD k 0) (by rw [abs_of_nonpos (by linarith)]; linarith)
        have hb' := hclose (xp.getD (k + 1) 0) (by rw [abs_of_nonneg (by linarith)]; linarith)
        rw [abs_le] at ha hb' ⊢
        constructor
        · rcases min_choice (f (xp.getD k 0)) (f (xp.getD (k + 1) 0)) with hm | hm <;> rw [hm] at hlo <;> linarith
        · rcases max_choice (f (xp.getD k 0)) (f (xp.getD (k + 1) 0)) with hm | hm <;> rw [hm] at hhi <;> linarith

/-- **C80.** The grid has `npts` points, increases by equal steps from 0 to `b`; the shift leaves its end in place
and moves the other points down by `delta`. -/
theorem C80_grid (b delta : K) (hb : 0 < b) (hd : 0 ≤ delta) (npts : ℕ) (hn : 2 ≤ npts) :
    let g := gridShift delta (gridLin b npts)
    g.length = npts ∧ g.Pairwise (· < ·) ∧ g.getD 0 0 = -delta ∧ g.getD (npts - 1) 0 = b ∧
    ∀ k, k + 1 < npts → g.getD (k + 1) 0 - g.getD k 0 ≤ b / ((npts - 1 : ℕ) : K) + delta := by
  have hN : (0 : K) < ((npts - 1 : ℕ) : K) := by exact_mod_cast (by omega : 0 < npts - 1)
  set s : K := b / ((npts - 1 : ℕ) : K) with hsd
  have hs : 0 < s := div_pos hb hN
  have hsN : s * ((npts - 1 : ℕ) : K) = b := div_mul_cancel₀ _ hN.ne'
  have hval : ∀ k, k < npts → (gridShift delta (gridLin b npts))[k]? =
      some (if k = npts - 1 then b else s * k - delta) := by
    intro k hk
    unfold gridShift gridLin
    obtain ⟨p, rfl⟩ : ∃ p, npts = p + 1 := ⟨npts - 1, by omega⟩
    rw [List.range_succ, List.map_append, List.map_singleton, List.dropLast_concat,
      List.getLast?_concat]
    simp only [Option.toList_some, List.map_cons, List.map_nil, sub_add_cancel, Nat.add_sub_cancel] at *
    rcases Nat.lt_or_ge k p with hkp | hkp
    · rw [List.getElem?_append_left (by simpa using hkp), if_neg (by omega)]
      simp only [List.getElem?_map, List.getElem?_range hkp, Option.map_some, Option.some.injEq, hsd]
      ring
    · obtain rfl : k = p := by omega
      rw [List.getElem?_append_right (by simp), if_pos rfl]
      simp only [List.length_map, List.length_range, Nat.sub_self, List.getElem?_cons_zero, Option.some.injEq]
      rw [mul_div_assoc, div_self hN.ne', mul_one]
  have hlen : (gridShift delta (gridLin b npts)).length = npts := by
    unfold gridShift gridLin
    obtain ⟨p, rfl⟩ : ∃ p, npts = p + 1 := ⟨npts - 1, by omega⟩
    rw [List.range_succ, List.map_append, List.map_singleton, List.dropLast_concat, List.getLast?_concat]
    simp
  have hgD : ∀ k, k < npts → (gridShift delta (gridLin b npts)).getD k 0 =
      if k = npts - 1 then b else s * k - delta := by
    intro k hk; rw [List.getD_eq_getElem?_getD, hval k hk]; rfl
  have hlt : ∀ i j, i < j → j < npts →
      (gridShift delta (gridLin b npts)).getD i 0 < (gridShift delta (gridLin b npts)).getD j 0 := by
    intro i j hij hj
    rw [hgD i (by omega), hgD j hj, if_neg (by omega)]
    have hij' : (i : K) < j := by exact_mod_cast hij
    split_ifs with h
    · rw [← hsN, ← h]; nlinarith
    · nlinarith
  refine ⟨hlen, ?_, ?_, ?_, ?_⟩
  · rw [List.pairwise_iff_getElem]
    intro i j hi hj hij
    have := hlt i j hij (by omega)
    rwa [List.getD_eq_getElem?_getD, List.getD_eq_getElem?_getD, List.getElem?_eq_getElem hi,
      List.getElem?_eq_getElem hj] at this
  · rw [hgD 0 (by omega), if_neg (by omega)]; simp
  · rw [hgD _ (by omega), if_pos rfl]
  · intro k hk
    rw [hgD _ hk, hgD k (by omega), if_neg (by omega : ¬ k = npts - 1)]
    split_ifs with h
    · rw [← hsN, ← h]; push_cast; nlinarith
    · push_cast; nlinarith

end

theorem foldl_max_real (l : List ℝ) (a : ℝ) : a ≤ l.foldl max a ∧ ∀ x ∈ l, x ≤ l.foldl max a := by
  induction l generalizing a with
  | nil => simp
  | cons y l ih =>
    obtain ⟨h1, h2⟩ := ih (max a y)
    refine ⟨le_trans (le_max_left _ _) h1, ?_⟩
    intro x hx
    rcases List.mem_cons.1 hx with rfl | hx
    · exact le_trans (le_max_right _ _) h1
    · exact h2 x hx

/-- **C80.** No `|k + G|` exceeds the end of the grid by more than `delta_gx`. -/
theorem C80_covers (deltaGx : ℝ) (kpoints gvec : List (ℝ × ℝ)) (k g : ℝ × ℝ) (hk : k ∈ kpoints) (hg : g ∈ gvec) :
    0 ≤ gkNorm deltaGx k g ∧ gkNorm deltaGx k g ≤ gridMax kpoints gvec + |deltaGx| := by
  refine ⟨Real.sqrt_nonneg _, ?_⟩
  have hn : ∀ a b : ℝ, √(a ^ 2 + b ^ 2) = ‖(⟨a, b⟩ : ℂ)‖ := fun a b => (Complex.norm_eq_sqrt_sq_add_sq ⟨a, b⟩).symm
  have hkm := (foldl_max_real (kpoints.map fun k => √(k.1 ^ 2 + k.2 ^ 2)) 0).2 _ (List.mem_map_of_mem hk)
  have hgm := (foldl_max_real (gvec.map fun g => √(g.1 ^ 2 + g.2 ^ 2)) 0).2 _ (List.mem_map_of_mem hg)
  unfold gkNorm gridMax
  have hsum : (⟨g.1 + k.1 + deltaGx, g.2 + k.2⟩ : ℂ) = ⟨g.1, g.2⟩ + ⟨k.1, k.2⟩ + (deltaGx : ℂ) := by
    apply Complex.ext <;> simp
  simp only [hn] at hkm hgm ⊢
  rw [hsum]
  have h1 := norm_add_le ((⟨g.1, g.2⟩ : ℂ) + ⟨k.1, k.2⟩) (deltaGx : ℂ)
  have h2 := norm_add_le (⟨g.1, g.2⟩ : ℂ) ⟨k.1, k.2⟩
  rw [Complex.norm_real, Real.norm_eq_abs] at h1
  linarith

/-- Examples for C80: a grid of three points; a mode that exists at the two larger ones. -/
example : gridShift (1 / 10) (gridLin 2 3) = [-1 / 10, 9 / 10, (2 : ℚ)] ∧
    getGuided [3 / 2, 0, (2 : ℚ)] [0, 1, 2] [[3, 4, 5], [5, 7]] 1 = .ok ([0, 2], [6, 7]) := by decide +kernel

example : ∀ i (hi : i < 2) (hi' : i < 2), [0, 2][i] < 3 ∧
    |[6, (7 : ℚ)][i] - (2 * ([3 / 2, 0, (2 : ℚ)].getD [0, 2][i] 0) + 3)| ≤ 2 * 1 :=
  (C80_frequency [3 / 2, 0, (2 : ℚ)] [0, 1, 2] [[3, 4, 5], [5, 7]] 1 (fun x => 2 * x + 3) 2 1 (by norm_num)
    (by norm_num) [5, 7] rfl (by decide +kernel) (by decide +kernel)
    (by intro k hk; have : k = 0 ∨ k = 1 := by simp at hk; omega
        rcases this with rfl | rfl <;> decide +kernel)
    (by decide +kernel) (by intro a b; rw [show 2 * a + 3 - (2 * b + 3) = 2 * (a - b) by ring, abs_mul]; simp)
    [0, 2] [6, 7] (by decide +kernel)).2

example : gkNorm 0 (1, 0) (0, 1) ≤ gridMax [(1, 0), (0, 0)] [(0, 1), (0, -1)] + |0| :=
  (C80_covers 0 [(1, 0), (0, 0)] [(0, 1), (0, -1)] (1, 0) (0, 1) (by simp) (by simp)).2

end Legume
