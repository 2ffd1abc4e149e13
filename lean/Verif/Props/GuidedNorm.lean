import Verif.Props.GuidedWhole
import Verif.Props.LayerIntegrals

/-!
# The norm guided modes are divided by, and independence of the polarisations (C118)
-/
namespace Legume

open Spec MeasureTheory

theorem lower_norm (pol : Pol) (g : ℝ) (x B : ℂ) :
    ∫ t, magSq pol g ⟨0, B, x⟩ t ∂(layMeasure .lower) = ∫ t in Set.Ioi (0 : ℝ), intensity pol g x (B, 0) t := by
  have e : ∀ t, magSq pol g ⟨0, B, x⟩ t = intensity pol g x (B, 0) (-t) := by
    intro t
    cases pol <;> simp [magSq, intensity, intensityTE, intensityTM, fieldSum, fieldDiff]
  simp only [layMeasure, e]
  rw [integral_comp_neg_Iic 0 (fun t => intensity pol g x (B, 0) t), neg_zero]

/-- What the norm of a mode in one inner layer may be off by. -/
noncomputable def innerErr (pol : Pol) (om g : ℝ) (l : ℝ × ℝ) (ab : ℂ × ℂ) : ℝ :=
  l.2 ^ 2 / 2 * polFactor pol g (chi om g l.1) *
    ((‖ab.1‖ ^ 2 + ‖ab.2‖ ^ 2) * Real.exp (|(chi om g l.1).im| * |l.2|) + 2 * (‖ab.1‖ * ‖ab.2‖))

/-- What it may be off by in a cladding, with the amplitude `c`. -/
noncomputable def cladErr (pol : Pol) (om g e : ℝ) (c : ℂ) : ℝ :=
  polFactor pol g (chi om g e) * ‖c‖ ^ 2 / (4 * (chi om g e).im ^ 2)

/-- **C118 (norm).** The number guided modes are divided by in a run, squared, is the integral of the squared magnetic
field over all layers, up to `1e-20` times an explicit function of the mode. -/
theorem C118_norm (pol : Pol) (om g e0 eN : ℝ) (ls : List (ℝ × ℝ)) (hne : ls ≠ []) (h0 : e0 ≠ 0) (hN : eN ≠ 0)
    (hl : ∀ l ∈ ls, l.1 ≠ 0 ∧ 0 ≤ l.2 ∧ 2 * (chi om g l.1).re ≠ 1e-20) (abs : List (ℂ × ℂ))
    (hr : SlabRoot pol om g e0 eN ls abs) :
    ∃ a0 mid aN, abs = a0 :: mid ++ [aN] ∧ mid.length = ls.length ∧
    ‖normCode pol om g (slabStack e0 eN ls) abs - normExact pol om g (slabStack e0 eN ls) abs‖ ≤
      1e-20 * (cladErr pol om g e0 a0.2 + cladErr pol om g eN aN.1 +
        ((ls.zip mid).map fun z => innerErr pol om g z.1 z.2).sum) := by
  obtain ⟨hg, -⟩ := slabRoot_guided hr hne h0 hN fun l h => (hl l h).1
  obtain ⟨B, hB⟩ := hg.first
  obtain ⟨A, hA⟩ := hg.last
  have hlen := hg.len
  obtain ⟨mid, rfl, hmid⟩ : ∃ mid, abs = (0, B) :: mid ++ [(A, 0)] ∧ mid.length = ls.length := by
    obtain ⟨a0, rest, rfl⟩ : ∃ a0 rest, abs = a0 :: rest := by
      cases abs with
      | nil => simp at hlen
      | cons a0 rest => exact ⟨a0, rest, rfl⟩
    rcases List.eq_nil_or_concat rest with rfl | ⟨mid, aN, rfl⟩
    · simp at hlen
    · simp only [List.concat_eq_append] at *
      rw [← List.cons_append, List.getLast?_append] at hA
      simp only [List.head?_cons, Option.some.injEq] at hB
      simp at hA
      refine ⟨mid, by rw [hB, hA]; simp, by simpa using hlen⟩
  refine ⟨(0, B), mid, (A, 0), rfl, hmid, ?_⟩
  have hc0 : 0 < (chi om g e0).im := by
    unfold chi
    rw [if_neg (by linarith [hr.low])]
    simp
    linarith [hr.low]
  have hcN : 0 < (chi om g eN).im := by
    unfold chi
    rw [if_neg (by linarith [hr.up])]
    simp
    linarith [hr.up]
  set inner : List (ℂ × ℝ × (ℂ × ℂ)) := (ls.zip mid).map fun z => (chi om g z.1.1, z.1.2, z.2) with hinner
  have key := C63_total pol g (chi om g e0) 0 B (chi om g eN) A 0 inner hc0 hcN (by
    intro l hl'
    obtain ⟨z, hz, rfl⟩ := List.mem_map.1 hl'
    exact (hl _ (List.of_mem_zip hz).1).2.2)
  have e1 : normCode pol om g (slabStack e0 eN ls) ((0, B) :: mid ++ [(A, 0)]) =
      normCoeff pol g (chi om g e0, 0, B) inner (chi om g eN, A, 0) := by
    unfold normCode
    rw [stackDs_slab]
    have hz : (List.map (fun p : LPos × ℝ => chi om g p.2) (slabStack e0 eN ls)).zip ((0, B) :: mid ++ [(A, 0)]) =
        (chi om g e0, (0, B)) :: ((ls.map fun l => chi om g l.1).zip mid ++ [(chi om g eN, (A, 0))]) := by
      simp only [slabStack, List.cons_append, List.map_cons, List.zip_cons_cons, List.map_append, List.map_map,
        Function.comp_def, List.map_nil]
      rw [List.zip_append (by simp [hmid])]
      rfl
    rw [hz]
    simp only [List.headD_cons, List.tail_cons, List.dropLast_concat, List.getLastD_cons]
    congr 1
    · clear_value inner
      clear hz key hlen hA hB hg hr hl hne
      subst hinner
      induction ls generalizing mid with
      | nil => simp
      | cons l ls ih =>
        cases mid with
        | nil => simp at hmid
        | cons m mid => simpa using ih mid (by simpa using hmid)
    · rw [List.getLastD_eq_getLast?, List.getLast?_append]
      simp
  have e2 : normExact pol om g (slabStack e0 eN ls) ((0, B) :: mid ++ [(A, 0)]) =
      (((∫ t in Set.Ioi (0 : ℝ), intensity pol g (chi om g e0) (B, 0) t) : ℝ) +
       ((∫ t in Set.Ioi (0 : ℝ), intensity pol g (chi om g eN) (A, 0) t) : ℝ) +
       (inner.map fun l =>
         ((∫ t in (-(l.2.1 / 2))..(l.2.1 / 2), intensity pol g l.1 l.2.2 t : ℝ) : ℂ)).sum) := by
    unfold normExact slabNorm
    rw [slab_eps]
    have hm : (slabStack e0 eN ls).zip (modeLayers om g (e0 :: ls.map Prod.fst ++ [eN]) ((0, B) :: mid ++ [(A, 0)]) 1) =
        ((.lower, e0), ⟨0, B, chi om g e0⟩) :: (((ls.zip mid).map fun z => ((.inner z.1.2, z.1.1),
          ⟨z.2.1, z.2.2, chi om g z.1.1⟩)) ++ [((.upper, eN), ⟨A, 0, chi om g eN⟩)]) := by
      simp only [modeLayers, slabStack, List.cons_append, List.zipWith_cons_cons, List.zip_cons_cons]
      rw [List.zipWith_append (by simp [hmid]), List.zip_append (by simp [hmid])]
      simp only [Real.sqrt_one, Complex.ofReal_one, div_one, List.zipWith_cons_cons, List.zipWith_nil_left, List.zip_cons_cons,
        List.zip_nil_left]
      congr 2
      clear_value inner
      clear key hlen hA hB hg hr hl hne e1 hinner
      induction ls generalizing mid with
      | nil => simp
      | cons l ls ih =>
        cases mid with
        | nil => simp at hmid
        | cons m mid => simpa using ih mid (by simpa using hmid)
    rw [hm]
    simp only [List.map_cons, List.map_append, List.map_nil, List.sum_cons, List.sum_append, List.sum_nil, List.map_map, add_zero]
    rw [lower_norm]
    have hu : ∫ t, magSq pol g ⟨A, 0, chi om g eN⟩ t ∂(layMeasure .upper) =
        ∫ t in Set.Ioi (0 : ℝ), intensity pol g (chi om g eN) (A, 0) t := by
      simp only [layMeasure]
      cases pol <;> rfl
    rw [hu, hinner, List.map_map]
    push_cast
    rw [ofReal_list_sum, List.map_map]
    have hi : ∀ z ∈ ls.zip mid, ((∫ t, magSq pol g ⟨z.2.1, z.2.2, chi om g z.1.1⟩ t ∂(layMeasure (.inner z.1.2)) : ℝ) : ℂ) =
        ((∫ t in (-(z.1.2 / 2))..(z.1.2 / 2), intensity pol g (chi om g z.1.1) z.2 t : ℝ) : ℂ) := by
      intro z hz
      have hd := (hl _ (List.of_mem_zip hz).1).2.1
      rw [intervalIntegral.integral_of_le (by linarith)]
      simp only [layMeasure]
      cases pol <;> rfl
    have hsum : (List.map ((fun x : ℝ => (x : ℂ)) ∘ ((fun z : (LPos × ℝ) × ModeL => ∫ t, magSq pol g z.2 t ∂(layMeasure z.1.1)) ∘
          fun z : (ℝ × ℝ) × ℂ × ℂ => ((LPos.inner z.1.2, z.1.1), ⟨z.2.1, z.2.2, chi om g z.1.1⟩))) (ls.zip mid)) =
        List.map ((fun l : ℂ × ℝ × ℂ × ℂ => ((∫ t in (-(l.2.1 / 2))..(l.2.1 / 2), intensity pol g l.1 l.2.2 t : ℝ) : ℂ)) ∘
          fun z => (chi om g z.1.1, z.1.2, z.2)) (ls.zip mid) :=
      List.map_congr_left hi
    rw [hsum]
    ring
  rw [e1, e2]
  refine key.trans (le_of_eq ?_)
  simp only [hinner, List.map_map, Function.comp_def, cladErr, innerErr]
  rw [List.sum_map_mul_left]
  ring

/-- The asymmetric slab: the lowest TE mode at the wave vector 2. -/
example : ∃ abs, SlabRoot .te 1 2 3 1 [(5, 7 * Real.pi / 12)] abs ∧
    ∃ a0 mid aN, abs = a0 :: mid ++ [aN] ∧ mid.length = 1 ∧
    ‖normCode .te 1 2 (slabStack 3 1 [(5, 7 * Real.pi / 12)]) abs - normExact .te 1 2 (slabStack 3 1 [(5, 7 * Real.pi / 12)]) abs‖ ≤
      1e-20 * (cladErr .te 1 2 3 a0.2 + cladErr .te 1 2 1 aN.1 +
        (([(5, 7 * Real.pi / 12)].zip mid).map fun z => innerErr .te 1 2 z.1 z.2).sum) := by
  obtain ⟨abs, h⟩ := asym_roots (.te, fun g => open Classical in if g = 2 then some 1 else none) (by simp [asymBranch]) 2 1
    (by simp)
  refine ⟨abs, h, C118_norm .te 1 2 3 1 [(5, 7 * Real.pi / 12)] (by simp) (by norm_num) one_ne_zero ?_ abs h⟩
  intro l hl
  rw [List.mem_singleton.1 hl]
  refine ⟨by norm_num, by positivity, ?_⟩
  have : chi 1 2 5 = 1 := by
    unfold chi
    rw [if_pos (by norm_num)]
    norm_num
  rw [this]
  norm_num

theorem mapM_length {α β : Type} {f : α → Except PyErr β} {l : List α} {r : List β} (h : l.mapM f = .ok r) :
    r.length = l.length := ((mapM_ok_forall h).length_eq).symm

theorem guidedStep_le (D : ℝ → ℝ → ℝ) (fs : ℝ → ℝ → ℝ → ℝ) (eps : List ℝ) (n : ℕ) (step tol : ℝ) (prev : Option (ℝ × List ℝ))
    (g : ℝ) (h : ∀ p ∈ prev, p.2.length ≤ n) : (guidedStep D fs eps n step tol prev g).length ≤ n := by
  unfold guidedStep
  dsimp only
  split_ifs
  · unfold guidedGivenG
    rw [List.length_map]
    exact List.length_take_le _ _
  · cases prev with
    | none => simp
    | some p => exact h p rfl

theorem guidedRun_le (norm : NormFn) (fs : Finder) (o : GuidedOpts) (stack : List (LPos × ℝ)) (pol : Pol) (n : ℕ) :
    ∀ (gs : List ℝ) (prev : Option (ℝ × List GMode)) (ms : List (List GMode)), (∀ p ∈ prev, p.2.length ≤ n) →
      guidedRun norm fs o stack pol n prev gs = .ok ms → ∀ l ∈ ms, l.length ≤ n
  | [], prev, ms, _, h => by cases h; simp
  | g :: gs, prev, ms, hp, h => by
    rw [guidedRun] at h
    split at h
    · cases h
    · rename_i m0 hm0
      split at h
      · cases h
      · rename_i rest hrest
        cases h
        have h0 : m0.length ≤ n := by
          unfold guidedAt at hm0
          split at hm0
          · rename_i gp ms
            split_ifs at hm0
            · rw [mapM_length hm0]
              exact guidedStep_le _ _ _ _ _ _ _ _ (by simpa using hp)
            · cases hm0
              exact hp _ rfl
          · rw [mapM_length hm0]
            exact guidedStep_le _ _ _ _ _ _ _ _ (by simp)
        intro l hl
        rcases List.mem_cons.1 hl with rfl | hl
        · exact h0
        · exact guidedRun_le norm fs o stack pol n gs _ rest (by simpa using h0) hrest l hl

/-- **C118 (polarisations).** Which TM modes are asked for has no effect on the TE modes found, and vice versa; the number
of orders of a polarisation found is at most one more than half the largest number of a mode of it asked for. -/
theorem C118_separate (norm : NormFn) (fs : Finder) (o : GuidedOpts) (inds : List ℕ) (stack : List (LPos × ℝ)) (pol : Pol)
    (grid : List ℝ) (h : ∀ m, modePol m = pol → (m ∈ o.inds ↔ m ∈ inds)) :
    computeGuided norm fs o stack pol grid = computeGuided norm fs { o with inds := inds } stack pol grid ∧
    ∀ r, computeGuided norm fs o stack pol grid = .ok r → r = [] ∨ ∃ m ∈ o.inds, modePol m = pol ∧ r.length ≤ 1 + m / 2 := by
  have hmax : ∀ l : List ℕ, ∀ a, l.foldl max a = (insert a l.toFinset).sup id := by
    intro l
    induction l with
    | nil => intro a; simp
    | cons b l ih =>
      intro a
      rw [List.foldl_cons, ih]
      simp [Finset.sup_insert, max_assoc]
  have hf : (polInds o.inds pol).toFinset = (polInds inds pol).toFinset := by
    ext m
    simp only [polInds, List.mem_toFinset, List.mem_filter, decide_eq_true_eq]
    constructor
    · rintro ⟨h1, h2⟩; exact ⟨(h m h2).1 h1, h2⟩
    · rintro ⟨h1, h2⟩; exact ⟨(h m h2).2 h1, h2⟩
  have hn : nModesOf o.inds pol = nModesOf inds pol := by
    unfold nModesOf
    rw [hmax, hmax, hf]
  have he : polInds o.inds pol = [] ↔ polInds inds pol = [] := by
    rw [← List.toFinset_eq_empty_iff, hf, List.toFinset_eq_empty_iff]
  have hr : ∀ n prev gs, guidedRun norm fs o stack pol n prev gs = guidedRun norm fs { o with inds := inds } stack pol n prev gs := by
    intro n prev gs
    induction gs generalizing prev with
    | nil => rfl
    | cons g gs ih =>
      simp only [guidedRun, ih]
      rfl
  refine ⟨by unfold computeGuided; simp only [he, hn, hr], fun r hc => ?_⟩
  unfold computeGuided at hc
  split_ifs at hc with h1 h2
  · cases hc; exact .inl rfl
  · split at hc
    · cases hc
    · rename_i ms hms
      cases hc
      right
      have hmem := foldl_max_mem (polInds o.inds pol) 0
      have hne : ∃ m ∈ polInds o.inds pol, (polInds o.inds pol).foldl max 0 = m := by
        rcases hmem with h0 | h0
        · obtain ⟨m, hm⟩ := List.exists_mem_of_ne_nil _ h1
          have := hmax (polInds o.inds pol) 0
          refine ⟨m, hm, ?_⟩
          have h3 : m ≤ (polInds o.inds pol).foldl max 0 := by
            rw [this]
            exact Finset.le_sup (f := id) (by simp [hm])
          omega
        · exact ⟨_, h0, rfl⟩
      obtain ⟨m, hm, hmm⟩ := hne
      refine ⟨m, (List.mem_filter.1 hm).1, by simpa using (List.mem_filter.1 hm).2, ?_⟩
      unfold reshapeList
      rw [List.length_map, List.length_range]
      have hb := guidedRun_le norm fs o stack pol _ grid none ms (by simp) hms
      rcases foldl_max_mem (ms.map List.length) 0 with h0 | h0
      · omega
      · obtain ⟨l, hl, e⟩ := List.mem_map.1 h0
        rw [← e]
        have := hb l hl
        unfold nModesOf at this
        omega

/-- Asking for the lowest TM mode too has no effect on the TE modes. -/
example (norm : NormFn) (fs : Finder) (stack : List (LPos × ℝ)) (grid : List ℝ) :
    computeGuided norm fs ⟨[0, 2, 1], true, 0.01, 1e-10, 100, 1e-15, 1e-15⟩ stack .te grid =
      computeGuided norm fs ⟨[2, 0], true, 0.01, 1e-10, 100, 1e-15, 1e-15⟩ stack .te grid :=
  (C118_separate norm fs ⟨[0, 2, 1], true, 0.01, 1e-10, 100, 1e-15, 1e-15⟩ [2, 0] stack .te grid (by
    intro m hm
    have : m ≠ 1 := by rintro rfl; simp [modePol] at hm
    simp only [List.mem_cons, List.not_mem_nil, or_false]
    tauto)).1

end Legume
