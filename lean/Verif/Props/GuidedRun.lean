import Verif.Lemmas.GuidedRun

/-!
# The guided modes of a run are those of the effective slab (C118)
-/
namespace Legume

open Spec

/-- The exact norm of a mode. -/
noncomputable def normExact : NormFn := fun pol om g stack abs =>
  ((slabNorm pol g stack (modeLayers om g (stack.map Prod.snd) abs 1) : ℝ) : ℂ)

/-- A root finder for the dispersion function of a slab: between frequencies that are above the light line of a layer, below
those of the claddings and have different signs it gives a zero, which is not on the light line of a layer. -/
def RootFinder (fs : Finder) (e0 eN : ℝ) (ls : List (ℝ × ℝ)) : Prop :=
  ∀ pol g x y, 0 < g → x < y → (∃ l ∈ ls, g / √l.1 ≤ x) → 0 < x → y ≤ g / √(max e0 eN) →
    (d22 pol x g (e0 :: ls.map Prod.fst ++ [eN]) (ls.map Prod.snd)).re *
      (d22 pol y g (e0 :: ls.map Prod.fst ++ [eN]) (ls.map Prod.snd)).re < 0 →
    x ≤ fs pol g x y ∧ fs pol g x y ≤ y ∧
    (d22 pol (fs pol g x y) g (e0 :: ls.map Prod.fst ++ [eN]) (ls.map Prod.snd)).re = 0 ∧
    ∀ l ∈ ls, l.1 * fs pol g x y ^ 2 ≠ g ^ 2

theorem gridExact_zero (gk : List ℝ) : gridExact 0 gk = gk.insertionSort (· ≤ ·) := by
  unfold gridExact gridShift
  simp only [sub_zero, add_zero, List.map_id']
  rcases List.eq_nil_or_concat (gk.insertionSort (· ≤ ·)) with h | ⟨l, x, h⟩
  · rw [h]; rfl
  · rw [h]; simp

theorem slab_eps (e0 eN : ℝ) (ls : List (ℝ × ℝ)) :
    (slabStack e0 eN ls).map Prod.snd = e0 :: ls.map Prod.fst ++ [eN] := by
  simp [slabStack, Function.comp_def]

/-- A zero of the real part of the dispersion function between the light lines is a guided mode of the slab. -/
theorem slabRoot_of_re {pol : Pol} {om g e0 eN : ℝ} {ls : List (ℝ × ℝ)} {abs : List (ℂ × ℂ)} (h0 : 0 < e0) (hN : 0 < eN)
    (hl : ∀ l ∈ ls, 0 < l.1) (hom : 0 < om) (hg : 0 < g) (hub : om < g / √(max e0 eN))
    (hlb : ∀ l, ls = [l] → g / √l.1 < om) (hoff : ∀ l ∈ ls, l.1 * om ^ 2 ≠ g ^ 2)
    (hre : (d22 pol om g (e0 :: ls.map Prod.fst ++ [eN]) (ls.map Prod.snd)).re = 0)
    (habs : abMatrices pol om g (e0 :: ls.map Prod.fst ++ [eN]) (ls.map Prod.snd) = .ok abs) :
    SlabRoot pol om g e0 eN ls abs := by
  have hm : 0 < max e0 eN := lt_max_of_lt_left h0
  have hub' : max e0 eN * om ^ 2 < g ^ 2 := by
    rw [lt_div_iff₀ (Real.sqrt_pos.2 hm)] at hub
    calc max e0 eN * om ^ 2 = (om * √(max e0 eN)) ^ 2 := by rw [mul_pow, Real.sq_sqrt hm.le]; ring
      _ < g ^ 2 := by gcongr
  have hom2 : 0 < om ^ 2 := by positivity
  have low : e0 * om ^ 2 < g ^ 2 := lt_of_le_of_lt (mul_le_mul_of_nonneg_right (le_max_left _ _) hom2.le) hub'
  have up : eN * om ^ 2 < g ^ 2 := lt_of_le_of_lt (mul_le_mul_of_nonneg_right (le_max_right _ _) hom2.le) hub'
  refine ⟨low, up, hoff, ?_, ?_, habs⟩
  · rintro l rfl
    have hl1 : 0 < l.1 := hl l (by simp)
    have := hlb l rfl
    rw [div_lt_iff₀ (Real.sqrt_pos.2 hl1)] at this
    calc g ^ 2 < (om * √l.1) ^ 2 := by gcongr
      _ = l.1 * om ^ 2 := by rw [mul_pow, Real.sq_sqrt hl1.le]; ring
  · apply Complex.ext hre
    rw [Complex.zero_im]
    by_cases h3 : ∃ l, ls = [l]
    · obtain ⟨l, rfl⟩ := h3
      exact C26_real_three pol om g e0 l.1 eN l.2
    · rw [d22_of_length]
      · refine C26_real pol om g e0 eN ls ?_ low up
        intro x hx
        simp only [List.cons_append, List.mem_cons, List.mem_append, List.mem_map, List.not_mem_nil, or_false] at hx
        rcases hx with rfl | ⟨l, hl', rfl⟩ | rfl
        · exact ⟨low.ne, h0.ne'⟩
        · exact ⟨hoff l hl', (hl l hl').ne'⟩
        · exact ⟨up.ne, hN.ne'⟩
      · intro hlen
        simp at hlen
        exact h3 (List.length_eq_one_iff.1 hlen)

theorem modeAt_exact {pol : Pol} {om g e0 eN : ℝ} {ls : List (ℝ × ℝ)} {v : GMode}
    (h : modeAt normExact (slabStack e0 eN ls) pol g om = .ok v) :
    ∃ abs, abMatrices pol om g (e0 :: ls.map Prod.fst ++ [eN]) (ls.map Prod.snd) = .ok abs ∧
      v = (om, abs.map fun c => (c.1 / ((√(slabNorm pol g (slabStack e0 eN ls)
          (modeLayers om g ((slabStack e0 eN ls).map Prod.snd) abs 1)) : ℝ) : ℂ),
        c.2 / ((√(slabNorm pol g (slabStack e0 eN ls)
          (modeLayers om g ((slabStack e0 eN ls).map Prod.snd) abs 1)) : ℝ) : ℂ))) := by
  unfold modeAt at h
  rw [slab_eps, stackDs_slab] at h
  split at h
  · cases h
  · rename_i abs habs
    refine ⟨abs, habs, ?_⟩
    cases h
    have hs : ∀ x : ℝ, 0 ≤ x → ((x : ℝ) : ℂ) ^ (1 / 2 : ℂ) = ((√x : ℝ) : ℂ) := by
      intro x hx
      rw [Real.sqrt_eq_rpow, Complex.ofReal_cpow hx]
      norm_num
    have hn : 0 ≤ slabNorm pol g (slabStack e0 eN ls)
        (modeLayers om g ((slabStack e0 eN ls).map Prod.snd) abs 1) := by
      unfold slabNorm
      apply List.sum_nonneg
      intro x hx
      obtain ⟨z, -, rfl⟩ := List.mem_map.1 hx
      refine MeasureTheory.integral_nonneg fun t => ?_
      unfold magSq
      split
      · unfold intensityTM; positivity
      · unfold intensityTE; positivity
    simp only [normExact, hs _ hn]

theorem nodeState_eq {pol : Pol} {om : ℝ} {e0 eN : ℝ} {ls : List (ℝ × ℝ)} {abs : List (ℂ × ℂ)} (p : R2)
    (hlen : abs.length = ls.length + 2) :
    nodeState (slabStack e0 eN ls) pol p (om, abs.map fun c => (c.1 / ((√(slabNorm pol (planeAbs p) (slabStack e0 eN ls)
          (modeLayers om (planeAbs p) ((slabStack e0 eN ls).map Prod.snd) abs 1)) : ℝ) : ℂ),
        c.2 / ((√(slabNorm pol (planeAbs p) (slabStack e0 eN ls)
          (modeLayers om (planeAbs p) ((slabStack e0 eN ls).map Prod.snd) abs 1)) : ℝ) : ℂ))) =
      normState pol p.1 p.2 om e0 eN ls abs := by
  unfold nodeState normState slabState
  congr 1
  change _ = modeLayers om (planeAbs p) _ abs _
  change _ = modeLayers om (planeAbs p) _ abs (slabNorm pol (planeAbs p) (slabStack e0 eN ls)
          (modeLayers om (planeAbs p) ((slabStack e0 eN ls).map Prod.snd) abs 1))
  generalize slabNorm pol (planeAbs p) (slabStack e0 eN ls)
          (modeLayers om (planeAbs p) ((slabStack e0 eN ls).map Prod.snd) abs 1) = N
  unfold modeLayers
  have hst : (slabStack e0 eN ls).length = abs.length := by simp [slabStack, hlen]
  apply List.ext_getElem
  · simp [hst]
  · intro i h1 h2
    have hi : i < abs.length := by simpa [hst] using h1
    simp [List.getD_eq_getElem?_getD, hi, hst]

/-- The frequencies that `guided_modes` finds at the wave vectors of a grid (slab_modes.py 21-90). -/
noncomputable def freqsFound (fs : Finder) (o : GuidedOpts) (e0 eN : ℝ) (ls : List (ℝ × ℝ)) (pol : Pol)
    (grid : List ℝ) : List (List ℝ) :=
  guidedModes (fun g om => (d22 pol om g (e0 :: ls.map Prod.fst ++ [eN]) (ls.map Prod.snd)).re) (fs pol)
    (e0 :: ls.map Prod.fst ++ [eN]) (nModesOf o.inds pol) o.step o.tol none grid

theorem dispRe_slab (e0 eN : ℝ) (ls : List (ℝ × ℝ)) (pol : Pol) : dispRe (slabStack e0 eN ls) pol = fun g om =>
    (d22 pol om g (e0 :: ls.map Prod.fst ++ [eN]) (ls.map Prod.snd)).re := by
  funext g om
  unfold dispRe
  rw [slab_eps, stackDs_slab]

theorem omUb_slab (e0 eN : ℝ) (ls : List (ℝ × ℝ)) (g : ℝ) :
    omUb (e0 :: ls.map Prod.fst ++ [eN]) g = max g 1e-4 / √(max e0 eN) := by
  unfold omUb
  rw [List.cons_append, List.headD_cons, ← List.cons_append, List.getLastD_concat]

theorem omLb_pos (e0 eN : ℝ) (ls : List (ℝ × ℝ)) (hne : ls ≠ []) (hl : ∀ l ∈ ls, 0 < l.1) (g : ℝ) :
    0 < omLb (e0 :: ls.map Prod.fst ++ [eN]) g := by
  unfold omLb
  apply div_pos
  · exact lt_max_of_lt_right (by norm_num)
  · rw [List.cons_append, List.tail_cons, List.dropLast_concat]
    obtain ⟨l, ls, rfl⟩ := List.exists_cons_of_ne_nil hne
    simp only [List.map_cons, List.foldr_cons]
    exact lt_max_of_lt_left (Real.sqrt_pos.2 (hl l (by simp)))

theorem omLb_attained (e0 eN : ℝ) (ls : List (ℝ × ℝ)) (hne : ls ≠ []) (g : ℝ) :
    ∃ l ∈ ls, omLb (e0 :: ls.map Prod.fst ++ [eN]) g = max g 1e-4 / √l.1 := by
  have key : ∀ ls : List (ℝ × ℝ), ls ≠ [] → ∃ l ∈ ls, ((ls.map Prod.fst).map Real.sqrt).foldr max 0 = √l.1 := by
    intro ls
    induction ls with
    | nil => exact fun h => absurd rfl h
    | cons l ls ih =>
      intro _
      simp only [List.map_cons, List.foldr_cons]
      by_cases h : ls = []
      · subst h
        exact ⟨l, by simp, max_eq_left (Real.sqrt_nonneg _)⟩
      · obtain ⟨l', h1, h2⟩ := ih h
        rw [h2]
        rcases le_total (√l.1) (√l'.1) with h3 | h3
        · exact ⟨l', by simp [h1], max_eq_right h3⟩
        · exact ⟨l, by simp, max_eq_left h3⟩
  obtain ⟨l, h1, h2⟩ := key ls hne
  refine ⟨l, h1, ?_⟩
  unfold omLb
  rw [List.cons_append, List.tail_cons, List.dropLast_concat, h2]

theorem omLb_single (e0 eN : ℝ) (l : ℝ × ℝ) (g : ℝ) :
    omLb (e0 :: [l].map Prod.fst ++ [eN]) g = max g 1e-4 / √l.1 := by
  unfold omLb
  rw [List.cons_append, List.tail_cons, List.dropLast_concat]
  simp

/-- What one polarisation contributes. -/
theorem computeGuided_spec (fs : Finder) (o : GuidedOpts) (e0 eN : ℝ) (ls : List (ℝ × ℝ)) (hne : ls ≠ []) (h0 : 0 < e0)
    (hN : 0 < eN) (hl : ∀ l ∈ ls, 0 < l.1) (hfs : RootFinder fs e0 eN ls) (hstep : 0 < o.step) (ht0 : 0 ≤ o.tol)
    (ht1 : o.tol ≤ 1) (pol : Pol) (grid : List ℝ) (hsort : grid.Pairwise (· ≤ ·))
    (hsep : ∀ x ∈ grid, ∀ y ∈ grid, x ≠ y → (1e-8 : ℝ) < |x - y|) (hmin : ∀ x ∈ grid, (1e-4 : ℝ) ≤ x)
    (hcount : polInds o.inds pol ≠ [] → ((freqsFound fs o e0 eN ls pol grid).map List.length).Pairwise (· ≤ ·))
    (r : List (List GMode)) (hr : computeGuided normExact fs o (slabStack e0 eN ls) pol grid = .ok r) :
    ∃ (ms : List (List GMode)) (found : ℝ → List GMode), r = reshapeList ms ∧ grid.length = ms.length ∧
      (ms.map List.length).Pairwise (· ≤ ·) ∧ (∀ p ∈ grid.zip ms, found p.1 = p.2) ∧
      (polInds o.inds pol ≠ [] → grid.map (fun g => (found g).map Prod.fst) = freqsFound fs o e0 eN ls pol grid) ∧
      (polInds o.inds pol = [] → ∀ g, found g = []) ∧
      (∀ g, g ∉ grid → found g = []) ∧
      ∀ g, ((found g).map Prod.fst).Pairwise (· < ·) ∧ ∀ v ∈ found g,
        ∃ abs, SlabRoot pol v.1 g e0 eN ls abs ∧ 0 < v.1 ∧ ∀ p, planeAbs p = g →
          nodeState (slabStack e0 eN ls) pol p v = normState pol p.1 p.2 v.1 e0 eN ls abs := by
  unfold computeGuided at hr
  by_cases hp : polInds o.inds pol = []
  · rw [if_pos hp] at hr
    cases hr
    refine ⟨grid.map fun _ => [], fun _ => [], ?_, by simp, ?_, ?_, fun h => absurd hp h, by simp, by simp, by simp⟩
    · unfold reshapeList
      have : ((grid.map fun _ => ([] : List GMode)).map List.length).foldl max 0 = 0 := by
        rw [List.map_map]
        clear hsort hsep hmin hcount
        induction grid with
        | nil => rfl
        | cons g grid ih => simpa using ih
      rw [this]
      rfl
    · rw [List.map_map, List.pairwise_map]
      exact List.pairwise_of_forall (fun _ _ => le_rfl)
    · rintro ⟨x, l⟩ h
      have := (List.of_mem_zip h).2
      simp at this
      exact this.2.symm
  · rw [if_neg hp, stackDs_slab, if_neg (by simpa using hne)] at hr
    split at hr
    · cases hr
    · rename_i ms hms
      cases hr
      have hspec := guidedRun_spec normExact fs o (slabStack e0 eN ls) pol (nModesOf o.inds pol)
        (fun g l => (l.map Prod.fst).Pairwise (· < ·) ∧ ∀ v ∈ l, modeAt normExact (slabStack e0 eN ls) pol (max g 1e-4) v.1 = .ok v ∧
          (d22 pol v.1 (max g 1e-4) (e0 :: ls.map Prod.fst ++ [eN]) (ls.map Prod.snd)).re = 0 ∧
          omLb (e0 :: ls.map Prod.fst ++ [eN]) g < v.1 ∧ v.1 < max g 1e-4 / √(max e0 eN) ∧
          ∀ l ∈ ls, l.1 * v.1 ^ 2 ≠ (max g 1e-4) ^ 2) (by
          intro g ub l hub hm
          rw [slab_eps] at hub hm
          rw [dispRe_slab] at hm
          rw [omUb_slab] at hub
          obtain ⟨m1, m2⟩ := mapM_modeAt hm
          have hlb := omLb_pos e0 eN ls hne hl g
          have hG : (0 : ℝ) < max g 1e-4 := lt_max_of_lt_right (by norm_num)
          have hU : 0 ≤ max g 1e-4 / √(max e0 eN) := by positivity
          obtain ⟨s1, s2, -⟩ := search_spec (fun om => (d22 pol om (max g 1e-4) (e0 :: ls.map Prod.fst ++ [eN]) (ls.map Prod.snd)).re)
            (fs pol (max g 1e-4)) (nModesOf o.inds pol) (omLb (e0 :: ls.map Prod.fst ++ [eN]) g) ub o.step o.tol
            (omLb (e0 :: ls.map Prod.fst ++ [eN]) g) (max g 1e-4 / √(max e0 eN))
            (fun om => ∀ l ∈ ls, l.1 * om ^ 2 ≠ (max g 1e-4) ^ 2) hstep (by nlinarith)
            (by
              have h1 : 0 ≤ 1 - o.tol := by linarith
              calc ub * (1 - o.tol) ≤ max g 1e-4 / √(max e0 eN) * (1 - o.tol) := mul_le_mul_of_nonneg_right hub h1
                _ ≤ max g 1e-4 / √(max e0 eN) := by nlinarith)
            (by
              intro x y hxy hx hy hD
              refine hfs pol (max g 1e-4) x y hG hxy ?_ (hlb.trans_le hx) hy hD
              obtain ⟨l, hl1, hl2⟩ := omLb_attained e0 eN ls hne g
              exact ⟨l, hl1, by rw [← hl2]; exact hx⟩)
          rw [← m1] at s1 s2
          refine ⟨s2, fun v hv => ?_⟩
          obtain ⟨t1, t2, t3, t4⟩ := s1 v.1 (List.mem_map_of_mem hv)
          exact ⟨m2 v hv, t1, t2, t3, t4⟩) grid none ms hms hsort hsep (by simp)
      obtain ⟨k1, k2, k3, -, k5⟩ := hspec
      rw [slab_eps, dispRe_slab] at k2
      have k2' : ms.map (List.map Prod.fst) = freqsFound fs o e0 eN ls pol grid := k2
      classical
      let found : ℝ → List GMode := fun g => if h : ∃ l, (g, l) ∈ grid.zip ms then h.choose else []
      have hfound : ∀ p ∈ grid.zip ms, found p.1 = p.2 := by
        rintro ⟨g, l⟩ hp'
        have hex : ∃ l, (g, l) ∈ grid.zip ms := ⟨l, hp'⟩
        simp only [found, dif_pos hex]
        exact k5 _ hex.choose_spec _ hp' rfl
      refine ⟨ms, found, rfl, k1.symm, ?_, hfound, fun _ => ?_, fun h => absurd h hp, ?_, ?_⟩
      · have := hcount hp
        rw [← k2', List.map_map] at this
        simpa [Function.comp_def] using this
      · rw [← k2']
        apply List.ext_getElem
        · simp [k1]
        · intro i h1 h2
          simp only [List.length_map] at h1 h2
          simp only [List.getElem_map]
          rw [hfound (grid[i], ms[i])]
          rw [List.mem_iff_getElem]
          exact ⟨i, by simp [h1, k1], by simp⟩
      · intro g hg
        simp only [found]
        rw [dif_neg]
        rintro ⟨l, h⟩
        exact hg (List.of_mem_zip h).1
      · intro g
        by_cases hex : ∃ l, (g, l) ∈ grid.zip ms
        · have hg : found g = hex.choose := by simp only [found, dif_pos hex]
          obtain ⟨q1, q2⟩ := k3 _ hex.choose_spec
          simp only at q1 q2
          rw [← hg] at q1 q2
          refine ⟨q1, fun v hv => ?_⟩
          have hge := hmin g (List.of_mem_zip hex.choose_spec).1
          have hg0 : 0 < g := lt_of_lt_of_le (by norm_num) hge
          obtain ⟨r1, r2, r3, r4, r5⟩ := q2 v hv
          rw [max_eq_left hge] at r1 r2 r4 r5
          have hv0 : 0 < v.1 := (omLb_pos e0 eN ls hne hl g).trans r3
          obtain ⟨abs, ha, hva⟩ := modeAt_exact r1
          refine ⟨abs, slabRoot_of_re h0 hN hl hv0 hg0 r4 ?_ r5 r2 ha, hv0, ?_⟩
          · rintro l rfl
            rw [omLb_single, max_eq_left hge] at r3
            exact r3
          · rintro p rfl
            rw [hva]
            have hlen := abMatrices_length (by simp) ha
            exact nodeState_eq p (by simpa using hlen)
        · have hg : found g = [] := by simp only [found, dif_neg hex]
          rw [hg]
          simp

theorem mapM_ok_eq {α β : Type} {f : α → Except PyErr β} {g : α → β} : ∀ {l : List α} {r : List β},
    l.mapM f = .ok r → (∀ a ∈ l, ∀ b, f a = .ok b → b = g a) → r = l.map g
  | [], r, h, _ => by
    simp [pure, Except.pure] at h
    rw [h]; rfl
  | a :: l, r, h, hf => by
    rw [List.mapM_cons] at h
    simp only [bind, Except.bind] at h
    split at h
    · cases h
    · rename_i b hb
      split at h
      · cases h
      · rename_i r' hr'
        cases h
        rw [List.map_cons, ← hf a List.mem_cons_self b hb,
          ← mapM_ok_eq hr' fun a' ha' => hf a' (List.mem_cons_of_mem _ ha')]

open Classical in
/-- The branches which enter: those of the mode numbers `inds` that are found at one of the wave vectors `gk`; mode number
`m` is the TE mode of order `m / 2` for even and the TM mode of order `m / 2` for odd `m`. -/
noncomputable def foundBranches (inds : List ℕ) (gk : List ℝ) (F : Pol → ℝ → List ℝ) : List (Pol × (ℝ → Option ℝ)) :=
  (inds.filter fun m => decide (∃ g ∈ gk, m / 2 < (F (modePol m) g).length)).map fun m =>
    (modePol m, fun g => (F (modePol m) g)[m / 2]?)

/-- Options under which the modes are computed at the wave vectors themselves: `gmode_compute='exact'` and
`delta_gabs=0`. -/
structure ExactOpts (o : GuidedOpts) : Prop where
  exact : o.exact = true
  gabs : o.deltaGabs = 0
  step : 0 < o.step
  tol0 : 0 ≤ o.tol
  tol1 : o.tol ≤ 1
  nodup : o.inds.Nodup

/-- The wave vectors are at least `1e-4` and differ by more than `1e-8` if they differ, and the number of modes found does
not decrease with the wave vector. -/
structure SeparateWaves (fs : Finder) (o : GuidedOpts) (e0 eN : ℝ) (ls : List (ℝ × ℝ)) (gk : List ℝ) : Prop where
  min : ∀ x ∈ gk, (1e-4 : ℝ) ≤ x
  sep : ∀ x ∈ gk, ∀ y ∈ gk, x ≠ y → (1e-8 : ℝ) < |x - y|
  count : ∀ pol, polInds o.inds pol ≠ [] →
    ((freqsFound fs o e0 eN ls pol (gk.insertionSort (· ≤ ·))).map List.length).Pairwise (· ≤ ·)

/-- The lengths of the plane waves seen from a wave vector. -/
noncomputable def waveLengths (o : GuidedOpts) (gvec : List R2) (k : R2) : List ℝ :=
  gvec.map fun g => planeAbs (radPlane o.deltaGx k g)

/-- The frequencies `F` by polarisation and wave vector are those that are found at the wave vectors `gk`, and they are
increasing and belong to guided modes of the slab. -/
structure FoundModes (fs : Finder) (o : GuidedOpts) (e0 eN : ℝ) (ls : List (ℝ × ℝ)) (gk : List ℝ)
    (F : Pol → ℝ → List ℝ) : Prop where
  found : ∀ pol, polInds o.inds pol ≠ [] → (gk.insertionSort (· ≤ ·)).map (F pol) =
    freqsFound fs o e0 eN ls pol (gk.insertionSort (· ≤ ·))
  increasing : ∀ pol g, (F pol g).Pairwise (· < ·)
  pos : ∀ pol g, ∀ om ∈ F pol g, 0 < om
  modes : ∀ pol g, ∀ om ∈ F pol g, ∃ abs, SlabRoot pol om g e0 eN ls abs
  enter : foundBranches o.inds gk F ≠ []

/-- **C118.** With `gmode_compute='exact'` and `delta_gabs=0` the basis of a run is the one of the guided modes of the
effective slab at the plane waves: with the frequencies `F` found at every wave vector (increasing zeros of the dispersion
relation between the light lines), block by block one state for every plane wave at which the mode is found, with exactly
the frequency and the normalised field of the mode there. Conditions: the wave vectors are at least `1e-4` and differ by
more than `1e-8` if they differ, and the number of modes found does not decrease with the wave vector. -/
theorem C118_basis (fs : Finder) (o : GuidedOpts) (e0 eN : ℝ) (ls : List (ℝ × ℝ)) (hne : ls ≠ []) (h0 : 0 < e0)
    (hN : 0 < eN) (hl : ∀ l ∈ ls, 0 < l.1) (hfs : RootFinder fs e0 eN ls) (ho : ExactOpts o) (gvec ks : List R2) (ik : ℕ)
    (hs : SeparateWaves fs o e0 eN ls (waveLengths o gvec (ks.getD ik 0)))
    (b : List (BasisEl gvec.length)) (hb : codeGuided normExact fs o (slabStack e0 eN ls) gvec ks ik = .ok b) :
    ∃ F : Pol → ℝ → List ℝ, FoundModes fs o e0 eN ls (waveLengths o gvec (ks.getD ik 0)) F ∧
      branchGuided (foundBranches o.inds (waveLengths o gvec (ks.getD ik 0)) F) o.deltaGx e0 eN ls (slabStack e0 eN ls)
        gvec ks ik = .ok b := by
  obtain ⟨hex, hgabs, hstep, ht0, ht1, -⟩ := ho
  obtain ⟨hmin, hsep, hcount⟩ := hs
  set gk := waveLengths o gvec (ks.getD ik 0) with hgk
  unfold waveLengths at hgk
  have hgrid : guidedGrid o gvec ks (ks.getD ik 0) = gk.insertionSort (· ≤ ·) := by
    unfold guidedGrid
    rw [hex, if_pos rfl, hgabs, gridExact_zero, hgk]
  unfold codeGuided at hb
  rw [hgrid] at hb
  set grid := gk.insertionSort (· ≤ ·) with hg
  have hperm : ∀ x, x ∈ grid ↔ x ∈ gk := fun x => (List.perm_insertionSort _ _).mem_iff
  have hsort : grid.Pairwise (· ≤ ·) := List.pairwise_insertionSort _ _
  have hsep' : ∀ x ∈ grid, ∀ y ∈ grid, x ≠ y → (1e-8 : ℝ) < |x - y| := fun x hx y hy =>
    hsep x ((hperm x).1 hx) y ((hperm y).1 hy)
  have hmin' : ∀ x ∈ grid, (1e-4 : ℝ) ≤ x := fun x hx => hmin x ((hperm x).1 hx)
  have hplane : ∀ i : Fin gvec.length, planeAbs (radPlane o.deltaGx (ks.getD ik 0) gvec[i]) ∈ grid := by
    intro i
    rw [hperm, hgk]
    exact List.mem_map_of_mem (List.getElem_mem _)
  unfold basisOf at hb
  simp only [bind, Except.bind] at hb
  split at hb
  · cases hb
  rename_i te hte
  split at hb
  · cases hb
  rename_i tm htm
  split at hb
  · cases hb
  rename_i inc hinc
  split at hb
  · cases hb
  rename_i blocks hblocks
  simp only [Except.ok.injEq] at hb
  have spec : ∀ pol r, computeGuided normExact fs o (slabStack e0 eN ls) pol grid = .ok r → _ := fun pol r hr =>
    computeGuided_spec fs o e0 eN ls hne h0 hN hl hfs hstep ht0 ht1 pol grid hsort hsep' hmin' (hcount pol) r hr
  obtain ⟨ms1, f1, a1, a2, a3, a4, a5, a6, a6', a7⟩ := spec .te te hte
  obtain ⟨ms2, f2, b1, b2, b3, b4, b5, b6, b6', b7⟩ := spec .tm tm htm
  -- both polarisations at once
  let ms : Pol → List (List GMode) := fun pol => match pol with | .te => ms1 | .tm => ms2
  let f : Pol → ℝ → List GMode := fun pol => match pol with | .te => f1 | .tm => f2
  let mo : Pol → List (List GMode) := fun pol => match pol with | .te => te | .tm => tm
  have c1 : ∀ pol, mo pol = reshapeList (ms pol) := by rintro (_ | _) <;> assumption
  have c2 : ∀ pol, grid.length = (ms pol).length := by rintro (_ | _) <;> assumption
  have c3 : ∀ pol, ((ms pol).map List.length).Pairwise (· ≤ ·) := by rintro (_ | _) <;> assumption
  have c4 : ∀ pol, ∀ p ∈ grid.zip (ms pol), f pol p.1 = p.2 := by rintro (_ | _) <;> assumption
  have c5 : ∀ pol, polInds o.inds pol ≠ [] → grid.map (fun g => (f pol g).map Prod.fst) =
      freqsFound fs o e0 eN ls pol grid := by rintro (_ | _) <;> assumption
  have c7 : ∀ pol g, ((f pol g).map Prod.fst).Pairwise (· < ·) ∧ ∀ v ∈ f pol g,
        ∃ abs, SlabRoot pol v.1 g e0 eN ls abs ∧ 0 < v.1 ∧ ∀ p, planeAbs p = g →
          nodeState (slabStack e0 eN ls) pol p v = normState pol p.1 p.2 v.1 e0 eN ls abs := by
    rintro (_ | _) <;> assumption
  -- the mode numbers that enter
  have hlt : ∀ pol m, m < (mo pol).length ↔ ∃ g ∈ gk, m < ((f pol g).map Prod.fst).length := by
    intro pol m
    have h1 := (C57_orders (ms pol) m).1
    rw [← c1] at h1
    have h2 : m < (mo pol).length ↔ ∃ om, (mo pol)[m]? = some om := by
      constructor
      · intro h; exact ⟨_, List.getElem?_eq_getElem h⟩
      · rintro ⟨om, h⟩
        by_contra hc
        rw [List.getElem?_eq_none (by omega)] at h
        cases h
    rw [h2, h1]
    constructor
    · rintro ⟨l, hl', hm⟩
      obtain ⟨i, hi, rfl⟩ := List.mem_iff_getElem.1 hl'
      have hi' : i < grid.length := by rw [c2 pol]; exact hi
      have hz : (grid[i], (ms pol)[i]) ∈ grid.zip (ms pol) := by
        rw [List.mem_iff_getElem]
        exact ⟨i, by simp [hi, hi'], by simp⟩
      refine ⟨grid[i], (hperm _).1 (List.getElem_mem _), ?_⟩
      rw [List.length_map, c4 pol _ hz]
      exact hm
    · rintro ⟨g, hg', hm⟩
      obtain ⟨i, hi, rfl⟩ := List.mem_iff_getElem.1 ((hperm g).2 hg')
      have hi' : i < (ms pol).length := by rw [← c2 pol]; exact hi
      have hz : (grid[i], (ms pol)[i]) ∈ grid.zip (ms pol) := by
        rw [List.mem_iff_getElem]
        exact ⟨i, by simp [hi, hi'], by simp⟩
      rw [List.length_map, c4 pol _ hz] at hm
      exact ⟨_, List.getElem_mem _, hm⟩
  have hinc' : inc = o.inds.filter (fun m => decide (∃ g ∈ gk, m / 2 < ((f (modePol m) g).map Prod.fst).length)) ∧
      inc ≠ [] := by
    unfold gmodeInclude at hinc
    simp only at hinc
    split at hinc
    · cases hinc
    · rename_i hnil
      simp only [Except.ok.injEq] at hinc
      rw [hinc] at hnil
      refine ⟨?_, hnil⟩
      rw [← hinc]
      refine List.filter_congr fun m _ => ?_
      rw [decide_eq_decide, ← hlt]
      unfold modePol
      rcases Nat.mod_two_eq_zero_or_one m with h | h
      · simp [h, mo]
      · simp [h, mo]
  refine ⟨fun pol g => (f pol g).map Prod.fst, ⟨c5, fun pol g => (c7 pol g).1, ?_, ?_, ?_⟩, ?_⟩
  · intro pol g om hom
    obtain ⟨v, hv, rfl⟩ := List.mem_map.1 hom
    obtain ⟨abs, h1, h2, -⟩ := (c7 pol g).2 v hv
    exact h2
  · intro pol g om hom
    obtain ⟨v, hv, rfl⟩ := List.mem_map.1 hom
    obtain ⟨abs, h1, h2, -⟩ := (c7 pol g).2 v hv
    exact ⟨abs, h1⟩
  · intro h
    unfold foundBranches at h
    rw [List.map_eq_nil_iff, ← hinc'.1] at h
    exact hinc'.2 h
  · rw [← hb]
    have hbl := mapM_ok_eq (g := fun (n : ℕ) => (List.finRange gvec.length).filterMap fun i =>
        ((f (modePol (inc.getD n 0)) (planeAbs (radPlane o.deltaGx (ks.getD ik 0) gvec[i])))[inc.getD n 0 / 2]?).map fun v =>
          (⟨n, i, nodeState (slabStack e0 eN ls) (modePol (inc.getD n 0)) (radPlane o.deltaGx (ks.getD ik 0) gvec[i]) v⟩ :
            BasisEl gvec.length)) hblocks (by
      intro n _ blk hblk
      change guidedBlock _ grid _ (mo (modePol (inc.getD n 0))) n (inc.getD n 0) = _ at hblk
      rw [c1] at hblk
      exact guidedBlock_eq (slabStack e0 eN ls) grid _ (ms (modePol (inc.getD n 0))) (c2 _) hsort hsep' hplane (c3 _) _
        (c4 _) n (inc.getD n 0) blk hblk)
    rw [hbl]
    unfold branchGuided foundBranches
    rw [← hinc'.1, List.length_map]
    congr 1
    rw [← List.flatMap_def]
    refine List.flatMap_congr fun n hn => ?_
    rw [List.mem_range] at hn
    have hget : (inc.map fun m => ((modePol m, fun g => ((f (modePol m) g).map Prod.fst)[m / 2]?) :
        Pol × (ℝ → Option ℝ))).getD n (.te, fun _ => none) =
        (modePol (inc.getD n 0), fun g => ((f (modePol (inc.getD n 0)) g).map Prod.fst)[inc.getD n 0 / 2]?) := by
      rw [getD_of_len (by simpa using hn), List.getElem_map, getD_of_len hn]
    rw [hget]
    refine List.filterMap_congr fun i _ => ?_
    have hpl : planeAbs (radPlane o.deltaGx (ks.getD ik 0) gvec[i]) =
        √((gvec[i].1 + ((ks.getD ik 0).1 + o.deltaGx)) ^ 2 + (gvec[i].2 + (ks.getD ik 0).2) ^ 2) := by
      unfold planeAbs radPlane
      simp only [add_assoc]
    simp only [← hpl, List.getElem?_map, Option.map_map]
    cases hv : (f (modePol (inc.getD n 0)) (planeAbs (radPlane o.deltaGx (ks.getD ik 0) gvec[i])))[inc.getD n 0 / 2]? with
    | none => rfl
    | some v =>
      obtain ⟨abs, h1, -, h3⟩ := (c7 _ _).2 v (List.mem_of_getElem? hv)
      simp only [Option.map_some, Function.comp_apply, h1.amps, Option.some.injEq]
      rw [h3 _ rfl]
      simp only [radPlane, add_assoc]

end Legume
