import Verif.Props.RadTurn
import Verif.Props.GuidedWhole

/-!
# The search for guided modes in two descriptions of a stack
-/
namespace Legume

open Spec

/-- The upper end of the search at the wave vector `g` (slab_modes.py 61-66). -/
noncomputable def searchUb (eps : List ℝ) (nModes : ℕ) (step : ℝ) (prev : Option (ℝ × List ℝ)) (g : ℝ) : ℝ :=
  match prev with
  | some (gp, oms) => if oms.length = nModes ∧ oms ≠ [] then min (omUb eps g) (oms.getLastD 0 + step + (g - gp)) else omUb eps g
  | none => omUb eps g

/-- All frequencies at which the search samples the dispersion function have the property `P`, wave vector by wave vector. -/
def SampledAll (P : ℝ → ℝ → Prop) (D : ℝ → ℝ → ℝ) (fs : ℝ → ℝ → ℝ → ℝ) (eps : List ℝ) (nModes : ℕ) (step tol : ℝ) :
    Option (ℝ × List ℝ) → List ℝ → Prop
  | _, [] => True
  | prev, g :: gs => (∀ om ∈ omegaGrid (omLb eps g * (1 + tol)) (searchUb eps nModes step prev g * (1 - tol)) step,
        omLb eps g * (1 + tol) ≤ om → P g om) ∧
      SampledAll P D fs eps nModes step tol (some (g, guidedStep D fs eps nModes step tol prev g)) gs

theorem searchUb_le (eps : List ℝ) (nModes : ℕ) (step : ℝ) (prev : Option (ℝ × List ℝ)) (g : ℝ) :
    searchUb eps nModes step prev g ≤ omUb eps g := by
  unfold searchUb
  cases prev with
  | none => exact le_rfl
  | some p =>
    simp only
    split_ifs
    · exact min_le_left _ _
    · exact le_rfl

theorem guidedStep_same {D D' : ℝ → ℝ → ℝ} {fs fs' : ℝ → ℝ → ℝ → ℝ} {eps eps' : List ℝ} {n : ℕ} {step tol : ℝ}
    (hlb : ∀ g, omLb eps' g = omLb eps g) (hub : ∀ g, omUb eps' g = omUb eps g) (prev : Option (ℝ × List ℝ)) (g : ℝ)
    (hg : 1e-4 ≤ g)
    (h : guidedGivenG (D' g) (fs' g) n (omLb eps g) (searchUb eps n step prev g) step tol =
      guidedGivenG (D g) (fs g) n (omLb eps g) (searchUb eps n step prev g) step tol) :
    guidedStep D' fs' eps' n step tol prev g = guidedStep D fs eps n step tol prev g := by
  unfold searchUb at h
  unfold guidedStep
  simp only [hlb, hub, max_eq_left hg]
  cases prev with
  | none =>
    simp only at h ⊢
    rw [h]
  | some p =>
    simp only at h ⊢
    rw [h]

theorem guidedModes_same {P : ℝ → ℝ → Prop} {D D' : ℝ → ℝ → ℝ} {fs fs' : ℝ → ℝ → ℝ → ℝ} {eps eps' : List ℝ} {n : ℕ}
    {step tol : ℝ} (hlb : ∀ g, omLb eps' g = omLb eps g) (hub : ∀ g, omUb eps' g = omUb eps g) :
    ∀ (grid : List ℝ) (prev : Option (ℝ × List ℝ)), (∀ g ∈ grid, (1e-4 : ℝ) ≤ g) →
    (∀ g ∈ grid, ∀ ub ≤ omUb eps g, (∀ om ∈ omegaGrid (omLb eps g * (1 + tol)) (ub * (1 - tol)) step,
        omLb eps g * (1 + tol) ≤ om → P g om) →
      guidedGivenG (D' g) (fs' g) n (omLb eps g) ub step tol = guidedGivenG (D g) (fs g) n (omLb eps g) ub step tol) →
    SampledAll P D fs eps n step tol prev grid →
    guidedModes D' fs' eps' n step tol prev grid = guidedModes D fs eps n step tol prev grid
  | [], _, _, _, _ => rfl
  | g :: gs, prev, hmin, hs, ⟨h1, h2⟩ => by
    have hst := guidedStep_same hlb hub prev g (hmin g List.mem_cons_self)
      (hs g List.mem_cons_self _ (searchUb_le eps n step prev g) h1)
    simp only [guidedModes]
    rw [hst, guidedModes_same hlb hub gs _ (fun x hx => hmin x (List.mem_cons_of_mem _ hx))
      (fun x hx => hs x (List.mem_cons_of_mem _ hx)) h2]

theorem samplePoint_step (lb ub step : ℝ) (hs : 0 < step) (i : ℕ) :
    samplePoint lb ub step (i + 1) - samplePoint lb ub step i ≤ step := by
  unfold samplePoint
  push_cast
  rcases le_total (lb + i * step) ub with h | h
  · rw [min_eq_left h]
    have := min_le_left (lb + (i + 1) * step) ub
    linarith
  · rw [min_eq_right h]
    have := min_le_right (lb + (i + 1) * step) ub
    linarith

open Classical in
/-- The search at one wave vector: two functions with the same signs at the sampled frequencies, and finders that agree in
all brackets. -/
theorem guidedGivenG_same {D D' : ℝ → ℝ} {fs fs' : ℝ → ℝ → ℝ} {n : ℕ} {lb ub step tol : ℝ} (hs : 0 < step)
    (hsign : ∀ om ∈ omegaGrid (lb * (1 + tol)) (ub * (1 - tol)) step, lb * (1 + tol) ≤ om → om ≤ ub * (1 - tol) →
      ∃ c : ℝ, 0 < c ∧ D' om = c * D om)
    (hfs : ∀ x y, x < y → lb * (1 + tol) ≤ x → y ≤ ub * (1 - tol) → y - x ≤ step → D x * D y < 0 → D' x * D' y < 0 →
      fs' x y = fs x y) :
    guidedGivenG D' fs' n lb ub step tol = guidedGivenG D fs n lb ub step tol := by
  rw [guidedGivenG_eq _ _ _ _ _ _ _ hs, guidedGivenG_eq _ _ _ _ _ _ _ hs]
  set a := lb * (1 + tol)
  set b := ub * (1 - tol)
  rw [omegaGrid_eq _ _ _ hs] at hsign
  have hrange : ∀ i, i < ⌈(b - a) / step⌉₊ → a < b := by
    intro i hi
    have hpos : 0 < (b - a) / step := by
      by_contra hneg
      rw [Nat.ceil_eq_zero.mpr (not_lt.mp hneg)] at hi
      omega
    rw [lt_div_iff₀ hs] at hpos
    linarith
  have hbd : ∀ i, a < b → a ≤ samplePoint a b step i ∧ samplePoint a b step i ≤ b := by
    intro i hab
    refine ⟨?_, min_le_right _ _⟩
    have h0 := samplePoint_mono a b step hs (Nat.zero_le i)
    have : samplePoint a b step 0 = a := by simp [samplePoint, hab.le]
    linarith
  have hsg : ∀ i, i < ⌈(b - a) / step⌉₊ → (D' (samplePoint a b step i) * D' (samplePoint a b step (i + 1)) < 0 ↔
      D (samplePoint a b step i) * D (samplePoint a b step (i + 1)) < 0) := by
    intro i hi
    have hab := hrange i hi
    obtain ⟨c, hc, h1⟩ := hsign _ (List.mem_map_of_mem (List.mem_range.2 (show i < _ + 1 by omega))) (hbd i hab).1 (hbd i hab).2
    obtain ⟨c', hc', h2⟩ := hsign _ (List.mem_map_of_mem (List.mem_range.2 (show i + 1 < _ + 1 by omega))) (hbd _ hab).1
      (hbd _ hab).2
    rw [h1, h2, show c * D (samplePoint a b step i) * (c' * D (samplePoint a b step (i + 1))) =
      (c * c') * (D (samplePoint a b step i) * D (samplePoint a b step (i + 1))) by ring]
    have := mul_pos hc hc'
    constructor
    · intro h
      by_contra h'
      have := mul_nonneg this.le (not_lt.1 h')
      linarith
    · exact fun h => mul_neg_of_pos_of_neg this h
  have hch : signChanges D' a b step = signChanges D a b step := by
    unfold signChanges
    refine List.filter_congr fun i hi => ?_
    rw [decide_eq_decide]
    exact hsg i (List.mem_range.1 hi)
  rw [hch]
  refine List.map_congr_left fun i hi => ?_
  have hi' := List.mem_of_mem_take hi
  unfold signChanges at hi'
  rw [List.mem_filter, List.mem_range, decide_eq_true_eq] at hi'
  obtain ⟨hK, h1⟩ := hi'
  have hab := hrange i hK
  refine hfs _ _ ?_ (hbd i hab).1 (hbd _ hab).2 (samplePoint_step a b step hs i) h1 ((hsg i hK).2 h1)
  refine lt_of_le_of_ne (samplePoint_mono a b step hs (Nat.le_succ i)) fun h => ?_
  rw [← h] at h1
  nlinarith [mul_self_nonneg (D (samplePoint a b step i))]

/-- The real part of the dispersion function of a slab. -/
noncomputable def slabDisp (e0 eN : ℝ) (ls : List (ℝ × ℝ)) (pol : Pol) (g om : ℝ) : ℝ :=
  (d22 pol om g (e0 :: ls.map Prod.fst ++ [eN]) (ls.map Prod.snd)).re

/-- A frequency between the light lines of the claddings and of the layers, and on no light line. -/
structure BetweenLines (e0 eN : ℝ) (ls : List (ℝ × ℝ)) (g om : ℝ) : Prop where
  wave : 0 < g
  pos : 0 < om
  clad : om < g / √(max e0 eN)
  core : omLb (e0 :: ls.map Prod.fst ++ [eN]) g < om
  off : ∀ l ∈ ls, l.1 * om ^ 2 ≠ g ^ 2

/-- The guided modes of one polarisation at the wave vector `g` are further apart than the step of the search. -/
def ZerosApart (step : ℝ) (e0 eN : ℝ) (ls : List (ℝ × ℝ)) (pol : Pol) (g : ℝ) : Prop :=
  ∀ x y, BetweenLines e0 eN ls g x → BetweenLines e0 eN ls g y → slabDisp e0 eN ls pol g x = 0 →
    slabDisp e0 eN ls pol g y = 0 → x < y → step < y - x

/-- No frequency at which the search samples the dispersion function is on the light line of a layer. -/
def SampledOff (fs : Finder) (o : GuidedOpts) (e0 eN : ℝ) (ls : List (ℝ × ℝ)) (pol : Pol) (grid : List ℝ) : Prop :=
  SampledAll (fun g om => ∀ l ∈ ls, l.1 * om ^ 2 ≠ g ^ 2) (slabDisp e0 eN ls pol) (fs pol) (e0 :: ls.map Prod.fst ++ [eN])
    (nModesOf o.inds pol) o.step o.tol none grid

/-- Two slabs with dispersion functions that have the same sign and light lines: the same frequencies are found. -/
theorem freqs_same (fs fs' : Finder) (o : GuidedOpts) (e0 eN e0' eN' : ℝ) (ls ls' : List (ℝ × ℝ)) (hne : ls ≠ [])
    (hne' : ls' ≠ []) (hl : ∀ l ∈ ls, 0 < l.1) (hmax : max e0' eN' = max e0 eN)
    (hlb : ∀ g, omLb (e0' :: ls'.map Prod.fst ++ [eN']) g = omLb (e0 :: ls.map Prod.fst ++ [eN]) g)
    (hsub : ∀ l ∈ ls, ∃ l' ∈ ls', l'.1 = l.1) (hfs : RootFinder fs e0 eN ls) (hfs' : RootFinder fs' e0' eN' ls')
    (hstep : 0 < o.step) (ht0 : 0 < o.tol) (ht1 : o.tol ≤ 1) (pol : Pol) (grid : List ℝ) (hmin : ∀ g ∈ grid, (1e-4 : ℝ) ≤ g)
    (hpos : 0 < max e0 eN)
    (hprop : ∀ g om, 1e-4 ≤ g → BetweenLines e0 eN ls g om → ∃ c : ℝ, 0 < c ∧
      slabDisp e0' eN' ls' pol g om = c * slabDisp e0 eN ls pol g om)
    (hap : ∀ g ∈ grid, ZerosApart o.step e0 eN ls pol g) (hoff : SampledOff fs o e0 eN ls pol grid) :
    freqsFound fs' o e0' eN' ls' pol grid = freqsFound fs o e0 eN ls pol grid := by
  have hub : ∀ g, omUb (e0' :: ls'.map Prod.fst ++ [eN']) g = omUb (e0 :: ls.map Prod.fst ++ [eN]) g := by
    intro g
    rw [omUb_slab, omUb_slab, hmax]
  refine guidedModes_same hlb hub grid none hmin ?_ hoff
  intro g hg ub hub1 hP
  have hg1 : 1e-4 ≤ g := hmin g hg
  have hg0 : 0 < g := lt_of_lt_of_le (by norm_num) hg1
  have hlb0 := omLb_pos e0 eN ls hne hl g
  rw [omUb_slab, max_eq_left hg1] at hub1
  have hbt : ∀ om, omLb (e0 :: ls.map Prod.fst ++ [eN]) g * (1 + o.tol) ≤ om → om ≤ ub * (1 - o.tol) →
      (∀ l ∈ ls, l.1 * om ^ 2 ≠ g ^ 2) → BetweenLines e0 eN ls g om := by
    intro om h1 h2 h3
    have hom : omLb (e0 :: ls.map Prod.fst ++ [eN]) g < om := by nlinarith
    have hub0 : 0 < g / √(max e0 eN) := div_pos hg0 (Real.sqrt_pos.2 hpos)
    refine ⟨hg0, by linarith, ?_, hom, h3⟩
    have hub2 : 0 < ub := by
      by_contra h8
      have := mul_nonpos_of_nonpos_of_nonneg (not_lt.1 h8) (sub_nonneg.2 ht1)
      linarith
    nlinarith
  refine guidedGivenG_same hstep ?_ ?_
  · intro om hom h1 h2
    exact hprop g om hg1 (hbt om h1 h2 (hP om hom h1))
  · intro x y hxy hx hy hxs hD hD'
    have hx0 : omLb (e0 :: ls.map Prod.fst ++ [eN]) g < x := by nlinarith
    have hub2 : 0 < ub := by
      by_contra h8
      have := mul_nonpos_of_nonpos_of_nonneg (not_lt.1 h8) (sub_nonneg.2 ht1)
      linarith
    have hy1 : y ≤ g / √(max e0 eN) := by nlinarith
    obtain ⟨a1, a2, a3, a4⟩ := hfs pol g x y hg0 hxy (by
      obtain ⟨l, q1, q2⟩ := omLb_attained e0 eN ls hne g
      rw [max_eq_left hg1] at q2
      exact ⟨l, q1, by rw [← q2]; exact hx0.le⟩) (by linarith) hy1 hD
    obtain ⟨b1, b2, b3, b4⟩ := hfs' pol g x y hg0 hxy (by
      obtain ⟨l, q1, q2⟩ := omLb_attained e0' eN' ls' hne' g
      rw [max_eq_left hg1] at q2
      exact ⟨l, q1, by rw [← q2, hlb]; exact hx0.le⟩) (by linarith) (by rw [hmax]; exact hy1) hD'
    have z1 := hbt _ (hx.trans a1) (a2.trans hy) a4
    have z2 := hbt _ (hx.trans b1) (b2.trans hy) (fun l h => by
      obtain ⟨l', h1, h2⟩ := hsub l h
      rw [← h2]
      exact b4 l' h1)
    obtain ⟨c, hc, hcc⟩ := hprop g _ hg1 z2
    have b3' : slabDisp e0 eN ls pol g (fs' pol g x y) = 0 := by
      have : c * slabDisp e0 eN ls pol g (fs' pol g x y) = 0 := by rw [← hcc]; exact b3
      exact (mul_eq_zero.1 this).resolve_left hc.ne'
    rcases lt_trichotomy (fs' pol g x y) (fs pol g x y) with h | h | h
    · have := hap g hg _ _ z2 z1 b3' a3 h
      linarith
    · exact h
    · have := hap g hg _ _ z1 z2 a3 b3' h
      linarith

/-! ### Stacks upside down and subdivided -/

theorem BetweenLines.clads {e0 eN : ℝ} {ls : List (ℝ × ℝ)} {g om : ℝ} (h : BetweenLines e0 eN ls g om) (h0 : 0 < e0) :
    e0 * om ^ 2 < g ^ 2 ∧ eN * om ^ 2 < g ^ 2 := by
  have hm : 0 < max e0 eN := lt_max_of_lt_left h0
  have h1 := h.clad
  rw [lt_div_iff₀ (Real.sqrt_pos.2 hm)] at h1
  have h2 : (om * √(max e0 eN)) ^ 2 < g ^ 2 := by
    have := h.pos
    have := Real.sqrt_nonneg (max e0 eN)
    gcongr
  rw [mul_pow, Real.sq_sqrt hm.le] at h2
  have h3 := le_max_left e0 eN
  have h4 := le_max_right e0 eN
  have h5 := sq_nonneg om
  constructor <;> nlinarith

theorem wgt_clad (pol : Pol) {om g e : ℝ} (he : 0 < e) (h : e * om ^ 2 < g ^ 2) :
    ∃ t : ℝ, 0 < t ∧ wgt pol om g e = Complex.I * (t : ℂ) := by
  have hs : 0 < √(g ^ 2 - e * om ^ 2) := Real.sqrt_pos.2 (by linarith)
  unfold wgt
  rw [chi_of_lt _ _ _ h]
  cases pol
  · exact ⟨_, hs, rfl⟩
  · refine ⟨√(g ^ 2 - e * om ^ 2) / e, div_pos hs he, ?_⟩
    push_cast
    ring

theorem wgt_core (pol : Pol) {om g e : ℝ} (he : 0 < e) (h : g ^ 2 < e * om ^ 2) :
    ∃ t : ℝ, 0 < t ∧ wgt pol om g e = (t : ℂ) := by
  have hs : 0 < √(e * om ^ 2 - g ^ 2) := Real.sqrt_pos.2 (by linarith)
  unfold wgt
  rw [chi_of_le _ _ _ h.le]
  cases pol
  · exact ⟨_, hs, rfl⟩
  · refine ⟨√(e * om ^ 2 - g ^ 2) / e, div_pos hs he, ?_⟩
    push_cast
    ring

theorem d22_long (pol : Pol) (om g : ℝ) (eps ds : List ℝ) (h : eps.length ≠ 3) :
    d22 pol om g eps ds = d22General pol om g eps ds := by
  unfold d22
  split
  · exact absurd rfl h
  · rfl

theorem d22Three_swap (pol : Pol) (om g e1 e2 e3 d : ℝ) : d22Three pol om g e3 e2 e1 d = d22Three pol om g e1 e2 e3 d := by
  cases pol <;> simp only [d22Three, chis3] <;> ring

theorem slabDisp_one_flip (e0 eN : ℝ) (l : ℝ × ℝ) (pol : Pol) : slabDisp eN e0 [l] pol = slabDisp e0 eN [l] pol := by
  funext g om
  change (d22Three pol om g eN l.1 e0 l.2).re = (d22Three pol om g e0 l.1 eN l.2).re
  rw [d22Three_swap]

theorem rootFinder_one_flip {fs : Finder} {e0 eN : ℝ} {l : ℝ × ℝ} (h : RootFinder fs e0 eN [l]) : RootFinder fs eN e0 [l] := by
  intro pol g x y hg hxy hlow hx hy hs
  have e : ∀ om, (d22 pol om g (eN :: [l].map Prod.fst ++ [e0]) ([l].map Prod.snd)).re =
      (d22 pol om g (e0 :: [l].map Prod.fst ++ [eN]) ([l].map Prod.snd)).re :=
    fun om => congrFun (congrFun (slabDisp_one_flip e0 eN l pol) g) om
  rw [max_comm] at hy
  rw [e, e] at hs
  obtain ⟨a1, a2, a3, a4⟩ := h pol g x y hg hxy hlow hx hy hs
  exact ⟨a1, a2, by rw [e]; exact a3, a4⟩

/-- Upside down the dispersion function has a positive factor. -/
theorem slabDisp_flip {e0 eN : ℝ} {ls : List (ℝ × ℝ)} (h0 : 0 < e0) (hN : 0 < eN) (hl : ∀ l ∈ ls, 0 < l.1) (pol : Pol)
    {g om : ℝ} (h : BetweenLines e0 eN ls g om) :
    ∃ c : ℝ, 0 < c ∧ slabDisp eN e0 ls.reverse pol g om = c * slabDisp e0 eN ls pol g om := by
  by_cases h3 : ∃ l, ls = [l]
  · obtain ⟨l, rfl⟩ := h3
    exact ⟨1, one_pos, by rw [one_mul, List.reverse_singleton, slabDisp_one_flip]⟩
  · obtain ⟨c1, c2⟩ := h.clads h0
    obtain ⟨t0, p0, w0⟩ := wgt_clad pol h0 c1
    obtain ⟨tN, pN, wN⟩ := wgt_clad pol hN c2
    have hw1 : ∀ x ∈ e0 :: ls.map Prod.fst ++ [eN], wgt pol om g x ≠ 0 := by
      intro x hx
      simp only [List.cons_append, List.mem_cons, List.mem_append, List.mem_map, List.not_mem_nil, or_false] at hx
      rcases hx with rfl | ⟨l, hl1, rfl⟩ | rfl
      · exact wgt_ne_zero _ _ _ _ c1.ne h0.ne'
      · exact wgt_ne_zero _ _ _ _ (h.off l hl1) (hl l hl1).ne'
      · exact wgt_ne_zero _ _ _ _ c2.ne hN.ne'
    have n0 := hw1 e0 (by simp)
    have nN := hw1 eN (by simp)
    have hlen : (e0 :: ls.map Prod.fst ++ [eN]).length ≠ 3 := by
      intro h
      apply h3
      simp at h
      exact List.length_eq_one_iff.mp h
    have hlen' : (eN :: ls.reverse.map Prod.fst ++ [e0]).length ≠ 3 := by
      simpa using hlen
    have key : d22General pol om g (eN :: ls.reverse.map Prod.fst ++ [e0]) (ls.reverse.map Prod.snd) =
        ((tN / t0 : ℝ) : ℂ) * d22General pol om g (e0 :: ls.map Prod.fst ++ [eN]) (ls.map Prod.snd) := by
      have hq : ((tN / t0 : ℝ) : ℂ) = wgt pol om g eN / wgt pol om g e0 := by
        rw [w0, wN, mul_div_mul_left _ _ Complex.I_ne_zero, Complex.ofReal_div]
      rw [hq, d22General_eq, d22General_eq, cProd_reverse]
      · simp only [M2.mul_d, M2.mul_b, pInv, pMat, M2.flip]
        field_simp
        ring
      · exact hw1
      · intro x hx
        apply hw1
        simp only [List.cons_append, List.mem_cons, List.mem_append, List.mem_map, List.mem_reverse, List.not_mem_nil,
          or_false] at hx ⊢
        rcases hx with h | h | h
        · exact .inr (.inr h)
        · exact .inr (.inl h)
        · exact .inl h
    refine ⟨tN / t0, div_pos pN p0, ?_⟩
    unfold slabDisp
    rw [d22_long _ _ _ _ _ hlen, d22_long _ _ _ _ _ hlen', key, Complex.re_ofReal_mul]

theorem d22Three_general (pol : Pol) {om g e1 e2 e3 : ℝ} (d : ℝ) (h1 : e1 * om ^ 2 < g ^ 2)
    (h2 : g ^ 2 < e2 * om ^ 2) (h3 : e3 * om ^ 2 < g ^ 2) (he1 : e1 ≠ 0) (he2 : e2 ≠ 0)
    (he3 : e3 ≠ 0) : d22Three pol om g e1 e2 e3 d =
      (-2 * Complex.I * (wgt pol om g e2 * wgt pol om g e3)) * d22General pol om g [e1, e2, e3] [d] := by
  have w1 := wgt_ne_zero pol om g e1 h1.ne he1
  have w2 := wgt_ne_zero pol om g e2 h2.ne' he2
  have w3 := wgt_ne_zero pol om g e3 h3.ne he3
  have hg := d22General_eq pol om g e1 e3 [(e2, d)] (by
    intro e he
    simp only [List.map_cons, List.map_nil, List.cons_append, List.nil_append, List.mem_cons,
      List.not_mem_nil, or_false] at he
    rcases he with rfl | rfl | rfl <;> assumption)
  simp only [List.map_cons, List.map_nil, List.cons_append, List.nil_append] at hg
  rw [hg]
  have c1 : chi om g e1 = Complex.I * ((√(g ^ 2 - e1 * om ^ 2) : ℝ) : ℂ) := chi_of_lt _ _ _ h1
  have c3 : chi om g e3 = Complex.I * ((√(g ^ 2 - e3 * om ^ 2) : ℝ) : ℂ) := chi_of_lt _ _ _ h3
  have c2 : chi om g e2 = ((√(-g ^ 2 + e2 * om ^ 2) : ℝ) : ℂ) := by
    rw [chi_of_le _ _ _ h2.le]; congr 2; ring
  have gen : ∀ w1 w2 w3 x : ℂ, w2 ≠ 0 → w3 ≠ 0 →
      w2 * (w1 + w3) * (-Complex.I * Complex.cos (x * d)) + (w1 * w3 + w2 ^ 2) * (-Complex.sin (x * d)) =
        (-2 * Complex.I * (w2 * w3)) * (pInv w3 * ((M2.one * cMat w2 x d) * pMat w1)).d := by
    intro w1 w2 w3 x n2 n3
    have I2 := Complex.I_sq
    simp only [M2.one_mul, M2.mul_d, M2.mul_b, pInv, cMat, pMat]
    field_simp
    linear_combination (-(w1 * w3 + w2 ^ 2) * Complex.sin (x * d)) * I2
  refine Eq.trans ?_ (gen _ _ _ (chi om g e2) w2 w3)
  cases pol
  · simp only [d22Three, chis3, ← c1, ← c2, ← c3, wgt]
  · simp only [d22Three, chis3, ← c1, ← c2, ← c3, wgt]
    ring

/-- Subdivided the dispersion function has a positive factor. -/
theorem slabDisp_split {e0 eN e d1 d2 : ℝ} {l1 l2 : List (ℝ × ℝ)} (h0 : 0 < e0) (hN : 0 < eN)
    (hl : ∀ l ∈ l1 ++ (e, d1 + d2) :: l2, 0 < l.1) (pol : Pol) {g om : ℝ} (hg : 1e-4 ≤ g)
    (h : BetweenLines e0 eN (l1 ++ (e, d1 + d2) :: l2) g om) :
    ∃ c : ℝ, 0 < c ∧ slabDisp e0 eN (l1 ++ (e, d1) :: (e, d2) :: l2) pol g om =
      c * slabDisp e0 eN (l1 ++ (e, d1 + d2) :: l2) pol g om := by
  obtain ⟨c1, c2⟩ := h.clads h0
  have he : 0 < e := hl (e, d1 + d2) (by simp)
  have hs := C23_split pol om g e0 eN e d1 d2 l1 l2 (by
    intro x hx
    simp only [List.cons_append, List.mem_cons, List.mem_append, List.mem_map, List.not_mem_nil, or_false] at hx
    rcases hx with rfl | ⟨l, hl1, rfl⟩ | rfl
    · exact ⟨c1.ne, h0.ne'⟩
    · rcases hl1 with hl1 | hl1 | hl1
      · exact ⟨h.off l (by simp [hl1]), (hl l (by simp [hl1])).ne'⟩
      · subst hl1
        exact ⟨h.off (e, d1 + d2) (by simp), he.ne'⟩
      · exact ⟨h.off l (by simp [hl1]), (hl l (by simp [hl1])).ne'⟩
    · exact ⟨c2.ne, hN.ne'⟩)
  have hlen : (e0 :: (l1 ++ (e, d1) :: (e, d2) :: l2).map Prod.fst ++ [eN]).length ≠ 3 := by
    simp
    omega
  unfold slabDisp
  rw [d22_long _ _ _ _ _ hlen, hs]
  by_cases h3 : l1 = [] ∧ l2 = []
  · obtain ⟨rfl, rfl⟩ := h3
    have hc := h.core
    rw [List.nil_append, omLb_single, max_eq_left hg, div_lt_iff₀ (Real.sqrt_pos.2 he)] at hc
    have hcore : g ^ 2 < e * om ^ 2 := by
      have hc2 : g ^ 2 < (om * √e) ^ 2 := by
        have := h.wave
        gcongr
      rw [mul_pow, Real.sq_sqrt he.le] at hc2
      linarith
    obtain ⟨t2, p2, w2⟩ := wgt_core pol he hcore
    obtain ⟨t3, p3, w3⟩ := wgt_clad pol hN c2
    have key := d22Three_general pol (d1 + d2) c1 hcore c2 h0.ne' he.ne' hN.ne'
    refine ⟨(2 * t2 * t3)⁻¹, by positivity, ?_⟩
    change (d22General pol om g [e0, e, eN] [d1 + d2]).re = (2 * t2 * t3)⁻¹ * (d22Three pol om g e0 e eN (d1 + d2)).re
    rw [key, w2, w3, show -2 * Complex.I * ((t2 : ℂ) * (Complex.I * t3)) = ((2 * t2 * t3 : ℝ) : ℂ) by
      push_cast
      linear_combination (-2 * (t2 : ℂ) * t3) * Complex.I_sq, Complex.re_ofReal_mul, inv_mul_cancel_left₀ (by positivity)]
  · refine ⟨1, one_pos, ?_⟩
    rw [one_mul, d22_long]
    simp only [List.cons_append, List.length_cons, List.length_append, List.length_map, List.length_nil]
    intro h
    exact h3 ⟨List.length_eq_zero_iff.1 (by omega), List.length_eq_zero_iff.1 (by omega)⟩

theorem omLb_flip (e0 eN : ℝ) (ls : List (ℝ × ℝ)) (g : ℝ) :
    omLb (eN :: ls.reverse.map Prod.fst ++ [e0]) g = omLb (e0 :: ls.map Prod.fst ++ [eN]) g := by
  unfold omLb
  rw [List.cons_append, List.tail_cons, List.dropLast_concat, List.cons_append, List.tail_cons, List.dropLast_concat,
    List.map_reverse, List.map_reverse, List.Perm.foldr_eq (List.reverse_perm _)]

theorem omLb_cut (e0 eN e d1 d2 : ℝ) (l1 l2 : List (ℝ × ℝ)) (g : ℝ) :
    omLb (e0 :: (l1 ++ (e, d1) :: (e, d2) :: l2).map Prod.fst ++ [eN]) g =
      omLb (e0 :: (l1 ++ (e, d1 + d2) :: l2).map Prod.fst ++ [eN]) g := by
  unfold omLb
  rw [List.cons_append, List.tail_cons, List.dropLast_concat, List.cons_append, List.tail_cons, List.dropLast_concat]
  simp only [List.map_append, List.map_cons, List.foldr_append, List.foldr_cons]
  rw [← max_assoc, max_self]

/-- What the search needs to know about the guided modes of a slab at the wave vectors `grid`. -/
structure ClearSearch (fs : Finder) (o : GuidedOpts) (e0 eN : ℝ) (ls : List (ℝ × ℝ)) (grid : List ℝ) : Prop where
  apart : ∀ pol, polInds o.inds pol ≠ [] → ∀ g ∈ grid, ZerosApart o.step e0 eN ls pol g
  sampled : ∀ pol, polInds o.inds pol ≠ [] → SampledOff fs o e0 eN ls pol grid

theorem freqs_flip (fs fs' : Finder) (o : GuidedOpts) (e0 eN : ℝ) (ls : List (ℝ × ℝ)) (hne : ls ≠ []) (h0 : 0 < e0)
    (hN : 0 < eN) (hl : ∀ l ∈ ls, 0 < l.1) (hfs : RootFinder fs e0 eN ls) (hfs' : RootFinder fs' eN e0 ls.reverse)
    (hstep : 0 < o.step) (ht0 : 0 < o.tol) (ht1 : o.tol ≤ 1) (grid : List ℝ) (hmin : ∀ g ∈ grid, (1e-4 : ℝ) ≤ g)
    (hc : ClearSearch fs o e0 eN ls grid) (pol : Pol) (hp : polInds o.inds pol ≠ []) :
    freqsFound fs' o eN e0 ls.reverse pol grid = freqsFound fs o e0 eN ls pol grid :=
  freqs_same fs fs' o e0 eN eN e0 ls ls.reverse hne (by simpa using hne) hl (max_comm _ _) (omLb_flip e0 eN ls)
    (fun l h => ⟨l, List.mem_reverse.2 h, rfl⟩) hfs hfs' hstep ht0 ht1 pol grid hmin (lt_max_of_lt_left h0)
    (fun _ _ _ h => slabDisp_flip h0 hN hl pol h) (hc.apart pol hp) (hc.sampled pol hp)

theorem freqs_flip_one (fs : Finder) (o : GuidedOpts) (e0 eN : ℝ) (l : ℝ × ℝ) (pol : Pol) (grid : List ℝ) :
    freqsFound fs o eN e0 [l] pol grid = freqsFound fs o e0 eN [l] pol grid := by
  have hlb := omLb_flip e0 eN [l]
  rw [List.reverse_singleton] at hlb
  have key : ∀ (grid : List ℝ) prev, guidedModes (slabDisp e0 eN [l] pol) (fs pol) (eN :: [l].map Prod.fst ++ [e0])
      (nModesOf o.inds pol) o.step o.tol prev grid = guidedModes (slabDisp e0 eN [l] pol) (fs pol)
      (e0 :: [l].map Prod.fst ++ [eN]) (nModesOf o.inds pol) o.step o.tol prev grid := by
    intro grid
    induction grid with
    | nil => intro _; rfl
    | cons g gs ih =>
      intro prev
      have hub : ∀ g, omUb (eN :: [l].map Prod.fst ++ [e0]) g = omUb (e0 :: [l].map Prod.fst ++ [eN]) g := fun g => by
        rw [omUb_slab, omUb_slab, max_comm e0 eN]
      simp only [guidedModes, guidedStep, hlb, hub, ih]
  have h1 := key grid none
  rw [← slabDisp_one_flip] at h1
  rw [slabDisp_one_flip] at h1
  unfold freqsFound
  refine Eq.trans ?_ h1
  rw [← slabDisp_one_flip]
  rfl

theorem freqs_cut (fs fs' : Finder) (o : GuidedOpts) (e0 eN e d1 d2 : ℝ) (l1 l2 : List (ℝ × ℝ)) (h0 : 0 < e0)
    (hN : 0 < eN) (hl : ∀ l ∈ l1 ++ (e, d1 + d2) :: l2, 0 < l.1) (hfs : RootFinder fs e0 eN (l1 ++ (e, d1 + d2) :: l2))
    (hfs' : RootFinder fs' e0 eN (l1 ++ (e, d1) :: (e, d2) :: l2))
    (hstep : 0 < o.step) (ht0 : 0 < o.tol) (ht1 : o.tol ≤ 1) (grid : List ℝ) (hmin : ∀ g ∈ grid, (1e-4 : ℝ) ≤ g)
    (hc : ClearSearch fs o e0 eN (l1 ++ (e, d1 + d2) :: l2) grid) (pol : Pol) (hp : polInds o.inds pol ≠ []) :
    freqsFound fs' o e0 eN (l1 ++ (e, d1) :: (e, d2) :: l2) pol grid =
      freqsFound fs o e0 eN (l1 ++ (e, d1 + d2) :: l2) pol grid :=
  freqs_same fs fs' o e0 eN e0 eN _ _ (by simp) (by simp) hl rfl (omLb_cut e0 eN e d1 d2 l1 l2)
    (fun l h => by
      simp only [List.mem_append, List.mem_cons] at h
      rcases h with h | h | h
      · exact ⟨l, by simp [h], rfl⟩
      · exact ⟨(e, d1), by simp, by rw [h]⟩
      · exact ⟨l, by simp [h], rfl⟩) hfs hfs' hstep ht0 ht1 pol grid hmin (lt_max_of_lt_left h0)
    (fun _ _ hg h => slabDisp_split h0 hN hl pol hg h) (hc.apart pol hp) (hc.sampled pol hp)

/-! ### Bases -/

theorem someMode_same {fs fs' : Finder} {o : GuidedOpts} {e0 eN e0' eN' : ℝ} {ls ls' : List (ℝ × ℝ)} {grid : List ℝ}
    (h : ∀ pol, polInds o.inds pol ≠ [] → freqsFound fs' o e0' eN' ls' pol grid = freqsFound fs o e0 eN ls pol grid) :
    SomeMode fs' o e0' eN' ls' grid ↔ SomeMode fs o e0 eN ls grid := by
  unfold SomeMode
  refine exists_congr fun m => and_congr_right fun hm => ?_
  rw [h (modePol m) (List.ne_nil_of_mem (a := m) (List.mem_filter.2 ⟨hm, by simp⟩))]

/-- The bases which the code finds for two slabs in which it finds the same frequencies. -/
theorem code_same (fs fs' : Finder) (o : GuidedOpts) (e0 eN e0' eN' : ℝ) (ls ls' : List (ℝ × ℝ)) (hne : ls ≠ [])
    (h0 : 0 < e0) (hN : 0 < eN) (hl : ∀ l ∈ ls, 0 < l.1) (hfs : RootFinder fs e0 eN ls) (hne' : ls' ≠ [])
    (h0' : 0 < e0') (hN' : 0 < eN') (hl' : ∀ l ∈ ls', 0 < l.1) (hfs' : RootFinder fs' e0' eN' ls') (ho : ExactOpts o)
    (gvec ks : List R2) (hsep : ∀ k ∈ ks, SeparateWaves fs o e0 eN ls (waveLengths o gvec k))
    (hfr : ∀ k ∈ ks, ∀ pol, polInds o.inds pol ≠ [] →
      freqsFound fs' o e0' eN' ls' pol ((waveLengths o gvec k).insertionSort (· ≤ ·)) =
        freqsFound fs o e0 eN ls pol ((waveLengths o gvec k).insertionSort (· ≤ ·))) :
    SameSlabModes gvec ks o.deltaGx e0 eN ls e0' eN' ls' (codeGuided normExact fs o) (codeGuided normExact fs' o) := by
  intro ik hik
  have hkd : ks.getD ik 0 = ks[ik] := getD_of_len hik
  have hse := hsep ks[ik] (List.getElem_mem _)
  have hff := hfr ks[ik] (List.getElem_mem _)
  have hse' : SeparateWaves fs' o e0' eN' ls' (waveLengths o gvec ks[ik]) :=
    ⟨hse.min, hse.sep, fun pol hp => by rw [hff pol hp]; exact hse.count pol hp⟩
  have hgr : guidedGrid o gvec ks (ks.getD ik 0) = (waveLengths o gvec ks[ik]).insertionSort (· ≤ ·) := by
    unfold guidedGrid
    rw [ho.exact, if_pos rfl, ho.gabs, gridExact_zero, hkd]
    rfl
  have out := C118_outcome normExact fs o e0 eN ls hne gvec ks ik
  have out' := C118_outcome normExact fs' o e0' eN' ls' hne' gvec ks ik
  rw [hgr] at out out'
  rw [someMode_same hff] at out'
  by_cases hsm : SomeMode fs o e0 eN ls ((waveLengths o gvec ks[ik]).insertionSort (· ≤ ·))
  · right
    obtain ⟨b, hb⟩ := out.1 hsm
    obtain ⟨b', hb'⟩ := out'.1 hsm
    obtain ⟨F, hF, hbr⟩ := C118_basis fs o e0 eN ls hne h0 hN hl hfs ho _ ks ik (by rw [hkd]; exact hse) b hb
    obtain ⟨F', hF', hbr'⟩ := C118_basis fs' o e0' eN' ls' hne' h0' hN' hl' hfs' ho _ ks ik (by rw [hkd]; exact hse') b' hb'
    have s1 := (C118_slab fs o e0 eN ls hne h0 hN hl hfs ho _ ks ik (by rw [hkd]; exact hse) b hb).2
    have s2 := (C118_slab fs' o e0' eN' ls' hne' h0' hN' hl' hfs' ho _ ks ik (by rw [hkd]; exact hse') b' hb').2
    rw [hkd] at s1 s2
    refine ⟨b, b', hb, hb', s1, s2, ?_⟩
    rw [hkd] at hF hF'
    have hFF : ∀ m ∈ o.inds, ∀ g ∈ waveLengths o gvec ks[ik], F (modePol m) g = F' (modePol m) g := by
      intro m hm g hg
      have hp : polInds o.inds (modePol m) ≠ [] :=
        List.ne_nil_of_mem (a := m) (List.mem_filter.2 ⟨hm, by simp⟩)
      have h1 := hF.found _ hp
      have h2 := hF'.found _ hp
      rw [hff _ hp, ← h1] at h2
      exact ((List.map_inj_left.1 h2) g ((List.perm_insertionSort _ _).mem_iff.2 hg)).symm
    have hcg := branchGuided_congr o e0' eN' ls' (slabStack e0' eN' ls') gvec ks ik
      (br := foundBranches o.inds (waveLengths o gvec (ks.getD ik 0)) F)
      (br' := foundBranches o.inds (waveLengths o gvec (ks.getD ik 0)) F') (by
        rw [hkd]
        unfold foundBranches
        refine forall2_filter_map _ (fun m hm => ?_) fun m hm => ⟨rfl, fun g hg => ?_⟩
        · constructor
          · rintro ⟨g, hg, h⟩
            exact ⟨g, hg, by rw [← hFF m hm g hg]; exact h⟩
          · rintro ⟨g, hg, h⟩
            exact ⟨g, hg, by rw [hFF m hm g hg]; exact h⟩
        · simp only [hFF m hm g hg])
    rw [hbr'] at hcg
    exact branch_sameBasis _ o.deltaGx e0 eN e0' eN' ls ls' _ _ gvec ks ik b b' hbr hcg
  · left
    exact ⟨_, out.2 hsm, out'.2 hsm⟩

end Legume
