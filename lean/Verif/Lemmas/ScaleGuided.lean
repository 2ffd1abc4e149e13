import Verif.Props.ScaleRun

/-!
# The computation of the guided modes in another unit of length
-/
namespace Legume

open Spec Matrix MeasureTheory
open scoped ComplexConjugate

/-- The root finder in another unit of length. -/
noncomputable def scaleFinder (c : ℝ) (fs : Finder) : Finder := fun pol g x y => c * fs pol (g / c) (x / c) (y / c)

/-- The options in another unit of length. -/
noncomputable def scaleOpts (c : ℝ) (o : GuidedOpts) : GuidedOpts :=
  { o with step := c * o.step, deltaGabs := c * o.deltaGabs, deltaGx := c * o.deltaGx }

/-- A mode in another unit of length. -/
noncomputable def scaleGMode (c : ℝ) (pol : Pol) (m : GMode) : GMode :=
  (c * m.1, m.2.map fun a => ((((√(normFac c pol))⁻¹ : ℝ) : ℂ) * a.1, (((√(normFac c pol))⁻¹ : ℝ) : ℂ) * a.2))

theorem brackets_scale {c k : ℝ} (hk : 0 < k) (D D' : ℝ → ℝ) (h : ∀ x, D' (c * x) = k * D x) (l : List ℝ) :
    brackets D' (l.map (c * ·)) = (brackets D l).map fun b => (c * b.1, c * b.2) := by
  induction l with
  | nil => rfl
  | cons x l ih =>
    cases l with
    | nil => rfl
    | cons y l =>
      have e : D' (c * x) * D' (c * y) < 0 ↔ D x * D y < 0 := by
        rw [h, h, show k * D x * (k * D y) = k ^ 2 * (D x * D y) by ring]
        have : 0 < k ^ 2 := by positivity
        constructor
        · intro h1; by_contra h2; push Not at h2; nlinarith
        · intro h1; exact mul_neg_of_pos_of_neg this h1
      simp only [List.map_cons] at ih ⊢
      unfold brackets
      simp only [e]
      split_ifs
      · rw [List.map_cons, ih]
      · exact ih

theorem omegaGrid_scale {c : ℝ} (hc : 0 < c) (lb ub step : ℝ) :
    omegaGrid (c * lb) (c * ub) (c * step) = (omegaGrid lb ub step).map (c * ·) := by
  unfold omegaGrid
  rw [← mul_sub, mul_div_mul_left _ _ hc.ne', List.map_append, List.map_map]
  congr 1
  refine List.map_congr_left fun i _ => ?_
  simp only [Function.comp]
  ring

theorem guidedGivenG_scale {c k : ℝ} (hc : 0 < c) (hk : 0 < k) (D D' : ℝ → ℝ) (h : ∀ x, D' (c * x) = k * D x)
    (fs fs' : ℝ → ℝ → ℝ) (hf : ∀ x y, fs' (c * x) (c * y) = c * fs x y) (nModes : ℕ) (lb ub step tol : ℝ) :
    guidedGivenG D' fs' nModes (c * lb) (c * ub) (c * step) tol = (guidedGivenG D fs nModes lb ub step tol).map (c * ·) := by
  unfold guidedGivenG
  rw [mul_assoc, mul_assoc, omegaGrid_scale hc, brackets_scale hk D D' h, ← List.map_take, List.map_map, List.map_map]
  exact List.map_congr_left fun b _ => hf _ _

theorem omLb_scale {c g : ℝ} (h : max (c * g) 1e-4 = c * max g 1e-4) (eps : List ℝ) : omLb eps (c * g) = c * omLb eps g := by
  unfold omLb
  rw [h, mul_div_assoc]

theorem omUb_scale {c g : ℝ} (h : max (c * g) 1e-4 = c * max g 1e-4) (eps : List ℝ) : omUb eps (c * g) = c * omUb eps g := by
  unfold omUb
  rw [h, mul_div_assoc]

theorem getLastD_map_mul (c : ℝ) (l : List ℝ) : (l.map (c * ·)).getLastD 0 = c * l.getLastD 0 := by
  rw [List.getLastD_eq_getLast?, List.getLastD_eq_getLast?, List.getLast?_map]
  cases l.getLast? <;> simp

theorem guidedStep_scale {c k : ℝ} (hc : 0 < c) (hk : 0 < k) (D D' : ℝ → ℝ → ℝ) (h : ∀ g x, D' (c * g) (c * x) = k * D g x)
    (fs fs' : ℝ → ℝ → ℝ → ℝ) (hf : ∀ g x y, fs' (c * g) (c * x) (c * y) = c * fs g x y) (eps : List ℝ) (nModes : ℕ)
    (step tol : ℝ) (prev : Option (ℝ × List ℝ)) (g : ℝ) (hg : max (c * g) 1e-4 = c * max g 1e-4)
    (hp : ∀ p, prev = some p → ((1e-8 : ℝ) < |c * g - c * p.1| ↔ (1e-8 : ℝ) < |g - p.1|)) :
    guidedStep D' fs' eps nModes (c * step) tol (prev.map fun p => (c * p.1, p.2.map (c * ·))) (c * g) =
      (guidedStep D fs eps nModes step tol prev g).map (c * ·) := by
  have key : ∀ ub, guidedGivenG (D' (c * max g 1e-4)) (fs' (c * max g 1e-4)) nModes (c * omLb eps g) (c * ub) (c * step) tol =
      (guidedGivenG (D (max g 1e-4)) (fs (max g 1e-4)) nModes (omLb eps g) ub step tol).map (c * ·) := fun ub =>
    guidedGivenG_scale hc hk _ _ (h _) _ _ (hf _) _ _ _ _ _
  unfold guidedStep
  cases prev with
  | none =>
    simp only [Option.map_none, hg, omLb_scale hg, omUb_scale hg, key, if_true]
  | some p =>
    have hp' := hp p rfl
    have e1 : (p.2.map (c * ·)).length = nModes ∧ p.2.map (c * ·) ≠ [] ↔ p.2.length = nModes ∧ p.2 ≠ [] := by simp
    have e2 : min (c * omUb eps g) ((p.2.map (c * ·)).getLastD 0 + c * step + (c * g - c * p.1)) =
        c * min (omUb eps g) (p.2.getLastD 0 + step + (g - p.1)) := by
      rw [mul_min_of_nonneg _ _ hc.le, getLastD_map_mul]
      congr 1
      ring
    simp only [Option.map_some, hg, omLb_scale hg, omUb_scale hg, e1, e2, ← mul_ite, key]
    by_cases h8 : (1e-8 : ℝ) < |g - p.1|
    · rw [if_pos (hp'.2 h8), if_pos h8]
    · rw [if_neg fun h => h8 (hp'.1 h), if_neg h8]

theorem stackDs_scale (c n : ℝ) (stack : List (LPos × ℝ)) : stackDs (scaleStack c n stack) = (stackDs stack).map (· / c) := by
  unfold stackDs scaleStack
  rw [List.filterMap_map, List.map_filterMap]
  refine List.filterMap_congr fun p _ => ?_
  rcases p with ⟨_ | d | _, e⟩ <;> rfl

theorem scaleStack_one (c : ℝ) (stack : List (LPos × ℝ)) : (scaleStack c 1 stack).map Prod.snd = stack.map Prod.snd := by
  simp [scaleStack]

theorem map_one_sq (eps : List ℝ) : eps.map ((1 : ℝ) ^ 2 * ·) = eps := by simp

theorem dispRe_scale {c : ℝ} (hc : 0 < c) (stack : List (LPos × ℝ)) (pol : Pol) : ∃ k : ℝ, 0 < k ∧ ∀ g om,
    dispRe (scaleStack c 1 stack) pol (c * g) (c * om) = k * dispRe stack pol g om := by
  obtain ⟨k, hk, h⟩ := d22_scale hc one_pos pol (stack.map Prod.snd) (stackDs stack)
  refine ⟨k, hk, fun g om => ?_⟩
  have := h om g
  rw [map_one_sq, div_one] at this
  unfold dispRe
  rw [scaleStack_one, stackDs_scale, this, Complex.re_ofReal_mul]

theorem slabNorm_nonneg (pol : Pol) (g : ℝ) (stack : List (LPos × ℝ)) (layers : List ModeL) :
    0 ≤ slabNorm pol g stack layers := by
  unfold slabNorm
  refine List.sum_nonneg fun x hx => ?_
  obtain ⟨z, -, rfl⟩ := List.mem_map.1 hx
  refine integral_nonneg fun t => ?_
  cases pol
  · simp only [magSq, intensityTE, Pi.zero_apply]; positivity
  · simp only [magSq, intensityTM, Pi.zero_apply]; positivity

theorem modeAt_scale {c : ℝ} (hc : 0 < c) (stack : List (LPos × ℝ)) (pol : Pol) (g om : ℝ) :
    modeAt normExact (scaleStack c 1 stack) pol (c * g) (c * om) =
      (modeAt normExact stack pol g om).map (scaleGMode c pol) := by
  have h1 := abMatrices_scale hc one_pos pol om g (stack.map Prod.snd) (stackDs stack)
  rw [map_one_sq, div_one] at h1
  unfold modeAt
  rw [scaleStack_one, stackDs_scale, h1]
  cases abMatrices pol om g (stack.map Prod.snd) (stackDs stack) with
  | error e => rfl
  | ok abs =>
    simp only [Except.map, scaleGMode]
    have h2 := (modeLayers_scale hc one_pos pol om g (stack.map Prod.snd) abs 1).2
    rw [map_one_sq, div_one] at h2
    have hs : normExact pol (c * om) (c * g) (scaleStack c 1 stack) abs ^ (1 / 2 : ℂ) =
        (√(normFac c pol) : ℝ) * normExact pol om g stack abs ^ (1 / 2 : ℂ) := by
      unfold normExact
      rw [scaleStack_one, h2, slabNorm_scale hc, Complex.ofReal_mul,
        Complex.mul_cpow_ofReal_nonneg (normFac_pos hc pol).le (slabNorm_nonneg _ _ _ _)]
      congr 1
      rw [Real.sqrt_eq_rpow, Complex.ofReal_cpow (normFac_pos hc pol).le]
      norm_num
    rw [hs, List.map_map]
    congr 2
    refine List.map_congr_left fun a _ => ?_
    simp only [Function.comp, Complex.ofReal_inv]
    have e : ∀ z s t : ℂ, z / (s * t) = s⁻¹ * (z / t) := by intro z s t; rw [div_mul_eq_div_div]; ring
    rw [e, e]

theorem guidedAt_scale {c : ℝ} (hc : 0 < c) (fs : Finder) (o : GuidedOpts) (stack : List (LPos × ℝ)) (pol : Pol)
    (nModes : ℕ) (prev : Option (ℝ × List GMode)) (g : ℝ) (hg : max (c * g) 1e-4 = c * max g 1e-4)
    (hp : ∀ p, prev = some p → ((1e-8 : ℝ) < |c * g - c * p.1| ↔ (1e-8 : ℝ) < |g - p.1|)) :
    guidedAt normExact (scaleFinder c fs) (scaleOpts c o) (scaleStack c 1 stack) pol nModes
        (prev.map fun p => (c * p.1, p.2.map (scaleGMode c pol))) (c * g) =
      (guidedAt normExact fs o stack pol nModes prev g).map (List.map (scaleGMode c pol)) := by
  obtain ⟨k, hk, hD⟩ := dispRe_scale hc stack pol
  have hf : ∀ g x y, scaleFinder c fs pol (c * g) (c * x) (c * y) = c * fs pol g x y := by
    intro g x y
    unfold scaleFinder
    simp only [mul_div_cancel_left₀ _ hc.ne']
  have hm : ∀ l : List ℝ, (l.map (c * ·)).mapM (modeAt normExact (scaleStack c 1 stack) pol (c * max g 1e-4)) =
      (l.mapM (modeAt normExact stack pol (max g 1e-4))).map (List.map (scaleGMode c pol)) := by
    intro l
    rw [except_mapM_map, List.mapM_map]
    congr 1
    funext om
    exact modeAt_scale hc stack pol _ om
  have hst : ∀ prev : Option (ℝ × List ℝ),
      (∀ p, prev = some p → ((1e-8 : ℝ) < |c * g - c * p.1| ↔ (1e-8 : ℝ) < |g - p.1|)) → _ := fun prev hp =>
    guidedStep_scale hc hk (dispRe stack pol) (dispRe (scaleStack c 1 stack) pol) hD (fs pol) (scaleFinder c fs pol) hf
      (stack.map Prod.snd) nModes o.step o.tol prev g hg hp
  unfold guidedAt
  cases prev with
  | none =>
    simp only [Option.map_none]
    rw [scaleStack_one, hg, show (scaleOpts c o).step = c * o.step from rfl, show (scaleOpts c o).tol = o.tol from rfl]
    have := hst none (by simp)
    rw [Option.map_none] at this
    rw [this, hm]
  | some p =>
    obtain ⟨gp, ms⟩ := p
    have hp' := hp _ rfl
    simp only at hp'
    simp only [Option.map_some, hp']
    split_ifs with h8
    · rw [scaleStack_one, hg, show (scaleOpts c o).step = c * o.step from rfl, show (scaleOpts c o).tol = o.tol from rfl]
      have := hst (some (gp, ms.map Prod.fst)) (by rintro p ⟨⟩; exact hp')
      simp only [Option.map_some] at this
      have e : (ms.map (scaleGMode c pol)).map Prod.fst = (ms.map Prod.fst).map (c * ·) := by
        rw [List.map_map, List.map_map]; rfl
      rw [e, this, hm]
    · rfl

/-- Neither the floor `1e-4` of the wave vectors nor the smallest step `1e-8` distinguishes the units. -/
def GridNeutral (c : ℝ) (grid : List ℝ) : Prop :=
  (∀ g ∈ grid, (1e-4 : ℝ) ≤ g ∧ (1e-4 : ℝ) ≤ c * g) ∧
    ∀ g ∈ grid, ∀ h ∈ grid, ((1e-8 : ℝ) < |c * g - c * h| ↔ (1e-8 : ℝ) < |g - h|)

theorem guidedRun_scale {c : ℝ} (hc : 0 < c) (fs : Finder) (o : GuidedOpts) (stack : List (LPos × ℝ)) (pol : Pol)
    (nModes : ℕ) (all : List ℝ) (hall : GridNeutral c all) (grid : List ℝ) (hsub : grid ⊆ all)
    (prev : Option (ℝ × List GMode)) (hp : ∀ p, prev = some p → p.1 ∈ all) :
    guidedRun normExact (scaleFinder c fs) (scaleOpts c o) (scaleStack c 1 stack) pol nModes
        (prev.map fun p => (c * p.1, p.2.map (scaleGMode c pol))) (grid.map (c * ·)) =
      (guidedRun normExact fs o stack pol nModes prev grid).map (List.map (List.map (scaleGMode c pol))) := by
  induction grid generalizing prev with
  | nil => simp only [List.map_nil, guidedRun, Except.map]
  | cons g gs ih =>
    rw [List.cons_subset] at hsub
    have hg : max (c * g) 1e-4 = c * max g 1e-4 := by
      rw [max_eq_left (hall.1 g hsub.1).2, max_eq_left (hall.1 g hsub.1).1]
    simp only [List.map_cons, guidedRun]
    rw [guidedAt_scale hc fs o stack pol nModes prev g hg fun p hp' => hall.2 g hsub.1 _ (hp p hp')]
    cases guidedAt normExact fs o stack pol nModes prev g with
    | error e => rfl
    | ok ms =>
      simp only [Except.map]
      have := ih hsub.2 (some (g, ms)) (by rintro p ⟨⟩; exact hsub.1)
      simp only [Option.map_some] at this
      rw [this]
      cases guidedRun normExact fs o stack pol nModes (some (g, ms)) gs <;> rfl

theorem reshapeList_map {α β : Type} (f : α → β) (x : List (List α)) :
    reshapeList (x.map (List.map f)) = (reshapeList x).map (List.map f) := by
  unfold reshapeList
  rw [List.map_map, List.map_map, show (List.length ∘ List.map f) = (List.length : List α → ℕ) by
    funext l; exact List.length_map _]
  refine List.map_congr_left fun m _ => ?_
  simp only [Function.comp]
  rw [List.filterMap_map, List.map_filterMap]
  exact List.filterMap_congr fun l _ => List.getElem?_map ..

theorem computeGuided_scale {c : ℝ} (hc : 0 < c) (fs : Finder) (o : GuidedOpts) (stack : List (LPos × ℝ)) (pol : Pol)
    (grid : List ℝ) (hall : GridNeutral c grid) :
    computeGuided normExact (scaleFinder c fs) (scaleOpts c o) (scaleStack c 1 stack) pol (grid.map (c * ·)) =
      (computeGuided normExact fs o stack pol grid).map (List.map (List.map (scaleGMode c pol))) := by
  unfold computeGuided
  rw [show (scaleOpts c o).inds = o.inds from rfl, stackDs_scale]
  simp only [List.map_eq_nil_iff]
  split_ifs
  · rfl
  · rfl
  · have := guidedRun_scale hc fs o stack pol (nModesOf o.inds pol) grid hall grid (List.Subset.refl _) none (by simp)
    rw [Option.map_none] at this
    rw [this]
    cases guidedRun normExact fs o stack pol (nModesOf o.inds pol) none grid with
    | error e => rfl
    | ok ms => simp only [Except.map, reshapeList_map]

theorem npInterp_scale {c : ℝ} (hc : 0 < c) (k : ℝ) (xp yp : List ℝ) (x : ℝ) :
    npInterp (xp.map (c * ·)) (yp.map (k * ·)) (c * x) = k * npInterp xp yp x := by
  have hd : ∀ l : List ℝ, (l.map (k * ·)).headD 0 = k * l.headD 0 := by intro l; cases l <;> simp
  induction xp generalizing yp with
  | nil => simp [npInterp]
  | cons x0 xp ih =>
    cases xp with
    | nil => simp only [List.map_cons, List.map_nil, npInterp, hd]
    | cons x1 xp =>
      simp only [List.map_cons] at ih ⊢
      unfold npInterp
      simp only [mul_le_mul_iff_right₀ hc, hd, ← List.map_tail, ih]
      split_ifs
      · rfl
      · rw [← mul_sub, ← mul_sub, ← mul_sub, mul_div_mul_comm, mul_add]
        congr 1
        field_simp
      · rfl

theorem npInterpC_scale {c : ℝ} (hc : 0 < c) (k : ℝ) (xp : List ℝ) (yp : List ℂ) (x : ℝ) :
    npInterpC (xp.map (c * ·)) (yp.map ((k : ℂ) * ·)) (c * x) = k * npInterpC xp yp x := by
  have e1 : (yp.map ((k : ℂ) * ·)).map Complex.re = (yp.map Complex.re).map (k * ·) := by
    rw [List.map_map, List.map_map]; exact List.map_congr_left fun y _ => Complex.re_ofReal_mul _ _
  have e2 : (yp.map ((k : ℂ) * ·)).map Complex.im = (yp.map Complex.im).map (k * ·) := by
    rw [List.map_map, List.map_map]; exact List.map_congr_left fun y _ => Complex.im_ofReal_mul _ _
  unfold npInterpC
  rw [e1, e2, npInterp_scale hc, npInterp_scale hc]
  apply Complex.ext
  · rw [Complex.re_ofReal_mul]
  · rw [Complex.im_ofReal_mul]

theorem planeAbs_stretch {c : ℝ} (hc : 0 < c) (p : R2) : planeAbs (stretch c p) = c * planeAbs p := sqrt_scale hc _ _

theorem interpState_scale {c : ℝ} (hc : 0 < c) (stack : List (LPos × ℝ)) (pol : Pol) (gs : List ℝ) (om : List GMode)
    (p : R2) : interpState (scaleStack c 1 stack) pol (gs.map (c * ·)) (om.map (scaleGMode c pol)) (stretch c p) =
      scaleState c 1 (interpState stack pol gs om p) := by
  have ha : ∀ (m : GMode) (il : ℕ), ((scaleGMode c pol m).2.getD il 0) =
      ((((√(normFac c pol))⁻¹ : ℝ) : ℂ) * (m.2.getD il 0).1, (((√(normFac c pol))⁻¹ : ℝ) : ℂ) * (m.2.getD il 0).2) := by
    intro m il
    simp only [scaleGMode]
    rw [List.getD_eq_getElem?_getD, List.getD_eq_getElem?_getD, List.getElem?_map]
    cases m.2[il]?
    · simp; rfl
    · simp
  have hom : (om.map (scaleGMode c pol)).map Prod.fst = (om.map Prod.fst).map (c * ·) := by
    rw [List.map_map, List.map_map]; rfl
  unfold interpState scaleState
  simp only [planeAbs_stretch hc, hom, npInterp_scale hc, scaleStack_one, div_one]
  have hl : (scaleStack c 1 stack).length = stack.length := List.length_map _
  rw [hl, List.map_map]
  simp only [stretch]
  congr 1
  refine List.map_congr_left fun il _ => ?_
  simp only [Function.comp, scaleMode, List.map_map, ha]
  have hA : (om.map ((fun m : GMode => (m.2.getD il 0).1) ∘ scaleGMode c pol)) =
      (om.map fun m => (m.2.getD il 0).1).map ((((√(normFac c pol))⁻¹ : ℝ) : ℂ) * ·) := by
    rw [List.map_map]; exact List.map_congr_left fun m _ => by simp only [Function.comp, ha]
  have hB : (om.map ((fun m : GMode => (m.2.getD il 0).2) ∘ scaleGMode c pol)) =
      (om.map fun m => (m.2.getD il 0).2).map ((((√(normFac c pol))⁻¹ : ℝ) : ℂ) * ·) := by
    rw [List.map_map]; exact List.map_congr_left fun m _ => by simp only [Function.comp, ha]
  have hx := chi_scale hc one_pos (npInterp gs (om.map Prod.fst) (planeAbs p)) (planeAbs p) ((stack.map Prod.snd).getD il 0)
  rw [div_one, one_pow, one_mul] at hx
  rw [hA, hB, npInterpC_scale hc, npInterpC_scale hc, hx]

theorem gsOf_map {α β : Type} (c : ℝ) (f : α → β) (grid : List ℝ) (om : List α) :
    gsOf (grid.map (c * ·)) (om.map f) = (gsOf grid om).map (c * ·) := by
  unfold gsOf
  simp only [List.length_map]
  split_ifs
  · rfl
  · rw [List.map_drop]

theorem gsOf_subset {α : Type} (grid : List ℝ) (om : List α) : gsOf grid om ⊆ grid := by
  unfold gsOf
  split_ifs
  · exact List.Subset.refl _
  · exact List.drop_subset _ _

theorem guidedBlock_scale {N N' : ℕ} (hN : N' = N) {c : ℝ} (hc : 0 < c) (stack : List (LPos × ℝ)) (grid : List ℝ)
    (plane : Fin N → R2) (plane' : Fin N' → R2) (hp : ∀ i, plane' i = stretch c (plane (Fin.cast hN i)))
    (hth : ∀ g ∈ grid, ∀ i, (c * g - (1e-10 : ℝ) < c * planeAbs (plane i) ↔ g - (1e-10 : ℝ) < planeAbs (plane i)))
    (modes : List (List GMode)) (n mode : ℕ) :
    guidedBlock (scaleStack c 1 stack) (grid.map (c * ·)) plane' (modes.map (List.map (scaleGMode c (modePol mode)))) n mode =
      (guidedBlock stack grid plane modes n mode).map (List.map (BasisEl.scale hN c 1)) := by
  classical
  unfold guidedBlock
  rw [List.getElem?_map]
  cases modes[mode / 2]? with
  | none => rfl
  | some om =>
    simp only [Option.map_some]
    rw [gsOf_map]
    have hs := gsOf_subset grid om
    generalize gsOf grid om = gg at hs ⊢
    cases gg with
    | nil => rfl
    | cons gs0 gs =>
      simp only [Except.map, List.map_cons]
      congr 1
      refine finRange_filterMap hN _ _ _ fun i => ?_
      rw [hp, planeAbs_stretch hc]
      have := interpState_scale hc stack (modePol mode) (gs0 :: gs) om (plane (Fin.cast hN i))
      simp only [List.map_cons] at this
      rw [this]
      simp only [hth gs0 (hs (List.mem_cons_self ..)) (Fin.cast hN i)]
      split_ifs
      · simp [BasisEl.scale]
      · rfl

theorem basisOf_scale {N N' : ℕ} (hN : N' = N) {c : ℝ} (hc : 0 < c) (fs : Finder) (o : GuidedOpts)
    (stack : List (LPos × ℝ)) (grid : List ℝ) (hall : GridNeutral c grid) (plane : Fin N → R2) (plane' : Fin N' → R2)
    (hp : ∀ i, plane' i = stretch c (plane (Fin.cast hN i)))
    (hth : ∀ g ∈ grid, ∀ i, (c * g - (1e-10 : ℝ) < c * planeAbs (plane i) ↔ g - (1e-10 : ℝ) < planeAbs (plane i))) :
    basisOf normExact (scaleFinder c fs) (scaleOpts c o) (scaleStack c 1 stack) (grid.map (c * ·)) plane' =
      (basisOf normExact fs o stack grid plane).map (List.map (BasisEl.scale hN c 1)) := by
  unfold basisOf
  simp only [bind, Except.bind]
  rw [computeGuided_scale hc fs o stack .te grid hall, computeGuided_scale hc fs o stack .tm grid hall]
  cases computeGuided normExact fs o stack .te grid with
  | error e => rfl
  | ok te =>
    simp only [Except.map]
    cases computeGuided normExact fs o stack .tm grid with
    | error e => rfl
    | ok tm =>
      simp only [List.length_map, show (scaleOpts c o).inds = o.inds from rfl]
      cases gmodeInclude o.inds te.length tm.length with
      | error e => rfl
      | ok inc =>
        simp only
        have key : ∀ g g' : ℕ → List (List GMode),
            (∀ n, g' n = (g n).map (List.map (scaleGMode c (modePol (inc.getD n 0))))) →
            (List.range inc.length).mapM (fun (n : ℕ) => guidedBlock (scaleStack c 1 stack) (grid.map (c * ·)) plane' (g' n) n
              (inc.getD n 0)) =
              ((List.range inc.length).mapM
                (fun (n : ℕ) => guidedBlock stack grid plane (g n) n (inc.getD n 0))).map
                  (List.map (List.map (BasisEl.scale hN c 1))) := fun g g' hg =>
          mapM_map_ok _ _ _ (fun n => by rw [hg]; exact guidedBlock_scale hN hc stack grid plane plane' hp hth _ _ _) _
        rw [key (fun n => match modePol (inc.getD n 0) with | .te => te | .tm => tm)]
        · generalize (List.mapM _ (List.range inc.length) : Except PyErr (List (List (BasisEl N)))) = r
          cases r with
          | error e => rfl
          | ok bs => simp only [Except.map, List.map_flatten]
        · intro n
          cases modePol (inc.getD n 0) <;> rfl

theorem gridShift_scale (c delta : ℝ) (s : List ℝ) : gridShift (c * delta) (s.map (c * ·)) = (gridShift delta s).map (c * ·) := by
  unfold gridShift
  rw [← List.map_dropLast, List.getLast?_map, List.map_append, List.map_map, List.map_map]
  congr 1
  · refine List.map_congr_left fun x _ => ?_
    simp only [Function.comp]
    ring
  · cases s.getLast? with
    | none => rfl
    | some x => simp

theorem guidedGrid_scale {c : ℝ} (hc : 0 < c) (o : GuidedOpts) (gvec ks : List R2) (k : R2) :
    guidedGrid (scaleOpts c o) (gvec.map (stretch c)) (ks.map (stretch c)) (stretch c k) =
      (guidedGrid o gvec ks k).map (c * ·) := by
  have hr : ∀ g, planeAbs (radPlane (c * o.deltaGx) (stretch c k) (stretch c g)) = c * planeAbs (radPlane o.deltaGx k g) := by
    intro g
    rw [← planeAbs_stretch hc]
    congr 1
    simp only [radPlane, stretch]
    ext <;> simp only <;> ring
  have hm : ∀ (f : R2 → ℝ) (hf : ∀ v, f (stretch c v) = c * f v) (l : List R2) (a : ℝ),
      ((l.map (stretch c)).map f).foldl max (c * a) = c * (l.map f).foldl max a := by
    intro f hf l
    induction l with
    | nil => intro a; rfl
    | cons v l ih =>
      intro a
      simp only [List.map_cons, List.foldl_cons]
      rw [hf, ← mul_max_of_nonneg _ _ hc.le, ih]
  unfold guidedGrid
  simp only [show (scaleOpts c o).exact = o.exact from rfl, show (scaleOpts c o).deltaGabs = c * o.deltaGabs from rfl,
    show (scaleOpts c o).deltaGx = c * o.deltaGx from rfl, show (scaleOpts c o).npts = o.npts from rfl]
  split_ifs
  · unfold gridExact
    rw [List.map_map, show (fun g => planeAbs (radPlane (c * o.deltaGx) (stretch c k) g)) ∘ stretch c =
      fun g => c * planeAbs (radPlane o.deltaGx k g) from funext hr,
      ← gridShift_scale, List.map_insertionSort (· ≤ ·) (· ≤ ·) (c * ·) _ fun a _ b _ => (mul_le_mul_iff_right₀ hc).symm, List.map_map]
    rfl
  · rw [← gridShift_scale]
    congr 1
    have hg : gridMax (ks.map (stretch c)) (gvec.map (stretch c)) = c * gridMax ks gvec := by
      have h1 := hm (fun v => √(v.1 ^ 2 + v.2 ^ 2)) (fun v => sqrt_scale hc _ _) gvec 0
      have h2 := hm (fun v => √(v.1 ^ 2 + v.2 ^ 2)) (fun v => sqrt_scale hc _ _) ks 0
      rw [mul_zero] at h1 h2
      unfold gridMax
      rw [h1, h2, mul_add]
    unfold gridLin
    rw [hg, List.map_map]
    refine List.map_congr_left fun i _ => ?_
    simp only [Function.comp]
    ring

end Legume
