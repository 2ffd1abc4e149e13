import Verif.Lemmas.ScaleGuided

/-!
# Guided-mode runs in another unit of length (C126)
-/
namespace Legume

open Spec Matrix MeasureTheory
open scoped ComplexConjugate

/-- All reciprocal lattice vectors other than zero are longer than `1e-9` (any lattice with periods below `6e9`). -/
def WellSpaced (b1 b2 : R2) : Prop := ∀ i : ℤ × ℤ, i ≠ 0 → (1e-9 : ℝ) < norm2 (gOf b1 b2 i)

theorem WellSpaced.resolved {b1 b2 : R2} (h : WellSpaced b1 b2) : Resolved b1 b2 := by
  rintro i j hij ⟨h1, h2⟩
  have h3 := h (i, j) hij
  unfold norm2 gOf at h3
  simp only at h3
  rw [Real.lt_sqrt (by norm_num)] at h3
  have a := sq_lt_sq' (abs_lt.1 h1).1 (abs_lt.1 h1).2
  have b := sq_lt_sq' (abs_lt.1 h2).1 (abs_lt.1 h2).2
  norm_num at h3 a b
  linarith

theorem homAbs_units {c : ℝ} (hc : 0 < c) {S S' : GmeStruct} (h : StructScale c 1 S S') (hS : WellSpaced S.b1 S.b2)
    (hS' : WellSpaced S'.b1 S'.b2) (gmax : ℝ) : SameHom c 1 gmax S S' := by
  intro l l' hl _ _
  have e : ∀ {b1 b2 : R2} (_ : WellSpaced b1 b2) (a b : ℤ × ℤ),
      ((1e-10 : ℝ) < norm2 (gOf b1 b2 (b.1 - a.1, b.2 - a.2)) ↔ a ≠ b) := by
    intro b1 b2 hb a b
    constructor
    · rintro h1 rfl
      simp [gOf, norm2] at h1
      norm_num at h1
    · intro hab
      have := hb (b.1 - a.1, b.2 - a.2) (fun hz => hab ?_)
      · refine lt_trans ?_ this
        norm_num
      · simp only [Prod.mk_eq_zero, sub_eq_zero] at hz
        exact Prod.ext hz.1.symm hz.2.symm
  unfold homAbs
  simp only [e hS, e hS', epsMatAbs_scale hc h hS.resolved hS'.resolved hl, Complex.ofReal_one, one_pow, one_mul]

/-- The absolute thresholds of the code do not tell the units apart: at every wave vector all wave vectors of the guided
modes are at least `1e-4` in both units, differ by more than `1e-8` in both units or in neither, and start at a plane wave up
to `1e-10` in both units or in neither. -/
def UnitNeutral (c : ℝ) (o : GuidedOpts) (gvec ks : List R2) : Prop :=
  ∀ k ∈ ks, GridNeutral c (guidedGrid o gvec ks k) ∧ ∀ g ∈ guidedGrid o gvec ks k, ∀ p ∈ gvec,
    (c * g - (1e-10 : ℝ) < c * planeAbs (radPlane o.deltaGx k p) ↔ g - (1e-10 : ℝ) < planeAbs (radPlane o.deltaGx k p))

theorem codeGuided_scale {c : ℝ} (hc : 0 < c) (fs : Finder) (o : GuidedOpts) (stack : List (LPos × ℝ))
    (gvec gvec' ks : List R2) (hN : gvec'.length = gvec.length) (hg : gvec' = gvec.map (stretch c))
    (hn : UnitNeutral c o gvec ks) :
    GuidedScale c 1 (codeGuided normExact fs o) (codeGuided normExact (scaleFinder c fs) (scaleOpts c o)) stack gvec gvec' ks
      (ks.map (stretch c)) hN := by
  intro ik hik
  have hk : (ks.map (stretch c)).getD ik 0 = stretch c (ks.getD ik 0) := by
    rw [getD_of_len (by simpa using hik), getD_of_len hik, List.getElem_map]
  have hmem : ks.getD ik 0 ∈ ks := by rw [getD_of_len hik]; exact List.getElem_mem _
  obtain ⟨h1, h2⟩ := hn _ hmem
  unfold codeGuided
  rw [hk]
  generalize ks.getD ik 0 = k at h1 h2 ⊢
  have hgr : guidedGrid (scaleOpts c o) gvec' (ks.map (stretch c)) (stretch c k) = (guidedGrid o gvec ks k).map (c * ·) := by
    rw [hg, guidedGrid_scale hc]
  rw [hgr]
  refine basisOf_scale hN hc fs o stack _ h1 _ _ (fun i => ?_) fun g hg i => h2 g hg _ (List.getElem_mem _)
  have e : gvec'[i] = stretch c gvec[Fin.cast hN i] := by
    simp only [Fin.getElem_fin, hg, List.getElem_map, Fin.val_cast]
  rw [e]
  simp only [radPlane, stretch, scaleOpts]
  ext <;> simp only <;> ring

/-- **C126 (unit of length).** Dividing all lengths of a structure by `c`, with wave vectors, cutoff, the step of the search
for guided modes and the shifts of wave vectors multiplied by `c`, multiplies all frequencies by `c`, for the guided modes as
computed by the code with exact normalisation: every run has the old result with the frequencies multiplied, whether or not
it fails. -/
theorem C126_units (argsort : List ℝ → List ℕ) (eigh : ∀ n, Matrix (Fin n) (Fin n) ℂ → Fin n → ℝ)
    (he : SortedEigh eigh) (c : ℝ) (hc : 0 < c) (ha : ∀ l, argsort (l.map (c * ·)) = argsort l)
    (S S' : GmeStruct) (h : StructScale c 1 S S') (hS : WellSpaced S.b1 S.b2) (hS' : WellSpaced S'.b1 S'.b2) (gmax : ℝ)
    (hg : OffCut S.b1 S.b2 gmax) (onlyG : Bool) (opt : String) (ks : List R2) (fs : Finder) (o : GuidedOpts)
    (hn : UnitNeutral c o (S.gvec gmax) ks) (sigma : ℝ) (numeig : ℕ) :
    gmeSimIj ijExact argsort eigh (codeGuided normExact (scaleFinder c fs) (scaleOpts c o)) S' (c * gmax) onlyG opt
        (ks.map (stretch c)) (c * sigma) numeig =
      (gmeSimIj ijExact argsort eigh (codeGuided normExact fs o) S gmax onlyG opt ks sigma numeig).map
        (List.map (KRes.scale c)) := by
  have := gmeSim_units argsort eigh he c 1 hc one_pos (by rwa [div_one]) S S' h hS.resolved hS'.resolved gmax hg
    (homAbs_units hc h hS hS' gmax) onlyG opt ks _ (List.length_map _) _ _
    (fun hN eff _ => codeGuided_scale hc fs o _ _ _ ks hN (h.gvec hc hg) hn) sigma numeig
  rwa [div_one] at this

/-- With the guided modes computed at the wave vectors themselves it is enough that these are at least `1e-4` and differ by
more than `1e-8` if they differ, in both units. -/
theorem neutral_of_separate {c : ℝ} (hc : 0 < c) {o : GuidedOpts} (ho : o.exact = true) (hd : o.deltaGabs = 0)
    {gvec ks : List R2} (h1 : ∀ k ∈ ks, ∀ x ∈ waveLengths o gvec k, (1e-4 : ℝ) ≤ x ∧ (1e-4 : ℝ) ≤ c * x)
    (h2 : ∀ k ∈ ks, ∀ x ∈ waveLengths o gvec k, ∀ y ∈ waveLengths o gvec k, x ≠ y →
      (1e-8 : ℝ) < |x - y| ∧ (1e-8 : ℝ) < c * |x - y|) : UnitNeutral c o gvec ks := by
  intro k hk
  have hgr : guidedGrid o gvec ks k = (waveLengths o gvec k).insertionSort (· ≤ ·) := by
    unfold guidedGrid
    rw [ho, if_pos rfl, hd, gridExact_zero]
    rfl
  have hmem : ∀ x, x ∈ guidedGrid o gvec ks k ↔ x ∈ waveLengths o gvec k := by
    intro x
    rw [hgr]
    exact (List.perm_insertionSort _ _).mem_iff
  refine ⟨⟨fun g hg => h1 k hk g ((hmem g).1 hg), fun g hg h hh => ?_⟩, fun g hg p hp => ?_⟩
  · rw [← mul_sub, abs_mul, abs_of_pos hc]
    by_cases e : g = h
    · subst e
      simp
    · obtain ⟨a, b⟩ := h2 k hk g ((hmem g).1 hg) h ((hmem h).1 hh) e
      exact ⟨fun _ => a, fun _ => b⟩
  · have hp' : planeAbs (radPlane o.deltaGx k p) ∈ waveLengths o gvec k := List.mem_map_of_mem hp
    generalize planeAbs (radPlane o.deltaGx k p) = x at hp' ⊢
    rcases le_or_gt g x with hle | hlt
    · have : c * g ≤ c * x := mul_le_mul_of_nonneg_left hle hc.le
      exact ⟨fun _ => by linarith [show (0 : ℝ) < 1e-10 by norm_num], fun _ => by linarith [show (0 : ℝ) < 1e-10 by norm_num]⟩
    · obtain ⟨a, b⟩ := h2 k hk g ((hmem g).1 hg) x hp' hlt.ne'
      rw [abs_of_pos (sub_pos.2 hlt)] at a b
      norm_num at a b ⊢
      constructor <;> intro _ <;> nlinarith

/-! ### Examples -/

/-- A sort which is not affected by the unit. -/
example : ∃ argsort : List ℝ → List ℕ, (∀ l, IsArgsort l (argsort l)) ∧
    ∀ k > 0, ∀ l : List ℝ, argsort (l.map (k * ·)) = argsort l := by
  classical
  refine ⟨fun l => (List.range l.length).mergeSort fun i j => decide (l.getD i 0 ≤ l.getD j 0), fun l => ?_, fun k hk l => ?_⟩
  · have hs := List.pairwise_mergeSort (le := fun i j : ℕ => decide (l.getD i 0 ≤ l.getD j 0))
      (fun a b c h1 h2 => by simp only [decide_eq_true_eq] at *; exact h1.trans h2)
      (fun a b => by simp only [Bool.or_eq_true, decide_eq_true_eq]; exact le_total _ _) (List.range l.length)
    refine ⟨List.mergeSort_perm _ _, List.pairwise_map.2 (hs.imp fun h => ?_)⟩
    simpa using h
  · simp only [List.length_map, getD_map_mul, mul_le_mul_iff_right₀ hk]

/-- A slab with an elliptical hole and period `1 / c`. -/
noncomputable def unitSlab (J : ℝ → ℝ) (c : ℝ) : GmeStruct :=
  ⟨(2 * Real.pi * c, 0), (0, 2 * Real.pi * c), 1 / c ^ 2, [⟨.lower, 1, 1, none, []⟩,
    ⟨.inner (0.5 / c), 12, 11, none, [⟨1, Ellipse.ft J ⟨0.1 / c, 0 / c, 0.2 / c, 0.1 / c, 0⟩⟩]⟩, ⟨.upper, 1, 1, none, []⟩]⟩

theorem ellipse_scale (J : ℝ → ℝ) (b1 b2 : R2) {c : ℝ} (hc : 0 < c) (eps x y rx ry phi : ℝ) :
    ShapeScale c 1 b1 b2 ⟨eps, Ellipse.ft J ⟨x, y, rx, ry, phi⟩⟩
      ⟨eps, Ellipse.ft J ⟨x / c, y / c, rx / c, ry / c, phi⟩⟩ := by
  have h := (C122_shapes J b1 b2 eps).2 0 c hc x y rx ry phi
  refine ⟨by simp, fun i j => ?_⟩
  have := h.ft i j
  simp only [turn_zero, add_zero] at this
  exact this

theorem unitSlab_scale (J : ℝ → ℝ) {c : ℝ} (hc : 0 < c) : StructScale c 1 (unitSlab J 1) (unitSlab J c) := by
  refine ⟨?_, ?_, ?_, .cons ?_ (.cons ?_ (.cons ?_ .nil))⟩
  · simp only [unitSlab, stretch]; ext <;> simp only <;> ring
  · simp only [unitSlab, stretch]; ext <;> simp only <;> ring
  · simp only [unitSlab]; field_simp
  · exact ⟨rfl, by simp, by simp, rfl, .nil⟩
  · refine ⟨by simp [scalePos], by simp, by simp, rfl, .cons ?_ .nil⟩
    have := ellipse_scale J (unitSlab J 1).b1 (unitSlab J 1).b2 hc 1 0.1 0 0.2 0.1 0
    simpa using this
  · exact ⟨rfl, by simp, by simp, rfl, .nil⟩

theorem unitSlab_norm (J : ℝ → ℝ) {c : ℝ} (hc : 0 < c) (i : ℤ × ℤ) :
    norm2 (gOf (unitSlab J c).b1 (unitSlab J c).b2 i) = 2 * Real.pi * c * √((i.1 ^ 2 + i.2 ^ 2 : ℤ) : ℝ) := by
  have hp := Real.pi_pos
  rw [← Real.sqrt_sq (show 0 ≤ 2 * Real.pi * c by positivity), ← Real.sqrt_mul (by positivity)]
  unfold norm2
  congr 1
  simp only [gOf, unitSlab]
  push_cast
  ring

theorem unitSlab_spaced (J : ℝ → ℝ) {c : ℝ} (hc : 1 ≤ c) : WellSpaced (unitSlab J c).b1 (unitSlab J c).b2 := by
  intro i hi
  rw [unitSlab_norm J (by linarith)]
  have h1 : (1 : ℝ) ≤ √((i.1 ^ 2 + i.2 ^ 2 : ℤ) : ℝ) := by
    rw [Real.one_le_sqrt]
    have : 0 < i.1 ^ 2 + i.2 ^ 2 := by
      rcases i with ⟨a, b⟩
      by_contra hle
      push Not at hle
      have ha : a ^ 2 = 0 := le_antisymm (by nlinarith [sq_nonneg a, sq_nonneg b]) (sq_nonneg a)
      have hb : b ^ 2 = 0 := le_antisymm (by nlinarith [sq_nonneg a, sq_nonneg b]) (sq_nonneg b)
      exact hi (Prod.ext (pow_eq_zero_iff two_ne_zero |>.1 ha) (pow_eq_zero_iff two_ne_zero |>.1 hb))
    exact_mod_cast this
  have hp := Real.pi_gt_three
  have h2 : 1 ≤ 2 * Real.pi * c := by nlinarith
  calc (1e-9 : ℝ) < 1 := by norm_num
    _ ≤ _ := one_le_mul_of_one_le_of_one_le h2 h1

theorem unitSlab_off (J : ℝ → ℝ) : OffCut (unitSlab J 1).b1 (unitSlab J 1).b2 (6 / 5) := by
  intro i h
  rw [unitSlab_norm J one_pos, mul_one] at h
  have hp := Real.pi_pos
  have h1 := mul_left_cancel₀ (by positivity) h
  rw [Real.sqrt_eq_iff_mul_self_eq (by positivity) (by norm_num)] at h1
  have h2 : ((25 * (i.1 ^ 2 + i.2 ^ 2) : ℤ) : ℝ) = ((36 : ℤ) : ℝ) := by
    push_cast at h1 ⊢
    linarith
  have h3 : 25 * (i.1 ^ 2 + i.2 ^ 2) = 36 := by exact_mod_cast h2
  omega

/-- Options: exact wave vectors, no shifts. -/
noncomputable def unitOpts : GuidedOpts := ⟨[0, 1, 2], true, 0.01, 1e-8, 0, 0, 0⟩

/-- The lengths at the edge of the zone are multiples of square roots of whole numbers. -/
theorem unitSlab_lengths (J : ℝ → ℝ) (x : ℝ) (hx : x ∈ waveLengths unitOpts ((unitSlab J 1).gvec (6 / 5)) (Real.pi, 0)) :
    ∃ m : ℤ, 1 ≤ m ∧ m ≤ 20 ∧ x = Real.pi * √(m : ℝ) := by
  classical
  have hp := Real.pi_pos
  unfold waveLengths GmeStruct.gvec at hx
  rw [absInds_off (unitSlab_off J), List.map_map] at hx
  obtain ⟨i, hi, rfl⟩ := List.mem_map.1 hx
  have hi := of_decide_eq_true (List.mem_filter.1 hi).2
  rw [unitSlab_norm J one_pos, mul_one] at hi
  have h1 : √((i.1 ^ 2 + i.2 ^ 2 : ℤ) : ℝ) ≤ 6 / 5 := le_of_mul_le_mul_left hi (by positivity)
  rw [Real.sqrt_le_left (by norm_num)] at h1
  have h2 : i.1 ^ 2 + i.2 ^ 2 ≤ 1 := by
    have : ((i.1 ^ 2 + i.2 ^ 2 : ℤ) : ℝ) < ((2 : ℤ) : ℝ) := by norm_num at h1 ⊢; linarith
    have : i.1 ^ 2 + i.2 ^ 2 < 2 := by exact_mod_cast this
    omega
  refine ⟨(2 * i.1 + 1) ^ 2 + 4 * i.2 ^ 2, ?_, ?_, ?_⟩
  · have : 2 * i.1 + 1 ≠ 0 := by omega
    have := pow_pos (abs_pos.2 this) 2
    rw [sq_abs] at this
    nlinarith [sq_nonneg i.2]
  · have : i.1 ≤ 1 := by nlinarith [sq_nonneg i.2, sq_nonneg (i.1 - 1)]
    nlinarith
  · rw [← Real.sqrt_sq hp.le, ← Real.sqrt_mul (by positivity)]
    simp only [Function.comp, planeAbs, radPlane, unitSlab, unitOpts, gOf]
    congr 1
    push_cast
    rw [Real.sqrt_sq hp.le]
    ring

theorem hom_plain (S : GmeStruct) (hS : Resolved S.b1 S.b2) (gmax : ℝ) (l : GmeLay) (hl : l.shapes = []) :
    homAbs (S.ft l) S.b1 S.b2 (absInds S.b1 S.b2 gmax) := by
  classical
  obtain ⟨ind, -, h1, hent⟩ := gme_entry S l (by simp [hl]) gmax
  have hN : (S.gvec gmax).length = (absInds S.b1 S.b2 gmax).length := by simp [GmeStruct.gvec]
  unfold homAbs
  refine lt_of_eq_of_lt (Finset.sum_eq_zero fun i hi => Finset.sum_eq_zero fun j hj => ?_) (by norm_num)
  rw [Finset.mem_range, ← hN] at hi hj
  split_ifs with hd
  · rw [norm_eq_zero]
    refine Eq.trans (hent ⟨i, hi⟩ ⟨j, hj⟩) ?_
    have hne : ind ⟨j, hj⟩ - ind ⟨i, hi⟩ ≠ 0 := by
      intro h0
      rw [h1, h1] at h0
      have h2 := congrArg Prod.fst h0
      have h3 := congrArg Prod.snd h0
      simp only [Prod.fst_sub, Prod.snd_sub, Prod.fst_zero, Prod.snd_zero] at h2 h3
      rw [h2, h3] at hd
      simp [gOf, norm2] at hd
      norm_num at hd
    have h4 := resolved_not_g0 hS hne
    have h5 : latVec S.b1 S.b2 (ind ⟨j, hj⟩ - ind ⟨i, hi⟩) = gOf S.b1 S.b2 (ind ⟨j, hj⟩ - ind ⟨i, hi⟩) := by
      simp only [latVec, gOf]
      ext <;> simp <;> ring
    rw [h5]
    unfold GmeStruct.ft
    rw [C12_layer_value _ _ _ _ _ h4, hl]
    simp
  · rfl

/-- Layers without shapes are uniform in all units. -/
theorem sameHom_plain {c n : ℝ} (hc : 0 < c) {S S' : GmeStruct} (h : StructScale c n S S') (hS : WellSpaced S.b1 S.b2)
    (hS' : WellSpaced S'.b1 S'.b2) (gmax : ℝ) (hg : OffCut S.b1 S.b2 gmax) (hp : ∀ l ∈ S.layers, l.shapes = []) :
    SameHom c n gmax S S' := by
  intro l l' hl hm _
  have h1 := hp l hm
  have h2 : l'.shapes = [] := by
    have := hl.shapes.length_eq
    rw [h1] at this
    exact List.length_eq_zero_iff.1 this.symm
  have e := hom_plain S' hS'.resolved (c * gmax) l' h2
  rw [h.inds hc hg] at e
  exact iff_of_true e (hom_plain S hS.resolved gmax l h1)

theorem unitSlab_neutral (J : ℝ → ℝ) : UnitNeutral 2 unitOpts ((unitSlab J 1).gvec (6 / 5)) [(Real.pi, 0)] := by
  have hp := Real.pi_gt_three
  refine neutral_of_separate two_pos rfl rfl ?_ ?_
  · intro k hk x hx
    rw [List.mem_singleton.1 hk] at hx
    obtain ⟨m, h1, -, rfl⟩ := unitSlab_lengths J x hx
    have : (1 : ℝ) ≤ √(m : ℝ) := by rw [Real.one_le_sqrt]; exact_mod_cast h1
    have : (3 : ℝ) ≤ Real.pi * √(m : ℝ) := by nlinarith
    constructor
    · exact le_trans (by norm_num) this
    · exact le_trans (by norm_num) (show (3 : ℝ) ≤ 2 * (Real.pi * √(m : ℝ)) by linarith)
  · intro k hk x hx y hy hxy
    rw [List.mem_singleton.1 hk] at hx hy
    obtain ⟨m, h1, h2, rfl⟩ := unitSlab_lengths J x hx
    obtain ⟨n, h3, h4, rfl⟩ := unitSlab_lengths J y hy
    have hmn : m ≠ n := by rintro rfl; exact hxy rfl
    have key : (1 : ℝ) / 10 ≤ |√(m : ℝ) - √(n : ℝ)| := by
      have e : (√(m : ℝ) - √(n : ℝ)) * (√(m : ℝ) + √(n : ℝ)) = (m : ℝ) - n := by
        have a := Real.mul_self_sqrt (show (0 : ℝ) ≤ m by exact_mod_cast (by omega : (0 : ℤ) ≤ m))
        have b := Real.mul_self_sqrt (show (0 : ℝ) ≤ n by exact_mod_cast (by omega : (0 : ℤ) ≤ n))
        linear_combination a - b
      have hb : ∀ z : ℤ, z ≤ 20 → √(z : ℝ) ≤ 5 := by
        intro z hz
        rw [Real.sqrt_le_left (by norm_num)]
        have : (z : ℝ) ≤ ((20 : ℤ) : ℝ) := by exact_mod_cast hz
        norm_num at this ⊢
        linarith
      have h5 : (1 : ℝ) ≤ |(m : ℝ) - n| := by
        have : (1 : ℤ) ≤ |m - n| := Int.one_le_abs (sub_ne_zero.2 hmn)
        exact_mod_cast this
      rw [← e, abs_mul, abs_of_nonneg (add_nonneg (Real.sqrt_nonneg _) (Real.sqrt_nonneg _))] at h5
      nlinarith [hb m h2, hb n h4, abs_nonneg (√(m : ℝ) - √(n : ℝ))]
    have h6 : (3 : ℝ) / 10 ≤ |Real.pi * √(m : ℝ) - Real.pi * √(n : ℝ)| := by
      rw [← mul_sub, abs_mul, abs_of_pos Real.pi_pos]
      nlinarith
    constructor
    · exact lt_of_lt_of_le (by norm_num) h6
    · exact lt_of_lt_of_le (by norm_num) (show (3 : ℝ) / 10 ≤ 2 * |Real.pi * √(m : ℝ) - Real.pi * √(n : ℝ)| by linarith)

/-- Half the period: all frequencies double. -/
example (J : ℝ → ℝ) (argsort : List ℝ → List ℕ) (eigh : ∀ n, Matrix (Fin n) (Fin n) ℂ → Fin n → ℝ)
    (he : SortedEigh eigh) (ha : ∀ l, argsort (l.map (2 * ·)) = argsort l) (fs : Finder) :
    gmeSimIj ijExact argsort eigh (codeGuided normExact (scaleFinder 2 fs) (scaleOpts 2 unitOpts)) (unitSlab J 2)
        (2 * (6 / 5)) false "average" [(2 * Real.pi, 2 * 0)] (2 * 0) 3 =
      (gmeSimIj ijExact argsort eigh (codeGuided normExact fs unitOpts) (unitSlab J 1) (6 / 5) false "average"
        [(Real.pi, 0)] 0 3).map (List.map (KRes.scale 2)) := by
  exact C126_units argsort eigh he 2 two_pos ha _ _ (unitSlab_scale J two_pos) (unitSlab_spaced J le_rfl)
    (unitSlab_spaced J (by norm_num)) _ (unitSlab_off J) false "average" [(Real.pi, 0)] fs unitOpts (unitSlab_neutral J) 0 3

/-- The guided mode of an asymmetric slab, with lengths halved and refractive indices tripled. -/
example : ∃ abs, SlabRoot .te (2 / 3 * 1) (2 * 2) (3 ^ 2 * 3) (3 ^ 2 * 1) (scaleSlab 2 3 [(5, 7 * Real.pi / 12)]) abs := by
  obtain ⟨abs, h⟩ := asymmetric_root
  exact ⟨abs, C126_slab 2 3 two_pos three_pos _ _ _ _ _ _ _ h⟩

/-- An unpatterned slab of period `1 / c` and permittivity `12 n²`, in air of permittivity `n²`. -/
noncomputable def plainSlab (c n : ℝ) : GmeStruct :=
  ⟨(2 * Real.pi * c, 0), (0, 2 * Real.pi * c), 1 / c ^ 2, [⟨.lower, n ^ 2 * 1, n ^ 2 * 1, none, []⟩,
    ⟨.inner (0.5 / c), n ^ 2 * 12, n ^ 2 * 12, none, []⟩, ⟨.upper, n ^ 2 * 1, n ^ 2 * 1, none, []⟩]⟩

/-- Lengths halved and refractive indices tripled: frequencies are two thirds. -/
example (argsort : List ℝ → List ℕ) (eigh : ∀ n, Matrix (Fin n) (Fin n) ℂ → Fin n → ℝ) (he : SortedEigh eigh)
    (ha : ∀ l, argsort (l.map (2 / 3 * ·)) = argsort l) (br : List (Pol × (ℝ → Option ℝ))) (ks : List R2) :
    gmeSimIj ijExact argsort eigh (branchGuided (scaleBranches 2 3 br) (2 * 0) (3 ^ 2 * 1) (3 ^ 2 * 1)
        (scaleSlab 2 3 [(12, 0.5)])) (plainSlab 2 3) (2 * (6 / 5)) false "average" (ks.map (stretch 2)) (2 / 3 * 0) 3 =
      (gmeSimIj ijExact argsort eigh (branchGuided br 0 1 1 [(12, 0.5)]) (plainSlab 1 1) (6 / 5) false "average" ks 0
        3).map (List.map (KRes.scale (2 / 3))) := by
  have h : StructScale 2 3 (plainSlab 1 1) (plainSlab 2 3) := by
    refine ⟨?_, ?_, ?_, .cons ?_ (.cons ?_ (.cons ?_ .nil))⟩
    · simp only [plainSlab, stretch]; ext <;> simp only <;> ring
    · simp only [plainSlab, stretch]; ext <;> simp only <;> ring
    · simp only [plainSlab]; field_simp
    · exact ⟨rfl, by simp, by simp, rfl, .nil⟩
    · exact ⟨by simp [scalePos], by simp, by simp, rfl, .nil⟩
    · exact ⟨rfl, by simp, by simp, rfl, .nil⟩
  have w1 : WellSpaced (plainSlab 1 1).b1 (plainSlab 1 1).b2 := unitSlab_spaced id le_rfl
  have w2 : WellSpaced (plainSlab 2 3).b1 (plainSlab 2 3).b2 := unitSlab_spaced id one_le_two
  exact C126_scale argsort eigh he 2 3 two_pos three_pos ha _ _ h w1.resolved w2.resolved _ (unitSlab_off id)
    (sameHom_plain two_pos h w1 w2 _ (unitSlab_off id) (by simp [plainSlab])) false "average" ks br 0 1 1 _ 0 3

end Legume
