import Verif.Model.GuidedRun
import Verif.Props.RadFlip
import Verif.Props.Guided

/-! # Helpers for the guided modes of a run -/

namespace Legume

open Spec

open Classical in
theorem search_spec (D : ℝ → ℝ) (fs : ℝ → ℝ → ℝ) (n : Nat) (lb ub step tol A B : ℝ) (R : ℝ → Prop) (hs : 0 < step)
    (hA : A ≤ lb * (1 + tol)) (hB : ub * (1 - tol) ≤ B)
    (hfs : ∀ x y, x < y → A ≤ x → y ≤ B → D x * D y < 0 → x ≤ fs x y ∧ fs x y ≤ y ∧ D (fs x y) = 0 ∧ R (fs x y)) :
    (∀ om ∈ guidedGivenG D fs n lb ub step tol, D om = 0 ∧ A < om ∧ om < B ∧ R om) ∧
      (guidedGivenG D fs n lb ub step tol).Pairwise (· < ·) ∧
      (guidedGivenG D fs n lb ub step tol).length ≤ n := by
  set a := lb * (1 + tol) with ha
  set b := ub * (1 - tol) with hb
  rw [guidedGivenG_eq D fs n lb ub step tol hs, ← ha, ← hb]
  have strict : ∀ i ∈ signChanges D a b step,
      A ≤ samplePoint a b step i ∧ samplePoint a b step (i + 1) ≤ B ∧
      samplePoint a b step i < fs (samplePoint a b step i) (samplePoint a b step (i + 1)) ∧
      fs (samplePoint a b step i) (samplePoint a b step (i + 1)) < samplePoint a b step (i + 1) ∧
      D (fs (samplePoint a b step i) (samplePoint a b step (i + 1))) = 0 ∧
      R (fs (samplePoint a b step i) (samplePoint a b step (i + 1))) := by
    intro i hi
    simp only [signChanges, List.mem_filter, List.mem_range, decide_eq_true_eq] at hi
    obtain ⟨hK, h1⟩ := hi
    have hpos : 0 < (b - a) / step := by
      by_contra hneg
      rw [Nat.ceil_eq_zero.mpr (not_lt.mp hneg)] at hK
      omega
    have hab : a < b := by rw [lt_div_iff₀ hs] at hpos; linarith
    have hax : a ≤ samplePoint a b step i := by
      have h0 := samplePoint_mono a b step hs (Nat.zero_le i)
      have : samplePoint a b step 0 = a := by simp [samplePoint, hab.le]
      linarith
    have hyb : samplePoint a b step (i + 1) ≤ b := min_le_right _ _
    have hxy : samplePoint a b step i < samplePoint a b step (i + 1) := by
      refine lt_of_le_of_ne (samplePoint_mono a b step hs (Nat.le_succ i)) fun h => ?_
      rw [← h] at h1
      nlinarith [mul_self_nonneg (D (samplePoint a b step i))]
    obtain ⟨f1, f2, f3, f4⟩ := hfs _ _ hxy (hA.trans hax) (hyb.trans hB) h1
    refine ⟨hA.trans hax, hyb.trans hB, lt_of_le_of_ne f1 ?_, lt_of_le_of_ne f2 ?_, f3, f4⟩
    · intro h
      have : D (samplePoint a b step i) = 0 := by rw [h]; exact f3
      rw [this] at h1; simp at h1
    · intro h
      have : D (samplePoint a b step (i + 1)) = 0 := by rw [← h]; exact f3
      rw [this] at h1; simp at h1
  refine ⟨?_, ?_, ?_⟩
  · intro om hom
    obtain ⟨i, hi, rfl⟩ := List.mem_map.mp hom
    obtain ⟨s1, s2, s3, s4, s5, s6⟩ := strict i (List.mem_of_mem_take hi)
    exact ⟨s5, by linarith, by linarith, s6⟩
  · rw [List.pairwise_map]
    have hsorted : ((signChanges D a b step).take n).Pairwise (· < ·) :=
      ((List.pairwise_lt_range).filter _).sublist (List.take_sublist _ _)
    refine List.Pairwise.imp_of_mem ?_ hsorted
    intro i j hi hj hij
    have := (strict i (List.mem_of_mem_take hi)).2.2.2.1
    have := (strict j (List.mem_of_mem_take hj)).2.2.1
    have := samplePoint_mono a b step hs (Nat.succ_le_of_lt hij)
    linarith
  · rw [List.length_map, List.length_take]
    exact min_le_left _ _

theorem modeAt_fst {norm : NormFn} {stack : List (LPos × ℝ)} {pol : Pol} {gv om : ℝ} {m : GMode}
    (h : modeAt norm stack pol gv om = .ok m) : m.1 = om := by
  unfold modeAt at h
  split at h
  · cases h
  · cases h; rfl

theorem mapM_modeAt {norm : NormFn} {stack : List (LPos × ℝ)} {pol : Pol} {gv : ℝ} : ∀ {oms : List ℝ} {ms : List GMode},
    oms.mapM (modeAt norm stack pol gv) = .ok ms →
    ms.map Prod.fst = oms ∧ ∀ m ∈ ms, modeAt norm stack pol gv m.1 = .ok m
  | [], ms, h => by
    simp [pure, Except.pure] at h
    subst h
    simp
  | om :: oms, ms, h => by
    rw [List.mapM_cons] at h
    simp only [bind, Except.bind] at h
    split at h
    · cases h
    · rename_i m hm
      split at h
      · cases h
      · rename_i ms' hms'
        cases h
        obtain ⟨h1, h2⟩ := mapM_modeAt hms'
        have h3 := modeAt_fst hm
        refine ⟨by simp [h1, h3], ?_⟩
        intro m' hm'
        rcases List.mem_cons.1 hm' with rfl | hm'
        · rw [h3]; exact hm
        · exact h2 m' hm'

/-- What a run over a sorted grid gives: one list of modes per grid point, frequencies as in `guidedModes`, a property
that holds for what is computed at a grid point, and the same modes at equal grid points. -/
theorem guidedRun_spec (norm : NormFn) (fs : Finder) (o : GuidedOpts) (stack : List (LPos × ℝ)) (pol : Pol)
    (nModes : ℕ) (P : ℝ → List GMode → Prop)
    (hcomp : ∀ g ub ms, ub ≤ omUb (stack.map Prod.snd) g →
      (guidedGivenG (dispRe stack pol (max g 1e-4)) (fs pol (max g 1e-4)) nModes (omLb (stack.map Prod.snd) g) ub o.step
        o.tol).mapM (modeAt norm stack pol (max g 1e-4)) = .ok ms → P g ms) :
    ∀ (gs : List ℝ) (prev : Option (ℝ × List GMode)) (ms : List (List GMode)),
    guidedRun norm fs o stack pol nModes prev gs = .ok ms → gs.Pairwise (· ≤ ·) →
    (∀ x ∈ gs, ∀ y ∈ gs, x ≠ y → 1e-8 < |x - y|) →
    (∀ gp m0, prev = some (gp, m0) → P gp m0 ∧ ∀ x ∈ gs, gp ≤ x ∧ (x ≠ gp → 1e-8 < |x - gp|)) →
    ms.length = gs.length ∧
    ms.map (List.map Prod.fst) = guidedModes (dispRe stack pol) (fs pol) (stack.map Prod.snd) nModes o.step o.tol
      (prev.map fun p => (p.1, p.2.map Prod.fst)) gs ∧
    (∀ p ∈ gs.zip ms, P p.1 p.2) ∧
    (∀ gp m0, prev = some (gp, m0) → ∀ p ∈ gs.zip ms, p.1 = gp → p.2 = m0) ∧
    (∀ p ∈ gs.zip ms, ∀ q ∈ gs.zip ms, p.1 = q.1 → p.2 = q.2) := by
  intro gs
  induction gs with
  | nil =>
    intro prev ms h _ _ _
    cases h
    simp [guidedModes]
  | cons g gs ih =>
    intro prev ms h hsort hsep hprev
    rw [guidedRun] at h
    split at h
    · cases h
    · rename_i m hm
      split at h
      · cases h
      · rename_i rest hrest
        cases h
        have hstep : m.map Prod.fst = guidedStep (dispRe stack pol) (fs pol) (stack.map Prod.snd) nModes o.step o.tol
              (prev.map fun p => (p.1, p.2.map Prod.fst)) g ∧ P g m ∧
            ∀ gp m0, prev = some (gp, m0) → g = gp → m = m0 := by
          cases prev with
          | none =>
            simp only [guidedAt] at hm
            refine ⟨(mapM_modeAt hm).1, ?_, by simp⟩
            simp only [guidedStep, if_true] at hm
            exact hcomp g _ m le_rfl hm
          | some q =>
            obtain ⟨gp, m0⟩ := q
            obtain ⟨hp, hx⟩ := hprev gp m0 rfl
            simp only [guidedAt] at hm
            by_cases hc : 1e-8 < |g - gp|
            · rw [if_pos hc] at hm
              refine ⟨(mapM_modeAt hm).1, ?_, ?_⟩
              · simp only [guidedStep, if_pos hc] at hm
                refine hcomp g _ m ?_ hm
                split
                · exact min_le_left _ _
                · exact le_rfl
              · intro gp' m0' h h'
                cases h
                rw [h', sub_self, abs_zero] at hc
                norm_num at hc
            · rw [if_neg hc] at hm
              cases hm
              have : g = gp := by
                by_contra hne
                exact hc ((hx g List.mem_cons_self).2 hne)
              refine ⟨?_, this ▸ hp, ?_⟩
              · simp only [Option.map_some, guidedStep, if_neg hc]
              · intro gp' m0' h _
                cases h
                rfl
        rw [List.pairwise_cons] at hsort
        obtain ⟨i1, i2, i3, i4, i5⟩ := ih (some (g, m)) rest hrest hsort.2
          (fun x hx y hy => hsep x (List.mem_cons_of_mem _ hx) y (List.mem_cons_of_mem _ hy)) (by
            intro gp m0 h
            cases h
            exact ⟨hstep.2.1, fun x hx => ⟨hsort.1 x hx, fun hne =>
              hsep x (List.mem_cons_of_mem _ hx) g List.mem_cons_self hne⟩⟩)
        refine ⟨by simp [i1], ?_, ?_, ?_, ?_⟩
        · rw [List.map_cons, i2, guidedModes, hstep.1]
          simp [hstep.1]
        · intro p hp
          rcases List.mem_cons.1 hp with rfl | hp
          · exact hstep.2.1
          · exact i3 p hp
        · intro gp m0 hpr p hp hpe
          rcases List.mem_cons.1 hp with rfl | hp
          · exact hstep.2.2 gp m0 hpr hpe
          · have hpg : p.1 ∈ gs := (List.of_mem_zip hp).1
            have h1 := ((hprev gp m0 hpr).2 g List.mem_cons_self).1
            have h2 := hsort.1 _ hpg
            have hg : g = gp := by linarith
            rw [i4 g m rfl p hp (by rw [hpe, hg]), hstep.2.2 gp m0 hpr hg]
        · intro p hp q hq hpq
          rcases List.mem_cons.1 hp with rfl | hp <;> rcases List.mem_cons.1 hq with rfl | hq
          · rfl
          · exact (i4 g m rfl q hq hpq.symm).symm
          · exact i4 g m rfl p hp hpq
          · exact i5 p hp q hq hpq

theorem npInterp_at : ∀ (xp yp : List ℝ) (x v : ℝ), xp.Pairwise (· ≤ ·) → xp.length = yp.length → x ∈ xp →
    (∀ p ∈ xp.zip yp, p.1 = x → p.2 = v) → npInterp xp yp x = v
  | [], _, _, _, _, _, h, _ => by simp at h
  | [x0], yp, x, v, _, hl, hx, h => by
    cases yp with
    | nil => simp at hl
    | cons y0 yp =>
      simp only [npInterp, List.headD_cons]
      exact h (x0, y0) (by simp) (List.mem_singleton.1 hx).symm
  | x0 :: x1 :: xp, yp, x, v, hs, hl, hx, h => by
    match yp, hl with
    | y0 :: y1 :: yp, hl =>
      rw [List.pairwise_cons] at hs
      unfold npInterp
      split_ifs with h0 h1
      · have : x0 ≤ x := by
          rcases List.mem_cons.1 hx with rfl | hx
          · exact le_rfl
          · exact hs.1 x hx
        exact h (x0, y0) (by simp) (le_antisymm this h0)
      · have hx' : x ∈ x1 :: xp := by
          rcases List.mem_cons.1 hx with rfl | hx
          · exact absurd le_rfl h0
          · exact hx
        have : x1 ≤ x := by
          rcases List.mem_cons.1 hx' with rfl | hx'
          · exact le_rfl
          · exact (List.pairwise_cons.1 hs.2).1 x hx'
        have hxx : x = x1 := le_antisymm h1 this
        have hv := h (x1, y1) (by simp) hxx.symm
        simp only at hv
        have hne : x1 - x0 ≠ 0 := by rw [← hxx]; exact (sub_pos.2 (not_le.1 h0)).ne'
        simp only [List.headD_cons, List.tail_cons]
        rw [hxx, div_mul_cancel₀ _ hne, hv]
        ring
      · refine npInterp_at (x1 :: xp) (y1 :: yp) x v hs.2 (by simpa using hl) ?_ fun p hp => ?_
        · rcases List.mem_cons.1 hx with rfl | hx
          · exact absurd le_rfl h0
          · exact hx
        · exact h p (List.mem_cons_of_mem _ hp)

/-- The state of a plane wave in a mode which is known at its wave vector. -/
noncomputable def nodeState (stack : List (LPos × ℝ)) (pol : Pol) (p : R2) (v : GMode) : GmeState :=
  ⟨pol, p.1, p.2, v.1, (List.range stack.length).map fun (il : ℕ) =>
    ⟨(v.2.getD il 0).1, (v.2.getD il 0).2, chi v.1 (planeAbs p) ((stack.map Prod.snd).getD il 0)⟩⟩

theorem interpState_node (stack : List (LPos × ℝ)) (pol : Pol) (gs : List ℝ) (om : List GMode) (p : R2) (v : GMode)
    (hs : gs.Pairwise (· ≤ ·)) (hl : gs.length = om.length) (hx : planeAbs p ∈ gs)
    (hv : ∀ q ∈ gs.zip om, q.1 = planeAbs p → q.2 = v) : interpState stack pol gs om p = nodeState stack pol p v := by
  have key : ∀ f : GMode → ℝ, npInterp gs (om.map f) (planeAbs p) = f v := by
    intro f
    refine npInterp_at _ _ _ _ hs (by simpa using hl) hx fun q hq hqx => ?_
    rw [List.zip_map_right] at hq
    obtain ⟨r, hr, rfl⟩ := List.mem_map.1 hq
    simp only [Prod.map_apply', Prod.map_fst, Prod.map_snd, id_eq] at hqx ⊢
    rw [hv r hr hqx]
  have keyC : ∀ f : GMode → ℂ, npInterpC gs (om.map f) (planeAbs p) = f v := by
    intro f
    unfold npInterpC
    rw [List.map_map, List.map_map, key, key]
    rfl
  unfold interpState nodeState
  simp only [key, keyC]

/-- The basis states of one mode if the modes are known at the wave vectors of the plane waves and their number does not
decrease. -/
theorem guidedBlock_eq {N : ℕ} (stack : List (LPos × ℝ)) (grid : List ℝ) (plane : Fin N → R2) (ms : List (List GMode))
    (hlen : grid.length = ms.length) (hsort : grid.Pairwise (· ≤ ·))
    (hsep : ∀ x ∈ grid, ∀ y ∈ grid, x ≠ y → (1e-8 : ℝ) < |x - y|) (hgrid : ∀ i, planeAbs (plane i) ∈ grid)
    (hcount : (ms.map List.length).Pairwise (· ≤ ·)) (found : ℝ → List GMode)
    (hfound : ∀ p ∈ grid.zip ms, found p.1 = p.2) (n mode : ℕ) (b : List (BasisEl N))
    (hb : guidedBlock stack grid plane (reshapeList ms) n mode = .ok b) :
    b = (List.finRange N).filterMap fun i => ((found (planeAbs (plane i)))[mode / 2]?).map fun v =>
      ⟨n, i, nodeState stack (modePol mode) (plane i) v⟩ := by
  unfold guidedBlock at hb
  cases hom : (reshapeList ms)[mode / 2]? with
  | none => rw [hom] at hb; cases hb
  | some om =>
    rw [hom] at hb
    simp only at hb
    have hpair := C57_pairing_partial ms grid hlen hcount (mode / 2) om hom
    obtain ⟨l0, hl0, hl0m⟩ := (C57_orders ms (mode / 2)).1.1 ⟨om, hom⟩
    obtain ⟨-, homlen⟩ := (C57_orders ms (mode / 2)).2 om hom
    have hompos : 0 < om.length := by
      rw [homlen]
      exact List.length_pos_of_mem (List.mem_filter.2 ⟨hl0, by simpa using hl0m⟩)
    have homle : om.length ≤ grid.length := by
      rw [homlen, hlen]
      exact List.length_filter_le _ _
    have hdrop : gsOf grid om = grid.drop (grid.length - om.length) := by
      unfold gsOf; rw [if_neg hompos.ne']
    cases hgs : gsOf grid om with
    | nil => rw [hgs] at hb; cases hb
    | cons gs0 gs =>
      rw [hgs] at hb hpair
      simp only [Except.ok.injEq] at hb
      subst hb
      have hsub : (gs0 :: gs).Sublist grid := by rw [← hgs, hdrop]; exact List.drop_sublist _ _
      have hgsort := hsort.sublist hsub
      have hgl : (gs0 :: gs).length = om.length := by
        rw [← hgs, hdrop, List.length_drop]; omega
      have hZ : ∀ x v, (x, v) ∈ (gs0 :: gs).zip om ↔ ∃ l, (x, l) ∈ grid.zip ms ∧ l[mode / 2]? = some v := by
        intro x v
        rw [hpair, List.mem_filterMap]
        constructor
        · rintro ⟨p, hp, h⟩
          obtain ⟨w, hw, he⟩ := Option.map_eq_some_iff.1 h
          cases he
          exact ⟨p.2, hp, hw⟩
        · rintro ⟨l, hl, h⟩
          exact ⟨(x, l), hl, by simp [h]⟩
      refine List.filterMap_congr fun i _ => ?_
      set x := planeAbs (plane i) with hx
      obtain ⟨a, ha, hax⟩ := List.mem_iff_getElem.1 (hgrid i)
      have hxl : (x, ms[a]'(hlen ▸ ha)) ∈ grid.zip ms := by
        rw [List.mem_iff_getElem]
        exact ⟨a, by simp [ha, ← hlen], by simp [hax, hx]⟩
      have hfx := hfound _ hxl
      simp only at hfx
      cases hv : (found x)[mode / 2]? with
      | some v =>
        have hxv : (x, v) ∈ (gs0 :: gs).zip om := (hZ x v).2 ⟨_, hxl, by rw [← hfx]; exact hv⟩
        have hxg : x ∈ gs0 :: gs := (List.of_mem_zip hxv).1
        have hle : gs0 ≤ x := by
          rcases List.mem_cons.1 hxg with h | h
          · exact h ▸ le_rfl
          · exact (List.pairwise_cons.1 hgsort).1 x h
        rw [if_pos (by linarith), interpState_node stack _ _ om (plane i) v hgsort hgl hxg]
        · rfl
        · rintro ⟨q1, q2⟩ hq hqx
          obtain ⟨l, hl, hlv⟩ := (hZ q1 q2).1 hq
          have := hfound _ hl
          simp only at this hqx
          rw [hqx, ← hx] at this
          rw [← this, hv] at hlv
          exact (Option.some.inj hlv).symm
      | none =>
        rw [if_neg]
        · rfl
        intro hlt
        rw [hfx, List.getElem?_eq_none_iff] at hv
        obtain ⟨v0, hv0⟩ : ∃ v0, (gs0, v0) ∈ (gs0 :: gs).zip om := by
          cases om with
          | nil => simp at hompos
          | cons v0 om => exact ⟨v0, by simp⟩
        obtain ⟨l, hl, hlv⟩ := (hZ gs0 v0).1 hv0
        have hlm : mode / 2 < l.length := by
          by_contra hc
          rw [List.getElem?_eq_none (by omega)] at hlv
          cases hlv
        have hg0 : gs0 ∈ grid := (List.of_mem_zip hl).1
        rcases lt_trichotomy x gs0 with h | h | h
        · have := hsep gs0 hg0 x (hgrid i) h.ne'
          rw [abs_of_pos (by linarith)] at this
          norm_num at this hlt
          linarith
        · have h2 := hfound _ hl
          simp only at h2
          rw [← h, hfx] at h2
          rw [← h2] at hlm
          omega
        · obtain ⟨c, hc, hcl⟩ := List.mem_iff_getElem.1 hl
          rw [List.length_zip, ← hlen, min_self] at hc
          simp only [List.getElem_zip, Prod.mk.injEq] at hcl
          have hca : c < a := by
            by_contra hca
            rcases Nat.lt_or_ge a c with h3 | h3
            · have := List.pairwise_iff_getElem.1 hsort a c ha hc h3
              rw [hcl.1, hax] at this
              linarith
            · have : a = c := by omega
              subst this
              rw [hcl.1] at hax
              linarith
          have := List.pairwise_iff_getElem.1 hcount c a (by simp [← hlen, hc]) (by simp [← hlen, ha]) hca
          simp only [List.getElem_map, hcl.2] at this
          omega

end Legume
