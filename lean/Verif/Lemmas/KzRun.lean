import Verif.Model.KzRun
import Verif.Props.SymmetryElem
import Verif.Props.HighSym
import Verif.Props.TimeReversal
import Verif.Props.GmeRun

/-!
# The basis of a run under the mirror in the vertical plane through `k`
-/
namespace Legume

open Spec Matrix
open scoped ComplexConjugate

/-! ### Vectors -/

theorem mirrorVec_add (theta : ℝ) (a b : ℝ × ℝ) : mirrorVec theta (a + b) = mirrorVec theta a + mirrorVec theta b := by
  simp only [mirrorVec]
  ext <;> simp <;> ring

theorem mirrorVec_sub (theta : ℝ) (a b : ℝ × ℝ) : mirrorVec theta (a - b) = mirrorVec theta a - mirrorVec theta b := by
  simp only [mirrorVec]
  ext <;> simp <;> ring

theorem mirrorVec_inj (theta : ℝ) {a b : ℝ × ℝ} (h : mirrorVec theta a = mirrorVec theta b) : a = b := by
  rw [← mirrorVec_invol theta a, h, mirrorVec_invol]

theorem planeAbs_mirror (theta : ℝ) (p : R2) : planeAbs (mirrorVec theta p) = planeAbs p := by
  unfold planeAbs
  rw [mirror_norm]

theorem interpState_mirror (stack : List (LPos × ℝ)) (pol : Pol) (gs : List ℝ) (om : List GMode) (theta : ℝ) (p : R2) :
    interpState stack pol gs om (mirrorVec theta p) = mirrorState theta (interpState stack pol gs om p) := by
  unfold interpState mirrorState
  simp only [planeAbs_mirror]

theorem radPlane_mirror (theta dgx : ℝ) (k g : R2) (hk : mirrorVec theta (k + (dgx, 0)) = k + (dgx, 0)) :
    radPlane dgx k (mirrorVec theta g) = mirrorVec theta (radPlane dgx k g) := by
  have e : ∀ g : R2, radPlane dgx k g = g + (k + (dgx, 0)) := by
    intro g
    unfold radPlane
    ext <;> simp <;> ring
  rw [e, e, mirrorVec_add, hk]

/-! ### Blocks -/

/-- One block: all states come from one function of the plane wave, which follows the mirror, and the waves used are those
whose length passes a test. -/
structure BlockFacts {N : ℕ} (plane : Fin N → R2) (n mode : ℕ) (b : List (BasisEl N)) : Prop where
  fact : ∃ (F : R2 → GmeState) (P : ℝ → Prop), (∀ p, (F p).pol = modePol mode) ∧
    (∀ theta p, F (mirrorVec theta p) = mirrorState theta (F p)) ∧
    (∀ s ∈ b, s.blk = n ∧ s.st = F (plane s.ig) ∧ P (planeAbs (plane s.ig))) ∧
    (∀ i, P (planeAbs (plane i)) → ∃ s ∈ b, s.ig = i)
  nodup : (b.map BasisEl.ig).Nodup

theorem guidedBlock_facts {N : ℕ} (stack : List (LPos × ℝ)) (grid : List ℝ) (plane : Fin N → R2)
    (modes : List (List GMode)) (n mode : ℕ) (b : List (BasisEl N))
    (h : guidedBlock stack grid plane modes n mode = .ok b) : BlockFacts plane n mode b := by
  classical
  unfold guidedBlock at h
  cases hom : modes[mode / 2]? with
  | none => rw [hom] at h; cases h
  | some om =>
    rw [hom] at h
    simp only at h
    cases hgs : gsOf grid om with
    | nil => rw [hgs] at h; cases h
    | cons gs0 gs =>
      rw [hgs] at h
      simp only [Except.ok.injEq] at h
      subst h
      refine ⟨⟨interpState stack (modePol mode) (gs0 :: gs) om, fun x => gs0 - (1e-10 : ℝ) < x, fun p => rfl,
        fun theta p => interpState_mirror _ _ _ _ _ _, ?_, ?_⟩, ?_⟩
      · intro s hs
        obtain ⟨i, -, hi⟩ := List.mem_filterMap.1 hs
        split_ifs at hi with hc
        cases hi
        exact ⟨rfl, rfl, hc⟩
      · intro i hi
        exact ⟨⟨n, i, interpState stack (modePol mode) (gs0 :: gs) om (plane i)⟩,
          List.mem_filterMap.2 ⟨i, List.mem_finRange i, by rw [if_pos hi]⟩, rfl⟩
      · rw [List.map_filterMap]
        refine List.Nodup.filterMap ?_ (List.nodup_finRange N)
        intro a a' x hx hx'
        split_ifs at hx with hc
        · split_ifs at hx' with hc'
          · simp at hx hx'
            rw [hx, hx']
          · simp at hx'
        · simp at hx

theorem codeBlocks_facts {N : ℕ} (norm : NormFn) (fs : Finder) (o : GuidedOpts) (stack : List (LPos × ℝ))
    (grid : List ℝ) (plane : Fin N → R2) (blocks : List (List (BasisEl N)))
    (h : codeBlocks norm fs o stack grid plane = .ok blocks) :
    basisOf norm fs o stack grid plane = .ok blocks.flatten ∧ blocks.length ≤ o.inds.length ∧
      (blocks.length = o.inds.length → ∀ (n : ℕ) (hn : n < blocks.length),
        BlockFacts plane n (o.inds.getD n 0) blocks[n]) ∧
      ∀ (n : ℕ) (hn : n < blocks.length), ∃ mode, BlockFacts plane n mode blocks[n] := by
  unfold codeBlocks at h
  unfold basisOf
  simp only [bind, Except.bind] at h ⊢
  cases hte : computeGuided norm fs o stack .te grid with
  | error e => rw [hte] at h; cases h
  | ok te =>
    rw [hte] at h
    simp only at h ⊢
    cases htm : computeGuided norm fs o stack .tm grid with
    | error e => rw [htm] at h; cases h
    | ok tm =>
      rw [htm] at h
      simp only at h ⊢
      cases hinc : gmodeInclude o.inds te.length tm.length with
      | error e => rw [hinc] at h; cases h
      | ok inc =>
        rw [hinc] at h
        simp only at h ⊢
        obtain ⟨h1, h2⟩ := mapM_ok _ _ _ h
        rw [List.length_range] at h1
        have hsub : inc.Sublist o.inds := by
          unfold gmodeInclude at hinc
          simp only at hinc
          split_ifs at hinc
          cases hinc
          exact List.filter_sublist
        have hb : ∀ (n : ℕ) (hn : n < blocks.length), BlockFacts plane n (inc.getD n 0) blocks[n] := by
          intro n hn
          obtain ⟨b, hb1, hb2⟩ := h2 n n (by rw [List.getElem?_range (by omega)])
          rw [List.getElem?_eq_getElem hn, Option.some.injEq] at hb1
          subst hb1
          exact guidedBlock_facts _ _ _ _ _ _ _ hb2
        refine ⟨?_, by rw [h1]; exact hsub.length_le, ?_, fun n hn => ⟨_, hb n hn⟩⟩
        · split
          · rename_i heq
            exact absurd (h.symm.trans heq) (by simp)
          · rename_i heq
            have := h.symm.trans heq
            simp only [Except.ok.injEq] at this
            rw [this]
        intro hl n hn
        have : inc = o.inds := hsub.eq_of_length (by omega)
        rw [← this]
        exact hb n hn

theorem basisOf_blocks {N : ℕ} (norm : NormFn) (fs : Finder) (o : GuidedOpts) (stack : List (LPos × ℝ))
    (grid : List ℝ) (plane : Fin N → R2) (basis : List (BasisEl N))
    (h : basisOf norm fs o stack grid plane = .ok basis) :
    ∃ blocks, codeBlocks norm fs o stack grid plane = .ok blocks ∧ basis = blocks.flatten := by
  cases hc : codeBlocks norm fs o stack grid plane with
  | ok blocks =>
    rw [(codeBlocks_facts _ _ _ _ _ _ _ hc).1] at h
    cases h
    exact ⟨blocks, rfl, rfl⟩
  | error e =>
    exfalso
    unfold basisOf at h
    unfold codeBlocks at hc
    simp only [bind, Except.bind] at h hc
    cases hte : computeGuided norm fs o stack .te grid with
    | error e => rw [hte] at h; cases h
    | ok te =>
      rw [hte] at h hc
      simp only at h hc
      cases htm : computeGuided norm fs o stack .tm grid with
      | error e => rw [htm] at h; cases h
      | ok tm =>
        rw [htm] at h hc
        simp only at h hc
        cases hinc : gmodeInclude o.inds te.length tm.length with
        | error e => rw [hinc] at h; cases h
        | ok inc =>
          rw [hinc] at h hc
          simp only at h hc
          split at h
          · cases h
          · rename_i heq
            exact absurd (hc.symm.trans heq) (by simp)

/-! ### The basis as seen by the separation -/

theorem gmBasis_blocks {gvec : List R2} : ∀ (blocks : List (List (BasisEl gvec.length))) (b : ℕ) (gi : List ℕ),
    gi.length = blocks.length → (∀ (n : ℕ) (hn : n < blocks.length), ∀ s ∈ blocks[n], s.blk = b + n) →
    gmBasis b gi (usedWaves gvec blocks) =
      blocks.flatten.map fun s => (s.blk, gi.getD (s.blk - b) 0, gvec[s.ig])
  | [], b, gi, hl, _ => by
    rw [List.length_nil, List.length_eq_zero_iff] at hl
    subst hl
    rfl
  | bl :: bls, b, [], hl, _ => by simp at hl
  | bl :: bls, b, a :: gi, hl, hb => by
    have ih := gmBasis_blocks bls (b + 1) gi (by simpa using hl) (by
      intro n hn s hs
      have := hb (n + 1) (by simpa using hn) s (by simpa using hs)
      omega)
    unfold usedWaves at ih ⊢
    rw [List.map_cons, gmBasis, ih, List.flatten_cons, List.map_append, List.map_map]
    congr 1
    · refine List.map_congr_left fun s hs => ?_
      have := hb 0 (by simp) s (by simpa using hs)
      simp only [Function.comp, this, add_zero, Nat.sub_self, List.getD_cons_zero]
    · refine List.map_congr_left fun s hs => ?_
      obtain ⟨l, hl', hs'⟩ := List.mem_flatten.1 hs
      obtain ⟨n, hn, rfl⟩ := List.getElem_of_mem hl'
      have := hb (n + 1) (by simpa using hn) s (by simpa using hs')
      rw [this, show b + (n + 1) - (b + 1) = n by omega, show b + (n + 1) - b = n + 1 by omega, List.getD_cons_succ]

theorem blocks_sorted {N : ℕ} : ∀ (blocks : List (List (BasisEl N))) (b : ℕ),
    (∀ (n : ℕ) (hn : n < blocks.length), ∀ s ∈ blocks[n], s.blk = b + n) →
    blocks.flatten.Pairwise fun s t => s.blk ≤ t.blk
  | [], _, _ => by simp
  | bl :: bls, b, hb => by
    rw [List.flatten_cons, List.pairwise_append]
    have h0 : ∀ s ∈ bl, s.blk = b := fun s hs => by simpa using hb 0 (by simp) s (by simpa using hs)
    have h1 : ∀ (n : ℕ) (hn : n < bls.length), ∀ s ∈ bls[n], s.blk = b + 1 + n := by
      intro n hn s hs
      have := hb (n + 1) (by simpa using hn) s (by simpa using hs)
      omega
    refine ⟨?_, blocks_sorted bls (b + 1) h1, ?_⟩
    · rw [List.pairwise_iff_getElem]
      intro i j hi hj _
      rw [h0 _ (List.getElem_mem _), h0 _ (List.getElem_mem _)]
    · intro s hs t ht
      obtain ⟨l, hl', hs'⟩ := List.mem_flatten.1 ht
      obtain ⟨n, hn, rfl⟩ := List.getElem_of_mem hl'
      rw [h0 s hs, h1 n hn t hs']
      omega

theorem symModes_closed (theta : ℝ) : ∀ (gi : List ℕ) (used : List (List (ℝ × ℝ))), gi.length ≤ used.length →
    (∀ gs ∈ used, ∀ g ∈ gs, mirrorVec theta g ∈ gs) → ∃ ms, symModes theta gi used = .ok ms
  | [], _, _, _ => ⟨[], by simp [symModes]⟩
  | a :: gi, [], hl, _ => by simp at hl
  | a :: gi, gs :: us, hl, hcl => by
    obtain ⟨ms, hms⟩ := symModes_closed theta gi us (by simpa using hl) fun x hx => hcl x (by simp [hx])
    obtain ⟨rs, hrs⟩ := mapM_all_ok (fun g => indG gs (reflectG theta g)) gs fun g hg =>
      indG_found gs _ (by rw [reflectG_eq]; exact hcl gs (by simp) g hg)
    have hrs' : reflIdx theta gs = .ok rs := hrs
    exact ⟨_, by simp only [symModes, hrs', hms]; rfl⟩

end Legume
