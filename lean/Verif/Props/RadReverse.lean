import Verif.Lemmas.RadReverseRun
import Verif.Props.RadIso
import Verif.Props.GuidedWhole

/-!
# Losses at opposite wave vectors (C128)
-/
namespace Legume

open Spec Matrix
open scoped ComplexConjugate

/-- Results of two runs of the structure `S`, the first at the wave vectors `ks` and the second at their opposites; `ν` takes
every plane wave to its opposite. -/
def ReversedRun (S : GmeStruct) (gmax : ℝ) (ν : Equiv.Perm (Fin (S.gvec gmax).length)) (e0 eN : ℝ) (ls : List (ℝ × ℝ))
    (dgx : ℝ) (eigh : ∀ n, Matrix (Fin n) (Fin n) ℂ → Fin n → ℝ) (guided : GuidedSolver) (onlyG : Bool) (opt : String)
    (ks : List R2) (r r' : List (KRes × List RadRes)) : Prop :=
  r.length = ks.length ∧ r'.length = ks.length ∧ ∀ (ik : ℕ) (x x' : KRes × List RadRes), r[ik]? = some x →
    r'[ik]? = some x' → ∃ eff einv basis, S.layers.mapM (GmeLay.eff opt) = .ok eff ∧
      S.layers.mapM (S.epsInv gmax onlyG) = .ok einv ∧
      guided ((S.layers.map GmeLay.pos).zip eff) (S.gvec gmax) ks ik = .ok basis ∧
      ReversedModes ν e0 eN ls (fun i => radPlane dgx (ks.getD ik 0) (S.gvec gmax)[i])
        (eigh _ (gmeMatIj ijExact ((S.layers.map GmeLay.pos).zip eff) einv basis + 1)) x x'

/-- **C128 (opposite wave vectors).** Losses at a wave vector and at its opposite, whatever the pattern: the runs fail with the
same error or store the same frequencies, and opposite channels are open. A mode whose eigenvalue no other mode has, with no
channel on a light line or at normal incidence, has the same losses at both; so has the power which it radiates with each
polarisation through both claddings together into opposite plane waves. For eigenvalues of several modes the sums of these
powers are the same. The proof is that reversed radiative waves are combinations of radiative waves, by coefficients that
conserve the energy. -/
theorem C128_reversal (argsort : List ℝ → List ℕ) (hs : ∀ l, IsArgsort l (argsort l))
    (eigh : ∀ n, Matrix (Fin n) (Fin n) ℂ → Fin n → ℝ) (vecs : ∀ n, Matrix (Fin n) (Fin n) ℂ → Matrix (Fin n) (Fin n) ℂ)
    (he : SortedEigh eigh) (hp : EighPair eigh vecs) (guided : GuidedSolver) (S : GmeStruct)
    (hdet : S.b1.1 * S.b2.2 - S.b1.2 * S.b2.1 ≠ 0) (gmax : ℝ) (onlyG : Bool) (opt : String)
    (hr : ∀ l ∈ S.layers, ∀ s ∈ l.shapes, RealShape s) (e0 eN : ℝ) (ls : List (ℝ × ℝ)) (hne : ls ≠ []) (h0 : 0 < e0)
    (hN : 0 < eN) (hl : ∀ l ∈ ls, l.1 ≠ 0) (hclad : cladAvgs S = (e0, eN))
    (hst : ∀ eff, S.layers.mapM (GmeLay.eff opt) = .ok eff →
      (S.layers.map GmeLay.pos).zip eff = slabStack e0 eN ls) (ks : List R2) (dgx : ℝ)
    (hg : ∀ (ik : ℕ) (h : ik < ks.length),
      (∃ e, guided (slabStack e0 eN ls) (S.gvec gmax) ks ik = .error e ∧
        guided (slabStack e0 eN ls) (S.gvec gmax) (ks.map (oppositeK dgx)) ik = .error e) ∨
      ∃ b b', guided (slabStack e0 eN ls) (S.gvec gmax) ks ik = .ok b ∧
        guided (slabStack e0 eN ls) (S.gvec gmax) (ks.map (oppositeK dgx)) ik = .ok b' ∧
        SlabGuided e0 eN ls (S.gvec gmax) (ks[ik] + (dgx, 0)) b ∧
        SlabGuided e0 eN ls (S.gvec gmax) (oppositeK dgx ks[ik] + (dgx, 0)) b' ∧
        OppositeModes (S.gvec gmax) b b') (sigma : ℝ) (numeig : ℕ) :
    ∃ ν : Equiv.Perm (Fin (S.gvec gmax).length), (∀ i, (S.gvec gmax)[ν i] = -(S.gvec gmax)[i]) ∧
    SameOutcome (ReversedRun S gmax ν e0 eN ls dgx eigh guided onlyG opt ks)
      (radSimIj ijExact dgx argsort eigh vecs guided S gmax onlyG opt ks sigma numeig)
      (radSimIj ijExact dgx argsort eigh vecs guided S gmax onlyG opt (ks.map (oppositeK dgx)) sigma numeig) := by
  obtain ⟨ν, -, hν⟩ := neg_perm S gmax
  refine ⟨ν, hν, ?_⟩
  have hnd : (S.gvec gmax).Nodup := (C18_sound S.b1 S.b2 gmax).1 hdet
  unfold radSimIj
  cases heff0 : S.layers.mapM (GmeLay.eff opt) with
  | error e => exact Or.inl ⟨e, rfl, rfl⟩
  | ok eff =>
    simp only [bind, Except.bind]
    cases hEs : S.layers.mapM (S.epsInv gmax onlyG) with
    | error e => exact Or.inl ⟨e, rfl, rfl⟩
    | ok Es =>
      simp only
      rw [List.length_map, hclad]
      unfold ReversedRun
      refine mapM_range_same (n := ks.length)
        (R := fun ik x x' => ∃ eff einv basis, S.layers.mapM (GmeLay.eff opt) = .ok eff ∧
          S.layers.mapM (S.epsInv gmax onlyG) = .ok einv ∧
          guided ((S.layers.map GmeLay.pos).zip eff) (S.gvec gmax) ks ik = .ok basis ∧
          ReversedModes ν e0 eN ls (fun i => radPlane dgx (ks.getD ik 0) (S.gvec gmax)[i])
            (eigh _ (gmeMatIj ijExact ((S.layers.map GmeLay.pos).zip eff) einv basis + 1)) x x') ?_
      intro ik hik
      have hkd : (ks.map (oppositeK dgx)).getD ik 0 = oppositeK dgx (ks.getD ik 0) := by
        rw [getD_of_len (by simpa using hik), List.getElem_map, getD_of_len hik]
      have hplane : ∀ i, radPlane dgx ((ks.map (oppositeK dgx)).getD ik 0) (S.gvec gmax)[ν i] =
          -radPlane dgx (ks.getD ik 0) (S.gvec gmax)[i] := by
        intro i
        rw [hkd, hν]
        unfold radPlane oppositeK
        ext
        · simp; ring
        · simp; ring
      rcases hg ik hik with ⟨e, h1, h2⟩ | ⟨b, b', h1, h2, h3, h4, h5⟩
      · rw [hst eff heff0, h1, h2]
        exact Or.inl ⟨e, rfl, rfl⟩
      · have hst' := hst eff heff0
        rw [hst', h1, h2]
        simp only
        obtain ⟨ν', σ, hν', hH, hq, a1, a2⟩ := gme_opposite S hdet gmax onlyG hr e0 eN ls Es hEs _ _ (by
          unfold oppositeK
          ext
          · simp; ring
          · simp) b b' h3 h4 h5
        have hνν : ν' = ν := by
          refine Equiv.ext fun i => ?_
          have h1 : (S.gvec gmax)[ν' i] = (S.gvec gmax)[ν i] := (hν' i).trans (hν i).symm
          exact Fin.ext ((List.Nodup.getElem_inj_iff hnd).1 h1)
        subst hνν
        have hcp := gme_reversed S hdet gmax onlyG hr e0 eN ls hne h0.ne' hN.ne' hl Es hEs _ _ (by
          unfold oppositeK
          ext
          · simp; ring
          · simp) b b' h3 h4 h5
        have hent := gme_conj_entry (slabStack e0 eN ls) Es Es hH hH ν' hq b b' h3.sorted h4.sorted
          (slabGuided_real hne h0.ne' hN.ne' hl h3) σ a1 (fun i j einv => by rw [a2, a2, gmeElem_neg])
        rcases radAt_reversed ν' argsort hs e0 eN ls hne h0 hN hl Es Es hq b b' (slabGuided_real hne h0.ne' hN.ne' hl h3) σ a1
          a2 (fun i => radPlane dgx (ks.getD ik 0) (S.gvec gmax)[i])
          (fun i => radPlane dgx ((ks.map (oppositeK dgx)).getD ik 0) (S.gvec gmax)[i]) hplane
          (hp _ _ (gmeIj_hermitian ijExact (slabStack e0 eN ls) Es b))
          (hp _ _ (gmeIj_hermitian ijExact (slabStack e0 eN ls) Es b'))
          (sortedEigh_eq he _ _ (gmeIj_hermitian _ _ _ _) (gmeIj_hermitian _ _ _ _) hcp)
          (fun i j => by
            rw [Matrix.add_apply, Matrix.add_apply, hent, map_add]
            congr 1
            by_cases hij : i = j
            · subst hij
              rw [one_apply_eq, one_apply_eq, map_one]
            · rw [one_apply_ne hij, one_apply_ne fun h => hij (σ.injective h), map_zero]) sigma numeig with
          h | ⟨x, x', q1, q2, q3⟩
        · exact Or.inl h
        · refine Or.inr ⟨x, x', q1, q2, eff, Es, b, heff0, hEs, ?_, ?_⟩
          · rw [hst']; exact h1
          · rw [hst']; exact q3

/-- **C128 (branches).** With guided modes from branches `omega(|g|)` of roots of the dispersion relation. -/
theorem C128_branches (argsort : List ℝ → List ℕ) (hs : ∀ l, IsArgsort l (argsort l))
    (eigh : ∀ n, Matrix (Fin n) (Fin n) ℂ → Fin n → ℝ) (vecs : ∀ n, Matrix (Fin n) (Fin n) ℂ → Matrix (Fin n) (Fin n) ℂ)
    (he : SortedEigh eigh) (hp : EighPair eigh vecs) (S : GmeStruct)
    (hdet : S.b1.1 * S.b2.2 - S.b1.2 * S.b2.1 ≠ 0) (gmax : ℝ) (onlyG : Bool) (opt : String)
    (hr : ∀ l ∈ S.layers, ∀ s ∈ l.shapes, RealShape s) (e0 eN : ℝ) (ls : List (ℝ × ℝ)) (hne : ls ≠ []) (h0 : 0 < e0)
    (hN : 0 < eN) (hl : ∀ l ∈ ls, l.1 ≠ 0) (hclad : cladAvgs S = (e0, eN))
    (hst : ∀ eff, S.layers.mapM (GmeLay.eff opt) = .ok eff →
      (S.layers.map GmeLay.pos).zip eff = slabStack e0 eN ls)
    (br : List (Pol × (ℝ → Option ℝ))) (hbr : RootBranches br e0 eN ls) (ks : List R2) (dgx : ℝ) (sigma : ℝ) (numeig : ℕ) :
    ∃ ν : Equiv.Perm (Fin (S.gvec gmax).length), (∀ i, (S.gvec gmax)[ν i] = -(S.gvec gmax)[i]) ∧
    SameOutcome (ReversedRun S gmax ν e0 eN ls dgx eigh (branchGuided br dgx e0 eN ls) onlyG opt ks)
      (radSimIj ijExact dgx argsort eigh vecs (branchGuided br dgx e0 eN ls) S gmax onlyG opt ks sigma numeig)
      (radSimIj ijExact dgx argsort eigh vecs (branchGuided br dgx e0 eN ls) S gmax onlyG opt (ks.map (oppositeK dgx)) sigma
        numeig) := by
  refine C128_reversal argsort hs eigh vecs he hp _ S hdet gmax onlyG opt hr e0 eN ls hne h0 hN hl hclad hst ks dgx
    (fun ik hik => Or.inr ?_) sigma numeig
  refine ⟨_, _, rfl, rfl, ?_, ?_, branch_opposite br dgx e0 eN ls (slabStack e0 eN ls) S gmax ks ik hik _ _ rfl rfl⟩
  · rw [← getD_of_len (d := 0) hik]
    exact branch_basis hbr dgx (slabStack e0 eN ls) (S.gvec gmax) ks ik _ rfl
  · have hk : oppositeK dgx ks[ik] = (ks.map (oppositeK dgx)).getD ik 0 := by
      rw [getD_of_len (by simpa using hik), List.getElem_map]
    rw [hk]
    exact branch_basis hbr dgx (slabStack e0 eN ls) (S.gvec gmax) (ks.map (oppositeK dgx)) ik _ rfl

/-- **C128 (code).** With the guided modes that the code finds. -/
theorem C128_run (argsort : List ℝ → List ℕ) (hs : ∀ l, IsArgsort l (argsort l))
    (eigh : ∀ n, Matrix (Fin n) (Fin n) ℂ → Fin n → ℝ) (vecs : ∀ n, Matrix (Fin n) (Fin n) ℂ → Matrix (Fin n) (Fin n) ℂ)
    (he : SortedEigh eigh) (hp : EighPair eigh vecs) (fs : Finder) (o : GuidedOpts) (S : GmeStruct)
    (hdet : S.b1.1 * S.b2.2 - S.b1.2 * S.b2.1 ≠ 0) (gmax : ℝ) (onlyG : Bool) (opt : String)
    (hr : ∀ l ∈ S.layers, ∀ s ∈ l.shapes, RealShape s) (e0 eN : ℝ) (ls : List (ℝ × ℝ)) (hne : ls ≠ []) (h0 : 0 < e0)
    (hN : 0 < eN) (hl : ∀ l ∈ ls, 0 < l.1) (hclad : cladAvgs S = (e0, eN)) (hfs : RootFinder fs e0 eN ls) (ho : ExactOpts o)
    (hst : ∀ eff, S.layers.mapM (GmeLay.eff opt) = .ok eff →
      (S.layers.map GmeLay.pos).zip eff = slabStack e0 eN ls) (ks : List R2)
    (hsep : ∀ k ∈ ks, SeparateWaves fs o e0 eN ls (waveLengths o (S.gvec gmax) k)) (sigma : ℝ) (numeig : ℕ) :
    ∃ ν : Equiv.Perm (Fin (S.gvec gmax).length), (∀ i, (S.gvec gmax)[ν i] = -(S.gvec gmax)[i]) ∧
    SameOutcome (ReversedRun S gmax ν e0 eN ls o.deltaGx eigh (codeGuided normExact fs o) onlyG opt ks)
      (radSimIj ijExact o.deltaGx argsort eigh vecs (codeGuided normExact fs o) S gmax onlyG opt ks sigma numeig)
      (radSimIj ijExact o.deltaGx argsort eigh vecs (codeGuided normExact fs o) S gmax onlyG opt
        (ks.map (oppositeK o.deltaGx)) sigma numeig) :=
  C128_reversal argsort hs eigh vecs he hp _ S hdet gmax onlyG opt hr e0 eN ls hne h0 hN (fun l h => (hl l h).ne') hclad hst
    ks o.deltaGx (code_opposite fs o S gmax e0 eN ls hne h0 hN hl hfs ho ks hsep) sigma numeig

/-- **C128 (waves).** At a plane wave off the light lines of all layers, let `t false` and `t true` be the waves that leave the
stack through the lower and the upper cladding. The overlap of any state with the complex conjugate of one of them is a
combination of the overlaps with both, and for all overlaps the combined ones give the same loss. -/
theorem C128_waves (pol : Pol) (om e0 eN : ℝ) (ls : List (ℝ × ℝ)) (p : R2) (h0 : 0 < e0) (hN : 0 < eN)
    (hl : ∀ l ∈ ls, l.1 ≠ 0) (hoff : ∀ e ∈ slabEps e0 eN ls, e * om ^ 2 ≠ planeAbs p ^ 2) (hp : 1e-10 ≤ planeAbs p)
    (t : Bool → GmeState)
    (ht : ∀ u, planeAbs p ^ 2 ≤ (if u then eN else e0) * om ^ 2 → RadWave pol u om e0 eN ls p (t u)) :
    ∃ S : Bool → Bool → ℂ,
      (∀ u, planeAbs p ^ 2 ≤ (if u then eN else e0) * om ^ 2 → ∀ ij stack einv s,
        gmeElem ij stack einv s (t u).conjField = ∑ b, S u b * gmeElem ij stack einv s (t b)) ∧
      ∀ z : Bool → ℂ, ∑ u, chanRho (if u then eN else e0) om (planeAbs p) * Complex.normSq (∑ b, S u b * z b) =
        ∑ u, chanRho (if u then eN else e0) om (planeAbs p) * Complex.normSq (z u) :=
  wave_reversal pol om e0 eN ls p h0 hN hl hoff hp t ht

/-! ### Examples -/

/-- Both claddings of a slab open, with different permittivities. -/
example (pol : Pol) : ∃ t : Bool → GmeState, (∀ u, RadWave pol u 2 3 2 [(5, 1)] (1, 0) (t u)) ∧
    (∀ e ∈ slabEps 3 2 [(5, 1)], e * (2 : ℝ) ^ 2 ≠ planeAbs (1, 0) ^ 2) ∧ 1e-10 ≤ planeAbs (1, 0) ∧
    ∀ u : Bool, planeAbs (1, 0) ^ 2 ≤ (if u then 2 else 3) * (2 : ℝ) ^ 2 := by
  have hp : planeAbs (1, 0) = 1 := by simp [planeAbs]
  have hm : max (planeAbs (1, 0)) 1e-10 = 1 := by rw [hp]; norm_num
  have ho : ∀ u, OpenWave u 2 3 2 [(5, 1)] (1, 0) := by
    intro u
    refine ⟨?_, ?_⟩
    · rw [hm]; simp [slabEps]; norm_num
    · rw [hm]; cases u <;> norm_num
  have := fun u => C119_wave pol u 2 3 2 [(5, 1)] (by simp) (by norm_num) (by norm_num) (by simp) (1, 0) (ho u)
  choose t h1 h2 using this
  refine ⟨t, h2, ?_, ?_, ?_⟩
  · rw [hp]; simp [slabEps]; norm_num
  · rw [hp]; norm_num
  · intro u; rw [hp]; cases u <;> norm_num

/-- An open and a closed channel. -/
example : RegularChannels 1 3 1 [(5, 7 * Real.pi / 12)] ![((3 / 2, 0) : R2), (2, 0)] := by
  have h1 : planeAbs (3 / 2, 0) = 3 / 2 := by
    rw [planeAbs, show ((3 / 2 : ℝ)) ^ 2 + 0 ^ 2 = (3 / 2) ^ 2 by ring]
    exact Real.sqrt_sq (by norm_num)
  have h2 : planeAbs (2, 0) = 2 := by
    rw [planeAbs, show ((2 : ℝ)) ^ 2 + 0 ^ 2 = 2 ^ 2 by ring]
    exact Real.sqrt_sq (by norm_num)
  intro u j hj
  fin_cases j
  · simp only [Fin.zero_eta, cons_val_zero, h1] at hj ⊢
    refine ⟨by norm_num, ?_⟩
    simp [slabEps]; norm_num
  · exfalso
    simp only [Fin.mk_one, cons_val_one, cons_val_zero, h2] at hj
    cases u <;> norm_num at hj

/-- The asymmetric slab with a hole off the centre of the cell, at any wave vectors. -/
example (argsort : List ℝ → List ℕ) (hs : ∀ l, IsArgsort l (argsort l)) (gmax : ℝ) (ks : List R2) (numeig : ℕ) :
    ∃ eigh vecs, SortedEigh eigh ∧ EighPair eigh vecs ∧
      ∃ ν : Equiv.Perm (Fin ((asymStruct 0.3).gvec gmax).length),
      SameOutcome (ReversedRun (asymStruct 0.3) gmax ν 3 1 [(5, 7 * Real.pi / 12)] 1e-15 eigh
          (branchGuided asymBranch 1e-15 3 1 [(5, 7 * Real.pi / 12)]) false "background" ks)
        (radSimIj ijExact 1e-15 argsort eigh vecs (branchGuided asymBranch 1e-15 3 1 [(5, 7 * Real.pi / 12)]) (asymStruct 0.3)
          gmax false "background" ks 0 numeig)
        (radSimIj ijExact 1e-15 argsort eigh vecs (branchGuided asymBranch 1e-15 3 1 [(5, 7 * Real.pi / 12)]) (asymStruct 0.3)
          gmax false "background" (ks.map (oppositeK 1e-15)) 0 numeig) := by
  obtain ⟨eigh, vecs, he, hp⟩ := sortedPair_exists
  obtain ⟨ν, -, h⟩ := C128_branches argsort hs eigh vecs he hp (asymStruct 0.3) (by norm_num [asymStruct]) gmax false
    "background" (asym_real _) 3 1 [(5, 7 * Real.pi / 12)] (by simp) (by norm_num) one_pos (by simp) rfl (asym_stack _)
    asymBranch asym_roots ks 1e-15 0 numeig
  exact ⟨eigh, vecs, he, hp, ν, h⟩

end Legume
