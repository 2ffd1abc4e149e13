import Verif.Lemmas.RadMove
import Verif.Props.IsoRun

/-!
# Losses of rotated, mirrored and symmetric structures (C127)
-/
namespace Legume

open Spec Matrix
open scoped ComplexConjugate

/-- Results of two runs, the first of the structure `S` at the wave vectors `ks`, whose plane waves correspond by `ν`. -/
def MovedRun {N N' : ℕ} (ν : Fin N ≃ Fin N') (ij : LPos → ℂ → ℂ) (eigh : ∀ n, Matrix (Fin n) (Fin n) ℂ → Fin n → ℝ)
    (guided : GuidedSolver) (S : GmeStruct) (gmax : ℝ) (onlyG : Bool) (opt : String) (ks : List R2)
    (r r' : List (KRes × List RadRes)) : Prop :=
  r.length = ks.length ∧ r'.length = ks.length ∧ ∀ (ik : ℕ) (x x' : KRes × List RadRes), r[ik]? = some x →
    r'[ik]? = some x' → ∃ eff einv basis, S.layers.mapM (GmeLay.eff opt) = .ok eff ∧
      S.layers.mapM (S.epsInv gmax onlyG) = .ok einv ∧
      guided ((S.layers.map GmeLay.pos).zip eff) (S.gvec gmax) ks ik = .ok basis ∧
      MovedModes ν (eigh _ (gmeMatIj ij ((S.layers.map GmeLay.pos).zip eff) einv basis + 1)) x x'

theorem gmeIj_hermitian (ij : LPos → ℂ → ℂ) {N : ℕ} (stack : List (LPos × ℝ)) (Es : List (Matrix (Fin N) (Fin N) ℂ))
    (b : List (BasisEl N)) : (gmeMatIj ij stack Es b + 1).IsHermitian :=
  (gmeMatIj_hermitian _ _ _ _).add isHermitian_one

theorem isoSign_unit {D : ℝ} (hD : D * D = 1) (s : GmeState) :
    ((isoSign D s : ℝ) : ℂ) * conj ((isoSign D s : ℝ) : ℂ) = 1 := by
  rw [Complex.conj_ofReal]
  exact_mod_cast isoSign_sq hD s

theorem StructImage.clads {q : R2 → R2} {S S' : GmeStruct} (h : StructImage q S S') : cladAvgs S' = cladAvgs S := by
  have havg : S'.layers.map GmeLay.epsAvg = S.layers.map GmeLay.epsAvg := by
    have := h.layers
    generalize S.layers = ls at this
    generalize S'.layers = ls' at this
    induction this with
    | nil => rfl
    | cons h1 _ ih => rw [List.map_cons, List.map_cons, h1.epsAvg, ih]
  unfold cladAvgs
  rw [← List.head?_map, ← List.getLast?_map, ← List.head?_map, ← List.getLast?_map, havg]

/-- Matrix and couplings at one wave vector in the mapped basis. -/
theorem radAt_image (ij : LPos → ℂ → ℂ) (argsort : List ℝ → List ℕ) (hs : ∀ l, IsArgsort l (argsort l))
    (eigh : ∀ n, Matrix (Fin n) (Fin n) ℂ → Fin n → ℝ) (vecs : ∀ n, Matrix (Fin n) (Fin n) ℂ → Matrix (Fin n) (Fin n) ℂ) (he : SortedEigh eigh) (hp : EighPair eigh vecs)
    {q : R2 → R2} (hq : Similarity 1 q) {N N' : ℕ} (hN : N' = N) (stack : List (LPos × ℝ))
    (Es : List (Matrix (Fin N) (Fin N) ℂ)) (Es' : List (Matrix (Fin N') (Fin N') ℂ))
    (hE : List.Forall₂ (fun E E' => ∀ i j, E' i j = E (Fin.cast hN i) (Fin.cast hN j)) Es Es') (b : List (BasisEl N))
    (planes : Fin N → R2) (planes' : Fin N' → R2) (hpl : ∀ j, planes' j = q (planes (Fin.cast hN j))) (clads : ℝ × ℝ)
    (sigma : ℝ) (numeig : ℕ) :
    SameOutcome (MovedModes (finCongr hN.symm) (eigh _ (gmeMatIj ij stack Es b + 1)))
      (radAt ij argsort stack Es b planes clads (eigh _ (gmeMatIj ij stack Es b + 1)) (vecs _ (gmeMatIj ij stack Es b + 1))
        sigma numeig)
      (radAt ij argsort stack Es' (b.map (BasisEl.image hN q)) planes' clads
        (eigh _ (gmeMatIj ij stack Es' (b.map (BasisEl.image hN q)) + 1))
        (vecs _ (gmeMatIj ij stack Es' (b.map (BasisEl.image hN q)) + 1)) sigma numeig) := by
  have hcp := gmeMatIj_image hN hq ij stack Es Es' hE b
  subst hN
  obtain ⟨D, hD, hc⟩ := hq.cross
  have hEs : Es = Es' := by
    have hx : List.Forall₂ (· = ·) Es Es' := hE.imp fun E E' he => Matrix.ext fun i j => (he i j).symm
    rwa [List.forall₂_eq_eq_eq] at hx
  subst hEs
  have hlen : (b.map (BasisEl.image rfl q)).length = b.length := List.length_map _
  refine radAt_moved ij ij (finCongr rfl) argsort hs stack stack Es Es b _ planes planes' (fun j => ?_) clads (finCongr hlen)
    (hp _ _ (gmeIj_hermitian _ _ _ _)) (hp _ _ (gmeIj_hermitian _ _ _ _))
    (sortedEigh_eq he _ _ (gmeIj_hermitian _ _ _ _) (gmeIj_hermitian _ _ _ _) hcp)
    (fun i => ((isoSign D b[finCongr hlen i].st : ℝ) : ℂ)) (fun i => isoSign_unit hD _) ?_ ?_ sigma numeig
  · rw [hpl]
    exact planeAbs_image hq _
  · intro i j
    have := gmeMatIj_image_entry hq hD hc ij stack Es b hlen (finCongr hlen i) (finCongr hlen j)
    rw [Matrix.add_apply, Matrix.add_apply]
    have e1 : gmeMatIj ij stack Es (b.map (BasisEl.image rfl q)) i j = _ := this
    rw [e1]
    by_cases hij : i = j
    · subst hij
      rw [one_apply_eq, one_apply_eq]
      linear_combination -(isoSign_unit hD b[finCongr hlen i].st)
    · rw [one_apply_ne hij, one_apply_ne fun h => hij ((finCongr hlen).injective h)]
      simp
  · intro omr pol u j
    refine radElem_iso hq hD hc ij (finCongr rfl) stack Es Es ?_ b _ (finCongr hlen) (fun i => ?_) planes planes'
      (fun j => hpl _) omr pol u j
    · exact List.forall₂_same.2 fun E _ i j => rfl
    · simp only [Fin.getElem_fin, List.getElem_map]
      exact ⟨rfl, rfl⟩

/-- **C127 (orientation).** Rotating or mirroring a structure, with the wave vectors: the run with losses fails with the same
error, or stores the same frequencies, the same channels are open, and every mode whose eigenvalue no other mode at that wave
vector has keeps its losses and the absolute values of its couplings to every channel. For eigenvalues of several modes the
sums of their squared couplings are the same in each cladding and polarisation. -/
theorem C127_image (ij : LPos → ℂ → ℂ) (argsort : List ℝ → List ℕ) (hs : ∀ l, IsArgsort l (argsort l))
    (eigh : ∀ n, Matrix (Fin n) (Fin n) ℂ → Fin n → ℝ) (vecs : ∀ n, Matrix (Fin n) (Fin n) ℂ → Matrix (Fin n) (Fin n) ℂ) (he : SortedEigh eigh) (hp : EighPair eigh vecs)
    (norm : NormFn) (fs : Finder) (o : GuidedOpts) (q : R2 → R2) (hq : Similarity 1 q)
    (S S' : GmeStruct) (hS : Resolved S.b1 S.b2) (hS' : Resolved S'.b1 S'.b2) (h : StructImage q S S') (gmax : ℝ)
    (onlyG : Bool) (opt : String) (ks ks' : List R2) (hk : WaveImage q o ks ks') (sigma : ℝ) (numeig : ℕ) :
    ∃ hN : (S'.gvec gmax).length = (S.gvec gmax).length,
    SameOutcome (MovedRun (finCongr hN.symm) ij eigh (codeGuided norm fs o) S gmax onlyG opt ks)
      (radSimIj ij o.deltaGx argsort eigh vecs (codeGuided norm fs o) S gmax onlyG opt ks sigma numeig)
      (radSimIj ij o.deltaGx argsort eigh vecs (codeGuided norm fs o) S' gmax onlyG opt ks' sigma numeig) := by
  have hg := h.gvec hq gmax
  have hN : (S'.gvec gmax).length = (S.gvec gmax).length := by rw [hg, List.length_map]
  refine ⟨hN, ?_⟩
  have hpos : S'.layers.map GmeLay.pos = S.layers.map GmeLay.pos := by
    have := h.layers
    generalize S.layers = ls at this
    generalize S'.layers = ls' at this
    induction this with
    | nil => rfl
    | cons h1 _ ih => rw [List.map_cons, List.map_cons, h1.pos, ih]
  have heff : S'.layers.mapM (GmeLay.eff opt) = S.layers.mapM (GmeLay.eff opt) :=
    (mapM_forall2 _ _ (fun l l' h => by unfold GmeLay.eff; rw [h.epsB, h.epsAvg, h.epsEff]) h.layers).symm
  unfold radSimIj
  rw [heff, hpos, h.clads]
  cases heff0 : S.layers.mapM (GmeLay.eff opt) with
  | error e => exact Or.inl ⟨e, rfl, rfl⟩
  | ok eff =>
    simp only [bind, Except.bind]
    rcases mapM_rel (S.epsInv gmax onlyG) (S'.epsInv gmax onlyG)
      (epsInv_image hq h hS hS' gmax onlyG hN) h.layers with ⟨e, h1, h2⟩ | ⟨Es, Es', h1, h2, hE⟩
    · rw [h1, h2]
      exact Or.inl ⟨e, rfl, rfl⟩
    · rw [h1, h2]
      simp only
      rw [← hk.each.length_eq]
      unfold MovedRun
      refine mapM_range_same (n := ks.length)
        (R := fun ik x x' => ∃ eff einv basis, S.layers.mapM (GmeLay.eff opt) = .ok eff ∧
          S.layers.mapM (S.epsInv gmax onlyG) = .ok einv ∧
          codeGuided norm fs o ((S.layers.map GmeLay.pos).zip eff) (S.gvec gmax) ks ik = .ok basis ∧
          MovedModes (finCongr hN.symm) (eigh _ (gmeMatIj ij ((S.layers.map GmeLay.pos).zip eff) einv basis + 1)) x x') ?_
      intro ik hik
      have hk' := hk.getD hik
      have hplane : ∀ i, radPlane o.deltaGx (ks'.getD ik 0) (S'.gvec gmax)[i] =
          q (radPlane o.deltaGx (ks.getD ik 0) (S.gvec gmax)[Fin.cast hN i]) := by
        intro i
        have e : (S'.gvec gmax)[i] = q (S.gvec gmax)[Fin.cast hN i] := by
          simp only [Fin.getElem_fin, hg, List.getElem_map, Fin.val_cast]
        rw [e, radPlane_image hq hk']
      have hb : codeGuided norm fs o ((S.layers.map GmeLay.pos).zip eff) (S'.gvec gmax) ks' ik =
          (codeGuided norm fs o ((S.layers.map GmeLay.pos).zip eff) (S.gvec gmax) ks ik).map
            (List.map (BasisEl.image hN q)) := by
        unfold codeGuided
        rw [guidedGrid_image hq o (List.Perm.of_eq hg) hk' hk.map]
        exact basisOf_image hN hq norm fs o _ _ _ _ hplane
      rw [hb]
      cases hb0 : codeGuided norm fs o ((S.layers.map GmeLay.pos).zip eff) (S.gvec gmax) ks ik with
      | error e => exact Or.inl ⟨e, rfl, rfl⟩
      | ok basis =>
        simp only [Except.map]
        rcases radAt_image ij argsort hs eigh vecs he hp hq hN _ Es Es' hE basis
          (fun i => radPlane o.deltaGx (ks.getD ik 0) (S.gvec gmax)[i])
          (fun i => radPlane o.deltaGx (ks'.getD ik 0) (S'.gvec gmax)[i]) hplane (cladAvgs S) sigma numeig with
          h | ⟨x, x', h3, h4, h5⟩
        · exact Or.inl h
        · exact Or.inr ⟨x, x', h3, h4, eff, Es, basis, heff0, h1, hb0, h5⟩

/-- **C127 (symmetric crystals).** If a rotation or mirror maps the plane waves of the set onto themselves and every shape of
every layer onto a shape of the same layer, the run with losses at the mapped wave vectors fails with the same error as that
at the original ones or stores the same frequencies; the open channels are mapped by the symmetry, and every mode whose
eigenvalue no other mode has keeps its losses and the absolute values of its couplings; for eigenvalues of several modes the
sums of their squared couplings are the same. Exact integrals over the layers. -/
theorem C127_symmetric (argsort : List ℝ → List ℕ) (hs : ∀ l, IsArgsort l (argsort l))
    (eigh : ∀ n, Matrix (Fin n) (Fin n) ℂ → Fin n → ℝ) (vecs : ∀ n, Matrix (Fin n) (Fin n) ℂ → Matrix (Fin n) (Fin n) ℂ) (he : SortedEigh eigh) (hp : EighPair eigh vecs)
    (norm : NormFn) (fs : Finder) (o : GuidedOpts) (q : R2 → R2) (hq : Similarity 1 q)
    (S : GmeStruct) (gmax : ℝ) (hS : SymCrystal q gmax S) (onlyG : Bool) (opt : String) (ks ks' : List R2)
    (hk : WaveImage q o ks ks') (sigma : ℝ) (numeig : ℕ) :
    ∃ ν : Equiv.Perm (Fin (S.gvec gmax).length), (∀ i, (S.gvec gmax)[ν i] = q (S.gvec gmax)[i]) ∧
    SameOutcome (MovedRun ν ijExact eigh (codeGuided norm fs o) S gmax onlyG opt ks)
      (radSimIj ijExact o.deltaGx argsort eigh vecs (codeGuided norm fs o) S gmax onlyG opt ks sigma numeig)
      (radSimIj ijExact o.deltaGx argsort eigh vecs (codeGuided norm fs o) S gmax onlyG opt ks' sigma numeig) := by
  obtain ⟨ν, hν⟩ := iso_perm _ hq hS.waves (spread_nodup hS.spread)
  refine ⟨ν, hν, ?_⟩
  obtain ⟨D, hD, hc⟩ := hq.cross
  have hg : (S.gvec gmax).Perm ((S.gvec gmax).map q) := by
    have hn := spread_nodup hS.spread
    refine (List.perm_ext_iff_of_nodup hn (hn.map fun a b e => hq.inj e)).2 fun g => ?_
    constructor
    · intro hgm
      obtain ⟨i, hi, rfl⟩ := List.getElem_of_mem hgm
      refine List.mem_map.2 ⟨(S.gvec gmax)[ν.symm ⟨i, hi⟩], List.getElem_mem _, ?_⟩
      rw [← hν]
      simp
    · intro hgm
      obtain ⟨x, hx, rfl⟩ := List.mem_map.1 hgm
      exact hS.waves x hx
  unfold radSimIj
  cases heff0 : S.layers.mapM (GmeLay.eff opt) with
  | error e => exact Or.inl ⟨e, rfl, rfl⟩
  | ok eff =>
    simp only [bind, Except.bind]
    cases hEs : S.layers.mapM (S.epsInv gmax onlyG) with
    | error e => exact Or.inl ⟨e, rfl, rfl⟩
    | ok Es =>
      simp only
      rw [← hk.each.length_eq]
      unfold MovedRun
      refine mapM_range_same (n := ks.length)
        (R := fun ik x x' => ∃ eff einv basis, S.layers.mapM (GmeLay.eff opt) = .ok eff ∧
          S.layers.mapM (S.epsInv gmax onlyG) = .ok einv ∧
          codeGuided norm fs o ((S.layers.map GmeLay.pos).zip eff) (S.gvec gmax) ks ik = .ok basis ∧
          MovedModes ν (eigh _ (gmeMatIj ijExact ((S.layers.map GmeLay.pos).zip eff) einv basis + 1)) x x') ?_
      intro ik hik
      have hk' := hk.getD hik
      have hplane : ∀ i, radPlane o.deltaGx (ks'.getD ik 0) (S.gvec gmax)[ν i] =
          q (radPlane o.deltaGx (ks.getD ik 0) (S.gvec gmax)[i]) := fun i => by rw [hν, radPlane_image hq hk']
      have hEsym : ∀ E ∈ Es, ∀ i j, E (ν i) (ν j) = E i j := by
        intro E hE' i j
        obtain ⟨l, hl, h'⟩ := forall2_mem_right (mapM_ok_forall hEs) E hE'
        exact epsInv_iso hq hS onlyG l hl ν hν E h' i j
      have hEH : ∀ E ∈ Es, E.IsHermitian := by
        intro E hE'
        obtain ⟨l, hl, h'⟩ := forall2_mem_right (mapM_ok_forall hEs) E hE'
        exact epsInv_hermitian S gmax onlyG l (hS.real l hl) E h'
      unfold codeGuided
      rw [guidedGrid_image hq o hg hk' hk.map]
      rcases basisOf_move ν hq norm fs o ((S.layers.map GmeLay.pos).zip eff)
        (guidedGrid o (S.gvec gmax) ks (ks.getD ik 0)) (fun i => radPlane o.deltaGx (ks.getD ik 0) (S.gvec gmax)[i])
        (fun i => radPlane o.deltaGx (ks'.getD ik 0) (S.gvec gmax)[i]) hplane with ⟨e, h1, h2⟩ | ⟨b, b', h1, h2, hpm⟩
      · rw [h1, h2]
        exact Or.inl ⟨e, rfl, rfl⟩
      · rw [h1, h2]
        simp only
        have hcp := gmeMatIj_move ν hq ((S.layers.map GmeLay.pos).zip eff) Es hEH hEsym b b' (basisOf_sorted h1)
          (basisOf_sorted h2) hpm
        obtain ⟨e, hel⟩ := basis_move ν q hpm
        have hent := gmeMatIj_move_entry ν hq hD hc ((S.layers.map GmeLay.pos).zip eff) Es hEH hEsym b b' (basisOf_sorted h1)
          (basisOf_sorted h2) e hel
        have hel2 : ∀ i, b'[i] = (b[e i]).move ν q := by
          intro i
          have := hel (e i)
          simpa only [Equiv.symm_apply_apply] using this
        have hsame := radAt_moved ijExact ijExact ν argsort hs ((S.layers.map GmeLay.pos).zip eff)
          ((S.layers.map GmeLay.pos).zip eff) Es Es b b'
          (fun i => radPlane o.deltaGx (ks.getD ik 0) (S.gvec gmax)[i])
          (fun i => radPlane o.deltaGx (ks'.getD ik 0) (S.gvec gmax)[i])
          (fun j => by simp only [hplane]; exact planeAbs_image hq _) (cladAvgs S) e
          (hp _ _ (gmeIj_hermitian ijExact ((S.layers.map GmeLay.pos).zip eff) Es b))
          (hp _ _ (gmeIj_hermitian ijExact ((S.layers.map GmeLay.pos).zip eff) Es b'))
          (sortedEigh_eq he _ _ (gmeIj_hermitian _ _ _ _) (gmeIj_hermitian _ _ _ _) hcp)
          (fun i => ((isoSign D b[e i].st : ℝ) : ℂ)) (fun i => isoSign_unit hD _) ?_ ?_ sigma numeig
        · rcases hsame with h | ⟨x, x', h3, h4, h5⟩
          · exact Or.inl h
          · exact Or.inr ⟨x, x', h3, h4, eff, Es, b, heff0, hEs, h1, h5⟩
        · intro i j
          have := hent (e i) (e j)
          rw [e.symm_apply_apply, e.symm_apply_apply] at this
          rw [Matrix.add_apply, Matrix.add_apply, this]
          by_cases hij : i = j
          · subst hij
            rw [one_apply_eq, one_apply_eq]
            linear_combination -(isoSign_unit hD b[e i].st)
          · rw [one_apply_ne hij, one_apply_ne fun h => hij (e.injective h)]
            simp
        · intro omr pol u j
          refine radElem_iso hq hD hc ijExact ν _ Es Es ?_ b b' e (fun i => ?_) _ _ hplane omr pol u j
          · exact List.forall₂_same.2 fun E hE' i j => hEsym E hE' i j
          · rw [hel2]
            exact ⟨rfl, rfl⟩

/-- The losses of the hexagonal crystal have the symmetry of the hexagon: at a wave vector turned by 60 degrees a mode whose
eigenvalue no other mode has keeps its loss. -/
example (J : ℝ → ℝ) (argsort : List ℝ → List ℕ) (hs : ∀ l, IsArgsort l (argsort l)) (L : Lattice)
    (h : Lattice.new (.name "hexagonal") = .ok L) (norm : NormFn) (fs : Finder) (ks : List R2) (numeig : ℕ) :
    ∃ eigh vecs, SortedEigh eigh ∧ EighPair eigh vecs ∧
      ∃ ν : Equiv.Perm (Fin ((flower J L).gvec 5).length),
      SameOutcome (MovedRun ν ijExact eigh (codeGuided norm fs ⟨[0, 1, 3], false, 0.01, 1e-8, 1000, 1e-15, 0⟩) (flower J L) 5
          false "average" ks)
        (radSimIj ijExact 0 argsort eigh vecs (codeGuided norm fs ⟨[0, 1, 3], false, 0.01, 1e-8, 1000, 1e-15, 0⟩) (flower J L)
          5 false "average" ks 0 numeig)
        (radSimIj ijExact 0 argsort eigh vecs (codeGuided norm fs ⟨[0, 1, 3], false, 0.01, 1e-8, 1000, 1e-15, 0⟩) (flower J L)
          5 false "average" (ks.map (turn (Real.pi / 3))) 0 numeig) := by
  obtain ⟨eigh, vecs, he, hp⟩ := sortedPair_exists
  obtain ⟨ν, -, h1⟩ := C127_symmetric argsort hs eigh vecs he hp norm fs
    ⟨[0, 1, 3], false, 0.01, 1e-8, 1000, 1e-15, 0⟩ _ (similarity_rotation _) _ 5
    (flower_crystal J L h 5 (by norm_num) (by norm_num)) false "average" ks (ks.map (turn (Real.pi / 3))) ⟨by
      rw [List.forall₂_map_right_iff, List.forall₂_same]
      intro k _
      have hz : ((0 : ℝ), (0 : ℝ)) = (0 : R2) := rfl
      simp only [hz, add_zero], Or.inr rfl⟩ 0 numeig
  exact ⟨eigh, vecs, he, hp, ν, h1⟩

/-- A slab with elliptical holes turned by 45 degrees, with the integrals and the normalisation of the code. -/
example (J : ℝ → ℝ) (argsort : List ℝ → List ℕ) (hs : ∀ l, IsArgsort l (argsort l)) (fs : Finder) (k : R2) :
    ∃ eigh vecs, SortedEigh eigh ∧ EighPair eigh vecs ∧
      ∃ hN : ((tiltedSlab J (Real.pi / 4)).gvec 3).length = ((tiltedSlab J 0).gvec 3).length,
      SameOutcome (MovedRun (finCongr hN.symm) ijLayer eigh
          (codeGuided normCode fs ⟨[0, 1], true, 0.01, 1e-8, 0, 1e-15, 1e-15⟩) (tiltedSlab J 0) 3 false "average" [k])
        (radSimIj ijLayer 1e-15 argsort eigh vecs (codeGuided normCode fs ⟨[0, 1], true, 0.01, 1e-8, 0, 1e-15, 1e-15⟩)
          (tiltedSlab J 0) 3 false "average" [k] 0 4)
        (radSimIj ijLayer 1e-15 argsort eigh vecs (codeGuided normCode fs ⟨[0, 1], true, 0.01, 1e-8, 0, 1e-15, 1e-15⟩)
          (tiltedSlab J (Real.pi / 4)) 3 false "average" [turn (Real.pi / 4) (k + (1e-15, 0)) - (1e-15, 0)] 0 4) := by
  obtain ⟨eigh, vecs, he, hp⟩ := sortedPair_exists
  exact ⟨eigh, vecs, he, hp, C127_image ijLayer argsort hs eigh vecs he hp normCode fs
    ⟨[0, 1], true, 0.01, 1e-8, 0, 1e-15, 1e-15⟩ _ (similarity_rotation (Real.pi / 4)) _ _ (tilted_resolved_slab J).1
    (tilted_resolved_slab J).2 (tilted_image J) 3 false "average" _ _ ⟨.cons (by simp) .nil, Or.inl rfl⟩ 0 4⟩

end Legume
