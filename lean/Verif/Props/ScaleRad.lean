import Verif.Lemmas.ScaleRad
import Verif.Props.RadIso
import Verif.Props.ScaleUnits

/-!
# Losses in other units (C129)
-/
namespace Legume

open Spec Matrix
open scoped ComplexConjugate

/-- Results of two runs, the first of the structure `S` at the wave vectors `ks`, and the second in units in which frequencies
are `k` times as large. -/
def ScaledRun (k : ℝ) (eigh : ∀ n, Matrix (Fin n) (Fin n) ℂ → Fin n → ℝ) (guided : GuidedSolver) (S : GmeStruct) (gmax : ℝ)
    (onlyG : Bool) (opt : String) (ks : List R2) (r r' : List (KRes × List RadRes)) : Prop :=
  r.length = ks.length ∧ r'.length = ks.length ∧ ∀ (ik : ℕ) (x x' : KRes × List RadRes), r[ik]? = some x →
    r'[ik]? = some x' → ∃ eff einv basis, S.layers.mapM (GmeLay.eff opt) = .ok eff ∧
      S.layers.mapM (S.epsInv gmax onlyG) = .ok einv ∧
      guided ((S.layers.map GmeLay.pos).zip eff) (S.gvec gmax) ks ik = .ok basis ∧
      ScaledModes k (eigh _ (gmeMatIj ijExact ((S.layers.map GmeLay.pos).zip eff) einv basis + 1)) x x'

theorem StructScale.clads {c n : ℝ} {S S' : GmeStruct} (h : StructScale c n S S') :
    cladAvgs S' = (n ^ 2 * (cladAvgs S).1, n ^ 2 * (cladAvgs S).2) := by
  have havg : S'.layers.map GmeLay.epsAvg = (S.layers.map GmeLay.epsAvg).map (n ^ 2 * ·) := by
    have := h.layers
    generalize S.layers = ls at this
    generalize S'.layers = ls' at this
    induction this with
    | nil => rfl
    | cons h1 _ ih => rw [List.map_cons, List.map_cons, List.map_cons, h1.epsAvg, ih]
  unfold cladAvgs
  rw [← List.head?_map, ← List.getLast?_map, ← List.head?_map, ← List.getLast?_map, havg, List.head?_map (f := (n ^ 2 * ·)),
    List.getLast?_map (f := (n ^ 2 * ·))]
  ext
  · cases (S.layers.map GmeLay.epsAvg).head? <;> simp
  · cases (S.layers.map GmeLay.epsAvg).getLast? <;> simp

/-- No plane wave at the wave vectors is shorter than `1e-10` in either unit (the code replaces shorter ones by `1e-10` when
it computes radiative modes, slab_modes.py 495). -/
def OffNormal (c dgx : ℝ) (gvec ks : List R2) : Prop :=
  ∀ k ∈ ks, ∀ g ∈ gvec, (1e-10 : ℝ) ≤ planeAbs (radPlane dgx k g) ∧ (1e-10 : ℝ) ≤ c * planeAbs (radPlane dgx k g)

theorem radAt_scaled_cast {N N' : ℕ} (hN : N' = N) {c n : ℝ} (hc : 0 < c) (hn : 0 < n) {argsort : List ℝ → List ℕ}
    (hsort : ∀ l, IsArgsort l (argsort l)) (ha : ∀ l, argsort (l.map (c / n * ·)) = argsort l)
    (eigh : ∀ n, Matrix (Fin n) (Fin n) ℂ → Fin n → ℝ) (vecs : ∀ n, Matrix (Fin n) (Fin n) ℂ → Matrix (Fin n) (Fin n) ℂ)
    (he : SortedEigh eigh) (hpr : EighPair eigh vecs) (stack : List (LPos × ℝ))
    (Es : List (Matrix (Fin N) (Fin N) ℂ)) (Es' : List (Matrix (Fin N') (Fin N') ℂ))
    (hE : List.Forall₂ (fun E E' => ∀ i j, E' i j = E (Fin.cast hN i) (Fin.cast hN j) / (n : ℂ) ^ 2) Es Es')
    (basis : List (BasisEl N)) (planes : Fin N → R2) (planes' : Fin N' → R2)
    (hp : ∀ j, planes' j = stretch c (planes (Fin.cast hN j)))
    (hg : ∀ j, (1e-10 : ℝ) ≤ planeAbs (planes j) ∧ (1e-10 : ℝ) ≤ c * planeAbs (planes j)) (clads : ℝ × ℝ) (sigma : ℝ)
    (numeig : ℕ) :
    SameOutcome (ScaledModes (c / n) (eigh _ (gmeMatIj ijExact stack Es basis + 1)))
      (radAt ijExact argsort stack Es basis planes clads (eigh _ (gmeMatIj ijExact stack Es basis + 1))
        (vecs _ (gmeMatIj ijExact stack Es basis + 1)) sigma numeig)
      (radAt ijExact argsort (scaleStack c n stack) Es' (basis.map (BasisEl.scale hN c n)) planes'
        (n ^ 2 * clads.1, n ^ 2 * clads.2)
        (eigh _ (gmeMatIj ijExact (scaleStack c n stack) Es' (basis.map (BasisEl.scale hN c n)) + 1))
        (vecs _ (gmeMatIj ijExact (scaleStack c n stack) Es' (basis.map (BasisEl.scale hN c n)) + 1)) (c / n * sigma)
        numeig) := by
  have hlen : (basis.map (BasisEl.scale hN c n)).length = basis.length := List.length_map _
  have hM := gmeMatIj_scale hN hc hn stack Es Es' hE basis hlen
  have hw := sortedEigh_affine he hlen (sq_nonneg (c / n)) _ _ (gmeMatIj_hermitian ijExact stack Es basis) hM
  have h1 := hpr _ _ (gmeIj_hermitian ijExact stack Es basis)
  have h2 := hpr _ _ (gmeIj_hermitian ijExact (scaleStack c n stack) Es' (basis.map (BasisEl.scale hN c n)))
  subst hN
  refine radAt_scaled hc hn hsort ha stack Es Es' hE basis planes planes' hp (fun j => ?_) clads hlen h1 h2 hM hw sigma numeig
  rw [max_eq_left (hg j).1, max_eq_left (hg j).2]

/-- Losses in other units, for any guided modes which correspond. -/
theorem radSim_units (argsort : List ℝ → List ℕ) (hs : ∀ l, IsArgsort l (argsort l))
    (eigh : ∀ n, Matrix (Fin n) (Fin n) ℂ → Fin n → ℝ) (vecs : ∀ n, Matrix (Fin n) (Fin n) ℂ → Matrix (Fin n) (Fin n) ℂ)
    (he : SortedEigh eigh) (hp : EighPair eigh vecs) (c n : ℝ) (hc : 0 < c) (hn : 0 < n)
    (ha : ∀ l, argsort (l.map (c / n * ·)) = argsort l)
    (S S' : GmeStruct) (h : StructScale c n S S') (hS : Resolved S.b1 S.b2) (hS' : Resolved S'.b1 S'.b2) (gmax : ℝ)
    (hg : OffCut S.b1 S.b2 gmax) (hh : SameHom c n gmax S S') (onlyG : Bool) (opt : String) (ks : List R2) (dgx : ℝ)
    (hoff : OffNormal c dgx (S.gvec gmax) ks)
    (G G' : GuidedSolver) (hG : ∀ (hN : (S'.gvec (c * gmax)).length = (S.gvec gmax).length) eff,
      S.layers.mapM (GmeLay.eff opt) = .ok eff →
      GuidedScale c n G G' ((S.layers.map GmeLay.pos).zip eff) (S.gvec gmax) (S'.gvec (c * gmax)) ks (ks.map (stretch c)) hN)
    (sigma : ℝ) (numeig : ℕ) :
    SameOutcome (ScaledRun (c / n) eigh G S gmax onlyG opt ks)
      (radSimIj ijExact dgx argsort eigh vecs G S gmax onlyG opt ks sigma numeig)
      (radSimIj ijExact (c * dgx) argsort eigh vecs G' S' (c * gmax) onlyG opt (ks.map (stretch c)) (c / n * sigma)
        numeig) := by
  have hN : (S'.gvec (c * gmax)).length = (S.gvec gmax).length := by rw [h.gvec hc hg, List.length_map]
  have heff : S'.layers.mapM (GmeLay.eff opt) = (S.layers.mapM (GmeLay.eff opt)).map (List.map (n ^ 2 * ·)) := by
    rw [except_mapM_map]
    exact (mapM_forall2 (R := LayScale c n S.b1 S.b2) _ _ (fun l l' h => (eff_scale h opt).symm) h.layers).symm
  unfold radSimIj ScaledRun
  rw [heff]
  specialize hG hN
  cases heff0 : S.layers.mapM (GmeLay.eff opt) with
  | error e => exact Or.inl ⟨e, rfl, rfl⟩
  | ok eff =>
    specialize hG eff heff0
    simp only [bind, Except.bind, Except.map]
    rw [stack_scale h.layers, h.clads, List.length_map]
    rcases mapM_rel (S.epsInv gmax onlyG) (S'.epsInv (c * gmax) onlyG)
      (epsInv_scale hc hn h hS hS' gmax hg hh onlyG hN) (forall2_with_mem h.layers) with ⟨e, h1, h2⟩ | ⟨Es, Es', h1, h2, hE⟩
    · rw [h1, h2]
      exact Or.inl ⟨e, rfl, rfl⟩
    · rw [h1, h2]
      simp only
      refine mapM_range_same (n := ks.length)
        (R := fun ik x x' => ∃ eff' einv basis, Except.ok eff = .ok eff' ∧ Except.ok Es = .ok einv ∧
          G ((S.layers.map GmeLay.pos).zip eff') (S.gvec gmax) ks ik = .ok basis ∧
          ScaledModes (c / n) (eigh _ (gmeMatIj ijExact ((S.layers.map GmeLay.pos).zip eff') einv basis + 1)) x x') ?_
      intro ik hik
      rw [hG ik hik]
      cases hb : G ((S.layers.map GmeLay.pos).zip eff) (S.gvec gmax) ks ik with
      | error e => exact Or.inl ⟨e, rfl, rfl⟩
      | ok basis =>
        simp only [Except.map]
        have hkm : ks.getD ik 0 ∈ ks := by rw [getD_of_len hik]; exact List.getElem_mem _
        rcases radAt_scaled_cast hN hc hn hs ha eigh vecs he hp ((S.layers.map GmeLay.pos).zip eff) Es Es' hE basis
          (fun i => radPlane dgx (ks.getD ik 0) (S.gvec gmax)[i])
          (fun i => radPlane (c * dgx) ((ks.map (stretch c)).getD ik 0) (S'.gvec (c * gmax))[i]) (fun j => by
            have hk : (ks.map (stretch c)).getD ik 0 = stretch c (ks.getD ik 0) := by
              rw [getD_of_len (by simpa using hik), getD_of_len hik, List.getElem_map]
            have e : (S'.gvec (c * gmax))[j] = stretch c (S.gvec gmax)[Fin.cast hN j] := by
              simp only [Fin.getElem_fin, h.gvec hc hg, List.getElem_map, Fin.val_cast]
            rw [hk, e]
            simp only [radPlane, stretch]
            ext <;> simp only <;> ring)
          (fun j => hoff _ hkm _ (List.getElem_mem _)) (cladAvgs S) sigma numeig with hx | ⟨x, x', q1, q2, q3⟩
        · exact Or.inl hx
        · exact Or.inr ⟨x, x', q1, q2, eff, Es, basis, rfl, rfl, hb, q3⟩

/-- **C129 (unit of length).** Dividing all lengths of a structure by `c`, with wave vectors, cutoff, the step of the search
for guided modes and the shifts of wave vectors multiplied by `c`, the losses are multiplied by `c` as the frequencies are,
with the guided modes as computed by the code with exact normalisation: the runs fail with the same error, or the same channels
are open, and all modes whose eigenvalue no other mode has have their losses and the absolute values of their couplings
multiplied by `c`. For eigenvalues of several modes the sums of the squared couplings are multiplied by `c ^ 2`. -/
theorem C129_units (argsort : List ℝ → List ℕ) (hs : ∀ l, IsArgsort l (argsort l))
    (eigh : ∀ n, Matrix (Fin n) (Fin n) ℂ → Fin n → ℝ) (vecs : ∀ n, Matrix (Fin n) (Fin n) ℂ → Matrix (Fin n) (Fin n) ℂ)
    (he : SortedEigh eigh) (hp : EighPair eigh vecs) (c : ℝ) (hc : 0 < c) (ha : ∀ l, argsort (l.map (c * ·)) = argsort l)
    (S S' : GmeStruct) (h : StructScale c 1 S S') (hS : WellSpaced S.b1 S.b2) (hS' : WellSpaced S'.b1 S'.b2) (gmax : ℝ)
    (hg : OffCut S.b1 S.b2 gmax) (onlyG : Bool) (opt : String) (ks : List R2) (fs : Finder) (o : GuidedOpts)
    (hn : UnitNeutral c o (S.gvec gmax) ks) (hoff : OffNormal c o.deltaGx (S.gvec gmax) ks) (sigma : ℝ) (numeig : ℕ) :
    SameOutcome (ScaledRun c eigh (codeGuided normExact fs o) S gmax onlyG opt ks)
      (radSimIj ijExact o.deltaGx argsort eigh vecs (codeGuided normExact fs o) S gmax onlyG opt ks sigma numeig)
      (radSimIj ijExact (scaleOpts c o).deltaGx argsort eigh vecs (codeGuided normExact (scaleFinder c fs) (scaleOpts c o)) S'
        (c * gmax) onlyG opt (ks.map (stretch c)) (c * sigma) numeig) := by
  have := radSim_units argsort hs eigh vecs he hp c 1 hc one_pos (by rwa [div_one]) S S' h hS.resolved hS'.resolved gmax hg
    (homAbs_units hc h hS hS' gmax) onlyG opt ks o.deltaGx hoff _ _
    (fun hN eff _ => codeGuided_scale hc fs o _ _ _ ks hN (h.gvec hc hg) hn) sigma numeig
  rwa [div_one] at this

/-- **C129 (other units, other permittivities).** Dividing all lengths by `c` and multiplying all permittivities by `n ^ 2`,
with the same guided modes in the new units, multiplies losses and couplings by `c / n`. -/
theorem C129_scale (argsort : List ℝ → List ℕ) (hs : ∀ l, IsArgsort l (argsort l))
    (eigh : ∀ n, Matrix (Fin n) (Fin n) ℂ → Fin n → ℝ) (vecs : ∀ n, Matrix (Fin n) (Fin n) ℂ → Matrix (Fin n) (Fin n) ℂ)
    (he : SortedEigh eigh) (hp : EighPair eigh vecs) (c n : ℝ) (hc : 0 < c) (hn : 0 < n)
    (ha : ∀ l, argsort (l.map (c / n * ·)) = argsort l)
    (S S' : GmeStruct) (h : StructScale c n S S') (hS : Resolved S.b1 S.b2) (hS' : Resolved S'.b1 S'.b2) (gmax : ℝ)
    (hg : OffCut S.b1 S.b2 gmax) (hh : SameHom c n gmax S S') (onlyG : Bool) (opt : String) (ks : List R2)
    (br : List (Pol × (ℝ → Option ℝ))) (delta e0 eN : ℝ) (hoff : OffNormal c delta (S.gvec gmax) ks) (ls : List (ℝ × ℝ))
    (sigma : ℝ) (numeig : ℕ) :
    SameOutcome (ScaledRun (c / n) eigh (branchGuided br delta e0 eN ls) S gmax onlyG opt ks)
      (radSimIj ijExact delta argsort eigh vecs (branchGuided br delta e0 eN ls) S gmax onlyG opt ks sigma numeig)
      (radSimIj ijExact (c * delta) argsort eigh vecs
        (branchGuided (scaleBranches c n br) (c * delta) (n ^ 2 * e0) (n ^ 2 * eN) (scaleSlab c n ls)) S' (c * gmax) onlyG opt
        (ks.map (stretch c)) (c / n * sigma) numeig) :=
  radSim_units argsort hs eigh vecs he hp c n hc hn ha S S' h hS hS' gmax hg hh onlyG opt ks delta hoff _ _
    (fun hN eff _ => branch_scale c n hc hn br delta e0 eN ls _ _ _ ks hN (h.gvec hc hg)) sigma numeig

/-- **C129 (quality factor).** The ratio of frequency to loss does not depend on the unit, so neither does the quality factor
`f / (2 f_im)`. -/
theorem C129_quality {k : ℝ} (hk : 0 < k) {n : ℕ} (w : Fin n → ℝ) (x x' : KRes × List RadRes) (h : ScaledModes k w x x')
    (p m : ℕ) (f f' : ℝ) (a a' : RadRes) (l l' : Loss) (hm : x.1.idx[p]? = some m) (hs : SimpleMode w m)
    (hf : x.1.freq[p]? = some f) (hf' : x'.1.freq[p]? = some f') (ha : x.2[p]? = some a) (ha' : x'.2[p]? = some a')
    (hl : a.loss = some l) (hl' : a'.loss = some l') : f' / (2 * l'.tot) = f / (2 * l.tot) := by
  have h1 := (h.mode p m a a' hm ha ha').loss hs
  rw [hl, hl'] at h1
  simp only [Option.map_some, Option.some.injEq] at h1
  rw [h.freq] at hf'
  simp only [KRes.scale, List.getElem?_map, hf, Option.map_some, Option.some.injEq] at hf'
  rw [h1, ← hf']
  simp only [Loss.scale]
  rw [mul_left_comm, mul_div_mul_left _ _ hk.ne']

/-! ### Examples -/

/-- The slab with half the period has twice the losses. -/
example (J : ℝ → ℝ) (argsort : List ℝ → List ℕ) (hs : ∀ l, IsArgsort l (argsort l))
    (ha : ∀ l, argsort (l.map (2 * ·)) = argsort l) (fs : Finder) :
    ∃ eigh vecs, SortedEigh eigh ∧ EighPair eigh vecs ∧
    SameOutcome (ScaledRun 2 eigh (codeGuided normExact fs unitOpts) (unitSlab J 1) (6 / 5) false "average" [(Real.pi, 0)])
      (radSimIj ijExact 0 argsort eigh vecs (codeGuided normExact fs unitOpts) (unitSlab J 1) (6 / 5) false "average"
        [(Real.pi, 0)] 0 3)
      (radSimIj ijExact (2 * 0) argsort eigh vecs (codeGuided normExact (scaleFinder 2 fs) (scaleOpts 2 unitOpts))
        (unitSlab J 2) (2 * (6 / 5)) false "average" [(2 * Real.pi, 2 * 0)] (2 * 0) 3) := by
  have hp := Real.pi_gt_three
  obtain ⟨eigh, vecs, he, hpr⟩ := sortedPair_exists
  refine ⟨eigh, vecs, he, hpr, C129_units argsort hs eigh vecs he hpr 2 two_pos ha _ _ (unitSlab_scale J two_pos)
    (unitSlab_spaced J le_rfl) (unitSlab_spaced J (by norm_num)) _ (unitSlab_off J) false "average" [(Real.pi, 0)] fs unitOpts
    (unitSlab_neutral J) ?_ 0 3⟩
  intro k hk g hg
  rw [List.mem_singleton.1 hk]
  obtain ⟨m, h1, -, h2⟩ := unitSlab_lengths J (planeAbs (radPlane 0 (Real.pi, 0) g)) (List.mem_map_of_mem hg)
  have : (1 : ℝ) ≤ √(m : ℝ) := by rw [Real.one_le_sqrt]; exact_mod_cast h1
  have h3 : (3 : ℝ) ≤ Real.pi * √(m : ℝ) := by nlinarith
  have h4 : unitOpts.deltaGx = 0 := rfl
  rw [h4, h2]
  exact ⟨le_trans (by norm_num) h3, le_trans (by norm_num) (show (3 : ℝ) ≤ 2 * (Real.pi * √(m : ℝ)) by linarith)⟩

/-- Two results of which the second is twice the first. -/
example : ScaledModes 2 (fun _ : Fin 1 => (5 : ℝ)) (⟨[0], [3], []⟩, [⟨some ⟨1, 1, 0⟩, fun _ _ => some [], fun _ => []⟩])
    (⟨[0], [6], []⟩, [⟨some ⟨2, 2, 0⟩, fun _ _ => some [], fun _ => []⟩]) := by
  refine ⟨by norm_num [KRes.scale], rfl, rfl, ?_, ?_⟩
  · rintro (_ | p) m a a' hm ha ha'
    · cases ha
      cases ha'
      exact ⟨rfl, by simp, fun _ => by norm_num [Loss.scale], fun _ u pol l l' hl hl' => by cases hl; cases hl'; rfl⟩
    · simp at ha
  · intro lam _ u pol
    by_cases h : (5 : ℝ) = lam <;> simp [groupPower, groupSum, sumSq, List.filter, h]

end Legume
