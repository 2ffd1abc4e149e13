import Verif.Props.KzTbt
import Verif.Props.GmeTbtBounds

/-!
# Runs with `kz_symmetry` and parallelogram truncation on mirror-symmetric crystals (C163)
-/
namespace Legume

open Spec Matrix
open scoped ComplexConjugate

/-- The crystal is its own mirror image: every layer contains with every shape its mirror image, and so does the
parallelogram of plane waves. No two plane waves are closer than `2.5e-7`. Both sample arrays of every layer are stored with
the same type. -/
structure MirrorCrystalT (theta gmax : ℝ) (S : GmeStruct) : Prop where
  waves : ∀ g ∈ S.gvecT gmax, mirrorVec theta g ∈ S.gvecT gmax
  spread : Spread (S.gvecT gmax)
  real : ∀ l ∈ S.layers, ∀ s ∈ l.shapes, RealShape s
  layers : ∀ l ∈ S.layers, ∃ shapes', shapes'.Perm l.shapes ∧
    List.Forall₂ (MirrorShape theta S.b1 S.b2) l.shapes shapes'
  alike : ∀ l ∈ S.layers, TbtAlike S gmax l

/-- The inverse permittivity of a mirror-symmetric layer. -/
theorem epsInvT_mirror {theta gmax : ℝ} {S : GmeStruct} (hS : MirrorCrystalT theta gmax S) (onlyG : Bool) (l : GmeLay)
    (hl : l ∈ S.layers) (ν : Equiv.Perm (Fin (S.gvecT gmax).length))
    (hν : ∀ i, (S.gvecT gmax)[ν i] = mirrorVec theta (S.gvecT gmax)[i])
    (E : Matrix (Fin (S.gvecT gmax).length) (Fin (S.gvecT gmax).length) ℂ) (hE : S.epsInvT gmax onlyG l = .ok E) (i j) :
    E (ν i) (ν j) = E i j := by
  have hconj : ∀ g : R2, S.ft l (-g.1, -g.2) = conj (S.ft l g) :=
    fun g => (C12_layer_conj l.epsB l.epsAvg S.ecArea l.shapes (hS.real l hl) g).1
  have key : ∀ i j : Fin (S.gvecT gmax).length, S.epsMatT gmax l i j =
      if T1real (S.ft l) (S.gvecT gmax) then (((S.ft l ((S.gvecT gmax)[i] - (S.gvecT gmax)[j])).re : ℝ) : ℂ)
      else S.ft l ((S.gvecT gmax)[i] - (S.gvecT gmax)[j]) :=
    fun i j => C19_entry_partial (S.ft l) S.b1 S.b2 (S.n1 gmax) (S.n2 gmax) i j hconj (hS.alike l hl) _ _
      (List.getElem?_eq_getElem i.2) (List.getElem?_eq_getElem j.2)
  have hA : ∀ i j, S.epsMatT gmax l (ν i) (ν j) = S.epsMatT gmax l i j := by
    intro i j
    have e : S.ft l ((S.gvecT gmax)[ν i] - (S.gvecT gmax)[ν j]) = S.ft l ((S.gvecT gmax)[i] - (S.gvecT gmax)[j]) := by
      rw [hν, hν, ← mirrorVec_sub]
      by_cases hij : i = j
      · subst hij
        rw [sub_self, show mirrorVec theta (0 : R2) = 0 by simp [mirrorVec]]
      · obtain ⟨shapes', h1, h2⟩ := hS.layers l hl
        have hg : ∀ i : Fin (S.gvecT gmax).length, (S.gvecT gmax)[i] = latVec S.b1 S.b2 (tbtInd S gmax i) := by
          intro i
          have e1 := gvecT_getD S gmax i i.2
          rw [getD_of_len i.2] at e1
          refine Eq.trans e1 ?_
          simp only [gOf, latVec]
          ext <;> ring
        have e : (S.gvecT gmax)[i] - (S.gvecT gmax)[j] = latVec S.b1 S.b2 (tbtInd S gmax i - tbtInd S gmax j) := by
          rw [latVec_sub, hg, hg]
        have n1 := spread_not_g0 hS.spread i j hij
        have n2 := spread_not_g0 hS.spread (ν i) (ν j) (fun e => hij (ν.injective e))
        rw [hν, hν, ← mirrorVec_sub] at n2
        rw [e] at n1 n2 ⊢
        exact layerFt_mirror _ _ _ _ _ _ _ _ h1 h2 _ n1 n2
    rw [key, key, e]
  unfold GmeStruct.epsInvT at hE
  split_ifs at hE with c1 c2
  · cases hE
    rw [Matrix.smul_apply, Matrix.smul_apply, Matrix.one_apply, Matrix.one_apply]
    by_cases hij : i = j
    · subst hij; simp
    · rw [if_neg hij, if_neg fun e => hij (ν.injective e)]
  · cases hE
    exact C30_eps_inv _ ν hA i j

/-- What a run knows at one wave vector on the mirror plane. -/
structure KzSetupT (theta gmax : ℝ) (S : GmeStruct) (onlyG : Bool) (inds : List ℕ) (plane : Fin (S.gvecT gmax).length → R2)
    (Es : List (Matrix (Fin (S.gvecT gmax).length) (Fin (S.gvecT gmax).length) ℂ))
    (blocks : List (List (BasisEl (S.gvecT gmax).length))) : Prop where
  crystal : MirrorCrystalT theta gmax S
  mirrored : ∀ i j, (S.gvecT gmax)[j] = mirrorVec theta (S.gvecT gmax)[i] → plane j = mirrorVec theta (plane i)
  einv : S.layers.mapM (S.epsInvT gmax onlyG) = .ok Es
  len : blocks.length = inds.length
  facts : ∀ (n : ℕ) (hn : n < blocks.length), BlockFacts plane n (inds.getD n 0) blocks[n]

namespace KzSetupT

variable {theta gmax : ℝ} {S : GmeStruct} {onlyG : Bool} {inds : List ℕ} {plane : Fin (S.gvecT gmax).length → R2}
  {Es : List (Matrix (Fin (S.gvecT gmax).length) (Fin (S.gvecT gmax).length) ℂ)}
  {blocks : List (List (BasisEl (S.gvecT gmax).length))}

theorem blk (h : KzSetupT theta gmax S onlyG inds plane Es blocks) :
    ∀ (n : ℕ) (hn : n < blocks.length), ∀ s ∈ blocks[n], s.blk = n := by
  intro n hn s hs
  obtain ⟨F, P, -, -, h3, -⟩ := (h.facts n hn).fact
  exact (h3 s hs).1

theorem basis_eq (h : KzSetupT theta gmax S onlyG inds plane Es blocks) :
    gmBasis 0 inds (usedWaves (S.gvecT gmax) blocks) =
      blocks.flatten.map fun s => (s.blk, inds.getD s.blk 0, (S.gvecT gmax)[s.ig]) := by
  refine gmBasis_blocks blocks 0 inds h.len.symm ?_
  intro n hn s hs
  rw [zero_add]
  exact h.blk n hn s hs

theorem basis_getD (h : KzSetupT theta gmax S onlyG inds plane Es blocks) (i : ℕ) (hi : i < blocks.flatten.length) :
    (gmBasis 0 inds (usedWaves (S.gvecT gmax) blocks)).getD i (0, 0, 0) =
      (blocks.flatten[i].blk, inds.getD blocks.flatten[i].blk 0, (S.gvecT gmax)[blocks.flatten[i].ig]) := by
  rw [h.basis_eq, getD_of_len (by rw [List.length_map]; exact hi), List.getElem_map]

theorem sorted (h : KzSetupT theta gmax S onlyG inds plane Es blocks) :
    blocks.flatten.Pairwise fun s t => s.blk ≤ t.blk :=
  blocks_sorted blocks 0 (by intro n hn s hs; rw [zero_add]; exact h.blk n hn s hs)

theorem closed (h : KzSetupT theta gmax S onlyG inds plane Es blocks) :
    ∀ gs ∈ usedWaves (S.gvecT gmax) blocks, ∀ g ∈ gs, mirrorVec theta g ∈ gs := by
  obtain ⟨ν, hν⟩ := mirror_perm _ _ h.crystal.waves h.crystal.spread
  intro gs hgs g hg
  unfold usedWaves at hgs
  obtain ⟨b, hb, rfl⟩ := List.mem_map.1 hgs
  obtain ⟨s, hs, rfl⟩ := List.mem_map.1 hg
  obtain ⟨n, hn, rfl⟩ := List.getElem_of_mem hb
  obtain ⟨F, P, -, -, h3, h4⟩ := (h.facts n hn).fact
  have h5 := (h3 s hs).2.2
  rw [← planeAbs_mirror theta, ← h.mirrored s.ig (ν s.ig) (hν _)] at h5
  obtain ⟨t, ht, e⟩ := h4 _ h5
  refine List.mem_map.2 ⟨t, ht, ?_⟩
  rw [← hν]
  simp only [e]

theorem spread (h : KzSetupT theta gmax S onlyG inds plane Es blocks) :
    ∀ gs ∈ usedWaves (S.gvecT gmax) blocks, Spread gs := by
  intro gs hgs
  unfold usedWaves at hgs
  obtain ⟨b, hb, rfl⟩ := List.mem_map.1 hgs
  obtain ⟨n, hn, rfl⟩ := List.getElem_of_mem hb
  have hnd := (h.facts n hn).nodup
  intro i j a c ha hc hij
  rw [List.getElem?_map] at ha hc
  obtain ⟨s, hs, rfl⟩ := Option.map_eq_some_iff.1 ha
  obtain ⟨t, ht, rfl⟩ := Option.map_eq_some_iff.1 hc
  obtain ⟨hi, rfl⟩ := List.getElem?_eq_some_iff.1 hs
  obtain ⟨hj, rfl⟩ := List.getElem?_eq_some_iff.1 ht
  have hne : (blocks[n][i].ig : ℕ) ≠ blocks[n][j].ig := by
    intro e
    have := hnd.getElem_inj_iff (hi := by simpa using hi) (hj := by simpa using hj) |>.1
      (by rw [List.getElem_map, List.getElem_map]; exact Fin.ext e)
    exact hij this
  exact h.crystal.spread _ _ _ _ (List.getElem?_eq_getElem blocks[n][i].ig.2)
    (List.getElem?_eq_getElem blocks[n][j].ig.2) hne

/-- Two states of which one is the mirror image of the other. -/
theorem image (h : KzSetupT theta gmax S onlyG inds plane Es blocks) (ν : Equiv.Perm (Fin (S.gvecT gmax).length))
    (hν : ∀ i, (S.gvecT gmax)[ν i] = mirrorVec theta (S.gvecT gmax)[i]) (s t : BasisEl (S.gvecT gmax).length)
    (hs : s ∈ blocks.flatten) (ht : t ∈ blocks.flatten)
    (hi : IsImage theta (s.blk, inds.getD s.blk 0, (S.gvecT gmax)[s.ig])
      (t.blk, inds.getD t.blk 0, (S.gvecT gmax)[t.ig])) : t.ig = ν s.ig ∧ t.st = mirrorState theta s.st := by
  obtain ⟨h1, h2, h3⟩ := hi
  simp only at h1 h2 h3
  have hig : t.ig = ν s.ig := by
    by_contra hne
    have := h.crystal.spread t.ig (ν s.ig) _ _ (List.getElem?_eq_getElem t.ig.2) (List.getElem?_eq_getElem (ν s.ig).2)
      (fun e => hne (Fin.ext e))
    have e := hν s.ig
    simp only [Fin.getElem_fin] at this e h2 h3
    rw [e] at this
    rcases this with h | h <;> norm_num at * <;> linarith
  refine ⟨hig, ?_⟩
  obtain ⟨hn, hs'⟩ := flatten_block h.blk s hs
  obtain ⟨hn', ht'⟩ := flatten_block h.blk t ht
  have ht'' : t ∈ blocks[s.blk] := by simpa only [h1] using ht'
  obtain ⟨F, P, -, f2, f3, -⟩ := (h.facts s.blk hn).fact
  rw [(f3 s hs').2.1, (f3 t ht'').2.1, ← f2, h.mirrored s.ig t.ig (by rw [hig, hν])]

/-- The matrix of a mirror-symmetric crystal commutes with the mirror. -/
theorem commutes (h : KzSetupT theta gmax S onlyG inds plane Es blocks) (stack : List (LPos × ℝ)) :
    SepFacts.Commutes theta (gmBasis 0 inds (usedWaves (S.gvecT gmax) blocks))
      (natMat (gmeMatIj ijExact stack Es blocks.flatten)) := by
  obtain ⟨ν, hν⟩ := mirror_perm _ _ h.crystal.waves h.crystal.spread
  have hlen : (gmBasis 0 inds (usedWaves (S.gvecT gmax) blocks)).length = blocks.flatten.length := by
    rw [h.basis_eq, List.length_map]
  obtain ⟨ms, hms⟩ := symModes_closed theta inds (usedWaves (S.gvecT gmax) blocks)
    (by simp [usedWaves, h.len]) h.closed
  have hH : ∀ E ∈ Es, E.IsHermitian := by
    intro E hE'
    obtain ⟨l, hl, h'⟩ := forall2_mem_right (mapM_ok_forall h.einv) E hE'
    exact epsInvT_hermitian S gmax onlyG l (h.crystal.real l hl) E h'
  have hEs : ∀ E ∈ Es, ∀ i j, E (ν i) (ν j) = E i j := by
    intro E hE' i j
    obtain ⟨l, hl, h'⟩ := forall2_mem_right (mapM_ok_forall h.einv) E hE'
    exact epsInvT_mirror h.crystal onlyG l hl ν hν E h' i j
  set bs := blocks.flatten with hbs
  refine C30_commutes theta inds _ ms hms h.spread ijExact stack
    (fun i j => if hij : i < bs.length ∧ j < bs.length then Es.map fun E => E bs[i].ig bs[j].ig else [])
    (fun i => if hi : i < bs.length then bs[i].st else ⟨.te, 0, 0, 0, []⟩) _ ?_ ?_ ?_ ?_
  · intro i hi j hj
    rw [hlen] at hi hj
    unfold natMat
    rw [dif_pos ⟨hi, hj⟩, dif_pos ⟨hi, hj⟩, dif_pos hi, dif_pos hj]
    exact gmeMatIj_exact stack Es hH bs h.sorted ⟨i, hi⟩ ⟨j, hj⟩
  · intro i hi
    rw [hlen] at hi
    rw [dif_pos hi, h.basis_getD i hi]
    obtain ⟨hn, hs'⟩ := flatten_block h.blk bs[i] (List.getElem_mem hi)
    obtain ⟨F, P, f1, -, f3, -⟩ := (h.facts _ hn).fact
    rw [(f3 _ hs').2.1, f1]
    rfl
  · intro i hi j hj hij
    rw [hlen] at hi hj
    rw [dif_pos hi, dif_pos hj]
    rw [h.basis_getD i hi, h.basis_getD j hj] at hij
    exact (h.image ν hν _ _ (List.getElem_mem hi) (List.getElem_mem hj) hij).2
  · intro i hi j hj i' hi' j' hj' h1 h2
    rw [hlen] at hi hj hi' hj'
    rw [h.basis_getD i hi, h.basis_getD i' hi'] at h1
    rw [h.basis_getD j hj, h.basis_getD j' hj'] at h2
    rw [dif_pos ⟨hi', hj'⟩, dif_pos ⟨hi, hj⟩, (h.image ν hν _ _ (List.getElem_mem hi) (List.getElem_mem hi') h1).1,
      (h.image ν hν _ _ (List.getElem_mem hj) (List.getElem_mem hj') h2).1]
    refine List.map_congr_left fun E hE => ?_
    exact hEs E hE _ _

/-- The size of the basis. -/
theorem length (h : KzSetupT theta gmax S onlyG inds plane Es blocks) :
    (gmBasis 0 inds (usedWaves (S.gvecT gmax) blocks)).length = blocks.flatten.length := by
  rw [h.basis_eq, List.length_map]

/-- The eigenvalues of the whole matrix are those of the two blocks. -/
theorem eigs (h : KzSetupT theta gmax S onlyG inds plane Es blocks) {eigh : ∀ n, Matrix (Fin n) (Fin n) ℂ → Fin n → ℝ}
    (he : GoodEigh eigh) (stack : List (LPos × ℝ)) (sparse : Bool) (thr : ℝ) (s : Separated)
    (hs : separate sparse theta thr inds (usedWaves (S.gvecT gmax) blocks)
      (natMat (gmeMatIj ijExact stack Es blocks.flatten)) = .ok s) :
    s.even + s.odd = blocks.flatten.length ∧ 0 < s.even ∧ 0 < s.odd ∧
    (List.ofFn (eigh _ (gmeMatIj ijExact stack Es blocks.flatten + 1))).Perm
      (List.ofFn (eigh s.even (finMat s.even s.matEven + 1)) ++
        List.ofFn (eigh s.odd (finMat s.odd s.matOdd + 1))) := by
  have F := sep_facts _ _ _ _ _ _ _ h.spread hs
  have hc := C30_decouple _ _ _ _ _ _ _ h.spread hs (h.commutes stack)
  obtain ⟨f1, f2, f3, f4, -, -, f7, -⟩ := F
  rw [h.length] at f1 f4
  simp only [h.length] at f7
  exact ⟨f1, f2, f3, sep_eigs he _ (gmeMatIj_hermitian _ _ _ _) s f1 f4 f7 hc⟩

/-- When there is a wave off the mirror plane the matrix is accepted. -/
theorem accepts (h : KzSetupT theta gmax S onlyG inds plane Es blocks) (stack : List (LPos × ℝ)) (sparse : Bool) (thr : ℝ)
    (hthr : 0 ≤ thr) (hoff : ∃ s ∈ blocks.flatten, mirrorVec theta (S.gvecT gmax)[s.ig] ≠ (S.gvecT gmax)[s.ig]) :
    ∃ s, separate sparse theta thr inds (usedWaves (S.gvecT gmax) blocks)
      (natMat (gmeMatIj ijExact stack Es blocks.flatten)) = .ok s := by
  obtain ⟨ms, hms⟩ := symModes_closed theta inds (usedWaves (S.gvecT gmax) blocks)
    (by simp [usedWaves, h.len]) h.closed
  obtain ⟨g1, g2, -, -, g5⟩ := symModes_good theta inds _ ms hms h.spread 0
  obtain ⟨ν, hν⟩ := mirror_perm _ _ h.crystal.waves h.crystal.spread
  obtain ⟨x, hx, hx'⟩ := hoff
  obtain ⟨i, hi, rfl⟩ := List.getElem_of_mem hx
  have hi' : i < symDim ms := by rw [← g2, h.length]; exact hi
  have hne : gR ms i ≠ i := by
    intro e
    have h1 := (g5 i i hi' hi').2 e.symm
    rw [h.basis_getD i hi] at h1
    have h2 := (h.image ν hν _ _ hx hx h1).1
    apply hx'
    rw [← hν]
    simp only [← h2]
  have hPP : ∀ j, (gP ms j : ℂ) * (gP ms j : ℂ) = 1 := by
    intro j
    rcases gP_cases ms j with e | e <;> rw [e] <;> norm_num
  have hmm : ∀ (e : ℕ → ℂ) (j : ℕ), j < symDim ms →
      mirror theta (gmBasis 0 inds (usedWaves (S.gvecT gmax) blocks)) e j = (gP ms j : ℂ) * e (gR ms j) :=
    fun e j hj => mirror_eq theta inds _ ms hms h.spread e j hj
  refine C30_accepts sparse theta thr inds _ _ h.spread hthr (by simp [usedWaves, h.len]) h.closed (h.commutes stack)
    ⟨fun j => (if j = i then 1 else 0) + (gP ms j : ℂ) * (if gR ms j = i then 1 else 0), ⟨i, by rw [g2]; exact hi', ?_⟩, ?_⟩
    ⟨fun j => (if j = i then 1 else 0) - (gP ms j : ℂ) * (if gR ms j = i then 1 else 0), ⟨i, by rw [g2]; exact hi', ?_⟩, ?_⟩
  · simp [hne]
  · intro j hj
    rw [g2] at hj
    rw [hmm _ j hj, gR_gR ms g1 j hj, gP_gR ms g1 j hj, mul_add, ← mul_assoc, hPP]
    ring
  · simp [hne]
  · intro j hj
    rw [g2] at hj
    rw [hmm _ j hj, gR_gR ms g1 j hj, gP_gR ms g1 j hj, mul_sub, ← mul_assoc, hPP]
    ring

end KzSetupT

/-! ### Runs -/

/-- The wave vector, shifted by `delta_gx` as the code does, lies on the mirror plane of the crystal. -/
structure OnMirrorT (theta gmax dgx : ℝ) (S : GmeStruct) (k : R2) : Prop where
  crystal : MirrorCrystalT theta gmax S
  fixed : mirrorVec theta (k + (dgx, 0)) = k + (dgx, 0)

theorem OnMirrorT.setup {theta gmax : ℝ} {S : GmeStruct} {k : R2} {norm : NormFn} {fs : Finder} {o : GuidedOpts}
    (h : OnMirrorT theta gmax o.deltaGx S k) {onlyG : Bool} {stack : List (LPos × ℝ)} {grid : List ℝ}
    {Es : List (Matrix (Fin (S.gvecT gmax).length) (Fin (S.gvecT gmax).length) ℂ)}
    {blocks : List (List (BasisEl (S.gvecT gmax).length))} (hE : S.layers.mapM (S.epsInvT gmax onlyG) = .ok Es)
    (hb : codeBlocks norm fs o stack grid (fun i => radPlane o.deltaGx k (S.gvecT gmax)[i]) = .ok blocks)
    (hl : o.inds.length ≤ blocks.length) :
    KzSetupT theta gmax S onlyG o.inds (fun i => radPlane o.deltaGx k (S.gvecT gmax)[i]) Es blocks := by
  obtain ⟨-, h2, h3, -⟩ := codeBlocks_facts norm fs o stack grid _ blocks hb
  have hl' := le_antisymm h2 hl
  refine ⟨h.crystal, ?_, hE, hl', h3 hl'⟩
  intro i j hij
  simp only [hij, radPlane_mirror theta o.deltaGx k _ h.fixed]

/-- Everything a returned `kz_symmetry` run implies at one wave vector. -/
theorem gmeSimKzTbt_points {ij : LPos → ℂ → ℂ} {argsort : List ℝ → List ℕ}
    {eigh : ∀ n, Matrix (Fin n) (Fin n) ℂ → Fin n → ℝ} {norm : NormFn} {fs : Finder} {o : GuidedOpts} {kz : KzSymm}
    {sparse : Bool} {thr : ℝ} {t : LatType} {angles : List ℝ} {S : GmeStruct} {gmax : ℝ} {onlyG : Bool} {opt : String}
    {ks : List R2} {sigma : ℝ} {numeig : ℕ} {rs : List KRes}
    (h : gmeSimKzTbt ij argsort eigh norm fs o kz sparse thr t angles S gmax onlyG opt ks sigma numeig = .ok rs) :
    onlyG = false ∧ (∃ m, reflMat t angles = .ok m) ∧ ∃ eff Es, S.layers.mapM (GmeLay.eff opt) = .ok eff ∧
      S.layers.mapM (S.epsInvT gmax onlyG) = .ok Es ∧
      (List.range ks.length).mapM (fun (ik : ℕ) => do
        let blocks ← codeBlocks norm fs o ((S.layers.map GmeLay.pos).zip eff)
          (guidedGrid o (S.gvecT gmax) ks (ks.getD ik 0)) fun i => radPlane o.deltaGx (ks.getD ik 0) (S.gvecT gmax)[i]
        kzPoint ij argsort eigh kz sparse thr angles[ik]? o.inds (S.gvecT gmax) ((S.layers.map GmeLay.pos).zip eff) Es
          blocks sigma numeig) = .ok rs := by
  unfold gmeSimKzTbt at h
  by_cases c : angles = []
  · rw [if_pos c] at h
    cases h
  rw [if_neg c] at h
  obtain ⟨m, hm, h⟩ := bind_ok h
  cases onlyG with
  | true => simp at h
  | false =>
  simp only [Bool.false_eq_true, if_false] at h
  obtain ⟨eff, heff, h⟩ := bind_ok h
  obtain ⟨Es, hEs, h⟩ := bind_ok h
  exact ⟨rfl, ⟨m, hm⟩, eff, Es, heff, hEs, h⟩

/-- **C163.** In a crystal with the mirror symmetry a run with `kz_symmetry='both'` finds what the run without symmetry
finds: it returns only if that one does, the frequencies are equally far from `eig_sigma`, and they are the same when
`eig_sigma` is not positive (the default is `0`). -/
theorem C163_both (argsort : List ℝ → List ℕ) (hs : ∀ l, IsArgsort l (argsort l))
    (eigh : ∀ n, Matrix (Fin n) (Fin n) ℂ → Fin n → ℝ) (he : GoodEigh eigh) (norm : NormFn) (fs : Finder) (o : GuidedOpts)
    (sparse : Bool) (thr : ℝ) (t : LatType) (angles : List ℝ) (S : GmeStruct) (gmax : ℝ) (onlyG : Bool) (opt : String)
    (ks : List R2) (sigma : ℝ) (numeig : ℕ) (rs : List KRes)
    (hm : ∀ (ik : ℕ) theta, ik < ks.length → angles[ik]? = some theta →
      OnMirrorT theta gmax o.deltaGx S (ks.getD ik 0))
    (h : gmeSimKzTbt ijExact argsort eigh norm fs o .both sparse thr t angles S gmax onlyG opt ks sigma numeig = .ok rs) :
    ∃ rs', gmeSimTbtIj ijExact argsort eigh (codeGuided norm fs o) S gmax onlyG opt ks sigma numeig = .ok rs' ∧
      List.Forall₂ (fun r r' => (r.freq.map fun f => |f - sigma|).Perm (r'.freq.map fun f => |f - sigma|) ∧
        (sigma ≤ 0 → r.freq = r'.freq)) rs rs' := by
  obtain ⟨rfl, -, eff, Es, heff, hEs, h⟩ := gmeSimKzTbt_points h
  rw [tbt_run]
  simp only [heff, hEs, bind, Except.bind] at h ⊢
  refine mapM_transfer _ h ?_
  intro ik hik a ha
  rw [List.mem_range] at hik
  split at ha
  · cases ha
  · rename_i blocks hb
    obtain ⟨h1, th, s, hth, hsep, hsol⟩ := kzPoint_ok ha
    have hset := (hm ik th hik hth).setup hEs hb (by simpa [usedWaves] using separate_len hsep)
    obtain ⟨e1, -, -, e4⟩ := hset.eigs he _ sparse thr s hsep
    have hbas : codeGuided norm fs o ((S.layers.map GmeLay.pos).zip eff) (S.gvecT gmax) ks ik = .ok blocks.flatten :=
      (codeBlocks_facts _ _ _ _ _ _ _ hb).1
    rw [hbas]
    have hlen : ¬ (List.ofFn (eigh _ (gmeMatIj ijExact ((S.layers.map GmeLay.pos).zip eff) Es blocks.flatten + 1))).length
        < numeig := by rw [List.length_ofFn]; exact not_lt.2 h1
    have hp := (e4.map freqOf).symm
    rw [List.map_append] at hp
    unfold solveKz solveBoth at hsol
    simp only at hsol
    split_ifs at hsol
    cases hsol
    simp only [solveFull]
    rw [if_neg hlen]
    refine ⟨_, rfl, ?_, ?_⟩
    · simp only [List.map_map]
      exact select_dist_perm hs hp sigma numeig
    · intro hsig
      refine select_freq_eq hs hp sigma numeig (by rw [hp.length_eq]; simpa using h1) ?_
      intro a ha
      rw [hp.mem_iff] at ha
      obtain ⟨w, -, rfl⟩ := List.mem_map.1 ha
      exact hsig.trans (freqOf_nonneg w)

theorem gmeSimTbtIj_points {ij : LPos → ℂ → ℂ} {argsort : List ℝ → List ℕ}
    {eigh : ∀ n, Matrix (Fin n) (Fin n) ℂ → Fin n → ℝ} {guided : GuidedSolver} {S : GmeStruct} {gmax : ℝ} {onlyG : Bool}
    {opt : String} {ks : List R2} {sigma : ℝ} {numeig : ℕ} {rs : List KRes} {eff : List ℝ}
    {Es : List (Matrix (Fin (S.gvecT gmax).length) (Fin (S.gvecT gmax).length) ℂ)}
    (heff : S.layers.mapM (GmeLay.eff opt) = .ok eff) (hEs : S.layers.mapM (S.epsInvT gmax onlyG) = .ok Es)
    (h : gmeSimTbtIj ij argsort eigh guided S gmax onlyG opt ks sigma numeig = .ok rs) :
    ∀ (ik : ℕ) r, rs[ik]? = some r → ik < ks.length ∧
      ∃ basis, guided ((S.layers.map GmeLay.pos).zip eff) (S.gvecT gmax) ks ik = .ok basis ∧
      solveFull argsort (List.ofFn (eigh _ (gmeMatIj ij ((S.layers.map GmeLay.pos).zip eff) Es basis + 1))) sigma numeig =
        .ok r := by
  have h := tbt_ok h
  simp only [heff, hEs, bind, Except.bind] at h
  intro ik r hr
  obtain ⟨hi, e⟩ := List.getElem?_eq_some_iff.1 hr
  have hF := mapM_ok_forall h
  have hik : ik < ks.length := by have := hF.length_eq; rw [List.length_range] at this; omega
  have := hF.get (by simpa using hik) hi
  simp only [List.get_eq_getElem, List.getElem_range] at this
  split at this
  · cases this
  · rename_i b hb
    exact ⟨hik, b, hb, this.trans (by rw [e])⟩

/-- One wave vector of a `kz_symmetry` run. -/
theorem gmeSimKzTbt_at {ij : LPos → ℂ → ℂ} {argsort : List ℝ → List ℕ}
    {eigh : ∀ n, Matrix (Fin n) (Fin n) ℂ → Fin n → ℝ} {norm : NormFn} {fs : Finder} {o : GuidedOpts} {kz : KzSymm}
    {sparse : Bool} {thr : ℝ} {t : LatType} {angles : List ℝ} {S : GmeStruct} {gmax : ℝ} {onlyG : Bool} {opt : String}
    {ks : List R2} {sigma : ℝ} {numeig : ℕ} {rs : List KRes}
    (h : gmeSimKzTbt ij argsort eigh norm fs o kz sparse thr t angles S gmax onlyG opt ks sigma numeig = .ok rs) :
    ∃ eff Es, S.layers.mapM (GmeLay.eff opt) = .ok eff ∧ S.layers.mapM (S.epsInvT gmax onlyG) = .ok Es ∧
      ∀ (ik : ℕ) r, rs[ik]? = some r → ik < ks.length ∧ ∃ blocks th s,
        codeBlocks norm fs o ((S.layers.map GmeLay.pos).zip eff) (guidedGrid o (S.gvecT gmax) ks (ks.getD ik 0))
          (fun i => radPlane o.deltaGx (ks.getD ik 0) (S.gvecT gmax)[i]) = .ok blocks ∧ angles[ik]? = some th ∧
        separate sparse th thr o.inds (usedWaves (S.gvecT gmax) blocks)
          (natMat (gmeMatIj ij ((S.layers.map GmeLay.pos).zip eff) Es blocks.flatten)) = .ok s ∧
        solveKz argsort eigh kz blocks.flatten.length s sigma numeig = .ok r := by
  obtain ⟨-, -, eff, Es, heff, hEs, h⟩ := gmeSimKzTbt_points h
  refine ⟨eff, Es, heff, hEs, ?_⟩
  intro ik r hr
  obtain ⟨hi, e⟩ := List.getElem?_eq_some_iff.1 hr
  have hF := mapM_ok_forall h
  have hik : ik < ks.length := by have := hF.length_eq; rw [List.length_range] at this; omega
  have := hF.get (by simpa using hik) hi
  simp only [List.get_eq_getElem, List.getElem_range] at this
  obtain ⟨blocks, hb, this⟩ := bind_ok this
  obtain ⟨-, th, s, h2, h3, h4⟩ := kzPoint_ok this
  exact ⟨hik, blocks, th, s, hb, h2, h3, by rw [h4, e]⟩

/-- **C163.** Runs with `kz_symmetry='even'` and `'odd'` split the modes of the run without symmetry, whatever numbers of
modes are asked for: what either of them finds is found by the run without symmetry, unless that returns only modes nearer
to `eig_sigma`; and what the run without symmetry finds is found by one of the two, unless this one returns only modes
nearer. -/
theorem C163_sectors (argsort : List ℝ → List ℕ) (hs : ∀ l, IsArgsort l (argsort l))
    (eigh : ∀ n, Matrix (Fin n) (Fin n) ℂ → Fin n → ℝ) (he : GoodEigh eigh) (norm : NormFn) (fs : Finder) (o : GuidedOpts)
    (sparse : Bool) (thr : ℝ) (t : LatType) (angles : List ℝ) (S : GmeStruct) (gmax : ℝ) (onlyG : Bool) (opt : String)
    (ks : List R2) (sigma : ℝ) (numeig nE nO : ℕ) (rs rsE rsO : List KRes)
    (hm : ∀ (ik : ℕ) theta, ik < ks.length → angles[ik]? = some theta →
      OnMirrorT theta gmax o.deltaGx S (ks.getD ik 0))
    (h : gmeSimTbtIj ijExact argsort eigh (codeGuided norm fs o) S gmax onlyG opt ks sigma numeig = .ok rs)
    (hE : gmeSimKzTbt ijExact argsort eigh norm fs o .even sparse thr t angles S gmax onlyG opt ks sigma nE = .ok rsE)
    (hO : gmeSimKzTbt ijExact argsort eigh norm fs o .odd sparse thr t angles S gmax onlyG opt ks sigma nO = .ok rsO)
    (ik : ℕ) (r rE rO : KRes) (hr : rs[ik]? = some r) (hrE : rsE[ik]? = some rE) (hrO : rsO[ik]? = some rO) :
    (∀ f, f ∈ rE.freq ∨ f ∈ rO.freq → f ∈ r.freq ∨ ∀ g ∈ r.freq, |g - sigma| ≤ |f - sigma|) ∧
    ∀ f ∈ r.freq, (f ∈ rE.freq ∨ ∀ g ∈ rE.freq, |g - sigma| ≤ |f - sigma|) ∨
      (f ∈ rO.freq ∨ ∀ g ∈ rO.freq, |g - sigma| ≤ |f - sigma|) := by
  obtain ⟨eff, Es, heff, hEs, hE⟩ := gmeSimKzTbt_at hE
  obtain ⟨eff', Es', heff', hEs', hO⟩ := gmeSimKzTbt_at hO
  obtain rfl : eff = eff' := by rw [heff] at heff'; exact Except.ok.inj heff'
  obtain rfl : Es = Es' := by rw [hEs] at hEs'; exact Except.ok.inj hEs'
  obtain ⟨hik, basis, hb, h⟩ := gmeSimTbtIj_points heff hEs h ik r hr
  obtain ⟨-, blocks, th, s, hb1, hth, hsep, hE⟩ := hE ik rE hrE
  obtain ⟨-, blocks', th', s', hb2, hth', hsep', hO⟩ := hO ik rO hrO
  obtain rfl : blocks = blocks' := by rw [hb1] at hb2; exact Except.ok.inj hb2
  obtain rfl : th = th' := by rw [hth] at hth'; exact Option.some.inj hth'
  obtain rfl : s = s' := by rw [hsep] at hsep'; exact Except.ok.inj hsep'
  have hbas : codeGuided norm fs o ((S.layers.map GmeLay.pos).zip eff) (S.gvecT gmax) ks ik = .ok blocks.flatten :=
    (codeBlocks_facts _ _ _ _ _ _ _ hb1).1
  obtain rfl : basis = blocks.flatten := by rw [hb] at hbas; exact Except.ok.inj hbas
  have hset := (hm ik th hik hth).setup hEs hb1 (by simpa [usedWaves] using separate_len hsep)
  obtain ⟨-, -, -, e4⟩ := hset.eigs he _ sparse thr s hsep
  have hp := e4.map freqOf
  rw [List.map_append] at hp
  obtain ⟨n1, n2⟩ := solveFull_nearest hs h
  obtain ⟨e1, e2⟩ := solveOne_nearest hs hE
  obtain ⟨o1, o2⟩ := solveOne_nearest hs hO
  constructor
  · rintro f (hf | hf)
    · exact n2 f (hp.mem_iff.2 (List.mem_append_left _ (e1 f hf)))
    · exact n2 f (hp.mem_iff.2 (List.mem_append_right _ (o1 f hf)))
  · intro f hf
    rcases List.mem_append.1 (hp.mem_iff.1 (n1 f hf)) with hf | hf
    · exact Or.inl (e2 f hf)
    · exact Or.inr (o2 f hf)

/-! ### Example -/

/-- A slab in the square lattice with a round hole in the middle of an edge of the cell. -/
noncomputable def edgeStruct (J : ℝ → ℝ) : GmeStruct :=
  ⟨(2 * Real.pi, 0), (0, 2 * Real.pi), 1, [⟨.lower, 1, 1, none, []⟩, edgeHole J (0 + 1 / 2), ⟨.upper, 1, 1, none, []⟩]⟩

theorem edge_crystal (J : ℝ → ℝ) (gmax : ℝ) : MirrorCrystalT 0 gmax (edgeStruct J) := by
  have hp := Real.pi_gt_three
  refine ⟨?_, ?_, ?_, ?_, ?_⟩
  · intro g hg
    obtain ⟨⟨a, b⟩, hab, rfl⟩ := List.mem_map.1 hg
    obtain ⟨ha, h1, h2⟩ := (mem_tbtInds _ _ _).1 hab
    refine List.mem_map.2 ⟨(a, -b), (mem_tbtInds _ _ _).2 ⟨ha, by simp only at *; omega, by simp only at *; omega⟩, ?_⟩
    rw [mirror_x_axis]
    simp [gOf, edgeStruct]
  · intro i j x y hx hy hij
    obtain ⟨hi, rfl⟩ := List.getElem?_eq_some_iff.1 hx
    obtain ⟨hj, rfl⟩ := List.getElem?_eq_some_iff.1 hy
    have hnd := tbtInds_nodup ((edgeStruct J).n1 gmax) ((edgeStruct J).n2 gmax)
    have hl : (tbtInds ((edgeStruct J).n1 gmax) ((edgeStruct J).n2 gmax)).length = ((edgeStruct J).gvecT gmax).length := by
      rw [gvecT_len, tbtInds_length]
    have ne : tbtInd (edgeStruct J) gmax i ≠ tbtInd (edgeStruct J) gmax j := by
      unfold tbtInd
      rw [getD_of_len (by rw [hl]; exact hi), getD_of_len (by rw [hl]; exact hj)]
      exact fun e => hij (hnd.getElem_inj_iff.1 e)
    have ei := gvecT_getD (edgeStruct J) gmax i hi
    have ej := gvecT_getD (edgeStruct J) gmax j hj
    rw [getD_of_len hi] at ei
    rw [getD_of_len hj] at ej
    rw [ei, ej]
    generalize tbtInd (edgeStruct J) gmax i = u at ne
    generalize tbtInd (edgeStruct J) gmax j = v at ne
    have big : ∀ m n : ℤ, m ≠ n → (2.5e-7 : ℝ) ≤ |2 * Real.pi * m - 2 * Real.pi * n| := by
      intro m n hmn
      rw [← mul_sub, abs_mul, abs_of_pos (by positivity)]
      have : (1 : ℝ) ≤ |(m : ℝ) - n| := by exact_mod_cast Int.one_le_abs (sub_ne_zero.2 hmn)
      nlinarith
    by_cases h1 : u.1 = v.1
    · have h2 : u.2 ≠ v.2 := fun e => ne (Prod.ext h1 e)
      right
      simpa [gOf, edgeStruct] using big _ _ h2
    · left
      simpa [gOf, edgeStruct] using big _ _ h1
  · intro l hl s hs
    simp only [edgeStruct, List.mem_cons, List.not_mem_nil, or_false] at hl
    rcases hl with rfl | rfl | rfl
    · simp at hs
    · simp only [edgeHole, List.mem_singleton] at hs
      subst hs
      exact C12_circle_conj J _
    · simp at hs
  · intro l hl
    simp only [edgeStruct, List.mem_cons, List.not_mem_nil, or_false] at hl
    rcases hl with rfl | rfl | rfl
    · exact ⟨[], .refl _, .nil⟩
    · refine ⟨_, .refl _, .cons ⟨rfl, fun i => ?_⟩ .nil⟩
      have := circle_mirror J 0 ⟨0 + 1 / 2, 0, 0.2⟩ (latVec (2 * Real.pi, 0) (0, 2 * Real.pi) i)
      rw [mirror_x_axis ((0 + 1 / 2 : ℝ), (0 : ℝ))] at this
      simp only [neg_zero] at this
      exact this
    · exact ⟨[], .refl _, .nil⟩
  · intro l hl
    simp only [edgeStruct, List.mem_cons, List.not_mem_nil, or_false] at hl
    rcases hl with rfl | rfl | rfl
    · exact tbtAlike_of_real _ _ _ (layer_real _ _ (by simp)) (by norm_num)
    · exact tbtAlike_of_real _ _ _ (edgeHole_real J _ _ (.inr rfl)) (by norm_num [edgeHole])
    · exact tbtAlike_of_real _ _ _ (layer_real _ _ (by simp)) (by norm_num)

/-- On the `x` axis, with the default `delta_gx`. -/
example (J : ℝ → ℝ) (argsort : List ℝ → List ℕ) (hs : ∀ l, IsArgsort l (argsort l))
    (eigh : ∀ n, Matrix (Fin n) (Fin n) ℂ → Fin n → ℝ) (he : GoodEigh eigh) (norm : NormFn) (fs : Finder)
    (sparse : Bool) (xs : List ℝ) (angles : List ℝ) (ha : ∀ a ∈ angles, a = 0) (numeig : ℕ) (rs : List KRes)
    (h : gmeSimKzTbt ijExact argsort eigh norm fs ⟨[0, 1], true, 0.01, 1e-10, 100, 1e-15, 1e-15⟩ .both sparse 1e-8 .square
      angles (edgeStruct J) 3 false "average" (xs.map fun x => (x, 0)) 0 numeig = .ok rs) :
    ∃ rs', gmeSimTbtIj ijExact argsort eigh (codeGuided norm fs ⟨[0, 1], true, 0.01, 1e-10, 100, 1e-15, 1e-15⟩)
        (edgeStruct J) 3 false "average" (xs.map fun x => (x, 0)) 0 numeig = .ok rs' ∧
      List.Forall₂ (fun r r' => r.freq = r'.freq) rs rs' := by
  obtain ⟨rs', h1, h2⟩ := C163_both argsort hs eigh he norm fs _ sparse 1e-8 .square angles (edgeStruct J) 3 false
    "average" (xs.map fun x => (x, 0)) 0 numeig rs (by
      intro ik theta hik hth
      obtain rfl := ha theta (List.mem_of_getElem? hth)
      refine ⟨edge_crystal J 3, ?_⟩
      rw [mirror_x_axis]
      rw [List.length_map] at hik
      rw [List.getD_eq_getElem?_getD, List.getElem?_map, List.getElem?_eq_getElem hik]
      simp) h
  exact ⟨rs', h1, h2.imp fun _ _ h => h.2 le_rfl⟩

end Legume
