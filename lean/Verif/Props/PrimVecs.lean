import Verif.Props.IsoRun
import Verif.Props.ExcBands
import Verif.Props.Reciprocal

/-!
# C136: another choice of primitive vectors
-/
namespace Legume
open Spec Matrix
open scoped Real ComplexConjugate

/-! ### The same plane waves in another order -/

/-- The basis element at the plane wave numbered `ν` in the other order. -/
def BasisEl.renumber {N N' : ℕ} (ν : Fin N ≃ Fin N') (s : BasisEl N) : BasisEl N' := ⟨s.blk, ν s.ig, s.st⟩

theorem guidedBlock_renumber {N N' : ℕ} (ν : Fin N ≃ Fin N') (stack : List (LPos × ℝ)) (grid : List ℝ)
    (plane : Fin N → R2) (plane' : Fin N' → R2) (hp : ∀ i, plane' (ν i) = plane i) (modes : List (List GMode))
    (n mode : ℕ) :
    (∃ e, guidedBlock stack grid plane modes n mode = .error e ∧ guidedBlock stack grid plane' modes n mode = .error e) ∨
    ∃ b b', guidedBlock stack grid plane modes n mode = .ok b ∧ guidedBlock stack grid plane' modes n mode = .ok b' ∧
      b'.Perm (b.map (BasisEl.renumber ν)) := by
  classical
  unfold guidedBlock
  cases modes[mode / 2]? with
  | none => exact Or.inl ⟨_, rfl, rfl⟩
  | some om =>
    simp only
    cases gsOf grid om with
    | nil => exact Or.inl ⟨_, rfl, rfl⟩
    | cons gs0 gs =>
      refine Or.inr ⟨_, _, rfl, rfl, ?_⟩
      have hperm : (List.finRange N').Perm ((List.finRange N).map ν) := by
        refine (List.perm_ext_iff_of_nodup (List.nodup_finRange N') ((List.nodup_finRange N).map ν.injective)).2 ?_
        intro i
        simp only [List.mem_finRange, List.mem_map, true_and, true_iff]
        exact ⟨ν.symm i, ν.apply_symm_apply i⟩
      refine (hperm.filterMap _).trans (List.Perm.of_eq ?_)
      rw [List.filterMap_map, List.map_filterMap]
      refine List.filterMap_congr fun i _ => ?_
      rw [Function.comp, hp]
      split_ifs <;> rfl

theorem basisOf_renumber {N N' : ℕ} (ν : Fin N ≃ Fin N') (norm : NormFn) (fs : Finder) (o : GuidedOpts)
    (stack : List (LPos × ℝ)) (grid : List ℝ) (plane : Fin N → R2) (plane' : Fin N' → R2)
    (hp : ∀ i, plane' (ν i) = plane i) :
    (∃ e, basisOf norm fs o stack grid plane = .error e ∧ basisOf norm fs o stack grid plane' = .error e) ∨
    ∃ b b', basisOf norm fs o stack grid plane = .ok b ∧ basisOf norm fs o stack grid plane' = .ok b' ∧
      b'.Perm (b.map (BasisEl.renumber ν)) := by
  unfold basisOf
  simp only [bind, Except.bind]
  cases computeGuided norm fs o stack .te grid with
  | error e => exact Or.inl ⟨_, rfl, rfl⟩
  | ok te =>
    simp only
    cases computeGuided norm fs o stack .tm grid with
    | error e => exact Or.inl ⟨_, rfl, rfl⟩
    | ok tm =>
      simp only
      cases gmodeInclude o.inds te.length tm.length with
      | error e => exact Or.inl ⟨_, rfl, rfl⟩
      | ok inc =>
        simp only
        have key : ∀ g : ℕ → List (List GMode), _ := fun g =>
          mapM_rel (R := fun a b => a = b) (Q := fun b b' => b'.Perm (b.map (BasisEl.renumber ν)))
            (fun (n : ℕ) => guidedBlock stack grid plane (g n) n (inc.getD n 0))
            (fun (n : ℕ) => guidedBlock stack grid plane' (g n) n (inc.getD n 0))
            (fun a b hab => by subst hab; exact guidedBlock_renumber ν stack grid plane plane' hp _ _ _)
            (List.forall₂_same.2 fun x _ => rfl : List.Forall₂ (fun a b => a = b) (List.range inc.length) _)
        rcases key (fun n => match modePol (inc.getD n 0) with | .te => te | .tm => tm) with ⟨e, h1, h2⟩ | ⟨x, y, h1, h2, h3⟩
        · exact Or.inl ⟨e, by erw [h1], by erw [h2]⟩
        · refine Or.inr ⟨x.flatten, y.flatten, by erw [h1], by erw [h2], perm_flatten _ h3⟩

theorem gmeMatIj_renumber {N N' : ℕ} (ν : Fin N ≃ Fin N') (stack : List (LPos × ℝ)) (Es : List (Matrix (Fin N) (Fin N) ℂ))
    (Es' : List (Matrix (Fin N') (Fin N') ℂ)) (hH : ∀ E ∈ Es, E.IsHermitian) (hH' : ∀ E ∈ Es', E.IsHermitian)
    (hE : List.Forall₂ (fun E E' => ∀ i j, E' (ν i) (ν j) = E i j) Es Es') (b : List (BasisEl N)) (b' : List (BasisEl N'))
    (hb : b.Pairwise fun s t => s.blk ≤ t.blk) (hb' : b'.Pairwise fun s t => s.blk ≤ t.blk)
    (hp : b'.Perm (b.map (BasisEl.renumber ν))) :
    (gmeMatIj ijExact stack Es' b' + 1).charpoly = (gmeMatIj ijExact stack Es b + 1).charpoly := by
  obtain ⟨e, he⟩ := perm_equiv hp
  have hlen : (b.map (BasisEl.renumber ν)).length = b.length := List.length_map _
  set e' : Fin b'.length ≃ Fin b.length := e.trans (finCongr hlen) with he'
  have hel : ∀ i, b'[i] = (b[e' i]).renumber ν := by
    intro i
    rw [he]
    simp only [he', Fin.getElem_fin, List.getElem_map, Equiv.trans_apply, finCongr_apply, Fin.val_cast]
  have hel' : ∀ i : Fin b.length, b'[e'.symm i] = (b[i]).renumber ν := by
    intro i
    have := hel (e'.symm i)
    simpa only [Equiv.apply_symm_apply] using this
  have hent : ∀ i j, gmeMatIj ijExact stack Es' b' (e'.symm i) (e'.symm j) = gmeMatIj ijExact stack Es b i j := by
    intro i j
    rw [gmeMatIj_exact stack Es' hH' b' hb', gmeMatIj_exact stack Es hH b hb, hel', hel']
    have : (Es'.map fun E => E (b[i].renumber ν).ig (b[j].renumber ν).ig) = Es.map fun E => E b[i].ig b[j].ig := by
      clear hH hH'
      induction hE with
      | nil => rfl
      | cons h _ ih =>
        rw [List.map_cons, List.map_cons, ih]
        congr 1
        exact h _ _
    rw [this]
    rfl
  have h2 := charpoly_reindex e' (gmeMatIj ijExact stack Es' b' + 1)
  rw [← h2]
  congr 1
  ext i j
  simp only [reindex_apply, submatrix_apply, Matrix.add_apply, Matrix.one_apply, e'.symm.injective.eq_iff, hent]

theorem gme_entry_diff (S : GmeStruct) (l : GmeLay) (hr : ∀ s ∈ l.shapes, RealShape s) (gmax : ℝ) (i j) :
    S.epsMat gmax l i j = S.ft l ((S.gvec gmax)[j] - (S.gvec gmax)[i]) := by
  obtain ⟨ind, -, hind, he⟩ := gme_entry S l hr gmax
  have hN : (absInds S.b1 S.b2 gmax).length = (S.gvec gmax).length := by simp [GmeStruct.gvec]
  have hg : ∀ i : Fin (S.gvec gmax).length, (S.gvec gmax)[i] = latVec S.b1 S.b2 (ind i) := by
    intro i
    rw [hind, getD_of_len (by rw [hN]; exact i.2), latVec_gOf]
    exact List.getElem_map _
  rw [he, latVec_sub, hg, hg]

open Classical in
theorem homAbs_gvec (S : GmeStruct) (l : GmeLay) (gmax : ℝ) :
    homAbs (S.ft l) S.b1 S.b2 (absInds S.b1 S.b2 gmax) ↔
      ∑ i : Fin (S.gvec gmax).length, ∑ j : Fin (S.gvec gmax).length,
        (if 1e-10 < norm2 ((S.gvec gmax)[j] - (S.gvec gmax)[i]) then ‖S.epsMat gmax l i j‖ else 0) < 1e-10 := by
  have hN : (absInds S.b1 S.b2 gmax).length = (S.gvec gmax).length := by simp [GmeStruct.gvec]
  have hg : ∀ i : Fin (S.gvec gmax).length, (S.gvec gmax)[i] = gOf S.b1 S.b2 ((absInds S.b1 S.b2 gmax).getD i 0) := by
    intro i
    rw [getD_of_len (by rw [hN]; exact i.2)]
    exact List.getElem_map _
  unfold homAbs
  rw [hN, Finset.sum_range]
  simp only [Finset.sum_range]
  have key : ∀ i j : Fin (S.gvec gmax).length, gOf S.b1 S.b2 (((absInds S.b1 S.b2 gmax).getD j 0).1 -
      ((absInds S.b1 S.b2 gmax).getD i 0).1, ((absInds S.b1 S.b2 gmax).getD j 0).2 - ((absInds S.b1 S.b2 gmax).getD i 0).2) =
      (S.gvec gmax)[j] - (S.gvec gmax)[i] := by
    intro i j
    rw [hg, hg]
    simp only [gOf, Prod.mk_sub_mk, Prod.mk.injEq]
    push_cast
    constructor <;> ring
  simp only [key]
  rfl

/-- Two structures with the same layers and cell area, whose plane waves differ in their order only. -/
structure SameWaves (gmax : ℝ) (S S' : GmeStruct) : Prop where
  area : S'.ecArea = S.ecArea
  layers : S'.layers = S.layers
  waves : (S.gvec gmax).Perm (S'.gvec gmax)

theorem epsInv_renumber {gmax : ℝ} {S S' : GmeStruct} (h : SameWaves gmax S S') (onlyG : Bool)
    (ν : Fin (S.gvec gmax).length ≃ Fin (S'.gvec gmax).length) (hν : ∀ i, (S.gvec gmax)[i] = (S'.gvec gmax)[ν i])
    (l : GmeLay) (hr : ∀ s ∈ l.shapes, RealShape s) :
    (∃ e, S.epsInv gmax onlyG l = .error e ∧ S'.epsInv gmax onlyG l = .error e) ∨
      ∃ E E', S.epsInv gmax onlyG l = .ok E ∧ S'.epsInv gmax onlyG l = .ok E' ∧ ∀ i j, E' (ν i) (ν j) = E i j := by
  classical
  have hft : S'.ft l = S.ft l := by unfold GmeStruct.ft; rw [h.area]
  have hent : ∀ i j, S'.epsMat gmax l (ν i) (ν j) = S.epsMat gmax l i j := by
    intro i j
    rw [gme_entry_diff S' l hr, gme_entry_diff S l hr, hft, hν, hν]
  have hsub : (S'.epsMat gmax l).submatrix ν ν = S.epsMat gmax l := by ext i j; exact hent i j
  have hdet : (S'.epsMat gmax l).det = (S.epsMat gmax l).det := by rw [← hsub, det_submatrix_equiv_self]
  have hhom : homAbs (S'.ft l) S'.b1 S'.b2 (absInds S'.b1 S'.b2 gmax) ↔
      homAbs (S.ft l) S.b1 S.b2 (absInds S.b1 S.b2 gmax) := by
    rw [homAbs_gvec, homAbs_gvec, ← Equiv.sum_comp ν]
    simp only [← Equiv.sum_comp ν (fun j => ite _ _ _), ← hν, hent]
  unfold GmeStruct.epsInv
  simp only [hhom, hdet]
  split_ifs with c1 c2
  · refine Or.inr ⟨_, _, rfl, rfl, fun i j => ?_⟩
    rw [Matrix.smul_apply, Matrix.smul_apply, Matrix.one_apply, Matrix.one_apply]
    simp only [ν.injective.eq_iff]
    congr 2
    have hi : 0 < (S.gvec gmax).length := i.pos
    have hi' : 0 < (S'.gvec gmax).length := (ν i).pos
    have e1 := gme_entry_diff S l hr gmax ⟨0, hi⟩ ⟨0, hi⟩
    have e2 := gme_entry_diff S' l hr gmax ⟨0, hi'⟩ ⟨0, hi'⟩
    rw [sub_self] at e1 e2
    rw [hft] at e2
    exact e2.trans e1.symm
  · exact Or.inl ⟨_, rfl, rfl⟩
  · refine Or.inr ⟨_, _, rfl, rfl, fun i j => ?_⟩
    rw [← hsub, inv_submatrix_equiv, submatrix_apply]

/-- **C136 (order of the plane waves).** Runs of two structures which differ only by the order of the plane waves have the
same result, whether or not they fail. -/
theorem C136_waves (argsort : List ℝ → List ℕ) (eigh : ∀ n, Matrix (Fin n) (Fin n) ℂ → Fin n → ℝ)
    (he : SortedEigh eigh) (norm : NormFn) (fs : Finder) (o : GuidedOpts) (gmax : ℝ) (S S' : GmeStruct)
    (h : SameWaves gmax S S') (hr : ∀ l ∈ S.layers, ∀ s ∈ l.shapes, RealShape s) (onlyG : Bool) (opt : String)
    (ks : List R2) (sigma : ℝ) (numeig : ℕ) :
    gmeSimIj ijExact argsort eigh (codeGuided norm fs o) S' gmax onlyG opt ks sigma numeig =
      gmeSimIj ijExact argsort eigh (codeGuided norm fs o) S gmax onlyG opt ks sigma numeig := by
  obtain ⟨ν, hν⟩ := perm_equiv h.waves
  unfold gmeSimIj
  rw [h.layers]
  cases S.layers.mapM (GmeLay.eff opt) with
  | error e => rfl
  | ok eff =>
    simp only [bind, Except.bind]
    rcases mapM_rel (R := fun a b => a = b ∧ a ∈ S.layers) (Q := fun E E' => ∀ i j, E' (ν i) (ν j) = E i j)
      (S.epsInv gmax onlyG) (S'.epsInv gmax onlyG)
      (fun a b hab => by obtain ⟨rfl, ha⟩ := hab; exact epsInv_renumber h onlyG ν hν a (hr a ha))
      (List.forall₂_same.2 fun x hx => ⟨rfl, hx⟩ : List.Forall₂ (fun a b => a = b ∧ a ∈ S.layers) S.layers S.layers)
      with ⟨e, h1, h2⟩ | ⟨Es, Es', h1, h2, h3⟩
    · rw [h1, h2]
    · rw [h1, h2]
      simp only
      refine mapM_range_congr fun ik hik => ?_
      unfold codeGuided
      have hgrid : guidedGrid o (S'.gvec gmax) ks (ks.getD ik 0) = guidedGrid o (S.gvec gmax) ks (ks.getD ik 0) := by
        have hid : Similarity 1 (id : R2 → R2) := ⟨one_pos, fun _ _ _ _ => rfl, fun a b => by simp⟩
        exact guidedGrid_image hid o (by rw [List.map_id]; exact h.waves.symm) rfl (Or.inr (List.map_id _).symm)
      rw [hgrid]
      rcases basisOf_renumber ν norm fs o ((S.layers.map GmeLay.pos).zip eff)
        (guidedGrid o (S.gvec gmax) ks (ks.getD ik 0)) (fun i => radPlane o.deltaGx (ks.getD ik 0) (S.gvec gmax)[i])
        (fun i => radPlane o.deltaGx (ks.getD ik 0) (S'.gvec gmax)[i]) (fun i => by rw [hν]) with ⟨e, h1, h2⟩ | ⟨b, b', k1, k2, hp⟩
      · rw [h1, h2]
      · rw [k1, k2]
        simp only
        congr 1
        refine sortedEigh_eq he _ _ ((gmeMatIj_hermitian _ _ _ _).add isHermitian_one)
          ((gmeMatIj_hermitian _ _ _ _).add isHermitian_one) ?_
        refine gmeMatIj_renumber ν _ Es Es' ?_ ?_ h3 b b' (basisOf_sorted k1) (basisOf_sorted k2) hp
        · intro E hE'
          obtain ⟨l, hl, h'⟩ := forall2_mem_right (mapM_ok_forall h1) E hE'
          exact epsInv_hermitian S gmax onlyG l (hr l hl) E h'
        · intro E hE'
          obtain ⟨l, hl, h'⟩ := forall2_mem_right (mapM_ok_forall h2) E hE'
          exact epsInv_hermitian S' gmax onlyG l (hr l hl) E h'

/-! ### Primitive vectors -/

/-- Both pairs of vectors generate the same lattice. -/
def SameLattice (b1 b2 b1' b2' : R2) : Prop :=
  ∀ g : R2, (∃ m n : ℤ, g = comb b1 b2 m n) ↔ ∃ m n : ℤ, g = comb b1' b2' m n

/-- `b1`, `b2` enclose an angle between 30 and 150 degrees. -/
def NotOblique (b1 b2 : R2) : Prop :=
  √(b1.1 ^ 2 + b1.2 ^ 2) * √(b2.1 ^ 2 + b2.2 ^ 2) ≤ 2 * |b1.1 * b2.2 - b1.2 * b2.1|

/-- The plane waves are the vectors of the lattice in the disc, whatever the primitive vectors. -/
theorem gvec_disc {b1 b2 : R2} {gmax d : ℝ} (hg : 0 ≤ gmax) (hdet : b1.1 * b2.2 - b1.2 * b2.1 ≠ 0)
    (ho : NotOblique b1 b2) (hw : (absWindow b1 b2 gmax).length * (1e-10 : ℝ) ≤ d)
    (hgap : ∀ m n : ℤ, norm2 (comb b1 b2 m n) ≤ 2 * π * gmax ∨ 2 * π * (gmax + d) < norm2 (comb b1 b2 m n)) (g : R2) :
    g ∈ gvecAbs b1 b2 gmax ↔ (∃ m n : ℤ, g = comb b1 b2 m n) ∧ norm2 g ≤ 2 * π * gmax := by
  constructor
  · intro hm
    obtain ⟨⟨m, n, rfl⟩, h2, -⟩ := (C18_sound b1 b2 gmax).2 g hm
    refine ⟨⟨m, n, rfl⟩, (hgap m n).resolve_right fun hc => ?_⟩
    have hp := Real.pi_pos
    have h3 : norm2 (comb b1 b2 m n) ≤ 2 * π * (gmax + (absWindow b1 b2 gmax).length * 1e-10) := h2
    nlinarith
  · rintro ⟨⟨m, n, rfl⟩, h⟩
    refine C18_complete_partial b1 b2 gmax gmax hg hdet ?_ (gmax_le_gmaxEff _ _) m n h
    have : 0 ≤ gmax := hg
    unfold NotOblique at ho
    nlinarith

/-- Plane waves of the same lattice with other primitive vectors. -/
theorem gvecAbs_perm {b1 b2 b1' b2' : R2} {gmax d : ℝ} (hg : 0 ≤ gmax) (hlat : SameLattice b1 b2 b1' b2')
    (hdet : b1.1 * b2.2 - b1.2 * b2.1 ≠ 0) (hdet' : b1'.1 * b2'.2 - b1'.2 * b2'.1 ≠ 0) (ho : NotOblique b1 b2)
    (ho' : NotOblique b1' b2') (hw : (absWindow b1 b2 gmax).length * (1e-10 : ℝ) ≤ d)
    (hw' : (absWindow b1' b2' gmax).length * (1e-10 : ℝ) ≤ d)
    (hgap : ∀ m n : ℤ, norm2 (comb b1 b2 m n) ≤ 2 * π * gmax ∨ 2 * π * (gmax + d) < norm2 (comb b1 b2 m n)) :
    (gvecAbs b1 b2 gmax).Perm (gvecAbs b1' b2' gmax) := by
  refine (List.perm_ext_iff_of_nodup ((C18_sound b1 b2 gmax).1 hdet) ((C18_sound b1' b2' gmax).1 hdet')).2 fun g => ?_
  rw [gvec_disc hg hdet ho hw hgap, gvec_disc hg hdet' ho' hw' ?_, hlat g]
  intro m n
  obtain ⟨m', n', e⟩ := (hlat _).2 ⟨m, n, rfl⟩
  rw [e]
  exact hgap m' n'

/-- **C136 (primitive vectors).** Describing the same lattice by other primitive vectors leaves the result of every run
unchanged, if both pairs enclose angles between 30 and 150 degrees and no reciprocal lattice vector is longer than the
cutoff by less than the rounding of the code. -/
theorem C136_primitive (argsort : List ℝ → List ℕ) (eigh : ∀ n, Matrix (Fin n) (Fin n) ℂ → Fin n → ℝ)
    (he : SortedEigh eigh) (norm : NormFn) (fs : Finder) (o : GuidedOpts) (gmax : ℝ) (hg : 0 ≤ gmax) (S S' : GmeStruct)
    (harea : S'.ecArea = S.ecArea) (hlay : S'.layers = S.layers) (hlat : SameLattice S.b1 S.b2 S'.b1 S'.b2)
    (hdet : S.b1.1 * S.b2.2 - S.b1.2 * S.b2.1 ≠ 0) (hdet' : S'.b1.1 * S'.b2.2 - S'.b1.2 * S'.b2.1 ≠ 0)
    (ho : NotOblique S.b1 S.b2) (ho' : NotOblique S'.b1 S'.b2) (d : ℝ)
    (hw : (absWindow S.b1 S.b2 gmax).length * (1e-10 : ℝ) ≤ d)
    (hw' : (absWindow S'.b1 S'.b2 gmax).length * (1e-10 : ℝ) ≤ d)
    (hgap : ∀ m n : ℤ, norm2 (comb S.b1 S.b2 m n) ≤ 2 * π * gmax ∨ 2 * π * (gmax + d) < norm2 (comb S.b1 S.b2 m n))
    (hr : ∀ l ∈ S.layers, ∀ s ∈ l.shapes, RealShape s) (onlyG : Bool) (opt : String) (ks : List R2) (sigma : ℝ)
    (numeig : ℕ) :
    gmeSimIj ijExact argsort eigh (codeGuided norm fs o) S' gmax onlyG opt ks sigma numeig =
      gmeSimIj ijExact argsort eigh (codeGuided norm fs o) S gmax onlyG opt ks sigma numeig := by
  refine C136_waves argsort eigh he norm fs o gmax S S' ⟨harea, hlay, ?_⟩ hr onlyG opt ks sigma numeig
  exact gvecAbs_perm hg hlat hdet hdet' ho ho' hw hw' hgap

theorem excWell_diff (W : ExcWell) (t : TruncG) (gmax : ℝ) (i j) :
    latVec W.b1 W.b2 (W.idx t gmax j - W.idx t gmax i) =
      ((t.sgn : ℝ) * ((W.gvec t gmax)[j].1 - (W.gvec t gmax)[i].1), (t.sgn : ℝ) * ((W.gvec t gmax)[j].2 - (W.gvec t gmax)[i].2)) := by
  rw [excWell_gvec, excWell_gvec]
  simp only [latVec, ExcWell.idx, Prod.fst_sub, Prod.snd_sub, Prod.smul_fst, Prod.smul_snd, smul_eq_mul]
  push_cast
  ext <;> simp only <;> ring

/-- **C136 (excitons).** The same holds for the energies of excitons with the default truncation. -/
theorem C136_excitons (argsort : List ℝ → List ℕ) (hs : ∀ l, IsArgsort l (argsort l))
    (eigh : ∀ n, Matrix (Fin n) (Fin n) ℂ → Fin n → ℝ) (he : GoodEigh eigh) (W : ExcWell) (b1' b2' : R2)
    (hb : Resolved W.b1 W.b2) (hb' : Resolved b1' b2') (hr : ∀ s ∈ W.shapes, RealFt s) (gmax : ℝ) (hg : 0 ≤ gmax)
    (hlat : SameLattice W.b1 W.b2 b1' b2')
    (hdet : W.b1.1 * W.b2.2 - W.b1.2 * W.b2.1 ≠ 0) (hdet' : b1'.1 * b2'.2 - b1'.2 * b2'.1 ≠ 0)
    (ho : NotOblique W.b1 W.b2) (ho' : NotOblique b1' b2') (d : ℝ)
    (hw : (absWindow W.b1 W.b2 gmax).length * (1e-10 : ℝ) ≤ d) (hw' : (absWindow b1' b2' gmax).length * (1e-10 : ℝ) ≤ d)
    (hgap : ∀ m n : ℤ, norm2 (comb W.b1 W.b2 m n) ≤ 2 * π * gmax ∨ 2 * π * (gmax + d) < norm2 (comb W.b1 W.b2 m n))
    (ks : List R2) (numeig : ℕ) :
    ∃ rs rs', excSim argsort eigh W .abs gmax ks numeig = .ok rs ∧
      excSim argsort eigh { W with b1 := b1', b2 := b2' } .abs gmax ks numeig = .ok rs' ∧
      rs.length = ks.length ∧ rs'.map Prod.snd = rs.map Prod.snd := by
  set W' : ExcWell := { W with b1 := b1', b2 := b2' } with hW'
  refine ⟨_, _, excSim_ok argsort eigh W hb hr .abs gmax hg ks numeig, excSim_ok argsort eigh W' hb' hr .abs gmax hg ks numeig,
    by simp, ?_⟩
  simp only [List.map_map]
  refine List.map_congr_left fun k _ => ?_
  simp only [Function.comp]
  congr 1
  unfold excRes
  refine excSelect_same argsort hs eigh he _ _ (excWell_ham_hermitian W' hr .abs _ _) (excWell_ham_hermitian W hr .abs gmax _)
    ?_ _
  obtain ⟨ν, hν⟩ := perm_equiv (gvecAbs_perm hg hlat hdet hdet' ho ho' hw hw' hgap)
  change Fin (W.gvec .abs gmax).length ≃ Fin (W'.gvec .abs gmax).length at ν
  have hν' : ∀ i : Fin (W.gvec .abs gmax).length, (W.gvec .abs gmax)[i] = (W'.gvec .abs gmax)[ν i] := hν
  have key : (W'.ham .abs gmax k + 1).submatrix ν ν = W.ham .abs gmax k + 1 := by
    ext i j
    rw [submatrix_apply, Matrix.add_apply, Matrix.add_apply, excWell_ham_apply, excWell_ham_apply, Matrix.one_apply,
      Matrix.one_apply, excWell_diff, excWell_diff, ← excWell_gvec, ← excWell_gvec, ← hν', ← hν']
    simp only [ν.injective.eq_iff]
    rfl
  rw [← key]
  have := charpoly_reindex ν.symm (W'.ham .abs gmax k + 1)
  rw [reindex_apply, Equiv.symm_symm] at this
  exact this.symm

/-! ### Examples -/

/-- A slab with a round hole in the square lattice with primitive vectors given by `b2`. -/
noncomputable def shearedSlab (J : ℝ → ℝ) (b2 : R2) : GmeStruct :=
  ⟨(2 * π, 0), b2, 1, [⟨.lower, 1, 1, none, []⟩, ⟨.inner 0.5, 12, 11, none, [⟨1, Circle.ft J ⟨0.1, 0.2, 0.3⟩⟩]⟩,
    ⟨.upper, 1, 1, none, []⟩]⟩

theorem absWindow_small (b1 b2 : R2) (h1 : 2 * π ≤ norm2 b1) (h2 : 2 * π ≤ norm2 b2) :
    ((absWindow b1 b2 5).length : ℝ) * 1e-10 ≤ 1e-6 := by
  have key : ∀ b : R2, 2 * π ≤ norm2 b → nmaxOf (4 * π) 5 b ≤ 10 := by
    intro b hb
    have hp := Real.pi_pos
    unfold nmaxOf
    refine Nat.floor_le_of_le ?_
    rw [div_le_iff₀ (by linarith)]
    push_cast
    nlinarith
  have h : (absWindow b1 b2 5).length ≤ 21 * 21 := by
    rw [absWindow, tbtInds_length]
    exact Nat.mul_le_mul (by have := key _ h1; omega) (by have := key _ h2; omega)
  have : ((absWindow b1 b2 5).length : ℝ) ≤ 441 := by exact_mod_cast h
  nlinarith

theorem norm2_square (m n : ℤ) : norm2 (comb (2 * π, 0) (0, 2 * π) m n) = 2 * π * √((m : ℝ) ^ 2 + n ^ 2) := by
  have hp := Real.pi_pos
  unfold norm2 comb
  rw [show ((2 * π : ℝ)) * √((m : ℝ) ^ 2 + n ^ 2) = √((2 * π) ^ 2 * ((m : ℝ) ^ 2 + n ^ 2)) by
    rw [Real.sqrt_mul (by positivity), Real.sqrt_sq (by positivity)]]
  congr 1
  simp only
  ring

/-- The square lattice given by two sides of the square, or by a side and the diagonal. -/
theorem square_sheared : SameLattice (2 * π, 0) (0, 2 * π) (2 * π, 0) (2 * π, 2 * π) ∧
    NotOblique (2 * π, 0) (0, 2 * π) ∧ NotOblique (2 * π, 0) (2 * π, 2 * π) ∧
    ((absWindow (2 * π, 0) (0, 2 * π) 5).length : ℝ) * 1e-10 ≤ 1e-6 ∧
    ((absWindow (2 * π, 0) (2 * π, 2 * π) 5).length : ℝ) * 1e-10 ≤ 1e-6 ∧
    ∀ m n : ℤ, norm2 (comb (2 * π, 0) (0, 2 * π) m n) ≤ 2 * π * 5 ∨
      2 * π * (5 + 1e-6) < norm2 (comb (2 * π, 0) (0, 2 * π) m n) := by
  have hp := Real.pi_pos
  have h2 : √(2 : ℝ) ≤ 2 := by
    rw [Real.sqrt_le_left (by norm_num)]
    norm_num
  have h2' : 1 ≤ √(2 : ℝ) := by
    rw [Real.one_le_sqrt]
    norm_num
  have n1 : norm2 ((2 * π, 0) : R2) = 2 * π := by simp [norm2, Real.sqrt_sq (by positivity : (0 : ℝ) ≤ 2 * π)]
  have n2 : norm2 ((0, 2 * π) : R2) = 2 * π := by simp [norm2, Real.sqrt_sq (by positivity : (0 : ℝ) ≤ 2 * π)]
  have n3 : norm2 ((2 * π, 2 * π) : R2) = 2 * π * √2 := by
    unfold norm2
    rw [show (2 * π) ^ 2 + (2 * π) ^ 2 = (2 * π) ^ 2 * 2 by ring, Real.sqrt_mul (by positivity), Real.sqrt_sq (by positivity)]
  refine ⟨?_, ?_, ?_, absWindow_small _ _ n1.ge n2.ge, absWindow_small _ _ n1.ge (by rw [n3]; nlinarith), ?_⟩
  · intro g
    constructor
    · rintro ⟨m, n, rfl⟩
      refine ⟨m - n, n, ?_⟩
      simp only [comb]
      push_cast
      ext <;> simp <;> ring
    · rintro ⟨m, n, rfl⟩
      refine ⟨m + n, n, ?_⟩
      simp only [comb]
      push_cast
      ext <;> simp <;> ring
  · change norm2 _ * norm2 _ ≤ _
    rw [n1, n2, mul_zero, sub_zero, abs_of_pos (by positivity)]
    nlinarith
  · change norm2 _ * norm2 _ ≤ _
    rw [n1, n3, zero_mul, sub_zero, abs_of_pos (by positivity)]
    nlinarith [mul_pos hp hp]
  · intro m n
    rw [norm2_square]
    rcases le_or_gt (m ^ 2 + n ^ 2) 25 with h | h
    · left
      have : (m : ℝ) ^ 2 + (n : ℝ) ^ 2 ≤ 25 := by exact_mod_cast h
      refine mul_le_mul_of_nonneg_left ?_ (by positivity)
      rw [Real.sqrt_le_left (by norm_num)]
      norm_num
      exact this
    · right
      have : (26 : ℝ) ≤ (m : ℝ) ^ 2 + (n : ℝ) ^ 2 := by exact_mod_cast h
      refine mul_lt_mul_of_pos_left ?_ (by positivity)
      refine lt_of_lt_of_le ?_ (Real.sqrt_le_sqrt this)
      rw [Real.lt_sqrt (by norm_num)]
      norm_num

/-- A slab with a hole. -/
example (J : ℝ → ℝ) (argsort : List ℝ → List ℕ) (eigh : ∀ n, Matrix (Fin n) (Fin n) ℂ → Fin n → ℝ)
    (he : SortedEigh eigh) (norm : NormFn) (fs : Finder) (o : GuidedOpts) (ks : List R2) (sigma : ℝ) (numeig : ℕ) :
    gmeSimIj ijExact argsort eigh (codeGuided norm fs o) (shearedSlab J (2 * π, 2 * π)) 5 false "average" ks sigma numeig =
      gmeSimIj ijExact argsort eigh (codeGuided norm fs o) (shearedSlab J (0, 2 * π)) 5 false "average" ks sigma numeig := by
  obtain ⟨h1, h2, h3, h4, h5, h6⟩ := square_sheared
  refine C136_primitive argsort eigh he norm fs o 5 (by norm_num) (shearedSlab J (0, 2 * π)) (shearedSlab J (2 * π, 2 * π))
    rfl rfl h1 (by simp [shearedSlab, Real.pi_ne_zero]) (by simp [shearedSlab, Real.pi_ne_zero]) h2 h3 1e-6 h4 h5 h6 ?_ false
    "average" ks sigma numeig
  intro l hl s hs
  simp only [shearedSlab, List.mem_cons, List.not_mem_nil, or_false] at hl
  rcases hl with rfl | rfl | rfl
  · simp at hs
  · simp only [List.mem_singleton] at hs
    subst hs
    exact C12_circle_conj J _
  · simp at hs

/-- A well with two discs in the square lattice, with primitive vectors given by `b2`. -/
noncomputable def shearedWell (J : ℝ → ℝ) (V : ℝ) (b2 : R2) : ExcWell :=
  ⟨(2 * π, 0), b2, 1, [Circle.ft J ⟨0.1, 0.2, 0.3⟩, Circle.ft J ⟨0.4, 0.4, 0.05⟩], V, 1e-7, 1, 1.5, -0.1, 2, 3⟩

theorem resolved_sheared : Resolved (2 * π, 0) (2 * π, 2 * π) := by
  rintro m n hmn ⟨e1, e2⟩
  refine resolved_square (m + n) n (fun e => hmn ?_) ⟨?_, ?_⟩
  · simp only [Prod.mk.injEq] at e ⊢
    omega
  · simp only at e1 ⊢
    push_cast
    rw [zero_mul, add_zero, mul_add]
    exact e1
  · simpa only [zero_mul] using e2

/-- Excitons in this well. -/
example (J : ℝ → ℝ) (V : ℝ) (argsort : List ℝ → List ℕ) (hs : ∀ l, IsArgsort l (argsort l))
    (eigh : ∀ n, Matrix (Fin n) (Fin n) ℂ → Fin n → ℝ) (he : GoodEigh eigh) (ks : List R2) :
    ∃ rs rs', excSim argsort eigh (shearedWell J V (0, 2 * π)) .abs 5 ks 3 = .ok rs ∧
      excSim argsort eigh (shearedWell J V (2 * π, 2 * π)) .abs 5 ks 3 = .ok rs' ∧
      rs.length = ks.length ∧ rs'.map Prod.snd = rs.map Prod.snd := by
  obtain ⟨h1, h2, h3, h4, h5, h6⟩ := square_sheared
  refine C136_excitons argsort hs eigh he (shearedWell J V (0, 2 * π)) (2 * π, 0) (2 * π, 2 * π) resolved_square
    resolved_sheared ?_ 5 (by norm_num) h1 (by simp [shearedWell, Real.pi_ne_zero]) (by simp [Real.pi_ne_zero]) h2 h3 1e-6
    h4 h5 h6 ks 3
  simp only [shearedWell, List.mem_cons, List.not_mem_nil, or_false]
  rintro s (rfl | rfl) <;> exact C12_circle_conj J _

end Legume
