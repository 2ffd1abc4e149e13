import Verif.Lemmas.IsoRun
import Verif.Props.KzRun

/-!
# Guided-mode runs of rotated, mirrored and symmetric crystals (C123)
-/
namespace Legume

open Spec Matrix
open scoped ComplexConjugate

/-- Layer `l'` is layer `l` with all shapes mapped by `q`; `b1`, `b2` are the reciprocal vectors of the original. -/
structure LayImage (q : R2 → R2) (b1 b2 : R2) (l l' : GmeLay) : Prop where
  pos : l'.pos = l.pos
  epsB : l'.epsB = l.epsB
  epsAvg : l'.epsAvg = l.epsAvg
  epsEff : l'.epsEff = l.epsEff
  shapes : List.Forall₂ (ShapeImage 1 q b1 b2) l.shapes l'.shapes

/-- Structure `S'` is structure `S` with the lattice and all shapes mapped by `q`. -/
structure StructImage (q : R2 → R2) (S S' : GmeStruct) : Prop where
  b1 : S'.b1 = q S.b1
  b2 : S'.b2 = q S.b2
  area : S'.ecArea = S.ecArea
  layers : List.Forall₂ (LayImage q S.b1 S.b2) S.layers S'.layers

theorem absInds_image {q : R2 → R2} (hq : Similarity 1 q) (b1 b2 : R2) (gmax : ℝ) :
    absInds (q b1) (q b2) gmax = absInds b1 b2 gmax := by
  have hw : absWindow (q b1) (q b2) gmax = absWindow b1 b2 gmax := by
    unfold absWindow
    rw [← one_mul gmax, hq.nmaxOf, hq.nmaxOf, one_mul]
  unfold absInds
  simp only [hw, hq.gOf, hq.norm2, one_mul]

theorem StructImage.gvec {q : R2 → R2} (hq : Similarity 1 q) {S S' : GmeStruct} (h : StructImage q S S') (gmax : ℝ) :
    S'.gvec gmax = (S.gvec gmax).map q := by
  unfold GmeStruct.gvec
  rw [h.b1, h.b2, absInds_image hq, List.map_map]
  exact List.map_congr_left fun i _ => hq.gOf _ _ _

theorem StructImage.ft {q : R2 → R2} (hq : Similarity 1 q) {S S' : GmeStruct} (h : StructImage q S S')
    (hS : Resolved S.b1 S.b2) (hS' : Resolved S'.b1 S'.b2) {l l' : GmeLay} (hl : LayImage q S.b1 S.b2 l l') (i : ℤ × ℤ) :
    S'.ft l' (gOf S'.b1 S'.b2 i) = S.ft l (gOf S.b1 S.b2 i) := by
  unfold GmeStruct.ft
  by_cases hi : i = 0
  · have hz : ∀ b1 b2 : R2, gOf b1 b2 i = 0 := by intro b1 b2; rw [hi]; simp [gOf]
    rw [hz, hz, layerFt_g0 _ _ _ _ _ isG0_zero, layerFt_g0 _ _ _ _ _ isG0_zero, hl.epsAvg]
  · have h2 := resolved_not_g0 hS' hi
    rw [h.b1, h.b2, hq.gOf] at h2 ⊢
    rw [hl.epsB, hl.epsAvg]
    exact image_ft hq (by rw [h.area]; ring) hl.shapes i (resolved_not_g0 hS hi) h2

theorem epsMatAbs_image {q : R2 → R2} (hq : Similarity 1 q) {S S' : GmeStruct} (h : StructImage q S S')
    (hS : Resolved S.b1 S.b2) (hS' : Resolved S'.b1 S'.b2) {l l' : GmeLay} (hl : LayImage q S.b1 S.b2 l l')
    (inds : List (ℤ × ℤ)) (i j : ℕ) :
    epsMatAbs (S'.ft l') S'.b1 S'.b2 inds i j = epsMatAbs (S.ft l) S.b1 S.b2 inds i j := by
  unfold epsMatAbs epsUniq
  simp only [h.ft hq hS hS' hl]

theorem homAbs_image {q : R2 → R2} (hq : Similarity 1 q) {S S' : GmeStruct} (h : StructImage q S S')
    (hS : Resolved S.b1 S.b2) (hS' : Resolved S'.b1 S'.b2) {l l' : GmeLay} (hl : LayImage q S.b1 S.b2 l l')
    (inds : List (ℤ × ℤ)) : homAbs (S'.ft l') S'.b1 S'.b2 inds ↔ homAbs (S.ft l) S.b1 S.b2 inds := by
  unfold homAbs
  simp only [epsMatAbs_image hq h hS hS' hl]
  simp only [h.b1, h.b2, hq.gOf, hq.norm2, one_mul]

theorem inv_cast {N N' : ℕ} (hN : N' = N) (f f' : ℕ → ℕ → ℂ) (hf : ∀ i j, f' i j = f i j) :
    (Matrix.of fun i j : Fin N' => f' i j).det = (Matrix.of fun i j : Fin N => f i j).det ∧
    ∀ i j, (Matrix.of fun i j : Fin N' => f' i j)⁻¹ i j =
      (Matrix.of fun i j : Fin N => f i j)⁻¹ (Fin.cast hN i) (Fin.cast hN j) := by
  subst hN
  obtain rfl : f' = f := by funext i j; exact hf i j
  exact ⟨rfl, fun i j => rfl⟩

theorem epsInv_image {q : R2 → R2} (hq : Similarity 1 q) {S S' : GmeStruct} (h : StructImage q S S')
    (hS : Resolved S.b1 S.b2) (hS' : Resolved S'.b1 S'.b2) (gmax : ℝ) (onlyG : Bool)
    (hN : (S'.gvec gmax).length = (S.gvec gmax).length) (l l' : GmeLay) (hl : LayImage q S.b1 S.b2 l l') :
    (∃ e, S.epsInv gmax onlyG l = .error e ∧ S'.epsInv gmax onlyG l' = .error e) ∨
      ∃ E E', S.epsInv gmax onlyG l = .ok E ∧ S'.epsInv gmax onlyG l' = .ok E' ∧
        ∀ i j, E' i j = E (Fin.cast hN i) (Fin.cast hN j) := by
  classical
  have hi : absInds S'.b1 S'.b2 gmax = absInds S.b1 S.b2 gmax := by rw [h.b1, h.b2, absInds_image hq]
  set inds := absInds S.b1 S.b2 gmax with hinds
  obtain ⟨hdet, hinv⟩ := inv_cast hN (epsMatAbs (S.ft l) S.b1 S.b2 inds) (epsMatAbs (S'.ft l') S'.b1 S'.b2 inds)
    (epsMatAbs_image hq h hS hS' hl inds)
  have e1 : S'.epsInv gmax onlyG l' = if homAbs (S'.ft l') S'.b1 S'.b2 inds ∨ onlyG = true then
      .ok ((epsMatAbs (S'.ft l') S'.b1 S'.b2 inds 0 0)⁻¹ • 1)
    else if (Matrix.of fun i j : Fin (S'.gvec gmax).length => epsMatAbs (S'.ft l') S'.b1 S'.b2 inds i j).det = 0 then
      .error .valueError
    else .ok (Matrix.of fun i j : Fin (S'.gvec gmax).length => epsMatAbs (S'.ft l') S'.b1 S'.b2 inds i j)⁻¹ := by
    rw [← hi]; rfl
  have e2 : S.epsInv gmax onlyG l = if homAbs (S.ft l) S.b1 S.b2 inds ∨ onlyG = true then
      .ok ((epsMatAbs (S.ft l) S.b1 S.b2 inds 0 0)⁻¹ • 1)
    else if (Matrix.of fun i j : Fin (S.gvec gmax).length => epsMatAbs (S.ft l) S.b1 S.b2 inds i j).det = 0 then
      .error .valueError
    else .ok (Matrix.of fun i j : Fin (S.gvec gmax).length => epsMatAbs (S.ft l) S.b1 S.b2 inds i j)⁻¹ := rfl
  rw [e1, e2, homAbs_image hq h hS hS' hl, hdet, epsMatAbs_image hq h hS hS' hl]
  split_ifs with c1 c2
  · refine Or.inr ⟨_, _, rfl, rfl, fun i j => ?_⟩
    rw [Matrix.smul_apply, Matrix.smul_apply, Matrix.one_apply, Matrix.one_apply]
    simp [Fin.ext_iff]
  · exact Or.inl ⟨_, rfl, rfl⟩
  · exact Or.inr ⟨_, _, rfl, rfl, hinv⟩

theorem mapM_range_congr {α : Type} {f f' : ℕ → Except PyErr α} {n : ℕ} (h : ∀ i < n, f i = f' i) :
    (List.range n).mapM f = (List.range n).mapM f' := by
  refine mapM_forall2 (R := fun a b => a = b ∧ a < n) _ _ (fun a b hab => by rw [← hab.1]; exact h a hab.2) ?_
  rw [List.forall₂_same]
  exact fun x hx => ⟨rfl, List.mem_range.1 hx⟩

/-- The wave vectors `ks'`, shifted by `delta_gx` as the code does, are the images of the wave vectors `ks`. Without
`gmode_compute='exact'` the grid of the guided modes is computed without the shift, so that none is admitted. -/
structure WaveImage (q : R2 → R2) (o : GuidedOpts) (ks ks' : List R2) : Prop where
  each : List.Forall₂ (fun k k' => k' + (o.deltaGx, 0) = q (k + (o.deltaGx, 0))) ks ks'
  shift : o.exact = true ∨ o.deltaGx = 0

theorem WaveImage.map {q : R2 → R2} {o : GuidedOpts} {ks ks' : List R2} (h : WaveImage q o ks ks') :
    o.exact = true ∨ ks' = ks.map q := by
  refine h.shift.imp_right fun h0 => ?_
  have := h.each
  rw [h0] at this
  have h2 : List.Forall₂ (fun a b => b = a) (ks.map q) ks' := by
    rw [List.forall₂_map_left_iff]
    refine this.imp fun k k' e => ?_
    have hz : ((0 : ℝ), (0 : ℝ)) = (0 : R2) := rfl
    rwa [hz, add_zero, add_zero] at e
  clear this h
  generalize ks.map q = l at h2
  induction h2 with
  | nil => rfl
  | cons e _ ih => rw [e, ih]

theorem WaveImage.getD {q : R2 → R2} {o : GuidedOpts} {ks ks' : List R2} (h : WaveImage q o ks ks') {ik : ℕ}
    (hik : ik < ks.length) : ks'.getD ik 0 + (o.deltaGx, 0) = q (ks.getD ik 0 + (o.deltaGx, 0)) := by
  have hl := h.each.length_eq
  rw [getD_of_len hik, getD_of_len (hl ▸ hik)]
  exact h.each.get hik (hl ▸ hik)

/-- **C123 (orientation of the structure).** Rotating or mirroring a whole structure, lattice and shapes of all layers, and
the wave vectors with it leaves the result of every run unchanged, with the integrals and the normalisation of the code or
exact ones, and whether or not it fails. -/
theorem C123_image (ij : LPos → ℂ → ℂ) (argsort : List ℝ → List ℕ) (eigh : ∀ n, Matrix (Fin n) (Fin n) ℂ → Fin n → ℝ)
    (he : SortedEigh eigh) (norm : NormFn) (fs : Finder) (o : GuidedOpts) (q : R2 → R2) (hq : Similarity 1 q)
    (S S' : GmeStruct) (hS : Resolved S.b1 S.b2) (hS' : Resolved S'.b1 S'.b2) (h : StructImage q S S') (gmax : ℝ)
    (onlyG : Bool) (opt : String) (ks ks' : List R2) (hk : WaveImage q o ks ks') (sigma : ℝ) (numeig : ℕ) :
    gmeSimIj ij argsort eigh (codeGuided norm fs o) S' gmax onlyG opt ks' sigma numeig =
      gmeSimIj ij argsort eigh (codeGuided norm fs o) S gmax onlyG opt ks sigma numeig := by
  have hg := h.gvec hq gmax
  have hN : (S'.gvec gmax).length = (S.gvec gmax).length := by rw [hg, List.length_map]
  have hpos : S'.layers.map GmeLay.pos = S.layers.map GmeLay.pos := by
    have := h.layers
    generalize S.layers = ls at this
    generalize S'.layers = ls' at this
    induction this with
    | nil => rfl
    | cons h1 _ ih => rw [List.map_cons, List.map_cons, h1.pos, ih]
  have heff : S'.layers.mapM (GmeLay.eff opt) = S.layers.mapM (GmeLay.eff opt) :=
    (mapM_forall2 _ _ (fun l l' h => by unfold GmeLay.eff; rw [h.epsB, h.epsAvg, h.epsEff]) h.layers).symm
  unfold gmeSimIj
  rw [heff, hpos]
  cases S.layers.mapM (GmeLay.eff opt) with
  | error e => rfl
  | ok eff =>
    simp only [bind, Except.bind]
    rcases mapM_rel (S.epsInv gmax onlyG) (S'.epsInv gmax onlyG)
      (epsInv_image hq h hS hS' gmax onlyG hN) h.layers with ⟨e, h1, h2⟩ | ⟨Es, Es', h1, h2, hE⟩
    · rw [h1, h2]
    · rw [h1, h2]
      simp only
      rw [← hk.each.length_eq]
      refine mapM_range_congr fun ik hik => ?_
      have hk' := hk.getD hik
      have hb : codeGuided norm fs o ((S.layers.map GmeLay.pos).zip eff) (S'.gvec gmax) ks' ik =
          (codeGuided norm fs o ((S.layers.map GmeLay.pos).zip eff) (S.gvec gmax) ks ik).map
            (List.map (BasisEl.image hN q)) := by
        unfold codeGuided
        rw [guidedGrid_image hq o (List.Perm.of_eq hg) hk' hk.map]
        refine basisOf_image hN hq norm fs o _ _ _ _ fun i => ?_
        have e : (S'.gvec gmax)[i] = q (S.gvec gmax)[Fin.cast hN i] := by
          simp only [Fin.getElem_fin, hg, List.getElem_map, Fin.val_cast]
        rw [e, radPlane_image hq hk']
      rw [hb]
      cases codeGuided norm fs o ((S.layers.map GmeLay.pos).zip eff) (S.gvec gmax) ks ik with
      | error e => rfl
      | ok basis =>
        simp only [Except.map]
        congr 1
        exact sortedEigh_eq he _ _ ((gmeMatIj_hermitian _ _ _ _).add isHermitian_one)
          ((gmeMatIj_hermitian _ _ _ _).add isHermitian_one) (gmeMatIj_image hN hq ij _ Es Es' hE basis)

/-! ### Symmetric crystals -/

/-- Positions of equal elements in two lists which are permutations of each other. -/
theorem perm_positions {α : Type} {l l' : List α} (h : l.Perm l') : ∃ σ τ : ℕ → ℕ,
    (∀ i < l.length, σ i < l'.length ∧ τ (σ i) = i ∧ l[i]? = l'[σ i]?) ∧
      ∀ i < l'.length, τ i < l.length ∧ σ (τ i) = i := by
  induction h with
  | nil => exact ⟨id, id, by simp, by simp⟩
  | cons x h ih =>
    obtain ⟨σ, τ, h1, h2⟩ := ih
    refine ⟨fun i => match i with | 0 => 0 | i + 1 => σ i + 1, fun i => match i with | 0 => 0 | i + 1 => τ i + 1, ?_, ?_⟩
    · rintro (_ | i) hi
      · simp
      · obtain ⟨a, b, c⟩ := h1 i (by simpa using hi)
        simpa [b, c] using a
    · rintro (_ | i) hi
      · simp
      · obtain ⟨a, b⟩ := h2 i (by simpa using hi)
        simpa [b] using a
  | swap x y l =>
    refine ⟨fun i => match i with | 0 => 1 | 1 => 0 | i + 2 => i + 2, fun i => match i with | 0 => 1 | 1 => 0 | i + 2 => i + 2,
      ?_, ?_⟩
    · rintro (_ | _ | i) hi
      · simp
      · simp
      · simpa using hi
    · rintro (_ | _ | i) hi
      · simp
      · simp
      · simpa using hi
  | trans _ _ ih1 ih2 =>
    obtain ⟨σ, τ, h1, h2⟩ := ih1
    obtain ⟨σ', τ', h3, h4⟩ := ih2
    refine ⟨σ' ∘ σ, τ ∘ τ', fun i hi => ?_, fun i hi => ?_⟩
    · obtain ⟨a, b, c⟩ := h1 i hi
      obtain ⟨a', b', c'⟩ := h3 _ a
      exact ⟨a', by simp only [Function.comp, b', b], c.trans c'⟩
    · obtain ⟨a, b⟩ := h4 i hi
      obtain ⟨a', b'⟩ := h2 _ a
      exact ⟨a', by simp only [Function.comp, b', b]⟩

theorem perm_equiv {α : Type} {l l' : List α} (h : l.Perm l') :
    ∃ e : Fin l.length ≃ Fin l'.length, ∀ i, l[i] = l'[e i] := by
  obtain ⟨σ, τ, h1, h2⟩ := perm_positions h
  refine ⟨⟨fun i => ⟨σ i, (h1 i i.2).1⟩, fun i => ⟨τ i, (h2 i i.2).1⟩, fun i => Fin.ext (h1 i i.2).2.1,
    fun i => Fin.ext (h2 i i.2).2⟩, fun i => ?_⟩
  have := (h1 i i.2).2.2
  rw [List.getElem?_eq_getElem i.2, List.getElem?_eq_getElem (h1 i i.2).1] at this
  exact Option.some.inj this

/-- The basis element at the plane wave into which `q` maps that of `s`. -/
def BasisEl.move {N : ℕ} (ν : Equiv.Perm (Fin N)) (q : R2 → R2) (s : BasisEl N) : BasisEl N :=
  ⟨s.blk, ν s.ig, s.st.image q⟩

theorem guidedBlock_move {N : ℕ} (ν : Equiv.Perm (Fin N)) {q : R2 → R2} (h : Similarity 1 q) (stack : List (LPos × ℝ))
    (grid : List ℝ) (plane plane' : Fin N → R2) (hp : ∀ i, plane' (ν i) = q (plane i)) (modes : List (List GMode))
    (n mode : ℕ) :
    (∃ e, guidedBlock stack grid plane modes n mode = .error e ∧ guidedBlock stack grid plane' modes n mode = .error e) ∨
    ∃ b b', guidedBlock stack grid plane modes n mode = .ok b ∧ guidedBlock stack grid plane' modes n mode = .ok b' ∧
      b'.Perm (b.map (BasisEl.move ν q)) := by
  classical
  unfold guidedBlock
  cases modes[mode / 2]? with
  | none => exact Or.inl ⟨_, rfl, rfl⟩
  | some om =>
    simp only
    cases gsOf grid om with
    | nil => exact Or.inl ⟨_, rfl, rfl⟩
    | cons gs0 gs =>
      refine Or.inr ⟨_, _, rfl, rfl, ?_⟩
      have hperm : (List.finRange N).Perm ((List.finRange N).map ν) := by
        refine (List.perm_ext_iff_of_nodup (List.nodup_finRange N) ((List.nodup_finRange N).map ν.injective)).2 ?_
        intro i
        simp only [List.mem_finRange, List.mem_map, true_and, true_iff]
        exact ⟨ν.symm i, ν.apply_symm_apply i⟩
      refine (hperm.filterMap _).trans (List.Perm.of_eq ?_)
      rw [List.filterMap_map, List.map_filterMap]
      refine List.filterMap_congr fun i _ => ?_
      rw [Function.comp, hp, planeAbs_image h, interpState_image h]
      split_ifs <;> rfl

theorem perm_flatten {α β : Type} (φ : α → β) {bs : List (List α)} {bs' : List (List β)}
    (h : List.Forall₂ (fun b b' => b'.Perm (b.map φ)) bs bs') : bs'.flatten.Perm (bs.flatten.map φ) := by
  induction h with
  | nil => exact .refl _
  | cons h _ ih =>
    rw [List.flatten_cons, List.flatten_cons, List.map_append]
    exact h.append ih

theorem basisOf_move {N : ℕ} (ν : Equiv.Perm (Fin N)) {q : R2 → R2} (h : Similarity 1 q) (norm : NormFn) (fs : Finder)
    (o : GuidedOpts) (stack : List (LPos × ℝ)) (grid : List ℝ) (plane plane' : Fin N → R2)
    (hp : ∀ i, plane' (ν i) = q (plane i)) :
    (∃ e, basisOf norm fs o stack grid plane = .error e ∧ basisOf norm fs o stack grid plane' = .error e) ∨
    ∃ b b', basisOf norm fs o stack grid plane = .ok b ∧ basisOf norm fs o stack grid plane' = .ok b' ∧
      b'.Perm (b.map (BasisEl.move ν q)) := by
  unfold basisOf
  simp only [bind, Except.bind]
  cases computeGuided norm fs o stack .te grid with
  | error e => exact Or.inl ⟨_, rfl, rfl⟩
  | ok te =>
    simp only
    cases computeGuided norm fs o stack .tm grid with
    | error e => exact Or.inl ⟨_, rfl, rfl⟩
    | ok tm =>
      simp only
      cases gmodeInclude o.inds te.length tm.length with
      | error e => exact Or.inl ⟨_, rfl, rfl⟩
      | ok inc =>
        simp only
        have key : ∀ g : ℕ → List (List GMode), _ := fun g =>
          mapM_rel (R := fun a b => a = b) (Q := fun b b' => b'.Perm (b.map (BasisEl.move ν q)))
            (fun (n : ℕ) => guidedBlock stack grid plane (g n) n (inc.getD n 0))
            (fun (n : ℕ) => guidedBlock stack grid plane' (g n) n (inc.getD n 0))
            (fun a b hab => by subst hab; exact guidedBlock_move ν h stack grid plane plane' hp _ _ _)
            (List.forall₂_same.2 fun x _ => rfl : List.Forall₂ (fun a b => a = b) (List.range inc.length) _)
        rcases key (fun n => match modePol (inc.getD n 0) with | .te => te | .tm => tm) with ⟨e, h1, h2⟩ | ⟨x, y, h1, h2, h3⟩
        · exact Or.inl ⟨e, by erw [h1], by erw [h2]⟩
        · refine Or.inr ⟨x.flatten, y.flatten, by erw [h1], by erw [h2], perm_flatten _ h3⟩

/-- The crystal is mapped into itself by `q`: so is the set of plane waves, and every layer contains with every shape its
image. No two plane waves are closer than `2.5e-7`. -/
structure SymCrystal (q : R2 → R2) (gmax : ℝ) (S : GmeStruct) : Prop where
  waves : ∀ g ∈ S.gvec gmax, q g ∈ S.gvec gmax
  spread : Spread (S.gvec gmax)
  real : ∀ l ∈ S.layers, ∀ s ∈ l.shapes, RealShape s
  layers : ∀ l ∈ S.layers, ∃ shapes', shapes'.Perm l.shapes ∧
    List.Forall₂ (ShapeImage 1 q S.b1 S.b2) l.shapes shapes'

theorem latVec_gOf (b1 b2 : R2) (i : ℤ × ℤ) : latVec b1 b2 i = gOf b1 b2 i := by
  simp only [gOf, latVec]
  ext <;> ring

/-- The inverse permittivity of a symmetric layer. -/
theorem epsInv_iso {q : R2 → R2} (hq : Similarity 1 q) {gmax : ℝ} {S : GmeStruct} (hS : SymCrystal q gmax S)
    (onlyG : Bool) (l : GmeLay) (hl : l ∈ S.layers) (ν : Equiv.Perm (Fin (S.gvec gmax).length))
    (hν : ∀ i, (S.gvec gmax)[ν i] = q (S.gvec gmax)[i])
    (E : Matrix (Fin (S.gvec gmax).length) (Fin (S.gvec gmax).length) ℂ) (hE : S.epsInv gmax onlyG l = .ok E) (i j) :
    E (ν i) (ν j) = E i j := by
  have hA : ∀ i j, S.epsMat gmax l (ν i) (ν j) = S.epsMat gmax l i j := by
    obtain ⟨ind, -, hind, he⟩ := gme_entry S l (hS.real l hl) gmax
    have hN : (absInds S.b1 S.b2 gmax).length = (S.gvec gmax).length := by simp [GmeStruct.gvec]
    have hg : ∀ i : Fin (S.gvec gmax).length, (S.gvec gmax)[i] = latVec S.b1 S.b2 (ind i) := by
      intro i
      rw [hind, getD_of_len (by rw [hN]; exact i.2), latVec_gOf]
      exact List.getElem_map _
    intro i j
    rw [he, he, latVec_sub, latVec_sub, ← hg, ← hg, ← hg, ← hg, hν, hν, ← hq.sub]
    by_cases hij : i = j
    · subst hij
      rw [sub_self, hq.zero]
    · obtain ⟨shapes', h1, h2⟩ := hS.layers l hl
      have e : (S.gvec gmax)[j] - (S.gvec gmax)[i] = gOf S.b1 S.b2 (ind j - ind i) := by
        rw [← latVec_gOf, latVec_sub, hg, hg]
      have n1 := spread_not_g0 hS.spread j i (Ne.symm hij)
      have n2 := spread_not_g0 hS.spread (ν j) (ν i) (fun e => hij (ν.injective e).symm)
      rw [hν, hν, ← hq.sub] at n2
      rw [e] at n1 n2 ⊢
      unfold GmeStruct.ft
      rw [← layerFt_perm l.epsB l.epsAvg S.ecArea h1]
      exact image_ft hq (by ring) h2 _ n1 n2
  unfold GmeStruct.epsInv at hE
  split_ifs at hE with c1 c2
  · cases hE
    rw [Matrix.smul_apply, Matrix.smul_apply, Matrix.one_apply, Matrix.one_apply]
    by_cases hij : i = j
    · subst hij; simp
    · rw [if_neg hij, if_neg fun e => hij (ν.injective e)]
  · cases hE
    exact C30_eps_inv _ ν hA i j

theorem basis_move {N : ℕ} (ν : Equiv.Perm (Fin N)) (q : R2 → R2) {b b' : List (BasisEl N)}
    (hp : b'.Perm (b.map (BasisEl.move ν q))) :
    ∃ e' : Fin b'.length ≃ Fin b.length, ∀ i : Fin b.length, b'[e'.symm i] = (b[i]).move ν q := by
  obtain ⟨e, he⟩ := perm_equiv hp
  have hlen : (b.map (BasisEl.move ν q)).length = b.length := List.length_map _
  set e' : Fin b'.length ≃ Fin b.length := e.trans (finCongr hlen) with he'
  have hel : ∀ i, b'[i] = (b[e' i]).move ν q := by
    intro i
    rw [he]
    simp only [he', Fin.getElem_fin, List.getElem_map, Equiv.trans_apply, finCongr_apply, Fin.val_cast]
  have hel' : ∀ i : Fin b.length, b'[e'.symm i] = (b[i]).move ν q := by
    intro i
    have := hel (e'.symm i)
    simpa only [Equiv.apply_symm_apply] using this
  exact ⟨e', hel'⟩

/-- Entries of the matrix in the basis moved to the mapped plane waves. -/
theorem gmeMatIj_move_entry {N : ℕ} (ν : Equiv.Perm (Fin N)) {q : R2 → R2} (h : Similarity 1 q) {D : ℝ} (hD : D * D = 1)
    (hc : ∀ a b : R2, (q a).1 * (q b).2 - (q a).2 * (q b).1 = D * (a.1 * b.2 - a.2 * b.1)) (stack : List (LPos × ℝ))
    (Es : List (Matrix (Fin N) (Fin N) ℂ)) (hH : ∀ E ∈ Es, E.IsHermitian)
    (hE : ∀ E ∈ Es, ∀ i j, E (ν i) (ν j) = E i j) (b b' : List (BasisEl N))
    (hb : b.Pairwise fun s t => s.blk ≤ t.blk) (hb' : b'.Pairwise fun s t => s.blk ≤ t.blk)
    (e' : Fin b'.length ≃ Fin b.length) (hel' : ∀ i : Fin b.length, b'[e'.symm i] = (b[i]).move ν q) (i j) :
    gmeMatIj ijExact stack Es b' (e'.symm i) (e'.symm j) =
      (isoSign D b[i].st : ℂ) * gmeMatIj ijExact stack Es b i j * conj ((isoSign D b[j].st : ℝ) : ℂ) := by
  rw [gmeMatIj_exact stack Es hH b' hb', gmeMatIj_exact stack Es hH b hb, hel', hel', Complex.conj_ofReal]
  have hEs : (Es.map fun E => E (b[i].move ν q).ig (b[j].move ν q).ig) = Es.map fun E => E b[i].ig b[j].ig :=
    List.map_congr_left fun E hE' => hE E hE' _ _
  rw [hEs]
  unfold BasisEl.move
  simp only
  rw [gmeElem_image h hD hc]
  push_cast
  ring

theorem gmeMatIj_move {N : ℕ} (ν : Equiv.Perm (Fin N)) {q : R2 → R2} (h : Similarity 1 q) (stack : List (LPos × ℝ))
    (Es : List (Matrix (Fin N) (Fin N) ℂ)) (hH : ∀ E ∈ Es, E.IsHermitian)
    (hE : ∀ E ∈ Es, ∀ i j, E (ν i) (ν j) = E i j) (b b' : List (BasisEl N))
    (hb : b.Pairwise fun s t => s.blk ≤ t.blk) (hb' : b'.Pairwise fun s t => s.blk ≤ t.blk)
    (hp : b'.Perm (b.map (BasisEl.move ν q))) :
    (gmeMatIj ijExact stack Es b' + 1).charpoly = (gmeMatIj ijExact stack Es b + 1).charpoly := by
  obtain ⟨D, hD, hc⟩ := h.cross
  obtain ⟨e', hel'⟩ := basis_move ν q hp
  have hent := gmeMatIj_move_entry ν h hD hc stack Es hH hE b b' hb hb' e' hel'
  have h1 := unit_phases_charpoly (fun i : Fin b.length => ((isoSign D b[i].st : ℝ) : ℂ)) (fun i => by
    rw [Complex.conj_ofReal]; exact_mod_cast isoSign_sq hD _) (gmeMatIj ijExact stack Es b)
    ((gmeMatIj ijExact stack Es b').submatrix e'.symm e'.symm) hent
  rw [← h1]
  have h2 := charpoly_reindex e' (gmeMatIj ijExact stack Es b' + 1)
  rw [← h2]
  congr 1
  ext i j
  simp only [reindex_apply, submatrix_apply, Matrix.add_apply, Matrix.one_apply, e'.symm.injective.eq_iff]

theorem basisOf_sorted {N : ℕ} {norm : NormFn} {fs : Finder} {o : GuidedOpts} {stack : List (LPos × ℝ)} {grid : List ℝ}
    {plane : Fin N → R2} {b : List (BasisEl N)} (h : basisOf norm fs o stack grid plane = .ok b) :
    b.Pairwise fun s t => s.blk ≤ t.blk := by
  obtain ⟨blocks, hb, rfl⟩ := basisOf_blocks norm fs o stack grid plane b h
  refine blocks_sorted blocks 0 fun n hn s hs => ?_
  obtain ⟨mode, hf⟩ := (codeBlocks_facts _ _ _ _ _ _ _ hb).2.2.2 n hn
  obtain ⟨F, P, -, -, h3, -⟩ := hf.fact
  rw [zero_add]
  exact (h3 s hs).1

/-- **C123 (symmetric crystals).** If a rotation or mirror maps the plane waves of the set onto themselves and every shape
of every layer onto a shape of the same layer, then a run at the mapped wave vectors has the result of the run at the
original ones, whether or not it fails. -/
theorem C123_symmetric (argsort : List ℝ → List ℕ) (eigh : ∀ n, Matrix (Fin n) (Fin n) ℂ → Fin n → ℝ)
    (he : SortedEigh eigh) (norm : NormFn) (fs : Finder) (o : GuidedOpts) (q : R2 → R2) (hq : Similarity 1 q)
    (S : GmeStruct) (gmax : ℝ) (hS : SymCrystal q gmax S) (onlyG : Bool) (opt : String) (ks ks' : List R2)
    (hk : WaveImage q o ks ks') (sigma : ℝ) (numeig : ℕ) :
    gmeSimIj ijExact argsort eigh (codeGuided norm fs o) S gmax onlyG opt ks' sigma numeig =
      gmeSimIj ijExact argsort eigh (codeGuided norm fs o) S gmax onlyG opt ks sigma numeig := by
  obtain ⟨ν, hν⟩ := iso_perm _ hq hS.waves (spread_nodup hS.spread)
  have hg : (S.gvec gmax).Perm ((S.gvec gmax).map q) := by
    have hn := spread_nodup hS.spread
    refine (List.perm_ext_iff_of_nodup hn (hn.map fun a b e => hq.inj e)).2 fun g => ?_
    constructor
    · intro hgm
      obtain ⟨i, hi, rfl⟩ := List.getElem_of_mem hgm
      refine List.mem_map.2 ⟨(S.gvec gmax)[ν.symm ⟨i, hi⟩], List.getElem_mem _, ?_⟩
      rw [← hν]
      simp
    · intro hgm
      obtain ⟨x, hx, rfl⟩ := List.mem_map.1 hgm
      exact hS.waves x hx
  unfold gmeSimIj
  cases S.layers.mapM (GmeLay.eff opt) with
  | error e => rfl
  | ok eff =>
    simp only [bind, Except.bind]
    cases hEs : S.layers.mapM (S.epsInv gmax onlyG) with
    | error e => rfl
    | ok Es =>
      simp only
      rw [← hk.each.length_eq]
      refine mapM_range_congr fun ik hik => ?_
      have hk' := hk.getD hik
      unfold codeGuided
      rw [guidedGrid_image hq o hg hk' hk.map]
      rcases basisOf_move ν hq norm fs o ((S.layers.map GmeLay.pos).zip eff)
        (guidedGrid o (S.gvec gmax) ks (ks.getD ik 0)) (fun i => radPlane o.deltaGx (ks.getD ik 0) (S.gvec gmax)[i])
        (fun i => radPlane o.deltaGx (ks'.getD ik 0) (S.gvec gmax)[i])
        (fun i => by rw [hν, radPlane_image hq hk']) with ⟨e, h1, h2⟩ | ⟨b, b', h1, h2, hp⟩
      · rw [h1, h2]
      · rw [h1, h2]
        simp only
        congr 1
        refine sortedEigh_eq he _ _ ((gmeMatIj_hermitian _ _ _ _).add isHermitian_one)
          ((gmeMatIj_hermitian _ _ _ _).add isHermitian_one) ?_
        refine gmeMatIj_move ν hq _ Es ?_ ?_ b b' (basisOf_sorted h1) (basisOf_sorted h2) hp
        · intro E hE'
          obtain ⟨l, hl, h'⟩ := forall2_mem_right (mapM_ok_forall hEs) E hE'
          exact epsInv_hermitian S gmax onlyG l (hS.real l hl) E h'
        · intro E hE' i j
          obtain ⟨l, hl, h'⟩ := forall2_mem_right (mapM_ok_forall hEs) E hE'
          exact epsInv_iso hq hS onlyG l hl ν hν E h' i j

/-! ### Lattices -/

theorem turn_mirrors (a b : ℝ) (v : R2) :
    turn (2 * (a - b) * Real.pi / 180) v = mirrorVec a (mirrorVec b v) := by
  have key : ∀ (c : ℝ) (w : R2), mirrorVec c w = (w.1 * Real.cos (2 * (c * Real.pi / 180)) +
      w.2 * Real.sin (2 * (c * Real.pi / 180)), w.1 * Real.sin (2 * (c * Real.pi / 180)) -
      w.2 * Real.cos (2 * (c * Real.pi / 180))) := by
    intro c w
    have h := Real.sin_sq_add_cos_sq (c * Real.pi / 180)
    simp only [mirrorVec, Real.sin_two_mul, Real.cos_two_mul]
    ext
    · simp only
      linear_combination -2 * w.1 * h
    · simp only
      ring
  have h : 2 * (a - b) * Real.pi / 180 = 2 * (a * Real.pi / 180) - 2 * (b * Real.pi / 180) := by ring
  rw [h, key, key]
  simp only [turn, Real.cos_sub, Real.sin_sub]
  ext <;> simp only <;> ring

/-- **C123 (lattices).** The plane waves of the square lattice are mapped into themselves by the rotations by multiples of
90 degrees, those of the hexagonal lattice by the rotations by multiples of 60 degrees. -/
theorem C123_lattice (name : String) (L : Lattice) (h : Lattice.new (.name name) = .ok L) (step : ℕ)
    (hstep : axisStep L.type = some step) (gmax : ℝ) (h1 : 1e-8 ≤ gmax) (h2 : gmax ≤ 1e8) (n : ℤ) (S : GmeStruct)
    (hb1 : S.b1 = L.b1) (hb2 : S.b2 = L.b2) :
    ∀ g ∈ S.gvec gmax, turn (2 * (step * n) * Real.pi / 180) g ∈ S.gvec gmax := by
  intro g hg
  have a1 := (C121_lattice name L h step hstep gmax h1 h2 0 S hb1 hb2).1 g hg
  have a2 := (C121_lattice name L h step hstep gmax h1 h2 n S hb1 hb2).1 _ a1
  rw [← turn_mirrors] at a2
  simpa using a2

/-! ### Examples -/

/-- A slab in the hexagonal lattice with a round hole and six small ones around it. -/
noncomputable def flower (J : ℝ → ℝ) (L : Lattice) : GmeStruct :=
  ⟨L.b1, L.b2, 1, [⟨.lower, 1, 1, none, []⟩,
    ⟨.inner 0.5, 12, 10, none, ⟨1, Circle.ft J ⟨0, 0, 0.2⟩⟩ :: (List.range 6).map fun (n : ℕ) =>
      ⟨2, Circle.ft J ⟨(turn (n * (Real.pi / 3)) (0.4, 0.1)).1, (turn (n * (Real.pi / 3)) (0.4, 0.1)).2, 0.05⟩⟩⟩,
    ⟨.upper, 1, 1, none, []⟩]⟩

theorem turn_add (a b : ℝ) (v : R2) : turn a (turn b v) = turn (a + b) v := by
  simp only [turn, Real.cos_add, Real.sin_add]
  ext <;> simp only <;> ring

theorem flower_crystal (J : ℝ → ℝ) (L : Lattice) (h : Lattice.new (.name "hexagonal") = .ok L) (gmax : ℝ)
    (h1 : 1e-8 ≤ gmax) (h2 : gmax ≤ 1e8) : SymCrystal (turn (Real.pi / 3)) gmax (flower J L) := by
  have ht : axisStep L.type = some 30 := by cases h; rfl
  refine ⟨?_, (C121_lattice "hexagonal" L h 30 ht gmax h1 h2 0 _ rfl rfl).2, ?_, ?_⟩
  · have := C123_lattice "hexagonal" L h 30 ht gmax h1 h2 1 (flower J L) rfl rfl
    rwa [show 2 * (((30 : ℕ) : ℝ) * ((1 : ℤ) : ℝ)) * Real.pi / 180 = Real.pi / 3 by push_cast; ring] at this
  · intro l hl s hs
    simp only [flower, List.mem_cons, List.not_mem_nil, or_false] at hl
    rcases hl with rfl | rfl | rfl
    · simp at hs
    · simp only [List.mem_cons, List.mem_map] at hs
      rcases hs with rfl | ⟨n, -, rfl⟩
      · exact C12_circle_conj J _
      · exact C12_circle_conj J _
    · simp at hs
  · intro l hl
    simp only [flower, List.mem_cons, List.not_mem_nil, or_false] at hl
    have hc := (C122_shapes J (flower J L).b1 (flower J L).b2)
    rcases hl with rfl | rfl | rfl
    · exact ⟨[], .refl _, .nil⟩
    · set c : ℕ → FShape := fun (n : ℕ) =>
        ⟨2, Circle.ft J ⟨(turn (n * (Real.pi / 3)) (0.4, 0.1)).1, (turn (n * (Real.pi / 3)) (0.4, 0.1)).2, 0.05⟩⟩ with hcn
      have h6 : c 6 = c 0 := by
        simp only [hcn]
        have : turn ((6 : ℕ) * (Real.pi / 3)) (0.4, 0.1) = turn ((0 : ℕ) * (Real.pi / 3)) (0.4, 0.1) := by
          rw [show ((6 : ℕ) : ℝ) * (Real.pi / 3) = 2 * Real.pi by push_cast; ring]
          simp [turn]
        rw [this]
      refine ⟨⟨1, Circle.ft J ⟨0, 0, 0.2⟩⟩ :: (List.range 6).map fun (n : ℕ) => c (n + 1), ?_, ?_⟩
      · refine List.Perm.cons _ ?_
        have e : ((List.range 6).map fun (n : ℕ) => c (n + 1)) = [c 1, c 2, c 3, c 4, c 5] ++ [c 0] := by
          rw [← h6]; rfl
        rw [e]
        exact List.perm_append_comm
      · refine .cons ?_ ?_
        · have := (hc 1).1 _ (similarity_rotation (Real.pi / 3)) 0 0 0.2
          have hz : turn (Real.pi / 3) ((0 : ℝ), (0 : ℝ)) = (0, 0) := by simp [turn]
          rwa [hz] at this
        · rw [List.forall₂_map_left_iff, List.forall₂_map_right_iff, List.forall₂_same]
          intro n _
          have := (hc 2).1 _ (similarity_rotation (Real.pi / 3)) (turn (n * (Real.pi / 3)) (0.4, 0.1)).1
            (turn (n * (Real.pi / 3)) (0.4, 0.1)).2 0.05
          rw [Prod.mk.eta, turn_add, show Real.pi / 3 + n * (Real.pi / 3) = ((n + 1 : ℕ) : ℝ) * (Real.pi / 3) by
            push_cast; ring] at this
          exact this
    · exact ⟨[], .refl _, .nil⟩

/-- Its bands have the symmetry of the hexagon. -/
example (J : ℝ → ℝ) (argsort : List ℝ → List ℕ) (eigh : ∀ n, Matrix (Fin n) (Fin n) ℂ → Fin n → ℝ)
    (he : SortedEigh eigh) (norm : NormFn) (fs : Finder) (L : Lattice) (h : Lattice.new (.name "hexagonal") = .ok L)
    (ks : List R2) (numeig : ℕ) :
    gmeSimIj ijExact argsort eigh (codeGuided norm fs ⟨[0, 1, 3], false, 0.01, 1e-8, 1000, 1e-15, 0⟩) (flower J L) 5 false
        "average" (ks.map (turn (Real.pi / 3))) 0 numeig =
      gmeSimIj ijExact argsort eigh (codeGuided norm fs ⟨[0, 1, 3], false, 0.01, 1e-8, 1000, 1e-15, 0⟩) (flower J L) 5 false
        "average" ks 0 numeig := by
  refine C123_symmetric argsort eigh he norm fs _ _ (similarity_rotation _) _ 5
    (flower_crystal J L h 5 (by norm_num) (by norm_num)) false "average" ks _ ⟨?_, Or.inr rfl⟩ 0 numeig
  rw [List.forall₂_map_right_iff, List.forall₂_same]
  intro k _
  have hz : ((0 : ℝ), (0 : ℝ)) = (0 : R2) := rfl
  simp only [hz, add_zero]

/-- A slab with one elliptical hole, turned by the angle `a`. -/
noncomputable def tiltedSlab (J : ℝ → ℝ) (a : ℝ) : GmeStruct :=
  ⟨turn a (2 * Real.pi, 0), turn a (0, 2 * Real.pi), 1, [⟨.lower, 1, 1, none, []⟩,
    ⟨.inner 0.5, 12, 11, none, [⟨1, Ellipse.ft J ⟨0.1, 0, 0.2, 0.1, a⟩⟩]⟩, ⟨.upper, 1, 1, none, []⟩]⟩

theorem turn_zero (v : R2) : turn 0 v = v := by simp [turn]

theorem tilted_resolved_slab (J : ℝ → ℝ) : Resolved (tiltedSlab J 0).b1 (tiltedSlab J 0).b2 ∧
    Resolved (tiltedSlab J (Real.pi / 4)).b1 (tiltedSlab J (Real.pi / 4)).b2 := by
  constructor
  · simp only [tiltedSlab, turn_zero]
    exact resolved_square
  · rintro m n hmn ⟨e1, e2⟩
    refine tilted_resolved J m n hmn ?_
    rw [abs_lt] at e1 e2
    simp only [ellipseTilted, tiltedSlab] at *
    constructor <;> rw [abs_lt] <;> constructor <;> linarith

theorem tilted_image (J : ℝ → ℝ) :
    StructImage (turn (Real.pi / 4)) (tiltedSlab J 0) (tiltedSlab J (Real.pi / 4)) := by
  refine ⟨?_, ?_, rfl, ?_⟩
  · simp [tiltedSlab, turn_zero]
  · simp [tiltedSlab, turn_zero]
  · refine .cons ⟨rfl, rfl, rfl, rfl, .nil⟩ (.cons ⟨rfl, rfl, rfl, rfl, .cons ?_ .nil⟩ (.cons ⟨rfl, rfl, rfl, rfl, .nil⟩ .nil))
    have := (C122_shapes J (tiltedSlab J 0).b1 (tiltedSlab J 0).b2 1).2 (Real.pi / 4) 1 one_pos 0.1 0 0.2 0.1 0
    simpa using this

/-- Turned by 45 degrees, with the integrals and the normalisation of the code. -/
example (J : ℝ → ℝ) (argsort : List ℝ → List ℕ) (eigh : ∀ n, Matrix (Fin n) (Fin n) ℂ → Fin n → ℝ)
    (he : SortedEigh eigh) (fs : Finder) (k : R2) :
    gmeSimIj ijLayer argsort eigh (codeGuided normCode fs ⟨[0, 1], true, 0.01, 1e-8, 0, 1e-15, 1e-15⟩)
        (tiltedSlab J (Real.pi / 4)) 3 false "average" [turn (Real.pi / 4) (k + (1e-15, 0)) - (1e-15, 0)] 0 4 =
      gmeSimIj ijLayer argsort eigh (codeGuided normCode fs ⟨[0, 1], true, 0.01, 1e-8, 0, 1e-15, 1e-15⟩) (tiltedSlab J 0) 3
        false "average" [k] 0 4 :=
  C123_image ijLayer argsort eigh he normCode fs _ _ (similarity_rotation (Real.pi / 4)) _ _ (tilted_resolved_slab J).1
    (tilted_resolved_slab J).2 (tilted_image J) 3 false "average" _ _ ⟨.cons (by simp) .nil, Or.inl rfl⟩ 0 4

end Legume
