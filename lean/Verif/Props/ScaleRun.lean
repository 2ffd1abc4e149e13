import Verif.Lemmas.ScaleRun

/-!
# Guided-mode runs in other units and for scaled permittivities (C126)
-/
namespace Legume

open Spec Matrix MeasureTheory
open scoped ComplexConjugate

/-- The vector `c` times `v`. -/
def stretch (c : ℝ) (v : R2) : R2 := (c * v.1, c * v.2)

/-- Shape `s'` is shape `s` with lengths divided by `c` and permittivity multiplied by `n ^ 2`. -/
structure ShapeScale (c n : ℝ) (b1 b2 : R2) (s s' : FShape) : Prop where
  eps : s'.eps = n ^ 2 * s.eps
  ft : ∀ i j : ℤ, (c : ℂ) ^ 2 * s'.ft (stretch c (b1.1 * i + b2.1 * j, b1.2 * i + b2.2 * j)) =
    s.ft (b1.1 * i + b2.1 * j, b1.2 * i + b2.2 * j)

/-- Layer `l'` is layer `l` with lengths divided by `c` and permittivities multiplied by `n ^ 2`. -/
structure LayScale (c n : ℝ) (b1 b2 : R2) (l l' : GmeLay) : Prop where
  pos : l'.pos = scalePos c l.pos
  epsB : l'.epsB = n ^ 2 * l.epsB
  epsAvg : l'.epsAvg = n ^ 2 * l.epsAvg
  epsEff : l'.epsEff = l.epsEff.map (n ^ 2 * ·)
  shapes : List.Forall₂ (ShapeScale c n b1 b2) l.shapes l'.shapes

/-- Structure `S'` is structure `S` with all lengths divided by `c` and all permittivities multiplied by `n ^ 2`. -/
structure StructScale (c n : ℝ) (S S' : GmeStruct) : Prop where
  b1 : S'.b1 = stretch c S.b1
  b2 : S'.b2 = stretch c S.b2
  area : c ^ 2 * S'.ecArea = S.ecArea
  layers : List.Forall₂ (LayScale c n S.b1 S.b2) S.layers S'.layers

theorem similarity_stretch {c : ℝ} (hc : 0 < c) : Similarity c (stretch c) := by
  refine ⟨hc, fun x y a b => ?_, fun a b => ?_⟩
  · simp only [stretch]
    ext <;> simp only <;> ring
  · simp only [stretch]
    ring

/-- No reciprocal lattice vector lies exactly on the circle of the cutoff (otherwise the code increases the cutoff in steps
of `1e-10`, gme.py 233-236). -/
def OffCut (b1 b2 : R2) (gmax : ℝ) : Prop := ∀ i : ℤ × ℤ, norm2 (gOf b1 b2 i) ≠ 2 * Real.pi * gmax

theorem gmaxEff_off {gmax : ℝ} {norms : List ℝ} (h : ∀ x ∈ norms, x ≠ 2 * Real.pi * gmax) : gmaxEff gmax norms = gmax := by
  classical
  have h0 : Nat.find (exists_bump gmax norms) = 0 := by
    rw [Nat.find_eq_zero]
    intro hc
    refine h _ hc ?_
    simp
    ring
  unfold gmaxEff
  have : (Nat.find (exists_bump gmax norms) : ℝ) = 0 := by rw [h0]; simp
  convert add_zero gmax
  rw [mul_eq_zero]
  left
  convert this

theorem absInds_off {b1 b2 : R2} {gmax : ℝ} (h : OffCut b1 b2 gmax) : absInds b1 b2 gmax =
    open Classical in (absWindow b1 b2 gmax).filter fun i => decide (norm2 (gOf b1 b2 i) ≤ 2 * Real.pi * gmax) := by
  unfold absInds
  simp only
  rw [gmaxEff_off]
  intro x hx
  obtain ⟨i, -, rfl⟩ := List.mem_map.1 hx
  exact h i

theorem absInds_similar {c : ℝ} {q : R2 → R2} (hq : Similarity c q) (b1 b2 : R2) (gmax : ℝ) (h : OffCut b1 b2 gmax) :
    absInds (q b1) (q b2) (c * gmax) = absInds b1 b2 gmax := by
  have hw : absWindow (q b1) (q b2) (c * gmax) = absWindow b1 b2 gmax := by
    unfold absWindow
    rw [hq.nmaxOf, hq.nmaxOf]
  have h' : OffCut (q b1) (q b2) (c * gmax) := by
    intro i e
    rw [hq.gOf, hq.norm2] at e
    refine h i (mul_left_cancel₀ hq.pos.ne' (e.trans ?_))
    ring
  rw [absInds_off h, absInds_off h', hw]
  refine List.filter_congr fun i _ => ?_
  rw [hq.gOf, hq.norm2, decide_eq_decide, show 2 * Real.pi * (c * gmax) = c * (2 * Real.pi * gmax) by ring,
    mul_le_mul_iff_right₀ hq.pos]

theorem StructScale.inds {c n : ℝ} (hc : 0 < c) {S S' : GmeStruct} (h : StructScale c n S S') {gmax : ℝ} (hg : OffCut S.b1 S.b2 gmax) :
    absInds S'.b1 S'.b2 (c * gmax) = absInds S.b1 S.b2 gmax := by
  rw [h.b1, h.b2, absInds_similar (similarity_stretch hc) _ _ _ hg]

theorem StructScale.gvec {c n : ℝ} (hc : 0 < c) {S S' : GmeStruct} (h : StructScale c n S S') {gmax : ℝ} (hg : OffCut S.b1 S.b2 gmax) :
    S'.gvec (c * gmax) = (S.gvec gmax).map (stretch c) := by
  unfold GmeStruct.gvec
  rw [h.inds hc hg, h.b1, h.b2, List.map_map]
  exact List.map_congr_left fun i _ => (similarity_stretch hc).gOf _ _ _

theorem scales_sum {c n : ℝ} {b1 b2 : R2} (epsB : ℝ) {sh sh' : List FShape}
    (h : List.Forall₂ (ShapeScale c n b1 b2) sh sh') (i : ℤ × ℤ) :
    (c : ℂ) ^ 2 * (sh'.map fun s => ((s.eps : ℂ) - ((n ^ 2 * epsB : ℝ) : ℂ)) * s.ft (stretch c (gOf b1 b2 i))).sum =
      (n : ℂ) ^ 2 * (sh.map fun s => ((s.eps : ℂ) - epsB) * s.ft (gOf b1 b2 i)).sum := by
  induction h with
  | nil => simp
  | cons h _ ih =>
    rw [List.map_cons, List.sum_cons, List.map_cons, List.sum_cons, mul_add, ih, h.eps, mul_add]
    congr 1
    have := h.ft i.1 i.2
    rw [show gOf b1 b2 i = (b1.1 * i.1 + b2.1 * i.2, b1.2 * i.1 + b2.2 * i.2) from rfl, ← this]
    push_cast
    ring

theorem StructScale.ft {c n : ℝ} (hc : 0 < c) {S S' : GmeStruct} (h : StructScale c n S S')
    (hS : Resolved S.b1 S.b2) (hS' : Resolved S'.b1 S'.b2) {l l' : GmeLay} (hl : LayScale c n S.b1 S.b2 l l') (i : ℤ × ℤ) :
    S'.ft l' (gOf S'.b1 S'.b2 i) = (n : ℂ) ^ 2 * S.ft l (gOf S.b1 S.b2 i) := by
  unfold GmeStruct.ft
  by_cases hi : i = 0
  · have hz : ∀ b1 b2 : R2, gOf b1 b2 i = 0 := by intro b1 b2; rw [hi]; simp [gOf]
    rw [hz, hz, layerFt_g0 _ _ _ _ _ isG0_zero, layerFt_g0 _ _ _ _ _ isG0_zero, hl.epsAvg]
    push_cast
    rfl
  · have h2 := resolved_not_g0 hS' hi
    have hc2 : (c : ℂ) ^ 2 ≠ 0 := pow_ne_zero _ (by exact_mod_cast hc.ne')
    rw [h.b1, h.b2, (similarity_stretch hc).gOf] at h2 ⊢
    rw [C12_layer_value _ _ _ _ _ h2, C12_layer_value _ _ _ _ _ (resolved_not_g0 hS hi), ← mul_div_assoc,
      ← scales_sum l.epsB hl.shapes i, ← h.area, hl.epsB]
    rw [Complex.ofReal_mul (c ^ 2), Complex.ofReal_pow, mul_div_mul_left _ _ hc2]

theorem getD_mul_C (k : ℂ) (l : List ℂ) (i : ℕ) : (l.map (k * ·)).getD i 0 = k * l.getD i 0 := by
  rw [List.getD_eq_getElem?_getD, List.getD_eq_getElem?_getD, List.getElem?_map]
  cases l[i]? <;> simp

theorem epsMatAbs_scale {c n : ℝ} (hc : 0 < c) {S S' : GmeStruct} (h : StructScale c n S S')
    (hS : Resolved S.b1 S.b2) (hS' : Resolved S'.b1 S'.b2) {l l' : GmeLay} (hl : LayScale c n S.b1 S.b2 l l')
    (inds : List (ℤ × ℤ)) (i j : ℕ) :
    epsMatAbs (S'.ft l') S'.b1 S'.b2 inds i j = (n : ℂ) ^ 2 * epsMatAbs (S.ft l) S.b1 S.b2 inds i j := by
  have hU : ∀ U, epsUniq (S'.ft l') S'.b1 S'.b2 U = (epsUniq (S.ft l) S.b1 S.b2 U).map ((n : ℂ) ^ 2 * ·) := by
    intro U
    unfold epsUniq
    simp only [h.ft hc hS hS' hl, List.map_append, List.map_map, ← List.map_dropLast, ← List.map_reverse]
    congr 1
    refine List.map_congr_left fun d _ => ?_
    simp only [Function.comp, map_mul, map_pow, Complex.conj_ofReal]
  unfold epsMatAbs
  simp only [hU, getD_mul_C]

/-- For every layer both structures agree on whether its permittivity is uniform, which the code decides by comparing a sum
of absolute values of Fourier components with `1e-10`. -/
def SameHom (c n gmax : ℝ) (S S' : GmeStruct) : Prop :=
  ∀ l l', LayScale c n S.b1 S.b2 l l' → l ∈ S.layers → l' ∈ S'.layers →
    (homAbs (S'.ft l') S'.b1 S'.b2 (absInds S.b1 S.b2 gmax) ↔ homAbs (S.ft l) S.b1 S.b2 (absInds S.b1 S.b2 gmax))

theorem inv_cast_mul {N N' : ℕ} (hN : N' = N) (f f' : ℕ → ℕ → ℂ) (k : ℂ) (hk : k ≠ 0) (hf : ∀ i j, f' i j = k * f i j) :
    ((Matrix.of fun i j : Fin N' => f' i j).det = 0 ↔ (Matrix.of fun i j : Fin N => f i j).det = 0) ∧
    ∀ i j, (Matrix.of fun i j : Fin N' => f' i j)⁻¹ i j =
      (Matrix.of fun i j : Fin N => f i j)⁻¹ (Fin.cast hN i) (Fin.cast hN j) / k := by
  subst hN
  have e : (Matrix.of fun i j : Fin N' => f' i j) = k • Matrix.of fun i j : Fin N' => f i j := by
    ext i j
    simp only [of_apply, Matrix.smul_apply, smul_eq_mul, hf]
  rw [e]
  have hd : (k • Matrix.of fun i j : Fin N' => f i j).det = 0 ↔ (Matrix.of fun i j : Fin N' => f i j).det = 0 := by
    rw [det_smul]
    simp [hk]
  refine ⟨hd, fun i j => ?_⟩
  rw [Fin.cast_eq_self, Fin.cast_eq_self]
  by_cases h0 : (Matrix.of fun i j : Fin N' => f i j).det = 0
  · have u1 : ¬IsUnit (Matrix.of fun i j : Fin N' => f i j).det := by rw [h0]; exact not_isUnit_zero
    have u2 : ¬IsUnit (k • Matrix.of fun i j : Fin N' => f i j).det := by rw [hd.2 h0]; exact not_isUnit_zero
    rw [nonsing_inv_apply_not_isUnit _ u1, nonsing_inv_apply_not_isUnit _ u2]
    simp
  · have hu : IsUnit (Matrix.of fun i j : Fin N' => f i j).det := Ne.isUnit h0
    have : (k • Matrix.of fun i j : Fin N' => f i j)⁻¹ = k⁻¹ • (Matrix.of fun i j : Fin N' => f i j)⁻¹ := by
      refine inv_eq_right_inv ?_
      rw [Matrix.smul_mul, Matrix.mul_smul, mul_nonsing_inv _ hu, smul_smul, mul_inv_cancel₀ hk, one_smul]
    rw [this, Matrix.smul_apply, smul_eq_mul]
    ring

theorem epsInv_scale {c n : ℝ} (hc : 0 < c) (hn : 0 < n) {S S' : GmeStruct} (h : StructScale c n S S')
    (hS : Resolved S.b1 S.b2) (hS' : Resolved S'.b1 S'.b2) (gmax : ℝ) (hg : OffCut S.b1 S.b2 gmax)
    (hh : SameHom c n gmax S S') (onlyG : Bool)
    (hN : (S'.gvec (c * gmax)).length = (S.gvec gmax).length) (l l' : GmeLay)
    (hl : LayScale c n S.b1 S.b2 l l' ∧ l ∈ S.layers ∧ l' ∈ S'.layers) :
    (∃ e, S.epsInv gmax onlyG l = .error e ∧ S'.epsInv (c * gmax) onlyG l' = .error e) ∨
      ∃ E E', S.epsInv gmax onlyG l = .ok E ∧ S'.epsInv (c * gmax) onlyG l' = .ok E' ∧
        ∀ i j, E' i j = E (Fin.cast hN i) (Fin.cast hN j) / (n : ℂ) ^ 2 := by
  classical
  have hn2 : (n : ℂ) ^ 2 ≠ 0 := pow_ne_zero _ (by exact_mod_cast hn.ne')
  have hi := h.inds hc hg
  have hho := hh l l' hl.1 hl.2.1 hl.2.2
  replace hl := hl.1
  set inds := absInds S.b1 S.b2 gmax with hinds
  obtain ⟨hdet, hinv⟩ := inv_cast_mul hN (epsMatAbs (S.ft l) S.b1 S.b2 inds) (epsMatAbs (S'.ft l') S'.b1 S'.b2 inds)
    _ hn2 (epsMatAbs_scale hc h hS hS' hl inds)
  have e1 : S'.epsInv (c * gmax) onlyG l' = if homAbs (S'.ft l') S'.b1 S'.b2 inds ∨ onlyG = true then
      .ok ((epsMatAbs (S'.ft l') S'.b1 S'.b2 inds 0 0)⁻¹ • 1)
    else if (Matrix.of fun i j : Fin (S'.gvec (c * gmax)).length => epsMatAbs (S'.ft l') S'.b1 S'.b2 inds i j).det = 0 then
      .error .valueError
    else .ok (Matrix.of fun i j : Fin (S'.gvec (c * gmax)).length => epsMatAbs (S'.ft l') S'.b1 S'.b2 inds i j)⁻¹ := by
    rw [← hi]; rfl
  have e2 : S.epsInv gmax onlyG l = if homAbs (S.ft l) S.b1 S.b2 inds ∨ onlyG = true then
      .ok ((epsMatAbs (S.ft l) S.b1 S.b2 inds 0 0)⁻¹ • 1)
    else if (Matrix.of fun i j : Fin (S.gvec gmax).length => epsMatAbs (S.ft l) S.b1 S.b2 inds i j).det = 0 then
      .error .valueError
    else .ok (Matrix.of fun i j : Fin (S.gvec gmax).length => epsMatAbs (S.ft l) S.b1 S.b2 inds i j)⁻¹ := rfl
  rw [e1, e2]
  simp only [hho, hdet]
  split_ifs with c1 c2
  · refine Or.inr ⟨_, _, rfl, rfl, fun i j => ?_⟩
    rw [Matrix.smul_apply, Matrix.smul_apply, Matrix.one_apply, Matrix.one_apply, epsMatAbs_scale hc h hS hS' hl]
    by_cases hij : i = j
    · subst hij
      simp only [if_true, smul_eq_mul, mul_one, mul_inv]
      ring
    · rw [if_neg hij, if_neg (by simpa [Fin.ext_iff] using hij)]
      simp
  · exact Or.inl ⟨_, rfl, rfl⟩
  · exact Or.inr ⟨_, _, rfl, rfl, hinv⟩

theorem forall2_with_mem {α β : Type} {R : α → β → Prop} {l : List α} {l' : List β} (h : List.Forall₂ R l l') :
    List.Forall₂ (fun a b => R a b ∧ a ∈ l ∧ b ∈ l') l l' := by
  have key : ∀ (l : List α) (l' : List β), List.Forall₂ R l l' → ∀ (L : List α) (L' : List β), l ⊆ L → l' ⊆ L' →
      List.Forall₂ (fun a b => R a b ∧ a ∈ L ∧ b ∈ L') l l' := by
    intro l l' h
    induction h with
    | nil => intro _ _ _ _; exact .nil
    | cons h _ ih =>
      intro L L' hL hL'
      rw [List.cons_subset] at hL hL'
      exact .cons ⟨h, hL.1, hL'.1⟩ (ih L L' hL.2 hL'.2)
  exact key l l' h l l' (List.Subset.refl _) (List.Subset.refl _)

theorem eff_scale {c n : ℝ} {b1 b2 : R2} {l l' : GmeLay} (h : LayScale c n b1 b2 l l') (opt : String) :
    GmeLay.eff opt l' = (GmeLay.eff opt l).map (n ^ 2 * ·) := by
  unfold GmeLay.eff
  rw [h.epsAvg, h.epsB, h.epsEff]
  split_ifs
  · rfl
  · rfl
  · cases l.epsEff <;> rfl
  · rfl

/-- The guided modes of one run are those of the other in other units. -/
def GuidedScale (c n : ℝ) (G G' : GuidedSolver) (stack : List (LPos × ℝ)) (gvec gvec' ks ks' : List R2)
    (hN : gvec'.length = gvec.length) : Prop :=
  ∀ ik < ks.length, G' (scaleStack c n stack) gvec' ks' ik = (G stack gvec ks ik).map (List.map (BasisEl.scale hN c n))

theorem stack_scale {c n : ℝ} {b1 b2 : R2} {ls ls' : List GmeLay} (h : List.Forall₂ (LayScale c n b1 b2) ls ls')
    (eff : List ℝ) :
    (ls'.map GmeLay.pos).zip (eff.map (n ^ 2 * ·)) = scaleStack c n ((ls.map GmeLay.pos).zip eff) := by
  unfold scaleStack
  have hp : ls'.map GmeLay.pos = (ls.map GmeLay.pos).map (scalePos c) := by
    induction h with
    | nil => rfl
    | cons h1 _ ih => rw [List.map_cons, List.map_cons, List.map_cons, h1.pos, ih]
  rw [hp, List.zip_map]
  rfl

theorem gmeSim_units (argsort : List ℝ → List ℕ) (eigh : ∀ n, Matrix (Fin n) (Fin n) ℂ → Fin n → ℝ)
    (he : SortedEigh eigh) (c n : ℝ) (hc : 0 < c) (hn : 0 < n) (ha : ∀ l, argsort (l.map (c / n * ·)) = argsort l)
    (S S' : GmeStruct) (h : StructScale c n S S') (hS : Resolved S.b1 S.b2) (hS' : Resolved S'.b1 S'.b2) (gmax : ℝ)
    (hg : OffCut S.b1 S.b2 gmax) (hh : SameHom c n gmax S S') (onlyG : Bool) (opt : String) (ks ks' : List R2) (hk : ks'.length = ks.length)
    (G G' : GuidedSolver) (hG : ∀ (hN : (S'.gvec (c * gmax)).length = (S.gvec gmax).length) eff,
      S.layers.mapM (GmeLay.eff opt) = .ok eff →
      GuidedScale c n G G' ((S.layers.map GmeLay.pos).zip eff) (S.gvec gmax) (S'.gvec (c * gmax)) ks ks' hN)
    (sigma : ℝ) (numeig : ℕ) :
    gmeSimIj ijExact argsort eigh G' S' (c * gmax) onlyG opt ks' (c / n * sigma) numeig =
      (gmeSimIj ijExact argsort eigh G S gmax onlyG opt ks sigma numeig).map (List.map (KRes.scale (c / n))) := by
  have hN : (S'.gvec (c * gmax)).length = (S.gvec gmax).length := by rw [h.gvec hc hg, List.length_map]
  have hcn : 0 < c / n := div_pos hc hn
  have heff : S'.layers.mapM (GmeLay.eff opt) = (S.layers.mapM (GmeLay.eff opt)).map (List.map (n ^ 2 * ·)) := by
    rw [except_mapM_map]
    exact (mapM_forall2 (R := LayScale c n S.b1 S.b2) _ _ (fun l l' h => (eff_scale h opt).symm) h.layers).symm
  unfold gmeSimIj
  rw [heff]
  specialize hG hN
  generalize S.layers.mapM (GmeLay.eff opt) = ef at hG ⊢
  cases ef with
  | error e => rfl
  | ok eff =>
    specialize hG eff rfl
    simp only [bind, Except.bind, Except.map]
    rw [stack_scale h.layers]
    rcases mapM_rel (S.epsInv gmax onlyG) (S'.epsInv (c * gmax) onlyG)
      (epsInv_scale hc hn h hS hS' gmax hg hh onlyG hN) (forall2_with_mem h.layers) with ⟨e, h1, h2⟩ | ⟨Es, Es', h1, h2, hE⟩
    · rw [h1, h2]
    · rw [h1, h2, hk]
      simp only
      generalize hst : (S.layers.map GmeLay.pos).zip eff = stack at hG ⊢
      refine Eq.trans ?_ (except_mapM_map _ (KRes.scale (c / n)) (List.range ks.length)).symm
      refine mapM_range_congr fun ik hik => ?_
      rw [hG ik hik]
      cases G stack (S.gvec gmax) ks ik with
      | error e => rfl
      | ok basis =>
        simp only [Except.map]
        have hlen : (basis.map (BasisEl.scale hN c n)).length = basis.length := List.length_map _
        rw [sortedEigh_affine he hlen (sq_nonneg (c / n)) _ _ (gmeMatIj_hermitian _ _ _ _)
          (gmeMatIj_scale hN hc hn stack Es Es' hE basis hlen)]
        exact solveFull_scale hcn ha _ sigma numeig

/-! ### Given guided modes -/

theorem finRange_filterMap {α β : Type} {N N' : ℕ} (hN : N' = N) (f : Fin N → Option α) (f' : Fin N' → Option β)
    (φ : α → β) (h : ∀ i, f' i = (f (Fin.cast hN i)).map φ) :
    (List.finRange N').filterMap f' = ((List.finRange N).filterMap f).map φ := by
  subst hN
  rw [List.map_filterMap]
  exact List.filterMap_congr fun i _ => h i

/-- The branches of guided modes in other units. -/
noncomputable def scaleBranches (c n : ℝ) (br : List (Pol × (ℝ → Option ℝ))) : List (Pol × (ℝ → Option ℝ)) :=
  br.map fun p => (p.1, fun g => (p.2 (g / c)).map (c / n * ·))

/-- The slab in other units. -/
noncomputable def scaleSlab (c n : ℝ) (ls : List (ℝ × ℝ)) : List (ℝ × ℝ) := ls.map fun l => (n ^ 2 * l.1, l.2 / c)

theorem scaleSlab_eps (c n e0 eN : ℝ) (ls : List (ℝ × ℝ)) :
    n ^ 2 * e0 :: (scaleSlab c n ls).map Prod.fst ++ [n ^ 2 * eN] = (e0 :: ls.map Prod.fst ++ [eN]).map (n ^ 2 * ·) ∧
      (scaleSlab c n ls).map Prod.snd = (ls.map Prod.snd).map (· / c) := by
  simp [scaleSlab]

/-- **C126 (guided modes of a slab).** If a frequency is that of a guided mode of a slab, then the frequency times `c / n` is
that of a guided mode of the slab with lengths divided by `c` and permittivities multiplied by `n ^ 2`, for the wave vector
times `c`, with the same amplitudes. -/
theorem C126_slab (c n : ℝ) (hc : 0 < c) (hn : 0 < n) (pol : Pol) (om g e0 eN : ℝ) (ls : List (ℝ × ℝ))
    (abs : List (ℂ × ℂ)) (h : SlabRoot pol om g e0 eN ls abs) :
    SlabRoot pol (c / n * om) (c * g) (n ^ 2 * e0) (n ^ 2 * eN) (scaleSlab c n ls) abs := by
  have key : ∀ e : ℝ, n ^ 2 * e * (c / n * om) ^ 2 = c ^ 2 * (e * om ^ 2) := by intro e; field_simp
  have hc2 : 0 < c ^ 2 := by positivity
  obtain ⟨h1, h2⟩ := scaleSlab_eps c n e0 eN ls
  obtain ⟨k, -, hk⟩ := d22_scale hc hn pol (e0 :: ls.map Prod.fst ++ [eN]) (ls.map Prod.snd)
  refine ⟨?_, ?_, ?_, ?_, ?_, ?_⟩
  · rw [key, mul_pow]; exact mul_lt_mul_of_pos_left h.low hc2
  · rw [key, mul_pow]; exact mul_lt_mul_of_pos_left h.up hc2
  · intro l hl
    obtain ⟨l0, hl0, rfl⟩ := List.mem_map.1 hl
    rw [key, mul_pow]
    exact fun e => h.off l0 hl0 (mul_left_cancel₀ hc2.ne' e)
  · intro l hl
    rcases ls with _ | ⟨l0, _ | ⟨l1, t⟩⟩
    · simp [scaleSlab] at hl
    · obtain rfl : (n ^ 2 * l0.1, l0.2 / c) = l := by simpa [scaleSlab] using hl
      rw [key, mul_pow]
      exact mul_lt_mul_of_pos_left (h.core l0 rfl) hc2
    · simp [scaleSlab] at hl
  · rw [h1, h2, hk, h.root, mul_zero]
  · rw [h1, h2, abMatrices_scale hc hn, h.amps]

theorem scaleBranches_roots (c n : ℝ) (hc : 0 < c) (hn : 0 < n) (br : List (Pol × (ℝ → Option ℝ))) (e0 eN : ℝ)
    (ls : List (ℝ × ℝ)) (h : RootBranches br e0 eN ls) :
    RootBranches (scaleBranches c n br) (n ^ 2 * e0) (n ^ 2 * eN) (scaleSlab c n ls) := by
  intro p hp g om hg
  obtain ⟨p0, hp0, rfl⟩ := List.mem_map.1 hp
  obtain ⟨om0, h0, rfl⟩ := Option.map_eq_some_iff.1 hg
  obtain ⟨abs, ha⟩ := h p0 hp0 _ _ h0
  have := C126_slab c n hc hn _ _ _ _ _ _ _ ha
  rw [mul_div_cancel₀ _ hc.ne'] at this
  exact ⟨abs, this⟩

theorem branch_scale (c n : ℝ) (hc : 0 < c) (hn : 0 < n) (br : List (Pol × (ℝ → Option ℝ))) (delta e0 eN : ℝ)
    (ls : List (ℝ × ℝ)) (stack : List (LPos × ℝ)) (gvec gvec' ks : List R2) (hN : gvec'.length = gvec.length)
    (hg : gvec' = gvec.map (stretch c)) :
    GuidedScale c n (branchGuided br delta e0 eN ls)
      (branchGuided (scaleBranches c n br) (c * delta) (n ^ 2 * e0) (n ^ 2 * eN) (scaleSlab c n ls)) stack gvec gvec' ks
      (ks.map (stretch c)) hN := by
  intro ik hik
  obtain ⟨h1, h2⟩ := scaleSlab_eps c n e0 eN ls
  unfold branchGuided
  simp only [Except.map]
  congr 1
  rw [List.map_flatMap, show (scaleBranches c n br).length = br.length from List.length_map _]
  refine List.flatMap_congr fun m hm => ?_
  refine finRange_filterMap hN _ _ _ fun i => ?_
  have hk : (ks.map (stretch c)).getD ik 0 = stretch c (ks.getD ik 0) := by
    rw [getD_of_len (by simpa using hik), getD_of_len hik, List.getElem_map]
  have e : gvec'[i] = stretch c gvec[Fin.cast hN i] := by
    simp only [Fin.getElem_fin, hg, List.getElem_map, Fin.val_cast]
  have hb : (scaleBranches c n br).getD m (.te, fun _ => none) =
      ((br.getD m (.te, fun _ => none)).1, fun g => ((br.getD m (.te, fun _ => none)).2 (g / c)).map (c / n * ·)) := by
    have hm' := List.mem_range.1 hm
    rw [getD_of_len hm', getD_of_len (by simpa [scaleBranches] using hm')]
    exact List.getElem_map _
  rw [hk, e, hb]
  simp only [stretch]
  generalize (br.getD m (.te, fun _ => none)) = p
  generalize ks.getD ik 0 = k
  generalize gvec[Fin.cast hN i] = G
  have ex : c * G.1 + (c * k.1 + c * delta) = c * (G.1 + (k.1 + delta)) := by ring
  have ey : c * G.2 + c * k.2 = c * (G.2 + k.2) := by ring
  rw [ex, ey, sqrt_scale hc, mul_div_cancel_left₀ _ hc.ne', Option.map_map, Option.map_map]
  refine congrArg (fun f => Option.map f _) (funext fun om => ?_)
  simp only [Function.comp, BasisEl.scale]
  rw [h1, h2, abMatrices_scale hc hn]
  unfold scaleSlab
  rw [normState_scale hc hn]
  simp

/-- **C126 (other units, other permittivities).** Dividing all lengths of a structure by `c` and multiplying all its
permittivities by `n ^ 2`, with wave vectors and cutoff multiplied by `c` and with the same guided modes in the new units,
multiplies all frequencies by `c / n`: every run has the old result with the frequencies multiplied, whether or not it
fails. -/
theorem C126_scale (argsort : List ℝ → List ℕ) (eigh : ∀ n, Matrix (Fin n) (Fin n) ℂ → Fin n → ℝ)
    (he : SortedEigh eigh) (c n : ℝ) (hc : 0 < c) (hn : 0 < n) (ha : ∀ l, argsort (l.map (c / n * ·)) = argsort l)
    (S S' : GmeStruct) (h : StructScale c n S S') (hS : Resolved S.b1 S.b2) (hS' : Resolved S'.b1 S'.b2) (gmax : ℝ)
    (hg : OffCut S.b1 S.b2 gmax) (hh : SameHom c n gmax S S') (onlyG : Bool) (opt : String) (ks : List R2)
    (br : List (Pol × (ℝ → Option ℝ))) (delta e0 eN : ℝ) (ls : List (ℝ × ℝ)) (sigma : ℝ) (numeig : ℕ) :
    gmeSimIj ijExact argsort eigh
        (branchGuided (scaleBranches c n br) (c * delta) (n ^ 2 * e0) (n ^ 2 * eN) (scaleSlab c n ls)) S' (c * gmax) onlyG opt
        (ks.map (stretch c)) (c / n * sigma) numeig =
      (gmeSimIj ijExact argsort eigh (branchGuided br delta e0 eN ls) S gmax onlyG opt ks sigma numeig).map
        (List.map (KRes.scale (c / n))) :=
  gmeSim_units argsort eigh he c n hc hn ha S S' h hS hS' gmax hg hh onlyG opt ks _ (List.length_map _) _ _
    (fun hN eff _ => branch_scale c n hc hn br delta e0 eN ls _ _ _ ks hN (h.gvec hc hg)) sigma numeig

end Legume
