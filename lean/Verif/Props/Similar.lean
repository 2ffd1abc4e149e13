import Verif.Spec.Similar
import Verif.Spec.Symmetry
import Verif.Props.PweSim

/-! # C122: rotated, mirrored and rescaled crystals in the plane-wave expansion -/
namespace Legume

open Matrix Spec

/-! ### Similarities -/

theorem Spec.Similarity.add {c : ℝ} {q : R2 → R2} (h : Similarity c q) (a b : R2) : q (a + b) = q a + q b := by
  have := h.lin 1 1 a b
  simp only [mul_one] at this
  exact this

theorem Spec.Similarity.sub {c : ℝ} {q : R2 → R2} (h : Similarity c q) (a b : R2) : q (a - b) = q a - q b := by
  have := h.lin 1 (-1) a b
  simp only [mul_one, mul_neg, ← sub_eq_add_neg] at this
  exact this

theorem Spec.Similarity.zero {c : ℝ} {q : R2 → R2} (h : Similarity c q) : q 0 = 0 := by
  have := h.sub 0 0
  simpa using this

theorem Spec.Similarity.gOf {c : ℝ} {q : R2 → R2} (h : Similarity c q) (b1 b2 : R2) (i : ℤ × ℤ) :
    Legume.gOf (q b1) (q b2) i = q (Legume.gOf b1 b2 i) := (h.lin _ _ _ _).symm

theorem Spec.Similarity.norm {c : ℝ} {q : R2 → R2} (h : Similarity c q) (a : R2) :
    √((q a).1 ^ 2 + (q a).2 ^ 2) = c * √(a.1 ^ 2 + a.2 ^ 2) := by
  have := h.dot a a
  rw [show (q a).1 ^ 2 + (q a).2 ^ 2 = c ^ 2 * (a.1 ^ 2 + a.2 ^ 2) by linear_combination this,
    Real.sqrt_mul (by positivity), Real.sqrt_sq h.pos.le]

theorem Spec.Similarity.norm2 {c : ℝ} {q : R2 → R2} (h : Similarity c q) (a : R2) :
    Legume.norm2 (q a) = c * Legume.norm2 a := h.norm a

theorem Spec.Similarity.nmaxOf {c : ℝ} {q : R2 → R2} (h : Similarity c q) (x gmax : ℝ) (b : R2) :
    Legume.nmaxOf x (c * gmax) (q b) = Legume.nmaxOf x gmax b := by
  unfold Legume.nmaxOf
  rw [h.norm2, show x * (c * gmax) = c * (x * gmax) by ring, mul_div_mul_left _ _ h.pos.ne']

theorem Spec.Similarity.inj {c : ℝ} {q : R2 → R2} (h : Similarity c q) {a b : R2} (e : q a = q b) : a = b := by
  have h1 : q (a - b) = 0 := by rw [h.sub, e, sub_self]
  have h2 := h.dot (a - b) (a - b)
  rw [h1] at h2
  have h3 : (a - b).1 * (a - b).1 + (a - b).2 * (a - b).2 = 0 := by
    have := pow_pos h.pos 2
    simp only [Prod.fst_zero, Prod.snd_zero, mul_zero, add_zero] at h2
    rcases mul_eq_zero.1 h2.symm with h | h
    · exact absurd h this.ne'
    · exact h
  have h4 : (a - b).1 = 0 := by nlinarith [mul_self_nonneg (a - b).1, mul_self_nonneg (a - b).2]
  have h5 : (a - b).2 = 0 := by nlinarith [mul_self_nonneg (a - b).1, mul_self_nonneg (a - b).2]
  exact Prod.ext (sub_eq_zero.1 h4) (sub_eq_zero.1 h5)

theorem similarity_turn (a c : ℝ) (hc : 0 < c) : Similarity c fun v => (c * (turn a v).1, c * (turn a v).2) := by
  refine ⟨hc, fun x y u v => ?_, fun u v => ?_⟩
  · simp only [turn]
    ext <;> simp only <;> ring
  · have := Real.sin_sq_add_cos_sq a
    simp only [turn]
    linear_combination c ^ 2 * (u.1 * v.1 + u.2 * v.2) * this

theorem similarity_rotation (a : ℝ) : Similarity 1 (turn a) := by
  have := similarity_turn a 1 one_pos
  simpa only [one_mul] using this

theorem similarity_mirror (theta : ℝ) : Similarity 1 (mirrorVec theta) := by
  have h := Real.sin_sq_add_cos_sq (theta * Real.pi / 180)
  refine ⟨one_pos, fun x y u v => ?_, fun u v => ?_⟩
  · simp only [mirrorVec]
    ext <;> simp only <;> ring
  · simp only [mirrorVec]
    linear_combination (4 * (u.1 * -Real.sin (theta * Real.pi / 180) + u.2 * Real.cos (theta * Real.pi / 180)) *
      (v.1 * -Real.sin (theta * Real.pi / 180) + v.2 * Real.cos (theta * Real.pi / 180))) * h

/-! ### Crystals -/

/-- Layer `L'` is the image of layer `L`: every reciprocal lattice vector is mapped by `q`, which multiplies lengths by
`c`, so that the area of the cell is divided by `c ^ 2`. -/
structure LayerImage (c : ℝ) (q : R2 → R2) (L L' : PweLayer) : Prop where
  b1 : L'.b1 = q L.b1
  b2 : L'.b2 = q L.b2
  area : c ^ 2 * L'.ecArea = L.ecArea
  epsB : L'.epsB = L.epsB
  epsAvg : L'.epsAvg = L.epsAvg
  shapes : List.Forall₂ (ShapeImage c q L.b1 L.b2) L.shapes L'.shapes

theorem resolved_not_g0 {b1 b2 : R2} (h : Resolved b1 b2) {i : ℤ × ℤ} (hi : i ≠ 0) : ¬ isG0 (gOf b1 b2 i) := fun hc =>
  h i.1 i.2 hi (isG0_small hc)

theorem isG0_zero : isG0 (0 : R2) := by simp [isG0]; norm_num

theorem images_sum {c : ℝ} (hc : 0 < c) {q : R2 → R2} {b1 b2 : R2} (epsB : ℝ) {sh sh' : List FShape}
    (h : List.Forall₂ (ShapeImage c q b1 b2) sh sh') (i : ℤ × ℤ) :
    (c : ℂ) ^ 2 * (sh'.map fun s => ((s.eps : ℂ) - epsB) * s.ft (q (gOf b1 b2 i))).sum =
      (sh.map fun s => ((s.eps : ℂ) - epsB) * s.ft (gOf b1 b2 i)).sum := by
  induction h with
  | nil => simp
  | cons h _ ih =>
    rw [List.map_cons, List.sum_cons, List.map_cons, List.sum_cons, mul_add, ih, h.eps]
    congr 1
    have := h.ft i.1 i.2
    rw [show gOf b1 b2 i = (b1.1 * i.1 + b2.1 * i.2, b1.2 * i.1 + b2.2 * i.2) from rfl, ← this]
    ring

theorem image_ft {c : ℝ} {q : R2 → R2} (hq : Similarity c q) {b1 b2 : R2} {A A' epsB epsAvg : ℝ} {sh sh' : List FShape}
    (hA : c ^ 2 * A' = A) (h : List.Forall₂ (ShapeImage c q b1 b2) sh sh') (i : ℤ × ℤ) (h1 : ¬ isG0 (gOf b1 b2 i))
    (h2 : ¬ isG0 (q (gOf b1 b2 i))) :
    layerFt epsB epsAvg A' sh' (q (gOf b1 b2 i)) = layerFt epsB epsAvg A sh (gOf b1 b2 i) := by
  rw [C12_layer_value _ _ _ _ _ h1, C12_layer_value _ _ _ _ _ h2, ← images_sum hq.pos epsB h i, ← hA]
  have : (c : ℂ) ^ 2 ≠ 0 := pow_ne_zero _ (by exact_mod_cast hq.pos.ne')
  push_cast
  rw [mul_div_mul_left _ _ this]

theorem LayerImage.ft {c : ℝ} {q : R2 → R2} {L L' : PweLayer} (hq : Similarity c q) (h : LayerImage c q L L')
    (hL : Resolved L.b1 L.b2) (hL' : Resolved L'.b1 L'.b2) (i : ℤ × ℤ) :
    L'.ft (q (gOf L.b1 L.b2 i)) = L.ft (gOf L.b1 L.b2 i) := by
  by_cases hi : i = 0
  · have hz : gOf L.b1 L.b2 i = 0 := by rw [hi]; simp [gOf]
    rw [hz, hq.zero, PweLayer.ft, PweLayer.ft, layerFt_g0 _ _ _ _ _ isG0_zero, layerFt_g0 _ _ _ _ _ isG0_zero, h.epsAvg]
  · have h2 := resolved_not_g0 hL' hi
    rw [h.b1, h.b2, hq.gOf] at h2
    rw [PweLayer.ft, PweLayer.ft, h.epsB, h.epsAvg]
    exact image_ft hq h.area h.shapes i (resolved_not_g0 hL hi) h2

theorem LayerImage.gvec {c : ℝ} {q : R2 → R2} {L L' : PweLayer} (hq : Similarity c q) (h : LayerImage c q L L')
    (gmax : ℝ) : L'.gvec (c * gmax) = (L.gvec gmax).map q := by
  unfold PweLayer.gvec PweLayer.n1 PweLayer.n2
  rw [h.b1, h.b2, hq.nmaxOf, hq.nmaxOf, List.map_map]
  exact List.map_congr_left fun i _ => hq.gOf _ _ _

/-- The matrices of two problems whose waves correspond to each other. -/
theorem pweMat_corr {n n' : ℕ} {c : ℝ} {q : R2 → R2} (hq : Similarity c q) (e : Fin n' ≃ Fin n) (g : Fin n → R2)
    (g' : Fin n' → R2) (hg : ∀ i, g' i = q (g (e i))) (E : Matrix (Fin n) (Fin n) ℂ) (E' : Matrix (Fin n') (Fin n') ℂ)
    (hE : ∀ i j, E' i j = E (e i) (e j)) (p : Pol) (k : R2) :
    E'.det = E.det ∧
      pweMat p (q k) g' E'⁻¹ = (((c : ℂ) ^ 2) • pweMat p k g E⁻¹).submatrix e e := by
  have h1 : E' = E.submatrix e e := by ext i j; exact hE i j
  have h2 : ∀ i, kPlusG (q k) (g' i) = q (kPlusG k (g (e i))) := by
    intro i
    rw [hg]
    exact (hq.add k (g (e i))).symm
  constructor
  · rw [h1, det_submatrix_equiv_self]
  · rw [h1, inv_submatrix_equiv]
    ext i j
    simp only [submatrix_apply, Matrix.smul_apply, pweMat, of_apply, h2, smul_eq_mul]
    cases p
    · simp only
      rw [hq.dot]
      push_cast
      ring
    · simp only
      rw [hq.norm, hq.norm]
      push_cast
      ring

theorem isEigh_reindex {n n' : ℕ} (e : Fin n' ≃ Fin n) {A V : Matrix (Fin n) (Fin n) ℂ} {w : Fin n → ℝ}
    (h : IsEigh A w V) {A' V' : Matrix (Fin n') (Fin n') ℂ} {w' : Fin n' → ℝ} (h' : IsEigh A' w' V')
    (hA : A' = A.submatrix e e) : (List.ofFn w').Perm (List.ofFn w) := by
  refine isEigh_perm h' h ?_
  rw [hA]
  exact charpoly_reindex e.symm A

/-- **C122 (similar crystals).** Let the reciprocal lattice vectors of a crystal be mapped by any map which multiplies
all lengths by `c` and keeps all angles, and its shapes accordingly. Then the plane-wave expansion with the cutoff and the
wave vectors mapped in the same way returns exactly the old frequencies times `c`, for every list of wave vectors, both
polarisations and every number of frequencies; and it fails exactly if it failed before. -/
theorem C122_similar (argsort : List ℝ → List ℕ) (hs : ∀ l, IsArgsort l (argsort l))
    (eigh : ∀ n, Matrix (Fin n) (Fin n) ℂ → Fin n → ℝ) (he : GoodEigh eigh) (c : ℝ) (q : R2 → R2)
    (hq : Similarity c q) (L L' : PweLayer) (h : LayerImage c q L L') (hL : Resolved L.b1 L.b2)
    (hL' : Resolved L'.b1 L'.b2) (hr : ∀ s ∈ L.shapes, RealShape s) (hr' : ∀ s ∈ L'.shapes, RealShape s) (gmax : ℝ)
    (ks : List R2) (pol : String) (numeig : ℕ) :
    pweFreqs argsort eigh L' (c * gmax) (ks.map q) pol numeig =
      (pweFreqs argsort eigh L gmax ks pol numeig).map (List.map (List.map (· * c))) := by
  classical
  have hF := pweFt_conj L hr
  have hF' := pweFt_conj L' hr'
  have hgv := h.gvec hq gmax
  have hlen : (L'.gvec (c * gmax)).length = (L.gvec gmax).length := by rw [hgv, List.length_map]
  set e : Fin (L'.gvec (c * gmax)).length ≃ Fin (L.gvec gmax).length := finCongr hlen with hedef
  have hg : ∀ i, L'.gAt (c * gmax) i = q (L.gAt gmax (e i)) := by
    intro i
    have h1 : (L'.gvec (c * gmax))[(i : ℕ)]? = ((L.gvec gmax).map q)[(i : ℕ)]? := congrArg (fun l : List R2 => l[(i : ℕ)]?) hgv
    rw [List.getElem?_eq_getElem i.2, List.getElem?_map,
      List.getElem?_eq_getElem (show (i : ℕ) < (L.gvec gmax).length from hlen ▸ i.2)] at h1
    exact Option.some_injective _ h1
  obtain ⟨ind, -, hind⟩ := pweG_index L gmax
  have hE : ∀ i j, L'.epsMat (c * gmax) i j = L.epsMat gmax (e i) (e j) := by
    intro i j
    rw [pweEps_entry L' _ hF', pweEps_entry L _ hF, hg, hg]
    have h1 : ((q (L.gAt gmax (e i))).1 - (q (L.gAt gmax (e j))).1, (q (L.gAt gmax (e i))).2 - (q (L.gAt gmax (e j))).2)
        = q (L.gAt gmax (e i) - L.gAt gmax (e j)) := (hq.sub _ _).symm
    have h2 : L.gAt gmax (e i) - L.gAt gmax (e j) =
        gOf L.b1 L.b2 ((ind (e i)).1 - (ind (e j)).1, (ind (e i)).2 - (ind (e j)).2) := by
      rw [← gOf_diff, ← hind, ← hind]; rfl
    rw [h1, h2, h.ft hq hL hL', ← h2]
    rfl
  have key := pweMat_corr hq e (L.gAt gmax) (L'.gAt (c * gmax)) hg (L.epsMat gmax) (L'.epsMat (c * gmax)) hE
  have hdet := (key .te 0).1
  rw [pweFreqs_eq, pweFreqs_eq]
  by_cases hd : (L.epsMat gmax).det = 0
  · rw [if_pos hd, if_pos (hdet.trans hd)]; rfl
  · rw [if_neg hd, if_neg fun h => hd (hdet.symm.trans h), except_mapM_map]
    refine mapM_forall2 (R := fun a b => a = q b) _ _ (fun k' k hk => ?_)
      (List.forall₂_map_left_iff.2 (List.forall₂_same.2 fun _ _ => rfl))
    subst hk
    cases parsePol pol with
    | error e => rfl
    | ok p =>
      have h1 := pweMat_hermitian p k (L.gAt gmax) _ (pweEps_hermitian L gmax hF).inv
      have h2 := pweMat_hermitian p (q k) (L'.gAt (c * gmax)) _ (pweEps_hermitian L' (c * gmax) hF').inv
      obtain ⟨V, hV⟩ := he _ _ h1
      obtain ⟨V', hV'⟩ := he _ _ h2
      have hc2 : (0 : ℝ) < (c ^ 2)⁻¹ := inv_pos.2 (pow_pos hq.pos 2)
      have hW := isEigh_scaled (c ^ 2)⁻¹ hc2 hV
      have hp := isEigh_reindex e hW hV' (by
        rw [(key p k).2]
        push_cast
        rw [inv_inv]
        ext i j
        rw [Matrix.add_apply, submatrix_apply, submatrix_apply, Matrix.add_apply, Matrix.one_apply, Matrix.one_apply]
        simp only [e.injective.eq_iff])
      simp only [Except.map]
      congr 1
      rw [solvePwe_scaled argsort hs (w := List.ofFn (eigh _ (pweMat p k (L.gAt gmax) (L.epsMat gmax)⁻¹ + 1)))
        (c ^ 2)⁻¹ hc2 (by rw [List.map_ofFn]; exact hp) numeig]
      refine List.map_congr_left fun x _ => ?_
      rw [Real.sqrt_inv, Real.sqrt_sq hq.pos.le, div_inv_eq_mul]

/-! ### Symmetric crystals -/

theorem iso_perm (gs : List R2) {q : R2 → R2} (hq : Similarity 1 q) (h : ∀ g ∈ gs, q g ∈ gs) (hn : gs.Nodup) :
    ∃ ν : Equiv.Perm (Fin gs.length), ∀ i, gs[ν i] = q gs[i] := by
  have hex : ∀ i : Fin gs.length, ∃ j : Fin gs.length, gs[j] = q gs[i] := by
    intro i
    obtain ⟨j, hj, e⟩ := List.getElem_of_mem (h gs[i] (List.getElem_mem _))
    exact ⟨⟨j, hj⟩, e⟩
  choose ν hν using hex
  have hinj : Function.Injective ν := by
    intro i j e
    have h1 : gs[i] = gs[j] := hq.inj (by rw [← hν, ← hν, e])
    exact Fin.ext ((List.Nodup.getElem_inj_iff hn).1 h1)
  exact ⟨Equiv.ofBijective ν ((Fintype.bijective_iff_injective_and_card ν).2 ⟨hinj, rfl⟩), hν⟩

theorem layerFt_perm (epsB epsAvg A : ℝ) {sh sh' : List FShape} (h : sh'.Perm sh) (g : R2) :
    layerFt epsB epsAvg A sh' g = layerFt epsB epsAvg A sh g := by
  by_cases h0 : isG0 g
  · rw [layerFt_g0 _ _ _ _ _ h0, layerFt_g0 _ _ _ _ _ h0]
  · rw [C12_layer_value _ _ _ _ _ h0, C12_layer_value _ _ _ _ _ h0, (h.map _).sum_eq]

theorem pweG_nodup (L : PweLayer) (hL : Resolved L.b1 L.b2) (gmax : ℝ) : (L.gvec gmax).Nodup := by
  refine (tbtInds_nodup _ _).map ?_
  intro i j e
  by_contra hij
  refine hL (i.1 - j.1) (i.2 - j.2) (fun h => hij ?_) ?_
  · rw [Prod.mk.injEq, sub_eq_zero, sub_eq_zero] at h
    exact Prod.ext h.1 h.2
  · have h1 := congrArg Prod.fst e
    have h2 := congrArg Prod.snd e
    simp only [gOf] at h1 h2
    push_cast
    constructor
    · rw [show L.b1.1 * ((i.1 : ℝ) - j.1) + L.b2.1 * (i.2 - j.2) = 0 by linear_combination h1]; norm_num
    · rw [show L.b1.2 * ((i.1 : ℝ) - j.1) + L.b2.2 * (i.2 - j.2) = 0 by linear_combination h2]; norm_num

theorem pweEps_iso {q : R2 → R2} (hq : Similarity 1 q) (L : PweLayer) (hL : Resolved L.b1 L.b2)
    (hr : ∀ s ∈ L.shapes, RealShape s) {shapes' : List FShape} (hp : shapes'.Perm L.shapes)
    (hi : List.Forall₂ (ShapeImage 1 q L.b1 L.b2) L.shapes shapes') (gmax : ℝ)
    (ν : Equiv.Perm (Fin (L.gvec gmax).length)) (hν : ∀ i, L.gAt gmax (ν i) = q (L.gAt gmax i)) (i j) :
    L.epsMat gmax (ν i) (ν j) = L.epsMat gmax i j := by
  have hF := pweFt_conj L hr
  obtain ⟨ind, hinj, hind⟩ := pweG_index L gmax
  have hdiff : ∀ i j, L.gAt gmax i - L.gAt gmax j =
      gOf L.b1 L.b2 ((ind i).1 - (ind j).1, (ind i).2 - (ind j).2) := by
    intro i j
    rw [← gOf_diff, ← hind, ← hind]; rfl
  have hne : ∀ i j, i ≠ j → ((ind i).1 - (ind j).1, (ind i).2 - (ind j).2) ≠ (0 : ℤ × ℤ) := by
    intro i j hij h
    rw [Prod.ext_iff] at h
    exact hij (hinj (Prod.ext (sub_eq_zero.1 h.1) (sub_eq_zero.1 h.2)))
  have e1 : L.epsMat gmax (ν i) (ν j) = L.ft (L.gAt gmax (ν i) - L.gAt gmax (ν j)) := pweEps_entry L gmax hF _ _
  have e2 : L.epsMat gmax i j = L.ft (L.gAt gmax i - L.gAt gmax j) := pweEps_entry L gmax hF _ _
  rw [e1, e2]
  by_cases hij : i = j
  · rw [hij, sub_self, sub_self]
  · have h1 := resolved_not_g0 hL (hne i j hij)
    have h2 := resolved_not_g0 hL (hne (ν i) (ν j) fun e => hij (ν.injective e))
    rw [← hdiff, hν, hν, ← hq.sub, hdiff] at h2
    rw [hν, hν, ← hq.sub, hdiff, PweLayer.ft, PweLayer.ft, ← layerFt_perm L.epsB L.epsAvg L.ecArea hp]
    exact image_ft hq (by ring) hi _ h1 h2

theorem iso_charpoly {n : ℕ} {q : R2 → R2} (hq : Similarity 1 q) (ν : Equiv.Perm (Fin n)) (g : Fin n → R2)
    (hg : ∀ i, g (ν i) = q (g i)) (E : Matrix (Fin n) (Fin n) ℂ) (hE : ∀ i j, E (ν i) (ν j) = E i j) (p : Pol) (k : R2) :
    (pweMat p (q k) g E⁻¹ + 1).charpoly = (pweMat p k g E⁻¹ + 1).charpoly := by
  have key := pweMat_corr hq ν.symm g g (fun i => by rw [← hg, Equiv.apply_symm_apply]) E E
    (fun i j => by rw [← hE (ν.symm i), Equiv.apply_symm_apply, Equiv.apply_symm_apply]) p k
  have h1 : pweMat p (q k) g E⁻¹ + 1 = (pweMat p k g E⁻¹ + 1).submatrix ν.symm ν.symm := by
    rw [key.2]
    ext i j
    rw [Matrix.add_apply, submatrix_apply, submatrix_apply, Matrix.add_apply, Matrix.one_apply, Matrix.one_apply]
    simp only [ν.symm.injective.eq_iff, Complex.ofReal_one, one_pow, one_smul]
  rw [h1, ← reindex_apply, charpoly_reindex]

/-- **C122 (symmetric crystals).** If a rotation or mirror maps the plane waves of the set onto themselves and every shape
of the layer onto a shape of the layer, the frequencies at the mapped wave vectors are those at the original ones, for every
list of wave vectors, both polarisations and every number of frequencies. -/
theorem C122_symmetric (argsort : List ℝ → List ℕ) (hs : ∀ l, IsArgsort l (argsort l))
    (eigh : ∀ n, Matrix (Fin n) (Fin n) ℂ → Fin n → ℝ) (he : GoodEigh eigh) (q : R2 → R2) (hq : Similarity 1 q)
    (L : PweLayer) (hL : Resolved L.b1 L.b2) (hr : ∀ s ∈ L.shapes, RealShape s) (shapes' : List FShape)
    (hp : shapes'.Perm L.shapes) (hi : List.Forall₂ (ShapeImage 1 q L.b1 L.b2) L.shapes shapes') (gmax : ℝ)
    (hw : ∀ g ∈ L.gvec gmax, q g ∈ L.gvec gmax) (ks : List R2) (pol : String) (numeig : ℕ) :
    pweFreqs argsort eigh L gmax (ks.map q) pol numeig = pweFreqs argsort eigh L gmax ks pol numeig := by
  have hF := pweFt_conj L hr
  obtain ⟨ν, hν⟩ := iso_perm _ hq hw (pweG_nodup L hL gmax)
  refine pweFreqs_congr argsort hs eigh he L L gmax gmax hF hF _ _ pol numeig Iff.rfl ?_
  rw [List.forall₂_map_left_iff]
  exact List.forall₂_same.2 fun k _ p =>
    iso_charpoly hq ν (L.gAt gmax) hν (L.epsMat gmax) (pweEps_iso hq L hL hr hp hi gmax ν hν) p k

/-! ### Shapes and lattices -/

theorem circle_iso (J : ℝ → ℝ) {q : R2 → R2} (hq : Similarity 1 q) (c : Circle) (g : R2) :
    Circle.ft J ⟨(q (c.x, c.y)).1, (q (c.x, c.y)).2, c.r⟩ (q g) = Circle.ft J c g := by
  have h1 : |(q g).1 ^ 2| + |(q g).2 ^ 2| = |g.1 ^ 2| + |g.2 ^ 2| := by
    rw [abs_sq, abs_sq, abs_sq, abs_sq]
    have := hq.dot g g
    nlinarith
  have h2 := congrArg (fun x : ℝ => (x : ℂ)) (hq.dot g (c.x, c.y))
  push_cast at h2
  simp only [Circle.ft, h1]
  congr 6
  linear_combination -Complex.I * h2

theorem toFrame_turn (a phi c : ℝ) (g : R2) :
    toFrame (phi + a) (c * (turn a g).1, c * (turn a g).2) = (c * (toFrame phi g).1, c * (toFrame phi g).2) := by
  have h := Real.sin_sq_add_cos_sq a
  simp only [toFrame, turn, Real.cos_add, Real.sin_add]
  ext
  · simp only
    linear_combination c * (g.1 * Real.cos phi + g.2 * Real.sin phi) * h
  · simp only
    linear_combination c * (-g.1 * Real.sin phi + g.2 * Real.cos phi) * h

/-- **C122 (shapes).** The image of a circle under a rotation or mirror is the circle about the mapped centre. The image
of an ellipse under a rotation by `a` of the plane has its angle increased by `a`, with the same centre (`x_cent` and
`y_cent` are measured along the axes of the ellipse); if besides all lengths are divided by `c` so are its centre and its
radii. -/
theorem C122_shapes (J : ℝ → ℝ) (b1 b2 : R2) (eps : ℝ) :
    (∀ (q : R2 → R2) (_ : Similarity 1 q) (x y r : ℝ),
      ShapeImage 1 q b1 b2 ⟨eps, Circle.ft J ⟨x, y, r⟩⟩ ⟨eps, Circle.ft J ⟨(q (x, y)).1, (q (x, y)).2, r⟩⟩) ∧
    ∀ (a c : ℝ) (_ : 0 < c) (x y rx ry phi : ℝ),
      ShapeImage c (fun v => (c * (turn a v).1, c * (turn a v).2)) b1 b2 ⟨eps, Ellipse.ft J ⟨x, y, rx, ry, phi⟩⟩
        ⟨eps, Ellipse.ft J ⟨x / c, y / c, rx / c, ry / c, phi + a⟩⟩ := by
  refine ⟨fun q hq x y r => ⟨rfl, fun m n => ?_⟩, fun a c hc x y rx ry phi => ⟨rfl, fun m n => ?_⟩⟩
  · rw [Complex.ofReal_one, one_pow, one_mul]
    exact circle_iso J hq ⟨x, y, r⟩ _
  · generalize ((b1.1 * m + b2.1 * n, b1.2 * m + b2.2 * n) : R2) = g
    have hc0 : (c : ℂ) ≠ 0 := by exact_mod_cast hc.ne'
    simp only [Ellipse.ft, toFrame_turn]
    have e1 : c * (toFrame phi g).1 * (rx / c) = (toFrame phi g).1 * rx := by field_simp
    have e2 : c * (toFrame phi g).2 * (ry / c) = (toFrame phi g).2 * ry := by field_simp
    rw [e1, e2]
    have e3 : -Complex.I * ((c * (toFrame phi g).1 : ℝ) : ℂ) * ((x / c : ℝ) : ℂ) -
        Complex.I * ((c * (toFrame phi g).2 : ℝ) : ℂ) * ((y / c : ℝ) : ℂ) =
        -Complex.I * ((toFrame phi g).1 : ℂ) * x - Complex.I * ((toFrame phi g).2 : ℂ) * y := by
      push_cast
      field_simp
    rw [e3]
    push_cast
    field_simp

theorem turn_quarter (v : R2) : turn (Real.pi / 2) v = (-v.2, v.1) := by simp [turn]

/-- **C122 (square lattice).** On the square lattice the plane waves of every cutoff are mapped onto themselves by quarter
turns and by the mirrors in the axes and diagonals. -/
theorem C122_square (L : PweLayer) (b : ℝ) (h1 : L.b1 = (b, 0)) (h2 : L.b2 = (0, b)) (gmax : ℝ) (g : R2)
    (hg : g ∈ L.gvec gmax) :
    turn (Real.pi / 2) g ∈ L.gvec gmax ∧ (g.1, -g.2) ∈ L.gvec gmax ∧ (-g.1, g.2) ∈ L.gvec gmax ∧
      (g.2, g.1) ∈ L.gvec gmax ∧ (-g.2, -g.1) ∈ L.gvec gmax := by
  have hn : L.n1 gmax = L.n2 gmax := by
    unfold PweLayer.n1 PweLayer.n2 nmaxOf norm2
    rw [h1, h2]
    simp
  have key : ∀ x : R2, x ∈ L.gvec gmax ↔ ∃ i : ℤ × ℤ, i ∈ tbtInds (L.n2 gmax) (L.n2 gmax) ∧ (b * i.1, b * i.2) = x := by
    intro x
    unfold PweLayer.gvec
    rw [hn, List.mem_map]
    simp only [h1, h2, gOf, zero_mul, add_zero, zero_add]
  obtain ⟨i, hi, rfl⟩ := (key g).1 hg
  rw [mem_tbtInds] at hi
  have mk : ∀ (m n : ℤ) (x : R2), m.natAbs ≤ L.n2 gmax → n.natAbs ≤ L.n2 gmax → (b * m, b * n) = x → x ∈ L.gvec gmax := by
    intro m n x hm hn e
    refine (key x).2 ⟨(m, n), ?_, e⟩
    rw [mem_tbtInds]
    dsimp only
    omega
  rw [turn_quarter]
  refine ⟨mk (-i.2) i.1 _ ?_ ?_ ?_, mk i.1 (-i.2) _ ?_ ?_ ?_, mk (-i.1) i.2 _ ?_ ?_ ?_, mk i.2 i.1 _ ?_ ?_ ?_,
    mk (-i.2) (-i.1) _ ?_ ?_ ?_⟩ <;> first | omega | (push_cast; simp)

/-! ### The hexagonal lattice -/

/-- A homogeneous layer on the hexagonal lattice of period 1. -/
noncomputable def hexLayer : PweLayer :=
  ⟨(2 * Real.pi, 2 * Real.pi / √3), (2 * Real.pi, -(2 * Real.pi / √3)), √3 / 2, 1, 1, []⟩

theorem hex_resolved : Resolved hexLayer.b1 hexLayer.b2 := by
  have hp := Real.pi_gt_three
  have h3 : √3 ≤ (2 : ℝ) := by rw [Real.sqrt_le_left (by norm_num)]; norm_num
  have h3p : (0 : ℝ) < √3 := Real.sqrt_pos.2 (by norm_num)
  have hbig : ∀ m : ℤ, m ≠ 0 → (1 : ℝ) ≤ |(m : ℝ)| := by
    intro m hm
    have := Int.one_le_abs hm
    exact_mod_cast this
  rintro m n hmn ⟨h1, h2⟩
  simp only [hexLayer] at h1 h2
  by_cases hm : m + n = 0
  · have hn : m - n ≠ 0 := by
      intro e
      apply hmn
      rw [show m = 0 by omega, show n = 0 by omega]
    have := hbig _ hn
    push_cast at this
    rw [show 2 * Real.pi / √3 * (m : ℝ) + -(2 * Real.pi / √3) * n = 2 * Real.pi / √3 * (m - n) by ring, abs_mul,
      abs_of_pos (by positivity)] at h2
    have h4 : (1 : ℝ) ≤ 2 * Real.pi / √3 := by rw [le_div_iff₀ h3p]; linarith
    nlinarith
  · have := hbig _ hm
    push_cast at this
    rw [show 2 * Real.pi * (m : ℝ) + 2 * Real.pi * n = 2 * Real.pi * (m + n) by ring, abs_mul,
      abs_of_pos (by positivity)] at h1
    nlinarith

theorem hex_norm (v : R2) (h : v = hexLayer.b1 ∨ v = hexLayer.b2) : norm2 v = 4 * Real.pi / √3 := by
  have h3p : (0 : ℝ) < √3 := Real.sqrt_pos.2 (by norm_num)
  have h3 : √3 ^ 2 = (3 : ℝ) := Real.sq_sqrt (by norm_num)
  unfold norm2
  have hp := Real.pi_pos
  have key : (4 * Real.pi / √3) ^ 2 = v.1 ^ 2 + v.2 ^ 2 := by
    rcases h with rfl | rfl <;> simp only [hexLayer] <;> field_simp <;> rw [h3] <;> ring
  rw [← key, Real.sqrt_sq (by positivity)]

theorem hex_waves : hexLayer.n1 (2 / √3) = 1 ∧ hexLayer.n2 (2 / √3) = 1 := by
  have h3p : (0 : ℝ) < √3 := Real.sqrt_pos.2 (by norm_num)
  have hp := Real.pi_pos
  have e : 2 * Real.pi * (2 / √3) / (4 * Real.pi / √3) = 1 := by field_simp; norm_num
  unfold PweLayer.n1 PweLayer.n2 nmaxOf
  rw [hex_norm _ (.inl rfl), hex_norm _ (.inr rfl), e]
  simp

/-- **C122 (hexagonal lattice).** On the hexagonal lattice the plane waves fill a parallelogram, which a rotation by 60
degrees does not map onto itself, and the frequencies returned at a wave vector and at the rotated one differ, even without
any shapes: there is a frequency at `k = (1, 0)` which is absent at `(1 / 2, sqrt(3) / 2)`. -/
theorem C122_hexagonal (argsort : List ℝ → List ℕ) (hs : ∀ l, IsArgsort l (argsort l))
    (eigh : ∀ n, Matrix (Fin n) (Fin n) ℂ → Fin n → ℝ) (he : GoodEigh eigh) :
    ∃ f f', pweFreqs argsort eigh hexLayer (2 / √3) [(1, 0), turn (Real.pi / 3) (1, 0)] "te" 9 = .ok [f, f'] ∧
      ∃ x ∈ f, x ∉ f' := by
  have h3p : (0 : ℝ) < √3 := Real.sqrt_pos.2 (by norm_num)
  have h3 : √3 ^ 2 = (3 : ℝ) := Real.sq_sqrt (by norm_num)
  have hp := Real.pi_gt_three
  obtain ⟨fs, h1, h2⟩ := C91_homogeneous argsort hs eigh he hexLayer hex_resolved 1 one_pos rfl rfl (by simp [hexLayer])
    (2 / √3) [(1, 0), turn (Real.pi / 3) (1, 0)] "te" .te (by decide) 9
  obtain ⟨f, t, hf, ht, rfl⟩ := List.forall₂_cons_left_iff.1 h2
  obtain ⟨f', t', hf', ht', rfl⟩ := List.forall₂_cons_left_iff.1 ht
  cases ht'
  refine ⟨f, f', h1, (1 + 4 * Real.pi) / (2 * Real.pi), ?_, ?_⟩
  · obtain ⟨l, -, hl, rfl⟩ := hf
    rw [List.take_of_length_le (by
      rw [hl.length_eq]
      simp [PweLayer.gvec, tbtInds_length, hex_waves])]
    rw [hl.mem_iff, List.mem_map]
    refine ⟨(4 * Real.pi, 0), ?_, ?_⟩
    · unfold PweLayer.gvec
      rw [hex_waves.1, hex_waves.2, List.mem_map]
      refine ⟨(1, 1), by rw [mem_tbtInds]; norm_num, ?_⟩
      simp only [gOf, hexLayer]
      push_cast
      ext <;> simp only <;> ring
    · simp only [add_zero, Real.sqrt_one, mul_one]
      rw [show (1 + 4 * Real.pi) ^ 2 + (0 : ℝ) ^ 2 = (1 + 4 * Real.pi) ^ 2 by ring, Real.sqrt_sq (by positivity)]
  · obtain ⟨l, -, hl, rfl⟩ := hf'
    intro hx
    have hx := List.mem_of_mem_take hx
    rw [hl.mem_iff, List.mem_map] at hx
    obtain ⟨g, hg, e⟩ := hx
    unfold PweLayer.gvec at hg
    rw [hex_waves.1, hex_waves.2, List.mem_map] at hg
    obtain ⟨i, hi, rfl⟩ := hg
    rw [Real.sqrt_one, mul_one, div_left_inj' (by positivity)] at e
    have e2 := congrArg (fun x : ℝ => x ^ 2) e
    rw [Real.sq_sqrt (by positivity)] at e2
    simp only [turn, Real.cos_pi_div_three, Real.sin_pi_div_three, gOf, hexLayer] at e2
    have hi' : (i.1 = -1 ∨ i.1 = 0 ∨ i.1 = 1) ∧ (i.2 = -1 ∨ i.2 = 0 ∨ i.2 = 1) := by
      rw [mem_tbtInds] at hi
      push_cast at hi
      omega
    have h5 : 2 * Real.pi / √3 * √3 = 2 * Real.pi := by field_simp
    have h6 : (2 * Real.pi / √3) ^ 2 = 4 * Real.pi ^ 2 / 3 := by rw [div_pow, h3]; ring
    generalize 2 * Real.pi / √3 = b at *
    obtain ⟨ha | ha | ha, hb | hb | hb⟩ := hi' <;> rw [ha, hb] at e2 <;> push_cast at e2 <;> nlinarith

/-! ### Examples -/

/-- A chiral crystal on the square lattice: four round holes which a quarter turn maps onto each other, without any
mirror. -/
noncomputable def pinwheel (J : ℝ → ℝ) : PweLayer :=
  ⟨(2 * Real.pi, 0), (0, 2 * Real.pi), 1, 12, 11, [⟨1, Circle.ft J ⟨0.3, 0.1, 0.05⟩⟩, ⟨1, Circle.ft J ⟨-0.1, 0.3, 0.05⟩⟩,
    ⟨1, Circle.ft J ⟨-0.3, -0.1, 0.05⟩⟩, ⟨1, Circle.ft J ⟨0.1, -0.3, 0.05⟩⟩]⟩

/-- Its bands have four-fold symmetry. -/
example (J : ℝ → ℝ) (argsort : List ℝ → List ℕ) (hs : ∀ l, IsArgsort l (argsort l))
    (eigh : ∀ n, Matrix (Fin n) (Fin n) ℂ → Fin n → ℝ) (he : GoodEigh eigh) (x y : ℝ) :
    pweFreqs argsort eigh (pinwheel J) 3 [(-y, x)] "tm" 5 = pweFreqs argsort eigh (pinwheel J) 3 [(x, y)] "tm" 5 := by
  have hc := fun x y => (C122_shapes J (pinwheel J).b1 (pinwheel J).b2 1).1 _ (similarity_rotation (Real.pi / 2)) x y 0.05
  have := C122_symmetric argsort hs eigh he _ (similarity_rotation (Real.pi / 2)) (pinwheel J) resolved_square
    (by simp only [pinwheel, List.mem_cons, List.not_mem_nil, or_false]
        rintro s (rfl | rfl | rfl | rfl) <;> exact C12_circle_conj J _)
    [⟨1, Circle.ft J ⟨-0.1, 0.3, 0.05⟩⟩, ⟨1, Circle.ft J ⟨-0.3, -0.1, 0.05⟩⟩, ⟨1, Circle.ft J ⟨0.1, -0.3, 0.05⟩⟩,
      ⟨1, Circle.ft J ⟨0.3, 0.1, 0.05⟩⟩]
    (List.perm_append_comm (l₁ := [_, _, _]) (l₂ := [_]))
    (.cons (by simpa [turn_quarter] using hc 0.3 0.1) (.cons (by simpa [turn_quarter] using hc (-0.1) 0.3)
      (.cons (by simpa [turn_quarter] using hc (-0.3) (-0.1)) (.cons (by simpa [turn_quarter] using hc 0.1 (-0.3)) .nil))))
    3 (fun g hg => (C122_square (pinwheel J) _ rfl rfl 3 g hg).1) [(x, y)] "tm" 5
  simpa [turn_quarter] using this

/-- An ellipse in the square lattice. -/
noncomputable def ellipseLayer (J : ℝ → ℝ) : PweLayer :=
  ⟨(2 * Real.pi, 0), (0, 2 * Real.pi), 1, 12, 11, [⟨1, Ellipse.ft J ⟨0.1, 0, 0.3, 0.2, 0.5⟩⟩]⟩

/-- The same rotated by 45 degrees and with all lengths doubled. -/
noncomputable def ellipseTilted (J : ℝ → ℝ) : PweLayer :=
  ⟨(1 / 2 * (turn (Real.pi / 4) (2 * Real.pi, 0)).1, 1 / 2 * (turn (Real.pi / 4) (2 * Real.pi, 0)).2),
    (1 / 2 * (turn (Real.pi / 4) (0, 2 * Real.pi)).1, 1 / 2 * (turn (Real.pi / 4) (0, 2 * Real.pi)).2), 4, 12, 11,
    [⟨1, Ellipse.ft J ⟨0.1 / (1 / 2), 0 / (1 / 2), 0.3 / (1 / 2), 0.2 / (1 / 2), 0.5 + Real.pi / 4⟩⟩]⟩

theorem tilted_resolved (J : ℝ → ℝ) : Resolved (ellipseTilted J).b1 (ellipseTilted J).b2 := by
  have hp := Real.pi_gt_three
  have h2 : (1 : ℝ) ≤ √2 := Real.one_le_sqrt.2 (by norm_num)
  have h4 : (1 : ℝ) ≤ Real.pi * √2 / 2 := by nlinarith
  have hbig : ∀ m : ℤ, m ≠ 0 → (1 : ℝ) ≤ |(m : ℝ)| := by
    intro m hm
    have := Int.one_le_abs hm
    exact_mod_cast this
  rintro m n hmn ⟨e1, e2⟩
  simp only [ellipseTilted, turn, Real.cos_pi_div_four, Real.sin_pi_div_four] at e1 e2
  by_cases hm : m + n = 0
  · have hn : m - n ≠ 0 := by
      intro e
      apply hmn
      rw [show m = 0 by omega, show n = 0 by omega]
    have := hbig _ hn
    push_cast at this
    rw [show 1 / 2 * (2 * Real.pi * (√2 / 2) - 0 * (√2 / 2)) * (m : ℝ) + 1 / 2 * (0 * (√2 / 2) - 2 * Real.pi * (√2 / 2)) * n =
      Real.pi * √2 / 2 * (m - n) by ring, abs_mul, abs_of_pos (by positivity)] at e1
    nlinarith [mul_le_mul h4 this zero_le_one (by positivity)]
  · have := hbig _ hm
    push_cast at this
    rw [show 1 / 2 * (2 * Real.pi * (√2 / 2) + 0 * (√2 / 2)) * (m : ℝ) + 1 / 2 * (0 * (√2 / 2) + 2 * Real.pi * (√2 / 2)) * n =
      Real.pi * √2 / 2 * (m + n) by ring, abs_mul, abs_of_pos (by positivity)] at e2
    nlinarith [mul_le_mul h4 this zero_le_one (by positivity)]

/-- All frequencies are halved. -/
example (J : ℝ → ℝ) (argsort : List ℝ → List ℕ) (hs : ∀ l, IsArgsort l (argsort l))
    (eigh : ∀ n, Matrix (Fin n) (Fin n) ℂ → Fin n → ℝ) (he : GoodEigh eigh) (k : R2) :
    pweFreqs argsort eigh (ellipseTilted J) (1 / 2 * 3)
        ([k].map fun v => (1 / 2 * (turn (Real.pi / 4) v).1, 1 / 2 * (turn (Real.pi / 4) v).2)) "te" 5 =
      (pweFreqs argsort eigh (ellipseLayer J) 3 [k] "te" 5).map (List.map (List.map (· * (1 / 2)))) := by
  have hi : LayerImage (1 / 2) (fun v => (1 / 2 * (turn (Real.pi / 4) v).1, 1 / 2 * (turn (Real.pi / 4) v).2))
      (ellipseLayer J) (ellipseTilted J) :=
    ⟨rfl, rfl, by norm_num [ellipseLayer, ellipseTilted], rfl, rfl,
      .cons ((C122_shapes J _ _ 1).2 _ _ (by norm_num) _ _ _ _ _) .nil⟩
  exact C122_similar argsort hs eigh he (1 / 2) _ (similarity_turn (Real.pi / 4) (1 / 2) (by norm_num)) _ _ hi
    resolved_square (tilted_resolved J)
    (by simp only [ellipseLayer, List.mem_singleton]; rintro s rfl; exact C12_ellipse_conj J _)
    (by simp only [ellipseTilted, List.mem_singleton]; rintro s rfl; exact C12_ellipse_conj J _) 3 [k] "te" 5

end Legume
