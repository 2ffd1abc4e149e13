import Verif.Model.GmeFields
import Verif.Lemmas.Constitutive
import Verif.Props.GmeOrder

/-!
# C107: the electric field and the displacement returned by `get_field_xy` belong to the permittivity drawn

`pwe.py` 234-369, `gme.py` 442-521, 645-701, 2045-2194, `utils.py` 13-51.
-/
namespace Legume
open Spec MeasureTheory Matrix
open scoped Real ComplexConjugate ComplexOrder

theorem latVec_inj_of_dual {a1 a2 b1 b2 : R2} (hd : Dual a1 a2 b1 b2) (m n : ℤ × ℤ)
    (h : latVec b1 b2 m = latVec b1 b2 n) : m = n := by
  rw [latVec_eq, latVec_eq] at h
  refine gOf_inj b1 b2 (fun h0 => ?_) h
  have e : (a1.1 * a2.2 - a1.2 * a2.1) * (b1.1 * b2.2 - b1.2 * b2.1) = (2 * π) * (2 * π) := by
    linear_combination (a2.1 * b2.1 + a2.2 * b2.2) * hd.h11 - (a2.1 * b1.1 + a2.2 * b1.2) * hd.h12 + 2 * π * hd.h22
  rw [h0, mul_zero] at e
  have : (2 * π) * (2 * π) ≠ 0 := by positivity
  exact this e.symm

/-- A matrix close to that of the transforms at `G_i - G_j` multiplies by the permittivity. -/
theorem product_close (a1 a2 b1 b2 : R2) (epsB epsAvg area : ℝ) (sh : List Drawn)
    (hD : Draws a1 a2 b1 b2 epsB epsAvg area sh) (eps : R2 → ℝ)
    (he : IsPermittivity a1 a2 epsB (sh.map fun s => (s.shape.eps, s.region)) eps) {n : ℕ} (m : Fin n → ℤ × ℤ)
    (M : Matrix (Fin n) (Fin n) ℂ) (d : ℝ)
    (hM : ∀ i j, ‖M i j - layerFt epsB epsAvg area (sh.map Drawn.shape) (latVec b1 b2 (m i - m j))‖ ≤ d)
    (E : Fin n → ℂ) (i : Fin n) :
    ‖component a1 a2 (latVec b1 b2 (m i)) (fun x y => (eps (x, y) : ℂ) * ∑ j, E j * wave (latVec b1 b2 (m j)) x y) -
      (M *ᵥ E) i‖ ≤ (drawErr epsB area sh + d) * ∑ j, ‖E j‖ := by
  have hA : Apart a1 a2 ((sh.map fun s => (s.shape.eps, s.region)).map Prod.snd) := by
    rw [List.map_map]; exact hD.apart
  have hmeas := permittivity_measurable a1 a2 epsB _ hA (fun s hs => by
    obtain ⟨t, ht, rfl⟩ := List.mem_map.1 hs; exact hD.measurable t ht) eps he
  obtain ⟨C, hC⟩ := permittivity_bounded a1 a2 epsB _ eps he
  rw [component_mul a1 a2 b1 b2 (dual_det a1 a2 b1 b2 hD.dual) eps hmeas C hC, Matrix.mulVec, dotProduct,
    ← Finset.sum_sub_distrib, Finset.mul_sum]
  refine (norm_sum_le _ _).trans (Finset.sum_le_sum fun j _ => ?_)
  rw [← sub_mul, norm_mul]
  refine mul_le_mul_of_nonneg_right ?_ (norm_nonneg _)
  have h1 := C101_coefficient a1 a2 b1 b2 epsB epsAvg area sh hD eps he (m i - m j)
  rw [norm_sub_rev] at h1
  have e : epsCoeff a1 a2 eps (latVec b1 b2 (m i - m j)) - M i j =
      (epsCoeff a1 a2 eps (latVec b1 b2 (m i - m j)) -
        layerFt epsB epsAvg area (sh.map Drawn.shape) (latVec b1 b2 (m i - m j))) -
      (M i j - layerFt epsB epsAvg area (sh.map Drawn.shape) (latVec b1 b2 (m i - m j))) := by ring
  rw [e]
  exact (norm_sub_le _ _).trans (add_le_add h1 (hM i j))

/-- A matrix close to that of the transforms at `G_j - G_i` multiplies by the permittivity inverted in the origin. -/
theorem product_inverted (a1 a2 b1 b2 : R2) (epsB epsAvg area : ℝ) (sh : List Drawn)
    (hD : Draws a1 a2 b1 b2 epsB epsAvg area sh) (eps : R2 → ℝ)
    (he : IsPermittivity a1 a2 epsB (sh.map fun s => (s.shape.eps, s.region)) eps) {n : ℕ} (m : Fin n → ℤ × ℤ)
    (M : Matrix (Fin n) (Fin n) ℂ) (d : ℝ)
    (hM : ∀ i j, ‖M i j - layerFt epsB epsAvg area (sh.map Drawn.shape) (latVec b1 b2 (m j - m i))‖ ≤ d)
    (E : Fin n → ℂ) (i : Fin n) :
    ‖component a1 a2 (latVec b1 b2 (m i))
        (fun x y => (inverted eps (x, y) : ℂ) * ∑ j, E j * wave (latVec b1 b2 (m j)) x y) - (M *ᵥ E) i‖ ≤
      (drawErr epsB area sh + d) * ∑ j, ‖E j‖ := by
  have hA : Apart a1 a2 ((sh.map fun s => (s.shape.eps, s.region)).map Prod.snd) := by
    rw [List.map_map]; exact hD.apart
  have hmeas := permittivity_measurable a1 a2 epsB _ hA (fun s hs => by
    obtain ⟨t, ht, rfl⟩ := List.mem_map.1 hs; exact hD.measurable t ht) eps he
  obtain ⟨C, hC⟩ := permittivity_bounded a1 a2 epsB _ eps he
  rw [component_mul a1 a2 b1 b2 (dual_det a1 a2 b1 b2 hD.dual) (inverted eps) (hmeas.comp measurable_neg) C
    (fun p => hC _), Matrix.mulVec, dotProduct, ← Finset.sum_sub_distrib, Finset.mul_sum]
  refine (norm_sum_le _ _).trans (Finset.sum_le_sum fun j _ => ?_)
  rw [← sub_mul, norm_mul, epsCoeff_inverted a1 a2 b1 b2 hD.dual eps
    (permittivity_periodic a1 a2 epsB _ eps he), neg_sub]
  refine mul_le_mul_of_nonneg_right ?_ (norm_nonneg _)
  have h1 := C101_coefficient a1 a2 b1 b2 epsB epsAvg area sh hD eps he (m j - m i)
  rw [norm_sub_rev] at h1
  have e : epsCoeff a1 a2 eps (latVec b1 b2 (m j - m i)) - M i j =
      (epsCoeff a1 a2 eps (latVec b1 b2 (m j - m i)) -
        layerFt epsB epsAvg area (sh.map Drawn.shape) (latVec b1 b2 (m j - m i))) -
      (M i j - layerFt epsB epsAvg area (sh.map Drawn.shape) (latVec b1 b2 (m j - m i))) := by ring
  rw [e]
  exact (norm_sub_le _ _).trans (add_le_add h1 (hM i j))

/-- **C107 (plane waves).** For `PlaneWaveExp`, the component along every plane wave of the permittivity drawn times the
electric field in real space is the one of the displacement, up to the errors of the transforms. The components of the
fields are arbitrary here, so that this holds for all modes. -/
theorem C107_pwe (L : PweLayer) (a1 a2 : R2) (sh : List Drawn)
    (hD : Draws a1 a2 L.b1 L.b2 L.epsB L.epsAvg L.ecArea sh) (hsh : L.shapes = sh.map Drawn.shape)
    (hr : ∀ s ∈ L.shapes, RealShape s) (eps : R2 → ℝ)
    (he : IsPermittivity a1 a2 L.epsB (sh.map fun s => (s.shape.eps, s.region)) eps) (gmax : ℝ)
    (hdet : (L.epsMat gmax).det ≠ 0) (D : FtField (L.gvec gmax).length) (i : Fin (L.gvec gmax).length) :
    ‖component a1 a2 (L.gAt gmax i) (fun x y => (eps (x, y) : ℂ) *
        ftinvAt (List.ofFn fun j => ((pweE (L.epsMat gmax)⁻¹ D).x j, L.gAt gmax j)) x y) - D.x i‖ ≤
      drawErr L.epsB L.ecArea sh * ∑ j, ‖(pweE (L.epsMat gmax)⁻¹ D).x j‖ ∧
    ‖component a1 a2 (L.gAt gmax i) (fun x y => (eps (x, y) : ℂ) *
        ftinvAt (List.ofFn fun j => ((pweE (L.epsMat gmax)⁻¹ D).y j, L.gAt gmax j)) x y) - D.y i‖ ≤
      drawErr L.epsB L.ecArea sh * ∑ j, ‖(pweE (L.epsMat gmax)⁻¹ D).y j‖ ∧
    ‖component a1 a2 (L.gAt gmax i) (fun x y => (eps (x, y) : ℂ) *
        ftinvAt (List.ofFn fun j => ((pweE (L.epsMat gmax)⁻¹ D).z j, L.gAt gmax j)) x y) - D.z i‖ ≤
      drawErr L.epsB L.ecArea sh * ∑ j, ‖(pweE (L.epsMat gmax)⁻¹ D).z j‖ := by
  obtain ⟨ind, hinj, hind⟩ := pweG_index L gmax
  have hF := pweFt_conj L hr
  have hb := latVec_inj_of_dual hD.dual
  have hgl : ∀ j, L.gAt gmax j = latVec L.b1 L.b2 (ind j) := fun j => by rw [hind, latVec_eq]
  have hgi : Function.Injective (L.gAt gmax) := fun i j h => hinj (hb _ _ (by rw [← hgl, ← hgl, h]))
  have hent : ∀ i j, L.epsMat gmax i j = layerFt L.epsB L.epsAvg L.ecArea (sh.map Drawn.shape)
      (latVec L.b1 L.b2 (ind i - ind j)) := by
    intro i j
    rw [pweEps_entry L gmax hF i j, hgl, hgl, PweLayer.ft, hsh, latVec_sub]; rfl
  have key : ∀ d : Fin (L.gvec gmax).length → ℂ,
      ‖component a1 a2 (L.gAt gmax i) (fun x y => (eps (x, y) : ℂ) *
        ftinvAt (List.ofFn fun j => (((L.epsMat gmax)⁻¹ *ᵥ d) j, L.gAt gmax j)) x y) - d i‖ ≤
      drawErr L.epsB L.ecArea sh * ∑ j, ‖((L.epsMat gmax)⁻¹ *ᵥ d) j‖ := by
    intro d
    have h := product_close a1 a2 L.b1 L.b2 L.epsB L.epsAvg L.ecArea sh hD eps he ind (L.epsMat gmax) 0
      (fun i j => by rw [hent, sub_self, norm_zero]) ((L.epsMat gmax)⁻¹ *ᵥ d) i
    rw [mulVec_mulVec, mul_nonsing_inv _ (isUnit_iff_ne_zero.2 hdet), one_mulVec, add_zero, ← hgl] at h
    simp only [ftinvAt_ofFn _ _ hgi]
    simpa only [hgl] using h
  exact ⟨key D.x, key D.y, key D.z⟩

/-- Every off-diagonal entry of a layer taken as uniform is small. -/
theorem uniform_entry (S : GmeStruct) (l : GmeLay)
    (hfine : ∀ m : ℤ × ℤ, m ≠ 0 → 1e-10 < norm2 (latVec S.b1 S.b2 m)) (gmax : ℝ) (hu : TakenUniform S gmax l) (i j : Fin (S.gvec gmax).length) (hij : i ≠ j) :
    ‖S.epsMat gmax l i j‖ ≤ 1e-10 := by
  set inds := absInds S.b1 S.b2 gmax with hinds
  have hN : (S.gvec gmax).length = inds.length := by simp [GmeStruct.gvec, hinds]
  have hlt : ∀ i : Fin (S.gvec gmax).length, (i : ℕ) < inds.length := fun i => hN ▸ i.2
  have hne : inds.getD j 0 - inds.getD i 0 ≠ 0 := by
    intro h
    have h := sub_eq_zero.1 h
    simp only [List.getD_eq_getElem?_getD, List.getElem?_eq_getElem (hlt i), List.getElem?_eq_getElem (hlt j),
      Option.getD_some] at h
    exact hij (Fin.ext ((show inds.Nodup from (tbtInds_nodup _ _).filter _).getElem_inj_iff.1 h)).symm
  have hg : 1e-10 < norm2 (gOf S.b1 S.b2 ((inds.getD j 0).1 - (inds.getD i 0).1,
      (inds.getD j 0).2 - (inds.getD i 0).2)) := by
    have h0 := hfine _ hne
    rw [latVec_eq] at h0
    exact h0
  have hu : ∑ i ∈ Finset.range inds.length, ∑ j ∈ Finset.range inds.length,
      (if 1e-10 < norm2 (gOf S.b1 S.b2 ((inds.getD j 0).1 - (inds.getD i 0).1,
        (inds.getD j 0).2 - (inds.getD i 0).2))
      then ‖epsMatAbs (S.ft l) S.b1 S.b2 inds i j‖ else 0) < 1e-10 := by
    have := hu
    unfold TakenUniform homAbs at this
    convert this
  have hnn : ∀ i j : ℕ, 0 ≤ (if 1e-10 < norm2 (gOf S.b1 S.b2 ((inds.getD j 0).1 - (inds.getD i 0).1,
        (inds.getD j 0).2 - (inds.getD i 0).2))
      then ‖epsMatAbs (S.ft l) S.b1 S.b2 inds i j‖ else 0) := by
    intro i j
    split_ifs
    · exact norm_nonneg _
    · exact le_refl _
  have h2 := (Finset.single_le_sum (fun j _ => hnn i j) (Finset.mem_range.2 (hlt j))).trans
    (Finset.single_le_sum (fun i _ => Finset.sum_nonneg fun j _ => hnn i j) (Finset.mem_range.2 (hlt i)))
  rw [if_pos hg] at h2
  exact h2.trans hu.le

/-- **C107 (guided modes, default truncation).** For `GuidedModeExp` with `truncate_g='abs'`, the displacement is the one
of the permittivity inverted in the origin: the component along every plane wave of `ε(-r) E(r)` is that of `D`, up to the
errors of the transforms and `1e-10`. -/
theorem C107_gme (S : GmeStruct) (l : GmeLay) (a1 a2 : R2) (sh : List Drawn)
    (hD : Draws a1 a2 S.b1 S.b2 l.epsB l.epsAvg S.ecArea sh) (hsh : l.shapes = sh.map Drawn.shape)
    (hr : ∀ s ∈ l.shapes, RealShape s) (eps : R2 → ℝ)
    (he : IsPermittivity a1 a2 l.epsB (sh.map fun s => (s.shape.eps, s.region)) eps) (gmax : ℝ)
    (havg : l.epsAvg ≠ 0) (hfine : ∀ m : ℤ × ℤ, m ≠ 0 → 1e-10 < norm2 (latVec S.b1 S.b2 m))
    (X : Matrix (Fin (S.gvec gmax).length) (Fin (S.gvec gmax).length) ℂ) (hX : S.epsInv gmax false l = .ok X)
    (einv : ℕ → ℕ → ℂ) (hein : ∀ i j : Fin (S.gvec gmax).length, einv i j = X i j) (D : ℕ → Fin 3 → ℂ) (c : Fin 3)
    (i : Fin (S.gvec gmax).length) :
    ‖component a1 a2 ((S.gvec gmax)[i]) (fun x y => (inverted eps (x, y) : ℂ) *
        ftinvAt (List.ofFn fun j : Fin (S.gvec gmax).length =>
          (eFt (S.gvec gmax).length einv D j c, (S.gvec gmax)[j])) x y) - D i c‖ ≤
      (drawErr l.epsB S.ecArea sh + 1e-10) *
        ∑ j : Fin (S.gvec gmax).length, ‖eFt (S.gvec gmax).length einv D j c‖ := by
  obtain ⟨ind, hinj, hind, hent⟩ := gme_entry S l hr gmax
  have hgl : ∀ j : Fin (S.gvec gmax).length, (S.gvec gmax)[j] = latVec S.b1 S.b2 (ind j) := fun j => by
    have hj : (j : ℕ) < (absInds S.b1 S.b2 gmax).length := by
      have := j.2; simpa [GmeStruct.gvec] using this
    rw [hind, latVec_eq, List.getD_eq_getElem?_getD, List.getElem?_eq_getElem hj, Option.getD_some]
    exact List.getElem_map (gOf S.b1 S.b2)
  have hgi : Function.Injective fun j : Fin (S.gvec gmax).length => (S.gvec gmax)[j] := fun i j h =>
    hinj (latVec_inj_of_dual hD.dual _ _ (by rw [← hgl, ← hgl]; exact h))
  have hE : ∀ j : Fin (S.gvec gmax).length, eFt (S.gvec gmax).length einv D j c = (X *ᵥ fun k : Fin (S.gvec gmax).length => D k c) j := fun j => by
    unfold eFt
    rw [Finset.sum_range, Matrix.mulVec, dotProduct]
    exact Finset.sum_congr rfl fun k _ => by rw [hein]
  have key : ∀ M : Matrix (Fin (S.gvec gmax).length) (Fin (S.gvec gmax).length) ℂ, M * X = 1 → (∀ i j, ‖M i j - S.epsMat gmax l i j‖ ≤ 1e-10) →
      ‖component a1 a2 ((S.gvec gmax)[i]) (fun x y => (inverted eps (x, y) : ℂ) *
        ftinvAt (List.ofFn fun j : Fin (S.gvec gmax).length => (eFt (S.gvec gmax).length einv D j c, (S.gvec gmax)[j])) x y) - D i c‖ ≤
      (drawErr l.epsB S.ecArea sh + 1e-10) * ∑ j : Fin (S.gvec gmax).length, ‖eFt (S.gvec gmax).length einv D j c‖ := by
    intro M hMX hM
    have h := product_inverted a1 a2 S.b1 S.b2 l.epsB l.epsAvg S.ecArea sh hD eps he ind M 1e-10
      (fun i j => by have := hM i j; rw [hent, GmeStruct.ft, hsh] at this; exact this)
      (X *ᵥ fun k : Fin (S.gvec gmax).length => D k c) i
    rw [mulVec_mulVec, hMX, one_mulVec] at h
    simp only [ftinvAt_ofFn _ _ hgi]
    simp only [hE]
    simpa only [hgl] using h
  unfold GmeStruct.epsInv at hX
  have hav : ∀ j : Fin (S.gvec gmax).length, S.epsMat gmax l j j = (l.epsAvg : ℂ) := fun j => by
    rw [hent, sub_self, latVec_zero]
    exact layerFt_g0 _ _ _ _ _ (by simp [isG0]; norm_num)
  by_cases h1 : homAbs (S.ft l) S.b1 S.b2 (absInds S.b1 S.b2 gmax) ∨ false = true
  · rw [if_pos h1] at hX
    have hu : TakenUniform S gmax l := h1.resolve_right (by decide)
    have h00 : epsMatAbs (S.ft l) S.b1 S.b2 (absInds S.b1 S.b2 gmax) 0 0 = (l.epsAvg : ℂ) := hav ⟨0, by have := i.2; omega⟩
    rw [h00] at hX
    have hX : X = ((l.epsAvg : ℂ)⁻¹) • 1 := by injection hX with h; exact h.symm
    refine key ((l.epsAvg : ℂ) • 1) ?_ fun i j => ?_
    · rw [hX, smul_mul_smul_comm, mul_inv_cancel₀ (by exact_mod_cast havg), Matrix.one_mul, one_smul]
    · by_cases hij : i = j
      · subst hij; rw [hav, Matrix.smul_apply, Matrix.one_apply_eq, smul_eq_mul, mul_one, sub_self, norm_zero]; norm_num
      · rw [Matrix.smul_apply, Matrix.one_apply_ne hij, smul_zero, zero_sub, norm_neg]
        exact uniform_entry S l hfine gmax hu i j hij
  · rw [if_neg h1] at hX
    by_cases h2 : (S.epsMat gmax l).det = 0
    · rw [if_pos h2] at hX; exact absurd hX (by simp)
    · rw [if_neg h2] at hX
      have hX : X = (S.epsMat gmax l)⁻¹ := by injection hX with h; exact h.symm
      refine key (S.epsMat gmax l) ?_ fun i j => by rw [sub_self, norm_zero]; norm_num
      rw [hX, mul_nonsing_inv _ (isUnit_iff_ne_zero.2 h2)]

/-- **C107 (what remains true for guided modes).** If the structure is symmetric under inversion in the origin, the
displacement is the one of the permittivity drawn. -/
theorem C107_gme_partial (S : GmeStruct) (l : GmeLay) (a1 a2 : R2) (sh : List Drawn)
    (hD : Draws a1 a2 S.b1 S.b2 l.epsB l.epsAvg S.ecArea sh) (hsh : l.shapes = sh.map Drawn.shape)
    (hr : ∀ s ∈ l.shapes, RealShape s) (eps : R2 → ℝ)
    (he : IsPermittivity a1 a2 l.epsB (sh.map fun s => (s.shape.eps, s.region)) eps) (hsym : ∀ p, eps (-p) = eps p)
    (gmax : ℝ) (havg : l.epsAvg ≠ 0) (hfine : ∀ m : ℤ × ℤ, m ≠ 0 → 1e-10 < norm2 (latVec S.b1 S.b2 m))
    (X : Matrix (Fin (S.gvec gmax).length) (Fin (S.gvec gmax).length) ℂ) (hX : S.epsInv gmax false l = .ok X)
    (einv : ℕ → ℕ → ℂ) (hein : ∀ i j : Fin (S.gvec gmax).length, einv i j = X i j) (D : ℕ → Fin 3 → ℂ) (c : Fin 3)
    (i : Fin (S.gvec gmax).length) :
    ‖component a1 a2 ((S.gvec gmax)[i]) (fun x y => (eps (x, y) : ℂ) *
        ftinvAt (List.ofFn fun j : Fin (S.gvec gmax).length =>
          (eFt (S.gvec gmax).length einv D j c, (S.gvec gmax)[j])) x y) - D i c‖ ≤
      (drawErr l.epsB S.ecArea sh + 1e-10) *
        ∑ j : Fin (S.gvec gmax).length, ‖eFt (S.gvec gmax).length einv D j c‖ := by
  have h := C107_gme S l a1 a2 sh hD hsh hr eps he gmax havg hfine X hX einv hein D c i
  have e : inverted eps = eps := funext hsym
  rwa [e] at h

/-- **C107 (guided modes, truncation by rows).** With `truncate_g='tbt'` and the samples stored as complex numbers, the
displacement is the one of the permittivity drawn. -/
theorem C107_tbt (a1 a2 b1 b2 : R2) (epsB epsAvg area : ℝ) (sh : List Drawn)
    (hD : Draws a1 a2 b1 b2 epsB epsAvg area sh) (hr : ∀ s ∈ sh.map Drawn.shape, RealShape s) (eps : R2 → ℝ)
    (he : IsPermittivity a1 a2 epsB (sh.map fun s => (s.shape.eps, s.region)) eps) (n1 n2 : ℕ)
    (h1 : T1real (layerFt epsB epsAvg area (sh.map Drawn.shape)) (tbtG b1 b2 n1 n2) = false)
    (h2 : T2real (layerFt epsB epsAvg area (sh.map Drawn.shape)) (tbtG b1 b2 n1 n2) (2 * n2 + 1) = false)
    (X : Matrix (Fin ((2 * n1 + 1) * (2 * n2 + 1))) (Fin ((2 * n1 + 1) * (2 * n2 + 1))) ℂ)
    (hX : (Matrix.of fun I J : Fin ((2 * n1 + 1) * (2 * n2 + 1)) =>
      epsMatTbt (layerFt epsB epsAvg area (sh.map Drawn.shape)) b1 b2 n1 n2 I J) * X = 1)
    (D : Fin ((2 * n1 + 1) * (2 * n2 + 1)) → ℂ) (i : Fin ((2 * n1 + 1) * (2 * n2 + 1))) :
    ‖component a1 a2 ((tbtG b1 b2 n1 n2).getD i 0) (fun x y => (eps (x, y) : ℂ) *
        ftinvAt (List.ofFn fun j => ((X *ᵥ D) j, (tbtG b1 b2 n1 n2).getD j 0)) x y) - D i‖ ≤
      drawErr epsB area sh * ∑ j, ‖(X *ᵥ D) j‖ := by
  set ind : Fin ((2 * n1 + 1) * (2 * n2 + 1)) → ℤ × ℤ := fun k =>
    ((((k : ℕ) / (2 * n2 + 1) : ℕ) : ℤ) - n1, (((k : ℕ) % (2 * n2 + 1) : ℕ) : ℤ) - n2) with hind
  have hF : ∀ g : R2, layerFt epsB epsAvg area (sh.map Drawn.shape) (-g.1, -g.2) =
      conj (layerFt epsB epsAvg area (sh.map Drawn.shape) g) := fun g => (C12_layer_conj epsB epsAvg area _ hr g).1
  have hgl : ∀ j : Fin ((2 * n1 + 1) * (2 * n2 + 1)), (tbtG b1 b2 n1 n2).getD j 0 = latVec b1 b2 (ind j) := fun j => by
    rw [latVec_eq]; exact tbt_getD b1 b2 n1 n2 j j.2
  have hinj : Function.Injective ind := by
    intro i j h
    have e1 := congrArg Prod.fst h
    have e2 := congrArg Prod.snd h
    simp only [hind] at e1 e2
    have e1' : (i : ℕ) / (2 * n2 + 1) = (j : ℕ) / (2 * n2 + 1) := by omega
    have e2' : (i : ℕ) % (2 * n2 + 1) = (j : ℕ) % (2 * n2 + 1) := by omega
    exact Fin.ext (by rw [← Nat.div_add_mod (i : ℕ) (2 * n2 + 1), ← Nat.div_add_mod (j : ℕ) (2 * n2 + 1), e1', e2'])
  have hgi : Function.Injective fun j : Fin ((2 * n1 + 1) * (2 * n2 + 1)) => (tbtG b1 b2 n1 n2).getD j 0 :=
    fun i j h => hinj (latVec_inj_of_dual hD.dual _ _ (by rw [← hgl, ← hgl]; exact h))
  have hsome : ∀ j : Fin ((2 * n1 + 1) * (2 * n2 + 1)), (tbtG b1 b2 n1 n2)[(j : ℕ)]? = some (latVec b1 b2 (ind j)) := by
    intro j
    have hl : (j : ℕ) < (tbtG b1 b2 n1 n2).length := by
      have := j.2
      simpa [tbtG, tbtInds_length] using this
    rw [← hgl, List.getD_eq_getElem?_getD, List.getElem?_eq_getElem hl, Option.getD_some]
  have h := product_close a1 a2 b1 b2 epsB epsAvg area sh hD eps he ind
    (Matrix.of fun I J : Fin ((2 * n1 + 1) * (2 * n2 + 1)) =>
      epsMatTbt (layerFt epsB epsAvg area (sh.map Drawn.shape)) b1 b2 n1 n2 I J) 0 (fun i j => by
        rw [Matrix.of_apply, C19_entry_partial _ b1 b2 n1 n2 i j hF (h1.trans h2.symm) _ _ (hsome i) (hsome j), h1,
          latVec_sub, if_neg (by decide)]
        show ‖layerFt epsB epsAvg area (sh.map Drawn.shape) (latVec b1 b2 (ind i) - latVec b1 b2 (ind j)) - _‖ ≤ 0
        rw [sub_self, norm_zero]) (X *ᵥ D) i
  rw [mulVec_mulVec, hX, one_mulVec, add_zero] at h
  simp only [ftinvAt_ofFn _ _ hgi]
  simpa only [hgl] using h

/-! ### Displaced holes -/

/-- Air holes of radius 0.2 centred at `(1/4, 0)` in a slab of permittivity 12. -/
noncomputable def shiftedSlab : GmeLay :=
  ⟨.inner 1, 12, 12 + (1 - 12) * (π * 0.2 ^ 2) / 1, none, [⟨1, Circle.ft besselJ1 ⟨1 / 4, 0, 0.2⟩⟩]⟩

/-- The slab in air, square lattice. -/
noncomputable def shiftedStruct : GmeStruct :=
  ⟨(2 * π, 0), (0, 2 * π), 1, [⟨.lower, 1, 1, none, []⟩, shiftedSlab, ⟨.upper, 1, 1, none, []⟩]⟩

theorem shifted_draws : Draws (1, 0) (0, 1) (2 * π, 0) (0, 2 * π) 12 (12 + (1 - 12) * (π * 0.2 ^ 2) / 1) 1
    [drawnCircle 1 ⟨1 / 4, 0, 0.2⟩] := by
  obtain ⟨m1, m2, m3, m4⟩ := C101_circle 1 ⟨1 / 4, 0, 0.2⟩ (by norm_num)
  refine ⟨square_holes.dual, resolved_square, by simp, ⟨?_, by simp⟩, ?_, ?_, ?_, ?_⟩
  · have := circle_isolated (1, 0) (0, 1) ⟨1 / 4, 0, 0.2⟩ fun m hm =>
      lt_of_lt_of_le (by norm_num) (square_vectors m hm)
    simpa only [drawnCircle, List.map_cons, List.map_nil, List.mem_singleton, forall_eq] using this
  · simpa using m1
  · simpa using fun n m _ => m4 (latVec (2 * π, 0) (0, 2 * π) (n, m))
  · simp only [List.mem_singleton, forall_eq, drawnCircle]; positivity
  · simp only [List.map_cons, List.map_nil, List.sum_cons, List.sum_nil, m2, add_zero]; rfl

/-- The Fourier integral over the displaced hole is not real. -/
theorem shifted_im : (regionFourier (drawnCircle 1 ⟨1 / 4, 0, 0.2⟩).region (2 * π, 0)).im ≤ -(0.2 * (π * 0.2 ^ 2)) := by
  obtain ⟨m1, m2, -, m4⟩ := C101_circle 1 ⟨1 / 4, 0, 0.2⟩ (by norm_num)
  set R := (drawnCircle 1 ⟨1 / 4, 0, 0.2⟩).region with hR
  have hvol : volume.real R = π * 0.2 ^ 2 := m2
  have hfin : volume R ≠ ⊤ := by
    intro h
    rw [Measure.real, h, ENNReal.toReal_top] at hvol
    have := Real.pi_pos
    norm_num at hvol
  have hint : IntegrableOn (fun p : ℝ × ℝ => Complex.exp (-Complex.I * ((2 * π * p.1 + 0 * p.2 : ℝ) : ℂ))) R := by
    refine Measure.integrableOn_of_bounded (M := 1) hfin ?_ ?_
    · exact (Continuous.aestronglyMeasurable (by fun_prop))
    · refine Filter.Eventually.of_forall fun p => ?_
      rw [Complex.norm_exp]
      simp
  have e : (regionFourier R (2 * π, 0)).im = -∫ p in R, Real.sin (2 * π * p.1) := by
    unfold regionFourier
    have := integral_im hint
    simp only [RCLike.im_to_complex] at this
    rw [← this, ← integral_neg]
    refine setIntegral_congr_fun m1 fun p _ => ?_
    simp only [zero_mul, add_zero]
    rw [show -Complex.I * ((2 * π * p.1 : ℝ) : ℂ) = ((-(2 * π * p.1) : ℝ) : ℂ) * Complex.I by push_cast; ring,
      Complex.exp_ofReal_mul_I_im, Real.sin_neg]
  rw [e, neg_le_neg_iff, ← hvol, mul_comm, ← smul_eq_mul, ← setIntegral_const]
  refine setIntegral_mono_on (integrableOn_const hfin) ?_ m1 fun p hp => ?_
  · refine Measure.integrableOn_of_bounded (M := 1) hfin ?_ ?_
    · exact (Continuous.aestronglyMeasurable (by fun_prop))
    · exact Filter.Eventually.of_forall fun p => Real.abs_sin_le_one _
  · have hp' : (p.1 - 1 / 4) ^ 2 + (p.2 - 0) ^ 2 ≤ (0.2 : ℝ) ^ 2 := hp
    have hpi := Real.pi_pos
    have h1 : 0.05 ≤ p.1 := by nlinarith [sq_nonneg p.2]
    have h2 : p.1 ≤ 0.45 := by nlinarith [sq_nonneg p.2]
    rcases le_total p.1 (1 / 4) with h | h
    · have := Real.mul_le_sin (x := 2 * π * p.1) (by nlinarith) (by nlinarith)
      have e : 2 / π * (2 * π * p.1) = 4 * p.1 := by field_simp; ring
      linarith
    · have := Real.mul_le_sin (x := π - 2 * π * p.1) (by nlinarith) (by nlinarith)
      rw [Real.sin_pi_sub] at this
      have e : 2 / π * (π - 2 * π * p.1) = 2 - 4 * p.1 := by field_simp; ring
      linarith

theorem shifted_conj (n : ℤ × ℤ) : regionFourier (drawnCircle 1 ⟨1 / 4, 0, 0.2⟩).region (latVec (2 * π, 0) (0, 2 * π) (-n)) =
    conj (regionFourier (drawnCircle 1 ⟨1 / 4, 0, 0.2⟩).region (latVec (2 * π, 0) (0, 2 * π) n)) := by
  unfold regionFourier
  rw [← integral_conj]
  congr 1
  funext p
  rw [← Complex.exp_conj]
  congr 1
  simp only [latVec, map_mul, map_neg, Complex.conj_I, Complex.conj_ofReal, Prod.fst_neg, Prod.snd_neg]
  push_cast
  ring

theorem shifted_coeff (eps : R2 → ℝ)
    (he : IsPermittivity (1, 0) (0, 1) 12 [(1, (drawnCircle 1 ⟨1 / 4, 0, 0.2⟩).region)] eps) (n : ℤ × ℤ) (hn : n ≠ 0) :
    epsCoeff (1, 0) (0, 1) eps (latVec (2 * π, 0) (0, 2 * π) n) =
      -11 * regionFourier (drawnCircle 1 ⟨1 / 4, 0, 0.2⟩).region (latVec (2 * π, 0) (0, 2 * π) n) := by
  have hA := shifted_draws.apart
  have hmeas := shifted_draws.measurable
  rw [epsCoeff_eq (1, 0) (0, 1) (2 * π, 0) (0, 2 * π) square_holes.dual (by norm_num) 12 _ (by simpa using hA)
    (by simpa using hmeas) eps he n, if_neg hn]
  simp
  norm_num

theorem shifted_exists : ∃ eps, IsPermittivity (1, 0) (0, 1) 12 [(1, (drawnCircle 1 ⟨1 / 4, 0, 0.2⟩).region)] eps := by
  classical
  refine ⟨fun p => if ∃ m, p + latVec (1, 0) (0, 1) m ∈ (drawnCircle 1 ⟨1 / 4, 0, 0.2⟩).region then 1 else 12, ?_, ?_⟩
  · intro s hs p m hm
    rw [List.mem_singleton.1 hs] at hm ⊢
    exact if_pos ⟨m, hm⟩
  · intro p hp
    exact if_neg fun ⟨m, hm⟩ => hp _ (List.mem_singleton_self _) m hm

theorem shifted_index (gmax : ℝ) (hg : 1 ≤ gmax) (k : ℤ) (hk : |k| ≤ 1) :
    ∃ i : Fin (shiftedStruct.gvec gmax).length, (absInds (2 * π, 0) (0, 2 * π) gmax).getD i 0 = (k, 0) := by
  set inds := absInds (2 * π, 0) (0, 2 * π) gmax with hinds
  have hpi := Real.pi_pos
  have hn1 : norm2 ((2 * π, 0) : R2) = 2 * π := by
    simp only [norm2]; rw [zero_pow two_ne_zero, add_zero, Real.sqrt_sq (by positivity)]
  have hn2 : norm2 ((0, 2 * π) : R2) = 2 * π := by
    simp only [norm2]; rw [zero_pow two_ne_zero, zero_add, Real.sqrt_sq (by positivity)]
  have hge : gmax ≤ gmaxEff gmax (absNorms (2 * π, 0) (0, 2 * π) gmax) := gmax_le_gmaxEff _ _
  have hk' : |(k : ℝ)| ≤ 1 := by exact_mod_cast hk
  have mem : (k, 0) ∈ inds := by
    rw [hinds, mem_absInds]
    have hw : ∀ n : ℤ, |(n : ℝ)| ≤ 1 → |(n : ℝ)| * (2 * π) ≤ 4 * π * gmax := by
      intro n hn; nlinarith
    refine ⟨(mem_tbtInds _ _ _).mpr ⟨le_nmaxOf _ _ _ _ (by rw [hn1]; positivity) (by positivity) ?_,
      le_nmaxOf _ _ _ _ (by rw [hn2]; positivity) (by positivity) ?_⟩, ?_⟩
    · rw [hn1]; exact hw k hk'
    · rw [hn2]; exact hw 0 (by simp)
    · have e1 : norm2 (gOf (2 * π, 0) (0, 2 * π) (k, 0)) = |(k : ℝ)| * (2 * π) := by
        simp only [norm2, gOf, Int.cast_zero, mul_zero, add_zero, zero_mul, zero_pow two_ne_zero]
        rw [Real.sqrt_sq_eq_abs, abs_mul, abs_of_pos (by positivity : (0 : ℝ) < 2 * π)]
        ring
      rw [e1]
      nlinarith
  obtain ⟨i, hi, hi'⟩ := List.getElem_of_mem mem
  have hN : (shiftedStruct.gvec gmax).length = inds.length := by simp [GmeStruct.gvec, hinds, shiftedStruct]
  exact ⟨⟨i, by rw [hN]; exact hi⟩, by
    show inds.getD i 0 = _
    rw [getD_get inds _ hi, hi']⟩

theorem square_fine (m : ℤ × ℤ) (hm : m ≠ 0) : 1e-10 < norm2 (latVec (2 * π, 0) (0, 2 * π) m) := by
  have h := square_vectors m hm
  have hpi := Real.pi_gt_three
  rw [norm2]
  refine Real.lt_sqrt_of_sq_lt ?_
  simp only [latVec, mul_one, mul_zero, add_zero, zero_add] at h ⊢
  nlinarith [mul_pos Real.pi_pos Real.pi_pos, mul_le_mul_of_nonneg_left h (by positivity : (0 : ℝ) ≤ 4 * π ^ 2)]

/-- **C107 (negation for the default truncation).** For the displaced holes, with any cutoff of at least one reciprocal
lattice vector and up to a million plane waves, there are a displacement and a plane wave for which the component of
`ε(r) E(r)` and that of `D` differ by more than 0.5 times the amplitude of `E`: the electric field which `ft_field_xy` makes
of this displacement is the constant 1. -/
theorem C107_gme_displaced (gmax : ℝ) (hg : 1 ≤ gmax) (hn : (shiftedStruct.gvec gmax).length ≤ 10 ^ 6) (eps : R2 → ℝ)
    (he : IsPermittivity (1, 0) (0, 1) 12 [(1, (drawnCircle 1 ⟨1 / 4, 0, 0.2⟩).region)] eps) :
    ∃ X, shiftedStruct.epsInv gmax false shiftedSlab = .ok X ∧
      ∃ einv : ℕ → ℕ → ℂ, (∀ i j : Fin (shiftedStruct.gvec gmax).length, einv i j = X i j) ∧
      ∃ (D : ℕ → Fin 3 → ℂ) (c : Fin 3) (i : Fin (shiftedStruct.gvec gmax).length),
        (∀ x y, ftinvAt (List.ofFn fun j : Fin (shiftedStruct.gvec gmax).length =>
          (eFt (shiftedStruct.gvec gmax).length einv D j c, (shiftedStruct.gvec gmax)[j])) x y = 1) ∧
        1 / 2 < ‖component (1, 0) (0, 1) ((shiftedStruct.gvec gmax)[i]) (fun x y => (eps (x, y) : ℂ) *
          ftinvAt (List.ofFn fun j : Fin (shiftedStruct.gvec gmax).length =>
            (eFt (shiftedStruct.gvec gmax).length einv D j c, (shiftedStruct.gvec gmax)[j])) x y) - D i c‖ := by
  classical
  have hpi := Real.pi_gt_three
  have hpi4 := Real.pi_lt_four
  have hr : ∀ s ∈ shiftedSlab.shapes, RealShape s := by
    simp only [shiftedSlab, List.mem_singleton]
    rintro s rfl
    exact C12_circle_conj besselJ1 _
  have herr : drawErr 12 1 [drawnCircle 1 ⟨1 / 4, 0, 0.2⟩] = drawErr 12 1 [drawnCircle 1 ⟨0, 0, 0.2⟩] := rfl
  have hdr : Draws (1, 0) (0, 1) shiftedStruct.b1 shiftedStruct.b2 shiftedSlab.epsB shiftedSlab.epsAvg shiftedStruct.ecArea
    [drawnCircle 1 ⟨1 / 4, 0, 0.2⟩] := shifted_draws
  obtain ⟨i0, hi0⟩ := shifted_index gmax hg 0 (by simp)
  obtain ⟨i1, hi1⟩ := shifted_index gmax hg 1 (by simp)
  obtain ⟨X, hX, hXp⟩ := (C101_gme shiftedStruct shiftedSlab (1, 0) (0, 1) _ hdr rfl hr 1 12
    (by simp [shiftedSlab]) (by simp [shiftedSlab]) gmax).2
    (by show _ * drawErr 12 1 _ < 1; rw [herr]; exact holes_err _ hn) (lt_of_le_of_lt (Nat.zero_le _) i0.2) false
  have hdet : IsUnit X.det := isUnit_iff_ne_zero.2 hXp.det_pos.ne'
  set u : Fin (shiftedStruct.gvec gmax).length → ℂ := fun j => if j = i0 then 1 else 0 with hu
  set einv : ℕ → ℕ → ℂ := fun a b => if h : a < (shiftedStruct.gvec gmax).length ∧ b < (shiftedStruct.gvec gmax).length then
    X ⟨a, h.1⟩ ⟨b, h.2⟩ else 0 with hein
  have hein' : ∀ i j : Fin (shiftedStruct.gvec gmax).length, einv i j = X i j := fun i j => by
    simp only [hein]; rw [dif_pos ⟨i.2, j.2⟩]
  set D : ℕ → Fin 3 → ℂ := fun a _ => if h : a < (shiftedStruct.gvec gmax).length then (X⁻¹ *ᵥ u) ⟨a, h⟩ else 0 with hDdef
  have hE : ∀ j : Fin (shiftedStruct.gvec gmax).length, eFt (shiftedStruct.gvec gmax).length einv D j 0 = u j := fun j => by
    unfold eFt
    rw [Finset.sum_range]
    have e : ∀ k : Fin (shiftedStruct.gvec gmax).length, einv j k * D k 0 = X j k * (X⁻¹ *ᵥ u) k := fun k => by
      rw [hein', hDdef]; simp only; rw [dif_pos k.2]
    rw [Finset.sum_congr rfl fun k _ => e k]
    show (X *ᵥ (X⁻¹ *ᵥ u)) j = u j
    rw [mulVec_mulVec, mul_nonsing_inv _ hdet, one_mulVec]
  have hg0 : ∀ (i : Fin (shiftedStruct.gvec gmax).length) (k : ℤ × ℤ), (absInds (2 * π, 0) (0, 2 * π) gmax).getD i 0 = k →
      (shiftedStruct.gvec gmax)[i] = latVec (2 * π, 0) (0, 2 * π) k := by
    rintro i k rfl
    have hj : (i : ℕ) < (absInds (2 * π, 0) (0, 2 * π) gmax).length := by
      have := i.2; simpa [GmeStruct.gvec, shiftedStruct] using this
    rw [latVec_eq, List.getD_eq_getElem?_getD, List.getElem?_eq_getElem hj, Option.getD_some]
    exact List.getElem_map (gOf (2 * π, 0) (0, 2 * π))
  obtain ⟨ind, hinj, hind, -⟩ := gme_entry shiftedStruct shiftedSlab hr gmax
  have hgl : ∀ j : Fin (shiftedStruct.gvec gmax).length, (shiftedStruct.gvec gmax)[j] = latVec (2 * π, 0) (0, 2 * π) (ind j) := fun j =>
    hg0 j _ (hind j).symm
  have hgi : Function.Injective fun j : Fin (shiftedStruct.gvec gmax).length => (shiftedStruct.gvec gmax)[j] := fun i j h =>
    hinj (latVec_inj_of_dual square_holes.dual _ _ (by rw [← hgl, ← hgl]; exact h))
  have hone : ∀ x y, ftinvAt (List.ofFn fun j : Fin (shiftedStruct.gvec gmax).length =>
      (eFt (shiftedStruct.gvec gmax).length einv D j 0, (shiftedStruct.gvec gmax)[j])) x y = 1 := by
    intro x y
    rw [ftinvAt_ofFn _ _ hgi]
    simp only [hE, hu, ite_mul, one_mul, zero_mul, Finset.sum_ite_eq', Finset.mem_univ, if_true]
    rw [hg0 i0 _ hi0]
    simp [wave, latVec]
  refine ⟨X, hX, einv, hein', D, 0, i1, hone, ?_⟩
  have hC := C107_gme shiftedStruct shiftedSlab (1, 0) (0, 1) _ hdr rfl hr eps (by simpa [shiftedSlab, drawnCircle] using he) gmax
    (by
      have h1 : π * 0.2 ^ 2 ≤ 4 * 0.2 ^ 2 := by nlinarith
      simp only [shiftedSlab]
      intro h0
      norm_num at h0 h1
      linarith) square_fine X hX einv hein' D 0 i1
  simp only [hone, mul_one] at hC ⊢
  have hsum : ∑ j : Fin (shiftedStruct.gvec gmax).length, ‖eFt (shiftedStruct.gvec gmax).length einv D j 0‖ = 1 := by
    simp only [hE, hu]
    rw [Finset.sum_eq_single i0] <;> simp (config := { contextual := true })
  rw [hsum, mul_one] at hC
  have hsmall : drawErr shiftedSlab.epsB shiftedStruct.ecArea [drawnCircle 1 ⟨1 / 4, 0, 0.2⟩] + 1e-10 ≤ 0.01 := by
    show drawErr 12 1 [drawnCircle 1 ⟨1 / 4, 0, 0.2⟩] + 1e-10 ≤ 0.01
    have := holes_err (10 ^ 6) le_rfl
    rw [herr]
    norm_num at this ⊢
    linarith
  rw [hg0 i1 _ hi1] at hC ⊢
  have c1 : ∀ (f : R2 → ℝ), component (1, 0) (0, 1) (latVec (2 * π, 0) (0, 2 * π) (1, 0)) (fun x y => (f (x, y) : ℂ)) =
      epsCoeff (1, 0) (0, 1) f (latVec (2 * π, 0) (0, 2 * π) (1, 0)) := fun f => rfl
  rw [c1] at hC ⊢
  rw [epsCoeff_inverted _ _ _ _ square_holes.dual eps (permittivity_periodic _ _ _ _ eps he)] at hC
  rw [shifted_coeff eps he _ (by decide)] at hC ⊢
  set R := (drawnCircle 1 ⟨1 / 4, 0, 0.2⟩).region with hR
  have hl : latVec (2 * π, 0) (0, 2 * π) (1, 0) = (2 * π, 0) := by simp [latVec]
  rw [shifted_conj, ← hR, hl] at hC
  rw [hl]
  have him := shifted_im
  set z := regionFourier R (2 * π, 0) with hz
  have hz1 : |((-11 * conj z - D i1 0) : ℂ).im| ≤ 0.01 := (Complex.abs_im_le_norm _).trans (hC.trans hsmall)
  refine lt_of_lt_of_le ?_ (Complex.abs_im_le_norm _)
  have e1 : ((-11 * conj z - D i1 0) : ℂ).im = 11 * z.im - (D i1 0).im := by simp
  have e2 : ((-11 * z - D i1 0) : ℂ).im = -11 * z.im - (D i1 0).im := by simp
  rw [e1] at hz1
  rw [e2]
  have h3 := abs_le.1 hz1
  refine lt_of_lt_of_le ?_ (le_abs_self _)
  norm_num at him
  nlinarith

/-! ### Cases which meet the hypotheses -/

/-- The displaced holes with `PlaneWaveExp`. -/
example (gmax : ℝ) (L : PweLayer) (hL : L = ⟨(2 * π, 0), (0, 2 * π), 1, 12, 12 + (1 - 12) * (π * 0.2 ^ 2) / 1,
      [⟨1, Circle.ft besselJ1 ⟨1 / 4, 0, 0.2⟩⟩]⟩) (hn : (L.gvec gmax).length ≤ 10 ^ 6) (D : FtField (L.gvec gmax).length)
    (i : Fin (L.gvec gmax).length) (eps : R2 → ℝ)
    (he : IsPermittivity (1, 0) (0, 1) 12 [(1, (drawnCircle 1 ⟨1 / 4, 0, 0.2⟩).region)] eps) :
    ‖component (1, 0) (0, 1) (L.gAt gmax i) (fun x y => (eps (x, y) : ℂ) *
        ftinvAt (List.ofFn fun j => ((pweE (L.epsMat gmax)⁻¹ D).z j, L.gAt gmax j)) x y) - D.z i‖ ≤
      drawErr 12 1 [drawnCircle 1 ⟨1 / 4, 0, 0.2⟩] * ∑ j, ‖(pweE (L.epsMat gmax)⁻¹ D).z j‖ := by
  have hr : ∀ s ∈ L.shapes, RealShape s := by
    subst hL
    simp only [List.mem_singleton]
    rintro s rfl
    exact C12_circle_conj besselJ1 _
  have herr : drawErr 12 1 [drawnCircle 1 ⟨1 / 4, 0, 0.2⟩] = drawErr 12 1 [drawnCircle 1 ⟨0, 0, 0.2⟩] := rfl
  have hdr : Draws (1, 0) (0, 1) L.b1 L.b2 L.epsB L.epsAvg L.ecArea [drawnCircle 1 ⟨1 / 4, 0, 0.2⟩] := by
    subst hL; exact shifted_draws
  have h := (C101_pwe L (1, 0) (0, 1) _ hdr (by subst hL; rfl) hr 1 12 (by subst hL; norm_num) (by subst hL; norm_num) gmax).2
    (by subst hL; show _ * drawErr 12 1 _ < 1; rw [herr]; exact holes_err _ hn)
  have key := (C107_pwe L (1, 0) (0, 1) _ hdr (by subst hL; rfl) hr eps (by subst hL; simpa [drawnCircle] using he) gmax
    h.2.1 D i).2.2
  subst hL
  exact key

/-- Such a permittivity exists, so that the negation is not empty. -/
example (gmax : ℝ) (hg : 1 ≤ gmax) (hn : (shiftedStruct.gvec gmax).length ≤ 10 ^ 6) : ∃ eps,
    IsPermittivity (1, 0) (0, 1) 12 [(1, (drawnCircle 1 ⟨1 / 4, 0, 0.2⟩).region)] eps ∧
    ∃ X, shiftedStruct.epsInv gmax false shiftedSlab = .ok X := by
  obtain ⟨eps, he⟩ := shifted_exists
  obtain ⟨X, hX, -⟩ := C107_gme_displaced gmax hg hn eps he
  exact ⟨eps, he, X, hX⟩

/-- Holes centred at the origin are symmetric under inversion. -/
theorem centred_symmetric (eps : R2 → ℝ)
    (he : IsPermittivity (1, 0) (0, 1) 12 [(1, (drawnCircle 1 ⟨0, 0, 0.2⟩).region)] eps) (p : R2) : eps (-p) = eps p := by
  have hneg : ∀ p : R2, p ∈ (drawnCircle 1 ⟨0, 0, 0.2⟩).region → -p ∈ (drawnCircle 1 ⟨0, 0, 0.2⟩).region := by
    intro p hp
    have hp : (p.1 - 0) ^ 2 + (p.2 - 0) ^ 2 ≤ (0.2 : ℝ) ^ 2 := hp
    show ((-p).1 - 0) ^ 2 + ((-p).2 - 0) ^ 2 ≤ (0.2 : ℝ) ^ 2
    simp only [Prod.fst_neg, Prod.snd_neg, sub_zero, neg_sq] at hp ⊢
    exact hp
  have hl : ∀ (p : R2) (m : ℤ × ℤ), -p + latVec (1, 0) (0, 1) (-m) = -(p + latVec (1, 0) (0, 1) m) := fun p m => by
    simp only [latVec, Prod.fst_neg, Prod.snd_neg]
    ext <;> simp <;> ring
  by_cases h : ∃ m, p + latVec (1, 0) (0, 1) m ∈ (drawnCircle 1 ⟨0, 0, 0.2⟩).region
  · obtain ⟨m, hm⟩ := h
    rw [he.inside _ (List.mem_singleton_self _) p m hm,
      he.inside _ (List.mem_singleton_self _) (-p) (-m) (by rw [hl]; exact hneg _ hm)]
  · push Not at h
    rw [he.outside p fun s hs m => by rw [List.mem_singleton.1 hs]; exact h m]
    refine he.outside (-p) fun s hs m hm => ?_
    rw [List.mem_singleton.1 hs] at hm
    refine h (-m) ?_
    have := hneg _ hm
    rw [← hl, neg_neg] at this
    exact this

/-- Guided modes with centred holes. -/
example (gmax : ℝ) (hn : ((holesStruct 1).gvec gmax).length ≤ 10 ^ 6) (i : Fin ((holesStruct 1).gvec gmax).length)
    (eps : R2 → ℝ) (he : IsPermittivity (1, 0) (0, 1) 12 [(1, (drawnCircle 1 ⟨0, 0, 0.2⟩).region)] eps)
    (D : ℕ → Fin 3 → ℂ) (c : Fin 3) :
    ∃ X, (holesStruct 1).epsInv gmax false (holesSlab 1) = .ok X ∧
      ∀ einv : ℕ → ℕ → ℂ, (∀ i j : Fin ((holesStruct 1).gvec gmax).length, einv i j = X i j) →
      ‖component (1, 0) (0, 1) (((holesStruct 1).gvec gmax)[i]) (fun x y => (eps (x, y) : ℂ) *
        ftinvAt (List.ofFn fun j : Fin ((holesStruct 1).gvec gmax).length =>
          (eFt ((holesStruct 1).gvec gmax).length einv D j c, ((holesStruct 1).gvec gmax)[j])) x y) - D i c‖ ≤
      (drawErr (1 + 11) 1 [drawnCircle 1 ⟨0, 0, 0.2⟩] + 1e-10) *
        ∑ j : Fin ((holesStruct 1).gvec gmax).length, ‖eFt ((holesStruct 1).gvec gmax).length einv D j c‖ := by
  obtain ⟨X, hX, -⟩ := (C101_gme (holesStruct 1) (holesSlab 1) (1, 0) (0, 1) _ (holes_draws 1) rfl (holes_real' 1) 1 12
    (by norm_num [holesSlab]) (by norm_num [holesSlab]) gmax).2 (holes_err' 1 _ hn) (lt_of_le_of_lt (Nat.zero_le _) i.2) false
  refine ⟨X, hX, fun einv hein => ?_⟩
  have hpi4 := Real.pi_lt_four
  have e12 : (1 : ℝ) + 11 = 12 := by norm_num
  refine C107_gme_partial (holesStruct 1) (holesSlab 1) (1, 0) (0, 1) _ (holes_draws 1) rfl (holes_real' 1) eps ?_
    (centred_symmetric eps he) gmax ?_ square_fine X hX einv hein D c i
  · simpa [holesSlab, drawnCircle, e12] using he
  · simp only [holesSlab]
    intro h0
    norm_num at h0
    linarith

/-- The transform of the slab with displaced holes. -/
noncomputable def shiftedFt : R2 → ℂ :=
  layerFt 12 (12 + (1 - 12) * (π * 0.2 ^ 2) / 1) 1 ([drawnCircle 1 ⟨1 / 4, 0, 0.2⟩].map Drawn.shape)

theorem shifted_err : drawErr 12 1 [drawnCircle 1 ⟨1 / 4, 0, 0.2⟩] ≤ 0.01 := by
  have herr : drawErr 12 1 [drawnCircle 1 ⟨1 / 4, 0, 0.2⟩] = drawErr 12 1 [drawnCircle 1 ⟨0, 0, 0.2⟩] := rfl
  have := holes_err (10 ^ 6) le_rfl
  rw [herr]
  norm_num at this ⊢
  linarith

theorem shifted_near (eps : R2 → ℝ)
    (he : IsPermittivity (1, 0) (0, 1) 12 [(1, (drawnCircle 1 ⟨1 / 4, 0, 0.2⟩).region)] eps) (n : ℤ × ℤ) :
    ‖shiftedFt (latVec (2 * π, 0) (0, 2 * π) n) - epsCoeff (1, 0) (0, 1) eps (latVec (2 * π, 0) (0, 2 * π) n)‖ ≤ 0.01 :=
  (C101_coefficient _ _ _ _ _ _ _ _ shifted_draws eps (by simpa [drawnCircle] using he) n).trans shifted_err

theorem shifted_imag : 0.2 ≤ |(shiftedFt (latVec (2 * π, 0) (0, 2 * π) (-1, 0))).im| := by
  obtain ⟨eps, he⟩ := shifted_exists
  have h := shifted_near eps he (-1, 0)
  rw [shifted_coeff eps he _ (by decide), show ((-1, 0) : ℤ × ℤ) = -(1, 0) from rfl, shifted_conj,
    show latVec (2 * π, 0) (0, 2 * π) (1, 0) = (2 * π, 0) by simp [latVec]] at h
  have h2 := abs_le.1 ((Complex.abs_im_le_norm _).trans h)
  have him := shifted_im
  have hpi := Real.pi_gt_three
  rw [show ((-1, 0) : ℤ × ℤ) = -(1, 0) from rfl]
  simp only [Complex.sub_im, Complex.mul_im, Complex.neg_re, Complex.neg_im, Complex.conj_im, Complex.conj_re,
    show ((11 : ℂ)).re = 11 from rfl, show ((11 : ℂ)).im = 0 from rfl] at h2
  refine le_trans ?_ (neg_le_abs _)
  norm_num at him h2 ⊢
  nlinarith [h2.1, h2.2]

theorem shifted_real (n : ℤ × ℤ) : |(shiftedFt (latVec (2 * π, 0) (0, 2 * π) n)).re| ≤ 30 := by
  obtain ⟨eps, he⟩ := shifted_exists
  obtain ⟨m1, m2, -, -⟩ := C101_circle 1 ⟨1 / 4, 0, 0.2⟩ (by norm_num)
  have h := shifted_near eps he n
  have hpi := Real.pi_gt_three
  have hpi4 := Real.pi_lt_four
  have hA := shifted_draws.apart
  have hmeas := shifted_draws.measurable
  have hR : ‖regionFourier (drawnCircle 1 ⟨1 / 4, 0, 0.2⟩).region (latVec (2 * π, 0) (0, 2 * π) n)‖ ≤ 1 := by
    have hfin : volume (drawnCircle 1 ⟨1 / 4, 0, 0.2⟩).region < ⊤ := by
      rw [lt_top_iff_ne_top]
      intro h
      rw [Measure.real, h, ENNReal.toReal_top] at m2
      norm_num at m2
    refine (norm_setIntegral_le_of_norm_le_const (C := 1) hfin fun p _ => ?_).trans ?_
    · rw [exp_neg_wave, RCLike.norm_conj, norm_wave]
    · rw [m2]; norm_num; linarith
  have hc : ‖epsCoeff (1, 0) (0, 1) eps (latVec (2 * π, 0) (0, 2 * π) n)‖ ≤ 12 + 11 := by
    rw [epsCoeff_eq (1, 0) (0, 1) (2 * π, 0) (0, 2 * π) square_holes.dual (by norm_num) 12 _ (by simpa using hA)
      (by simpa using hmeas) eps he n]
    refine (norm_add_le _ _).trans (add_le_add ?_ ?_)
    · split <;> simp
    · simp only [List.map_cons, List.map_nil, List.sum_cons, List.sum_nil, add_zero]
      rw [norm_div, norm_mul, Complex.norm_real]
      norm_num
      linarith
  have := norm_sub_norm_le (shiftedFt (latVec (2 * π, 0) (0, 2 * π) n))
    (epsCoeff (1, 0) (0, 1) eps (latVec (2 * π, 0) (0, 2 * π) n))
  refine (Complex.abs_re_le_norm _).trans ?_
  norm_num at h
  linarith

theorem tbtG_lat (b1 b2 : R2) (n1 n2 k : ℕ) : ∃ n : ℤ × ℤ, (tbtG b1 b2 n1 n2).getD k 0 = latVec b1 b2 n := by
  by_cases h : k < (2 * n1 + 1) * (2 * n2 + 1)
  · exact ⟨_, by rw [latVec_eq]; exact tbt_getD b1 b2 n1 n2 k h⟩
  · refine ⟨0, ?_⟩
    rw [List.getD_eq_getElem?_getD, List.getElem?_eq_none (by simp [tbtG, tbtInds_length]; omega), latVec_zero]
    rfl

/-- With three by three plane waves the samples are stored as complex numbers. -/
theorem shifted_stored : T1real shiftedFt (tbtG (2 * π, 0) (0, 2 * π) 1 1) = false ∧
    T2real shiftedFt (tbtG (2 * π, 0) (0, 2 * π) 1 1) (2 * 1 + 1) = false := by
  have hl : (tbtG (2 * π, 0) (0, 2 * π) 1 1).length = 9 := by simp [tbtG, tbtInds_length]
  have g0 : (tbtG (2 * π, 0) (0, 2 * π) 1 1).getD 0 0 = latVec (2 * π, 0) (0, 2 * π) (-1, -1) := by
    rw [latVec_eq]; exact tbt_getD _ _ 1 1 0 (by norm_num)
  have g3 : (tbtG (2 * π, 0) (0, 2 * π) 1 1).getD 3 0 = latVec (2 * π, 0) (0, 2 * π) (0, -1) := by
    rw [latVec_eq]; exact tbt_getD _ _ 1 1 3 (by norm_num)
  have key : ∀ T : ℕ → ℂ, T 3 = shiftedFt (latVec (2 * π, 0) (0, 2 * π) (-1, 0)) →
      (∀ k, ∃ n, T k = shiftedFt (latVec (2 * π, 0) (0, 2 * π) n)) → storedReal ((List.range 9).map T) = false := by
    intro T h3 hT
    unfold storedReal
    rw [decide_eq_false_iff_not, not_lt]
    have h1 : 0.2 ≤ maxAbs (((List.range 9).map T).map Complex.im) :=
      (by rw [h3]; exact shifted_imag : 0.2 ≤ |(T 3).im|).trans
        (le_maxAbs _ _ (List.mem_map_of_mem (List.mem_map_of_mem (by simp))))
    have h2 : maxAbs (((List.range 9).map T).map Complex.re) ≤ 30 := by
      refine maxAbs_le _ _ (by norm_num) fun x hx => ?_
      obtain ⟨z, hz, rfl⟩ := List.mem_map.1 hx
      obtain ⟨k, -, rfl⟩ := List.mem_map.1 hz
      obtain ⟨n, hn⟩ := hT k
      rw [hn]
      exact shifted_real n
    norm_num at h1 h2 ⊢
    linarith
  have lat : ∀ a b : ℕ, ∃ n, shiftedFt (((tbtG (2 * π, 0) (0, 2 * π) 1 1).getD a 0).1 -
        ((tbtG (2 * π, 0) (0, 2 * π) 1 1).getD b 0).1, ((tbtG (2 * π, 0) (0, 2 * π) 1 1).getD a 0).2 -
        ((tbtG (2 * π, 0) (0, 2 * π) 1 1).getD b 0).2) = shiftedFt (latVec (2 * π, 0) (0, 2 * π) n) := by
    intro a b
    obtain ⟨m, hm⟩ := tbtG_lat (2 * π, 0) (0, 2 * π) 1 1 a
    obtain ⟨n, hn⟩ := tbtG_lat (2 * π, 0) (0, 2 * π) 1 1 b
    exact ⟨m - n, by rw [hm, hn, latVec_sub]; rfl⟩
  have h30 : shiftedFt (((tbtG (2 * π, 0) (0, 2 * π) 1 1).getD 0 0).1 -
        ((tbtG (2 * π, 0) (0, 2 * π) 1 1).getD 3 0).1, ((tbtG (2 * π, 0) (0, 2 * π) 1 1).getD 0 0).2 -
        ((tbtG (2 * π, 0) (0, 2 * π) 1 1).getD 3 0).2) = shiftedFt (latVec (2 * π, 0) (0, 2 * π) (-1, 0)) := by
    rw [g0, g3]
    congr 1
    simp [latVec]
  unfold T1real T2real
  rw [hl]
  exact ⟨key _ h30 fun k => lat 0 k, key _ h30 fun k => lat _ _⟩

/-- The displaced holes with the truncation by rows. -/
example (D : Fin ((2 * 1 + 1) * (2 * 1 + 1)) → ℂ) (i : Fin ((2 * 1 + 1) * (2 * 1 + 1))) (eps : R2 → ℝ)
    (he : IsPermittivity (1, 0) (0, 1) 12 [(1, (drawnCircle 1 ⟨1 / 4, 0, 0.2⟩).region)] eps) :
    ∃ X : Matrix (Fin ((2 * 1 + 1) * (2 * 1 + 1))) (Fin ((2 * 1 + 1) * (2 * 1 + 1))) ℂ,
      (Matrix.of fun I J : Fin ((2 * 1 + 1) * (2 * 1 + 1)) =>
        epsMatTbt shiftedFt (2 * π, 0) (0, 2 * π) 1 1 I J) * X = 1 ∧
      ‖component (1, 0) (0, 1) ((tbtG (2 * π, 0) (0, 2 * π) 1 1).getD i 0) (fun x y => (eps (x, y) : ℂ) *
        ftinvAt (List.ofFn fun j => ((X *ᵥ D) j, (tbtG (2 * π, 0) (0, 2 * π) 1 1).getD j 0)) x y) - D i‖ ≤
      drawErr 12 1 [drawnCircle 1 ⟨1 / 4, 0, 0.2⟩] * ∑ j, ‖(X *ᵥ D) j‖ := by
  have hr : ∀ s ∈ [drawnCircle 1 ⟨1 / 4, 0, 0.2⟩].map Drawn.shape, RealShape s := by
    simp only [List.map_cons, List.map_nil, List.mem_singleton]
    rintro s rfl
    exact C12_circle_conj besselJ1 _
  have hF : ∀ g : R2, shiftedFt (-g.1, -g.2) = conj (shiftedFt g) := fun g => (C12_layer_conj _ _ _ _ hr g).1
  set M := (Matrix.of fun I J : Fin ((2 * 1 + 1) * (2 * 1 + 1)) => epsMatTbt shiftedFt (2 * π, 0) (0, 2 * π) 1 1 I J)
    with hM
  have hdet : IsUnit M.det := by
    set ind : Fin ((2 * 1 + 1) * (2 * 1 + 1)) → ℤ × ℤ := fun k =>
      ((((k : ℕ) / (2 * 1 + 1) : ℕ) : ℤ) - (1 : ℕ), (((k : ℕ) % (2 * 1 + 1) : ℕ) : ℤ) - (1 : ℕ)) with hind
    have hsome : ∀ j : Fin ((2 * 1 + 1) * (2 * 1 + 1)), (tbtG (2 * π, 0) (0, 2 * π) 1 1)[(j : ℕ)]? =
        some (latVec (2 * π, 0) (0, 2 * π) (ind j)) := by
      intro j
      have hl : (j : ℕ) < (tbtG (2 * π, 0) (0, 2 * π) 1 1).length := by
        have := j.2
        simpa [tbtG, tbtInds_length] using this
      rw [latVec_eq, List.getElem?_eq_getElem hl, ← tbt_getD _ _ 1 1 j j.2, List.getD_eq_getElem?_getD]
      show some _ = some (((tbtG (2 * π, 0) (0, 2 * π) 1 1)[(j : ℕ)]?).getD 0)
      rw [List.getElem?_eq_getElem hl, Option.getD_some]
    have hent : ∀ i j, M i j = layerFt 12 (12 + (1 - 12) * (π * 0.2 ^ 2) / 1) 1
        ([drawnCircle 1 ⟨1 / 4, 0, 0.2⟩].map Drawn.shape) (latVec (2 * π, 0) (0, 2 * π) (-ind j - -ind i)) := by
      intro i j
      rw [hM, Matrix.of_apply, C19_entry_partial _ _ _ 1 1 i j hF (shifted_stored.1.trans shifted_stored.2.symm) _ _
        (hsome i) (hsome j), shifted_stored.1, if_neg (by decide), show -ind j - -ind i = ind i - ind j by abel, latVec_sub]
      rfl
    have hinj : Function.Injective fun i => -ind i := by
      intro i j h
      have h := neg_injective h
      revert i j
      decide
    have hb := fun x => (C101_bounds _ _ _ _ _ _ _ _ shifted_draws 1 12 (by simp [drawnCircle]) (by simp [drawnCircle])
      _ hinj x).1
    simp only [← hent] at hb
    have hpd := posDef_of_form M (C19_hermitian shiftedFt (2 * π, 0) (0, 2 * π) 1 1 hF) _ (by
      have := shifted_err
      norm_num at this ⊢
      linarith) hb
    exact isUnit_iff_ne_zero.2 hpd.det_pos.ne'
  refine ⟨M⁻¹, mul_nonsing_inv _ hdet, ?_⟩
  exact C107_tbt (1, 0) (0, 1) _ _ _ _ _ _ shifted_draws hr eps (by simpa [drawnCircle] using he) 1 1 shifted_stored.1
    shifted_stored.2 M⁻¹ (mul_nonsing_inv _ hdet) D i

end Legume
