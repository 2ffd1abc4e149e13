import Mathlib.Analysis.Matrix.PosDef
import Verif.Lemmas.PermittivityMap
import Verif.Lemmas.RegionFourier
import Verif.Props.PweSim
import Verif.Props.GmeSim

/-! # C101: the permittivity matrices represent the permittivity of the layer -/
namespace Legume
open Spec MeasureTheory Matrix
open scoped Real ComplexConjugate ComplexOrder

theorem resolved_isG0 {b1 b2 : R2} (h : Resolved b1 b2) (n : ℤ × ℤ) (hn : n ≠ 0) : ¬ isG0 (latVec b1 b2 n) := by
  intro hc
  refine h n.1 n.2 (fun e => hn e) ?_
  have := isG0_small hc
  simpa [latVec, mul_comm] using this

theorem regionFourier_zero (R : Set R2) : regionFourier R 0 = ((volume.real R : ℝ) : ℂ) := by
  simp [regionFourier]

theorem dual_det (a1 a2 b1 b2 : R2) (hd : Dual a1 a2 b1 b2) : a1.1 * a2.2 - a1.2 * a2.1 ≠ 0 := by
  intro h
  have hp : (2 * π) * (2 * π) ≠ 0 := by positivity
  apply hp
  have e : (a1.1 * a2.2 - a1.2 * a2.1) * (b1.1 * b2.2 - b1.2 * b2.1) = (2 * π) * (2 * π) := by
    linear_combination (a2.1 * b2.1 + a2.2 * b2.2) * hd.h11 - (a2.1 * b1.1 + a2.2 * b1.2) * hd.h12 + 2 * π * hd.h22
  rw [← e, h, zero_mul]

/-- What the layer knows about a shape, the region it stands for, and by how much its transform is wrong. -/
structure Drawn where
  shape : FShape
  region : Set R2
  err : ℝ

/-- The transforms of the shapes are those of the regions up to the given errors, no two copies of the shapes overlap,
and the average permittivity is that of the areas. -/
structure Draws (a1 a2 b1 b2 : R2) (epsB epsAvg area : ℝ) (sh : List Drawn) : Prop where
  dual : Dual a1 a2 b1 b2
  resolved : Resolved b1 b2
  area_eq : area = |a1.1 * a2.2 - a1.2 * a2.1|
  apart : Apart a1 a2 (sh.map Drawn.region)
  measurable : ∀ s ∈ sh, MeasurableSet s.region
  close : ∀ s ∈ sh, ∀ n : ℤ × ℤ, n ≠ 0 →
    ‖s.shape.ft (latVec b1 b2 n) - regionFourier s.region (latVec b1 b2 n)‖ ≤ s.err
  err_nonneg : ∀ s ∈ sh, 0 ≤ s.err
  avg : epsAvg = epsB + (sh.map fun s => (s.shape.eps - epsB) * volume.real s.region / area).sum

/-- Bound on the error of a Fourier coefficient. -/
noncomputable def drawErr (epsB area : ℝ) (sh : List Drawn) : ℝ :=
  (sh.map fun s => |s.shape.eps - epsB| * s.err).sum / area

theorem drawErr_nonneg (a1 a2 b1 b2 : R2) (epsB epsAvg area : ℝ) (sh : List Drawn)
    (hD : Draws a1 a2 b1 b2 epsB epsAvg area sh) : 0 ≤ drawErr epsB area sh := by
  refine div_nonneg (List.sum_nonneg fun x hx => ?_) (by rw [hD.area_eq]; exact abs_nonneg _)
  obtain ⟨s, hs, rfl⟩ := List.mem_map.1 hx
  exact mul_nonneg (abs_nonneg _) (hD.err_nonneg s hs)

/-- **C101 (coefficients).** The Fourier coefficients which a layer passes to the solvers are those of the permittivity as
a function of the position, up to the errors of the transforms of the shapes. -/
theorem C101_coefficient (a1 a2 b1 b2 : R2) (epsB epsAvg area : ℝ) (sh : List Drawn)
    (hD : Draws a1 a2 b1 b2 epsB epsAvg area sh) (eps : R2 → ℝ)
    (he : IsPermittivity a1 a2 epsB (sh.map fun s => (s.shape.eps, s.region)) eps) (n : ℤ × ℤ) :
    ‖layerFt epsB epsAvg area (sh.map Drawn.shape) (latVec b1 b2 n) - epsCoeff a1 a2 eps (latVec b1 b2 n)‖ ≤
      drawErr epsB area sh := by
  have hdet := dual_det a1 a2 b1 b2 hD.dual
  have hA : Apart a1 a2 ((sh.map fun s => (s.shape.eps, s.region)).map Prod.snd) := by
    rw [List.map_map]; exact hD.apart
  rw [epsCoeff_eq a1 a2 b1 b2 hD.dual hdet epsB _ hA (fun s hs => by
    obtain ⟨t, ht, rfl⟩ := List.mem_map.1 hs; exact hD.measurable t ht) eps he n, ← hD.area_eq]
  by_cases hn : n = 0
  · subst hn
    rw [latVec_zero, layerFt_g0 _ _ _ _ _ (by simp [isG0]; norm_num), if_pos rfl, hD.avg, List.map_map]
    have e : (((fun s : ℝ × Set R2 => ((s.1 - epsB : ℝ) : ℂ) * regionFourier s.2 0) ∘
        fun s : Drawn => (s.shape.eps, s.region))) =
        fun s : Drawn => (((s.shape.eps - epsB) * volume.real s.region : ℝ) : ℂ) := by
      funext s
      simp only [Function.comp]
      rw [regionFourier_zero]; push_cast; ring
    have e3 : ∀ l : List Drawn, (((l.map fun s => (s.shape.eps - epsB) * volume.real s.region / area).sum : ℝ) : ℂ) =
        (l.map fun s => (((s.shape.eps - epsB) * volume.real s.region : ℝ) : ℂ)).sum / (area : ℂ) := by
      intro l
      induction l with
      | nil => simp
      | cons s l ih =>
        rw [List.map_cons, List.sum_cons, Complex.ofReal_add, ih, List.map_cons, List.sum_cons, add_div]
        push_cast; rfl
    rw [e, Complex.ofReal_add, e3, sub_self, norm_zero]
    exact drawErr_nonneg a1 a2 b1 b2 epsB epsAvg area sh hD
  · have h0 : ¬ |(latVec b1 b2 n).1| + |(latVec b1 b2 n).2| < 1e-10 := resolved_isG0 hD.resolved n hn
    rw [C12_layer_value _ _ _ _ _ h0, if_neg hn, zero_add, ← sub_div, norm_div, Complex.norm_real, drawErr, Real.norm_eq_abs,
      abs_of_nonneg (by rw [hD.area_eq]; exact abs_nonneg _)]
    refine div_le_div_of_nonneg_right ?_ (by rw [hD.area_eq]; exact abs_nonneg _)
    have hc := hD.close
    clear hA he hD
    induction sh with
    | nil => simp
    | cons s l ih =>
      simp only [List.map_cons, List.sum_cons]
      have e : ∀ a b c d : ℂ, a + b - (c + d) = (a - c) + (b - d) := fun a b c d => by ring
      rw [e]
      refine (norm_add_le _ _).trans (add_le_add ?_ (ih fun t ht => hc t (List.mem_cons_of_mem _ ht)))
      push_cast
      rw [← mul_sub, norm_mul, ← Complex.ofReal_sub, Complex.norm_real]
      exact mul_le_mul_of_nonneg_left (hc s (by simp) n hn) (abs_nonneg _)

/-- A matrix of small entries has a small quadratic form. -/
theorem small_form {n : ℕ} (P : Fin n → Fin n → ℂ) (d : ℝ) (hP : ∀ i j, ‖P i j‖ ≤ d) (x : Fin n → ℂ) :
    ‖∑ i, ∑ j, conj (x i) * P i j * x j‖ ≤ n * d * ∑ i, ‖x i‖ ^ 2 := by
  have h1 : ‖∑ i, ∑ j, conj (x i) * P i j * x j‖ ≤ ∑ i, ∑ j, ‖x i‖ * d * ‖x j‖ := by
    refine (norm_sum_le _ _).trans (Finset.sum_le_sum fun i _ => (norm_sum_le _ _).trans (Finset.sum_le_sum fun j _ => ?_))
    rw [norm_mul, norm_mul, RCLike.norm_conj]
    gcongr
    exact hP i j
  refine h1.trans ?_
  rcases Nat.eq_zero_or_pos n with h0 | h0
  · subst h0; simp
  have hd : 0 ≤ d := (norm_nonneg _).trans (hP ⟨0, h0⟩ ⟨0, h0⟩)
  have e : ∑ i, ∑ j, ‖x i‖ * d * ‖x j‖ = d * (∑ i, ‖x i‖) ^ 2 := by
    rw [sq, Finset.sum_mul_sum, Finset.mul_sum]
    refine Finset.sum_congr rfl fun i _ => ?_
    rw [Finset.mul_sum]
    exact Finset.sum_congr rfl fun j _ => by ring
  rw [e]
  have h2 : (∑ i, ‖x i‖) ^ 2 ≤ (n : ℝ) * ∑ i, ‖x i‖ ^ 2 := by
    have := sq_sum_le_card_mul_sum_sq (s := (Finset.univ : Finset (Fin n))) (f := fun i => ‖x i‖)
    simpa using this
  nlinarith

/-- **C101 (bounds).** The quadratic form of any matrix of the coefficients at differences of reciprocal vectors lies between
the smallest and the largest permittivity of the layer, up to the errors of the transforms. -/
theorem C101_bounds (a1 a2 b1 b2 : R2) (epsB epsAvg area : ℝ) (sh : List Drawn)
    (hD : Draws a1 a2 b1 b2 epsB epsAvg area sh) (lo hi : ℝ) (hlo : lo ≤ epsB ∧ ∀ s ∈ sh, lo ≤ s.shape.eps)
    (hhi : epsB ≤ hi ∧ ∀ s ∈ sh, s.shape.eps ≤ hi) {n : ℕ} (m : Fin n → ℤ × ℤ) (hm : Function.Injective m)
    (x : Fin n → ℂ) :
    (lo - n * drawErr epsB area sh) * ∑ i, ‖x i‖ ^ 2 ≤
      (∑ i, ∑ j, conj (x i) * layerFt epsB epsAvg area (sh.map Drawn.shape) (latVec b1 b2 (m j - m i)) * x j).re ∧
    (∑ i, ∑ j, conj (x i) * layerFt epsB epsAvg area (sh.map Drawn.shape) (latVec b1 b2 (m j - m i)) * x j).re ≤
      (hi + n * drawErr epsB area sh) * ∑ i, ‖x i‖ ^ 2 := by
  have hA : Apart a1 a2 ((sh.map fun s => (s.shape.eps, s.region)).map Prod.snd) := by
    rw [List.map_map]; exact hD.apart
  obtain ⟨eps, he⟩ : ∃ eps, IsPermittivity a1 a2 epsB (sh.map fun s => (s.shape.eps, s.region)) eps := by
    classical
    refine ⟨fun p => epsB + ((sh.map fun s => (s.shape.eps, s.region)).map fun s =>
      (s.1 - epsB) * (copies a1 a2 s.2).indicator 1 p).sum, ?_, ?_⟩
    · intro s hs p k hk
      exact permittivity_value a1 a2 epsB _ hA s hs p ⟨k, hk⟩
    · intro p hp
      have : ((sh.map fun s => (s.shape.eps, s.region)).map fun t =>
          (t.1 - epsB) * (copies a1 a2 t.2).indicator (1 : R2 → ℝ) p).sum = 0 :=
        List.sum_eq_zero fun x hx => by
          obtain ⟨t, ht, rfl⟩ := List.mem_map.1 hx
          rw [Set.indicator_of_notMem, mul_zero]
          rintro ⟨k, hk⟩
          exact hp t ht k hk
      simp only [this, add_zero]
  have hmeas := permittivity_measurable a1 a2 epsB _ hA (fun s hs => by
    obtain ⟨t, ht, rfl⟩ := List.mem_map.1 hs; exact hD.measurable t ht) eps he
  have hb := epsCoeff_bounds a1 a2 b1 b2 hD.dual (dual_det a1 a2 b1 b2 hD.dual) eps hmeas lo hi
    (fun p => by
      rcases permittivity_range a1 a2 epsB _ eps he p with h | ⟨s, hs, h⟩
      · rw [h]; exact hlo.1
      · obtain ⟨t, ht, rfl⟩ := List.mem_map.1 hs; rw [h]; exact hlo.2 t ht)
    (fun p => by
      rcases permittivity_range a1 a2 epsB _ eps he p with h | ⟨s, hs, h⟩
      · rw [h]; exact hhi.1
      · obtain ⟨t, ht, rfl⟩ := List.mem_map.1 hs; rw [h]; exact hhi.2 t ht) m hm x
  have hs := small_form (fun i j => layerFt epsB epsAvg area (sh.map Drawn.shape) (latVec b1 b2 (m j - m i)) -
    epsCoeff a1 a2 eps (latVec b1 b2 (m j - m i))) _
    (fun i j => C101_coefficient a1 a2 b1 b2 epsB epsAvg area sh hD eps he (m j - m i)) x
  have e : ∑ i, ∑ j, conj (x i) * layerFt epsB epsAvg area (sh.map Drawn.shape) (latVec b1 b2 (m j - m i)) * x j =
      (∑ i, ∑ j, conj (x i) * epsCoeff a1 a2 eps (latVec b1 b2 (m j - m i)) * x j) +
      ∑ i, ∑ j, conj (x i) * (layerFt epsB epsAvg area (sh.map Drawn.shape) (latVec b1 b2 (m j - m i)) -
        epsCoeff a1 a2 eps (latVec b1 b2 (m j - m i))) * x j := by
    rw [← Finset.sum_add_distrib]
    refine Finset.sum_congr rfl fun i _ => ?_
    rw [← Finset.sum_add_distrib]
    exact Finset.sum_congr rfl fun j _ => by ring
  have habs := abs_le.1 ((Complex.abs_re_le_norm _).trans hs)
  rw [e, Complex.add_re]
  constructor
  · nlinarith [hb.1, habs.1]
  · nlinarith [hb.2, habs.2]

/-- A Hermitian matrix whose quadratic form is bounded below by a positive number is positive definite. -/
theorem posDef_of_form {n : ℕ} (E : Matrix (Fin n) (Fin n) ℂ) (hE : E.IsHermitian) (c : ℝ) (hc : 0 < c)
    (h : ∀ x : Fin n → ℂ, c * ∑ i, ‖x i‖ ^ 2 ≤ (∑ i, ∑ j, conj (x i) * E i j * x j).re) : E.PosDef := by
  refine PosDef.of_dotProduct_mulVec_pos hE fun x hx => ?_
  have e : star x ⬝ᵥ (E *ᵥ x) = ∑ i, ∑ j, conj (x i) * E i j * x j := by
    simp only [dotProduct, mulVec, Pi.star_apply, RCLike.star_def, Finset.mul_sum, mul_assoc]
  have him : (star x ⬝ᵥ (E *ᵥ x)).im = 0 := hE.im_star_dotProduct_mulVec_self x
  have hpos : 0 < ∑ i, ‖x i‖ ^ 2 := by
    obtain ⟨i, hi⟩ := Function.ne_iff.1 hx
    exact Finset.sum_pos' (fun _ _ => by positivity) ⟨i, Finset.mem_univ _, by
      have : 0 < ‖x i‖ := norm_pos_iff.2 hi
      positivity⟩
  rw [Complex.lt_def]
  refine ⟨?_, him.symm⟩
  rw [e, Complex.zero_re]
  exact (mul_pos hc hpos).trans_le (h x)

/-- **C101 (plane waves).** The permittivity matrix of `PlaneWaveExp` lies between the extreme permittivities of the layer up
to the errors of the transforms. If the lower bound is positive, the matrix is positive definite and so is its inverse. -/
theorem C101_pwe (L : PweLayer) (a1 a2 : R2) (sh : List Drawn)
    (hD : Draws a1 a2 L.b1 L.b2 L.epsB L.epsAvg L.ecArea sh) (hsh : L.shapes = sh.map Drawn.shape)
    (hr : ∀ s ∈ L.shapes, RealShape s) (lo hi : ℝ) (hlo : lo ≤ L.epsB ∧ ∀ s ∈ L.shapes, lo ≤ s.eps)
    (hhi : L.epsB ≤ hi ∧ ∀ s ∈ L.shapes, s.eps ≤ hi) (gmax : ℝ) :
    (∀ x : Fin (L.gvec gmax).length → ℂ,
      (lo - (L.gvec gmax).length * drawErr L.epsB L.ecArea sh) * ∑ i, ‖x i‖ ^ 2 ≤
        (∑ i, ∑ j, conj (x i) * L.epsMat gmax i j * x j).re ∧
      (∑ i, ∑ j, conj (x i) * L.epsMat gmax i j * x j).re ≤
        (hi + (L.gvec gmax).length * drawErr L.epsB L.ecArea sh) * ∑ i, ‖x i‖ ^ 2) ∧
    ((L.gvec gmax).length * drawErr L.epsB L.ecArea sh < lo →
      (L.epsMat gmax).PosDef ∧ (L.epsMat gmax).det ≠ 0 ∧ (L.epsMat gmax)⁻¹.PosDef) := by
  obtain ⟨ind, hinj, hind⟩ := pweG_index L gmax
  have hF := pweFt_conj L hr
  have hent : ∀ i j, L.epsMat gmax i j = layerFt L.epsB L.epsAvg L.ecArea (sh.map Drawn.shape)
      (latVec L.b1 L.b2 (-ind j - -ind i)) := by
    intro i j
    rw [pweEps_entry L gmax hF i j, hind, hind, PweLayer.ft, hsh, latVec_eq]
    congr 1
    simp only [gOf, Prod.fst_sub, Prod.snd_sub, Prod.fst_neg, Prod.snd_neg]
    ext <;> push_cast <;> ring
  have hb := fun x => C101_bounds a1 a2 L.b1 L.b2 L.epsB L.epsAvg L.ecArea sh hD lo hi
    ⟨hlo.1, fun s hs => hlo.2 _ (hsh ▸ List.mem_map_of_mem hs)⟩
    ⟨hhi.1, fun s hs => hhi.2 _ (hsh ▸ List.mem_map_of_mem hs)⟩ (fun i => -ind i)
    (fun i j h => hinj (neg_injective h)) x
  simp only [← hent] at hb
  refine ⟨hb, fun hpos => ?_⟩
  have hP := posDef_of_form _ (pweEps_hermitian L gmax hF) _ (sub_pos.2 hpos) fun x => (hb x).1
  exact ⟨hP, hP.det_pos.ne', hP.inv⟩

/-- **C101 (guided modes).** The same for the permittivity matrix of a layer in `GuidedModeExp`; its inversion cannot fail,
and what the expansion uses as the inverse is positive definite. -/
theorem C101_gme (S : GmeStruct) (l : GmeLay) (a1 a2 : R2) (sh : List Drawn)
    (hD : Draws a1 a2 S.b1 S.b2 l.epsB l.epsAvg S.ecArea sh) (hsh : l.shapes = sh.map Drawn.shape)
    (hr : ∀ s ∈ l.shapes, RealShape s) (lo hi : ℝ) (hlo : lo ≤ l.epsB ∧ ∀ s ∈ l.shapes, lo ≤ s.eps)
    (hhi : l.epsB ≤ hi ∧ ∀ s ∈ l.shapes, s.eps ≤ hi) (gmax : ℝ) :
    (∀ x : Fin (S.gvec gmax).length → ℂ,
      (lo - (S.gvec gmax).length * drawErr l.epsB S.ecArea sh) * ∑ i, ‖x i‖ ^ 2 ≤
        (∑ i, ∑ j, conj (x i) * S.epsMat gmax l i j * x j).re ∧
      (∑ i, ∑ j, conj (x i) * S.epsMat gmax l i j * x j).re ≤
        (hi + (S.gvec gmax).length * drawErr l.epsB S.ecArea sh) * ∑ i, ‖x i‖ ^ 2) ∧
    ((S.gvec gmax).length * drawErr l.epsB S.ecArea sh < lo → 0 < (S.gvec gmax).length →
      ∀ onlyG, ∃ E, S.epsInv gmax onlyG l = .ok E ∧ E.PosDef) := by
  set inds := absInds S.b1 S.b2 gmax with hinds
  have hN : (S.gvec gmax).length = inds.length := by simp [GmeStruct.gvec, hinds]
  have hlt : ∀ i : Fin (S.gvec gmax).length, (i : ℕ) < inds.length := fun i => hN ▸ i.2
  have hF : ∀ g : R2, S.ft l (-g.1, -g.2) = conj (S.ft l g) := fun g =>
    (C12_layer_conj l.epsB l.epsAvg S.ecArea l.shapes hr g).1
  have ent : ∀ i j : ℕ, i < inds.length → j < inds.length →
      epsMatAbs (S.ft l) S.b1 S.b2 inds i j = layerFt l.epsB l.epsAvg S.ecArea (sh.map Drawn.shape)
        (latVec S.b1 S.b2 (inds.getD j 0 - inds.getD i 0)) := by
    intro i j hi hj
    have h1 : (inds.map fun k => comb S.b1 S.b2 k.1 k.2)[i]? =
        some (comb S.b1 S.b2 (inds.getD i 0).1 (inds.getD i 0).2) := by
      simp [hi]
    have h2 : (inds.map fun k => comb S.b1 S.b2 k.1 k.2)[j]? =
        some (comb S.b1 S.b2 (inds.getD j 0).1 (inds.getD j 0).2) := by
      simp [hj]
    rw [C20_entry (S.ft l) S.b1 S.b2 inds hF i j _ _ h1 h2, GmeStruct.ft, hsh, latVec_eq]
    congr 1
    simp only [gOf, comb, Prod.fst_sub, Prod.snd_sub]
    ext <;> push_cast <;> ring
  have hent : ∀ i j : Fin (S.gvec gmax).length, S.epsMat gmax l i j =
      layerFt l.epsB l.epsAvg S.ecArea (sh.map Drawn.shape)
        (latVec S.b1 S.b2 (inds.getD j 0 - inds.getD i 0)) := fun i j => ent i j (hlt i) (hlt j)
  have hinj : Function.Injective fun i : Fin (S.gvec gmax).length => inds.getD i 0 := by
    intro i j h
    simp only [List.getD_eq_getElem?_getD, List.getElem?_eq_getElem (hlt i), List.getElem?_eq_getElem (hlt j),
      Option.getD_some] at h
    exact Fin.ext ((show inds.Nodup from (tbtInds_nodup _ _).filter _).getElem_inj_iff.1 h)
  have hb := fun x => C101_bounds a1 a2 S.b1 S.b2 l.epsB l.epsAvg S.ecArea sh hD lo hi
    ⟨hlo.1, fun s hs => hlo.2 _ (hsh ▸ List.mem_map_of_mem hs)⟩
    ⟨hhi.1, fun s hs => hhi.2 _ (hsh ▸ List.mem_map_of_mem hs)⟩ _ hinj x
  simp only [← hent] at hb
  refine ⟨hb, fun hpos h0 onlyG => ?_⟩
  have hherm : (S.epsMat gmax l).IsHermitian := by
    ext i j
    rw [conjTranspose_apply, hent, hent, RCLike.star_def,
      ← (C12_layer_conj l.epsB l.epsAvg S.ecArea (sh.map Drawn.shape) (hsh ▸ hr) _).1]
    congr 1
    simp only [latVec, Prod.fst_sub, Prod.snd_sub]
    ext <;> push_cast <;> ring
  have hP := posDef_of_form _ hherm _ (sub_pos.2 hpos) fun x => (hb x).1
  unfold GmeStruct.epsInv
  split_ifs with h1 h2
  · refine ⟨_, rfl, ?_⟩
    have hav : epsMatAbs (S.ft l) S.b1 S.b2 (absInds S.b1 S.b2 gmax) 0 0 = (l.epsAvg : ℂ) := by
      rw [ent 0 0 (hN ▸ h0) (hN ▸ h0), sub_self, latVec_zero]
      exact layerFt_g0 _ _ _ _ _ (by simp [isG0]; norm_num)
    have hdiag := hP.diag_pos (i := (⟨0, h0⟩ : Fin (S.gvec gmax).length))
    have : S.epsMat gmax l ⟨0, h0⟩ ⟨0, h0⟩ = (l.epsAvg : ℂ) := hav
    rw [this] at hdiag
    have hdiag : 0 < l.epsAvg := by exact_mod_cast hdiag
    rw [hav]
    refine PosDef.one.smul ?_
    rw [← Complex.ofReal_inv]
    exact_mod_cast inv_pos.2 hdiag
  · exact absurd h2 hP.det_pos.ne'
  · exact ⟨_, rfl, hP.inv⟩

/-- A circle as the layer stores it, with its region and the error of its transform. -/
noncomputable def drawnCircle (eps : ℝ) (c : Circle) : Drawn :=
  ⟨⟨eps, c.ft besselJ1⟩, {p | c.isInside p}, 2 * π * c.r ^ 3 * 1e-10⟩

/-- An ellipse likewise. -/
noncomputable def drawnEllipse (eps : ℝ) (e : Ellipse) : Drawn :=
  ⟨⟨eps, e.ft besselJ1⟩, {p | e.isInside p}, 2 * π * |e.rx * e.ry| * 1e-10⟩

/-- **C101 (circles).** Circles of positive radius meet what is asked of a shape: the region is the set of points which
`is_inside` accepts, its area is `π r²`, and the transform is within `2 π r³ 1e-10` of the Fourier integral over it. -/
theorem C101_circle (eps : ℝ) (c : Circle) (hr : 0 < c.r) :
    MeasurableSet (drawnCircle eps c).region ∧ volume.real (drawnCircle eps c).region = π * c.r ^ 2 ∧
    RealShape (drawnCircle eps c).shape ∧
    ∀ g, ‖(drawnCircle eps c).shape.ft g - regionFourier (drawnCircle eps c).region g‖ ≤ (drawnCircle eps c).err := by
  refine ⟨?_, ?_, C12_circle_conj besselJ1 c, fun g => ?_⟩
  · refine (isClosed_le (f := fun p : R2 => (p.1 - c.x) ^ 2 + (p.2 - c.y) ^ 2) (by fun_prop)
      (continuous_const (y := c.r ^ 2))).measurableSet
  · have h := regionFourier_zero (drawnCircle eps c).region
    rw [show (drawnCircle eps c).region = {p | c.isInside p} from rfl, circle_region c hr] at h
    have h2 := C84_area (c.x, c.y) c.r c.r 0
    rw [show ((0 : R2)) = (0, 0) from rfl, h2] at h
    have := Complex.ofReal_injective h
    rw [show (drawnCircle eps c).region = {p | c.isInside p} from rfl, ← this]
    ring
  · simp only [drawnCircle]
    rw [circle_region c hr]
    exact C84_circle c hr.le g

/-- **C101 (ellipses).** Ellipses likewise. -/
theorem C101_ellipse (eps : ℝ) (e : Ellipse) (hx : 0 < e.rx) (hy : 0 < e.ry) :
    MeasurableSet (drawnEllipse eps e).region ∧ volume.real (drawnEllipse eps e).region = π * e.rx * e.ry ∧
    RealShape (drawnEllipse eps e).shape ∧
    ∀ g, ‖(drawnEllipse eps e).shape.ft g - regionFourier (drawnEllipse eps e).region g‖ ≤ (drawnEllipse eps e).err := by
  refine ⟨?_, ?_, C12_ellipse_conj besselJ1 e, fun g => ?_⟩
  · simp only [drawnEllipse, Ellipse.isInside, toFrame]
    refine (isClosed_le ?_ continuous_const).measurableSet
    fun_prop
  · have h := regionFourier_zero (drawnEllipse eps e).region
    rw [show (drawnEllipse eps e).region = {p | e.isInside p} from rfl, ellipse_region e hx hy] at h
    have h2 := C84_area (e.x * Real.cos e.phi - e.y * Real.sin e.phi,
      e.x * Real.sin e.phi + e.y * Real.cos e.phi) e.rx e.ry e.phi
    rw [show ((0 : R2)) = (0, 0) from rfl, h2] at h
    have := Complex.ofReal_injective h
    rw [show (drawnEllipse eps e).region = {p | e.isInside p} from rfl, ← this]
  · simp only [drawnEllipse]
    rw [ellipse_region e hx hy]
    exact C84_ellipse e g

/-- Two copies of a circle do not overlap if the vectors of the lattice are longer than its diameter. -/
theorem circle_isolated (a1 a2 : R2) (c : Circle)
    (h : ∀ m : ℤ × ℤ, m ≠ 0 → (2 * c.r) ^ 2 < (latVec a1 a2 m).1 ^ 2 + (latVec a1 a2 m).2 ^ 2) :
    Isolated a1 a2 {p | c.isInside p} := by
  intro m p hp hq
  by_contra hm
  have := h m hm
  simp only [Set.mem_setOf_eq, Circle.isInside, Prod.fst_add, Prod.snd_add] at hp hq
  nlinarith [sq_nonneg ((p.1 - c.x) + (p.1 + (latVec a1 a2 m).1 - c.x)),
    sq_nonneg ((p.2 - c.y) + (p.2 + (latVec a1 a2 m).2 - c.y))]

/-- **C101 (a lattice of circles).** For circular holes or rods in any lattice whose vectors are longer than the diameter,
`run` of `PlaneWaveExp` inverts a positive definite matrix, as long as the number of plane waves times the error of a
coefficient is below the smaller permittivity. It therefore succeeds, and the squared frequencies are not negative. -/
theorem C101_circles (argsort : List ℝ → List ℕ) (eigh : ∀ n, Matrix (Fin n) (Fin n) ℂ → Fin n → ℝ)
    (L : PweLayer) (a1 a2 : R2) (hd : Dual a1 a2 L.b1 L.b2) (hres : Resolved L.b1 L.b2)
    (harea : L.ecArea = |a1.1 * a2.2 - a1.2 * a2.1|) (c : Circle) (hr : 0 < c.r) (eps : ℝ)
    (hL : L.shapes = [⟨eps, c.ft besselJ1⟩])
    (havg : L.epsAvg = L.epsB + (eps - L.epsB) * (π * c.r ^ 2) / L.ecArea)
    (hlat : ∀ m : ℤ × ℤ, m ≠ 0 → (2 * c.r) ^ 2 < (latVec a1 a2 m).1 ^ 2 + (latVec a1 a2 m).2 ^ 2) (gmax : ℝ)
    (hN : (L.gvec gmax).length * (|eps - L.epsB| * (2 * π * c.r ^ 3 * 1e-10) / L.ecArea) < min L.epsB eps)
    (ks : List R2) (pol : String) (p : Pol)
    (hp : pyLower pol = match p with | .te => ['t', 'e'] | .tm => ['t', 'm']) (numeig : ℕ) :
    (L.epsMat gmax)⁻¹.PosDef ∧ (∀ k ∈ ks, (pweMat p k (L.gAt gmax) (L.epsMat gmax)⁻¹).PosSemidef) ∧
      ∃ r, pweSim argsort eigh L gmax ks pol numeig = .ok r ∧ r.length = ks.length := by
  obtain ⟨m1, m2, m3, m4⟩ := C101_circle eps c hr
  have hD : Draws a1 a2 L.b1 L.b2 L.epsB L.epsAvg L.ecArea [drawnCircle eps c] := by
    refine ⟨hd, hres, harea, ⟨?_, by simp⟩, ?_, ?_, ?_, ?_⟩
    · simpa [drawnCircle] using circle_isolated a1 a2 c hlat
    · simpa using m1
    · simpa using fun n m _ => m4 (latVec L.b1 L.b2 (n, m))
    · simp only [List.mem_singleton, forall_eq, drawnCircle]; positivity
    · rw [havg]; simp only [List.map_cons, List.map_nil, List.sum_cons, List.sum_nil, m2, add_zero]; rfl
  have h := (C101_pwe L a1 a2 [drawnCircle eps c] hD (by rw [hL]; rfl)
    (by rw [hL]; simpa [drawnCircle] using m3) (min L.epsB eps) (max L.epsB eps)
    ⟨min_le_left _ _, by rw [hL]; simp⟩ ⟨le_max_left _ _, by rw [hL]; simp⟩ gmax).2
    (by simpa [drawErr, drawnCircle] using hN)
  refine ⟨h.2.2, fun k _ => C36_psd p k _ _ h.2.2.posSemidef, ?_⟩
  unfold pweSim
  rw [if_neg h.2.1]
  have hpar : parsePol pol = .ok p := by
    unfold parsePol
    cases p with
    | te => rw [if_pos hp]
    | tm => rw [if_neg (by rw [hp]; decide), if_pos hp]
  induction ks with
  | nil => exact ⟨[], rfl, rfl⟩
  | cons k ks ih =>
    obtain ⟨r, h1, h2⟩ := ih
    obtain ⟨r0, h0⟩ : ∃ r0, pweRun argsort (eigh _) pol k (L.gAt gmax) (L.epsMat gmax)⁻¹ numeig = .ok r0 := by
      unfold pweRun; rw [hpar]; exact ⟨_, rfl⟩
    refine ⟨r0 :: r, ?_, by simp [h2]⟩
    rw [List.mapM_cons, h0]
    simp only [bind, Except.bind, h1]
    rfl

theorem square_vectors (m : ℤ × ℤ) (hm : m ≠ 0) :
    1 ≤ (latVec (1, 0) (0, 1) m).1 ^ 2 + (latVec (1, 0) (0, 1) m).2 ^ 2 := by
  have h : (1 : ℤ) ≤ m.1 ^ 2 + m.2 ^ 2 := by
    by_contra hc
    have h1 : m.1 = 0 := by nlinarith [sq_nonneg m.1, sq_nonneg m.2]
    have h2 : m.2 = 0 := by nlinarith [sq_nonneg m.1, sq_nonneg m.2]
    exact hm (Prod.ext h1 h2)
  simp only [latVec, mul_one, mul_zero, add_zero, zero_add]
  exact_mod_cast h

/-- Air holes of radius 0.2 in a square lattice in a medium of permittivity 12. -/
theorem square_holes : Draws (1, 0) (0, 1) (2 * π, 0) (0, 2 * π) 12 (12 + (1 - 12) * (π * 0.2 ^ 2) / 1) 1
    [drawnCircle 1 ⟨0, 0, 0.2⟩] := by
  obtain ⟨m1, m2, m3, m4⟩ := C101_circle 1 ⟨0, 0, 0.2⟩ (by norm_num)
  refine ⟨⟨by simp, by simp, by simp, by simp⟩, resolved_square, by simp, ⟨?_, by simp⟩, ?_, ?_, ?_, ?_⟩
  · have := circle_isolated (1, 0) (0, 1) ⟨0, 0, 0.2⟩ fun m hm =>
      lt_of_lt_of_le (by norm_num) (square_vectors m hm)
    simpa [drawnCircle] using this
  · simpa using m1
  · simpa using fun n m _ => m4 (latVec (2 * π, 0) (0, 2 * π) (n, m))
  · simp only [List.mem_singleton, forall_eq, drawnCircle]; positivity
  · simp only [List.map_cons, List.map_nil, List.sum_cons, List.sum_nil, m2, add_zero]; rfl

/-- The run with these holes and 9 plane waves. -/
example (argsort : List ℝ → List ℕ) (eigh : ∀ n, Matrix (Fin n) (Fin n) ℂ → Fin n → ℝ) (ks : List R2) (gmax : ℝ)
    (L : PweLayer) (hL : L = ⟨(2 * π, 0), (0, 2 * π), 1, 12, 12 + (1 - 12) * (π * 0.2 ^ 2) / 1,
      [⟨1, Circle.ft besselJ1 ⟨0, 0, 0.2⟩⟩]⟩) (h9 : (L.gvec gmax).length = 9) :
    ∃ r, pweSim argsort eigh L gmax ks "te" 4 = .ok r ∧ r.length = ks.length := by
  subst hL
  refine (C101_circles argsort eigh _ (1, 0) (0, 1) ⟨by simp, by simp, by simp, by simp⟩ resolved_square (by simp)
    ⟨0, 0, 0.2⟩ (by norm_num) 1 rfl rfl (fun m hm => lt_of_lt_of_le (by norm_num) (square_vectors m hm)) gmax ?_ ks "te"
    .te (by decide) 4).2.2
  rw [h9]
  have := Real.pi_lt_four
  have h11 : |(1:ℝ) - 12| = 11 := by norm_num
  norm_num [h11]
  nlinarith

end Legume
