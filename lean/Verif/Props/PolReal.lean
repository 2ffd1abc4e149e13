import Verif.Props.Dispersion
import Mathlib.Analysis.Matrix.PosDef
import Mathlib.Analysis.Matrix.Order
import Mathlib.LinearAlgebra.Matrix.PosDef
import Mathlib.Topology.Order.IntermediateValue
import Mathlib.Topology.Instances.RealVectorSpace
import Mathlib.Algebra.Order.Chebyshev
import Mathlib.Tactic.Positivity

/-!
# C112: polariton energies without losses
-/
namespace Legume

open Matrix
open scoped ComplexOrder

variable {N Q m : ℕ}

/-! ### The quadratic form of the Hopfield problem -/

theorem hop_form (ph : Fin N → ℂ) (en : Fin (Q + 1) → Fin m → ℂ) (C : Fin (Q + 1) → Matrix (Fin N) (Fin m) ℂ)
    (a b : Fin N → ℂ) (x y : Fin (Q + 1) × Fin m → ℂ) :
    star (hvec a x b y) ⬝ᵥ ((hopEta N Q m * hopfield ph en C) *ᵥ hvec a x b y) =
      star a ⬝ᵥ (hopA ph en C *ᵥ a) + star b ⬝ᵥ (hopA ph en C *ᵥ b) -
      2 * (star a ⬝ᵥ (hopD (C (Fin.last Q)) (en (Fin.last Q)) *ᵥ b)) -
      2 * (star b ⬝ᵥ (hopD (C (Fin.last Q)) (en (Fin.last Q)) *ᵥ a)) +
      star x ⬝ᵥ (hopX en *ᵥ x) + star y ⬝ᵥ (hopX en *ᵥ y) -
      Complex.I * (star (a - b) ⬝ᵥ (hopCf C *ᵥ (x + y))) +
      Complex.I * (star (x + y) ⬝ᵥ ((hopCf C)ᴴ *ᵥ (a - b))) := by
  have hstar : star (hvec a x b y) = hvec (star a) (star x) (star b) (star y) := by
    funext i
    rcases i with (n | x) | (n | x) <;> rfl
  have heta : ∀ (a : Fin N → ℂ) (x : Fin (Q + 1) × Fin m → ℂ) (b : Fin N → ℂ) (y : Fin (Q + 1) × Fin m → ℂ),
      hopEta N Q m *ᵥ hvec a x b y = hvec a x (-b) (-y) := by
    intro a x b y
    unfold hopEta hvec
    rw [Matrix.fromBlocks_mulVec]
    funext i
    rcases i with (n | x) | (n | x) <;> simp [Matrix.neg_mulVec]
  rw [← Matrix.mulVec_mulVec, hop_mulVec, heta, hstar]
  unfold hvec
  simp only [sumElim_dotProduct_sumElim, dotProduct_sub, dotProduct_add, dotProduct_neg, dotProduct_smul,
    smul_eq_mul, star_add, star_sub, Matrix.mulVec_add, Matrix.mulVec_sub, sub_dotProduct, add_dotProduct]
  ring

/-- Oscillator-weighted overlap of a superposition of photonic modes with the excitons of a well. -/
noncomputable def oscForm (C : Matrix (Fin N) (Fin m) ℂ) (e : Fin m → ℝ) (a : Fin N → ℂ) : ℝ :=
  ∑ x, ‖∑ n, C n x * a n‖ ^ 2 / e x

/-- The couplings with conjugated values. -/
def conjC (C : Matrix (Fin N) (Fin m) ℂ) : Matrix (Fin N) (Fin m) ℂ := Matrix.of fun n x => (starRingEnd ℂ) (C n x)

theorem hopD_form (C : Matrix (Fin N) (Fin m) ℂ) (e : Fin m → ℝ) (a b : Fin N → ℂ) :
    star a ⬝ᵥ (hopD C (fun x => (e x : ℂ)) *ᵥ b) =
      ∑ x, (starRingEnd ℂ) (∑ n, C n x * a n) * (∑ n, C n x * b n) / (e x : ℂ) := by
  simp only [dotProduct, Matrix.mulVec, hopD, Matrix.of_apply, Complex.ofReal_re, Pi.star_apply, RCLike.star_def,
    map_sum, map_mul, Finset.sum_mul, Finset.mul_sum, Finset.sum_div]
  rw [Finset.sum_congr rfl fun n _ => Finset.sum_comm, Finset.sum_comm]
  apply Finset.sum_congr rfl; intro x _
  rw [Finset.sum_comm]
  apply Finset.sum_congr rfl; intro n _
  apply Finset.sum_congr rfl; intro n' _
  ring

theorem hopD_form_self (C : Matrix (Fin N) (Fin m) ℂ) (e : Fin m → ℝ) (a : Fin N → ℂ) :
    star a ⬝ᵥ (hopD C (fun x => (e x : ℂ)) *ᵥ a) = (oscForm C e a : ℂ) := by
  rw [hopD_form, oscForm]
  push_cast
  apply Finset.sum_congr rfl; intro x _
  rw [Complex.conj_mul']

theorem hopD_conjC (C : Matrix (Fin N) (Fin m) ℂ) (e : Fin m → ℝ) (i j : Fin N) :
    hopD (conjC C) (fun x => (e x : ℂ)) i j = (starRingEnd ℂ) (hopD C (fun x => (e x : ℂ)) i j) := by
  simp only [hopD, conjC, Matrix.of_apply, map_sum, map_div₀, map_mul, Complex.conj_ofReal]

theorem hopA_form (p : Fin N → ℝ) (e : Fin (Q + 1) → Fin m → ℝ) (C : Fin (Q + 1) → Matrix (Fin N) (Fin m) ℂ)
    (a : Fin N → ℂ) :
    star a ⬝ᵥ (hopA (fun n => (p n : ℂ)) (fun q x => (e q x : ℂ)) C *ᵥ a) =
      ((∑ n, p n * ‖a n‖ ^ 2 + ∑ q, (oscForm (C q) (e q) a + oscForm (conjC (C q)) (e q) a) : ℝ) : ℂ) := by
  have h : hopA (fun n => (p n : ℂ)) (fun q x => (e q x : ℂ)) C = Matrix.diagonal (fun n => (p n : ℂ)) +
      ∑ q, (hopD (C q) (fun x => (e q x : ℂ)) + hopD (conjC (C q)) (fun x => (e q x : ℂ))) := by
    unfold hopA
    congr 1
    ext i j
    rw [Matrix.of_apply, Matrix.sum_apply, Matrix.sum_apply, Complex.re_sum]
    push_cast
    rw [Finset.mul_sum]
    apply Finset.sum_congr rfl; intro q _
    rw [Matrix.add_apply, hopD_conjC]
    rw [Complex.add_conj]
    push_cast
    rfl
  rw [h, Matrix.add_mulVec, dotProduct_add]
  push_cast
  congr 1
  · simp only [dotProduct, Matrix.mulVec_diagonal, Pi.star_apply, RCLike.star_def]
    apply Finset.sum_congr rfl; intro n _
    rw [← Complex.conj_mul']; ring
  · rw [Matrix.sum_mulVec, dotProduct_sum]
    apply Finset.sum_congr rfl; intro q _
    rw [Matrix.add_mulVec, dotProduct_add, hopD_form_self, hopD_form_self]

/-- What remains of the photonic part of the form when the excitons follow the photons. -/
noncomputable def hopRest (e : Fin (Q + 1) → Fin m → ℝ) (C : Fin (Q + 1) → Matrix (Fin N) (Fin m) ℂ)
    (a b : Fin N → ℂ) : ℝ :=
  ∑ q, (oscForm (C q) (e q) a + oscForm (conjC (C q)) (e q) a) +
  ∑ q, (oscForm (C q) (e q) b + oscForm (conjC (C q)) (e q) b) -
  4 * (star a ⬝ᵥ (hopD (C (Fin.last Q)) (fun x => (e (Fin.last Q) x : ℂ)) *ᵥ b)).re -
  2 * ∑ q, oscForm (conjC (C q)) (e q) (a - b)

theorem osc_square (e : ℝ) (he : 0 < e) (x y z : ℂ) :
    -2 * (‖z‖ ^ 2 / e) ≤ e * ‖x‖ ^ 2 + e * ‖y‖ ^ 2 + 2 * (-Complex.I * ((starRingEnd ℂ) z * (x + y))).re := by
  rw [show -2 * (‖z‖ ^ 2 / e) = -(2 * ‖z‖ ^ 2) / e by ring, div_le_iff₀ he]
  simp only [Complex.sq_norm, Complex.normSq_apply, Complex.mul_re, Complex.neg_re, Complex.neg_im, Complex.I_re,
    Complex.I_im, Complex.conj_re, Complex.conj_im, Complex.add_re, Complex.add_im, Complex.mul_im]
  nlinarith [sq_nonneg (e * (x.re - y.re)), sq_nonneg (e * (x.im - y.im)),
    sq_nonneg (e * (x.re + y.re) - 2 * z.im), sq_nonneg (e * (x.im + y.im) + 2 * z.re)]

theorem hop_form_re (p : Fin N → ℝ) (e : Fin (Q + 1) → Fin m → ℝ) (C : Fin (Q + 1) → Matrix (Fin N) (Fin m) ℂ)
    (a b : Fin N → ℂ) (x y : Fin (Q + 1) × Fin m → ℂ) :
    (star (hvec a x b y) ⬝ᵥ ((hopEta N Q m * hopfield (fun n => (p n : ℂ)) (fun q x => (e q x : ℂ)) C) *ᵥ
        hvec a x b y)).re =
      ∑ n, p n * (‖a n‖ ^ 2 + ‖b n‖ ^ 2) + hopRest e C a b + 2 * ∑ q, oscForm (conjC (C q)) (e q) (a - b) +
      ∑ i : Fin (Q + 1) × Fin m, (e i.1 i.2 * ‖x i‖ ^ 2 + e i.1 i.2 * ‖y i‖ ^ 2 +
        2 * (-Complex.I * ((starRingEnd ℂ) (∑ n, conjC (C i.1) n i.2 * (a - b) n) * (x i + y i))).re) := by
  have hX : ∀ x : Fin (Q + 1) × Fin m → ℂ, star x ⬝ᵥ (hopX (fun q x => (e q x : ℂ)) *ᵥ x) =
      ((∑ i : Fin (Q + 1) × Fin m, e i.1 i.2 * ‖x i‖ ^ 2 : ℝ) : ℂ) := by
    intro x
    unfold hopX
    simp only [dotProduct, Matrix.mulVec_diagonal, Pi.star_apply, RCLike.star_def]
    push_cast
    apply Finset.sum_congr rfl; intro i _
    rw [← Complex.conj_mul']; ring
  have hb : star b ⬝ᵥ (hopD (C (Fin.last Q)) (fun x => (e (Fin.last Q) x : ℂ)) *ᵥ a) =
      (starRingEnd ℂ) (star a ⬝ᵥ (hopD (C (Fin.last Q)) (fun x => (e (Fin.last Q) x : ℂ)) *ᵥ b)) := by
    rw [hopD_form, hopD_form, map_sum]
    apply Finset.sum_congr rfl; intro i _
    simp only [map_div₀, map_mul, Complex.conj_conj, Complex.conj_ofReal]
    ring
  have hC1 : star (a - b) ⬝ᵥ (hopCf C *ᵥ (x + y)) =
      ∑ i : Fin (Q + 1) × Fin m, (starRingEnd ℂ) (∑ n, conjC (C i.1) n i.2 * (a - b) n) * (x i + y i) := by
    simp only [dotProduct, Matrix.mulVec, hopCf, Matrix.of_apply, Pi.star_apply, RCLike.star_def, conjC, map_sum,
      map_mul, Complex.conj_conj, Finset.mul_sum, Finset.sum_mul, Pi.add_apply]
    rw [Finset.sum_comm]
    apply Finset.sum_congr rfl; intro i _
    apply Finset.sum_congr rfl; intro n _
    ring
  have hC2 : star (x + y) ⬝ᵥ ((hopCf C)ᴴ *ᵥ (a - b)) =
      (starRingEnd ℂ) (star (a - b) ⬝ᵥ (hopCf C *ᵥ (x + y))) := by
    rw [hC1]
    simp only [dotProduct, Matrix.mulVec, hopCf, Matrix.of_apply, Pi.star_apply, RCLike.star_def, conjC, map_sum,
      map_mul, Complex.conj_conj, Matrix.conjTranspose_apply, Pi.add_apply]
    apply Finset.sum_congr rfl; intro i _
    ring
  rw [hop_form, hopA_form, hopA_form, hX, hX, hb, hC2, hC1]
  set W : ℂ := ∑ i : Fin (Q + 1) × Fin m, (starRingEnd ℂ) (∑ n, conjC (C i.1) n i.2 * (a - b) n) * (x i + y i)
    with hW
  have hWs : ∑ i : Fin (Q + 1) × Fin m,
      2 * (-Complex.I * ((starRingEnd ℂ) (∑ n, conjC (C i.1) n i.2 * (a - b) n) * (x i + y i))).re =
      2 * (-Complex.I * W).re := by
    rw [hW, Finset.mul_sum, Complex.re_sum, Finset.mul_sum]
  have hsp : ∑ i : Fin (Q + 1) × Fin m, (e i.1 i.2 * ‖x i‖ ^ 2 + e i.1 i.2 * ‖y i‖ ^ 2 +
        2 * (-Complex.I * ((starRingEnd ℂ) (∑ n, conjC (C i.1) n i.2 * (a - b) n) * (x i + y i))).re) =
      ∑ i : Fin (Q + 1) × Fin m, e i.1 i.2 * ‖x i‖ ^ 2 + ∑ i : Fin (Q + 1) × Fin m, e i.1 i.2 * ‖y i‖ ^ 2 +
        2 * (-Complex.I * W).re := by
    rw [← hWs, ← Finset.sum_add_distrib, ← Finset.sum_add_distrib]
  rw [hsp]
  unfold hopRest
  simp only [Complex.add_re, Complex.sub_re, Complex.ofReal_re, Complex.mul_re, Complex.neg_re, Complex.neg_im,
    Complex.I_re, Complex.I_im, Complex.conj_re, Complex.conj_im, Complex.re_ofNat, Complex.im_ofNat, mul_add,
    Finset.sum_add_distrib]
  ring

theorem hop_form_ge (p : Fin N → ℝ) (e : Fin (Q + 1) → Fin m → ℝ) (he : ∀ q x, 0 < e q x)
    (C : Fin (Q + 1) → Matrix (Fin N) (Fin m) ℂ) (a b : Fin N → ℂ) (x y : Fin (Q + 1) × Fin m → ℂ) :
    ∑ n, p n * (‖a n‖ ^ 2 + ‖b n‖ ^ 2) + hopRest e C a b ≤
    (star (hvec a x b y) ⬝ᵥ ((hopEta N Q m * hopfield (fun n => (p n : ℂ)) (fun q x => (e q x : ℂ)) C) *ᵥ
        hvec a x b y)).re := by
  rw [hop_form_re]
  have h : -(2 * ∑ q, oscForm (conjC (C q)) (e q) (a - b)) ≤
      ∑ i : Fin (Q + 1) × Fin m, (e i.1 i.2 * ‖x i‖ ^ 2 + e i.1 i.2 * ‖y i‖ ^ 2 +
        2 * (-Complex.I * ((starRingEnd ℂ) (∑ n, conjC (C i.1) n i.2 * (a - b) n) * (x i + y i))).re) := by
    unfold oscForm
    rw [← Fintype.sum_prod_type' (f := fun q x => ‖∑ n, conjC (C q) n x * (a - b) n‖ ^ 2 / e q x), Finset.mul_sum,
      ← Finset.sum_neg_distrib]
    apply Finset.sum_le_sum; intro i _
    have := osc_square (e i.1 i.2) (he _ _) (x i) (y i) (∑ n, conjC (C i.1) n i.2 * (a - b) n)
    linarith
  linarith

/-! ### Real energies -/

theorem hopH_herm (p : Fin N → ℝ) (e : Fin (Q + 1) → Fin m → ℝ) (C : Fin (Q + 1) → Matrix (Fin N) (Fin m) ℂ) :
    (hopEta N Q m * hopfield (fun n => (p n : ℂ)) (fun q x => (e q x : ℂ)) C).IsHermitian := by
  have h := hopEta_herm (fun n => (p n : ℂ)) (fun q x => (e q x : ℂ)) C (fun _ => Complex.ofReal_im _)
    (fun _ _ => Complex.ofReal_im _)
  have he : (hopEta N Q m)ᴴ = hopEta N Q m := by
    unfold hopEta
    simp [Matrix.fromBlocks_conjTranspose]
  unfold Matrix.IsHermitian
  rw [Matrix.conjTranspose_mul, he, ← h, Matrix.mul_assoc, hopEta_sq, Matrix.mul_one]

theorem hopH_psd (p : Fin N → ℝ) (e : Fin (Q + 1) → Fin m → ℝ) (he : ∀ q x, 0 < e q x)
    (C : Fin (Q + 1) → Matrix (Fin N) (Fin m) ℂ)
    (h : ∀ a b, 0 ≤ ∑ n, p n * (‖a n‖ ^ 2 + ‖b n‖ ^ 2) + hopRest e C a b) :
    (hopEta N Q m * hopfield (fun n => (p n : ℂ)) (fun q x => (e q x : ℂ)) C).PosSemidef := by
  apply Matrix.PosSemidef.of_dotProduct_mulVec_nonneg (hopH_herm p e C)
  intro v
  rw [hvec_eta v, Complex.nonneg_iff]
  refine ⟨(h _ _).trans (hop_form_ge p e he C _ _ _ _), ?_⟩
  exact ((hopH_herm p e C).im_star_dotProduct_mulVec_self _).symm

theorem eta_real {ι : Type} [Fintype ι] [DecidableEq ι] (η M : Matrix ι ι ℂ) (hη : ηᴴ = η) (h2 : η * η = 1)
    (hM : (η * M).PosSemidef) (w : ℂ) (v : ι → ℂ) (hv : v ≠ 0) (h : M *ᵥ v = w • v) : w.im = 0 := by
  have h1 : star v ⬝ᵥ ((η * M) *ᵥ v) = w * (star v ⬝ᵥ (η *ᵥ v)) := by
    rw [← Matrix.mulVec_mulVec, h, Matrix.mulVec_smul, dotProduct_smul, smul_eq_mul]
  have hr1 : (star v ⬝ᵥ ((η * M) *ᵥ v)).im = 0 := hM.1.im_star_dotProduct_mulVec_self v
  have hr2 : (star v ⬝ᵥ (η *ᵥ v)).im = 0 := Matrix.IsHermitian.im_star_dotProduct_mulVec_self hη v
  by_cases h0 : (star v ⬝ᵥ (η *ᵥ v)).re = 0
  · have hz : star v ⬝ᵥ (η *ᵥ v) = 0 := Complex.ext h0 hr2
    rw [hz, mul_zero] at h1
    have h3 := (Matrix.PosSemidef.dotProduct_mulVec_zero_iff hM v).1 h1
    have h4 : M *ᵥ v = 0 := by
      have := congrArg (η *ᵥ ·) h3
      simpa [Matrix.mulVec_mulVec, ← Matrix.mul_assoc, h2] using this
    rw [h4] at h
    have : w = 0 := by
      by_contra hw
      exact hv ((smul_eq_zero.1 h.symm).resolve_left hw)
    rw [this]; rfl
  · rw [h1, Complex.mul_im, hr2, mul_zero, zero_add] at hr1
    exact (mul_eq_zero.1 hr1).resolve_right h0

theorem hop_root_vec (ph : Fin N → ℂ) (en : Fin (Q + 1) → Fin m → ℂ) (C : Fin (Q + 1) → Matrix (Fin N) (Fin m) ℂ)
    (w : ℂ) : w ∈ (hopfield ph en C).charpoly.roots ↔ ∃ v, v ≠ 0 ∧ hopfield ph en C *ᵥ v = w • v := by
  rw [Polynomial.mem_roots (Matrix.charpoly_monic _).ne_zero, Polynomial.IsRoot.def, Matrix.eval_charpoly,
    ← Matrix.exists_mulVec_eq_zero_iff]
  constructor
  · rintro ⟨v, hv, h⟩
    refine ⟨v, hv, ?_⟩
    rw [Matrix.sub_mulVec, Matrix.scalar_apply, ← Matrix.smul_one_eq_diagonal, Matrix.smul_mulVec, Matrix.one_mulVec, sub_eq_zero] at h
    exact h.symm
  · rintro ⟨v, hv, h⟩
    refine ⟨v, hv, ?_⟩
    rw [Matrix.sub_mulVec, Matrix.scalar_apply, ← Matrix.smul_one_eq_diagonal, Matrix.smul_mulVec, Matrix.one_mulVec, h, sub_self]

theorem hop_real (p : Fin N → ℝ) (e : Fin (Q + 1) → Fin m → ℝ) (he : ∀ q x, 0 < e q x)
    (C : Fin (Q + 1) → Matrix (Fin N) (Fin m) ℂ)
    (h : ∀ a b, 0 ≤ ∑ n, p n * (‖a n‖ ^ 2 + ‖b n‖ ^ 2) + hopRest e C a b) (w : ℂ)
    (hw : w ∈ (hopfield (fun n => (p n : ℂ)) (fun q x => (e q x : ℂ)) C).charpoly.roots) : w.im = 0 := by
  obtain ⟨v, hv, hM⟩ := (hop_root_vec _ _ _ w).1 hw
  refine eta_real (hopEta N Q m) _ ?_ hopEta_sq (hopH_psd p e he C h) w v hv hM
  unfold hopEta
  simp [Matrix.fromBlocks_conjTranspose]

theorem hop_ne_zero (p : Fin N → ℝ) (e : Fin (Q + 1) → Fin m → ℝ) (he : ∀ q x, 0 < e q x)
    (C : Fin (Q + 1) → Matrix (Fin N) (Fin m) ℂ)
    (h : ∀ a b, ¬ (a = 0 ∧ b = 0) → 0 < ∑ n, p n * (‖a n‖ ^ 2 + ‖b n‖ ^ 2) + hopRest e C a b) (w : ℂ)
    (hw : w ∈ (hopfield (fun n => (p n : ℂ)) (fun q x => (e q x : ℂ)) C).charpoly.roots) : w ≠ 0 := by
  obtain ⟨v, hv, hM⟩ := (hop_root_vec _ _ _ w).1 hw
  rintro rfl
  rw [zero_smul] at hM
  rw [hvec_eta v] at hM
  set a := fun n => v (.inl (.inl n)) with ha
  set b := fun n => v (.inr (.inl n)) with hb
  set x := fun i => v (.inl (.inr i)) with hx
  set y := fun i => v (.inr (.inr i)) with hy
  have h0 : (star (hvec a x b y) ⬝ᵥ ((hopEta N Q m * hopfield (fun n => (p n : ℂ)) (fun q x => (e q x : ℂ)) C) *ᵥ
        hvec a x b y)).re = 0 := by
    rw [← Matrix.mulVec_mulVec, hM, Matrix.mulVec_zero, dotProduct_zero]; rfl
  have h1 : a = 0 ∧ b = 0 := by
    by_contra hc
    have := h a b hc
    have h2 := hop_form_ge p e he C a b x y
    linarith
  have hre := hop_form_re p e C a b x y
  have hz : hopRest e C a b + 2 * ∑ q, oscForm (conjC (C q)) (e q) (a - b) = 0 := by
    rw [h1.1, h1.2]; simp [hopRest, oscForm]
  have hsum : ∑ i : Fin (Q + 1) × Fin m, (e i.1 i.2 * ‖x i‖ ^ 2 + e i.1 i.2 * ‖y i‖ ^ 2) = 0 := by
    rw [h0, add_assoc (∑ n, _) (hopRest e C a b), hz, h1.1, h1.2] at hre
    simp at hre
    rw [hre]
  rw [Finset.sum_eq_zero_iff_of_nonneg fun i _ => by have := (he i.1 i.2).le; positivity] at hsum
  apply hv
  rw [hvec_eta v]
  funext i
  rcases i with (n | i) | (n | i)
  · exact congrFun h1.1 n
  · have h3 := hsum i (Finset.mem_univ _)
    have hp := he i.1 i.2
    change x i = 0
    have : e i.1 i.2 * ‖x i‖ ^ 2 = 0 := by
      have h4 : 0 ≤ e i.1 i.2 * ‖x i‖ ^ 2 := by positivity
      have h5 : 0 ≤ e i.1 i.2 * ‖y i‖ ^ 2 := by positivity
      linarith
    simpa [hp.ne'] using this
  · exact congrFun h1.2 n
  · have h3 := hsum i (Finset.mem_univ _)
    have hp := he i.1 i.2
    change y i = 0
    have : e i.1 i.2 * ‖y i‖ ^ 2 = 0 := by
      have h4 : 0 ≤ e i.1 i.2 * ‖x i‖ ^ 2 := by positivity
      have h5 : 0 ≤ e i.1 i.2 * ‖y i‖ ^ 2 := by positivity
      linarith
    simpa [hp.ne'] using this

/-! ### Bounds of the oscillator terms -/

theorem oscForm_nonneg (C : Matrix (Fin N) (Fin m) ℂ) (e : Fin m → ℝ) (he : ∀ x, 0 < e x) (a : Fin N → ℂ) :
    0 ≤ oscForm C e a := Finset.sum_nonneg fun x _ => by have := (he x).le; positivity

theorem oscForm_le (C : Matrix (Fin N) (Fin m) ℂ) (e : Fin m → ℝ) (he : ∀ x, 0 < e x) (a : Fin N → ℂ) :
    oscForm C e a ≤ (∑ n, ∑ x, ‖C n x‖ ^ 2 / e x) * ∑ n, ‖a n‖ ^ 2 := by
  rw [Finset.sum_comm, Finset.sum_mul]
  apply Finset.sum_le_sum; intro x _
  have h1 : ‖∑ n, C n x * a n‖ ≤ ∑ n, ‖C n x‖ * ‖a n‖ :=
    (norm_sum_le _ _).trans (le_of_eq (Finset.sum_congr rfl fun n _ => norm_mul _ _))
  have h2 : ‖∑ n, C n x * a n‖ ^ 2 ≤ (∑ n, ‖C n x‖ ^ 2) * ∑ n, ‖a n‖ ^ 2 :=
    (pow_le_pow_left₀ (norm_nonneg _) h1 2).trans (Finset.sum_mul_sq_le_sq_mul_sq _ _ _)
  rw [← Finset.sum_div, div_mul_eq_mul_div]
  exact div_le_div_of_nonneg_right h2 (he x).le

theorem oscForm_conj_le (C : Matrix (Fin N) (Fin m) ℂ) (e : Fin m → ℝ) (he : ∀ x, 0 < e x) (a : Fin N → ℂ) :
    oscForm (conjC C) e a ≤ (∑ n, ∑ x, ‖C n x‖ ^ 2 / e x) * ∑ n, ‖a n‖ ^ 2 := by
  refine (oscForm_le _ e he a).trans (le_of_eq ?_)
  simp [conjC]

theorem oscForm_sub_le (C : Matrix (Fin N) (Fin m) ℂ) (e : Fin m → ℝ) (he : ∀ x, 0 < e x) (a b : Fin N → ℂ) :
    oscForm C e (a - b) ≤ 2 * (oscForm C e a + oscForm C e b) := by
  unfold oscForm
  rw [← Finset.sum_add_distrib, Finset.mul_sum]
  apply Finset.sum_le_sum; intro x _
  have h : ∑ n, C n x * (a - b) n = ∑ n, C n x * a n - ∑ n, C n x * b n := by
    rw [← Finset.sum_sub_distrib]
    apply Finset.sum_congr rfl; intro n _
    rw [Pi.sub_apply]; ring
  rw [h, ← add_div, mul_div_assoc']
  apply div_le_div_of_nonneg_right _ (he x).le
  generalize ∑ n, C n x * a n = z
  generalize ∑ n, C n x * b n = z'
  simp only [Complex.sq_norm, Complex.normSq_apply, Complex.sub_re, Complex.sub_im]
  nlinarith [sq_nonneg (z.re + z'.re), sq_nonneg (z.im + z'.im)]

theorem oscForm_cross_le (C : Matrix (Fin N) (Fin m) ℂ) (e : Fin m → ℝ) (he : ∀ x, 0 < e x) (a b : Fin N → ℂ) :
    2 * (star a ⬝ᵥ (hopD C (fun x => (e x : ℂ)) *ᵥ b)).re ≤ oscForm C e a + oscForm C e b := by
  rw [hopD_form, Complex.re_sum, Finset.mul_sum]
  unfold oscForm
  rw [← Finset.sum_add_distrib]
  apply Finset.sum_le_sum; intro x _
  rw [Complex.div_ofReal_re, mul_div_assoc', ← add_div]
  apply div_le_div_of_nonneg_right _ (he x).le
  generalize ∑ n, C n x * a n = z
  generalize ∑ n, C n x * b n = z'
  simp only [Complex.sq_norm, Complex.normSq_apply, Complex.mul_re, Complex.conj_re, Complex.conj_im]
  nlinarith [sq_nonneg (z.re - z'.re), sq_nonneg (z.im - z'.im)]

/-- Oscillator term of all photonic modes, wells and excitons. -/
noncomputable def Spec.totalOsc (e : Fin (Q + 1) → Fin m → ℝ) (C : Fin (Q + 1) → Matrix (Fin N) (Fin m) ℂ) : ℝ :=
  ∑ q, ∑ n, ∑ x, ‖C q n x‖ ^ 2 / e q x

theorem hopRest_ge (e : Fin (Q + 1) → Fin m → ℝ) (he : ∀ q x, 0 < e q x)
    (C : Fin (Q + 1) → Matrix (Fin N) (Fin m) ℂ) (a b : Fin N → ℂ) :
    -(4 * Spec.totalOsc e C * (∑ n, ‖a n‖ ^ 2 + ∑ n, ‖b n‖ ^ 2)) ≤ hopRest e C a b := by
  have hq : ∀ v : Fin N → ℂ, ∑ q, oscForm (C q) (e q) v ≤ Spec.totalOsc e C * ∑ n, ‖v n‖ ^ 2 := by
    intro v
    unfold Spec.totalOsc
    rw [Finset.sum_mul]
    exact Finset.sum_le_sum fun q _ => oscForm_le _ _ (he q) v
  have hq' : ∀ v : Fin N → ℂ, ∑ q, oscForm (conjC (C q)) (e q) v ≤ Spec.totalOsc e C * ∑ n, ‖v n‖ ^ 2 := by
    intro v
    unfold Spec.totalOsc
    rw [Finset.sum_mul]
    exact Finset.sum_le_sum fun q _ => oscForm_conj_le _ _ (he q) v
  have hl : ∀ v : Fin N → ℂ, oscForm (C (Fin.last Q)) (e (Fin.last Q)) v ≤ ∑ q, oscForm (C q) (e q) v := fun v =>
    Finset.single_le_sum (f := fun q => oscForm (C q) (e q) v) (fun q _ => oscForm_nonneg _ _ (he q) v)
      (Finset.mem_univ _)
  have hc := oscForm_cross_le (C (Fin.last Q)) (e (Fin.last Q)) (he _) a b
  have hs : ∑ q, oscForm (conjC (C q)) (e q) (a - b) ≤
      2 * (∑ q, oscForm (conjC (C q)) (e q) a + ∑ q, oscForm (conjC (C q)) (e q) b) := by
    rw [← Finset.sum_add_distrib, Finset.mul_sum]
    exact Finset.sum_le_sum fun q _ => oscForm_sub_le _ _ (he q) a b
  unfold hopRest
  rw [Finset.sum_add_distrib, Finset.sum_add_distrib]
  have := hl a; have := hl b; have := hq a; have := hq b; have := hq' a; have := hq' b
  linarith

/-! ### C112 -/

/-- **C112 (partial).** Any number of photonic modes, wells and excitons, without losses: when every photon energy
exceeds four times the sum of all `|C|^2 / E`, all polariton energies are real and none vanishes.  Missing: the
claim for all couplings, which is false (`C112_one_mode`). -/
theorem C112_weak_partial (p : Fin N → ℝ) (e : Fin (Q + 1) → Fin m → ℝ) (he : ∀ q x, 0 < e q x)
    (C : Fin (Q + 1) → Matrix (Fin N) (Fin m) ℂ) (h : ∀ n, 4 * Spec.totalOsc e C < p n) (w : ℂ)
    (hw : w ∈ (hopfield (fun n => (p n : ℂ)) (fun q x => (e q x : ℂ)) C).charpoly.roots) :
    w.im = 0 ∧ w ≠ 0 := by
  have hpos : ∀ a b, ¬ (a = 0 ∧ b = 0) → 0 < ∑ n, p n * (‖a n‖ ^ 2 + ‖b n‖ ^ 2) + hopRest e C a b := by
    intro a b hab
    have h1 := hopRest_ge e he C a b
    have h2 : 0 < ∑ n, (p n - 4 * Spec.totalOsc e C) * (‖a n‖ ^ 2 + ‖b n‖ ^ 2) := by
      apply Finset.sum_pos'
      · intro n _
        have := (sub_pos.2 (h n)).le
        positivity
      · by_contra hc
        push Not at hc
        apply hab
        have h0 : ∀ n, a n = 0 ∧ b n = 0 := by
          intro n
          have h3 := hc n (Finset.mem_univ _)
          have h4 := sub_pos.2 (h n)
          have h5 : ‖a n‖ ^ 2 + ‖b n‖ ^ 2 ≤ 0 := by
            by_contra h6
            push Not at h6
            have := mul_pos h4 h6
            linarith
          have h7 : ‖a n‖ ^ 2 = 0 := by nlinarith [sq_nonneg ‖a n‖, sq_nonneg ‖b n‖]
          have h8 : ‖b n‖ ^ 2 = 0 := by nlinarith [sq_nonneg ‖a n‖, sq_nonneg ‖b n‖]
          exact ⟨by simpa using h7, by simpa using h8⟩
        exact ⟨funext fun n => (h0 n).1, funext fun n => (h0 n).2⟩
    have h3 : ∑ n, (p n - 4 * Spec.totalOsc e C) * (‖a n‖ ^ 2 + ‖b n‖ ^ 2) =
        ∑ n, p n * (‖a n‖ ^ 2 + ‖b n‖ ^ 2) - 4 * Spec.totalOsc e C * (∑ n, ‖a n‖ ^ 2 + ∑ n, ‖b n‖ ^ 2) := by
      rw [← Finset.sum_add_distrib, Finset.mul_sum, ← Finset.sum_sub_distrib]
      apply Finset.sum_congr rfl; intro n _; ring
    linarith
  refine ⟨hop_real p e he C (fun a b => ?_) w hw, hop_ne_zero p e he C hpos w hw⟩
  by_cases hab : a = 0 ∧ b = 0
  · rw [hab.1, hab.2]; simp [hopRest, oscForm]
  · exact (hpos a b hab).le

theorem norm_sum_pos (p : Fin N → ℝ) (hp : ∀ n, 0 < p n) (a b : Fin N → ℂ) (hab : ¬ (a = 0 ∧ b = 0)) :
    0 < ∑ n, p n * (‖a n‖ ^ 2 + ‖b n‖ ^ 2) := by
  apply Finset.sum_pos'
  · intro n _
    have := (hp n).le
    positivity
  · by_contra hc
    push Not at hc
    apply hab
    have h0 : ∀ n, a n = 0 ∧ b n = 0 := by
      intro n
      have h3 := hc n (Finset.mem_univ _)
      have h5 : ‖a n‖ ^ 2 + ‖b n‖ ^ 2 ≤ 0 := by
        by_contra h6
        push Not at h6
        have := mul_pos (hp n) h6
        linarith
      have h7 : ‖a n‖ ^ 2 = 0 := by nlinarith [sq_nonneg ‖a n‖, sq_nonneg ‖b n‖]
      have h8 : ‖b n‖ ^ 2 = 0 := by nlinarith [sq_nonneg ‖a n‖, sq_nonneg ‖b n‖]
      exact ⟨by simpa using h7, by simpa using h8⟩
    exact ⟨funext fun n => (h0 n).1, funext fun n => (h0 n).2⟩

/-- **C112 (partial).** One well, any number of photonic modes and excitons, without losses, and couplings of any
strength whose products `conj C_n C_n'` add up to real blocks `D` (as for real couplings): all polariton energies
are real and none vanishes.  Missing: more wells and complex `D`. -/
theorem C112_one_well_partial (p : Fin N → ℝ) (hp : ∀ n, 0 < p n) (e : Fin m → ℝ) (he : ∀ x, 0 < e x)
    (C : Matrix (Fin N) (Fin m) ℂ)
    (hD : ∀ n n', (∑ x, (starRingEnd ℂ) (C n x) * C n' x / (e x : ℂ)).im = 0) (w : ℂ)
    (hw : w ∈ (hopfield (Q := 0) (fun n => (p n : ℂ)) (fun _ x => (e x : ℂ)) (fun _ => C)).charpoly.roots) :
    w.im = 0 ∧ w ≠ 0 := by
  have hc : hopD (conjC C) (fun x => (e x : ℂ)) = hopD C (fun x => (e x : ℂ)) := by
    ext i j
    rw [hopD_conjC]
    apply Complex.conj_eq_iff_im.2
    simpa [hopD] using hD i j
  have hF : ∀ v : Fin N → ℂ, oscForm (conjC C) e v = oscForm C e v := by
    intro v
    have := hopD_form_self (conjC C) e v
    rw [hc, hopD_form_self] at this
    exact_mod_cast this.symm
  have hR : ∀ a b : Fin N → ℂ, hopRest (Q := 0) (fun _ x => e x) (fun _ => C) a b = 0 := by
    intro a b
    have hs : ∀ r : ℝ, ∑ _q : Fin (0 + 1), r = r := by intro r; simp
    unfold hopRest
    simp only [hs, hF]
    have h1 : (oscForm C e (a - b) : ℂ) = oscForm C e a + oscForm C e b -
        star a ⬝ᵥ (hopD C (fun x => (e x : ℂ)) *ᵥ b) - star b ⬝ᵥ (hopD C (fun x => (e x : ℂ)) *ᵥ a) := by
      rw [← hopD_form_self, ← hopD_form_self, ← hopD_form_self, star_sub, Matrix.mulVec_sub, sub_dotProduct,
        dotProduct_sub, dotProduct_sub]
      ring
    have h2 : (star b ⬝ᵥ (hopD C (fun x => (e x : ℂ)) *ᵥ a)).re = (star a ⬝ᵥ (hopD C (fun x => (e x : ℂ)) *ᵥ b)).re := by
      rw [hopD_form, hopD_form, Complex.re_sum, Complex.re_sum]
      apply Finset.sum_congr rfl; intro i _
      rw [Complex.div_ofReal_re, Complex.div_ofReal_re]
      congr 1
      simp only [Complex.mul_re, Complex.conj_re, Complex.conj_im]; ring
    have h3 := congrArg Complex.re h1
    simp only [Complex.ofReal_re, Complex.sub_re, Complex.add_re] at h3
    rw [h2] at h3
    rw [h3]
    ring
  have hpos : ∀ a b, ¬ (a = 0 ∧ b = 0) → 0 < ∑ n, p n * (‖a n‖ ^ 2 + ‖b n‖ ^ 2) +
      hopRest (Q := 0) (fun _ x => e x) (fun _ => C) a b := by
    intro a b hab
    rw [hR, add_zero]
    exact norm_sum_pos p hp a b hab
  refine ⟨hop_real (Q := 0) p (fun _ x => e x) (fun _ => he) (fun _ => C) (fun a b => ?_) w hw,
    hop_ne_zero (Q := 0) p (fun _ x => e x) (fun _ => he) (fun _ => C) hpos w hw⟩
  rw [hR, add_zero]
  exact Finset.sum_nonneg fun n _ => by have := (hp n).le; positivity

theorem oscForm_one (c : Fin m → ℂ) (e : Fin m → ℝ) (a : Fin 1 → ℂ) :
    oscForm (Matrix.of fun _ x => c x) e a = Spec.oscTerm (fun x => (e x : ℂ)) c * ‖a 0‖ ^ 2 := by
  unfold oscForm Spec.oscTerm
  rw [Finset.sum_mul]
  apply Finset.sum_congr rfl; intro x _
  simp only [Finset.univ_unique, Finset.sum_singleton, Matrix.of_apply, Complex.ofReal_re]
  rw [norm_mul]
  simp only [Fin.default_eq_zero]
  ring

theorem oscForm_one_conj (c : Fin m → ℂ) (e : Fin m → ℝ) (a : Fin 1 → ℂ) :
    oscForm (conjC (Matrix.of fun _ x => c x)) e a = Spec.oscTerm (fun x => (e x : ℂ)) c * ‖a 0‖ ^ 2 := by
  have : conjC (Matrix.of fun (_ : Fin 1) x => c x) = Matrix.of fun _ x => (starRingEnd ℂ) (c x) := rfl
  rw [this, oscForm_one]
  unfold Spec.oscTerm
  simp

/-- **C112.** One photonic mode of energy `p`, any number of wells and excitons, any couplings, without losses: the
polariton energies are all real iff `p` is at least twice the oscillator term of all wells but the last. -/
theorem C112_one_mode (p : ℝ) (hp : 0 < p) (e : Fin (Q + 1) → Fin m → ℝ) (he : ∀ q x, 0 < e q x)
    (c : Fin (Q + 1) → Fin m → ℂ) :
    (∀ w ∈ (hopfield (fun _ : Fin 1 => (p : ℂ)) (fun q x => (e q x : ℂ))
        (fun q => Matrix.of fun _ x => c q x)).charpoly.roots, w.im = 0) ↔
    2 * ∑ q : Fin Q, ∑ x, ‖c q.castSucc x‖ ^ 2 / e q.castSucc x ≤ p := by
  set S : ℝ := ∑ q, Spec.oscTerm (fun x => (e q x : ℂ)) (c q) with hS
  set L : ℝ := Spec.oscTerm (fun x => (e (Fin.last Q) x : ℂ)) (c (Fin.last Q)) with hL
  have hSL : S - L = ∑ q : Fin Q, ∑ x, ‖c q.castSucc x‖ ^ 2 / e q.castSucc x := by
    rw [hS, hL, Fin.sum_univ_castSucc, add_sub_cancel_right]
    rfl
  have ho : ∀ q, 0 ≤ Spec.oscTerm (fun x => (e q x : ℂ)) (c q) := fun q =>
    Finset.sum_nonneg fun x _ => by
      have := (he q x).le
      rw [Complex.ofReal_re]; positivity
  have hSL0 : 0 ≤ S - L := by
    rw [hSL]
    exact Finset.sum_nonneg fun q _ => Finset.sum_nonneg fun x _ => by
      have := (he q.castSucc x).le
      positivity
  rw [← hSL]
  constructor
  · intro hreal
    by_contra hlt
    push Not at hlt
    -- an imaginary energy
    set f : ℝ → ℝ := fun s => s ^ 2 + (p + 2 * S - 2 * L) *
      (p + 2 * S + 2 * L - ∑ q, ∑ x, 4 * e q x * ‖c q x‖ ^ 2 / (s ^ 2 + e q x ^ 2)) with hf
    have hcont : Continuous f := by
      rw [hf]
      apply Continuous.add (by fun_prop)
      apply Continuous.mul continuous_const
      apply Continuous.sub continuous_const
      refine continuous_finset_sum _ fun q _ => continuous_finset_sum _ fun x _ => ?_
      apply Continuous.div continuous_const (by fun_prop)
      intro s
      have := he q x
      positivity
    have h0 : f 0 < 0 := by
      have h1 : ∑ q, ∑ x, 4 * e q x * ‖c q x‖ ^ 2 / (0 ^ 2 + e q x ^ 2) = 4 * S := by
        rw [hS, Finset.mul_sum]
        apply Finset.sum_congr rfl; intro q _
        unfold Spec.oscTerm
        rw [Finset.mul_sum]
        apply Finset.sum_congr rfl; intro x _
        have := (he q x).ne'
        rw [Complex.ofReal_re]
        field_simp
        ring
      have h2 : f 0 = (p + 2 * (S - L)) * (p - 2 * (S - L)) := by
        rw [hf]
        simp only
        rw [h1]; ring
      rw [h2]
      nlinarith
    have hbig : ∃ s, 0 < s ∧ 0 < f s := by
      refine ⟨1 + ∑ q, ∑ x, 4 * e q x * ‖c q x‖ ^ 2 * (1 + (p + 2 * S - 2 * L)), ?_, ?_⟩
      · have : 0 ≤ ∑ q, ∑ x, 4 * e q x * ‖c q x‖ ^ 2 * (1 + (p + 2 * S - 2 * L)) :=
          Finset.sum_nonneg fun q _ => Finset.sum_nonneg fun x _ => by
            have := (he q x).le
            have : 0 ≤ 1 + (p + 2 * S - 2 * L) := by linarith
            positivity
        linarith
      · set T := ∑ q, ∑ x, 4 * e q x * ‖c q x‖ ^ 2 with hT
        have hT0 : 0 ≤ T := Finset.sum_nonneg fun q _ => Finset.sum_nonneg fun x _ => by
            have := (he q x).le
            positivity
        set P := p + 2 * S - 2 * L with hP
        have hP0 : 0 < P := by rw [hP]; linarith
        have hTs : ∑ q, ∑ x, 4 * e q x * ‖c q x‖ ^ 2 * (1 + P) = T * (1 + P) := by
          rw [hT, Finset.sum_mul]
          apply Finset.sum_congr rfl; intro q _
          rw [Finset.sum_mul]
        rw [hTs]
        set s := 1 + T * (1 + P) with hs
        have hs1 : 1 ≤ s := by rw [hs]; have := mul_nonneg hT0 (by linarith : 0 ≤ 1 + P); linarith
        have hle : ∑ q, ∑ x, 4 * e q x * ‖c q x‖ ^ 2 / (s ^ 2 + e q x ^ 2) ≤ T := by
          rw [hT]
          refine Finset.sum_le_sum fun q _ => Finset.sum_le_sum fun x _ => ?_
          have := (he q x).le
          apply div_le_self (by positivity)
          nlinarith [sq_nonneg (e q x)]
        have hSL' : 0 < p + 2 * S + 2 * L := by
          have := ho (Fin.last Q)
          rw [← hL] at this
          linarith
        have : P * (p + 2 * S + 2 * L - ∑ q, ∑ x, 4 * e q x * ‖c q x‖ ^ 2 / (s ^ 2 + e q x ^ 2)) ≥ -(P * T) := by
          have := mul_le_mul_of_nonneg_left hle hP0.le
          have := mul_pos hP0 hSL'
          nlinarith
        have hss : s ≤ s ^ 2 := by nlinarith
        have : f s = s ^ 2 + P * (p + 2 * S + 2 * L - ∑ q, ∑ x, 4 * e q x * ‖c q x‖ ^ 2 / (s ^ 2 + e q x ^ 2)) := rfl
        rw [this]
        nlinarith
    obtain ⟨s1, hs1, hf1⟩ := hbig
    obtain ⟨s, hs, hfs⟩ := intermediate_value_Icc hs1.le hcont.continuousOn (Set.mem_Icc.2 ⟨h0.le, hf1.le⟩)
    have hs0 : s ≠ 0 := by
      rintro rfl
      linarith
    have hspos : 0 < s := lt_of_le_of_ne hs.1 (Ne.symm hs0)
    have hwe : ∀ q x, (Complex.I * s) ^ 2 ≠ ((e q x : ℂ)) ^ 2 := by
      intro q x h
      have h1 := congrArg Complex.re h
      rw [mul_pow, Complex.I_sq] at h1
      rw [← Complex.ofReal_pow, ← Complex.ofReal_pow] at h1
      simp only [neg_mul, one_mul, Complex.neg_re, Complex.ofReal_re] at h1
      have := he q x
      nlinarith [sq_nonneg s, pow_pos this 2]
    have hdis := (C82_dispersion (p : ℂ) (fun q x => (e q x : ℂ)) c (Complex.I * s)
      (mul_ne_zero Complex.I_ne_zero (Complex.ofReal_ne_zero.2 hs0)) hwe).2 (by
        rw [← hS, ← hL, mul_pow, Complex.I_sq]
        have hsum : ∑ q, ∑ x, 4 * (e q x : ℂ) * (‖c q x‖ : ℂ) ^ 2 / (-1 * (s : ℂ) ^ 2 - (e q x : ℂ) ^ 2) =
            ((-∑ q, ∑ x, 4 * e q x * ‖c q x‖ ^ 2 / (s ^ 2 + e q x ^ 2) : ℝ) : ℂ) := by
          push_cast
          rw [← Finset.sum_neg_distrib]
          apply Finset.sum_congr rfl; intro q _
          rw [← Finset.sum_neg_distrib]
          apply Finset.sum_congr rfl; intro x _
          rw [show -1 * (s : ℂ) ^ 2 - (e q x : ℂ) ^ 2 = -((s : ℂ) ^ 2 + (e q x : ℂ) ^ 2) by ring, div_neg]
        rw [hsum]
        have : f s = 0 := hfs
        have h2 : -1 * s ^ 2 = (p + 2 * S - 2 * L) *
            (p + 2 * S + 2 * L + -∑ q, ∑ x, 4 * e q x * ‖c q x‖ ^ 2 / (s ^ 2 + e q x ^ 2)) := by
          rw [hf] at this
          simp only at this
          linarith
        exact_mod_cast congrArg (fun r : ℝ => (r : ℂ)) h2)
    have hroot := (hop_root_vec _ _ _ _).2 hdis
    have := hreal _ hroot
    rw [Complex.mul_im] at this
    simp at this
    exact hs0 this
  · intro hle w hw
    refine hop_real (fun _ => p) e he (fun q => Matrix.of fun _ x => c q x) (fun a b => ?_) w hw
    have hlast : star a ⬝ᵥ (hopD (Matrix.of fun (_ : Fin 1) x => c (Fin.last Q) x)
        (fun x => (e (Fin.last Q) x : ℂ)) *ᵥ b) = (L : ℂ) * ((starRingEnd ℂ) (a 0) * b 0) := by
      rw [hopD_one]
      simp only [dotProduct, Matrix.mulVec, Matrix.of_apply, Finset.univ_unique, Finset.sum_singleton,
        Pi.star_apply, RCLike.star_def, Fin.default_eq_zero]
      rw [hL]
      ring
    unfold hopRest
    simp only [oscForm_one, oscForm_one_conj, hlast, Finset.univ_unique, Finset.sum_singleton, Fin.default_eq_zero,
      Finset.sum_add_distrib, ← Finset.sum_mul]
    rw [← hS, Complex.re_ofReal_mul]
    simp only [Pi.sub_apply, Complex.sq_norm, Complex.normSq_apply, Complex.mul_re, Complex.conj_re, Complex.conj_im,
      Complex.sub_re, Complex.sub_im]
    nlinarith [mul_nonneg hSL0 (sq_nonneg ((a 0).re + (b 0).re)), mul_nonneg hSL0 (sq_nonneg ((a 0).im + (b 0).im)),
      mul_nonneg (sub_nonneg.2 hle) (sq_nonneg (a 0).re), mul_nonneg (sub_nonneg.2 hle) (sq_nonneg (a 0).im),
      mul_nonneg (sub_nonneg.2 hle) (sq_nonneg (b 0).re), mul_nonneg (sub_nonneg.2 hle) (sq_nonneg (b 0).im)]

/-- **C112.** The claim that a lossless problem has real energies is false: two wells with one exciton each, the
first of them strongly coupled. -/
theorem C112_complex : ∃ w ∈ (hopfield (Q := 1) (fun _ : Fin 1 => ((1 : ℝ) : ℂ))
    (fun _ (_ : Fin 1) => ((1 : ℝ) : ℂ)) (fun q => Matrix.of fun _ _ => if q = 0 then 1 else 0)).charpoly.roots,
    w.im ≠ 0 := by
  have h := C112_one_mode (Q := 1) (m := 1) 1 one_pos (fun _ _ => 1) (fun _ _ => one_pos)
    (fun q _ => if q = 0 then 1 else 0)
  by_contra hc
  push Not at hc
  have := h.1 hc
  norm_num at this

/-- **C112.** Whenever the energies are real and none vanishes, a run stores `N + K - 1` of them, all positive and
in ascending order, for any correct eigenvalue solver and sorting. -/
theorem C112_stored (argsort : List ℂ → List ℕ) (hs : ∀ l, Spec.IsArgsortRe l (argsort l))
    (ph : Fin N → ℂ) (en : Fin (Q + 1) → Fin m → ℂ) (C : Fin (Q + 1) → Matrix (Fin N) (Fin m) ℂ)
    (hN : 0 < N + (Q + 1) * m) (w : List ℂ)
    (hw : ((w.map (· - 1) : List ℂ) : Multiset ℂ) = (hopfield ph en C).charpoly.roots)
    (h0 : ∀ z ∈ (hopfield ph en C).charpoly.roots, z.im = 0 ∧ z ≠ 0) :
    (polSelect argsort w).length = N + (Q + 1) * m - 1 ∧
    ((polSelect argsort w).map Complex.re).Pairwise (· ≤ ·) ∧
    ∀ z ∈ polSelect argsort w, z.im = 0 ∧ 0 < z.re ∧ z ∈ (hopfield ph en C).charpoly.roots := by
  have hre : ∀ z ∈ (hopfield ph en C).charpoly.roots, z.re ≠ 0 := fun z hz hr =>
    (h0 z hz).2 (Complex.ext hr (h0 z hz).1)
  obtain ⟨lost, h1, h2, h3⟩ := C78_stored_partial argsort hs ph en C hN w hw hre
  refine ⟨by omega, ?_, ?_⟩
  · rw [List.map_append] at h3
    exact (List.pairwise_append.1 h3).1
  · intro z hz
    have : z ∈ ((polSelect argsort w ++ [lost] : List ℂ) : Multiset ℂ) := by
      rw [Multiset.mem_coe]; exact List.mem_append_left _ hz
    rw [h1, Multiset.mem_filter] at this
    exact ⟨(h0 z this.1).1, this.2, this.1⟩

/-- Examples for C112: two photonic modes and two wells with weak couplings, and one well with couplings of any
size. -/
example (w : ℂ) (hw : w ∈ (hopfield (Q := 1) (m := 1) (fun _ : Fin 2 => ((2 : ℝ) : ℂ)) (fun _ _ => ((1 : ℝ) : ℂ))
    (fun _ => Matrix.of fun n _ => if n = 0 then 1 / 4 else Complex.I / 4)).charpoly.roots) : w.im = 0 ∧ w ≠ 0 := by
  refine C112_weak_partial (fun _ => 2) (fun _ _ => 1) (fun _ _ => one_pos) _ (fun n => ?_) w hw
  simp [Spec.totalOsc, Fin.sum_univ_two]
  norm_num

example (w : ℂ) (hw : w ∈ (hopfield (Q := 0) (m := 1) (fun n : Fin 2 => (((n : ℕ) + 1 : ℝ) : ℂ))
    (fun _ _ => ((1 : ℝ) : ℂ)) (fun _ => Matrix.of fun _ _ => 10)).charpoly.roots) : w.im = 0 ∧ w ≠ 0 := by
  refine C112_one_well_partial (fun n : Fin 2 => ((n : ℕ) + 1 : ℝ)) (fun n => by positivity) (fun _ : Fin 1 => 1)
    (fun _ => one_pos) (Matrix.of fun _ _ => 10) (fun n n' => ?_) w hw
  simp

end Legume
