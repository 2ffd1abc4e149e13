import Verif.Props.Hopfield
import Mathlib.LinearAlgebra.Matrix.Charpoly.Eigs
import Mathlib.Tactic.LinearCombination
import Mathlib.Tactic.FieldSimp

/-!
# C82: polariton dispersion of one photonic mode, and the sum rule
-/
namespace Legume

open Matrix

variable {N Q m : ℕ}

/-- Oscillator term of one photonic mode: `sum_nu |C_nu|^2 / Re E_nu` of one well. -/
noncomputable def Spec.oscTerm (e : Fin m → ℂ) (c : Fin m → ℂ) : ℝ := ∑ x, ‖c x‖ ^ 2 / (e x).re

theorem hopD_one (C : Matrix (Fin 1) (Fin m) ℂ) (en : Fin m → ℂ) :
    hopD C en = Matrix.of fun _ _ => ((Spec.oscTerm en (fun x => C 0 x) : ℝ) : ℂ) := by
  ext i j
  obtain rfl : i = 0 := Subsingleton.elim _ _
  obtain rfl : j = 0 := Subsingleton.elim _ _
  simp only [hopD, Matrix.of_apply, Spec.oscTerm, Complex.ofReal_sum, Complex.ofReal_div, Complex.ofReal_pow]
  apply Finset.sum_congr rfl
  intro x _
  rw [Complex.conj_mul']

/-- **C82.** Polaritons of one photonic mode of energy `p` and any number of excitons in any number of wells: away
from the bare exciton energies, `w` is a polariton energy iff
`w^2 = (p + 2 S - 2 L) (p + 2 S + 2 L + sum 4 e |c|^2 / (w^2 - e^2))`, where `S` is the oscillator term of all wells
and `L` that of the last one. -/
theorem C82_dispersion (p : ℂ) (en : Fin (Q + 1) → Fin m → ℂ) (c : Fin (Q + 1) → Fin m → ℂ) (w : ℂ) (hw : w ≠ 0)
    (hwe : ∀ q x, w ^ 2 ≠ en q x ^ 2) :
    (∃ v : HIdx 1 Q m → ℂ, v ≠ 0 ∧
      hopfield (fun _ => p) en (fun q => Matrix.of fun _ x => c q x) *ᵥ v = w • v) ↔
    w ^ 2 = (p + 2 * ((∑ q, Spec.oscTerm (en q) (c q) : ℝ) : ℂ) - 2 * ((Spec.oscTerm (en (Fin.last Q)) (c (Fin.last Q)) : ℝ) : ℂ)) *
      (p + 2 * ((∑ q, Spec.oscTerm (en q) (c q) : ℝ) : ℂ) + 2 * ((Spec.oscTerm (en (Fin.last Q)) (c (Fin.last Q)) : ℝ) : ℂ) +
        ∑ q, ∑ x, 4 * en q x * ‖c q x‖ ^ 2 / (w ^ 2 - en q x ^ 2)) := by
  set C : Fin (Q + 1) → Matrix (Fin 1) (Fin m) ℂ := fun q => Matrix.of fun _ x => c q x with hC
  set S : ℝ := ∑ q, Spec.oscTerm (en q) (c q) with hS
  set L : ℝ := Spec.oscTerm (en (Fin.last Q)) (c (Fin.last Q)) with hL
  have hD : hopD (C (Fin.last Q)) (en (Fin.last Q)) = Matrix.of fun _ _ => (L : ℂ) := hopD_one _ _
  have hA : hopA (fun _ => p) en C = Matrix.of fun _ _ => p + 2 * (S : ℂ) := by
    ext i j
    obtain rfl : i = 0 := Subsingleton.elim _ _
    obtain rfl : j = 0 := Subsingleton.elim _ _
    simp only [hopA, hopD_one, Matrix.add_apply, Matrix.diagonal_apply_eq, Matrix.of_apply, Matrix.sum_apply]
    rw [← Complex.ofReal_sum, Complex.ofReal_re]
    rfl
  have hI := Complex.I_sq
  have hne : ∀ q x, w ^ 2 - en q x ^ 2 ≠ 0 := fun q x => sub_ne_zero.2 (hwe q x)
  constructor
  · rintro ⟨v, hv0, hv⟩
    have hv1 := hv
    rw [hvec_eta v, hop_mulVec, hA, hD] at hv
    have r0 := congrFun hv (.inl (.inl 0))
    have r1 := fun x : Fin (Q + 1) × Fin m => congrFun hv (.inl (.inr x))
    have r2 := congrFun hv (.inr (.inl 0))
    have r3 := fun x : Fin (Q + 1) × Fin m => congrFun hv (.inr (.inr x))
    simp only [hvec, Sum.elim_inl, Sum.elim_inr, Pi.sub_apply, Pi.add_apply, Pi.neg_apply, Pi.smul_apply,
      smul_eq_mul, Matrix.mulVec, dotProduct, hopCf, hopX, Matrix.of_apply, Matrix.diagonal_apply,
      Matrix.conjTranspose_apply, Finset.univ_unique, Finset.sum_singleton, ite_mul, zero_mul, Finset.sum_ite_eq,
      Finset.mem_univ, if_true, Fin.default_eq_zero, RCLike.star_def] at r0 r1 r2 r3
    set x0 := v (.inl (.inl 0))
    set z0 := v (.inr (.inl 0))
    set y := fun x : Fin (Q + 1) × Fin m => v (.inl (.inr x)) with hy
    set u := fun x : Fin (Q + 1) × Fin m => v (.inr (.inr x)) with hu
    have ht : ∀ x, y x + u x = 2 * Complex.I * (starRingEnd ℂ) (c x.1 x.2) * en x.1 x.2 * (x0 - z0) /
        (w ^ 2 - en x.1 x.2 ^ 2) := by
      intro x
      rw [eq_div_iff (hne _ _)]
      have h1 := r1 x
      have h3 := r3 x
      simp only [hC, Matrix.of_apply] at h1 h3
      change _ = w * y x at h1
      change _ = w * u x at h3
      linear_combination (-w - en x.1 x.2) * h1 + (en x.1 x.2 - w) * h3
    have hT : ∀ x, w * (y x - u x) = 2 * Complex.I * (starRingEnd ℂ) (c x.1 x.2) * (x0 - z0) +
        en x.1 x.2 * (y x + u x) := by
      intro x
      have h1 := r1 x
      have h3 := r3 x
      simp only [hC, Matrix.of_apply] at h1 h3
      change _ = w * y x at h1
      change _ = w * u x at h3
      linear_combination -h1 + h3
    have hs : w * (x0 - z0) = (p + 2 * S - 2 * L) * (x0 + z0) := by
      linear_combination -r0 + r2
    have hSm : w * (x0 + z0) = (p + 2 * S + 2 * L) * (x0 - z0) -
        2 * Complex.I * ∑ x : Fin (Q + 1) × Fin m, c x.1 x.2 * (y x + u x) := by
      have : ∑ x : Fin (Q + 1) × Fin m, c x.1 x.2 * (y x + u x) =
          (∑ x : Fin (Q + 1) × Fin m, C x.1 0 x.2 * v (.inl (.inr x))) +
          ∑ x : Fin (Q + 1) × Fin m, C x.1 0 x.2 * v (.inr (.inr x)) := by
        rw [← Finset.sum_add_distrib]
        apply Finset.sum_congr rfl
        intro x _
        simp only [hC, Matrix.of_apply, hy, hu]
        ring
      rw [this]
      linear_combination -r0 - r2
    have hsum : ∑ x : Fin (Q + 1) × Fin m, c x.1 x.2 * (y x + u x) = (Complex.I / 2) *
        (∑ q, ∑ x, 4 * en q x * ‖c q x‖ ^ 2 / (w ^ 2 - en q x ^ 2)) * (x0 - z0) := by
      rw [← Fintype.sum_prod_type' (f := fun q x => 4 * en q x * (‖c q x‖ : ℂ) ^ 2 / (w ^ 2 - en q x ^ 2)),
        Finset.mul_sum, Finset.sum_mul]
      apply Finset.sum_congr rfl
      intro x _
      rw [ht, ← Complex.conj_mul' (c x.1 x.2)]
      field_simp
      ring
    have hs0 : x0 - z0 ≠ 0 := by
      intro h0
      have ht0 : ∀ x, y x + u x = 0 := fun x => by rw [ht, h0]; simp
      have hT0 : ∀ x, y x - u x = 0 := fun x => by
        have := hT x; rw [h0, ht0] at this; simpa [hw] using this
      have hS0 : x0 + z0 = 0 := by
        rw [h0, hsum, h0] at hSm; simpa [hw] using hSm
      apply hv0
      funext i
      rcases i with (n | x) | (n | x)
      · obtain rfl : n = 0 := Subsingleton.elim _ _
        change x0 = 0; linear_combination (h0 + hS0) / 2
      · change y x = 0; linear_combination (ht0 x + hT0 x) / 2
      · obtain rfl : n = 0 := Subsingleton.elim _ _
        change z0 = 0; linear_combination (hS0 - h0) / 2
      · change u x = 0; linear_combination (ht0 x - hT0 x) / 2
    apply mul_right_cancel₀ hs0
    rw [hsum] at hSm
    linear_combination w * hs + (p + 2 * S - 2 * L) * hSm -
      (p + 2 * S - 2 * L) * (∑ q, ∑ x, 4 * en q x * ‖c q x‖ ^ 2 / (w ^ 2 - en q x ^ 2)) * (x0 - z0) * hI
  · intro h
    set F := ∑ q, ∑ x, 4 * en q x * (‖c q x‖ : ℂ) ^ 2 / (w ^ 2 - en q x ^ 2) with hF
    set t := fun x : Fin (Q + 1) × Fin m => 2 * Complex.I * (starRingEnd ℂ) (c x.1 x.2) * en x.1 x.2 /
        (w ^ 2 - en x.1 x.2 ^ 2) with ht
    set T := fun x : Fin (Q + 1) × Fin m => (2 * Complex.I * (starRingEnd ℂ) (c x.1 x.2) + en x.1 x.2 * t x) / w
      with hT
    set s := (p + 2 * (S : ℂ) + 2 * L + F) / w with hs
    have hws : w * s = p + 2 * (S : ℂ) + 2 * L + F := by rw [hs]; field_simp
    have hwT : ∀ x, w * T x = 2 * Complex.I * (starRingEnd ℂ) (c x.1 x.2) + en x.1 x.2 * t x := by
      intro x; rw [hT]; field_simp
    have hwt : ∀ x, w * t x = en x.1 x.2 * T x := by
      intro x
      apply mul_left_cancel₀ hw
      rw [show w * (en x.1 x.2 * T x) = en x.1 x.2 * (w * T x) by ring, hwT]
      have : t x * (w ^ 2 - en x.1 x.2 ^ 2) = 2 * Complex.I * (starRingEnd ℂ) (c x.1 x.2) * en x.1 x.2 := by
        rw [ht]; exact div_mul_cancel₀ _ (hne _ _)
      linear_combination this
    have hAs : (p + 2 * (S : ℂ) - 2 * L) * s = w := by
      apply mul_left_cancel₀ hw
      linear_combination -h + (p + 2 * (S : ℂ) - 2 * L) * hws
    have hsum : ∑ x : Fin (Q + 1) × Fin m, c x.1 x.2 * t x = (Complex.I / 2) * F := by
      rw [hF, ← Fintype.sum_prod_type' (f := fun q x => 4 * en q x * (‖c q x‖ : ℂ) ^ 2 / (w ^ 2 - en q x ^ 2)),
        Finset.mul_sum]
      apply Finset.sum_congr rfl
      intro x _
      rw [ht, ← Complex.conj_mul' (c x.1 x.2)]
      ring
    refine ⟨hvec (fun _ => (s + 1) / 2) (fun x => (t x + T x) / 2) (fun _ => (s - 1) / 2)
      (fun x => (t x - T x) / 2), ?_, ?_⟩
    · intro h0
      have h1 := congrFun h0 (.inl (.inl 0))
      have h2 := congrFun h0 (.inr (.inl 0))
      simp only [hvec, Sum.elim_inl, Sum.elim_inr, Pi.zero_apply] at h1 h2
      have : (1 : ℂ) = 0 := by linear_combination h1 - h2
      exact one_ne_zero this
    · rw [hop_mulVec, hA, hD]
      have hsp : ∑ x : Fin (Q + 1) × Fin m, C x.1 0 x.2 * ((t x + T x) / 2) +
          ∑ x : Fin (Q + 1) × Fin m, C x.1 0 x.2 * ((t x - T x) / 2) = (Complex.I / 2) * F := by
        rw [← hsum, ← Finset.sum_add_distrib]
        apply Finset.sum_congr rfl
        intro x _
        simp only [hC, Matrix.of_apply]
        ring
      funext i
      rcases i with (n | x) | (n | x)
      · obtain rfl : n = 0 := Subsingleton.elim _ _
        simp only [hvec, Sum.elim_inl, Sum.elim_inr, Pi.sub_apply, Pi.add_apply, Pi.neg_apply, Pi.smul_apply,
          smul_eq_mul, Matrix.mulVec, dotProduct, hopCf, Matrix.of_apply, Finset.univ_unique, Finset.sum_singleton]
        linear_combination -Complex.I * hsp - F / 2 * hI - hws / 2 + hAs / 2
      · simp only [hvec, Sum.elim_inl, Sum.elim_inr, Pi.sub_apply, Pi.add_apply, Pi.neg_apply, Pi.smul_apply,
          smul_eq_mul, Matrix.mulVec, dotProduct, hopCf, hopX, Matrix.of_apply, Matrix.diagonal_apply,
          Matrix.conjTranspose_apply, Finset.univ_unique, Finset.sum_singleton, ite_mul, zero_mul,
          Finset.sum_ite_eq, Finset.mem_univ, if_true, RCLike.star_def, hC]
        linear_combination -(hwT x) / 2 - hwt x / 2
      · obtain rfl : n = 0 := Subsingleton.elim _ _
        simp only [hvec, Sum.elim_inl, Sum.elim_inr, Pi.sub_apply, Pi.add_apply, Pi.neg_apply, Pi.smul_apply,
          smul_eq_mul, Matrix.mulVec, dotProduct, hopCf, Matrix.of_apply, Finset.univ_unique, Finset.sum_singleton]
        linear_combination -Complex.I * hsp - F / 2 * hI - hws / 2 - hAs / 2
      · simp only [hvec, Sum.elim_inl, Sum.elim_inr, Pi.sub_apply, Pi.add_apply, Pi.neg_apply, Pi.smul_apply,
          smul_eq_mul, Matrix.mulVec, dotProduct, hopCf, hopX, Matrix.of_apply, Matrix.diagonal_apply,
          Matrix.conjTranspose_apply, Finset.univ_unique, Finset.sum_singleton, ite_mul, zero_mul,
          Finset.sum_ite_eq, Finset.mem_univ, if_true, RCLike.star_def, hC]
        linear_combination (hwT x) / 2 - hwt x / 2

/-- Equations of a polariton of one photonic mode and one exciton. -/
theorem hop_two (p e c : ℂ) (d : ℝ) (hd : hopD (Matrix.of fun _ _ => c : Matrix (Fin 1) (Fin 1) ℂ) (fun _ => e) =
    Matrix.of fun _ _ => (d : ℂ)) (w : ℂ) (v : HIdx 1 0 1 → ℂ)
    (h : hopfield (fun _ => p) (fun _ _ => e) (fun _ => Matrix.of fun _ _ => c) *ᵥ v = w • v) :
    ∃ s S t T : ℂ, w * s = p * S ∧ w * S = (p + 4 * d) * s - 2 * Complex.I * c * t ∧ w * t = e * T ∧
      w * T = 2 * Complex.I * (starRingEnd ℂ) c * s + e * t ∧ (s = 0 → S = 0 → t = 0 → T = 0 → v = 0) := by
  have hA : hopA (fun _ : Fin 1 => p) (fun (_ : Fin (0 + 1)) (_ : Fin 1) => e) (fun _ => Matrix.of fun _ _ => c) =
      Matrix.of fun _ _ => p + 2 * (d : ℂ) := by
    have hs2 : ∀ f : Fin (0 + 1) → Matrix (Fin 1) (Fin 1) ℂ, ∑ q, f q = f 0 := fun f => by simp
    ext i j
    obtain rfl : i = 0 := Subsingleton.elim _ _
    obtain rfl : j = 0 := Subsingleton.elim _ _
    simp only [hopA, hs2, hd, Matrix.add_apply, Matrix.diagonal_apply_eq, Matrix.of_apply, Complex.ofReal_re]
  rw [hvec_eta v, hop_mulVec, hA, hd] at h
  have r0 := congrFun h (.inl (.inl 0))
  have r1 := congrFun h (.inl (.inr (0, 0)))
  have r2 := congrFun h (.inr (.inl 0))
  have r3 := congrFun h (.inr (.inr (0, 0)))
  simp [hvec, Matrix.mulVec, dotProduct, hopCf, hopX, Matrix.diagonal_apply, Fintype.sum_prod_type] at r0 r1 r2 r3
  refine ⟨v (.inl (.inl 0)) - v (.inr (.inl 0)), v (.inl (.inl 0)) + v (.inr (.inl 0)),
    v (.inl (.inr (0, 0))) + v (.inr (.inr (0, 0))), v (.inl (.inr (0, 0))) - v (.inr (.inr (0, 0))), ?_, ?_, ?_, ?_, ?_⟩
  · linear_combination -r0 + r2
  · linear_combination -r0 - r2
  · linear_combination -r1 - r3
  · linear_combination -r1 + r3
  · intro h1 h2 h3 h4
    funext i
    rcases i with (n | ⟨q, x⟩) | (n | ⟨q, x⟩)
    · obtain rfl : n = 0 := Subsingleton.elim _ _
      simp only [Pi.zero_apply]; linear_combination (h1 + h2) / 2
    · obtain rfl : q = 0 := Fin.fin_one_eq_zero q
      obtain rfl : x = 0 := Subsingleton.elim _ _
      simp only [Pi.zero_apply]; linear_combination (h3 + h4) / 2
    · obtain rfl : n = 0 := Subsingleton.elim _ _
      simp only [Pi.zero_apply]; linear_combination (h2 - h1) / 2
    · obtain rfl : q = 0 := Fin.fin_one_eq_zero q
      obtain rfl : x = 0 := Subsingleton.elim _ _
      simp only [Pi.zero_apply]; linear_combination (h3 - h4) / 2

/-- **C82.** One photonic mode of energy `p > 0` and one exciton of energy `e > 0` without losses, coupled by
`c ≠ 0`: every polariton energy is real and lies below both bare energies or above both, and both kinds exist; they
solve `(w^2 - p^2) (w^2 - e^2) = 4 p |c|^2 w^2 / e`. -/
theorem C82_splitting (p e : ℝ) (hp : 0 < p) (he : 0 < e) (c : ℂ) (hc : c ≠ 0) :
    (∀ (w : ℂ) (v : HIdx 1 0 1 → ℂ), v ≠ 0 →
      hopfield (fun _ => (p : ℂ)) (fun _ _ => (e : ℂ)) (fun _ => Matrix.of fun _ _ => c) *ᵥ v = w • v →
      ∃ r : ℝ, w = r ∧ 0 < |r| ∧ (|r| < min p e ∨ max p e < |r|) ∧
        (r ^ 2 - p ^ 2) * (r ^ 2 - e ^ 2) = 4 * p * ‖c‖ ^ 2 * r ^ 2 / e) ∧
    ∃ r1 r2 : ℝ, 0 < r1 ∧ r1 < min p e ∧ max p e < r2 ∧ ∀ r ∈ [r1, r2], ∃ v : HIdx 1 0 1 → ℂ, v ≠ 0 ∧
      hopfield (fun _ => (p : ℂ)) (fun _ _ => (e : ℂ)) (fun _ => Matrix.of fun _ _ => c) *ᵥ v = (r : ℂ) • v := by
  set g : ℝ := 4 * p * ‖c‖ ^ 2 / e with hg
  have hg0 : 0 < g := by have := norm_pos_iff.2 hc; positivity
  have hosc : Spec.oscTerm (fun _ : Fin 1 => (e : ℂ)) (fun _ : Fin 1 => c) = ‖c‖ ^ 2 / e := by
    simp [Spec.oscTerm]
  -- the equation for the squared energies
  have heq : ∀ w : ℂ, w ≠ 0 → w ^ 2 ≠ (e : ℂ) ^ 2 →
      ((∃ v : HIdx 1 0 1 → ℂ, v ≠ 0 ∧
        hopfield (fun _ => (p : ℂ)) (fun _ _ => (e : ℂ)) (fun _ => Matrix.of fun _ _ => c) *ᵥ v = w • v) ↔
      (w ^ 2 - (p : ℂ) ^ 2) * (w ^ 2 - (e : ℂ) ^ 2) = (g : ℂ) * w ^ 2) := by
    intro w hw hwe
    have h := C82_dispersion (Q := 0) (m := 1) (p : ℂ) (fun _ _ => (e : ℂ)) (fun _ _ => c) w hw fun _ _ => hwe
    rw [h]
    have hne := sub_ne_zero.2 hwe
    have hec : (e : ℂ) ≠ 0 := by exact_mod_cast he.ne'
    have hs1 : ∀ f : Fin (0 + 1) → ℂ, ∑ q, f q = f 0 := fun f => by simp
    have hs2 : ∀ f : Fin (0 + 1) → ℝ, ∑ q, f q = f 0 := fun f => by simp
    have hs3 : ∀ f : Fin 1 → ℂ, ∑ q, f q = f 0 := fun f => by simp
    simp only [hs1, hs2, hs3, hosc, hg]
    push_cast
    constructor
    · intro h
      field_simp at h ⊢
      apply mul_left_cancel₀ hec
      linear_combination h
    · intro h
      field_simp at h ⊢
      linear_combination (e : ℂ) * h
  have hec : (e : ℂ) ≠ 0 := by exact_mod_cast he.ne'
  have hpc : (p : ℂ) ≠ 0 := by exact_mod_cast hp.ne'
  have hIne : (2 * Complex.I : ℂ) ≠ 0 := by simp
  have hI := Complex.I_sq
  -- neither 0 nor the energy of the exciton is a polariton energy
  have hsp : ∀ (w : ℂ) (v : HIdx 1 0 1 → ℂ), v ≠ 0 →
      hopfield (fun _ => (p : ℂ)) (fun _ _ => (e : ℂ)) (fun _ => Matrix.of fun _ _ => c) *ᵥ v = w • v →
      w ≠ 0 ∧ w ^ 2 ≠ (e : ℂ) ^ 2 := by
    intro w v hv h
    obtain ⟨s, S, t, T, h1, h2, h3, h4, h5⟩ := hop_two (p : ℂ) e c (‖c‖ ^ 2 / e) (by
      rw [hopD_one]; ext i j; simp only [Matrix.of_apply, hosc]) w v h
    constructor
    · rintro rfl
      apply hv
      have hS : S = 0 := by simpa [hpc] using h1.symm
      have hT : T = 0 := by simpa [hec] using h3.symm
      have hs : s = 0 := by
        have : (p : ℂ) * s = 0 := by
          have hn := Complex.conj_mul' c
          push_cast at h2
          field_simp at h2
          apply mul_left_cancel₀ hec
          linear_combination -h2 - 2 * Complex.I * c * h4 - 4 * s * c * (starRingEnd ℂ) c * hI + 4 * s * hn
        simpa [hpc] using this
      refine h5 hs hS ?_ hT
      rw [hs] at h4
      simpa [hec] using h4.symm
    · intro hwe
      apply hv
      have hw : w ≠ 0 := by
        rintro rfl
        rw [zero_pow two_ne_zero] at hwe
        exact hec (pow_eq_zero_iff two_ne_zero |>.1 hwe.symm)
      have hs : s = 0 := by
        have : 2 * Complex.I * (starRingEnd ℂ) c * e * s = 0 := by
          linear_combination -(w * h3) - e * h4 + t * hwe
        have hcc : (starRingEnd ℂ) c ≠ 0 := by simpa using hc
        simpa [hcc, hec] using this
      have hS : S = 0 := by
        rw [hs, mul_zero] at h1
        simpa [hpc] using h1.symm
      have ht : t = 0 := by
        rw [hs, hS] at h2
        simpa [hc] using h2
      refine h5 hs hS ht ?_
      rw [ht] at h3
      simpa [hec] using h3.symm
  -- the two squared energies
  set B := p ^ 2 + e ^ 2 + g with hB
  have hdisc : 0 ≤ B ^ 2 - 4 * (p ^ 2 * e ^ 2) := by
    have : B ^ 2 - 4 * (p ^ 2 * e ^ 2) = (p ^ 2 - e ^ 2) ^ 2 + 2 * g * (p ^ 2 + e ^ 2) + g ^ 2 := by rw [hB]; ring
    rw [this]; positivity
  set Δ := √(B ^ 2 - 4 * (p ^ 2 * e ^ 2)) with hΔ
  have hΔ2 : Δ ^ 2 = B ^ 2 - 4 * (p ^ 2 * e ^ 2) := Real.sq_sqrt hdisc
  have hΔ0 : 0 ≤ Δ := Real.sqrt_nonneg _
  set W1 := (B - Δ) / 2 with hW1
  set W2 := (B + Δ) / 2 with hW2
  have hle : W1 ≤ W2 := by rw [hW1, hW2]; linarith
  have hprod : W1 * W2 = p ^ 2 * e ^ 2 := by rw [hW1, hW2]; linear_combination -hΔ2 / 4
  have hsum : W1 + W2 = B := by rw [hW1, hW2]; ring
  have hpoly : ∀ x : ℝ, (x - W1) * (x - W2) = (x - p ^ 2) * (x - e ^ 2) - g * x := by
    intro x; linear_combination hprod - x * hsum + x * hB
  have hbet : ∀ x : ℝ, 0 < x → (x - p ^ 2) * (x - e ^ 2) = 0 → W1 < x ∧ x < W2 := by
    intro x hx h0
    have hneg : (x - W1) * (x - W2) < 0 := by rw [hpoly, h0]; nlinarith
    constructor
    · by_contra hc'
      have : 0 ≤ (x - W1) * (x - W2) := mul_nonneg_of_nonpos_of_nonpos (by linarith) (by linarith)
      linarith
    · by_contra hc'
      have : 0 ≤ (x - W1) * (x - W2) := mul_nonneg (by linarith) (by linarith)
      linarith
  have hbp := hbet (p ^ 2) (by positivity) (by ring)
  have hbe := hbet (e ^ 2) (by positivity) (by ring)
  have hW2p : 0 < W2 := lt_trans (by positivity) hbp.2
  have hW1p : 0 < W1 := by
    have : 0 < W1 * W2 := by rw [hprod]; positivity
    exact (pos_iff_pos_of_mul_pos this).2 hW2p
  have hr1 : √W1 < min p e := lt_min ((Real.sqrt_lt' hp).2 hbp.1) ((Real.sqrt_lt' he).2 hbe.1)
  have hr2 : max p e < √W2 :=
    max_lt ((Real.lt_sqrt hp.le).2 hbp.2) ((Real.lt_sqrt he.le).2 hbe.2)
  have hquad : ∀ W : ℝ, (W - W1) * (W - W2) = 0 → (W - p ^ 2) * (W - e ^ 2) = g * W := by
    intro W h; have := hpoly W; rw [h] at this; linarith
  refine ⟨?_, √W1, √W2, Real.sqrt_pos.2 hW1p, hr1, hr2, ?_⟩
  · intro w v hv h
    obtain ⟨hw, hwe⟩ := hsp w v hv h
    have hq := (heq w hw hwe).1 ⟨v, hv, h⟩
    have hfac : (w ^ 2 - (W1 : ℂ)) * (w ^ 2 - (W2 : ℂ)) = 0 := by
      have h1 : (W1 : ℂ) * W2 = p ^ 2 * e ^ 2 := by exact_mod_cast congrArg (Complex.ofReal) hprod
      have h2 : (W1 : ℂ) + W2 = p ^ 2 + e ^ 2 + g := by
        have := congrArg (Complex.ofReal) (hsum.trans hB); push_cast at this; exact this
      linear_combination hq + h1 - w ^ 2 * h2
    have hreal : ∀ W : ℝ, 0 < W → w ^ 2 - (W : ℂ) = 0 → ∃ r : ℝ, w = r ∧ |r| = √W ∧ r ^ 2 = W := by
      intro W hW h
      have hsq : ((√W : ℝ) : ℂ) ^ 2 = (W : ℂ) := by
        rw [← Complex.ofReal_pow, Real.sq_sqrt hW.le]
      have : (w - (√W : ℝ)) * (w + (√W : ℝ)) = 0 := by linear_combination h - hsq
      rcases mul_eq_zero.1 this with h' | h'
      · exact ⟨√W, sub_eq_zero.1 h', abs_of_nonneg (Real.sqrt_nonneg _), Real.sq_sqrt hW.le⟩
      · refine ⟨-√W, ?_, ?_, ?_⟩
        · push_cast; linear_combination h'
        · rw [abs_neg, abs_of_nonneg (Real.sqrt_nonneg _)]
        · rw [neg_sq, Real.sq_sqrt hW.le]
    have hform : ∀ r : ℝ, (r ^ 2 - W1) * (r ^ 2 - W2) = 0 →
        (r ^ 2 - p ^ 2) * (r ^ 2 - e ^ 2) = 4 * p * ‖c‖ ^ 2 * r ^ 2 / e := by
      intro r hr; rw [hquad _ hr, hg]; ring
    rcases mul_eq_zero.1 hfac with h0 | h0
    · obtain ⟨r, h1, h2, h3⟩ := hreal W1 hW1p h0
      exact ⟨r, h1, h2 ▸ Real.sqrt_pos.2 hW1p, Or.inl (h2 ▸ hr1), hform r (by rw [h3]; ring)⟩
    · obtain ⟨r, h1, h2, h3⟩ := hreal W2 hW2p h0
      exact ⟨r, h1, h2 ▸ Real.sqrt_pos.2 hW2p, Or.inr (h2 ▸ hr2), hform r (by rw [h3]; ring)⟩
  · have hex : ∀ W : ℝ, 0 < W → W ≠ e ^ 2 → (W - W1) * (W - W2) = 0 → ∃ v : HIdx 1 0 1 → ℂ, v ≠ 0 ∧
        hopfield (fun _ => (p : ℂ)) (fun _ _ => (e : ℂ)) (fun _ => Matrix.of fun _ _ => c) *ᵥ v =
          ((√W : ℝ) : ℂ) • v := by
      intro W hW hWe h0
      have hsq : ((√W : ℝ) : ℂ) ^ 2 = (W : ℂ) := by
        rw [← Complex.ofReal_pow, Real.sq_sqrt hW.le]
      apply (heq _ _ _).2
      · rw [hsq]
        exact_mod_cast congrArg Complex.ofReal (hquad W h0)
      · exact_mod_cast (Real.sqrt_pos.2 hW).ne'
      · rw [hsq]; exact_mod_cast hWe
    intro r hr
    simp only [List.mem_cons, List.not_mem_nil, or_false] at hr
    rcases hr with rfl | rfl
    · exact hex W1 hW1p hbe.1.ne (by ring)
    · exact hex W2 hW2p hbe.2.ne' (by ring)

theorem trace_blocks {α β : Type} [Fintype α] [Fintype β] (A : Matrix α α ℂ) (B : Matrix α β ℂ)
    (C : Matrix β α ℂ) (D : Matrix β β ℂ) : (Matrix.fromBlocks A B C D).trace = A.trace + D.trace := by
  simp [Matrix.trace, Fintype.sum_sum_type]

theorem roots_charpoly_sq {ι : Type} [Fintype ι] [DecidableEq ι] (M : Matrix ι ι ℂ) :
    (M * M).charpoly.roots = M.charpoly.roots.map fun w => w ^ 2 := by
  -- `det (x^2 - M^2) = det (x - M) det (x + M)`
  have h1 : ∀ x : ℂ, (M * M).charpoly.eval (x ^ 2) = M.charpoly.eval x * (-M).charpoly.eval x := by
    intro x
    rw [Matrix.eval_charpoly, Matrix.eval_charpoly, Matrix.eval_charpoly, ← Matrix.det_mul]
    congr 1
    rw [sub_neg_eq_add, sub_mul, mul_add, mul_add, ← map_mul, ← sq]
    rw [(Matrix.scalar_commute x (fun r => Commute.all _ _) M).eq]
    rw [← sub_sub, add_sub_cancel_right, ← sq]
  have h2 : ∀ x : ℂ, (-M).charpoly.eval x = (-1) ^ Fintype.card ι * M.charpoly.eval (-x) := by
    intro x
    rw [Matrix.eval_charpoly, Matrix.eval_charpoly, ← Matrix.det_neg]
    congr 1
    rw [map_neg]; abel
  have hcard : M.charpoly.roots.card = Fintype.card ι := by
    rw [← (IsAlgClosed.splits M.charpoly).natDegree_eq_card_roots, Matrix.charpoly_natDegree_eq_dim]
  have hev : ∀ x : ℂ, M.charpoly.eval x = (M.charpoly.roots.map fun w => x - w).prod := fun x =>
    (IsAlgClosed.splits M.charpoly).eval_eq_prod_roots_of_monic M.charpoly_monic x
  have h3 : ∀ s : Multiset ℂ, ∀ x : ℂ, (s.map fun w => x - w).prod * ((-1) ^ s.card * (s.map fun w => -x - w).prod) =
      (s.map fun w => x ^ 2 - w ^ 2).prod := by
    intro s x
    induction s using Multiset.induction_on with
    | empty => simp
    | cons a s ih =>
      rw [Multiset.map_cons, Multiset.map_cons, Multiset.map_cons, Multiset.prod_cons, Multiset.prod_cons,
        Multiset.prod_cons, ← ih, Multiset.card_cons]
      ring
  have hP : (M * M).charpoly = (M.charpoly.roots.map fun w => Polynomial.X - Polynomial.C (w ^ 2)).prod := by
    apply Polynomial.funext
    intro y
    obtain ⟨x, rfl⟩ := IsAlgClosed.exists_pow_nat_eq y (by norm_num : 0 < 2)
    rw [h1, h2, ← hcard, hev, hev, h3, Polynomial.eval_multiset_prod, Multiset.map_map]
    simp
  rw [hP]
  have := Polynomial.roots_multiset_prod_X_sub_C (M.charpoly.roots.map fun w => w ^ 2)
  rwa [Multiset.map_map] at this

/-- **C82.** Sum rule: the squares of all polariton energies (both signs, with multiplicity) add up to twice the sum
of the squared bare energies and of `4 p_n S_nn + 4 (S_nn')^2 - 4 |L_nn'|^2`, where `S` is the real part of the
oscillator term of all wells and `L` that of the last well. -/
theorem C82_sum_rule (ph : Fin N → ℂ) (en : Fin (Q + 1) → Fin m → ℂ) (C : Fin (Q + 1) → Matrix (Fin N) (Fin m) ℂ) :
    ((hopfield ph en C).charpoly.roots.map fun w => w ^ 2).sum =
      2 * (∑ n, ph n ^ 2 + ∑ q, ∑ x, en q x ^ 2 +
        4 * ∑ n, ph n * ((∑ q, ∑ x, ‖C q n x‖ ^ 2 / (en q x).re : ℝ) : ℂ) +
        4 * ∑ n, ∑ n', (((∑ q, ∑ x, ((starRingEnd ℂ) (C q n x) * C q n' x).re / (en q x).re) ^ 2 : ℝ) : ℂ) -
        4 * ∑ n, ∑ n', ((‖∑ x, (starRingEnd ℂ) (C (Fin.last Q) n x) * C (Fin.last Q) n' x /
          (((en (Fin.last Q) x).re : ℝ) : ℂ)‖ ^ 2 : ℝ) : ℂ)) := by
  rw [← roots_charpoly_sq, ← Matrix.trace_eq_sum_roots_charpoly]
  set A := hopA ph en C with hA
  set D := hopD (C (Fin.last Q)) (en (Fin.last Q)) with hD
  have htr : (hopfield ph en C * hopfield ph en C).trace =
      2 * ((A * A).trace + (hopX en * hopX en).trace - 4 * (D * D).trace) := by
    rw [hop_eq, Matrix.fromBlocks_multiply, trace_blocks]
    simp only [Matrix.trace_add, Matrix.fromBlocks_multiply, trace_blocks]
    simp only [← hA, ← hD, Matrix.trace_add, Matrix.neg_mul, Matrix.mul_neg, neg_neg, Matrix.smul_mul,
      Matrix.mul_smul, Matrix.trace_neg, Matrix.trace_smul, smul_eq_mul, Matrix.mul_zero, Matrix.trace_zero]
    rw [Matrix.trace_mul_comm (hopCf C)ᴴ (hopCf C)]
    ring
  rw [htr]
  have hX : (hopX en * hopX en).trace = ∑ q, ∑ x, en q x ^ 2 := by
    simp only [hopX, Matrix.diagonal_mul_diagonal, Matrix.trace_diagonal, Fintype.sum_prod_type, sq]
  have hDD : (D * D).trace = ∑ n, ∑ n', ((‖∑ x, (starRingEnd ℂ) (C (Fin.last Q) n x) * C (Fin.last Q) n' x /
          (((en (Fin.last Q) x).re : ℝ) : ℂ)‖ ^ 2 : ℝ) : ℂ) := by
    have hh := hopD_herm (C (Fin.last Q)) (en (Fin.last Q))
    rw [← hD] at hh
    conv_lhs => rw [Matrix.trace]
    apply Finset.sum_congr rfl
    intro n _
    rw [Matrix.diag_apply, Matrix.mul_apply]
    apply Finset.sum_congr rfl
    intro n' _
    have h2 : D n' n = (starRingEnd ℂ) (D n n') := by
      conv_lhs => rw [← hh]
      rfl
    rw [h2, Complex.mul_conj']
    push_cast
    rfl
  have hSre : ∀ n n', ((∑ q, hopD (C q) (en q)) n n').re =
      ∑ q, ∑ x, ((starRingEnd ℂ) (C q n x) * C q n' x).re / (en q x).re := by
    intro n n'
    rw [Matrix.sum_apply, Complex.re_sum]
    apply Finset.sum_congr rfl
    intro q _
    simp only [hopD, Matrix.of_apply, Complex.re_sum, Complex.div_ofReal_re]
  have hSd : ∀ n, ((∑ q, hopD (C q) (en q)) n n).re = ∑ q, ∑ x, ‖C q n x‖ ^ 2 / (en q x).re := by
    intro n
    rw [hSre]
    apply Finset.sum_congr rfl; intro q _
    apply Finset.sum_congr rfl; intro x _
    rw [Complex.conj_mul', ← Complex.ofReal_pow, Complex.ofReal_re]
  have hSs : ∀ n n', ((∑ q, hopD (C q) (en q)) n n').re = ((∑ q, hopD (C q) (en q)) n' n).re := by
    intro n n'
    rw [hSre, hSre]
    apply Finset.sum_congr rfl; intro q _
    apply Finset.sum_congr rfl; intro x _
    congr 1
    simp only [Complex.mul_re, Complex.conj_re, Complex.conj_im]
    ring
  have hAA : (A * A).trace = ∑ n, ph n ^ 2 + 4 * ∑ n, ph n * ((∑ q, ∑ x, ‖C q n x‖ ^ 2 / (en q x).re : ℝ) : ℂ) +
        4 * ∑ n, ∑ n', (((∑ q, ∑ x, ((starRingEnd ℂ) (C q n x) * C q n' x).re / (en q x).re) ^ 2 : ℝ) : ℂ) := by
    rw [hA]
    simp only [hopA]
    set R : Matrix (Fin N) (Fin N) ℂ := Matrix.of fun n1 n2 =>
      2 * ((((∑ q, hopD (C q) (en q)) n1 n2).re : ℝ) : ℂ) with hR
    rw [add_mul, mul_add, mul_add, Matrix.trace_add, Matrix.trace_add, Matrix.trace_add,
      Matrix.trace_mul_comm R (Matrix.diagonal ph), Matrix.diagonal_mul_diagonal, Matrix.trace_diagonal]
    have h1 : (Matrix.diagonal ph * R).trace =
        2 * ∑ n, ph n * ((∑ q, ∑ x, ‖C q n x‖ ^ 2 / (en q x).re : ℝ) : ℂ) := by
      rw [Matrix.trace, Finset.mul_sum]
      apply Finset.sum_congr rfl
      intro n _
      rw [Matrix.diag_apply, Matrix.diagonal_mul, hR, Matrix.of_apply, hSd]
      ring
    have h2 : (R * R).trace =
        4 * ∑ n, ∑ n', (((∑ q, ∑ x, ((starRingEnd ℂ) (C q n x) * C q n' x).re / (en q x).re) ^ 2 : ℝ) : ℂ) := by
      rw [Matrix.trace, Finset.mul_sum]
      apply Finset.sum_congr rfl
      intro n _
      rw [Matrix.diag_apply, Matrix.mul_apply, Finset.mul_sum]
      apply Finset.sum_congr rfl
      intro n' _
      rw [hR, Matrix.of_apply, Matrix.of_apply, hSs n' n, hSre]
      push_cast
      ring
    rw [h1, h2]
    have h3 : ∀ n, ph n * ph n = ph n ^ 2 := fun n => (sq _).symm
    simp only [h3]
    ring
  rw [hX, hDD, hAA]
  ring

/-- Examples for C82. -/
example : ∃ r1 r2 : ℝ, 0 < r1 ∧ r1 < min 1 2 ∧ max 1 2 < r2 := by
  obtain ⟨r1, r2, h1, h2, h3, _⟩ := (C82_splitting 1 2 (by norm_num) (by norm_num) Complex.I Complex.I_ne_zero).2
  exact ⟨r1, r2, h1, h2, h3⟩

example : ((hopfield (fun _ : Fin 1 => (1 : ℂ)) (fun (_ : Fin (0 + 1)) (_ : Fin 1) => (1 : ℂ))
    (fun _ => Matrix.of fun _ _ => (1 / 2 : ℂ))).charpoly.roots.map fun w => w ^ 2).sum = 6 := by
  rw [C82_sum_rule]
  have : (starRingEnd ℂ) (1 / 2 : ℂ) = 1 / 2 := by rw [map_div₀, map_one, Complex.conj_ofNat]
  have h2 : ‖(1 / 2 : ℂ)‖ = 1 / 2 := by simp
  simp [this, h2]
  norm_num

end Legume
