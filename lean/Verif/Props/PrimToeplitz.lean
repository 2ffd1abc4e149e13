import Verif.Model.Primitives
import Mathlib.Algebra.BigOperators.Intervals
import Mathlib.Tactic.Linarith
import Mathlib.Tactic.LinearCombination

/-!
# Gradients of `toeplitz_block`
-/
namespace Legume
open scoped ComplexConjugate
open Finset

/-- The changes of the two data arrays which keep them consistent: both hold the same value for the
first sample of every block, and in the first block the second array holds the conjugate of the first. -/
def ToeplitzConsistent (n p : ℕ) (T1 T2 : ℕ → ℂ) : Prop :=
  (∀ d, d < n → T2 (d * p) = T1 (d * p)) ∧ ∀ m, m < p → T2 m = conj (T1 m)

theorem sum_range_mul' {M : Type*} [AddCommMonoid M] (n p : ℕ) (f : ℕ → M) :
    ∑ I ∈ range (n * p), f I = ∑ i ∈ range n, ∑ a ∈ range p, f (i * p + a) := by
  induction n with
  | zero => simp
  | succ n ih => rw [Nat.succ_mul, sum_range_add, ih, sum_range_succ]

/-- A sum over a window of a longer range. -/
theorem sum_window {M : Type*} [AddCommMonoid M] (N s L : ℕ) (h : s + L ≤ N) (f : ℕ → M) :
    ∑ k ∈ range N, (if s ≤ k ∧ k < s + L then f (k - s) else 0) = ∑ m ∈ range L, f m := by
  rw [← sum_filter]
  refine sum_nbij' (fun k => k - s) (fun m => s + m) ?_ ?_ ?_ ?_ ?_
  · intro k hk; simp only [mem_filter, mem_range] at *; omega
  · intro k hk; simp only [mem_filter, mem_range] at *; omega
  · intro k hk; simp only [mem_filter, mem_range] at *; omega
  · intro k hk; simp only [mem_range] at *; omega
  · intro k hk; rfl

/-- Pairing of the first gradient with a change, written over pairs of positions in blocks. -/
theorem vjpT1_pair (n p : ℕ) (hn : 0 < n) (v : ℕ → ℕ → ℂ) (T : ℕ → ℂ) :
    ∑ k ∈ range (n * p), vjpT1 n (n * p) v k * T k =
      ∑ i ∈ range n, ∑ j ∈ range n, if i ≤ j then ∑ a ∈ range p, ∑ b ∈ range p, if a ≤ b then
        (v (i * p + a) (j * p + b) + if i < j then conj (v (j * p + b) (i * p + a)) else 0) *
          T ((j - i) * p + (b - a)) else 0 else 0 := by
  have hp : n * p / n = p := Nat.mul_div_cancel_left p hn
  unfold vjpT1
  simp only [hp, sum_mul]
  rw [sum_comm]
  refine sum_congr rfl fun i hi => ?_
  rw [sum_comm]
  refine sum_congr rfl fun j hj => ?_
  rw [mem_range] at hi hj
  by_cases hij : i ≤ j
  · simp only [if_pos hij, sum_mul]
    rw [sum_comm]
    refine sum_congr rfl fun a ha => ?_
    rw [mem_range] at ha
    have hle : (j - i) * p + p ≤ n * p := by
      have : (j - i + 1) * p ≤ n * p := Nat.mul_le_mul_right p (by omega)
      rwa [Nat.add_mul, Nat.one_mul] at this
    have h1 := sum_window (n * p) ((j - i) * p) (p - a) (by omega) fun m =>
      (v (i * p + a) (j * p + a + m) + if i < j then conj (v (j * p + a + m) (i * p + a)) else 0) *
          T ((j - i) * p + m)
    have h2 := sum_window p a (p - a) (by omega) fun m =>
      (v (i * p + a) (j * p + a + m) + if i < j then conj (v (j * p + a + m) (i * p + a)) else 0) *
          T ((j - i) * p + m)
    trans
    · refine (sum_congr rfl fun k hk => ?_).trans (h1.trans h2.symm)
      rw [Nat.add_mul, Nat.one_mul, show (j - i) * p + p - a = (j - i) * p + (p - a) by omega]
      by_cases hc : (j - i) * p ≤ k ∧ k < (j - i) * p + (p - a)
      · rw [if_pos hc, if_pos hc, show (j - i) * p + (k - (j - i) * p) = k by omega]
      · rw [if_neg hc, if_neg hc, zero_mul]
    · refine sum_congr rfl fun b hb => ?_
      rw [mem_range] at hb
      by_cases hab : a ≤ b
      · rw [if_pos hab, if_pos (by omega), show j * p + a + (b - a) = j * p + b by omega]
      · rw [if_neg hab, if_neg (by omega)]
  · simp [if_neg hij]

/-- The same for the second gradient. -/
theorem vjpT2_pair (n p : ℕ) (hn : 0 < n) (v : ℕ → ℕ → ℂ) (T : ℕ → ℂ) :
    ∑ k ∈ range (n * p), vjpT2 n (n * p) v k * T k =
      ∑ i ∈ range n, ∑ j ∈ range n, if i ≤ j then ∑ a ∈ range p, ∑ b ∈ range p, if b < a then
        (v (i * p + a) (j * p + b) + if i < j then conj (v (j * p + b) (i * p + a)) else 0) *
          T ((j - i) * p + (a - b)) else 0 else 0 := by
  have hp : n * p / n = p := Nat.mul_div_cancel_left p hn
  unfold vjpT2
  simp only [hp, sum_mul]
  rw [sum_comm]
  refine sum_congr rfl fun i hi => ?_
  rw [sum_comm]
  refine sum_congr rfl fun j hj => ?_
  rw [mem_range] at hi hj
  by_cases hij : i ≤ j
  · simp only [if_pos hij, sum_mul]
    rw [sum_comm]
    rw [sum_comm (s := range p) (t := range p)]
    refine sum_congr rfl fun b hb => ?_
    rw [mem_range] at hb
    have hle : (j - i) * p + p ≤ n * p := by
      have : (j - i + 1) * p ≤ n * p := Nat.mul_le_mul_right p (by omega)
      rwa [Nat.add_mul, Nat.one_mul] at this
    have h1 := sum_window (n * p) ((j - i) * p + 1) (p - b - 1) (by omega) fun m =>
      (v (i * p + b + 1 + m) (j * p + b) + if i < j then conj (v (j * p + b) (i * p + b + 1 + m)) else 0) *
          T ((j - i) * p + 1 + m)
    have h2 := sum_window p (b + 1) (p - b - 1) (by omega) fun m =>
      (v (i * p + b + 1 + m) (j * p + b) + if i < j then conj (v (j * p + b) (i * p + b + 1 + m)) else 0) *
          T ((j - i) * p + 1 + m)
    trans
    · refine (sum_congr rfl fun k hk => ?_).trans (h1.trans h2.symm)
      rw [Nat.add_mul, Nat.one_mul, show (j - i) * p + p - b = (j - i) * p + 1 + (p - b - 1) by omega]
      by_cases hc : (j - i) * p + 1 ≤ k ∧ k < (j - i) * p + 1 + (p - b - 1)
      · rw [if_pos hc, if_pos hc, show (j - i) * p + 1 + (k - ((j - i) * p + 1)) = k by omega]
      · rw [if_neg hc, if_neg hc, zero_mul]
    · refine sum_congr rfl fun a ha => ?_
      rw [mem_range] at ha
      by_cases hab : b < a
      · rw [if_pos hab, if_pos (by omega), show i * p + b + 1 + (a - (b + 1)) = i * p + a by omega,
          show (j - i) * p + 1 + (a - (b + 1)) = (j - i) * p + (a - b) by omega]
      · rw [if_neg hab, if_neg (by omega)]
  · simp [if_neg hij]

/-- Entries of the assembled matrix in terms of blocks. -/
theorem toeplitzBlock_blocks (n p : ℕ) (T1 T2 : ℕ → ℂ) (i j a b : ℕ) (hi : i < n) (hj : j < n) (ha : a < p)
    (hb : b < p) :
    toeplitzBlock n (n * p) false T1 T2 (i * p + a) (j * p + b) =
      if i < j then (if b ≤ a then T2 ((j - i) * p + (a - b)) else T1 ((j - i) * p + (b - a)))
      else if j < i then conj (if a ≤ b then T2 ((i - j) * p + (b - a)) else T1 ((i - j) * p + (a - b)))
      else if a = b then T2 0 else if a < b then T1 (b - a) else conj (T1 (a - b)) := by
  have hn : 0 < n := by omega
  have hp0 : 0 < p := by omega
  have hp : n * p / n = p := Nat.mul_div_cancel_left p hn
  have e1 : (i * p + a) / p = i := by
    rw [mul_comm, Nat.mul_add_div hp0, Nat.div_eq_of_lt ha, add_zero]
  have e2 : (j * p + b) / p = j := by
    rw [mul_comm, Nat.mul_add_div hp0, Nat.div_eq_of_lt hb, add_zero]
  have e3 : (i * p + a) % p = a := by
    rw [mul_comm, Nat.mul_add_mod, Nat.mod_eq_of_lt ha]
  have e4 : (j * p + b) % p = b := by
    rw [mul_comm, Nat.mul_add_mod, Nat.mod_eq_of_lt hb]
  unfold toeplitzBlock toeplitzTmat scipyToeplitz castTo
  simp only [hp, e1, e2, e3, e4, hi, hj, true_and]
  rcases lt_trichotomy i j with h | h | h
  · have hlt : i * p + a < j * p + b := by
      have : (i + 1) * p ≤ j * p := Nat.mul_le_mul_right p h
      rw [Nat.add_mul, Nat.one_mul] at this; omega
    simp [hlt.le, show ¬ j * p + b < i * p + a by omega, h.le, h]
  · subst h
    rcases lt_trichotomy a b with h | h | h
    · simp [h, h.le, show ¬ b < a by omega, show ¬ b ≤ a by omega, show ¬ a = b by omega]
    · subst h; simp
    · simp [h, h.le, show ¬ a < b by omega, show ¬ a ≤ b by omega, show ¬ a = b by omega]
  · have hlt : j * p + b < i * p + a := by
      have : (j + 1) * p ≤ i * p := Nat.mul_le_mul_right p h
      rw [Nat.add_mul, Nat.one_mul] at this; omega
    simp [show ¬ i * p + a ≤ j * p + b by omega, hlt, h.le, h, show ¬ i < j by omega]

/-- Folding a double sum over blocks onto the upper triangle. -/
theorem sum_fold (n : ℕ) (R : ℕ → ℕ → ℝ) :
    ∑ i ∈ range n, ∑ j ∈ range n, R i j =
      ∑ i ∈ range n, ∑ j ∈ range n, ((if i ≤ j then R i j else 0) + if i < j then R j i else 0) := by
  simp only [sum_add_distrib]
  rw [show ∑ i ∈ range n, ∑ j ∈ range n, (if i < j then R j i else 0) =
      ∑ i ∈ range n, ∑ j ∈ range n, (if j < i then R i j else 0) from sum_comm]
  rw [← sum_add_distrib]
  refine sum_congr rfl fun i _ => ?_
  rw [← sum_add_distrib]
  refine sum_congr rfl fun j _ => ?_
  by_cases h : i ≤ j
  · rw [if_pos h, if_neg (by omega), add_zero]
  · rw [if_neg h, if_pos (by omega), zero_add]

/-- **C47.** For every cotangent matrix `v` and every consistent change `(T1, T2)` of the data, the two
registered gradients paired with the change give the pairing of `v` with the change of the assembled
matrix (which is linear in the data over the reals). -/
theorem C47_directional (n p : ℕ) (hn : 0 < n) (v : ℕ → ℕ → ℂ) (T1 T2 : ℕ → ℂ)
    (hT : ToeplitzConsistent n p T1 T2) :
    (∑ k ∈ range (n * p), vjpT1 n (n * p) v k * T1 k + ∑ k ∈ range (n * p), vjpT2 n (n * p) v k * T2 k).re =
      (∑ I ∈ range (n * p), ∑ J ∈ range (n * p), v I J * toeplitzBlock n (n * p) false T1 T2 I J).re := by
  rw [vjpT1_pair n p hn, vjpT2_pair n p hn, sum_range_mul' n p]
  simp only [sum_range_mul' n p (fun J => _ * toeplitzBlock _ _ _ _ _ _ J)]
  rw [sum_congr rfl fun i _ => sum_comm]
  rw [← sum_add_distrib]
  simp only [← sum_add_distrib, Complex.re_sum]
  refine Eq.trans ?_ (sum_fold n fun i j => ∑ a ∈ range p, ∑ b ∈ range p,
    (v (i * p + a) (j * p + b) * toeplitzBlock n (n * p) false T1 T2 (i * p + a) (j * p + b)).re).symm
  refine sum_congr rfl fun i hi => sum_congr rfl fun j hj => ?_
  rw [mem_range] at hi hj
  rcases lt_trichotomy i j with h | h | h
  · simp only [if_pos h.le, if_pos h]
    rw [sum_comm (s := range p) (t := range p) (f := fun a b =>
      (v (j * p + a) (i * p + b) * toeplitzBlock n (n * p) false T1 T2 (j * p + a) (i * p + b)).re)]
    simp only [← sum_add_distrib, Complex.re_sum]
    refine sum_congr rfl fun a ha => sum_congr rfl fun b hb => ?_
    rw [mem_range] at ha hb
    rw [toeplitzBlock_blocks n p T1 T2 i j a b hi hj ha hb, toeplitzBlock_blocks n p T1 T2 j i b a hj hi hb ha]
    have hji : ¬ j < i := by omega
    rcases lt_trichotomy a b with hab | hab | hab
    · have h1 : ¬ b < a := by omega
      have h2 : ¬ b ≤ a := by omega
      simp only [h, hji, hab.le, h1, h2, ↓reduceIte]
      simp only [Complex.add_re, Complex.mul_re, Complex.add_im, Complex.conj_re, Complex.conj_im, Complex.zero_re]
      ring
    · subst hab
      have h1 := hT.1 (j - i) (by omega)
      simp only [h, hji, le_refl, lt_irrefl, ↓reduceIte, Nat.sub_self, add_zero, h1]
      simp only [Complex.add_re, Complex.mul_re, Complex.add_im, Complex.conj_re, Complex.conj_im, Complex.zero_re]
      ring
    · have h1 : ¬ a ≤ b := by omega
      simp only [h, hji, hab, hab.le, h1, ↓reduceIte]
      simp only [Complex.add_re, Complex.mul_re, Complex.add_im, Complex.conj_re, Complex.conj_im, Complex.zero_re]
      ring
  · subst h
    simp only [if_pos le_rfl, lt_irrefl, if_false, add_zero, Nat.sub_self, zero_mul, zero_add]
    simp only [← sum_add_distrib, Complex.re_sum, if_true]
    refine sum_congr rfl fun a ha => sum_congr rfl fun b hb => ?_
    rw [mem_range] at ha hb
    rw [toeplitzBlock_blocks n p T1 T2 i i a b hi hi ha hb]
    rcases lt_trichotomy a b with hab | hab | hab
    · have h1 : ¬ b < a := by omega
      have h2 : ¬ a = b := by omega
      simp only [lt_irrefl, hab.le, hab, h1, h2, ↓reduceIte, add_zero]
    · subst hab
      have h1 := hT.1 0 hn
      rw [zero_mul] at h1
      simp only [le_refl, lt_irrefl, ↓reduceIte, Nat.sub_self, add_zero, h1]
    · have h1 : ¬ a ≤ b := by omega
      have h2 : ¬ a = b := by omega
      have h3 : ¬ a < b := by omega
      simp only [lt_irrefl, hab, h1, h2, h3, ↓reduceIte, zero_add, hT.2 (a - b) (by omega)]
  · simp [show ¬ i ≤ j by omega, show ¬ i < j by omega]

/-- The data of a permittivity: `F` at the differences `(d, m)` and `(d, -m)`, conjugate symmetric as for
every real function, are consistent. -/
theorem toeplitzConsistent_of_ft (n p : ℕ) (hp : 0 < p) (F : ℤ → ℤ → ℂ) (hF : ∀ i j, F (-i) (-j) = conj (F i j)) :
    ToeplitzConsistent n p (fun k => F (k / p : ℕ) (k % p : ℕ)) (fun k => F (k / p : ℕ) (-(k % p : ℕ))) := by
  refine ⟨fun d _ => ?_, fun m hm => ?_⟩
  · simp
  · simp only [Nat.div_eq_of_lt hm, Nat.mod_eq_of_lt hm, Nat.cast_zero]
    rw [← hF]; simp

/-- Non-trivial instance: three blocks of size two, any cotangent. -/
example (v : ℕ → ℕ → ℂ) (F : ℤ → ℤ → ℂ) (hF : ∀ i j, F (-i) (-j) = conj (F i j)) :=
  C47_directional 3 2 (by norm_num) v _ _ (toeplitzConsistent_of_ft 3 2 (by norm_num) F hF)

/-- **C47 (change of the matrix).** The matrix built from the change of the data is the change of the
matrix. -/
theorem C47_change (n ntot : ℕ) (T1 T2 D1 D2 : ℕ → ℂ) (I J : ℕ) :
    toeplitzBlock n ntot false (T1 + D1) (T2 + D2) I J - toeplitzBlock n ntot false T1 T2 I J =
      toeplitzBlock n ntot false D1 D2 I J := by
  have key : ∀ I J, toeplitzTmat n ntot false (T1 + D1) (T2 + D2) I J =
      toeplitzTmat n ntot false T1 T2 I J + toeplitzTmat n ntot false D1 D2 I J := by
    intro I J
    unfold toeplitzTmat scipyToeplitz castTo
    simp only [Bool.false_eq_true, ↓reduceIte, Pi.add_apply]
    split_ifs <;> simp
  unfold toeplitzBlock
  rw [key, key]
  split_ifs <;> simp only [map_add, map_zero] <;> ring

/-- **C47 (the restriction matters).** A change of the first array alone is not propagated correctly: the
diagonal is read from the second array. -/
theorem C47_inconsistent : ∃ (v : ℕ → ℕ → ℂ) (T1 T2 : ℕ → ℂ),
    (∑ k ∈ range (1 * 1), vjpT1 1 (1 * 1) v k * T1 k + ∑ k ∈ range (1 * 1), vjpT2 1 (1 * 1) v k * T2 k).re ≠
      (∑ I ∈ range (1 * 1), ∑ J ∈ range (1 * 1), v I J * toeplitzBlock 1 (1 * 1) false T1 T2 I J).re := by
  refine ⟨fun _ _ => 1, fun _ => 1, fun _ => 0, ?_⟩
  simp [vjpT1, vjpT2, toeplitzBlock, toeplitzTmat, scipyToeplitz, castTo]

end Legume
