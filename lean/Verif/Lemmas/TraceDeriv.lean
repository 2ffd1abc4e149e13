import Verif.Lemmas.EigDeriv
import Mathlib.Analysis.Calculus.Deriv.Polynomial
import Mathlib.Analysis.Calculus.Deriv.Pow

/-! # Derivatives of symmetric functions of eigenvalues

The sum over all eigenvalues of a function that is differentiable at each of them has a derivative also where eigenvalues are
degenerate. -/
namespace Legume

open Matrix Spec Finset Filter Topology Polynomial
open scoped ComplexConjugate

variable {N : ℕ}

/-- The derivative of a power of a matrix. -/
noncomputable def powDeriv (A A' : Matrix (Fin N) (Fin N) ℂ) : ℕ → Matrix (Fin N) (Fin N) ℂ
  | 0 => 0
  | k + 1 => powDeriv A A' k * A + A ^ k * A'

theorem pow_entry_deriv (A : ℝ → Matrix (Fin N) (Fin N) ℂ) (A' : Matrix (Fin N) (Fin N) ℂ) (t0 : ℝ)
    (hA : ∀ i j, HasDerivAt (fun t => A t i j) (A' i j) t0) (k : ℕ) (i j : Fin N) :
    HasDerivAt (fun t => (A t ^ k) i j) (powDeriv (A t0) A' k i j) t0 := by
  induction k generalizing i j with
  | zero =>
    simp only [pow_zero, powDeriv, Matrix.zero_apply]
    exact hasDerivAt_const _ _
  | succ k ih =>
    simp only [pow_succ, powDeriv, Matrix.add_apply, mul_apply, ← sum_add_distrib]
    exact HasDerivAt.fun_sum fun l _ => (ih i l).mul (hA l j)

theorem powDeriv_trace (A A' : Matrix (Fin N) (Fin N) ℂ) (k l : ℕ) :
    (powDeriv A A' (k + 1) * A ^ l).trace = (k + 1) * (A ^ (k + l) * A').trace := by
  induction k generalizing l with
  | zero => simp [powDeriv, Matrix.trace_mul_comm A']
  | succ k ih =>
    rw [powDeriv, add_mul, trace_add, mul_assoc, ← pow_succ', ih, Matrix.trace_mul_comm (A ^ (k + 1) * A'), ← mul_assoc, ← pow_add,
      show l + (k + 1) = k + 1 + l by ring, show k + (l + 1) = k + 1 + l by ring]
    push_cast
    ring

theorem isEigh_spectral {A V : Matrix (Fin N) (Fin N) ℂ} {w : Fin N → ℝ} (h : IsEigh A w V) (k : ℕ) :
    A ^ k = V * diagonal (fun i => (w i : ℂ) ^ k) * V.conjTranspose := by
  have hu : V * V.conjTranspose = 1 := _root_.mul_eq_one_comm.1 h.unitary
  induction k with
  | zero => simp [hu]
  | succ k ih =>
    have hA : A = V * diagonal (fun i => (w i : ℂ)) * V.conjTranspose := by
      rw [← h.eigen, mul_assoc, hu, mul_one]
    rw [pow_succ, ih]
    conv_lhs => rw [hA]
    rw [show V * diagonal (fun i => (w i : ℂ) ^ k) * V.conjTranspose * (V * diagonal (fun i => (w i : ℂ)) * V.conjTranspose) =
      V * diagonal (fun i => (w i : ℂ) ^ k) * (V.conjTranspose * V) * diagonal (fun i => (w i : ℂ)) * V.conjTranspose by
        simp only [mul_assoc], h.unitary, mul_one, mul_assoc V, diagonal_mul_diagonal]
    simp only [pow_succ]

theorem isEigh_trace_pow {A V : Matrix (Fin N) (Fin N) ℂ} {w : Fin N → ℝ} (h : IsEigh A w V) (k : ℕ) :
    (A ^ k).trace = ∑ m, (w m : ℂ) ^ k := by
  rw [isEigh_spectral h, Matrix.trace_mul_comm, ← mul_assoc, h.unitary, one_mul, trace_diagonal]

theorem isEigh_trace_mul {A V : Matrix (Fin N) (Fin N) ℂ} {w : Fin N → ℝ} (h : IsEigh A w V) (k : ℕ)
    (B : Matrix (Fin N) (Fin N) ℂ) :
    (A ^ k * B).trace = ∑ m, (w m : ℂ) ^ k * sandwich (fun i => V i m) B fun i => V i m := by
  rw [isEigh_spectral h, mul_assoc, mul_assoc, Matrix.trace_mul_comm, mul_assoc]
  simp only [Matrix.trace, diag_apply, diagonal_mul]
  refine sum_congr rfl fun m _ => ?_
  congr 1
  simp only [mul_apply, sandwich, conjTranspose_apply, RCLike.star_def, sum_mul]
  rw [sum_comm]

/-- Sums of powers of eigenvalues. -/
theorem powsum_deriv (A : ℝ → Matrix (Fin N) (Fin N) ℂ) (A' : Matrix (Fin N) (Fin N) ℂ) (t0 : ℝ)
    (hA : ∀ i j, HasDerivAt (fun t => A t i j) (A' i j) t0) (W : ℝ → Fin N → ℝ) (hW : ∀ t, ∃ V, IsEigh (A t) (W t) V)
    (V : Matrix (Fin N) (Fin N) ℂ) (h0 : IsEigh (A t0) (W t0) V) (k : ℕ) :
    HasDerivAt (fun t => ∑ m, W t m ^ k)
      (∑ m, (k * W t0 m ^ (k - 1)) * (sandwich (fun i => V i m) A' fun i => V i m).re) t0 := by
  have h1 : HasDerivAt (fun t => (A t ^ k).trace) (powDeriv (A t0) A' k).trace t0 :=
    HasDerivAt.fun_sum fun i _ => pow_entry_deriv A A' t0 hA k i i
  have h2 : ∀ t, (A t ^ k).trace = ((∑ m, W t m ^ k : ℝ) : ℂ) := by
    intro t
    obtain ⟨U, hU⟩ := hW t
    rw [isEigh_trace_pow hU]
    push_cast
    rfl
  simp only [h2] at h1
  have h3 := (Complex.reCLM.hasFDerivAt (x := ((∑ m, W t0 m ^ k : ℝ) : ℂ))).comp_hasDerivAt t0 h1
  refine (h3.congr_deriv ?_).congr_of_eventuallyEq (Eventually.of_forall fun t => ?_)
  · cases k with
    | zero => simp [powDeriv]
    | succ k =>
      have h4 := powDeriv_trace (A t0) A' k 0
      rw [pow_zero, mul_one, add_zero, isEigh_trace_mul h0] at h4
      rw [Complex.reCLM_apply, h4, Nat.add_sub_cancel, mul_sum, Complex.re_sum]
      refine sum_congr rfl fun m _ => ?_
      have e : ((k : ℂ) + 1) * ((W t0 m : ℂ) ^ k * sandwich (fun i => V i m) A' fun i => V i m) =
          (((k + 1 : ℕ) * W t0 m ^ k : ℝ) : ℂ) * sandwich (fun i => V i m) A' fun i => V i m := by
        push_cast
        ring
      rw [e, Complex.re_ofReal_mul]
  · simp only [Function.comp, Complex.reCLM_apply, Complex.ofReal_re]

/-- Sums of a polynomial over the eigenvalues. -/
theorem polysum_deriv (A : ℝ → Matrix (Fin N) (Fin N) ℂ) (A' : Matrix (Fin N) (Fin N) ℂ) (t0 : ℝ)
    (hA : ∀ i j, HasDerivAt (fun t => A t i j) (A' i j) t0) (W : ℝ → Fin N → ℝ) (hW : ∀ t, ∃ V, IsEigh (A t) (W t) V)
    (V : Matrix (Fin N) (Fin N) ℂ) (h0 : IsEigh (A t0) (W t0) V) (p : ℝ[X]) :
    HasDerivAt (fun t => ∑ m, p.eval (W t m))
      (∑ m, p.derivative.eval (W t0 m) * (sandwich (fun i => V i m) A' fun i => V i m).re) t0 := by
  induction p using Polynomial.induction_on' with
  | add p q hp hq =>
    simp only [eval_add, derivative_add, sum_add_distrib, add_mul]
    exact hp.add hq
  | monomial k a =>
    simp only [eval_monomial, derivative_monomial, ← mul_sum]
    refine ((powsum_deriv A A' t0 hA W hW V h0 k).const_mul a).congr_deriv ?_
    rw [mul_sum]
    exact sum_congr rfl fun m _ => by ring

/-- A polynomial with given values and slopes. -/
theorem hermite_exists (s : Finset ℝ) (f f' : ℝ → ℝ) :
    ∃ p : ℝ[X], ∀ x ∈ s, p.eval x = f x ∧ p.derivative.eval x = f' x := by
  induction s using Finset.induction_on with
  | empty => exact ⟨0, fun x hx => absurd hx (notMem_empty x)⟩
  | insert a s ha ih =>
    obtain ⟨p, hp⟩ := ih
    set Q : ℝ[X] := ∏ x ∈ s, (X - C x) ^ 2 with hQ
    have hQa : Q.eval a ≠ 0 := by
      rw [hQ, eval_prod, prod_ne_zero_iff]
      intro x hx
      simp only [eval_pow, eval_sub, eval_X, eval_C]
      exact pow_ne_zero _ (sub_ne_zero.2 fun e => ha (e ▸ hx))
    have hQs : ∀ x ∈ s, Q.eval x = 0 ∧ Q.derivative.eval x = 0 := by
      intro x hx
      obtain ⟨R, hR⟩ : (X - C x) ^ 2 ∣ Q := dvd_prod_of_mem (fun x => (X - C x : ℝ[X]) ^ 2) hx
      rw [hR]
      constructor
      · simp
      · simp [derivative_pow]
    set α := (f a - p.eval a) / Q.eval a with hα
    set β := (f' a - p.derivative.eval a - α * Q.derivative.eval a) / Q.eval a with hβ
    refine ⟨p + (C α + C β * (X - C a)) * Q, fun x hx => ?_⟩
    rcases mem_insert.1 hx with rfl | hx
    · constructor
      · simp only [eval_add, eval_mul, eval_C, eval_sub, eval_X, sub_self, mul_zero, add_zero]
        rw [hα, div_mul_cancel₀ _ hQa]
        ring
      · simp only [derivative_add, derivative_mul, derivative_C, derivative_sub, derivative_X, eval_add, eval_mul, eval_C,
          eval_sub, eval_X, sub_self, mul_zero, add_zero, zero_mul, zero_add, sub_zero, mul_one, eval_zero, eval_one]
        rw [hβ, div_mul_cancel₀ _ hQa]
        ring
    · obtain ⟨q1, q2⟩ := hQs x hx
      obtain ⟨p1, p2⟩ := hp x hx
      constructor
      · simp only [eval_add, eval_mul, q1, mul_zero, add_zero, p1]
      · simp only [derivative_add, derivative_mul, eval_add, eval_mul, q1, q2, mul_zero, add_zero, p2]

/-- Eigenvalues of matrices which differ by little are near each other. -/
theorem eig_near {A B V U : Matrix (Fin N) (Fin N) ℂ} {w u : Fin N → ℝ} (hH : A.IsHermitian) (hA : IsEigh A w V)
    (hB : IsEigh B u U) (j : Fin N) : ∃ m, |u j - w m| ≤ ∑ i, ∑ l, ‖B i l - A i l‖ := by
  have h1 : ∑ i, ‖U i j‖ ^ 2 = 1 := by
    have := isEigh_orth hB j j
    rw [if_pos rfl] at this
    have h2 : ((∑ i, ‖U i j‖ ^ 2 : ℝ) : ℂ) = 1 := by
      rw [← this]
      push_cast
      exact sum_congr rfl fun i _ => (Complex.conj_mul' _).symm
    exact_mod_cast h2
  have hle : ∀ l, ‖U l j‖ ≤ 1 := by
    intro l
    have := single_le_sum (f := fun i => ‖U i j‖ ^ 2) (fun i _ => sq_nonneg _) (mem_univ l)
    rw [h1] at this
    exact (sq_le_one_iff₀ (norm_nonneg _)).1 this
  have hr : ∀ i, 0 ≤ ∑ l, ‖B i l - A i l‖ := fun i => sum_nonneg fun _ _ => norm_nonneg _
  obtain ⟨m, hm⟩ := isEigh_residual hH hA (fun i => U i j) (u j) (∑ i, ∑ l, ‖B i l - A i l‖) (sum_nonneg fun i _ => hr i)
    (by rw [h1]; exact one_pos) (by
      rw [h1, mul_one]
      have h3 : ∀ i, ‖∑ l, A i l * U l j - u j * U i j‖ ≤ ∑ l, ‖B i l - A i l‖ := by
        intro i
        rw [← isEigh_eigen hB i j, ← sum_sub_distrib]
        refine (norm_sum_le _ _).trans (sum_le_sum fun l _ => ?_)
        rw [← sub_mul, norm_mul, norm_sub_rev]
        exact mul_le_of_le_one_right (norm_nonneg _) (hle l)
      refine (sum_le_sum fun i _ => pow_le_pow_left₀ (norm_nonneg _) (h3 i) 2).trans ?_
      exact sum_sq_le_sq_sum_of_nonneg (s := univ) (f := fun i => ∑ l, ‖B i l - A i l‖) fun i _ => hr i)
  exact ⟨m, by rw [abs_sub_comm]; exact hm⟩

/-- **Symmetric functions of eigenvalues.** The sum over all eigenvalues of a function that is differentiable at each of
them has the derivative given by first-order perturbation theory, degenerate or not. -/
theorem spectral_deriv (A : ℝ → Matrix (Fin N) (Fin N) ℂ) (A' : Matrix (Fin N) (Fin N) ℂ) (t0 : ℝ)
    (hA : ∀ i j, HasDerivAt (fun t => A t i j) (A' i j) t0) (hH : ∀ t, (A t).IsHermitian) (W : ℝ → Fin N → ℝ)
    (hW : ∀ t, ∃ V, IsEigh (A t) (W t) V) (V : Matrix (Fin N) (Fin N) ℂ) (h0 : IsEigh (A t0) (W t0) V)
    (φ φ' : ℝ → ℝ) (hφ : ∀ m, HasDerivAt φ (φ' (W t0 m)) (W t0 m)) :
    HasDerivAt (fun t => ∑ m, φ (W t m))
      (∑ m, φ' (W t0 m) * (sandwich (fun i => V i m) A' fun i => V i m).re) t0 := by
  classical
  obtain ⟨p, hp⟩ := hermite_exists (univ.image (W t0)) φ φ'
  have hp : ∀ m, p.eval (W t0 m) = φ (W t0 m) ∧ p.derivative.eval (W t0 m) = φ' (W t0 m) := fun m =>
    hp _ (mem_image_of_mem _ (mem_univ m))
  have hψ : ∀ m, HasDerivAt (fun y => φ y - p.eval y) 0 (W t0 m) := by
    intro m
    have := (hφ m).sub (p.hasDerivAt (W t0 m))
    rw [(hp m).2, sub_self] at this
    exact this
  -- how far the eigenvalues move
  obtain ⟨Cst, hC0, hC⟩ : ∃ Cst : ℝ, 0 < Cst ∧ ∀ᶠ t in 𝓝 t0, ∑ i, ∑ j, ‖A t i j - A t0 i j‖ ≤ Cst * |t - t0| := by
    refine ⟨∑ i : Fin N, ∑ j : Fin N, (‖A' i j‖ + 1) + 1, ?_, ?_⟩
    · have : 0 ≤ ∑ i : Fin N, ∑ j : Fin N, (‖A' i j‖ + 1) := sum_nonneg fun _ _ => sum_nonneg fun _ _ => by positivity
      linarith
    · have : ∀ᶠ t in 𝓝 t0, ∀ i j, ‖A t i j - A t0 i j‖ ≤ (‖A' i j‖ + 1) * |t - t0| := by
        rw [eventually_all]
        intro i
        rw [eventually_all]
        intro j
        have h1 := (hasDerivAt_iff_isLittleO.1 (hA i j)).def one_pos
        filter_upwards [h1] with t ht
        have e : A t i j - A t0 i j = (A t i j - A t0 i j - (t - t0) • A' i j) + (t - t0) • A' i j := by ring
        rw [e]
        refine (norm_add_le _ _).trans ?_
        rw [norm_smul (t - t0)]
        simp only [Real.norm_eq_abs] at ht ⊢
        nlinarith
      filter_upwards [this] with t ht
      refine (sum_le_sum fun i _ => sum_le_sum fun j _ => ht i j).trans ?_
      simp only [← sum_mul]
      exact mul_le_mul_of_nonneg_right (by linarith) (abs_nonneg _)
  have hrem : HasDerivAt (fun t => ∑ m, (φ (W t m) - p.eval (W t m))) 0 t0 := by
    rw [hasDerivAt_iff_isLittleO, Asymptotics.isLittleO_iff]
    intro ε hε
    have hz : ∑ m, (φ (W t0 m) - p.eval (W t0 m)) = 0 := sum_eq_zero fun m _ => by rw [(hp m).1, sub_self]
    set η := ε / (Cst * (N + 1)) with hη
    have hη0 : 0 < η := by positivity
    have hloc : ∃ δ > 0, ∀ m, ∀ y, |y - W t0 m| < δ → |φ y - p.eval y| ≤ η * |y - W t0 m| := by
      have : ∀ m, ∃ δ > 0, ∀ y, |y - W t0 m| < δ → |φ y - p.eval y| ≤ η * |y - W t0 m| := by
        intro m
        have h1 := (hasDerivAt_iff_isLittleO.1 (hψ m)).def hη0
        obtain ⟨δ, hδ, h2⟩ := Metric.eventually_nhds_iff.1 h1
        refine ⟨δ, hδ, fun y hy => ?_⟩
        have := h2 (by rwa [Real.dist_eq])
        simpa only [(hp m).1, sub_self, smul_zero, sub_zero, Real.norm_eq_abs] using this
      choose δ hδ hδ' using this
      by_cases hN : Nonempty (Fin N)
      · obtain ⟨m0, hm0⟩ := Finite.exists_min δ
        exact ⟨δ m0, hδ m0, fun m y hy => hδ' m y (hy.trans_le (hm0 m))⟩
      · exact ⟨1, one_pos, fun m => absurd ⟨m⟩ hN⟩
    obtain ⟨δ, hδ, hloc⟩ := hloc
    have hsmall : ∀ᶠ t in 𝓝 t0, Cst * |t - t0| < δ := by
      have : ContinuousAt (fun t => Cst * |t - t0|) t0 := by fun_prop
      have h1 : Cst * |t0 - t0| < δ := by simpa using hδ
      exact this.eventually (gt_mem_nhds h1)
    filter_upwards [hC, hsmall] with t h1 h2
    rw [hz, sub_zero, smul_zero, sub_zero]
    obtain ⟨U, hU⟩ := hW t
    have hb : ∀ m, |φ (W t m) - p.eval (W t m)| ≤ η * (Cst * |t - t0|) := by
      intro m
      obtain ⟨m', hm'⟩ := eig_near (hH t0) h0 hU m
      have h3 := hm'.trans h1
      exact (hloc m' _ (h3.trans_lt h2)).trans (mul_le_mul_of_nonneg_left h3 hη0.le)
    rw [Real.norm_eq_abs, Real.norm_eq_abs]
    refine (abs_sum_le_sum_abs _ _).trans ((sum_le_sum fun m _ => hb m).trans ?_)
    rw [sum_const, card_univ, Fintype.card_fin, nsmul_eq_mul]
    have e : η * Cst * (N + 1) = ε := by
      rw [hη]
      field_simp
    have : 0 ≤ |t - t0| := abs_nonneg _
    calc (N : ℝ) * (η * (Cst * |t - t0|)) = η * Cst * N * |t - t0| := by ring
      _ ≤ η * Cst * (N + 1) * |t - t0| := by
        refine mul_le_mul_of_nonneg_right ?_ this
        refine mul_le_mul_of_nonneg_left (by linarith) (by positivity)
      _ = ε * |t - t0| := by rw [e]
  have := hrem.add (polysum_deriv A A' t0 hA W hW V h0 p)
  simp only [(hp _).2] at this
  refine (this.congr_deriv (zero_add _)).congr_of_eventuallyEq (Eventually.of_forall fun t => ?_)
  simp only [Pi.add_apply, ← sum_add_distrib, sub_add_cancel]

end Legume
