import Mathlib.Analysis.Calculus.Deriv.Mul
import Mathlib.Analysis.Calculus.Deriv.Add
import Mathlib.Analysis.Complex.RealDeriv
import Mathlib.Analysis.Calculus.Deriv.Star
import Verif.Lemmas.Spectrum
import Verif.Props.PrimEigh

/-! # Simple eigenvalues of a Hermitian matrix are differentiable -/
namespace Legume

open Matrix Spec Finset Filter Topology Asymptotics
open scoped ComplexConjugate

variable {N : ℕ}

theorem isEigh_orth {A V : Matrix (Fin N) (Fin N) ℂ} {w : Fin N → ℝ} (h : IsEigh A w V) (m n : Fin N) :
    ∑ i, conj (V i m) * V i n = if m = n then 1 else 0 := by
  have := congrFun (congrFun h.unitary m) n
  simpa [mul_apply, conjTranspose_apply, one_apply] using this

theorem isEigh_complete {A V : Matrix (Fin N) (Fin N) ℂ} {w : Fin N → ℝ} (h : IsEigh A w V) (i j : Fin N) :
    ∑ n, V i n * conj (V j n) = if i = j then 1 else 0 := by
  have hu : V * V.conjTranspose = 1 := _root_.mul_eq_one_comm.1 h.unitary
  have := congrFun (congrFun hu i) j
  simpa [mul_apply, conjTranspose_apply, one_apply] using this

theorem isEigh_eigen {A V : Matrix (Fin N) (Fin N) ℂ} {w : Fin N → ℝ} (h : IsEigh A w V) (i n : Fin N) :
    ∑ j, A i j * V j n = w n * V i n := by
  have := congrFun (congrFun h.eigen i) n
  rw [mul_apply, mul_diagonal] at this
  rw [this, mul_comm]

/-- Sums of squares in the basis of eigenvectors. -/
theorem isEigh_parseval {A V : Matrix (Fin N) (Fin N) ℂ} {w : Fin N → ℝ} (h : IsEigh A w V) (u : Fin N → ℂ) :
    ∑ n, ‖∑ i, conj (V i n) * u i‖ ^ 2 = ∑ i, ‖u i‖ ^ 2 := by
  have hc : ∀ z : ℂ, ((‖z‖ ^ 2 : ℝ) : ℂ) = conj z * z := fun z => by
    rw [Complex.conj_mul']; push_cast; rfl
  have : ((∑ n, ‖∑ i, conj (V i n) * u i‖ ^ 2 : ℝ) : ℂ) = ((∑ i, ‖u i‖ ^ 2 : ℝ) : ℂ) := by
    rw [Complex.ofReal_sum, Complex.ofReal_sum]
    have e : ∀ n, ((‖∑ i, conj (V i n) * u i‖ ^ 2 : ℝ) : ℂ) =
        ∑ i, ∑ j, V i n * conj (u i) * (conj (V j n) * u j) := by
      intro n
      rw [hc, map_sum, sum_mul_sum]
      simp only [map_mul, Complex.conj_conj]
    rw [sum_congr rfl fun n _ => e n, sum_comm]
    refine sum_congr rfl fun i _ => ?_
    rw [sum_comm, hc]
    have : ∀ j, ∑ n, V i n * conj (u i) * (conj (V j n) * u j) = (if i = j then 1 else 0) * (conj (u i) * u j) := by
      intro j
      rw [← isEigh_complete h i j, sum_mul]
      exact sum_congr rfl fun n _ => by ring
    rw [sum_congr rfl fun j _ => this j]
    simp
  exact_mod_cast this

/-- Near an approximate eigenvalue there is an eigenvalue. -/
theorem isEigh_residual {A V : Matrix (Fin N) (Fin N) ℂ} {w : Fin N → ℝ} (hA : A.IsHermitian) (h : IsEigh A w V)
    (u : Fin N → ℂ) (μ ε : ℝ) (hε : 0 ≤ ε) (hu : 0 < ∑ i, ‖u i‖ ^ 2)
    (hr : ∑ i, ‖∑ j, A i j * u j - μ * u i‖ ^ 2 ≤ ε ^ 2 * ∑ i, ‖u i‖ ^ 2) : ∃ j, |w j - μ| ≤ ε := by
  by_contra hno
  push Not at hno
  have hco : ∀ n, ∑ i, conj (V i n) * (∑ j, A i j * u j - μ * u i) = (w n - μ) * ∑ i, conj (V i n) * u i := by
    intro n
    have e1 : ∑ i, conj (V i n) * ∑ j, A i j * u j = w n * ∑ i, conj (V i n) * u i := by
      simp only [mul_sum]
      rw [sum_comm]
      refine sum_congr rfl fun j _ => ?_
      have := congrArg conj (isEigh_eigen h j n)
      rw [map_sum, map_mul, Complex.conj_ofReal] at this
      rw [← mul_assoc, ← this, sum_mul]
      refine sum_congr rfl fun i _ => ?_
      rw [map_mul, show conj (A j i) = A i j from hA.apply i j]
      ring
    simp only [mul_sub, sum_sub_distrib, e1, sub_mul]
    rw [mul_sum (a := (μ : ℂ))]
    congr 1
    exact sum_congr rfl fun i _ => by ring
  rw [← isEigh_parseval h, ← isEigh_parseval h u, mul_sum] at hr
  simp only [hco, norm_mul, mul_pow] at hr
  rw [← isEigh_parseval h] at hu
  obtain ⟨n, _, hn⟩ : ∃ n ∈ (univ : Finset (Fin N)), 0 < ‖∑ i, conj (V i n) * u i‖ ^ 2 := by
    by_contra hz
    push Not at hz
    exact absurd (sum_nonpos hz) (not_le.2 hu)
  have hlt : ∀ n, ε ^ 2 < ‖(w n : ℂ) - μ‖ ^ 2 := by
    intro n
    rw [← Complex.ofReal_sub, Complex.norm_real, Real.norm_eq_abs]
    exact pow_lt_pow_left₀ (hno n) hε two_ne_zero
  refine absurd hr (not_le.2 (sum_lt_sum (fun m _ => ?_) ⟨n, mem_univ n, ?_⟩))
  · exact mul_le_mul_of_nonneg_right (hlt m).le (sq_nonneg _)
  · exact mul_lt_mul_of_pos_right (hlt n) hn

/-- First-order perturbation theory. -/
theorem eig_first_order (A : ℝ → Matrix (Fin N) (Fin N) ℂ) (A' : Matrix (Fin N) (Fin N) ℂ) (t0 : ℝ)
    (hA : ∀ i j, HasDerivAt (fun t => A t i j) (A' i j) t0) (hH : ∀ t, (A t).IsHermitian)
    (W : ℝ → Fin N → ℝ) (hW : ∀ t, ∃ V, IsEigh (A t) (W t) V) (w : Fin N → ℝ) (V : Matrix (Fin N) (Fin N) ℂ)
    (h0 : IsEigh (A t0) w V) (n : Fin N) (hn : ∀ m, m ≠ n → w m ≠ w n) (ε : ℝ) (hε : 0 < ε) :
    ∀ᶠ t in 𝓝 t0, ∃ j, |W t j - (w n + (t - t0) * (sandwich (fun i => V i n) A' fun i => V i n).re)| ≤ ε * |t - t0| := by
  set μ := (sandwich (fun i => V i n) A' fun i => V i n).re with hμ
  have hA'H : ∀ i j, A' j i = conj (A' i j) := by
    intro i j
    have h1 := (hA i j).star
    have h2 : (fun t => star (A t i j)) = fun t => A t j i := by
      ext t; exact (hH t).apply j i
    rw [h2] at h1
    exact (hA j i).unique h1
  have hμc : sandwich (fun i => V i n) A' (fun i => V i n) = μ := by
    have him : conj (sandwich (fun i => V i n) A' fun i => V i n) = sandwich (fun i => V i n) A' fun i => V i n := by
      unfold sandwich
      simp only [map_sum, map_mul, Complex.conj_conj]
      rw [sum_comm]
      refine sum_congr rfl fun i _ => sum_congr rfl fun j _ => ?_
      rw [← hA'H j i]
      ring
    exact (Complex.conj_eq_iff_re.1 him).symm
  let b : Fin N → ℂ := fun i => ∑ j, A' i j * V j n
  have hb : ∀ m, sandwich (fun i => V i m) A' (fun i => V i n) = ∑ i, conj (V i m) * b i := by
    intro m
    unfold sandwich
    refine sum_congr rfl fun i _ => ?_
    simp only [b, mul_sum]
    exact sum_congr rfl fun j _ => by ring
  let x : Fin N → ℂ := fun i => ∑ m, V i m * (if m = n then 0 else (∑ l, conj (V l m) * b l) / (w n - w m))
  have hx : ∀ i, ∑ j, A t0 i j * x j - w n * x i = μ * V i n - b i := by
    intro i
    have e1 : ∑ j, A t0 i j * x j =
        ∑ m, w m * V i m * (if m = n then 0 else (∑ l, conj (V l m) * b l) / (w n - w m)) := by
      simp only [x, mul_sum]
      rw [sum_comm]
      refine sum_congr rfl fun m _ => ?_
      rw [← isEigh_eigen h0 i m, sum_mul]
      exact sum_congr rfl fun j _ => by ring
    have e2 : b i = ∑ m, V i m * ∑ l, conj (V l m) * b l := by
      simp only [mul_sum]
      rw [sum_comm]
      have : ∀ l, ∑ m, V i m * (conj (V l m) * b l) = (if i = l then 1 else 0) * b l := by
        intro l
        rw [← isEigh_complete h0 i l, sum_mul]
        exact sum_congr rfl fun m _ => by ring
      simp only [this]
      simp
    rw [e1, e2]
    simp only [x]
    rw [mul_sum, ← sum_sub_distrib]
    have e3 : (μ : ℂ) * V i n = ∑ m, if m = n then μ * V i n else 0 := by simp
    rw [e3, ← sum_sub_distrib]
    refine sum_congr rfl fun m _ => ?_
    by_cases hm : m = n
    · subst hm
      rw [if_pos rfl, if_pos rfl, ← hb, hμc]
      ring
    · rw [if_neg hm, if_neg hm]
      have : (w n : ℂ) - w m ≠ 0 := by
        rw [sub_ne_zero]
        exact_mod_cast (hn m hm).symm
      field_simp
      ring
  let u : ℝ → Fin N → ℂ := fun t i => V i n + ((t - t0 : ℝ) : ℂ) * x i
  let r : ℝ → Fin N → ℂ := fun t i => ∑ j, A t i j * u t j - ((w n + (t - t0) * μ : ℝ) : ℂ) * u t i
  have hu0 : ∀ i, u t0 i = V i n := by intro i; simp [u]
  have hud : ∀ i, HasDerivAt (fun t => u t i) (x i) t0 := by
    intro i
    have h1 : HasDerivAt (fun t : ℝ => ((t - t0 : ℝ) : ℂ)) 1 t0 := by
      simpa using ((hasDerivAt_id t0).sub_const t0).ofReal_comp
    have h2 := (h1.mul_const (x i)).const_add (V i n)
    rw [one_mul] at h2
    exact h2
  have hr0 : ∀ i, r t0 i = 0 := by
    intro i
    simp only [r, hu0, isEigh_eigen h0]
    simp
  have hrd : ∀ i, HasDerivAt (fun t => r t i) 0 t0 := by
    intro i
    have h1 : HasDerivAt (fun t => ∑ j, A t i j * u t j) (∑ j, (A' i j * u t0 j + A t0 i j * x j)) t0 :=
      HasDerivAt.fun_sum fun j _ => (hA i j).mul (hud j)
    have h2 : HasDerivAt (fun t : ℝ => ((w n + (t - t0) * μ : ℝ) : ℂ)) ((μ : ℝ) : ℂ) t0 := by
      have : HasDerivAt (fun t : ℝ => w n + (t - t0) * μ) μ t0 := by
        simpa using (((hasDerivAt_id t0).sub_const t0).mul_const μ).const_add (w n)
      exact this.ofReal_comp
    have h3 := h1.sub (h2.mul (hud i))
    have e : ∑ j, (A' i j * u t0 j + A t0 i j * x j) -
        (((μ : ℝ) : ℂ) * u t0 i + ((w n + (t0 - t0) * μ : ℝ) : ℂ) * x i) = 0 := by
      rw [sum_add_distrib]
      simp only [hu0]
      have := hx i
      simp only [b] at this
      simp only [sub_self, zero_mul, add_zero]
      linear_combination this
    rw [← e]
    exact h3
  -- bounds
  have hNpos : 0 < N := Fin.pos n
  set κ : ℝ := ε / (2 * N) with hκ
  have hNr : (0 : ℝ) < N := by exact_mod_cast hNpos
  have hκ0 : 0 < κ := by positivity
  have hsmall : ∀ᶠ t in 𝓝 t0, ∀ i, ‖r t i‖ ≤ κ * |t - t0| := by
    rw [eventually_all]
    intro i
    have := (hasDerivAt_iff_isLittleO.1 (hrd i)).def hκ0
    refine this.mono fun t ht => ?_
    simpa [hr0] using ht
  have hnorm : ∀ᶠ t in 𝓝 t0, (1 / 4 : ℝ) < ∑ i, ‖u t i‖ ^ 2 := by
    have hc : ContinuousAt (fun t => ∑ i, ‖u t i‖ ^ 2) t0 :=
      tendsto_finsetSum _ fun i _ => ((hud i).continuousAt.norm).pow 2
    have h1 : ∑ i, ‖u t0 i‖ ^ 2 = 1 := by
      simp only [hu0]
      have := isEigh_orth h0 n n
      rw [if_pos rfl] at this
      have h2 : ((∑ i, ‖V i n‖ ^ 2 : ℝ) : ℂ) = 1 := by
        rw [← this]
        push_cast
        exact sum_congr rfl fun i _ => (Complex.conj_mul' _).symm
      exact_mod_cast h2
    exact hc.eventually (lt_mem_nhds (by simp only [h1]; norm_num))
  filter_upwards [hsmall, hnorm] with t ht1 ht2
  obtain ⟨U, hU⟩ := hW t
  refine isEigh_residual (hH t) hU (u t) _ (ε * |t - t0|) (by positivity) (by linarith) ?_
  calc ∑ i, ‖∑ j, A t i j * u t j - ((w n + (t - t0) * μ : ℝ) : ℂ) * u t i‖ ^ 2
      ≤ ∑ _i : Fin N, (κ * |t - t0|) ^ 2 := sum_le_sum fun i _ => pow_le_pow_left₀ (norm_nonneg _) (ht1 i) 2
    _ = N * (κ * |t - t0|) ^ 2 := by simp
    _ ≤ (ε * |t - t0|) ^ 2 * (1 / 4) := by
        have : (N : ℝ) * (κ * |t - t0|) ^ 2 = (ε * |t - t0|) ^ 2 * (1 / 4) / N := by
          rw [hκ]
          field_simp
          ring
        rw [this]
        exact div_le_self (by positivity) (by exact_mod_cast hNpos)
    _ ≤ (ε * |t - t0|) ^ 2 * ∑ i, ‖u t i‖ ^ 2 := mul_le_mul_of_nonneg_left ht2.le (sq_nonneg _)

/-- The eigenvalues of a Hermitian matrix which depends differentiably on a parameter can be numbered such that each simple
one is differentiable, with the derivative of first-order perturbation theory. -/
theorem eig_branches (A : ℝ → Matrix (Fin N) (Fin N) ℂ) (A' : Matrix (Fin N) (Fin N) ℂ) (t0 : ℝ)
    (hA : ∀ i j, HasDerivAt (fun t => A t i j) (A' i j) t0) (hH : ∀ t, (A t).IsHermitian)
    (W : ℝ → Fin N → ℝ) (hW : ∀ t, ∃ V, IsEigh (A t) (W t) V) (V : Matrix (Fin N) (Fin N) ℂ)
    (h0 : IsEigh (A t0) (W t0) V) (hinj : Function.Injective (W t0)) :
    ∃ ω : Fin N → ℝ → ℝ, (∀ n, ω n t0 = W t0 n) ∧
      (∀ n, HasDerivAt (ω n) (sandwich (fun i => V i n) A' fun i => V i n).re t0) ∧
      ∀ᶠ t in 𝓝 t0, (List.ofFn fun n => ω n t).Perm (List.ofFn (W t)) := by
  classical
  set μ : Fin N → ℝ := fun n => (sandwich (fun i => V i n) A' fun i => V i n).re with hμ
  have hmin : ∀ n t, ∃ j, ∀ j', |W t j - (W t0 n + (t - t0) * μ n)| ≤ |W t j' - (W t0 n + (t - t0) * μ n)| := by
    intro n t
    haveI : Nonempty (Fin N) := ⟨n⟩
    exact Finite.exists_min fun j => |W t j - (W t0 n + (t - t0) * μ n)|
  choose j hj using hmin
  have hle : ∀ n (ε : ℝ), 0 < ε → ∀ᶠ t in 𝓝 t0, |W t (j n t) - (W t0 n + (t - t0) * μ n)| ≤ ε * |t - t0| := by
    intro n ε hε
    filter_upwards [eig_first_order A A' t0 hA hH W hW (W t0) V h0 n (fun m hm e => hm (hinj e)) ε hε] with t ⟨j', hj'⟩
    exact (hj n t j').trans hj'
  have hz : ∀ n, W t0 (j n t0) = W t0 n := by
    intro n
    have := hj n t0 n
    simp only [sub_self, zero_mul, add_zero, abs_zero] at this
    exact sub_eq_zero.1 (abs_eq_zero.1 (le_antisymm this (abs_nonneg _)))
  have hd : ∀ n, HasDerivAt (fun t => W t (j n t)) (μ n) t0 := by
    intro n
    rw [hasDerivAt_iff_isLittleO, isLittleO_iff]
    intro ε hε
    filter_upwards [hle n ε hε] with t ht
    rw [hz n, Real.norm_eq_abs, Real.norm_eq_abs, smul_eq_mul]
    have e : W t (j n t) - W t0 n - (t - t0) * μ n = W t (j n t) - (W t0 n + (t - t0) * μ n) := by ring
    rw [e]
    exact ht
  refine ⟨fun n t => W t (j n t), hz, hd, ?_⟩
  have hne : ∀ᶠ t in 𝓝 t0, ∀ m n, m ≠ n → W t (j m t) ≠ W t (j n t) := by
    rw [eventually_all]
    intro m
    rw [eventually_all]
    intro n
    by_cases hmn : m = n
    · exact Eventually.of_forall fun t h => absurd hmn h
    · have h1 : ContinuousAt (fun t => W t (j m t) - W t (j n t)) t0 := (hd m).continuousAt.sub (hd n).continuousAt
      have h2 : W t0 (j m t0) - W t0 (j n t0) ≠ 0 := by
        rw [hz, hz, sub_ne_zero]
        exact fun e => hmn (hinj e)
      filter_upwards [h1.eventually_ne h2] with t ht _
      exact sub_ne_zero.1 ht
  filter_upwards [hne] with t ht
  have hji : Function.Injective fun n => j n t := by
    intro m n e
    by_contra hmn
    refine ht m n hmn ?_
    simp only at e
    rw [e]
  let σ : Equiv.Perm (Fin N) := Equiv.ofBijective _ (Finite.injective_iff_bijective.1 hji)
  exact Equiv.Perm.ofFn_comp_perm σ (W t)

end Legume
