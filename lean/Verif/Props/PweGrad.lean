import Verif.Model.PweGrad
import Verif.Lemmas.EigDeriv
import Verif.Props.Primitives
import Verif.Props.PrimToeplitz
import Verif.Props.Supercell
import Mathlib.Analysis.SpecialFunctions.Sqrt
import Mathlib.Analysis.Calculus.Deriv.Abs

/-! # C143: gradients of the frequencies of `PlaneWaveExp` -/
namespace Legume

open Matrix Spec Finset Filter Topology
open scoped ComplexConjugate Real

/-! ### The permittivity matrix -/

theorem toepMat_apply (n p : ℕ) (T1 T2 : ℕ → ℂ) (I J : Fin (n * p)) :
    toepMat n p T1 T2 I J = if (I : ℕ) / p < J / p then (if (J : ℕ) % p ≤ I % p then T2 ((J / p - I / p) * p + (I % p - J % p))
        else T1 ((J / p - I / p) * p + (J % p - I % p)))
      else if (J : ℕ) / p < I / p then conj (if (I : ℕ) % p ≤ J % p then T2 ((I / p - J / p) * p + (J % p - I % p))
        else T1 ((I / p - J / p) * p + (I % p - J % p)))
      else if (I : ℕ) % p = J % p then T2 0 else if (I : ℕ) % p < J % p then T1 (J % p - I % p)
      else conj (T1 (I % p - J % p)) := by
  have hp : 0 < p := by
    rcases Nat.eq_zero_or_pos p with h | h
    · subst h
      exact absurd I.2 (by simp)
    · exact h
  have h := toeplitzBlock_blocks n p T1 T2 (I / p) (J / p) (I % p) (J % p)
    ((Nat.div_lt_iff_lt_mul hp).2 I.2) ((Nat.div_lt_iff_lt_mul hp).2 J.2) (Nat.mod_lt _ hp) (Nat.mod_lt _ hp)
  have e : ∀ x : ℕ, x / p * p + x % p = x := fun x => by rw [mul_comm]; exact Nat.div_add_mod x p
  rw [e, e] at h
  exact h

theorem toepMat_hermitian (n p : ℕ) (T1 T2 : ℕ → ℂ) (hT : ToeplitzConsistent n p T1 T2) :
    (toepMat n p T1 T2).IsHermitian := by
  ext I J
  have hp : 0 < p := by
    rcases Nat.eq_zero_or_pos p with h | h
    · subst h
      exact absurd I.2 (by simp)
    · exact h
  have hn : 0 < n := by
    rcases Nat.eq_zero_or_pos n with h | h
    · subst h
      exact absurd I.2 (by simp)
    · exact h
  have h0 : conj (T2 0) = T2 0 := by
    have h1 := hT.1 0 hn
    have h2 := hT.2 0 hp
    rw [zero_mul] at h1
    rw [h1] at h2 ⊢
    exact h2.symm
  rw [conjTranspose_apply, RCLike.star_def, toepMat_apply, toepMat_apply]
  rcases lt_trichotomy ((I : ℕ) / p) (J / p) with h | h | h
  · rw [if_neg (not_lt.2 h.le), if_pos h, if_pos h, Complex.conj_conj]
  · have a1 : ¬ (J : ℕ) / p < I / p := by omega
    have a2 : ¬ (I : ℕ) / p < J / p := by omega
    simp only [if_neg a1, if_neg a2]
    rcases lt_trichotomy ((I : ℕ) % p) (J % p) with h' | h' | h'
    · simp only [if_neg h'.ne, if_neg h'.ne', if_neg h'.not_gt, if_pos h', Complex.conj_conj]
    · rw [if_pos h'.symm, if_pos h', h0]
    · simp only [if_neg h'.ne, if_neg h'.ne', if_neg h'.not_gt, if_pos h']
  · rw [if_pos h, if_neg (not_lt.2 h.le), if_pos h]

theorem toepMat_deriv (n p : ℕ) (T1 T2 : ℝ → ℕ → ℂ) (D1 D2 : ℕ → ℂ) (t0 : ℝ)
    (h1 : ∀ m, HasDerivAt (fun t => T1 t m) (D1 m) t0) (h2 : ∀ m, HasDerivAt (fun t => T2 t m) (D2 m) t0)
    (I J : Fin (n * p)) :
    HasDerivAt (fun t => toepMat n p (T1 t) (T2 t) I J) (toepMat n p D1 D2 I J) t0 := by
  simp only [toepMat_apply]
  split_ifs
  · exact h2 _
  · exact h1 _
  · exact (h2 _).star
  · exact (h1 _).star
  · exact h2 _
  · exact h1 _
  · exact (h1 _).star

theorem consistent_deriv (n p : ℕ) (T1 T2 : ℝ → ℕ → ℂ) (D1 D2 : ℕ → ℂ) (t0 : ℝ)
    (h1 : ∀ m, HasDerivAt (fun t => T1 t m) (D1 m) t0) (h2 : ∀ m, HasDerivAt (fun t => T2 t m) (D2 m) t0)
    (hT : ∀ t, ToeplitzConsistent n p (T1 t) (T2 t)) : ToeplitzConsistent n p D1 D2 := by
  constructor
  · intro d hd
    refine (h2 (d * p)).unique ?_
    have : (fun t => T2 t (d * p)) = fun t => T1 t (d * p) := funext fun t => (hT t).1 d hd
    rw [this]
    exact h1 _
  · intro m hm
    refine (h2 m).unique ?_
    have : (fun t => T2 t m) = fun t => star (T1 t m) := funext fun t => (hT t).2 m hm
    rw [this]
    exact (h1 m).star

/-! ### The backward pass -/

theorem pweMat_factor {N : ℕ} (pol : Pol) (k : R2) (gvec : Fin N → R2) (B : Matrix (Fin N) (Fin N) ℂ) (i j : Fin N) :
    pweMat pol k gvec B i j = (pweFactor pol k gvec i j : ℂ) * B i j := by
  cases pol <;> simp [pweMat, pweFactor]

theorem sum_entryOf {N : ℕ} (A : Matrix (Fin N) (Fin N) ℂ) (B : ℕ → ℕ → ℂ) :
    ∑ I ∈ range N, ∑ J ∈ range N, entryOf A I J * B I J = ∑ I : Fin N, ∑ J : Fin N, A I J * B I J := by
  rw [Finset.sum_range]
  refine sum_congr rfl fun I _ => ?_
  rw [Finset.sum_range]
  refine sum_congr rfl fun J _ => ?_
  simp [entryOf, I.2, J.2]

/-- What the gradients of the samples say about a change of the samples. -/
theorem backSamples_pair {n p K : ℕ} (hn : 0 < n) (pol : Pol) (gvec : Fin (n * p) → R2) (k : Fin K → R2)
    (B : Matrix (Fin (n * p)) (Fin (n * p)) ℂ) (w : Fin K → Fin (n * p) → ℝ)
    (v : Fin K → Matrix (Fin (n * p)) (Fin (n * p)) ℂ) (wg : Fin K → Fin (n * p) → ℝ) (D1 D2 : ℕ → ℂ)
    (hD : ToeplitzConsistent n p D1 D2) :
    (∑ m ∈ range (n * p), (backSamples n p B (backInv pol gvec k w v wg)).1 m * D1 m +
        ∑ m ∈ range (n * p), (backSamples n p B (backInv pol gvec k w v wg)).2 m * D2 m).re =
      ∑ q, pairMat (vjpEigh false (w q) (v q) (wg q) 0)
        (of fun i j => (pweFactor pol (k q) gvec i j : ℂ) * (-(B * toepMat n p D1 D2 * B)) i j) := by
  simp only [backSamples]
  rw [C47_directional n p hn _ D1 D2 hD, sum_entryOf]
  have e : (∑ I : Fin (n * p), ∑ J : Fin (n * p), vjpInv B (backInv pol gvec k w v wg) I J *
      toeplitzBlock n (n * p) false D1 D2 I J) =
      ∑ I, ∑ J, backInv pol gvec k w v wg I J * (-(B * toepMat n p D1 D2 * B)) I J :=
    C49_pairing B (backInv pol gvec k w v wg) (toepMat n p D1 D2)
  rw [e]
  simp only [pairMat, backInv, of_apply, sum_mul, Complex.re_sum]
  rw [sum_congr rfl fun I _ => sum_comm, sum_comm]
  refine sum_congr rfl fun q _ => sum_congr rfl fun I _ => sum_congr rfl fun J _ => ?_
  congr 1
  ring

/-! ### Returned frequencies as functions of a parameter -/

theorem sortedFreqs_eq {w : List ℝ} {l : List ℝ} (hp : l.Perm (w.map freqOf)) (hs : l.Pairwise (· ≤ ·)) :
    sortedFreqs w = l :=
  ((sortedFreqs_perm w).trans hp.symm).eq_of_pairwise (fun _ _ _ _ => le_antisymm) (sortedFreqs_sorted w) hs

theorem ofFn_map_getD {N : ℕ} (w : Fin N → ℝ) (m : ℕ) (hm : m < N) :
    ((List.ofFn w).map freqOf).getD m 0 = freqOf (w ⟨m, hm⟩) := by
  rw [List.getD_eq_getElem?_getD, List.getElem?_eq_getElem (by simpa using hm), Option.getD_some]
  simp

theorem freqOf_deriv {ω : ℝ → ℝ} {ω' t0 : ℝ} (h : HasDerivAt ω ω' t0) (hne : ω t0 ≠ 1) :
    HasDerivAt (fun t => freqOf (ω t)) (((ω t0 - 1) / |ω t0 - 1| * ω') / (2 * √|ω t0 - 1|) / 2 / π) t0 := by
  have h0 : ω t0 - 1 ≠ 0 := sub_ne_zero.2 hne
  have h1 : HasDerivAt (fun t => ω t - 1) ω' t0 := h.sub_const 1
  have h2 : HasDerivAt (fun t => |ω t - 1|) ((ω t0 - 1) / |ω t0 - 1| * ω') t0 := by
    rcases lt_or_gt_of_ne h0 with hn | hp
    · have := ((hasDerivAt_abs_neg hn).comp t0 h1)
      rw [abs_of_neg hn, div_neg, div_self h0]
      exact this
    · have := ((hasDerivAt_abs_pos hp).comp t0 h1)
      rw [abs_of_pos hp, div_self h0]
      exact this
  exact ((h2.sqrt (abs_ne_zero.2 h0)).div_const 2).div_const π

/-- If all frequencies are different, each returned one follows one eigenvalue. -/
theorem returned_follow {N : ℕ} (argsort : List ℝ → List ℕ) (hs : ∀ l, IsArgsort l (argsort l)) (W : ℝ → Fin N → ℝ) (t0 : ℝ)
    (ω : Fin N → ℝ → ℝ) (h0 : ∀ n, ω n t0 = W t0 n) (hc : ∀ n, ContinuousAt (ω n) t0)
    (hp : ∀ᶠ t in 𝓝 t0, (List.ofFn fun n => ω n t).Perm (List.ofFn (W t)))
    (hinj : Function.Injective fun n => freqOf (W t0 n)) (numeig : ℕ) :
    ∀ᶠ t in 𝓝 t0, (solvePwe argsort (List.ofFn (W t)) numeig).freq =
      ((argsort ((List.ofFn (W t0)).map freqOf)).take numeig).map fun (i : ℕ) =>
        if h : i < N then freqOf (ω ⟨i, h⟩ t) else 0 := by
  set sel := argsort ((List.ofFn (W t0)).map freqOf) with hsel
  obtain ⟨s1, s2⟩ := hs ((List.ofFn (W t0)).map freqOf)
  rw [List.length_map, List.length_ofFn] at s1
  rw [← hsel] at s1 s2
  have hlt : ∀ i ∈ sel, i < N := fun i hi => List.mem_range.1 (s1.mem_iff.1 hi)
  have hnd : sel.Nodup := s1.nodup_iff.2 List.nodup_range
  have hfc : ∀ n, ContinuousAt (fun t => freqOf (ω n t)) t0 := by
    intro n
    unfold freqOf
    exact ((((hc n).sub continuousAt_const).abs.sqrt).div_const 2).div_const π
  have hord : ∀ᶠ t in 𝓝 t0, ∀ m n, freqOf (W t0 m) < freqOf (W t0 n) → freqOf (ω m t) < freqOf (ω n t) := by
    rw [eventually_all]
    intro m
    rw [eventually_all]
    intro n
    by_cases hmn : freqOf (W t0 m) < freqOf (W t0 n)
    · have h := (hfc m).eventually_lt (hfc n) (by simpa only [h0] using hmn)
      filter_upwards [h] with t ht _ using ht
    · exact Eventually.of_forall fun t h => absurd h hmn
  filter_upwards [hp, hord] with t ht1 ht2
  rw [solvePwe_sortedFreqs argsort hs, List.map_take]
  congr 1
  refine sortedFreqs_eq ?_ ?_
  · refine List.Perm.trans ?_ (ht1.map freqOf)
    refine (s1.map _).trans (List.Perm.of_eq ?_)
    apply List.ext_getElem
    · simp
    · intro i hi hi'
      have hiN : i < N := by simpa using hi
      simp [hiN]
  · rw [List.pairwise_map] at s2 ⊢
    have s3 := s2.and hnd
    refine List.pairwise_iff_forall_sublist.2 ?_
    intro a b hab
    obtain ⟨hle, hne⟩ := List.pairwise_iff_forall_sublist.1 s3 hab
    have ha : a < N := hlt a (hab.subset List.mem_cons_self)
    have hb : b < N := hlt b (hab.subset (List.mem_cons_of_mem _ List.mem_cons_self))
    rw [dif_pos ha, dif_pos hb]
    rw [ofFn_map_getD _ _ ha, ofFn_map_getD _ _ hb] at hle
    refine (ht2 _ _ (lt_of_le_of_ne hle fun e => hne ?_)).le
    have := hinj e
    simpa using this

/-! ### The gradient -/

/-- The relative size of the gradient computed for a square root whose value is `2 π f`. -/
noncomputable def sqrtRatio (f : ℝ) : ℝ := √((2 * π * f) ^ 2 / ((2 * π * f) ^ 2 + 1e-10))

theorem vjpSqrt_ratio (x : ℝ) (hx : 0 < x) : vjpSqrt x = √(x / (x + 1e-10)) / (2 * √x) := by
  have hp : 0 < x + 1e-10 := by linarith [show (0 : ℝ) < 1e-10 by norm_num]
  have h1 : vjpSqrt x = 1 / (2 * √(x + 1e-10)) :=
    (C70_shifted x hx.le).unique (by simpa using Real.hasDerivAt_sqrt hp.ne')
  rw [h1, Real.sqrt_div hx.le]
  have := (Real.sqrt_pos.2 hx).ne'
  have := (Real.sqrt_pos.2 hp).ne'
  field_simp

theorem sqrtRatio_freq (w : ℝ) (hw : w ≠ 1) : sqrtRatio (freqOf w) = √(|w - 1| / (|w - 1| + 1e-10)) := by
  unfold sqrtRatio freqOf
  have : (2 * π * (√|w - 1| / 2 / π)) ^ 2 = |w - 1| := by
    have hp := Real.pi_ne_zero
    have e : 2 * π * (√|w - 1| / 2 / π) = √|w - 1| := by field_simp
    rw [e, Real.sq_sqrt (abs_nonneg _)]
  rw [this]

/-- It is below one, and close to one unless the frequency is very small. -/
theorem sqrtRatio_bounds (f : ℝ) (hf : f ≠ 0) :
    0 < sqrtRatio f ∧ sqrtRatio f < 1 ∧ 1 - sqrtRatio f ≤ 1e-10 / (2 * π * f) ^ 2 := by
  have hx : 0 < (2 * π * f) ^ 2 := by
    have : 2 * π * f ≠ 0 := mul_ne_zero (mul_ne_zero two_ne_zero Real.pi_ne_zero) hf
    positivity
  set x := (2 * π * f) ^ 2 with hxd
  have hd : (0 : ℝ) < 1e-10 := by norm_num
  have hp : 0 < x + 1e-10 := by linarith
  have hy0 : 0 < x / (x + 1e-10) := by positivity
  have hy1 : x / (x + 1e-10) < 1 := by rw [div_lt_one hp]; linarith
  unfold sqrtRatio
  rw [← hxd]
  have h1 : √(x / (x + 1e-10)) < 1 := by
    rw [Real.sqrt_lt' one_pos]
    simpa using hy1
  refine ⟨Real.sqrt_pos.2 hy0, h1, ?_⟩
  have h2 : x / (x + 1e-10) ≤ √(x / (x + 1e-10)) := by
    have := Real.sq_sqrt hy0.le
    nlinarith [Real.sqrt_nonneg (x / (x + 1e-10))]
  have h3 : 1 - x / (x + 1e-10) ≤ 1e-10 / x := by
    rw [one_sub_div hp.ne', add_sub_cancel_left]
    exact div_le_div_of_nonneg_left hd.le hx (by linarith)
  linarith

/-- The `i`-th frequency returned at one wave vector for given samples of the permittivity. -/
noncomputable def pweFreqAt (argsort : List ℝ → List ℕ) (eigh : ∀ n, Matrix (Fin n) (Fin n) ℂ → Fin n → ℝ) {N : ℕ} (pol : Pol)
    (gvec : Fin N → R2) (k : R2) (E : Matrix (Fin N) (Fin N) ℂ) (numeig i : ℕ) : ℝ :=
  (solvePwe argsort (List.ofFn (eigh N (pweMat pol k gvec E⁻¹ + 1))) numeig).freq.getD i 0

/-- **C143 (gradients of frequencies).** Let the samples `T1`, `T2` of the permittivity depend differentiably on a parameter,
let the permittivity matrix be invertible and let the frequencies at each wave vector be different from each other. Consider
an objective with the gradients `c` with respect to returned frequencies that are not zero. Then these frequencies are
differentiable, and the gradients with respect to the samples which the registered rules give, paired with the derivatives of
the samples, are the sum of the derivatives of the frequencies times `c` and a factor between 0 and 1 which differs from 1 by
at most `1e-10 / (2 π f)²`. -/
theorem C143_gradient (argsort : List ℝ → List ℕ) (hs : ∀ l, IsArgsort l (argsort l))
    (eigh : ∀ n, Matrix (Fin n) (Fin n) ℂ → Fin n → ℝ) (he : GoodEigh eigh) {n p K : ℕ} (hn : 0 < n)
    (T1 T2 : ℝ → ℕ → ℂ) (D1 D2 : ℕ → ℂ) (t0 : ℝ)
    (h1 : ∀ m, HasDerivAt (fun t => T1 t m) (D1 m) t0) (h2 : ∀ m, HasDerivAt (fun t => T2 t m) (D2 m) t0)
    (hT : ∀ t, ToeplitzConsistent n p (T1 t) (T2 t)) (hdet : (toepMat n p (T1 t0) (T2 t0)).det ≠ 0)
    (pol : Pol) (gvec : Fin (n * p) → R2) (k : Fin K → R2) (numeig : ℕ) (c : Fin K → ℕ → ℝ)
    (V : Fin K → Matrix (Fin (n * p)) (Fin (n * p)) ℂ)
    (hV : ∀ q, IsEigh (pweMat pol (k q) gvec (toepMat n p (T1 t0) (T2 t0))⁻¹ + 1)
      (eigh _ (pweMat pol (k q) gvec (toepMat n p (T1 t0) (T2 t0))⁻¹ + 1)) (V q))
    (hinj : ∀ q, Function.Injective fun m =>
      freqOf (eigh _ (pweMat pol (k q) gvec (toepMat n p (T1 t0) (T2 t0))⁻¹ + 1) m))
    (hz : ∀ q i, c q i ≠ 0 → pweFreqAt argsort eigh pol gvec (k q) (toepMat n p (T1 t0) (T2 t0)) numeig i ≠ 0) :
    ∃ f' : Fin K → ℕ → ℝ,
      (∀ q i, c q i ≠ 0 → HasDerivAt (fun t =>
        pweFreqAt argsort eigh pol gvec (k q) (toepMat n p (T1 t) (T2 t)) numeig i) (f' q i) t0) ∧
      (∑ m ∈ range (n * p), (pweBackward argsort pol gvec k (toepMat n p (T1 t0) (T2 t0))⁻¹
          (fun q => eigh _ (pweMat pol (k q) gvec (toepMat n p (T1 t0) (T2 t0))⁻¹ + 1)) V numeig c).1 m * D1 m +
        ∑ m ∈ range (n * p), (pweBackward argsort pol gvec k (toepMat n p (T1 t0) (T2 t0))⁻¹
          (fun q => eigh _ (pweMat pol (k q) gvec (toepMat n p (T1 t0) (T2 t0))⁻¹ + 1)) V numeig c).2 m * D2 m).re =
        ∑ q, ∑ i ∈ range numeig, c q i *
          sqrtRatio (pweFreqAt argsort eigh pol gvec (k q) (toepMat n p (T1 t0) (T2 t0)) numeig i) * f' q i := by
  classical
  set E : ℝ → Matrix (Fin (n * p)) (Fin (n * p)) ℂ := fun t => toepMat n p (T1 t) (T2 t) with hE
  set A : Fin K → ℝ → Matrix (Fin (n * p)) (Fin (n * p)) ℂ := fun q t => pweMat pol (k q) gvec (E t)⁻¹ + 1 with hA
  set W : Fin K → ℝ → Fin (n * p) → ℝ := fun q t => eigh _ (A q t) with hW
  set A' : Fin K → Matrix (Fin (n * p)) (Fin (n * p)) ℂ := fun q =>
    of fun i j => (pweFactor pol (k q) gvec i j : ℂ) * (-((E t0)⁻¹ * toepMat n p D1 D2 * (E t0)⁻¹)) i j with hA'
  have hu : IsUnit (E t0) := (Matrix.isUnit_iff_isUnit_det _).mpr (isUnit_iff_ne_zero.mpr hdet)
  have hAd : ∀ q i j, HasDerivAt (fun t => A q t i j) (A' q i j) t0 := by
    intro q i j
    have := ((inv_deriv E (toepMat n p D1 D2) t0 (fun i j => toepMat_deriv n p T1 T2 D1 D2 t0 h1 h2 i j) hu i j).const_mul
      (pweFactor pol (k q) gvec i j : ℂ)).add_const ((1 : Matrix (Fin (n * p)) (Fin (n * p)) ℂ) i j)
    simp only [A, Matrix.add_apply, pweMat_factor]
    exact this
  have hAH : ∀ q t, (A q t).IsHermitian := fun q t =>
    pweMat_hermitian pol (k q) gvec _ (toepMat_hermitian n p _ _ (hT t)).inv
  have hAe : ∀ q t, ∃ U, IsEigh (A q t) (W q t) U := fun q t => he _ _ (hAH q t)
  have hWinj : ∀ q, Function.Injective (W q t0) := fun q a b e => hinj q (congrArg freqOf e)
  have hbr := fun q => eig_branches (A q) (A' q) t0 (hAd q) (hAH q) (W q) (hAe q) (V q) (hV q) (hWinj q)
  choose ω hω0 hωd hωp using hbr
  set μ : Fin K → Fin (n * p) → ℝ := fun q m => (sandwich (fun i => V q i m) (A' q) fun i => V q i m).re with hμ
  set sel : Fin K → List ℕ := fun q => (argsort ((List.ofFn (W q t0)).map freqOf)).take numeig with hsel
  have hselN : ∀ q, ∀ i ∈ sel q, i < n * p := by
    intro q i hi
    have := (hs ((List.ofFn (W q t0)).map freqOf)).1.mem_iff.1 (List.mem_of_mem_take hi)
    simpa using this
  have hfreq := fun q => returned_follow argsort hs (W q) t0 (ω q) (hω0 q) (fun m => (hωd q m).continuousAt) (hωp q)
    (hinj q) numeig
  have hlen : ∀ q, (sel q).length ≤ numeig := fun q => by simp [hsel]
  -- the returned frequency follows one eigenvalue
  have hret : ∀ q i (hi : i < (sel q).length), ∀ᶠ t in 𝓝 t0,
      pweFreqAt argsort eigh pol gvec (k q) (E t) numeig i = freqOf (ω q ⟨(sel q)[i], hselN q _ (List.getElem_mem hi)⟩ t) := by
    intro q i hi
    filter_upwards [hfreq q] with t ht
    unfold pweFreqAt
    change (solvePwe argsort (List.ofFn (W q t)) numeig).freq.getD i 0 = _
    rw [ht, List.getD_eq_getElem?_getD, List.getElem?_eq_getElem (by rw [List.length_map]; exact hi), Option.getD_some,
      List.getElem_map]
    rw [dif_pos (hselN q _ (List.getElem_mem hi))]
  have hret0 : ∀ q i (hi : i < (sel q).length), pweFreqAt argsort eigh pol gvec (k q) (E t0) numeig i =
      freqOf (W q t0 ⟨(sel q)[i], hselN q _ (List.getElem_mem hi)⟩) := by
    intro q i hi
    rw [(hret q i hi).self_of_nhds, hω0]
  have hcut : ∀ q i, ¬ i < (sel q).length → c q i = 0 := by
    intro q i hi
    by_contra hc
    apply hz q i hc
    have := (hfreq q).self_of_nhds
    unfold pweFreqAt
    change (solvePwe argsort (List.ofFn (W q t0)) numeig).freq.getD i 0 = 0
    rw [this, List.getD_eq_getElem?_getD, List.getElem?_eq_none (by rw [List.length_map]; exact not_lt.1 hi),
      Option.getD_none]
  have hne1 : ∀ q i (hi : i < (sel q).length), c q i ≠ 0 → W q t0 ⟨(sel q)[i], hselN q _ (List.getElem_mem hi)⟩ ≠ 1 := by
    intro q i hi hc e
    apply hz q i hc
    rw [hret0 q i hi, e]
    simp [freqOf]
  let g : Fin K → Fin (n * p) → ℝ := fun q m => ((W q t0 m - 1) / |W q t0 m - 1| * μ q m) / (2 * √|W q t0 m - 1|) / 2 / π
  refine ⟨fun q i => if hi : i < (sel q).length then g q ⟨(sel q)[i], hselN q _ (List.getElem_mem hi)⟩ else 0, ?_, ?_⟩
  · intro q i hc
    have hi : i < (sel q).length := by
      by_contra hno
      exact hc (hcut q i hno)
    simp only [dif_pos hi]
    have h3 := freqOf_deriv (hωd q ⟨(sel q)[i], hselN q _ (List.getElem_mem hi)⟩)
      (by rw [hω0]; exact hne1 q i hi hc)
    rw [hω0] at h3
    exact h3.congr_of_eventuallyEq (hret q i hi)
  · have hpair := backSamples_pair hn pol gvec k (E t0)⁻¹ (fun q => W q t0) V
      (fun q => backFreq (W q t0) (sel q) (c q)) D1 D2 (consistent_deriv n p T1 T2 D1 D2 t0 h1 h2 hT)
    refine Eq.trans hpair ?_
    refine sum_congr rfl fun q _ => ?_
    have hA'H : ∀ i j, A' q j i = conj (A' q i j) := by
      intro i j
      have e1 := (hAd q i j).star
      have e2 : (fun t => star (A q t i j)) = fun t => A q t j i := by
        ext t; exact (hAH q t).apply j i
      rw [e2] at e1
      exact (hAd q j i).unique e1
    rw [C48_eigenvalues false (W q t0) (V q) (A' q) _ hA'H]
    change ∑ m, backFreq (W q t0) (sel q) (c q) m * μ q m = _
    -- sum over the returned frequencies
    have hR : ∑ i ∈ range numeig, c q i * sqrtRatio (pweFreqAt argsort eigh pol gvec (k q) (E t0) numeig i) *
        (if hi : i < (sel q).length then g q ⟨(sel q)[i], hselN q _ (List.getElem_mem hi)⟩ else 0) =
        ∑ i ∈ range (sel q).length, c q i * sqrtRatio (pweFreqAt argsort eigh pol gvec (k q) (E t0) numeig i) *
        (if hi : i < (sel q).length then g q ⟨(sel q)[i], hselN q _ (List.getElem_mem hi)⟩ else 0) := by
      symm
      refine sum_subset (range_mono (hlen q)) fun i _ hi => ?_
      rw [hcut q i (by simpa using hi), zero_mul, zero_mul]
    refine Eq.trans ?_ hR.symm
    have hL : ∀ m, backFreq (W q t0) (sel q) (c q) m * μ q m = ∑ i ∈ range (sel q).length,
        if (sel q).getD i 0 = (m : ℕ) then
          c q i / π / 2 * vjpSqrt |W q t0 m - 1| * ((W q t0 m - 1) / |W q t0 m - 1|) * μ q m else 0 := by
      intro m
      unfold backFreq
      rw [sum_div, sum_div, sum_mul, sum_mul, sum_mul]
      refine sum_congr rfl fun i _ => ?_
      split_ifs <;> simp
    simp only [hL]
    rw [sum_comm]
    refine sum_congr rfl fun i hi => ?_
    have hi' : i < (sel q).length := mem_range.1 hi
    rw [dif_pos hi']
    set m0 : Fin (n * p) := ⟨(sel q)[i], hselN q _ (List.getElem_mem hi')⟩ with hm0
    have hget : (sel q).getD i 0 = (m0 : ℕ) := by
      rw [List.getD_eq_getElem?_getD, List.getElem?_eq_getElem hi', Option.getD_some]
    have hiff : ∀ m : Fin (n * p), (sel q).getD i 0 = (m : ℕ) ↔ m0 = m := by
      intro m
      rw [hget, Fin.ext_iff]
    simp only [hiff, sum_ite_eq, mem_univ, if_true]
    by_cases hc : c q i = 0
    · simp [hc]
    · have hw1 := hne1 q i hi' hc
      have hpos : 0 < |W q t0 m0 - 1| := abs_pos.2 (sub_ne_zero.2 hw1)
      rw [hret0 q i hi', sqrtRatio_freq _ hw1, vjpSqrt_ratio _ hpos]
      simp only [g]
      ring

/-- **C143 (error).** Under the same hypotheses the objective `∑ c f` has a derivative with respect to the parameter, and the
number which the registered rules give differs from it by at most `∑ |c f'| 1e-10 / (2 π f)²`. -/
theorem C143_error (argsort : List ℝ → List ℕ) (hs : ∀ l, IsArgsort l (argsort l))
    (eigh : ∀ n, Matrix (Fin n) (Fin n) ℂ → Fin n → ℝ) (he : GoodEigh eigh) {n p K : ℕ} (hn : 0 < n)
    (T1 T2 : ℝ → ℕ → ℂ) (D1 D2 : ℕ → ℂ) (t0 : ℝ)
    (h1 : ∀ m, HasDerivAt (fun t => T1 t m) (D1 m) t0) (h2 : ∀ m, HasDerivAt (fun t => T2 t m) (D2 m) t0)
    (hT : ∀ t, ToeplitzConsistent n p (T1 t) (T2 t)) (hdet : (toepMat n p (T1 t0) (T2 t0)).det ≠ 0)
    (pol : Pol) (gvec : Fin (n * p) → R2) (k : Fin K → R2) (numeig : ℕ) (c : Fin K → ℕ → ℝ)
    (V : Fin K → Matrix (Fin (n * p)) (Fin (n * p)) ℂ)
    (hV : ∀ q, IsEigh (pweMat pol (k q) gvec (toepMat n p (T1 t0) (T2 t0))⁻¹ + 1)
      (eigh _ (pweMat pol (k q) gvec (toepMat n p (T1 t0) (T2 t0))⁻¹ + 1)) (V q))
    (hinj : ∀ q, Function.Injective fun m =>
      freqOf (eigh _ (pweMat pol (k q) gvec (toepMat n p (T1 t0) (T2 t0))⁻¹ + 1) m))
    (hz : ∀ q i, c q i ≠ 0 → pweFreqAt argsort eigh pol gvec (k q) (toepMat n p (T1 t0) (T2 t0)) numeig i ≠ 0) :
    ∃ f' : Fin K → ℕ → ℝ,
      HasDerivAt (fun t => ∑ q, ∑ i ∈ range numeig, c q i *
        pweFreqAt argsort eigh pol gvec (k q) (toepMat n p (T1 t) (T2 t)) numeig i)
        (∑ q, ∑ i ∈ range numeig, c q i * f' q i) t0 ∧
      (∀ q i, c q i ≠ 0 → HasDerivAt (fun t =>
        pweFreqAt argsort eigh pol gvec (k q) (toepMat n p (T1 t) (T2 t)) numeig i) (f' q i) t0) ∧
      |(∑ m ∈ range (n * p), (pweBackward argsort pol gvec k (toepMat n p (T1 t0) (T2 t0))⁻¹
          (fun q => eigh _ (pweMat pol (k q) gvec (toepMat n p (T1 t0) (T2 t0))⁻¹ + 1)) V numeig c).1 m * D1 m +
        ∑ m ∈ range (n * p), (pweBackward argsort pol gvec k (toepMat n p (T1 t0) (T2 t0))⁻¹
          (fun q => eigh _ (pweMat pol (k q) gvec (toepMat n p (T1 t0) (T2 t0))⁻¹ + 1)) V numeig c).2 m * D2 m).re -
        ∑ q, ∑ i ∈ range numeig, c q i * f' q i| ≤
      ∑ q, ∑ i ∈ range numeig, |c q i * f' q i| * (1e-10 /
        (2 * π * pweFreqAt argsort eigh pol gvec (k q) (toepMat n p (T1 t0) (T2 t0)) numeig i) ^ 2) := by
  obtain ⟨f', hf, hsum⟩ := C143_gradient argsort hs eigh he hn T1 T2 D1 D2 t0 h1 h2 hT hdet pol gvec k numeig c V hV hinj hz
  refine ⟨f', ?_, hf, ?_⟩
  · refine HasDerivAt.fun_sum fun q _ => HasDerivAt.fun_sum fun i _ => ?_
    by_cases hc : c q i = 0
    · simp only [hc, zero_mul]
      exact hasDerivAt_const t0 0
    · exact (hf q i hc).const_mul _
  · rw [hsum, ← sum_sub_distrib]
    refine (abs_sum_le_sum_abs _ _).trans (sum_le_sum fun q _ => ?_)
    rw [← sum_sub_distrib]
    refine (abs_sum_le_sum_abs _ _).trans (sum_le_sum fun i _ => ?_)
    by_cases hc : c q i = 0
    · simp [hc]
    · obtain ⟨b1, b2, b3⟩ := sqrtRatio_bounds _ (hz q i hc)
      set r := sqrtRatio (pweFreqAt argsort eigh pol gvec (k q) (toepMat n p (T1 t0) (T2 t0)) numeig i)
      have e : c q i * r * f' q i - c q i * f' q i = c q i * f' q i * -(1 - r) := by ring
      rw [e, abs_mul, abs_neg, abs_of_pos (show (0 : ℝ) < 1 - r by linarith)]
      exact mul_le_mul_of_nonneg_left b3 (abs_nonneg _)

/-- The permittivity matrix of one plane wave. -/
theorem toepMat_one (t : ℝ) : toepMat 1 1 (fun _ => (t : ℂ)) (fun _ => (t : ℂ)) = (t : ℂ) • 1 := by
  ext I J
  have hsub : Subsingleton (Fin (1 * 1)) := inferInstanceAs (Subsingleton (Fin 1))
  rw [toepMat_apply]
  obtain rfl : I = J := Subsingleton.elim _ _
  simp

/-- One plane wave in a homogeneous medium whose permittivity is the parameter, at the permittivity 2. -/
example (argsort : List ℝ → List ℕ) (hs : ∀ l, IsArgsort l (argsort l))
    (eigh : ∀ n, Matrix (Fin n) (Fin n) ℂ → Fin n → ℝ) (he : GoodEigh eigh) :
    ∃ f' : ℝ, HasDerivAt (fun t : ℝ => pweFreqAt argsort eigh .te (fun _ => (0, 0)) (1, 0)
      (toepMat 1 1 (fun _ => (t : ℂ)) fun _ => (t : ℂ)) 1 0) f' 2 := by
  have hT : ∀ t : ℝ, ToeplitzConsistent 1 1 (fun _ => (t : ℂ)) fun _ => (t : ℂ) := fun t =>
    ⟨fun d _ => rfl, fun m _ => (Complex.conj_ofReal t).symm⟩
  have hsub : Subsingleton (Fin (1 * 1)) := inferInstanceAs (Subsingleton (Fin 1))
  set E : Matrix (Fin (1 * 1)) (Fin (1 * 1)) ℂ := toepMat 1 1 (fun _ => ((2 : ℝ) : ℂ)) (fun _ => ((2 : ℝ) : ℂ)) with hEd
  have hE : E = (2 : ℂ) • 1 := by rw [hEd, toepMat_one]; simp
  have hEi : E⁻¹ = (1 / 2 : ℂ) • 1 := by
    apply Matrix.inv_eq_right_inv
    rw [hE]
    simp [smul_smul]
  have hdet : E.det ≠ 0 := by
    rw [hE, Matrix.det_smul]
    simp
  have hH : (pweMat .te (1, 0) (fun _ => (0, 0)) E⁻¹ + 1).IsHermitian :=
    pweMat_hermitian .te (1, 0) _ _ (toepMat_hermitian 1 1 _ _ (hT 2)).inv
  obtain ⟨V, hV⟩ := he _ _ hH
  have hw : ∀ m, eigh _ (pweMat .te (1, 0) (fun _ => (0, 0)) E⁻¹ + 1) m = 3 / 2 := by
    intro m
    have h1 := isEigh_eigen hV m m
    have h2 := congrFun (congrFun hV.unitary m) m
    rw [Finset.sum_eq_single m (fun b _ hb => absurd (Subsingleton.elim b m) hb) (fun h => absurd (mem_univ m) h),
      Matrix.add_apply, pweMat_factor, hEi] at h1
    rw [mul_apply, Finset.sum_eq_single m (fun b _ hb => absurd (Subsingleton.elim b m) hb)
      (fun h => absurd (mem_univ m) h)] at h2
    have hv : V m m ≠ 0 := by
      intro h0
      rw [h0] at h2
      simp at h2
    have h3 := mul_right_cancel₀ hv h1
    have h4 := congrArg Complex.re h3
    rw [← hEi] at h4
    rw [Complex.ofReal_re, hEi] at h4
    rw [hEi, ← h4]
    simp [pweFactor, kPlusG]
    norm_num
  have hf : pweFreqAt argsort eigh .te (fun _ => (0, 0)) (1, 0) E 1 0 ≠ 0 := by
    obtain ⟨a1, a2⟩ := hs ((List.ofFn (eigh _ (pweMat .te (1, 0) (fun _ => (0, 0)) E⁻¹ + 1))).map freqOf)
    rw [List.length_map, List.length_ofFn, show List.range (1 * 1) = [0] from rfl, List.perm_singleton] at a1
    have hl : List.ofFn (eigh _ (pweMat .te (1, 0) (fun _ => (0, 0)) E⁻¹ + 1)) = [3 / 2] := by
      rw [show eigh _ (pweMat .te (1, 0) (fun _ => (0, 0)) E⁻¹ + 1) = fun _ => 3 / 2 from funext hw]
      rfl
    rw [hl] at a1
    unfold pweFreqAt
    rw [hl]
    rw [List.map_cons, List.map_nil] at a1
    simp only [solvePwe, List.map_cons, List.map_nil, a1]
    norm_num [freqOf, Real.pi_ne_zero]
  obtain ⟨f', h, -, -⟩ := C143_error argsort hs eigh he one_pos (fun t _ => (t : ℂ)) (fun t _ => (t : ℂ)) (fun _ => 1) (fun _ => 1) 2
    (fun _ => Complex.ofRealCLM.hasDerivAt) (fun _ => Complex.ofRealCLM.hasDerivAt) hT hdet .te (fun _ => (0, 0))
    (fun _ : Fin 1 => (1, 0)) 1 (fun _ i => if i = 0 then 1 else 0) (fun _ => V) (fun _ => hV)
    (fun _ a b _ => Subsingleton.elim a b) (fun q i hc => by
      have : i = 0 := by
        by_contra h
        simp [h] at hc
      rw [this]
      exact hf)
  refine ⟨f' 0 0, ?_⟩
  simpa using h

end Legume
