import Mathlib.Analysis.SpecialFunctions.Pow.Complex
import Verif.Model.Unpatterned
import Verif.Props.SlabModes

/-!
# C94: transverse wave numbers of the guided-mode expansion
-/
namespace Legume

open Complex

theorem half_pow_sq (s : ℂ) : (s ^ (1 / 2 : ℂ)) ^ 2 = s := by
  have := Complex.cpow_nat_inv_pow s (n := 2) two_ne_zero
  rw [one_div]
  exact_mod_cast this

theorem half_pow_re (s : ℂ) : 0 ≤ (s ^ (1 / 2 : ℂ)).re := by
  by_cases hs : s = 0
  · rw [hs, Complex.zero_cpow (by norm_num)]; simp
  · rw [Complex.cpow_def_of_ne_zero hs, Complex.exp_re]
    have him : (Complex.log s * (1 / 2)).im = s.arg / 2 := by
      simp [Complex.mul_im, Complex.log_im, div_eq_mul_inv]
    rw [him]
    have h1 := Complex.neg_pi_lt_arg s
    have h2 := Complex.arg_le_pi s
    exact mul_nonneg (Real.exp_pos _).le (Real.cos_nonneg_of_mem_Icc ⟨by linarith, by linarith⟩)

theorem half_pow_re_pos (s : ℂ) (h : 0 < s.re) : 0 < (s ^ (1 / 2 : ℂ)).re := by
  rcases (half_pow_re s).lt_or_eq with hlt | heq
  · exact hlt
  · exfalso
    have hs := congrArg Complex.re (half_pow_sq s)
    rw [sq, Complex.mul_re, ← heq] at hs
    nlinarith [sq_nonneg (s ^ (1 / 2 : ℂ)).im]

/-- **C94.** Every transverse wave number solves `chi^2 + g^2 = eps omega^2`, for real or complex parameters. -/
theorem C94_dispersion (gk omega eps : ℂ) : getChi gk omega eps ^ 2 + gk ^ 2 = eps * omega ^ 2 := by
  unfold getChi
  simp only
  split
  · rw [half_pow_sq]; ring
  · rw [mul_pow, Complex.I_sq, half_pow_sq]; ring

/-- **C94.** Where `eps omega^2 - g^2` has a negative real part the wave decays upwards, `exp(i chi z)` with a
positive imaginary part of `chi`; elsewhere the real part of `chi` is non-negative. -/
theorem C94_branch (gk omega eps : ℂ) :
    ((eps * omega ^ 2).re < (gk ^ 2).re → 0 < (getChi gk omega eps).im) ∧
      ((gk ^ 2).re ≤ (eps * omega ^ 2).re → 0 ≤ (getChi gk omega eps).re) := by
  unfold getChi
  simp only [Complex.sub_re]
  constructor
  · intro h
    rw [if_neg (by linarith), Complex.I_mul_im]
    exact half_pow_re_pos _ (by rw [Complex.neg_re, Complex.sub_re]; linarith)
  · intro h
    rw [if_pos (by linarith)]
    exact half_pow_re _

theorem half_pow_ofReal (x : ℝ) (h : 0 ≤ x) : ((x : ℂ)) ^ (1 / 2 : ℂ) = ((√x : ℝ) : ℂ) := by
  rw [Real.sqrt_eq_rpow, Complex.ofReal_cpow h]
  norm_num

/-- **C94.** For real wave vectors, frequencies and permittivities it is the wave number with which the guided modes
were computed. -/
theorem C94_slab (gk omega eps : ℝ) : getChi gk omega eps = chi omega gk eps := by
  have hs : (eps : ℂ) * (omega : ℂ) ^ 2 - (gk : ℂ) ^ 2 = ((eps * omega ^ 2 - gk ^ 2 : ℝ) : ℂ) := by push_cast; ring
  unfold getChi chi
  simp only [hs, Complex.ofReal_re]
  split
  · rename_i h
    exact half_pow_ofReal _ h
  · rename_i h
    rw [← Complex.ofReal_neg, half_pow_ofReal _ (by linarith)]

/-- **C94 (time reversal).** The wave numbers depend on the squares of frequency and wave vector only. -/
theorem C94_even (gk omega eps : ℂ) : getChi (-gk) omega eps = getChi gk omega eps ∧
    getChi gk (-omega) eps = getChi gk omega eps := by
  unfold getChi
  constructor <;> simp [neg_sq]

/-- Both branches occur. -/
example : 0 < (getChi 2 1 3).im ∧ 0 ≤ (getChi 1 1 3).re :=
  ⟨(C94_branch 2 1 3).1 (by norm_num), (C94_branch 1 1 3).2 (by norm_num)⟩

example : getChi ((2 : ℝ) : ℂ) ((1 : ℝ) : ℂ) ((3 : ℝ) : ℂ) = Complex.I := by
  rw [C94_slab, chi_of_lt 1 2 3 (by norm_num)]
  norm_num

end Legume
