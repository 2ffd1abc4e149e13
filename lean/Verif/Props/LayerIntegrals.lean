import Mathlib.Analysis.SpecialFunctions.Integrals.Basic
import Mathlib.Analysis.SpecialFunctions.ImproperIntegrals
import Mathlib.Analysis.SpecialFunctions.Trigonometric.Bounds
import Mathlib.Tactic.NormNum
import Mathlib.Tactic.Positivity
import Verif.Model.SlabModes
import Verif.Spec.SlabModes

/-!
# Layer integrals and the normalisation of guided modes: properties C27, C63
-/
namespace Legume

open Complex Spec MeasureTheory

/-- The exact integral over a layer of thickness `d`. -/
noncomputable def layerInt (a : ℂ) (d : ℝ) : ℂ :=
  ∫ t in (-(d / 2))..(d / 2), Complex.exp (Complex.I * a * t)

/-- **C27 (layer).** `I_alpha(a, d)` is the integral of `exp(i (a + 1e-20) t)` over a layer of
thickness `d` centred at zero. -/
theorem C27_layer (a : ℂ) (d : ℝ) (ha : a + 1e-20 ≠ 0) :
    IAlpha a d = ∫ t in (-(d / 2))..(d / 2), Complex.exp (Complex.I * (a + 1e-20) * t) := by
  rw [integral_exp_mul_complex (mul_ne_zero I_ne_zero ha)]
  unfold IAlpha
  simp only [Complex.sin]
  have hI := I_ne_zero
  rw [show Complex.I * (a + 1e-20) * ((d / 2 : ℝ) : ℂ) = (a + 1e-20) * d / 2 * Complex.I by
      push_cast; ring,
    show Complex.I * (a + 1e-20) * ((-(d / 2) : ℝ) : ℂ) = -((a + 1e-20) * d / 2) * Complex.I by
      push_cast; ring]
  field_simp
  rw [I_sq]
  ring

example : ((0 : ℂ)) + 1e-20 ≠ 0 := by norm_num

/-- **C27 (half line).** `J_alpha(a)` is the integral of `exp(i (a + 1e-20) t)` over the half line,
for every exponent which decays. -/
theorem C27_half_line (a : ℂ) (ha : 0 < a.im) :
    JAlpha a = ∫ t in Set.Ioi (0 : ℝ), Complex.exp (Complex.I * (a + 1e-20) * t) := by
  have him : (a + 1e-20 : ℂ).im = a.im := by norm_num
  have h0 : a + 1e-20 ≠ 0 := by
    intro h
    rw [← him, h] at ha
    simp at ha
  have hre : (Complex.I * (a + 1e-20)).re < 0 := by
    rw [Complex.I_mul_re, him]; linarith
  rw [integral_exp_mul_complex_Ioi hre 0]
  unfold JAlpha
  have hI := I_ne_zero
  simp only [ofReal_zero, mul_zero, Complex.exp_zero]
  field_simp
  rw [I_sq]

example : 0 < (2 * Complex.I).im := by norm_num

theorem layerInt_shift (a : ℂ) (δ d : ℝ) :
    ‖layerInt (a + δ) d - layerInt a d‖ ≤ |δ| * d ^ 2 / 2 * Real.exp (|a.im| * |d| / 2) := by
  unfold layerInt
  have hc : ∀ b : ℂ, Continuous fun t : ℝ => Complex.exp (Complex.I * b * t) := by
    intro b; fun_prop
  rw [← intervalIntegral.integral_sub ((hc _).intervalIntegrable _ _) ((hc _).intervalIntegrable _ _)]
  have := intervalIntegral.norm_integral_le_of_norm_le_const
    (a := -(d / 2)) (b := d / 2) (C := |δ| * |d| / 2 * Real.exp (|a.im| * |d| / 2))
    (f := fun t : ℝ => Complex.exp (Complex.I * (a + δ) * t) - Complex.exp (Complex.I * a * t)) (by
      intro t ht
      have htd : |t| ≤ |d| / 2 := by
        rw [Set.uIoc, Set.mem_Ioc] at ht
        rw [abs_le]
        rcases le_total 0 d with h | h
        · rw [min_eq_left (by linarith), max_eq_right (by linarith)] at ht
          rw [abs_of_nonneg h]; constructor <;> linarith [ht.1, ht.2]
        · rw [min_eq_right (by linarith), max_eq_left (by linarith)] at ht
          rw [abs_of_nonpos h]; constructor <;> linarith [ht.1, ht.2]
      have e1 : Complex.exp (Complex.I * (a + δ) * t) - Complex.exp (Complex.I * a * t) =
          Complex.exp (Complex.I * a * t) * (Complex.exp (Complex.I * ((δ * t : ℝ) : ℂ)) - 1) := by
        rw [mul_sub, ← Complex.exp_add, mul_one]
        congr 2
        push_cast; ring
      rw [e1, norm_mul, Complex.norm_exp]
      have e2 : (Complex.I * a * t).re ≤ |a.im| * |d| / 2 := by
        rw [mul_assoc, Complex.I_mul_re, Complex.mul_im]
        simp only [ofReal_im, mul_zero, ofReal_re, zero_add]
        calc -(a.im * t) ≤ |a.im * t| := neg_le_abs _
          _ = |a.im| * |t| := abs_mul _ _
          _ ≤ |a.im| * (|d| / 2) := mul_le_mul_of_nonneg_left htd (abs_nonneg _)
          _ = _ := by ring
      have e3 : ‖Complex.exp (Complex.I * ((δ * t : ℝ) : ℂ)) - 1‖ ≤ |δ| * |d| / 2 := by
        refine (Real.norm_exp_I_mul_ofReal_sub_one_le).trans ?_
        rw [Real.norm_eq_abs, abs_mul]
        calc |δ| * |t| ≤ |δ| * (|d| / 2) := mul_le_mul_of_nonneg_left htd (abs_nonneg _)
          _ = _ := by ring
      rw [mul_comm]
      exact mul_le_mul e3 (Real.exp_le_exp.mpr e2) (Real.exp_pos _).le (by positivity))
  refine this.trans (le_of_eq ?_)
  rw [show d / 2 - -(d / 2) = d by ring]
  have : |d| * |d| = d ^ 2 := by rw [abs_mul_abs_self, sq]
  linear_combination (|δ| / 2 * Real.exp (|a.im| * |d| / 2)) * this

/-- **C27 (error of the regularised layer integral).** `I_alpha(a, d)` differs from the integral of
`exp(i a t)` over the layer by at most `1e-20 d^2 / 2 exp(|Im a| d / 2)`. -/
theorem C27_layer_error (a : ℂ) (d : ℝ) (ha : a + 1e-20 ≠ 0) :
    ‖IAlpha a d - ∫ t in (-(d / 2))..(d / 2), Complex.exp (Complex.I * a * t)‖ ≤
      1e-20 * d ^ 2 / 2 * Real.exp (|a.im| * |d| / 2) := by
  rw [C27_layer a d ha]
  have := layerInt_shift a 1e-20 d
  rw [abs_of_pos (by norm_num : (0 : ℝ) < 1e-20)] at this
  unfold layerInt at this
  push_cast at this
  exact this

/-- **C27 (error of the regularised half-line integral).** -/
theorem C27_half_line_error (a : ℂ) (ha : 0 < a.im) :
    ‖JAlpha a - ∫ t in Set.Ioi (0 : ℝ), Complex.exp (Complex.I * a * t)‖ ≤ 1e-20 / a.im ^ 2 := by
  have hre : (Complex.I * a).re < 0 := by rw [Complex.I_mul_re]; linarith
  have h0 : a ≠ 0 := by rintro rfl; simp at ha
  have him : (a + 1e-20 : ℂ).im = a.im := by norm_num
  have h1 : a + 1e-20 ≠ 0 := by
    intro h
    rw [← him, h] at ha
    simp at ha
  rw [integral_exp_mul_complex_Ioi hre 0]
  unfold JAlpha
  have hI := I_ne_zero
  have : Complex.I / (a + 1e-20) - -Complex.exp (Complex.I * a * (0 : ℝ)) / (Complex.I * a) =
      -(Complex.I * 1e-20) / (a * (a + 1e-20)) := by
    simp only [ofReal_zero, mul_zero, Complex.exp_zero]
    field_simp
    rw [I_sq]
    ring
  rw [this, norm_div, norm_neg, norm_mul, norm_mul, Complex.norm_I, one_mul]
  have n1 : ‖(1e-20 : ℂ)‖ = 1e-20 := by
    rw [show (1e-20 : ℂ) = ((1e-20 : ℝ) : ℂ) by push_cast; rfl, Complex.norm_real]
    norm_num
  rw [n1]
  apply div_le_div_of_nonneg_left (by norm_num) (by positivity)
  rw [sq]
  apply mul_le_mul _ _ ha.le (norm_nonneg _)
  · exact (le_abs_self _).trans (Complex.abs_im_le_norm a)
  · rw [← him]; exact (le_abs_self _).trans (Complex.abs_im_le_norm _)

/-! ### C63: normalisation -/

theorem layerInt_neg (a : ℂ) (d : ℝ) : layerInt (-a) d = layerInt a d := by
  unfold layerInt
  have h := intervalIntegral.integral_comp_neg (a := -(d / 2)) (b := d / 2)
    (fun t : ℝ => Complex.exp (Complex.I * a * t))
  rw [neg_neg] at h
  rw [← h]
  congr 1
  ext t
  congr 1
  push_cast; ring

theorem conj_exp_I (x : ℂ) (t : ℝ) : (starRingEnd ℂ) (Complex.exp (Complex.I * x * t)) =
    Complex.exp (-(Complex.I * (starRingEnd ℂ) x * t)) := by
  rw [← Complex.exp_conj]
  congr 1
  simp [Complex.conj_ofReal]

theorem conj_exp_neg_I (x : ℂ) (t : ℝ) : (starRingEnd ℂ) (Complex.exp (-(Complex.I * x * t))) =
    Complex.exp (Complex.I * (starRingEnd ℂ) x * t) := by
  rw [← Complex.exp_conj]
  congr 1
  simp [Complex.conj_ofReal]

/-- Pointwise expansion of the squared field, with sign `s = 1` for the sum and `-1` for the
difference. -/
theorem field_sq (s x A B : ℂ) (hs : (starRingEnd ℂ) s = s) (hs2 : s * s = 1) (t : ℝ) :
    ((‖A * Complex.exp (Complex.I * x * t) + s * (B * Complex.exp (-(Complex.I * x * t)))‖ ^ 2 : ℝ) : ℂ) =
      ((‖A‖ ^ 2 : ℝ) : ℂ) * Complex.exp (Complex.I * (x - (starRingEnd ℂ) x) * t) +
      ((‖B‖ ^ 2 : ℝ) : ℂ) * Complex.exp (Complex.I * (-(x - (starRingEnd ℂ) x)) * t) +
      s * (A * (starRingEnd ℂ) B * Complex.exp (Complex.I * (-(-x - (starRingEnd ℂ) x)) * t) +
        (starRingEnd ℂ) A * B * Complex.exp (Complex.I * (-x - (starRingEnd ℂ) x) * t)) := by
  have n : ∀ z : ℂ, ((‖z‖ ^ 2 : ℝ) : ℂ) = z * (starRingEnd ℂ) z := by
    intro z; rw [Complex.mul_conj, Complex.normSq_eq_norm_sq]
  rw [n, n, n]
  simp only [map_add, map_mul, conj_exp_I, conj_exp_neg_I, hs]
  have e1 : Complex.exp (Complex.I * (x - (starRingEnd ℂ) x) * t) =
      Complex.exp (Complex.I * x * t) * Complex.exp (-(Complex.I * (starRingEnd ℂ) x * t)) := by
    rw [← Complex.exp_add]; congr 1; ring
  have e2 : Complex.exp (Complex.I * (-(x - (starRingEnd ℂ) x)) * t) =
      Complex.exp (-(Complex.I * x * t)) * Complex.exp (Complex.I * (starRingEnd ℂ) x * t) := by
    rw [← Complex.exp_add]; congr 1; ring
  have e3 : Complex.exp (Complex.I * (-(-x - (starRingEnd ℂ) x)) * t) =
      Complex.exp (Complex.I * x * t) * Complex.exp (Complex.I * (starRingEnd ℂ) x * t) := by
    rw [← Complex.exp_add]; congr 1; ring
  have e4 : Complex.exp (Complex.I * (-x - (starRingEnd ℂ) x) * t) =
      Complex.exp (-(Complex.I * x * t)) * Complex.exp (-(Complex.I * (starRingEnd ℂ) x * t)) := by
    rw [← Complex.exp_add]; congr 1; ring
  rw [e1, e2, e3, e4]
  generalize Complex.exp (Complex.I * x * t) = p
  generalize Complex.exp (-(Complex.I * x * t)) = q
  generalize Complex.exp (Complex.I * (starRingEnd ℂ) x * t) = r
  generalize Complex.exp (-(Complex.I * (starRingEnd ℂ) x * t)) = u
  linear_combination (B * (starRingEnd ℂ) B * q * r) * hs2

theorem integral_field_sq (s x A B : ℂ) (hs : (starRingEnd ℂ) s = s) (hs2 : s * s = 1) (d : ℝ) :
    ((∫ t in (-(d / 2))..(d / 2),
      ‖A * Complex.exp (Complex.I * x * t) + s * (B * Complex.exp (-(Complex.I * x * t)))‖ ^ 2 : ℝ) : ℂ) =
      ((‖A‖ ^ 2 + ‖B‖ ^ 2 : ℝ) : ℂ) * layerInt (x - (starRingEnd ℂ) x) d +
      s * (((starRingEnd ℂ) A * B + A * (starRingEnd ℂ) B) * layerInt (-x - (starRingEnd ℂ) x) d) := by
  rw [← intervalIntegral.integral_ofReal]
  have hc : ∀ b : ℂ, IntervalIntegrable (fun t : ℝ => Complex.exp (Complex.I * b * t)) volume
      (-(d / 2)) (d / 2) := by
    intro b
    exact Continuous.intervalIntegrable (by fun_prop) _ _
  rw [intervalIntegral.integral_congr (g := fun t : ℝ => _)
    (fun t _ => field_sq s x A B hs hs2 t)]
  rw [intervalIntegral.integral_add (((hc _).const_mul _).add ((hc _).const_mul _))
      ((((hc _).const_mul _).add ((hc _).const_mul _)).const_mul _),
    intervalIntegral.integral_add ((hc _).const_mul _) ((hc _).const_mul _),
    intervalIntegral.integral_const_mul, intervalIntegral.integral_const_mul,
    intervalIntegral.integral_const_mul,
    intervalIntegral.integral_add ((hc _).const_mul _) ((hc _).const_mul _),
    intervalIntegral.integral_const_mul, intervalIntegral.integral_const_mul]
  have f : ∀ b : ℂ, (∫ t in (-(d / 2))..(d / 2), Complex.exp (Complex.I * b * t)) = layerInt b d :=
    fun _ => rfl
  rw [f, f, f, f, layerInt_neg, layerInt_neg]
  push_cast; ring

/-- Squared magnetic field of a mode of either polarisation. -/
noncomputable def intensity (pol : Pol) (g : ℝ) (x : ℂ) (ab : ℂ × ℂ) (t : ℝ) : ℝ :=
  match pol with
  | .tm => intensityTM x ab t
  | .te => intensityTE g x ab t

/-- `1` for TM and `|chi|^2 + g^2` for TE. -/
noncomputable def polFactor (pol : Pol) (g : ℝ) (x : ℂ) : ℝ :=
  match pol with
  | .tm => 1
  | .te => ‖x‖ ^ 2 + g ^ 2

theorem integral_sum_sq (x : ℂ) (ab : ℂ × ℂ) (d : ℝ) :
    ((∫ t in (-(d / 2))..(d / 2), ‖fieldSum x ab t‖ ^ 2 : ℝ) : ℂ) =
      ((‖ab.1‖ ^ 2 + ‖ab.2‖ ^ 2 : ℝ) : ℂ) * layerInt (x - (starRingEnd ℂ) x) d +
      ((starRingEnd ℂ) ab.1 * ab.2 + ab.1 * (starRingEnd ℂ) ab.2) *
        layerInt (-x - (starRingEnd ℂ) x) d := by
  have := integral_field_sq 1 x ab.1 ab.2 (by simp) (by simp) d
  simp only [one_mul] at this
  exact this

theorem integral_diff_sq (x : ℂ) (ab : ℂ × ℂ) (d : ℝ) :
    ((∫ t in (-(d / 2))..(d / 2), ‖fieldDiff x x ab t‖ ^ 2 : ℝ) : ℂ) =
      ((‖x‖ ^ 2 : ℝ) : ℂ) * (((‖ab.1‖ ^ 2 + ‖ab.2‖ ^ 2 : ℝ) : ℂ) * layerInt (x - (starRingEnd ℂ) x) d -
      ((starRingEnd ℂ) ab.1 * ab.2 + ab.1 * (starRingEnd ℂ) ab.2) *
        layerInt (-x - (starRingEnd ℂ) x) d) := by
  have := integral_field_sq (-1) x ab.1 ab.2 (by simp) (by simp) d
  have e : ∀ t : ℝ, ‖fieldDiff x x ab t‖ ^ 2 = ‖x‖ ^ 2 *
      ‖ab.1 * Complex.exp (Complex.I * x * t) + -1 * (ab.2 * Complex.exp (-(Complex.I * x * t)))‖ ^ 2 := by
    intro t
    unfold fieldDiff
    rw [norm_mul, mul_pow, neg_one_mul, ← sub_eq_add_neg]
  simp only [e]
  rw [intervalIntegral.integral_const_mul, Complex.ofReal_mul, this]
  ring

theorem continuous_fieldSum (x : ℂ) (ab : ℂ × ℂ) : Continuous fun t : ℝ => fieldSum x ab t := by
  unfold fieldSum; fun_prop

theorem continuous_fieldDiff (w x : ℂ) (ab : ℂ × ℂ) : Continuous fun t : ℝ => fieldDiff w x ab t := by
  unfold fieldDiff; fun_prop

/-- **C63 (inner layers).** The contribution of an inner layer to the normalisation coefficient is the
integral of the squared magnetic field over the layer, up to the effect of the regularising `1e-20`,
for every (real, imaginary or general complex) transverse wave number. -/
theorem C63_inner (pol : Pol) (g : ℝ) (x : ℂ) (d : ℝ) (ab : ℂ × ℂ) (hx : 2 * x.re ≠ 1e-20) :
    ‖normInner pol g x d ab - ((∫ t in (-(d / 2))..(d / 2), intensity pol g x ab t : ℝ) : ℂ)‖ ≤
      1e-20 * (d ^ 2 / 2 * polFactor pol g x *
        ((‖ab.1‖ ^ 2 + ‖ab.2‖ ^ 2) * Real.exp (|x.im| * |d|) + 2 * (‖ab.1‖ * ‖ab.2‖))) := by
  have hi : (1e-20 : ℂ) = ((1e-20 : ℝ) : ℂ) := by push_cast; rfl
  have h1 : x - (starRingEnd ℂ) x + 1e-20 ≠ 0 := by
    intro h
    have := congrArg Complex.re h
    rw [hi] at this
    simp at this
    norm_num at this
  have h2 : -x - (starRingEnd ℂ) x + 1e-20 ≠ 0 := by
    intro h
    have := congrArg Complex.re h
    rw [hi] at this
    simp only [add_re, sub_re, neg_re, conj_re, ofReal_re, zero_re] at this
    apply hx; linarith
  have E1 := C27_layer_error (x - (starRingEnd ℂ) x) d h1
  have E2 := C27_layer_error (-x - (starRingEnd ℂ) x) d h2
  have im1 : |(x - (starRingEnd ℂ) x).im| * |d| / 2 = |x.im| * |d| := by
    simp only [sub_im, conj_im, sub_neg_eq_add]
    rw [← two_mul, abs_mul, abs_of_pos (by norm_num : (0 : ℝ) < 2)]; ring
  have im2 : |(-x - (starRingEnd ℂ) x).im| * |d| / 2 = 0 := by
    simp only [sub_im, neg_im, conj_im]
    simp
  rw [im1] at E1
  rw [im2, Real.exp_zero, mul_one] at E2
  change ‖_ - layerInt _ d‖ ≤ _ at E1
  change ‖_ - layerInt _ d‖ ≤ _ at E2
  have nS : ‖((‖ab.1‖ ^ 2 + ‖ab.2‖ ^ 2 : ℝ) : ℂ)‖ = ‖ab.1‖ ^ 2 + ‖ab.2‖ ^ 2 := by
    rw [Complex.norm_real, Real.norm_of_nonneg (by positivity)]
  have nC : ‖(starRingEnd ℂ) ab.1 * ab.2 + ab.1 * (starRingEnd ℂ) ab.2‖ ≤ 2 * (‖ab.1‖ * ‖ab.2‖) := by
    refine (norm_add_le _ _).trans (le_of_eq ?_)
    rw [norm_mul, norm_mul, Complex.norm_conj, Complex.norm_conj]; ring
  have P1 : ‖((‖ab.1‖ ^ 2 + ‖ab.2‖ ^ 2 : ℝ) : ℂ) *
      (IAlpha (x - (starRingEnd ℂ) x) d - layerInt (x - (starRingEnd ℂ) x) d)‖ ≤
      (‖ab.1‖ ^ 2 + ‖ab.2‖ ^ 2) * (1e-20 * d ^ 2 / 2 * Real.exp (|x.im| * |d|)) := by
    rw [norm_mul, nS]
    exact mul_le_mul_of_nonneg_left E1 (by positivity)
  have P2 : ‖((starRingEnd ℂ) ab.1 * ab.2 + ab.1 * (starRingEnd ℂ) ab.2) *
      (IAlpha (-x - (starRingEnd ℂ) x) d - layerInt (-x - (starRingEnd ℂ) x) d)‖ ≤
      2 * (‖ab.1‖ * ‖ab.2‖) * (1e-20 * d ^ 2 / 2) := by
    rw [norm_mul]
    exact mul_le_mul nC E2 (norm_nonneg _) (by positivity)
  cases pol with
  | tm =>
    simp only [normInner, intensity, intensityTM, polFactor, normInnerTM]
    rw [integral_sum_sq]
    refine le_trans (le_of_eq ?_) ((norm_add_le _ _).trans ((add_le_add P1 P2).trans (le_of_eq ?_)))
    · congr 1; ring
    · ring
  | te =>
    simp only [normInner, intensity, intensityTE, polFactor, normInnerTE]
    have c1 : IntervalIntegrable (fun t : ℝ => ‖fieldDiff x x ab t‖ ^ 2) volume (-(d / 2)) (d / 2) :=
      ((continuous_fieldDiff x x ab).norm.pow 2).intervalIntegrable _ _
    have c2 : IntervalIntegrable (fun t : ℝ => ‖fieldSum x ab t‖ ^ 2) volume (-(d / 2)) (d / 2) :=
      ((continuous_fieldSum x ab).norm.pow 2).intervalIntegrable _ _
    rw [intervalIntegral.integral_add c1 (c2.const_mul _),
      intervalIntegral.integral_const_mul, Complex.ofReal_add (∫ _ in _.._, _) _,
      Complex.ofReal_mul (g ^ 2), integral_sum_sq, integral_diff_sq]
    have n1 : ‖((‖x‖ ^ 2 + g ^ 2 : ℝ) : ℂ)‖ = ‖x‖ ^ 2 + g ^ 2 := by
      rw [Complex.norm_real, Real.norm_of_nonneg (by positivity)]
    have n2 : ‖((g ^ 2 - ‖x‖ ^ 2 : ℝ) : ℂ)‖ ≤ ‖x‖ ^ 2 + g ^ 2 := by
      rw [Complex.norm_real, Real.norm_eq_abs, abs_le]
      constructor <;> nlinarith [sq_nonneg ‖x‖, sq_nonneg g]
    have Q1 := mul_le_mul (le_of_eq n1) P1 (norm_nonneg _) (by positivity)
    have Q2 := mul_le_mul n2 P2 (norm_nonneg _) (by positivity)
    rw [← norm_mul] at Q1 Q2
    refine le_trans (le_of_eq ?_) ((norm_add_le _ _).trans ((add_le_add Q1 Q2).trans (le_of_eq ?_)))
    · congr 1; push_cast; ring
    · ring

/-- **C63 (claddings).** The contribution of a cladding, in which the field decays, is the integral of
the squared magnetic field over the half space. -/
theorem C63_clad (pol : Pol) (g : ℝ) (x : ℂ) (amp : ℂ) (hx : 0 < x.im) :
    ‖normClad pol g x amp - ((∫ t in Set.Ioi (0 : ℝ), intensity pol g x (amp, 0) t : ℝ) : ℂ)‖ ≤
      1e-20 * (polFactor pol g x * ‖amp‖ ^ 2 / (4 * x.im ^ 2)) := by
  have him : (x - (starRingEnd ℂ) x).im = 2 * x.im := by simp; ring
  have E := C27_half_line_error (x - (starRingEnd ℂ) x) (by rw [him]; linarith)
  rw [him] at E
  have hexp : ∀ t : ℝ, ‖Complex.exp (Complex.I * x * t)‖ ^ 2 = Real.exp (-(2 * x.im) * t) := by
    intro t
    rw [Complex.norm_exp, ← Real.exp_nat_mul]
    congr 1
    rw [mul_assoc, Complex.I_mul_re, Complex.mul_im]
    simp only [ofReal_im, mul_zero, ofReal_re, zero_add]
    push_cast; ring
  have hint : (∫ t in Set.Ioi (0 : ℝ), Complex.exp (Complex.I * (x - (starRingEnd ℂ) x) * t)) =
      ((1 / (2 * x.im) : ℝ) : ℂ) := by
    rw [integral_exp_mul_complex_Ioi (by rw [Complex.I_mul_re, him]; linarith) 0]
    have : Complex.I * (x - (starRingEnd ℂ) x) = ((-(2 * x.im) : ℝ) : ℂ) := by
      rw [Complex.sub_conj]
      push_cast
      linear_combination (2 * (x.im : ℂ)) * I_sq
    rw [this]
    push_cast
    simp
  have hre : (∫ t in Set.Ioi (0 : ℝ), Real.exp (-(2 * x.im) * t)) = 1 / (2 * x.im) := by
    rw [integral_exp_mul_Ioi (by linarith) 0]
    simp
  rw [hint] at E
  have hI : (∫ t in Set.Ioi (0 : ℝ), intensity pol g x (amp, 0) t) =
      polFactor pol g x * ‖amp‖ ^ 2 * (1 / (2 * x.im)) := by
    rw [← hre, ← integral_const_mul]
    congr 1
    ext t
    cases pol with
    | tm =>
      simp only [intensity, intensityTM, polFactor, fieldSum, zero_mul, add_zero, norm_mul, mul_pow, hexp]
      ring
    | te =>
      simp only [intensity, intensityTE, polFactor, fieldSum, fieldDiff, zero_mul, add_zero, sub_zero,
        norm_mul, mul_pow, hexp]
      ring
  rw [hI]
  have hp : 0 ≤ polFactor pol g x := by cases pol <;> simp only [polFactor] <;> positivity
  have hn : normClad pol g x amp =
      ((polFactor pol g x * ‖amp‖ ^ 2 : ℝ) : ℂ) * JAlpha (x - (starRingEnd ℂ) x) := by
    cases pol <;> simp only [normClad, polFactor] <;> push_cast <;> ring
  rw [hn, Complex.ofReal_mul _ (1 / (2 * x.im)), ← mul_sub, norm_mul, Complex.norm_real,
    Real.norm_of_nonneg (by positivity)]
  refine (mul_le_mul_of_nonneg_left E (by positivity)).trans (le_of_eq ?_)
  have : x.im ≠ 0 := hx.ne'
  field_simp
  ring

example : 0 < (Complex.I * 3).im ∧ 2 * (Complex.I * 3 : ℂ).re ≠ 1e-20 := by norm_num

theorem norm_sum_sub_le {α : Type} (l : List α) (f h : α → ℂ) (b : α → ℝ)
    (H : ∀ a ∈ l, ‖f a - h a‖ ≤ b a) : ‖(l.map f).sum - (l.map h).sum‖ ≤ (l.map b).sum := by
  induction l with
  | nil => simp
  | cons a l ih =>
    simp only [List.map_cons, List.sum_cons]
    have h1 := H a List.mem_cons_self
    have h2 := ih fun a ha => H a (List.mem_cons_of_mem _ ha)
    refine le_trans (le_of_eq ?_) ((norm_add_le _ _).trans (add_le_add h1 h2))
    congr 1; ring

/-- **C63.** `normalization_coeff` is the integral of the squared magnetic field of the mode over all
heights - lower cladding, every inner layer, upper cladding - up to the explicit bound, proportional
to the regularising constant `1e-20`. -/
theorem C63_total (pol : Pol) (g : ℝ) (x0 A0 B0 xN AN BN : ℂ) (inner : List (ℂ × ℝ × (ℂ × ℂ)))
    (h0 : 0 < x0.im) (hN : 0 < xN.im) (hin : ∀ l ∈ inner, 2 * l.1.re ≠ 1e-20) :
    ‖normCoeff pol g (x0, A0, B0) inner (xN, AN, BN) -
      (((∫ t in Set.Ioi (0 : ℝ), intensity pol g x0 (B0, 0) t) : ℝ) +
       ((∫ t in Set.Ioi (0 : ℝ), intensity pol g xN (AN, 0) t) : ℝ) +
       (inner.map fun l =>
         ((∫ t in (-(l.2.1 / 2))..(l.2.1 / 2), intensity pol g l.1 l.2.2 t : ℝ) : ℂ)).sum)‖ ≤
      1e-20 * (polFactor pol g x0 * ‖B0‖ ^ 2 / (4 * x0.im ^ 2)) +
      1e-20 * (polFactor pol g xN * ‖AN‖ ^ 2 / (4 * xN.im ^ 2)) +
      (inner.map fun l => 1e-20 * (l.2.1 ^ 2 / 2 * polFactor pol g l.1 *
        ((‖l.2.2.1‖ ^ 2 + ‖l.2.2.2‖ ^ 2) * Real.exp (|l.1.im| * |l.2.1|) +
          2 * (‖l.2.2.1‖ * ‖l.2.2.2‖)))).sum := by
  have c0 := C63_clad pol g x0 B0 h0
  have cN := C63_clad pol g xN AN hN
  have ci := norm_sum_sub_le inner (fun l => normInner pol g l.1 l.2.1 l.2.2)
    (fun l => ((∫ t in (-(l.2.1 / 2))..(l.2.1 / 2), intensity pol g l.1 l.2.2 t : ℝ) : ℂ))
    (fun l => 1e-20 * (l.2.1 ^ 2 / 2 * polFactor pol g l.1 *
        ((‖l.2.2.1‖ ^ 2 + ‖l.2.2.2‖ ^ 2) * Real.exp (|l.1.im| * |l.2.1|) +
          2 * (‖l.2.2.1‖ * ‖l.2.2.2‖)))) (fun l hl => C63_inner pol g l.1 l.2.1 l.2.2 (hin l hl))
  refine le_trans (le_of_eq ?_) ((norm_add_le _ _).trans
    (add_le_add ((norm_add_le _ _).trans (add_le_add c0 cN)) ci))
  unfold normCoeff
  congr 1
  ring

end Legume
