import Mathlib.MeasureTheory.Integral.IntervalIntegral.Periodic
import Mathlib.MeasureTheory.Integral.Prod
import Verif.Props.PolyFourier

/-!
# C84: the transforms of circles and ellipses are their Fourier integrals
-/
namespace Legume

open Spec Complex MeasureTheory

theorem interval_swap {E : Type} [NormedAddCommGroup E] [NormedSpace ℝ E] (f : ℝ → ℝ → E)
    (hf : Continuous (Function.uncurry f)) {a b c d : ℝ} (hab : a ≤ b) (hcd : c ≤ d) :
    (∫ x in a..b, ∫ y in c..d, f x y) = ∫ y in c..d, ∫ x in a..b, f x y := by
  simp only [intervalIntegral.integral_of_le hab, intervalIntegral.integral_of_le hcd]
  apply integral_integral_swap
  rw [Measure.prod_restrict]
  have h : IntegrableOn (Function.uncurry f) (Set.Icc a b ×ˢ Set.Icc c d)
      ((volume : Measure ℝ).prod volume) :=
    hf.continuousOn.integrableOn_compact (isCompact_Icc.prod isCompact_Icc)
  exact h.mono_set (Set.prod_mono Set.Ioc_subset_Icc_self Set.Ioc_subset_Icc_self)

theorem period_shift {E : Type} [NormedAddCommGroup E] [NormedSpace ℝ E] (f : ℝ → E)
    (hf : Function.Periodic f (2 * Real.pi)) (d : ℝ) :
    (∫ t in (0:ℝ)..2 * Real.pi, f (t + d)) = ∫ t in (0:ℝ)..2 * Real.pi, f t := by
  rw [intervalIntegral.integral_comp_add_right]
  have := hf.intervalIntegral_add_eq d 0
  rw [zero_add] at this
  rw [zero_add, add_comm, this]

/-- `∫ sin(x cos t) cos t` over a period is `2π J₁(x)`. -/
theorem besselJ1_eq (x : ℝ) :
    (∫ t in (0:ℝ)..2 * Real.pi, Real.sin (x * Real.cos t) * Real.cos t) =
      2 * Real.pi * besselJ1 x := by
  have hpi : (2 * Real.pi) ≠ 0 := by positivity
  unfold besselJ1
  rw [mul_div_cancel₀ _ hpi]
  have h1 : (∫ t in (0:ℝ)..2 * Real.pi, Real.cos t * Real.cos (x * Real.sin t)) = 0 := by
    by_cases hx : x = 0
    · subst hx; simp
    · have hd : ∀ t : ℝ, HasDerivAt (fun t => Real.sin (x * Real.sin t) / x)
          (Real.cos t * Real.cos (x * Real.sin t)) t := by
        intro t
        have := (((Real.hasDerivAt_sin t).const_mul x).sin).div_const x
        exact this.congr_deriv (by field_simp)
      rw [intervalIntegral.integral_eq_sub_of_hasDerivAt (fun t _ => hd t)
        (Continuous.intervalIntegrable (by fun_prop) _ _)]
      simp
  have h2 : (∫ t in (0:ℝ)..2 * Real.pi, Real.cos (t - x * Real.sin t)) =
      ∫ t in (0:ℝ)..2 * Real.pi, Real.sin t * Real.sin (x * Real.sin t) := by
    have : ∀ t : ℝ, Real.cos (t - x * Real.sin t) = Real.cos t * Real.cos (x * Real.sin t) +
        Real.sin t * Real.sin (x * Real.sin t) := fun t => Real.cos_sub _ _
    simp only [this]
    rw [intervalIntegral.integral_add (Continuous.intervalIntegrable (by fun_prop) _ _)
      (Continuous.intervalIntegrable (by fun_prop) _ _), h1, zero_add]
  rw [h2, ← period_shift (fun t => Real.sin t * Real.sin (x * Real.sin t)) (by
    intro t; simp) (Real.pi / 2)]
  congr 1; funext t
  rw [Real.sin_add_pi_div_two]; ring

/-- `∫₀^R k s ∫ cos(k s cos t) dt ds = 2π R J₁(k R)`. -/
theorem disc_radial (k R : ℝ) (hR : 0 ≤ R) :
    (∫ s in (0:ℝ)..R, k * s * ∫ t in (0:ℝ)..2 * Real.pi, Real.cos (k * s * Real.cos t)) =
      2 * Real.pi * R * besselJ1 (k * R) := by
  have hpi : (0:ℝ) ≤ 2 * Real.pi := by positivity
  have hr : ∀ t : ℝ, R * (Real.sin (k * R * Real.cos t) * Real.cos t) = ∫ s in (0:ℝ)..R,
      (Real.sin (k * s * Real.cos t) * Real.cos t +
        k * s * Real.cos t ^ 2 * Real.cos (k * s * Real.cos t)) := by
    intro t
    have hd : ∀ s : ℝ, HasDerivAt (fun s => s * (Real.sin (k * s * Real.cos t) * Real.cos t))
        (Real.sin (k * s * Real.cos t) * Real.cos t +
        k * s * Real.cos t ^ 2 * Real.cos (k * s * Real.cos t)) s := by
      intro s
      have h1 : HasDerivAt (fun s => k * s * Real.cos t) (k * Real.cos t) s := by
        simpa using ((hasDerivAt_id s).const_mul k).mul_const (Real.cos t)
      have := (hasDerivAt_id s).mul (h1.sin.mul_const (Real.cos t))
      exact this.congr_deriv (by simp only [id]; ring)
    rw [intervalIntegral.integral_eq_sub_of_hasDerivAt (fun t _ => hd t)
        (Continuous.intervalIntegrable (by fun_prop) _ _)]
    simp
  have hz : ∀ s : ℝ, (∫ t in (0:ℝ)..2 * Real.pi, (Real.sin (k * s * Real.cos t) * Real.cos t -
      k * s * Real.sin t ^ 2 * Real.cos (k * s * Real.cos t))) = 0 := by
    intro s
    have hd : ∀ t : ℝ, HasDerivAt (fun t => Real.sin (k * s * Real.cos t) * Real.sin t)
        (Real.sin (k * s * Real.cos t) * Real.cos t -
      k * s * Real.sin t ^ 2 * Real.cos (k * s * Real.cos t)) t := by
      intro t
      have := (((Real.hasDerivAt_cos t).const_mul (k * s)).sin).mul (Real.hasDerivAt_sin t)
      exact this.congr_deriv (by ring)
    rw [intervalIntegral.integral_eq_sub_of_hasDerivAt (fun t _ => hd t)
        (Continuous.intervalIntegrable (by fun_prop) _ _)]
    simp
  have h1 : 2 * Real.pi * R * besselJ1 (k * R) =
      ∫ t in (0:ℝ)..2 * Real.pi, ∫ s in (0:ℝ)..R,
        (Real.sin (k * s * Real.cos t) * Real.cos t +
          k * s * Real.cos t ^ 2 * Real.cos (k * s * Real.cos t)) := by
    simp only [← hr]
    rw [intervalIntegral.integral_const_mul, besselJ1_eq]; ring
  rw [h1, interval_swap _ (by fun_prop) hpi hR]
  congr 1; funext s
  have h2 := hz s
  rw [← sub_eq_zero, ← intervalIntegral.integral_const_mul, ← intervalIntegral.integral_sub
    (Continuous.intervalIntegrable (by fun_prop) _ _) (Continuous.intervalIntegrable (by fun_prop) _ _)]
  rw [← neg_eq_zero, ← intervalIntegral.integral_neg, ← h2]
  congr 1; funext t
  have := Real.sin_sq_add_cos_sq t
  linear_combination (k * s * Real.cos (k * s * Real.cos t)) * this

/-- `∫₀¹ s ∫ cos(k s cos t) dt ds`: the Fourier integral of the unit disc at wave number `k`. -/
noncomputable def discD (k : ℝ) : ℝ :=
  ∫ s in (0:ℝ)..1, s * ∫ t in (0:ℝ)..2 * Real.pi, Real.cos (k * s * Real.cos t)

theorem discD_bessel (k : ℝ) : k * discD k = 2 * Real.pi * besselJ1 k := by
  have := disc_radial k 1 zero_le_one
  rw [mul_one, mul_one] at this
  rw [← this]
  unfold discD
  rw [← intervalIntegral.integral_const_mul]
  congr 1; funext s; ring

theorem abs_cos_sub_le (a b : ℝ) : |Real.cos a - Real.cos b| ≤ |a - b| := by
  have h := norm_expI_sub a b
  have h2 := Complex.abs_re_le_norm (exp (I * (a : ℂ)) - exp (I * (b : ℂ)))
  have h3 : (exp (I * (a : ℂ)) - exp (I * (b : ℂ))).re = Real.cos a - Real.cos b := by
    rw [mul_comm I, mul_comm I, Complex.sub_re, Complex.exp_ofReal_mul_I_re, Complex.exp_ofReal_mul_I_re]
  rw [h3] at h2
  exact h2.trans h

theorem discInner_cont (k : ℝ) : Continuous fun s : ℝ =>
    ∫ t in (0:ℝ)..2 * Real.pi, Real.cos (k * s * Real.cos t) := by
  apply intervalIntegral.continuous_parametric_intervalIntegral_of_continuous'
  fun_prop

theorem discD_lip (k k' : ℝ) : |discD k - discD k'| ≤ 2 * Real.pi * |k - k'| := by
  unfold discD
  have hc := discInner_cont k
  have hc' := discInner_cont k'
  rw [← intervalIntegral.integral_sub (Continuous.intervalIntegrable (by fun_prop) _ _)
    (Continuous.intervalIntegrable (by fun_prop) _ _)]
  have := intervalIntegral.norm_integral_le_of_norm_le_const (a := 0) (b := 1)
    (C := 2 * Real.pi * |k - k'|)
    (f := fun s : ℝ => s * (∫ t in (0:ℝ)..2 * Real.pi, Real.cos (k * s * Real.cos t)) -
      s * ∫ t in (0:ℝ)..2 * Real.pi, Real.cos (k' * s * Real.cos t)) (by
    intro s hs
    rw [Set.uIoc_of_le (by norm_num)] at hs
    rw [← mul_sub, norm_mul, Real.norm_eq_abs, abs_of_pos hs.1]
    refine (mul_le_of_le_one_left (norm_nonneg _) hs.2).trans ?_
    rw [← intervalIntegral.integral_sub (Continuous.intervalIntegrable (by fun_prop) _ _)
      (Continuous.intervalIntegrable (by fun_prop) _ _)]
    have h := intervalIntegral.norm_integral_le_of_norm_le_const (a := 0) (b := 2 * Real.pi)
      (C := |k - k'|) (f := fun t : ℝ => Real.cos (k * s * Real.cos t) - Real.cos (k' * s * Real.cos t)) (by
        intro t _
        refine (abs_cos_sub_le _ _).trans ?_
        have : k * s * Real.cos t - k' * s * Real.cos t = (k - k') * (s * Real.cos t) := by ring
        rw [this, abs_mul]
        apply mul_le_of_le_one_right (abs_nonneg _)
        rw [abs_mul, abs_of_pos hs.1]
        exact mul_le_one₀ hs.2 (abs_nonneg _) (Real.abs_cos_le_one t))
    have h2 : |2 * Real.pi - 0| = 2 * Real.pi := by rw [sub_zero, abs_of_pos (by positivity)]
    rw [h2] at h
    linarith)
  simpa using this

theorem sin_cos_period (a : ℝ) : (∫ t in (0:ℝ)..2 * Real.pi, Real.sin (a * Real.cos t)) = 0 := by
  have h := period_shift (fun t => Real.sin (a * Real.cos t)) (by intro t; simp) Real.pi
  simp only [Real.cos_add_pi, mul_neg, Real.sin_neg, intervalIntegral.integral_neg] at h
  linarith

/-- The angular integral depends only on the length of the wave vector. -/
theorem angular (u v : ℝ) :
    (∫ t in (0:ℝ)..2 * Real.pi, exp (-I * ((u * Real.cos t + v * Real.sin t : ℝ) : ℂ))) =
      ((∫ t in (0:ℝ)..2 * Real.pi, Real.cos (√(u ^ 2 + v ^ 2) * Real.cos t) : ℝ) : ℂ) := by
  set k := √(u ^ 2 + v ^ 2) with hk
  obtain ⟨d, hu, hv⟩ : ∃ d : ℝ, u = k * Real.cos d ∧ v = k * Real.sin d := by
    refine ⟨Complex.arg ⟨u, v⟩, ?_, ?_⟩
    · rw [hk, ← Complex.norm_eq_sqrt_sq_add_sq ⟨u, v⟩, Complex.norm_mul_cos_arg]
    · rw [hk, ← Complex.norm_eq_sqrt_sq_add_sq ⟨u, v⟩, Complex.norm_mul_sin_arg]
  have h1 : ∀ t : ℝ, exp (-I * ((u * Real.cos t + v * Real.sin t : ℝ) : ℂ)) =
      exp (-I * ((k * Real.cos (t + -d) : ℝ) : ℂ)) := by
    intro t
    congr 3
    rw [← sub_eq_add_neg, Real.cos_sub, hu, hv]; ring
  simp only [h1]
  rw [period_shift (fun t => exp (-I * ((k * Real.cos t : ℝ) : ℂ))) (by intro t; simp)]
  have h2 : ∀ t : ℝ, exp (-I * ((k * Real.cos t : ℝ) : ℂ)) =
      ((Real.cos (k * Real.cos t) : ℝ) : ℂ) - I * ((Real.sin (k * Real.cos t) : ℝ) : ℂ) := by
    intro t
    have : -I * ((k * Real.cos t : ℝ) : ℂ) = ((-(k * Real.cos t) : ℝ) : ℂ) * I := by push_cast; ring
    rw [this, Complex.exp_mul_I, ← Complex.ofReal_cos, ← Complex.ofReal_sin, Real.cos_neg,
      Real.sin_neg]
    push_cast; ring
  simp only [h2]
  rw [intervalIntegral.integral_sub (Continuous.intervalIntegrable (by fun_prop) _ _)
    (Continuous.intervalIntegrable (by fun_prop) _ _), intervalIntegral.integral_const_mul,
    intervalIntegral.integral_ofReal, intervalIntegral.integral_ofReal, sin_cos_period]
  simp

theorem ellipseFourier_eq (c : R2) (a b phi : ℝ) (g : R2) :
    ellipseFourier c a b phi g = exp (-I * ((g.1 * c.1 + g.2 * c.2 : ℝ) : ℂ)) * ((a * b : ℝ) : ℂ) *
      (discD √(((toFrame phi g).1 * a) ^ 2 + ((toFrame phi g).2 * b) ^ 2) : ℂ) := by
  unfold ellipseFourier discD
  set G := toFrame phi g with hG
  set k := √((G.1 * a) ^ 2 + (G.2 * b) ^ 2) with hk
  have hin : ∀ s ∈ Set.uIcc (0:ℝ) 1, (s : ℂ) * (∫ t in (0:ℝ)..2 * Real.pi,
    exp (-I * ((g.1 * (c.1 + s * (a * Real.cos t * Real.cos phi - b * Real.sin t * Real.sin phi)) +
      g.2 * (c.2 + s * (a * Real.cos t * Real.sin phi + b * Real.sin t * Real.cos phi)) : ℝ) : ℂ))) =
      exp (-I * ((g.1 * c.1 + g.2 * c.2 : ℝ) : ℂ)) *
        ((s * ∫ t in (0:ℝ)..2 * Real.pi, Real.cos (k * s * Real.cos t) : ℝ) : ℂ) := by
    intro s hs
    rw [Set.uIcc_of_le (by norm_num)] at hs
    have h1 : ∀ t : ℝ, exp (-I * ((g.1 * (c.1 + s * (a * Real.cos t * Real.cos phi -
          b * Real.sin t * Real.sin phi)) +
        g.2 * (c.2 + s * (a * Real.cos t * Real.sin phi + b * Real.sin t * Real.cos phi)) : ℝ) : ℂ)) =
        exp (-I * ((g.1 * c.1 + g.2 * c.2 : ℝ) : ℂ)) *
        exp (-I * ((s * (G.1 * a) * Real.cos t + s * (G.2 * b) * Real.sin t : ℝ) : ℂ)) := by
      intro t
      rw [← Complex.exp_add, hG]
      unfold toFrame
      congr 1; push_cast; ring
    simp only [h1]
    rw [intervalIntegral.integral_const_mul, angular]
    have h2 : √((s * (G.1 * a)) ^ 2 + (s * (G.2 * b)) ^ 2) = k * s := by
      have : (s * (G.1 * a)) ^ 2 + (s * (G.2 * b)) ^ 2 = ((G.1 * a) ^ 2 + (G.2 * b) ^ 2) * s ^ 2 := by
        ring
      rw [this, Real.sqrt_mul (by positivity), Real.sqrt_sq hs.1]
    rw [h2]
    push_cast; ring
  rw [intervalIntegral.integral_congr hin, intervalIntegral.integral_const_mul,
    intervalIntegral.integral_ofReal]
  ring

/-- The transform of a circle is its Fourier integral up to the shift `1e-10` of the wave number. -/
theorem C84_circle (c : Circle) (hr : 0 ≤ c.r) (g : R2) :
    ‖c.ft besselJ1 g - ellipseFourier (c.x, c.y) c.r c.r 0 g‖ ≤ 2 * Real.pi * c.r ^ 3 * 1e-10 := by
  rw [ellipseFourier_eq]
  have hfr : toFrame 0 g = g := by simp [toFrame]
  rw [hfr]
  set k := √(g.1 ^ 2 + g.2 ^ 2) with hk
  have h1 : √((g.1 * c.r) ^ 2 + (g.2 * c.r) ^ 2) = k * c.r := by
    have : (g.1 * c.r) ^ 2 + (g.2 * c.r) ^ 2 = (g.1 ^ 2 + g.2 ^ 2) * c.r ^ 2 := by ring
    rw [this, Real.sqrt_mul (by positivity), Real.sqrt_sq hr]
  rw [h1]
  have hk0 : 0 ≤ k := Real.sqrt_nonneg _
  have hgpos : (k + 1e-10 : ℝ) ≠ 0 := by positivity
  have hft : c.ft besselJ1 g = exp (-I * ((g.1 * c.x + g.2 * c.y : ℝ) : ℂ)) *
      ((c.r * c.r : ℝ) : ℂ) * ((discD ((k + 1e-10) * c.r) : ℝ) : ℂ) := by
    unfold Circle.ft
    simp only [abs_sq, ← hk]
    have hb := discD_bessel ((k + 1e-10) * c.r)
    have hb' : c.r * 2 * Real.pi / (k + 1e-10) * besselJ1 ((k + 1e-10) * c.r) =
        c.r * c.r * discD ((k + 1e-10) * c.r) := by
      generalize besselJ1 ((k + 1e-10) * c.r) = J at hb ⊢
      generalize discD ((k + 1e-10) * c.r) = D at hb ⊢
      field_simp
      linear_combination -c.r * hb
    have he : exp (-I * (g.1 : ℂ) * c.x - I * g.2 * c.y) =
        exp (-I * ((g.1 * c.x + g.2 * c.y : ℝ) : ℂ)) := by
      congr 1; push_cast; ring
    rw [he]
    have hb'' := congrArg (fun r : ℝ => (r : ℂ)) hb'
    simp only [ofReal_mul, ofReal_div, ofReal_ofNat] at hb''
    push_cast at hb'' ⊢
    linear_combination exp (-I * (g.1 * c.x + g.2 * c.y)) * hb''
  rw [hft, ← mul_sub, norm_mul, norm_mul]
  have hp : ‖exp (-I * ((g.1 * c.x + g.2 * c.y : ℝ) : ℂ))‖ = 1 := by
    have : -I * ((g.1 * c.x + g.2 * c.y : ℝ) : ℂ) = ((-(g.1 * c.x + g.2 * c.y) : ℝ) : ℂ) * I := by
      push_cast; ring
    rw [this]; exact Complex.norm_exp_ofReal_mul_I _
  rw [hp, one_mul, Complex.norm_real, ← ofReal_sub, Complex.norm_real, Real.norm_eq_abs,
    Real.norm_eq_abs, abs_of_nonneg (mul_nonneg hr hr)]
  have hl := discD_lip ((k + 1e-10) * c.r) (k * c.r)
  have h2 : (k + 1e-10) * c.r - k * c.r = 1e-10 * c.r := by ring
  rw [h2, abs_of_nonneg (a := 1e-10 * c.r) (by positivity)] at hl
  calc _ ≤ c.r * c.r * (2 * Real.pi * (1e-10 * c.r)) :=
        mul_le_mul_of_nonneg_left hl (mul_nonneg hr hr)
    _ = _ := by ring

/-- The transform of an ellipse is its Fourier integral up to the same shift; the centre is the
point whose coordinates in the frame of the axes are `x_cent`, `y_cent`. -/
theorem C84_ellipse (e : Ellipse) (g : R2) :
    ‖e.ft besselJ1 g - ellipseFourier (e.x * Real.cos e.phi - e.y * Real.sin e.phi,
        e.x * Real.sin e.phi + e.y * Real.cos e.phi) e.rx e.ry e.phi g‖ ≤
      2 * Real.pi * |e.rx * e.ry| * 1e-10 := by
  rw [ellipseFourier_eq]
  set G := toFrame e.phi g with hG
  set k := √((G.1 * e.rx) ^ 2 + (G.2 * e.ry) ^ 2) with hk
  have hk0 : 0 ≤ k := Real.sqrt_nonneg _
  have hgpos : (k + 1e-10 : ℝ) ≠ 0 := by positivity
  simp only
  have hc : g.1 * (e.x * Real.cos e.phi - e.y * Real.sin e.phi) +
      g.2 * (e.x * Real.sin e.phi + e.y * Real.cos e.phi) = G.1 * e.x + G.2 * e.y := by
    rw [hG]; unfold toFrame; ring
  rw [hc]
  have hft : e.ft besselJ1 g = exp (-I * ((G.1 * e.x + G.2 * e.y : ℝ) : ℂ)) *
      ((e.rx * e.ry : ℝ) : ℂ) * ((discD (k + 1e-10) : ℝ) : ℂ) := by
    unfold Ellipse.ft
    simp only [abs_sq, ← hG, ← hk]
    have hb := discD_bessel (k + 1e-10)
    have hb' : 2 * Real.pi / (k + 1e-10) * besselJ1 (k + 1e-10) = discD (k + 1e-10) := by
      field_simp
      linear_combination -hb
    have he : exp (-I * (G.1 : ℂ) * e.x - I * G.2 * e.y) =
        exp (-I * ((G.1 * e.x + G.2 * e.y : ℝ) : ℂ)) := by
      congr 1; push_cast; ring
    rw [he]
    have hb'' := congrArg (fun r : ℝ => (r : ℂ)) hb'
    simp only [ofReal_mul, ofReal_div, ofReal_ofNat] at hb''
    push_cast at hb'' ⊢
    linear_combination exp (-I * (G.1 * e.x + G.2 * e.y)) * e.rx * e.ry * hb''
  rw [hft, ← mul_sub, norm_mul, norm_mul]
  have hp : ‖exp (-I * ((G.1 * e.x + G.2 * e.y : ℝ) : ℂ))‖ = 1 := by
    have : -I * ((G.1 * e.x + G.2 * e.y : ℝ) : ℂ) = ((-(G.1 * e.x + G.2 * e.y) : ℝ) : ℂ) * I := by
      push_cast; ring
    rw [this]; exact Complex.norm_exp_ofReal_mul_I _
  rw [hp, one_mul, Complex.norm_real, ← ofReal_sub, Complex.norm_real, Real.norm_eq_abs,
    Real.norm_eq_abs]
  have hl := discD_lip (k + 1e-10) k
  rw [add_sub_cancel_left, abs_of_nonneg (a := (1e-10 : ℝ)) (by norm_num)] at hl
  calc _ ≤ |e.rx * e.ry| * (2 * Real.pi * 1e-10) := mul_le_mul_of_nonneg_left hl (abs_nonneg _)
    _ = _ := by ring

theorem polar_exists (X Y : ℝ) (h : X ^ 2 + Y ^ 2 ≤ 1) : ∃ s ∈ Set.Icc (0:ℝ) 1,
    ∃ t ∈ Set.Icc 0 (2 * Real.pi), X = s * Real.cos t ∧ Y = s * Real.sin t := by
  have hn : ‖(⟨X, Y⟩ : ℂ)‖ = √(X ^ 2 + Y ^ 2) := Complex.norm_eq_sqrt_sq_add_sq ⟨X, Y⟩
  have h1 : ‖(⟨X, Y⟩ : ℂ)‖ ≤ 1 := by rw [hn]; exact Real.sqrt_le_one.mpr h
  have hc := Complex.norm_mul_cos_arg ⟨X, Y⟩
  have hs := Complex.norm_mul_sin_arg ⟨X, Y⟩
  have ha := Complex.arg_le_pi ⟨X, Y⟩
  have hb := Complex.neg_pi_lt_arg ⟨X, Y⟩
  have hpi := Real.pi_pos
  refine ⟨‖(⟨X, Y⟩ : ℂ)‖, ⟨norm_nonneg _, h1⟩, ?_⟩
  by_cases h0 : 0 ≤ Complex.arg ⟨X, Y⟩
  · exact ⟨_, ⟨h0, by linarith⟩, hc.symm, hs.symm⟩
  · refine ⟨Complex.arg ⟨X, Y⟩ + 2 * Real.pi, ⟨by linarith, by linarith⟩, ?_, ?_⟩
    · rw [Real.cos_add_two_pi, hc]
    · rw [Real.sin_add_two_pi, hs]

/-- The integration region of `C84_circle` is the set of points `is_inside` accepts. -/
theorem C84_circle_region (c : Circle) (hr : 0 ≤ c.r) (p : R2) :
    c.isInside p ↔ ∃ s ∈ Set.Icc (0:ℝ) 1, ∃ t ∈ Set.Icc 0 (2 * Real.pi),
      p = (c.x + s * (c.r * Real.cos t), c.y + s * (c.r * Real.sin t)) := by
  unfold Circle.isInside
  constructor
  · intro h
    rcases hr.eq_or_lt with h0 | h0
    · rw [← h0] at h ⊢
      have h1 : p.1 - c.x = 0 := by nlinarith [sq_nonneg (p.1 - c.x), sq_nonneg (p.2 - c.y)]
      have h2 : p.2 - c.y = 0 := by nlinarith [sq_nonneg (p.1 - c.x), sq_nonneg (p.2 - c.y)]
      refine ⟨0, ⟨le_rfl, zero_le_one⟩, 0, ⟨le_rfl, by positivity⟩, ?_⟩
      ext <;> simp <;> linarith
    · obtain ⟨s, hs, t, ht, hX, hY⟩ := polar_exists ((p.1 - c.x) / c.r) ((p.2 - c.y) / c.r) (by
        rw [div_pow, div_pow, ← add_div, div_le_one (by positivity)]; exact h)
      refine ⟨s, hs, t, ht, ?_⟩
      rw [div_eq_iff h0.ne'] at hX hY
      ext
      · simp only; linarith
      · simp only; linarith
  · rintro ⟨s, hs, t, _, rfl⟩
    have := Real.sin_sq_add_cos_sq t
    have h1 : (c.x + s * (c.r * Real.cos t) - c.x) ^ 2 + (c.y + s * (c.r * Real.sin t) - c.y) ^ 2 =
        s ^ 2 * c.r ^ 2 := by linear_combination s ^ 2 * c.r ^ 2 * this
    simp only
    rw [h1]
    exact mul_le_of_le_one_left (sq_nonneg _) (pow_le_one₀ hs.1 hs.2)

/-- The integration region of `C84_ellipse` is the set of points `is_inside` accepts. -/
theorem C84_ellipse_region (e : Ellipse) (hx : 0 < e.rx) (hy : 0 < e.ry) (p : R2) :
    e.isInside p ↔ ∃ s ∈ Set.Icc (0:ℝ) 1, ∃ t ∈ Set.Icc 0 (2 * Real.pi),
      p = (e.x * Real.cos e.phi - e.y * Real.sin e.phi +
          s * (e.rx * Real.cos t * Real.cos e.phi - e.ry * Real.sin t * Real.sin e.phi),
        e.x * Real.sin e.phi + e.y * Real.cos e.phi +
          s * (e.rx * Real.cos t * Real.sin e.phi + e.ry * Real.sin t * Real.cos e.phi)) := by
  unfold Ellipse.isInside toFrame
  simp only
  have hcs := Real.sin_sq_add_cos_sq e.phi
  constructor
  · intro h
    obtain ⟨s, hs, t, ht, hX, hY⟩ := polar_exists _ _ h
    refine ⟨s, hs, t, ht, ?_⟩
    rw [div_eq_iff hx.ne'] at hX
    rw [div_eq_iff hy.ne'] at hY
    ext
    · simp only
      linear_combination Real.cos e.phi * hX - Real.sin e.phi * hY - p.1 * hcs
    · simp only
      linear_combination Real.sin e.phi * hX + Real.cos e.phi * hY - p.2 * hcs
  · rintro ⟨s, hs, t, _, rfl⟩
    have := Real.sin_sq_add_cos_sq t
    simp only
    have h1 : ((e.x * Real.cos e.phi - e.y * Real.sin e.phi +
          s * (e.rx * Real.cos t * Real.cos e.phi - e.ry * Real.sin t * Real.sin e.phi)) * Real.cos e.phi +
        (e.x * Real.sin e.phi + e.y * Real.cos e.phi +
          s * (e.rx * Real.cos t * Real.sin e.phi + e.ry * Real.sin t * Real.cos e.phi)) * Real.sin e.phi
        - e.x) / e.rx = s * Real.cos t := by
      rw [div_eq_iff hx.ne']
      linear_combination (e.x + s * e.rx * Real.cos t) * hcs
    have h2 : (-(e.x * Real.cos e.phi - e.y * Real.sin e.phi +
          s * (e.rx * Real.cos t * Real.cos e.phi - e.ry * Real.sin t * Real.sin e.phi)) * Real.sin e.phi +
        (e.x * Real.sin e.phi + e.y * Real.cos e.phi +
          s * (e.rx * Real.cos t * Real.sin e.phi + e.ry * Real.sin t * Real.cos e.phi)) * Real.cos e.phi
        - e.y) / e.ry = s * Real.sin t := by
      rw [div_eq_iff hy.ne']
      linear_combination (e.y + s * e.ry * Real.sin t) * hcs
    rw [h1, h2]
    have h3 : (s * Real.cos t) ^ 2 + (s * Real.sin t) ^ 2 = s ^ 2 := by
      linear_combination s ^ 2 * this
    rw [h3]
    exact pow_le_one₀ hs.1 hs.2

/-- At `g = 0` the integral is the area of the ellipse. -/
theorem C84_area (c : R2) (a b phi : ℝ) :
    ellipseFourier c a b phi (0, 0) = ((Real.pi * a * b : ℝ) : ℂ) := by
  rw [ellipseFourier_eq]
  have h : discD 0 = Real.pi := by
    unfold discD
    simp
  simp [toFrame, h]
  ring

example : (⟨0, 0, 1⟩ : Circle).isInside (1, 0) := by simp [Circle.isInside]
example : (0:ℝ) ≤ (⟨0, 0, 1⟩ : Circle).r := by norm_num

end Legume
