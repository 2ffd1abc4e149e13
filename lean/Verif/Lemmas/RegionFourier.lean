import Verif.Lemmas.CellFold
import Verif.Spec.Fourier
import Verif.Props.DiscFourier

/-! # Fourier integrals over ellipses and rectangles as integrals over regions of the plane -/
namespace Legume
open Spec MeasureTheory
open scoped Real

/-- `{q | q.1 ^ 2 + q.2 ^ 2 ≤ 1}`. -/
def unitDisc : Set R2 := {q | q.1 ^ 2 + q.2 ^ 2 ≤ 1}

theorem unitDisc_measurable : MeasurableSet unitDisc :=
  (isClosed_le (by fun_prop) continuous_const).measurableSet

/-- The integral over the unit disc in polar coordinates. -/
theorem unitDisc_integral (f : R2 → ℂ) (hf : Continuous f) :
    ∫ q in unitDisc, f q = ∫ s in (0:ℝ)..1, (s : ℂ) * ∫ t in (0:ℝ)..2 * π, f (s * Real.cos t, s * Real.sin t) := by
  rw [← integral_indicator unitDisc_measurable, ← integral_comp_polarCoord_symm]
  have hsub : Set.Ioc (0:ℝ) 1 ×ˢ Set.Ioo (-π) π ⊆ polarCoord.target := by
    rintro ⟨s, t⟩ ⟨h1, h2⟩
    exact ⟨h1.1, h2⟩
  have e : ∀ p ∈ polarCoord.target, p.1 • unitDisc.indicator f (polarCoord.symm p) =
      (Set.Ioc (0:ℝ) 1 ×ˢ Set.Ioo (-π) π).indicator
        (fun p : ℝ × ℝ => (p.1 : ℂ) * f (p.1 * Real.cos p.2, p.1 * Real.sin p.2)) p := by
    rintro ⟨s, t⟩ ⟨h1, h2⟩
    have h1 : 0 < s := h1
    have hsym : polarCoord.symm (s, t) = (s * Real.cos t, s * Real.sin t) := rfl
    have hd : polarCoord.symm (s, t) ∈ unitDisc ↔ s ≤ 1 := by
      rw [hsym, unitDisc, Set.mem_setOf_eq]
      have : (s * Real.cos t) ^ 2 + (s * Real.sin t) ^ 2 = s ^ 2 := by
        linear_combination s ^ 2 * Real.sin_sq_add_cos_sq t
      rw [this]
      exact sq_le_one_iff₀ h1.le
    by_cases hs : s ≤ 1
    · rw [Set.indicator_of_mem (hd.2 hs), Set.indicator_of_mem (show (s, t) ∈ Set.Ioc (0:ℝ) 1 ×ˢ Set.Ioo (-π) π from ⟨⟨h1, hs⟩, h2⟩), hsym,
        Complex.real_smul]
    · rw [Set.indicator_of_notMem (mt hd.1 hs), Set.indicator_of_notMem (fun h => hs h.1.2), smul_zero]
  rw [setIntegral_congr_fun polarCoord.open_target.measurableSet e,
    setIntegral_indicator (measurableSet_Ioc.prod measurableSet_Ioo), Set.inter_eq_right.2 hsub]
  have hc : Continuous fun p : ℝ × ℝ => (p.1 : ℂ) * f (p.1 * Real.cos p.2, p.1 * Real.sin p.2) := by fun_prop
  have hint : IntegrableOn (fun p : ℝ × ℝ => (p.1 : ℂ) * f (p.1 * Real.cos p.2, p.1 * Real.sin p.2))
      (Set.Ioc (0:ℝ) 1 ×ˢ Set.Ioo (-π) π) :=
    (hc.continuousOn.integrableOn_compact (isCompact_Icc.prod isCompact_Icc)).mono_set
      (Set.prod_mono Set.Ioc_subset_Icc_self Set.Ioo_subset_Icc_self)
  rw [Measure.volume_eq_prod] at hint ⊢
  rw [setIntegral_prod _ hint, intervalIntegral.integral_of_le zero_le_one]
  refine setIntegral_congr_fun measurableSet_Ioc fun s _ => ?_
  simp only
  rw [integral_const_mul]
  congr 1
  rw [← integral_Ioc_eq_integral_Ioo, ← intervalIntegral.integral_of_le (by linarith [Real.pi_pos])]
  have hp : Function.Periodic (fun t : ℝ => f (s * Real.cos t, s * Real.sin t)) (2 * π) := fun t => by
    simp only [Real.cos_add_two_pi, Real.sin_add_two_pi]
  have := hp.intervalIntegral_add_eq (-π) 0
  rw [zero_add] at this
  rw [← this]
  congr 1
  ring

/-- The affine map of the unit disc onto an ellipse. -/
noncomputable def ellMap (a b phi : ℝ) : ℝ × ℝ →L[ℝ] ℝ × ℝ :=
  cellLin (a * Real.cos phi, a * Real.sin phi) (-(b * Real.sin phi), b * Real.cos phi)

theorem ellMap_apply (a b phi : ℝ) (q : R2) :
    ellMap a b phi q = (a * q.1 * Real.cos phi - b * q.2 * Real.sin phi,
      a * q.1 * Real.sin phi + b * q.2 * Real.cos phi) := by
  rw [ellMap, cellMap_apply]
  ext <;> simp <;> ring

theorem ellMap_area (a b phi : ℝ) : a * Real.cos phi * (b * Real.cos phi) -
    a * Real.sin phi * -(b * Real.sin phi) = a * b := by
  linear_combination a * b * Real.sin_sq_add_cos_sq phi

/-- The integral over an ellipse in the plane equals its parametrised form. -/
theorem ellipse_region_integral (c : R2) (a b phi : ℝ) (ha : 0 < a) (hb : 0 < b) (g : R2) :
    regionFourier ((fun q => c + ellMap a b phi q) '' unitDisc) g = ellipseFourier c a b phi g := by
  have hne : a * Real.cos phi * (b * Real.cos phi) - a * Real.sin phi * -(b * Real.sin phi) ≠ 0 := by
    rw [ellMap_area]; positivity
  have hinj : Function.Injective fun q => c + ellMap a b phi q := fun p q h =>
    cellMap_injective _ _ hne (add_left_cancel h)
  rw [regionFourier, integral_image_eq_integral_abs_det_fderiv_smul volume unitDisc_measurable
    (fun x _ => ((ellMap a b phi).hasFDerivAt.const_add c).hasFDerivWithinAt) hinj.injOn]
  have hdet : |(ellMap a b phi).det| = a * b := by
    rw [ellMap, cellMap_det]
    have : a * Real.cos phi * (b * Real.cos phi) - -(b * Real.sin phi) * (a * Real.sin phi) = a * b := by
      linear_combination a * b * Real.sin_sq_add_cos_sq phi
    simp only [this]
    exact abs_of_pos (mul_pos ha hb)
  rw [hdet, integral_smul, Complex.real_smul, ellipseFourier]
  congr 1
  rw [unitDisc_integral _ (by fun_prop)]
  refine intervalIntegral.integral_congr fun s _ => ?_
  congr 1
  refine intervalIntegral.integral_congr fun t _ => ?_
  simp only [ellMap_apply, Prod.fst_add, Prod.snd_add]
  congr 3
  ring

theorem unitDisc_polar (q : R2) : q ∈ unitDisc ↔ ∃ s ∈ Set.Icc (0:ℝ) 1, ∃ t ∈ Set.Icc 0 (2 * π),
    q = (s * Real.cos t, s * Real.sin t) := by
  have := C84_circle_region ⟨0, 0, 1⟩ zero_le_one q
  simp only [Circle.isInside, sub_zero, one_pow, zero_add, one_mul] at this
  exact this

/-- The circle of `C84_circle` as a region of the plane. -/
theorem circle_region (c : Circle) (hr : 0 < c.r) (g : R2) :
    regionFourier {p | c.isInside p} g = ellipseFourier (c.x, c.y) c.r c.r 0 g := by
  rw [← ellipse_region_integral (c.x, c.y) c.r c.r 0 hr hr g]
  congr 1
  ext p
  simp only [Set.mem_setOf_eq, C84_circle_region c hr.le, Set.mem_image, unitDisc_polar]
  constructor
  · rintro ⟨s, hs, t, ht, rfl⟩
    refine ⟨_, ⟨s, hs, t, ht, rfl⟩, ?_⟩
    rw [ellMap_apply]
    ext <;> simp <;> ring
  · rintro ⟨_, ⟨s, hs, t, ht, rfl⟩, rfl⟩
    refine ⟨s, hs, t, ht, ?_⟩
    rw [ellMap_apply]
    ext <;> simp <;> ring

/-- The ellipse of `C84_ellipse` as a region of the plane. -/
theorem ellipse_region (e : Ellipse) (hx : 0 < e.rx) (hy : 0 < e.ry) (g : R2) :
    regionFourier {p | e.isInside p} g = ellipseFourier (e.x * Real.cos e.phi - e.y * Real.sin e.phi,
      e.x * Real.sin e.phi + e.y * Real.cos e.phi) e.rx e.ry e.phi g := by
  rw [← ellipse_region_integral _ e.rx e.ry e.phi hx hy g]
  congr 1
  ext p
  simp only [Set.mem_setOf_eq, C84_ellipse_region e hx hy, Set.mem_image, unitDisc_polar]
  constructor
  · rintro ⟨s, hs, t, ht, rfl⟩
    refine ⟨_, ⟨s, hs, t, ht, rfl⟩, ?_⟩
    rw [ellMap_apply]
    ext <;> simp <;> ring
  · rintro ⟨_, ⟨s, hs, t, ht, rfl⟩, rfl⟩
    refine ⟨s, hs, t, ht, ?_⟩
    rw [ellMap_apply]
    ext <;> simp <;> ring

/-- The Fourier integral over a rectangle. -/
theorem rectangle_region (x0 x1 y0 y1 : ℝ) (hx : x0 ≤ x1) (hy : y0 ≤ y1) (g : R2) :
    regionFourier (Set.Icc x0 x1 ×ˢ Set.Icc y0 y1) g =
      (∫ x in x0..x1, Complex.exp (-Complex.I * ((g.1 * x : ℝ) : ℂ))) *
        ∫ y in y0..y1, Complex.exp (-Complex.I * ((g.2 * y : ℝ) : ℂ)) := by
  rw [regionFourier, intervalIntegral.integral_of_le hx, intervalIntegral.integral_of_le hy,
    ← integral_Icc_eq_integral_Ioc, ← integral_Icc_eq_integral_Ioc, ← setIntegral_prod_mul, Measure.volume_eq_prod]
  congr 1
  funext p
  rw [← Complex.exp_add]
  congr 1
  push_cast
  ring

end Legume
