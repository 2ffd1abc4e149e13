import Verif.Spec.Constitutive
import Verif.Props.PermittivityMap

/-! # Products of a permittivity and a sum of plane waves -/
namespace Legume
open Spec MeasureTheory
open scoped Real ComplexConjugate

/-- `ftinv` of coefficients at different reciprocal vectors is the sum of the plane waves. -/
theorem ftinvAt_ofFn {n : ℕ} (c : Fin n → ℂ) (g : Fin n → R2) (hg : Function.Injective g) (x y : ℝ) :
    ftinvAt (List.ofFn fun j => (c j, g j)) x y = ∑ j, c j * wave (g j) x y := by
  classical
  set F : R2 → ℂ := fun q => if h : ∃ j, g j = q then c h.choose else 0 with hF
  have hFg : ∀ j, F (g j) = c j := fun j => by
    have h : ∃ i, g i = g j := ⟨j, rfl⟩
    rw [hF]; simp only [dif_pos h]
    rw [hg h.choose_spec]
  rw [C55_once F _ (by
    intro q hq
    obtain ⟨j, rfl⟩ := (List.mem_ofFn' _ _).1 hq
    exact (hFg j).symm)]
  have e : ((List.ofFn fun j => (c j, g j)).map Prod.snd).toFinset = Finset.univ.image g := by
    ext q
    simp [List.mem_ofFn]
  rw [e, Finset.sum_image fun i _ j _ h => hg h]
  exact Finset.sum_congr rfl fun j _ => by rw [hFg]

/-- The product of the permittivity with a sum of plane waves, along one plane wave. -/
theorem component_mul (a1 a2 b1 b2 : R2) (h : a1.1 * a2.2 - a1.2 * a2.1 ≠ 0) (eps : R2 → ℝ) (hmeas : Measurable eps)
    (C : ℝ) (hC : ∀ p, |eps p| ≤ C) {n : ℕ} (m : Fin n → ℤ × ℤ) (c : Fin n → ℂ) (k : ℤ × ℤ) :
    component a1 a2 (latVec b1 b2 k) (fun x y => (eps (x, y) : ℂ) * ∑ j, c j * wave (latVec b1 b2 (m j)) x y) =
      ∑ j, epsCoeff a1 a2 eps (latVec b1 b2 (k - m j)) * c j := by
  have hc : ∀ j, epsCoeff a1 a2 eps (latVec b1 b2 (k - m j)) =
      (∫ p in cellSet a1 a2, (eps p : ℂ) * (wave (latVec b1 b2 (m j)) p.1 p.2 *
        conj (wave (latVec b1 b2 k) p.1 p.2))) / ((|a1.1 * a2.2 - a1.2 * a2.1| : ℝ) : ℂ) := by
    intro j
    rw [← cellMean_eq a1 a2 h (fun p => (eps p : ℂ) * (wave (latVec b1 b2 (m j)) p.1 p.2 *
        conj (wave (latVec b1 b2 k) p.1 p.2))) ?_ C ?_]
    · rw [epsCoeff]
      congr 1
      funext u v
      congr 1
      rw [exp_neg_wave (latVec b1 b2 (k - m j)) (u, v), latVec_sub, wave, wave, wave]
      rw [← Complex.exp_conj, ← Complex.exp_conj, ← Complex.exp_add]
      congr 1
      simp only [map_mul, Complex.conj_I, Complex.conj_ofReal, Prod.fst_sub, Prod.snd_sub]
      push_cast
      ring
    · refine (Complex.measurable_ofReal.comp hmeas).mul (Continuous.measurable ?_)
      exact (continuous_wave _).mul (Complex.continuous_conj.comp (continuous_wave _))
    · intro p
      rw [norm_mul, norm_mul, RCLike.norm_conj, norm_wave, norm_wave, Complex.norm_real, mul_one, mul_one]
      exact hC p
  have hi : ∀ j, IntegrableOn (fun p : R2 => (eps p : ℂ) * (wave (latVec b1 b2 (m j)) p.1 p.2 *
        conj (wave (latVec b1 b2 k) p.1 p.2)) * c j) (cellSet a1 a2) := by
    intro j
    refine Integrable.mul_const (cell_integrable a1 a2 _ ?_ C ?_) _
    · refine (Complex.measurable_ofReal.comp hmeas).mul (Continuous.measurable ?_)
      exact (continuous_wave _).mul (Complex.continuous_conj.comp (continuous_wave _))
    · intro p
      rw [norm_mul, norm_mul, RCLike.norm_conj, norm_wave, norm_wave, Complex.norm_real, mul_one, mul_one]
      exact hC p
  have e : component a1 a2 (latVec b1 b2 k) (fun x y => (eps (x, y) : ℂ) * ∑ j, c j * wave (latVec b1 b2 (m j)) x y) =
      cellMean a1 a2 fun x y => (fun p : R2 => ∑ j, (eps p : ℂ) * (wave (latVec b1 b2 (m j)) p.1 p.2 *
        conj (wave (latVec b1 b2 k) p.1 p.2)) * c j) (x, y) := by
    unfold component
    congr 1
    funext x y
    rw [exp_neg_wave (latVec b1 b2 k) (x, y)]
    simp only
    rw [Finset.mul_sum, Finset.sum_mul]
    exact Finset.sum_congr rfl fun j _ => by ring
  rw [e, cellMean_eq a1 a2 h (fun p : R2 => ∑ j, (eps p : ℂ) * (wave (latVec b1 b2 (m j)) p.1 p.2 *
        conj (wave (latVec b1 b2 k) p.1 p.2)) * c j) ?_ (∑ j, C * ‖c j‖) ?_, integral_finsetSum _ fun j _ => hi j, Finset.sum_div]
  · refine Finset.sum_congr rfl fun j _ => ?_
    rw [hc, integral_mul_const]; ring
  · refine Finset.measurable_sum _ fun j _ => Measurable.mul_const ?_ _
    refine (Complex.measurable_ofReal.comp hmeas).mul (Continuous.measurable ?_)
    exact (continuous_wave _).mul (Complex.continuous_conj.comp (continuous_wave _))
  · intro p
    refine (norm_sum_le _ _).trans (Finset.sum_le_sum fun j _ => ?_)
    rw [norm_mul, norm_mul, norm_mul, RCLike.norm_conj, norm_wave, norm_wave, Complex.norm_real, mul_one, mul_one]
    exact mul_le_mul_of_nonneg_right (hC p) (norm_nonneg _)

/-- Fourier coefficients after the inversion of the plane. -/
theorem epsCoeff_inverted (a1 a2 b1 b2 : R2) (hd : Dual a1 a2 b1 b2) (eps : R2 → ℝ)
    (hp : ∀ p (k : ℤ × ℤ), eps (p + latVec a1 a2 k) = eps p) (m : ℤ × ℤ) :
    epsCoeff a1 a2 (inverted eps) (latVec b1 b2 m) = epsCoeff a1 a2 eps (latVec b1 b2 (-m)) := by
  unfold epsCoeff cellMean inverted
  set f : ℝ → ℝ → ℂ := fun u v =>
    (eps (u * a1.1 + v * a2.1, u * a1.2 + v * a2.2) : ℂ) *
      Complex.exp (-Complex.I * (((latVec b1 b2 (-m)).1 * (u * a1.1 + v * a2.1) +
        (latVec b1 b2 (-m)).2 * (u * a1.2 + v * a2.2) : ℝ) : ℂ)) with hf
  have key : ∀ u v : ℝ, (eps (-(u * a1.1 + v * a2.1, u * a1.2 + v * a2.2)) : ℂ) *
      Complex.exp (-Complex.I * (((latVec b1 b2 m).1 * (u * a1.1 + v * a2.1) +
        (latVec b1 b2 m).2 * (u * a1.2 + v * a2.2) : ℝ) : ℂ)) = f (1 - u) (1 - v) := by
    intro u v
    have e1 : ((1 - u) * a1.1 + (1 - v) * a2.1, (1 - u) * a1.2 + (1 - v) * a2.2) =
        -(u * a1.1 + v * a2.1, u * a1.2 + v * a2.2) + latVec a1 a2 (1, 1) := by
      simp only [latVec]
      ext <;> simp <;> ring
    have w := wave_periodic a1 a2 b1 b2 hd (-m) (1, 1) (-(u * a1.1 + v * a2.1, u * a1.2 + v * a2.2))
    rw [hf]
    simp only
    rw [show (((latVec b1 b2 (-m)).1 * ((1 - u) * a1.1 + (1 - v) * a2.1) +
        (latVec b1 b2 (-m)).2 * ((1 - u) * a1.2 + (1 - v) * a2.2) : ℝ)) =
        ((latVec b1 b2 (-m)).1 * ((1 - u) * a1.1 + (1 - v) * a2.1, (1 - u) * a1.2 + (1 - v) * a2.2).1 +
        (latVec b1 b2 (-m)).2 * ((1 - u) * a1.1 + (1 - v) * a2.1, (1 - u) * a1.2 + (1 - v) * a2.2).2 : ℝ) from rfl,
      exp_neg_wave, e1, hp, w, ← exp_neg_wave]
    congr 3
    simp only [latVec, Prod.fst_neg, Prod.snd_neg]
    push_cast
    ring
  simp_rw [key]
  have s1 : ∀ u : ℝ, (∫ v in (0 : ℝ)..1, f u (1 - v)) = ∫ v in (0 : ℝ)..1, f u v := by
    intro u
    rw [intervalIntegral.integral_comp_sub_left (fun v => f u v) 1]; simp
  simp_rw [s1]
  rw [intervalIntegral.integral_comp_sub_left (fun u => ∫ v in (0 : ℝ)..1, f u v) 1, sub_self, sub_zero]

/-- The permittivity has the period of the lattice. -/
theorem permittivity_periodic (a1 a2 : R2) (eb : ℝ) (shapes : List (ℝ × Set R2)) (eps : R2 → ℝ)
    (he : IsPermittivity a1 a2 eb shapes eps) (p : R2) (k : ℤ × ℤ) : eps (p + latVec a1 a2 k) = eps p := by
  have hadd : ∀ m : ℤ × ℤ, p + latVec a1 a2 k + latVec a1 a2 m = p + latVec a1 a2 (m + k) := fun m => by
    simp only [latVec, Prod.fst_add, Prod.snd_add]
    ext <;> simp <;> ring
  by_cases h : ∃ s ∈ shapes, ∃ m, p + latVec a1 a2 m ∈ s.2
  · obtain ⟨s, hs, m, hm⟩ := h
    rw [he.inside s hs p m hm, he.inside s hs (p + latVec a1 a2 k) (m - k) (by rw [hadd]; simpa using hm)]
  · push Not at h
    rw [he.outside p h, he.outside (p + latVec a1 a2 k) fun s hs m => by rw [hadd]; exact h s hs _]

end Legume
