import Mathlib.Analysis.SpecialFunctions.Integrals.Basic
import Mathlib.MeasureTheory.Integral.IntervalIntegral.IntegrationByParts
import Verif.Spec.Fourier
import Verif.Props.Shapes

/-!
# C83: the transform of a polygon is its Fourier integral up to the regularisation
-/
namespace Legume

open Spec Complex

/-- `∫₀¹ exp(i z t) dt`. -/
noncomputable def segPhi (z : ℝ) : ℂ := ∫ t in (0:ℝ)..1, exp (I * ((z * t : ℝ) : ℂ))

theorem continuous_seg (z : ℝ) : Continuous fun t : ℝ => exp (I * ((z * t : ℝ) : ℂ)) := by
  fun_prop

theorem segPhi_mul (z : ℝ) : I * z * segPhi z = exp (I * z) - 1 := by
  unfold segPhi
  by_cases hz : z = 0
  · subst hz; simp
  · have hc : (I * (z : ℂ)) ≠ 0 := mul_ne_zero I_ne_zero (by exact_mod_cast hz)
    have := integral_exp_mul_complex (a := 0) (b := 1) hc
    have he : ∀ t : ℝ, exp (I * ((z * t : ℝ) : ℂ)) = exp (I * (z : ℂ) * t) := by
      intro t; push_cast; ring_nf
    simp only [he, this]
    rw [mul_div_cancel₀ _ hc]
    simp

theorem segPhi_zero : segPhi 0 = 1 := by simp [segPhi]

theorem norm_expI_sub (a b : ℝ) : ‖exp (I * (a : ℂ)) - exp (I * (b : ℂ))‖ ≤ |a - b| := by
  have h : exp (I * (a : ℂ)) - exp (I * (b : ℂ)) =
      exp (I * (b : ℂ)) * (exp (I * ((a - b : ℝ) : ℂ)) - 1) := by
    rw [mul_sub, ← Complex.exp_add]; push_cast; ring_nf
  rw [h, norm_mul]
  have h1 : ‖exp (I * (b : ℂ))‖ = 1 := by rw [mul_comm]; exact Complex.norm_exp_ofReal_mul_I b
  rw [h1, one_mul]
  simpa using Real.norm_exp_I_mul_ofReal_sub_one_le (x := a - b)

theorem segPhi_lip (z w : ℝ) : ‖segPhi z - segPhi w‖ ≤ |z - w| := by
  unfold segPhi
  rw [← intervalIntegral.integral_sub ((continuous_seg z).intervalIntegrable _ _)
    ((continuous_seg w).intervalIntegrable _ _)]
  have := intervalIntegral.norm_integral_le_of_norm_le_const (a := 0) (b := 1) (C := |z - w|)
    (f := fun t : ℝ => exp (I * ((z * t : ℝ) : ℂ)) - exp (I * ((w * t : ℝ) : ℂ))) (by
      intro t ht
      rw [Set.uIoc_of_le (by norm_num)] at ht
      refine (norm_expI_sub _ _).trans ?_
      rw [← sub_mul, abs_mul, abs_of_pos ht.1]
      exact mul_le_of_le_one_right (abs_nonneg _) ht.2)
  simpa using this

theorem segPhi_norm_le (z : ℝ) : ‖segPhi z‖ ≤ 1 := by
  unfold segPhi
  have := intervalIntegral.norm_integral_le_of_norm_le_const (a := 0) (b := 1) (C := 1)
    (f := fun t : ℝ => exp (I * ((z * t : ℝ) : ℂ))) (by
      intro t _
      rw [mul_comm]; exact (Complex.norm_exp_ofReal_mul_I _).le)
  simpa using this

/-- `∫₀¹ s exp(i z s) ds` by parts. -/
theorem segPhi_moment (z : ℝ) :
    I * z * ∫ s in (0:ℝ)..1, (s : ℂ) * exp (I * ((z * s : ℝ) : ℂ)) = exp (I * z) - segPhi z := by
  have hd : ∀ s : ℝ, HasDerivAt (fun s : ℝ => (s : ℂ) * exp (I * ((z * s : ℝ) : ℂ)))
      (exp (I * ((z * s : ℝ) : ℂ)) + I * z * ((s : ℂ) * exp (I * ((z * s : ℝ) : ℂ)))) s := by
    intro s
    have h1 : HasDerivAt (fun s : ℝ => (s : ℂ)) 1 s := Complex.ofRealCLM.hasDerivAt
    have h2 : HasDerivAt (fun s : ℝ => I * ((z * s : ℝ) : ℂ)) (I * z) s := by
      have := (h1.const_mul (z : ℂ)).const_mul I
      simpa using this
    have h3 := h1.mul h2.cexp
    have he : exp (I * ((z * s : ℝ) : ℂ)) + I * z * ((s : ℂ) * exp (I * ((z * s : ℝ) : ℂ))) =
        1 * exp (I * ((z * s : ℝ) : ℂ)) + (s : ℂ) * (exp (I * ((z * s : ℝ) : ℂ)) * (I * z)) := by
      ring
    rw [he]
    exact h3
  have hi : IntervalIntegrable (fun s : ℝ => exp (I * ((z * s : ℝ) : ℂ)) +
      I * z * ((s : ℂ) * exp (I * ((z * s : ℝ) : ℂ)))) MeasureTheory.volume 0 1 :=
    Continuous.intervalIntegrable (by fun_prop) _ _
  have := intervalIntegral.integral_eq_sub_of_hasDerivAt (fun s _ => hd s) hi
  rw [intervalIntegral.integral_add (Continuous.intervalIntegrable (by fun_prop) _ _)
    (Continuous.intervalIntegrable (by fun_prop) _ _),
    intervalIntegral.integral_const_mul] at this
  simp only [ofReal_one, mul_one, ofReal_zero, zero_mul, sub_zero, one_mul] at this
  unfold segPhi
  linear_combination this

/-- The double integral over a triangle. -/
theorem tri_double (P Q : ℝ) :
    I * ((Q - P : ℝ) : ℂ) * (∫ s in (0:ℝ)..1, (s : ℂ) * ∫ t in (0:ℝ)..1,
      exp (I * ((s * P + s * (Q - P) * t : ℝ) : ℂ))) = segPhi Q - segPhi P := by
  have h1 : ∀ s : ℝ, (∫ t in (0:ℝ)..1, exp (I * ((s * P + s * (Q - P) * t : ℝ) : ℂ))) =
      exp (I * ((P * s : ℝ) : ℂ)) * segPhi (s * (Q - P)) := by
    intro s
    unfold segPhi
    rw [← intervalIntegral.integral_const_mul]
    congr 1; funext t
    rw [← Complex.exp_add]; push_cast; ring_nf
  rw [← intervalIntegral.integral_const_mul]
  unfold segPhi
  rw [← intervalIntegral.integral_sub ((continuous_seg _).intervalIntegrable _ _)
    ((continuous_seg _).intervalIntegrable _ _)]
  congr 1; funext s
  rw [h1]
  have := segPhi_mul (s * (Q - P))
  have h2 : exp (I * ((Q * s : ℝ) : ℂ)) =
      exp (I * ((P * s : ℝ) : ℂ)) * exp (I * ((s * (Q - P) : ℝ) : ℂ)) := by
    rw [← Complex.exp_add]; push_cast; ring_nf
  rw [h2]
  push_cast at this ⊢
  linear_combination exp (I * (P * s)) * this

/-- Integral of `exp(i g·r)` along a segment, per unit parameter. -/
noncomputable def lineInt (g p q : R2) : ℂ :=
  exp (I * ((g.1 * p.1 + g.2 * p.2 : ℝ) : ℂ)) *
    segPhi (g.1 * (q.1 - p.1) + g.2 * (q.2 - p.2))

theorem lineInt_mul (g p q : R2) :
    I * ((g.1 * (q.1 - p.1) + g.2 * (q.2 - p.2) : ℝ) : ℂ) * lineInt g p q =
      exp (I * ((g.1 * q.1 + g.2 * q.2 : ℝ) : ℂ)) - exp (I * ((g.1 * p.1 + g.2 * p.2 : ℝ) : ℂ)) := by
  unfold lineInt
  have := segPhi_mul (g.1 * (q.1 - p.1) + g.2 * (q.2 - p.2))
  have h2 : exp (I * ((g.1 * q.1 + g.2 * q.2 : ℝ) : ℂ)) =
      exp (I * ((g.1 * p.1 + g.2 * p.2 : ℝ) : ℂ)) *
        exp (I * ((g.1 * (q.1 - p.1) + g.2 * (q.2 - p.2) : ℝ) : ℂ)) := by
    rw [← Complex.exp_add]; push_cast; ring_nf
  rw [h2]
  linear_combination exp (I * ((g.1 * p.1 + g.2 * p.2 : ℝ) : ℂ)) * this

theorem triFourier_eq (g p q : R2) :
    triFourier g p q = ((p.1 * q.2 - p.2 * q.1 : ℝ) : ℂ) *
      ∫ s in (0:ℝ)..1, (s : ℂ) * ∫ t in (0:ℝ)..1,
        exp (I * ((s * (-g.1 * p.1 + -g.2 * p.2) +
          s * ((-g.1 * q.1 + -g.2 * q.2) - (-g.1 * p.1 + -g.2 * p.2)) * t : ℝ) : ℂ)) := by
  unfold triFourier
  congr 2; funext s; congr 2; funext t
  congr 1
  push_cast; ring

/-- Green's theorem on one triangle, integrating in `y`. -/
theorem green_y (g p q : R2) :
    I * ((-g.1 : ℝ) : ℂ) * triFourier g p q =
      (p.2 : ℂ) * segPhi (-g.1 * p.1 + -g.2 * p.2) +
      ((q.2 - p.2 : ℝ) : ℂ) * lineInt (-g.1, -g.2) p q -
      (q.2 : ℂ) * segPhi (-g.1 * q.1 + -g.2 * q.2) := by
  rw [triFourier_eq]
  set P := -g.1 * p.1 + -g.2 * p.2 with hP
  set Q := -g.1 * q.1 + -g.2 * q.2 with hQ
  have hdet : -g.1 * (p.1 * q.2 - p.2 * q.1) = q.2 * P - p.2 * Q := by rw [hP, hQ]; ring
  have hQP : -g.1 * (q.1 - p.1) + -g.2 * (q.2 - p.2) = Q - P := by rw [hP, hQ]; ring
  unfold lineInt
  simp only
  rw [hQP, ← hP]
  by_cases hne : Q = P
  · rw [hne]
    have hm := segPhi_moment P
    simp only [sub_self, segPhi_zero, mul_one, mul_zero, zero_mul, add_zero,
      intervalIntegral.integral_const, sub_zero, one_smul]
    have hdet' : ((-g.1 : ℝ) : ℂ) * ((p.1 * q.2 - p.2 * q.1 : ℝ) : ℂ) = ((q.2 - p.2 : ℝ) : ℂ) * P := by
      rw [← ofReal_mul, hdet, hne]; push_cast; ring
    have he : ∀ s : ℝ, exp (I * ((s * P : ℝ) : ℂ)) = exp (I * ((P * s : ℝ) : ℂ)) := by
      intro s; rw [mul_comm s P]
    simp only [he]
    push_cast at hdet' hm ⊢
    linear_combination I * (∫ s in (0:ℝ)..1, (s : ℂ) * exp (I * (P * s))) * hdet' +
      ((q.2 : ℂ) - p.2) * hm
  · have hd := tri_double P Q
    have hsub : ((Q - P : ℝ) : ℂ) ≠ 0 := by exact_mod_cast sub_ne_zero.mpr hne
    have h1 := segPhi_mul (Q - P)
    have h2 := segPhi_mul Q
    have h3 := segPhi_mul P
    have h4 : exp (I * (Q : ℂ)) = exp (I * (P : ℂ)) * exp (I * ((Q - P : ℝ) : ℂ)) := by
      rw [← Complex.exp_add]; push_cast; ring_nf
    have hdet' : ((-g.1 : ℝ) : ℂ) * ((p.1 * q.2 - p.2 * q.1 : ℝ) : ℂ) =
        (q.2 : ℂ) * P - (p.2 : ℂ) * Q := by
      rw [← ofReal_mul, hdet]; push_cast; ring
    apply mul_left_cancel₀ (mul_ne_zero I_ne_zero hsub)
    generalize (∫ s in (0:ℝ)..1, (s : ℂ) * ∫ t in (0:ℝ)..1,
      exp (I * ((s * P + s * (Q - P) * t : ℝ) : ℂ))) = D at hd ⊢
    rw [h4] at h2
    generalize exp (I * ((Q - P : ℝ) : ℂ)) = E at *
    generalize exp (I * (P : ℂ)) = F at *
    generalize segPhi (Q - P) = a at *
    generalize segPhi Q = b at *
    generalize segPhi P = c at *
    push_cast at *
    linear_combination (I * I * (Q - P) * D) * hdet' + I * (q.2 * P - p.2 * Q) * hd +
      -((q.2 : ℂ) - p.2) * F * h1 + ((q.2 : ℂ) - p.2) * h2 - ((q.2 : ℂ) - p.2) * h3

theorem triFourier_swap (g p q : R2) :
    triFourier (g.2, g.1) (p.2, p.1) (q.2, q.1) = -triFourier g p q := by
  unfold triFourier
  simp only
  have h1 : p.2 * q.1 - p.1 * q.2 = -(p.1 * q.2 - p.2 * q.1) := by ring
  rw [h1, ofReal_neg, neg_mul]
  congr 3; funext s; congr 2; funext t; congr 3
  ring

/-- Green's theorem on one triangle, integrating in `x`. -/
theorem green_x (g p q : R2) :
    I * ((-g.2 : ℝ) : ℂ) * triFourier g p q =
      -((p.1 : ℂ) * segPhi (-g.1 * p.1 + -g.2 * p.2) +
      ((q.1 - p.1 : ℝ) : ℂ) * lineInt (-g.1, -g.2) p q -
      (q.1 : ℂ) * segPhi (-g.1 * q.1 + -g.2 * q.2)) := by
  have h := green_y (g.2, g.1) (p.2, p.1) (q.2, q.1)
  rw [triFourier_swap] at h
  unfold lineInt at h ⊢
  simp only at h ⊢
  rw [add_comm (-g.2 * p.2), add_comm (-g.2 * q.2), add_comm (-g.2 * (q.2 - p.2))] at h
  linear_combination -h

/-! ### Sums over the edges -/

theorem sum_map_zip_subC (h : R2 → ℂ) (l l' : List R2) (hl : l.length = l'.length) :
    ((l.zip l').map fun e => h e.1 - h e.2).sum = (l.map h).sum - (l'.map h).sum := by
  induction l generalizing l' with
  | nil => cases l' <;> simp_all
  | cons a l ih =>
    cases l' with
    | nil => simp at hl
    | cons b l' =>
      simp at hl
      simp [ih l' hl]; ring

theorem telescopeC (h : R2 → ℂ) (l : List R2) :
    ((l.zip (l.rotate 1)).map fun e => h e.1 - h e.2).sum = 0 := by
  rw [sum_map_zip_subC h l (l.rotate 1) (by simp), ((List.rotate_perm l 1).map h).sum_eq]; ring

theorem list_sum_add (l : List (R2 × R2)) (f g : R2 × R2 → ℂ) :
    (l.map fun e => f e + g e).sum = (l.map f).sum + (l.map g).sum := by
  induction l with
  | nil => simp
  | cons a l ih => simp [ih]; ring

theorem list_sum_mul (l : List (R2 × R2)) (c : ℂ) (f : R2 × R2 → ℂ) :
    c * (l.map f).sum = (l.map fun e => c * f e).sum := by
  induction l with
  | nil => simp
  | cons a l ih => simp [← ih, mul_add]

/-- Green's theorem for the polygon, in `y`. -/
theorem poly_green_y (vs : List R2) (g : R2) :
    I * ((-g.1 : ℝ) : ℂ) * polyFourier vs g =
      ((vs.zip (vs.rotate 1)).map fun e =>
        ((e.2.2 - e.1.2 : ℝ) : ℂ) * lineInt (-g.1, -g.2) e.1 e.2).sum := by
  unfold polyFourier
  rw [list_sum_mul]
  have := telescopeC (fun p => (p.2 : ℂ) * segPhi (-g.1 * p.1 + -g.2 * p.2)) vs
  symm
  rw [← add_zero ((List.map _ _).sum), ← this, ← list_sum_add]
  congr 2; funext e
  rw [green_y]; ring

/-- Green's theorem for the polygon, in `x`. -/
theorem poly_green_x (vs : List R2) (g : R2) :
    I * ((-g.2 : ℝ) : ℂ) * polyFourier vs g =
      ((vs.zip (vs.rotate 1)).map fun e =>
        -(((e.2.1 - e.1.1 : ℝ) : ℂ) * lineInt (-g.1, -g.2) e.1 e.2)).sum := by
  unfold polyFourier
  rw [list_sum_mul]
  have := telescopeC (fun p => -((p.1 : ℂ) * segPhi (-g.1 * p.1 + -g.2 * p.2))) vs
  symm
  rw [← add_zero ((List.map _ _).sum), ← this, ← list_sum_add]
  congr 2; funext e
  rw [green_x]; ring

/-! ### The summands of the code -/

theorem edgeGen_exact (gx gy : ℝ) (p q : R2) :
    I * gx * -edgeGen gx gy p q = ((q.2 - p.2 : ℝ) : ℂ) *
      lineInt (gx, gy) p (p.1 + slope p q * (q.2 - p.2), q.2) *
      (((gx * (gy + gx * slope p q)) ^ 2 / ((gx * (gy + gx * slope p q)) ^ 2 + 1e-50) : ℝ) : ℂ) := by
  unfold edgeGen regInv
  simp only
  set a := slope p q
  have hl := lineInt_mul (gx, gy) p (p.1 + a * (q.2 - p.2), q.2)
  simp only at hl
  have h1 : exp (I * ((gx * (p.1 - a * p.2) : ℝ) : ℂ)) * (exp (I * ((gy * q.2 + gx * (a * q.2) : ℝ) : ℂ)) -
      exp (I * ((gy * p.2 + gx * (a * p.2) : ℝ) : ℂ))) =
      exp (I * ((gx * (p.1 + a * (q.2 - p.2)) + gy * q.2 : ℝ) : ℂ)) -
        exp (I * ((gx * p.1 + gy * p.2 : ℝ) : ℂ)) := by
    rw [mul_sub, ← Complex.exp_add, ← Complex.exp_add]
    push_cast; ring_nf
  rw [h1, ← hl]
  have h2 : gx * (p.1 + a * (q.2 - p.2) - p.1) + gy * (q.2 - p.2) = (q.2 - p.2) * (gy + gx * a) := by
    ring
  rw [h2]
  generalize lineInt (gx, gy) p (p.1 + a * (q.2 - p.2), q.2) = L
  have h3 : (gx * (gy + gx * a)) ^ 2 / ((gx * (gy + gx * a)) ^ 2 + 1e-50) =
    gx * (gy + gx * a) * (gx * (gy + gx * a) / ((gx * (gy + gx * a)) ^ 2 + 1e-50)) := by ring
  rw [h3]
  generalize gx * (gy + gx * a) / ((gx * (gy + gx * a)) ^ 2 + 1e-50) = R
  push_cast
  linear_combination (-(gx * (q.2 - p.2) * (gy + gx * a) * L * R) : ℂ) * I_sq

theorem edgeGx0_exact (gx gy : ℝ) (p q : R2) :
    I * gy * edgeGx0 gx gy p q = -(((q.1 - p.1 : ℝ) : ℂ) *
      lineInt (gx, gy) p (q.1, p.2 + 1 / slope p q * (q.1 - p.1)) *
      (((gy * (gx + gy * (1 / slope p q))) ^ 2 /
        ((gy * (gx + gy * (1 / slope p q))) ^ 2 + 1e-50) : ℝ) : ℂ)) := by
  unfold edgeGx0 regInv
  simp only
  set a := 1 / slope p q
  have hl := lineInt_mul (gx, gy) p (q.1, p.2 + a * (q.1 - p.1))
  simp only at hl
  have h1 : exp (I * ((gy * (p.2 - a * p.1) : ℝ) : ℂ)) * (exp (I * ((gx * q.1 + gy * (a * q.1) : ℝ) : ℂ)) -
      exp (I * ((gx * p.1 + gy * (a * p.1) : ℝ) : ℂ))) =
      exp (I * ((gx * q.1 + gy * (p.2 + a * (q.1 - p.1)) : ℝ) : ℂ)) -
        exp (I * ((gx * p.1 + gy * p.2 : ℝ) : ℂ)) := by
    rw [mul_sub, ← Complex.exp_add, ← Complex.exp_add]
    push_cast; ring_nf
  rw [h1, ← hl]
  have h2 : gx * (q.1 - p.1) + gy * (p.2 + a * (q.1 - p.1) - p.2) = (q.1 - p.1) * (gx + gy * a) := by
    ring
  rw [h2]
  generalize lineInt (gx, gy) p (q.1, p.2 + a * (q.1 - p.1)) = L
  have h3 : (gy * (gx + gy * a)) ^ 2 / ((gy * (gx + gy * a)) ^ 2 + 1e-50) =
    gy * (gx + gy * a) * (gy * (gx + gy * a) / ((gy * (gx + gy * a)) ^ 2 + 1e-50)) := by ring
  rw [h3]
  generalize gy * (gx + gy * a) / ((gy * (gx + gy * a)) ^ 2 + 1e-50) = R
  push_cast
  linear_combination (gy * (q.1 - p.1) * (gx + gy * a) * L * R : ℂ) * I_sq

theorem lineInt_norm_le (g p q : R2) : ‖lineInt g p q‖ ≤ 1 := by
  unfold lineInt
  rw [norm_mul, mul_comm I, Complex.norm_exp_ofReal_mul_I, one_mul]
  exact segPhi_norm_le _

theorem lineInt_lip (g p q q' : R2) :
    ‖lineInt g p q' - lineInt g p q‖ ≤ |g.1 * (q'.1 - q.1) + g.2 * (q'.2 - q.2)| := by
  unfold lineInt
  rw [← mul_sub, norm_mul, mul_comm I, Complex.norm_exp_ofReal_mul_I, one_mul]
  refine (segPhi_lip _ _).trans (le_of_eq ?_)
  congr 1; ring

/-- Weakened and displaced segment against the exact one. -/
theorem edge_close (g p q q' : R2) (c r e : ℝ) (hr : 0 ≤ 1 - r)
    (he : |g.1 * (q'.1 - q.1) + g.2 * (q'.2 - q.2)| ≤ e) :
    ‖(c : ℂ) * lineInt g p q' * (r : ℂ) - (c : ℂ) * lineInt g p q‖ ≤ |c| * (e + (1 - r)) := by
  have h : (c : ℂ) * lineInt g p q' * (r : ℂ) - (c : ℂ) * lineInt g p q =
      (c : ℂ) * ((lineInt g p q' - lineInt g p q) - ((1 - r : ℝ) : ℂ) * lineInt g p q') := by
    push_cast; ring
  rw [h, norm_mul, Complex.norm_real, Real.norm_eq_abs]
  apply mul_le_mul_of_nonneg_left _ (abs_nonneg _)
  refine (norm_sub_le _ _).trans (add_le_add ((lineInt_lip _ _ _ _).trans he) ?_)
  rw [norm_mul, Complex.norm_real, Real.norm_eq_abs, abs_of_nonneg hr]
  exact mul_le_of_le_one_right hr (lineInt_norm_le _ _ _)

theorem norm_sum_map_sub_le (l : List (R2 × R2)) (f g : R2 × R2 → ℂ) (b : R2 × R2 → ℝ)
    (h : ∀ e ∈ l, ‖f e - g e‖ ≤ b e) : ‖(l.map f).sum - (l.map g).sum‖ ≤ (l.map b).sum := by
  induction l with
  | nil => simp
  | cons a l ih =>
    simp only [List.map_cons, List.sum_cons]
    have h1 := h a (by simp)
    have h2 := ih fun e he => h e (by simp [he])
    have : f a + (l.map f).sum - (g a + (l.map g).sum) =
      (f a - g a) + ((l.map f).sum - (l.map g).sum) := by ring
    rw [this]
    exact (norm_add_le _ _).trans (add_le_add h1 h2)

theorem reg_factor (d ρ : ℝ) (hρ : 0 ≤ ρ) (h : 1e-50 ≤ ρ * d ^ 2) :
    0 ≤ 1 - d ^ 2 / (d ^ 2 + 1e-50) ∧
      1 - d ^ 2 / (d ^ 2 + 1e-50) ≤ ρ := by
  have hd : 0 ≤ d ^ 2 := sq_nonneg d
  have hp : (0:ℝ) < d ^ 2 + 1e-50 := by positivity
  have he : 1 - d ^ 2 / (d ^ 2 + 1e-50) = 1e-50 / (d ^ 2 + 1e-50) := by field_simp; ring
  refine ⟨by rw [he]; positivity, ?_⟩
  rw [he, div_le_iff₀ hp]
  nlinarith

theorem half_le_abs (x e : ℝ) (he : 0 ≤ e) (h : 2 * e ≤ |x|) : |x| / 2 ≤ |x + e| := by
  rcases abs_cases x with ⟨h1, _⟩ | ⟨h1, _⟩ <;> rcases abs_cases (x + e) with ⟨h2, _⟩ | ⟨h2, _⟩ <;>
    linarith

/-- Displacement of the end point of an edge in the branch `Gx != 0`. -/
theorem edgeGen_close (gx gy ρ : ℝ) (p q : R2) (hgx : gx ≠ 0) (hρ : 0 ≤ ρ)
    (h : q.2 - p.2 ≠ 0 → 2e-20 ≤ |q.2 - p.2| ∧ 1e-50 ≤ ρ * (gx * (gx * (q.1 - p.1 + 1e-10) +
      gy * (q.2 - p.2 + 1e-20)) / (q.2 - p.2 + 1e-20)) ^ 2) :
    ‖I * gx * -edgeGen gx gy p q - ((q.2 - p.2 : ℝ) : ℂ) * lineInt (gx, gy) p q‖ ≤
      |gx| * (2e-10 * |q.2 - p.2| + 2e-20 * |q.1 - p.1|) + ρ * |q.2 - p.2| := by
  rw [edgeGen_exact]
  by_cases h0 : q.2 - p.2 = 0
  · rw [h0]; simp; positivity
  obtain ⟨h1, h2⟩ := h h0
  have hlow := half_le_abs (q.2 - p.2) 1e-20 (by norm_num) (by norm_num at h1 ⊢; linarith)
  have hpos : 0 < |q.2 - p.2| := abs_pos.mpr h0
  have hB : q.2 - p.2 + 1e-20 ≠ 0 := by
    intro hc; rw [hc] at hlow; simp at hlow; linarith
  have hd : gx * (gy + gx * slope p q) = gx * (gx * (q.1 - p.1 + 1e-10) +
      gy * (q.2 - p.2 + 1e-20)) / (q.2 - p.2 + 1e-20) := by
    unfold slope; field_simp; ring
  rw [hd]
  obtain ⟨h3, h4⟩ := reg_factor _ ρ hρ h2
  have hshift : |slope p q * (q.2 - p.2) - (q.1 - p.1)| * |q.2 - p.2| ≤
      2e-10 * |q.2 - p.2| + 2e-20 * |q.1 - p.1| := by
    have he : slope p q * (q.2 - p.2) - (q.1 - p.1) =
        (1e-10 * (q.2 - p.2) - 1e-20 * (q.1 - p.1)) / (q.2 - p.2 + 1e-20) := by
      unfold slope; field_simp; ring
    have hn : |1e-10 * (q.2 - p.2) - 1e-20 * (q.1 - p.1)| ≤
        1e-10 * |q.2 - p.2| + 1e-20 * |q.1 - p.1| := by
      refine (abs_sub _ _).trans ?_
      rw [abs_mul, abs_mul]; norm_num
    rw [he, abs_div, div_mul_eq_mul_div, div_le_iff₀ (abs_pos.mpr hB)]
    have h6 : 0 ≤ 2e-10 * |q.2 - p.2| + 2e-20 * |q.1 - p.1| := by positivity
    calc _ ≤ (1e-10 * |q.2 - p.2| + 1e-20 * |q.1 - p.1|) * |q.2 - p.2| :=
          mul_le_mul_of_nonneg_right hn hpos.le
      _ = (2e-10 * |q.2 - p.2| + 2e-20 * |q.1 - p.1|) * (|q.2 - p.2| / 2) := by norm_num; ring
      _ ≤ _ := mul_le_mul_of_nonneg_left hlow h6
  have hmain := edge_close (gx, gy) p q (p.1 + slope p q * (q.2 - p.2), q.2) (q.2 - p.2) _
    (|gx| * |slope p q * (q.2 - p.2) - (q.1 - p.1)|) h3 (by
      simp only [sub_self, mul_zero, add_zero]
      rw [abs_mul]
      apply le_of_eq; congr 2; ring)
  refine hmain.trans ?_
  have := mul_le_mul_of_nonneg_left h4 hpos.le
  have := mul_le_mul_of_nonneg_left hshift (abs_nonneg gx)
  linarith

theorem edgeGx0_close (gx gy ρ : ℝ) (p q : R2) (hρ : 0 ≤ ρ)
    (h : q.1 - p.1 ≠ 0 → 2e-10 ≤ |q.1 - p.1| ∧ 1e-50 ≤ ρ * (gy * (gx * (q.1 - p.1 + 1e-10) +
      gy * (q.2 - p.2 + 1e-20)) / (q.1 - p.1 + 1e-10)) ^ 2) :
    ‖I * gy * edgeGx0 gx gy p q - -(((q.1 - p.1 : ℝ) : ℂ) * lineInt (gx, gy) p q)‖ ≤
      |gy| * (2e-10 * |q.2 - p.2| + 2e-20 * |q.1 - p.1|) + ρ * |q.1 - p.1| := by
  rw [edgeGx0_exact]
  by_cases h0 : q.1 - p.1 = 0
  · rw [h0]; simp; positivity
  obtain ⟨h1, h2⟩ := h h0
  have hlow := half_le_abs (q.1 - p.1) 1e-10 (by norm_num) (by norm_num at h1 ⊢; linarith)
  have hpos : 0 < |q.1 - p.1| := abs_pos.mpr h0
  have hB : q.1 - p.1 + 1e-10 ≠ 0 := by
    intro hc; rw [hc] at hlow; simp at hlow; linarith
  have hs : 1 / slope p q = (q.2 - p.2 + 1e-20) / (q.1 - p.1 + 1e-10) := by
    unfold slope; rw [one_div, inv_div]
  rw [hs]
  have hd : gy * (gx + gy * ((q.2 - p.2 + 1e-20) / (q.1 - p.1 + 1e-10))) =
      gy * (gx * (q.1 - p.1 + 1e-10) +
      gy * (q.2 - p.2 + 1e-20)) / (q.1 - p.1 + 1e-10) := by
    field_simp
  rw [hd]
  obtain ⟨h3, h4⟩ := reg_factor _ ρ hρ h2
  set a := (q.2 - p.2 + 1e-20) / (q.1 - p.1 + 1e-10) with ha
  have hshift : |a * (q.1 - p.1) - (q.2 - p.2)| * |q.1 - p.1| ≤
      2e-10 * |q.2 - p.2| + 2e-20 * |q.1 - p.1| := by
    have he : a * (q.1 - p.1) - (q.2 - p.2) =
        (1e-20 * (q.1 - p.1) - 1e-10 * (q.2 - p.2)) / (q.1 - p.1 + 1e-10) := by
      rw [ha]; field_simp; ring
    have hn : |1e-20 * (q.1 - p.1) - 1e-10 * (q.2 - p.2)| ≤
        1e-20 * |q.1 - p.1| + 1e-10 * |q.2 - p.2| := by
      refine (abs_sub _ _).trans ?_
      rw [abs_mul, abs_mul]; norm_num
    rw [he, abs_div, div_mul_eq_mul_div, div_le_iff₀ (abs_pos.mpr hB)]
    have h6 : 0 ≤ 2e-10 * |q.2 - p.2| + 2e-20 * |q.1 - p.1| := by positivity
    calc _ ≤ (1e-20 * |q.1 - p.1| + 1e-10 * |q.2 - p.2|) * |q.1 - p.1| :=
          mul_le_mul_of_nonneg_right hn hpos.le
      _ = (2e-10 * |q.2 - p.2| + 2e-20 * |q.1 - p.1|) * (|q.1 - p.1| / 2) := by norm_num; ring
      _ ≤ _ := mul_le_mul_of_nonneg_left hlow h6
  have hmain := edge_close (gx, gy) p q (q.1, p.2 + a * (q.1 - p.1)) (q.1 - p.1) _
    (|gy| * |a * (q.1 - p.1) - (q.2 - p.2)|) h3 (by
      simp only [sub_self, mul_zero, zero_add]
      rw [abs_mul]
      apply le_of_eq; congr 2; ring)
  rw [neg_sub_neg, norm_sub_rev]
  refine hmain.trans ?_
  have := mul_le_mul_of_nonneg_left h4 hpos.le
  have := mul_le_mul_of_nonneg_left hshift (abs_nonneg gy)
  linarith

theorem sum_map_div (l : List (R2 × R2)) (f : R2 × R2 → ℝ) (c : ℝ) :
    (l.map f).sum / c = (l.map fun e => f e / c).sum := by
  induction l with
  | nil => simp
  | cons a l ih => simp [← ih, add_div]

theorem div_bound {z w c : ℂ} {b : ℝ} (hc : c ≠ 0) (h : ‖c * z - c * w‖ ≤ b) :
    ‖z - w‖ ≤ b / ‖c‖ := by
  rw [← mul_sub, norm_mul] at h
  rw [le_div_iff₀ (norm_pos_iff.mpr hc)]
  linarith

/-- For a reciprocal vector with a component along `x`, the transform computed for a polygon is
its Fourier integral up to an explicit error. -/
theorem C83_general (l : List R2) (P : Poly) (hP : Poly.new l = .ok P) (g : R2)
    (hg : 1e-10 ≤ |g.1|) (ρ : ℝ) (hρ : 0 ≤ ρ)
    (hedge : ∀ e ∈ l.zip (l.rotate 1), e.2.2 - e.1.2 ≠ 0 → 2e-20 ≤ |e.2.2 - e.1.2| ∧
      1e-50 ≤ ρ * (g.1 * (g.1 * (e.2.1 - e.1.1 + 1e-10) + g.2 * (e.2.2 - e.1.2 + 1e-20)) /
        (e.2.2 - e.1.2 + 1e-20)) ^ 2) :
    ‖polyFt P.verts g - polyFourier l g‖ ≤ ((l.zip (l.rotate 1)).map fun e =>
      2e-10 * |e.2.2 - e.1.2| + 2e-20 * |e.2.1 - e.1.1| + ρ * |e.2.2 - e.1.2| / |g.1|).sum := by
  obtain ⟨v, vs, rfl⟩ : ∃ v vs, l = v :: vs := by
    cases l with
    | nil => simp [Poly.new] at hP
    | cons v vs => exact ⟨v, vs, rfl⟩
  have hv : P.verts = (v :: vs) ++ [v] := by
    simp only [Poly.new] at hP
    split at hP
    · cases hP
    · cases hP; rfl
  rw [hv, polyFt_closed]
  set l := v :: vs
  have hgx : g.1 ≠ 0 := by intro hc; rw [hc] at hg; norm_num at hg
  have hc : I * ((-g.1 : ℝ) : ℂ) ≠ 0 :=
    mul_ne_zero I_ne_zero (by exact_mod_cast neg_ne_zero.mpr hgx)
  have hn : ‖I * ((-g.1 : ℝ) : ℂ)‖ = |g.1| := by simp
  have hcode : I * ((-g.1 : ℝ) : ℂ) * polyFt l g = ((l.zip (l.rotate 1)).map fun e =>
      I * ((-g.1 : ℝ) : ℂ) * -edgeGen (-g.1) (-g.2) e.1 e.2).sum := by
    unfold polyFt
    simp only [abs_neg]
    rw [if_neg (not_lt.mpr hg)]
    unfold edgeSumC edges
    rw [← list_sum_mul]
    congr 1
    rw [← neg_one_mul, list_sum_mul]
    simp
  have := norm_sum_map_sub_le (l.zip (l.rotate 1))
    (fun e => I * ((-g.1 : ℝ) : ℂ) * -edgeGen (-g.1) (-g.2) e.1 e.2)
    (fun e => ((e.2.2 - e.1.2 : ℝ) : ℂ) * lineInt (-g.1, -g.2) e.1 e.2)
    (fun e => |-g.1| * (2e-10 * |e.2.2 - e.1.2| + 2e-20 * |e.2.1 - e.1.1|) + ρ * |e.2.2 - e.1.2|)
    (fun e he => edgeGen_close (-g.1) (-g.2) ρ e.1 e.2 (neg_ne_zero.mpr hgx) hρ (fun hy => by
      obtain ⟨h1, h2⟩ := hedge e he hy
      refine ⟨h1, h2.trans (le_of_eq ?_)⟩
      congr 2; ring))
  rw [← hcode, ← poly_green_y] at this
  refine (div_bound hc this).trans (le_of_eq ?_)
  rw [hn, sum_map_div]
  congr 2; funext e
  have : |g.1| ≠ 0 := abs_ne_zero.mpr hgx
  rw [abs_neg]; field_simp

/-- The same for a reciprocal vector along `y`. -/
theorem C83_along_y (l : List R2) (P : Poly) (hP : Poly.new l = .ok P) (g : R2)
    (hg : |g.1| < 1e-10) (hg2 : 1e-10 ≤ |g.2|) (ρ : ℝ) (hρ : 0 ≤ ρ)
    (hedge : ∀ e ∈ l.zip (l.rotate 1), e.2.1 - e.1.1 ≠ 0 → 2e-10 ≤ |e.2.1 - e.1.1| ∧
      1e-50 ≤ ρ * (g.2 * (g.1 * (e.2.1 - e.1.1 + 1e-10) + g.2 * (e.2.2 - e.1.2 + 1e-20)) /
        (e.2.1 - e.1.1 + 1e-10)) ^ 2) :
    ‖polyFt P.verts g - polyFourier l g‖ ≤ ((l.zip (l.rotate 1)).map fun e =>
      2e-10 * |e.2.2 - e.1.2| + 2e-20 * |e.2.1 - e.1.1| + ρ * |e.2.1 - e.1.1| / |g.2|).sum := by
  obtain ⟨v, vs, rfl⟩ : ∃ v vs, l = v :: vs := by
    cases l with
    | nil => simp [Poly.new] at hP
    | cons v vs => exact ⟨v, vs, rfl⟩
  have hv : P.verts = (v :: vs) ++ [v] := by
    simp only [Poly.new] at hP
    split at hP
    · cases hP
    · cases hP; rfl
  rw [hv, polyFt_closed]
  set l := v :: vs
  have hgy : g.2 ≠ 0 := by intro hc; rw [hc] at hg2; norm_num at hg2
  have hc : I * ((-g.2 : ℝ) : ℂ) ≠ 0 :=
    mul_ne_zero I_ne_zero (by exact_mod_cast neg_ne_zero.mpr hgy)
  have hn : ‖I * ((-g.2 : ℝ) : ℂ)‖ = |g.2| := by simp
  have hcode : I * ((-g.2 : ℝ) : ℂ) * polyFt l g = ((l.zip (l.rotate 1)).map fun e =>
      I * ((-g.2 : ℝ) : ℂ) * edgeGx0 (-g.1) (-g.2) e.1 e.2).sum := by
    unfold polyFt
    simp only [abs_neg]
    rw [if_pos hg, if_neg (not_lt.mpr hg2)]
    unfold edgeSumC edges
    rw [list_sum_mul]
  have := norm_sum_map_sub_le (l.zip (l.rotate 1))
    (fun e => I * ((-g.2 : ℝ) : ℂ) * edgeGx0 (-g.1) (-g.2) e.1 e.2)
    (fun e => -(((e.2.1 - e.1.1 : ℝ) : ℂ) * lineInt (-g.1, -g.2) e.1 e.2))
    (fun e => |-g.2| * (2e-10 * |e.2.2 - e.1.2| + 2e-20 * |e.2.1 - e.1.1|) + ρ * |e.2.1 - e.1.1|)
    (fun e he => edgeGx0_close (-g.1) (-g.2) ρ e.1 e.2 hρ (fun hy => by
      obtain ⟨h1, h2⟩ := hedge e he hy
      refine ⟨h1, h2.trans (le_of_eq ?_)⟩
      congr 2; ring))
  rw [← hcode, ← poly_green_x] at this
  refine (div_bound hc this).trans (le_of_eq ?_)
  rw [hn, sum_map_div]
  congr 2; funext e
  have : |g.2| ≠ 0 := abs_ne_zero.mpr hgy
  rw [abs_neg]; field_simp

theorem tri_near (g p q : R2) :
    ‖triFourier g p q - ((p.1 * q.2 - p.2 * q.1 : ℝ) : ℂ) / 2‖ ≤
      |p.1 * q.2 - p.2 * q.1| * (|g.1 * p.1 + g.2 * p.2| + |g.1 * q.1 + g.2 * q.2|) := by
  have hin : ∀ s t : ℝ, s ∈ Set.uIoc (0:ℝ) 1 → t ∈ Set.uIoc (0:ℝ) 1 →
      ‖exp (-I * ((g.1 * (s * ((1 - t) * p.1 + t * q.1)) +
        g.2 * (s * ((1 - t) * p.2 + t * q.2)) : ℝ) : ℂ)) - 1‖ ≤
        |g.1 * p.1 + g.2 * p.2| + |g.1 * q.1 + g.2 * q.2| := by
    intro s t hs ht
    rw [Set.uIoc_of_le (by norm_num)] at hs ht
    have h1 := norm_expI_sub (-(g.1 * (s * ((1 - t) * p.1 + t * q.1)) +
        g.2 * (s * ((1 - t) * p.2 + t * q.2)))) 0
    simp only [ofReal_zero, mul_zero, exp_zero, sub_zero, ofReal_neg] at h1
    rw [neg_mul, ← mul_neg]
    refine h1.trans ?_
    have h2 : -(g.1 * (s * ((1 - t) * p.1 + t * q.1)) + g.2 * (s * ((1 - t) * p.2 + t * q.2))) =
      -(s * ((1 - t) * (g.1 * p.1 + g.2 * p.2) + t * (g.1 * q.1 + g.2 * q.2))) := by ring
    rw [h2, abs_neg, abs_mul, abs_of_pos hs.1]
    refine (mul_le_of_le_one_left (abs_nonneg _) hs.2).trans ((abs_add_le _ _).trans ?_)
    rw [abs_mul, abs_mul, abs_of_nonneg (by linarith [ht.2] : 0 ≤ 1 - t), abs_of_pos ht.1]
    exact add_le_add (mul_le_of_le_one_left (abs_nonneg _) (by linarith [ht.1]))
      (mul_le_of_le_one_left (abs_nonneg _) ht.2)
  set M := |g.1 * p.1 + g.2 * p.2| + |g.1 * q.1 + g.2 * q.2| with hM
  have hcont : ∀ s : ℝ, Continuous fun t : ℝ => exp (-I * ((g.1 * (s * ((1 - t) * p.1 + t * q.1)) +
        g.2 * (s * ((1 - t) * p.2 + t * q.2)) : ℝ) : ℂ)) := by intro s; fun_prop
  have hinner : ∀ s ∈ Set.uIoc (0:ℝ) 1, ‖(∫ t in (0:ℝ)..1,
      exp (-I * ((g.1 * (s * ((1 - t) * p.1 + t * q.1)) +
        g.2 * (s * ((1 - t) * p.2 + t * q.2)) : ℝ) : ℂ))) - 1‖ ≤ M := by
    intro s hs
    have h1 : (1 : ℂ) = ∫ t in (0:ℝ)..1, (1 : ℂ) := by simp
    nth_rw 1 [h1]
    rw [← intervalIntegral.integral_sub ((hcont s).intervalIntegrable _ _) (by simp)]
    simpa using intervalIntegral.norm_integral_le_of_norm_le_const (a := 0) (b := 1)
      (fun t ht => hin s t hs ht)
  have hcs : Continuous fun s : ℝ => ∫ t in (0:ℝ)..1,
      exp (-I * ((g.1 * (s * ((1 - t) * p.1 + t * q.1)) +
        g.2 * (s * ((1 - t) * p.2 + t * q.2)) : ℝ) : ℂ)) := by
    apply intervalIntegral.continuous_parametric_intervalIntegral_of_continuous'
    fun_prop
  have hhalf : (1 : ℂ) / 2 = ∫ s in (0:ℝ)..1, (s : ℂ) := by
    have := integral_id (a := (0:ℝ)) (b := 1)
    rw [intervalIntegral.integral_ofReal, this]; push_cast; norm_num
  unfold triFourier
  have hsplit : ((p.1 * q.2 - p.2 * q.1 : ℝ) : ℂ) / 2 = ((p.1 * q.2 - p.2 * q.1 : ℝ) : ℂ) *
      ∫ s in (0:ℝ)..1, (s : ℂ) := by rw [← hhalf]; ring
  rw [hsplit, ← mul_sub, norm_mul, Complex.norm_real, Real.norm_eq_abs]
  apply mul_le_mul_of_nonneg_left _ (abs_nonneg _)
  rw [← intervalIntegral.integral_sub (Continuous.intervalIntegrable (by fun_prop) _ _)
    (Continuous.intervalIntegrable (by fun_prop) _ _)]
  have := intervalIntegral.norm_integral_le_of_norm_le_const (a := 0) (b := 1) (C := M)
    (f := fun s : ℝ => (s : ℂ) * (∫ t in (0:ℝ)..1,
      exp (-I * ((g.1 * (s * ((1 - t) * p.1 + t * q.1)) +
        g.2 * (s * ((1 - t) * p.2 + t * q.2)) : ℝ) : ℂ))) - (s : ℂ)) (by
      intro s hs
      have h1 := hinner s hs
      rw [Set.uIoc_of_le (by norm_num)] at hs
      have h2 : ∀ z : ℂ, (s : ℂ) * z - s = s * (z - 1) := by intro z; ring
      rw [h2, norm_mul, Complex.norm_real, Real.norm_eq_abs, abs_of_pos hs.1]
      exact (mul_le_of_le_one_left (norm_nonneg _) hs.2).trans h1)
  simpa using this

/-- At a vanishing reciprocal vector the transform is the area, which is the Fourier integral up to
the phase that is dropped. -/
theorem C83_zero (l : List R2) (P : Poly) (hP : Poly.new l = .ok P) (g : R2)
    (hg : |g.1| < 1e-10) (hg2 : |g.2| < 1e-10) :
    polyFt P.verts g = P.area ∧
    ‖polyFt P.verts g - polyFourier l g‖ ≤ ((l.zip (l.rotate 1)).map fun e =>
      |e.1.1 * e.2.2 - e.1.2 * e.2.1| *
        (|g.1 * e.1.1 + g.2 * e.1.2| + |g.1 * e.2.1 + g.2 * e.2.2|)).sum := by
  obtain ⟨v, vs, rfl⟩ : ∃ v vs, l = v :: vs := by
    cases l with
    | nil => simp [Poly.new] at hP
    | cons v vs => exact ⟨v, vs, rfl⟩
  have hv : P.verts = (v :: vs) ++ [v] ∧ P.area = (polyFt ((v :: vs) ++ [v]) (0, 0)).re := by
    simp only [Poly.new] at hP
    split at hP
    · cases hP
    · cases hP; exact ⟨rfl, rfl⟩
  have hs : ∀ w : List R2, ∀ g : R2, |g.1| < 1e-10 → |g.2| < 1e-10 → polyFt w g = shoelace w := by
    intro w g h1 h2
    unfold polyFt; simp only [abs_neg]; rw [if_pos h1, if_pos h2]
  refine ⟨?_, ?_⟩
  · rw [hv.2, hv.1, hs _ _ hg hg2, hs _ _ (by norm_num) (by norm_num)]; simp
  · rw [hv.1, polyFt_closed, hs _ _ hg hg2]
    unfold shoelace edgeSum edges polyFourier
    have hcast : ∀ w : List (R2 × R2), ((((w.map fun e => crossTerm e.1 e.2).sum / 2 : ℝ)) : ℂ) =
        (w.map fun e => ((e.1.1 * e.2.2 - e.1.2 * e.2.1 : ℝ) : ℂ) / 2).sum := by
      intro w
      induction w with
      | nil => simp
      | cons a w ih =>
        simp only [List.map_cons, List.sum_cons, ← ih, crossTerm]; push_cast; ring
    rw [hcast, norm_sub_rev]
    exact norm_sum_map_sub_le _ _ _ _ fun e _ => tri_near g e.1 e.2

theorem seg_integral (k u v : ℝ) :
    ((v - u : ℝ) : ℂ) * (exp (I * ((k * u : ℝ) : ℂ)) * segPhi (k * (v - u))) =
      ∫ y in u..v, exp (I * ((k * y : ℝ) : ℂ)) := by
  have := intervalIntegral.smul_integral_comp_add_mul (a := 0) (b := 1)
    (f := fun y : ℝ => exp (I * ((k * y : ℝ) : ℂ))) (c := v - u) (d := u)
  simp only [mul_zero, add_zero, mul_one, add_sub_cancel] at this
  rw [← this, Complex.real_smul]
  congr 1
  unfold segPhi
  rw [← intervalIntegral.integral_const_mul]
  congr 1; funext t
  rw [← Complex.exp_add]; push_cast; ring_nf

theorem seg_ftc (k u v : ℝ) :
    I * k * (∫ y in u..v, exp (I * ((k * y : ℝ) : ℂ))) =
      exp (I * ((k * v : ℝ) : ℂ)) - exp (I * ((k * u : ℝ) : ℂ)) := by
  rw [← seg_integral]
  have := segPhi_mul (k * (v - u))
  have h2 : exp (I * ((k * v : ℝ) : ℂ)) =
      exp (I * ((k * u : ℝ) : ℂ)) * exp (I * ((k * (v - u) : ℝ) : ℂ)) := by
    rw [← Complex.exp_add]; push_cast; ring_nf
  rw [h2]
  push_cast at this ⊢
  linear_combination exp (I * (k * u)) * this

theorem triFourier_zero (p q : R2) : triFourier (0, 0) p q = ((p.1 * q.2 - p.2 * q.1 : ℝ) : ℂ) / 2 := by
  have := tri_near (0, 0) p q
  simp only [zero_mul, add_zero, abs_zero, mul_zero] at this
  exact sub_eq_zero.mp (norm_le_zero_iff.mp this)

theorem lineInt_vert (g : R2) (x u v : ℝ) :
    ((v - u : ℝ) : ℂ) * lineInt g (x, u) (x, v) =
      exp (I * ((g.1 * x : ℝ) : ℂ)) * ∫ y in u..v, exp (I * ((g.2 * y : ℝ) : ℂ)) := by
  rw [← seg_integral]
  unfold lineInt
  simp only [sub_self, mul_zero, zero_add]
  have : exp (I * ((g.1 * x + g.2 * u : ℝ) : ℂ)) =
      exp (I * ((g.1 * x : ℝ) : ℂ)) * exp (I * ((g.2 * u : ℝ) : ℂ)) := by
    rw [← Complex.exp_add]; push_cast; ring_nf
  rw [this]; ring

theorem lineInt_horiz (g : R2) (y u v : ℝ) :
    ((v - u : ℝ) : ℂ) * lineInt g (u, y) (v, y) =
      exp (I * ((g.2 * y : ℝ) : ℂ)) * ∫ x in u..v, exp (I * ((g.1 * x : ℝ) : ℂ)) := by
  rw [← seg_integral]
  unfold lineInt
  simp only [sub_self, mul_zero, add_zero]
  have : exp (I * ((g.1 * u + g.2 * y : ℝ) : ℂ)) =
      exp (I * ((g.2 * y : ℝ) : ℂ)) * exp (I * ((g.1 * u : ℝ) : ℂ)) := by
    rw [← Complex.exp_add]; push_cast; ring_nf
  rw [this]; ring

/-- The integral over the signed triangles is the integral over the polygon: for a rectangle it is
the product of the integrals over its two sides. -/
theorem C83_rectangle (x0 x1 y0 y1 : ℝ) (g : R2) :
    polyFourier [(x0, y0), (x1, y0), (x1, y1), (x0, y1)] g =
      (∫ x in x0..x1, exp (-I * ((g.1 * x : ℝ) : ℂ))) *
        ∫ y in y0..y1, exp (-I * ((g.2 * y : ℝ) : ℂ)) := by
  have hneg : ∀ k y : ℝ, exp (-I * ((k * y : ℝ) : ℂ)) = exp (I * ((-k * y : ℝ) : ℂ)) := by
    intro k y; push_cast; ring_nf
  simp only [hneg]
  by_cases h1 : g.1 = 0
  · by_cases h2 : g.2 = 0
    · have hg : g = (0, 0) := Prod.ext h1 h2
      subst hg
      simp [polyFourier, triFourier_zero, List.rotate]
      ring
    · have hc : I * ((-g.2 : ℝ) : ℂ) ≠ 0 :=
        mul_ne_zero I_ne_zero (by exact_mod_cast neg_ne_zero.mpr h2)
      apply mul_left_cancel₀ hc
      rw [poly_green_x]
      simp only [List.rotate, List.length_cons, List.length_nil, Nat.reduceAdd, Nat.reduceMod,
        List.splitAt_eq, List.take, List.drop, List.cons_append, List.nil_append, List.zip_cons_cons,
        List.zip_nil_left, List.map_cons, List.map_nil, List.sum_cons, List.sum_nil, sub_self,
        ofReal_zero, zero_mul, neg_zero, lineInt_horiz]
      have := seg_ftc (-g.2) y0 y1
      rw [intervalIntegral.integral_symm x0 x1]
      linear_combination (∫ x in x0..x1, exp (I * ((-g.1 * x : ℝ) : ℂ))) * -this
  · have hc : I * ((-g.1 : ℝ) : ℂ) ≠ 0 :=
      mul_ne_zero I_ne_zero (by exact_mod_cast neg_ne_zero.mpr h1)
    apply mul_left_cancel₀ hc
    rw [poly_green_y]
    simp only [List.rotate, List.length_cons, List.length_nil, Nat.reduceAdd, Nat.reduceMod,
      List.splitAt_eq, List.take, List.drop, List.cons_append, List.nil_append, List.zip_cons_cons,
      List.zip_nil_left, List.map_cons, List.map_nil, List.sum_cons, List.sum_nil, sub_self,
      ofReal_zero, zero_mul, lineInt_vert]
    have := seg_ftc (-g.1) x0 x1
    rw [intervalIntegral.integral_symm y0 y1]
    linear_combination (∫ y in y0..y1, exp (I * ((-g.2 * y : ℝ) : ℂ))) * -this

/-- The hypothesis on the edges is needed: an edge whose displacement is exactly `-1e-10` along `x`
is left out of the sum at every vector along `x`, and the transform is then wrong by the whole
contribution of that edge. -/
theorem C83_dropped_edge : ∃ P, Poly.new [(0, 0), (1, 0), (1 - 1e-10, 1), (0, 1)] = .ok P ∧
    0.9 ≤ ‖polyFt P.verts (1, 0) - polyFourier [(0, 0), (1, 0), (1 - 1e-10, 1), (0, 1)] (1, 0)‖ := by
  have hpos : ¬ (polyFt ([((0:ℝ), (0:ℝ)), (1, 0), (1 - 1e-10, 1), (0, 1)] ++ [(0, 0)]) (0, 0)).re < 0 := by
    simp [polyFt, shoelace, edgeSum, edges, crossTerm, List.rotate]; norm_num
  refine ⟨⟨[(0, 0), (1, 0), (1 - 1e-10, 1), (0, 1)] ++ [(0, 0)], _⟩, by
    simp only [Poly.new]; rw [if_neg hpos], ?_⟩
  rw [polyFt_closed]
  have hg := poly_green_y [((0:ℝ), (0:ℝ)), (1, 0), (1 - 1e-10, 1), (0, 1)] (1, 0)
  have hcode : I * ((-1 : ℝ) : ℂ) * polyFt [((0:ℝ), (0:ℝ)), (1, 0), (1 - 1e-10, 1), (0, 1)] (1, 0) =
      I * ((-1 : ℝ) : ℂ) * -edgeGen (-1) 0 (0, 1) (0, 0) := by
    have h0 : ∀ gx gy : ℝ, ∀ p q : R2, q.2 = p.2 → edgeGen gx gy p q = 0 := by
      intro gx gy p q h; simp [edgeGen, h]
    have h1 : edgeGen (-1) 0 (1, 0) (1 - 1e-10, 1) = 0 := by
      simp [edgeGen, slope, regInv]
    simp [polyFt, edgeSumC, edges, List.rotate, h0, h1]
    norm_num
  have hclose := edgeGen_close (-1) 0 1e-20 (0, 1) (0, 0) (by norm_num) (by norm_num) (by norm_num)
  have hright : 1 - 1e-10 ≤ ‖lineInt (-1, 0) (1, 0) (1 - 1e-10, 1)‖ := by
    unfold lineInt
    rw [norm_mul, mul_comm I, Complex.norm_exp_ofReal_mul_I, one_mul]
    have h1 := segPhi_lip 0 ((-1, (0:ℝ)).1 * (((1:ℝ) - 1e-10, (1:ℝ)).1 - ((1:ℝ), (0:ℝ)).1) +
      (-1, (0:ℝ)).2 * (((1:ℝ) - 1e-10, (1:ℝ)).2 - ((1:ℝ), (0:ℝ)).2))
    rw [segPhi_zero] at h1
    have h2 := norm_sub_norm_le (1 : ℂ) (segPhi ((-1, (0:ℝ)).1 * (((1:ℝ) - 1e-10, (1:ℝ)).1 - ((1:ℝ), (0:ℝ)).1) +
      (-1, (0:ℝ)).2 * (((1:ℝ) - 1e-10, (1:ℝ)).2 - ((1:ℝ), (0:ℝ)).2)))
    rw [norm_one] at h2
    have h3 : |0 - ((-1, (0:ℝ)).1 * (((1:ℝ) - 1e-10, (1:ℝ)).1 - ((1:ℝ), (0:ℝ)).1) +
      (-1, (0:ℝ)).2 * (((1:ℝ) - 1e-10, (1:ℝ)).2 - ((1:ℝ), (0:ℝ)).2))| = 1e-10 := by
      norm_num
    linarith
  simp only [List.rotate, List.length_cons, List.length_nil, Nat.reduceAdd, Nat.reduceMod,
    List.splitAt_eq, List.take, List.drop, List.cons_append, List.nil_append, List.zip_cons_cons,
    List.zip_nil_left, List.map_cons, List.map_nil, List.sum_cons, List.sum_nil, sub_self,
    ofReal_zero, zero_mul, sub_zero, ofReal_one, one_mul, zero_add, add_zero, neg_zero] at hg
  set F := polyFourier [((0:ℝ), (0:ℝ)), (1, 0), (1 - 1e-10, 1), (0, 1)] (1, 0)
  set C := polyFt [((0:ℝ), (0:ℝ)), (1, 0), (1 - 1e-10, 1), (0, 1)] (1, 0)
  set R := lineInt (-1, 0) (1, 0) (1 - 1e-10, 1)
  set L := (((0 - 1 : ℝ)) : ℂ) * lineInt (-1, 0) (0, 1) (0, 0)
  rw [← hcode] at hclose
  have hn : ‖C - F‖ = ‖I * ((-1 : ℝ) : ℂ) * (C - F)‖ := by simp
  rw [hn, mul_sub, hg]
  have h5 : I * ((-1 : ℝ) : ℂ) * C - (R + L) = -(R - (I * ((-1 : ℝ) : ℂ) * C - L)) := by ring
  rw [h5, norm_neg]
  have h6 := norm_sub_norm_le R (I * ((-1 : ℝ) : ℂ) * C - L)
  have h7 : ‖I * ((-1 : ℝ) : ℂ) * C - L‖ ≤ 1e-9 := by
    refine hclose.trans ?_
    norm_num
  have h8 : (0.9 : ℝ) ≤ 1 - 1e-10 - 1e-9 := by norm_num
  linarith

/-- The unit square at `g = (1, 0)`: the hypotheses hold with `ρ = 1e-28`. -/
example : ∀ e ∈ [((0:ℝ), (0:ℝ)), (1, 0), (1, 1), (0, 1)].zip
      ([((0:ℝ), (0:ℝ)), (1, 0), (1, 1), (0, 1)].rotate 1), e.2.2 - e.1.2 ≠ 0 →
      2e-20 ≤ |e.2.2 - e.1.2| ∧
      1e-50 ≤ (1e-28 : ℝ) * (1 * (1 * (e.2.1 - e.1.1 + 1e-10) + 0 * (e.2.2 - e.1.2 + 1e-20)) /
        (e.2.2 - e.1.2 + 1e-20)) ^ 2 := by
  simp [List.rotate]; norm_num

/-- The unit square at `g = (0, 1)`: the hypotheses hold with `ρ = 1e-9`. -/
example : ∀ e ∈ [((0:ℝ), (0:ℝ)), (1, 0), (1, 1), (0, 1)].zip
      ([((0:ℝ), (0:ℝ)), (1, 0), (1, 1), (0, 1)].rotate 1), e.2.1 - e.1.1 ≠ 0 →
      2e-10 ≤ |e.2.1 - e.1.1| ∧
      1e-50 ≤ (1e-9 : ℝ) * (1 * (0 * (e.2.1 - e.1.1 + 1e-10) + 1 * (e.2.2 - e.1.2 + 1e-20)) /
        (e.2.1 - e.1.1 + 1e-10)) ^ 2 := by
  simp [List.rotate]; norm_num

end Legume
