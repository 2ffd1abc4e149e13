import Mathlib.Analysis.Calculus.Deriv.Star
import Mathlib.Analysis.Calculus.Deriv.Mul
import Mathlib.MeasureTheory.Integral.IntervalIntegral.FundThmCalculus
import Verif.Lemmas.MatrixElements

/-! # Integration by parts over a stack of layers -/
namespace Legume

open Complex Spec MeasureTheory
open scoped ComplexConjugate

theorem fld_deriv (m : ModeL) (s : ℂ) (t : ℝ) :
    HasDerivAt (fld m s) (Complex.I * m.x * fld m (-s) t) t := by
  have e : ∀ a : ℂ, HasDerivAt (fun t : ℝ => Complex.exp (a * t)) (Complex.exp (a * t) * a) t := by
    intro a
    have h1 : HasDerivAt (fun t : ℝ => a * (t : ℂ)) a t := by
      simpa using (Complex.ofRealCLM.hasDerivAt (x := t)).const_mul a
    exact h1.cexp
  have h := ((e (Complex.I * m.x)).const_mul m.A).add
    (((e (-(Complex.I * m.x))).const_mul m.B).const_mul s)
  have hf : fld m s = (fun t : ℝ => m.A * Complex.exp (Complex.I * m.x * t)) +
      fun t : ℝ => s * (m.B * Complex.exp (-(Complex.I * m.x) * t)) := by
    funext t
    simp only [fld, Pi.add_apply, neg_mul]
  rw [hf]
  refine h.congr_deriv ?_
  simp only [fld, neg_mul]
  ring

theorem wronsk_deriv (m1 m2 : ModeL) (t : ℝ) :
    HasDerivAt (fun t => conj (fld m1 1 t) * (m2.x * fld m2 (-1) t))
      (-Complex.I * (conj m1.x * m2.x * (conj (fld m1 (-1) t) * fld m2 (-1) t)) +
        Complex.I * m2.x ^ 2 * (conj (fld m1 1 t) * fld m2 1 t)) t := by
  have h1 : HasDerivAt (fun t => conj (fld m1 1 t)) (conj (Complex.I * m1.x * fld m1 (-1) t)) t :=
    (fld_deriv m1 1 t).star
  have h2 := (fld_deriv m2 (-1) t).const_mul m2.x
  refine (h1.mul h2).congr_deriv ?_
  rw [neg_neg]
  simp only [map_mul, Complex.conj_I]
  ring

/-- Boundary term of a layer at its top and at its bottom; zero at infinity. -/
noncomputable def wTop (v : ℂ) (pos : LPos) (m1 m2 : ModeL) : ℂ :=
  match pos with
  | .lower => conj (fld m1 1 0) * (v * (m2.x * fld m2 (-1) 0))
  | .inner d => conj (fld m1 1 (d / 2)) * (v * (m2.x * fld m2 (-1) (d / 2)))
  | .upper => 0
@[inherit_doc wTop]
noncomputable def wBot (v : ℂ) (pos : LPos) (m1 m2 : ModeL) : ℂ :=
  match pos with
  | .lower => 0
  | .inner d => conj (fld m1 1 (-(d / 2))) * (v * (m2.x * fld m2 (-1) (-(d / 2))))
  | .upper => conj (fld m1 1 0) * (v * (m2.x * fld m2 (-1) 0))

/-- The two integrals of a layer: of products of derivatives, and of products of fields. -/
noncomputable def oDiff (pos : LPos) (m1 m2 : ModeL) : ℂ :=
  conj m1.x * m2.x * ∫ t, conj (fld m1 (-1) t) * fld m2 (-1) t ∂(layMeasure pos)
@[inherit_doc oDiff]
noncomputable def oSum (pos : LPos) (m1 m2 : ModeL) : ℂ :=
  ∫ t, conj (fld m1 1 t) * fld m2 1 t ∂(layMeasure pos)

theorem layer_parts (v : ℂ) (pos : LPos) (m1 m2 : ModeL) (h1 : Decays pos m1) (h2 : Decays pos m2) :
    v * (oDiff pos m1 m2 - m2.x ^ 2 * oSum pos m1 m2) =
      Complex.I * (wTop v pos m1 m2 - wBot v pos m1 m2) := by
  have hI := Complex.I_sq
  cases pos with
  | inner d =>
    have hd : -(d / 2) ≤ d / 2 := by have : 0 ≤ d := h1; linarith
    have i1 := fld_mul_integrable (.inner d) m1 m2 h1 h2 (-1) (-1) (by simp)
    have i2 := fld_mul_integrable (.inner d) m1 m2 h1 h2 1 1 (by simp)
    have hft := intervalIntegral.integral_eq_sub_of_hasDerivAt (a := -(d / 2)) (b := d / 2)
      (f := fun t => conj (fld m1 1 t) * (m2.x * fld m2 (-1) t)) (fun t _ => wronsk_deriv m1 m2 t) (by
        rw [intervalIntegrable_iff_integrableOn_Ioc_of_le hd]
        exact (((i1.const_mul (conj m1.x * m2.x)).const_mul (-Complex.I)).add
          (i2.const_mul (Complex.I * m2.x ^ 2))))
    rw [intervalIntegral.integral_of_le hd] at hft
    have hsplit : ∫ t in Set.Ioc (-(d / 2)) (d / 2),
        (-Complex.I * (conj m1.x * m2.x * (conj (fld m1 (-1) t) * fld m2 (-1) t)) +
        Complex.I * m2.x ^ 2 * (conj (fld m1 1 t) * fld m2 1 t)) =
        -Complex.I * oDiff (.inner d) m1 m2 + Complex.I * m2.x ^ 2 * oSum (.inner d) m1 m2 := by
      change ∫ t, _ ∂(layMeasure (.inner d)) = _
      rw [integral_add ((i1.const_mul (conj m1.x * m2.x)).const_mul (-Complex.I))
        (i2.const_mul (Complex.I * m2.x ^ 2)), integral_const_mul, integral_const_mul, integral_const_mul]
      rfl
    rw [hsplit] at hft
    simp only [wTop, wBot]
    linear_combination Complex.I * v * hft + v * (oDiff (.inner d) m1 m2 - m2.x ^ 2 * oSum (.inner d) m1 m2) * hI
  | lower =>
    obtain ⟨a1, b1⟩ := h1
    obtain ⟨a2, b2⟩ := h2
    have hre : 0 < (Complex.I * (-m2.x + conj m1.x)).re := by
      rw [Complex.I_mul_re]; simp; linarith
    have hne : Complex.I * (-m2.x + conj m1.x) ≠ 0 := by rintro h; rw [h] at hre; simp at hre
    have hint : ∫ t in Set.Iic (0 : ℝ), Complex.exp (Complex.I * (-m2.x + conj m1.x) * t) =
        1 / (Complex.I * (-m2.x + conj m1.x)) := by
      have := integral_exp_mul_complex_Iic hre 0
      simpa using this
    have hb : ∀ s : ℂ, conj s = s → s * s = 1 → ∫ t, conj (fld m1 s t) * fld m2 s t ∂(layMeasure .lower) =
        conj m1.B * m2.B * (1 / (Complex.I * (-m2.x + conj m1.x))) := by
      intro s hs hs2
      simp only [fld_mul m1 m2 s s hs, a1, a2, map_zero, zero_mul, mul_zero, add_zero, zero_add, hs2, one_mul]
      rw [integral_const_mul, ← hint]
      rfl
    simp only [oDiff, oSum, wTop, wBot]
    rw [hb (-1) (by simp) (by simp), hb 1 (by simp) (by simp)]
    have hy : Complex.I * (-m2.x + conj m1.x) * (1 / (Complex.I * (-m2.x + conj m1.x))) = 1 :=
      mul_one_div_cancel hne
    generalize 1 / (Complex.I * (-m2.x + conj m1.x)) = y at hy ⊢
    simp only [fld, a1, a2, Complex.ofReal_zero, mul_zero, neg_zero, Complex.exp_zero, mul_one, zero_add, one_mul,
      sub_zero]
    linear_combination (-Complex.I * v * m2.x * conj m1.B * m2.B) * hy +
      v * m2.x * conj m1.B * m2.B * (-m2.x + conj m1.x) * y * hI
  | upper =>
    obtain ⟨a1, b1⟩ := h1
    obtain ⟨a2, b2⟩ := h2
    have hre : (Complex.I * (m2.x - conj m1.x)).re < 0 := by
      rw [Complex.I_mul_re]; simp; linarith
    have hne : Complex.I * (m2.x - conj m1.x) ≠ 0 := by rintro h; rw [h] at hre; simp at hre
    have hint : ∫ t in Set.Ioi (0 : ℝ), Complex.exp (Complex.I * (m2.x - conj m1.x) * t) =
        -1 / (Complex.I * (m2.x - conj m1.x)) := by
      have := integral_exp_mul_complex_Ioi hre 0
      simpa using this
    have hb : ∀ s : ℂ, conj s = s → ∫ t, conj (fld m1 s t) * fld m2 s t ∂(layMeasure .upper) =
        conj m1.A * m2.A * (-1 / (Complex.I * (m2.x - conj m1.x))) := by
      intro s hs
      simp only [fld_mul m1 m2 s s hs, a1, a2, map_zero, zero_mul, mul_zero, add_zero]
      rw [integral_const_mul, ← hint]
      rfl
    simp only [oDiff, oSum, wTop, wBot]
    rw [hb (-1) (by simp), hb 1 (by simp)]
    have hy : Complex.I * (m2.x - conj m1.x) * (-1 / (Complex.I * (m2.x - conj m1.x))) = -1 :=
      mul_div_cancel₀ _ hne
    generalize -1 / (Complex.I * (m2.x - conj m1.x)) = y at hy ⊢
    simp only [fld, a1, a2, Complex.ofReal_zero, mul_zero, neg_zero, Complex.exp_zero, mul_one, add_zero,
      zero_sub]
    linear_combination (Complex.I * v * m2.x * conj m1.A * m2.A) * hy -
      v * m2.x * conj m1.A * m2.A * (m2.x - conj m1.x) * y * hI

/-- Telescoping along a chain. -/
theorem chain_telescope {α : Type} (top bot : α → ℂ) (a : α) (l : List α)
    (h : List.IsChain (fun a b => top a = bot b) (a :: l)) :
    ((a :: l).map fun a => top a - bot a).sum = top ((a :: l).getLast (by simp)) - bot a := by
  induction l generalizing a with
  | nil => simp
  | cons b l ih =>
    rw [List.isChain_cons_cons] at h
    rw [List.map_cons, List.sum_cons, ih b h.2, h.1, List.getLast_cons (l := b :: l) (by simp)]
    ring

end Legume
