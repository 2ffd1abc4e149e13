import Verif.Lemmas.CellFold

/-! # Fourier coefficients of the permittivity of a layer -/
namespace Legume
open Spec MeasureTheory
open scoped Real ComplexConjugate

open Classical in
theorem permittivity_value (a1 a2 : R2) (eb : ℝ) (shapes : List (ℝ × Set R2)) (hA : Apart a1 a2 (shapes.map Prod.snd))
    (s : ℝ × Set R2) (hs : s ∈ shapes) (p : R2) (hp : p ∈ copies a1 a2 s.2) :
    eb + (shapes.map fun s => (s.1 - eb) * (copies a1 a2 s.2).indicator 1 p).sum = s.1 := by
  obtain ⟨m, hm⟩ := hp
  obtain ⟨l1, l2, rfl⟩ := List.append_of_mem hs
  have hpw := hA.2
  simp only [List.map_append, List.map_cons, List.pairwise_append, List.pairwise_cons] at hpw
  have z1 : ∀ t ∈ l1, (t.1 - eb) * (copies a1 a2 t.2).indicator (1 : R2 → ℝ) p = 0 := by
    intro t ht
    rw [Set.indicator_of_notMem, mul_zero]
    rintro ⟨n, hn⟩
    have := hpw.2.2 t.2 (List.mem_map_of_mem ht) s.2 (by simp) _ (m - n) hn
    apply this
    rw [latVec_sub]
    simpa using hm
  have z2 : ∀ t ∈ l2, (t.1 - eb) * (copies a1 a2 t.2).indicator (1 : R2 → ℝ) p = 0 := by
    intro t ht
    rw [Set.indicator_of_notMem, mul_zero]
    rintro ⟨n, hn⟩
    have := hpw.2.1.1 t.2 (List.mem_map_of_mem ht) _ (n - m) hm
    apply this
    rw [latVec_sub]
    simpa using hn
  have s1 : (l1.map fun t => (t.1 - eb) * (copies a1 a2 t.2).indicator (1 : R2 → ℝ) p).sum = 0 :=
    List.sum_eq_zero fun x hx => by
      obtain ⟨t, ht, rfl⟩ := List.mem_map.1 hx; exact z1 t ht
  have s2 : (l2.map fun t => (t.1 - eb) * (copies a1 a2 t.2).indicator (1 : R2 → ℝ) p).sum = 0 :=
    List.sum_eq_zero fun x hx => by
      obtain ⟨t, ht, rfl⟩ := List.mem_map.1 hx; exact z2 t ht
  rw [List.map_append, List.map_cons, List.sum_append, List.sum_cons, s1, s2,
    Set.indicator_of_mem (show p ∈ copies a1 a2 s.2 from ⟨m, hm⟩)]
  simp

open Classical in
theorem permittivity_eq (a1 a2 : R2) (eb : ℝ) (shapes : List (ℝ × Set R2)) (hA : Apart a1 a2 (shapes.map Prod.snd))
    (eps : R2 → ℝ) (he : IsPermittivity a1 a2 eb shapes eps) (p : R2) :
    eps p = eb + (shapes.map fun s => (s.1 - eb) * (copies a1 a2 s.2).indicator 1 p).sum := by
  by_cases h : ∃ s ∈ shapes, p ∈ copies a1 a2 s.2
  · obtain ⟨s, hs, hp⟩ := h
    rw [permittivity_value a1 a2 eb shapes hA s hs p hp]
    obtain ⟨m, hm⟩ := hp
    exact he.inside s hs p m hm
  · push Not at h
    rw [he.outside p fun s hs m hm => h s hs ⟨m, hm⟩]
    have : (shapes.map fun t => (t.1 - eb) * (copies a1 a2 t.2).indicator (1 : R2 → ℝ) p).sum = 0 :=
      List.sum_eq_zero fun x hx => by
        obtain ⟨t, ht, rfl⟩ := List.mem_map.1 hx
        rw [Set.indicator_of_notMem (h t ht), mul_zero]
    rw [this, add_zero]

theorem permittivity_measurable (a1 a2 : R2) (eb : ℝ) (shapes : List (ℝ × Set R2))
    (hA : Apart a1 a2 (shapes.map Prod.snd)) (hm : ∀ s ∈ shapes, MeasurableSet s.2)
    (eps : R2 → ℝ) (he : IsPermittivity a1 a2 eb shapes eps) : Measurable eps := by
  have e : eps = fun p => eb + (shapes.map fun s => (s.1 - eb) * (copies a1 a2 s.2).indicator 1 p).sum :=
    funext fun p => permittivity_eq a1 a2 eb shapes hA eps he p
  rw [e]
  refine measurable_const.add ?_
  clear e he hA
  induction shapes with
  | nil => simp
  | cons s l ih =>
    simp only [List.map_cons, List.sum_cons]
    exact (measurable_const.mul (measurable_one.indicator (copies_measurable a1 a2 s.2 (hm s (by simp))))).add
      (ih fun t ht => hm t (List.mem_cons_of_mem _ ht))

/-- The permittivity takes no other values than those of the background and of the shapes. -/
theorem permittivity_range (a1 a2 : R2) (eb : ℝ) (shapes : List (ℝ × Set R2)) (eps : R2 → ℝ)
    (he : IsPermittivity a1 a2 eb shapes eps) (p : R2) : eps p = eb ∨ ∃ s ∈ shapes, eps p = s.1 := by
  by_cases h : ∃ s ∈ shapes, ∃ m, p + latVec a1 a2 m ∈ s.2
  · obtain ⟨s, hs, m, hm⟩ := h
    exact Or.inr ⟨s, hs, he.inside s hs p m hm⟩
  · push Not at h
    exact Or.inl (he.outside p h)

theorem permittivity_bounded (a1 a2 : R2) (eb : ℝ) (shapes : List (ℝ × Set R2)) (eps : R2 → ℝ)
    (he : IsPermittivity a1 a2 eb shapes eps) : ∃ C, ∀ p, |eps p| ≤ C := by
  refine ⟨|eb| + (shapes.map fun s => |s.1|).sum, fun p => ?_⟩
  have h0 : ∀ l : List (ℝ × Set R2), 0 ≤ (l.map fun s => |s.1|).sum := fun l =>
    List.sum_nonneg fun x hx => by obtain ⟨s, -, rfl⟩ := List.mem_map.1 hx; exact abs_nonneg _
  rcases permittivity_range a1 a2 eb shapes eps he p with h | ⟨s, hs, h⟩
  · rw [h]; linarith [h0 shapes]
  · rw [h]
    have : |s.1| ≤ (shapes.map fun s => |s.1|).sum :=
      List.single_le_sum (fun x hx => by obtain ⟨s, -, rfl⟩ := List.mem_map.1 hx; exact abs_nonneg _) _
        (List.mem_map_of_mem hs)
    linarith [abs_nonneg eb]

theorem exp_neg_wave (g p : R2) :
    Complex.exp (-Complex.I * ((g.1 * p.1 + g.2 * p.2 : ℝ) : ℂ)) = conj (wave g p.1 p.2) := by
  rw [wave, ← Complex.exp_conj, map_mul, Complex.conj_I, Complex.conj_ofReal]

theorem norm_wave (g : R2) (x y : ℝ) : ‖wave g x y‖ = 1 := by
  rw [wave, mul_comm]; exact Complex.norm_exp_ofReal_mul_I _

/-- Waves of the reciprocal lattice have the period of the lattice. -/
theorem wave_periodic (a1 a2 b1 b2 : R2) (hd : Dual a1 a2 b1 b2) (n m : ℤ × ℤ) (p : R2) :
    wave (latVec b1 b2 n) (p + latVec a1 a2 m).1 (p + latVec a1 a2 m).2 = wave (latVec b1 b2 n) p.1 p.2 := by
  have e : (latVec b1 b2 n).1 * (p + latVec a1 a2 m).1 + (latVec b1 b2 n).2 * (p + latVec a1 a2 m).2 =
      ((latVec b1 b2 n).1 * p.1 + (latVec b1 b2 n).2 * p.2) + ((n.1 * m.1 + n.2 * m.2 : ℤ) : ℝ) * (2 * π) := by
    simp only [latVec, Prod.fst_add, Prod.snd_add]
    push_cast
    linear_combination (n.1 * m.1 : ℝ) * hd.h11 + (n.2 * m.1 : ℝ) * hd.h12 + (n.1 * m.2 : ℝ) * hd.h21 +
      (n.2 * m.2 : ℝ) * hd.h22
  rw [wave, wave, e, Complex.ofReal_add, mul_add, Complex.exp_add]
  have : Complex.exp (Complex.I * ((((n.1 * m.1 + n.2 * m.2 : ℤ) : ℝ) * (2 * π) : ℝ) : ℂ)) = 1 := by
    rw [Complex.exp_eq_one_iff]
    exact ⟨n.1 * m.1 + n.2 * m.2, by push_cast; ring⟩
  rw [this, mul_one]

theorem cell_integrable (a1 a2 : R2) (f : R2 → ℂ) (hf : Measurable f) (C : ℝ) (hC : ∀ p, ‖f p‖ ≤ C) :
    IntegrableOn f (cellSet a1 a2) :=
  Measure.integrableOn_of_bounded (M := C) (cellSet_measure a1 a2).ne hf.aestronglyMeasurable
    (Filter.Eventually.of_forall hC)

theorem cellMean_eq (a1 a2 : R2) (h : a1.1 * a2.2 - a1.2 * a2.1 ≠ 0) (f : R2 → ℂ) (hf : Measurable f) (C : ℝ)
    (hC : ∀ p, ‖f p‖ ≤ C) : cellMean a1 a2 (fun x y => f (x, y)) =
      (∫ p in cellSet a1 a2, f p) / ((|a1.1 * a2.2 - a1.2 * a2.1| : ℝ) : ℂ) := by
  rw [cellSet_integral a1 a2 h f (cell_integrable a1 a2 f hf C hC), mul_div_cancel_left₀]
  exact_mod_cast abs_ne_zero.2 h

/-- The Fourier coefficients of the permittivity from the integrals over the shapes. -/
theorem epsCoeff_eq (a1 a2 b1 b2 : R2) (hd : Dual a1 a2 b1 b2) (h : a1.1 * a2.2 - a1.2 * a2.1 ≠ 0) (eb : ℝ)
    (shapes : List (ℝ × Set R2)) (hA : Apart a1 a2 (shapes.map Prod.snd)) (hm : ∀ s ∈ shapes, MeasurableSet s.2)
    (eps : R2 → ℝ) (he : IsPermittivity a1 a2 eb shapes eps) (n : ℤ × ℤ) :
    epsCoeff a1 a2 eps (latVec b1 b2 n) = (if n = 0 then (eb : ℂ) else 0) +
      (shapes.map fun s => ((s.1 - eb : ℝ) : ℂ) * regionFourier s.2 (latVec b1 b2 n)).sum /
        ((|a1.1 * a2.2 - a1.2 * a2.1| : ℝ) : ℂ) := by
  set W : R2 → ℂ := fun p => Complex.exp (-Complex.I * (((latVec b1 b2 n).1 * p.1 + (latVec b1 b2 n).2 * p.2 : ℝ) : ℂ))
    with hW
  have hWc : Continuous W := by rw [hW]; fun_prop
  have hWn : ∀ p, ‖W p‖ ≤ 1 := fun p => by
    rw [hW]; simp only; rw [exp_neg_wave, RCLike.norm_conj, norm_wave]
  have hWp : ∀ p m, W (p + latVec a1 a2 m) = W p := fun p m => by
    rw [hW]; simp only; rw [exp_neg_wave, exp_neg_wave, wave_periodic a1 a2 b1 b2 hd]
  obtain ⟨C, hC⟩ := permittivity_bounded a1 a2 eb shapes eps he
  have hmeas := permittivity_measurable a1 a2 eb shapes hA hm eps he
  have hc : epsCoeff a1 a2 eps (latVec b1 b2 n) =
      (∫ p in cellSet a1 a2, (eps p : ℂ) * W p) / ((|a1.1 * a2.2 - a1.2 * a2.1| : ℝ) : ℂ) := by
    refine cellMean_eq a1 a2 h (fun p => (eps p : ℂ) * W p)
      ((Complex.measurable_ofReal.comp hmeas).mul hWc.measurable) C fun p => ?_
    rw [norm_mul, Complex.norm_real]
    calc ‖eps p‖ * ‖W p‖ ≤ C * 1 := mul_le_mul (hC p) (hWn p) (norm_nonneg _) ((abs_nonneg _).trans (hC p))
      _ = C := mul_one C
  have hAne : ((|a1.1 * a2.2 - a1.2 * a2.1| : ℝ) : ℂ) ≠ 0 := by exact_mod_cast abs_ne_zero.2 h
  have hWi : IntegrableOn W (cellSet a1 a2) := cell_integrable a1 a2 W hWc.measurable 1 hWn
  have h1 : (∫ p in cellSet a1 a2, W p) = (if n = 0 then 1 else 0) * ((|a1.1 * a2.2 - a1.2 * a2.1| : ℝ) : ℂ) := by
    rw [cellSet_integral a1 a2 h W hWi, mul_comm]
    congr 1
    have := cellMean_wave a1 a2 b1 b2 hd 0 n 1
    rw [cellMean]
    refine Eq.trans ?_ (this.trans ?_)
    · refine intervalIntegral.integral_congr fun u _ => intervalIntegral.integral_congr fun v _ => ?_
      simp only [hW]
      rw [exp_neg_wave (latVec b1 b2 n) (u * a1.1 + v * a2.1, u * a1.2 + v * a2.2), latVec_zero]
      simp [wave]
    · simp only [eq_comm]
  have key : ∀ l : List (ℝ × Set R2), (∀ s ∈ l, MeasurableSet s.2 ∧ Isolated a1 a2 s.2) →
      IntegrableOn (fun p => (((l.map fun s => (s.1 - eb) * (copies a1 a2 s.2).indicator 1 p).sum : ℝ) : ℂ) * W p)
        (cellSet a1 a2) ∧
      ∫ p in cellSet a1 a2, (((l.map fun s => (s.1 - eb) * (copies a1 a2 s.2).indicator 1 p).sum : ℝ) : ℂ) * W p =
        (l.map fun s => ((s.1 - eb : ℝ) : ℂ) * regionFourier s.2 (latVec b1 b2 n)).sum := by
    intro l
    induction l with
    | nil => intro _; simp
    | cons s l ih =>
      intro hl
      obtain ⟨i1, i2⟩ := ih fun t ht => hl t (List.mem_cons_of_mem _ ht)
      obtain ⟨hs1, hs2⟩ := hl s (by simp)
      have hcm := copies_measurable a1 a2 s.2 hs1
      have e : (fun p => ((((s :: l).map fun s => (s.1 - eb) * (copies a1 a2 s.2).indicator 1 p).sum : ℝ) : ℂ) * W p) =
          fun p => ((s.1 - eb : ℝ) : ℂ) * (copies a1 a2 s.2).indicator W p +
            (((l.map fun s => (s.1 - eb) * (copies a1 a2 s.2).indicator 1 p).sum : ℝ) : ℂ) * W p := by
        funext p
        simp only [List.map_cons, List.sum_cons, Complex.ofReal_add, add_mul]
        congr 1
        by_cases hp : p ∈ copies a1 a2 s.2
        · rw [Set.indicator_of_mem hp, Set.indicator_of_mem hp]; simp
        · rw [Set.indicator_of_notMem hp, Set.indicator_of_notMem hp]; simp
      have i0 : IntegrableOn (fun p => ((s.1 - eb : ℝ) : ℂ) * (copies a1 a2 s.2).indicator W p) (cellSet a1 a2) :=
        (hWi.indicator hcm).const_mul _
      rw [e]
      refine ⟨i0.add i1, ?_⟩
      rw [integral_add i0 i1, i2, integral_const_mul, List.map_cons, List.sum_cons]
      congr 2
      rw [setIntegral_indicator hcm, Set.inter_comm, ← fold_integral a1 a2 h s.2 hs1 hs2 W hWc 1 hWn hWp]
      rfl
  obtain ⟨k1, k2⟩ := key shapes fun s hs => ⟨hm s hs, hA.1 s.2 (List.mem_map_of_mem hs)⟩
  rw [hc]
  have e2 : (fun p => (eps p : ℂ) * W p) = fun p => (eb : ℂ) * W p +
      (((shapes.map fun s => (s.1 - eb) * (copies a1 a2 s.2).indicator 1 p).sum : ℝ) : ℂ) * W p := by
    funext p
    rw [permittivity_eq a1 a2 eb shapes hA eps he p, Complex.ofReal_add, add_mul]
  rw [e2, integral_add (hWi.const_mul _) k1, k2, integral_const_mul, h1, add_div]
  congr 1
  rw [mul_div_assoc, mul_div_cancel_right₀ _ hAne]
  split <;> simp

/-- The quadratic form of the matrix of Fourier coefficients is an average of the permittivity. -/
theorem epsCoeff_form (a1 a2 b1 b2 : R2) (h : a1.1 * a2.2 - a1.2 * a2.1 ≠ 0)
    (eps : R2 → ℝ) (hmeas : Measurable eps) (C : ℝ) (hC : ∀ p, |eps p| ≤ C) {n : ℕ} (m : Fin n → ℤ × ℤ)
    (x : Fin n → ℂ) :
    ∑ i, ∑ j, conj (x i) * epsCoeff a1 a2 eps (latVec b1 b2 (m j - m i)) * x j =
      (((∫ p in cellSet a1 a2, eps p * ‖∑ i, conj (x i) * wave (latVec b1 b2 (m i)) p.1 p.2‖ ^ 2) /
        |a1.1 * a2.2 - a1.2 * a2.1| : ℝ) : ℂ) := by
  have hC0 : 0 ≤ C := (abs_nonneg _).trans (hC 0)
  have hce : ∀ i j, epsCoeff a1 a2 eps (latVec b1 b2 (m j - m i)) =
      (∫ p in cellSet a1 a2, (eps p : ℂ) * (wave (latVec b1 b2 (m i)) p.1 p.2 *
        conj (wave (latVec b1 b2 (m j)) p.1 p.2))) / ((|a1.1 * a2.2 - a1.2 * a2.1| : ℝ) : ℂ) := by
    intro i j
    rw [← cellMean_eq a1 a2 h (fun p => (eps p : ℂ) * (wave (latVec b1 b2 (m i)) p.1 p.2 *
        conj (wave (latVec b1 b2 (m j)) p.1 p.2))) ?_ C ?_]
    · rw [epsCoeff]
      congr 1
      funext u v
      congr 1
      rw [exp_neg_wave (latVec b1 b2 (m j - m i)) (u, v), latVec_sub, wave, wave, wave]
      rw [← Complex.exp_conj, ← Complex.exp_conj, ← Complex.exp_add]
      congr 1
      simp only [map_mul, Complex.conj_I, Complex.conj_ofReal, Prod.fst_sub, Prod.snd_sub]
      push_cast
      ring
    · refine (Complex.measurable_ofReal.comp hmeas).mul (Continuous.measurable ?_)
      exact (continuous_wave _).mul (Complex.continuous_conj.comp (continuous_wave _))
    · intro p
      rw [norm_mul, norm_mul, RCLike.norm_conj, norm_wave, norm_wave, Complex.norm_real, mul_one, mul_one]
      exact hC p
  simp only [hce]
  have hint : ∀ i j, IntegrableOn (fun p : R2 => conj (x i) * ((eps p : ℂ) * (wave (latVec b1 b2 (m i)) p.1 p.2 *
        conj (wave (latVec b1 b2 (m j)) p.1 p.2))) * x j) (cellSet a1 a2) := by
    intro i j
    refine Integrable.mul_const (Integrable.const_mul ?_ _) _
    refine cell_integrable a1 a2 _ ?_ C ?_
    · refine (Complex.measurable_ofReal.comp hmeas).mul (Continuous.measurable ?_)
      exact (continuous_wave _).mul (Complex.continuous_conj.comp (continuous_wave _))
    · intro p
      rw [norm_mul, norm_mul, RCLike.norm_conj, norm_wave, norm_wave, Complex.norm_real, mul_one, mul_one]
      exact hC p
  have e : ∀ i j, conj (x i) * ((∫ p in cellSet a1 a2, (eps p : ℂ) * (wave (latVec b1 b2 (m i)) p.1 p.2 *
        conj (wave (latVec b1 b2 (m j)) p.1 p.2))) / ((|a1.1 * a2.2 - a1.2 * a2.1| : ℝ) : ℂ)) * x j =
      (∫ p in cellSet a1 a2, conj (x i) * ((eps p : ℂ) * (wave (latVec b1 b2 (m i)) p.1 p.2 *
        conj (wave (latVec b1 b2 (m j)) p.1 p.2))) * x j) / ((|a1.1 * a2.2 - a1.2 * a2.1| : ℝ) : ℂ) := by
    intro i j
    rw [integral_mul_const, integral_const_mul]
    ring
  simp only [e]
  simp_rw [← Finset.sum_div]
  rw [Complex.ofReal_div]
  congr 1
  have e2 : ∑ i, ∑ j, (∫ p in cellSet a1 a2, conj (x i) * ((eps p : ℂ) * (wave (latVec b1 b2 (m i)) p.1 p.2 *
        conj (wave (latVec b1 b2 (m j)) p.1 p.2))) * x j) =
      ∫ p in cellSet a1 a2, ∑ i, ∑ j, conj (x i) * ((eps p : ℂ) * (wave (latVec b1 b2 (m i)) p.1 p.2 *
        conj (wave (latVec b1 b2 (m j)) p.1 p.2))) * x j := by
    rw [integral_finsetSum _ fun i _ => integrable_finsetSum _ fun j _ => hint i j]
    refine Finset.sum_congr rfl fun i _ => ?_
    rw [integral_finsetSum _ fun j _ => hint i j]
  rw [e2, ← integral_complex_ofReal]
  congr 1
  funext p
  rw [Complex.ofReal_mul, Complex.ofReal_pow, ← Complex.mul_conj', map_sum, Finset.sum_mul_sum, Finset.mul_sum]
  refine Finset.sum_congr rfl fun i _ => ?_
  rw [Finset.mul_sum]
  refine Finset.sum_congr rfl fun j _ => ?_
  rw [map_mul, Complex.conj_conj]
  ring

/-- Parseval's equation for the sum of waves in the quadratic form. -/
theorem wave_sum_norm (a1 a2 b1 b2 : R2) (hd : Dual a1 a2 b1 b2) (h : a1.1 * a2.2 - a1.2 * a2.1 ≠ 0) {n : ℕ}
    (m : Fin n → ℤ × ℤ) (hm : Function.Injective m) (x : Fin n → ℂ) :
    (∫ p in cellSet a1 a2, ‖∑ i, conj (x i) * wave (latVec b1 b2 (m i)) p.1 p.2‖ ^ 2) /
        |a1.1 * a2.2 - a1.2 * a2.1| = ∑ i, ‖x i‖ ^ 2 := by
  have h1 := cellMean_parseval Finset.univ a1 a2 b1 b2 hd m (fun i _ j _ e => hm e) (fun i => conj (x i))
    fun i => conj (x i)
  have hcont : Continuous fun p : R2 => ∑ i, conj (x i) * wave (latVec b1 b2 (m i)) p.1 p.2 :=
    continuous_finset_sum _ fun i _ => continuous_const.mul (continuous_wave _)
  have hb : ∀ p : R2, ‖∑ i, conj (x i) * wave (latVec b1 b2 (m i)) p.1 p.2‖ ≤ ∑ i, ‖x i‖ := fun p => by
    refine (norm_sum_le _ _).trans (le_of_eq (Finset.sum_congr rfl fun i _ => ?_))
    rw [norm_mul, RCLike.norm_conj, norm_wave, mul_one]
  have h2 := cellMean_eq a1 a2 h (fun p => conj (∑ i, conj (x i) * wave (latVec b1 b2 (m i)) p.1 p.2) *
      ∑ i, conj (x i) * wave (latVec b1 b2 (m i)) p.1 p.2)
    (Continuous.measurable ((Complex.continuous_conj.comp hcont).mul hcont)) ((∑ i, ‖x i‖) * ∑ i, ‖x i‖) fun p => by
      rw [norm_mul, RCLike.norm_conj]
      exact mul_le_mul (hb p) (hb p) (norm_nonneg _) ((norm_nonneg _).trans (hb p))
  rw [h1] at h2
  have h3 : (((∫ p in cellSet a1 a2, ‖∑ i, conj (x i) * wave (latVec b1 b2 (m i)) p.1 p.2‖ ^ 2) /
        |a1.1 * a2.2 - a1.2 * a2.1| : ℝ) : ℂ) = ((∑ i, ‖x i‖ ^ 2 : ℝ) : ℂ) := by
    rw [Complex.ofReal_div, ← integral_complex_ofReal]
    have e : (fun p : R2 => ((‖∑ i, conj (x i) * wave (latVec b1 b2 (m i)) p.1 p.2‖ ^ 2 : ℝ) : ℂ)) = fun p =>
        conj (∑ i, conj (x i) * wave (latVec b1 b2 (m i)) p.1 p.2) *
          ∑ i, conj (x i) * wave (latVec b1 b2 (m i)) p.1 p.2 := by
      funext p
      rw [Complex.ofReal_pow, Complex.conj_mul']
    rw [e, ← h2]
    push_cast
    refine Finset.sum_congr rfl fun i _ => ?_
    rw [Complex.conj_mul', RCLike.norm_conj]
  exact_mod_cast h3

/-- The quadratic form lies between those of the smallest and the largest permittivity. -/
theorem epsCoeff_bounds (a1 a2 b1 b2 : R2) (hd : Dual a1 a2 b1 b2) (h : a1.1 * a2.2 - a1.2 * a2.1 ≠ 0)
    (eps : R2 → ℝ) (hmeas : Measurable eps) (lo hi : ℝ) (hlo : ∀ p, lo ≤ eps p) (hhi : ∀ p, eps p ≤ hi) {n : ℕ}
    (m : Fin n → ℤ × ℤ) (hm : Function.Injective m) (x : Fin n → ℂ) :
    lo * ∑ i, ‖x i‖ ^ 2 ≤ (∑ i, ∑ j, conj (x i) * epsCoeff a1 a2 eps (latVec b1 b2 (m j - m i)) * x j).re ∧
    (∑ i, ∑ j, conj (x i) * epsCoeff a1 a2 eps (latVec b1 b2 (m j - m i)) * x j).re ≤ hi * ∑ i, ‖x i‖ ^ 2 := by
  have hC : ∀ p, |eps p| ≤ |lo| + |hi| := fun p => abs_le.2
    ⟨by linarith [hlo p, neg_abs_le lo, abs_nonneg hi], by linarith [hhi p, le_abs_self hi, abs_nonneg lo]⟩
  rw [epsCoeff_form a1 a2 b1 b2 h eps hmeas _ hC m x, Complex.ofReal_re, ← wave_sum_norm a1 a2 b1 b2 hd h m hm x,
    ← mul_div_assoc, ← mul_div_assoc, ← integral_const_mul, ← integral_const_mul]
  have hcont : Continuous fun p : R2 => ‖∑ i, conj (x i) * wave (latVec b1 b2 (m i)) p.1 p.2‖ ^ 2 :=
    ((continuous_finset_sum _ fun i _ => continuous_const.mul (continuous_wave _)).norm).pow 2
  have hb : ∀ p : R2, ‖∑ i, conj (x i) * wave (latVec b1 b2 (m i)) p.1 p.2‖ ^ 2 ≤ (∑ i, ‖x i‖) ^ 2 := fun p => by
    refine pow_le_pow_left₀ (norm_nonneg _) ((norm_sum_le _ _).trans (le_of_eq (Finset.sum_congr rfl fun i _ => ?_))) 2
    rw [norm_mul, RCLike.norm_conj, norm_wave, mul_one]
  have hbi : ∀ f : R2 → ℝ, Measurable f → (∃ D, ∀ p, |f p| ≤ D) → IntegrableOn f (cellSet a1 a2) := by
    rintro f hf ⟨D, hD⟩
    exact Measure.integrableOn_of_bounded (M := D) (cellSet_measure a1 a2).ne hf.aestronglyMeasurable
      (Filter.Eventually.of_forall hD)
  have bd : ∀ (c : R2 → ℝ) (D : ℝ), (∀ p, |c p| ≤ D) → ∀ p : R2,
      |c p * ‖∑ i, conj (x i) * wave (latVec b1 b2 (m i)) p.1 p.2‖ ^ 2| ≤ D * (∑ i, ‖x i‖) ^ 2 := fun c D hD p => by
    rw [abs_mul, abs_of_nonneg (a := _ ^ 2) (by positivity)]
    exact mul_le_mul (hD p) (hb p) (by positivity) ((abs_nonneg _).trans (hD p))
  have i1 := hbi _ (hmeas.mul hcont.measurable) ⟨_, bd eps _ hC⟩
  have i2 : ∀ c : ℝ, IntegrableOn (fun p : R2 => c * ‖∑ i, conj (x i) * wave (latVec b1 b2 (m i)) p.1 p.2‖ ^ 2)
    (cellSet a1 a2) := fun c => hbi _ (measurable_const.mul hcont.measurable) ⟨_, bd (fun _ => c) |c| fun _ => le_rfl⟩
  constructor
  · refine div_le_div_of_nonneg_right (setIntegral_mono (i2 lo) i1 fun p => ?_) (abs_nonneg _)
    exact mul_le_mul_of_nonneg_right (hlo p) (by positivity)
  · refine div_le_div_of_nonneg_right (setIntegral_mono i1 (i2 hi) fun p => ?_) (abs_nonneg _)
    exact mul_le_mul_of_nonneg_right (hhi p) (by positivity)

end Legume
