import Verif.Lemmas.MatrixElements
import Verif.Props.LayerIntegrals

/-!
# Guided-mode matrix elements and the Hamiltonian: properties C28, C29, C65, C66
-/
namespace Legume

open Complex Spec MeasureTheory
open scoped ComplexConjugate

/-! ### C28 -/

theorem ijExact_conj (p : LPos) (a : ℂ) : conj (ijExact p a) = ijExact p (-conj a) := by
  unfold ijExact
  rw [← integral_conj]
  congr 1
  ext t
  rw [conj_exp_I']
  congr 1; ring

/-- **C28.** With the exact layer integrals, exchanging the two states (and taking the adjoint entry of
the inverse permittivity matrices) conjugates the coupling element, for all four combinations of
polarisations, every stack and all modes. -/
theorem C28_adjoint (stack : List (LPos × ℝ)) (einv : List ℂ) (s t : GmeState) :
    conj (gmeElem ijExact stack (einv.map conj) t s) = gmeElem ijExact stack einv s t := by
  rw [gmeElem_eq, gmeElem_eq, layPairs_adj, conj_list_sum, List.map_map, List.map_map]
  congr 1
  apply List.map_congr_left
  intro l _
  exact layTerm_conj ijExact ijExact ijExact_conj s t l

/-- The layer integrals with the regulariser `δ`; the code has `δ = 1e-20`. -/
noncomputable def ijReg (δ : ℝ) : LPos → ℂ → ℂ
  | .lower, a => Complex.I / (-a + δ)
  | .upper, a => Complex.I / (a + δ)
  | .inner d, a => 2 / (a + δ) * Complex.sin ((a + δ) * d / 2)

theorem ijLayer_eq_reg : ijLayer = ijReg 1e-20 := by
  funext p a
  cases p <;> simp only [ijLayer, ijReg, JAlpha, IAlpha] <;> push_cast <;> rfl

theorem ijReg_conj (δ : ℝ) (p : LPos) (a : ℂ) : conj (ijReg δ p a) = ijReg (-δ) p (-conj a) := by
  cases p with
  | lower =>
    simp only [ijReg, map_div₀, map_add, map_neg, Complex.conj_I, Complex.conj_ofReal, Complex.ofReal_neg]
    rw [show -(-conj a) + -(δ : ℂ) = -(-conj a + δ) by ring, div_neg, neg_div]
  | upper =>
    simp only [ijReg, map_div₀, map_add, Complex.conj_I, Complex.conj_ofReal, Complex.ofReal_neg]
    rw [show -conj a + -(δ : ℂ) = -(conj a + δ) by ring, div_neg, neg_div]
  | inner d =>
    simp only [ijReg, map_div₀, map_mul, map_add, Complex.conj_ofReal, Complex.ofReal_neg,
      ← Complex.sin_conj, map_ofNat]
    rw [show -conj a + -(δ : ℂ) = -(conj a + δ) by ring,
      show -(conj a + (δ : ℂ)) * d / 2 = -((conj a + δ) * d / 2) by ring, Complex.sin_neg, div_neg]
    ring

/-- **C28 (the code's regularised integrals).** Exactly as computed, exchanging the two modes conjugates
the element and flips the sign of the regulariser `1e-20`. -/
theorem C28_adjoint_regularised (stack : List (LPos × ℝ)) (einv : List ℂ) (s t : GmeState) :
    conj (gmeElem ijLayer stack (einv.map conj) t s) = gmeElem (ijReg (-1e-20)) stack einv s t := by
  rw [ijLayer_eq_reg, gmeElem_eq, gmeElem_eq, layPairs_adj, conj_list_sum, List.map_map, List.map_map]
  congr 1
  apply List.map_congr_left
  intro l _
  exact layTerm_conj (ijReg 1e-20) (ijReg (-1e-20)) (ijReg_conj _) s t l

/-- Explicit error of one layer integral caused by the regulariser. -/
noncomputable def ijErr : LPos → ℂ → ℝ
  | .lower, a => 1e-20 / a.im ^ 2
  | .upper, a => 1e-20 / a.im ^ 2
  | .inner d, a => 1e-20 * d ^ 2 / 2 * Real.exp (|a.im| * |d| / 2)

theorem ijErr_nonneg (p : LPos) (a : ℂ) : 0 ≤ ijErr p a := by
  cases p <;> simp only [ijErr] <;> positivity

theorem ij_error_upper (a : ℂ) (h : 0 < a.im) : ‖ijLayer .upper a - ijExact .upper a‖ ≤ ijErr .upper a :=
  C27_half_line_error a h

theorem ij_error_lower (a : ℂ) (h : a.im < 0) : ‖ijLayer .lower a - ijExact .lower a‖ ≤ ijErr .lower a := by
  have h' : 0 < (-a).im := by simpa using h
  have := C27_half_line_error (-a) h'
  have e : ijExact .lower a = ∫ t in Set.Ioi (0 : ℝ), Complex.exp (Complex.I * -a * t) := by
    unfold ijExact layMeasure
    simp only
    have k := integral_comp_neg_Ioi (c := 0) (f := fun t : ℝ => Complex.exp (Complex.I * a * t))
    rw [neg_zero] at k
    rw [← k]
    congr 1
    ext t
    congr 1
    push_cast; ring
  rw [e]
  simp only [ijLayer, ijErr]
  rw [Complex.neg_im, neg_sq] at this
  exact this

theorem ij_error_inner (d : ℝ) (hd : 0 ≤ d) (a : ℂ) (h : a + 1e-20 ≠ 0) :
    ‖ijLayer (.inner d) a - ijExact (.inner d) a‖ ≤ ijErr (.inner d) a := by
  have := C27_layer_error a d h
  rw [intervalIntegral.integral_of_le (by linarith)] at this
  exact this

/-- No argument of the regularised integrals of an inner layer hits the removable singularity. -/
def Regular (l : LayPair) : Prop :=
  match l.pos with
  | .inner _ => l.m2.x - conj l.m1.x + 1e-20 ≠ 0 ∧ -l.m2.x + conj l.m1.x + 1e-20 ≠ 0 ∧
      -l.m2.x - conj l.m1.x + 1e-20 ≠ 0 ∧ l.m2.x + conj l.m1.x + 1e-20 ≠ 0
  | _ => True

/-- Sum of the errors of the four integrals of a layer, weighted by the amplitudes. -/
noncomputable def fourErr (pos : LPos) (m1 m2 : ModeL) : ℝ :=
  ‖m1.A‖ * ‖m2.A‖ * ijErr pos (m2.x - conj m1.x) +
  ‖m1.B‖ * ‖m2.B‖ * ijErr pos (-m2.x + conj m1.x) +
  ‖m1.A‖ * ‖m2.B‖ * ijErr pos (-m2.x - conj m1.x) +
  ‖m1.B‖ * ‖m2.A‖ * ijErr pos (m2.x + conj m1.x)

theorem four_error (l : LayPair) (h1 : Decays l.pos l.m1) (h2 : Decays l.pos l.m2) (hr : Regular l)
    (s1 s2 : ℂ) (n1 : ‖s1‖ = 1) (n2 : ‖s2‖ = 1) :
    ‖four ijLayer l.pos l.m1 l.m2 s1 s2 - four ijExact l.pos l.m1 l.m2 s1 s2‖ ≤
      fourErr l.pos l.m1 l.m2 := by
  obtain ⟨pos, eps, einv, m1, m2⟩ := l
  simp only at h1 h2
  have key : ∀ (c a : ℂ) (k : ℝ), (c = 0 ∨ ‖ijLayer pos a - ijExact pos a‖ ≤ ijErr pos a) → ‖c‖ ≤ k →
      ‖c * (ijLayer pos a - ijExact pos a)‖ ≤ k * ijErr pos a := by
    intro c a k hc hk
    have hk0 : 0 ≤ k := (norm_nonneg _).trans hk
    rcases hc with rfl | hc
    · simp only [zero_mul, norm_zero]
      exact mul_nonneg hk0 (ijErr_nonneg _ _)
    · rw [norm_mul]
      exact mul_le_mul hk hc (norm_nonneg _) hk0
  have nc : ∀ a b : ℂ, ‖conj a * b‖ ≤ ‖a‖ * ‖b‖ := by
    intro a b; rw [norm_mul, Complex.norm_conj]
  have nc1 : ∀ a b : ℂ, ‖s1 * (conj a * b)‖ ≤ ‖a‖ * ‖b‖ := by
    intro a b; rw [norm_mul, n1, one_mul]; exact nc a b
  have nc2 : ∀ a b : ℂ, ‖s2 * (conj a * b)‖ ≤ ‖a‖ * ‖b‖ := by
    intro a b; rw [norm_mul, n2, one_mul]; exact nc a b
  have nc3 : ∀ a b : ℂ, ‖s1 * s2 * (conj a * b)‖ ≤ ‖a‖ * ‖b‖ := by
    intro a b; rw [norm_mul, norm_mul, n1, n2, one_mul, one_mul]; exact nc a b
  have H : (conj m1.A * m2.A = 0 ∨ ‖ijLayer pos (m2.x - conj m1.x) - ijExact pos (m2.x - conj m1.x)‖ ≤
        ijErr pos (m2.x - conj m1.x)) ∧
      (conj m1.B * m2.B = 0 ∨ ‖ijLayer pos (-m2.x + conj m1.x) - ijExact pos (-m2.x + conj m1.x)‖ ≤
        ijErr pos (-m2.x + conj m1.x)) ∧
      (conj m1.A * m2.B = 0 ∨ ‖ijLayer pos (-m2.x - conj m1.x) - ijExact pos (-m2.x - conj m1.x)‖ ≤
        ijErr pos (-m2.x - conj m1.x)) ∧
      (conj m1.B * m2.A = 0 ∨ ‖ijLayer pos (m2.x + conj m1.x) - ijExact pos (m2.x + conj m1.x)‖ ≤
        ijErr pos (m2.x + conj m1.x)) := by
    cases pos with
    | lower =>
      obtain ⟨a1, i1⟩ := h1
      obtain ⟨a2, i2⟩ := h2
      refine ⟨Or.inl (by simp [a1]), Or.inr (ij_error_lower _ (by simp; linarith)),
        Or.inl (by simp [a1]), Or.inl (by simp [a2])⟩
    | upper =>
      obtain ⟨a1, i1⟩ := h1
      obtain ⟨a2, i2⟩ := h2
      refine ⟨Or.inr (ij_error_upper _ (by simp; linarith)), Or.inl (by simp [a1]),
        Or.inl (by simp [a2]), Or.inl (by simp [a1])⟩
    | inner d =>
      obtain ⟨r1, r2, r3, r4⟩ := hr
      exact ⟨Or.inr (ij_error_inner d h1 _ r1), Or.inr (ij_error_inner d h1 _ r2),
        Or.inr (ij_error_inner d h1 _ r3), Or.inr (ij_error_inner d h1 _ r4)⟩
  obtain ⟨H1, H2, H3, H4⟩ := H
  have K1 := key _ _ _ H1 (nc m1.A m2.A)
  have K2 := key (s1 * s2 * (conj m1.B * m2.B)) _ _ (H2.imp (fun h => by rw [h, mul_zero]) id) (nc3 m1.B m2.B)
  have K3 := key (s2 * (conj m1.A * m2.B)) _ _ (H3.imp (fun h => by rw [h, mul_zero]) id) (nc2 m1.A m2.B)
  have K4 := key (s1 * (conj m1.B * m2.A)) _ _ (H4.imp (fun h => by rw [h, mul_zero]) id) (nc1 m1.B m2.A)
  refine le_trans (le_of_eq ?_) ((norm_add_le _ _).trans (add_le_add ((norm_add_le _ _).trans
    (add_le_add ((norm_add_le _ _).trans (add_le_add K1 K2)) K3)) K4))
  congr 1
  unfold four
  ring

/-- Weight of a layer in the error bound. -/
noncomputable def layWeight (s t : GmeState) (l : LayPair) : ℝ :=
  match s.pol, t.pol with
  | .te, .te => ‖l.einv‖ * (l.eps ^ 2 * (s.om ^ 2 * t.om ^ 2 * |dot2 s.q t.q|))
  | .tm, .tm => ‖l.einv‖ * (|dot2 s.p t.p| * (‖l.m1.x‖ * ‖l.m2.x‖) + s.gk * t.gk)
  | .te, .tm => ‖l.einv‖ * (|l.eps| * ‖l.m2.x‖ * (s.om ^ 2 * |dot2 t.p s.q|))
  | .tm, .te => ‖l.einv‖ * (|l.eps| * ‖l.m1.x‖ * (t.om ^ 2 * |dot2 s.p t.q|))

theorem fourErr_nonneg (pos : LPos) (m1 m2 : ModeL) : 0 ≤ fourErr pos m1 m2 := by
  unfold fourErr
  have := ijErr_nonneg pos
  have h1 := this (m2.x - conj m1.x)
  have h2 := this (-m2.x + conj m1.x)
  have h3 := this (-m2.x - conj m1.x)
  have h4 := this (m2.x + conj m1.x)
  positivity

theorem gk_nonneg (s : GmeState) : 0 ≤ s.gk := by
  unfold GmeState.gk; positivity

theorem layTerm_error (s t : GmeState) (l : LayPair) (h1 : Decays l.pos l.m1) (h2 : Decays l.pos l.m2)
    (hr : Regular l) :
    ‖layTerm ijLayer s t l - layTerm ijExact s t l‖ ≤ layWeight s t l * fourErr l.pos l.m1 l.m2 := by
  have E := fun s1 s2 n1 n2 => four_error l h1 h2 hr s1 s2 n1 n2
  have hgs : ∀ s : GmeState, ‖(s.gk : ℂ)‖ = s.gk := by
    intro s; rw [Complex.norm_real]; exact Real.norm_of_nonneg (gk_nonneg s)
  have hm : ∀ (k c : ℂ) (F G : ℂ) (w : ℝ), ‖c‖ = w → ‖F - G‖ ≤ fourErr l.pos l.m1 l.m2 →
      ‖c * F - c * G‖ ≤ w * fourErr l.pos l.m1 l.m2 := by
    intro k c F G w hw hF
    rw [← mul_sub, norm_mul, hw]
    exact mul_le_mul_of_nonneg_left hF (by rw [← hw]; exact norm_nonneg _)
  rcases hs : s.pol with _ | _ <;> rcases ht : t.pol with _ | _ <;> simp only [layTerm, layWeight, hs, ht]
  · refine hm 0 _ _ _ _ ?_ (E 1 1 (by simp) (by simp))
    simp only [norm_mul, norm_pow, Complex.norm_real, Real.norm_eq_abs, sq_abs]
    ring
  · refine hm 0 _ _ _ _ ?_ (E 1 (-1) (by simp) (by simp))
    simp only [norm_neg, norm_mul, norm_pow, Complex.norm_real, Real.norm_eq_abs, sq_abs, Complex.norm_I]
    ring
  · refine hm 0 _ _ _ _ ?_ (E (-1) 1 (by simp) (by simp))
    simp only [norm_mul, norm_pow, Complex.norm_real, Real.norm_eq_abs, sq_abs, Complex.norm_I,
      Complex.norm_conj]
    ring
  · have a1 := hm 0 (dot2 s.p t.p * (conj l.m1.x * l.m2.x)) _ _ (|dot2 s.p t.p| * (‖l.m1.x‖ * ‖l.m2.x‖))
      (by simp only [norm_mul, Complex.norm_real, Real.norm_eq_abs, Complex.norm_conj])
      (E (-1) (-1) (by simp) (by simp))
    have a2 := hm 0 ((s.gk : ℂ) * t.gk) _ _ (s.gk * t.gk) (by rw [norm_mul, hgs, hgs])
      (E 1 1 (by simp) (by simp))
    rw [← mul_sub, norm_mul, mul_assoc ‖l.einv‖]
    refine mul_le_mul_of_nonneg_left ?_ (norm_nonneg _)
    rw [add_mul]
    refine le_trans (le_of_eq ?_) ((norm_add_le _ _).trans (add_le_add a1 a2))
    congr 1; ring

/-- **C28 (error of the regularised elements).** The element the code computes differs from the one
with exact layer integrals (which is exactly adjoint, `C28_adjoint`) by at most an explicit bound
proportional to the regulariser `1e-20`. -/
theorem C28_error (stack : List (LPos × ℝ)) (einv : List ℂ) (s t : GmeState)
    (h : ∀ l ∈ layPairs stack einv s t, Decays l.pos l.m1 ∧ Decays l.pos l.m2 ∧ Regular l) :
    ‖gmeElem ijLayer stack einv s t - gmeElem ijExact stack einv s t‖ ≤
      ((layPairs stack einv s t).map fun l => layWeight s t l * fourErr l.pos l.m1 l.m2).sum := by
  rw [gmeElem_eq, gmeElem_eq]
  exact norm_sum_sub_le _ _ _ _ fun l hl => layTerm_error s t l (h l hl).1 (h l hl).2.1 (h l hl).2.2

/-! ### C29 -/

/-- **C29.** The matrix handed to the eigensolver is Hermitian whatever was computed. -/
theorem C29_hermitian (m : ℕ → ℕ → ℂ) (i j : ℕ) : conj (completeMat m j i) = completeMat m i j := by
  unfold completeMat
  rcases lt_trichotomy i j with h | h | h
  · simp [h, h.not_gt, h.ne, h.ne']
  · subst h; simp
  · simp [h, h.not_gt, h.ne, h.ne']

/-- **C29.** It keeps the computed entries above the diagonal and the real part of those on it. -/
theorem C29_upper (m : ℕ → ℕ → ℂ) (i j : ℕ) :
    (i < j → completeMat m i j = m i j) ∧ completeMat m i i = ((m i i).re : ℂ) := by
  unfold completeMat
  constructor
  · intro h; simp [h, h.not_gt, h.ne]
  · simp

/-- **C29.** Computing only the blocks on and above the block diagonal loses nothing. -/
theorem C29_blocks (blk : ℕ → ℕ) (hb : ∀ i j, i ≤ j → blk i ≤ blk j) (m : ℕ → ℕ → ℂ) (i j : ℕ) :
    completeMat (blockUpper blk m) i j = completeMat m i j := by
  unfold completeMat blockUpper
  rcases lt_trichotomy i j with h | h | h
  · have := hb i j h.le
    simp [h, h.not_gt, h.ne, this.not_gt]
  · subst h; simp
  · have := hb j i h.le
    simp [h, h.not_gt, h.ne', this.not_gt]

/-- **C28 (completion).** With exact integrals and Hermitian inverse permittivity matrices, completing the
computed upper block triangle gives exactly the full matrix of coupling elements. -/
theorem C28_completion (stack : List (LPos × ℝ)) (einvs : List (ℕ → ℕ → ℂ))
    (hH : ∀ e ∈ einvs, ∀ i j, conj (e j i) = e i j) (st : ℕ → GmeState) (blk : ℕ → ℕ)
    (hb : ∀ i j, i ≤ j → blk i ≤ blk j) (i j : ℕ) :
    completeMat (blockUpper blk fun i j => gmeElem ijExact stack (einvs.map fun e => e i j) (st i) (st j)) i j =
      gmeElem ijExact stack (einvs.map fun e => e i j) (st i) (st j) := by
  rw [C29_blocks blk hb]
  have herm : ∀ i j, conj (gmeElem ijExact stack (einvs.map fun e => e j i) (st j) (st i)) =
      gmeElem ijExact stack (einvs.map fun e => e i j) (st i) (st j) := by
    intro i j
    rw [← C28_adjoint stack (einvs.map fun e => e i j) (st i) (st j)]
    congr 2
    rw [List.map_map]
    apply List.map_congr_left
    intro e he
    exact (hH e he j i).symm
  unfold completeMat
  rcases lt_trichotomy i j with h | h | h
  · simp [h, h.not_gt, h.ne]
  · subst h
    have := herm i i
    simp only [lt_irrefl, if_false, map_zero, add_zero, zero_add, if_true]
    exact Complex.conj_eq_iff_re.mp this
  · simp only [h, h.not_gt, h.ne', if_true, if_false, zero_add, add_zero]
    exact herm i j

/-! ### C65: overlap integrals -/

/-- **C65.** With exact layer integrals, every coupling element is the overlap integral over all heights
of the displacement fields of the two states, weighted with the inverse permittivity of each layer. -/
theorem C65_overlap (stack : List (LPos × ℝ)) (einv : List ℂ) (s t : GmeState)
    (h : ∀ l ∈ layPairs stack einv s t, Decays l.pos l.m1 ∧ Decays l.pos l.m2) :
    gmeElem ijExact stack einv s t = ((layPairs stack einv s t).map fun l =>
      l.einv * ∫ z, (∑ c, conj (dispField s l.eps l.m1 z c) * dispField t l.eps l.m2 z c)
        ∂(layMeasure l.pos)).sum := by
  rw [gmeElem_eq]
  congr 1
  apply List.map_congr_left
  intro l hl
  exact layTerm_exact s t l (h l hl).1 (h l hl).2

/-- Two TE/TM states on a slab with one layer, meeting the hypotheses of C28, C65 and C66. -/
noncomputable def exampleState (pol : Pol) : GmeState :=
  ⟨pol, 3, 4, 2, [⟨0, 1, Complex.I⟩, ⟨1, 2, 1⟩, ⟨1, 0, Complex.I⟩]⟩

example : ∀ l ∈ layPairs [(.lower, 1), (.inner 1, 12), (.upper, 1)] [1, 1, 1]
    (exampleState .te) (exampleState .tm), Decays l.pos l.m1 ∧ Decays l.pos l.m2 ∧ Regular l := by
  intro l hl
  simp only [layPairs, exampleState, List.zip_cons_cons, List.map_cons, List.mem_cons,
    List.zip_nil_right, List.map_nil, List.not_mem_nil, or_false] at hl
  rcases hl with rfl | rfl | rfl
  · simp [Decays, Regular]
  · simp only [Decays, Regular, map_one]
    norm_num
  · simp [Decays, Regular]

/-! ### C66: positivity -/

theorem re_integral_nonneg {μ : Measure ℝ} {f : ℝ → ℂ} (hi : Integrable f μ) (h : ∀ z, 0 ≤ (f z).re) :
    0 ≤ (∫ z, f z ∂μ).re := by
  have := integral_re hi
  simp only [RCLike.re_to_complex] at this
  rw [← this]
  exact integral_nonneg h

/-- One layer contributes a positive semidefinite form. -/
theorem layer_psd {n : ℕ} (pos : LPos) (eps : ℝ) (e : Fin n → Fin n → ℂ)
    (he : ∀ y : Fin n → ℂ, 0 ≤ (∑ i, ∑ j, conj (y i) * e i j * y j).re)
    (st : Fin n → GmeState) (m : Fin n → ModeL) (hd : ∀ i, Decays pos (m i)) (c : Fin n → ℂ) :
    0 ≤ (∑ i, ∑ j, conj (c i) *
      (e i j * ∫ z, density (st i) (st j) eps (m i) (m j) z ∂(layMeasure pos)) * c j).re := by
  have hint : ∀ i j, Integrable (fun z => conj (c i) * e i j * c j * density (st i) (st j) eps (m i) (m j) z)
      (layMeasure pos) := fun i j =>
    (density_integrable (st i) (st j) eps pos (m i) (m j) (hd i) (hd j)).const_mul _
  have e1 : (∑ i, ∑ j, conj (c i) *
      (e i j * ∫ z, density (st i) (st j) eps (m i) (m j) z ∂(layMeasure pos)) * c j) =
      ∫ z, (∑ i, ∑ j, conj (c i) * e i j * c j * density (st i) (st j) eps (m i) (m j) z)
        ∂(layMeasure pos) := by
    rw [integral_finset_sum _ fun i _ => integrable_finset_sum _ fun j _ => hint i j]
    apply Finset.sum_congr rfl
    intro i _
    rw [integral_finset_sum _ fun j _ => hint i j]
    apply Finset.sum_congr rfl
    intro j _
    rw [integral_const_mul]; ring
  rw [e1]
  refine re_integral_nonneg (integrable_finset_sum _ fun i _ => integrable_finset_sum _ fun j _ => hint i j) ?_
  intro z
  have e2 : (∑ i, ∑ j, conj (c i) * e i j * c j * density (st i) (st j) eps (m i) (m j) z) =
      ∑ k : Fin 3, ∑ i, ∑ j, conj (c i * dispField (st i) eps (m i) z k) * e i j *
        (c j * dispField (st j) eps (m j) z k) := by
    rw [Finset.sum_comm (s := (Finset.univ : Finset (Fin 3)))]
    apply Finset.sum_congr rfl
    intro i _
    rw [Finset.sum_comm (s := (Finset.univ : Finset (Fin 3)))]
    apply Finset.sum_congr rfl
    intro j _
    unfold density
    rw [Finset.mul_sum]
    apply Finset.sum_congr rfl
    intro k _
    rw [map_mul]; ring
  rw [e2, Complex.re_sum]
  exact Finset.sum_nonneg fun k _ => he fun i => c i * dispField (st i) eps (m i) z k

theorem layPairs_cons (a : LPos × ℝ) (stack : List (LPos × ℝ)) (e : ℂ) (einv : List ℂ) (s t : GmeState)
    (m1 m2 : ModeL) (l1 l2 : List ModeL) (hs : s.layers = m1 :: l1) (ht : t.layers = m2 :: l2) :
    layPairs (a :: stack) (e :: einv) s t = ⟨a.1, a.2, e, m1, m2⟩ ::
      layPairs stack einv { s with layers := l1 } { t with layers := l2 } := by
  unfold layPairs; rw [hs, ht]; rfl

/-- The layer terms do not look at the list of layers of the states. -/
theorem layTerm_layers (ij : LPos → ℂ → ℂ) (s t : GmeState) (l1 l2 : List ModeL) (l : LayPair) :
    layTerm ij { s with layers := l1 } { t with layers := l2 } l = layTerm ij s t l := rfl

/-- **C66.** With exact layer integrals, if the inverse permittivity matrix of every layer is positive
semidefinite then so is the guided-mode Hamiltonian: all its eigenvalues, the squared frequencies, are
non-negative. It holds for every stack and every finite family of TE and TM states. -/
theorem C66_psd {n : ℕ} (stack : List (LPos × ℝ)) (einvs : List (Fin n → Fin n → ℂ))
    (he : ∀ e ∈ einvs, ∀ y : Fin n → ℂ, 0 ≤ (∑ i, ∑ j, conj (y i) * e i j * y j).re)
    (hlen : einvs.length = stack.length) (st : Fin n → GmeState)
    (hst : ∀ i, List.Forall₂ (fun a m => Decays a.1 m) stack (st i).layers) (c : Fin n → ℂ) :
    0 ≤ (∑ i, ∑ j, conj (c i) *
      gmeElem ijExact stack (einvs.map fun e => e i j) (st i) (st j) * c j).re := by
  simp only [gmeElem_eq]
  induction stack generalizing einvs st with
  | nil => simp [layPairs]
  | cons a stack ih =>
    cases einvs with
    | nil => simp at hlen
    | cons e einvs =>
      have hsplit : ∀ i, ∃ m l, (st i).layers = m :: l ∧ Decays a.1 m ∧
          List.Forall₂ (fun a m => Decays a.1 m) stack l := by
        intro i
        have := hst i
        rcases hl : (st i).layers with _ | ⟨m, l⟩
        · rw [hl] at this; cases this
        · rw [hl] at this; cases this with
          | cons h1 h2 => exact ⟨m, l, rfl, h1, h2⟩
      choose m l hl hd hf using hsplit
      have key : ∀ i j, ((layPairs (a :: stack) ((e :: einvs).map fun e => e i j) (st i) (st j)).map
          (layTerm ijExact (st i) (st j))).sum =
          e i j * (∫ z, density (st i) (st j) a.2 (m i) (m j) z ∂(layMeasure a.1)) +
          ((layPairs stack (einvs.map fun e => e i j) { st i with layers := l i }
            { st j with layers := l j }).map
            (layTerm ijExact { st i with layers := l i } { st j with layers := l j })).sum := by
        intro i j
        rw [List.map_cons, layPairs_cons _ _ _ _ _ _ _ _ _ _ (hl i) (hl j), List.map_cons, List.sum_cons,
          layTerm_exact _ _ _ (hd i) (hd j)]
        rfl
      have ih' := ih einvs (fun e' he' => he e' (List.mem_cons_of_mem _ he'))
        (by simpa using hlen) (fun i => { st i with layers := l i }) hf
      have hp := layer_psd a.1 a.2 e (he e List.mem_cons_self) st m hd c
      simp only [key]
      have : (∑ i, ∑ j, conj (c i) *
          (e i j * (∫ z, density (st i) (st j) a.2 (m i) (m j) z ∂(layMeasure a.1)) +
          ((layPairs stack (einvs.map fun e => e i j) { st i with layers := l i }
            { st j with layers := l j }).map
            (layTerm ijExact { st i with layers := l i } { st j with layers := l j })).sum) * c j) =
          (∑ i, ∑ j, conj (c i) *
            (e i j * (∫ z, density (st i) (st j) a.2 (m i) (m j) z ∂(layMeasure a.1))) * c j) +
          ∑ i, ∑ j, conj (c i) * ((layPairs stack (einvs.map fun e => e i j) { st i with layers := l i }
            { st j with layers := l j }).map
            (layTerm ijExact { st i with layers := l i } { st j with layers := l j })).sum * c j := by
        rw [← Finset.sum_add_distrib]
        apply Finset.sum_congr rfl
        intro i _
        rw [← Finset.sum_add_distrib]
        apply Finset.sum_congr rfl
        intro j _
        ring
      rw [this, Complex.add_re]
      exact add_nonneg hp ih'

/-- The identity is a positive semidefinite inverse permittivity. -/
example : ∀ y : Fin 2 → ℂ, 0 ≤ (∑ i, ∑ j, conj (y i) * (if i = j then 1 else 0 : ℂ) * y j).re := by
  intro y
  simp only [Fin.sum_univ_two, Fin.isValue, if_true, Fin.zero_eq_one_iff, Nat.succ_ne_self, if_false,
    mul_zero, zero_mul, add_zero, zero_add, one_ne_zero, mul_one, Complex.add_re, Complex.mul_re,
    Complex.conj_re, Complex.conj_im]
  nlinarith [sq_nonneg (y 0).re, sq_nonneg (y 0).im, sq_nonneg (y 1).re, sq_nonneg (y 1).im]

example (pol : Pol) : List.Forall₂ (fun (a : LPos × ℝ) m => Decays a.1 m)
    [(.lower, 1), (.inner 1, 12), (.upper, 1)] (exampleState pol).layers := by
  refine .cons ?_ (.cons ?_ (.cons ?_ .nil)) <;> simp [Decays]

end Legume
