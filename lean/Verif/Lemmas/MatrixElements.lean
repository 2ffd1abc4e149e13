import Mathlib.Analysis.SpecialFunctions.ImproperIntegrals
import Mathlib.Tactic.Linarith
import Mathlib.Tactic.LinearCombination
import Mathlib.Tactic.FieldSimp
import Verif.Spec.MatrixElements

/-!
# Lemmas about guided-mode matrix elements
-/
namespace Legume

open Complex Spec MeasureTheory
open scoped ComplexConjugate

/-- The four-term combination all blocks share. -/
noncomputable def four (ij : LPos → ℂ → ℂ) (pos : LPos) (m1 m2 : ModeL) (s1 s2 : ℂ) : ℂ :=
  conj m1.A * m2.A * ij pos (m2.x - conj m1.x) +
  s1 * s2 * (conj m1.B * m2.B * ij pos (-m2.x + conj m1.x)) +
  s2 * (conj m1.A * m2.B * ij pos (-m2.x - conj m1.x)) +
  s1 * (conj m1.B * m2.A * ij pos (m2.x + conj m1.x))

/-- Contribution of a layer to an entry. -/
noncomputable def layTerm (ij : LPos → ℂ → ℂ) (s t : GmeState) (l : LayPair) : ℂ :=
  match s.pol, t.pol with
  | .te, .te => l.einv * (l.eps : ℂ) ^ 2 * ((s.om : ℂ) ^ 2 * (t.om : ℂ) ^ 2 * dot2 s.q t.q) *
      four ij l.pos l.m1 l.m2 1 1
  | .tm, .tm => l.einv * ((dot2 s.p t.p * (conj l.m1.x * l.m2.x)) * four ij l.pos l.m1 l.m2 (-1) (-1) +
      s.gk * t.gk * four ij l.pos l.m1 l.m2 1 1)
  | .te, .tm => -(Complex.I * l.einv * l.eps * l.m2.x * ((s.om : ℂ) ^ 2 * dot2 t.p s.q)) *
      four ij l.pos l.m1 l.m2 1 (-1)
  | .tm, .te => Complex.I * l.einv * l.eps * conj l.m1.x * ((t.om : ℂ) ^ 2 * dot2 s.p t.q) *
      four ij l.pos l.m1 l.m2 (-1) 1

theorem gmeElem_eq (ij : LPos → ℂ → ℂ) (stack : List (LPos × ℝ)) (einv : List ℂ) (s t : GmeState) :
    gmeElem ij stack einv s t = ((layPairs stack einv s t).map (layTerm ij s t)).sum := by
  unfold gmeElem
  generalize layPairs stack einv s t = ls
  rcases hs : s.pol with _ | _ <;> rcases ht : t.pol with _ | _ <;>
    simp only [matTeTe, matTmTm, matTeTm, matTmTe]
  · rw [← List.sum_map_mul_right, ← List.sum_map_mul_right]
    congr 1
    apply List.map_congr_left
    intro l _
    simp only [layTerm, hs, ht, four]
    ring
  · rw [← List.sum_map_mul_right, ← List.sum_map_mul_right]
    congr 1
    apply List.map_congr_left
    intro l _
    simp only [layTerm, hs, ht, four]
    ring
  · rw [← List.sum_map_mul_right, ← List.sum_map_mul_right]
    congr 1
    apply List.map_congr_left
    intro l _
    simp only [layTerm, hs, ht, four]
    ring
  · congr 1
    apply List.map_congr_left
    intro l _
    simp only [layTerm, hs, ht, four]
    ring

theorem conj_list_sum (l : List ℂ) : conj l.sum = (l.map conj).sum := by
  induction l with
  | nil => simp
  | cons a l ih => simp [ih]

/-- Conjugation exchanges the modes. -/
theorem four_conj (ij ij' : LPos → ℂ → ℂ) (h : ∀ p a, conj (ij p a) = ij' p (-conj a)) (pos : LPos)
    (m1 m2 : ModeL) (s1 s2 : ℂ) (h1 : conj s1 = s1) (h2 : conj s2 = s2) :
    conj (four ij pos m2 m1 s2 s1) = four ij' pos m1 m2 s1 s2 := by
  unfold four
  simp only [map_add, map_mul, map_sub, map_neg, Complex.conj_conj, h, h1, h2]
  rw [show -(conj m1.x - m2.x) = m2.x - conj m1.x by ring,
    show -(-conj m1.x + m2.x) = -m2.x + conj m1.x by ring,
    show -(-conj m1.x - m2.x) = m2.x + conj m1.x by ring,
    show -(conj m1.x + m2.x) = -m2.x - conj m1.x by ring]
  ring

/-- The layer with the two modes exchanged and the adjoint inverse permittivity. -/
def LayPair.adj (l : LayPair) : LayPair := ⟨l.pos, l.eps, conj l.einv, l.m2, l.m1⟩

theorem dot2_comm (a b : ℝ × ℝ) : dot2 a b = dot2 b a := by unfold dot2; ring

theorem layTerm_conj (ij ij' : LPos → ℂ → ℂ) (h : ∀ p a, conj (ij p a) = ij' p (-conj a))
    (s t : GmeState) (l : LayPair) :
    conj (layTerm ij t s l.adj) = layTerm ij' s t l := by
  rcases hs : s.pol with _ | _ <;> rcases ht : t.pol with _ | _ <;>
    simp only [layTerm, hs, ht, LayPair.adj, map_mul, map_add, map_neg, map_pow, Complex.conj_conj,
      Complex.conj_ofReal, Complex.conj_I]
  · rw [four_conj ij ij' h _ _ _ 1 1 (by simp) (by simp), dot2_comm t.q s.q]; ring
  · rw [four_conj ij ij' h _ _ _ 1 (-1) (by simp) (by simp)]; ring
  · rw [four_conj ij ij' h _ _ _ (-1) 1 (by simp) (by simp)]; ring
  · rw [four_conj ij ij' h _ _ _ (-1) (-1) (by simp) (by simp),
      four_conj ij ij' h _ _ _ 1 1 (by simp) (by simp), dot2_comm t.p s.p]; ring

theorem layPairs_adj (stack : List (LPos × ℝ)) (einv : List ℂ) (s t : GmeState) :
    layPairs stack (einv.map conj) t s = (layPairs stack einv s t).map LayPair.adj := by
  obtain ⟨sp, sx, sy, so, sl⟩ := s
  obtain ⟨tp, tx, ty, tw, tl⟩ := t
  unfold layPairs
  simp only
  induction stack generalizing einv sl tl with
  | nil => simp
  | cons a stack ih =>
    cases einv with
    | nil => simp
    | cons e einv =>
      cases sl with
      | nil => simp
      | cons m sl =>
        cases tl with
        | nil => simp
        | cons n tl => simpa [LayPair.adj] using ih einv sl tl

/-! ### Exact integrals -/

theorem integrable_exp (pos : LPos) (a : ℂ)
    (h : match pos with | .lower => a.im < 0 | .upper => 0 < a.im | .inner _ => True) :
    Integrable (fun t : ℝ => Complex.exp (Complex.I * a * t)) (layMeasure pos) := by
  cases pos with
  | lower => exact integrableOn_exp_mul_complex_Iic (by rw [Complex.I_mul_re]; simp only at h; linarith) 0
  | upper => exact integrableOn_exp_mul_complex_Ioi (by rw [Complex.I_mul_re]; simp only at h; linarith) 0
  | inner d =>
    have : Continuous fun t : ℝ => Complex.exp (Complex.I * a * t) := by fun_prop
    exact (this.integrableOn_Icc).mono_set Set.Ioc_subset_Icc_self

theorem conj_exp_I' (x : ℂ) (t : ℝ) : conj (Complex.exp (Complex.I * x * t)) =
    Complex.exp (-(Complex.I * conj x * t)) := by
  rw [← Complex.exp_conj]
  congr 1
  simp [Complex.conj_ofReal]

theorem conj_exp_neg_I' (x : ℂ) (t : ℝ) : conj (Complex.exp (-(Complex.I * x * t))) =
    Complex.exp (Complex.I * conj x * t) := by
  rw [← Complex.exp_conj]
  congr 1
  simp [Complex.conj_ofReal]

/-- The field `A e^{i chi t} + s B e^{-i chi t}`. -/
noncomputable def fld (m : ModeL) (s : ℂ) (t : ℝ) : ℂ :=
  m.A * Complex.exp (Complex.I * m.x * t) + s * (m.B * Complex.exp (-(Complex.I * m.x * t)))

theorem fld_mul (m1 m2 : ModeL) (s1 s2 : ℂ) (h1 : conj s1 = s1) (t : ℝ) :
    conj (fld m1 s1 t) * fld m2 s2 t =
      conj m1.A * m2.A * Complex.exp (Complex.I * (m2.x - conj m1.x) * t) +
      s1 * s2 * (conj m1.B * m2.B * Complex.exp (Complex.I * (-m2.x + conj m1.x) * t)) +
      s2 * (conj m1.A * m2.B * Complex.exp (Complex.I * (-m2.x - conj m1.x) * t)) +
      s1 * (conj m1.B * m2.A * Complex.exp (Complex.I * (m2.x + conj m1.x) * t)) := by
  unfold fld
  simp only [map_add, map_mul, h1, conj_exp_I', conj_exp_neg_I']
  have e1 : Complex.exp (Complex.I * (m2.x - conj m1.x) * t) =
      Complex.exp (Complex.I * m2.x * t) * Complex.exp (-(Complex.I * conj m1.x * t)) := by
    rw [← Complex.exp_add]; congr 1; ring
  have e2 : Complex.exp (Complex.I * (-m2.x + conj m1.x) * t) =
      Complex.exp (-(Complex.I * m2.x * t)) * Complex.exp (Complex.I * conj m1.x * t) := by
    rw [← Complex.exp_add]; congr 1; ring
  have e3 : Complex.exp (Complex.I * (-m2.x - conj m1.x) * t) =
      Complex.exp (-(Complex.I * m2.x * t)) * Complex.exp (-(Complex.I * conj m1.x * t)) := by
    rw [← Complex.exp_add]; congr 1; ring
  have e4 : Complex.exp (Complex.I * (m2.x + conj m1.x) * t) =
      Complex.exp (Complex.I * m2.x * t) * Complex.exp (Complex.I * conj m1.x * t) := by
    rw [← Complex.exp_add]; congr 1; ring
  rw [e1, e2, e3, e4]
  ring

/-- Integrability of the four terms of a product of two decaying fields. -/
theorem terms_integrable (pos : LPos) (m1 m2 : ModeL) (h1 : Decays pos m1) (h2 : Decays pos m2) :
    Integrable (fun t : ℝ => conj m1.A * m2.A * Complex.exp (Complex.I * (m2.x - conj m1.x) * t)) (layMeasure pos) ∧
    Integrable (fun t : ℝ => conj m1.B * m2.B * Complex.exp (Complex.I * (-m2.x + conj m1.x) * t)) (layMeasure pos) ∧
    Integrable (fun t : ℝ => conj m1.A * m2.B * Complex.exp (Complex.I * (-m2.x - conj m1.x) * t)) (layMeasure pos) ∧
    Integrable (fun t : ℝ => conj m1.B * m2.A * Complex.exp (Complex.I * (m2.x + conj m1.x) * t)) (layMeasure pos) := by
  cases pos with
  | inner d =>
    refine ⟨?_, ?_, ?_, ?_⟩ <;> exact (integrable_exp (.inner d) _ trivial).const_mul _
  | lower =>
    obtain ⟨a1, i1⟩ := h1
    obtain ⟨a2, i2⟩ := h2
    refine ⟨?_, (integrable_exp .lower _ ?_).const_mul _, ?_, ?_⟩
    · simp [a1]
    · simp; linarith
    · simp [a1]
    · simp [a2]
  | upper =>
    obtain ⟨a1, i1⟩ := h1
    obtain ⟨a2, i2⟩ := h2
    refine ⟨(integrable_exp .upper _ ?_).const_mul _, ?_, ?_, ?_⟩
    · simp; linarith
    · simp [a1]
    · simp [a2]
    · simp [a1]

theorem fld_mul_integrable (pos : LPos) (m1 m2 : ModeL) (h1 : Decays pos m1) (h2 : Decays pos m2)
    (s1 s2 : ℂ) (hs : conj s1 = s1) :
    Integrable (fun t : ℝ => conj (fld m1 s1 t) * fld m2 s2 t) (layMeasure pos) := by
  obtain ⟨i1, i2, i3, i4⟩ := terms_integrable pos m1 m2 h1 h2
  simp only [fld_mul m1 m2 s1 s2 hs]
  exact ((i1.add (i2.const_mul _)).add (i3.const_mul _)).add (i4.const_mul _)

theorem integral_four {μ : Measure ℝ} {f1 f2 f3 f4 : ℝ → ℂ} {a b c : ℂ} (i1 : Integrable f1 μ)
    (i2 : Integrable f2 μ) (i3 : Integrable f3 μ) (i4 : Integrable f4 μ) :
    ∫ t, (f1 t + a * f2 t + b * f3 t + c * f4 t) ∂μ =
      ∫ t, f1 t ∂μ + a * ∫ t, f2 t ∂μ + b * ∫ t, f3 t ∂μ + c * ∫ t, f4 t ∂μ := by
  have j2 : Integrable (fun t => a * f2 t) μ := i2.const_mul a
  have j3 : Integrable (fun t => b * f3 t) μ := i3.const_mul b
  have j4 : Integrable (fun t => c * f4 t) μ := i4.const_mul c
  have k2 : Integrable (fun t => f1 t + a * f2 t) μ := i1.add j2
  have k3 : Integrable (fun t => f1 t + a * f2 t + b * f3 t) μ := k2.add j3
  rw [integral_add k3 j4, integral_add k2 j3, integral_add i1 j2, integral_const_mul,
    integral_const_mul, integral_const_mul]

/-- With the exact integrals the four terms are the overlap integral of the two fields. -/
theorem four_exact (pos : LPos) (m1 m2 : ModeL) (h1 : Decays pos m1) (h2 : Decays pos m2)
    (s1 s2 : ℂ) (hs : conj s1 = s1) :
    four ijExact pos m1 m2 s1 s2 = ∫ t, conj (fld m1 s1 t) * fld m2 s2 t ∂(layMeasure pos) := by
  obtain ⟨i1, i2, i3, i4⟩ := terms_integrable pos m1 m2 h1 h2
  simp only [fld_mul m1 m2 s1 s2 hs]
  rw [integral_four i1 i2 i3 i4]
  simp only [integral_const_mul]
  rfl

theorem fieldSum_eq_fld (m : ModeL) (t : ℝ) : fieldSum m.x (m.A, m.B) t = fld m 1 t := by
  unfold fieldSum fld; simp

theorem fieldDiff_eq_fld (m : ModeL) (t : ℝ) : fieldDiff m.x m.x (m.A, m.B) t = m.x * fld m (-1) t := by
  unfold fieldDiff fld; ring

/-- Overlap density of two states in a layer. -/
noncomputable def density (s t : GmeState) (eps : ℝ) (m1 m2 : ModeL) (z : ℝ) : ℂ :=
  ∑ c, conj (dispField s eps m1 z c) * dispField t eps m2 z c

theorem density_eq (s t : GmeState) (eps : ℝ) (m1 m2 : ModeL) (z : ℝ) :
    density s t eps m1 m2 z = match s.pol, t.pol with
      | .te, .te => (eps : ℂ) ^ 2 * ((s.om : ℂ) ^ 2 * (t.om : ℂ) ^ 2 * dot2 s.q t.q) *
          (conj (fld m1 1 z) * fld m2 1 z)
      | .tm, .tm => (dot2 s.p t.p * (conj m1.x * m2.x)) * (conj (fld m1 (-1) z) * fld m2 (-1) z) +
          s.gk * t.gk * (conj (fld m1 1 z) * fld m2 1 z)
      | .te, .tm => -(Complex.I * eps * m2.x * ((s.om : ℂ) ^ 2 * dot2 t.p s.q)) *
          (conj (fld m1 1 z) * fld m2 (-1) z)
      | .tm, .te => Complex.I * eps * conj m1.x * ((t.om : ℂ) ^ 2 * dot2 s.p t.q) *
          (conj (fld m1 (-1) z) * fld m2 1 z) := by
  unfold density dispField
  rcases hs : s.pol with _ | _ <;> rcases ht : t.pol with _ | _ <;>
    simp only [Fin.sum_univ_three, Matrix.cons_val_zero, Matrix.cons_val_one, Matrix.cons_val,
      fieldSum_eq_fld, fieldDiff_eq_fld, map_mul, map_neg, map_pow, Complex.conj_ofReal,
      Complex.conj_I, map_zero, dot2, Complex.ofReal_add, Complex.ofReal_mul] <;> ring_nf
  rw [I_sq]; ring

theorem density_integrable (s t : GmeState) (eps : ℝ) (pos : LPos) (m1 m2 : ModeL)
    (h1 : Decays pos m1) (h2 : Decays pos m2) :
    Integrable (density s t eps m1 m2) (layMeasure pos) := by
  have i := fun s1 s2 hs => fld_mul_integrable pos m1 m2 h1 h2 s1 s2 hs
  have : density s t eps m1 m2 = fun z => density s t eps m1 m2 z := rfl
  rw [this]
  simp only [density_eq]
  rcases s.pol with _ | _ <;> rcases t.pol with _ | _ <;> simp only
  · exact (i 1 1 (by simp)).const_mul _
  · exact (i 1 (-1) (by simp)).const_mul _
  · exact (i (-1) 1 (by simp)).const_mul _
  · exact ((i (-1) (-1) (by simp)).const_mul _).add ((i 1 1 (by simp)).const_mul _)

theorem layTerm_exact (s t : GmeState) (l : LayPair) (h1 : Decays l.pos l.m1) (h2 : Decays l.pos l.m2) :
    layTerm ijExact s t l = l.einv * ∫ z, density s t l.eps l.m1 l.m2 z ∂(layMeasure l.pos) := by
  have i := fun s1 s2 hs => fld_mul_integrable l.pos l.m1 l.m2 h1 h2 s1 s2 hs
  have f := fun s1 s2 hs => four_exact l.pos l.m1 l.m2 h1 h2 s1 s2 hs
  simp only [density_eq]
  rcases hs : s.pol with _ | _ <;> rcases ht : t.pol with _ | _ <;> simp only [layTerm, hs, ht]
  · rw [f 1 1 (by simp), integral_const_mul]; ring
  · rw [f 1 (-1) (by simp), integral_const_mul]; ring
  · rw [f (-1) 1 (by simp), integral_const_mul]; ring
  · rw [integral_add ((i (-1) (-1) (by simp)).const_mul _) ((i 1 1 (by simp)).const_mul _),
      integral_const_mul, integral_const_mul, f (-1) (-1) (by simp), f 1 1 (by simp)]

end Legume
