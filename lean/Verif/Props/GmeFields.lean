import Verif.Model.GmeFields
import Verif.Lemmas.MatrixElements

/-!
# Fields returned by `ft_field_xy`: property C67
-/
namespace Legume

open Complex Spec
open scoped ComplexConjugate

/-- Wave equation in a layer: `chi^2 + g^2 = eps omega^2`, and the plane wave does not vanish. -/
structure Dispersion (eps : ℝ) (s : GmeState) (m : ModeL) : Prop where
  gk : s.gk ≠ 0
  rel : m.x ^ 2 + (s.gk : ℂ) ^ 2 = eps * (s.om : ℂ) ^ 2

/-- What the curl of a field `H(z) e^{i g r}` is, given its derivatives `dH` in `z`. -/
noncomputable def Spec.curl (gx gy : ℝ) (H dH : Fin 3 → ℂ) : Fin 3 → ℂ :=
  ![I * gy * H 2 - dH 1, dH 0 - I * gx * H 2, I * gx * H 1 - I * gy * H 0]

theorem gk_sq (s : GmeState) : s.gk ^ 2 = s.gx ^ 2 + s.gy ^ 2 := by
  unfold GmeState.gk; exact Real.sq_sqrt (by positivity)

theorem gx_eq (s : GmeState) (h : s.gk ≠ 0) : s.gx = s.gk * s.p.1 := by
  unfold GmeState.p; field_simp
theorem gy_eq (s : GmeState) (h : s.gk ≠ 0) : s.gy = s.gk * s.p.2 := by
  unfold GmeState.p; field_simp
theorem q_eq (s : GmeState) : s.q = (s.p.2, -s.p.1) := by
  unfold GmeState.q GmeState.p; rw [neg_div]
theorem p_sq (s : GmeState) (h : s.gk ≠ 0) : s.p.1 ^ 2 + s.p.2 ^ 2 = 1 := by
  have := gk_sq s
  have h2 : s.gk ^ 2 ≠ 0 := pow_ne_zero 2 h
  unfold GmeState.p
  rw [div_pow, div_pow, ← add_div, ← this, div_self h2]

theorem hasDeriv_exp (a : ℂ) (z : ℝ) :
    HasDerivAt (fun z : ℝ => Complex.exp (a * z)) (a * Complex.exp (a * z)) z := by
  have h : HasDerivAt (fun z : ℝ => a * (z : ℂ)) a z := by
    simpa using (Complex.ofRealCLM.hasDerivAt (x := z)).const_mul a
  have := h.cexp
  rwa [mul_comm] at this

/-- The amplitudes really used: `A` is ignored in the lower and `B` in the upper cladding. -/
def effMode (pos : LPos) (m : ModeL) : ModeL :=
  match pos with
  | .lower => ⟨0, m.B, m.x⟩
  | .upper => ⟨m.A, 0, m.x⟩
  | .inner _ => m

theorem fieldSum_deriv (m : ModeL) (z : ℝ) :
    HasDerivAt (fieldSum m.x (m.A, m.B)) (I * fieldDiff m.x m.x (m.A, m.B) z) z := by
  have h := ((hasDeriv_exp (I * m.x) z).const_mul m.A).add ((hasDeriv_exp (-(I * m.x)) z).const_mul m.B)
  refine (h.congr_deriv ?_).congr_of_eventuallyEq (Filter.Eventually.of_forall fun t => ?_)
  · unfold fieldDiff
    rw [show -(I * m.x) * (z : ℂ) = -(I * m.x * z) by ring]; ring
  · simp only [fieldSum, Pi.add_apply]
    rw [show -(I * m.x) * (t : ℂ) = -(I * m.x * t) by ring]

theorem fieldDiff_deriv (m : ModeL) (z : ℝ) :
    HasDerivAt (fieldDiff m.x m.x (m.A, m.B)) (I * m.x ^ 2 * fieldSum m.x (m.A, m.B) z) z := by
  have h := (((hasDeriv_exp (I * m.x) z).const_mul m.A).sub
    ((hasDeriv_exp (-(I * m.x)) z).const_mul m.B)).const_mul m.x
  refine (h.congr_deriv ?_).congr_of_eventuallyEq (Filter.Eventually.of_forall fun t => ?_)
  · unfold fieldSum
    rw [show -(I * m.x) * (z : ℂ) = -(I * m.x * z) by ring]; ring
  · simp only [fieldDiff, Pi.sub_apply]
    rw [show -(I * m.x) * (t : ℂ) = -(I * m.x * t) by ring]

/-- Uniform description of the three branches of the code. -/
theorem hMode_eq (pos : LPos) (s : GmeState) (m : ModeL) (z : ℝ) :
    hMode pos s m z = match s.pol with
      | .te => ![-I * fieldDiff m.x m.x ((effMode pos m).A, (effMode pos m).B) z * s.p.1,
          -I * fieldDiff m.x m.x ((effMode pos m).A, (effMode pos m).B) z * s.p.2,
          I * s.gk * fieldSum m.x ((effMode pos m).A, (effMode pos m).B) z]
      | .tm => ![fieldSum m.x ((effMode pos m).A, (effMode pos m).B) z * s.q.1,
          fieldSum m.x ((effMode pos m).A, (effMode pos m).B) z * s.q.2, 0] := by
  unfold hMode
  have e : -I * m.x * (z : ℂ) = -(I * m.x * z) := by ring
  rcases s.pol with _ | _ <;> rcases pos with _ | _ | _ <;>
    simp only [effMode, fieldDiff, fieldSum, e] <;> ext c <;> fin_cases c <;>
    simp only [Fin.zero_eta, Fin.mk_one, Fin.reduceFinMk, Matrix.cons_val_zero, Matrix.cons_val_one,
      Matrix.cons_val] <;> ring

theorem dMode_eq (omega : ℝ) (pos : LPos) (eps : ℝ) (s : GmeState) (m : ModeL) (z : ℝ) :
    dMode omega pos eps s m z = fun c => I / omega * dispField s eps (effMode pos m) z c := by
  unfold dMode dispField
  have e : -I * m.x * (z : ℂ) = -(I * m.x * z) := by ring
  have hI : I * I = -1 := I_mul_I
  rcases s.pol with _ | _ <;> rcases pos with _ | _ | _ <;>
    simp only [effMode, fieldDiff, fieldSum, e] <;> ext c <;> fin_cases c <;>
    simp [Matrix.cons_val_zero, Matrix.cons_val_one] <;> ring_nf <;> simp [I_sq] <;> ring_nf <;> try simp [I_sq]

theorem effMode_x (pos : LPos) (m : ModeL) : (effMode pos m).x = m.x := by cases pos <;> rfl

/-- Derivative of the magnetic field of a state. -/
noncomputable def hModeDz (pos : LPos) (s : GmeState) (m : ModeL) (z : ℝ) : Fin 3 → ℂ :=
  match s.pol with
  | .te => ![m.x ^ 2 * fieldSum m.x ((effMode pos m).A, (effMode pos m).B) z * s.p.1,
      m.x ^ 2 * fieldSum m.x ((effMode pos m).A, (effMode pos m).B) z * s.p.2,
      -(s.gk * fieldDiff m.x m.x ((effMode pos m).A, (effMode pos m).B) z)]
  | .tm => ![I * fieldDiff m.x m.x ((effMode pos m).A, (effMode pos m).B) z * s.q.1,
      I * fieldDiff m.x m.x ((effMode pos m).A, (effMode pos m).B) z * s.q.2, 0]

theorem hMode_deriv (pos : LPos) (s : GmeState) (m : ModeL) (z : ℝ) (c : Fin 3) :
    HasDerivAt (fun z => hMode pos s m z c) (hModeDz pos s m z c) z := by
  have hS := fieldSum_deriv (effMode pos m) z
  have hD := fieldDiff_deriv (effMode pos m) z
  rw [effMode_x] at hS hD
  simp only [hMode_eq]
  unfold hModeDz
  rcases s.pol with _ | _ <;> fin_cases c <;>
    simp only [Fin.zero_eta, Fin.mk_one, Fin.reduceFinMk, Matrix.cons_val_zero, Matrix.cons_val_one,
      Matrix.cons_val]
  · refine ((hD.const_mul (-I)).mul_const (s.p.1 : ℂ)).congr_deriv ?_
    linear_combination (-(m.x ^ 2 * fieldSum m.x ((effMode pos m).A, (effMode pos m).B) z * s.p.1)) * I_sq
  · refine ((hD.const_mul (-I)).mul_const (s.p.2 : ℂ)).congr_deriv ?_
    linear_combination (-(m.x ^ 2 * fieldSum m.x ((effMode pos m).A, (effMode pos m).B) z * s.p.2)) * I_sq
  · refine (hS.const_mul (I * s.gk)).congr_deriv ?_
    linear_combination ((s.gk : ℂ) * fieldDiff m.x m.x ((effMode pos m).A, (effMode pos m).B) z) * I_sq
  · exact hS.mul_const (s.q.1 : ℂ)
  · exact hS.mul_const (s.q.2 : ℂ)
  · exact hasDerivAt_const _ _

theorem hMode_div (pos : LPos) (s : GmeState) (m : ModeL) (z : ℝ) (h : s.gk ≠ 0) :
    I * s.gx * hMode pos s m z 0 + I * s.gy * hMode pos s m z 1 + hModeDz pos s m z 2 = 0 := by
  have e : (s.p.1 : ℂ) ^ 2 + (s.p.2 : ℂ) ^ 2 = 1 := by exact_mod_cast p_sq s h
  rw [gx_eq s h, gy_eq s h, hMode_eq]
  unfold hModeDz
  rcases s.pol with _ | _ <;> simp only [Matrix.cons_val_zero, Matrix.cons_val_one, Matrix.cons_val, q_eq]
  · push_cast
    linear_combination (s.gk * fieldDiff m.x m.x ((effMode pos m).A, (effMode pos m).B) z) * e -
      (s.gk * fieldDiff m.x m.x ((effMode pos m).A, (effMode pos m).B) z) *
        ((s.p.1 : ℂ) ^ 2 + (s.p.2 : ℂ) ^ 2) * I_sq
  · push_cast; ring

theorem hMode_curl (omega : ℝ) (pos : LPos) (eps : ℝ) (s : GmeState) (m : ModeL) (z : ℝ)
    (h : Dispersion eps s m) (c : Fin 3) :
    dMode omega pos eps s m z c =
      -(I / omega) * curl s.gx s.gy (hMode pos s m z) (hModeDz pos s m z) c := by
  have e : (s.p.1 : ℂ) ^ 2 + (s.p.2 : ℂ) ^ 2 = 1 := by exact_mod_cast p_sq s h.gk
  have r := h.rel
  rw [dMode_eq, gx_eq s h.gk, gy_eq s h.gk, hMode_eq]
  simp only [neg_mul, ← mul_neg]
  congr 1
  unfold hModeDz dispField curl
  rw [effMode_x]
  rcases s.pol with _ | _ <;> fin_cases c <;>
    simp only [Fin.zero_eta, Fin.mk_one, Fin.reduceFinMk, Matrix.cons_val_zero, Matrix.cons_val_one,
      Matrix.cons_val, q_eq] <;> push_cast
  · linear_combination (-(fieldSum m.x ((effMode pos m).A, (effMode pos m).B) z * s.p.2)) * r +
      (s.gk : ℂ) ^ 2 * fieldSum m.x ((effMode pos m).A, (effMode pos m).B) z * s.p.2 * I_sq
  · linear_combination (fieldSum m.x ((effMode pos m).A, (effMode pos m).B) z * s.p.1) * r -
      (s.gk : ℂ) ^ 2 * fieldSum m.x ((effMode pos m).A, (effMode pos m).B) z * s.p.1 * I_sq
  · linear_combination (0 : ℂ) * I_sq
  · linear_combination (0 : ℂ) * I_sq
  · linear_combination (0 : ℂ) * I_sq
  · linear_combination (-(I * s.gk * fieldSum m.x ((effMode pos m).A, (effMode pos m).B) z)) * e

/-! ### All plane waves -/

/-- Derivative in `z` of a component of the magnetic field. -/
noncomputable def hFtDz (area : ℝ) (pos : LPos) (basis : List FieldState) (G : ℕ) (z : ℝ) (c : Fin 3) : ℂ :=
  (basis.map fun b => if b.ind = G then b.c * hModeDz pos b.s b.m z c / (√area : ℝ) else 0).sum

theorem hFt_deriv (area : ℝ) (pos : LPos) (basis : List FieldState) (G : ℕ) (z : ℝ) (c : Fin 3) :
    HasDerivAt (fun z => hFt area pos basis G z c) (hFtDz area pos basis G z c) z := by
  unfold hFt hFtDz
  induction basis with
  | nil => exact hasDerivAt_const _ _
  | cons b l ih =>
    simp only [List.map_cons, List.sum_cons]
    refine HasDerivAt.add ?_ ih
    by_cases hb : b.ind = G
    · simp only [hb, if_true]
      exact ((hMode_deriv pos b.s b.m z c).const_mul b.c).div_const _
    · simp only [hb, if_false]
      exact hasDerivAt_const _ _

/-- **C67 (no divergence).** Every Fourier component of the magnetic field returned by `ft_field_xy`,
for every eigenvector and basis, is differentiable in `z` and has vanishing divergence. -/
theorem C67_divergence (area : ℝ) (pos : LPos) (basis : List FieldState) (G : ℕ) (gx gy : ℝ)
    (hG : ∀ b ∈ basis, b.ind = G → b.s.gx = gx ∧ b.s.gy = gy) (hg : gx ≠ 0 ∨ gy ≠ 0) (z : ℝ) :
    HasDerivAt (fun z => hFt area pos basis G z 2)
      (-(I * gx * hFt area pos basis G z 0 + I * gy * hFt area pos basis G z 1)) z := by
  refine (hFt_deriv area pos basis G z 2).congr_deriv ?_
  unfold hFt hFtDz
  induction basis with
  | nil => simp
  | cons b l ih =>
    have ih' := ih fun b' hb' => hG b' (List.mem_cons_of_mem _ hb')
    simp only [List.map_cons, List.sum_cons]
    rw [ih']
    by_cases hb : b.ind = G
    · obtain ⟨h1, h2⟩ := hG b List.mem_cons_self hb
      have hgk : b.s.gk ≠ 0 := by
        intro h0
        have := gk_sq b.s
        rw [h0, h1, h2] at this
        rcases hg with hg | hg
        · nlinarith [sq_nonneg gy, sq_pos_of_ne_zero hg]
        · nlinarith [sq_nonneg gx, sq_pos_of_ne_zero hg]
      have := hMode_div pos b.s b.m z hgk
      rw [h1, h2] at this
      simp only [hb, if_true]
      linear_combination (b.c / (√area : ℝ)) * this
    · simp only [hb, if_false]; ring

/-- **C67 (Maxwell).** Every Fourier component of the displacement returned by `ft_field_xy` is
`-(i/omega)` times the curl of the magnetic field. -/
theorem C67_curl (area omega : ℝ) (pos : LPos) (eps : ℝ) (basis : List FieldState) (G : ℕ) (gx gy : ℝ)
    (hG : ∀ b ∈ basis, b.ind = G → b.s.gx = gx ∧ b.s.gy = gy ∧ Dispersion eps b.s b.m) (z : ℝ) :
    ∃ dH : Fin 3 → ℂ, (∀ c, HasDerivAt (fun z => hFt area pos basis G z c) (dH c) z) ∧
      ∀ c, dFt area omega pos eps basis G z c =
        -(I / omega) * curl gx gy (hFt area pos basis G z) dH c := by
  refine ⟨hFtDz area pos basis G z, fun c => hFt_deriv area pos basis G z c, ?_⟩
  intro c
  unfold dFt
  induction basis with
  | nil => unfold curl hFt hFtDz; fin_cases c <;> simp
  | cons b l ih =>
    have ih' := ih fun b' hb' => hG b' (List.mem_cons_of_mem _ hb')
    simp only [List.map_cons, List.sum_cons]
    rw [ih']
    have split : ∀ c, curl gx gy (hFt area pos (b :: l) G z) (hFtDz area pos (b :: l) G z) c =
        (if b.ind = G then b.c / (√area : ℝ) * curl gx gy (hMode pos b.s b.m z) (hModeDz pos b.s b.m z) c
          else 0) + curl gx gy (hFt area pos l G z) (hFtDz area pos l G z) c := by
      intro c
      unfold hFt hFtDz
      by_cases hb : b.ind = G <;> unfold curl <;> fin_cases c <;>
        simp only [Fin.zero_eta, Fin.mk_one, Fin.reduceFinMk, Matrix.cons_val_zero, Matrix.cons_val_one,
          Matrix.cons_val, List.map_cons, List.sum_cons, hb, if_true, if_false] <;> ring
    rw [split]
    by_cases hb : b.ind = G
    · obtain ⟨h1, h2, h3⟩ := hG b List.mem_cons_self hb
      have := hMode_curl omega pos eps b.s b.m z h3 c
      rw [h1, h2] at this
      simp only [hb, if_true, this]
      ring
    · simp only [hb, if_false]; ring

/-- A TE and a TM state at the same plane wave satisfying the hypotheses. -/
example (pol : Pol) : Dispersion 2 ⟨pol, 3, 4, 5, []⟩ ⟨1, 2, 5⟩ := by
  have : (GmeState.gk ⟨pol, 3, 4, 5, []⟩) = 5 := by
    unfold GmeState.gk
    norm_num
    rw [show (25 : ℝ) = 5 ^ 2 by norm_num, Real.sqrt_sq (by norm_num)]
  constructor
  · rw [this]; norm_num
  · rw [this]; norm_num

/-- **C67 (fields and Hamiltonian).** The displacement of the basis states which `ft_field_xy`
superposes is, up to the common factor `i / omega`, the one whose overlaps are the entries of the
Hamiltonian (C65), wherever the amplitudes ignored in the claddings vanish. -/
theorem C67_overlap_field (omega : ℝ) (pos : LPos) (eps : ℝ) (s : GmeState) (m : ModeL)
    (hd : Decays pos m) (z : ℝ) (c : Fin 3) :
    dMode omega pos eps s m z c = I / omega * dispField s eps m z c := by
  rw [dMode_eq]
  congr 2
  obtain ⟨A, B, x⟩ := m
  cases pos with
  | lower => rw [show A = 0 from hd.1]; rfl
  | upper => rw [show B = 0 from hd.1]; rfl
  | inner d => rfl

end Legume
