import Mathlib.Analysis.SpecialFunctions.Pow.Complex
import Mathlib.Analysis.SpecialFunctions.Complex.Arg
import Mathlib.Algebra.BigOperators.Group.List.Basic
import Mathlib.Tactic.Linarith
import Verif.Model.Radiation

/-!
# C33 (losses are non-negative), C34 (unbalance), C35 (losses add up), C72 (requested modes)
-/
namespace Legume
open Finset

/-! ### The square root -/

/-- The principal root of `a + i b` with `b ≥ 0` has non-negative real and imaginary part. -/
theorem sqrt_quadrant (a b : ℝ) (hb : 0 ≤ b) :
    let w := (((a : ℝ) : ℂ) + Complex.I * b) ^ ((2 : ℂ)⁻¹)
    0 ≤ w.re ∧ 0 ≤ w.im ∧ w.re ^ 2 - w.im ^ 2 = a ∧ 2 * w.re * w.im = b := by
  intro w
  set z : ℂ := (a : ℂ) + Complex.I * b with hz
  have hzre : z.re = a := by simp [hz]
  have hzim : z.im = b := by simp [hz]
  have hsq : w ^ 2 = z := by
    show (z ^ ((2 : ℂ)⁻¹)) ^ 2 = z
    exact_mod_cast Complex.cpow_nat_inv_pow z (n := 2) (by norm_num)
  have hre : w.re ^ 2 - w.im ^ 2 = a := by
    have := congrArg Complex.re hsq
    rw [hzre, sq, Complex.mul_re] at this
    linarith [this, sq w.re, sq w.im]
  have him : 2 * w.re * w.im = b := by
    have := congrArg Complex.im hsq
    rw [hzim, sq, Complex.mul_im] at this
    linarith
  have hquad : 0 ≤ w.re ∧ 0 ≤ w.im := by
    by_cases h0 : z = 0
    · have : w = 0 := by
        show z ^ ((2 : ℂ)⁻¹) = 0
        rw [h0, Complex.zero_cpow (by norm_num)]
      rw [this]; simp
    · have hw : w = Complex.exp (Complex.log z * (2 : ℂ)⁻¹) := by
        show z ^ ((2 : ℂ)⁻¹) = _
        rw [Complex.cpow_def_of_ne_zero h0]
      have e : Complex.log z * (2 : ℂ)⁻¹ = ((Real.log ‖z‖ / 2 : ℝ) : ℂ) + ((Complex.arg z / 2 : ℝ) : ℂ) * Complex.I := by
        rw [Complex.log]
        push_cast
        ring
      have ha0 : 0 ≤ Complex.arg z := Complex.arg_nonneg_iff.2 (by rw [hzim]; exact hb)
      have ha1 : Complex.arg z ≤ Real.pi := Complex.arg_le_pi z
      rw [hw, e, Complex.exp_add, ← Complex.ofReal_exp, Complex.exp_mul_I, ← Complex.ofReal_cos,
        ← Complex.ofReal_sin]
      constructor
      · have hc : 0 ≤ Real.cos (Complex.arg z / 2) :=
          Real.cos_nonneg_of_neg_pi_div_two_le_of_le (by linarith [Real.pi_pos]) (by linarith)
        simp only [Complex.mul_re, Complex.add_re, Complex.ofReal_re, Complex.ofReal_im, Complex.I_re, Complex.I_im,
          Complex.add_im, Complex.mul_im]
        have := mul_nonneg (Real.exp_pos (Real.log ‖z‖ / 2)).le hc
        nlinarith
      · have hc : 0 ≤ Real.sin (Complex.arg z / 2) :=
          Real.sin_nonneg_of_nonneg_of_le_pi (by linarith) (by linarith [Real.pi_pos])
        simp only [Complex.mul_re, Complex.add_re, Complex.ofReal_re, Complex.ofReal_im, Complex.I_re, Complex.I_im,
          Complex.add_im, Complex.mul_im]
        have := mul_nonneg (Real.exp_pos (Real.log ‖z‖ / 2)).le hc
        nlinarith
  exact ⟨hquad.1, hquad.2, hre, him⟩

/-- Angular loss rate `y = 2π f_im`: `2 y sqrt(ω² + y²) = rad`. -/
theorem loss_equation (omr rad : ℝ) (h : 0 ≤ rad) :
    0 ≤ lossOf omr rad ∧
      2 * (2 * Real.pi * lossOf omr rad) * √(omr ^ 2 + (2 * Real.pi * lossOf omr rad) ^ 2) = rad := by
  obtain ⟨h1, h2, h3, h4⟩ := sqrt_quadrant (omr ^ 2) rad h
  set w := (((omr ^ 2 : ℝ) : ℂ) + Complex.I * rad) ^ ((2 : ℂ)⁻¹) with hw
  have hl : lossOf omr rad = w.im / 2 / Real.pi := rfl
  have hp := Real.pi_pos
  have hy : 2 * Real.pi * lossOf omr rad = w.im := by rw [hl]; field_simp
  refine ⟨by rw [hl]; positivity, ?_⟩
  rw [hy]
  have : omr ^ 2 + w.im ^ 2 = w.re ^ 2 := by rw [← h3]; ring
  rw [this, Real.sqrt_sq h1]
  linarith

theorem mul_sqrt_mono (a y y' : ℝ) (h0 : 0 ≤ y) (h : y < y') :
    y * √(a ^ 2 + y ^ 2) < y' * √(a ^ 2 + y' ^ 2) := by
  have h1 : √(a ^ 2 + y ^ 2) ≤ √(a ^ 2 + y' ^ 2) := Real.sqrt_le_sqrt (by nlinarith)
  have h2 : 0 < √(a ^ 2 + y' ^ 2) := Real.sqrt_pos.2 (by nlinarith)
  calc y * √(a ^ 2 + y ^ 2) ≤ y * √(a ^ 2 + y' ^ 2) := mul_le_mul_of_nonneg_left h1 h0
    _ < y' * √(a ^ 2 + y' ^ 2) := mul_lt_mul_of_pos_right h h2

theorem lossOf_mono (omr r r' : ℝ) (h : 0 ≤ r) (hr : r ≤ r') : lossOf omr r ≤ lossOf omr r' := by
  obtain ⟨a1, a2⟩ := loss_equation omr r h
  obtain ⟨b1, b2⟩ := loss_equation omr r' (h.trans hr)
  by_contra hc
  have hp := Real.pi_pos
  have := mul_sqrt_mono omr (2 * Real.pi * lossOf omr r') (2 * Real.pi * lossOf omr r) (by positivity)
    (by nlinarith)
  nlinarith

theorem lossOf_zero (omr : ℝ) : lossOf omr 0 = 0 := by
  obtain ⟨h1, h2⟩ := loss_equation omr 0 le_rfl
  have hp := Real.pi_pos
  rcases mul_eq_zero.1 h2 with h | h
  · have : Real.pi * lossOf omr 0 = 0 := by linarith
    rcases mul_eq_zero.1 this with h3 | h3
    · exact absurd h3 hp.ne'
    · exact h3
  · rw [Real.sqrt_eq_zero (by positivity)] at h
    have : (2 * Real.pi * lossOf omr 0) ^ 2 = 0 := by nlinarith [sq_nonneg omr, sq_nonneg (2 * Real.pi * lossOf omr 0)]
    have := pow_eq_zero_iff (two_ne_zero) |>.1 this
    have h4 : Real.pi * lossOf omr 0 = 0 := by linarith
    exact (mul_eq_zero.1 h4).resolve_left hp.ne'

theorem lossOf_subadd (omr r r' : ℝ) (h : 0 ≤ r) (h' : 0 ≤ r') :
    lossOf omr (r + r') ≤ lossOf omr r + lossOf omr r' := by
  obtain ⟨a1, a2⟩ := loss_equation omr r h
  obtain ⟨b1, b2⟩ := loss_equation omr r' h'
  obtain ⟨c1, c2⟩ := loss_equation omr (r + r') (add_nonneg h h')
  have hp := Real.pi_pos
  by_contra hc
  push Not at hc
  set y := 2 * Real.pi * lossOf omr r
  set y' := 2 * Real.pi * lossOf omr r'
  set z := 2 * Real.pi * lossOf omr (r + r') with hz
  have hy : 0 ≤ y := by positivity
  have hy' : 0 ≤ y' := by positivity
  have hlt : y + y' < z := by
    have : y + y' = 2 * Real.pi * (lossOf omr r + lossOf omr r') := by ring
    rw [this, hz]
    exact mul_lt_mul_of_pos_left hc (by positivity)
  have h1 := mul_sqrt_mono omr (y + y') z (by positivity) hlt
  have h2 : √(omr ^ 2 + y ^ 2) ≤ √(omr ^ 2 + (y + y') ^ 2) := Real.sqrt_le_sqrt (by nlinarith)
  have h3 : √(omr ^ 2 + y' ^ 2) ≤ √(omr ^ 2 + (y + y') ^ 2) := Real.sqrt_le_sqrt (by nlinarith)
  have h4 := mul_le_mul_of_nonneg_left h2 hy
  have h5 := mul_le_mul_of_nonneg_left h3 hy'
  nlinarith

/-! ### Structure of the couplings -/

theorem sumSq_nonneg (l : List ℂ) : 0 ≤ sumSq l := by
  unfold sumSq
  apply List.sum_nonneg
  intro x hx
  obtain ⟨c, -, rfl⟩ := List.mem_map.1 hx
  positivity

theorem modeRad_nonneg (lo up : Clad) (omr : ℝ) (gk : List ℝ) (evec : ℕ → ℂ) (r : ℝ × ℝ)
    (h : modeRad lo up omr gk evec = some r) : 0 ≤ r.1 ∧ 0 ≤ r.2 := by
  unfold modeRad at h
  split at h
  · simp only [Option.some.injEq] at h
    subst h
    exact ⟨add_nonneg (sumSq_nonneg _) (sumSq_nonneg _), add_nonneg (sumSq_nonneg _) (sumSq_nonneg _)⟩
  · simp at h

theorem mem_openChannels (eps omr : ℝ) (gk : List ℝ) (j : ℕ) :
    j ∈ openChannels eps omr gk ↔ j < gk.length ∧ gk.getD j 0 ^ 2 ≤ eps * omr ^ 2 := by
  simp [openChannels]

theorem mapM_option_some {α β : Type*} (f : α → Option β) : ∀ l : List α,
    (∀ a ∈ l, (f a).isSome) → ∃ r, l.mapM f = some r := by
  intro l
  induction l with
  | nil => intro _; exact ⟨[], rfl⟩
  | cons a l ih =>
    intro h
    obtain ⟨b, hb⟩ := Option.isSome_iff_exists.1 (h a (by simp))
    obtain ⟨r, hr⟩ := ih (fun x hx => h x (by simp [hx]))
    exact ⟨b :: r, by rw [List.mapM_cons, hb, hr]; rfl⟩

theorem mapM_ne_none {α β : Type*} (f : α → Option β) (l : List α) (h : ∀ a ∈ l, (f a).isSome) :
    l.mapM f ≠ none := by
  obtain ⟨r, hr⟩ := mapM_option_some f l h
  simp [hr]

theorem mapM_option_none {α β : Type*} (f : α → Option β) : ∀ l : List α,
    (∃ a ∈ l, f a = none) → l.mapM f = none := by
  intro l
  induction l with
  | nil => rintro ⟨a, ha, -⟩; simp at ha
  | cons a l ih =>
    rintro ⟨x, hx, hf⟩
    rw [List.mapM_cons]
    cases hfa : f a with
    | none => rfl
    | some b =>
      have : x ∈ l := by
        rcases List.mem_cons.1 hx with h | h
        · rw [h, hfa] at hf; simp at hf
        · exact h
      rw [ih ⟨x, this, hf⟩]
      rfl

theorem mapM_option_eq {α β : Type*} (f : α → Option β) (d : β) : ∀ (l : List α) (r : List β),
    l.mapM f = some r → r = l.map (fun a => (f a).getD d) := by
  intro l
  induction l with
  | nil => intro r h; simpa using h.symm
  | cons a l ih =>
    intro r h
    rw [List.mapM_cons] at h
    cases hfa : f a with
    | none => rw [hfa] at h; simp at h
    | some b =>
      cases hl : l.mapM f with
      | none => rw [hfa, hl] at h; simp at h
      | some r' =>
        rw [hfa, hl] at h
        simp only [Option.pure_def, Option.bind_eq_bind, Option.bind_some, Option.some.injEq] at h
        rw [← h, ih r' hl]
        simp [hfa]

/-- A channel exactly on the light line of its cladding. -/
def OnLightLine (eps omr : ℝ) (gk : List ℝ) : Prop := ∃ j < gk.length, gk.getD j 0 ^ 2 = eps * omr ^ 2

theorem radDos_none (eps omr g : ℝ) : radDos eps omr g = none ↔ g ^ 2 = eps * omr ^ 2 := by
  unfold radDos
  split_ifs with h
  · simp; linarith
  · simp; intro h2; apply h; linarith

theorem coup_finite (c : Clad) (pol : Pol) (omr : ℝ) (gk : List ℝ) (evec : ℕ → ℂ) :
    (c.coup pol omr gk evec = none ↔ OnLightLine c.eps omr gk) := by
  constructor
  · intro h
    by_contra hc
    unfold OnLightLine at hc
    push Not at hc
    have hne : c.coup pol omr gk evec ≠ none := by
      refine mapM_ne_none _ _ fun j hj => ?_
      rw [Option.isSome_map, Option.isSome_iff_ne_none]
      intro h2
      exact hc j ((mem_openChannels _ _ _ _).1 hj).1 ((radDos_none _ _ _).1 h2)
    exact hne h
  · rintro ⟨j, hj, he⟩
    refine mapM_option_none _ _ ⟨j, (mem_openChannels _ _ _ _).2 ⟨hj, he.le⟩, ?_⟩
    rw [(radDos_none _ _ _).2 he]
    rfl

/-- **C33 (where the loss is not a number).** The loss of a mode is not finite exactly when some plane wave
lies exactly on the light line of a cladding: the comparison `<=` counts it as a channel and its density of
states divides by zero. -/
theorem C33_light_line (lo up : Clad) (omr : ℝ) (gk : List ℝ) (evec : ℕ → ℂ) :
    modeLoss lo up omr gk evec = none ↔ OnLightLine lo.eps omr gk ∨ OnLightLine up.eps omr gk := by
  unfold modeLoss
  rw [Option.map_eq_none_iff]
  constructor
  · intro h
    by_contra hc
    rw [not_or] at hc
    have f1 := fun p => (not_congr (coup_finite lo p omr gk evec)).2 hc.1
    have f2 := fun p => (not_congr (coup_finite up p omr gk evec)).2 hc.2
    obtain ⟨a, ha⟩ := Option.ne_none_iff_exists'.1 (f1 .te)
    obtain ⟨b, hb⟩ := Option.ne_none_iff_exists'.1 (f2 .te)
    obtain ⟨c, hc'⟩ := Option.ne_none_iff_exists'.1 (f1 .tm)
    obtain ⟨d, hd⟩ := Option.ne_none_iff_exists'.1 (f2 .tm)
    unfold modeRad at h
    rw [ha, hb, hc', hd] at h
    simp at h
  · rintro (h | h)
    · unfold modeRad
      rw [(coup_finite lo .te omr gk evec).2 h]
    · unfold modeRad
      rw [(coup_finite up .te omr gk evec).2 h]
      split <;> simp_all

/-- **C33 (partial).** For every eigenvector, all couplings and both claddings: whenever the losses are numbers
they are non-negative, the TE and TM parts do not exceed the total, and the total does not exceed the sum of
the parts. Missing: modes with a plane wave exactly on a light line (`C33_light_line`). -/
theorem C33_nonneg_partial (lo up : Clad) (omr : ℝ) (gk : List ℝ) (evec : ℕ → ℂ) (l : Loss)
    (h : modeLoss lo up omr gk evec = some l) :
    0 ≤ l.tot ∧ 0 ≤ l.te ∧ 0 ≤ l.tm ∧ l.te ≤ l.tot ∧ l.tm ≤ l.tot ∧ l.tot ≤ l.te + l.tm := by
  unfold modeLoss at h
  obtain ⟨r, hr, rfl⟩ := Option.map_eq_some_iff.1 h
  obtain ⟨h1, h2⟩ := modeRad_nonneg lo up omr gk evec r hr
  exact ⟨(loss_equation _ _ (add_nonneg h1 h2)).1, (loss_equation _ _ h1).1, (loss_equation _ _ h2).1,
    lossOf_mono _ _ _ h1 (by linarith), lossOf_mono _ _ _ h2 (by linarith), lossOf_subadd _ _ _ h1 h2⟩

/-- **C33.** A mode below the light lines of both claddings at all its plane waves has exactly zero losses. -/
theorem C33_guided (lo up : Clad) (omr : ℝ) (gk : List ℝ) (evec : ℕ → ℂ)
    (h : ∀ g ∈ gk, lo.eps * omr ^ 2 < g ^ 2 ∧ up.eps * omr ^ 2 < g ^ 2) :
    modeLoss lo up omr gk evec = some ⟨0, 0, 0⟩ := by
  have hno : ∀ eps, (∀ g ∈ gk, eps * omr ^ 2 < g ^ 2) → openChannels eps omr gk = [] := by
    intro eps he
    rw [List.eq_nil_iff_forall_not_mem]
    intro j hj
    obtain ⟨h1, h2⟩ := (mem_openChannels _ _ _ _).1 hj
    have : gk.getD j 0 ∈ gk := by
      rw [List.getD_eq_getElem?_getD, List.getElem?_eq_getElem h1]
      exact List.getElem_mem h1
    exact absurd h2 (not_le.2 (he _ this))
  have hl := hno lo.eps (fun g hg => (h g hg).1)
  have hu := hno up.eps (fun g hg => (h g hg).2)
  unfold modeLoss modeRad Clad.coup
  simp [hl, hu, sumSq, lossOf_zero]

/-- **C33.** Size of the loss: with `y` the angular loss rate and `rad` the total squared coupling,
`2 y sqrt(ω² + y²) = rad`; in particular the loss vanishes exactly when all couplings to open channels do, and
it never exceeds the perturbative value `rad / (2 ω)`. -/
theorem C33_value (lo up : Clad) (omr : ℝ) (hom : 0 < omr) (gk : List ℝ) (evec : ℕ → ℂ) (l : Loss) (r : ℝ × ℝ)
    (h : modeLoss lo up omr gk evec = some l) (hr : modeRad lo up omr gk evec = some r) :
    2 * (2 * Real.pi * l.tot) * √(omr ^ 2 + (2 * Real.pi * l.tot) ^ 2) = r.1 + r.2 ∧
    (l.tot = 0 ↔ r.1 + r.2 = 0) ∧ 2 * Real.pi * l.tot ≤ (r.1 + r.2) / (2 * omr) := by
  unfold modeLoss at h
  rw [hr] at h
  simp only [Option.map_some, Option.some.injEq] at h
  subst h
  obtain ⟨h1, h2⟩ := modeRad_nonneg lo up omr gk evec r hr
  obtain ⟨e1, e2⟩ := loss_equation omr (r.1 + r.2) (add_nonneg h1 h2)
  have hp := Real.pi_pos
  refine ⟨e2, ⟨fun h0 => ?_, fun h0 => ?_⟩, ?_⟩
  · simp only at h0
    rw [h0] at e2
    rw [← e2]; ring
  · simp only
    rw [h0]; exact lossOf_zero omr
  · simp only
    rw [le_div_iff₀ (by positivity)]
    have h3 : omr ≤ √(omr ^ 2 + (2 * Real.pi * lossOf omr (r.1 + r.2)) ^ 2) :=
      Real.le_sqrt_of_sq_le (by nlinarith [sq_nonneg (2 * Real.pi * lossOf omr (r.1 + r.2))])
    have h4 : 0 ≤ 2 * Real.pi * lossOf omr (r.1 + r.2) := by positivity
    have h5 := mul_le_mul_of_nonneg_left h3 h4
    nlinarith

/-! ### C34 -/

/-- **C34.** The unbalance lies in `[0, 1]`, is `0.5` for a mode whose loss is below `1e-15`, and otherwise lies
between half the TE share and the TE share of the sum of both losses. -/
theorem C34_fraction (lo up : Clad) (omr : ℝ) (gk : List ℝ) (evec : ℕ → ℂ) (l : Loss)
    (h : modeLoss lo up omr gk evec = some l) :
    0 ≤ unbalance l ∧ unbalance l ≤ 1 ∧ (l.tot < 1e-15 → unbalance l = 0.5) ∧
    (1e-15 ≤ l.tot → l.te / (l.te + l.tm) / 2 ≤ unbalance l ∧ unbalance l ≤ l.te / (l.te + l.tm) ∧
      |unbalance l - l.te / (l.te + l.tm)| ≤ 1e-15 / (l.te + l.tm)) := by
  obtain ⟨h1, h2, h3, -, -, h6⟩ := C33_nonneg_partial lo up omr gk evec l h
  unfold unbalance
  rw [abs_of_nonneg h1]
  by_cases hc : l.tot < 1e-15
  · rw [if_pos hc]
    exact ⟨by norm_num, by norm_num, fun _ => rfl, fun h' => absurd hc (not_lt.2 h')⟩
  · rw [if_neg hc]
    push Not at hc
    have hs : 1e-15 ≤ l.te + l.tm := hc.trans h6
    have hpos : 0 < l.te + l.tm := lt_of_lt_of_le (by norm_num) hs
    have hpos2 : 0 < l.te + l.tm + 1e-15 := by linarith
    have hle : l.te / (l.te + l.tm + 1e-15) ≤ l.te / (l.te + l.tm) :=
      div_le_div_of_nonneg_left h2 hpos (by linarith)
    refine ⟨by positivity, ?_, fun h' => absurd h' (not_lt.2 hc), fun _ => ⟨?_, hle, ?_⟩⟩
    · rw [div_le_one hpos2]; linarith
    · rw [div_div]
      exact div_le_div_of_nonneg_left h2 hpos2 (by linarith)
    · rw [abs_sub_comm, abs_of_nonneg (sub_nonneg.2 hle), div_sub_div _ _ hpos.ne' hpos2.ne', div_le_div_iff₀
        (by positivity) hpos]
      have h0 : (0 : ℝ) ≤ 1e-15 := by norm_num
      have : l.te ≤ l.te + l.tm := by linarith
      nlinarith [mul_nonneg h0 (sub_nonneg.2 this), mul_pos hpos hpos2,
        mul_nonneg (mul_nonneg h0 (sub_nonneg.2 this)) hpos.le, mul_nonneg (mul_nonneg h0 h0) hpos.le]

/-! ### C35 -/

/-- Coupling of the basis states of a list of guided modes, in order, to channel `j`. -/
def flatCoup : List (ℕ × (ℕ → ℕ → ℂ)) → ℕ → ℕ → ℂ
  | [], _, _ => 0
  | (n, rad) :: bs, a, j => if a < n then rad a j else flatCoup bs (a - n) j

theorem radC_eq (f : ℂ) (evec : ℕ → ℂ) (bs : List (ℕ × (ℕ → ℕ → ℂ))) (j : ℕ) :
    radC f evec bs j = f * ∑ a ∈ range ((bs.map (·.1)).sum),
      flatCoup bs a j * (starRingEnd ℂ) (evec a) := by
  have key : ∀ (bs : List (ℕ × (ℕ → ℕ → ℂ))) (c : ℕ) (x : ℂ),
      (bs.foldl (radStep f evec j) (c, x)).2 = x + f * ∑ a ∈ range ((bs.map (·.1)).sum),
        flatCoup bs a j * (starRingEnd ℂ) (evec (c + a)) := by
    intro bs
    induction bs with
    | nil => intro c x; simp
    | cons b bs ih =>
      intro c x
      rw [List.foldl_cons, radStep, ih, List.map_cons, List.sum_cons, sum_range_add, mul_add, ← add_assoc]
      congr 1
      · congr 2
        refine sum_congr rfl fun a ha => ?_
        obtain ⟨n, rad⟩ := b
        rw [flatCoup, if_pos (mem_range.1 ha)]
      · congr 1
        refine sum_congr rfl fun a _ => ?_
        obtain ⟨n, rad⟩ := b
        rw [flatCoup, if_neg (by omega), Nat.add_sub_cancel_left, Nat.add_assoc]
  rw [radC, key]
  simp

/-- Contribution of one channel: `π · dos · |Σ_a conj(c_a) V_{a j}|²` with the couplings of all basis states. -/
noncomputable def channelRad (c : Clad) (pol : Pol) (omr : ℝ) (gk : List ℝ) (evec : ℕ → ℂ) (j : ℕ) : ℝ :=
  let bs := match pol with
    | .te => c.te
    | .tm => c.tm
  Real.pi * (c.eps / √(c.eps * omr ^ 2 - gk.getD j 0 ^ 2) / 4 / Real.pi) *
    ‖∑ a ∈ range ((bs.map (·.1)).sum), (starRingEnd ℂ) (evec a) * flatCoup bs a j‖ ^ 2

theorem sumSq_coup (c : Clad) (pol : Pol) (omr : ℝ) (gk : List ℝ) (evec : ℕ → ℂ) (l : List ℂ)
    (he : 0 ≤ c.eps) (h : c.coup pol omr gk evec = some l) :
    sumSq l = ((openChannels c.eps omr gk).map (channelRad c pol omr gk evec)).sum := by
  have hn : ¬ OnLightLine c.eps omr gk := by
    intro hc; rw [(coup_finite c pol omr gk evec).2 hc] at h; simp at h
  rw [mapM_option_eq _ 0 _ _ h]
  unfold sumSq
  rw [List.map_map]
  congr 1
  refine List.map_congr_left fun j hj => ?_
  obtain ⟨j1, j2⟩ := (mem_openChannels _ _ _ _).1 hj
  have hd : radDos c.eps omr (gk.getD j 0) = some (c.eps / √(c.eps * omr ^ 2 - gk.getD j 0 ^ 2) / 4 / Real.pi) := by
    unfold radDos
    rw [if_neg]
    intro h0
    exact hn ⟨j, j1, by linarith⟩
  have hp := Real.pi_pos
  have hdn : 0 ≤ Real.pi * (c.eps / √(c.eps * omr ^ 2 - gk.getD j 0 ^ 2) / 4 / Real.pi) := by positivity
  simp only [Function.comp_apply, hd, Option.map_some, Option.getD_some, norm_mul, mul_pow, Complex.norm_real,
    Real.norm_eq_abs, sq_abs, Real.sq_sqrt hdn]
  unfold channelRad
  cases pol
  · simp only [radC_eq, norm_mul, norm_neg, Complex.norm_I, one_mul]
    congr 3
    exact sum_congr rfl fun _ _ => mul_comm _ _
  · simp only [radC_eq, one_mul]
    congr 3
    exact sum_congr rfl fun _ _ => mul_comm _ _

/-- **C35.** The total squared coupling, which fixes the loss, is the sum of the contributions of all open
channels of both claddings and both polarisations, taken in any order. Each contribution depends only on its
own channel. -/
theorem C35_additive (lo up : Clad) (omr : ℝ) (gk : List ℝ) (evec : ℕ → ℂ) (hl : 0 ≤ lo.eps) (hu : 0 ≤ up.eps)
    (r : ℝ × ℝ) (h : modeRad lo up omr gk evec = some r)
    (chans : List (Bool × Pol × ℕ))
    (hc : chans.Perm ([(false, Pol.te), (false, Pol.tm), (true, Pol.te), (true, Pol.tm)].flatMap fun x =>
      (openChannels (if x.1 then up.eps else lo.eps) omr gk).map fun j => (x.1, x.2, j))) :
    r.1 + r.2 = (chans.map fun x => channelRad (if x.1 then up else lo) x.2.1 omr gk evec x.2.2).sum := by
  rw [(hc.map _).sum_eq]
  unfold modeRad at h
  split at h
  case h_2 => simp at h
  case h_1 a b c d ha hb hc' hd =>
    simp only [Option.some.injEq] at h
    subst h
    simp only [List.flatMap_cons, List.flatMap_nil, List.map_append, List.map_map, List.sum_append,
      Function.comp_def, Bool.false_eq_true, if_false, if_true, List.append_nil]
    rw [sumSq_coup lo .te omr gk evec a hl ha, sumSq_coup up .te omr gk evec b hu hb,
      sumSq_coup lo .tm omr gk evec c hl hc', sumSq_coup up .tm omr gk evec d hu hd]
    ring

/-- **C35.** TE and TM parts are the sums over the channels of that polarisation. -/
theorem C35_parts (lo up : Clad) (omr : ℝ) (gk : List ℝ) (evec : ℕ → ℂ) (hl : 0 ≤ lo.eps) (hu : 0 ≤ up.eps)
    (r : ℝ × ℝ) (h : modeRad lo up omr gk evec = some r) :
    r.1 = ((openChannels lo.eps omr gk).map (channelRad lo .te omr gk evec)).sum +
        ((openChannels up.eps omr gk).map (channelRad up .te omr gk evec)).sum ∧
    r.2 = ((openChannels lo.eps omr gk).map (channelRad lo .tm omr gk evec)).sum +
        ((openChannels up.eps omr gk).map (channelRad up .tm omr gk evec)).sum := by
  unfold modeRad at h
  split at h
  case h_2 => simp at h
  case h_1 a b c d ha hb hc' hd =>
    simp only [Option.some.injEq] at h
    subst h
    rw [sumSq_coup lo .te omr gk evec a hl ha, sumSq_coup up .te omr gk evec b hu hb,
      sumSq_coup lo .tm omr gk evec c hl hc', sumSq_coup up .tm omr gk evec d hu hd]
    exact ⟨rfl, rfl⟩

/-- **C35.** A mode is only defined up to a factor: multiplying the eigenvector by `c` multiplies all contributions
by `|c|²`, so a phase changes nothing. -/
theorem C35_phase (c : Clad) (pol : Pol) (omr : ℝ) (gk : List ℝ) (evec : ℕ → ℂ) (z : ℂ) (j : ℕ) :
    channelRad c pol omr gk (fun a => z * evec a) j = ‖z‖ ^ 2 * channelRad c pol omr gk evec j := by
  unfold channelRad
  simp only [map_mul]
  have : ∀ (n : ℕ) (V : ℕ → ℂ), ∑ a ∈ range n, (starRingEnd ℂ) z * (starRingEnd ℂ) (evec a) * V a =
      (starRingEnd ℂ) z * ∑ a ∈ range n, (starRingEnd ℂ) (evec a) * V a := by
    intro n V; rw [mul_sum]; exact sum_congr rfl fun _ _ => by ring
  rw [this, norm_mul, mul_pow, Complex.norm_conj]
  ring

/-! ### C72 -/

theorem mapM_except {α β : Type} (f : α → Except PyErr β) : ∀ (l : List α) (r : List β),
    l.mapM f = .ok r ↔ List.Forall₂ (fun a b => f a = .ok b) l r := by
  intro l
  induction l with
  | nil =>
    intro r
    rw [List.mapM_nil, List.forall₂_nil_left_iff]
    exact ⟨fun h => by injection h with h; exact h.symm, fun h => by rw [h]; rfl⟩
  | cons a l ih =>
    intro r
    rw [List.mapM_cons]
    cases hfa : f a with
    | error e =>
      constructor
      · intro h; simp [bind, Except.bind] at h
      · intro h
        cases h with
        | cons h1 _ => rw [hfa] at h1; simp at h1
    | ok b =>
      cases hl : l.mapM f with
      | error e =>
        constructor
        · intro h; simp [bind, Except.bind] at h
        · intro h
          cases h with
          | cons h1 h2 => rw [← ih, hl] at h2; simp at h2
      | ok r' =>
        have := (ih r').1 hl
        constructor
        · intro h
          simp [bind, Except.bind, pure, Except.pure] at h
          subst h
          exact List.Forall₂.cons hfa this
        · intro h
          cases h with
          | @cons _ b' _ r'' h1 h2 =>
            rw [hfa] at h1
            injection h1 with h1
            rw [← ih, hl] at h2
            injection h2 with h2
            subst h1 h2
            rfl

/-- **C72.** `compute_rad` returns one loss per requested index, in the order of the request, negative indices
counting from the last mode; it raises `RuntimeError` before `run`, `ValueError` for an empty request or an index
beyond the last mode, `IndexError` for one below the first. -/
theorem C72_requests {L : Type} (nk numeig : ℕ) (minds : List ℤ) (loss : ℕ → L) :
    (nk = 0 → computeRad nk numeig minds loss = .error .runtimeError) ∧
    (nk ≠ 0 → minds = [] → computeRad nk numeig minds loss = .error .valueError) ∧
    (nk ≠ 0 → (∃ m ∈ minds, (numeig : ℤ) ≤ m) → computeRad nk numeig minds loss = .error .valueError) ∧
    (nk ≠ 0 → minds ≠ [] → (∀ m ∈ minds, m < numeig) → (∃ m ∈ minds, m < -numeig) →
      computeRad nk numeig minds loss = .error .indexError) ∧
    (nk ≠ 0 → minds ≠ [] → (∀ m ∈ minds, -numeig ≤ m ∧ m < (numeig : ℤ)) →
      computeRad nk numeig minds loss =
        .ok (minds.map fun (m : ℤ) => loss (if 0 ≤ m then m.toNat else (m + numeig).toNat))) := by
  unfold computeRad resolveMinds
  refine ⟨fun h => by rw [if_pos h], fun h h2 => by subst h2; simp [h], fun h h2 => ?_, fun h h2 h3 h4 => ?_,
    fun h h2 h3 => ?_⟩
  · rw [if_neg h]
    obtain ⟨m, hm, hlt⟩ := h2
    cases hmax : minds.max? with
    | none => rfl
    | some M =>
      have := (List.max?_eq_some_iff.1 hmax).2 m hm
      simp only
      rw [if_pos (by omega)]
  · rw [if_neg h]
    cases hmax : minds.max? with
    | none => exact absurd (List.max?_eq_none_iff.1 hmax) h2
    | some M =>
      have hM := (List.max?_eq_some_iff.1 hmax).1
      have := h3 M hM
      simp only
      rw [if_neg (by omega)]
      have : minds.mapM (pyIndex numeig) = .error .indexError := by
        clear hmax hM this h2 h3
        induction minds with
        | nil => obtain ⟨m, hm, -⟩ := h4; simp at hm
        | cons a l ih =>
          rw [List.mapM_cons]
          cases hfa : pyIndex numeig a with
          | error e =>
            have : e = .indexError := by
              unfold pyIndex at hfa; split_ifs at hfa; injection hfa with hfa; exact hfa.symm
            rw [this]; rfl
          | ok b =>
            obtain ⟨m, hm, hlt⟩ := h4
            rcases List.mem_cons.1 hm with hm' | hm'
            · subst hm'
              unfold pyIndex at hfa
              split_ifs at hfa <;> omega
            · rw [ih ⟨m, hm', hlt⟩]; rfl
      rw [this]
  · rw [if_neg h]
    cases hmax : minds.max? with
    | none => exact absurd (List.max?_eq_none_iff.1 hmax) h2
    | some M =>
      have hM := (List.max?_eq_some_iff.1 hmax).1
      have := (h3 M hM).2
      simp only
      rw [if_neg (by omega)]
      have : minds.mapM (pyIndex numeig) =
          .ok (minds.map fun (m : ℤ) => if 0 ≤ m then m.toNat else (m + numeig).toNat) := by
        rw [mapM_except, List.forall₂_map_right_iff, List.forall₂_same]
        intro m hm
        have := h3 m hm
        unfold pyIndex
        split_ifs <;> first | rfl | omega
      rw [this]
      simp [Function.comp_def]

/-! ### Examples -/

noncomputable section

/-- One guided mode with two plane waves at `|g + k| = 1` and `3`, frequency 2: the first one is open. -/
def exClad (eps : ℝ) : Clad := ⟨eps, [(2, fun i _ => if i = 0 then 1 else 2)], [(2, fun _ _ => 0)]⟩

theorem exFinite : ∃ l, modeLoss (exClad 1) (exClad 2) 2 [1, 3] (fun _ => 1) = some l := by
  apply Option.ne_none_iff_exists'.1
  rw [Ne, C33_light_line]
  rintro (⟨j, hj, h⟩ | ⟨j, hj, h⟩) <;> rcases j with _ | _ | j <;> simp at hj <;> simp [exClad] at h <;> norm_num at h

example : ∃ l, modeLoss (exClad 1) (exClad 2) 2 [1, 3] (fun _ => 1) = some l ∧ 0 ≤ l.tot ∧ unbalance l ≤ 1 := by
  obtain ⟨l, hl⟩ := exFinite
  exact ⟨l, hl, (C33_nonneg_partial _ _ _ _ _ l hl).1, (C34_fraction _ _ _ _ _ l hl).2.1⟩

example : modeLoss (exClad 1) (exClad 2) 1 [2, 3] (fun _ => 1) = some ⟨0, 0, 0⟩ :=
  C33_guided _ _ _ _ _ (by simp [exClad]; norm_num)

example : modeLoss (exClad 1) (exClad 2) 1 [1, 3] (fun _ => 1) = none :=
  (C33_light_line _ _ _ _ _).2 (Or.inl ⟨0, by simp, by simp [exClad]⟩)

/-- The contributions are not all zero: here the coupling of the open channel is `1 + 2`. -/
example : 0 < channelRad (exClad 1) .te 2 [1, 3] (fun _ => 1) 0 := by
  unfold channelRad exClad
  have hp := Real.pi_pos
  have h1 : (0 : ℝ) < √(1 * 2 ^ 2 - [1, 3].getD 0 0 ^ 2) := Real.sqrt_pos.2 (by norm_num)
  have h2 : (∑ a ∈ range (List.map (fun x : ℕ × (ℕ → ℕ → ℂ) => x.1) [(2, fun i _ => if i = 0 then 1 else 2)]).sum,
      (starRingEnd ℂ) 1 * flatCoup [(2, fun i _ => if i = 0 then 1 else 2)] a 0) = 3 := by
    simp [flatCoup, sum_range_succ]; norm_num
  simp only [h2]
  have h3 : (0 : ℝ) < ‖(3 : ℂ)‖ ^ 2 := by norm_num
  positivity

example : ∃ r, modeRad (exClad 1) (exClad 2) 2 [1, 3] (fun _ => 1) = some r ∧
    r.1 = ((openChannels 1 2 [1, 3]).map (channelRad (exClad 1) .te 2 [1, 3] (fun _ => 1))).sum +
        ((openChannels 2 2 [1, 3]).map (channelRad (exClad 2) .te 2 [1, 3] (fun _ => 1))).sum := by
  obtain ⟨l, hl⟩ := exFinite
  unfold modeLoss at hl
  obtain ⟨r, hr, -⟩ := Option.map_eq_some_iff.1 hl
  exact ⟨r, hr, (C35_parts (exClad 1) (exClad 2) 2 [1, 3] _ (by simp [exClad]) (by simp [exClad]) r hr).1⟩

/-- Channels in reverse order. -/
example (r : ℝ × ℝ) (h : modeRad (exClad 1) (exClad 2) 2 [1, 3] (fun _ => 1) = some r) :
    r.1 + r.2 = ((([(false, Pol.te), (false, Pol.tm), (true, Pol.te), (true, Pol.tm)].flatMap fun x =>
      (openChannels (if x.1 then (exClad 2).eps else (exClad 1).eps) 2 [1, 3]).map fun j =>
        (x.1, x.2, j)).reverse).map
      fun x => channelRad (if x.1 then exClad 2 else exClad 1) x.2.1 2 [1, 3] (fun _ => 1) x.2.2).sum :=
  C35_additive (exClad 1) (exClad 2) 2 [1, 3] _ (by simp [exClad]) (by simp [exClad]) r h _
    (List.reverse_perm _)

example : channelRad (exClad 1) .te 2 [1, 3] (fun _ => Complex.I * 1) 0 =
    channelRad (exClad 1) .te 2 [1, 3] (fun _ => 1) 0 := by
  rw [C35_phase]; simp

example : ∃ l r, modeLoss (exClad 1) (exClad 2) 2 [1, 3] (fun _ => 1) = some l ∧
    modeRad (exClad 1) (exClad 2) 2 [1, 3] (fun _ => 1) = some r ∧
    2 * Real.pi * l.tot ≤ (r.1 + r.2) / (2 * 2) := by
  obtain ⟨l, hl⟩ := exFinite
  obtain ⟨r, hr, -⟩ := Option.map_eq_some_iff.1 (show (modeRad _ _ _ _ _).map _ = some l from hl)
  exact ⟨l, r, hl, hr, (C33_value _ _ 2 (by norm_num) _ _ l r hl hr).2.2⟩

example : computeRad 3 4 [0, -1] (fun m => m * 10) = .ok [0, 30] :=
  (C72_requests 3 4 [0, -1] (fun m => m * 10)).2.2.2.2 (by norm_num) (by simp) (by simp)

end

end Legume
