import Verif.Model.Constants
import Verif.Model.Exc
import Verif.Props.Utils
import Mathlib.Analysis.Real.Pi.Bounds

/-! # C140: energies in eV -/
namespace Legume

open Real

theorem csHbar_planck : |csHbar * (2 * π) - csH| ≤ 4e-16 * csH := by
  have h1 := Real.pi_gt_d20
  have h2 := Real.pi_lt_d20
  unfold csHbar csH
  rw [abs_le]
  constructor
  · nlinarith
  · nlinarith

/-- **C140 (photons).** Multiplying a reduced frequency `f` (in units of `c / a`) with the factor which `from_freq_to_e`
returns gives the photon energy `h c f / a` in eV with the constants of the SI of 2019, up to three parts in `10 ^ 10`. -/
theorem C140_photon (np : Bool) (a f conv : ℝ) (w : Bool) (hf : 0 ≤ f) (h : fromFreqToE np a = .ok (conv, w)) :
    |conv * f - 6.62607015e-34 * 299792458 * (f / a) / 1.602176634e-19| ≤
      3e-10 * (6.62607015e-34 * 299792458 * (f / a) / 1.602176634e-19) := by
  have ha : 0 < a := by
    by_contra hn
    rw [not_lt] at hn
    unfold fromFreqToE at h
    split_ifs at h
  obtain ⟨w', h', -⟩ := (C56_convert_partial np a (Or.inl ha.ne')).2 ha
  rw [h] at h'
  cases h'
  have hx : 0 ≤ f / a := div_nonneg hf ha.le
  have e : hcEV / a * f = hcEV * (f / a) := by ring
  have key : |hcEV - 6.62607015e-34 * 299792458 / 1.602176634e-19| ≤ 3e-10 * (6.62607015e-34 * 299792458 / 1.602176634e-19) := by
    unfold hcEV
    rw [abs_le]
    constructor <;> norm_num
  rw [e, show hcEV * (f / a) - 6.62607015e-34 * 299792458 * (f / a) / 1.602176634e-19 =
    (hcEV - 6.62607015e-34 * 299792458 / 1.602176634e-19) * (f / a) by ring, abs_mul, abs_of_nonneg hx]
  refine (mul_le_mul_of_nonneg_right key hx).trans (le_of_eq ?_)
  ring

/-- **C140 (excitons).** The kinetic energy of an exciton with the constants of the code is `ħ² |k + g|² / (2 M)` in eV with
`ħ = h / 2π` of the SI of 2019, up to one part in `10 ^ 15`. -/
theorem C140_exciton (a M : ℝ) (hM : 0 < M) (k g : ℝ × ℝ) :
    let E := (6.62607015e-34 / (2 * π)) ^ 2 * (((k.1 + g.1) / a) ^ 2 + ((k.2 + g.2) / a) ^ 2) / (2 * M) / 1.602176634e-19
    |excKin csHbar csE a M k g - E| ≤ 1e-15 * E := by
  intro E
  have hp := Real.pi_pos
  set q := ((k.1 + g.1) / a) ^ 2 + ((k.2 + g.2) / a) ^ 2 with hq
  have hq0 : 0 ≤ q := by positivity
  have e1 : excKin csHbar csE a M k g = csHbar ^ 2 * (q / (2 * M) / csE) := by
    unfold excKin
    rw [← hq, Real.sq_sqrt hq0]
    have : csE ≠ 0 := by unfold csE; norm_num
    field_simp
  have e2 : E = (csH / (2 * π)) ^ 2 * (q / (2 * M) / csE) := by
    change (6.62607015e-34 / (2 * π)) ^ 2 * q / (2 * M) / 1.602176634e-19 = _
    unfold csH csE
    ring
  have hw : 0 ≤ q / (2 * M) / csE := by
    have : 0 < csE := by unfold csE; norm_num
    positivity
  have key : |csHbar ^ 2 - (csH / (2 * π)) ^ 2| ≤ 1e-15 * (csH / (2 * π)) ^ 2 := by
    obtain ⟨h1, h2⟩ := abs_le.1 csHbar_planck
    have hx : csHbar = csH / (2 * π) * (csHbar * (2 * π) / csH) := by
      have : csH ≠ 0 := by unfold csH; norm_num
      field_simp
    set r := csHbar * (2 * π) / csH with hr
    have hH : 0 < csH := by unfold csH; norm_num
    have r1 : 1 - 4e-16 ≤ r := by rw [hr, le_div_iff₀ hH]; linarith
    have r2 : r ≤ 1 + 4e-16 := by rw [hr, div_le_iff₀ hH]; linarith
    have hy : 0 ≤ (csH / (2 * π)) ^ 2 := by positivity
    rw [hx, show (csH / (2 * π) * r) ^ 2 - (csH / (2 * π)) ^ 2 = (csH / (2 * π)) ^ 2 * (r ^ 2 - 1) by ring, abs_mul,
      abs_of_nonneg hy, mul_comm]
    refine mul_le_mul_of_nonneg_right ?_ hy
    rw [abs_le]
    constructor <;> nlinarith
  rw [e1, e2, ← sub_mul, abs_mul, abs_of_nonneg hw, ← mul_assoc]
  exact mul_le_mul_of_nonneg_right key hw

/-- **C140 (polaritons).** The factor of all couplings is negative imaginary; its square is `ħ² / (4 m ε₀ a)` for the lattice
constant `a`, so that couplings fall with the square root of the lattice constant. -/
theorem C140_coupling (a : ℝ) (ha : 0 < a) :
    ‖hopPref a‖ ^ 2 = csHbar ^ 2 / (4 * csMe * csEps0 * a) ∧ (hopPref a).re = 0 ∧ (hopPref a).im < 0 ∧
    ∀ c, 0 < c → hopPref (c * a) = hopPref a / (√c : ℝ) := by
  have hE : 0 < csE := by unfold csE; norm_num
  have hh : 0 < csHbar := by unfold csHbar; norm_num
  have hm : 0 < csMe := by unfold csMe; norm_num
  have h0 : 0 < csEps0 := by unfold csEps0; norm_num
  have hx : hopPref a = -Complex.I * ((√(csHbar ^ 2 * csE ^ 2 / (4 * csMe * csEps0)) / csE / √a : ℝ) : ℂ) := by
    unfold hopPref
    push_cast
    ring
  have hpos : 0 < √(csHbar ^ 2 * csE ^ 2 / (4 * csMe * csEps0)) / csE / √a := by positivity
  refine ⟨?_, ?_, ?_, fun c hc => ?_⟩
  · rw [hx, norm_mul, norm_neg, Complex.norm_I, one_mul, Complex.norm_real, Real.norm_eq_abs, sq_abs, div_pow, div_pow,
      Real.sq_sqrt (by positivity), Real.sq_sqrt ha.le]
    field_simp
  · rw [hx]
    simp
  · rw [hx]
    simpa using hpos
  · unfold hopPref
    rw [Real.sqrt_mul hc.le]
    push_cast
    have := Real.sqrt_pos.2 hc
    field_simp

/-- **C140 (consistency).** The constants fit together: with the fine-structure constant `1 / 137.035999084` and the Rydberg
constant `10973731.56816` per metre, `e² / (2 ε₀ h c)` and `m e⁴ / (8 ε₀² h³ c)` agree to nine digits. -/
theorem C140_consistent :
    |csE ^ 2 / (2 * csEps0 * csH * csC) * 137.035999084 - 1| ≤ 1e-9 ∧
      |csMe * csE ^ 4 / (8 * csEps0 ^ 2 * csH ^ 3 * csC) / 10973731.56816 - 1| ≤ 1e-9 := by
  unfold csE csEps0 csH csC csMe
  constructor <;> rw [abs_le] <;> constructor <;> norm_num

/-- A lattice constant of 400 nm and the reduced frequency 0.3: 0.93 eV. -/
example : ∃ conv w, fromFreqToE false 4e-7 = .ok (conv, w) ∧ |conv * 0.3 - 0.93| < 0.01 := by
  refine ⟨hcEV / 4e-7, false, by unfold fromFreqToE; norm_num, ?_⟩
  unfold hcEV
  rw [abs_lt]
  constructor <;> norm_num

/-- An exciton of a fifth of the mass of the electron with the wave vector `1 / a`, in a lattice of 400 nm. -/
example : let E := (6.62607015e-34 / (2 * π)) ^ 2 * (((1 + 0) / 4e-7) ^ 2 + ((0 + 0) / 4e-7) ^ 2) / (2 * (csMe / 5)) /
    1.602176634e-19
    |excKin csHbar csE 4e-7 (csMe / 5) (1, 0) (0, 0) - E| ≤ 1e-15 * E :=
  C140_exciton 4e-7 (csMe / 5) (by unfold csMe; norm_num) (1, 0) (0, 0)

example : 0 < (4e-7 : ℝ) ∧ ‖hopPref 4e-7‖ ^ 2 = csHbar ^ 2 / (4 * csMe * csEps0 * 4e-7) :=
  ⟨by norm_num, (C140_coupling _ (by norm_num)).1⟩

end Legume
