import Mathlib.Analysis.SpecialFunctions.Trigonometric.Basic

/-!
# Specification vocabulary for slab modes
-/
namespace Legume.Spec

/-- Amplitude of the field `A e^{i chi t} + B e^{-i chi t}`. -/
noncomputable def fieldSum (x : ℂ) (ab : ℂ × ℂ) (t : ℝ) : ℂ :=
  ab.1 * Complex.exp (Complex.I * x * t) + ab.2 * Complex.exp (-(Complex.I * x * t))

/-- The second tangential component, proportional to the derivative of the first:
`w (A e^{i chi t} - B e^{-i chi t})`, with `w = chi` (TE) or `chi / eps` (TM). -/
noncomputable def fieldDiff (w x : ℂ) (ab : ℂ × ℂ) (t : ℝ) : ℂ :=
  w * (ab.1 * Complex.exp (Complex.I * x * t) - ab.2 * Complex.exp (-(Complex.I * x * t)))

/-- Sampling point number `i` of a search from `lb` to `ub` with the given step. -/
noncomputable def samplePoint (lb ub step : ℝ) (i : ℕ) : ℝ := min (lb + i * step) ub

/-- Squared magnetic field at height `t` of a TM mode in a layer with transverse wave number `x` and
amplitudes `ab`: there is one component. -/
noncomputable def intensityTM (x : ℂ) (ab : ℂ × ℂ) (t : ℝ) : ℝ := ‖fieldSum x ab t‖ ^ 2

/-- The same for a TE mode, with the two components `chi (A - B)` and `g (A + B)`. -/
noncomputable def intensityTE (g : ℝ) (x : ℂ) (ab : ℂ × ℂ) (t : ℝ) : ℝ :=
  ‖fieldDiff x x ab t‖ ^ 2 + g ^ 2 * ‖fieldSum x ab t‖ ^ 2

end Legume.Spec
