import Mathlib.Analysis.SpecialFunctions.Exponential
import Verif.Model.Py

/-!
# `legume/utils.py`
-/
namespace Legume

/-! ### `grad_num` (utils.py 81-102) -/

/-- The argument `step_size`: a Python `float`, an array (flattened), or anything else, e.g. an `int`,
which has no `ravel`. -/
inductive StepSize (K : Type*)
  | flt (h : K)
  | arr (h : List K)
  | other

/-- `step` (utils.py 91-94). -/
def StepSize.steps {K : Type*} (n : ℕ) : StepSize K → Except PyErr (List K)
  | .flt h => .ok (List.replicate n h)
  | .arr h => .ok h
  | .other => .error .attributeError

/-- Variables of the loop: the caller's array and the gradient. -/
structure GradState (K : Type*) where
  arg : List K
  gradient : List K

/-- One iteration (utils.py 96-100): `arg.flatten()` is a copy, so that only the copy is changed. The
index is that of the flattened arrays; `fn` is `fn` after `reshape`. -/
def gradStep {K : Type*} [Field K] (fn : List K → K) (fOld : K) (step : List K) (st : GradState K)
    (i : ℕ) : Except PyErr (GradState K) :=
  match step[i]? with
  | none => .error .indexError
  | some h =>
    let argNew := st.arg.modify i (· + h)
    .ok { st with gradient := st.gradient.set i ((fn argNew - fOld) / h) }

/-- `grad_num` (utils.py 81-102). Returns the loop variables: the gradient and the array of the caller. -/
def gradNum {K : Type*} [Field K] (fn : List K → K) (arg : List K) (s : StepSize K) :
    Except PyErr (GradState K) := do
  let fOld := fn arg
  let step ← s.steps arg.length
  (List.range arg.length).foldlM (gradStep fn fOld step) ⟨arg, List.replicate arg.length 0⟩

/-! ### `find_nearest` (utils.py 193-199) -/

/-- `l[:N]` for an integer `N`. -/
def pyTake {α : Type*} (l : List α) (N : ℤ) : List α :=
  if 0 ≤ N then l.take N.toNat else l.take (l.length - (-N).toNat)

/-- `find_nearest`. `argsort` is numpy's (not stable) `argsort`, a parameter. -/
def findNearest {K : Type*} [AddCommGroup K] [Lattice K] (argsort : List K → List ℕ) (array : List K)
    (value : K) (N : ℤ) : List ℕ :=
  pyTake (argsort (array.map fun a => |a - value|)) N

/-! ### `RedhefferStar` (utils.py 202-226) -/

/-- A 2 by 2 matrix. -/
structure SMat (K : Type*) where
  s11 : K
  s12 : K
  s21 : K
  s22 : K
  deriving DecidableEq

/-- `RedhefferStar`. A vanishing denominator gives infinities in numpy; in the model the quotient is
zero then, and all theorems exclude the case. -/
def redheffer {K : Type*} [Field K] (A B : SMat K) : SMat K :=
  let D := 1 / (1 - B.s11 * A.s22)
  let F := 1 / (1 - A.s22 * B.s11)
  ⟨A.s11 + A.s12 * D * B.s11 * A.s21,
   A.s12 * D * B.s12,
   B.s21 * F * A.s21,
   B.s22 + B.s21 * F * A.s22 * B.s12⟩

/-! ### `ftinv` (utils.py 13-51) -/

open Classical in
/-- `np.unique(gvec, return_index=True, axis=1)`: the first occurrence of every vector. The order
(lexicographic in numpy) is immaterial for a sum. -/
noncomputable def keepFirst (seen : List (ℝ × ℝ)) : List (ℂ × ℝ × ℝ) → List (ℂ × ℝ × ℝ)
  | [] => []
  | (c, g) :: l => if g ∈ seen then keepFirst seen l else (c, g) :: keepFirst (g :: seen) l

/-- Value of `ftinv` at one point. Simplification: there are as many coefficients as vectors. -/
noncomputable def ftinvAt (cg : List (ℂ × ℝ × ℝ)) (x y : ℝ) : ℂ :=
  ((keepFirst [] cg).map fun c =>
    c.1 * Complex.exp (Complex.I * c.2.1 * x + Complex.I * c.2.2 * y)).sum

/-- `ftinv`: rows are indexed by `ygrid`, columns by `xgrid` (`np.meshgrid`). -/
noncomputable def ftinv (cg : List (ℂ × ℝ × ℝ)) (xgrid ygrid : List ℝ) : List (List ℂ) :=
  ygrid.map fun y => xgrid.map fun x => ftinvAt cg x y

/-- Coefficients and vectors which `get_eps_xy` passes to `ftinv` for `truncate_g = "tbt"`
(gme.py 1900-1905). -/
noncomputable def epsXyTbt (t1 t2 : List (ℂ × ℝ × ℝ)) : List (ℂ × ℝ × ℝ) :=
  let cj := fun (c : ℂ × ℝ × ℝ) => ((starRingEnd ℂ) c.1, -c.2.1, -c.2.2)
  t1 ++ t2 ++ t1.map cj ++ t2.map cj

/-! ### `from_freq_to_e` (utils.py 253-282) -/

/-- `h_eV_Hz * c` (constants.py 17-21). -/
noncomputable def hcEV : ℝ := 4.135667696e-15 * 299792458.0

open Classical in
/-- `from_freq_to_e`: the factor and whether a warning is issued. The quotient is computed before the
test; dividing by zero raises for a Python `float` and gives infinity for a numpy scalar. -/
noncomputable def fromFreqToE (isNumpy : Bool) (a : ℝ) : Except PyErr (ℝ × Bool) :=
  if a = 0 ∧ isNumpy = false then .error .zeroDivisionError
  else
    let conv := hcEV / a
    if a ≤ 0 then .error .valueError
    else .ok (conv, decide (a < 5e-8 ∨ a > 5e-6))

end Legume
