import Mathlib.Analysis.SpecialFunctions.Sqrt
import Verif.Model.Py

/-!
# `legume/minimize.py`: class `Minimize`
-/
namespace Legume

/-! ### `_parse_bounds` (minimize.py 33-56) -/

/-- Python values that may occur inside the argument `bounds`. -/
inductive PyV
  | num (x : ℚ)
  | tup (l : List PyV)
  | lst (l : List PyV)
  | other

/-- The argument `bounds`: `None`, a list or tuple, or something that cannot be indexed. -/
inductive BArg
  | none
  | seq (l : List PyV)
  | scalar

/-- `isinstance(b, tuple)`. -/
def PyV.isTup : PyV → Bool
  | .tup _ => true
  | _ => false

/-- `len(b)`; `none` stands for a `TypeError`. -/
def PyV.len : PyV → Option ℕ
  | .tup l => some l.length
  | .lst l => some l.length
  | _ => none

/-- `_parse_bounds`; every exception raised inside is turned into `ValueError` (the bare `except`).
`n` is `self.params.size`. -/
def parseBounds (n : ℕ) : BArg → Except PyErr (Option (List PyV))
  | .none => .ok none
  | .scalar => .error .valueError
  | .seq l =>
    match l with
    | [] => .error .valueError
    | b0 :: _ =>
      if b0.isTup = false then
        if l.length = 2 then .ok (some (List.replicate n (.tup l))) else .error .valueError
      else if l.length = n then
        if l.all (fun b => b.len = some 2) then .ok (some l) else .error .valueError
      else .error .valueError

/-! ### `_step_adam` (minimize.py 142-159), one parameter -/

/-- Entry of `mopt`. -/
def adamM (beta1 mOld g : ℝ) : ℝ := beta1 * mOld + (1 - beta1) * g

/-- Entry of `vopt`. -/
def adamV (beta2 vOld g : ℝ) : ℝ := beta2 * vOld + (1 - beta2) * g ^ 2

/-- Entry of `grad_adam`, with `epsilon = 1e-8`. -/
noncomputable def adamG (beta1 beta2 : ℝ) (iteration : ℕ) (m v : ℝ) : ℝ :=
  m / (1 - beta1 ^ (iteration + 1)) / (√(v / (1 - beta2 ^ (iteration + 1))) + 1e-8)

/-! ### `adam` (minimize.py 68-140) -/

/-- The minimiser object together with the variables of the loop. `aliased` records whether
`self.params` is still the very array `pstart` of the caller, `pstart` the present contents of that
array and `evals` the parameters at which the objective was evaluated. -/
structure AdamSt where
  params : List ℝ
  aliased : Bool
  pstart : List ℝ
  ofs : List ℝ
  mopt : List ℝ
  vopt : List ℝ
  evals : List (List ℝ)

/-- Arguments of `adam`. `vg` is `value_and_grad(self.objective)`; with `pass_self` it may look at the
whole object. `bounds` are the parsed bounds. Simplifications: one-dimensional arrays of floats; the
callback does not modify the object. -/
structure AdamCfg where
  vg : AdamSt → ℝ × List ℝ
  nEpochs : ℕ
  bounds : Option (List (ℝ × ℝ))
  stepSize : ℝ
  beta1 : ℝ
  beta2 : ℝ

open Classical in
/-- Snapping to the bounds (minimize.py 131-135). -/
noncomputable def clip1 (b : ℝ × ℝ) (p : ℝ) : ℝ :=
  let p := if p < b.1 then b.1 else p
  if p > b.2 then b.2 else p

/-- One epoch (minimize.py 109-138). -/
noncomputable def adamEpoch (cfg : AdamCfg) (st : AdamSt) (iteration : ℕ) : AdamSt :=
  let r := cfg.vg st
  let mOld := if iteration = 0 then List.replicate r.2.length 0 else st.mopt
  let vOld := if iteration = 0 then List.replicate r.2.length 0 else st.vopt
  let m := List.zipWith (adamM cfg.beta1) mOld r.2
  let v := List.zipWith (adamV cfg.beta2) vOld r.2
  let g := List.zipWith (adamG cfg.beta1 cfg.beta2 iteration) m v
  let upd := iteration < cfg.nEpochs - 1
  let params := if upd then List.zipWith (fun p g => p - cfg.stepSize * g) st.params g else st.params
  let aliased := if upd then false else st.aliased
  let clipped := match cfg.bounds with
    | none => params
    | some bs => List.zipWith clip1 bs params
  { params := clipped
    aliased := aliased
    pstart := if aliased = true then clipped else st.pstart
    ofs := st.ofs ++ [r.1]
    mopt := m
    vopt := v
    evals := st.evals ++ [st.params] }

/-- The state before the loop (minimize.py 95-103). -/
def adamInit (pstart : List ℝ) : AdamSt := ⟨pstart, true, pstart, [], [], [], []⟩

/-- `adam`: the final state; `(params, ofs)` is returned. -/
noncomputable def adam (cfg : AdamCfg) (pstart : List ℝ) : AdamSt :=
  (List.range cfg.nEpochs).foldl (adamEpoch cfg) (adamInit pstart)

end Legume
