import Mathlib.Algebra.Field.Defs
import Verif.Model.Py

/-!
# `vjp_maker_num` (utils.py 105-139) and `ft2square` (utils.py 54-78)

Arrays are flattened; `fn` takes the list of its (flattened) arguments. Simplification: the arrays `v`,
`fn_out` and the values of `fn` have the same shape, so that no broadcasting takes place.
-/
namespace Legume

/-- The entry `ip` of `vjp_num` (utils.py 122-129): only copies are changed. -/
def vjpNumEntry {K : Type*} [Field K] (fn : List (List K) → List K) (k : ℕ) (step : K) (fnOut : List K)
    (args : List (List K)) (v : List K) (ip : ℕ) : K :=
  let args' := args.modify k fun a => a.modify ip (· + step)
  let dfn := List.zipWith (fun a b => (a - b) / step) (fn args') fnOut
  (List.zipWith (· * ·) v dfn).sum

/-- `vjp` (utils.py 119-131) made by `vjp_maker(fn_out, *args)`; `IndexError` if there is no argument
`arg_ind`. Simplification: `arg_inds` are not negative. -/
def vjpNum {K : Type*} [Field K] (fn : List (List K) → List K) (k : ℕ) (step : K) (fnOut : List K)
    (args : List (List K)) : Except PyErr (List K → List K) :=
  match args[k]? with
  | none => .error .indexError
  | some a => .ok fun v => (List.range a.length).map fun (ip : ℕ) => vjpNumEntry fn k step fnOut args v ip

/-- `vjp_single_arg(ia)` (utils.py 109-133); `steps[ia]` is read when the maker is made. -/
def vjpSingleArg {K : Type*} [Field K] (fn : List (List K) → List K) (argInds : List ℕ) (steps : List K)
    (ia : ℕ) : Except PyErr (List K → List (List K) → Except PyErr (List K → List K)) :=
  match argInds[ia]?, steps[ia]? with
  | some k, some h => .ok fun fnOut args => vjpNum fn k h fnOut args
  | _, _ => .error .indexError

/-- `vjp_maker_num` (utils.py 105-139): one maker per entry of `arg_inds`. -/
def vjpMakerNum {K : Type*} [Field K] (fn : List (List K) → List K) (argInds : List ℕ) (steps : List K) :
    Except PyErr (List (List K → List (List K) → Except PyErr (List K → List K))) :=
  (List.range argInds.length).mapM (vjpSingleArg fn argInds steps)

/-- `ft2square` (utils.py 54-78) with `nG` columns: `nG1` is never assigned. `known` tells whether the
lattice is square or hexagonal. For no columns `np.max` of an empty array raises `ValueError`. -/
def ft2square (known : Bool) (nG : ℕ) : Except PyErr Unit :=
  if known = false then .error .notImplementedError
  else if nG = 0 then .error .valueError
  else .error .nameError

end Legume
