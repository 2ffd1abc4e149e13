import Verif.Model.Minimize

/-!
# `Minimize.lbfgs` (minimize.py 161-258)

SciPy's minimiser is an unknown program which calls the functions given to it: an execution is the list
of its calls, evaluations `eval p` of the objective and callbacks `cb x`, in any order and number.
Simplifications: elapsed times and printing are left out; the values of parameters are an abstract type
`P`; an objective is a function with a fixed or a variable number of positional arguments; the user's
callback only looks at the object, and what it can see is recorded.
-/
namespace Legume

/-- The attributes of the minimiser written by `lbfgs`; `ofLast` is `none` before its first
assignment. -/
structure LbSt (P : Type) where
  params : P
  bounds : Option (List PyV)
  iteration : ℕ
  ofList : List ℝ
  ofLast : Option ℝ

/-- An objective: the number of arguments after the parameters (`none`: any number) and the value, which
may look at the minimiser if that is passed. -/
structure LbObj (P : Type) where
  extra : Option ℕ
  val : P → Option (LbSt P) → ℝ

/-- Calling the objective with `n` arguments after the parameters. -/
def LbObj.call {P : Type} (o : LbObj P) (p : P) (n : ℕ) (self : Option (LbSt P)) : Except PyErr ℝ :=
  match o.extra with
  | none => .ok (o.val p self)
  | some m => if m = n then .ok (o.val p self) else .error .typeError

/-- A call made by SciPy. -/
inductive LbEv (P : Type) where
  | eval (p : P)
  | cb (x : P)

/-- `of` (minimize.py 205-216) and `cb` (218-233). The third component is what the user's callback
sees. -/
def lbStep {P : Type} (o : LbObj P) (nargs : ℕ) (passSelf : Bool) (st : LbSt P) :
    LbEv P → Except PyErr (LbSt P × List (LbSt P))
  | .eval p =>
    match (if passSelf then o.call p (nargs + 1) (some st) else o.call p nargs none) with
    | .error e => .error e
    | .ok v => .ok ({ st with ofLast := some v }, [])
  | .cb x =>
    match st.ofLast with
    | none => .error .attributeError
    | some v =>
      let st' := { st with iteration := st.iteration + 1, ofList := st.ofList ++ [v], params := x }
      .ok (st', [st'])

/-- The calls of SciPy one after the other. -/
def lbRun {P : Type} (o : LbObj P) (nargs : ℕ) (passSelf : Bool) (st : LbSt P) :
    List (LbEv P) → Except PyErr (LbSt P × List (LbSt P))
  | [] => .ok (st, [])
  | e :: es =>
    match lbStep o nargs passSelf st e with
    | .error err => .error err
    | .ok (st', s) =>
      match lbRun o nargs passSelf st' es with
      | .error err => .error err
      | .ok (st'', s') => .ok (st'', s ++ s')

/-- `lbfgs` up to the call of SciPy (minimize.py 188-203); `size` is `params.size`. Returns the object
also if an exception is raised. -/
def lbInit {P : Type} (size : P → ℕ) (o : LbObj P) (nargs : ℕ) (bounds : BArg) (pstart : P) (st : LbSt P) :
    LbSt P × Except PyErr Unit :=
  match parseBounds (size pstart) bounds with
  | .error e => ({ st with params := pstart }, .error e)
  | .ok b =>
    match o.call pstart nargs none with
    | .error e => ({ st with params := pstart, bounds := b, iteration := 0, ofList := [] }, .error e)
    | .ok v => ({ st with params := pstart, bounds := b, iteration := 0, ofList := [v] }, .ok ())

/-- `lbfgs`: the final object and what the user's callback saw, for the calls `tr` of SciPy. -/
def lbfgs {P : Type} (size : P → ℕ) (o : LbObj P) (nargs : ℕ) (passSelf : Bool) (bounds : BArg) (pstart : P)
    (tr : List (LbEv P)) (st : LbSt P) : Except PyErr (LbSt P × List (LbSt P)) :=
  match lbInit size o nargs bounds pstart st with
  | (_, .error e) => .error e
  | (st', .ok _) => lbRun o nargs passSelf st' tr

end Legume
