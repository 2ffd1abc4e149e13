import Verif.Model.Py

/-!
# Selection of the backends

`backend.py` 193-220, `print_backend.py` 55-86.  The state is the class of the module-level object; the
argument is a string (any other value compares unequal to both names and is treated like an unknown name).
-/
namespace Legume

inductive BackendClass | numpy | autograd
  deriving DecidableEq, Repr

inductive PrintClass | rich | base
  deriving DecidableEq, Repr

/-- `set_backend(name)` (backend.py 209-220). -/
def setBackend (agAvailable : Bool) (st : BackendClass) (name : String) : BackendClass × Except PyErr Unit :=
  if name = "autograd" ∧ agAvailable = false then (st, .error .valueError)
  else if name = "numpy" then (.numpy, .ok ())
  else if name = "autograd" then (.autograd, .ok ())
  else (st, .error .valueError)

/-- Module-level `print_backend` (print_backend.py 55-58). -/
def initPrint (richAvailable : Bool) : PrintClass := if richAvailable then .rich else .base

/-- `set_print_backend(name)` (print_backend.py 73-86). -/
def setPrint (richAvailable : Bool) (st : PrintClass) (name : String) : PrintClass × Except PyErr Unit :=
  if name = "rich" ∧ richAvailable = false then (st, .error .valueError)
  else if name = "rich" then (.rich, .ok ())
  else if name = "base" then (.base, .ok ())
  else (st, .error .valueError)

/-- State after a sequence of calls whose errors are caught. -/
def runBackend (ag : Bool) (st : BackendClass) (names : List String) : BackendClass :=
  names.foldl (fun s n => (setBackend ag s n).1) st

/-- State after a sequence of calls whose errors are caught. -/
def runPrint (rich : Bool) (st : PrintClass) (names : List String) : PrintClass :=
  names.foldl (fun s n => (setPrint rich s n).1) st

end Legume
