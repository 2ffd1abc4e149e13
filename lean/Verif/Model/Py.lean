/-!
# Python-level vocabulary shared by all model files
-/
namespace Legume

/-- The Python exception classes raised (explicitly or by the interpreter) in the
modelled code.  Messages are not modelled. -/
inductive PyErr where
  | valueError
  | typeError
  | indexError
  | nameError
  | zeroDivisionError
  | attributeError
  | runtimeError
  | notImplementedError
  deriving DecidableEq, Repr

/-- Outcome of a statement-like call: it returns normally or raises. -/
abbrev PyRes := Except PyErr Unit

/-- Python list indexing `l[i]` for an integer `i`: negative indices count from the
end, and an index outside `-len .. len-1` raises `IndexError`.  Returns the position. -/
def pyIndex (len : Nat) (i : Int) : Except PyErr Nat :=
  if 0 ≤ i ∧ i < len then .ok i.toNat
  else if i < 0 ∧ 0 ≤ i + len then .ok (i + len).toNat
  else .error .indexError

end Legume
