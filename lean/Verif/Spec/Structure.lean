import Mathlib.Algebra.Order.Field.Basic

/-!
# Specification vocabulary for layer stacks (independent of the model)
-/
namespace Legume.Spec

variable {K : Type} [LinearOrder K]

/-- `Tiles a l b`: the intervals `l`, listed bottom to top, follow each other without gap
or overlap from `a` to `b`. -/
inductive Tiles : K → List (K × K) → K → Prop where
  | nil (a : K) : Tiles a [] a
  | cons {a b c : K} {l : List (K × K)} : Tiles b l c → Tiles a ((a, b) :: l) c

/-- `z` belongs to the half-open interval `[lo, hi)`. -/
def InCO (i : K × K) (z : K) : Prop := i.1 ≤ z ∧ z < i.2

/-- `z` belongs to the half-open interval `(lo, hi]`. -/
def InOC (i : K × K) (z : K) : Prop := i.1 < z ∧ z ≤ i.2

/-- What is recorded of a region of the structure: its background permittivity and the
shapes put in it, oldest first. -/
structure Rec (K S : Type) where
  eps : K
  shapes : List S

/-- The shapes of an iterable up to the first element which is not a shape. -/
def goodPrefix {S : Type} (l : List (Option S)) : List S := (l.takeWhile Option.isSome).filterMap id

end Legume.Spec
