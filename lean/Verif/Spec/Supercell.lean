import Verif.Spec.PweSim

/-! # Supercells -/
namespace Legume.Spec

open Real

/-- The shapes of a supercell of `N1` by `N2` cells with the primitive vectors `a1`, `a2`: one displaced copy of every
shape of the cell for each cell, listed in any order. -/
def Copies (N1 N2 : ℕ) (a1 a2 : ℝ × ℝ) (shapes shapes' : List FShape) : Prop :=
  ∃ c : ℕ → ℕ → List FShape,
    (∀ m < N1, ∀ n < N2, List.Forall₂ (Displaced (m * a1.1 + n * a2.1, m * a1.2 + n * a2.2)) shapes (c m n)) ∧
    shapes'.Perm ((List.range N1).flatMap fun m => (List.range N2).flatMap fun n => c m n)

/-- `a1`, `a2` are primitive vectors of the lattice with the reciprocal vectors `b1`, `b2`. -/
structure Reciprocal (a1 a2 b1 b2 : ℝ × ℝ) : Prop where
  h11 : a1.1 * b1.1 + a1.2 * b1.2 = 2 * π
  h12 : a1.1 * b2.1 + a1.2 * b2.2 = 0
  h21 : a2.1 * b1.1 + a2.2 * b1.2 = 0
  h22 : a2.1 * b2.1 + a2.2 * b2.2 = 2 * π

/-- `b'` is the `N`-th part of `b`. -/
def NthPart (N : ℕ) (b b' : ℝ × ℝ) : Prop := b = (N * b'.1, N * b'.2)

end Legume.Spec
