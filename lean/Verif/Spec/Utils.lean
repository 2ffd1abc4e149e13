import Mathlib.Algebra.Order.Group.Abs
import Mathlib.Data.List.Basic
import Verif.Model.Utils

/-!
# Vocabulary for `utils.py`
-/
namespace Legume.Spec

/-- Contract of `argsort`: the positions, permuted such that the keys do not decrease. -/
def IsArgsort {K : Type*} [LinearOrder K] [Zero K] (keys : List K) (idx : List ℕ) : Prop :=
  idx.Perm (List.range keys.length) ∧ (idx.map fun (i : ℕ) => keys.getD i 0).Pairwise (· ≤ ·)

/-- A scattering matrix turns incoming into outgoing waves: `a1`, `a2` arrive from the left and from
the right, `b1`, `b2` leave to the left and to the right. -/
def Scatters {K : Type*} [Field K] (S : SMat K) (a1 a2 b1 b2 : K) : Prop :=
  b1 = S.s11 * a1 + S.s12 * a2 ∧ b2 = S.s21 * a1 + S.s22 * a2

/-- The transfer matrix of a scattering matrix, taking the waves `(a1, b1)` on the left to the waves
`(b2, a2)` on the right. -/
def transfer {K : Type*} [Field K] (S : SMat K) : SMat K :=
  ⟨S.s21 - S.s22 * S.s11 / S.s12, S.s22 / S.s12, -S.s11 / S.s12, 1 / S.s12⟩

/-- Product of 2 by 2 matrices. -/
def mul2 {K : Type*} [Field K] (A B : SMat K) : SMat K :=
  ⟨A.s11 * B.s11 + A.s12 * B.s21, A.s11 * B.s12 + A.s12 * B.s22,
   A.s21 * B.s11 + A.s22 * B.s21, A.s21 * B.s12 + A.s22 * B.s22⟩

/-- An affine function of a list of numbers. -/
def affine {K : Type*} [Field K] (c : K) (w x : List K) : K := c + (List.zipWith (· * ·) w x).sum

end Legume.Spec
