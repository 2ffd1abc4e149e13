import Mathlib.LinearAlgebra.Matrix.PosDef
import Mathlib.Analysis.Complex.Basic

/-!
# Vocabulary for the energies of the exciton Hamiltonian
-/
namespace Legume.Spec
open Matrix

/-- The `num` lowest levels of a Hermitian matrix: as many as asked for, in ascending order; eigenvalues with
orthonormal eigenvectors; and every eigenvector orthogonal to all of them belongs to a level not below any
of them. -/
structure Levels {n : ℕ} (M : Matrix (Fin n) (Fin n) ℂ) (num : ℕ) (ener : List ℝ)
    (evec : ℕ → Fin n → ℂ) : Prop where
  count : ener.length = num
  ordered : ener.Pairwise (· ≤ ·)
  eigen : ∀ m < num, M *ᵥ evec m = ((ener.getD m 0 : ℝ) : ℂ) • evec m
  orthonormal : ∀ m < num, ∀ m' < num, star (evec m) ⬝ᵥ evec m' = if m = m' then 1 else 0
  lowest : ∀ (u : Fin n → ℂ) (mu : ℂ), u ≠ 0 → M *ᵥ u = mu • u → (∀ m < num, star (evec m) ⬝ᵥ u = 0) →
    mu.im = 0 ∧ ∀ x ∈ ener, x ≤ mu.re

/-- What is used of `argsort` on complex numbers: the positions, permuted such that the real parts do not
decrease (NumPy orders by the real part, then by the imaginary part). -/
def IsArgsortRe (keys : List ℂ) (idx : List ℕ) : Prop :=
  idx.Perm (List.range keys.length) ∧ (idx.map fun (i : ℕ) => (keys.getD i 0).re).Pairwise (· ≤ ·)

end Legume.Spec
