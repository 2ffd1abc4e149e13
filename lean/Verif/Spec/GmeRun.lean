import Mathlib.Analysis.SpecialFunctions.Trigonometric.Basic
import Mathlib.LinearAlgebra.Matrix.PosDef

/-!
# Vocabulary for the results of `run`
-/
namespace Legume.Spec
open Matrix

/-- Contract of `eigh`: real eigenvalues and a unitary matrix of eigenvectors (columns). -/
structure IsEigh {n : ℕ} (A : Matrix (Fin n) (Fin n) ℂ) (w : Fin n → ℝ) (V : Matrix (Fin n) (Fin n) ℂ) :
    Prop where
  unitary : V.conjTranspose * V = 1
  eigen : A * V = V * Matrix.diagonal (fun i => (w i : ℂ))

/-- `numeig` modes of a Hermitian matrix `M` whose eigenvalues are squared angular frequencies, found
nearest to the frequency `sigma`: as many as asked for, non-negative, in ascending order; the squares
of the angular frequencies are eigenvalues, with orthonormal eigenvectors; and every eigenvector
orthogonal to all of them belongs to a frequency at least as far from `sigma`. -/
structure Modes {n : ℕ} (M : Matrix (Fin n) (Fin n) ℂ) (sigma : ℝ) (numeig : ℕ) (freq : List ℝ)
    (evec : ℕ → Fin n → ℂ) : Prop where
  count : freq.length = numeig
  nonneg : ∀ f ∈ freq, 0 ≤ f
  ordered : freq.Pairwise (· ≤ ·)
  eigen : ∀ m < numeig, M *ᵥ evec m = (((2 * Real.pi * freq.getD m 0) ^ 2 : ℝ) : ℂ) • evec m
  orthonormal : ∀ m < numeig, ∀ m' < numeig, star (evec m) ⬝ᵥ evec m' = if m = m' then 1 else 0
  nearest : ∀ (u : Fin n → ℂ) (om : ℝ), u ≠ 0 → 0 ≤ om → M *ᵥ u = ((om ^ 2 : ℝ) : ℂ) • u →
    (∀ m < numeig, star (evec m) ⬝ᵥ u = 0) →
    ∀ f ∈ freq, |f - sigma| ≤ |om / (2 * Real.pi) - sigma|

end Legume.Spec
