import Verif.Model.Primitives
import Verif.Model.PweSim

/-!
# Gradients of the frequencies of `PlaneWaveExp`

What automatic differentiation computes for `pwe/pwe.py` 132-199: the rules registered in `primitives.py` for `sqrt`, `eigh`,
`inv` and `toeplitz_block` and those of `autograd` for the arithmetic between them, applied in the reverse order of the
statements.
-/
namespace Legume

open Real Finset

/-- From the returned frequencies to the eigenvalues (pwe.py 187-190): `c i` is the gradient of the `i`-th returned frequency
and `sel` stands for `i_sort`. Indexing adds the gradients up, the rule of `abs` is `x / abs(x)`. -/
noncomputable def backFreq {N : ℕ} (w : Fin N → ℝ) (sel : List ℕ) (c : ℕ → ℝ) (m : Fin N) : ℝ :=
  (∑ i ∈ range sel.length, if sel.getD i 0 = (m : ℕ) then c i else 0) / π / 2 * vjpSqrt |w m - 1| *
    ((w m - 1) / |w m - 1|)

/-- The real factors by which the inverse permittivity is multiplied (pwe.py 172-181). -/
noncomputable def pweFactor {N : ℕ} (pol : Pol) (k : R2) (gvec : Fin N → R2) (i j : Fin N) : ℝ :=
  let a := kPlusG k (gvec i)
  let b := kPlusG k (gvec j)
  match pol with
  | .te => a.1 * b.1 + a.2 * b.2
  | .tm => √(a.1 ^ 2 + a.2 ^ 2) * √(b.1 ^ 2 + b.2 ^ 2)

/-- From the eigenvalues at all wave vectors to `eps_inv_mat` (pwe.py 168-186). -/
noncomputable def backInv {N K : ℕ} (pol : Pol) (gvec : Fin N → R2) (k : Fin K → R2) (w : Fin K → Fin N → ℝ)
    (v : Fin K → Matrix (Fin N) (Fin N) ℂ) (wg : Fin K → Fin N → ℝ) : Matrix (Fin N) (Fin N) ℂ :=
  Matrix.of fun i j => ∑ q, (pweFactor pol (k q) gvec i j : ℂ) * vjpEigh false (w q) (v q) (wg q) 0 i j

/-- A matrix as an array. -/
def entryOf {N : ℕ} (A : Matrix (Fin N) (Fin N) ℂ) (I J : ℕ) : ℂ :=
  if h : I < N ∧ J < N then A ⟨I, h.1⟩ ⟨J, h.2⟩ else 0

/-- `eps_mat` for given samples `T1`, `T2` (pwe.py 138). -/
def toepMat (n p : ℕ) (T1 T2 : ℕ → ℂ) : Matrix (Fin (n * p)) (Fin (n * p)) ℂ :=
  Matrix.of fun I J => toeplitzBlock n (n * p) false T1 T2 I J

/-- From `eps_inv_mat` to the samples (pwe.py 138-139). -/
noncomputable def backSamples (n p : ℕ) (epsInv g : Matrix (Fin (n * p)) (Fin (n * p)) ℂ) : (ℕ → ℂ) × (ℕ → ℂ) :=
  (vjpT1 n (n * p) (entryOf (vjpInv epsInv g)), vjpT2 n (n * p) (entryOf (vjpInv epsInv g)))

/-- The gradients of the samples `T1` and `T2` of the permittivity for an objective with the gradients `c` with respect to the
frequencies returned at the wave vectors `k`. -/
noncomputable def pweBackward {n p K : ℕ} (argsort : List ℝ → List ℕ) (pol : Pol) (gvec : Fin (n * p) → R2) (k : Fin K → R2)
    (epsInv : Matrix (Fin (n * p)) (Fin (n * p)) ℂ) (w : Fin K → Fin (n * p) → ℝ)
    (v : Fin K → Matrix (Fin (n * p)) (Fin (n * p)) ℂ) (numeig : ℕ) (c : Fin K → ℕ → ℝ) : (ℕ → ℂ) × (ℕ → ℂ) :=
  backSamples n p epsInv (backInv pol gvec k w v fun q =>
    backFreq (w q) ((argsort ((List.ofFn (w q)).map freqOf)).take numeig) (c q))

end Legume
