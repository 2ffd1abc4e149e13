import Verif.Model.PweGrad
import Verif.Model.Exc

/-!
# Gradients of the energies of `ExcitonSchroedEq`

What automatic differentiation computes for `exc/exc.py` 219-294 and 336-381: the rules registered in `primitives.py` for
`eigh` and `toeplitz_block` and those of `autograd` for the arithmetic and the indexing between them.
-/
namespace Legume

open Finset

/-- From the returned energies to the eigenvalues (exc.py 367-370, 381): `c i` is the gradient of the real part of the `i`-th
energy and `sel` stands for `i_sort`. -/
noncomputable def backEner {N : ℕ} (sel : List ℕ) (c : ℕ → ℝ) (m : Fin N) : ℝ :=
  ∑ i ∈ range sel.length, if sel.getD i 0 = (m : ℕ) then c i else 0

/-- From the energies at all wave vectors to `pot_mat` (exc.py 345-366). -/
noncomputable def excBackPot {N K : ℕ} (argsort : List ℝ → List ℕ) (w : Fin K → Fin N → ℝ)
    (v : Fin K → Matrix (Fin N) (Fin N) ℂ) (numeig : ℕ) (c : Fin K → ℕ → ℝ) : Matrix (Fin N) (Fin N) ℂ :=
  Matrix.of fun i j => ∑ q, vjpEigh false (w q) (v q)
    (backEner ((argsort ((List.ofFn (w q)).map (· - 1))).take numeig) (c q)) 0 i j

/-- From `pot_mat` to the samples `T1` and `T2` with `truncate_g='tbt'` (exc.py 292). -/
noncomputable def excBackTbt (n p : ℕ) (g : Matrix (Fin (n * p)) (Fin (n * p)) ℂ) : (ℕ → ℂ) × (ℕ → ℂ) :=
  (vjpT1 n (n * p) (entryOf g), vjpT2 n (n * p) (entryOf g))

/-- From `pot_mat` to the samples at the unique differences with `truncate_g='abs'` (exc.py 277-285, 294): `idx i j` is the
entry of `ind_unique` for the pair. -/
noncomputable def excBackAbs {N : ℕ} (idx : Fin N → Fin N → ℕ) (g : Matrix (Fin N) (Fin N) ℂ) (u : ℕ) : ℂ :=
  ∑ i, ∑ j, if idx i j = u then g i j else 0

end Legume
