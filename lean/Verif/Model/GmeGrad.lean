import Verif.Model.GmeSim
import Verif.Model.ExcGrad

/-!
# Gradients of the frequencies of `GuidedModeExp` with the guided modes kept fixed

What automatic differentiation computes for `gme/gme.py` 517, 585-643, 683-699 and 1049-1059 with `truncate_g='abs'`,
`gradients='approx'`, `eig_solver='eigh'` and `kz_symmetry=None` with respect to the permittivities of the layers. With this
option the guided modes and the effective permittivities are plain numbers (gme.py 306, 375, 581).
-/
namespace Legume

open Finset
open scoped ComplexConjugate

/-- The factor of the inverse permittivity of the `l`-th layer in an element of the matrix (matrix_elements.py 33-168). -/
noncomputable def gmeCoef (ij : LPos → ℂ → ℂ) (stack : List (LPos × ℝ)) (L : ℕ) (l : Fin L) (s t : GmeState) : ℂ :=
  gmeElem ij stack (List.ofFn (Pi.single l 1 : Fin L → ℂ)) s t

/-- Through `triu(mat, 1) + transpose(conj(triu(mat, 1))) + real(diag(diag(mat)))` (gme.py 642-643). -/
noncomputable def backComplete {n : ℕ} (G : Matrix (Fin n) (Fin n) ℂ) (i j : Fin n) : ℂ :=
  if i < j then G i j + conj (G j i) else if i = j then ((G i i).re : ℂ) else 0

/-- From the matrices at all wave vectors to `eps_inv_mat` of the `l`-th layer (gme.py 585-624): blocks below the block
diagonal were not computed, and every block takes its entries at the plane waves of its modes. -/
noncomputable def gmeBackInv {N K : ℕ} (ij : LPos → ℂ → ℂ) (stack : List (LPos × ℝ)) (L : ℕ)
    (basis : Fin K → List (BasisEl N)) (G : ∀ q, Matrix (Fin (basis q).length) (Fin (basis q).length) ℂ) (l : Fin L) :
    Matrix (Fin N) (Fin N) ℂ :=
  Matrix.of fun a b => ∑ q, ∑ i, ∑ j,
    if (basis q)[i].ig = a ∧ (basis q)[j].ig = b ∧ ¬ (basis q)[j].blk < (basis q)[i].blk then
      backComplete (G q) i j * gmeCoef ij stack L l (basis q)[i].st (basis q)[j].st else 0

/-- From the returned frequencies to `eps_inv_mat` of the `l`-th layer (gme.py 585-643, 1049-1059). -/
noncomputable def gmeBackward {N K : ℕ} (argsort : List ℝ → List ℕ) (ij : LPos → ℂ → ℂ) (stack : List (LPos × ℝ)) (L : ℕ)
    (basis : Fin K → List (BasisEl N)) (w : ∀ q, Fin (basis q).length → ℝ)
    (v : ∀ q, Matrix (Fin (basis q).length) (Fin (basis q).length) ℂ) (sigma : ℝ) (numeig : ℕ) (c : Fin K → ℕ → ℝ) (l : Fin L) :
    Matrix (Fin N) (Fin N) ℂ :=
  gmeBackInv ij stack L basis (fun q => vjpEigh false (w q) (v q)
    (backFreq (w q) (selectModes argsort ((List.ofFn (w q)).map freqOf) sigma numeig) (c q)) 0) l

/-- From `eps_inv_mat` of a layer to the samples of its permittivity at the unique differences of plane waves (gme.py 517,
683-699): `hom` says that the layer was found to be homogeneous, then the matrix is the identity over the sample `u0`. -/
noncomputable def gmeBackSamples {N : ℕ} (idx : Fin N → Fin N → ℕ) (u0 : ℕ) (hom : Bool) (t0 : ℂ)
    (epsInv g : Matrix (Fin N) (Fin N) ℂ) (u : ℕ) : ℂ :=
  if hom then (if u = u0 then ∑ i, -(g i i / t0 ^ 2) else 0) else excBackAbs idx (vjpInv epsInv g) u

end Legume
