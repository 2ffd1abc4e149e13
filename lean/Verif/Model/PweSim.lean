import Mathlib.LinearAlgebra.Matrix.NonsingularInverse
import Verif.Model.Pwe
import Verif.Model.Shapes
import Verif.Model.Reciprocal

/-!
# `PlaneWaveExp` from the layer to the frequencies

`pwe/pwe.py`: `_init_reciprocal` 84-110, `_compute_ft` 112-130, `_compute_eps_inv` 132-140, `run` 142-199.
-/
namespace Legume

open Real

/-- What `PlaneWaveExp` reads of its layer: the reciprocal basis and the cell area of the lattice, the
permittivities and the shapes. -/
structure PweLayer where
  b1 : R2
  b2 : R2
  ecArea : ℝ
  epsB : ℝ
  epsAvg : ℝ
  shapes : List FShape

/-- `layer.compute_ft` at one vector (layer.py 140-157). -/
noncomputable def PweLayer.ft (L : PweLayer) (g : R2) : ℂ := layerFt L.epsB L.epsAvg L.ecArea L.shapes g

/-- `n1max`, `n2max` (pwe.py 88-91). -/
noncomputable def PweLayer.n1 (L : PweLayer) (gmax : ℝ) : ℕ := nmaxOf (2 * π) gmax L.b1
@[inherit_doc PweLayer.n1]
noncomputable def PweLayer.n2 (L : PweLayer) (gmax : ℝ) : ℕ := nmaxOf (2 * π) gmax L.b2

/-- `gvec` (pwe.py 93-104). -/
noncomputable def PweLayer.gvec (L : PweLayer) (gmax : ℝ) : List R2 :=
  (tbtInds (L.n1 gmax) (L.n2 gmax)).map (gOf L.b1 L.b2)

/-- `eps_mat` (pwe.py 112-130, 132-139). `T1` and `T2` are arrays of real numbers exactly if there are no
shapes. -/
noncomputable def PweLayer.epsMat (L : PweLayer) (gmax : ℝ) :
    Matrix (Fin (L.gvec gmax).length) (Fin (L.gvec gmax).length) ℂ :=
  Matrix.of fun I J => toeplitzBlock (2 * L.n1 gmax + 1) (L.gvec gmax).length L.shapes.isEmpty
    (T1raw L.ft (L.gvec gmax)) (T2raw L.ft (L.gvec gmax) (2 * L.n2 gmax + 1)) I J

/-- `gvec` as a function of the position. -/
noncomputable def PweLayer.gAt (L : PweLayer) (gmax : ℝ) (i : Fin (L.gvec gmax).length) : R2 :=
  (L.gvec gmax)[i]

open Classical in
/-- `run` (pwe.py 142-199) for a list of wave vectors; inverting a singular matrix raises `LinAlgError`, which
is a `ValueError`. -/
noncomputable def pweSim (argsort : List ℝ → List ℕ) (eigh : ∀ n, Matrix (Fin n) (Fin n) ℂ → Fin n → ℝ)
    (L : PweLayer) (gmax : ℝ) (ks : List R2) (pol : String) (numeig : ℕ) : Except PyErr (List KRes) :=
  if (L.epsMat gmax).det = 0 then .error .valueError
  else ks.mapM fun k => pweRun argsort (eigh _) pol k (L.gAt gmax) (L.epsMat gmax)⁻¹ numeig

/-- The attribute `freqs` after `run`. -/
noncomputable def pweFreqs (argsort : List ℝ → List ℕ) (eigh : ∀ n, Matrix (Fin n) (Fin n) ℂ → Fin n → ℝ)
    (L : PweLayer) (gmax : ℝ) (ks : List R2) (pol : String) (numeig : ℕ) : Except PyErr (List (List ℝ)) :=
  (pweSim argsort eigh L gmax ks pol numeig).map (List.map KRes.freq)

end Legume
