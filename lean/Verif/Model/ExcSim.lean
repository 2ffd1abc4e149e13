import Verif.Model.Exc

/-!
# A whole run of `ExcitonSchroedEq`: `legume/exc/exc.py` 141-385
-/
namespace Legume
open Real

/-- The argument `truncate_g` (exc.py 89-96). -/
inductive TruncG where
  | abs
  | tbt

/-- What `ExcitonSchroedEq` reads: the reciprocal lattice and the area of the cell, the transforms of the shapes of the
layer, the potential `V_shapes` in eV, the length `a`, the mass `M`, the energy `E0` of the free exciton, the loss, and the
constants `hbar` and `e`. -/
structure ExcWell where
  b1 : R2
  b2 : R2
  ecArea : ℝ
  shapes : List (R2 → ℂ)
  V : ℝ
  a : ℝ
  M : ℝ
  E0 : ℝ
  loss : ℝ
  hbar : ℝ
  e : ℝ

/-- Numbers of the plane waves (exc.py 141-217). -/
noncomputable def ExcWell.inds (W : ExcWell) (t : TruncG) (gmax : ℝ) : List (ℤ × ℤ) :=
  match t with
  | .abs => absInds W.b1 W.b2 gmax
  | .tbt => tbtInds (nmaxOf (2 * π) gmax W.b1) (nmaxOf (2 * π) gmax W.b2)

/-- `gvec` (exc.py 155-165, 181-208). -/
noncomputable def ExcWell.gvec (W : ExcWell) (t : TruncG) (gmax : ℝ) : List R2 :=
  (W.inds t gmax).map (gOf W.b1 W.b2)

/-- `pot_mat` (exc.py 219-294). -/
noncomputable def ExcWell.pot (W : ExcWell) (t : TruncG) (gmax : ℝ) : Except PyErr (ℕ → ℕ → ℂ) :=
  match t with
  | .abs => potAbs W.b1 W.b2 (absInds W.b1 W.b2 gmax) W.ecArea W.V W.shapes
  | .tbt => potTbt W.b1 W.b2 (nmaxOf (2 * π) gmax W.b1) (nmaxOf (2 * π) gmax W.b2) W.ecArea W.V W.shapes

/-- `__init__` and `run` (exc.py 306-385): for every wave vector the positions of the eigenvectors kept and the energies. The
potential is computed when the object is made and assembled once for all wave vectors. Unlike the other solvers, nothing is
added to the wave vector. -/
noncomputable def excSim (argsort : List ℝ → List ℕ) (eigh : ∀ n, Matrix (Fin n) (Fin n) ℂ → Fin n → ℝ)
    (W : ExcWell) (t : TruncG) (gmax : ℝ) (ks : List R2) (numeig : ℕ) : Except PyErr (List (List ℕ × List ℂ)) :=
  match W.pot t gmax with
  | .error err => .error err
  | .ok P => ks.mapM fun k => excRun argsort (eigh (W.gvec t gmax).length)
      (excMat W.hbar W.e W.a W.M k (fun i => (W.gvec t gmax)[i]) (Matrix.of fun i j => P i j)) W.E0 W.loss numeig

end Legume
