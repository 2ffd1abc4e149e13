import Verif.Model.ExcSim
import Verif.Model.Utils

/-!
# Wave functions and potentials of `ExcitonSchroedEq` in real space: `legume/exc/exc.py` 387-475
-/
namespace Legume
open Real

/-- `ft_wavef_xy` (exc.py 424-438) after a run at the wave vector `k`: the column of the eigenvectors which was kept at
position `mind`. `vecs` are the eigenvectors which `eigh` returns beside the eigenvalues (exc.py 361-376). -/
noncomputable def excWaveFt (argsort : List ℝ → List ℕ) (eigh : ∀ n, Matrix (Fin n) (Fin n) ℂ → Fin n → ℝ)
    (vecs : ∀ n, Matrix (Fin n) (Fin n) ℂ → Matrix (Fin n) (Fin n) ℂ) (W : ExcWell) (t : TruncG) (gmax : ℝ) (k : R2)
    (numeig mind : ℕ) : Except PyErr (Fin (W.gvec t gmax).length → ℂ) :=
  match W.pot t gmax with
  | .error err => .error err
  | .ok P =>
    let mat := excMat W.hbar W.e W.a W.M k (fun i => (W.gvec t gmax)[i]) (Matrix.of fun i j => P i j)
    match excRun argsort (eigh (W.gvec t gmax).length) mat W.E0 W.loss numeig with
    | .error err => .error err
    | .ok r =>
      match r.1[mind]? with
      | none => .error .indexError
      | some s => .ok fun j => if h : s < (W.gvec t gmax).length then vecs _ (mat + 1) j ⟨s, h⟩ else 0

/-- `get_wavef_xy` (exc.py 440-475) at one point. -/
noncomputable def excWave (argsort : List ℝ → List ℕ) (eigh : ∀ n, Matrix (Fin n) (Fin n) ℂ → Fin n → ℝ)
    (vecs : ∀ n, Matrix (Fin n) (Fin n) ℂ → Matrix (Fin n) (Fin n) ℂ) (W : ExcWell) (t : TruncG) (gmax : ℝ) (k : R2)
    (numeig mind : ℕ) (x y : ℝ) : Except PyErr ℂ :=
  match excWaveFt argsort eigh vecs W t gmax k numeig mind with
  | .error err => .error err
  | .ok c => .ok (ftinvAt (List.ofFn fun j => (c j, (W.gvec t gmax)[j])) x y)

/-- `get_pot_xy` (exc.py 387-422) for the grids given. With 'tbt', the first entry of the array of all coefficients is
passed on (exc.py 416), a single number, and `ftinv` indexes it (utils.py 27). -/
noncomputable def excPotXY (W : ExcWell) (t : TruncG) (gmax : ℝ) (xs ys : List ℝ) : Except PyErr (List (List ℂ)) :=
  match W.pot t gmax with
  | .error err => .error err
  | .ok _ =>
    match t with
    | .tbt => .error .indexError
    | .abs =>
      let G := (absUnique (absInds W.b1 W.b2 gmax)).map (gOf W.b1 W.b2)
      match excFt G W.ecArea W.V W.shapes with
      | .error err => .error err
      | .ok ft => .ok (ftinv (ft.zip G) xs ys)

end Legume
