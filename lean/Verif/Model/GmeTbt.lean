import Verif.Model.GmeSim

/-!
# `GuidedModeExp` with `truncate_g='tbt'` from the structure to the frequencies

`gme/gme.py`: `_init_reciprocal_tbt` 182-209, `_compute_ft_tbt` 403-440, `compute_eps_inv` 645-668, `_construct_mat`
523-643, `run` 826-1060 with `truncate_g='tbt'`, `eig_solver='eigh'` and `kz_symmetry=None`. As in `Model/GmeSim.lean` the
guided modes of the effective stack are a parameter.
-/
namespace Legume

open Real

/-- `gvec` (gme.py 182-204). -/
noncomputable def GmeStruct.gvecT (S : GmeStruct) (gmax : ℝ) : List R2 := gvecTbt S.b1 S.b2 gmax

/-- `n1max` and `n2max` (gme.py 187-188). -/
noncomputable def GmeStruct.n1 (S : GmeStruct) (gmax : ℝ) : ℕ := nmaxOf (2 * π) gmax S.b1
@[inherit_doc GmeStruct.n1]
noncomputable def GmeStruct.n2 (S : GmeStruct) (gmax : ℝ) : ℕ := nmaxOf (2 * π) gmax S.b2

/-- `eps_mat` of a layer (gme.py 666). -/
noncomputable def GmeStruct.epsMatT (S : GmeStruct) (gmax : ℝ) (l : GmeLay) :
    Matrix (Fin (S.gvecT gmax).length) (Fin (S.gvecT gmax).length) ℂ :=
  Matrix.of fun i j => epsMatTbt (S.ft l) S.b1 S.b2 (S.n1 gmax) (S.n2 gmax) i j

open Classical in
/-- Entry of `eps_inv_mat` for one layer (gme.py 655-668); inverting a singular matrix raises `LinAlgError`, which is a
`ValueError`. -/
noncomputable def GmeStruct.epsInvT (S : GmeStruct) (gmax : ℝ) (onlyG : Bool) (l : GmeLay) :
    Except PyErr (Matrix (Fin (S.gvecT gmax).length) (Fin (S.gvecT gmax).length) ℂ) :=
  if homTbt (S.ft l) S.b1 S.b2 (S.n1 gmax) (S.n2 gmax) ∨ onlyG = true then
    .ok ((T1tbt (S.ft l) (S.gvecT gmax) 0)⁻¹ • 1)
  else if (S.epsMatT gmax l).det = 0 then .error .valueError
  else .ok (S.epsMatT gmax l)⁻¹

/-- `run` (gme.py 826-1060); `ij` is `IJ_layer`. With `only_gmodes` it is refused (gme.py 900-903). -/
noncomputable def gmeSimTbtIj (ij : LPos → ℂ → ℂ) (argsort : List ℝ → List ℕ)
    (eigh : ∀ n, Matrix (Fin n) (Fin n) ℂ → Fin n → ℝ) (guided : GuidedSolver) (S : GmeStruct) (gmax : ℝ) (onlyG : Bool)
    (opt : String) (ks : List R2) (sigma : ℝ) (numeig : ℕ) : Except PyErr (List KRes) :=
  if onlyG then .error .valueError else do
    let eff ← S.layers.mapM (GmeLay.eff opt)
    let stack := (S.layers.map GmeLay.pos).zip eff
    let einv ← S.layers.mapM (S.epsInvT gmax onlyG)
    (List.range ks.length).mapM fun (ik : ℕ) => do
      let basis ← guided stack (S.gvecT gmax) ks ik
      solveFull argsort (List.ofFn (eigh _ (gmeMatIj ij stack einv basis + 1))) sigma numeig

/-- `run` with the integrals as computed. -/
noncomputable def gmeSimTbt := gmeSimTbtIj ijLayer

end Legume
