import Verif.Model.GmeRun
import Verif.Model.MatrixElements
import Verif.Model.PweSim

/-!
# `GuidedModeExp` from the structure to the frequencies

`gme/gme.py`: `_init_reciprocal_abs` 211-256, `_compute_ft_abs` 442-521, `_construct_mat` 523-643,
`compute_eps_inv` 645-701, `run` 826-1060 with `truncate_g='abs'`, `eig_solver='eigh'` and `kz_symmetry=None`.
The guided modes of the effective stack are a parameter: the basis is a function of the effective permittivities
and thicknesses, the plane waves, the wave vectors and the options only (`_compute_guided` 356-401, `_get_guided`
284-329), whatever it is.
-/
namespace Legume

/-- A layer or cladding: position in the stack with the thickness, the three permittivities which `eps_eff` can
select, and the shapes. -/
structure GmeLay where
  pos : LPos
  epsB : ℝ
  epsAvg : ℝ
  epsEff : Option ℝ
  shapes : List FShape

/-- What `GuidedModeExp` reads of the structure; `layers` includes the claddings. -/
structure GmeStruct where
  b1 : R2
  b2 : R2
  ecArea : ℝ
  layers : List GmeLay

/-- `compute_ft` of a layer (layer.py 140-157). -/
noncomputable def GmeStruct.ft (S : GmeStruct) (l : GmeLay) (g : R2) : ℂ :=
  layerFt l.epsB l.epsAvg S.ecArea l.shapes g

/-- `gvec` (gme.py 211-256). -/
noncomputable def GmeStruct.gvec (S : GmeStruct) (gmax : ℝ) : List R2 := (absInds S.b1 S.b2 gmax).map (gOf S.b1 S.b2)

/-- `eps_ft` of a layer (gme.py 517, 683-684). -/
noncomputable def GmeStruct.epsMat (S : GmeStruct) (gmax : ℝ) (l : GmeLay) :
    Matrix (Fin (S.gvec gmax).length) (Fin (S.gvec gmax).length) ℂ :=
  Matrix.of fun i j => epsMatAbs (S.ft l) S.b1 S.b2 (absInds S.b1 S.b2 gmax) i j

open Classical in
/-- Entry of `eps_inv_mat` for one layer (gme.py 672-701); inverting a singular matrix raises `LinAlgError`,
which is a `ValueError`. -/
noncomputable def GmeStruct.epsInv (S : GmeStruct) (gmax : ℝ) (onlyG : Bool) (l : GmeLay) :
    Except PyErr (Matrix (Fin (S.gvec gmax).length) (Fin (S.gvec gmax).length) ℂ) :=
  if homAbs (S.ft l) S.b1 S.b2 (absInds S.b1 S.b2 gmax) ∨ onlyG = true then
    .ok ((epsMatAbs (S.ft l) S.b1 S.b2 (absInds S.b1 S.b2 gmax) 0 0)⁻¹ • 1)
  else if (S.epsMat gmax l).det = 0 then .error .valueError
  else .ok (S.epsMat gmax l)⁻¹

/-- The effective permittivity of a layer (gme.py 906-922); reading one that was not set raises ValueError (layer.py
42-52). -/
def GmeLay.eff (opt : String) (l : GmeLay) : Except PyErr ℝ :=
  if opt = "average" then .ok l.epsAvg
  else if opt = "background" then .ok l.epsB
  else if opt = "custom" then (match l.epsEff with | some e => .ok e | none => .error .valueError)
  else .error .valueError

/-- One element of the basis: number of its block (guided mode), position of its plane wave, and the mode. -/
structure BasisEl (N : ℕ) where
  blk : ℕ
  ig : Fin N
  st : GmeState

/-- The guided modes that enter at the `ik`-th wave vector: a function of the effective stack, the plane waves and
the wave vectors. -/
abbrev GuidedSolver := List (LPos × ℝ) → (gvec : List R2) → (ks : List R2) → (ik : ℕ) →
  Except PyErr (List (BasisEl gvec.length))

/-- `mat` (gme.py 585-643) for a basis and the inverse permittivity matrices of the layers; `ij` is `IJ_layer`. -/
noncomputable def gmeMatIj (ij : LPos → ℂ → ℂ) {N : ℕ} (stack : List (LPos × ℝ))
    (einv : List (Matrix (Fin N) (Fin N) ℂ)) (basis : List (BasisEl N)) :
    Matrix (Fin basis.length) (Fin basis.length) ℂ :=
  Matrix.of fun i j =>
    completeMat (blockUpper (fun a => ((basis[a]?).map BasisEl.blk).getD 0) fun a b =>
      match basis[a]?, basis[b]? with
      | some s, some t => gmeElem ij stack (einv.map fun E => E s.ig t.ig) s.st t.st
      | _, _ => 0) i j

/-- `mat` with the integrals as computed. -/
noncomputable def gmeMat {N : ℕ} (stack : List (LPos × ℝ)) (einv : List (Matrix (Fin N) (Fin N) ℂ))
    (basis : List (BasisEl N)) : Matrix (Fin basis.length) (Fin basis.length) ℂ :=
  gmeMatIj ijLayer stack einv basis

/-- `run` (gme.py 826-1060); `ij` is `IJ_layer`. -/
noncomputable def gmeSimIj (ij : LPos → ℂ → ℂ) (argsort : List ℝ → List ℕ)
    (eigh : ∀ n, Matrix (Fin n) (Fin n) ℂ → Fin n → ℝ) (guided : GuidedSolver) (S : GmeStruct) (gmax : ℝ) (onlyG : Bool)
    (opt : String) (ks : List R2) (sigma : ℝ) (numeig : ℕ) : Except PyErr (List KRes) := do
  let eff ← S.layers.mapM (GmeLay.eff opt)
  let stack := (S.layers.map GmeLay.pos).zip eff
  let einv ← S.layers.mapM (S.epsInv gmax onlyG)
  (List.range ks.length).mapM fun (ik : ℕ) => do
    let basis ← guided stack (S.gvec gmax) ks ik
    solveFull argsort (List.ofFn (eigh _ (gmeMatIj ij stack einv basis + 1))) sigma numeig

/-- `run` with the integrals as computed. -/
noncomputable def gmeSim := gmeSimIj ijLayer

end Legume
