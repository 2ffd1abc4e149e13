import Verif.Model.GuidedRun
import Verif.Model.HighSym

/-!
# `GuidedModeExp.run` with `kz_symmetry`

`gme/gme.py` `run` 877-893 and 1022-1158 with `eig_solver='eigh'`, `_construct_mat` 552-625: from the structure to the
frequencies of the modes that are even or odd about the vertical plane through `k`. Simplifications: first run of the
object (on a later one `ind_modes` is stale, see `Verif/Model/GmeRun.lean`), `truncate_g='abs'`.
-/
namespace Legume

/-- `kz_symmetry` other than `None` (gme.py 880, 1062, 1106, 1132). -/
inductive KzSymm
  | odd
  | even
  | both

/-- The blocks of the basis, one for every mode of `gmode_include` (gme.py 552-625). -/
noncomputable def codeBlocks {N : ℕ} (norm : NormFn) (fs : Finder) (o : GuidedOpts) (stack : List (LPos × ℝ))
    (grid : List ℝ) (plane : Fin N → R2) : Except PyErr (List (List (BasisEl N))) := do
  let te ← computeGuided norm fs o stack .te grid
  let tm ← computeGuided norm fs o stack .tm grid
  let inc ← gmodeInclude o.inds te.length tm.length
  (List.range inc.length).mapM fun (n : ℕ) =>
    guidedBlock stack grid plane (match modePol (inc.getD n 0) with | .te => te | .tm => tm) n (inc.getD n 0)

/-- A matrix as an array read by index. -/
noncomputable def natMat {n : ℕ} (M : Matrix (Fin n) (Fin n) ℂ) (i j : ℕ) : ℂ :=
  if h : i < n ∧ j < n then M ⟨i, h.1⟩ ⟨j, h.2⟩ else 0

/-- The upper left corner of an array as a matrix. -/
def finMat (n : ℕ) (M : ℕ → ℕ → ℂ) : Matrix (Fin n) (Fin n) ℂ := Matrix.of fun i j => M i j

/-- Diagonalisation of one or both blocks and selection of the modes (gme.py 1062-1158); `n` is the size of the
basis. -/
noncomputable def solveKz (argsort : List ℝ → List ℕ) (eigh : ∀ n, Matrix (Fin n) (Fin n) ℂ → Fin n → ℝ) (kz : KzSymm)
    (n : ℕ) (s : Separated) (sigma : ℝ) (numeig : ℕ) : Except PyErr KRes :=
  match kz with
  | .both => solveBoth argsort (List.ofFn (eigh s.even (finMat s.even s.matEven + 1)))
      (List.ofFn (eigh s.odd (finMat s.odd s.matOdd + 1))) sigma numeig
  | .odd => solveOne argsort n (List.ofFn (eigh s.odd (finMat s.odd s.matOdd + 1))) (-1) sigma numeig
  | .even => solveOne argsort n (List.ofFn (eigh s.even (finMat s.even s.matEven + 1))) 1 sigma numeig

/-- The vectors of every block (gme.py 1272-1274, 1411-1413). -/
def usedWaves (gvec : List R2) (blocks : List (List (BasisEl gvec.length))) : List (List R2) :=
  blocks.map fun b => b.map fun s => gvec[s.ig]

/-- The body of the loop over `k` (gme.py 1022-1158) after `_construct_mat`; `theta` is `angles[ik]`, absent when too few
angles were given. -/
noncomputable def kzPoint (ij : LPos → ℂ → ℂ) (argsort : List ℝ → List ℕ)
    (eigh : ∀ n, Matrix (Fin n) (Fin n) ℂ → Fin n → ℝ) (kz : KzSymm) (sparse : Bool) (thr : ℝ) (theta : Option ℝ)
    (inds : List ℕ) (gvec : List R2) (stack : List (LPos × ℝ))
    (einv : List (Matrix (Fin gvec.length) (Fin gvec.length) ℂ)) (blocks : List (List (BasisEl gvec.length)))
    (sigma : ℝ) (numeig : ℕ) : Except PyErr KRes :=
  if blocks.flatten.length < numeig then .error .valueError
  else
    match theta with
    | none => .error .indexError
    | some th =>
      match separate sparse th thr inds (usedWaves gvec blocks) (natMat (gmeMatIj ij stack einv blocks.flatten)) with
      | .error e => .error e
      | .ok s => solveKz argsort eigh kz blocks.flatten.length s sigma numeig

/-- `run` with `kz_symmetry`; `t` is the type of the lattice, `angles` the directions passed by the user. -/
noncomputable def gmeSimKz (ij : LPos → ℂ → ℂ) (argsort : List ℝ → List ℕ)
    (eigh : ∀ n, Matrix (Fin n) (Fin n) ℂ → Fin n → ℝ) (norm : NormFn) (fs : Finder) (o : GuidedOpts) (kz : KzSymm)
    (sparse : Bool) (thr : ℝ) (t : LatType) (angles : List ℝ) (S : GmeStruct) (gmax : ℝ) (onlyG : Bool) (opt : String)
    (ks : List R2) (sigma : ℝ) (numeig : ℕ) : Except PyErr (List KRes) :=
  if angles = [] then .error .valueError
  else do
    let _ ← reflMat t angles
    let eff ← S.layers.mapM (GmeLay.eff opt)
    let stack := (S.layers.map GmeLay.pos).zip eff
    let einv ← S.layers.mapM (S.epsInv gmax onlyG)
    (List.range ks.length).mapM fun (ik : ℕ) => do
      let blocks ← codeBlocks norm fs o stack (guidedGrid o (S.gvec gmax) ks (ks.getD ik 0))
        fun i => radPlane o.deltaGx (ks.getD ik 0) (S.gvec gmax)[i]
      kzPoint ij argsort eigh kz sparse thr angles[ik]? o.inds (S.gvec gmax) stack einv blocks sigma numeig

end Legume
