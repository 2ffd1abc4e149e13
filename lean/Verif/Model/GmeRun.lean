import Mathlib.Analysis.SpecialFunctions.Trigonometric.Basic
import Mathlib.LinearAlgebra.Matrix.NonsingularInverse
import Mathlib.Data.Complex.Basic
import Verif.Model.Py
import Verif.Model.Utils
import Verif.Model.Symmetry

/-!
# `GuidedModeExp.run`: selection of the modes at one `k`, and the state kept between runs

`gme/gme.py` `run` 826-1179, `compute_eps_inv` 645-701, `_construct_mat` 552-625 (bookkeeping only);
`pwe/pwe.py` `run` 142-199.

The eigenvalues returned by `bd.eigh`/`bd.eigsh` are inputs; `np.argsort` is a parameter with the
contract `Spec.IsArgsort`.
-/
namespace Legume

/-- `bd.sqrt(bd.abs(freq2 - 1)) / 2 / np.pi` (gme.py 1053-1054, pwe.py 186). -/
noncomputable def freqOf (w : ℝ) : ℝ := √|w - 1| / 2 / Real.pi

/-- `i_near[i_sort]` (gme.py 1056-1058). -/
noncomputable def selectModes (argsort : List ℝ → List ℕ) (freq1 : List ℝ) (sigma : ℝ) (numeig : ℕ) :
    List ℕ :=
  let near := findNearest argsort freq1 sigma numeig
  (argsort (near.map fun (i : ℕ) => freq1.getD i 0)).map fun (i : ℕ) => near.getD i 0

/-- Indices of the selected eigenvectors, their frequencies and, for `kz_symmetry='both'`, the labels
`kz_symms`. -/
structure KRes where
  idx : List ℕ
  freq : List ℝ
  symm : List ℤ

/-- One `k` without symmetry (gme.py 1025-1030, 1049-1060); `w` are the eigenvalues of `mat + eye`. -/
noncomputable def solveFull (argsort : List ℝ → List ℕ) (w : List ℝ) (sigma : ℝ) (numeig : ℕ) :
    Except PyErr KRes :=
  if w.length < numeig then .error .valueError
  else
    let freq1 := w.map freqOf
    let sel := selectModes argsort freq1 sigma numeig
    .ok ⟨sel, sel.map fun (i : ℕ) => freq1.getD i 0, []⟩

/-- `kz_symmetry='both'` (gme.py 1062-1104); `wE`, `wO` are the eigenvalues of the two blocks plus the
identity.  `symm1` is built from `even_count` twice (gme.py 1084-1089), and indexing beyond its end
raises. -/
noncomputable def solveBoth (argsort : List ℝ → List ℕ) (wE wO : List ℝ) (sigma : ℝ) (numeig : ℕ) :
    Except PyErr KRes :=
  if wE.length + wO.length < numeig then .error .valueError
  else
    let freq1 := wE.map freqOf ++ wO.map freqOf
    let symm1 : List ℤ := List.replicate wE.length 1 ++ List.replicate wE.length (-1)
    let sel := selectModes argsort freq1 sigma numeig
    if sel.any (fun i => decide (symm1.length ≤ i)) then .error .indexError
    else .ok ⟨sel, sel.map fun (i : ℕ) => freq1.getD i 0, sel.map fun (i : ℕ) => symm1.getD i 0⟩

/-- Column `i` of `evecs` for `kz_symmetry='both'`, in the original basis (gme.py 1062-1076, 1091,
1097-1104); `yE i`, `yO i` are the eigenvectors of the two blocks. -/
noncomputable def Separated.bothVec (s : Separated) (yE yO : ℕ → ℕ → ℂ) (i : ℕ) : ℕ → ℂ :=
  if i < s.even then s.backEven (yE i) else s.backOdd (yO (i - s.even))

/-- `kz_symmetry='odd'` or `'even'` (gme.py 1106-1158): `w` are the eigenvalues of the chosen block plus the
identity, `n` is the size of the whole basis, `p` the parity. -/
noncomputable def solveOne (argsort : List ℝ → List ℕ) (n : ℕ) (w : List ℝ) (p : ℤ) (sigma : ℝ)
    (numeig : ℕ) : Except PyErr KRes :=
  if n < numeig then .error .valueError
  else if w.length < numeig then .error .valueError
  else
    let freq1 := w.map freqOf
    let sel := selectModes argsort freq1 sigma numeig
    .ok ⟨sel, sel.map fun (i : ℕ) => freq1.getD i 0, sel.map fun _ => p⟩

/-- `eig_solver='eigsh'` (gme.py 1159-1172): `w` are the `numeig` eigenvalues returned by the iterative
solver. -/
noncomputable def solveEigsh (argsort : List ℝ → List ℕ) (n : ℕ) (w : List ℝ) (numeig : ℕ) :
    Except PyErr KRes :=
  if n < numeig then .error .valueError
  else
    let freq1 := w.map freqOf
    let sel := argsort freq1
    .ok ⟨sel, sel.map fun (i : ℕ) => freq1.getD i 0, []⟩

/-- `PlaneWaveExp.run` at one `k` (pwe.py 185-190). -/
noncomputable def solvePwe (argsort : List ℝ → List ℕ) (w : List ℝ) (numeig : ℕ) : KRes :=
  let freq1 := w.map freqOf
  let sel := (argsort freq1).take numeig
  ⟨sel, sel.map fun (i : ℕ) => freq1.getD i 0, []⟩

/-! ### The inverse permittivity matrices (gme.py 645-701, `truncate_g='abs'`) -/

open Classical in
/-- `eps_inv_mat` of one layer: `eps_ft` is the permittivity matrix `eps(G - G')` whose diagonal entries
are the zero-order coefficient; a homogeneous layer, or every layer with `only_gmodes`, is taken as
diagonal. -/
noncomputable def epsInvLayer {n : ℕ} (eps_ft : Matrix (Fin n) (Fin n) ℂ) (t0 : ℂ) (onlyG : Bool) :
    Matrix (Fin n) (Fin n) ℂ :=
  if (∑ i, ∑ j, if i = j then 0 else ‖eps_ft i j‖) < 1e-10 ∨ onlyG = true then t0⁻¹ • (1 : Matrix _ _ ℂ)
  else eps_ft⁻¹

/-! ### State kept by the object -/

/-- The arguments of one call of `run`; `rest` stands for all options not listed. `set_run_options` writes
every option on every call (gme.py 795-824), so options never come from an earlier call. -/
structure RunArgs (K R : Type) where
  kpts : List K
  onlyG : Bool
  kz : Bool
  computeIm : Bool
  rest : R

/-- What one call computes, as functions of the structure: `check` the errors raised before any
computation (gme.py 876-905), `eps` the inverse permittivities for a value of `only_gmodes`, `ind` the
entry `_construct_mat` appends to `ind_modes` at one `k`, `solve` the eigenmodes at one `k` (with the entry
of `ind_modes` that the symmetry separation reads, if it is used), `loss` the result of `run_im`. -/
structure GmeEnv (K R E I F L : Type) where
  check : RunArgs K R → Option PyErr
  eps : Bool → E
  ind : RunArgs K R → K → I
  solve : RunArgs K R → E → K → Option I → Except PyErr F
  loss : RunArgs K R → E → List F → L

/-- The attributes that survive from one call to the next: the cached `eps_inv_mat` (absent before the
first run), `ind_modes`, `freqs` and `freqs_im` (with `unbalance_sp`, `rad_coup`, `rad_gvec`). -/
structure GmeObj (E I F L : Type) where
  epsInv : Option E
  indModes : List I
  freqs : List F
  freqsIm : Option L

/-- A new object (gme.py 22-85). -/
def GmeObj.fresh {E I F L : Type} : GmeObj E I F L := ⟨none, [], [], none⟩

/-- Loop over the `k` points from index `ik` on: `_construct_mat` appends to `ind_modes` (gme.py 623), the
separation reads `ind_modes[ik]` (gme.py 1272, 1411). Returns the modes found, `ind_modes`, and the error
that stopped the loop. -/
def kLoop {K R E I F L : Type} (env : GmeEnv K R E I F L) (o : RunArgs K R) (e : E) :
    List K → ℕ → List I → List F → List I × List F × Option PyErr
  | [], _, inds, fs => (inds, fs, none)
  | k :: ks, ik, inds, fs =>
    let inds' := inds ++ [env.ind o k]
    match env.solve o e k (if o.kz then inds'[ik]? else none) with
    | .error err => (inds', fs, some err)
    | .ok f => kLoop env o e ks (ik + 1) inds' (fs ++ [f])

/-- `GuidedModeExp.run`. -/
def gmeRun {K R E I F L : Type} (env : GmeEnv K R E I F L) (o : RunArgs K R) (st : GmeObj E I F L) :
    GmeObj E I F L × Option PyErr :=
  match env.check o with
  | some err => (st, some err)
  | none =>
    let e := st.epsInv.getD (env.eps o.onlyG)
    match kLoop env o e o.kpts 0 st.indModes [] with
    | (inds, _, some err) => (⟨some e, inds, st.freqs, st.freqsIm⟩, some err)
    | (inds, fs, none) =>
      (⟨some e, inds, fs, if o.computeIm then some (env.loss o e fs) else st.freqsIm⟩, none)

/-- A history of calls. -/
def gmeHistory {K R E I F L : Type} (env : GmeEnv K R E I F L) (os : List (RunArgs K R)) :
    GmeObj E I F L :=
  os.foldl (fun st o => (gmeRun env o st).1) GmeObj.fresh

end Legume
