import Mathlib.LinearAlgebra.Matrix.Hermitian
import Verif.Model.Structure
import Verif.Model.Shapes
import Verif.Model.Reciprocal

/-!
# `ExcitonSchroedEq`: `legume/exc/exc.py`
-/
namespace Legume

/-- Type of the argument `osc_str` (exc.py 78-87): only its kind and its number of components matter. -/
inductive OscArg where
  | none
  | list (len : ℕ)
  | array (len : ℕ)
  | other

/-- Checks of `ExcitonSchroedEq.__init__` (exc.py 57-96) in their order; the result is the position of the
layer of the well in `phc.layers`. -/
def excInit {K : Type} [Field K] [LinearOrder K] (s : PhC K) (z : K) (osc : OscArg) (trunc : String) :
    Except PyErr ℕ :=
  let lind := zToLind s z
  if lind = 0 ∨ lind = s.layers.length + 1 then .error .valueError
  else
    match osc with
    | .other => .error .typeError
    | .none => if trunc = "tbt" ∨ trunc = "abs" then .ok (lind - 1) else .error .valueError
    | .list n | .array n =>
      if n ≠ 3 then .error .valueError
      else if trunc = "tbt" ∨ trunc = "abs" then .ok (lind - 1) else .error .valueError

/-- Kinetic energy in eV of one plane wave (exc.py 341-344); `hbar` and `e` are the constants of
`scipy.constants`. -/
noncomputable def excKin (hbar e a M : ℝ) (k g : ℝ × ℝ) : ℝ :=
  √(((k.1 + g.1) / a) ^ 2 + ((k.2 + g.2) / a) ^ 2) ^ 2 * hbar ^ 2 / (2 * M * e)

/-- The Hamiltonian (exc.py 345-348). -/
noncomputable def excMat {n : ℕ} (hbar e a M : ℝ) (k : ℝ × ℝ) (gvec : Fin n → ℝ × ℝ)
    (pot : Matrix (Fin n) (Fin n) ℂ) : Matrix (Fin n) (Fin n) ℂ :=
  Matrix.diagonal (fun i => ((excKin hbar e a M k (gvec i) : ℝ) : ℂ)) + pot

/-- Energies kept at one `k` (exc.py 367-373). -/
noncomputable def excSelect (argsort : List ℝ → List ℕ) (w : List ℝ) (numeig : ℕ) : List ℕ × List ℝ :=
  let ener1 := w.map (· - 1)
  let sel := (argsort ener1).take numeig
  (sel, sel.map fun (i : ℕ) => ener1.getD i 0)

open Classical in
/-- `run` at one `k` (exc.py 336-375): Hermiticity check, diagonalisation, selection, and the shift by the
energy of the free exciton and the loss (exc.py 381). -/
noncomputable def excRun {n : ℕ} (argsort : List ℝ → List ℕ) (eigh : Matrix (Fin n) (Fin n) ℂ → Fin n → ℝ)
    (mat : Matrix (Fin n) (Fin n) ℂ) (E0 loss : ℝ) (numeig : ℕ) : Except PyErr (List ℕ × List ℂ) :=
  if ∃ i j, 1e-10 < ‖mat i j - (starRingEnd ℂ) (mat j i)‖ then .error .valueError
  else
    let r := excSelect argsort (List.ofFn (eigh (mat + 1))) numeig
    .ok (r.1, r.2.map fun (x : ℝ) => ((x : ℂ) + E0 + Complex.I * loss))

/-- `pot_mat` for `truncate_g='abs'` (exc.py 239-285, 294): the transform at the unique differences,
looked up for every pair. -/
noncomputable def potAbs (b1 b2 : R2) (inds : List (ℤ × ℤ)) (ecArea V : ℝ) (shapes : List (R2 → ℂ)) :
    Except PyErr (ℕ → ℕ → ℂ) :=
  let U := absUnique inds
  match excFt (U.map (gOf b1 b2)) ecArea V shapes with
  | .error e => .error e
  | .ok ft => .ok fun i j =>
      let a := inds.getD i 0
      let b := inds.getD j 0
      ft.getD (U.idxOf (b.1 - a.1, b.2 - a.2)) 0

/-- Vectors `G1` and `G2` of exc.py 222-227. -/
noncomputable def excG1 (gs : List R2) : List R2 :=
  gs.map fun g => ((gs.getD 0 0).1 - g.1, (gs.getD 0 0).2 - g.2)
@[inherit_doc excG1]
noncomputable def excG2 (gs : List R2) (n2g : ℕ) : List R2 :=
  (List.range gs.length).map fun (k : ℕ) => ((gs.getD (k % n2g) 0).1 - (gs.getD (k / n2g * n2g) 0).1,
    (gs.getD (k % n2g) 0).2 - (gs.getD (k / n2g * n2g) 0).2)

/-- `pot_mat` for `truncate_g='tbt'` (exc.py 216-237, 292).  Unlike the guided-mode expansion, the samples
are not cast to real numbers. -/
noncomputable def potTbt (b1 b2 : R2) (n1 n2 : ℕ) (ecArea V : ℝ) (shapes : List (R2 → ℂ)) :
    Except PyErr (ℕ → ℕ → ℂ) :=
  let gs := (tbtInds n1 n2).map (gOf b1 b2)
  match excFt (excG1 gs) ecArea V shapes with
  | .error e => .error e
  | .ok t1 =>
    match excFt (excG2 gs (2 * n2 + 1)) ecArea V shapes with
    | .error e => .error e
    | .ok t2 => .ok (toeplitzBlock (2 * n1 + 1) gs.length false (fun k => t1.getD k 0) (fun k => t2.getD k 0))

end Legume
