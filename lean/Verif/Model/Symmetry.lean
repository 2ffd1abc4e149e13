import Mathlib.Analysis.SpecialFunctions.Trigonometric.Basic
import Mathlib.Analysis.Complex.Norm
import Mathlib.Algebra.BigOperators.Group.Finset.Basic
import Verif.Model.Py

/-!
# Separation of the Hamiltonian by parity about the vertical plane through `k`

`gme/gme.py` `_ind_g` 258-270, `_construct_sym_mat` 272-282, `_separate_hamiltonian_dense`
1231-1360, `_separate_hamiltonian_sparse` 1362-1523, and the parts of `run` that use them (1037-1128).

Arrays are functions of natural-number indices, read below their size only.  Simplifications:

* arithmetic is exact, so `1/np.sqrt(2)` is the real `1/√2`;
* `_ind_g` returns every match; the first one is kept, the others never exist when two reciprocal
  vectors are further apart than the tolerance;
* the number of rows `modes_numg[ik][ind_alpha]` equals the number of vectors
  `ind_modes[ik][ind_alpha]` (both are written by `_construct_mat` for the same mode), which fails
  only for the stale `ind_modes` described in `Verif/Model/GmeRun.lean`.
-/
namespace Legume

/-- `bd.matmul(_construct_sym_mat(theta), g)` (gme.py 272-282, 1289), `theta` in degrees. -/
noncomputable def reflectG (theta : ℝ) (g : ℝ × ℝ) : ℝ × ℝ :=
  (Real.cos (2 * theta * Real.pi / 180) * g.1 + Real.sin (2 * theta * Real.pi / 180) * g.2,
   Real.sin (2 * theta * Real.pi / 180) * g.1 + -Real.cos (2 * theta * Real.pi / 180) * g.2)

open Classical in
/-- `_ind_g` with the default threshold (gme.py 258-270), first match. -/
noncomputable def indG (gs : List (ℝ × ℝ)) (g : ℝ × ℝ) : Except PyErr ℕ :=
  match gs.findIdx? (fun v => decide (|v.1 - g.1| < 1e-7 ∧ |v.2 - g.2| < 1e-7)) with
  | some i => .ok i
  | none => .error .valueError

/-- The partner index of every vector of one guided mode (gme.py 1288-1292). -/
noncomputable def reflIdx (theta : ℝ) (gs : List (ℝ × ℝ)) : Except PyErr (List ℕ) :=
  gs.mapM fun g => indG gs (reflectG theta g)

/-- `block[i, j] = x`. -/
def set2 (B : ℕ → ℕ → ℝ) (i j : ℕ) (x : ℝ) : ℕ → ℕ → ℝ :=
  fun a b => if a = i ∧ b = j then x else B a b

/-- `block_w[i] = x`. -/
def set1 (w : ℕ → ℝ) (i : ℕ) (x : ℝ) : ℕ → ℝ := fun a => if a = i then x else w a

/-- One pass of the loop over the vectors of a mode, dense version (gme.py 1294-1303). -/
noncomputable def denseStep (r : ℕ → ℕ) (st : (ℕ → ℕ → ℝ) × (ℕ → ℝ)) (j : ℕ) :
    (ℕ → ℕ → ℝ) × (ℕ → ℝ) :=
  if j = r j then (set2 st.1 j j 1, set1 st.2 j 1)
  else
    (set2 (set2 (set2 (set2 st.1 j j (-1 / √2)) j (r j) (1 / √2)) (r j) j (1 / √2)) (r j) (r j) (1 / √2),
     set1 (set1 st.2 j (-1)) (r j) 1)

/-- Change-of-basis block and parities of one mode, dense version (gme.py 1277-1303). -/
noncomputable def denseBlock (r : ℕ → ℕ) (dim : ℕ) : (ℕ → ℕ → ℝ) × (ℕ → ℝ) :=
  (List.range dim).foldl (denseStep r) (fun _ _ => 0, fun _ => 0)

/-- State of the sparse loop: coordinate entries, `block_w`, `check_g` (gme.py 1397-1402). -/
structure SparseSt where
  data : List (ℕ × ℕ × ℝ)
  w : ℕ → ℝ
  check : ℕ → Bool

/-- One pass of the loop over the vectors of a mode, sparse version (gme.py 1412-1440); `off` is
`dim_final`. -/
noncomputable def sparseStep (r : ℕ → ℕ) (off : ℕ) (st : SparseSt) (j : ℕ) : SparseSt :=
  if j = r j then ⟨st.data ++ [(j + off, j + off, 1)], set1 st.w j 1, st.check⟩
  else if st.check j = false then
    ⟨st.data ++ [(j + off, j + off, -1 / √2), (j + off, r j + off, 1 / √2),
        (r j + off, j + off, 1 / √2), (r j + off, r j + off, 1 / √2)],
      set1 (set1 st.w j (-1)) (r j) 1,
      fun a => if a = j ∨ a = r j then true else st.check a⟩
  else st

/-- Entries and parities of one mode, sparse version. -/
noncomputable def sparseBlock (r : ℕ → ℕ) (dim off : ℕ) : SparseSt :=
  (List.range dim).foldl (sparseStep r off) ⟨[], fun _ => 0, fun _ => false⟩

/-- `coo((data, (row, col)))`: entries with equal coordinates add up (gme.py 1457-1458). -/
noncomputable def cooMat (data : List (ℕ × ℕ × ℝ)) (i j : ℕ) : ℝ :=
  (data.map fun t => if t.1 = i ∧ t.2.1 = j then t.2.2 else 0).sum

/-- One mode as seen by the separation: its index (even = TE), its number of vectors and the partner
of each of them. -/
structure SymMode where
  alpha : ℕ
  dim : ℕ
  r : ℕ → ℕ

/-- `block_diag(*blocks)` (gme.py 1312). -/
def blockDiag : List (ℕ × (ℕ → ℕ → ℝ)) → ℕ → ℕ → ℝ
  | [], _, _ => 0
  | (n, B) :: rest, i, j =>
      if i < n ∧ j < n then B i j
      else if n ≤ i ∧ n ≤ j then blockDiag rest (i - n) (j - n)
      else 0

/-- `bd.hstack(blocks_w)` (gme.py 1313). -/
def hstackW : List (ℕ × (ℕ → ℝ)) → ℕ → ℝ
  | [], _ => 0
  | (n, w) :: rest, i => if i < n then w i else hstackW rest (i - n)

/-- Size of the basis. -/
def symDim (ms : List SymMode) : ℕ := (ms.map (·.dim)).sum

/-- `-block_w` for a TE mode, `block_w` for a TM mode (gme.py 1305-1310). -/
def polSign (alpha : ℕ) : ℝ := if alpha % 2 = 0 then -1 else 1

/-- `v_sigma`, dense (gme.py 1312). -/
noncomputable def denseV (ms : List SymMode) : ℕ → ℕ → ℝ :=
  blockDiag (ms.map fun m => (m.dim, (denseBlock m.r m.dim).1))

/-- `sigma_diag`, dense (gme.py 1313). -/
noncomputable def denseSigma (ms : List SymMode) : ℕ → ℝ :=
  hstackW (ms.map fun m => (m.dim, fun i => polSign m.alpha * (denseBlock m.r m.dim).2 i))

/-- Coordinate entries of all modes, `dim_final` growing by `dim` (gme.py 1442-1455). -/
noncomputable def sparseData : ℕ → List SymMode → List (ℕ × ℕ × ℝ)
  | _, [] => []
  | off, m :: ms => (sparseBlock m.r m.dim off).data ++ sparseData (off + m.dim) ms

/-- `v_sigma_coo` (gme.py 1457-1458). -/
noncomputable def sparseV (ms : List SymMode) : ℕ → ℕ → ℝ := cooMat (sparseData 0 ms)

/-- `sigma_diag`, sparse (gme.py 1447-1460); the parities do not depend on `dim_final`. -/
noncomputable def sparseSigma (ms : List SymMode) : ℕ → ℝ :=
  hstackW (ms.map fun m => (m.dim, fun i => polSign m.alpha * (sparseBlock m.r m.dim 0).w i))

open Classical in
/-- The loop that orders the basis (gme.py 1315-1327, 1462-1474): state `indexes_sigma`,
`even_count`, `odd_count`. -/
noncomputable def sigmaStep (w : ℕ → ℝ) (st : List ℕ × ℕ × ℕ) (i : ℕ) : List ℕ × ℕ × ℕ :=
  let st := if w i = 1 then (i :: st.1, st.2.1 + 1, st.2.2) else st
  if w i = -1 then (st.1 ++ [i], st.2.1, st.2.2 + 1) else st

@[inherit_doc sigmaStep]
noncomputable def sigmaOrder (w : ℕ → ℝ) (n : ℕ) : List ℕ × ℕ × ℕ :=
  (List.range n).foldl (sigmaStep w) ([], 0, 0)

/-- Result of the separation: sector sizes, `v_sigma_perm`, the transformed matrix. -/
structure Separated where
  even : ℕ
  odd : ℕ
  V : ℕ → ℕ → ℝ
  sep : ℕ → ℕ → ℂ

/-- `V.T @ (mat @ V)` for `n` basis states (gme.py 1331, 1484-1485). -/
noncomputable def changeBasis (n : ℕ) (V : ℕ → ℕ → ℝ) (M : ℕ → ℕ → ℂ) (k l : ℕ) : ℂ :=
  ∑ i ∈ Finset.range n, (V i k : ℂ) * ∑ j ∈ Finset.range n, M i j * (V j l : ℂ)

/-- The modes `gmode_inds` paired with the vectors actually used; a mode of `gmode_inds` that does
not exist at this `k` has no entry in `modes_numg[ik]` (gme.py 1268-1270, 1394-1396). -/
noncomputable def symModes (theta : ℝ) : List ℕ → List (List (ℝ × ℝ)) → Except PyErr (List SymMode)
  | [], _ => .ok []
  | _ :: _, [] => .error .indexError
  | a :: as, gs :: us =>
    match reflIdx theta gs with
    | .error e => .error e
    | .ok rs =>
      match symModes theta as us with
      | .error e => .error e
      | .ok ms => .ok (⟨a, gs.length, fun i => rs.getD i 0⟩ :: ms)

/-- `v_sigma[:, indexes]`; the sparse version multiplies by a permutation matrix, which is the same. -/
def permCols (V : ℕ → ℕ → ℝ) (idx : List ℕ) (i k : ℕ) : ℝ := V i (idx.getD k 0)

open Classical in
/-- The checks at the end of both functions (gme.py 1336-1360). -/
noncomputable def checkSep (thr : ℝ) (n : ℕ) (s : Separated) : Except PyErr Separated :=
  if s.odd = 0 ∨ s.even = 0 then .error .valueError
  else if ∀ i < s.even, ∀ j, s.even ≤ j → j < n → ‖s.sep i j‖ ≤ thr ∧ ‖s.sep j i‖ ≤ thr then .ok s
  else .error .valueError

/-- Both separations; `sparse` is the option `use_sparse` (gme.py 1037-1046). -/
noncomputable def separate (sparse : Bool) (theta thr : ℝ) (gmodeInds : List ℕ)
    (used : List (List (ℝ × ℝ))) (M : ℕ → ℕ → ℂ) : Except PyErr Separated :=
  match symModes theta gmodeInds used with
  | .error e => .error e
  | .ok ms =>
    let V := if sparse then sparseV ms else denseV ms
    let w := if sparse then sparseSigma ms else denseSigma ms
    let n := symDim ms
    let o := sigmaOrder w n
    let Vp := permCols V o.1
    checkSep thr n ⟨o.2.1, o.2.2, Vp, changeBasis n Vp M⟩

/-- `mat_even` and `mat_odd` (gme.py 1332-1333). -/
def Separated.matEven (s : Separated) (i j : ℕ) : ℂ := s.sep i j

@[inherit_doc Separated.matEven]
def Separated.matOdd (s : Separated) (i j : ℕ) : ℂ := s.sep (s.even + i) (s.even + j)

/-- An even eigenvector padded with `odd_count` zeros and rewritten in the original basis
(gme.py 1073-1076, 1099-1102, 1152-1158). -/
noncomputable def Separated.backEven (s : Separated) (y : ℕ → ℂ) (i : ℕ) : ℂ :=
  ∑ k ∈ Finset.range (s.even + s.odd), (s.V i k : ℂ) * (if k < s.even then y k else 0)

/-- An odd eigenvector padded with `even_count` zeros in front (gme.py 1062-1065, 1121-1128). -/
noncomputable def Separated.backOdd (s : Separated) (y : ℕ → ℂ) (i : ℕ) : ℂ :=
  ∑ k ∈ Finset.range (s.even + s.odd), (s.V i k : ℂ) * (if k < s.even then 0 else y (k - s.even))

end Legume
