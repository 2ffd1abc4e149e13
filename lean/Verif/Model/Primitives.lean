import Mathlib.LinearAlgebra.Matrix.NonsingularInverse
import Mathlib.Data.Complex.BigOperators
import Mathlib.Analysis.SpecialFunctions.Sqrt
import Verif.Model.Reciprocal

/-!
# Registered gradients: `legume/primitives.py`

autograd pairs a vector-Jacobian product `g` with a change `dx` by the real part of the sum of `g * dx`,
without complex conjugation.
-/
namespace Legume

/-! ### `extend` (utils.py 229-234) and its vjp (primitives.py 24-33) -/

/-- `extend(vals, inds, shape)` for a one-dimensional shape `n`. Simplification: `inds` are valid
non-negative positions and there are as many values. Repeated positions keep the last value. -/
def extendArr {K : Type*} [Zero K] (n : ℕ) (vals : List K) (inds : List ℕ) : List K :=
  (inds.zip vals).foldl (fun z iv => z.set iv.1 iv.2) (List.replicate n 0)

/-- `vjp_maker_extend`: `g[inds]`. -/
def vjpExtend {K : Type*} [Zero K] (g : List K) (inds : List ℕ) : List K :=
  inds.map fun (i : ℕ) => g.getD i 0

/-! ### `sqrt` (primitives.py 35-47) -/

/-- Factor of `g` in `vjp_maker_sqrt`, for real `x`. -/
noncomputable def vjpSqrt (x : ℝ) : ℝ := 0.5 * √(x + 1e-10) / (x + 1e-10)

/-! ### `toeplitz_block` (primitives.py 53-97) -/

/-- `vjp_maker_TB_T1`: entry `k`. The loops add, for every block and row, a slice of `v`. -/
def vjpT1 (n ntot : ℕ) (v : ℕ → ℕ → ℂ) (k : ℕ) : ℂ :=
  let p := ntot / n
  ∑ ind1 ∈ Finset.range n, ∑ ind2 ∈ Finset.range n, if ind1 ≤ ind2 then
    ∑ indp ∈ Finset.range p,
      if (ind2 - ind1) * p ≤ k ∧ k < (ind2 - ind1 + 1) * p - indp then
        v (ind1 * p + indp) (ind2 * p + indp + (k - (ind2 - ind1) * p)) +
        (if ind1 < ind2 then
          (starRingEnd ℂ) (v (ind2 * p + indp + (k - (ind2 - ind1) * p)) (ind1 * p + indp)) else 0)
      else 0
  else 0

/-- `vjp_maker_TB_T2`: entry `k`. -/
def vjpT2 (n ntot : ℕ) (v : ℕ → ℕ → ℂ) (k : ℕ) : ℂ :=
  let p := ntot / n
  ∑ ind1 ∈ Finset.range n, ∑ ind2 ∈ Finset.range n, if ind1 ≤ ind2 then
    ∑ indp ∈ Finset.range p,
      if (ind2 - ind1) * p + 1 ≤ k ∧ k < (ind2 - ind1 + 1) * p - indp then
        v (ind1 * p + indp + 1 + (k - ((ind2 - ind1) * p + 1))) (ind2 * p + indp) +
        (if ind1 < ind2 then
          (starRingEnd ℂ) (v (ind2 * p + indp) (ind1 * p + indp + 1 + (k - ((ind2 - ind1) * p + 1)))) else 0)
      else 0
  else 0

/-! ### `eigh` (primitives.py 103-137) -/

open scoped ComplexConjugate

/-- `vjp_temp` after the eigenvalue part: `dot(vc * wg, T(v))`. -/
def vjpEighW {N : ℕ} (v : Matrix (Fin N) (Fin N) ℂ) (wg : Fin N → ℝ) : Matrix (Fin N) (Fin N) ℂ :=
  fun i j => ∑ n, conj (v i n) * wg n * v j n

/-- `F`: `off_diag / (w[j] - w[i] + eye)`. -/
noncomputable def eighF {N : ℕ} (w : Fin N → ℝ) (i j : Fin N) : ℂ :=
  (if i = j then 0 else 1) / ((w j - w i + if i = j then 1 else 0 : ℝ) : ℂ)

/-- The eigenvector part added when `vg` does not vanish: `vc (F * (T(v) vg)) T(v)`. -/
noncomputable def vjpEighV {N : ℕ} (w : Fin N → ℝ) (v vg : Matrix (Fin N) (Fin N) ℂ) :
    Matrix (Fin N) (Fin N) ℂ :=
  fun a b => ∑ m, ∑ n, conj (v a m) * (eighF w m n * ∑ i, v i m * vg i n) * v b n

/-- The triangular form that is returned: the strictly lower triangle for `UPLO = 'L'` (the default), the
strictly upper one for `UPLO = 'U'`, and the real part of the diagonal. -/
noncomputable def triEigh {N : ℕ} (upper : Bool) (t : Matrix (Fin N) (Fin N) ℂ) : Matrix (Fin N) (Fin N) ℂ :=
  fun i j => (if i = j then ((t i j).re : ℂ) else 0) +
    (if (if upper then i < j else j < i) then t i j + conj (t j i) else 0)

open Classical in
/-- `vjp_maker_eigh`. -/
noncomputable def vjpEigh {N : ℕ} (upper : Bool) (w : Fin N → ℝ) (v : Matrix (Fin N) (Fin N) ℂ)
    (wg : Fin N → ℝ) (vg : Matrix (Fin N) (Fin N) ℂ) : Matrix (Fin N) (Fin N) ℂ :=
  triEigh upper (vjpEighW v wg + if vg = 0 then 0 else vjpEighV w v vg)

/-! ### `inv` (primitives.py 150-151) -/

/-- `vjp_maker_inv`: `-T(ans) g T(ans)`. -/
def vjpInv {N : ℕ} (ans g : Matrix (Fin N) (Fin N) ℂ) : Matrix (Fin N) (Fin N) ℂ :=
  -(ans.transpose * g * ans.transpose)

/-! ### `eigsh` (primitives.py 183-231) -/

/-- `P = eye - outer(vc, v)` applied to a vector. -/
def eighProj {N : ℕ} (v x : Fin N → ℂ) (i : Fin N) : ℂ := x i - conj (v i) * ∑ j, v j * x j

/-- What `scipy.sparse.linalg.cg` is assumed to return: a solution of `T(mat - a) l = P vg`. The starting
point, which is random, does not matter. -/
def CgSolves {N : ℕ} (mat : Matrix (Fin N) (Fin N) ℂ) (a : ℝ) (v vg l : Fin N → ℂ) : Prop :=
  ∀ j, ∑ i, (mat i j - if i = j then (a : ℂ) else 0) * l i = eighProj v vg j

open Classical in
/-- `vjp_maker_eigsh` for `k` eigenpairs of a matrix of size `N`; `l` are the results of `cg`, used for the
eigenvectors with a non-zero gradient. -/
noncomputable def vjpEigsh {N k : ℕ} (v : Fin k → Fin N → ℂ) (ag : Fin k → ℝ) (vg l : Fin k → Fin N → ℂ) :
    Matrix (Fin N) (Fin N) ℂ :=
  fun i j => ∑ n, (ag n * (conj (v n i) * v n j) - if vg n = 0 then 0 else eighProj (v n) (l n) i * v n j)

/-! ### `interp` (primitives.py 238-253) -/

section
variable {K : Type*} [Field K] [LinearOrder K]

/-- `np.searchsorted(xp, x)` (side left) for a sorted array: the number of smaller samples. -/
def searchLeft (xp : List K) (x : K) : ℕ := (xp.filter (· < x)).length

/-- Row of `dydyp` for the query point `x`: `indx = searchsorted(xp, x) - 1`, where `-1` addresses the
last sample; `xp[indx + 1]` raises `IndexError` beyond the last sample. -/
def interpRow (xp : List K) (x : K) : Except PyErr (List K) :=
  let n := xp.length
  let s := searchLeft xp x
  if n ≤ s then .error .indexError
  else
    let i0 := if s = 0 then n - 1 else s - 1
    let x0 := xp.getD i0 0
    let x1 := xp.getD s 0
    let t := (x - x0) / (x1 - x0)
    .ok (((List.replicate n 0).set i0 (1 - t)).set s t)

/-- `np.interp(x, xp, yp)` for one query point and increasing `xp`: constant outside, linear between
samples. -/
def npInterp : List K → List K → K → K
  | [], _, _ => 0
  | [_], yp, _ => yp.headD 0
  | x0 :: x1 :: xp, yp, x =>
    if x ≤ x0 then yp.headD 0
    else if x ≤ x1 then yp.headD 0 + (yp.tail.headD 0 - yp.headD 0) / (x1 - x0) * (x - x0)
    else npInterp (x1 :: xp) yp.tail x

end

/-- `vjp_maker_interp`: `dot(g, dydyp)`. -/
def vjpInterp {K : Type*} [Field K] [LinearOrder K] (g x xp : List K) : Except PyErr (List K) := do
  let rows ← x.mapM (interpRow xp)
  .ok ((List.range xp.length).map fun (k : ℕ) =>
    (List.zipWith (fun gi (row : List K) => gi * row.getD k 0) g rows).sum)

/-! ### `fsolve` (primitives.py 256-300) -/

/-- `vjp_single_arg`: `dot(g, -1 / dfdx * dfdy)` for scalars. -/
def vjpFsolve {K : Type*} [Field K] (g dfdx dfdy : K) : K := g * (-1 / dfdx * dfdy)

/-! ### `fmap` (primitives.py 303-337), `spdot` (primitives.py 373-390) -/

/-- `vjp_maker_fmap`: `dot(v.T, grads)`. -/
def vjpFmap {K : Type*} [Field K] {m n : ℕ} (grads : Fin m → Fin n → K) (v : Fin m → K) : Fin n → K :=
  fun j => ∑ i, v i * grads i j

/-- `vjp_maker_spdot`: `spmat.T.dot(g)`. -/
def vjpSpdot {l m n : ℕ} (sp : Matrix (Fin l) (Fin m) ℂ) (g : Matrix (Fin l) (Fin n) ℂ) :
    Matrix (Fin m) (Fin n) ℂ := sp.transpose * g

/-! ### `eig` (primitives.py 341-370) -/

/-- Evaluating `vjp_maker_eig` looks up the names used in it; `defined` tells which names exist in the
module `primitives`. The first statement of the vjp is `ge = _matrix_diag(ge)`. -/
def vjpEig (defined : String → Bool) : Except PyErr Unit :=
  if ["_matrix_diag", "_diag", "_dot", "inv"].all defined then .ok () else .error .nameError

end Legume
