import Mathlib.Analysis.SpecialFunctions.Sqrt
import Mathlib.Data.Complex.Basic
import Mathlib.Data.Matrix.Basic
import Verif.Model.Py
import Verif.Model.GmeRun
import Verif.Model.SlabModes

/-!
# `PlaneWaveExp`: eigenproblem and fields

`pwe/pwe.py` `run` 142-199, `ft_field_xy` 234-311, `get_field_xy` 313-369.

The reciprocal vectors are a function on `Fin n`; the inverse permittivity matrix (`_compute_eps_inv`
132-140) is a parameter.  Simplification: divisions by a zero norm or a zero frequency, which give `nan` or
`inf` in numpy, are the Lean `x / 0 = 0`; the theorems assume that the divisors are not zero.
-/
namespace Legume

/-- `str.lower()` as a list of characters; simplification: only the letters A-Z are changed. -/
def pyLower (s : String) : List Char := s.toList.map Char.toLower

/-- Polarisation given as a string, `pol.lower()` (pwe.py 160, 172-184). -/
def parsePol (pol : String) : Except PyErr Pol :=
  if pyLower pol = ['t', 'e'] then .ok .te
  else if pyLower pol = ['t', 'm'] then .ok .tm
  else .error .valueError

/-- `k[:, newaxis] + gvec`. -/
def kPlusG (k g : ℝ × ℝ) : ℝ × ℝ := (k.1 + g.1, k.2 + g.2)

/-- The matrix diagonalised at one `k` (pwe.py 172-184). -/
noncomputable def pweMat {n : ℕ} (pol : Pol) (k : ℝ × ℝ) (gvec : Fin n → ℝ × ℝ)
    (epsInv : Matrix (Fin n) (Fin n) ℂ) : Matrix (Fin n) (Fin n) ℂ :=
  Matrix.of fun i j =>
    let a := kPlusG k (gvec i)
    let b := kPlusG k (gvec j)
    match pol with
    | .te => ((a.1 * b.1 + a.2 * b.2 : ℝ) : ℂ) * epsInv i j
    | .tm => ((√(a.1 ^ 2 + a.2 ^ 2) * √(b.1 ^ 2 + b.2 ^ 2) : ℝ) : ℂ) * epsInv i j

/-- `run` at one `k`: `eigh M` stands for the eigenvalues returned for the matrix `M`. -/
noncomputable def pweRun {n : ℕ} (argsort : List ℝ → List ℕ)
    (eigh : Matrix (Fin n) (Fin n) ℂ → Fin n → ℝ) (pol : String) (k : ℝ × ℝ) (gvec : Fin n → ℝ × ℝ)
    (epsInv : Matrix (Fin n) (Fin n) ℂ) (numeig : ℕ) : Except PyErr KRes :=
  match parsePol pol with
  | .error e => .error e
  | .ok p => .ok (solvePwe argsort (List.ofFn (eigh (pweMat p k gvec epsInv + 1))) numeig)

/-- `gkx`, `gky` (pwe.py 266-267), with the shift that avoids a zero norm. -/
noncomputable def fieldG (k g : ℝ × ℝ) : ℝ × ℝ := (g.1 + k.1 + 1e-10, g.2 + k.2)

/-- `gnorm` (pwe.py 268). -/
noncomputable def fieldNorm (k g : ℝ × ℝ) : ℝ := √((fieldG k g).1 ^ 2 + (fieldG k g).2 ^ 2)

/-- `px`, `py` (pwe.py 271-272). -/
noncomputable def unitP (k g : ℝ × ℝ) : ℝ × ℝ :=
  ((fieldG k g).1 / fieldNorm k g, (fieldG k g).2 / fieldNorm k g)

/-- `qx`, `qy` (pwe.py 275-276). -/
noncomputable def unitQ (k g : ℝ × ℝ) : ℝ × ℝ := ((unitP k g).2, -(unitP k g).1)

/-- Fourier components of a field: one vector per reciprocal vector. -/
structure FtField (n : ℕ) where
  x : Fin n → ℂ
  y : Fin n → ℂ
  z : Fin n → ℂ

/-- `ft_field_xy('h', ...)` (pwe.py 278-289). -/
noncomputable def pweH {n : ℕ} (pol : Pol) (k : ℝ × ℝ) (gvec : Fin n → ℝ × ℝ) (evec : Fin n → ℂ) : FtField n :=
  match pol with
  | .te => ⟨fun _ => 0, fun _ => 0, evec⟩
  | .tm => ⟨fun i => evec i * (unitQ k (gvec i)).1, fun i => evec i * (unitQ k (gvec i)).2, fun _ => 0⟩

/-- `ft_field_xy('d', ...)` (pwe.py 291-304). -/
noncomputable def pweD {n : ℕ} (pol : Pol) (k : ℝ × ℝ) (gvec : Fin n → ℝ × ℝ) (evec : Fin n → ℂ) (omega : ℝ) :
    FtField n :=
  match pol with
  | .te => ⟨fun i => Complex.I / omega * evec i * (unitQ k (gvec i)).1,
      fun i => Complex.I / omega * evec i * (unitQ k (gvec i)).2, fun _ => 0⟩
  | .tm => ⟨fun _ => 0, fun _ => 0, fun i => Complex.I / omega * evec i⟩

/-- `ft_field_xy('e', ...)` (pwe.py 305-311). -/
noncomputable def pweE {n : ℕ} (epsInv : Matrix (Fin n) (Fin n) ℂ) (D : FtField n) : FtField n :=
  ⟨epsInv.mulVec D.x, epsInv.mulVec D.y, epsInv.mulVec D.z⟩

/-- `ft_field_xy` by name of the field; for any other name the function ends without a return statement
and the caller's unpacking of `None` raises `TypeError`. -/
noncomputable def pweField {n : ℕ} (field : String) (pol : Pol) (k : ℝ × ℝ) (gvec : Fin n → ℝ × ℝ)
    (epsInv : Matrix (Fin n) (Fin n) ℂ) (evec : Fin n → ℂ) (omega : ℝ) : Except PyErr (FtField n) :=
  if pyLower field = ['h'] then .ok (pweH pol k gvec evec)
  else if pyLower field = ['d'] then .ok (pweD pol k gvec evec omega)
  else if pyLower field = ['e'] then .ok (pweE epsInv (pweD pol k gvec evec omega))
  else .error .typeError

/-- The loop over `component` in `get_field_xy` (pwe.py 360-367): a dictionary filled in order of first
occurrence; `inv` is the inverse transform of a list of coefficients. -/
def fieldComponents {F R : Type} (ft : Char → F) (inv : F → R) :
    List Char → List (Char × R) → Except PyErr (List (Char × R))
  | [], fi => .ok fi
  | c :: cs, fi =>
    if c = 'x' ∨ c = 'y' ∨ c = 'z' then
      if (fi.map (·.1)).contains c then fieldComponents ft inv cs fi
      else fieldComponents ft inv cs (fi ++ [(c, inv (ft c))])
    else .error .valueError

end Legume
