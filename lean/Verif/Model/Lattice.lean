import Mathlib.Analysis.SpecialFunctions.Trigonometric.Basic
import Mathlib.Data.Real.Sqrt
import Verif.Model.Structure

/-!
# `legume/phc/lattice.py` and the real-number window of `ShapesLayer.get_eps`
-/
namespace Legume

open Real

/-- A numpy array of shape `(3,)`. -/
structure V3 where
  x : ℝ
  y : ℝ
  z : ℝ

namespace V3

/-- `bd.cross` of two 3-vectors. -/
def cross (u v : V3) : V3 where
  x := u.y * v.z - u.z * v.y
  y := u.z * v.x - u.x * v.z
  z := u.x * v.y - u.y * v.x

/-- `bd.dot` of two 3-vectors. -/
def dot (u v : V3) : ℝ := u.x * v.x + u.y * v.y + u.z * v.z

/-- `bd.norm` of a 3-vector. -/
noncomputable def norm (u : V3) : ℝ := √(u.x ^ 2 + u.y ^ 2 + u.z ^ 2)

/-- Scalar times vector divided by a scalar, as in `2*np.pi*v/d`. -/
noncomputable def scale (c : ℝ) (u : V3) (d : ℝ) : V3 := ⟨c * u.x / d, c * u.y / d, c * u.z / d⟩

end V3

/-- `Lattice.type` (lattice.py 49-69). -/
inductive LatType where
  | square
  | hexagonal
  | rectangular
  | custom
  deriving DecidableEq, Repr

/-- Arguments of `Lattice(...)`: one string or two 2-vectors; any other number of arguments
leaves `a1` unbound and raises `UnboundLocalError` (a `NameError`). -/
inductive LatArg where
  | name (s : String)
  | vecs (a1 a2 : ℝ × ℝ)
  | other

/-- `Lattice._parse_input` (lattice.py 49-71). -/
noncomputable def parseLatInput : LatArg → Except PyErr (LatType × V3 × V3)
  | .name s =>
    if s = "square" then .ok (.square, ⟨1, 0, 0⟩, ⟨0, 1, 0⟩)
    else if s = "hexagonal" then .ok (.hexagonal, ⟨0.5, √3 / 2, 0⟩, ⟨0.5, -√3 / 2, 0⟩)
    else .error .valueError
  | .vecs a1 a2 =>
    .ok (if a1.1 * a2.1 + a1.2 * a2.2 + 0 * 0 = 0 then .rectangular else .custom,
      ⟨a1.1, a1.2, 0⟩, ⟨a2.1, a2.2, 0⟩)
  | .other => .error .nameError

/-- Attributes of a `Lattice` (lattice.py 26-43). -/
structure Lattice where
  type : LatType
  a1 : ℝ × ℝ
  a2 : ℝ × ℝ
  b1 : ℝ × ℝ
  b2 : ℝ × ℝ
  ecArea : ℝ
  bzArea : ℝ

/-- The arithmetic of `Lattice.__init__` (lattice.py 27-43) once the input is parsed.
Division by zero for collinear vectors gives `0` here while numpy gives `inf`/`nan`; all
theorems assume non-collinear vectors. -/
noncomputable def mkLattice (t : LatType) (a1 a2 : V3) : Lattice :=
  let a3 : V3 := ⟨0, 0, 1⟩
  let b1 := V3.scale (2 * π) (V3.cross a2 a3) (V3.dot a1 (V3.cross a2 a3))
  let b2 := V3.scale (2 * π) (V3.cross a3 a1) (V3.dot a2 (V3.cross a3 a1))
  { type := t
    a1 := (a1.x, a1.y)
    a2 := (a2.x, a2.y)
    b1 := (b1.x, b1.y)
    b2 := (b2.x, b2.y)
    ecArea := V3.norm (V3.cross a1 a2)
    bzArea := V3.norm (V3.cross b1 b2) }

/-- `Lattice.__init__` (lattice.py 11-43). -/
noncomputable def Lattice.new (arg : LatArg) : Except PyErr Lattice :=
  match parseLatInput arg with
  | .error e => .error e
  | .ok (t, a1, a2) => .ok (mkLattice t a1 a2)

/-- A point given to `bz_path`: an array/list of two numbers, a string, or anything else. -/
inductive PtArg where
  | vec (p : ℝ × ℝ)
  | name (s : String)
  | other

/-- `Lattice._parse_point` (lattice.py 195-230). -/
noncomputable def Lattice.parsePoint (L : Lattice) : PtArg → Except PyErr (ℝ × ℝ)
  | .vec p => .ok p
  | .name s =>
    if s.toLower = "g" ∨ s.toLower = "gamma" then .ok (0, 0)
    else if s.toLower = "x" then
      if L.type = .square then .ok (π, 0) else .error .valueError
    else if s.toLower = "m" then
      if L.type = .square then .ok (π, π)
      else if L.type = .hexagonal then .ok (π, π / √3)
      else .error .valueError
    else if s.toLower = "k" then
      if L.type = .hexagonal then .ok (4 / 3 * π, 0) else .error .valueError
    else .error .valueError
  | .other => .error .valueError

/-- The slice of k-points between two requested points (lattice.py 154-155):
`p1 + (p2 - p1) * linspace(0, 1, n, endpoint=False)`. -/
noncomputable def bzSegment (p1 p2 : ℝ × ℝ) (n : Nat) : List (ℝ × ℝ) :=
  (List.range n).map fun (i : Nat) =>
    (p1.1 + (p2.1 - p1.1) * ((i : ℝ) / n), p1.2 + (p2.2 - p1.2) * ((i : ℝ) / n))

/-- The loop of `bz_path` over consecutive points (lattice.py 149-158), for points already
resolved by `_parse_point`.  Accumulates the k-points (the slices `count:count+n` are
contiguous, so filling the preallocated array is appending), `count` and `inds`; ends with
`kpoints[:, -1] = p2`. -/
noncomputable def bzLoop : List (ℝ × ℝ) → List Nat → Nat → List (ℝ × ℝ) × List Nat
  | p1 :: p2 :: ps, n :: ns, count =>
    let r := bzLoop (p2 :: ps) ns (count + n)
    (bzSegment p1 p2 n ++ r.1, (count + n) :: r.2)
  | [p], _, _ => ([p], [])
  | _, _, _ => ([], [])

/-- `ns` after the normalisation of lattice.py 135-145. A bare integer makes `list(ns)`
raise `TypeError`. Simplification: counts are natural numbers. -/
inductive NsArg where
  | int (n : Nat)
  | list (l : List Nat)

/-- lattice.py 135-145. -/
def parseNs (npts : Nat) : NsArg → Except PyErr (List Nat)
  | .int _ => .error .typeError
  | .list l =>
    if npts < 2 then .error .valueError
    else if l.length = 1 then .ok (List.replicate (npts - 1) (l.headD 0))
    else if l.length = npts - 1 then .ok l
    else .error .valueError

/-- Resolve all points, failing on the first bad one (`_parse_point` in the loop,
lattice.py 152-153). -/
noncomputable def Lattice.parsePoints (L : Lattice) (pts : List PtArg) : Except PyErr (List (ℝ × ℝ)) :=
  pts.mapM L.parsePoint

/-- `'kpoints'` and `'indexes'` of `Lattice.bz_path` (lattice.py 109-158).  The angles and
labels are not modelled; `symm_g` is only validated (163-168: the test
`len(index_g) != 0` is always true, so `symm_g` is always parsed). -/
noncomputable def Lattice.bzPath (L : Lattice) (pts : List PtArg) (ns : NsArg) (symmG : PtArg) :
    Except PyErr (List (ℝ × ℝ) × List Nat) := do
  let ns ← parseNs pts.length ns
  let ps ← L.parsePoints pts
  let r := bzLoop ps ns 0
  let _ ← L.parsePoint symmG
  return (r.1, 0 :: r.2)

/-! ### The window of `ShapesLayer.get_eps` -/

/-- `np.max(abs(x))` over the coordinates of a call (layer.py 198). -/
noncomputable def maxAbs (l : List ℝ) : ℝ := l.foldr (fun x m => max |x| m) 0

/-- `nmax` (layer.py 195-199): `int(sqrt(max|x|^2 + max|y|^2) / a_p) + 1` with `a_p` the
shorter primitive vector. -/
noncomputable def epsWindow (a1 a2 : ℝ × ℝ) (pts : List (ℝ × ℝ)) : Nat :=
  let aP := min (√(a1.1 ^ 2 + a1.2 ^ 2)) (√(a2.1 ^ 2 + a2.2 ^ 2))
  Nat.floor (√((maxAbs (pts.map Prod.fst)) ^ 2 + (maxAbs (pts.map Prod.snd)) ^ 2) / aP) + 1

/-- The lattice data used by layers (layer.py 133, 192-199). -/
noncomputable def Lattice.toLat (L : Lattice) : Lat ℝ where
  a1 := L.a1
  a2 := L.a2
  ecArea := L.ecArea
  win := epsWindow L.a1 L.a2

end Legume
