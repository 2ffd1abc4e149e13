import Mathlib.Analysis.SpecialFunctions.Trigonometric.Basic
import Mathlib.Analysis.Complex.Trigonometric
import Mathlib.Data.Real.Sqrt
import Verif.Model.Py

/-!
# `legume/phc/shapes.py` and the Fourier transforms of `legume/phc/layer.py`

All numbers are exact reals / complexes.  Functions on arrays of reciprocal vectors are
modelled pointwise (the numpy code is vectorised and every branch is selected per vector).
-/
namespace Legume

open Real

/-- A 2-vector: a vertex, a point or a reciprocal vector. -/
abbrev R2 := ℝ × ℝ

/-! ### Circle and ellipse -/

/-- Attributes of `Circle` (shapes.py 81-84). -/
structure Circle where
  x : ℝ
  y : ℝ
  r : ℝ

/-- `Circle.compute_ft` (shapes.py 91-100) at one vector. `J` stands for
`scipy.special.j1`. -/
noncomputable def Circle.ft (J : ℝ → ℝ) (c : Circle) (g : R2) : ℂ :=
  let gabs := √(|g.1 ^ 2| + |g.2 ^ 2|) + 1e-10
  Complex.exp (-Complex.I * g.1 * c.x - Complex.I * g.2 * c.y) * c.r * 2 * π / gabs *
    J (gabs * c.r)

/-- `Circle.is_inside` (shapes.py 102-104). -/
def Circle.isInside (c : Circle) (p : R2) : Prop := (p.1 - c.x) ^ 2 + (p.2 - c.y) ^ 2 ≤ c.r ^ 2

/-- Attributes of `Ellipse` (shapes.py 134-138). -/
structure Ellipse where
  x : ℝ
  y : ℝ
  rx : ℝ
  ry : ℝ
  phi : ℝ

/-- The change of coordinates of shapes.py 149-150 and 163-164. -/
noncomputable def toFrame (phi : ℝ) (v : R2) : R2 :=
  (v.1 * cos phi + v.2 * sin phi, -v.1 * sin phi + v.2 * cos phi)

/-- `Ellipse.compute_ft` (shapes.py 145-160) at one vector. -/
noncomputable def Ellipse.ft (J : ℝ → ℝ) (e : Ellipse) (g : R2) : ℂ :=
  let g1 := toFrame e.phi g
  let gabs := √(|(g1.1 * e.rx) ^ 2| + |(g1.2 * e.ry) ^ 2|) + 1e-10
  Complex.exp (-Complex.I * g1.1 * e.x - Complex.I * g1.2 * e.y) * e.rx * e.ry * 2 * π / gabs *
    J gabs

/-- `Ellipse.is_inside` (shapes.py 162-166). -/
noncomputable def Ellipse.isInside (e : Ellipse) (p : R2) : Prop :=
  let p1 := toFrame e.phi p
  ((p1.1 - e.x) / e.rx) ^ 2 + ((p1.2 - e.y) / e.ry) ^ 2 ≤ 1

/-! ### Polygons -/

/-- Pairs `(v_j, v_{j+1})` as in the expressions combining `xj` with `bd.roll(xj, -1)`
(the last vertex is paired with the first). -/
def edges (vs : List R2) : List (R2 × R2) := vs.zip (vs.rotate 1)

/-- `bd.sum` of an expression over all `j`. -/
noncomputable def edgeSum (f : R2 → R2 → ℝ) (vs : List R2) : ℝ :=
  ((edges vs).map fun e => f e.1 e.2).sum

/-- `bd.sum` of a complex expression over all `j`. -/
noncomputable def edgeSumC (f : R2 → R2 → ℂ) (vs : List R2) : ℂ :=
  ((edges vs).map fun e => f e.1 e.2).sum

/-- `xj * yj+1 - yj * xj+1` (shapes.py 241-242). -/
def crossTerm (p q : R2) : ℝ := p.1 * q.2 - p.2 * q.1

/-- The zero component (shapes.py 241-242). -/
noncomputable def shoelace (vs : List R2) : ℝ := edgeSum crossTerm vs / 2

/-- `aj` (shapes.py 228-229). Division by zero (`dy = -1e-20`) gives `0` here and
`inf`/`nan` in numpy. -/
noncomputable def slope (p q : R2) : ℝ := (q.1 - p.1 + 1e-10) / (q.2 - p.2 + 1e-20)

/-- `denom / (denom^2 + 1e-50)` (shapes.py 256, 268). -/
noncomputable def regInv (d : ℝ) : ℝ := d / (d ^ 2 + 1e-50)

/-- Summand of the branch `Gx != 0` (shapes.py 261-268); `gx`, `gy` are the negated
components. -/
noncomputable def edgeGen (gx gy : ℝ) (p q : R2) : ℂ :=
  let a := slope p q
  let b := p.1 - a * p.2
  let ag1 := gy * p.2 + gx * (a * p.2)
  let ag2 := gy * q.2 + gx * (a * q.2)
  Complex.exp (Complex.I * (gx * b : ℝ)) *
    (Complex.exp (Complex.I * ag2) - Complex.exp (Complex.I * ag1)) *
    (regInv (gx * (gy + gx * a)) : ℝ)

/-- Summand of the branch `Gx = 0`, `Gy != 0` (shapes.py 247-256). -/
noncomputable def edgeGx0 (gx gy : ℝ) (p q : R2) : ℂ :=
  let a2 := 1 / slope p q
  let b2 := p.2 - a2 * p.1
  let ag1 := gx * p.1 + gy * (a2 * p.1)
  let ag2 := gx * q.1 + gy * (a2 * q.1)
  Complex.exp (Complex.I * (gy * b2 : ℝ)) *
    (Complex.exp (Complex.I * ag2) - Complex.exp (Complex.I * ag1)) *
    (regInv (gy * (gx + gy * a2)) : ℝ)

/-- `Poly.compute_ft` (shapes.py 204-272) at one vector; `vs` are `x_edges`, `y_edges`
(already closed). -/
noncomputable def polyFt (vs : List R2) (g : R2) : ℂ :=
  let gx := -g.1
  let gy := -g.2
  if |gx| < 1e-10 then
    if |gy| < 1e-10 then (shoelace vs : ℂ)
    else edgeSumC (edgeGx0 gx gy) vs
  else -edgeSumC (edgeGen gx gy) vs

/-- Attributes of `Poly`: closed vertex list and `area`. -/
structure Poly where
  verts : List R2
  area : ℝ

/-- `Poly.__init__` (shapes.py 173-198, 11-15). Simplification: the coordinate lists are
given as one list of vertices, so a length mismatch does not arise; `x_edges[0]` of an
empty list raises `IndexError`. -/
noncomputable def Poly.new : List R2 → Except PyErr Poly
  | [] => .error .indexError
  | v :: vs =>
    let closed := (v :: vs) ++ [v]
    if (polyFt closed (0, 0)).re < 0 then .error .valueError
    else .ok ⟨closed, (polyFt closed (0, 0)).re⟩

/-- `com_x`, `com_y` of `Poly.rotate` (shapes.py 287-290). -/
noncomputable def centerOfMass (vs : List R2) (area : ℝ) : R2 :=
  (edgeSum (fun p q => (p.1 + q.1) * (p.1 * q.2 - q.1 * p.2)) vs / 6 / area,
   edgeSum (fun p q => (p.2 + q.2) * (p.1 * q.2 - q.1 * p.2)) vs / 6 / area)

/-- The rotation of one vertex (shapes.py 283-294). -/
noncomputable def rotatePt (angle : ℝ) (c : R2) (v : R2) : R2 :=
  (cos angle * (v.1 - c.1) + -sin angle * (v.2 - c.2) + c.1,
   sin angle * (v.1 - c.1) + cos angle * (v.2 - c.2) + c.2)

/-- `Poly.rotate` (shapes.py 281-297); the `area` attribute is kept. -/
noncomputable def Poly.rotate (p : Poly) (angle : ℝ) : Poly :=
  { p with verts := p.verts.map (rotatePt angle (centerOfMass p.verts p.area)) }

/-- Vertices passed by `Square.__init__` (shapes.py 321-322). -/
noncomputable def squareVerts (x y a : ℝ) : List R2 :=
  [(x + -a / 2, y + -a / 2), (x + a / 2, y + -a / 2), (x + a / 2, y + a / 2),
   (x + -a / 2, y + a / 2)]

/-- Vertices passed by `Hexagon.__init__` (shapes.py 351-353). -/
noncomputable def hexagonVerts (x y a : ℝ) : List R2 :=
  [(x + a, y + 0), (x + a / 2, y + √3 / 2 * a), (x + -a / 2, y + √3 / 2 * a), (x + -a, y + 0),
   (x + -a / 2, y + -√3 / 2 * a), (x + a / 2, y + -√3 / 2 * a), (x + a, y + 0)]

/-- `R_phi` at one angle (shapes.py 402-409): `f_as[0]/2` plus the cosine and sine sums. -/
noncomputable def fourierR (fas fbs : List ℝ) (phi : ℝ) : ℝ :=
  fas.headD 0 / 2 + (fas.tail.mapIdx fun n an => an * cos ((n + 1 : ℝ) * phi)).sum +
    (fbs.mapIdx fun n bn => bn * sin ((n + 1 : ℝ) * phi)).sum

/-- `linspace(0, 2 pi, npts + 1)` (shapes.py 400) for `npts >= 1`. -/
noncomputable def fourierPhis (npts : Nat) : List ℝ :=
  (List.range (npts + 1)).map fun (i : Nat) => (i : ℝ) * (2 * π / npts)

/-- `FourierShape.__init__` (shapes.py 365-420). An empty `f_as` raises `IndexError`. -/
noncomputable def fourierShape (x y : ℝ) (fas fbs : List ℝ) (npts : Nat) : Except PyErr Poly :=
  open Classical in
  if fas = [] then .error .indexError
  else if ∃ phi ∈ fourierPhis npts, fourierR fas fbs phi < 0 then .error .valueError
  else Poly.new ((fourierPhis npts).map fun phi =>
    (fourierR fas fbs phi * cos phi + x, fourierR fas fbs phi * sin phi + y))

/-! ### Fourier transforms of a layer -/

/-- What the layer transforms need of a shape. -/
structure FShape where
  eps : ℝ
  ft : R2 → ℂ

/-- `ind0` (layer.py 154, 173). -/
def isG0 (g : R2) : Prop := |g.1| + |g.2| < 1e-10

/-- `ShapesLayer.compute_ft` (layer.py 140-157) at one vector. -/
noncomputable def layerFt (epsB epsAvg ecArea : ℝ) (shapes : List FShape) (g : R2) : ℂ :=
  open Classical in
  let FT : ℂ := shapes.foldl (fun FT s => FT + ((s.eps - epsB : ℝ) : ℂ) * s.ft g) 0
  let ind0 : ℂ := if isG0 g then 1 else 0
  FT / ecArea * (1 - ind0) + epsAvg * ind0

/-- Body of the loop of `compute_exc_ft` (layer.py 165-176) on the list of requested vectors.
`FT[ind0][0]` raises `IndexError` when no vector is zero; complex numbers compare
lexicographically in numpy; all zero vectors are shifted. -/
noncomputable def excStep (gs : List R2) (ecArea V : ℝ) (FT : List ℂ) (ft : R2 → ℂ) :
    Except PyErr (List ℂ) :=
  open Classical in
  let FT1 := (gs.zip FT).map fun x => (x.2 + V * ft x.1) / ecArea
  match ((gs.zip FT1).filter fun x => decide (isG0 x.1)).head? with
  | none => .error .indexError
  | some x =>
    if x.2.re < 0 ∨ (x.2.re = 0 ∧ x.2.im < 0) then
      .ok ((gs.zip FT1).map fun y => if isG0 y.1 then y.2 + |V| else y.2)
    else .ok FT1

/-- `ShapesLayer.compute_exc_ft` (layer.py 159-178). -/
noncomputable def excFt (gs : List R2) (ecArea V : ℝ) (shapes : List (R2 → ℂ)) :
    Except PyErr (List ℂ) :=
  shapes.foldlM (excStep gs ecArea V) (gs.map fun _ => 0)

end Legume
