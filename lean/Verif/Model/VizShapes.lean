import Verif.Model.BzAxis
import Verif.Model.Shapes

/-!
# Outlines of shapes and texts of structures: `viz.shapes` (viz.py 382-392, 630-669) and the `__repr__` methods of
lattice.py, layer.py, phc.py and shapes.py

Colours, line widths and axes are left out; a curve is the list of points given to `ax.plot`. The numbers of a text are
written by `%.2f`, `%.4f`, `%s` and so on: these are parameters (`Fmt`), and they do not fail (the attributes are plain numbers).
-/
namespace Legume

open Real

/-- The objects in `layer.shapes`; `Square`, `Hexagon` and `FourierShape` are polygons with a text of their own. -/
inductive DShape where
  | circle (eps x y r : ℝ)
  | ellipse (eps x y rx ry phi : ℝ)
  | poly (eps : ℝ) (p : Poly)
  | square (eps x y a : ℝ) (p : Poly)
  | hexagon (eps x y a : ℝ) (p : Poly)
  | fourier (eps x y : ℝ) (npts : ℕ) (p : Poly)

/-- The attributes `x_edges`, `y_edges` of a shape, if it has them. -/
def DShape.edges : DShape → Option (List R2)
  | .circle .. => none
  | .ellipse .. => none
  | .poly _ p => some p.verts
  | .square _ _ _ _ p => some p.verts
  | .hexagon _ _ _ _ p => some p.verts
  | .fourier _ _ _ _ p => some p.verts

/-- `_plot_circle` (viz.py 382-392). -/
noncomputable def plotCircle (x y r : ℝ) (npts : ℕ) : List R2 :=
  (linspace 0 (2 * π) npts).map fun phi => (x + r * cos phi, y + r * sin phi)

/-- `xy_p` (viz.py 640-643); nothing without `pad`. -/
def padShifts (L : Lattice) (pad : Bool) : List R2 :=
  if pad then [L.a1, (-L.a1.1, -L.a1.2), L.a2, (-L.a2.1, -L.a2.2)] else []

/-- The body of the loop over shapes (viz.py 645-666): what is not a circle is taken for a polygon. -/
noncomputable def drawShape (L : Lattice) (npts : ℕ) (pad : Bool) (s : DShape) : Except PyErr (List (List R2)) :=
  match s with
  | .circle _ x y r =>
    .ok (plotCircle x y r npts :: (padShifts L pad).map fun t => plotCircle (x + t.1) (y + t.2) r npts)
  | s =>
    match s.edges with
    | none => .error .attributeError
    | some vs => .ok (vs :: (padShifts L pad).map fun t => vs.map fun v => (v.1 + t.1, v.2 + t.2))

/-- `viz.shapes` (viz.py 630-669): the curves, and the limits of both axes. -/
noncomputable def vizShapes (L : Lattice) (shapes : List DShape) (npts : ℕ) (pad : Bool) :
    Except PyErr (List (List R2) × List ℝ × List ℝ) := do
  let (xext, yext) ← L.xyGrid 2 2 .none
  let curves ← shapes.mapM (drawShape L npts pad)
  return (curves.flatten, xext, yext)

/-- How numbers are written: `%.2f`, `%.4f`, `%d`, and `%s` of an array. -/
structure Fmt where
  f2 : ℝ → String
  f4 : ℝ → String
  d : ℕ → String
  arr : List ℝ → String

/-- `__repr__` of shapes (shapes.py 87-89, 143-144, 200-202, 325-327, 356-358, 427-430). The text of an `Ellipse` refers to
names `eps`, `x`, ... which do not exist. -/
def DShape.repr (F : Fmt) : DShape → Except PyErr String
  | .circle e x y r => .ok ("Circle(eps = " ++ F.f2 e ++ ", x = " ++ F.f4 x ++ ", y = " ++ F.f4 y ++ ", r = " ++ F.f4 r ++ ")")
  | .ellipse .. => .error .nameError
  | .poly e p => .ok ("Poly(eps = " ++ F.f2 e ++ ", x_edges = " ++ F.arr (p.verts.map Prod.fst) ++
      ", y_edges = " ++ F.arr (p.verts.map Prod.snd) ++ ")")
  | .square e x y a _ => .ok ("Square(eps = " ++ F.f2 e ++ ", x_cent = " ++ F.f4 x ++ ", y_cent = " ++ F.f4 y ++
      ", a = " ++ F.f4 a ++ ")")
  | .hexagon e x y a _ => .ok ("Hexagon(eps = " ++ F.f2 e ++ ", x_cent = " ++ F.f4 x ++ ", y_cent = " ++ F.f4 y ++
      ", a = " ++ F.f4 a ++ ")")
  | .fourier e x y n _ => .ok ("FourierShape(eps = " ++ F.f2 e ++ ", x_cent = " ++ F.f4 x ++ ", y_cent = " ++ F.f4 y ++
      ", npts = " ++ F.d n ++ ")")

/-- What a text shows of a layer. -/
structure DLayer where
  epsB : ℝ
  d : ℝ
  shapes : List DShape

/-- `ShapesLayer.__repr__` (layer.py 112-118). -/
def DLayer.repr (F : Fmt) (l : DLayer) : Except PyErr String := do
  let ss ← l.shapes.mapM (DShape.repr F)
  return "ShapesLayer(eps_b = " ++ F.f2 l.epsB ++ ", d = " ++ F.f2 l.d ++ (if l.shapes.length > 0 then "," else "") ++
    String.join (ss.map fun s => "\n" ++ s) ++ (if l.shapes.length > 0 then "\n)" else ")")

/-- `Lattice.__repr__` (lattice.py 45-47). -/
def Lattice.repr (F : Fmt) (L : Lattice) : String :=
  "Lattice(a1 = [" ++ F.f4 L.a1.1 ++ ", " ++ F.f4 L.a1.2 ++ "], a2 = [" ++ F.f4 L.a2.1 ++ ", " ++ F.f4 L.a2.2 ++ "])"

/-- `PhotCryst.__repr__` (phc.py 39-47); the texts of quantum wells (layer.py 265-269) contain numbers only and are given. -/
def phcRepr (F : Fmt) (L : Lattice) (layers : List DLayer) (qws : List String) : Except PyErr String := do
  let ls ← layers.mapM (DLayer.repr F)
  return "PhotonicCrystal(" ++ "\n" ++ L.repr F ++
    String.join (ls.zipIdx.map fun li => "\n" ++ F.d li.2 ++ ": " ++ li.1) ++
    String.join (qws.zipIdx.map fun qi => "\n" ++ F.d qi.2 ++ ": " ++ qi.1) ++
    (if layers.length > 0 ∨ qws.length > 0 then "\n)" else ")")

end Legume
