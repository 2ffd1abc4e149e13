import Verif.Model.Shapes
import Verif.Model.Lattice

/-!
# Export to GDS: `legume/gds.py`

The polygons handed to `gdspy` are recorded; the file is written if the function returns. Units, tolerance
and the polygonal approximation of circles belong to `gdspy`.
-/
namespace Legume

/-- A shape by its exact Python type; `other` stands for every other type, among them `Ellipse` and
`FourierShape` (a subclass of `Poly`, but the type is compared exactly). -/
inductive GdsShape where
  | poly (p : Poly)
  | square (p : Poly)
  | hexagon (p : Poly)
  | circle (c : Circle)
  | other

/-- What is added to the GDS cell. -/
inductive GdsElem where
  | polygon (points : List R2) (layer datatype : ℕ)
  | round (center : R2) (radius : ℝ) (layer datatype : ℕ)

/-- One pass of the inner loop (gds.py 46-65). -/
noncomputable def gdsShape (i : ℕ) : GdsShape → Except PyErr GdsElem
  | .poly p => .ok (.polygon p.verts.dropLast i 1)
  | .square p => .ok (.polygon p.verts.dropLast i 1)
  | .hexagon p => .ok (.polygon p.verts.dropLast i 1)
  | .circle c => .ok (.round (c.x, c.y) c.r i 1)
  | .other => .error .runtimeError

/-- The loops over layers and shapes (gds.py 45-65), layers counted from `i`. -/
noncomputable def gdsLayers (i : ℕ) : List (List GdsShape) → Except PyErr (List GdsElem)
  | [] => .ok []
  | l :: ls => do
    let a ← l.mapM (gdsShape i)
    let b ← gdsLayers (i + 1) ls
    return a ++ b

/-- `generate_gds` (gds.py 22-67): the content of the file. Only `phc.layers` is looked at. -/
noncomputable def generateGds (layers : List (List GdsShape)) : Except PyErr (List GdsElem) := gdsLayers 0 layers

/-- `T @ v` for `T = hstack((a1, a2))` (gds.py 104). -/
def cellMap (L : Lattice) (v : R2) : R2 := (L.a1.1 * v.1 + L.a2.1 * v.2, L.a1.2 * v.1 + L.a2.2 * v.2)

/-- The points of a contour (gds.py 109-112), `n0 × n1` the shape of the raster. -/
noncomputable def rasterPoint (L : Lattice) (n0 n1 : ℕ) (c : R2) : R2 :=
  cellMap L (c.1 / ((n0 : ℝ) - 1) - 0.5, c.2 / ((n1 : ℝ) - 1) - 0.5)

/-- The unit cell (gds.py 122-126). -/
noncomputable def cellBound (L : Lattice) : List R2 :=
  [(-0.5, -0.5), (-0.5, 0.5), (0.5, 0.5), (0.5, -0.5)].map (cellMap L)

/-- `generate_gds_raster` (gds.py 70-131) for the contours found by `skimage`. Without `cell_bound`
the name `boundary` is unbound (`UnboundLocalError`, a `NameError`). Simplification: `n0, n1 >= 2`. -/
noncomputable def generateGdsRaster (L : Lattice) (n0 n1 : ℕ) (contours : List (List R2)) (cellBnd : Bool) :
    Except PyErr (List GdsElem) :=
  let polygons := contours.map fun c => GdsElem.polygon (c.map (rasterPoint L n0 n1)) 0 0
  if cellBnd then .ok (polygons ++ [.polygon (cellBound L) 0 1]) else .error .nameError

end Legume
