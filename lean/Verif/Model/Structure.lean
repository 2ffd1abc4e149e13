import Mathlib.Algebra.Order.Field.Basic
import Verif.Model.Py

/-!
# Photonic-crystal structure: `legume/phc/phc.py`, `legume/phc/layer.py`,
`legume/utils.py:z_to_lind`

Numbers live in an arbitrary linearly ordered field `K` (floating point is idealised).
-/
namespace Legume

variable {K : Type} [Field K] [LinearOrder K]

/-- What a layer needs to know of a `Shape` (`legume/phc/shapes.py` 13-60): its
permittivity, its area and its `is_inside` predicate.  Simplification: the predicate is
pointwise (the numpy code is vectorised) and arbitrary. -/
structure Shape (K : Type) where
  eps : K
  area : K
  isInside : K × K → Bool

/-- What a layer needs to know of a `Lattice` (`legume/phc/lattice.py` 11-43).
`win` is the number `nmax` which `ShapesLayer.get_eps` (layer.py 195-199) derives from
the requested points; it is a parameter here because it involves a square root (the
real-number instance is in `Model/EpsMap.lean`). -/
structure Lat (K : Type) where
  a1 : K × K
  a2 : K × K
  ecArea : K
  win : List (K × K) → Nat

/-- `Layer.__init__` (layer.py 12-37) and `ShapesLayer.__init__` (82-110) attributes.
Simplification: `_eps_eff`, the lattice back-reference and the `layer_type` tag are left
out (every layer that can be constructed is a `ShapesLayer`). -/
structure Layer (K : Type) where
  zMin : K
  zMax : K
  zMid : K
  d : K
  epsB : K
  epsAvg : K
  shapes : List (Shape K)

/-- `ShapesLayer.__init__` (layer.py 82-110, 12-37). -/
def mkShapesLayer (zMin zMax epsB : K) : Layer K where
  zMin := zMin
  zMax := zMax
  zMid := (zMax + zMin) / 2
  d := zMax - zMin
  epsB := epsB
  epsAvg := epsB
  shapes := []

/-- Argument of `add_shape`: one `Shape`, an iterable whose elements are `Shape`s
(`some`) or other objects (`none`), or an object that is neither. -/
inductive ShapeArg (K : Type) where
  | single (s : Shape K)
  | many (l : List (Option (Shape K)))
  | notIterable

/-- Body of the loop in `ShapesLayer.add_shape` for a good element (layer.py 128-133). -/
def Layer.push (lat : Lat K) (l : Layer K) (s : Shape K) : Layer K :=
  { l with
    shapes := l.shapes ++ [s]
    epsAvg := l.epsAvg + (s.eps - l.epsB) * s.area / lat.ecArea }

/-- The loop of `ShapesLayer.add_shape` (layer.py 127-138): a bad element raises
`ValueError` after the earlier elements have been added. -/
def Layer.addShapeLoop (lat : Lat K) : Layer K → List (Option (Shape K)) → Layer K × PyRes
  | l, [] => (l, .ok ())
  | l, some s :: rest => Layer.addShapeLoop lat (l.push lat s) rest
  | l, none :: _ => (l, .error .valueError)

/-- `ShapesLayer.add_shape` (layer.py 120-138). A non-iterable argument makes the `for`
statement raise `TypeError`. -/
def Layer.addShape (lat : Lat K) (l : Layer K) : ShapeArg K → Layer K × PyRes
  | .single s => l.addShapeLoop lat [some s]
  | .many ss => l.addShapeLoop lat ss
  | .notIterable => (l, .error .typeError)

/-- `QuantumWellLayer.__init__` (layer.py 251-263). -/
structure QW (K : Type) where
  z : K
  vShapes : K
  a : K
  M : K
  E0 : K
  loss : K
  osc : List K

/-- `PhotCryst` attributes (phc.py 13-37): `claddings[0]`, `claddings[1]`, `layers`,
`qws`. -/
structure PhC (K : Type) where
  lat : Lat K
  clad0 : Layer K
  clad1 : Layer K
  layers : List (Layer K)
  qws : List (QW K)

/-- The literal `1e10` of phc.py 28-29. -/
def zInf : K := 10 ^ 10

/-- `PhotCryst.__init__` (phc.py 13-37). -/
def PhC.init (lat : Lat K) (epsL epsU : K) : PhC K where
  lat := lat
  clad0 := mkShapesLayer (-zInf) 0 epsL
  clad1 := mkShapesLayer 0 zInf epsU
  layers := []
  qws := []

/-- Bottom of the next layer (phc.py 76-79). -/
def PhC.nextZ (s : PhC K) : K :=
  match s.layers.getLast? with
  | none => 0
  | some l => l.zMax

/-- `PhotCryst.add_layer` (phc.py 59-89). `layer_type` 'freeform' raises `TypeError`
because `FreeformLayer.__init__` (layer.py 216) has no `eps_b` parameter. -/
def PhC.addLayer (s : PhC K) (d epsB : K) (layerType : String) : PhC K × PyRes :=
  let zMin := s.nextZ
  if layerType.toLower = "shapes" then
    let layer := mkShapesLayer zMin (zMin + d) epsB
    ({ s with clad1 := { s.clad1 with zMin := zMin + d }, layers := s.layers ++ [layer] },
      .ok ())
  else if layerType.toLower = "freeform" then (s, .error .typeError)
  else (s, .error .valueError)

/-- `PhotCryst.add_qw` (phc.py 91-122). -/
def PhC.addQW (s : PhC K) (q : QW K) : PhC K × PyRes :=
  if q.z ≤ s.clad0.zMax ∨ s.clad1.zMin ≤ q.z then (s, .error .valueError)
  else ({ s with qws := s.qws ++ [q] }, .ok ())

/-- The `cladding` argument of `add_shape`: `None`, an integer, or a string. -/
inductive CladArg where
  | none
  | int (n : Int)
  | str (s : String)

/-- `PhotCryst.add_shape` (phc.py 124-155). -/
def PhC.addShape (s : PhC K) (arg : ShapeArg K) (layer : Int) (cladding : CladArg) :
    PhC K × PyRes :=
  let lower : PhC K × PyRes :=
    let r := s.clad0.addShape s.lat arg
    ({ s with clad0 := r.1 }, r.2)
  let upper : PhC K × PyRes :=
    let r := s.clad1.addShape s.lat arg
    ({ s with clad1 := r.1 }, r.2)
  match cladding with
  | .int n =>
    if n = 0 then lower else if n = 1 then upper else (s, .error .valueError)
  | .str c =>
    if c = "l" then lower else if c = "u" then upper else (s, .error .valueError)
  | .none =>
    if (s.layers.length : Int) ≤ layer then (s, .error .valueError)
    else
      match pyIndex s.layers.length layer with
      | .error e => (s, .error e)
      | .ok i =>
        match s.layers[i]? with
        | none => (s, .error .indexError)
        | some l =>
          let r := l.addShape s.lat arg
          ({ s with layers := s.layers.set i r.1 }, r.2)

/-- One call of the structure-building API. -/
inductive Op (K : Type) where
  | addLayer (d epsB : K) (layerType : String)
  | addQW (q : QW K)
  | addShape (arg : ShapeArg K) (layer : Int) (cladding : CladArg)

/-- Effect and outcome of one call. -/
def PhC.step (s : PhC K) : Op K → PhC K × PyRes
  | .addLayer d e t => s.addLayer d e t
  | .addQW q => s.addQW q
  | .addShape a l c => s.addShape a l c

/-- A history of calls; a call that raises is caught by the user, who carries on with
the object as it was left. -/
def PhC.run (s : PhC K) (ops : List (Op K)) : PhC K :=
  ops.foldl (fun s op => (s.step op).1) s

/-! ### Permittivity maps -/

/-- The list `[-n, ..., n]` of `range(-nmax, nmax + 1)` (layer.py 202-203). -/
def symRange (n : Nat) : List Int :=
  (List.range (2 * n + 1)).map (fun (i : Nat) => (i : Int) - (n : Int))

/-- One assignment `eps_r[in_shape] = shape.eps` at one point (layer.py 204-206). -/
def epsAssign (lat : Lat K) (s : Shape K) (n1 n2 : Int) (p : K × K) (e : K) : K :=
  if s.isInside (p.1 + n1 * lat.a1.1 + n2 * lat.a2.1, p.2 + n1 * lat.a1.2 + n2 * lat.a2.2)
  then s.eps else e

/-- The three nested loops of `ShapesLayer.get_eps` at one point (layer.py 189, 201-206),
for a window `nmax`. -/
def Layer.epsAt (lat : Lat K) (l : Layer K) (nmax : Nat) (p : K × K) : K :=
  l.shapes.foldl (fun e s =>
    (symRange nmax).foldl (fun e n1 =>
      (symRange nmax).foldl (fun e n2 => epsAssign lat s n1 n2 p e) e) e) l.epsB

/-- `ShapesLayer.get_eps` (layer.py 180-208) on a list of points; the window depends on
all points of the call. -/
def Layer.getEps (lat : Lat K) (l : Layer K) (pts : List (K × K)) : List K :=
  pts.map (l.epsAt lat (lat.win pts))

/-- numpy boolean-mask assignment `old[mask] = vals` (flattened arrays). -/
def maskSet : List Bool → List K → List K → List K
  | true :: ms, v :: vs, _ :: os => v :: maskSet ms vs os
  | false :: ms, vs, o :: os => o :: maskSet ms vs os
  | _, _, os => os

/-- A point `(x, y, z)`. -/
structure Pt (K : Type) where
  x : K
  y : K
  z : K

/-- The mask of phc.py 182. -/
def Layer.inMask (l : Layer K) (p : Pt K) : Bool := decide (l.zMin ≤ p.z ∧ p.z < l.zMax)

/-- Body of the loop of `PhotCryst.get_eps` (phc.py 181-184). -/
def PhC.getEpsStep (lat : Lat K) (pts : List (Pt K)) (epsR : List K) (l : Layer K) : List K :=
  let sel := pts.filter l.inMask
  if sel.isEmpty then epsR
  else maskSet (pts.map l.inMask) (l.getEps lat (sel.map fun p => (p.x, p.y))) epsR

/-- `PhotCryst.get_eps` (phc.py 157-186). Simplification: the three meshes are given as
one list of points, so the shape check (173-174) does not arise. -/
def PhC.getEps (s : PhC K) (pts : List (Pt K)) : List K :=
  (s.layers ++ [s.clad0, s.clad1]).foldl (PhC.getEpsStep s.lat pts) (pts.map fun _ => 0)

/-- Inner loop of `get_eps_bounds` (phc.py 196-200). -/
def boundsStep (b : K × K) (l : Layer K) : K × K :=
  l.shapes.foldl (fun b s => (min b.1 s.eps, max b.2 s.eps)) (min b.1 l.epsB, max b.2 l.epsB)

/-- `PhotCryst.get_eps_bounds` (phc.py 188-202). -/
def PhC.getEpsBounds (s : PhC K) : K × K :=
  (s.layers ++ [s.clad0, s.clad1]).foldl boundsStep (s.clad0.epsB, s.clad0.epsB)

/-- The `while` loop of `z_to_lind` (utils.py 243-247). -/
def zToLindLoop (z : K) : K → Nat → List (Layer K) → K × Nat
  | zMax, lind, [] => (zMax, lind)
  | zMax, lind, l :: ls => if zMax < z then zToLindLoop z l.zMax (lind + 1) ls else (zMax, lind)

/-- `z_to_lind` (utils.py 237-250). -/
def zToLind (s : PhC K) (z : K) : Nat :=
  let r := zToLindLoop z s.clad0.zMax 0 s.layers
  if r.1 < z ∧ r.2 = s.layers.length then r.2 + 1 else r.2

end Legume
