import Verif.Model.Py
import Mathlib.Algebra.Field.Basic
import Mathlib.Data.List.Basic

/-!
# Effective permittivities set by hand, and the base classes

`phc/layer.py` `Layer.__init__` 13-37, `eps_eff` 42-52, the methods of the base class 54-74, `FreeformLayer` 216-248;
`phc/shapes.py` `Shape.__init__` 11-16 and its methods 38-61; `phc/phc.py` `add_layer` 59-89; `gme/gme.py` `run` 905-927;
`pwe/pwe.py` `__init__` 11-36.

Simplifications: of a layer only `_eps_eff` is kept, with the thickness and the shapes left out; a layer is addressed by its
number, so that a number without a layer raises `IndexError` (`phc.layers[n]`).
-/
namespace Legume

/-- A region of a structure as the user addresses it. -/
inductive EffRegion where
  | lower
  | layer (n : ℕ)
  | upper
  deriving DecidableEq, Repr

/-- The value of `_eps_eff` of both claddings and of the layers. -/
structure EffState (K : Type) where
  lower : Option K
  layers : List (Option K)
  upper : Option K
  deriving DecidableEq

/-- Calls: a new layer, shapes for a region, and assignments to `eps_eff` of a region, where `none` is Python's `None`. -/
inductive EffOp (K : Type) where
  | addLayer
  | addShape (r : EffRegion)
  | set (r : EffRegion) (x : Option K)

section
variable {K : Type}

/-- `PhotCryst.__init__`: both claddings are new (layer.py 34). -/
def EffState.init : EffState K := ⟨none, [], none⟩

/-- One call. -/
def EffState.step (s : EffState K) : EffOp K → EffState K × PyRes
  | .addLayer => ({ s with layers := s.layers ++ [none] }, .ok ())
  | .addShape (.layer n) => (s, if n < s.layers.length then .ok () else .error .valueError)
  | .addShape _ => (s, .ok ())
  | .set .lower x => ({ s with lower := x }, .ok ())
  | .set .upper x => ({ s with upper := x }, .ok ())
  | .set (.layer n) x =>
    if n < s.layers.length then ({ s with layers := s.layers.set n x }, .ok ()) else (s, .error .indexError)

/-- A sequence of calls; errors are caught. -/
def EffState.exec (s : EffState K) (ops : List (EffOp K)) : EffState K := ops.foldl (fun s o => (s.step o).1) s

/-- `layer.eps_eff` (layer.py 42-48). -/
def readEff (x : Option K) : Except PyErr K :=
  match x with
  | none => .error .valueError
  | some e => .ok e

/-- `layer.eps_eff` of a region. -/
def EffState.get (s : EffState K) : EffRegion → Except PyErr K
  | .lower => readEff s.lower
  | .upper => readEff s.upper
  | .layer n => match s.layers[n]? with
    | none => .error .indexError
    | some x => readEff x

/-- `eps_array` with `eps_eff='custom'` (gme.py 910-922). -/
def EffState.array (s : EffState K) : Except PyErr (List K) := ([s.lower] ++ s.layers ++ [s.upper]).mapM readEff

/-- The classes of layers. -/
inductive LayerClass where
  | base | shapes | freeform
  deriving DecidableEq, Repr

/-- Calling a class of layers with a lattice and two heights: evaluating the undefined name `eps_b` raises `NameError`
(layer.py 217). -/
def LayerClass.construct : LayerClass → PyRes
  | .freeform => .error .nameError
  | _ => .ok ()

/-- `compute_ft`, `compute_exc_ft` and `get_eps` (layer.py 54-74, 140, 159, 181, 235-248). -/
inductive LayerMethod where
  | computeFt | computeExcFt | getEps
  deriving DecidableEq, Repr

/-- Calling a method of an object; what `ShapesLayer` returns is modelled elsewhere. -/
def LayerClass.call : LayerClass → LayerMethod → PyRes
  | .shapes, _ => .ok ()
  | _, _ => .error .notImplementedError

/-- `PlaneWaveExp.__init__` (pwe.py 24-36) for an object of a class and the argument `eps_eff` (`none`: left out); a zero is
replaced as well, because it is false. The base class has no attribute `eps_b`. Returns the attribute `eps_eff`. -/
def pweInit [Zero K] [DecidableEq K] (cls : LayerClass) (epsB : K) (epsEff : Option K) : Except PyErr K := do
  let given := match epsEff with
    | some e => if e = 0 then none else some e
    | none => none
  let eff ← match given with
    | some e => .ok e
    | none => if cls = .shapes then .ok epsB else .error .attributeError
  cls.call .computeFt
  return eff

/-- The classes of shapes with what `compute_ft` does at the zero vector. -/
inductive ShapeClass (K : Type) where
  | base
  | drawn (ft0 : K)

/-- `Shape.__init__` (shapes.py 11-16): the area is the transform at the zero vector; the base class has none. -/
def ShapeClass.construct : ShapeClass K → Except PyErr K
  | .base => .error .notImplementedError
  | .drawn ft0 => .ok ft0

end

end Legume
