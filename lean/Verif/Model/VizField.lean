import Verif.Model.FieldPlanes

/-!
# `viz.field`: `legume/viz.py` 1123-1320

Titles, colour maps and colour bars are left out. Grids have at least two points in each direction (`squeeze` drops axes of
length one).
-/
namespace Legume

/-- What `field` reads of a `GuidedModeExp` or `PlaneWaveExp` object for one mode: the lattice and the layers `(z_min, z_max)`,
`ft_field_xy` at a height by component, the plane waves, the wave vector, and `get_eps` at a point. A `PlaneWaveExp` object
ignores the height (pwe.py 312-371). -/
structure FieldSrc where
  isGme : Bool
  L : Lattice
  layers : List (ℝ × ℝ)
  ft : ℝ → Char → List ℂ
  gvec : List R2
  k : R2
  eps : ℝ → ℝ → ℝ → ℝ

/-- The plane shown. -/
inductive FPlane where
  | xy (z : ℝ)
  | yz (x : ℝ)
  | xz (y : ℝ)

/-- Choice of the plane (viz.py 1193-1256). -/
noncomputable def vizPlane (isGme : Bool) (x y z : Option ℝ) : Except PyErr FPlane :=
  match x, y, z with
  | none, none, none => if isGme then .error .valueError else .ok (.xy 0)
  | none, none, some z => .ok (.xy z)
  | some x, none, none => if isGme then .ok (.yz x) else .error .notImplementedError
  | none, some y, none => if isGme then .ok (.xz y) else .error .notImplementedError
  | _, _, _ => .error .valueError

/-- Sum of two one-dimensional arrays with broadcasting. -/
def addRows (a b : List ℂ) : Except PyErr (List ℂ) :=
  if a.length = b.length then .ok (List.zipWith (· + ·) a b)
  else if a.length = 1 then .ok (b.map (a.getD 0 0 + ·))
  else if b.length = 1 then .ok (a.map (· + b.getD 0 0))
  else .error .valueError

/-- `f *= kenv` for a two-dimensional `f` and a one-dimensional `kenv`: the last axis is multiplied. -/
def mulRows (f : List (List ℂ)) (kenv : List ℂ) : Except PyErr (List (List ℂ)) :=
  f.mapM fun row =>
    if row.length = kenv.length then .ok (List.zipWith (· * ·) row kenv)
    else if kenv.length = 1 then .ok (row.map (· * kenv.getD 0 0))
    else .error .valueError

/-- `kenv` (viz.py 1215-1217, 1234-1236, 1252-1254). -/
noncomputable def vizKenv (k : R2) (p : FPlane) (grid1 grid2 : List ℝ) : Except PyErr (List ℂ) :=
  match p with
  | .xy _ => (addRows (grid1.map fun (a : ℝ) => Complex.I * a * k.1) (grid2.map fun (b : ℝ) => Complex.I * b * k.2)).map
      fun s => s.map Complex.exp
  | .yz x => .ok (grid1.map fun (a : ℝ) => Complex.exp (Complex.I * a * k.2 + Complex.I * x * k.1))
  | .xz y => .ok (grid1.map fun (a : ℝ) => Complex.exp (Complex.I * a * k.1 + Complex.I * y * k.2))

/-- `kenv` when it is computed: `periodic=False` (viz.py 1215, 1234, 1252). -/
noncomputable def vizPhase (k : R2) (p : FPlane) (periodic : Bool) (grid1 grid2 : List ℝ) : Except PyErr (Option (List ℂ)) :=
  if periodic then .ok none else (vizKenv k p grid1 grid2).map some

/-- One panel: component, image, colour limits, extent, contours of the permittivity. -/
structure Panel where
  comp : Char
  Z : List (List ℝ)
  vmin : ℝ
  vmax : ℝ
  extent : ℝ × ℝ × ℝ × ℝ
  contour : Option (List (List ℝ))

/-- `max` of an array; of an empty one it raises ValueError. -/
noncomputable def arrMax (Z : List (List ℝ)) : Except PyErr ℝ :=
  match Z.flatten with
  | [] => .error .valueError
  | a :: l => .ok (l.foldl max a)

/-- Image and colour limits (viz.py 1271-1283). -/
noncomputable def vizValue (val : List Char) (f : List (List ℂ)) : Except PyErr (List (List ℝ) × ℝ × ℝ) :=
  if val = ['r', 'e'] ∨ val = ['i', 'm'] then do
    let Z := f.map fun row => row.map fun z => if val = ['r', 'e'] then z.re else z.im
    let vmax ← arrMax (Z.map fun row => row.map fun z => |z|)
    return (Z, -vmax, vmax)
  else if val = ['a', 'b', 's'] then do
    let Z := f.map fun row => row.map fun z => ‖z‖
    let vmax ← arrMax Z
    return (Z, 0, vmax)
  else .error .valueError

/-- `f *= kenv` unless `periodic` (viz.py 1263-1264). -/
def applyKenv (f : List (List ℂ)) : Option (List ℂ) → Except PyErr (List (List ℂ))
  | none => .ok f
  | some e => mulRows f e

/-- The loop over the components (viz.py 1260-1299). The arrays of the dictionary `fi` are multiplied in place. -/
noncomputable def vizPanels (kenv : Option (List ℂ)) (val : List Char) (extent : ℝ × ℝ × ℝ × ℝ)
    (contour : Option (List (List ℝ))) : List Char → List (Char × List (List ℂ)) → Except PyErr (List Panel)
  | [], _ => .ok []
  | c :: cs, fi => do
    let f := ((fi.find? fun p => p.1 = c).map Prod.snd).getD []
    let f ← applyKenv f kenv
    let (Z, vmin, vmax) ← vizValue val f
    let rest ← vizPanels kenv val extent contour cs (fi.map fun p => if p.1 = c then (c, f) else p)
    return ⟨c, Z, vmin, vmax, extent, contour⟩ :: rest

/-- The fields and the grids of the plane (viz.py 1197-1203, 1223-1229, 1242-1248). -/
noncomputable def vizData (S : FieldSrc) (p : FPlane) (cs : List Char) (N1 N2 : ℕ) :
    Except PyErr (List (Char × List (List ℂ)) × List ℝ × List ℝ) :=
  match p with
  | .xy z => getFieldXy S.L S.ft S.gvec z none none cs N1 N2
  | .yz x => getFieldYz S.L S.layers S.ft S.gvec x none none cs N1 N2 1
  | .xz y => getFieldXz S.L S.layers S.ft S.gvec y none none cs N1 N2 1

/-- Permittivity on the grids, one row per value of `grid2` (viz.py 1204-1211, 1230-1232, 1249-1251). -/
def vizEps (S : FieldSrc) (p : FPlane) (grid1 grid2 : List ℝ) : List (List ℝ) :=
  grid2.map fun b => grid1.map fun a =>
    match p with
    | .xy z => S.eps a b z
    | .yz x => S.eps x a b
    | .xz y => S.eps a y b

/-- `field` (viz.py 1123-1320). Without components `plt.subplots(1, 0)` raises ValueError. -/
noncomputable def vizField (S : FieldSrc) (x y z : Option ℝ) (periodic : Bool) (component val : String) (N1 N2 : ℕ)
    (eps : Bool) : Except PyErr (List Panel) := do
  let p ← vizPlane S.isGme x y z
  let cs := pyLower component
  let (fi, grid1, grid2) ← vizData S p cs N1 N2
  let contour := if eps then some (vizEps S p grid1 grid2) else none
  let kenv ← vizPhase S.k p periodic grid1 grid2
  if cs = [] then .error .valueError
  else vizPanels kenv (pyLower val) (grid1.headD 0, grid1.getLastD 0, grid2.headD 0, grid2.getLastD 0) contour cs fi

end Legume
