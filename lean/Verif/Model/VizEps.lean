import Verif.Model.VizField
import Verif.Model.EpsPlot
import Verif.Model.ExcWave

/-!
# Images of the permittivity: `legume/viz.py` 355-627, 672-1108

Colour maps, colour bars and sizes of figures are left out. Grids have at least one point in each direction. A grid of zero
panels raises ValueError (`GridSpec` of matplotlib).
-/
namespace Legume

/-- The points of `np.meshgrid(us, vs)` in the order of memory: one row for each entry of `vs`. -/
def meshPts {α : Type} (us vs : List ℝ) (f : ℝ → ℝ → α) : List α := vs.flatMap fun v => us.map fun u => f u v

/-- An array with `R` rows and `C` columns from its entries in the order of memory. -/
def unflat (R C : ℕ) (vals : List ℝ) : List (List ℝ) :=
  (List.range R).map fun (r : ℕ) => (List.range C).map fun (c : ℕ) => vals.getD (r * C + c) 0

/-- An image: rows from bottom to top, extent in both directions. -/
structure EpsImage where
  Z : List (List ℝ)
  extent : ℝ × ℝ × ℝ × ℝ

/-- `extent` (viz.py 423, 482, 549, 616). -/
def gridExtent (us vs : List ℝ) : ℝ × ℝ × ℝ × ℝ := (us.headD 0, us.getLastD 0, vs.headD 0, vs.getLastD 0)

/-- `eps` (viz.py 395-425). -/
noncomputable def vizEpsLayer (L : Lattice) (l : Layer ℝ) (Nx Ny : ℕ) : Except PyErr EpsImage := do
  let (xs, ys) ← L.xyGrid Nx Ny .none
  return ⟨unflat ys.length xs.length (l.getEps L.toLat (meshPts xs ys fun x y => (x, y))), gridExtent xs ys⟩

/-- `eps_xz` (viz.py 428-493); `xy_grid` makes 100 points in `y`, `z_grid` leaves a distance of 1. -/
noncomputable def vizEpsXz (L : Lattice) (s : PhC ℝ) (y : ℝ) (Nx Nz : ℕ) : Except PyErr EpsImage := do
  let xs ← (L.xyGrid Nx 100 .none).map Prod.fst
  let zs ← zGrid (s.layers.map fun l => (l.zMin, l.zMax)) Nz 1
  return ⟨unflat zs.length xs.length (s.getEps (meshPts xs zs fun x z => ⟨x, y, z⟩)), gridExtent xs zs⟩

/-- `eps_xy` (viz.py 496-560). -/
noncomputable def vizEpsXy (L : Lattice) (s : PhC ℝ) (z : ℝ) (Nx Ny : ℕ) : Except PyErr EpsImage := do
  let (xs, ys) ← L.xyGrid Nx Ny .none
  return ⟨unflat ys.length xs.length (s.getEps (meshPts xs ys fun x y => ⟨x, y, z⟩)), gridExtent xs ys⟩

/-- `eps_yz` (viz.py 563-627). -/
noncomputable def vizEpsYz (L : Lattice) (s : PhC ℝ) (x : ℝ) (Ny Nz : ℕ) : Except PyErr EpsImage := do
  let ys ← (L.xyGrid 100 Ny .none).map Prod.snd
  let zs ← zGrid (s.layers.map fun l => (l.zMin, l.zMax)) Nz 1
  return ⟨unflat zs.length ys.length (s.getEps (meshPts ys zs fun y z => ⟨x, y, z⟩)), gridExtent ys zs⟩

/-- Titles of panels: the two vertical planes, "xy in layer n", and the claddings. -/
inductive PanelTitle where
  | xz
  | yz
  | layer (n : ℕ)
  | lower
  | upper
  deriving DecidableEq

/-- A panel: title, image, colour limits, and heights of the lines which mark quantum wells. -/
structure EpsPanel where
  title : PanelTitle
  image : EpsImage
  clim : ℝ × ℝ
  wells : List ℝ

/-- What `structure` and `eps_ft` accept. -/
inductive VizStruct where
  | gme
  | pwe
  | phc
  | pol
  | other
  deriving DecidableEq

/-- `all_layers` (viz.py 743-746, 912-921). -/
def allLayers (s : PhC ℝ) (cladding : Bool) : List (Layer ℝ) :=
  if cladding then [s.clad0] ++ s.layers ++ [s.clad1] else s.layers

/-- Title of panel `i` of `n` (viz.py 846-853, 978-985). A panel which is both the first and the last is given the title of
the upper cladding last. -/
def layerTitle (cladding : Bool) (n i : ℕ) : PanelTitle :=
  if cladding then
    if 0 < i ∧ i < n - 1 then .layer i else if i = n - 1 then .upper else .lower
  else .layer i

/-- The check of `gridspec` and `fig` (viz.py 773-794). -/
def figCheck (gridspec fig : Bool) : Except PyErr Unit :=
  if gridspec == fig then .ok () else .error .valueError

/-- The first plane of `structure` (viz.py 797-811). -/
noncomputable def structXz (L : Lattice) (s : PhC ℝ) (wells : List ℝ) (Nx Nz : ℕ) (xz : Bool) : Except PyErr (List EpsPanel) :=
  if xz then (vizEpsXz L s 0 Nx Nz).map fun im => [⟨.xz, im, s.getEpsBounds, wells⟩] else .ok []

/-- The second plane of `structure` (viz.py 813-827). -/
noncomputable def structYz (L : Lattice) (s : PhC ℝ) (wells : List ℝ) (Ny Nz : ℕ) (yz : Bool) : Except PyErr (List EpsPanel) :=
  if yz then (vizEpsYz L s 0 Ny Nz).map fun im => [⟨.yz, im, s.getEpsBounds, wells⟩] else .ok []

/-- The loop over layers of `structure` (viz.py 829-853). -/
noncomputable def structXy (L : Lattice) (s : PhC ℝ) (Nx Ny : ℕ) (cladding xy : Bool) : Except PyErr (List EpsPanel) :=
  let all := allLayers s cladding
  if xy then all.zipIdx.mapM fun li => (vizEpsXy L s ((li.1.zMax + li.1.zMin) / 2) Nx Ny).map fun im =>
    ⟨layerTitle cladding all.length li.2, im, s.getEpsBounds, []⟩
  else .ok []

/-- The kinds of object and the heights of the wells shown (viz.py 728-739). -/
def structWells (kind : VizStruct) (s : PhC ℝ) : Except PyErr (List ℝ) :=
  match kind with
  | .gme => .ok []
  | .phc => .ok (s.qws.map QW.z)
  | .pol => .ok (s.qws.map QW.z)
  | .pwe => .error .valueError
  | .other => .error .valueError

/-- `structure` (viz.py 672-853). `gridspec` and `fig` tell whether these arguments are given. A `GuidedModeExp` object shows
no wells; the `exc_list` of a `HopfieldPol` object has the heights of `phc.qws`. -/
noncomputable def vizStructure (kind : VizStruct) (L : Lattice) (s : PhC ℝ) (Nx Ny Nz : ℕ) (cladding gridspec fig xy xz yz : Bool) :
    Except PyErr (List EpsPanel) := do
  let wells ← structWells kind s
  if (allLayers s cladding).isEmpty then .error .indexError
  else do
    let _ ← zGrid (s.layers.map fun l => (l.zMin, l.zMax)) 2 1
    figCheck gridspec fig
    if !xy && !xz && !yz then .error .valueError
    else do
      let p ← structXz L s wells Nx Nz xz
      let q ← structYz L s wells Ny Nz yz
      let r ← structXy L s Nx Ny cladding xy
      return p ++ q ++ r

/-- `np.amin` of an array; of an empty one it raises ValueError. -/
noncomputable def arrMin (Z : List (List ℝ)) : Except PyErr ℝ :=
  match Z.flatten with
  | [] => .error .valueError
  | a :: l => .ok (l.foldl min a)

/-- A panel of `eps_ft`; the colour limits are common to all. -/
structure FtPanel where
  title : PanelTitle
  image : EpsImage

/-- The check of `gridspec` and `fig` of `eps_ft` and `pot_ft` (viz.py 940-957, 1066-1083), which use an undefined name. -/
def ftFigCheck (gridspec fig : Bool) : Except PyErr Unit :=
  if !gridspec && !fig then .ok () else if gridspec && fig then .error .nameError else .error .valueError

/-- Common colour limits (viz.py 959, 967-968). -/
noncomputable def ftLimits (epsB : ℝ) (ps : List FtPanel) : Except PyErr (ℝ × ℝ) :=
  ps.foldlM (fun b p => do
    let lo ← arrMin p.image.Z
    let hi ← arrMax p.image.Z
    return (min b.1 lo, max b.2 hi)) (epsB, epsB)

/-- The loop of `eps_ft` (viz.py 959-988) for layers given by `(z_mid, eps_b)`. -/
noncomputable def ftLoop (L : Lattice) (get : ℝ → List ℝ → List ℝ → Except PyErr (List (List ℂ))) (all : List (ℝ × ℝ))
    (Nx Ny : ℕ) (cladding gridspec fig : Bool) : Except PyErr (List FtPanel × ℝ × ℝ) :=
  match all with
  | [] => .error .indexError
  | l0 :: _ => do
    ftFigCheck gridspec fig
    let ps ← all.zipIdx.mapM fun li => do
      let (xs, ys) ← L.xyGrid Nx Ny .none
      let E ← get li.1.1 xs ys
      return (⟨layerTitle cladding all.length li.2, E.map fun row => row.map Complex.re, gridExtent xs ys⟩ : FtPanel)
    let b ← ftLimits l0.2 ps
    return (ps, b)

/-- `eps_ft` (viz.py 856-988) of a `GuidedModeExp` object. -/
noncomputable def vizEpsFtGme (abs : Bool) (L : Lattice) (s : PhC ℝ) (S : GmeStruct) (gmax : ℝ) (Nx Ny : ℕ)
    (cladding gridspec fig : Bool) : Except PyErr (List FtPanel × ℝ × ℝ) :=
  ftLoop L (gmeEpsXy abs s S gmax) ((allLayers s cladding).map fun l => (l.zMid, l.epsB)) Nx Ny cladding gridspec fig

/-- `eps_ft` (viz.py 856-988) of a `PlaneWaveExp` object with a layer of centre `zmid`. The title of the one panel follows
`cladding`. -/
noncomputable def vizEpsFtPwe (L : Lattice) (P : PweLayer) (gmax zmid : ℝ) (Nx Ny : ℕ)
    (cladding gridspec fig : Bool) : Except PyErr (List FtPanel × ℝ × ℝ) :=
  ftLoop L (fun _ xs ys => .ok (pweEpsXy P gmax xs ys)) [(zmid, P.epsB)] Nx Ny cladding gridspec fig

/-- `pot_ft` (viz.py 991-1108): image and colour limits. -/
noncomputable def vizPotFt (L : Lattice) (W : ExcWell) (t : TruncG) (gmax : ℝ) (Nx Ny : ℕ) (gridspec fig : Bool) :
    Except PyErr (EpsImage × ℝ × ℝ) := do
  ftFigCheck gridspec fig
  let (xs, ys) ← L.xyGrid Nx Ny .none
  let E ← excPotXY W t gmax xs ys
  return (⟨E.map fun row => row.map Complex.re, gridExtent xs ys⟩, 0, |W.V|)

end Legume
