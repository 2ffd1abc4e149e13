import Verif.Model.GmeFields
import Verif.Model.Pwe
import Verif.Model.Utils
import Verif.Model.BzAxis
import Verif.Model.Shapes

/-!
# Fields of the guided-mode expansion in planes: `get_field_xy`, `get_field_xz`, `get_field_yz` (gme.py 2126-2350)
-/
namespace Legume

/-- Amplitudes of a state in layer `j`. -/
def GmeState.layAt (s : GmeState) (j : ℕ) : ModeL := s.layers.getD j ⟨0, 0, 0⟩

/-- The basis with the eigenvector `u` as `ft_field_xy` uses it in layer `j` (gme.py 1958-1976): plane wave, entry of
the eigenvector, state and amplitudes in the layer. -/
def fieldStates {n : ℕ} (b : Fin n → ℕ × GmeState) (u : Fin n → ℂ) (j : ℕ) : List FieldState :=
  List.ofFn fun i => ⟨(b i).1, u i, (b i).2, (b i).2.layAt j⟩

/-- One component of a field with `N` plane waves at one point (gme.py 2186-2190): `ftinv` of the Fourier
components. -/
noncomputable def fieldAt (N : ℕ) (F : ℕ → Fin 3 → ℂ) (gvec : ℕ → R2) (x y : ℝ) (c : Fin 3) : ℂ :=
  ftinvAt ((List.range N).map fun (G : ℕ) => (F G c, gvec G)) x y

/-- Magnetic field of the mode with eigenvector `u` in layer `j` at the point `(x, y, z)` as `get_field_xy(field='H')`
returns it (gme.py 1977-2041, 2186-2190). -/
noncomputable def hField {n : ℕ} (area : ℝ) (stack : List (LPos × ℝ)) (N : ℕ) (gvec : ℕ → R2)
    (b : Fin n → ℕ × GmeState) (u : Fin n → ℂ) (j : ℕ) (z x y : ℝ) (c : Fin 3) : ℂ :=
  fieldAt N (fun G c => hFt area (stack.getD j (.upper, 0)).1 (fieldStates b u j) G z c) gvec x y c

/-- The displacement, `get_field_xy(field='D')` (gme.py 2043-2116, 2186-2190). -/
noncomputable def dField {n : ℕ} (area omega : ℝ) (stack : List (LPos × ℝ)) (N : ℕ) (gvec : ℕ → R2)
    (b : Fin n → ℕ × GmeState) (u : Fin n → ℂ) (j : ℕ) (z x y : ℝ) (c : Fin 3) : ℂ :=
  fieldAt N (fun G c => dFt area omega (stack.getD j (.upper, 0)).1 (stack.getD j (.upper, 0)).2
    (fieldStates b u j) G z c) gvec x y c

/-- The electric field, `get_field_xy(field='E')` (gme.py 2118-2124, 2186-2190). -/
noncomputable def eField {n : ℕ} (area omega : ℝ) (stack : List (LPos × ℝ)) (einv : List (ℕ → ℕ → ℂ)) (N : ℕ)
    (gvec : ℕ → R2) (b : Fin n → ℕ × GmeState) (u : Fin n → ℂ) (j : ℕ) (z x y : ℝ) (c : Fin 3) : ℂ :=
  fieldAt N (eFt N (einv.getD j fun _ _ => 0) fun G c => dFt area omega (stack.getD j (.upper, 0)).1
    (stack.getD j (.upper, 0)).2 (fieldStates b u j) G z c) gvec x y c

/-- Coefficients paired with `gvec` (utils.py 96-118). -/
def withG (gvec : List R2) (cs : List ℂ) : List (ℂ × R2) := cs.zip gvec

/-- `get_field_xy` (gme.py 2126-2194); `ft z c` are the Fourier coefficients that `ft_field_xy` returns for component
`c` at height `z`. A grid that is not given is taken from `xy_grid`. -/
noncomputable def getFieldXy (L : Lattice) (ft : ℝ → Char → List ℂ) (gvec : List R2) (z : ℝ)
    (xgrid ygrid : Option (List ℝ)) (component : List Char) (nx ny : ℕ) :
    Except PyErr (List (Char × List (List ℂ)) × List ℝ × List ℝ) := do
  let (xs, ys) ← match xgrid, ygrid with
    | some a, some b => Except.ok (a, b)
    | _, _ => (L.xyGrid nx ny .none).map fun gr => (xgrid.getD gr.1, ygrid.getD gr.2)
  let fi ← fieldComponents (ft z) (fun cs => ftinv (withG gvec cs) xs ys) component []
  return (fi, xs, ys)

/-- `if grid is None: grid = default` (gme.py 2235-2239). -/
def gridOr (grid : Option (List ℝ)) (default : Except PyErr (List ℝ)) : Except PyErr (List ℝ) :=
  match grid with
  | some a => .ok a
  | none => default

/-- `get_field_xz` (gme.py 2196-2272): one row per height, `ravel` of the `1 × Nx` array. -/
noncomputable def getFieldXz (L : Lattice) (layers : List (ℝ × ℝ)) (ft : ℝ → Char → List ℂ) (gvec : List R2) (y : ℝ)
    (xgrid zgrid : Option (List ℝ)) (component : List Char) (nx nz : ℕ) (dist : ℝ) :
    Except PyErr (List (Char × List (List ℂ)) × List ℝ × List ℝ) := do
  let xs ← gridOr xgrid ((L.xyGrid nx 2 .none).map Prod.fst)
  let zs ← gridOr zgrid (zGrid layers nz dist)
  let fi ← fieldComponents (fun c => zs.map fun z => ft z c)
    (fun rows => rows.map fun cs => (ftinv (withG gvec cs) xs [y]).flatten) component []
  return (fi, xs, zs)

/-- `get_field_yz` (gme.py 2274-2350): one row per height, `ravel` of the `Ny × 1` array. -/
noncomputable def getFieldYz (L : Lattice) (layers : List (ℝ × ℝ)) (ft : ℝ → Char → List ℂ) (gvec : List R2) (x : ℝ)
    (ygrid zgrid : Option (List ℝ)) (component : List Char) (ny nz : ℕ) (dist : ℝ) :
    Except PyErr (List (Char × List (List ℂ)) × List ℝ × List ℝ) := do
  let ys ← gridOr ygrid ((L.xyGrid 2 ny .none).map Prod.snd)
  let zs ← gridOr zgrid (zGrid layers nz dist)
  let fi ← fieldComponents (fun c => zs.map fun z => ft z c)
    (fun rows => rows.map fun cs => (ftinv (withG gvec cs) [x] ys).flatten) component []
  return (fi, ys, zs)

end Legume
