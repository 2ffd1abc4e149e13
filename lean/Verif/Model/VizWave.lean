import Verif.Model.Results
import Verif.Model.VizField

/-!
# `viz.wavef` (viz.py 1323-1391), `viz.reciprocal` (viz.py 1111-1120) and `get_wavef_xy` (exc.py 440-475) on a grid

Colour maps and colour bars are left out, and of the title the part shown and the energy are kept.
-/
namespace Legume

/-- What `wavef` reads of an `ExcitonSchroedEq` object: the lattice of its layer, the plane waves, and the energies and
eigenvectors stored, for each wave vector one per mode. -/
structure WaveSrc where
  L : Lattice
  gvec : List R2
  nmode : ℕ
  eners : List (List ℂ)
  vecs : List (List (List ℂ))

/-- `get_wavef_xy` (exc.py 440-475): `_eigvecs[kind, :, mind]` is indexed as an array is, from either end. -/
noncomputable def getWavefXy (S : WaveSrc) (kind mind : ℤ) (nx ny : ℕ) :
    Except PyErr (List (List ℂ) × List ℝ × List ℝ) := do
  let (xs, ys) ← S.L.xyGrid nx ny .none
  let ik ← pyIndex S.vecs.length kind
  let im ← pyIndex S.nmode mind
  let c := (S.vecs.getD ik []).getD im []
  return (ftinv (c.zip S.gvec) xs ys, xs, ys)

/-- Image and colour limits (viz.py 1354-1366). -/
noncomputable def waveValue (val : List Char) (f : List (List ℂ)) : Except PyErr (List (List ℝ) × ℝ × ℝ) :=
  if val = ['r', 'e'] ∨ val = ['i', 'm'] then do
    let Z := f.map fun row => row.map fun z => if val = ['r', 'e'] then z.re else z.im
    let vmax ← arrMax (Z.map fun row => row.map fun z => |z|)
    return (Z, -vmax, vmax)
  else if val = ['a', 'b', 's', '2'] then do
    let Z := f.map fun row => row.map fun z => ‖z‖ ^ 2
    let vmax ← arrMax Z
    return (Z, 0, vmax)
  else .error .valueError

/-- The image of a wave function: pixels, colour limits, extent, and the energy of the title. -/
structure WavefImage where
  Z : List (List ℝ)
  vmin : ℝ
  vmax : ℝ
  extent : ℝ × ℝ × ℝ × ℝ
  energy : ℝ

/-- `wavef` (viz.py 1323-1391); `isExc` tells whether the object is an `ExcitonSchroedEq`. An empty grid has no first point. -/
noncomputable def vizWavef (isExc : Bool) (S : WaveSrc) (kind mind : ℤ) (val : String) (n1 n2 : ℕ) : Except PyErr WavefImage :=
  if isExc then do
    let (f, g1, g2) ← getWavefXy S kind mind n1 n2
    if g1 = [] ∨ g2 = [] then .error .indexError
    else do
      let (Z, vmin, vmax) ← waveValue (pyLower val) f
      let ik ← pyIndex S.eners.length kind
      let im ← pyIndex S.nmode mind
      return ⟨Z, vmin, vmax, (g1.headD 0, g1.getLastD 0, g2.headD 0, g2.getLastD 0), ((S.eners.getD ik []).getD im 0).re⟩
  else .error .valueError

/-- The points plotted by `reciprocal` (viz.py 1111-1120). -/
def vizReciprocal {F V : Type*} (o : ResObj F V) : Except PyErr (List R2) := readAttr o.gvec

end Legume
