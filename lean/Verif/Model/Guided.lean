import Mathlib.Data.List.Sort
import Mathlib.Analysis.SpecialFunctions.Sqrt
import Verif.Model.Py
import Verif.Model.Primitives

/-!
# Guided-mode bookkeeping of `GuidedModeExp`

`gme/gme.py` `_get_guided` 284-329, `_compute_guided` 356-401, `_construct_mat` 523-571, `run` 959-968.

`guided_modes` is represented by its result: one list of modes per wave vector of the grid.
-/
namespace Legume

section
variable {K : Type} [Field K] [LinearOrder K]

/-- `g_array -= delta_gabs; g_array[-1] += delta_gabs` (gme.py 365-366). -/
def gridShift (delta : K) (s : List K) : List K :=
  s.dropLast.map (· - delta) ++ s.getLast?.toList.map fun x => x - delta + delta

/-- Grid of `gmode_compute='exact'` (gme.py 535-536). -/
def gridExact (delta : K) (gk : List K) : List K := gridShift delta (gk.insertionSort (· ≤ ·))

/-- `linspace(0, b, npts)`, for `npts` at least 2 (gme.py 967). -/
def gridLin (b : K) (npts : ℕ) : List K := (List.range npts).map fun (i : ℕ) => b * i / ((npts - 1 : ℕ) : K)

/-- `reshape_list` (gme.py 370-371): `zip_longest` pads the lists of modes with `None`, `filter` removes the
padding; one list per mode order. -/
def reshapeList {α : Type} (x : List (List α)) : List (List α) :=
  (List.range ((x.map List.length).foldl max 0)).map fun (m : ℕ) => x.filterMap fun l => l[m]?

/-- `self.g_array[ik][-len(om):]` (gme.py 303); a slice `[-0:]` is the whole list. -/
def gsOf {α : Type} (g : List K) (om : List α) : List K :=
  if om.length = 0 then g else g.drop (g.length - om.length)

/-- `np.argwhere(gk > gs0 - 1e-10)` (gme.py 304). -/
def indMode (gk : List K) (gs0 : K) : List ℕ :=
  (List.range gk.length).filter fun i => decide (gs0 - 1e-10 < gk.getD i 0)

/-- `interp_guided` (gme.py 298-317) for the frequencies of mode order `im`: positions in `gk` and
interpolated frequencies. -/
def getGuided (gk g : List K) (omegas : List (List K)) (im : ℕ) : Except PyErr (List ℕ × List K) :=
  match omegas[im]? with
  | none => .error .indexError
  | some om =>
    match gsOf g om with
    | [] => .error .indexError
    | gs0 :: gs =>
      let ind := indMode gk gs0
      .ok (ind, ind.map fun (i : ℕ) => npInterp (gs0 :: gs) om (gk.getD i 0))

/-- `gmode_include` (gme.py 554-569): `nTE`, `nTM` are the numbers of mode orders that were found. -/
def gmodeInclude (gmodeInds : List ℕ) (nTE nTM : ℕ) : Except PyErr (List ℕ) :=
  let l := gmodeInds.filter fun mode => (mode % 2 = 0 ∧ mode / 2 < nTE) ∨ (mode % 2 = 1 ∧ mode / 2 < nTM)
  if l = [] then .error .runtimeError else .ok l

end

/-- `gk` (gme.py 528-530) for one plane wave. -/
noncomputable def gkNorm (deltaGx : ℝ) (k g : ℝ × ℝ) : ℝ := √((g.1 + k.1 + deltaGx) ^ 2 + (g.2 + k.2) ^ 2)

/-- `Gmax + kmax` (gme.py 961-967). -/
noncomputable def gridMax (kpoints gvec : List (ℝ × ℝ)) : ℝ :=
  (gvec.map fun g => √(g.1 ^ 2 + g.2 ^ 2)).foldl max 0 + (kpoints.map fun k => √(k.1 ^ 2 + k.2 ^ 2)).foldl max 0

end Legume
