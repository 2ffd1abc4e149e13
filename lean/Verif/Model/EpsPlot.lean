import Verif.Model.GmeSim
import Verif.Model.Structure
import Verif.Model.Utils

/-!
# `get_eps_xy`: the permittivity that the solvers use, on a grid of points

`pwe/pwe.py` 200-232, `gme/gme.py` 1859-1912. The grid is an argument (`xy_grid` of the lattice is modelled in
`Model/Lattice.lean`).
-/
namespace Legume

open Real

/-- `G1` at position `k` (pwe.py 117, gme.py 409). -/
noncomputable def g1At (gs : List R2) (k : ℕ) : R2 :=
  ((gs.getD 0 0).1 - (gs.getD k 0).1, (gs.getD 0 0).2 - (gs.getD k 0).2)

/-- `G2` at position `k` (pwe.py 118-122, gme.py 410-419). -/
noncomputable def g2At (gs : List R2) (n2g : ℕ) (k : ℕ) : R2 :=
  ((gs.getD (k % n2g) 0).1 - (gs.getD (k / n2g * n2g) 0).1,
   (gs.getD (k % n2g) 0).2 - (gs.getD (k / n2g * n2g) 0).2)

/-- Coefficients and vectors of the 'tbt' branch (pwe.py 227-229, gme.py 1900-1904) for stored `T1`, `T2`. -/
noncomputable def tbtPlotData (t1 t2 : ℕ → ℂ) (gs : List R2) (n2g : ℕ) : List (ℂ × R2) :=
  epsXyTbt ((List.range gs.length).map fun (k : ℕ) => (t1 k, g1At gs k))
    ((List.range gs.length).map fun (k : ℕ) => (t2 k, g2At gs n2g k))

/-- `PlaneWaveExp.get_eps_xy` (pwe.py 200-232). -/
noncomputable def pweEpsXy (L : PweLayer) (gmax : ℝ) (xgrid ygrid : List ℝ) : List (List ℂ) :=
  ftinv (tbtPlotData (T1raw L.ft (L.gvec gmax)) (T2raw L.ft (L.gvec gmax) (2 * L.n2 gmax + 1)) (L.gvec gmax)
    (2 * L.n2 gmax + 1)) xgrid ygrid

/-- `GuidedModeExp.get_eps_xy` (gme.py 1859-1912). `s` is the structure as far as `z_to_lind` reads it, `S` the same
structure as far as the transform reads it; a position past the end of the stored lists raises `IndexError`. Other
values of `truncate_g` are rejected by the constructor. -/
noncomputable def gmeEpsXy (abs : Bool) (s : PhC ℝ) (S : GmeStruct) (gmax z : ℝ) (xgrid ygrid : List ℝ) :
    Except PyErr (List (List ℂ)) :=
  match S.layers[zToLind s z]? with
  | none => .error .indexError
  | some l =>
    .ok (ftinv
      (if abs then
        let U := absUnique (absInds S.b1 S.b2 gmax)
        (epsUniq (S.ft l) S.b1 S.b2 U).zip (U.map (gOf S.b1 S.b2))
      else
        let gs := gvecTbt S.b1 S.b2 gmax
        let n2g := 2 * nmaxOf (2 * π) gmax S.b2 + 1
        tbtPlotData (T1tbt (S.ft l) gs) (T2tbt (S.ft l) gs n2g) gs n2g) xgrid ygrid)

end Legume
