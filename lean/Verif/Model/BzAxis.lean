import Mathlib.Analysis.SpecialFunctions.Complex.Arg
import Verif.Model.Lattice
import Verif.Model.Plot

/-!
# The remaining outputs of `bz_path` and the visualisation grids

`lattice.py` `xy_grid` 73-107, `bz_path` 160-179; `phc.py` `z_grid` 49-57.  All numbers are exact reals.
-/
namespace Legume

open Real

/-- `np.angle(z, deg=True)`. -/
noncomputable def angleDeg (p : ℝ × ℝ) : ℝ := Complex.arg ⟨p.1, p.2⟩ * 180 / π

open Classical in
/-- `'angles'` of `bz_path` (lattice.py 160-170), `symm` being the resolved `symm_g`. -/
noncomputable def bzAngles (kpoints : List (ℝ × ℝ)) (symm : ℝ × ℝ) : List ℝ :=
  kpoints.map fun k => if k.1 = 0 ∧ k.2 = 0 then angleDeg symm else angleDeg k

open Classical in
/-- `ks` of `bz_path` (lattice.py 172-177); `none` is `nan`, the result of 0/0 for a path of zero
length. -/
noncomputable def bzKs (kpoints : List (ℝ × ℝ)) : List (Option ℝ) :=
  some 0 :: if (kDists kpoints).sum = 0 then (kDists kpoints).map fun _ => none
    else (cumsum ((kDists kpoints).map (· / (kDists kpoints).sum))).map some

/-- Entries of an array at a list of positions; `IndexError` outside. -/
def takeInds {α : Type} (l : List α) (inds : List ℕ) : Except PyErr (List α) :=
  inds.mapM fun i => match l[i]? with
    | some x => .ok x
    | none => .error .indexError

/-- `'k_indexes'` and `'angles'` of `bz_path` (lattice.py 109-190). -/
noncomputable def Lattice.bzAxis (L : Lattice) (pts : List PtArg) (ns : NsArg) (symmG : PtArg) :
    Except PyErr (List (Option ℝ) × List ℝ) := do
  let r ← L.bzPath pts ns symmG
  let s ← L.parsePoint symmG
  let ki ← takeInds (bzKs r.1) r.2
  return (ki, bzAngles r.1 s)

/-- `np.linspace(a, b, n)`. -/
noncomputable def linspace (a b : ℝ) (n : ℕ) : List ℝ :=
  (List.range n).map fun (i : ℕ) => if n = 1 then a else a + (b - a) * ((i : ℝ) / ((n : ℝ) - 1))

/-- The argument `periods` of `xy_grid`: left out, a number, or a list. -/
inductive PeriodsArg where
  | none
  | scalar (p : ℝ)
  | list (l : List ℝ)

/-- `periods` after lattice.py 92-98. The test `np.array(periods).shape == 1` compares a tuple with a
number and is never true, so a number is passed on unchanged and `periods[1]` raises `TypeError`. -/
def parsePeriods (t : LatType) : PeriodsArg → Except PyErr (ℝ × ℝ)
  | .none => if t = .square ∨ t = .rectangular then .ok (1, 1) else .ok (2, 2)
  | .scalar _ => .error .typeError
  | .list l =>
    match l[0]?, l[1]? with
    | some a, some b => .ok (a, b)
    | _, _ => .error .indexError

/-- `Lattice.xy_grid` (lattice.py 73-107). -/
noncomputable def Lattice.xyGrid (L : Lattice) (nx ny : ℕ) (periods : PeriodsArg) :
    Except PyErr (List ℝ × List ℝ) := do
  let p ← parsePeriods L.type periods
  let ymax := |max L.a1.2 L.a2.2| * p.2 / 2
  let xmax := |max L.a1.1 L.a2.1| * p.1 / 2
  return (linspace (-xmax) xmax nx, linspace (-ymax) ymax ny)

/-- `PhotCryst.z_grid` (phc.py 49-57); the layers are given by `(z_min, z_max)`. -/
noncomputable def zGrid (layers : List (ℝ × ℝ)) (nz : ℕ) (dist : ℝ) : Except PyErr (List ℝ) :=
  match layers.head?, layers.getLast? with
  | some a, some b => .ok (linspace (a.1 - dist) (b.2 + dist) nz)
  | _, _ => .error .indexError

end Legume
