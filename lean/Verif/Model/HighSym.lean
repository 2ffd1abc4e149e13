import Mathlib.Algebra.Order.Floor.Ring
import Verif.Model.Symmetry
import Verif.Model.Lattice

/-!
# Which wavevectors are accepted by the vertical mirror separation

`gme.py` 67-70 (tables of angles), `_construct_sym_mat` 272-282, `_calculate_refl_mat` 1525-1586.
-/
namespace Legume

/-- `np.rint`: nearest integer, ties to even. -/
noncomputable def rint (x : ℝ) : ℤ :=
  if x - ⌊x⌋ < 1 / 2 then ⌊x⌋
  else if 1 / 2 < x - ⌊x⌋ then ⌊x⌋ + 1
  else if ⌊x⌋ % 2 = 0 then ⌊x⌋ else ⌊x⌋ + 1

/-- `bd.round(x, 8)`. -/
noncomputable def round8 (x : ℝ) : ℝ := (rint (x * 1e8) : ℝ) / 1e8

/-- `np.arange(-360, 360 + step, step)` (gme.py 68-70). -/
def angleTable (step : ℕ) : List ℤ := (List.range (720 / step + 1)).map fun (i : ℕ) => -360 + step * i

/-- `_square_an`, `_hex_an`, `_rec_an` (gme.py 68-70) selected by the type of the lattice. -/
def anglesOf : LatType → Option (List ℤ)
  | .square => some (angleTable 45)
  | .hexagonal => some (angleTable 30)
  | .rectangular => some (angleTable 90)
  | .custom => none

/-- `bd.round(ang, 8) in table` (gme.py 1545, 1558, 1571). -/
def accepted (table : List ℤ) (ang : ℝ) : Prop := ∃ z ∈ table, round8 ang = (z : ℝ)

/-- `_construct_sym_mat` (gme.py 272-282) by rows. -/
noncomputable def symMat (theta : ℝ) : (ℝ × ℝ) × (ℝ × ℝ) :=
  ((Real.cos (2 * theta * Real.pi / 180), Real.sin (2 * theta * Real.pi / 180)),
   (Real.sin (2 * theta * Real.pi / 180), -Real.cos (2 * theta * Real.pi / 180)))

open Classical in
/-- `_calculate_refl_mat` (gme.py 1525-1586): the dictionary from the angles to the reflection
matrices. The keys are the strings of the angles; simplification: equal angles have equal strings
(not so for `0.0` and `-0.0`). -/
noncomputable def reflMat (t : LatType) (angles : List ℝ) :
    Except PyErr (List (ℝ × ((ℝ × ℝ) × (ℝ × ℝ)))) :=
  match anglesOf t with
  | none => .error .valueError
  | some table =>
    if ∀ a ∈ angles, accepted table a then .ok (angles.dedup.map fun a => (a, symMat a))
    else .error .valueError

end Legume
