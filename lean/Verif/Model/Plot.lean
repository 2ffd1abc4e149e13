import Mathlib.Analysis.SpecialFunctions.Sqrt
import Mathlib.Analysis.Real.Pi.Bounds
import Mathlib.Algebra.Order.Floor.Ring
import Verif.Model.Py

/-!
# Axes, light line and quality factor of the plots; progress bar

`viz.py` `calculate_x` 1394-1453, `_calculate_Q` 1456-1466, `_calculate_LL` 1469-1495; `print_utils.py` `load_bar`
19-37.
-/
namespace Legume

/-- `mod_delta_k` (viz.py 1440-1441): distances between successive k-points. -/
noncomputable def kDists : List (ℝ × ℝ) → List ℝ
  | a :: b :: l => √((b.1 - a.1) ^ 2 + (b.2 - a.2) ^ 2) :: kDists (b :: l)
  | _ => []

/-- `np.cumsum`. -/
def cumsum {K : Type} [AddCommMonoid K] (l : List K) : List K :=
  (List.range l.length).map fun (i : ℕ) => (l.take (i + 1)).sum

open Classical in
/-- `X0` of `calculate_x` (viz.py 1442-1451); `none` is `nan`, the result of 0/0 for a path of zero length. -/
noncomputable def calcX0 (kpoints : List (ℝ × ℝ)) (kUnits : Bool) : List (Option ℝ) :=
  if kUnits then
    some 0 :: if (kDists kpoints).sum = 0 then (kDists kpoints).map fun _ => none
      else (cumsum ((kDists kpoints).map (· / (kDists kpoints).sum))).map some
  else (List.range kpoints.length).map fun (i : ℕ) => some (i : ℝ)

/-- `X` of `calculate_x` (viz.py 1453): rows are k-points. -/
noncomputable def calcX (kpoints : List (ℝ × ℝ)) (numEig : ℕ) (kUnits : Bool) : List (List (Option ℝ)) :=
  (calcX0 kpoints kUnits).map (List.replicate numEig)

/-- `_calculate_LL` (viz.py 1490-1493) for one k-point. -/
noncomputable def lightLine (epsFirst epsLast conv : ℝ) (k : ℝ × ℝ) : ℝ :=
  conv * √(k.1 ^ 2 + k.2 ^ 2) / 2 / Real.pi / √(max epsFirst epsLast)

/-- `_calculate_Q` (viz.py 1464). -/
def calcQ {K : Type} [Field K] (re im : K) : K := re / 2 / (im + 1e-16)

/-- `load_bar` (print_utils.py 28-37); `int` truncates towards zero, a string times a negative number is empty. -/
def loadBar {K : Type} [Field K] [LinearOrder K] [FloorRing K] (perc : K) (precision : ℕ) : List Char :=
  let x := perc / 100 * precision
  let filled : ℤ := if 0 ≤ x then ⌊x⌋ else ⌈x⌉
  '│' :: (List.replicate filled.toNat '█' ++ List.replicate ((precision : ℤ) - filled).toNat '-') ++ ['│']

end Legume
