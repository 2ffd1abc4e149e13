import Mathlib.Data.Real.Basic
import Mathlib.Tactic.NormNum

/-!
# Units of energy
-/
namespace Legume.Spec

/-- A unit of energy in eV. -/
noncomputable def unitEV : String → Option ℝ
  | "eV" => some 1
  | "meV" => some 1e-3
  | "ueV" => some 1e-6
  | _ => none

/-- A number with a unit is the energy `x` (in eV). -/
def Reads (val : ℝ) (unit : String) (x : ℝ) : Prop := ∃ u, unitEV unit = some u ∧ val * u = x

end Legume.Spec
