import Verif.Model.Utils
import Mathlib.Analysis.Complex.Basic

/-!
# Physical constants

`legume/constants.py` 1-21 and the prefactor in `pol/pol.py` `_calculate_C_D` 170-172. Floats are read as the rational
numbers which their literals denote.
-/
namespace Legume

/-- `e` (constants.py 12). -/
noncomputable def csE : ℝ := 1.602176634e-19
/-- `m_e` (constants.py 13). -/
noncomputable def csMe : ℝ := 9.1093837015e-31
/-- `epsilon_0` (constants.py 14). -/
noncomputable def csEps0 : ℝ := 8.8541878128e-12
/-- `c` (constants.py 15). -/
noncomputable def csC : ℝ := 299792458.0
/-- `h` (constants.py 16). -/
noncomputable def csH : ℝ := 6.62607015e-34
/-- `hbar` (constants.py 17). -/
noncomputable def csHbar : ℝ := 1.0545718176461565e-34

/-- `pref` in `_calculate_C_D` (pol.py 170-172). -/
noncomputable def hopPref (a : ℝ) : ℂ :=
  -Complex.I * (√(csHbar ^ 2 * csE ^ 2 / (4 * csMe * csEps0)) : ℝ) / (csE : ℂ) / ((√a : ℝ) : ℂ)

end Legume
