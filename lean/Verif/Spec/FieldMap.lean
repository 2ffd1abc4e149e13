import Mathlib.Data.Fin.VecNotation
import Mathlib.Data.Complex.Basic

/-! # Vectors under maps of the plane -/
namespace Legume.Spec

/-- A vector in space whose components in the plane are mapped by the linear map `q`, the third one staying. -/
noncomputable def mapVec (q : ℝ × ℝ → ℝ × ℝ) (v : Fin 3 → ℂ) : Fin 3 → ℂ :=
  ![((q (1, 0)).1 : ℂ) * v 0 + ((q (0, 1)).1 : ℂ) * v 1, ((q (1, 0)).2 : ℂ) * v 0 + ((q (0, 1)).2 : ℂ) * v 1, v 2]

end Legume.Spec
