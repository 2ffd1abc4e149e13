import Mathlib.Analysis.SpecialFunctions.Sqrt

/-!
# Specification vocabulary: length of a broken line
-/
namespace Legume.Spec

/-- Length of the broken line through the given points. -/
noncomputable def pathLength : List (ℝ × ℝ) → ℝ
  | a :: b :: l => √((a.1 - b.1) ^ 2 + (a.2 - b.2) ^ 2) + pathLength (b :: l)
  | _ => 0

end Legume.Spec
