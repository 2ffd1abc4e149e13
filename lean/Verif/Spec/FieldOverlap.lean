import Verif.Spec.EpsPlot
import Verif.Spec.MatrixElements

/-!
# Overlap of two fields of a layered structure
-/
namespace Legume.Spec

open MeasureTheory
open scoped ComplexConjugate

/-- Area of the elementary cell spanned by `a1` and `a2`. -/
noncomputable def cellArea (a1 a2 : ℝ × ℝ) : ℝ := |a1.1 * a2.2 - a1.2 * a2.1|

/-- Integral of the scalar product of two fields over one elementary cell and all heights. `F j z x y` is the field in
layer `j` of the stack (positions and permittivities of the layers) at the height `z`, measured as in `layMeasure`. -/
noncomputable def fieldOverlap (a1 a2 : ℝ × ℝ) (stack : List (LPos × ℝ)) (F F' : ℕ → ℝ → ℝ → ℝ → Fin 3 → ℂ) : ℂ :=
  ∑ j : Fin stack.length, ∫ z, cellArea a1 a2 *
    cellMean a1 a2 (fun x y => ∑ c, conj (F j z x y c) * F' j z x y c) ∂(layMeasure stack[j].1)

end Legume.Spec
