import Mathlib.Algebra.BigOperators.Group.Finset.Basic
import Mathlib.Analysis.Complex.Norm
import Mathlib.Analysis.SpecialFunctions.Trigonometric.Basic

/-!
# The mirror operation on the guided-mode basis

Stated without reference to the separation code: a basis state is a guided mode (its position in the
list of modes and its index, even for TE and odd for TM) and a reciprocal vector.  The mirror through
the vertical plane at angle `theta` sends a state to the state of the same mode at the reflected
vector; TE states change sign, because their field points along the in-plane normal, which the mirror
reverses.
-/
namespace Legume.Spec

/-- The basis in the order of the Hamiltonian: mode after mode. -/
def gmBasis : ℕ → List ℕ → List (List (ℝ × ℝ)) → List (ℕ × ℕ × (ℝ × ℝ))
  | _, [], _ => []
  | _, _ :: _, [] => []
  | b, a :: as, gs :: us => gs.map (fun g => (b, a, g)) ++ gmBasis (b + 1) as us

/-- Mirror image of a vector in the line through the origin at `theta` degrees. -/
noncomputable def mirrorVec (theta : ℝ) (g : ℝ × ℝ) : ℝ × ℝ :=
  let n := (-Real.sin (theta * Real.pi / 180), Real.cos (theta * Real.pi / 180))
  let d := g.1 * n.1 + g.2 * n.2
  (g.1 - 2 * d * n.1, g.2 - 2 * d * n.2)

/-- State `y` is the mirror image of state `x`, up to the tolerance `1e-7` of the lookup. -/
def IsImage (theta : ℝ) (x y : ℕ × ℕ × (ℝ × ℝ)) : Prop :=
  x.1 = y.1 ∧ |y.2.2.1 - (mirrorVec theta x.2.2).1| < 1e-7 ∧ |y.2.2.2 - (mirrorVec theta x.2.2).2| < 1e-7

open Classical in
/-- The mirror acting on expansion coefficients. -/
noncomputable def mirror (theta : ℝ) (B : List (ℕ × ℕ × (ℝ × ℝ))) (c : ℕ → ℂ) (i : ℕ) : ℂ :=
  ∑ j ∈ Finset.range B.length,
    if IsImage theta (B.getD i (0, 0, 0)) (B.getD j (0, 0, 0)) then
      (if (B.getD i (0, 0, 0)).2.1 % 2 = 0 then -c j else c j) else 0

/-- A matrix acting on coefficients. -/
noncomputable def act (n : ℕ) (M : ℕ → ℕ → ℂ) (c : ℕ → ℂ) (i : ℕ) : ℂ :=
  ∑ j ∈ Finset.range n, M i j * c j

/-- Two vectors of a mode are never within `2.5e-7` of each other in both components. -/
def Spread (gs : List (ℝ × ℝ)) : Prop :=
  ∀ i j : ℕ, ∀ a b : ℝ × ℝ, gs[i]? = some a → gs[j]? = some b → i ≠ j →
    2.5e-7 ≤ |a.1 - b.1| ∨ 2.5e-7 ≤ |a.2 - b.2|

end Legume.Spec
