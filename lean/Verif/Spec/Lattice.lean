import Mathlib.Data.Real.Basic
import Mathlib.Algebra.Order.Field.Basic

/-!
# Specification vocabulary for lattices, paths and in-plane maps
-/
namespace Legume.Spec

/-- Integer combination of two plane vectors. -/
def comb (a1 a2 : ℝ × ℝ) (m n : ℤ) : ℝ × ℝ := (m * a1.1 + n * a2.1, m * a1.2 + n * a2.2)

/-- Euclidean inner product in the plane. -/
def dot2 (u v : ℝ × ℝ) : ℝ := u.1 * v.1 + u.2 * v.2

/-- Squared distance in the plane. -/
def dist2 (u v : ℝ × ℝ) : ℝ := (u.1 - v.1) ^ 2 + (u.2 - v.2) ^ 2

/-- A shape, given by its indicator, covers `p` up to a lattice translation. -/
def Covers (a1 a2 : ℝ × ℝ) (inside : ℝ × ℝ → Prop) (p : ℝ × ℝ) : Prop :=
  ∃ m n : ℤ, inside (p.1 + (comb a1 a2 m n).1, p.2 + (comb a1 a2 m n).2)

open Classical in
/-- The periodic permittivity map: value of the last listed shape that covers the point,
`bg` if none does. -/
noncomputable def periodicEps (a1 a2 : ℝ × ℝ) (bg : ℝ) (shapes : List (ℝ × (ℝ × ℝ → Prop)))
    (p : ℝ × ℝ) : ℝ :=
  (shapes.reverse.find? (fun s => decide (Covers a1 a2 s.2 p))).elim bg Prod.fst

end Legume.Spec
