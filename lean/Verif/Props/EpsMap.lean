import Verif.Lemmas.EpsMap

/-!
# Property C08: the in-plane permittivity map
-/
namespace Legume

open Spec

/-- The listed shapes as (permittivity, indicator) pairs. -/
def shapeData (l : Layer ℝ) : List (ℝ × (ℝ × ℝ → Prop)) :=
  l.shapes.map fun s => (s.eps, fun q => s.isInside q = true)

/-- **C08 (partial: window condition).** Full property: for *every* lattice, shape list and
point, `get_eps` is the periodic map "value of the last shape one of whose lattice
translates covers the point, background otherwise".  Proved whenever the shapes lie within
distance `ρ` of the origin and the window that the code derives from the requested points
is wide enough for the obliqueness of the lattice; the full property is false
(`C08_hexagonal_not_periodic`, `C08_far_shape_missed`). -/
theorem C08_get_eps_periodic_map_partial (L : Lattice) (l : Layer ℝ) (pts : List (ℝ × ℝ)) (ρ : ℝ)
    (hρ : 0 ≤ ρ)
    (hs : ∀ s ∈ l.shapes, ∀ q : ℝ × ℝ, s.isInside q = true → √(q.1 ^ 2 + q.2 ^ 2) ≤ ρ)
    (hdet : L.a1.1 * L.a2.2 - L.a1.2 * L.a2.1 ≠ 0)
    (hwin : (√((maxAbs (pts.map Prod.fst)) ^ 2 + (maxAbs (pts.map Prod.snd)) ^ 2) + ρ) *
        max (√(L.a1.1 ^ 2 + L.a1.2 ^ 2)) (√(L.a2.1 ^ 2 + L.a2.2 ^ 2)) <
      (epsWindow L.a1 L.a2 pts + 1) * |L.a1.1 * L.a2.2 - L.a1.2 * L.a2.1|) :
    l.getEps L.toLat pts = pts.map (periodicEps L.a1 L.a2 l.epsB (shapeData l)) := by
  classical
  apply List.map_congr_left
  intro p hp
  rw [epsAt_eq, periodicEps, shapeData, ← List.map_reverse,
    find?_map_congr l.shapes.reverse (fun s => (s.eps, fun q => s.isInside q = true))
      (fun s => decide (WinCovers L.toLat s (L.toLat.win pts) p))]
  · cases (List.find? (fun s => decide (WinCovers L.toLat s (L.toLat.win pts) p)) l.shapes.reverse) with
    | none => rfl
    | some s => rfl
  · intro s hs'
    rw [List.mem_reverse] at hs'
    have := winCovers_iff L.a1 L.a2 L.toLat rfl rfl s ρ (extent pts) hρ (hs s hs') p
      (nrm_le_extent pts p hp) (L.toLat.win pts) hdet hwin
    simp only [this]

/-- **C08 (partial: orthogonal lattices).** For `square` and `rectangular` lattices (orthogonal
primitive vectors) and shapes within the distance of the shorter primitive vector of the
origin, `get_eps` is the periodic map for every list of points, however far. -/
theorem C08_orthogonal_partial (L : Lattice) (l : Layer ℝ) (pts : List (ℝ × ℝ))
    (h1 : L.a1 ≠ (0, 0)) (h2 : L.a2 ≠ (0, 0)) (horth : dot2 L.a1 L.a2 = 0)
    (hs : ∀ s ∈ l.shapes, ∀ q : ℝ × ℝ, s.isInside q = true → √(q.1 ^ 2 + q.2 ^ 2) ≤
      min (√(L.a1.1 ^ 2 + L.a1.2 ^ 2)) (√(L.a2.1 ^ 2 + L.a2.2 ^ 2))) :
    l.getEps L.toLat pts = pts.map (periodicEps L.a1 L.a2 l.epsB (shapeData l)) := by
  have pos : ∀ a : ℝ × ℝ, a ≠ (0, 0) → 0 < nrm a := by
    intro a ha
    apply Real.sqrt_pos.2
    by_contra hc
    apply ha
    have e1 : a.1 = 0 := by nlinarith [sq_nonneg a.1, sq_nonneg a.2]
    have e2 : a.2 = 0 := by nlinarith [sq_nonneg a.1, sq_nonneg a.2]
    ext <;> simp [e1, e2]
  have p1 := pos _ h1
  have p2 := pos _ h2
  have hdet : |det2 L.a1 L.a2| = nrm L.a1 * nrm L.a2 := by
    apply (sq_eq_sq₀ (abs_nonneg _) (mul_nonneg p1.le p2.le)).1
    rw [sq_abs, mul_pow, nrm_sq, nrm_sq]
    simp only [dot2] at horth
    simp only [det2]
    have : (L.a1.1 * L.a2.1 + L.a1.2 * L.a2.2) ^ 2 = 0 := by rw [horth]; ring
    nlinarith
  have hmin : 0 < min (nrm L.a1) (nrm L.a2) := lt_min p1 p2
  apply C08_get_eps_periodic_map_partial L l pts _ hmin.le hs
  · intro hc
    have : det2 L.a1 L.a2 = 0 := hc
    rw [this, abs_zero] at hdet
    exact absurd hdet.symm (mul_pos p1 p2).ne'
  · change (extent pts + min (nrm L.a1) (nrm L.a2)) * max (nrm L.a1) (nrm L.a2) <
      (((Nat.floor (extent pts / min (nrm L.a1) (nrm L.a2)) + 1 : ℕ) : ℝ) + 1) * |det2 L.a1 L.a2|
    have hmm : nrm L.a1 * nrm L.a2 = min (nrm L.a1) (nrm L.a2) * max (nrm L.a1) (nrm L.a2) :=
      (min_mul_max _ _).symm
    rw [hdet, hmm, ← mul_assoc]
    apply mul_lt_mul_of_pos_right _ (hmin.trans_le min_le_max)
    have hfl := Nat.lt_floor_add_one (extent pts / min (nrm L.a1) (nrm L.a2))
    rw [div_lt_iff₀ hmin] at hfl
    push_cast
    linarith

/-- The periodic map of the specification repeats under lattice translations. -/
theorem periodicEps_translate (a1 a2 : ℝ × ℝ) (bg : ℝ) (ss : List (ℝ × (ℝ × ℝ → Prop))) (p : ℝ × ℝ)
    (m n : ℤ) :
    periodicEps a1 a2 bg ss (p.1 + (comb a1 a2 m n).1, p.2 + (comb a1 a2 m n).2) =
      periodicEps a1 a2 bg ss p := by
  classical
  have h : ∀ inside : ℝ × ℝ → Prop,
      Covers a1 a2 inside (p.1 + (comb a1 a2 m n).1, p.2 + (comb a1 a2 m n).2) ↔
      Covers a1 a2 inside p := by
    intro inside
    constructor
    · rintro ⟨i, j, hij⟩
      refine ⟨m + i, n + j, ?_⟩
      convert hij using 2 <;> simp only [comb] <;> push_cast <;> ring
    · rintro ⟨i, j, hij⟩
      refine ⟨i - m, j - n, ?_⟩
      convert hij using 2 <;> simp only [comb] <;> push_cast <;> ring
  unfold periodicEps
  simp only [h]

/-- **C08 (partial: periodicity).** On orthogonal lattices (same conditions) the reported
permittivity at a point and at any lattice translate of it agree, even when the two are
requested in different calls with different companion points. -/
theorem C08_translation_invariance_partial (L : Lattice) (l : Layer ℝ)
    (h1 : L.a1 ≠ (0, 0)) (h2 : L.a2 ≠ (0, 0)) (horth : dot2 L.a1 L.a2 = 0)
    (hs : ∀ s ∈ l.shapes, ∀ q : ℝ × ℝ, s.isInside q = true → √(q.1 ^ 2 + q.2 ^ 2) ≤
      min (√(L.a1.1 ^ 2 + L.a1.2 ^ 2)) (√(L.a2.1 ^ 2 + L.a2.2 ^ 2)))
    (pts pts' : List (ℝ × ℝ)) (i j : Nat) (p : ℝ × ℝ) (m n : ℤ)
    (hi : pts[i]? = some p)
    (hj : pts'[j]? = some (p.1 + (comb L.a1 L.a2 m n).1, p.2 + (comb L.a1 L.a2 m n).2)) :
    (l.getEps L.toLat pts)[i]? = (l.getEps L.toLat pts')[j]? := by
  rw [C08_orthogonal_partial L l pts h1 h2 horth hs, C08_orthogonal_partial L l pts' h1 h2 horth hs,
    List.getElem?_map, List.getElem?_map, hi, hj, Option.map_some, Option.map_some,
    periodicEps_translate]

/-- A circle of radius `3/10` at the origin, as `Circle.is_inside` (shapes.py 102-104). -/
noncomputable def circleShape (e x y r : ℝ) : Shape ℝ where
  eps := e
  area := Real.pi * r ^ 2
  isInside := fun q => decide ((q.1 - x) ^ 2 + (q.2 - y) ^ 2 ≤ r ^ 2)

/-- The lattice `Lattice('hexagonal')`. -/
noncomputable def hexLattice : Lattice := mkLattice .hexagonal ⟨0.5, √3 / 2, 0⟩ ⟨0.5, -√3 / 2, 0⟩

/-- The lattice `Lattice('square')`. -/
noncomputable def squareLattice : Lattice := mkLattice .square ⟨1, 0, 0⟩ ⟨0, 1, 0⟩

/-- A layer with one circle. -/
noncomputable def circleLayer (x : ℝ) : Layer ℝ :=
  { mkShapesLayer (0 : ℝ) 1 12 with shapes := [circleShape 1 x 0 (3 / 10)] }

/-- Non-vacuity of C08: the square lattice with a circle of radius 3/10 at the origin meets
the hypotheses. -/
example : squareLattice.a1 ≠ (0, 0) ∧ squareLattice.a2 ≠ (0, 0) ∧
    dot2 squareLattice.a1 squareLattice.a2 = 0 ∧
    ∀ s ∈ (circleLayer 0).shapes, ∀ q : ℝ × ℝ, s.isInside q = true → √(q.1 ^ 2 + q.2 ^ 2) ≤
      min (√(squareLattice.a1.1 ^ 2 + squareLattice.a1.2 ^ 2))
        (√(squareLattice.a2.1 ^ 2 + squareLattice.a2.2 ^ 2)) := by
  refine ⟨by simp [squareLattice, mkLattice], by simp [squareLattice, mkLattice],
    by simp [squareLattice, mkLattice, dot2], ?_⟩
  intro s hs q hq
  simp only [circleLayer, List.mem_singleton] at hs
  subst hs
  simp only [circleShape, decide_eq_true_eq] at hq
  simp only [squareLattice, mkLattice]
  norm_num
  nlinarith

/-- **C08 (negation).** On the hexagonal lattice the map is not periodic: with a hole of
radius 3/10 at the origin, `get_eps` reports the hole (1) at the origin but the background
(12) at its lattice translate `8 a1 + 4 a2`, because the scan window is too small. -/
theorem C08_hexagonal_not_periodic :
    (circleLayer 0).getEps hexLattice.toLat [(0, 0)] = [1] ∧
    (circleLayer 0).getEps hexLattice.toLat [comb hexLattice.a1 hexLattice.a2 8 4] = [12] := by
  have h3 : (√3 : ℝ) ^ 2 = 3 := Real.sq_sqrt (by norm_num)
  have h3' : (0 : ℝ) < √3 := Real.sqrt_pos.2 (by norm_num)
  have hn1 : √((0.5 : ℝ) ^ 2 + (√3 / 2) ^ 2) = 1 := by
    rw [div_pow, h3]; norm_num
  have hn2 : √((0.5 : ℝ) ^ 2 + (-√3 / 2) ^ 2) = 1 := by
    rw [div_pow, neg_sq, h3]; norm_num
  have hcomb : comb hexLattice.a1 hexLattice.a2 8 4 = (6, 2 * √3) := by
    simp only [comb, hexLattice, mkLattice, Prod.mk.injEq]; constructor
    · norm_num
    · push_cast; ring
  have hwin : hexLattice.toLat.win [(6, 2 * √3)] = 7 := by
    simp only [Lattice.toLat, hexLattice, mkLattice, epsWindow, hn1, hn2, maxAbs, List.map_cons,
      List.map_nil, List.foldr_cons, List.foldr_nil, min_self, div_one]
    have e : (max |(6 : ℝ)| 0) ^ 2 + (max |2 * √3| 0) ^ 2 = 48 := by
      rw [max_eq_left (abs_nonneg _), max_eq_left (abs_nonneg _), sq_abs, sq_abs, mul_pow, h3]; norm_num
    rw [e]
    have : Nat.floor (√48 : ℝ) = 6 := by
      rw [Nat.floor_eq_iff (Real.sqrt_nonneg _)]
      constructor
      · apply Real.le_sqrt_of_sq_le; norm_num
      · rw [Real.sqrt_lt' (by norm_num)]; norm_num
    rw [this]
  constructor
  · simp only [Layer.getEps, List.map_cons, List.map_nil, List.cons.injEq, and_true]
    rw [epsAt_eq]
    have hc : WinCovers hexLattice.toLat (circleShape 1 0 0 (3 / 10)) (hexLattice.toLat.win [(0, 0)]) (0, 0) := by
      refine ⟨0, ?_, 0, ?_, ?_⟩
      · rw [mem_symRange]; omega
      · rw [mem_symRange]; omega
      · simp [circleShape]; positivity
    simp [circleLayer, hc]
    rfl
  · rw [hcomb]
    simp only [Layer.getEps, List.map_cons, List.map_nil, List.cons.injEq, and_true]
    rw [epsAt_eq, hwin]
    have hc : ¬ WinCovers hexLattice.toLat (circleShape 1 0 0 (3 / 10)) 7 (6, 2 * √3) := by
      rintro ⟨n1, hn1', n2, hn2', hin⟩
      rw [mem_symRange] at hn1' hn2'
      simp only [circleShape, decide_eq_true_eq, Lattice.toLat, hexLattice, mkLattice] at hin
      have hm : (1 : ℝ) ≤ 8 + n1 := by have : (1 : ℤ) ≤ 8 + n1 := by omega
                                       exact_mod_cast this
      have e1 : (6 + (n1 : ℝ) * 0.5 + n2 * 0.5 - 0) ^ 2 +
          (2 * √3 + n1 * (√3 / 2) + n2 * (-√3 / 2) - 0) ^ 2 =
          (8 + n1 : ℝ) ^ 2 - (8 + n1) * (4 + n2) + (4 + n2) ^ 2 := by
        have : (2 * √3 + n1 * (√3 / 2) + n2 * (-√3 / 2) - 0) ^ 2 =
          (√3) ^ 2 * (2 + n1 / 2 - n2 / 2) ^ 2 := by ring
        rw [this, h3]; ring
      rw [e1] at hin
      nlinarith [sq_nonneg ((4 + n2 : ℝ) - (8 + n1) / 2)]
    simp [circleLayer, hc]
    rfl

/-- **C08 (negation, far shape).** Even on the square lattice a shape drawn away from the
origin cell is missed: a circle centred at `(5, 0)` is a lattice translate of one centred at
the origin, yet the origin is reported as background. -/
theorem C08_far_shape_missed :
    (circleLayer 5).getEps squareLattice.toLat [(0, 0)] = [12] ∧
    periodicEps squareLattice.a1 squareLattice.a2 12 (shapeData (circleLayer 5)) (0, 0) = 1 := by
  constructor
  · simp only [Layer.getEps, List.map_cons, List.map_nil, List.cons.injEq, and_true]
    have hwin : squareLattice.toLat.win [(0, 0)] = 1 := by
      simp [Lattice.toLat, squareLattice, mkLattice, epsWindow, maxAbs]
    rw [epsAt_eq, hwin]
    have hc : ¬ WinCovers squareLattice.toLat (circleShape 1 5 0 (3 / 10)) 1 (0, 0) := by
      rintro ⟨n1, hn1', n2, hn2', hin⟩
      rw [mem_symRange] at hn1' hn2'
      simp only [circleShape, decide_eq_true_eq, Lattice.toLat, squareLattice, mkLattice] at hin
      have hm : (n1 : ℝ) ≤ 1 := by exact_mod_cast hn1'.2
      nlinarith [sq_nonneg (n2 : ℝ)]
    simp [circleLayer, hc]
    rfl
  · have hc : Covers squareLattice.a1 squareLattice.a2
        (fun q => (circleShape 1 5 0 (3 / 10)).isInside q = true) (0, 0) := by
      refine ⟨5, 0, ?_⟩
      simp [circleShape, comb, squareLattice, mkLattice]; positivity
    simp [periodicEps, shapeData, circleLayer, hc]
    rfl

end Legume
