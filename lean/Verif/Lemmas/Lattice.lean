import Verif.Model.Lattice
import Verif.Spec.Lattice
import Mathlib.Tactic.FieldSimp
import Mathlib.Tactic.Linarith
import Mathlib.Tactic.Ring

/-!
# Helper lemmas for lattices and Brillouin-zone paths
-/
namespace Legume

open Spec Real

theorem bzSegment_length (p q : ℝ × ℝ) (n : Nat) : (bzSegment p q n).length = n := by
  simp [bzSegment]

theorem bzLoop_length (ps : List (ℝ × ℝ)) (ns : List Nat) (c : Nat) (h : ps.length = ns.length + 1) :
    (bzLoop ps ns c).1.length = ns.sum + 1 := by
  induction ns generalizing ps c with
  | nil =>
    match ps, h with
    | [p], _ => simp [bzLoop]
  | cons n ns ih =>
    match ps, h with
    | p1 :: p2 :: ps, h =>
      have := ih (p2 :: ps) (c + n) (by simpa using h)
      simp only [bzLoop, List.length_append, bzSegment_length, this, List.sum_cons]
      omega

theorem bzLoop_inds (ps : List (ℝ × ℝ)) (ns : List Nat) (c : Nat) (h : ps.length = ns.length + 1)
    (j : Nat) (hj : j < ns.length) :
    (bzLoop ps ns c).2[j]? = some (c + (ns.take (j + 1)).sum) := by
  induction ns generalizing ps c j with
  | nil => simp at hj
  | cons n ns ih =>
    match ps, h with
    | p1 :: p2 :: ps, h =>
      simp only [bzLoop]
      cases j with
      | zero => simp
      | succ j =>
        rw [List.getElem?_cons_succ, ih (p2 :: ps) (c + n) (by simpa using h) j (by simpa using hj)]
        simp [Nat.add_assoc]

theorem bzLoop_inds_length (ps : List (ℝ × ℝ)) (ns : List Nat) (c : Nat)
    (h : ps.length = ns.length + 1) : (bzLoop ps ns c).2.length = ns.length := by
  induction ns generalizing ps c with
  | nil =>
    match ps, h with
    | [p], _ => simp [bzLoop]
  | cons n ns ih =>
    match ps, h with
    | p1 :: p2 :: ps, h =>
      simp only [bzLoop, List.length_cons]
      rw [ih (p2 :: ps) (c + n) (by simpa using h)]

/-- The k-points: inside segment `j` the `i`-th point is at fraction `i/n`. -/
theorem bzLoop_kpoints (ps : List (ℝ × ℝ)) (ns : List Nat) (c : Nat) (h : ps.length = ns.length + 1)
    (j i n : Nat) (p q : ℝ × ℝ) (hn : ns[j]? = some n) (hp : ps[j]? = some p)
    (hq : ps[j + 1]? = some q) (hi : i < n) :
    (bzLoop ps ns c).1[(ns.take j).sum + i]? =
      some (p.1 + (q.1 - p.1) * ((i : ℝ) / n), p.2 + (q.2 - p.2) * ((i : ℝ) / n)) := by
  induction ns generalizing ps c j with
  | nil => simp at hn
  | cons n' ns ih =>
    match ps, h with
    | p1 :: p2 :: ps, h =>
      simp only [bzLoop]
      cases j with
      | zero =>
        simp at hn hp hq
        subst hn hp hq
        simp only [List.take_zero, List.sum_nil, Nat.zero_add]
        rw [List.getElem?_append_left (by simpa [bzSegment] using hi)]
        simp [bzSegment, hi]
      | succ j =>
        simp only [List.take_succ_cons, List.sum_cons]
        rw [List.getElem?_append_right (by simp [bzSegment]; omega)]
        have := ih (p2 :: ps) (c + n') (by simpa using h) j (by simpa using hn) (by simpa using hp)
          (by simpa using hq)
        rw [← this]
        congr 1
        simp [bzSegment]; omega

theorem bzLoop_last (ps : List (ℝ × ℝ)) (ns : List Nat) (c : Nat) (h : ps.length = ns.length + 1) :
    (bzLoop ps ns c).1[ns.sum]? = ps[ns.length]? := by
  induction ns generalizing ps c with
  | nil =>
    match ps, h with
    | [p], _ => simp [bzLoop]
  | cons n ns ih =>
    match ps, h with
    | p1 :: p2 :: ps, h =>
      simp only [bzLoop, List.sum_cons, List.length_cons, List.getElem?_cons_succ]
      rw [List.getElem?_append_right (by simp [bzSegment])]
      have := ih (p2 :: ps) (c + n) (by simpa using h)
      rw [← this]
      congr 1
      simp [bzSegment]

end Legume
