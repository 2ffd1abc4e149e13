import Verif.Model.Lattice
import Verif.Spec.Lattice
import Verif.Lemmas.StructureEps
import Mathlib.Tactic.Linarith
import Mathlib.Tactic.Push
import Mathlib.Analysis.SpecialFunctions.Pow.Real

/-!
# Helper lemmas for the in-plane permittivity map
-/
set_option linter.unusedSectionVars false

namespace Legume

open Spec

theorem mem_symRange (n : Nat) (k : Int) : k ∈ symRange n ↔ -(n : Int) ≤ k ∧ k ≤ n := by
  simp only [symRange, List.mem_map, List.mem_range]
  constructor
  · rintro ⟨i, hi, rfl⟩; omega
  · intro h; exact ⟨(k + n).toNat, by omega, by omega⟩

theorem foldl_ite_const {α β : Type} (c : α → Prop) [DecidablePred c] (v : β) (l : List α) (e : β) :
    l.foldl (fun e n => if c n then v else e) e = if (∃ n ∈ l, c n) then v else e := by
  induction l generalizing e with
  | nil => simp
  | cons a l ih =>
    rw [List.foldl_cons, ih]
    by_cases ha : c a <;> by_cases hl : ∃ n ∈ l, c n <;> simp [ha, hl]

theorem foldl_ite_last {α β : Type} (c : α → Bool) (v : α → β) (l : List α) (e : β) :
    l.foldl (fun e s => if c s then v s else e) e =
      (l.reverse.find? c).elim e v := by
  induction l using List.reverseRecOn generalizing e with
  | nil => rfl
  | append_singleton l s ih =>
    rw [List.foldl_append, List.reverse_append]
    simp only [List.foldl_cons, List.foldl_nil, List.reverse_cons, List.reverse_nil, List.nil_append,
      List.cons_append, List.find?_cons]
    cases h : c s
    · simp [ih]
    · simp

/-- The shape covers the point by a translate inside the window. -/
def WinCovers {K : Type} [Field K] (lat : Lat K) (s : Shape K) (n : Nat) (p : K × K) : Prop :=
  ∃ n1 ∈ symRange n, ∃ n2 ∈ symRange n,
    s.isInside (p.1 + n1 * lat.a1.1 + n2 * lat.a2.1, p.2 + n1 * lat.a1.2 + n2 * lat.a2.2) = true

section
variable {K : Type} [Field K] [LinearOrder K]

open Classical in
theorem epsAt_eq (lat : Lat K) (l : Layer K) (n : Nat) (p : K × K) :
    l.epsAt lat n p =
      (l.shapes.reverse.find? (fun s => decide (WinCovers lat s n p))).elim l.epsB Shape.eps := by
  unfold Layer.epsAt
  have h1 : ∀ (s : Shape K) (e : K), (symRange n).foldl (fun e n1 =>
      (symRange n).foldl (fun e n2 => epsAssign lat s n1 n2 p e) e) e =
      if decide (WinCovers lat s n p) then s.eps else e := by
    intro s e
    have h2 : ∀ (n1 : Int) (e : K), (symRange n).foldl (fun e n2 => epsAssign lat s n1 n2 p e) e =
        if (∃ n2 ∈ symRange n, s.isInside (p.1 + n1 * lat.a1.1 + n2 * lat.a2.1,
          p.2 + n1 * lat.a1.2 + n2 * lat.a2.2) = true) then s.eps else e := by
      intro n1 e
      unfold epsAssign
      exact foldl_ite_const (fun n2 : Int => s.isInside (p.1 + n1 * lat.a1.1 + n2 * lat.a2.1,
          p.2 + n1 * lat.a1.2 + n2 * lat.a2.2) = true) s.eps (symRange n) e
    simp only [h2]
    rw [foldl_ite_const (fun n1 : Int => ∃ n2 ∈ symRange n, s.isInside (p.1 + n1 * lat.a1.1 + n2 * lat.a2.1,
          p.2 + n1 * lat.a1.2 + n2 * lat.a2.2) = true)]
    by_cases hc : WinCovers lat s n p
    · rw [if_pos (by exact hc), if_pos (decide_eq_true hc)]
    · rw [if_neg (by exact hc), if_neg (by simpa using hc)]
  simp only [h1]
  convert foldl_ite_last (fun s => decide (WinCovers lat s n p)) Shape.eps l.shapes l.epsB

end

/-- Norm in the plane. -/
noncomputable def nrm (v : ℝ × ℝ) : ℝ := √(v.1 ^ 2 + v.2 ^ 2)

theorem nrm_sq (v : ℝ × ℝ) : nrm v ^ 2 = v.1 ^ 2 + v.2 ^ 2 := Real.sq_sqrt (by positivity)

theorem nrm_nonneg (v : ℝ × ℝ) : 0 ≤ nrm v := Real.sqrt_nonneg _

theorem det_le (v w : ℝ × ℝ) : |v.1 * w.2 - v.2 * w.1| ≤ nrm v * nrm w := by
  apply abs_le_of_sq_le_sq _ (mul_nonneg (nrm_nonneg _) (nrm_nonneg _))
  rw [mul_pow, nrm_sq, nrm_sq]
  nlinarith [sq_nonneg (v.1 * w.1 + v.2 * w.2)]

theorem dot_le (v w : ℝ × ℝ) : v.1 * w.1 + v.2 * w.2 ≤ nrm v * nrm w := by
  apply le_of_abs_le
  apply abs_le_of_sq_le_sq _ (mul_nonneg (nrm_nonneg _) (nrm_nonneg _))
  rw [mul_pow, nrm_sq, nrm_sq]
  nlinarith [sq_nonneg (v.1 * w.2 - v.2 * w.1)]

theorem nrm_sub_le (v w : ℝ × ℝ) : nrm (v.1 - w.1, v.2 - w.2) ≤ nrm v + nrm w := by
  apply Real.sqrt_le_iff.2
  refine ⟨add_nonneg (nrm_nonneg _) (nrm_nonneg _), ?_⟩
  have h := dot_le (-v.1, -v.2) w
  have e : nrm (-v.1, -v.2) = nrm v := by simp [nrm]
  rw [e] at h
  have := nrm_sq v; have := nrm_sq w
  simp only at *
  nlinarith

/-- The determinant (signed cell area) of two plane vectors. -/
def det2 (a1 a2 : ℝ × ℝ) : ℝ := a1.1 * a2.2 - a1.2 * a2.1

theorem coeff_bound (a1 a2 : ℝ × ℝ) (m n : ℤ) :
    |(m : ℝ)| * |det2 a1 a2| ≤ nrm (comb a1 a2 m n) * nrm a2 ∧
    |(n : ℝ)| * |det2 a1 a2| ≤ nrm (comb a1 a2 m n) * nrm a1 := by
  constructor
  · have := det_le (comb a1 a2 m n) a2
    have e : (comb a1 a2 m n).1 * a2.2 - (comb a1 a2 m n).2 * a2.1 = m * det2 a1 a2 := by
      simp only [det2, comb]; ring
    rw [e, abs_mul] at this
    exact this
  · have := det_le (comb a1 a2 m n) a1
    have e : (comb a1 a2 m n).1 * a1.2 - (comb a1 a2 m n).2 * a1.1 = -(n * det2 a1 a2) := by
      simp only [det2, comb]; ring
    rw [e, abs_neg, abs_mul] at this
    exact this

/-- The extent `sqrt(max|x|^2 + max|y|^2)` of a list of points. -/
noncomputable def extent (pts : List (ℝ × ℝ)) : ℝ :=
  √((maxAbs (pts.map Prod.fst)) ^ 2 + (maxAbs (pts.map Prod.snd)) ^ 2)

theorem le_maxAbs (l : List ℝ) (x : ℝ) (h : x ∈ l) : |x| ≤ maxAbs l := by
  induction l with
  | nil => simp at h
  | cons a l ih =>
    rcases List.mem_cons.1 h with rfl | h
    · exact le_max_left _ _
    · exact (ih h).trans (le_max_right _ _)

theorem nrm_le_extent (pts : List (ℝ × ℝ)) (p : ℝ × ℝ) (h : p ∈ pts) : nrm p ≤ extent pts := by
  apply Real.sqrt_le_sqrt
  have h1 := le_maxAbs _ _ (List.mem_map_of_mem (f := Prod.fst) h)
  have h2 := le_maxAbs _ _ (List.mem_map_of_mem (f := Prod.snd) h)
  have := sq_abs p.1; have := sq_abs p.2
  have := abs_nonneg p.1; have := abs_nonneg p.2
  nlinarith

/-- If the window is large enough compared to the extent, window covering is covering. -/
theorem winCovers_iff (a1 a2 : ℝ × ℝ) (lat : Lat ℝ) (h1 : lat.a1 = a1) (h2 : lat.a2 = a2)
    (s : Shape ℝ) (ρ R : ℝ) (hρ : 0 ≤ ρ) (hs : ∀ q, s.isInside q = true → nrm q ≤ ρ)
    (p : ℝ × ℝ) (hp : nrm p ≤ R) (n : Nat)
    (hdet : det2 a1 a2 ≠ 0)
    (hn : (R + ρ) * max (nrm a1) (nrm a2) < (n + 1) * |det2 a1 a2|) :
    WinCovers lat s n p ↔ Covers a1 a2 (fun q => s.isInside q = true) p := by
  have hassoc : ∀ k1 k2 : ℤ, (p.1 + k1 * lat.a1.1 + k2 * lat.a2.1, p.2 + k1 * lat.a1.2 + k2 * lat.a2.2) =
      (p.1 + (comb a1 a2 k1 k2).1, p.2 + (comb a1 a2 k1 k2).2) := by
    intro k1 k2; rw [h1, h2]; simp only [comb, Prod.mk.injEq]; constructor <;> ring
  constructor
  · rintro ⟨k1, _, k2, _, h⟩
    exact ⟨k1, k2, by rw [← hassoc]; exact h⟩
  · rintro ⟨k1, k2, h⟩
    have hb := hs _ h
    have hv : nrm (comb a1 a2 k1 k2) ≤ R + ρ := by
      have := nrm_sub_le (p.1 + (comb a1 a2 k1 k2).1, p.2 + (comb a1 a2 k1 k2).2) p
      have e : ((p.1 + (comb a1 a2 k1 k2).1) - p.1, (p.2 + (comb a1 a2 k1 k2).2) - p.2) =
        comb a1 a2 k1 k2 := by ext <;> simp
      simp only at this
      rw [e] at this
      linarith
    obtain ⟨hm, hn'⟩ := coeff_bound a1 a2 k1 k2
    have hpos : 0 < |det2 a1 a2| := abs_pos.2 hdet
    have key : ∀ k : ℤ, ∀ w : ℝ × ℝ, nrm w ≤ max (nrm a1) (nrm a2) →
        |(k : ℝ)| * |det2 a1 a2| ≤ nrm (comb a1 a2 k1 k2) * nrm w → k ∈ symRange n := by
      intro k w hw hk
      have h3 : nrm (comb a1 a2 k1 k2) * nrm w ≤ (R + ρ) * max (nrm a1) (nrm a2) :=
        mul_le_mul hv hw (nrm_nonneg _) ((nrm_nonneg _).trans hv)
      have h4 : |(k : ℝ)| < n + 1 := by
        have := (hk.trans h3).trans_lt hn
        exact lt_of_mul_lt_mul_right this hpos.le
      rw [mem_symRange]
      have h5 : |k| < (n : ℤ) + 1 := by exact_mod_cast h4
      have := abs_lt.1 h5
      omega
    exact ⟨k1, key k1 a2 (le_max_right _ _) hm, k2, key k2 a1 (le_max_left _ _) hn', by
      rw [hassoc]; exact h⟩

theorem find?_map_congr {α β : Type} (l : List α) (f : α → β) (c : α → Bool) (d : β → Bool)
    (h : ∀ a ∈ l, c a = d (f a)) : (l.map f).find? d = (l.find? c).map f := by
  induction l with
  | nil => rfl
  | cons a l ih =>
    have := ih (fun a ha => h a (by simp [ha]))
    simp only [List.map_cons, List.find?_cons, ← h a (by simp), this]
    cases c a <;> rfl

end Legume
