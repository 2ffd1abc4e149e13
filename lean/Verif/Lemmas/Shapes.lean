import Mathlib.Tactic.Ring
import Mathlib.Tactic.Linarith
import Mathlib.Tactic.FieldSimp
import Mathlib.Algebra.BigOperators.Group.List.Basic
import Mathlib.Data.List.Rotate
import Verif.Model.Shapes
import Verif.Spec.Shapes

/-!
# Helper lemmas: sums over the edges of a polygon
-/
namespace Legume

open Spec

theorem edges_map (T : R2 → R2) (l : List R2) :
    edges (l.map T) = (edges l).map fun e => (T e.1, T e.2) := by
  simp only [edges, ← List.map_rotate]
  rw [List.zip_map]
  rfl

theorem edges_rotate (l : List R2) (k : Nat) : edges (l.rotate k) = (edges l).rotate k := by
  unfold edges
  rw [List.rotate_rotate, Nat.add_comm, ← List.rotate_rotate]
  have := List.zipWith_rotate_distrib Prod.mk l (l.rotate 1) k (by simp)
  simpa [List.zip] using this.symm

theorem edges_closed (v : R2) (vs : List R2) :
    edges ((v :: vs) ++ [v]) = edges (v :: vs) ++ [(v, v)] := by
  unfold edges
  rw [List.cons_append, List.rotate_cons_succ, List.rotate_cons_succ, List.rotate_zero,
    List.rotate_zero]
  rw [← List.cons_append, List.zip_append (by simp)]
  rfl

section
variable {M : Type} [AddCommMonoid M]

/-- Generic edge sum. -/
def eSum (f : R2 → R2 → M) (l : List R2) : M := ((edges l).map fun e => f e.1 e.2).sum

theorem eSum_map (f : R2 → R2 → M) (T : R2 → R2) (l : List R2) :
    eSum f (l.map T) = eSum (fun p q => f (T p) (T q)) l := by
  simp only [eSum, edges_map, List.map_map]
  rfl

theorem eSum_rotate (f : R2 → R2 → M) (l : List R2) (k : Nat) :
    eSum f (l.rotate k) = eSum f l := by
  simp only [eSum, edges_rotate]
  exact ((List.rotate_perm _ _).map _).sum_eq

theorem eSum_closed (f : R2 → R2 → M) (h : ∀ v, f v v = 0) (v : R2) (vs : List R2) :
    eSum f ((v :: vs) ++ [v]) = eSum f (v :: vs) := by
  simp only [eSum, edges_closed, List.map_append, List.sum_append]
  simp [h]

theorem eSum_congr {f g : R2 → R2 → M} (h : ∀ p q, f p q = g p q) (l : List R2) :
    eSum f l = eSum g l := by
  have : f = g := by funext p q; exact h p q
  rw [this]

end

theorem edgeSum_eq (f : R2 → R2 → ℝ) (l : List R2) : edgeSum f l = eSum f l := rfl
theorem edgeSumC_eq (f : R2 → R2 → ℂ) (l : List R2) : edgeSumC f l = eSum f l := rfl

theorem sum_map_zip_sub (h : R2 → ℝ) (l l' : List R2) (hl : l.length = l'.length) :
    ((l.zip l').map fun e => h e.2 - h e.1).sum = (l'.map h).sum - (l.map h).sum := by
  induction l generalizing l' with
  | nil => cases l' <;> simp_all
  | cons a l ih =>
    cases l' with
    | nil => simp at hl
    | cons b l' =>
      simp at hl
      simp [ih l' hl]; ring

/-- Telescoping around the closed polygon. -/
theorem eSum_telescope (h : R2 → ℝ) (l : List R2) : eSum (fun p q => h q - h p) l = 0 := by
  unfold eSum edges
  rw [sum_map_zip_sub h l (l.rotate 1) (by simp)]
  rw [((List.rotate_perm l 1).map h).sum_eq]; ring

theorem eSum_add (f g : R2 → R2 → ℝ) (l : List R2) :
    eSum (fun p q => f p q + g p q) l = eSum f l + eSum g l := by
  unfold eSum
  induction edges l with
  | nil => simp
  | cons a l ih => simp [ih]; ring

theorem eSum_mul (c : ℝ) (f : R2 → R2 → ℝ) (l : List R2) :
    eSum (fun p q => c * f p q) l = c * eSum f l := by
  unfold eSum
  induction edges l with
  | nil => simp
  | cons a l ih => simp [ih]; ring

theorem eSum_mulC (c : ℂ) (f : R2 → R2 → ℂ) (l : List R2) :
    eSum (fun p q => c * f p q) l = c * eSum f l := by
  unfold eSum
  induction edges l with
  | nil => simp
  | cons a l ih => simp [ih]; ring

theorem eSum_conj (f : R2 → R2 → ℂ) (l : List R2) :
    (starRingEnd ℂ) (eSum f l) = eSum (fun p q => (starRingEnd ℂ) (f p q)) l := by
  unfold eSum
  induction edges l with
  | nil => simp
  | cons a l ih => simp [ih]

/-- First moments of the polygon. -/
noncomputable def momX (l : List R2) : ℝ := eSum (fun p q => (p.1 + q.1) * (p.1 * q.2 - q.1 * p.2)) l
noncomputable def momY (l : List R2) : ℝ := eSum (fun p q => (p.2 + q.2) * (p.1 * q.2 - q.1 * p.2)) l

theorem centerOfMass_eq (l : List R2) (A : ℝ) :
    centerOfMass l A = (momX l / 6 / A, momY l / 6 / A) := rfl

theorem shoelace_eq (l : List R2) : shoelace l = eSum crossTerm l / 2 := rfl

theorem shoelace_rigid (c s : ℝ) (h : c ^ 2 + s ^ 2 = 1) (t : R2) (l : List R2) :
    shoelace (l.map (rigid c s t)) = shoelace l := by
  rw [shoelace_eq, shoelace_eq, eSum_map]
  congr 1
  let k : R2 → ℝ := fun p => t.1 * (s * p.1 + c * p.2) - t.2 * (c * p.1 - s * p.2)
  rw [eSum_congr (g := fun p q => crossTerm p q + (k q - k p)), eSum_add, eSum_telescope, add_zero]
  intro p q
  simp only [crossTerm, rigid, k]
  linear_combination (p.1 * q.2 - p.2 * q.1) * h

theorem momX_rigid (c s : ℝ) (h : c ^ 2 + s ^ 2 = 1) (t : R2) (l : List R2) :
    momX (l.map (rigid c s t)) = c * momX l - s * momY l + 6 * t.1 * shoelace l := by
  rw [shoelace_eq, momX, eSum_map]
  let k : R2 → ℝ := fun p => t.1 * ((c * p.1 - s * p.2) * (s * p.1 + c * p.2)) -
    t.2 * (c * p.1 - s * p.2) ^ 2 + 2 * t.1 * t.1 * (s * p.1 + c * p.2) -
    2 * t.1 * t.2 * (c * p.1 - s * p.2)
  rw [eSum_congr (g := fun p q => (c * ((p.1 + q.1) * (p.1 * q.2 - q.1 * p.2)) +
    ((-s) * ((p.2 + q.2) * (p.1 * q.2 - q.1 * p.2)) + (3 * t.1) * crossTerm p q)) + (k q - k p)),
    eSum_add, eSum_telescope, eSum_add, eSum_add, eSum_mul, eSum_mul, eSum_mul]
  · simp only [momX, momY]; ring
  intro p q
  simp only [crossTerm, rigid, k]
  linear_combination ((c * (p.1 + q.1) - s * (p.2 + q.2)) + 3 * t.1) * (p.1 * q.2 - p.2 * q.1) * h

theorem momY_rigid (c s : ℝ) (h : c ^ 2 + s ^ 2 = 1) (t : R2) (l : List R2) :
    momY (l.map (rigid c s t)) = s * momX l + c * momY l + 6 * t.2 * shoelace l := by
  rw [shoelace_eq, momY, eSum_map]
  let k : R2 → ℝ := fun p => -(t.2 * ((c * p.1 - s * p.2) * (s * p.1 + c * p.2))) +
    t.1 * (s * p.1 + c * p.2) ^ 2 - 2 * t.2 * t.2 * (c * p.1 - s * p.2) +
    2 * t.1 * t.2 * (s * p.1 + c * p.2)
  rw [eSum_congr (g := fun p q => (s * ((p.1 + q.1) * (p.1 * q.2 - q.1 * p.2)) +
    (c * ((p.2 + q.2) * (p.1 * q.2 - q.1 * p.2)) + (3 * t.2) * crossTerm p q)) + (k q - k p)),
    eSum_add, eSum_telescope, eSum_add, eSum_add, eSum_mul, eSum_mul, eSum_mul]
  · simp only [momX, momY]; ring
  intro p q
  simp only [crossTerm, rigid, k]
  linear_combination ((s * (p.1 + q.1) + c * (p.2 + q.2)) + 3 * t.2) * (p.1 * q.2 - p.2 * q.1) * h

theorem rotatePt_eq (a : ℝ) (c : R2) :
    rotatePt a c = rigid (Real.cos a) (Real.sin a)
      (c.1 - (Real.cos a * c.1 - Real.sin a * c.2), c.2 - (Real.sin a * c.1 + Real.cos a * c.2)) := by
  funext v
  simp only [rotatePt, rigid, Prod.mk.injEq]
  constructor <;> ring

/-- Sum along an open chain of vertices. -/
def chain (f : R2 → R2 → ℝ) : R2 → List R2 → ℝ
  | _, [] => 0
  | p, q :: l => f p q + chain f q l

theorem eSum_chain (f : R2 → R2 → ℝ) (v : R2) (vs : List R2) :
    eSum f (v :: vs) = chain f v vs + f ((v :: vs).getLast (by simp)) v := by
  have key : ∀ (p : R2) (l : List R2),
      (((p :: l).zip (l ++ [v])).map fun e => f e.1 e.2).sum =
        chain f p l + f ((p :: l).getLast (by simp)) v := by
    intro p l
    induction l generalizing p with
    | nil => simp [chain]
    | cons q l ih =>
      simp only [List.cons_append, List.zip_cons_cons, List.map_cons, List.sum_cons,
        ih q, chain]
      rw [show (p :: q :: l).getLast (by simp) = (q :: l).getLast (by simp) from
        List.getLast_cons _]
      ring
  have := key v vs
  simpa [eSum, edges] using this

theorem chain_fan (v p : R2) (l : List R2) :
    chain crossTerm p l + crossTerm ((p :: l).getLast (by simp)) v + crossTerm v p =
      2 * fanArea v (p :: l) := by
  induction l generalizing p with
  | nil => simp [chain, fanArea, crossTerm]; ring
  | cons q l ih =>
    have := ih q
    rw [List.getLast_cons (by simp)]
    simp only [chain, fanArea]
    simp only [crossTerm, triArea] at *
    linarith

theorem shoelace_fan (v : R2) (vs : List R2) : shoelace (v :: vs) = fanArea v vs := by
  rw [shoelace_eq, eSum_chain]
  cases vs with
  | nil => simp [chain, fanArea, crossTerm]; ring
  | cons p l =>
    have := chain_fan v p l
    rw [List.getLast_cons (by simp)]
    simp only [chain]
    linarith

theorem crossTerm_self (v : R2) : crossTerm v v = 0 := by simp [crossTerm]; ring

theorem shoelace_closed (v : R2) (vs : List R2) :
    shoelace ((v :: vs) ++ [v]) = shoelace (v :: vs) := by
  rw [shoelace_eq, shoelace_eq, eSum_closed _ crossTerm_self]

theorem polyFt_zero (vs : List R2) : polyFt vs (0, 0) = (shoelace vs : ℂ) := by
  simp [polyFt]; norm_num

theorem polyNew_ok {l : List R2} {p : Poly} (h : Poly.new l = .ok p) :
    ∃ v vs, l = v :: vs ∧ p.verts = (v :: vs) ++ [v] ∧ p.area = shoelace p.verts ∧ 0 ≤ p.area := by
  unfold Poly.new at h
  cases l with
  | nil => cases h
  | cons v vs =>
    dsimp only at h
    rw [polyFt_zero] at h
    split_ifs at h with hlt
    cases h
    refine ⟨v, vs, rfl, rfl, by simp, ?_⟩
    simpa using hlt

end Legume
