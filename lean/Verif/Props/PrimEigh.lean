import Verif.Model.Primitives
import Mathlib.Analysis.Calculus.Deriv.Mul
import Mathlib.Analysis.Calculus.Deriv.Add
import Mathlib.Analysis.Complex.RealDeriv
import Mathlib.Analysis.Calculus.Deriv.Star
import Mathlib.Tactic.Linarith
import Mathlib.Tactic.LinearCombination

/-!
# Gradients of the Hermitian eigensolvers
-/
namespace Legume
open scoped ComplexConjugate
open Finset

variable {N : ℕ}

/-- Matrix element `<x|A|y>`. -/
def sandwich (x : Fin N → ℂ) (A : Matrix (Fin N) (Fin N) ℂ) (y : Fin N → ℂ) : ℂ :=
  ∑ i, ∑ j, conj (x i) * A i j * y j

/-- autograd's pairing of a gradient with a change. -/
def pairMat (g dA : Matrix (Fin N) (Fin N) ℂ) : ℝ := ∑ i, ∑ j, (g i j * dA i j).re

theorem pair_tri (upper : Bool) (t dA : Matrix (Fin N) (Fin N) ℂ) (hA : ∀ i j, dA j i = conj (dA i j)) :
    pairMat (triEigh upper t) dA = pairMat t dA := by
  have hre : ∀ i j, (conj (t j i) * dA i j).re = (t j i * dA j i).re := by
    intro i j
    rw [hA i j]; simp only [Complex.mul_re, Complex.conj_re, Complex.conj_im]; ring
  have hd : ∀ i, (dA i i).im = 0 := fun i => Complex.conj_eq_iff_im.mp (hA i i).symm
  set c : Fin N → Fin N → Prop := fun i j => if upper = true then i < j else j < i with hc
  have hsplit : ∀ i j, (triEigh upper t i j * dA i j).re =
      (if i = j then (t i j * dA i j).re else 0) + (if c i j then (t i j * dA i j).re else 0) +
        (if c i j then (t j i * dA j i).re else 0) := by
    intro i j
    unfold triEigh
    rw [add_mul, Complex.add_re]
    have h1 : ((if i = j then ((t i j).re : ℂ) else 0) * dA i j).re =
        if i = j then (t i j * dA i j).re else 0 := by
      split_ifs with h
      · subst h; simp [hd]
      · simp
    rw [h1]
    by_cases h : c i j
    · rw [if_pos h, if_pos h, if_pos h, ← hre i j]; simp only [add_mul, Complex.add_re]; ring
    · rw [if_neg h, if_neg h, if_neg h]; simp
  unfold pairMat
  simp only [hsplit, sum_add_distrib]
  rw [show ∑ i, ∑ j, (if c i j then (t j i * dA j i).re else 0) =
      ∑ i, ∑ j, (if c j i then (t i j * dA i j).re else 0) from sum_comm]
  simp only [← sum_add_distrib]
  refine sum_congr rfl fun i _ => sum_congr rfl fun j _ => ?_
  have hc1 : c i j ↔ if upper = true then i < j else j < i := Iff.rfl
  have hc2 : c j i ↔ if upper = true then j < i else i < j := Iff.rfl
  by_cases hij : i = j
  · subst hij
    have : ¬ c i i := by rw [hc1]; split_ifs <;> exact lt_irrefl _
    simp [this]
  · rcases lt_or_gt_of_ne hij with h | h <;> cases upper <;> simp [hc1, hc2, hij, h, h.not_gt]

theorem pair_eighW (v dA : Matrix (Fin N) (Fin N) ℂ) (wg : Fin N → ℝ) :
    pairMat (vjpEighW v wg) dA = ∑ n, wg n * (sandwich (fun i => v i n) dA fun i => v i n).re := by
  unfold pairMat vjpEighW sandwich
  simp only [sum_mul, Complex.re_sum, mul_sum]
  rw [sum_congr rfl fun i _ => sum_comm, sum_comm]
  refine sum_congr rfl fun n _ => sum_congr rfl fun i _ => sum_congr rfl fun j _ => ?_
  rw [← Complex.re_ofReal_mul]
  congr 1; ring

theorem pair_eighV (w : Fin N → ℝ) (v vg dA : Matrix (Fin N) (Fin N) ℂ) :
    pairMat (vjpEighV w v vg) dA =
      (∑ n, ∑ i, vg i n * ∑ m, v i m * (eighF w m n *
        sandwich (fun i => v i m) dA fun i => v i n)).re := by
  unfold pairMat vjpEighV sandwich
  simp only [← Complex.re_sum]
  congr 1
  have h1 : ∀ a b, (∑ m, ∑ n, conj (v a m) * (eighF w m n * ∑ i, v i m * vg i n) * v b n) * dA a b =
      ∑ m, ∑ n, ∑ i, vg i n * (v i m * (eighF w m n * (conj (v a m) * dA a b * v b n))) := by
    intro a b
    simp only [sum_mul, mul_sum]
    refine sum_congr rfl fun m _ => sum_congr rfl fun n _ => sum_congr rfl fun i _ => ?_
    ring
  simp only [h1]
  simp only [mul_sum]
  -- reorder
  have e1 : ∑ a, ∑ b, ∑ m, ∑ n, ∑ i, vg i n * (v i m * (eighF w m n * (conj (v a m) * dA a b * v b n))) =
      ∑ a, ∑ b, ∑ n, ∑ i, ∑ m, vg i n * (v i m * (eighF w m n * (conj (v a m) * dA a b * v b n))) := by
    refine sum_congr rfl fun a _ => sum_congr rfl fun b _ => ?_
    rw [sum_comm]
    exact sum_congr rfl fun n _ => sum_comm
  rw [e1]
  rw [sum_congr rfl fun a _ => sum_comm, sum_comm]
  refine sum_congr rfl fun n _ => ?_
  rw [sum_congr rfl fun a _ => sum_comm, sum_comm]
  refine sum_congr rfl fun i _ => ?_
  rw [sum_congr rfl fun a _ => sum_comm, sum_comm]

/-- Solution of first-order perturbation theory for the eigenvector `n`. -/
noncomputable def perturbed (w : Fin N → ℝ) (v dA : Matrix (Fin N) (Fin N) ℂ) (i n : Fin N) : ℂ :=
  ∑ m, if m = n then 0 else v i m * (sandwich (fun i => v i m) dA (fun i => v i n) / (w n - w m))

theorem pair_eighV' (w : Fin N → ℝ) (v vg dA : Matrix (Fin N) (Fin N) ℂ) :
    pairMat (vjpEighV w v vg) dA = (∑ n, ∑ i, vg i n * perturbed w v dA i n).re := by
  rw [pair_eighV]
  congr 1
  refine sum_congr rfl fun n _ => sum_congr rfl fun i _ => ?_
  unfold perturbed eighF
  congr 1
  refine sum_congr rfl fun m _ => ?_
  by_cases h : m = n
  · simp [h]
  · simp only [h, ↓reduceIte, add_zero]
    push_cast
    ring

/-- **C48.** The gradient sits in the triangle that `eigh` reads, with a real diagonal: adding a step along it
to the stored triangle always describes a Hermitian matrix. -/
theorem C48_triangle (upper : Bool) (w wg : Fin N → ℝ) (v vg : Matrix (Fin N) (Fin N) ℂ) (i j : Fin N) :
    (vjpEigh upper w v wg vg i i).im = 0 ∧
    (i < j → vjpEigh false w v wg vg i j = 0) ∧ (j < i → vjpEigh true w v wg vg i j = 0) := by
  refine ⟨by simp [vjpEigh, triEigh], fun h => ?_, fun h => ?_⟩
  · simp [vjpEigh, triEigh, h.ne, h.not_gt]
  · simp [vjpEigh, triEigh, h.ne', h.not_gt]

example : vjpEigh false ![1, 2] 1 ![1, 0] (0 : Matrix (Fin 2) (Fin 2) ℂ) 0 1 = 0 :=
  (C48_triangle false ![1, 2] ![1, 0] 1 0 0 1).2.1 (by decide)

/-- **C48.** For every Hermitian change `dA` of the matrix, the registered gradient of `eigh` pairs with it
to the sum of the eigenvalue gradients times `<v_n|dA|v_n>` and of the eigenvector gradients times the
first-order perturbation of the eigenvectors, whichever triangle is used. -/
theorem C48_pairing (upper : Bool) (w : Fin N → ℝ) (v vg dA : Matrix (Fin N) (Fin N) ℂ) (wg : Fin N → ℝ)
    (hA : ∀ i j, dA j i = conj (dA i j)) :
    pairMat (vjpEigh upper w v wg vg) dA =
      ∑ n, wg n * (sandwich (fun i => v i n) dA fun i => v i n).re +
        (∑ n, ∑ i, vg i n * perturbed w v dA i n).re := by
  unfold vjpEigh
  rw [pair_tri upper _ dA hA]
  have hadd : ∀ s t : Matrix (Fin N) (Fin N) ℂ, pairMat (s + t) dA = pairMat s dA + pairMat t dA := by
    intro s t
    unfold pairMat
    simp only [← sum_add_distrib, Matrix.add_apply, add_mul, Complex.add_re]
  rw [hadd, pair_eighW]
  congr 1
  split_ifs with h
  · subst h; simp [pairMat]
  · exact pair_eighV' w v vg dA

/-- **C48 (eigenvalues only).** Without a gradient for the eigenvectors nothing is divided by differences
of eigenvalues, so degenerate eigenvalues are allowed. -/
theorem C48_eigenvalues (upper : Bool) (w : Fin N → ℝ) (v dA : Matrix (Fin N) (Fin N) ℂ) (wg : Fin N → ℝ)
    (hA : ∀ i j, dA j i = conj (dA i j)) :
    pairMat (vjpEigh upper w v wg 0) dA = ∑ n, wg n * (sandwich (fun i => v i n) dA fun i => v i n).re := by
  rw [C48_pairing upper w v 0 dA wg hA]; simp

section
variable (A : ℝ → Matrix (Fin N) (Fin N) ℂ) (A' : Matrix (Fin N) (Fin N) ℂ) (t0 : ℝ)

/-- One differentiable eigenpair: the derivative of the eigenvalue equation. -/
theorem eig_deriv (hA : ∀ i j, HasDerivAt (fun t => A t i j) (A' i j) t0) (w : ℝ → ℝ) (w' : ℝ)
    (hw : HasDerivAt w w' t0) (v : ℝ → Fin N → ℂ) (v' : Fin N → ℂ) (hv : ∀ i, HasDerivAt (fun t => v t i) (v' i) t0)
    (he : ∀ t i, ∑ j, A t i j * v t j = w t * v t i) (i : Fin N) :
    ∑ j, (A' i j * v t0 j + A t0 i j * v' j) = w' * v t0 i + w t0 * v' i := by
  have h1 : HasDerivAt (fun t => ∑ j, A t i j * v t j) (∑ j, (A' i j * v t0 j + A t0 i j * v' j)) t0 :=
    HasDerivAt.fun_sum fun j _ => (hA i j).mul (hv j)
  have h2 : HasDerivAt (fun t => (w t : ℂ) * v t i) (w' * v t0 i + w t0 * v' i) t0 :=
    hw.ofReal_comp.mul (hv i)
  have : (fun t => ∑ j, A t i j * v t j) = fun t => (w t : ℂ) * v t i := by ext t; exact he t i
  rw [this] at h1
  exact h1.unique h2

/-- Projecting on another eigenvector of the Hermitian matrix. -/
theorem eig_project (hH : ∀ i j, A t0 j i = conj (A t0 i j)) (a b b' : ℝ) (x y y' : Fin N → ℂ)
    (hx : ∀ i, ∑ j, A t0 i j * x j = a * x i)
    (h : ∀ i, ∑ j, (A' i j * y j + A t0 i j * y' j) = b' * y i + b * y' i) :
    sandwich x A' y = b' * ∑ i, conj (x i) * y i + (b - a) * ∑ i, conj (x i) * y' i := by
  have hc : ∀ j, ∑ i, conj (x i) * A t0 i j = a * conj (x j) := by
    intro j
    have := congrArg conj (hx j)
    rw [map_sum, map_mul, Complex.conj_ofReal] at this
    rw [← this]
    refine sum_congr rfl fun i _ => ?_
    rw [map_mul, ← hH]; ring
  have h3 : ∑ i, conj (x i) * ∑ j, (A' i j * y j + A t0 i j * y' j) =
      ∑ i, conj (x i) * (b' * y i + b * y' i) := sum_congr rfl fun i _ => by rw [h i]
  have h4 : ∑ i, conj (x i) * ∑ j, (A' i j * y j + A t0 i j * y' j) =
      sandwich x A' y + ∑ j, (∑ i, conj (x i) * A t0 i j) * y' j := by
    unfold sandwich
    simp only [mul_sum, mul_add, sum_add_distrib, sum_mul]
    congr 1
    · exact sum_congr rfl fun i _ => sum_congr rfl fun j _ => by ring
    · rw [sum_comm]
      exact sum_congr rfl fun i _ => sum_congr rfl fun j _ => by ring
  rw [h4] at h3
  simp only [hc] at h3
  have h5 : ∑ i, conj (x i) * (b' * y i + b * y' i) =
      b' * ∑ i, conj (x i) * y i + b * ∑ i, conj (x i) * y' i := by
    simp only [mul_add, sum_add_distrib, mul_sum]
    congr 1 <;> exact sum_congr rfl fun i _ => by ring
  have h6 : ∑ j, (a : ℂ) * conj (x j) * y' j = a * ∑ i, conj (x i) * y' i := by
    rw [mul_sum]; exact sum_congr rfl fun i _ => by ring
  rw [h5, h6] at h3
  linear_combination h3

/-- **C48 (derivative).** Let a Hermitian matrix and a complete set of eigenpairs depend differentiably on
a parameter. Then the registered gradient paired with the derivative of the matrix is the derivative of
`sum wg w + Re sum vg v`. The eigenvalues must be distinct where `vg` acts, and `vg` must not look at the
arbitrary phases of the eigenvectors (or the phases are chosen such that `<v_n|v_n'> = 0`). -/
theorem C48_derivative (upper : Bool) (hA : ∀ i j, HasDerivAt (fun t => A t i j) (A' i j) t0)
    (hH : ∀ t i j, A t j i = conj (A t i j))
    (w : ℝ → Fin N → ℝ) (w' : Fin N → ℝ) (hw : ∀ n, HasDerivAt (fun t => w t n) (w' n) t0)
    (v : ℝ → Matrix (Fin N) (Fin N) ℂ) (v' : Matrix (Fin N) (Fin N) ℂ)
    (hv : ∀ i n, HasDerivAt (fun t => v t i n) (v' i n) t0)
    (he : ∀ t i n, ∑ j, A t i j * v t j n = w t n * v t i n)
    (ho : ∀ m n, ∑ i, conj (v t0 i m) * v t0 i n = if m = n then 1 else 0)
    (hcomp : ∀ i j, ∑ n, v t0 i n * conj (v t0 j n) = if i = j then 1 else 0)
    (wg : Fin N → ℝ) (vg : Matrix (Fin N) (Fin N) ℂ)
    (hd : ∀ m n, m ≠ n → (∃ i, vg i n ≠ 0) → w t0 m ≠ w t0 n)
    (hph : ∀ n, ((∑ i, vg i n * v t0 i n) * ∑ j, conj (v t0 j n) * v' j n).re = 0) :
    HasDerivAt (fun t => ∑ n, wg n * w t n + (∑ n, ∑ i, vg i n * v t i n).re)
      (pairMat (vjpEigh upper (w t0) (v t0) wg vg) A') t0 := by
  have hA'H : ∀ i j, A' j i = conj (A' i j) := by
    intro i j
    have h1 := (hA i j).star
    have h2 : (fun t => star (A t i j)) = fun t => A t j i := by ext t; exact (hH t i j).symm
    rw [h2] at h1
    exact (hA j i).unique h1
  have hpr : ∀ m n, sandwich (fun i => v t0 i m) A' (fun i => v t0 i n) =
      w' n * (if m = n then 1 else 0) + (w t0 n - w t0 m) * ∑ i, conj (v t0 i m) * v' i n := by
    intro m n
    rw [← ho m n]
    exact eig_project A A' t0 (hH t0) _ _ _ _ _ _ (fun i => he t0 i m)
      (eig_deriv A A' t0 hA (fun t => w t n) _ (hw n) (fun t i => v t i n) _ (fun i => hv i n) fun t i => he t i n)
  have hF : HasDerivAt (fun t => ∑ n, wg n * w t n + (∑ n, ∑ i, vg i n * v t i n).re)
      (∑ n, wg n * w' n + (∑ n, ∑ i, vg i n * v' i n).re) t0 := by
    refine HasDerivAt.add (HasDerivAt.fun_sum fun n _ => (hw n).const_mul _) ?_
    have h1 : HasDerivAt (fun t => ∑ n, ∑ i, vg i n * v t i n) (∑ n, ∑ i, vg i n * v' i n) t0 :=
      HasDerivAt.fun_sum fun n _ => HasDerivAt.fun_sum fun i _ => (hv i n).const_mul _
    exact (Complex.reCLM.hasFDerivAt.comp_hasDerivAt t0 h1)
  convert hF using 1
  rw [C48_pairing upper _ _ _ _ _ hA'H]
  congr 1
  · refine sum_congr rfl fun n _ => ?_
    rw [hpr n n]; simp
  · rw [Complex.re_sum, Complex.re_sum]
    refine sum_congr rfl fun n _ => ?_
    by_cases hz : ∃ i, vg i n ≠ 0
    · have hexp : ∀ i, v' i n = perturbed (w t0) (v t0) A' i n +
          v t0 i n * ∑ j, conj (v t0 j n) * v' j n := by
        intro i
        have h1 : v' i n = ∑ m, v t0 i m * ∑ j, conj (v t0 j m) * v' j n := by
          simp only [mul_sum]
          rw [sum_comm]
          rw [sum_congr rfl fun j _ => show ∑ m, v t0 i m * (conj (v t0 j m) * v' j n) =
            (if i = j then 1 else 0) * v' j n by
              rw [← hcomp i j, sum_mul]; exact sum_congr rfl fun m _ => by ring]
          simp
        rw [h1]
        unfold perturbed
        rw [← sum_erase_add _ _ (mem_univ n), ← sum_erase_add (a := n) univ
          (fun m => if m = n then (0 : ℂ) else _) (mem_univ n)]
        simp only [↓reduceIte, add_zero]
        congr 1
        refine sum_congr rfl fun m hm => ?_
        have hmn : m ≠ n := (mem_erase.mp hm).1
        rw [if_neg hmn, hpr m n, if_neg hmn, mul_zero, zero_add]
        have : (w t0 n : ℂ) - w t0 m ≠ 0 := by
          rw [sub_ne_zero]; exact_mod_cast (hd m n hmn hz).symm
        field_simp
      have : ∑ i, vg i n * v' i n = ∑ i, vg i n * perturbed (w t0) (v t0) A' i n +
          (∑ i, vg i n * v t0 i n) * ∑ j, conj (v t0 j n) * v' j n := by
        rw [sum_mul, ← sum_add_distrib]
        refine sum_congr rfl fun i _ => ?_
        rw [hexp i]
        ring
      rw [this, Complex.add_re, hph n, add_zero]
    · push Not at hz
      simp [hz]

/-- **C69 (eigsh).** Let a Hermitian matrix and `k` normalised eigenpairs depend differentiably on a
parameter. Whatever solution of its linear system the conjugate-gradient solver returns, the registered
gradient of `eigsh` paired with the derivative of the matrix is the derivative of
`sum ag w + Re sum vg v`; `vg` must not look at the arbitrary phases. -/
theorem C69_eigsh_derivative {k : ℕ} (hA : ∀ i j, HasDerivAt (fun t => A t i j) (A' i j) t0)
    (hH : ∀ t i j, A t j i = conj (A t i j))
    (w : ℝ → Fin k → ℝ) (w' : Fin k → ℝ) (hw : ∀ n, HasDerivAt (fun t => w t n) (w' n) t0)
    (v : ℝ → Fin k → Fin N → ℂ) (v' : Fin k → Fin N → ℂ)
    (hv : ∀ n i, HasDerivAt (fun t => v t n i) (v' n i) t0)
    (he : ∀ t n i, ∑ j, A t i j * v t n j = w t n * v t n i)
    (ho : ∀ n, ∑ i, conj (v t0 n i) * v t0 n i = 1)
    (ag : Fin k → ℝ) (vg l : Fin k → Fin N → ℂ)
    (hl : ∀ n, vg n ≠ 0 → CgSolves (A t0) (w t0 n) (v t0 n) (vg n) (l n))
    (hph : ∀ n, ((∑ i, v t0 n i * vg n i) * ∑ j, conj (v t0 n j) * v' n j).re = 0) :
    HasDerivAt (fun t => ∑ n, ag n * w t n + (∑ n, ∑ i, vg n i * v t n i).re)
      (pairMat (vjpEigsh (v t0) ag vg l) A') t0 := by
  have hdv : ∀ n i, ∑ j, (A' i j * v t0 n j + A t0 i j * v' n j) = w' n * v t0 n i + w t0 n * v' n i :=
    fun n i => eig_deriv A A' t0 hA (fun t => w t n) _ (hw n) (fun t i => v t n i) _ (fun i => hv n i)
      (fun t i => he t n i) i
  have hpr : ∀ n, sandwich (v t0 n) A' (v t0 n) = w' n := by
    intro n
    rw [eig_project A A' t0 (hH t0) _ _ _ _ _ _ (fun i => he t0 n i) (hdv n), ho n]; simp
  have hF : HasDerivAt (fun t => ∑ n, ag n * w t n + (∑ n, ∑ i, vg n i * v t n i).re)
      (∑ n, ag n * w' n + (∑ n, ∑ i, vg n i * v' n i).re) t0 := by
    refine HasDerivAt.add (HasDerivAt.fun_sum fun n _ => (hw n).const_mul _) ?_
    have h1 : HasDerivAt (fun t => ∑ n, ∑ i, vg n i * v t n i) (∑ n, ∑ i, vg n i * v' n i) t0 :=
      HasDerivAt.fun_sum fun n _ => HasDerivAt.fun_sum fun i _ => (hv n i).const_mul _
    exact (Complex.reCLM.hasFDerivAt.comp_hasDerivAt t0 h1)
  convert hF using 1
  have hpair : pairMat (vjpEigsh (v t0) ag vg l) A' = ∑ n, (ag n * (sandwich (v t0 n) A' (v t0 n)).re -
      (∑ i, ∑ j, (if vg n = 0 then 0 else eighProj (v t0 n) (l n) i * v t0 n j) * A' i j).re) := by
    unfold pairMat vjpEigsh sandwich
    simp only [sum_mul, Complex.re_sum, mul_sum, ← sum_sub_distrib]
    rw [sum_congr rfl fun i _ => sum_comm, sum_comm]
    refine sum_congr rfl fun n _ => sum_congr rfl fun i _ => sum_congr rfl fun j _ => ?_
    rw [← Complex.re_ofReal_mul, ← Complex.sub_re]
    congr 1; ring
  rw [hpair, sum_sub_distrib, sub_eq_add_neg, ← sum_neg_distrib]
  congr 1
  · exact sum_congr rfl fun n _ => by rw [hpr n, Complex.ofReal_re]
  · rw [Complex.re_sum]
    refine sum_congr rfl fun n _ => ?_
    by_cases hz : vg n = 0
    · simp [hz]
    · simp only [if_neg hz]
      -- the vector `A' v`
      set b : Fin N → ℂ := fun i => ∑ j, A' i j * v t0 n j with hb
      have h1 : ∑ i, ∑ j, eighProj (v t0 n) (l n) i * v t0 n j * A' i j =
          ∑ i, l n i * b i - (∑ j, v t0 n j * l n j) * w' n := by
        have e1 : ∑ i, ∑ j, eighProj (v t0 n) (l n) i * v t0 n j * A' i j =
            ∑ i, eighProj (v t0 n) (l n) i * b i := by
          refine sum_congr rfl fun i _ => ?_
          rw [hb, mul_sum]; exact sum_congr rfl fun j _ => by ring
        have e2 : ∑ i, conj (v t0 n i) * b i = w' n := by
          rw [← hpr n]; unfold sandwich
          refine sum_congr rfl fun i _ => ?_
          rw [hb, mul_sum]; exact sum_congr rfl fun j _ => by ring
        rw [e1, ← e2, mul_sum, ← sum_sub_distrib]
        refine sum_congr rfl fun i _ => ?_
        unfold eighProj; ring
      have h2 : ∑ j, v' n j * eighProj (v t0 n) (vg n) j =
          ∑ i, l n i * (w' n * v t0 n i - b i) := by
        have e1 : ∀ i, ∑ j, A t0 i j * v' n j = w' n * v t0 n i + w t0 n * v' n i - b i := by
          intro i
          have := hdv n i
          rw [sum_add_distrib] at this
          rw [hb]; linear_combination this
        have e2 : ∑ j, v' n j * eighProj (v t0 n) (vg n) j =
            ∑ j, ∑ i, v' n j * ((A t0 i j - if i = j then (w t0 n : ℂ) else 0) * l n i) := by
          refine sum_congr rfl fun j _ => ?_
          rw [← hl n hz j, mul_sum]
        rw [e2, sum_comm]
        refine sum_congr rfl fun i _ => ?_
        have e3 : ∑ j, v' n j * ((A t0 i j - if i = j then (w t0 n : ℂ) else 0) * l n i) =
            (∑ j, A t0 i j * v' n j) * l n i - w t0 n * v' n i * l n i := by
          rw [sum_mul]
          have : (w t0 n : ℂ) * v' n i * l n i = ∑ j, if i = j then (w t0 n : ℂ) * v' n j * l n i else 0 := by simp
          rw [this, ← sum_sub_distrib]
          refine sum_congr rfl fun j _ => ?_
          split_ifs <;> ring
        rw [e3, e1 i]; ring
      have h3 : ∑ j, v' n j * eighProj (v t0 n) (vg n) j = ∑ i, vg n i * v' n i -
          (∑ i, v t0 n i * vg n i) * ∑ j, conj (v t0 n j) * v' n j := by
        rw [mul_sum, ← sum_sub_distrib]
        refine sum_congr rfl fun j _ => ?_
        unfold eighProj; ring
      have h4 : ∑ i, l n i * (w' n * v t0 n i - b i) = (∑ j, v t0 n j * l n j) * w' n - ∑ i, l n i * b i := by
        rw [sum_mul, ← sum_sub_distrib]
        exact sum_congr rfl fun i _ => by ring
      have h5 : ∑ i, vg n i * v' n i = -(∑ i, ∑ j, eighProj (v t0 n) (l n) i * v t0 n j * A' i j) +
          (∑ i, v t0 n i * vg n i) * ∑ j, conj (v t0 n j) * v' n j := by
        linear_combination h2 - h3 + h4 + h1
      rw [h5, Complex.add_re, hph n, add_zero, Complex.neg_re]

end

/-- Non-trivial instance of the derivative theorem: two levels approaching each other, any gradients. -/
example (wg : Fin 2 → ℝ) (vg : Matrix (Fin 2) (Fin 2) ℂ) :
    HasDerivAt (fun t : ℝ => ∑ n, wg n * (![1 + t, 3 - t] n) + (∑ n, ∑ i, vg i n * (1 : Matrix (Fin 2) (Fin 2) ℂ) i n).re)
      (pairMat (vjpEigh false ![1 + 0, 3 - 0] 1 wg vg) (Matrix.diagonal ![1, -1])) 0 := by
  refine C48_derivative (fun t => Matrix.diagonal ![1 + (t : ℂ), 3 - t]) (Matrix.diagonal ![1, -1]) 0 false ?_ ?_
    (fun t => ![1 + t, 3 - t]) ![1, -1] ?_ (fun _ => 1) 0 ?_ ?_ ?_ ?_ wg vg ?_ ?_
  · have h := (hasDerivAt_id (0 : ℝ)).ofReal_comp
    intro i j
    fin_cases i <;> fin_cases j
    · simpa using h.const_add (1 : ℂ)
    · simpa using hasDerivAt_const (0 : ℝ) (0 : ℂ)
    · simpa using hasDerivAt_const (0 : ℝ) (0 : ℂ)
    · simpa using h.const_sub (3 : ℂ)
  · intro t i j
    fin_cases i <;> fin_cases j <;> simp [map_ofNat]
  · have h := hasDerivAt_id (0 : ℝ)
    intro n
    fin_cases n
    · simpa using h.const_add (1 : ℝ)
    · simpa using h.const_sub (3 : ℝ)
  · intro i n; simpa using hasDerivAt_const (0 : ℝ) ((1 : Matrix (Fin 2) (Fin 2) ℂ) i n)
  · intro t i n
    fin_cases i <;> fin_cases n <;> simp [Fin.sum_univ_two, Matrix.one_apply]
  · intro m n
    fin_cases m <;> fin_cases n <;> simp [Fin.sum_univ_two, Matrix.one_apply]
  · intro m n
    fin_cases m <;> fin_cases n <;> simp [Fin.sum_univ_two, Matrix.one_apply]
  · intro m n h _
    fin_cases m <;> fin_cases n <;> simp at h ⊢ <;> norm_num
  · intro n; simp

end Legume
