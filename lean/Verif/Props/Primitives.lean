import Verif.Model.Primitives
import Mathlib.Analysis.Calculus.Deriv.Mul
import Mathlib.Analysis.Calculus.Deriv.Comp
import Mathlib.Analysis.Calculus.FDeriv.Mul
import Mathlib.Analysis.Calculus.Deriv.Prod
import Mathlib.Analysis.Matrix.Normed
import Mathlib.Analysis.Calculus.Deriv.Add
import Mathlib.Analysis.Calculus.FDeriv.Prod
import Mathlib.Analysis.Complex.RealDeriv
import Mathlib.Analysis.SpecialFunctions.Sqrt
import Mathlib.Tactic.Linarith
import Mathlib.Tactic.LinearCombination
import Mathlib.Tactic.FieldSimp
import Mathlib.LinearAlgebra.Matrix.Trace

/-!
# Registered gradients: `extend`, `inv`, `interp`, `fsolve`, `fmap`, `spdot`, `sqrt`, `eig`
-/
namespace Legume
open scoped ComplexConjugate

/-- Sum of products of two lists. -/
def Spec.ldot {K : Type*} [Semiring K] (a b : List K) : K := (List.zipWith (· * ·) a b).sum

open Spec

/-! ### C46 -/

section
variable {K : Type*} [CommRing K]

theorem ldot_set (v z : List K) (i : ℕ) (x : K) (hl : v.length = z.length) (hi : i < z.length) :
    ldot v (z.set i x) = ldot v z + v.getD i 0 * (x - z.getD i 0) := by
  unfold ldot
  induction v generalizing z i with
  | nil => simp at hl; omega
  | cons a v ih =>
    cases z with
    | nil => simp at hl
    | cons b z =>
      cases i with
      | zero => simp; ring
      | succ i =>
        have := ih z i (by simpa using hl) (by simpa using hi)
        simp only [List.set_cons_succ, List.zipWith_cons_cons, List.sum_cons, List.getD_cons_succ, this]
        ring

theorem extend_loop (v : List K) (inds : List ℕ) (vals : List K) (z : List K) (hl : v.length = z.length)
    (hi : ∀ i ∈ inds, i < z.length) (hn : inds.Nodup) (hz : ∀ i ∈ inds, z.getD i 0 = 0)
    (hvl : vals.length = inds.length) :
    ldot v ((inds.zip vals).foldl (fun z iv => z.set iv.1 iv.2) z) =
      ldot v z + ldot (vjpExtend v inds) vals := by
  induction inds generalizing vals z with
  | nil => simp [vjpExtend, ldot]
  | cons i inds ih =>
    cases vals with
    | nil => simp at hvl
    | cons x vals =>
      rw [List.zip_cons_cons, List.foldl_cons]
      rw [ih vals (z.set i x) (by simpa using hl) (by simpa using fun j hj => hi j (List.mem_cons_of_mem _ hj))
        (List.nodup_cons.mp hn).2 ?_ (by simpa using hvl)]
      · rw [ldot_set v z i x hl (hi i List.mem_cons_self), hz i List.mem_cons_self]
        simp only [ldot, vjpExtend, List.map_cons, List.zipWith_cons_cons, List.sum_cons]
        ring
      · intro j hj
        have hne : i ≠ j := fun h => (List.nodup_cons.mp hn).1 (h ▸ hj)
        rw [List.getD_eq_getElem?_getD, List.getElem?_set_ne hne, ← List.getD_eq_getElem?_getD]
        exact hz j (List.mem_cons_of_mem _ hj)

/-- **C46.** For positions without repetition the registered gradient is the adjoint of `extend`, for every
number of values and every array length. -/
theorem C46_adjoint (n : ℕ) (v vals : List K) (inds : List ℕ) (hv : v.length = n) (hi : ∀ i ∈ inds, i < n)
    (hn : inds.Nodup) (hl : vals.length = inds.length) :
    ldot v (extendArr n vals inds) = ldot (vjpExtend v inds) vals := by
  unfold extendArr
  rw [extend_loop v inds vals _ (by simpa using hv) (by simpa using hi) hn ?_ hl]
  · have : ∀ (v : List K) n, ldot v (List.replicate n (0 : K)) = 0 := by
      intro v
      induction v with
      | nil => simp [ldot]
      | cons a v ih =>
        intro n
        cases n with
        | zero => simp [ldot]
        | succ n => simpa [ldot, List.replicate_succ] using ih n
    rw [this, zero_add]
  · intro i _
    simp only [List.getD_eq_getElem?_getD, List.getElem?_replicate]
    split <;> rfl

/-- **C46 (values).** What `extend` builds: the given values at the given positions, zeros elsewhere. -/
theorem C46_values (n : ℕ) (vals : List K) (inds : List ℕ) (hi : ∀ i ∈ inds, i < n) (hn : inds.Nodup)
    (hl : vals.length = inds.length) :
    (extendArr n vals inds).length = n ∧
    (∀ k, k < inds.length → (extendArr n vals inds)[inds.getD k 0]? = vals[k]?) ∧
    ∀ j, j < n → j ∉ inds → (extendArr n vals inds)[j]? = some 0 := by
  have key : ∀ (inds : List ℕ) (vals z : List K), (∀ i ∈ inds, i < z.length) → inds.Nodup →
      vals.length = inds.length →
      ((inds.zip vals).foldl (fun z iv => z.set iv.1 iv.2) z).length = z.length ∧
      (∀ k, k < inds.length → ((inds.zip vals).foldl (fun z iv => z.set iv.1 iv.2) z)[inds.getD k 0]? = vals[k]?) ∧
      ∀ j, j ∉ inds → ((inds.zip vals).foldl (fun z iv => z.set iv.1 iv.2) z)[j]? = z[j]? := by
    intro inds
    induction inds with
    | nil => intro vals z _ _ _; simp
    | cons i inds ih =>
      intro vals z hi hn hl
      cases vals with
      | nil => simp at hl
      | cons x vals =>
        obtain ⟨h1, h2, h3⟩ := ih vals (z.set i x)
          (by simpa using fun j hj => hi j (List.mem_cons_of_mem _ hj)) (List.nodup_cons.mp hn).2 (by simpa using hl)
        rw [List.zip_cons_cons, List.foldl_cons]
        refine ⟨by rw [h1, List.length_set], ?_, ?_⟩
        · intro k hk
          cases k with
          | zero =>
            have := h3 i (List.nodup_cons.mp hn).1
            simp only [List.getD_cons_zero, List.getElem?_cons_zero]
            rw [this, List.getElem?_set_self (hi i List.mem_cons_self)]
          | succ k =>
            simp only [List.getD_cons_succ, List.getElem?_cons_succ]
            exact h2 k (by simpa using hk)
        · intro j hj
          rw [List.mem_cons, not_or] at hj
          rw [h3 j hj.2, List.getElem?_set_ne (Ne.symm hj.1)]
  obtain ⟨h1, h2, h3⟩ := key inds vals (List.replicate n 0) (by simpa using hi) hn hl
  refine ⟨by simpa [extendArr] using h1, h2, fun j hj hji => ?_⟩
  rw [extendArr, h3 j hji, List.getElem?_replicate, if_pos hj]

end

/-- Two values into four places. -/
example : ldot [1, 2, 3, 4] (extendArr 4 [10, 20] [2, 0] : List ℤ) = ldot (vjpExtend [1, 2, 3, 4] [2, 0]) [10, 20] :=
  C46_adjoint 4 _ _ _ rfl (by decide) (by decide) rfl

/-- **C46 (repetition).** With a repeated position the last value wins, but the gradient is returned for
both. -/
theorem C46_repeated : ldot [1] (extendArr 1 [1, 2] [0, 0] : List ℤ) ≠ ldot (vjpExtend [1] [0, 0]) [1, 2] := by
  decide

/-! ### C49 -/

section
variable {N : ℕ}

/-- **C49 (pairing).** The registered gradient of `inv` pairs with a change `dA` as `g` pairs with
`-A⁻¹ dA A⁻¹`. -/
theorem C49_pairing (B g dA : Matrix (Fin N) (Fin N) ℂ) :
    ∑ i, ∑ j, vjpInv B g i j * dA i j = ∑ i, ∑ j, g i j * (-(B * dA * B)) i j := by
  have tr : ∀ X Y : Matrix (Fin N) (Fin N) ℂ, ∑ i, ∑ j, X i j * Y i j = (X.transpose * Y).trace := by
    intro X Y
    simp only [Matrix.trace, Matrix.diag, Matrix.mul_apply, Matrix.transpose_apply]
    exact Finset.sum_comm
  rw [tr, tr]
  unfold vjpInv
  rw [Matrix.transpose_neg, Matrix.transpose_mul, Matrix.transpose_mul, Matrix.transpose_transpose,
    Matrix.neg_mul, Matrix.mul_neg, Matrix.trace_neg, Matrix.trace_neg]
  congr 1
  rw [Matrix.mul_assoc, Matrix.trace_mul_comm, Matrix.mul_assoc, Matrix.mul_assoc, Matrix.mul_assoc]

attribute [local instance] Matrix.linftyOpNormedRing Matrix.linftyOpNormedAlgebra
  Matrix.linftyOpNormedAddCommGroup in
theorem inv_deriv (A : ℝ → Matrix (Fin N) (Fin N) ℂ) (A' : Matrix (Fin N) (Fin N) ℂ) (t0 : ℝ)
    (hA : ∀ i j, HasDerivAt (fun t => A t i j) (A' i j) t0) (hu : IsUnit (A t0)) (i j : Fin N) :
    HasDerivAt (fun t => (A t)⁻¹ i j) ((-((A t0)⁻¹ * A' * (A t0)⁻¹)) i j) t0 := by
  have hM : HasDerivAt A A' t0 :=
    hasDerivAt_pi.mpr fun i => hasDerivAt_pi.mpr fun j => hA i j
  obtain ⟨u, hu⟩ := hu
  have h1 : HasFDerivAt Ring.inverse
      (-ContinuousLinearMap.mulLeftRight ℝ (Matrix (Fin N) (Fin N) ℂ) ↑u⁻¹ ↑u⁻¹) (A t0) :=
    hu ▸ hasFDerivAt_ringInverse (𝕜 := ℝ) u
  have h2 := h1.comp_hasDerivAt t0 hM
  have h3 := hasDerivAt_pi.mp (hasDerivAt_pi.mp h2 i) j
  have e1 : (fun t => (A t)⁻¹ i j) = fun t => (Ring.inverse ∘ A) t i j := by
    ext t; rw [Matrix.nonsing_inv_eq_ringInverse]; rfl
  have e2 : (A t0)⁻¹ = ↑u⁻¹ := by
    rw [Matrix.nonsing_inv_eq_ringInverse, ← hu, Ring.inverse_unit]
  rw [e1, e2]
  exact h3

/-- **C49 (derivative).** Along every differentiable path of matrices through an invertible one, the
registered gradient paired with the derivative of the matrix is the derivative of `sum g A⁻¹`. -/
theorem C49_derivative (A : ℝ → Matrix (Fin N) (Fin N) ℂ) (A' g : Matrix (Fin N) (Fin N) ℂ) (t0 : ℝ)
    (hA : ∀ i j, HasDerivAt (fun t => A t i j) (A' i j) t0) (hu : (A t0).det ≠ 0) :
    HasDerivAt (fun t => ∑ i, ∑ j, g i j * (A t)⁻¹ i j)
      (∑ i, ∑ j, vjpInv (A t0)⁻¹ g i j * A' i j) t0 := by
  have hu' : IsUnit (A t0) := (Matrix.isUnit_iff_isUnit_det _).mpr (isUnit_iff_ne_zero.mpr hu)
  rw [C49_pairing]
  exact HasDerivAt.fun_sum fun i _ => HasDerivAt.fun_sum fun j _ =>
    (inv_deriv A A' t0 hA hu' i j).const_mul _

/-- Non-trivial instance: `A = 1 + t S` for any matrix `S`. -/
example (S g : Matrix (Fin N) (Fin N) ℂ) :
    HasDerivAt (fun t : ℝ => ∑ i, ∑ j, g i j * (1 + (t : ℂ) • S)⁻¹ i j)
      (∑ i, ∑ j, vjpInv (1 + ((0 : ℝ) : ℂ) • S)⁻¹ g i j * S i j) 0 := by
  refine C49_derivative (fun t => 1 + (t : ℂ) • S) S g 0 (fun i j => ?_) (by simp)
  have h := ((hasDerivAt_id (0 : ℝ)).ofReal_comp.mul_const (S i j)).const_add ((1 : Matrix (Fin N) (Fin N) ℂ) i j)
  simpa using h

end

/-! ### C50 -/

section
variable {K : Type*} [Field K] [LinearOrder K] [IsStrictOrderedRing K]

theorem searchLeft_eq (xp : List K) (h : xp.Pairwise (· < ·)) (k : ℕ) (x : K) (hk : k + 1 < xp.length)
    (h0 : xp.getD k 0 < x) (h1 : x ≤ xp.getD (k + 1) 0) : searchLeft xp x = k + 1 := by
  unfold searchLeft
  induction xp generalizing k with
  | nil => simp at hk
  | cons a xp ih =>
    obtain ⟨ha, hp⟩ := List.pairwise_cons.mp h
    cases k with
    | zero =>
      rw [List.getD_cons_zero] at h0
      rw [List.filter_cons_of_pos (by simpa using h0)]
      cases xp with
      | nil => simp at hk
      | cons b xp =>
        simp only [List.getD_cons_succ, List.getD_cons_zero] at h1
        have : (b :: xp).filter (· < x) = [] := by
          rw [List.filter_eq_nil_iff]
          intro c hc
          rcases List.mem_cons.mp hc with rfl | hc
          · simpa using h1
          · simpa using h1.trans ((List.pairwise_cons.mp hp).1 c hc).le
        rw [this]; rfl
    | succ k =>
      rw [List.getD_cons_succ] at h0 h1
      have hmem : xp.getD k 0 ∈ xp := by
        rw [List.getD_eq_getElem?_getD, List.getElem?_eq_getElem (by simp at hk; omega)]
        exact List.getElem_mem _
      rw [List.filter_cons_of_pos (by simpa using (ha _ hmem).trans h0), List.length_cons,
        ih hp k (by simpa using hk) h0 h1]

theorem npInterp_eq (xp yp : List K) (h : xp.Pairwise (· < ·)) (k : ℕ) (x : K) (hk : k + 1 < xp.length)
    (h0 : xp.getD k 0 < x) (h1 : x ≤ xp.getD (k + 1) 0) :
    npInterp xp yp x = yp.getD k 0 + (yp.getD (k + 1) 0 - yp.getD k 0) / (xp.getD (k + 1) 0 - xp.getD k 0) *
      (x - xp.getD k 0) := by
  have hd0 : ∀ l : List K, l.headD 0 = l.getD 0 0 := by intro l; cases l <;> rfl
  have hdt : ∀ (l : List K) n, l.tail.getD n 0 = l.getD (n + 1) 0 := by intro l n; cases l <;> rfl
  induction xp generalizing k yp with
  | nil => simp at hk
  | cons a xp ih =>
    obtain ⟨ha, hp⟩ := List.pairwise_cons.mp h
    cases xp with
    | nil => simp at hk
    | cons b xp =>
      unfold npInterp
      cases k with
      | zero =>
        simp only [List.getD_cons_succ, List.getD_cons_zero] at h0 h1 ⊢
        rw [if_neg (not_le.mpr h0), if_pos h1, hd0, hd0, hdt]
      | succ k =>
        simp only [List.getD_cons_succ] at h0 h1
        have hmem : (b :: xp).getD k 0 ∈ b :: xp := by
          rw [List.getD_eq_getElem?_getD, List.getElem?_eq_getElem (by simp at hk ⊢; omega)]
          exact List.getElem_mem _
        have hax : a < x := (ha _ hmem).trans h0
        have hbx : b < x := by
          rcases Nat.eq_zero_or_pos k with rfl | hkp
          · simpa using h0
          · obtain ⟨k', rfl⟩ : ∃ k', k = k' + 1 := ⟨k - 1, by omega⟩
            rw [List.getD_cons_succ] at h0
            have hm : xp.getD k' 0 ∈ xp := by
              rw [List.getD_eq_getElem?_getD, List.getElem?_eq_getElem (by simp at hk; omega)]
              exact List.getElem_mem _
            exact ((List.pairwise_cons.mp hp).1 _ hm).trans h0
        rw [if_neg (not_le.mpr hax), if_neg (not_le.mpr hbx), ih yp.tail hp k (by simpa using hk) h0 h1, hdt, hdt]
        simp only [List.getD_cons_succ]

theorem ldot_two (n i j : ℕ) (hi : i < n) (hj : j < n) (hij : i ≠ j) (a b : K) (y : List K) (hy : y.length = n) :
    ldot (((List.replicate n 0).set i a).set j b) y = a * y.getD i 0 + b * y.getD j 0 := by
  have hc : ∀ u v : List K, ldot u v = ldot v u := by
    intro u v; unfold ldot
    rw [List.zipWith_comm]; congr 2; funext x y; exact mul_comm _ _
  rw [hc, ldot_set _ _ _ _ (by simp [hy]) (by simpa using hj), ldot_set _ _ _ _ (by simp [hy]) (by simpa using hi)]
  have h0 : ldot y (List.replicate n (0 : K)) = 0 := by
    clear hy
    induction y generalizing n with
    | nil => simp [ldot]
    | cons c y ih =>
      cases n with
      | zero => simp [ldot]
      | succ n =>
        have : ∀ (y : List K) n, ldot y (List.replicate n (0 : K)) = 0 := by
          intro v
          induction v with
          | nil => simp [ldot]
          | cons a v ih =>
            intro n
            cases n with
            | zero => simp [ldot]
            | succ n => simpa [ldot, List.replicate_succ] using ih n
        exact this _ _
  rw [h0, List.getD_eq_getElem?_getD (l := (List.replicate n 0).set i a), List.getElem?_set_ne hij]
  have hr : ∀ m : ℕ, ((List.replicate n (0 : K))[m]?).getD 0 = 0 := by
    intro m; rw [List.getElem?_replicate]; split <;> rfl
  rw [List.getD_eq_getElem?_getD (l := List.replicate n 0), hr, hr]
  ring

/-- A point of the interval lies in a half-open gap or at the first sample. -/
theorem exists_gap (xp : List K) (x : K) (h0 : xp.headD 0 < x) (h1 : ∃ k, k < xp.length ∧ x ≤ xp.getD k 0) :
    ∃ k, k + 1 < xp.length ∧ xp.getD k 0 < x ∧ x ≤ xp.getD (k + 1) 0 := by
  classical
  let k := Nat.find h1
  obtain ⟨hk1, hk2⟩ := Nat.find_spec h1
  have hk0 : k ≠ 0 := by
    intro h
    have hk2' : x ≤ xp.getD k 0 := hk2
    rw [h] at hk2'
    have : xp.headD 0 = xp.getD 0 0 := by cases xp <;> rfl
    rw [this] at h0
    exact absurd h0 (not_lt.mpr hk2')
  refine ⟨k - 1, ?_, ?_, ?_⟩
  · have : k < xp.length := hk1
    omega
  · by_contra hc
    exact Nat.find_min h1 (show k - 1 < Nat.find h1 by change k - 1 < k; omega)
      ⟨by have : k < xp.length := hk1; omega, not_lt.mp hc⟩
  · rw [show k - 1 + 1 = k by omega]; exact hk2

/-- **C50 (one point).** For increasing samples and a query point inside the sampled interval, the row of
weights is defined and applied to any sampled values gives the interpolated value. -/
theorem C50_row (xp yp : List K) (h : xp.Pairwise (· < ·)) (hn : 2 ≤ xp.length) (hy : yp.length = xp.length)
    (x : K) (h0 : xp.getD 0 0 ≤ x) (h1 : x ≤ xp.getD (xp.length - 1) 0) :
    ∃ row, interpRow xp x = .ok row ∧ row.length = xp.length ∧ ldot row yp = npInterp xp yp x := by
  have hhd : ∀ l : List K, l.headD 0 = l.getD 0 0 := by intro l; cases l <;> rfl
  rcases h0.lt_or_eq with h0 | h0
  · obtain ⟨k, hk, hk0, hk1⟩ := exists_gap xp x (by rw [hhd]; exact h0) ⟨_, by omega, h1⟩
    have hs := searchLeft_eq xp h k x hk hk0 hk1
    refine ⟨((List.replicate xp.length 0).set k (1 - (x - xp.getD k 0) / (xp.getD (k + 1) 0 - xp.getD k 0))).set
      (k + 1) ((x - xp.getD k 0) / (xp.getD (k + 1) 0 - xp.getD k 0)), ?_, ?_, ?_⟩
    · unfold interpRow
      simp only [hs]
      rw [if_neg (by omega), if_neg (by omega)]
      rfl
    · simp
    · rw [ldot_two _ _ _ (by omega) hk (by omega) _ _ _ hy, npInterp_eq xp yp h k x hk hk0 hk1]
      have : xp.getD (k + 1) 0 - xp.getD k 0 ≠ 0 := by
        have := hk0.trans_le hk1
        rw [sub_ne_zero]; exact this.ne'
      field_simp
      ring
  · have hs : searchLeft xp x = 0 := by
      unfold searchLeft
      rw [List.length_eq_zero_iff, List.filter_eq_nil_iff]
      intro c hc
      cases xp with
      | nil => simp at hc
      | cons a xp =>
        rw [List.getD_cons_zero] at h0
        subst h0
        rcases List.mem_cons.mp hc with rfl | hc
        · simp
        · simpa using ((List.pairwise_cons.mp h).1 c hc).le
    have hlast : xp.getD 0 0 < xp.getD (xp.length - 1) 0 := by
      cases xp with
      | nil => simp at hn
      | cons a xp =>
        simp only [List.getD_cons_zero, List.length_cons, Nat.add_sub_cancel]
        obtain ⟨m, hm⟩ : ∃ m, xp.length = m + 1 := ⟨xp.length - 1, by simp at hn; omega⟩
        rw [hm, List.getD_cons_succ]
        refine (List.pairwise_cons.mp h).1 _ ?_
        rw [List.getD_eq_getElem?_getD, List.getElem?_eq_getElem (by omega)]
        exact List.getElem_mem _
    refine ⟨((List.replicate xp.length 0).set (xp.length - 1)
      (1 - (x - xp.getD (xp.length - 1) 0) / (xp.getD 0 0 - xp.getD (xp.length - 1) 0))).set
      0 ((x - xp.getD (xp.length - 1) 0) / (xp.getD 0 0 - xp.getD (xp.length - 1) 0)), ?_, ?_, ?_⟩
    · unfold interpRow
      simp only [hs, if_true]
      rw [if_neg (by omega)]
    · simp
    · rw [ldot_two _ _ _ (by omega) (by omega) (by omega) _ _ _ hy]
      have ht : (x - xp.getD (xp.length - 1) 0) / (xp.getD 0 0 - xp.getD (xp.length - 1) 0) = 1 := by
        rw [h0, div_self]; rw [sub_ne_zero, ← h0]; exact hlast.ne
      rw [ht]
      have : npInterp xp yp x = yp.getD 0 0 := by
        match xp, hn, h0 with
        | a :: b :: xp, _, h0 =>
          unfold npInterp
          rw [List.getD_cons_zero] at h0
          rw [if_pos h0.ge, hhd]
      rw [this]; ring

/-- **C50.** For query points inside the sampled interval the registered gradient is the adjoint of the
interpolation, for any number of samples (at least two) and query points. -/
theorem C50_adjoint (xp yp : List K) (h : xp.Pairwise (· < ·)) (hn : 2 ≤ xp.length) (hy : yp.length = xp.length)
    (g x : List K) (hg : g.length = x.length)
    (hx : ∀ q ∈ x, xp.getD 0 0 ≤ q ∧ q ≤ xp.getD (xp.length - 1) 0) :
    ∃ r, vjpInterp g x xp = .ok r ∧ ldot r yp = ldot g (x.map (npInterp xp yp)) := by
  have hrows : ∃ rows : List (List K), x.mapM (interpRow xp) = .ok rows ∧ rows.length = x.length ∧
      (∀ r ∈ rows, r.length = xp.length) ∧ rows.map (fun r => ldot r yp) = x.map (npInterp xp yp) := by
    clear hg
    induction x with
    | nil => exact ⟨[], rfl, rfl, by simp, rfl⟩
    | cons q x ih =>
      obtain ⟨rows, e1, e2, e3, e4⟩ := ih fun q' hq' => hx q' (List.mem_cons_of_mem _ hq')
      obtain ⟨row, f1, f2, f3⟩ := C50_row xp yp h hn hy q (hx q List.mem_cons_self).1 (hx q List.mem_cons_self).2
      refine ⟨row :: rows, ?_, by simp [e2], ?_, by simp [e4, f3]⟩
      · rw [List.mapM_cons, f1, e1]; rfl
      · intro r hr
        rcases List.mem_cons.mp hr with rfl | hr
        · exact f2
        · exact e3 r hr
  obtain ⟨rows, e1, e2, e3, e4⟩ := hrows
  refine ⟨(List.range xp.length).map fun (k : ℕ) =>
    (List.zipWith (fun gi (row : List K) => gi * row.getD k 0) g rows).sum, ?_, ?_⟩
  · unfold vjpInterp
    rw [e1]
    rfl
  · rw [← e4]
    have hadd : ∀ (n : ℕ) (f f' : ℕ → K) (y : List K),
        ldot ((List.range n).map fun (k : ℕ) => f k + f' k) y =
          ldot ((List.range n).map f) y + ldot ((List.range n).map f') y := by
      intro n f f' y
      unfold ldot
      rw [List.zipWith_map_left, List.zipWith_map_left, List.zipWith_map_left]
      generalize List.range n = l
      induction l generalizing y with
      | nil => simp
      | cons a l ih =>
        cases y with
        | nil => simp
        | cons b y => simp only [List.zipWith_cons_cons, List.sum_cons, ih]; ring
    have hscale : ∀ (c : K) (row y : List K), row.length = xp.length →
        ldot ((List.range xp.length).map fun (k : ℕ) => c * row.getD k 0) y = c * ldot row y := by
      intro c row y hr
      rw [← hr]
      have : (List.range row.length).map (fun (k : ℕ) => c * row.getD k 0) = row.map (c * ·) := by
        apply List.ext_getElem
        · simp
        · intro i hi1 hi2
          simp only [List.getElem_map, List.getElem_range, List.getD_eq_getElem?_getD]
          rw [List.getElem?_eq_getElem (by simpa using hi1), Option.getD_some]
      rw [this]
      unfold ldot
      rw [List.zipWith_map_left]
      clear this hr
      induction row generalizing y with
      | nil => simp
      | cons a row ih =>
        cases y with
        | nil => simp
        | cons b y => simp only [List.zipWith_cons_cons, List.sum_cons, ih]; ring
    have hl : g.length = rows.length := by rw [hg, e2]
    clear e1 e2 e4 hx hg
    induction rows generalizing g with
    | nil =>
      have : g = [] := by simpa using hl
      subst this
      have hz := hscale 0 (List.replicate xp.length 0) yp (by simp)
      simp only [zero_mul] at hz
      simpa [ldot] using hz
    | cons row rows ih =>
      cases g with
      | nil => simp at hl
      | cons c g =>
        simp only [List.zipWith_cons_cons, List.sum_cons]
        rw [hadd, hscale c row yp (e3 row List.mem_cons_self),
          ih g (fun r hr => e3 r (List.mem_cons_of_mem _ hr)) (by simpa using hl)]
        simp [ldot]

end

/-- Three samples, query points at both ends and between. -/
example : ∃ r, vjpInterp (K := ℚ) [1, 2, 3] [0, 3 / 2, 4] [0, 1, 4] = .ok r ∧
    ldot r [5, 7, 1] = ldot [1, 2, 3] ([0, 3 / 2, 4].map (npInterp [0, 1, 4] [5, 7, 1])) :=
  C50_adjoint [0, 1, 4] [5, 7, 1] (by decide +kernel) (by decide) rfl [1, 2, 3] [0, 3 / 2, 4] rfl (by decide +kernel)

/-- **C50 (outside).** Below the first sample, where `np.interp` is constant, the weights are not those of
the interpolation; above the last one the gradient raises `IndexError`. -/
theorem C50_outside : (∃ r, vjpInterp (K := ℚ) [1] [-1] [0, 1] = .ok r ∧
      ldot r [5, 7] ≠ ldot [1] ([-1].map (npInterp [0, 1] [5, 7]))) ∧
    vjpInterp (K := ℚ) [1] [2] [0, 1] = .error .indexError := by
  refine ⟨⟨[2, -1], by decide +kernel, by decide +kernel⟩, by decide +kernel⟩

/-! ### C51 -/

/-- **C51.** Let `x` be a continuous branch of roots of `f (x, y) = 0` near `y0`, and `f` differentiable at
the root with `f_x ≠ 0`. Then the root is differentiable and the registered gradient for `g = 1` is its
derivative. -/
theorem C51_implicit (f : ℝ × ℝ → ℝ) (f' : ℝ × ℝ →L[ℝ] ℝ) (x : ℝ → ℝ) (y0 : ℝ)
    (hf : HasFDerivAt f f' (x y0, y0)) (hc : ContinuousAt x y0) (h0 : ∀ᶠ y in nhds y0, f (x y, y) = 0)
    (hx : f' (1, 0) ≠ 0) : HasDerivAt x (vjpFsolve 1 (f' (1, 0)) (f' (0, 1))) y0 := by
  set a := f' (1, 0) with ha
  set b := f' (0, 1) with hb
  have hlin : ∀ u v : ℝ, f' (u, v) = a * u + b * v := by
    intro u v
    have : ((u, v) : ℝ × ℝ) = u • (1, 0) + v • (0, 1) := by simp
    rw [this, map_add, map_smul, map_smul, smul_eq_mul, smul_eq_mul]; ring
  have hφ : Filter.Tendsto (fun y => (x y, y)) (nhds y0) (nhds (x y0, y0)) :=
    hc.prodMk Filter.tendsto_id
  have h1 := hf.isLittleO.comp_tendsto hφ
  have h2 : (fun y => (x y - x y0) + b / a * (y - y0)) =o[nhds y0] fun y => (x y - x y0, y - y0) := by
    have h3 := h1.const_mul_left (-1 / a)
    refine h3.congr' ?_ (Filter.Eventually.of_forall fun y => rfl)
    filter_upwards [h0] with y hy
    simp only [Function.comp]
    rw [hy, h0.self_of_nhds, Prod.mk_sub_mk, hlin]
    field_simp
    ring
  have h4 : (fun y => (x y - x y0, y - y0)) =O[nhds y0] fun y => y - y0 := by
    have h5 := h2.bound (show (0 : ℝ) < 1 / 2 by norm_num)
    refine Asymptotics.IsBigO.of_bound (2 * (1 + |b / a|)) ?_
    filter_upwards [h5] with y hy
    rw [Prod.norm_def] at hy ⊢
    simp only [Real.norm_eq_abs] at hy ⊢
    have e1 : |x y - x y0| ≤ |x y - x y0 + b / a * (y - y0)| + |b / a| * |y - y0| := by
      rw [← abs_mul]
      have := abs_sub (x y - x y0 + b / a * (y - y0)) (b / a * (y - y0))
      simpa using this
    have hba := abs_nonneg (b / a)
    have hyy := abs_nonneg (y - y0)
    have e2 : max |x y - x y0| |y - y0| ≤ |x y - x y0 + b / a * (y - y0)| + (1 + |b / a|) * |y - y0| := by
      apply max_le
      · nlinarith
      · nlinarith [abs_nonneg (x y - x y0 + b / a * (y - y0)), mul_nonneg hba hyy]
    nlinarith
  have h6 := h2.trans_isBigO h4
  rw [hasDerivAt_iff_isLittleO]
  refine h6.congr' (Filter.Eventually.of_forall fun y => ?_) (Filter.Eventually.of_forall fun y => rfl)
  simp only [vjpFsolve, smul_eq_mul]
  ring

/-- **C51 (chain rule).** In a larger computation `g` is the gradient with respect to the root. -/
theorem C51_chain (f : ℝ × ℝ → ℝ) (f' : ℝ × ℝ →L[ℝ] ℝ) (x : ℝ → ℝ) (y0 : ℝ)
    (hf : HasFDerivAt f f' (x y0, y0)) (hc : ContinuousAt x y0) (h0 : ∀ᶠ y in nhds y0, f (x y, y) = 0)
    (hx : f' (1, 0) ≠ 0) (F : ℝ → ℝ) (g : ℝ) (hF : HasDerivAt F g (x y0)) :
    HasDerivAt (fun y => F (x y)) (vjpFsolve g (f' (1, 0)) (f' (0, 1))) y0 := by
  have h := hF.comp y0 (C51_implicit f f' x y0 hf hc h0 hx)
  have e : vjpFsolve g (f' (1, 0)) (f' (0, 1)) = g * vjpFsolve 1 (f' (1, 0)) (f' (0, 1)) := by
    unfold vjpFsolve; ring
  rw [e]; exact h

/-- Non-trivial instance: the positive root of `x ^ 2 = y`. -/
example : HasDerivAt Real.sqrt (vjpFsolve 1 (2 * √4) (-1)) 4 := by
  have h1 : HasFDerivAt (fun p : ℝ × ℝ => p.1 ^ 2 - p.2)
      ((2 * √4) • ContinuousLinearMap.fst ℝ ℝ ℝ - ContinuousLinearMap.snd ℝ ℝ ℝ) (√4, 4) := by
    have := (hasFDerivAt_fst (𝕜 := ℝ) (p := ((√4, 4) : ℝ × ℝ))).pow 2
    have := this.sub (hasFDerivAt_snd (𝕜 := ℝ) (p := ((√4, 4) : ℝ × ℝ)))
    refine this.congr_fderiv ?_
    ext <;> simp
  have := C51_implicit _ _ Real.sqrt 4 h1 Real.continuous_sqrt.continuousAt ?_ (by simp)
  · simpa using this
  · filter_upwards [lt_mem_nhds (show (0 : ℝ) < 4 by norm_num)] with y hy
    simp [Real.sq_sqrt hy.le]

/-! ### C69 -/

/-- **C69 (spdot).** The registered gradient is the adjoint of the product with a fixed matrix. -/
theorem C69_spdot {l m n : ℕ} (sp : Matrix (Fin l) (Fin m) ℂ) (g : Matrix (Fin l) (Fin n) ℂ)
    (x : Matrix (Fin m) (Fin n) ℂ) :
    ∑ i, ∑ j, g i j * (sp * x) i j = ∑ i, ∑ j, vjpSpdot sp g i j * x i j := by
  have tr : ∀ (a : ℕ) (X Y : Matrix (Fin a) (Fin n) ℂ), ∑ i, ∑ j, X i j * Y i j = (X.transpose * Y).trace := by
    intro a X Y
    simp only [Matrix.trace, Matrix.diag, Matrix.mul_apply, Matrix.transpose_apply]
    exact Finset.sum_comm
  rw [tr, tr]
  unfold vjpSpdot
  rw [Matrix.transpose_mul, Matrix.transpose_transpose, Matrix.mul_assoc]

/-- **C69 (fmap).** If every function is differentiable along a path of parameters with the given gradient,
the registered gradient paired with the velocity is the derivative of `sum v f`. -/
theorem C69_fmap {m n : ℕ} (f : Fin m → (Fin n → ℝ) → ℝ) (grads : Fin m → Fin n → ℝ) (p : ℝ → Fin n → ℝ)
    (p' : Fin n → ℝ) (t0 : ℝ) (v : Fin m → ℝ)
    (hf : ∀ i, HasDerivAt (fun t => f i (p t)) (∑ j, grads i j * p' j) t0) :
    HasDerivAt (fun t => ∑ i, v i * f i (p t)) (∑ j, vjpFmap grads v j * p' j) t0 := by
  have h := HasDerivAt.fun_sum (u := Finset.univ) fun i _ => (hf i).const_mul (v i)
  have e : ∑ j, vjpFmap grads v j * p' j = ∑ i, v i * ∑ j, grads i j * p' j := by
    unfold vjpFmap
    simp only [Finset.sum_mul, Finset.mul_sum]
    rw [Finset.sum_comm]
    exact Finset.sum_congr rfl fun i _ => Finset.sum_congr rfl fun j _ => by ring
  rw [e]; exact h

/-- Names which exist in `primitives.py` after the module has been executed: imports and definitions at top
level (none of those needed by `vjp_maker_eig`). -/
def primitivesNames : List String :=
  ["np", "sp", "partial", "toeplitz_block", "get_value", "fsolve", "extend", "primitive", "defvjp", "vspace",
   "grad", "vector_jacobian_product", "npa", "T", "extend_ag", "vjp_maker_extend", "sqrt_ag", "vjp_maker_sqrt",
   "toeplitz_block_ag", "vjp_maker_TB_T1", "vjp_maker_TB_T2", "eigh_ag", "vjp_maker_eigh", "inv_ag",
   "vjp_maker_inv", "eigsh_ag", "vjp_maker_eigsh", "interp_ag", "vjp_maker_interp", "fsolve_ag",
   "vjp_factory_fsolve", "fmap", "vjp_maker_fmap", "eig_ag", "vjp_maker_eig", "spdot_ag", "vjp_maker_spdot"]

/-- **C69 (eig).** The gradient registered for `eig` cannot be evaluated: it uses names which are not
defined. -/
theorem C69_eig_undefined : vjpEig (fun s => decide (s ∈ primitivesNames)) = .error .nameError := by
  decide +kernel

/-- **C69 (names of eig).** Each of the four names is needed: the gradient of `eig` can be evaluated exactly when all of them
are defined. -/
theorem C69_eig_names (defined : String → Bool) :
    vjpEig defined = .ok () ↔
      defined "_matrix_diag" = true ∧ defined "_diag" = true ∧ defined "_dot" = true ∧ defined "inv" = true := by
  unfold vjpEig
  simp [List.all]

example : vjpEig (fun s => decide (s ∈ "_diag" :: "_dot" :: "inv" :: primitivesNames)) ≠ .ok () := by
  rw [Ne, C69_eig_names]
  decide +kernel

/-! ### C70 -/

/-- **C70 (value).** For non-negative arguments the gradient used for the square root is the derivative of
the square root at `x + 1e-10`; in particular it is finite at zero. -/
theorem C70_shifted (x : ℝ) (hx : 0 ≤ x) : HasDerivAt Real.sqrt (vjpSqrt x) (x + 1e-10) := by
  have hp : 0 < x + 1e-10 := by linarith [show (0 : ℝ) < 1e-10 by norm_num]
  have h := Real.hasDerivAt_sqrt hp.ne'
  convert h using 1
  unfold vjpSqrt
  have hs := Real.sq_sqrt hp.le
  have hs0 : √(x + 1e-10) ≠ 0 := (Real.sqrt_pos.mpr hp).ne'
  rw [div_eq_div_iff hp.ne' (mul_ne_zero two_ne_zero hs0)]
  linear_combination 0.5 * 2 * hs

/-- **C70 (bounds).** It is positive and at most `5e4`, smaller than the true derivative, and differs from it
by at most `1e-10 / (4 x sqrt x)`. -/
theorem C70_bounds (x : ℝ) (hx : 0 ≤ x) : 0 < vjpSqrt x ∧ vjpSqrt x ≤ 5e4 ∧
    (0 < x → vjpSqrt x < 1 / (2 * √x) ∧ 1 / (2 * √x) - vjpSqrt x ≤ 1e-10 / (4 * x * √x)) := by
  have he : (0 : ℝ) < 1e-10 := by norm_num
  have hp : 0 < x + 1e-10 := by linarith
  have hv : vjpSqrt x = 1 / (2 * √(x + 1e-10)) :=
    (C70_shifted x hx).unique (by simpa using Real.hasDerivAt_sqrt hp.ne')
  have hs0 : 0 < √(x + 1e-10) := Real.sqrt_pos.mpr hp
  rw [hv]
  refine ⟨by positivity, ?_, fun hx0 => ?_⟩
  · have h5 : (1e-5 : ℝ) ≤ √(x + 1e-10) := by
      apply Real.le_sqrt_of_sq_le
      norm_num
      exact hx
    rw [div_le_iff₀ (by positivity)]
    linarith
  · have hr : 0 < √x := Real.sqrt_pos.mpr hx0
    have hlt : √x < √(x + 1e-10) := Real.sqrt_lt_sqrt hx (by linarith)
    have hq := Real.sq_sqrt hx
    have hq' := Real.sq_sqrt hp.le
    set r := √x
    set s := √(x + 1e-10)
    refine ⟨one_div_lt_one_div_of_lt (by positivity) (by linarith), ?_⟩
    have hd : (s - r) * (s + r) = 1e-10 := by linear_combination hq' - hq
    have hsr : s - r ≤ 1e-10 / (2 * r) := by
      rw [le_div_iff₀ (by positivity), ← hd]
      nlinarith
    have e : 1 / (2 * r) - 1 / (2 * s) = (s - r) / (2 * r * s) := by field_simp
    rw [e, ← hq, show (1e-10 : ℝ) / (4 * r ^ 2 * r) = 1e-10 / (2 * r) / (2 * r * r) by field_simp; ring]
    exact div_le_div₀ (by positivity) hsr (by positivity) (by nlinarith)

/-- Finite at zero. -/
example : vjpSqrt 0 ≤ 5e4 := (C70_bounds 0 le_rfl).2.1

end Legume
