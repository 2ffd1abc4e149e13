import Mathlib.Tactic.Linarith
import Mathlib.Tactic.Ring
import Mathlib.Tactic.FieldSimp
import Mathlib.Tactic.NormNum
import Mathlib.Data.Real.Sqrt
import Verif.Model.Symmetry
import Verif.Spec.Symmetry

/-!
# Closed forms for the loops of the parity separation
-/
namespace Legume

/-- Parity of column `j` after `n` passes of the dense loop. -/
noncomputable def wDense (r : ℕ → ℕ) (n j : ℕ) : ℝ :=
  if r j = j then (if j < n then 1 else 0)
  else if j < n ∧ (r j < n → r j < j) then -1
  else if j < n ∨ r j < n then 1 else 0

/-- The closed form of a block: columns `e_j` and `(e j • e_j + e_{r j}) / √2`. -/
noncomputable def symBlock (r : ℕ → ℕ) (e : ℕ → ℝ) (i j : ℕ) : ℝ :=
  if r j = j then (if i = j then 1 else 0)
  else if i = j then e j / √2 else if i = r j then 1 / √2 else 0

theorem dense_inv (r : ℕ → ℕ) (dim : ℕ) (hr : ∀ j < dim, r j < dim) (hrr : ∀ j < dim, r (r j) = j)
    (n : ℕ) (hn : n ≤ dim) (i j : ℕ) (hi : i < dim) (hj : j < dim) :
    (denseBlock r n).2 j = wDense r n j ∧
    (denseBlock r n).1 i j =
      (if r j = j then (if i = j ∧ j < n then 1 else 0)
       else if i = j then wDense r n j / √2
       else if i = r j then (if j < n ∨ r j < n then 1 / √2 else 0) else 0) := by
  induction n generalizing i j with
  | zero => simp [denseBlock, wDense]
  | succ n ih =>
    have hnd : n < dim := hn
    have ih' := fun i j hi hj => ih (by omega) i j hi hj
    have hstep : denseBlock r (n + 1) = denseStep r (denseBlock r n) n := by
      simp [denseBlock, List.range_succ]
    rw [hstep]
    obtain ⟨h1, h2⟩ := ih' i j hi hj
    by_cases hfix : n = r n
    · simp only [denseStep, if_pos hfix, set1, set2]
      by_cases hjn : j = n
      · subst hjn
        have : r j = j := hfix.symm
        refine ⟨by simp [wDense, this], ?_⟩
        by_cases hij : i = j
        · simp [hij, this]
        · simp only [hij, false_and, if_false, this, if_true]
          rw [h2]; simp [this, hij]
      · have hrj : r j ≠ n := by
          intro h
          have := hrr j hj
          rw [h, ← hfix] at this
          exact hjn this.symm
        have hw : wDense r (n + 1) j = wDense r n j := by
          have a1 : j < n + 1 ↔ j < n := by omega
          have a2 : r j < n + 1 ↔ r j < n := by omega
          simp only [wDense, a1, a2]
        have a1 : j < n + 1 ↔ j < n := by omega
        have a2 : r j < n + 1 ↔ r j < n := by omega
        simp only [hjn, if_false, and_false, hw, a1, a2]
        exact ⟨h1, h2⟩
    · simp only [denseStep, if_neg hfix, set1, set2]
      have hfix' : r n ≠ n := fun h => hfix h.symm
      by_cases hjn : j = n
      · subst hjn
        have hjr : j ≠ r j := hfix
        have hw : wDense r (j + 1) j = -1 := by
          have : j < j + 1 ∧ (r j < j + 1 → r j < j) := ⟨by omega, by omega⟩
          unfold wDense
          rw [if_neg hfix', if_pos this]
        refine ⟨by simp [hw, hjr], ?_⟩
        by_cases hij : i = j
        · subst hij
          simp [hjr, hfix', hw]
        · by_cases hir : i = r j
          · simp [hir, hjr, hfix']
          · simp only [hij, hir, false_and, if_false, hfix', hjr, and_false]
            rw [h2]
            simp [hfix', hij, hir]
      · by_cases hjr : j = r n
        · subst hjr
          have hrn : r (r n) = n := hrr n hnd
          have hne : r n ≠ n := hfix'
          have hw : wDense r (n + 1) (r n) = 1 := by
            simp only [wDense, hrn]
            have c1 : ¬ (n = r n) := hfix
            have c2 : ¬ (r n < n + 1 ∧ (n < n + 1 → n < r n)) := by omega
            have c3 : (r n < n + 1 ∨ n < n + 1) := by omega
            simp only [c1, c2, c3, if_true, if_false]
          refine ⟨by simp [hw], ?_⟩
          by_cases hij : i = r n
          · subst hij
            simp [hrn, hfix, hw]
          · by_cases hir : i = n
            · subst hir
              simp [hrn, hfix, hfix']
            · simp only [hij, hir, false_and, if_false]
              rw [h2]
              simp [hrn, hfix, hij, hir]
        · have hrj : r j ≠ n := by
            intro h
            have := hrr j hj
            rw [h] at this
            exact hjr this.symm
          have a1 : j < n + 1 ↔ j < n := by omega
          have a2 : r j < n + 1 ↔ r j < n := by omega
          have hw : wDense r (n + 1) j = wDense r n j := by
            simp only [wDense, a1, a2]
          simp only [hjn, hjr, if_false, and_false, hw, a1, a2]
          exact ⟨h1, h2⟩

/-- Final parities of the dense loop: the larger of two partners is odd. -/
noncomputable def eDense (r : ℕ → ℕ) (j : ℕ) : ℝ := if r j < j then -1 else 1

/-- Final parities of the sparse loop: the smaller of two partners is odd. -/
noncomputable def eSparse (r : ℕ → ℕ) (j : ℕ) : ℝ := if j < r j then -1 else 1

theorem dense_closed (r : ℕ → ℕ) (dim : ℕ) (hr : ∀ j < dim, r j < dim)
    (hrr : ∀ j < dim, r (r j) = j) (i j : ℕ) (hi : i < dim) (hj : j < dim) :
    (denseBlock r dim).2 j = eDense r j ∧ (denseBlock r dim).1 i j = symBlock r (eDense r) i j := by
  obtain ⟨h1, h2⟩ := dense_inv r dim hr hrr dim le_rfl i j hi hj
  have hw : wDense r dim j = eDense r j := by
    have hrj := hr j hj
    unfold wDense eDense
    by_cases c : r j = j
    · simp [c, hj]
    · simp only [c, if_false, hj, hrj, true_and, forall_const, true_or, if_true]
  rw [h1, h2, hw]
  refine ⟨rfl, ?_⟩
  simp [symBlock, hj]

/-- The sparse loop after `n` passes. -/
theorem sparse_inv (r : ℕ → ℕ) (dim off : ℕ) (hr : ∀ j < dim, r j < dim)
    (hrr : ∀ j < dim, r (r j) = j) (n : ℕ) (hn : n ≤ dim) (i j : ℕ) (hi : i < dim) (hj : j < dim) :
    (sparseBlock r n off).check j = decide (r j ≠ j ∧ (j < n ∨ r j < n)) ∧
    (sparseBlock r n off).w j = (if j < n ∨ r j < n then eSparse r j else 0) ∧
    cooMat (sparseBlock r n off).data (i + off) (j + off) =
      (if j < n ∨ r j < n then symBlock r (eSparse r) i j else 0) := by
  induction n generalizing i j with
  | zero => simp [sparseBlock, cooMat]
  | succ n ih =>
    have hnd : n < dim := hn
    have ih' := fun i j hi hj => ih (by omega) i j hi hj
    have hstep : sparseBlock r (n + 1) off = sparseStep r off (sparseBlock r n off) n := by
      simp [sparseBlock, List.range_succ]
    have hcoo : ∀ (a b : List (ℕ × ℕ × ℝ)) (x y : ℕ), cooMat (a ++ b) x y = cooMat a x y + cooMat b x y := by
      intro a b x y; simp [cooMat]
    rw [hstep]
    obtain ⟨h0, h1, h2⟩ := ih' i j hi hj
    by_cases hfix : n = r n
    · simp only [sparseStep, if_pos hfix, set1]
      rw [hcoo, h2]
      by_cases hjn : j = n
      · subst hjn
        have hf : r j = j := hfix.symm
        refine ⟨by rw [h0]; simp [hf], by simp [eSparse, hf], ?_⟩
        by_cases hij : i = j
        · simp [cooMat, hij, hf, symBlock]
        · have : ¬ j = i := fun h => hij h.symm
          simp [cooMat, hij, hf, symBlock, this]
      · have hrj : r j ≠ n := by
          intro h
          have := hrr j hj
          rw [h, ← hfix] at this
          exact hjn this.symm
        have a1 : j < n + 1 ↔ j < n := by omega
        have a2 : r j < n + 1 ↔ r j < n := by omega
        have hjn' : ¬ n = j := fun h => hjn h.symm
        simp only [a1, a2, hjn, if_false]
        refine ⟨h0, h1, ?_⟩
        simp [cooMat, hjn']
    · have hfix' : r n ≠ n := fun h => hfix h.symm
      simp only [sparseStep, if_neg hfix]
      have hcn := (ih' n n hnd hnd).1
      by_cases hlt : r n < n
      · -- already handled
        have hc : (sparseBlock r n off).check n = true := by rw [hcn]; simp [hfix', hlt]
        simp only [hc, Bool.true_eq_false, if_false]
        have key : (j < n + 1 ∨ r j < n + 1) ↔ (j < n ∨ r j < n) := by
          by_cases hjn : j = n
          · subst hjn; omega
          · by_cases hrj : r j = n
            · have := hrr j hj
              rw [hrj] at this
              omega
            · omega
        rw [h0, h1, h2]
        simp only [key]
        trivial
      · have hgt : n < r n := by omega
        have hc : (sparseBlock r n off).check n = false := by
          rw [hcn]; simp [hlt]
        simp only [hc, if_true]
        rw [hcoo, h2]
        simp only [set1]
        by_cases hjn : j = n
        · subst hjn
          have hA : ¬ (j < j ∨ r j < j) := by omega
          have hB : (j < j + 1 ∨ r j < j + 1) := by omega
          simp only [hA, hB, if_true, if_false, zero_add]
          refine ⟨by simp [hfix'], by simp [hfix, eSparse, hgt], ?_⟩
          by_cases hij : i = j
          · subst hij
            simp [cooMat, symBlock, hfix, hfix', eSparse, hgt]
          · by_cases hir : i = r j
            · subst hir
              simp [cooMat, symBlock, hfix, hfix', eSparse, hgt]
            · have c1 : ¬ j = i := fun h => hij h.symm
              have c2 : ¬ r j = i := fun h => hir h.symm
              simp [cooMat, symBlock, hfix, hfix', hij, hir, c1, c2]
        · by_cases hjr : j = r n
          · subst hjr
            have hrn : r (r n) = n := hrr n hnd
            have hA : ¬ (r n < n ∨ r (r n) < n) := by rw [hrn]; omega
            have hB : (r n < n + 1 ∨ r (r n) < n + 1) := by rw [hrn]; omega
            have hD : ¬ r n < r (r n) := by rw [hrn]; omega
            simp only [hA, hB, if_true, if_false, zero_add]
            refine ⟨by simp [hrn, hfix], by simp [eSparse, hD], ?_⟩
            by_cases hij : i = r n
            · subst hij
              simp [cooMat, symBlock, hfix, hfix', eSparse, hrn, hlt]
            · by_cases hir : i = n
              · subst hir
                simp [cooMat, symBlock, hfix, hfix', hrn]
              · have c1 : ¬ n = i := fun h => hir h.symm
                have c2 : ¬ r n = i := fun h => hij h.symm
                simp [cooMat, symBlock, hfix, hij, hir, c1, c2, hrn]
          · have hrj : r j ≠ n := by
              intro h
              have := hrr j hj
              rw [h] at this
              exact hjr this.symm
            have a1 : j < n + 1 ↔ j < n := by omega
            have a2 : r j < n + 1 ↔ r j < n := by omega
            have c1 : ¬ n = j := fun h => hjn h.symm
            have c2 : ¬ r n = j := fun h => hjr h.symm
            simp only [a1, a2, hjn, hjr, if_false, or_self]
            refine ⟨h0, h1, ?_⟩
            simp [cooMat, c1, c2]

theorem sparse_closed (r : ℕ → ℕ) (dim off : ℕ) (hr : ∀ j < dim, r j < dim)
    (hrr : ∀ j < dim, r (r j) = j) (i j : ℕ) (hi : i < dim) (hj : j < dim) :
    (sparseBlock r dim off).w j = eSparse r j ∧
    cooMat (sparseBlock r dim off).data (i + off) (j + off) = symBlock r (eSparse r) i j := by
  obtain ⟨-, h1, h2⟩ := sparse_inv r dim off hr hrr dim le_rfl i j hi hj
  simp only [hj, true_or, if_true] at h1 h2
  exact ⟨h1, h2⟩

/-- Entries of one mode stay inside its block. -/
theorem sparse_range (r : ℕ → ℕ) (dim off : ℕ) (hr : ∀ j < dim, r j < dim) (n : ℕ) (hn : n ≤ dim) :
    ∀ t ∈ (sparseBlock r n off).data, off ≤ t.1 ∧ t.1 < off + dim ∧ off ≤ t.2.1 ∧ t.2.1 < off + dim := by
  induction n with
  | zero => simp [sparseBlock]
  | succ n ih =>
    have ih := ih (by omega)
    have hstep : sparseBlock r (n + 1) off = sparseStep r off (sparseBlock r n off) n := by
      simp [sparseBlock, List.range_succ]
    have hrn := hr n (by omega)
    rw [hstep]
    unfold sparseStep
    split_ifs
    · simp only [List.mem_append, List.mem_singleton]
      rintro t (h | rfl)
      · exact ih t h
      · simp; omega
    · simp only [List.mem_append, List.mem_cons, List.not_mem_nil, or_false]
      rintro t (h | rfl | rfl | rfl | rfl)
      · exact ih t h
      all_goals simp; omega
    · exact ih


/-! ### Assembling the modes -/

/-- The partner of every basis state. -/
def gR : List SymMode → ℕ → ℕ
  | [], i => i
  | m :: ms, i => if i < m.dim then m.r i else m.dim + gR ms (i - m.dim)

/-- The polarisation sign of every basis state. -/
def gP : List SymMode → ℕ → ℝ
  | [], _ => 1
  | m :: ms, i => if i < m.dim then polSign m.alpha else gP ms (i - m.dim)

/-- Partners form an involution inside every mode. -/
def GoodModes (ms : List SymMode) : Prop :=
  ∀ m ∈ ms, (∀ j < m.dim, m.r j < m.dim) ∧ ∀ j < m.dim, m.r (m.r j) = j

theorem symDim_cons (m : SymMode) (ms : List SymMode) : symDim (m :: ms) = m.dim + symDim ms := by
  simp [symDim]

theorem gR_lt (ms : List SymMode) (h : GoodModes ms) (i : ℕ) (hi : i < symDim ms) : gR ms i < symDim ms := by
  induction ms generalizing i with
  | nil => simpa [gR] using hi
  | cons m ms ih =>
    have hm := h m (by simp)
    have ih := ih (fun x hx => h x (by simp [hx]))
    rw [symDim_cons] at hi ⊢
    unfold gR
    split_ifs with c
    · have := hm.1 i c; omega
    · have := ih (i - m.dim) (by omega); omega

theorem gR_gR (ms : List SymMode) (h : GoodModes ms) (i : ℕ) (hi : i < symDim ms) : gR ms (gR ms i) = i := by
  induction ms generalizing i with
  | nil => simp [gR]
  | cons m ms ih =>
    have hm := h m (by simp)
    have ih := ih (fun x hx => h x (by simp [hx]))
    rw [symDim_cons] at hi
    by_cases c : i < m.dim
    · have e : gR (m :: ms) i = m.r i := by simp [gR, c]
      rw [e]
      simp [gR, hm.1 i c, hm.2 i c]
    · have e : gR (m :: ms) i = m.dim + gR ms (i - m.dim) := by simp [gR, c]
      rw [e]
      simp only [gR]
      rw [if_neg (by omega), Nat.add_sub_cancel_left, ih (i - m.dim) (by omega)]
      omega

theorem gP_gR (ms : List SymMode) (h : GoodModes ms) (i : ℕ) (hi : i < symDim ms) :
    gP ms (gR ms i) = gP ms i := by
  induction ms generalizing i with
  | nil => simp [gR]
  | cons m ms ih =>
    have hm := h m (by simp)
    have ih := ih (fun x hx => h x (by simp [hx]))
    rw [symDim_cons] at hi
    by_cases c : i < m.dim
    · have e : gR (m :: ms) i = m.r i := by simp [gR, c]
      rw [e]
      simp [gP, hm.1 i c, c]
    · have e : gR (m :: ms) i = m.dim + gR ms (i - m.dim) := by simp [gR, c]
      rw [e]
      have c' : ¬ m.dim + gR ms (i - m.dim) < m.dim := by omega
      simp only [gP, c, c', ↓reduceIte]
      rw [Nat.add_sub_cancel_left, ih (i - m.dim) (by omega)]

theorem polSign_cases (a : ℕ) : polSign a = 1 ∨ polSign a = -1 := by
  unfold polSign; split_ifs <;> simp

theorem gP_cases (ms : List SymMode) (i : ℕ) : gP ms i = 1 ∨ gP ms i = -1 := by
  induction ms generalizing i with
  | nil => simp [gP]
  | cons m ms ih =>
    unfold gP; split_ifs
    · exact polSign_cases _
    · exact ih _

theorem symBlock_shift (r r' : ℕ → ℕ) (e e' : ℕ → ℝ) (i j d : ℕ) (hr : r' (d + j) = d + r j)
    (he : e' (d + j) = e j) : symBlock r' e' (d + i) (d + j) = symBlock r e i j := by
  simp only [symBlock, hr, he, Nat.add_left_cancel_iff]

theorem blockDiag_sym (ms : List SymMode) (h : GoodModes ms) (B : SymMode → ℕ → ℕ → ℝ)
    (e : (ℕ → ℕ) → ℕ → ℝ)
    (hB : ∀ m ∈ ms, ∀ i < m.dim, ∀ j < m.dim, B m i j = symBlock m.r (e m.r) i j)
    (e0 : ∀ (r r' : ℕ → ℕ) (j : ℕ), r' j = r j → e r' j = e r j)
    (e1 : ∀ (r r' : ℕ → ℕ) (j d : ℕ), r' (d + j) = d + r j → e r' (d + j) = e r j)
    (i j : ℕ) (hi : i < symDim ms) (hj : j < symDim ms) :
    blockDiag (ms.map fun m => (m.dim, B m)) i j = symBlock (gR ms) (e (gR ms)) i j := by
  induction ms generalizing i j with
  | nil => simp [symDim] at hi
  | cons m ms ih =>
    have hm := h m (by simp)
    have ih := ih (fun x hx => h x (by simp [hx])) (fun x hx => hB x (by simp [hx]))
    rw [symDim_cons] at hi hj
    simp only [List.map_cons, blockDiag]
    by_cases ci : i < m.dim <;> by_cases cj : j < m.dim
    · have hr : gR (m :: ms) j = m.r j := by simp [gR, cj]
      rw [if_pos ⟨ci, cj⟩, hB m (by simp) i ci j cj]
      simp only [symBlock, hr, e0 m.r (gR (m :: ms)) j hr]
    · have c1 : ¬ (i < m.dim ∧ j < m.dim) := by omega
      have c2 : ¬ (m.dim ≤ i ∧ m.dim ≤ j) := by omega
      have hr : gR (m :: ms) j = m.dim + gR ms (j - m.dim) := by simp [gR, cj]
      have d1 : i ≠ j := by omega
      have d2 : i ≠ m.dim + gR ms (j - m.dim) := by omega
      simp [c1, c2, symBlock, hr, d1, d2]
    · have c1 : ¬ (i < m.dim ∧ j < m.dim) := by omega
      have c2 : ¬ (m.dim ≤ i ∧ m.dim ≤ j) := by omega
      have hr : gR (m :: ms) j = m.r j := by simp [gR, cj]
      have hl := hm.1 j cj
      have d1 : i ≠ j := by omega
      have d2 : i ≠ m.r j := by omega
      simp [c1, c2, symBlock, hr, d1, d2]
    · have c1 : ¬ (i < m.dim ∧ j < m.dim) := by omega
      have c2 : (m.dim ≤ i ∧ m.dim ≤ j) := by omega
      rw [if_neg c1, if_pos c2, ih (i - m.dim) (j - m.dim) (by omega) (by omega)]
      have hr : gR (m :: ms) (m.dim + (j - m.dim)) = m.dim + gR ms (j - m.dim) := by simp [gR]
      have := symBlock_shift (gR ms) (gR (m :: ms)) (e (gR ms)) (e (gR (m :: ms))) (i - m.dim)
        (j - m.dim) m.dim hr (e1 _ _ _ _ hr)
      rw [← this]
      congr 1 <;> omega

theorem hstack_sym (ms : List SymMode) (w : SymMode → ℕ → ℝ) (e : (ℕ → ℕ) → ℕ → ℝ)
    (hw : ∀ m ∈ ms, ∀ j < m.dim, w m j = e m.r j)
    (e0 : ∀ (r r' : ℕ → ℕ) (j : ℕ), r' j = r j → e r' j = e r j)
    (e1 : ∀ (r r' : ℕ → ℕ) (j d : ℕ), r' (d + j) = d + r j → e r' (d + j) = e r j)
    (j : ℕ) (hj : j < symDim ms) :
    hstackW (ms.map fun m => (m.dim, fun i => polSign m.alpha * w m i)) j = gP ms j * e (gR ms) j := by
  induction ms generalizing j with
  | nil => simp [symDim] at hj
  | cons m ms ih =>
    have ih := ih (fun x hx => hw x (by simp [hx]))
    rw [symDim_cons] at hj
    simp only [List.map_cons, hstackW, gP]
    split_ifs with c
    · have hr : gR (m :: ms) j = m.r j := by simp [gR, c]
      rw [hw m (by simp) j c, e0 m.r (gR (m :: ms)) j hr]
    · rw [ih (j - m.dim) (by omega)]
      have hr : gR (m :: ms) (m.dim + (j - m.dim)) = m.dim + gR ms (j - m.dim) := by simp [gR]
      have := e1 _ _ _ _ hr
      rw [show m.dim + (j - m.dim) = j by omega] at this
      rw [this]

theorem eDense_congr (r r' : ℕ → ℕ) (j : ℕ) (h : r' j = r j) : eDense r' j = eDense r j := by
  simp [eDense, h]

theorem eDense_shift (r r' : ℕ → ℕ) (j d : ℕ) (h : r' (d + j) = d + r j) :
    eDense r' (d + j) = eDense r j := by
  simp [eDense, h]

theorem eSparse_congr (r r' : ℕ → ℕ) (j : ℕ) (h : r' j = r j) : eSparse r' j = eSparse r j := by
  simp [eSparse, h]

theorem eSparse_shift (r r' : ℕ → ℕ) (j d : ℕ) (h : r' (d + j) = d + r j) :
    eSparse r' (d + j) = eSparse r j := by
  simp [eSparse, h]

theorem cooMat_append (a b : List (ℕ × ℕ × ℝ)) (x y : ℕ) :
    cooMat (a ++ b) x y = cooMat a x y + cooMat b x y := by simp [cooMat]

theorem cooMat_zero (a : List (ℕ × ℕ × ℝ)) (x y : ℕ) (h : ∀ t ∈ a, ¬ (t.1 = x ∧ t.2.1 = y)) :
    cooMat a x y = 0 := by
  unfold cooMat
  apply List.sum_eq_zero
  intro v hv
  obtain ⟨t, ht, rfl⟩ := List.mem_map.1 hv
  simp [h t ht]

theorem sparseData_range (ms : List SymMode) (h : GoodModes ms) (off : ℕ) :
    ∀ t ∈ sparseData off ms, off ≤ t.1 ∧ off ≤ t.2.1 := by
  induction ms generalizing off with
  | nil => simp [sparseData]
  | cons m ms ih =>
    have hm := h m (by simp)
    have ih := ih (fun x hx => h x (by simp [hx])) (off + m.dim)
    intro t ht
    simp only [sparseData, List.mem_append] at ht
    rcases ht with ht | ht
    · have := sparse_range m.r m.dim off hm.1 m.dim le_rfl t ht; omega
    · have := ih t ht; omega

theorem sparseV_off (ms : List SymMode) (h : GoodModes ms) (off i j : ℕ) (hi : i < symDim ms)
    (hj : j < symDim ms) :
    cooMat (sparseData off ms) (i + off) (j + off) = symBlock (gR ms) (eSparse (gR ms)) i j := by
  induction ms generalizing off i j with
  | nil => simp [symDim] at hi
  | cons m ms ih =>
    have hm := h m (by simp)
    have hg : GoodModes ms := fun x hx => h x (by simp [hx])
    have ih := ih hg (off + m.dim)
    have hrange := sparse_range m.r m.dim off hm.1 m.dim le_rfl
    have hrest := sparseData_range ms hg (off + m.dim)
    rw [symDim_cons] at hi hj
    simp only [sparseData]
    rw [cooMat_append]
    by_cases ci : i < m.dim <;> by_cases cj : j < m.dim
    · have hr : gR (m :: ms) j = m.r j := by simp [gR, cj]
      rw [(sparse_closed m.r m.dim off hm.1 hm.2 i j ci cj).2, cooMat_zero (sparseData _ ms), add_zero]
      · simp only [symBlock, hr, eSparse_congr m.r (gR (m :: ms)) j hr]
      · intro t ht; have := hrest t ht; omega
    · have hr : gR (m :: ms) j = m.dim + gR ms (j - m.dim) := by simp [gR, cj]
      have d1 : i ≠ j := by omega
      have d2 : i ≠ m.dim + gR ms (j - m.dim) := by omega
      rw [cooMat_zero, cooMat_zero]
      · simp [symBlock, hr, d1, d2]
      · intro t ht; have := hrest t ht; omega
      · intro t ht; have := hrange t ht; omega
    · have hr : gR (m :: ms) j = m.r j := by simp [gR, cj]
      have hl := hm.1 j cj
      have d1 : i ≠ j := by omega
      have d2 : i ≠ m.r j := by omega
      rw [cooMat_zero, cooMat_zero]
      · simp [symBlock, hr, d1, d2]
      · intro t ht; have := hrest t ht; omega
      · intro t ht; have := hrange t ht; omega
    · rw [cooMat_zero (sparseBlock m.r m.dim off).data, zero_add]
      · have := ih (i - m.dim) (j - m.dim) (by omega) (by omega)
        rw [show i - m.dim + (off + m.dim) = i + off by omega,
          show j - m.dim + (off + m.dim) = j + off by omega] at this
        rw [this]
        have hr : gR (m :: ms) (m.dim + (j - m.dim)) = m.dim + gR ms (j - m.dim) := by simp [gR]
        have := symBlock_shift (gR ms) (gR (m :: ms)) (eSparse (gR ms)) (eSparse (gR (m :: ms)))
          (i - m.dim) (j - m.dim) m.dim hr (eSparse_shift _ _ _ _ hr)
        rw [← this]
        congr 1 <;> omega
      · intro t ht; have := hrange t ht; omega

/-- The parity bookkeeping of either version. -/
noncomputable def gE (sparse : Bool) (r : ℕ → ℕ) : ℕ → ℝ := if sparse then eSparse r else eDense r

theorem V_closed (sparse : Bool) (ms : List SymMode) (h : GoodModes ms) (i j : ℕ) (hi : i < symDim ms)
    (hj : j < symDim ms) :
    (if sparse then sparseV ms else denseV ms) i j = symBlock (gR ms) (gE sparse (gR ms)) i j := by
  cases sparse
  · simp only [gE, Bool.false_eq_true, if_false]
    exact blockDiag_sym ms h (fun m => (denseBlock m.r m.dim).1) eDense
      (fun m hm i hi j hj => (dense_closed m.r m.dim (h m hm).1 (h m hm).2 i j hi hj).2)
      eDense_congr eDense_shift i j hi hj
  · simp only [gE, if_true]
    exact sparseV_off ms h 0 i j hi hj

theorem sigma_closed (sparse : Bool) (ms : List SymMode) (h : GoodModes ms) (j : ℕ) (hj : j < symDim ms) :
    (if sparse then sparseSigma ms else denseSigma ms) j = gP ms j * gE sparse (gR ms) j := by
  cases sparse
  · simp only [gE, Bool.false_eq_true, if_false]
    exact hstack_sym ms (fun m => (denseBlock m.r m.dim).2) eDense
      (fun m hm j hj => (dense_closed m.r m.dim (h m hm).1 (h m hm).2 j j hj hj).1)
      eDense_congr eDense_shift j hj
  · simp only [gE, if_true]
    exact hstack_sym ms (fun m => (sparseBlock m.r m.dim 0).w) eSparse
      (fun m hm j hj => (sparse_closed m.r m.dim 0 (h m hm).1 (h m hm).2 j j hj hj).1)
      eSparse_congr eSparse_shift j hj

theorem gE_cases (sparse : Bool) (r : ℕ → ℕ) (j : ℕ) : gE sparse r j = 1 ∨ gE sparse r j = -1 := by
  cases sparse <;> simp only [gE, Bool.false_eq_true, if_true, if_false, eDense, eSparse] <;> split_ifs <;> simp

theorem gE_fix (sparse : Bool) (r : ℕ → ℕ) (j : ℕ) (h : r j = j) : gE sparse r j = 1 := by
  cases sparse <;> simp [gE, eDense, eSparse, h]

theorem gE_pair (sparse : Bool) (r : ℕ → ℕ) (j : ℕ) (h : r j ≠ j) (hrr : r (r j) = j) :
    gE sparse r (r j) = -gE sparse r j := by
  rcases lt_or_gt_of_ne h with c | c
  · have c' : ¬ j < r j := by omega
    cases sparse <;> simp [gE, eDense, eSparse, hrr, c, c']
  · have c' : ¬ r j < j := by omega
    cases sparse <;> simp [gE, eDense, eSparse, hrr, c, c']

/-! ### Properties of the closed form -/

theorem sqrt2_sq : (1 / √2 : ℝ) * (1 / √2) = 1 / 2 := by
  rw [div_mul_div_comm, one_mul, Real.mul_self_sqrt (by norm_num)]

theorem symBlock_mirror (r : ℕ → ℕ) (e : ℕ → ℝ) (N : ℕ) (hrr : ∀ j < N, r (r j) = j)
    (he : ∀ j, e j = 1 ∨ e j = -1) (h1 : ∀ j, r j = j → e j = 1)
    (i j : ℕ) (hi : i < N) (hj : j < N) : symBlock r e (r i) j = e j * symBlock r e i j := by
  have hee : e j * e j = 1 := by rcases he j with h | h <;> rw [h] <;> norm_num
  unfold symBlock
  by_cases c : r j = j
  · simp only [c, if_true]
    by_cases hij : i = j
    · simp [hij, c, h1 j c]
    · have : r i ≠ j := by
        intro h
        have h2 := hrr i hi
        rw [h, c] at h2
        exact hij h2.symm
      simp [this, hij]
  · simp only [c, if_false]
    by_cases hij : i = j
    · subst hij
      simp only [c, if_false, if_true]
      rw [← mul_div_assoc, hee]
    · by_cases hir : i = r j
      · subst hir
        simp only [hrr j hj, if_true, c, if_false]
        ring
      · have c1 : r i ≠ j := by
          intro h
          have h2 := hrr i hi
          rw [h] at h2
          exact hir h2.symm
        have c2 : r i ≠ r j := by
          intro h
          have h2 := hrr i hi
          rw [h, hrr j hj] at h2
          exact hij h2.symm
        simp [hij, hir, c1, c2]

theorem symBlock_symm (r : ℕ → ℕ) (e : ℕ → ℝ) (N : ℕ) (hrr : ∀ j < N, r (r j) = j)
    (i j : ℕ) (hi : i < N) (hj : j < N) : symBlock r e i j = symBlock r e j i := by
  by_cases hij : i = j
  · rw [hij]
  · have hji : ¬ j = i := fun h => hij h.symm
    have key : i = r j ↔ j = r i := by
      constructor
      · intro h; rw [h, hrr j hj]
      · intro h; rw [h, hrr i hi]
    unfold symBlock
    simp only [hij, hji, if_false]
    by_cases c : i = r j
    · have c' := key.1 c
      have d1 : ¬ r j = j := by rw [← c]; exact hij
      have d2 : ¬ r i = i := by rw [← c']; exact hji
      rw [if_neg d1, if_neg d2, if_pos c, if_pos c']
    · have c' : ¬ j = r i := fun h => c (key.2 h)
      simp [c, c']

theorem symBlock_orth (r : ℕ → ℕ) (e : ℕ → ℝ) (N : ℕ) (hr : ∀ j < N, r j < N)
    (hrr : ∀ j < N, r (r j) = j) (he : ∀ j, e j = 1 ∨ e j = -1)
    (h2 : ∀ j < N, r j ≠ j → e (r j) = -e j) (j k : ℕ) (hj : j < N) (hk : k < N) :
    ∑ i ∈ Finset.range N, symBlock r e i j * symBlock r e i k = if j = k then 1 else 0 := by
  have hs := sqrt2_sq
  by_cases c : r j = j
  · -- a single entry
    have hcol : ∀ i ∈ Finset.range N, symBlock r e i j * symBlock r e i k =
        if i = j then symBlock r e j k else 0 := by
      intro i _
      by_cases hij : i = j
      · subst hij; simp [symBlock, c]
      · simp [symBlock, c, hij]
    rw [Finset.sum_congr rfl hcol, Finset.sum_ite_eq' (Finset.range N) j, if_pos (Finset.mem_range.2 hj)]
    unfold symBlock
    by_cases hjk : j = k
    · subst hjk; simp [c]
    · have d : j ≠ r k := by
        intro h
        have := hrr k hk
        rw [← h, c] at this
        exact hjk this
      simp [hjk, d]
  · have hcol : ∀ i ∈ Finset.range N, symBlock r e i j * symBlock r e i k =
        (if i = j then e j / √2 * symBlock r e j k else 0) +
        (if i = r j then 1 / √2 * symBlock r e (r j) k else 0) := by
      intro i _
      have cj : ¬ j = r j := fun h => c h.symm
      by_cases hij : i = j
      · subst hij; simp [symBlock, c, cj]
      · by_cases hir : i = r j
        · subst hir; simp [symBlock, c]
        · simp [symBlock, c, hij, hir]
    rw [Finset.sum_congr rfl hcol, Finset.sum_add_distrib, Finset.sum_ite_eq' (Finset.range N) j,
      Finset.sum_ite_eq' (Finset.range N) (r j), if_pos (Finset.mem_range.2 hj),
      if_pos (Finset.mem_range.2 (hr j hj))]
    have hee : e j * e j = 1 := by rcases he j with h | h <;> rw [h] <;> norm_num
    by_cases hjk : j = k
    · subst hjk
      simp only [symBlock, c, if_false, if_true]
      calc e j / √2 * (e j / √2) + 1 / √2 * (1 / √2) = (e j * e j) * (1 / √2 * (1 / √2)) + 1 / √2 * (1 / √2) := by ring
        _ = 1 := by rw [hee, hs]; norm_num
    · rw [if_neg hjk]
      by_cases ck : r k = k
      · have d : r j ≠ k := by
          intro h
          have := hrr j hj
          rw [h, ck] at this
          exact hjk this.symm
        simp [symBlock, ck, hjk, d]
      · by_cases hjr : j = r k
        · have hk' : r j = k := by rw [hjr, hrr k hk]
          have hekj := h2 j hj c
          rw [hk'] at hekj
          have c3 : ¬ k = j := fun h => hjk h.symm
          have hb1 : symBlock r e j k = 1 / √2 := by
            unfold symBlock; rw [if_neg ck, if_neg hjk, if_pos hjr]
          have hb2 : symBlock r e k k = e k / √2 := by
            unfold symBlock; rw [if_neg ck, if_pos rfl]
          rw [hk', hb1, hb2, hekj]
          ring
        · have d1 : r j ≠ k := by
            intro h
            have := hrr j hj
            rw [h] at this
            exact hjr this.symm
          have d2 : r j ≠ r k := by
            intro h
            have := hrr j hj
            rw [h, hrr k hk] at this
            exact hjk this.symm
          simp [symBlock, ck, hjk, hjr, d1, d2]


/-! ### The ordering of the basis -/

open Classical in
theorem sigmaOrder_eq (w : ℕ → ℝ) (n : ℕ) :
    sigmaOrder w n = (((List.range n).filter (fun i => w i = 1)).reverse ++
        (List.range n).filter (fun i => w i = -1),
      ((List.range n).filter (fun i => w i = 1)).length, ((List.range n).filter (fun i => w i = -1)).length) := by
  induction n with
  | zero => simp [sigmaOrder]
  | succ n ih =>
    have hstep : sigmaOrder w (n + 1) = sigmaStep w (sigmaOrder w n) n := by
      simp [sigmaOrder, List.range_succ]
    rw [hstep, ih]
    simp only [List.range_succ, List.filter_append, sigmaStep]
    by_cases h1 : w n = 1
    · have h2 : ¬ w n = -1 := by rw [h1]; norm_num
      simp [h1]
      norm_num
      exact h2
    · by_cases h2 : w n = -1
      · simp [h2]
        norm_num
        exact h1
      · simp [h1, h2]

theorem sigmaOrder_facts (w : ℕ → ℝ) (n : ℕ) (hw : ∀ i < n, w i = 1 ∨ w i = -1) :
    (sigmaOrder w n).1.Perm (List.range n) ∧
    (sigmaOrder w n).2.1 + (sigmaOrder w n).2.2 = n ∧
    (∀ k < (sigmaOrder w n).2.1, w ((sigmaOrder w n).1.getD k 0) = 1) ∧
    (∀ k < n, (sigmaOrder w n).2.1 ≤ k → w ((sigmaOrder w n).1.getD k 0) = -1) := by
  classical
  rw [sigmaOrder_eq]
  set a := (List.range n).filter (fun i => w i = 1) with ha
  set b := (List.range n).filter (fun i => w i = -1) with hb
  have hb' : b = (List.range n).filter (fun i => !decide (w i = 1)) := by
    rw [hb]
    apply List.filter_congr
    intro i hi
    have hi' := List.mem_range.1 hi
    rcases hw i hi' with h | h
    · simp [h]; norm_num
    · simp [h]; norm_num
  have hp : (a.reverse ++ b).Perm (List.range n) := by
    rw [hb']
    refine ((List.reverse_perm a).append_right _).trans ?_
    exact List.filter_append_perm _ _
  have hlen : a.length + b.length = n := by
    have := hp.length_eq
    simpa using this
  refine ⟨hp, hlen, ?_, ?_⟩
  · intro k hk
    have hk' : k < a.reverse.length := by simpa using hk
    have : (a.reverse ++ b).getD k 0 = a.reverse[k] := by
      rw [List.getD_eq_getElem?_getD, List.getElem?_append_left hk', List.getElem?_eq_getElem hk', Option.getD_some]
    rw [this]
    have hm : a.reverse[k] ∈ a := List.mem_reverse.1 (List.getElem_mem hk')
    have := (List.mem_filter.1 hm).2
    simpa using this
  · intro k hk hk2
    have hk1 : a.reverse.length ≤ k := by simpa using hk2
    have hk3 : k - a.reverse.length < b.length := by simp; simp at hk2; omega
    have : (a.reverse ++ b).getD k 0 = b[k - a.reverse.length] := by
      rw [List.getD_eq_getElem?_getD, List.getElem?_append_right hk1, List.getElem?_eq_getElem hk3, Option.getD_some]
    rw [this]
    have hm : b[k - a.reverse.length] ∈ b := List.getElem_mem hk3
    have := (List.mem_filter.1 hm).2
    simpa using this

/-- Sums over a permuted index. -/
theorem sum_perm_index {β : Type*} [AddCommMonoid β] (idx : List ℕ) (n : ℕ) (h : idx.Perm (List.range n))
    (f : ℕ → β) : ∑ k ∈ Finset.range n, f (idx.getD k 0) = ∑ j ∈ Finset.range n, f j := by
  have hl : idx.length = n := by simpa using h.length_eq
  have e1 : ((List.range n).map fun (k : ℕ) => f (idx.getD k 0)) = idx.map f := by
    apply List.ext_getElem
    · simp [hl]
    · intro i h1 h2
      have hi : i < idx.length := by simpa using h2
      simp [List.getD_eq_getElem?_getD, List.getElem?_eq_getElem hi]
  have e2 : (idx.map f).sum = ((List.range n).map f).sum := (h.map f).sum_eq
  have e3 : ∀ g : ℕ → β, ∑ k ∈ Finset.range n, g k = ((List.range n).map g).sum := by
    intro g
    rw [Finset.sum_eq_multiset_sum]
    simp [Finset.range, Multiset.range]
  rw [e3, e3, e1, e2]

theorem perm_index_inj (idx : List ℕ) (n : ℕ) (h : idx.Perm (List.range n)) (k l : ℕ) (hk : k < n)
    (hl : l < n) : idx.getD k 0 = idx.getD l 0 ↔ k = l := by
  have hlen : idx.length = n := by simpa using h.length_eq
  have hnd : idx.Nodup := h.nodup_iff.2 List.nodup_range
  have hk' : k < idx.length := by omega
  have hl' : l < idx.length := by omega
  rw [List.getD_eq_getElem?_getD, List.getElem?_eq_getElem hk', List.getD_eq_getElem?_getD,
    List.getElem?_eq_getElem hl', Option.getD_some, Option.getD_some]
  exact hnd.getElem_inj_iff

theorem perm_index_lt (idx : List ℕ) (n : ℕ) (h : idx.Perm (List.range n)) (k : ℕ) (hk : k < n) :
    idx.getD k 0 < n := by
  have hlen : idx.length = n := by simpa using h.length_eq
  have hk' : k < idx.length := by omega
  rw [List.getD_eq_getElem?_getD, List.getElem?_eq_getElem hk', Option.getD_some]
  exact List.mem_range.1 (h.mem_iff.1 (List.getElem_mem hk'))

/-! ### The lookup of the reflected vector -/

theorem reflectG_eq (theta : ℝ) (g : ℝ × ℝ) : reflectG theta g = Spec.mirrorVec theta g := by
  unfold reflectG Spec.mirrorVec
  have e : 2 * theta * Real.pi / 180 = 2 * (theta * Real.pi / 180) := by ring
  rw [e, Real.cos_two_mul, Real.sin_two_mul]
  have h := Real.sin_sq_add_cos_sq (theta * Real.pi / 180)
  ext
  · simp only
    linear_combination (2 * g.1) * h
  · simp only; ring

theorem indG_ok (gs : List (ℝ × ℝ)) (g : ℝ × ℝ) (i : ℕ) (h : indG gs g = .ok i) :
    ∃ v, gs[i]? = some v ∧ |v.1 - g.1| < 1e-7 ∧ |v.2 - g.2| < 1e-7 := by
  classical
  unfold indG at h
  split at h
  · rename_i k hk
    injection h with h; subst h
    rw [List.findIdx?_eq_some_iff_getElem] at hk
    obtain ⟨hlt, hp, -⟩ := hk
    exact ⟨gs[k], List.getElem?_eq_getElem hlt, by simpa using hp⟩
  · simp at h

theorem mapM_ok {α β : Type*} (f : α → Except PyErr β) (l : List α) (r : List β) (h : l.mapM f = .ok r) :
    r.length = l.length ∧ ∀ (i : ℕ) (a : α), l[i]? = some a → ∃ b, r[i]? = some b ∧ f a = .ok b := by
  induction l generalizing r with
  | nil =>
    simp [pure, Except.pure] at h
    subst h
    simp
  | cons x xs ih =>
    rw [List.mapM_cons] at h
    simp only [bind, Except.bind] at h
    split at h
    · cases h
    · rename_i b hb
      split at h
      · cases h
      · rename_i bs hbs
        simp only [pure, Except.pure, Except.ok.injEq] at h
        subst h
        obtain ⟨h1, h2⟩ := ih bs hbs
        refine ⟨by simp [h1], ?_⟩
        intro i a hi
        cases i with
        | zero => simp at hi; subst hi; exact ⟨b, by simp, hb⟩
        | succ i => simp at hi ⊢; exact h2 i a hi

theorem reflIdx_ok (theta : ℝ) (gs : List (ℝ × ℝ)) (rs : List ℕ) (h : reflIdx theta gs = .ok rs)
    (i : ℕ) (g : ℝ × ℝ) (hi : gs[i]? = some g) :
    ∃ v, gs[rs.getD i 0]? = some v ∧ |v.1 - (Spec.mirrorVec theta g).1| < 1e-7 ∧
      |v.2 - (Spec.mirrorVec theta g).2| < 1e-7 := by
  obtain ⟨-, h2⟩ := mapM_ok _ _ _ h
  obtain ⟨b, hb, hf⟩ := h2 i g hi
  have : rs.getD i 0 = b := by rw [List.getD_eq_getElem?_getD, hb, Option.getD_some]
  rw [this, ← reflectG_eq]
  exact indG_ok gs _ b hf

theorem mirrorVec_lip (theta : ℝ) (a b : ℝ × ℝ) (d : ℝ) (h1 : |a.1 - b.1| < d) (h2 : |a.2 - b.2| < d) :
    |(Spec.mirrorVec theta a).1 - (Spec.mirrorVec theta b).1| < 1.5 * d ∧
    |(Spec.mirrorVec theta a).2 - (Spec.mirrorVec theta b).2| < 1.5 * d := by
  rw [← reflectG_eq, ← reflectG_eq]
  unfold reflectG
  set c := Real.cos (2 * theta * Real.pi / 180)
  set s := Real.sin (2 * theta * Real.pi / 180)
  have hcs : s ^ 2 + c ^ 2 = 1 := Real.sin_sq_add_cos_sq _
  have hd : 0 < d := lt_of_le_of_lt (abs_nonneg _) h1
  have key : ∀ c s x y : ℝ, s ^ 2 + c ^ 2 = 1 → |x| < d → |y| < d → |c * x + s * y| < 1.5 * d := by
    intro c s x y h hx hy
    apply abs_lt_of_sq_lt_sq _ (by positivity)
    have hx2 : x ^ 2 < d ^ 2 := by rw [← sq_abs x]; exact pow_lt_pow_left₀ hx (abs_nonneg _) (by norm_num)
    have hy2 : y ^ 2 < d ^ 2 := by rw [← sq_abs y]; exact pow_lt_pow_left₀ hy (abs_nonneg _) (by norm_num)
    nlinarith [sq_nonneg (c * y - s * x), sq_nonneg x, sq_nonneg y, sq_nonneg d]
  constructor
  · have := key c s _ _ hcs h1 h2
    rw [show c * a.1 + s * a.2 - (c * b.1 + s * b.2) = c * (a.1 - b.1) + s * (a.2 - b.2) by ring]
    exact this
  · have := key s (-c) _ _ (by rw [← hcs]; ring) h1 h2
    rw [show s * a.1 + -c * a.2 - (s * b.1 + -c * b.2) = s * (a.1 - b.1) + -c * (a.2 - b.2) by ring]
    exact this

theorem mirrorVec_invol (theta : ℝ) (g : ℝ × ℝ) : Spec.mirrorVec theta (Spec.mirrorVec theta g) = g := by
  rw [← reflectG_eq, ← reflectG_eq]
  unfold reflectG
  set c := Real.cos (2 * theta * Real.pi / 180)
  set s := Real.sin (2 * theta * Real.pi / 180)
  have hcs : s ^ 2 + c ^ 2 = 1 := Real.sin_sq_add_cos_sq _
  ext
  · simp only; linear_combination g.1 * hcs
  · simp only; linear_combination g.2 * hcs

/-- Whatever matches the reflected vector is the stored partner. -/
theorem reflIdx_unique (theta : ℝ) (gs : List (ℝ × ℝ)) (rs : List ℕ) (h : reflIdx theta gs = .ok rs)
    (hs : Spec.Spread gs) (i j : ℕ) (g v : ℝ × ℝ) (hi : gs[i]? = some g) (hj : gs[j]? = some v)
    (h1 : |v.1 - (Spec.mirrorVec theta g).1| < 1.5e-7) (h2 : |v.2 - (Spec.mirrorVec theta g).2| < 1.5e-7) :
    j = rs.getD i 0 := by
  obtain ⟨u, hu, u1, u2⟩ := reflIdx_ok theta gs rs h i g hi
  by_contra hne
  have e1 : |v.1 - u.1| < 2.5e-7 := by
    rw [abs_lt] at *
    constructor <;> norm_num at * <;> linarith [h1.1, h1.2, u1.1, u1.2]
  have e2 : |v.2 - u.2| < 2.5e-7 := by
    rw [abs_lt] at *
    constructor <;> norm_num at * <;> linarith [h2.1, h2.2, u2.1, u2.2]
  rcases hs j _ v u hj hu hne with h | h
  · exact absurd e1 (not_lt.2 h)
  · exact absurd e2 (not_lt.2 h)

theorem reflIdx_invol (theta : ℝ) (gs : List (ℝ × ℝ)) (rs : List ℕ) (h : reflIdx theta gs = .ok rs)
    (hs : Spec.Spread gs) :
    (∀ j < gs.length, rs.getD j 0 < gs.length) ∧ ∀ j < gs.length, rs.getD (rs.getD j 0) 0 = j := by
  have hlt : ∀ j < gs.length, rs.getD j 0 < gs.length := by
    intro j hj
    obtain ⟨v, hv, -⟩ := reflIdx_ok theta gs rs h j gs[j] (List.getElem?_eq_getElem hj)
    exact (List.getElem?_eq_some_iff.1 hv).1
  refine ⟨hlt, fun j hj => ?_⟩
  obtain ⟨v, hv, v1, v2⟩ := reflIdx_ok theta gs rs h j gs[j] (List.getElem?_eq_getElem hj)
  obtain ⟨m1, m2⟩ := mirrorVec_lip theta v (Spec.mirrorVec theta gs[j]) _ v1 v2
  rw [mirrorVec_invol] at m1 m2
  rw [abs_sub_comm] at m1 m2
  refine (reflIdx_unique theta gs rs h hs _ j v gs[j] hv (List.getElem?_eq_getElem hj) ?_ ?_).symm
  · refine lt_of_lt_of_le m1 (by norm_num)
  · refine lt_of_lt_of_le m2 (by norm_num)

/-! ### The partner of a state is its mirror image -/

theorem symModes_good (theta : ℝ) (gi : List ℕ) (used : List (List (ℝ × ℝ))) (ms : List SymMode)
    (h : symModes theta gi used = .ok ms) (hs : ∀ gs ∈ used, Spec.Spread gs) (b : ℕ) :
    GoodModes ms ∧ (Spec.gmBasis b gi used).length = symDim ms ∧
    (∀ i, i < symDim ms → gP ms i = polSign ((Spec.gmBasis b gi used).getD i (0, 0, 0)).2.1) ∧
    (∀ i, i < symDim ms → b ≤ ((Spec.gmBasis b gi used).getD i (0, 0, 0)).1) ∧
    (∀ i j, i < symDim ms → j < symDim ms →
      (Spec.IsImage theta ((Spec.gmBasis b gi used).getD i (0, 0, 0))
        ((Spec.gmBasis b gi used).getD j (0, 0, 0)) ↔ j = gR ms i)) := by
  induction gi generalizing used ms b with
  | nil =>
    simp only [symModes, Except.ok.injEq] at h
    subst h
    simp [GoodModes, Spec.gmBasis, symDim]
  | cons a as ih =>
    cases used with
    | nil => simp [symModes] at h
    | cons gs us =>
      simp only [symModes] at h
      split at h
      · simp at h
      · rename_i rs hrs
        split at h
        · simp at h
        · rename_i ms' hms
          simp only [Except.ok.injEq] at h
          subst h
          obtain ⟨g1, g2, g3, g4, g5⟩ := ih us ms' hms (fun x hx => hs x (by simp [hx])) (b + 1)
          have hsp := hs gs (by simp)
          obtain ⟨k1, k2⟩ := reflIdx_invol theta gs rs hrs hsp
          have hgetL : ∀ i, i < gs.length → (Spec.gmBasis b (a :: as) (gs :: us)).getD i (0, 0, 0) =
              (b, a, gs.getD i 0) := by
            intro i hi
            have hi' : i < (gs.map (fun g => (b, a, g))).length := by simpa using hi
            rw [Spec.gmBasis, List.getD_eq_getElem?_getD, List.getElem?_append_left hi',
              List.getElem?_eq_getElem hi', Option.getD_some, List.getD_eq_getElem?_getD,
              List.getElem?_eq_getElem hi, Option.getD_some, List.getElem_map]
          have hgetR : ∀ i, gs.length ≤ i → (Spec.gmBasis b (a :: as) (gs :: us)).getD i (0, 0, 0) =
              (Spec.gmBasis (b + 1) as us).getD (i - gs.length) (0, 0, 0) := by
            intro i hi
            have hi' : (gs.map (fun g => (b, a, g))).length ≤ i := by simpa using hi
            rw [Spec.gmBasis, List.getD_eq_getElem?_getD, List.getElem?_append_right hi',
              List.getD_eq_getElem?_getD, List.length_map]
          refine ⟨?_, ?_, ?_, ?_, ?_⟩
          · intro m hm
            rcases List.mem_cons.1 hm with rfl | hm
            · exact ⟨k1, k2⟩
            · exact g1 m hm
          · rw [symDim_cons, Spec.gmBasis, List.length_append, List.length_map, g2]
          · intro i hi
            rw [symDim_cons] at hi
            simp only at hi
            unfold gP
            simp only
            split_ifs with c
            · rw [hgetL i c]
            · rw [hgetR i (by omega), g3 (i - gs.length) (by omega)]
          · intro i hi
            rw [symDim_cons] at hi
            simp only at hi
            by_cases c : i < gs.length
            · rw [hgetL i c]
            · rw [hgetR i (by omega)]
              have := g4 (i - gs.length) (by omega)
              omega
          · intro i j hi hj
            rw [symDim_cons] at hi hj
            simp only at hi hj
            by_cases ci : i < gs.length
            · have hr : gR (⟨a, gs.length, fun i => rs.getD i 0⟩ :: ms') i = rs.getD i 0 := by simp [gR, ci]
              rw [hr, hgetL i ci]
              have hgi : gs[i]? = some (gs.getD i 0) := by
                rw [List.getElem?_eq_getElem ci, List.getD_eq_getElem?_getD, List.getElem?_eq_getElem ci,
                  Option.getD_some]
              by_cases cj : j < gs.length
              · rw [hgetL j cj]
                have hgj : gs[j]? = some (gs.getD j 0) := by
                  rw [List.getElem?_eq_getElem cj, List.getD_eq_getElem?_getD, List.getElem?_eq_getElem cj,
                    Option.getD_some]
                constructor
                · rintro ⟨-, h1, h2⟩
                  exact reflIdx_unique theta gs rs hrs hsp i j _ _ hgi hgj
                    (lt_trans h1 (by norm_num)) (lt_trans h2 (by norm_num))
                · intro hjr
                  obtain ⟨v, hv, v1, v2⟩ := reflIdx_ok theta gs rs hrs i _ hgi
                  rw [← hjr, hgj] at hv
                  injection hv with hv
                  subst hv
                  exact ⟨rfl, v1, v2⟩
              · rw [hgetR j (by omega)]
                have h4 := g4 (j - gs.length) (by omega)
                have := k1 i ci
                constructor
                · rintro ⟨h, -⟩
                  simp only at h; omega
                · intro h; omega
            · have hr : gR (⟨a, gs.length, fun i => rs.getD i 0⟩ :: ms') i =
                  gs.length + gR ms' (i - gs.length) := by simp [gR, ci]
              rw [hr, hgetR i (by omega)]
              by_cases cj : j < gs.length
              · rw [hgetL j cj]
                have h4 := g4 (i - gs.length) (by omega)
                constructor
                · rintro ⟨h, -⟩
                  simp only at h; omega
                · intro h; omega
              · rw [hgetR j (by omega), g5 (i - gs.length) (j - gs.length) (by omega) (by omega)]
                omega

end Legume
