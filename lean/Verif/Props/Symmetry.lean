import Mathlib.Tactic.Linarith
import Mathlib.Tactic.Ring
import Mathlib.Tactic.LinearCombination
import Mathlib.Tactic.IntervalCases
import Mathlib.Analysis.Complex.Norm
import Mathlib.Algebra.Order.BigOperators.Ring.Finset
import Mathlib.Algebra.Order.Chebyshev
import Verif.Lemmas.Symmetry

/-!
# C30: separation of the modes by parity about the vertical plane

`separate` is the model of both implementations (dense and sparse).  The mirror operation and its
action on coefficients are defined in `Verif/Spec/Symmetry.lean` without reference to the code.
-/
namespace Legume
open Finset

/-- The mirror acts by swapping partners, with the polarisation sign. -/
theorem mirror_eq (theta : ℝ) (gi : List ℕ) (used : List (List (ℝ × ℝ))) (ms : List SymMode)
    (h : symModes theta gi used = .ok ms) (hs : ∀ gs ∈ used, Spec.Spread gs) (c : ℕ → ℂ) (i : ℕ)
    (hi : i < symDim ms) :
    Spec.mirror theta (Spec.gmBasis 0 gi used) c i = (gP ms i : ℂ) * c (gR ms i) := by
  classical
  obtain ⟨g1, g2, g3, -, g5⟩ := symModes_good theta gi used ms h hs 0
  unfold Spec.mirror
  rw [g2]
  have e : ∀ j ∈ range (symDim ms),
      (if Spec.IsImage theta ((Spec.gmBasis 0 gi used).getD i (0, 0, 0))
          ((Spec.gmBasis 0 gi used).getD j (0, 0, 0)) then
        (if ((Spec.gmBasis 0 gi used).getD i (0, 0, 0)).2.1 % 2 = 0 then -c j else c j) else 0) =
      if j = gR ms i then (gP ms i : ℂ) * c (gR ms i) else 0 := by
    intro j hj
    have hj' := mem_range.1 hj
    by_cases hc : j = gR ms i
    · rw [if_pos ((g5 i j hi hj').2 hc), if_pos hc, g3 i hi, polSign, hc]
      split_ifs <;> simp
    · rw [if_neg (fun hh => hc ((g5 i j hi hj').1 hh)), if_neg hc]
  rw [sum_congr rfl e, sum_ite_eq' (range (symDim ms)) (gR ms i), if_pos (mem_range.2 (gR_lt ms g1 i hi))]

/-- Everything used below about an accepted separation. -/
structure SepFacts (theta thr : ℝ) (B : List (ℕ × ℕ × (ℝ × ℝ))) (M : ℕ → ℕ → ℂ) (s : Separated) : Prop where
  size : s.even + s.odd = B.length
  even_pos : 0 < s.even
  odd_pos : 0 < s.odd
  cols : ∀ k < B.length, ∀ l < B.length, ∑ i ∈ range B.length, s.V i k * s.V i l = if k = l then 1 else 0
  rows : ∀ i < B.length, ∀ j < B.length, ∑ k ∈ range B.length, s.V i k * s.V j k = if i = j then 1 else 0
  par : ∀ k < B.length, ∀ i < B.length, Spec.mirror theta B (fun i => (s.V i k : ℂ)) i =
    (if k < s.even then (s.V i k : ℂ) else -(s.V i k : ℂ))
  sep : ∀ k l, s.sep k l = changeBasis B.length s.V M k l
  small : ∀ i < s.even, ∀ j, s.even ≤ j → j < B.length → ‖s.sep i j‖ ≤ thr ∧ ‖s.sep j i‖ ≤ thr

theorem core_facts (sparse : Bool) (theta : ℝ) (gi : List ℕ) (used : List (List (ℝ × ℝ)))
    (ms : List SymMode) (hms : symModes theta gi used = .ok ms) (hs : ∀ gs ∈ used, Spec.Spread gs) :
    let V := if sparse then sparseV ms else denseV ms
    let w := if sparse then sparseSigma ms else denseSigma ms
    let o := sigmaOrder w (symDim ms)
    let B := Spec.gmBasis 0 gi used
    B.length = symDim ms ∧ o.2.1 + o.2.2 = B.length ∧
    (∀ k < B.length, ∀ l < B.length, ∑ i ∈ range B.length, permCols V o.1 i k * permCols V o.1 i l =
      if k = l then 1 else 0) ∧
    (∀ i < B.length, ∀ j < B.length, ∑ k ∈ range B.length, permCols V o.1 i k * permCols V o.1 j k =
      if i = j then 1 else 0) ∧
    (∀ k < B.length, ∀ i < B.length, Spec.mirror theta B (fun i => (permCols V o.1 i k : ℂ)) i =
      (if k < o.2.1 then (permCols V o.1 i k : ℂ) else -(permCols V o.1 i k : ℂ))) := by
  obtain ⟨g1, g2, -, -, -⟩ := symModes_good theta gi used ms hms hs 0
  intro V w o B
  have hB : B.length = symDim ms := g2
  have hVc : ∀ i j, i < symDim ms → j < symDim ms → V i j = symBlock (gR ms) (gE sparse (gR ms)) i j :=
    fun i j hi hj => V_closed sparse ms g1 i j hi hj
  have hw : ∀ j, j < symDim ms → w j = gP ms j * gE sparse (gR ms) j :=
    fun j hj => sigma_closed sparse ms g1 j hj
  have hw1 : ∀ j < symDim ms, w j = 1 ∨ w j = -1 := by
    intro j hj
    rw [hw j hj]
    rcases gP_cases ms j with a | a <;> rcases gE_cases sparse (gR ms) j with b | b <;> rw [a, b] <;> norm_num
  obtain ⟨o1, o2, o3, o4⟩ := sigmaOrder_facts w (symDim ms) hw1
  have hr := gR_lt ms g1
  have hrr := gR_gR ms g1
  have hor := symBlock_orth (gR ms) (gE sparse (gR ms)) (symDim ms) hr hrr (gE_cases sparse _)
    (fun j hj hne => gE_pair sparse _ j hne (hrr j hj))
  have hsy := symBlock_symm (gR ms) (gE sparse (gR ms)) (symDim ms) hrr
  have hlt := fun k hk => perm_index_lt o.1 (symDim ms) o1 k hk
  rw [hB]
  refine ⟨rfl, o2, ?_, ?_, ?_⟩
  · intro k hk l hl
    have e : ∀ i ∈ range (symDim ms), permCols V o.1 i k * permCols V o.1 i l =
        symBlock (gR ms) (gE sparse (gR ms)) i (o.1.getD k 0) *
          symBlock (gR ms) (gE sparse (gR ms)) i (o.1.getD l 0) := by
      intro i hi
      have hi' := mem_range.1 hi
      simp only [permCols]
      rw [hVc i _ hi' (hlt k hk), hVc i _ hi' (hlt l hl)]
    rw [sum_congr rfl e, hor _ _ (hlt k hk) (hlt l hl)]
    simp only [perm_index_inj o.1 (symDim ms) o1 k l hk hl]
  · intro i hi j hj
    have e : ∀ k ∈ range (symDim ms), permCols V o.1 i k * permCols V o.1 j k =
        (fun m => symBlock (gR ms) (gE sparse (gR ms)) i m *
          symBlock (gR ms) (gE sparse (gR ms)) j m) (o.1.getD k 0) := by
      intro k hk
      have hk' := mem_range.1 hk
      simp only [permCols]
      rw [hVc i _ hi (hlt k hk'), hVc j _ hj (hlt k hk')]
    rw [sum_congr rfl e, sum_perm_index o.1 (symDim ms) o1 (fun m => symBlock (gR ms) (gE sparse (gR ms)) i m *
          symBlock (gR ms) (gE sparse (gR ms)) j m), ← hor i j hi hj]
    refine sum_congr rfl fun m hm => ?_
    have hm' := mem_range.1 hm
    rw [hsy i m hi hm', hsy j m hj hm']
  · intro k hk i hi
    rw [mirror_eq theta gi used ms hms hs _ i hi]
    have hJ := hlt k hk
    simp only [permCols]
    rw [hVc _ _ (hr i hi) hJ, hVc i _ hi hJ,
      symBlock_mirror (gR ms) _ (symDim ms) hrr (gE_cases sparse _) (gE_fix sparse _) i _ hi hJ]
    set J := o.1.getD k 0
    have hwk : w J = if k < o.2.1 then 1 else -1 := by
      split_ifs with c
      · exact o3 k c
      · exact o4 k hk (not_lt.1 c)
    rw [hw J hJ] at hwk
    by_cases hz : symBlock (gR ms) (gE sparse (gR ms)) i J = 0
    · rw [hz]; split_ifs <;> simp
    · have hpi : gP ms i = gP ms J := by
        unfold symBlock at hz
        split_ifs at hz with c1 c2 c3 c4
        · rw [c2]
        · exact absurd rfl hz
        · rw [c3]
        · rw [c4, gP_gR ms g1 J hJ]
        · exact absurd rfl hz
      rw [hpi]
      have : (gP ms J : ℂ) * ((gE sparse (gR ms) J * symBlock (gR ms) (gE sparse (gR ms)) i J : ℝ) : ℂ) =
          ((gP ms J * gE sparse (gR ms) J : ℝ) : ℂ) * (symBlock (gR ms) (gE sparse (gR ms)) i J : ℂ) := by
        push_cast; ring
      rw [this, hwk]
      split_ifs <;> simp

theorem checkSep_ok (thr : ℝ) (n : ℕ) (s0 s : Separated) (h : checkSep thr n s0 = .ok s) :
    s = s0 ∧ s0.odd ≠ 0 ∧ s0.even ≠ 0 ∧
      ∀ i < s0.even, ∀ j, s0.even ≤ j → j < n → ‖s0.sep i j‖ ≤ thr ∧ ‖s0.sep j i‖ ≤ thr := by
  classical
  unfold checkSep at h
  split_ifs at h with c1 c2
  injection h with h
  rw [not_or] at c1
  exact ⟨h.symm, c1.1, c1.2, c2⟩

theorem sep_facts (sparse : Bool) (theta thr : ℝ) (gi : List ℕ) (used : List (List (ℝ × ℝ)))
    (M : ℕ → ℕ → ℂ) (s : Separated) (hs : ∀ gs ∈ used, Spec.Spread gs)
    (h : separate sparse theta thr gi used M = .ok s) : SepFacts theta thr (Spec.gmBasis 0 gi used) M s := by
  unfold separate at h
  split at h
  · simp at h
  · rename_i ms hms
    obtain ⟨rfl, c1, c2, c3⟩ := checkSep_ok _ _ _ _ h
    obtain ⟨b0, b1, b2, b3, b4⟩ := core_facts sparse theta gi used ms hms hs
    refine ⟨b1, Nat.pos_of_ne_zero c2, Nat.pos_of_ne_zero c1, b2, b3, b4, ?_, ?_⟩
    · intro k l; simp only [b0]
    · intro i hi j hj hjn
      rw [b0] at hjn
      exact c3 i hi j hj hjn

/-! ### Transforming coefficients -/

/-- Coefficients in the new basis. -/
noncomputable def hat (n : ℕ) (V : ℕ → ℕ → ℝ) (x : ℕ → ℂ) (k : ℕ) : ℂ := ∑ i ∈ range n, (V i k : ℂ) * x i

/-- Coefficients in the original basis. -/
noncomputable def unhat (n : ℕ) (V : ℕ → ℕ → ℝ) (y : ℕ → ℂ) (i : ℕ) : ℂ := ∑ k ∈ range n, (V i k : ℂ) * y k

theorem mirror_congr (theta : ℝ) (B : List (ℕ × ℕ × (ℝ × ℝ))) (c d : ℕ → ℂ)
    (h : ∀ i < B.length, c i = d i) (i : ℕ) : Spec.mirror theta B c i = Spec.mirror theta B d i := by
  unfold Spec.mirror
  refine sum_congr rfl fun j hj => ?_
  rw [h j (mem_range.1 hj)]

theorem mirror_lin (theta : ℝ) (B : List (ℕ × ℕ × (ℝ × ℝ))) (n : ℕ) (a : ℕ → ℂ) (c : ℕ → ℕ → ℂ) (i : ℕ) :
    Spec.mirror theta B (fun i => ∑ k ∈ range n, c k i * a k) i =
      ∑ k ∈ range n, Spec.mirror theta B (c k) i * a k := by
  unfold Spec.mirror
  simp only [sum_mul]
  rw [sum_comm]
  refine sum_congr rfl fun j _ => ?_
  split_ifs
  · rw [← sum_neg_distrib]; exact sum_congr rfl fun k _ => by ring
  · rfl
  · simp

theorem act_congr (n : ℕ) (M : ℕ → ℕ → ℂ) (c d : ℕ → ℂ) (h : ∀ i < n, c i = d i) (i : ℕ) :
    Spec.act n M c i = Spec.act n M d i := by
  unfold Spec.act
  exact sum_congr rfl fun j hj => by rw [h j (mem_range.1 hj)]

namespace SepFacts
variable {theta thr : ℝ} {B : List (ℕ × ℕ × (ℝ × ℝ))} {M : ℕ → ℕ → ℂ} {s : Separated}

theorem hat_unhat (F : SepFacts theta thr B M s) (y : ℕ → ℂ) (k : ℕ) (hk : k < B.length) :
    hat B.length s.V (unhat B.length s.V y) k = y k := by
  unfold hat unhat
  simp only [mul_sum]
  rw [sum_comm]
  have e : ∀ l ∈ range B.length, ∑ i ∈ range B.length, (s.V i k : ℂ) * ((s.V i l : ℂ) * y l) =
      if l = k then y k else 0 := by
    intro l hl
    have := F.cols k hk l (mem_range.1 hl)
    have e2 : ∑ i ∈ range B.length, (s.V i k : ℂ) * ((s.V i l : ℂ) * y l) =
        ((∑ i ∈ range B.length, s.V i k * s.V i l : ℝ) : ℂ) * y l := by
      push_cast; rw [sum_mul]; exact sum_congr rfl fun i _ => by ring
    rw [e2, this]
    by_cases c : k = l
    · subst c; simp
    · have : ¬ l = k := fun h => c h.symm
      simp [c, this]
  rw [sum_congr rfl e, sum_ite_eq' (range B.length) k, if_pos (mem_range.2 hk)]

theorem unhat_hat (F : SepFacts theta thr B M s) (x : ℕ → ℂ) (i : ℕ) (hi : i < B.length) :
    unhat B.length s.V (hat B.length s.V x) i = x i := by
  unfold hat unhat
  simp only [mul_sum]
  rw [sum_comm]
  have e : ∀ l ∈ range B.length, ∑ k ∈ range B.length, (s.V i k : ℂ) * ((s.V l k : ℂ) * x l) =
      if l = i then x i else 0 := by
    intro l hl
    have := F.rows i hi l (mem_range.1 hl)
    have e2 : ∑ k ∈ range B.length, (s.V i k : ℂ) * ((s.V l k : ℂ) * x l) =
        ((∑ k ∈ range B.length, s.V i k * s.V l k : ℝ) : ℂ) * x l := by
      push_cast; rw [sum_mul]; exact sum_congr rfl fun i _ => by ring
    rw [e2, this]
    by_cases c : i = l
    · subst c; simp
    · have : ¬ l = i := fun h => c h.symm
      simp [c, this]
  rw [sum_congr rfl e, sum_ite_eq' (range B.length) i, if_pos (mem_range.2 hi)]

/-- Parity of a column. -/
noncomputable def sg (s : Separated) (k : ℕ) : ℂ := if k < s.even then 1 else -1

theorem mirror_unhat (F : SepFacts theta thr B M s) (y : ℕ → ℂ) (i : ℕ) (hi : i < B.length) :
    Spec.mirror theta B (unhat B.length s.V y) i = unhat B.length s.V (fun k => sg s k * y k) i := by
  unfold unhat
  rw [mirror_lin theta B B.length y (fun k i => (s.V i k : ℂ)) i]
  refine sum_congr rfl fun k hk => ?_
  rw [F.par k (mem_range.1 hk) i hi]
  by_cases c : k < s.even
  · simp [sg, c]
  · simp [sg, c]

theorem hat_mirror (F : SepFacts theta thr B M s) (x : ℕ → ℂ) (k : ℕ) (hk : k < B.length) :
    hat B.length s.V (Spec.mirror theta B x) k = sg s k * hat B.length s.V x k := by
  have e : ∀ i < B.length, Spec.mirror theta B x i =
      unhat B.length s.V (fun k => sg s k * hat B.length s.V x k) i := by
    intro i hi
    rw [← F.mirror_unhat _ i hi]
    exact mirror_congr theta B _ _ (fun j hj => (F.unhat_hat x j hj).symm) i
  rw [← F.hat_unhat (fun k => sg s k * hat B.length s.V x k) k hk]
  unfold hat
  exact sum_congr rfl fun i hi => by rw [e i (mem_range.1 hi)]; rfl

/-- The transformed matrix acts on transformed coefficients. -/
theorem sep_act (F : SepFacts theta thr B M s) (y : ℕ → ℂ) (k : ℕ) :
    ∑ l ∈ range B.length, s.sep k l * y l =
      hat B.length s.V (Spec.act B.length M (unhat B.length s.V y)) k := by
  unfold hat Spec.act unhat
  simp only [F.sep, changeBasis, sum_mul, mul_sum]
  rw [sum_comm]
  refine sum_congr rfl fun i _ => ?_
  rw [sum_comm]
  refine sum_congr rfl fun j _ => sum_congr rfl fun l _ => ?_
  ring

/-- The matrix commutes with the mirror. -/
def Commutes (theta : ℝ) (B : List (ℕ × ℕ × (ℝ × ℝ))) (M : ℕ → ℕ → ℂ) : Prop :=
  ∀ c : ℕ → ℂ, ∀ i < B.length, Spec.act B.length M (Spec.mirror theta B c) i =
    Spec.mirror theta B (Spec.act B.length M c) i

theorem sep_column (F : SepFacts theta thr B M s) (k l : ℕ) (hl : l < B.length) :
    s.sep k l = hat B.length s.V (Spec.act B.length M (fun i => (s.V i l : ℂ))) k := by
  have h := F.sep_act (fun m => if m = l then 1 else 0) k
  simp only [mul_ite, mul_one, mul_zero, sum_ite_eq' (range B.length) l, mem_range.2 hl, if_true] at h
  rw [h]
  have e : unhat B.length s.V (fun m => if m = l then 1 else 0) = fun i => (s.V i l : ℂ) := by
    funext i
    unfold unhat
    simp [mem_range.2 hl, mem_range.1 (mem_range.2 hl)]
  rw [e]

theorem decouple (F : SepFacts theta thr B M s) (hc : Commutes theta B M) (k l : ℕ) (hk : k < B.length)
    (hl : l < B.length) (h : sg s k ≠ sg s l) : s.sep k l = 0 := by
  set u := Spec.act B.length M (fun i => (s.V i l : ℂ)) with hu
  have h1 : ∀ i < B.length, Spec.mirror theta B u i = sg s l * u i := by
    intro i hi
    rw [hu, ← hc _ i hi, act_congr B.length M _ (fun i => sg s l * (s.V i l : ℂ))]
    · unfold Spec.act; rw [mul_sum]; exact sum_congr rfl fun j _ => by ring
    · intro j hj
      rw [F.par l hl j hj]; unfold sg; split_ifs <;> ring
  have h2 := F.hat_mirror u k hk
  have h3 : hat B.length s.V (Spec.mirror theta B u) k = sg s l * hat B.length s.V u k := by
    unfold hat
    rw [mul_sum]
    exact sum_congr rfl fun i hi => by rw [h1 i (mem_range.1 hi)]; ring
  rw [h3] at h2
  rw [F.sep_column k l hl, ← hu]
  have h4 : (sg s l - sg s k) * hat B.length s.V u k = 0 := by rw [sub_mul, h2, sub_self]
  rcases mul_eq_zero.1 h4 with h5 | h5
  · exact absurd (sub_eq_zero.1 h5).symm h
  · exact h5

end SepFacts

/-! ### The property -/

/-- **C30.** Both implementations return an orthogonal change of basis (columns and rows are orthonormal);
its columns are eigenvectors of the mirror, the first `even_count` with eigenvalue `+1` and the others with
eigenvalue `-1`; both sectors are non-empty and together have the size of the basis. -/
theorem C30_basis (sparse : Bool) (theta thr : ℝ) (gi : List ℕ) (used : List (List (ℝ × ℝ)))
    (M : ℕ → ℕ → ℂ) (s : Separated) (hs : ∀ gs ∈ used, Spec.Spread gs)
    (h : separate sparse theta thr gi used M = .ok s) :
    let B := Spec.gmBasis 0 gi used
    s.even + s.odd = B.length ∧ 0 < s.even ∧ 0 < s.odd ∧
    (∀ k < B.length, ∀ l < B.length, ∑ i ∈ range B.length, s.V i k * s.V i l = if k = l then 1 else 0) ∧
    (∀ i < B.length, ∀ j < B.length, ∑ k ∈ range B.length, s.V i k * s.V j k = if i = j then 1 else 0) ∧
    (∀ k < s.even, ∀ i < B.length, Spec.mirror theta B (fun i => (s.V i k : ℂ)) i = s.V i k) ∧
    (∀ k, s.even ≤ k → k < B.length → ∀ i < B.length,
      Spec.mirror theta B (fun i => (s.V i k : ℂ)) i = -s.V i k) := by
  have F := sep_facts sparse theta thr gi used M s hs h
  refine ⟨F.size, F.even_pos, F.odd_pos, F.cols, F.rows, ?_, ?_⟩
  · intro k hk i hi
    rw [F.par k (by have := F.size; omega) i hi, if_pos hk]
  · intro k hk hk2 i hi
    rw [F.par k hk2 i hi, if_neg (by omega)]

/-- **C30.** When the matrix commutes with the mirror the transformed matrix has no entry between the even
and the odd sector. -/
theorem C30_decouple (sparse : Bool) (theta thr : ℝ) (gi : List ℕ) (used : List (List (ℝ × ℝ)))
    (M : ℕ → ℕ → ℂ) (s : Separated) (hs : ∀ gs ∈ used, Spec.Spread gs)
    (h : separate sparse theta thr gi used M = .ok s)
    (hc : SepFacts.Commutes theta (Spec.gmBasis 0 gi used) M) (k l : ℕ) (hk : k < s.even)
    (hl : l < s.odd) : s.sep k (s.even + l) = 0 ∧ s.sep (s.even + l) k = 0 := by
  have F := sep_facts sparse theta thr gi used M s hs h
  have hsz := F.size
  constructor
  · apply F.decouple hc _ _ (by omega) (by omega)
    simp only [SepFacts.sg, hk, if_true]
    rw [if_neg (by omega)]; norm_num
  · apply F.decouple hc _ _ (by omega) (by omega)
    simp only [SepFacts.sg, hk, if_true]
    rw [if_neg (by omega)]; norm_num

/-- **C30.** A matrix that commutes with the mirror is always accepted, for every threshold that is not
negative, as soon as every mode contains the mirror image of each of its vectors and both sectors occur. -/
theorem C30_accepts (sparse : Bool) (theta thr : ℝ) (gi : List ℕ) (used : List (List (ℝ × ℝ)))
    (M : ℕ → ℕ → ℂ) (hs : ∀ gs ∈ used, Spec.Spread gs) (hthr : 0 ≤ thr) (hlen : gi.length ≤ used.length)
    (hcl : ∀ gs ∈ used, ∀ g ∈ gs, Spec.mirrorVec theta g ∈ gs)
    (hc : SepFacts.Commutes theta (Spec.gmBasis 0 gi used) M)
    (hplus : ∃ c : ℕ → ℂ, (∃ i < (Spec.gmBasis 0 gi used).length, c i ≠ 0) ∧
      ∀ i < (Spec.gmBasis 0 gi used).length, Spec.mirror theta (Spec.gmBasis 0 gi used) c i = c i)
    (hminus : ∃ c : ℕ → ℂ, (∃ i < (Spec.gmBasis 0 gi used).length, c i ≠ 0) ∧
      ∀ i < (Spec.gmBasis 0 gi used).length, Spec.mirror theta (Spec.gmBasis 0 gi used) c i = -c i) :
    ∃ s, separate sparse theta thr gi used M = .ok s := by
  classical
  -- the partner table exists
  have hms : ∃ ms, symModes theta gi used = .ok ms := by
    clear hc hplus hminus
    induction gi generalizing used with
    | nil => exact ⟨[], by simp [symModes]⟩
    | cons a as ih =>
      cases used with
      | nil => simp at hlen
      | cons gs us =>
        have hgs := hcl gs (by simp)
        have hidx : ∀ g ∈ gs, ∃ i, indG gs (reflectG theta g) = .ok i := by
          intro g hg
          unfold indG
          split
          · rename_i k _; exact ⟨k, rfl⟩
          · rename_i hn
            exfalso
            rw [List.findIdx?_eq_none_iff] at hn
            have := hn _ (hgs g hg)
            rw [← reflectG_eq] at this
            have hn2 : (0 : ℝ) < 1e-7 := by norm_num
            simp [hn2] at this
        have hr : ∀ l : List (ℝ × ℝ), (∀ g ∈ l, ∃ i, indG gs (reflectG theta g) = .ok i) →
            ∃ rs, l.mapM (fun g => indG gs (reflectG theta g)) = .ok rs := by
          intro l
          induction l with
          | nil => intro _; exact ⟨[], rfl⟩
          | cons x xs ihx =>
            intro hx
            obtain ⟨i, hi⟩ := hx x (by simp)
            obtain ⟨is, his⟩ := ihx (fun g hg => hx g (by simp [hg]))
            exact ⟨i :: is, by rw [List.mapM_cons, hi]; simp only [bind, Except.bind]; rw [his]; rfl⟩
        obtain ⟨rs, hrs⟩ := hr gs hidx
        obtain ⟨ms, hms⟩ := ih us (fun x hx => hs x (by simp [hx])) (by simpa using hlen)
          (fun x hx => hcl x (by simp [hx]))
        have hrs' : reflIdx theta gs = .ok rs := hrs
        exact ⟨_, by simp only [symModes, hrs', hms]; rfl⟩
  obtain ⟨ms, hms⟩ := hms
  obtain ⟨b0, b1, b2, b3, b4⟩ := core_facts sparse theta gi used ms hms hs
  set B := Spec.gmBasis 0 gi used with hB
  set V := if sparse then sparseV ms else denseV ms
  set w := if sparse then sparseSigma ms else denseSigma ms
  set o := sigmaOrder w (symDim ms) with ho
  set s0 : Separated := ⟨o.2.1, o.2.2, permCols V o.1, changeBasis (symDim ms) (permCols V o.1) M⟩ with hs0
  -- facts that do not need the checks, with a vacuous threshold
  by_cases hev : o.2.1 = 0
  · -- no even column: contradiction with `hplus`
    exfalso
    obtain ⟨c, ⟨i0, hi0, hne⟩, hfix⟩ := hplus
    apply hne
    -- expand in the columns
    have hpar : ∀ k < B.length, ∀ i < B.length, Spec.mirror theta B (fun i => (permCols V o.1 i k : ℂ)) i =
        -(permCols V o.1 i k : ℂ) := by
      intro k hk i hi; rw [b4 k hk i hi, if_neg (by omega)]
    have hexp : ∀ i < B.length, c i = unhat B.length (permCols V o.1) (hat B.length (permCols V o.1) c) i := by
      intro i hi
      unfold hat unhat
      simp only [mul_sum]
      rw [sum_comm]
      have e : ∀ l ∈ range B.length, ∑ k ∈ range B.length,
          (permCols V o.1 i k : ℂ) * ((permCols V o.1 l k : ℂ) * c l) = if l = i then c i else 0 := by
        intro l hl
        have := b3 i hi l (mem_range.1 hl)
        have e2 : ∑ k ∈ range B.length, (permCols V o.1 i k : ℂ) * ((permCols V o.1 l k : ℂ) * c l) =
            ((∑ k ∈ range B.length, permCols V o.1 i k * permCols V o.1 l k : ℝ) : ℂ) * c l := by
          push_cast; rw [sum_mul]; exact sum_congr rfl fun i _ => by ring
        rw [e2, this]
        by_cases cc : i = l
        · subst cc; simp
        · have : ¬ l = i := fun h => cc h.symm
          simp [cc, this]
      rw [sum_congr rfl e, sum_ite_eq' (range B.length) i, if_pos (mem_range.2 hi)]
    have hm : Spec.mirror theta B c i0 = -c i0 := by
      rw [mirror_congr theta B c _ hexp, hexp i0 hi0]
      unfold unhat
      rw [mirror_lin theta B B.length _ (fun k i => (permCols V o.1 i k : ℂ)) i0, ← sum_neg_distrib]
      exact sum_congr rfl fun k hk => by rw [hpar k (mem_range.1 hk) i0 hi0]; ring
    rw [hfix i0 hi0] at hm
    have h2 : c i0 + c i0 = 0 := by nth_rewrite 1 [hm]; ring
    have h3 : (2 : ℂ) * c i0 = 0 := by rw [two_mul]; exact h2
    simpa using h3
  by_cases hod : o.2.2 = 0
  · exfalso
    obtain ⟨c, ⟨i0, hi0, hne⟩, hfix⟩ := hminus
    apply hne
    have hpar : ∀ k < B.length, ∀ i < B.length, Spec.mirror theta B (fun i => (permCols V o.1 i k : ℂ)) i =
        (permCols V o.1 i k : ℂ) := by
      intro k hk i hi
      rw [b4 k hk i hi, if_pos]
      have b1' : o.2.1 + o.2.2 = B.length := b1
      omega
    have hexp : ∀ i < B.length, c i = unhat B.length (permCols V o.1) (hat B.length (permCols V o.1) c) i := by
      intro i hi
      unfold hat unhat
      simp only [mul_sum]
      rw [sum_comm]
      have e : ∀ l ∈ range B.length, ∑ k ∈ range B.length,
          (permCols V o.1 i k : ℂ) * ((permCols V o.1 l k : ℂ) * c l) = if l = i then c i else 0 := by
        intro l hl
        have := b3 i hi l (mem_range.1 hl)
        have e2 : ∑ k ∈ range B.length, (permCols V o.1 i k : ℂ) * ((permCols V o.1 l k : ℂ) * c l) =
            ((∑ k ∈ range B.length, permCols V o.1 i k * permCols V o.1 l k : ℝ) : ℂ) * c l := by
          push_cast; rw [sum_mul]; exact sum_congr rfl fun i _ => by ring
        rw [e2, this]
        by_cases cc : i = l
        · subst cc; simp
        · have : ¬ l = i := fun h => cc h.symm
          simp [cc, this]
      rw [sum_congr rfl e, sum_ite_eq' (range B.length) i, if_pos (mem_range.2 hi)]
    have hm : Spec.mirror theta B c i0 = c i0 := by
      rw [mirror_congr theta B c _ hexp]
      conv_rhs => rw [hexp i0 hi0]
      unfold unhat
      rw [mirror_lin theta B B.length _ (fun k i => (permCols V o.1 i k : ℂ)) i0]
      exact sum_congr rfl fun k hk => by rw [hpar k (mem_range.1 hk) i0 hi0]
    rw [hfix i0 hi0] at hm
    have h3 : (2 : ℂ) * c i0 = 0 := by rw [two_mul]; nth_rewrite 1 [← hm]; ring
    simpa using h3
  -- both sectors occur
  have hsep : ∀ i j, s0.sep i j = changeBasis B.length s0.V M i j := by
    intro i j; simp only [hs0, b0]
  obtain ⟨T, hT⟩ : ∃ T : ℝ, ∀ i < s0.even, ∀ j, s0.even ≤ j → j < B.length →
      ‖s0.sep i j‖ ≤ T ∧ ‖s0.sep j i‖ ≤ T := by
    refine ⟨∑ i ∈ range B.length, ∑ j ∈ range B.length, (‖s0.sep i j‖ + ‖s0.sep j i‖), ?_⟩
    intro i hi j hj hjn
    have hin : i < B.length := by
      have b1' : o.2.1 + o.2.2 = B.length := b1
      have : s0.even = o.2.1 := rfl
      omega
    have h1 : ‖s0.sep i j‖ + ‖s0.sep j i‖ ≤ ∑ j ∈ range B.length, (‖s0.sep i j‖ + ‖s0.sep j i‖) :=
      single_le_sum (f := fun j => ‖s0.sep i j‖ + ‖s0.sep j i‖)
        (fun j _ => by positivity) (mem_range.2 hjn)
    have h2 : ∑ j ∈ range B.length, (‖s0.sep i j‖ + ‖s0.sep j i‖) ≤
        ∑ i ∈ range B.length, ∑ j ∈ range B.length, (‖s0.sep i j‖ + ‖s0.sep j i‖) :=
      single_le_sum (f := fun i => ∑ j ∈ range B.length, (‖s0.sep i j‖ + ‖s0.sep j i‖))
        (fun i _ => sum_nonneg fun j _ => by positivity) (mem_range.2 hin)
    constructor
    · linarith [norm_nonneg (s0.sep j i)]
    · linarith [norm_nonneg (s0.sep i j)]
  have F : SepFacts theta T B M s0 :=
    ⟨b1, Nat.pos_of_ne_zero hev, Nat.pos_of_ne_zero hod, b2, b3, b4, hsep, hT⟩
  refine ⟨s0, ?_⟩
  unfold separate
  rw [hms]
  simp only [checkSep]
  rw [if_neg (by rw [not_or]; exact ⟨hod, hev⟩), if_pos]
  intro i hi j hj hjn
  rw [← b0] at hjn
  have hin : i < B.length := by
    have b1' : o.2.1 + o.2.2 = B.length := b1
    have : i < o.2.1 := hi
    omega
  have hi' : i < s0.even := hi
  have hj' : ¬ j < s0.even := not_lt.2 hj
  have z1 : s0.sep i j = 0 := F.decouple hc i j hin hjn (by simp only [SepFacts.sg, hi', hj', if_true, if_false]; norm_num)
  have z2 : s0.sep j i = 0 := F.decouple hc j i hjn hin (by simp only [SepFacts.sg, hi', hj', if_true, if_false]; norm_num)
  have z1' : changeBasis (symDim ms) (permCols V o.1) M i j = 0 := z1
  have z2' : changeBasis (symDim ms) (permCols V o.1) M j i = 0 := z2
  constructor
  · exact le_of_eq_of_le (by rw [z1', norm_zero]) hthr
  · exact le_of_eq_of_le (by rw [z2', norm_zero]) hthr


/-- Coefficients padded as `run` does. -/
theorem backEven_eq (s : Separated) (n : ℕ) (hn : s.even + s.odd = n) (y : ℕ → ℂ) :
    s.backEven y = unhat n s.V (fun k => if k < s.even then y k else 0) := by
  funext i; unfold Separated.backEven unhat; rw [hn]

theorem backOdd_eq (s : Separated) (n : ℕ) (hn : s.even + s.odd = n) (y : ℕ → ℂ) :
    s.backOdd y = unhat n s.V (fun k => if k < s.even then 0 else y (k - s.even)) := by
  funext i; unfold Separated.backOdd unhat; rw [hn]

theorem sum_even_part (e o : ℕ) (f y : ℕ → ℂ) :
    ∑ l ∈ range (e + o), f l * (if l < e then y l else 0) = ∑ l ∈ range e, f l * y l := by
  rw [sum_range_add]
  have h1 : ∀ l ∈ range e, f l * (if l < e then y l else 0) = f l * y l := by
    intro l hl; rw [if_pos (mem_range.1 hl)]
  have h2 : ∀ l ∈ range o, f (e + l) * (if e + l < e then y (e + l) else 0) = 0 := by
    intro l _; rw [if_neg (by omega), mul_zero]
  rw [sum_congr rfl h1, sum_congr rfl h2, sum_const_zero, add_zero]

theorem sum_odd_part (e o : ℕ) (f y : ℕ → ℂ) :
    ∑ l ∈ range (e + o), f l * (if l < e then 0 else y (l - e)) = ∑ l ∈ range o, f (e + l) * y l := by
  rw [sum_range_add]
  have h1 : ∀ l ∈ range e, f l * (if l < e then 0 else y (l - e)) = 0 := by
    intro l hl; rw [if_pos (mem_range.1 hl), mul_zero]
  have h2 : ∀ l ∈ range o, f (e + l) * (if e + l < e then 0 else y (e + l - e)) = f (e + l) * y l := by
    intro l _; rw [if_neg (by omega), Nat.add_sub_cancel_left]
  rw [sum_congr rfl h1, sum_congr rfl h2, sum_const_zero, zero_add]

/-- An eigenvector of the transformed matrix is one of the original matrix. -/
theorem SepFacts.eig_unhat {theta thr : ℝ} {B : List (ℕ × ℕ × (ℝ × ℝ))} {M : ℕ → ℕ → ℂ} {s : Separated}
    (F : SepFacts theta thr B M s) (y : ℕ → ℂ) (lam : ℂ)
    (h : ∀ k < B.length, ∑ l ∈ range B.length, s.sep k l * y l = lam * y k) (i : ℕ) (hi : i < B.length) :
    Spec.act B.length M (unhat B.length s.V y) i = lam * unhat B.length s.V y i := by
  rw [← F.unhat_hat (Spec.act B.length M (unhat B.length s.V y)) i hi]
  unfold unhat
  rw [mul_sum]
  refine sum_congr rfl fun k hk => ?_
  have := F.sep_act y k
  unfold unhat at this
  rw [← this, h k (mem_range.1 hk)]
  ring

/-- **C30.** The eigenvectors `run` returns: an eigenvector of the even block, padded with zeros and
transformed back, is an eigenvector of the full Hamiltonian with the same eigenvalue, is even under the
mirror and has the same norm; likewise for the odd block. -/
theorem C30_eigenvectors (sparse : Bool) (theta thr : ℝ) (gi : List ℕ) (used : List (List (ℝ × ℝ)))
    (M : ℕ → ℕ → ℂ) (s : Separated) (hs : ∀ gs ∈ used, Spec.Spread gs)
    (h : separate sparse theta thr gi used M = .ok s)
    (hc : SepFacts.Commutes theta (Spec.gmBasis 0 gi used) M) (lam : ℂ) (y : ℕ → ℂ) :
    let B := Spec.gmBasis 0 gi used
    ((∀ k < s.even, ∑ l ∈ range s.even, s.matEven k l * y l = lam * y k) →
      ∀ i < B.length, Spec.act B.length M (s.backEven y) i = lam * s.backEven y i ∧
        Spec.mirror theta B (s.backEven y) i = s.backEven y i) ∧
    ((∀ k < s.odd, ∑ l ∈ range s.odd, s.matOdd k l * y l = lam * y k) →
      ∀ i < B.length, Spec.act B.length M (s.backOdd y) i = lam * s.backOdd y i ∧
        Spec.mirror theta B (s.backOdd y) i = -s.backOdd y i) ∧
    (∀ k < s.even, hat B.length s.V (s.backEven y) k = y k) ∧
    (∀ k < s.odd, hat B.length s.V (s.backOdd y) (s.even + k) = y k) := by
  have F := sep_facts sparse theta thr gi used M s hs h
  have hdec := C30_decouple sparse theta thr gi used M s hs h hc
  intro B
  change SepFacts theta thr B M s at F
  have hsz : s.even + s.odd = B.length := F.size
  refine ⟨?_, ?_, ?_, ?_⟩
  · intro hy i hi
    rw [backEven_eq s B.length hsz]
    refine ⟨F.eig_unhat _ lam ?_ i hi, ?_⟩
    · intro k hk
      rw [← hsz, sum_even_part]
      by_cases c : k < s.even
      · rw [if_pos c]; exact hy k c
      · rw [if_neg c, mul_zero]
        refine sum_eq_zero fun l hl => ?_
        have := (hdec l (k - s.even) (mem_range.1 hl) (by omega)).2
        rw [show s.even + (k - s.even) = k by omega] at this
        rw [this, zero_mul]
    · rw [F.mirror_unhat _ i hi]
      congr 1
      funext k
      by_cases c : k < s.even <;> simp [SepFacts.sg, c]
  · intro hy i hi
    rw [backOdd_eq s B.length hsz]
    refine ⟨F.eig_unhat _ lam ?_ i hi, ?_⟩
    · intro k hk
      rw [← hsz, sum_odd_part]
      by_cases c : k < s.even
      · rw [if_pos c, mul_zero]
        refine sum_eq_zero fun l hl => ?_
        rw [(hdec k l c (mem_range.1 hl)).1, zero_mul]
      · rw [if_neg c, ← hy (k - s.even) (by omega)]
        refine sum_congr rfl fun l _ => ?_
        unfold Separated.matOdd
        rw [show s.even + (k - s.even) = k by omega]
    · rw [F.mirror_unhat _ i hi]
      unfold unhat
      rw [← sum_neg_distrib]
      refine sum_congr rfl fun k _ => ?_
      by_cases c : k < s.even <;> simp [SepFacts.sg, c]
  · intro k hk
    rw [backEven_eq s B.length hsz, F.hat_unhat _ k (by omega), if_pos hk]
  · intro k hk
    rw [backOdd_eq s B.length hsz, F.hat_unhat _ (s.even + k) (by omega), if_neg (by omega),
      Nat.add_sub_cancel_left]

/-- **C30.** The spectrum of the even block is the set of eigenvalues of the Hamiltonian with a
mirror-even eigenvector, that of the odd block the set of those with a mirror-odd one, and their union is
the whole spectrum. -/
theorem C30_spectrum (sparse : Bool) (theta thr : ℝ) (gi : List ℕ) (used : List (List (ℝ × ℝ)))
    (M : ℕ → ℕ → ℂ) (s : Separated) (hs : ∀ gs ∈ used, Spec.Spread gs)
    (h : separate sparse theta thr gi used M = .ok s)
    (hc : SepFacts.Commutes theta (Spec.gmBasis 0 gi used) M) (lam : ℂ) :
    let B := Spec.gmBasis 0 gi used
    let evE := ∃ y : ℕ → ℂ, (∃ k < s.even, y k ≠ 0) ∧
      ∀ k < s.even, ∑ l ∈ range s.even, s.matEven k l * y l = lam * y k
    let evO := ∃ y : ℕ → ℂ, (∃ k < s.odd, y k ≠ 0) ∧
      ∀ k < s.odd, ∑ l ∈ range s.odd, s.matOdd k l * y l = lam * y k
    let ev := fun P : (ℕ → ℂ) → Prop => ∃ x : ℕ → ℂ, (∃ i < B.length, x i ≠ 0) ∧
      (∀ i < B.length, Spec.act B.length M x i = lam * x i) ∧ P x
    (evE ↔ ev fun x => ∀ i < B.length, Spec.mirror theta B x i = x i) ∧
    (evO ↔ ev fun x => ∀ i < B.length, Spec.mirror theta B x i = -x i) ∧
    (ev (fun _ => True) ↔ evE ∨ evO) := by
  have F := sep_facts sparse theta thr gi used M s hs h
  have hdec := C30_decouple sparse theta thr gi used M s hs h hc
  have hvec := C30_eigenvectors sparse theta thr gi used M s hs h hc lam
  intro B evE evO ev
  change SepFacts theta thr B M s at F
  have hsz : s.even + s.odd = B.length := F.size
  -- transformed equation
  have htr : ∀ x : ℕ → ℂ, (∀ i < B.length, Spec.act B.length M x i = lam * x i) →
      (∀ k < s.even, ∑ l ∈ range s.even, s.matEven k l * hat B.length s.V x l = lam * hat B.length s.V x k) ∧
      (∀ k < s.odd, ∑ l ∈ range s.odd, s.matOdd k l * hat B.length s.V x (s.even + l) =
        lam * hat B.length s.V x (s.even + k)) := by
    intro x hx
    have hall : ∀ k, ∑ l ∈ range B.length, s.sep k l * hat B.length s.V x l = lam * hat B.length s.V x k := by
      intro k
      rw [F.sep_act]
      have e1 : ∀ i < B.length, Spec.act B.length M (unhat B.length s.V (hat B.length s.V x)) i = lam * x i := by
        intro i hi
        rw [act_congr B.length M _ x (fun j hj => F.unhat_hat x j hj), hx i hi]
      unfold hat
      rw [mul_sum]
      refine sum_congr rfl fun i hi => ?_
      have := e1 i (mem_range.1 hi)
      unfold hat at this
      rw [this]; ring
    constructor
    · intro k hk
      rw [← hall k, ← hsz, sum_range_add]
      have : ∀ l ∈ range s.odd, s.sep k (s.even + l) * hat (s.even + s.odd) s.V x (s.even + l) = 0 := by
        intro l hl; rw [(hdec k l hk (mem_range.1 hl)).1, zero_mul]
      rw [sum_congr rfl this, sum_const_zero, add_zero]
      rfl
    · intro k hk
      rw [← hall (s.even + k), ← hsz, sum_range_add]
      have : ∀ l ∈ range s.even, s.sep (s.even + k) l * hat (s.even + s.odd) s.V x l = 0 := by
        intro l hl; rw [(hdec l k (mem_range.1 hl) hk).2, zero_mul]
      rw [sum_congr rfl this, sum_const_zero, zero_add]
      rfl
  have hnz : ∀ x : ℕ → ℂ, (∃ i < B.length, x i ≠ 0) → ∃ k < B.length, hat B.length s.V x k ≠ 0 := by
    rintro x ⟨i, hi, hne⟩
    by_contra hcon
    push Not at hcon
    apply hne
    rw [← F.unhat_hat x i hi]
    unfold unhat
    exact sum_eq_zero fun k hk => by rw [hcon k (mem_range.1 hk), mul_zero]
  have hnzb : ∀ z : ℕ → ℂ, (∃ k < B.length, hat B.length s.V z k ≠ 0) → ∃ i < B.length, z i ≠ 0 := by
    rintro z ⟨k, -, hne⟩
    by_contra hcon
    push Not at hcon
    apply hne
    unfold hat
    exact sum_eq_zero fun i hi => by rw [hcon i (mem_range.1 hi), mul_zero]
  have toE : evE → ev fun x => ∀ i < B.length, Spec.mirror theta B x i = x i := by
    rintro ⟨y, ⟨k, hk, hne⟩, hy⟩
    obtain ⟨v1, -, v3, -⟩ := hvec y
    exact ⟨s.backEven y, hnzb _ ⟨k, by omega, by rw [v3 k hk]; exact hne⟩,
      fun i hi => (v1 hy i hi).1, fun i hi => (v1 hy i hi).2⟩
  have toO : evO → ev fun x => ∀ i < B.length, Spec.mirror theta B x i = -x i := by
    rintro ⟨y, ⟨k, hk, hne⟩, hy⟩
    obtain ⟨-, v2, -, v4⟩ := hvec y
    exact ⟨s.backOdd y, hnzb _ ⟨s.even + k, by omega, by rw [v4 k hk]; exact hne⟩,
      fun i hi => (v2 hy i hi).1, fun i hi => (v2 hy i hi).2⟩
  refine ⟨⟨toE, ?_⟩, ⟨toO, ?_⟩, ⟨?_, ?_⟩⟩
  · rintro ⟨x, hx0, hx, hpar⟩
    obtain ⟨k, hk, hne⟩ := hnz x hx0
    have hm := F.hat_mirror x k hk
    have e : hat B.length s.V (Spec.mirror theta B x) k = hat B.length s.V x k := by
      unfold hat; exact sum_congr rfl fun i hi => by rw [hpar i (mem_range.1 hi)]
    rw [e] at hm
    have hke : k < s.even := by
      by_contra c
      rw [SepFacts.sg, if_neg c] at hm
      apply hne
      have h2 : (2 : ℂ) * hat B.length s.V x k = 0 := by linear_combination hm
      simpa using h2
    exact ⟨hat B.length s.V x, ⟨k, hke, hne⟩, (htr x hx).1⟩
  · rintro ⟨x, hx0, hx, hpar⟩
    obtain ⟨k, hk, hne⟩ := hnz x hx0
    have hm := F.hat_mirror x k hk
    have e : hat B.length s.V (Spec.mirror theta B x) k = -hat B.length s.V x k := by
      unfold hat; rw [← sum_neg_distrib]
      exact sum_congr rfl fun i hi => by rw [hpar i (mem_range.1 hi)]; ring
    rw [e] at hm
    have hke : ¬ k < s.even := by
      intro c
      rw [SepFacts.sg, if_pos c] at hm
      apply hne
      have h2 : (2 : ℂ) * hat B.length s.V x k = 0 := by linear_combination -hm
      simpa using h2
    refine ⟨fun l => hat B.length s.V x (s.even + l), ⟨k - s.even, by omega, ?_⟩, (htr x hx).2⟩
    change hat B.length s.V x (s.even + (k - s.even)) ≠ 0
    rw [show s.even + (k - s.even) = k by omega]
    exact hne
  · rintro ⟨x, hx0, hx, -⟩
    obtain ⟨k, hk, hne⟩ := hnz x hx0
    by_cases c : k < s.even
    · exact Or.inl ⟨hat B.length s.V x, ⟨k, c, hne⟩, (htr x hx).1⟩
    · refine Or.inr ⟨fun l => hat B.length s.V x (s.even + l), ⟨k - s.even, by omega, ?_⟩, (htr x hx).2⟩
      change hat B.length s.V x (s.even + (k - s.even)) ≠ 0
      rw [show s.even + (k - s.even) = k by omega]
      exact hne
  · rintro (h1 | h1)
    · obtain ⟨x, a, b, -⟩ := toE h1
      exact ⟨x, a, b, trivial⟩
    · obtain ⟨x, a, b, -⟩ := toO h1
      exact ⟨x, a, b, trivial⟩

/-- Orthogonality preserves the norm. -/
theorem SepFacts.parseval {theta thr : ℝ} {B : List (ℕ × ℕ × (ℝ × ℝ))} {M : ℕ → ℕ → ℂ} {s : Separated}
    (F : SepFacts theta thr B M s) (x : ℕ → ℂ) :
    ∑ i ∈ range B.length, ‖x i‖ ^ 2 = ∑ k ∈ range B.length, ‖hat B.length s.V x k‖ ^ 2 := by
  have key : ∀ z : ℂ, ((‖z‖ ^ 2 : ℝ) : ℂ) = z * (starRingEnd ℂ) z := by
    intro z; rw [Complex.mul_conj, Complex.normSq_eq_norm_sq]
  have h : ((∑ i ∈ range B.length, ‖x i‖ ^ 2 : ℝ) : ℂ) =
      ((∑ k ∈ range B.length, ‖hat B.length s.V x k‖ ^ 2 : ℝ) : ℂ) := by
    rw [Complex.ofReal_sum, Complex.ofReal_sum]
    simp only [key]
    have e1 : ∀ i ∈ range B.length, x i * (starRingEnd ℂ) (x i) =
        ∑ k ∈ range B.length, (s.V i k : ℂ) * hat B.length s.V x k * (starRingEnd ℂ) (x i) := by
      intro i hi
      conv_lhs => rw [← F.unhat_hat x i (mem_range.1 hi)]
      rw [F.unhat_hat x i (mem_range.1 hi)]
      nth_rewrite 1 [← F.unhat_hat x i (mem_range.1 hi)]
      unfold unhat
      rw [sum_mul]
    rw [sum_congr rfl e1, sum_comm]
    refine sum_congr rfl fun k _ => ?_
    have e2 : (starRingEnd ℂ) (hat B.length s.V x k) =
        ∑ i ∈ range B.length, (s.V i k : ℂ) * (starRingEnd ℂ) (x i) := by
      unfold hat; rw [map_sum]; exact sum_congr rfl fun i _ => by rw [map_mul, Complex.conj_ofReal]
    rw [e2, mul_sum]
    exact sum_congr rfl fun i _ => by ring
  exact_mod_cast h

/-- **C30.** For a matrix that is only nearly symmetric but accepted under `symm_thr`, a returned even
eigenvector satisfies the full eigenvalue equation up to a residual bounded by the threshold. -/
theorem C30_residual (sparse : Bool) (theta thr : ℝ) (gi : List ℕ) (used : List (List (ℝ × ℝ)))
    (M : ℕ → ℕ → ℂ) (s : Separated) (hs : ∀ gs ∈ used, Spec.Spread gs)
    (h : separate sparse theta thr gi used M = .ok s) (lam : ℂ) (y : ℕ → ℂ)
    (hy : ∀ k < s.even, ∑ l ∈ range s.even, s.matEven k l * y l = lam * y k) :
    ∑ i ∈ range (s.even + s.odd),
      ‖Spec.act (s.even + s.odd) M (s.backEven y) i - lam * s.backEven y i‖ ^ 2 ≤
      s.odd * (thr * ∑ l ∈ range s.even, ‖y l‖) ^ 2 := by
  have F := sep_facts sparse theta thr gi used M s hs h
  set B := Spec.gmBasis 0 gi used with hB
  have hsz : s.even + s.odd = B.length := F.size
  rw [hsz, F.parseval, backEven_eq s B.length hsz]
  set yy : ℕ → ℂ := fun k => if k < s.even then y k else 0 with hyy
  have hh : ∀ k < B.length, hat B.length s.V
      (fun i => Spec.act B.length M (unhat B.length s.V yy) i - lam * unhat B.length s.V yy i) k =
      (∑ l ∈ range s.even, s.sep k l * y l) - lam * yy k := by
    intro k hk
    have e : hat B.length s.V
      (fun i => Spec.act B.length M (unhat B.length s.V yy) i - lam * unhat B.length s.V yy i) k =
        hat B.length s.V (Spec.act B.length M (unhat B.length s.V yy)) k -
          lam * hat B.length s.V (unhat B.length s.V yy) k := by
      unfold hat
      rw [mul_sum, ← sum_sub_distrib]
      exact sum_congr rfl fun i _ => by ring
    rw [e, ← F.sep_act, F.hat_unhat _ k hk]
    congr 1
    rw [← hsz, hyy, sum_even_part]
  have hev : ∀ k ∈ range s.even, ‖hat B.length s.V
      (fun i => Spec.act B.length M (unhat B.length s.V yy) i - lam * unhat B.length s.V yy i) k‖ ^ 2 = 0 := by
    intro k hk
    have hk' := mem_range.1 hk
    have := hy k hk'
    unfold Separated.matEven at this
    rw [hh k (by omega), this, hyy]
    simp [hk']
  have hodd : ∀ k ∈ range s.odd, ‖hat B.length s.V
      (fun i => Spec.act B.length M (unhat B.length s.V yy) i - lam * unhat B.length s.V yy i) (s.even + k)‖ ^ 2 ≤
      (thr * ∑ l ∈ range s.even, ‖y l‖) ^ 2 := by
    intro k hk
    have hk' := mem_range.1 hk
    apply pow_le_pow_left₀ (norm_nonneg _)
    rw [hh _ (by omega)]
    have hz : yy (s.even + k) = 0 := by rw [hyy]; simp
    rw [hz, mul_zero, sub_zero, mul_sum]
    refine (norm_sum_le _ _).trans (sum_le_sum fun l hl => ?_)
    rw [norm_mul]
    exact mul_le_mul_of_nonneg_right (F.small l (mem_range.1 hl) (s.even + k) (by omega) (by omega)).2
      (norm_nonneg _)
  have hsplit : ∑ k ∈ range B.length, ‖hat B.length s.V
      (fun i => Spec.act B.length M (unhat B.length s.V yy) i - lam * unhat B.length s.V yy i) k‖ ^ 2 =
      ∑ k ∈ range (s.even + s.odd), ‖hat B.length s.V
      (fun i => Spec.act B.length M (unhat B.length s.V yy) i - lam * unhat B.length s.V yy i) k‖ ^ 2 := by
    rw [hsz]
  rw [hsplit, sum_range_add, sum_congr rfl hev, sum_const_zero, zero_add]
  refine (sum_le_sum hodd).trans ?_
  rw [sum_const, card_range, nsmul_eq_mul]


/-- **C30.** A guided mode that is requested but does not exist at this `k` (fewer lists of vectors than
requested modes) makes the separation fail: with `IndexError` when the vectors of the modes that do exist are
closed under the mirror. -/
theorem C30_missing_mode (sparse : Bool) (theta thr : ℝ) (gi : List ℕ) (used : List (List (ℝ × ℝ)))
    (M : ℕ → ℕ → ℂ) (hlen : used.length < gi.length) :
    (∃ e, separate sparse theta thr gi used M = .error e) ∧
    ((∀ gs ∈ used, ∃ rs, reflIdx theta gs = .ok rs) →
      separate sparse theta thr gi used M = .error .indexError) := by
  have key : ∀ (gi : List ℕ) (used : List (List (ℝ × ℝ))), used.length < gi.length →
      (∃ e, symModes theta gi used = .error e) ∧
      ((∀ gs ∈ used, ∃ rs, reflIdx theta gs = .ok rs) → symModes theta gi used = .error .indexError) := by
    intro gi
    induction gi with
    | nil => intro used h; simp at h
    | cons a as ih =>
      intro used h
      cases used with
      | nil => exact ⟨⟨_, rfl⟩, fun _ => rfl⟩
      | cons gs us =>
        obtain ⟨⟨e, he⟩, h2⟩ := ih us (by simpa using h)
        constructor
        · cases hr : reflIdx theta gs with
          | error e' => exact ⟨e', by simp only [symModes, hr]⟩
          | ok rs => exact ⟨e, by simp only [symModes, hr, he]⟩
        · intro hcl
          obtain ⟨rs, hr⟩ := hcl gs (by simp)
          simp only [symModes, hr, h2 (fun g hg => hcl g (by simp [hg]))]
  obtain ⟨⟨e, he⟩, h2⟩ := key gi used hlen
  unfold separate
  exact ⟨⟨e, by rw [he]⟩, fun hcl => by rw [h2 hcl]⟩

example (M : ℕ → ℕ → ℂ) : separate true 0 1e-8 [0] [] M = .error .indexError :=
  (C30_missing_mode true 0 1e-8 [0] [] M (by simp)).2 (by simp)

open Classical in
/-- **C30.** Sector sizes: the number of even minus the number of odd states is the number of TM states that
are their own mirror image minus the number of such TE states (every pair of mirror partners contributes
one state to each sector). -/
theorem C30_sizes (sparse : Bool) (theta thr : ℝ) (gi : List ℕ) (used : List (List (ℝ × ℝ)))
    (M : ℕ → ℕ → ℂ) (s : Separated) (hs : ∀ gs ∈ used, Spec.Spread gs)
    (h : separate sparse theta thr gi used M = .ok s) :
    let B := Spec.gmBasis 0 gi used
    (s.even : ℤ) - s.odd = ∑ i ∈ range B.length,
      if Spec.IsImage theta (B.getD i (0, 0, 0)) (B.getD i (0, 0, 0)) then
        (if (B.getD i (0, 0, 0)).2.1 % 2 = 0 then -1 else 1) else 0 := by
  have F := sep_facts sparse theta thr gi used M s hs h
  intro B
  change SepFacts theta thr B M s at F
  have hsz : s.even + s.odd = B.length := F.size
  -- trace of the mirror in the new basis
  have t1 : ∑ k ∈ range B.length, SepFacts.sg s k = (s.even : ℂ) - s.odd := by
    rw [← hsz, sum_range_add]
    have h1 : ∀ k ∈ range s.even, SepFacts.sg s k = 1 := by
      intro k hk; simp [SepFacts.sg, mem_range.1 hk]
    have h2 : ∀ k ∈ range s.odd, SepFacts.sg s (s.even + k) = -1 := by
      intro k _; simp [SepFacts.sg]
    rw [sum_congr rfl h1, sum_congr rfl h2]
    simp; ring
  have t2 : ∀ k ∈ range B.length, SepFacts.sg s k =
      ∑ i ∈ range B.length, (s.V i k : ℂ) * Spec.mirror theta B (fun i => (s.V i k : ℂ)) i := by
    intro k hk
    have hk' := mem_range.1 hk
    have : ∀ i ∈ range B.length, (s.V i k : ℂ) * Spec.mirror theta B (fun i => (s.V i k : ℂ)) i =
        SepFacts.sg s k * ((s.V i k * s.V i k : ℝ) : ℂ) := by
      intro i hi
      rw [F.par k hk' i (mem_range.1 hi)]
      unfold SepFacts.sg
      push_cast
      by_cases c : k < s.even <;> simp [c]
    rw [sum_congr rfl this, ← mul_sum, ← Complex.ofReal_sum, F.cols k hk' k hk']
    simp
  have t3 : ∑ k ∈ range B.length, SepFacts.sg s k = ∑ i ∈ range B.length,
      if Spec.IsImage theta (B.getD i (0, 0, 0)) (B.getD i (0, 0, 0)) then
        (if (B.getD i (0, 0, 0)).2.1 % 2 = 0 then (-1 : ℂ) else 1) else 0 := by
    rw [sum_congr rfl t2, sum_comm]
    refine sum_congr rfl fun i hi => ?_
    unfold Spec.mirror
    simp only [mul_sum]
    rw [sum_comm]
    have e : ∀ j ∈ range B.length, ∑ k ∈ range B.length, (s.V i k : ℂ) *
        (if Spec.IsImage theta (B.getD i (0, 0, 0)) (B.getD j (0, 0, 0)) then
          (if (B.getD i (0, 0, 0)).2.1 % 2 = 0 then -(s.V j k : ℂ) else (s.V j k : ℂ)) else 0) =
        if j = i then (if Spec.IsImage theta (B.getD i (0, 0, 0)) (B.getD i (0, 0, 0)) then
          (if (B.getD i (0, 0, 0)).2.1 % 2 = 0 then (-1 : ℂ) else 1) else 0) else 0 := by
      intro j hj
      have hr := F.rows i (mem_range.1 hi) j (mem_range.1 hj)
      have hr' : ∑ k ∈ range B.length, (s.V i k : ℂ) * (s.V j k : ℂ) = if i = j then 1 else 0 := by
        have := congrArg (fun x : ℝ => (x : ℂ)) hr
        push_cast at this
        rw [this]
        split_ifs <;> simp
      by_cases c : j = i
      · subst c
        rw [if_pos rfl] at hr'
        rw [if_pos (rfl : j = j)]
        split_ifs
        · simp only [mul_neg, sum_neg_distrib, hr']
        · rw [hr']
        · simp
      · have c' : ¬ i = j := fun hh => c hh.symm
        rw [if_neg c'] at hr'
        rw [if_neg c]
        split_ifs
        · simp only [mul_neg, sum_neg_distrib, hr', neg_zero]
        · rw [hr']
        · simp
    rw [sum_congr rfl e, sum_ite_eq' (range B.length) i, if_pos hi]
  rw [t1] at t3
  have : (((s.even : ℤ) - s.odd : ℤ) : ℂ) = ((∑ i ∈ range B.length,
      if Spec.IsImage theta (B.getD i (0, 0, 0)) (B.getD i (0, 0, 0)) then
        (if (B.getD i (0, 0, 0)).2.1 % 2 = 0 then -1 else 1) else 0 : ℤ) : ℂ) := by
    push_cast
    rw [t3]
  exact_mod_cast this

/-! ### A concrete separation -/

/-- Two TM states at opposite `y`, mirrored into each other by the plane through the `x` axis. -/
def exUsed : List (List (ℝ × ℝ)) := [[(0, 1), (0, -1)]]

/-- A matrix with that symmetry. -/
def exM : ℕ → ℕ → ℂ := fun i j => if i = j then 2 else 1

theorem exSpread : ∀ gs ∈ exUsed, Spec.Spread gs := by
  intro gs hgs
  simp only [exUsed, List.mem_singleton] at hgs
  subst hgs
  intro i j a b hi hj hne
  rcases i with _ | _ | i <;> rcases j with _ | _ | j <;> simp at hi hj hne <;> subst hi <;> subst hj <;>
    norm_num

theorem exMirror (c : ℕ → ℂ) : Spec.mirror 0 (Spec.gmBasis 0 [1] exUsed) c 0 = c 1 ∧
    Spec.mirror 0 (Spec.gmBasis 0 [1] exUsed) c 1 = c 0 := by
  constructor <;> simp [Spec.mirror, Spec.gmBasis, exUsed, sum_range_succ, Spec.IsImage, Spec.mirrorVec] <;>
    norm_num

theorem exLen : (Spec.gmBasis 0 [1] exUsed).length = 2 := by simp [Spec.gmBasis, exUsed]

theorem exCommutes : SepFacts.Commutes 0 (Spec.gmBasis 0 [1] exUsed) exM := by
  intro c i hi
  rw [exLen] at hi ⊢
  obtain ⟨m0, m1⟩ := exMirror c
  obtain ⟨n0, n1⟩ := exMirror (Spec.act 2 exM c)
  interval_cases i
  · rw [n0]; simp [Spec.act, exM, sum_range_succ, m0, m1]; ring
  · rw [n1]; simp [Spec.act, exM, sum_range_succ, m0, m1]; ring

theorem exSep (sparse : Bool) : ∃ s, separate sparse 0 1e-8 [1] exUsed exM = .ok s := by
  refine C30_accepts sparse 0 1e-8 [1] exUsed exM exSpread (by norm_num) (by simp [exUsed]) ?_ exCommutes ?_ ?_
  · intro gs hgs g hg
    simp only [exUsed, List.mem_singleton] at hgs
    subst hgs
    simp only [List.mem_cons, List.not_mem_nil, or_false] at hg ⊢
    rcases hg with rfl | rfl
    · right; simp [Spec.mirrorVec]; norm_num
    · left; simp [Spec.mirrorVec]; norm_num
  · refine ⟨fun _ => 1, ⟨0, by rw [exLen]; norm_num, by norm_num⟩, fun i hi => ?_⟩
    rw [exLen] at hi
    interval_cases i
    · rw [(exMirror _).1]
    · rw [(exMirror _).2]
  · refine ⟨fun i => if i = 0 then 1 else -1, ⟨0, by rw [exLen]; norm_num, by norm_num⟩, fun i hi => ?_⟩
    rw [exLen] at hi
    interval_cases i
    · rw [(exMirror _).1]; norm_num
    · rw [(exMirror _).2]; norm_num

/-- The hypotheses of the theorems above are met with a coupled pair of states: the full matrix has the
eigenvalues 3 and 1, and 3 is found in the even block. -/
example (sparse : Bool) : ∃ s, separate sparse 0 1e-8 [1] exUsed exM = .ok s ∧ s.even + s.odd = 2 ∧
    s.sep 0 s.even = 0 ∧ (s.even : ℤ) - s.odd = 0 ∧
    ∃ y : ℕ → ℂ, (∃ k < s.even, y k ≠ 0) ∧
      ∀ k < s.even, ∑ l ∈ range s.even, s.matEven k l * y l = 3 * y k := by
  obtain ⟨s, hsep⟩ := exSep sparse
  have hb := C30_basis sparse 0 1e-8 [1] exUsed exM s exSpread hsep
  have hd := C30_decouple sparse 0 1e-8 [1] exUsed exM s exSpread hsep exCommutes 0 0 hb.2.1 hb.2.2.1
  have hz := C30_sizes sparse 0 1e-8 [1] exUsed exM s exSpread hsep
  have hsp := (C30_spectrum sparse 0 1e-8 [1] exUsed exM s exSpread hsep exCommutes 3).1.2
  refine ⟨s, hsep, by rw [hb.1, exLen], by simpa using hd.1, ?_, hsp ?_⟩
  · rw [hz]
    simp [Spec.gmBasis, exUsed, sum_range_succ, Spec.IsImage, Spec.mirrorVec]
    norm_num
  · refine ⟨fun _ => 1, ⟨0, by rw [exLen]; norm_num, by norm_num⟩, ?_, ?_⟩
    · intro i hi
      rw [exLen] at hi ⊢
      interval_cases i <;> simp [Spec.act, exM, sum_range_succ] <;> norm_num
    · intro i hi
      rw [exLen] at hi
      interval_cases i
      · rw [(exMirror _).1]
      · rw [(exMirror _).2]

end Legume
