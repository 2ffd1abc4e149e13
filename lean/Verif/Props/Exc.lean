import Mathlib.LinearAlgebra.Matrix.Charpoly.Basic
import Verif.Model.Exc
import Verif.Spec.Exc
import Verif.Props.Shapes
import Verif.Props.Reciprocal
import Verif.Props.Structure
import Verif.Props.GmeRun
import Verif.Props.Pwe

/-!
# C38 (exciton energies) and C75 (construction of the exciton problem)
-/
namespace Legume
open Matrix Spec

/-! ### The potential as a function of the wave vector -/

open Classical in
/-- One round of the accumulation, when `g0` is the first zero vector of the list. -/
noncomputable def excRound (A V : ℝ) (g0 : R2) (F s : R2 → ℂ) : R2 → ℂ := fun g =>
  let F1 := fun g => (F g + V * s g) / (A : ℂ)
  if ((F1 g0).re < 0 ∨ ((F1 g0).re = 0 ∧ (F1 g0).im < 0)) ∧ isG0 g then F1 g + |V| else F1 g

/-- The potential computed for a list of shapes. -/
noncomputable def excPot (A V : ℝ) (g0 : R2) (shapes : List (R2 → ℂ)) : R2 → ℂ :=
  shapes.foldl (excRound A V g0) fun _ => 0

open Classical in
theorem excStep_eq (gs : List R2) (A V : ℝ) (g0 : R2)
    (h0 : (gs.filter fun g => decide (isG0 g)).head? = some g0) (F s : R2 → ℂ) :
    excStep gs A V (gs.map F) s = .ok (gs.map (excRound A V g0 F s)) := by
  have h1 : ((gs.zip (gs.map F)).map fun x => (x.2 + V * s x.1) / (A : ℂ)) =
      gs.map fun g => (F g + V * s g) / (A : ℂ) := by
    rw [zip_map_self, List.map_map]; rfl
  simp only [excStep, h1]
  rw [zip_map_self, List.filter_map, List.head?_map]
  have h2 : (gs.filter ((fun x : R2 × ℂ => decide (isG0 x.1)) ∘
      fun g => (g, (F g + V * s g) / (A : ℂ)))) = gs.filter fun g => decide (isG0 g) := rfl
  rw [h2, h0]
  simp only [Option.map_some]
  split
  · case isTrue hc =>
    rw [List.map_map]
    congr 1
    apply List.map_congr_left
    intro g _
    simp only [Function.comp, excRound, hc, true_and]
  · case isFalse hc =>
    congr 1
    apply List.map_congr_left
    intro g _
    simp only [excRound, hc, false_and, if_false]

open Classical in
theorem excFt_eq (gs : List R2) (A V : ℝ) (g0 : R2)
    (h0 : (gs.filter fun g => decide (isG0 g)).head? = some g0) (shapes : List (R2 → ℂ)) :
    excFt gs A V shapes = .ok (gs.map (excPot A V g0 shapes)) := by
  suffices H : ∀ (shapes : List (R2 → ℂ)) (F : R2 → ℂ),
      shapes.foldlM (excStep gs A V) (gs.map F) = .ok (gs.map (shapes.foldl (excRound A V g0) F)) from
    H shapes _
  intro shapes
  induction shapes with
  | nil => intro F; rfl
  | cons s l ih =>
    intro F
    rw [List.foldlM_cons, excStep_eq gs A V g0 h0]
    exact ih _

theorem isG0_neg (g : R2) : isG0 (-g.1, -g.2) ↔ isG0 g := by simp [isG0]

theorem excPot_conj (A V : ℝ) (g0 : R2) (shapes : List (R2 → ℂ))
    (hs : ∀ s ∈ shapes, ∀ g : R2, s (-g.1, -g.2) = (starRingEnd ℂ) (s g)) (g : R2) :
    excPot A V g0 shapes (-g.1, -g.2) = (starRingEnd ℂ) (excPot A V g0 shapes g) := by
  suffices H : ∀ (shapes : List (R2 → ℂ)) (F : R2 → ℂ),
      (∀ s ∈ shapes, ∀ g : R2, s (-g.1, -g.2) = (starRingEnd ℂ) (s g)) →
      (∀ g : R2, F (-g.1, -g.2) = (starRingEnd ℂ) (F g)) → ∀ g : R2,
      shapes.foldl (excRound A V g0) F (-g.1, -g.2) =
        (starRingEnd ℂ) (shapes.foldl (excRound A V g0) F g) from
    H shapes _ hs (by simp) g
  intro shapes
  induction shapes with
  | nil => intro F _ hF g; exact hF g
  | cons s l ih =>
    intro F hs hF g
    refine ih _ (fun s' h => hs s' (List.mem_cons_of_mem _ h)) (fun g => ?_) g
    have e : (F (-g.1, -g.2) + V * s (-g.1, -g.2)) / (A : ℂ) =
        (starRingEnd ℂ) ((F g + V * s g) / (A : ℂ)) := by
      rw [hF, hs s List.mem_cons_self, map_div₀, map_add, map_mul, Complex.conj_ofReal, Complex.conj_ofReal]
    unfold excRound
    simp only [e]
    by_cases hc : (((F g0 + V * s g0) / (A : ℂ)).re < 0 ∨
        (((F g0 + V * s g0) / (A : ℂ)).re = 0 ∧ ((F g0 + V * s g0) / (A : ℂ)).im < 0)) ∧ isG0 g
    · rw [if_pos hc, if_pos ⟨hc.1, (isG0_neg g).2 hc.2⟩, map_add, Complex.conj_ofReal]
    · rw [if_neg hc, if_neg fun h => hc ⟨h.1, (isG0_neg g).1 h.2⟩]

/-! ### C38: the matrix of the potential -/

/-- Entries of the potential matrix for `truncate_g='abs'`. -/
theorem potAbs_entry (b1 b2 : R2) (inds : List (ℤ × ℤ)) (hne : inds ≠ []) (A V : ℝ) (shapes : List (R2 → ℂ)) :
    ∃ P g0, isG0 g0 ∧ (∃ n, g0 = gOf b1 b2 n) ∧ potAbs b1 b2 inds A V shapes = .ok P ∧ ∀ (i j : ℕ) (a b : ℤ × ℤ),
        inds[i]? = some a → inds[j]? = some b → P i j = excPot A V g0 shapes ((gOf b1 b2 b).1 - (gOf b1 b2 a).1,
          (gOf b1 b2 b).2 - (gOf b1 b2 a).2) := by
  classical
  have hmem0 : (0, 0) ∈ absUnique inds := by
    obtain ⟨a, ha⟩ := List.exists_mem_of_ne_nil _ hne
    exact (mem_absUnique _ _).2 ⟨a, ha, a, ha, by simp⟩
  obtain ⟨g0, hg0⟩ : ∃ g0, (((absUnique inds).map (gOf b1 b2)).filter fun g => decide (isG0 g)).head? = some g0 := by
    have : gOf b1 b2 (0, 0) ∈ ((absUnique inds).map (gOf b1 b2)).filter fun g => decide (isG0 g) := by
      rw [List.mem_filter]
      exact ⟨List.mem_map_of_mem hmem0, by simp [isG0, gOf]; norm_num⟩
    cases hc : (((absUnique inds).map (gOf b1 b2)).filter fun g => decide (isG0 g)) with
    | nil => rw [hc] at this; simp at this
    | cons x l => exact ⟨x, rfl⟩
  have hz : isG0 g0 := by
    have := (List.mem_filter.1 (List.mem_of_mem_head? hg0)).2
    simpa using this
  have hlat : ∃ n, g0 = gOf b1 b2 n := by
    obtain ⟨n, -, hn⟩ := List.mem_map.1 (List.mem_filter.1 (List.mem_of_mem_head? hg0)).1
    exact ⟨n, hn.symm⟩
  have hP := excFt_eq _ A V g0 hg0 shapes
  set F := excPot A V g0 shapes with hFdef
  refine ⟨fun i j => (((absUnique inds).map (gOf b1 b2)).map F).getD
      ((absUnique inds).idxOf ((inds.getD j 0).1 - (inds.getD i 0).1, (inds.getD j 0).2 - (inds.getD i 0).2)) 0,
    g0, hz, hlat, by unfold potAbs; simp only [hP], ?_⟩
  intro i j a b ha hb
  have hm : (b.1 - a.1, b.2 - a.2) ∈ absUnique inds :=
    (mem_absUnique _ _).mpr ⟨a, List.mem_of_getElem? ha, b, List.mem_of_getElem? hb, rfl⟩
  have hlt := List.idxOf_lt_length_of_mem hm
  have e1 : inds.getD i 0 = a := by rw [List.getD_eq_getElem?_getD, ha, Option.getD_some]
  have e2 : inds.getD j 0 = b := by rw [List.getD_eq_getElem?_getD, hb, Option.getD_some]
  simp only [e1, e2]
  rw [List.getD_eq_getElem?_getD, List.getElem?_map, List.getElem?_map,
    List.getElem?_eq_getElem hlt, Option.map_some, Option.map_some, Option.getD_some, List.getElem_idxOf, gOf_sub]

/-- **C38.** For `truncate_g='abs'`, every non-empty set of plane waves, every list of shapes with
conjugate-symmetric transforms and every potential, the potential matrix is computed without error, its entry
at `(i, j)` is one function of `G_j - G_i`, and it is Hermitian. -/
theorem C38_potential_abs (b1 b2 : R2) (inds : List (ℤ × ℤ)) (hne : inds ≠ []) (A V : ℝ)
    (shapes : List (R2 → ℂ)) (hs : ∀ s ∈ shapes, ∀ g : R2, s (-g.1, -g.2) = (starRingEnd ℂ) (s g)) :
    ∃ P, potAbs b1 b2 inds A V shapes = .ok P ∧
      (∃ F : R2 → ℂ, (∀ g : R2, F (-g.1, -g.2) = (starRingEnd ℂ) (F g)) ∧ ∀ (i j : ℕ) (a b : ℤ × ℤ),
        inds[i]? = some a → inds[j]? = some b → P i j = F ((gOf b1 b2 b).1 - (gOf b1 b2 a).1,
          (gOf b1 b2 b).2 - (gOf b1 b2 a).2)) ∧
      (Matrix.of fun i j : Fin inds.length => P i j).IsHermitian := by
  obtain ⟨P, g0, -, -, hP, hent⟩ := potAbs_entry b1 b2 inds hne A V shapes
  have hF := excPot_conj A V g0 shapes hs
  refine ⟨P, hP, ⟨_, hF, hent⟩, ?_⟩
  ext i j
  simp only [Matrix.conjTranspose_apply, Matrix.of_apply, RCLike.star_def]
  rw [hent i j inds[i] inds[j] (by simp) (by simp), hent j i inds[j] inds[i] (by simp) (by simp), ← hF]
  simp

/-- Assembly from `FT(g_0 - g_k)` and `FT(g_j - g_m)` without rounding to real numbers. -/
theorem toeplitz_raw_entry (F : R2 → ℂ) (b1 b2 : R2) (n1 n2 : ℕ)
    (hF : ∀ g : R2, F (-g.1, -g.2) = (starRingEnd ℂ) (F g)) (T1 T2 : ℕ → ℂ)
    (h1 : ∀ k < (2 * n1 + 1) * (2 * n2 + 1), T1 k = T1raw F ((tbtInds n1 n2).map (gOf b1 b2)) k)
    (h2 : ∀ k < (2 * n1 + 1) * (2 * n2 + 1), T2 k = T2raw F ((tbtInds n1 n2).map (gOf b1 b2)) (2 * n2 + 1) k)
    (I J : ℕ) (hI : I < (2 * n1 + 1) * (2 * n2 + 1)) (hJ : J < (2 * n1 + 1) * (2 * n2 + 1)) :
    toeplitzBlock (2 * n1 + 1) ((tbtInds n1 n2).map (gOf b1 b2)).length false T1 T2 I J =
      F ((((tbtInds n1 n2).map (gOf b1 b2)).getD I 0).1 - (((tbtInds n1 n2).map (gOf b1 b2)).getD J 0).1,
        (((tbtInds n1 n2).map (gOf b1 b2)).getD I 0).2 - (((tbtInds n1 n2).map (gOf b1 b2)).getD J 0).2) := by
  set gs := (tbtInds n1 n2).map (gOf b1 b2) with hgs
  set p := 2 * n2 + 1 with hp
  have hp0 : 0 < p := by omega
  have hget : ∀ K, K < (2 * n1 + 1) * p → gs.getD K 0 =
      gOf b1 b2 (((K / p : Nat) : ℤ) - n1, ((K % p : Nat) : ℤ) - n2) := by
    intro K hK
    rw [hgs, List.getD_eq_getElem?_getD, List.getElem?_map, tbtInds_getElem? _ _ _ hK]
    rfl
  have hlen : gs.length = (2 * n1 + 1) * p := by rw [hgs, List.length_map, tbtInds_length]
  have upper : ∀ I J, I ≤ J → I < (2 * n1 + 1) * p → J < (2 * n1 + 1) * p →
      toeplitzTmat (2 * n1 + 1) gs.length false T1 T2 I J =
        F ((gs.getD I 0).1 - (gs.getD J 0).1, (gs.getD I 0).2 - (gs.getD J 0).2) := by
    intro I J hIJ hI hJ
    have hq : gs.length / (2 * n1 + 1) = p := by rw [hlen, Nat.mul_div_cancel_left _ (by omega)]
    have hI1 := div_lt_of_lt_mul' hI
    have hJ1 := div_lt_of_lt_mul' hJ
    have hdiv : I / p ≤ J / p := Nat.div_le_div_right hIJ
    have hI2 : I % p < p := Nat.mod_lt _ hp0
    have hJ2 : J % p < p := Nat.mod_lt _ hp0
    unfold toeplitzTmat
    simp only [hq]
    rw [if_pos ⟨hI1, hJ1, hdiv⟩]
    obtain ⟨m, hm⟩ := Nat.exists_eq_add_of_le hdiv
    have hmlt : m < 2 * n1 + 1 := lt_of_le_of_lt (by rw [hm]; exact Nat.le_add_left _ _) hJ1
    have hm' : J / p - I / p = m := by rw [hm]; exact Nat.add_sub_cancel_left _ _
    rw [hm']
    have big : ∀ k, k < p → m * p + k < (2 * n1 + 1) * p := by
      intro k hk
      have : (m + 1) * p ≤ (2 * n1 + 1) * p := Nat.mul_le_mul_right _ hmlt
      nlinarith
    have dv : ∀ k, k < p → (m * p + k) / p = m := by
      intro k hk
      rw [Nat.add_comm, Nat.add_mul_div_right _ _ hp0, Nat.div_eq_of_lt hk, Nat.zero_add]
    have md : ∀ k, k < p → (m * p + k) % p = k := by
      intro k hk
      rw [Nat.add_comm, Nat.add_mul_mod_self_right, Nat.mod_eq_of_lt hk]
    have h0 : (0 : ℕ) < (2 * n1 + 1) * p := by positivity
    unfold scipyToeplitz castTo
    simp only [Bool.false_eq_true, if_false]
    by_cases hle : J % p ≤ I % p
    · rw [if_pos hle]
      have hk : I % p - J % p < p := by omega
      rw [h2 _ (big _ hk)]
      unfold T2raw
      rw [dv _ hk, md _ hk]
      have hmp : m * p < (2 * n1 + 1) * p := by simpa using big 0 hp0
      have hkN : I % p - J % p < (2 * n1 + 1) * p := by nlinarith
      rw [hget _ hkN, hget _ hmp, hget _ hI, hget _ hJ, ← gOf_sub, ← gOf_sub]
      refine congrArg F (congrArg (gOf b1 b2) (Prod.ext ?_ ?_))
      · simp only [Nat.div_eq_of_lt hk, Nat.mul_div_cancel _ hp0, hm]; push_cast; ring
      · simp only [Nat.mod_eq_of_lt hk, Nat.mul_mod_left]; push_cast [hle]; ring
    · rw [if_neg hle]
      have hk : J % p - I % p < p := by omega
      rw [h1 _ (big _ hk)]
      unfold T1raw
      rw [hget _ h0, hget _ (big _ hk), hget _ hI, hget _ hJ, ← gOf_sub, ← gOf_sub]
      refine congrArg F (congrArg (gOf b1 b2) (Prod.ext ?_ ?_))
      · simp only [dv _ hk, Nat.zero_div, hm]; push_cast; ring
      · simp only [md _ hk, Nat.zero_mod]; push_cast [(Nat.le_of_lt (Nat.lt_of_not_le hle))]; ring
  unfold toeplitzBlock
  by_cases hIJ : I ≤ J
  · rw [if_pos hIJ, if_neg (by omega), upper I J hIJ hI hJ]; simp
  · rw [if_neg hIJ, if_pos (by omega), upper J I (by omega) hJ hI, zero_add, ← hF]
    simp

/-- Entries of the potential matrix for `truncate_g='tbt'`. -/
theorem potTbt_entry (b1 b2 : R2) (n1 n2 : ℕ) (A V : ℝ)
    (shapes : List (R2 → ℂ)) (hs : ∀ s ∈ shapes, ∀ g : R2, s (-g.1, -g.2) = (starRingEnd ℂ) (s g)) :
    ∃ P, potTbt b1 b2 n1 n2 A V shapes = .ok P ∧ ∀ (i j : ℕ) (a b : R2),
        (tbtG b1 b2 n1 n2)[i]? = some a → (tbtG b1 b2 n1 n2)[j]? = some b →
        P i j = excPot A V (0, 0) shapes (a.1 - b.1, a.2 - b.2) := by
  classical
  have hlen : (tbtG b1 b2 n1 n2).length = (2 * n1 + 1) * (2 * n2 + 1) := by simp [tbtInds_length]
  have hz : isG0 ((0, 0) : R2) := by simp [isG0]; norm_num
  have hpos : 0 < (tbtG b1 b2 n1 n2).length := by rw [hlen]; positivity
  have e1 : ((excG1 (tbtG b1 b2 n1 n2)).filter fun g => decide (isG0 g)).head? = some (0, 0) := by
    unfold excG1
    cases hg : tbtG b1 b2 n1 n2 with
    | nil => rw [hg] at hpos; simp at hpos
    | cons x l =>
      rw [List.map_cons, List.filter_cons, if_pos]
      · simp
      · simpa using hz
  have e2 : ((excG2 (tbtG b1 b2 n1 n2) (2 * n2 + 1)).filter fun g => decide (isG0 g)).head? = some (0, 0) := by
    unfold excG2
    obtain ⟨N, hN⟩ := Nat.exists_eq_succ_of_ne_zero hpos.ne'
    rw [hN, List.range_succ_eq_map, List.map_cons, List.filter_cons, if_pos]
    · simp
    · simpa using hz
  have hP1 := excFt_eq _ A V _ e1 shapes
  have hP2 := excFt_eq _ A V _ e2 shapes
  have hF := excPot_conj A V (0, 0) shapes hs
  set F := excPot A V (0, 0) shapes with hFdef
  refine ⟨toeplitzBlock (2 * n1 + 1) (tbtG b1 b2 n1 n2).length false
      (fun k => ((excG1 (tbtG b1 b2 n1 n2)).map F).getD k 0)
      (fun k => ((excG2 (tbtG b1 b2 n1 n2) (2 * n2 + 1)).map F).getD k 0),
    by unfold potTbt; simp only [hP1, hP2], ?_⟩
  have hent := toeplitz_raw_entry F b1 b2 n1 n2 hF
    (fun k => ((excG1 (tbtG b1 b2 n1 n2)).map F).getD k 0)
    (fun k => ((excG2 (tbtG b1 b2 n1 n2) (2 * n2 + 1)).map F).getD k 0)
    (by
      intro k hk
      have hk' : k < (tbtG b1 b2 n1 n2).length := by rw [hlen]; exact hk
      have hgk : (tbtG b1 b2 n1 n2).getD k 0 = (tbtG b1 b2 n1 n2)[k] := by
        rw [List.getD_eq_getElem?_getD, List.getElem?_eq_getElem hk', Option.getD_some]
      simp only [excG1, T1raw]
      rw [hgk, List.getD_eq_getElem?_getD, List.getElem?_map, List.getElem?_map,
        List.getElem?_eq_getElem hk', Option.map_some, Option.map_some, Option.getD_some])
    (by
      intro k hk
      have hk' : k < (tbtG b1 b2 n1 n2).length := by rw [hlen]; exact hk
      simp only [excG2, T2raw, List.map_map, List.getD_eq_getElem?_getD, List.getElem?_map,
        List.getElem?_range hk', Option.map_some, Option.getD_some, Function.comp])
  intro i j a b ha hb
  have hi : i < (2 * n1 + 1) * (2 * n2 + 1) := by rw [← hlen]; exact (List.getElem?_eq_some_iff.mp ha).1
  have hj : j < (2 * n1 + 1) * (2 * n2 + 1) := by rw [← hlen]; exact (List.getElem?_eq_some_iff.mp hb).1
  have ea : (tbtG b1 b2 n1 n2).getD i 0 = a := by rw [List.getD_eq_getElem?_getD, ha, Option.getD_some]
  have eb : (tbtG b1 b2 n1 n2).getD j 0 = b := by rw [List.getD_eq_getElem?_getD, hb, Option.getD_some]
  rw [← ea, ← eb]
  exact hent i j hi hj

/-- **C38.** The same for `truncate_g='tbt'`, where the entry at `(i, j)` is the function of `G_i - G_j`. -/
theorem C38_potential_tbt (b1 b2 : R2) (n1 n2 : ℕ) (A V : ℝ)
    (shapes : List (R2 → ℂ)) (hs : ∀ s ∈ shapes, ∀ g : R2, s (-g.1, -g.2) = (starRingEnd ℂ) (s g)) :
    ∃ P, potTbt b1 b2 n1 n2 A V shapes = .ok P ∧
      (∃ F : R2 → ℂ, (∀ g : R2, F (-g.1, -g.2) = (starRingEnd ℂ) (F g)) ∧ ∀ (i j : ℕ) (a b : R2),
        (tbtG b1 b2 n1 n2)[i]? = some a → (tbtG b1 b2 n1 n2)[j]? = some b → P i j = F (a.1 - b.1, a.2 - b.2)) ∧
      (Matrix.of fun i j : Fin (tbtG b1 b2 n1 n2).length => P i j).IsHermitian := by
  obtain ⟨P, hP, hent⟩ := potTbt_entry b1 b2 n1 n2 A V shapes hs
  have hF := excPot_conj A V (0, 0) shapes hs
  refine ⟨P, hP, ⟨_, hF, hent⟩, ?_⟩
  ext i j
  simp only [Matrix.conjTranspose_apply, Matrix.of_apply, RCLike.star_def]
  rw [hent i j _ _ (List.getElem?_eq_getElem i.2) (List.getElem?_eq_getElem j.2),
    hent j i _ _ (List.getElem?_eq_getElem j.2) (List.getElem?_eq_getElem i.2), ← hF]
  simp

open Classical in
/-- The one-shape potential. -/
theorem excPot_one (A V : ℝ) (hA : 0 < A) (g0 : R2) (s : R2 → ℂ) (g : R2) (him : (s g0).im = 0) :
    (0 ≤ V * (s g0).re → excPot A V g0 [s] g = V * s g / A) ∧
    (V * (s g0).re < 0 → excPot A V g0 [s] g = V * s g / A + if isG0 g then ((|V| : ℝ) : ℂ) else 0) := by
  have hre : ((0 + (V : ℂ) * s g0) / (A : ℂ)).re = V * (s g0).re / A := by
    rw [zero_add, Complex.div_ofReal_re, Complex.re_ofReal_mul]
  have hi : ((0 + (V : ℂ) * s g0) / (A : ℂ)).im = 0 := by
    rw [zero_add, Complex.div_ofReal_im, Complex.im_ofReal_mul, him]; simp
  unfold excPot excRound
  simp only [List.foldl_cons, List.foldl_nil]
  constructor
  · intro h
    have h2 : 0 ≤ V * (s g0).re / A := div_nonneg h hA.le
    rw [if_neg, zero_add]
    rintro ⟨hc | hc, -⟩
    · rw [hre] at hc; linarith
    · rw [hi] at hc; exact lt_irrefl _ hc.2
  · intro h
    have h2 : ((0 + (V : ℂ) * s g0) / (A : ℂ)).re < 0 ∨ ((0 + (V : ℂ) * s g0) / (A : ℂ)).re = 0 ∧
        ((0 + (V : ℂ) * s g0) / (A : ℂ)).im < 0 := by
      left; rw [hre]; exact div_neg_of_neg_of_pos h hA
    by_cases hg : isG0 g
    · rw [if_pos ⟨h2, hg⟩, if_pos hg, zero_add]
    · rw [if_neg fun hc => hg hc.2, if_neg hg, zero_add, add_zero]

open Classical in
/-- **C38.** One shape, with a transform real at vanishing wave vectors: a potential of the sign of the area
gives `V FT(G_j - G_i) / A` at `(i, j)`; one of the opposite sign gives the same plus `|V|` on the diagonal (so
that the lowest point of the potential is the zero of energy).  Both truncations. -/
theorem C38_potential_value (b1 b2 : R2) (A V : ℝ) (hA : 0 < A) (s : R2 → ℂ)
    (hs : ∀ g : R2, s (-g.1, -g.2) = (starRingEnd ℂ) (s g)) (ha0 : ∀ g, isG0 g → 0 ≤ (s g).re ∧ (s g).im = 0) :
    (∀ inds : List (ℤ × ℤ), inds ≠ [] → ∃ P, potAbs b1 b2 inds A V [s] = .ok P ∧
      ∀ (i j : ℕ) (a b : ℤ × ℤ), inds[i]? = some a → inds[j]? = some b →
        (0 ≤ V → P i j = V * s (gOf b1 b2 (b.1 - a.1, b.2 - a.2)) / A) ∧
        (V < 0 → (∀ g, isG0 g → 0 < (s g).re) → P i j = V * s (gOf b1 b2 (b.1 - a.1, b.2 - a.2)) / A +
          if isG0 (gOf b1 b2 (b.1 - a.1, b.2 - a.2)) then ((|V| : ℝ) : ℂ) else 0)) ∧
    (∀ n1 n2 : ℕ, ∃ P, potTbt b1 b2 n1 n2 A V [s] = .ok P ∧
      ∀ (i j : ℕ) (a b : ℤ × ℤ), (tbtInds n1 n2)[i]? = some a → (tbtInds n1 n2)[j]? = some b →
        (0 ≤ V → P i j = V * s (gOf b1 b2 (a.1 - b.1, a.2 - b.2)) / A) ∧
        (V < 0 → (∀ g, isG0 g → 0 < (s g).re) → P i j = V * s (gOf b1 b2 (a.1 - b.1, a.2 - b.2)) / A +
          if isG0 (gOf b1 b2 (a.1 - b.1, a.2 - b.2)) then ((|V| : ℝ) : ℂ) else 0)) := by
  constructor
  · intro inds hne
    obtain ⟨P, g0, hz, -, hP, hent⟩ := potAbs_entry b1 b2 inds hne A V [s]
    refine ⟨P, hP, fun i j a b ha hb => ?_⟩
    rw [hent i j a b ha hb, gOf_sub]
    obtain ⟨h1, h2⟩ := excPot_one A V hA g0 s
      ((gOf b1 b2 b).1 - (gOf b1 b2 a).1, (gOf b1 b2 b).2 - (gOf b1 b2 a).2) (ha0 g0 hz).2
    exact ⟨fun hV => h1 (mul_nonneg hV (ha0 g0 hz).1), fun hV hp => h2 (mul_neg_of_neg_of_pos hV (hp g0 hz))⟩
  · intro n1 n2
    have hz : isG0 ((0, 0) : R2) := by simp [isG0]; norm_num
    obtain ⟨P, hP, hent⟩ := potTbt_entry b1 b2 n1 n2 A V [s] (by simpa using hs)
    refine ⟨P, hP, fun i j a b ha hb => ?_⟩
    rw [hent i j (gOf b1 b2 a) (gOf b1 b2 b) (by simp only [List.getElem?_map, ha, Option.map_some])
      (by simp only [List.getElem?_map, hb, Option.map_some]), gOf_sub]
    obtain ⟨h1, h2⟩ := excPot_one A V hA (0, 0) s
      ((gOf b1 b2 a).1 - (gOf b1 b2 b).1, (gOf b1 b2 a).2 - (gOf b1 b2 b).2) (ha0 _ hz).2
    exact ⟨fun hV => h1 (mul_nonneg hV (ha0 _ hz).1), fun hV hp => h2 (mul_neg_of_neg_of_pos hV (hp _ hz))⟩

/-- **C38.** The two truncations put the potential on opposite sides of the diagonal: for one shape and
`V ≥ 0`, the matrix of `truncate_g='tbt'` is the transpose of the one of `truncate_g='abs'` with the same plane
waves. -/
theorem C38_truncations_transposed (b1 b2 : R2) (A V : ℝ) (hA : 0 < A) (hV : 0 ≤ V) (s : R2 → ℂ)
    (hs : ∀ g : R2, s (-g.1, -g.2) = (starRingEnd ℂ) (s g)) (ha0 : ∀ g, isG0 g → 0 ≤ (s g).re ∧ (s g).im = 0)
    (n1 n2 : ℕ) : ∃ P Q, potAbs b1 b2 (tbtInds n1 n2) A V [s] = .ok P ∧ potTbt b1 b2 n1 n2 A V [s] = .ok Q ∧
      ∀ i j, i < (tbtInds n1 n2).length → j < (tbtInds n1 n2).length → Q i j = P j i := by
  obtain ⟨h1, h2⟩ := C38_potential_value b1 b2 A V hA s hs ha0
  have hne : tbtInds n1 n2 ≠ [] := by
    have : 0 < (tbtInds n1 n2).length := by rw [tbtInds_length]; positivity
    exact List.length_pos_iff.1 this
  obtain ⟨P, hP, hPe⟩ := h1 _ hne
  obtain ⟨Q, hQ, hQe⟩ := h2 n1 n2
  refine ⟨P, Q, hP, hQ, fun i j hi hj => ?_⟩
  rw [(hQe i j _ _ (List.getElem?_eq_getElem hi) (List.getElem?_eq_getElem hj)).1 hV,
    (hPe j i _ _ (List.getElem?_eq_getElem hj) (List.getElem?_eq_getElem hi)).1 hV]

/-! ### C38: the Hamiltonian and its levels -/

/-- **C38.** The Hamiltonian is Hermitian exactly when the potential matrix is. -/
theorem C38_hermitian {n : ℕ} (hbar e a M : ℝ) (k : ℝ × ℝ) (gvec : Fin n → ℝ × ℝ)
    (pot : Matrix (Fin n) (Fin n) ℂ) :
    (excMat hbar e a M k gvec pot).IsHermitian ↔ pot.IsHermitian := by
  have hd : (Matrix.diagonal fun i => ((excKin hbar e a M k (gvec i) : ℝ) : ℂ)).IsHermitian := by
    rw [Matrix.IsHermitian, diagonal_conjTranspose]
    congr 1
    funext i
    simp
  constructor
  · intro h
    have : pot = excMat hbar e a M k gvec pot -
        (Matrix.diagonal fun i => ((excKin hbar e a M k (gvec i) : ℝ) : ℂ)) := by
      unfold excMat; rw [add_sub_cancel_left]
    rw [this]
    exact h.sub hd
  · intro h
    exact hd.add h

/-- **C38.** The kinetic energy of a plane wave is `hbar² |k+G|² / (2 M a² e)`, and it is not negative. -/
theorem C38_kinetic (hbar e a M : ℝ) (he : 0 < e) (hM : 0 < M) (k g : ℝ × ℝ) :
    excKin hbar e a M k g = hbar ^ 2 * ((k.1 + g.1) ^ 2 + (k.2 + g.2) ^ 2) / (2 * M * a ^ 2 * e) ∧
    0 ≤ excKin hbar e a M k g := by
  unfold excKin
  rw [Real.sq_sqrt (by positivity)]
  constructor
  · rw [div_pow, div_pow, ← add_div, div_mul_eq_mul_div, div_div]
    ring
  · positivity

/-- **C38.** The Hamiltonian built on the transposed potential has the same characteristic polynomial, so the
energies do not depend on the side of the diagonal, hence not on the truncation. -/
theorem C38_transposed_energies {n : ℕ} (hbar e a M : ℝ) (k : ℝ × ℝ) (gvec : Fin n → ℝ × ℝ)
    (pot : Matrix (Fin n) (Fin n) ℂ) :
    (excMat hbar e a M k gvec pot.transpose).charpoly = (excMat hbar e a M k gvec pot).charpoly := by
  have : excMat hbar e a M k gvec pot.transpose = (excMat hbar e a M k gvec pot).transpose := by
    unfold excMat
    rw [transpose_add, diagonal_transpose]
  rw [this, charpoly_transpose]

/-- Levels from any duplicate-free list of positions, sorted by energy. -/
theorem levels_of_select {n : ℕ} (M V : Matrix (Fin n) (Fin n) ℂ) (w : Fin n → ℝ) (hM : M.IsHermitian)
    (h : IsEigh (M + 1) w V) (num : ℕ) (sel : List ℕ) (hlen : sel.length = num) (hnd : sel.Nodup)
    (hlt : ∀ i ∈ sel, i < n)
    (hsort : (sel.map fun (i : ℕ) => ((List.ofFn w).map (· - 1)).getD i 0).Pairwise (· ≤ ·))
    (hlow : ∀ i ∈ sel, ∀ j, j < n → j ∉ sel → ((List.ofFn w).map (· - 1)).getD i 0 ≤
      ((List.ofFn w).map (· - 1)).getD j 0) :
    Levels M num (sel.map fun (i : ℕ) => ((List.ofFn w).map (· - 1)).getD i 0)
      (fun m => if hm : sel.getD m 0 < n then V.col ⟨sel.getD m 0, hm⟩ else 0) := by
  have hf : ∀ i (hi : i < n), ((List.ofFn w).map (· - 1)).getD i 0 = w ⟨i, hi⟩ - 1 := by
    intro i hi
    simp [List.getD_eq_getElem?_getD, hi]
  have hget : ∀ m (hm : m < num), sel.getD m 0 = sel[m]'(by omega) := by
    intro m hm
    simp [List.getD_eq_getElem?_getD, List.getElem?_eq_getElem (show m < sel.length by omega)]
  have hin : ∀ m < num, sel.getD m 0 < n := by
    intro m hm
    rw [hget m hm]; exact hlt _ (List.getElem_mem _)
  refine ⟨by simp [hlen], hsort, ?_, ?_, ?_⟩
  · intro m hm
    have hm' := hin m hm
    simp only [hm', dif_pos]
    have e : (sel.map fun (i : ℕ) => ((List.ofFn w).map (· - 1)).getD i 0).getD m 0 =
        w ⟨sel.getD m 0, hm'⟩ - 1 := by
      rw [← hf _ hm']
      simp [List.getD_eq_getElem?_getD, List.getElem?_eq_getElem (show m < sel.length by omega)]
    rw [e, eigh_col h]
  · intro m hm m' hm2
    simp only [hin m hm, hin m' hm2, dif_pos]
    rw [eigh_orth h]
    congr 1
    rw [eq_iff_iff, Fin.mk.injEq, hget m hm, hget m' hm2]
    exact hnd.getElem_inj_iff
  · intro u mu hu he horth
    obtain ⟨j, hj, hmu⟩ := eigh_complete hM h u hu _ he
    rw [hmu]
    refine ⟨Complex.ofReal_im _, ?_⟩
    rw [Complex.ofReal_re]
    intro x hx
    obtain ⟨i, hi, rfl⟩ := List.mem_map.1 hx
    have hns : (j : ℕ) ∉ sel := by
      intro hmem
      obtain ⟨m, hm, hme⟩ := List.getElem_of_mem hmem
      have := horth m (by omega)
      have e1 : sel.getD m 0 = j := by
        simp [List.getD_eq_getElem?_getD, List.getElem?_eq_getElem hm, hme]
      simp only [e1, j.isLt, dif_pos] at this
      exact hj this
    have := hlow i hi j j.isLt hns
    rwa [hf j j.isLt] at this

/-- **C38.** One `k` of `ExcitonSchroedEq.run` on a Hermitian Hamiltonian, with any correct eigensolver: the
call succeeds and returns `min numeig n` energies of the form `level + E0 + i loss`, where the levels are the
lowest ones of the Hamiltonian. In particular every imaginary part is the loss. -/
theorem C38_energies (argsort : List ℝ → List ℕ) (hs : ∀ l, IsArgsort l (argsort l)) {n : ℕ}
    (eigh : Matrix (Fin n) (Fin n) ℂ → Fin n → ℝ) (vecs : Matrix (Fin n) (Fin n) ℂ → Matrix (Fin n) (Fin n) ℂ)
    (he : ∀ A : Matrix (Fin n) (Fin n) ℂ, A.IsHermitian → IsEigh A (eigh A) (vecs A))
    (M : Matrix (Fin n) (Fin n) ℂ) (hM : M.IsHermitian) (E0 loss : ℝ) (numeig : ℕ) :
    ∃ idx eners, excRun argsort eigh M E0 loss numeig = .ok (idx, eners) ∧
      (∀ z ∈ eners, z.im = loss) ∧ eners.length = min numeig n ∧
      Levels M (min numeig n) (eners.map fun z => z.re - E0)
        (fun m => if hm : idx.getD m 0 < n then (vecs (M + 1)).col ⟨idx.getD m 0, hm⟩ else 0) := by
  have h1 : (M + 1).IsHermitian := hM.add isHermitian_one
  have hno : ¬ ∃ i j, 1e-10 < ‖M i j - (starRingEnd ℂ) (M j i)‖ := by
    rintro ⟨i, j, h⟩
    have : (starRingEnd ℂ) (M j i) = M i j := hM.apply i j
    rw [this, sub_self, norm_zero] at h
    norm_num at h
  set w := eigh (M + 1) with hw
  set en := (List.ofFn w).map (· - 1) with hen
  obtain ⟨hp, ho⟩ := hs en
  have hlen : (argsort en).length = n := by rw [hp.length_eq]; simp [hen]
  have hmem : ∀ i, i ∈ argsort en ↔ i < n := by intro i; rw [hp.mem_iff]; simp [hen]
  have hnd : (argsort en).Nodup := hp.nodup_iff.mpr List.nodup_range
  refine ⟨(argsort en).take numeig, (((argsort en).take numeig).map fun (i : ℕ) => en.getD i 0).map
    fun (x : ℝ) => ((x : ℂ) + E0 + Complex.I * loss), ?_, ?_, ?_, ?_⟩
  · unfold excRun; rw [if_neg hno]; rfl
  · intro z hz
    obtain ⟨x, -, rfl⟩ := List.mem_map.1 hz
    simp
  · simp [hlen]
  · have e : ((((argsort en).take numeig).map fun (i : ℕ) => en.getD i 0).map
        fun (x : ℝ) => ((x : ℂ) + E0 + Complex.I * loss)).map (fun z => z.re - E0) =
        ((argsort en).take numeig).map fun (i : ℕ) => en.getD i 0 := by
      rw [List.map_map]
      conv_rhs => rw [← List.map_id (((argsort en).take numeig).map fun (i : ℕ) => en.getD i 0)]
      apply List.map_congr_left
      intro x _
      simp
    rw [e]
    refine levels_of_select M _ w hM (he _ h1) _ _ (by rw [List.length_take, hlen])
      (hnd.sublist (List.take_sublist _ _)) (fun i hi => (hmem i).1 (List.mem_of_mem_take hi)) ?_ ?_
    · rw [List.map_take]
      exact ho.sublist (List.take_sublist _ _)
    · intro i hi j hj hjn
      have hjd : j ∈ (argsort en).drop numeig := by
        have := (hmem j).2 hj
        rw [← List.take_append_drop numeig (argsort en), List.mem_append] at this
        exact this.resolve_left hjn
      have ho' := ho
      rw [← List.take_append_drop numeig (argsort en), List.map_append, List.pairwise_append] at ho'
      exact ho'.2.2 _ (List.mem_map_of_mem hi) _ (List.mem_map_of_mem hjd)

/-- **C38.** The check refuses every matrix that is not Hermitian by more than `1e-10`, and no other. -/
theorem C38_check {n : ℕ} (argsort : List ℝ → List ℕ) (eigh : Matrix (Fin n) (Fin n) ℂ → Fin n → ℝ)
    (M : Matrix (Fin n) (Fin n) ℂ) (E0 loss : ℝ) (numeig : ℕ) :
    excRun argsort eigh M E0 loss numeig = .error .valueError ↔
      ∃ i j, 1e-10 < ‖M i j - (starRingEnd ℂ) (M j i)‖ := by
  unfold excRun
  split
  · case isTrue h => simp [h]
  · case isFalse h => simp [h]

example (g : R2) : (fun _ : R2 => ((0.25 : ℝ) : ℂ)) (-g.1, -g.2) = (starRingEnd ℂ) ((fun _ : R2 => ((0.25 : ℝ) : ℂ)) g) := by
  rw [Complex.conj_ofReal]

open Classical ComplexOrder in
example : ∃ idx eners, excRun insArgsort
    (fun A : Matrix (Fin 2) (Fin 2) ℂ => if h : A.IsHermitian then h.eigenvalues else 0)
    (excMat 1 1 1 1 (0, 0) ![(0, 0), (1, 0)] exH) 1.5 0.01 1 = .ok (idx, eners) ∧ eners.length = 1 := by
  obtain ⟨i, e, h1, -, h2, -⟩ := C38_energies insArgsort insArgsort_ok
    (fun A : Matrix (Fin 2) (Fin 2) ℂ => if h : A.IsHermitian then h.eigenvalues else 0)
    (fun A => if h : A.IsHermitian then h.eigenvectorUnitary else 0)
    (fun A h => by simp only [dif_pos h]; exact eigh_exists A h)
    (excMat 1 1 1 1 (0, 0) ![(0, 0), (1, 0)] exH)
    ((C38_hermitian _ _ _ _ _ _ _).2 exPSD.isHermitian) 1.5 0.01 1
  exact ⟨i, e, h1, h2⟩

/-! ### C75 -/

/-- **C75.** For every history of building calls, the exciton problem can be set up for every quantum well that
`add_qw` accepted (three oscillator strengths or none, known truncation), and it is set up in the layer that
contains the well. -/
theorem C75_accepted {K : Type} [Field K] [LinearOrder K] [IsStrictOrderedRing K] (lat : Lat K) (epsL epsU : K)
    (ops : List (Op K)) (hd : ∀ d ∈ passedThicknesses ops, 0 ≤ d) (osc : OscArg)
    (hosc : osc = .none ∨ osc = .list 3 ∨ osc = .array 3) (trunc : String) (ht : trunc = "abs" ∨ trunc = "tbt") :
    let s := built lat epsL epsU ops
    ∀ q ∈ s.qws, ∃ i l, excInit s q.z osc trunc = .ok i ∧ s.layers[i]? = some l ∧ InOC (l.zMin, l.zMax) q.z := by
  intro s q hq
  obtain ⟨h1, h2, l, h3, h4⟩ := C07_qw_in_layer lat epsL epsU ops hd q hq
  refine ⟨zToLind s q.z - 1, l, ?_, h3, h4⟩
  have hno : ¬ (zToLind s q.z = 0 ∨ zToLind s q.z = s.layers.length + 1) := by
    have h1' : 1 ≤ zToLind s q.z := h1
    have h2' : zToLind s q.z ≤ s.layers.length := h2
    omega
  unfold excInit
  simp only
  rw [if_neg hno]
  rcases hosc with rfl | rfl | rfl <;> simp only [ne_eq, not_true_eq_false, if_false] <;>
    rw [if_pos ht.symm]

/-- **C75.** Anything else is refused: positions in a cladding, oscillator strengths of a wrong type or number,
an unknown truncation. -/
theorem C75_refused {K : Type} [Field K] [LinearOrder K] (s : PhC K) (z : K) (osc : OscArg) (trunc : String) :
    (zToLind s z = 0 ∨ zToLind s z = s.layers.length + 1 → excInit s z osc trunc = .error .valueError) ∧
    (zToLind s z ≠ 0 → zToLind s z ≠ s.layers.length + 1 →
      (osc = .other → excInit s z osc trunc = .error .typeError) ∧
      (∀ n, n ≠ 3 → osc = .list n ∨ osc = .array n → excInit s z osc trunc = .error .valueError) ∧
      (osc ≠ .other → trunc ≠ "abs" → trunc ≠ "tbt" → excInit s z osc trunc = .error .valueError)) := by
  constructor
  · intro h; unfold excInit; simp only; rw [if_pos h]
  · intro h1 h2
    have hno : ¬ (zToLind s z = 0 ∨ zToLind s z = s.layers.length + 1) := by tauto
    refine ⟨?_, ?_, ?_⟩
    · rintro rfl; unfold excInit; simp only; rw [if_neg hno]
    · rintro n hn (rfl | rfl) <;> unfold excInit <;> simp only <;> rw [if_neg hno, if_pos hn]
    · intro ho h3 h4
      unfold excInit; simp only; rw [if_neg hno]
      have ht : ¬ (trunc = "tbt" ∨ trunc = "abs") := by tauto
      cases osc with
      | other => exact absurd rfl ho
      | none => simp only; rw [if_neg ht]
      | list n => simp only; split <;> first | rfl | rw [if_neg ht]
      | array n => simp only; split <;> first | rfl | rw [if_neg ht]

end Legume
