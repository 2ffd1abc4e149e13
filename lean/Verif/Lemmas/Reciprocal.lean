import Mathlib.Data.List.Basic
import Mathlib.Data.List.Sort
import Mathlib.Data.List.Nodup
import Mathlib.Data.List.Dedup
import Mathlib.Tactic.Linarith
import Mathlib.Tactic.Ring
import Mathlib.Tactic.NormNum
import Mathlib.Tactic.Positivity
import Verif.Model.Reciprocal
import Verif.Lemmas.EpsMap

/-!
# Lemmas about plane-wave sets and difference matrices
-/
namespace Legume

open Real

theorem symRange_length (n : Nat) : (symRange n).length = 2 * n + 1 := by simp [symRange]

theorem symRange_getElem (n i : Nat) (h : i < (symRange n).length) :
    (symRange n)[i] = (i : ℤ) - n := by
  simp [symRange]

theorem symRange_nodup (n : Nat) : (symRange n).Nodup := by
  rw [List.nodup_iff_injective_get]
  intro a b h
  simp only [List.get_eq_getElem, symRange_getElem] at h
  exact Fin.ext (by omega)

theorem symRange_reverse (n : Nat) : (symRange n).reverse = (symRange n).map fun k => -k := by
  apply List.ext_getElem
  · simp
  · intro i h1 h2
    have : i < 2 * n + 1 := by simpa [symRange_length] using h1
    simp only [List.getElem_reverse, List.getElem_map, symRange_getElem, symRange_length]
    omega

theorem flatMap_map_getElem? {α β γ : Type} (l : List α) (m : List β) (f : α → β → γ) (p : Nat)
    (hp : m.length = p) (I : Nat) :
    (l.flatMap fun a => m.map (f a))[I]? =
      if h : I / p < l.length ∧ I % p < m.length then
        some (f (l[I / p]'h.1) (m[I % p]'h.2)) else none := by
  rcases Nat.eq_zero_or_pos p with h0 | h0
  · subst h0
    have : m = [] := List.length_eq_zero_iff.mp hp
    subst this
    simp
  induction l generalizing I with
  | nil => simp
  | cons a l ih =>
    rw [List.flatMap_cons]
    by_cases hI : I < p
    · rw [List.getElem?_append_left (by simpa [hp] using hI)]
      have h1 : I / p = 0 := Nat.div_eq_of_lt hI
      have h2 : I % p = I := Nat.mod_eq_of_lt hI
      have h3 : I < m.length := by omega
      simp [h1, h2, h3]
    · have hI' : p ≤ I := Nat.le_of_not_lt hI
      rw [List.getElem?_append_right (by simpa [hp] using hI')]
      rw [ih]
      obtain ⟨J, rfl⟩ := Nat.exists_eq_add_of_le hI'
      have h1 : (p + J) / p = J / p + 1 := by rw [Nat.add_div_left _ h0]
      have h2 : (p + J) % p = J % p := by simp
      have h3 : p + J - (m.map (f a)).length = J := by simp [hp]
      simp only [h3, h1, h2, List.length_cons, Nat.add_lt_add_iff_right, List.getElem_cons_succ]

theorem tbtInds_length (n1 n2 : Nat) : (tbtInds n1 n2).length = (2 * n1 + 1) * (2 * n2 + 1) := by
  simp [tbtInds, List.length_flatMap, symRange_length]

theorem div_lt_of_lt_mul' {I a p : Nat} (h : I < a * p) : I / p < a :=
  Nat.div_lt_of_lt_mul (by rwa [Nat.mul_comm] at h)

theorem tbtInds_getElem? (n1 n2 I : Nat) (h : I < (2 * n1 + 1) * (2 * n2 + 1)) :
    (tbtInds n1 n2)[I]? =
      some (((I / (2 * n2 + 1) : Nat) : ℤ) - n1, ((I % (2 * n2 + 1) : Nat) : ℤ) - n2) := by
  rw [tbtInds, flatMap_map_getElem? _ _ _ (2 * n2 + 1) (symRange_length n2)]
  have h1 := div_lt_of_lt_mul' h
  have h2 : I % (2 * n2 + 1) < 2 * n2 + 1 := Nat.mod_lt _ (by omega)
  rw [dif_pos ⟨by simpa [symRange_length] using h1, by simpa [symRange_length] using h2⟩]
  simp only [symRange_getElem]

theorem mem_tbtInds (n1 n2 : Nat) (i : ℤ × ℤ) :
    i ∈ tbtInds n1 n2 ↔ (-(n1 : ℤ) ≤ i.1 ∧ i.1 ≤ n1) ∧ (-(n2 : ℤ) ≤ i.2 ∧ i.2 ≤ n2) := by
  obtain ⟨a, b⟩ := i
  simp only [tbtInds, List.mem_flatMap, List.mem_map, mem_symRange, Prod.mk.injEq]
  constructor
  · rintro ⟨x, hx, y, hy, rfl, rfl⟩; exact ⟨hx, hy⟩
  · rintro ⟨h1, h2⟩; exact ⟨a, h1, b, h2, rfl, rfl⟩

theorem tbtInds_nodup (n1 n2 : Nat) : (tbtInds n1 n2).Nodup := by
  rw [tbtInds, List.nodup_flatMap]
  refine ⟨fun x _ => (symRange_nodup n2).map (by intro a b h; simpa using h), ?_⟩
  refine (symRange_nodup n1).imp ?_
  intro a b hab x hx hy
  simp only [List.mem_map] at hx hy
  obtain ⟨_, _, rfl⟩ := hx
  obtain ⟨_, _, h⟩ := hy
  simp only [Prod.mk.injEq] at h
  exact hab h.1.symm

theorem tbtInds_reverse (n1 n2 : Nat) :
    (tbtInds n1 n2).reverse = (tbtInds n1 n2).map fun i => (-i.1, -i.2) := by
  apply List.ext_getElem?
  intro I
  by_cases h : I < (2 * n1 + 1) * (2 * n2 + 1)
  · rw [List.getElem?_reverse (by simpa [tbtInds_length] using h), List.getElem?_map,
      tbtInds_getElem? _ _ I h, tbtInds_length,
      tbtInds_getElem? _ _ _ (by omega)]
    have h2 : I % (2 * n2 + 1) < 2 * n2 + 1 := Nat.mod_lt _ (by omega)
    have h1 := div_lt_of_lt_mul' h
    have e := Nat.div_add_mod I (2 * n2 + 1)
    set p := 2 * n2 + 1 with hp
    set q := I / p
    set r := I % p
    have e2 : (2 * n1 + 1) * p - 1 - I = (2 * n2 - r) + p * (2 * n1 - q) := by
      have e3 : (2 * n1 + 1) * p = p * (2 * n1 - q) + p * q + p := by
        obtain ⟨t, ht⟩ := Nat.exists_eq_add_of_le (show q ≤ 2 * n1 by omega)
        rw [ht]; simp; ring
      omega
    rw [e2, Nat.add_mul_div_left _ _ (by omega), Nat.add_mul_mod_self_left,
      Nat.div_eq_of_lt (by omega), Nat.mod_eq_of_lt (by omega)]
    simp only [Option.map_some, Option.some.injEq, Prod.mk.injEq]
    omega
  · rw [List.getElem?_eq_none, List.getElem?_eq_none]
    · simp [tbtInds_length]; omega
    · simp [tbtInds_length]; omega

theorem gOf_inj (b1 b2 : R2) (h : b1.1 * b2.2 - b1.2 * b2.1 ≠ 0) : Function.Injective (gOf b1 b2) := by
  intro i j hij
  simp only [gOf, Prod.mk.injEq] at hij
  obtain ⟨e1, e2⟩ := hij
  have h1 : ((i.1 : ℝ) - j.1) * (b1.1 * b2.2 - b1.2 * b2.1) = 0 := by
    linear_combination b2.2 * e1 - b2.1 * e2
  have h2 : ((i.2 : ℝ) - j.2) * (b1.1 * b2.2 - b1.2 * b2.1) = 0 := by
    linear_combination -b1.2 * e1 + b1.1 * e2
  have h1' := (mul_eq_zero.mp h1).resolve_right h
  have h2' := (mul_eq_zero.mp h2).resolve_right h
  refine Prod.ext ?_ ?_
  · exact_mod_cast sub_eq_zero.mp h1'
  · exact_mod_cast sub_eq_zero.mp h2'

theorem gOf_sub (b1 b2 : R2) (i j : ℤ × ℤ) :
    gOf b1 b2 (i.1 - j.1, i.2 - j.2) =
      ((gOf b1 b2 i).1 - (gOf b1 b2 j).1, (gOf b1 b2 i).2 - (gOf b1 b2 j).2) := by
  simp only [gOf]; push_cast; refine Prod.ext ?_ ?_ <;> simp only <;> ring

theorem gOf_neg (b1 b2 : R2) (i : ℤ × ℤ) :
    gOf b1 b2 (-i.1, -i.2) = (-(gOf b1 b2 i).1, -(gOf b1 b2 i).2) := by
  simp only [gOf]; push_cast; refine Prod.ext ?_ ?_ <;> simp only <;> ring

/-! ### the cut radius -/

theorem gmax_le_gmaxEff (gmax : ℝ) (norms : List ℝ) : gmax ≤ gmaxEff gmax norms := by
  unfold gmaxEff
  have : (0 : ℝ) ≤ (Nat.find (exists_bump gmax norms) : ℝ) * 1e-10 := by positivity
  linarith

theorem gmaxEff_eq (gmax : ℝ) (norms : List ℝ) (h : gmax * 2 * π ∉ norms) :
    gmaxEff gmax norms = gmax := by
  classical
  have : Nat.find (exists_bump gmax norms) = 0 := by
    rw [Nat.find_eq_zero]; simpa using h
  unfold gmaxEff
  have h2 := this
  simp only [add_eq_left, mul_eq_zero, Nat.cast_eq_zero]
  left
  convert h2

theorem bump_inj (gmax : ℝ) : Function.Injective fun k : Nat => (gmax + k * 1e-10) * 2 * π := by
  intro a b h
  have hπ := Real.pi_ne_zero
  simp only at h
  have h1 := mul_right_cancel₀ hπ h
  have h2 := mul_right_cancel₀ two_ne_zero h1
  have h3 := add_left_cancel h2
  have h4 := mul_right_cancel₀ (by norm_num) h3
  exact_mod_cast h4

theorem gmaxEff_le (gmax : ℝ) (norms : List ℝ) :
    gmaxEff gmax norms ≤ gmax + norms.length * 1e-10 := by
  classical
  unfold gmaxEff
  have key : Nat.find (exists_bump gmax norms) ≤ norms.length := by
    set k := Nat.find (exists_bump gmax norms) with hk
    have hsub : ((List.range k).map fun (j : Nat) => (gmax + j * 1e-10) * 2 * π) ⊆ norms := by
      intro x hx
      obtain ⟨j, hj, rfl⟩ := List.mem_map.mp hx
      have := Nat.find_min (exists_bump gmax norms) (List.mem_range.mp hj)
      simpa using this
    have hnd : ((List.range k).map fun (j : Nat) => (gmax + j * 1e-10) * 2 * π).Nodup :=
      List.nodup_range.map (bump_inj gmax)
    have := (hnd.subperm hsub).length_le
    simpa using this
  have : (Nat.find (exists_bump gmax norms) : ℝ) ≤ norms.length := by exact_mod_cast key
  have h2 : (Nat.find (exists_bump gmax norms) : ℝ) * 1e-10 ≤ norms.length * 1e-10 :=
    mul_le_mul_of_nonneg_right this (by norm_num)
  convert add_le_add_right h2 gmax using 2

theorem gmaxEff_notMem (gmax : ℝ) (norms : List ℝ) : gmaxEff gmax norms * 2 * π ∉ norms := by
  classical
  have := Nat.find_spec (exists_bump gmax norms)
  unfold gmaxEff
  convert this

theorem norm2_eq_nrm (v : R2) : norm2 v = nrm v := rfl

theorem le_nmaxOf (c gmax : ℝ) (b : R2) (m : ℤ) (hb : 0 < norm2 b) (hg : 0 ≤ c * gmax)
    (h : |(m : ℝ)| * norm2 b ≤ c * gmax) :
    -(nmaxOf c gmax b : ℤ) ≤ m ∧ m ≤ nmaxOf c gmax b := by
  have h1 : |(m : ℝ)| ≤ c * gmax / norm2 b := by rwa [le_div_iff₀ hb]
  have h2 : m.natAbs ≤ nmaxOf c gmax b := by
    unfold nmaxOf
    apply Nat.le_floor
    rw [Nat.cast_natAbs]; push_cast; exact h1
  omega

/-! ### sorted symmetric lists -/

theorem lexLe_trans (a b c : ℤ × ℤ) (h1 : lexLe a b = true) (h2 : lexLe b c = true) : lexLe a c = true := by
  simp only [lexLe, Bool.or_eq_true, Bool.and_eq_true, decide_eq_true_eq] at *; omega

theorem lexLe_total (a b : ℤ × ℤ) : (lexLe a b || lexLe b a) = true := by
  simp only [lexLe, Bool.or_eq_true, Bool.and_eq_true, decide_eq_true_eq]; omega

theorem lexLe_antisymm (a b : ℤ × ℤ) (h1 : lexLe a b = true) (h2 : lexLe b a = true) : a = b := by
  simp only [lexLe, Bool.or_eq_true, Bool.and_eq_true, decide_eq_true_eq] at *
  exact Prod.ext (by omega) (by omega)

theorem lexLe_neg (a b : ℤ × ℤ) : lexLe (-a.1, -a.2) (-b.1, -b.2) = lexLe b a := by
  rw [Bool.eq_iff_iff]
  simp only [lexLe, Bool.or_eq_true, Bool.and_eq_true, decide_eq_true_eq]; omega

theorem absUnique_nodup (inds : List (ℤ × ℤ)) : (absUnique inds).Nodup :=
  (List.mergeSort_perm _ _).nodup_iff.mpr (List.nodup_dedup _)

theorem mem_diffGrid (inds : List (ℤ × ℤ)) (d : ℤ × ℤ) :
    d ∈ diffGrid inds ↔ ∃ a ∈ inds, ∃ b ∈ inds, d = (b.1 - a.1, b.2 - a.2) := by
  simp only [diffGrid, List.mem_flatMap, List.mem_map, eq_comm]

theorem mem_absUnique (inds : List (ℤ × ℤ)) (d : ℤ × ℤ) :
    d ∈ absUnique inds ↔ ∃ a ∈ inds, ∃ b ∈ inds, d = (b.1 - a.1, b.2 - a.2) := by
  rw [absUnique, List.mem_mergeSort, List.mem_dedup, mem_diffGrid]

theorem absUnique_sorted (inds : List (ℤ × ℤ)) :
    (absUnique inds).Pairwise fun a b => lexLe a b = true :=
  List.pairwise_mergeSort lexLe_trans lexLe_total _

theorem neg_mem_absUnique (inds : List (ℤ × ℤ)) (d : ℤ × ℤ) (h : d ∈ absUnique inds) :
    (-d.1, -d.2) ∈ absUnique inds := by
  rw [mem_absUnique] at *
  obtain ⟨a, ha, b, hb, rfl⟩ := h
  exact ⟨b, hb, a, ha, by simp⟩

theorem absUnique_reverse (inds : List (ℤ × ℤ)) :
    (absUnique inds).reverse.map (fun d => (-d.1, -d.2)) = absUnique inds := by
  have hinj : Function.Injective fun d : ℤ × ℤ => (-d.1, -d.2) := by
    intro a b h; simp only [Prod.mk.injEq, neg_inj] at h; exact Prod.ext h.1 h.2
  apply List.Perm.eq_of_pairwise (le := fun a b => lexLe a b = true)
  · intro a b _ _ h1 h2; exact lexLe_antisymm a b h1 h2
  · rw [List.pairwise_map, List.pairwise_reverse]
    refine (absUnique_sorted inds).imp ?_
    intro a b h; rw [lexLe_neg]; exact h
  · exact absUnique_sorted inds
  · rw [List.perm_ext_iff_of_nodup]
    · intro d
      simp only [List.mem_map, List.mem_reverse]
      constructor
      · rintro ⟨x, hx, rfl⟩; exact neg_mem_absUnique inds x hx
      · intro h; exact ⟨_, neg_mem_absUnique inds d h, by simp⟩
    · exact (List.nodup_reverse.mpr (absUnique_nodup inds)).map hinj
    · exact absUnique_nodup inds

theorem absUnique_getElem_neg (inds : List (ℤ × ℤ)) (k : Nat) (h : k < (absUnique inds).length) :
    (absUnique inds)[k] =
      (-((absUnique inds)[(absUnique inds).length - 1 - k]'(by omega)).1,
       -((absUnique inds)[(absUnique inds).length - 1 - k]'(by omega)).2) := by
  have e := absUnique_reverse inds
  have h1 : (absUnique inds)[k]? = ((absUnique inds).reverse.map (fun d => (-d.1, -d.2)))[k]? := by rw [e]
  rw [List.getElem?_map, List.getElem?_reverse h, List.getElem?_eq_getElem h,
    List.getElem?_eq_getElem (by omega)] at h1
  simpa using h1

/-- A non-empty difference list has odd length. -/
theorem absUnique_length_odd (inds : List (ℤ × ℤ)) (hne : inds ≠ []) :
    (absUnique inds).length % 2 = 1 := by
  by_contra hodd
  have h0 : ((0 : ℤ), (0 : ℤ)) ∈ absUnique inds := by
    obtain ⟨a, ha⟩ := List.exists_mem_of_ne_nil _ hne
    exact (mem_absUnique _ _).mpr ⟨a, ha, a, ha, by simp⟩
  obtain ⟨k, hk, e⟩ := List.getElem_of_mem h0
  have e2 := absUnique_getElem_neg inds k hk
  rw [e] at e2
  have e3 : (absUnique inds)[(absUnique inds).length - 1 - k]'(by omega) = (absUnique inds)[k] := by
    rw [e]; simp only [Prod.mk.injEq] at e2; exact Prod.ext (by omega) (by omega)
  have := (List.Nodup.getElem_inj_iff (absUnique_nodup inds)).mp e3
  omega

theorem epsUniq_getElem (FT : R2 → ℂ) (b1 b2 : R2) (inds : List (ℤ × ℤ)) (hne : inds ≠ [])
    (hFT : ∀ g : R2, FT (-g.1, -g.2) = (starRingEnd ℂ) (FT g)) (k : Nat)
    (h : k < (absUnique inds).length) :
    (epsUniq FT b1 b2 (absUnique inds))[k]? = some (FT (gOf b1 b2 ((absUnique inds)[k]))) := by
  have hodd := absUnique_length_odd inds hne
  set U := absUnique inds with hU
  set hh := (U.length - 1) / 2 with hhh
  have hlen : (U.take (hh + 1)).length = hh + 1 := by rw [List.length_take]; omega
  unfold epsUniq
  simp only
  rw [← hhh]
  by_cases hk : k < hh + 1
  · rw [List.getElem?_append_left (by rw [List.length_map, hlen]; exact hk), List.getElem?_map,
      List.getElem?_take_of_lt hk, List.getElem?_eq_getElem h]
    rfl
  · rw [List.getElem?_append_right (by rw [List.length_map, hlen]; omega), List.length_map, hlen,
      List.getElem?_map, List.getElem?_reverse (by rw [List.length_dropLast, List.length_map, hlen]; omega),
      List.length_dropLast, List.length_map, hlen, List.getElem?_dropLast, List.length_map, hlen,
      if_pos (by omega), List.getElem?_map, List.getElem?_take_of_lt (by omega),
      List.getElem?_eq_getElem (by omega)]
    simp only [Option.map_some, Option.some.injEq]
    rw [← hFT, ← gOf_neg]
    congr 2
    rw [absUnique_getElem_neg inds k h]
    have : hh + 1 - 1 - 1 - (k - (hh + 1)) = U.length - 1 - k := by omega
    simp only [this]
    rfl

end Legume
