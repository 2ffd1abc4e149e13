import Mathlib.LinearAlgebra.Matrix.Charpoly.Basic
import Mathlib.LinearAlgebra.Matrix.Hermitian
import Mathlib.Analysis.Real.Pi.Bounds
import Mathlib.Analysis.Complex.Norm
import Mathlib.Tactic.IntervalCases
import Verif.Lemmas.Reciprocal
import Verif.Spec.Lattice

/-!
# Plane-wave sets and permittivity matrices: C17 - C21
-/
namespace Legume

open Real Spec

theorem gOf_eq_comb (b1 b2 : R2) (i : ℤ × ℤ) : gOf b1 b2 i = comb b1 b2 i.1 i.2 := by
  simp only [gOf, comb]; refine Prod.ext ?_ ?_ <;> simp only <;> ring

/-! ### C17 -/

/-- **C17.** The 'tbt' set is the parallelogram of all `m b1 + n b2` with `|m| |b1| <= 2 pi gmax`
and `|n| |b2| <= 2 pi gmax`. -/
theorem C17_members (b1 b2 : ℝ × ℝ) (gmax : ℝ) (hg : 0 ≤ gmax)
    (h1 : 0 < √(b1.1 ^ 2 + b1.2 ^ 2)) (h2 : 0 < √(b2.1 ^ 2 + b2.2 ^ 2)) (g : ℝ × ℝ) :
    g ∈ gvecTbt b1 b2 gmax ↔ ∃ m n : ℤ, g = comb b1 b2 m n ∧
      |(m : ℝ)| * √(b1.1 ^ 2 + b1.2 ^ 2) ≤ 2 * π * gmax ∧
      |(n : ℝ)| * √(b2.1 ^ 2 + b2.2 ^ 2) ≤ 2 * π * gmax := by
  have hc : 0 ≤ 2 * π * gmax := by positivity
  have key : ∀ (b : ℝ × ℝ) (m : ℤ), 0 < norm2 b →
      ((-(nmaxOf (2 * π) gmax b : ℤ) ≤ m ∧ m ≤ nmaxOf (2 * π) gmax b) ↔
        |(m : ℝ)| * norm2 b ≤ 2 * π * gmax) := by
    intro b m hb
    refine ⟨fun h => ?_, fun h => le_nmaxOf _ _ _ _ hb hc h⟩
    rw [← le_div_iff₀ hb]
    have hn : m.natAbs ≤ nmaxOf (2 * π) gmax b := by omega
    have hfl : (nmaxOf (2 * π) gmax b : ℝ) ≤ 2 * π * gmax / norm2 b :=
      Nat.floor_le (div_nonneg hc hb.le)
    have : ((m.natAbs : ℕ) : ℝ) ≤ nmaxOf (2 * π) gmax b := by exact_mod_cast hn
    rw [Nat.cast_natAbs] at this
    push_cast at this
    linarith
  simp only [gvecTbt, List.mem_map, mem_tbtInds]
  constructor
  · rintro ⟨⟨m, n⟩, ⟨hm, hn⟩, rfl⟩
    exact ⟨m, n, gOf_eq_comb _ _ _, (key b1 m h1).mp hm, (key b2 n h2).mp hn⟩
  · rintro ⟨m, n, rfl, hm, hn⟩
    exact ⟨(m, n), ⟨(key b1 m h1).mpr hm, (key b2 n h2).mpr hn⟩, gOf_eq_comb _ _ _⟩

example : (0 : ℝ) ≤ 1 ∧ 0 < √(((6 : ℝ), (0 : ℝ)).1 ^ 2 + ((6 : ℝ), (0 : ℝ)).2 ^ 2) := by
  refine ⟨by norm_num, by norm_num⟩

/-- **C17.** Number of plane waves, no repetition, `G = 0` in the middle, and reversal of the
list negates every vector, for every reciprocal basis of independent vectors. -/
theorem C17_structure (b1 b2 : ℝ × ℝ) (gmax : ℝ) (h : b1.1 * b2.2 - b1.2 * b2.1 ≠ 0) :
    ∃ n1 n2 : ℕ,
      n1 = ⌊2 * π * gmax / √(b1.1 ^ 2 + b1.2 ^ 2)⌋₊ ∧
      n2 = ⌊2 * π * gmax / √(b2.1 ^ 2 + b2.2 ^ 2)⌋₊ ∧
      (gvecTbt b1 b2 gmax).length = (2 * n1 + 1) * (2 * n2 + 1) ∧
      (gvecTbt b1 b2 gmax).Nodup ∧
      (gvecTbt b1 b2 gmax)[(gvecTbt b1 b2 gmax).length / 2]? = some (0, 0) ∧
      (gvecTbt b1 b2 gmax).reverse = (gvecTbt b1 b2 gmax).map fun g => (-g.1, -g.2) := by
  refine ⟨nmaxOf (2 * π) gmax b1, nmaxOf (2 * π) gmax b2, rfl, rfl, ?_, ?_, ?_, ?_⟩
  · simp [gvecTbt, tbtInds_length]
  · exact (tbtInds_nodup _ _).map (gOf_inj b1 b2 h)
  · unfold gvecTbt
    generalize nmaxOf (2 * π) gmax b1 = n1
    generalize nmaxOf (2 * π) gmax b2 = n2
    rw [List.length_map, tbtInds_length, List.getElem?_map]
    have e : (2 * n1 + 1) * (2 * n2 + 1) / 2 = n2 + (2 * n2 + 1) * n1 := by
      have : (2 * n1 + 1) * (2 * n2 + 1) = 2 * (n2 + (2 * n2 + 1) * n1) + 1 := by ring
      omega
    have hlt : n2 + (2 * n2 + 1) * n1 < (2 * n1 + 1) * (2 * n2 + 1) := by
      have : (2 * n1 + 1) * (2 * n2 + 1) = 2 * (n2 + (2 * n2 + 1) * n1) + 1 := by ring
      omega
    rw [e, tbtInds_getElem? _ _ _ hlt, Nat.add_mul_div_left _ _ (by omega),
      Nat.add_mul_mod_self_left, Nat.div_eq_of_lt (by omega), Nat.mod_eq_of_lt (by omega)]
    simp [gOf]
  · unfold gvecTbt
    rw [← List.map_reverse, tbtInds_reverse, List.map_map, List.map_map]
    apply List.map_congr_left
    intro i _
    exact gOf_neg b1 b2 i

/-- Hexagonal reciprocal basis (up to scale) meets the hypothesis. -/
example : ((1 : ℝ), (1 : ℝ)).1 * ((1 : ℝ), (-1 : ℝ)).2 - ((1 : ℝ), (1 : ℝ)).2 * ((1 : ℝ), (-1 : ℝ)).1 ≠ 0 := by
  norm_num

/-! ### C18 -/

/-- The plane waves chosen by 'abs' as vectors. -/
noncomputable def gvecAbs (b1 b2 : R2) (gmax : ℝ) : List R2 := (absInds b1 b2 gmax).map (gOf b1 b2)

/-- The norms examined by `_init_reciprocal_abs`. -/
noncomputable def absNorms (b1 b2 : R2) (gmax : ℝ) : List ℝ :=
  (absWindow b1 b2 gmax).map fun i => norm2 (gOf b1 b2 i)

theorem mem_absInds (b1 b2 : R2) (gmax : ℝ) (i : ℤ × ℤ) :
    i ∈ absInds b1 b2 gmax ↔ i ∈ absWindow b1 b2 gmax ∧
      norm2 (gOf b1 b2 i) ≤ 2 * π * gmaxEff gmax (absNorms b1 b2 gmax) := by
  simp [absInds, absNorms]

/-- **C18 (soundness).** Every plane wave is a reciprocal lattice vector, none is repeated, and its
length is at most `2 pi (gmax + N 1e-10)`, `N` the number of vectors scanned; at most `2 pi gmax`
if no scanned vector has exactly that length. -/
theorem C18_sound (b1 b2 : ℝ × ℝ) (gmax : ℝ) :
    (b1.1 * b2.2 - b1.2 * b2.1 ≠ 0 → (gvecAbs b1 b2 gmax).Nodup) ∧
    ∀ g ∈ gvecAbs b1 b2 gmax, (∃ m n : ℤ, g = comb b1 b2 m n) ∧
      √(g.1 ^ 2 + g.2 ^ 2) ≤ 2 * π * (gmax + (absWindow b1 b2 gmax).length * 1e-10) ∧
      ((∀ m n : ℤ, √((comb b1 b2 m n).1 ^ 2 + (comb b1 b2 m n).2 ^ 2) ≠ gmax * 2 * π) →
        √(g.1 ^ 2 + g.2 ^ 2) ≤ 2 * π * gmax) := by
  refine ⟨fun h => ((tbtInds_nodup _ _).filter _).map (gOf_inj b1 b2 h), ?_⟩
  intro g hg
  obtain ⟨i, hi, rfl⟩ := List.mem_map.mp hg
  rw [mem_absInds] at hi
  refine ⟨⟨i.1, i.2, gOf_eq_comb _ _ _⟩, ?_, ?_⟩
  · refine hi.2.trans ?_
    apply mul_le_mul_of_nonneg_left _ (by positivity)
    have := gmaxEff_le gmax (absNorms b1 b2 gmax)
    rwa [absNorms, List.length_map] at this
  · intro hne
    have : gmaxEff gmax (absNorms b1 b2 gmax) = gmax := by
      apply gmaxEff_eq
      intro hmem
      obtain ⟨j, _, hj⟩ := List.mem_map.mp hmem
      refine hne j.1 j.2 ?_
      rw [← gOf_eq_comb]; exact hj
    rw [this] at hi
    exact hi.2

/-- **C18 (completeness, with the obliqueness condition).** Every reciprocal lattice vector of
length at most `2 pi r`, `r` not larger than the cut, is in the set, provided the lattice is not
too oblique: `r |b1| |b2| <= 2 gmax |b1 x b2|`; for `r = gmax` this says that the angle between
`b1` and `b2` is between 30 and 150 degrees. Missing from C18: lattices outside this range, for
which the claim is false (`C18_oblique_incomplete`). -/
theorem C18_complete_partial (b1 b2 : ℝ × ℝ) (gmax r : ℝ) (hg : 0 ≤ gmax)
    (hdet : b1.1 * b2.2 - b1.2 * b2.1 ≠ 0)
    (hr : r * (√(b1.1 ^ 2 + b1.2 ^ 2) * √(b2.1 ^ 2 + b2.2 ^ 2)) ≤
      2 * gmax * |b1.1 * b2.2 - b1.2 * b2.1|)
    (hcut : r ≤ gmaxEff gmax (absNorms b1 b2 gmax)) (m n : ℤ)
    (h : √((comb b1 b2 m n).1 ^ 2 + (comb b1 b2 m n).2 ^ 2) ≤ 2 * π * r) :
    comb b1 b2 m n ∈ gvecAbs b1 b2 gmax := by
  have hn1 : 0 < norm2 b1 := by
    apply Real.sqrt_pos.mpr
    by_contra hh
    have e1 : b1.1 = 0 := by nlinarith [sq_nonneg b1.1, sq_nonneg b1.2]
    have e2 : b1.2 = 0 := by nlinarith [sq_nonneg b1.1, sq_nonneg b1.2]
    exact hdet (by rw [e1, e2]; ring)
  have hn2 : 0 < norm2 b2 := by
    apply Real.sqrt_pos.mpr
    by_contra hh
    have e1 : b2.1 = 0 := by nlinarith [sq_nonneg b2.1, sq_nonneg b2.2]
    have e2 : b2.2 = 0 := by nlinarith [sq_nonneg b2.1, sq_nonneg b2.2]
    exact hdet (by rw [e1, e2]; ring)
  have hd : 0 < |b1.1 * b2.2 - b1.2 * b2.1| := abs_pos.mpr hdet
  have hc : 0 ≤ 4 * π * gmax := by positivity
  obtain ⟨c1, c2⟩ := coeff_bound b1 b2 m n
  have hcomb : nrm (comb b1 b2 m n) ≤ 2 * π * r := h
  change r * (norm2 b1 * norm2 b2) ≤ _ at hr
  rw [← norm2_eq_nrm] at c1 c2 hcomb
  rw [← norm2_eq_nrm] at c1 c2
  change _ * |b1.1 * b2.2 - b1.2 * b2.1| ≤ _ at c1 c2
  set D := |b1.1 * b2.2 - b1.2 * b2.1|
  have hm : |(m : ℝ)| * norm2 b1 ≤ 4 * π * gmax := by
    have : |(m : ℝ)| * norm2 b1 * D ≤ 4 * π * gmax * D := by
      calc |(m : ℝ)| * norm2 b1 * D = (|(m : ℝ)| * D) * norm2 b1 := by ring
        _ ≤ (norm2 (comb b1 b2 m n) * norm2 b2) * norm2 b1 :=
            mul_le_mul_of_nonneg_right c1 hn1.le
        _ ≤ (2 * π * r * norm2 b2) * norm2 b1 := by
            apply mul_le_mul_of_nonneg_right _ hn1.le
            exact mul_le_mul_of_nonneg_right hcomb hn2.le
        _ = 2 * π * (r * (norm2 b1 * norm2 b2)) := by ring
        _ ≤ 2 * π * (2 * gmax * D) := mul_le_mul_of_nonneg_left hr (by positivity)
        _ = 4 * π * gmax * D := by ring
    exact le_of_mul_le_mul_right this hd
  have hn : |(n : ℝ)| * norm2 b2 ≤ 4 * π * gmax := by
    have : |(n : ℝ)| * norm2 b2 * D ≤ 4 * π * gmax * D := by
      calc |(n : ℝ)| * norm2 b2 * D = (|(n : ℝ)| * D) * norm2 b2 := by ring
        _ ≤ (norm2 (comb b1 b2 m n) * norm2 b1) * norm2 b2 :=
            mul_le_mul_of_nonneg_right c2 hn2.le
        _ ≤ (2 * π * r * norm2 b1) * norm2 b2 := by
            apply mul_le_mul_of_nonneg_right _ hn2.le
            exact mul_le_mul_of_nonneg_right hcomb hn1.le
        _ = 2 * π * (r * (norm2 b1 * norm2 b2)) := by ring
        _ ≤ 2 * π * (2 * gmax * D) := mul_le_mul_of_nonneg_left hr (by positivity)
        _ = 4 * π * gmax * D := by ring
    exact le_of_mul_le_mul_right this hd
  refine List.mem_map.mpr ⟨(m, n), ?_, gOf_eq_comb _ _ _⟩
  rw [mem_absInds]
  refine ⟨?_, ?_⟩
  · exact (mem_tbtInds _ _ _).mpr ⟨le_nmaxOf _ _ _ _ hn1 hc hm, le_nmaxOf _ _ _ _ hn2 hc hn⟩
  · rw [gOf_eq_comb]
    refine hcomb.trans ?_
    exact mul_le_mul_of_nonneg_left hcut (by positivity)

/-- Square lattice, `r = gmax`. -/
example : (2 : ℝ) * (√(((1 : ℝ), (0 : ℝ)).1 ^ 2 + ((1 : ℝ), (0 : ℝ)).2 ^ 2) *
      √(((0 : ℝ), (1 : ℝ)).1 ^ 2 + ((0 : ℝ), (1 : ℝ)).2 ^ 2)) ≤
    2 * 2 * |((1 : ℝ), (0 : ℝ)).1 * ((0 : ℝ), (1 : ℝ)).2 - ((1 : ℝ), (0 : ℝ)).2 * ((0 : ℝ), (1 : ℝ)).1| := by
  norm_num

example (gmax : ℝ) (l : List ℝ) : gmax ≤ gmaxEff gmax l := gmax_le_gmaxEff gmax l

/-- **C18 (exact disc).** If no reciprocal lattice vector has length exactly `2 pi gmax` and the
lattice is not too oblique, the set is exactly the set of reciprocal lattice vectors in the disc. -/
theorem C18_disc_partial (b1 b2 : ℝ × ℝ) (gmax : ℝ) (hg : 0 ≤ gmax)
    (hdet : b1.1 * b2.2 - b1.2 * b2.1 ≠ 0)
    (hr : √(b1.1 ^ 2 + b1.2 ^ 2) * √(b2.1 ^ 2 + b2.2 ^ 2) ≤ 2 * |b1.1 * b2.2 - b1.2 * b2.1|)
    (hne : ∀ m n : ℤ, √((comb b1 b2 m n).1 ^ 2 + (comb b1 b2 m n).2 ^ 2) ≠ gmax * 2 * π)
    (g : ℝ × ℝ) :
    g ∈ gvecAbs b1 b2 gmax ↔ (∃ m n : ℤ, g = comb b1 b2 m n) ∧ √(g.1 ^ 2 + g.2 ^ 2) ≤ 2 * π * gmax := by
  constructor
  · intro h
    have := (C18_sound b1 b2 gmax).2 g h
    exact ⟨this.1, this.2.2 hne⟩
  · rintro ⟨⟨m, n, rfl⟩, h⟩
    refine C18_complete_partial b1 b2 gmax gmax hg hdet ?_ (gmax_le_gmaxEff _ _) m n h
    nlinarith

/-- Square lattice with `b1 = (1,0)`, `b2 = (0,1)` and `2 pi gmax = 3/2` meets the hypotheses. -/
example : ∀ m n : ℤ, √((comb ((1 : ℝ), (0 : ℝ)) (0, 1) m n).1 ^ 2 + (comb ((1 : ℝ), (0 : ℝ)) (0, 1) m n).2 ^ 2)
    ≠ (3 / (4 * π)) * 2 * π := by
  intro m n h
  have hπ := Real.pi_ne_zero
  have e : (3 / (4 * π)) * 2 * π = 3 / 2 := by field_simp; norm_num
  rw [e] at h
  have h2 : (comb ((1 : ℝ), (0 : ℝ)) (0, 1) m n).1 ^ 2 + (comb ((1 : ℝ), (0 : ℝ)) (0, 1) m n).2 ^ 2 = (3 / 2) ^ 2 := by
    rw [← h, Real.sq_sqrt (by positivity)]
  simp only [comb] at h2
  have h3 : 4 * ((m : ℝ) ^ 2 + (n : ℝ) ^ 2) = 9 := by nlinarith
  have h4 : 4 * (m ^ 2 + n ^ 2) = 9 := by exact_mod_cast h3
  omega

/-- **C18 (point symmetry).** Every symmetry of the reciprocal lattice, i.e. every map which keeps
lengths and sends reciprocal lattice vectors to reciprocal lattice vectors, sends the plane-wave
set into itself, under the obliqueness condition at the cut radius. -/
theorem C18_symmetric_partial (b1 b2 : ℝ × ℝ) (gmax : ℝ) (hg : 0 ≤ gmax)
    (hdet : b1.1 * b2.2 - b1.2 * b2.1 ≠ 0)
    (hr : (gmax + (absWindow b1 b2 gmax).length * 1e-10) *
        (√(b1.1 ^ 2 + b1.2 ^ 2) * √(b2.1 ^ 2 + b2.2 ^ 2)) ≤
      2 * gmax * |b1.1 * b2.2 - b1.2 * b2.1|)
    (A : ℝ × ℝ → ℝ × ℝ) (hA : ∀ v, (A v).1 ^ 2 + (A v).2 ^ 2 = v.1 ^ 2 + v.2 ^ 2)
    (hL : ∀ m n : ℤ, ∃ m' n' : ℤ, A (comb b1 b2 m n) = comb b1 b2 m' n')
    (g : ℝ × ℝ) (hmem : g ∈ gvecAbs b1 b2 gmax) : A g ∈ gvecAbs b1 b2 gmax := by
  obtain ⟨i, hi, rfl⟩ := List.mem_map.mp hmem
  rw [mem_absInds] at hi
  obtain ⟨m', n', e⟩ := hL i.1 i.2
  rw [gOf_eq_comb, e]
  refine C18_complete_partial b1 b2 gmax (gmaxEff gmax (absNorms b1 b2 gmax)) hg hdet ?_ le_rfl m' n' ?_
  · refine le_trans (mul_le_mul_of_nonneg_right ?_ (by positivity)) hr
    have := gmaxEff_le gmax (absNorms b1 b2 gmax)
    rwa [absNorms, List.length_map] at this
  · rw [← e, hA, ← gOf_eq_comb]; exact hi.2

/-- The quarter turn is such a symmetry of the square lattice. -/
example : (∀ v : ℝ × ℝ, ((fun v : ℝ × ℝ => (-v.2, v.1)) v).1 ^ 2 + ((fun v : ℝ × ℝ => (-v.2, v.1)) v).2 ^ 2
      = v.1 ^ 2 + v.2 ^ 2) ∧
    ∀ m n : ℤ, ∃ m' n' : ℤ, (fun v : ℝ × ℝ => (-v.2, v.1)) (comb ((1 : ℝ), (0 : ℝ)) (0, 1) m n) =
      comb ((1 : ℝ), (0 : ℝ)) (0, 1) m' n' := by
  refine ⟨fun v => by simp only; ring, fun m n => ⟨-n, m, ?_⟩⟩
  simp [comb]

/-- **C18 is false for very oblique lattices.** With `b1 = (1,0)`, `b2 = (1, 1/10)` and
`2 pi gmax = 1`, the reciprocal lattice vector `3 b2 - 3 b1 = (0, 3/10)` has length `3/10` but is
not among the plane waves. -/
theorem C18_oblique_incomplete :
    let b1 : ℝ × ℝ := (1, 0)
    let b2 : ℝ × ℝ := (1, 1 / 10)
    let gmax : ℝ := 1 / (2 * π)
    comb b1 b2 (-3) 3 = (0, 3 / 10) ∧ (3 / 10 : ℝ) ≤ 2 * π * gmax ∧
      comb b1 b2 (-3) 3 ∉ gvecAbs b1 b2 gmax := by
  intro b1 b2 gmax
  have hπ := Real.pi_ne_zero
  have e : 2 * π * gmax = 1 := by simp only [gmax]; field_simp
  refine ⟨?_, ?_, ?_⟩
  · simp only [comb, b1, b2]; norm_num
  · rw [e]; norm_num
  · intro h
    obtain ⟨i, hi, hg⟩ := List.mem_map.mp h
    rw [← gOf_eq_comb b1 b2 (-3, 3)] at hg
    have hinj := gOf_inj b1 b2 (by simp only [b1, b2]; norm_num) hg
    rw [hinj, mem_absInds] at hi
    have h1 := ((mem_tbtInds _ _ _).mp hi.1).1.1
    have h2 : nmaxOf (4 * π) gmax b1 = 2 := by
      have e4 : 4 * π * gmax / norm2 b1 = 2 := by
        have : norm2 b1 = 1 := by simp [norm2, b1]
        rw [this]; linarith
      unfold nmaxOf; rw [e4]; norm_num
    rw [h2] at h1
    norm_num at h1

/-! ### C19 -/

theorem castTo_conj (r : Bool) (z : ℂ) : castTo r ((starRingEnd ℂ) z) = (starRingEnd ℂ) (castTo r z) := by
  unfold castTo; split <;> simp

theorem castTo_castTo (r : Bool) (z : ℂ) : castTo r (castTo r z) = castTo r z := by
  unfold castTo; split <;> simp

/-- The value at `(I, J)` of the assembled matrix in terms of the (cast) Fourier samples. -/
theorem epsMatTbt_eq (FT : R2 → ℂ) (b1 b2 : R2) (n1 n2 I J : Nat)
    (hFT : ∀ g : R2, FT (-g.1, -g.2) = (starRingEnd ℂ) (FT g))
    (hI : I < (2 * n1 + 1) * (2 * n2 + 1)) (hJ : J < (2 * n1 + 1) * (2 * n2 + 1)) :
    ∃ r1 r2 : Bool,
      r1 = T1real FT ((tbtInds n1 n2).map (gOf b1 b2)) ∧
      ((r2 = T1real FT ((tbtInds n1 n2).map (gOf b1 b2)) ∧
          ∃ k < (2 * n1 + 1) * (2 * n2 + 1), |(FT (((((tbtInds n1 n2).map (gOf b1 b2)).getD I 0).1 - (((tbtInds n1 n2).map (gOf b1 b2)).getD J 0).1),
          ((((tbtInds n1 n2).map (gOf b1 b2)).getD I 0).2 - (((tbtInds n1 n2).map (gOf b1 b2)).getD J 0).2))).im| =
            |(T1raw FT ((tbtInds n1 n2).map (gOf b1 b2)) k).im|) ∨
        (r2 = T2real FT ((tbtInds n1 n2).map (gOf b1 b2)) (2 * n2 + 1) ∧
          ∃ k < (2 * n1 + 1) * (2 * n2 + 1), |(FT (((((tbtInds n1 n2).map (gOf b1 b2)).getD I 0).1 - (((tbtInds n1 n2).map (gOf b1 b2)).getD J 0).1),
          ((((tbtInds n1 n2).map (gOf b1 b2)).getD I 0).2 - (((tbtInds n1 n2).map (gOf b1 b2)).getD J 0).2))).im| =
            |(T2raw FT ((tbtInds n1 n2).map (gOf b1 b2)) (2 * n2 + 1) k).im|)) ∧
      epsMatTbt FT b1 b2 n1 n2 I J = castTo r1 (castTo r2
        (FT (((((tbtInds n1 n2).map (gOf b1 b2)).getD I 0).1 - (((tbtInds n1 n2).map (gOf b1 b2)).getD J 0).1),
          ((((tbtInds n1 n2).map (gOf b1 b2)).getD I 0).2 - (((tbtInds n1 n2).map (gOf b1 b2)).getD J 0).2)))) := by
  set gs := (tbtInds n1 n2).map (gOf b1 b2) with hgs
  set p := 2 * n2 + 1 with hp
  have hp0 : 0 < p := by omega
  have hget : ∀ K, K < (2 * n1 + 1) * p → gs.getD K 0 =
      gOf b1 b2 (((K / p : Nat) : ℤ) - n1, ((K % p : Nat) : ℤ) - n2) := by
    intro K hK
    rw [hgs, List.getD_eq_getElem?_getD, List.getElem?_map, tbtInds_getElem? _ _ _ hK]
    rfl
  have hlen : gs.length = (2 * n1 + 1) * p := by rw [hgs, List.length_map, tbtInds_length]
  -- upper-triangle value
  have upper : ∀ I J, I ≤ J → I < (2 * n1 + 1) * p → J < (2 * n1 + 1) * p →
      ∃ r2 : Bool,
        ((r2 = T1real FT gs ∧ ∃ k < (2 * n1 + 1) * p,
          FT ((gs.getD I 0).1 - (gs.getD J 0).1, (gs.getD I 0).2 - (gs.getD J 0).2) = T1raw FT gs k) ∨
         (r2 = T2real FT gs p ∧ ∃ k < (2 * n1 + 1) * p,
          FT ((gs.getD I 0).1 - (gs.getD J 0).1, (gs.getD I 0).2 - (gs.getD J 0).2) = T2raw FT gs p k)) ∧
        toeplitzTmat (2 * n1 + 1) gs.length (T1real FT gs) (T1tbt FT gs) (T2tbt FT gs p) I J =
        castTo (T1real FT gs) (castTo r2
          (FT ((gs.getD I 0).1 - (gs.getD J 0).1, (gs.getD I 0).2 - (gs.getD J 0).2))) := by
    intro I J hIJ hI hJ
    have hq : gs.length / (2 * n1 + 1) = p := by rw [hlen, Nat.mul_div_cancel_left _ (by omega)]
    have hI1 := div_lt_of_lt_mul' hI
    have hJ1 := div_lt_of_lt_mul' hJ
    have hdiv : I / p ≤ J / p := Nat.div_le_div_right hIJ
    have hI2 : I % p < p := Nat.mod_lt _ hp0
    have hJ2 : J % p < p := Nat.mod_lt _ hp0
    unfold toeplitzTmat
    simp only [hq]
    rw [if_pos ⟨hI1, hJ1, hdiv⟩]
    obtain ⟨m, hm⟩ := Nat.exists_eq_add_of_le hdiv
    have hmlt : m < 2 * n1 + 1 := lt_of_le_of_lt (by rw [hm]; exact Nat.le_add_left _ _) hJ1
    have hm' : J / p - I / p = m := by rw [hm]; exact Nat.add_sub_cancel_left _ _
    rw [hm']
    have big : ∀ k, k < p → m * p + k < (2 * n1 + 1) * p := by
      intro k hk
      have : (m + 1) * p ≤ (2 * n1 + 1) * p := Nat.mul_le_mul_right _ hmlt
      nlinarith
    have dv : ∀ k, k < p → (m * p + k) / p = m := by
      intro k hk
      rw [Nat.add_comm, Nat.add_mul_div_right _ _ hp0, Nat.div_eq_of_lt hk, Nat.zero_add]
    have md : ∀ k, k < p → (m * p + k) % p = k := by
      intro k hk
      rw [Nat.add_comm, Nat.add_mul_mod_self_right, Nat.mod_eq_of_lt hk]
    have h0 : (0 : ℕ) < (2 * n1 + 1) * p := by positivity
    unfold scipyToeplitz
    by_cases hle : J % p ≤ I % p
    · rw [if_pos hle]
      have hk : I % p - J % p < p := by omega
      suffices hraw : FT ((gs.getD I 0).1 - (gs.getD J 0).1, (gs.getD I 0).2 - (gs.getD J 0).2) =
          T2raw FT gs p (m * p + (I % p - J % p)) by
        refine ⟨T2real FT gs p, Or.inr ⟨rfl, _, big _ hk, hraw⟩, ?_⟩
        unfold T2tbt
        rw [hraw]
      unfold T2raw
      rw [dv _ hk, md _ hk]
      have hmp : m * p < (2 * n1 + 1) * p := by simpa using big 0 hp0
      have hkN : I % p - J % p < (2 * n1 + 1) * p := by nlinarith
      rw [hget _ hkN, hget _ hmp, hget _ hI, hget _ hJ, ← gOf_sub, ← gOf_sub]
      refine congrArg FT (congrArg (gOf b1 b2) (Prod.ext ?_ ?_))
      · simp only [Nat.div_eq_of_lt hk, Nat.mul_div_cancel _ hp0, hm]; push_cast; ring
      · simp only [Nat.mod_eq_of_lt hk, Nat.mul_mod_left]; push_cast [hle]; ring
    · rw [if_neg hle]
      have hk : J % p - I % p < p := by omega
      suffices hraw : FT ((gs.getD I 0).1 - (gs.getD J 0).1, (gs.getD I 0).2 - (gs.getD J 0).2) =
          T1raw FT gs (m * p + (J % p - I % p)) by
        refine ⟨T1real FT gs, Or.inl ⟨rfl, _, big _ hk, hraw⟩, ?_⟩
        unfold T1tbt
        rw [hraw]
      unfold T1raw
      rw [hget _ h0, hget _ (big _ hk), hget _ hI, hget _ hJ, ← gOf_sub, ← gOf_sub]
      refine congrArg FT (congrArg (gOf b1 b2) (Prod.ext ?_ ?_))
      · simp only [dv _ hk, Nat.zero_div, hm]; push_cast; ring
      · simp only [md _ hk, Nat.zero_mod]; push_cast [(Nat.le_of_lt (Nat.lt_of_not_le hle))]; ring
  have hexp : epsMatTbt FT b1 b2 n1 n2 I J =
      toeplitzBlock (2 * n1 + 1) gs.length (T1real FT gs) (T1tbt FT gs) (T2tbt FT gs p) I J := rfl
  rw [hexp]
  unfold toeplitzBlock
  by_cases hIJ : I ≤ J
  · obtain ⟨r2, h2, e⟩ := upper I J hIJ hI hJ
    refine ⟨_, r2, rfl, ?_, ?_⟩
    · rcases h2 with ⟨h2, k, hk, e2⟩ | ⟨h2, k, hk, e2⟩
      · exact Or.inl ⟨h2, k, hk, by rw [e2]⟩
      · exact Or.inr ⟨h2, k, hk, by rw [e2]⟩
    rw [if_pos hIJ, if_neg (by omega), e]; simp
  · obtain ⟨r2, h2, e⟩ := upper J I (by omega) hJ hI
    have hsw : FT ((gs.getD I 0).1 - (gs.getD J 0).1, (gs.getD I 0).2 - (gs.getD J 0).2) =
        (starRingEnd ℂ) (FT ((gs.getD J 0).1 - (gs.getD I 0).1, (gs.getD J 0).2 - (gs.getD I 0).2)) := by
      rw [← hFT]; simp
    refine ⟨_, r2, rfl, ?_, ?_⟩
    · rcases h2 with ⟨h2, k, hk, e2⟩ | ⟨h2, k, hk, e2⟩
      · exact Or.inl ⟨h2, k, hk, by rw [hsw, e2]; simp⟩
      · exact Or.inr ⟨h2, k, hk, by rw [hsw, e2]; simp⟩
    rw [if_neg hIJ, if_pos (by omega), e, zero_add, ← castTo_conj, ← castTo_conj, ← hFT]
    simp

/-- The list of plane waves for given `n1max`, `n2max`. -/
noncomputable abbrev tbtG (b1 b2 : R2) (n1 n2 : Nat) : List R2 := (tbtInds n1 n2).map (gOf b1 b2)

/-- **C19.** The matrix assembled in 'tbt' mode is Hermitian for every conjugate-symmetric
transform (that of any real permittivity), whatever rounding to real storage takes place. -/
theorem C19_hermitian (FT : R2 → ℂ) (b1 b2 : R2) (n1 n2 : Nat)
    (hFT : ∀ g : R2, FT (-g.1, -g.2) = (starRingEnd ℂ) (FT g)) :
    (Matrix.of fun I J : Fin ((2 * n1 + 1) * (2 * n2 + 1)) =>
      epsMatTbt FT b1 b2 n1 n2 I J).IsHermitian := by
  ext I J
  simp only [Matrix.conjTranspose_apply, Matrix.of_apply, RCLike.star_def]
  unfold epsMatTbt toeplitzBlock
  simp only
  rcases lt_trichotomy (I : Nat) J with h | h | h
  · rw [if_neg (by omega), if_pos h, if_pos h.le, if_neg (by omega)]; simp
  · have hij : I = J := Fin.ext h
    subst hij
    simp only [le_refl, if_true, lt_irrefl, if_false, map_zero, add_zero]
    obtain ⟨r1, r2, _, _, e⟩ := epsMatTbt_eq FT b1 b2 n1 n2 I I hFT I.2 I.2
    unfold epsMatTbt toeplitzBlock at e
    simp only [le_refl, if_true, lt_irrefl, if_false, map_zero, add_zero, sub_self] at e
    rw [e, ← castTo_conj, ← castTo_conj]
    congr 2
    have := hFT (0, 0)
    simp only [neg_zero] at this
    exact this.symm
  · rw [if_pos h.le, if_neg (by omega), if_neg (by omega), if_pos h]; simp

/-- **C19 (complex storage).** If neither sample array is stored as real, the entry at `(I, J)` is
exactly `FT(g_I - g_J)`. If both are stored as real, it is its real part. Missing from C19: the
case in which only one of the two arrays is stored as real (`C19_mixed_storage_wrong`); and with
real storage the imaginary parts are dropped (bounded in `C19_real_storage_error`). -/
theorem C19_entry_partial (FT : R2 → ℂ) (b1 b2 : R2) (n1 n2 I J : Nat)
    (hFT : ∀ g : R2, FT (-g.1, -g.2) = (starRingEnd ℂ) (FT g))
    (hst : T1real FT (tbtG b1 b2 n1 n2) = T2real FT (tbtG b1 b2 n1 n2) (2 * n2 + 1))
    (gI gJ : R2) (hI : (tbtG b1 b2 n1 n2)[I]? = some gI) (hJ : (tbtG b1 b2 n1 n2)[J]? = some gJ) :
    epsMatTbt FT b1 b2 n1 n2 I J =
      if T1real FT (tbtG b1 b2 n1 n2) then (((FT (gI.1 - gJ.1, gI.2 - gJ.2)).re : ℝ) : ℂ)
      else FT (gI.1 - gJ.1, gI.2 - gJ.2) := by
  have hl : (tbtG b1 b2 n1 n2).length = (2 * n1 + 1) * (2 * n2 + 1) := by simp [tbtInds_length]
  have hI' : I < (2 * n1 + 1) * (2 * n2 + 1) := by rw [← hl]; exact (List.getElem?_eq_some_iff.mp hI).1
  have hJ' : J < (2 * n1 + 1) * (2 * n2 + 1) := by rw [← hl]; exact (List.getElem?_eq_some_iff.mp hJ).1
  obtain ⟨r1, r2, h1, h2, e⟩ := epsMatTbt_eq FT b1 b2 n1 n2 I J hFT hI' hJ'
  have eI : ((tbtInds n1 n2).map (gOf b1 b2)).getD I 0 = gI := by
    rw [List.getD_eq_getElem?_getD]; simp only [tbtG] at hI; rw [hI]; rfl
  have eJ : ((tbtInds n1 n2).map (gOf b1 b2)).getD J 0 = gJ := by
    rw [List.getD_eq_getElem?_getD]; simp only [tbtG] at hJ; rw [hJ]; rfl
  have h12 : r2 = r1 := by
    rcases h2 with h2 | h2
    · rw [h2.1, h1]
    · rw [h2.1, h1]; exact hst.symm
  rw [e, eI, eJ, h12, castTo_castTo, h1]
  rfl

/-- A transform with a phase: `exp(i Gx)`-like samples are stored complex. Here: one with constant
value `1` is stored real in both arrays, so the hypothesis `hst` is met. -/
example (b1 b2 : R2) (n1 n2 : Nat) :
    T1real (fun _ => 1) (tbtG b1 b2 n1 n2) = T2real (fun _ => 1) (tbtG b1 b2 n1 n2) (2 * n2 + 1) := by
  unfold T1real T2real T1raw T2raw
  rfl

theorem storedReal_bound (T : List ℂ) (h : storedReal T = true) (z : ℂ) (hz : z ∈ T) :
    |z.im| < 1e-10 * maxAbs (T.map Complex.re) := by
  simp only [storedReal, decide_eq_true_eq] at h
  exact (le_maxAbs _ _ (List.mem_map.mpr ⟨z, hz, rfl⟩)).trans_lt h

theorem maxAbs_le (l : List ℝ) (B : ℝ) (hB : 0 ≤ B) (h : ∀ x ∈ l, |x| ≤ B) : maxAbs l ≤ B := by
  induction l with
  | nil => exact hB
  | cons a l ih =>
    exact max_le (h a (by simp)) (ih fun x hx => h x (List.mem_cons_of_mem _ hx))

/-- **C19 (real storage).** If both arrays are stored as real, the entry at `(I, J)` differs from
`FT(g_I - g_J)` by less than `1e-10 B` for every bound `B` of the transform's real part. -/
theorem C19_real_storage_error (FT : R2 → ℂ) (b1 b2 : R2) (n1 n2 I J : Nat)
    (hFT : ∀ g : R2, FT (-g.1, -g.2) = (starRingEnd ℂ) (FT g))
    (h1 : T1real FT (tbtG b1 b2 n1 n2) = true) (h2 : T2real FT (tbtG b1 b2 n1 n2) (2 * n2 + 1) = true)
    (B : ℝ) (hB : ∀ g, |(FT g).re| ≤ B)
    (gI gJ : R2) (hI : (tbtG b1 b2 n1 n2)[I]? = some gI) (hJ : (tbtG b1 b2 n1 n2)[J]? = some gJ) :
    ‖epsMatTbt FT b1 b2 n1 n2 I J - FT (gI.1 - gJ.1, gI.2 - gJ.2)‖ < 1e-10 * B := by
  have e := C19_entry_partial FT b1 b2 n1 n2 I J hFT (h1.trans h2.symm) gI gJ hI hJ
  rw [h1, if_pos rfl] at e
  rw [e]
  have hl : (tbtG b1 b2 n1 n2).length = (2 * n1 + 1) * (2 * n2 + 1) := by simp [tbtInds_length]
  have hI' : I < (2 * n1 + 1) * (2 * n2 + 1) := by rw [← hl]; exact (List.getElem?_eq_some_iff.mp hI).1
  have hJ' : J < (2 * n1 + 1) * (2 * n2 + 1) := by rw [← hl]; exact (List.getElem?_eq_some_iff.mp hJ).1
  obtain ⟨r1, r2, _, hs, _⟩ := epsMatTbt_eq FT b1 b2 n1 n2 I J hFT hI' hJ'
  have eI : ((tbtInds n1 n2).map (gOf b1 b2)).getD I 0 = gI := by
    rw [List.getD_eq_getElem?_getD]; simp only [tbtG] at hI; rw [hI]; rfl
  have eJ : ((tbtInds n1 n2).map (gOf b1 b2)).getD J 0 = gJ := by
    rw [List.getD_eq_getElem?_getD]; simp only [tbtG] at hJ; rw [hJ]; rfl
  rw [eI, eJ] at hs
  have hn : ‖(((FT (gI.1 - gJ.1, gI.2 - gJ.2)).re : ℝ) : ℂ) - FT (gI.1 - gJ.1, gI.2 - gJ.2)‖ =
      |(FT (gI.1 - gJ.1, gI.2 - gJ.2)).im| := by
    have : (((FT (gI.1 - gJ.1, gI.2 - gJ.2)).re : ℝ) : ℂ) - FT (gI.1 - gJ.1, gI.2 - gJ.2) =
        ((-(FT (gI.1 - gJ.1, gI.2 - gJ.2)).im : ℝ) : ℂ) * Complex.I := by
      apply Complex.ext <;> simp
    rw [this, norm_mul, Complex.norm_I, mul_one, Complex.norm_real, Real.norm_eq_abs, abs_neg]
  rw [hn]
  have hB0 : 0 ≤ B := (abs_nonneg _).trans (hB (0, 0))
  rcases hs with ⟨_, k, hk, ek⟩ | ⟨_, k, hk, ek⟩
  · rw [ek]
    refine (storedReal_bound _ h1 _ (List.mem_map.mpr ⟨k, by simpa [hl] using hk, rfl⟩)).trans_le ?_
    apply mul_le_mul_of_nonneg_left _ (by norm_num)
    apply maxAbs_le _ _ hB0
    intro x hx
    obtain ⟨z, hz, rfl⟩ := List.mem_map.mp hx
    obtain ⟨j, _, rfl⟩ := List.mem_map.mp hz
    exact hB _
  · rw [ek]
    refine (storedReal_bound _ h2 _ (List.mem_map.mpr ⟨k, by simpa [hl] using hk, rfl⟩)).trans_le ?_
    apply mul_le_mul_of_nonneg_left _ (by norm_num)
    apply maxAbs_le _ _ hB0
    intro x hx
    obtain ⟨z, hz, rfl⟩ := List.mem_map.mp hx
    obtain ⟨j, _, rfl⟩ := List.mem_map.mp hz
    exact hB _

/-- A transform that alternates between the quadrants: real (`1`) where `gx gy >= 0`, imaginary
where `gx gy < 0`. -/
noncomputable def quadrantFT (g : R2) : ℂ :=
  open Classical in
  if g.1 * g.2 < 0 then (if g.1 < 0 then Complex.I else -Complex.I) else 1

theorem quadrantFT_conj (g : R2) : quadrantFT (-g.1, -g.2) = (starRingEnd ℂ) (quadrantFT g) := by
  unfold quadrantFT
  simp only [neg_mul_neg]
  by_cases h : g.1 * g.2 < 0
  · rw [if_pos h, if_pos h]
    by_cases h2 : g.1 < 0
    · rw [if_pos h2, if_neg (by linarith)]; simp
    · have h3 : g.1 ≠ 0 := by intro h0; rw [h0] at h; simp at h
      have h4 : 0 < g.1 := lt_of_le_of_ne (not_lt.mp h2) (Ne.symm h3)
      rw [if_neg h2, if_pos (by linarith)]; simp
  · rw [if_neg h, if_neg h]; simp

theorem storedReal_of_one (T : List ℂ) (hne : T ≠ []) (h : ∀ z ∈ T, z = 1) : storedReal T = true := by
  simp only [storedReal, decide_eq_true_eq]
  have h1 : maxAbs (T.map Complex.im) ≤ 0 := by
    apply maxAbs_le _ _ le_rfl
    intro x hx
    obtain ⟨z, hz, rfl⟩ := List.mem_map.mp hx
    rw [h z hz]; simp
  have h2 : 1 ≤ maxAbs (T.map Complex.re) := by
    obtain ⟨z, hz⟩ := List.exists_mem_of_ne_nil _ hne
    have := le_maxAbs _ _ (List.mem_map.mpr ⟨z, hz, rfl⟩ : z.re ∈ T.map Complex.re)
    rw [h z hz] at this
    simpa using this
  have : (0 : ℝ) < 1e-10 * maxAbs (T.map Complex.re) := by positivity
  linarith

theorem tbtInds_one : tbtInds 1 1 =
    [(-1, -1), (-1, 0), (-1, 1), (0, -1), (0, 0), (0, 1), (1, -1), (1, 0), (1, 1)] := by decide

/-- **C19 fails with mixed storage.** The sample arrays cover complementary quadrants of
difference vectors. If the transform is real on the first and not on the second, the matrix gets
the (real) type of the first array and the imaginary parts of the second are lost: the entry at
`(1, 3)` is `0` although the transform of the difference is `i`. -/
theorem C19_mixed_storage_wrong :
    (∀ g, quadrantFT (-g.1, -g.2) = (starRingEnd ℂ) (quadrantFT g)) ∧
    (tbtG (1, 0) (0, 1) 1 1)[1]? = some ((-1, 0) : R2) ∧ (tbtG (1, 0) (0, 1) 1 1)[3]? = some ((0, -1) : R2) ∧
    quadrantFT (-1 - 0, 0 - -1) = Complex.I ∧
    epsMatTbt quadrantFT (1, 0) (0, 1) 1 1 1 3 = 0 := by
  have hgs : (tbtInds 1 1).map (gOf (1, 0) (0, 1)) =
      [(-1, -1), (-1, 0), (-1, 1), (0, -1), (0, 0), (0, 1), (1, -1), (1, 0), (1, 1)] := by
    rw [tbtInds_one]; simp [gOf]
  have hq : quadrantFT (-1 - 0, 0 - -1) = Complex.I := by
    unfold quadrantFT; norm_num
  refine ⟨quadrantFT_conj, ?_, ?_, hq, ?_⟩
  · simp only [tbtG]; rw [hgs]; simp
  · simp only [tbtG]; rw [hgs]; simp
  · obtain ⟨r1, r2, h1, _, e⟩ := epsMatTbt_eq quadrantFT (1, 0) (0, 1) 1 1 1 3 quadrantFT_conj
      (by norm_num) (by norm_num)
    have hr : T1real quadrantFT ((tbtInds 1 1).map (gOf (1, 0) (0, 1))) = true := by
      unfold T1real
      rw [hgs]
      apply storedReal_of_one
      · simp
      · intro z hz
        obtain ⟨k, hk, rfl⟩ := List.mem_map.mp hz
        have hk9 : k < 9 := by simpa using hk
        unfold T1raw quadrantFT
        interval_cases k <;> norm_num
    rw [e, h1, hr, hgs]
    have : quadrantFT (([(-1, -1), (-1, 0), (-1, 1), (0, -1), (0, 0), (0, 1), (1, -1), (1, 0), ((1, 1) : R2)].getD 1 0).1 -
        ([(-1, -1), (-1, 0), (-1, 1), (0, -1), (0, 0), (0, 1), (1, -1), (1, 0), ((1, 1) : R2)].getD 3 0).1,
        ([(-1, -1), (-1, 0), (-1, 1), (0, -1), (0, 0), (0, 1), (1, -1), (1, 0), ((1, 1) : R2)].getD 1 0).2 -
        ([(-1, -1), (-1, 0), (-1, 1), (0, -1), (0, 0), (0, 1), (1, -1), (1, 0), ((1, 1) : R2)].getD 3 0).2) = Complex.I := by
      rw [← hq]; simp
    rw [this]
    unfold castTo
    cases r2 <;> simp

/-- A transform of mean `2` with the single pair of components at `(1, -1)` and `(-1, 1)`: the
permittivity `2 + 2 cos(x - y)`. -/
noncomputable def diagFT (g : R2) : ℂ :=
  open Classical in
  if g = (0, 0) then 2 else if g = (1, -1) ∨ g = (-1, 1) then 1 else 0

/-- **C19: the homogeneity test of 'tbt' looks at one quadrant only.** For the layer with
permittivity `2 + 2 cos(x - y)` the test `sum |T1[1:]| < 1e-10` succeeds, so the layer is treated
as homogeneous: the entry `(1, 3)` of the matrix used is `0` instead of `FT(g_1 - g_3) = 1`. -/
theorem C19_homogeneity_test_wrong :
    (∀ g, diagFT (-g.1, -g.2) = (starRingEnd ℂ) (diagFT g)) ∧
    (tbtG (1, 0) (0, 1) 1 1)[1]? = some ((-1, 0) : R2) ∧
    (tbtG (1, 0) (0, 1) 1 1)[3]? = some ((0, -1) : R2) ∧
    diagFT (-1 - 0, 0 - -1) = 1 ∧
    epsUsedTbt diagFT (1, 0) (0, 1) 1 1 1 3 = 0 := by
  have hgs : (tbtInds 1 1).map (gOf (1, 0) (0, 1)) =
      [(-1, -1), (-1, 0), (-1, 1), (0, -1), (0, 0), (0, 1), (1, -1), (1, 0), (1, 1)] := by
    rw [tbtInds_one]; simp [gOf]
  refine ⟨?_, ?_, ?_, ?_, ?_⟩
  · intro g
    obtain ⟨x, y⟩ := g
    unfold diagFT
    simp only [Prod.mk.injEq, neg_eq_zero]
    have e1 : (-x = 1 ∧ -y = -1 ∨ -x = -1 ∧ -y = 1) ↔ (x = 1 ∧ y = -1 ∨ x = -1 ∧ y = 1) := by
      constructor
      · rintro (⟨h1, h2⟩ | ⟨h1, h2⟩)
        · right; constructor <;> linarith
        · left; constructor <;> linarith
      · rintro (⟨h1, h2⟩ | ⟨h1, h2⟩)
        · right; constructor <;> linarith
        · left; constructor <;> linarith
    by_cases h : x = 0 ∧ y = 0
    · rw [if_pos h, if_pos h]; exact (map_ofNat (starRingEnd ℂ) 2).symm
    · rw [if_neg h, if_neg h]
      by_cases h' : x = 1 ∧ y = -1 ∨ x = -1 ∧ y = 1
      · rw [if_pos (e1.mpr h'), if_pos h']; simp
      · rw [if_neg (fun h => h' (e1.mp h)), if_neg h']; simp
  · simp only [tbtG]; rw [hgs]; simp
  · simp only [tbtG]; rw [hgs]; simp
  · unfold diagFT; norm_num
  · have hhom : homTbt diagFT (1, 0) (0, 1) 1 1 := by
      unfold homTbt
      simp only
      rw [hgs]
      have hz : ∀ x ∈ ((List.range 9).tail.map fun (k : Nat) => ‖T1tbt diagFT
          [(-1, -1), (-1, 0), (-1, 1), (0, -1), (0, 0), (0, 1), (1, -1), (1, 0), ((1, 1) : R2)] k‖), x = 0 := by
        intro x hx
        obtain ⟨k, hk, rfl⟩ := List.mem_map.mp hx
        have hk1 : k ∈ [1, 2, 3, 4, 5, 6, 7, 8] := by simpa [List.range_succ] using hk
        have : T1raw diagFT
          [(-1, -1), (-1, 0), (-1, 1), (0, -1), (0, 0), (0, 1), (1, -1), (1, 0), ((1, 1) : R2)] k = 0 := by
          unfold T1raw diagFT
          simp only [List.mem_cons, List.not_mem_nil, or_false] at hk1
          rcases hk1 with rfl | rfl | rfl | rfl | rfl | rfl | rfl | rfl <;> norm_num
        unfold T1tbt
        rw [this]; unfold castTo; split <;> simp
      have : ((List.range 9).tail.map fun (k : Nat) => ‖T1tbt diagFT
          [(-1, -1), (-1, 0), (-1, 1), (0, -1), (0, 0), (0, 1), (1, -1), (1, 0), ((1, 1) : R2)] k‖).sum = 0 :=
        List.sum_eq_zero hz
      have e9 : ([(-1, -1), (-1, 0), (-1, 1), (0, -1), (0, 0), (0, 1), (1, -1), (1, 0), ((1, 1) : R2)]).length = 9 := rfl
      rw [e9, this]; norm_num
    unfold epsUsedTbt
    simp only
    rw [if_pos hhom]; simp

/-- **C19: layers taken for homogeneous.** If the test of 'tbt' succeeds, the code inverts the matrix with the mean
permittivity (the transform at the zero vector) on the diagonal and zero elsewhere. -/
theorem C19_homogeneous (FT : R2 → ℂ) (b1 b2 : R2) (n1 n2 : Nat)
    (hFT : ∀ g : R2, FT (-g.1, -g.2) = (starRingEnd ℂ) (FT g)) (hh : homTbt FT b1 b2 n1 n2) (I J : Nat) :
    epsUsedTbt FT b1 b2 n1 n2 I J = if I = J then FT (0, 0) else 0 := by
  have h0 : (FT (0, 0)).im = 0 := by
    have := hFT (0, 0)
    simp only [neg_zero] at this
    exact Complex.conj_eq_iff_im.1 this.symm
  unfold epsUsedTbt
  simp only
  rw [if_pos hh]
  have : T1tbt FT ((tbtInds n1 n2).map (gOf b1 b2)) 0 = FT (0, 0) := by
    unfold T1tbt T1raw castTo
    simp only [sub_self]
    split_ifs
    · exact Complex.ext rfl h0.symm
    · rfl
  rw [this]

/-- The layer with permittivity `2`. -/
example : epsUsedTbt (fun g => open Classical in if g = (0, 0) then 2 else 0) (1, 0) (0, 1) 1 1 4 4 = 2 := by
  rw [C19_homogeneous]
  · simp
  · intro g
    simp only [Prod.mk.injEq, neg_eq_zero, Prod.ext_iff]
    split_ifs
    · exact (map_ofNat (starRingEnd ℂ) 2).symm
    · simp
  · unfold homTbt
    simp only
    rw [show (tbtInds 1 1).map (gOf (1, 0) (0, 1)) =
      [(-1, -1), (-1, 0), (-1, 1), (0, -1), (0, 0), (0, 1), (1, -1), (1, 0), (1, 1)] by rw [tbtInds_one]; simp [gOf]]
    refine lt_of_le_of_lt (le_of_eq (List.sum_eq_zero ?_)) (by norm_num : (0 : ℝ) < 1e-10)
    intro x hx
    obtain ⟨k, hk, rfl⟩ := List.mem_map.mp hx
    have hk1 : k ∈ [1, 2, 3, 4, 5, 6, 7, 8] := by simpa [List.range_succ] using hk
    unfold T1tbt T1raw castTo
    simp only [List.mem_cons, List.not_mem_nil, or_false] at hk1
    rcases hk1 with rfl | rfl | rfl | rfl | rfl | rfl | rfl | rfl <;> norm_num

/-! ### C20 -/

/-- **C20.** The matrix assembled from half of the distinct differences is exactly the difference
matrix, entry `FT(G_j - G_i)` at `(i, j)`, for every list of plane waves. -/
theorem C20_entry (FT : R2 → ℂ) (b1 b2 : R2) (inds : List (ℤ × ℤ))
    (hFT : ∀ g : R2, FT (-g.1, -g.2) = (starRingEnd ℂ) (FT g)) (i j : Nat) (gi gj : R2)
    (hi : (inds.map fun k => comb b1 b2 k.1 k.2)[i]? = some gi)
    (hj : (inds.map fun k => comb b1 b2 k.1 k.2)[j]? = some gj) :
    epsMatAbs FT b1 b2 inds i j = FT (gj.1 - gi.1, gj.2 - gi.2) := by
  rw [List.getElem?_map, Option.map_eq_some_iff] at hi hj
  obtain ⟨a, ha, rfl⟩ := hi
  obtain ⟨b, hb, rfl⟩ := hj
  have hne : inds ≠ [] := by rintro rfl; simp at ha
  have hmem : (b.1 - a.1, b.2 - a.2) ∈ absUnique inds :=
    (mem_absUnique _ _).mpr ⟨a, List.mem_of_getElem? ha, b, List.mem_of_getElem? hb, rfl⟩
  unfold epsMatAbs
  simp only [List.getD_eq_getElem?_getD, ha, hb, Option.getD_some]
  have hlt := List.idxOf_lt_length_of_mem hmem
  rw [epsUniq_getElem FT b1 b2 inds hne hFT _ hlt, Option.getD_some, List.getElem_idxOf, gOf_sub,
    gOf_eq_comb, gOf_eq_comb]

/-- **C20.** It is Hermitian. -/
theorem C20_hermitian (FT : R2 → ℂ) (b1 b2 : R2) (inds : List (ℤ × ℤ))
    (hFT : ∀ g : R2, FT (-g.1, -g.2) = (starRingEnd ℂ) (FT g)) :
    (Matrix.of fun i j : Fin inds.length => epsMatAbs FT b1 b2 inds i j).IsHermitian := by
  ext i j
  have hi : (inds.map fun k => comb b1 b2 k.1 k.2)[(i : Nat)]? = some (comb b1 b2 inds[i].1 inds[i].2) := by
    simp
  have hj : (inds.map fun k => comb b1 b2 k.1 k.2)[(j : Nat)]? = some (comb b1 b2 inds[j].1 inds[j].2) := by
    simp
  simp only [Matrix.conjTranspose_apply, Matrix.of_apply, RCLike.star_def]
  rw [C20_entry FT b1 b2 inds hFT _ _ _ _ hj hi, C20_entry FT b1 b2 inds hFT _ _ _ _ hi hj, ← hFT]
  simp

/-- The transform `exp(-i G.t)`, of a point at `t`, is conjugate-symmetric. -/
example (t : R2) : ∀ g : R2, (fun g : R2 => Complex.exp (-(Complex.I * ((g.1 * t.1 + g.2 * t.2 : ℝ) : ℂ))))
    (-g.1, -g.2) = (starRingEnd ℂ) ((fun g : R2 =>
      Complex.exp (-(Complex.I * ((g.1 * t.1 + g.2 * t.2 : ℝ) : ℂ)))) g) := by
  intro g
  simp only [← Complex.exp_conj, map_neg, map_mul, Complex.conj_I, Complex.conj_ofReal]
  congr 1
  push_cast
  ring

/-- **C20.** The shortcut for homogeneous layers is harmless: the matrix which is inverted differs
from the full difference matrix by less than `1e-10` in every entry (plane waves at least `1e-10`
apart). -/
theorem C20_used (FT : R2 → ℂ) (b1 b2 : R2) (inds : List (ℤ × ℤ))
    (hFT : ∀ g : R2, FT (-g.1, -g.2) = (starRingEnd ℂ) (FT g)) (i j : Nat) (gi gj : R2)
    (hi : (inds.map fun k => comb b1 b2 k.1 k.2)[i]? = some gi)
    (hj : (inds.map fun k => comb b1 b2 k.1 k.2)[j]? = some gj)
    (hsep : i ≠ j → 1e-10 < √((gj.1 - gi.1) ^ 2 + (gj.2 - gi.2) ^ 2)) :
    ‖epsUsedAbs FT b1 b2 inds i j - FT (gj.1 - gi.1, gj.2 - gi.2)‖ < 1e-10 := by
  classical
  have e := C20_entry FT b1 b2 inds hFT i j gi gj hi hj
  have hlen : (inds.map fun k => comb b1 b2 k.1 k.2).length = inds.length := by simp
  have hil : i < inds.length := by rw [← hlen]; exact (List.getElem?_eq_some_iff.mp hi).1
  have hjl : j < inds.length := by rw [← hlen]; exact (List.getElem?_eq_some_iff.mp hj).1
  unfold epsUsedAbs
  by_cases hh : homAbs FT b1 b2 inds
  · rw [if_pos hh]
    by_cases hij : i = j
    · subst hij
      have : gi = gj := by rw [hi] at hj; exact Option.some.inj hj
      subst this
      have h0 : 0 < inds.length := by omega
      have h00 : (inds.map fun k => comb b1 b2 k.1 k.2)[0]? = some (comb b1 b2 inds[0].1 inds[0].2) := by
        simp [h0]
      rw [if_pos rfl, C20_entry FT b1 b2 inds hFT 0 0 _ _ h00 h00]
      norm_num
    · rw [if_neg hij, zero_sub, norm_neg, ← e]
      unfold homAbs at hh
      refine lt_of_le_of_lt ?_ hh
      have hd : norm2 (gOf b1 b2 ((inds.getD j 0).1 - (inds.getD i 0).1,
          (inds.getD j 0).2 - (inds.getD i 0).2)) = √((gj.1 - gi.1) ^ 2 + (gj.2 - gi.2) ^ 2) := by
        rw [List.getElem?_map, Option.map_eq_some_iff] at hi hj
        obtain ⟨a, ha, rfl⟩ := hi
        obtain ⟨b, hb, rfl⟩ := hj
        simp only [List.getD_eq_getElem?_getD, ha, hb, Option.getD_some]
        rw [gOf_sub, gOf_eq_comb, gOf_eq_comb]; rfl
      have hs := hsep hij
      rw [← hd] at hs
      refine le_trans ?_ (Finset.single_le_sum (f := fun i => ∑ j ∈ Finset.range inds.length,
        (if 1e-10 < norm2 (gOf b1 b2 ((inds.getD j 0).1 - (inds.getD i 0).1,
        (inds.getD j 0).2 - (inds.getD i 0).2)) then ‖epsMatAbs FT b1 b2 inds i j‖ else 0)) ?_
        (Finset.mem_range.mpr hil))
      · refine le_trans ?_ (Finset.single_le_sum (f := fun j =>
          (if 1e-10 < norm2 (gOf b1 b2 ((inds.getD j 0).1 - (inds.getD i 0).1,
          (inds.getD j 0).2 - (inds.getD i 0).2)) then ‖epsMatAbs FT b1 b2 inds i j‖ else 0)) ?_
          (Finset.mem_range.mpr hjl))
        · rw [if_pos hs]
        · intro k _; split
          · exact norm_nonneg _
          · exact le_rfl
      · intro k _
        apply Finset.sum_nonneg
        intro l _; split
        · exact norm_nonneg _
        · exact le_rfl
  · rw [if_neg hh, e]; norm_num

/-! ### C21 -/

/-- **C21.** On the same plane waves (the 'tbt' parallelogram), with samples stored complex, the
'abs' matrix is the transpose and the complex conjugate of the 'tbt' one, and both have the same
characteristic polynomial, hence the same eigenvalues. Missing from C21: samples stored as real
although not all of them are (see `C19_real_storage_error`, `C19_mixed_storage_wrong`). -/
theorem C21_transpose_partial (FT : R2 → ℂ) (b1 b2 : R2) (n1 n2 : Nat)
    (hFT : ∀ g : R2, FT (-g.1, -g.2) = (starRingEnd ℂ) (FT g))
    (h1 : T1real FT (tbtG b1 b2 n1 n2) = false)
    (h2 : T2real FT (tbtG b1 b2 n1 n2) (2 * n2 + 1) = false) :
    let N := (2 * n1 + 1) * (2 * n2 + 1)
    let Mtbt : Matrix (Fin N) (Fin N) ℂ := Matrix.of fun I J => epsMatTbt FT b1 b2 n1 n2 I J
    let Mabs : Matrix (Fin N) (Fin N) ℂ := Matrix.of fun I J => epsMatAbs FT b1 b2 (tbtInds n1 n2) I J
    Mabs = Mtbt.transpose ∧ Mabs = Mtbt.map (starRingEnd ℂ) ∧ Mabs.charpoly = Mtbt.charpoly := by
  intro N Mtbt Mabs
  have hT : Mabs = Mtbt.transpose := by
    ext I J
    simp only [Mabs, Mtbt, Matrix.transpose_apply, Matrix.of_apply]
    have hlt : ∀ K : Fin N, (K : Nat) < (tbtG b1 b2 n1 n2).length := by
      intro K; simp [tbtInds_length, N] at *
    obtain ⟨gI, hI⟩ : ∃ g, (tbtG b1 b2 n1 n2)[(I : Nat)]? = some g := ⟨_, List.getElem?_eq_getElem (hlt I)⟩
    obtain ⟨gJ, hJ⟩ : ∃ g, (tbtG b1 b2 n1 n2)[(J : Nat)]? = some g := ⟨_, List.getElem?_eq_getElem (hlt J)⟩
    have hmap : (tbtInds n1 n2).map (fun k => comb b1 b2 k.1 k.2) = tbtG b1 b2 n1 n2 := by
      apply List.map_congr_left; intro k _; exact (gOf_eq_comb _ _ _).symm
    rw [C19_entry_partial FT b1 b2 n1 n2 J I hFT (h1.trans h2.symm) _ _ hJ hI, h1]
    rw [← hmap] at hI hJ
    rw [C20_entry FT b1 b2 (tbtInds n1 n2) hFT I J _ _ hI hJ]
    simp
  refine ⟨hT, ?_, ?_⟩
  · have hH := C19_hermitian FT b1 b2 n1 n2 hFT
    have : Mtbt.transpose = Mtbt.map (starRingEnd ℂ) := by
      have e : Mtbt.conjTranspose = Mtbt := hH
      ext I J
      have := congrFun (congrFun e I) J
      simp only [Matrix.conjTranspose_apply, RCLike.star_def] at this
      rw [Matrix.transpose_apply, Matrix.map_apply, ← this]
      simp
    rw [hT, this]
  · rw [hT, Matrix.charpoly_transpose]

theorem storedReal_of_re_zero (T : List ℂ) (h : ∀ z ∈ T, z.re = 0) : storedReal T = false := by
  simp only [storedReal, decide_eq_false_iff_not, not_lt]
  have h1 : maxAbs (T.map Complex.re) ≤ 0 := by
    apply maxAbs_le _ _ le_rfl
    intro x hx
    obtain ⟨z, hz, rfl⟩ := List.mem_map.mp hx
    rw [h z hz]; simp
  have h2 : ∀ l : List ℝ, 0 ≤ maxAbs l := by
    intro l; cases l with
    | nil => exact le_rfl
    | cons a l => exact (abs_nonneg a).trans (le_max_left _ _)
  have := h2 (T.map Complex.im)
  nlinarith [h2 (T.map Complex.re)]

/-- An odd imaginary transform meets the hypotheses on every parallelogram. -/
example (b1 b2 : R2) (n1 n2 : Nat) :
    (∀ g : R2, (fun g : R2 => Complex.I * (g.1 : ℂ)) (-g.1, -g.2) =
      (starRingEnd ℂ) ((fun g : R2 => Complex.I * (g.1 : ℂ)) g)) ∧
    T1real (fun g => Complex.I * (g.1 : ℂ)) (tbtG b1 b2 n1 n2) = false ∧
    T2real (fun g => Complex.I * (g.1 : ℂ)) (tbtG b1 b2 n1 n2) (2 * n2 + 1) = false := by
  refine ⟨fun g => by simp, ?_, ?_⟩
  · apply storedReal_of_re_zero
    intro z hz
    obtain ⟨k, _, rfl⟩ := List.mem_map.mp hz
    simp [T1raw]
  · apply storedReal_of_re_zero
    intro z hz
    obtain ⟨k, _, rfl⟩ := List.mem_map.mp hz
    simp [T2raw]

/-- **C21 (real storage).** The same if all samples are real. -/
theorem C21_transpose_real_partial (FT : R2 → ℂ) (b1 b2 : R2) (n1 n2 : Nat)
    (hFT : ∀ g : R2, FT (-g.1, -g.2) = FT g) (hre : ∀ g, (FT g).im = 0) :
    let N := (2 * n1 + 1) * (2 * n2 + 1)
    let Mtbt : Matrix (Fin N) (Fin N) ℂ := Matrix.of fun I J => epsMatTbt FT b1 b2 n1 n2 I J
    let Mabs : Matrix (Fin N) (Fin N) ℂ := Matrix.of fun I J => epsMatAbs FT b1 b2 (tbtInds n1 n2) I J
    Mabs = Mtbt := by
  intro N Mtbt Mabs
  have hz : ∀ g, (((FT g).re : ℝ) : ℂ) = FT g := fun g => by
    apply Complex.ext
    · simp
    · simp [hre g]
  have hcast : ∀ (r : Bool) g, castTo r (FT g) = FT g := by
    intro r g; unfold castTo; split
    · exact hz g
    · rfl
  have hconj : ∀ g : R2, FT (-g.1, -g.2) = (starRingEnd ℂ) (FT g) := by
    intro g; rw [hFT, ← hz g, Complex.conj_ofReal]
  ext I J
  simp only [Mabs, Mtbt, Matrix.of_apply]
  obtain ⟨r1, r2, _, _, e⟩ := epsMatTbt_eq FT b1 b2 n1 n2 I J hconj I.2 J.2
  rw [e, hcast, hcast]
  have hlt : ∀ K : Fin N, (K : Nat) < (tbtG b1 b2 n1 n2).length := by
    intro K; simp [tbtInds_length, N] at *
  have hmap : (tbtInds n1 n2).map (fun k => comb b1 b2 k.1 k.2) = tbtG b1 b2 n1 n2 := by
    apply List.map_congr_left; intro k _; exact (gOf_eq_comb _ _ _).symm
  obtain ⟨gI, hI⟩ : ∃ g, (tbtG b1 b2 n1 n2)[(I : Nat)]? = some g := ⟨_, List.getElem?_eq_getElem (hlt I)⟩
  obtain ⟨gJ, hJ⟩ : ∃ g, (tbtG b1 b2 n1 n2)[(J : Nat)]? = some g := ⟨_, List.getElem?_eq_getElem (hlt J)⟩
  have hI2 := hI
  have hJ2 := hJ
  rw [← hmap] at hI hJ
  rw [C20_entry FT b1 b2 (tbtInds n1 n2) hconj I J _ _ hI hJ, ← hFT]
  simp only [tbtG] at hI2 hJ2
  rw [List.getD_eq_getElem?_getD, List.getD_eq_getElem?_getD, hI2, hJ2]
  simp

/-- The constant transform meets the hypotheses. -/
example : ∀ g : R2, ((fun _ : R2 => (3 : ℂ)) g).im = 0 := by intro g; simp

end Legume
