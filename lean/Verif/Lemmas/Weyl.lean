import Verif.Props.GmeOrder

/-!
Perturbation of the frequencies by a perturbation of the matrix (Weyl's inequality).
-/
open Matrix
open scoped ComplexOrder ComplexConjugate

namespace Legume

open Spec

theorem qform_add_smul_one {n : ℕ} (A : Matrix (Fin n) (Fin n) ℂ) (c : ℝ) (x : Fin n → ℂ) :
    qform (A + (c : ℂ) • 1) x = qform A x + c * ∑ i, ‖x i‖ ^ 2 := by
  rw [← qform_one, qform, qform, qform, add_mulVec, dotProduct_add, Complex.add_re, smul_mulVec, dotProduct_smul,
    smul_eq_mul, Complex.re_ofReal_mul]

/-- Counting the eigenvalues below a bound, with a margin. -/
theorem eigh_count_shift {n : ℕ} {A V B W : Matrix (Fin n) (Fin n) ℂ} {w u : Fin n → ℝ} (hA : IsEigh A w V)
    (hB : IsEigh B u W) (d : ℝ) (h : ∀ x, qform A x ≤ qform B x + d * ∑ i, ‖x i‖ ^ 2) (t : ℝ) :
    (Finset.univ.filter fun i => u i ≤ t).card ≤ (Finset.univ.filter fun i => w i ≤ t + d).card := by
  have := eigh_count (isEigh_shift hA (-d)) hB LinearMap.id (fun x => rfl) (fun x => by
    rw [LinearMap.id_apply, qform_add_smul_one]
    linarith [h x]) t
  refine this.trans (le_of_eq ?_)
  congr 1
  ext i
  simp only [Finset.mem_filter, Finset.mem_univ, true_and]
  constructor <;> intro h <;> linarith

/-- Squared angular frequencies, sorted. -/
theorem solvePwe_squares (argsort : List ℝ → List ℕ) (hs : ∀ l, IsArgsort l (argsort l)) (w : List ℝ) (numeig : ℕ) :
    ∃ l : List ℝ, l.Perm (w.map fun x => |x - 1|) ∧ l.Pairwise (· ≤ ·) ∧
      (solvePwe argsort w numeig).freq.map (fun f => (2 * Real.pi * f) ^ 2) = l.take numeig := by
  have hp : ((w.map freqOf).mergeSort).Perm (w.map freqOf) := List.mergeSort_perm _ _
  have hso : ((w.map freqOf).mergeSort).Pairwise (· ≤ ·) := List.pairwise_mergeSort' (· ≤ ·) _
  have h0 : ∀ x ∈ (w.map freqOf).mergeSort, 0 ≤ x := by
    intro x hx
    obtain ⟨y, -, rfl⟩ := List.mem_map.1 (List.mem_mergeSort.1 hx)
    exact freqOf_nonneg y
  refine ⟨((w.map freqOf).mergeSort).map fun f => (2 * Real.pi * f) ^ 2, ?_, ?_, ?_⟩
  · refine (hp.map _).trans (List.Perm.of_eq ?_)
    rw [List.map_map]
    exact List.map_congr_left fun x _ => freqOf_sq x
  · rw [List.pairwise_map]
    refine hso.imp_of_mem fun ha _ hab => ?_
    have := h0 _ ha
    have := Real.pi_pos
    gcongr
  · rw [solvePwe_freq argsort hs w _ hp hso, List.map_take]

/-- Two runs report squared angular frequencies that differ by at most `d`. -/
def Near (d : ℝ) (a a' : KRes) : Prop :=
  a.freq.length = a'.freq.length ∧ ∀ (m : ℕ) (h : m < a.freq.length) (h' : m < a'.freq.length),
    |(2 * Real.pi * a.freq[m]) ^ 2 - (2 * Real.pi * a'.freq[m]) ^ 2| ≤ d

theorem sorted_shift {l l' : List ℝ} (hs : l.Pairwise (· ≤ ·)) (hs' : l'.Pairwise (· ≤ ·)) (d : ℝ)
    (hc : ∀ t, l'.countP (fun x => decide (x ≤ t)) ≤ l.countP (fun x => decide (x ≤ t + d)))
    (i : ℕ) (hi : i < l.length) (hi' : i < l'.length) : l[i] ≤ l'[i] + d := by
  have := sorted_le_of_count (l.map fun x => x - d) l' (by
    rw [List.pairwise_map]; exact hs.imp fun h => by linarith) hs' (fun t => ?_) i (by simpa using hi) hi'
  · rw [List.getElem_map] at this
    linarith
  · refine (hc t).trans (le_of_eq ?_)
    rw [List.countP_map]
    refine List.countP_congr fun x _ => ?_
    simp only [Function.comp, decide_eq_true_eq]
    constructor <;> intro h <;> linarith

theorem countP_map_ofFn {n : ℕ} (w : Fin n → ℝ) (f : ℝ → ℝ) (t : ℝ) :
    ((List.ofFn w).map f).countP (fun x => decide (x ≤ t)) = (Finset.univ.filter fun i => f (w i) ≤ t).card := by
  rw [List.map_ofFn]
  exact countP_ofFn (f ∘ w) t

/-- **Perturbation.** If `B` differs from the positive semidefinite `A` by at most `d` as a quadratic form, the squared
angular frequencies, in ascending order, differ by at most `d`, even if `B` has negative eigenvalues. -/
theorem gme_near (argsort : List ℝ → List ℕ) (hs : ∀ l, IsArgsort l (argsort l))
    (eigh : ∀ n, Matrix (Fin n) (Fin n) ℂ → Fin n → ℝ) (he : GoodEigh eigh) {n : ℕ} (A B : Matrix (Fin n) (Fin n) ℂ)
    (hA : A.PosSemidef) (hB : B.IsHermitian) (d : ℝ)
    (h : ∀ x, |qform B x - qform A x| ≤ d * ∑ i, ‖x i‖ ^ 2) (numeig : ℕ) (r r' : KRes)
    (hr : solveFull argsort (List.ofFn (eigh _ (B + 1))) 0 numeig = .ok r)
    (hr' : solveFull argsort (List.ofFn (eigh _ (A + 1))) 0 numeig = .ok r') : Near d r r' := by
  obtain ⟨V, hV⟩ := he _ _ (hA.1.add isHermitian_one)
  obtain ⟨W, hW⟩ := he _ _ (hB.add isHermitian_one)
  have hn := solveFull_ok hr
  have hn' := solveFull_ok hr'
  obtain ⟨t, ht, hf⟩ := solveFull_zero argsort hs _ numeig hn
  obtain ⟨t', ht', hf'⟩ := solveFull_zero argsort hs _ numeig hn'
  rw [hr] at ht
  rw [hr'] at ht'
  cases ht
  cases ht'
  set w := eigh n (A + 1)
  set u := eigh n (B + 1)
  have hl : (solvePwe argsort (List.ofFn u) numeig).freq.length = numeig := by
    rw [solvePwe_length argsort hs, min_eq_left hn]
  have hl' : (solvePwe argsort (List.ofFn w) numeig).freq.length = numeig := by
    rw [solvePwe_length argsort hs, min_eq_left hn']
  have hw : ∀ j, 1 ≤ w j := fun j =>
    eigh_ge hV 1 (fun y => by rw [qform_add_one]; linarith [qform_nonneg hA y]) j
  have hu : ∀ j, 1 - d ≤ u j := fun j => eigh_ge hW (1 - d) (fun y => by
    rw [qform_add_one]
    have h1 := qform_nonneg hA y
    have h2 := (abs_le.1 (h y)).1
    linarith) j
  refine ⟨by rw [hf, hf', hl, hl'], fun m h1 h2 => ?_⟩
  simp only [hf, hf'] at h1 h2 ⊢
  obtain ⟨L, p1, p2, p3⟩ := solvePwe_squares argsort hs (List.ofFn u) numeig
  obtain ⟨L', q1, q2, q3⟩ := solvePwe_squares argsort hs (List.ofFn w) numeig
  have lenL : L.length = n := by rw [p1.length_eq]; simp
  have lenL' : L'.length = n := by rw [q1.length_eq]; simp
  have hmn : m < n := by
    rw [hl] at h1
    rw [List.length_ofFn] at hn
    omega
  have hm1 : m < L.length := by omega
  have hm2 : m < L'.length := by omega
  have e1 : (2 * Real.pi * (solvePwe argsort (List.ofFn u) numeig).freq[m]) ^ 2 = L[m] := by
    have := List.getElem_of_eq p3 (i := m) (by simpa using h1)
    simpa using this
  have e2 : (2 * Real.pi * (solvePwe argsort (List.ofFn w) numeig).freq[m]) ^ 2 = L'[m] := by
    have := List.getElem_of_eq q3 (i := m) (by simpa using h2)
    simpa using this
  rw [e1, e2, abs_le]
  have c1 := sorted_shift p2 q2 d (fun t => by
    rw [p1.countP_eq, q1.countP_eq, countP_map_ofFn, countP_map_ofFn]
    rcases lt_or_ge t 0 with ht | ht
    · rw [Finset.filter_eq_empty_iff.2 (fun i _ => by push Not; exact lt_of_lt_of_le ht (abs_nonneg _))]
      simp
    · have := eigh_count_shift hW hV d (fun x => by
        rw [qform_add_one, qform_add_one]
        linarith [(abs_le.1 (h x)).2]) (1 + t)
      refine le_trans (le_trans (le_of_eq ?_) this) (Finset.card_le_card ?_)
      · congr 1
        ext i
        simp only [Finset.mem_filter, Finset.mem_univ, true_and]
        rw [abs_of_nonneg (by linarith [hw i])]
        constructor <;> intro h <;> linarith
      · intro i
        simp only [Finset.mem_filter, Finset.mem_univ, true_and]
        intro h
        rw [abs_le]
        have := hu i
        constructor <;> linarith) m hm1 hm2
  have c2 := sorted_shift q2 p2 d (fun t => by
    rw [p1.countP_eq, q1.countP_eq, countP_map_ofFn, countP_map_ofFn]
    have := eigh_count_shift hV hW d (fun x => by
      rw [qform_add_one, qform_add_one]
      linarith [(abs_le.1 (h x)).1]) (1 + t)
    refine le_trans (Finset.card_le_card ?_) (le_trans this (le_of_eq ?_))
    · intro i
      simp only [Finset.mem_filter, Finset.mem_univ, true_and]
      intro h
      linarith [(abs_le.1 h).2]
    · congr 1
      ext i
      simp only [Finset.mem_filter, Finset.mem_univ, true_and]
      rw [abs_of_nonneg (by linarith [hw i])]
      constructor <;> intro h <;> linarith) m hm2 hm1
  constructor <;> linarith

/-- A bound of the entries bounds the form. -/
theorem qform_entry_bound {n : ℕ} (A B : Matrix (Fin n) (Fin n) ℂ) (e : ℝ) (h : ∀ i j, ‖B i j - A i j‖ ≤ e)
    (x : Fin n → ℂ) : |qform B x - qform A x| ≤ n * e * ∑ i, ‖x i‖ ^ 2 := by
  rcases Nat.eq_zero_or_pos n with rfl | hn
  · simp [qform_sum]
  have he : 0 ≤ e := (norm_nonneg _).trans (h ⟨0, hn⟩ ⟨0, hn⟩)
  have e1 : qform B x - qform A x = (∑ i, ∑ j, conj (x i) * (B i j - A i j) * x j).re := by
    rw [qform_sum, qform_sum, ← Complex.sub_re, ← Finset.sum_sub_distrib]
    simp only [← Finset.sum_sub_distrib, mul_sub, sub_mul]
  rw [e1]
  refine (Complex.abs_re_le_norm _).trans ?_
  calc ‖∑ i, ∑ j, conj (x i) * (B i j - A i j) * x j‖ ≤ ∑ i, ∑ j, e * (‖x i‖ * ‖x j‖) := by
        refine (norm_sum_le _ _).trans (Finset.sum_le_sum fun i _ => (norm_sum_le _ _).trans (Finset.sum_le_sum fun j _ => ?_))
        rw [norm_mul, norm_mul, RCLike.norm_conj]
        calc ‖x i‖ * ‖B i j - A i j‖ * ‖x j‖ = ‖B i j - A i j‖ * (‖x i‖ * ‖x j‖) := by ring
          _ ≤ _ := by gcongr; exact h i j
    _ = e * (∑ i, ‖x i‖) ^ 2 := by
        rw [sq, Finset.sum_mul_sum, Finset.mul_sum]
        simp only [Finset.mul_sum]
    _ ≤ e * (n * ∑ i, ‖x i‖ ^ 2) := by
        gcongr
        have := sq_sum_le_card_mul_sum_sq (s := Finset.univ) (f := fun i => ‖x i‖)
        simpa using this
    _ = _ := by ring

end Legume
