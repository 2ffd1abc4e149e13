import Mathlib.Analysis.Matrix.PosDef
import Verif.Lemmas.Spectrum
import Verif.Props.PweSim

/-! # Eigenvalues of Hermitian matrices are monotone -/
namespace Legume
open Matrix Spec
open scoped ComplexOrder ComplexConjugate

/-- The real part of the quadratic form. -/
def qform {n : ℕ} (A : Matrix (Fin n) (Fin n) ℂ) (x : Fin n → ℂ) : ℝ := (star x ⬝ᵥ (A *ᵥ x)).re

theorem qform_sum {n : ℕ} (A : Matrix (Fin n) (Fin n) ℂ) (x : Fin n → ℂ) :
    qform A x = (∑ i, ∑ j, conj (x i) * A i j * x j).re := by
  rw [qform]
  simp only [dotProduct, mulVec, Pi.star_apply, RCLike.star_def, Finset.mul_sum, mul_assoc]

theorem qform_one {n : ℕ} (x : Fin n → ℂ) : qform 1 x = ∑ i, ‖x i‖ ^ 2 := by
  rw [qform, one_mulVec, dotProduct, Complex.re_sum]
  refine Finset.sum_congr rfl fun i _ => ?_
  rw [Pi.star_apply, RCLike.star_def, Complex.conj_mul', ← Complex.ofReal_pow, Complex.ofReal_re]

theorem qform_conj {n m : ℕ} (A : Matrix (Fin m) (Fin m) ℂ) (V : Matrix (Fin m) (Fin n) ℂ) (x : Fin n → ℂ) :
    qform A (V *ᵥ x) = qform (Vᴴ * A * V) x := by
  rw [qform, qform, star_mulVec, ← mulVec_mulVec, ← mulVec_mulVec, dotProduct_mulVec (star x), ← dotProduct_mulVec]

theorem qform_diagonal {n : ℕ} (w : Fin n → ℝ) (x : Fin n → ℂ) :
    qform (diagonal fun i => (w i : ℂ)) x = ∑ i, w i * ‖x i‖ ^ 2 := by
  rw [qform, dotProduct, Complex.re_sum]
  refine Finset.sum_congr rfl fun i _ => ?_
  rw [mulVec_diagonal, Pi.star_apply, RCLike.star_def,
    show conj (x i) * ((w i : ℂ) * x i) = (w i : ℂ) * (conj (x i) * x i) by ring,
    Complex.conj_mul', ← Complex.ofReal_pow, ← Complex.ofReal_mul, Complex.ofReal_re]

theorem eigh_qform {n : ℕ} {A V : Matrix (Fin n) (Fin n) ℂ} {w : Fin n → ℝ} (h : IsEigh A w V) (y : Fin n → ℂ) :
    qform A (V *ᵥ y) = ∑ i, w i * ‖y i‖ ^ 2 ∧ ∑ i, ‖(V *ᵥ y) i‖ ^ 2 = ∑ i, ‖y i‖ ^ 2 := by
  constructor
  · rw [qform_conj, mul_assoc, h.eigen, ← mul_assoc, h.unitary, one_mul, qform_diagonal]
  · rw [← qform_one, qform_conj, mul_one, h.unitary, qform_one]

/-- **Rayleigh–Ritz.** If the space of `B` is mapped isometrically into that of `A` without raising the quadratic form,
`A` has at least as many eigenvalues below any bound as `B`. -/
theorem eigh_count {n m : ℕ} {A V : Matrix (Fin m) (Fin m) ℂ} {B W : Matrix (Fin n) (Fin n) ℂ} {w : Fin m → ℝ}
    {u : Fin n → ℝ} (hA : IsEigh A w V) (hB : IsEigh B u W) (J : (Fin n → ℂ) →ₗ[ℂ] (Fin m → ℂ))
    (hJ : ∀ x, ∑ i, ‖J x i‖ ^ 2 = ∑ i, ‖x i‖ ^ 2) (h : ∀ x, qform A (J x) ≤ qform B x) (t : ℝ) :
    (Finset.univ.filter fun i => u i ≤ t).card ≤ (Finset.univ.filter fun i => w i ≤ t).card := by
  by_contra hc
  push Not at hc
  set P := Finset.univ.filter fun i => u i ≤ t with hP
  set Q := Finset.univ.filter fun i => w i ≤ t with hQ
  -- a combination of low eigenvectors of `B` orthogonal to the low eigenvectors of `A`
  let ext : (P → ℂ) →ₗ[ℂ] (Fin n → ℂ) :=
    { toFun := fun c i => if hi : i ∈ P then c ⟨i, hi⟩ else 0
      map_add' := fun a b => by funext i; by_cases hi : i ∈ P <;> simp [hi]
      map_smul' := fun a b => by funext i; by_cases hi : i ∈ P <;> simp [hi] }
  let T : (P → ℂ) →ₗ[ℂ] (Q → ℂ) :=
    (LinearMap.funLeft ℂ ℂ (fun q : Q => (q : Fin m))).comp
      (Vᴴ.mulVecLin.comp (J.comp (W.mulVecLin.comp ext)))
  have hlt : Module.finrank ℂ (Q → ℂ) < Module.finrank ℂ (P → ℂ) := by
    simp only [Module.finrank_fintype_fun_eq_card, Fintype.card_coe]
    exact hc
  obtain ⟨c, hcT, hc0⟩ := (Submodule.ne_bot_iff _).1 (LinearMap.ker_ne_bot_of_finrank_lt (f := T) hlt)
  set y := ext c with hy
  set d := Vᴴ *ᵥ (J (W *ᵥ y)) with hd
  have hV2 : V * Vᴴ = 1 := mul_eq_one_comm.1 hA.unitary
  have hx : V *ᵥ d = J (W *ᵥ y) := by
    rw [hd, mulVec_mulVec, hV2, one_mulVec]
  have hdQ : ∀ q ∈ Q, d q = 0 := by
    intro q hq
    have := congrFun (LinearMap.mem_ker.1 hcT) ⟨q, hq⟩
    exact this
  have hyP : ∀ i, i ∉ P → y i = 0 := fun i hi => by
    change (if hi : i ∈ P then c ⟨i, hi⟩ else 0) = 0
    rw [dif_neg hi]
  have hy0 : ∃ i, y i ≠ 0 := by
    obtain ⟨p, hp⟩ := Function.ne_iff.1 hc0
    refine ⟨p, ?_⟩
    change (if hi : (p : Fin n) ∈ P then c ⟨p, hi⟩ else 0) ≠ 0
    rw [dif_pos p.2]
    exact hp
  obtain ⟨a1, a2⟩ := eigh_qform hA d
  obtain ⟨b1, b2⟩ := eigh_qform hB y
  rw [hx] at a1 a2
  have hnorm : ∑ i, ‖d i‖ ^ 2 = ∑ i, ‖y i‖ ^ 2 := a2.symm.trans ((hJ _).trans b2)
  have hpos : 0 < ∑ i, ‖y i‖ ^ 2 := by
    obtain ⟨i, hi⟩ := hy0
    exact Finset.sum_pos' (fun _ _ => by positivity) ⟨i, Finset.mem_univ _, by
      have : 0 < ‖y i‖ := norm_pos_iff.2 hi
      positivity⟩
  have hB' : qform B (W *ᵥ y) ≤ t * ∑ i, ‖y i‖ ^ 2 := by
    rw [b1, Finset.mul_sum]
    refine Finset.sum_le_sum fun i _ => ?_
    by_cases hi : i ∈ P
    · exact mul_le_mul_of_nonneg_right (Finset.mem_filter.1 hi).2 (by positivity)
    · rw [hyP i hi]; simp
  have hA' : t * ∑ i, ‖d i‖ ^ 2 < qform A (J (W *ᵥ y)) := by
    rw [a1, Finset.mul_sum]
    obtain ⟨i, -, hi⟩ : ∃ i ∈ Finset.univ, 0 < ‖d i‖ ^ 2 := by
      by_contra hn
      push Not at hn
      have : ∑ i, ‖d i‖ ^ 2 ≤ 0 := Finset.sum_nonpos hn
      linarith
    refine Finset.sum_lt_sum (fun j _ => ?_) ⟨i, Finset.mem_univ _, ?_⟩
    · by_cases hj : j ∈ Q
      · rw [hdQ j hj]; simp
      · have : t < w j := by
          by_contra hn
          exact hj (Finset.mem_filter.2 ⟨Finset.mem_univ _, not_lt.1 hn⟩)
        exact mul_le_mul_of_nonneg_right this.le (by positivity)
    · have hiQ : i ∉ Q := fun hq => by rw [hdQ i hq] at hi; simp at hi
      have : t < w i := by
        by_contra hn
        exact hiQ (Finset.mem_filter.2 ⟨Finset.mem_univ _, not_lt.1 hn⟩)
      exact mul_lt_mul_of_pos_right this hi
  rw [hnorm] at hA'
  linarith [h (W *ᵥ y)]

/-- Sorted lists compare if one has at least as many elements below any bound as the other. -/
theorem sorted_le_of_count (l l' : List ℝ) (hs : l.Pairwise (· ≤ ·)) (hs' : l'.Pairwise (· ≤ ·))
    (hc : ∀ t, l'.countP (fun x => decide (x ≤ t)) ≤ l.countP (fun x => decide (x ≤ t)))
    (i : ℕ) (hi : i < l.length) (hi' : i < l'.length) : l[i] ≤ l'[i] := by
  by_contra hn
  simp only [not_le] at hn
  have h1 : i + 1 ≤ l'.countP (fun x => decide (x ≤ l'[i])) := by
    have : (l'.take (i + 1)).countP (fun x => decide (x ≤ l'[i])) = i + 1 := by
      rw [List.countP_eq_length.2]
      · simp; omega
      · intro x hx
        obtain ⟨j, hj, rfl⟩ := List.getElem_of_mem hx
        simp only [List.length_take] at hj
        rw [List.getElem_take]
        rcases Nat.lt_or_ge j i with hji | hji
        · exact decide_eq_true (List.pairwise_iff_getElem.1 hs' j i (by omega) hi' hji)
        · have : j = i := by omega
          subst this; simp
    rw [← this]
    exact (List.take_sublist _ _).countP_le
  have h2 : l.countP (fun x => decide (x ≤ l'[i])) ≤ i := by
    rw [← List.take_append_drop i l, List.countP_append]
    have hz : (l.drop i).countP (fun x => decide (x ≤ l'[i])) = 0 := by
      rw [List.countP_eq_zero]
      intro x hx
      obtain ⟨j, hj, rfl⟩ := List.getElem_of_mem hx
      simp only [List.length_drop] at hj
      rw [List.getElem_drop]
      have : l[i] ≤ l[i + j] := by
        rcases Nat.eq_zero_or_pos j with h0 | h0
        · subst h0; simp
        · exact List.pairwise_iff_getElem.1 hs i (i + j) hi (by omega) (by omega)
      simp only [decide_eq_true_eq, not_le]
      linarith
    rw [hz, add_zero]
    exact List.countP_le_length.trans (by simp)
  exact absurd (h1.trans ((hc _).trans h2)) (by omega)

theorem countP_ofFn {n : ℕ} (w : Fin n → ℝ) (t : ℝ) :
    (List.ofFn w).countP (fun x => decide (x ≤ t)) = (Finset.univ.filter fun i => w i ≤ t).card := by
  rw [List.ofFn_eq_map, List.countP_map, List.countP_eq_length_filter, ← List.toFinset_card_of_nodup]
  · congr 1
    ext i
    simp
  · exact (List.nodup_finRange n).filter _

/-- The sorted eigenvalues compare likewise. -/
theorem eigh_ritz {n m : ℕ} {A V : Matrix (Fin m) (Fin m) ℂ} {B W : Matrix (Fin n) (Fin n) ℂ} {w : Fin m → ℝ}
    {u : Fin n → ℝ} (hA : IsEigh A w V) (hB : IsEigh B u W) (J : (Fin n → ℂ) →ₗ[ℂ] (Fin m → ℂ))
    (hJ : ∀ x, ∑ i, ‖J x i‖ ^ 2 = ∑ i, ‖x i‖ ^ 2) (h : ∀ x, qform A (J x) ≤ qform B x)
    (l l' : List ℝ) (hl : l.Perm (List.ofFn w)) (hl' : l'.Perm (List.ofFn u)) (hs : l.Pairwise (· ≤ ·))
    (hs' : l'.Pairwise (· ≤ ·)) (i : ℕ) (hi : i < l.length) (hi' : i < l'.length) : l[i] ≤ l'[i] := by
  refine sorted_le_of_count l l' hs hs' (fun t => ?_) i hi hi'
  rw [hl.countP_eq, hl'.countP_eq, countP_ofFn, countP_ofFn]
  exact eigh_count hA hB J hJ h t

theorem qform_sub {n : ℕ} (A : Matrix (Fin n) (Fin n) ℂ) (hA : A.IsHermitian) (x y : Fin n → ℂ) :
    qform A (x - y) = qform A x - 2 * (star x ⬝ᵥ (A *ᵥ y)).re + qform A y := by
  have e : star y ⬝ᵥ (A *ᵥ x) = conj (star x ⬝ᵥ (A *ᵥ y)) := by
    have h1 := star_dotProduct_star (star x) (A *ᵥ y)
    rw [star_star, star_mulVec, hA.eq, dotProduct_comm, ← dotProduct_mulVec, dotProduct_comm (A *ᵥ y)] at h1
    exact h1
  simp only [qform, star_sub, mulVec_sub, dotProduct_sub, sub_dotProduct, Complex.sub_re]
  rw [e, Complex.conj_re]
  ring

/-- Inversion reverses the order of positive definite matrices. -/
theorem qform_inv_le {n : ℕ} (E E' : Matrix (Fin n) (Fin n) ℂ) (hE : E.PosDef) (hE' : E'.PosDef)
    (h : ∀ x, qform E x ≤ qform E' x) (y : Fin n → ℂ) : qform E'⁻¹ y ≤ qform E⁻¹ y := by
  have hu : IsUnit E.det := isUnit_iff_ne_zero.2 hE.det_pos.ne'
  have hu' : IsUnit E'.det := isUnit_iff_ne_zero.2 hE'.det_pos.ne'
  set x := E'⁻¹ *ᵥ y with hx
  have hEx : E' *ᵥ x = y := by rw [hx, mulVec_mulVec, mul_nonsing_inv _ hu', one_mulVec]
  have h1 : qform E' x = qform E'⁻¹ y := by
    rw [qform, hEx, qform, hx, star_mulVec, hE'.inv.1.eq, ← dotProduct_mulVec]
  have h2 : (star x ⬝ᵥ (E *ᵥ (E⁻¹ *ᵥ y))).re = qform E'⁻¹ y := by
    rw [mulVec_mulVec, mul_nonsing_inv _ hu, one_mulVec, hx, star_mulVec, hE'.inv.1.eq, ← dotProduct_mulVec]
    rfl
  have h3 : qform E (E⁻¹ *ᵥ y) = qform E⁻¹ y := by
    rw [qform, mulVec_mulVec, mul_nonsing_inv _ hu, one_mulVec, star_mulVec, hE.inv.1.eq, ← dotProduct_mulVec]
    rfl
  have h4 : 0 ≤ qform E (x - E⁻¹ *ᵥ y) := by
    have := hE.posSemidef.dotProduct_mulVec_nonneg (x - E⁻¹ *ᵥ y)
    exact (Complex.le_def.1 this).1
  rw [qform_sub E hE.1, h2, h3] at h4
  linarith [h x]

theorem qform_add_one {n : ℕ} (A : Matrix (Fin n) (Fin n) ℂ) (x : Fin n → ℂ) :
    qform (A + 1) x = qform A x + ∑ i, ‖x i‖ ^ 2 := by
  rw [← qform_one, qform, qform, qform, add_mulVec, dotProduct_add, Complex.add_re]

theorem qform_nonneg {n : ℕ} {A : Matrix (Fin n) (Fin n) ℂ} (hA : A.PosSemidef) (x : Fin n → ℂ) : 0 ≤ qform A x :=
  (Complex.le_def.1 (hA.dotProduct_mulVec_nonneg x)).1

theorem eigh_ge {n : ℕ} {A V : Matrix (Fin n) (Fin n) ℂ} {w : Fin n → ℝ} (h : IsEigh A w V) (c : ℝ)
    (hc : ∀ x, c * ∑ i, ‖x i‖ ^ 2 ≤ qform A x) (i : Fin n) : c ≤ w i := by
  obtain ⟨h1, h2⟩ := eigh_qform h (Pi.single i 1)
  have h3 := hc (V *ᵥ Pi.single i 1)
  have e : ∑ j, ‖(Pi.single i (1 : ℂ) : Fin n → ℂ) j‖ ^ 2 = 1 := by
    rw [Finset.sum_eq_single i] <;> simp +contextual [Pi.single_apply]
  have e' : ∑ j, w j * ‖(Pi.single i (1 : ℂ) : Fin n → ℂ) j‖ ^ 2 = w i := by
    rw [Finset.sum_eq_single i] <;> simp +contextual [Pi.single_apply]
  rw [h1, h2, e, e'] at h3
  linarith

theorem freqOf_mono {a b : ℝ} (ha : 1 ≤ a) (hab : a ≤ b) : freqOf a ≤ freqOf b := by
  unfold freqOf
  rw [abs_of_nonneg (by linarith), abs_of_nonneg (by linarith)]
  have := Real.pi_pos
  gcongr

/-- The frequencies of a positive semidefinite matrix in terms of the sorted eigenvalues. -/
theorem solvePwe_sorted (argsort : List ℝ → List ℕ) (hs : ∀ l, IsArgsort l (argsort l)) (w : List ℝ)
    (hw : ∀ x ∈ w, 1 ≤ x) (numeig : ℕ) : ∃ l : List ℝ, l.Perm w ∧ l.Pairwise (· ≤ ·) ∧ (∀ x ∈ l, 1 ≤ x) ∧
    (solvePwe argsort w numeig).freq = (l.map freqOf).take numeig := by
  refine ⟨w.mergeSort, List.mergeSort_perm _ _, ?_, fun x hx => hw x (List.mem_mergeSort.1 hx), ?_⟩
  · exact (List.pairwise_mergeSort' (· ≤ ·) w)
  · refine solvePwe_freq argsort hs w _ ((List.mergeSort_perm _ _).map _) ?_ numeig
    rw [List.pairwise_map]
    refine (List.pairwise_mergeSort' (· ≤ ·) w).imp_of_mem fun ha _ hab => freqOf_mono (hw _ (List.mem_mergeSort.1 ha)) hab

/-- **Frequencies of two positive semidefinite matrices.** If the space of `B` is mapped isometrically into that of `A`
without raising the quadratic form, the frequencies of `A` are not above those of `B`. -/
theorem freq_ritz (argsort : List ℝ → List ℕ) (hs : ∀ l, IsArgsort l (argsort l)) {n m : ℕ}
    {A V : Matrix (Fin m) (Fin m) ℂ} {B W : Matrix (Fin n) (Fin n) ℂ} {w : Fin m → ℝ} {u : Fin n → ℝ}
    (hA : A.PosSemidef) (hB : B.PosSemidef) (hAe : IsEigh (A + 1) w V) (hBe : IsEigh (B + 1) u W)
    (J : (Fin n → ℂ) →ₗ[ℂ] (Fin m → ℂ)) (hJ : ∀ x, ∑ i, ‖J x i‖ ^ 2 = ∑ i, ‖x i‖ ^ 2)
    (h : ∀ x, qform A (J x) ≤ qform B x) (numeig i : ℕ)
    (hi : i < (solvePwe argsort (List.ofFn w) numeig).freq.length)
    (hi' : i < (solvePwe argsort (List.ofFn u) numeig).freq.length) :
    (solvePwe argsort (List.ofFn w) numeig).freq[i] ≤ (solvePwe argsort (List.ofFn u) numeig).freq[i] := by
  have hw : ∀ x ∈ List.ofFn w, 1 ≤ x := by
    intro x hx
    obtain ⟨j, rfl⟩ := (List.mem_ofFn' _ _).1 hx
    exact eigh_ge hAe 1 (fun y => by rw [qform_add_one]; linarith [qform_nonneg hA y]) j
  have hu : ∀ x ∈ List.ofFn u, 1 ≤ x := by
    intro x hx
    obtain ⟨j, rfl⟩ := (List.mem_ofFn' _ _).1 hx
    exact eigh_ge hBe 1 (fun y => by rw [qform_add_one]; linarith [qform_nonneg hB y]) j
  obtain ⟨l, p1, p2, p3, p4⟩ := solvePwe_sorted argsort hs _ hw numeig
  obtain ⟨l', q1, q2, q3, q4⟩ := solvePwe_sorted argsort hs _ hu numeig
  have hl : i < l.length := by rw [p4] at hi; simp at hi; omega
  have hl' : i < l'.length := by rw [q4] at hi'; simp at hi'; omega
  have := eigh_ritz hAe hBe J hJ (fun x => by rw [qform_add_one, qform_add_one, hJ]; linarith [h x])
    l l' p1 q1 p2 q2 i hl hl'
  simp only [p4, q4, List.getElem_take, List.getElem_map]
  exact freqOf_mono (p3 _ (List.getElem_mem _)) this

end Legume
