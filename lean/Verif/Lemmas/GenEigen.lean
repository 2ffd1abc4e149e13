import Verif.Lemmas.MinMax

/-! # The eigenvalues of `K ε⁻¹ K` and nested sets of basis vectors -/
namespace Legume
open Matrix Spec
open scoped ComplexOrder ComplexConjugate

theorem posSemidef_factor {n : ℕ} {E : Matrix (Fin n) (Fin n) ℂ} (hE : E.PosSemidef) :
    ∃ B : Matrix (Fin n) (Fin n) ℂ, E = Bᴴ * B := by
  obtain ⟨eigh, he⟩ := goodEigh_exists
  obtain ⟨U, hU⟩ := he n E hE.1
  have hU2 : U * Uᴴ = 1 := mul_eq_one_comm.1 hU.unitary
  have hd : ∀ i, 0 ≤ eigh n E i := fun i => eigh_ge hU 0 (fun x => by rw [zero_mul]; exact qform_nonneg hE x) i
  refine ⟨diagonal (fun i => ((√(eigh n E i) : ℝ) : ℂ)) * Uᴴ, ?_⟩
  have h1 : E = U * diagonal (fun i => ((eigh n E i : ℝ) : ℂ)) * Uᴴ := by
    rw [← hU.eigen, mul_assoc, hU2, mul_one]
  rw [conjTranspose_mul, conjTranspose_conjTranspose, diagonal_conjTranspose]
  rw [show ∀ a b c d : Matrix (Fin n) (Fin n) ℂ, a * b * (c * d) = a * (b * c) * d from fun a b c d => by
    simp only [mul_assoc], diagonal_mul_diagonal]
  conv_lhs => rw [h1]
  congr 3
  funext i
  simp only [Pi.star_apply, RCLike.star_def, Complex.conj_ofReal]
  rw [← Complex.ofReal_mul, Real.mul_self_sqrt (hd i)]

theorem isEigh_shift {n : ℕ} {A V : Matrix (Fin n) (Fin n) ℂ} {w : Fin n → ℝ} (h : IsEigh A w V) (c : ℝ) :
    IsEigh (A + (c : ℂ) • 1) (fun i => w i + c) V := by
  refine ⟨h.unitary, ?_⟩
  rw [add_mul, h.eigen, smul_mul, one_mul]
  have : diagonal (fun i => ((w i + c : ℝ) : ℂ)) = diagonal (fun i => ((w i : ℝ) : ℂ)) + (c : ℂ) • 1 := by
    rw [smul_one_eq_diagonal, diagonal_add]
    congr 1
    funext i
    push_cast; rfl
  rw [this, mul_add, Matrix.mul_smul, mul_one]

/-- The frequencies do not depend on the order of the eigenvalues. -/
theorem solvePwe_perm (argsort : List ℝ → List ℕ) (hs : ∀ l, IsArgsort l (argsort l)) (w u : List ℝ) (h : w.Perm u)
    (numeig : ℕ) : (solvePwe argsort w numeig).freq = (solvePwe argsort u numeig).freq := by
  have hp : ((w.map freqOf).mergeSort).Perm (w.map freqOf) := List.mergeSort_perm _ _
  have hso : ((w.map freqOf).mergeSort).Pairwise (· ≤ ·) := List.pairwise_mergeSort' (· ≤ ·) _
  rw [solvePwe_freq argsort hs w _ hp hso, solvePwe_freq argsort hs u _ (hp.trans (h.map _)) hso]

/-- `K ε⁻¹ K` has the frequencies of `Cᴴ C` with `C = K B⁻¹` and `ε = Bᴴ B`. -/
theorem kek_freqs (argsort : List ℝ → List ℕ) (hs : ∀ l, IsArgsort l (argsort l)) {n : ℕ}
    (K B : Matrix (Fin n) (Fin n) ℂ) (hK : Kᴴ = K) (hB : IsUnit B.det) {w u : Fin n → ℝ}
    {V U : Matrix (Fin n) (Fin n) ℂ} (hV : IsEigh (K * (Bᴴ * B)⁻¹ * K + 1) w V)
    (hU : IsEigh ((K * B⁻¹)ᴴ * (K * B⁻¹) + 1) u U) (numeig : ℕ) :
    (solvePwe argsort (List.ofFn w) numeig).freq = (solvePwe argsort (List.ofFn u) numeig).freq := by
  have h1 := isEigh_shift hV (-1)
  have h2 := isEigh_shift hU (-1)
  have e : ∀ X : Matrix (Fin n) (Fin n) ℂ, X + 1 + ((-1 : ℝ) : ℂ) • 1 = X := by
    intro X
    push_cast
    rw [neg_one_smul]; abel
  rw [e] at h1 h2
  have hp := isEigh_perm h1 h2 (by
    rw [conjTranspose_mul, hK, Matrix.mul_inv_rev, conjTranspose_nonsing_inv]
    rw [show K * (B⁻¹ * Bᴴ⁻¹) * K = (K * B⁻¹) * (Bᴴ⁻¹ * K) by simp only [mul_assoc]]
    exact charpoly_mul_comm _ _)
  have hp2 := hp.map (· + 1)
  rw [List.map_ofFn, List.map_ofFn] at hp2
  refine solvePwe_perm argsort hs _ _ ?_ numeig
  have e2 : ∀ v : Fin n → ℝ, ((fun x => x + 1) ∘ fun i => v i + -1) = v := fun v => by funext i; simp
  rwa [e2, e2] at hp2

/-- The inclusion of basis vectors as a matrix. -/
def selMat {n m : ℕ} (σ : Fin n → Fin m) : Matrix (Fin m) (Fin n) ℂ := (1 : Matrix (Fin m) (Fin m) ℂ).submatrix id σ

theorem selMat_conj {n m : ℕ} (σ : Fin n → Fin m) (X : Matrix (Fin m) (Fin m) ℂ) :
    (selMat σ)ᴴ * X * selMat σ = X.submatrix σ σ := by
  ext i j
  simp [selMat, mul_apply, one_apply, apply_ite, Finset.sum_ite_eq]

/-- **Nested bases.** With more basis vectors the frequencies of `K ε⁻¹ K` do not rise. -/
theorem kek_nested (argsort : List ℝ → List ℕ) (hs : ∀ l, IsArgsort l (argsort l)) {n m : ℕ} (σ : Fin n → Fin m)
    (K E : Matrix (Fin n) (Fin n) ℂ) (K' E' : Matrix (Fin m) (Fin m) ℂ) (hK : Kᴴ = K) (hK' : K'ᴴ = K')
    (hE : E.PosDef) (hE' : E'.PosDef) (hEs : E'.submatrix σ σ = E) (hKs : (K' * K').submatrix σ σ = K * K)
    {w : Fin n → ℝ} {w' : Fin m → ℝ} {V : Matrix (Fin n) (Fin n) ℂ} {V' : Matrix (Fin m) (Fin m) ℂ}
    (hV : IsEigh (K * E⁻¹ * K + 1) w V) (hV' : IsEigh (K' * E'⁻¹ * K' + 1) w' V') (numeig i : ℕ)
    (hi : i < (solvePwe argsort (List.ofFn w') numeig).freq.length)
    (hi' : i < (solvePwe argsort (List.ofFn w) numeig).freq.length) :
    (solvePwe argsort (List.ofFn w') numeig).freq[i] ≤ (solvePwe argsort (List.ofFn w) numeig).freq[i] := by
  obtain ⟨B, rfl⟩ := posSemidef_factor hE.posSemidef
  obtain ⟨B', rfl⟩ := posSemidef_factor hE'.posSemidef
  have hu : IsUnit B.det := by
    have := hE.det_pos.ne'
    rw [det_mul] at this
    exact isUnit_iff_ne_zero.2 (right_ne_zero_of_mul this)
  have hu' : IsUnit B'.det := by
    have := hE'.det_pos.ne'
    rw [det_mul] at this
    exact isUnit_iff_ne_zero.2 (right_ne_zero_of_mul this)
  obtain ⟨eigh, he⟩ := goodEigh_exists
  have P := posSemidef_conjTranspose_mul_self (K * B⁻¹)
  have P' := posSemidef_conjTranspose_mul_self (K' * B'⁻¹)
  obtain ⟨U, hU⟩ := he _ _ (P.1.add isHermitian_one)
  obtain ⟨U', hU'⟩ := he _ _ (P'.1.add isHermitian_one)
  have e1 := kek_freqs argsort hs K B hK hu hV hU numeig
  have e2 := kek_freqs argsort hs K' B' hK' hu' hV' hU' numeig
  rw [e1] at hi'
  rw [e2] at hi
  simp only [e1, e2]
  refine freq_ritz argsort hs P' P hU' hU (B' * selMat σ * B⁻¹).mulVecLin (fun x => ?_) (fun x => ?_) numeig i hi hi'
  · rw [← qform_one, mulVecLin_apply, qform_conj, ← qform_one x]
    congr 1
    rw [Matrix.mul_one, conjTranspose_mul, conjTranspose_mul,
      show B⁻¹ᴴ * ((selMat σ)ᴴ * B'ᴴ) * (B' * selMat σ * B⁻¹) = B⁻¹ᴴ * ((selMat σ)ᴴ * (B'ᴴ * B') * selMat σ) * B⁻¹ by
        simp only [Matrix.mul_assoc], selMat_conj, hEs,
      show B⁻¹ᴴ * (Bᴴ * B) * B⁻¹ = (B * B⁻¹)ᴴ * (B * B⁻¹) by
        rw [conjTranspose_mul]; simp only [Matrix.mul_assoc], mul_nonsing_inv _ hu, conjTranspose_one, one_mul]
  · rw [mulVecLin_apply, qform_conj]
    refine le_of_eq ?_
    congr 1
    have h1 : B'ᴴ * ((K' * B'⁻¹)ᴴ * (K' * B'⁻¹)) * B' = K' * K' := by
      rw [show B'ᴴ * ((K' * B'⁻¹)ᴴ * (K' * B'⁻¹)) * B' = (K' * (B'⁻¹ * B'))ᴴ * (K' * (B'⁻¹ * B')) by
        simp only [conjTranspose_mul, Matrix.mul_assoc], nonsing_inv_mul _ hu', mul_one, hK']
    calc (B' * selMat σ * B⁻¹)ᴴ * ((K' * B'⁻¹)ᴴ * (K' * B'⁻¹)) * (B' * selMat σ * B⁻¹)
        = B⁻¹ᴴ * ((selMat σ)ᴴ * (B'ᴴ * ((K' * B'⁻¹)ᴴ * (K' * B'⁻¹)) * B') * selMat σ) * B⁻¹ := by
          simp only [conjTranspose_mul, Matrix.mul_assoc]
      _ = B⁻¹ᴴ * (K * K) * B⁻¹ := by rw [h1, selMat_conj, hKs]
      _ = (K * B⁻¹)ᴴ * (K * B⁻¹) := by simp only [conjTranspose_mul, hK, Matrix.mul_assoc]

end Legume
