import Mathlib.LinearAlgebra.Matrix.PosDef
import Mathlib.Analysis.Real.Sqrt
import Mathlib.Analysis.Matrix.Spectrum
import Verif.Model.Pwe
import Verif.Props.GmeRun

/-!
# C36, C37, C73, C74: the plane-wave expansion
-/
namespace Legume
open Matrix Spec ComplexOrder Finset

/-! ### C36 -/

/-- Real diagonal scaling on both sides keeps a matrix positive semidefinite. -/
theorem scale_psd {n : ℕ} (d : Fin n → ℝ) (E : Matrix (Fin n) (Fin n) ℂ) (hE : E.PosSemidef) :
    (Matrix.of fun i j => ((d i * d j : ℝ) : ℂ) * E i j).PosSemidef := by
  have h := hE.conjTranspose_mul_mul_same (Matrix.diagonal fun i => (d i : ℂ))
  have : (Matrix.of fun i j => ((d i * d j : ℝ) : ℂ) * E i j) =
      (Matrix.diagonal fun i => (d i : ℂ))ᴴ * E * Matrix.diagonal fun i => (d i : ℂ) := by
    ext i j
    rw [diagonal_conjTranspose, mul_diagonal, diagonal_mul]
    simp only [of_apply, Pi.star_apply, RCLike.star_def, Complex.conj_ofReal]
    push_cast; ring
  rw [this]; exact h

/-- **C36.** For every set of plane waves, every `k` and every positive semidefinite inverse permittivity, the
TE and the TM matrices are positive semidefinite; in particular they are Hermitian. -/
theorem C36_psd {n : ℕ} (pol : Pol) (k : ℝ × ℝ) (gvec : Fin n → ℝ × ℝ) (E : Matrix (Fin n) (Fin n) ℂ)
    (hE : E.PosSemidef) : (pweMat pol k gvec E).PosSemidef := by
  cases pol with
  | te =>
    have h := (scale_psd (fun i => (kPlusG k (gvec i)).1) E hE).add
      (scale_psd (fun i => (kPlusG k (gvec i)).2) E hE)
    convert h using 1
    ext i j
    simp only [pweMat, of_apply, Matrix.add_apply]
    push_cast; ring
  | tm => exact scale_psd (fun i => √((kPlusG k (gvec i)).1 ^ 2 + (kPlusG k (gvec i)).2 ^ 2)) E hE

theorem C36_hermitian {n : ℕ} (pol : Pol) (k : ℝ × ℝ) (gvec : Fin n → ℝ × ℝ) (E : Matrix (Fin n) (Fin n) ℂ)
    (hE : E.PosSemidef) : (pweMat pol k gvec E)ᴴ = pweMat pol k gvec E := (C36_psd pol k gvec E hE).1

/-- The quadratic forms: `∑ |(k+G)|²`-weighted energies. -/
theorem C36_energy {n : ℕ} (k : ℝ × ℝ) (gvec : Fin n → ℝ × ℝ) (E : Matrix (Fin n) (Fin n) ℂ) (v : Fin n → ℂ) :
    star v ⬝ᵥ (pweMat .te k gvec E *ᵥ v) =
      (star (fun i => ((k.1 + (gvec i).1 : ℝ) : ℂ) * v i) ⬝ᵥ (E *ᵥ fun i => ((k.1 + (gvec i).1 : ℝ) : ℂ) * v i)) +
      (star (fun i => ((k.2 + (gvec i).2 : ℝ) : ℂ) * v i) ⬝ᵥ (E *ᵥ fun i => ((k.2 + (gvec i).2 : ℝ) : ℂ) * v i)) ∧
    star v ⬝ᵥ (pweMat .tm k gvec E *ᵥ v) =
      star (fun i => ((√((k.1 + (gvec i).1) ^ 2 + (k.2 + (gvec i).2) ^ 2) : ℝ) : ℂ) * v i) ⬝ᵥ
        (E *ᵥ fun i => ((√((k.1 + (gvec i).1) ^ 2 + (k.2 + (gvec i).2) ^ 2) : ℝ) : ℂ) * v i) := by
  constructor
  · simp only [dotProduct, mulVec, pweMat, kPlusG, of_apply, Pi.star_apply, RCLike.star_def, map_mul,
      Complex.conj_ofReal, mul_sum]
    rw [← sum_add_distrib]
    refine sum_congr rfl fun i _ => ?_
    rw [← sum_add_distrib]
    refine sum_congr rfl fun j _ => ?_
    push_cast; ring
  · simp only [dotProduct, mulVec, pweMat, kPlusG, of_apply, Pi.star_apply, RCLike.star_def, map_mul,
      Complex.conj_ofReal, mul_sum]
    refine sum_congr rfl fun i _ => sum_congr rfl fun j _ => ?_
    push_cast; ring

/-- **C36.** With `eigh` any correct Hermitian eigensolver, a call with polarisation `'te'` or `'tm'` in any
capitalisation succeeds, and its frequencies are the `numeig` lowest solutions of the TE or TM problem. -/
theorem C36_frequencies (argsort : List ℝ → List ℕ) (hs : ∀ l, IsArgsort l (argsort l)) {n : ℕ}
    (eigh : Matrix (Fin n) (Fin n) ℂ → Fin n → ℝ)
    (vecs : Matrix (Fin n) (Fin n) ℂ → Matrix (Fin n) (Fin n) ℂ)
    (he : ∀ A : Matrix (Fin n) (Fin n) ℂ, A.IsHermitian → IsEigh A (eigh A) (vecs A)) (pol : String) (p : Pol)
    (hp : pyLower pol = match p with | .te => ['t', 'e'] | .tm => ['t', 'm']) (k : ℝ × ℝ) (gvec : Fin n → ℝ × ℝ)
    (E : Matrix (Fin n) (Fin n) ℂ) (hE : E.PosSemidef) (numeig : ℕ) :
    ∃ r, pweRun argsort eigh pol k gvec E numeig = .ok r ∧
      Modes (pweMat p k gvec E) 0 (min numeig n) r.freq
        (fun m => if hm : r.idx.getD m 0 < n then
          (vecs (pweMat p k gvec E + 1)).col ⟨r.idx.getD m 0, hm⟩ else 0) := by
  have hM := C36_psd p k gvec E hE
  have h1 : (pweMat p k gvec E + 1).IsHermitian := hM.1.add isHermitian_one
  have hpar : parsePol pol = .ok p := by
    unfold parsePol
    cases p with
    | te => simp only at hp; rw [if_pos hp]
    | tm =>
      simp only at hp
      rw [if_neg (by rw [hp]; decide), if_pos hp]
  refine ⟨_, by unfold pweRun; rw [hpar], ?_⟩
  exact C32_pwe argsort hs _ _ _ hM (he _ h1) numeig

/-- The contract of the eigensolver can be met for every Hermitian matrix. -/
theorem eigh_exists {n : ℕ} (A : Matrix (Fin n) (Fin n) ℂ) (h : A.IsHermitian) :
    IsEigh A h.eigenvalues (h.eigenvectorUnitary : Matrix (Fin n) (Fin n) ℂ) := by
  constructor
  · exact (mem_unitaryGroup_iff'.1 h.eigenvectorUnitary.2)
  · have hs := h.spectral_theorem
    rw [Unitary.conjStarAlgAut_apply] at hs
    have h2 := congrArg (· * (h.eigenvectorUnitary : Matrix (Fin n) (Fin n) ℂ)) hs
    simp only [mul_assoc, mem_unitaryGroup_iff'.1 h.eigenvectorUnitary.2, mul_one] at h2
    exact h2

open Classical in
example (k : ℝ × ℝ) : ∃ r, pweRun insArgsort
    (fun A : Matrix (Fin 3) (Fin 3) ℂ => if h : A.IsHermitian then h.eigenvalues else 0) "TM" k
    ![(0, 0), (1, 0), (-1, 0)] 1 2 = .ok r ∧ r.freq.length = 2 := by
  obtain ⟨r, h1, h2⟩ := C36_frequencies insArgsort insArgsort_ok
    (fun A : Matrix (Fin 3) (Fin 3) ℂ => if h : A.IsHermitian then h.eigenvalues else 0)
    (fun A => if h : A.IsHermitian then h.eigenvectorUnitary else 0)
    (fun A h => by simp only [dif_pos h]; exact eigh_exists A h) "TM" .tm (by decide) k
    ![(0, 0), (1, 0), (-1, 0)] 1 Matrix.PosSemidef.one 2
  exact ⟨r, h1, h2.count⟩

/-- **C36.** Any other polarisation is refused. -/
theorem C36_bad_pol (argsort : List ℝ → List ℕ) {n : ℕ} (eigh : Matrix (Fin n) (Fin n) ℂ → Fin n → ℝ)
    (pol : String) (h1 : pyLower pol ≠ ['t', 'e']) (h2 : pyLower pol ≠ ['t', 'm']) (k : ℝ × ℝ) (gvec : Fin n → ℝ × ℝ)
    (E : Matrix (Fin n) (Fin n) ℂ) (numeig : ℕ) :
    pweRun argsort eigh pol k gvec E numeig = .error .valueError := by
  unfold pweRun parsePol
  rw [if_neg h1, if_neg h2]

example : (pweMat .te (0.3, 0) ![(0, 0), (1, 0)] (1 : Matrix (Fin 2) (Fin 2) ℂ)).PosSemidef :=
  C36_psd _ _ _ _ Matrix.PosSemidef.one

example : pyLower "Te" = ['t', 'e'] := by decide

/-! ### C37 -/

theorem fieldNorm_ne {k g : ℝ × ℝ} : fieldNorm k g ≠ 0 ↔ fieldG k g ≠ (0, 0) := by
  unfold fieldNorm
  rw [Real.sqrt_ne_zero', Ne, Prod.ext_iff]
  constructor
  · intro h hz
    simp only at hz
    rw [hz.1, hz.2] at h; norm_num at h
  · intro h
    by_contra hc
    apply h
    have h1 := sq_nonneg (fieldG k g).1
    have h2 := sq_nonneg (fieldG k g).2
    exact ⟨pow_eq_zero_iff two_ne_zero |>.1 (by linarith), pow_eq_zero_iff two_ne_zero |>.1 (by linarith)⟩

theorem fieldNorm_sq (k g : ℝ × ℝ) : fieldNorm k g ^ 2 = (fieldG k g).1 ^ 2 + (fieldG k g).2 ^ 2 :=
  Real.sq_sqrt (by positivity)

/-- **C37 (partial).** The vectors `p`, `q` are orthonormal, and `q` is orthogonal to `k + G` up to `1e-10`,
the shift of the first component of `k + G`, unless `k + G = (-1e-10, 0)`.  Missing: exact orthogonality to
`k + G`, which fails by `C37_not_exact`, and the point `(-1e-10, 0)`, where the code divides by zero. -/
theorem C37_unit_vectors_partial (k g : ℝ × ℝ) (h : kPlusG k g ≠ (-1e-10, 0)) :
    (unitP k g).1 ^ 2 + (unitP k g).2 ^ 2 = 1 ∧ (unitQ k g).1 ^ 2 + (unitQ k g).2 ^ 2 = 1 ∧
    (unitP k g).1 * (unitQ k g).1 + (unitP k g).2 * (unitQ k g).2 = 0 ∧
    (unitQ k g).1 * (fieldG k g).1 + (unitQ k g).2 * (fieldG k g).2 = 0 ∧
    (unitP k g).1 * (fieldG k g).1 + (unitP k g).2 * (fieldG k g).2 = fieldNorm k g ∧
    |(unitQ k g).1 * (kPlusG k g).1 + (unitQ k g).2 * (kPlusG k g).2| ≤ 1e-10 := by
  have hn : fieldNorm k g ≠ 0 := by
    rw [fieldNorm_ne]
    intro hc
    apply h
    unfold fieldG at hc
    rw [Prod.ext_iff] at hc ⊢
    simp only [kPlusG] at hc ⊢
    exact ⟨by linarith [hc.1], by linarith [hc.2]⟩
  have hs := fieldNorm_sq k g
  have hp : (unitP k g).1 ^ 2 + (unitP k g).2 ^ 2 = 1 := by
    unfold unitP
    simp only
    rw [div_pow, div_pow, ← add_div, ← hs, div_self (pow_ne_zero 2 hn)]
  have hq : (unitQ k g).1 * (fieldG k g).1 + (unitQ k g).2 * (fieldG k g).2 = 0 := by
    unfold unitQ unitP; simp only; ring
  refine ⟨hp, by unfold unitQ; simp only; linarith, by unfold unitQ; simp only; ring, hq, ?_, ?_⟩
  · unfold unitP
    simp only
    rw [div_mul_eq_mul_div, div_mul_eq_mul_div, ← add_div, ← pow_two, ← pow_two, ← hs, pow_two,
      mul_div_assoc, div_self hn, mul_one]
  · have e : (unitQ k g).1 * (kPlusG k g).1 + (unitQ k g).2 * (kPlusG k g).2 = -(1e-10 * (unitP k g).2) := by
      have : (unitQ k g).1 * (kPlusG k g).1 + (unitQ k g).2 * (kPlusG k g).2 =
          (unitQ k g).1 * (fieldG k g).1 + (unitQ k g).2 * (fieldG k g).2 - 1e-10 * (unitQ k g).1 := by
        unfold fieldG kPlusG; simp only; ring
      rw [this, hq]; unfold unitQ; simp only; ring
    rw [e, abs_neg, abs_mul, abs_of_pos (by norm_num : (0:ℝ) < 1e-10)]
    have : |(unitP k g).2| ≤ 1 := by
      rw [← sq_le_one_iff_abs_le_one]; nlinarith [sq_nonneg (unitP k g).1]
    nlinarith

/-- **C37, violation.** `q` is not orthogonal to `k + G` for any `k + G` off the `x` axis. -/
theorem C37_not_exact (k g : ℝ × ℝ) (h : (kPlusG k g).2 ≠ 0) :
    (unitQ k g).1 * (kPlusG k g).1 + (unitQ k g).2 * (kPlusG k g).2 ≠ 0 := by
  have hy : (fieldG k g).2 ≠ 0 := by unfold fieldG; unfold kPlusG at h; simpa [add_comm] using h
  have hn : fieldNorm k g ≠ 0 := by rw [fieldNorm_ne]; intro hc; exact hy (by rw [hc])
  have : (unitQ k g).1 * (kPlusG k g).1 + (unitQ k g).2 * (kPlusG k g).2 =
      -(1e-10 * ((fieldG k g).2 / fieldNorm k g)) := by
    unfold unitQ unitP
    simp only
    unfold kPlusG
    field_simp
    unfold fieldG
    simp only
    ring
  rw [this, neg_ne_zero]
  exact mul_ne_zero (by norm_num) (div_ne_zero hy hn)

/-- **C37, violation.** At `k + G = (-1e-10, 0)` the vectors are `0 / 0`. -/
theorem C37_singular : fieldNorm (-1e-10, 0) (0, 0) = 0 := by
  unfold fieldNorm fieldG; norm_num

/-- Fourier components of `div F / i`. -/
noncomputable def divergence {n : ℕ} (g : Fin n → ℝ × ℝ) (F : FtField n) (i : Fin n) : ℂ :=
  (g i).1 * F.x i + (g i).2 * F.y i

/-- **C37.** With the wave vectors `k + G + (1e-10, 0)`, the magnetic and the displacement field of every
mode of either polarisation have zero divergence, plane wave by plane wave. -/
theorem C37_divergence {n : ℕ} (pol : Pol) (k : ℝ × ℝ) (gvec : Fin n → ℝ × ℝ) (evec : Fin n → ℂ) (omega : ℝ)
    (i : Fin n) :
    divergence (fun j => fieldG k (gvec j)) (pweH pol k gvec evec) i = 0 ∧
    divergence (fun j => fieldG k (gvec j)) (pweD pol k gvec evec omega) i = 0 := by
  have hq : ((fieldG k (gvec i)).1 : ℂ) * ((unitQ k (gvec i)).1 : ℝ) +
      ((fieldG k (gvec i)).2 : ℂ) * ((unitQ k (gvec i)).2 : ℝ) = 0 := by
    norm_cast
    unfold unitQ unitP; simp only; ring
  cases pol <;> constructor <;> simp only [divergence, pweH, pweD, mul_zero, add_zero]
  · linear_combination (Complex.I / omega * evec i) * hq
  · linear_combination (evec i) * hq

/-- With the true wave vectors `k + G`, the divergence is at most `1e-10` times the amplitude. -/
theorem C37_divergence_true_partial {n : ℕ} (pol : Pol) (k : ℝ × ℝ) (gvec : Fin n → ℝ × ℝ) (evec : Fin n → ℂ)
    (i : Fin n) (h : kPlusG k (gvec i) ≠ (-1e-10, 0)) :
    ‖divergence (fun j => kPlusG k (gvec j)) (pweH pol k gvec evec) i‖ ≤ 1e-10 * ‖evec i‖ := by
  cases pol <;> simp only [divergence, pweH, mul_zero, add_zero, norm_zero]
  · positivity
  · have e : ((kPlusG k (gvec i)).1 : ℂ) * (evec i * ((unitQ k (gvec i)).1 : ℝ)) +
        ((kPlusG k (gvec i)).2 : ℂ) * (evec i * ((unitQ k (gvec i)).2 : ℝ)) =
        (((unitQ k (gvec i)).1 * (kPlusG k (gvec i)).1 + (unitQ k (gvec i)).2 * (kPlusG k (gvec i)).2 : ℝ) : ℂ) *
          evec i := by push_cast; ring
    rw [e, norm_mul, Complex.norm_real, Real.norm_eq_abs]
    exact mul_le_mul_of_nonneg_right (C37_unit_vectors_partial k (gvec i) h).2.2.2.2.2 (norm_nonneg _)

/-- The norm of the eigenvector is the norm of the magnetic field. -/
theorem C37_energy {n : ℕ} (pol : Pol) (k : ℝ × ℝ) (gvec : Fin n → ℝ × ℝ) (evec : Fin n → ℂ)
    (h : ∀ i, kPlusG k (gvec i) ≠ (-1e-10, 0)) :
    ∑ i, (‖(pweH pol k gvec evec).x i‖ ^ 2 + ‖(pweH pol k gvec evec).y i‖ ^ 2 +
      ‖(pweH pol k gvec evec).z i‖ ^ 2) = ∑ i, ‖evec i‖ ^ 2 := by
  refine sum_congr rfl fun i _ => ?_
  cases pol <;> simp only [pweH, norm_zero, norm_mul, Complex.norm_real, Real.norm_eq_abs, mul_pow, sq_abs]
  · ring
  · linear_combination ‖evec i‖ ^ 2 * (C37_unit_vectors_partial k (gvec i) (h i)).2.1

example : kPlusG (0.3, 0.2) (1, 0) ≠ (-1e-10, 0) := by
  unfold kPlusG; rw [Ne, Prod.ext_iff]; norm_num

example : (kPlusG (0.3, 0.2) (1, 0)).2 ≠ 0 := by norm_num [kPlusG]

/-! ### C73 -/

/-- Fourier components of `curl F` for plane waves with wave vectors `g` and no dependence on `z`. -/
noncomputable def curl {n : ℕ} (g : Fin n → ℝ × ℝ) (F : FtField n) : FtField n :=
  ⟨fun i => Complex.I * ((g i).2 * F.z i), fun i => -(Complex.I * ((g i).1 * F.z i)),
    fun i => Complex.I * ((g i).1 * F.y i - (g i).2 * F.x i)⟩

/-- Multiplication of every plane wave by a number. -/
noncomputable def FtField.weight {n : ℕ} (c : Fin n → ℂ) (F : FtField n) : FtField n :=
  ⟨fun i => c i * F.x i, fun i => c i * F.y i, fun i => c i * F.z i⟩

/-- Phase of the displacement field relative to the magnetic field. -/
noncomputable def polPhase : Pol → ℂ
  | .te => Complex.I
  | .tm => -Complex.I

/-- **C73 (partial).** The returned displacement field, with every plane wave multiplied by `i |k+G|` (TE) or
`-i |k+G|` (TM), obeys `D = (i/ω) curl H`.  Missing: the field as returned lacks the factor; by
`C73_not_maxwell` no common factor mends it. -/
theorem C73_ampere_partial {n : ℕ} (pol : Pol) (k : ℝ × ℝ) (gvec : Fin n → ℝ × ℝ) (evec : Fin n → ℂ) (omega : ℝ)
    (h : ∀ i, kPlusG k (gvec i) ≠ (-1e-10, 0)) :
    (pweD pol k gvec evec omega).weight (fun i => polPhase pol * (fieldNorm k (gvec i) : ℝ)) =
      (curl (fun i => fieldG k (gvec i)) (pweH pol k gvec evec)).weight (fun _ => Complex.I / omega) := by
  have hx : ∀ i, ((fieldNorm k (gvec i) : ℝ) : ℂ) * ((unitP k (gvec i)).1 : ℝ) = ((fieldG k (gvec i)).1 : ℝ) ∧
      ((fieldNorm k (gvec i) : ℝ) : ℂ) * ((unitP k (gvec i)).2 : ℝ) = ((fieldG k (gvec i)).2 : ℝ) := by
    intro i
    have hn : fieldNorm k (gvec i) ≠ 0 := by
      rw [fieldNorm_ne]
      intro hc
      apply h i
      unfold fieldG at hc
      rw [Prod.ext_iff] at hc ⊢
      simp only [kPlusG] at hc ⊢
      exact ⟨by linarith [hc.1], by linarith [hc.2]⟩
    constructor <;> norm_cast <;> unfold unitP <;> simp only <;> field_simp
  have hsum : ∀ i, ((fieldG k (gvec i)).1 : ℂ) * ((unitP k (gvec i)).1 : ℝ) +
      ((fieldG k (gvec i)).2 : ℂ) * ((unitP k (gvec i)).2 : ℝ) = ((fieldNorm k (gvec i) : ℝ) : ℂ) := by
    intro i
    have := (C37_unit_vectors_partial k (gvec i) (h i)).2.2.2.2.1
    norm_cast
    linarith
  cases pol
  · simp only [polPhase, pweD, pweH, curl, FtField.weight, unitQ, FtField.mk.injEq, mul_zero, sub_zero]
    refine ⟨funext fun i => ?_, funext fun i => ?_, trivial⟩
    · linear_combination (Complex.I * (Complex.I / omega) * evec i) * (hx i).2
    · push_cast
      linear_combination -(Complex.I * (Complex.I / omega) * evec i) * (hx i).1
  · simp only [polPhase, pweD, pweH, curl, FtField.weight, unitQ, FtField.mk.injEq, mul_zero, neg_zero, and_self, true_and]
    refine funext fun i => ?_
    push_cast
    linear_combination (Complex.I * Complex.I / omega * evec i) * hsum i

/-- **C73 (partial).** If the vector solves the eigenproblem at the shifted wave vector, the electric field computed
by the same routine from the corrected displacement field obeys `curl E = i ω H`: together with
`C73_ampere_partial`, Maxwell's equations for the frequency `ω`. -/
theorem C73_faraday_partial {n : ℕ} (pol : Pol) (k : ℝ × ℝ) (gvec : Fin n → ℝ × ℝ) (evec : Fin n → ℂ) (omega : ℝ)
    (E : Matrix (Fin n) (Fin n) ℂ) (ho : omega ≠ 0)
    (h : ∀ i, kPlusG k (gvec i) ≠ (-1e-10, 0))
    (hv : pweMat pol (k.1 + 1e-10, k.2) gvec E *ᵥ evec = ((omega : ℂ) ^ 2) • evec) :
    curl (fun i => fieldG k (gvec i)) (pweE E
        ((curl (fun i => fieldG k (gvec i)) (pweH pol k gvec evec)).weight (fun _ => Complex.I / omega))) =
      (pweH pol k gvec evec).weight (fun _ => Complex.I * omega) := by
  have ho' : (omega : ℂ) ≠ 0 := by exact_mod_cast ho
  have hv' : ∀ i, ∑ j, pweMat pol (k.1 + 1e-10, k.2) gvec E i j * evec j = (omega : ℂ) ^ 2 * evec i := by
    intro i
    have := congrFun hv i
    simpa [mulVec, dotProduct] using this
  have hk : ∀ i, kPlusG (k.1 + 1e-10, k.2) (gvec i) = fieldG k (gvec i) := by
    intro i; unfold kPlusG fieldG; rw [Prod.ext_iff]; constructor <;> simp only <;> ring
  have hII := Complex.I_mul_I
  cases pol
  · simp only [pweE, pweH, curl, FtField.weight, FtField.mk.injEq, mul_zero, sub_zero, mulVec, dotProduct,
      Finset.sum_const_zero, neg_zero, and_self, true_and]
    refine funext fun i => ?_
    have := hv' i
    simp only [pweMat, of_apply, hk] at this
    push_cast at this
    have e : Complex.I * (((fieldG k (gvec i)).1 : ℂ) * ∑ j, E i j * (Complex.I / omega *
          -(Complex.I * (((fieldG k (gvec j)).1 : ℂ) * evec j))) -
        ((fieldG k (gvec i)).2 : ℂ) * ∑ j, E i j * (Complex.I / omega *
          (Complex.I * (((fieldG k (gvec j)).2 : ℂ) * evec j)))) =
        Complex.I / omega * ∑ j, (((fieldG k (gvec i)).1 : ℂ) * (fieldG k (gvec j)).1 +
          ((fieldG k (gvec i)).2 : ℂ) * (fieldG k (gvec j)).2) * E i j * evec j := by
      rw [mul_sum, mul_sum, mul_sum, ← sum_sub_distrib, mul_sum]
      refine sum_congr rfl fun j _ => ?_
      linear_combination (-(Complex.I / omega * (((fieldG k (gvec i)).1 : ℂ) * (fieldG k (gvec j)).1 +
          ((fieldG k (gvec i)).2 : ℂ) * (fieldG k (gvec j)).2) * E i j * evec j)) * hII
    rw [e, this]
    field_simp
  · have hsum : ∀ i, ((fieldG k (gvec i)).1 : ℂ) * ((unitP k (gvec i)).1 : ℝ) +
        ((fieldG k (gvec i)).2 : ℂ) * ((unitP k (gvec i)).2 : ℝ) = ((fieldNorm k (gvec i) : ℝ) : ℂ) := by
      intro i
      have := (C37_unit_vectors_partial k (gvec i) (h i)).2.2.2.2.1
      norm_cast
      linarith
    have hx : ∀ i, ((fieldNorm k (gvec i) : ℝ) : ℂ) * ((unitP k (gvec i)).1 : ℝ) = ((fieldG k (gvec i)).1 : ℝ) ∧
        ((fieldNorm k (gvec i) : ℝ) : ℂ) * ((unitP k (gvec i)).2 : ℝ) = ((fieldG k (gvec i)).2 : ℝ) := by
      intro i
      have hn : fieldNorm k (gvec i) ≠ 0 := by
        rw [fieldNorm_ne]
        intro hc
        apply h i
        unfold fieldG at hc
        rw [Prod.ext_iff] at hc ⊢
        simp only [kPlusG] at hc ⊢
        exact ⟨by linarith [hc.1], by linarith [hc.2]⟩
      constructor <;> norm_cast <;> unfold unitP <;> simp only <;> field_simp
    have key : ∀ i, ∑ j, E i j * (Complex.I / omega * (Complex.I *
        (((fieldG k (gvec j)).1 : ℂ) * (evec j * ((unitQ k (gvec j)).2 : ℝ)) -
          ((fieldG k (gvec j)).2 : ℂ) * (evec j * ((unitQ k (gvec j)).1 : ℝ))))) * (fieldNorm k (gvec i) : ℝ) =
        omega * evec i := by
      intro i
      have := hv' i
      simp only [pweMat, of_apply, hk] at this
      have e : ∀ j, E i j * (Complex.I / omega * (Complex.I *
          (((fieldG k (gvec j)).1 : ℂ) * (evec j * ((unitQ k (gvec j)).2 : ℝ)) -
            ((fieldG k (gvec j)).2 : ℂ) * (evec j * ((unitQ k (gvec j)).1 : ℝ))))) * (fieldNorm k (gvec i) : ℝ) =
          1 / omega * (((fieldNorm k (gvec i) * fieldNorm k (gvec j) : ℝ) : ℂ) * E i j * evec j) := by
        intro j
        unfold unitQ
        simp only
        push_cast
        linear_combination (-(E i j * (1 / omega) * evec j * (fieldNorm k (gvec i) : ℝ)) *
            (Complex.I * Complex.I)) * hsum j -
          (E i j * (1 / omega) * evec j * (fieldNorm k (gvec i) : ℝ) * (fieldNorm k (gvec j) : ℝ)) * hII
      rw [sum_congr rfl fun j _ => e j, ← mul_sum]
      have e2 : ∑ j, ((fieldNorm k (gvec i) * fieldNorm k (gvec j) : ℝ) : ℂ) * E i j * evec j =
          (omega : ℂ) ^ 2 * evec i := this
      rw [e2]
      field_simp
    simp only [pweE, pweH, curl, FtField.weight, FtField.mk.injEq, mul_zero, sub_zero, mulVec, dotProduct,
      Finset.sum_const_zero, neg_zero, and_true]
    refine ⟨funext fun i => ?_, funext fun i => ?_⟩
    · have k1 := key i
      rw [← sum_mul] at k1
      unfold unitQ at k1 ⊢
      simp only at k1 ⊢
      rw [← (hx i).2]
      linear_combination (Complex.I * ((unitP k (gvec i)).2 : ℝ)) * k1
    · have k1 := key i
      rw [← sum_mul] at k1
      unfold unitQ at k1 ⊢
      simp only at k1 ⊢
      rw [← (hx i).1]
      push_cast at k1 ⊢
      linear_combination (-(Complex.I * ((unitP k (gvec i)).1 : ℝ))) * k1

/-- **C73, violation.** If two plane waves of different `|k+G|` have nonzero amplitude, the returned displacement
field is not proportional to `curl H`, for any constant of proportionality: the fields returned for such a
mode are not a solution of Maxwell's equations. -/
theorem C73_not_maxwell {n : ℕ} (pol : Pol) (k : ℝ × ℝ) (gvec : Fin n → ℝ × ℝ) (evec : Fin n → ℂ) (omega : ℝ)
    (ho : omega ≠ 0) (h : ∀ i, kPlusG k (gvec i) ≠ (-1e-10, 0)) (i j : Fin n) (hi : evec i ≠ 0) (hj : evec j ≠ 0)
    (hij : fieldNorm k (gvec i) ≠ fieldNorm k (gvec j)) (c : ℂ) :
    pweD pol k gvec evec omega ≠ (curl (fun i => fieldG k (gvec i)) (pweH pol k gvec evec)).weight (fun _ => c) := by
  intro hD
  have ho' : (omega : ℂ) ≠ 0 := by exact_mod_cast ho
  have hA := C73_ampere_partial pol k gvec evec omega h
  rw [hD] at hA
  set s : ℂ := polPhase pol with hs
  have hs0 : s ≠ 0 := by rw [hs]; cases pol <;> simp [polPhase]
  -- a nonzero component of the curl at every plane wave of nonzero amplitude
  have hcurl : ∀ a, evec a ≠ 0 → (s * (fieldNorm k (gvec a) : ℝ)) * c = Complex.I / omega := by
    intro a ha
    have hn : fieldG k (gvec a) ≠ (0, 0) := by
      intro hc
      apply h a
      unfold fieldG at hc
      rw [Prod.ext_iff] at hc ⊢
      simp only [kPlusG] at hc ⊢
      exact ⟨by linarith [hc.1], by linarith [hc.2]⟩
    have hx := congrFun (congrArg FtField.x hA) a
    have hy := congrFun (congrArg FtField.y hA) a
    have hz := congrFun (congrArg FtField.z hA) a
    have hnz : (curl (fun i => fieldG k (gvec i)) (pweH pol k gvec evec)).x a ≠ 0 ∨
        (curl (fun i => fieldG k (gvec i)) (pweH pol k gvec evec)).y a ≠ 0 ∨
        (curl (fun i => fieldG k (gvec i)) (pweH pol k gvec evec)).z a ≠ 0 := by
      cases pol
      · by_cases h2 : (fieldG k (gvec a)).2 = 0
        · have h1 : (fieldG k (gvec a)).1 ≠ 0 := fun h1 => hn (Prod.ext h1 h2)
          right; left
          simp [curl, pweH, h1, ha]
        · left
          simp [curl, pweH, h2, ha]
      · right; right
        have hsum := (C37_unit_vectors_partial k (gvec a) (h a)).2.2.2.2.1
        have h0 : fieldNorm k (gvec a) ≠ 0 := fieldNorm_ne.2 hn
        have e : (curl (fun i => fieldG k (gvec i)) (pweH Pol.tm k gvec evec)).z a =
            -(Complex.I * evec a * ((fieldNorm k (gvec a) : ℝ) : ℂ)) := by
          rw [← hsum]
          simp only [curl, pweH, unitQ]
          push_cast; ring
        rw [e, neg_ne_zero]
        exact mul_ne_zero (mul_ne_zero Complex.I_ne_zero ha) (by exact_mod_cast h0)
    simp only [FtField.weight, ← mul_assoc] at hx hy hz
    rcases hnz with h1 | h1 | h1
    · exact mul_right_cancel₀ h1 hx
    · exact mul_right_cancel₀ h1 hy
    · exact mul_right_cancel₀ h1 hz
  have e1 := hcurl i hi
  have e2 := hcurl j hj
  have hc : c ≠ 0 := by
    intro hc
    rw [hc, mul_zero] at e1
    exact (div_ne_zero Complex.I_ne_zero ho') e1.symm
  apply hij
  have : (s * (fieldNorm k (gvec i) : ℝ)) * c = (s * (fieldNorm k (gvec j) : ℝ)) * c := e1.trans e2.symm
  have := mul_left_cancel₀ hs0 (mul_right_cancel₀ hc this)
  exact_mod_cast this

example : fieldNorm (0, 0) (1, 0) ≠ fieldNorm (0, 0) (2, 0) := by
  unfold fieldNorm fieldG
  rw [Ne, Real.sqrt_inj (by norm_num) (by norm_num)]
  norm_num

example : pweMat .te ((1 - 1e-10 : ℝ) + 1e-10, 0) ![(0, 0)] (1 : Matrix (Fin 1) (Fin 1) ℂ) *ᵥ ![1] =
    (((1 : ℝ) : ℂ) ^ 2) • ![1] := by
  funext i
  fin_cases i
  simp [mulVec, dotProduct, pweMat, kPlusG]

example : pweD .te (0, 0) ![(1, 0), (2, 0)] ![1, 1] 1 ≠
    (curl (fun i => fieldG (0, 0) ((![(1, 0), (2, 0)] : Fin 2 → ℝ × ℝ) i))
      (pweH .te (0, 0) ![(1, 0), (2, 0)] ![1, 1])).weight (fun _ => 1) := by
  refine C73_not_maxwell .te (0, 0) _ ![1, 1] 1 one_ne_zero (fun i => ?_) 0 1 (by simp) (by simp) ?_ 1
  · fin_cases i <;> · rw [Ne, Prod.ext_iff]; norm_num [kPlusG]
  · simp only [Matrix.cons_val_zero, Matrix.cons_val_one]
    unfold fieldNorm fieldG
    rw [Ne, Real.sqrt_inj (by norm_num) (by norm_num)]
    norm_num

/-! ### C74 -/

theorem fieldComponents_spec {F R : Type} (ft : Char → F) (inv : F → R) : ∀ (cs : List Char) (fi : List (Char × R)),
    (fi.map (·.1)).Nodup → (∀ x ∈ fi, x.2 = inv (ft x.1)) →
    ((∃ c ∈ cs, c ≠ 'x' ∧ c ≠ 'y' ∧ c ≠ 'z') → fieldComponents ft inv cs fi = .error .valueError) ∧
    ((∀ c ∈ cs, c = 'x' ∨ c = 'y' ∨ c = 'z') → ∃ r, fieldComponents ft inv cs fi = .ok r ∧
      (r.map (·.1)).Nodup ∧ (∀ x ∈ r, x.2 = inv (ft x.1)) ∧
      ∀ c, c ∈ r.map (·.1) ↔ c ∈ cs ∨ c ∈ fi.map (·.1)) := by
  intro cs
  induction cs with
  | nil =>
    intro fi h1 h2
    exact ⟨fun ⟨c, hc, _⟩ => by simp at hc, fun _ => ⟨fi, rfl, h1, h2, fun c => by simp⟩⟩
  | cons c cs ih =>
    intro fi h1 h2
    by_cases hc : c = 'x' ∨ c = 'y' ∨ c = 'z'
    · by_cases hm : (fi.map (·.1)).contains c = true
      · obtain ⟨i1, i2⟩ := ih fi h1 h2
        have hs : fieldComponents ft inv (c :: cs) fi = fieldComponents ft inv cs fi := by
          rw [fieldComponents, if_pos hc, if_pos hm]
        rw [hs]
        refine ⟨?_, ?_⟩
        · rintro ⟨d, hd, hn⟩
          rcases List.mem_cons.1 hd with rfl | hd
          · rcases hc with rfl | rfl | rfl <;> simp at hn
          · exact i1 ⟨d, hd, hn⟩
        · intro hall
          obtain ⟨r, r1, r2, r3, r4⟩ := i2 fun d hd => hall d (List.mem_cons_of_mem _ hd)
          refine ⟨r, r1, r2, r3, fun d => ?_⟩
          rw [r4, List.mem_cons]
          have hm' : c ∈ fi.map (·.1) := by simpa using hm
          constructor
          · rintro (h | h)
            · exact .inl (.inr h)
            · exact .inr h
          · rintro ((rfl | h) | h)
            · exact .inr hm'
            · exact .inl h
            · exact .inr h
      · have hm' : c ∉ fi.map (·.1) := by
          intro h; apply hm; simpa using h
        obtain ⟨i1, i2⟩ := ih (fi ++ [(c, inv (ft c))])
          (by rw [List.map_append, List.nodup_append]; refine ⟨h1, by simp, ?_⟩
              intro a ha b hb; simp only [List.map_cons, List.map_nil, List.mem_singleton] at hb
              rintro rfl; exact hm' (hb ▸ ha))
          (by intro x hx; rcases List.mem_append.1 hx with h | h
              · exact h2 x h
              · simp only [List.mem_singleton] at h; subst h; rfl)
        have hs : fieldComponents ft inv (c :: cs) fi = fieldComponents ft inv cs (fi ++ [(c, inv (ft c))]) := by
          rw [fieldComponents, if_pos hc, if_neg hm]
        rw [hs]
        refine ⟨?_, ?_⟩
        · rintro ⟨d, hd, hn⟩
          rcases List.mem_cons.1 hd with rfl | hd
          · rcases hc with rfl | rfl | rfl <;> simp at hn
          · exact i1 ⟨d, hd, hn⟩
        · intro hall
          obtain ⟨r, r1, r2, r3, r4⟩ := i2 fun d hd => hall d (List.mem_cons_of_mem _ hd)
          refine ⟨r, r1, r2, r3, fun d => ?_⟩
          rw [r4, List.mem_cons, List.map_append, List.mem_append]
          simp only [List.map_cons, List.map_nil, List.mem_singleton]
          tauto
    · have hs : fieldComponents ft inv (c :: cs) fi = .error .valueError := by
        rw [fieldComponents, if_neg hc]
      rw [hs]
      refine ⟨fun _ => rfl, fun hall => absurd (hall c List.mem_cons_self) hc⟩

/-- **C74.** A request for components succeeds exactly when every character is `x`, `y` or `z`; the dictionary
then has exactly the requested components as keys, once each, whatever the order and the repetitions, and
each is the inverse transform of that component. -/
theorem C74_components {F R : Type} (ft : Char → F) (inv : F → R) (cs : List Char) :
    ((∃ c ∈ cs, c ≠ 'x' ∧ c ≠ 'y' ∧ c ≠ 'z') → fieldComponents ft inv cs [] = .error .valueError) ∧
    ((∀ c ∈ cs, c = 'x' ∨ c = 'y' ∨ c = 'z') → ∃ r, fieldComponents ft inv cs [] = .ok r ∧
      (r.map (·.1)).Nodup ∧ (∀ x ∈ r, x.2 = inv (ft x.1)) ∧ ∀ c, c ∈ r.map (·.1) ↔ c ∈ cs) := by
  obtain ⟨h1, h2⟩ := fieldComponents_spec ft inv cs [] (by simp) (by simp)
  refine ⟨h1, fun h => ?_⟩
  obtain ⟨r, r1, r2, r3, r4⟩ := h2 h
  exact ⟨r, r1, r2, r3, fun c => by rw [r4]; simp⟩

/-- **C74.** The field names `H`, `D`, `E` are accepted in either case and give the three fields; `E` is the inverse
permittivity applied to `D`; any other name raises `TypeError`. -/
theorem C74_field_names {n : ℕ} (pol : Pol) (k : ℝ × ℝ) (gvec : Fin n → ℝ × ℝ) (E : Matrix (Fin n) (Fin n) ℂ)
    (evec : Fin n → ℂ) (omega : ℝ) :
    (∀ f, f = "h" ∨ f = "H" → pweField f pol k gvec E evec omega = .ok (pweH pol k gvec evec)) ∧
    (∀ f, f = "d" ∨ f = "D" → pweField f pol k gvec E evec omega = .ok (pweD pol k gvec evec omega)) ∧
    (∀ f, f = "e" ∨ f = "E" → ∃ F, pweField f pol k gvec E evec omega = .ok F ∧
      F.x = E *ᵥ (pweD pol k gvec evec omega).x ∧ F.y = E *ᵥ (pweD pol k gvec evec omega).y ∧
      F.z = E *ᵥ (pweD pol k gvec evec omega).z) ∧
    (∀ f : String, pyLower f ≠ ['h'] → pyLower f ≠ ['d'] → pyLower f ≠ ['e'] →
      pweField f pol k gvec E evec omega = .error .typeError) := by
  unfold pweField
  have e1 : pyLower "h" = ['h'] := by decide
  have e2 : pyLower "H" = ['h'] := by decide
  have e3 : pyLower "d" = ['d'] := by decide
  have e4 : pyLower "D" = ['d'] := by decide
  have e5 : pyLower "e" = ['e'] := by decide
  have e6 : pyLower "E" = ['e'] := by decide
  refine ⟨?_, ?_, ?_, ?_⟩
  · rintro f (rfl | rfl)
    · rw [if_pos e1]
    · rw [if_pos e2]
  · rintro f (rfl | rfl)
    · rw [e3, if_neg (by decide), if_pos rfl]
    · rw [e4, if_neg (by decide), if_pos rfl]
  · rintro f (rfl | rfl)
    · rw [e5, if_neg (by decide), if_neg (by decide), if_pos rfl]; exact ⟨_, rfl, rfl, rfl, rfl⟩
    · rw [e6, if_neg (by decide), if_neg (by decide), if_pos rfl]; exact ⟨_, rfl, rfl, rfl, rfl⟩
  · intro f h1 h2 h3
    rw [if_neg h1, if_neg h2, if_neg h3]

example : fieldComponents (fun c => c) (fun c => c) "xzx".toList [] = .ok [('x', 'x'), ('z', 'z')] := by decide
example : fieldComponents (fun c => c) (fun c => c) "xr".toList [] = .error .valueError := by decide

end Legume
