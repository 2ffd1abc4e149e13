import Mathlib.LinearAlgebra.Matrix.Charpoly.Basic
import Mathlib.LinearAlgebra.Matrix.Charpoly.Coeff
import Mathlib.Analysis.Complex.Polynomial.Basic
import Mathlib.Tactic.LinearCombination
import Mathlib.Analysis.SpecialFunctions.Sqrt
import Verif.Model.Hopfield
import Verif.Spec.Exc

/-!
# C40, C41 and C76 to C80: polaritons
-/
namespace Legume
open Matrix

/-! ### C40 -/

theorem sum_take_drop (l : List ℝ) (n : ℕ) : (l.take n).sum + (l.drop n).sum = l.sum := by
  rw [← List.sum_append, List.take_append_drop]

/-- **C40.** For every vector the fractions are not negative and add up to the squared norm, whatever the
numbers of modes are. -/
theorem C40_fractions (N K : ℕ) (v : List ℂ) :
    0 ≤ fracPh N K v ∧ 0 ≤ fracEx N K v ∧ fracPh N K v + fracEx N K v = (v.map fun z => ‖z‖ ^ 2).sum := by
  have hn : ∀ l : List ℂ, 0 ≤ (l.map fun z => ‖z‖ ^ 2).sum := by
    intro l
    apply List.sum_nonneg
    intro x hx
    obtain ⟨z, -, rfl⟩ := List.mem_map.1 hx
    positivity
  refine ⟨add_nonneg (hn _) (hn _), add_nonneg (hn _) (hn _), ?_⟩
  unfold fracPh fracEx
  simp only [List.map_take, List.map_drop]
  set l := v.map fun z => ‖z‖ ^ 2
  have h1 := sum_take_drop l (2 * N + K)
  have h2 := sum_take_drop (l.take (2 * N + K)) (N + K)
  have h3 := sum_take_drop (l.take (N + K)) N
  rw [List.take_take, min_eq_left (by omega)] at h2 h3
  linarith

/-- **C40.** The photonic fraction is made of the first and third block, the excitonic fraction of the second
and fourth. -/
theorem C40_blocks (p1 x1 p2 x2 : List ℂ) (hp : p2.length = p1.length) (hx : x2.length = x1.length) :
    fracPh p1.length x1.length (p1 ++ x1 ++ p2 ++ x2) =
      (p1.map fun z => ‖z‖ ^ 2).sum + (p2.map fun z => ‖z‖ ^ 2).sum ∧
    fracEx p1.length x1.length (p1 ++ x1 ++ p2 ++ x2) =
      (x1.map fun z => ‖z‖ ^ 2).sum + (x2.map fun z => ‖z‖ ^ 2).sum := by
  have e0 : (p1 ++ x1 ++ p2 ++ x2).take p1.length = p1 := by simp [List.append_assoc]
  have e1 : (p1 ++ x1 ++ p2 ++ x2).take (2 * p1.length + x1.length) = p1 ++ x1 ++ p2 :=
    List.take_left' (by simp [hp]; omega)
  have e2 : (p1 ++ x1 ++ p2).drop (p1.length + x1.length) = p2 := List.drop_left' (by simp)
  have e3 : (p1 ++ x1 ++ p2 ++ x2).take (p1.length + x1.length) = p1 ++ x1 := by
    rw [List.append_assoc (p1 ++ x1)]
    exact List.take_left' (by simp)
  have e4 : (p1 ++ x1 ++ p2 ++ x2).drop (2 * p1.length + x1.length) = x2 :=
    List.drop_left' (by simp [hp]; omega)
  unfold fracPh fracEx
  rw [e0, e1, e2, e3, e4, List.drop_left' rfl]
  exact ⟨rfl, rfl⟩

example : fracPh 1 1 [3, 0, 0, 4] = 9 ∧ fracEx 1 1 [3, 0, 0, 4] = 16 := by
  have := C40_blocks [3] [0] [0] [4] rfl rfl
  norm_num at this
  exact this

/-! ### Blocks of the Hopfield problem -/

variable {N Q m : ℕ}

/-- A vector from its four blocks. -/
def hvec (v0 : Fin N → ℂ) (v1 : Fin (Q + 1) × Fin m → ℂ) (v2 : Fin N → ℂ) (v3 : Fin (Q + 1) × Fin m → ℂ) :
    HIdx N Q m → ℂ := Sum.elim (Sum.elim v0 v1) (Sum.elim v2 v3)

theorem hvec_eta (v : HIdx N Q m → ℂ) : v = hvec (fun n => v (.inl (.inl n))) (fun x => v (.inl (.inr x)))
    (fun n => v (.inr (.inl n))) (fun x => v (.inr (.inr x))) := by
  funext i
  rcases i with (n | x) | (n | x) <;> rfl

/-- Coupling of all wells side by side (`C_final_block`). -/
def hopCf (C : Fin (Q + 1) → Matrix (Fin N) (Fin m) ℂ) : Matrix (Fin N) (Fin (Q + 1) × Fin m) ℂ :=
  Matrix.of fun n x => C x.1 n x.2

/-- Photonic block. -/
noncomputable def hopA (ph : Fin N → ℂ) (en : Fin (Q + 1) → Fin m → ℂ)
    (C : Fin (Q + 1) → Matrix (Fin N) (Fin m) ℂ) : Matrix (Fin N) (Fin N) ℂ :=
  Matrix.diagonal ph + Matrix.of fun n1 n2 => 2 * ((((∑ q, hopD (C q) (en q)) n1 n2).re : ℝ) : ℂ)

/-- Excitonic block. -/
def hopX (en : Fin (Q + 1) → Fin m → ℂ) : Matrix (Fin (Q + 1) × Fin m) (Fin (Q + 1) × Fin m) ℂ :=
  Matrix.diagonal fun x => en x.1 x.2

theorem hop_eq (ph : Fin N → ℂ) (en : Fin (Q + 1) → Fin m → ℂ) (C : Fin (Q + 1) → Matrix (Fin N) (Fin m) ℂ) :
    hopfield ph en C = Matrix.fromBlocks
    (Matrix.fromBlocks (hopA ph en C) (-(Complex.I • hopCf C)) (Complex.I • (hopCf C)ᴴ) (hopX en))
    (Matrix.fromBlocks (-((2 : ℂ) • hopD (C (Fin.last Q)) (en (Fin.last Q)))) (-(Complex.I • hopCf C))
      (-(Complex.I • (hopCf C)ᴴ)) 0)
    (Matrix.fromBlocks ((2 : ℂ) • hopD (C (Fin.last Q)) (en (Fin.last Q))) (-(Complex.I • hopCf C))
      (-(Complex.I • (hopCf C)ᴴ)) 0)
    (Matrix.fromBlocks (-hopA ph en C) (-(Complex.I • hopCf C)) (Complex.I • (hopCf C)ᴴ) (-hopX en)) := rfl

/-- Block swap with a sign on the excitons. -/
def hopS (N Q m : ℕ) : Matrix (HIdx N Q m) (HIdx N Q m) ℂ :=
  Matrix.fromBlocks 0 (Matrix.fromBlocks 1 0 0 (-1)) (Matrix.fromBlocks 1 0 0 (-1)) 0

theorem hopS_sq : hopS N Q m * hopS N Q m = 1 := by
  unfold hopS
  simp only [Matrix.fromBlocks_multiply]
  simp [Matrix.fromBlocks_one]

theorem hopS_anti (ph : Fin N → ℂ) (en : Fin (Q + 1) → Fin m → ℂ) (C : Fin (Q + 1) → Matrix (Fin N) (Fin m) ℂ) :
    hopS N Q m * hopfield ph en C * hopS N Q m = -hopfield ph en C := by
  rw [hop_eq]
  unfold hopS
  simp only [Matrix.fromBlocks_multiply, Matrix.fromBlocks_neg, Matrix.fromBlocks_add]
  simp [Matrix.fromBlocks_multiply]

theorem hopS_mulVec (v0 : Fin N → ℂ) (v1 : Fin (Q + 1) × Fin m → ℂ) (v2 : Fin N → ℂ)
    (v3 : Fin (Q + 1) × Fin m → ℂ) : hopS N Q m *ᵥ hvec v0 v1 v2 v3 = hvec v2 (-v3) v0 (-v1) := by
  have h : ∀ (a : Fin N → ℂ) (b : Fin (Q + 1) × Fin m → ℂ),
      (Matrix.fromBlocks 1 0 0 (-1) : Matrix (Fin N ⊕ (Fin (Q + 1) × Fin m)) _ ℂ) *ᵥ Sum.elim a b =
        Sum.elim a (-b) := by
    intro a b
    rw [Matrix.fromBlocks_mulVec]
    simp [Matrix.neg_mulVec]
  unfold hopS hvec
  rw [Matrix.fromBlocks_mulVec]
  simp [h]

/-! ### C41 -/

/-- **C41.** For all photon and exciton energies, with or without losses, and all couplings: with `w` also `-w`
is an eigenvalue, with a vector whose blocks are exchanged, hence with the same photonic and excitonic
content. -/
theorem C41_pairs (ph : Fin N → ℂ) (en : Fin (Q + 1) → Fin m → ℂ) (C : Fin (Q + 1) → Matrix (Fin N) (Fin m) ℂ)
    (w : ℂ) (v : HIdx N Q m → ℂ) (hv : v ≠ 0) (h : hopfield ph en C *ᵥ v = w • v) :
    ∃ u : HIdx N Q m → ℂ, u ≠ 0 ∧ hopfield ph en C *ᵥ u = (-w) • u ∧
      (∀ n, ‖u (.inl (.inl n))‖ = ‖v (.inr (.inl n))‖ ∧ ‖u (.inr (.inl n))‖ = ‖v (.inl (.inl n))‖) ∧
      (∀ x, ‖u (.inl (.inr x))‖ = ‖v (.inr (.inr x))‖ ∧ ‖u (.inr (.inr x))‖ = ‖v (.inl (.inr x))‖) := by
  have hanti := hopS_anti ph en C
  refine ⟨hopS N Q m *ᵥ v, ?_, ?_, ?_, ?_⟩
  · intro h0
    apply hv
    have := congrArg (hopS N Q m *ᵥ ·) h0
    simpa [Matrix.mulVec_mulVec, hopS_sq] using this
  · have h1 : hopS N Q m * hopfield ph en C = -(hopfield ph en C * hopS N Q m) := by
      have := congrArg (· * hopS N Q m) hanti
      simpa [Matrix.mul_assoc, hopS_sq] using this
    have h2 : hopfield ph en C * hopS N Q m = -(hopS N Q m * hopfield ph en C) := by rw [h1, neg_neg]
    rw [Matrix.mulVec_mulVec, h2, Matrix.neg_mulVec, ← Matrix.mulVec_mulVec, h, Matrix.mulVec_smul, neg_smul]
  · intro n
    conv_lhs => rw [hvec_eta v, hopS_mulVec]
    rw [hvec_eta v, hopS_mulVec]
    exact ⟨rfl, rfl⟩
  · intro x
    rw [hvec_eta v, hopS_mulVec]
    simp [hvec]

theorem even_char {ι : Type} [Fintype ι] [DecidableEq ι] (M : Matrix ι ι ℂ) (hc : Even (Fintype.card ι)) :
    (-M).charpoly = M.charpoly.comp (-Polynomial.X) := by
  apply Polynomial.funext
  intro x
  rw [Polynomial.eval_comp, Matrix.eval_charpoly, Matrix.eval_charpoly]
  have : Matrix.scalar ι x - -M = -(Matrix.scalar ι (Polynomial.eval x (-Polynomial.X : Polynomial ℂ)) - M) := by
    rw [Polynomial.eval_neg, Polynomial.eval_X, map_neg]
    abel
  rw [this, Matrix.det_neg, hc.neg_one_pow, one_mul]

theorem charpoly_invol {ι : Type} [Fintype ι] [DecidableEq ι] (S M : Matrix ι ι ℂ) (h : S * S = 1) :
    (S * M * S).charpoly = M.charpoly := by
  rw [Matrix.charpoly_mul_comm, ← Matrix.mul_assoc, h, Matrix.one_mul]

theorem hop_card : Even (Fintype.card (HIdx N Q m)) := by
  rw [Fintype.card_sum]
  exact ⟨_, rfl⟩

theorem hop_charpoly (ph : Fin N → ℂ) (en : Fin (Q + 1) → Fin m → ℂ)
    (C : Fin (Q + 1) → Matrix (Fin N) (Fin m) ℂ) :
    (-hopfield ph en C).charpoly = (hopfield ph en C).charpoly := by
  rw [← hopS_anti]
  exact charpoly_invol _ _ hopS_sq

/-- **C41.** The same with multiplicities: the list of all eigenvalues is unchanged by the sign. -/
theorem C41_multiplicities (ph : Fin N → ℂ) (en : Fin (Q + 1) → Fin m → ℂ)
    (C : Fin (Q + 1) → Matrix (Fin N) (Fin m) ℂ) :
    (hopfield ph en C).charpoly.roots.map (fun w => -w) = (hopfield ph en C).charpoly.roots := by
  rw [← Polynomial.roots_comp_neg_X, ← even_char _ hop_card, hop_charpoly]

/-- Metric under which the lossless problem is self-adjoint. -/
def hopEta (N Q m : ℕ) : Matrix (HIdx N Q m) (HIdx N Q m) ℂ := Matrix.fromBlocks 1 0 0 (-1)

theorem hopEta_sq : hopEta N Q m * hopEta N Q m = 1 := by
  unfold hopEta
  rw [Matrix.fromBlocks_multiply]
  simp [Matrix.fromBlocks_one]

theorem hopD_herm (C : Matrix (Fin N) (Fin m) ℂ) (en : Fin m → ℂ) : (hopD C en)ᴴ = hopD C en := by
  ext i j
  simp only [hopD, Matrix.conjTranspose_apply, Matrix.of_apply, star_sum]
  apply Finset.sum_congr rfl
  intro nu _
  simp only [RCLike.star_def, map_div₀, map_mul, Complex.conj_conj, Complex.conj_ofReal]
  ring

theorem hopA_herm (ph : Fin N → ℂ) (en : Fin (Q + 1) → Fin m → ℂ) (C : Fin (Q + 1) → Matrix (Fin N) (Fin m) ℂ)
    (hph : ∀ n, (ph n).im = 0) : (hopA ph en C)ᴴ = hopA ph en C := by
  have hD : (∑ q, hopD (C q) (en q))ᴴ = ∑ q, hopD (C q) (en q) := by
    rw [Matrix.conjTranspose_sum]
    exact Finset.sum_congr rfl fun q _ => hopD_herm _ _
  unfold hopA
  rw [Matrix.conjTranspose_add]
  congr 1
  · rw [Matrix.diagonal_conjTranspose]
    congr 1
    funext n
    simp only [Pi.star_apply, RCLike.star_def]
    exact Complex.conj_eq_iff_im.2 (hph n)
  · ext i j
    simp only [Matrix.conjTranspose_apply, Matrix.of_apply, RCLike.star_def, map_mul, Complex.conj_ofReal]
    have := congrFun (congrFun hD i) j
    rw [Matrix.conjTranspose_apply, RCLike.star_def] at this
    rw [← this, Complex.conj_re, Complex.conj_ofNat]

theorem hopEta_herm (ph : Fin N → ℂ) (en : Fin (Q + 1) → Fin m → ℂ) (C : Fin (Q + 1) → Matrix (Fin N) (Fin m) ℂ)
    (hph : ∀ n, (ph n).im = 0) (hen : ∀ q x, (en q x).im = 0) :
    hopEta N Q m * hopfield ph en C * hopEta N Q m = (hopfield ph en C)ᴴ := by
  have hX : (hopX en)ᴴ = hopX en := by
    unfold hopX
    rw [Matrix.diagonal_conjTranspose]
    congr 1
    funext x
    simp only [Pi.star_apply, RCLike.star_def]
    exact Complex.conj_eq_iff_im.2 (hen x.1 x.2)
  rw [hop_eq]
  unfold hopEta
  simp only [Matrix.fromBlocks_multiply, Matrix.fromBlocks_neg, Matrix.fromBlocks_add,
    Matrix.fromBlocks_conjTranspose, Matrix.conjTranspose_neg, Matrix.conjTranspose_smul, hX,
    hopA_herm ph en C hph, hopD_herm, Matrix.conjTranspose_conjTranspose, Matrix.conjTranspose_zero]
  simp [Matrix.fromBlocks_neg]

/-- **C41 (partial).** Without losses (all photon and exciton energies real) the spectrum is also closed under
complex conjugation, so that with `w` also `-conj w` is an eigenvalue, with the same multiplicity.  Missing: the
lossy case, where this fails (`C41_not_conjugate`) and `-w` takes its place (`C41_pairs`). -/
theorem C41_lossless_partial (ph : Fin N → ℂ) (en : Fin (Q + 1) → Fin m → ℂ)
    (C : Fin (Q + 1) → Matrix (Fin N) (Fin m) ℂ) (hph : ∀ n, (ph n).im = 0) (hen : ∀ q x, (en q x).im = 0) :
    (hopfield ph en C).charpoly.roots.map (fun w => -(starRingEnd ℂ) w) = (hopfield ph en C).charpoly.roots := by
  have h1 : ((hopfield ph en C)ᴴ).charpoly = (hopfield ph en C).charpoly := by
    rw [← hopEta_herm ph en C hph hen]
    exact charpoly_invol _ _ hopEta_sq
  have h2 : ((hopfield ph en C)ᴴ).charpoly = (hopfield ph en C).charpoly.map (starRingEnd ℂ) := by
    have : (hopfield ph en C)ᴴ = ((hopfield ph en C).transpose).map (starRingEnd ℂ) := rfl
    rw [this, Matrix.charpoly_map, Matrix.charpoly_transpose]
  have h3 : (hopfield ph en C).charpoly.roots.map (starRingEnd ℂ) = (hopfield ph en C).charpoly.roots := by
    conv_rhs => rw [← h1, h2]
    apply Multiset.ext.2
    intro a
    have hinj : Function.Injective (starRingEnd ℂ) := (starRingEnd ℂ).injective
    have ha : a = (starRingEnd ℂ) ((starRingEnd ℂ) a) := (Complex.conj_conj a).symm
    conv_lhs => rw [ha]
    conv_rhs => rw [ha]
    rw [Multiset.count_map_eq_count' _ _ hinj, Polynomial.count_roots, Polynomial.count_roots,
      ← Polynomial.eq_rootMultiplicity_map hinj]
  conv_rhs => rw [← C41_multiplicities, ← h3, Multiset.map_map]
  rfl

/-- **C41.** With losses the property fails as stated: a photon of energy `1 + i`, an exciton of energy `3`, no
coupling.  `1 + i` is an eigenvalue and `-conj (1 + i) = -1 + i` is not. -/
theorem C41_not_conjugate : ∃ (ph : Fin 1 → ℂ) (en : Fin (0 + 1) → Fin 1 → ℂ)
    (C : Fin (0 + 1) → Matrix (Fin 1) (Fin 1) ℂ) (w : ℂ),
    (∃ v : HIdx 1 0 1 → ℂ, v ≠ 0 ∧ hopfield ph en C *ᵥ v = w • v) ∧
    ∀ u : HIdx 1 0 1 → ℂ, hopfield ph en C *ᵥ u = (-(starRingEnd ℂ) w) • u → u = 0 := by
  have hdiag : hopfield (fun _ : Fin 1 => (1 + Complex.I : ℂ)) (fun (_ : Fin (0 + 1)) (_ : Fin 1) => (3 : ℂ)) 0 =
      Matrix.diagonal (Sum.elim (Sum.elim (fun _ => (1 + Complex.I : ℂ)) fun _ => 3)
        (Sum.elim (fun _ => -(1 + Complex.I : ℂ)) fun _ => -3)) := by
    have hD : hopD (0 : Matrix (Fin 1) (Fin 1) ℂ) (fun _ => (3 : ℂ)) = 0 := by
      ext i j; simp [hopD]
    have hC : hopCf (0 : Fin (0 + 1) → Matrix (Fin 1) (Fin 1) ℂ) = 0 := by ext i j; simp [hopCf]
    have hA : hopA (fun _ : Fin 1 => (1 + Complex.I : ℂ)) (fun (_ : Fin (0 + 1)) (_ : Fin 1) => (3 : ℂ)) 0 =
        Matrix.diagonal fun _ => (1 + Complex.I : ℂ) := by
      unfold hopA
      ext i j
      simp [hD]
    rw [hop_eq, hA, hC]
    simp only [Pi.zero_apply, hD, hopX]
    simp [← Matrix.fromBlocks_diagonal, Matrix.diagonal_neg]
  refine ⟨fun _ => 1 + Complex.I, fun _ _ => 3, 0, 1 + Complex.I, ⟨Sum.elim (Sum.elim (fun _ => 1) 0) 0, ?_, ?_⟩, ?_⟩
  · intro h
    have := congrFun h (.inl (.inl 0))
    simp at this
  · rw [hdiag]
    funext i
    rw [Matrix.mulVec_diagonal]
    rcases i with (n | x) | (n | x) <;> simp
  · intro u hu
    rw [hdiag] at hu
    funext i
    have := congrFun hu i
    rw [Matrix.mulVec_diagonal, Pi.smul_apply, smul_eq_mul] at this
    have h2 := mul_eq_mul_right_iff.1 this
    rcases h2 with h2 | h2
    · exfalso
      rcases i with (n | x) | (n | x) <;> simp [Complex.ext_iff] at h2 <;> norm_num at h2
    · exact h2

/-! ### Eigenvalue equations block by block -/

theorem hop_mulVec (ph : Fin N → ℂ) (en : Fin (Q + 1) → Fin m → ℂ) (C : Fin (Q + 1) → Matrix (Fin N) (Fin m) ℂ)
    (v0 : Fin N → ℂ) (v1 : Fin (Q + 1) × Fin m → ℂ) (v2 : Fin N → ℂ) (v3 : Fin (Q + 1) × Fin m → ℂ) :
    hopfield ph en C *ᵥ hvec v0 v1 v2 v3 = hvec
      (hopA ph en C *ᵥ v0 - Complex.I • (hopCf C *ᵥ v1) - (2 : ℂ) • (hopD (C (Fin.last Q)) (en (Fin.last Q)) *ᵥ v2) -
        Complex.I • (hopCf C *ᵥ v3))
      (Complex.I • ((hopCf C)ᴴ *ᵥ v0) + hopX en *ᵥ v1 - Complex.I • ((hopCf C)ᴴ *ᵥ v2))
      ((2 : ℂ) • (hopD (C (Fin.last Q)) (en (Fin.last Q)) *ᵥ v0) - Complex.I • (hopCf C *ᵥ v1) - hopA ph en C *ᵥ v2 -
        Complex.I • (hopCf C *ᵥ v3))
      (-(Complex.I • ((hopCf C)ᴴ *ᵥ v0)) + Complex.I • ((hopCf C)ᴴ *ᵥ v2) - hopX en *ᵥ v3) := by
  rw [hop_eq]
  unfold hvec
  simp only [Matrix.fromBlocks_mulVec, Sum.elim_comp_inl, Sum.elim_comp_inr, Matrix.neg_mulVec,
    Matrix.smul_mulVec, Matrix.zero_mulVec]
  funext i
  rcases i with (n | x) | (n | x) <;> simp <;> ring

/-! ### C76: phases -/

/-- **C76.** A phase of a photonic mode multiplies its row of couplings, a phase of an exciton multiplies its
column with the conjugate; and a field without component along the allowed polarisations is not coupled. -/
theorem C76_couplings {n N m : ℕ} (pref : ℂ) (osc : Fin 3 → ℝ) (E : Fin N → Fin 3 → Fin n → ℂ)
    (W : Fin m → Fin n → ℂ) (u : Fin N → ℂ) (t : Fin m → ℂ) (a : Fin N) (nu : Fin m) :
    hopC pref osc (fun a c G => u a * E a c G) (fun nu G => t nu * W nu G) a nu =
      u a * hopC pref osc E W a nu * (starRingEnd ℂ) (t nu) ∧
    ((∀ c G, osc c = 0 ∨ E a c G = 0) → hopC pref osc E W a nu = 0) := by
  constructor
  · simp only [hopC, Matrix.of_apply, map_mul, Finset.mul_sum, Finset.sum_mul]
    apply Finset.sum_congr rfl
    intro G _
    apply Finset.sum_congr rfl
    intro c _
    ring
  · intro h
    simp only [hopC, Matrix.of_apply]
    rw [Finset.sum_eq_zero, mul_zero]
    intro G _
    rw [Finset.sum_eq_zero, zero_mul]
    intro c _
    rcases h c G with h | h
    · rw [h, Real.sqrt_zero, Complex.ofReal_zero, zero_mul]
    · rw [h, mul_zero]

/-- **C76.** Value of a coupling of single plane waves. -/
theorem C76_coupling_value (pref : ℂ) (osc : Fin 3 → ℝ) (e : Fin 3 → ℂ) (w : ℂ) :
    hopC (N := 1) (m := 1) (n := 1) pref osc (fun _ c _ => e c) (fun _ _ => w) 0 0 =
      pref * ((√(osc 0) * e 0 + √(osc 1) * e 1 + √(osc 2) * e 2) * (starRingEnd ℂ) w) := by
  simp [hopC, Fin.sum_univ_three]

/-- **C76.** The polariton energies depend on the arbitrary phases of the photonic eigenvectors.  Two modes
coupled with equal strength to one exciton, all energies 1: the phases `1, 1` give the eigenvalue 2, the phases
`1, i` do not. -/
theorem C76_not_invariant : ∃ (ph : Fin 2 → ℂ) (en : Fin (0 + 1) → Fin 1 → ℂ)
    (C C' : Fin (0 + 1) → Matrix (Fin 2) (Fin 1) ℂ) (u : Fin 2 → ℂ) (w : ℂ), (∀ n, ‖u n‖ = 1) ∧
    (∀ q n x, C' q n x = u n * C q n x) ∧
    (∃ v : HIdx 2 0 1 → ℂ, v ≠ 0 ∧ hopfield ph en C *ᵥ v = w • v) ∧
    ∀ v : HIdx 2 0 1 → ℂ, hopfield ph en C' *ᵥ v = w • v → v = 0 := by
  obtain ⟨c, hc⟩ : ∃ c : ℝ, c * c = 9 / 32 := ⟨√(9 / 32), Real.mul_self_sqrt (by norm_num)⟩
  have hcc : (c : ℂ) * c = 9 / 32 := by
    rw [← Complex.ofReal_mul, hc]; norm_num
  refine ⟨fun _ => 1, fun _ _ => 1, fun _ => Matrix.of fun _ _ => (c : ℂ),
    fun _ => Matrix.of fun n _ => ![1, Complex.I] n * c, ![1, Complex.I], 2, ?_, ?_, ?_, ?_⟩
  · intro n; fin_cases n <;> simp
  · intro q n x; rfl
  · have hD : hopD (Matrix.of fun _ _ => (c : ℂ) : Matrix (Fin 2) (Fin 1) ℂ) (fun _ => 1) =
        Matrix.of fun _ _ => (9 / 32 : ℂ) := by
      ext i j; simp [hopD, hcc]
    have hA : hopA (fun _ : Fin 2 => (1 : ℂ)) (fun (_ : Fin (0 + 1)) (_ : Fin 1) => (1 : ℂ))
        (fun _ => Matrix.of fun _ _ => (c : ℂ)) = Matrix.of fun i j => (if i = j then 1 else 0) + (9 / 16 : ℂ) := by
      unfold hopA
      simp only [Finset.univ_unique, Finset.sum_singleton, hD]
      ext i j
      have : ((9 / 32 : ℂ)).re = 9 / 32 := by norm_num
      simp [this, Matrix.one_apply]
      norm_num
    refine ⟨hvec (fun _ => 3 / 2) (fun _ => 2 * Complex.I * c) (fun _ => 1 / 2)
      (fun _ => -(2 * Complex.I * c / 3)), ?_, ?_⟩
    · intro h
      have := congrFun h (.inl (.inl 0))
      simp [hvec] at this
    · rw [hop_mulVec, hA, hD]
      funext i
      rcases i with (n | x) | (n | x)
      · fin_cases n <;> simp [hvec, Matrix.mulVec, dotProduct, hopCf, Fintype.sum_prod_type] <;>
          linear_combination (4 / 3 : ℂ) * hcc - (4 / 3 : ℂ) * c * c * Complex.I_sq
      · simp [hvec, Matrix.mulVec, dotProduct, hopCf, hopX, Matrix.diagonal_apply]
        ring
      · fin_cases n <;> simp [hvec, Matrix.mulVec, dotProduct, hopCf, Fintype.sum_prod_type] <;>
          linear_combination (4 / 3 : ℂ) * hcc - (4 / 3 : ℂ) * c * c * Complex.I_sq
      · simp [hvec, Matrix.mulVec, dotProduct, hopCf, hopX, Matrix.diagonal_apply]
        ring
  · intro v hv
    have hD : hopD (Matrix.of fun n _ => ![1, Complex.I] n * (c : ℂ) : Matrix (Fin 2) (Fin 1) ℂ) (fun _ => 1) =
        Matrix.of fun i j => (9 / 32 : ℂ) * ((starRingEnd ℂ) (![1, Complex.I] i) * ![1, Complex.I] j) := by
      ext i j; simp [hopD]; linear_combination ((starRingEnd ℂ) (![1, Complex.I] i) * ![1, Complex.I] j) * hcc
    have hA : hopA (fun _ : Fin 2 => (1 : ℂ)) (fun (_ : Fin (0 + 1)) (_ : Fin 1) => (1 : ℂ))
        (fun _ => Matrix.of fun n _ => ![1, Complex.I] n * (c : ℂ)) =
          Matrix.of fun i j => (if i = j then 25 / 16 else 0 : ℂ) := by
      unfold hopA
      simp only [Finset.univ_unique, Finset.sum_singleton, hD]
      ext i j
      have : ((9 / 32 : ℂ)).re = 9 / 32 := by norm_num
      fin_cases i <;> fin_cases j <;> simp [Matrix.diagonal_apply, this] <;> norm_num
    rw [hvec_eta v, hop_mulVec, hA, hD] at hv
    have r00 := congrFun hv (.inl (.inl 0))
    have r01 := congrFun hv (.inl (.inl 1))
    have r1 := congrFun hv (.inl (.inr (0, 0)))
    have r20 := congrFun hv (.inr (.inl 0))
    have r21 := congrFun hv (.inr (.inl 1))
    have r3 := congrFun hv (.inr (.inr (0, 0)))
    simp [hvec, Matrix.mulVec, dotProduct, hopCf, hopX, Matrix.diagonal_apply, Fintype.sum_prod_type] at r00 r01 r1 r20 r21 r3
    set a0 := v (.inl (.inl 0))
    set a1 := v (.inl (.inl 1))
    set b0 := v (.inr (.inl 0))
    set b1 := v (.inr (.inl 1))
    set x := v (.inl (.inr (0, 0)))
    set y := v (.inr (.inr (0, 0)))
    have hI := Complex.I_sq
    have hx : x = Complex.I * c * ((a0 - Complex.I * a1) - (b0 - Complex.I * b1)) := by linear_combination -r1
    have hy : y = -(Complex.I * c * ((a0 - Complex.I * a1) - (b0 - Complex.I * b1)) / 3) := by
      linear_combination -(1 / 3 : ℂ) * r3
    have hs : 2 * Complex.I * c * (x + y) = -(3 / 8) * ((a0 - Complex.I * a1) - (b0 - Complex.I * b1)) := by
      rw [hx, hy]
      linear_combination (4 / 3 : ℂ) * ((a0 - Complex.I * a1) - (b0 - Complex.I * b1)) * c * c * hI -
        (4 / 3 : ℂ) * ((a0 - Complex.I * a1) - (b0 - Complex.I * b1)) * hcc
    have e1 : -(1 / 16) * (a0 - Complex.I * a1) - 3 / 8 * (b0 - Complex.I * b1) = 0 := by
      linear_combination r00 - Complex.I * r01 - (Complex.I * c * (x + y) - 9 / 16 * b0) * hI + hs
    have e2 : 3 / 8 * (a0 - Complex.I * a1) - 63 / 16 * (b0 - Complex.I * b1) = 0 := by
      linear_combination r20 - Complex.I * r21 - (Complex.I * c * (x + y) + 9 / 16 * a0) * hI + hs
    have hP' : b0 - Complex.I * b1 = 0 := by linear_combination -(16 / 99 : ℂ) * (6 * e1 + e2)
    have hP : a0 - Complex.I * a1 = 0 := by linear_combination -16 * e1 - 6 * hP'
    have e3 : -(7 / 16) * (a0 + Complex.I * a1) - 9 / 8 * (b0 + Complex.I * b1) = 0 := by
      linear_combination r00 + Complex.I * r01 - (-(Complex.I * c * (x + y)) + 9 / 16 * b0) * hI
    have e4 : 9 / 8 * (a0 + Complex.I * a1) - 57 / 16 * (b0 + Complex.I * b1) = 0 := by
      linear_combination r20 + Complex.I * r21 - (-(Complex.I * c * (x + y)) - 9 / 16 * a0) * hI
    have hR' : b0 + Complex.I * b1 = 0 := by linear_combination -(16 / 723 : ℂ) * (18 * e3 + 7 * e4)
    have hR : a0 + Complex.I * a1 = 0 := by linear_combination -(16 / 7 : ℂ) * e3 - (18 / 7 : ℂ) * hR'
    have ha0 : a0 = 0 := by linear_combination (1 / 2 : ℂ) * (hP + hR)
    have hb0 : b0 = 0 := by linear_combination (1 / 2 : ℂ) * (hP' + hR')
    have ha1 : a1 = 0 := by linear_combination -(Complex.I / 2) * (hR - hP) + a1 * hI
    have hb1 : b1 = 0 := by linear_combination -(Complex.I / 2) * (hR' - hP') + b1 * hI
    rw [ha0, ha1, hb0, hb1] at hx hy
    funext i
    rcases i with (n | q) | (n | q)
    · fin_cases n
      · exact ha0
      · exact ha1
    · obtain ⟨q1, q2⟩ := q
      fin_cases q1; fin_cases q2
      exact hx.trans (by simp)
    · fin_cases n
      · exact hb0
      · exact hb1
    · obtain ⟨q1, q2⟩ := q
      fin_cases q1; fin_cases q2
      exact hy.trans (by simp)

/-- **C76 (partial).** Phases that do not matter: those of the excitons, a common phase of all photonic modes
and signs of the single modes.  Missing: other phases of the photonic modes, where the claim is false
(`C76_not_invariant`). -/
theorem C76_phases_partial (ph : Fin N → ℂ) (en : Fin (Q + 1) → Fin m → ℂ)
    (C : Fin (Q + 1) → Matrix (Fin N) (Fin m) ℂ) (z : ℂ) (hz : ‖z‖ = 1) (sg : Fin N → ℝ)
    (hsg : ∀ n, sg n = 1 ∨ sg n = -1) (t : Fin (Q + 1) → Fin m → ℂ) (ht : ∀ q x, ‖t q x‖ = 1) :
    (hopfield ph en fun q => Matrix.of fun n x => (z * sg n) * C q n x * t q x).charpoly =
      (hopfield ph en C).charpoly := by
  have hzz : z * (starRingEnd ℂ) z = 1 := by rw [Complex.mul_conj, Complex.normSq_eq_norm_sq, hz]; norm_num
  have htt : ∀ q x, t q x * (starRingEnd ℂ) (t q x) = 1 := by
    intro q x; rw [Complex.mul_conj, Complex.normSq_eq_norm_sq, ht]; norm_num
  have hss : ∀ n, (sg n : ℂ) * sg n = 1 := by
    intro n; rcases hsg n with h | h <;> rw [h] <;> norm_num
  set C' : Fin (Q + 1) → Matrix (Fin N) (Fin m) ℂ := fun q => Matrix.of fun n x => (z * sg n) * C q n x * t q x
    with hC'
  have hD : ∀ q i j, hopD (C' q) (en q) i j = sg i * hopD (C q) (en q) i j * sg j := by
    intro q i j
    simp only [hopD, hC', Matrix.of_apply, Finset.mul_sum, Finset.sum_mul]
    apply Finset.sum_congr rfl
    intro nu _
    simp only [map_mul, Complex.conj_ofReal]
    linear_combination (sg i * (starRingEnd ℂ) (C q i nu) * C q j nu * sg j / ((en q nu).re : ℂ)) *
      (hzz * (t q nu * (starRingEnd ℂ) (t q nu)) + htt q nu)
  let p : HIdx N Q m → ℂ := Sum.elim (Sum.elim (fun n => z * sg n) fun x => (starRingEnd ℂ) (t x.1 x.2))
    (Sum.elim (fun n => z * sg n) fun x => (starRingEnd ℂ) (t x.1 x.2))
  have hp : ∀ i, p i * (starRingEnd ℂ) (p i) = 1 := by
    rintro ((n | x) | (n | x))
    · simp only [p, Sum.elim_inl, map_mul, Complex.conj_ofReal]
      linear_combination (sg n * sg n : ℂ) * hzz + hss n
    · simp only [p, Sum.elim_inl, Sum.elim_inr, Complex.conj_conj]
      rw [mul_comm]; exact htt _ _
    · simp only [p, Sum.elim_inl, Sum.elim_inr, map_mul, Complex.conj_ofReal]
      linear_combination (sg n * sg n : ℂ) * hzz + hss n
    · simp only [p, Sum.elim_inr, Complex.conj_conj]
      rw [mul_comm]; exact htt _ _
  have hzs : ∀ n, z * sg n * ((starRingEnd ℂ) z * sg n) = 1 := by
    intro n; linear_combination (sg n * sg n : ℂ) * hzz + hss n
  have hDs : ∀ i j, (∑ q, hopD (C' q) (en q)) i j = sg i * (∑ q, hopD (C q) (en q)) i j * sg j := by
    intro i j
    rw [Matrix.sum_apply, Matrix.sum_apply, Finset.mul_sum, Finset.sum_mul]
    exact Finset.sum_congr rfl fun q _ => hD q i j
  have hAe : ∀ i j, hopA ph en C' i j = z * sg i * hopA ph en C i j * ((starRingEnd ℂ) z * sg j) := by
    intro i j
    unfold hopA
    rw [Matrix.add_apply, Matrix.add_apply, Matrix.of_apply, Matrix.of_apply, hDs]
    have hre : (((sg i : ℂ) * (∑ q, hopD (C q) (en q)) i j * sg j).re : ℂ) =
        sg i * (((∑ q, hopD (C q) (en q)) i j).re : ℂ) * sg j := by
      rw [mul_assoc, Complex.re_ofReal_mul, mul_comm _ (sg j : ℂ), Complex.re_ofReal_mul]
      push_cast; ring
    rw [hre]
    by_cases hij : i = j
    · subst hij
      rw [Matrix.diagonal_apply_eq]
      linear_combination -(ph i) * hzs i - (2 * sg i * sg i * (((∑ q, hopD (C q) (en q)) i i).re : ℂ)) * hzz
    · rw [Matrix.diagonal_apply_ne _ hij]
      linear_combination -(2 * sg i * sg j * (((∑ q, hopD (C q) (en q)) i j).re : ℂ)) * hzz
  have hXe : ∀ x x', hopX en x x' = (starRingEnd ℂ) (t x.1 x.2) * hopX en x x' * t x'.1 x'.2 := by
    intro x x'
    unfold hopX
    by_cases h : x = x'
    · subst h
      rw [Matrix.diagonal_apply_eq]
      linear_combination -(en x.1 x.2) * htt x.1 x.2
    · rw [Matrix.diagonal_apply_ne _ h]; ring
  have hCe : ∀ n x, hopCf C' n x = z * sg n * hopCf C n x * t x.1 x.2 := fun n x => rfl
  have hM : hopfield ph en C' = Matrix.diagonal p * hopfield ph en C * Matrix.diagonal fun i => (starRingEnd ℂ) (p i) := by
    ext i j
    rw [Matrix.mul_diagonal, Matrix.diagonal_mul]
    rw [hop_eq, hop_eq]
    rcases i with (n | x) | (n | x) <;> rcases j with (n' | x') | (n' | x') <;>
      simp only [Matrix.fromBlocks_apply₁₁, Matrix.fromBlocks_apply₁₂, Matrix.fromBlocks_apply₂₁,
        Matrix.fromBlocks_apply₂₂, Matrix.neg_apply, Matrix.smul_apply, Matrix.conjTranspose_apply, hAe, hD, hCe,
        p, Sum.elim_inl, Sum.elim_inr, smul_eq_mul, Matrix.zero_apply, map_mul, Complex.conj_conj,
        Complex.conj_ofReal, RCLike.star_def, mul_zero, zero_mul]
    all_goals first
      | ring1
      | linear_combination (2 * sg n * hopD (C (Fin.last Q)) (en (Fin.last Q)) n n' * sg n') * hzz
      | linear_combination -(2 * sg n * hopD (C (Fin.last Q)) (en (Fin.last Q)) n n' * sg n') * hzz
      | linear_combination hXe x x'
      | linear_combination -hXe x x'
  rw [hM, Matrix.charpoly_mul_comm, ← Matrix.mul_assoc, Matrix.diagonal_mul_diagonal]
  have : (Matrix.diagonal fun i => (starRingEnd ℂ) (p i) * p i) = (1 : Matrix (HIdx N Q m) (HIdx N Q m) ℂ) := by
    rw [← Matrix.diagonal_one]
    congr 1
    funext i
    rw [mul_comm]; exact hp i
  rw [this, Matrix.one_mul]

example : (‖(Complex.I : ℂ)‖ = 1) ∧ ∀ n : Fin 2, (![1, -1] : Fin 2 → ℝ) n = 1 ∨ (![1, -1] : Fin 2 → ℝ) n = -1 :=
  ⟨Complex.norm_I, fun n => by fin_cases n <;> simp⟩

/-! ### C77: order of the wells -/

/-- **C77.** The polariton energies depend on the order in which the wells were added: one mode of energy 1, a
well coupled to it with `3/4` and a dark well, both of energy 1.  With the dark well first, 2 is an eigenvalue;
with the dark well last, it is not. -/
theorem C77_order_matters : ∃ (ph : Fin 1 → ℂ) (en : Fin (1 + 1) → Fin 1 → ℂ)
    (C : Fin (1 + 1) → Matrix (Fin 1) (Fin 1) ℂ) (w : ℂ) (p : Equiv.Perm (Fin (1 + 1))),
    (∃ v : HIdx 1 1 1 → ℂ, v ≠ 0 ∧ hopfield ph en C *ᵥ v = w • v) ∧
    ∀ v : HIdx 1 1 1 → ℂ, hopfield ph (fun q => en (p q)) (fun q => C (p q)) *ᵥ v = w • v → v = 0 := by
  have hD : hopD (Matrix.of fun _ _ => (3 / 4 : ℂ) : Matrix (Fin 1) (Fin 1) ℂ) (fun _ => 1) =
      Matrix.of fun _ _ => (9 / 16 : ℂ) := by
    ext i j
    have : (starRingEnd ℂ) (3 / 4 : ℂ) = 3 / 4 := by rw [map_div₀, Complex.conj_ofNat, Complex.conj_ofNat]
    simp [hopD, this]; norm_num
  have hD0 : hopD (0 : Matrix (Fin 1) (Fin 1) ℂ) (fun _ => 1) = 0 := by
    ext i j; simp [hopD]
  have hre : ((9 / 16 : ℂ)).re = 9 / 16 := by norm_num
  have hc : (starRingEnd ℂ) (3 / 4 : ℂ) = 3 / 4 := by rw [map_div₀, Complex.conj_ofNat, Complex.conj_ofNat]
  refine ⟨fun _ => 1, fun _ _ => 1, ![0, Matrix.of fun _ _ => 3 / 4], 2, Equiv.swap 0 1, ?_, ?_⟩
  · have hA : hopA (fun _ : Fin 1 => (1 : ℂ)) (fun (_ : Fin (1 + 1)) (_ : Fin 1) => (1 : ℂ))
        ![0, Matrix.of fun _ _ => 3 / 4] = Matrix.of fun _ _ => (17 / 8 : ℂ) := by
      unfold hopA
      ext i j
      rw [Subsingleton.elim j i]
      simp [Fin.sum_univ_two, hD, hD0, hre]
      norm_num
    refine ⟨hvec (fun _ => 3 / 2) (fun x => ![0, 3 / 4 * Complex.I] x.1) (fun _ => 1 / 2)
      (fun x => ![0, -(Complex.I / 4)] x.1), ?_, ?_⟩
    · intro h
      have := congrFun h (.inl (.inl 0))
      simp [hvec] at this
    · have hl : hopD ((![0, Matrix.of fun _ _ => 3 / 4] : Fin (1 + 1) → Matrix (Fin 1) (Fin 1) ℂ) (Fin.last 1))
          (fun _ => 1) = Matrix.of fun _ _ => (9 / 16 : ℂ) := hD
      rw [hop_mulVec, hA, hl]
      funext i
      rcases i with (n | ⟨q, x⟩) | (n | ⟨q, x⟩)
      · simp [hvec, Matrix.mulVec, dotProduct, hopCf, Fintype.sum_prod_type, Fin.sum_univ_two]
        linear_combination -(3 / 8 : ℂ) * Complex.I_sq
      · fin_cases q <;> simp [hvec, Matrix.mulVec, dotProduct, hopCf, hopX, Matrix.diagonal_apply,
          Fintype.sum_prod_type, Fin.sum_univ_two, hc] <;> ring
      · simp [hvec, Matrix.mulVec, dotProduct, hopCf, Fintype.sum_prod_type, Fin.sum_univ_two]
        linear_combination -(3 / 8 : ℂ) * Complex.I_sq
      · fin_cases q <;> simp [hvec, Matrix.mulVec, dotProduct, hopCf, hopX, Matrix.diagonal_apply,
          Fintype.sum_prod_type, Fin.sum_univ_two, hc] <;> ring
  · have hsw : (fun q : Fin (1 + 1) => (![0, Matrix.of fun _ _ => 3 / 4] : Fin (1 + 1) → Matrix (Fin 1) (Fin 1) ℂ)
        (Equiv.swap 0 1 q)) = ![Matrix.of fun _ _ => 3 / 4, 0] := by
      funext q; fin_cases q <;> rfl
    rw [hsw]
    have hA : hopA (fun _ : Fin 1 => (1 : ℂ)) (fun (_ : Fin (1 + 1)) (_ : Fin 1) => (1 : ℂ))
        ![Matrix.of fun _ _ => 3 / 4, 0] = Matrix.of fun _ _ => (17 / 8 : ℂ) := by
      unfold hopA
      ext i j
      rw [Subsingleton.elim j i]
      simp [Fin.sum_univ_two, hD, hD0, hre]
      norm_num
    have hl : hopD ((![Matrix.of fun _ _ => 3 / 4, 0] : Fin (1 + 1) → Matrix (Fin 1) (Fin 1) ℂ) (Fin.last 1))
        (fun _ => 1) = 0 := hD0
    intro v hv
    rw [hvec_eta v, hop_mulVec, hA, hl] at hv
    have r0 := congrFun hv (.inl (.inl 0))
    have r1 := congrFun hv (.inl (.inr (0, 0)))
    have r1' := congrFun hv (.inl (.inr (1, 0)))
    have r2 := congrFun hv (.inr (.inl 0))
    have r3 := congrFun hv (.inr (.inr (0, 0)))
    have r3' := congrFun hv (.inr (.inr (1, 0)))
    simp [hvec, Matrix.mulVec, dotProduct, hopCf, hopX, Matrix.diagonal_apply, Fintype.sum_prod_type,
      Fin.sum_univ_two, hc] at r0 r1 r1' r2 r3 r3'
    set a := v (.inl (.inl 0))
    set b := v (.inr (.inl 0))
    set x := v (.inl (.inr (0, 0)))
    set y := v (.inr (.inr (0, 0)))
    have hI := Complex.I_sq
    have hx : x = 3 / 4 * Complex.I * (a - b) := by linear_combination -r1
    have hy : y = -(1 / 4 * Complex.I * (a - b)) := by linear_combination -(1 / 3 : ℂ) * r3
    have e1 : 1 / 8 * a + 3 / 8 * (a - b) = 0 := by
      rw [hx, hy] at r0
      linear_combination r0 + 3 / 8 * (a - b) * hI
    have e2 : 3 / 8 * (a - b) - 33 / 8 * b = 0 := by
      rw [hx, hy] at r2
      linear_combination r2 + 3 / 8 * (a - b) * hI
    have hb : b = 0 := by linear_combination (32 / 135 : ℂ) * (3 / 4 * e1 - e2)
    have ha : a = 0 := by linear_combination 2 * e1 + 3 / 4 * hb
    rw [ha, hb] at hx hy
    have hx' : v (.inl (.inr (1, 0))) = 0 := by linear_combination -r1'
    have hy' : v (.inr (.inr (1, 0))) = 0 := by linear_combination -(1 / 3 : ℂ) * r3'
    funext i
    rcases i with (n | ⟨q1, q2⟩) | (n | ⟨q1, q2⟩)
    · fin_cases n; exact ha
    · fin_cases q2
      fin_cases q1
      · exact hx.trans (by simp)
      · exact hx'
    · fin_cases n; exact hb
    · fin_cases q2
      fin_cases q1
      · exact hy.trans (by simp)
      · exact hy'

/-- **C77 (partial).** Permutations of the wells that leave the last one in place change no energy.  Missing: the
other permutations, where the claim is false (`C77_order_matters`). -/
theorem C77_fixing_last_partial (ph : Fin N → ℂ) (en : Fin (Q + 1) → Fin m → ℂ)
    (C : Fin (Q + 1) → Matrix (Fin N) (Fin m) ℂ) (p : Equiv.Perm (Fin (Q + 1))) (hp : p (Fin.last Q) = Fin.last Q) :
    (hopfield ph (fun q => en (p q)) (fun q => C (p q))).charpoly = (hopfield ph en C).charpoly := by
  let f : Fin (Q + 1) × Fin m ≃ Fin (Q + 1) × Fin m := Equiv.prodCongr p (Equiv.refl _)
  let e : HIdx N Q m ≃ HIdx N Q m :=
    Equiv.sumCongr (Equiv.sumCongr (Equiv.refl _) f) (Equiv.sumCongr (Equiv.refl _) f)
  have hA : hopA ph (fun q => en (p q)) (fun q => C (p q)) = hopA ph en C := by
    unfold hopA
    rw [Equiv.sum_comp p fun q => hopD (C q) (en q)]
  have hX : ∀ x x', hopX (fun q => en (p q)) x x' = hopX en (f x) (f x') := by
    intro x x'
    unfold hopX
    rw [Matrix.diagonal_apply, Matrix.diagonal_apply]
    have : x = x' ↔ f x = f x' := f.apply_eq_iff_eq.symm
    by_cases h : x = x'
    · rw [if_pos h, if_pos (this.1 h)]; rfl
    · rw [if_neg h, if_neg fun h' => h (this.2 h')]
  have hM : hopfield ph (fun q => en (p q)) (fun q => C (p q)) = Matrix.reindex e.symm e.symm (hopfield ph en C) := by
    ext i j
    rw [Matrix.reindex_apply, Matrix.submatrix_apply, hop_eq, hop_eq, hA, hp]
    rcases i with (n | x) | (n | x) <;> rcases j with (n' | x') | (n' | x') <;>
      simp only [e, Equiv.symm_symm, Equiv.sumCongr_apply, Sum.map_inl, Sum.map_inr, Equiv.refl_apply,
        Matrix.fromBlocks_apply₁₁, Matrix.fromBlocks_apply₁₂, Matrix.fromBlocks_apply₂₁,
        Matrix.fromBlocks_apply₂₂, Matrix.neg_apply, Matrix.smul_apply, Matrix.conjTranspose_apply, hX,
        Matrix.zero_apply] <;> rfl
  rw [hM, Matrix.charpoly_reindex]

example : (Equiv.swap (0 : Fin 3) 1) (Fin.last 2) = Fin.last 2 := by decide

/-! ### C78: the polaritons that are stored -/

open Spec

/-- **C78 (partial).** For every Hopfield problem without eigenvalues of vanishing real part, and any correct
eigenvalue solver and sorting: all polaritons of positive energy are stored in ascending order except the one of
highest energy, which is lost.  Missing: the claim that none is lost, which is false. -/
theorem C78_stored_partial (argsort : List ℂ → List ℕ) (hs : ∀ l, IsArgsortRe l (argsort l))
    (ph : Fin N → ℂ) (en : Fin (Q + 1) → Fin m → ℂ) (C : Fin (Q + 1) → Matrix (Fin N) (Fin m) ℂ)
    (hN : 0 < N + (Q + 1) * m) (w : List ℂ)
    (hw : ((w.map (· - 1) : List ℂ) : Multiset ℂ) = (hopfield ph en C).charpoly.roots)
    (h0 : ∀ z ∈ (hopfield ph en C).charpoly.roots, z.re ≠ 0) :
    ∃ lost : ℂ,
      (((polSelect argsort w ++ [lost] : List ℂ)) : Multiset ℂ) =
        (hopfield ph en C).charpoly.roots.filter (fun z => 0 < z.re) ∧
      (polSelect argsort w).length + 1 = N + (Q + 1) * m ∧
      ((polSelect argsort w ++ [lost]).map Complex.re).Pairwise (· ≤ ·) := by
  classical
  set R := (hopfield ph en C).charpoly.roots with hR
  have hcard : R.card = 2 * (N + (Q + 1) * m) := by
    rw [hR, (IsAlgClosed.splits _).natDegree_eq_card_roots.symm, Matrix.charpoly_natDegree_eq_dim]
    simp; ring
  have hneg : R.map (fun z => -z) = R := C41_multiplicities ph en C
  have hsplit : (R.filter fun z => 0 < z.re).card + (R.filter fun z => ¬ 0 < z.re).card = R.card := by
    rw [← Multiset.card_add, Multiset.filter_add_not]
  have hhalf : (R.filter fun z => ¬ 0 < z.re).card = (R.filter fun z => 0 < z.re).card := by
    have h1 : (R.filter fun z => ¬ 0 < z.re) = R.filter fun z => 0 < (-z).re := by
      apply Multiset.filter_congr
      intro z hz
      have := h0 z hz
      rw [Complex.neg_re, not_lt]
      constructor
      · intro h; have := lt_of_le_of_ne h this; linarith
      · intro h; linarith
    rw [h1]
    conv_rhs => rw [← hneg, Multiset.filter_map, Multiset.card_map]
    rfl
  have hpos : (R.filter fun z => 0 < z.re).card = N + (Q + 1) * m := by omega
  set l := (w.map (· - 1)).filter fun z : ℂ => decide (0 ≤ z.re) with hl
  have hlR : (l : Multiset ℂ) = R.filter fun z => 0 < z.re := by
    rw [hl, ← Multiset.filter_coe, hw]
    apply Multiset.filter_congr
    intro z hz
    exact ⟨fun h => lt_of_le_of_ne h (h0 z hz).symm, le_of_lt⟩
  have hll : l.length = N + (Q + 1) * m := by rw [← hpos, ← hlR]; rfl
  have hwl : w.length / 2 - 1 = l.length - 1 := by
    have : w.length = R.card := by rw [← hw]; simp
    rw [this, hcard, hll]; omega
  obtain ⟨hp, ho⟩ := hs l
  have hal : (argsort l).length = l.length := by rw [hp.length_eq, List.length_range]
  have hne : argsort l ≠ [] := by
    intro h; rw [h] at hal; simp at hal; omega
  have hsel : polSelect argsort w = ((argsort l).take ((argsort l).length - 1)).map fun (i : ℕ) => l.getD i 0 := by
    unfold polSelect
    simp only
    rw [hwl, hal]
  have hall : polSelect argsort w ++ [l.getD ((argsort l).getLast hne) 0] =
      (argsort l).map fun (i : ℕ) => l.getD i 0 := by
    rw [hsel, ← List.dropLast_eq_take]
    conv_rhs => rw [← List.dropLast_append_getLast hne, List.map_append]
    rfl
  refine ⟨l.getD ((argsort l).getLast hne) 0, ?_, ?_, ?_⟩
  · rw [hall, ← hlR]
    apply Multiset.coe_eq_coe.2
    refine (hp.map _).trans ?_
    have : (List.range l.length).map (fun (i : ℕ) => l.getD i 0) = l := by
      apply List.ext_getElem
      · simp
      · intro i h1 h2
        simp [List.getD_eq_getElem?_getD, List.getElem?_eq_getElem h2]
    rw [this]
  · rw [hsel, List.length_map, List.length_take, hal, hll]; omega
  · rw [hall, List.map_map]
    exact ho

/-- **C78.** The smallest instance: one photonic mode of energy 1 and one exciton of energy 2, uncoupled. Of the
two polaritons, only one is stored. -/
theorem C78_upper_lost (argsort : List ℂ → List ℕ) (hs : ∀ l, IsArgsortRe l (argsort l)) :
    polSelect argsort [2, 3, 0, -1] = [1] := by
  classical
  have hl : (([2, 3, 0, -1] : List ℂ).map (· - 1)).filter (fun z => decide (0 ≤ z.re)) = [1, 2] := by
    norm_num [List.filter_cons]
  have hall : (argsort [1, 2]).take 1 = [0] := by
    obtain ⟨hp, ho⟩ := hs [1, 2]
    have hlen : (argsort [1, 2]).length = 2 := by rw [hp.length_eq]; simp
    match h : argsort [1, 2], hlen with
    | [a, b], _ =>
      rw [h] at hp ho
      have ha : a ∈ List.range 2 := hp.mem_iff.1 (by simp)
      have hb : b ∈ List.range 2 := hp.mem_iff.1 (by simp)
      have hnd : ([a, b] : List ℕ).Nodup := hp.nodup_iff.2 List.nodup_range
      rw [List.mem_range] at ha hb
      simp at hnd
      have : a = 0 := by
        by_contra hne
        have h1 : a = 1 := by omega
        have h2 : b = 0 := by omega
        subst h1 h2
        norm_num at ho
      simp [this]
  unfold polSelect
  simp only [hl]
  have : ([2, 3, 0, -1] : List ℂ).length / 2 - 1 = 1 := rfl
  rw [this, hall]
  rfl

/-! ### C79: options of `run` -/

theorem Opts.get_set {α : Type} (d : Opts α) (k k' : String) (x : α) :
    (d.set k x).get k' = if k' = k then some x else d.get k' := by
  unfold Opts.set
  split
  · case isTrue h =>
    induction d with
    | nil => simp at h
    | cons p l ih =>
      unfold Opts.get at *
      by_cases hp : p.1 = k
      · by_cases hk : k' = k
        · subst hk
          simp [hp]
        · have hl : ∀ l : Opts α, (l.map fun p => if p.1 = k then (k, x) else p).find? (fun p => p.1 = k') =
              l.find? fun p => p.1 = k' := by
            intro l
            induction l with
            | nil => rfl
            | cons q l ih =>
              rw [List.map_cons, List.find?_cons, List.find?_cons, ih]
              by_cases hq : q.1 = k
              · have : ¬ k = k' := fun h => hk h.symm
                have : ¬ q.1 = k' := by rw [hq]; exact this
                simp [hq, *]
              · simp [hq]
          rw [hl, if_neg hk]
      · have hl : l.any (fun p => p.1 = k) = true := by simpa [hp] using h
        have := ih hl
        rw [List.map_cons, if_neg hp, List.find?_cons, List.find?_cons]
        by_cases hk : p.1 = k'
        · have : ¬ k' = k := by rw [← hk]; exact hp
          simp [hk, this]
        · simp only [hk, decide_false]
          exact this
  · case isFalse h =>
    unfold Opts.get
    rw [List.find?_append]
    have hno : ∀ p ∈ d, p.1 ≠ k := by
      intro p hp hc
      exact h (List.any_eq_true.2 ⟨p, hp, by simpa using hc⟩)
    by_cases hk : k' = k
    · subst hk
      have : d.find? (fun p => p.1 = k') = none := by
        rw [List.find?_eq_none]
        intro p hp
        simpa using hno p hp
      rw [this]
      simp
    · have : ¬ k = k' := fun h => hk h.symm
      simp [hk, this]

/-- **C79.** Photons and excitons are always computed at the `kpoints` of the call, whatever the option
dictionaries say and whatever was run before. -/
theorem C79_same_kpoints {α : Type} (calls : List (PolCall α)) (c : PolCall α) :
    let r := polRunOpts (polDefaults calls) c
    r.gme.get "kpoints" = some c.kpoints ∧ r.exc.get "kpoints" = some c.kpoints := by
  intro r
  constructor <;> · simp only [r, polRunOpts]; rw [Opts.get_set, if_pos rfl]

/-- **C79.** The default dictionaries are shared by all calls and keep the last `kpoints`, but nothing else ever
enters them: a call that relies on them passes on its own `kpoints` and no other option. -/
theorem C79_defaults {α : Type} (calls : List (PolCall α)) (c : PolCall α) (hg : c.gme = none) (he : c.exc = none) :
    let r := polRunOpts (polDefaults calls) c
    r.gme = [("kpoints", c.kpoints)] ∧ r.exc = [("kpoints", c.kpoints)] := by
  have hset : ∀ (d : Opts α) (x : α), (d = [] ∨ ∃ y, d = [("kpoints", y)]) → d.set "kpoints" x = [("kpoints", x)] := by
    rintro d x (rfl | ⟨y, rfl⟩) <;> simp [Opts.set]
  have key : ∀ (calls : List (PolCall α)) (d : Opts α × Opts α),
      (d.1 = [] ∨ ∃ y, d.1 = [("kpoints", y)]) → (d.2 = [] ∨ ∃ y, d.2 = [("kpoints", y)]) →
      let r := calls.foldl (fun d c => (polRunOpts d c).defaults) d
      (r.1 = [] ∨ ∃ y, r.1 = [("kpoints", y)]) ∧ (r.2 = [] ∨ ∃ y, r.2 = [("kpoints", y)]) := by
    intro calls
    induction calls with
    | nil => intro d h1 h2; exact ⟨h1, h2⟩
    | cons c l ih =>
      intro d h1 h2
      refine ih _ ?_ ?_
      · simp only [polRunOpts]
        cases hc : c.gme with
        | none => right; exact ⟨_, by simpa using hset _ _ h1⟩
        | some g => simpa using h1
      · simp only [polRunOpts]
        cases hc : c.exc with
        | none => right; exact ⟨_, by simpa using hset _ _ h2⟩
        | some g => simpa using h2
  obtain ⟨h1, h2⟩ := key calls ([], []) (Or.inl rfl) (Or.inl rfl)
  simp only [polRunOpts, hg, he, Option.getD_none]
  exact ⟨hset _ _ h1, hset _ _ h2⟩

/-- **C79.** The caller's dictionaries are changed. -/
theorem C79_caller_changed : ∃ (c : PolCall ℕ) (g : Opts ℕ), c.gme = some g ∧
    (polRunOpts (polDefaults []) c).callerGme ≠ some g :=
  ⟨⟨some [("numeig", 4)], none, 7⟩, [("numeig", 4)], rfl, by decide⟩

/-- **C79 (partial).** Only the entry `kpoints` of the caller's dictionaries is changed. Missing: that entry. -/
theorem C79_other_options_partial {α : Type} (d : Opts α × Opts α) (c : PolCall α) (key : String)
    (hk : key ≠ "kpoints") :
    (∀ g, c.gme = some g → ∃ g', (polRunOpts d c).callerGme = some g' ∧ g'.get key = g.get key) ∧
    (∀ e, c.exc = some e → ∃ e', (polRunOpts d c).callerExc = some e' ∧ e'.get key = e.get key) := by
  constructor
  · intro g hg
    refine ⟨g.set "kpoints" c.kpoints, by simp [polRunOpts, hg], ?_⟩
    rw [Opts.get_set, if_neg hk]
  · intro g hg
    refine ⟨g.set "kpoints" c.kpoints, by simp [polRunOpts, hg], ?_⟩
    rw [Opts.get_set, if_neg hk]

example : (polRunOpts (polDefaults [⟨none, none, 1⟩]) (⟨some [("kpoints", 3), ("numeig", 4)], none, 7⟩ : PolCall ℕ)).gme
    = [("kpoints", 7), ("numeig", 4)] := by decide

/-! ### C75: construction -/

/-- **C75.** `HopfieldPol` refuses a crystal without wells and wells whose lattice constants differ from the first
by `1e-15` or more, and accepts all others with the lattice constant of the first. -/
theorem C75_polariton (wells : List ℝ) :
    (polInit [] = .error .valueError) ∧
    (∀ a0 l, wells = a0 :: l → (∀ a ∈ l, |a - a0| < 1e-15) → polInit wells = .ok a0) ∧
    (∀ a0 l a, wells = a0 :: l → a ∈ l → 1e-15 ≤ |a - a0| → polInit wells = .error .valueError) := by
  refine ⟨rfl, ?_, ?_⟩
  · rintro a0 l rfl h
    unfold polInit
    simp only
    rw [if_pos]
    intro a ha
    rcases List.mem_cons.1 ha with rfl | ha
    · simp; norm_num
    · exact h a ha
  · rintro a0 l a rfl ha h
    unfold polInit
    simp only
    rw [if_neg]
    intro hc
    exact absurd (hc a (List.mem_cons_of_mem _ ha)) (not_lt.2 h)

end Legume
