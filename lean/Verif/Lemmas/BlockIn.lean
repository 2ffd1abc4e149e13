import Mathlib.LinearAlgebra.Matrix.Charpoly.Coeff
import Mathlib.LinearAlgebra.Matrix.NonsingularInverse
import Mathlib.Data.List.Sort
import Verif.Lemmas.Spectrum

/-! # A matrix which is a decoupled block of another one -/
namespace Legume

open Matrix Spec Polynomial

/-- `M` is the block of `M'` at the positions `f i`, and these are not coupled to the others. -/
structure BlockIn {n n' : ℕ} (f : Fin n → Fin n') (M : Matrix (Fin n) (Fin n) ℂ) (M' : Matrix (Fin n') (Fin n') ℂ) :
    Prop where
  entry : ∀ i j, M' (f i) (f j) = M i j
  row : ∀ i j, j ∉ Set.range f → M' (f i) j = 0
  col : ∀ i j, j ∉ Set.range f → M' j (f i) = 0

/-- The characteristic polynomial of the block divides that of the matrix. -/
theorem blockIn_charpoly {n n' : ℕ} {f : Fin n → Fin n'} (hf : Function.Injective f) {M : Matrix (Fin n) (Fin n) ℂ}
    {M' : Matrix (Fin n') (Fin n') ℂ} (h : BlockIn f M M') : M.charpoly ∣ M'.charpoly := by
  classical
  let e : Fin n ⊕ {j // j ∉ Set.range f} ≃ Fin n' :=
    ((Equiv.ofInjective f hf).sumCongr (Equiv.refl _)).trans (Equiv.sumCompl (· ∈ Set.range f))
  have e1 : ∀ i, e (Sum.inl i) = f i := fun i => rfl
  have e2 : ∀ j, e (Sum.inr j) = j.1 := fun j => rfl
  have hb : (reindex e.symm e.symm) M' = fromBlocks M 0 0 (Matrix.of fun a b => M' a.1 b.1) := by
    ext (a | a) (b | b)
    · simp only [reindex_apply, submatrix_apply, Equiv.symm_symm, e1, fromBlocks_apply₁₁]
      exact h.entry a b
    · simp only [reindex_apply, submatrix_apply, Equiv.symm_symm, e1, e2, fromBlocks_apply₁₂, Matrix.zero_apply]
      exact h.row a b.1 b.2
    · simp only [reindex_apply, submatrix_apply, Equiv.symm_symm, e1, e2, fromBlocks_apply₂₁, Matrix.zero_apply]
      exact h.col b a.1 a.2
    · rfl
  have := charpoly_reindex e.symm M'
  rw [← this, hb, charpoly_fromBlocks_zero₁₂]
  exact dvd_mul_right _ _

/-- The inverse has the inverse of the block at the same place. -/
theorem blockIn_inv {n n' : ℕ} {f : Fin n → Fin n'} (hf : Function.Injective f) {M : Matrix (Fin n) (Fin n) ℂ}
    {M' : Matrix (Fin n') (Fin n') ℂ} (h : BlockIn f M M') (hd : M'.det ≠ 0) :
    M.det ≠ 0 ∧ BlockIn f M⁻¹ M'⁻¹ := by
  classical
  let E : Matrix (Fin n') (Fin n) ℂ := (1 : Matrix (Fin n') (Fin n') ℂ).submatrix id f
  let F : Matrix (Fin n) (Fin n') ℂ := (1 : Matrix (Fin n') (Fin n') ℂ).submatrix f id
  have hu : IsUnit M'.det := isUnit_iff_ne_zero.2 hd
  have colE : ∀ (A : Matrix (Fin n') (Fin n') ℂ) a i, (A * E) a i = A a (f i) := by
    intro A a i
    simp [E, mul_apply, one_apply]
  have rowF : ∀ (A : Matrix (Fin n') (Fin n') ℂ) i a, (F * A) i a = A (f i) a := by
    intro A a i
    simp [F, mul_apply, one_apply]
  have hE : ∀ (A : Matrix (Fin n) (Fin n) ℂ) i j, (E * A) (f i) j = A i j := by
    intro A i j
    simp [E, mul_apply, one_apply, hf.eq_iff]
  have hE' : ∀ (A : Matrix (Fin n) (Fin n) ℂ) a j, a ∉ Set.range f → (E * A) a j = 0 := by
    intro A a j ha
    simp only [E, mul_apply, submatrix_apply, id, one_apply]
    refine Finset.sum_eq_zero fun i _ => ?_
    rw [if_neg (fun e => ha ⟨i, e.symm⟩), zero_mul]
  have hF : ∀ (A : Matrix (Fin n) (Fin n) ℂ) i j, (A * F) i (f j) = A i j := by
    intro A i j
    simp [F, mul_apply, one_apply, hf.eq_iff]
  have hF' : ∀ (A : Matrix (Fin n) (Fin n) ℂ) a j, a ∉ Set.range f → (A * F) j a = 0 := by
    intro A a j ha
    simp only [F, mul_apply, submatrix_apply, id, one_apply]
    refine Finset.sum_eq_zero fun i _ => ?_
    rw [if_neg (fun e => ha ⟨i, e⟩), mul_zero]
  have c1 : M' * E = E * M := by
    ext a j
    rw [colE]
    by_cases ha : a ∈ Set.range f
    · obtain ⟨i, rfl⟩ := ha
      rw [h.entry, hE]
    · rw [h.col j a ha, hE' _ _ _ ha]
  have c2 : F * M' = M * F := by
    ext j a
    rw [rowF]
    by_cases ha : a ∈ Set.range f
    · obtain ⟨i, rfl⟩ := ha
      rw [h.entry, hF]
    · rw [h.row j a ha, hF' _ _ _ ha]
  have hFE : F * E = 1 := by
    ext i j
    simp [E, F, mul_apply, one_apply, hf.eq_iff]
  have hone : M * (F * M'⁻¹ * E) = 1 := by
    rw [← Matrix.mul_assoc, ← Matrix.mul_assoc, ← c2, Matrix.mul_assoc F, mul_nonsing_inv _ hu, Matrix.mul_one, hFE]
  have hdM : M.det ≠ 0 := by
    intro h0
    have := congrArg Matrix.det hone
    rw [det_mul, h0, zero_mul, det_one] at this
    exact zero_ne_one this
  have hM : IsUnit M.det := isUnit_iff_ne_zero.2 hdM
  have i1 : M'⁻¹ * E = E * M⁻¹ := by
    calc M'⁻¹ * E = M'⁻¹ * (E * M * M⁻¹) := by rw [Matrix.mul_assoc E, mul_nonsing_inv _ hM, Matrix.mul_one]
      _ = M'⁻¹ * (M' * E * M⁻¹) := by rw [c1]
      _ = E * M⁻¹ := by rw [Matrix.mul_assoc, ← Matrix.mul_assoc, nonsing_inv_mul _ hu, Matrix.one_mul]
  have i2 : F * M'⁻¹ = M⁻¹ * F := by
    calc F * M'⁻¹ = M⁻¹ * M * F * M'⁻¹ := by rw [nonsing_inv_mul _ hM, Matrix.one_mul]
      _ = M⁻¹ * (F * M') * M'⁻¹ := by rw [c2, Matrix.mul_assoc M⁻¹]
      _ = M⁻¹ * F := by rw [Matrix.mul_assoc, Matrix.mul_assoc, mul_nonsing_inv _ hu, Matrix.mul_one]
  refine ⟨hdM, fun i j => ?_, fun i j hj => ?_, fun i j hj => ?_⟩
  · exact (colE _ _ _).symm.trans ((congrFun (congrFun i1 _) _).trans (hE _ _ _))
  · exact (rowF _ _ _).symm.trans ((congrFun (congrFun i2 _) _).trans (hF' _ _ _ hj))
  · exact (colE _ _ _).symm.trans ((congrFun (congrFun i1 _) _).trans (hE' _ _ _ hj))

/-- The eigenvalues of a matrix whose characteristic polynomial divides another one are among those of the other. -/
theorem isEigh_subperm {n m : ℕ} {A V : Matrix (Fin n) (Fin n) ℂ} {B W : Matrix (Fin m) (Fin m) ℂ}
    {w : Fin n → ℝ} {u : Fin m → ℝ} (h : IsEigh A w V) (h' : IsEigh B u W) (hc : A.charpoly ∣ B.charpoly) :
    (List.ofFn w).Subperm (List.ofFn u) := by
  have hB : B.charpoly ≠ 0 := (charpoly_monic B).ne_zero
  have hle := Polynomial.roots.le_of_dvd hB hc
  have key : ∀ {k : ℕ} (v : Fin k → ℝ), (∏ i, (X - C (v i : ℂ))).roots =
      (((List.ofFn v).map fun (x : ℝ) => (x : ℂ) : List ℂ) : Multiset ℂ) := by
    intro k v
    have : ∏ i, (X - C (v i : ℂ)) =
        ((((List.ofFn v).map fun (x : ℝ) => (x : ℂ) : List ℂ) : Multiset ℂ).map fun a => X - C a).prod := by
      rw [Multiset.map_coe, Multiset.prod_coe, List.map_map, List.map_ofFn, List.prod_ofFn]
      rfl
    rw [this, roots_multiset_prod_X_sub_C]
  rw [isEigh_charpoly h, isEigh_charpoly h', key, key, Multiset.coe_le] at hle
  obtain ⟨l, hl, hs⟩ := hle
  have := (hs.map Complex.re).subperm
  have hl' := hl.map Complex.re
  simp only [List.map_map, Function.comp_def, Complex.ofReal_re, List.map_id'] at this hl'
  exact hl'.symm.subperm.trans this

/-- If the values of one list are among those of another, its sorted values are not below those of the other at the
same place. -/
theorem sublist_sorted_le {l l' : List ℝ} (h : l.Sublist l') (hs : l'.Pairwise (· ≤ ·)) (i : ℕ) (hi : i < l.length)
    (hi' : i < l'.length) : l'[i] ≤ l[i] := by
  induction h generalizing i with
  | slnil => simp at hi
  | @cons l₁ l₂ a h ih =>
    rw [List.pairwise_cons] at hs
    have hlen := h.length_le
    cases i with
    | zero =>
      have h0 : 0 < l₂.length := lt_of_lt_of_le hi hlen
      exact (hs.1 _ (h.subset (List.getElem_mem hi)))
    | succ i =>
      have h1 : i + 1 < l₂.length := lt_of_lt_of_le hi hlen
      refine le_trans ?_ (ih hs.2 (i + 1) hi h1)
      rw [List.getElem_cons_succ]
      exact List.pairwise_iff_getElem.1 hs.2 i (i + 1) (by omega) h1 (by omega)
  | @cons_cons l₁ l₂ a h ih =>
    rw [List.pairwise_cons] at hs
    cases i with
    | zero => exact le_refl _
    | succ i => exact ih hs.2 i (by simpa using hi) (by simpa using hi')

end Legume
