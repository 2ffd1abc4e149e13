import Verif.Lemmas.TimeReversal
import Verif.Props.Regulariser
import Mathlib.LinearAlgebra.Matrix.Charpoly.Basic

/-!
# Opposite wave vectors and inverted patterns have the same frequencies (C108)

The guided modes are real fields, so that the matrices of the guided-mode expansion at opposite wave vectors are complex
conjugates of each other, and so are those of a pattern and the pattern seen from below.
-/
open Matrix MeasureTheory
open scoped ComplexOrder ComplexConjugate

namespace Legume

open Spec

/-- A Hermitian matrix and its conjugate in another order have the same characteristic polynomial. -/
theorem charpoly_conj_reindex {n m : ℕ} (σ : Fin m ≃ Fin n) (M : Matrix (Fin n) (Fin n) ℂ) (hM : M.IsHermitian)
    (M' : Matrix (Fin m) (Fin m) ℂ) (h : ∀ i j, M' i j = conj (M (σ i) (σ j))) :
    (M' + 1).charpoly = (M + 1).charpoly := by
  have h1 : M' + 1 = reindex σ.symm σ.symm (M + 1)ᵀ := by
    ext i j
    have h2 : conj (M (σ i) (σ j)) = M (σ j) (σ i) := congrFun (congrFun hM (σ j)) (σ i)
    simp only [Matrix.add_apply, reindex_apply, submatrix_apply, transpose_apply, Equiv.symm_symm, h, h2, Matrix.one_apply]
    congr 1
    by_cases hij : i = j
    · rw [if_pos hij, if_pos (by rw [hij])]
    · rw [if_neg hij, if_neg fun e => hij (σ.injective e).symm]
  rw [h1, charpoly_reindex, charpoly_transpose]

/-- The inverse of a conjugate matrix in another order. -/
theorem flip_inv {N : ℕ} (ν : Equiv.Perm (Fin N)) (A A' : Matrix (Fin N) (Fin N) ℂ)
    (h : ∀ i j, A' (ν i) (ν j) = conj (A i j)) :
    A'.det = conj A.det ∧ ∀ i j, A'⁻¹ (ν i) (ν j) = conj (A⁻¹ i j) := by
  have h1 : A'.submatrix ν ν = Aᴴᵀ := by
    ext i j
    rw [submatrix_apply, h, transpose_apply, conjTranspose_apply]
    rfl
  constructor
  · rw [← det_submatrix_equiv_self ν A', h1, det_transpose, det_conjTranspose]
    rfl
  · intro i j
    have h2 := congrArg Inv.inv h1
    rw [inv_submatrix_equiv, ← transpose_nonsing_inv, ← conjTranspose_nonsing_inv] at h2
    have h3 := congrFun (congrFun h2 i) j
    rw [submatrix_apply, transpose_apply, conjTranspose_apply] at h3
    exact h3

theorem perm_map_index {α β γ : Type*} {l : List α} {l' : List β} {f : α → γ} {g : β → γ}
    (h : (l.map f).Perm (l'.map g)) : ∃ σ : Fin l.length ≃ Fin l'.length, ∀ i, g l'[σ i] = f l[i] := by
  obtain ⟨τ, h1, h2⟩ := subperm_index h.subperm
  have hl : l.length = l'.length := by simpa using h.length_eq
  set ρ : Fin l.length → Fin l'.length := fun i => (τ (i.cast (by simp))).cast (by simp) with hρ
  have hinj : Function.Injective ρ := by
    intro i j e
    have := h1 (Fin.cast_injective _ e)
    exact Fin.cast_injective _ this
  refine ⟨Equiv.ofBijective ρ ((Fintype.bijective_iff_injective_and_card ρ).2 ⟨hinj, by simp [hl]⟩), fun i => ?_⟩
  have := h2 (i.cast (by simp))
  simp only [Fin.getElem_fin, List.getElem_map, Fin.val_cast] at this
  simpa [hρ] using this

/-- The matrices of two problems which are conjugates of each other. -/
theorem gme_conj_entry {N : ℕ} (stack : List (LPos × ℝ)) (Es Es' : List (Matrix (Fin N) (Fin N) ℂ))
    (hE : ∀ E ∈ Es, E.IsHermitian) (hE' : ∀ E ∈ Es', E.IsHermitian) (ν : Equiv.Perm (Fin N))
    (hq : List.Forall₂ (fun E E' : Matrix (Fin N) (Fin N) ℂ => ∀ i j, E' (ν i) (ν j) = conj (E i j)) Es Es')
    (b b' : List (BasisEl N)) (hb : b.Pairwise fun s t => s.blk ≤ t.blk) (hb' : b'.Pairwise fun s t => s.blk ≤ t.blk)
    (hr : ∀ s ∈ b, ∀ m ∈ s.st.layers, RealMode m) (σ : Fin b'.length ≃ Fin b.length)
    (h1 : ∀ i, b'[i].ig = ν b[σ i].ig)
    (h2 : ∀ i j einv, gmeElem ijExact stack einv b'[i].st b'[j].st = gmeElem ijExact stack einv b[σ i].st b[σ j].st) :
    ∀ i j, gmeMatIj ijExact stack Es' b' i j = conj (gmeMatIj ijExact stack Es b (σ i) (σ j)) := by
  intro i j
  rw [gmeMatIj_exact stack Es' hE' b' hb', gmeMatIj_exact stack Es hE b hb, h2,
    gmeElem_conj _ _ _ _ (hr b[σ i] (List.getElem_mem _)) (hr b[σ j] (List.getElem_mem _)), List.map_map]
  congr 1
  have e1 := h1 i
  have e2 := h1 j
  generalize b'[i].ig = p' at *
  generalize b'[j].ig = q' at *
  subst e1 e2
  generalize b[σ i].ig = p
  generalize b[σ j].ig = q
  induction hq with
  | nil => rfl
  | cons a _ ih =>
    simp only [List.map_cons, Function.comp_apply, a]
    rw [ih (fun E h => hE E (List.mem_cons_of_mem _ h)) fun E h => hE' E (List.mem_cons_of_mem _ h)]

theorem gme_conj_charpoly {N : ℕ} (stack : List (LPos × ℝ)) (Es Es' : List (Matrix (Fin N) (Fin N) ℂ))
    (hE : ∀ E ∈ Es, E.IsHermitian) (hE' : ∀ E ∈ Es', E.IsHermitian) (ν : Equiv.Perm (Fin N))
    (hq : List.Forall₂ (fun E E' : Matrix (Fin N) (Fin N) ℂ => ∀ i j, E' (ν i) (ν j) = conj (E i j)) Es Es')
    (b b' : List (BasisEl N)) (hb : b.Pairwise fun s t => s.blk ≤ t.blk) (hb' : b'.Pairwise fun s t => s.blk ≤ t.blk)
    (hr : ∀ s ∈ b, ∀ m ∈ s.st.layers, RealMode m) (σ : Fin b'.length ≃ Fin b.length)
    (h1 : ∀ i, b'[i].ig = ν b[σ i].ig)
    (h2 : ∀ i j einv, gmeElem ijExact stack einv b'[i].st b'[j].st = gmeElem ijExact stack einv b[σ i].st b[σ j].st) :
    (gmeMatIj ijExact stack Es' b' + 1).charpoly = (gmeMatIj ijExact stack Es b + 1).charpoly :=
  charpoly_conj_reindex σ _ (gmeMatIj_hermitian _ _ _ _) _
    (gme_conj_entry stack Es Es' hE hE' ν hq b b' hb hb' hr σ h1 h2)

/-- The inverse permittivity matrices are Hermitian. -/
theorem epsInv_hermitian (S : GmeStruct) (gmax : ℝ) (onlyG : Bool) (l : GmeLay) (hr : ∀ s ∈ l.shapes, RealShape s)
    (E : Matrix (Fin (S.gvec gmax).length) (Fin (S.gvec gmax).length) ℂ) (hE : S.epsInv gmax onlyG l = .ok E) :
    E.IsHermitian := by
  have hA : (S.epsMat gmax l).IsHermitian := by
    obtain ⟨ind, -, -, h⟩ := gme_entry S l hr gmax
    ext i j
    rw [conjTranspose_apply, h, h]
    have := (C12_layer_conj l.epsB l.epsAvg S.ecArea l.shapes hr (latVec S.b1 S.b2 (ind i - ind j))).1
    refine this.symm.trans ?_
    unfold GmeStruct.ft
    congr 1
    simp only [latVec, Prod.fst_sub, Prod.snd_sub]
    ext <;> push_cast <;> ring
  unfold GmeStruct.epsInv at hE
  split_ifs at hE with c1 c2
  · cases hE
    ext i j
    by_cases hij : i = j
    · subst hij
      have h0 : 0 < (S.gvec gmax).length := (Nat.zero_le _).trans_lt i.2
      have h1 : conj (S.epsMat gmax l ⟨0, h0⟩ ⟨0, h0⟩) = S.epsMat gmax l ⟨0, h0⟩ ⟨0, h0⟩ :=
        congrFun (congrFun hA _) _
      rw [conjTranspose_apply, Matrix.smul_apply, one_apply_eq]
      simp only [smul_eq_mul, mul_one, star_inv₀]
      congr 1
    · rw [conjTranspose_apply, Matrix.smul_apply, Matrix.smul_apply, one_apply_ne hij, one_apply_ne (Ne.symm hij)]
      simp
  · cases hE
    exact hA.inv

/-- Layers whose permittivity matrices are conjugates of each other. -/
theorem epsInv_flip (S : GmeStruct) (gmax : ℝ) (onlyG : Bool) (l l' : GmeLay) (hr : ∀ s ∈ l.shapes, RealShape s)
    (hr' : ∀ s ∈ l'.shapes, RealShape s) (havg : l'.epsAvg = l.epsAvg)
    (ν : Equiv.Perm (Fin (S.gvec gmax).length))
    (hd : ∀ i j : Fin (S.gvec gmax).length,
      norm2 (gOf S.b1 S.b2 (((absInds S.b1 S.b2 gmax).getD (ν j) 0).1 - ((absInds S.b1 S.b2 gmax).getD (ν i) 0).1,
        ((absInds S.b1 S.b2 gmax).getD (ν j) 0).2 - ((absInds S.b1 S.b2 gmax).getD (ν i) 0).2)) =
      norm2 (gOf S.b1 S.b2 (((absInds S.b1 S.b2 gmax).getD j 0).1 - ((absInds S.b1 S.b2 gmax).getD i 0).1,
        ((absInds S.b1 S.b2 gmax).getD j 0).2 - ((absInds S.b1 S.b2 gmax).getD i 0).2)))
    (h : ∀ i j, S.epsMat gmax l' (ν i) (ν j) = conj (S.epsMat gmax l i j)) :
    (∃ e, S.epsInv gmax onlyG l = .error e ∧ S.epsInv gmax onlyG l' = .error e) ∨
      ∃ E E', S.epsInv gmax onlyG l = .ok E ∧ S.epsInv gmax onlyG l' = .ok E' ∧
        ∀ i j, E' (ν i) (ν j) = conj (E i j) := by
  classical
  have hN : (absInds S.b1 S.b2 gmax).length = (S.gvec gmax).length := by simp [GmeStruct.gvec]
  have hhom : homAbs (S.ft l') S.b1 S.b2 (absInds S.b1 S.b2 gmax) ↔
      homAbs (S.ft l) S.b1 S.b2 (absInds S.b1 S.b2 gmax) := by
    unfold homAbs
    rw [hN]
    simp only [Finset.sum_range]
    rw [← Equiv.sum_comp ν]
    have : ∀ i, ∑ j : Fin (S.gvec gmax).length, (if 1e-10 < norm2 (gOf S.b1 S.b2
          (((absInds S.b1 S.b2 gmax).getD j 0).1 - ((absInds S.b1 S.b2 gmax).getD (ν i) 0).1,
          ((absInds S.b1 S.b2 gmax).getD j 0).2 - ((absInds S.b1 S.b2 gmax).getD (ν i) 0).2))
        then ‖epsMatAbs (S.ft l') S.b1 S.b2 (absInds S.b1 S.b2 gmax) (ν i) j‖ else 0) =
        ∑ j : Fin (S.gvec gmax).length, (if 1e-10 < norm2 (gOf S.b1 S.b2
          (((absInds S.b1 S.b2 gmax).getD j 0).1 - ((absInds S.b1 S.b2 gmax).getD i 0).1,
          ((absInds S.b1 S.b2 gmax).getD j 0).2 - ((absInds S.b1 S.b2 gmax).getD i 0).2))
        then ‖epsMatAbs (S.ft l) S.b1 S.b2 (absInds S.b1 S.b2 gmax) i j‖ else 0) := by
      intro i
      rw [← Equiv.sum_comp ν]
      refine Finset.sum_congr rfl fun j _ => ?_
      rw [hd]
      have := congrArg norm (h i j)
      rw [RCLike.norm_conj] at this
      have e : ‖epsMatAbs (S.ft l') S.b1 S.b2 (absInds S.b1 S.b2 gmax) (ν i) (ν j)‖ =
        ‖epsMatAbs (S.ft l) S.b1 S.b2 (absInds S.b1 S.b2 gmax) i j‖ := this
      rw [e]
    rw [Finset.sum_congr rfl fun i _ => this i]
  obtain ⟨hm1, hm2⟩ := flip_inv ν _ _ h
  unfold GmeStruct.epsInv
  rw [hhom]
  by_cases hc : homAbs (S.ft l) S.b1 S.b2 (absInds S.b1 S.b2 gmax) ∨ onlyG = true
  · rw [if_pos hc, if_pos hc]
    refine Or.inr ⟨_, _, rfl, rfl, fun i j => ?_⟩
    have h0 : 0 < (S.gvec gmax).length := (Nat.zero_le _).trans_lt i.2
    have hz : ∀ l : GmeLay, (∀ s ∈ l.shapes, RealShape s) →
        epsMatAbs (S.ft l) S.b1 S.b2 (absInds S.b1 S.b2 gmax) 0 0 = (l.epsAvg : ℂ) := by
      intro l hr
      obtain ⟨ind, -, -, h⟩ := gme_entry S l hr gmax
      have h1 := h ⟨0, h0⟩ ⟨0, h0⟩
      rw [sub_self] at h1
      refine h1.trans ?_
      have h2 := (C12_layer_conj l.epsB l.epsAvg S.ecArea l.shapes hr 0).2
      rw [← h2]
      unfold GmeStruct.ft
      congr 1
      simp [latVec]
    rw [hz l hr, hz l' hr', havg, Matrix.smul_apply, Matrix.smul_apply, Matrix.one_apply, Matrix.one_apply]
    by_cases hij : i = j
    · subst hij
      simp
    · rw [if_neg hij, if_neg fun e => hij (ν.injective e)]
      simp
  · rw [if_neg hc, if_neg hc]
    by_cases hdet : (S.epsMat gmax l).det = 0
    · rw [if_pos hdet, if_pos (by rw [hm1, hdet, map_zero])]
      exact Or.inl ⟨_, rfl, rfl⟩
    · rw [if_neg hdet, if_neg fun e => hdet (by rwa [hm1, map_eq_zero] at e)]
      exact Or.inr ⟨_, _, rfl, rfl, hm2⟩

/-- With every plane wave its opposite is one. -/
theorem neg_waves (b1 b2 : R2) (gmax : ℝ) : ∀ i ∈ absInds b1 b2 gmax, -i ∈ absInds b1 b2 gmax := by
  intro i hi
  rw [mem_absInds] at hi ⊢
  obtain ⟨h1, h2⟩ := hi
  constructor
  · unfold absWindow at h1 ⊢
    rw [mem_tbtInds] at h1 ⊢
    simp only [Prod.fst_neg, Prod.snd_neg]
    omega
  · refine le_trans (le_of_eq ?_) h2
    unfold norm2 gOf
    simp only [Prod.fst_neg, Prod.snd_neg]
    push_cast
    congr 1
    ring

theorem getD_of_len {α : Type*} {l : List α} {i : ℕ} {d : α} (h : i < l.length) : l.getD i d = l[i] := by
  rw [List.getD_eq_getElem?_getD, List.getElem?_eq_getElem h, Option.getD_some]

theorem mapM_congr_mem {α β : Type} (l : List α) (f f' : α → Except PyErr β) (h : ∀ a ∈ l, f a = f' a) :
    l.mapM f = l.mapM f' := by
  induction l with
  | nil => rfl
  | cons a l ih =>
    simp only [List.mapM_cons, h a List.mem_cons_self, ih fun x hx => h x (List.mem_cons_of_mem _ hx)]

theorem neg_perm (S : GmeStruct) (gmax : ℝ) : ∃ ν : Equiv.Perm (Fin (S.gvec gmax).length),
    (∀ i, (absInds S.b1 S.b2 gmax).getD (ν i) 0 = -(absInds S.b1 S.b2 gmax).getD i 0) ∧
    ∀ i, (S.gvec gmax)[ν i] = -(S.gvec gmax)[i] := by
  obtain ⟨ind, hinj, hind, -⟩ := gme_entry S ⟨.lower, 0, 0, none, []⟩ (by simp) gmax
  have hN : (absInds S.b1 S.b2 gmax).length = (S.gvec gmax).length := by simp [GmeStruct.gvec]
  have hex : ∀ i, ∃ j, ind j = -ind i := by
    intro i
    have hi : ind i ∈ absInds S.b1 S.b2 gmax := by
      rw [hind, getD_of_len (by rw [hN]; exact i.2)]
      exact List.getElem_mem _
    obtain ⟨j, hj, e⟩ := List.getElem_of_mem (neg_waves _ _ _ _ hi)
    refine ⟨⟨j, by rw [← hN]; exact hj⟩, ?_⟩
    rw [hind, getD_of_len hj, e]
  choose ν hν using hex
  have h1 : Function.Injective ν := fun i j e => hinj (neg_injective (by rw [← hν, ← hν, e]))
  refine ⟨Equiv.ofBijective ν ((Fintype.bijective_iff_injective_and_card ν).2 ⟨h1, rfl⟩), fun i => ?_, fun i => ?_⟩
  · rw [← hind, ← hind]
    exact hν i
  · have hg : ∀ i : Fin (S.gvec gmax).length, (S.gvec gmax)[i] = gOf S.b1 S.b2 (ind i) := by
      intro i
      rw [hind, getD_of_len (by rw [hN]; exact i.2)]
      exact List.getElem_map _
    rw [hg, hg]
    have e : ind (Equiv.ofBijective ν ((Fintype.bijective_iff_injective_and_card ν).2 ⟨h1, rfl⟩) i) = -ind i := hν i
    rw [e]
    simp only [gOf, Prod.fst_neg, Prod.snd_neg]
    ext <;> simp <;> ring

/-- The elements of a basis are the normalised guided modes of the effective stack at the plane waves seen from the wave
vector `k`, mode by mode. -/
structure SlabGuided (e0 eN : ℝ) (ls : List (ℝ × ℝ)) (gvec : List R2) (k : R2) (b : List (BasisEl gvec.length)) :
    Prop where
  sorted : b.Pairwise fun s t => s.blk ≤ t.blk
  mode : ∀ s ∈ b, ∃ abs, SlabRoot s.st.pol s.st.om (√((gvec[s.ig].1 + k.1) ^ 2 + (gvec[s.ig].2 + k.2) ^ 2)) e0 eN ls abs ∧
    s.st = normState s.st.pol (gvec[s.ig].1 + k.1) (gvec[s.ig].2 + k.2) s.st.om e0 eN ls abs

/-- The modes of two bases are the same up to order, at opposite plane waves. -/
def OppositeModes (gvec : List R2) (b b' : List (BasisEl gvec.length)) : Prop :=
  (b'.map fun s => (-gvec[s.ig], s.st.pol, s.st.om)).Perm (b.map fun s => (gvec[s.ig], s.st.pol, s.st.om))

theorem slabGuided_real {e0 eN : ℝ} {ls : List (ℝ × ℝ)} (hne : ls ≠ []) (h0 : e0 ≠ 0) (hN : eN ≠ 0)
    (hl : ∀ l ∈ ls, l.1 ≠ 0) {gvec : List R2} {k : R2} {b : List (BasisEl gvec.length)}
    (h : SlabGuided e0 eN ls gvec k b) : ∀ s ∈ b, ∀ m ∈ s.st.layers, RealMode m := by
  intro s hs
  obtain ⟨abs, h1, h2⟩ := h.mode s hs
  rw [h2]
  exact normState_real hne h0 hN hl h1

theorem normState_neg (pol : Pol) (gx gy om e0 eN : ℝ) (ls : List (ℝ × ℝ)) (abs : List (ℂ × ℂ)) :
    normState pol (-gx) (-gy) om e0 eN ls abs =
      { normState pol gx gy om e0 eN ls abs with
        gx := -(normState pol gx gy om e0 eN ls abs).gx, gy := -(normState pol gx gy om e0 eN ls abs).gy } := by
  unfold normState
  rw [neg_sq, neg_sq]
  unfold slabState
  simp only [neg_sq]

/-- Plane waves, permittivities and basis states of a run at opposite wave vectors. -/
theorem gme_opposite (S : GmeStruct) (hdet : S.b1.1 * S.b2.2 - S.b1.2 * S.b2.1 ≠ 0) (gmax : ℝ) (onlyG : Bool)
    (hr : ∀ l ∈ S.layers, ∀ s ∈ l.shapes, RealShape s) (e0 eN : ℝ) (ls : List (ℝ × ℝ))
    (Es : List (Matrix (Fin (S.gvec gmax).length) (Fin (S.gvec gmax).length) ℂ))
    (hE : S.layers.mapM (S.epsInv gmax onlyG) = .ok Es) (k k' : R2) (hk : k' = -k)
    (b b' : List (BasisEl (S.gvec gmax).length)) (hb : SlabGuided e0 eN ls (S.gvec gmax) k b)
    (hb' : SlabGuided e0 eN ls (S.gvec gmax) k' b') (hbb : OppositeModes (S.gvec gmax) b b') :
    ∃ (ν : Equiv.Perm (Fin (S.gvec gmax).length)) (σ : Fin b'.length ≃ Fin b.length),
      (∀ i, (S.gvec gmax)[ν i] = -(S.gvec gmax)[i]) ∧ (∀ E ∈ Es, E.IsHermitian) ∧
      List.Forall₂ (fun E E' : Matrix (Fin (S.gvec gmax).length) (Fin (S.gvec gmax).length) ℂ =>
        ∀ i j, E' (ν i) (ν j) = conj (E i j)) Es Es ∧
      (∀ i, b'[i].ig = ν b[σ i].ig) ∧
      ∀ i, b'[i].st = { b[σ i].st with gx := -b[σ i].st.gx, gy := -b[σ i].st.gy } := by
  obtain ⟨ν, hν, hν'⟩ := neg_perm S gmax
  obtain ⟨σ, hσ⟩ := perm_map_index hbb
  have hH : ∀ E ∈ Es, E.IsHermitian := by
    intro E hE'
    obtain ⟨l, hl, h⟩ := forall2_mem_right (mapM_ok_forall hE) E hE'
    exact epsInv_hermitian S gmax onlyG l (hr l hl) E h
  have hnd : (S.gvec gmax).Nodup := (C18_sound S.b1 S.b2 gmax).1 hdet
  have hq : List.Forall₂ (fun E E' : Matrix (Fin (S.gvec gmax).length) (Fin (S.gvec gmax).length) ℂ =>
      ∀ i j, E' (ν i) (ν j) = conj (E i j)) Es Es := by
    rw [List.forall₂_same]
    intro E hE'
    obtain ⟨l, hl, h⟩ := forall2_mem_right (mapM_ok_forall hE) E hE'
    have hlat : ∀ i j : ℤ × ℤ, latVec S.b1 S.b2 (-j - -i) =
        (-(latVec S.b1 S.b2 (j - i)).1, -(latVec S.b1 S.b2 (j - i)).2) := by
      intro i j
      simp only [latVec, Prod.fst_sub, Prod.snd_sub, Prod.fst_neg, Prod.snd_neg]
      ext <;> push_cast <;> ring
    have hf := epsInv_flip S gmax onlyG l l (hr l hl) (hr l hl) rfl ν (by
      intro i j
      rw [hν, hν]
      simp only [Prod.fst_neg, Prod.snd_neg, norm2, gOf]
      push_cast
      ring_nf) (by
      intro i j
      obtain ⟨ind, -, hind, he⟩ := gme_entry S l (hr l hl) gmax
      rw [he, he, hind (ν i), hind (ν j), hν, hν, ← hind, ← hind, hlat]
      exact (C12_layer_conj l.epsB l.epsAvg S.ecArea l.shapes (hr l hl) _).1)
    rcases hf with ⟨e, e1, -⟩ | ⟨E1, E2, e1, e2, e3⟩
    · rw [e1] at h; cases h
    · rw [h] at e1 e2
      cases e1
      cases e2
      exact e3
  have hwave : ∀ i, (S.gvec gmax)[b'[i].ig] = -(S.gvec gmax)[b[σ i].ig] ∧ b'[i].st.pol = b[σ i].st.pol ∧
      b'[i].st.om = b[σ i].st.om := by
    intro i
    have := hσ i
    simp only [Prod.mk.injEq] at this
    exact ⟨by rw [this.1, neg_neg], this.2.1.symm, this.2.2.symm⟩
  have hst : ∀ i, b'[i].st = { b[σ i].st with gx := -b[σ i].st.gx, gy := -b[σ i].st.gy } := by
    intro i
    obtain ⟨abs, h1, h2⟩ := hb.mode b[σ i] (List.getElem_mem _)
    obtain ⟨abs', h1', h2'⟩ := hb'.mode b'[i] (List.getElem_mem _)
    obtain ⟨w1, w2, w3⟩ := hwave i
    rw [w1, w2, w3, hk] at h1' h2'
    simp only [Prod.fst_neg, Prod.snd_neg, ← neg_add, neg_sq] at h1' h2'
    have := h1'.amps
    rw [h1.amps] at this
    cases this
    rw [normState_neg] at h2'
    rw [h2', ← h2]
  refine ⟨ν, σ, hν', hH, hq, fun i => ?_, hst⟩
  have h1 : (S.gvec gmax)[b'[i].ig] = (S.gvec gmax)[ν b[σ i].ig] := by rw [hν', (hwave i).1]
  exact Fin.ext ((List.Nodup.getElem_inj_iff hnd).1 h1)

/-- The matrices of a run at opposite wave vectors. -/
theorem gme_reversed (S : GmeStruct) (hdet : S.b1.1 * S.b2.2 - S.b1.2 * S.b2.1 ≠ 0) (gmax : ℝ) (onlyG : Bool)
    (hr : ∀ l ∈ S.layers, ∀ s ∈ l.shapes, RealShape s) (e0 eN : ℝ) (ls : List (ℝ × ℝ)) (hne : ls ≠ []) (h0 : e0 ≠ 0)
    (hN : eN ≠ 0) (hl : ∀ l ∈ ls, l.1 ≠ 0)
    (Es : List (Matrix (Fin (S.gvec gmax).length) (Fin (S.gvec gmax).length) ℂ))
    (hE : S.layers.mapM (S.epsInv gmax onlyG) = .ok Es) (k k' : R2) (hk : k' = -k)
    (b b' : List (BasisEl (S.gvec gmax).length)) (hb : SlabGuided e0 eN ls (S.gvec gmax) k b)
    (hb' : SlabGuided e0 eN ls (S.gvec gmax) k' b') (hbb : OppositeModes (S.gvec gmax) b b') :
    (gmeMatIj ijExact (slabStack e0 eN ls) Es b' + 1).charpoly =
      (gmeMatIj ijExact (slabStack e0 eN ls) Es b + 1).charpoly := by
  obtain ⟨ν, σ, -, hH, hq, h1, h2⟩ := gme_opposite S hdet gmax onlyG hr e0 eN ls Es hE k k' hk b b' hb hb' hbb
  refine gme_conj_charpoly _ Es Es hH hH ν hq b b' hb.sorted hb'.sorted (slabGuided_real hne h0 hN hl hb) σ h1 ?_
  intro i j einv
  rw [h2, h2, gmeElem_neg]

/-- The wave vectors opposite to those of a run. The code adds `delta` to the first component of all plane waves. -/
def oppositeK (delta : ℝ) (k : R2) : R2 := (-k.1 - 2 * delta, -k.2)

/-- **C108 (opposite wave vectors).** The frequencies at a wave vector and at its opposite are the same, whatever the
pattern: with the integrals over the layers exact, `run` on the opposite wave vectors returns the same results, errors
included. -/
theorem C108_reversal (argsort : List ℝ → List ℕ) (eigh : ∀ n, Matrix (Fin n) (Fin n) ℂ → Fin n → ℝ)
    (he : SortedEigh eigh) (guided : GuidedSolver) (S : GmeStruct)
    (hdet : S.b1.1 * S.b2.2 - S.b1.2 * S.b2.1 ≠ 0) (gmax : ℝ) (onlyG : Bool) (opt : String)
    (hr : ∀ l ∈ S.layers, ∀ s ∈ l.shapes, RealShape s) (e0 eN : ℝ) (ls : List (ℝ × ℝ)) (hne : ls ≠ []) (h0 : e0 ≠ 0)
    (hN : eN ≠ 0) (hl : ∀ l ∈ ls, l.1 ≠ 0)
    (hst : ∀ eff, S.layers.mapM (GmeLay.eff opt) = .ok eff →
      (S.layers.map GmeLay.pos).zip eff = slabStack e0 eN ls) (ks : List R2) (delta : ℝ)
    (hg : ∀ (ik : ℕ) (h : ik < ks.length),
      (∃ e, guided (slabStack e0 eN ls) (S.gvec gmax) ks ik = .error e ∧
        guided (slabStack e0 eN ls) (S.gvec gmax) (ks.map (oppositeK delta)) ik = .error e) ∨
      ∃ b b', guided (slabStack e0 eN ls) (S.gvec gmax) ks ik = .ok b ∧
        guided (slabStack e0 eN ls) (S.gvec gmax) (ks.map (oppositeK delta)) ik = .ok b' ∧
        SlabGuided e0 eN ls (S.gvec gmax) (ks[ik] + (delta, 0)) b ∧
        SlabGuided e0 eN ls (S.gvec gmax) (oppositeK delta ks[ik] + (delta, 0)) b' ∧
        OppositeModes (S.gvec gmax) b b') (sigma : ℝ) (numeig : ℕ) :
    gmeSimIj ijExact argsort eigh guided S gmax onlyG opt (ks.map (oppositeK delta)) sigma numeig =
      gmeSimIj ijExact argsort eigh guided S gmax onlyG opt ks sigma numeig := by
  unfold gmeSimIj
  rw [List.length_map]
  cases heff : S.layers.mapM (GmeLay.eff opt) with
  | error e => rfl
  | ok eff =>
    cases hE : S.layers.mapM (S.epsInv gmax onlyG) with
    | error e => rfl
    | ok Es =>
      simp only [bind, Except.bind]
      rw [hst eff heff]
      refine mapM_congr_mem _ _ _ fun ik hik => ?_
      rcases hg ik (List.mem_range.1 hik) with ⟨e, h1, h2⟩ | ⟨b, b', h1, h2, h3, h4, h5⟩
      · rw [h1, h2]
      · rw [h1, h2]
        simp only
        congr 1
        refine sortedEigh_eq he _ _ ((gmeMatIj_hermitian _ _ _ _).add isHermitian_one)
          ((gmeMatIj_hermitian _ _ _ _).add isHermitian_one) ?_
        refine gme_reversed S hdet gmax onlyG hr e0 eN ls hne h0 hN hl Es hE _ _ ?_ b b' h3 h4 h5
        unfold oppositeK
        ext
        · simp; ring
        · simp

/-- **C108 (real fields).** The normalised guided modes are real: at every height of every layer the field parallel to
the layers is a real number, and its derivative over `i` imaginary. -/
theorem C108_real {e0 eN : ℝ} {ls : List (ℝ × ℝ)} (hne : ls ≠ []) (h0 : e0 ≠ 0) (hN : eN ≠ 0)
    (hl : ∀ l ∈ ls, l.1 ≠ 0) {gvec : List R2} {k : R2} {b : List (BasisEl gvec.length)}
    (h : SlabGuided e0 eN ls gvec k b) (s : BasisEl gvec.length) (hs : s ∈ b) (m : ModeL) (hm : m ∈ s.st.layers)
    (t : ℝ) :
    conj (m.A * Complex.exp (Complex.I * m.x * t) + m.B * Complex.exp (-(Complex.I * m.x * t))) =
      m.A * Complex.exp (Complex.I * m.x * t) + m.B * Complex.exp (-(Complex.I * m.x * t)) ∧
    conj (m.x * (m.A * Complex.exp (Complex.I * m.x * t) - m.B * Complex.exp (-(Complex.I * m.x * t)))) =
      -(m.x * (m.A * Complex.exp (Complex.I * m.x * t) - m.B * Complex.exp (-(Complex.I * m.x * t)))) := by
  rcases slabGuided_real hne h0 hN hl h s hs m hm with ⟨h1, h2⟩ | ⟨h1, h2, h3⟩
  · have e1 : conj (Complex.exp (Complex.I * m.x * t)) = Complex.exp (-(Complex.I * m.x * t)) := by
      rw [← Complex.exp_conj]
      simp [h1]
    have e2 : conj (Complex.exp (-(Complex.I * m.x * t))) = Complex.exp (Complex.I * m.x * t) := by
      rw [← e1, Complex.conj_conj]
    constructor
    · rw [map_add, map_mul, map_mul, e1, e2, h2, Complex.conj_conj]
      ring
    · rw [map_mul, map_sub, map_mul, map_mul, e1, e2, h2, Complex.conj_conj, h1]
      ring
  · have e1 : conj (Complex.exp (Complex.I * m.x * t)) = Complex.exp (Complex.I * m.x * t) := by
      rw [← Complex.exp_conj]
      simp [h1]
    have e2 : conj (Complex.exp (-(Complex.I * m.x * t))) = Complex.exp (-(Complex.I * m.x * t)) := by
      rw [← Complex.exp_conj]
      simp [h1]
    constructor
    · rw [map_add, map_mul, map_mul, e1, e2, h2, h3]
    · rw [map_mul, map_sub, map_mul, map_mul, e1, e2, h2, h3, h1]
      ring

/-- The pattern of a layer turned by half a turn. -/
def Inverted (l l' : GmeLay) : Prop :=
  l'.pos = l.pos ∧ l'.epsB = l.epsB ∧ l'.epsAvg = l.epsAvg ∧ l'.epsEff = l.epsEff ∧
    (∀ s ∈ l.shapes, RealShape s) ∧
    List.Forall₂ (fun s s' : FShape => s'.eps = s.eps ∧ ∀ g : R2, s'.ft g = s.ft (-g.1, -g.2)) l.shapes l'.shapes

theorem inverted_ft (S : GmeStruct) {l l' : GmeLay} (h : Inverted l l') (g : R2) :
    S.ft l' g = S.ft l (-g.1, -g.2) := by
  obtain ⟨-, h1, h2, -, -, h3⟩ := h
  have h0 : isG0 (-g.1, -g.2) ↔ isG0 g := by simp [isG0]
  unfold GmeStruct.ft
  rw [h1, h2]
  have hs : (l'.shapes.map fun s => ((s.eps - l.epsB : ℝ) : ℂ) * s.ft g).sum =
      (l.shapes.map fun s => ((s.eps - l.epsB : ℝ) : ℂ) * s.ft (-g.1, -g.2)).sum := by
    generalize l.shapes = a at h3
    generalize l'.shapes = a' at h3
    induction h3 with
    | nil => rfl
    | cons q _ ih => rw [List.map_cons, List.map_cons, List.sum_cons, List.sum_cons, ih, q.1, q.2]
  simp only [layerFt, foldl_add_eq_sum, zero_add, hs]
  by_cases hg : isG0 g
  · rw [if_pos hg, if_pos (h0.2 hg)]
  · rw [if_neg hg, if_neg (fun h => hg (h0.1 h))]

theorem inverted_real {l l' : GmeLay} (h : Inverted l l') : ∀ s ∈ l'.shapes, RealShape s := by
  obtain ⟨-, -, -, -, h1, h2⟩ := h
  intro s' hs'
  obtain ⟨s, hs, -, h3⟩ := forall2_mem_right h2 s' hs'
  intro g
  rw [h3, h3, h1 s hs]

/-- **C108 (inversion).** A structure and the structure turned by half a turn about the vertical axis have the same
frequencies at every wave vector. -/
theorem C108_inversion (argsort : List ℝ → List ℕ) (eigh : ∀ n, Matrix (Fin n) (Fin n) ℂ → Fin n → ℝ)
    (he : SortedEigh eigh) (guided : GuidedSolver) (S : GmeStruct) (layers' : List GmeLay)
    (hinv : List.Forall₂ Inverted S.layers layers') (gmax : ℝ) (onlyG : Bool) (opt : String)
    (e0 eN : ℝ) (ls : List (ℝ × ℝ)) (hne : ls ≠ []) (h0 : e0 ≠ 0) (hN : eN ≠ 0) (hl : ∀ l ∈ ls, l.1 ≠ 0)
    (hst : ∀ eff, S.layers.mapM (GmeLay.eff opt) = .ok eff →
      (S.layers.map GmeLay.pos).zip eff = slabStack e0 eN ls) (ks : List R2)
    (hg : ∀ ik < ks.length, ∀ b, guided (slabStack e0 eN ls) (S.gvec gmax) ks ik = .ok b →
      ∃ k, SlabGuided e0 eN ls (S.gvec gmax) k b) (sigma : ℝ) (numeig : ℕ) :
    gmeSimIj ijExact argsort eigh guided { S with layers := layers' } gmax onlyG opt ks sigma numeig =
      gmeSimIj ijExact argsort eigh guided S gmax onlyG opt ks sigma numeig := by
  have hpos : layers'.map GmeLay.pos = S.layers.map GmeLay.pos := by
    clear hst hg
    generalize S.layers = ls at hinv
    induction hinv with
    | nil => rfl
    | cons h _ ih => simp only [List.map_cons, h.1, ih]
  have heff : layers'.mapM (GmeLay.eff opt) = S.layers.mapM (GmeLay.eff opt) :=
    (mapM_forall2 _ _ (fun l l' h => by unfold GmeLay.eff; rw [h.2.1, h.2.2.1, h.2.2.2.1]) hinv).symm
  have hE := mapM_rel (S.epsInv gmax onlyG) (S.epsInv gmax onlyG)
    (Q := fun E E' => (∀ i j, E' i j = conj (E i j)) ∧ E.IsHermitian ∧ E'.IsHermitian) (fun l l' h => by
      have hr := h.2.2.2.2.1
      have hr' := inverted_real h
      rcases epsInv_flip S gmax onlyG l l' hr hr' h.2.2.1 (Equiv.refl _) (fun i j => rfl) (by
        intro i j
        obtain ⟨ind, hinj, hind, he⟩ := gme_entry S l hr gmax
        obtain ⟨ind', -, hind', he'⟩ := gme_entry S l' hr' gmax
        have : ind' = ind := funext fun i => by rw [hind, hind']
        rw [Equiv.refl_apply, Equiv.refl_apply, he, he', this, inverted_ft S h]
        exact (C12_layer_conj l.epsB l.epsAvg S.ecArea l.shapes hr _).1) with ⟨e, e1, e2⟩ | ⟨E, E', e1, e2, e3⟩
      · exact Or.inl ⟨e, e1, e2⟩
      · exact Or.inr ⟨E, E', e1, e2, e3, epsInv_hermitian S gmax onlyG l hr E e1,
          epsInv_hermitian S gmax onlyG l' hr' E' e2⟩) hinv
  have u1 : gmeSimIj ijExact argsort eigh guided { S with layers := layers' } gmax onlyG opt ks sigma numeig = (do
    let eff ← layers'.mapM (GmeLay.eff opt)
    let stack := (layers'.map GmeLay.pos).zip eff
    let einv ← layers'.mapM (S.epsInv gmax onlyG)
    (List.range ks.length).mapM fun (ik : ℕ) => do
      let basis ← guided stack (S.gvec gmax) ks ik
      solveFull argsort (List.ofFn (eigh _ (gmeMatIj ijExact stack einv basis + 1))) sigma numeig) := rfl
  rw [u1, heff, hpos]
  unfold gmeSimIj
  cases hef : S.layers.mapM (GmeLay.eff opt) with
  | error e => rfl
  | ok eff =>
    simp only [bind, Except.bind]
    rcases hE with ⟨e, h1, h2⟩ | ⟨Es, Es', h1, h2, hq⟩
    · rw [h1, h2]
    · rw [h1, h2]
      simp only
      rw [hst eff hef]
      refine mapM_congr_mem _ _ _ fun ik hik => ?_
      cases hb : guided (slabStack e0 eN ls) (S.gvec gmax) ks ik with
      | error e => rfl
      | ok b =>
        simp only
        congr 1
        obtain ⟨k, hk⟩ := hg ik (List.mem_range.1 hik) b hb
        refine sortedEigh_eq he _ _ ((gmeMatIj_hermitian _ _ _ _).add isHermitian_one)
          ((gmeMatIj_hermitian _ _ _ _).add isHermitian_one) ?_
        refine gme_conj_charpoly _ Es Es' ?_ ?_ (Equiv.refl _) (hq.imp fun _ _ h => h.1) b b hk.sorted hk.sorted
          (slabGuided_real hne h0 hN hl hk) (Equiv.refl _) (fun _ => rfl) (fun _ _ _ => rfl)
        · intro E hE
          obtain ⟨E', -, h⟩ := forall2_mem_right hq.flip E hE
          exact h.2.1
        · intro E' hE
          obtain ⟨E, -, h⟩ := forall2_mem_right hq E' hE
          exact h.2.2

/-- **C108 (shapes).** Circles about opposite centres are turned into each other, and ellipses. -/
theorem C108_shapes (J : ℝ → ℝ) (x y r rx ry phi : ℝ) (g : R2) :
    Circle.ft J ⟨-x, -y, r⟩ g = Circle.ft J ⟨x, y, r⟩ (-g.1, -g.2) ∧
    Ellipse.ft J ⟨-x, -y, rx, ry, phi⟩ g = Ellipse.ft J ⟨x, y, rx, ry, phi⟩ (-g.1, -g.2) := by
  constructor
  · simp only [Circle.ft, neg_sq]
    push_cast
    congr 5
    congr 1
    ring
  · have h : toFrame phi (-g.1, -g.2) = (-(toFrame phi g).1, -(toFrame phi g).2) := by
      simp only [toFrame]
      ext <;> simp <;> ring
    simp only [Ellipse.ft, h, neg_mul, neg_sq]
    push_cast
    congr 6
    ring_nf

/-- Guided modes given by branches: for every polarisation and number of the mode, the frequency as a function of the
length of the wave vector, if the mode exists there. -/
noncomputable def branchGuided (br : List (Pol × (ℝ → Option ℝ))) (delta e0 eN : ℝ) (ls : List (ℝ × ℝ)) :
    GuidedSolver := fun _ gvec ks ik =>
  .ok ((List.range br.length).flatMap fun (n : ℕ) => (List.finRange gvec.length).filterMap fun i =>
    ((br.getD n (.te, fun _ => none)).2
      (√((gvec[i].1 + ((ks.getD ik 0).1 + delta)) ^ 2 + (gvec[i].2 + (ks.getD ik 0).2) ^ 2))).map fun om =>
      ⟨n, i, normState (br.getD n (.te, fun _ => none)).1 (gvec[i].1 + ((ks.getD ik 0).1 + delta))
        (gvec[i].2 + (ks.getD ik 0).2) om e0 eN ls
        (match abMatrices (br.getD n (.te, fun _ => none)).1 om
            (√((gvec[i].1 + ((ks.getD ik 0).1 + delta)) ^ 2 + (gvec[i].2 + (ks.getD ik 0).2) ^ 2))
            (e0 :: ls.map Prod.fst ++ [eN]) (ls.map Prod.snd) with
          | .ok abs => abs
          | .error _ => [])⟩)

/-- The frequencies on the branches are roots of the dispersion relation. -/
def RootBranches (br : List (Pol × (ℝ → Option ℝ))) (e0 eN : ℝ) (ls : List (ℝ × ℝ)) : Prop :=
  ∀ p ∈ br, ∀ g om, p.2 g = some om → ∃ abs, SlabRoot p.1 om g e0 eN ls abs

theorem branch_basis {br : List (Pol × (ℝ → Option ℝ))} {e0 eN : ℝ} {ls : List (ℝ × ℝ)}
    (hbr : RootBranches br e0 eN ls) (delta : ℝ) (stack : List (LPos × ℝ)) (gvec ks : List R2) (ik : ℕ)
    (b : List (BasisEl gvec.length)) (hb : branchGuided br delta e0 eN ls stack gvec ks ik = .ok b) :
    SlabGuided e0 eN ls gvec (ks.getD ik 0 + (delta, 0)) b := by
  unfold branchGuided at hb
  cases hb
  constructor
  · rw [List.pairwise_flatMap]
    constructor
    · intro n _
      refine List.pairwise_of_forall_mem_list fun s hs t ht => ?_
      obtain ⟨i, -, h1⟩ := List.mem_filterMap.1 hs
      obtain ⟨j, -, h2⟩ := List.mem_filterMap.1 ht
      obtain ⟨o1, -, rfl⟩ := Option.map_eq_some_iff.1 h1
      obtain ⟨o2, -, rfl⟩ := Option.map_eq_some_iff.1 h2
      exact le_rfl
    · refine List.pairwise_lt_range.imp fun {n m} hnm s hs t ht => ?_
      obtain ⟨i, -, h1⟩ := List.mem_filterMap.1 hs
      obtain ⟨j, -, h2⟩ := List.mem_filterMap.1 ht
      obtain ⟨o1, -, rfl⟩ := Option.map_eq_some_iff.1 h1
      obtain ⟨o2, -, rfl⟩ := Option.map_eq_some_iff.1 h2
      exact hnm.le
  · intro s hs
    obtain ⟨n, hn, hs⟩ := List.mem_flatMap.1 hs
    obtain ⟨i, -, h1⟩ := List.mem_filterMap.1 hs
    obtain ⟨om, h2, rfl⟩ := Option.map_eq_some_iff.1 h1
    have hmem : br.getD n (.te, fun _ => none) ∈ br := by
      rw [getD_of_len (List.mem_range.1 hn)]
      exact List.getElem_mem _
    obtain ⟨abs, h3⟩ := hbr _ hmem _ om h2
    refine ⟨abs, ?_, ?_⟩
    · change SlabRoot (br.getD n (.te, fun _ => none)).1 om _ e0 eN ls abs
      rw [Prod.fst_add, Prod.snd_add, add_zero]
      exact h3
    · have := h3.amps
      simp only [this]
      simp [normState, slabState]

theorem branch_opposite (br : List (Pol × (ℝ → Option ℝ))) (delta e0 eN : ℝ) (ls : List (ℝ × ℝ))
    (stack : List (LPos × ℝ)) (S : GmeStruct) (gmax : ℝ) (ks : List R2) (ik : ℕ) (hik : ik < ks.length)
    (b b' : List (BasisEl (S.gvec gmax).length))
    (hb : branchGuided br delta e0 eN ls stack (S.gvec gmax) ks ik = .ok b)
    (hb' : branchGuided br delta e0 eN ls stack (S.gvec gmax) (ks.map (oppositeK delta)) ik = .ok b') :
    OppositeModes (S.gvec gmax) b b' := by
  obtain ⟨ν, -, hν⟩ := neg_perm S gmax
  unfold branchGuided at hb hb'
  cases hb
  cases hb'
  unfold OppositeModes
  rw [List.map_flatMap, List.map_flatMap]
  refine List.Perm.flatMap_left _ fun n _ => ?_
  rw [List.map_filterMap, List.map_filterMap]
  refine ((Equiv.Perm.map_finRange_perm ν).symm.filterMap _).trans (List.Perm.of_eq ?_)
  rw [List.filterMap_map]
  congr 1
  funext i
  have hk : (ks.map (oppositeK delta)).getD ik 0 = oppositeK delta ks[ik] := by
    rw [getD_of_len (by simpa using hik), List.getElem_map]
  simp only [Function.comp_apply, Option.map_map]
  rw [hk, getD_of_len hik, hν]
  simp only [oppositeK, Prod.fst_neg, Prod.snd_neg]
  rw [show -(S.gvec gmax)[i].1 + (-ks[ik].1 - 2 * delta + delta) = -((S.gvec gmax)[i].1 + (ks[ik].1 + delta)) by ring,
    show -(S.gvec gmax)[i].2 + -ks[ik].2 = -((S.gvec gmax)[i].2 + ks[ik].2) by ring, neg_sq, neg_sq]
  congr 1
  funext om
  simp only [Function.comp_apply, hν, neg_neg]
  rfl

/-- **C108 (branches).** If the guided modes come from branches `omega(|g|)` of roots of the dispersion relation, as they
do in the code, then the frequencies at opposite wave vectors are the same. -/
theorem C108_branches (argsort : List ℝ → List ℕ) (eigh : ∀ n, Matrix (Fin n) (Fin n) ℂ → Fin n → ℝ)
    (he : SortedEigh eigh) (S : GmeStruct)
    (hdet : S.b1.1 * S.b2.2 - S.b1.2 * S.b2.1 ≠ 0) (gmax : ℝ) (onlyG : Bool) (opt : String)
    (hr : ∀ l ∈ S.layers, ∀ s ∈ l.shapes, RealShape s) (e0 eN : ℝ) (ls : List (ℝ × ℝ)) (hne : ls ≠ []) (h0 : e0 ≠ 0)
    (hN : eN ≠ 0) (hl : ∀ l ∈ ls, l.1 ≠ 0)
    (hst : ∀ eff, S.layers.mapM (GmeLay.eff opt) = .ok eff →
      (S.layers.map GmeLay.pos).zip eff = slabStack e0 eN ls)
    (br : List (Pol × (ℝ → Option ℝ))) (hbr : RootBranches br e0 eN ls) (ks : List R2) (delta : ℝ) (sigma : ℝ)
    (numeig : ℕ) :
    gmeSimIj ijExact argsort eigh (branchGuided br delta e0 eN ls) S gmax onlyG opt (ks.map (oppositeK delta)) sigma
        numeig =
      gmeSimIj ijExact argsort eigh (branchGuided br delta e0 eN ls) S gmax onlyG opt ks sigma numeig := by
  refine C108_reversal argsort eigh he _ S hdet gmax onlyG opt hr e0 eN ls hne h0 hN hl hst ks delta
    (fun ik hik => Or.inr ?_) sigma numeig
  refine ⟨_, _, rfl, rfl, ?_, ?_, branch_opposite br delta e0 eN ls (slabStack e0 eN ls) S gmax ks ik hik _ _ rfl rfl⟩
  · rw [← getD_of_len (d := 0) hik]
    exact branch_basis hbr delta (slabStack e0 eN ls) (S.gvec gmax) ks ik _ rfl
  · have hk : oppositeK delta ks[ik] = (ks.map (oppositeK delta)).getD ik 0 := by
      rw [getD_of_len (by simpa using hik), List.getElem_map]
    rw [hk]
    exact branch_basis hbr delta (slabStack e0 eN ls) (S.gvec gmax) (ks.map (oppositeK delta)) ik _ rfl

/-- **C108 (code).** With the integrals of the code the squared angular frequencies at opposite wave vectors differ by at
most twice the effect of the regularisation on one run (C106). -/
theorem C108_code (argsort : List ℝ → List ℕ) (hs : ∀ l, IsArgsort l (argsort l))
    (eigh : ∀ n, Matrix (Fin n) (Fin n) ℂ → Fin n → ℝ)
    (he : SortedEigh eigh) (S : GmeStruct)
    (hdet : S.b1.1 * S.b2.2 - S.b1.2 * S.b2.1 ≠ 0) (gmax : ℝ) (onlyG : Bool) (opt : String)
    (hr : ∀ l ∈ S.layers, ∀ s ∈ l.shapes, RealShape s) (e0 eN : ℝ) (ls : List (ℝ × ℝ)) (hne : ls ≠ []) (h0 : e0 ≠ 0)
    (hN : eN ≠ 0) (hl : ∀ l ∈ ls, l.1 ≠ 0)
    (hst : ∀ eff, S.layers.mapM (GmeLay.eff opt) = .ok eff →
      (S.layers.map GmeLay.pos).zip eff = slabStack e0 eN ls)
    (br : List (Pol × (ℝ → Option ℝ))) (hbr : RootBranches br e0 eN ls) (ks : List R2) (delta : ℝ)
    (numeig : ℕ) (e d : ℝ) (hE : ∀ l ∈ S.layers, ∀ E, S.epsInv gmax onlyG l = .ok E → E.PosSemidef)
    (hg : ∀ ks' ∈ [ks, ks.map (oppositeK delta)], ∀ eff einv ik b, S.layers.mapM (GmeLay.eff opt) = .ok eff →
      S.layers.mapM (S.epsInv gmax onlyG) = .ok einv →
      branchGuided br delta e0 eN ls ((S.layers.map GmeLay.pos).zip eff) (S.gvec gmax) ks' ik = .ok b →
      GoodBasis ((S.layers.map GmeLay.pos).zip eff) b ∧ SmallReg e ((S.layers.map GmeLay.pos).zip eff) einv b ∧
      b.length * e ≤ d) (r r' : List KRes)
    (h : gmeSim argsort eigh (branchGuided br delta e0 eN ls) S gmax onlyG opt ks 0 numeig = .ok r)
    (h' : gmeSim argsort eigh (branchGuided br delta e0 eN ls) S gmax onlyG opt (ks.map (oppositeK delta)) 0 numeig =
      .ok r') : List.Forall₂ (Near (2 * d)) r r' := by
  obtain ⟨q, h1, h2⟩ := C106_near argsort hs eigh he.1 _ S gmax onlyG opt ks numeig e d hE (hg ks (by simp)) r h
  obtain ⟨q', h1', h2'⟩ := C106_near argsort hs eigh he.1 _ S gmax onlyG opt _ numeig e d hE
    (hg (ks.map (oppositeK delta)) (by simp)) r' h'
  rw [C108_branches argsort eigh he S hdet gmax onlyG opt hr e0 eN ls hne h0 hN hl hst br hbr, h1] at h1'
  cases h1'
  clear h1 h h'
  induction h2 generalizing r' with
  | nil => cases h2'; exact .nil
  | cons a _ ih =>
    cases h2' with
    | cons a' h2' =>
      refine .cons ⟨a.1.trans a'.1.symm, fun m m1 m2 => ?_⟩ (ih _ h2')
      have m3 := a.1 ▸ m1
      have t1 := a.2 m m1 m3
      have t2 := a'.2 m m2 m3
      rw [abs_le] at t1 t2 ⊢
      constructor <;> linarith

/-! ### Example -/

/-- The asymmetric slab of C96 with its TE mode. -/
noncomputable def asymBranch : List (Pol × (ℝ → Option ℝ)) := [(.te, fun g => open Classical in if g = 2 then some 1 else none)]

theorem asym_roots : RootBranches asymBranch 3 1 [(5, 7 * Real.pi / 12)] := by
  intro p hp g om h
  simp only [asymBranch, List.mem_singleton] at hp
  subst hp
  by_cases hg : g = 2
  · simp only [hg, if_true, Option.some.injEq] at h
    subst h hg
    exact asymmetric_root
  · simp [hg] at h

/-- The slab with a hole off the centre of the cell. -/
noncomputable def asymStruct (x : ℝ) : GmeStruct :=
  ⟨(1, 0), (0, 1), 1, [⟨.lower, 3, 3, none, []⟩,
    ⟨.inner (7 * Real.pi / 12), 5, 4, none, [⟨1, Circle.ft besselJ1 ⟨x, 0, 0.2⟩⟩]⟩, ⟨.upper, 1, 1, none, []⟩]⟩

theorem asym_stack (x : ℝ) (eff : List ℝ) (h : (asymStruct x).layers.mapM (GmeLay.eff "background") = .ok eff) :
    ((asymStruct x).layers.map GmeLay.pos).zip eff = slabStack 3 1 [(5, 7 * Real.pi / 12)] := by
  have : (asymStruct x).layers.mapM (GmeLay.eff "background") = .ok [3, 5, 1] := rfl
  rw [this] at h
  cases h
  rfl

theorem asym_real (x : ℝ) : ∀ l ∈ (asymStruct x).layers, ∀ s ∈ l.shapes, RealShape s := by
  intro l hl s hs
  simp only [asymStruct, List.mem_cons, List.not_mem_nil, or_false] at hl
  rcases hl with rfl | rfl | rfl
  · simp at hs
  · simp only [List.mem_singleton] at hs
    subst hs
    exact C12_circle_conj besselJ1 _
  · simp at hs

/-- Any wave vectors, and the hole moved to the opposite place. -/
example (argsort : List ℝ → List ℕ) (eigh : ∀ n, Matrix (Fin n) (Fin n) ℂ → Fin n → ℝ) (he : SortedEigh eigh)
    (gmax : ℝ) (ks : List R2) (numeig : ℕ) :
    gmeSimIj ijExact argsort eigh (branchGuided asymBranch 1e-15 3 1 [(5, 7 * Real.pi / 12)]) (asymStruct 0.3) gmax false
        "background" (ks.map (oppositeK 1e-15)) 0 numeig =
      gmeSimIj ijExact argsort eigh (branchGuided asymBranch 1e-15 3 1 [(5, 7 * Real.pi / 12)]) (asymStruct 0.3) gmax false
        "background" ks 0 numeig ∧
    gmeSimIj ijExact argsort eigh (branchGuided asymBranch 1e-15 3 1 [(5, 7 * Real.pi / 12)]) (asymStruct (-0.3)) gmax
        false "background" ks 0 numeig =
      gmeSimIj ijExact argsort eigh (branchGuided asymBranch 1e-15 3 1 [(5, 7 * Real.pi / 12)]) (asymStruct 0.3) gmax false
        "background" ks 0 numeig := by
  refine ⟨C108_branches argsort eigh he (asymStruct 0.3) (by norm_num [asymStruct]) gmax false "background" (asym_real _)
    3 1 _ (by simp) (by norm_num) one_ne_zero (by simp) (asym_stack _) asymBranch asym_roots ks _ 0 numeig, ?_⟩
  refine C108_inversion argsort eigh he _ (asymStruct 0.3) (asymStruct (-0.3)).layers ?_ gmax false "background"
    3 1 _ (by simp) (by norm_num) one_ne_zero (by simp) (asym_stack _) ks
    (fun ik hik b hb => ⟨_, branch_basis asym_roots _ _ _ ks ik b hb⟩) 0 numeig
  refine .cons ⟨rfl, rfl, rfl, rfl, by simp, .nil⟩ (.cons ⟨rfl, rfl, rfl, rfl, ?_, ?_⟩
    (.cons ⟨rfl, rfl, rfl, rfl, by simp, .nil⟩ .nil))
  · exact asym_real 0.3 _ (by simp [asymStruct])
  · refine .cons ⟨rfl, fun g => ?_⟩ .nil
    have := (C108_shapes besselJ1 0.3 0 0.2 0 0 0 g).1
    rw [neg_zero] at this
    exact this

/-- At the wave vector `(2, 0)` the mode of the plane wave 0 enters. -/
example (stack : List (LPos × ℝ)) : ∃ b, branchGuided asymBranch 0 3 1 [(5, 7 * Real.pi / 12)] stack [(0, 0)] [(2, 0)] 0 =
    .ok b ∧ b.length = 1 := by
  refine ⟨_, rfl, ?_⟩
  have h2 : √((2 : ℝ) ^ 2) = 2 := Real.sqrt_sq (by norm_num)
  simp [asymBranch, List.finRange_succ, h2]

end Legume
