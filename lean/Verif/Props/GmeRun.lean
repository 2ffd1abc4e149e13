import Mathlib.LinearAlgebra.Matrix.PosDef
import Mathlib.Tactic.IntervalCases
import Verif.Model.GmeRun
import Verif.Spec.GmeRun
import Verif.Props.Utils
import Verif.Props.Symmetry

/-!
# C32 (frequencies of one call of `run`) and C71 (symmetry labels)
-/
namespace Legume
open Matrix Spec ComplexOrder

theorem freqOf_nonneg (w : ℝ) : 0 ≤ freqOf w := by unfold freqOf; positivity

theorem freqOf_sq (w : ℝ) : (2 * Real.pi * freqOf w) ^ 2 = |w - 1| := by
  have hp := Real.pi_pos.ne'
  have : 2 * Real.pi * freqOf w = √|w - 1| := by unfold freqOf; field_simp
  rw [this, Real.sq_sqrt (abs_nonneg _)]

theorem freqOf_one_add (om : ℝ) (h : 0 ≤ om) : freqOf (om ^ 2 + 1) = om / (2 * Real.pi) := by
  unfold freqOf
  rw [add_sub_cancel_right, abs_of_nonneg (sq_nonneg _), Real.sqrt_sq h, div_div]

/-- The selection of modes nearest to `sigma`. -/
theorem select_facts (argsort : List ℝ → List ℕ) (hs : ∀ l, IsArgsort l (argsort l)) (freq1 : List ℝ)
    (sigma : ℝ) (numeig : ℕ) (hn : numeig ≤ freq1.length) :
    let sel := selectModes argsort freq1 sigma numeig
    sel.length = numeig ∧ sel.Nodup ∧ (∀ i ∈ sel, i < freq1.length) ∧
      (sel.map fun (i : ℕ) => freq1.getD i 0).Pairwise (· ≤ ·) ∧
      ∀ i ∈ sel, ∀ j, j < freq1.length → j ∉ sel → |freq1.getD i 0 - sigma| ≤ |freq1.getD j 0 - sigma| := by
  intro sel
  obtain ⟨n1, n2, n3, -, n5⟩ := C53_nearest argsort freq1 sigma numeig (hs _)
  set near := findNearest argsort freq1 sigma numeig with hnear
  rw [Nat.min_eq_left hn] at n1
  obtain ⟨hp, ho⟩ := hs (near.map fun (i : ℕ) => freq1.getD i 0)
  set o := argsort (near.map fun (i : ℕ) => freq1.getD i 0) with hoo
  have hsel : sel = o.map fun (i : ℕ) => near.getD i 0 := rfl
  rw [List.length_map] at hp
  have hperm : sel.Perm near := by
    rw [hsel]
    refine (hp.map _).trans ?_
    have : (List.range near.length).map (fun (i : ℕ) => near.getD i 0) = near := by
      apply List.ext_getElem
      · simp
      · intro i h1 h2
        simp only [List.getElem_map, List.getElem_range, List.getD_eq_getElem?_getD,
          List.getElem?_eq_getElem h2, Option.getD_some]
    rw [this]
  refine ⟨by rw [hperm.length_eq, n1], hperm.nodup_iff.mpr n2, fun i hi => n3 i (hperm.mem_iff.mp hi), ?_, ?_⟩
  · rw [hsel, List.map_map]
    rw [List.pairwise_map] at ho ⊢
    refine ho.imp_of_mem ?_
    intro a b ha hb hab
    have ha' : a < near.length := by simpa using hp.mem_iff.mp ha
    have hb' : b < near.length := by simpa using hp.mem_iff.mp hb
    simpa [List.getD_eq_getElem?_getD, List.getElem?_eq_getElem ha', List.getElem?_eq_getElem hb'] using hab
  · intro i hi j hj hjn
    exact n5 i (hperm.mem_iff.mp hi) j hj (fun h => hjn (hperm.mem_iff.mpr h))

/-! ### From eigenvalues of `mat + eye` to modes of `mat` -/

section eig
variable {n : ℕ} {M V : Matrix (Fin n) (Fin n) ℂ} {w : Fin n → ℝ}

theorem eigh_col (h : IsEigh (M + 1) w V) (i : Fin n) :
    M *ᵥ V.col i = (((w i - 1 : ℝ)) : ℂ) • V.col i := by
  have h1 := congrArg (fun A => A.col i) h.eigen
  have h2 : (M + 1) *ᵥ V.col i = (w i : ℂ) • V.col i := by
    funext a
    have := congrFun h1 a
    simp only [Matrix.col_apply, Matrix.mul_apply, Matrix.diagonal_apply] at this
    simp only [Matrix.mulVec, dotProduct, Matrix.col_apply, Pi.smul_apply, smul_eq_mul]
    rw [this]
    simp [mul_comm]
  rw [Matrix.add_mulVec, Matrix.one_mulVec] at h2
  push_cast
  rw [sub_smul, one_smul, ← h2]
  abel

theorem eigh_orth (h : IsEigh (M + 1) w V) (i j : Fin n) :
    star (V.col i) ⬝ᵥ V.col j = if i = j then 1 else 0 := by
  have := congrFun (congrFun h.unitary i) j
  rw [Matrix.mul_apply, Matrix.one_apply] at this
  rw [← this]
  rfl

theorem eigh_psd (hM : M.PosSemidef) (h : IsEigh (M + 1) w V) (i : Fin n) : 0 ≤ w i - 1 := by
  have h1 := hM.dotProduct_mulVec_nonneg (V.col i)
  rw [eigh_col h i, dotProduct_smul, eigh_orth h i i, if_pos rfl, smul_eq_mul, mul_one] at h1
  exact_mod_cast h1

/-- Every eigenvector has a component along some column, and then its eigenvalue. -/
theorem eigh_complete (hM : M.IsHermitian) (h : IsEigh (M + 1) w V) (u : Fin n → ℂ) (hu : u ≠ 0) (mu : ℂ)
    (he : M *ᵥ u = mu • u) :
    ∃ i, star (V.col i) ⬝ᵥ u ≠ 0 ∧ mu = ((w i - 1 : ℝ) : ℂ) := by
  have hVV : V * V.conjTranspose = 1 := mul_eq_one_comm.mp h.unitary
  have hne : V.conjTranspose *ᵥ u ≠ 0 := by
    intro h0
    apply hu
    have : V *ᵥ (V.conjTranspose *ᵥ u) = u := by rw [Matrix.mulVec_mulVec, hVV, Matrix.one_mulVec]
    rw [← this, h0, Matrix.mulVec_zero]
  obtain ⟨i, hi⟩ := Function.ne_iff.mp hne
  have hi' : star (V.col i) ⬝ᵥ u ≠ 0 := hi
  refine ⟨i, hi', ?_⟩
  have e1 : star (V.col i) ⬝ᵥ (M *ᵥ u) = ((w i - 1 : ℝ) : ℂ) * (star (V.col i) ⬝ᵥ u) := by
    rw [Matrix.dotProduct_mulVec]
    have : star (V.col i) ᵥ* M = star (M *ᵥ V.col i) := by
      rw [Matrix.star_mulVec, hM.eq]
    rw [this, eigh_col h i, star_smul, smul_dotProduct, smul_eq_mul]
    congr 1
    exact Complex.conj_ofReal _
  rw [he, dotProduct_smul, smul_eq_mul] at e1
  exact mul_right_cancel₀ hi' e1

end eig

/-- Modes from any duplicate-free list of positions, sorted by frequency. -/
theorem modes_of_select {n : ℕ} (M V : Matrix (Fin n) (Fin n) ℂ) (w : Fin n → ℝ) (hM : M.PosSemidef)
    (h : IsEigh (M + 1) w V) (sigma : ℝ) (numeig : ℕ) (sel : List ℕ) (hlen : sel.length = numeig)
    (hnd : sel.Nodup) (hlt : ∀ i ∈ sel, i < n)
    (hsort : (sel.map fun (i : ℕ) => ((List.ofFn w).map freqOf).getD i 0).Pairwise (· ≤ ·))
    (hnear : ∀ i ∈ sel, ∀ j, j < n → j ∉ sel → |((List.ofFn w).map freqOf).getD i 0 - sigma| ≤
      |((List.ofFn w).map freqOf).getD j 0 - sigma|) :
    Modes M sigma numeig (sel.map fun (i : ℕ) => ((List.ofFn w).map freqOf).getD i 0)
      (fun m => if hm : sel.getD m 0 < n then V.col ⟨sel.getD m 0, hm⟩ else 0) := by
  have hf : ∀ i (hi : i < n), ((List.ofFn w).map freqOf).getD i 0 = freqOf (w ⟨i, hi⟩) := by
    intro i hi
    simp [List.getD_eq_getElem?_getD, hi]
  have hin : ∀ m < numeig, ∃ hm : sel.getD m 0 < n, sel.getD m 0 ∈ sel := by
    intro m hm
    have : sel.getD m 0 = sel[m]'(by omega) := by
      simp [List.getD_eq_getElem?_getD, List.getElem?_eq_getElem (show m < sel.length by omega)]
    exact ⟨by rw [this]; exact hlt _ (List.getElem_mem _), by rw [this]; exact List.getElem_mem _⟩
  refine ⟨by simp [hlen], ?_, hsort, ?_, ?_, ?_⟩
  · intro f hf'
    obtain ⟨i, hi, rfl⟩ := List.mem_map.1 hf'
    rw [hf i (hlt i hi)]
    exact freqOf_nonneg _
  · intro m hm
    obtain ⟨hm', -⟩ := hin m hm
    simp only [hm', dif_pos]
    have e : (sel.map fun (i : ℕ) => ((List.ofFn w).map freqOf).getD i 0).getD m 0 =
        freqOf (w ⟨sel.getD m 0, hm'⟩) := by
      rw [← hf _ hm']
      simp [List.getD_eq_getElem?_getD, List.getElem?_eq_getElem (show m < sel.length by omega)]
    rw [e, freqOf_sq, abs_of_nonneg (eigh_psd hM h _), eigh_col h]
  · intro m hm m' hm2
    obtain ⟨h1, -⟩ := hin m hm
    obtain ⟨h2, -⟩ := hin m' hm2
    simp only [h1, h2, dif_pos]
    rw [eigh_orth h]
    congr 1
    rw [eq_iff_iff, Fin.mk.injEq]
    have e1 : sel.getD m 0 = sel[m]'(by omega) := by
      simp [List.getD_eq_getElem?_getD, List.getElem?_eq_getElem (show m < sel.length by omega)]
    have e2 : sel.getD m' 0 = sel[m']'(by omega) := by
      simp [List.getD_eq_getElem?_getD, List.getElem?_eq_getElem (show m' < sel.length by omega)]
    rw [e1, e2]
    exact hnd.getElem_inj_iff
  · intro u om hu hom he horth f hf'
    obtain ⟨i, hi, rfl⟩ := List.mem_map.1 hf'
    obtain ⟨j, hj, hmu⟩ := eigh_complete hM.isHermitian h u hu _ he
    have hw : w j = om ^ 2 + 1 := by
      have : om ^ 2 = w j - 1 := by exact_mod_cast hmu
      rw [this]; ring
    have hns : (j : ℕ) ∉ sel := by
      intro hmem
      obtain ⟨m, hm, hme⟩ := List.getElem_of_mem hmem
      have := horth m (by omega)
      have e1 : sel.getD m 0 = j := by
        simp [List.getD_eq_getElem?_getD, List.getElem?_eq_getElem hm, hme]
      simp only [e1, j.isLt, dif_pos] at this
      exact hj this
    have := hnear i hi j j.isLt hns
    rwa [hf j j.isLt, hw, freqOf_one_add om hom] at this

/-! ### C32 -/

/-- **C32.** One `k` of `GuidedModeExp.run` without symmetry separation, for every positive semidefinite
Hamiltonian: the call fails with `ValueError` exactly when more modes are requested than there are basis
states, otherwise it returns the `numeig` modes nearest to `eig_sigma`. -/
theorem C32_gme (argsort : List ℝ → List ℕ) (hs : ∀ l, IsArgsort l (argsort l)) {n : ℕ}
    (M V : Matrix (Fin n) (Fin n) ℂ) (w : Fin n → ℝ) (hM : M.PosSemidef) (h : IsEigh (M + 1) w V)
    (sigma : ℝ) (numeig : ℕ) :
    (n < numeig → solveFull argsort (List.ofFn w) sigma numeig = .error .valueError) ∧
    (numeig ≤ n → ∃ r, solveFull argsort (List.ofFn w) sigma numeig = .ok r ∧
      Modes M sigma numeig r.freq
        (fun m => if hm : r.idx.getD m 0 < n then V.col ⟨r.idx.getD m 0, hm⟩ else 0)) := by
  unfold solveFull
  rw [List.length_ofFn]
  refine ⟨fun hn => by rw [if_pos hn], fun hn => ?_⟩
  rw [if_neg (not_lt.2 hn)]
  refine ⟨_, rfl, ?_⟩
  obtain ⟨a, b, c, d, e⟩ := select_facts argsort hs ((List.ofFn w).map freqOf) sigma numeig (by simpa using hn)
  exact modes_of_select M V w hM h sigma numeig _ a b (fun i hi => by simpa using c i hi) d
    (fun i hi j hj hjn => e i hi j (by simpa using hj) hjn)

/-- **C32.** One `k` of `PlaneWaveExp.run`: the lowest `min numeig n` modes. -/
theorem C32_pwe (argsort : List ℝ → List ℕ) (hs : ∀ l, IsArgsort l (argsort l)) {n : ℕ}
    (M V : Matrix (Fin n) (Fin n) ℂ) (w : Fin n → ℝ) (hM : M.PosSemidef) (h : IsEigh (M + 1) w V)
    (numeig : ℕ) :
    Modes M 0 (min numeig n) (solvePwe argsort (List.ofFn w) numeig).freq
        (fun m => if hm : (solvePwe argsort (List.ofFn w) numeig).idx.getD m 0 < n then
          V.col ⟨(solvePwe argsort (List.ofFn w) numeig).idx.getD m 0, hm⟩ else 0) := by
  obtain ⟨hp, ho⟩ := hs ((List.ofFn w).map freqOf)
  have hlen : (argsort ((List.ofFn w).map freqOf)).length = n := by rw [hp.length_eq]; simp
  have hmem : ∀ i, i ∈ argsort ((List.ofFn w).map freqOf) ↔ i < n := by
    intro i; rw [hp.mem_iff]; simp
  have hnd : (argsort ((List.ofFn w).map freqOf)).Nodup := hp.nodup_iff.mpr List.nodup_range
  have hnn : ∀ i, i < n → 0 ≤ ((List.ofFn w).map freqOf).getD i 0 := by
    intro i hi
    simp [List.getD_eq_getElem?_getD, hi, freqOf_nonneg]
  refine modes_of_select M V w hM h 0 _ _ (by rw [List.length_take, hlen])
    (hnd.sublist (List.take_sublist _ _))
    (fun i hi => (hmem i).1 (List.mem_of_mem_take hi)) ?_ ?_
  · rw [List.pairwise_map] at ho ⊢
    exact ho.sublist (List.take_sublist _ _)
  · intro i hi j hj hjn
    rw [sub_zero, sub_zero, abs_of_nonneg (hnn i ((hmem i).1 (List.mem_of_mem_take hi))),
      abs_of_nonneg (hnn j hj)]
    rw [List.pairwise_map, ← List.take_append_drop numeig (argsort _), List.pairwise_append] at ho
    refine ho.2.2 i hi j ?_
    have := (hmem j).2 hj
    rw [← List.take_append_drop numeig (argsort _), List.mem_append] at this
    exact this.resolve_left hjn

/-- **C32.** Without positive semidefiniteness (rounding of a matrix with a zero mode) the squares are the
absolute values of the eigenvalues; frequencies are real, non-negative and ordered whatever the matrix. -/
theorem C32_abs (argsort : List ℝ → List ℕ) (hs : ∀ l, IsArgsort l (argsort l)) (w : List ℝ) (sigma : ℝ)
    (numeig : ℕ) (r : KRes) (h : solveFull argsort w sigma numeig = .ok r) :
    r.freq.length = numeig ∧ r.idx.Nodup ∧ r.freq.Pairwise (· ≤ ·) ∧
    ∀ m < numeig, r.idx.getD m 0 < w.length ∧ 0 ≤ r.freq.getD m 0 ∧
      (2 * Real.pi * r.freq.getD m 0) ^ 2 = |w.getD (r.idx.getD m 0) 0 - 1| := by
  unfold solveFull at h
  split_ifs at h with hn
  simp only [Except.ok.injEq] at h
  obtain ⟨a, b, c, d, -⟩ := select_facts argsort hs (w.map freqOf) sigma numeig (by simpa using hn)
  subst h
  refine ⟨by simpa using a, b, d, ?_⟩
  intro m hm
  have hm' : m < (selectModes argsort (w.map freqOf) sigma numeig).length := by omega
  have e1 : (selectModes argsort (w.map freqOf) sigma numeig).getD m 0 =
      (selectModes argsort (w.map freqOf) sigma numeig)[m] := by
    simp [List.getD_eq_getElem?_getD, List.getElem?_eq_getElem hm']
  have hl : (selectModes argsort (w.map freqOf) sigma numeig).getD m 0 < w.length := by
    rw [e1]; simpa using c _ (List.getElem_mem hm')
  have e2 : ((selectModes argsort (w.map freqOf) sigma numeig).map
      fun (i : ℕ) => (w.map freqOf).getD i 0).getD m 0 =
      freqOf (w.getD ((selectModes argsort (w.map freqOf) sigma numeig).getD m 0) 0) := by
    rw [e1] at hl ⊢
    simp [List.getD_eq_getElem?_getD, List.getElem?_eq_getElem hm', List.getElem?_eq_getElem hl]
  exact ⟨hl, by simp only [e2]; exact freqOf_nonneg _, by simp only [e2]; exact freqOf_sq _⟩

/-- **C32.** With `kz_symmetry='odd'` or `'even'`, for the positive semidefinite block `M` of the chosen parity:
`ValueError` exactly when `numeig` exceeds the block (or the basis), otherwise the `numeig` modes of the block
nearest to `eig_sigma`, all labelled with the parity. -/
theorem C32_one_parity (argsort : List ℝ → List ℕ) (hs : ∀ l, IsArgsort l (argsort l)) {n : ℕ}
    (M V : Matrix (Fin n) (Fin n) ℂ) (w : Fin n → ℝ) (hM : M.PosSemidef) (h : IsEigh (M + 1) w V)
    (basis : ℕ) (hb : n ≤ basis) (p : ℤ) (sigma : ℝ) (numeig : ℕ) :
    (n < numeig → solveOne argsort basis (List.ofFn w) p sigma numeig = .error .valueError) ∧
    (numeig ≤ n → ∃ r, solveOne argsort basis (List.ofFn w) p sigma numeig = .ok r ∧
      r.symm = List.replicate numeig p ∧
      Modes M sigma numeig r.freq
        (fun m => if hm : r.idx.getD m 0 < n then V.col ⟨r.idx.getD m 0, hm⟩ else 0)) := by
  unfold solveOne
  rw [List.length_ofFn]
  refine ⟨fun hn => ?_, fun hn => ?_⟩
  · split_ifs <;> rfl
  · rw [if_neg (by omega), if_neg (by omega)]
    obtain ⟨a, b, c, d, e⟩ := select_facts argsort hs ((List.ofFn w).map freqOf) sigma numeig (by simpa using hn)
    refine ⟨_, rfl, ?_, ?_⟩
    · simp only
      rw [List.map_const', a]
    · exact modes_of_select M V w hM h sigma numeig _ a b (fun i hi => by simpa using c i hi) d
        (fun i hi j hj hjn => e i hi j (by simpa using hj) hjn)

/-- **C32.** With the iterative solver, which returns `numeig` eigenvalues `w` of `mat + eye`: the frequencies of
these, in ascending order. -/
theorem C32_eigsh (argsort : List ℝ → List ℕ) (hs : ∀ l, IsArgsort l (argsort l)) (basis : ℕ) (w : List ℝ)
    (numeig : ℕ) (hw : w.length = numeig) (hb : numeig ≤ basis) :
    ∃ r, solveEigsh argsort basis w numeig = .ok r ∧ r.freq.length = numeig ∧ r.freq.Pairwise (· ≤ ·) ∧
      r.idx.Perm (List.range numeig) ∧ (∀ f ∈ r.freq, 0 ≤ f) ∧
      r.freq.map (fun f => (2 * Real.pi * f) ^ 2) = r.idx.map fun (i : ℕ) => |w.getD i 0 - 1| := by
  obtain ⟨hp, ho⟩ := hs (w.map freqOf)
  have hlt : ∀ i ∈ argsort (w.map freqOf), i < w.length := by
    intro i hi; simpa using hp.mem_iff.mp hi
  have hf : ∀ i, i < w.length → (w.map freqOf).getD i 0 = freqOf (w.getD i 0) := by
    intro i hi
    simp [List.getD_eq_getElem?_getD, hi]
  refine ⟨⟨argsort (w.map freqOf), _, []⟩, by unfold solveEigsh; rw [if_neg (by omega)], ?_, ho, ?_, ?_, ?_⟩
  · rw [List.length_map, hp.length_eq]; simp [hw]
  · simpa [hw] using hp
  · intro f hf'
    obtain ⟨i, hi, rfl⟩ := List.mem_map.1 hf'
    rw [hf i (hlt i hi)]; exact freqOf_nonneg _
  · rw [List.map_map]
    refine List.map_congr_left fun i hi => ?_
    simp only [Function.comp_apply]
    rw [hf i (hlt i hi), freqOf_sq]

/-! ### C71 -/

theorem getD_left (l l' : List ℝ) (i : ℕ) (h : i < l.length) : (l ++ l').getD i 0 = l.getD i 0 := by
  rw [List.getD_eq_getElem?_getD, List.getD_eq_getElem?_getD, List.getElem?_append_left h]

theorem getD_right (l l' : List ℝ) (i : ℕ) (h : l.length ≤ i) :
    (l ++ l').getD i 0 = l'.getD (i - l.length) 0 := by
  rw [List.getD_eq_getElem?_getD, List.getD_eq_getElem?_getD, List.getElem?_append_right h]

/-- **C71.** With `kz_symmetry='both'`: `ValueError` when more modes are requested than there are states;
no error when the odd sector is not larger than the even one (`_partial`: the full property has no such
condition, see `C71_index_error`). -/
theorem C71_returns_partial (argsort : List ℝ → List ℕ) (hs : ∀ l, IsArgsort l (argsort l)) (wE wO : List ℝ)
    (sigma : ℝ) (numeig : ℕ) :
    (wE.length + wO.length < numeig → solveBoth argsort wE wO sigma numeig = .error .valueError) ∧
    (numeig ≤ wE.length + wO.length → wO.length ≤ wE.length →
      ∃ r, solveBoth argsort wE wO sigma numeig = .ok r) := by
  unfold solveBoth
  refine ⟨fun h => by rw [if_pos h], fun h h2 => ?_⟩
  rw [if_neg (not_lt.2 h)]
  obtain ⟨-, -, c, -, -⟩ := select_facts argsort hs (wE.map freqOf ++ wO.map freqOf) sigma numeig (by simpa using h)
  simp only
  rw [if_neg]
  · exact ⟨_, rfl⟩
  · simp only [List.any_eq_true, decide_eq_true_eq, not_exists, not_and, not_le]
    intro i hi
    have := c i hi
    simp at this ⊢
    omega

/-- **C71 (violation).** When the odd sector is larger than the even one, asking for all the modes raises
`IndexError`, although the request is valid. -/
theorem C71_index_error (argsort : List ℝ → List ℕ) (hs : ∀ l, IsArgsort l (argsort l)) (wE wO : List ℝ)
    (sigma : ℝ) (h : wE.length < wO.length) :
    solveBoth argsort wE wO sigma (wE.length + wO.length) = .error .indexError := by
  unfold solveBoth
  rw [if_neg (lt_irrefl _)]
  obtain ⟨a, b, c, -, -⟩ := select_facts argsort hs (wE.map freqOf ++ wO.map freqOf) sigma
    (wE.length + wO.length) (by simp)
  simp only
  rw [if_pos]
  simp only [List.any_eq_true, decide_eq_true_eq]
  set sel := selectModes argsort (wE.map freqOf ++ wO.map freqOf) sigma (wE.length + wO.length)
  refine ⟨wE.length + wO.length - 1, ?_, by simp; omega⟩
  have hsub : sel ⊆ List.range (wE.length + wO.length) := by
    intro i hi; have := c i hi; simpa using this
  have hp : sel.Perm (List.range (wE.length + wO.length)) :=
    (List.subperm_of_subset b hsub).perm_of_length_le (by simp [a])
  rw [hp.mem_iff]
  simp
  omega

/-- **C71.** Whenever the call returns, label `m` is `+1` exactly when mode `m` comes from the even block,
`-1` when it comes from the odd block; frequencies are as in C32. -/
theorem C71_labels (argsort : List ℝ → List ℕ) (hs : ∀ l, IsArgsort l (argsort l)) (wE wO : List ℝ)
    (sigma : ℝ) (numeig : ℕ) (r : KRes) (h : solveBoth argsort wE wO sigma numeig = .ok r) :
    r.freq.length = numeig ∧ r.symm.length = numeig ∧ r.idx.Nodup ∧ r.freq.Pairwise (· ≤ ·) ∧
    ∀ m < numeig, r.idx.getD m 0 < wE.length + wO.length ∧ 0 ≤ r.freq.getD m 0 ∧
      (2 * Real.pi * r.freq.getD m 0) ^ 2 = |(wE ++ wO).getD (r.idx.getD m 0) 0 - 1| ∧
      r.symm.getD m 0 = if r.idx.getD m 0 < wE.length then 1 else -1 := by
  unfold solveBoth at h
  split_ifs at h with hn
  simp only at h
  split_ifs at h with hb
  simp only [Except.ok.injEq] at h
  simp only [List.any_eq_true, decide_eq_true_eq, not_exists, not_and, not_le] at hb
  obtain ⟨a, b, c, d, -⟩ := select_facts argsort hs (wE.map freqOf ++ wO.map freqOf) sigma numeig (by simpa using hn)
  set sel := selectModes argsort (wE.map freqOf ++ wO.map freqOf) sigma numeig with hsel
  subst h
  refine ⟨by simpa using a, by simpa using a, b, d, ?_⟩
  intro m hm
  have hm' : m < sel.length := by omega
  have e1 : sel.getD m 0 = sel[m] := by
    simp [List.getD_eq_getElem?_getD, List.getElem?_eq_getElem hm']
  have hl : sel.getD m 0 < wE.length + wO.length := by
    rw [e1]; simpa using c _ (List.getElem_mem hm')
  have hl2 := hb sel[m] (List.getElem_mem hm')
  have e2 : (sel.map fun (i : ℕ) => (wE.map freqOf ++ wO.map freqOf).getD i 0).getD m 0 =
      freqOf ((wE ++ wO).getD (sel.getD m 0) 0) := by
    rw [← List.map_append]
    rw [e1] at hl ⊢
    have hl' : sel[m] < (wE ++ wO).length := by simpa using hl
    simp only [List.getD_eq_getElem?_getD, List.getElem?_map, List.getElem?_eq_getElem hm',
      List.getElem?_eq_getElem hl', Option.map_some, Option.getD_some]
  refine ⟨hl, by simp only [e2]; exact freqOf_nonneg _, by simp only [e2]; exact freqOf_sq _, ?_⟩
  simp only [e1, List.getD_eq_getElem?_getD, List.getElem?_map, List.getElem?_eq_getElem hm', Option.map_some,
    Option.getD_some]
  by_cases hc : sel[m] < wE.length
  · rw [if_pos hc, List.getElem?_append_left (by simpa using hc)]
    simp [hc]
  · simp only [List.length_append, List.length_replicate] at hl2
    rw [if_neg hc, List.getElem?_append_right (by simpa using hc)]
    simp only [List.length_replicate, List.getElem?_replicate]
    rw [if_pos (by omega)]
    rfl

/-- **C71.** The labels are the mirror parities of the returned eigenvectors: mode `m` of a call with
`kz_symmetry='both'` is an eigenvector of the full Hamiltonian, for an eigenvalue equal in absolute value
to the squared angular frequency, and the mirror multiplies it by `kz_symms[m]`. -/
theorem C71_parity (argsort : List ℝ → List ℕ) (hs : ∀ l, IsArgsort l (argsort l)) (sparse : Bool)
    (theta thr : ℝ) (gi : List ℕ) (used : List (List (ℝ × ℝ))) (M : ℕ → ℕ → ℂ) (s : Separated)
    (hsp : ∀ gs ∈ used, Spec.Spread gs) (h : separate sparse theta thr gi used M = .ok s)
    (hc : SepFacts.Commutes theta (Spec.gmBasis 0 gi used) M)
    (wE wO : List ℝ) (yE yO : ℕ → ℕ → ℂ) (hlE : wE.length = s.even) (hlO : wO.length = s.odd)
    (hE : ∀ i < s.even, (∃ k < s.even, yE i k ≠ 0) ∧ ∀ k < s.even,
      ∑ l ∈ Finset.range s.even, (s.matEven k l + if k = l then 1 else 0) * yE i l = wE.getD i 0 * yE i k)
    (hO : ∀ i < s.odd, (∃ k < s.odd, yO i k ≠ 0) ∧ ∀ k < s.odd,
      ∑ l ∈ Finset.range s.odd, (s.matOdd k l + if k = l then 1 else 0) * yO i l = wO.getD i 0 * yO i k)
    (sigma : ℝ) (numeig : ℕ) (r : KRes) (hr : solveBoth argsort wE wO sigma numeig = .ok r)
    (m : ℕ) (hm : m < numeig) :
    let B := Spec.gmBasis 0 gi used
    let x := s.bothVec yE yO (r.idx.getD m 0)
    ∃ lam : ℝ, (2 * Real.pi * r.freq.getD m 0) ^ 2 = |lam| ∧ (∃ i < B.length, x i ≠ 0) ∧
      ∀ i < B.length, Spec.act B.length M x i = lam * x i ∧
        Spec.mirror theta B x i = (r.symm.getD m 0 : ℂ) * x i := by
  obtain ⟨-, -, -, -, hl⟩ := C71_labels argsort hs wE wO sigma numeig r hr
  obtain ⟨l1, -, l3, l4⟩ := hl m hm
  intro B x
  have hshift : ∀ (n : ℕ) (A : ℕ → ℕ → ℂ) (y : ℕ → ℂ) (w : ℝ) (k : ℕ), k < n →
      ∑ l ∈ Finset.range n, (A k l + if k = l then 1 else 0) * y l = w * y k →
      ∑ l ∈ Finset.range n, A k l * y l = ((w - 1 : ℝ) : ℂ) * y k := by
    intro n A y w k hk hy
    have e : ∑ l ∈ Finset.range n, (A k l + if k = l then 1 else 0) * y l =
        ∑ l ∈ Finset.range n, A k l * y l + y k := by
      simp only [add_mul, Finset.sum_add_distrib, ite_mul, one_mul, zero_mul]
      rw [Finset.sum_ite_eq (Finset.range n) k, if_pos (Finset.mem_range.2 hk)]
    rw [e] at hy
    push_cast
    linear_combination hy
  have hne : ∀ v : ℕ → ℂ, ∀ k, hat B.length s.V v k ≠ 0 → ∃ i < B.length, v i ≠ 0 := by
    intro v k hv
    by_contra hcon
    push Not at hcon
    apply hv
    unfold hat
    exact Finset.sum_eq_zero fun i hi => by rw [hcon i (Finset.mem_range.1 hi), mul_zero]
  refine ⟨(wE ++ wO).getD (r.idx.getD m 0) 0 - 1, l3, ?_⟩
  by_cases hcase : r.idx.getD m 0 < wE.length
  · have hi : r.idx.getD m 0 < s.even := by omega
    have hx : x = s.backEven (yE (r.idx.getD m 0)) := by
      show s.bothVec yE yO _ = _
      unfold Separated.bothVec; rw [if_pos hi]
    rw [if_pos hcase] at l4
    obtain ⟨⟨k0, hk0, hy0⟩, hy⟩ := hE _ hi
    have hw : (wE ++ wO).getD (r.idx.getD m 0) 0 = wE.getD (r.idx.getD m 0) 0 := by
      exact getD_left _ _ _ hcase
    obtain ⟨c1, -, c3, -⟩ := C30_eigenvectors sparse theta thr gi used M s hsp h hc
      ((wE.getD (r.idx.getD m 0) 0 - 1 : ℝ) : ℂ) (yE (r.idx.getD m 0))
    have c1' := c1 (fun k hk => hshift _ _ _ _ k hk (hy k hk))
    rw [hx, hw, l4]
    refine ⟨hne _ k0 (by rw [c3 k0 hk0]; exact hy0), fun i hi => ⟨(c1' i hi).1, ?_⟩⟩
    rw [(c1' i hi).2]; simp
  · have hi : ¬ r.idx.getD m 0 < s.even := by omega
    have hj : r.idx.getD m 0 - s.even < s.odd := by omega
    have hx : x = s.backOdd (yO (r.idx.getD m 0 - s.even)) := by
      show s.bothVec yE yO _ = _
      unfold Separated.bothVec; rw [if_neg hi]
    rw [if_neg hcase] at l4
    obtain ⟨⟨k0, hk0, hy0⟩, hy⟩ := hO _ hj
    have hw : (wE ++ wO).getD (r.idx.getD m 0) 0 = wO.getD (r.idx.getD m 0 - s.even) 0 := by
      rw [← hlE]; exact getD_right _ _ _ (not_lt.1 hcase)
    obtain ⟨-, c2, -, c4⟩ := C30_eigenvectors sparse theta thr gi used M s hsp h hc
      ((wO.getD (r.idx.getD m 0 - s.even) 0 - 1 : ℝ) : ℂ) (yO (r.idx.getD m 0 - s.even))
    have c2' := c2 (fun k hk => hshift _ _ _ _ k hk (hy k hk))
    rw [hx, hw, l4]
    refine ⟨hne _ (s.even + k0) (by rw [c4 k0 hk0]; exact hy0), fun i hi => ⟨(c2' i hi).1, ?_⟩⟩
    rw [(c2' i hi).2]; simp

/-! ### Examples

A two-state Hamiltonian `[[2, 1], [1, 2]]`, with eigenvalues 1 and 3. -/

noncomputable section

/-- Insertion sort of positions by key: one implementation of `argsort`. -/
def insArgsort (l : List ℝ) : List ℕ :=
  (List.range l.length).insertionSort (fun i j => l.getD i 0 ≤ l.getD j 0)

theorem insArgsort_ok (l : List ℝ) : IsArgsort l (insArgsort l) := by
  refine ⟨List.perm_insertionSort _ _, ?_⟩
  rw [List.pairwise_map]
  haveI : Std.Total (fun i j : ℕ => l.getD i 0 ≤ l.getD j 0) := ⟨fun a b => le_total _ _⟩
  haveI : IsTrans ℕ (fun i j : ℕ => l.getD i 0 ≤ l.getD j 0) := ⟨fun a b c => le_trans⟩
  exact List.pairwise_insertionSort _ _

def exH : Matrix (Fin 2) (Fin 2) ℂ := !![2, 1; 1, 2]

def exV : Matrix (Fin 2) (Fin 2) ℂ := !![1 / √2, 1 / √2; -(1 / √2), 1 / √2]

theorem sqrt_two_half : (1 / (√2 : ℂ)) * (1 / (√2 : ℂ)) = 1 / 2 := by
  have : ((√2 : ℝ) : ℂ) * ((√2 : ℝ) : ℂ) = 2 := by
    rw [← Complex.ofReal_mul, Real.mul_self_sqrt (by norm_num)]; norm_num
  rw [div_mul_div_comm, one_mul, this]

theorem exIsEigh : IsEigh (exH + 1) ![2, 4] exV := by
  have h := sqrt_two_half
  constructor
  · ext i j
    fin_cases i <;> fin_cases j <;>
      simp [exV, Matrix.mul_apply, Fin.sum_univ_two] <;> (try ring_nf) <;>
      (try (ring_nf at h; rw [h]; norm_num))
  · ext i j
    fin_cases i <;> fin_cases j <;>
      simp [exV, exH, Matrix.mul_apply, Fin.sum_univ_two] <;> ring

theorem exPSD : exH.PosSemidef := by
  have : exH = (!![1, 1; 0, 0] : Matrix (Fin 2) (Fin 2) ℂ).conjTranspose * !![1, 1; 0, 0] + 1 := by
    ext i j
    fin_cases i <;> fin_cases j <;> simp [exH, Matrix.mul_apply] <;> norm_num
  rw [this]
  exact (Matrix.posSemidef_conjTranspose_mul_self _).add Matrix.PosSemidef.one

example : ∃ r, solveFull insArgsort (List.ofFn ![2, 4]) 0.2 1 = .ok r ∧
    Modes exH 0.2 1 r.freq (fun m => if hm : r.idx.getD m 0 < 2 then exV.col ⟨r.idx.getD m 0, hm⟩ else 0) :=
  (C32_gme insArgsort insArgsort_ok exH exV ![2, 4] exPSD exIsEigh 0.2 1).2 (by norm_num)

example : (solvePwe insArgsort (List.ofFn ![2, 4]) 5).freq.length = 2 :=
  (C32_pwe insArgsort insArgsort_ok exH exV ![2, 4] exPSD exIsEigh 5).count

example : ∃ r, solveFull insArgsort [1 / 2, 4] 0 2 = .ok r ∧ r.freq.length = 2 :=
  ⟨_, rfl, (C32_abs insArgsort insArgsort_ok [1 / 2, 4] 0 2 _ rfl).1⟩

example : ∃ r, solveOne insArgsort 4 (List.ofFn ![2, 4]) (-1) 0 2 = .ok r ∧ r.symm = [-1, -1] := by
  obtain ⟨r, h1, h2, -⟩ := (C32_one_parity insArgsort insArgsort_ok exH exV ![2, 4] exPSD exIsEigh 4
    (by norm_num) (-1) 0 2).2 le_rfl
  exact ⟨r, h1, h2⟩

example : ∃ r, solveEigsh insArgsort 5 [4, 2] 2 = .ok r ∧ r.freq.Pairwise (· ≤ ·) := by
  obtain ⟨r, h1, -, h3, -⟩ := C32_eigsh insArgsort insArgsort_ok 5 [4, 2] 2 rfl (by norm_num)
  exact ⟨r, h1, h3⟩

example : solveBoth insArgsort [2] [3, 4] 0 3 = .error .indexError :=
  C71_index_error insArgsort insArgsort_ok [2] [3, 4] 0 (by simp)

example : ∃ r, solveBoth insArgsort [3, 4] [2] 0 3 = .ok r ∧ r.symm.length = 3 := by
  obtain ⟨r, hr⟩ := (C71_returns_partial insArgsort insArgsort_ok [3, 4] [2] 0 3).2 (by simp) (by simp)
  exact ⟨r, hr, (C71_labels insArgsort insArgsort_ok [3, 4] [2] 0 3 r hr).2.1⟩

/-- Two coupled TM states: the even mode has squared frequency 3, the odd one 1. -/
theorem exBlocks (s : Separated) (hsep : separate false 0 1e-8 [1] exUsed exM = .ok s) :
    s.even = 1 ∧ s.odd = 1 ∧ s.matEven 0 0 = 3 ∧ s.matOdd 0 0 = 1 := by
  obtain ⟨b1, b2, b3, -⟩ := C30_basis false 0 1e-8 [1] exUsed exM s exSpread hsep
  rw [exLen] at b1
  have e1 : s.even = 1 := by omega
  have e2 : s.odd = 1 := by omega
  refine ⟨e1, e2, ?_, ?_⟩
  · obtain ⟨y, ⟨k, hk, hy⟩, h⟩ := (C30_spectrum false 0 1e-8 [1] exUsed exM s exSpread hsep exCommutes 3).1.2
      ⟨fun _ => 1, ⟨0, by rw [exLen]; norm_num, by norm_num⟩, by
        intro i hi
        rw [exLen] at hi ⊢
        interval_cases i <;> simp [Spec.act, exM, Finset.sum_range_succ] <;> norm_num, by
        intro i hi
        rw [exLen] at hi
        interval_cases i
        · rw [(exMirror _).1]
        · rw [(exMirror _).2]⟩
    rw [e1] at h hk
    obtain rfl : k = 0 := by omega
    have := h 0 (by norm_num)
    rw [Finset.sum_range_one] at this
    exact mul_right_cancel₀ hy this
  · obtain ⟨y, ⟨k, hk, hy⟩, h⟩ := (C30_spectrum false 0 1e-8 [1] exUsed exM s exSpread hsep exCommutes 1).2.1.2
      ⟨fun i => if i = 0 then 1 else -1, ⟨0, by rw [exLen]; norm_num, by norm_num⟩, by
        intro i hi
        rw [exLen] at hi ⊢
        interval_cases i <;> simp [Spec.act, exM, Finset.sum_range_succ] <;> norm_num, by
        intro i hi
        rw [exLen] at hi
        interval_cases i
        · rw [(exMirror _).1]; norm_num
        · rw [(exMirror _).2]; norm_num⟩
    rw [e2] at h hk
    obtain rfl : k = 0 := by omega
    have := h 0 (by norm_num)
    rw [Finset.sum_range_one] at this
    exact mul_right_cancel₀ hy this

example : ∃ s r, separate false 0 1e-8 [1] exUsed exM = .ok s ∧ solveBoth insArgsort [4] [2] 0 2 = .ok r ∧
    ∀ m < 2, ∀ i < 2, Spec.mirror 0 (Spec.gmBasis 0 [1] exUsed)
        (s.bothVec (fun _ _ => 1) (fun _ _ => 1) (r.idx.getD m 0)) i =
      (r.symm.getD m 0 : ℂ) * s.bothVec (fun _ _ => 1) (fun _ _ => 1) (r.idx.getD m 0) i := by
  obtain ⟨s, hsep⟩ := exSep false
  obtain ⟨e1, e2, e3, e4⟩ := exBlocks s hsep
  obtain ⟨r, hr⟩ := (C71_returns_partial insArgsort insArgsort_ok [4] [2] 0 2).2 (by simp) (by simp)
  refine ⟨s, r, hsep, hr, fun m hm i hi => ?_⟩
  obtain ⟨lam, -, -, h⟩ := C71_parity insArgsort insArgsort_ok false 0 1e-8 [1] exUsed exM s exSpread hsep
    exCommutes [4] [2] (fun _ _ => 1) (fun _ _ => 1) (by simp [e1]) (by simp [e2])
    (by
      intro i hi
      rw [e1] at hi ⊢
      obtain rfl : i = 0 := by omega
      refine ⟨⟨0, by norm_num, one_ne_zero⟩, fun k hk => ?_⟩
      obtain rfl : k = 0 := by omega
      rw [Finset.sum_range_one, e3]; norm_num)
    (by
      intro i hi
      rw [e2] at hi ⊢
      obtain rfl : i = 0 := by omega
      refine ⟨⟨0, by norm_num, one_ne_zero⟩, fun k hk => ?_⟩
      obtain rfl : k = 0 := by omega
      rw [Finset.sum_range_one, e4]; norm_num) 0 2 r hr m hm
  exact (h i (by rw [exLen]; exact hi)).2

end

end Legume
