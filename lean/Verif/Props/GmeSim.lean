import Verif.Model.GmeSim
import Verif.Props.PweSim
import Verif.Props.MatrixElements

/-! # C95: invariances of the frequencies of `GuidedModeExp` -/
namespace Legume

open Matrix Spec

/-- A correct eigensolver which returns the eigenvalues in ascending order, as LAPACK does. -/
def SortedEigh (eigh : ∀ n, Matrix (Fin n) (Fin n) ℂ → Fin n → ℝ) : Prop :=
  GoodEigh eigh ∧ ∀ n A, A.IsHermitian → Monotone (eigh n A)

theorem sortedEigh_eq {eigh : ∀ n, Matrix (Fin n) (Fin n) ℂ → Fin n → ℝ} (he : SortedEigh eigh) {n m : ℕ}
    (A : Matrix (Fin n) (Fin n) ℂ) (B : Matrix (Fin m) (Fin m) ℂ) (hA : A.IsHermitian) (hB : B.IsHermitian)
    (hc : A.charpoly = B.charpoly) : List.ofFn (eigh n A) = List.ofFn (eigh m B) := by
  obtain ⟨V, hV⟩ := he.1 n A hA
  obtain ⟨W, hW⟩ := he.1 m B hB
  exact (isEigh_perm hV hW hc).eq_of_pairwise' (List.pairwise_ofFn.2 fun i j h => he.2 n A hA h.le)
    (List.pairwise_ofFn.2 fun i j h => he.2 m B hB h.le)

/-- Reordering eigenvalues together with eigenvectors. -/
theorem isEigh_submatrix {n : ℕ} {A V : Matrix (Fin n) (Fin n) ℂ} {w : Fin n → ℝ} (h : IsEigh A w V)
    (s : Equiv.Perm (Fin n)) : IsEigh A (w ∘ s) (V.submatrix id s) := by
  constructor
  · ext i j
    have := congrFun (congrFun h.unitary (s i)) (s j)
    simpa [mul_apply, one_apply] using this
  · ext i j
    have := congrFun (congrFun h.eigen i) (s j)
    rw [mul_diagonal] at this ⊢
    simpa [mul_apply] using this

/-- There is one. -/
theorem sortedEigh_exists : ∃ eigh, SortedEigh eigh := by
  classical
  refine ⟨fun n A => if h : A.IsHermitian then h.eigenvalues ∘ Tuple.sort h.eigenvalues else 0, ?_, ?_⟩
  · intro n A h
    simp only [dif_pos h]
    exact ⟨_, isEigh_submatrix (eigh_exists A h) (Tuple.sort h.eigenvalues)⟩
  · intro n A h
    simp only [dif_pos h]
    exact Tuple.monotone_sort _

theorem completeMat_hermitian (n : ℕ) (m : ℕ → ℕ → ℂ) :
    (Matrix.of fun i j : Fin n => completeMat m i j).IsHermitian := by
  ext i j
  exact C29_hermitian m i j

theorem gmeMat_hermitian {N : ℕ} (stack : List (LPos × ℝ)) (einv : List (Matrix (Fin N) (Fin N) ℂ))
    (basis : List (BasisEl N)) : (gmeMat stack einv basis + 1).IsHermitian :=
  (completeMat_hermitian _ _).add isHermitian_one

/-- A common factor of the inverse permittivities. -/
theorem gmeElem_smul (ij : LPos → ℂ → ℂ) (stack : List (LPos × ℝ)) (einv : List ℂ) (s t : GmeState) (c : ℂ) :
    gmeElem ij stack (einv.map (c * ·)) s t = c * gmeElem ij stack einv s t := by
  have h : layPairs stack (einv.map (c * ·)) s t =
      (layPairs stack einv s t).map fun l => { l with einv := c * l.einv } := by
    unfold layPairs
    rw [List.zip_map_right, List.zip_map_left, List.map_map, List.map_map]
    rfl
  have hs : ∀ (f : LayPair → ℂ), (∀ l, f { l with einv := c * l.einv } = c * f l) → ∀ ls : List LayPair,
      ((ls.map fun l => { l with einv := c * l.einv }).map f).sum = c * (ls.map f).sum := by
    intro f hfg ls
    induction ls with
    | nil => simp
    | cons a ls ih => simp only [List.map_cons, List.sum_cons, ih, hfg]; ring
  unfold gmeElem
  simp only [h]
  split
  · unfold matTeTe
    rw [hs _ fun l => by ring]
    ring
  · unfold matTmTm
    exact hs _ (fun l => by ring) _
  · unfold matTeTm
    rw [hs _ fun l => by ring]
    ring
  · unfold matTmTe
    rw [hs _ fun l => by ring]
    ring

/-- Completion commutes with phases. -/
theorem completeMat_phases (m m' : ℕ → ℕ → ℂ) (d : ℕ → ℂ) (hd : ∀ i, d i * (starRingEnd ℂ) (d i) = 1) (n : ℕ)
    (h : ∀ i < n, ∀ j < n, m' i j = d i * m i j * (starRingEnd ℂ) (d j)) (i j : ℕ) (hi : i < n) (hj : j < n) :
    completeMat m' i j = d i * completeMat m i j * (starRingEnd ℂ) (d j) := by
  unfold completeMat
  rcases lt_trichotomy i j with hij | rfl | hij
  · simp [hij, hij.not_gt, hij.ne, h i hi j hj]
  · have : m' i i = m i i := by rw [h i hi i hi, mul_right_comm, hd, one_mul]
    simp only [lt_irrefl, if_false, if_true, this, map_zero, zero_add]
    rw [mul_right_comm, hd, one_mul]
  · simp only [hij, hij.not_gt, hij.ne', if_false, if_true, h j hj i hi, map_mul, Complex.conj_conj, zero_add,
      add_zero]
    ring

theorem blockUpper_phases (blk : ℕ → ℕ) (m m' : ℕ → ℕ → ℂ) (d : ℕ → ℂ) (n : ℕ)
    (h : ∀ i < n, ∀ j < n, m' i j = d i * m i j * (starRingEnd ℂ) (d j)) (i j : ℕ) (hi : i < n) (hj : j < n) :
    blockUpper blk m' i j = d i * blockUpper blk m i j * (starRingEnd ℂ) (d j) := by
  unfold blockUpper
  split
  · simp
  · exact h i hi j hj

/-- Phases on the basis. -/
theorem unit_phases_charpoly {n : ℕ} (d : Fin n → ℂ) (hd : ∀ i, d i * (starRingEnd ℂ) (d i) = 1)
    (M M' : Matrix (Fin n) (Fin n) ℂ) (h : ∀ i j, M' i j = d i * M i j * (starRingEnd ℂ) (d j)) :
    (M' + 1).charpoly = (M + 1).charpoly := by
  set D := diagonal d with hD
  set D' := diagonal (fun i => (starRingEnd ℂ) (d i)) with hD'
  have h1 : D * D' = 1 := by
    rw [hD, hD', diagonal_mul_diagonal, ← diagonal_one]
    congr 1; funext i; exact hd i
  have h2 : D' * D = 1 := mul_eq_one_comm.1 h1
  have hM : M' = D * M * D' := by
    ext i j
    rw [h, hD', mul_diagonal, hD, diagonal_mul]
  have : M' + 1 = D * (M + 1) * D' := by rw [hM, mul_add, add_mul, mul_one, h1]
  rw [this, charpoly_mul_comm, ← mul_assoc, h2, one_mul]

theorem unit_phases_inv {n : ℕ} (d : Fin n → ℂ) (hd : ∀ i, d i * (starRingEnd ℂ) (d i) = 1)
    (M M' : Matrix (Fin n) (Fin n) ℂ) (h : ∀ i j, M' i j = d i * M i j * (starRingEnd ℂ) (d j)) :
    M'.det = M.det ∧ ∀ i j, M'⁻¹ i j = d i * M⁻¹ i j * (starRingEnd ℂ) (d j) := by
  set D := diagonal d with hD
  set D' := diagonal (fun i => (starRingEnd ℂ) (d i)) with hD'
  have h1 : D * D' = 1 := by
    rw [hD, hD', diagonal_mul_diagonal, ← diagonal_one]
    congr 1; funext i; exact hd i
  have h2 : D' * D = 1 := mul_eq_one_comm.1 h1
  have hM : M' = D * M * D' := by
    ext i j
    rw [h, hD', mul_diagonal, hD, diagonal_mul]
  have hi1 : D⁻¹ = D' := inv_eq_right_inv h1
  have hi2 : D'⁻¹ = D := inv_eq_right_inv h2
  constructor
  · rw [hM, det_mul, det_mul, mul_comm, ← mul_assoc, ← det_mul, h2, det_one, one_mul]
  · intro i j
    rw [hM, Matrix.mul_inv_rev, Matrix.mul_inv_rev, hi1, hi2, ← mul_assoc, hD', mul_diagonal, hD,
      diagonal_mul]

theorem mapM_rel {α β γ δ : Type} {R : α → β → Prop} {Q : γ → δ → Prop} (f : α → Except PyErr γ)
    (f' : β → Except PyErr δ)
    (h : ∀ a b, R a b → (∃ e, f a = .error e ∧ f' b = .error e) ∨ ∃ x y, f a = .ok x ∧ f' b = .ok y ∧ Q x y)
    {l : List α} {l' : List β} (hl : List.Forall₂ R l l') :
    (∃ e, l.mapM f = .error e ∧ l'.mapM f' = .error e) ∨
      ∃ x y, l.mapM f = .ok x ∧ l'.mapM f' = .ok y ∧ List.Forall₂ Q x y := by
  induction hl with
  | nil => exact Or.inr ⟨[], [], rfl, rfl, .nil⟩
  | cons h1 _ ih =>
    simp only [List.mapM_cons, bind, Except.bind, pure, Except.pure]
    rcases h _ _ h1 with ⟨e, e1, e2⟩ | ⟨x, y, e1, e2, q⟩
    · exact Or.inl ⟨e, by rw [e1], by rw [e2]⟩
    · rw [e1, e2]
      rcases ih with ⟨e, e1, e2⟩ | ⟨xs, ys, e1, e2, qs⟩
      · exact Or.inl ⟨e, by rw [e1], by rw [e2]⟩
      · exact Or.inr ⟨x :: xs, y :: ys, by rw [e1], by rw [e2], .cons q qs⟩

/-- The matrices of two problems which differ by phases of the plane waves. -/
theorem gmeMat_phases_entry {N : ℕ} (stack : List (LPos × ℝ)) (Es Es' : List (Matrix (Fin N) (Fin N) ℂ))
    (D : Fin N → ℂ) (hD : ∀ i, D i * (starRingEnd ℂ) (D i) = 1)
    (hq : List.Forall₂ (fun E E' : Matrix (Fin N) (Fin N) ℂ => ∀ i j, E' i j = D i * E i j * (starRingEnd ℂ) (D j))
      Es Es') (basis : List (BasisEl N)) (i j : Fin basis.length) :
    gmeMat stack Es' basis i j =
      D (basis[i]).ig * gmeMat stack Es basis i j * (starRingEnd ℂ) (D (basis[j]).ig) := by
  set dd : ℕ → ℂ := fun a => match basis[a]? with | some s => D s.ig | none => 1 with hdd
  have hval : ∀ a : Fin basis.length, dd a = D (basis[a]).ig := by
    intro a
    simp [hdd]
  rw [← hval, ← hval]
  unfold gmeMat gmeMatIj
  rw [of_apply, of_apply]
  refine completeMat_phases _ _ dd ?_ basis.length ?_ _ _ i.2 j.2
  · intro a
    simp only [hdd]
    split
    · exact hD _
    · simp
  · intro a ha b hb
    refine blockUpper_phases _ _ _ dd basis.length ?_ a b ha hb
    intro a ha b hb
    simp only [hdd, List.getElem?_eq_getElem ha, List.getElem?_eq_getElem hb]
    rw [mul_right_comm, ← gmeElem_smul, List.map_map]
    congr 1
    induction hq with
    | nil => rfl
    | cons hq1 _ ih =>
      simp only [List.map_cons, Function.comp_apply, ih, hq1]
      congr 1
      ring

/-- Their eigenvalues. -/
theorem gmeMat_phases {N : ℕ} (stack : List (LPos × ℝ)) (Es Es' : List (Matrix (Fin N) (Fin N) ℂ)) (D : Fin N → ℂ)
    (hD : ∀ i, D i * (starRingEnd ℂ) (D i) = 1)
    (hq : List.Forall₂ (fun E E' : Matrix (Fin N) (Fin N) ℂ => ∀ i j, E' i j = D i * E i j * (starRingEnd ℂ) (D j))
      Es Es') (basis : List (BasisEl N)) :
    (gmeMat stack Es' basis + 1).charpoly = (gmeMat stack Es basis + 1).charpoly :=
  unit_phases_charpoly (fun a : Fin basis.length => D (basis[a]).ig) (fun _ => hD _) _ _
    (gmeMat_phases_entry stack Es Es' D hD hq basis)

/-- What a run reads of two structures over the same lattice whose transforms differ by phases of the plane waves. -/
theorem epsInvs_phases (S : GmeStruct) (layers' : List GmeLay) (d : ℤ × ℤ → ℂ)
    (hd : ∀ i, d i * (starRingEnd ℂ) (d i) = 1)
    (hl : List.Forall₂ (fun l l' : GmeLay => l'.pos = l.pos ∧ l'.epsB = l.epsB ∧ l'.epsAvg = l.epsAvg ∧
      l'.epsEff = l.epsEff ∧ (∀ s ∈ l.shapes, RealShape s) ∧ (∀ s ∈ l'.shapes, RealShape s) ∧
      ∀ i j : ℤ × ℤ, S.ft l' (gOf S.b1 S.b2 (j.1 - i.1, j.2 - i.2)) =
        d i * S.ft l (gOf S.b1 S.b2 (j.1 - i.1, j.2 - i.2)) * (starRingEnd ℂ) (d j)) S.layers layers')
    (gmax : ℝ) (onlyG : Bool) (opt : String) :
    layers'.map GmeLay.pos = S.layers.map GmeLay.pos ∧
    layers'.mapM (GmeLay.eff opt) = S.layers.mapM (GmeLay.eff opt) ∧
    ∃ D : Fin (S.gvec gmax).length → ℂ, (∀ i, D i * (starRingEnd ℂ) (D i) = 1) ∧
      ((∃ e, S.layers.mapM (S.epsInv gmax onlyG) = .error e ∧
          layers'.mapM ({ S with layers := layers' }.epsInv gmax onlyG) = .error e) ∨
        ∃ Es Es', S.layers.mapM (S.epsInv gmax onlyG) = .ok Es ∧
          layers'.mapM ({ S with layers := layers' }.epsInv gmax onlyG) = .ok Es' ∧
          List.Forall₂ (fun E E' : Matrix (Fin (S.gvec gmax).length) (Fin (S.gvec gmax).length) ℂ =>
            ∀ i j, E' i j = D i * E i j * (starRingEnd ℂ) (D j)) Es Es') := by
  classical
  set S' : GmeStruct := { S with layers := layers' } with hS'
  set inds := absInds S.b1 S.b2 gmax with hinds
  have hN : (S.gvec gmax).length = inds.length := by simp [GmeStruct.gvec, hinds]
  have hlt : ∀ i : Fin (S.gvec gmax).length, (i : ℕ) < inds.length := fun i => hN ▸ i.2
  set D : Fin (S.gvec gmax).length → ℂ := fun i => d (inds.getD i 0) with hD
  have ent : ∀ (l : GmeLay), (∀ s ∈ l.shapes, RealShape s) → ∀ i j : ℕ, i < inds.length → j < inds.length →
      epsMatAbs (S.ft l) S.b1 S.b2 inds i j = S.ft l (gOf S.b1 S.b2
        ((inds.getD j 0).1 - (inds.getD i 0).1, (inds.getD j 0).2 - (inds.getD i 0).2)) := by
    intro l hr i j hi hj
    have h1 : (inds.map fun k => comb S.b1 S.b2 k.1 k.2)[i]? =
        some (comb S.b1 S.b2 (inds.getD i 0).1 (inds.getD i 0).2) := by
      simp [hi]
    have h2 : (inds.map fun k => comb S.b1 S.b2 k.1 k.2)[j]? =
        some (comb S.b1 S.b2 (inds.getD j 0).1 (inds.getD j 0).2) := by
      simp [hj]
    rw [C20_entry (S.ft l) S.b1 S.b2 inds
      (fun g => (C12_layer_conj l.epsB l.epsAvg S.ecArea l.shapes hr g).1) i j _ _ h1 h2, gOf_sub,
      gOf_eq_comb, gOf_eq_comb]
  have hpos : layers'.map GmeLay.pos = S.layers.map GmeLay.pos := by
    clear_value S'
    clear hS' ent
    generalize S.layers = ls at hl
    induction hl with
    | nil => rfl
    | cons h _ ih => simp only [List.map_cons, h.1, ih]
  have heff : layers'.mapM (GmeLay.eff opt) = S.layers.mapM (GmeLay.eff opt) :=
    (mapM_forall2 _ _ (fun l l' h => by unfold GmeLay.eff; rw [h.2.1, h.2.2.1, h.2.2.2.1]) hl).symm
  have hper : ∀ l l' : GmeLay, (l'.pos = l.pos ∧ l'.epsB = l.epsB ∧ l'.epsAvg = l.epsAvg ∧
      l'.epsEff = l.epsEff ∧ (∀ s ∈ l.shapes, RealShape s) ∧ (∀ s ∈ l'.shapes, RealShape s) ∧
      ∀ i j : ℤ × ℤ, S.ft l' (gOf S.b1 S.b2 (j.1 - i.1, j.2 - i.2)) =
        d i * S.ft l (gOf S.b1 S.b2 (j.1 - i.1, j.2 - i.2)) * (starRingEnd ℂ) (d j)) →
      (∃ e, S.epsInv gmax onlyG l = .error e ∧ S'.epsInv gmax onlyG l' = .error e) ∨
      ∃ E E', S.epsInv gmax onlyG l = .ok E ∧ S'.epsInv gmax onlyG l' = .ok E' ∧
        ∀ i j, E' i j = D i * E i j * (starRingEnd ℂ) (D j) := by
    rintro l l' ⟨-, -, -, -, hr, hr', hft⟩
    have hent : ∀ i j : ℕ, i < inds.length → j < inds.length → epsMatAbs (S.ft l') S.b1 S.b2 inds i j =
        d (inds.getD i 0) * epsMatAbs (S.ft l) S.b1 S.b2 inds i j * (starRingEnd ℂ) (d (inds.getD j 0)) := by
      intro i j hi hj
      rw [ent l hr i j hi hj, ent l' hr' i j hi hj]
      exact hft _ _
    have hnorm : ∀ z, ‖d z‖ = 1 := by
      intro z
      have := congrArg norm (hd z)
      rw [norm_mul, RCLike.norm_conj, norm_one] at this
      nlinarith [norm_nonneg (d z)]
    have hhom : homAbs (S.ft l') S.b1 S.b2 inds ↔ homAbs (S.ft l) S.b1 S.b2 inds := by
      unfold homAbs
      have : (∑ i ∈ Finset.range inds.length, ∑ j ∈ Finset.range inds.length,
          (if 1e-10 < norm2 (gOf S.b1 S.b2 ((inds.getD j 0).1 - (inds.getD i 0).1,
            (inds.getD j 0).2 - (inds.getD i 0).2)) then ‖epsMatAbs (S.ft l') S.b1 S.b2 inds i j‖ else 0)) =
          ∑ i ∈ Finset.range inds.length, ∑ j ∈ Finset.range inds.length,
          (if 1e-10 < norm2 (gOf S.b1 S.b2 ((inds.getD j 0).1 - (inds.getD i 0).1,
            (inds.getD j 0).2 - (inds.getD i 0).2)) then ‖epsMatAbs (S.ft l) S.b1 S.b2 inds i j‖ else 0) := by
        refine Finset.sum_congr rfl fun i hi => Finset.sum_congr rfl fun j hj => ?_
        rw [hent i j (Finset.mem_range.1 hi) (Finset.mem_range.1 hj), norm_mul, norm_mul, RCLike.norm_conj,
          hnorm, hnorm, one_mul, mul_one]
      rw [this]
    have hm := unit_phases_inv D (fun i => hd _) (S.epsMat gmax l) (S'.epsMat gmax l')
      (fun i j => hent i j (hlt i) (hlt j))
    have e1 : S'.epsInv gmax onlyG l' = if homAbs (S.ft l') S.b1 S.b2 inds ∨ onlyG = true then
        .ok ((epsMatAbs (S.ft l') S.b1 S.b2 inds 0 0)⁻¹ • 1)
      else if (S'.epsMat gmax l').det = 0 then .error .valueError else .ok (S'.epsMat gmax l')⁻¹ := rfl
    have e2 : S.epsInv gmax onlyG l = if homAbs (S.ft l) S.b1 S.b2 inds ∨ onlyG = true then
        .ok ((epsMatAbs (S.ft l) S.b1 S.b2 inds 0 0)⁻¹ • 1)
      else if (S.epsMat gmax l).det = 0 then .error .valueError else .ok (S.epsMat gmax l)⁻¹ := rfl
    rw [e1, e2, hhom]
    have hz : (S'.epsMat gmax l').det = 0 ↔ (S.epsMat gmax l).det = 0 :=
      ⟨fun h => hm.1.symm.trans h, fun h => hm.1.trans h⟩
    by_cases hc : homAbs (S.ft l) S.b1 S.b2 inds ∨ onlyG = true
    · rw [if_pos hc, if_pos hc]
      refine Or.inr ⟨_, _, rfl, rfl, fun i j => ?_⟩
      have h0 : 0 < inds.length := (Nat.zero_le _).trans_lt (hlt i)
      have key : ∀ (c : ℂ) (i j : Fin (S.gvec gmax).length),
          (c • (1 : Matrix (Fin (S.gvec gmax).length) (Fin (S.gvec gmax).length) ℂ)) i j =
          D i * (c • (1 : Matrix (Fin (S.gvec gmax).length) (Fin (S.gvec gmax).length) ℂ)) i j *
            (starRingEnd ℂ) (D j) := by
        intro c i j
        by_cases hij : i = j
        · subst hij
          rw [mul_right_comm, hd, one_mul]
        · rw [Matrix.smul_apply, one_apply_ne hij]; simp
      rw [hent 0 0 h0 h0, mul_right_comm, hd, one_mul]
      exact key _ i j
    · rw [if_neg hc, if_neg hc]
      by_cases hdet : (S.epsMat gmax l).det = 0
      · rw [if_pos hdet, if_pos (hz.2 hdet)]
        exact Or.inl ⟨_, rfl, rfl⟩
      · rw [if_neg hdet, if_neg fun h => hdet (hz.1 h)]
        exact Or.inr ⟨_, _, rfl, rfl, hm.2⟩
  exact ⟨hpos, heff, D, fun i => hd _, mapM_rel (S.epsInv gmax onlyG) (S'.epsInv gmax onlyG) hper hl⟩

/-- Two structures over the same lattice whose transforms differ by phases of the plane waves. -/
theorem gmeSim_phases (argsort : List ℝ → List ℕ) (eigh : ∀ n, Matrix (Fin n) (Fin n) ℂ → Fin n → ℝ)
    (he : SortedEigh eigh) (guided : GuidedSolver) (S : GmeStruct) (layers' : List GmeLay) (d : ℤ × ℤ → ℂ)
    (hd : ∀ i, d i * (starRingEnd ℂ) (d i) = 1)
    (hl : List.Forall₂ (fun l l' : GmeLay => l'.pos = l.pos ∧ l'.epsB = l.epsB ∧ l'.epsAvg = l.epsAvg ∧
      l'.epsEff = l.epsEff ∧ (∀ s ∈ l.shapes, RealShape s) ∧ (∀ s ∈ l'.shapes, RealShape s) ∧
      ∀ i j : ℤ × ℤ, S.ft l' (gOf S.b1 S.b2 (j.1 - i.1, j.2 - i.2)) =
        d i * S.ft l (gOf S.b1 S.b2 (j.1 - i.1, j.2 - i.2)) * (starRingEnd ℂ) (d j)) S.layers layers')
    (gmax : ℝ) (onlyG : Bool) (opt : String) (ks : List R2) (sigma : ℝ) (numeig : ℕ) :
    gmeSim argsort eigh guided { S with layers := layers' } gmax onlyG opt ks sigma numeig =
      gmeSim argsort eigh guided S gmax onlyG opt ks sigma numeig := by
  obtain ⟨hpos, heff, D, hD, hE⟩ := epsInvs_phases S layers' d hd hl gmax onlyG opt
  set S' : GmeStruct := { S with layers := layers' } with hS'
  have u1 : gmeSim argsort eigh guided S' gmax onlyG opt ks sigma numeig = (do
    let eff ← layers'.mapM (GmeLay.eff opt)
    let stack := (layers'.map GmeLay.pos).zip eff
    let einv ← layers'.mapM (S'.epsInv gmax onlyG)
    (List.range ks.length).mapM fun (ik : ℕ) => do
      let basis ← guided stack (S.gvec gmax) ks ik
      solveFull argsort (List.ofFn (eigh _ (gmeMat stack einv basis + 1))) sigma numeig) := rfl
  rw [u1, heff, hpos]
  unfold gmeSim gmeSimIj
  cases S.layers.mapM (GmeLay.eff opt) with
  | error e => rfl
  | ok eff =>
    simp only [bind, Except.bind]
    rcases hE with ⟨e, h1, h2⟩ | ⟨Es, Es', h1, h2, hq⟩
    · rw [h1, h2]
    · rw [h1, h2]
      simp only
      congr 1
      funext ik
      cases guided ((S.layers.map GmeLay.pos).zip eff) (S.gvec gmax) ks ik with
      | error e => rfl
      | ok basis =>
        simp only
        congr 1
        refine sortedEigh_eq he _ _ (gmeMat_hermitian _ _ _) (gmeMat_hermitian _ _ _) ?_
        exact gmeMat_phases _ Es Es' D hD hq basis

/-- The phases of the plane waves in a displaced structure. -/
theorem displaced_phases (S : GmeStruct) (hS : Resolved S.b1 S.b2) (t : R2) (layers' : List GmeLay)
    (hl : List.Forall₂ (fun l l' : GmeLay => ∃ shapes', l' = { l with shapes := shapes' } ∧
      (∀ s ∈ l.shapes, RealShape s) ∧ (∀ s ∈ shapes', RealShape s) ∧
      List.Forall₂ (Displaced t) l.shapes shapes') S.layers layers') :
    List.Forall₂ (fun l l' : GmeLay => l'.pos = l.pos ∧ l'.epsB = l.epsB ∧ l'.epsAvg = l.epsAvg ∧
      l'.epsEff = l.epsEff ∧ (∀ s ∈ l.shapes, RealShape s) ∧ (∀ s ∈ l'.shapes, RealShape s) ∧
      ∀ i j : ℤ × ℤ, S.ft l' (gOf S.b1 S.b2 (j.1 - i.1, j.2 - i.2)) =
        Complex.exp (Complex.I * ((gOf S.b1 S.b2 i).1 * t.1 + (gOf S.b1 S.b2 i).2 * t.2)) *
          S.ft l (gOf S.b1 S.b2 (j.1 - i.1, j.2 - i.2)) *
          (starRingEnd ℂ) (Complex.exp (Complex.I * ((gOf S.b1 S.b2 j).1 * t.1 + (gOf S.b1 S.b2 j).2 * t.2))))
      S.layers layers' := by
  refine hl.imp ?_
  rintro l l' ⟨shapes', rfl, hr, hr', hd⟩
  refine ⟨rfl, rfl, rfl, rfl, hr, hr', fun i j => ?_⟩
  have := layerFt_displaced l.epsB l.epsAvg S.ecArea l.shapes shapes' t hd
    (gOf S.b1 S.b2 (j.1 - i.1, j.2 - i.2)) (by
      by_cases hz : (j.1 - i.1, j.2 - i.2) = ((0, 0) : ℤ × ℤ)
      · left; rw [hz]; simp [gOf]
      · right
        have := hS _ _ hz
        simpa [gOf] using this)
  refine this.trans ?_
  rw [← Complex.exp_conj, mul_right_comm, ← Complex.exp_add]
  unfold GmeStruct.ft
  congr 2
  simp only [gOf, map_mul, map_add, Complex.conj_I, Complex.conj_ofReal]
  push_cast
  ring

/-- **C95 (displacement).** Displacing the shapes of all layers and claddings by the same in-plane vector leaves the
result of every run unchanged, for every truncation, choice of effective permittivities, guided modes, wave vectors,
`eig_sigma` and number of frequencies. -/
theorem C95_displacement (argsort : List ℝ → List ℕ) (eigh : ∀ n, Matrix (Fin n) (Fin n) ℂ → Fin n → ℝ)
    (he : SortedEigh eigh) (guided : GuidedSolver) (S : GmeStruct) (hS : Resolved S.b1 S.b2) (t : R2)
    (layers' : List GmeLay)
    (hl : List.Forall₂ (fun l l' : GmeLay => ∃ shapes', l' = { l with shapes := shapes' } ∧
      (∀ s ∈ l.shapes, RealShape s) ∧ (∀ s ∈ shapes', RealShape s) ∧
      List.Forall₂ (Displaced t) l.shapes shapes') S.layers layers')
    (gmax : ℝ) (onlyG : Bool) (opt : String) (ks : List R2) (sigma : ℝ) (numeig : ℕ) :
    gmeSim argsort eigh guided { S with layers := layers' } gmax onlyG opt ks sigma numeig =
      gmeSim argsort eigh guided S gmax onlyG opt ks sigma numeig := by
  refine gmeSim_phases argsort eigh he guided S layers'
    (fun i => Complex.exp (Complex.I * ((gOf S.b1 S.b2 i).1 * t.1 + (gOf S.b1 S.b2 i).2 * t.2))) ?_ ?_ gmax onlyG opt
    ks sigma numeig
  · intro i
    rw [← Complex.exp_conj, ← Complex.exp_add]
    simp
  · exact displaced_phases S hS t layers' hl

/-- Structures with the same transforms. -/
theorem same_transform_phases (S : GmeStruct) (layers' : List GmeLay)
    (hl : List.Forall₂ (fun l l' : GmeLay => ∃ shapes', l' = { l with shapes := shapes' } ∧
      (∀ s ∈ l.shapes, RealShape s) ∧ (∀ s ∈ shapes', RealShape s) ∧
      ∀ i : ℤ × ℤ, i ≠ (0, 0) →
        (shapes'.map fun s => ((s.eps : ℂ) - l.epsB) * s.ft (gOf S.b1 S.b2 i)).sum =
          (l.shapes.map fun s => ((s.eps : ℂ) - l.epsB) * s.ft (gOf S.b1 S.b2 i)).sum) S.layers layers') :
    List.Forall₂ (fun l l' : GmeLay => l'.pos = l.pos ∧ l'.epsB = l.epsB ∧ l'.epsAvg = l.epsAvg ∧
      l'.epsEff = l.epsEff ∧ (∀ s ∈ l.shapes, RealShape s) ∧ (∀ s ∈ l'.shapes, RealShape s) ∧
      ∀ i j : ℤ × ℤ, S.ft l' (gOf S.b1 S.b2 (j.1 - i.1, j.2 - i.2)) =
        (fun _ => 1 : ℤ × ℤ → ℂ) i * S.ft l (gOf S.b1 S.b2 (j.1 - i.1, j.2 - i.2)) *
          (starRingEnd ℂ) ((fun _ => 1 : ℤ × ℤ → ℂ) j)) S.layers layers' := by
  refine hl.imp ?_
  rintro l l' ⟨shapes', rfl, hr, hr', hd⟩
  refine ⟨rfl, rfl, rfl, rfl, hr, hr', fun i j => ?_⟩
  rw [one_mul, map_one, mul_one]
  unfold GmeStruct.ft
  simp only
  set g := gOf S.b1 S.b2 (j.1 - i.1, j.2 - i.2) with hg
  by_cases h0 : isG0 g
  · rw [layerFt_g0 _ _ _ _ _ h0, layerFt_g0 _ _ _ _ _ h0]
  · rw [C12_layer_value _ _ _ _ _ h0, C12_layer_value _ _ _ _ _ h0, hd _ fun hz => h0 ?_]
    rw [hg, hz]
    simp [gOf, isG0]
    norm_num

/-- **C95 (order and lattice periods).** The result does not depend on the order in which the shapes of a layer were
added; shapes with the permittivity of the background do not count; shapes may be moved by lattice vectors, each by its
own. Each of these is a change under which the sum of `(eps - eps_b) FT` over the shapes is the same at all reciprocal
lattice vectors. -/
theorem C95_same_transform (argsort : List ℝ → List ℕ) (eigh : ∀ n, Matrix (Fin n) (Fin n) ℂ → Fin n → ℝ)
    (he : SortedEigh eigh) (guided : GuidedSolver) (S : GmeStruct) (layers' : List GmeLay)
    (hl : List.Forall₂ (fun l l' : GmeLay => ∃ shapes', l' = { l with shapes := shapes' } ∧
      (∀ s ∈ l.shapes, RealShape s) ∧ (∀ s ∈ shapes', RealShape s) ∧
      ∀ i : ℤ × ℤ, i ≠ (0, 0) →
        (shapes'.map fun s => ((s.eps : ℂ) - l.epsB) * s.ft (gOf S.b1 S.b2 i)).sum =
          (l.shapes.map fun s => ((s.eps : ℂ) - l.epsB) * s.ft (gOf S.b1 S.b2 i)).sum) S.layers layers')
    (gmax : ℝ) (onlyG : Bool) (opt : String) (ks : List R2) (sigma : ℝ) (numeig : ℕ) :
    gmeSim argsort eigh guided { S with layers := layers' } gmax onlyG opt ks sigma numeig =
      gmeSim argsort eigh guided S gmax onlyG opt ks sigma numeig := by
  refine gmeSim_phases argsort eigh he guided S layers' (fun _ => 1) (by simp) ?_ gmax onlyG opt ks sigma numeig
  exact same_transform_phases S layers' hl

/-- Exchanging shapes, and adding one without contrast. -/
theorem same_transform_perm (epsB : ℝ) (b1 b2 : R2) (shapes shapes' extra : List FShape)
    (hp : shapes'.Perm (shapes ++ extra)) (he : ∀ s ∈ extra, s.eps = epsB) (i : ℤ × ℤ) :
    (shapes'.map fun s => ((s.eps : ℂ) - epsB) * s.ft (gOf b1 b2 i)).sum =
      (shapes.map fun s => ((s.eps : ℂ) - epsB) * s.ft (gOf b1 b2 i)).sum := by
  rw [(hp.map _).sum_eq, List.map_append, List.sum_append, List.sum_eq_zero (l := extra.map _), add_zero]
  intro x hx
  obtain ⟨s, hs, rfl⟩ := List.mem_map.1 hx
  rw [he s hs, sub_self, zero_mul]

/-- A slab with a circular and a triangular hole. -/
example (J : ℝ → ℝ) (argsort : List ℝ → List ℕ) (eigh : ∀ n, Matrix (Fin n) (Fin n) ℂ → Fin n → ℝ)
    (he : SortedEigh eigh) (guided : GuidedSolver) (t k : R2) :
    gmeSim argsort eigh guided ⟨(2 * Real.pi, 0), (0, 2 * Real.pi), 1, [⟨.lower, 1, 1, none, []⟩,
        ⟨.inner 0.5, 12, 11, none, [⟨1, Circle.ft J ⟨0 + t.1, 0 + t.2, 0.2⟩⟩,
         ⟨1, polyFt ([(0, 0), (0.1, 0), (0, 0.1), (0, 0)].map (shift t))⟩]⟩, ⟨.upper, 1, 1, none, []⟩]⟩
        3 false "average" [k] 0 5 =
      gmeSim argsort eigh guided ⟨(2 * Real.pi, 0), (0, 2 * Real.pi), 1, [⟨.lower, 1, 1, none, []⟩,
        ⟨.inner 0.5, 12, 11, none, [⟨1, Circle.ft J ⟨0, 0, 0.2⟩⟩,
         ⟨1, polyFt [(0, 0), (0.1, 0), (0, 0.1), (0, 0)]⟩]⟩, ⟨.upper, 1, 1, none, []⟩]⟩
        3 false "average" [k] 0 5 :=
  C95_displacement argsort eigh he guided ⟨(2 * Real.pi, 0), (0, 2 * Real.pi), 1, [⟨.lower, 1, 1, none, []⟩,
        ⟨.inner 0.5, 12, 11, none, [⟨1, Circle.ft J ⟨0, 0, 0.2⟩⟩,
         ⟨1, polyFt [(0, 0), (0.1, 0), (0, 0.1), (0, 0)]⟩]⟩, ⟨.upper, 1, 1, none, []⟩]⟩ resolved_square t _
    (.cons ⟨[], rfl, by simp, by simp, .nil⟩ (.cons ⟨_, rfl,
      (by simp only [List.mem_cons, List.not_mem_nil, or_false]
          rintro s (rfl | rfl)
          · exact C12_circle_conj J _
          · exact C12_poly_conj _),
      (by simp only [List.mem_cons, List.not_mem_nil, or_false]
          rintro s (rfl | rfl)
          · exact C12_circle_conj J _
          · exact C12_poly_conj _),
      .cons (displaced_circle J 1 ⟨0, 0, 0.2⟩ t) (.cons (displaced_poly 1 _ t) .nil)⟩
      (.cons ⟨[], rfl, by simp, by simp, .nil⟩ .nil))) 3 false "average" [k] 0 5

/-- Two holes in the other order, with a shape of the background permittivity between them. -/
example (J : ℝ → ℝ) (argsort : List ℝ → List ℕ) (eigh : ∀ n, Matrix (Fin n) (Fin n) ℂ → Fin n → ℝ)
    (he : SortedEigh eigh) (guided : GuidedSolver) (k : R2) (a b c : Circle) :
    gmeSim argsort eigh guided ⟨(2 * Real.pi, 0), (0, 2 * Real.pi), 1, [
        ⟨.inner 0.5, 12, 11, none, [⟨2, Circle.ft J b⟩, ⟨12, Circle.ft J c⟩, ⟨1, Circle.ft J a⟩]⟩]⟩
        3 false "average" [k] 0 5 =
      gmeSim argsort eigh guided ⟨(2 * Real.pi, 0), (0, 2 * Real.pi), 1, [
        ⟨.inner 0.5, 12, 11, none, [⟨1, Circle.ft J a⟩, ⟨2, Circle.ft J b⟩]⟩]⟩ 3 false "average" [k] 0 5 :=
  C95_same_transform argsort eigh he guided ⟨(2 * Real.pi, 0), (0, 2 * Real.pi), 1, [
        ⟨.inner 0.5, 12, 11, none, [⟨1, Circle.ft J a⟩, ⟨2, Circle.ft J b⟩]⟩]⟩ _
    (.cons ⟨[⟨2, Circle.ft J b⟩, ⟨12, Circle.ft J c⟩, ⟨1, Circle.ft J a⟩], rfl,
      (by simp only [List.mem_cons, List.not_mem_nil, or_false]
          rintro s (rfl | rfl) <;> exact C12_circle_conj J _),
      (by simp only [List.mem_cons, List.not_mem_nil, or_false]
          rintro s (rfl | rfl | rfl) <;> exact C12_circle_conj J _),
      fun i _ => same_transform_perm 12 _ _ [⟨1, Circle.ft J a⟩, ⟨2, Circle.ft J b⟩]
        [⟨2, Circle.ft J b⟩, ⟨12, Circle.ft J c⟩, ⟨1, Circle.ft J a⟩] [⟨12, Circle.ft J c⟩]
        (List.reverse_perm [_, _, _] |>.trans (.cons _ (.swap _ _ _))) (by simp) i⟩ .nil) 3 false "average" [k] 0 5

/-- **C95 (order).** The result does not depend on the order in which the shapes of a layer were added, and shapes with
the permittivity of the background do not count. -/
theorem C95_order (argsort : List ℝ → List ℕ) (eigh : ∀ n, Matrix (Fin n) (Fin n) ℂ → Fin n → ℝ)
    (he : SortedEigh eigh) (guided : GuidedSolver) (S : GmeStruct) (layers' : List GmeLay)
    (hl : List.Forall₂ (fun l l' : GmeLay => ∃ shapes', l' = { l with shapes := shapes' } ∧
      (∀ s ∈ l.shapes, RealShape s) ∧ (∀ s ∈ shapes', RealShape s) ∧
      (shapes'.filter fun s => s.eps ≠ l.epsB).Perm (l.shapes.filter fun s => s.eps ≠ l.epsB)) S.layers layers')
    (gmax : ℝ) (onlyG : Bool) (opt : String) (ks : List R2) (sigma : ℝ) (numeig : ℕ) :
    gmeSim argsort eigh guided { S with layers := layers' } gmax onlyG opt ks sigma numeig =
      gmeSim argsort eigh guided S gmax onlyG opt ks sigma numeig := by
  refine C95_same_transform argsort eigh he guided S layers' (hl.imp ?_) gmax onlyG opt ks sigma numeig
  rintro l l' ⟨shapes', rfl, hr, hr', hp⟩
  refine ⟨shapes', rfl, hr, hr', fun i _ => ?_⟩
  have key : ∀ m : List FShape, (m.map fun s => ((s.eps : ℂ) - l.epsB) * s.ft (gOf S.b1 S.b2 i)).sum =
      ((m.filter fun s => s.eps ≠ l.epsB).map fun s => ((s.eps : ℂ) - l.epsB) * s.ft (gOf S.b1 S.b2 i)).sum := by
    intro m
    induction m with
    | nil => rfl
    | cons a m ih =>
      by_cases ha : a.eps = l.epsB
      · rw [List.filter_cons_of_neg (by simpa using ha), List.map_cons, List.sum_cons, ih, ha]; simp
      · rw [List.filter_cons_of_pos (by simpa using ha), List.map_cons, List.sum_cons, ih, List.map_cons,
          List.sum_cons]
  rw [key, key l.shapes]
  exact (hp.map _).sum_eq

/-- **C95 (lattice periods).** Every shape may be moved by a lattice vector of its own. -/
theorem C95_lattice_shift (argsort : List ℝ → List ℕ) (eigh : ∀ n, Matrix (Fin n) (Fin n) ℂ → Fin n → ℝ)
    (he : SortedEigh eigh) (guided : GuidedSolver) (S : GmeStruct) (hS : Resolved S.b1 S.b2) (layers' : List GmeLay)
    (hl : List.Forall₂ (fun l l' : GmeLay => ∃ shapes', l' = { l with shapes := shapes' } ∧
      (∀ s ∈ l.shapes, RealShape s) ∧ (∀ s ∈ shapes', RealShape s) ∧
      List.Forall₂ (fun s s' => ∃ R : R2, (∃ m n : ℤ, S.b1.1 * R.1 + S.b1.2 * R.2 = 2 * Real.pi * m ∧
        S.b2.1 * R.1 + S.b2.2 * R.2 = 2 * Real.pi * n) ∧ Displaced R s s') l.shapes shapes') S.layers layers')
    (gmax : ℝ) (onlyG : Bool) (opt : String) (ks : List R2) (sigma : ℝ) (numeig : ℕ) :
    gmeSim argsort eigh guided { S with layers := layers' } gmax onlyG opt ks sigma numeig =
      gmeSim argsort eigh guided S gmax onlyG opt ks sigma numeig := by
  refine C95_same_transform argsort eigh he guided S layers' (hl.imp ?_) gmax onlyG opt ks sigma numeig
  rintro l l' ⟨shapes', rfl, hr, hr', hd⟩
  refine ⟨shapes', rfl, hr, hr', fun i hi => ?_⟩
  have hg : ¬ (|(gOf S.b1 S.b2 i).1| < 1e-10 ∧ |(gOf S.b1 S.b2 i).2| < 1e-10) := hS i.1 i.2 hi
  clear hr hr'
  generalize l.shapes = shapes at hd
  induction hd with
  | nil => rfl
  | cons hd _ ih =>
    obtain ⟨R, ⟨m, n, hm, hn⟩, he, hR⟩ := hd
    rw [List.map_cons, List.sum_cons, List.map_cons, List.sum_cons, ih, he, hR _ hg]
    have hph : Complex.exp (-Complex.I * ((gOf S.b1 S.b2 i).1 * R.1 + (gOf S.b1 S.b2 i).2 * R.2)) = 1 := by
      rw [Complex.exp_eq_one_iff]
      refine ⟨-(m * i.1 + n * i.2), ?_⟩
      have : (gOf S.b1 S.b2 i).1 * R.1 + (gOf S.b1 S.b2 i).2 * R.2 = 2 * Real.pi * (m * i.1 + n * i.2) := by
        simp only [gOf]
        linear_combination (i.1 : ℝ) * hm + (i.2 : ℝ) * hn
      have h' : (((gOf S.b1 S.b2 i).1 : ℂ) * R.1 + (gOf S.b1 S.b2 i).2 * R.2) =
          ((2 * Real.pi * (m * i.1 + n * i.2) : ℝ) : ℂ) := by
        rw [← this]; push_cast; ring
      rw [h']; push_cast; ring
    rw [hph, one_mul]

/-- One of two holes moved by three periods. -/
example (J : ℝ → ℝ) (argsort : List ℝ → List ℕ) (eigh : ∀ n, Matrix (Fin n) (Fin n) ℂ → Fin n → ℝ)
    (he : SortedEigh eigh) (guided : GuidedSolver) (k : R2) :
    gmeSim argsort eigh guided ⟨(2 * Real.pi, 0), (0, 2 * Real.pi), 1, [⟨.inner 0.5, 12, 11, none,
        [⟨1, Circle.ft J ⟨0.1 + 3, 0 + -2, 0.2⟩⟩]⟩]⟩ 3 false "average" [k] 0 5 =
      gmeSim argsort eigh guided ⟨(2 * Real.pi, 0), (0, 2 * Real.pi), 1, [⟨.inner 0.5, 12, 11, none,
        [⟨1, Circle.ft J ⟨0.1, 0, 0.2⟩⟩]⟩]⟩ 3 false "average" [k] 0 5 :=
  C95_lattice_shift argsort eigh he guided ⟨(2 * Real.pi, 0), (0, 2 * Real.pi), 1, [⟨.inner 0.5, 12, 11, none,
        [⟨1, Circle.ft J ⟨0.1, 0, 0.2⟩⟩]⟩]⟩ resolved_square _
    (.cons ⟨[⟨1, Circle.ft J ⟨0.1 + 3, 0 + -2, 0.2⟩⟩], rfl,
      (by simp only [List.mem_singleton]; rintro s rfl; exact C12_circle_conj J _),
      (by simp only [List.mem_singleton]; rintro s rfl; exact C12_circle_conj J _),
      .cons ⟨(3, -2), ⟨3, -2, by push_cast; ring, by push_cast; ring⟩,
        displaced_circle J 1 ⟨0.1, 0, 0.2⟩ (3, -2)⟩ .nil⟩ .nil) 3 false "average" [k] 0 5

end Legume
