import Verif.Lemmas.FieldOverlap

/-!
# C99: normalisation and orthogonality of the fields of a guided-mode expansion
-/
namespace Legume

open Complex Spec MeasureTheory
open scoped ComplexConjugate

theorem fieldAt_congr (N : ℕ) (F F' : ℕ → Fin 3 → ℂ) (h : ∀ G < N, F G = F' G) (gvec : ℕ → R2) (x y : ℝ) (c : Fin 3) :
    fieldAt N F gvec x y c = fieldAt N F' gvec x y c := by
  unfold fieldAt
  congr 1
  apply List.map_congr_left
  intro G hG
  rw [h G (List.mem_range.1 hG)]

/-- Scalar product of two fields over the cell at one height. -/
theorem overlap_layer {n : ℕ} (N : ℕ) (a1 a2 b1 b2 : R2) (hd : Dual a1 a2 b1 b2) (m : ℕ → ℤ × ℤ)
    (hm : ∀ i < N, ∀ j < N, m i = m j → i = j) (ig : Fin n → ℕ) (hig : ∀ i, ig i < N) (E : ℕ → ℕ → ℂ)
    (hE : ∀ G < N, ∀ G' < N, conj (E G G') = E G' G) (f f' : Fin n → Fin 3 → ℂ) :
    (cellArea a1 a2 : ℂ) * cellMean a1 a2 (fun x y => ∑ c,
      conj (fieldAt N (eFt N E fun G c => ∑ i, if ig i = G then f i c / (√(cellArea a1 a2) : ℝ) else 0)
        (fun G => latVec b1 b2 (m G)) x y c) *
      fieldAt N (fun G c => ∑ i, if ig i = G then f' i c / (√(cellArea a1 a2) : ℝ) else 0)
        (fun G => latVec b1 b2 (m G)) x y c) =
    ∑ i, ∑ i', E (ig i) (ig i') * ∑ c, conj (f i c) * f' i' c := by
  have ha := dual_area hd
  rw [cellMean_fields N _ _ a1 a2 b1 b2 hd m hm fun i hi j hj h => hm i hi j hj (dual_inj hd h)]
  unfold eFt
  rw [sum_pairs ig hig E hE (fun i c => f i c / (√(cellArea a1 a2) : ℝ)) fun i c => f' i c / (√(cellArea a1 a2) : ℝ),
    Finset.mul_sum]
  refine Finset.sum_congr rfl fun i _ => ?_
  rw [Finset.mul_sum]
  refine Finset.sum_congr rfl fun i' _ => ?_
  rw [mul_left_comm, Finset.mul_sum]
  congr 1
  refine Finset.sum_congr rfl fun c _ => ?_
  have hsq : ((√(cellArea a1 a2) : ℝ) : ℂ) * ((√(cellArea a1 a2) : ℝ) : ℂ) = cellArea a1 a2 := by
    rw [← Complex.ofReal_mul, Real.mul_self_sqrt ha.le]
  have h0 : ((√(cellArea a1 a2) : ℝ) : ℂ) ≠ 0 := Complex.ofReal_ne_zero.2 (Real.sqrt_pos.2 ha).ne'
  rw [map_div₀, Complex.conj_ofReal, ← hsq]
  field_simp

/-- What the theorems below ask of the guided modes in the basis: normalised guided modes of the stack with the
effective permittivities, at most one of each polarisation and frequency for every plane wave. -/
structure GuidedBasis (e0 eN : ℝ) (ls : List (ℝ × ℝ)) (n N : ℕ) (b : ℕ → SlabBasis) : Prop where
  ne : ls ≠ []
  thick : ∀ l ∈ ls, 0 ≤ l.2
  low : e0 ≠ 0
  up : eN ≠ 0
  eps : ∀ l ∈ ls, l.1 ≠ 0
  wave : ∀ i < n, √((b i).gx ^ 2 + (b i).gy ^ 2) ≠ 0
  root : ∀ i < n, SlabRoot (b i).pol (b i).om (√((b i).gx ^ 2 + (b i).gy ^ 2)) e0 eN ls (b i).abs
  ind : ∀ i < n, (b i).ig < N
  same : ∀ i < n, ∀ j < n, (b i).ig = (b j).ig → (b i).gx = (b j).gx ∧ (b i).gy = (b j).gy
  diff : ∀ i < n, ∀ j < n, i ≠ j → (b i).ig = (b j).ig → (b i).pol ≠ (b j).pol ∨ (b i).om ^ 2 ≠ (b j).om ^ 2

/-- The basis as the fields use it. -/
noncomputable def fieldBasis (e0 eN : ℝ) (ls : List (ℝ × ℝ)) (n : ℕ) (b : ℕ → SlabBasis) : Fin n → ℕ × GmeState :=
  fun i => ((b i).ig, (b i).state e0 eN ls)

theorem hFt_states {n : ℕ} (area : ℝ) (pos : LPos) (b : Fin n → ℕ × GmeState) (u : Fin n → ℂ) (j G : ℕ) (z : ℝ)
    (c : Fin 3) : hFt area pos (fieldStates b u j) G z c = ∑ i, if (b i).1 = G then
      u i * hMode pos (b i).2 ((b i).2.layAt j) z c / (√area : ℝ) else 0 := by
  unfold hFt
  rw [sum_ofFn_states]

theorem dFt_states {n : ℕ} (area omega : ℝ) (pos : LPos) (eps : ℝ) (b : Fin n → ℕ × GmeState) (u : Fin n → ℂ)
    (j G : ℕ) (z : ℝ) (c : Fin 3) : dFt area omega pos eps (fieldStates b u j) G z c = ∑ i, if (b i).1 = G then
      u i * dMode omega pos eps (b i).2 ((b i).2.layAt j) z c / (√area : ℝ) else 0 := by
  unfold dFt
  rw [sum_ofFn_states]

/-- **C99 (magnetic field).** The integral of `conj(H) · H'` over one elementary cell and all heights, with the
magnetic fields that `get_field_xy` returns for two expansions in guided modes at the same `k`, is the scalar product of
their coefficients. -/
theorem C99_magnetic (e0 eN : ℝ) (ls : List (ℝ × ℝ)) (n N : ℕ) (b : ℕ → SlabBasis)
    (hb : GuidedBasis e0 eN ls n N b) (a1 a2 b1 b2 : R2) (hd : Dual a1 a2 b1 b2) (m : ℕ → ℤ × ℤ)
    (hm : ∀ i < N, ∀ j < N, m i = m j → i = j) (u v : Fin n → ℂ) :
    fieldOverlap a1 a2 (slabStack e0 eN ls)
      (hField (cellArea a1 a2) (slabStack e0 eN ls) N (fun G => latVec b1 b2 (m G)) (fieldBasis e0 eN ls n b) u)
      (hField (cellArea a1 a2) (slabStack e0 eN ls) N (fun G => latVec b1 b2 (m G)) (fieldBasis e0 eN ls n b) v) =
    ∑ i, conj (u i) * v i := by
  classical
  set st := slabStack e0 eN ls with hst
  set B := fieldBasis e0 eN ls n b with hB
  have dec : ∀ (i : Fin n) (j : Fin st.length), Decays st[j].1 ((B i).2.layAt j) := fun i j =>
    state_decays hb.ne hb.thick hb.low hb.up hb.eps (hb.root i i.2) j
  have hgk : ∀ i, (B i).2.gk ≠ 0 := fun i => hb.wave i i.2
  -- one height
  have lay : ∀ (j : Fin st.length) (z : ℝ), (cellArea a1 a2 : ℂ) * cellMean a1 a2 (fun x y => ∑ c,
      conj (hField (cellArea a1 a2) st N (fun G => latVec b1 b2 (m G)) B u j z x y c) *
      hField (cellArea a1 a2) st N (fun G => latVec b1 b2 (m G)) B v j z x y c) =
      ∑ i, ∑ i', conj (u i) * v i' * ((if (B i).1 = (B i').1 then 1 else 0) *
        ∑ c, conj (hMode st[j].1 (B i).2 ((B i).2.layAt j) z c) * hMode st[j].1 (B i').2 ((B i').2.layAt j) z c) := by
    intro j z
    have hj : st.getD j (.upper, 0) = st[j] := getD_get st _ j.2
    have key := overlap_layer N a1 a2 b1 b2 hd m hm (fun i => (B i).1) (fun i => hb.ind i i.2)
      (fun G G' => if G = G' then 1 else 0) (by
        intro G _ G' _
        by_cases h : G = G'
        · simp [h]
        · simp [h, Ne.symm h])
      (fun i c => u i * hMode st[j].1 (B i).2 ((B i).2.layAt j) z c)
      fun i c => v i * hMode st[j].1 (B i).2 ((B i).2.layAt j) z c
    have e1 : ∀ (w : Fin n → ℂ) x y c, hField (cellArea a1 a2) st N (fun G => latVec b1 b2 (m G)) B w j z x y c =
        fieldAt N (fun G c => ∑ i, if (B i).1 = G then
          w i * hMode st[j].1 (B i).2 ((B i).2.layAt j) z c / (√(cellArea a1 a2) : ℝ) else 0)
          (fun G => latVec b1 b2 (m G)) x y c := by
      intro w x y c
      unfold hField
      rw [hj]
      exact fieldAt_congr _ _ _ (fun G _ => funext fun c => hFt_states _ _ _ _ _ _ _ _) _ _ _ _
    have e2 : ∀ x y c, fieldAt N (fun G c => ∑ i, if (B i).1 = G then
          u i * hMode st[j].1 (B i).2 ((B i).2.layAt j) z c / (√(cellArea a1 a2) : ℝ) else 0)
          (fun G => latVec b1 b2 (m G)) x y c =
        fieldAt N (eFt N (fun G G' => if G = G' then 1 else 0) fun G c => ∑ i, if (B i).1 = G then
          u i * hMode st[j].1 (B i).2 ((B i).2.layAt j) z c / (√(cellArea a1 a2) : ℝ) else 0)
          (fun G => latVec b1 b2 (m G)) x y c := by
      intro x y c
      refine fieldAt_congr _ _ _ (fun G hG => funext fun c => ?_) _ _ _ _
      unfold eFt
      rw [Finset.sum_eq_single G]
      · simp only [if_true, one_mul]
      · intro G' _ h; simp only [if_neg (Ne.symm h), zero_mul]
      · intro h; exact absurd (Finset.mem_range.2 hG) h
    simp only [e1]
    simp only [e2]
    rw [key]
    refine Finset.sum_congr rfl fun i _ => Finset.sum_congr rfl fun i' _ => ?_
    rw [mul_left_comm, Finset.mul_sum (a := conj (u i) * v i')]
    congr 1
    refine Finset.sum_congr rfl fun c _ => ?_
    rw [map_mul]; ring
  -- pairs of states
  have pair : ∀ i i' : Fin n, (∑ j : Fin st.length, ∫ z, (if (B i).1 = (B i').1 then (1 : ℂ) else 0) *
      ∑ c, conj (hMode st[j].1 (B i).2 ((B i).2.layAt j) z c) * hMode st[j].1 (B i').2 ((B i').2.layAt j) z c
        ∂(layMeasure st[j].1)) = if i = i' then 1 else 0 := by
    intro i i'
    by_cases hg : (B i).1 = (B i').1
    · simp only [if_pos hg, one_mul]
      have hs := hb.same i i.2 i' i'.2 hg
      have ho := states_orthonormal (gx := (b i).gx) (gy := (b i).gy) hb.ne hb.thick hb.low hb.up hb.eps
        (hb.wave i i.2) (hb.root i i.2) (by rw [hs.1, hs.2]; exact hb.root i' i'.2)
      by_cases hi : i = i'
      · subst hi
        rw [if_pos rfl]
        exact ho.1
      · rw [if_neg hi]
        have := ho.2 (hb.diff i i.2 i' i'.2 (fun h => hi (Fin.ext h)) hg)
        rw [show (B i').2 = normState (b i').pol (b i).gx (b i).gy (b i').om e0 eN ls (b i').abs by
          rw [hs.1, hs.2]; rfl]
        exact this
    · have hi : i ≠ i' := fun h => hg (by rw [h])
      simp only [if_neg hg, if_neg hi, zero_mul, integral_zero, Finset.sum_const_zero]
  have integ : ∀ (j : Fin st.length) (i i' : Fin n), Integrable (fun z => conj (u i) * v i' *
      ((if (B i).1 = (B i').1 then (1 : ℂ) else 0) * ∑ c, conj (hMode st[j].1 (B i).2 ((B i).2.layAt j) z c) *
        hMode st[j].1 (B i').2 ((B i').2.layAt j) z c)) (layMeasure st[j].1) := by
    intro j i i'
    refine Integrable.const_mul ?_ _
    by_cases hg : (B i).1 = (B i').1
    · have hs := hb.same i i.2 i' i'.2 hg
      exact (hMode_dot_integrable st[j].1 (B i).2 (B i').2 _ _ (dec i j) (dec i' j) hs.1 hs.2 (hgk i)).const_mul _
    · simp only [if_neg hg, zero_mul]
      exact integrable_zero _ _ _
  unfold fieldOverlap
  simp only [lay]
  have split : ∀ j : Fin st.length, (∫ z, ∑ i, ∑ i', conj (u i) * v i' * ((if (B i).1 = (B i').1 then (1 : ℂ) else 0) *
      ∑ c, conj (hMode st[j].1 (B i).2 ((B i).2.layAt j) z c) * hMode st[j].1 (B i').2 ((B i').2.layAt j) z c)
        ∂(layMeasure st[j].1)) = ∑ i, ∑ i', conj (u i) * v i' * ∫ z, ((if (B i).1 = (B i').1 then (1 : ℂ) else 0) *
      ∑ c, conj (hMode st[j].1 (B i).2 ((B i).2.layAt j) z c) * hMode st[j].1 (B i').2 ((B i').2.layAt j) z c)
        ∂(layMeasure st[j].1) := by
    intro j
    rw [integral_finset_sum _ fun i _ => integrable_finset_sum _ fun i' _ => integ j i i']
    refine Finset.sum_congr rfl fun i _ => ?_
    rw [integral_finset_sum _ fun i' _ => integ j i i']
    refine Finset.sum_congr rfl fun i' _ => ?_
    rw [integral_const_mul]
  simp only [split]
  rw [Finset.sum_comm]
  refine Finset.sum_congr rfl fun i _ => ?_
  rw [Finset.sum_comm]
  have h2 : ∀ i' : Fin n, (∑ j : Fin st.length, conj (u i) * v i' * ∫ z,
      ((if (B i).1 = (B i').1 then (1 : ℂ) else 0) *
      ∑ c, conj (hMode st[j].1 (B i).2 ((B i).2.layAt j) z c) * hMode st[j].1 (B i').2 ((B i').2.layAt j) z c)
        ∂(layMeasure st[j].1)) = if i = i' then conj (u i) * v i' else 0 := by
    intro i'
    rw [← Finset.mul_sum, pair i i', mul_ite, mul_one, mul_zero]
  simp only [h2]
  rw [Finset.sum_ite_eq, if_pos (Finset.mem_univ i)]

/-- **C99 (orthonormal modes).** The magnetic fields of the modes of one `k` are orthonormal: each has norm one over a
cell and all heights, and different modes are orthogonal, degenerate ones included. -/
theorem C99_modes (e0 eN : ℝ) (ls : List (ℝ × ℝ)) (n N : ℕ) (b : ℕ → SlabBasis)
    (hb : GuidedBasis e0 eN ls n N b) (a1 a2 b1 b2 : R2) (hd : Dual a1 a2 b1 b2) (m : ℕ → ℤ × ℤ)
    (hm : ∀ i < N, ∀ j < N, m i = m j → i = j) (A V : Matrix (Fin n) (Fin n) ℂ) (w : Fin n → ℝ)
    (hV : IsEigh A w V) (p q : Fin n) :
    fieldOverlap a1 a2 (slabStack e0 eN ls)
      (hField (cellArea a1 a2) (slabStack e0 eN ls) N (fun G => latVec b1 b2 (m G)) (fieldBasis e0 eN ls n b)
        fun i => V i p)
      (hField (cellArea a1 a2) (slabStack e0 eN ls) N (fun G => latVec b1 b2 (m G)) (fieldBasis e0 eN ls n b)
        fun i => V i q) = if p = q then 1 else 0 := by
  rw [C99_magnetic e0 eN ls n N b hb a1 a2 b1 b2 hd m hm]
  have := congrFun (congrFun hV.unitary p) q
  rw [Matrix.mul_apply, Matrix.one_apply] at this
  exact this

/-! ### The electric field -/

theorem layPairs_fin (stack : List (LPos × ℝ)) (einv : List ℂ) (s t : GmeState) (h1 : einv.length = stack.length)
    (h2 : s.layers.length = stack.length) (h3 : t.layers.length = stack.length) (f : LayPair → ℂ) :
    ((layPairs stack einv s t).map f).sum =
      ∑ j : Fin stack.length, f ⟨stack[j].1, stack[j].2, einv.getD j 0, s.layAt j, t.layAt j⟩ := by
  obtain ⟨sp, sx, sy, so, sl⟩ := s
  obtain ⟨tp, tx, ty, tw, tl⟩ := t
  unfold layPairs GmeState.layAt
  simp only at h2 h3 ⊢
  induction stack generalizing einv sl tl with
  | nil => simp
  | cons a stack ih =>
    cases einv with
    | nil => simp at h1
    | cons e einv =>
      cases sl with
      | nil => simp at h2
      | cons x sl =>
        cases tl with
        | nil => simp at h3
        | cons y tl =>
          have := ih einv (by simpa using h1) sl (by simpa using h2) tl (by simpa using h3)
          simp only [List.zip_cons_cons, List.map_cons, List.sum_cons, this]
          exact (Fin.sum_univ_succ (n := stack.length) fun j => f ⟨(a :: stack)[j].1, (a :: stack)[j].2,
            (e :: einv).getD (j : ℕ) 0, (x :: sl).getD (j : ℕ) ⟨0, 0, 0⟩, (y :: tl).getD (j : ℕ) ⟨0, 0, 0⟩⟩).symm

/-- **C99 (energy form).** The integral of `conj(E) · D'` over one elementary cell and all heights, with the electric
field of one expansion and the displacement of another, is the matrix of the guided-mode expansion between their
coefficients, divided by the two frequencies; for every patterning. -/
theorem C99_electric (e0 eN : ℝ) (ls : List (ℝ × ℝ)) (n N : ℕ) (b : ℕ → SlabBasis)
    (hb : GuidedBasis e0 eN ls n N b) (a1 a2 b1 b2 : R2) (hd : Dual a1 a2 b1 b2) (m : ℕ → ℤ × ℤ)
    (hm : ∀ i < N, ∀ j < N, m i = m j → i = j) (einv : List (ℕ → ℕ → ℂ))
    (hlen : einv.length = (slabStack e0 eN ls).length) (hE : ∀ e ∈ einv, ∀ i j, conj (e j i) = e i j)
    (blk : ℕ → ℕ) (hblk : ∀ i j, i ≤ j → blk i ≤ blk j) (om om' : ℝ) (u v : Fin n → ℂ) :
    fieldOverlap a1 a2 (slabStack e0 eN ls)
      (eField (cellArea a1 a2) om (slabStack e0 eN ls) einv N (fun G => latVec b1 b2 (m G))
        (fieldBasis e0 eN ls n b) u)
      (dField (cellArea a1 a2) om' (slabStack e0 eN ls) N (fun G => latVec b1 b2 (m G))
        (fieldBasis e0 eN ls n b) v) =
    1 / ((om : ℂ) * om') * ∑ i, ∑ i', conj (u i) *
      exactMat n e0 eN ls b (fun i j => einv.map fun e => e (b i).ig (b j).ig) blk i i' * v i' := by
  classical
  set st := slabStack e0 eN ls with hst
  set B := fieldBasis e0 eN ls n b with hB
  have dec : ∀ (i : Fin n) (j : Fin st.length), Decays st[j].1 ((B i).2.layAt j) := fun i j =>
    state_decays hb.ne hb.thick hb.low hb.up hb.eps (hb.root i i.2) j
  have len : ∀ i : Fin n, (B i).2.layers.length = st.length := fun i =>
    normState_length (slabRoot_guided (hb.root i i.2) hb.ne hb.low hb.up hb.eps).1.len
  have hjE : ∀ j : Fin st.length, einv.getD j (fun _ _ => 0) ∈ einv := by
    intro j
    rw [getD_get einv _ (by rw [hlen]; exact j.2)]
    exact List.getElem_mem _
  have lay : ∀ (j : Fin st.length) (z : ℝ), (cellArea a1 a2 : ℂ) * cellMean a1 a2 (fun x y => ∑ c,
      conj (eField (cellArea a1 a2) om st einv N (fun G => latVec b1 b2 (m G)) B u j z x y c) *
      dField (cellArea a1 a2) om' st N (fun G => latVec b1 b2 (m G)) B v j z x y c) =
      ∑ i, ∑ i', 1 / ((om : ℂ) * om') * (conj (u i) * v i') * (einv.getD j (fun _ _ => 0)) (B i).1 (B i').1 *
        density (B i).2 (B i').2 st[j].2 ((B i).2.layAt j) ((B i').2.layAt j) z := by
    intro j z
    have hj : st.getD j (.upper, 0) = st[j] := getD_get st _ j.2
    have key := overlap_layer N a1 a2 b1 b2 hd m hm (fun i => (B i).1) (fun i => hb.ind i i.2)
      (einv.getD j fun _ _ => 0) (fun G _ G' _ => hE _ (hjE j) G' G)
      (fun i c => u i * dMode om st[j].1 st[j].2 (B i).2 ((B i).2.layAt j) z c)
      fun i c => v i * dMode om' st[j].1 st[j].2 (B i).2 ((B i).2.layAt j) z c
    have e1 : ∀ x y c, eField (cellArea a1 a2) om st einv N (fun G => latVec b1 b2 (m G)) B u j z x y c =
        fieldAt N (eFt N (einv.getD j fun _ _ => 0) fun G c => ∑ i, if (B i).1 = G then
          u i * dMode om st[j].1 st[j].2 (B i).2 ((B i).2.layAt j) z c / (√(cellArea a1 a2) : ℝ) else 0)
          (fun G => latVec b1 b2 (m G)) x y c := by
      intro x y c
      unfold eField
      rw [hj]
      refine fieldAt_congr _ _ _ (fun G _ => ?_) _ _ _ _
      congr 1
      funext G c
      exact dFt_states _ _ _ _ _ _ _ _ _ _
    have e2 : ∀ x y c, dField (cellArea a1 a2) om' st N (fun G => latVec b1 b2 (m G)) B v j z x y c =
        fieldAt N (fun G c => ∑ i, if (B i).1 = G then
          v i * dMode om' st[j].1 st[j].2 (B i).2 ((B i).2.layAt j) z c / (√(cellArea a1 a2) : ℝ) else 0)
          (fun G => latVec b1 b2 (m G)) x y c := by
      intro x y c
      unfold dField
      rw [hj]
      exact fieldAt_congr _ _ _ (fun G _ => funext fun c => dFt_states _ _ _ _ _ _ _ _ _ _) _ _ _ _
    simp only [e1, e2]
    rw [key]
    refine Finset.sum_congr rfl fun i _ => Finset.sum_congr rfl fun i' _ => ?_
    unfold density
    rw [mul_comm (1 / ((om : ℂ) * om') * (conj (u i) * v i')), mul_assoc, Finset.mul_sum (a := 1 / ((om : ℂ) * om') * _)]
    congr 1
    refine Finset.sum_congr rfl fun c _ => ?_
    rw [C67_overlap_field _ _ _ _ _ (dec i j), C67_overlap_field _ _ _ _ _ (dec i' j), map_mul, map_mul, map_div₀,
      Complex.conj_I, Complex.conj_ofReal, one_div, mul_inv]
    have hI := I_mul_I
    simp only [div_eq_mul_inv]
    linear_combination (-(conj (u i) * conj (dispField (B i).2 st[j].2 ((B i).2.layAt j) z c) * v i' *
      dispField (B i').2 st[j].2 ((B i').2.layAt j) z c * (om : ℂ)⁻¹ * (om' : ℂ)⁻¹)) * hI
  have elem : ∀ i i' : Fin n, exactMat n e0 eN ls b (fun i j => einv.map fun e => e (b i).ig (b j).ig) blk i i' =
      ∑ j : Fin st.length, (einv.getD j (fun _ _ => 0)) (B i).1 (B i').1 *
        ∫ z, density (B i).2 (B i').2 st[j].2 ((B i).2.layAt j) ((B i').2.layAt j) z ∂(layMeasure st[j].1) := by
    intro i i'
    unfold exactMat
    rw [Matrix.of_apply]
    have hc := C28_completion st (einv.map fun e => fun i j => e (b i).ig (b j).ig) (by
      intro e he i j
      obtain ⟨e', he', rfl⟩ := List.mem_map.1 he
      exact hE e' he' _ _) (fun i => (b i).state e0 eN ls) blk hblk i i'
    simp only [List.map_map, Function.comp_def] at hc
    rw [hc, gmeElem_eq]
    refine (layPairs_fin st (einv.map fun e => e (b i).ig (b i').ig) (B i).2 (B i').2 (by simpa using hlen) (len i)
      (len i') _).trans ?_
    refine Finset.sum_congr rfl fun j _ => ?_
    rw [layTerm_exact _ _ _ (dec i j) (dec i' j)]
    simp only
    congr 1
    have hj : (j : ℕ) < einv.length := by rw [hlen]; exact j.2
    rw [getD_get _ _ (by simpa using hj), List.getElem_map, getD_get _ _ hj]
    rfl
  have integ : ∀ (j : Fin st.length) (i i' : Fin n), Integrable (fun z =>
      1 / ((om : ℂ) * om') * (conj (u i) * v i') * (einv.getD j (fun _ _ => 0)) (B i).1 (B i').1 *
        density (B i).2 (B i').2 st[j].2 ((B i).2.layAt j) ((B i').2.layAt j) z) (layMeasure st[j].1) := fun j i i' =>
    (density_integrable _ _ _ _ _ _ (dec i j) (dec i' j)).const_mul _
  unfold fieldOverlap
  simp only [lay]
  have split : ∀ j : Fin st.length, (∫ z, ∑ i, ∑ i',
      1 / ((om : ℂ) * om') * (conj (u i) * v i') * (einv.getD j (fun _ _ => 0)) (B i).1 (B i').1 *
        density (B i).2 (B i').2 st[j].2 ((B i).2.layAt j) ((B i').2.layAt j) z ∂(layMeasure st[j].1)) =
      ∑ i, ∑ i', 1 / ((om : ℂ) * om') * (conj (u i) * v i') * ((einv.getD j (fun _ _ => 0)) (B i).1 (B i').1 *
        ∫ z, density (B i).2 (B i').2 st[j].2 ((B i).2.layAt j) ((B i').2.layAt j) z ∂(layMeasure st[j].1)) := by
    intro j
    rw [integral_finset_sum _ fun i _ => integrable_finset_sum _ fun i' _ => integ j i i']
    refine Finset.sum_congr rfl fun i _ => ?_
    rw [integral_finset_sum _ fun i' _ => integ j i i']
    refine Finset.sum_congr rfl fun i' _ => ?_
    rw [integral_const_mul]; ring
  simp only [split]
  rw [Finset.sum_comm, Finset.mul_sum]
  refine Finset.sum_congr rfl fun i _ => ?_
  rw [Finset.sum_comm, Finset.mul_sum]
  refine Finset.sum_congr rfl fun i' _ => ?_
  rw [elem i i', ← Finset.mul_sum]
  ring


/-- **C99 (energy).** For the modes found by diagonalising the matrix of the expansion the integral of `conj(E) · D'` is
one for the same mode and zero for different modes: the electric energy of every mode equals the magnetic energy. -/
theorem C99_energy (e0 eN : ℝ) (ls : List (ℝ × ℝ)) (n N : ℕ) (b : ℕ → SlabBasis)
    (hb : GuidedBasis e0 eN ls n N b) (a1 a2 b1 b2 : R2) (hd : Dual a1 a2 b1 b2) (m : ℕ → ℤ × ℤ)
    (hm : ∀ i < N, ∀ j < N, m i = m j → i = j) (einv : List (ℕ → ℕ → ℂ))
    (hlen : einv.length = (slabStack e0 eN ls).length) (hE : ∀ e ∈ einv, ∀ i j, conj (e j i) = e i j)
    (blk : ℕ → ℕ) (hblk : ∀ i j, i ≤ j → blk i ≤ blk j) (V : Matrix (Fin n) (Fin n) ℂ) (w : Fin n → ℝ)
    (hV : IsEigh (exactMat n e0 eN ls b (fun i j => einv.map fun e => e (b i).ig (b j).ig) blk + 1) w V)
    (p q : Fin n) (hp : 1 < w p) (hq : 1 < w q) :
    fieldOverlap a1 a2 (slabStack e0 eN ls)
      (eField (cellArea a1 a2) (2 * Real.pi * freqOf (w p)) (slabStack e0 eN ls) einv N
        (fun G => latVec b1 b2 (m G)) (fieldBasis e0 eN ls n b) fun i => V i p)
      (dField (cellArea a1 a2) (2 * Real.pi * freqOf (w q)) (slabStack e0 eN ls) N
        (fun G => latVec b1 b2 (m G)) (fieldBasis e0 eN ls n b) fun i => V i q) = if p = q then 1 else 0 := by
  rw [C99_electric e0 eN ls n N b hb a1 a2 b1 b2 hd m hm einv hlen hE blk hblk]
  set M := exactMat n e0 eN ls b (fun i j => einv.map fun e => e (b i).ig (b j).ig) blk
  have hf : ∀ x : ℝ, 1 < x → 2 * Real.pi * freqOf x = √(x - 1) ∧ 0 < √(x - 1) := by
    intro x hx
    have h1 : 0 < x - 1 := by linarith
    refine ⟨?_, Real.sqrt_pos.2 h1⟩
    unfold freqOf
    rw [abs_of_pos h1]
    have := Real.pi_pos.ne'
    field_simp
  have hMV : M * V = V * Matrix.diagonal fun i => ((w i - 1 : ℝ) : ℂ) := by
    have h := hV.eigen
    rw [Matrix.add_mul, Matrix.one_mul] at h
    have h2 : M * V = V * Matrix.diagonal (fun i => (w i : ℂ)) - V := by rw [← h, add_sub_cancel_right]
    rw [h2]
    ext i j
    rw [Matrix.sub_apply, Matrix.mul_diagonal, Matrix.mul_diagonal]
    push_cast; ring
  have hsum : ∑ i, ∑ i', conj (V i p) * M i i' * V i' q = if p = q then ((w q - 1 : ℝ) : ℂ) else 0 := by
    have h1 : ∀ i, ∑ i', conj (V i p) * M i i' * V i' q = conj (V i p) * V i q * ((w q - 1 : ℝ) : ℂ) := by
      intro i
      have := congrFun (congrFun hMV i) q
      rw [Matrix.mul_apply, Matrix.mul_diagonal] at this
      rw [mul_assoc, ← this, Finset.mul_sum]
      exact Finset.sum_congr rfl fun i' _ => by ring
    simp only [h1]
    rw [← Finset.sum_mul]
    have := congrFun (congrFun hV.unitary p) q
    rw [Matrix.mul_apply, Matrix.one_apply] at this
    have h3 : ∑ i, conj (V i p) * V i q = if p = q then 1 else 0 := this
    rw [h3, ite_mul, one_mul, zero_mul]
  rw [hsum]
  split
  · rename_i h
    subst h
    obtain ⟨h1, h2⟩ := hf _ hp
    rw [h1, ← Complex.ofReal_mul, Real.mul_self_sqrt (by linarith), one_div, inv_mul_cancel₀]
    exact Complex.ofReal_ne_zero.2 (by linarith)
  · rw [mul_zero]

/-- **C99 (non-negative).** If the inverse permittivity matrices are positive semidefinite, no eigenvalue of the matrix of
the expansion is negative, so the absolute value in the frequency has no effect. -/
theorem C99_nonnegative (e0 eN : ℝ) (ls : List (ℝ × ℝ)) (n N : ℕ) (b : ℕ → SlabBasis)
    (hb : GuidedBasis e0 eN ls n N b) (einv : List (ℕ → ℕ → ℂ))
    (hlen : einv.length = (slabStack e0 eN ls).length) (hE : ∀ e ∈ einv, ∀ i j, conj (e j i) = e i j)
    (hpos : ∀ e ∈ einv, ∀ x : ℕ → ℂ,
      0 ≤ (∑ i ∈ Finset.range N, ∑ j ∈ Finset.range N, conj (x i) * e i j * x j).re)
    (blk : ℕ → ℕ) (hblk : ∀ i j, i ≤ j → blk i ≤ blk j) (V : Matrix (Fin n) (Fin n) ℂ) (w : Fin n → ℝ)
    (hV : IsEigh (exactMat n e0 eN ls b (fun i j => einv.map fun e => e (b i).ig (b j).ig) blk + 1) w V)
    (p : Fin n) : 0 ≤ w p - 1 := by
  classical
  have hd : Dual (1, 0) (0, 1) (2 * Real.pi, 0) (0, 2 * Real.pi) := ⟨by simp, by simp, by simp, by simp⟩
  have hm : ∀ i < N, ∀ j < N, ((i : ℤ), (0 : ℤ)) = ((j : ℤ), (0 : ℤ)) → i = j := fun i _ j _ h => by
    simpa using h
  have key := C99_electric e0 eN ls n N b hb _ _ _ _ hd (fun G => ((G : ℤ), 0)) hm einv hlen hE blk hblk 1 1
    (fun i => V i p) fun i => V i p
  set M := exactMat n e0 eN ls b (fun i j => einv.map fun e => e (b i).ig (b j).ig) blk
  have hMV : ∀ i, ∑ i', M i i' * V i' p = V i p * ((w p - 1 : ℝ) : ℂ) := by
    intro i
    have h := congrFun (congrFun hV.eigen i) p
    rw [Matrix.add_mul, Matrix.one_mul, Matrix.add_apply, Matrix.mul_apply, Matrix.mul_diagonal] at h
    push_cast
    linear_combination h
  have hsum : ∑ i, ∑ i', conj (V i p) * M i i' * V i' p = ((w p - 1 : ℝ) : ℂ) := by
    have h1 : ∀ i, ∑ i', conj (V i p) * M i i' * V i' p = conj (V i p) * V i p * ((w p - 1 : ℝ) : ℂ) := by
      intro i
      rw [mul_assoc, ← hMV i, Finset.mul_sum]
      exact Finset.sum_congr rfl fun i' _ => by ring
    simp only [h1]
    rw [← Finset.sum_mul]
    have := congrFun (congrFun hV.unitary p) p
    rw [Matrix.mul_apply, Matrix.one_apply, if_pos rfl] at this
    have h3 : ∑ i, conj (V i p) * V i p = 1 := this
    rw [h3, one_mul]
  rw [hsum] at key
  have hre : (0 : ℝ) ≤ (fieldOverlap ((1, 0) : ℝ × ℝ) (0, 1) (slabStack e0 eN ls)
      (eField (cellArea (1, 0) (0, 1)) 1 (slabStack e0 eN ls) einv N
        (fun G => latVec (2 * Real.pi, 0) (0, 2 * Real.pi) ((G : ℤ), 0)) (fieldBasis e0 eN ls n b) fun i => V i p)
      (dField (cellArea (1, 0) (0, 1)) 1 (slabStack e0 eN ls) N
        (fun G => latVec (2 * Real.pi, 0) (0, 2 * Real.pi) ((G : ℤ), 0)) (fieldBasis e0 eN ls n b)
        fun i => V i p)).re := by
    unfold fieldOverlap
    rw [Complex.re_sum]
    refine Finset.sum_nonneg fun j _ => ?_
    have hj : einv.getD j (fun _ _ => 0) ∈ einv := by
      rw [getD_get einv _ (by rw [hlen]; exact j.2)]
      exact List.getElem_mem _
    have pt : ∀ z : ℝ, (0 : ℝ) ≤ ((cellArea (1, 0) (0, 1) : ℂ) * cellMean (1, 0) (0, 1) (fun x y => ∑ c,
        conj (eField (cellArea (1, 0) (0, 1)) 1 (slabStack e0 eN ls) einv N
          (fun G => latVec (2 * Real.pi, 0) (0, 2 * Real.pi) ((G : ℤ), 0)) (fieldBasis e0 eN ls n b)
          (fun i => V i p) j z x y c) *
        dField (cellArea (1, 0) (0, 1)) 1 (slabStack e0 eN ls) N
          (fun G => latVec (2 * Real.pi, 0) (0, 2 * Real.pi) ((G : ℤ), 0)) (fieldBasis e0 eN ls n b)
          (fun i => V i p) j z x y c)).re := by
      intro z
      unfold eField dField
      rw [cellMean_fields N _ _ _ _ _ _ hd (fun G => ((G : ℤ), 0)) hm
        fun i hi j hj h => hm i hi j hj (dual_inj hd h), Complex.re_ofReal_mul]
      refine mul_nonneg (dual_area hd).le ?_
      rw [Finset.sum_comm, Complex.re_sum]
      refine Finset.sum_nonneg fun c _ => ?_
      refine (hpos _ hj fun G => dFt (cellArea (1, 0) (0, 1)) 1 ((slabStack e0 eN ls).getD j (.upper, 0)).1
        ((slabStack e0 eN ls).getD j (.upper, 0)).2 (fieldStates (fieldBasis e0 eN ls n b) (fun i => V i p) j)
        G z c).trans_eq ?_
      congr 1
      rw [Finset.sum_comm]
      refine Finset.sum_congr rfl fun G _ => ?_
      unfold eFt
      rw [map_sum, Finset.sum_mul]
      refine Finset.sum_congr rfl fun G' _ => ?_
      rw [map_mul, hE _ hj G' G]
      ring
    by_cases hi : Integrable (fun z : ℝ => (cellArea (1, 0) (0, 1) : ℂ) * cellMean (1, 0) (0, 1) (fun x y => ∑ c,
        conj (eField (cellArea (1, 0) (0, 1)) 1 (slabStack e0 eN ls) einv N
          (fun G => latVec (2 * Real.pi, 0) (0, 2 * Real.pi) ((G : ℤ), 0)) (fieldBasis e0 eN ls n b)
          (fun i => V i p) j z x y c) *
        dField (cellArea (1, 0) (0, 1)) 1 (slabStack e0 eN ls) N
          (fun G => latVec (2 * Real.pi, 0) (0, 2 * Real.pi) ((G : ℤ), 0)) (fieldBasis e0 eN ls n b)
          (fun i => V i p) j z x y c)) (layMeasure (slabStack e0 eN ls)[j].1)
    · have h1 := integral_re hi
      refine (integral_nonneg (fun z => pt z)).trans_eq h1
    · rw [integral_undef hi]
      simp
  rw [key] at hre
  simpa using hre

/-! ### Examples -/

/-- A slab on a square lattice of constant `3/2` at `k = (2π/3, 2π/3)`: a guided mode at `G = 0` and at
`G = (-4π/3, 0)`. -/
theorem example_basis : ∃ abs, GuidedBasis 1 1 [(9 / 5, 2)] 2 2 (fun i => if i = 0 then
    ⟨0, 2 * Real.pi / 3, 2 * Real.pi / 3, .te, √5 * Real.pi / 3, abs⟩ else
    ⟨1, -(2 * Real.pi / 3), 2 * Real.pi / 3, .te, √5 * Real.pi / 3, abs⟩) := by
  obtain ⟨⟨abs, h⟩, -⟩ := example_roots
  refine ⟨abs, ⟨by simp, by simp, one_ne_zero, one_ne_zero, by simp, ?_, ?_, ?_, ?_, ?_⟩⟩
  · intro i _
    split
    · exact (Real.sqrt_pos.2 (by positivity)).ne'
    · simp only [neg_sq]
      exact (Real.sqrt_pos.2 (by positivity)).ne'
  · intro i _
    split
    · exact h
    · simp only [neg_sq]
      exact h
  · intro i _; split <;> simp
  · intro i hi j hj h
    interval_cases i <;> interval_cases j <;> simp_all
  · intro i hi j hj hij h
    interval_cases i <;> interval_cases j <;> simp_all

example (u v : Fin 2 → ℂ) : ∃ b, fieldOverlap (3 / 2, 0) (0, 3 / 2) (slabStack 1 1 [(9 / 5, 2)])
      (hField (cellArea (3 / 2, 0) (0, 3 / 2)) (slabStack 1 1 [(9 / 5, 2)]) 2
        (fun G => latVec (4 * Real.pi / 3, 0) (0, 4 * Real.pi / 3) (if G = 0 then (0, 0) else (-1, 0)))
        (fieldBasis 1 1 [(9 / 5, 2)] 2 b) u)
      (hField (cellArea (3 / 2, 0) (0, 3 / 2)) (slabStack 1 1 [(9 / 5, 2)]) 2
        (fun G => latVec (4 * Real.pi / 3, 0) (0, 4 * Real.pi / 3) (if G = 0 then (0, 0) else (-1, 0)))
        (fieldBasis 1 1 [(9 / 5, 2)] 2 b) v) = conj (u 0) * v 0 + conj (u 1) * v 1 := by
  obtain ⟨abs, h⟩ := example_basis
  refine ⟨_, (C99_magnetic 1 1 [(9 / 5, 2)] 2 2 _ h (3 / 2, 0) (0, 3 / 2) (4 * Real.pi / 3, 0) (0, 4 * Real.pi / 3)
    ⟨by ring, by simp, by simp, by ring⟩ (fun G => if G = 0 then (0, 0) else (-1, 0)) ?_ u v).trans ?_⟩
  · intro i hi j hj h
    interval_cases i <;> interval_cases j <;> simp_all
  · rw [Fin.sum_univ_two]

/-- A patterned slab: the two plane waves are coupled in the middle layer. -/
example (u v : Fin 2 → ℂ) : ∃ b, fieldOverlap (3 / 2, 0) (0, 3 / 2) (slabStack 1 1 [(9 / 5, 2)])
      (eField (cellArea (3 / 2, 0) (0, 3 / 2)) 2 (slabStack 1 1 [(9 / 5, 2)])
        [fun i j => if i = j then 1 else 0, fun i j => if i = j then 5 / 9 else 1 / 10, fun i j => if i = j then 1 else 0]
        2 (fun G => latVec (4 * Real.pi / 3, 0) (0, 4 * Real.pi / 3) (if G = 0 then (0, 0) else (-1, 0)))
        (fieldBasis 1 1 [(9 / 5, 2)] 2 b) u)
      (dField (cellArea (3 / 2, 0) (0, 3 / 2)) 3 (slabStack 1 1 [(9 / 5, 2)]) 2
        (fun G => latVec (4 * Real.pi / 3, 0) (0, 4 * Real.pi / 3) (if G = 0 then (0, 0) else (-1, 0)))
        (fieldBasis 1 1 [(9 / 5, 2)] 2 b) v) =
      1 / ((2 : ℝ) * (3 : ℝ) : ℂ) * ∑ i, ∑ i', conj (u i) * exactMat 2 1 1 [(9 / 5, 2)] b (fun i j =>
        [fun i j => if i = j then 1 else 0, fun i j => if i = j then 5 / 9 else 1 / 10,
          fun i j => if i = j then (1 : ℂ) else 0].map fun e => e (b i).ig (b j).ig) id i i' * v i' := by
  obtain ⟨abs, h⟩ := example_basis
  refine ⟨_, C99_electric 1 1 [(9 / 5, 2)] 2 2 _ h (3 / 2, 0) (0, 3 / 2) (4 * Real.pi / 3, 0) (0, 4 * Real.pi / 3)
    ⟨by ring, by simp, by simp, by ring⟩ (fun G => if G = 0 then (0, 0) else (-1, 0)) ?_
    [fun i j => if i = j then 1 else 0, fun i j => if i = j then 5 / 9 else 1 / 10, fun i j => if i = j then 1 else 0]
    rfl ?_ id (fun _ _ h => h) 2 3 u v⟩
  · intro i hi j hj h
    interval_cases i <;> interval_cases j <;> simp_all
  · intro e he i j
    simp only [List.mem_cons, List.not_mem_nil, or_false] at he
    have h5 : conj (5 / 9 : ℂ) = 5 / 9 := by rw [map_div₀, map_ofNat, map_ofNat]
    have h1 : conj (1 / 10 : ℂ) = 1 / 10 := by rw [map_div₀, map_ofNat, map_one]
    rcases he with rfl | rfl | rfl <;> by_cases hij : i = j
    · simp [hij]
    · simp [hij, Ne.symm hij]
    · simp only [hij, if_true, h5]
    · simp only [hij, Ne.symm hij, if_false, h1]
    · simp [hij]
    · simp [hij, Ne.symm hij]

/-- The unpatterned slab with one mode: the energy theorem applies with the frequency of the guided mode. -/
example : ∃ b, fieldOverlap (3 / 2, 0) (0, 3 / 2) (slabStack 1 1 [(9 / 5, 2)])
      (eField (cellArea (3 / 2, 0) (0, 3 / 2)) (2 * Real.pi * freqOf ((√5 * Real.pi / 3) ^ 2 + 1))
        (slabStack 1 1 [(9 / 5, 2)]) [fun _ _ => 1, fun _ _ => 5 / 9, fun _ _ => 1]
        1 (fun _ => latVec (4 * Real.pi / 3, 0) (0, 4 * Real.pi / 3) (0, 0))
        (fieldBasis 1 1 [(9 / 5, 2)] 1 b) fun _ => 1)
      (dField (cellArea (3 / 2, 0) (0, 3 / 2)) (2 * Real.pi * freqOf ((√5 * Real.pi / 3) ^ 2 + 1))
        (slabStack 1 1 [(9 / 5, 2)]) 1 (fun _ => latVec (4 * Real.pi / 3, 0) (0, 4 * Real.pi / 3) (0, 0))
        (fieldBasis 1 1 [(9 / 5, 2)] 1 b) fun _ => 1) = 1 := by
  obtain ⟨⟨abs, h⟩, -⟩ := example_roots
  have hg : √((2 * Real.pi / 3) ^ 2 + (2 * Real.pi / 3) ^ 2) ≠ 0 := (Real.sqrt_pos.2 (by positivity)).ne'
  have hb : GuidedBasis 1 1 [(9 / 5, 2)] 1 1 fun _ =>
      ⟨0, 2 * Real.pi / 3, 2 * Real.pi / 3, .te, √5 * Real.pi / 3, abs⟩ :=
    ⟨by simp, by simp, one_ne_zero, one_ne_zero, by simp, fun _ _ => hg, fun _ _ => h, by simp, by simp,
      fun i hi j hj hij => absurd (by omega) hij⟩
  have h5 : conj (5 / 9 : ℂ) = 5 / 9 := by rw [map_div₀, map_ofNat, map_ofNat]
  have hM : exactMat 1 1 1 [(9 / 5, 2)] (fun _ => ⟨0, 2 * Real.pi / 3, 2 * Real.pi / 3, .te, √5 * Real.pi / 3, abs⟩)
      (fun i j => ([fun _ _ => 1, fun _ _ => 5 / 9, fun _ _ => 1] : List (ℕ → ℕ → ℂ)).map fun e => e 0 0) id =
      Matrix.diagonal fun _ => (((√5 * Real.pi / 3) ^ 2 : ℝ) : ℂ) := by
    ext i j
    obtain rfl : i = 0 := Subsingleton.elim _ _
    obtain rfl : j = 0 := Subsingleton.elim _ _
    have hc := (C93_elements (2 * Real.pi / 3) (2 * Real.pi / 3) 1 1 [(9 / 5, 2)] (by simp) (by simp) one_ne_zero
      one_ne_zero (by simp) hg .te .te _ _ abs abs h h).1
    unfold exactMat
    rw [Matrix.of_apply, C29_blocks id (fun _ _ h => h), Matrix.diagonal_apply_eq]
    simp only [completeMat, Fin.val_zero, lt_irrefl, if_false, if_true, map_zero, zero_add]
    have hs : ((slabStack 1 1 [(9 / 5, 2)]).map fun p => 1 / (p.2 : ℂ)) =
        ([fun _ _ => 1, fun _ _ => 5 / 9, fun _ _ => 1] : List (ℕ → ℕ → ℂ)).map fun e => e 0 0 := by
      simp [slabStack]
    rw [hs] at hc
    unfold SlabBasis.state
    rw [hc, Complex.ofReal_re]
  refine ⟨_, (C99_energy 1 1 [(9 / 5, 2)] 1 1 _ hb (3 / 2, 0) (0, 3 / 2) (4 * Real.pi / 3, 0) (0, 4 * Real.pi / 3)
    ⟨by ring, by simp, by simp, by ring⟩ (fun _ => (0, 0)) (fun i hi j hj _ => by omega)
    [fun _ _ => 1, fun _ _ => 5 / 9, fun _ _ => 1] rfl ?_ id (fun _ _ h => h) 1
    (fun _ => (√5 * Real.pi / 3) ^ 2 + 1) ⟨by simp, ?_⟩ 0 0 ?_ ?_).trans (if_pos rfl)⟩
  · intro e he i j
    simp only [List.mem_cons, List.not_mem_nil, or_false] at he
    rcases he with rfl | rfl | rfl
    · simp
    · exact h5
    · simp
  · rw [hM, mul_one, one_mul]
    ext i j
    obtain rfl : i = 0 := Subsingleton.elim _ _
    obtain rfl : j = 0 := Subsingleton.elim _ _
    simp
  · have := Real.pi_pos
    have : 0 < (√5 * Real.pi / 3) ^ 2 := by positivity
    linarith
  · have := Real.pi_pos
    have : 0 < (√5 * Real.pi / 3) ^ 2 := by positivity
    linarith

end Legume
