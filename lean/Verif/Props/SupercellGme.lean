import Verif.Props.Supercell
import Verif.Props.PrimVecs
import Verif.Props.ScaleUnits
import Verif.Props.GmeOrder

/-! # C138: supercells in `GuidedModeExp` -/
namespace Legume

open Matrix Spec
open scoped Real

/-- A layer and the same layer in the supercell. -/
structure SuperLay (N1 N2 : ℕ) (a1 a2 : R2) (l l' : GmeLay) : Prop where
  pos : l'.pos = l.pos
  epsB : l'.epsB = l.epsB
  epsAvg : l'.epsAvg = l.epsAvg
  epsEff : l'.epsEff = l.epsEff
  shapes : Copies N1 N2 a1 a2 l.shapes l'.shapes

/-- A structure described by a supercell of `N1` by `N2` cells. -/
structure SuperStruct (N1 N2 : ℕ) (a1 a2 : R2) (S S' : GmeStruct) : Prop where
  n1 : 0 < N1
  n2 : 0 < N2
  recip : Reciprocal a1 a2 S.b1 S.b2
  b1 : NthPart N1 S.b1 S'.b1
  b2 : NthPart N2 S.b2 S'.b2
  area : S'.ecArea = N1 * N2 * S.ecArea
  layers : List.Forall₂ (SuperLay N1 N2 a1 a2) S.layers S'.layers

theorem copies_nil {N1 N2 : ℕ} {a1 a2 : R2} {shapes : List FShape} (h : Copies N1 N2 a1 a2 [] shapes) : shapes = [] := by
  obtain ⟨c, hc, hp⟩ := h
  have : ((List.range N1).flatMap fun m => (List.range N2).flatMap fun n => c m n) = [] := by
    rw [List.flatMap_eq_nil_iff]
    intro m hm
    rw [List.flatMap_eq_nil_iff]
    intro n hn
    exact List.forall₂_nil_left_iff.1 (hc m (List.mem_range.1 hm) n (List.mem_range.1 hn))
  rw [this] at hp
  exact hp.eq_nil

/-- The plane waves of the cell among those of the supercell: an injection onto those whose indices are multiples. -/
structure WaveMap (N1 N2 : ℕ) (S S' : GmeStruct) (gmax : ℝ)
    (f : Fin (S.gvec gmax).length → Fin (S'.gvec gmax).length) : Prop where
  mono : StrictMono f
  same : ∀ i, (S'.gvec gmax)[f i] = (S.gvec gmax)[i]
  other : ∀ j, j ∉ Set.range f → ∃ m n : ℤ, (S'.gvec gmax)[j] = gOf S'.b1 S'.b2 (m, n) ∧ ¬ ((N1 : ℤ) ∣ m ∧ (N2 : ℤ) ∣ n)

theorem comb_gOf (b1 b2 : R2) (m n : ℤ) : comb b1 b2 m n = gOf b1 b2 (m, n) := by
  simp only [comb, gOf, Prod.mk.injEq]
  constructor <;> ring

theorem superStruct_g {N1 N2 : ℕ} {a1 a2 : R2} {S S' : GmeStruct} (h : SuperStruct N1 N2 a1 a2 S S') (m n : ℤ) :
    gOf S'.b1 S'.b2 (N1 * m, N2 * n) = gOf S.b1 S.b2 (m, n) := by
  have e1 := h.b1
  have e2 := h.b2
  unfold NthPart at e1 e2
  rw [e1, e2]
  simp only [gOf, Prod.mk.injEq]
  push_cast
  constructor <;> ring

theorem superStruct_det {N1 N2 : ℕ} {a1 a2 : R2} {S S' : GmeStruct} (h : SuperStruct N1 N2 a1 a2 S S') :
    S.b1.1 * S.b2.2 - S.b1.2 * S.b2.1 = N1 * N2 * (S'.b1.1 * S'.b2.2 - S'.b1.2 * S'.b2.1) := by
  have e1 := h.b1
  have e2 := h.b2
  unfold NthPart at e1 e2
  rw [e1, e2]
  ring

theorem nthPart_norm {N : ℕ} {b b' : R2} (h : NthPart N b b') : √(b.1 ^ 2 + b.2 ^ 2) = N * √(b'.1 ^ 2 + b'.2 ^ 2) := by
  rw [h]
  have hN0 : (0 : ℝ) ≤ N := Nat.cast_nonneg N
  simp only
  rw [show ((N : ℝ) * b'.1) ^ 2 + (N * b'.2) ^ 2 = (N : ℝ) ^ 2 * (b'.1 ^ 2 + b'.2 ^ 2) by ring,
    Real.sqrt_mul (sq_nonneg _), Real.sqrt_sq hN0]

/-- Order of the indices: by the first one, then by the second one. -/
def lexLt (i j : ℤ × ℤ) : Prop := i.1 < j.1 ∨ (i.1 = j.1 ∧ i.2 < j.2)

theorem symRange_lt (n : ℕ) : (symRange n).Pairwise (· < ·) := by
  unfold symRange
  rw [List.pairwise_map]
  refine List.pairwise_lt_range.imp ?_
  intro a b h
  omega

theorem tbtInds_lex (n1 n2 : ℕ) : (tbtInds n1 n2).Pairwise lexLt := by
  unfold tbtInds
  rw [List.pairwise_flatMap]
  refine ⟨fun i _ => ?_, (symRange_lt n1).imp ?_⟩
  · rw [List.pairwise_map]
    exact (symRange_lt n2).imp fun h => Or.inr ⟨rfl, h⟩
  · intro i j hij a ha b hb
    obtain ⟨x, -, rfl⟩ := List.mem_map.1 ha
    obtain ⟨y, -, rfl⟩ := List.mem_map.1 hb
    exact Or.inl hij

theorem gvec_lex (S : GmeStruct) (gmax : ℝ) (i j : Fin (S.gvec gmax).length) (hij : i < j) :
    ∃ m n m' n' : ℤ, (S.gvec gmax)[i] = gOf S.b1 S.b2 (m, n) ∧ (S.gvec gmax)[j] = gOf S.b1 S.b2 (m', n') ∧
      lexLt (m, n) (m', n') := by
  have hN : (absInds S.b1 S.b2 gmax).length = (S.gvec gmax).length := by simp [GmeStruct.gvec]
  have hp : (absInds S.b1 S.b2 gmax).Pairwise lexLt := (tbtInds_lex _ _).filter _
  have hi : (i : ℕ) < (absInds S.b1 S.b2 gmax).length := by rw [hN]; exact i.2
  have hj : (j : ℕ) < (absInds S.b1 S.b2 gmax).length := by rw [hN]; exact j.2
  exact ⟨_, _, _, _, List.getElem_map (gOf S.b1 S.b2), List.getElem_map (gOf S.b1 S.b2),
    List.pairwise_iff_getElem.1 hp i j hi hj hij⟩

theorem superStruct_waves {N1 N2 : ℕ} {a1 a2 : R2} {S S' : GmeStruct} (h : SuperStruct N1 N2 a1 a2 S S') {gmax d : ℝ}
    (hg : 0 ≤ gmax) (hdet : S'.b1.1 * S'.b2.2 - S'.b1.2 * S'.b2.1 ≠ 0) (ho : NotOblique S'.b1 S'.b2)
    (hw : (absWindow S.b1 S.b2 gmax).length * (1e-10 : ℝ) ≤ d)
    (hw' : (absWindow S'.b1 S'.b2 gmax).length * (1e-10 : ℝ) ≤ d)
    (hgap : ∀ m n : ℤ, norm2 (comb S'.b1 S'.b2 m n) ≤ 2 * π * gmax ∨ 2 * π * (gmax + d) < norm2 (comb S'.b1 S'.b2 m n)) :
    ∃ f, WaveMap N1 N2 S S' gmax f := by
  have p1 : (0 : ℝ) < N1 := by exact_mod_cast h.n1
  have p2 : (0 : ℝ) < N2 := by exact_mod_cast h.n2
  have hdet0 : S.b1.1 * S.b2.2 - S.b1.2 * S.b2.1 ≠ 0 := by
    rw [superStruct_det h]
    positivity
  have ho0 : NotOblique S.b1 S.b2 := by
    unfold NotOblique at ho ⊢
    rw [superStruct_det h, nthPart_norm h.b1, nthPart_norm h.b2, abs_mul, abs_of_pos (by positivity : (0 : ℝ) < N1 * N2)]
    nlinarith [mul_pos p1 p2]
  have hgap0 : ∀ m n : ℤ, norm2 (comb S.b1 S.b2 m n) ≤ 2 * π * gmax ∨ 2 * π * (gmax + d) < norm2 (comb S.b1 S.b2 m n) := by
    intro m n
    have := hgap (N1 * m) (N2 * n)
    rwa [comb_gOf, superStruct_g h, ← comb_gOf] at this
  have m1 := gvec_disc hg hdet0 ho0 hw hgap0
  have m2 := gvec_disc hg hdet ho hw' hgap
  have nd : (S.gvec gmax).Nodup := (C18_sound S.b1 S.b2 gmax).1 hdet0
  have nd' : (S'.gvec gmax).Nodup := (C18_sound S'.b1 S'.b2 gmax).1 hdet
  have ex : ∀ i : Fin (S.gvec gmax).length, ∃ j : Fin (S'.gvec gmax).length, (S'.gvec gmax)[j] = (S.gvec gmax)[i] := by
    intro i
    obtain ⟨⟨m, n, e⟩, hl⟩ := (m1 _).1 (List.getElem_mem i.2)
    have : (S.gvec gmax)[i] ∈ gvecAbs S'.b1 S'.b2 gmax := by
      refine (m2 _).2 ⟨⟨N1 * m, N2 * n, ?_⟩, hl⟩
      rw [comb_gOf, superStruct_g h, ← comb_gOf]
      exact e
    obtain ⟨j, hj, e'⟩ := List.mem_iff_getElem.1 this
    exact ⟨⟨j, hj⟩, e'⟩
  choose f hf using ex
  refine ⟨f, fun i j hij => ?_, hf, fun j hj => ?_⟩
  · have hlex := gvec_lex S gmax i j hij
    by_contra hc
    rcases eq_or_lt_of_le (not_lt.1 hc) with e | hlt
    · have : (S.gvec gmax)[i] = (S.gvec gmax)[j] := by
        rw [← hf i, ← hf j]
        simp only [Fin.getElem_fin, e]
      exact hij.ne (Fin.ext ((nd.getElem_inj_iff).1 this))
    · obtain ⟨m, n, m', n', e1, e2, hl⟩ := gvec_lex S' gmax (f j) (f i) hlt
      obtain ⟨p, q, p', q', e1', e2', hl'⟩ := hlex
      rw [hf, e2', ← superStruct_g h] at e1
      rw [hf, e1', ← superStruct_g h] at e2
      have i1 := gOf_inj _ _ hdet e1
      have i2 := gOf_inj _ _ hdet e2
      simp only [Prod.mk.injEq] at i1 i2
      rw [← i1.1, ← i1.2, ← i2.1, ← i2.2] at hl
      have z1 : (0 : ℤ) < N1 := by exact_mod_cast h.n1
      have z2 : (0 : ℤ) < N2 := by exact_mod_cast h.n2
      rcases hl with hl | ⟨hl, hl2⟩ <;> rcases hl' with hl' | ⟨hl', hl2'⟩
      · have := (mul_lt_mul_iff_right₀ z1).1 hl
        omega
      · have := (mul_lt_mul_iff_right₀ z1).1 hl
        omega
      · have := mul_left_cancel₀ z1.ne' hl
        omega
      · have := (mul_lt_mul_iff_right₀ z2).1 hl2
        omega
  · obtain ⟨⟨m, n, e⟩, hl⟩ := (m2 _).1 (List.getElem_mem j.2)
    refine ⟨m, n, e.trans (comb_gOf _ _ _ _), ?_⟩
    rintro ⟨⟨m', rfl⟩, ⟨n', rfl⟩⟩
    apply hj
    have hm : (S'.gvec gmax)[j] ∈ gvecAbs S.b1 S.b2 gmax := by
      refine (m1 _).2 ⟨⟨m', n', ?_⟩, hl⟩
      rw [comb_gOf, ← superStruct_g h, ← comb_gOf]
      exact e
    obtain ⟨i, hi, e'⟩ := List.mem_iff_getElem.1 hm
    refine ⟨⟨i, hi⟩, ?_⟩
    have := (hf ⟨i, hi⟩).trans e'
    exact Fin.ext ((nd'.getElem_inj_iff).1 this)

theorem superStruct_ft {N1 N2 : ℕ} {a1 a2 : R2} {S S' : GmeStruct} (h : SuperStruct N1 N2 a1 a2 S S')
    (hL : Resolved S'.b1 S'.b2) {l l' : GmeLay} (hl : SuperLay N1 N2 a1 a2 l l') (m n : ℤ) :
    S'.ft l' (gOf S'.b1 S'.b2 (m, n)) = if (N1 : ℤ) ∣ m ∧ (N2 : ℤ) ∣ n then S.ft l (gOf S'.b1 S'.b2 (m, n)) else 0 := by
  unfold GmeStruct.ft
  rw [h.area, hl.epsB, hl.epsAvg]
  exact layerFt_super _ _ _ N1 N2 h.n1 h.n2 a1 a2 _ _ _ _ h.recip h.b1 h.b2 hL _ _ hl.shapes (m, n)

theorem gvec_index (S : GmeStruct) (gmax : ℝ) (i : Fin (S.gvec gmax).length) :
    ∃ m n : ℤ, (S.gvec gmax)[i] = gOf S.b1 S.b2 (m, n) := by
  have hN : (absInds S.b1 S.b2 gmax).length = (S.gvec gmax).length := by simp [GmeStruct.gvec]
  exact ⟨_, _, List.getElem_map (gOf S.b1 S.b2)⟩

theorem gOf_minus (b1 b2 : R2) (m n m' n' : ℤ) : gOf b1 b2 (m, n) - gOf b1 b2 (m', n') = gOf b1 b2 (m - m', n - n') := by
  simp only [gOf, Prod.mk_sub_mk, Prod.mk.injEq]
  push_cast
  constructor <;> ring

theorem superStruct_eps {N1 N2 : ℕ} {a1 a2 : R2} {S S' : GmeStruct} (h : SuperStruct N1 N2 a1 a2 S S')
    (hL : Resolved S'.b1 S'.b2) {l l' : GmeLay} (hl : SuperLay N1 N2 a1 a2 l l') (hr : ∀ s ∈ l.shapes, RealShape s)
    (hr' : ∀ s ∈ l'.shapes, RealShape s) {gmax : ℝ} {f} (hf : WaveMap N1 N2 S S' gmax f) :
    BlockIn f (S.epsMat gmax l) (S'.epsMat gmax l') := by
  have sub : ∀ i : Fin (S.gvec gmax).length, ∃ m n : ℤ, (S'.gvec gmax)[f i] = gOf S'.b1 S'.b2 (N1 * m, N2 * n) := by
    intro i
    obtain ⟨m, n, e⟩ := gvec_index S gmax i
    exact ⟨m, n, by rw [hf.same, e, superStruct_g h]⟩
  refine ⟨fun i j => ?_, fun i j hj => ?_, fun i j hj => ?_⟩
  · rw [gme_entry_diff S' l' hr', gme_entry_diff S l hr]
    obtain ⟨m, n, e⟩ := sub i
    obtain ⟨m', n', e'⟩ := sub j
    rw [← hf.same, ← hf.same, e, e', gOf_minus, superStruct_ft h hL hl, if_pos]
    exact ⟨⟨m' - m, by ring⟩, ⟨n' - n, by ring⟩⟩
  · rw [gme_entry_diff S' l' hr']
    obtain ⟨m, n, e⟩ := sub i
    obtain ⟨m', n', e', hn⟩ := hf.other j hj
    rw [e, e', gOf_minus, superStruct_ft h hL hl, if_neg]
    rintro ⟨d1, d2⟩
    exact hn ⟨(dvd_sub_left (Dvd.intro _ rfl)).1 d1, (dvd_sub_left (Dvd.intro _ rfl)).1 d2⟩
  · rw [gme_entry_diff S' l' hr']
    obtain ⟨m, n, e⟩ := sub i
    obtain ⟨m', n', e', hn⟩ := hf.other j hj
    rw [e, e', gOf_minus, superStruct_ft h hL hl, if_neg]
    rintro ⟨d1, d2⟩
    exact hn ⟨(dvd_sub_right (Dvd.intro _ rfl)).1 d1, (dvd_sub_right (Dvd.intro _ rfl)).1 d2⟩

theorem smul_one_block {n n' : ℕ} {f : Fin n → Fin n'} (hf : Function.Injective f) (c : ℂ) :
    BlockIn f (c • (1 : Matrix (Fin n) (Fin n) ℂ)) (c • (1 : Matrix (Fin n') (Fin n') ℂ)) := by
  refine ⟨fun i j => ?_, fun i j hj => ?_, fun i j hj => ?_⟩
  · simp only [Matrix.smul_apply, one_apply, hf.eq_iff]
  · have hne : f i ≠ j := fun e => hj ⟨i, e⟩
    simp only [Matrix.smul_apply, one_apply, if_neg hne, smul_zero]
  · have hne : j ≠ f i := fun e => hj ⟨i, e.symm⟩
    simp only [Matrix.smul_apply, one_apply, if_neg hne, smul_zero]

/-- The test for a homogeneous layer has the same outcome in the supercell if the layer has no shapes or is clearly
patterned. -/
theorem superStruct_hom {N1 N2 : ℕ} {a1 a2 : R2} {S S' : GmeStruct} (h : SuperStruct N1 N2 a1 a2 S S')
    (hL : Resolved S'.b1 S'.b2) {l l' : GmeLay} (hl : SuperLay N1 N2 a1 a2 l l') (hr : ∀ s ∈ l.shapes, RealShape s)
    (hr' : ∀ s ∈ l'.shapes, RealShape s) {gmax : ℝ} {f} (hf : WaveMap N1 N2 S S' gmax f)
    (hp : homAbs (S.ft l) S.b1 S.b2 (absInds S.b1 S.b2 gmax) → l.shapes = []) :
    homAbs (S'.ft l') S'.b1 S'.b2 (absInds S'.b1 S'.b2 gmax) ↔ homAbs (S.ft l) S.b1 S.b2 (absInds S.b1 S.b2 gmax) := by
  classical
  constructor
  · intro h1
    rw [homAbs_gvec] at h1 ⊢
    refine lt_of_le_of_lt ?_ h1
    have hb := superStruct_eps h hL hl hr hr' hf
    have nn : ∀ i j : Fin (S'.gvec gmax).length, (0 : ℝ) ≤
        if 1e-10 < norm2 ((S'.gvec gmax)[j] - (S'.gvec gmax)[i]) then ‖S'.epsMat gmax l' i j‖ else 0 := by
      intro i j
      split_ifs
      · exact norm_nonneg _
      · exact le_refl _
    calc _ ≤ ∑ i : Fin (S.gvec gmax).length, ∑ j : Fin (S'.gvec gmax).length,
          (if 1e-10 < norm2 ((S'.gvec gmax)[j] - (S'.gvec gmax)[f i]) then ‖S'.epsMat gmax l' (f i) j‖ else 0) := by
          refine Finset.sum_le_sum fun i _ => ?_
          refine le_trans (le_of_eq ?_) (Finset.sum_le_univ_sum_of_nonneg (s := Finset.univ.map ⟨f, hf.mono.injective⟩) fun j => nn _ j)
          rw [Finset.sum_map]
          refine Finset.sum_congr rfl fun j _ => ?_
          simp only [Function.Embedding.coeFn_mk, hf.same, hb.entry]
      _ ≤ _ := by
          refine le_trans (le_of_eq ?_) (Finset.sum_le_univ_sum_of_nonneg (s := Finset.univ.map ⟨f, hf.mono.injective⟩)
            fun i => Finset.sum_nonneg fun j _ => nn i j)
          rw [Finset.sum_map]
          rfl
  · intro h1
    have e := hp h1
    have hc := hl.shapes
    rw [e] at hc
    exact hom_plain S' hL gmax l' (copies_nil hc)

theorem superStruct_inv {N1 N2 : ℕ} {a1 a2 : R2} {S S' : GmeStruct} (h : SuperStruct N1 N2 a1 a2 S S')
    (hL : Resolved S'.b1 S'.b2) {l l' : GmeLay} (hl : SuperLay N1 N2 a1 a2 l l') (hr : ∀ s ∈ l.shapes, RealShape s)
    (hr' : ∀ s ∈ l'.shapes, RealShape s) {gmax : ℝ} {f} (hf : WaveMap N1 N2 S S' gmax f)
    (hp : homAbs (S.ft l) S.b1 S.b2 (absInds S.b1 S.b2 gmax) → l.shapes = []) (onlyG : Bool) (E')
    (hE' : S'.epsInv gmax onlyG l' = .ok E') : ∃ E, S.epsInv gmax onlyG l = .ok E ∧ BlockIn f E E' := by
  classical
  have hb := superStruct_eps h hL hl hr hr' hf
  unfold GmeStruct.epsInv at hE' ⊢
  simp only [superStruct_hom h hL hl hr hr' hf hp] at hE'
  by_cases c1 : homAbs (S.ft l) S.b1 S.b2 (absInds S.b1 S.b2 gmax) ∨ onlyG = true
  · rw [if_pos c1] at hE' ⊢
    cases hE'
    refine ⟨_, rfl, ?_⟩
    rcases Nat.eq_zero_or_pos (S.gvec gmax).length with h0 | h0
    · have : IsEmpty (Fin (S.gvec gmax).length) := by rw [h0]; infer_instance
      exact ⟨fun i => isEmptyElim i, fun i => isEmptyElim i, fun i => isEmptyElim i⟩
    · have h0' : 0 < (S'.gvec gmax).length := (f ⟨0, h0⟩).pos
      have e1 := gme_entry_diff S l hr gmax ⟨0, h0⟩ ⟨0, h0⟩
      have e2 := gme_entry_diff S' l' hr' gmax ⟨0, h0'⟩ ⟨0, h0'⟩
      rw [sub_self] at e1 e2
      have z : gOf S'.b1 S'.b2 (0, 0) = 0 := by simp [gOf]
      have e3 := superStruct_ft h hL hl 0 0
      rw [if_pos ⟨dvd_zero _, dvd_zero _⟩, z] at e3
      have e4 : epsMatAbs (S'.ft l') S'.b1 S'.b2 (absInds S'.b1 S'.b2 gmax) 0 0 =
          epsMatAbs (S.ft l) S.b1 S.b2 (absInds S.b1 S.b2 gmax) 0 0 := e2.trans (e3.trans e1.symm)
      rw [e4]
      exact smul_one_block hf.mono.injective _
  · rw [if_neg c1] at hE' ⊢
    by_cases c2 : (S'.epsMat gmax l').det = 0
    · rw [if_pos c2] at hE'
      cases hE'
    · rw [if_neg c2] at hE'
      obtain ⟨hd, hi⟩ := blockIn_inv hf.mono.injective hb c2
      rw [if_neg hd]
      cases hE'
      exact ⟨_, rfl, hi⟩

/-- The basis element at the plane wave `f` of the supercell. -/
def BasisEl.moved {N N' : ℕ} (f : Fin N → Fin N') (s : BasisEl N) : BasisEl N' := ⟨s.blk, f s.ig, s.st⟩

/-- Positions of the elements of a list which are kept by a filter. -/
theorem filter_positions {α : Type} (l : List α) (P : α → Prop) [DecidablePred P] :
    ∃ φ : Fin (l.filter fun a => decide (P a)).length → Fin l.length, StrictMono φ ∧
      (∀ i, l[φ i] = (l.filter fun a => decide (P a))[i]) ∧ ∀ j, j ∉ Set.range φ → ¬ P l[j] := by
  set ps := (List.finRange l.length).filter fun i => decide (P l[i]) with hps
  have hl : (l.filter fun a => decide (P a)) = ps.map fun i => l[i] := by
    rw [hps]
    have e : l = (List.finRange l.length).map fun i => l[i] := by
      apply List.ext_getElem
      · simp
      · intro i h1 h2
        simp
    conv_lhs => rw [e]
    rw [List.filter_map]
    rfl
  have hlen : (l.filter fun a => decide (P a)).length = ps.length := by rw [hl, List.length_map]
  have hsort : ps.Pairwise (· < ·) := (List.pairwise_lt_finRange l.length).filter _
  refine ⟨fun i => ps[(i : ℕ)]'(by rw [← hlen]; exact i.2), fun i j hij => ?_, fun i => ?_, fun j hj hP => ?_⟩
  · exact List.pairwise_iff_getElem.1 hsort i j _ _ hij
  · simp only [hl, Fin.getElem_fin, List.getElem_map]
  · apply hj
    have : j ∈ ps := List.mem_filter.2 ⟨List.mem_finRange j, by simpa using hP⟩
    obtain ⟨i, hi, e⟩ := List.mem_iff_getElem.1 this
    exact ⟨⟨i, by rw [hlen]; exact hi⟩, e⟩

/-- The matrix of the cell is a decoupled block of that of the supercell, whatever the integrals. -/
theorem gmeMat_block (ij : LPos → ℂ → ℂ) {N N' : ℕ} (f : Fin N → Fin N') (stack : List (LPos × ℝ))
    (Es : List (Matrix (Fin N) (Fin N) ℂ)) (Es' : List (Matrix (Fin N') (Fin N') ℂ))
    (hE : List.Forall₂ (BlockIn f) Es Es') (b : List (BasisEl N)) (b' : List (BasisEl N'))
    (φ : Fin b.length → Fin b'.length) (hφ : StrictMono φ) (h1 : ∀ i, b'[φ i] = (b[i]).moved f)
    (h2 : ∀ j, j ∉ Set.range φ → (b'[j]).ig ∉ Set.range f) :
    BlockIn φ (gmeMatIj ij stack Es b + 1) (gmeMatIj ij stack Es' b' + 1) := by
  have g1 : ∀ i : Fin b.length, b[(i : ℕ)]? = some b[i] := fun i => List.getElem?_eq_getElem i.2
  have g1' : ∀ i : Fin b'.length, b'[(i : ℕ)]? = some b'[i] := fun i => List.getElem?_eq_getElem i.2
  have einv : ∀ i j : Fin b.length, (Es'.map fun E => E (b'[φ i]).ig (b'[φ j]).ig) =
      Es.map fun E => E (b[i]).ig (b[j]).ig := by
    intro i j
    rw [h1, h1]
    induction hE with
    | nil => rfl
    | cons h _ ih =>
      rw [List.map_cons, List.map_cons, ih]
      congr 1
      exact h.entry _ _
  have zero : ∀ (i : Fin b.length) (j : Fin b'.length), j ∉ Set.range φ →
      (∀ e ∈ (Es'.map fun E => E (b'[φ i]).ig (b'[j]).ig), e = 0) ∧ ∀ e ∈ (Es'.map fun E => E (b'[j]).ig (b'[φ i]).ig), e = 0 := by
    intro i j hj
    have hz : ∀ E ∈ Es', E (b'[φ i]).ig (b'[j]).ig = 0 ∧ E (b'[j]).ig (b'[φ i]).ig = 0 := by
      intro E hE'
      obtain ⟨E0, -, hb⟩ := forall2_mem_right hE E hE'
      rw [h1]
      exact ⟨hb.row _ _ (h2 j hj), hb.col _ _ (h2 j hj)⟩
    constructor
    · rintro e he
      obtain ⟨E, hE', rfl⟩ := List.mem_map.1 he
      exact (hz E hE').1
    · rintro e he
      obtain ⟨E, hE', rfl⟩ := List.mem_map.1 he
      exact (hz E hE').2
  refine ⟨fun i j => ?_, fun i j hj => ?_, fun i j hj => ?_⟩
  · rw [Matrix.add_apply, Matrix.add_apply]
    congr 1
    · simp only [gmeMatIj, of_apply, completeMat, blockUpper, g1, g1', Option.map_some, Option.getD_some, einv]
      simp only [h1, BasisEl.moved, Fin.val_fin_lt, hφ.lt_iff_lt, Fin.val_inj, hφ.injective.eq_iff]
    · simp only [one_apply, hφ.injective.eq_iff]
  · have hne : φ i ≠ j := fun e => hj ⟨i, e⟩
    obtain ⟨z1, z2⟩ := zero i j hj
    rw [Matrix.add_apply, one_apply_ne hne, add_zero]
    simp only [gmeMatIj, of_apply, completeMat, blockUpper, g1', gmeElem_zero ij stack _ z1, gmeElem_zero ij stack _ z2,
      ite_self, map_zero, add_zero, zero_add, Fin.val_inj, if_neg hne]
  · have hne : j ≠ φ i := fun e => hj ⟨i, e.symm⟩
    obtain ⟨z1, z2⟩ := zero i j hj
    rw [Matrix.add_apply, one_apply_ne hne, add_zero]
    simp only [gmeMatIj, of_apply, completeMat, blockUpper, g1', gmeElem_zero ij stack _ z1, gmeElem_zero ij stack _ z2,
      ite_self, map_zero, add_zero, zero_add, Fin.val_inj, if_neg hne]

/-- The positions in `range f` of all positions, in order. -/
theorem finRange_filter {N N' : ℕ} {f : Fin N → Fin N'} (hf : StrictMono f) :
    open Classical in (List.finRange N').filter (fun j => decide (j ∈ Set.range f)) = (List.finRange N).map f := by
  classical
  refine List.Perm.eq_of_pairwise (le := (· < ·)) (fun a b _ _ h1 h2 => absurd h1 (not_lt.2 h2.le)) ?_ ?_ ?_
  · exact (List.pairwise_lt_finRange N').filter _
  · rw [List.pairwise_map]
    exact (List.pairwise_lt_finRange N).imp fun h => hf h
  · refine (List.perm_ext_iff_of_nodup ((List.nodup_finRange N').filter _) ((List.nodup_finRange N).map hf.injective)).2 ?_
    intro j
    simp [List.mem_filter]

theorem filterMap_block {N N' : ℕ} {f : Fin N → Fin N'} (hf : StrictMono f) (F : Fin N → Option (BasisEl N))
    (F' : Fin N' → Option (BasisEl N')) (h : ∀ i, F' (f i) = (F i).map (BasisEl.moved f))
    (hig : ∀ j s, F' j = some s → s.ig = j) :
    open Classical in ((List.finRange N').filterMap F').filter (fun s => decide (s.ig ∈ Set.range f)) =
      ((List.finRange N).filterMap F).map (BasisEl.moved f) := by
  classical
  have key : ∀ l : List (Fin N'), (l.filterMap F').filter (fun s => decide (s.ig ∈ Set.range f)) =
      (l.filter fun j => decide (j ∈ Set.range f)).filterMap F' := by
    intro l
    induction l with
    | nil => rfl
    | cons j l ih =>
      by_cases hj : j ∈ Set.range f
      · rw [List.filter_cons_of_pos (by simpa using hj)]
        cases hF : F' j with
        | none => rw [List.filterMap_cons_none hF, List.filterMap_cons_none hF, ih]
        | some s =>
          rw [List.filterMap_cons_some hF, List.filterMap_cons_some hF,
            List.filter_cons_of_pos (by rw [hig j s hF]; simpa using hj), ih]
      · rw [List.filter_cons_of_neg (by simpa using hj)]
        cases hF : F' j with
        | none => rw [List.filterMap_cons_none hF, ih]
        | some s =>
          rw [List.filterMap_cons_some hF, List.filter_cons_of_neg (by rw [hig j s hF]; simpa using hj), ih]
  rw [key, finRange_filter hf, List.filterMap_map, List.map_filterMap]
  refine List.filterMap_congr fun i _ => ?_
  rw [Function.comp, h]

/-- The guided modes of the cell among those of the supercell. -/
theorem branch_super (br : List (Pol × (ℝ → Option ℝ))) (delta e0 eN : ℝ) (ls : List (ℝ × ℝ)) (stack : List (LPos × ℝ))
    (gvec gvec' ks : List R2) (ik : ℕ) {f : Fin gvec.length → Fin gvec'.length} (hf : StrictMono f)
    (hg : ∀ i, gvec'[f i] = gvec[i]) (b : List (BasisEl gvec.length)) (b' : List (BasisEl gvec'.length))
    (hb : branchGuided br delta e0 eN ls stack gvec ks ik = .ok b)
    (hb' : branchGuided br delta e0 eN ls stack gvec' ks ik = .ok b') :
    open Classical in b'.filter (fun s => decide (s.ig ∈ Set.range f)) = b.map (BasisEl.moved f) := by
  classical
  unfold branchGuided at hb hb'
  cases hb
  cases hb'
  rw [List.filter_flatMap, List.map_flatMap]
  congr 1
  funext n
  refine filterMap_block hf _ _ (fun i => ?_) fun j s hs => ?_
  · rw [hg, Option.map_map]
    rfl
  · obtain ⟨om, -, rfl⟩ := Option.map_eq_some_iff.1 hs
    rfl

/-- One wave vector: modes of the cell and of the supercell. -/
theorem gme_folded (ij : LPos → ℂ → ℂ) (argsort : List ℝ → List ℕ) (hs : ∀ l, IsArgsort l (argsort l))
    (eigh : ∀ n, Matrix (Fin n) (Fin n) ℂ → Fin n → ℝ) (he : GoodEigh eigh) {N N' : ℕ} (f : Fin N → Fin N')
    (stack : List (LPos × ℝ)) (Es : List (Matrix (Fin N) (Fin N) ℂ)) (Es' : List (Matrix (Fin N') (Fin N') ℂ))
    (hE : List.Forall₂ (BlockIn f) Es Es') (b : List (BasisEl N)) (b' : List (BasisEl N'))
    (hb : open Classical in b'.filter (fun s => decide (s.ig ∈ Set.range f)) = b.map (BasisEl.moved f))
    (numeig numeig' : ℕ) (r r' : KRes)
    (hr : solveFull argsort (List.ofFn (eigh _ (gmeMatIj ij stack Es b + 1))) 0 numeig = .ok r)
    (hr' : solveFull argsort (List.ofFn (eigh _ (gmeMatIj ij stack Es' b' + 1))) 0 numeig' = .ok r') :
    FoldedIn numeig' b'.length r.freq r'.freq := by
  classical
  obtain ⟨φ, hφ, h1, h2⟩ := filter_positions b' (fun s => s.ig ∈ Set.range f)
  have hlen : (b'.filter fun s => decide (s.ig ∈ Set.range f)).length = b.length := by rw [hb, List.length_map]
  have hblk : BlockIn (fun i => φ (Fin.cast hlen.symm i)) (gmeMatIj ij stack Es b + 1) (gmeMatIj ij stack Es' b' + 1) := by
    refine gmeMat_block ij f stack Es Es' hE b b' _ (fun i j hij => hφ hij) (fun i => ?_) fun j hj => h2 j ?_
    · rw [h1]
      simp only [hb, Fin.getElem_fin, Fin.val_cast, List.getElem_map]
    · rintro ⟨i, rfl⟩
      exact hj ⟨Fin.cast hlen i, rfl⟩
  have hinj : Function.Injective fun i : Fin b.length => φ (Fin.cast hlen.symm i) := fun i j e => by
    simpa using hφ.injective e
  obtain ⟨V, hV⟩ := he _ _ ((gmeMatIj_hermitian ij stack Es b).add isHermitian_one)
  obtain ⟨V', hV'⟩ := he _ _ ((gmeMatIj_hermitian ij stack Es' b').add isHermitian_one)
  have hsub := sortedFreqs_sublist (isEigh_subperm hV hV' (blockIn_charpoly hinj hblk))
  obtain ⟨t, ht, hf⟩ := solveFull_zero argsort hs _ numeig (solveFull_ok hr)
  obtain ⟨t', ht', hf'⟩ := solveFull_zero argsort hs _ numeig' (solveFull_ok hr')
  rw [hr] at ht
  rw [hr'] at ht'
  cases ht
  cases ht'
  rw [hf, hf', solvePwe_sortedFreqs argsort hs, solvePwe_sortedFreqs argsort hs]
  have := foldedIn_take numeig numeig' hsub (sortedFreqs_sorted _)
  rwa [(sortedFreqs_perm (List.ofFn (eigh _ (gmeMatIj ij stack Es' b' + 1)))).length_eq, List.length_map,
    List.length_ofFn] at this

theorem superLay_eff {N1 N2 : ℕ} {a1 a2 : R2} {l l' : List GmeLay} (h : List.Forall₂ (SuperLay N1 N2 a1 a2) l l')
    (opt : String) : l'.mapM (GmeLay.eff opt) = l.mapM (GmeLay.eff opt) ∧ l'.map GmeLay.pos = l.map GmeLay.pos := by
  constructor
  · refine (mapM_forall2 _ _ (fun a b hab => ?_) h).symm
    unfold GmeLay.eff
    rw [hab.epsB, hab.epsAvg, hab.epsEff]
  · induction h with
    | nil => rfl
    | cons h _ ih => rw [List.map_cons, List.map_cons, ih, h.pos]

/-- Runs for a cell and a supercell with guided modes such that those of the cell are among those of the supercell. -/
theorem gme_super (ij : LPos → ℂ → ℂ) (argsort : List ℝ → List ℕ) (hs : ∀ l, IsArgsort l (argsort l))
    (eigh : ∀ n, Matrix (Fin n) (Fin n) ℂ → Fin n → ℝ) (he : GoodEigh eigh) (N1 N2 : ℕ) (a1 a2 : R2) (S S' : GmeStruct)
    (h : SuperStruct N1 N2 a1 a2 S S') (hL : Resolved S'.b1 S'.b2) (hr : ∀ l ∈ S.layers, ∀ s ∈ l.shapes, RealShape s)
    (hr' : ∀ l ∈ S'.layers, ∀ s ∈ l.shapes, RealShape s) (gmax d : ℝ) (hg : 0 ≤ gmax)
    (hdet : S'.b1.1 * S'.b2.2 - S'.b1.2 * S'.b2.1 ≠ 0) (ho : NotOblique S'.b1 S'.b2)
    (hw : (absWindow S.b1 S.b2 gmax).length * (1e-10 : ℝ) ≤ d)
    (hw' : (absWindow S'.b1 S'.b2 gmax).length * (1e-10 : ℝ) ≤ d)
    (hgap : ∀ m n : ℤ, norm2 (comb S'.b1 S'.b2 m n) ≤ 2 * π * gmax ∨ 2 * π * (gmax + d) < norm2 (comb S'.b1 S'.b2 m n))
    (hp : ∀ l ∈ S.layers, homAbs (S.ft l) S.b1 S.b2 (absInds S.b1 S.b2 gmax) → l.shapes = [])
    (guided guided' : GuidedSolver) (onlyG : Bool) (opt : String) (ks : List R2)
    (hbas : ∀ f : Fin (S.gvec gmax).length → Fin (S'.gvec gmax).length, StrictMono f →
      (∀ i, (S'.gvec gmax)[f i] = (S.gvec gmax)[i]) → ∀ eff, S.layers.mapM (GmeLay.eff opt) = .ok eff →
      ∀ ik < ks.length, ∀ b b', guided ((S.layers.map GmeLay.pos).zip eff) (S.gvec gmax) ks ik = .ok b →
      guided' ((S.layers.map GmeLay.pos).zip eff) (S'.gvec gmax) ks ik = .ok b' →
      open Classical in b'.filter (fun s => decide (s.ig ∈ Set.range f)) = b.map (BasisEl.moved f))
    (numeig numeig' : ℕ) (r r' : List KRes)
    (hrun : gmeSimIj ij argsort eigh guided S gmax onlyG opt ks 0 numeig = .ok r)
    (hrun' : gmeSimIj ij argsort eigh guided' S' gmax onlyG opt ks 0 numeig' = .ok r') :
    ∃ eff, S.layers.mapM (GmeLay.eff opt) = .ok eff ∧ List.Forall₂ (fun ik p => ∃ b',
      guided' ((S.layers.map GmeLay.pos).zip eff) (S'.gvec gmax) ks ik = .ok b' ∧
      FoldedIn numeig' b'.length p.1.freq p.2.freq) (List.range ks.length) (r.zip r') := by
  obtain ⟨f, hf⟩ := superStruct_waves h hg hdet ho hw hw' hgap
  obtain ⟨heff, hpos⟩ := superLay_eff h.layers opt
  unfold gmeSimIj at hrun hrun'
  rw [heff, hpos] at hrun'
  obtain ⟨eff, e1, hrun1⟩ := bind_ok hrun
  obtain ⟨eff', e1', hrun1'⟩ := bind_ok hrun'
  rw [e1] at e1'
  cases e1'
  obtain ⟨Es, e2, hrun2⟩ := bind_ok hrun1
  obtain ⟨Es', e2', hrun2'⟩ := bind_ok hrun1'
  have hE : List.Forall₂ (BlockIn f) Es Es' := by
    have m := mapM_ok_forall e2
    have m' := mapM_ok_forall e2'
    have hlay := h.layers
    revert hlay m m' hr hr' hp
    generalize S.layers = l
    generalize S'.layers = l'
    intro hr hr' hp m m' hlay
    clear hbas e1 e2 e2' hrun hrun' hrun1 hrun1' hrun2 hrun2' heff hpos
    induction hlay generalizing Es Es' with
    | nil =>
      cases m
      cases m'
      exact .nil
    | cons hl _ ih =>
      cases m with
      | cons a1 m =>
        cases m' with
        | cons a1' m' =>
          refine .cons ?_ (ih _ _ (fun l h => hr l (List.mem_cons_of_mem _ h)) (fun l h => hr' l (List.mem_cons_of_mem _ h))
            (fun l h => hp l (List.mem_cons_of_mem _ h)) m m')
          obtain ⟨E, hE, hb⟩ := superStruct_inv h hL hl (hr _ (List.mem_cons_self ..)) (hr' _ (List.mem_cons_self ..)) hf
            (hp _ (List.mem_cons_self ..)) onlyG _ a1'
          rw [a1] at hE
          cases hE
          exact hb
  have m := mapM_ok_forall hrun2
  have m' := mapM_ok_forall hrun2'
  clear hrun hrun' hrun1 hrun1' hrun2 hrun2'
  refine ⟨eff, e1, ?_⟩
  have hik : ∀ ik ∈ List.range ks.length, ik < ks.length := fun ik h => List.mem_range.1 h
  generalize List.range ks.length = iks at m m' hik ⊢
  induction m generalizing r' with
  | nil => exact .nil
  | cons h1 _ ih =>
    cases m' with
    | cons h1' m' =>
      refine .cons ?_ (ih _ m' fun ik h => hik ik (List.mem_cons_of_mem _ h))
      obtain ⟨b, hb, h1⟩ := bind_ok h1
      obtain ⟨b', hb', h1'⟩ := bind_ok h1'
      refine ⟨b', hb', gme_folded ij argsort hs eigh he f _ Es Es' hE b b' ?_ numeig numeig' _ _ h1 h1'⟩
      exact hbas f hf.mono hf.same eff e1 _ (hik _ (List.mem_cons_self ..)) b b' hb hb'

/-- **C138 (supercells).** Let a structure be described by a supercell of `N1` by `N2` cells, and let every layer of the
cell have no shapes or be clearly patterned. If `GuidedModeExp` with the same cutoff and guided modes returns modes of the
cell and of the supercell, the frequencies of the cell at every wave vector are among those of the supercell, if all of
these are asked for, and for any numbers of modes the `i`-th frequency of the supercell is not larger than the `i`-th one
of the cell. -/
theorem C138_supercell (ij : LPos → ℂ → ℂ) (argsort : List ℝ → List ℕ) (hs : ∀ l, IsArgsort l (argsort l))
    (eigh : ∀ n, Matrix (Fin n) (Fin n) ℂ → Fin n → ℝ) (he : GoodEigh eigh) (N1 N2 : ℕ) (a1 a2 : R2) (S S' : GmeStruct)
    (h : SuperStruct N1 N2 a1 a2 S S') (hL : Resolved S'.b1 S'.b2) (hr : ∀ l ∈ S.layers, ∀ s ∈ l.shapes, RealShape s)
    (hr' : ∀ l ∈ S'.layers, ∀ s ∈ l.shapes, RealShape s) (gmax d : ℝ) (hg : 0 ≤ gmax)
    (hdet : S'.b1.1 * S'.b2.2 - S'.b1.2 * S'.b2.1 ≠ 0) (ho : NotOblique S'.b1 S'.b2)
    (hw : (absWindow S.b1 S.b2 gmax).length * (1e-10 : ℝ) ≤ d)
    (hw' : (absWindow S'.b1 S'.b2 gmax).length * (1e-10 : ℝ) ≤ d)
    (hgap : ∀ m n : ℤ, norm2 (comb S'.b1 S'.b2 m n) ≤ 2 * π * gmax ∨ 2 * π * (gmax + d) < norm2 (comb S'.b1 S'.b2 m n))
    (hp : ∀ l ∈ S.layers, homAbs (S.ft l) S.b1 S.b2 (absInds S.b1 S.b2 gmax) → l.shapes = [])
    (br : List (Pol × (ℝ → Option ℝ))) (delta e0 eN : ℝ) (ls : List (ℝ × ℝ)) (onlyG : Bool) (opt : String) (ks : List R2)
    (numeig numeig' : ℕ) (r r' : List KRes)
    (hrun : gmeSimIj ij argsort eigh (branchGuided br delta e0 eN ls) S gmax onlyG opt ks 0 numeig = .ok r)
    (hrun' : gmeSimIj ij argsort eigh (branchGuided br delta e0 eN ls) S' gmax onlyG opt ks 0 numeig' = .ok r') :
    List.Forall₂ (fun ik p => ∃ b', branchGuided br delta e0 eN ls [] (S'.gvec gmax) ks ik = .ok b' ∧
      FoldedIn numeig' b'.length p.1.freq p.2.freq) (List.range ks.length) (r.zip r') := by
  obtain ⟨eff, -, h⟩ := gme_super ij argsort hs eigh he N1 N2 a1 a2 S S' h hL hr hr' gmax d hg hdet ho hw hw' hgap hp _ _ onlyG
    opt ks (fun f hf hfg eff _ ik _ b b' hb hb' => branch_super br delta e0 eN ls _ _ _ ks _ hf hfg b b' hb hb') numeig numeig' r r'
    hrun hrun'
  exact h

/-! ### Example -/

/-- The slab with holes, drawn with two cells and two holes. -/
noncomputable def holesPairLay (e : ℝ) : GmeLay :=
  ⟨.inner 1, e + 11, e + 11 + (e - (e + 11)) * (Real.pi * 0.2 ^ 2) / 1, some 11,
    [⟨e, Circle.ft besselJ1 ⟨0, 0, 0.2⟩⟩, ⟨e, Circle.ft besselJ1 ⟨1, 0, 0.2⟩⟩]⟩

/-- The slab between claddings of air. -/
noncomputable def holesPair (e : ℝ) : GmeStruct :=
  ⟨(Real.pi, 0), (0, 2 * Real.pi), 2, [⟨.lower, 1, 1, some 1, []⟩, holesPairLay e, ⟨.upper, 1, 1, some 1, []⟩]⟩

theorem holesPair_super (e : ℝ) : SuperStruct 2 1 (1, 0) (0, 1) (holesStruct e) (holesPair e) := by
  have hnil : ∀ p, SuperLay 2 1 (1, 0) (0, 1) ⟨p, 1, 1, some 1, []⟩ ⟨p, 1, 1, some 1, []⟩ := fun p =>
    ⟨rfl, rfl, rfl, rfl, fun _ _ => [], fun _ _ _ _ => .nil, by simp⟩
  refine ⟨by norm_num, by norm_num, ⟨?_, ?_, ?_, ?_⟩, ?_, ?_, ?_, .cons (hnil _) (.cons ?_ (.cons (hnil _) .nil))⟩
  · simp [holesStruct]
  · simp [holesStruct]
  · simp [holesStruct]
  · simp [holesStruct]
  · simp [NthPart, holesStruct, holesPair]
  · simp [NthPart, holesStruct, holesPair]
  · simp [holesStruct, holesPair]
  · refine ⟨rfl, rfl, rfl, rfl, fun m n => [⟨e, Circle.ft besselJ1 ⟨0 + m * 1 + n * 0, 0 + m * 0 + n * 1, 0.2⟩⟩], ?_, ?_⟩
    · intro m _ n _
      refine .cons ?_ .nil
      have := displaced_circle besselJ1 e ⟨0, 0, 0.2⟩ (m * 1 + n * 0, m * 0 + n * 1)
      simpa [add_assoc] using this
    · simp [holesPairLay, List.range_succ]

theorem norm2_pair (m n : ℤ) : norm2 (comb (π, 0) (0, 2 * π) m n) = π * √((m : ℝ) ^ 2 + 4 * n ^ 2) := by
  have hp := Real.pi_pos
  unfold norm2 comb
  rw [show (π : ℝ) * √((m : ℝ) ^ 2 + 4 * n ^ 2) = √(π ^ 2 * ((m : ℝ) ^ 2 + 4 * n ^ 2)) by
    rw [Real.sqrt_mul (by positivity), Real.sqrt_sq (by positivity)]]
  congr 1
  simp only
  ring

theorem absWindow_pair (b1 b2 : R2) (h1 : π ≤ norm2 b1) (h2 : π ≤ norm2 b2) :
    ((absWindow b1 b2 5).length : ℝ) * 1e-10 ≤ 1e-6 := by
  have key : ∀ b : R2, π ≤ norm2 b → nmaxOf (4 * π) 5 b ≤ 20 := by
    intro b hb
    have hp := Real.pi_pos
    unfold nmaxOf
    refine Nat.floor_le_of_le ?_
    rw [div_le_iff₀ (by linarith)]
    push_cast
    nlinarith
  have h : (absWindow b1 b2 5).length ≤ 41 * 41 := by
    rw [absWindow, tbtInds_length]
    exact Nat.mul_le_mul (by have := key _ h1; omega) (by have := key _ h2; omega)
  have : ((absWindow b1 b2 5).length : ℝ) ≤ 1681 := by exact_mod_cast h
  nlinarith

/-- Holes in a slab, with the cutoff 5. -/
example (argsort : List ℝ → List ℕ) (hs : ∀ l, IsArgsort l (argsort l))
    (eigh : ∀ n, Matrix (Fin n) (Fin n) ℂ → Fin n → ℝ) (he : GoodEigh eigh) (br : List (Pol × (ℝ → Option ℝ))) (ks : List R2)
    (r r' : List KRes)
    (hrun : gmeSimIj ijLayer argsort eigh (branchGuided br 0 1 1 [(11, 1)]) (holesStruct 1) 5 false "custom" ks 0 4 = .ok r)
    (hrun' : gmeSimIj ijLayer argsort eigh (branchGuided br 0 1 1 [(11, 1)]) (holesPair 1) 5 false "custom" ks 0 8 = .ok r') :
    List.Forall₂ (fun ik p => ∃ b', branchGuided br 0 1 1 [(11, 1)] [] ((holesPair 1).gvec 5) ks ik = .ok b' ∧
      FoldedIn 8 b'.length p.1.freq p.2.freq) (List.range ks.length) (r.zip r') := by
  have hp := Real.pi_pos
  have n1 : norm2 ((2 * π, 0) : R2) = 2 * π := by simp [norm2, Real.sqrt_sq (by positivity : (0 : ℝ) ≤ 2 * π)]
  have n2 : norm2 ((0, 2 * π) : R2) = 2 * π := by simp [norm2, Real.sqrt_sq (by positivity : (0 : ℝ) ≤ 2 * π)]
  have n3 : norm2 ((π, 0) : R2) = π := by simp [norm2, Real.sqrt_sq hp.le]
  refine C138_supercell ijLayer argsort hs eigh he 2 1 (1, 0) (0, 1) _ _ (holesPair_super 1) resolved_pair ?_ ?_ 5 1e-6
    (by norm_num) ?_ ?_ (absWindow_pair _ _ ?_ ?_) (absWindow_pair _ _ ?_ ?_) ?_ ?_ br 0 1 1 [(11, 1)] false "custom" ks 4 8
    r r' hrun hrun'
  · intro l hl s hs
    simp only [holesStruct, List.mem_cons, List.not_mem_nil, or_false] at hl
    rcases hl with rfl | rfl | rfl
    · simp at hs
    · exact holes_real' 1 s hs
    · simp at hs
  · intro l hl s hs
    simp only [holesPair, List.mem_cons, List.not_mem_nil, or_false] at hl
    rcases hl with rfl | rfl | rfl
    · simp at hs
    · simp only [holesPairLay, List.mem_cons, List.not_mem_nil, or_false] at hs
      rcases hs with rfl | rfl <;> exact C12_circle_conj besselJ1 _
    · simp at hs
  · simp [holesPair, hp.ne']
  · change norm2 _ * norm2 _ ≤ 2 * |π * (2 * π) - 0 * 0|
    rw [show (holesPair 1).b1 = (π, 0) from rfl, show (holesPair 1).b2 = (0, 2 * π) from rfl, n3, n2, mul_zero, sub_zero,
      abs_of_pos (by positivity)]
    nlinarith
  · change π ≤ norm2 (2 * π, 0)
    rw [n1]; linarith
  · change π ≤ norm2 (0, 2 * π)
    rw [n2]; linarith
  · change π ≤ norm2 (π, 0)
    rw [n3]
  · change π ≤ norm2 (0, 2 * π)
    rw [n2]; linarith
  · intro m n
    change norm2 (comb (π, 0) (0, 2 * π) m n) ≤ _ ∨ _ < norm2 (comb (π, 0) (0, 2 * π) m n)
    rw [norm2_pair]
    rcases le_or_gt (m ^ 2 + 4 * n ^ 2) 100 with h | h
    · left
      have : (m : ℝ) ^ 2 + 4 * (n : ℝ) ^ 2 ≤ 100 := by exact_mod_cast h
      have : √((m : ℝ) ^ 2 + 4 * n ^ 2) ≤ 10 := by
        rw [Real.sqrt_le_left (by norm_num)]
        norm_num
        exact this
      nlinarith
    · right
      have h : (101 : ℝ) ≤ (m : ℝ) ^ 2 + 4 * (n : ℝ) ^ 2 := by exact_mod_cast h
      have : (10.01 : ℝ) < √((m : ℝ) ^ 2 + 4 * n ^ 2) := by
        refine lt_of_lt_of_le ?_ (Real.sqrt_le_sqrt h)
        rw [Real.lt_sqrt (by norm_num)]
        norm_num
      nlinarith
  · intro l hl hu
    simp only [holesStruct, List.mem_cons, List.not_mem_nil, or_false] at hl
    rcases hl with rfl | rfl | rfl
    · rfl
    · exact absurd hu (holes_patterned 1 1 5 (by norm_num))
    · rfl

end Legume
