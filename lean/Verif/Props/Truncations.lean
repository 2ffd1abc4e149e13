import Verif.Props.GmeTbtBounds
import Verif.Props.SupercellGme
import Verif.Props.ScaleTbt

/-!
# Runs with `truncate_g='abs'` and `truncate_g='tbt'` on the same plane waves (C161)

The two truncations assemble the permittivity matrices from Fourier components of opposite vectors. Their runs agree
nevertheless if they keep the same plane waves.
-/
open Matrix
open scoped ComplexOrder ComplexConjugate

namespace Legume
open Spec

/-- Both truncations keep the same plane waves. -/
def AlikeWaves (S : GmeStruct) (gmax gmax' : ℝ) : Prop := ∀ g : R2, g ∈ S.gvec gmax ↔ g ∈ S.gvecT gmax'

theorem alikeWaves_inds {S : GmeStruct} (hdet : S.b1.1 * S.b2.2 - S.b1.2 * S.b2.1 ≠ 0) {gmax gmax' : ℝ}
    (h : AlikeWaves S gmax gmax') : absInds S.b1 S.b2 gmax = tbtInds (S.n1 gmax') (S.n2 gmax') := by
  have hi := gOf_inj S.b1 S.b2 hdet
  have hm : ∀ i : ℤ × ℤ, i ∈ absInds S.b1 S.b2 gmax ↔ i ∈ tbtInds (S.n1 gmax') (S.n2 gmax') := by
    intro i
    have := h (gOf S.b1 S.b2 i)
    unfold GmeStruct.gvec GmeStruct.gvecT gvecTbt at this
    rw [List.mem_map_of_injective hi, List.mem_map_of_injective hi] at this
    exact this
  have n1 : (absInds S.b1 S.b2 gmax).Nodup := (tbtInds_nodup _ _).filter _
  have hp := (List.perm_ext_iff_of_nodup n1 (tbtInds_nodup _ _)).2 hm
  have p1 : (absInds S.b1 S.b2 gmax).Pairwise lexLt := (tbtInds_lex _ _).filter _
  refine hp.eq_of_pairwise (fun a b _ _ h1 h2 => ?_) p1 (tbtInds_lex _ _)
  unfold lexLt at h1 h2
  omega

open Classical in
/-- `epsInv` for given indices and a given number of plane waves. -/
noncomputable def absE (S : GmeStruct) (inds : List (ℤ × ℤ)) (gv : List R2) (l : GmeLay) :
    Except PyErr (Matrix (Fin gv.length) (Fin gv.length) ℂ) :=
  if homAbs (S.ft l) S.b1 S.b2 inds ∨ false = true then .ok ((epsMatAbs (S.ft l) S.b1 S.b2 inds 0 0)⁻¹ • 1)
  else if (Matrix.of fun i j : Fin gv.length => epsMatAbs (S.ft l) S.b1 S.b2 inds i j).det = 0 then .error .valueError
  else .ok (Matrix.of fun i j : Fin gv.length => epsMatAbs (S.ft l) S.b1 S.b2 inds i j)⁻¹

/-- `run` for given plane waves and inverse matrices. -/
noncomputable def runOn (ij : LPos → ℂ → ℂ) (argsort : List ℝ → List ℕ)
    (eigh : ∀ n, Matrix (Fin n) (Fin n) ℂ → Fin n → ℝ) (guided : GuidedSolver) (layers : List GmeLay) (gv : List R2)
    (inv : GmeLay → Except PyErr (Matrix (Fin gv.length) (Fin gv.length) ℂ)) (opt : String) (ks : List R2) (sigma : ℝ)
    (numeig : ℕ) : Except PyErr (List KRes) := do
  let eff ← layers.mapM (GmeLay.eff opt)
  let stack := (layers.map GmeLay.pos).zip eff
  let einv ← layers.mapM inv
  (List.range ks.length).mapM fun (ik : ℕ) => do
    let basis ← guided stack gv ks ik
    solveFull argsort (List.ofFn (eigh _ (gmeMatIj ij stack einv basis + 1))) sigma numeig

theorem alikeWaves_run (ij : LPos → ℂ → ℂ) (argsort : List ℝ → List ℕ)
    (eigh : ∀ n, Matrix (Fin n) (Fin n) ℂ → Fin n → ℝ) (guided : GuidedSolver) (S : GmeStruct)
    (hdet : S.b1.1 * S.b2.2 - S.b1.2 * S.b2.1 ≠ 0) (gmax gmax' : ℝ) (h : AlikeWaves S gmax gmax') (opt : String)
    (ks : List R2) (sigma : ℝ) (numeig : ℕ) :
    gmeSimIj ij argsort eigh guided S gmax false opt ks sigma numeig =
      runOn ij argsort eigh guided S.layers (S.gvecT gmax')
        (absE S (tbtInds (S.n1 gmax') (S.n2 gmax')) (S.gvecT gmax')) opt ks sigma numeig := by
  have hi := alikeWaves_inds hdet h
  have hg : S.gvec gmax = S.gvecT gmax' := by
    unfold GmeStruct.gvec GmeStruct.gvecT gvecTbt
    rw [hi]
    rfl
  have e : gmeSimIj ij argsort eigh guided S gmax false opt ks sigma numeig =
      runOn ij argsort eigh guided S.layers (S.gvec gmax) (absE S (absInds S.b1 S.b2 gmax) (S.gvec gmax)) opt ks sigma
        numeig := rfl
  rw [e, hi, hg]

/-- Both tests for uniform layers have the same outcome. -/
def SameUniform (S : GmeStruct) (gmax' : ℝ) (l : GmeLay) : Prop :=
  homAbs (S.ft l) S.b1 S.b2 (tbtInds (S.n1 gmax') (S.n2 gmax')) ↔ homTbt (S.ft l) S.b1 S.b2 (S.n1 gmax') (S.n2 gmax')

theorem absE_tbt (S : GmeStruct) (hdet : S.b1.1 * S.b2.2 - S.b1.2 * S.b2.1 ≠ 0) (gmax gmax' : ℝ)
    (h : AlikeWaves S gmax gmax') (l : GmeLay) (hr : ∀ s ∈ l.shapes, RealShape s) (hf : TbtFaithful S gmax' l)
    (hu : SameUniform S gmax' l) :
    (∃ e, absE S (tbtInds (S.n1 gmax') (S.n2 gmax')) (S.gvecT gmax') l = .error e ∧ S.epsInvT gmax' false l = .error e) ∨
      ∃ E E', absE S (tbtInds (S.n1 gmax') (S.n2 gmax')) (S.gvecT gmax') l = .ok E ∧ S.epsInvT gmax' false l = .ok E' ∧
        (∀ i j, E' i j = conj (E i j)) ∧ E.IsHermitian ∧ E'.IsHermitian := by
  classical
  have hi := alikeWaves_inds hdet h
  have hN : (S.gvec gmax).length = (S.gvecT gmax').length := by
    unfold GmeStruct.gvec GmeStruct.gvecT gvecTbt
    rw [hi, List.length_map, List.length_map]
    rfl
  have hM : (Matrix.of fun i j : Fin (S.gvecT gmax').length =>
      epsMatAbs (S.ft l) S.b1 S.b2 (tbtInds (S.n1 gmax') (S.n2 gmax')) i j) = (S.epsMatT gmax' l)ᵀ := by
    ext i j
    obtain ⟨ind, -, hind, he⟩ := gme_entry S l hr gmax
    have e1 := he ⟨i, by rw [hN]; exact i.2⟩ ⟨j, by rw [hN]; exact j.2⟩
    rw [hind, hind, latVec_gOf, GmeStruct.epsMat, Matrix.of_apply] at e1
    simp only [hi] at e1
    rw [Matrix.transpose_apply, (tbt_faithful S gmax' l hr hf).1, Matrix.of_apply, e1]
    rfl
  have h0 : epsMatAbs (S.ft l) S.b1 S.b2 (tbtInds (S.n1 gmax') (S.n2 gmax')) 0 0 = (l.epsAvg : ℂ) := by
    have hp : 0 < (S.gvecT gmax').length := by rw [gvecT_len]; positivity
    have e1 := congrFun (congrFun hM ⟨0, hp⟩) ⟨0, hp⟩
    rw [Matrix.of_apply, Matrix.transpose_apply, (tbt_faithful S gmax' l hr hf).1] at e1
    refine e1.trans ?_
    simp only [sub_self]
    exact layerFt_g0 _ _ _ _ _ (by simp [isG0, gOf]; norm_num)
  have key : ∀ E E' : Matrix (Fin (S.gvecT gmax').length) (Fin (S.gvecT gmax').length) ℂ, S.epsInvT gmax' false l = .ok E' →
      E = E'ᵀ → (∀ i j, E' i j = conj (E i j)) ∧ E.IsHermitian ∧ E'.IsHermitian := by
    intro E E' h1 h2
    have hE := epsInvT_hermitian S gmax' false l hr E' h1
    refine ⟨fun i j => ?_, ?_, hE⟩
    · rw [h2, Matrix.transpose_apply]
      exact (hE.apply i j).symm
    · rw [h2]
      exact hE.transpose
  unfold SameUniform at hu
  have hT : S.epsInvT gmax' false l = if homTbt (S.ft l) S.b1 S.b2 (S.n1 gmax') (S.n2 gmax') ∨ false = true then
      .ok (((l.epsAvg : ℂ))⁻¹ • 1)
    else if (S.epsMatT gmax' l).det = 0 then .error .valueError else .ok (S.epsMatT gmax' l)⁻¹ := by
    unfold GmeStruct.epsInvT
    rw [tbt_first S gmax' l hr]
  have hA : absE S (tbtInds (S.n1 gmax') (S.n2 gmax')) (S.gvecT gmax') l =
      if homTbt (S.ft l) S.b1 S.b2 (S.n1 gmax') (S.n2 gmax') ∨ false = true then .ok (((l.epsAvg : ℂ))⁻¹ • 1)
      else if (S.epsMatT gmax' l).det = 0 then .error .valueError else .ok ((S.epsMatT gmax' l)ᵀ)⁻¹ := by
    unfold absE
    rw [hM, h0, det_transpose]
    simp only [hu]
  by_cases c1 : homTbt (S.ft l) S.b1 S.b2 (S.n1 gmax') (S.n2 gmax') ∨ false = true
  · rw [if_pos c1] at hA hT
    exact Or.inr ⟨_, _, hA, hT, key _ _ hT (by rw [transpose_smul, transpose_one])⟩
  · rw [if_neg c1] at hA hT
    by_cases c2 : (S.epsMatT gmax' l).det = 0
    · rw [if_pos c2] at hA hT
      exact Or.inl ⟨_, hA, hT⟩
    · rw [if_neg c2] at hA hT
      exact Or.inr ⟨_, _, hA, hT, key _ _ hT (transpose_nonsing_inv _).symm⟩

/-- **C161 (same plane waves).** If `truncate_g='abs'` and `truncate_g='tbt'` keep the same plane waves, possibly for different
`gmax`, then with exact integrals the run with either returns the same frequencies, or raises the same error, if the samples
of the permittivities are stored without loss and both tests for uniform layers have the same outcome. -/
theorem C161_same_waves (argsort : List ℝ → List ℕ) (eigh : ∀ n, Matrix (Fin n) (Fin n) ℂ → Fin n → ℝ)
    (he : SortedEigh eigh) (guided : GuidedSolver) (S : GmeStruct) (hdet : S.b1.1 * S.b2.2 - S.b1.2 * S.b2.1 ≠ 0)
    (gmax gmax' : ℝ) (hw : AlikeWaves S gmax gmax') (hr : ∀ l ∈ S.layers, ∀ s ∈ l.shapes, RealShape s)
    (hf : ∀ l ∈ S.layers, TbtFaithful S gmax' l) (hu : ∀ l ∈ S.layers, SameUniform S gmax' l) (opt : String)
    (e0 eN : ℝ) (ls : List (ℝ × ℝ)) (hne : ls ≠ []) (h0 : e0 ≠ 0) (hN : eN ≠ 0) (hl : ∀ l ∈ ls, l.1 ≠ 0)
    (hst : ∀ eff, S.layers.mapM (GmeLay.eff opt) = .ok eff →
      (S.layers.map GmeLay.pos).zip eff = slabStack e0 eN ls) (ks : List R2)
    (hg : ∀ ik < ks.length, ∀ b, guided (slabStack e0 eN ls) (S.gvecT gmax') ks ik = .ok b →
      ∃ k, SlabGuided e0 eN ls (S.gvecT gmax') k b) (sigma : ℝ) (numeig : ℕ) :
    gmeSimTbtIj ijExact argsort eigh guided S gmax' false opt ks sigma numeig =
      gmeSimIj ijExact argsort eigh guided S gmax false opt ks sigma numeig := by
  rw [alikeWaves_run ijExact argsort eigh guided S hdet gmax gmax' hw, tbt_run]
  have hE := mapM_rel (absE S (tbtInds (S.n1 gmax') (S.n2 gmax')) (S.gvecT gmax')) (S.epsInvT gmax' false)
    (R := fun l l' => l = l' ∧ l ∈ S.layers)
    (Q := fun E E' => (∀ i j, E' i j = conj (E i j)) ∧ E.IsHermitian ∧ E'.IsHermitian) (fun l l' h => by
      obtain ⟨rfl, h⟩ := h
      exact absE_tbt S hdet gmax gmax' hw l (hr l h) (hf l h) (hu l h)) (List.forall₂_same.2 fun l h => ⟨rfl, h⟩)
  unfold runOn
  cases hef : S.layers.mapM (GmeLay.eff opt) with
  | error e => rfl
  | ok eff =>
    simp only [bind, Except.bind]
    rcases hE with ⟨e, h1, h2⟩ | ⟨Es, Es', h1, h2, hq⟩
    · rw [h1, h2]
    · rw [h1, h2]
      simp only
      rw [hst eff hef]
      refine mapM_congr_mem _ _ _ fun ik hik => ?_
      cases hb : guided (slabStack e0 eN ls) (S.gvecT gmax') ks ik with
      | error e => rfl
      | ok b =>
        simp only
        congr 1
        obtain ⟨k, hk⟩ := hg ik (List.mem_range.1 hik) b hb
        refine sortedEigh_eq he _ _ ((gmeMatIj_hermitian _ _ _ _).add isHermitian_one)
          ((gmeMatIj_hermitian _ _ _ _).add isHermitian_one) ?_
        refine gme_conj_charpoly _ Es Es' ?_ ?_ (Equiv.refl _) (hq.imp fun _ _ h => h.1) b b hk.sorted hk.sorted
          (slabGuided_real hne h0 hN hl hk) (Equiv.refl _) (fun _ => rfl) (fun _ _ _ => rfl)
        · intro E hE
          obtain ⟨E', -, h⟩ := forall2_mem_right hq.flip E hE
          exact h.2.1
        · intro E' hE
          obtain ⟨E, -, h⟩ := forall2_mem_right hq E' hE
          exact h.2.2

/-- **C161 (branches).** The same for guided modes given by branches of roots of the dispersion relation. -/
theorem C161_branches (argsort : List ℝ → List ℕ) (eigh : ∀ n, Matrix (Fin n) (Fin n) ℂ → Fin n → ℝ)
    (he : SortedEigh eigh) (S : GmeStruct) (hdet : S.b1.1 * S.b2.2 - S.b1.2 * S.b2.1 ≠ 0)
    (gmax gmax' : ℝ) (hw : AlikeWaves S gmax gmax') (hr : ∀ l ∈ S.layers, ∀ s ∈ l.shapes, RealShape s)
    (hf : ∀ l ∈ S.layers, TbtFaithful S gmax' l) (hu : ∀ l ∈ S.layers, SameUniform S gmax' l) (opt : String)
    (e0 eN : ℝ) (ls : List (ℝ × ℝ)) (hne : ls ≠ []) (h0 : e0 ≠ 0) (hN : eN ≠ 0) (hl : ∀ l ∈ ls, l.1 ≠ 0)
    (hst : ∀ eff, S.layers.mapM (GmeLay.eff opt) = .ok eff →
      (S.layers.map GmeLay.pos).zip eff = slabStack e0 eN ls)
    (br : List (Pol × (ℝ → Option ℝ))) (hbr : RootBranches br e0 eN ls) (ks : List R2) (delta sigma : ℝ) (numeig : ℕ) :
    gmeSimTbtIj ijExact argsort eigh (branchGuided br delta e0 eN ls) S gmax' false opt ks sigma numeig =
      gmeSimIj ijExact argsort eigh (branchGuided br delta e0 eN ls) S gmax false opt ks sigma numeig :=
  C161_same_waves argsort eigh he _ S hdet gmax gmax' hw hr hf hu opt e0 eN ls hne h0 hN hl hst ks
    (fun ik _ b hb => ⟨_, branch_basis hbr delta _ _ ks ik b hb⟩) sigma numeig

/-! ### A concrete structure -/

/-- A slab with a line of holes: the second period is fifty times smaller than the first. -/
noncomputable def lineStruct : GmeStruct :=
  ⟨(1, 0), (0, 50), 1, [⟨.lower, 3, 3, none, []⟩,
    ⟨.inner (7 * Real.pi / 12), 5, 4, none, [⟨1, Circle.ft id ⟨0, 0, 0.05⟩⟩]⟩, ⟨.upper, 1, 1, none, []⟩]⟩

/-- The cutoff `3 / 2` in the units of the reciprocal vectors. -/
noncomputable def lineG : ℝ := 3 / (4 * Real.pi)

theorem lineG_two : 2 * Real.pi * lineG = 3 / 2 := by
  have := Real.pi_pos
  unfold lineG
  field_simp
  ring

theorem line_n : lineStruct.n1 lineG = 1 ∧ lineStruct.n2 lineG = 0 := by
  have h1 : norm2 lineStruct.b1 = 1 := by simp [norm2, lineStruct]
  have h2 : norm2 lineStruct.b2 = 50 := by
    simp only [norm2, lineStruct]
    rw [Real.sqrt_eq_iff_mul_self_eq (by positivity) (by positivity)]
    norm_num
  unfold GmeStruct.n1 GmeStruct.n2 nmaxOf
  rw [h1, h2, lineG_two]
  constructor
  · rw [Nat.floor_eq_iff (by norm_num)]; norm_num
  · rw [Nat.floor_eq_zero]; norm_num

theorem line_norm (i : ℤ × ℤ) : norm2 (gOf lineStruct.b1 lineStruct.b2 i) = √((i.1 ^ 2 + 2500 * i.2 ^ 2 : ℤ) : ℝ) := by
  unfold norm2
  congr 1
  simp only [gOf, lineStruct]
  push_cast
  ring

theorem line_off : OffCut lineStruct.b1 lineStruct.b2 lineG := by
  intro i h
  rw [line_norm, lineG_two, Real.sqrt_eq_iff_mul_self_eq (by positivity) (by norm_num)] at h
  have h2 : ((4 * (i.1 ^ 2 + 2500 * i.2 ^ 2) : ℤ) : ℝ) = ((9 : ℤ) : ℝ) := by
    push_cast at h ⊢
    linarith
  have h3 : 4 * (i.1 ^ 2 + 2500 * i.2 ^ 2) = 9 := by exact_mod_cast h2
  omega

/-- Both truncations keep the three plane waves along the first vector. -/
theorem line_waves : AlikeWaves lineStruct lineG lineG := by
  classical
  have hdet : lineStruct.b1.1 * lineStruct.b2.2 - lineStruct.b1.2 * lineStruct.b2.1 ≠ 0 := by norm_num [lineStruct]
  have hp := Real.pi_pos
  have key : ∀ i : ℤ × ℤ, norm2 (gOf lineStruct.b1 lineStruct.b2 i) ≤ 2 * Real.pi * lineG ↔
      (-1 ≤ i.1 ∧ i.1 ≤ 1) ∧ (0 ≤ i.2 ∧ i.2 ≤ 0) := by
    intro i
    rw [line_norm, lineG_two, Real.sqrt_le_left (by norm_num)]
    constructor
    · intro h
      have h1 : ((i.1 ^ 2 + 2500 * i.2 ^ 2 : ℤ) : ℝ) < ((3 : ℤ) : ℝ) := by
        refine lt_of_le_of_lt h ?_
        norm_num
      have h2 : i.1 ^ 2 + 2500 * i.2 ^ 2 < 3 := by exact_mod_cast h1
      refine ⟨⟨by nlinarith [sq_nonneg i.2], by nlinarith [sq_nonneg i.2]⟩, ?_, ?_⟩ <;> nlinarith [sq_nonneg i.1]
    · rintro ⟨⟨h1, h2⟩, h3, h4⟩
      have e2 : i.2 = 0 := le_antisymm h4 h3
      have h5 : i.1 ^ 2 + 2500 * i.2 ^ 2 ≤ 1 := by rw [e2]; nlinarith
      have h6 : ((i.1 ^ 2 + 2500 * i.2 ^ 2 : ℤ) : ℝ) ≤ ((1 : ℤ) : ℝ) := by exact_mod_cast h5
      refine h6.trans ?_
      norm_num
  have hinj := gOf_inj lineStruct.b1 lineStruct.b2 hdet
  have hm : ∀ i : ℤ × ℤ, i ∈ absInds lineStruct.b1 lineStruct.b2 lineG ↔
      i ∈ tbtInds (lineStruct.n1 lineG) (lineStruct.n2 lineG) := by
    intro i
    have h1 : norm2 lineStruct.b1 = 1 := by simp [norm2, lineStruct]
    rw [absInds_off line_off, List.mem_filter, decide_eq_true_eq, line_n.1, line_n.2, mem_tbtInds, key]
    push_cast
    rw [neg_zero]
    refine ⟨fun h => h.2, fun h => ⟨?_, h⟩⟩
    unfold absWindow
    rw [mem_tbtInds]
    have h2 : 1 ≤ nmaxOf (4 * Real.pi) lineG lineStruct.b1 := by
      unfold nmaxOf
      rw [h1, Nat.one_le_floor_iff]
      have := lineG_two
      linarith
    obtain ⟨⟨a, b⟩, c, d⟩ := h
    refine ⟨⟨by omega, by omega⟩, by omega, by omega⟩
  intro g
  unfold GmeStruct.gvec GmeStruct.gvecT gvecTbt
  constructor
  · intro hg
    obtain ⟨i, hi, rfl⟩ := List.mem_map.1 hg
    exact List.mem_map_of_mem ((hm i).1 hi)
  · intro hg
    obtain ⟨i, hi, rfl⟩ := List.mem_map.1 hg
    exact List.mem_map_of_mem ((hm i).2 hi)

theorem line_spaced : WellSpaced lineStruct.b1 lineStruct.b2 := by
  intro i hi
  rw [line_norm]
  have : 0 < i.1 ^ 2 + 2500 * i.2 ^ 2 := by
    rcases i with ⟨a, b⟩
    by_contra hle
    push Not at hle
    have ha : a ^ 2 = 0 := le_antisymm (by nlinarith [sq_nonneg a, sq_nonneg b]) (sq_nonneg a)
    have hb : b ^ 2 = 0 := le_antisymm (by nlinarith [sq_nonneg a, sq_nonneg b]) (sq_nonneg b)
    exact hi (Prod.ext (pow_eq_zero_iff two_ne_zero |>.1 ha) (pow_eq_zero_iff two_ne_zero |>.1 hb))
  have h1 : (1 : ℝ) ≤ √((i.1 ^ 2 + 2500 * i.2 ^ 2 : ℤ) : ℝ) := by
    rw [Real.one_le_sqrt]
    exact_mod_cast this
  exact lt_of_lt_of_le (by norm_num) h1

/-- The middle layer. -/
noncomputable def lineHole : GmeLay := ⟨.inner (7 * Real.pi / 12), 5, 4, none, [⟨1, Circle.ft id ⟨0, 0, 0.05⟩⟩]⟩

theorem lineHole_ft (i : ℤ × ℤ) (hi : i ≠ 0) : (1e-10 : ℝ) ≤ ‖lineStruct.ft lineHole (gOf lineStruct.b1 lineStruct.b2 i)‖ := by
  have hp := Real.pi_gt_three
  unfold GmeStruct.ft
  rw [C12_layer_value _ _ _ _ _ (resolved_not_g0 line_spaced.resolved hi)]
  have e : ∀ g : R2, Circle.ft id ⟨0, 0, 0.05⟩ g = ((2 * Real.pi * 0.0025 : ℝ) : ℂ) := by
    intro g
    unfold Circle.ft
    have hg : (√(|g.1 ^ 2| + |g.2 ^ 2|) + 1e-10 : ℝ) ≠ 0 := by positivity
    have hg' : ((√(|g.1 ^ 2| + |g.2 ^ 2|) + 1e-10 : ℝ) : ℂ) ≠ 0 := by exact_mod_cast hg
    simp only [Complex.ofReal_zero, mul_zero, sub_zero, Complex.exp_zero, id]
    generalize (√(|g.1 ^ 2| + |g.2 ^ 2|) + 1e-10 : ℝ) = t at hg' ⊢
    push_cast
    field_simp
    norm_num
  simp only [lineHole, lineStruct, List.map_cons, List.map_nil, List.sum_cons, List.sum_nil, add_zero, e, Complex.ofReal_one,
    div_one]
  rw [norm_mul, Complex.norm_real, Real.norm_of_nonneg (by positivity)]
  have h4 : ‖(1 : ℂ) - ((5 : ℝ) : ℂ)‖ = 4 := by
    rw [show (1 : ℂ) - ((5 : ℝ) : ℂ) = ((-4 : ℝ) : ℂ) by push_cast; norm_num, Complex.norm_real]
    norm_num
  rw [h4]
  refine le_trans (by norm_num) (show (4 : ℝ) * (2 * 3 * 0.0025) ≤ 4 * (2 * Real.pi * 0.0025) by nlinarith)

theorem line_real : ∀ l ∈ lineStruct.layers, ∀ s ∈ l.shapes, RealShape s := by
  intro l hl s hs
  simp only [lineStruct, List.mem_cons, List.not_mem_nil, or_false] at hl
  rcases hl with rfl | rfl | rfl
  · simp at hs
  · simp only [List.mem_singleton] at hs
    subst hs
    exact C12_circle_conj id _
  · simp at hs

theorem line_faithful : ∀ l ∈ lineStruct.layers, TbtFaithful lineStruct lineG l := by
  intro l hl
  refine .inl (layer_real _ l ?_)
  intro s hs i
  simp only [lineStruct, List.mem_cons, List.not_mem_nil, or_false] at hl
  rcases hl with rfl | rfl | rfl
  · simp at hs
  · simp only [List.mem_singleton] at hs
    subst hs
    exact circle_real id _ _ 0 (by simp)
  · simp at hs

theorem line_uniform : ∀ l ∈ lineStruct.layers, SameUniform lineStruct lineG l := by
  classical
  have hdet : lineStruct.b1.1 * lineStruct.b2.2 - lineStruct.b1.2 * lineStruct.b2.1 ≠ 0 := by norm_num [lineStruct]
  have hi := alikeWaves_inds hdet line_waves
  have plain : ∀ l : GmeLay, l.shapes = [] → SameUniform lineStruct lineG l := by
    intro l h
    have h1 := hom_plain lineStruct line_spaced.resolved lineG l h
    rw [hi] at h1
    refine iff_of_true h1 ?_
    refine lt_of_eq_of_lt (plainT_sum lineStruct line_spaced.resolved lineG l h) (by norm_num)
  intro l hl
  have hr := line_real l hl
  have hf := line_faithful l hl
  simp only [lineStruct, List.mem_cons, List.not_mem_nil, or_false] at hl
  rcases hl with rfl | rfl | rfl
  · exact plain _ rfl
  · have hlen : (lineStruct.gvecT lineG).length = 3 := by rw [gvecT_len, line_n.1, line_n.2]
    have hlen' : (lineStruct.gvec lineG).length = 3 := by
      rw [← hlen]
      unfold GmeStruct.gvec GmeStruct.gvecT gvecTbt
      rw [hi, List.length_map, List.length_map]
      rfl
    have hind : tbtInds 1 0 = [(-1, 0), (0, 0), (1, 0)] := by decide
    refine iff_of_false ?_ ?_
    · rw [← hi]
      unfold homAbs
      rw [not_lt, hi]
      have hl2 : (tbtInds (lineStruct.n1 lineG) (lineStruct.n2 lineG)).length = 3 := by rw [line_n.1, line_n.2]; rfl
      have nn : ∀ a b : ℕ, (0 : ℝ) ≤ if (1e-10 : ℝ) < norm2 (gOf lineStruct.b1 lineStruct.b2
          (((tbtInds (lineStruct.n1 lineG) (lineStruct.n2 lineG)).getD b 0).1 -
            ((tbtInds (lineStruct.n1 lineG) (lineStruct.n2 lineG)).getD a 0).1,
          ((tbtInds (lineStruct.n1 lineG) (lineStruct.n2 lineG)).getD b 0).2 -
            ((tbtInds (lineStruct.n1 lineG) (lineStruct.n2 lineG)).getD a 0).2)) then
          ‖epsMatAbs (lineStruct.ft lineHole) lineStruct.b1 lineStruct.b2
            (tbtInds (lineStruct.n1 lineG) (lineStruct.n2 lineG)) a b‖ else 0 := by
        intro a b
        split_ifs
        · exact norm_nonneg _
        · exact le_rfl
      refine le_trans ?_ (Finset.single_le_sum (fun a _ => Finset.sum_nonneg fun b _ => nn a b)
        (Finset.mem_range.2 (show 0 < _ by rw [hl2]; norm_num)))
      refine le_trans ?_ (Finset.single_le_sum (fun b _ => nn 0 b) (Finset.mem_range.2 (show 1 < _ by rw [hl2]; norm_num)))
      obtain ⟨ind, -, hin, he⟩ := gme_entry lineStruct lineHole hr lineG
      have e1 := he ⟨0, by rw [hlen']; norm_num⟩ ⟨1, by rw [hlen']; norm_num⟩
      rw [hin, hin, latVec_gOf, GmeStruct.epsMat, Matrix.of_apply, hi, line_n.1, line_n.2, hind] at e1
      simp only [line_n.1, line_n.2, hind]
      rw [if_pos]
      · refine le_trans (lineHole_ft (1, 0) (by decide)) (le_of_eq ?_)
        exact congrArg norm e1.symm
      · exact lt_trans (by norm_num) (line_spaced (1, 0) (by decide))
    · unfold homTbt
      rw [not_lt]
      have hgv : (tbtInds (lineStruct.n1 lineG) (lineStruct.n2 lineG)).map (gOf lineStruct.b1 lineStruct.b2) =
        lineStruct.gvecT lineG := rfl
      simp only [hgv, hlen]
      have e1 := (tbt_faithful lineStruct lineG lineHole hr hf).2 1 (by rw [hlen]; norm_num)
      unfold tbtInd at e1
      rw [line_n.1, line_n.2, hind] at e1
      have e2 : (List.range 3).tail = [1, 2] := rfl
      rw [e2]
      simp only [List.map_cons, List.map_nil, List.sum_cons, List.sum_nil, add_zero]
      refine le_trans (lineHole_ft (-1, 0) (by decide)) (le_trans (le_of_eq ?_) (le_add_of_nonneg_right (norm_nonneg _)))
      exact congrArg norm e1.symm
  · exact plain _ rfl

/-- The two truncations give the same bands of the line of holes. -/
example (argsort : List ℝ → List ℕ) (eigh : ∀ n, Matrix (Fin n) (Fin n) ℂ → Fin n → ℝ) (he : SortedEigh eigh)
    (ks : List R2) (sigma : ℝ) (numeig : ℕ) :
    gmeSimTbtIj ijExact argsort eigh (branchGuided asymBranch 1e-15 3 1 [(5, 7 * Real.pi / 12)]) lineStruct lineG false
        "background" ks sigma numeig =
      gmeSimIj ijExact argsort eigh (branchGuided asymBranch 1e-15 3 1 [(5, 7 * Real.pi / 12)]) lineStruct lineG false
        "background" ks sigma numeig := by
  refine C161_branches argsort eigh he lineStruct (by norm_num [lineStruct]) lineG lineG line_waves line_real line_faithful
    line_uniform "background" 3 1 _ (by simp) (by norm_num) one_ne_zero (by simp) (fun eff h => ?_) asymBranch asym_roots ks
    _ sigma numeig
  have : lineStruct.layers.mapM (GmeLay.eff "background") = .ok [3, 5, 1] := rfl
  rw [this] at h
  cases h
  rfl

end Legume
