import Verif.Props.GmeTbt
import Verif.Props.GmeBounds
import Verif.Props.GuidedWhole

/-!
# Frequencies of runs with `truncate_g='tbt'` against the modes of the effective slab (C157)
-/
open Matrix
open scoped ComplexOrder ComplexConjugate

namespace Legume

open Spec

theorem tbtInd_injective (S : GmeStruct) (gmax : ℝ) :
    Function.Injective fun i : Fin (S.gvecT gmax).length => tbtInd S gmax i := by
  have hlt : ∀ i : Fin (S.gvecT gmax).length, (i : ℕ) < (tbtInds (S.n1 gmax) (S.n2 gmax)).length := by
    intro i
    rw [tbtInds_length]
    exact gvecT_lt S gmax i
  intro i j h
  simp only [tbtInd] at h
  rw [getD_of_len (hlt i), getD_of_len (hlt j)] at h
  exact Fin.ext ((tbtInds_nodup _ _).getElem_inj_iff.1 h)

/-- The matrix of a layer stored without loss is Hermitian. -/
theorem epsMatT_hermitian (S : GmeStruct) (gmax : ℝ) (l : GmeLay) (hr : ∀ s ∈ l.shapes, RealShape s) :
    (S.epsMatT gmax l).IsHermitian := by
  have := C19_hermitian (S.ft l) S.b1 S.b2 (S.n1 gmax) (S.n2 gmax)
    fun g => (C12_layer_conj l.epsB l.epsAvg S.ecArea l.shapes hr g).1
  ext i j
  exact congrFun (congrFun this ⟨i, gvecT_lt S gmax i⟩) ⟨j, gvecT_lt S gmax j⟩

theorem epsInvT_hermitian (S : GmeStruct) (gmax : ℝ) (onlyG : Bool) (l : GmeLay) (hr : ∀ s ∈ l.shapes, RealShape s)
    (E : Matrix (Fin (S.gvecT gmax).length) (Fin (S.gvecT gmax).length) ℂ) (hE : S.epsInvT gmax onlyG l = .ok E) :
    E.IsHermitian := by
  unfold GmeStruct.epsInvT at hE
  rw [tbt_first S gmax l hr] at hE
  split_ifs at hE with c1 c2
  · cases hE
    ext i j
    by_cases hij : i = j
    · subst hij
      simp
    · rw [conjTranspose_apply, Matrix.smul_apply, Matrix.smul_apply, one_apply_ne hij, one_apply_ne (Ne.symm hij)]
      simp
  · cases hE
    exact (epsMatT_hermitian S gmax l hr).inv

/-- **C157 (matrices).** With `truncate_g='tbt'`, for a layer of shapes which do not overlap, with permittivities between
`lo` and `hi`, and samples stored without loss: the permittivity matrix lies between `lo` and `hi`, up to the number of plane
waves times the error of a coefficient; its inversion cannot fail, and the inverse lies between the inverse bounds. -/
theorem C157_matrix (S : GmeStruct) (l : GmeLay) (a1 a2 : R2) (sh : List Drawn)
    (hD : Draws a1 a2 S.b1 S.b2 l.epsB l.epsAvg S.ecArea sh) (hsh : l.shapes = sh.map Drawn.shape)
    (hr : ∀ s ∈ l.shapes, RealShape s) (lo hi : ℝ) (hlo : lo ≤ l.epsB ∧ ∀ s ∈ l.shapes, lo ≤ s.eps)
    (hhi : l.epsB ≤ hi ∧ ∀ s ∈ l.shapes, s.eps ≤ hi) (gmax : ℝ) (hf : TbtFaithful S gmax l)
    (δ : ℝ) (hδ : (S.gvecT gmax).length * drawErr l.epsB S.ecArea sh = δ) :
    (∀ x, (lo - δ) * ∑ i, ‖x i‖ ^ 2 ≤ qform (S.epsMatT gmax l) x ∧ qform (S.epsMatT gmax l) x ≤ (hi + δ) * ∑ i, ‖x i‖ ^ 2) ∧
    (δ < lo → ∀ onlyG, ∃ E, S.epsInvT gmax onlyG l = .ok E ∧
      ∀ x, (hi + δ)⁻¹ * ∑ i, ‖x i‖ ^ 2 ≤ qform E x ∧ qform E x ≤ (lo - δ)⁻¹ * ∑ i, ‖x i‖ ^ 2) := by
  have hn : 0 < (S.gvecT gmax).length := by rw [gvecT_len]; positivity
  have hent : ∀ i j : Fin (S.gvecT gmax).length, S.epsMatT gmax l i j =
      layerFt l.epsB l.epsAvg S.ecArea (sh.map Drawn.shape)
        (latVec S.b1 S.b2 (-tbtInd S gmax j - -tbtInd S gmax i)) := by
    intro i j
    rw [(tbt_faithful S gmax l hr hf).1, ← hsh]
    unfold GmeStruct.ft
    congr 1
    simp only [latVec, gOf, Prod.fst_sub, Prod.snd_sub, Prod.fst_neg, Prod.snd_neg]
    ext <;> push_cast <;> ring
  have hinj : Function.Injective fun i : Fin (S.gvecT gmax).length => -tbtInd S gmax i :=
    neg_injective.comp (tbtInd_injective S gmax)
  have hb := fun x => C101_bounds a1 a2 S.b1 S.b2 l.epsB l.epsAvg S.ecArea sh hD lo hi
    ⟨hlo.1, fun s hs => hlo.2 _ (hsh ▸ List.mem_map_of_mem hs)⟩
    ⟨hhi.1, fun s hs => hhi.2 _ (hsh ▸ List.mem_map_of_mem hs)⟩ _ hinj x
  simp only [← hent, hδ] at hb
  refine ⟨fun x => by rw [qform_sum]; exact hb x, fun hpos onlyG => ?_⟩
  have hδ0 : 0 ≤ δ := by
    rw [← hδ]
    exact mul_nonneg (by positivity) (drawErr_nonneg a1 a2 _ _ _ _ _ _ hD)
  have hlo0 : 0 < lo - δ := by linarith
  have hhi0 : 0 < hi + δ := by linarith [hlo.1, hhi.1]
  have hP := posDef_of_form _ (epsMatT_hermitian S gmax l hr) _ hlo0 fun x => (hb x).1
  unfold GmeStruct.epsInvT
  rw [tbt_first S gmax l hr]
  split_ifs with c1 c2
  · refine ⟨_, rfl, fun x => ?_⟩
    have hx0 : 0 ≤ ∑ i, ‖x i‖ ^ 2 := Finset.sum_nonneg fun i _ => by positivity
    have hav : S.epsMatT gmax l ⟨0, hn⟩ ⟨0, hn⟩ = (l.epsAvg : ℂ) := by
      rw [hent, sub_self, latVec_zero]
      exact layerFt_g0 _ _ _ _ _ (by simp [isG0]; norm_num)
    have hb0 := hb (Pi.single ⟨0, hn⟩ 1)
    rw [← qform_sum] at hb0
    have hq : qform (S.epsMatT gmax l) (Pi.single ⟨0, hn⟩ 1) = l.epsAvg := by
      rw [qform, mulVec_single_one, ← Pi.single_star, star_one, single_one_dotProduct, col_apply, hav, Complex.ofReal_re]
    have hs1 : ∑ i, ‖(Pi.single ⟨0, hn⟩ 1 : Fin (S.gvecT gmax).length → ℂ) i‖ ^ 2 = 1 := by
      rw [Finset.sum_eq_single ⟨0, hn⟩]
      · simp
      · intro j _ hj
        simp [Pi.single_eq_of_ne hj]
      · simp
    rw [hq, hs1, mul_one, mul_one] at hb0
    rw [← Complex.ofReal_inv, uniform_qform]
    have hpa : 0 < l.epsAvg := hlo0.trans_le hb0.1
    exact ⟨mul_le_mul_of_nonneg_right (inv_anti₀ hpa hb0.2) hx0, mul_le_mul_of_nonneg_right (inv_anti₀ hlo0 hb0.1) hx0⟩
  · exact absurd c2 hP.det_pos.ne'
  · refine ⟨_, rfl, fun x => ?_⟩
    have q1 := qform_inv_le _ _ hP (uniform_posDef _ _ hhi0)
      (fun x => by rw [uniform_qform, qform_sum]; exact (hb x).2) x
    have q2 := qform_inv_le _ _ (uniform_posDef _ _ hlo0) hP
      (fun x => by rw [uniform_qform, qform_sum]; exact (hb x).1) x
    rw [smul_one_inv _ hhi0, uniform_qform] at q1
    rw [smul_one_inv _ hlo0, uniform_qform] at q2
    exact ⟨q1, q2⟩

/-- **C157 (bounds).** With `truncate_g='tbt'`: if in every layer, with the effective permittivity `e`, the inverse
permittivity matrix lies between `α / e` and `β / e`, then at every wave vector the frequency number `m` lies between `√α` and
`√β` times the `m`-th lowest frequency of the guided modes of the effective slab that were expanded in. -/
theorem C157_between (argsort : List ℝ → List ℕ) (hs : ∀ l, IsArgsort l (argsort l))
    (eigh : ∀ n, Matrix (Fin n) (Fin n) ℂ → Fin n → ℝ) (he : GoodEigh eigh) (guided : GuidedSolver) (S : GmeStruct)
    (gmax : ℝ) (onlyG : Bool) (opt : String) (hr : ∀ l ∈ S.layers, ∀ s ∈ l.shapes, RealShape s)
    (e0 eN : ℝ) (ls : List (ℝ × ℝ)) (hne : ls ≠ []) (h0 : 0 < e0) (hN : 0 < eN)
    (hl : ∀ l ∈ ls, 0 < l.1) (hd : ∀ l ∈ ls, 0 ≤ l.2)
    (hst : ∀ eff, S.layers.mapM (GmeLay.eff opt) = .ok eff →
      (S.layers.map GmeLay.pos).zip eff = slabStack e0 eN ls) (ks : List R2)
    (hg : ∀ ik < ks.length, ∀ b, guided (slabStack e0 eN ls) (S.gvecT gmax) ks ik = .ok b →
      DistinctModes b ∧ ∃ k, SlabGuided e0 eN ls (S.gvecT gmax) k b) (α β : ℝ) (hα : 0 ≤ α) (hβ : 0 ≤ β)
    (hE : ∀ l ∈ S.layers, ∀ e E, l.eff opt = .ok e → S.epsInvT gmax onlyG l = .ok E → ∀ x,
      α / e * ∑ i, ‖x i‖ ^ 2 ≤ qform E x ∧ qform E x ≤ β / e * ∑ i, ‖x i‖ ^ 2) (numeig : ℕ) (r : List KRes)
    (hrun : gmeSimTbtIj ijExact argsort eigh guided S gmax onlyG opt ks 0 numeig = .ok r) :
    List.Forall₂ (fun ik a => ∃ b, guided (slabStack e0 eN ls) (S.gvecT gmax) ks ik = .ok b ∧ BetweenModes α β numeig b a)
      (List.range ks.length) r := by
  replace hrun := tbt_ok hrun
  obtain ⟨eff, heff, hrun⟩ := bind_ok hrun
  obtain ⟨einv, heinv, hrun⟩ := bind_ok hrun
  have hstack := hst eff heff
  rw [hstack] at hrun
  have hf : List.Forall₂ (fun (p : LPos × ℝ) (E : Matrix (Fin (S.gvecT gmax).length) (Fin (S.gvecT gmax).length) ℂ) =>
      E.IsHermitian ∧ ∀ x, α / p.2 * ∑ i, ‖x i‖ ^ 2 ≤ qform E x ∧ qform E x ≤ β / p.2 * ∑ i, ‖x i‖ ^ 2)
      ((S.layers.map GmeLay.pos).zip eff) einv := by
    have h1 := mapM_ok_forall heff
    have h2 := mapM_ok_forall heinv
    clear * - hE hr h1 h2
    generalize S.layers = L at hE hr h1 h2
    induction h1 generalizing einv with
    | nil => cases h2; exact .nil
    | cons a _ ih =>
      cases h2 with
      | cons a2 h2 =>
        refine .cons ⟨epsInvT_hermitian S gmax onlyG _ (hr _ (List.mem_cons_self ..)) _ a2,
          hE _ (List.mem_cons_self ..) _ _ a a2⟩
          (ih _ (fun l hl => hE l (List.mem_cons_of_mem _ hl)) (fun l hl => hr l (List.mem_cons_of_mem _ hl)) h2)
  rw [hstack] at hf
  have hall := mapM_ok_forall hrun
  rw [List.forall₂_iff_zip] at hall ⊢
  refine ⟨hall.1, fun {ik a} hz => ?_⟩
  have hik := List.mem_range.1 (List.of_mem_zip hz).1
  obtain ⟨b, hb, ha⟩ := bind_ok (hall.2 hz)
  obtain ⟨hdis, k, hk⟩ := hg ik hik b hb
  refine ⟨b, hb, (b.map fun s => |s.st.om| / (2 * Real.pi)).mergeSort, List.pairwise_mergeSort' (· ≤ ·) _,
    List.mergeSort_perm _ _, ?_⟩
  exact slab_between argsort hs eigh he hne h0 hN hl hd hk hdis α β hα hβ einv hf numeig a ha _
    (List.pairwise_mergeSort' (· ≤ ·) _) (List.mergeSort_perm _ _)

/-- A layer of shapes which do not overlap, with permittivities between `lo` and `hi`, whose samples are stored without loss;
`α` and `β` are bounds for the ratio of the effective permittivity `e` to these, up to the number of plane waves times the
error of a coefficient. -/
def ContrastLayerT (S : GmeStruct) (gmax : ℝ) (l : GmeLay) (e α β : ℝ) : Prop :=
  TbtFaithful S gmax l ∧
  ∃ (a1 a2 : R2) (sh : List Drawn) (lo hi : ℝ), Draws a1 a2 S.b1 S.b2 l.epsB l.epsAvg S.ecArea sh ∧
    l.shapes = sh.map Drawn.shape ∧ (lo ≤ l.epsB ∧ ∀ s ∈ l.shapes, lo ≤ s.eps) ∧
    (l.epsB ≤ hi ∧ ∀ s ∈ l.shapes, s.eps ≤ hi) ∧ (S.gvecT gmax).length * drawErr l.epsB S.ecArea sh < lo ∧
    α * (hi + (S.gvecT gmax).length * drawErr l.epsB S.ecArea sh) ≤ e ∧
    e ≤ β * (lo - (S.gvecT gmax).length * drawErr l.epsB S.ecArea sh)

/-- **C157 (structures of shapes).** For layers of shapes which do not overlap, the bounds are given by the permittivities
of the shapes and of the background and the effective permittivities. -/
theorem C157_drawn (argsort : List ℝ → List ℕ) (hs : ∀ l, IsArgsort l (argsort l))
    (eigh : ∀ n, Matrix (Fin n) (Fin n) ℂ → Fin n → ℝ) (he : GoodEigh eigh) (guided : GuidedSolver) (S : GmeStruct)
    (gmax : ℝ) (onlyG : Bool) (opt : String) (hr : ∀ l ∈ S.layers, ∀ s ∈ l.shapes, RealShape s)
    (e0 eN : ℝ) (ls : List (ℝ × ℝ)) (hne : ls ≠ []) (h0 : 0 < e0) (hN : 0 < eN)
    (hl : ∀ l ∈ ls, 0 < l.1) (hd : ∀ l ∈ ls, 0 ≤ l.2)
    (hst : ∀ eff, S.layers.mapM (GmeLay.eff opt) = .ok eff →
      (S.layers.map GmeLay.pos).zip eff = slabStack e0 eN ls) (ks : List R2)
    (hg : ∀ ik < ks.length, ∀ b, guided (slabStack e0 eN ls) (S.gvecT gmax) ks ik = .ok b →
      DistinctModes b ∧ ∃ k, SlabGuided e0 eN ls (S.gvecT gmax) k b) (α β : ℝ) (hα : 0 ≤ α) (hβ : 0 ≤ β)
    (hE : ∀ l ∈ S.layers, ∀ e, l.eff opt = .ok e → ContrastLayerT S gmax l e α β) (numeig : ℕ) (r : List KRes)
    (hrun : gmeSimTbtIj ijExact argsort eigh guided S gmax onlyG opt ks 0 numeig = .ok r) :
    List.Forall₂ (fun ik a => ∃ b, guided (slabStack e0 eN ls) (S.gvecT gmax) ks ik = .ok b ∧ BetweenModes α β numeig b a)
      (List.range ks.length) r := by
  obtain ⟨eff, heff, -⟩ := bind_ok (tbt_ok hrun)
  refine C157_between argsort hs eigh he guided S gmax onlyG opt hr e0 eN ls hne h0 hN hl hd hst ks hg α β hα hβ ?_
    numeig r hrun
  intro l hl' e E h1 h2 x
  have hpos := eff_mem hst heff h0 hN hl l hl' e h1
  obtain ⟨hf, a1, a2, sh, lo, hi, hD, hsh, hlo, hhi, k1, k2, k3⟩ := hE l hl' e h1
  obtain ⟨E', hE', hb⟩ := (C157_matrix S l a1 a2 sh hD hsh (hr l hl') lo hi hlo hhi gmax hf _ rfl).2 k1 onlyG
  rw [h2] at hE'
  cases hE'
  set δ := (S.gvecT gmax).length * drawErr l.epsB S.ecArea sh with hδ
  have hδ0 : 0 ≤ δ := mul_nonneg (by positivity) (drawErr_nonneg a1 a2 _ _ _ _ _ _ hD)
  have hhi0 : 0 < hi + δ := by linarith [hlo.1, hhi.1]
  have hlo0 : 0 < lo - δ := by linarith
  have hx0 : 0 ≤ ∑ i, ‖x i‖ ^ 2 := Finset.sum_nonneg fun i _ => by positivity
  have ha : α / e ≤ (hi + δ)⁻¹ := by
    rw [div_le_iff₀ hpos, inv_mul_eq_div, le_div_iff₀ hhi0]
    exact k2
  have hb' : (lo - δ)⁻¹ ≤ β / e := by
    rw [le_div_iff₀ hpos, inv_mul_eq_div, div_le_iff₀ hlo0]
    exact k3
  exact ⟨(mul_le_mul_of_nonneg_right ha hx0).trans (hb x).1, (hb x).2.trans (mul_le_mul_of_nonneg_right hb' hx0)⟩

/-- What the expansion uses as the inverse in a layer without shapes, or with only the guided modes wanted. -/
theorem epsInvT_plain (S : GmeStruct) (hS : Resolved S.b1 S.b2) (gmax : ℝ) (onlyG : Bool) (l : GmeLay)
    (hr : ∀ s ∈ l.shapes, RealShape s) (h : l.shapes = [] ∨ onlyG = true) :
    S.epsInvT gmax onlyG l = .ok (((l.epsAvg⁻¹ : ℝ) : ℂ) • 1) := by
  unfold GmeStruct.epsInvT
  rw [tbt_first S gmax l hr, Complex.ofReal_inv, if_pos]
  rcases h with h | h
  · left
    unfold homTbt
    have hgv : (tbtInds (S.n1 gmax) (S.n2 gmax)).map (gOf S.b1 S.b2) = S.gvecT gmax := rfl
    simp only [hgv]
    refine lt_of_le_of_lt (le_of_eq (List.sum_eq_zero fun x hx => ?_)) (by norm_num : (0 : ℝ) < 1e-10)
    obtain ⟨k, hk, rfl⟩ := List.mem_map.1 hx
    have hk1 : 0 < (S.gvecT gmax).length := by rw [gvecT_len]; positivity
    have hk' := List.mem_range.1 (List.mem_of_mem_tail hk)
    have hk0 : k ≠ 0 := by
      rintro rfl
      obtain ⟨m, hm⟩ := Nat.exists_eq_succ_of_ne_zero hk1.ne'
      rw [hm, List.range_succ_eq_map] at hk
      simp at hk
    have hz : T1raw (S.ft l) (S.gvecT gmax) k = 0 := by
      unfold T1raw GmeStruct.ft
      rw [gvecT_getD S gmax k hk', gvecT_getD S gmax 0 hk1, gOf_pair, h, C12_layer_value]
      · simp
      · have hne : ((tbtInd S gmax 0).1 - (tbtInd S gmax k).1, (tbtInd S gmax 0).2 - (tbtInd S gmax k).2) ≠ ((0, 0) : ℤ × ℤ) := by
          intro e
          have e1 : tbtInd S gmax 0 = tbtInd S gmax k := by
            have := Prod.mk.inj e
            exact Prod.ext (by omega) (by omega)
          have := tbtInd_injective S gmax (a₁ := ⟨0, hk1⟩) (a₂ := ⟨k, hk'⟩) e1
          exact hk0 (Fin.mk.inj this).symm
        intro hlt
        have := hS _ _ hne
        refine this ⟨lt_of_le_of_lt ?_ hlt, lt_of_le_of_lt ?_ hlt⟩
        · simp only [gOf]
          exact le_add_of_nonneg_right (abs_nonneg _)
        · simp only [gOf]
          exact le_add_of_nonneg_left (abs_nonneg _)
    unfold T1tbt
    rw [hz]
    unfold castTo
    split <;> simp
  · exact Or.inr h

/-- **C157 (only the guided modes).** `only_gmodes=True` is refused with `truncate_g='tbt'`, whatever else is wrong with the
call. -/
theorem C157_only_gmodes (argsort : List ℝ → List ℕ) (eigh : ∀ n, Matrix (Fin n) (Fin n) ℂ → Fin n → ℝ)
    (guided : GuidedSolver) (S : GmeStruct) (gmax : ℝ) (opt : String) (ks : List R2) (sigma : ℝ) (numeig : ℕ) :
    gmeSimTbt argsort eigh guided S gmax true opt ks sigma numeig = .error .valueError :=
  tbt_refused ..

/-- **C157 (unpatterned).** With `truncate_g='tbt'`, for structures without shapes and with
the average permittivities as the effective ones, the frequencies at every wave vector are the lowest of the guided modes of
the slab at the plane waves. -/
theorem C157_unpatterned (argsort : List ℝ → List ℕ) (hs : ∀ l, IsArgsort l (argsort l))
    (eigh : ∀ n, Matrix (Fin n) (Fin n) ℂ → Fin n → ℝ) (he : GoodEigh eigh) (guided : GuidedSolver) (S : GmeStruct)
    (hS : Resolved S.b1 S.b2) (gmax : ℝ) (onlyG : Bool) (opt : String)
    (hu : ∀ l ∈ S.layers, l.shapes = [] ∧ l.eff opt = .ok l.epsAvg)
    (e0 eN : ℝ) (ls : List (ℝ × ℝ)) (hne : ls ≠ []) (h0 : 0 < e0) (hN : 0 < eN)
    (hl : ∀ l ∈ ls, 0 < l.1) (hd : ∀ l ∈ ls, 0 ≤ l.2)
    (hst : ∀ eff, S.layers.mapM (GmeLay.eff opt) = .ok eff →
      (S.layers.map GmeLay.pos).zip eff = slabStack e0 eN ls) (ks : List R2)
    (hg : ∀ ik < ks.length, ∀ b, guided (slabStack e0 eN ls) (S.gvecT gmax) ks ik = .ok b →
      DistinctModes b ∧ ∃ k, SlabGuided e0 eN ls (S.gvecT gmax) k b) (numeig : ℕ) (r : List KRes)
    (hrun : gmeSimTbtIj ijExact argsort eigh guided S gmax onlyG opt ks 0 numeig = .ok r) :
    List.Forall₂ (fun ik a => ∃ b, ∃ c : List ℝ, guided (slabStack e0 eN ls) (S.gvecT gmax) ks ik = .ok b ∧
      c.Pairwise (· ≤ ·) ∧ c.Perm (b.map fun s => |s.st.om| / (2 * Real.pi)) ∧ a.freq = c.take numeig)
      (List.range ks.length) r := by
  have key := C157_between argsort hs eigh he guided S gmax onlyG opt
    (fun l hl' => by simp [(hu l hl').1]) e0 eN ls hne h0 hN hl hd hst ks hg 1 1 zero_le_one
    zero_le_one (fun l hl' e E h1 h2 x => by
      rw [(hu l hl').2] at h1
      cases h1
      rw [epsInvT_plain S hS gmax onlyG l (by simp [(hu l hl').1]) (.inl (hu l hl').1)] at h2
      cases h2
      rw [uniform_qform, one_div]
      exact ⟨le_rfl, le_rfl⟩) numeig r hrun
  refine key.imp ?_
  rintro ik a ⟨b, hb, c, c1, c2, c3, c4⟩
  simp only [Real.sqrt_one, one_mul, List.map_id'] at c3 c4
  exact ⟨b, c, hb, c1, c2, forall2_le_antisymm c4 c3⟩

/-! ### Examples -/

/-- The slab of C96 with air holes at the lattice points: with at most 10^6 plane waves its frequencies lie between
`√0.9995` and `√5.01` times those of the slab without holes. -/
example (argsort : List ℝ → List ℕ) (hs : ∀ l, IsArgsort l (argsort l))
    (eigh : ∀ n, Matrix (Fin n) (Fin n) ℂ → Fin n → ℝ) (he : GoodEigh eigh) (gmax : ℝ)
    (hn : (asymHoles.gvecT gmax).length ≤ 10 ^ 6) (ks : List R2) (numeig : ℕ) (r : List KRes)
    (hrun : gmeSimTbtIj ijExact argsort eigh (branchGuided asymBranch 1e-15 3 1 [(5, 7 * Real.pi / 12)]) asymHoles gmax
      false "background" ks 0 numeig = .ok r) :
    List.Forall₂ (fun ik a => ∃ b, branchGuided asymBranch 1e-15 3 1 [(5, 7 * Real.pi / 12)]
      (slabStack 3 1 [(5, 7 * Real.pi / 12)]) (asymHoles.gvecT gmax) ks ik = .ok b ∧ BetweenModes 0.9995 5.01 numeig b a)
      (List.range ks.length) r := by
  have hD0 : ∀ e : ℝ, Draws (1, 0) (0, 1) asymHoles.b1 asymHoles.b2 e e asymHoles.ecArea [] := fun e =>
    ⟨square_holes.dual, resolved_square, by simp [asymHoles], ⟨by simp, by simp⟩, by simp, by simp, by simp, by simp⟩
  have hD1 : Draws (1, 0) (0, 1) asymHoles.b1 asymHoles.b2 5 (5 + (1 - 5) * (Real.pi * 0.2 ^ 2) / 1) asymHoles.ecArea
      [drawnCircle 1 ⟨0, 0, 0.2⟩] := by
    obtain ⟨m1, m2, -, m4⟩ := C101_circle 1 ⟨0, 0, 0.2⟩ (by norm_num)
    refine ⟨square_holes.dual, resolved_square, by simp [asymHoles], square_holes.apart, ?_, ?_, ?_, ?_⟩
    · simpa using m1
    · simpa using fun n m _ => m4 (latVec asymHoles.b1 asymHoles.b2 (n, m))
    · simp only [List.mem_singleton, forall_eq, drawnCircle]; have := Real.pi_pos; positivity
    · simp only [List.map_cons, List.map_nil, List.sum_cons, List.sum_nil, m2, add_zero]; rfl
  have herr : ((asymHoles.gvecT gmax).length : ℝ) * drawErr 5 asymHoles.ecArea [drawnCircle 1 ⟨0, 0, 0.2⟩] ≤ 0.001 := by
    have h4 : |(1 : ℝ) - 5| = 4 := by norm_num
    have h1 : ((asymHoles.gvecT gmax).length : ℝ) ≤ 10 ^ 6 := by exact_mod_cast hn
    have := Real.pi_lt_four
    have h0 := Real.pi_pos
    simp only [drawErr, drawnCircle, List.map_cons, List.map_nil, List.sum_cons, List.sum_nil, h4, asymHoles]
    have h3 : (4 * (2 * Real.pi * (0.2 : ℝ) ^ 3 * 1e-10) + 0) / 1 ≤ 1e-9 := by norm_num; linarith
    have h4 : 0 ≤ (4 * (2 * Real.pi * (0.2 : ℝ) ^ 3 * 1e-10) + 0) / 1 := by positivity
    calc _ ≤ (10 : ℝ) ^ 6 * 1e-9 := mul_le_mul h1 h3 h4 (by positivity)
      _ ≤ 0.001 := by norm_num
  have hreal : ∀ l ∈ asymHoles.layers, ∀ s ∈ l.shapes, RealShape s ∧
      ∀ i : ℤ × ℤ, (s.ft (gOf asymHoles.b1 asymHoles.b2 i)).im = 0 := by
    intro l hl s hs
    simp only [asymHoles, List.mem_cons, List.not_mem_nil, or_false] at hl
    rcases hl with rfl | rfl | rfl
    · simp at hs
    · simp only [List.mem_singleton] at hs
      subst hs
      exact ⟨C12_circle_conj besselJ1 _, fun i => circle_real besselJ1 _ _ 0 (by simp)⟩
    · simp at hs
  refine C157_drawn argsort hs eigh he _ asymHoles gmax false "background" (fun l hl s hs => (hreal l hl s hs).1) 3 1
    [(5, 7 * Real.pi / 12)] (by simp) (by norm_num) one_pos (by simp) (by simp; positivity) ?_ ks
    (fun ik _ b hb => ⟨?_, _, branch_basis asym_roots _ _ _ ks ik b hb⟩) 0.9995 5.01 (by norm_num) (by norm_num) ?_ numeig r
    hrun
  · rintro eff h
    cases h
    rfl
  · exact branch_distinct asymBranch (by simp [asymBranch]) _ _ _ _ _ _ ks ik b hb
  · intro l hl e hle
    refine ⟨.inl (layer_real _ l fun s hs => (hreal l hl s hs).2), ?_⟩
    simp only [asymHoles, List.mem_cons, List.not_mem_nil, or_false] at hl
    rcases hl with rfl | rfl | rfl
    · cases hle
      exact ⟨(1, 0), (0, 1), [], 3, 3, hD0 3, rfl, by simp, by simp, by simp [drawErr], by norm_num [drawErr],
        by norm_num [drawErr]⟩
    · cases hle
      have h0 := mul_nonneg (Nat.cast_nonneg (asymHoles.gvecT gmax).length (α := ℝ))
        (drawErr_nonneg _ _ _ _ _ _ _ _ hD1)
      refine ⟨(1, 0), (0, 1), [drawnCircle 1 ⟨0, 0, 0.2⟩], 1, 5, hD1, rfl, by simp, by norm_num,
        lt_of_le_of_lt herr (by norm_num), ?_, ?_⟩
      · dsimp only at herr h0 ⊢
        linarith
      · dsimp only at herr h0 ⊢
        linarith
    · cases hle
      exact ⟨(1, 0), (0, 1), [], 1, 1, hD0 1, rfl, by simp, by simp, by simp [drawErr], by norm_num [drawErr],
        by norm_num [drawErr]⟩

/-- The slab of C96 without holes. -/
noncomputable def asymBare : GmeStruct :=
  ⟨(2 * Real.pi, 0), (0, 2 * Real.pi), 1, [⟨.lower, 3, 3, none, []⟩, ⟨.inner (7 * Real.pi / 12), 5, 5, none, []⟩,
    ⟨.upper, 1, 1, none, []⟩]⟩

example (argsort : List ℝ → List ℕ) (hs : ∀ l, IsArgsort l (argsort l))
    (eigh : ∀ n, Matrix (Fin n) (Fin n) ℂ → Fin n → ℝ) (he : GoodEigh eigh) (gmax : ℝ) (ks : List R2) (numeig : ℕ)
    (r : List KRes)
    (hrun : gmeSimTbtIj ijExact argsort eigh (branchGuided asymBranch 1e-15 3 1 [(5, 7 * Real.pi / 12)]) asymBare gmax
      false "average" ks 0 numeig = .ok r) :
    List.Forall₂ (fun ik a => ∃ b, ∃ c : List ℝ, branchGuided asymBranch 1e-15 3 1 [(5, 7 * Real.pi / 12)]
      (slabStack 3 1 [(5, 7 * Real.pi / 12)]) (asymBare.gvecT gmax) ks ik = .ok b ∧
      c.Pairwise (· ≤ ·) ∧ c.Perm (b.map fun s => |s.st.om| / (2 * Real.pi)) ∧ a.freq = c.take numeig)
      (List.range ks.length) r := by
  refine C157_unpatterned argsort hs eigh he _ asymBare resolved_square gmax false "average" ?_ 3 1
    [(5, 7 * Real.pi / 12)] (by simp) (by norm_num) one_pos (by simp) (by simp; positivity) ?_ ks
    (fun ik _ b hb => ⟨?_, _, branch_basis asym_roots _ _ _ ks ik b hb⟩) numeig r hrun
  · intro l hl
    simp only [asymBare, List.mem_cons, List.not_mem_nil, or_false] at hl
    rcases hl with rfl | rfl | rfl <;> exact ⟨rfl, rfl⟩
  · rintro eff h
    cases h
    rfl
  · exact branch_distinct asymBranch (by simp [asymBranch]) _ _ _ _ _ _ ks ik b hb

end Legume
