import Verif.Lemmas.GenEigen
import Verif.Props.MatrixElements
import Verif.Props.GmeSim
import Verif.Props.GmeRun
import Mathlib.Data.List.NodupEquivFin

/-!
The guided-mode matrix as a quadratic form, and the selection of the lowest modes.
-/
open Matrix
open scoped ComplexOrder ComplexConjugate

namespace Legume

open Spec

/-- With `eig_sigma = 0`, the default, the frequencies nearest to it are the lowest. -/
theorem solveFull_zero (argsort : List ℝ → List ℕ) (hs : ∀ l, IsArgsort l (argsort l)) (w : List ℝ) (numeig : ℕ)
    (hn : numeig ≤ w.length) :
    ∃ r, solveFull argsort w 0 numeig = .ok r ∧ r.freq = (solvePwe argsort w numeig).freq := by
  unfold solveFull
  rw [if_neg (not_lt.2 hn)]
  refine ⟨_, rfl, ?_⟩
  set F := w.map freqOf with hF
  have hF0 : ∀ i, 0 ≤ F.getD i 0 := by
    intro i
    rw [List.getD_eq_getElem?_getD]
    rcases h : F[i]? with _ | x
    · simp
    · have : x ∈ F := List.mem_of_getElem? h
      obtain ⟨y, -, rfl⟩ := List.mem_map.1 this
      exact freqOf_nonneg y
  obtain ⟨a, b, c, d, e⟩ := select_facts argsort hs F 0 numeig (by simpa [hF] using hn)
  set sel := selectModes argsort F 0 numeig with hsel
  have e' : ∀ i ∈ sel, ∀ j, j < F.length → j ∉ sel → F.getD i 0 ≤ F.getD j 0 := by
    intro i hi j hj hjs
    have := e i hi j hj hjs
    rwa [sub_zero, sub_zero, abs_of_nonneg (hF0 i), abs_of_nonneg (hF0 j)] at this
  set rest := (List.range F.length).filter (fun i => decide (i ∉ sel)) with hrest
  have hperm : (sel ++ rest).Perm (List.range F.length) := by
    refine (List.perm_ext_iff_of_nodup ?_ List.nodup_range).2 ?_
    · refine List.Nodup.append b (List.nodup_range.filter _) ?_
      intro i hi hi'
      rw [hrest, List.mem_filter] at hi'
      simp [hi] at hi'
    · intro i
      rw [List.mem_append, hrest, List.mem_filter, List.mem_range]
      constructor
      · rintro (h | h)
        · exact c i h
        · exact h.1
      · intro h
        by_cases hi : i ∈ sel
        · exact Or.inl hi
        · exact Or.inr ⟨h, by simpa using hi⟩
  have hall : (List.range F.length).map (fun (i : ℕ) => F.getD i 0) = F := by
    apply List.ext_getElem
    · simp
    · intro i h1 h2
      simp [List.getD_eq_getElem?_getD, List.getElem?_eq_getElem h2]
  set s := sel.map (fun (i : ℕ) => F.getD i 0) with hsdef
  set r := (rest.map (fun (i : ℕ) => F.getD i 0)).mergeSort with hr
  have hp : (s ++ r).Perm F := by
    have h1 : (s ++ r).Perm ((sel ++ rest).map (fun (i : ℕ) => F.getD i 0)) := by
      rw [List.map_append]
      exact (List.mergeSort_perm _ _).append_left s
    refine h1.trans ((hperm.map _).trans ?_)
    rw [hall]
  have hso : (s ++ r).Pairwise (· ≤ ·) := by
    rw [List.pairwise_append]
    refine ⟨d, List.pairwise_mergeSort' (· ≤ ·) _, ?_⟩
    intro x hx y hy
    obtain ⟨i, hi, rfl⟩ := List.mem_map.1 hx
    obtain ⟨j, hj, rfl⟩ := List.mem_map.1 (List.mem_mergeSort.1 hy)
    rw [hrest, List.mem_filter, List.mem_range] at hj
    exact e' i hi j hj.1 (by simpa using hj.2)
  rw [solvePwe_freq argsort hs w (s ++ r) hp hso, List.take_left']
  simp [hsdef, a]

/-- Lists one of which is part of the other up to order: positions. -/
theorem subperm_index {α : Type*} {l l' : List α} (h : l.Subperm l') :
    ∃ σ : Fin l.length → Fin l'.length, Function.Injective σ ∧ ∀ i, l'[σ i] = l[i] := by
  obtain ⟨m, hm, hs⟩ := h
  have hperm : ∀ {l l' : List α}, l.Perm l' →
      ∃ σ : Fin l.length → Fin l'.length, Function.Injective σ ∧ ∀ i, l'[σ i] = l[i] := by
    intro l l' h
    induction h with
    | nil => exact ⟨id, fun _ _ h => h, fun i => rfl⟩
    | cons x _ ih =>
      obtain ⟨σ, h1, h2⟩ := ih
      refine ⟨Fin.cons 0 fun i => (σ i).succ, ?_, ?_⟩
      · rw [Fin.cons_injective_iff]
        exact ⟨by rintro ⟨i, hi⟩; exact Fin.succ_ne_zero _ hi, fun i j h => h1 (Fin.succ_injective _ h)⟩
      · intro i
        refine Fin.cases ?_ (fun i => ?_) i
        · rfl
        · exact h2 i
    | swap x y l =>
      refine ⟨Fin.cons 1 (Fin.cons 0 fun i => i.succ.succ), ?_, ?_⟩
      · rw [Fin.cons_injective_iff, Fin.cons_injective_iff]
        refine ⟨?_, ?_, fun i j h => Fin.succ_injective _ (Fin.succ_injective _ h)⟩
        · rintro ⟨i, hi⟩
          revert hi
          refine Fin.cases ?_ (fun i => ?_) i
          · intro h; exact absurd (congrArg Fin.val h) (by simp)
          · intro h; exact absurd (congrArg Fin.val h) (by simp)
        · rintro ⟨i, hi⟩
          exact Fin.succ_ne_zero _ hi
      · intro i
        refine Fin.cases ?_ (fun i => ?_) i
        · rfl
        · refine Fin.cases ?_ (fun i => ?_) i
          · rfl
          · rfl
    | trans _ _ ih1 ih2 =>
      obtain ⟨σ, h1, h2⟩ := ih1
      obtain ⟨τ, h3, h4⟩ := ih2
      exact ⟨τ ∘ σ, h3.comp h1, fun i => (h4 (σ i)).trans (h2 i)⟩
  obtain ⟨σ, h1, h2⟩ := hperm hm.symm
  obtain ⟨f, hf⟩ := List.sublist_iff_exists_fin_orderEmbedding_get_eq.1 hs
  exact ⟨f ∘ σ, f.injective.comp h1, fun i => (hf (σ i)).symm.trans (h2 i)⟩

theorem gmeMatIj_layer {N : ℕ} (stack : List (LPos × ℝ)) (einv : List (Matrix (Fin N) (Fin N) ℂ))
    (basis : List (BasisEl N)) : gmeMatIj ijLayer stack einv basis = gmeMat stack einv basis := rfl

/-- The matrix above and on the diagonal. -/
theorem gmeMatIj_upper (ij : LPos → ℂ → ℂ) {N : ℕ} (stack : List (LPos × ℝ))
    (einv : List (Matrix (Fin N) (Fin N) ℂ)) (basis : List (BasisEl N))
    (hb : basis.Pairwise fun s t => s.blk ≤ t.blk) (i j : Fin basis.length) :
    (i < j → gmeMatIj ij stack einv basis i j =
      gmeElem ij stack (einv.map fun E => E basis[i].ig basis[j].ig) basis[i].st basis[j].st) ∧
    gmeMatIj ij stack einv basis i i =
      (((gmeElem ij stack (einv.map fun E => E basis[i].ig basis[i].ig) basis[i].st basis[i].st).re : ℝ) : ℂ) := by
  have hg : ∀ i : Fin basis.length, basis[(i : ℕ)]? = some basis[i] := fun i =>
    List.getElem?_eq_getElem i.2
  constructor
  · intro h
    have hbl : basis[i].blk ≤ basis[j].blk := List.pairwise_iff_getElem.1 hb i j i.2 j.2 h
    have h' : (i : ℕ) < j := h
    simp only [gmeMatIj, of_apply, completeMat, h', if_true, blockUpper, hg, Option.map_some, Option.getD_some,
      hbl.not_gt, if_false, h'.not_gt, h'.ne, map_zero, zero_add, add_zero]
  · simp only [gmeMatIj, of_apply, completeMat, blockUpper, hg, Option.map_some, Option.getD_some, lt_self_iff_false,
      if_false, if_true, map_zero, zero_add, add_zero]

theorem gmeMatIj_hermitian (ij : LPos → ℂ → ℂ) {N : ℕ} (stack : List (LPos × ℝ))
    (einv : List (Matrix (Fin N) (Fin N) ℂ)) (basis : List (BasisEl N)) :
    (gmeMatIj ij stack einv basis).IsHermitian := by
  ext i j
  rw [conjTranspose_apply]
  exact C29_hermitian _ _ _

/-- With exact integrals and Hermitian inverse permittivity matrices nothing is lost by computing one triangle. -/
theorem gmeMatIj_exact {N : ℕ} (stack : List (LPos × ℝ)) (einv : List (Matrix (Fin N) (Fin N) ℂ))
    (hE : ∀ E ∈ einv, E.IsHermitian) (basis : List (BasisEl N)) (hb : basis.Pairwise fun s t => s.blk ≤ t.blk)
    (i j : Fin basis.length) : gmeMatIj ijExact stack einv basis i j =
      gmeElem ijExact stack (einv.map fun E => E basis[i].ig basis[j].ig) basis[i].st basis[j].st := by
  have adj : ∀ i j : Fin basis.length,
      conj (gmeElem ijExact stack (einv.map fun E => E basis[j].ig basis[i].ig) basis[j].st basis[i].st) =
      gmeElem ijExact stack (einv.map fun E => E basis[i].ig basis[j].ig) basis[i].st basis[j].st := by
    intro i j
    have h := C28_adjoint stack (einv.map fun E => E basis[i].ig basis[j].ig) basis[i].st basis[j].st
    rw [List.map_map] at h
    rw [← h]
    congr 2
    refine List.map_congr_left fun E hE' => ?_
    exact (congrFun (congrFun (hE E hE') basis[j].ig) basis[i].ig).symm
  rcases lt_trichotomy i j with h | h | h
  · exact (gmeMatIj_upper ijExact stack einv basis hb i j).1 h
  · subst h
    rw [(gmeMatIj_upper ijExact stack einv basis hb i i).2]
    exact Complex.conj_eq_iff_re.1 (adj i i)
  · rw [← (gmeMatIj_hermitian ijExact stack einv basis).apply i j, (gmeMatIj_upper ijExact stack einv basis hb j i).1 h]
    exact adj i j

/-- A quadratic form over repeated plane waves. -/
theorem qform_pull {n N : ℕ} (E : Matrix (Fin N) (Fin N) ℂ) (hE : ∀ x, 0 ≤ qform E x) (g : Fin n → Fin N)
    (y : Fin n → ℂ) : 0 ≤ (∑ i, ∑ j, conj (y i) * E (g i) (g j) * y j).re := by
  have h := hE (selMat g *ᵥ y)
  rw [qform_conj, selMat_conj, qform_sum] at h
  exact h

/-- Modes as the expansion uses them: they decay in the claddings. -/
def DecayingBasis {N : ℕ} (stack : List (LPos × ℝ)) (basis : List (BasisEl N)) : Prop :=
  ∀ s ∈ basis, List.Forall₂ (fun a m => Decays a.1 m) stack s.st.layers

/-- **Positivity** of the form of the matrix of exact elements. -/
theorem gmeElem_psd {N : ℕ} (stack : List (LPos × ℝ)) (einv : List (Matrix (Fin N) (Fin N) ℂ))
    (hlen : einv.length = stack.length) (hE : ∀ E ∈ einv, ∀ x, 0 ≤ qform E x) (basis : List (BasisEl N))
    (hd : DecayingBasis stack basis) (c : Fin basis.length → ℂ) :
    0 ≤ (∑ i, ∑ j, conj (c i) * gmeElem ijExact stack (einv.map fun E => E basis[i].ig basis[j].ig)
      basis[i].st basis[j].st * c j).re := by
  have h := C66_psd (n := basis.length) stack (einv.map fun E i j => E basis[i].ig basis[j].ig) ?_ (by simpa using hlen)
    (fun i => basis[i].st) (fun i => hd _ (List.getElem_mem _)) c
  · simpa only [List.map_map, Function.comp_def] using h
  · intro e he y
    obtain ⟨E, hE', rfl⟩ := List.mem_map.1 he
    exact qform_pull E (hE E hE') (fun i : Fin basis.length => basis[i].ig) y

theorem gmeMatIj_psd {N : ℕ} (stack : List (LPos × ℝ)) (einv : List (Matrix (Fin N) (Fin N) ℂ))
    (hlen : einv.length = stack.length) (hE : ∀ E ∈ einv, E.PosSemidef) (basis : List (BasisEl N))
    (hb : basis.Pairwise fun s t => s.blk ≤ t.blk) (hd : DecayingBasis stack basis) :
    (gmeMatIj ijExact stack einv basis).PosSemidef := by
  have hH := gmeMatIj_hermitian ijExact stack einv basis
  refine PosSemidef.of_dotProduct_mulVec_nonneg hH fun x => ?_
  rw [Complex.le_def]
  refine ⟨?_, (hH.im_star_dotProduct_mulVec_self x).symm⟩
  change (0 : ℝ) ≤ qform _ x
  rw [qform_sum]
  simp only [gmeMatIj_exact stack einv (fun E h => (hE E h).1) basis hb]
  exact gmeElem_psd stack einv hlen (fun E h x => qform_nonneg (hE E h) x) basis hd x

/-- The elements are linear in the inverse permittivities. -/
theorem gmeElem_sub (ij : LPos → ℂ → ℂ) (stack : List (LPos × ℝ)) (P : List (ℂ × ℂ)) (s t : GmeState) :
    gmeElem ij stack (P.map fun a => a.1 - a.2) s t =
      gmeElem ij stack (P.map Prod.fst) s t - gmeElem ij stack (P.map Prod.snd) s t := by
  simp only [gmeElem_eq, layPairs, List.map_map]
  simp only [List.zip_map_right, List.zip_map_left, List.map_map]
  generalize (stack.zip P).zip (s.layers.zip t.layers) = L
  induction L with
  | nil => simp
  | cons a L ih =>
    simp only [List.map_cons, List.sum_cons, ih, Function.comp, Prod.map, id]
    have : ∀ (p : LPos) (e : ℝ) (x y : ℂ) (m m' : ModeL), layTerm ij s t ⟨p, e, x - y, m, m'⟩ =
        layTerm ij s t ⟨p, e, x, m, m'⟩ - layTerm ij s t ⟨p, e, y, m, m'⟩ := by
      intro p e x y m m'
      rcases hs : s.pol with _ | _ <;> rcases ht : t.pol with _ | _ <;> simp only [layTerm, hs, ht] <;> ring
    rw [this]
    ring

/-- **Monotony** in the inverse permittivities. -/
theorem gmeMatIj_mono {N : ℕ} (stack : List (LPos × ℝ)) (P : List (Matrix (Fin N) (Fin N) ℂ × Matrix (Fin N) (Fin N) ℂ))
    (hlen : P.length = stack.length) (hH : ∀ E ∈ P, E.1.IsHermitian ∧ E.2.IsHermitian)
    (hE : ∀ E ∈ P, ∀ x, qform E.2 x ≤ qform E.1 x) (basis : List (BasisEl N))
    (hb : basis.Pairwise fun s t => s.blk ≤ t.blk) (hd : DecayingBasis stack basis) (x : Fin basis.length → ℂ) :
    qform (gmeMatIj ijExact stack (P.map Prod.snd) basis) x ≤ qform (gmeMatIj ijExact stack (P.map Prod.fst) basis) x := by
  have h := gmeElem_psd stack (P.map fun E => E.1 - E.2) (by simpa using hlen) (by
    intro D hD x
    obtain ⟨E, hE', rfl⟩ := List.mem_map.1 hD
    have := hE E hE' x
    have e : qform (E.1 - E.2) x = qform E.1 x - qform E.2 x := by
      simp only [qform, sub_mulVec, dotProduct_sub, Complex.sub_re]
    rw [e]; linarith) basis hd x
  rw [qform_sum, qform_sum]
  simp only [gmeMatIj_exact stack _ (fun E h => by
      obtain ⟨F, hF, rfl⟩ := List.mem_map.1 h; exact (hH F hF).1) basis hb,
    gmeMatIj_exact stack (P.map Prod.snd) (fun E h => by
      obtain ⟨F, hF, rfl⟩ := List.mem_map.1 h; exact (hH F hF).2) basis hb]
  have e : ∀ i j : Fin basis.length, gmeElem ijExact stack ((P.map fun E => E.1 - E.2).map fun E =>
      E basis[i].ig basis[j].ig) basis[i].st basis[j].st =
      gmeElem ijExact stack ((P.map Prod.fst).map fun E => E basis[i].ig basis[j].ig) basis[i].st basis[j].st -
      gmeElem ijExact stack ((P.map Prod.snd).map fun E => E basis[i].ig basis[j].ig) basis[i].st basis[j].st := by
    intro i j
    have := gmeElem_sub ijExact stack (P.map fun E => (E.1 basis[i].ig basis[j].ig, E.2 basis[i].ig basis[j].ig))
      basis[i].st basis[j].st
    simpa only [List.map_map, Function.comp_def, Matrix.sub_apply] using this
  simp only [e, mul_sub, sub_mul, Finset.sum_sub_distrib, Complex.sub_re] at h
  linarith

/-- **More modes.** -/
theorem gmeMatIj_sub {N : ℕ} (stack : List (LPos × ℝ)) (einv : List (Matrix (Fin N) (Fin N) ℂ))
    (hE : ∀ E ∈ einv, E.IsHermitian) (b b' : List (BasisEl N)) (hb : b.Pairwise fun s t => s.blk ≤ t.blk)
    (hb' : b'.Pairwise fun s t => s.blk ≤ t.blk)
    (hs : (b.map fun s => (s.ig, s.st)).Subperm (b'.map fun s => (s.ig, s.st))) :
    ∃ σ : Fin b.length → Fin b'.length, Function.Injective σ ∧
      gmeMatIj ijExact stack einv b = (gmeMatIj ijExact stack einv b').submatrix σ σ := by
  obtain ⟨σ, h1, h2⟩ := subperm_index hs
  have hl : (b.map fun s => (s.ig, s.st)).length = b.length := List.length_map _
  have hl' : (b'.map fun s => (s.ig, s.st)).length = b'.length := List.length_map _
  refine ⟨fun i => Fin.cast hl' (σ (Fin.cast hl.symm i)), fun i j h => ?_, ?_⟩
  · have := h1 (Fin.cast_injective hl' h)
    exact Fin.cast_injective hl.symm this
  · ext i j
    have key : ∀ i : Fin b.length, b'[Fin.cast hl' (σ (Fin.cast hl.symm i))].ig = b[i].ig ∧
        b'[Fin.cast hl' (σ (Fin.cast hl.symm i))].st = b[i].st := by
      intro i
      have := h2 (Fin.cast hl.symm i)
      simp only [Fin.getElem_fin, List.getElem_map, Prod.mk.injEq] at this
      exact this
    rw [submatrix_apply, gmeMatIj_exact stack einv hE b hb, gmeMatIj_exact stack einv hE b' hb', (key i).1, (key i).2,
      (key j).1, (key j).2]

theorem selMat_isometry {n m : ℕ} (σ : Fin n → Fin m) (hσ : Function.Injective σ) (x : Fin n → ℂ) :
    ∑ i, ‖(selMat σ).mulVecLin x i‖ ^ 2 = ∑ i, ‖x i‖ ^ 2 := by
  rw [← qform_one, mulVecLin_apply, qform_conj, selMat_conj, submatrix_one σ hσ, qform_one]

end Legume
