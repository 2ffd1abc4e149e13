import Verif.Props.TimeReversal
import Verif.Props.Regulariser
import Verif.Lemmas.FieldOverlap

/-!
# Guided-mode frequencies between those of the folded modes of the effective slab (C111)

The frequencies of a patterned slab are bounded on both sides by the frequencies of the guided modes that enter the
expansion, scaled with the contrast between the permittivities of the layers and the effective ones.
-/
open Matrix
open scoped ComplexOrder ComplexConjugate

namespace Legume

open Spec

/-- Modes with the same plane wave differ in polarisation or frequency. -/
def DistinctModes {N : ℕ} (b : List (BasisEl N)) : Prop :=
  b.Pairwise fun s t => s.ig = t.ig → s.st.pol ≠ t.st.pol ∨ s.st.om ^ 2 ≠ t.st.om ^ 2

theorem slabGuided_decaying {e0 eN : ℝ} {ls : List (ℝ × ℝ)} (hne : ls ≠ []) (h0 : e0 ≠ 0) (hN : eN ≠ 0)
    (hl : ∀ l ∈ ls, l.1 ≠ 0) (hd : ∀ l ∈ ls, 0 ≤ l.2) {gvec : List R2} {k : R2} {b : List (BasisEl gvec.length)}
    (h : SlabGuided e0 eN ls gvec k b) : DecayingBasis (slabStack e0 eN ls) b := by
  intro s hs
  obtain ⟨abs, h1, h2⟩ := h.mode s hs
  obtain ⟨g1, -⟩ := slabRoot_guided h1 hne h0 hN hl
  have hlen : s.st.layers.length = (slabStack e0 eN ls).length := by
    rw [h2, normState_eq, mkLayers_length]
    · simp
    · simp [scaleAbs, g1.len, slabStack_length]
  rw [List.forall₂_iff_get]
  refine ⟨hlen.symm, fun i hi hi' => ?_⟩
  have := state_decays hne hd h0 hN hl h1 ⟨i, hi⟩
  rw [← h2, GmeState.layAt] at this
  simpa [List.getD_eq_getElem?_getD, List.getElem?_eq_getElem hi'] using this

theorem gmeElem_scale (ij : LPos → ℂ → ℂ) (stack : List (LPos × ℝ)) (P : List ℂ) (c : ℂ) (s t : GmeState) :
    gmeElem ij stack (P.map fun a => c * a) s t = c * gmeElem ij stack P s t := by
  simp only [gmeElem_eq, layPairs, List.map_map]
  simp only [List.zip_map_right, List.zip_map_left, List.map_map]
  generalize (stack.zip P).zip (s.layers.zip t.layers) = L
  induction L with
  | nil => simp
  | cons a L ih =>
    simp only [List.map_cons, List.sum_cons, ih, Function.comp, Prod.map, id]
    have : ∀ (p : LPos) (e : ℝ) (x : ℂ) (m m' : ModeL), layTerm ij s t ⟨p, e, c * x, m, m'⟩ =
        c * layTerm ij s t ⟨p, e, x, m, m'⟩ := by
      intro p e x m m'
      rcases hs : s.pol with _ | _ <;> rcases ht : t.pol with _ | _ <;> simp only [layTerm, hs, ht] <;> ring
    rw [this]
    ring

/-- The inverse permittivities of uniform layers, all scaled by `α`. -/
noncomputable def scaledInv (N : ℕ) (e0 eN : ℝ) (ls : List (ℝ × ℝ)) (α : ℝ) : List (Matrix (Fin N) (Fin N) ℂ) :=
  (slabStack e0 eN ls).map fun p => ((α / p.2 : ℝ) : ℂ) • 1

/-- The matrix of uniform layers is diagonal in the guided modes. -/
theorem slabGuided_diagonal {e0 eN : ℝ} {ls : List (ℝ × ℝ)} (hne : ls ≠ []) (h0 : 0 < e0) (hN : eN ≠ 0)
    (hl : ∀ l ∈ ls, l.1 ≠ 0) (hd : ∀ l ∈ ls, 0 ≤ l.2) {gvec : List R2} {k : R2} {b : List (BasisEl gvec.length)}
    (h : SlabGuided e0 eN ls gvec k b) (hdis : DistinctModes b) (α : ℝ) :
    gmeMatIj ijExact (slabStack e0 eN ls) (scaledInv gvec.length e0 eN ls α) b =
      diagonal fun i => ((α * b[i].st.om ^ 2 : ℝ) : ℂ) := by
  have hH : ∀ E ∈ scaledInv gvec.length e0 eN ls α, E.IsHermitian := by
    intro E hE
    obtain ⟨p, -, rfl⟩ := List.mem_map.1 hE
    ext i j
    rw [conjTranspose_apply, Matrix.smul_apply, Matrix.smul_apply, Matrix.one_apply, Matrix.one_apply]
    by_cases hij : i = j
    · subst hij; simp
    · simp [hij, Ne.symm hij]
  have key : ∀ (s t : BasisEl gvec.length), s ∈ b → t ∈ b →
      (s = t → gmeElem ijExact (slabStack e0 eN ls) ((scaledInv gvec.length e0 eN ls α).map fun E => E s.ig t.ig) s.st
        t.st = ((α * s.st.om ^ 2 : ℝ) : ℂ)) ∧
      ((s.ig = t.ig → s.st.pol ≠ t.st.pol ∨ s.st.om ^ 2 ≠ t.st.om ^ 2) →
        gmeElem ijExact (slabStack e0 eN ls) ((scaledInv gvec.length e0 eN ls α).map fun E => E s.ig t.ig) s.st
        t.st = 0) := by
    intro s t hs ht
    by_cases hig : s.ig = t.ig
    · obtain ⟨abs1, r1, q1⟩ := h.mode s hs
      obtain ⟨abs2, r2, q2⟩ := h.mode t ht
      have hgt : gvec[t.ig] = gvec[s.ig] := congrArg (fun i : Fin gvec.length => gvec[i]) hig.symm
      rw [hgt] at r2 q2
      have hg : √((gvec[s.ig].1 + k.1) ^ 2 + (gvec[s.ig].2 + k.2) ^ 2) ≠ 0 := by
        intro hz
        have := r1.low
        rw [hz] at this
        nlinarith [mul_nonneg h0.le (sq_nonneg s.st.om)]
      have hc := C93_elements _ _ e0 eN ls hne hd h0.ne' hN hl hg _ _ _ _ abs1 abs2 r1 r2
      simp only [← q1, ← q2] at hc
      have hmap : ((scaledInv gvec.length e0 eN ls α).map fun E => E s.ig t.ig) =
          ((slabStack e0 eN ls).map fun p => 1 / (p.2 : ℂ)).map fun a => (α : ℂ) * a := by
        unfold scaledInv
        rw [List.map_map, List.map_map]
        refine List.map_congr_left fun p _ => ?_
        simp only [Function.comp, Matrix.smul_apply, hig, one_apply_eq, smul_eq_mul]
        push_cast
        ring
      rw [hmap, gmeElem_scale]
      constructor
      · rintro rfl
        rw [hc.1]
        push_cast
        ring
      · intro hd'
        rw [hc.2 (hd' hig), mul_zero]
    · refine ⟨fun h => absurd (by rw [h]) hig, fun _ => gmeElem_zero _ _ _ ?_ _ _⟩
      intro e he
      obtain ⟨E, hE, rfl⟩ := List.mem_map.1 he
      obtain ⟨p, -, rfl⟩ := List.mem_map.1 hE
      rw [Matrix.smul_apply, one_apply_ne hig, smul_zero]
  ext i j
  rw [gmeMatIj_exact _ _ hH b h.sorted i j]
  have hi : b[i] ∈ b := List.getElem_mem _
  have hj : b[j] ∈ b := List.getElem_mem _
  rcases lt_trichotomy i j with hij | rfl | hij
  · rw [diagonal_apply_ne _ hij.ne]
    exact (key _ _ hi hj).2 (List.pairwise_iff_getElem.1 hdis i j i.2 j.2 hij)
  · rw [diagonal_apply_eq]
    exact (key _ _ hi hi).1 rfl
  · rw [diagonal_apply_ne _ hij.ne']
    refine (key _ _ hi hj).2 fun h => ?_
    have := List.pairwise_iff_getElem.1 hdis j i j.2 i.2 hij h.symm
    exact this.imp Ne.symm Ne.symm

/-- The frequencies of a diagonal matrix. -/
theorem diagonal_freqs (argsort : List ℝ → List ℕ) (hs : ∀ l, IsArgsort l (argsort l)) {N : ℕ} (b : List (BasisEl N))
    (α : ℝ) (hα : 0 ≤ α) (c : List ℝ) (hc : c.Pairwise (· ≤ ·))
    (hperm : c.Perm (b.map fun s => |s.st.om| / (2 * Real.pi))) (numeig : ℕ) :
    IsEigh ((diagonal fun i : Fin b.length => ((α * b[i].st.om ^ 2 : ℝ) : ℂ)) + 1) (fun i => α * b[i].st.om ^ 2 + 1) 1 ∧
    (diagonal fun i : Fin b.length => ((α * b[i].st.om ^ 2 : ℝ) : ℂ)).PosSemidef ∧
    (solvePwe argsort (List.ofFn fun i : Fin b.length => α * b[i].st.om ^ 2 + 1) numeig).freq =
      (c.map fun x => √α * x).take numeig := by
  refine ⟨⟨by simp, ?_⟩, ?_, ?_⟩
  · rw [Matrix.mul_one, Matrix.one_mul, ← diagonal_one, diagonal_add]
    congr 1
    funext i
    push_cast
    rfl
  · refine PosSemidef.diagonal fun i => ?_
    have : 0 ≤ α * b[i].st.om ^ 2 := by positivity
    change (0 : ℂ) ≤ ((α * b[i].st.om ^ 2 : ℝ) : ℂ)
    exact_mod_cast this
  · refine solvePwe_freq argsort hs _ _ ?_ ?_ numeig
    · refine (hperm.map _).trans (List.Perm.of_eq ?_)
      rw [List.map_map, List.map_ofFn]
      apply List.ext_getElem
      · simp
      · intro i h1 h2
        simp only [List.getElem_map, Function.comp, List.getElem_ofFn, freqOf, add_sub_cancel_right]
        have hp : 0 ≤ α * (b[i]'(by simpa using h1)).st.om ^ 2 := by positivity
        simp only [Fin.getElem_fin]
        rw [abs_of_nonneg hp, Real.sqrt_mul hα, Real.sqrt_sq_eq_abs]
        ring
    · rw [List.pairwise_map]
      exact hc.imp fun h => mul_le_mul_of_nonneg_left h (Real.sqrt_nonneg _)

theorem forall2_of_le {l l' : List ℝ} (hlen : l.length = l'.length)
    (h : ∀ (i : ℕ) (h : i < l.length) (h' : i < l'.length), l[i] ≤ l'[i]) : List.Forall₂ (· ≤ ·) l l' := by
  rw [List.forall₂_iff_get]
  exact ⟨hlen, fun i h1 h2 => h i h1 h2⟩

/-- One wave vector. -/
theorem slab_between (argsort : List ℝ → List ℕ) (hs : ∀ l, IsArgsort l (argsort l))
    (eigh : ∀ n, Matrix (Fin n) (Fin n) ℂ → Fin n → ℝ) (he : GoodEigh eigh)
    {e0 eN : ℝ} {ls : List (ℝ × ℝ)} (hne : ls ≠ []) (h0 : 0 < e0) (hN : 0 < eN)
    (hl : ∀ l ∈ ls, 0 < l.1) (hd : ∀ l ∈ ls, 0 ≤ l.2) {gvec : List R2} {k : R2} {b : List (BasisEl gvec.length)}
    (h : SlabGuided e0 eN ls gvec k b) (hdis : DistinctModes b) (α β : ℝ) (hα : 0 ≤ α) (hβ : 0 ≤ β)
    (einv : List (Matrix (Fin gvec.length) (Fin gvec.length) ℂ))
    (hE : List.Forall₂ (fun (p : LPos × ℝ) (E : Matrix (Fin gvec.length) (Fin gvec.length) ℂ) => E.IsHermitian ∧ ∀ x,
      α / p.2 * ∑ i, ‖x i‖ ^ 2 ≤ qform E x ∧ qform E x ≤ β / p.2 * ∑ i, ‖x i‖ ^ 2) (slabStack e0 eN ls) einv)
    (numeig : ℕ) (r : KRes)
    (hr : solveFull argsort (List.ofFn (eigh _ (gmeMatIj ijExact (slabStack e0 eN ls) einv b + 1))) 0 numeig = .ok r)
    (c : List ℝ) (hc : c.Pairwise (· ≤ ·)) (hperm : c.Perm (b.map fun s => |s.st.om| / (2 * Real.pi))) :
    List.Forall₂ (· ≤ ·) ((c.map fun x => √α * x).take numeig) r.freq ∧
      List.Forall₂ (· ≤ ·) r.freq ((c.map fun x => √β * x).take numeig) := by
  have hlen := hE.length_eq
  have hdec := slabGuided_decaying hne h0.ne' hN.ne' (fun l hl' => (hl l hl').ne') hd h
  have hdiag := slabGuided_diagonal hne h0 hN.ne' (fun l hl' => (hl l hl').ne') hd h hdis
  have hpos : ∀ p ∈ slabStack e0 eN ls, 0 < p.2 := by
    intro p hp
    simp only [slabStack, List.cons_append, List.mem_cons, List.mem_append, List.not_mem_nil, or_false,
      List.mem_map] at hp
    rcases hp with rfl | ⟨l, hl', rfl⟩ | rfl
    exacts [h0, hl l hl', hN]
  have hzip : ∀ z ∈ (slabStack e0 eN ls).zip einv, z.2.IsHermitian ∧ ∀ x,
      α / z.1.2 * ∑ i, ‖x i‖ ^ 2 ≤ qform z.2 x ∧ qform z.2 x ≤ β / z.1.2 * ∑ i, ‖x i‖ ^ 2 := by
    intro z hz
    exact (List.forall₂_iff_zip.1 hE).2 hz
  have hP : ∀ E ∈ einv, E.PosSemidef := by
    intro E hE'
    obtain ⟨p, hp, hH, hx⟩ := forall2_mem_right hE E hE'
    refine PosSemidef.of_dotProduct_mulVec_nonneg hH fun x => ?_
    rw [Complex.le_def]
    refine ⟨le_trans ?_ (hx x).1, (hH.im_star_dotProduct_mulVec_self x).symm⟩
    have := hpos p hp
    exact mul_nonneg (by positivity) (Finset.sum_nonneg fun i _ => by positivity)
  have hA := gmeMatIj_psd _ einv hlen.symm hP b h.sorted hdec
  have hsc : ∀ γ : ℝ, ((slabStack e0 eN ls).zip einv).map (fun z => ((γ / z.1.2 : ℝ) : ℂ) •
      (1 : Matrix (Fin gvec.length) (Fin gvec.length) ℂ)) = scaledInv gvec.length e0 eN ls γ := by
    intro γ
    unfold scaledInv
    rw [show (fun z : (LPos × ℝ) × Matrix (Fin gvec.length) (Fin gvec.length) ℂ => ((γ / z.1.2 : ℝ) : ℂ) •
      (1 : Matrix (Fin gvec.length) (Fin gvec.length) ℂ)) = (fun p : LPos × ℝ => ((γ / p.2 : ℝ) : ℂ) • 1) ∘ Prod.fst from rfl,
      ← List.map_map, List.map_fst_zip hlen.le]
  have hsn : ((slabStack e0 eN ls).zip einv).map Prod.snd = einv := List.map_snd_zip hlen.ge
  have hherm : ∀ γ : ℝ, (((γ : ℝ) : ℂ) • (1 : Matrix (Fin gvec.length) (Fin gvec.length) ℂ)).IsHermitian := by
    intro γ
    rw [IsHermitian, conjTranspose_smul, conjTranspose_one]
    simp
  have hlow := fun x => gmeMatIj_mono (slabStack e0 eN ls)
    (((slabStack e0 eN ls).zip einv).map fun z => (z.2, ((α / z.1.2 : ℝ) : ℂ) • 1))
    (by rw [List.length_map, List.length_zip, hlen, min_self])
    (by
      intro E hE'
      obtain ⟨z, hz, rfl⟩ := List.mem_map.1 hE'
      exact ⟨(hzip z hz).1, hherm _⟩)
    (by
      intro E hE' x
      obtain ⟨z, hz, rfl⟩ := List.mem_map.1 hE'
      simp only
      rw [uniform_qform]
      exact ((hzip z hz).2 x).1) b h.sorted hdec x
  have hup := fun x => gmeMatIj_mono (slabStack e0 eN ls)
    (((slabStack e0 eN ls).zip einv).map fun z => (((β / z.1.2 : ℝ) : ℂ) • 1, z.2))
    (by rw [List.length_map, List.length_zip, hlen, min_self])
    (by
      intro E hE'
      obtain ⟨z, hz, rfl⟩ := List.mem_map.1 hE'
      exact ⟨hherm _, (hzip z hz).1⟩)
    (by
      intro E hE' x
      obtain ⟨z, hz, rfl⟩ := List.mem_map.1 hE'
      simp only
      rw [uniform_qform]
      exact ((hzip z hz).2 x).2) b h.sorted hdec x
  simp only [List.map_map, Function.comp_def] at hlow hup
  rw [hsn, hsc] at hlow hup
  obtain ⟨V, hV⟩ := he _ _ (hA.1.add isHermitian_one)
  have hn := solveFull_ok hr
  obtain ⟨t, ht, hf⟩ := solveFull_zero argsort hs _ numeig hn
  rw [hr] at ht
  cases ht
  have hlenr : r.freq.length = numeig := by rw [hf, solvePwe_length argsort hs, min_eq_left hn]
  have hcl : c.length = b.length := by rw [hperm.length_eq, List.length_map]
  have hnb : numeig ≤ b.length := by simpa using hn
  obtain ⟨a1, a2, a3⟩ := diagonal_freqs argsort hs b α hα c hc hperm numeig
  obtain ⟨b1, b2, b3⟩ := diagonal_freqs argsort hs b β hβ c hc hperm numeig
  rw [hdiag α] at hlow
  rw [hdiag β] at hup
  constructor
  · refine forall2_of_le (by rw [hlenr]; simp; omega) fun i h1 h2 => ?_
    simp only [← a3, hf] at h1 h2 ⊢
    exact freq_ritz argsort hs a2 hA a1 hV LinearMap.id (fun x => rfl) hlow numeig i h1 h2
  · refine forall2_of_le (by rw [hlenr]; simp; omega) fun i h1 h2 => ?_
    simp only [← b3, hf] at h1 h2 ⊢
    exact freq_ritz argsort hs hA b2 hV b1 LinearMap.id (fun x => rfl) hup numeig i h1 h2

/-- At a wave vector with the guided modes `b` the frequencies are between those of the modes scaled. -/
def BetweenModes {N : ℕ} (α β : ℝ) (numeig : ℕ) (b : List (BasisEl N)) (r : KRes) : Prop :=
  ∃ c : List ℝ, c.Pairwise (· ≤ ·) ∧ c.Perm (b.map fun s => |s.st.om| / (2 * Real.pi)) ∧
    List.Forall₂ (· ≤ ·) ((c.map fun x => √α * x).take numeig) r.freq ∧
    List.Forall₂ (· ≤ ·) r.freq ((c.map fun x => √β * x).take numeig)

/-- **C111.** If in every layer, with the effective permittivity `e`, the inverse permittivity matrix lies between `α / e`
and `β / e`, then at every wave vector the frequency number `m` lies between `√α` and `√β` times the `m`-th lowest frequency
of the guided modes of the effective slab that were expanded in. -/
theorem C111_between (argsort : List ℝ → List ℕ) (hs : ∀ l, IsArgsort l (argsort l))
    (eigh : ∀ n, Matrix (Fin n) (Fin n) ℂ → Fin n → ℝ) (he : GoodEigh eigh) (guided : GuidedSolver) (S : GmeStruct)
    (gmax : ℝ) (onlyG : Bool) (opt : String) (hr : ∀ l ∈ S.layers, ∀ s ∈ l.shapes, RealShape s)
    (e0 eN : ℝ) (ls : List (ℝ × ℝ)) (hne : ls ≠ []) (h0 : 0 < e0) (hN : 0 < eN)
    (hl : ∀ l ∈ ls, 0 < l.1) (hd : ∀ l ∈ ls, 0 ≤ l.2)
    (hst : ∀ eff, S.layers.mapM (GmeLay.eff opt) = .ok eff →
      (S.layers.map GmeLay.pos).zip eff = slabStack e0 eN ls) (ks : List R2)
    (hg : ∀ ik < ks.length, ∀ b, guided (slabStack e0 eN ls) (S.gvec gmax) ks ik = .ok b →
      DistinctModes b ∧ ∃ k, SlabGuided e0 eN ls (S.gvec gmax) k b) (α β : ℝ) (hα : 0 ≤ α) (hβ : 0 ≤ β)
    (hE : ∀ l ∈ S.layers, ∀ e E, l.eff opt = .ok e → S.epsInv gmax onlyG l = .ok E → ∀ x,
      α / e * ∑ i, ‖x i‖ ^ 2 ≤ qform E x ∧ qform E x ≤ β / e * ∑ i, ‖x i‖ ^ 2) (numeig : ℕ) (r : List KRes)
    (hrun : gmeSimIj ijExact argsort eigh guided S gmax onlyG opt ks 0 numeig = .ok r) :
    List.Forall₂ (fun ik a => ∃ b, guided (slabStack e0 eN ls) (S.gvec gmax) ks ik = .ok b ∧ BetweenModes α β numeig b a)
      (List.range ks.length) r := by
  unfold gmeSimIj at hrun
  obtain ⟨eff, heff, hrun⟩ := bind_ok hrun
  obtain ⟨einv, heinv, hrun⟩ := bind_ok hrun
  have hstack := hst eff heff
  rw [hstack] at hrun
  have hf : List.Forall₂ (fun (p : LPos × ℝ) (E : Matrix (Fin (S.gvec gmax).length) (Fin (S.gvec gmax).length) ℂ) =>
      E.IsHermitian ∧ ∀ x, α / p.2 * ∑ i, ‖x i‖ ^ 2 ≤ qform E x ∧ qform E x ≤ β / p.2 * ∑ i, ‖x i‖ ^ 2)
      ((S.layers.map GmeLay.pos).zip eff) einv := by
    have h1 := mapM_ok_forall heff
    have h2 := mapM_ok_forall heinv
    clear * - hE hr h1 h2
    generalize S.layers = L at hE hr h1 h2
    induction h1 generalizing einv with
    | nil => cases h2; exact .nil
    | cons a _ ih =>
      cases h2 with
      | cons a2 h2 =>
        refine .cons ⟨epsInv_hermitian S gmax onlyG _ (hr _ (List.mem_cons_self ..)) _ a2,
          hE _ (List.mem_cons_self ..) _ _ a a2⟩
          (ih _ (fun l hl => hE l (List.mem_cons_of_mem _ hl)) (fun l hl => hr l (List.mem_cons_of_mem _ hl)) h2)
  rw [hstack] at hf
  have hall := mapM_ok_forall hrun
  rw [List.forall₂_iff_zip] at hall ⊢
  refine ⟨hall.1, fun {ik a} hz => ?_⟩
  have hik := List.mem_range.1 (List.of_mem_zip hz).1
  obtain ⟨b, hb, ha⟩ := bind_ok (hall.2 hz)
  obtain ⟨hdis, k, hk⟩ := hg ik hik b hb
  refine ⟨b, hb, (b.map fun s => |s.st.om| / (2 * Real.pi)).mergeSort, List.pairwise_mergeSort' (· ≤ ·) _,
    List.mergeSort_perm _ _, ?_⟩
  exact slab_between argsort hs eigh he hne h0 hN hl hd hk hdis α β hα hβ einv hf numeig a ha _
    (List.pairwise_mergeSort' (· ≤ ·) _) (List.mergeSort_perm _ _)

/-! ### Layers made of shapes -/

/-- A layer of shapes which do not overlap, with permittivities between `lo` and `hi`; `α` and `β` are bounds for the ratio
of the effective permittivity `e` to these, up to the number of plane waves times the error of a coefficient. -/
def ContrastLayer (S : GmeStruct) (gmax : ℝ) (l : GmeLay) (e α β : ℝ) : Prop :=
  ∃ (a1 a2 : R2) (sh : List Drawn) (lo hi : ℝ), Draws a1 a2 S.b1 S.b2 l.epsB l.epsAvg S.ecArea sh ∧
    l.shapes = sh.map Drawn.shape ∧ (lo ≤ l.epsB ∧ ∀ s ∈ l.shapes, lo ≤ s.eps) ∧
    (l.epsB ≤ hi ∧ ∀ s ∈ l.shapes, s.eps ≤ hi) ∧ (S.gvec gmax).length * drawErr l.epsB S.ecArea sh < lo ∧
    α * (hi + (S.gvec gmax).length * drawErr l.epsB S.ecArea sh) ≤ e ∧
    e ≤ β * (lo - (S.gvec gmax).length * drawErr l.epsB S.ecArea sh)

theorem smul_one_inv {n : ℕ} (c : ℝ) (hc : 0 < c) :
    ((c : ℂ) • (1 : Matrix (Fin n) (Fin n) ℂ))⁻¹ = ((c⁻¹ : ℝ) : ℂ) • 1 := by
  have hc0 : (c : ℂ) ≠ 0 := by exact_mod_cast hc.ne'
  apply inv_eq_right_inv
  rw [Complex.ofReal_inv, smul_mul_smul_comm, mul_inv_cancel₀ hc0, one_smul, one_mul]

theorem contrast_inv (S : GmeStruct) (gmax : ℝ) (l : GmeLay) (hr : ∀ s ∈ l.shapes, RealShape s) (e α β : ℝ) (he : 0 < e)
    (h : ContrastLayer S gmax l e α β) (onlyG : Bool)
    (E : Matrix (Fin (S.gvec gmax).length) (Fin (S.gvec gmax).length) ℂ) (hE : S.epsInv gmax onlyG l = .ok E)
    (x : Fin (S.gvec gmax).length → ℂ) :
    α / e * ∑ i, ‖x i‖ ^ 2 ≤ qform E x ∧ qform E x ≤ β / e * ∑ i, ‖x i‖ ^ 2 := by
  obtain ⟨a1, a2, sh, lo, hi, hD, hsh, hlo, hhi, h1, h2, h3⟩ := h
  set δ := (S.gvec gmax).length * drawErr l.epsB S.ecArea sh with hδ
  have hδ0 : 0 ≤ δ := mul_nonneg (by positivity) (drawErr_nonneg a1 a2 _ _ _ _ _ _ hD)
  have hhi0 : 0 < hi + δ := by linarith [hlo.1, hhi.1]
  have hlo0 : 0 < lo - δ := by linarith
  have ha : α / e ≤ (hi + δ)⁻¹ := by
    rw [div_le_iff₀ he, inv_mul_eq_div, le_div_iff₀ hhi0]
    exact h2
  have hb : (lo - δ)⁻¹ ≤ β / e := by
    rw [le_div_iff₀ he, inv_mul_eq_div, div_le_iff₀ hlo0]
    exact h3
  have hx0 : 0 ≤ ∑ i, ‖x i‖ ^ 2 := Finset.sum_nonneg fun i _ => by positivity
  suffices hk : (hi + δ)⁻¹ * ∑ i, ‖x i‖ ^ 2 ≤ qform E x ∧ qform E x ≤ (lo - δ)⁻¹ * ∑ i, ‖x i‖ ^ 2 from
    ⟨(mul_le_mul_of_nonneg_right ha hx0).trans hk.1, hk.2.trans (mul_le_mul_of_nonneg_right hb hx0)⟩
  rcases Nat.eq_zero_or_pos (S.gvec gmax).length with hn | hn
  · have hem : IsEmpty (Fin (S.gvec gmax).length) := by rw [hn]; infer_instance
    rw [qform_sum]
    simp
  obtain ⟨bd, -⟩ := C101_gme S l a1 a2 sh hD hsh hr lo hi hlo hhi gmax
  rw [← hδ] at bd
  have hherm : (S.epsMat gmax l).IsHermitian := by
    obtain ⟨ind, -, -, h⟩ := gme_entry S l hr gmax
    ext i j
    rw [conjTranspose_apply, h, h, RCLike.star_def]
    unfold GmeStruct.ft
    rw [← (C12_layer_conj l.epsB l.epsAvg S.ecArea l.shapes hr _).1]
    congr 1
    simp only [latVec, Prod.fst_sub, Prod.snd_sub]
    ext <;> push_cast <;> ring
  have hP := posDef_of_form _ hherm _ hlo0 fun x => (bd x).1
  unfold GmeStruct.epsInv at hE
  split_ifs at hE with c1 c2
  · cases hE
    have hent : epsMatAbs (S.ft l) S.b1 S.b2 (absInds S.b1 S.b2 gmax) 0 0 = S.epsMat gmax l ⟨0, hn⟩ ⟨0, hn⟩ := rfl
    have hav : S.epsMat gmax l ⟨0, hn⟩ ⟨0, hn⟩ = (l.epsAvg : ℂ) := by
      obtain ⟨ind, -, -, h⟩ := gme_entry S l hr gmax
      rw [h, sub_self, latVec_zero]
      exact layerFt_g0 _ _ _ _ _ (by simp [isG0]; norm_num)
    have hb0 := bd (Pi.single ⟨0, hn⟩ 1)
    rw [← qform_sum] at hb0
    have hq : qform (S.epsMat gmax l) (Pi.single ⟨0, hn⟩ 1) = l.epsAvg := by
      rw [qform, mulVec_single_one, ← Pi.single_star, star_one, single_one_dotProduct, col_apply, hav, Complex.ofReal_re]
    have hs1 : ∑ i, ‖(Pi.single ⟨0, hn⟩ 1 : Fin (S.gvec gmax).length → ℂ) i‖ ^ 2 = 1 := by
      rw [Finset.sum_eq_single ⟨0, hn⟩]
      · simp
      · intro j _ hj
        simp [Pi.single_eq_of_ne hj]
      · simp
    rw [hq, hs1, mul_one, mul_one] at hb0
    rw [hent, hav, ← Complex.ofReal_inv, uniform_qform]
    have hpa : 0 < l.epsAvg := hlo0.trans_le hb0.1
    exact ⟨mul_le_mul_of_nonneg_right (inv_anti₀ hpa hb0.2) hx0, mul_le_mul_of_nonneg_right (inv_anti₀ hlo0 hb0.1) hx0⟩
  · cases hE
    have q1 := qform_inv_le _ _ hP (uniform_posDef _ _ hhi0)
      (fun x => by rw [uniform_qform, qform_sum]; exact (bd x).2) x
    have q2 := qform_inv_le _ _ (uniform_posDef _ _ hlo0) hP
      (fun x => by rw [uniform_qform, qform_sum]; exact (bd x).1) x
    rw [smul_one_inv _ hhi0, uniform_qform] at q1
    rw [smul_one_inv _ hlo0, uniform_qform] at q2
    exact ⟨q1, q2⟩

theorem eff_mem {S : GmeStruct} {opt : String} {e0 eN : ℝ} {ls : List (ℝ × ℝ)}
    (hst : ∀ eff, S.layers.mapM (GmeLay.eff opt) = .ok eff → (S.layers.map GmeLay.pos).zip eff = slabStack e0 eN ls)
    {eff : List ℝ} (heff : S.layers.mapM (GmeLay.eff opt) = .ok eff) (h0 : 0 < e0) (hN : 0 < eN)
    (hl : ∀ l ∈ ls, 0 < l.1) : ∀ l ∈ S.layers, ∀ e, l.eff opt = .ok e → 0 < e := by
  intro l hl' e he
  have hlen := (mapM_ok_forall heff).length_eq
  have hmem : e ∈ eff := by
    have h := mapM_ok_forall heff
    clear heff hlen
    generalize S.layers = L at h hl'
    induction h with
    | nil => simp at hl'
    | cons a _ ih =>
      rcases List.mem_cons.1 hl' with rfl | h
      · rw [a] at he
        cases he
        exact List.mem_cons_self ..
      · exact List.mem_cons_of_mem _ (ih h)
  have h2 : eff = (slabStack e0 eN ls).map Prod.snd := by
    rw [← hst eff heff, List.map_snd_zip (by simp [hlen])]
  rw [h2] at hmem
  obtain ⟨p, hp, rfl⟩ := List.mem_map.1 hmem
  simp only [slabStack, List.cons_append, List.mem_cons, List.mem_append, List.not_mem_nil, or_false,
    List.mem_map] at hp
  rcases hp with rfl | ⟨l, hl', rfl⟩ | rfl
  exacts [h0, hl l hl', hN]

/-- **C111 (structures of shapes).** For layers of shapes which do not overlap, the bounds are given by the permittivities
of the shapes and of the background and the effective permittivities. -/
theorem C111_drawn (argsort : List ℝ → List ℕ) (hs : ∀ l, IsArgsort l (argsort l))
    (eigh : ∀ n, Matrix (Fin n) (Fin n) ℂ → Fin n → ℝ) (he : GoodEigh eigh) (guided : GuidedSolver) (S : GmeStruct)
    (gmax : ℝ) (onlyG : Bool) (opt : String) (hr : ∀ l ∈ S.layers, ∀ s ∈ l.shapes, RealShape s)
    (e0 eN : ℝ) (ls : List (ℝ × ℝ)) (hne : ls ≠ []) (h0 : 0 < e0) (hN : 0 < eN)
    (hl : ∀ l ∈ ls, 0 < l.1) (hd : ∀ l ∈ ls, 0 ≤ l.2)
    (hst : ∀ eff, S.layers.mapM (GmeLay.eff opt) = .ok eff →
      (S.layers.map GmeLay.pos).zip eff = slabStack e0 eN ls) (ks : List R2)
    (hg : ∀ ik < ks.length, ∀ b, guided (slabStack e0 eN ls) (S.gvec gmax) ks ik = .ok b →
      DistinctModes b ∧ ∃ k, SlabGuided e0 eN ls (S.gvec gmax) k b) (α β : ℝ) (hα : 0 ≤ α) (hβ : 0 ≤ β)
    (hE : ∀ l ∈ S.layers, ∀ e, l.eff opt = .ok e → ContrastLayer S gmax l e α β) (numeig : ℕ) (r : List KRes)
    (hrun : gmeSimIj ijExact argsort eigh guided S gmax onlyG opt ks 0 numeig = .ok r) :
    List.Forall₂ (fun ik a => ∃ b, guided (slabStack e0 eN ls) (S.gvec gmax) ks ik = .ok b ∧ BetweenModes α β numeig b a)
      (List.range ks.length) r := by
  obtain ⟨eff, heff, -⟩ := bind_ok (show (S.layers.mapM (GmeLay.eff opt) >>= _) = .ok r from hrun)
  refine C111_between argsort hs eigh he guided S gmax onlyG opt hr e0 eN ls hne h0 hN hl hd hst ks hg α β hα hβ ?_
    numeig r hrun
  intro l hl' e E h1 h2 x
  exact contrast_inv S gmax l (hr l hl') e α β (eff_mem hst heff h0 hN hl l hl' e h1) (hE l hl' e h1) onlyG E h2 x

/-- **C111 (holes).** With `gmode_eps='background'`, holes, i.e. shapes of a permittivity not above that of the background,
never lower a frequency: each is at least that of the guided modes of the slab without the holes (up to the error of the
coefficients `η`). -/
theorem C111_holes (argsort : List ℝ → List ℕ) (hs : ∀ l, IsArgsort l (argsort l))
    (eigh : ∀ n, Matrix (Fin n) (Fin n) ℂ → Fin n → ℝ) (he : GoodEigh eigh) (guided : GuidedSolver) (S : GmeStruct)
    (gmax : ℝ) (onlyG : Bool) (hr : ∀ l ∈ S.layers, ∀ s ∈ l.shapes, RealShape s)
    (e0 eN : ℝ) (ls : List (ℝ × ℝ)) (hne : ls ≠ []) (h0 : 0 < e0) (hN : 0 < eN)
    (hl : ∀ l ∈ ls, 0 < l.1) (hd : ∀ l ∈ ls, 0 ≤ l.2)
    (hst : (S.layers.map GmeLay.pos).zip (S.layers.map GmeLay.epsB) = slabStack e0 eN ls) (ks : List R2)
    (hg : ∀ ik < ks.length, ∀ b, guided (slabStack e0 eN ls) (S.gvec gmax) ks ik = .ok b →
      DistinctModes b ∧ ∃ k, SlabGuided e0 eN ls (S.gvec gmax) k b) (η : ℝ) (hη : 0 ≤ η)
    (hE : ∀ l ∈ S.layers, ∃ (a1 a2 : R2) (sh : List Drawn) (lo : ℝ),
      Draws a1 a2 S.b1 S.b2 l.epsB l.epsAvg S.ecArea sh ∧ l.shapes = sh.map Drawn.shape ∧
      (∀ s ∈ l.shapes, lo ≤ s.eps ∧ s.eps ≤ l.epsB) ∧ lo ≤ l.epsB ∧
      (S.gvec gmax).length * drawErr l.epsB S.ecArea sh < lo ∧
      (S.gvec gmax).length * drawErr l.epsB S.ecArea sh ≤ η * l.epsB) (numeig : ℕ) (r : List KRes)
    (hrun : gmeSimIj ijExact argsort eigh guided S gmax onlyG "background" ks 0 numeig = .ok r) :
    List.Forall₂ (fun ik a => ∃ b, guided (slabStack e0 eN ls) (S.gvec gmax) ks ik = .ok b ∧
      ∃ c : List ℝ, c.Pairwise (· ≤ ·) ∧ c.Perm (b.map fun s => |s.st.om| / (2 * Real.pi)) ∧
        List.Forall₂ (· ≤ ·) ((c.map fun x => x / √(1 + η)).take numeig) a.freq) (List.range ks.length) r := by
  have heff : S.layers.mapM (GmeLay.eff "background") = .ok (S.layers.map GmeLay.epsB) := by
    rw [← mapM_ok_map]
    rfl
  have hβ : ∃ β : ℝ, 0 ≤ β ∧ ∀ l ∈ S.layers, ContrastLayer S gmax l l.epsB (1 / (1 + η)) β := by
    have hmono : ∀ l β β', 0 ≤ l.epsB → β ≤ β' → ContrastLayer S gmax l l.epsB (1 / (1 + η)) β →
        ContrastLayer S gmax l l.epsB (1 / (1 + η)) β' := by
      rintro l β β' - hb ⟨a1, a2, sh, lo, hi, hD, hsh, hlo, hhi, h1, h2, h3⟩
      refine ⟨a1, a2, sh, lo, hi, hD, hsh, hlo, hhi, h1, h2, h3.trans ?_⟩
      exact mul_le_mul_of_nonneg_right hb (by linarith)
    have one : ∀ l ∈ S.layers, 0 ≤ l.epsB ∧ ∃ β, ContrastLayer S gmax l l.epsB (1 / (1 + η)) β := by
      intro l hl'
      obtain ⟨a1, a2, sh, lo, hD, hsh, hs1, hs2, hs3, hs4⟩ := hE l hl'
      have hδ0 : 0 ≤ (S.gvec gmax).length * drawErr l.epsB S.ecArea sh :=
        mul_nonneg (by positivity) (drawErr_nonneg a1 a2 _ _ _ _ _ _ hD)
      refine ⟨by linarith, l.epsB / (lo - (S.gvec gmax).length * drawErr l.epsB S.ecArea sh), a1, a2, sh, lo, l.epsB, hD,
        hsh, ⟨hs2, fun s hs => (hs1 s hs).1⟩, ⟨le_rfl, fun s hs => (hs1 s hs).2⟩, hs3, ?_, ?_⟩
      · rw [one_div, inv_mul_le_iff₀ (by linarith)]
        linarith
      · rw [div_mul_cancel₀ _ (by linarith)]
    clear hE hst heff hrun
    generalize S.layers = L at one
    induction L with
    | nil => exact ⟨0, le_rfl, by simp⟩
    | cons a L ih =>
      obtain ⟨β, h1, h2⟩ := ih fun l hl => one l (List.mem_cons_of_mem _ hl)
      obtain ⟨q, β', h3⟩ := one a (List.mem_cons_self ..)
      refine ⟨max β β', le_max_of_le_left h1, fun l hl => ?_⟩
      rcases List.mem_cons.1 hl with rfl | hl'
      · exact hmono _ _ _ q (le_max_right _ _) h3
      · exact hmono _ _ _ (one l hl).1 (le_max_left _ _) (h2 l hl')
  obtain ⟨β, hβ0, hβ⟩ := hβ
  have key := C111_drawn argsort hs eigh he guided S gmax onlyG "background" hr e0 eN ls hne h0 hN hl hd
    (fun eff h => by rw [heff] at h; cases h; exact hst) ks hg (1 / (1 + η)) β (by positivity) hβ0
    (fun l hl' e h => by
      have : l.eff "background" = .ok l.epsB := rfl
      rw [this] at h
      cases h
      exact hβ l hl') numeig r hrun
  refine key.imp fun ik a => ?_
  rintro ⟨b, hb, c, c1, c2, c3, -⟩
  refine ⟨b, hb, c, c1, c2, ?_⟩
  have : (fun x => x / √(1 + η)) = fun x => √(1 / (1 + η)) * x := by
    funext x
    rw [Real.sqrt_div zero_le_one, Real.sqrt_one]
    ring
  rw [this]
  exact c3

/-- **C111 (code).** With the integrals of the code the squared angular frequencies keep these bounds up to the effect `d` of
the regularisation (C106). -/
theorem C111_code (argsort : List ℝ → List ℕ) (hs : ∀ l, IsArgsort l (argsort l))
    (eigh : ∀ n, Matrix (Fin n) (Fin n) ℂ → Fin n → ℝ) (he : GoodEigh eigh) (guided : GuidedSolver) (S : GmeStruct)
    (gmax : ℝ) (onlyG : Bool) (opt : String) (hr : ∀ l ∈ S.layers, ∀ s ∈ l.shapes, RealShape s)
    (e0 eN : ℝ) (ls : List (ℝ × ℝ)) (hne : ls ≠ []) (h0 : 0 < e0) (hN : 0 < eN)
    (hl : ∀ l ∈ ls, 0 < l.1) (hd : ∀ l ∈ ls, 0 ≤ l.2)
    (hst : ∀ eff, S.layers.mapM (GmeLay.eff opt) = .ok eff →
      (S.layers.map GmeLay.pos).zip eff = slabStack e0 eN ls) (ks : List R2) (e d : ℝ)
    (hg : ∀ ik b, guided (slabStack e0 eN ls) (S.gvec gmax) ks ik = .ok b →
      DistinctModes b ∧ (∃ k, SlabGuided e0 eN ls (S.gvec gmax) k b) ∧ b.length * e ≤ d ∧
      ∀ einv, S.layers.mapM (S.epsInv gmax onlyG) = .ok einv → SmallReg e (slabStack e0 eN ls) einv b)
    (α β : ℝ) (hα : 0 ≤ α) (hβ : 0 ≤ β)
    (hE : ∀ l ∈ S.layers, ∀ e, l.eff opt = .ok e → ContrastLayer S gmax l e α β) (numeig : ℕ) (r : List KRes)
    (hrun : gmeSim argsort eigh guided S gmax onlyG opt ks 0 numeig = .ok r) :
    List.Forall₂ (fun ik a => ∃ b, guided (slabStack e0 eN ls) (S.gvec gmax) ks ik = .ok b ∧
      ∃ c : List ℝ, c.Pairwise (· ≤ ·) ∧ c.Perm (b.map fun s => |s.st.om|) ∧
        List.Forall₂ (fun x f => α * x ^ 2 - d ≤ (2 * Real.pi * f) ^ 2 ∧ (2 * Real.pi * f) ^ 2 ≤ β * x ^ 2 + d)
          (c.take numeig) a.freq) (List.range ks.length) r := by
  obtain ⟨eff, heff, -⟩ := bind_ok (show (S.layers.mapM (GmeLay.eff opt) >>= _) = .ok r from hrun)
  have hpsd : ∀ l ∈ S.layers, ∀ E, S.epsInv gmax onlyG l = .ok E → E.PosSemidef := by
    intro l hl' E hEl
    obtain ⟨E', h1, h2⟩ := drawnLayer_inv S gmax l (by
      have hex : ∃ e, l.eff opt = .ok e := by
        have h := mapM_ok_forall heff
        clear * - h hl'
        generalize S.layers = L at h hl'
        induction h with
        | nil => simp at hl'
        | cons a _ ih =>
          rcases List.mem_cons.1 hl' with rfl | h
          · exact ⟨_, a⟩
          · exact ih h
      obtain ⟨e, hel⟩ := hex
      obtain ⟨a1, a2, sh, lo, hi, hD, hsh, hlo, hhi, h1, -⟩ := hE l hl' e hel
      exact ⟨a1, a2, sh, lo, hD, hsh, hr l hl', hlo.1, hlo.2, h1⟩) onlyG
    rw [h1] at hEl
    cases hEl
    exact h2
  obtain ⟨q, hq, hnear⟩ := C106_near argsort hs eigh he guided S gmax onlyG opt ks numeig e d hpsd (by
    intro eff einv ik b h1 h2 h3
    rw [hst eff h1] at h3 ⊢
    obtain ⟨-, ⟨k, hk⟩, h4, h5⟩ := hg ik b h3
    exact ⟨⟨hk.sorted, slabGuided_decaying hne h0.ne' hN.ne' (fun l hl' => (hl l hl').ne') hd hk⟩, h5 einv h2, h4⟩) r hrun
  have key := C111_drawn argsort hs eigh he guided S gmax onlyG opt hr e0 eN ls hne h0 hN hl hd hst ks
    (fun ik _ b hb => ⟨(hg ik b hb).1, (hg ik b hb).2.1⟩) α β hα hβ hE numeig q hq
  clear hq hrun
  generalize List.range ks.length = R at key ⊢
  induction hnear generalizing R with
  | nil => cases key; exact .nil
  | cons hn _ ih =>
    cases key with
    | cons hk key =>
      refine .cons ?_ (ih _ key)
      obtain ⟨b, hb, c, c1, c2, c3, c4⟩ := hk
      have hpi := Real.pi_pos
      refine ⟨b, hb, c.map fun x => 2 * Real.pi * x, ?_, ?_, ?_⟩
      · rw [List.pairwise_map]
        exact c1.imp fun h => by gcongr
      · refine (c2.map _).trans (List.Perm.of_eq ?_)
        rw [List.map_map]
        refine List.map_congr_left fun s _ => ?_
        simp only [Function.comp]
        field_simp
      · have hc0 : ∀ x ∈ c, 0 ≤ x := by
          intro x hx
          obtain ⟨s, -, rfl⟩ := List.mem_map.1 (c2.mem_iff.1 hx)
          positivity
        rw [List.forall₂_iff_get] at c3 c4 ⊢
        have hl1 := c3.1
        simp only [List.length_take, List.length_map] at hl1
        refine ⟨by simp only [List.length_take, List.length_map]; rw [hl1, hn.1], fun i h1 h2 => ?_⟩
        have hi : i < c.length := by simp at h1; omega
        have hi3 := hn.1 ▸ h2
        have t1 := c3.2 i (by simp only [List.length_take, List.length_map] at h1 ⊢; exact h1) hi3
        have t2 := c4.2 i hi3 (by simp only [List.length_take, List.length_map] at h1 ⊢; exact h1)
        have t3 := hn.2 i h2 hi3
        simp only [List.get_eq_getElem, List.getElem_take, List.getElem_map] at t1 t2 ⊢
        have hx := hc0 c[i] (List.getElem_mem _)
        have hf := (mul_nonneg (Real.sqrt_nonneg α) hx).trans t1
        have u1 := pow_le_pow_left₀ (mul_nonneg (Real.sqrt_nonneg α) hx) t1 2
        rw [mul_pow, Real.sq_sqrt hα] at u1
        have u2 := pow_le_pow_left₀ hf t2 2
        rw [mul_pow, Real.sq_sqrt hβ] at u2
        rw [abs_le] at t3
        have hp2 : 0 < (2 * Real.pi) ^ 2 := by positivity
        constructor
        · have := mul_le_mul_of_nonneg_left u1 hp2.le
          nlinarith [t3.1]
        · have := mul_le_mul_of_nonneg_left u2 hp2.le
          nlinarith [t3.2]

/-! ### Example -/

theorem branch_distinct (br : List (Pol × (ℝ → Option ℝ))) (hbr : br.Pairwise fun p q => p.1 ≠ q.1 ∨
      ∀ g o o', p.2 g = some o → q.2 g = some o' → o ^ 2 ≠ o' ^ 2) (delta e0 eN : ℝ) (ls : List (ℝ × ℝ))
    (stack : List (LPos × ℝ)) (gvec ks : List R2) (ik : ℕ) (b : List (BasisEl gvec.length))
    (hb : branchGuided br delta e0 eN ls stack gvec ks ik = .ok b) : DistinctModes b := by
  unfold branchGuided at hb
  cases hb
  unfold DistinctModes
  rw [List.pairwise_flatMap]
  constructor
  · intro n _
    rw [List.pairwise_filterMap]
    refine (List.nodup_finRange _).imp fun {i j} hij s hs t ht h => ?_
    obtain ⟨o1, -, rfl⟩ := Option.map_eq_some_iff.1 hs
    obtain ⟨o2, -, rfl⟩ := Option.map_eq_some_iff.1 ht
    exact absurd h hij
  · refine (List.pairwise_iff_getElem.2 ?_ : (List.range br.length).Pairwise _)
    intro n m hn hm hnm s hs t ht h
    simp only [List.length_range] at hn hm
    simp only [List.getElem_range] at hs ht
    obtain ⟨i, -, h1⟩ := List.mem_filterMap.1 hs
    obtain ⟨j, -, h2⟩ := List.mem_filterMap.1 ht
    obtain ⟨o1, q1, rfl⟩ := Option.map_eq_some_iff.1 h1
    obtain ⟨o2, q2, rfl⟩ := Option.map_eq_some_iff.1 h2
    have hij : i = j := h
    subst hij
    rw [getD_of_len hn] at q1
    rw [getD_of_len hm] at q2
    rcases List.pairwise_iff_getElem.1 hbr n m hn hm hnm with h | h
    · left
      change (br.getD n (.te, fun _ => none)).1 ≠ (br.getD m (.te, fun _ => none)).1
      rwa [getD_of_len hn, getD_of_len hm]
    · right
      exact h _ _ _ q1 q2

/-- The slab of C96 with air holes of radius 0.2 in a square lattice. -/
noncomputable def asymHoles : GmeStruct :=
  ⟨(2 * Real.pi, 0), (0, 2 * Real.pi), 1, [⟨.lower, 3, 3, none, []⟩,
    ⟨.inner (7 * Real.pi / 12), 5, 5 + (1 - 5) * (Real.pi * 0.2 ^ 2) / 1, none, [⟨1, Circle.ft besselJ1 ⟨0, 0, 0.2⟩⟩]⟩,
    ⟨.upper, 1, 1, none, []⟩]⟩

/-- With at most 10^6 plane waves the holes lower no frequency by more than a factor of 1.0003. -/
example (argsort : List ℝ → List ℕ) (hs : ∀ l, IsArgsort l (argsort l))
    (eigh : ∀ n, Matrix (Fin n) (Fin n) ℂ → Fin n → ℝ) (he : GoodEigh eigh) (gmax : ℝ)
    (hn : (asymHoles.gvec gmax).length ≤ 10 ^ 6) (ks : List R2) (numeig : ℕ) (r : List KRes)
    (hrun : gmeSimIj ijExact argsort eigh (branchGuided asymBranch 1e-15 3 1 [(5, 7 * Real.pi / 12)]) asymHoles gmax false
      "background" ks 0 numeig = .ok r) :
    List.Forall₂ (fun ik a => ∃ b, branchGuided asymBranch 1e-15 3 1 [(5, 7 * Real.pi / 12)]
      (slabStack 3 1 [(5, 7 * Real.pi / 12)]) (asymHoles.gvec gmax) ks ik = .ok b ∧
      ∃ c : List ℝ, c.Pairwise (· ≤ ·) ∧ c.Perm (b.map fun s => |s.st.om| / (2 * Real.pi)) ∧
        List.Forall₂ (· ≤ ·) ((c.map fun x => x / √(1 + 0.0003)).take numeig) a.freq) (List.range ks.length) r := by
  have hD0 : ∀ e : ℝ, Draws (1, 0) (0, 1) asymHoles.b1 asymHoles.b2 e e asymHoles.ecArea [] := fun e =>
    ⟨square_holes.dual, resolved_square, by simp [asymHoles], ⟨by simp, by simp⟩, by simp, by simp, by simp, by simp⟩
  have hD1 : Draws (1, 0) (0, 1) asymHoles.b1 asymHoles.b2 5 (5 + (1 - 5) * (Real.pi * 0.2 ^ 2) / 1) asymHoles.ecArea
      [drawnCircle 1 ⟨0, 0, 0.2⟩] := by
    obtain ⟨m1, m2, -, m4⟩ := C101_circle 1 ⟨0, 0, 0.2⟩ (by norm_num)
    refine ⟨square_holes.dual, resolved_square, by simp [asymHoles], square_holes.apart, ?_, ?_, ?_, ?_⟩
    · simpa using m1
    · simpa using fun n m _ => m4 (latVec asymHoles.b1 asymHoles.b2 (n, m))
    · simp only [List.mem_singleton, forall_eq, drawnCircle]; have := Real.pi_pos; positivity
    · simp only [List.map_cons, List.map_nil, List.sum_cons, List.sum_nil, m2, add_zero]; rfl
  have herr : ((asymHoles.gvec gmax).length : ℝ) * drawErr 5 1 [drawnCircle 1 ⟨0, 0, 0.2⟩] ≤ 0.001 := by
    have h4 : |(1 : ℝ) - 5| = 4 := by norm_num
    have h1 : ((asymHoles.gvec gmax).length : ℝ) ≤ 10 ^ 6 := by exact_mod_cast hn
    have := Real.pi_lt_four
    have h0 := Real.pi_pos
    simp only [drawErr, drawnCircle, List.map_cons, List.map_nil, List.sum_cons, List.sum_nil, h4]
    have h3 : (4 * (2 * Real.pi * (0.2 : ℝ) ^ 3 * 1e-10) + 0) / 1 ≤ 1e-9 := by norm_num; linarith
    have h4 : 0 ≤ (4 * (2 * Real.pi * (0.2 : ℝ) ^ 3 * 1e-10) + 0) / 1 := by positivity
    calc _ ≤ (10 : ℝ) ^ 6 * 1e-9 := by gcongr
      _ ≤ 0.001 := by norm_num
  refine C111_holes argsort hs eigh he _ asymHoles gmax false ?_ 3 1 [(5, 7 * Real.pi / 12)] (by simp) (by norm_num)
    one_pos (by simp) (by simp; positivity) rfl ks (fun ik _ b hb => ⟨?_, _, branch_basis asym_roots _ _ _ ks ik b hb⟩)
    0.0003 (by norm_num) ?_ numeig r hrun
  · intro l hl s hs
    simp only [asymHoles, List.mem_cons, List.not_mem_nil, or_false] at hl
    rcases hl with rfl | rfl | rfl
    · simp at hs
    · simp only [List.mem_singleton] at hs
      subst hs
      exact C12_circle_conj besselJ1 _
    · simp at hs
  · exact branch_distinct asymBranch (by simp [asymBranch]) _ _ _ _ _ _ ks ik b hb
  · intro l hl
    simp only [asymHoles, List.mem_cons, List.not_mem_nil, or_false] at hl
    rcases hl with rfl | rfl | rfl
    · exact ⟨(1, 0), (0, 1), [], 3, hD0 3, rfl, by simp, by norm_num, by simp [drawErr], by norm_num [drawErr]⟩
    · exact ⟨(1, 0), (0, 1), [drawnCircle 1 ⟨0, 0, 0.2⟩], 1, hD1, rfl, by simp, by norm_num,
        lt_of_le_of_lt herr (by norm_num), herr.trans (by norm_num)⟩
    · exact ⟨(1, 0), (0, 1), [], 1, hD0 1, rfl, by simp, by norm_num, by simp [drawErr], by norm_num [drawErr]⟩

end Legume
