import Verif.Props.GmeTbtBounds
import Verif.Props.GmeOrder

/-!
# The order of frequencies with `truncate_g='tbt'` (C158)
-/
open Matrix MeasureTheory
open scoped ComplexOrder ComplexConjugate

namespace Legume

open Spec

/-- **C158 (more guided modes).** With `truncate_g='tbt'`: if the modes of one run are among those of a second one, with everything else equal, then
at every wave vector no frequency of the second run is higher: with more guided modes the expansion converges from above.
It holds for positive semidefinite inverse permittivity matrices. -/
theorem C158_modes (argsort : List ℝ → List ℕ) (hs : ∀ l, IsArgsort l (argsort l))
    (eigh : ∀ n, Matrix (Fin n) (Fin n) ℂ → Fin n → ℝ) (he : GoodEigh eigh) (guided guided' : GuidedSolver)
    (S : GmeStruct) (gmax : ℝ) (onlyG : Bool) (opt : String) (ks : List R2) (numeig : ℕ)
    (hg : ∀ eff ik b b', ik < ks.length → S.layers.mapM (GmeLay.eff opt) = .ok eff →
      guided ((S.layers.map GmeLay.pos).zip eff) (S.gvecT gmax) ks ik = .ok b →
      guided' ((S.layers.map GmeLay.pos).zip eff) (S.gvecT gmax) ks ik = .ok b' →
      GoodBasis ((S.layers.map GmeLay.pos).zip eff) b ∧ GoodBasis ((S.layers.map GmeLay.pos).zip eff) b' ∧
      (b.map fun s => (s.ig, s.st)).Subperm (b'.map fun s => (s.ig, s.st)))
    (hE : ∀ l ∈ S.layers, ∀ E, S.epsInvT gmax onlyG l = .ok E → E.PosSemidef) (r r' : List KRes)
    (hr : gmeSimTbtIj ijExact argsort eigh guided S gmax onlyG opt ks 0 numeig = .ok r)
    (hr' : gmeSimTbtIj ijExact argsort eigh guided' S gmax onlyG opt ks 0 numeig = .ok r') :
    List.Forall₂ Below r' r := by
  replace hr := tbt_ok hr
  replace hr' := tbt_ok hr'
  obtain ⟨eff, heff, hr⟩ := bind_ok hr
  obtain ⟨eff', heff', hr'⟩ := bind_ok hr'
  rw [heff] at heff'
  cases heff'
  obtain ⟨einv, heinv, hr⟩ := bind_ok hr
  obtain ⟨einv', heinv', hr'⟩ := bind_ok hr'
  rw [heinv] at heinv'
  cases heinv'
  have hP : ∀ E ∈ einv, E.PosSemidef := by
    intro E hE'
    obtain ⟨l, hl, h⟩ := forall2_mem_right (mapM_ok_forall heinv) E hE'
    exact hE l hl E h
  have hlen := stack_length heff heinv
  refine mapM_below _ hr hr' fun ik hik a a' ha ha' => ?_
  obtain ⟨b, hb, ha⟩ := bind_ok ha
  obtain ⟨b', hb', ha'⟩ := bind_ok ha'
  obtain ⟨⟨g1, g2⟩, ⟨g3, g4⟩, g5⟩ := hg eff ik b b' (List.mem_range.1 hik) heff hb hb'
  obtain ⟨σ, hσ, hM⟩ := gmeMatIj_sub _ einv (fun E h => (hP E h).1) b b' g1 g3 g5
  refine gme_below argsort hs eigh he _ _ (gmeMatIj_psd _ einv hlen hP b' g3 g4) (gmeMatIj_psd _ einv hlen hP b g1 g2)
    (selMat σ).mulVecLin (selMat_isometry σ hσ) (fun x => ?_) numeig a a' ha ha'
  rw [mulVecLin_apply, qform_conj, selMat_conj, hM]

/-- **C158 (order of the permittivities).** With `truncate_g='tbt'`: if two structures over the same lattice have the same effective permittivities,
and in every layer the inverse permittivity matrix of the second is below that of the first as a quadratic form, then at
every wave vector no frequency of the second is higher. -/
theorem C158_order (argsort : List ℝ → List ℕ) (hs : ∀ l, IsArgsort l (argsort l))
    (eigh : ∀ n, Matrix (Fin n) (Fin n) ℂ → Fin n → ℝ) (he : GoodEigh eigh) (guided : GuidedSolver)
    (S : GmeStruct) (layers' : List GmeLay) (gmax : ℝ) (onlyG onlyG' : Bool) (opt opt' : String) (ks : List R2)
    (numeig : ℕ)
    (hl : List.Forall₂ (fun l l' : GmeLay => l'.pos = l.pos ∧ l'.eff opt' = l.eff opt ∧
      ∀ E E', S.epsInvT gmax onlyG l = .ok E → S.epsInvT gmax onlyG' l' = .ok E' →
        E.PosSemidef ∧ E'.PosSemidef ∧ ∀ x, qform E' x ≤ qform E x) S.layers layers')
    (hg : ∀ eff ik b, ik < ks.length → S.layers.mapM (GmeLay.eff opt) = .ok eff →
      guided ((S.layers.map GmeLay.pos).zip eff) (S.gvecT gmax) ks ik = .ok b →
      GoodBasis ((S.layers.map GmeLay.pos).zip eff) b) (r r' : List KRes)
    (hr : gmeSimTbtIj ijExact argsort eigh guided S gmax onlyG opt ks 0 numeig = .ok r)
    (hr' : gmeSimTbtIj ijExact argsort eigh guided { S with layers := layers' } gmax onlyG' opt' ks 0 numeig = .ok r') :
    List.Forall₂ Below r' r := by
  have hpos : layers'.map GmeLay.pos = S.layers.map GmeLay.pos := by
    clear hg hr hr'
    generalize S.layers = L at hl
    induction hl with
    | nil => rfl
    | cons h _ ih => rw [List.map_cons, List.map_cons, ih, h.1]
  have heffs : layers'.mapM (GmeLay.eff opt') = S.layers.mapM (GmeLay.eff opt) := by
    clear hg hr hr' hpos
    generalize S.layers = L at hl
    induction hl with
    | nil => rfl
    | cons h _ ih => rw [List.mapM_cons, List.mapM_cons, h.2.1, ih]
  replace hr := tbt_ok hr
  replace hr' := tbt_ok hr'
  obtain ⟨eff, heff, hr⟩ := bind_ok hr
  obtain ⟨eff', heff', hr'⟩ := bind_ok hr'
  rw [show ({ S with layers := layers' } : GmeStruct).layers = layers' from rfl] at heff'
  rw [heffs, heff] at heff'
  cases heff'
  obtain ⟨einv, heinv, hr⟩ := bind_ok hr
  obtain ⟨einv', heinv', hr'⟩ := bind_ok hr'
  have heinv' : layers'.mapM (S.epsInvT gmax onlyG') = .ok einv' := heinv'
  obtain ⟨P, hP1, hP2, hP3⟩ := forall2_pairs (hl.imp fun _ _ h => h.2.2) (mapM_ok_forall heinv) (mapM_ok_forall heinv')
  subst hP1
  subst hP2
  have hlen := stack_length heff heinv
  have hlenP : P.length = ((S.layers.map GmeLay.pos).zip eff).length := by rw [← hlen, List.length_map]
  have hlen' : (P.map Prod.snd).length = ((S.layers.map GmeLay.pos).zip eff).length := by rw [← hlenP, List.length_map]
  refine mapM_below _ hr hr' fun ik hik a a' ha ha' => ?_
  obtain ⟨b, hb, ha⟩ := bind_ok ha
  obtain ⟨b', hb', ha'⟩ := bind_ok ha'
  have hb2 : guided ((layers'.map GmeLay.pos).zip eff) (S.gvecT gmax) ks ik = .ok b' := hb'
  rw [hpos, hb] at hb2
  obtain rfl : b = b' := Except.ok.inj hb2
  obtain ⟨g1, g2⟩ := hg eff ik b (List.mem_range.1 hik) heff hb
  have hM : solveFull argsort (List.ofFn (eigh _ (gmeMatIj ijExact ((layers'.map GmeLay.pos).zip eff) (P.map Prod.snd) b + 1))) 0
      numeig = .ok a' := ha'
  rw [hpos] at hM
  refine gme_below argsort hs eigh he _ _ (gmeMatIj_psd _ (P.map Prod.snd) hlen' (fun E h => ?_) b g1 g2)
    (gmeMatIj_psd _ (P.map Prod.fst) hlen (fun E h => ?_) b g1 g2) LinearMap.id (fun x => rfl) (fun x => ?_) numeig a a'
    ha hM
  · obtain ⟨F, hF, rfl⟩ := List.mem_map.1 h
    exact (hP3 F hF).2.1
  · obtain ⟨F, hF, rfl⟩ := List.mem_map.1 h
    exact (hP3 F hF).1
  · rw [LinearMap.id_apply]
    exact gmeMatIj_mono _ P hlenP (fun E h => ⟨(hP3 E h).1.1, (hP3 E h).2.1.1⟩) (fun E h => (hP3 E h).2.2) b g1 g2 x

/-! ### Layers made of shapes -/

/-- The entries of the permittivity matrix are transforms at differences. -/
theorem tbt_entry (S : GmeStruct) (l : GmeLay) (hr : ∀ s ∈ l.shapes, RealShape s) (gmax : ℝ) (hf : TbtFaithful S gmax l)
    (i j : Fin (S.gvecT gmax).length) :
    S.epsMatT gmax l i j = S.ft l (latVec S.b1 S.b2 (-tbtInd S gmax j - -tbtInd S gmax i)) := by
  rw [(tbt_faithful S gmax l hr hf).1]
  congr 1
  simp only [latVec, gOf, Prod.fst_sub, Prod.snd_sub, Prod.fst_neg, Prod.snd_neg]
  ext <;> push_cast <;> ring

/-- A layer of shapes which do not overlap, with positive permittivities, the error of the transforms being small against
them for the number of plane waves used, and the samples stored without loss. -/
def DrawnLayerT (S : GmeStruct) (gmax : ℝ) (l : GmeLay) : Prop :=
  TbtFaithful S gmax l ∧ ∃ (a1 a2 : R2) (sh : List Drawn) (lo : ℝ), Draws a1 a2 S.b1 S.b2 l.epsB l.epsAvg S.ecArea sh ∧
    l.shapes = sh.map Drawn.shape ∧ (∀ s ∈ l.shapes, RealShape s) ∧ lo ≤ l.epsB ∧ (∀ s ∈ l.shapes, lo ≤ s.eps) ∧
    (S.gvecT gmax).length * drawErr l.epsB S.ecArea sh < lo

theorem drawnLayerT_inv (S : GmeStruct) (gmax : ℝ) (l : GmeLay) (h : DrawnLayerT S gmax l) (onlyG : Bool) :
    ∃ E, S.epsInvT gmax onlyG l = .ok E ∧ E.PosSemidef := by
  obtain ⟨hf, a1, a2, sh, lo, hD, hsh, hr, h1, h2, h3⟩ := h
  obtain ⟨hi, h4, h5⟩ := eps_bounded l.epsB l.shapes
  obtain ⟨E, e1, e2⟩ := (C157_matrix S l a1 a2 sh hD hsh hr lo hi ⟨h1, h2⟩ ⟨h4, h5⟩ gmax hf _ rfl).2 h3 onlyG
  refine ⟨E, e1, ?_⟩
  have hδ0 : 0 ≤ (S.gvecT gmax).length * drawErr l.epsB S.ecArea sh :=
    mul_nonneg (by positivity) (drawErr_nonneg a1 a2 _ _ _ _ _ _ hD)
  refine (posDef_of_form _ (epsInvT_hermitian S gmax onlyG l hr E e1) _ (inv_pos.2 (?_ : 0 < hi + _))
    fun x => by rw [← qform_sum]; exact (e2 x).1).posSemidef
  linarith

/-- **C158.** For structures made of shapes which do not overlap nothing else is needed: more guided modes never raise a
frequency. -/
theorem C158_drawn (argsort : List ℝ → List ℕ) (hs : ∀ l, IsArgsort l (argsort l))
    (eigh : ∀ n, Matrix (Fin n) (Fin n) ℂ → Fin n → ℝ) (he : GoodEigh eigh) (guided guided' : GuidedSolver)
    (S : GmeStruct) (gmax : ℝ) (onlyG : Bool) (opt : String) (ks : List R2) (numeig : ℕ)
    (hS : ∀ l ∈ S.layers, DrawnLayerT S gmax l)
    (hg : ∀ eff ik b b', ik < ks.length → S.layers.mapM (GmeLay.eff opt) = .ok eff →
      guided ((S.layers.map GmeLay.pos).zip eff) (S.gvecT gmax) ks ik = .ok b →
      guided' ((S.layers.map GmeLay.pos).zip eff) (S.gvecT gmax) ks ik = .ok b' →
      GoodBasis ((S.layers.map GmeLay.pos).zip eff) b ∧ GoodBasis ((S.layers.map GmeLay.pos).zip eff) b' ∧
      (b.map fun s => (s.ig, s.st)).Subperm (b'.map fun s => (s.ig, s.st))) (r r' : List KRes)
    (hr : gmeSimTbtIj ijExact argsort eigh guided S gmax onlyG opt ks 0 numeig = .ok r)
    (hr' : gmeSimTbtIj ijExact argsort eigh guided' S gmax onlyG opt ks 0 numeig = .ok r') :
    List.Forall₂ Below r' r := by
  refine C158_modes argsort hs eigh he guided guided' S gmax onlyG opt ks numeig hg ?_ r r' hr hr'
  intro l hl E hE
  obtain ⟨E', h1, h2⟩ := drawnLayerT_inv S gmax l (hS l hl) onlyG
  rw [h1] at hE
  cases hE
  exact h2

/-- The permittivity matrix rises as a quadratic form. -/
theorem raisedLayT_qform (S : GmeStruct) (l : GmeLay) (a1 a2 : R2) (dB : ℝ) (sh : List (Drawn × ℝ))
    (hD : Draws a1 a2 S.b1 S.b2 l.epsB l.epsAvg S.ecArea (sh.map Prod.fst))
    (hsh : l.shapes = sh.map fun s => s.1.shape) (hr : ∀ s ∈ l.shapes, RealShape s) (d : ℝ)
    (hd : d ≤ dB ∧ ∀ s ∈ sh, d ≤ s.2) (gmax : ℝ)
    (hf : TbtFaithful S gmax l) (hf' : TbtFaithful S gmax (raisedLay S.ecArea l dB sh))
    (hm : (S.gvecT gmax).length * ((sh.map fun s => |s.2 - dB| * s.1.err).sum / S.ecArea) ≤ d)
    (x : Fin (S.gvecT gmax).length → ℂ) :
    (S.epsMatT gmax l).IsHermitian ∧ (S.epsMatT gmax (raisedLay S.ecArea l dB sh)).IsHermitian ∧
    qform (S.epsMatT gmax l) x ≤ qform (S.epsMatT gmax (raisedLay S.ecArea l dB sh)) x := by
  have hr' : ∀ s ∈ (raisedLay S.ecArea l dB sh).shapes, RealShape s := by
    intro s hs
    obtain ⟨t, ht, rfl⟩ := List.mem_map.1 hs
    exact hr t.1.shape (by rw [hsh]; exact List.mem_map_of_mem ht)
  refine ⟨epsMatT_hermitian S gmax l hr, epsMatT_hermitian S gmax _ hr', ?_⟩
  set D : List Drawn := sh.map fun s => ⟨⟨s.2, s.1.shape.ft⟩, s.1.region, s.1.err⟩ with hDdef
  have hD' : Draws a1 a2 S.b1 S.b2 dB (dB + (sh.map fun s => (s.2 - dB) * volume.real s.1.region / S.ecArea).sum)
      S.ecArea D := by
    refine ⟨hD.dual, hD.resolved, hD.area_eq, ?_, ?_, ?_, ?_, ?_⟩
    · have := hD.apart
      rw [List.map_map] at this
      rw [hDdef, List.map_map]
      exact this
    · intro s hs
      obtain ⟨t, ht, rfl⟩ := List.mem_map.1 hs
      exact hD.measurable t.1 (List.mem_map_of_mem ht)
    · intro s hs
      obtain ⟨t, ht, rfl⟩ := List.mem_map.1 hs
      exact hD.close t.1 (List.mem_map_of_mem ht)
    · intro s hs
      obtain ⟨t, ht, rfl⟩ := List.mem_map.1 hs
      exact hD.err_nonneg t.1 (List.mem_map_of_mem ht)
    · rw [hDdef, List.map_map]; rfl
  set ind' : Fin (S.gvecT gmax).length → ℤ × ℤ := fun i => -tbtInd S gmax i with hind
  have hinj : Function.Injective ind' := neg_injective.comp (tbtInd_injective S gmax)
  have hent := tbt_entry S l hr gmax hf
  have hent' := tbt_entry S (raisedLay S.ecArea l dB sh) hr' gmax hf'
  obtain ⟨hi, hhi⟩ := eps_bounded dB (D.map Drawn.shape)
  have hb := (C101_bounds a1 a2 S.b1 S.b2 dB _ S.ecArea D hD' d hi
    ⟨hd.1, fun s hs => by obtain ⟨t, ht, rfl⟩ := List.mem_map.1 hs; exact hd.2 t ht⟩
    ⟨hhi.1, fun s hs => hhi.2 _ (List.mem_map_of_mem hs)⟩ ind' hinj x).1
  have herr : drawErr dB S.ecArea D = (sh.map fun s => |s.2 - dB| * s.1.err).sum / S.ecArea := by
    rw [drawErr, hDdef, List.map_map]; rfl
  rw [herr] at hb
  have hpos := (mul_nonneg (sub_nonneg.2 hm) (Finset.sum_nonneg (s := Finset.univ)
    fun i _ => sq_nonneg ‖x i‖)).trans hb
  have hl : D.map Drawn.shape = sh.map fun s => ⟨s.2, s.1.shape.ft⟩ := by rw [hDdef, List.map_map]; rfl
  rw [hl] at hpos
  have hsum : ∀ i j, S.epsMatT gmax (raisedLay S.ecArea l dB sh) i j = S.epsMatT gmax l i j +
      layerFt dB (dB + (sh.map fun s => (s.2 - dB) * volume.real s.1.region / S.ecArea).sum) S.ecArea
        (sh.map fun s => ⟨s.2, s.1.shape.ft⟩) (latVec S.b1 S.b2 (ind' j - ind' i)) := by
    intro i j
    rw [hent, hent']
    exact raised_ft ⟨S.b1, S.b2, S.ecArea, l.epsB, l.epsAvg, l.shapes⟩ dB sh hsh hD.avg _
  rw [qform_sum, qform_sum]
  have e : ∑ i, ∑ j, conj (x i) * S.epsMatT gmax (raisedLay S.ecArea l dB sh) i j * x j =
      (∑ i, ∑ j, conj (x i) * S.epsMatT gmax l i j * x j) + ∑ i, ∑ j, conj (x i) * layerFt dB (dB + (sh.map fun s =>
        (s.2 - dB) * volume.real s.1.region / S.ecArea).sum) S.ecArea (sh.map fun s => ⟨s.2, s.1.shape.ft⟩)
        (latVec S.b1 S.b2 (ind' j - ind' i)) * x j := by
    rw [← Finset.sum_add_distrib]
    refine Finset.sum_congr rfl fun i _ => ?_
    rw [← Finset.sum_add_distrib]
    refine Finset.sum_congr rfl fun j _ => ?_
    rw [hsum]; ring
  rw [e, Complex.add_re]
  linarith

/-- `homTbt` for a layer: the expansion takes it as uniform. -/
def TakenUniformT (S : GmeStruct) (gmax : ℝ) (l : GmeLay) : Prop :=
  homTbt (S.ft l) S.b1 S.b2 (S.n1 gmax) (S.n2 gmax)

/-- The permittivity matrix of a layer without shapes. -/
theorem plainT_mat (S : GmeStruct) (hres : Resolved S.b1 S.b2) (l : GmeLay) (h : l.shapes = []) (gmax : ℝ) :
    S.epsMatT gmax l = (l.epsAvg : ℂ) • 1 := by
  have hent := tbt_entry S l (by simp [h]) gmax (.inl (layer_real S l (by simp [h])))
  have hinj := neg_injective.comp (tbtInd_injective S gmax)
  ext i j
  rw [hent, Matrix.smul_apply, one_apply]
  by_cases hij : i = j
  · subst hij
    rw [sub_self, latVec_zero, if_pos rfl, GmeStruct.ft, layerFt_g0 _ _ _ _ _ (by simp [isG0]; norm_num), smul_eq_mul, mul_one]
  · rw [if_neg hij, smul_zero, GmeStruct.ft, C12_layer_value, h]
    · simp
    · intro h0
      set d := -tbtInd S gmax j - -tbtInd S gmax i with hd
      have hne : d ≠ 0 := fun h => hij (hinj (sub_eq_zero.1 h).symm)
      refine hres d.1 d.2 hne ?_
      have h0' : |(latVec S.b1 S.b2 d).1| + |(latVec S.b1 S.b2 d).2| < 1e-10 := h0
      have e : latVec S.b1 S.b2 d = (S.b1.1 * d.1 + S.b2.1 * d.2, S.b1.2 * d.1 + S.b2.2 * d.2) := by
        simp only [latVec]
        ext <;> push_cast <;> ring
      rw [e] at h0'
      constructor
      · exact lt_of_le_of_lt (le_add_of_nonneg_right (abs_nonneg _)) h0'
      · exact lt_of_le_of_lt (le_add_of_nonneg_left (abs_nonneg _)) h0'

/-- What is used as the inverse is the inverse if the layer has no shapes or is not taken as uniform. -/
theorem epsInvT_exact (S : GmeStruct) (hres : Resolved S.b1 S.b2) (gmax : ℝ) (l : GmeLay)
    (hu : l.shapes = [] ∨ ¬ TakenUniformT S gmax l)
    (E : Matrix (Fin (S.gvecT gmax).length) (Fin (S.gvecT gmax).length) ℂ) (hE : S.epsInvT gmax false l = .ok E) :
    E = (S.epsMatT gmax l)⁻¹ := by
  rcases hu with h | h
  · rw [epsInvT_plain S hres gmax false l (by simp [h]) (.inl h)] at hE
    cases hE
    rw [plainT_mat S hres l h gmax, Complex.ofReal_inv]
    by_cases hz : (l.epsAvg : ℂ) = 0
    · rw [hz, _root_.inv_zero, zero_smul]
      exact (Matrix.inv_zero).symm
    · refine (inv_eq_right_inv ?_).symm
      rw [Matrix.smul_mul, Matrix.mul_smul, Matrix.mul_one, smul_smul, mul_inv_cancel₀ hz, one_smul]
  · unfold GmeStruct.epsInvT at hE
    split_ifs at hE with c1 c2
    · simp only [Bool.false_eq_true, or_false] at c1
      exact absurd c1 h
    · cases hE
      rfl

/-- **C158 (raising permittivities).** With `truncate_g='tbt'` and the effective permittivities set by hand, raise the permittivity of the
background and of the shapes in some layers by at least `d` (which may be zero where all increments are equal; otherwise it
has to exceed the number of plane waves times the error of a coefficient of the increments), and leave the other layers as
they are. Then at every wave vector no frequency rises. -/
theorem C158_raise (argsort : List ℝ → List ℕ) (hs : ∀ l, IsArgsort l (argsort l))
    (eigh : ∀ n, Matrix (Fin n) (Fin n) ℂ → Fin n → ℝ) (he : GoodEigh eigh) (guided : GuidedSolver)
    (S : GmeStruct) (layers' : List GmeLay) (gmax : ℝ) (ks : List R2) (numeig : ℕ)
    (hl : List.Forall₂ (fun l l' : GmeLay => DrawnLayerT S gmax l ∧ (l' = l ∨
      ∃ (a1 a2 : R2) (dB d lo : ℝ) (sh : List (Drawn × ℝ)), l' = raisedLay S.ecArea l dB sh ∧ TbtFaithful S gmax l' ∧
        Draws a1 a2 S.b1 S.b2 l.epsB l.epsAvg S.ecArea (sh.map Prod.fst) ∧ (l.shapes = sh.map fun s => s.1.shape) ∧
        (∀ s ∈ l.shapes, RealShape s) ∧ lo ≤ l.epsB ∧ (∀ s ∈ l.shapes, lo ≤ s.eps) ∧
        (S.gvecT gmax).length * drawErr l.epsB S.ecArea (sh.map Prod.fst) < lo ∧
        d ≤ dB ∧ (∀ s ∈ sh, d ≤ s.2) ∧
        (S.gvecT gmax).length * ((sh.map fun s => |s.2 - dB| * s.1.err).sum / S.ecArea) ≤ d ∧
        (sh = [] ∨ ¬ TakenUniformT S gmax l ∧ ¬ TakenUniformT S gmax l'))) S.layers layers')
    (hg : ∀ eff ik b, ik < ks.length → S.layers.mapM (GmeLay.eff "custom") = .ok eff →
      guided ((S.layers.map GmeLay.pos).zip eff) (S.gvecT gmax) ks ik = .ok b →
      GoodBasis ((S.layers.map GmeLay.pos).zip eff) b) (r r' : List KRes)
    (hr : gmeSimTbtIj ijExact argsort eigh guided S gmax false "custom" ks 0 numeig = .ok r)
    (hr' : gmeSimTbtIj ijExact argsort eigh guided { S with layers := layers' } gmax false "custom" ks 0 numeig = .ok r') :
    List.Forall₂ Below r' r := by
  refine C158_order argsort hs eigh he guided S layers' gmax false false "custom" "custom" ks numeig
    (hl.imp ?_) hg r r' hr hr'
  rintro l l' ⟨hdr, rfl | ⟨a1, a2, dB, d, lo, sh, rfl, hf', hD, hsh, hrs, hlo, hlos, hpos, hd1, hd2, hm, hu⟩⟩
  · refine ⟨rfl, rfl, fun E E' hE hE' => ?_⟩
    obtain ⟨F, h1, h2⟩ := drawnLayerT_inv S gmax l' hdr false
    rw [h1] at hE hE'
    cases hE
    cases hE'
    exact ⟨h2, h2, fun x => le_refl _⟩
  · refine ⟨rfl, rfl, fun E E' hE hE' => ?_⟩
    have hq := fun x => raisedLayT_qform S l a1 a2 dB sh hD hsh hrs d ⟨hd1, hd2⟩ gmax hdr.1 hf' hm x
    have hform : ∀ x, (lo - (S.gvecT gmax).length * drawErr l.epsB S.ecArea (sh.map Prod.fst)) * ∑ i, ‖x i‖ ^ 2 ≤
        qform (S.epsMatT gmax l) x := by
      intro x
      obtain ⟨hi, h4, h5⟩ := eps_bounded l.epsB l.shapes
      exact ((C157_matrix S l a1 a2 (sh.map Prod.fst) hD (by rw [hsh, List.map_map]; rfl) hrs lo hi ⟨hlo, hlos⟩ ⟨h4, h5⟩
        gmax hdr.1 _ rfl).1 x).1
    have hP : (S.epsMatT gmax l).PosDef := posDef_of_form _ (hq 0).1 _ (sub_pos.2 hpos) fun x => by
      rw [← qform_sum]; exact hform x
    have hP' : (S.epsMatT gmax (raisedLay S.ecArea l dB sh)).PosDef :=
      posDef_of_form _ (hq 0).2.1 _ (sub_pos.2 hpos) fun x => by
        rw [← qform_sum]; exact (hform x).trans (hq x).2.2
    have e1 : E = (S.epsMatT gmax l)⁻¹ := epsInvT_exact S hD.resolved gmax l
      (hu.imp (fun h => by rw [hsh, h]; rfl) fun h => h.1) E hE
    have e2 : E' = (S.epsMatT gmax (raisedLay S.ecArea l dB sh))⁻¹ := epsInvT_exact S hD.resolved gmax _
      (hu.imp (fun h => by rw [raisedLay, h]; rfl) fun h => h.2) E' hE'
    subst e1 e2
    exact ⟨hP.inv.posSemidef, hP'.inv.posSemidef, qform_inv_le _ _ hP hP' fun x => (hq x).2.2⟩

/-! ### Examples -/

theorem cladding_drawnT (e gmax : ℝ) (p : LPos) (eff : Option ℝ) : DrawnLayerT (holesStruct e) gmax ⟨p, 1, 1, eff, []⟩ := by
  refine ⟨.inl (layer_real _ _ (by simp)), (1, 0), (0, 1), [], 1 / 2, ⟨square_holes.dual, resolved_square,
    by simp [holesStruct], ⟨by simp, by simp⟩, by simp, by simp, by simp, by simp⟩, rfl, by simp, by norm_num, by simp, ?_⟩
  simp [drawErr]

theorem slab_drawnT (gmax : ℝ) (hn : ((holesStruct 1).gvecT gmax).length ≤ 10 ^ 6) :
    DrawnLayerT (holesStruct 1) gmax (holesSlab 1) := by
  refine ⟨.inl (layer_real _ _ ?_), (1, 0), (0, 1), [drawnCircle 1 ⟨0, 0, 0.2⟩], 1, holes_draws 1, rfl, holes_real' 1,
    by norm_num [holesSlab], by simp [holesSlab], holes_err' 1 _ hn⟩
  simp only [holesSlab, List.mem_singleton]
  rintro s rfl i
  exact circle_real besselJ1 _ _ 0 (by simp)

/-- TE modes alone, and with TM modes; up to a million plane waves. -/
example (argsort : List ℝ → List ℕ) (hs : ∀ l, IsArgsort l (argsort l))
    (eigh : ∀ n, Matrix (Fin n) (Fin n) ℂ → Fin n → ℝ) (he : GoodEigh eigh) (gmax : ℝ)
    (hn : ((holesStruct 1).gvecT gmax).length ≤ 10 ^ 6) (ks : List R2) (r r' : List KRes)
    (hr : gmeSimTbtIj ijExact argsort eigh (exGuided false) (holesStruct 1) gmax false "custom" ks 0 1 = .ok r)
    (hr' : gmeSimTbtIj ijExact argsort eigh (exGuided true) (holesStruct 1) gmax false "custom" ks 0 1 = .ok r') :
    List.Forall₂ Below r' r := by
  refine C158_drawn argsort hs eigh he _ _ (holesStruct 1) gmax false "custom" ks 1 ?_
    (fun eff ik b b' _ he hb hb' => ?_) r r' hr hr'
  · simp only [holesStruct, List.mem_cons, List.not_mem_nil, or_false]
    rintro l (rfl | rfl | rfl)
    · exact cladding_drawnT 1 gmax _ _
    · exact slab_drawnT gmax hn
    · exact cladding_drawnT 1 gmax _ _
  rw [holes_custom he] at hb hb' ⊢
  refine ⟨exGuided_good _ _ _ _ _ _ _ _ hb, exGuided_good _ _ _ _ _ _ _ _ hb', ?_⟩
  unfold exGuided at hb hb'
  by_cases h1 : 0 < ((holesStruct 1).gvecT gmax).length
  · rw [dif_pos h1] at hb hb'
    cases hb
    cases hb'
    exact ((List.nil_sublist _).cons₂ _).subperm
  · rw [dif_neg h1] at hb hb'
    cases hb
    cases hb'
    exact List.Subperm.refl _

/-- Both runs succeed at a wave vector: there is always a plane wave. -/
example (argsort : List ℝ → List ℕ) (eigh : ∀ n, Matrix (Fin n) (Fin n) ℂ → Fin n → ℝ) (both : Bool) (gmax : ℝ)
    (hn : ((holesStruct 1).gvecT gmax).length ≤ 10 ^ 6) (k : R2) :
    ∃ r, gmeSimTbtIj ijExact argsort eigh (exGuided both) (holesStruct 1) gmax false "custom" [k] 0 1 = .ok r := by
  have h0 : 0 < ((holesStruct 1).gvecT gmax).length := by rw [gvecT_len]; positivity
  obtain ⟨E1, h1, -⟩ := drawnLayerT_inv _ gmax _ (cladding_drawnT 1 gmax .lower (some 1)) false
  obtain ⟨E2, h2, -⟩ := drawnLayerT_inv _ gmax _ (slab_drawnT gmax hn) false
  obtain ⟨E3, h3, -⟩ := drawnLayerT_inv _ gmax _ (cladding_drawnT 1 gmax .upper (some 1)) false
  have he : (holesStruct 1).layers.mapM ((holesStruct 1).epsInvT gmax false) = .ok [E1, E2, E3] := by
    rw [show (holesStruct 1).layers = [⟨.lower, 1, 1, some 1, []⟩, holesSlab 1, ⟨.upper, 1, 1, some 1, []⟩] from rfl]
    simp only [List.mapM_cons, List.mapM_nil, h1, h2, h3]
    rfl
  unfold gmeSimTbtIj
  rw [if_neg Bool.false_ne_true, show (holesStruct 1).layers.mapM (GmeLay.eff "custom") = .ok [1, 11, 1] from rfl, he]
  simp only [bind, Except.bind, List.length_singleton, List.range_one, List.mapM_cons, List.mapM_nil, exGuided, dif_pos h0,
    solveFull]
  cases both <;> simp [pure, Except.pure]

/-- A lower cladding of permittivity 3 in place of air. -/
example (argsort : List ℝ → List ℕ) (hs : ∀ l, IsArgsort l (argsort l))
    (eigh : ∀ n, Matrix (Fin n) (Fin n) ℂ → Fin n → ℝ) (he : GoodEigh eigh) (gmax : ℝ)
    (hn : ((holesStruct 1).gvecT gmax).length ≤ 10 ^ 6) (ks : List R2) (r r' : List KRes)
    (hr : gmeSimTbtIj ijExact argsort eigh (exGuided true) (holesStruct 1) gmax false "custom" ks 0 2 = .ok r)
    (hr' : gmeSimTbtIj ijExact argsort eigh (exGuided true) { holesStruct 1 with layers :=
      [raisedLay 1 ⟨.lower, 1, 1, some 1, []⟩ 2 [], holesSlab 1, ⟨.upper, 1, 1, some 1, []⟩] } gmax false "custom" ks 0 2 =
        .ok r') :
    List.Forall₂ Below r' r := by
  refine C158_raise argsort hs eigh he _ (holesStruct 1) _ gmax ks 2 (.cons ⟨cladding_drawnT 1 gmax _ _, .inr ?_⟩
    (.cons ⟨slab_drawnT gmax hn, .inl rfl⟩ (.cons ⟨cladding_drawnT 1 gmax _ _, .inl rfl⟩ .nil)))
    (fun eff ik b _ he hb => ?_) r r' hr hr'
  · refine ⟨(1, 0), (0, 1), 2, 2, 1, [], rfl, .inl (layer_real _ _ (by simp [raisedLay])), ⟨square_holes.dual,
      resolved_square, by simp [holesStruct], ⟨by simp, by simp⟩, by simp, by simp, by simp, by simp⟩, rfl, by simp, le_rfl,
      by simp, by simp [drawErr], le_rfl, by simp, by simp, .inl rfl⟩
  · rw [holes_custom he] at hb ⊢
    exact exGuided_good _ _ _ _ _ _ _ _ hb

end Legume
