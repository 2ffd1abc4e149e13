import Verif.Lemmas.GmeForm
import Verif.Props.PweOrder

/-!
# The frequencies of the guided-mode expansion are ordered (C104, C105)

Adding guided modes to the basis, or raising permittivities at fixed effective permittivities, never raises a frequency.
Integrals over the layers are exact here; C106 accounts for the regularised ones of the code.
-/
open Matrix MeasureTheory
open scoped ComplexOrder ComplexConjugate

namespace Legume

open Spec

/-- With the integrals of the code this is `gmeSim`. -/
theorem gmeSimIj_layer : gmeSimIj ijLayer = gmeSim := rfl

/-- What a run reports at one wave vector is bounded by what another reports, band by band. -/
def Below (a' a : KRes) : Prop :=
  a'.freq.length = a.freq.length ∧ ∀ (m : ℕ) (h' : m < a'.freq.length) (h : m < a.freq.length), a'.freq[m] ≤ a.freq[m]

/-- The basis of a run: enumerated mode by mode, decaying in the claddings. -/
def GoodBasis {N : ℕ} (stack : List (LPos × ℝ)) (basis : List (BasisEl N)) : Prop :=
  (basis.Pairwise fun s t => s.blk ≤ t.blk) ∧ DecayingBasis stack basis

theorem solveFull_ok {argsort : List ℝ → List ℕ} {w : List ℝ} {sigma : ℝ} {numeig : ℕ} {r : KRes}
    (h : solveFull argsort w sigma numeig = .ok r) : numeig ≤ w.length := by
  unfold solveFull at h
  split_ifs at h with hc
  exact not_lt.1 hc

/-- One wave vector. -/
theorem gme_below (argsort : List ℝ → List ℕ) (hs : ∀ l, IsArgsort l (argsort l))
    (eigh : ∀ n, Matrix (Fin n) (Fin n) ℂ → Fin n → ℝ) (he : GoodEigh eigh) {n m : ℕ}
    (A : Matrix (Fin m) (Fin m) ℂ) (B : Matrix (Fin n) (Fin n) ℂ) (hA : A.PosSemidef) (hB : B.PosSemidef)
    (J : (Fin n → ℂ) →ₗ[ℂ] (Fin m → ℂ)) (hJ : ∀ x, ∑ i, ‖J x i‖ ^ 2 = ∑ i, ‖x i‖ ^ 2)
    (h : ∀ x, qform A (J x) ≤ qform B x) (numeig : ℕ) (r r' : KRes)
    (hr : solveFull argsort (List.ofFn (eigh _ (B + 1))) 0 numeig = .ok r)
    (hr' : solveFull argsort (List.ofFn (eigh _ (A + 1))) 0 numeig = .ok r') : Below r' r := by
  obtain ⟨V, hV⟩ := he _ _ (hA.1.add isHermitian_one)
  obtain ⟨W, hW⟩ := he _ _ (hB.1.add isHermitian_one)
  have hn := solveFull_ok hr
  have hn' := solveFull_ok hr'
  obtain ⟨t, ht, hf⟩ := solveFull_zero argsort hs _ numeig hn
  obtain ⟨t', ht', hf'⟩ := solveFull_zero argsort hs _ numeig hn'
  rw [hr] at ht
  rw [hr'] at ht'
  cases ht
  cases ht'
  refine ⟨?_, ?_⟩
  · rw [hf, hf', solvePwe_length argsort hs, solvePwe_length argsort hs, min_eq_left hn, min_eq_left hn']
  · intro i h1 h2
    simp only [hf, hf'] at h1 h2 ⊢
    exact freq_ritz argsort hs hA hB hV hW J hJ h numeig i h1 h2

theorem mapM_ok_forall {α β ε : Type*} {f : α → Except ε β} : ∀ {l : List α} {r : List β}, l.mapM f = .ok r →
    List.Forall₂ (fun a b => f a = .ok b) l r
  | [], r, h => by
    cases h
    exact .nil
  | a :: l, r, h => by
    rw [List.mapM_cons] at h
    rcases h1 : f a with e | b
    · rw [h1] at h; cases h
    · rcases h2 : l.mapM f with e | r'
      · rw [h1, h2] at h; cases h
      · rw [h1, h2] at h
        cases h
        exact .cons h1 (mapM_ok_forall h2)

theorem mapM_below {f f' : ℕ → Except PyErr KRes} (l : List ℕ) {r r' : List KRes} (h : l.mapM f = .ok r)
    (h' : l.mapM f' = .ok r') (hb : ∀ i ∈ l, ∀ a a', f i = .ok a → f' i = .ok a' → Below a' a) :
    List.Forall₂ Below r' r := by
  have h1 := mapM_ok_forall h
  have h2 := mapM_ok_forall h'
  clear h h'
  induction h1 generalizing r' with
  | nil => cases h2; exact .nil
  | cons ha _ ih =>
    cases h2 with
    | cons ha' h2 =>
      exact .cons (hb _ (List.mem_cons_self ..) _ _ ha ha') (ih (fun i hi => hb i (List.mem_cons_of_mem _ hi)) h2)

theorem bind_ok {ε : Type} {α β : Type} {x : Except ε α} {f : α → Except ε β} {b : β} (h : (x >>= f) = .ok b) :
    ∃ a, x = .ok a ∧ f a = .ok b := by
  cases x with
  | error e => cases h
  | ok a => exact ⟨a, rfl, h⟩

theorem stack_length {S : GmeStruct} {opt : String} {eff : List ℝ} (h : S.layers.mapM (GmeLay.eff opt) = .ok eff)
    {N : ℕ} {f : GmeLay → Except PyErr (Matrix (Fin N) (Fin N) ℂ)} {einv : List (Matrix (Fin N) (Fin N) ℂ)}
    (h' : S.layers.mapM f = .ok einv) : einv.length = ((S.layers.map GmeLay.pos).zip eff).length := by
  rw [List.length_zip, List.length_map, ← (mapM_ok_forall h).length_eq, ← (mapM_ok_forall h').length_eq, min_self]

theorem forall2_mem_right {α β : Type*} {R : α → β → Prop} {l : List α} {l' : List β} (h : List.Forall₂ R l l') :
    ∀ b ∈ l', ∃ a ∈ l, R a b := by
  induction h with
  | nil => simp
  | cons h _ ih =>
    intro b hb
    rcases List.mem_cons.1 hb with rfl | hb
    · exact ⟨_, List.mem_cons_self .., h⟩
    · obtain ⟨a, ha, hr⟩ := ih b hb
      exact ⟨a, List.mem_cons_of_mem _ ha, hr⟩

/-- **C104 (more guided modes).** If the modes of one run are among those of a second one, with everything else equal, then
at every wave vector no frequency of the second run is higher: with more guided modes the expansion converges from above.
It holds for positive semidefinite inverse permittivity matrices. -/
theorem C104_modes (argsort : List ℝ → List ℕ) (hs : ∀ l, IsArgsort l (argsort l))
    (eigh : ∀ n, Matrix (Fin n) (Fin n) ℂ → Fin n → ℝ) (he : GoodEigh eigh) (guided guided' : GuidedSolver)
    (S : GmeStruct) (gmax : ℝ) (onlyG : Bool) (opt : String) (ks : List R2) (numeig : ℕ)
    (hg : ∀ eff ik b b', ik < ks.length → S.layers.mapM (GmeLay.eff opt) = .ok eff →
      guided ((S.layers.map GmeLay.pos).zip eff) (S.gvec gmax) ks ik = .ok b →
      guided' ((S.layers.map GmeLay.pos).zip eff) (S.gvec gmax) ks ik = .ok b' →
      GoodBasis ((S.layers.map GmeLay.pos).zip eff) b ∧ GoodBasis ((S.layers.map GmeLay.pos).zip eff) b' ∧
      (b.map fun s => (s.ig, s.st)).Subperm (b'.map fun s => (s.ig, s.st)))
    (hE : ∀ l ∈ S.layers, ∀ E, S.epsInv gmax onlyG l = .ok E → E.PosSemidef) (r r' : List KRes)
    (hr : gmeSimIj ijExact argsort eigh guided S gmax onlyG opt ks 0 numeig = .ok r)
    (hr' : gmeSimIj ijExact argsort eigh guided' S gmax onlyG opt ks 0 numeig = .ok r') :
    List.Forall₂ Below r' r := by
  unfold gmeSimIj at hr hr'
  obtain ⟨eff, heff, hr⟩ := bind_ok hr
  obtain ⟨eff', heff', hr'⟩ := bind_ok hr'
  rw [heff] at heff'
  cases heff'
  obtain ⟨einv, heinv, hr⟩ := bind_ok hr
  obtain ⟨einv', heinv', hr'⟩ := bind_ok hr'
  rw [heinv] at heinv'
  cases heinv'
  have hP : ∀ E ∈ einv, E.PosSemidef := by
    intro E hE'
    obtain ⟨l, hl, h⟩ := forall2_mem_right (mapM_ok_forall heinv) E hE'
    exact hE l hl E h
  have hlen := stack_length heff heinv
  refine mapM_below _ hr hr' fun ik hik a a' ha ha' => ?_
  obtain ⟨b, hb, ha⟩ := bind_ok ha
  obtain ⟨b', hb', ha'⟩ := bind_ok ha'
  obtain ⟨⟨g1, g2⟩, ⟨g3, g4⟩, g5⟩ := hg eff ik b b' (List.mem_range.1 hik) heff hb hb'
  obtain ⟨σ, hσ, hM⟩ := gmeMatIj_sub _ einv (fun E h => (hP E h).1) b b' g1 g3 g5
  refine gme_below argsort hs eigh he _ _ (gmeMatIj_psd _ einv hlen hP b' g3 g4) (gmeMatIj_psd _ einv hlen hP b g1 g2)
    (selMat σ).mulVecLin (selMat_isometry σ hσ) (fun x => ?_) numeig a a' ha ha'
  rw [mulVecLin_apply, qform_conj, selMat_conj, hM]

theorem forall2_pairs {α β : Type} {R : β → β → Prop} {f f' : α → Except PyErr β} {L L' : List α} {e e' : List β}
    (hl : List.Forall₂ (fun l l' => ∀ E E', f l = .ok E → f' l' = .ok E' → R E E') L L')
    (h1 : List.Forall₂ (fun a b => f a = .ok b) L e) (h2 : List.Forall₂ (fun a b => f' a = .ok b) L' e') :
    ∃ P : List (β × β), P.map Prod.fst = e ∧ P.map Prod.snd = e' ∧ ∀ E ∈ P, R E.1 E.2 := by
  induction hl generalizing e e' with
  | nil => cases h1; cases h2; exact ⟨[], rfl, rfl, by simp⟩
  | cons h _ ih =>
    cases h1 with
    | cons a1 h1 =>
      cases h2 with
      | cons a2 h2 =>
        obtain ⟨P, e1, e2, e3⟩ := ih h1 h2
        refine ⟨(_, _) :: P, by rw [List.map_cons, e1], by rw [List.map_cons, e2], ?_⟩
        intro E hE
        rcases List.mem_cons.1 hE with rfl | hE
        · exact h _ _ a1 a2
        · exact e3 E hE

/-- **C105 (order of the permittivities).** If two structures over the same lattice have the same effective permittivities,
and in every layer the inverse permittivity matrix of the second is below that of the first as a quadratic form, then at
every wave vector no frequency of the second is higher. -/
theorem C105_order (argsort : List ℝ → List ℕ) (hs : ∀ l, IsArgsort l (argsort l))
    (eigh : ∀ n, Matrix (Fin n) (Fin n) ℂ → Fin n → ℝ) (he : GoodEigh eigh) (guided : GuidedSolver)
    (S : GmeStruct) (layers' : List GmeLay) (gmax : ℝ) (onlyG onlyG' : Bool) (opt opt' : String) (ks : List R2)
    (numeig : ℕ)
    (hl : List.Forall₂ (fun l l' : GmeLay => l'.pos = l.pos ∧ l'.eff opt' = l.eff opt ∧
      ∀ E E', S.epsInv gmax onlyG l = .ok E → S.epsInv gmax onlyG' l' = .ok E' →
        E.PosSemidef ∧ E'.PosSemidef ∧ ∀ x, qform E' x ≤ qform E x) S.layers layers')
    (hg : ∀ eff ik b, ik < ks.length → S.layers.mapM (GmeLay.eff opt) = .ok eff →
      guided ((S.layers.map GmeLay.pos).zip eff) (S.gvec gmax) ks ik = .ok b →
      GoodBasis ((S.layers.map GmeLay.pos).zip eff) b) (r r' : List KRes)
    (hr : gmeSimIj ijExact argsort eigh guided S gmax onlyG opt ks 0 numeig = .ok r)
    (hr' : gmeSimIj ijExact argsort eigh guided { S with layers := layers' } gmax onlyG' opt' ks 0 numeig = .ok r') :
    List.Forall₂ Below r' r := by
  have hpos : layers'.map GmeLay.pos = S.layers.map GmeLay.pos := by
    clear hg hr hr'
    generalize S.layers = L at hl
    induction hl with
    | nil => rfl
    | cons h _ ih => rw [List.map_cons, List.map_cons, ih, h.1]
  have heffs : layers'.mapM (GmeLay.eff opt') = S.layers.mapM (GmeLay.eff opt) := by
    clear hg hr hr' hpos
    generalize S.layers = L at hl
    induction hl with
    | nil => rfl
    | cons h _ ih => rw [List.mapM_cons, List.mapM_cons, h.2.1, ih]
  unfold gmeSimIj at hr hr'
  obtain ⟨eff, heff, hr⟩ := bind_ok hr
  obtain ⟨eff', heff', hr'⟩ := bind_ok hr'
  rw [show ({ S with layers := layers' } : GmeStruct).layers = layers' from rfl] at heff'
  rw [heffs, heff] at heff'
  cases heff'
  obtain ⟨einv, heinv, hr⟩ := bind_ok hr
  obtain ⟨einv', heinv', hr'⟩ := bind_ok hr'
  have heinv' : layers'.mapM (S.epsInv gmax onlyG') = .ok einv' := heinv'
  obtain ⟨P, hP1, hP2, hP3⟩ := forall2_pairs (hl.imp fun _ _ h => h.2.2) (mapM_ok_forall heinv) (mapM_ok_forall heinv')
  subst hP1
  subst hP2
  have hlen := stack_length heff heinv
  have hlenP : P.length = ((S.layers.map GmeLay.pos).zip eff).length := by rw [← hlen, List.length_map]
  have hlen' : (P.map Prod.snd).length = ((S.layers.map GmeLay.pos).zip eff).length := by rw [← hlenP, List.length_map]
  refine mapM_below _ hr hr' fun ik hik a a' ha ha' => ?_
  obtain ⟨b, hb, ha⟩ := bind_ok ha
  obtain ⟨b', hb', ha'⟩ := bind_ok ha'
  have hb2 : guided ((layers'.map GmeLay.pos).zip eff) (S.gvec gmax) ks ik = .ok b' := hb'
  rw [hpos, hb] at hb2
  obtain rfl : b = b' := Except.ok.inj hb2
  obtain ⟨g1, g2⟩ := hg eff ik b (List.mem_range.1 hik) heff hb
  have hM : solveFull argsort (List.ofFn (eigh _ (gmeMatIj ijExact ((layers'.map GmeLay.pos).zip eff) (P.map Prod.snd) b + 1))) 0
      numeig = .ok a' := ha'
  rw [hpos] at hM
  refine gme_below argsort hs eigh he _ _ (gmeMatIj_psd _ (P.map Prod.snd) hlen' (fun E h => ?_) b g1 g2)
    (gmeMatIj_psd _ (P.map Prod.fst) hlen (fun E h => ?_) b g1 g2) LinearMap.id (fun x => rfl) (fun x => ?_) numeig a a'
    ha hM
  · obtain ⟨F, hF, rfl⟩ := List.mem_map.1 h
    exact (hP3 F hF).2.1
  · obtain ⟨F, hF, rfl⟩ := List.mem_map.1 h
    exact (hP3 F hF).1
  · rw [LinearMap.id_apply]
    exact gmeMatIj_mono _ P hlenP (fun E h => ⟨(hP3 E h).1.1, (hP3 E h).2.1.1⟩) (fun E h => (hP3 E h).2.2) b g1 g2 x

/-! ### Layers made of shapes -/

/-- The entries of the permittivity matrix. -/
theorem gme_entry (S : GmeStruct) (l : GmeLay) (hr : ∀ s ∈ l.shapes, RealShape s) (gmax : ℝ) :
    ∃ ind : Fin (S.gvec gmax).length → ℤ × ℤ, Function.Injective ind ∧
      (∀ i, ind i = (absInds S.b1 S.b2 gmax).getD i 0) ∧
      ∀ i j, S.epsMat gmax l i j = S.ft l (latVec S.b1 S.b2 (ind j - ind i)) := by
  set inds := absInds S.b1 S.b2 gmax with hinds
  have hN : (S.gvec gmax).length = inds.length := by simp [GmeStruct.gvec, hinds]
  have hlt : ∀ i : Fin (S.gvec gmax).length, (i : ℕ) < inds.length := fun i => hN ▸ i.2
  have hF : ∀ g : R2, S.ft l (-g.1, -g.2) = conj (S.ft l g) := fun g =>
    (C12_layer_conj l.epsB l.epsAvg S.ecArea l.shapes hr g).1
  refine ⟨fun i => inds.getD i 0, ?_, fun i => rfl, fun i j => ?_⟩
  · intro i j h
    simp only [List.getD_eq_getElem?_getD, List.getElem?_eq_getElem (hlt i), List.getElem?_eq_getElem (hlt j),
      Option.getD_some] at h
    exact Fin.ext ((show inds.Nodup from (tbtInds_nodup _ _).filter _).getElem_inj_iff.1 h)
  · have h1 : (inds.map fun k => comb S.b1 S.b2 k.1 k.2)[(i : ℕ)]? =
        some (comb S.b1 S.b2 (inds.getD i 0).1 (inds.getD i 0).2) := by
      simp [hlt i]
    have h2 : (inds.map fun k => comb S.b1 S.b2 k.1 k.2)[(j : ℕ)]? =
        some (comb S.b1 S.b2 (inds.getD j 0).1 (inds.getD j 0).2) := by
      simp [hlt j]
    change epsMatAbs (S.ft l) S.b1 S.b2 inds i j = _
    rw [C20_entry (S.ft l) S.b1 S.b2 inds hF i j _ _ h1 h2, latVec_eq]
    congr 1
    simp only [gOf, comb, Prod.fst_sub, Prod.snd_sub]
    ext <;> push_cast <;> ring

/-- A layer of shapes which do not overlap, with positive permittivities, the error of the transforms being small against
them for the number of plane waves used. -/
def DrawnLayer (S : GmeStruct) (gmax : ℝ) (l : GmeLay) : Prop :=
  ∃ (a1 a2 : R2) (sh : List Drawn) (lo : ℝ), Draws a1 a2 S.b1 S.b2 l.epsB l.epsAvg S.ecArea sh ∧
    l.shapes = sh.map Drawn.shape ∧ (∀ s ∈ l.shapes, RealShape s) ∧ lo ≤ l.epsB ∧ (∀ s ∈ l.shapes, lo ≤ s.eps) ∧
    (S.gvec gmax).length * drawErr l.epsB S.ecArea sh < lo

theorem eps_bounded (b : ℝ) (l : List FShape) : ∃ hi : ℝ, b ≤ hi ∧ ∀ s ∈ l, s.eps ≤ hi := by
  induction l with
  | nil => exact ⟨b, le_refl _, by simp⟩
  | cons s l ih =>
    obtain ⟨hi, h1, h2⟩ := ih
    refine ⟨max hi s.eps, h1.trans (le_max_left _ _), fun t ht => ?_⟩
    rcases List.mem_cons.1 ht with h | h
    · rw [h]; exact le_max_right _ _
    · exact (h2 t h).trans (le_max_left _ _)

theorem drawnLayer_inv (S : GmeStruct) (gmax : ℝ) (l : GmeLay) (h : DrawnLayer S gmax l) (onlyG : Bool) :
    ∃ E, S.epsInv gmax onlyG l = .ok E ∧ E.PosSemidef := by
  obtain ⟨a1, a2, sh, lo, hD, hsh, hr, h1, h2, h3⟩ := h
  obtain ⟨hi, h4, h5⟩ := eps_bounded l.epsB l.shapes
  rcases Nat.eq_zero_or_pos (S.gvec gmax).length with h0 | h0
  · have hsub : ∀ E : Matrix (Fin (S.gvec gmax).length) (Fin (S.gvec gmax).length) ℂ, E.PosSemidef := by
      intro E
      have : IsEmpty (Fin (S.gvec gmax).length) := by rw [h0]; infer_instance
      rw [Subsingleton.elim E 0]
      exact PosSemidef.zero
    unfold GmeStruct.epsInv
    split_ifs with c1 c2
    · exact ⟨_, rfl, hsub _⟩
    · exfalso
      have : IsEmpty (Fin (S.gvec gmax).length) := by rw [h0]; infer_instance
      rw [det_isEmpty] at c2
      exact one_ne_zero c2
    · exact ⟨_, rfl, hsub _⟩
  · obtain ⟨E, e1, e2⟩ := (C101_gme S l a1 a2 sh hD hsh hr lo hi ⟨h1, h2⟩ ⟨h4, h5⟩ gmax).2 h3 h0 onlyG
    exact ⟨E, e1, e2.posSemidef⟩

/-- **C104.** For structures made of shapes which do not overlap nothing else is needed: more guided modes never raise a
frequency. -/
theorem C104_drawn (argsort : List ℝ → List ℕ) (hs : ∀ l, IsArgsort l (argsort l))
    (eigh : ∀ n, Matrix (Fin n) (Fin n) ℂ → Fin n → ℝ) (he : GoodEigh eigh) (guided guided' : GuidedSolver)
    (S : GmeStruct) (gmax : ℝ) (onlyG : Bool) (opt : String) (ks : List R2) (numeig : ℕ)
    (hS : ∀ l ∈ S.layers, DrawnLayer S gmax l)
    (hg : ∀ eff ik b b', ik < ks.length → S.layers.mapM (GmeLay.eff opt) = .ok eff →
      guided ((S.layers.map GmeLay.pos).zip eff) (S.gvec gmax) ks ik = .ok b →
      guided' ((S.layers.map GmeLay.pos).zip eff) (S.gvec gmax) ks ik = .ok b' →
      GoodBasis ((S.layers.map GmeLay.pos).zip eff) b ∧ GoodBasis ((S.layers.map GmeLay.pos).zip eff) b' ∧
      (b.map fun s => (s.ig, s.st)).Subperm (b'.map fun s => (s.ig, s.st))) (r r' : List KRes)
    (hr : gmeSimIj ijExact argsort eigh guided S gmax onlyG opt ks 0 numeig = .ok r)
    (hr' : gmeSimIj ijExact argsort eigh guided' S gmax onlyG opt ks 0 numeig = .ok r') :
    List.Forall₂ Below r' r := by
  refine C104_modes argsort hs eigh he guided guided' S gmax onlyG opt ks numeig hg ?_ r r' hr hr'
  intro l hl E hE
  obtain ⟨E', h1, h2⟩ := drawnLayer_inv S gmax l (hS l hl) onlyG
  rw [h1] at hE
  cases hE
  exact h2

/-- The layer with the permittivity of the background raised by `dB` and that of every shape by the second component; the
average is that of the areas, the effective permittivity set by hand stays. -/
noncomputable def raisedLay (area : ℝ) (l : GmeLay) (dB : ℝ) (sh : List (Drawn × ℝ)) : GmeLay :=
  { l with
    epsB := l.epsB + dB
    epsAvg := l.epsB + dB + (sh.map fun s => (s.1.shape.eps + s.2 - (l.epsB + dB)) * volume.real s.1.region / area).sum
    shapes := sh.map fun s => ⟨s.1.shape.eps + s.2, s.1.shape.ft⟩ }

/-- The permittivity matrix rises as a quadratic form. -/
theorem raisedLay_qform (S : GmeStruct) (l : GmeLay) (a1 a2 : R2) (dB : ℝ) (sh : List (Drawn × ℝ))
    (hD : Draws a1 a2 S.b1 S.b2 l.epsB l.epsAvg S.ecArea (sh.map Prod.fst))
    (hsh : l.shapes = sh.map fun s => s.1.shape) (hr : ∀ s ∈ l.shapes, RealShape s) (d : ℝ)
    (hd : d ≤ dB ∧ ∀ s ∈ sh, d ≤ s.2) (gmax : ℝ)
    (hm : (S.gvec gmax).length * ((sh.map fun s => |s.2 - dB| * s.1.err).sum / S.ecArea) ≤ d)
    (x : Fin (S.gvec gmax).length → ℂ) :
    (S.epsMat gmax l).IsHermitian ∧ (S.epsMat gmax (raisedLay S.ecArea l dB sh)).IsHermitian ∧
    qform (S.epsMat gmax l) x ≤ qform (S.epsMat gmax (raisedLay S.ecArea l dB sh)) x := by
  have hr' : ∀ s ∈ (raisedLay S.ecArea l dB sh).shapes, RealShape s := by
    intro s hs
    obtain ⟨t, ht, rfl⟩ := List.mem_map.1 hs
    exact hr t.1.shape (by rw [hsh]; exact List.mem_map_of_mem ht)
  have herm : ∀ l : GmeLay, (∀ s ∈ l.shapes, RealShape s) → (S.epsMat gmax l).IsHermitian := by
    intro l hr
    obtain ⟨ind, -, -, hent⟩ := gme_entry S l hr gmax
    ext i j
    rw [conjTranspose_apply, hent, hent, RCLike.star_def, GmeStruct.ft,
      ← (C12_layer_conj l.epsB l.epsAvg S.ecArea l.shapes hr _).1]
    congr 1
    simp only [latVec, Prod.fst_sub, Prod.snd_sub]
    ext <;> push_cast <;> ring
  refine ⟨herm l hr, herm _ hr', ?_⟩
  set D : List Drawn := sh.map fun s => ⟨⟨s.2, s.1.shape.ft⟩, s.1.region, s.1.err⟩ with hDdef
  have hD' : Draws a1 a2 S.b1 S.b2 dB (dB + (sh.map fun s => (s.2 - dB) * volume.real s.1.region / S.ecArea).sum)
      S.ecArea D := by
    refine ⟨hD.dual, hD.resolved, hD.area_eq, ?_, ?_, ?_, ?_, ?_⟩
    · have := hD.apart
      rw [List.map_map] at this
      rw [hDdef, List.map_map]
      exact this
    · intro s hs
      obtain ⟨t, ht, rfl⟩ := List.mem_map.1 hs
      exact hD.measurable t.1 (List.mem_map_of_mem ht)
    · intro s hs
      obtain ⟨t, ht, rfl⟩ := List.mem_map.1 hs
      exact hD.close t.1 (List.mem_map_of_mem ht)
    · intro s hs
      obtain ⟨t, ht, rfl⟩ := List.mem_map.1 hs
      exact hD.err_nonneg t.1 (List.mem_map_of_mem ht)
    · rw [hDdef, List.map_map]; rfl
  obtain ⟨ind, hinj, hi1, hent⟩ := gme_entry S l hr gmax
  obtain ⟨ind', -, hi2, hent'⟩ := gme_entry S (raisedLay S.ecArea l dB sh) hr' gmax
  obtain rfl : ind' = ind := funext fun i => (hi2 i).trans (hi1 i).symm
  obtain ⟨hi, hhi⟩ := eps_bounded dB (D.map Drawn.shape)
  have hb := (C101_bounds a1 a2 S.b1 S.b2 dB _ S.ecArea D hD' d hi
    ⟨hd.1, fun s hs => by obtain ⟨t, ht, rfl⟩ := List.mem_map.1 hs; exact hd.2 t ht⟩
    ⟨hhi.1, fun s hs => hhi.2 _ (List.mem_map_of_mem hs)⟩ ind' hinj x).1
  have herr : drawErr dB S.ecArea D = (sh.map fun s => |s.2 - dB| * s.1.err).sum / S.ecArea := by
    rw [drawErr, hDdef, List.map_map]; rfl
  rw [herr] at hb
  have hpos := (mul_nonneg (sub_nonneg.2 hm) (Finset.sum_nonneg (s := Finset.univ)
    fun i _ => sq_nonneg ‖x i‖)).trans hb
  have hl : D.map Drawn.shape = sh.map fun s => ⟨s.2, s.1.shape.ft⟩ := by rw [hDdef, List.map_map]; rfl
  rw [hl] at hpos
  have hsum : ∀ i j, S.epsMat gmax (raisedLay S.ecArea l dB sh) i j = S.epsMat gmax l i j +
      layerFt dB (dB + (sh.map fun s => (s.2 - dB) * volume.real s.1.region / S.ecArea).sum) S.ecArea
        (sh.map fun s => ⟨s.2, s.1.shape.ft⟩) (latVec S.b1 S.b2 (ind' j - ind' i)) := by
    intro i j
    rw [hent, hent']
    exact raised_ft ⟨S.b1, S.b2, S.ecArea, l.epsB, l.epsAvg, l.shapes⟩ dB sh hsh hD.avg _
  rw [qform_sum, qform_sum]
  have e : ∑ i, ∑ j, conj (x i) * S.epsMat gmax (raisedLay S.ecArea l dB sh) i j * x j =
      (∑ i, ∑ j, conj (x i) * S.epsMat gmax l i j * x j) + ∑ i, ∑ j, conj (x i) * layerFt dB (dB + (sh.map fun s =>
        (s.2 - dB) * volume.real s.1.region / S.ecArea).sum) S.ecArea (sh.map fun s => ⟨s.2, s.1.shape.ft⟩)
        (latVec S.b1 S.b2 (ind' j - ind' i)) * x j := by
    rw [← Finset.sum_add_distrib]
    refine Finset.sum_congr rfl fun i _ => ?_
    rw [← Finset.sum_add_distrib]
    refine Finset.sum_congr rfl fun j _ => ?_
    rw [hsum]; ring
  rw [e, Complex.add_re]
  linarith

/-- `homAbs` for a layer: the expansion takes it as uniform. -/
def TakenUniform (S : GmeStruct) (gmax : ℝ) (l : GmeLay) : Prop :=
  homAbs (S.ft l) S.b1 S.b2 (absInds S.b1 S.b2 gmax)

/-- The permittivity matrix of a layer without shapes. -/
theorem plain_mat (S : GmeStruct) (hres : Resolved S.b1 S.b2) (l : GmeLay) (h : l.shapes = []) (gmax : ℝ) :
    S.epsMat gmax l = (l.epsAvg : ℂ) • 1 := by
  obtain ⟨ind, hinj, -, hent⟩ := gme_entry S l (by simp [h]) gmax
  ext i j
  rw [hent, Matrix.smul_apply, one_apply]
  by_cases hij : i = j
  · subst hij
    rw [sub_self, latVec_zero, if_pos rfl, GmeStruct.ft, layerFt_g0 _ _ _ _ _ (by simp [isG0]; norm_num), smul_eq_mul, mul_one]
  · rw [if_neg hij, smul_zero, GmeStruct.ft, C12_layer_value, h]
    · simp
    · intro h0
      have hne : ind j - ind i ≠ 0 := fun h => hij (hinj (sub_eq_zero.1 h).symm)
      refine hres (ind j - ind i).1 (ind j - ind i).2 hne ?_
      have h0' : |(latVec S.b1 S.b2 (ind j - ind i)).1| + |(latVec S.b1 S.b2 (ind j - ind i)).2| < 1e-10 := h0
      have e : latVec S.b1 S.b2 (ind j - ind i) = (S.b1.1 * (ind j - ind i).1 + S.b2.1 * (ind j - ind i).2,
          S.b1.2 * (ind j - ind i).1 + S.b2.2 * (ind j - ind i).2) := by
        simp only [latVec]
        ext <;> push_cast <;> ring
      rw [e] at h0'
      constructor
      · exact lt_of_le_of_lt (le_add_of_nonneg_right (abs_nonneg _)) h0'
      · exact lt_of_le_of_lt (le_add_of_nonneg_left (abs_nonneg _)) h0'

/-- What is used as the inverse is the inverse if the layer has no shapes or is not taken as uniform. -/
theorem epsInv_exact (S : GmeStruct) (hres : Resolved S.b1 S.b2) (gmax : ℝ) (l : GmeLay)
    (hu : l.shapes = [] ∨ ¬ TakenUniform S gmax l)
    (E : Matrix (Fin (S.gvec gmax).length) (Fin (S.gvec gmax).length) ℂ) (hE : S.epsInv gmax false l = .ok E) :
    E = (S.epsMat gmax l)⁻¹ := by
  unfold GmeStruct.epsInv at hE
  split_ifs at hE with c1 c2
  · cases hE
    simp only [Bool.false_eq_true, or_false] at c1
    rcases hu with h | h
    · rcases Nat.eq_zero_or_pos (S.gvec gmax).length with h0 | h0
      · have : IsEmpty (Fin (S.gvec gmax).length) := by rw [h0]; infer_instance
        exact Subsingleton.elim _ _
      · have hp := plain_mat S hres l h gmax
        have h00 : epsMatAbs (S.ft l) S.b1 S.b2 (absInds S.b1 S.b2 gmax) 0 0 = (l.epsAvg : ℂ) := by
          have := congrFun (congrFun hp ⟨0, h0⟩) ⟨0, h0⟩
          rw [Matrix.smul_apply, one_apply_eq, smul_eq_mul, mul_one] at this
          exact this
        rw [h00, hp]
        by_cases hz : (l.epsAvg : ℂ) = 0
        · rw [hz, _root_.inv_zero, zero_smul]
          exact (Matrix.inv_zero).symm
        · refine (inv_eq_right_inv ?_).symm
          rw [Matrix.smul_mul, Matrix.mul_smul, Matrix.mul_one, smul_smul, mul_inv_cancel₀ hz, one_smul]
    · exact absurd c1 h
  · cases hE
    rfl

/-- **C105 (raising permittivities).** With the effective permittivities set by hand, raise the permittivity of the
background and of the shapes in some layers by at least `d` (which may be zero where all increments are equal; otherwise it
has to exceed the number of plane waves times the error of a coefficient of the increments), and leave the other layers as
they are. Then at every wave vector no frequency rises. -/
theorem C105_raise (argsort : List ℝ → List ℕ) (hs : ∀ l, IsArgsort l (argsort l))
    (eigh : ∀ n, Matrix (Fin n) (Fin n) ℂ → Fin n → ℝ) (he : GoodEigh eigh) (guided : GuidedSolver)
    (S : GmeStruct) (layers' : List GmeLay) (gmax : ℝ) (ks : List R2) (numeig : ℕ)
    (hl : List.Forall₂ (fun l l' : GmeLay => DrawnLayer S gmax l ∧ (l' = l ∨
      ∃ (a1 a2 : R2) (dB d lo : ℝ) (sh : List (Drawn × ℝ)), l' = raisedLay S.ecArea l dB sh ∧
        Draws a1 a2 S.b1 S.b2 l.epsB l.epsAvg S.ecArea (sh.map Prod.fst) ∧ (l.shapes = sh.map fun s => s.1.shape) ∧
        (∀ s ∈ l.shapes, RealShape s) ∧ lo ≤ l.epsB ∧ (∀ s ∈ l.shapes, lo ≤ s.eps) ∧
        (S.gvec gmax).length * drawErr l.epsB S.ecArea (sh.map Prod.fst) < lo ∧
        d ≤ dB ∧ (∀ s ∈ sh, d ≤ s.2) ∧
        (S.gvec gmax).length * ((sh.map fun s => |s.2 - dB| * s.1.err).sum / S.ecArea) ≤ d ∧
        (sh = [] ∨ ¬ TakenUniform S gmax l ∧ ¬ TakenUniform S gmax l'))) S.layers layers')
    (hg : ∀ eff ik b, ik < ks.length → S.layers.mapM (GmeLay.eff "custom") = .ok eff →
      guided ((S.layers.map GmeLay.pos).zip eff) (S.gvec gmax) ks ik = .ok b →
      GoodBasis ((S.layers.map GmeLay.pos).zip eff) b) (r r' : List KRes)
    (hr : gmeSimIj ijExact argsort eigh guided S gmax false "custom" ks 0 numeig = .ok r)
    (hr' : gmeSimIj ijExact argsort eigh guided { S with layers := layers' } gmax false "custom" ks 0 numeig = .ok r') :
    List.Forall₂ Below r' r := by
  refine C105_order argsort hs eigh he guided S layers' gmax false false "custom" "custom" ks numeig
    (hl.imp ?_) hg r r' hr hr'
  rintro l l' ⟨hdr, rfl | ⟨a1, a2, dB, d, lo, sh, rfl, hD, hsh, hrs, hlo, hlos, hpos, hd1, hd2, hm, hu⟩⟩
  · refine ⟨rfl, rfl, fun E E' hE hE' => ?_⟩
    obtain ⟨F, h1, h2⟩ := drawnLayer_inv S gmax l' hdr false
    rw [h1] at hE hE'
    cases hE
    cases hE'
    exact ⟨h2, h2, fun x => le_refl _⟩
  · refine ⟨rfl, rfl, fun E E' hE hE' => ?_⟩
    have hq := fun x => raisedLay_qform S l a1 a2 dB sh hD hsh hrs d ⟨hd1, hd2⟩ gmax hm x
    have hform : ∀ x, (lo - (S.gvec gmax).length * drawErr l.epsB S.ecArea (sh.map Prod.fst)) * ∑ i, ‖x i‖ ^ 2 ≤
        qform (S.epsMat gmax l) x := by
      intro x
      obtain ⟨hi, h4, h5⟩ := eps_bounded l.epsB l.shapes
      rw [qform_sum]
      exact ((C101_gme S l a1 a2 (sh.map Prod.fst) hD (by rw [hsh, List.map_map]; rfl) hrs lo hi ⟨hlo, hlos⟩ ⟨h4, h5⟩
        gmax).1 x).1
    have hP : (S.epsMat gmax l).PosDef := posDef_of_form _ (hq 0).1 _ (sub_pos.2 hpos) fun x => by
      rw [← qform_sum]; exact hform x
    have hP' : (S.epsMat gmax (raisedLay S.ecArea l dB sh)).PosDef :=
      posDef_of_form _ (hq 0).2.1 _ (sub_pos.2 hpos) fun x => by
        rw [← qform_sum]; exact (hform x).trans (hq x).2.2
    have e1 : E = (S.epsMat gmax l)⁻¹ := epsInv_exact S hD.resolved gmax l
      (hu.imp (fun h => by rw [hsh, h]; rfl) fun h => h.1) E hE
    have e2 : E' = (S.epsMat gmax (raisedLay S.ecArea l dB sh))⁻¹ := epsInv_exact S hD.resolved gmax _
      (hu.imp (fun h => by rw [raisedLay, h]; rfl) fun h => h.2) E' hE'
    subst e1 e2
    exact ⟨hP.inv.posSemidef, hP'.inv.posSemidef, qform_inv_le _ _ hP hP' fun x => (hq x).2.2⟩

/-! ### Examples -/

/-- A hole of radius 0.2 has a Fourier coefficient of at least 0.01 at the first reciprocal lattice vector. -/
theorem hole_coeff (eps : ℝ) : 0.01 ≤ ‖(drawnCircle eps ⟨0, 0, 0.2⟩).shape.ft (2 * Real.pi, 0)‖ := by
  obtain ⟨m1, m2, -, m4⟩ := C101_circle eps ⟨0, 0, 0.2⟩ (by norm_num)
  have h4 := m4 (2 * Real.pi, 0)
  set R := (drawnCircle eps ⟨0, 0, 0.2⟩).region with hR
  have hvol : volume.real R = Real.pi * 0.2 ^ 2 := m2
  have hfin : volume R ≠ ⊤ := by
    intro h
    rw [Measure.real, h, ENNReal.toReal_top] at hvol
    have := Real.pi_pos
    norm_num at hvol
  have hpi := Real.pi_gt_three
  have hpi' := Real.pi_lt_d2
  have hint : IntegrableOn (fun p : ℝ × ℝ => Complex.exp (-Complex.I * ((2 * Real.pi * p.1 + 0 * p.2 : ℝ) : ℂ))) R := by
    refine Measure.integrableOn_of_bounded (M := 1) hfin ?_ ?_
    · exact (Continuous.aestronglyMeasurable (by fun_prop))
    · refine Filter.Eventually.of_forall fun p => ?_
      rw [Complex.norm_exp]
      simp
  have hre : 0.2 * (Real.pi * 0.2 ^ 2) ≤ (regionFourier R (2 * Real.pi, 0)).re := by
    have e : (regionFourier R (2 * Real.pi, 0)).re = ∫ p in R, Real.cos (2 * Real.pi * p.1) := by
      unfold regionFourier
      have := integral_re hint
      simp only [RCLike.re_to_complex] at this
      rw [← this]
      refine setIntegral_congr_fun m1 fun p _ => ?_
      simp only [zero_mul, add_zero]
      rw [show -Complex.I * ((2 * Real.pi * p.1 : ℝ) : ℂ) = ((-(2 * Real.pi * p.1) : ℝ) : ℂ) * Complex.I by push_cast; ring,
        Complex.exp_ofReal_mul_I_re, Real.cos_neg]
    rw [e, ← hvol, mul_comm, ← smul_eq_mul, ← setIntegral_const]
    refine setIntegral_mono_on (integrableOn_const hfin) ?_ m1 fun p hp => ?_
    · refine Measure.integrableOn_of_bounded (M := 1) hfin ?_ ?_
      · exact (Continuous.aestronglyMeasurable (by fun_prop))
      · exact Filter.Eventually.of_forall fun p => Real.abs_cos_le_one _
    · have hp' : (p.1 - 0) ^ 2 + (p.2 - 0) ^ 2 ≤ (0.2 : ℝ) ^ 2 := hp
      have h1 : p.1 ^ 2 ≤ 0.04 := by nlinarith [sq_nonneg p.2]
      have h2 := Real.one_sub_sq_div_two_le_cos (x := 2 * Real.pi * p.1)
      have h3 : (2 * Real.pi * p.1) ^ 2 = 4 * Real.pi ^ 2 * p.1 ^ 2 := by ring
      have h4 : Real.pi ^ 2 ≤ 9.93 := by nlinarith
      have h5 : 4 * Real.pi ^ 2 * p.1 ^ 2 ≤ 4 * 9.93 * 0.04 := by
        have := sq_nonneg p.1
        have := sq_nonneg Real.pi
        nlinarith
      linarith
  have herr : (drawnCircle eps ⟨0, 0, 0.2⟩).err ≤ 0.001 := by
    simp only [drawnCircle]
    norm_num
    linarith
  have hn : (regionFourier R (2 * Real.pi, 0)).re ≤ ‖regionFourier R (2 * Real.pi, 0)‖ := Complex.re_le_norm _
  have htri := norm_sub_norm_le (regionFourier R (2 * Real.pi, 0)) ((drawnCircle eps ⟨0, 0, 0.2⟩).shape.ft (2 * Real.pi, 0))
  rw [norm_sub_rev] at htri
  have : (0.01 : ℝ) ≤ 0.2 * (Real.pi * 0.2 ^ 2) - 0.001 := by nlinarith
  linarith

/-- A slab with holes of permittivity `e` in a medium of permittivity `e + 11`. -/
noncomputable def holesSlab (e : ℝ) : GmeLay :=
  ⟨.inner 1, e + 11, e + 11 + (e - (e + 11)) * (Real.pi * 0.2 ^ 2) / 1, some 11, [⟨e, Circle.ft besselJ1 ⟨0, 0, 0.2⟩⟩]⟩

/-- The slab between claddings of air. -/
noncomputable def holesStruct (e : ℝ) : GmeStruct :=
  ⟨(2 * Real.pi, 0), (0, 2 * Real.pi), 1, [⟨.lower, 1, 1, some 1, []⟩, holesSlab e, ⟨.upper, 1, 1, some 1, []⟩]⟩

theorem holes_real' (e : ℝ) : ∀ s ∈ (holesSlab e).shapes, RealShape s := by
  simp only [holesSlab, List.mem_singleton]
  rintro s rfl
  exact C12_circle_conj besselJ1 _

/-- The slab is patterned for the expansion. -/
theorem holes_patterned (e e' gmax : ℝ) (hg : 1 ≤ gmax) : ¬ TakenUniform (holesStruct e') gmax (holesSlab e) := by
  set inds := absInds (2 * Real.pi, 0) (0, 2 * Real.pi) gmax with hinds
  have hpi := Real.pi_pos
  have hn1 : norm2 ((2 * Real.pi, 0) : R2) = 2 * Real.pi := by
    simp only [norm2]; rw [zero_pow two_ne_zero, add_zero, Real.sqrt_sq (by positivity)]
  have hn2 : norm2 ((0, 2 * Real.pi) : R2) = 2 * Real.pi := by
    simp only [norm2]; rw [zero_pow two_ne_zero, zero_add, Real.sqrt_sq (by positivity)]
  have hge : gmax ≤ gmaxEff gmax (absNorms (2 * Real.pi, 0) (0, 2 * Real.pi) gmax) := gmax_le_gmaxEff _ _
  have mem : ∀ k : ℤ, |k| ≤ 1 → (k, 0) ∈ inds := by
    intro k hk
    have hk' : |(k : ℝ)| ≤ 1 := by exact_mod_cast hk
    rw [hinds, mem_absInds]
    have hw : ∀ n : ℤ, |(n : ℝ)| ≤ 1 → |(n : ℝ)| * (2 * Real.pi) ≤ 4 * Real.pi * gmax := by
      intro n hn; nlinarith
    refine ⟨(mem_tbtInds _ _ _).mpr ⟨le_nmaxOf _ _ _ _ (by rw [hn1]; positivity) (by positivity) ?_,
      le_nmaxOf _ _ _ _ (by rw [hn2]; positivity) (by positivity) ?_⟩, ?_⟩
    · rw [hn1]; exact hw k hk'
    · rw [hn2]; exact hw 0 (by simp)
    · have e1 : norm2 (gOf (2 * Real.pi, 0) (0, 2 * Real.pi) (k, 0)) = |(k : ℝ)| * (2 * Real.pi) := by
        simp only [norm2, gOf, Int.cast_zero, mul_zero, add_zero, zero_mul, zero_pow two_ne_zero]
        rw [Real.sqrt_sq_eq_abs, abs_mul, abs_of_pos (by positivity : (0 : ℝ) < 2 * Real.pi)]
        ring
      rw [e1]
      nlinarith
  obtain ⟨i, hi, hi'⟩ := List.getElem_of_mem (mem 0 (by simp))
  obtain ⟨j, hj, hj'⟩ := List.getElem_of_mem (mem 1 (by simp))
  have gi : inds.getD i 0 = (0, 0) := by rw [getD_get inds _ hi, hi']
  have gj : inds.getD j 0 = (1, 0) := by rw [getD_get inds _ hj, hj']
  have hN : ((holesStruct e').gvec gmax).length = inds.length := by simp [GmeStruct.gvec, hinds, holesStruct]
  obtain ⟨ind, -, h1, hent⟩ := gme_entry (holesStruct e') (holesSlab e) (holes_real' e) gmax
  have hval : (0.11 : ℝ) ≤ ‖epsMatAbs ((holesStruct e').ft (holesSlab e)) (2 * Real.pi, 0) (0, 2 * Real.pi) inds i j‖ := by
    have h := hent ⟨i, by rw [hN]; exact hi⟩ ⟨j, by rw [hN]; exact hj⟩
    have ei : ind ⟨i, by rw [hN]; exact hi⟩ = (0, 0) := (h1 _).trans gi
    have ej : ind ⟨j, by rw [hN]; exact hj⟩ = (1, 0) := (h1 _).trans gj
    rw [ei, ej] at h
    have h' : epsMatAbs ((holesStruct e').ft (holesSlab e)) (2 * Real.pi, 0) (0, 2 * Real.pi) inds i j =
      (holesStruct e').ft (holesSlab e) (latVec (2 * Real.pi, 0) (0, 2 * Real.pi) ((1, 0) - (0, 0))) := h
    rw [h', show latVec (2 * Real.pi, 0) (0, 2 * Real.pi) ((1, 0) - (0, 0)) = (2 * Real.pi, 0) by simp [latVec],
      GmeStruct.ft, C12_layer_value]
    · have := hole_coeff e
      simp only [drawnCircle] at this
      simp only [holesSlab, holesStruct, List.map_cons, List.map_nil, List.sum_cons, List.sum_nil, add_zero]
      rw [norm_div, norm_mul]
      have e11 : ‖((e - (e + 11) : ℝ) : ℂ)‖ = 11 := by
        rw [Complex.norm_real, show e - (e + 11) = -11 by ring, norm_neg]; norm_num
      have e11' : ‖((e : ℂ) - ((e + 11 : ℝ) : ℂ))‖ = 11 := by rw [← Complex.ofReal_sub]; exact e11
      simp only [Complex.ofReal_one, norm_one, div_one, e11, e11']
      linarith
    · simp only [isG0, abs_zero, add_zero, not_lt]
      rw [abs_of_pos (by positivity)]
      have := Real.pi_gt_three
      norm_num
      linarith
  intro hu
  have hu : homAbs ((holesStruct e').ft (holesSlab e)) (2 * Real.pi, 0) (0, 2 * Real.pi) inds := hu
  unfold homAbs at hu
  have hu : ∑ i ∈ Finset.range inds.length, ∑ j ∈ Finset.range inds.length,
      (if 1e-10 < norm2 (gOf (2 * Real.pi, 0) (0, 2 * Real.pi) ((inds.getD j 0).1 - (inds.getD i 0).1,
        (inds.getD j 0).2 - (inds.getD i 0).2))
      then ‖epsMatAbs ((holesStruct e').ft (holesSlab e)) (2 * Real.pi, 0) (0, 2 * Real.pi) inds i j‖ else 0) < 1e-10 := by
    convert hu
  have hnn : ∀ i j : ℕ, 0 ≤ (if 1e-10 < norm2 (gOf (2 * Real.pi, 0) (0, 2 * Real.pi) ((inds.getD j 0).1 - (inds.getD i 0).1,
        (inds.getD j 0).2 - (inds.getD i 0).2))
      then ‖epsMatAbs ((holesStruct e').ft (holesSlab e)) (2 * Real.pi, 0) (0, 2 * Real.pi) inds i j‖ else 0) := by
    intro i j
    split_ifs
    · exact norm_nonneg _
    · exact le_refl _
  have h2 := (Finset.single_le_sum (fun j _ => hnn i j) (Finset.mem_range.2 hj)).trans
    (Finset.single_le_sum (fun i _ => Finset.sum_nonneg fun j _ => hnn i j) (Finset.mem_range.2 hi))
  have hg1 : norm2 (gOf (2 * Real.pi, 0) (0, 2 * Real.pi) ((inds.getD j 0).1 - (inds.getD i 0).1,
        (inds.getD j 0).2 - (inds.getD i 0).2)) = 2 * Real.pi := by
    rw [gi, gj]
    simp only [sub_zero, gOf, Int.cast_one, Int.cast_zero, mul_one, mul_zero, one_mul, zero_mul, add_zero]
    exact hn1
  rw [if_pos (by rw [hg1]; have := Real.pi_gt_three; norm_num; linarith)] at h2
  have : (0.11 : ℝ) < 1e-10 := lt_of_le_of_lt hval (lt_of_le_of_lt h2 hu)
  norm_num at this

theorem cladding_drawn (e gmax : ℝ) (p : LPos) (eff : Option ℝ) : DrawnLayer (holesStruct e) gmax ⟨p, 1, 1, eff, []⟩ := by
  refine ⟨(1, 0), (0, 1), [], 1 / 2, ⟨square_holes.dual, resolved_square, by simp [holesStruct], ⟨by simp, by simp⟩, by simp,
    by simp, by simp, by simp⟩, rfl, by simp, by norm_num, by simp, ?_⟩
  simp [drawErr]

theorem holes_draws (e : ℝ) : Draws (1, 0) (0, 1) (2 * Real.pi, 0) (0, 2 * Real.pi) (e + 11)
    (e + 11 + (e - (e + 11)) * (Real.pi * 0.2 ^ 2) / 1) 1 [drawnCircle e ⟨0, 0, 0.2⟩] := by
  obtain ⟨m1, m2, -, m4⟩ := C101_circle e ⟨0, 0, 0.2⟩ (by norm_num)
  refine ⟨square_holes.dual, resolved_square, by simp, square_holes.apart, ?_, ?_, ?_, ?_⟩
  · simpa using m1
  · simpa using fun n m _ => m4 (latVec (2 * Real.pi, 0) (0, 2 * Real.pi) (n, m))
  · simp only [List.mem_singleton, forall_eq, drawnCircle]; have := Real.pi_pos; positivity
  · simp only [List.map_cons, List.map_nil, List.sum_cons, List.sum_nil, m2, add_zero]; rfl

theorem holes_err' (e : ℝ) (n : ℕ) (hn : n ≤ 10 ^ 6) :
    (n : ℝ) * drawErr (e + 11) 1 [drawnCircle e ⟨0, 0, 0.2⟩] < 1 := by
  have h := holes_err n hn
  have e1 : drawErr (e + 11) 1 [drawnCircle e ⟨0, 0, 0.2⟩] = drawErr 12 1 [drawnCircle 1 ⟨0, 0, 0.2⟩] := by
    simp only [drawErr, drawnCircle, List.map_cons, List.map_nil]
    rw [show e - (e + 11) = 1 - 12 by ring]
  rw [e1]
  exact h

theorem slab_drawn (gmax : ℝ) (hn : ((holesStruct 1).gvec gmax).length ≤ 10 ^ 6) :
    DrawnLayer (holesStruct 1) gmax (holesSlab 1) :=
  ⟨(1, 0), (0, 1), [drawnCircle 1 ⟨0, 0, 0.2⟩], 1, holes_draws 1, rfl, holes_real' 1, by norm_num [holesSlab],
    by simp [holesSlab], holes_err' 1 _ hn⟩

theorem holes_layers (gmax : ℝ) (hn : ((holesStruct 1).gvec gmax).length ≤ 10 ^ 6) :
    ∀ l ∈ (holesStruct 1).layers, DrawnLayer (holesStruct 1) gmax l := by
  simp only [holesStruct, List.mem_cons, List.not_mem_nil, or_false]
  rintro l (rfl | rfl | rfl)
  · exact cladding_drawn 1 gmax _ _
  · exact slab_drawn gmax hn
  · exact cladding_drawn 1 gmax _ _

/-- Modes at the first plane wave. -/
noncomputable def exGuided (both : Bool) : GuidedSolver := fun _ gvec _ _ =>
  if h : 0 < gvec.length then
    .ok (⟨0, ⟨0, h⟩, exampleState .te⟩ :: if both then [⟨1, ⟨0, h⟩, exampleState .tm⟩] else [])
  else .ok []

theorem exGuided_good (both : Bool) (gvec ks : List R2) (ik : ℕ) (a b c : ℝ) (l : List (BasisEl gvec.length))
    (h : exGuided both [(.lower, a), (.inner 1, b), (.upper, c)] gvec ks ik = .ok l) :
    GoodBasis [(.lower, a), (.inner 1, b), (.upper, c)] l := by
  have hd : ∀ pol, List.Forall₂ (fun (a : LPos × ℝ) m => Decays a.1 m) [(.lower, a), (.inner 1, b), (.upper, c)]
      (exampleState pol).layers := by
    intro pol
    refine .cons ?_ (.cons ?_ (.cons ?_ .nil)) <;> simp [Decays]
  unfold exGuided at h
  by_cases h1 : 0 < gvec.length
  · rw [dif_pos h1] at h
    cases h
    refine ⟨?_, ?_⟩
    · cases both <;> simp
    · intro s hs
      cases both
      · simp only [Bool.false_eq_true, if_false, List.mem_singleton] at hs
        rw [hs]; exact hd _
      · simp only [if_true, List.mem_cons, List.not_mem_nil, or_false] at hs
        rcases hs with rfl | rfl <;> exact hd _
  · rw [dif_neg h1] at h
    cases h
    exact ⟨List.Pairwise.nil, fun s hs => by simp at hs⟩

theorem holes_custom {e : ℝ} {eff : List ℝ} (h : (holesStruct e).layers.mapM (GmeLay.eff "custom") = .ok eff) :
    ((holesStruct e).layers.map GmeLay.pos).zip eff = [(.lower, 1), (.inner 1, 11), (.upper, 1)] := by
  have : (holesStruct e).layers.mapM (GmeLay.eff "custom") = .ok [1, 11, 1] := rfl
  rw [this] at h
  cases h
  rfl

/-- TE modes alone, and with TM modes; up to a million plane waves. -/
example (argsort : List ℝ → List ℕ) (hs : ∀ l, IsArgsort l (argsort l))
    (eigh : ∀ n, Matrix (Fin n) (Fin n) ℂ → Fin n → ℝ) (he : GoodEigh eigh) (gmax : ℝ)
    (hn : ((holesStruct 1).gvec gmax).length ≤ 10 ^ 6) (ks : List R2) (r r' : List KRes)
    (hr : gmeSimIj ijExact argsort eigh (exGuided false) (holesStruct 1) gmax false "custom" ks 0 1 = .ok r)
    (hr' : gmeSimIj ijExact argsort eigh (exGuided true) (holesStruct 1) gmax false "custom" ks 0 1 = .ok r') :
    List.Forall₂ Below r' r := by
  refine C104_drawn argsort hs eigh he _ _ (holesStruct 1) gmax false "custom" ks 1 (holes_layers gmax hn)
    (fun eff ik b b' _ he hb hb' => ?_) r r' hr hr'
  rw [holes_custom he] at hb hb' ⊢
  refine ⟨exGuided_good _ _ _ _ _ _ _ _ hb, exGuided_good _ _ _ _ _ _ _ _ hb', ?_⟩
  unfold exGuided at hb hb'
  by_cases h1 : 0 < ((holesStruct 1).gvec gmax).length
  · rw [dif_pos h1] at hb hb'
    cases hb
    cases hb'
    exact ((List.nil_sublist _).cons₂ _).subperm
  · rw [dif_neg h1] at hb hb'
    cases hb
    cases hb'
    exact List.Subperm.refl _

/-- Both runs succeed at a wave vector if there is a plane wave. -/
example (argsort : List ℝ → List ℕ) (eigh : ∀ n, Matrix (Fin n) (Fin n) ℂ → Fin n → ℝ) (both : Bool) (gmax : ℝ)
    (hn : ((holesStruct 1).gvec gmax).length ≤ 10 ^ 6) (h0 : 0 < ((holesStruct 1).gvec gmax).length) (k : R2) :
    ∃ r, gmeSimIj ijExact argsort eigh (exGuided both) (holesStruct 1) gmax false "custom" [k] 0 1 = .ok r := by
  obtain ⟨E1, h1, -⟩ := drawnLayer_inv _ gmax _ (cladding_drawn 1 gmax .lower (some 1)) false
  obtain ⟨E2, h2, -⟩ := drawnLayer_inv _ gmax _ (slab_drawn gmax hn) false
  obtain ⟨E3, h3, -⟩ := drawnLayer_inv _ gmax _ (cladding_drawn 1 gmax .upper (some 1)) false
  have he : (holesStruct 1).layers.mapM ((holesStruct 1).epsInv gmax false) = .ok [E1, E2, E3] := by
    rw [show (holesStruct 1).layers = [⟨.lower, 1, 1, some 1, []⟩, holesSlab 1, ⟨.upper, 1, 1, some 1, []⟩] from rfl]
    simp only [List.mapM_cons, List.mapM_nil, h1, h2, h3]
    rfl
  unfold gmeSimIj
  rw [show (holesStruct 1).layers.mapM (GmeLay.eff "custom") = .ok [1, 11, 1] from rfl, he]
  simp only [bind, Except.bind, List.length_singleton, List.range_one, List.mapM_cons, List.mapM_nil, exGuided, dif_pos h0,
    solveFull, List.length_ofFn, List.length_cons]
  rw [if_neg (by omega)]
  exact ⟨_, rfl⟩

/-- Holes of permittivity 1 in 12 against 1.5 in 12.5. -/
example (argsort : List ℝ → List ℕ) (hs : ∀ l, IsArgsort l (argsort l))
    (eigh : ∀ n, Matrix (Fin n) (Fin n) ℂ → Fin n → ℝ) (he : GoodEigh eigh) (gmax : ℝ) (hg : 1 ≤ gmax)
    (hn : ((holesStruct 1).gvec gmax).length ≤ 10 ^ 6) (ks : List R2) (r r' : List KRes)
    (hr : gmeSimIj ijExact argsort eigh (exGuided true) (holesStruct 1) gmax false "custom" ks 0 2 = .ok r)
    (hr' : gmeSimIj ijExact argsort eigh (exGuided true) (holesStruct 1.5) gmax false "custom" ks 0 2 = .ok r') :
    List.Forall₂ Below r' r := by
  have e1 : raisedLay 1 (holesSlab 1) 0.5 [(drawnCircle 1 ⟨0, 0, 0.2⟩, 0.5)] = holesSlab 1.5 := by
    obtain ⟨-, m2, -, -⟩ := C101_circle 1 ⟨0, 0, 0.2⟩ (by norm_num)
    simp only [raisedLay, holesSlab, List.map_cons, List.map_nil, List.sum_cons, List.sum_nil, m2, drawnCircle]
    have a1 : (1 : ℝ) + 11 + 0.5 = 1.5 + 11 := by norm_num
    have a2 : (1 : ℝ) + 0.5 = 1.5 := by norm_num
    simp only [drawnCircle] at m2
    rw [a1, a2, add_zero, m2]
  refine C105_raise argsort hs eigh he _ (holesStruct 1) (holesStruct 1.5).layers gmax ks 2
    (.cons ⟨cladding_drawn 1 gmax _ _, Or.inl rfl⟩ (.cons ⟨slab_drawn gmax hn, Or.inr ?_⟩
      (.cons ⟨cladding_drawn 1 gmax _ _, Or.inl rfl⟩ .nil)))
    (fun eff ik b _ he hb => ?_) r r' hr hr'
  · refine ⟨(1, 0), (0, 1), 0.5, 0.5, 1, [(drawnCircle 1 ⟨0, 0, 0.2⟩, 0.5)], e1.symm, holes_draws 1, rfl, holes_real' 1,
      by norm_num [holesSlab], by simp [holesSlab], holes_err' 1 _ hn, le_refl _, by simp, ?_,
      Or.inr ⟨holes_patterned 1 1 gmax hg, holes_patterned 1.5 1 gmax hg⟩⟩
    simp
    norm_num
  · rw [holes_custom he] at hb ⊢
    exact exGuided_good _ _ _ _ _ _ _ _ hb

end Legume
