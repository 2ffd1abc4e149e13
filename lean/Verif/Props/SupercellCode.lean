import Verif.Props.SupercellGme
import Verif.Lemmas.FreqsSame

/-! # C138: supercells with the search for guided modes of the code -/
namespace Legume

open Real Spec

/-- The searches at the wave vectors `gk` and `gk'` find the same frequencies where they meet, and every mode number of the
second one enters the first one. -/
structure SameSearch (fs : Finder) (o : GuidedOpts) (e0 eN : ℝ) (ls : List (ℝ × ℝ)) (gk gk' : List ℝ) : Prop where
  same : ∀ pol, polInds o.inds pol ≠ [] →
    ∀ p ∈ (gk.insertionSort (· ≤ ·)).zip (freqsFound fs o e0 eN ls pol (gk.insertionSort (· ≤ ·))),
    ∀ p' ∈ (gk'.insertionSort (· ≤ ·)).zip (freqsFound fs o e0 eN ls pol (gk'.insertionSort (· ≤ ·))),
      p.1 = p'.1 → p.2 = p'.2
  enter : ∀ m ∈ o.inds, (∃ l ∈ freqsFound fs o e0 eN ls (modePol m) (gk'.insertionSort (· ≤ ·)), m / 2 < l.length) →
    ∃ l ∈ freqsFound fs o e0 eN ls (modePol m) (gk.insertionSort (· ≤ ·)), m / 2 < l.length

theorem found_zip {fs : Finder} {o : GuidedOpts} {e0 eN : ℝ} {ls : List (ℝ × ℝ)} {gk : List ℝ} {F : Pol → ℝ → List ℝ}
    (hF : FoundModes fs o e0 eN ls gk F) {pol : Pol} (hp : polInds o.inds pol ≠ []) {g : ℝ} (hg : g ∈ gk) :
    (g, F pol g) ∈ (gk.insertionSort (· ≤ ·)).zip (freqsFound fs o e0 eN ls pol (gk.insertionSort (· ≤ ·))) := by
  rw [← hF.found pol hp, ← List.map_prod_left_eq_zip]
  exact List.mem_map.2 ⟨g, (List.perm_insertionSort _ _).mem_iff.2 hg, rfl⟩

theorem found_enter {fs : Finder} {o : GuidedOpts} {e0 eN : ℝ} {ls : List (ℝ × ℝ)} {gk : List ℝ} {F : Pol → ℝ → List ℝ}
    (hF : FoundModes fs o e0 eN ls gk F) {pol : Pol} (hp : polInds o.inds pol ≠ []) (n : ℕ) :
    (∃ g ∈ gk, n < (F pol g).length) ↔ ∃ l ∈ freqsFound fs o e0 eN ls pol (gk.insertionSort (· ≤ ·)), n < l.length := by
  rw [← hF.found pol hp]
  constructor
  · rintro ⟨g, hg, h⟩
    exact ⟨_, List.mem_map.2 ⟨g, (List.perm_insertionSort _ _).mem_iff.2 hg, rfl⟩, h⟩
  · rintro ⟨l, hl, h⟩
    obtain ⟨g, hg, rfl⟩ := List.mem_map.1 hl
    exact ⟨g, (List.perm_insertionSort _ _).mem_iff.1 hg, h⟩

/-- What the search finds at one wave vector alone. -/
noncomputable def foundAlone (fs : Finder) (o : GuidedOpts) (e0 eN : ℝ) (ls : List (ℝ × ℝ)) (pol : Pol) (g : ℝ) : List ℝ :=
  (freqsFound fs o e0 eN ls pol [g]).headD []

theorem guidedModes_free (D : ℝ → ℝ → ℝ) (fs : ℝ → ℝ → ℝ → ℝ) (eps : List ℝ) (n : ℕ) (step tol : ℝ) :
    ∀ (grid : List ℝ) (prev : Option (ℝ × List ℝ)),
      (∀ g ∈ grid, (guidedStep D fs eps n step tol none g).length < n) →
      (∀ x ∈ grid, ∀ y ∈ grid, x ≠ y → (1e-8 : ℝ) < |x - y|) →
      (∀ p, prev = some p → p.2 = guidedStep D fs eps n step tol none p.1 ∧ p.2.length < n ∧
        ∀ x ∈ grid, x ≠ p.1 → (1e-8 : ℝ) < |x - p.1|) →
      guidedModes D fs eps n step tol prev grid = grid.map (guidedStep D fs eps n step tol none)
  | [], _, _, _, _ => by simp [guidedModes]
  | g :: gs, prev, hf, hsep, hprev => by
    have hstep : guidedStep D fs eps n step tol prev g = guidedStep D fs eps n step tol none g := by
      cases prev with
      | none => rfl
      | some p =>
        obtain ⟨h1, h2, h3⟩ := hprev p rfl
        by_cases hg : g = p.1
        · rw [hg, ← h1]
          unfold guidedStep
          simp only [sub_self, abs_zero]
          rw [if_neg (by norm_num)]
        · have hlt := h3 g List.mem_cons_self hg
          unfold guidedStep
          simp only
          rw [if_pos hlt, if_pos trivial, if_neg (by rintro ⟨h, -⟩; omega)]
    simp only [guidedModes, List.map_cons, hstep]
    congr 1
    refine guidedModes_free D fs eps n step tol gs _ (fun x hx => hf x (List.mem_cons_of_mem _ hx))
      (fun x hx y hy => hsep x (List.mem_cons_of_mem _ hx) y (List.mem_cons_of_mem _ hy)) ?_
    rintro p hp
    cases hp
    exact ⟨rfl, hf g List.mem_cons_self, fun x hx => hsep x (List.mem_cons_of_mem _ hx) g List.mem_cons_self⟩

/-- **C118 (other wave vectors).** If fewer modes are found at every wave vector than are searched for, the frequencies found
at a wave vector are those that a search at this wave vector alone finds, whatever the other wave vectors of the run are. -/
theorem C118_history (fs : Finder) (o : GuidedOpts) (e0 eN : ℝ) (ls : List (ℝ × ℝ)) (pol : Pol) (grid : List ℝ)
    (hfew : ∀ g ∈ grid, (foundAlone fs o e0 eN ls pol g).length < nModesOf o.inds pol)
    (hsep : ∀ x ∈ grid, ∀ y ∈ grid, x ≠ y → (1e-8 : ℝ) < |x - y|) :
    freqsFound fs o e0 eN ls pol grid = grid.map (foundAlone fs o e0 eN ls pol) :=
  guidedModes_free _ _ _ _ _ _ grid none hfew hsep fun p hp => by cases hp

/-- Searches which find fewer modes than asked for agree. -/
theorem sameSearch_few {fs : Finder} {o : GuidedOpts} {e0 eN : ℝ} {ls : List (ℝ × ℝ)} {gk gk' : List ℝ} (hsub : ∀ g ∈ gk, g ∈ gk')
    (hfew : ∀ pol, ∀ g ∈ gk', (foundAlone fs o e0 eN ls pol g).length < nModesOf o.inds pol)
    (hsep : ∀ x ∈ gk', ∀ y ∈ gk', x ≠ y → (1e-8 : ℝ) < |x - y|)
    (henter : ∀ m ∈ o.inds, (∃ g ∈ gk', m / 2 < (foundAlone fs o e0 eN ls (modePol m) g).length) →
      ∃ g ∈ gk, m / 2 < (foundAlone fs o e0 eN ls (modePol m) g).length) : SameSearch fs o e0 eN ls gk gk' := by
  have hm : ∀ (l : List ℝ) x, x ∈ l.insertionSort (· ≤ ·) ↔ x ∈ l := fun l x => (List.perm_insertionSort _ _).mem_iff
  have e' : ∀ pol, freqsFound fs o e0 eN ls pol (gk'.insertionSort (· ≤ ·)) = _ := fun pol =>
    C118_history fs o e0 eN ls pol (gk'.insertionSort (· ≤ ·)) (fun g hg => hfew pol g ((hm _ _).1 hg))
      fun x hx y hy => hsep x ((hm _ _).1 hx) y ((hm _ _).1 hy)
  have e : ∀ pol, freqsFound fs o e0 eN ls pol (gk.insertionSort (· ≤ ·)) = _ := fun pol =>
    C118_history fs o e0 eN ls pol (gk.insertionSort (· ≤ ·)) (fun g hg => hfew pol g (hsub g ((hm _ _).1 hg)))
      fun x hx y hy => hsep x (hsub x ((hm _ _).1 hx)) y (hsub y ((hm _ _).1 hy))
  constructor
  · intro pol _ p hp p' hp' hpp
    rw [e, ← List.map_prod_left_eq_zip] at hp
    rw [e', ← List.map_prod_left_eq_zip] at hp'
    obtain ⟨g, -, rfl⟩ := List.mem_map.1 hp
    obtain ⟨g', -, rfl⟩ := List.mem_map.1 hp'
    simp only at hpp ⊢
    rw [hpp]
  · rintro m hmi ⟨l, hl, hlt⟩
    rw [e'] at hl
    obtain ⟨g, hg, rfl⟩ := List.mem_map.1 hl
    obtain ⟨g', hg', h⟩ := henter m hmi ⟨g, (hm _ _).1 hg, hlt⟩
    rw [e]
    exact ⟨_, List.mem_map.2 ⟨g', (hm _ _).2 hg', rfl⟩, h⟩

/-- The basis depends on the branches at the plane waves only. -/
theorem branch_congr (inds : List ℕ) (pol : ℕ → Pol) (B B' : ℕ → ℝ → Option ℝ) (delta e0 eN : ℝ) (ls : List (ℝ × ℝ))
    (stack : List (LPos × ℝ)) (gvec ks : List R2) (ik : ℕ)
    (h : ∀ m ∈ inds, ∀ i : Fin gvec.length, B m (planeAbs (radPlane delta (ks.getD ik 0) gvec[i])) =
      B' m (planeAbs (radPlane delta (ks.getD ik 0) gvec[i]))) :
    branchGuided (inds.map fun m => (pol m, B m)) delta e0 eN ls stack gvec ks ik =
      branchGuided (inds.map fun m => (pol m, B' m)) delta e0 eN ls stack gvec ks ik := by
  unfold branchGuided
  rw [List.length_map, List.length_map]
  congr 1
  refine List.flatMap_congr fun n hn => ?_
  have hn := List.mem_range.1 hn
  refine List.filterMap_congr fun i _ => ?_
  have g1 : ∀ C : ℕ → ℝ → Option ℝ, (inds.map fun m => (pol m, C m)).getD n (.te, fun _ => none) = (pol inds[n], C inds[n]) := by
    intro C
    rw [getD_of_len (by rw [List.length_map]; exact hn), List.getElem_map]
  rw [g1, g1]
  have := h inds[n] (List.getElem_mem _) i
  unfold planeAbs radPlane at this
  simp only [add_assoc] at this ⊢
  rw [this]

/-- Guided modes found in a cell and in its supercell. -/
theorem code_super (fs : Finder) (o : GuidedOpts) (e0 eN : ℝ) (ls : List (ℝ × ℝ)) (hne : ls ≠ []) (h0 : 0 < e0) (hN : 0 < eN)
    (hl : ∀ l ∈ ls, 0 < l.1) (hfs : RootFinder fs e0 eN ls) (ho : ExactOpts o) (gvec gvec' ks : List R2) (ik : ℕ)
    (hsep : SeparateWaves fs o e0 eN ls (waveLengths o gvec (ks.getD ik 0)))
    (hsep' : SeparateWaves fs o e0 eN ls (waveLengths o gvec' (ks.getD ik 0)))
    (hsame : SameSearch fs o e0 eN ls (waveLengths o gvec (ks.getD ik 0)) (waveLengths o gvec' (ks.getD ik 0)))
    {f : Fin gvec.length → Fin gvec'.length} (hf : StrictMono f) (hg : ∀ i, gvec'[f i] = gvec[i])
    (b : List (BasisEl gvec.length)) (b' : List (BasisEl gvec'.length))
    (hb : codeGuided normExact fs o (slabStack e0 eN ls) gvec ks ik = .ok b)
    (hb' : codeGuided normExact fs o (slabStack e0 eN ls) gvec' ks ik = .ok b') :
    open Classical in b'.filter (fun s => decide (s.ig ∈ Set.range f)) = b.map (BasisEl.moved f) := by
  classical
  obtain ⟨F, hF, hB⟩ := C118_basis fs o e0 eN ls hne h0 hN hl hfs ho gvec ks ik hsep b hb
  obtain ⟨F', hF', hB'⟩ := C118_basis fs o e0 eN ls hne h0 hN hl hfs ho gvec' ks ik hsep' b' hb'
  have hpol : ∀ m ∈ o.inds, polInds o.inds (modePol m) ≠ [] := fun m hm =>
    List.ne_nil_of_mem (a := m) (List.mem_filter.2 ⟨hm, by simp⟩)
  have hsub : ∀ i : Fin gvec.length, planeAbs (radPlane o.deltaGx (ks.getD ik 0) gvec[i]) ∈ waveLengths o gvec (ks.getD ik 0) ∧
      planeAbs (radPlane o.deltaGx (ks.getD ik 0) gvec[i]) ∈ waveLengths o gvec' (ks.getD ik 0) := by
    intro i
    refine ⟨List.mem_map.2 ⟨gvec[i], List.getElem_mem _, rfl⟩, ?_⟩
    rw [← hg i]
    exact List.mem_map.2 ⟨gvec'[f i], List.getElem_mem _, rfl⟩
  have hFF : ∀ m ∈ o.inds, ∀ i : Fin gvec.length, F (modePol m) (planeAbs (radPlane o.deltaGx (ks.getD ik 0) gvec[i])) =
      F' (modePol m) (planeAbs (radPlane o.deltaGx (ks.getD ik 0) gvec[i])) := fun m hm i =>
    hsame.same _ (hpol m hm) _ (found_zip hF (hpol m hm) (hsub i).1) _ (found_zip hF' (hpol m hm) (hsub i).2) rfl
  have hfil : (o.inds.filter fun m => decide (∃ g ∈ waveLengths o gvec (ks.getD ik 0), m / 2 < (F (modePol m) g).length)) =
      o.inds.filter fun m => decide (∃ g ∈ waveLengths o gvec' (ks.getD ik 0), m / 2 < (F' (modePol m) g).length) := by
    refine List.filter_congr fun m hm => ?_
    rw [decide_eq_decide]
    constructor
    · rintro ⟨g, hgm, h⟩
      obtain ⟨v, hv, rfl⟩ := List.mem_map.1 hgm
      obtain ⟨i, hi, rfl⟩ := List.mem_iff_getElem.1 hv
      refine ⟨_, (hsub ⟨i, hi⟩).2, ?_⟩
      rw [← hFF m hm ⟨i, hi⟩]
      exact h
    · rw [found_enter hF (hpol m hm), found_enter hF' (hpol m hm)]
      exact hsame.enter m hm
  refine branch_super (foundBranches o.inds (waveLengths o gvec' (ks.getD ik 0)) F') o.deltaGx e0 eN ls (slabStack e0 eN ls) gvec
    gvec' ks ik hf hg b b' ?_ hB'
  rw [← hB]
  unfold foundBranches
  rw [hfil]
  refine (branch_congr _ modePol (fun m g => (F (modePol m) g)[m / 2]?) (fun m g => (F' (modePol m) g)[m / 2]?) o.deltaGx e0 eN ls _
    gvec ks ik fun m hm i => ?_).symm
  rw [hFF m (List.mem_filter.1 hm).1 i]

/-- **C138 (with the search of the code).** Folding of the modes into those of a supercell for runs with
`gmode_compute='exact'` and `delta_gabs=0`, in which the guided modes are searched for on the wave vectors of each run:
the searches have to find the same frequencies where they meet. -/
theorem C138_code (ij : LPos → ℂ → ℂ) (argsort : List ℝ → List ℕ) (hs : ∀ l, IsArgsort l (argsort l))
    (eigh : ∀ n, Matrix (Fin n) (Fin n) ℂ → Fin n → ℝ) (he : GoodEigh eigh) (N1 N2 : ℕ) (a1 a2 : R2) (S S' : GmeStruct)
    (h : SuperStruct N1 N2 a1 a2 S S') (hL : Resolved S'.b1 S'.b2) (hr : ∀ l ∈ S.layers, ∀ s ∈ l.shapes, RealShape s)
    (hr' : ∀ l ∈ S'.layers, ∀ s ∈ l.shapes, RealShape s) (gmax d : ℝ) (hg : 0 ≤ gmax)
    (hdet : S'.b1.1 * S'.b2.2 - S'.b1.2 * S'.b2.1 ≠ 0) (hob : NotOblique S'.b1 S'.b2)
    (hw : (absWindow S.b1 S.b2 gmax).length * (1e-10 : ℝ) ≤ d)
    (hw' : (absWindow S'.b1 S'.b2 gmax).length * (1e-10 : ℝ) ≤ d)
    (hgap : ∀ m n : ℤ, norm2 (comb S'.b1 S'.b2 m n) ≤ 2 * π * gmax ∨ 2 * π * (gmax + d) < norm2 (comb S'.b1 S'.b2 m n))
    (hp : ∀ l ∈ S.layers, homAbs (S.ft l) S.b1 S.b2 (absInds S.b1 S.b2 gmax) → l.shapes = [])
    (fs : Finder) (o : GuidedOpts) (e0 eN : ℝ) (ls : List (ℝ × ℝ)) (hne : ls ≠ []) (h0 : 0 < e0) (hN : 0 < eN)
    (hl : ∀ l ∈ ls, 0 < l.1) (hfs : RootFinder fs e0 eN ls) (ho : ExactOpts o) (onlyG : Bool) (opt : String)
    (hst : ∀ eff, S.layers.mapM (GmeLay.eff opt) = .ok eff → (S.layers.map GmeLay.pos).zip eff = slabStack e0 eN ls)
    (ks : List R2) (hsep : ∀ k ∈ ks, SeparateWaves fs o e0 eN ls (waveLengths o (S.gvec gmax) k))
    (hsep' : ∀ k ∈ ks, SeparateWaves fs o e0 eN ls (waveLengths o (S'.gvec gmax) k))
    (hsame : ∀ k ∈ ks, SameSearch fs o e0 eN ls (waveLengths o (S.gvec gmax) k) (waveLengths o (S'.gvec gmax) k))
    (numeig numeig' : ℕ) (r r' : List KRes)
    (hrun : gmeSimIj ij argsort eigh (codeGuided normExact fs o) S gmax onlyG opt ks 0 numeig = .ok r)
    (hrun' : gmeSimIj ij argsort eigh (codeGuided normExact fs o) S' gmax onlyG opt ks 0 numeig' = .ok r') :
    List.Forall₂ (fun ik p => ∃ b', codeGuided normExact fs o (slabStack e0 eN ls) (S'.gvec gmax) ks ik = .ok b' ∧
      FoldedIn numeig' b'.length p.1.freq p.2.freq) (List.range ks.length) (r.zip r') := by
  obtain ⟨eff, he1, hF⟩ := gme_super ij argsort hs eigh he N1 N2 a1 a2 S S' h hL hr hr' gmax d hg hdet hob hw hw' hgap hp
    (codeGuided normExact fs o) (codeGuided normExact fs o) onlyG opt ks (fun f hf hfg eff heff ik hik b b' hb hb' => by
      rw [hst eff heff] at hb hb'
      have hk : ks.getD ik 0 ∈ ks := by rw [getD_of_len hik]; exact List.getElem_mem _
      exact code_super fs o e0 eN ls hne h0 hN hl hfs ho _ _ ks ik (hsep _ hk) (hsep' _ hk) (hsame _ hk) hf hfg b b' hb hb')
    numeig numeig' r r' hrun hrun'
  rw [hst eff he1] at hF
  exact hF

/-! ### Example -/

/-- Two and four plane waves of length 2. -/
example (fs : Finder) : SameSearch fs asymOpts 3 1 [(5, 7 * Real.pi / 12)] [2, 2] [2, 2, 2, 2] := by
  have hrep : ∀ n, (List.replicate n (2 : ℝ)).insertionSort (· ≤ ·) = List.replicate n 2 := by
    intro n
    obtain ⟨m, hm⟩ : ∃ m, (List.replicate n (2 : ℝ)).insertionSort (· ≤ ·) = List.replicate m 2 :=
      ⟨_, List.eq_replicate_of_mem fun b hb => List.eq_of_mem_replicate ((List.perm_insertionSort _ _).mem_iff.1 hb)⟩
    have := (List.perm_insertionSort (· ≤ ·) (List.replicate n (2 : ℝ))).length_eq
    rw [hm, List.length_replicate, List.length_replicate] at this
    rw [hm, this]
  constructor
  · intro pol hp p h p' h' _
    cases pol with
    | te =>
      rw [show ([2, 2] : List ℝ) = List.replicate 2 2 from rfl, hrep, asym_freqs] at h
      rw [show ([2, 2, 2, 2] : List ℝ) = List.replicate 4 2 from rfl, hrep, asym_freqs] at h'
      rw [List.eq_of_mem_replicate (List.of_mem_zip h).2, List.eq_of_mem_replicate (List.of_mem_zip h').2]
    | tm => exact absurd (by simp [polInds, asymOpts, modePol]) hp
  · intro m hm _
    have hm0 : m = 0 := by simpa [asymOpts] using hm
    subst hm0
    change ∃ l ∈ freqsFound fs asymOpts 3 1 [(5, 7 * Real.pi / 12)] .te _, _
    rw [show ([2, 2] : List ℝ) = List.replicate 2 2 from rfl, hrep, asym_freqs]
    exact ⟨_, List.mem_replicate.2 ⟨by norm_num, rfl⟩, by simp⟩

theorem brackets_length_le (D : ℝ → ℝ) : ∀ l : List ℝ, (brackets D l).length ≤ l.length - 1
  | [] => by simp [brackets]
  | [x] => by simp [brackets]
  | x :: y :: l => by
    have := brackets_length_le D (y :: l)
    simp only [List.length_cons] at this
    unfold brackets
    split_ifs <;> simp only [List.length_cons] <;> omega

/-- A search for the two lowest TE modes between the light lines at the wave vectors 2 and 3 with steps of 1: there is only one
interval, and what is found at 3 does not depend on whether the search has been at 2 before. -/
example (fs : Finder) (d : ℝ) : freqsFound fs ⟨[0, 2], true, 1, 1 / 20, 0, 0, 0⟩ 3 1 [(5, d)] .te [2, 3] =
    [2, 3].map (foundAlone fs ⟨[0, 2], true, 1, 1 / 20, 0, 0, 0⟩ 3 1 [(5, d)] .te) := by
  refine C118_history _ _ _ _ _ _ _ (fun g hg => ?_) (fun x hx y hy hxy => ?_)
  · have hn : nModesOf [0, 2] .te = 2 := by decide
    change _ < nModesOf [0, 2] .te
    rw [hn]
    unfold foundAlone freqsFound
    simp only [guidedModes, List.headD_cons]
    change (guidedStep (fun g om => (d22 .te om g [3, 5, 1] [d]).re) (fs .te) [3, 5, 1] (nModesOf [0, 2] .te) 1 (1 / 20) none
      g).length < 2
    unfold guidedStep guidedGivenG
    simp only [if_true, List.length_map, List.length_take, hn]
    refine lt_of_le_of_lt ((min_le_right _ _).trans (brackets_length_le _ _)) ?_
    unfold omegaGrid
    have hg2 : 2 ≤ g ∧ g ≤ 3 := by
      rcases List.mem_cons.1 hg with rfl | h
      · norm_num
      · rw [List.mem_singleton.1 h]; norm_num
    have h5 : (2.2 : ℝ) < √5 := by rw [Real.lt_sqrt (by norm_num)]; norm_num
    have h5' : √5 < (2.3 : ℝ) := by rw [Real.sqrt_lt' (by norm_num)]; norm_num
    have h3 : (1.7 : ℝ) < √3 := by rw [Real.lt_sqrt (by norm_num)]; norm_num
    have hlb : omLb [3, 5, 1] g = g / √5 := by
      unfold omLb
      simp only [List.tail_cons, List.dropLast_cons_cons, List.dropLast_singleton, List.map_cons, List.map_nil, List.foldr_cons,
        List.foldr_nil]
      rw [max_eq_left (Real.sqrt_nonneg _), max_eq_left (by linarith)]
    have hub : omUb [3, 5, 1] g = g / √3 := by
      unfold omUb
      simp only [List.headD_cons, List.getLastD_cons]
      rw [max_eq_left (by linarith)]
      norm_num
    change ((List.range ⌈(omUb [3, 5, 1] g * (1 - 1 / 20) - omLb [3, 5, 1] g * (1 + 1 / 20)) / 1⌉₊).map _ ++ [_]).length - 1 < 2
    rw [hlb, hub]
    have b : g / √3 ≤ 3 / 1.7 := by
      rw [div_le_div_iff₀ (by linarith) (by norm_num)]
      nlinarith
    have c : 2 / 2.3 ≤ g / √5 := by
      rw [div_le_div_iff₀ (by norm_num) (by linarith)]
      nlinarith
    have : ⌈(g / √3 * (1 - 1 / 20) - g / √5 * (1 + 1 / 20)) / 1⌉₊ ≤ 1 := by
      rw [Nat.ceil_le]
      norm_num at b c ⊢
      linarith
    simp only [List.length_append, List.length_map, List.length_range, List.length_singleton]
    omega
  · simp only [List.mem_cons, List.not_mem_nil, or_false] at hx hy
    rcases hx with rfl | rfl <;> rcases hy with rfl | rfl <;> first | exact absurd rfl hxy | norm_num

end Legume
