import Verif.Props.GuidedWhole
import Verif.Props.GmeOrder

/-!
# The order of the frequencies with the guided modes that the code finds (C104, C105)
-/
namespace Legume

open Matrix
open Spec

/-- What a branch contributes to a basis: for every plane wave at which the mode is found, its index and the normalised
state. -/
noncomputable def branchPart (o : GuidedOpts) (e0 eN : ℝ) (ls : List (ℝ × ℝ)) (gvec : List R2) (k : R2)
    (p : Pol × (ℝ → Option ℝ)) : List (Fin gvec.length × GmeState) :=
  (List.finRange gvec.length).filterMap fun i =>
    (p.2 (√((gvec[i].1 + (k.1 + o.deltaGx)) ^ 2 + (gvec[i].2 + k.2) ^ 2))).map fun om =>
      (i, normState p.1 (gvec[i].1 + (k.1 + o.deltaGx)) (gvec[i].2 + k.2) om e0 eN ls
        (match abMatrices p.1 om (√((gvec[i].1 + (k.1 + o.deltaGx)) ^ 2 + (gvec[i].2 + k.2) ^ 2))
            (e0 :: ls.map Prod.fst ++ [eN]) (ls.map Prod.snd) with
          | .ok abs => abs
          | .error _ => []))

theorem branch_parts (br : List (Pol × (ℝ → Option ℝ))) (o : GuidedOpts) (e0 eN : ℝ) (ls : List (ℝ × ℝ))
    (stack : List (LPos × ℝ)) (gvec ks : List R2) (ik : ℕ) (b : List (BasisEl gvec.length))
    (hb : branchGuided br o.deltaGx e0 eN ls stack gvec ks ik = .ok b) :
    b.map (fun s => (s.ig, s.st)) = br.flatMap (branchPart o e0 eN ls gvec (ks.getD ik 0)) := by
  unfold branchGuided at hb
  cases hb
  rw [List.map_flatMap, ← flatMap_getD br (.te, fun _ => none)]
  refine List.flatMap_congr fun n _ => ?_
  rw [List.map_filterMap]
  unfold branchPart
  refine List.filterMap_congr fun i _ => ?_
  rw [Option.map_map]
  rfl

/-- Mode numbers that are not found at any plane wave contribute nothing. -/
theorem found_parts (inds : List ℕ) (F : Pol → ℝ → List ℝ) (o : GuidedOpts) (e0 eN : ℝ) (ls : List (ℝ × ℝ)) (gvec : List R2)
    (k : R2) :
    (foundBranches inds (waveLengths o gvec k) F).flatMap (branchPart o e0 eN ls gvec k) =
      inds.flatMap fun m => branchPart o e0 eN ls gvec k (modePol m, fun g => (F (modePol m) g)[m / 2]?) := by
  unfold foundBranches
  rw [List.flatMap_map]
  induction inds with
  | nil => rfl
  | cons m l ih =>
    rw [List.flatMap_cons, ← ih]
    by_cases h : ∃ g ∈ waveLengths o gvec k, m / 2 < (F (modePol m) g).length
    · rw [List.filter_cons_of_pos (by simpa using h), List.flatMap_cons]
    · rw [List.filter_cons_of_neg (by simpa using h)]
      have : branchPart o e0 eN ls gvec k (modePol m, fun g => (F (modePol m) g)[m / 2]?) = [] := by
        unfold branchPart
        rw [List.filterMap_eq_nil_iff]
        intro i _
        rw [Option.map_eq_none_iff, List.getElem?_eq_none_iff]
        push Not at h
        refine h _ ?_
        rw [← planeAbs_eq]
        exact List.mem_map_of_mem (List.getElem_mem _)
      rw [this, List.nil_append]

theorem filterMap_sublist {α β : Type} {f g : α → Option β} : ∀ (l : List α), (∀ a ∈ l, ∀ b, f a = some b → g a = some b) →
    (l.filterMap f).Sublist (l.filterMap g)
  | [], _ => List.Sublist.slnil
  | a :: l, h => by
    have ih := filterMap_sublist l fun a ha => h a (List.mem_cons_of_mem _ ha)
    cases hf : f a with
    | none =>
      rw [List.filterMap_cons_none hf]
      cases hg : g a with
      | none => rw [List.filterMap_cons_none hg]; exact ih
      | some c => rw [List.filterMap_cons_some hg]; exact ih.cons _
    | some c =>
      rw [List.filterMap_cons_some hf, List.filterMap_cons_some (h a List.mem_cons_self c hf)]
      exact ih.cons₂ _

theorem flatMap_sublist_fun {α β : Type} {f g : α → List β} : ∀ (l : List α), (∀ a ∈ l, (f a).Sublist (g a)) →
    (l.flatMap f).Sublist (l.flatMap g)
  | [], _ => List.Sublist.slnil
  | a :: l, h => by
    rw [List.flatMap_cons, List.flatMap_cons]
    exact (h a List.mem_cons_self).append (flatMap_sublist_fun l fun a ha => h a (List.mem_cons_of_mem _ ha))

theorem flatMap_sublist_list {α β : Type} (f : α → List β) {l l' : List α} (h : l.Sublist l') :
    (l.flatMap f).Sublist (l'.flatMap f) := by
  induction h with
  | slnil => exact List.Sublist.slnil
  | cons a _ ih => rw [List.flatMap_cons]; exact ih.trans (List.sublist_append_right _ _)
  | cons_cons a _ ih => rw [List.flatMap_cons, List.flatMap_cons]; exact (List.Sublist.refl _).append ih

theorem flatMap_subperm {α β : Type} {f g : α → List β} {l l' : List α} (hl : l.Subperm l')
    (h : ∀ a ∈ l, (f a).Sublist (g a)) : (l.flatMap f).Subperm (l'.flatMap g) := by
  obtain ⟨c, h1, h2⟩ := hl
  refine (h1.symm.flatMap_right f).subperm.trans ?_
  exact ((flatMap_sublist_fun c fun a ha => h a (h1.mem_iff.1 ha)).trans (flatMap_sublist_list g h2)).subperm

/-- The second options ask for more guided modes: all mode numbers of the first and the same search otherwise. -/
structure MoreModes (o o' : GuidedOpts) : Prop where
  inds : ∀ m ∈ o.inds, m ∈ o'.inds
  gx : o'.deltaGx = o.deltaGx

/-- The bases which the code finds with more guided modes. -/
theorem code_more (fs : Finder) (o o' : GuidedOpts) (hm : MoreModes o o') (gvec : List R2) (e0 eN : ℝ) (ls : List (ℝ × ℝ))
    (hne : ls ≠ []) (h0 : 0 < e0) (hN : 0 < eN) (hl : ∀ l ∈ ls, 0 < l.1) (hfs : RootFinder fs e0 eN ls) (ho : ExactOpts o)
    (ho' : ExactOpts o') (ks : List R2) (ik : ℕ)
    (hs : SeparateWaves fs o e0 eN ls (waveLengths o gvec (ks.getD ik 0)))
    (hs' : SeparateWaves fs o' e0 eN ls (waveLengths o gvec (ks.getD ik 0)))
    (hpre : ∀ pol, polInds o.inds pol ≠ [] → List.Forall₂ (· <+: ·)
      (freqsFound fs o e0 eN ls pol ((waveLengths o gvec (ks.getD ik 0)).insertionSort (· ≤ ·)))
      (freqsFound fs o' e0 eN ls pol ((waveLengths o gvec (ks.getD ik 0)).insertionSort (· ≤ ·))))
    (b b' : List (BasisEl gvec.length)) (hb : codeGuided normExact fs o (slabStack e0 eN ls) gvec ks ik = .ok b)
    (hb' : codeGuided normExact fs o' (slabStack e0 eN ls) gvec ks ik = .ok b') :
    (b.map fun s => (s.ig, s.st)).Subperm (b'.map fun s => (s.ig, s.st)) := by
  have hw : waveLengths o' gvec (ks.getD ik 0) = waveLengths o gvec (ks.getD ik 0) := by
    unfold waveLengths
    rw [hm.gx]
  have hbp : ∀ p, branchPart o' e0 eN ls gvec (ks.getD ik 0) p = branchPart o e0 eN ls gvec (ks.getD ik 0) p := by
    intro p
    unfold branchPart
    rw [hm.gx]
  obtain ⟨F, hF, hbr⟩ := C118_basis fs o e0 eN ls hne h0 hN hl hfs ho gvec ks ik hs b hb
  obtain ⟨F', hF', hbr'⟩ := C118_basis fs o' e0 eN ls hne h0 hN hl hfs ho' gvec ks ik (by rw [hw]; exact hs') b' hb'
  rw [branch_parts _ o e0 eN ls _ gvec ks ik b hbr, branch_parts _ o' e0 eN ls _ gvec ks ik b' hbr', found_parts, found_parts]
  refine flatMap_subperm (List.subperm_of_subset ho.nodup hm.inds) fun m hmm => ?_
  rw [hbp]
  unfold branchPart
  refine filterMap_sublist _ fun i _ x hx => ?_
  obtain ⟨om, h1, rfl⟩ := Option.map_eq_some_iff.1 hx
  refine Option.map_eq_some_iff.2 ⟨om, ?_, rfl⟩
  have hp : polInds o.inds (modePol m) ≠ [] := List.ne_nil_of_mem (a := m) (List.mem_filter.2 ⟨hmm, by simp⟩)
  have hp' : polInds o'.inds (modePol m) ≠ [] :=
    List.ne_nil_of_mem (a := m) (List.mem_filter.2 ⟨hm.inds m hmm, by simp⟩)
  have h2 := hF.found _ hp
  have h3 := hF'.found _ hp'
  have h4 := hpre _ hp
  rw [hw] at h3
  rw [← h2, ← h3, List.forall₂_map_left_iff, List.forall₂_map_right_iff, List.forall₂_same] at h4
  have hg : √((gvec[i].1 + ((ks.getD ik 0).1 + o.deltaGx)) ^ 2 + (gvec[i].2 + (ks.getD ik 0).2) ^ 2) ∈
      (waveLengths o gvec (ks.getD ik 0)).insertionSort (· ≤ ·) := by
    rw [(List.perm_insertionSort _ _).mem_iff, ← planeAbs_eq]
    exact List.mem_map_of_mem (List.getElem_mem _)
  obtain ⟨t, ht⟩ := h4 _ hg
  simp only at h1 ⊢
  rw [← ht, List.getElem?_append_left (List.getElem?_eq_some_iff.1 h1).1, h1]

theorem code_good {fs : Finder} {o : GuidedOpts} {gvec : List R2} {e0 eN : ℝ} {ls : List (ℝ × ℝ)}
    (hne : ls ≠ []) (h0 : 0 < e0) (hN : 0 < eN) (hl : ∀ l ∈ ls, 0 < l.1) (hd : ∀ l ∈ ls, 0 ≤ l.2)
    (hfs : RootFinder fs e0 eN ls) (ho : ExactOpts o) {ks : List R2} {ik : ℕ}
    (hs : SeparateWaves fs o e0 eN ls (waveLengths o gvec (ks.getD ik 0))) {b : List (BasisEl gvec.length)}
    (hb : codeGuided normExact fs o (slabStack e0 eN ls) gvec ks ik = .ok b) : GoodBasis (slabStack e0 eN ls) b := by
  have := (C118_slab fs o e0 eN ls hne h0 hN hl hfs ho gvec ks ik hs b hb).2
  exact ⟨this.sorted, slabGuided_decaying hne h0.ne' hN.ne' (fun l h => (hl l h).ne') hd this⟩

/-- **C104 (guided modes of the code).** More mode numbers in `gmode_inds` never raise a frequency, with the guided modes that
the code itself finds, for structures made of shapes which do not overlap. The modes found for the first run have to be
found for the second too (`hpre`), which holds when the largest mode number of each polarisation stays the same
(`C104_code`). -/
theorem C104_found (argsort : List ℝ → List ℕ) (hs : ∀ l, IsArgsort l (argsort l))
    (eigh : ∀ n, Matrix (Fin n) (Fin n) ℂ → Fin n → ℝ) (he : GoodEigh eigh) (fs : Finder) (o o' : GuidedOpts)
    (hm : MoreModes o o') (S : GmeStruct) (gmax : ℝ) (onlyG : Bool) (opt : String) (ks : List R2) (numeig : ℕ)
    (hS : ∀ l ∈ S.layers, DrawnLayer S gmax l) (e0 eN : ℝ) (ls : List (ℝ × ℝ)) (hne : ls ≠ []) (h0 : 0 < e0) (hN : 0 < eN)
    (hl : ∀ l ∈ ls, 0 < l.1) (hd : ∀ l ∈ ls, 0 ≤ l.2) (hfs : RootFinder fs e0 eN ls) (ho : ExactOpts o) (ho' : ExactOpts o')
    (hst : ∀ eff, S.layers.mapM (GmeLay.eff opt) = .ok eff →
      (S.layers.map GmeLay.pos).zip eff = slabStack e0 eN ls)
    (hsep : ∀ k ∈ ks, SeparateWaves fs o e0 eN ls (waveLengths o (S.gvec gmax) k) ∧
      SeparateWaves fs o' e0 eN ls (waveLengths o (S.gvec gmax) k))
    (hpre : ∀ k ∈ ks, ∀ pol, polInds o.inds pol ≠ [] → List.Forall₂ (· <+: ·)
      (freqsFound fs o e0 eN ls pol ((waveLengths o (S.gvec gmax) k).insertionSort (· ≤ ·)))
      (freqsFound fs o' e0 eN ls pol ((waveLengths o (S.gvec gmax) k).insertionSort (· ≤ ·)))) (r r' : List KRes)
    (hr : gmeSimIj ijExact argsort eigh (codeGuided normExact fs o) S gmax onlyG opt ks 0 numeig = .ok r)
    (hr' : gmeSimIj ijExact argsort eigh (codeGuided normExact fs o') S gmax onlyG opt ks 0 numeig = .ok r') :
    List.Forall₂ Below r' r := by
  refine C104_drawn argsort hs eigh he _ _ S gmax onlyG opt ks numeig hS (fun eff ik b b' hik he hb hb' => ?_) r r' hr hr'
  rw [hst eff he] at hb hb' ⊢
  have hk : ks.getD ik 0 ∈ ks := by rw [getD_of_len hik]; exact List.getElem_mem _
  obtain ⟨s1, s2⟩ := hsep _ hk
  refine ⟨code_good hne h0 hN hl hd hfs ho s1 hb, code_good hne h0 hN hl hd hfs ho' ?_ hb', code_more fs o o' hm _ e0 eN ls hne h0 hN
    hl hfs ho ho' ks ik s1 s2 (hpre _ hk) b b' hb hb'⟩
  unfold waveLengths at s2 ⊢
  rw [hm.gx]
  exact s2

/-- **C104 (guided modes of the code, same orders).** More mode numbers in `gmode_inds`, of the other polarisation or below
the largest one of the polarisation, never raise a frequency: nothing has to be assumed about the modes that are found. -/
theorem C104_code (argsort : List ℝ → List ℕ) (hs : ∀ l, IsArgsort l (argsort l))
    (eigh : ∀ n, Matrix (Fin n) (Fin n) ℂ → Fin n → ℝ) (he : GoodEigh eigh) (fs : Finder) (o : GuidedOpts) (inds' : List ℕ)
    (hsub : ∀ m ∈ o.inds, m ∈ inds') (hnd : inds'.Nodup)
    (hmax : ∀ m' ∈ inds', (∃ m ∈ o.inds, modePol m = modePol m') → ∃ m ∈ o.inds, modePol m = modePol m' ∧ m' ≤ m)
    (S : GmeStruct) (gmax : ℝ) (onlyG : Bool) (opt : String) (ks : List R2) (numeig : ℕ)
    (hS : ∀ l ∈ S.layers, DrawnLayer S gmax l) (e0 eN : ℝ) (ls : List (ℝ × ℝ)) (hne : ls ≠ []) (h0 : 0 < e0) (hN : 0 < eN)
    (hl : ∀ l ∈ ls, 0 < l.1) (hd : ∀ l ∈ ls, 0 ≤ l.2) (hfs : RootFinder fs e0 eN ls) (ho : ExactOpts o)
    (hst : ∀ eff, S.layers.mapM (GmeLay.eff opt) = .ok eff →
      (S.layers.map GmeLay.pos).zip eff = slabStack e0 eN ls)
    (hsep : ∀ k ∈ ks, SeparateWaves fs { o with inds := inds' } e0 eN ls (waveLengths o (S.gvec gmax) k)) (r r' : List KRes)
    (hr : gmeSimIj ijExact argsort eigh (codeGuided normExact fs o) S gmax onlyG opt ks 0 numeig = .ok r)
    (hr' : gmeSimIj ijExact argsort eigh (codeGuided normExact fs { o with inds := inds' }) S gmax onlyG opt ks 0 numeig =
      .ok r') :
    List.Forall₂ Below r' r := by
  have hmem : ∀ (l : List ℕ) pol m, m ∈ polInds l pol ↔ m ∈ l ∧ modePol m = pol := by
    intro l pol m
    simp [polInds]
  have hfold : ∀ (l : List ℕ) a x, l.foldl max a ≤ x ↔ a ≤ x ∧ ∀ m ∈ l, m ≤ x := by
    intro l
    induction l with
    | nil => simp
    | cons b l ih => intro a x; simp [ih, and_assoc]
  have hn : ∀ pol, polInds o.inds pol ≠ [] → nModesOf inds' pol = nModesOf o.inds pol := by
    intro pol hp
    obtain ⟨m0, hm0⟩ := List.exists_mem_of_ne_nil _ hp
    rw [hmem] at hm0
    have : (polInds inds' pol).foldl max 0 = (polInds o.inds pol).foldl max 0 := by
      refine eq_of_forall_ge_iff fun x => ?_
      rw [hfold, hfold]
      refine and_congr_right fun _ => ⟨fun h m hm => ?_, fun h m' hm' => ?_⟩
      · rw [hmem] at hm
        exact h m ((hmem _ _ _).2 ⟨hsub m hm.1, hm.2⟩)
      · rw [hmem] at hm'
        obtain ⟨m, h1, h2, h3⟩ := hmax m' hm'.1 ⟨m0, hm0.1, hm0.2.trans hm'.2.symm⟩
        exact h3.trans (h m ((hmem _ _ _).2 ⟨h1, h2.trans hm'.2⟩))
    unfold nModesOf
    rw [this]
  have hfr : ∀ pol grid, polInds o.inds pol ≠ [] →
      freqsFound fs { o with inds := inds' } e0 eN ls pol grid = freqsFound fs o e0 eN ls pol grid := by
    intro pol grid hp
    unfold freqsFound
    rw [show nModesOf ({ o with inds := inds' } : GuidedOpts).inds pol = nModesOf o.inds pol from hn pol hp]
  refine C104_found argsort hs eigh he fs o { o with inds := inds' } ⟨hsub, rfl⟩ S gmax onlyG opt ks numeig hS e0 eN ls hne h0
    hN hl hd hfs ho ⟨ho.exact, ho.gabs, ho.step, ho.tol0, ho.tol1, hnd⟩ hst (fun k hk => ⟨?_, hsep k hk⟩) (fun k hk pol hp => ?_)
    r r' hr hr'
  · obtain ⟨a1, a2, a3⟩ := hsep k hk
    refine ⟨a1, a2, fun pol hp => ?_⟩
    rw [← hfr pol _ hp]
    refine a3 pol fun h => ?_
    obtain ⟨m, hm⟩ := List.exists_mem_of_ne_nil _ hp
    rw [hmem] at hm
    have : m ∈ polInds inds' pol := (hmem _ _ _).2 ⟨hsub m hm.1, hm.2⟩
    rw [show polInds inds' pol = [] from h] at this
    cases this
  · rw [hfr pol _ hp]
    exact List.forall₂_same.2 fun l _ => List.prefix_refl l

/-- **C105 (guided modes of the code).** Raising the permittivities of the background and of the shapes, with the effective
permittivities set by hand to the same values, never raises a frequency, with the guided modes that the code itself finds. -/
theorem C105_code (argsort : List ℝ → List ℕ) (hs : ∀ l, IsArgsort l (argsort l))
    (eigh : ∀ n, Matrix (Fin n) (Fin n) ℂ → Fin n → ℝ) (he : GoodEigh eigh) (fs : Finder) (o : GuidedOpts)
    (S : GmeStruct) (layers' : List GmeLay) (gmax : ℝ) (ks : List R2) (numeig : ℕ)
    (hlay : List.Forall₂ (fun l l' : GmeLay => DrawnLayer S gmax l ∧ (l' = l ∨
      ∃ (a1 a2 : R2) (dB d lo : ℝ) (sh : List (Drawn × ℝ)), l' = raisedLay S.ecArea l dB sh ∧
        Draws a1 a2 S.b1 S.b2 l.epsB l.epsAvg S.ecArea (sh.map Prod.fst) ∧ (l.shapes = sh.map fun s => s.1.shape) ∧
        (∀ s ∈ l.shapes, RealShape s) ∧ lo ≤ l.epsB ∧ (∀ s ∈ l.shapes, lo ≤ s.eps) ∧
        (S.gvec gmax).length * drawErr l.epsB S.ecArea (sh.map Prod.fst) < lo ∧
        d ≤ dB ∧ (∀ s ∈ sh, d ≤ s.2) ∧
        (S.gvec gmax).length * ((sh.map fun s => |s.2 - dB| * s.1.err).sum / S.ecArea) ≤ d ∧
        (sh = [] ∨ ¬ TakenUniform S gmax l ∧ ¬ TakenUniform S gmax l'))) S.layers layers')
    (e0 eN : ℝ) (ls : List (ℝ × ℝ)) (hne : ls ≠ []) (h0 : 0 < e0) (hN : 0 < eN)
    (hl : ∀ l ∈ ls, 0 < l.1) (hd : ∀ l ∈ ls, 0 ≤ l.2) (hfs : RootFinder fs e0 eN ls) (ho : ExactOpts o)
    (hst : ∀ eff, S.layers.mapM (GmeLay.eff "custom") = .ok eff →
      (S.layers.map GmeLay.pos).zip eff = slabStack e0 eN ls)
    (hsep : ∀ k ∈ ks, SeparateWaves fs o e0 eN ls (waveLengths o (S.gvec gmax) k)) (r r' : List KRes)
    (hr : gmeSimIj ijExact argsort eigh (codeGuided normExact fs o) S gmax false "custom" ks 0 numeig = .ok r)
    (hr' : gmeSimIj ijExact argsort eigh (codeGuided normExact fs o) { S with layers := layers' } gmax false "custom" ks 0
      numeig = .ok r') :
    List.Forall₂ Below r' r := by
  refine C105_raise argsort hs eigh he _ S layers' gmax ks numeig hlay (fun eff ik b hik he hb => ?_) r r' hr hr'
  rw [hst eff he] at hb ⊢
  have hk : ks.getD ik 0 ∈ ks := by rw [getD_of_len hik]; exact List.getElem_mem _
  exact code_good hne h0 hN hl hd hfs ho (hsep _ hk) hb

/-! ### An example -/

/-- The basis of a run is not empty. -/
theorem code_nonempty {fs : Finder} {o : GuidedOpts} {gvec : List R2} {e0 eN : ℝ} {ls : List (ℝ × ℝ)}
    (hne : ls ≠ []) (h0 : 0 < e0) (hN : 0 < eN) (hl : ∀ l ∈ ls, 0 < l.1)
    (hfs : RootFinder fs e0 eN ls) (ho : ExactOpts o) {ks : List R2} {ik : ℕ}
    (hs : SeparateWaves fs o e0 eN ls (waveLengths o gvec (ks.getD ik 0))) {b : List (BasisEl gvec.length)}
    (hb : codeGuided normExact fs o (slabStack e0 eN ls) gvec ks ik = .ok b) : 1 ≤ b.length := by
  obtain ⟨F, hF, hbr⟩ := C118_basis fs o e0 eN ls hne h0 hN hl hfs ho gvec ks ik hs b hb
  have h1 := branch_freqs _ o e0 eN ls _ gvec ks ik b hbr
  obtain ⟨p, hp⟩ := List.exists_mem_of_ne_nil _ hF.enter
  have hp' := hp
  unfold foundBranches at hp
  obtain ⟨m, hm, rfl⟩ := List.mem_map.1 hp
  obtain ⟨g, hg, hlt⟩ := of_decide_eq_true (List.mem_filter.1 hm).2
  have h2 : (F (modePol m) g)[m / 2] ∈ b.map fun s => s.st.om := by
    rw [h1]
    exact List.mem_flatMap.2 ⟨_, hp', List.mem_filterMap.2 ⟨g, hg, List.getElem?_eq_getElem hlt⟩⟩
  have h3 := List.length_pos_of_mem h2
  rwa [List.length_map] at h3

/-- The asymmetric slab of C118 as effective slab of a slab of permittivity `e + 11` with round holes of permittivity `e`. -/
noncomputable def orderHoles (e : ℝ) : GmeStruct :=
  ⟨(2 * Real.pi, 0), (0, 2 * Real.pi), 1, [⟨.lower, 3, 3, some 3, []⟩,
    { holesSlab e with pos := .inner (7 * Real.pi / 12), epsEff := some 5 }, ⟨.upper, 1, 1, some 1, []⟩]⟩

theorem orderHoles_drawn : ∀ l ∈ (orderHoles 1).layers, DrawnLayer (orderHoles 1) (1 / 2) l := by
  have hlen : ((orderHoles 1).gvec (1 / 2)).length = 1 := by
    rw [show (orderHoles 1).gvec (1 / 2) = asymPlain.gvec (1 / 2) from rfl, asymPlain_gvec]
    rfl
  have clad : ∀ (p : LPos) (e : ℝ), 0 < e → DrawnLayer (orderHoles 1) (1 / 2) ⟨p, e, e, some e, []⟩ := by
    intro p e he
    refine ⟨(1, 0), (0, 1), [], e / 2, ⟨square_holes.dual, resolved_square, by simp [orderHoles], ⟨by simp, by simp⟩, by simp,
      by simp, by simp, by simp⟩, rfl, by simp, half_le_self he.le, by simp, ?_⟩
    simp [drawErr, he]
  simp only [orderHoles, List.mem_cons, List.not_mem_nil, or_false]
  rintro l (rfl | rfl | rfl)
  · exact clad _ _ (by norm_num)
  · exact ⟨(1, 0), (0, 1), [drawnCircle 1 ⟨0, 0, 0.2⟩], 1, holes_draws 1, rfl, holes_real' 1, by norm_num [holesSlab],
      by simp [holesSlab], by
        change ((((orderHoles 1).gvec (1 / 2)).length : ℕ) : ℝ) * drawErr (1 + 11) 1 [drawnCircle 1 ⟨0, 0, 0.2⟩] < 1
        rw [hlen]
        exact holes_err' 1 1 (by norm_num)⟩
  · exact clad _ _ one_pos

theorem orderHoles_eff : (orderHoles 1).layers.mapM (GmeLay.eff "custom") = .ok [3, 5, 1] := rfl

theorem orderHoles_waves : waveLengths asymOpts ((orderHoles 1).gvec (1 / 2)) (0, 2) = [2] := by
  have h2 : √((2 : ℝ) ^ 2) = 2 := Real.sqrt_sq (by norm_num)
  rw [show (orderHoles 1).gvec (1 / 2) = asymPlain.gvec (1 / 2) from rfl, asymPlain_gvec]
  simp [waveLengths, planeAbs, radPlane, asymOpts, h2]

/-- At a single plane wave. -/
theorem single_waves (fs : Finder) (o : GuidedOpts) (e0 eN : ℝ) (ls : List (ℝ × ℝ)) : SeparateWaves fs o e0 eN ls [2] := by
  refine ⟨by norm_num, by simp, fun pol _ => ?_⟩
  simp [freqsFound, guidedModes]

theorem orderHoles_runs (fs : Finder) (hfs : RootFinder fs 3 1 [(5, 7 * Real.pi / 12)]) (inds : List ℕ) (hnd : inds.Nodup)
    (h0 : 0 ∈ inds) (hmax : ∀ m ∈ inds, m ≤ 1) (argsort : List ℝ → List ℕ) (eigh : ∀ n, Matrix (Fin n) (Fin n) ℂ → Fin n → ℝ) :
    ∃ r, gmeSimIj ijExact argsort eigh (codeGuided normExact fs { asymOpts with inds := inds }) (orderHoles 1) (1 / 2) false
      "custom" [(0, 2)] 0 1 = .ok r := by
  set o : GuidedOpts := { asymOpts with inds := inds } with hodef
  have ho : ExactOpts o := ⟨rfl, rfl, one_pos, by norm_num [hodef, asymOpts], by norm_num [hodef, asymOpts], hnd⟩
  have hw : waveLengths o ((orderHoles 1).gvec (1 / 2)) (0, 2) = [2] := orderHoles_waves
  have hn : nModesOf inds .te = nModesOf asymOpts.inds .te := by
    have : (polInds inds .te).foldl max 0 = 0 := by
      have hz : ∀ l : List ℕ, (∀ m ∈ l, m = 0) → l.foldl max 0 = 0 := by
        intro l
        induction l with
        | nil => intro _; rfl
        | cons a l ih =>
          intro h
          rw [List.foldl_cons, h a List.mem_cons_self]
          exact ih fun m hm => h m (List.mem_cons_of_mem _ hm)
      refine hz _ fun m hm => ?_
      obtain ⟨h1, h2⟩ := List.mem_filter.1 hm
      have h3 := hmax m h1
      have h4 : modePol m = .te := by simpa using h2
      unfold modePol at h4
      split_ifs at h4
      omega
    unfold nModesOf
    rw [this]
    simp [polInds, asymOpts, modePol]
  have hsm : SomeMode fs o 3 1 [(5, 7 * Real.pi / 12)] (guidedGrid o ((orderHoles 1).gvec (1 / 2)) [(0, 2)] ((0, 2) : R2)) := by
    have hg : guidedGrid o ((orderHoles 1).gvec (1 / 2)) [(0, 2)] ((0, 2) : R2) = List.replicate 1 2 := by
      unfold guidedGrid
      rw [if_pos (show o.exact = true from rfl), show o.deltaGabs = 0 from rfl, gridExact_zero]
      change (waveLengths o ((orderHoles 1).gvec (1 / 2)) (0, 2)).insertionSort (· ≤ ·) = _
      rw [hw]
      simp
    rw [hg]
    have hf : freqsFound fs o 3 1 [(5, 7 * Real.pi / 12)] .te (List.replicate 1 2) =
        freqsFound fs asymOpts 3 1 [(5, 7 * Real.pi / 12)] .te (List.replicate 1 2) := by
      unfold freqsFound
      rw [show nModesOf o.inds .te = nModesOf asymOpts.inds .te from hn]
    refine ⟨0, h0, ?_⟩
    rw [show modePol 0 = .te from rfl, hf, asym_freqs]
    exact ⟨_, List.mem_replicate.2 ⟨by simp, rfl⟩, by simp⟩
  obtain ⟨b, hb⟩ := (C118_outcome normExact fs o 3 1 [(5, 7 * Real.pi / 12)] (by simp) ((orderHoles 1).gvec (1 / 2)) [(0, 2)]
    0).1 hsm
  have hb1 := code_nonempty (by simp) (by norm_num) one_pos (by simp) hfs ho (ks := [(0, 2)]) (ik := 0) (by
    rw [show ([((0, 2) : R2)].getD 0 0) = (0, 2) from rfl, hw]
    exact single_waves _ _ _ _ _) hb
  have hinv : ∃ einv, (orderHoles 1).layers.mapM ((orderHoles 1).epsInv (1 / 2) false) = .ok einv := by
    have : ∀ L : List GmeLay, (∀ l ∈ L, DrawnLayer (orderHoles 1) (1 / 2) l) →
        ∃ einv, L.mapM ((orderHoles 1).epsInv (1 / 2) false) = .ok einv := by
      intro L
      induction L with
      | nil => intro _; exact ⟨[], rfl⟩
      | cons l L ih =>
        intro h
        obtain ⟨E, hE, -⟩ := drawnLayer_inv _ _ l (h l List.mem_cons_self) false
        obtain ⟨es, hes⟩ := ih fun l hl => h l (List.mem_cons_of_mem _ hl)
        rw [List.mapM_cons, hE, hes]
        exact ⟨_, rfl⟩
    exact this _ orderHoles_drawn
  obtain ⟨einv, heinv⟩ := hinv
  unfold gmeSimIj
  rw [orderHoles_eff, heinv]
  have hst : ((orderHoles 1).layers.map GmeLay.pos).zip [3, 5, 1] = slabStack 3 1 [(5, 7 * Real.pi / 12)] := rfl
  simp only [bind, Except.bind, List.length_singleton, List.range_one, List.mapM_cons, List.mapM_nil, hst, hb,
    solveFull, List.length_ofFn]
  rw [if_neg (by omega)]
  exact ⟨_, rfl⟩

/-- TE modes of the lowest order, and TM modes in addition: the frequencies of the second run are at most those of the
first. Both runs return. -/
example (argsort : List ℝ → List ℕ) (hs : ∀ l, IsArgsort l (argsort l))
    (eigh : ∀ n, Matrix (Fin n) (Fin n) ℂ → Fin n → ℝ) (he : GoodEigh eigh) : ∃ fs r r',
    gmeSimIj ijExact argsort eigh (codeGuided normExact fs asymOpts) (orderHoles 1) (1 / 2) false "custom" [(0, 2)] 0 1 =
      .ok r ∧
    gmeSimIj ijExact argsort eigh (codeGuided normExact fs { asymOpts with inds := [0, 1] }) (orderHoles 1) (1 / 2) false
      "custom" [(0, 2)] 0 1 = .ok r' ∧
    List.Forall₂ Below r' r := by
  obtain ⟨fs, hfs⟩ := C118_finder 3 1 (5, 7 * Real.pi / 12) (by norm_num)
  obtain ⟨r, hr⟩ := orderHoles_runs fs hfs [0] (by simp) (by simp) (by simp) argsort eigh
  obtain ⟨r', hr'⟩ := orderHoles_runs fs hfs [0, 1] (by simp) (by simp) (by simp) argsort eigh
  refine ⟨fs, r, r', hr, hr', ?_⟩
  refine C104_code argsort hs eigh he fs asymOpts [0, 1] (by simp [asymOpts]) (by simp) ?_ (orderHoles 1) (1 / 2) false "custom"
    [(0, 2)] 1 orderHoles_drawn 3 1 [(5, 7 * Real.pi / 12)] (by simp) (by norm_num) one_pos (by simp) (by simp; positivity) hfs
    asymOpts_exact (fun eff h => by rw [orderHoles_eff] at h; cases h; rfl) (fun k hk => ?_) r r' hr hr'
  · intro m' hm' ⟨m, hm, hp⟩
    simp only [asymOpts, List.mem_singleton] at hm
    subst hm
    simp only [List.mem_cons, List.not_mem_nil, or_false] at hm'
    rcases hm' with rfl | rfl
    · exact ⟨0, by simp [asymOpts], rfl, le_rfl⟩
    · simp [modePol] at hp
  · rw [List.mem_singleton.1 hk, orderHoles_waves]
    exact single_waves _ _ _ _ _

/-- Raising the upper cladding from 1 to 2, with the effective permittivities fixed. -/
example (argsort : List ℝ → List ℕ) (hs : ∀ l, IsArgsort l (argsort l))
    (eigh : ∀ n, Matrix (Fin n) (Fin n) ℂ → Fin n → ℝ) (he : GoodEigh eigh) (fs : Finder)
    (hfs : RootFinder fs 3 1 [(5, 7 * Real.pi / 12)]) (r' : List KRes)
    (hr' : gmeSimIj ijExact argsort eigh (codeGuided normExact fs asymOpts) { orderHoles 1 with layers :=
        [⟨.lower, 3, 3, some 3, []⟩, { holesSlab 1 with pos := .inner (7 * Real.pi / 12), epsEff := some 5 },
          ⟨.upper, 2, 2, some 1, []⟩] } (1 / 2) false "custom" [(0, 2)] 0 1 = .ok r') :
    ∃ r, gmeSimIj ijExact argsort eigh (codeGuided normExact fs asymOpts) (orderHoles 1) (1 / 2) false "custom" [(0, 2)] 0 1 =
      .ok r ∧ List.Forall₂ Below r' r := by
  obtain ⟨r, hr⟩ := orderHoles_runs fs hfs [0] (by simp) (by simp) (by simp) argsort eigh
  have hdr := orderHoles_drawn
  refine ⟨r, hr, C105_code argsort hs eigh he fs asymOpts (orderHoles 1) _ (1 / 2) [(0, 2)] 1
    (.cons ⟨hdr _ (by simp [orderHoles]), .inl rfl⟩ (.cons ⟨hdr _ (by simp [orderHoles]), .inl rfl⟩
      (.cons ⟨hdr _ (by simp [orderHoles]), .inr ?_⟩ .nil))) 3 1 [(5, 7 * Real.pi / 12)] (by simp) (by norm_num) one_pos (by simp)
    (by simp; positivity) hfs asymOpts_exact (fun eff h => by rw [orderHoles_eff] at h; cases h; rfl) (fun k hk => ?_) r r' hr
    hr'⟩
  · refine ⟨(1, 0), (0, 1), 1, 1, 1 / 2, [], ?_, ⟨square_holes.dual, resolved_square, by simp [orderHoles], ⟨by simp, by simp⟩,
      by simp, by simp, by simp, by simp⟩, rfl, by simp, by norm_num, by simp, by simp [drawErr], le_rfl, by simp, by simp,
      .inl rfl⟩
    simp [raisedLay]
    norm_num
  · rw [List.mem_singleton.1 hk, orderHoles_waves]
    exact single_waves _ _ _ _ _

end Legume
