import Verif.Props.GuidedRun

/-!
# Whole runs with the guided modes that the code finds (C118)
-/
namespace Legume

open Matrix
open Spec

theorem found_roots {fs : Finder} {o : GuidedOpts} {e0 eN : ℝ} {ls : List (ℝ × ℝ)} {gk : List ℝ} {F : Pol → ℝ → List ℝ}
    (h : FoundModes fs o e0 eN ls gk F) : RootBranches (foundBranches o.inds gk F) e0 eN ls := by
  intro p hp g om hom
  unfold foundBranches at hp
  obtain ⟨m, -, rfl⟩ := List.mem_map.1 hp
  exact h.modes _ _ _ (List.mem_of_getElem? hom)

theorem found_pairwise {fs : Finder} {o : GuidedOpts} (ho : ExactOpts o) {e0 eN : ℝ} {ls : List (ℝ × ℝ)} {gk : List ℝ}
    {F : Pol → ℝ → List ℝ} (h : FoundModes fs o e0 eN ls gk F) :
    (foundBranches o.inds gk F).Pairwise fun p q => p.1 ≠ q.1 ∨
      ∀ g o o', p.2 g = some o → q.2 g = some o' → o ^ 2 ≠ o' ^ 2 := by
  unfold foundBranches
  rw [List.pairwise_map]
  refine List.Pairwise.imp ?_ (ho.nodup.filter _)
  intro m m' hmm
  by_cases hp : modePol m = modePol m'
  · right
    intro g a a' ha ha' he
    simp only [hp] at ha ha'
    have h1 := h.pos _ _ _ (List.mem_of_getElem? ha)
    have h2 := h.pos _ _ _ (List.mem_of_getElem? ha')
    have he' : a = a' := (pow_left_inj₀ h1.le h2.le two_ne_zero).1 he
    subst he'
    have hnd : (F (modePol m') g).Nodup := (h.increasing _ _).imp fun h => h.ne
    obtain ⟨i1, e1⟩ := List.getElem?_eq_some_iff.1 ha
    obtain ⟨i2, e2⟩ := List.getElem?_eq_some_iff.1 ha'
    have h3 := (List.Nodup.getElem_inj_iff hnd).1 (e1.trans e2.symm)
    unfold modePol at hp
    split_ifs at hp <;> omega
  · exact .inl hp

/-- **C118 (modes).** The basis of a run consists of normalised guided modes of the effective slab at the plane waves seen
from the wave vector, and no mode occurs twice. -/
theorem C118_slab (fs : Finder) (o : GuidedOpts) (e0 eN : ℝ) (ls : List (ℝ × ℝ)) (hne : ls ≠ []) (h0 : 0 < e0)
    (hN : 0 < eN) (hl : ∀ l ∈ ls, 0 < l.1) (hfs : RootFinder fs e0 eN ls) (ho : ExactOpts o) (gvec ks : List R2) (ik : ℕ)
    (hs : SeparateWaves fs o e0 eN ls (waveLengths o gvec (ks.getD ik 0)))
    (b : List (BasisEl gvec.length)) (hb : codeGuided normExact fs o (slabStack e0 eN ls) gvec ks ik = .ok b) :
    DistinctModes b ∧ SlabGuided e0 eN ls gvec (ks.getD ik 0 + (o.deltaGx, 0)) b := by
  obtain ⟨F, hF, hbr⟩ := C118_basis fs o e0 eN ls hne h0 hN hl hfs ho gvec ks ik hs b hb
  exact ⟨branch_distinct _ (found_pairwise ho hF) _ _ _ _ _ _ _ _ _ hbr, branch_basis (found_roots hF) _ _ _ _ _ _ hbr⟩

theorem flatMap_getD {α β : Type} (l : List α) (d : α) (f : α → List β) :
    (List.range l.length).flatMap (fun n => f (l.getD n d)) = l.flatMap f := by
  have : l = (List.range l.length).map fun n => l.getD n d := by
    refine List.ext_getElem (by simp) fun i h1 h2 => ?_
    rw [List.getElem_map, List.getElem_range, getD_of_len h1]
  conv_rhs => rw [this, List.flatMap_map]

theorem planeAbs_eq (o : GuidedOpts) (k g : R2) :
    planeAbs (radPlane o.deltaGx k g) = √((g.1 + (k.1 + o.deltaGx)) ^ 2 + (g.2 + k.2) ^ 2) := by
  unfold planeAbs radPlane
  simp only [add_assoc]

/-- The frequencies of a basis from branches. -/
theorem branch_freqs (br : List (Pol × (ℝ → Option ℝ))) (o : GuidedOpts) (e0 eN : ℝ) (ls : List (ℝ × ℝ))
    (stack : List (LPos × ℝ)) (gvec ks : List R2) (ik : ℕ) (b : List (BasisEl gvec.length))
    (hb : branchGuided br o.deltaGx e0 eN ls stack gvec ks ik = .ok b) :
    b.map (fun s => s.st.om) = br.flatMap fun p => (waveLengths o gvec (ks.getD ik 0)).filterMap p.2 := by
  unfold branchGuided at hb
  cases hb
  rw [List.map_flatMap, ← flatMap_getD br (.te, fun _ => none)]
  refine List.flatMap_congr fun n _ => ?_
  have hw : waveLengths o gvec (ks.getD ik 0) = (List.finRange gvec.length).map fun i =>
      √((gvec[i].1 + ((ks.getD ik 0).1 + o.deltaGx)) ^ 2 + (gvec[i].2 + (ks.getD ik 0).2) ^ 2) := by
    unfold waveLengths
    refine List.ext_getElem (by simp) fun i h1 h2 => ?_
    simp [planeAbs_eq]
  rw [hw, List.filterMap_map, List.map_filterMap]
  refine List.filterMap_congr fun i _ => ?_
  rw [Option.map_map, Function.comp_apply]
  exact congrFun Option.map_id _

theorem forall2_le_antisymm : ∀ {l l' : List ℝ}, List.Forall₂ (· ≤ ·) l l' → List.Forall₂ (· ≤ ·) l' l → l = l'
  | [], _, .nil, _ => rfl
  | _ :: _, _, .cons h t, .cons h' t' => by rw [le_antisymm h h', forall2_le_antisymm t t']

theorem qform_plain {n : ℕ} (c : ℝ) (x : Fin n → ℂ) :
    qform (((c : ℝ) : ℂ) • (1 : Matrix (Fin n) (Fin n) ℂ)) x = c * ∑ i, ‖x i‖ ^ 2 := by
  rw [← qform_one, qform, qform, smul_mulVec, dotProduct_smul, smul_eq_mul, Complex.re_ofReal_mul]

/-- The frequencies of the modes that are found, mode number by mode number and plane wave by plane wave, over `2 π`. -/
noncomputable def foundFreqs (o : GuidedOpts) (gk : List ℝ) (F : Pol → ℝ → List ℝ) : List ℝ :=
  ((foundBranches o.inds gk F).flatMap fun p => gk.filterMap p.2).map fun om => om / (2 * Real.pi)

/-- **C118 (unpatterned).** For a structure without shapes `run` stores at every wave vector the lowest `numeig` of the
frequencies of the guided modes of the slab that are found at the plane waves, in units of `2 π`, in increasing order. -/
theorem C118_plain (argsort : List ℝ → List ℕ) (hs : ∀ l, IsArgsort l (argsort l))
    (eigh : ∀ n, Matrix (Fin n) (Fin n) ℂ → Fin n → ℝ) (he : GoodEigh eigh) (fs : Finder) (o : GuidedOpts) (S : GmeStruct)
    (hS : Resolved S.b1 S.b2) (hsh : ∀ l ∈ S.layers, l.shapes = []) (gmax : ℝ) (onlyG : Bool)
    (e0 eN : ℝ) (ls : List (ℝ × ℝ)) (hne : ls ≠ []) (h0 : 0 < e0) (hN : 0 < eN)
    (hl : ∀ l ∈ ls, 0 < l.1) (hd : ∀ l ∈ ls, 0 ≤ l.2) (hfs : RootFinder fs e0 eN ls) (ho : ExactOpts o)
    (hst : (S.layers.map GmeLay.pos).zip (S.layers.map GmeLay.epsAvg) = slabStack e0 eN ls) (ks : List R2)
    (hsep : ∀ k ∈ ks, SeparateWaves fs o e0 eN ls (waveLengths o (S.gvec gmax) k)) (numeig : ℕ) (r : List KRes)
    (hrun : gmeSimIj ijExact argsort eigh (codeGuided normExact fs o) S gmax onlyG "average" ks 0 numeig = .ok r) :
    List.Forall₂ (fun k a => ∃ F, FoundModes fs o e0 eN ls (waveLengths o (S.gvec gmax) k) F ∧
      ∃ c : List ℝ, c.Pairwise (· ≤ ·) ∧ c.Perm (foundFreqs o (waveLengths o (S.gvec gmax) k) F) ∧
        a.freq = c.take numeig) ks r := by
  have heff : S.layers.mapM (GmeLay.eff "average") = .ok (S.layers.map GmeLay.epsAvg) := by
    rw [show GmeLay.eff "average" = fun l => .ok l.epsAvg from funext fun l => by simp [GmeLay.eff]]
    exact mapM_ok_map _ _
  have hk : ∀ ik < ks.length, ks.getD ik 0 ∈ ks := fun ik h => by rw [getD_of_len h]; exact List.getElem_mem _
  have := C111_between argsort hs eigh he (codeGuided normExact fs o) S gmax onlyG "average"
    (fun l hl s hs => by rw [hsh l hl] at hs; cases hs) e0 eN ls hne h0 hN hl hd
    (fun eff h => by rw [heff] at h; cases h; exact hst) ks
    (fun ik hik b hb => by
      obtain ⟨h1, h2⟩ := C118_slab fs o e0 eN ls hne h0 hN hl hfs ho _ ks ik (hsep _ (hk ik hik)) b hb
      exact ⟨h1, _, h2⟩) 1 1 zero_le_one zero_le_one
    (fun l hl e E he hE x => by
      have h1 := epsInv_plain S hS gmax onlyG l (hsh l hl) E hE
      have h2 : e = l.epsAvg := by
        have : GmeLay.eff "average" l = .ok l.epsAvg := by simp [GmeLay.eff]
        rw [this] at he; cases he; rfl
      rw [h1, qform_plain, h2]
      exact ⟨le_rfl, le_rfl⟩) numeig r hrun
  rw [List.forall₂_iff_get] at this ⊢
  refine ⟨by simpa using this.1, fun ik h1 h2 => ?_⟩
  obtain ⟨b, hb, c, hc, hperm, hlo, hhi⟩ := this.2 ik (by simpa using h1) h2
  simp only [List.get_eq_getElem, List.getElem_range] at hb hlo hhi ⊢
  obtain ⟨F, hF, hbr⟩ := C118_basis fs o e0 eN ls hne h0 hN hl hfs ho _ ks ik (hsep _ (hk ik h1)) b hb
  rw [getD_of_len h1] at hF hbr
  refine ⟨F, hF, c, hc, ?_, ?_⟩
  · refine hperm.trans (List.Perm.of_eq ?_)
    have hf := branch_freqs _ _ _ _ _ _ _ _ _ _ hbr
    rw [getD_of_len h1] at hf
    unfold foundFreqs
    rw [← hf, List.map_map]
    refine List.map_congr_left fun s hs => ?_
    have hpos : 0 < s.st.om := by
      have : s.st.om ∈ b.map fun s => s.st.om := List.mem_map_of_mem hs
      rw [hf] at this
      obtain ⟨p, hp, hm⟩ := List.mem_flatMap.1 this
      obtain ⟨g, -, hg⟩ := List.mem_filterMap.1 hm
      unfold foundBranches at hp
      obtain ⟨m, -, rfl⟩ := List.mem_map.1 hp
      exact hF.pos _ _ _ (List.mem_of_getElem? hg)
    rw [Function.comp_apply, abs_of_pos hpos]
  · simp only [Real.sqrt_one, one_mul, List.map_id'] at hlo hhi
    exact forall2_le_antisymm hhi hlo

/-- **C118 (no losses).** For a structure without shapes the run finds no couplings and no losses, whatever the eigenvectors
are. -/
theorem C118_lossless (argsort : List ℝ → List ℕ)
    (eigh : ∀ n, Matrix (Fin n) (Fin n) ℂ → Fin n → ℝ) (vecs : ∀ n, Matrix (Fin n) (Fin n) ℂ → Matrix (Fin n) (Fin n) ℂ)
    (hp : EighPair eigh vecs) (fs : Finder) (o : GuidedOpts) (S : GmeStruct)
    (hS : Resolved S.b1 S.b2) (hsh : ∀ l ∈ S.layers, l.shapes = []) (gmax : ℝ) (onlyG : Bool)
    (e0 eN : ℝ) (ls : List (ℝ × ℝ)) (hne : ls ≠ []) (h0 : 0 < e0) (hN : 0 < eN)
    (hl : ∀ l ∈ ls, 0 < l.1) (hd : ∀ l ∈ ls, 0 ≤ l.2) (hfs : RootFinder fs e0 eN ls) (ho : ExactOpts o)
    (hst : (S.layers.map GmeLay.pos).zip (S.layers.map GmeLay.epsAvg) = slabStack e0 eN ls) (ks : List R2)
    (hsep : ∀ k ∈ ks, SeparateWaves fs o e0 eN ls (waveLengths o (S.gvec gmax) k)) (sigma : ℝ) (numeig : ℕ)
    (r : List (KRes × List RadRes))
    (hrun : radSimIj ijExact o.deltaGx argsort eigh vecs (codeGuided normExact fs o) S gmax onlyG "average" ks sigma numeig =
      .ok r) :
    ∀ x ∈ r, ∀ a ∈ x.2, (∀ u pol l, a.coup u pol = some l → ∀ c ∈ l, c = 0) ∧ ∀ l, a.loss = some l → l = ⟨0, 0, 0⟩ := by
  refine C117_unpatterned o.deltaGx argsort eigh vecs hp (codeGuided normExact fs o) S hS hsh gmax onlyG e0 eN ls hne h0 hN
    (fun l h => (hl l h).ne') hd hst ks (fun ik k hk b hb => ?_) sigma numeig r hrun
  have hkd : ks.getD ik 0 = k := by rw [List.getD_eq_getElem?_getD, hk]; rfl
  have := C118_slab fs o e0 eN ls hne h0 hN hl hfs ho _ ks ik (by
    rw [hkd]; exact hsep k (List.mem_of_getElem? hk)) b hb
  rw [hkd] at this
  refine ⟨this.1, ?_⟩
  have e : k + (o.deltaGx, (0 : ℝ)) = (k.1 + o.deltaGx, k.2) := by ext <;> simp
  rw [← e]
  exact this.2

/-! ### When there is a basis -/

theorem modeAt_total (norm : NormFn) (e0 eN : ℝ) (ls : List (ℝ × ℝ)) (hne : ls ≠ []) (pol : Pol) (gv om : ℝ) :
    ∃ m, modeAt norm (slabStack e0 eN ls) pol gv om = .ok m ∧ m.1 = om := by
  obtain ⟨l, ls, rfl⟩ := List.exists_cons_of_ne_nil hne
  unfold modeAt
  rw [slab_eps, stackDs_slab]
  simp only [abMatrices, List.map_cons, List.cons_append, sMats, tMats, List.tail_cons,
    List.dropLast_cons_of_ne_nil (l := ls.map Prod.fst ++ [eN]) (by simp), List.zipWith_cons_cons]
  exact ⟨(_, _), rfl, rfl⟩

theorem mapM_modeAt_total (norm : NormFn) (e0 eN : ℝ) (ls : List (ℝ × ℝ)) (hne : ls ≠ []) (pol : Pol) (gv : ℝ) :
    ∀ oms : List ℝ, ∃ ms, oms.mapM (modeAt norm (slabStack e0 eN ls) pol gv) = .ok ms ∧ ms.map Prod.fst = oms
  | [] => ⟨[], rfl, rfl⟩
  | om :: oms => by
    obtain ⟨m, h1, h2⟩ := modeAt_total norm e0 eN ls hne pol gv om
    obtain ⟨ms, h3, h4⟩ := mapM_modeAt_total norm e0 eN ls hne pol gv oms
    refine ⟨m :: ms, ?_, by simp [h2, h4]⟩
    rw [List.mapM_cons, h1]
    simp only [bind, Except.bind, h3]
    rfl

theorem guidedAt_total (norm : NormFn) (fs : Finder) (o : GuidedOpts) (e0 eN : ℝ) (ls : List (ℝ × ℝ)) (hne : ls ≠ [])
    (pol : Pol) (n : ℕ) (prev : Option (ℝ × List GMode)) (g : ℝ) :
    ∃ ms, guidedAt norm fs o (slabStack e0 eN ls) pol n prev g = .ok ms ∧
      ms.map Prod.fst = guidedStep (dispRe (slabStack e0 eN ls) pol) (fs pol) ((slabStack e0 eN ls).map Prod.snd) n o.step
        o.tol (prev.map fun p => (p.1, p.2.map Prod.fst)) g := by
  unfold guidedAt
  cases prev with
  | none => exact mapM_modeAt_total norm e0 eN ls hne pol _ _
  | some p =>
    obtain ⟨gp, ms⟩ := p
    simp only
    split_ifs with h
    · exact mapM_modeAt_total norm e0 eN ls hne pol _ _
    · refine ⟨ms, rfl, ?_⟩
      simp only [guidedStep, Option.map_some, if_neg h]

theorem guidedRun_total (norm : NormFn) (fs : Finder) (o : GuidedOpts) (e0 eN : ℝ) (ls : List (ℝ × ℝ)) (hne : ls ≠ [])
    (pol : Pol) (n : ℕ) : ∀ (gs : List ℝ) (prev : Option (ℝ × List GMode)),
    ∃ ms, guidedRun norm fs o (slabStack e0 eN ls) pol n prev gs = .ok ms ∧ ms.length = gs.length ∧
      ms.map (List.map Prod.fst) = guidedModes (dispRe (slabStack e0 eN ls) pol) (fs pol)
        ((slabStack e0 eN ls).map Prod.snd) n o.step o.tol (prev.map fun p => (p.1, p.2.map Prod.fst)) gs
  | [], prev => ⟨[], rfl, rfl, rfl⟩
  | g :: gs, prev => by
    obtain ⟨m, h1, h2⟩ := guidedAt_total norm fs o e0 eN ls hne pol n prev g
    obtain ⟨ms, h3, h4, h5⟩ := guidedRun_total norm fs o e0 eN ls hne pol n gs (some (g, m))
    refine ⟨m :: ms, ?_, by simp [h4], ?_⟩
    · simp only [guidedRun, h1, h3]
    · rw [List.map_cons, h5, h2]
      simp only [guidedModes, Option.map_some, h2]

theorem computeGuided_total (norm : NormFn) (fs : Finder) (o : GuidedOpts) (e0 eN : ℝ) (ls : List (ℝ × ℝ)) (hne : ls ≠ [])
    (pol : Pol) (grid : List ℝ) :
    ∃ ms, computeGuided norm fs o (slabStack e0 eN ls) pol grid = .ok (reshapeList ms) ∧ ms.length ≤ grid.length ∧
      (polInds o.inds pol ≠ [] → ms.map (List.map Prod.fst) = freqsFound fs o e0 eN ls pol grid) := by
  unfold computeGuided
  by_cases h : polInds o.inds pol = []
  · rw [if_pos h]
    exact ⟨[], rfl, by simp, fun h' => absurd h h'⟩
  · obtain ⟨ms, h1, h2, h3⟩ := guidedRun_total norm fs o e0 eN ls hne pol (nModesOf o.inds pol) grid none
    rw [if_neg h, if_neg (by rw [stackDs_slab]; simpa using hne), h1]
    refine ⟨ms, rfl, h2.le, fun _ => ?_⟩
    rw [h3, dispRe_slab, slab_eps]
    rfl

theorem mapM_each_ok {α β : Type} {f : α → Except PyErr β} : ∀ {l : List α}, (∀ a ∈ l, ∃ b, f a = .ok b) →
    ∃ r, l.mapM f = .ok r
  | [], _ => ⟨[], rfl⟩
  | a :: l, h => by
    obtain ⟨b, hb⟩ := h a List.mem_cons_self
    obtain ⟨r, hr⟩ := mapM_each_ok fun a' ha' => h a' (List.mem_cons_of_mem _ ha')
    refine ⟨b :: r, ?_⟩
    rw [List.mapM_cons, hb]
    simp only [bind, Except.bind, hr]
    rfl

/-- A mode with one of the numbers asked for is found at one of the wave vectors. -/
def SomeMode (fs : Finder) (o : GuidedOpts) (e0 eN : ℝ) (ls : List (ℝ × ℝ)) (grid : List ℝ) : Prop :=
  ∃ m ∈ o.inds, ∃ l ∈ freqsFound fs o e0 eN ls (modePol m) grid, m / 2 < l.length

/-- **C118 (outcome).** For a slab with at least one layer the basis is found if one of the modes asked for is found at one
of the wave vectors, and RuntimeError is raised otherwise, for every normalisation, every root finder and all options. -/
theorem C118_outcome (norm : NormFn) (fs : Finder) (o : GuidedOpts) (e0 eN : ℝ) (ls : List (ℝ × ℝ)) (hne : ls ≠ [])
    (gvec ks : List R2) (ik : ℕ) :
    (SomeMode fs o e0 eN ls (guidedGrid o gvec ks (ks.getD ik 0)) →
      ∃ b, codeGuided norm fs o (slabStack e0 eN ls) gvec ks ik = .ok b) ∧
    (¬SomeMode fs o e0 eN ls (guidedGrid o gvec ks (ks.getD ik 0)) →
      codeGuided norm fs o (slabStack e0 eN ls) gvec ks ik = .error .runtimeError) := by
  unfold codeGuided
  generalize guidedGrid o gvec ks (ks.getD ik 0) = grid
  obtain ⟨ms1, a1, a2, a3⟩ := computeGuided_total norm fs o e0 eN ls hne .te grid
  obtain ⟨ms2, b1, b2, b3⟩ := computeGuided_total norm fs o e0 eN ls hne .tm grid
  let ms : Pol → List (List GMode) := fun pol => match pol with | .te => ms1 | .tm => ms2
  have c2 : ∀ pol, (ms pol).length ≤ grid.length := by rintro (_ | _) <;> assumption
  have c3 : ∀ pol, polInds o.inds pol ≠ [] → (ms pol).map (List.map Prod.fst) = freqsFound fs o e0 eN ls pol grid := by
    rintro (_ | _) <;> assumption
  have hlt : ∀ pol m, m < (reshapeList (ms pol)).length ↔ ∃ l ∈ ms pol, m < l.length := by
    intro pol m
    rw [← (C57_orders (ms pol) m).1]
    constructor
    · intro h; exact ⟨_, List.getElem?_eq_getElem h⟩
    · rintro ⟨om, h⟩
      by_contra hc
      rw [List.getElem?_eq_none (by omega)] at h
      cases h
  have hiff : ∀ m ∈ o.inds, ((∃ l ∈ ms (modePol m), m / 2 < l.length) ↔
      ∃ l ∈ freqsFound fs o e0 eN ls (modePol m) grid, m / 2 < l.length) := by
    intro m hm
    rw [← c3 (modePol m) (by
      refine List.ne_nil_of_mem (a := m) ?_
      unfold polInds
      rw [List.mem_filter]
      exact ⟨hm, by simp⟩)]
    simp
  have hfil : ∀ m, ((m % 2 = 0 ∧ m / 2 < (reshapeList ms1).length) ∨ (m % 2 = 1 ∧ m / 2 < (reshapeList ms2).length)) ↔
      m / 2 < (reshapeList (ms (modePol m))).length := by
    intro m
    unfold modePol
    rcases Nat.mod_two_eq_zero_or_one m with h | h <;> simp [h, ms]
  unfold basisOf
  rw [a1, b1]
  simp only [bind, Except.bind]
  constructor
  · rintro ⟨m, hm, hs⟩
    have hinc : ∃ inc, gmodeInclude o.inds (reshapeList ms1).length (reshapeList ms2).length = .ok inc ∧
        ∀ m ∈ inc, m / 2 < (reshapeList (ms (modePol m))).length := by
      unfold gmodeInclude
      simp only
      rw [if_neg]
      · refine ⟨_, rfl, fun m' hm' => ?_⟩
        rw [List.mem_filter] at hm'
        exact (hfil m').1 (by simpa using hm'.2)
      · refine List.ne_nil_of_mem (a := m) (List.mem_filter.2 ⟨hm, ?_⟩)
        have := (hfil m).2 ((hlt _ _).2 ((hiff m hm).2 hs))
        simpa using this
    obtain ⟨inc, h1, h2⟩ := hinc
    rw [h1]
    simp only
    obtain ⟨r, hr⟩ := mapM_each_ok (l := List.range inc.length) (f := fun (n : ℕ) =>
      guidedBlock (N := gvec.length) (slabStack e0 eN ls) grid (fun i => radPlane o.deltaGx (ks.getD ik 0) gvec[i])
        (reshapeList (ms (modePol (inc.getD n 0)))) n (inc.getD n 0)) (by
      intro n hn
      rw [List.mem_range] at hn
      have hmem : inc.getD n 0 ∈ inc := by rw [getD_of_len hn]; exact List.getElem_mem _
      have h3 := h2 _ hmem
      unfold guidedBlock
      rw [List.getElem?_eq_getElem h3]
      simp only
      have h4 := (C57_orders (ms (modePol (inc.getD n 0))) (inc.getD n 0 / 2)).2 _ (List.getElem?_eq_getElem h3)
      obtain ⟨l, hl, hl'⟩ := (hlt _ _).1 h3
      have h5 : 0 < (reshapeList (ms (modePol (inc.getD n 0))))[inc.getD n 0 / 2].length := by
        rw [h4.2]
        exact List.length_pos_of_mem (a := l) (List.mem_filter.2 ⟨hl, by simpa using hl'⟩)
      have h6 : (reshapeList (ms (modePol (inc.getD n 0))))[inc.getD n 0 / 2].length ≤ grid.length := by
        rw [h4.2]
        exact (List.length_filter_le _ _).trans (c2 _)
      have h7 : gsOf grid (reshapeList (ms (modePol (inc.getD n 0))))[inc.getD n 0 / 2] ≠ [] := by
        unfold gsOf
        rw [if_neg (by omega)]
        intro h
        have := congrArg List.length h
        rw [List.length_drop, List.length_nil] at this
        omega
      obtain ⟨x, xs, hx⟩ := List.exists_cons_of_ne_nil h7
      rw [hx]
      exact ⟨_, rfl⟩)
    have hcongr : (fun (n : ℕ) => guidedBlock (N := gvec.length) (slabStack e0 eN ls) grid
        (fun i => radPlane o.deltaGx (ks.getD ik 0) gvec[i])
        (match modePol (inc.getD n 0) with | .te => reshapeList ms1 | .tm => reshapeList ms2) n (inc.getD n 0)) =
        fun (n : ℕ) => guidedBlock (N := gvec.length) (slabStack e0 eN ls) grid
          (fun i => radPlane o.deltaGx (ks.getD ik 0) gvec[i])
          (reshapeList (ms (modePol (inc.getD n 0)))) n (inc.getD n 0) := by
      funext n
      cases modePol (inc.getD n 0) <;> rfl
    refine ⟨r.flatten, ?_⟩
    rw [← hcongr] at hr
    erw [hr]
  · intro hno
    have hinc : gmodeInclude o.inds (reshapeList ms1).length (reshapeList ms2).length = .error .runtimeError := by
      unfold gmodeInclude
      simp only
      rw [if_pos]
      rw [List.filter_eq_nil_iff]
      intro m hm h
      refine hno ⟨m, hm, (hiff m hm).1 ((hlt _ _).1 ((hfil m).1 (by simpa using h)))⟩
    rw [hinc]

/-! ### Opposite wave vectors -/

theorem waveLengths_opposite (o : GuidedOpts) (S : GmeStruct) (gmax : ℝ) (k : R2) :
    (waveLengths o (S.gvec gmax) (oppositeK o.deltaGx k)).Perm (waveLengths o (S.gvec gmax) k) := by
  obtain ⟨ν, -, hν⟩ := neg_perm S gmax
  have hw : ∀ k, waveLengths o (S.gvec gmax) k = (List.finRange (S.gvec gmax).length).map fun i =>
      planeAbs (radPlane o.deltaGx k (S.gvec gmax)[i]) := by
    intro k
    unfold waveLengths
    exact List.ext_getElem (by simp) fun i h1 h2 => by simp
  rw [hw, hw]
  refine ((Equiv.Perm.map_finRange_perm ν).symm.map _).trans (List.Perm.of_eq ?_)
  rw [List.map_map]
  refine List.map_congr_left fun i _ => ?_
  simp only [Function.comp_apply, hν, planeAbs_eq, oppositeK, Prod.fst_neg, Prod.snd_neg]
  rw [show -(S.gvec gmax)[i].1 + (-k.1 - 2 * o.deltaGx + o.deltaGx) = -((S.gvec gmax)[i].1 + (k.1 + o.deltaGx)) by ring,
    show -(S.gvec gmax)[i].2 + -k.2 = -((S.gvec gmax)[i].2 + k.2) by ring, neg_sq, neg_sq]

theorem sort_perm {l l' : List ℝ} (h : l.Perm l') : l.insertionSort (· ≤ ·) = l'.insertionSort (· ≤ ·) :=
  List.Perm.eq_of_pairwise' (List.pairwise_insertionSort _ _) (List.pairwise_insertionSort _ _)
    (((List.perm_insertionSort _ _).trans h).trans (List.perm_insertionSort _ _).symm)

theorem branchGuided_congr {br br' : List (Pol × (ℝ → Option ℝ))} (o : GuidedOpts) (e0 eN : ℝ) (ls : List (ℝ × ℝ))
    (stack : List (LPos × ℝ)) (gvec ks : List R2) (ik : ℕ)
    (h : List.Forall₂ (fun p q => p.1 = q.1 ∧ ∀ g ∈ waveLengths o gvec (ks.getD ik 0), p.2 g = q.2 g) br br') :
    branchGuided br o.deltaGx e0 eN ls stack gvec ks ik = branchGuided br' o.deltaGx e0 eN ls stack gvec ks ik := by
  unfold branchGuided
  rw [h.length_eq]
  congr 1
  refine List.flatMap_congr fun n hn => ?_
  rw [List.mem_range] at hn
  have hn' : n < br.length := by rw [h.length_eq]; exact hn
  obtain ⟨h1, h2⟩ := (List.forall₂_iff_get.1 h).2 n hn' hn
  rw [getD_of_len hn', getD_of_len hn]
  simp only [List.get_eq_getElem] at h1 h2
  rw [h1]
  refine List.filterMap_congr fun i _ => ?_
  rw [h2 _ (by rw [← planeAbs_eq]; exact List.mem_map_of_mem (List.getElem_mem _))]

theorem forall2_filter_map {α β γ : Type} {p q : α → Prop} [DecidablePred p] [DecidablePred q] {f : α → β} {g : α → γ}
    {R : β → γ → Prop} : ∀ (l : List α), (∀ m ∈ l, p m ↔ q m) → (∀ m ∈ l, R (f m) (g m)) →
    List.Forall₂ R ((l.filter fun m => decide (p m)).map f) ((l.filter fun m => decide (q m)).map g)
  | [], _, _ => .nil
  | m :: l, h, hR => by
    have ih := forall2_filter_map l (fun m hm => h m (List.mem_cons_of_mem _ hm)) fun m hm => hR m (List.mem_cons_of_mem _ hm)
    have h1 := h m List.mem_cons_self
    by_cases hp : p m
    · rw [List.filter_cons_of_pos (by simpa using hp), List.filter_cons_of_pos (by simpa using h1.1 hp)]
      exact .cons (hR m List.mem_cons_self) ih
    · rw [List.filter_cons_of_neg (by simpa using hp), List.filter_cons_of_neg (by simpa using fun h => hp (h1.2 h))]
      exact ih

/-- The bases which the code finds at opposite wave vectors. -/
theorem code_opposite (fs : Finder) (o : GuidedOpts) (S : GmeStruct) (gmax : ℝ) (e0 eN : ℝ) (ls : List (ℝ × ℝ)) (hne : ls ≠ [])
    (h0 : 0 < e0) (hN : 0 < eN) (hl : ∀ l ∈ ls, 0 < l.1) (hfs : RootFinder fs e0 eN ls) (ho : ExactOpts o) (ks : List R2)
    (hsep : ∀ k ∈ ks, SeparateWaves fs o e0 eN ls (waveLengths o (S.gvec gmax) k)) (ik : ℕ) (hik : ik < ks.length) :
    (∃ e, codeGuided normExact fs o (slabStack e0 eN ls) (S.gvec gmax) ks ik = .error e ∧
      codeGuided normExact fs o (slabStack e0 eN ls) (S.gvec gmax) (ks.map (oppositeK o.deltaGx)) ik = .error e) ∨
    ∃ b b', codeGuided normExact fs o (slabStack e0 eN ls) (S.gvec gmax) ks ik = .ok b ∧
      codeGuided normExact fs o (slabStack e0 eN ls) (S.gvec gmax) (ks.map (oppositeK o.deltaGx)) ik = .ok b' ∧
      SlabGuided e0 eN ls (S.gvec gmax) (ks[ik] + (o.deltaGx, 0)) b ∧
      SlabGuided e0 eN ls (S.gvec gmax) (oppositeK o.deltaGx ks[ik] + (o.deltaGx, 0)) b' ∧
      OppositeModes (S.gvec gmax) b b' := by
  have hkd : ks.getD ik 0 = ks[ik] := getD_of_len hik
  have hkd' : (ks.map (oppositeK o.deltaGx)).getD ik 0 = oppositeK o.deltaGx ks[ik] := by
    rw [getD_of_len (by simpa using hik), List.getElem_map]
  have hperm := waveLengths_opposite o S gmax ks[ik]
  have hsort := sort_perm hperm
  have hse := hsep ks[ik] (List.getElem_mem _)
  have hse' : SeparateWaves fs o e0 eN ls (waveLengths o (S.gvec gmax) (oppositeK o.deltaGx ks[ik])) := by
    refine ⟨fun x hx => hse.min x (hperm.mem_iff.1 hx), fun x hx y hy => hse.sep x (hperm.mem_iff.1 hx) y
      (hperm.mem_iff.1 hy), fun pol hp => ?_⟩
    rw [hsort]
    exact hse.count pol hp
  have hgr : ∀ (ks : List R2) k, guidedGrid o (S.gvec gmax) ks k =
      (waveLengths o (S.gvec gmax) k).insertionSort (· ≤ ·) := by
    intro ks k
    unfold guidedGrid
    rw [ho.exact, if_pos rfl, ho.gabs, gridExact_zero]
    rfl
  have out := C118_outcome normExact fs o e0 eN ls hne (S.gvec gmax) ks ik
  have out' := C118_outcome normExact fs o e0 eN ls hne (S.gvec gmax) (ks.map (oppositeK o.deltaGx)) ik
  rw [hgr, hkd] at out
  rw [hgr, hkd', hsort] at out'
  by_cases hsm : SomeMode fs o e0 eN ls ((waveLengths o (S.gvec gmax) ks[ik]).insertionSort (· ≤ ·))
  · right
    obtain ⟨b, hb⟩ := out.1 hsm
    obtain ⟨b', hb'⟩ := out'.1 hsm
    obtain ⟨F, hF, hbr⟩ := C118_basis fs o e0 eN ls hne h0 hN hl hfs ho _ ks ik (by rw [hkd]; exact hse) b hb
    obtain ⟨F', hF', hbr'⟩ := C118_basis fs o e0 eN ls hne h0 hN hl hfs ho _ (ks.map (oppositeK o.deltaGx)) ik
      (by rw [hkd']; exact hse') b' hb'
    have s1 := (C118_slab fs o e0 eN ls hne h0 hN hl hfs ho _ ks ik (by rw [hkd]; exact hse) b hb).2
    have s2 := (C118_slab fs o e0 eN ls hne h0 hN hl hfs ho _ (ks.map (oppositeK o.deltaGx)) ik
      (by rw [hkd']; exact hse') b' hb').2
    rw [hkd] at hF hbr s1
    rw [hkd'] at hF' hbr' s2
    refine ⟨b, b', hb, hb', s1, s2, ?_⟩
    refine branch_opposite (foundBranches o.inds (waveLengths o (S.gvec gmax) ks[ik]) F) o.deltaGx e0 eN ls
      (slabStack e0 eN ls) S gmax ks ik hik b b' hbr ?_
    rw [← hbr']
    refine branchGuided_congr o e0 eN ls _ _ _ _ ?_
    rw [hkd']
    have hFF : ∀ m ∈ o.inds, ∀ g ∈ waveLengths o (S.gvec gmax) ks[ik], F (modePol m) g = F' (modePol m) g := by
      intro m hm g hg
      have hp : polInds o.inds (modePol m) ≠ [] :=
        List.ne_nil_of_mem (a := m) (List.mem_filter.2 ⟨hm, by simp⟩)
      have h1 := hF.found _ hp
      have h2 := hF'.found _ hp
      rw [hsort, ← h1] at h2
      exact ((List.map_inj_left.1 h2) g ((List.perm_insertionSort _ _).mem_iff.2 hg)).symm
    unfold foundBranches
    refine forall2_filter_map _ (fun m hm => ?_) fun m hm => ⟨rfl, fun g hg => ?_⟩
    · constructor
      · rintro ⟨g, hg, h⟩
        exact ⟨g, hperm.mem_iff.2 hg, by rw [← hFF m hm g hg]; exact h⟩
      · rintro ⟨g, hg, h⟩
        have hg' := hperm.mem_iff.1 hg
        exact ⟨g, hg', by rw [hFF m hm g hg']; exact h⟩
    · simp only [hFF m hm g (hperm.mem_iff.1 hg)]
  · left
    exact ⟨_, out.2 hsm, out'.2 hsm⟩

/-- **C118 (opposite wave vectors).** With the guided modes that the code finds the frequencies at opposite wave vectors are
the same, whatever the pattern, errors included. -/
theorem C118_reversal (argsort : List ℝ → List ℕ) (eigh : ∀ n, Matrix (Fin n) (Fin n) ℂ → Fin n → ℝ)
    (he : SortedEigh eigh) (fs : Finder) (o : GuidedOpts) (S : GmeStruct)
    (hdet : S.b1.1 * S.b2.2 - S.b1.2 * S.b2.1 ≠ 0) (gmax : ℝ) (onlyG : Bool) (opt : String)
    (hr : ∀ l ∈ S.layers, ∀ s ∈ l.shapes, RealShape s) (e0 eN : ℝ) (ls : List (ℝ × ℝ)) (hne : ls ≠ []) (h0 : 0 < e0)
    (hN : 0 < eN) (hl : ∀ l ∈ ls, 0 < l.1) (hfs : RootFinder fs e0 eN ls) (ho : ExactOpts o)
    (hst : ∀ eff, S.layers.mapM (GmeLay.eff opt) = .ok eff →
      (S.layers.map GmeLay.pos).zip eff = slabStack e0 eN ls) (ks : List R2)
    (hsep : ∀ k ∈ ks, SeparateWaves fs o e0 eN ls (waveLengths o (S.gvec gmax) k)) (sigma : ℝ) (numeig : ℕ) :
    gmeSimIj ijExact argsort eigh (codeGuided normExact fs o) S gmax onlyG opt (ks.map (oppositeK o.deltaGx)) sigma numeig =
      gmeSimIj ijExact argsort eigh (codeGuided normExact fs o) S gmax onlyG opt ks sigma numeig := by
  refine C108_reversal argsort eigh he _ S hdet gmax onlyG opt hr e0 eN ls hne h0.ne' hN.ne' (fun l h => (hl l h).ne') hst ks
    o.deltaGx (code_opposite fs o S gmax e0 eN ls hne h0 hN hl hfs ho ks hsep) sigma numeig

/-! ### Root finders, and an example -/

theorem te_disp (om g e1 e2 e3 d : ℝ) : (d22 .te om g [e1, e2, e3] [d]).re =
    √(-g ^ 2 + e2 * om ^ 2) * (√(g ^ 2 - e1 * om ^ 2) + √(g ^ 2 - e3 * om ^ 2)) * Real.cos (√(-g ^ 2 + e2 * om ^ 2) * d) -
      (√(-g ^ 2 + e2 * om ^ 2) ^ 2 - √(g ^ 2 - e1 * om ^ 2) * √(g ^ 2 - e3 * om ^ 2)) *
        Real.sin (√(-g ^ 2 + e2 * om ^ 2) * d) := by
  change (d22Three .te om g e1 e2 e3 d).re = _
  simp only [d22Three, chis3]
  generalize √(-g ^ 2 + e2 * om ^ 2) = b
  generalize √(g ^ 2 - e1 * om ^ 2) = a
  generalize √(g ^ 2 - e3 * om ^ 2) = c
  rw [← Complex.ofReal_mul, ← Complex.ofReal_cos, ← Complex.ofReal_sin]
  generalize Real.cos (b * d) = C
  generalize Real.sin (b * d) = D
  have : (b : ℂ) * (Complex.I * a + Complex.I * c) * (-Complex.I * C) + (Complex.I * a * (Complex.I * c) + b ^ 2) * -(D : ℂ) =
      ((b * (a + c) * C - (b ^ 2 - a * c) * D : ℝ) : ℂ) := by
    push_cast
    linear_combination (-(b : ℂ) * (a + c) * C - a * c * D) * Complex.I_sq
  rw [this, Complex.ofReal_re]

theorem disp_continuous (pol : Pol) (g e1 e2 e3 d : ℝ) : Continuous fun om : ℝ => (d22 pol om g [e1, e2, e3] [d]).re := by
  refine Complex.continuous_re.comp ?_
  change Continuous fun om : ℝ => d22Three pol om g e1 e2 e3 d
  cases pol <;> (simp only [d22Three, chis3]; fun_prop)

/-- **C118 (root finders exist).** For every slab with one layer there is a root finder as required. -/
theorem C118_finder (e0 eN : ℝ) (l : ℝ × ℝ) (hl : 0 < l.1) : ∃ fs, RootFinder fs e0 eN [l] := by
  have key : ∀ pol g x y, ∃ z, 0 < g → x < y → g / √l.1 ≤ x →
      (d22 pol x g [e0, l.1, eN] [l.2]).re * (d22 pol y g [e0, l.1, eN] [l.2]).re < 0 →
      x < z ∧ z ≤ y ∧ (d22 pol z g [e0, l.1, eN] [l.2]).re = 0 := by
    intro pol g x y
    by_cases h : 0 < g ∧ x < y ∧ g / √l.1 ≤ x ∧
      (d22 pol x g [e0, l.1, eN] [l.2]).re * (d22 pol y g [e0, l.1, eN] [l.2]).re < 0
    · obtain ⟨-, hxy, -, hs⟩ := h
      have hc := (disp_continuous pol g e0 l.1 eN l.2).continuousOn (s := Set.uIcc x y)
      have h0 : (0 : ℝ) ∈ Set.uIcc (d22 pol x g [e0, l.1, eN] [l.2]).re (d22 pol y g [e0, l.1, eN] [l.2]).re := by
        rw [Set.mem_uIcc]
        rcases mul_neg_iff.1 hs with ⟨h1, h2⟩ | ⟨h1, h2⟩
        · exact .inr ⟨h2.le, h1.le⟩
        · exact .inl ⟨h1.le, h2.le⟩
      obtain ⟨z, hz, hz0⟩ := intermediate_value_uIcc hc h0
      rw [Set.uIcc_of_le hxy.le] at hz
      refine ⟨z, fun _ _ _ _ => ⟨lt_of_le_of_ne hz.1 ?_, hz.2, hz0⟩⟩
      rintro rfl
      simp only at hz0
      rw [hz0, zero_mul] at hs
      exact lt_irrefl _ hs
    · exact ⟨0, fun h1 h2 h3 h4 => absurd ⟨h1, h2, h3, h4⟩ h⟩
  choose fs hfs using key
  refine ⟨fs, fun pol g x y hg hxy hlow hx0 hy hs => ?_⟩
  obtain ⟨_, hlm, hlx⟩ := hlow
  rw [List.mem_singleton.1 hlm] at hlx
  obtain ⟨h1, h2, h3⟩ := hfs pol g x y hg hxy hlx hs
  refine ⟨h1.le, h2, h3, ?_⟩
  intro l' hl'
  rw [List.mem_singleton.1 hl']
  have h4 : g < fs pol g x y * √l.1 := by
    rw [div_le_iff₀ (Real.sqrt_pos.2 hl)] at hlx
    exact hlx.trans_lt (mul_lt_mul_of_pos_right h1 (Real.sqrt_pos.2 hl))
  have h5 : g ^ 2 < (fs pol g x y * √l.1) ^ 2 := by gcongr
  rw [mul_pow, Real.sq_sqrt hl.le] at h5
  intro h
  rw [mul_comm, h] at h5
  exact lt_irrefl _ h5

/-- The lowest TE mode, with a coarse search. -/
noncomputable def asymOpts : GuidedOpts := ⟨[0], true, 1, 1 / 20, 0, 0, 0⟩

theorem asymOpts_exact : ExactOpts asymOpts :=
  ⟨rfl, rfl, one_pos, by norm_num [asymOpts], by norm_num [asymOpts], by simp [asymOpts]⟩

theorem asym_sign_low : 0 < (d22 .te (2 / √5 * (1 + 1 / 20)) 2 [3, 5, 1] [7 * Real.pi / 12]).re := by
  have hx : (2 / √5 * (1 + 1 / 20) : ℝ) ^ 2 = 0.882 := by
    rw [mul_pow, div_pow, Real.sq_sqrt (by norm_num)]; norm_num
  rw [te_disp, hx]
  norm_num only
  have hp := Real.pi_pos
  have b0 : 0 < √(41 / 100 : ℝ) := by positivity
  have b1 : √(41 / 100 : ℝ) ≤ 6 / 7 := by rw [Real.sqrt_le_left (by norm_num)]; norm_num
  have hang : √(41 / 100 : ℝ) * (7 * Real.pi / 12) ≤ Real.pi / 2 := by nlinarith
  have hang0 : 0 < √(41 / 100 : ℝ) * (7 * Real.pi / 12) := by positivity
  have hc : 0 ≤ Real.cos (√(41 / 100 : ℝ) * (7 * Real.pi / 12)) :=
    Real.cos_nonneg_of_neg_pi_div_two_le_of_le (by linarith) hang
  have hs : 0 < Real.sin (√(41 / 100 : ℝ) * (7 * Real.pi / 12)) := Real.sin_pos_of_pos_of_lt_pi hang0 (by linarith)
  have hb2 : √(41 / 100 : ℝ) ^ 2 = 41 / 100 := Real.sq_sqrt (by norm_num)
  have ha : 1 ≤ √(677 / 500 : ℝ) := Real.one_le_sqrt.2 (by norm_num)
  have hcc : 1 ≤ √(1559 / 500 : ℝ) := Real.one_le_sqrt.2 (by norm_num)
  rw [hb2]
  have h1 : 0 ≤ √(41 / 100 : ℝ) * (√(677 / 500) + √(1559 / 500)) * Real.cos (√(41 / 100 : ℝ) * (7 * Real.pi / 12)) := by
    positivity
  have h2 : (41 / 100 - √(677 / 500 : ℝ) * √(1559 / 500)) < 0 := by nlinarith
  nlinarith

theorem asym_sign_high : (d22 .te (2 / √3 * (1 - 1 / 20)) 2 [3, 5, 1] [7 * Real.pi / 12]).re < 0 := by
  have hx : (2 / √3 * (1 - 1 / 20) : ℝ) ^ 2 = 361 / 300 := by
    rw [mul_pow, div_pow, Real.sq_sqrt (by norm_num)]; norm_num
  rw [te_disp, hx]
  norm_num only
  have hp := Real.pi_pos
  have b1 : 6 / 7 ≤ √(121 / 60 : ℝ) := by rw [Real.le_sqrt' (by norm_num)]; norm_num
  have b2 : √(121 / 60 : ℝ) < 12 / 7 := by rw [Real.sqrt_lt' (by norm_num)]; norm_num
  have hang : Real.pi / 2 ≤ √(121 / 60 : ℝ) * (7 * Real.pi / 12) := by nlinarith
  have hang1 : √(121 / 60 : ℝ) * (7 * Real.pi / 12) < Real.pi := by nlinarith
  have hc : Real.cos (√(121 / 60 : ℝ) * (7 * Real.pi / 12)) ≤ 0 :=
    Real.cos_nonpos_of_pi_div_two_le_of_le hang (by linarith)
  have hs : 0 < Real.sin (√(121 / 60 : ℝ) * (7 * Real.pi / 12)) := Real.sin_pos_of_pos_of_lt_pi (by linarith) hang1
  have hb2 : √(121 / 60 : ℝ) ^ 2 = 121 / 60 := Real.sq_sqrt (by norm_num)
  have ha : √(39 / 100 : ℝ) ≤ 1 := by rw [Real.sqrt_le_left (by norm_num)]; norm_num
  have hcc : √(839 / 300 : ℝ) ≤ 2 := by rw [Real.sqrt_le_left (by norm_num)]; norm_num
  have ha0 : 0 ≤ √(39 / 100 : ℝ) := Real.sqrt_nonneg _
  have hc0 : 0 ≤ √(839 / 300 : ℝ) := Real.sqrt_nonneg _
  rw [hb2]
  have h1 : √(121 / 60 : ℝ) * (√(39 / 100) + √(839 / 300)) * Real.cos (√(121 / 60 : ℝ) * (7 * Real.pi / 12)) ≤ 0 :=
    mul_nonpos_of_nonneg_of_nonpos (by positivity) hc
  have h2 : 0 < 121 / 60 - √(39 / 100 : ℝ) * √(839 / 300) := by nlinarith
  nlinarith

/-- What the search finds at the wave vector 2. -/
theorem asym_found (f : ℝ → ℝ → ℝ) :
    guidedGivenG (fun om => (d22 .te om 2 [3, 5, 1] [7 * Real.pi / 12]).re) f 1 (2 / √5) (2 / √3) 1 (1 / 20) =
      [f (2 / √5 * (1 + 1 / 20)) (2 / √3 * (1 - 1 / 20))] := by
  have h5 : (2.2 : ℝ) < √5 := by rw [Real.lt_sqrt (by norm_num)]; norm_num
  have h5' : √5 < (2.3 : ℝ) := by rw [Real.sqrt_lt' (by norm_num)]; norm_num
  have h3 : (1.7 : ℝ) < √3 := by rw [Real.lt_sqrt (by norm_num)]; norm_num
  have h3' : √3 < (1.8 : ℝ) := by rw [Real.sqrt_lt' (by norm_num)]; norm_num
  have a1 : 2 / √5 < (0.95 : ℝ) := by rw [div_lt_iff₀ (by linarith)]; linarith
  have a2 : (0.86 : ℝ) < 2 / √5 := by rw [lt_div_iff₀ (by linarith)]; linarith
  have b1 : 2 / √3 < (1.2 : ℝ) := by rw [div_lt_iff₀ (by linarith)]; linarith
  have b2 : (1.1 : ℝ) < 2 / √3 := by rw [lt_div_iff₀ (by linarith)]; linarith
  have hceil : ⌈(2 / √3 * (1 - 1 / 20) - 2 / √5 * (1 + 1 / 20)) / 1⌉₊ = 1 := by
    rw [Nat.ceil_eq_iff (by norm_num)]
    constructor
    · push_cast; rw [div_one]; linarith
    · push_cast; rw [div_one]; linarith
  unfold guidedGivenG omegaGrid
  rw [hceil]
  simp only [List.range_one, List.map_cons, List.map_nil, Nat.cast_zero, zero_mul, add_zero, List.singleton_append, brackets]
  rw [if_pos (mul_neg_of_pos_of_neg asym_sign_low asym_sign_high)]
  rfl

theorem guidedModes_const (D : ℝ → ℝ → ℝ) (fs : ℝ → ℝ → ℝ → ℝ) (eps : List ℝ) (n : ℕ) (step tol g : ℝ) (oms : List ℝ) :
    ∀ k, guidedModes D fs eps n step tol (some (g, oms)) (List.replicate k g) = List.replicate k oms
  | 0 => rfl
  | k + 1 => by
    rw [List.replicate_succ, List.replicate_succ]
    have h : guidedStep D fs eps n step tol (some (g, oms)) g = oms := by
      unfold guidedStep
      simp only [sub_self, abs_zero]
      rw [if_neg (by norm_num)]
    simp only [guidedModes, h, guidedModes_const D fs eps n step tol g oms k]

theorem asym_freqs (fs : Finder) (k : ℕ) :
    freqsFound fs asymOpts 3 1 [(5, 7 * Real.pi / 12)] .te (List.replicate k 2) =
      List.replicate k [fs .te 2 (2 / √5 * (1 + 1 / 20)) (2 / √3 * (1 - 1 / 20))] := by
  cases k with
  | zero => rfl
  | succ k =>
    have hlb : omLb [3, 5, 1] 2 = 2 / √5 := by
      unfold omLb
      simp only [List.tail_cons, List.dropLast_cons_cons, List.dropLast_singleton, List.map_cons, List.map_nil, List.foldr_cons,
        List.foldr_nil]
      rw [max_eq_left (Real.sqrt_nonneg _), max_eq_left (by norm_num)]
    have hub : omUb [3, 5, 1] 2 = 2 / √3 := by
      unfold omUb
      simp only [List.headD_cons, List.getLastD_cons]
      rw [max_eq_left (by norm_num)]
      norm_num
    have hstep : guidedStep (fun g om => (d22 .te om g [3, 5, 1] [7 * Real.pi / 12]).re) (fs .te) [3, 5, 1] 1 1 (1 / 20) none 2 =
        [fs .te 2 (2 / √5 * (1 + 1 / 20)) (2 / √3 * (1 - 1 / 20))] := by
      unfold guidedStep
      simp only [if_true, hlb, hub]
      rw [max_eq_left (by norm_num)]
      exact asym_found _
    unfold freqsFound
    change guidedModes (fun g om => (d22 .te om g [3, 5, 1] [7 * Real.pi / 12]).re) (fs .te) [3, 5, 1] 1 1 (1 / 20) none
      (List.replicate (k + 1) 2) = _
    rw [List.replicate_succ, List.replicate_succ]
    simp only [guidedModes, hstep, guidedModes_const]

theorem asym_waves (fs : Finder) (gk : List ℝ) (h : ∀ g ∈ gk, g = 2) :
    SeparateWaves fs asymOpts 3 1 [(5, 7 * Real.pi / 12)] gk ∧
    (gk ≠ [] → SomeMode fs asymOpts 3 1 [(5, 7 * Real.pi / 12)] (gk.insertionSort (· ≤ ·))) := by
  obtain ⟨n, hn⟩ : ∃ n, gk.insertionSort (· ≤ ·) = List.replicate n 2 :=
    ⟨_, List.eq_replicate_of_mem fun b hb => h b ((List.perm_insertionSort _ _).mem_iff.1 hb)⟩
  refine ⟨⟨fun x hx => by rw [h x hx]; norm_num, fun x hx y hy hxy => absurd ((h x hx).trans (h y hy).symm) hxy, ?_⟩, ?_⟩
  · intro pol hp
    cases pol with
    | te =>
      rw [hn, asym_freqs, List.map_replicate, List.pairwise_replicate]
      exact .inr le_rfl
    | tm => exact absurd (by simp [polInds, asymOpts, modePol]) hp
  · intro hne
    refine ⟨0, by simp [asymOpts], ?_⟩
    rw [hn]
    change ∃ l ∈ freqsFound fs asymOpts 3 1 [(5, 7 * Real.pi / 12)] .te (List.replicate n 2), _
    rw [asym_freqs]
    refine ⟨_, List.mem_replicate.2 ⟨?_, rfl⟩, by simp⟩
    rintro rfl
    have := (List.perm_insertionSort (· ≤ ·) gk).length_eq
    rw [hn] at this
    exact hne (List.length_eq_zero_iff.1 (by simpa using this.symm))

/-- Four plane waves of length 2 around the centre of the zone: the basis is found and consists of guided modes of the slab. -/
example : ∃ fs b, codeGuided normExact fs asymOpts (slabStack 3 1 [(5, 7 * Real.pi / 12)])
      [(2, 0), (0, 2), (-2, 0), (0, -2)] [(0, 0)] 0 = .ok b ∧ DistinctModes b ∧
      SlabGuided 3 1 [(5, 7 * Real.pi / 12)] [(2, 0), (0, 2), (-2, 0), (0, -2)] (0, 0) b := by
  obtain ⟨fs, hfs⟩ := C118_finder 3 1 (5, 7 * Real.pi / 12) (by norm_num)
  have hw : ∀ g ∈ waveLengths asymOpts [(2, 0), (0, 2), (-2, 0), (0, -2)] ((0, 0) : R2), g = 2 := by
    have h2 : √(4 : ℝ) = 2 := by rw [show (4 : ℝ) = 2 ^ 2 by norm_num, Real.sqrt_sq (by norm_num)]
    intro g hg
    simp [waveLengths, planeAbs, radPlane, asymOpts] at hg
    norm_num at hg
    rcases hg with rfl | rfl | rfl | rfl <;> first | rfl | exact h2
  obtain ⟨h1, h2⟩ := asym_waves fs _ hw
  have hout := (C118_outcome normExact fs asymOpts 3 1 [(5, 7 * Real.pi / 12)] (by simp)
    [(2, 0), (0, 2), (-2, 0), (0, -2)] [(0, 0)] 0).1 (by
      unfold guidedGrid
      rw [if_pos (show asymOpts.exact = true from rfl), show asymOpts.deltaGabs = 0 from rfl, gridExact_zero]
      exact h2 (by simp [waveLengths]))
  obtain ⟨b, hb⟩ := hout
  have := C118_slab fs asymOpts 3 1 [(5, 7 * Real.pi / 12)] (by simp) (by norm_num) one_pos (by simp) hfs asymOpts_exact
    _ [(0, 0)] 0 h1 b hb
  refine ⟨fs, b, hb, this.1, ?_⟩
  have e : ([((0 : ℝ), (0 : ℝ))].getD 0 0 : R2) + (asymOpts.deltaGx, 0) = (0, 0) := by simp [asymOpts]
  rw [e] at this
  exact this.2

theorem asymPlain_gvec : asymPlain.gvec (1 / 2) = [(0, 0)] := by
  have hp := Real.pi_pos
  have hnd : (asymPlain.gvec (1 / 2)).Nodup := (C18_sound asymPlain.b1 asymPlain.b2 (1 / 2)).1 (by
    simp [asymPlain, hp.ne'])
  have hn : ∀ m n : ℤ, √((comb asymPlain.b1 asymPlain.b2 m n).1 ^ 2 + (comb asymPlain.b1 asymPlain.b2 m n).2 ^ 2) =
      2 * Real.pi * √((m : ℝ) ^ 2 + (n : ℝ) ^ 2) := by
    intro m n
    rw [← Real.sqrt_sq (show 0 ≤ 2 * Real.pi by positivity), ← Real.sqrt_mul (by positivity)]
    congr 1
    simp only [comb, asymPlain]
    ring
  have hz : ∀ m n : ℤ, √((m : ℝ) ^ 2 + (n : ℝ) ^ 2) < 1 → m = 0 ∧ n = 0 := by
    intro m n h
    rw [Real.sqrt_lt' one_pos, one_pow] at h
    have h' : m ^ 2 + n ^ 2 < 1 := by exact_mod_cast h
    constructor <;> nlinarith [sq_nonneg m, sq_nonneg n]
  have hmem : ∀ g, g ∈ asymPlain.gvec (1 / 2) ↔ g = (0, 0) := by
    intro g
    refine (C18_disc_partial asymPlain.b1 asymPlain.b2 (1 / 2) (by norm_num) (by simp [asymPlain, hp.ne']) ?_ ?_ g).trans ?_
    · simp only [asymPlain, mul_zero, zero_mul, sub_zero, ne_eq, OfNat.ofNat_ne_zero, not_false_eq_true, zero_pow, add_zero,
        zero_add]
      rw [Real.sqrt_sq (by positivity), abs_of_pos (by positivity)]
      nlinarith [mul_pos hp hp]
    · intro m n h
      rw [hn] at h
      have h1 : √((m : ℝ) ^ 2 + (n : ℝ) ^ 2) = 1 / 2 := by
        have : (2 * Real.pi) * √((m : ℝ) ^ 2 + (n : ℝ) ^ 2) = (2 * Real.pi) * (1 / 2) := by rw [h]; ring
        exact mul_left_cancel₀ (by positivity) this
      obtain ⟨rfl, rfl⟩ := hz m n (by rw [h1]; norm_num)
      norm_num at h1
    · constructor
      · rintro ⟨⟨m, n, rfl⟩, h⟩
        rw [hn] at h
        have h1 : √((m : ℝ) ^ 2 + (n : ℝ) ^ 2) ≤ 1 / 2 := le_of_mul_le_mul_left h (by positivity)
        obtain ⟨rfl, rfl⟩ := hz m n (by linarith)
        simp [comb]
      · rintro rfl
        exact ⟨⟨0, 0, by simp [comb]⟩, by simp; positivity⟩
  refine List.perm_singleton.1 ((List.perm_ext_iff_of_nodup hnd (by simp)).2 fun g => ?_)
  rw [hmem, List.mem_singleton]

/-- The frequencies of the asymmetric slab at a wave vector of length 2, and its losses. -/
example (argsort : List ℝ → List ℕ) (hs : ∀ l, IsArgsort l (argsort l)) : ∃ fs,
    (∀ (eigh : ∀ n, Matrix (Fin n) (Fin n) ℂ → Fin n → ℝ) (_ : GoodEigh eigh) (r : List KRes),
      gmeSimIj ijExact argsort eigh (codeGuided normExact fs asymOpts) asymPlain (1 / 2) false "average" [(0, 2)] 0 1 = .ok r →
      ∃ a om abs, r = [a] ∧ SlabRoot .te om 2 3 1 [(5, 7 * Real.pi / 12)] abs ∧ a.freq = [om / (2 * Real.pi)]) ∧
    ∀ (eigh : ∀ n, Matrix (Fin n) (Fin n) ℂ → Fin n → ℝ) (vecs : ∀ n, Matrix (Fin n) (Fin n) ℂ → Matrix (Fin n) (Fin n) ℂ)
      (_ : EighPair eigh vecs) (r : List (KRes × List RadRes)),
      radSimIj ijExact 0 argsort eigh vecs (codeGuided normExact fs asymOpts) asymPlain (1 / 2) false "average" [(0, 2)] 0 1 =
        .ok r → ∀ x ∈ r, ∀ a ∈ x.2, ∀ l, a.loss = some l → l = ⟨0, 0, 0⟩ := by
  obtain ⟨fs, hfs⟩ := C118_finder 3 1 (5, 7 * Real.pi / 12) (by norm_num)
  have h2 : √((2 : ℝ) ^ 2) = 2 := Real.sqrt_sq (by norm_num)
  have hw : waveLengths asymOpts (asymPlain.gvec (1 / 2)) (0, 2) = [2] := by
    rw [asymPlain_gvec]
    simp [waveLengths, planeAbs, radPlane, asymOpts, h2]
  have hsep : ∀ k ∈ [((0, 2) : R2)], SeparateWaves fs asymOpts 3 1 [(5, 7 * Real.pi / 12)]
      (waveLengths asymOpts (asymPlain.gvec (1 / 2)) k) := by
    intro k hk
    rw [List.mem_singleton.1 hk, hw]
    exact (asym_waves fs [2] (by simp)).1
  have hsh : ∀ l ∈ asymPlain.layers, l.shapes = [] := by
    intro l hl
    simp only [asymPlain, List.mem_cons, List.not_mem_nil, or_false] at hl
    rcases hl with rfl | rfl | rfl <;> rfl
  have hst : (asymPlain.layers.map GmeLay.pos).zip (asymPlain.layers.map GmeLay.epsAvg) =
      slabStack 3 1 [(5, 7 * Real.pi / 12)] := rfl
  refine ⟨fs, fun eigh he r hr => ?_, fun eigh vecs hp r hr x hx a ha => ?_⟩
  · have := C118_plain argsort hs eigh he fs asymOpts asymPlain resolved_square hsh (1 / 2) false 3 1 [(5, 7 * Real.pi / 12)]
      (by simp) (by norm_num) one_pos (by simp) (by simp; positivity) hfs asymOpts_exact hst [(0, 2)] hsep 1 r hr
    cases this with
    | cons h t =>
      cases t
      rename_i a
      obtain ⟨F, hF, c, -, hc, hfreq⟩ := h
      rw [hw] at hF hc
      have hf := hF.found .te (by simp [polInds, asymOpts, modePol])
      have hrep : [(2 : ℝ)].insertionSort (· ≤ ·) = List.replicate 1 2 := by simp
      rw [hrep, asym_freqs] at hf
      simp only [List.replicate_one, List.map_cons, List.map_nil, List.cons.injEq, and_true] at hf
      have hfF : foundFreqs asymOpts [2] F = [fs .te 2 (2 / √5 * (1 + 1 / 20)) (2 / √3 * (1 - 1 / 20)) / (2 * Real.pi)] := by
        unfold foundFreqs foundBranches
        simp [asymOpts, modePol, hf]
      rw [hfF, List.perm_singleton] at hc
      obtain ⟨abs, habs⟩ := hF.modes .te 2 _ (by rw [hf]; exact List.mem_singleton_self _)
      exact ⟨a, _, abs, rfl, habs, by rw [hfreq, hc]; rfl⟩
  · exact (C118_lossless argsort eigh vecs hp fs asymOpts asymPlain resolved_square hsh (1 / 2) false 3 1
      [(5, 7 * Real.pi / 12)] (by simp) (by norm_num) one_pos (by simp) (by simp; positivity) hfs asymOpts_exact hst [(0, 2)]
      hsep 0 1 r hr x hx a ha).2

end Legume
