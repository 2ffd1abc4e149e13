import Verif.Props.KzTbtSym

/-!
# Which runs with `kz_symmetry` and parallelogram truncation return (C163)
-/
namespace Legume

open Spec Matrix
open scoped ComplexConjugate

/-- **C163.** When the crystal has the mirror symmetry, all modes of `gmode_inds` exist and at every wave vector some
used plane wave lies off the mirror plane, runs with `kz_symmetry` fail only for the number of modes: at every wave
vector the basis consists of `e > 0` even and `d > 0` odd states, and the runs without symmetry, with `'even'` and with
`'odd'` return exactly when at most `e + d`, `e` and `d` modes are asked for. A run with `'both'` returns if moreover
nowhere the odd states outnumber the even ones; whenever it returns, at most `e + d` were asked for. -/
theorem C163_accepts (argsort : List ℝ → List ℕ) (hs : ∀ l, IsArgsort l (argsort l))
    (eigh : ∀ n, Matrix (Fin n) (Fin n) ℂ → Fin n → ℝ) (he : GoodEigh eigh) (norm : NormFn) (fs : Finder) (o : GuidedOpts)
    (sparse : Bool) (thr : ℝ) (hthr : 0 ≤ thr) (t : LatType) (angles : List ℝ) (S : GmeStruct) (gmax : ℝ)
    (opt : String) (ks : List R2) (sigma : ℝ) (ha : angles ≠ []) (hmat : ∃ m, reflMat t angles = .ok m)
    (hlen : ks.length ≤ angles.length)
    (hm : ∀ (ik : ℕ) theta, ik < ks.length → angles[ik]? = some theta →
      OnMirrorT theta gmax o.deltaGx S (ks.getD ik 0))
    (hoff : ∀ eff (ik : ℕ) theta blocks, S.layers.mapM (GmeLay.eff opt) = .ok eff → ik < ks.length →
      angles[ik]? = some theta → codeBlocks norm fs o ((S.layers.map GmeLay.pos).zip eff)
        (guidedGrid o (S.gvecT gmax) ks (ks.getD ik 0))
        (fun i => radPlane o.deltaGx (ks.getD ik 0) (S.gvecT gmax)[i]) = .ok blocks →
      o.inds.length ≤ blocks.length ∧
        ∃ s ∈ blocks.flatten, mirrorVec theta (S.gvecT gmax)[s.ig] ≠ (S.gvecT gmax)[s.ig])
    (h0 : ∃ rs, gmeSimTbtIj ijExact argsort eigh (codeGuided norm fs o) S gmax false opt ks sigma 0 = .ok rs) :
    ∃ e d : ℕ → ℕ, (∀ ik < ks.length, 0 < e ik ∧ 0 < d ik) ∧ ∀ numeig,
      ((∃ rs, gmeSimTbtIj ijExact argsort eigh (codeGuided norm fs o) S gmax false opt ks sigma numeig = .ok rs) ↔
        ∀ ik < ks.length, numeig ≤ e ik + d ik) ∧
      ((∃ rs, gmeSimKzTbt ijExact argsort eigh norm fs o .even sparse thr t angles S gmax false opt ks sigma numeig = .ok rs) ↔
        ∀ ik < ks.length, numeig ≤ e ik) ∧
      ((∃ rs, gmeSimKzTbt ijExact argsort eigh norm fs o .odd sparse thr t angles S gmax false opt ks sigma numeig = .ok rs) ↔
        ∀ ik < ks.length, numeig ≤ d ik) ∧
      ((∃ rs, gmeSimKzTbt ijExact argsort eigh norm fs o .both sparse thr t angles S gmax false opt ks sigma numeig = .ok rs) →
        ∀ ik < ks.length, numeig ≤ e ik + d ik) ∧
      ((∀ ik < ks.length, numeig ≤ e ik + d ik ∧ d ik ≤ e ik) → ∃ rs,
        gmeSimKzTbt ijExact argsort eigh norm fs o .both sparse thr t angles S gmax false opt ks sigma numeig = .ok rs) := by
  obtain ⟨m, hmat⟩ := hmat
  obtain ⟨rs0, h0⟩ := h0
  have h0' := h0
  rw [tbt_run] at h0'
  obtain ⟨eff, heff, h0'⟩ := bind_ok h0'
  obtain ⟨Es, hEs, h0'⟩ := bind_ok h0'
  clear h0'
  have hrl : rs0.length = ks.length := by
    unfold gmeSimTbtIj at h0
    simp only [heff, hEs, bind, Except.bind] at h0
    rw [← (mapM_ok_forall h0).length_eq, List.length_range]
  have hpt : ∀ ik : ℕ, ∃ (blocks : List (List (BasisEl (S.gvecT gmax).length))) (s : Separated), ik < ks.length →
      codeBlocks norm fs o ((S.layers.map GmeLay.pos).zip eff) (guidedGrid o (S.gvecT gmax) ks (ks.getD ik 0))
        (fun i => radPlane o.deltaGx (ks.getD ik 0) (S.gvecT gmax)[i]) = .ok blocks ∧
      s.even + s.odd = blocks.flatten.length ∧ 0 < s.even ∧ 0 < s.odd ∧
      ∀ kz numeig, (fun blocks => kzPoint ijExact argsort eigh kz sparse thr angles[ik]? o.inds (S.gvecT gmax)
          ((S.layers.map GmeLay.pos).zip eff) Es blocks sigma numeig) blocks =
        if blocks.flatten.length < numeig then .error .valueError
        else solveKz argsort eigh kz blocks.flatten.length s sigma numeig := by
    intro ik
    by_cases hik : ik < ks.length
    · obtain ⟨-, basis, hb, -⟩ := gmeSimTbtIj_points heff hEs h0 ik _
        (List.getElem?_eq_getElem (l := rs0) (i := ik) (by rw [hrl]; exact hik))
      obtain ⟨blocks, hb1, -⟩ := basisOf_blocks norm fs o _ _ _ basis hb
      have hth : angles[ik]? = some angles[ik] := List.getElem?_eq_getElem (by omega)
      obtain ⟨hl, ho⟩ := hoff eff ik _ blocks heff hik hth hb1
      have hset := (hm ik _ hik hth).setup hEs hb1 hl
      obtain ⟨s, hsep⟩ := hset.accepts ((S.layers.map GmeLay.pos).zip eff) sparse thr hthr ho
      obtain ⟨e1, e2, e3, -⟩ := hset.eigs he _ sparse thr s hsep
      refine ⟨blocks, s, fun _ => ⟨hb1, e1, e2, e3, ?_⟩⟩
      intro kz numeig
      simp only [kzPoint]
      rw [hth]
      simp only [hsep]
    · exact ⟨[], ⟨0, 0, fun _ _ => 0, fun _ _ => 0⟩, fun h => absurd h hik⟩
  choose blocks s hbs using hpt
  refine ⟨fun ik => (s ik).even, fun ik => (s ik).odd, fun ik hik => ⟨(hbs ik hik).2.2.1, (hbs ik hik).2.2.2.1⟩, ?_⟩
  have hkz : ∀ kz numeig,
      (∃ rs, gmeSimKzTbt ijExact argsort eigh norm fs o kz sparse thr t angles S gmax false opt ks sigma numeig = .ok rs) ↔
      ∀ ik < ks.length, ∃ r, (if (blocks ik).flatten.length < numeig then Except.error PyErr.valueError
        else solveKz argsort eigh kz (blocks ik).flatten.length (s ik) sigma numeig) = .ok r := by
    intro kz numeig
    unfold gmeSimKzTbt
    rw [if_neg ha]
    simp only [hmat, heff, hEs, bind, Except.bind, Bool.false_eq_true, if_false]
    rw [mapM_range_ok_iff]
    refine forall_congr' fun ik => forall_congr' fun hik => ?_
    obtain ⟨b1, -, -, -, b5⟩ := hbs ik hik
    rw [b1]
    simp only
    rw [← b5 kz numeig]
  intro numeig
  refine ⟨?_, ?_, ?_, ?_, ?_⟩
  · rw [tbt_run]
    simp only [heff, hEs, bind, Except.bind]
    rw [mapM_range_ok_iff]
    refine forall_congr' fun ik => forall_congr' fun hik => ?_
    obtain ⟨b1, b2, -, -, -⟩ := hbs ik hik
    have hbas : codeGuided norm fs o ((S.layers.map GmeLay.pos).zip eff) (S.gvecT gmax) ks ik =
        .ok (blocks ik).flatten := (codeBlocks_facts _ _ _ _ _ _ _ b1).1
    rw [hbas]
    simp only [solveFull, List.length_ofFn, b2]
    split_ifs with c
    · simp only [reduceCtorEq, exists_false, false_iff]; omega
    · simp only [Except.ok.injEq, exists_eq', true_iff]; omega
  · rw [hkz]
    refine forall_congr' fun ik => forall_congr' fun hik => ?_
    obtain ⟨-, b2, -, -, -⟩ := hbs ik hik
    simp only [solveKz, solveOne, List.length_ofFn]
    split_ifs with c1 c2
    · simp only [reduceCtorEq, exists_false, false_iff]; omega
    · simp only [reduceCtorEq, exists_false, false_iff]; omega
    · simp only [Except.ok.injEq, exists_eq', true_iff]; omega
  · rw [hkz]
    refine forall_congr' fun ik => forall_congr' fun hik => ?_
    obtain ⟨-, b2, -, -, -⟩ := hbs ik hik
    simp only [solveKz, solveOne, List.length_ofFn]
    split_ifs with c1 c2
    · simp only [reduceCtorEq, exists_false, false_iff]; omega
    · simp only [reduceCtorEq, exists_false, false_iff]; omega
    · simp only [Except.ok.injEq, exists_eq', true_iff]; omega
  · rw [hkz]
    intro h ik hik
    obtain ⟨-, b2, -, -, -⟩ := hbs ik hik
    obtain ⟨r, hr⟩ := h ik hik
    split_ifs at hr with c
    show numeig ≤ (s ik).even + (s ik).odd
    omega
  · rw [hkz]
    intro h ik hik
    obtain ⟨-, b2, -, -, -⟩ := hbs ik hik
    obtain ⟨h1, h2⟩ : numeig ≤ (s ik).even + (s ik).odd ∧ (s ik).odd ≤ (s ik).even := h ik hik
    rw [if_neg (by omega)]
    simp only [solveKz, solveBoth, List.length_ofFn, List.length_append, List.length_replicate]
    rw [if_neg (by omega), if_neg]
    · exact ⟨_, rfl⟩
    · rw [List.any_eq_true]
      rintro ⟨i, hi, hi'⟩
      rw [decide_eq_true_eq] at hi'
      obtain ⟨-, -, a3, -, -⟩ := select_facts argsort hs
        ((List.ofFn (eigh (s ik).even (finMat (s ik).even (s ik).matEven + 1))).map freqOf ++
          (List.ofFn (eigh (s ik).odd (finMat (s ik).odd (s ik).matOdd + 1))).map freqOf) sigma numeig (by
        simp only [List.length_append, List.length_map, List.length_ofFn]; exact h1)
      have := a3 i hi
      simp only [List.length_append, List.length_map, List.length_ofFn] at this
      omega


/-! ### Example -/

/-- An unpatterned slab in a lattice of long and narrow cells. -/
noncomputable def slabLine : GmeStruct :=
  ⟨(0, 2), (1000, 0), Real.pi ^ 2 / 500, [⟨.lower, 3, 3, none, []⟩, ⟨.inner (7 * Real.pi / 12), 5, 5, none, []⟩,
    ⟨.upper, 1, 1, none, []⟩]⟩

theorem slabLine_waves : slabLine.gvecT 0.4 = [(0, -2), (0, 0), (0, 2)] := by
  have hp := Real.pi_gt_three
  have hp4 := Real.pi_lt_d2
  have e1 : nmaxOf (2 * Real.pi) 0.4 slabLine.b1 = 1 := by
    have : norm2 slabLine.b1 = 2 := by
      simp only [norm2, slabLine]
      rw [show (0 : ℝ) ^ 2 + 2 ^ 2 = 2 ^ 2 by norm_num]
      exact Real.sqrt_sq (by norm_num)
    unfold nmaxOf
    rw [this, Nat.floor_eq_iff (by positivity)]
    constructor <;> push_cast <;> linarith
  have e2 : nmaxOf (2 * Real.pi) 0.4 slabLine.b2 = 0 := by
    have : norm2 slabLine.b2 = 1000 := by
      simp only [norm2, slabLine]
      rw [show (1000 : ℝ) ^ 2 + 0 ^ 2 = 1000 ^ 2 by norm_num]
      exact Real.sqrt_sq (by norm_num)
    unfold nmaxOf
    rw [this, Nat.floor_eq_zero]
    linarith
  unfold GmeStruct.gvecT gvecTbt
  rw [e1, e2]
  have hind : tbtInds 1 0 = [(-1, 0), (0, 0), (1, 0)] := by decide
  rw [hind]
  simp [gOf, slabLine]

theorem slabLine_crystal : MirrorCrystalT 0 0.4 slabLine := by
  have hp := slabLine_waves
  refine ⟨fun g hg => ?_, ?_, ?_, ?_, ?_⟩
  · rw [mirror_x_axis]
    rw [hp] at hg ⊢
    simp only [List.mem_cons, List.not_mem_nil, or_false] at hg
    rcases hg with rfl | rfl | rfl <;> simp
  · rw [hp]
    intro i j a b ha hb hij
    have hi : i < 3 := (List.getElem?_eq_some_iff.1 ha).1
    have hj : j < 3 := (List.getElem?_eq_some_iff.1 hb).1
    interval_cases i <;> interval_cases j <;> simp at ha hb hij <;> subst ha <;> subst hb <;> norm_num
  · intro l hl s hs
    simp only [slabLine, List.mem_cons, List.not_mem_nil, or_false] at hl
    rcases hl with rfl | rfl | rfl <;> simp at hs
  · intro l hl
    simp only [slabLine, List.mem_cons, List.not_mem_nil, or_false] at hl
    rcases hl with rfl | rfl | rfl <;> exact ⟨[], .refl _, .nil⟩
  · intro l hl
    simp only [slabLine, List.mem_cons, List.not_mem_nil, or_false] at hl
    rcases hl with rfl | rfl | rfl <;> exact tbtAlike_of_real _ _ _ (layer_real _ _ (by simp)) (by norm_num)

theorem slabLine_grid (ks : List R2) : guidedGrid asymOpts (slabLine.gvecT 0.4) ks (0, 0) = 0 :: List.replicate 2 2 := by
  have e : guidedGrid asymOpts (slabLine.gvecT 0.4) ks (0, 0) =
      ((slabLine.gvecT 0.4).map fun g => planeAbs (radPlane 0 (0, 0) g)).insertionSort (· ≤ ·) := by
    rw [← gridExact_zero]
    rfl
  rw [e]
  have hp : ((slabLine.gvecT 0.4).map fun g => planeAbs (radPlane 0 (0, 0) g)).Perm (0 :: List.replicate 2 2) := by
    rw [slabLine_waves]
    have h3 : √((2 : ℝ) ^ 2) = 2 := Real.sqrt_sq (by norm_num)
    simp only [planeAbs, radPlane, List.map_cons, List.map_nil, List.replicate]
    norm_num [h3]
    exact .swap _ _ _
  refine List.Perm.eq_of_pairwise' (r := (· ≤ ·)) ?_ ?_ ((List.perm_insertionSort _ _).trans hp)
  · exact List.pairwise_insertionSort _ _
  · simp [List.replicate]

theorem slabLine_freqs (fs : Finder) : freqsFound fs asymOpts 3 1 [(5, 7 * Real.pi / 12)] .te (0 :: List.replicate 2 2) =
    [] :: List.replicate 2 [fs .te 2 (2 / √5 * (1 + 1 / 20)) (2 / √3 * (1 - 1 / 20))] := by
  have hlb : ∀ g, omLb [3, 5, 1] g = max g 1e-4 / √5 := by
    intro g
    unfold omLb
    simp only [List.tail_cons, List.dropLast_cons_cons, List.dropLast_singleton, List.map_cons, List.map_nil, List.foldr_cons,
      List.foldr_nil]
    rw [max_eq_left (Real.sqrt_nonneg _)]
  have hub : ∀ g, omUb [3, 5, 1] g = max g 1e-4 / √3 := by
    intro g
    unfold omUb
    have : max (List.headD [3, 5, 1] (0 : ℝ)) (List.getLastD [3, 5, 1] 0) = 3 := max_eq_left (show (1 : ℝ) ≤ 3 by norm_num)
    rw [this]
  have hstep0 : guidedStep (fun g om => (d22 .te om g [3, 5, 1] [7 * Real.pi / 12]).re) (fs .te) [3, 5, 1] 1 1 (1 / 20)
      none 0 = [] := by
    unfold guidedStep
    simp only [if_true, hlb, hub]
    rw [max_eq_right (by norm_num)]
    exact asym_none _
  have hstep : guidedStep (fun g om => (d22 .te om g [3, 5, 1] [7 * Real.pi / 12]).re) (fs .te) [3, 5, 1] 1 1 (1 / 20)
      (some (0, [])) 2 = [fs .te 2 (2 / √5 * (1 + 1 / 20)) (2 / √3 * (1 - 1 / 20))] := by
    unfold guidedStep
    simp only [hlb, hub, List.length_nil, ne_eq, not_true_eq_false, and_false, if_false]
    rw [if_pos (by norm_num), max_eq_left (by norm_num)]
    exact asym_found _
  unfold freqsFound
  change guidedModes (fun g om => (d22 .te om g [3, 5, 1] [7 * Real.pi / 12]).re) (fs .te) [3, 5, 1] 1 1 (1 / 20) none
    (0 :: List.replicate (1 + 1) 2) = _
  rw [List.replicate_succ]
  simp only [guidedModes, hstep0, hstep, guidedModes_const]
  rfl

/-- The two waves of length 2 are in use. -/
theorem slabLine_blocks (norm : NormFn) (fs : Finder) {N : ℕ} (plane : Fin N → R2) (blocks : List (List (BasisEl N)))
    (h : codeBlocks norm fs asymOpts (slabStack 3 1 [(5, 7 * Real.pi / 12)]) (0 :: List.replicate 2 2) plane = .ok blocks) :
    blocks.length = 1 ∧ ∀ i, planeAbs (plane i) = 2 → ∃ s ∈ blocks.flatten, s.ig = i := by
  obtain ⟨ms, m1, -, m3⟩ := computeGuided_total norm fs asymOpts 3 1 [(5, 7 * Real.pi / 12)] (by simp) .te
    (0 :: List.replicate 2 2)
  have m4 := m3 (by simp [polInds, asymOpts, modePol])
  rw [slabLine_freqs] at m4
  have hlen : ms.map List.length = [0, 1, 1] := by
    have := congrArg (List.map List.length) m4
    simpa [List.map_map, Function.comp_def, List.replicate] using this
  have hfil : (ms.filter fun l => decide (0 < l.length)).length = 2 := by
    have : (ms.filter fun l => decide (0 < l.length)).length = ((ms.map List.length).filter fun n => decide (0 < n)).length := by
      rw [List.filter_map, List.length_map]
      rfl
    rw [this, hlen]
    rfl
  obtain ⟨c1, c2⟩ := C57_orders ms 0
  obtain ⟨om, hom⟩ := c1.2 (by
    have : (ms.filter fun l => decide (0 < l.length)) ≠ [] := by intro e; rw [e] at hfil; simp at hfil
    obtain ⟨l, hl⟩ := List.exists_mem_of_ne_nil _ this
    exact ⟨l, (List.mem_filter.1 hl).1, by simpa using (List.mem_filter.1 hl).2⟩)
  have homl := (c2 om hom).2
  rw [hfil] at homl
  unfold codeBlocks at h
  simp only [bind, Except.bind, m1] at h
  split at h
  · cases h
  · rename_i tm htm
    split at h
    · cases h
    · rename_i inc hinc
      have hi : inc = [0] := by
        unfold gmodeInclude at hinc
        dsimp only at hinc
        split_ifs at hinc with hne
        have e := (Except.ok.inj hinc).symm
        rw [← e] at hne
        have hsub : inc.Sublist [0] := by rw [e]; exact List.filter_sublist
        rcases inc with _ | ⟨x, _ | ⟨y, l⟩⟩
        · exact absurd rfl hne
        · rw [List.singleton_sublist.1 hsub |> List.mem_singleton.1]
        · have := hsub.length_le
          simp at this
      subst hi
      have hgs : gsOf (0 :: List.replicate 2 (2 : ℝ)) om = [2, 2] := by
        unfold gsOf
        rw [if_neg (by omega), homl]
        rfl
      simp only [List.length_singleton, List.range_one, List.mapM_cons, List.mapM_nil, bind, Except.bind, pure, Except.pure] at h
      unfold guidedBlock at h
      have hp : modePol ([0].getD 0 0) = .te := rfl
      rw [hp] at h
      simp only [List.getD_cons_zero, Nat.zero_div, hom, hgs, Except.ok.injEq] at h
      subst h
      refine ⟨rfl, fun i hi => ?_⟩
      refine ⟨⟨0, i, interpState (slabStack 3 1 [(5, 7 * Real.pi / 12)]) .te [2, 2] om (plane i)⟩, ?_, rfl⟩
      simp only [List.flatten_cons, List.flatten_nil, List.append_nil]
      refine List.mem_filterMap.2 ⟨i, List.mem_finRange i, ?_⟩
      rw [if_pos (by rw [hi]; norm_num)]

theorem slabLine_resolved : Resolved slabLine.b1 slabLine.b2 := by
  rintro i j hij ⟨h1, h2⟩
  simp only [slabLine, zero_mul, add_zero, zero_add] at h1 h2
  by_cases hi : i = 0
  · have := slabTwo_int j fun hj => hij (by rw [hi, hj])
    rw [abs_mul] at h1 this
    norm_num at h1 this
    linarith
  · have := slabTwo_int i hi
    linarith

/-- At the centre of the zone of the unpatterned slab, runs with `kz_symmetry` return. -/
example (argsort : List ℝ → List ℕ) (hs : ∀ l, IsArgsort l (argsort l))
    (eigh : ∀ n, Matrix (Fin n) (Fin n) ℂ → Fin n → ℝ) (he : GoodEigh eigh) (norm : NormFn) (fs : Finder) (sparse : Bool) :
    (∃ rs, gmeSimKzTbt ijExact argsort eigh norm fs asymOpts .even sparse 1e-8 .rectangular [0] slabLine 0.4 false "average"
      [(0, 0)] 0 1 = .ok rs) ∧
    ∃ rs, gmeSimKzTbt ijExact argsort eigh norm fs asymOpts .odd sparse 1e-8 .rectangular [0] slabLine 0.4 false "average"
      [(0, 0)] 0 1 = .ok rs := by
  have hsh : ∀ l ∈ slabLine.layers, l.shapes = [] := by
    intro l hl
    simp only [slabLine, List.mem_cons, List.not_mem_nil, or_false] at hl
    rcases hl with rfl | rfl | rfl <;> rfl
  have hE : ∀ l ∈ slabLine.layers, ∃ E, slabLine.epsInvT 0.4 false l = .ok E := by
    intro l hl
    exact ⟨_, epsInvT_plain slabLine slabLine_resolved 0.4 false l (by simp [hsh l hl]) (.inl (hsh l hl))⟩
  obtain ⟨einv, hE3⟩ := mapM_all_ok _ _ hE
  have heff : slabLine.layers.mapM (GmeLay.eff "average") = .ok [3, 5, 1] := rfl
  have hst : (slabLine.layers.map GmeLay.pos).zip [3, 5, 1] = slabStack 3 1 [(5, 7 * Real.pi / 12)] := rfl
  have hg := slabLine_grid [(0, 0)]
  obtain ⟨e, d, h1, h2⟩ := C163_accepts argsort hs eigh he norm fs asymOpts sparse 1e-8 (by norm_num) .rectangular [0] slabLine 0.4
    "average" [(0, 0)] 0 (by simp) ⟨_, if_pos (by
      intro a ha
      obtain rfl := List.mem_singleton.1 ha
      exact ⟨0, List.mem_map.2 ⟨4, by simp, by norm_num⟩, by simp [round8, rint]⟩)⟩ (by simp) (by
      intro ik theta hik hth
      obtain rfl : ik = 0 := by simpa using hik
      obtain rfl : 0 = theta := by simpa using hth
      refine ⟨slabLine_crystal, ?_⟩
      rw [mirror_x_axis]
      simp [asymOpts]) (by
      intro eff ik theta blocks heff' hik hth hb
      obtain rfl : ik = 0 := by simpa using hik
      obtain rfl : 0 = theta := by simpa using hth
      rw [heff] at heff'
      cases heff'
      rw [hst, List.getD_cons_zero, hg] at hb
      obtain ⟨b1, b2⟩ := slabLine_blocks norm fs _ _ hb
      refine ⟨by rw [b1]; simp [asymOpts], ?_⟩
      have hmem : ((0, 2) : R2) ∈ slabLine.gvecT 0.4 := by rw [slabLine_waves]; simp
      obtain ⟨i, hi, e⟩ := List.mem_iff_getElem.1 hmem
      obtain ⟨s, hs1, hs2⟩ := b2 ⟨i, hi⟩ (by
        have h3 : √((2 : ℝ) ^ 2) = 2 := Real.sqrt_sq (by norm_num)
        simp [e, planeAbs, radPlane, asymOpts, h3])
      refine ⟨s, hs1, ?_⟩
      have e' : (slabLine.gvecT 0.4)[s.ig] = (0, 2) := by simp only [hs2]; exact e
      rw [e', mirror_x_axis]
      norm_num) (by
      rw [tbt_run]
      simp only [heff, hE3, bind, Except.bind]
      rw [mapM_range_ok_iff]
      intro ik hik
      obtain rfl : ik = 0 := by simpa using hik
      obtain ⟨b, hb⟩ := (C118_outcome norm fs asymOpts 3 1 [(5, 7 * Real.pi / 12)] (by simp) (slabLine.gvecT 0.4) [(0, 0)] 0).1 (by
        rw [List.getD_cons_zero, hg]
        refine ⟨0, by simp [asymOpts], ?_⟩
        change ∃ l ∈ freqsFound fs asymOpts 3 1 [(5, 7 * Real.pi / 12)] .te (0 :: List.replicate 2 2), _
        rw [slabLine_freqs]
        exact ⟨_, List.mem_cons_of_mem _ List.mem_cons_self, Nat.one_pos⟩)
      rw [hst, hb]
      simp only [solveFull, Nat.not_lt_zero, if_false]
      exact ⟨_, rfl⟩)
  obtain ⟨-, h3, h4, -⟩ := h2 1
  exact ⟨h3.2 fun ik hik => (h1 ik hik).1, h4.2 fun ik hik => (h1 ik hik).2⟩

end Legume
