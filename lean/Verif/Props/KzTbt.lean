import Verif.Model.KzTbt
import Verif.Props.KzRun
import Verif.Props.GmeTbt
import Verif.Props.GmeOrder

/-!
# Runs with `kz_symmetry` and parallelogram truncation (C162)
-/
namespace Legume

open Spec Real

/-- A block contains with a wave every longer one. -/
theorem guidedBlock_longer {N : ℕ} {stack : List (LPos × ℝ)} {grid : List ℝ} {plane : Fin N → R2}
    {modes : List (List GMode)} {n mode : ℕ} {b : List (BasisEl N)}
    (h : guidedBlock stack grid plane modes n mode = .ok b) {s : BasisEl N} (hs : s ∈ b) {i : Fin N}
    (hi : planeAbs (plane s.ig) ≤ planeAbs (plane i)) : ∃ s' ∈ b, s'.ig = i := by
  unfold guidedBlock at h
  split at h
  · cases h
  · rename_i om _
    split at h
    · cases h
    · rename_i gs0 gs _
      simp only [Except.ok.injEq] at h
      subst h
      obtain ⟨j, -, hj⟩ := List.mem_filterMap.1 hs
      split_ifs at hj with c
      obtain rfl := Option.some.inj hj
      exact ⟨_, List.mem_filterMap.2 ⟨i, List.mem_finRange i, if_pos (c.trans_le hi)⟩, rfl⟩

theorem codeBlocks_longer {N : ℕ} {norm : NormFn} {fs : Finder} {o : GuidedOpts} {stack : List (LPos × ℝ)}
    {grid : List ℝ} {plane : Fin N → R2} {blocks : List (List (BasisEl N))}
    (h : codeBlocks norm fs o stack grid plane = .ok blocks) {b : List (BasisEl N)} (hb : b ∈ blocks) {s : BasisEl N}
    (hs : s ∈ b) {i : Fin N} (hi : planeAbs (plane s.ig) ≤ planeAbs (plane i)) : ∃ s' ∈ b, s'.ig = i := by
  unfold codeBlocks at h
  obtain ⟨te, -, h⟩ := bind_ok h
  obtain ⟨tm, -, h⟩ := bind_ok h
  obtain ⟨inc, -, h⟩ := bind_ok h
  have hf := mapM_ok_forall h
  obtain ⟨n, hn, rfl⟩ := List.getElem_of_mem hb
  have hl := hf.length_eq
  exact guidedBlock_longer ((List.forall₂_iff_get.1 hf).2 n (by omega) hn) hs hi

/-- An accepted separation has found the mirror image of every wave. -/
theorem symModes_images {theta : ℝ} : ∀ {gi : List ℕ} {used : List (List (ℝ × ℝ))} {ms : List SymMode},
    symModes theta gi used = .ok ms → used.length ≤ gi.length → ∀ gs ∈ used, ∀ g ∈ gs, ∃ g' ∈ gs,
      |g'.1 - (mirrorVec theta g).1| < 1e-7 ∧ |g'.2 - (mirrorVec theta g).2| < 1e-7
  | [], used, _, _, hl => by
    obtain rfl : used = [] := List.length_eq_zero_iff.1 (Nat.le_zero.1 hl)
    simp
  | _ :: _, [], _, h, _ => by cases h
  | a :: as, gs :: us, ms, h, hl => by
    unfold symModes at h
    split at h
    · cases h
    · rename_i rs hrs
      split at h
      · cases h
      · rename_i ms' h'
        intro gs' hgs' g hg
        rcases List.mem_cons.1 hgs' with rfl | hm
        · have hf := mapM_ok_forall hrs
          obtain ⟨n, hn, rfl⟩ := List.getElem_of_mem hg
          have h1 := (List.forall₂_iff_get.1 hf).2 n hn (by rw [← hf.length_eq]; exact hn)
          unfold indG at h1
          split at h1
          · rename_i i hi
            obtain ⟨hlt, hp, -⟩ := List.findIdx?_eq_some_iff_getElem.1 hi
            refine ⟨_, List.getElem_mem hlt, ?_⟩
            rw [← reflectG_eq]
            simpa using hp
          · cases h1
        · exact symModes_images h' (by simpa using hl) gs' hm g hg

/-- **C162.** With the parallelogram truncation and `kz_symmetry` a run is refused, rather than computed with a wrong
mirror, if the mirror image of the longest plane wave at some wave vector is not kept. -/
theorem C162_refused (ij : LPos → ℂ → ℂ) (argsort : List ℝ → List ℕ)
    (eigh : ∀ n, Matrix (Fin n) (Fin n) ℂ → Fin n → ℝ) (norm : NormFn) (fs : Finder) (o : GuidedOpts) (kz : KzSymm)
    (sparse : Bool) (thr : ℝ) (t : LatType) (angles : List ℝ) (S : GmeStruct) (gmax : ℝ) (onlyG : Bool) (opt : String)
    (ks : List R2) (sigma : ℝ) (numeig : ℕ) (hn : 1 ≤ numeig) (ik : ℕ) (hk : ik < ks.length) (theta : ℝ)
    (hth : angles[ik]? = some theta) (g : R2) (hg : g ∈ S.gvecT gmax)
    (hlong : ∀ g' ∈ S.gvecT gmax,
      planeAbs (radPlane o.deltaGx (ks.getD ik 0) g') ≤ planeAbs (radPlane o.deltaGx (ks.getD ik 0) g))
    (hmiss : ∀ g' ∈ S.gvecT gmax, ¬ (|g'.1 - (mirrorVec theta g).1| < 1e-7 ∧ |g'.2 - (mirrorVec theta g).2| < 1e-7)) :
    ∀ rs, gmeSimKzTbt ij argsort eigh norm fs o kz sparse thr t angles S gmax onlyG opt ks sigma numeig ≠ .ok rs := by
  intro rs h
  unfold gmeSimKzTbt at h
  by_cases c1 : angles = []
  · rw [if_pos c1] at h
    cases h
  rw [if_neg c1] at h
  obtain ⟨m, -, h⟩ := bind_ok h
  cases onlyG with
  | true => simp at h
  | false =>
  simp only [Bool.false_eq_true, if_false] at h
  obtain ⟨eff, -, h⟩ := bind_ok h
  obtain ⟨Es, -, h⟩ := bind_ok h
  obtain ⟨r, hr⟩ := mapM_range_ok_iff.1 ⟨rs, h⟩ ik hk
  obtain ⟨blocks, hb, hr⟩ := bind_ok hr
  obtain ⟨hlen, th, s, hth', hsep, -⟩ := kzPoint_ok hr
  rw [hth] at hth'
  obtain rfl := Option.some.inj hth'
  have hne : blocks.flatten ≠ [] := by
    intro e
    rw [e, List.length_nil] at hlen
    omega
  obtain ⟨st, hst⟩ := List.exists_mem_of_ne_nil _ hne
  obtain ⟨b, hbm, hsb⟩ := List.mem_flatten.1 hst
  obtain ⟨i, hi, hgi⟩ := List.getElem_of_mem hg
  obtain ⟨s', hs', hig⟩ := codeBlocks_longer hb hbm hsb (i := ⟨i, hi⟩) (by
    have := hlong _ (List.getElem_mem st.ig.2)
    rw [← hgi] at this
    exact this)
  have hle := (codeBlocks_facts _ _ _ _ _ _ _ hb).2.1
  unfold separate at hsep
  split at hsep
  · cases hsep
  · rename_i ms hms
    obtain ⟨g', hg', hnear⟩ := symModes_images hms (by rw [usedWaves, List.length_map]; exact hle)
      (b.map fun (s : BasisEl (S.gvecT gmax).length) => (S.gvecT gmax)[s.ig]) (List.mem_map_of_mem hbm) g
      (List.mem_map.2 ⟨s', hs', by simp only [hig]; exact hgi⟩)
    obtain ⟨s'', -, rfl⟩ := List.mem_map.1 hg'
    exact hmiss _ (List.getElem_mem s''.ig.2) hnear

/-- **C162.** In a hexagonal lattice every run with `kz_symmetry` and the parallelogram truncation that includes the centre of
the zone with the direction 30 degrees, one of the mirrors of the lattice, is refused as soon as there is more than one
plane wave. -/
theorem C162_hexagonal (ij : LPos → ℂ → ℂ) (argsort : List ℝ → List ℕ)
    (eigh : ∀ n, Matrix (Fin n) (Fin n) ℂ → Fin n → ℝ) (norm : NormFn) (fs : Finder) (o : GuidedOpts)
    (ho : 0 ≤ o.deltaGx) (kz : KzSymm) (sparse : Bool) (thr : ℝ) (t : LatType) (angles : List ℝ) (S : GmeStruct)
    (h1 : S.b1 = (2 * π, 2 * π / √3)) (h2 : S.b2 = (2 * π, -(2 * π / √3))) (gmax : ℝ)
    (hw : 1 < (S.gvecT gmax).length) (onlyG : Bool) (opt : String) (ks : List R2) (sigma : ℝ) (numeig : ℕ)
    (hn : 1 ≤ numeig) (ik : ℕ) (hk : ks[ik]? = some (0, 0)) (hth : angles[ik]? = some 30) :
    ∀ rs, gmeSimKzTbt ij argsort eigh norm fs o kz sparse thr t angles S gmax onlyG opt ks sigma numeig ≠ .ok rs := by
  have hp := Real.pi_gt_three
  have h3 : (0 : ℝ) < √3 := by positivity
  have hs3 : √3 * √3 = (3 : ℝ) := Real.mul_self_sqrt (by norm_num)
  have hnn : S.n2 gmax = S.n1 gmax := by
    unfold GmeStruct.n1 GmeStruct.n2 nmaxOf norm2
    rw [h1, h2]
    simp
  have hN : 1 ≤ S.n1 gmax := by
    rw [gvecT_len, hnn] at hw
    by_contra hc
    rw [show S.n1 gmax = 0 by omega] at hw
    simp at hw
  have hgv : S.gvecT gmax = (tbtInds (S.n1 gmax) (S.n1 gmax)).map (gOf S.b1 S.b2) := by
    conv_rhs => rw [show tbtInds (S.n1 gmax) (S.n1 gmax) = tbtInds (S.n1 gmax) (S.n2 gmax) by rw [hnn]]
    rfl
  generalize hNd : S.n1 gmax = N at hN hgv
  have hkl : ik < ks.length := (List.getElem?_eq_some_iff.1 hk).1
  have hk0 : ks.getD ik 0 = (0, 0) := by rw [List.getD_eq_getElem?_getD, hk]; rfl
  have hNr : (1 : ℝ) ≤ N := by exact_mod_cast hN
  have hc : (2 * π / √3) ^ 2 = (2 * π) ^ 2 / 3 := by
    rw [div_pow, Real.sq_sqrt (by norm_num)]
  refine C162_refused ij argsort eigh norm fs o kz sparse thr t angles S gmax onlyG opt ks sigma numeig hn ik hkl 30 hth
    (gOf S.b1 S.b2 (N, N)) ?_ ?_ ?_
  · rw [hgv]
    exact List.mem_map_of_mem ((mem_tbtInds _ _ _).2 ⟨⟨by omega, le_rfl⟩, ⟨by omega, le_rfl⟩⟩)
  · intro g' hg'
    rw [hgv] at hg'
    obtain ⟨⟨a, b⟩, hab, rfl⟩ := List.mem_map.1 hg'
    obtain ⟨⟨a1, a2⟩, b1, b2⟩ := (mem_tbtInds _ _ _).1 hab
    have a1' : -(N : ℝ) ≤ a := by exact_mod_cast a1
    have a2' : (a : ℝ) ≤ N := by exact_mod_cast a2
    have b1' : -(N : ℝ) ≤ b := by exact_mod_cast b1
    have b2' : (b : ℝ) ≤ N := by exact_mod_cast b2
    rw [hk0, h1, h2]
    unfold planeAbs
    refine Real.sqrt_le_sqrt ?_
    simp only [radPlane, gOf, Int.cast_natCast]
    generalize 2 * π / √3 = c at hc
    generalize hq : 2 * π = q at hc
    have hq0 : 0 ≤ q := by rw [← hq]; positivity
    have e : (c * (a : ℝ) + -c * b + 0) ^ 2 = q ^ 2 / 3 * ((a : ℝ) - b) ^ 2 := by rw [← hc]; ring
    rw [e]
    have e' : (c * (N : ℝ) + -c * N + 0) ^ 2 = 0 := by ring
    rw [e']
    have k1 : (q * (a : ℝ) + q * b + 0 + o.deltaGx) ^ 2 =
      q ^ 2 * (a + b) ^ 2 + 2 * q * o.deltaGx * (a + b) + o.deltaGx ^ 2 := by ring
    have k2 : (q * (N : ℝ) + q * N + 0 + o.deltaGx) ^ 2 =
      q ^ 2 * (4 * N ^ 2) + 2 * q * o.deltaGx * (2 * N) + o.deltaGx ^ 2 := by ring
    rw [k1, k2]
    have k3 : 2 * q * o.deltaGx * ((a : ℝ) + b) ≤ 2 * q * o.deltaGx * (2 * N) :=
      mul_le_mul_of_nonneg_left (by linarith) (by positivity)
    have k4 : ((a : ℝ) + b) ^ 2 + ((a : ℝ) - b) ^ 2 / 3 ≤ 4 * N ^ 2 := by
      nlinarith [mul_nonneg (sub_nonneg.2 a2') (sub_nonneg.2 (by linarith : -(a : ℝ) ≤ N)),
        mul_nonneg (sub_nonneg.2 b2') (sub_nonneg.2 (by linarith : -(b : ℝ) ≤ N)), sq_nonneg ((a : ℝ) - b)]
    have k5 := mul_le_mul_of_nonneg_left k4 (sq_nonneg q)
    nlinarith
  · rintro g' hg' ⟨-, n2⟩
    rw [hgv] at hg'
    obtain ⟨⟨a, b⟩, hab, rfl⟩ := List.mem_map.1 hg'
    obtain ⟨⟨a1, a2⟩, b1, b2⟩ := (mem_tbtInds _ _ _).1 hab
    have e1 : (gOf S.b1 S.b2 (a, b)).2 = 2 * π / √3 * ((a : ℝ) - b) := by
      rw [h1, h2]
      simp only [gOf]
      ring
    have e2 : (mirrorVec 30 (gOf S.b1 S.b2 ((N : ℤ), (N : ℤ)))).2 = 2 * π / √3 * (3 * N) := by
      have ea : (2 * 30 * π / 180 : ℝ) = π / 3 := by ring
      rw [← reflectG_eq, h1, h2]
      unfold reflectG
      rw [ea, Real.sin_pi_div_three, Real.cos_pi_div_three]
      simp only [gOf, Int.cast_natCast]
      field_simp
      nlinarith
    rw [e1, e2] at n2
    have hcl : (1 : ℝ) ≤ 2 * π / √3 := by
      rw [le_div_iff₀ h3]
      nlinarith
    have ha : (a : ℝ) - b ≤ 2 * N := by
      have a2' : (a : ℝ) ≤ N := by exact_mod_cast a2
      have b1' : -(N : ℝ) ≤ b := by exact_mod_cast b1
      linarith
    have := (abs_lt.1 n2).1
    nlinarith

/-- **C162.** As without `kz_symmetry`, `only_gmodes` is refused with ValueError, whatever the lattice and the angles. -/
theorem C162_only_gmodes (ij : LPos → ℂ → ℂ) (argsort : List ℝ → List ℕ)
    (eigh : ∀ n, Matrix (Fin n) (Fin n) ℂ → Fin n → ℝ) (norm : NormFn) (fs : Finder) (o : GuidedOpts) (kz : KzSymm)
    (sparse : Bool) (thr : ℝ) (t : LatType) (angles : List ℝ) (S : GmeStruct) (gmax : ℝ) (opt : String) (ks : List R2)
    (sigma : ℝ) (numeig : ℕ) :
    gmeSimKzTbt ij argsort eigh norm fs o kz sparse thr t angles S gmax true opt ks sigma numeig = .error .valueError := by
  unfold gmeSimKzTbt
  by_cases c1 : angles = []
  · rw [if_pos c1]
  rw [if_neg c1]
  unfold reflMat
  cases anglesOf t with
  | none => rfl
  | some table =>
    simp only
    split_ifs <;> rfl

/-- A hexagonal slab with a hole. -/
noncomputable def hexSlab (J : ℝ → ℝ) : GmeStruct :=
  ⟨(2 * π, 2 * π / √3), (2 * π, -(2 * π / √3)), √3 / 2,
    [⟨.lower, 1, 1, none, []⟩, ⟨.inner 0.5, 12, 9, none, [⟨1, Circle.ft J ⟨0, 0, 0.3⟩⟩]⟩, ⟨.upper, 1, 1, none, []⟩]⟩

theorem hexSlab_waves (J : ℝ → ℝ) : 1 < ((hexSlab J).gvecT 2).length := by
  have hp := Real.pi_gt_three
  have h : 1 ≤ (hexSlab J).n1 2 := by
    unfold GmeStruct.n1 nmaxOf
    have hb : norm2 (hexSlab J).b1 ≤ 2 * π * 2 := by
      unfold norm2 hexSlab
      refine Real.sqrt_le_iff.2 ⟨by positivity, ?_⟩
      have : (2 * π / √3) ^ 2 = (2 * π) ^ 2 / 3 := by rw [div_pow, Real.sq_sqrt (by norm_num)]
      simp only [this]
      nlinarith [sq_nonneg π]
    have hb0 : 0 < norm2 (hexSlab J).b1 := by
      unfold norm2 hexSlab
      refine Real.sqrt_pos.2 ?_
      simp only
      positivity
    refine Nat.le_floor ?_
    rw [Nat.cast_one, le_div_iff₀ hb0, one_mul]
    exact hb
  rw [gvecT_len]
  nlinarith

/-- The direction is accepted, the run is not. -/
example (J : ℝ → ℝ) (argsort : List ℝ → List ℕ) (eigh : ∀ n, Matrix (Fin n) (Fin n) ℂ → Fin n → ℝ) (norm : NormFn)
    (fs : Finder) (sparse : Bool) :
    (∃ m, reflMat .hexagonal [30] = .ok m) ∧
    ∀ rs, gmeSimKzTbt ijLayer argsort eigh norm fs asymOpts .both sparse 1e-8 .hexagonal [30] (hexSlab J) 2 false "average"
      [(0, 0)] 0 5 ≠ .ok rs := by
  refine ⟨⟨_, if_pos ?_⟩, ?_⟩
  · intro a ha
    obtain rfl := List.mem_singleton.1 ha
    refine ⟨30, List.mem_map.2 ⟨13, by simp, by norm_num⟩, ?_⟩
    have e : (30 * 1e8 : ℝ) = ((3000000000 : ℤ) : ℝ) := by norm_num
    unfold round8 rint
    rw [e, Int.floor_intCast]
    norm_num
  · exact C162_hexagonal ijLayer argsort eigh norm fs asymOpts (by norm_num [asymOpts]) .both sparse 1e-8 .hexagonal [30]
      (hexSlab J) rfl rfl 2 (hexSlab_waves J) false "average" _ 0 5 (by norm_num) 0 rfl rfl

end Legume
