import Verif.Model.WholeGrad
import Verif.Props.GmeGrad
import Verif.Props.WaveVecs
import Verif.Props.ExcBands
import Verif.Props.PrimVecs
import Verif.Props.PweGrad

/-! # C150: gradients of whole guided-mode runs with fixed effective permittivities -/
namespace Legume

open Matrix Spec Finset Filter Topology
open scoped ComplexConjugate Real

/-- Pairing with samples completed by conjugation. -/
theorem backHalf_pair (h : ℕ) (g D : ℕ → ℂ) (hD : ∀ u, u < h → D (2 * h - u) = conj (D u)) :
    (∑ u ∈ range (h + 1), backHalf (2 * h + 1) g u * D u).re = (∑ u ∈ range (2 * h + 1), g u * D u).re := by
  have e1 : ∑ u ∈ range (2 * h + 1), g u * D u =
      (∑ u ∈ range (h + 1), g u * D u) + ∑ v ∈ range h, g (h + 1 + v) * D (h + 1 + v) := by
    rw [show 2 * h + 1 = h + 1 + h by omega, sum_range_add]
  have e2 : ∑ v ∈ range h, g (h + 1 + v) * D (h + 1 + v) = ∑ u ∈ range h, g (2 * h - u) * D (2 * h - u) := by
    rw [← sum_range_reflect]
    refine sum_congr rfl fun v hv => ?_
    have hv := mem_range.1 hv
    rw [show h + 1 + (h - 1 - v) = 2 * h - v by omega]
  have e3 : ∑ u ∈ range (h + 1), backHalf (2 * h + 1) g u * D u =
      (∑ u ∈ range (h + 1), g u * D u) + ∑ u ∈ range h, conj (g (2 * h - u)) * D u := by
    have hdiv : (2 * h + 1 - 1) / 2 = h := by omega
    rw [show (∑ u ∈ range h, conj (g (2 * h - u)) * D u) =
      ∑ u ∈ range (h + 1), (if u < h then conj (g (2 * h - u)) else 0) * D u by
        rw [sum_range_succ, if_neg (lt_irrefl h), zero_mul, add_zero]
        exact sum_congr rfl fun u hu => by rw [if_pos (mem_range.1 hu)], ← sum_add_distrib]
    refine sum_congr rfl fun u _ => ?_
    rw [backHalf, hdiv, add_mul, show 2 * h + 1 - 1 - u = 2 * h - u by omega]
  rw [e1, e2, e3, Complex.add_re, Complex.add_re, Complex.re_sum (range h), Complex.re_sum (range h)]
  congr 1
  refine sum_congr rfl fun u hu => ?_
  rw [hD u (mem_range.1 hu), ← Complex.conj_re (g (2 * h - u) * conj (D u)), map_mul, Complex.conj_conj]

/-- The samples at all unique differences. -/
theorem epsUniq_getD (FT : R2 → ℂ) (b1 b2 : R2) (U : List (ℤ × ℤ)) (h : ℕ) (hU : U.length = 2 * h + 1) (u : ℕ) :
    (epsUniq FT b1 b2 U).getD u 0 =
      if u ≤ h then FT (gOf b1 b2 (U.getD u 0)) else if u ≤ 2 * h then conj (FT (gOf b1 b2 (U.getD (2 * h - u) 0))) else 0 := by
  have hdiv : (U.length - 1) / 2 = h := by omega
  have hlen : (U.take (h + 1)).length = h + 1 := by rw [List.length_take]; omega
  rw [List.getD_eq_getElem?_getD]
  unfold epsUniq
  simp only
  rw [hdiv]
  by_cases hu : u ≤ h
  · rw [if_pos hu, List.getElem?_append_left (by rw [List.length_map, hlen]; omega), List.getElem?_map,
      List.getElem?_take_of_lt (by omega), List.getD_eq_getElem?_getD, List.getElem?_eq_getElem (by omega)]
    rfl
  rw [if_neg hu, List.getElem?_append_right (by rw [List.length_map, hlen]; omega), List.length_map, hlen]
  by_cases hu2 : u ≤ 2 * h
  · rw [if_pos hu2, List.getElem?_map,
      List.getElem?_reverse (by rw [List.length_dropLast, List.length_map, hlen]; omega),
      List.length_dropLast, List.length_map, hlen, List.getElem?_dropLast, List.length_map, hlen,
      if_pos (by omega), List.getElem?_map, List.getElem?_take_of_lt (by omega),
      show h + 1 - 1 - 1 - (u - (h + 1)) = 2 * h - u by omega, List.getD_eq_getElem?_getD,
      List.getElem?_eq_getElem (by omega)]
    rfl
  · rw [if_neg hu2, List.getElem?_eq_none (by simp [hlen]; omega)]
    rfl

/-- The sum compared with the threshold for homogeneous layers. -/
noncomputable def homSum (FT : R2 → ℂ) (b1 b2 : R2) (inds : List (ℤ × ℤ)) : ℝ :=
  open Classical in
  ∑ i ∈ Finset.range inds.length, ∑ j ∈ Finset.range inds.length,
    (if 1e-10 < norm2 (gOf b1 b2 ((inds.getD j 0).1 - (inds.getD i 0).1,
        (inds.getD j 0).2 - (inds.getD i 0).2))
      then ‖epsMatAbs FT b1 b2 inds i j‖ else 0)

theorem homAbs_iff (FT : R2 → ℂ) (b1 b2 : R2) (inds : List (ℤ × ℤ)) :
    homAbs FT b1 b2 inds ↔ homSum FT b1 b2 inds < 1e-10 := Iff.rfl

/-- The structure with the layers `lay`. -/
abbrev withLayers (b1 b2 : R2) (area : ℝ) {L : ℕ} (lay : Fin L → GmeLay) : GmeStruct := ⟨b1, b2, area, List.ofFn lay⟩

/-- The transform of a layer. -/
noncomputable abbrev layFt (area : ℝ) (l : GmeLay) : R2 → ℂ := layerFt l.epsB l.epsAvg area l.shapes

theorem mapM_ofFn_ok {A B : Type} {n : ℕ} (f : A → Except PyErr B) (a : Fin n → A) (b : Fin n → B)
    (h : ∀ i, f (a i) = .ok (b i)) : (List.ofFn a).mapM f = .ok (List.ofFn b) := by
  rw [mapM_ok_iff]
  refine ⟨by simp, fun i x y hx hy => ?_⟩
  have hi : i < n := by
    have := (List.getElem?_eq_some_iff.1 hx).1
    simpa using this
  rw [List.getElem?_ofFn, dif_pos hi] at hx hy
  rw [← Option.some.inj hx, ← Option.some.inj hy]
  exact h _

section
variable (b1 b2 : R2) (gmax : ℝ)

/-- The integer coordinates of the plane waves. -/
local notation "iG" => absInds b1 b2 gmax
/-- Their unique differences. -/
local notation "iU" => absUnique (absInds b1 b2 gmax)
/-- The number of plane waves. -/
local notation "iN" => List.length (List.map (gOf b1 b2) (absInds b1 b2 gmax))

open Classical in
/-- **C150.** A guided-mode run with `truncate_g='abs'` over any list of wave vectors, for a family of structures whose
effective permittivities do not depend on the parameter: they were set by hand, or `eps_eff='background'` and only the shapes
vary. The transforms of the layers are differentiable at `t0`; no layer sits exactly on the threshold of homogeneity, and the
matrices that are inverted are not singular. The guided modes are found, and the distances of the frequencies from `eig_sigma`
differ from each other. Then the runs near `t0` succeed, every objective `∑ c f` of returned frequencies which are not zero is
differentiable, and what the registered rules give, paired with the derivatives of the values returned by `compute_ft`, is its
derivative up to `∑ |c f'| 1e-10 / (2 π f)²`. -/
theorem C150_gme (ij : LPos → ℂ → ℂ) (argsort : List ℝ → List ℕ) (hs : ∀ l, IsArgsort l (argsort l))
    (eigh : ∀ n, Matrix (Fin n) (Fin n) ℂ → Fin n → ℝ) (he : GoodEigh eigh) (guided : GuidedSolver) (area : ℝ)
    {L : ℕ} (lay : Fin L → ℝ → GmeLay) (opt : String) (hg : 0 ≤ gmax) (pos : Fin L → LPos) (eps : Fin L → ℝ)
    (hpos : ∀ l t, (lay l t).pos = pos l) (heps : ∀ l t, (lay l t).eff opt = .ok (eps l)) (t0 : ℝ) (D : Fin L → R2 → ℂ)
    (hD : ∀ l g, HasDerivAt (fun t => layFt area (lay l t) g) (D l g) t0)
    (hthr : ∀ l, homSum (layFt area (lay l t0)) b1 b2 iG ≠ 1e-10)
    (hzero : ∀ l, epsMatAbs (layFt area (lay l t0)) b1 b2 iG 0 0 ≠ 0)
    (ks : List R2) (sigma : ℝ) (numeig : ℕ)
    (basis : Fin ks.length → List (BasisEl iN))
    (hguided : ∀ q : Fin ks.length, guided ((List.ofFn pos).zip (List.ofFn eps)) ((iG).map (gOf b1 b2)) ks q =
      .ok (basis q)) (hnum : ∀ q, numeig ≤ (basis q).length) (c : Fin ks.length → ℕ → ℝ)
    (einv : Fin L → Matrix (Fin iN) (Fin iN) ℂ)
    (heinv : ∀ l, (withLayers b1 b2 area fun l => lay l t0).epsInv gmax false (lay l t0) = .ok (einv l))
    (mat : ∀ q, Matrix (Fin (basis q).length) (Fin (basis q).length) ℂ)
    (hmat : ∀ q, mat q = gmeMatIj ij ((List.ofFn pos).zip (List.ofFn eps)) (List.ofFn einv) (basis q) + 1)
    (V : ∀ q, Matrix (Fin (basis q).length) (Fin (basis q).length) ℂ) (hV : ∀ q, IsEigh (mat q) (eigh _ (mat q)) (V q))
    (hinj : ∀ q, Function.Injective fun m => |freqOf (eigh _ (mat q) m) - sigma|) :
    ∃ rs : ℝ → List KRes, (∀ᶠ t in 𝓝 t0, gmeSimIj ij argsort eigh guided (withLayers b1 b2 area fun l => lay l t) gmax false opt
        ks sigma numeig = .ok (rs t)) ∧
      ((∀ q i, c q i ≠ 0 → ∀ r, (rs t0)[(q : ℕ)]? = some r → r.freq.getD i 0 ≠ 0) →
      ∃ f' : Fin ks.length → ℕ → ℝ,
        HasDerivAt (fun t => ∑ q : Fin ks.length, ∑ i ∈ range numeig,
          c q i * (((rs t)[(q : ℕ)]?).map fun r => r.freq.getD i 0).getD 0)
          (∑ q, ∑ i ∈ range numeig, c q i * f' q i) t0 ∧
        |∑ l, (∑ u ∈ range (((iU).length - 1) / 2 + 1),
            backHalf (iU).length (gmeBackSamples
              (fun i j => (iU).idxOf
                (((iG).getD j 0).1 - ((iG).getD i 0).1,
                  ((iG).getD j 0).2 - ((iG).getD i 0).2))
              ((iU).idxOf (0, 0))
              (decide (homAbs (layFt area (lay l t0)) b1 b2 iG))
              (epsMatAbs (layFt area (lay l t0)) b1 b2 iG 0 0) (einv l)
              (gmeBackward argsort ij ((List.ofFn pos).zip (List.ofFn eps)) L basis (fun q => eigh _ (mat q)) V sigma numeig c l)) u *
            D l (gOf b1 b2 ((iU).getD u 0))).re -
          ∑ q, ∑ i ∈ range numeig, c q i * f' q i| ≤
        ∑ q : Fin ks.length, ∑ i ∈ range numeig, |c q i * f' q i| *
          (1e-10 / (2 * π * (((rs t0)[(q : ℕ)]?).map fun r => r.freq.getD i 0).getD 0) ^ 2)) := by
  have hlenN : iN = (iG).length := List.length_map _
  have hne : iG ≠ [] := absInds_ne_nil b1 b2 gmax hg
  have hodd := absUnique_length_odd iG hne
  obtain ⟨h, hU⟩ : ∃ h, (iU).length = 2 * h + 1 := ⟨(iU).length / 2, by omega⟩
  have hhalf : (2 * h + 1 - 1) / 2 = h := by omega
  set idx : Fin iN → Fin iN → ℕ := fun i j => (iU).idxOf (((iG).getD j 0).1 - ((iG).getD i 0).1,
    ((iG).getD j 0).2 - ((iG).getD i 0).2) with hidxd
  have hidx : ∀ i j, idx i j < (iU).length := by
    intro i j
    apply List.idxOf_lt_length_of_mem
    have hm : ∀ i : Fin iN, (iG).getD i 0 ∈ iG := fun i => by
      rw [getD_of_len (hlenN ▸ i.2)]; exact List.getElem_mem _
    exact (mem_absUnique _ _).2 ⟨_, hm i, _, hm j, rfl⟩
  have h0mem : ((0, 0) : ℤ × ℤ) ∈ iU := (mem_absUnique _ _).2
    ⟨(0, 0), absInds_zero b1 b2 gmax hg, (0, 0), absInds_zero b1 b2 gmax hg, by simp⟩
  set u0 := (iU).idxOf (0, 0) with hu0d
  have hu0 : u0 < (iU).length := List.idxOf_lt_length_of_mem h0mem
  set S : Fin L → ℝ → ℕ → ℂ := fun l t u => (epsUniq (layFt area (lay l t)) b1 b2 (iU)).getD u 0 with hSd
  set DS : Fin L → ℕ → ℂ := fun l u => (epsUniq (D l) b1 b2 (iU)).getD u 0 with hDSd
  have hS : ∀ l u, HasDerivAt (fun t => S l t u) (DS l u) t0 := by
    intro l u
    simp only [S, DS, epsUniq_getD _ b1 b2 iU h hU]
    split_ifs
    · exact hD l _
    · exact (hD l _).star
    · exact hasDerivAt_const _ _
  -- the matrices in terms of the samples
  have hent : ∀ l t (i j : Fin iN), epsMatAbs (layFt area (lay l t)) b1 b2 iG i j = S l t (idx i j) := fun _ _ _ _ => rfl
  have hent0 : ∀ l t, epsMatAbs (layFt area (lay l t)) b1 b2 iG 0 0 = S l t u0 := by
    intro l t
    simp only [epsMatAbs, S, u0, sub_self]
  set hom : Fin L → Bool := fun l => decide (homAbs (layFt area (lay l t0)) b1 b2 iG) with hhom
  have hEinv : ∀ l t, (homAbs (layFt area (lay l t)) b1 b2 iG ↔ hom l = true) →
      (hom l = false → (of fun i j => S l t (idx i j)).det ≠ 0) →
      (withLayers b1 b2 area fun l => lay l t).epsInv gmax false (lay l t) = .ok (gmeEinv idx u0 (hom l) (S l t)) := by
    intro l t h1 h2
    have e0 : (withLayers b1 b2 area fun l => lay l t).epsInv gmax false (lay l t) =
        if homAbs (layFt area (lay l t)) b1 b2 iG ∨ false = true then
          .ok ((epsMatAbs (layFt area (lay l t)) b1 b2 iG 0 0)⁻¹ • 1)
        else if (of fun i j => S l t (idx i j)).det = 0 then .error .valueError
        else .ok (of fun i j => S l t (idx i j))⁻¹ := rfl
    rw [e0]
    unfold gmeEinv
    by_cases hh : hom l = true
    · rw [if_pos (Or.inl (h1.2 hh)), if_pos hh, ← hent0]
    · have hf : hom l = false := by simpa using hh
      rw [if_neg (by
        rintro (h | h)
        · exact hh (h1.1 h)
        · simp at h), if_neg hh]
      rw [if_neg (h2 hf)]
  have hinv : ∀ l, if hom l then S l t0 u0 ≠ 0 else (of fun i j => S l t0 (idx i j)).det ≠ 0 := by
    intro l
    by_cases hh : hom l = true
    · rw [if_pos hh, ← hent0]
      exact hzero l
    · rw [if_neg hh]
      have hM := heinv l
      have e0 : (withLayers b1 b2 area fun l => lay l t0).epsInv gmax false (lay l t0) =
          if homAbs (layFt area (lay l t0)) b1 b2 iG ∨ false = true then
            .ok ((epsMatAbs (layFt area (lay l t0)) b1 b2 iG 0 0)⁻¹ • 1)
          else if (of fun i j => S l t0 (idx i j)).det = 0 then .error .valueError
          else .ok (of fun i j => S l t0 (idx i j))⁻¹ := rfl
      rw [e0] at hM
      rw [if_neg (by
        rintro (h | h)
        · exact hh (by simpa [hom] using h)
        · simp at h)] at hM
      intro h0
      rw [if_pos h0] at hM
      cases hM
  have hE0 : ∀ l, einv l = gmeEinv idx u0 (hom l) (S l t0) := by
    intro l
    have h1 := hEinv l t0 (by simp [hom]) (fun hf => by
      have := hinv l
      rwa [if_neg (by simp [hf])] at this)
    exact Except.ok.inj ((heinv l).symm.trans h1)
  -- near `t0`
  have hcont : ∀ l u, ContinuousAt (fun t => S l t u) t0 := fun l u => (hS l u).continuousAt
  have hsum : ∀ l, ContinuousAt (fun t => homSum (layFt area (lay l t)) b1 b2 iG) t0 := by
    intro l
    unfold homSum
    refine tendsto_finsetSum _ fun i hi => tendsto_finsetSum _ fun j hj => ?_
    split_ifs
    · exact (hcont l ((iU).idxOf (((iG).getD j 0).1 - ((iG).getD i 0).1, ((iG).getD j 0).2 - ((iG).getD i 0).2))).norm
    · exact tendsto_const_nhds
  have hev1 : ∀ l, ∀ᶠ t in 𝓝 t0, (homAbs (layFt area (lay l t)) b1 b2 iG ↔ hom l = true) := by
    intro l
    rcases lt_or_gt_of_ne (hthr l) with h1 | h1
    · filter_upwards [(hsum l).eventually (gt_mem_nhds h1)] with t ht
      simp only [hom, homAbs_iff, decide_eq_true_eq]
      exact iff_of_true ht h1
    · filter_upwards [(hsum l).eventually (lt_mem_nhds h1)] with t ht
      simp only [hom, homAbs_iff, decide_eq_true_eq]
      exact iff_of_false (not_lt.2 ht.le) (not_lt.2 h1.le)
  have hev2 : ∀ l, ∀ᶠ t in 𝓝 t0, (hom l = false → (of fun i j => S l t (idx i j)).det ≠ 0) := by
    intro l
    by_cases hh : hom l = true
    · exact Eventually.of_forall fun t hf => by rw [hh] at hf; cases hf
    · have h1 := hinv l
      rw [if_neg hh] at h1
      have hc : ContinuousAt (fun t => (of fun i j => S l t (idx i j) : Matrix (Fin iN) (Fin iN) ℂ)) t0 := by
        refine tendsto_pi_nhds.2 fun i => tendsto_pi_nhds.2 fun j => ?_
        exact hcont l (idx i j)
      have hd : ContinuousAt (fun t => (of fun i j => S l t (idx i j) : Matrix (Fin iN) (Fin iN) ℂ).det) t0 :=
        (continuous_id.matrix_det).continuousAt.comp hc
      filter_upwards [hd.eventually_ne h1] with t ht _
      exact ht
  set stack := (List.ofFn pos).zip (List.ofFn eps) with hstack
  set sol : ℝ → Fin ks.length → KRes := fun t q =>
    let w := List.ofFn (eigh _ (gmeMatIj ij stack (List.ofFn fun l => gmeEinv idx u0 (hom l) (S l t)) (basis q) + 1))
    ⟨selectModes argsort (w.map freqOf) sigma numeig,
      (selectModes argsort (w.map freqOf) sigma numeig).map fun (i : ℕ) => (w.map freqOf).getD i 0, []⟩ with hsol
  have hsolve : ∀ t q, solveFull argsort (List.ofFn (eigh _ (gmeMatIj ij stack
      (List.ofFn fun l => gmeEinv idx u0 (hom l) (S l t)) (basis q) + 1))) sigma numeig = .ok (sol t q) := by
    intro t q
    unfold solveFull
    rw [if_neg (by rw [List.length_ofFn]; exact not_lt.2 (hnum q))]
  have hat : ∀ t q i, gmeFreqAt argsort eigh ij stack (List.ofFn fun l => gmeEinv idx u0 (hom l) (S l t)) (basis q) sigma
      numeig i = (sol t q).freq.getD i 0 := by
    intro t q i
    unfold gmeFreqAt
    rw [hsolve]
  have hrs : ∀ t (q : Fin ks.length), (List.ofFn (sol t))[(q : ℕ)]? = some (sol t q) := by
    intro t q
    rw [List.getElem?_ofFn, dif_pos q.2]
  refine ⟨fun t => List.ofFn (sol t), ?_, fun hz => ?_⟩
  · filter_upwards [eventually_all.2 hev1, eventually_all.2 hev2] with t h1 h2
    have m1 : (List.ofFn fun l => lay l t).mapM (GmeLay.eff opt) = .ok (List.ofFn eps) :=
      mapM_ofFn_ok _ _ _ fun l => heps l t
    have m2 : (List.ofFn fun l => lay l t).mapM ((withLayers b1 b2 area fun l => lay l t).epsInv gmax false) =
        .ok (List.ofFn fun l => gmeEinv idx u0 (hom l) (S l t)) :=
      mapM_ofFn_ok _ _ _ fun l => hEinv l t (h1 l) (h2 l)
    have m3 : (List.ofFn fun l => lay l t).map GmeLay.pos = List.ofFn pos := by
      rw [List.map_ofFn]
      congr 1
      funext l
      exact hpos l t
    unfold gmeSimIj
    simp only [withLayers] at m1 m2 m3 ⊢
    rw [m1]
    simp only [Bind.bind, Except.bind]
    rw [m2]
    simp only [m3]
    rw [mapM_ok_iff]
    refine ⟨by simp, fun i a b ha hb => ?_⟩
    have hi : i < ks.length := by
      have := (List.getElem?_eq_some_iff.1 ha).1
      simpa using this
    rw [List.getElem?_range hi] at ha
    rw [List.getElem?_ofFn, dif_pos hi] at hb
    rw [← Option.some.inj ha, ← Option.some.inj hb]
    have hgq := hguided ⟨i, hi⟩
    show (guided stack ((iG).map (gOf b1 b2)) ks i).bind (fun (v : List (BasisEl iN)) => solveFull argsort (List.ofFn (eigh v.length (gmeMatIj ij stack
        (List.ofFn fun l => gmeEinv idx u0 (hom l) (S l t)) v + 1))) sigma numeig) = Except.ok (sol t ⟨i, hi⟩)
    rw [hgq]
    exact hsolve t ⟨i, hi⟩
  · have hmat0 : ∀ q, mat q = gmeMatIj ij stack (List.ofFn fun l => gmeEinv idx u0 (hom l) (S l t0)) (basis q) + 1 := by
      intro q
      rw [hmat q, funext hE0]
    obtain ⟨f', k1, k2⟩ := C145_error argsort hs eigh he ij stack basis (iU).length idx hidx u0 hu0 hom S DS t0 hS hinv sigma numeig
      hnum c V (fun q => by rw [← hmat0]; exact hV q) (fun q => by rw [← hmat0]; exact hinj q)
      (fun q i hc => by rw [hat]; exact hz q i hc _ (hrs t0 q))
    refine ⟨f', ?_, ?_⟩
    · simp only [hrs, Option.map_some, Option.getD_some]
      simpa only [hat] using k1
    · simp only [hrs, Option.map_some, Option.getD_some]
      simp only [hat] at k2
      refine le_of_eq_of_le ?_ k2
      congr 2
      refine sum_congr rfl fun l _ => ?_
      rw [hU, hE0 l, hent0, hhalf]
      rw [show (fun q => eigh _ (mat q)) = fun q => eigh _ (gmeMatIj ij stack
        (List.ofFn fun l => gmeEinv idx u0 (hom l) (S l t0)) (basis q) + 1) from funext fun q => by rw [hmat0]]
      refine Eq.trans ?_ (backHalf_pair h _ (DS l) fun u hu => ?_)
      · congr 1
        refine sum_congr rfl fun u hu => ?_
        have hu := mem_range.1 hu
        have : DS l u = D l (gOf b1 b2 ((iU).getD u 0)) := by
          simp only [DS, epsUniq_getD _ b1 b2 iU h hU]
          rw [if_pos (by omega)]
        rw [this]
      · simp only [DS, epsUniq_getD _ b1 b2 iU h hU]
        rw [if_neg (by omega), if_pos (by omega), if_pos (by omega), show 2 * h - (2 * h - u) = u by omega]

end

theorem layerFt_uniform (epsB epsAvg area : ℝ) (g : R2) :
    layerFt epsB epsAvg area [] g = open Classical in if isG0 g then (epsAvg : ℂ) else 0 := by
  unfold layerFt
  split_ifs <;> simp

theorem homSum_uniform (b1 b2 : R2) (area gmax : ℝ) (p : LPos) (eb ea : ℝ) (e : Option ℝ) :
    homSum (layFt area ⟨p, eb, ea, e, []⟩) b1 b2 (absInds b1 b2 gmax) = 0 := by
  classical
  unfold homSum
  refine sum_eq_zero fun i hi => sum_eq_zero fun j hj => ?_
  split_ifs with hn
  · have hN : ((⟨b1, b2, area, []⟩ : GmeStruct).gvec gmax).length = (absInds b1 b2 gmax).length := List.length_map _
    have h1 := gme_entry_diff ⟨b1, b2, area, []⟩ ⟨p, eb, ea, e, []⟩ (fun s hs => by cases hs) gmax
      ⟨i, hN ▸ mem_range.1 hi⟩ ⟨j, hN ▸ mem_range.1 hj⟩
    have h2 : epsMatAbs (layFt area ⟨p, eb, ea, e, []⟩) b1 b2 (absInds b1 b2 gmax) i j =
      (⟨b1, b2, area, []⟩ : GmeStruct).epsMat gmax ⟨p, eb, ea, e, []⟩ ⟨i, hN ▸ mem_range.1 hi⟩ ⟨j, hN ▸ mem_range.1 hj⟩ := rfl
    rw [h2, h1]
    unfold GmeStruct.ft
    rw [layerFt_uniform, if_neg, norm_zero]
    have hg : ∀ i (hi : i < (absInds b1 b2 gmax).length), ((⟨b1, b2, area, []⟩ : GmeStruct).gvec gmax)[i]'(hN ▸ hi) =
        gOf b1 b2 ((absInds b1 b2 gmax).getD i 0) := fun i hi => by
      rw [getD_of_len hi]
      exact List.getElem_map _
    rw [Fin.getElem_fin, Fin.getElem_fin, hg _ (mem_range.1 hi), hg _ (mem_range.1 hj)]
    intro h0
    have hk : gOf b1 b2 ((absInds b1 b2 gmax).getD j 0) - gOf b1 b2 ((absInds b1 b2 gmax).getD i 0) =
        gOf b1 b2 (((absInds b1 b2 gmax).getD j 0).1 - ((absInds b1 b2 gmax).getD i 0).1,
          ((absInds b1 b2 gmax).getD j 0).2 - ((absInds b1 b2 gmax).getD i 0).2) := by
      simp only [gOf, Prod.mk_sub_mk, Prod.mk.injEq]
      push_cast
      constructor <;> ring
    rw [hk] at h0
    unfold isG0 at h0
    refine absurd (lt_of_le_of_lt ?_ h0) (not_lt.2 hn.le)
    unfold norm2
    rw [Real.sqrt_le_left (by positivity)]
    nlinarith [abs_nonneg (gOf b1 b2 (((absInds b1 b2 gmax).getD j 0).1 - ((absInds b1 b2 gmax).getD i 0).1,
          ((absInds b1 b2 gmax).getD j 0).2 - ((absInds b1 b2 gmax).getD i 0).2)).1, abs_nonneg (gOf b1 b2 (((absInds b1 b2 gmax).getD j 0).1 - ((absInds b1 b2 gmax).getD i 0).1,
          ((absInds b1 b2 gmax).getD j 0).2 - ((absInds b1 b2 gmax).getD i 0).2)).2, sq_abs (gOf b1 b2 (((absInds b1 b2 gmax).getD j 0).1 - ((absInds b1 b2 gmax).getD i 0).1,
          ((absInds b1 b2 gmax).getD j 0).2 - ((absInds b1 b2 gmax).getD i 0).2)).1, sq_abs (gOf b1 b2 (((absInds b1 b2 gmax).getD j 0).1 - ((absInds b1 b2 gmax).getD i 0).1,
          ((absInds b1 b2 gmax).getD j 0).2 - ((absInds b1 b2 gmax).getD i 0).2)).2]
  · rfl

/-- The permittivity of a homogeneous layer with an effective permittivity set by hand, any lattice and any `gmax`. -/
example (argsort : List ℝ → List ℕ) (hs : ∀ l, IsArgsort l (argsort l))
    (eigh : ∀ n, Matrix (Fin n) (Fin n) ℂ → Fin n → ℝ) (he : GoodEigh eigh) (b1 b2 : R2) (gmax : ℝ) (hg : 0 ≤ gmax)
    (guided : GuidedSolver) (h0 : 0 < ((absInds b1 b2 gmax).map (gOf b1 b2)).length)
    (hgd : guided [(.inner 1, 1)] ((absInds b1 b2 gmax).map (gOf b1 b2)) [(1, 0)] 0 =
      .ok [⟨0, ⟨0, h0⟩, ⟨.te, 1, 0, 1, [⟨1, 0, 0⟩]⟩⟩]) :
    ∃ (rs : ℝ → List KRes) (f' : ℝ), (∀ᶠ t in 𝓝 (2 : ℝ), gmeSimIj (fun _ _ => 1) argsort eigh guided
      (withLayers b1 b2 1 fun _ : Fin 1 => ⟨.inner 1, 1, t, some 1, []⟩) gmax false "custom" [(1, 0)] 0 1 = .ok (rs t)) ∧
      HasDerivAt (fun t => (((rs t)[0]?).map fun r => r.freq.getD 0 0).getD 0) f' 2 := by
  classical
  have hz : epsMatAbs (layFt 1 ⟨.inner 1, 1, 2, some 1, []⟩) b1 b2 (absInds b1 b2 gmax) 0 0 = 2 := by
    have h1 := gme_entry_diff ⟨b1, b2, 1, []⟩ ⟨.inner 1, 1, 2, some 1, []⟩ (fun s hs => by cases hs) gmax ⟨0, h0⟩ ⟨0, h0⟩
    refine Eq.trans (show _ = (⟨b1, b2, 1, []⟩ : GmeStruct).epsMat gmax ⟨.inner 1, 1, 2, some 1, []⟩ ⟨0, h0⟩ ⟨0, h0⟩ from rfl)
      (h1.trans ?_)
    unfold GmeStruct.ft
    rw [layerFt_uniform, sub_self, if_pos isG0_zero]
    norm_num
  have hei : (withLayers b1 b2 1 fun _ : Fin 1 => ⟨.inner 1, 1, 2, some 1, []⟩).epsInv gmax false ⟨.inner 1, 1, 2, some 1, []⟩ =
      .ok ((2 : ℂ)⁻¹ • 1) := by
    have e0 : (withLayers b1 b2 1 fun _ : Fin 1 => ⟨.inner 1, 1, 2, some 1, []⟩).epsInv gmax false
        ⟨.inner 1, 1, 2, some 1, []⟩ =
        if homAbs (layFt 1 ⟨.inner 1, 1, 2, some 1, []⟩) b1 b2 (absInds b1 b2 gmax) ∨ false = true then
          .ok ((epsMatAbs (layFt 1 ⟨.inner 1, 1, 2, some 1, []⟩) b1 b2 (absInds b1 b2 gmax) 0 0)⁻¹ • 1)
        else if ((withLayers b1 b2 1 fun _ : Fin 1 => ⟨.inner 1, 1, 2, some 1, []⟩).epsMat gmax
          ⟨.inner 1, 1, 2, some 1, []⟩).det = 0 then .error .valueError
        else .ok ((withLayers b1 b2 1 fun _ : Fin 1 => ⟨.inner 1, 1, 2, some 1, []⟩).epsMat gmax
          ⟨.inner 1, 1, 2, some 1, []⟩)⁻¹ := rfl
    rw [e0, if_pos, hz]
    left
    rw [homAbs_iff, homSum_uniform]
    norm_num
  set b : List (BasisEl ((absInds b1 b2 gmax).map (gOf b1 b2)).length) := [⟨0, ⟨0, h0⟩, ⟨.te, 1, 0, 1, [⟨1, 0, 0⟩]⟩⟩] with hb
  set M := gmeMatIj (fun _ _ => 1) [(.inner 1, 1)] (List.ofFn fun _ : Fin 1 => (2 : ℂ)⁻¹ • (1 : Matrix
    (Fin ((absInds b1 b2 gmax).map (gOf b1 b2)).length) (Fin ((absInds b1 b2 gmax).map (gOf b1 b2)).length) ℂ)) b + 1 with hMd
  have hM : M 0 0 = ((3 / 2 : ℝ) : ℂ) := by
    rw [hMd]
    simp [gmeMatIj, completeMat, blockUpper, gmeElem, layPairs, matTeTe, dot2, GmeState.q, GmeState.gk, b]
    norm_num
  have hH : M.IsHermitian := (gmeMatIj_herm _ _ _ _).add Matrix.isHermitian_one
  obtain ⟨V, hV⟩ := he _ _ hH
  have hw : eigh _ M = fun _ => (3 / 2 : ℝ) := by
    funext m
    have h1 : eigh 1 M 0 = (M 0 0).re := isEigh_one hV
    rw [hM] at h1
    have hm : m = (0 : Fin 1) := Subsingleton.elim (α := Fin 1) _ _
    rw [hm]
    exact h1.trans (Complex.ofReal_re _)
  obtain ⟨rs, k1, k2⟩ := C150_gme b1 b2 gmax (fun _ _ => 1) argsort hs eigh he guided 1
    (fun (_ : Fin 1) t => ⟨.inner 1, 1, t, some 1, []⟩) "custom" hg (fun _ => .inner 1) (fun _ => 1) (fun _ _ => rfl)
    (fun _ _ => by simp [GmeLay.eff]) 2 (fun _ g => if isG0 g then 1 else 0) (fun _ g => by
      simp only [layFt, layerFt_uniform]
      split_ifs
      · exact Complex.ofRealCLM.hasDerivAt
      · exact hasDerivAt_const _ _) (fun _ => by rw [homSum_uniform]; norm_num) (fun _ => by rw [hz]; norm_num) [(1, 0)] 0 1
    (fun _ => b) (fun q => by
      have : q = (0 : Fin 1) := Subsingleton.elim (α := Fin 1) _ _
      rw [this]
      exact hgd) (fun _ => le_refl 1) (fun _ i => if i = 0 then 1 else 0) (fun _ => (2 : ℂ)⁻¹ • 1) (fun _ => hei) (fun _ => M)
    (fun _ => rfl) (fun _ => V) (fun _ => hV) (fun _ x y _ => Subsingleton.elim (α := Fin 1) x y)
  have hk : ∃ r, (rs 2)[0]? = some r ∧ r.freq.getD 0 0 ≠ 0 := by
    have h2 := k1.self_of_nhds
    have m1 : (List.ofFn fun _ : Fin 1 => (⟨.inner 1, 1, 2, some 1, []⟩ : GmeLay)).mapM (GmeLay.eff "custom") =
        .ok (List.ofFn fun _ : Fin 1 => (1 : ℝ)) := mapM_ofFn_ok _ _ _ fun _ => by simp [GmeLay.eff]
    have m2 : (List.ofFn fun _ : Fin 1 => (⟨.inner 1, 1, 2, some 1, []⟩ : GmeLay)).mapM
        ((withLayers b1 b2 1 fun _ : Fin 1 => ⟨.inner 1, 1, 2, some 1, []⟩).epsInv gmax false) =
        .ok (List.ofFn fun _ : Fin 1 => (2 : ℂ)⁻¹ • 1) := mapM_ofFn_ok _ _ _ fun _ => hei
    obtain ⟨q1, q2⟩ := selectModes_mem hs (fun _ : Fin 1 => (3 / 2 : ℝ)) 0 (le_refl 1)
    have hl : List.ofFn (fun _ : Fin b.length => (3 / 2 : ℝ)) = [3 / 2] := rfl
    have hl' : List.ofFn (fun _ : Fin 1 => (3 / 2 : ℝ)) = [3 / 2] := rfl
    rw [hl'] at q1 q2
    have hsel : selectModes argsort ([3 / 2].map freqOf) 0 1 = [0] := by
      obtain ⟨x, hx⟩ := List.length_eq_one_iff.1 q2
      have : x = 0 := Nat.lt_one_iff.1 (q1 x (by rw [hx]; simp))
      rw [hx, this]
    have hsol : solveFull argsort (List.ofFn (eigh _ M)) 0 1 = .ok ⟨[0], [freqOf (3 / 2)], []⟩ := by
      rw [hw, hl]
      unfold solveFull
      simp only [List.length_singleton, lt_self_iff_false, if_false, hsel]
      rfl
    unfold gmeSimIj at h2
    simp only [withLayers] at h2 m1 m2
    rw [m1] at h2
    simp only [Bind.bind, Except.bind] at h2
    rw [m2] at h2
    obtain ⟨l1, l2⟩ := (mapM_ok_iff _ _ _).1 h2
    have l1' : (rs 2).length = 1 := by simpa using l1
    obtain ⟨r, hr⟩ := List.length_eq_one_iff.1 l1'
    have l3 : (guided [(.inner 1, 1)] ((absInds b1 b2 gmax).map (gOf b1 b2)) [(1, 0)] 0).bind
        (fun (v : List (BasisEl ((absInds b1 b2 gmax).map (gOf b1 b2)).length)) => solveFull argsort (List.ofFn (eigh v.length
          (gmeMatIj (fun _ _ => 1) [(.inner 1, 1)] (List.ofFn fun _ : Fin 1 => (2 : ℂ)⁻¹ • 1) v + 1))) 0 1) = .ok r :=
      l2 0 0 r rfl (by rw [hr]; rfl)
    rw [hgd] at l3
    have l4 := hsol.symm.trans l3
    refine ⟨r, by rw [hr]; rfl, ?_⟩
    rw [← Except.ok.inj l4]
    norm_num [freqOf, Real.pi_ne_zero]
  obtain ⟨r, hr1, hr2⟩ := hk
  obtain ⟨f', k3, -⟩ := k2 fun q i hc r' hr' => by
    have hq : (q : ℕ) = 0 := Nat.lt_one_iff.1 q.2
    have hi : i = 0 := by
      by_contra h
      simp [h] at hc
    rw [hq, hr1] at hr'
    rw [hi, ← Option.some.inj hr']
    exact hr2
  refine ⟨rs, f' ⟨0, by simp⟩ 0, k1, ?_⟩
  convert k3 using 1
  · funext t
    exact (Fin.sum_univ_one (fun q : Fin 1 => ∑ i ∈ range 1, (if i = 0 then (1 : ℝ) else 0) *
      (((rs t)[(q : ℕ)]?).map fun r => r.freq.getD i 0).getD 0)).symm ▸ by simp
  · exact (Fin.sum_univ_one (fun q : Fin 1 => ∑ i ∈ range 1, (if i = 0 then (1 : ℝ) else 0) * f' q i)).symm ▸ by simp

/-! ### Two-dimensional crystals -/

theorem raw_consistent (FT : R2 → ℂ) (hF : ∀ g : R2, FT (-g.1, -g.2) = conj (FT g)) (gs : List R2) (n p : ℕ) (hp : 0 < p) :
    ToeplitzConsistent n p (T1raw FT gs) (T2raw FT gs p) := by
  refine ⟨fun d _ => ?_, fun m hm => ?_⟩
  · unfold T1raw T2raw
    rw [Nat.mul_mod_left, Nat.mul_div_cancel _ hp]
  · unfold T1raw T2raw
    rw [Nat.mod_eq_of_lt hm, Nat.div_eq_of_lt hm, zero_mul, ← hF]
    simp

theorem layerFt_castTo (eb ea area : ℝ) (sh : List FShape) (g : R2) :
    castTo sh.isEmpty (layerFt eb ea area sh g) = layerFt eb ea area sh g := by
  cases h : sh with
  | nil =>
    simp only [List.isEmpty_nil, castTo, if_true]
    rw [layerFt_uniform]
    split_ifs <;> simp
  | cons a l => rfl

theorem pweRun_resize (argsort : List ℝ → List ℕ) (eigh : ∀ n, Matrix (Fin n) (Fin n) ℂ → Fin n → ℝ) (pol : String) (k : R2)
    (gs : List R2) (n p : ℕ) (hl : gs.length = n * p) (T1 T2 : ℕ → ℂ) (numeig : ℕ) :
    ((of fun I J : Fin gs.length => toeplitzBlock n gs.length false T1 T2 I J).det = (toepMat n p T1 T2).det) ∧
    pweRun argsort (eigh _) pol k (fun i : Fin gs.length => gs[i])
        (of fun I J : Fin gs.length => toeplitzBlock n gs.length false T1 T2 I J)⁻¹ numeig =
      pweRun argsort (eigh _) pol k (fun i : Fin (n * p) => gs.getD i 0) (toepMat n p T1 T2)⁻¹ numeig := by
  have h : ∀ (N : ℕ) (hN : N = n * p) (g : Fin N → R2), (∀ i, g i = gs.getD i 0) →
      ((of fun I J : Fin N => toeplitzBlock n N false T1 T2 I J).det = (toepMat n p T1 T2).det) ∧
      pweRun argsort (eigh _) pol k g (of fun I J : Fin N => toeplitzBlock n N false T1 T2 I J)⁻¹ numeig =
      pweRun argsort (eigh _) pol k (fun i : Fin (n * p) => gs.getD i 0) (toepMat n p T1 T2)⁻¹ numeig := by
    intro N hN g hg
    subst hN
    rw [funext hg]
    exact ⟨rfl, rfl⟩
  exact h _ hl _ fun i => (getD_of_len i.2).symm

section
variable (b1 b2 : R2) (gmax : ℝ)

/-- The plane waves. -/
local notation "gS" => List.map (gOf b1 b2) (tbtInds (nmaxOf (2 * π) gmax b1) (nmaxOf (2 * π) gmax b2))
/-- Their numbers along the two directions. -/
local notation "p1" => (2 * nmaxOf (2 * π) gmax b1 + 1)
local notation "p2" => (2 * nmaxOf (2 * π) gmax b2 + 1)

/-- **C150 (two-dimensional crystals).** The same for a run of `PlaneWaveExp` over any list of wave vectors: the transform of
the layer is differentiable, its permittivity matrix is invertible, and the frequencies at each wave vector differ. -/
theorem C150_pwe (argsort : List ℝ → List ℕ) (hs : ∀ l, IsArgsort l (argsort l))
    (eigh : ∀ n, Matrix (Fin n) (Fin n) ℂ → Fin n → ℝ) (he : GoodEigh eigh) (area : ℝ) (epsB epsAvg : ℝ → ℝ)
    (shapes : ℝ → List FShape) (hr : ∀ t, ∀ s ∈ shapes t, RealShape s) (t0 : ℝ) (D : R2 → ℂ)
    (hD : ∀ g, HasDerivAt (fun t => layerFt (epsB t) (epsAvg t) area (shapes t) g) (D g) t0) (ks : List R2) (pol : String) (P : Pol)
    (hpol : parsePol pol = .ok P) (numeig : ℕ) (E : Matrix (Fin (p1 * p2)) (Fin (p1 * p2)) ℂ)
    (hE : E = toepMat p1 p2 (T1raw (layerFt (epsB t0) (epsAvg t0) area (shapes t0)) gS)
      (T2raw (layerFt (epsB t0) (epsAvg t0) area (shapes t0)) gS p2))
    (hok : ∃ r, pweFreqs argsort eigh ⟨b1, b2, area, epsB t0, epsAvg t0, shapes t0⟩ gmax ks pol numeig = .ok r)
    (c : Fin ks.length → ℕ → ℝ) (V : Fin ks.length → Matrix (Fin (p1 * p2)) (Fin (p1 * p2)) ℂ)
    (hV : ∀ q : Fin ks.length, IsEigh (pweMat P ks[q] (fun i => (gS).getD i 0) E⁻¹ + 1)
      (eigh _ (pweMat P ks[q] (fun i => (gS).getD i 0) E⁻¹ + 1)) (V q))
    (hinj : ∀ q : Fin ks.length, Function.Injective fun m =>
      freqOf (eigh _ (pweMat P ks[q] (fun i => (gS).getD i 0) E⁻¹ + 1) m)) :
    ∃ rs : ℝ → List (List ℝ), (∀ᶠ t in 𝓝 t0, pweFreqs argsort eigh ⟨b1, b2, area, epsB t, epsAvg t, shapes t⟩ gmax ks pol numeig =
        .ok (rs t)) ∧
      ((∀ (q : Fin ks.length) i, c q i ≠ 0 → ((rs t0).getD q []).getD i 0 ≠ 0) →
      ∃ f' : Fin ks.length → ℕ → ℝ,
        HasDerivAt (fun t => ∑ q : Fin ks.length, ∑ i ∈ range numeig, c q i * ((rs t).getD q []).getD i 0)
          (∑ q, ∑ i ∈ range numeig, c q i * f' q i) t0 ∧
        |(∑ m ∈ range (p1 * p2), (pweBackward argsort P (fun i => (gS).getD i 0) (fun q : Fin ks.length => ks[q]) E⁻¹
            (fun q => eigh _ (pweMat P ks[q] (fun i => (gS).getD i 0) E⁻¹ + 1)) V numeig c).1 m *
              D ((gS).getD 0 0 - (gS).getD m 0) +
          ∑ m ∈ range (p1 * p2), (pweBackward argsort P (fun i => (gS).getD i 0) (fun q : Fin ks.length => ks[q]) E⁻¹
            (fun q => eigh _ (pweMat P ks[q] (fun i => (gS).getD i 0) E⁻¹ + 1)) V numeig c).2 m *
              D ((gS).getD (m % p2) 0 - (gS).getD (m / p2 * p2) 0)).re -
          ∑ q, ∑ i ∈ range numeig, c q i * f' q i| ≤
        ∑ q : Fin ks.length, ∑ i ∈ range numeig, |c q i * f' q i| *
          (1e-10 / (2 * π * ((rs t0).getD q []).getD i 0) ^ 2)) := by
  classical
  set FT : ℝ → R2 → ℂ := fun t => layerFt (epsB t) (epsAvg t) area (shapes t) with hFT
  have hF : ∀ t (g : R2), FT t (-g.1, -g.2) = conj (FT t g) := fun t g => (C12_layer_conj _ _ _ _ (hr t) g).1
  set T1 : ℝ → ℕ → ℂ := fun t => T1raw (FT t) gS with hT1
  set T2 : ℝ → ℕ → ℂ := fun t => T2raw (FT t) gS p2 with hT2
  have hl : (gS).length = p1 * p2 := by rw [List.length_map, tbtInds_length]
  have hm : ∀ t, (⟨b1, b2, area, epsB t, epsAvg t, shapes t⟩ : PweLayer).epsMat gmax =
      (of fun I J : Fin (gS).length => toeplitzBlock p1 (gS).length false (T1 t) (T2 t) I J) := by
    intro t
    ext I J
    exact toeplitzBlock_real _ _ _ _ _ (fun _ => layerFt_castTo _ _ _ _ _) (fun _ => layerFt_castTo _ _ _ _ _) _ _
  set sol : ℝ → R2 → KRes := fun t k => solvePwe argsort (List.ofFn (eigh _ (pweMat P k (fun i : Fin (p1 * p2) => (gS).getD i 0)
    (toepMat p1 p2 (T1 t) (T2 t))⁻¹ + 1))) numeig with hsol
  have hrun : ∀ t k, pweRun argsort (eigh _) pol k ((⟨b1, b2, area, epsB t, epsAvg t, shapes t⟩ : PweLayer).gAt gmax)
      ((⟨b1, b2, area, epsB t, epsAvg t, shapes t⟩ : PweLayer).epsMat gmax)⁻¹ numeig = .ok (sol t k) := by
    intro t k
    rw [hm]
    refine ((pweRun_resize argsort eigh pol k gS p1 p2 hl (T1 t) (T2 t) numeig).2).trans ?_
    unfold pweRun
    rw [hpol]
  have hfr : ∀ t, (toepMat p1 p2 (T1 t) (T2 t)).det ≠ 0 →
      pweFreqs argsort eigh ⟨b1, b2, area, epsB t, epsAvg t, shapes t⟩ gmax ks pol numeig =
        .ok (ks.map fun k => (sol t k).freq) := by
    intro t hd
    unfold pweFreqs pweSim
    have h0 : ((⟨b1, b2, area, epsB t, epsAvg t, shapes t⟩ : PweLayer).epsMat gmax).det ≠ 0 := by
      rw [hm]
      exact fun h => hd (((pweRun_resize argsort eigh pol 0 gS p1 p2 hl (T1 t) (T2 t) numeig).1).symm.trans h)
    rw [if_neg h0]
    simp only [hrun, mapM_ok_map]
    simp [Except.map, List.map_map, Function.comp_def]
  have h1 : ∀ m, HasDerivAt (fun t => T1 t m) (D ((gS).getD 0 0 - (gS).getD m 0)) t0 := fun m => hD _
  have h2 : ∀ m, HasDerivAt (fun t => T2 t m) (D ((gS).getD (m % p2) 0 - (gS).getD (m / p2 * p2) 0)) t0 := fun m => hD _
  have hdet : (toepMat p1 p2 (T1 t0) (T2 t0)).det ≠ 0 := by
    obtain ⟨r, hr0⟩ := hok
    unfold pweFreqs pweSim at hr0
    intro h0
    rw [if_pos (by
      rw [hm]
      exact ((pweRun_resize argsort eigh pol 0 gS p1 p2 hl (T1 t0) (T2 t0) numeig).1).trans h0)] at hr0
    cases hr0
  have hev : ∀ᶠ t in 𝓝 t0, (toepMat p1 p2 (T1 t) (T2 t)).det ≠ 0 := by
    have hc : ContinuousAt (fun t => toepMat p1 p2 (T1 t) (T2 t)) t0 :=
      tendsto_pi_nhds.2 fun i => tendsto_pi_nhds.2 fun j => (toepMat_deriv p1 p2 T1 T2 _ _ t0 h1 h2 i j).continuousAt
    have hd : ContinuousAt (fun t => (toepMat p1 p2 (T1 t) (T2 t)).det) t0 :=
      (continuous_id.matrix_det).continuousAt.comp hc
    exact hd.eventually_ne hdet
  have hat : ∀ t (q : Fin ks.length) i, ((ks.map fun k => (sol t k).freq).getD q []).getD i 0 =
      pweFreqAt argsort eigh P (fun i : Fin (p1 * p2) => (gS).getD i 0) ks[q] (toepMat p1 p2 (T1 t) (T2 t)) numeig i := by
    intro t q i
    rw [getD_of_len (l := ks.map fun k => (sol t k).freq) (by rw [List.length_map]; exact q.2), List.getElem_map]
    rfl
  refine ⟨fun t => ks.map fun k => (sol t k).freq, hev.mono fun t ht => hfr t ht, fun hz => ?_⟩
  simp only [hat] at hz ⊢
  subst hE
  obtain ⟨f', k1, -, k2⟩ := C143_error argsort hs eigh he (Nat.succ_pos _) T1 T2 _ _ t0 h1 h2
    (fun t => raw_consistent (FT t) (hF t) gS p1 p2 (Nat.succ_pos _)) hdet P (fun i : Fin (p1 * p2) => (gS).getD i 0)
    (fun q : Fin ks.length => ks[q]) numeig c V hV hinj hz
  exact ⟨f', k1, k2⟩

end

theorem parsePol_te : parsePol "te" = .ok .te := by
  unfold parsePol
  rw [if_pos (by decide)]

theorem pweFreqs_one (argsort : List ℝ → List ℕ) (eigh : ∀ n, Matrix (Fin n) (Fin n) ℂ → Fin n → ℝ) (b1 b2 : R2) (ks : List R2)
    (numeig : ℕ) : ∃ r, pweFreqs argsort eigh ⟨b1, b2, 1, 1, 2, []⟩ 0 ks "te" numeig = .ok r := by
  classical
  set L : PweLayer := ⟨b1, b2, 1, 1, 2, []⟩ with hL
  have hlen : (L.gvec 0).length = 1 := by
    rw [PweLayer.gvec, List.length_map, tbtInds_length, PweLayer.n1, PweLayer.n2]
    simp [nmaxOf]
  have hs' : Subsingleton (Fin (L.gvec 0).length) := by rw [hlen]; infer_instance
  have hz : 0 < (L.gvec 0).length := by rw [hlen]; exact one_pos
  have hent := pweEps_entry L 0 (pweFt_conj L fun s hs => by simp [hL] at hs) ⟨0, hz⟩ ⟨0, hz⟩
  have hd : (L.epsMat 0).det ≠ 0 := by
    rw [Matrix.det_eq_elem_of_subsingleton _ (⟨0, hz⟩ : Fin _), hent, sub_self, sub_self]
    unfold PweLayer.ft
    rw [hL, layerFt_uniform, if_pos (show isG0 (0, 0) from isG0_zero)]
    norm_num
  unfold pweFreqs pweSim
  rw [if_neg hd]
  simp only [pweRun, parsePol_te, mapM_ok_map]
  exact ⟨_, rfl⟩

/-- The mean permittivity of a layer, one plane wave, any two wave vectors. -/
example (argsort : List ℝ → List ℕ) (hs : ∀ l, IsArgsort l (argsort l))
    (eigh : ∀ n, Matrix (Fin n) (Fin n) ℂ → Fin n → ℝ) (he : GoodEigh eigh) (b1 b2 k k' : R2) :
    ∃ rs : ℝ → List (List ℝ), (∀ᶠ t in 𝓝 (2 : ℝ), pweFreqs argsort eigh ⟨b1, b2, 1, 1, t, []⟩ 0 [k, k'] "te" 1 = .ok (rs t)) ∧
      ((∀ q : Fin 2, ((rs 2).getD q []).getD 0 0 ≠ 0) →
        DifferentiableAt ℝ (fun t => ((rs t).getD 0 []).getD 0 0 + ((rs t).getD 1 []).getD 0 0) 2) := by
  classical
  have hn : ∀ b : R2, nmaxOf (2 * π) 0 b = 0 := fun b => by simp [nmaxOf]
  have hnp : (2 * nmaxOf (2 * π) 0 b1 + 1) * (2 * nmaxOf (2 * π) 0 b2 + 1) = 1 := by rw [hn, hn]
  have hsub : Subsingleton (Fin ((2 * nmaxOf (2 * π) 0 b1 + 1) * (2 * nmaxOf (2 * π) 0 b2 + 1))) := by
    rw [hnp]; infer_instance
  have hr : ∀ s ∈ ([] : List FShape), RealShape s := fun s hs => by cases hs
  set gs := List.map (gOf b1 b2) (tbtInds (nmaxOf (2 * π) 0 b1) (nmaxOf (2 * π) 0 b2)) with hgs
  set E := toepMat (2 * nmaxOf (2 * π) 0 b1 + 1) (2 * nmaxOf (2 * π) 0 b2 + 1) (T1raw (layerFt 1 2 1 []) gs)
    (T2raw (layerFt 1 2 1 []) gs (2 * nmaxOf (2 * π) 0 b2 + 1)) with hE
  have hcons := raw_consistent (layerFt 1 2 1 []) (fun g => (C12_layer_conj _ _ _ _ hr g).1) gs
    (2 * nmaxOf (2 * π) 0 b1 + 1) (2 * nmaxOf (2 * π) 0 b2 + 1) (Nat.succ_pos _)
  have hH : ∀ k, (pweMat .te k (fun i => gs.getD i 0) E⁻¹ + 1).IsHermitian := fun k =>
    pweMat_hermitian .te k _ _ (toepMat_hermitian _ _ _ _ hcons).inv
  have hok := pweFreqs_one argsort eigh b1 b2 [k, k'] 1
  have hV : ∀ q : Fin [k, k'].length, ∃ V, IsEigh (pweMat .te [k, k'][q] (fun i => gs.getD i 0) E⁻¹ + 1)
    (eigh _ (pweMat .te [k, k'][q] (fun i => gs.getD i 0) E⁻¹ + 1)) V := fun q => he _ _ (hH _)
  choose V hV using hV
  obtain ⟨rs, k1, k2⟩ := C150_pwe b1 b2 0 argsort hs eigh he 1 (fun _ => 1) (fun t => t) (fun _ => []) (fun _ => hr) 2
    (fun g => if isG0 g then 1 else 0) (fun g => by
      simp only [layerFt_uniform]
      split_ifs
      · exact Complex.ofRealCLM.hasDerivAt
      · exact hasDerivAt_const _ _) [k, k'] "te" .te parsePol_te 1 E hE hok (fun _ i => if i = 0 then 1 else 0) V hV
    (fun q x y _ => Subsingleton.elim x y)
  refine ⟨rs, k1, fun hz => ?_⟩
  obtain ⟨f', k3, -⟩ := k2 fun q i hc => by
    have hi : i = 0 := by
      by_contra h
      simp [h] at hc
    rw [hi]
    exact hz q
  refine (HasDerivAt.congr_of_eventuallyEq k3 (Eventually.of_forall fun t => ?_)).differentiableAt
  exact ((Fin.sum_univ_two (fun q : Fin 2 => ∑ i ∈ range 1, (if i = 0 then (1 : ℝ) else 0) *
      ((rs t).getD q []).getD i 0)).trans (by simp)).symm

end Legume
