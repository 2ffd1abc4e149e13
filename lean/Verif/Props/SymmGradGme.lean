import Verif.Props.SymmGrad

/-! # C154 for guided modes with `eig_sigma=0` -/
namespace Legume

open Matrix Spec Finset Filter Topology
open scoped ComplexConjugate Real

/-- With `eig_sigma=0` the selected modes are the first ones of an order of all by frequency. -/
theorem zero_order (argsort : List ℝ → List ℕ) (hs : ∀ l, IsArgsort l (argsort l)) {N : ℕ} (w : Fin N → ℝ) (numeig : ℕ)
    (hn : numeig ≤ N) :
    ∃ rest, (selectModes argsort ((List.ofFn w).map freqOf) 0 numeig ++ rest).Perm (List.range N) ∧
      (selectModes argsort ((List.ofFn w).map freqOf) 0 numeig).length = min numeig N ∧ ∀ i < N,
      freqOf ((List.ofFn w).getD ((selectModes argsort ((List.ofFn w).map freqOf) 0 numeig ++ rest).getD i 0) 0) =
        (solvePwe argsort (List.ofFn w) N).freq.getD i 0 := by
  set F := (List.ofFn w).map freqOf with hF
  have hFl : F.length = N := by simp [hF]
  have hF0 : ∀ i, 0 ≤ F.getD i 0 := by
    intro i
    rw [List.getD_eq_getElem?_getD]
    rcases h : F[i]? with _ | x
    · simp
    · have : x ∈ F := List.mem_of_getElem? h
      obtain ⟨y, -, rfl⟩ := List.mem_map.1 this
      exact freqOf_nonneg y
  obtain ⟨a, b, c, d, e⟩ := select_facts argsort hs F 0 numeig (by rw [hFl]; exact hn)
  set sel := selectModes argsort F 0 numeig with hsel
  have e' : ∀ i ∈ sel, ∀ j, j < F.length → j ∉ sel → F.getD i 0 ≤ F.getD j 0 := by
    intro i hi j hj hjs
    have := e i hi j hj hjs
    rwa [sub_zero, sub_zero, abs_of_nonneg (hF0 i), abs_of_nonneg (hF0 j)] at this
  set rem := (List.range F.length).filter (fun i => decide (i ∉ sel)) with hrem
  have hremmem : ∀ i ∈ rem, i < F.length ∧ i ∉ sel := by
    intro i hi
    rw [hrem, List.mem_filter, List.mem_range] at hi
    exact ⟨hi.1, by simpa using hi.2⟩
  set rest := rem.mergeSort (fun i j => decide (F.getD i 0 ≤ F.getD j 0)) with hrest
  have hrp : rest.Perm rem := List.mergeSort_perm _ _
  have hperm : (sel ++ rest).Perm (List.range F.length) := by
    refine (List.Perm.append_left sel hrp).trans ?_
    refine (List.perm_ext_iff_of_nodup ?_ List.nodup_range).2 ?_
    · refine List.Nodup.append b (List.nodup_range.filter _) ?_
      intro i hi hi'
      exact (hremmem i hi').2 hi
    · intro i
      rw [List.mem_append, hrem, List.mem_filter, List.mem_range]
      constructor
      · rintro (h | h)
        · exact c i h
        · exact h.1
      · intro h
        by_cases hi : i ∈ sel
        · exact Or.inl hi
        · exact Or.inr ⟨h, by simpa using hi⟩
  have hall : (List.range F.length).map (fun (i : ℕ) => F.getD i 0) = F := by
    apply List.ext_getElem
    · simp
    · intro i h1 h2
      simp [List.getD_eq_getElem?_getD, List.getElem?_eq_getElem h2]
  have hrs : rest.Pairwise fun i j => F.getD i 0 ≤ F.getD j 0 := by
    have := List.pairwise_mergeSort (le := fun i j : ℕ => decide (F.getD i 0 ≤ F.getD j 0))
      (fun x y z h1 h2 => by simp only [decide_eq_true_eq] at *; exact h1.trans h2)
      (fun x y => by simp only [Bool.or_eq_true, decide_eq_true_eq]; exact le_total _ _) rem
    exact this.imp fun h => by simpa using h
  have hsorted : ((sel ++ rest).map fun (i : ℕ) => F.getD i 0).Pairwise (· ≤ ·) := by
    rw [List.pairwise_map, List.pairwise_append]
    refine ⟨?_, hrs, fun i hi j hj => ?_⟩
    · exact List.pairwise_map.1 d
    · obtain ⟨h1, h2⟩ := hremmem j (hrp.mem_iff.1 hj)
      exact e' i hi j h1 h2
  have hfreq : (solvePwe argsort (List.ofFn w) N).freq = (sel ++ rest).map fun (i : ℕ) => F.getD i 0 := by
    rw [solvePwe_freq argsort hs _ _ (((hperm.map _).trans (List.Perm.of_eq hall))) hsorted N,
      List.take_of_length_le (by rw [List.length_map, hperm.length_eq, List.length_range, hFl])]
  refine ⟨rest, by rw [← hFl]; exact hperm, by rw [a, min_eq_left hn], fun i hi => ?_⟩
  have hi' : i < (sel ++ rest).length := by rw [hperm.length_eq, List.length_range, hFl]; exact hi
  have hm : (sel ++ rest)[i] < N := by
    rw [← hFl]
    exact List.mem_range.1 (hperm.mem_iff.1 (List.getElem_mem hi'))
  rw [hfreq, getD_of_len hi', List.getD_eq_getElem?_getD (l := (sel ++ rest).map _), List.getElem?_map,
    List.getElem?_eq_getElem hi', Option.map_some, Option.getD_some, hF, ofFn_map_getD _ _ hm, getD_of_len (by simpa using hm)]
  simp

/-- Gradients with respect to the samples of all layers. -/
theorem gme_gradient_symm (argsort : List ℝ → List ℕ) (hs : ∀ l, IsArgsort l (argsort l))
    (eigh : ∀ n, Matrix (Fin n) (Fin n) ℂ → Fin n → ℝ) (he : GoodEigh eigh) (ij : LPos → ℂ → ℂ) {N K L : ℕ}
    (stack : List (LPos × ℝ)) (basis : Fin K → List (BasisEl N)) (nU : ℕ) (idx : Fin N → Fin N → ℕ)
    (hidx : ∀ i j, idx i j < nU) (u0 : ℕ) (hu0 : u0 < nU) (hom : Fin L → Bool)
    (S : Fin L → ℝ → ℕ → ℂ) (D : Fin L → ℕ → ℂ) (t0 : ℝ) (hS : ∀ l u, HasDerivAt (fun t => S l t u) (D l u) t0)
    (hinv : ∀ l, if hom l then S l t0 u0 ≠ 0 else (of fun i j => S l t0 (idx i j)).det ≠ 0)
    (numeig : ℕ) (hnum : ∀ q, numeig ≤ (basis q).length) (c : Fin K → ℕ → ℝ)
    (V : ∀ q, Matrix (Fin (basis q).length) (Fin (basis q).length) ℂ)
    (hV : ∀ q, IsEigh (gmeMatIj ij stack (List.ofFn fun l => gmeEinv idx u0 (hom l) (S l t0)) (basis q) + 1)
      (eigh _ (gmeMatIj ij stack (List.ofFn fun l => gmeEinv idx u0 (hom l) (S l t0)) (basis q) + 1)) (V q))
    (hsym : ∀ q r, solveFull argsort (List.ofFn (eigh _
        (gmeMatIj ij stack (List.ofFn fun l => gmeEinv idx u0 (hom l) (S l t0)) (basis q) + 1))) 0 (basis q).length = .ok r →
      ∀ i j, i < (basis q).length → j < (basis q).length → r.freq.getD i 0 = r.freq.getD j 0 →
        allWeights numeig (c q) i = allWeights numeig (c q) j)
    (hz : ∀ q i, c q i ≠ 0 → gmeFreqAt argsort eigh ij stack (List.ofFn fun l => gmeEinv idx u0 (hom l) (S l t0)) (basis q)
      0 numeig i ≠ 0) :
    ∃ f' : Fin K → ℕ → ℝ,
      HasDerivAt (fun t => ∑ q, ∑ i ∈ range numeig, c q i * gmeFreqAt argsort eigh ij stack
        (List.ofFn fun l => gmeEinv idx u0 (hom l) (S l t)) (basis q) 0 numeig i)
        (∑ q, ∑ i ∈ range numeig, c q i * f' q i) t0 ∧
      ∑ l, (∑ u ∈ range nU, gmeBackSamples idx u0 (hom l) (S l t0 u0) (gmeEinv idx u0 (hom l) (S l t0))
          (gmeBackward argsort ij stack L basis (fun q =>
            eigh _ (gmeMatIj ij stack (List.ofFn fun l => gmeEinv idx u0 (hom l) (S l t0)) (basis q) + 1)) V 0 numeig c l) u *
          D l u).re =
        ∑ q, ∑ i ∈ range numeig, c q i * sqrtRatio (gmeFreqAt argsort eigh ij stack
          (List.ofFn fun l => gmeEinv idx u0 (hom l) (S l t0)) (basis q) 0 numeig i) * f' q i := by
  classical
  set F : Fin L → ℝ → Matrix (Fin N) (Fin N) ℂ := fun l t => gmeEinv idx u0 (hom l) (S l t) with hFd
  set F' : Fin L → Matrix (Fin N) (Fin N) ℂ := fun l => if hom l then (-(D l u0) / (S l t0 u0) ^ 2) • 1 else
    -(F l t0 * (of fun i j => D l (idx i j)) * F l t0) with hF'd
  have hF : ∀ l a b, HasDerivAt (fun t => F l t a b) (F' l a b) t0 := by
    intro l a b
    have hi := hinv l
    by_cases hh : hom l = true
    · rw [if_pos hh] at hi
      simp only [F, F', gmeEinv, hh, if_true, Matrix.smul_apply, smul_eq_mul]
      exact ((hS l u0).inv hi).mul_const _
    · rw [if_neg hh] at hi
      have hu : IsUnit (of fun i j => S l t0 (idx i j)) := (Matrix.isUnit_iff_isUnit_det _).mpr (isUnit_iff_ne_zero.mpr hi)
      simp only [F, F', gmeEinv, if_neg hh]
      exact inv_deriv (fun t => of fun i j => S l t (idx i j)) (of fun i j => D l (idx i j)) t0
        (fun i j => hS l (idx i j)) hu a b
  set A : ∀ q, ℝ → Matrix (Fin (basis q).length) (Fin (basis q).length) ℂ := fun q t =>
    gmeMatIj ij stack (List.ofFn fun l => F l t) (basis q) + 1 with hAd
  set W : ∀ q, ℝ → Fin (basis q).length → ℝ := fun q t => eigh _ (A q t) with hWd
  have hA : ∀ q i j, HasDerivAt (fun t => A q t i j) (gmeMatIj ij stack (List.ofFn F') (basis q) i j) t0 := by
    intro q i j
    simp only [A, Matrix.add_apply]
    exact (gmeMatIj_deriv ij stack (basis q) F F' t0 hF i j).add_const _
  have hH : ∀ q t, (A q t).IsHermitian := fun q t => (gmeMatIj_herm _ _ _ _).add Matrix.isHermitian_one
  set sel : Fin K → List ℕ := fun q => selectModes argsort ((List.ofFn (W q t0)).map freqOf) 0 numeig with hsel
  have hat : ∀ q t i, gmeFreqAt argsort eigh ij stack (List.ofFn fun l => F l t) (basis q) 0 numeig i =
      (solvePwe argsort (List.ofFn (W q t)) numeig).freq.getD i 0 := by
    intro q t i
    obtain ⟨r, h1, h2⟩ := solveFull_zero argsort hs (List.ofFn (W q t)) numeig (by rw [List.length_ofFn]; exact hnum q)
    unfold gmeFreqAt
    rw [show List.ofFn (eigh _ (gmeMatIj ij stack (List.ofFn fun l => F l t) (basis q) + 1)) = List.ofFn (W q t) from rfl, h1, ← h2]
  choose rest hr1 hr2 hr3 using fun q => zero_order argsort hs (W q t0) numeig (hnum q)
  have hmain := fun q => freq_gradient_symm argsort hs eigh he (A q) (gmeMatIj ij stack (List.ofFn F') (basis q)) t0 (hA q) (hH q)
    (V q) (hV q) numeig (c q) (sel q) (rest q) (hr1 q) (hr2 q) (hr3 q) (fun i j hi hj hij => by
      obtain ⟨r, h1, h2⟩ := solveFull_zero argsort hs (List.ofFn (W q t0)) (basis q).length (by rw [List.length_ofFn])
      exact hsym q r h1 i j hi hj (by rw [h2]; exact hij)) (fun i hc => by
      have := hz q i hc
      rwa [hat] at this)
  choose f' hf' hsum using hmain
  refine ⟨f', (HasDerivAt.fun_sum fun q _ => hf' q).congr_of_eventuallyEq (Eventually.of_forall fun t => ?_), ?_⟩
  · exact sum_congr rfl fun q _ => sum_congr rfl fun i _ => by rw [hat q t i]
  · have hR : ∀ q, ∑ i ∈ range numeig, c q i * sqrtRatio (gmeFreqAt argsort eigh ij stack
        (List.ofFn fun l => F l t0) (basis q) 0 numeig i) * f' q i =
        pairMat (vjpEigh false (W q t0) (V q) (backFreq (W q t0) (sel q) (c q)) 0)
          (gmeMatIj ij stack (List.ofFn F') (basis q)) := by
      intro q
      refine Eq.trans ?_ (hsum q).symm
      simp only [hat]
      rfl
    rw [sum_congr rfl fun q _ => hR q]
    refine Eq.trans ?_ (back_inv_pair ij stack L basis (fun q =>
      vjpEigh false (W q t0) (V q) (backFreq (W q t0) (sel q) (c q)) 0) F')
    refine sum_congr rfl fun l _ => ?_
    congr 1
    change ∑ u ∈ range nU, gmeBackSamples idx u0 (hom l) (S l t0 u0) (F l t0) (gmeBackInv ij stack L basis (fun q =>
      vjpEigh false (W q t0) (V q) (backFreq (W q t0) (sel q) (c q)) 0) l) u * D l u = _
    generalize gmeBackInv ij stack L basis (fun q => vjpEigh false (W q t0) (V q) (backFreq (W q t0) (sel q) (c q)) 0) l = g
    by_cases hh : hom l = true
    · simp only [gmeBackSamples, hh, if_true, ite_mul, zero_mul, F']
      rw [sum_ite_eq', if_pos (mem_range.2 hu0), sum_mul]
      refine sum_congr rfl fun a _ => ?_
      rw [sum_eq_single a (fun b _ hb => by simp [Matrix.one_apply, hb.symm]) (fun h => absurd (mem_univ _) h)]
      simp only [Matrix.smul_apply, Matrix.one_apply_eq, smul_eq_mul, mul_one]
      ring
    · simp only [gmeBackSamples, if_neg hh, F', excBackAbs, sum_mul]
      rw [← C49_pairing (F l t0) g (of fun i j => D l (idx i j)), sum_comm]
      refine sum_congr rfl fun i _ => ?_
      rw [sum_comm]
      refine sum_congr rfl fun j _ => ?_
      simp only [ite_mul, zero_mul, of_apply]
      rw [sum_ite_eq, if_pos (mem_range.2 (hidx i j))]

section
variable (b1 b2 : R2) (gmax : ℝ)

/-- The integer coordinates of the plane waves. -/
local notation "iG" => absInds b1 b2 gmax
/-- Their unique differences. -/
local notation "iU" => absUnique (absInds b1 b2 gmax)
/-- The number of plane waves. -/
local notation "iN" => List.length (List.map (gOf b1 b2) (absInds b1 b2 gmax))

open Classical in
/-- **C154 (guided modes).** A guided-mode run as in C150 with `eig_sigma=0`. Let modes with the same frequency have the same
weight in an objective which is a weighted sum of the frequencies; the modes which are not returned have weight 0. Then the
objective has a derivative even if frequencies are degenerate, and the rules compute it up to `∑ |c f'| 1e-10 / (2 π f)²`. -/
theorem C154_gme (ij : LPos → ℂ → ℂ) (argsort : List ℝ → List ℕ) (hs : ∀ l, IsArgsort l (argsort l))
    (eigh : ∀ n, Matrix (Fin n) (Fin n) ℂ → Fin n → ℝ) (he : GoodEigh eigh) (guided : GuidedSolver) (area : ℝ)
    {L : ℕ} (lay : Fin L → ℝ → GmeLay) (opt : String) (hg : 0 ≤ gmax) (pos : Fin L → LPos) (eps : Fin L → ℝ)
    (hpos : ∀ l t, (lay l t).pos = pos l) (heps : ∀ l t, (lay l t).eff opt = .ok (eps l)) (t0 : ℝ) (D : Fin L → R2 → ℂ)
    (hD : ∀ l g, HasDerivAt (fun t => layFt area (lay l t) g) (D l g) t0)
    (hthr : ∀ l, homSum (layFt area (lay l t0)) b1 b2 iG ≠ 1e-10)
    (hzero : ∀ l, epsMatAbs (layFt area (lay l t0)) b1 b2 iG 0 0 ≠ 0)
    (ks : List R2) (numeig : ℕ)
    (basis : Fin ks.length → List (BasisEl iN))
    (hguided : ∀ q : Fin ks.length, guided ((List.ofFn pos).zip (List.ofFn eps)) ((iG).map (gOf b1 b2)) ks q =
      .ok (basis q)) (hnum : ∀ q, numeig ≤ (basis q).length) (c : Fin ks.length → ℕ → ℝ)
    (einv : Fin L → Matrix (Fin iN) (Fin iN) ℂ)
    (heinv : ∀ l, (withLayers b1 b2 area fun l => lay l t0).epsInv gmax false (lay l t0) = .ok (einv l))
    (mat : ∀ q, Matrix (Fin (basis q).length) (Fin (basis q).length) ℂ)
    (hmat : ∀ q, mat q = gmeMatIj ij ((List.ofFn pos).zip (List.ofFn eps)) (List.ofFn einv) (basis q) + 1)
    (V : ∀ q, Matrix (Fin (basis q).length) (Fin (basis q).length) ℂ) (hV : ∀ q, IsEigh (mat q) (eigh _ (mat q)) (V q))
    (hsym : ∀ q r, solveFull argsort (List.ofFn (eigh _ (mat q))) 0 (basis q).length = .ok r →
      ∀ i j, i < (basis q).length → j < (basis q).length → r.freq.getD i 0 = r.freq.getD j 0 →
        allWeights numeig (c q) i = allWeights numeig (c q) j) :
    ∃ rs : ℝ → List KRes, (∀ᶠ t in 𝓝 t0, gmeSimIj ij argsort eigh guided (withLayers b1 b2 area fun l => lay l t) gmax false opt
        ks 0 numeig = .ok (rs t)) ∧
      ((∀ q i, c q i ≠ 0 → ∀ r, (rs t0)[(q : ℕ)]? = some r → r.freq.getD i 0 ≠ 0) →
      ∃ f' : Fin ks.length → ℕ → ℝ,
        HasDerivAt (fun t => ∑ q : Fin ks.length, ∑ i ∈ range numeig,
          c q i * (((rs t)[(q : ℕ)]?).map fun r => r.freq.getD i 0).getD 0)
          (∑ q, ∑ i ∈ range numeig, c q i * f' q i) t0 ∧
        |∑ l, (∑ u ∈ range (((iU).length - 1) / 2 + 1),
            backHalf (iU).length (gmeBackSamples
              (fun i j => (iU).idxOf
                (((iG).getD j 0).1 - ((iG).getD i 0).1,
                  ((iG).getD j 0).2 - ((iG).getD i 0).2))
              ((iU).idxOf (0, 0))
              (decide (homAbs (layFt area (lay l t0)) b1 b2 iG))
              (epsMatAbs (layFt area (lay l t0)) b1 b2 iG 0 0) (einv l)
              (gmeBackward argsort ij ((List.ofFn pos).zip (List.ofFn eps)) L basis (fun q => eigh _ (mat q)) V 0 numeig c l)) u *
            D l (gOf b1 b2 ((iU).getD u 0))).re -
          ∑ q, ∑ i ∈ range numeig, c q i * f' q i| ≤
        ∑ q : Fin ks.length, ∑ i ∈ range numeig, |c q i * f' q i| *
          (1e-10 / (2 * π * (((rs t0)[(q : ℕ)]?).map fun r => r.freq.getD i 0).getD 0) ^ 2)) := by
  have hlenN : iN = (iG).length := List.length_map _
  have hne : iG ≠ [] := absInds_ne_nil b1 b2 gmax hg
  have hodd := absUnique_length_odd iG hne
  obtain ⟨h, hU⟩ : ∃ h, (iU).length = 2 * h + 1 := ⟨(iU).length / 2, by omega⟩
  have hhalf : (2 * h + 1 - 1) / 2 = h := by omega
  set idx : Fin iN → Fin iN → ℕ := fun i j => (iU).idxOf (((iG).getD j 0).1 - ((iG).getD i 0).1,
    ((iG).getD j 0).2 - ((iG).getD i 0).2) with hidxd
  have hidx : ∀ i j, idx i j < (iU).length := by
    intro i j
    apply List.idxOf_lt_length_of_mem
    have hm : ∀ i : Fin iN, (iG).getD i 0 ∈ iG := fun i => by
      rw [getD_of_len (hlenN ▸ i.2)]; exact List.getElem_mem _
    exact (mem_absUnique _ _).2 ⟨_, hm i, _, hm j, rfl⟩
  have h0mem : ((0, 0) : ℤ × ℤ) ∈ iU := (mem_absUnique _ _).2
    ⟨(0, 0), absInds_zero b1 b2 gmax hg, (0, 0), absInds_zero b1 b2 gmax hg, by simp⟩
  set u0 := (iU).idxOf (0, 0) with hu0d
  have hu0 : u0 < (iU).length := List.idxOf_lt_length_of_mem h0mem
  set S : Fin L → ℝ → ℕ → ℂ := fun l t u => (epsUniq (layFt area (lay l t)) b1 b2 (iU)).getD u 0 with hSd
  set DS : Fin L → ℕ → ℂ := fun l u => (epsUniq (D l) b1 b2 (iU)).getD u 0 with hDSd
  have hS : ∀ l u, HasDerivAt (fun t => S l t u) (DS l u) t0 := by
    intro l u
    simp only [S, DS, epsUniq_getD _ b1 b2 iU h hU]
    split_ifs
    · exact hD l _
    · exact (hD l _).star
    · exact hasDerivAt_const _ _
  -- the matrices in terms of the samples
  have hent : ∀ l t (i j : Fin iN), epsMatAbs (layFt area (lay l t)) b1 b2 iG i j = S l t (idx i j) := fun _ _ _ _ => rfl
  have hent0 : ∀ l t, epsMatAbs (layFt area (lay l t)) b1 b2 iG 0 0 = S l t u0 := by
    intro l t
    simp only [epsMatAbs, S, u0, sub_self]
  set hom : Fin L → Bool := fun l => decide (homAbs (layFt area (lay l t0)) b1 b2 iG) with hhom
  have hEinv : ∀ l t, (homAbs (layFt area (lay l t)) b1 b2 iG ↔ hom l = true) →
      (hom l = false → (of fun i j => S l t (idx i j)).det ≠ 0) →
      (withLayers b1 b2 area fun l => lay l t).epsInv gmax false (lay l t) = .ok (gmeEinv idx u0 (hom l) (S l t)) := by
    intro l t h1 h2
    have e0 : (withLayers b1 b2 area fun l => lay l t).epsInv gmax false (lay l t) =
        if homAbs (layFt area (lay l t)) b1 b2 iG ∨ false = true then
          .ok ((epsMatAbs (layFt area (lay l t)) b1 b2 iG 0 0)⁻¹ • 1)
        else if (of fun i j => S l t (idx i j)).det = 0 then .error .valueError
        else .ok (of fun i j => S l t (idx i j))⁻¹ := rfl
    rw [e0]
    unfold gmeEinv
    by_cases hh : hom l = true
    · rw [if_pos (Or.inl (h1.2 hh)), if_pos hh, ← hent0]
    · have hf : hom l = false := by simpa using hh
      rw [if_neg (by
        rintro (h | h)
        · exact hh (h1.1 h)
        · simp at h), if_neg hh]
      rw [if_neg (h2 hf)]
  have hinv : ∀ l, if hom l then S l t0 u0 ≠ 0 else (of fun i j => S l t0 (idx i j)).det ≠ 0 := by
    intro l
    by_cases hh : hom l = true
    · rw [if_pos hh, ← hent0]
      exact hzero l
    · rw [if_neg hh]
      have hM := heinv l
      have e0 : (withLayers b1 b2 area fun l => lay l t0).epsInv gmax false (lay l t0) =
          if homAbs (layFt area (lay l t0)) b1 b2 iG ∨ false = true then
            .ok ((epsMatAbs (layFt area (lay l t0)) b1 b2 iG 0 0)⁻¹ • 1)
          else if (of fun i j => S l t0 (idx i j)).det = 0 then .error .valueError
          else .ok (of fun i j => S l t0 (idx i j))⁻¹ := rfl
      rw [e0] at hM
      rw [if_neg (by
        rintro (h | h)
        · exact hh (by simpa [hom] using h)
        · simp at h)] at hM
      intro h0
      rw [if_pos h0] at hM
      cases hM
  have hE0 : ∀ l, einv l = gmeEinv idx u0 (hom l) (S l t0) := by
    intro l
    have h1 := hEinv l t0 (by simp [hom]) (fun hf => by
      have := hinv l
      rwa [if_neg (by simp [hf])] at this)
    exact Except.ok.inj ((heinv l).symm.trans h1)
  -- near `t0`
  have hcont : ∀ l u, ContinuousAt (fun t => S l t u) t0 := fun l u => (hS l u).continuousAt
  have hsum : ∀ l, ContinuousAt (fun t => homSum (layFt area (lay l t)) b1 b2 iG) t0 := by
    intro l
    unfold homSum
    refine tendsto_finsetSum _ fun i hi => tendsto_finsetSum _ fun j hj => ?_
    split_ifs
    · exact (hcont l ((iU).idxOf (((iG).getD j 0).1 - ((iG).getD i 0).1, ((iG).getD j 0).2 - ((iG).getD i 0).2))).norm
    · exact tendsto_const_nhds
  have hev1 : ∀ l, ∀ᶠ t in 𝓝 t0, (homAbs (layFt area (lay l t)) b1 b2 iG ↔ hom l = true) := by
    intro l
    rcases lt_or_gt_of_ne (hthr l) with h1 | h1
    · filter_upwards [(hsum l).eventually (gt_mem_nhds h1)] with t ht
      simp only [hom, homAbs_iff, decide_eq_true_eq]
      exact iff_of_true ht h1
    · filter_upwards [(hsum l).eventually (lt_mem_nhds h1)] with t ht
      simp only [hom, homAbs_iff, decide_eq_true_eq]
      exact iff_of_false (not_lt.2 ht.le) (not_lt.2 h1.le)
  have hev2 : ∀ l, ∀ᶠ t in 𝓝 t0, (hom l = false → (of fun i j => S l t (idx i j)).det ≠ 0) := by
    intro l
    by_cases hh : hom l = true
    · exact Eventually.of_forall fun t hf => by rw [hh] at hf; cases hf
    · have h1 := hinv l
      rw [if_neg hh] at h1
      have hc : ContinuousAt (fun t => (of fun i j => S l t (idx i j) : Matrix (Fin iN) (Fin iN) ℂ)) t0 := by
        refine tendsto_pi_nhds.2 fun i => tendsto_pi_nhds.2 fun j => ?_
        exact hcont l (idx i j)
      have hd : ContinuousAt (fun t => (of fun i j => S l t (idx i j) : Matrix (Fin iN) (Fin iN) ℂ).det) t0 :=
        (continuous_id.matrix_det).continuousAt.comp hc
      filter_upwards [hd.eventually_ne h1] with t ht _
      exact ht
  set stack := (List.ofFn pos).zip (List.ofFn eps) with hstack
  set sol : ℝ → Fin ks.length → KRes := fun t q =>
    let w := List.ofFn (eigh _ (gmeMatIj ij stack (List.ofFn fun l => gmeEinv idx u0 (hom l) (S l t)) (basis q) + 1))
    ⟨selectModes argsort (w.map freqOf) 0 numeig,
      (selectModes argsort (w.map freqOf) 0 numeig).map fun (i : ℕ) => (w.map freqOf).getD i 0, []⟩ with hsol
  have hsolve : ∀ t q, solveFull argsort (List.ofFn (eigh _ (gmeMatIj ij stack
      (List.ofFn fun l => gmeEinv idx u0 (hom l) (S l t)) (basis q) + 1))) 0 numeig = .ok (sol t q) := by
    intro t q
    unfold solveFull
    rw [if_neg (by rw [List.length_ofFn]; exact not_lt.2 (hnum q))]
  have hat : ∀ t q i, gmeFreqAt argsort eigh ij stack (List.ofFn fun l => gmeEinv idx u0 (hom l) (S l t)) (basis q) 0
      numeig i = (sol t q).freq.getD i 0 := by
    intro t q i
    unfold gmeFreqAt
    rw [hsolve]
  have hrs : ∀ t (q : Fin ks.length), (List.ofFn (sol t))[(q : ℕ)]? = some (sol t q) := by
    intro t q
    rw [List.getElem?_ofFn, dif_pos q.2]
  refine ⟨fun t => List.ofFn (sol t), ?_, fun hz => ?_⟩
  · filter_upwards [eventually_all.2 hev1, eventually_all.2 hev2] with t h1 h2
    have m1 : (List.ofFn fun l => lay l t).mapM (GmeLay.eff opt) = .ok (List.ofFn eps) :=
      mapM_ofFn_ok _ _ _ fun l => heps l t
    have m2 : (List.ofFn fun l => lay l t).mapM ((withLayers b1 b2 area fun l => lay l t).epsInv gmax false) =
        .ok (List.ofFn fun l => gmeEinv idx u0 (hom l) (S l t)) :=
      mapM_ofFn_ok _ _ _ fun l => hEinv l t (h1 l) (h2 l)
    have m3 : (List.ofFn fun l => lay l t).map GmeLay.pos = List.ofFn pos := by
      rw [List.map_ofFn]
      congr 1
      funext l
      exact hpos l t
    unfold gmeSimIj
    simp only [withLayers] at m1 m2 m3 ⊢
    rw [m1]
    simp only [Bind.bind, Except.bind]
    rw [m2]
    simp only [m3]
    rw [mapM_ok_iff]
    refine ⟨by simp, fun i a b ha hb => ?_⟩
    have hi : i < ks.length := by
      have := (List.getElem?_eq_some_iff.1 ha).1
      simpa using this
    rw [List.getElem?_range hi] at ha
    rw [List.getElem?_ofFn, dif_pos hi] at hb
    rw [← Option.some.inj ha, ← Option.some.inj hb]
    have hgq := hguided ⟨i, hi⟩
    show (guided stack ((iG).map (gOf b1 b2)) ks i).bind (fun (v : List (BasisEl iN)) => solveFull argsort (List.ofFn (eigh v.length (gmeMatIj ij stack
        (List.ofFn fun l => gmeEinv idx u0 (hom l) (S l t)) v + 1))) 0 numeig) = Except.ok (sol t ⟨i, hi⟩)
    rw [hgq]
    exact hsolve t ⟨i, hi⟩
  · have hmat0 : ∀ q, mat q = gmeMatIj ij stack (List.ofFn fun l => gmeEinv idx u0 (hom l) (S l t0)) (basis q) + 1 := by
      intro q
      rw [hmat q, funext hE0]
    obtain ⟨f', k1, k3⟩ := gme_gradient_symm argsort hs eigh he ij stack basis (iU).length idx hidx u0 hu0 hom S DS t0 hS hinv
      numeig hnum c V (fun q => by rw [← hmat0]; exact hV q) (fun q => by rw [← hmat0]; exact hsym q)
      (fun q i hc => by rw [hat]; exact hz q i hc _ (hrs t0 q))
    have k2 := ratio_error numeig c f' (fun q i => gmeFreqAt argsort eigh ij stack
      (List.ofFn fun l => gmeEinv idx u0 (hom l) (S l t0)) (basis q) 0 numeig i)
      (fun q i hc => by rw [hat]; exact hz q i hc _ (hrs t0 q))
    rw [← k3] at k2
    refine ⟨f', ?_, ?_⟩
    · simp only [hrs, Option.map_some, Option.getD_some]
      simpa only [hat] using k1
    · simp only [hrs, Option.map_some, Option.getD_some]
      simp only [hat] at k2
      refine le_of_eq_of_le ?_ k2
      congr 2
      refine sum_congr rfl fun l _ => ?_
      rw [hU, hE0 l, hent0, hhalf]
      rw [show (fun q => eigh _ (mat q)) = fun q => eigh _ (gmeMatIj ij stack
        (List.ofFn fun l => gmeEinv idx u0 (hom l) (S l t0)) (basis q) + 1) from funext fun q => by rw [hmat0]]
      refine Eq.trans ?_ (backHalf_pair h _ (DS l) fun u hu => ?_)
      · congr 1
        refine sum_congr rfl fun u hu => ?_
        have hu := mem_range.1 hu
        have : DS l u = D l (gOf b1 b2 ((iU).getD u 0)) := by
          simp only [DS, epsUniq_getD _ b1 b2 iU h hU]
          rw [if_pos (by omega)]
        rw [this]
      · simp only [DS, epsUniq_getD _ b1 b2 iU h hU]
        rw [if_neg (by omega), if_pos (by omega), if_pos (by omega), show 2 * h - (2 * h - u) = u by omega]

end

/-- Two modes with the same frequency, each in a layer of its own; the parameter is the permittivity of both layers. The sum of
both frequencies has a derivative. -/
example (argsort : List ℝ → List ℕ) (hs : ∀ l, IsArgsort l (argsort l))
    (eigh : ∀ n, Matrix (Fin n) (Fin n) ℂ → Fin n → ℝ) (he : GoodEigh eigh) (b1 b2 : R2) (gmax : ℝ) (hg : 0 ≤ gmax)
    (guided : GuidedSolver) (h0 : 0 < ((absInds b1 b2 gmax).map (gOf b1 b2)).length)
    (hgd : guided [(.inner 1, 1), (.inner 1, 1)] ((absInds b1 b2 gmax).map (gOf b1 b2)) [(1, 0)] 0 =
      .ok [⟨0, ⟨0, h0⟩, ⟨.te, 1, 0, 1, [⟨1, 0, 0⟩, ⟨0, 0, 0⟩]⟩⟩, ⟨0, ⟨0, h0⟩, ⟨.te, 1, 0, 1, [⟨0, 0, 0⟩, ⟨1, 0, 0⟩]⟩⟩]) :
    ∃ (rs : ℝ → List KRes) (f' : ℝ), (∀ᶠ t in 𝓝 (2 : ℝ), gmeSimIj (fun _ _ => 1) argsort eigh guided
      (withLayers b1 b2 1 fun _ : Fin 2 => ⟨.inner 1, 1, t, some 1, []⟩) gmax false "custom" [(1, 0)] 0 2 = .ok (rs t)) ∧
      (((rs 2)[0]?).map fun r => r.freq) = some [freqOf (3 / 2), freqOf (3 / 2)] ∧
      HasDerivAt (fun t => (((rs t)[0]?).map fun r => r.freq.getD 0 0).getD 0 + (((rs t)[0]?).map fun r => r.freq.getD 1 0).getD 0)
        f' 2 := by
  classical
  have hz : epsMatAbs (layFt 1 ⟨.inner 1, 1, 2, some 1, []⟩) b1 b2 (absInds b1 b2 gmax) 0 0 = 2 := by
    have h1 := gme_entry_diff ⟨b1, b2, 1, []⟩ ⟨.inner 1, 1, 2, some 1, []⟩ (fun s hs => by cases hs) gmax ⟨0, h0⟩ ⟨0, h0⟩
    refine Eq.trans (show _ = (⟨b1, b2, 1, []⟩ : GmeStruct).epsMat gmax ⟨.inner 1, 1, 2, some 1, []⟩ ⟨0, h0⟩ ⟨0, h0⟩ from rfl)
      (h1.trans ?_)
    unfold GmeStruct.ft
    rw [layerFt_uniform, sub_self, if_pos isG0_zero]
    norm_num
  have hei : (withLayers b1 b2 1 fun _ : Fin 2 => ⟨.inner 1, 1, 2, some 1, []⟩).epsInv gmax false ⟨.inner 1, 1, 2, some 1, []⟩ =
      .ok ((2 : ℂ)⁻¹ • 1) := by
    have e0 : (withLayers b1 b2 1 fun _ : Fin 2 => ⟨.inner 1, 1, 2, some 1, []⟩).epsInv gmax false
        ⟨.inner 1, 1, 2, some 1, []⟩ =
        if homAbs (layFt 1 ⟨.inner 1, 1, 2, some 1, []⟩) b1 b2 (absInds b1 b2 gmax) ∨ false = true then
          .ok ((epsMatAbs (layFt 1 ⟨.inner 1, 1, 2, some 1, []⟩) b1 b2 (absInds b1 b2 gmax) 0 0)⁻¹ • 1)
        else if ((withLayers b1 b2 1 fun _ : Fin 2 => ⟨.inner 1, 1, 2, some 1, []⟩).epsMat gmax
          ⟨.inner 1, 1, 2, some 1, []⟩).det = 0 then .error .valueError
        else .ok ((withLayers b1 b2 1 fun _ : Fin 2 => ⟨.inner 1, 1, 2, some 1, []⟩).epsMat gmax
          ⟨.inner 1, 1, 2, some 1, []⟩)⁻¹ := rfl
    rw [e0, if_pos, hz]
    left
    rw [homAbs_iff, homSum_uniform]
    norm_num
  set b : List (BasisEl ((absInds b1 b2 gmax).map (gOf b1 b2)).length) :=
    [⟨0, ⟨0, h0⟩, ⟨.te, 1, 0, 1, [⟨1, 0, 0⟩, ⟨0, 0, 0⟩]⟩⟩, ⟨0, ⟨0, h0⟩, ⟨.te, 1, 0, 1, [⟨0, 0, 0⟩, ⟨1, 0, 0⟩]⟩⟩] with hb
  set M : Matrix (Fin 2) (Fin 2) ℂ := gmeMatIj (fun _ _ => 1) [(.inner 1, 1), (.inner 1, 1)]
    (List.ofFn fun _ : Fin 2 => (2 : ℂ)⁻¹ • (1 : Matrix
    (Fin ((absInds b1 b2 gmax).map (gOf b1 b2)).length) (Fin ((absInds b1 b2 gmax).map (gOf b1 b2)).length) ℂ)) b + 1 with hMd
  have hM : M = ((3 / 2 : ℝ) : ℂ) • 1 := by
    rw [hMd]
    ext i j
    fin_cases i <;> fin_cases j <;>
      simp [gmeMatIj, completeMat, blockUpper, gmeElem, layPairs, matTeTe, dot2, GmeState.q, GmeState.gk, b] <;> norm_num
  have hH : M.IsHermitian := (gmeMatIj_herm _ _ _ _).add Matrix.isHermitian_one
  obtain ⟨V, hV⟩ := he _ _ hH
  have hw : eigh 2 M = fun _ => (3 / 2 : ℝ) := by
    have h1 := hV.eigen
    rw [hM, Matrix.smul_mul, one_mul] at h1
    have h2 := congrArg (V.conjTranspose * ·) h1
    simp only [Matrix.mul_smul, ← mul_assoc, hV.unitary, one_mul] at h2
    funext m
    have h3 := congrFun (congrFun h2 m) m
    rw [Matrix.smul_apply, one_apply_eq, diagonal_apply_eq, smul_eq_mul, mul_one] at h3
    rw [← hM] at h3
    exact_mod_cast h3.symm
  obtain ⟨rs, k1, k2⟩ := C154_gme b1 b2 gmax (fun _ _ => 1) argsort hs eigh he guided 1
    (fun (_ : Fin 2) t => ⟨.inner 1, 1, t, some 1, []⟩) "custom" hg (fun _ => .inner 1) (fun _ => 1) (fun _ _ => rfl)
    (fun _ _ => by simp [GmeLay.eff]) 2 (fun _ g => if isG0 g then 1 else 0) (fun _ g => by
      simp only [layFt, layerFt_uniform]
      split_ifs
      · exact Complex.ofRealCLM.hasDerivAt
      · exact hasDerivAt_const _ _) (fun _ => by rw [homSum_uniform]; norm_num) (fun _ => by rw [hz]; norm_num) [(1, 0)] 2
    (fun _ => b) (fun q => by
      have : q = (0 : Fin 1) := Subsingleton.elim (α := Fin 1) _ _
      rw [this]
      exact hgd) (fun _ => le_refl 2) (fun _ i => if i < 2 then 1 else 0) (fun _ => (2 : ℂ)⁻¹ • 1) (fun _ => hei) (fun _ => M)
    (fun _ => rfl) (fun _ => V) (fun _ => hV) (fun _ _ _ i j hi hj _ => by
      have hi : i < 2 := hi
      have hj : j < 2 := hj
      simp [allWeights, hi, hj])
  have hk : ∃ r, (rs 2)[0]? = some r ∧ r.freq = [freqOf (3 / 2), freqOf (3 / 2)] := by
    have h2 := k1.self_of_nhds
    have m1 : (List.ofFn fun _ : Fin 2 => (⟨.inner 1, 1, 2, some 1, []⟩ : GmeLay)).mapM (GmeLay.eff "custom") =
        .ok (List.ofFn fun _ : Fin 2 => (1 : ℝ)) := mapM_ofFn_ok _ _ _ fun _ => by simp [GmeLay.eff]
    have m2 : (List.ofFn fun _ : Fin 2 => (⟨.inner 1, 1, 2, some 1, []⟩ : GmeLay)).mapM
        ((withLayers b1 b2 1 fun _ : Fin 2 => ⟨.inner 1, 1, 2, some 1, []⟩).epsInv gmax false) =
        .ok (List.ofFn fun _ : Fin 2 => (2 : ℂ)⁻¹ • 1) := mapM_ofFn_ok _ _ _ fun _ => hei
    obtain ⟨r0, q1, q2⟩ := solveFull_zero argsort hs (List.ofFn (eigh 2 M)) 2 (by simp)
    rw [solvePwe_freq argsort hs _ [freqOf (3 / 2), freqOf (3 / 2)] (by rw [hw]; exact List.Perm.refl _) (by simp) 2] at q2
    unfold gmeSimIj at h2
    simp only [withLayers] at h2 m1 m2
    rw [m1] at h2
    simp only [Bind.bind, Except.bind] at h2
    rw [m2] at h2
    obtain ⟨l1, l2⟩ := (mapM_ok_iff _ _ _).1 h2
    have l1' : (rs 2).length = 1 := by simpa using l1
    obtain ⟨r, hr⟩ := List.length_eq_one_iff.1 l1'
    have l3 : (guided [(.inner 1, 1), (.inner 1, 1)] ((absInds b1 b2 gmax).map (gOf b1 b2)) [(1, 0)] 0).bind
        (fun (v : List (BasisEl ((absInds b1 b2 gmax).map (gOf b1 b2)).length)) => solveFull argsort (List.ofFn (eigh v.length
          (gmeMatIj (fun _ _ => 1) [(.inner 1, 1), (.inner 1, 1)] (List.ofFn fun _ : Fin 2 => (2 : ℂ)⁻¹ • 1) v + 1))) 0 2) =
        .ok r := l2 0 0 r rfl (by rw [hr]; rfl)
    rw [hgd] at l3
    have l4 := q1.symm.trans l3
    refine ⟨r, by rw [hr]; rfl, ?_⟩
    rw [← Except.ok.inj l4]
    exact q2
  obtain ⟨r, hr1, hr2⟩ := hk
  have hpos : freqOf (3 / 2) ≠ 0 := by norm_num [freqOf, Real.pi_ne_zero]
  obtain ⟨f', k3, -⟩ := k2 fun q i hc r' hr' => by
    have hq : (q : ℕ) = 0 := Nat.lt_one_iff.1 q.2
    have hi : i < 2 := by
      by_contra h
      simp [h] at hc
    rw [hq, hr1] at hr'
    rw [← Option.some.inj hr', hr2]
    interval_cases i <;> exact hpos
  refine ⟨rs, f' ⟨0, by simp⟩ 0 + f' ⟨0, by simp⟩ 1, k1, by rw [hr1, Option.map_some, hr2], ?_⟩
  convert k3 using 1
  · funext t
    exact (Fin.sum_univ_one (fun q : Fin 1 => ∑ i ∈ range 2, (if i < 2 then (1 : ℝ) else 0) *
      (((rs t)[(q : ℕ)]?).map fun r => r.freq.getD i 0).getD 0)).symm ▸ by simp [sum_range_succ]
  · exact (Fin.sum_univ_one (fun q : Fin 1 => ∑ i ∈ range 2, (if i < 2 then (1 : ℝ) else 0) * f' q i)).symm ▸ by
      simp [sum_range_succ]

end Legume
