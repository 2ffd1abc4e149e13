import Verif.Props.SymmGrad
import Verif.Props.ExcGrad

/-! # C154 for excitons, and what goes wrong if degenerate bands do not enter symmetrically -/
namespace Legume

open Matrix Spec Finset Filter Topology
open scoped ComplexConjugate Real

/-- Sums over all bands with the weights of those returned. -/
theorem allWeights_sum {N : ℕ} (numeig : ℕ) (c h : ℕ → ℝ) :
    ∑ i : Fin N, allWeights numeig c i * h i = ∑ i ∈ range (min numeig N), c i * h i := by
  rw [Fin.sum_univ_eq_sum_range (fun i => allWeights numeig c i * h i) N]
  symm
  refine (sum_congr rfl fun i hi => ?_).trans (sum_subset (range_mono (min_le_right _ _)) fun i h1 h2 => ?_)
  · rw [allWeights, if_pos (lt_of_lt_of_le (mem_range.1 hi) (min_le_left _ _))]
  · have h1 := mem_range.1 h1
    have h2 : ¬ i < min numeig N := by simpa using h2
    rw [allWeights, if_neg (fun h3 => h2 (lt_min h3 h1)), zero_mul]

/-- The gradient of the energies of an exciton with respect to the matrix of the potential. -/
theorem exc_gradient_symm (argsort : List ℝ → List ℕ) (hs : ∀ l, IsArgsort l (argsort l))
    (eigh : ∀ n, Matrix (Fin n) (Fin n) ℂ → Fin n → ℝ) (he : GoodEigh eigh) {N K : ℕ}
    (hbar e a M : ℝ) (gvec : Fin N → R2) (k : Fin K → R2) (E0 loss : ℝ)
    (P : ℝ → Matrix (Fin N) (Fin N) ℂ) (P' : Matrix (Fin N) (Fin N) ℂ) (t0 : ℝ)
    (hP : ∀ i j, HasDerivAt (fun t => P t i j) (P' i j) t0) (hH : ∀ t, (P t).IsHermitian) (numeig : ℕ) (c : Fin K → ℕ → ℝ)
    (V : Fin K → Matrix (Fin N) (Fin N) ℂ)
    (hV : ∀ q, IsEigh (excMat hbar e a M (k q) gvec (P t0) + 1) (eigh _ (excMat hbar e a M (k q) gvec (P t0) + 1)) (V q))
    (hsym : ∀ q i j, i < N → j < N → excEnerAt argsort eigh hbar e a M gvec (k q) E0 loss (P t0) N i =
      excEnerAt argsort eigh hbar e a M gvec (k q) E0 loss (P t0) N j → allWeights numeig (c q) i = allWeights numeig (c q) j) :
    HasDerivAt (fun t => ∑ q, ∑ i ∈ range (min numeig N), (c q i : ℂ) *
        excEnerAt argsort eigh hbar e a M gvec (k q) E0 loss (P t) numeig i)
      ((pairMat (excBackPot argsort (fun q => eigh _ (excMat hbar e a M (k q) gvec (P t0) + 1)) V numeig c) P' : ℝ) : ℂ) t0 := by
  classical
  set A : Fin K → ℝ → Matrix (Fin N) (Fin N) ℂ := fun q t => excMat hbar e a M (k q) gvec (P t) + 1 with hA
  set W : Fin K → ℝ → Fin N → ℝ := fun q t => eigh _ (A q t) with hW
  have hAd : ∀ q i j, HasDerivAt (fun t => A q t i j) (P' i j) t0 := by
    intro q i j
    simp only [A, excMat, Matrix.add_apply]
    exact ((hP i j).const_add _).add_const _
  have hAH : ∀ q t, (A q t).IsHermitian := fun q t =>
    (excMat_hermitian hbar e a M gvec (k q) (hH t)).add Matrix.isHermitian_one
  have hP'H : ∀ i j, P' j i = conj (P' i j) := by
    intro i j
    have e1 := (hP i j).star
    have e2 : (fun t => star (P t i j)) = fun t => P t j i := by
      ext t; exact (hH t).apply j i
    rw [e2] at e1
    exact (hP j i).unique e1
  set F : Fin K → ℝ → List ℝ := fun q t => ((List.ofFn (W q t)).mergeSort).map (· - 1) with hF
  have hperm : ∀ q t, (F q t).Perm ((List.ofFn (W q t)).map (· - 1)) := fun q t => (List.mergeSort_perm _ _).map _
  have hlen : ∀ q t, (F q t).length = N := fun q t => by rw [(hperm q t).length_eq]; simp
  have htk : ∀ q t m, (excSelect argsort (List.ofFn (W q t)) m).2 = (F q t).take m := by
    intro q t m
    refine excSelect_take argsort hs _ _ (hperm q t) ?_ m
    rw [hF, List.pairwise_map]
    exact (List.pairwise_mergeSort' (· ≤ ·) _).imp fun h => by linarith
  have hat : ∀ q t m i, i < min m N → excEnerAt argsort eigh hbar e a M gvec (k q) E0 loss (P t) m i =
      (((F q t).getD i 0 : ℝ) : ℂ) + (E0 + Complex.I * loss) := by
    intro q t m i hi
    obtain ⟨him, hiN⟩ := lt_min_iff.1 hi
    rw [excEnerAt_eq argsort eigh hbar e a M gvec (k q) E0 loss (hH t)]
    change (((excSelect argsort (List.ofFn (W q t)) m).2.map _).getD i 0) = _
    have hi2 : i < ((F q t).take m).length := by rw [List.length_take, hlen]; exact hi
    rw [htk, List.getD_eq_getElem?_getD, List.getElem?_eq_getElem (by rw [List.length_map]; exact hi2), Option.getD_some,
      List.getElem_map, List.getElem_take, getD_of_len (by rw [hlen]; exact hiN), add_assoc]
  have hcont : ∀ q (j : Fin N), ContinuousAt (fun t => (F q t).getD j 0) t0 := by
    intro q j
    have := (eig_continuous eigh he (A q) (hAH q) t0 (fun i j => (hAd q i j).continuousAt) j).sub
      (continuousAt_const (y := (1 : ℝ)))
    refine this.congr (Eventually.of_forall fun t => ?_)
    have h1 : (j : ℕ) < ((List.ofFn (W q t)).mergeSort).length := by
      rw [(List.mergeSort_perm _ _).length_eq, List.length_ofFn]; exact j.2
    show ((List.ofFn (W q t)).mergeSort).getD j 0 - 1 = (((List.ofFn (W q t)).mergeSort).map (· - 1)).getD j 0
    rw [List.getD_eq_getElem?_getD, List.getD_eq_getElem?_getD, List.getElem?_map, List.getElem?_eq_getElem h1, Option.map_some,
      Option.getD_some, Option.getD_some]
  set ord : Fin K → List ℕ := fun q => argsort ((List.ofFn (W q t0)).map (· - 1)) with hord
  have hop : ∀ q, (ord q).Perm (List.range N) := by
    intro q
    have := (hs ((List.ofFn (W q t0)).map (· - 1))).1
    rwa [List.length_map, List.length_ofFn] at this
  choose eq heq using fun q => perm_range_equiv (hop q)
  have hval : ∀ q (i : Fin N), W q t0 (eq q i) - 1 = (F q t0).getD i 0 := by
    intro q i
    have h1 : (excSelect argsort (List.ofFn (W q t0)) N).2 = F q t0 := by
      rw [htk, List.take_of_length_le (hlen q t0).le]
    have hoN : (ord q).length = N := by rw [(hop q).length_eq, List.length_range]
    have hiN : (i : ℕ) < (ord q).length := by rw [hoN]; exact i.2
    rw [← h1]
    show _ = (((ord q).take N).map fun (i : ℕ) => ((List.ofFn (W q t0)).map (· - 1)).getD i 0).getD i 0
    rw [List.take_of_length_le hoN.le, List.getD_eq_getElem?_getD, List.getElem?_map, List.getElem?_eq_getElem hiN,
      Option.map_some, Option.getD_some, ← getD_of_len (d := 0) hiN, heq q i, ofFn_sub_getD _ _ (eq q i).2]
  have hmain := fun q => symm_deriv (A q) P' t0 (hAd q) (hAH q) (W q) (fun t => he _ _ (hAH q t)) (V q) (hV q) (· - 1)
    (fun _ => 1) (continuous_id.sub continuous_const) (F q) (hperm q) (hcont q) (fun i => allWeights numeig (c q) i)
    (fun i j hij => hsym q i j i.2 j.2 (by
      rw [hat q t0 N i (by simp), hat q t0 N j (by simp), hij])) (eq q) (hval q)
    (fun i _ => (hasDerivAt_id _).sub_const 1)
  have hobj : HasDerivAt (fun t => ∑ q, ∑ i ∈ range (min numeig N), (c q i : ℂ) *
        ((((F q t).getD i 0 : ℝ) : ℂ) + (E0 + Complex.I * loss)))
      ((pairMat (excBackPot argsort (fun q => W q t0) V numeig c) P' : ℝ) : ℂ) t0 := by
    have h1 : pairMat (excBackPot argsort (fun q => W q t0) V numeig c) P' =
        ∑ q, pairMat (vjpEigh false (W q t0) (V q) (backEner ((ord q).take numeig) (c q)) 0) P' := by
      simp only [pairMat, excBackPot, of_apply, sum_mul, Complex.re_sum]
      rw [sum_congr rfl fun I _ => sum_comm, sum_comm]
    rw [h1, Complex.ofReal_sum]
    refine HasDerivAt.fun_sum fun q _ => ?_
    have h2 := (hmain q).ofReal_comp
    have h3 : HasDerivAt (fun t => ((∑ i ∈ range (min numeig N), c q i * (F q t).getD i 0 : ℝ) : ℂ) +
        ∑ i ∈ range (min numeig N), (c q i : ℂ) * (E0 + Complex.I * loss)) _ t0 :=
      HasDerivAt.add_const _ (h2.congr_of_eventuallyEq (Eventually.of_forall fun t => by
        show (_ : ℂ) = ((∑ i : Fin N, allWeights numeig (c q) i * (F q t).getD i 0 : ℝ) : ℂ)
        rw [allWeights_sum numeig (c q) fun i => (F q t).getD i 0]))
    refine (h3.congr_deriv ?_).congr_of_eventuallyEq (Eventually.of_forall fun t => ?_)
    · congr 1
      rw [C48_eigenvalues false (W q t0) (V q) P' _ hP'H]
      set μ : Fin N → ℝ := fun m => (sandwich (fun i => V q i m) P' fun i => V q i m).re with hμ
      have hslen : ((ord q).take numeig).length = min numeig N := by
        rw [List.length_take, (hop q).length_eq, List.length_range]
      have h4 := allWeights_sum (N := N) numeig (c q) fun i => if hi : i < N then μ (eq q ⟨i, hi⟩) else 0
      refine Eq.trans ?_ (h4.trans ?_)
      · exact sum_congr rfl fun i _ => by rw [dif_pos i.2, one_mul]
      · symm
        change ∑ m, backEner ((ord q).take numeig) (c q) m * μ m = _
        simp only [backEner, sum_mul, hslen]
        rw [sum_comm]
        refine sum_congr rfl fun i hi => ?_
        obtain ⟨him, hiN⟩ := lt_min_iff.1 (mem_range.1 hi)
        rw [dif_pos hiN]
        have hget : ((ord q).take numeig).getD i 0 = (eq q ⟨i, hiN⟩ : ℕ) := by
          rw [← heq q ⟨i, hiN⟩, List.getD_eq_getElem?_getD, List.getElem?_take_of_lt him, ← List.getD_eq_getElem?_getD]
        have hiff : ∀ m : Fin N, ((ord q).take numeig).getD i 0 = (m : ℕ) ↔ eq q ⟨i, hiN⟩ = m := by
          intro m
          rw [hget, Fin.ext_iff]
        simp only [hiff, ite_mul, zero_mul, sum_ite_eq, mem_univ, if_true]
    · simp only [mul_add, sum_add_distrib]
      push_cast
      rfl
  refine hobj.congr_of_eventuallyEq (Eventually.of_forall fun t => ?_)
  exact sum_congr rfl fun q _ => sum_congr rfl fun i hi => by rw [hat q t numeig i (mem_range.1 hi)]

/-- **C154 (excitons, `truncate_g='tbt'`).** If bands with the same energy have the same weight in an objective which is a
weighted sum of the energies, where the bands which are not returned have weight 0, then the objective has a derivative even
if energies are degenerate, and the rules compute it exactly. -/
theorem C154_tbt (argsort : List ℝ → List ℕ) (hs : ∀ l, IsArgsort l (argsort l))
    (eigh : ∀ n, Matrix (Fin n) (Fin n) ℂ → Fin n → ℝ) (he : GoodEigh eigh) {n p K : ℕ} (hn : 0 < n)
    (hbar e a M : ℝ) (gvec : Fin (n * p) → R2) (k : Fin K → R2) (E0 loss : ℝ)
    (T1 T2 : ℝ → ℕ → ℂ) (D1 D2 : ℕ → ℂ) (t0 : ℝ)
    (h1 : ∀ m, HasDerivAt (fun t => T1 t m) (D1 m) t0) (h2 : ∀ m, HasDerivAt (fun t => T2 t m) (D2 m) t0)
    (hT : ∀ t, ToeplitzConsistent n p (T1 t) (T2 t)) (numeig : ℕ) (c : Fin K → ℕ → ℝ)
    (V : Fin K → Matrix (Fin (n * p)) (Fin (n * p)) ℂ)
    (hV : ∀ q, IsEigh (excMat hbar e a M (k q) gvec (toepMat n p (T1 t0) (T2 t0)) + 1)
      (eigh _ (excMat hbar e a M (k q) gvec (toepMat n p (T1 t0) (T2 t0)) + 1)) (V q))
    (hsym : ∀ q i j, i < n * p → j < n * p →
      excEnerAt argsort eigh hbar e a M gvec (k q) E0 loss (toepMat n p (T1 t0) (T2 t0)) (n * p) i =
        excEnerAt argsort eigh hbar e a M gvec (k q) E0 loss (toepMat n p (T1 t0) (T2 t0)) (n * p) j →
      allWeights numeig (c q) i = allWeights numeig (c q) j) :
    HasDerivAt (fun t => ∑ q, ∑ i ∈ range (min numeig (n * p)), (c q i : ℂ) *
        excEnerAt argsort eigh hbar e a M gvec (k q) E0 loss (toepMat n p (T1 t) (T2 t)) numeig i)
      (((∑ m ∈ range (n * p), (excBackTbt n p (excBackPot argsort (fun q =>
          eigh _ (excMat hbar e a M (k q) gvec (toepMat n p (T1 t0) (T2 t0)) + 1)) V numeig c)).1 m * D1 m +
        ∑ m ∈ range (n * p), (excBackTbt n p (excBackPot argsort (fun q =>
          eigh _ (excMat hbar e a M (k q) gvec (toepMat n p (T1 t0) (T2 t0)) + 1)) V numeig c)).2 m * D2 m).re : ℝ) : ℂ) t0 := by
  refine (exc_gradient_symm argsort hs eigh he hbar e a M gvec k E0 loss (fun t => toepMat n p (T1 t) (T2 t))
    (toepMat n p D1 D2) t0 (toepMat_deriv n p T1 T2 D1 D2 t0 h1 h2) (fun t => toepMat_hermitian n p _ _ (hT t)) numeig c V hV
    hsym).congr_deriv ?_
  congr 1
  simp only [excBackTbt]
  rw [C47_directional n p hn _ D1 D2 (consistent_deriv n p T1 T2 D1 D2 t0 h1 h2 hT), sum_entryOf]
  simp only [pairMat, Complex.re_sum]
  rfl

/-- **C154 (excitons, `truncate_g='abs'`).** The same for the samples of the potential at the unique differences. -/
theorem C154_abs (argsort : List ℝ → List ℕ) (hs : ∀ l, IsArgsort l (argsort l))
    (eigh : ∀ n, Matrix (Fin n) (Fin n) ℂ → Fin n → ℝ) (he : GoodEigh eigh) {N K : ℕ}
    (hbar e a M : ℝ) (gvec : Fin N → R2) (k : Fin K → R2) (E0 loss : ℝ) (nU : ℕ) (idx : Fin N → Fin N → ℕ)
    (hidx : ∀ i j, idx i j < nU) (S : ℝ → ℕ → ℂ) (D : ℕ → ℂ) (t0 : ℝ) (h1 : ∀ m, HasDerivAt (fun t => S t m) (D m) t0)
    (hS : ∀ t i j, S t (idx j i) = conj (S t (idx i j))) (numeig : ℕ) (c : Fin K → ℕ → ℝ)
    (V : Fin K → Matrix (Fin N) (Fin N) ℂ)
    (hV : ∀ q, IsEigh (excMat hbar e a M (k q) gvec (of fun i j => S t0 (idx i j)) + 1)
      (eigh _ (excMat hbar e a M (k q) gvec (of fun i j => S t0 (idx i j)) + 1)) (V q))
    (hsym : ∀ q i j, i < N → j < N →
      excEnerAt argsort eigh hbar e a M gvec (k q) E0 loss (of fun i j => S t0 (idx i j)) N i =
        excEnerAt argsort eigh hbar e a M gvec (k q) E0 loss (of fun i j => S t0 (idx i j)) N j →
      allWeights numeig (c q) i = allWeights numeig (c q) j) :
    HasDerivAt (fun t => ∑ q, ∑ i ∈ range (min numeig N), (c q i : ℂ) *
        excEnerAt argsort eigh hbar e a M gvec (k q) E0 loss (of fun i j => S t (idx i j)) numeig i)
      (((∑ u ∈ range nU, excBackAbs idx (excBackPot argsort (fun q =>
          eigh _ (excMat hbar e a M (k q) gvec (of fun i j => S t0 (idx i j)) + 1)) V numeig c) u * D u).re : ℝ) : ℂ) t0 := by
  refine (exc_gradient_symm argsort hs eigh he hbar e a M gvec k E0 loss (fun t => of fun i j => S t (idx i j))
    (of fun i j => D (idx i j)) t0 (fun i j => h1 (idx i j)) (fun t => by
      ext i j
      rw [conjTranspose_apply, RCLike.star_def]
      simp only [of_apply]
      rw [hS t i j, Complex.conj_conj]) numeig c V hV hsym).congr_deriv ?_
  congr 1
  simp only [excBackAbs, sum_mul, pairMat, ← Complex.re_sum]
  congr 1
  symm
  rw [sum_comm]
  refine sum_congr rfl fun i _ => ?_
  rw [sum_comm]
  refine sum_congr rfl fun j _ => ?_
  simp only [ite_mul, zero_mul, of_apply]
  rw [sum_ite_eq, if_pos (mem_range.2 (hidx i j))]

/-- Two plane waves which a potential couples with strength `t`. -/
noncomputable def pairPot (t : ℝ) : Matrix (Fin 2) (Fin 2) ℂ := of fun i j => if i = j then 0 else (t : ℂ)

theorem pairPot_hermitian (t : ℝ) : (pairPot t).IsHermitian := by
  ext i j
  fin_cases i <;> fin_cases j <;> simp [pairPot]

theorem pairPot_samples (t : ℝ) :
    pairPot t = of fun i j : Fin 2 => (fun m : ℕ => if m = 1 then (t : ℂ) else 0) (if i = j then 0 else 1) := by
  ext i j
  fin_cases i <;> fin_cases j <;> simp [pairPot]

/-- At the edge of the Brillouin zone both plane waves have the same kinetic energy. -/
theorem pair_mat (t : ℝ) : excMat 1 1 1 1 (-1 / 2, 0) (fun i : Fin 2 => ((i : ℝ), (0 : ℝ))) (pairPot t) + 1 =
    !![((9 / 8 : ℝ) : ℂ), (t : ℂ); (t : ℂ), ((9 / 8 : ℝ) : ℂ)] := by
  have e1 : excKin 1 1 1 1 (-1 / 2, 0) (0, 0) = 1 / 8 := by
    unfold excKin
    rw [Real.sq_sqrt (by positivity)]
    norm_num
  have e2 : excKin 1 1 1 1 (-1 / 2, 0) (1, 0) = 1 / 8 := by
    unfold excKin
    rw [Real.sq_sqrt (by positivity)]
    norm_num
  ext i j
  fin_cases i <;> fin_cases j <;> simp [excMat, pairPot, e1, e2] <;> norm_num

/-- The energies of the pair. -/
theorem pair_energies (argsort : List ℝ → List ℕ) (hs : ∀ l, IsArgsort l (argsort l))
    (eigh : ∀ n, Matrix (Fin n) (Fin n) ℂ → Fin n → ℝ) (he : GoodEigh eigh) (t : ℝ) (numeig : ℕ) :
    (List.ofFn (eigh 2 (excMat 1 1 1 1 (-1 / 2, 0) (fun i : Fin 2 => ((i : ℝ), (0 : ℝ))) (pairPot t) + 1))).Perm
      [9 / 8 - |t|, 9 / 8 + |t|] ∧
    (excSelect argsort (List.ofFn (eigh 2 (excMat 1 1 1 1 (-1 / 2, 0) (fun i : Fin 2 => ((i : ℝ), (0 : ℝ)))
      (pairPot t) + 1))) numeig).2 = ([1 / 8 - |t|, 1 / 8 + |t|] : List ℝ).take numeig := by
  obtain ⟨V, hV⟩ := he _ _ ((excMat_hermitian 1 1 1 1 (fun i : Fin 2 => ((i : ℝ), (0 : ℝ))) (-1 / 2, 0)
    (pairPot_hermitian t)).add isHermitian_one)
  have hp := isEigh_perm_list hV [9 / 8 - |t|, 9 / 8 + |t|] (by
    rw [pair_mat, charpoly_fin_two, trace_fin_two_of, det_fin_two_of]
    have h2 : (|t| : ℝ) * |t| = t * t := abs_mul_abs_self t
    have h3 : ((|t| : ℝ) : ℂ) * ((|t| : ℝ) : ℂ) = (t : ℂ) * t := by exact_mod_cast h2
    simp only [List.map_cons, List.map_nil, List.prod_cons, List.prod_nil, mul_one, Complex.ofReal_sub, Complex.ofReal_add,
      map_add, map_sub, map_mul, ← h3]
    ring)
  refine ⟨hp, excSelect_take argsort hs _ _ ?_ ?_ numeig⟩
  · refine List.Perm.trans ?_ (hp.map _).symm
    refine List.Perm.of_eq ?_
    simp only [List.map_cons, List.map_nil]
    congr 1
    · ring
    · congr 1
      ring
  · simp only [List.pairwise_cons, List.mem_singleton, forall_eq, List.not_mem_nil, false_imp_iff, implies_true, and_true,
      List.Pairwise.nil]
    linarith [abs_nonneg t]

/-- The pair is degenerate without the coupling, and the sum of both energies has the gradient which the rules give. -/
example (argsort : List ℝ → List ℕ) (hs : ∀ l, IsArgsort l (argsort l))
    (eigh : ∀ n, Matrix (Fin n) (Fin n) ℂ → Fin n → ℝ) (he : GoodEigh eigh) (V : Matrix (Fin 2) (Fin 2) ℂ)
    (hV : IsEigh (excMat 1 1 1 1 (-1 / 2, 0) (fun i : Fin 2 => ((i : ℝ), (0 : ℝ))) (pairPot 0) + 1)
      (eigh 2 (excMat 1 1 1 1 (-1 / 2, 0) (fun i : Fin 2 => ((i : ℝ), (0 : ℝ))) (pairPot 0) + 1)) V) :
    excEnerAt argsort eigh 1 1 1 1 (fun i : Fin 2 => ((i : ℝ), (0 : ℝ))) (-1 / 2, 0) 1 0 (pairPot 0) 2 0 =
      excEnerAt argsort eigh 1 1 1 1 (fun i : Fin 2 => ((i : ℝ), (0 : ℝ))) (-1 / 2, 0) 1 0 (pairPot 0) 2 1 ∧
    HasDerivAt (fun t : ℝ =>
        excEnerAt argsort eigh 1 1 1 1 (fun i : Fin 2 => ((i : ℝ), (0 : ℝ))) (-1 / 2, 0) 1 0 (pairPot t) 2 0 +
        excEnerAt argsort eigh 1 1 1 1 (fun i : Fin 2 => ((i : ℝ), (0 : ℝ))) (-1 / 2, 0) 1 0 (pairPot t) 2 1)
      (((excBackAbs (fun i j => if i = j then 0 else 1) (excBackPot argsort (fun _ : Fin 1 =>
        eigh 2 (excMat 1 1 1 1 (-1 / 2, 0) (fun i : Fin 2 => ((i : ℝ), (0 : ℝ))) (pairPot 0) + 1)) (fun _ => V) 2
          fun _ _ => 1) 1).re : ℝ) : ℂ) 0 := by
  constructor
  · rw [excEnerAt_eq argsort eigh 1 1 1 1 _ _ 1 0 (pairPot_hermitian 0), excEnerAt_eq argsort eigh 1 1 1 1 _ _ 1 0
      (pairPot_hermitian 0), (pair_energies argsort hs eigh he 0 2).2]
    simp
  · have h := C154_abs argsort hs eigh he 1 1 1 1 (fun i : Fin 2 => ((i : ℝ), (0 : ℝ))) (fun _ : Fin 1 => (-1 / 2, 0)) 1 0 2
      (fun i j => if i = j then 0 else 1) (by intro i j; split_ifs <;> norm_num)
      (fun t m => if m = 1 then (t : ℂ) else 0) (fun m => if m = 1 then 1 else 0) 0 (by
        intro m
        by_cases hm : m = 1
        · simp only [hm, if_true]
          exact Complex.ofRealCLM.hasDerivAt
        · simp only [if_neg hm]
          exact hasDerivAt_const _ _) (by
        intro t i j
        fin_cases i <;> fin_cases j <;> simp) 2 (fun _ _ => 1) (fun _ => V) (by
          intro q
          simpa only [← pairPot_samples] using hV) (by
          intro q i j hi hj _
          simp [allWeights, hi, hj])
    simp only [← pairPot_samples] at h
    simpa [sum_range_succ] using h

theorem pair_eigh {w : Fin 2 → ℝ} (hw : ∀ i, w i = 9 / 8) {V : Matrix (Fin 2) (Fin 2) ℂ} (hV : V.conjTranspose * V = 1) :
    IsEigh (excMat 1 1 1 1 (-1 / 2, 0) (fun i : Fin 2 => ((i : ℝ), (0 : ℝ))) (pairPot 0) + 1) w V := by
  refine ⟨hV, ?_⟩
  have h1 : (diagonal fun i => (w i : ℂ)) = (((9 / 8 : ℝ) : ℂ)) • (1 : Matrix (Fin 2) (Fin 2) ℂ) := by
    ext i j
    fin_cases i <;> fin_cases j <;> simp [hw]
  have h2 : (!![((9 / 8 : ℝ) : ℂ), ((0 : ℝ) : ℂ); ((0 : ℝ) : ℂ), ((9 / 8 : ℝ) : ℂ)] : Matrix (Fin 2) (Fin 2) ℂ) =
      (((9 / 8 : ℝ) : ℂ)) • (1 : Matrix (Fin 2) (Fin 2) ℂ) := by
    ext i j
    fin_cases i <;> fin_cases j <;> simp
  rw [pair_mat, h1, h2, Matrix.smul_mul, Matrix.mul_smul, one_mul, mul_one]

/-- **C154 (the condition on the weights is needed).** Two plane waves at the edge of the Brillouin zone are degenerate if no
potential couples them. The lower one of the two energies has no derivative there with respect to the coupling. What the rules
return depends on the eigenvectors which `eigh` chose: two choices, both right, give two gradients. -/
theorem C154_fails (argsort : List ℝ → List ℕ) (hs : ∀ l, IsArgsort l (argsort l))
    (eigh : ∀ n, Matrix (Fin n) (Fin n) ℂ → Fin n → ℝ) (he : GoodEigh eigh) :
    (¬ DifferentiableAt ℝ (fun t : ℝ =>
      excEnerAt argsort eigh 1 1 1 1 (fun i : Fin 2 => ((i : ℝ), (0 : ℝ))) (-1 / 2, 0) 1 0 (pairPot t) 1 0) 0) ∧
    ∃ V V' : Matrix (Fin 2) (Fin 2) ℂ,
      IsEigh (excMat 1 1 1 1 (-1 / 2, 0) (fun i : Fin 2 => ((i : ℝ), (0 : ℝ))) (pairPot 0) + 1)
        (eigh 2 (excMat 1 1 1 1 (-1 / 2, 0) (fun i : Fin 2 => ((i : ℝ), (0 : ℝ))) (pairPot 0) + 1)) V ∧
      IsEigh (excMat 1 1 1 1 (-1 / 2, 0) (fun i : Fin 2 => ((i : ℝ), (0 : ℝ))) (pairPot 0) + 1)
        (eigh 2 (excMat 1 1 1 1 (-1 / 2, 0) (fun i : Fin 2 => ((i : ℝ), (0 : ℝ))) (pairPot 0) + 1)) V' ∧
      pairMat (excBackPot argsort (fun _ : Fin 1 => eigh 2 (excMat 1 1 1 1 (-1 / 2, 0) (fun i : Fin 2 => ((i : ℝ), (0 : ℝ)))
        (pairPot 0) + 1)) (fun _ => V) 1 fun _ _ => 1) (pairPot 1) ≠
      pairMat (excBackPot argsort (fun _ : Fin 1 => eigh 2 (excMat 1 1 1 1 (-1 / 2, 0) (fun i : Fin 2 => ((i : ℝ), (0 : ℝ)))
        (pairPot 0) + 1)) (fun _ => V') 1 fun _ _ => 1) (pairPot 1) := by
  constructor
  · intro hd
    have hval : ∀ t : ℝ, excEnerAt argsort eigh 1 1 1 1 (fun i : Fin 2 => ((i : ℝ), (0 : ℝ))) (-1 / 2, 0) 1 0 (pairPot t) 1 0 =
        ((9 / 8 - |t| : ℝ) : ℂ) := by
      intro t
      rw [excEnerAt_eq argsort eigh 1 1 1 1 _ _ 1 0 (pairPot_hermitian t), (pair_energies argsort hs eigh he t 1).2]
      simp
      ring
    simp only [hval] at hd
    have h1 : DifferentiableAt ℝ (fun t : ℝ => 9 / 8 - |t|) 0 := by
      have := Complex.reCLM.differentiableAt.comp (0 : ℝ) hd
      simpa [Function.comp_def] using this
    have h2 : DifferentiableAt ℝ (fun t : ℝ => |t|) 0 := by
      have := (differentiableAt_const (9 / 8 : ℝ)).sub h1
      simpa using this
    exact not_differentiableAt_abs_zero h2
  · set w := eigh 2 (excMat 1 1 1 1 (-1 / 2, 0) (fun i : Fin 2 => ((i : ℝ), (0 : ℝ))) (pairPot 0) + 1) with hw
    have hw0 : ∀ i, w i = 9 / 8 := by
      intro i
      have h1 := (pair_energies argsort hs eigh he 0 2).1
      rw [← hw] at h1
      have h2 : w i ∈ ([9 / 8 - |0|, 9 / 8 + |0|] : List ℝ) := h1.mem_iff.1 (List.mem_ofFn.2 ⟨i, rfl⟩)
      simpa using h2
    set r : ℂ := (((√2)⁻¹ : ℝ) : ℂ) with hr
    have hr2 : r * r = 1 / 2 := by
      rw [hr, ← Complex.ofReal_mul, ← mul_inv, Real.mul_self_sqrt (by norm_num)]
      norm_num
    have hrc : conj r = r := Complex.conj_ofReal _
    have hV' : (!![r, r; r, -r] : Matrix (Fin 2) (Fin 2) ℂ).conjTranspose * !![r, r; r, -r] = 1 := by
      ext i j
      fin_cases i <;> fin_cases j <;> simp [Matrix.mul_apply, Fin.sum_univ_two, hrc, hr2] <;> norm_num
    refine ⟨1, !![r, r; r, -r], pair_eigh hw0 (by simp), pair_eigh hw0 hV', ?_⟩
    obtain ⟨s, hsel⟩ : ∃ s : Fin 2, (argsort ((List.ofFn w).map (· - 1))).take 1 = [(s : ℕ)] := by
      have h1 := (hs ((List.ofFn w).map (· - 1))).1
      rw [List.length_map, List.length_ofFn] at h1
      have hl : (argsort ((List.ofFn w).map (· - 1))).length = 2 := by rw [h1.length_eq]; rfl
      obtain ⟨x, y, hxy⟩ := List.length_eq_two.1 hl
      have hx : x < 2 := List.mem_range.1 (h1.mem_iff.1 (by rw [hxy]; simp))
      exact ⟨⟨x, hx⟩, by rw [hxy]; rfl⟩
    have hback : ∀ V : Matrix (Fin 2) (Fin 2) ℂ, pairMat (excBackPot argsort (fun _ : Fin 1 => w) (fun _ => V) 1 fun _ _ => 1)
        (pairPot 1) = (sandwich (fun i => V i s) (pairPot 1) fun i => V i s).re := by
      intro V
      have h1 : excBackPot argsort (fun _ : Fin 1 => w) (fun _ => V) 1 (fun _ _ => 1) =
          vjpEigh false w V (backEner [(s : ℕ)] fun _ => 1) 0 := by
        ext i j
        simp only [excBackPot, of_apply, hsel, Fin.sum_univ_one, univ_unique, sum_singleton]
      rw [h1, C48_eigenvalues false w V _ _ (fun i j => by fin_cases i <;> fin_cases j <;> simp [pairPot])]
      have h2 : ∀ m : Fin 2, backEner [(s : ℕ)] (fun _ => (1 : ℝ)) m = if s = m then 1 else 0 := by
        intro m
        unfold backEner
        rw [List.length_singleton, sum_range_one]
        simp [Fin.ext_iff]
      simp only [h2, ite_mul, one_mul, zero_mul, sum_ite_eq, mem_univ, if_true]
    rw [hback, hback]
    fin_cases s
    · simp [sandwich, Fin.sum_univ_two, pairPot, hrc, hr2]
      norm_num
    · simp [sandwich, Fin.sum_univ_two, pairPot, hrc, hr2]
      norm_num

end Legume
