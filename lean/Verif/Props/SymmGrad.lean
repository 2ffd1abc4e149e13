import Verif.Lemmas.TraceDeriv
import Verif.Props.GroupVelocity

/-! # C154: gradients are right at degenerate bands if these enter symmetrically -/
namespace Legume

open Matrix Spec Finset Filter Topology
open scoped ComplexConjugate Real

/-- A reordering of the first `N` numbers as a permutation. -/
theorem perm_range_equiv {N : ℕ} {l : List ℕ} (h : l.Perm (List.range N)) : ∃ e : Fin N ≃ Fin N, ∀ i : Fin N, l.getD i 0 = e i := by
  have hlen : l.length = N := by rw [h.length_eq, List.length_range]
  have hlt : ∀ i : Fin N, l.getD i 0 < N := fun i => by
    rw [getD_of_len (by rw [hlen]; exact i.2)]
    exact List.mem_range.1 (h.mem_iff.1 (List.getElem_mem _))
  have hnd : l.Nodup := h.nodup_iff.2 List.nodup_range
  have hinj : Function.Injective fun i : Fin N => (⟨l.getD i 0, hlt i⟩ : Fin N) := by
    intro i j hij
    have h1 := congrArg Fin.val hij
    simp only at h1
    rw [getD_of_len (by rw [hlen]; exact i.2), getD_of_len (by rw [hlen]; exact j.2)] at h1
    exact Fin.ext ((List.Nodup.getElem_inj_iff hnd).1 h1)
  exact ⟨Equiv.ofBijective _ (Finite.injective_iff_bijective.1 hinj), fun i => rfl⟩

/-- A function which is constant near each of finitely many points, with given values that agree where the points do. -/
theorem locally_constant_exists {N : ℕ} (y : Fin N → ℝ) (c : Fin N → ℝ) (h : ∀ i j, y i = y j → c i = c j) :
    ∃ (C : ℝ → ℝ) (δ : ℝ), 0 < δ ∧ ∀ i x, |x - y i| < δ → C x = c i := by
  classical
  obtain ⟨δ, hδ, hsep⟩ : ∃ δ > 0, ∀ i j, y i ≠ y j → 2 * δ ≤ |y i - y j| := by
    have : ∀ p : Fin N × Fin N, ∃ δ > 0, y p.1 ≠ y p.2 → 2 * δ ≤ |y p.1 - y p.2| := by
      intro p
      by_cases hp : y p.1 = y p.2
      · exact ⟨1, one_pos, fun h => absurd hp h⟩
      · exact ⟨|y p.1 - y p.2| / 2, by have := abs_pos.2 (sub_ne_zero.2 hp); positivity, fun _ => by linarith⟩
    choose d hd hd' using this
    by_cases hN : Nonempty (Fin N × Fin N)
    · obtain ⟨p, hp⟩ := Finite.exists_min d
      exact ⟨d p, hd p, fun i j hij => by have := hd' (i, j) hij; have := hp (i, j); simp only at *; linarith⟩
    · exact ⟨1, one_pos, fun i j => absurd ⟨(i, j)⟩ hN⟩
  refine ⟨fun x => if h : ∃ i, |x - y i| < δ then c h.choose else 0, δ, hδ, fun i x hx => ?_⟩
  have hex : ∃ i, |x - y i| < δ := ⟨i, hx⟩
  simp only [dif_pos hex]
  refine h _ _ ?_
  by_contra hne
  have h1 := hsep _ _ hne
  have h2 := hex.choose_spec
  have h3 : |y hex.choose - y i| ≤ |x - y hex.choose| + |x - y i| := by
    have e : y hex.choose - y i = -(x - y hex.choose) + (x - y i) := by ring
    rw [e]
    exact (abs_add_le _ _).trans (by rw [abs_neg])
  linarith

/-- Sums of sorted values of a function of the eigenvalues, with weights which agree where the values do. -/
theorem symm_deriv {N : ℕ} (A : ℝ → Matrix (Fin N) (Fin N) ℂ) (A' : Matrix (Fin N) (Fin N) ℂ) (t0 : ℝ)
    (hA : ∀ i j, HasDerivAt (fun t => A t i j) (A' i j) t0) (hH : ∀ t, (A t).IsHermitian) (W : ℝ → Fin N → ℝ)
    (hW : ∀ t, ∃ V, IsEigh (A t) (W t) V) (V : Matrix (Fin N) (Fin N) ℂ) (h0 : IsEigh (A t0) (W t0) V)
    (g g' : ℝ → ℝ) (hgc : Continuous g) (F : ℝ → List ℝ) (hF : ∀ t, (F t).Perm ((List.ofFn (W t)).map g))
    (hc : ∀ j : Fin N, ContinuousAt (fun t => (F t).getD j 0) t0) (c : Fin N → ℝ)
    (hsym : ∀ i j : Fin N, (F t0).getD i 0 = (F t0).getD j 0 → c i = c j) (e : Fin N ≃ Fin N)
    (hval : ∀ i, g (W t0 (e i)) = (F t0).getD i 0) (hg : ∀ i, c i ≠ 0 → HasDerivAt g (g' (W t0 (e i))) (W t0 (e i))) :
    HasDerivAt (fun t => ∑ i : Fin N, c i * (F t).getD i 0)
      (∑ i, c i * (g' (W t0 (e i)) * (sandwich (fun l => V l (e i)) A' fun l => V l (e i)).re)) t0 := by
  classical
  have hlen : ∀ t, (F t).length = N := fun t => by rw [(hF t).length_eq]; simp
  obtain ⟨C, δ, hδ, hC⟩ := locally_constant_exists (fun i : Fin N => (F t0).getD i 0) c hsym
  have hC0 : ∀ i : Fin N, C ((F t0).getD i 0) = c i := fun i => hC i _ (by rw [sub_self, abs_zero]; exact hδ)
  have hφ : ∀ m, HasDerivAt (fun x => C (g x) * g x) (C (g (W t0 m)) * g' (W t0 m)) (W t0 m) := by
    intro m
    obtain ⟨i, rfl⟩ := e.surjective m
    have hloc : (fun x => C (g x) * g x) =ᶠ[𝓝 (W t0 (e i))] fun x => c i * g x := by
      have h1 : ∀ᶠ x in 𝓝 (W t0 (e i)), |g x - (F t0).getD i 0| < δ := by
        have : ContinuousAt (fun x => |g x - (F t0).getD i 0|) (W t0 (e i)) := by fun_prop
        refine this.eventually (gt_mem_nhds ?_)
        show |g (W t0 (e i)) - (F t0).getD i 0| < δ
        rw [hval, sub_self, abs_zero]
        exact hδ
      filter_upwards [h1] with x hx
      rw [hC i _ hx]
    rw [hval, hC0]
    by_cases hci : c i = 0
    · rw [hci, zero_mul]
      refine (hasDerivAt_const (W t0 (e i)) (0 : ℝ)).congr_of_eventuallyEq (hloc.trans ?_)
      exact Eventually.of_forall fun x => by simp [hci]
    · exact ((hg i hci).const_mul (c i)).congr_of_eventuallyEq hloc
  have hmain := spectral_deriv A A' t0 hA hH W hW V h0 (fun x => C (g x) * g x) (fun x => C (g x) * g' x) hφ
  refine (hmain.congr_deriv ?_).congr_of_eventuallyEq ?_
  · rw [← Equiv.sum_comp e]
    refine sum_congr rfl fun i _ => ?_
    rw [hval, hC0]
    ring
  · have hev : ∀ᶠ t in 𝓝 t0, ∀ j : Fin N, |(F t).getD j 0 - (F t0).getD j 0| < δ := by
      rw [eventually_all]
      intro j
      have : ContinuousAt (fun t => |(F t).getD j 0 - (F t0).getD j 0|) t0 := ((hc j).sub continuousAt_const).abs
      refine this.eventually (gt_mem_nhds ?_)
      show |(F t0).getD j 0 - (F t0).getD j 0| < δ
      rw [sub_self, abs_zero]
      exact hδ
    filter_upwards [hev] with t ht
    have h1 : ∑ m, C (g (W t m)) * g (W t m) = (((List.ofFn (W t)).map g).map fun x => C x * x).sum := by
      rw [List.map_map, List.map_ofFn, List.sum_ofFn]
      rfl
    have h2 : ∑ i : Fin N, C ((F t).getD i 0) * (F t).getD i 0 = ((F t).map fun x => C x * x).sum := by
      have : F t = List.ofFn fun i : Fin N => (F t).getD i 0 := by
        apply List.ext_getElem
        · simp [hlen]
        · intro i hi hi'
          rw [List.getElem_ofFn, getD_of_len (by simpa using hi)]
      conv_rhs => rw [this]
      rw [List.map_ofFn, List.sum_ofFn]
      rfl
    show _ = ∑ m, C (g (W t m)) * g (W t m)
    rw [h1, ← ((hF t).map _).sum_eq, ← h2]
    exact sum_congr rfl fun i _ => by rw [hC i _ (ht i)]

/-- The weights of all bands: none for those which are not returned. -/
noncomputable def allWeights (numeig : ℕ) (c : ℕ → ℝ) (i : ℕ) : ℝ := if i < numeig then c i else 0

/-- The gradient of the returned frequencies with respect to the matrix. `sel` lists the eigenvalues selected, which may be
continued to an order of all of them. -/
theorem freq_gradient_symm (argsort : List ℝ → List ℕ) (hs : ∀ l, IsArgsort l (argsort l))
    (eigh : ∀ n, Matrix (Fin n) (Fin n) ℂ → Fin n → ℝ) (he : GoodEigh eigh) {N : ℕ}
    (A : ℝ → Matrix (Fin N) (Fin N) ℂ) (A' : Matrix (Fin N) (Fin N) ℂ) (t0 : ℝ)
    (hA : ∀ i j, HasDerivAt (fun t => A t i j) (A' i j) t0) (hH : ∀ t, (A t).IsHermitian)
    (V : Matrix (Fin N) (Fin N) ℂ) (hV : IsEigh (A t0) (eigh N (A t0)) V) (numeig : ℕ) (c : ℕ → ℝ) (sel rest : List ℕ)
    (hsel : (sel ++ rest).Perm (List.range N)) (hlen : sel.length = min numeig N)
    (hval : ∀ i < N, freqOf ((List.ofFn (eigh N (A t0))).getD ((sel ++ rest).getD i 0) 0) =
      (solvePwe argsort (List.ofFn (eigh N (A t0))) N).freq.getD i 0)
    (hsym : ∀ i j, i < N → j < N → (solvePwe argsort (List.ofFn (eigh N (A t0))) N).freq.getD i 0 =
      (solvePwe argsort (List.ofFn (eigh N (A t0))) N).freq.getD j 0 → allWeights numeig c i = allWeights numeig c j)
    (hz : ∀ i, c i ≠ 0 → (solvePwe argsort (List.ofFn (eigh N (A t0))) numeig).freq.getD i 0 ≠ 0) :
    ∃ f' : ℕ → ℝ, HasDerivAt (fun t => ∑ i ∈ range numeig, c i * (solvePwe argsort (List.ofFn (eigh N (A t))) numeig).freq.getD i 0)
        (∑ i ∈ range numeig, c i * f' i) t0 ∧
      pairMat (vjpEigh false (eigh N (A t0)) V (backFreq (eigh N (A t0)) sel c) 0) A' =
        ∑ i ∈ range numeig, c i * sqrtRatio ((solvePwe argsort (List.ofFn (eigh N (A t0))) numeig).freq.getD i 0) * f' i := by
  classical
  set W : ℝ → Fin N → ℝ := fun t => eigh N (A t) with hWd
  set F : ℝ → List ℝ := fun t => sortedFreqs (List.ofFn (W t)) with hFd
  have hFlen : ∀ t, (F t).length = N := fun t => by rw [hFd, (sortedFreqs_perm _).length_eq]; simp
  have hfull : ∀ t, (solvePwe argsort (List.ofFn (W t)) N).freq = F t := fun t => by
    rw [solvePwe_sortedFreqs argsort hs, List.take_of_length_le (hFlen t).le]
  have hret : ∀ t i, i < numeig → (solvePwe argsort (List.ofFn (W t)) numeig).freq.getD i 0 = (F t).getD i 0 := by
    intro t i hi
    rw [solvePwe_sortedFreqs argsort hs, List.getD_eq_getElem?_getD, List.getElem?_take_of_lt hi, ← List.getD_eq_getElem?_getD]
  have hbeyond : ∀ t i, N ≤ i → (F t).getD i 0 = 0 := fun t i hi => by
    rw [List.getD_eq_getElem?_getD, List.getElem?_eq_none (by rw [hFlen]; exact hi), Option.getD_none]
  obtain ⟨e, hee⟩ := perm_range_equiv hsel
  have hval' : ∀ i : Fin N, freqOf (W t0 (e i)) = (F t0).getD i 0 := by
    intro i
    have h1 := hval i i.2
    rw [show eigh N (A t0) = W t0 from rfl, hfull, hee i, getD_of_len (by simp)] at h1
    simpa using h1
  have hselget : ∀ i (hi : i < N), i < numeig → sel.getD i 0 = e ⟨i, hi⟩ := by
    intro i hi hi'
    have h1 := hee ⟨i, hi⟩
    have h2 : i < sel.length := by rw [hlen]; exact lt_min hi' hi
    rw [← h1, List.getD_eq_getElem?_getD, List.getD_eq_getElem?_getD, List.getElem?_append_left h2]
  have hne1 : ∀ i : Fin N, allWeights numeig c i ≠ 0 → W t0 (e i) ≠ 1 := by
    intro i hi h1
    unfold allWeights at hi
    split_ifs at hi with hlt
    · apply hz i hi
      rw [show eigh N (A t0) = W t0 from rfl, hret t0 i hlt, ← hval' i, h1]
      simp [freqOf]
    · exact hi rfl
  set μ : Fin N → ℝ := fun m => (sandwich (fun i => V i m) A' fun i => V i m).re with hμ
  set gd : ℝ → ℝ := fun w => ((w - 1) / |w - 1|) / (2 * √|w - 1|) / 2 / π with hgd
  have hcont : ∀ j, ContinuousAt (fun t => (F t).getD j 0) t0 := by
    intro j
    have := freq_continuous argsort hs eigh he A hH t0 (fun i j => (hA i j).continuousAt) N j
    exact this.congr (Eventually.of_forall fun t => congrArg (fun l : List ℝ => l.getD j 0) (hfull t))
  have hgcont : Continuous freqOf := by
    unfold freqOf
    fun_prop
  have hmain := symm_deriv A A' t0 hA hH W (fun t => he _ _ (hH t)) V hV freqOf gd hgcont F (fun t => sortedFreqs_perm _)
    (fun j => hcont j) (fun i => allWeights numeig c i) (fun i j hij => hsym i j i.2 j.2 (by
      rw [show eigh N (A t0) = W t0 from rfl, hfull]; exact hij)) e hval' (fun i hi => by
        have h3 := freqOf_deriv (hasDerivAt_id (W t0 (e i))) (hne1 i hi)
        simpa [gd] using h3)
  -- sums over the bands returned
  have hsumR : ∀ h : ℕ → ℝ, (∀ i, N ≤ i → h i = 0) →
      ∑ i : Fin N, allWeights numeig c i * h i = ∑ i ∈ range numeig, c i * h i := by
    intro h hh
    rw [Fin.sum_univ_eq_sum_range (fun i => allWeights numeig c i * h i) N]
    have e1 : ∑ i ∈ range N, allWeights numeig c i * h i = ∑ i ∈ range (max N numeig), allWeights numeig c i * h i := by
      refine sum_subset (range_mono (le_max_left _ _)) fun i _ hi => ?_
      rw [hh i (by simpa using hi), mul_zero]
    have e2 : ∑ i ∈ range numeig, c i * h i = ∑ i ∈ range (max N numeig), allWeights numeig c i * h i := by
      refine (sum_congr rfl fun i hi => ?_).trans (sum_subset (range_mono (le_max_right _ _)) fun i _ hi => ?_)
      · rw [allWeights, if_pos (mem_range.1 hi)]
      · rw [allWeights, if_neg (by simpa using hi), zero_mul]
    rw [e1, e2]
  refine ⟨fun i => if hi : i < N then gd (W t0 (e ⟨i, hi⟩)) * μ (e ⟨i, hi⟩) else 0, ?_, ?_⟩
  · have h1 := hsumR (fun i => if hi : i < N then gd (W t0 (e ⟨i, hi⟩)) * μ (e ⟨i, hi⟩) else 0)
      (fun i hi => by rw [dif_neg (not_lt.2 hi)])
    refine (hmain.congr_deriv ?_).congr_of_eventuallyEq (Eventually.of_forall fun t => ?_)
    · rw [← h1]
      exact sum_congr rfl fun i _ => by rw [dif_pos i.2]
    · show ∑ i ∈ range numeig, c i * (solvePwe argsort (List.ofFn (W t)) numeig).freq.getD i 0 =
        ∑ i : Fin N, allWeights numeig c i * (F t).getD i 0
      rw [hsumR (fun i => (F t).getD i 0) (hbeyond t)]
      exact sum_congr rfl fun i hi => by rw [hret t i (mem_range.1 hi)]
  · have hA'H : ∀ i j, A' j i = conj (A' i j) := by
      intro i j
      have e1 := (hA i j).star
      have e2 : (fun t => star (A t i j)) = fun t => A t j i := by
        ext t; exact (hH t).apply j i
      rw [e2] at e1
      exact (hA j i).unique e1
    rw [C48_eigenvalues false (W t0) V A' _ hA'H]
    change ∑ m, backFreq (W t0) sel c m * μ m = _
    have hL : ∀ m, backFreq (W t0) sel c m * μ m = ∑ i ∈ range sel.length,
        if sel.getD i 0 = (m : ℕ) then
          c i / π / 2 * vjpSqrt |W t0 m - 1| * ((W t0 m - 1) / |W t0 m - 1|) * μ m else 0 := by
      intro m
      unfold backFreq
      rw [sum_div, sum_div, sum_mul, sum_mul, sum_mul]
      refine sum_congr rfl fun i _ => ?_
      split_ifs <;> simp
    simp only [hL]
    rw [sum_comm]
    have hcut : ∑ i ∈ range numeig, c i * sqrtRatio ((solvePwe argsort (List.ofFn (W t0)) numeig).freq.getD i 0) *
        (if hi : i < N then gd (W t0 (e ⟨i, hi⟩)) * μ (e ⟨i, hi⟩) else 0) =
        ∑ i ∈ range sel.length, c i * sqrtRatio ((solvePwe argsort (List.ofFn (W t0)) numeig).freq.getD i 0) *
        (if hi : i < N then gd (W t0 (e ⟨i, hi⟩)) * μ (e ⟨i, hi⟩) else 0) := by
      symm
      refine sum_subset (range_mono (by rw [hlen]; exact min_le_left _ _)) fun i h1 h2 => ?_
      have h1 := mem_range.1 h1
      have h2 : ¬ i < min numeig N := by rw [← hlen]; simpa using h2
      rw [dif_neg (fun h3 => h2 (lt_min h1 h3)), mul_zero]
    refine Eq.trans ?_ hcut.symm
    refine sum_congr rfl fun i hi => ?_
    have hi' := mem_range.1 hi
    rw [hlen] at hi'
    obtain ⟨hin, hiN⟩ := lt_min_iff.1 hi'
    rw [dif_pos hiN]
    set m0 := e ⟨i, hiN⟩ with hm0
    have hiff : ∀ m : Fin N, sel.getD i 0 = (m : ℕ) ↔ m0 = m := by
      intro m
      rw [hselget i hiN hin, Fin.ext_iff]
    simp only [hiff, sum_ite_eq, mem_univ, if_true]
    by_cases hci : c i = 0
    · simp [hci]
    · have hw1 := hne1 ⟨i, hiN⟩ (by rw [allWeights, if_pos hin]; exact hci)
      have hpos : 0 < |W t0 m0 - 1| := abs_pos.2 (sub_ne_zero.2 hw1)
      rw [hret t0 i hin, ← hval' ⟨i, hiN⟩, ← hm0, sqrtRatio_freq _ hw1, vjpSqrt_ratio _ hpos]
      simp only [gd]
      ring

/-- The order which `argsort` gives for the frequencies. -/
theorem order_values (argsort : List ℝ → List ℕ) (hs : ∀ l, IsArgsort l (argsort l)) {N : ℕ} (w : Fin N → ℝ) :
    (argsort ((List.ofFn w).map freqOf)).Perm (List.range N) ∧ ∀ i < N,
      freqOf ((List.ofFn w).getD ((argsort ((List.ofFn w).map freqOf)).getD i 0) 0) =
        (solvePwe argsort (List.ofFn w) N).freq.getD i 0 := by
  have s1 := (hs ((List.ofFn w).map freqOf)).1
  rw [List.length_map, List.length_ofFn] at s1
  refine ⟨s1, fun i hi => ?_⟩
  set sel := argsort ((List.ofFn w).map freqOf) with hsel
  have hlen : sel.length = N := by rw [s1.length_eq, List.length_range]
  have hi' : i < sel.length := by rw [hlen]; exact hi
  have hm : sel[i] < N := List.mem_range.1 (s1.mem_iff.1 (List.getElem_mem hi'))
  unfold solvePwe
  simp only
  rw [← hsel, List.take_of_length_le hlen.le, getD_of_len hi', List.getD_eq_getElem?_getD (l := sel.map _), List.getElem?_map,
    List.getElem?_eq_getElem hi', Option.map_some, Option.getD_some, ofFn_map_getD _ _ hm, getD_of_len (by simpa using hm)]
  simp

/-! ### Two-dimensional crystals -/

/-- Gradients with respect to the samples of the permittivity. -/
theorem pwe_gradient_symm (argsort : List ℝ → List ℕ) (hs : ∀ l, IsArgsort l (argsort l))
    (eigh : ∀ n, Matrix (Fin n) (Fin n) ℂ → Fin n → ℝ) (he : GoodEigh eigh) {n p K : ℕ} (hn : 0 < n)
    (T1 T2 : ℝ → ℕ → ℂ) (D1 D2 : ℕ → ℂ) (t0 : ℝ)
    (h1 : ∀ m, HasDerivAt (fun t => T1 t m) (D1 m) t0) (h2 : ∀ m, HasDerivAt (fun t => T2 t m) (D2 m) t0)
    (hT : ∀ t, ToeplitzConsistent n p (T1 t) (T2 t)) (hdet : (toepMat n p (T1 t0) (T2 t0)).det ≠ 0)
    (pol : Pol) (gvec : Fin (n * p) → R2) (k : Fin K → R2) (numeig : ℕ) (c : Fin K → ℕ → ℝ)
    (V : Fin K → Matrix (Fin (n * p)) (Fin (n * p)) ℂ)
    (hV : ∀ q, IsEigh (pweMat pol (k q) gvec (toepMat n p (T1 t0) (T2 t0))⁻¹ + 1)
      (eigh _ (pweMat pol (k q) gvec (toepMat n p (T1 t0) (T2 t0))⁻¹ + 1)) (V q))
    (hsym : ∀ q i j, i < n * p → j < n * p →
      pweFreqAt argsort eigh pol gvec (k q) (toepMat n p (T1 t0) (T2 t0)) (n * p) i =
        pweFreqAt argsort eigh pol gvec (k q) (toepMat n p (T1 t0) (T2 t0)) (n * p) j →
      allWeights numeig (c q) i = allWeights numeig (c q) j)
    (hz : ∀ q i, c q i ≠ 0 → pweFreqAt argsort eigh pol gvec (k q) (toepMat n p (T1 t0) (T2 t0)) numeig i ≠ 0) :
    ∃ f' : Fin K → ℕ → ℝ,
      HasDerivAt (fun t => ∑ q, ∑ i ∈ range numeig, c q i *
        pweFreqAt argsort eigh pol gvec (k q) (toepMat n p (T1 t) (T2 t)) numeig i)
        (∑ q, ∑ i ∈ range numeig, c q i * f' q i) t0 ∧
      (∑ m ∈ range (n * p), (pweBackward argsort pol gvec k (toepMat n p (T1 t0) (T2 t0))⁻¹
          (fun q => eigh _ (pweMat pol (k q) gvec (toepMat n p (T1 t0) (T2 t0))⁻¹ + 1)) V numeig c).1 m * D1 m +
        ∑ m ∈ range (n * p), (pweBackward argsort pol gvec k (toepMat n p (T1 t0) (T2 t0))⁻¹
          (fun q => eigh _ (pweMat pol (k q) gvec (toepMat n p (T1 t0) (T2 t0))⁻¹ + 1)) V numeig c).2 m * D2 m).re =
        ∑ q, ∑ i ∈ range numeig, c q i *
          sqrtRatio (pweFreqAt argsort eigh pol gvec (k q) (toepMat n p (T1 t0) (T2 t0)) numeig i) * f' q i := by
  classical
  set E : ℝ → Matrix (Fin (n * p)) (Fin (n * p)) ℂ := fun t => toepMat n p (T1 t) (T2 t) with hE
  set A : Fin K → ℝ → Matrix (Fin (n * p)) (Fin (n * p)) ℂ := fun q t => pweMat pol (k q) gvec (E t)⁻¹ + 1 with hA
  set A' : Fin K → Matrix (Fin (n * p)) (Fin (n * p)) ℂ := fun q =>
    of fun i j => (pweFactor pol (k q) gvec i j : ℂ) * (-((E t0)⁻¹ * toepMat n p D1 D2 * (E t0)⁻¹)) i j with hA'
  have hu : IsUnit (E t0) := (Matrix.isUnit_iff_isUnit_det _).mpr (isUnit_iff_ne_zero.mpr hdet)
  have hAd : ∀ q i j, HasDerivAt (fun t => A q t i j) (A' q i j) t0 := by
    intro q i j
    have := ((inv_deriv E (toepMat n p D1 D2) t0 (fun i j => toepMat_deriv n p T1 T2 D1 D2 t0 h1 h2 i j) hu i j).const_mul
      (pweFactor pol (k q) gvec i j : ℂ)).add_const ((1 : Matrix (Fin (n * p)) (Fin (n * p)) ℂ) i j)
    simp only [A, Matrix.add_apply, pweMat_factor]
    exact this
  have hAH : ∀ q t, (A q t).IsHermitian := fun q t =>
    pweMat_hermitian pol (k q) gvec _ (toepMat_hermitian n p _ _ (hT t)).inv
  have hone := fun q => freq_gradient_symm argsort hs eigh he (A q) (A' q) t0 (hAd q) (hAH q) (V q) (hV q) numeig (c q)
    ((argsort ((List.ofFn (eigh _ (A q t0))).map freqOf)).take numeig)
    ((argsort ((List.ofFn (eigh _ (A q t0))).map freqOf)).drop numeig)
    (by rw [List.take_append_drop]; exact (order_values argsort hs _).1)
    (by rw [List.length_take, (order_values argsort hs _).1.length_eq, List.length_range])
    (by rw [List.take_append_drop]; exact (order_values argsort hs _).2) (hsym q) (hz q)
  choose f' hf hsum using hone
  refine ⟨f', HasDerivAt.fun_sum fun q _ => hf q, ?_⟩
  refine Eq.trans (backSamples_pair hn pol gvec k (E t0)⁻¹ (fun q => eigh _ (A q t0)) V
    (fun q => backFreq (eigh _ (A q t0)) ((argsort ((List.ofFn (eigh _ (A q t0))).map freqOf)).take numeig) (c q)) D1 D2
    (consistent_deriv n p T1 T2 D1 D2 t0 h1 h2 hT)) ?_
  exact sum_congr rfl fun q _ => hsum q

/-- The smoothed root changes each term of a gradient by little. -/
theorem ratio_error {K : ℕ} (numeig : ℕ) (c f' F : Fin K → ℕ → ℝ) (hz : ∀ q i, c q i ≠ 0 → F q i ≠ 0) :
    |∑ q, ∑ i ∈ range numeig, c q i * sqrtRatio (F q i) * f' q i - ∑ q, ∑ i ∈ range numeig, c q i * f' q i| ≤
      ∑ q, ∑ i ∈ range numeig, |c q i * f' q i| * (1e-10 / (2 * π * F q i) ^ 2) := by
  rw [← sum_sub_distrib]
  refine (abs_sum_le_sum_abs _ _).trans (sum_le_sum fun q _ => ?_)
  rw [← sum_sub_distrib]
  refine (abs_sum_le_sum_abs _ _).trans (sum_le_sum fun i _ => ?_)
  by_cases hc : c q i = 0
  · simp [hc]
  · obtain ⟨b1, b2, b3⟩ := sqrtRatio_bounds _ (hz q i hc)
    have e : c q i * sqrtRatio (F q i) * f' q i - c q i * f' q i = c q i * f' q i * -(1 - sqrtRatio (F q i)) := by ring
    rw [e, abs_mul, abs_neg, abs_of_pos (show (0 : ℝ) < 1 - sqrtRatio (F q i) by linarith)]
    exact mul_le_mul_of_nonneg_left b3 (abs_nonneg _)

section
variable (b1 b2 : R2) (gmax : ℝ)

/-- The plane waves. -/
local notation "gS" => List.map (gOf b1 b2) (tbtInds (nmaxOf (2 * π) gmax b1) (nmaxOf (2 * π) gmax b2))
/-- Their numbers along the two directions. -/
local notation "p1" => (2 * nmaxOf (2 * π) gmax b1 + 1)
local notation "p2" => (2 * nmaxOf (2 * π) gmax b2 + 1)

/-- **C154 (two-dimensional crystals).** In a run of `PlaneWaveExp` over any list of wave vectors, let bands with the same
frequency have the same weight in an objective which is a weighted sum of the frequencies. The bands which are not returned
have weight 0. Then the objective has a derivative even if frequencies are degenerate, and the rules compute it with a
relative error of at most `10⁻¹⁰ / (2 π f)²` for each frequency. -/
theorem C154_pwe (argsort : List ℝ → List ℕ) (hs : ∀ l, IsArgsort l (argsort l))
    (eigh : ∀ n, Matrix (Fin n) (Fin n) ℂ → Fin n → ℝ) (he : GoodEigh eigh) (area : ℝ) (epsB epsAvg : ℝ → ℝ)
    (shapes : ℝ → List FShape) (hr : ∀ t, ∀ s ∈ shapes t, RealShape s) (t0 : ℝ) (D : R2 → ℂ)
    (hD : ∀ g, HasDerivAt (fun t => layerFt (epsB t) (epsAvg t) area (shapes t) g) (D g) t0) (ks : List R2) (pol : String) (P : Pol)
    (hpol : parsePol pol = .ok P) (numeig : ℕ) (E : Matrix (Fin (p1 * p2)) (Fin (p1 * p2)) ℂ)
    (hE : E = toepMat p1 p2 (T1raw (layerFt (epsB t0) (epsAvg t0) area (shapes t0)) gS)
      (T2raw (layerFt (epsB t0) (epsAvg t0) area (shapes t0)) gS p2))
    (hok : ∃ r, pweFreqs argsort eigh ⟨b1, b2, area, epsB t0, epsAvg t0, shapes t0⟩ gmax ks pol numeig = .ok r)
    (c : Fin ks.length → ℕ → ℝ) (V : Fin ks.length → Matrix (Fin (p1 * p2)) (Fin (p1 * p2)) ℂ)
    (hV : ∀ q : Fin ks.length, IsEigh (pweMat P ks[q] (fun i => (gS).getD i 0) E⁻¹ + 1)
      (eigh _ (pweMat P ks[q] (fun i => (gS).getD i 0) E⁻¹ + 1)) (V q))
    (hsym : ∀ full, pweFreqs argsort eigh ⟨b1, b2, area, epsB t0, epsAvg t0, shapes t0⟩ gmax ks pol (p1 * p2) = .ok full →
      ∀ (q : Fin ks.length) i j, i < p1 * p2 → j < p1 * p2 → (full.getD q []).getD i 0 = (full.getD q []).getD j 0 →
        allWeights numeig (c q) i = allWeights numeig (c q) j) :
    ∃ rs : ℝ → List (List ℝ), (∀ᶠ t in 𝓝 t0, pweFreqs argsort eigh ⟨b1, b2, area, epsB t, epsAvg t, shapes t⟩ gmax ks pol numeig =
        .ok (rs t)) ∧
      ((∀ (q : Fin ks.length) i, c q i ≠ 0 → ((rs t0).getD q []).getD i 0 ≠ 0) →
      ∃ f' : Fin ks.length → ℕ → ℝ,
        HasDerivAt (fun t => ∑ q : Fin ks.length, ∑ i ∈ range numeig, c q i * ((rs t).getD q []).getD i 0)
          (∑ q, ∑ i ∈ range numeig, c q i * f' q i) t0 ∧
        |(∑ m ∈ range (p1 * p2), (pweBackward argsort P (fun i => (gS).getD i 0) (fun q : Fin ks.length => ks[q]) E⁻¹
            (fun q => eigh _ (pweMat P ks[q] (fun i => (gS).getD i 0) E⁻¹ + 1)) V numeig c).1 m *
              D ((gS).getD 0 0 - (gS).getD m 0) +
          ∑ m ∈ range (p1 * p2), (pweBackward argsort P (fun i => (gS).getD i 0) (fun q : Fin ks.length => ks[q]) E⁻¹
            (fun q => eigh _ (pweMat P ks[q] (fun i => (gS).getD i 0) E⁻¹ + 1)) V numeig c).2 m *
              D ((gS).getD (m % p2) 0 - (gS).getD (m / p2 * p2) 0)).re -
          ∑ q, ∑ i ∈ range numeig, c q i * f' q i| ≤
        ∑ q : Fin ks.length, ∑ i ∈ range numeig, |c q i * f' q i| *
          (1e-10 / (2 * π * ((rs t0).getD q []).getD i 0) ^ 2)) := by
  classical
  set FT : ℝ → R2 → ℂ := fun t => layerFt (epsB t) (epsAvg t) area (shapes t) with hFT
  have hF : ∀ t (g : R2), FT t (-g.1, -g.2) = conj (FT t g) := fun t g => (C12_layer_conj _ _ _ _ (hr t) g).1
  set T1 : ℝ → ℕ → ℂ := fun t => T1raw (FT t) gS with hT1
  set T2 : ℝ → ℕ → ℂ := fun t => T2raw (FT t) gS p2 with hT2
  have hl : (gS).length = p1 * p2 := by rw [List.length_map, tbtInds_length]
  have hm : ∀ t, (⟨b1, b2, area, epsB t, epsAvg t, shapes t⟩ : PweLayer).epsMat gmax =
      (of fun I J : Fin (gS).length => toeplitzBlock p1 (gS).length false (T1 t) (T2 t) I J) := by
    intro t
    ext I J
    exact toeplitzBlock_real _ _ _ _ _ (fun _ => layerFt_castTo _ _ _ _ _) (fun _ => layerFt_castTo _ _ _ _ _) _ _
  set sol : ℕ → ℝ → R2 → KRes := fun ne t k => solvePwe argsort (List.ofFn (eigh _ (pweMat P k (fun i : Fin (p1 * p2) => (gS).getD i 0)
    (toepMat p1 p2 (T1 t) (T2 t))⁻¹ + 1))) ne with hsol
  have hrun : ∀ ne t k, pweRun argsort (eigh _) pol k ((⟨b1, b2, area, epsB t, epsAvg t, shapes t⟩ : PweLayer).gAt gmax)
      ((⟨b1, b2, area, epsB t, epsAvg t, shapes t⟩ : PweLayer).epsMat gmax)⁻¹ ne = .ok (sol ne t k) := by
    intro ne t k
    rw [hm]
    refine ((pweRun_resize argsort eigh pol k gS p1 p2 hl (T1 t) (T2 t) ne).2).trans ?_
    unfold pweRun
    rw [hpol]
  have hfr : ∀ ne t, (toepMat p1 p2 (T1 t) (T2 t)).det ≠ 0 →
      pweFreqs argsort eigh ⟨b1, b2, area, epsB t, epsAvg t, shapes t⟩ gmax ks pol ne =
        .ok (ks.map fun k => (sol ne t k).freq) := by
    intro ne t hd
    unfold pweFreqs pweSim
    have h0 : ((⟨b1, b2, area, epsB t, epsAvg t, shapes t⟩ : PweLayer).epsMat gmax).det ≠ 0 := by
      rw [hm]
      exact fun h => hd (((pweRun_resize argsort eigh pol 0 gS p1 p2 hl (T1 t) (T2 t) numeig).1).symm.trans h)
    rw [if_neg h0]
    simp only [hrun, mapM_ok_map]
    simp [Except.map, List.map_map, Function.comp_def]
  have h1 : ∀ m, HasDerivAt (fun t => T1 t m) (D ((gS).getD 0 0 - (gS).getD m 0)) t0 := fun m => hD _
  have h2 : ∀ m, HasDerivAt (fun t => T2 t m) (D ((gS).getD (m % p2) 0 - (gS).getD (m / p2 * p2) 0)) t0 := fun m => hD _
  have hdet : (toepMat p1 p2 (T1 t0) (T2 t0)).det ≠ 0 := by
    obtain ⟨r, hr0⟩ := hok
    unfold pweFreqs pweSim at hr0
    intro h0
    rw [if_pos (by
      rw [hm]
      exact ((pweRun_resize argsort eigh pol 0 gS p1 p2 hl (T1 t0) (T2 t0) numeig).1).trans h0)] at hr0
    cases hr0
  have hev : ∀ᶠ t in 𝓝 t0, (toepMat p1 p2 (T1 t) (T2 t)).det ≠ 0 := by
    have hc : ContinuousAt (fun t => toepMat p1 p2 (T1 t) (T2 t)) t0 :=
      tendsto_pi_nhds.2 fun i => tendsto_pi_nhds.2 fun j => (toepMat_deriv p1 p2 T1 T2 _ _ t0 h1 h2 i j).continuousAt
    have hd : ContinuousAt (fun t => (toepMat p1 p2 (T1 t) (T2 t)).det) t0 :=
      (continuous_id.matrix_det).continuousAt.comp hc
    exact hd.eventually_ne hdet
  have hat : ∀ ne t (q : Fin ks.length) i, ((ks.map fun k => (sol ne t k).freq).getD q []).getD i 0 =
      pweFreqAt argsort eigh P (fun i : Fin (p1 * p2) => (gS).getD i 0) ks[q] (toepMat p1 p2 (T1 t) (T2 t)) ne i := by
    intro ne t q i
    rw [getD_of_len (l := ks.map fun k => (sol ne t k).freq) (by rw [List.length_map]; exact q.2), List.getElem_map]
    rfl
  have hsym' := hsym _ (hfr (p1 * p2) t0 hdet)
  simp only [hat] at hsym'
  refine ⟨fun t => ks.map fun k => (sol numeig t k).freq, hev.mono fun t ht => hfr numeig t ht, fun hz => ?_⟩
  simp only [hat] at hz ⊢
  subst hE
  obtain ⟨f', k1, k2⟩ := pwe_gradient_symm argsort hs eigh he (Nat.succ_pos _) T1 T2 _ _ t0 h1 h2
    (fun t => raw_consistent (FT t) (hF t) gS p1 p2 (Nat.succ_pos _)) hdet P (fun i : Fin (p1 * p2) => (gS).getD i 0)
    (fun q : Fin ks.length => ks[q]) numeig c V hV hsym' hz
  refine ⟨f', k1, ?_⟩
  rw [k2]
  exact ratio_error numeig c f' _ hz

end

/-- A uniform layer, any lattice and any `gmax`: the sum of the frequencies that are not zero, at the centre of the Brillouin
zone, where opposite plane waves are degenerate. The parameter is the permittivity. -/
example (argsort : List ℝ → List ℕ) (hs : ∀ l, IsArgsort l (argsort l))
    (eigh : ∀ n, Matrix (Fin n) (Fin n) ℂ → Fin n → ℝ) (he : GoodEigh eigh) (b1 b2 : R2) (hL : Resolved b1 b2) (gmax : ℝ) (numeig : ℕ)
    (hnum : numeig = (2 * nmaxOf (2 * π) gmax b1 + 1) * (2 * nmaxOf (2 * π) gmax b2 + 1)) :
    ∃ (r : List (List ℝ)) (rs : ℝ → List (List ℝ)), pweFreqs argsort eigh ⟨b1, b2, 1, 2, 2, []⟩ gmax [(0, 0)] "te" numeig = .ok r ∧
      (∀ᶠ t in 𝓝 (2 : ℝ), pweFreqs argsort eigh ⟨b1, b2, 1, 2, t, []⟩ gmax [(0, 0)] "te" numeig =
        .ok (rs t)) ∧
      DifferentiableAt ℝ (fun t => ∑ i ∈ range numeig, (if (r.getD 0 []).getD i 0 = 0 then 0 else 1) *
        ((rs t).getD 0 []).getD i 0) 2 := by
  classical
  obtain ⟨r, hok, -⟩ := C91_homogeneous argsort hs eigh he ⟨b1, b2, 1, 2, 2, []⟩ hL 2 two_pos rfl rfl
    (fun s hs => by cases hs) gmax [(0, 0)] "te" .te (by decide) numeig
  have hr : ∀ s ∈ ([] : List FShape), RealShape s := fun s hs => by cases hs
  set gs := List.map (gOf b1 b2) (tbtInds (nmaxOf (2 * π) gmax b1) (nmaxOf (2 * π) gmax b2)) with hgs
  set E := toepMat (2 * nmaxOf (2 * π) gmax b1 + 1) (2 * nmaxOf (2 * π) gmax b2 + 1) (T1raw (layerFt 2 2 1 []) gs)
    (T2raw (layerFt 2 2 1 []) gs (2 * nmaxOf (2 * π) gmax b2 + 1)) with hE
  have hcons := raw_consistent (layerFt 2 2 1 []) (fun g => (C12_layer_conj _ _ _ _ hr g).1) gs
    (2 * nmaxOf (2 * π) gmax b1 + 1) (2 * nmaxOf (2 * π) gmax b2 + 1) (Nat.succ_pos _)
  have hH : ∀ k, (pweMat .te k (fun i => gs.getD i 0) E⁻¹ + 1).IsHermitian := fun k =>
    pweMat_hermitian .te k _ _ (toepMat_hermitian _ _ _ _ hcons).inv
  have hV : ∀ q : Fin [((0 : ℝ), (0 : ℝ))].length, ∃ V, IsEigh (pweMat .te [((0 : ℝ), (0 : ℝ))][q] (fun i => gs.getD i 0) E⁻¹ + 1)
    (eigh _ (pweMat .te [((0 : ℝ), (0 : ℝ))][q] (fun i => gs.getD i 0) E⁻¹ + 1)) V := fun q => he _ _ (hH _)
  choose V hV using hV
  obtain ⟨rs, k1, k2⟩ := C154_pwe b1 b2 gmax argsort hs eigh he 1 (fun _ => 2) (fun t => t) (fun _ => []) (fun _ => hr) 2
    (fun g => if isG0 g then 1 else 0) (fun g => by
      simp only [layerFt_uniform]
      split_ifs
      · exact Complex.ofRealCLM.hasDerivAt
      · exact hasDerivAt_const _ _) [(0, 0)] "te" .te parsePol_te numeig E hE ⟨r, hok⟩
    (fun _ i => if (r.getD 0 []).getD i 0 = 0 then 0 else 1) V hV (fun full hfull q i j hi hj hij => by
      rw [← hnum, hok] at hfull
      have hq : (q : ℕ) = 0 := Nat.lt_one_iff.1 q.2
      rw [← Except.ok.inj hfull, hq] at hij
      rw [allWeights, allWeights, hnum, if_pos hi, if_pos hj, hij])
  have h2 : rs 2 = r := by
    have := k1.self_of_nhds
    rw [hok] at this
    exact (Except.ok.inj this).symm
  obtain ⟨f', k3, -⟩ := k2 fun q i hc => by
    have hq : (q : ℕ) = 0 := Nat.lt_one_iff.1 q.2
    rw [h2, hq]
    intro h
    exact hc (if_pos h)
  refine ⟨r, rs, hok, k1, (HasDerivAt.congr_of_eventuallyEq k3 (Eventually.of_forall fun t => ?_)).differentiableAt⟩
  exact (Fin.sum_univ_one (fun q : Fin 1 => ∑ i ∈ range numeig, (if (r.getD 0 []).getD i 0 = 0 then (0 : ℝ) else 1) *
      ((rs t).getD q []).getD i 0)).symm

end Legume
