import Verif.Model.ExcGrad
import Verif.Props.PweGrad

/-! # C144: gradients of the energies of `ExcitonSchroedEq` -/
namespace Legume

open Matrix Spec Finset Filter Topology
open scoped ComplexConjugate Real

/-- If all values are different, each selected one follows one eigenvalue. -/
theorem select_follow {N : ℕ} (argsort : List ℝ → List ℕ) (hs : ∀ l, IsArgsort l (argsort l)) (φ : ℝ → ℝ) (hφ : Continuous φ)
    (W : ℝ → Fin N → ℝ) (t0 : ℝ) (ω : Fin N → ℝ → ℝ) (h0 : ∀ n, ω n t0 = W t0 n) (hc : ∀ n, ContinuousAt (ω n) t0)
    (hp : ∀ᶠ t in 𝓝 t0, (List.ofFn fun n => ω n t).Perm (List.ofFn (W t)))
    (hinj : Function.Injective fun n => φ (W t0 n)) (numeig : ℕ) :
    ∀ᶠ t in 𝓝 t0, (((argsort ((List.ofFn (W t)).map φ)).take numeig).map fun (i : ℕ) =>
        ((List.ofFn (W t)).map φ).getD i 0) =
      ((argsort ((List.ofFn (W t0)).map φ)).take numeig).map fun (i : ℕ) =>
        if h : i < N then φ (ω ⟨i, h⟩ t) else 0 := by
  have getD : ∀ (w : Fin N → ℝ) (m : ℕ) (hm : m < N), ((List.ofFn w).map φ).getD m 0 = φ (w ⟨m, hm⟩) := by
    intro w m hm
    rw [List.getD_eq_getElem?_getD, List.getElem?_eq_getElem (by simpa using hm), Option.getD_some]
    simp
  set sel := argsort ((List.ofFn (W t0)).map φ) with hsel
  obtain ⟨s1, s2⟩ := hs ((List.ofFn (W t0)).map φ)
  rw [List.length_map, List.length_ofFn] at s1
  rw [← hsel] at s1 s2
  have hlt : ∀ i ∈ sel, i < N := fun i hi => List.mem_range.1 (s1.mem_iff.1 hi)
  have hnd : sel.Nodup := s1.nodup_iff.2 List.nodup_range
  have hord : ∀ᶠ t in 𝓝 t0, ∀ m n, φ (W t0 m) < φ (W t0 n) → φ (ω m t) < φ (ω n t) := by
    rw [eventually_all]
    intro m
    rw [eventually_all]
    intro n
    by_cases hmn : φ (W t0 m) < φ (W t0 n)
    · have h := (hφ.continuousAt.comp (hc m)).eventually_lt (hφ.continuousAt.comp (hc n))
        (by simpa only [Function.comp, h0] using hmn)
      filter_upwards [h] with t ht _ using ht
    · exact Eventually.of_forall fun t h => absurd h hmn
  filter_upwards [hp, hord] with t ht1 ht2
  rw [List.map_take, List.map_take]
  congr 1
  have hrange : ∀ w : Fin N → ℝ, ((List.range N).map fun (i : ℕ) => if h : i < N then φ (w ⟨i, h⟩) else 0) =
      (List.ofFn w).map φ := by
    intro w
    apply List.ext_getElem
    · simp
    · intro i hi hi'
      have hiN : i < N := by simpa using hi
      simp [hiN]
  obtain ⟨u1, u2⟩ := hs ((List.ofFn (W t)).map φ)
  rw [List.length_map, List.length_ofFn] at u1
  have p1 : ((argsort ((List.ofFn (W t)).map φ)).map fun (i : ℕ) => ((List.ofFn (W t)).map φ).getD i 0).Perm
      ((List.ofFn (W t)).map φ) := by
    refine (u1.map _).trans (List.Perm.of_eq ?_)
    rw [← hrange (W t)]
    refine List.map_congr_left fun i hi => ?_
    rw [hrange, getD _ _ (List.mem_range.1 hi), dif_pos (List.mem_range.1 hi)]
  have p2 : (sel.map fun (i : ℕ) => if h : i < N then φ (ω ⟨i, h⟩ t) else 0).Perm ((List.ofFn (W t)).map φ) := by
    refine List.Perm.trans ?_ (ht1.map φ)
    refine (s1.map _).trans (List.Perm.of_eq ?_)
    exact hrange fun n => ω n t
  refine (p1.trans p2.symm).eq_of_pairwise (fun _ _ _ _ => le_antisymm) u2 ?_
  rw [List.pairwise_map] at s2 ⊢
  have s3 := s2.and hnd
  refine List.pairwise_iff_forall_sublist.2 ?_
  intro a b hab
  obtain ⟨hle, hne⟩ := List.pairwise_iff_forall_sublist.1 s3 hab
  have ha : a < N := hlt a (hab.subset List.mem_cons_self)
  have hb : b < N := hlt b (hab.subset (List.mem_cons_of_mem _ List.mem_cons_self))
  rw [dif_pos ha, dif_pos hb]
  rw [getD _ _ ha, getD _ _ hb] at hle
  refine (ht2 _ _ (lt_of_le_of_ne hle fun e => hne ?_)).le
  have := hinj e
  simpa using this

/-- The `i`-th energy returned at one wave vector for a given potential. -/
noncomputable def excEnerAt (argsort : List ℝ → List ℕ) (eigh : ∀ n, Matrix (Fin n) (Fin n) ℂ → Fin n → ℝ) {N : ℕ}
    (hbar e a M : ℝ) (gvec : Fin N → R2) (k : R2) (E0 loss : ℝ) (P : Matrix (Fin N) (Fin N) ℂ) (numeig i : ℕ) : ℂ :=
  match excRun argsort (eigh N) (excMat hbar e a M k gvec P) E0 loss numeig with
  | .ok r => r.2.getD i 0
  | .error _ => 0

theorem excMat_hermitian {N : ℕ} (hbar e a M : ℝ) (gvec : Fin N → R2) (k : R2) {P : Matrix (Fin N) (Fin N) ℂ}
    (h : P.IsHermitian) : (excMat hbar e a M k gvec P).IsHermitian := by
  refine Matrix.IsHermitian.add ?_ h
  refine Matrix.isHermitian_diagonal_of_self_adjoint _ ?_
  ext i
  simp

theorem excEnerAt_eq (argsort : List ℝ → List ℕ) (eigh : ∀ n, Matrix (Fin n) (Fin n) ℂ → Fin n → ℝ) {N : ℕ}
    (hbar e a M : ℝ) (gvec : Fin N → R2) (k : R2) (E0 loss : ℝ) {P : Matrix (Fin N) (Fin N) ℂ} (h : P.IsHermitian) (numeig i : ℕ) :
    excEnerAt argsort eigh hbar e a M gvec k E0 loss P numeig i =
      (((excSelect argsort (List.ofFn (eigh N (excMat hbar e a M k gvec P + 1))) numeig).2.map fun (x : ℝ) =>
        ((x : ℂ) + E0 + Complex.I * loss)).getD i 0) := by
  unfold excEnerAt excRun
  rw [if_neg]
  rintro ⟨i, j, hij⟩
  rw [show (starRingEnd ℂ) (excMat hbar e a M k gvec P j i) = excMat hbar e a M k gvec P i j from
    (excMat_hermitian hbar e a M gvec k h).apply i j, sub_self, norm_zero] at hij
  norm_num at hij

/-- The gradient at the level of the potential matrix. -/
theorem exc_gradient (argsort : List ℝ → List ℕ) (hs : ∀ l, IsArgsort l (argsort l))
    (eigh : ∀ n, Matrix (Fin n) (Fin n) ℂ → Fin n → ℝ) (he : GoodEigh eigh) {N K : ℕ}
    (hbar e a M : ℝ) (gvec : Fin N → R2) (k : Fin K → R2) (E0 loss : ℝ)
    (P : ℝ → Matrix (Fin N) (Fin N) ℂ) (P' : Matrix (Fin N) (Fin N) ℂ) (t0 : ℝ)
    (hP : ∀ i j, HasDerivAt (fun t => P t i j) (P' i j) t0) (hH : ∀ t, (P t).IsHermitian) (numeig : ℕ) (c : Fin K → ℕ → ℝ)
    (V : Fin K → Matrix (Fin N) (Fin N) ℂ)
    (hV : ∀ q, IsEigh (excMat hbar e a M (k q) gvec (P t0) + 1) (eigh _ (excMat hbar e a M (k q) gvec (P t0) + 1)) (V q))
    (hinj : ∀ q, Function.Injective (eigh _ (excMat hbar e a M (k q) gvec (P t0) + 1))) :
    ∃ ε : Fin K → ℕ → ℝ,
      (∀ q i, i < min numeig N → HasDerivAt (fun t =>
        excEnerAt argsort eigh hbar e a M gvec (k q) E0 loss (P t) numeig i) (ε q i : ℂ) t0) ∧
      pairMat (excBackPot argsort (fun q => eigh _ (excMat hbar e a M (k q) gvec (P t0) + 1)) V numeig c) P' =
        ∑ q, ∑ i ∈ range (min numeig N), c q i * ε q i := by
  classical
  set A : Fin K → ℝ → Matrix (Fin N) (Fin N) ℂ := fun q t => excMat hbar e a M (k q) gvec (P t) + 1 with hA
  set W : Fin K → ℝ → Fin N → ℝ := fun q t => eigh _ (A q t) with hW
  have hAd : ∀ q i j, HasDerivAt (fun t => A q t i j) (P' i j) t0 := by
    intro q i j
    simp only [A, excMat, Matrix.add_apply]
    exact ((hP i j).const_add _).add_const _
  have hAH : ∀ q t, (A q t).IsHermitian := fun q t =>
    (excMat_hermitian hbar e a M gvec (k q) (hH t)).add Matrix.isHermitian_one
  have hP'H : ∀ i j, P' j i = conj (P' i j) := by
    intro i j
    have e1 := (hP i j).star
    have e2 : (fun t => star (P t i j)) = fun t => P t j i := by
      ext t; exact (hH t).apply j i
    rw [e2] at e1
    exact (hP j i).unique e1
  have hbr := fun q => eig_branches (A q) P' t0 (hAd q) (hAH q) (W q) (fun t => he _ _ (hAH q t)) (V q) (hV q) (hinj q)
  choose ω hω0 hωd hωp using hbr
  set sel : Fin K → List ℕ := fun q => (argsort ((List.ofFn (W q t0)).map (· - 1))).take numeig with hsel
  have hperm : ∀ q, (argsort ((List.ofFn (W q t0)).map (· - 1))).Perm (List.range N) := by
    intro q
    have := (hs ((List.ofFn (W q t0)).map (· - 1))).1
    rwa [List.length_map, List.length_ofFn] at this
  have hselN : ∀ q, ∀ i ∈ sel q, i < N := fun q i hi =>
    List.mem_range.1 ((hperm q).mem_iff.1 (List.mem_of_mem_take hi))
  have hlen : ∀ q, (sel q).length = min numeig N := by
    intro q
    simp only [hsel, List.length_take, (hperm q).length_eq, List.length_range]
  have hfol := fun q => select_follow argsort hs (· - 1) (continuous_id.sub continuous_const) (W q) t0 (ω q) (hω0 q)
    (fun m => (hωd q m).continuousAt) (hωp q) (fun x y h => hinj q (by simpa using h)) numeig
  set μ : Fin K → Fin N → ℝ := fun q m => (sandwich (fun i => V q i m) P' fun i => V q i m).re with hμ
  refine ⟨fun q i => if hi : i < (sel q).length then μ q ⟨(sel q)[i], hselN q _ (List.getElem_mem hi)⟩ else 0, ?_, ?_⟩
  · intro q i hi0
    have hi : i < (sel q).length := by rw [hlen]; exact hi0
    simp only [dif_pos hi]
    have h3 : HasDerivAt (fun t => ((ω q ⟨(sel q)[i], hselN q _ (List.getElem_mem hi)⟩ t - 1 : ℝ) : ℂ) + E0 + Complex.I * loss)
        (μ q ⟨(sel q)[i], hselN q _ (List.getElem_mem hi)⟩ : ℂ) t0 :=
      ((((hωd q _).sub_const 1).ofReal_comp).add_const _).add_const _
    refine h3.congr_of_eventuallyEq ?_
    filter_upwards [hfol q] with t ht
    rw [excEnerAt_eq argsort eigh hbar e a M gvec (k q) E0 loss (hH t)]
    have e1 : (excSelect argsort (List.ofFn (W q t)) numeig).2 = (sel q).map fun (i : ℕ) =>
        if h : i < N then ω q ⟨i, h⟩ t - 1 else 0 := ht
    change (((excSelect argsort (List.ofFn (W q t)) numeig).2.map _).getD i 0) = _
    rw [e1, List.map_map, List.getD_eq_getElem?_getD, List.getElem?_eq_getElem (by rw [List.length_map]; exact hi),
      Option.getD_some, List.getElem_map, Function.comp, dif_pos (hselN q _ (List.getElem_mem hi))]
  · have h1 : pairMat (excBackPot argsort (fun q => W q t0) V numeig c) P' =
        ∑ q, pairMat (vjpEigh false (W q t0) (V q) (backEner (sel q) (c q)) 0) P' := by
      simp only [pairMat, excBackPot, of_apply, sum_mul, Complex.re_sum]
      rw [sum_congr rfl fun I _ => sum_comm, sum_comm]
    refine Eq.trans h1 (sum_congr rfl fun q _ => ?_)
    rw [C48_eigenvalues false (W q t0) (V q) P' _ hP'H, ← hlen q]
    change ∑ m, backEner (sel q) (c q) m * μ q m = _
    simp only [backEner, sum_mul]
    rw [sum_comm]
    refine sum_congr rfl fun i hi => ?_
    have hi' : i < (sel q).length := mem_range.1 hi
    rw [dif_pos hi']
    set m0 : Fin N := ⟨(sel q)[i], hselN q _ (List.getElem_mem hi')⟩ with hm0
    have hget : (sel q).getD i 0 = (m0 : ℕ) := by
      rw [List.getD_eq_getElem?_getD, List.getElem?_eq_getElem hi', Option.getD_some]
    have hiff : ∀ m : Fin N, (sel q).getD i 0 = (m : ℕ) ↔ m0 = m := by
      intro m
      rw [hget, Fin.ext_iff]
    simp only [hiff, ite_mul, zero_mul, sum_ite_eq, mem_univ, if_true]

/-- **C144 (`truncate_g='tbt'`).** Let the samples `T1`, `T2` of the potential depend differentiably on a parameter and let the
energies at each wave vector be different from each other. Then the returned energies are differentiable, and the gradients
of the samples which the registered rules give, paired with the derivatives of the samples, are the sum of the derivatives of
the energies times the gradients `c` of the objective. -/
theorem C144_tbt (argsort : List ℝ → List ℕ) (hs : ∀ l, IsArgsort l (argsort l))
    (eigh : ∀ n, Matrix (Fin n) (Fin n) ℂ → Fin n → ℝ) (he : GoodEigh eigh) {n p K : ℕ} (hn : 0 < n)
    (hbar e a M : ℝ) (gvec : Fin (n * p) → R2) (k : Fin K → R2) (E0 loss : ℝ)
    (T1 T2 : ℝ → ℕ → ℂ) (D1 D2 : ℕ → ℂ) (t0 : ℝ)
    (h1 : ∀ m, HasDerivAt (fun t => T1 t m) (D1 m) t0) (h2 : ∀ m, HasDerivAt (fun t => T2 t m) (D2 m) t0)
    (hT : ∀ t, ToeplitzConsistent n p (T1 t) (T2 t)) (numeig : ℕ) (c : Fin K → ℕ → ℝ)
    (V : Fin K → Matrix (Fin (n * p)) (Fin (n * p)) ℂ)
    (hV : ∀ q, IsEigh (excMat hbar e a M (k q) gvec (toepMat n p (T1 t0) (T2 t0)) + 1)
      (eigh _ (excMat hbar e a M (k q) gvec (toepMat n p (T1 t0) (T2 t0)) + 1)) (V q))
    (hinj : ∀ q, Function.Injective (eigh _ (excMat hbar e a M (k q) gvec (toepMat n p (T1 t0) (T2 t0)) + 1))) :
    ∃ ε : Fin K → ℕ → ℝ,
      (∀ q i, i < min numeig (n * p) → HasDerivAt (fun t =>
        excEnerAt argsort eigh hbar e a M gvec (k q) E0 loss (toepMat n p (T1 t) (T2 t)) numeig i) (ε q i : ℂ) t0) ∧
      (∑ m ∈ range (n * p), (excBackTbt n p (excBackPot argsort (fun q =>
          eigh _ (excMat hbar e a M (k q) gvec (toepMat n p (T1 t0) (T2 t0)) + 1)) V numeig c)).1 m * D1 m +
        ∑ m ∈ range (n * p), (excBackTbt n p (excBackPot argsort (fun q =>
          eigh _ (excMat hbar e a M (k q) gvec (toepMat n p (T1 t0) (T2 t0)) + 1)) V numeig c)).2 m * D2 m).re =
        ∑ q, ∑ i ∈ range (min numeig (n * p)), c q i * ε q i := by
  obtain ⟨ε, hε, hsum⟩ := exc_gradient argsort hs eigh he hbar e a M gvec k E0 loss (fun t => toepMat n p (T1 t) (T2 t))
    (toepMat n p D1 D2) t0 (toepMat_deriv n p T1 T2 D1 D2 t0 h1 h2) (fun t => toepMat_hermitian n p _ _ (hT t)) numeig c V hV
    hinj
  refine ⟨ε, hε, ?_⟩
  rw [← hsum]
  simp only [excBackTbt]
  rw [C47_directional n p hn _ D1 D2 (consistent_deriv n p T1 T2 D1 D2 t0 h1 h2 hT), sum_entryOf]
  simp only [pairMat, Complex.re_sum]
  rfl

/-- **C144 (`truncate_g='abs'`).** The same for the samples `S` of the potential at the unique differences of plane waves. -/
theorem C144_abs (argsort : List ℝ → List ℕ) (hs : ∀ l, IsArgsort l (argsort l))
    (eigh : ∀ n, Matrix (Fin n) (Fin n) ℂ → Fin n → ℝ) (he : GoodEigh eigh) {N K : ℕ}
    (hbar e a M : ℝ) (gvec : Fin N → R2) (k : Fin K → R2) (E0 loss : ℝ) (nU : ℕ) (idx : Fin N → Fin N → ℕ)
    (hidx : ∀ i j, idx i j < nU) (S : ℝ → ℕ → ℂ) (D : ℕ → ℂ) (t0 : ℝ) (h1 : ∀ m, HasDerivAt (fun t => S t m) (D m) t0)
    (hS : ∀ t i j, S t (idx j i) = conj (S t (idx i j))) (numeig : ℕ) (c : Fin K → ℕ → ℝ)
    (V : Fin K → Matrix (Fin N) (Fin N) ℂ)
    (hV : ∀ q, IsEigh (excMat hbar e a M (k q) gvec (of fun i j => S t0 (idx i j)) + 1)
      (eigh _ (excMat hbar e a M (k q) gvec (of fun i j => S t0 (idx i j)) + 1)) (V q))
    (hinj : ∀ q, Function.Injective (eigh _ (excMat hbar e a M (k q) gvec (of fun i j => S t0 (idx i j)) + 1))) :
    ∃ ε : Fin K → ℕ → ℝ,
      (∀ q i, i < min numeig N → HasDerivAt (fun t =>
        excEnerAt argsort eigh hbar e a M gvec (k q) E0 loss (of fun i j => S t (idx i j)) numeig i) (ε q i : ℂ) t0) ∧
      (∑ u ∈ range nU, excBackAbs idx (excBackPot argsort (fun q =>
          eigh _ (excMat hbar e a M (k q) gvec (of fun i j => S t0 (idx i j)) + 1)) V numeig c) u * D u).re =
        ∑ q, ∑ i ∈ range (min numeig N), c q i * ε q i := by
  obtain ⟨ε, hε, hsum⟩ := exc_gradient argsort hs eigh he hbar e a M gvec k E0 loss (fun t => of fun i j => S t (idx i j))
    (of fun i j => D (idx i j)) t0 (fun i j => h1 (idx i j)) (fun t => by
      ext i j
      rw [conjTranspose_apply, RCLike.star_def]
      simp only [of_apply]
      rw [hS t i j, Complex.conj_conj]) numeig c V hV hinj
  refine ⟨ε, hε, ?_⟩
  rw [← hsum]
  simp only [excBackAbs, sum_mul, pairMat, ← Complex.re_sum]
  congr 1
  rw [sum_comm]
  refine sum_congr rfl fun i _ => ?_
  rw [sum_comm]
  refine sum_congr rfl fun j _ => ?_
  simp only [ite_mul, zero_mul, of_apply]
  rw [sum_ite_eq, if_pos (mem_range.2 (hidx i j))]

/-- A matrix of two plane waves which are coupled has two different eigenvalues. -/
theorem isEigh_two_ne {A V : Matrix (Fin 2) (Fin 2) ℂ} {w : Fin 2 → ℝ} (h : IsEigh A w V) (h01 : A 0 1 ≠ 0) :
    Function.Injective w := by
  have key : w 0 ≠ w 1 := by
    intro e
    apply h01
    have hw : (diagonal fun i => (w i : ℂ)) = (w 0 : ℂ) • (1 : Matrix (Fin 2) (Fin 2) ℂ) := by
      ext i j
      fin_cases i <;> fin_cases j <;> simp [e]
    have h2 : V * V.conjTranspose = 1 := _root_.mul_eq_one_comm.1 h.unitary
    have hA : A = V * diagonal (fun i => (w i : ℂ)) * V.conjTranspose := by
      rw [← h.eigen, mul_assoc, h2, mul_one]
    rw [hA, hw, Matrix.mul_smul, Matrix.smul_mul, mul_one, h2]
    simp
  intro i j hij
  fin_cases i <;> fin_cases j <;> first | rfl | exact absurd hij key | exact absurd hij.symm key

/-- Two plane waves coupled by the parameter: the gradient is right for all wave vectors and numbers of energies. -/
example (argsort : List ℝ → List ℕ) (hs : ∀ l, IsArgsort l (argsort l))
    (eigh : ∀ n, Matrix (Fin n) (Fin n) ℂ → Fin n → ℝ) (he : GoodEigh eigh) (k : Fin 3 → R2) (c : Fin 3 → ℕ → ℝ) :
    ∃ (V : Fin 3 → Matrix (Fin 2) (Fin 2) ℂ) (ε : Fin 3 → ℕ → ℝ),
      (∀ q i, i < 2 → HasDerivAt (fun t : ℝ => excEnerAt argsort eigh 1 1 1 1 (fun i : Fin 2 => ((i : ℝ), (0 : ℝ))) (k q) 1 0
        (of fun i j => if i = j then 0 else (t : ℂ)) 5 i) (ε q i : ℂ) 1) ∧
      (excBackAbs (fun i j => if i = j then 0 else 1) (excBackPot argsort (fun q => eigh 2 (excMat 1 1 1 1 (k q)
        (fun i : Fin 2 => ((i : ℝ), (0 : ℝ)))
        (of fun i j => if i = j then 0 else ((1 : ℝ) : ℂ)) + 1)) V 5 c) 1).re = ∑ q, (c q 0 * ε q 0 + c q 1 * ε q 1) := by
  have hH : ∀ t : ℝ, (of fun i j : Fin 2 => if i = j then (0 : ℂ) else (t : ℂ)).IsHermitian := by
    intro t
    ext i j
    fin_cases i <;> fin_cases j <;> simp
  have hHA : ∀ q, (excMat 1 1 1 1 (k q) (fun i : Fin 2 => ((i : ℝ), (0 : ℝ)))
      (of fun i j => if i = j then 0 else ((1 : ℝ) : ℂ)) + 1).IsHermitian := fun q =>
    (excMat_hermitian 1 1 1 1 _ (k q) (hH 1)).add Matrix.isHermitian_one
  choose V hV using fun q => he _ _ (hHA q)
  have hinj : ∀ q, Function.Injective (eigh 2 (excMat 1 1 1 1 (k q) (fun i : Fin 2 => ((i : ℝ), (0 : ℝ)))
      (of fun i j => if i = j then 0 else ((1 : ℝ) : ℂ)) + 1)) := fun q =>
    isEigh_two_ne (hV q) (by simp [excMat])
  have hmat : ∀ t : ℝ, (of fun i j : Fin 2 => if i = j then (0 : ℂ) else (t : ℂ)) =
      of fun i j : Fin 2 => (fun m : ℕ => if m = 1 then (t : ℂ) else 0) (if i = j then 0 else 1) := by
    intro t
    ext i j
    fin_cases i <;> fin_cases j <;> simp
  obtain ⟨ε, h1, h2⟩ := C144_abs argsort hs eigh he 1 1 1 1 (fun i : Fin 2 => ((i : ℝ), (0 : ℝ))) k 1 0 2
    (fun i j => if i = j then 0 else 1) (by intro i j; split_ifs <;> norm_num)
    (fun t m => if m = 1 then (t : ℂ) else 0) (fun m => if m = 1 then 1 else 0) 1 (by
      intro m
      by_cases hm : m = 1
      · simp only [hm, if_true]
        exact Complex.ofRealCLM.hasDerivAt
      · simp only [if_neg hm]
        exact hasDerivAt_const _ _) (by
      intro t i j
      fin_cases i <;> fin_cases j <;> simp) 5 c V (by simpa only [← hmat] using hV) (by simpa only [← hmat] using hinj)
  refine ⟨V, ε, fun q i hi => ?_, ?_⟩
  · have := h1 q i (by simpa using hi)
    simpa only [← hmat] using this
  · simp only [← hmat] at h2
    rw [sum_range_succ, sum_range_one] at h2
    simp only [zero_ne_one, if_false, mul_zero, zero_add, if_true, mul_one] at h2
    rw [h2]
    refine sum_congr rfl fun q _ => ?_
    rw [show min 5 2 = 2 from rfl, sum_range_succ, sum_range_one]

end Legume
