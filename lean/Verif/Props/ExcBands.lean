import Verif.Model.ExcSim
import Verif.Props.Exc
import Verif.Props.TimeReversal
import Verif.Lemmas.Weyl
import Verif.Props.PweOrder

/-!
# C109: bands of excitons
-/
namespace Legume
open Spec MeasureTheory Matrix
open scoped Real ComplexConjugate

/-! ### Energies of a Hermitian matrix -/

/-- The energies kept are the lowest ones in ascending order. -/
theorem excSelect_take (argsort : List ℝ → List ℕ) (hs : ∀ l, IsArgsort l (argsort l)) (w l : List ℝ)
    (hl : l.Perm (w.map (· - 1))) (hso : l.Pairwise (· ≤ ·)) (numeig : ℕ) :
    (excSelect argsort w numeig).2 = l.take numeig := by
  obtain ⟨h1, h2⟩ := hs (w.map (· - 1))
  have h3 : ((argsort (w.map (· - 1))).map fun (i : ℕ) => (w.map (· - 1)).getD i 0).Perm (w.map (· - 1)) := by
    refine (h1.map _).trans ?_
    have : (List.range (w.map (· - 1)).length).map (fun (i : ℕ) => (w.map (· - 1)).getD i 0) = w.map (· - 1) := by
      apply List.ext_getElem
      · simp
      · intro i hi hi'
        simp only [List.getElem_map, List.getElem_range, List.getD_eq_getElem?_getD]
        rw [List.getElem?_eq_getElem hi', Option.getD_some]
        simp
    rw [this]
  have h4 := (h3.trans hl.symm).eq_of_pairwise (fun a b _ _ => le_antisymm) h2 hso
  simp only [excSelect]
  rw [← h4, List.map_take]

theorem excSelect_length (argsort : List ℝ → List ℕ) (hs : ∀ l, IsArgsort l (argsort l)) (w : List ℝ) (numeig : ℕ) :
    (excSelect argsort w numeig).2.length = min numeig w.length := by
  rw [excSelect_take argsort hs w _ (List.mergeSort_perm _ _) (List.pairwise_mergeSort' (· ≤ ·) _)]
  simp

/-- Matrices with the same characteristic polynomial give the same energies. -/
theorem excSelect_same (argsort : List ℝ → List ℕ) (hs : ∀ l, IsArgsort l (argsort l))
    (eigh : ∀ n, Matrix (Fin n) (Fin n) ℂ → Fin n → ℝ) (he : GoodEigh eigh) {n m : ℕ}
    (A : Matrix (Fin n) (Fin n) ℂ) (B : Matrix (Fin m) (Fin m) ℂ) (hA : A.IsHermitian) (hB : B.IsHermitian)
    (hc : (A + 1).charpoly = (B + 1).charpoly) (numeig : ℕ) :
    (excSelect argsort (List.ofFn (eigh n (A + 1))) numeig).2 =
      (excSelect argsort (List.ofFn (eigh m (B + 1))) numeig).2 := by
  obtain ⟨V, hV⟩ := he _ _ (hA.add isHermitian_one)
  obtain ⟨U, hU⟩ := he _ _ (hB.add isHermitian_one)
  have hp := (isEigh_perm hV hU hc).map (· - 1)
  rw [excSelect_take argsort hs (List.ofFn (eigh m (B + 1))) _ (List.mergeSort_perm _ _)
      (List.pairwise_mergeSort' (· ≤ ·) _),
    excSelect_take argsort hs (List.ofFn (eigh n (A + 1))) (((List.ofFn (eigh m (B + 1))).map (· - 1)).mergeSort)
      ((List.mergeSort_perm _ _).trans hp.symm) (List.pairwise_mergeSort' (· ≤ ·) _)]

/-- Energies compare like quadratic forms. -/
theorem excSelect_ritz (argsort : List ℝ → List ℕ) (hs : ∀ l, IsArgsort l (argsort l)) {n m : ℕ}
    {A U : Matrix (Fin m) (Fin m) ℂ} {B U' : Matrix (Fin n) (Fin n) ℂ} {w : Fin m → ℝ} {u : Fin n → ℝ}
    (hA : IsEigh (A + 1) w U) (hB : IsEigh (B + 1) u U') (J : (Fin n → ℂ) →ₗ[ℂ] (Fin m → ℂ))
    (hJ : ∀ x, ∑ i, ‖J x i‖ ^ 2 = ∑ i, ‖x i‖ ^ 2) (h : ∀ x, qform A (J x) ≤ qform B x) (numeig i : ℕ)
    (hi : i < (excSelect argsort (List.ofFn w) numeig).2.length)
    (hi' : i < (excSelect argsort (List.ofFn u) numeig).2.length) :
    (excSelect argsort (List.ofFn w) numeig).2[i] ≤ (excSelect argsort (List.ofFn u) numeig).2[i] := by
  have e := excSelect_take argsort hs (List.ofFn w) _ (List.mergeSort_perm _ _) (List.pairwise_mergeSort' (· ≤ ·) _) numeig
  have e' := excSelect_take argsort hs (List.ofFn u) _ (List.mergeSort_perm _ _) (List.pairwise_mergeSort' (· ≤ ·) _) numeig
  simp only [e, e', List.getElem_take]
  refine sorted_le_of_count _ _ (List.pairwise_mergeSort' (· ≤ ·) _) (List.pairwise_mergeSort' (· ≤ ·) _) (fun t => ?_) _ _ _
  rw [(List.mergeSort_perm _ _).countP_eq, (List.mergeSort_perm _ _).countP_eq, countP_map_ofFn, countP_map_ofFn]
  have := eigh_count hA hB J hJ (fun x => by
    have h1 := qform_add_smul_one A 1 (J x)
    have h2 := qform_add_smul_one B 1 x
    rw [Complex.ofReal_one, one_smul] at h1 h2
    rw [h1, h2, hJ]
    linarith [h x]) (t + 1)
  simpa only [sub_le_iff_le_add] using this

/-- The same with a margin, for matrices of one size. -/
theorem excSelect_shift (argsort : List ℝ → List ℕ) (hs : ∀ l, IsArgsort l (argsort l)) {n : ℕ}
    {A U B U' : Matrix (Fin n) (Fin n) ℂ} {w u : Fin n → ℝ} (hA : IsEigh (A + 1) w U) (hB : IsEigh (B + 1) u U') (d : ℝ)
    (h : ∀ x, qform A x ≤ qform B x + d * ∑ i, ‖x i‖ ^ 2) (numeig i : ℕ)
    (hi : i < (excSelect argsort (List.ofFn w) numeig).2.length)
    (hi' : i < (excSelect argsort (List.ofFn u) numeig).2.length) :
    (excSelect argsort (List.ofFn w) numeig).2[i] ≤ (excSelect argsort (List.ofFn u) numeig).2[i] + d := by
  have e := excSelect_take argsort hs (List.ofFn w) _ (List.mergeSort_perm _ _) (List.pairwise_mergeSort' (· ≤ ·) _) numeig
  have e' := excSelect_take argsort hs (List.ofFn u) _ (List.mergeSort_perm _ _) (List.pairwise_mergeSort' (· ≤ ·) _) numeig
  simp only [e, e', List.getElem_take]
  refine sorted_shift (List.pairwise_mergeSort' (· ≤ ·) _) (List.pairwise_mergeSort' (· ≤ ·) _) d (fun t => ?_) _ _ _
  rw [(List.mergeSort_perm _ _).countP_eq, (List.mergeSort_perm _ _).countP_eq, countP_map_ofFn, countP_map_ofFn]
  have := eigh_count_shift hA hB d (fun x => by
    have h1 := qform_add_smul_one A 1 x
    have h2 := qform_add_smul_one B 1 x
    rw [Complex.ofReal_one, one_smul] at h1 h2
    rw [h1, h2]
    linarith [h x]) (t + 1)
  have e3 : t + 1 + d = (t + d) + 1 := by ring
  rw [e3] at this
  simpa only [sub_le_iff_le_add] using this

/-! ### The Hamiltonian of a run -/

/-- The sign with which a truncation uses the difference of two plane waves. -/
def TruncG.sgn : TruncG → ℤ
  | .abs => 1
  | .tbt => -1

/-- Position of a plane wave in the lattice, with the sign with which the truncation uses it. -/
noncomputable def ExcWell.idx (W : ExcWell) (t : TruncG) (gmax : ℝ) (i : Fin (W.gvec t gmax).length) : ℤ × ℤ :=
  t.sgn • (W.inds t gmax).getD i 0

/-- The transform of the potential. -/
noncomputable def ExcWell.ft (W : ExcWell) (g : R2) : ℂ := excPot W.ecArea W.V (0, 0) W.shapes g

/-- The Hamiltonian. -/
noncomputable def ExcWell.ham (W : ExcWell) (t : TruncG) (gmax : ℝ) (k : R2) :
    Matrix (Fin (W.gvec t gmax).length) (Fin (W.gvec t gmax).length) ℂ :=
  excMat W.hbar W.e W.a W.M k (fun i => (W.gvec t gmax)[i])
    (of fun i j => W.ft (latVec W.b1 W.b2 (W.idx t gmax j - W.idx t gmax i)))

/-- The transform of a real function. -/
def RealFt (s : R2 → ℂ) : Prop := ∀ g : R2, s (-g.1, -g.2) = conj (s g)

theorem excWell_len (W : ExcWell) (t : TruncG) (gmax : ℝ) : (W.gvec t gmax).length = (W.inds t gmax).length := by
  simp [ExcWell.gvec]

theorem excWell_gvec (W : ExcWell) (t : TruncG) (gmax : ℝ) (i : Fin (W.gvec t gmax).length) :
    (W.gvec t gmax)[i] = latVec W.b1 W.b2 ((W.inds t gmax).getD i 0) := by
  have h : (i : ℕ) < (W.inds t gmax).length := by rw [← excWell_len]; exact i.2
  rw [latVec_eq, getD_of_len h]
  exact List.getElem_map _

theorem excWell_nodup (W : ExcWell) (t : TruncG) (gmax : ℝ) : (W.inds t gmax).Nodup := by
  cases t
  · exact (tbtInds_nodup _ _).filter _
  · exact tbtInds_nodup _ _

theorem excWell_inds_inj (W : ExcWell) (t : TruncG) (gmax : ℝ) :
    Function.Injective fun i : Fin (W.gvec t gmax).length => (W.inds t gmax).getD i 0 := by
  intro i j h
  have hi : (i : ℕ) < (W.inds t gmax).length := by rw [← excWell_len]; exact i.2
  have hj : (j : ℕ) < (W.inds t gmax).length := by rw [← excWell_len]; exact j.2
  simp only [getD_of_len hi, getD_of_len hj] at h
  exact Fin.ext ((excWell_nodup W t gmax).getElem_inj_iff.1 h)

theorem excWell_idx_inj (W : ExcWell) (t : TruncG) (gmax : ℝ) : Function.Injective (W.idx t gmax) := by
  intro i j h
  cases t
  · exact excWell_inds_inj W .abs gmax (by simpa [ExcWell.idx, TruncG.sgn] using h)
  · exact excWell_inds_inj W .tbt gmax (by simpa [ExcWell.idx, TruncG.sgn] using h)

theorem excWell_ft_conj (W : ExcWell) (hr : ∀ s ∈ W.shapes, RealFt s) (g : R2) :
    W.ft (-g.1, -g.2) = conj (W.ft g) := excPot_conj _ _ _ _ hr g

theorem excWell_ft_neg (W : ExcWell) (hr : ∀ s ∈ W.shapes, RealFt s) (n : ℤ × ℤ) :
    W.ft (latVec W.b1 W.b2 (-n)) = conj (W.ft (latVec W.b1 W.b2 n)) := by
  rw [← excWell_ft_conj W hr]
  congr 1
  simp only [latVec, Prod.fst_neg, Prod.snd_neg]
  ext <;> push_cast <;> ring

theorem excWell_ham_hermitian (W : ExcWell) (hr : ∀ s ∈ W.shapes, RealFt s) (t : TruncG) (gmax : ℝ) (k : R2) :
    (W.ham t gmax k).IsHermitian := by
  unfold ExcWell.ham
  rw [C38_hermitian]
  ext i j
  rw [conjTranspose_apply, of_apply, of_apply, RCLike.star_def, ← excWell_ft_neg W hr, neg_sub]

theorem excWell_ham_apply (W : ExcWell) (t : TruncG) (gmax : ℝ) (k : R2) (i j : Fin (W.gvec t gmax).length) :
    W.ham t gmax k i j =
      (if i = j then ((excKin W.hbar W.e W.a W.M k (latVec W.b1 W.b2 ((W.inds t gmax).getD i 0)) : ℝ) : ℂ) else 0) +
        W.ft (latVec W.b1 W.b2 (W.idx t gmax j - W.idx t gmax i)) := by
  rw [← excWell_gvec]
  unfold ExcWell.ham excMat
  rw [Matrix.add_apply, diagonal_apply, of_apply]

theorem resolved_zero {b1 b2 : R2} (h : Resolved b1 b2) (n : ℤ × ℤ) (hn : isG0 (gOf b1 b2 n)) : n = 0 := by
  by_contra hc
  exact resolved_isG0 h n hc (by rw [latVec_eq]; exact hn)

theorem absInds_zero (b1 b2 : R2) (gmax : ℝ) (hg : 0 ≤ gmax) : (0, 0) ∈ absInds b1 b2 gmax := by
  rw [mem_absInds]
  refine ⟨?_, ?_⟩
  · unfold absWindow
    rw [mem_tbtInds]
    refine ⟨⟨?_, ?_⟩, ?_, ?_⟩ <;> simp
  · have h0 : norm2 (gOf b1 b2 (0, 0)) = 0 := by simp [norm2, gOf]
    rw [h0]
    have hge : gmax ≤ gmaxEff gmax (absNorms b1 b2 gmax) := by
      unfold gmaxEff
      have : (0 : ℝ) ≤ 1e-10 := by norm_num
      exact le_add_of_nonneg_right (by positivity)
    have := Real.pi_pos
    have : 0 ≤ gmaxEff gmax (absNorms b1 b2 gmax) := hg.trans hge
    positivity

/-- The potential matrix. -/
theorem excWell_pot (W : ExcWell) (hb : Resolved W.b1 W.b2) (hr : ∀ s ∈ W.shapes, RealFt s) (t : TruncG) (gmax : ℝ)
    (hg : 0 ≤ gmax) : ∃ P, W.pot t gmax = .ok P ∧ ∀ i j : Fin (W.gvec t gmax).length,
      P i j = W.ft (latVec W.b1 W.b2 (W.idx t gmax j - W.idx t gmax i)) := by
  have hlt : ∀ i : Fin (W.gvec t gmax).length, (i : ℕ) < (W.inds t gmax).length := fun i => excWell_len W t gmax ▸ i.2
  have hsub : ∀ m n : ℤ × ℤ, ((gOf W.b1 W.b2 m).1 - (gOf W.b1 W.b2 n).1, (gOf W.b1 W.b2 m).2 - (gOf W.b1 W.b2 n).2) =
      latVec W.b1 W.b2 (m - n) := by
    intro m n
    rw [latVec_eq]
    simp only [gOf, Prod.fst_sub, Prod.snd_sub]
    ext <;> push_cast <;> ring
  cases t with
  | abs =>
    obtain ⟨P, g0, hz, ⟨n, hn⟩, hP, hent⟩ := potAbs_entry W.b1 W.b2 (absInds W.b1 W.b2 gmax)
      (List.ne_nil_of_mem (absInds_zero W.b1 W.b2 gmax hg)) W.ecArea W.V W.shapes
    have h0 : g0 = (0, 0) := by
      rw [hn] at hz
      rw [hn, resolved_zero hb n hz]
      simp [gOf]
    refine ⟨P, hP, fun i j => ?_⟩
    rw [hent i j _ _ (List.getElem?_eq_getElem (hlt i)) (List.getElem?_eq_getElem (hlt j)), hsub, h0]
    simp only [ExcWell.ft, ExcWell.idx, TruncG.sgn, one_smul, neg_smul]
    rw [getD_of_len (hlt i), getD_of_len (hlt j)]
  | tbt =>
    obtain ⟨P, hP, hent⟩ := potTbt_entry W.b1 W.b2 (nmaxOf (2 * π) gmax W.b1) (nmaxOf (2 * π) gmax W.b2) W.ecArea W.V W.shapes hr
    refine ⟨P, hP, fun i j => ?_⟩
    have hi : (tbtG W.b1 W.b2 (nmaxOf (2 * π) gmax W.b1) (nmaxOf (2 * π) gmax W.b2))[(i : ℕ)]? =
        some (gOf W.b1 W.b2 ((W.inds .tbt gmax)[(i : ℕ)]'(hlt i))) := by
      simp only [List.getElem?_map]
      exact congrArg (Option.map (gOf W.b1 W.b2)) (List.getElem?_eq_getElem (hlt i))
    have hj : (tbtG W.b1 W.b2 (nmaxOf (2 * π) gmax W.b1) (nmaxOf (2 * π) gmax W.b2))[(j : ℕ)]? =
        some (gOf W.b1 W.b2 ((W.inds .tbt gmax)[(j : ℕ)]'(hlt j))) := by
      simp only [List.getElem?_map]
      exact congrArg (Option.map (gOf W.b1 W.b2)) (List.getElem?_eq_getElem (hlt j))
    rw [hent i j _ _ hi hj, hsub]
    simp only [ExcWell.ft, ExcWell.idx, TruncG.sgn, one_smul, neg_smul]
    rw [getD_of_len (hlt i), getD_of_len (hlt j)]
    congr 2
    abel

/-- The result of a run at one wave vector. -/
noncomputable def excRes (argsort : List ℝ → List ℕ) (eigh : ∀ n, Matrix (Fin n) (Fin n) ℂ → Fin n → ℝ)
    (W : ExcWell) (t : TruncG) (gmax : ℝ) (numeig : ℕ) (k : R2) : List ℕ × List ℝ :=
  excSelect argsort (List.ofFn (eigh _ (W.ham t gmax k + 1))) numeig

/-- A run succeeds. -/
theorem excSim_ok (argsort : List ℝ → List ℕ) (eigh : ∀ n, Matrix (Fin n) (Fin n) ℂ → Fin n → ℝ)
    (W : ExcWell) (hb : Resolved W.b1 W.b2) (hr : ∀ s ∈ W.shapes, RealFt s) (t : TruncG) (gmax : ℝ) (hg : 0 ≤ gmax)
    (ks : List R2) (numeig : ℕ) : excSim argsort eigh W t gmax ks numeig = .ok (ks.map fun k =>
      ((excRes argsort eigh W t gmax numeig k).1, (excRes argsort eigh W t gmax numeig k).2.map fun (x : ℝ) =>
        ((x : ℂ) + W.E0 + Complex.I * W.loss))) := by
  obtain ⟨P, hP, hent⟩ := excWell_pot W hb hr t gmax hg
  unfold excSim
  rw [hP]
  have hm : (of fun i j : Fin (W.gvec t gmax).length => P i j) =
      of fun i j => W.ft (latVec W.b1 W.b2 (W.idx t gmax j - W.idx t gmax i)) := by
    ext i j
    rw [of_apply, of_apply, hent]
  simp only [hm]
  rw [← mapM_ok_map]
  refine mapM_congr_mem _ _ _ fun k _ => ?_
  have hH := excWell_ham_hermitian W hr t gmax k
  have hno : ¬ ∃ i j, 1e-10 < ‖W.ham t gmax k i j - conj (W.ham t gmax k j i)‖ := by
    rintro ⟨i, j, h⟩
    have : conj (W.ham t gmax k j i) = W.ham t gmax k i j := hH.apply i j
    rw [this, sub_self, norm_zero] at h
    norm_num at h
  show excRun argsort _ (W.ham t gmax k) W.E0 W.loss numeig = _
  unfold excRun
  rw [if_neg hno]
  rfl

/-! ### Opposite wave vectors, inverted and displaced wells -/

theorem excKin_neg (hbar e a M : ℝ) (k g : R2) : excKin hbar e a M (-k.1, -k.2) (-g) = excKin hbar e a M k g := by
  unfold excKin
  congr 4
  simp only [Prod.fst_neg, Prod.snd_neg]
  congr 1 <;> ring

/-- With every plane wave the opposite one is there. -/
theorem excWell_neg_perm (W : ExcWell) (t : TruncG) (gmax : ℝ) : ∃ ν : Equiv.Perm (Fin (W.gvec t gmax).length),
    ∀ i, (W.inds t gmax).getD (ν i) 0 = -(W.inds t gmax).getD i 0 := by
  have hmem : ∀ n ∈ W.inds t gmax, -n ∈ W.inds t gmax := by
    cases t
    · exact neg_waves _ _ _
    · intro n hn
      simp only [ExcWell.inds, mem_tbtInds, Prod.fst_neg, Prod.snd_neg] at hn ⊢
      omega
  have hex : ∀ i : Fin (W.gvec t gmax).length, ∃ j : Fin (W.gvec t gmax).length,
      (W.inds t gmax).getD j 0 = -(W.inds t gmax).getD i 0 := by
    intro i
    have hi : (i : ℕ) < (W.inds t gmax).length := by rw [← excWell_len]; exact i.2
    obtain ⟨j, hj, e⟩ := List.getElem_of_mem (hmem _ (List.getElem_mem hi))
    refine ⟨⟨j, by rw [excWell_len]; exact hj⟩, ?_⟩
    rw [getD_of_len hj, getD_of_len hi, e]
  choose ν hν using hex
  have h1 : Function.Injective ν := fun i j e =>
    excWell_inds_inj W t gmax (neg_injective (by simp only [← hν]; rw [e]))
  exact ⟨Equiv.ofBijective ν (Finite.injective_iff_bijective.1 h1), hν⟩

theorem excWell_idx_neg (W : ExcWell) (t : TruncG) (gmax : ℝ) (i j : Fin (W.gvec t gmax).length)
    (h : (W.inds t gmax).getD j 0 = -(W.inds t gmax).getD i 0) : W.idx t gmax j = -W.idx t gmax i := by
  rw [ExcWell.idx, ExcWell.idx, h, smul_neg]

theorem latVec_neg' (b1 b2 : R2) (n : ℤ × ℤ) : latVec b1 b2 (-n) = -latVec b1 b2 n := by
  simp only [latVec, Prod.fst_neg, Prod.snd_neg]
  ext <;> simp <;> ring

/-- **C109 (opposite wave vectors).** For real shapes, any lattice, either truncation and any potential, the run at the
opposite wave vectors returns the same energies at every one of them. -/
theorem C109_reversal (argsort : List ℝ → List ℕ) (hs : ∀ l, IsArgsort l (argsort l))
    (eigh : ∀ n, Matrix (Fin n) (Fin n) ℂ → Fin n → ℝ) (he : GoodEigh eigh) (W : ExcWell) (hb : Resolved W.b1 W.b2)
    (hr : ∀ s ∈ W.shapes, RealFt s) (t : TruncG) (gmax : ℝ) (hg : 0 ≤ gmax) (ks : List R2) (numeig : ℕ) :
    ∃ rs rs', excSim argsort eigh W t gmax ks numeig = .ok rs ∧
      excSim argsort eigh W t gmax (ks.map fun k => (-k.1, -k.2)) numeig = .ok rs' ∧ rs.length = ks.length ∧
      rs'.map Prod.snd = rs.map Prod.snd := by
  refine ⟨_, _, excSim_ok argsort eigh W hb hr t gmax hg ks numeig, excSim_ok argsort eigh W hb hr t gmax hg _ numeig,
    by simp, ?_⟩
  simp only [List.map_map]
  refine List.map_congr_left fun k _ => ?_
  simp only [Function.comp]
  congr 1
  unfold excRes
  refine excSelect_same argsort hs eigh he _ _ (excWell_ham_hermitian W hr t gmax _) (excWell_ham_hermitian W hr t gmax _) ?_ _
  obtain ⟨ν, hν⟩ := excWell_neg_perm W t gmax
  refine charpoly_conj_reindex ν _ (excWell_ham_hermitian W hr t gmax _) _ fun i j => ?_
  rw [excWell_ham_apply, excWell_ham_apply, map_add,
    excWell_idx_neg W t gmax _ _ (hν i), excWell_idx_neg W t gmax _ _ (hν j), ← neg_sub', excWell_ft_neg W hr,
    Complex.conj_conj]
  congr 1
  by_cases hij : i = j
  · subst hij
    rw [if_pos rfl, if_pos rfl, Complex.conj_ofReal, hν, latVec_neg', ← excKin_neg _ _ _ _ k, neg_neg]
  · rw [if_neg hij, if_neg fun e => hij (ν.injective e), map_zero]

/-- Transforms which agree on the lattice up to factors and a relabelling give potentials which do. -/
theorem excPot_relabel (b1 b2 : R2) (hb : Resolved b1 b2) (A V : ℝ) (c : ℤ × ℤ → ℂ) (φ : ℤ × ℤ → ℤ × ℤ) (hc : c 0 = 1)
    (hφ : ∀ n, φ n = 0 ↔ n = 0) (shapes shapes' : List (R2 → ℂ))
    (h : List.Forall₂ (fun s s' : R2 → ℂ => ∀ n, s' (latVec b1 b2 n) = c n * s (latVec b1 b2 (φ n))) shapes shapes')
    (n : ℤ × ℤ) : excPot A V (0, 0) shapes' (latVec b1 b2 n) = c n * excPot A V (0, 0) shapes (latVec b1 b2 (φ n)) := by
  have hg : ∀ m : ℤ × ℤ, isG0 (latVec b1 b2 m) ↔ m = 0 := by
    intro m
    constructor
    · intro hm; rw [latVec_eq] at hm; exact resolved_zero hb m hm
    · rintro rfl; rw [latVec_zero]; simp [isG0]; norm_num
  suffices H : ∀ F F' : R2 → ℂ, (∀ n, F' (latVec b1 b2 n) = c n * F (latVec b1 b2 (φ n))) → ∀ n,
      shapes'.foldl (excRound A V (0, 0)) F' (latVec b1 b2 n) =
        c n * shapes.foldl (excRound A V (0, 0)) F (latVec b1 b2 (φ n)) from H _ _ (fun n => by simp) n
  induction h with
  | nil => intro F F' hF n; exact hF n
  | @cons s s' l l' q _ ih =>
    intro F F' hF
    refine ih _ _ fun n => ?_
    have e : ∀ n, (F' (latVec b1 b2 n) + V * s' (latVec b1 b2 n)) / (A : ℂ) =
        c n * ((F (latVec b1 b2 (φ n)) + V * s (latVec b1 b2 (φ n))) / (A : ℂ)) := by
      intro n; rw [hF, q]; ring
    have e0 : (F' (0, 0) + V * s' (0, 0)) / (A : ℂ) = (F (0, 0) + V * s (0, 0)) / (A : ℂ) := by
      have := e 0
      rwa [(hφ 0).2 rfl, latVec_zero, hc, one_mul] at this
    unfold excRound
    simp only [e0, e]
    by_cases hn : n = 0
    · subst hn
      have h0 : φ 0 = 0 := (hφ 0).2 rfl
      have hz0 : isG0 (latVec b1 b2 0) := (hg 0).2 rfl
      have hz1 : isG0 (latVec b1 b2 (φ 0)) := (hg _).2 h0
      split_ifs with h1 h2 h2
      · rw [hc, one_mul, one_mul]
      · exact absurd ⟨by rw [← e0]; exact h1.1, hz1⟩ h2
      · exact absurd ⟨by rw [e0]; exact h2.1, hz0⟩ h1
      · rfl
    · rw [if_neg fun hh => hn ((hg n).1 hh.2), if_neg fun hh => hn ((hφ n).1 ((hg _).1 hh.2))]

/-- **C109 (inversion).** Inverting all shapes at the origin changes no energy. -/
theorem C109_inversion (argsort : List ℝ → List ℕ) (hs : ∀ l, IsArgsort l (argsort l))
    (eigh : ∀ n, Matrix (Fin n) (Fin n) ℂ → Fin n → ℝ) (he : GoodEigh eigh) (W : ExcWell) (hb : Resolved W.b1 W.b2)
    (hr : ∀ s ∈ W.shapes, RealFt s) (shapes' : List (R2 → ℂ))
    (hi : List.Forall₂ (fun s s' : R2 → ℂ => ∀ g : R2, s' g = s (-g.1, -g.2)) W.shapes shapes')
    (t : TruncG) (gmax : ℝ) (hg : 0 ≤ gmax) (ks : List R2) (numeig : ℕ) :
    ∃ rs rs', excSim argsort eigh W t gmax ks numeig = .ok rs ∧
      excSim argsort eigh { W with shapes := shapes' } t gmax ks numeig = .ok rs' ∧ rs.length = ks.length ∧
      rs'.map Prod.snd = rs.map Prod.snd := by
  have hr' : ∀ s ∈ shapes', RealFt s := by
    intro s' hs' g
    obtain ⟨s, hs, e⟩ := forall2_mem_right hi _ hs'
    rw [e, e, hr s hs g]
    simp only [neg_neg]
    rw [Complex.conj_conj]
  have hft : ∀ n, ({ W with shapes := shapes' } : ExcWell).ft (latVec W.b1 W.b2 n) =
      conj (W.ft (latVec W.b1 W.b2 n)) := by
    intro n
    rw [← excWell_ft_neg W hr]
    have := excPot_relabel W.b1 W.b2 hb W.ecArea W.V (fun _ => 1) (fun n => -n) rfl (fun n => neg_eq_zero) W.shapes shapes'
      (hi.imp fun s s' q n => by
        rw [one_mul, q, latVec_neg']; rfl) n
    rw [one_mul] at this
    exact this
  refine ⟨_, _, excSim_ok argsort eigh W hb hr t gmax hg ks numeig,
    excSim_ok argsort eigh { W with shapes := shapes' } hb hr' t gmax hg _ numeig, by simp, ?_⟩
  simp only [List.map_map]
  refine List.map_congr_left fun k _ => ?_
  simp only [Function.comp]
  congr 1
  unfold excRes
  refine excSelect_same argsort hs eigh he _ _ (excWell_ham_hermitian { W with shapes := shapes' } hr' t gmax _)
    (excWell_ham_hermitian W hr t gmax _) ?_ _
  refine charpoly_conj_reindex (Equiv.refl (Fin (W.gvec t gmax).length)) (W.ham t gmax k)
    (excWell_ham_hermitian W hr t gmax _) (ExcWell.ham { W with shapes := shapes' } t gmax k) fun i j => ?_
  have e : ExcWell.ham { W with shapes := shapes' } t gmax k i j = _ := excWell_ham_apply { W with shapes := shapes' } t gmax k i j
  rw [e, Equiv.refl_apply, Equiv.refl_apply, excWell_ham_apply, map_add, ← hft]
  refine congrArg₂ (· + ·) ?_ rfl
  by_cases hij : i = j
  · rw [if_pos hij, Complex.conj_ofReal]; exact if_pos hij
  · rw [if_neg hij, map_zero]; exact if_neg hij

/-- **C109 (displacement).** Displacing all shapes by the same vector changes no energy. -/
theorem C109_displacement (argsort : List ℝ → List ℕ) (hs : ∀ l, IsArgsort l (argsort l))
    (eigh : ∀ n, Matrix (Fin n) (Fin n) ℂ → Fin n → ℝ) (he : GoodEigh eigh) (W : ExcWell) (hb : Resolved W.b1 W.b2)
    (hr : ∀ s ∈ W.shapes, RealFt s) (d : R2) (shapes' : List (R2 → ℂ)) (hr' : ∀ s ∈ shapes', RealFt s)
    (hd : List.Forall₂ (fun s s' : R2 → ℂ => s' (0, 0) = s (0, 0) ∧ ∀ g : R2, ¬ (|g.1| < 1e-10 ∧ |g.2| < 1e-10) →
      s' g = Complex.exp (-Complex.I * (g.1 * d.1 + g.2 * d.2)) * s g) W.shapes shapes')
    (t : TruncG) (gmax : ℝ) (hg : 0 ≤ gmax) (ks : List R2) (numeig : ℕ) :
    ∃ rs rs', excSim argsort eigh W t gmax ks numeig = .ok rs ∧
      excSim argsort eigh { W with shapes := shapes' } t gmax ks numeig = .ok rs' ∧ rs.length = ks.length ∧
      rs'.map Prod.snd = rs.map Prod.snd := by
  set c : ℤ × ℤ → ℂ := fun n =>
    Complex.exp (-Complex.I * ((latVec W.b1 W.b2 n).1 * d.1 + (latVec W.b1 W.b2 n).2 * d.2)) with hc
  have hc0 : c 0 = 1 := by simp [hc, latVec_zero]
  have hcc : ∀ n, c n * conj (c n) = 1 := by
    intro n
    rw [Complex.mul_conj, Complex.normSq_eq_norm_sq, hc]
    simp [Complex.norm_exp]
  have hcs : ∀ m n, c (m - n) = conj (c n) * c m := by
    intro m n
    rw [hc]
    simp only
    rw [← Complex.exp_conj, ← Complex.exp_add]
    congr 1
    simp only [map_mul, map_neg, Complex.conj_I, map_add, Complex.conj_ofReal, latVec, Prod.fst_sub, Prod.snd_sub]
    push_cast
    ring
  have hft : ∀ n, ({ W with shapes := shapes' } : ExcWell).ft (latVec W.b1 W.b2 n) = c n * W.ft (latVec W.b1 W.b2 n) := by
    intro n
    refine excPot_relabel W.b1 W.b2 hb W.ecArea W.V c id hc0 (fun n => Iff.rfl) W.shapes shapes'
      (hd.imp fun s s' q n => ?_) n
    by_cases hn : n = 0
    · subst hn; rw [id, hc0, one_mul, latVec_zero]; exact q.1
    · refine q.2 _ ?_
      have := hb n.1 n.2 fun e => hn e
      simpa [latVec, mul_comm] using this
  refine ⟨_, _, excSim_ok argsort eigh W hb hr t gmax hg ks numeig,
    excSim_ok argsort eigh { W with shapes := shapes' } hb hr' t gmax hg _ numeig, by simp, ?_⟩
  simp only [List.map_map]
  refine List.map_congr_left fun k _ => ?_
  simp only [Function.comp]
  congr 1
  unfold excRes
  refine excSelect_same argsort hs eigh he _ _ (excWell_ham_hermitian { W with shapes := shapes' } hr' t gmax _)
    (excWell_ham_hermitian W hr t gmax _) ?_ _
  refine unit_phases_charpoly (fun i : Fin (W.gvec t gmax).length => conj (c (W.idx t gmax i)))
    (fun i => by rw [mul_comm, Complex.conj_conj]; exact hcc _) (W.ham t gmax k)
    (ExcWell.ham { W with shapes := shapes' } t gmax k) fun i j => ?_
  have hpot : ({ W with shapes := shapes' } : ExcWell).ft (latVec W.b1 W.b2 (W.idx t gmax j - W.idx t gmax i)) =
      conj (c (W.idx t gmax i)) * W.ft (latVec W.b1 W.b2 (W.idx t gmax j - W.idx t gmax i)) *
        conj (conj (c (W.idx t gmax j))) := by
    rw [hft, hcs, Complex.conj_conj]; ring
  have e : ExcWell.ham { W with shapes := shapes' } t gmax k i j = _ := excWell_ham_apply { W with shapes := shapes' } t gmax k i j
  rw [e, excWell_ham_apply, mul_add, add_mul]
  refine congrArg₂ (· + ·) ?_ hpot
  by_cases hij : i = j
  · rw [if_pos hij, ← hij, Complex.conj_conj, mul_right_comm, mul_comm (conj _), hcc, one_mul]; exact if_pos rfl
  · rw [if_neg hij, mul_zero, zero_mul]; exact if_neg hij

/-! ### More plane waves -/

theorem qform_sel {n m : ℕ} (σ : Fin n → Fin m) (X : Matrix (Fin m) (Fin m) ℂ) (x : Fin n → ℂ) :
    qform X (selMat σ *ᵥ x) = qform (X.submatrix σ σ) x := by
  rw [qform, qform, ← selMat_conj, star_mulVec, ← dotProduct_mulVec, mulVec_mulVec, mulVec_mulVec, Matrix.mul_assoc]

/-- Every plane wave of the smaller `gmax` is one of the larger. For `truncate_g='abs'` the code may raise `gmax` by
multiples of `1e-10`, whence the margin. -/
theorem excWell_nested (W : ExcWell) (t : TruncG) (gmax gmax' : ℝ) (h : match t with
    | .abs => gmax + (absWindow W.b1 W.b2 gmax).length * 1e-10 ≤ gmax'
    | .tbt => gmax ≤ gmax') : W.inds t gmax ⊆ W.inds t gmax' := by
  have hn : ∀ (c : ℝ), 0 ≤ c → ∀ b : R2, gmax ≤ gmax' → nmaxOf c gmax b ≤ nmaxOf c gmax' b := by
    intro c hc b hg
    refine Nat.floor_le_floor ?_
    have : 0 ≤ norm2 b := Real.sqrt_nonneg _
    gcongr
  have hpi := Real.pi_pos
  intro i hi
  cases t with
  | tbt =>
    simp only [ExcWell.inds, mem_tbtInds] at hi ⊢
    have h1 := hn (2 * π) (by positivity) W.b1 h
    have h2 := hn (2 * π) (by positivity) W.b2 h
    omega
  | abs =>
    have hle : gmax ≤ gmax' := le_trans (le_add_of_nonneg_right (by positivity)) h
    have h1 := hn (4 * π) (by positivity) W.b1 hle
    have h2 := hn (4 * π) (by positivity) W.b2 hle
    simp only [ExcWell.inds, mem_absInds] at hi ⊢
    refine ⟨?_, hi.2.trans ?_⟩
    · have := hi.1
      simp only [absWindow, mem_tbtInds] at this ⊢
      omega
    · have e1 := gmaxEff_le gmax (absNorms W.b1 W.b2 gmax)
      rw [absNorms, List.length_map] at e1
      have e2 : gmax' ≤ gmaxEff gmax' (absNorms W.b1 W.b2 gmax') := by
        unfold gmaxEff
        exact le_add_of_nonneg_right (by positivity)
      have e3 : gmaxEff gmax (absNorms W.b1 W.b2 gmax) ≤ gmaxEff gmax' (absNorms W.b1 W.b2 gmax') := by
        refine le_trans ?_ (h.trans e2)
        exact e1
      exact mul_le_mul_of_nonneg_left e3 (by positivity)

/-- **C109 (truncation).** With more plane waves no energy rises: the run with a larger `gmax` reports at every wave vector at
least as many energies, and none is above the one of the same number with the smaller `gmax`. -/
theorem C109_truncation (argsort : List ℝ → List ℕ) (hs : ∀ l, IsArgsort l (argsort l))
    (eigh : ∀ n, Matrix (Fin n) (Fin n) ℂ → Fin n → ℝ) (he : GoodEigh eigh) (W : ExcWell) (hb : Resolved W.b1 W.b2)
    (hr : ∀ s ∈ W.shapes, RealFt s) (t : TruncG) (gmax gmax' : ℝ) (hg : 0 ≤ gmax) (h : match t with
      | .abs => gmax + (absWindow W.b1 W.b2 gmax).length * 1e-10 ≤ gmax'
      | .tbt => gmax ≤ gmax') (ks : List R2) (numeig : ℕ) :
    ∃ rs rs', excSim argsort eigh W t gmax ks numeig = .ok rs ∧ excSim argsort eigh W t gmax' ks numeig = .ok rs' ∧
      rs.length = ks.length ∧ List.Forall₂ (fun r' r => r.2.length ≤ r'.2.length ∧
        ∀ (i : ℕ) (h' : i < r'.2.length) (h : i < r.2.length), r'.2[i].re ≤ r.2[i].re) rs' rs := by
  have hle : gmax ≤ gmax' := by
    cases t
    · exact le_trans (le_add_of_nonneg_right (by positivity)) h
    · exact h
  refine ⟨_, _, excSim_ok argsort eigh W hb hr t gmax hg ks numeig,
    excSim_ok argsort eigh W hb hr t gmax' (hg.trans hle) ks numeig, by simp, ?_⟩
  have hsub := excWell_nested W t gmax gmax' h
  have hex : ∀ i : Fin (W.gvec t gmax).length, ∃ j : Fin (W.gvec t gmax').length,
      (W.inds t gmax').getD j 0 = (W.inds t gmax).getD i 0 := by
    intro i
    have hi : (i : ℕ) < (W.inds t gmax).length := by rw [← excWell_len]; exact i.2
    obtain ⟨j, hj, e⟩ := List.getElem_of_mem (hsub (List.getElem_mem hi))
    refine ⟨⟨j, by rw [excWell_len]; exact hj⟩, ?_⟩
    rw [getD_of_len hj, getD_of_len hi, e]
  choose σ hσ using hex
  have hinj : Function.Injective σ := fun i j e => excWell_inds_inj W t gmax (by simp only [← hσ]; rw [e])
  have hidx : ∀ i, W.idx t gmax' (σ i) = W.idx t gmax i := fun i => by rw [ExcWell.idx, ExcWell.idx, hσ]
  have hham : ∀ k, (W.ham t gmax' k).submatrix σ σ = W.ham t gmax k := by
    intro k
    ext i j
    rw [submatrix_apply, excWell_ham_apply, excWell_ham_apply, hσ, hidx, hidx]
    congr 1
    by_cases hij : i = j
    · rw [if_pos hij, if_pos (by rw [hij])]
    · rw [if_neg hij, if_neg fun e => hij (hinj e)]
  rw [List.forall₂_map_left_iff, List.forall₂_map_right_iff]
  refine List.forall₂_same.2 fun k _ => ⟨?_, fun i h1 h2 => ?_⟩
  · simp only [List.length_map, excRes]
    rw [excSelect_length argsort hs, excSelect_length argsort hs, List.length_ofFn, List.length_ofFn]
    have : (W.gvec t gmax).length ≤ (W.gvec t gmax').length := by
      simpa using Fintype.card_le_of_injective σ hinj
    omega
  · simp only [List.getElem_map, Complex.add_re, Complex.ofReal_re]
    refine add_le_add_left (add_le_add_left ?_ _) _
    obtain ⟨V, hV⟩ := he _ _ ((excWell_ham_hermitian W hr t gmax k).add isHermitian_one)
    obtain ⟨V', hV'⟩ := he _ _ ((excWell_ham_hermitian W hr t gmax' k).add isHermitian_one)
    refine excSelect_ritz argsort hs hV' hV (selMat σ).mulVecLin (fun x => ?_) (fun x => ?_) numeig i _ _
    · have h1 : (1 : Matrix (Fin (W.gvec t gmax').length) (Fin (W.gvec t gmax').length) ℂ).submatrix σ σ = 1 := by
        ext a b
        rw [submatrix_apply, one_apply, one_apply]
        by_cases hab : a = b
        · rw [if_pos hab, if_pos (by rw [hab])]
        · rw [if_neg hab, if_neg fun e => hab (hinj e)]
      rw [mulVecLin_apply, ← qform_one, qform_sel, h1, qform_one]
    · rw [mulVecLin_apply, qform_sel, hham]

/-! ### The potential drawn -/

/-- The transforms of the shapes of the well are those of the regions up to the given errors, and no two copies of the
shapes overlap. Several shapes are only treated correctly in cells of area 1. -/
structure WellDrawn (a1 a2 : R2) (W : ExcWell) (sh : List Drawn) : Prop where
  shapes_eq : W.shapes = sh.map fun s => s.shape.ft
  nonempty : sh ≠ []
  one : sh.length ≤ 1 ∨ W.ecArea = 1
  dual : Dual a1 a2 W.b1 W.b2
  resolved : Resolved W.b1 W.b2
  area_eq : W.ecArea = |a1.1 * a2.2 - a1.2 * a2.1|
  apart : Apart a1 a2 (sh.map Drawn.region)
  measurable : ∀ s ∈ sh, MeasurableSet s.region
  close : ∀ s ∈ sh, ∀ n : ℤ × ℤ,
    ‖s.shape.ft (latVec W.b1 W.b2 n) - regionFourier s.region (latVec W.b1 W.b2 n)‖ ≤ s.err
  small : ∀ s ∈ sh, s.err < volume.real s.region
  fill : (sh.map fun s => volume.real s.region + s.err).sum ≤ W.ecArea
  real : ∀ s ∈ sh, RealShape s.shape

/-- Bound on the error of a Fourier coefficient of the potential. -/
noncomputable def wellErr (W : ExcWell) (sh : List Drawn) : ℝ := |W.V| * (sh.map Drawn.err).sum / W.ecArea

/-- The potential of one shape, or of several in a cell of area 1. -/
theorem excPot_sum (b1 b2 : R2) (hb : Resolved b1 b2) (A V : ℝ) (hA : 0 < A) (l : List (R2 → ℂ)) (hne : l ≠ [])
    (h1 : l.length ≤ 1 ∨ A = 1) (him : ∀ s ∈ l, (s (0, 0)).im = 0) (hpos : ∀ s ∈ l, 0 < (s (0, 0)).re)
    (hfill : (l.map fun s => (s (0, 0)).re).sum ≤ A) (n : ℤ × ℤ) :
    excPot A V (0, 0) l (latVec b1 b2 n) = (if n = 0 then ((max 0 (-V) : ℝ) : ℂ) else 0) +
      V * (l.map fun s => s (latVec b1 b2 n)).sum / A := by
  have hg : ∀ m : ℤ × ℤ, isG0 (latVec b1 b2 m) ↔ m = 0 := by
    intro m
    constructor
    · intro hm; rw [latVec_eq] at hm; exact resolved_zero hb m hm
    · rintro rfl; rw [latVec_zero]; simp [isG0]; norm_num
  have him' : ∀ l : List (R2 → ℂ), (∀ s ∈ l, (s (0, 0)).im = 0) →
      (l.map fun s => s (0, 0)).sum = (((l.map fun s => (s (0, 0)).re).sum : ℝ) : ℂ) := by
    intro l hl
    induction l with
    | nil => simp
    | cons s l ih =>
      simp only [List.map_cons, List.sum_cons, Complex.ofReal_add]
      rw [ih fun t ht => hl t (List.mem_cons_of_mem _ ht)]
      congr 1
      exact Complex.ext (by simp) (by simpa using hl s List.mem_cons_self)
  induction l using List.reverseRecOn generalizing n with
  | nil => exact absurd rfl hne
  | append_singleton l s ih =>
    have hstep : excPot A V (0, 0) (l ++ [s]) = excRound A V (0, 0) (excPot A V (0, 0) l) s := by
      unfold excPot; rw [List.foldl_append]; rfl
    rw [hstep]
    have hs0 := hpos s (by simp)
    have hsum0 : 0 ≤ (l.map fun s => (s (0, 0)).re).sum := List.sum_nonneg fun x hx => by
      obtain ⟨u, hu, rfl⟩ := List.mem_map.1 hx
      exact (hpos u (by simp [hu])).le
    rw [List.map_append, List.sum_append, List.map_singleton, List.sum_singleton] at hfill ⊢
    -- the transform before the shift
    have hF : ∀ m, (excPot A V (0, 0) l (latVec b1 b2 m) + V * s (latVec b1 b2 m)) / (A : ℂ) =
        (if m = 0 ∧ l ≠ [] then ((max 0 (-V) : ℝ) : ℂ) else 0) +
          V * ((l.map fun s => s (latVec b1 b2 m)).sum + s (latVec b1 b2 m)) / A := by
      intro m
      by_cases hl : l = []
      · subst hl
        simp [excPot]
      · have hA1 : A = 1 := h1.resolve_left (by
          have := List.length_pos_iff.2 hl
          simp; omega)
        rw [ih hl (Or.inr hA1) (fun u hu => him u (by simp [hu])) (fun u hu => hpos u (by simp [hu])) (by linarith) m, hA1]
        by_cases hm : m = 0
        · rw [if_pos hm, if_pos ⟨hm, hl⟩]; push_cast; ring
        · rw [if_neg hm, if_neg fun h => hm h.1]; push_cast; ring
    have hF0 := hF 0
    rw [latVec_zero] at hF0
    have h00 : ((0 : R2)) = (0, 0) := rfl
    rw [h00] at hF0
    have hval : (excPot A V (0, 0) l (0, 0) + V * s (0, 0)) / (A : ℂ) =
        (((if l ≠ [] then max 0 (-V) else 0) + V * ((l.map fun s => (s (0, 0)).re).sum + (s (0, 0)).re) / A : ℝ) : ℂ) := by
      rw [hF0, him' l fun u hu => him u (by simp [hu])]
      have e : s (0, 0) = (((s (0, 0)).re : ℝ) : ℂ) := Complex.ext (by simp) (by simpa using him s (by simp))
      rw [e, Complex.ofReal_re]
      by_cases hl : l = []
      · simp [hl]
      · simp [hl]
    have hfrac : ((l.map fun s => (s (0, 0)).re).sum + (s (0, 0)).re) / A ≤ 1 := (div_le_one hA).2 hfill
    have hfrac0 : 0 < ((l.map fun s => (s (0, 0)).re).sum + (s (0, 0)).re) / A := div_pos (by linarith) hA
    set f := ((l.map fun s => (s (0, 0)).re).sum + (s (0, 0)).re) / A with hf
    rw [mul_div_assoc, ← hf] at hval
    have hcond : (((excPot A V (0, 0) l (0, 0) + V * s (0, 0)) / (A : ℂ)).re < 0 ∨
        ((excPot A V (0, 0) l (0, 0) + V * s (0, 0)) / (A : ℂ)).re = 0 ∧
          ((excPot A V (0, 0) l (0, 0) + V * s (0, 0)) / (A : ℂ)).im < 0) ↔
        (if l ≠ [] then max 0 (-V) else 0) + V * f < 0 := by
      rw [hval, Complex.ofReal_re, Complex.ofReal_im]
      simp only [lt_irrefl, and_false, or_false]
    unfold excRound
    simp only
    rw [hF n]
    by_cases hV : 0 ≤ V
    · have hm : max 0 (-V) = 0 := max_eq_left (by linarith)
      have hneg : ¬ ((if l ≠ [] then max 0 (-V) else 0) + V * f < 0) := by
        rw [hm, ite_self, not_lt, zero_add]; positivity
      rw [if_neg fun h => hneg (hcond.1 h.1), hm]
      simp
    · have hV' : V < 0 := not_le.1 hV
      have hm : max 0 (-V) = -V := max_eq_right (by linarith)
      have habs : |V| = -V := abs_of_neg hV'
      by_cases hl : l = []
      · have hneg : (if l ≠ [] then max 0 (-V) else 0) + V * f < 0 := by
          rw [if_neg (by simp [hl]), zero_add]; exact mul_neg_of_neg_of_pos hV' hfrac0
        by_cases hn : n = 0
        · rw [if_pos ⟨hcond.2 hneg, (hg n).2 hn⟩, if_neg fun h => h.2 hl, if_pos hn, hm, habs]; ring
        · rw [if_neg fun h => hn ((hg n).1 h.2), if_neg fun h => hn h.1, if_neg hn]
      · have hneg : ¬ (if l ≠ [] then max 0 (-V) else 0) + V * f < 0 := by
          rw [if_pos hl, hm, not_lt]; nlinarith
        rw [if_neg fun h => hneg (hcond.1 h.1)]
        by_cases hn : n = 0
        · rw [if_pos ⟨hn, hl⟩, if_pos hn]
        · rw [if_neg fun h => hn h.1, if_neg hn]

theorem wellDrawn_real {a1 a2 : R2} {W : ExcWell} {sh : List Drawn} (hD : WellDrawn a1 a2 W sh) :
    ∀ s ∈ W.shapes, RealFt s := by
  intro s hs
  rw [hD.shapes_eq] at hs
  obtain ⟨d, hd, rfl⟩ := List.mem_map.1 hs
  exact hD.real d hd

theorem wellDrawn_area {a1 a2 : R2} {W : ExcWell} {sh : List Drawn} (hD : WellDrawn a1 a2 W sh) : 0 < W.ecArea := by
  rw [hD.area_eq]
  exact abs_pos.2 (dual_det _ _ _ _ hD.dual)

/-- The transforms of the potential. -/
theorem wellDrawn_ft {a1 a2 : R2} {W : ExcWell} {sh : List Drawn} (hD : WellDrawn a1 a2 W sh) (n : ℤ × ℤ) :
    W.ft (latVec W.b1 W.b2 n) = (if n = 0 then ((max 0 (-W.V) : ℝ) : ℂ) else 0) +
      W.V * (sh.map fun s => s.shape.ft (latVec W.b1 W.b2 n)).sum / W.ecArea := by
  have him : ∀ s ∈ sh, (s.shape.ft (0, 0)).im = 0 := by
    intro s hs
    have := congrArg Complex.im (hD.real s hs (0, 0))
    simp only [neg_zero, Complex.conj_im] at this
    linarith
  have hz : ∀ s ∈ sh, |(s.shape.ft (0, 0)).re - volume.real s.region| ≤ s.err := by
    intro s hs
    have := hD.close s hs 0
    rw [latVec_zero, regionFourier_zero] at this
    have h2 := (Complex.abs_re_le_norm _).trans this
    rwa [Complex.sub_re, Complex.ofReal_re] at h2
  have := excPot_sum W.b1 W.b2 hD.resolved W.ecArea W.V (wellDrawn_area hD) W.shapes
    (by rw [hD.shapes_eq]; simpa using hD.nonempty) (by rw [hD.shapes_eq]; simpa using hD.one)
    (by rw [hD.shapes_eq]; simpa using him)
    (by
      rw [hD.shapes_eq]
      intro s hs
      obtain ⟨d, hd, rfl⟩ := List.mem_map.1 hs
      have h1 := abs_le.1 (hz d hd)
      have h2 := hD.small d hd
      linarith [h1.1])
    (by
      rw [hD.shapes_eq, List.map_map]
      refine le_trans (List.sum_le_sum fun s hs => ?_) hD.fill
      have h1 := abs_le.1 (hz s hs)
      simp only [Function.comp]
      linarith [h1.2]) n
  rw [ExcWell.ft, this, hD.shapes_eq, List.map_map]
  rfl

theorem wellDrawn_close {a1 a2 : R2} {W : ExcWell} {sh : List Drawn} (hD : WellDrawn a1 a2 W sh) (v : R2 → ℝ)
    (hv : IsPermittivity a1 a2 (max 0 (-W.V)) (sh.map fun s => (max 0 W.V, s.region)) v) (n : ℤ × ℤ) :
    ‖W.ft (latVec W.b1 W.b2 n) - epsCoeff a1 a2 v (latVec W.b1 W.b2 n)‖ ≤ wellErr W sh := by
  have hdet := dual_det _ _ _ _ hD.dual
  have hA := wellDrawn_area hD
  have hV : max 0 W.V - max 0 (-W.V) = W.V := by
    rcases le_total 0 W.V with h | h
    · rw [max_eq_right h, max_eq_left (by linarith), sub_zero]
    · rw [max_eq_left h, max_eq_right (by linarith)]; ring
  have he := epsCoeff_eq a1 a2 W.b1 W.b2 hD.dual hdet (max 0 (-W.V)) (sh.map fun s => (max 0 W.V, s.region))
    (by rw [List.map_map]; exact hD.apart)
    (by
      intro s hs
      obtain ⟨d, hd, rfl⟩ := List.mem_map.1 hs
      exact hD.measurable d hd) v hv n
  rw [he, wellDrawn_ft hD, List.map_map, ← hD.area_eq, add_sub_add_left_eq_sub, ← sub_div, norm_div, Complex.norm_real,
    Real.norm_eq_abs, abs_of_pos hA, wellErr]
  apply div_le_div_of_nonneg_right _ hA.le
  have hsum : ∀ l : List Drawn, (∀ s ∈ l, ‖s.shape.ft (latVec W.b1 W.b2 n) - regionFourier s.region (latVec W.b1 W.b2 n)‖
      ≤ s.err) → ‖(W.V : ℂ) * (l.map fun s => s.shape.ft (latVec W.b1 W.b2 n)).sum -
        (l.map ((fun s : ℝ × Set R2 => ((s.1 - max 0 (-W.V) : ℝ) : ℂ) * regionFourier s.2 (latVec W.b1 W.b2 n)) ∘
          fun s => (max 0 W.V, s.region))).sum‖ ≤ |W.V| * (l.map Drawn.err).sum := by
    intro l
    induction l with
    | nil => simp
    | cons d l ih =>
      intro hl
      have h1 := ih fun s hs => hl s (List.mem_cons_of_mem _ hs)
      have h2 := hl d List.mem_cons_self
      have e0 : ((fun s : ℝ × Set R2 => ((s.1 - max 0 (-W.V) : ℝ) : ℂ) * regionFourier s.2 (latVec W.b1 W.b2 n)) ∘
          fun s : Drawn => (max 0 W.V, s.region)) = fun s => (W.V : ℂ) * regionFourier s.region (latVec W.b1 W.b2 n) := by
        funext s
        simp only [Function.comp, hV]
      rw [e0] at h1 ⊢
      simp only [List.map_cons, List.sum_cons]
      have e : (W.V : ℂ) * (d.shape.ft (latVec W.b1 W.b2 n) + (l.map fun s => s.shape.ft (latVec W.b1 W.b2 n)).sum) -
          ((W.V : ℂ) * regionFourier d.region (latVec W.b1 W.b2 n) +
            (l.map fun s => (W.V : ℂ) * regionFourier s.region (latVec W.b1 W.b2 n)).sum) =
          (W.V : ℂ) * (d.shape.ft (latVec W.b1 W.b2 n) - regionFourier d.region (latVec W.b1 W.b2 n)) +
            ((W.V : ℂ) * (l.map fun s => s.shape.ft (latVec W.b1 W.b2 n)).sum -
              (l.map fun s => (W.V : ℂ) * regionFourier s.region (latVec W.b1 W.b2 n)).sum) := by ring
      rw [e]
      refine (norm_add_le _ _).trans ?_
      rw [norm_mul, Complex.norm_real, Real.norm_eq_abs, mul_add]
      exact add_le_add (mul_le_mul_of_nonneg_left h2 (abs_nonneg _)) h1
  exact hsum sh fun s hs => hD.close s hs n

/-- **C109 (potential).** The Fourier coefficients used for the potential are those of the potential drawn: `V` inside the
shapes and 0 elsewhere if `V` is positive, 0 inside the shapes and `|V|` elsewhere if it is negative, up to the errors of the
transforms of the shapes. With `truncate_g = 'abs'` entry (i, j) is the coefficient at `G_j - G_i`, with 'tbt' at
`G_i - G_j`. -/
theorem C109_potential (a1 a2 : R2) (W : ExcWell) (sh : List Drawn) (hD : WellDrawn a1 a2 W sh) (v : R2 → ℝ)
    (hv : IsPermittivity a1 a2 (max 0 (-W.V)) (sh.map fun s => (max 0 W.V, s.region)) v) (t : TruncG) (gmax : ℝ)
    (hg : 0 ≤ gmax) : ∃ P, W.pot t gmax = .ok P ∧ ∀ i j : Fin (W.gvec t gmax).length,
      ‖P i j - epsCoeff a1 a2 v ((match t with | .abs => (1 : ℝ) | .tbt => -1) •
        ((W.gvec t gmax)[j] - (W.gvec t gmax)[i]))‖ ≤ wellErr W sh := by
  obtain ⟨P, hP, hent⟩ := excWell_pot W hD.resolved (wellDrawn_real hD) t gmax hg
  refine ⟨P, hP, fun i j => ?_⟩
  have hsub : ∀ m n : ℤ × ℤ, latVec W.b1 W.b2 m - latVec W.b1 W.b2 n = latVec W.b1 W.b2 (m - n) := by
    intro m n
    simp only [latVec, Prod.fst_sub, Prod.snd_sub]
    ext <;> simp <;> ring
  have harg : (match t with | .abs => (1 : ℝ) | .tbt => -1) • ((W.gvec t gmax)[j] - (W.gvec t gmax)[i]) =
      latVec W.b1 W.b2 (W.idx t gmax j - W.idx t gmax i) := by
    rw [excWell_gvec, excWell_gvec, hsub]
    cases t
    · simp only [ExcWell.idx, TruncG.sgn, one_smul]
    · simp only [ExcWell.idx, TruncG.sgn, neg_smul, one_smul]
      rw [← latVec_neg']
      congr 1; abel
  rw [harg, hent]
  exact wellDrawn_close hD v hv _

/-- The quadratic form of the potential. -/
theorem wellDrawn_form {a1 a2 : R2} {W : ExcWell} {sh : List Drawn} (hD : WellDrawn a1 a2 W sh) {n : ℕ}
    (m : Fin n → ℤ × ℤ) (hm : Function.Injective m) (x : Fin n → ℂ) :
    -(n * wellErr W sh) * ∑ i, ‖x i‖ ^ 2 ≤ (∑ i, ∑ j, conj (x i) * W.ft (latVec W.b1 W.b2 (m j - m i)) * x j).re ∧
    (∑ i, ∑ j, conj (x i) * W.ft (latVec W.b1 W.b2 (m j - m i)) * x j).re ≤
      (|W.V| + n * wellErr W sh) * ∑ i, ‖x i‖ ^ 2 := by
  classical
  obtain ⟨v, hv⟩ : ∃ v, IsPermittivity a1 a2 (max 0 (-W.V)) (sh.map fun s => (max 0 W.V, s.region)) v := by
    refine ⟨fun p => if ∃ s ∈ sh, ∃ m, p + latVec a1 a2 m ∈ s.region then max 0 W.V else max 0 (-W.V), ?_, ?_⟩
    · intro s hs p m hp
      obtain ⟨d, hd, rfl⟩ := List.mem_map.1 hs
      exact if_pos ⟨d, hd, m, hp⟩
    · intro p hp
      refine if_neg ?_
      rintro ⟨d, hd, m, h⟩
      exact hp _ (List.mem_map.2 ⟨d, hd, rfl⟩) m h
  have hdet := dual_det _ _ _ _ hD.dual
  have hr := permittivity_range _ _ _ _ v hv
  have hmeas : Measurable v := permittivity_measurable a1 a2 _ _ (by rw [List.map_map]; exact hD.apart) (by
      intro s hs
      obtain ⟨d, hd, rfl⟩ := List.mem_map.1 hs
      exact hD.measurable d hd) v hv
  have hlo : ∀ p, 0 ≤ v p := by
    intro p
    rcases hr p with h | ⟨s, hs, h⟩
    · rw [h]; exact le_max_left _ _
    · obtain ⟨d, hd, rfl⟩ := List.mem_map.1 hs
      rw [h]; exact le_max_left _ _
  have hhi : ∀ p, v p ≤ |W.V| := by
    intro p
    rcases hr p with h | ⟨s, hs, h⟩
    · rw [h]; exact max_le (abs_nonneg _) (neg_le_abs _)
    · obtain ⟨d, hd, rfl⟩ := List.mem_map.1 hs
      rw [h]; exact max_le (abs_nonneg _) (le_abs_self _)
  have hb := epsCoeff_bounds a1 a2 W.b1 W.b2 hD.dual hdet v hmeas 0 |W.V| hlo hhi m hm x
  have hsm := small_form (fun i j => W.ft (latVec W.b1 W.b2 (m j - m i)) -
    epsCoeff a1 a2 v (latVec W.b1 W.b2 (m j - m i))) _ (fun i j => wellDrawn_close hD v hv _) x
  have hsm2 := abs_le.1 ((Complex.abs_re_le_norm _).trans hsm)
  have e : (∑ i, ∑ j, conj (x i) * W.ft (latVec W.b1 W.b2 (m j - m i)) * x j).re =
      (∑ i, ∑ j, conj (x i) * epsCoeff a1 a2 v (latVec W.b1 W.b2 (m j - m i)) * x j).re +
      (∑ i, ∑ j, conj (x i) * (W.ft (latVec W.b1 W.b2 (m j - m i)) -
        epsCoeff a1 a2 v (latVec W.b1 W.b2 (m j - m i))) * x j).re := by
    rw [← Complex.add_re, ← Finset.sum_add_distrib]
    congr 1
    refine Finset.sum_congr rfl fun i _ => ?_
    rw [← Finset.sum_add_distrib]
    exact Finset.sum_congr rfl fun j _ => by ring
  rw [e]
  constructor
  · linarith [hb.1, hsm2.1]
  · linarith [hb.2, hsm2.2]

theorem excWell_qform (W : ExcWell) (t : TruncG) (gmax : ℝ) (k : R2) (x : Fin (W.gvec t gmax).length → ℂ) :
    qform (W.ham t gmax k) x = qform (diagonal fun i : Fin (W.gvec t gmax).length =>
        ((excKin W.hbar W.e W.a W.M k (W.gvec t gmax)[i] : ℝ) : ℂ)) x +
      (∑ i, ∑ j, conj (x i) * W.ft (latVec W.b1 W.b2 (W.idx t gmax j - W.idx t gmax i)) * x j).re := by
  rw [qform_sum, qform_sum, ← Complex.add_re, ← Finset.sum_add_distrib]
  congr 1
  refine Finset.sum_congr rfl fun i _ => ?_
  rw [← Finset.sum_add_distrib]
  refine Finset.sum_congr rfl fun j _ => ?_
  have : W.ham t gmax k i j = diagonal (fun i : Fin (W.gvec t gmax).length =>
      ((excKin W.hbar W.e W.a W.M k (W.gvec t gmax)[i] : ℝ) : ℂ)) i j +
      W.ft (latVec W.b1 W.b2 (W.idx t gmax j - W.idx t gmax i)) := by
    unfold ExcWell.ham excMat
    rw [Matrix.add_apply, of_apply]
  rw [this]
  ring

theorem excKin_eq (hbar e a M : ℝ) (k g : R2) :
    excKin hbar e a M k g = hbar ^ 2 * ((k.1 + g.1) ^ 2 + (k.2 + g.2) ^ 2) / (2 * M * a ^ 2 * e) := by
  unfold excKin
  rw [Real.sq_sqrt (by positivity)]
  rw [div_pow, div_pow, div_eq_mul_inv, div_eq_mul_inv, div_eq_mul_inv, div_eq_mul_inv]
  simp only [mul_inv]
  ring

/-- **C109 (bounds).** Every energy lies between those of the free exciton and those of the free exciton raised by the depth
`|V|` of the potential: with the kinetic energies `hbar² |k + G|² / (2 M a² e)` in ascending order, the one of number `i` is
between `E0 + cᵢ` and `E0 + cᵢ + |V|`, up to the number of plane waves times the error of a coefficient. The imaginary part
is the loss. -/
theorem C109_between (argsort : List ℝ → List ℕ) (hs : ∀ l, IsArgsort l (argsort l))
    (eigh : ∀ n, Matrix (Fin n) (Fin n) ℂ → Fin n → ℝ) (he : GoodEigh eigh) (a1 a2 : R2) (W : ExcWell) (sh : List Drawn)
    (hD : WellDrawn a1 a2 W sh) (t : TruncG) (gmax : ℝ) (hg : 0 ≤ gmax) (δ : ℝ)
    (hδ : δ = (W.gvec t gmax).length * wellErr W sh) (ks : List R2) (numeig : ℕ) :
    ∃ rs, excSim argsort eigh W t gmax ks numeig = .ok rs ∧ List.Forall₂ (fun k r =>
      ∃ c : List ℝ, c.Pairwise (· ≤ ·) ∧ c.Perm ((W.gvec t gmax).map fun g =>
          W.hbar ^ 2 * ((k.1 + g.1) ^ 2 + (k.2 + g.2) ^ 2) / (2 * W.M * W.a ^ 2 * W.e)) ∧
        r.2.length = min numeig c.length ∧ ∀ (i : ℕ) (h : i < r.2.length) (h' : i < c.length),
          W.E0 + c[i] - δ ≤ r.2[i].re ∧ r.2[i].re ≤ W.E0 + c[i] + |W.V| + δ ∧ r.2[i].im = W.loss) ks rs := by
  have hr := wellDrawn_real hD
  refine ⟨_, excSim_ok argsort eigh W hD.resolved hr t gmax hg ks numeig, ?_⟩
  rw [List.forall₂_map_right_iff]
  refine List.forall₂_same.2 fun k _ => ?_
  set kin : Fin (W.gvec t gmax).length → ℝ := fun i => excKin W.hbar W.e W.a W.M k (W.gvec t gmax)[i] with hkin
  obtain ⟨V, hV⟩ := he _ _ ((excWell_ham_hermitian W hr t gmax k).add isHermitian_one)
  have hfree : IsEigh (diagonal (fun i => ((kin i : ℝ) : ℂ)) + 1) (fun i => kin i + 1) 1 := by
    constructor
    · simp
    · rw [Matrix.mul_one, Matrix.one_mul, ← diagonal_one, diagonal_add]
      congr 1
      funext i
      simp
  set c := (List.ofFn kin).mergeSort (fun a b => decide (a ≤ b)) with hc
  have hcp : c.Perm (List.ofFn kin) := List.mergeSort_perm _ _
  have hcs : c.Pairwise (· ≤ ·) := List.pairwise_mergeSort' (· ≤ ·) _
  have hclen : c.length = (W.gvec t gmax).length := by rw [hcp.length_eq, List.length_ofFn]
  have htake : (excSelect argsort (List.ofFn fun i => kin i + 1) numeig).2 = c.take numeig := by
    refine excSelect_take argsort hs _ c (hcp.trans (List.Perm.of_eq ?_)) hcs numeig
    rw [List.map_ofFn]
    congr 1
    funext i
    simp
  have hlen : (excRes argsort eigh W t gmax numeig k).2.length = min numeig c.length := by
    rw [excRes, excSelect_length argsort hs, List.length_ofFn, hclen]
  refine ⟨c, hcs, hcp.trans (List.Perm.of_eq ?_), by simpa using hlen, fun i h h' => ?_⟩
  · refine List.ext_getElem (by simp) fun i _ _ => ?_
    simp only [List.getElem_ofFn, hkin, List.getElem_map, excKin_eq]
    rfl
  simp only [List.length_map] at h
  have hi : i < (excSelect argsort (List.ofFn fun i => kin i + 1) numeig).2.length := by
    rw [htake, List.length_take, ← hlen]; exact h
  have hci : (excSelect argsort (List.ofFn fun i => kin i + 1) numeig).2[i] = c[i] := by
    simp only [htake, List.getElem_take]
  have hform := fun x => wellDrawn_form hD (W.idx t gmax) (excWell_idx_inj W t gmax) x
  have h1 := excSelect_shift argsort hs hfree hV δ (fun x => by
    rw [excWell_qform, hδ]; linarith [(hform x).1]) numeig i hi h
  have h2 := excSelect_shift argsort hs hV hfree (|W.V| + δ) (fun x => by
    rw [excWell_qform, hδ]; linarith [(hform x).2]) numeig i h hi
  rw [hci] at h1 h2
  have h3 : c[i] ≤ (excRes argsort eigh W t gmax numeig k).2[i] + δ := h1
  have h4 : (excRes argsort eigh W t gmax numeig k).2[i] ≤ c[i] + (|W.V| + δ) := h2
  clear h1 h2
  simp only [List.getElem_map, Complex.add_re, Complex.ofReal_re, Complex.mul_re, Complex.I_re, Complex.I_im,
    Complex.ofReal_im, Complex.add_im, Complex.mul_im]
  refine ⟨?_, ?_, ?_⟩
  · generalize c[i] = y at *
    generalize (excRes argsort eigh W t gmax numeig k).2[i] = z at *
    linarith
  · generalize c[i] = y at *
    generalize (excRes argsort eigh W t gmax numeig k).2[i] = z at *
    linarith
  · ring

theorem wellDrawn_V {a1 a2 : R2} {W : ExcWell} {sh : List Drawn} (hD : WellDrawn a1 a2 W sh) (V : ℝ) :
    WellDrawn a1 a2 { W with V := V } sh :=
  ⟨hD.shapes_eq, hD.nonempty, hD.one, hD.dual, hD.resolved, hD.area_eq, hD.apart, hD.measurable, hD.close, hD.small,
    hD.fill, hD.real⟩

/-- **C109 (order).** A higher barrier, or a deeper well, gives no lower energies (they are counted from the bottom of the
potential), and no energy rises by more than the change of the potential, up to the number of plane waves times the error
of a coefficient. -/
theorem C109_raise (argsort : List ℝ → List ℕ) (hs : ∀ l, IsArgsort l (argsort l))
    (eigh : ∀ n, Matrix (Fin n) (Fin n) ℂ → Fin n → ℝ) (he : GoodEigh eigh) (a1 a2 : R2) (W : ExcWell) (sh : List Drawn)
    (hD : WellDrawn a1 a2 W sh) (V' : ℝ) (hV : (0 ≤ W.V ∧ W.V ≤ V') ∨ (V' ≤ W.V ∧ W.V ≤ 0)) (t : TruncG) (gmax : ℝ)
    (hg : 0 ≤ gmax) (δ : ℝ) (hδ : δ = (W.gvec t gmax).length * (|V' - W.V| * (sh.map Drawn.err).sum / W.ecArea))
    (ks : List R2) (numeig : ℕ) :
    ∃ rs rs', excSim argsort eigh W t gmax ks numeig = .ok rs ∧
      excSim argsort eigh { W with V := V' } t gmax ks numeig = .ok rs' ∧ rs.length = ks.length ∧
      List.Forall₂ (fun r r' => r.2.length = r'.2.length ∧ ∀ (i : ℕ) (h : i < r.2.length) (h' : i < r'.2.length),
        r.2[i].re ≤ r'.2[i].re + δ ∧ r'.2[i].re ≤ r.2[i].re + |V' - W.V| + δ) rs rs' := by
  have hr := wellDrawn_real hD
  have hD' := wellDrawn_V hD V'
  have hDd := wellDrawn_V hD (V' - W.V)
  refine ⟨_, _, excSim_ok argsort eigh W hD.resolved hr t gmax hg ks numeig,
    excSim_ok argsort eigh { W with V := V' } hD.resolved hr t gmax hg ks numeig, by simp, ?_⟩
  rw [List.forall₂_map_left_iff, List.forall₂_map_right_iff]
  refine List.forall₂_same.2 fun k _ => ?_
  have hft : ∀ n, ExcWell.ft { W with V := V' } (latVec W.b1 W.b2 n) = W.ft (latVec W.b1 W.b2 n) +
      ExcWell.ft { W with V := V' - W.V } (latVec W.b1 W.b2 n) := by
    intro n
    have e1 := wellDrawn_ft hD' n
    have e2 := wellDrawn_ft hDd n
    have e3 := wellDrawn_ft hD n
    have hmax : max 0 (-V') = max 0 (-W.V) + max 0 (-(V' - W.V)) := by
      rcases hV with ⟨h1, h2⟩ | ⟨h1, h2⟩
      · rw [max_eq_left (by linarith), max_eq_left (by linarith), max_eq_left (by linarith), add_zero]
      · rw [max_eq_right (by linarith), max_eq_right (by linarith), max_eq_right (by linarith)]; ring
    simp only at e1 e2 e3
    rw [e1, e2, e3, hmax]
    by_cases hn : n = 0
    · rw [if_pos hn, if_pos hn, if_pos hn]; push_cast; ring
    · rw [if_neg hn, if_neg hn, if_neg hn]; push_cast; ring
  have hq : ∀ x : Fin (W.gvec t gmax).length → ℂ,
      qform (ExcWell.ham { W with V := V' } t gmax k) x = qform (W.ham t gmax k) x +
      (∑ i : Fin (W.gvec t gmax).length, ∑ j : Fin (W.gvec t gmax).length, conj (x i) * ExcWell.ft { W with V := V' - W.V }
        (latVec W.b1 W.b2 (W.idx t gmax j - W.idx t gmax i)) * x j).re := by
    intro x
    have e1 : qform (ExcWell.ham { W with V := V' } t gmax k) x = qform (diagonal fun i : Fin (W.gvec t gmax).length =>
        ((excKin W.hbar W.e W.a W.M k (W.gvec t gmax)[i] : ℝ) : ℂ)) x +
      (∑ i : Fin (W.gvec t gmax).length, ∑ j : Fin (W.gvec t gmax).length, conj (x i) * ExcWell.ft { W with V := V' }
        (latVec W.b1 W.b2 (W.idx t gmax j - W.idx t gmax i)) * x j).re := excWell_qform { W with V := V' } t gmax k x
    have e2 := excWell_qform W t gmax k x
    rw [e1, e2, add_assoc]
    congr 1
    rw [← Complex.add_re, ← Finset.sum_add_distrib]
    congr 1
    refine Finset.sum_congr rfl fun i _ => ?_
    rw [← Finset.sum_add_distrib]
    refine Finset.sum_congr rfl fun j _ => ?_
    rw [hft]
    ring
  have hform := fun x => wellDrawn_form hDd (W.idx t gmax) (excWell_idx_inj W t gmax) x
  have hwe : wellErr { W with V := V' - W.V } sh = |V' - W.V| * (sh.map Drawn.err).sum / W.ecArea := rfl
  obtain ⟨U, hU⟩ := he _ _ ((excWell_ham_hermitian W hr t gmax k).add isHermitian_one)
  obtain ⟨U', hU'⟩ := he _ _ ((excWell_ham_hermitian { W with V := V' } hr t gmax k).add isHermitian_one)
  have hl : (excRes argsort eigh W t gmax numeig k).2.length =
      (excRes argsort eigh { W with V := V' } t gmax numeig k).2.length := by
    rw [excRes, excRes, excSelect_length argsort hs, excSelect_length argsort hs, List.length_ofFn, List.length_ofFn]
    rfl
  refine ⟨by simpa using hl, fun i h h' => ?_⟩
  simp only [List.length_map] at h h'
  have hle : ∀ x : Fin (W.gvec t gmax).length → ℂ, qform (W.ham t gmax k) x ≤
      qform (ExcWell.ham { W with V := V' } t gmax k) x + δ * ∑ i, ‖x i‖ ^ 2 := by
    intro x
    rw [hq x, hδ, ← hwe]; linarith [(hform x).1]
  have hge : ∀ x : Fin (W.gvec t gmax).length → ℂ, qform (ExcWell.ham { W with V := V' } t gmax k) x ≤
      qform (W.ham t gmax k) x + (|V' - W.V| + δ) * ∑ i, ‖x i‖ ^ 2 := by
    intro x
    rw [hq x, hδ, ← hwe]; linarith [(hform x).2]
  have h1 : (excRes argsort eigh W t gmax numeig k).2[i] ≤
      (excRes argsort eigh { W with V := V' } t gmax numeig k).2[i] + δ :=
    excSelect_shift argsort hs hU hU' δ hle numeig i h h'
  have h2 : (excRes argsort eigh { W with V := V' } t gmax numeig k).2[i] ≤
      (excRes argsort eigh W t gmax numeig k).2[i] + (|V' - W.V| + δ) :=
    excSelect_shift argsort hs hU' hU (|V' - W.V| + δ) hge numeig i h' h
  simp only [List.getElem_map, Complex.add_re, Complex.ofReal_re, Complex.mul_re, Complex.I_re, Complex.I_im,
    Complex.ofReal_im]
  generalize (excRes argsort eigh { W with V := V' } t gmax numeig k).2[i] = z at *
  generalize (excRes argsort eigh W t gmax numeig k).2[i] = y at *
  constructor <;> linarith

/-- Discs of radius 0.2 in a square lattice. -/
noncomputable def wellDisc (x y V : ℝ) : ExcWell :=
  ⟨(2 * π, 0), (0, 2 * π), 1, [Circle.ft besselJ1 ⟨x, y, 0.2⟩], V, 1e-7, 1, 1.5, -0.1, 2, 3⟩

theorem wellDisc_drawn (x y V : ℝ) : WellDrawn (1, 0) (0, 1) (wellDisc x y V) [drawnCircle 1 ⟨x, y, 0.2⟩] := by
  obtain ⟨m1, m2, m3, m4⟩ := C101_circle 1 ⟨x, y, 0.2⟩ (by norm_num)
  have hpi := Real.pi_pos
  have hpi4 := Real.pi_lt_four
  refine ⟨rfl, by simp, Or.inr rfl, square_holes.dual, resolved_square, by simp [wellDisc], ⟨?_, by simp⟩, ?_, ?_, ?_, ?_, ?_⟩
  · have := circle_isolated (1, 0) (0, 1) ⟨x, y, 0.2⟩ fun m hm =>
      lt_of_lt_of_le (by norm_num) (square_vectors m hm)
    simpa only [drawnCircle, List.map_cons, List.map_nil, List.mem_singleton, forall_eq] using this
  · simpa using m1
  · simp only [List.mem_singleton, forall_eq]
    exact fun n => m4 _
  · simp only [List.mem_singleton, forall_eq, m2]
    simp only [drawnCircle]
    nlinarith
  · simp only [List.map_cons, List.map_nil, List.sum_cons, List.sum_nil, m2, wellDisc]
    simp only [drawnCircle]
    nlinarith
  · simpa using m3

theorem wellDisc_inverted (x y : ℝ) (g : R2) :
    Circle.ft besselJ1 ⟨-x, -y, 0.2⟩ g = Circle.ft besselJ1 ⟨x, y, 0.2⟩ (-g.1, -g.2) := by
  unfold Circle.ft
  simp only [neg_sq, Complex.ofReal_neg]
  congr 5
  ring_nf

/-- With discs at any place and any potential: opposite wave vectors, discs inverted and displaced, and more plane waves. -/
example (argsort : List ℝ → List ℕ) (hs : ∀ l, IsArgsort l (argsort l))
    (eigh : ∀ n, Matrix (Fin n) (Fin n) ℂ → Fin n → ℝ) (he : GoodEigh eigh) (x y V : ℝ) (ks : List R2) :
    ∃ rs r1 r2 r3 r4, excSim argsort eigh (wellDisc x y V) .abs 2 ks 5 = .ok rs ∧
      excSim argsort eigh (wellDisc x y V) .abs 2 (ks.map fun k => (-k.1, -k.2)) 5 = .ok r1 ∧
      excSim argsort eigh (wellDisc (-x) (-y) V) .abs 2 ks 5 = .ok r2 ∧
      excSim argsort eigh (wellDisc (x + 0.1) (y + 0.2) V) .abs 2 ks 5 = .ok r3 ∧
      excSim argsort eigh (wellDisc x y V) .abs
        (2 + (absWindow (2 * π, 0) (0, 2 * π) 2).length * 1e-10) ks 5 = .ok r4 ∧ rs.length = ks.length ∧
      r1.map Prod.snd = rs.map Prod.snd ∧ r2.map Prod.snd = rs.map Prod.snd ∧ r3.map Prod.snd = rs.map Prod.snd ∧
      List.Forall₂ (fun r' r => r.2.length ≤ r'.2.length ∧
        ∀ (i : ℕ) (h' : i < r'.2.length) (h : i < r.2.length), r'.2[i].re ≤ r.2[i].re) r4 rs := by
  have hr := wellDrawn_real (wellDisc_drawn x y V)
  obtain ⟨rs, rs', h1, h2, h3, h4⟩ := C109_reversal argsort hs eigh he (wellDisc x y V) resolved_square hr .abs 2
    (by norm_num) ks 5
  obtain ⟨rs1, r2, i1, i2, i3, i4⟩ := C109_inversion argsort hs eigh he (wellDisc x y V) resolved_square hr
    (wellDisc (-x) (-y) V).shapes (.cons (wellDisc_inverted x y) .nil) .abs 2 (by norm_num) ks 5
  obtain ⟨rs2, r3, j1, j2, j3, j4⟩ := C109_displacement argsort hs eigh he (wellDisc x y V) resolved_square hr
    (0.1, 0.2) (wellDisc (x + 0.1) (y + 0.2) V).shapes (wellDrawn_real (wellDisc_drawn (x + 0.1) (y + 0.2) V))
    (.cons ⟨by simp [Circle.ft], fun g _ => C16_circle_translate besselJ1 ⟨x, y, 0.2⟩ (0.1, 0.2) g⟩ .nil) .abs 2
    (by norm_num) ks 5
  obtain ⟨rs3, r4, l1, l2, l3, l4⟩ := C109_truncation argsort hs eigh he (wellDisc x y V) resolved_square hr .abs 2
    (2 + (absWindow (2 * π, 0) (0, 2 * π) 2).length * 1e-10) (by norm_num) le_rfl ks 5
  have e1 : rs1 = rs := Except.ok.inj (i1.symm.trans h1)
  have e2 : rs2 = rs := Except.ok.inj (j1.symm.trans h1)
  have e3 : rs3 = rs := Except.ok.inj (l1.symm.trans h1)
  rw [e1] at i4
  rw [e2] at j4
  rw [e3] at l4
  exact ⟨_, _, _, _, _, h1, h2, i2, j2, l2, h3, h4, i4, j4, l4⟩

theorem wellDisc_err (x y V : ℝ) : wellErr (wellDisc x y V) [drawnCircle 1 ⟨x, y, 0.2⟩] ≤ |V| * 1e-11 := by
  have hpi4 := Real.pi_lt_four
  simp only [wellErr, wellDisc, List.map_cons, List.map_nil, List.sum_cons, List.sum_nil, add_zero, div_one, drawnCircle]
  refine mul_le_mul_of_nonneg_left ?_ (abs_nonneg _)
  nlinarith

/-- The coefficients of wells of depth 5 meV are those of the potential drawn up to 1e-13. -/
example (x y : ℝ) (t : TruncG) (v : R2 → ℝ)
    (hv : IsPermittivity (1, 0) (0, 1) 0.005 [(0, (drawnCircle 1 ⟨x, y, 0.2⟩).region)] v) :
    ∃ P, (wellDisc x y (-0.005)).pot t 2 = .ok P ∧ ∀ i j : Fin ((wellDisc x y (-0.005)).gvec t 2).length,
      ‖P i j - epsCoeff (1, 0) (0, 1) v ((match t with | .abs => (1 : ℝ) | .tbt => -1) •
        (((wellDisc x y (-0.005)).gvec t 2)[j] - ((wellDisc x y (-0.005)).gvec t 2)[i]))‖ ≤ 1e-13 := by
  have h1 : max 0 (-(-0.005 : ℝ)) = 0.005 := by norm_num
  have h2 : max 0 (-0.005 : ℝ) = 0 := by norm_num
  obtain ⟨P, hP, h⟩ := C109_potential (1, 0) (0, 1) _ _ (wellDisc_drawn x y (-0.005)) v (by
    simp only [wellDisc, h1, h2, List.map_cons, List.map_nil]
    exact hv) t 2 (by norm_num)
  refine ⟨P, hP, fun i j => (h i j).trans ((wellDisc_err x y (-0.005)).trans ?_)⟩
  rw [show |(-0.005 : ℝ)| = 0.005 by norm_num]
  norm_num

/-- Wells of depth 5 meV: the lowest five energies lie in the bands named. Barriers of 7 meV give no lower energies than
barriers of 5 meV. -/
example (argsort : List ℝ → List ℕ) (hs : ∀ l, IsArgsort l (argsort l))
    (eigh : ∀ n, Matrix (Fin n) (Fin n) ℂ → Fin n → ℝ) (he : GoodEigh eigh) (x y : ℝ) (ks : List R2) (t : TruncG) :
    (∃ rs, excSim argsort eigh (wellDisc x y (-0.005)) t 2 ks 5 = .ok rs ∧ List.Forall₂ (fun k r =>
      ∃ c : List ℝ, c.Pairwise (· ≤ ·) ∧ c.Perm (((wellDisc x y (-0.005)).gvec t 2).map fun g =>
          (2 : ℝ) ^ 2 * ((k.1 + g.1) ^ 2 + (k.2 + g.2) ^ 2) / (2 * 1 * 1e-7 ^ 2 * 3)) ∧
        r.2.length = min 5 c.length ∧ ∀ (i : ℕ) (h : i < r.2.length) (h' : i < c.length),
          1.5 + c[i] - ((wellDisc x y (-0.005)).gvec t 2).length * 1e-13 ≤ r.2[i].re ∧
          r.2[i].re ≤ 1.5 + c[i] + 0.005 + ((wellDisc x y (-0.005)).gvec t 2).length * 1e-13 ∧ r.2[i].im = -0.1) ks rs) ∧
    (∃ rs rs', excSim argsort eigh (wellDisc x y 0.005) t 2 ks 5 = .ok rs ∧
      excSim argsort eigh (wellDisc x y 0.007) t 2 ks 5 = .ok rs' ∧ rs.length = ks.length ∧
      List.Forall₂ (fun r r' => r.2.length = r'.2.length ∧ ∀ (i : ℕ) (h : i < r.2.length) (h' : i < r'.2.length),
        r.2[i].re ≤ r'.2[i].re + (((wellDisc x y 0.005).gvec t 2).length : ℝ) * 1e-13) rs rs') := by
  have hpi := Real.pi_pos
  have hpi4 := Real.pi_lt_four
  constructor
  · obtain ⟨rs, h1, h2⟩ := C109_between argsort hs eigh he (1, 0) (0, 1) _ _ (wellDisc_drawn x y (-0.005)) t 2 (by norm_num) _
      rfl ks 5
    refine ⟨rs, h1, h2.imp ?_⟩
    rintro k r ⟨c, c1, c2, c3, c4⟩
    refine ⟨c, c1, c2, c3, fun i h h' => ?_⟩
    obtain ⟨d1, d2, d3⟩ := c4 i h h'
    have he1 := wellDisc_err x y (-0.005)
    have he2 : |(-0.005 : ℝ)| = 0.005 := by norm_num
    have he3 : (((wellDisc x y (-0.005)).gvec t 2).length : ℝ) * wellErr (wellDisc x y (-0.005)) [drawnCircle 1 ⟨x, y, 0.2⟩]
        ≤ ((wellDisc x y (-0.005)).gvec t 2).length * 1e-13 :=
      mul_le_mul_of_nonneg_left (he1.trans (by rw [he2]; norm_num)) (Nat.cast_nonneg _)
    have hE : (wellDisc x y (-0.005)).E0 = 1.5 := rfl
    have hV : |(wellDisc x y (-0.005)).V| = 0.005 := he2
    rw [hE] at d1 d2
    rw [hV] at d2
    exact ⟨by linarith, by linarith, d3⟩
  · obtain ⟨rs, rs', h1, h2, h3, h4⟩ := C109_raise argsort hs eigh he (1, 0) (0, 1) _ _ (wellDisc_drawn x y 0.005) 0.007
      (Or.inl ⟨by norm_num [wellDisc], by norm_num [wellDisc]⟩) t 2 (by norm_num) _ rfl ks 5
    refine ⟨rs, rs', h1, h2, h3, h4.imp ?_⟩
    rintro r r' ⟨l1, l2⟩
    refine ⟨l1, fun i h h' => (l2 i h h').1.trans ?_⟩
    refine add_le_add_right (mul_le_mul_of_nonneg_left ?_ (Nat.cast_nonneg _)) _
    simp only [wellDisc, List.map_cons, List.map_nil, List.sum_cons, List.sum_nil, add_zero, div_one, drawnCircle]
    rw [show |(0.007 : ℝ) - 0.005| = 0.002 by norm_num]
    nlinarith

end Legume
