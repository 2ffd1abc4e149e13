import Verif.Model.ExcWave
import Verif.Props.ExcBands
import Verif.Props.Constitutive

/-!
# C110: wave functions and potentials of excitons in real space

`exc.py` 219-294, 306-475, `utils.py` 13-51.
-/
namespace Legume
open Spec MeasureTheory Matrix
open scoped Real ComplexConjugate ComplexOrder

/-- Eigenvalues and eigenvectors as `eigh` returns them. -/
def EighPair (eigh : ∀ n, Matrix (Fin n) (Fin n) ℂ → Fin n → ℝ)
    (vecs : ∀ n, Matrix (Fin n) (Fin n) ℂ → Matrix (Fin n) (Fin n) ℂ) : Prop :=
  ∀ (n : ℕ) (A : Matrix (Fin n) (Fin n) ℂ), A.IsHermitian → IsEigh A (eigh n A) (vecs n A)

theorem eighPair_exists : ∃ eigh vecs, EighPair eigh vecs := by
  classical
  obtain ⟨eigh, he⟩ := goodEigh_exists
  have he' : ∀ (n : ℕ) (A : Matrix (Fin n) (Fin n) ℂ), A.IsHermitian → ∃ V, IsEigh A (eigh n A) V := he
  refine ⟨eigh, fun n A => if h : A.IsHermitian then (he' n A h).choose else 1, fun n A h => ?_⟩
  simp only [dif_pos h]
  exact (he' n A h).choose_spec

theorem epsCoeff_one (a1 a2 b1 b2 : R2) (hd : Dual a1 a2 b1 b2) (n : ℤ × ℤ) :
    epsCoeff a1 a2 (fun _ => 1) (latVec b1 b2 n) = if n = 0 then 1 else 0 := by
  have := epsCoeff_eq a1 a2 b1 b2 hd (dual_det _ _ _ _ hd) 1 [] ⟨by simp, by simp⟩ (by simp) (fun _ => 1)
    ⟨by simp, fun _ _ => rfl⟩ n
  rw [this]
  simp

/-- The component of a sum of plane waves. -/
theorem component_sum (a1 a2 b1 b2 : R2) (hd : Dual a1 a2 b1 b2) {n : ℕ} (m : Fin n → ℤ × ℤ) (c : Fin n → ℂ) (k : ℤ × ℤ) :
    component a1 a2 (latVec b1 b2 k) (fun x y => ∑ j, c j * wave (latVec b1 b2 (m j)) x y) =
      ∑ j, if m j = k then c j else 0 := by
  have := component_mul a1 a2 b1 b2 (dual_det _ _ _ _ hd) (fun _ => 1) measurable_const 1 (by simp) m c k
  simp only [Complex.ofReal_one, one_mul] at this
  rw [this]
  refine Finset.sum_congr rfl fun j _ => ?_
  rw [epsCoeff_one _ _ _ _ hd]
  by_cases h : m j = k
  · rw [if_pos h, if_pos (by rw [h, sub_self]), one_mul]
  · rw [if_neg h, if_neg fun e => h (sub_eq_zero.1 e).symm, zero_mul]

theorem excWell_gvec_inj {a1 a2 : R2} (W : ExcWell) (hd : Dual a1 a2 W.b1 W.b2) (t : TruncG) (gmax : ℝ) :
    Function.Injective fun j : Fin (W.gvec t gmax).length => (W.gvec t gmax)[j] := by
  intro i j h
  simp only [excWell_gvec] at h
  exact excWell_inds_inj W t gmax (latVec_inj_of_dual hd _ _ h)

/-- What a run keeps. -/
theorem excWaveFt_ok (argsort : List ℝ → List ℕ) (eigh : ∀ n, Matrix (Fin n) (Fin n) ℂ → Fin n → ℝ)
    (vecs : ∀ n, Matrix (Fin n) (Fin n) ℂ → Matrix (Fin n) (Fin n) ℂ) (W : ExcWell) (hb : Resolved W.b1 W.b2)
    (hr : ∀ s ∈ W.shapes, RealFt s) (t : TruncG) (gmax : ℝ) (hg : 0 ≤ gmax) (k : R2) (numeig mind s : ℕ)
    (hs : (excRes argsort eigh W t gmax numeig k).1[mind]? = some s) (hlt : s < (W.gvec t gmax).length) :
    excWaveFt argsort eigh vecs W t gmax k numeig mind =
      .ok fun j => vecs _ (W.ham t gmax k + 1) j ⟨s, hlt⟩ := by
  obtain ⟨P, hP, hent⟩ := excWell_pot W hb hr t gmax hg
  unfold excWaveFt
  rw [hP]
  have hm : (of fun i j : Fin (W.gvec t gmax).length => P i j) =
      of fun i j => W.ft (latVec W.b1 W.b2 (W.idx t gmax j - W.idx t gmax i)) := by
    ext i j
    rw [of_apply, of_apply, hent]
  simp only [hm]
  have hH := excWell_ham_hermitian W hr t gmax k
  have hno : ¬ ∃ i j, 1e-10 < ‖W.ham t gmax k i j - conj (W.ham t gmax k j i)‖ := by
    rintro ⟨i, j, h⟩
    have : conj (W.ham t gmax k j i) = W.ham t gmax k i j := hH.apply i j
    rw [this, sub_self, norm_zero] at h
    norm_num at h
  have hrun : excRun argsort (eigh (W.gvec t gmax).length) (W.ham t gmax k) W.E0 W.loss numeig =
      .ok ((excRes argsort eigh W t gmax numeig k).1, (excRes argsort eigh W t gmax numeig k).2.map fun (x : ℝ) =>
        ((x : ℂ) + W.E0 + Complex.I * W.loss)) := by
    unfold excRun
    rw [if_neg hno]
    rfl
  unfold ExcWell.ham at hrun ⊢
  rw [hrun]
  simp only [hs, dif_pos hlt]

/-- Positions and energies kept. -/
theorem excRes_spec (argsort : List ℝ → List ℕ) (hs : ∀ l, IsArgsort l (argsort l))
    (eigh : ∀ n, Matrix (Fin n) (Fin n) ℂ → Fin n → ℝ) (W : ExcWell) (t : TruncG) (gmax : ℝ) (numeig : ℕ) (k : R2)
    (mind : ℕ) (hm : mind < (excRes argsort eigh W t gmax numeig k).2.length) :
    ∃ (s : ℕ) (h : s < (W.gvec t gmax).length), (excRes argsort eigh W t gmax numeig k).1[mind]? = some s ∧
      (excRes argsort eigh W t gmax numeig k).2[mind] = eigh _ (W.ham t gmax k + 1) ⟨s, h⟩ - 1 := by
  set ws := (List.ofFn (eigh _ (W.ham t gmax k + 1))).map (· - 1) with hws
  obtain ⟨h1, -⟩ := hs ws
  have hl : (excRes argsort eigh W t gmax numeig k).1.length = (excRes argsort eigh W t gmax numeig k).2.length := by
    simp [excRes, excSelect]
  have hm1 : mind < (excRes argsort eigh W t gmax numeig k).1.length := by rw [hl]; exact hm
  have hmem : (excRes argsort eigh W t gmax numeig k).1[mind] ∈ argsort ws :=
    List.mem_of_mem_take (List.getElem_mem hm1)
  have hlt : (excRes argsort eigh W t gmax numeig k).1[mind] < (W.gvec t gmax).length := by
    have := List.mem_range.1 (h1.mem_iff.1 hmem)
    simpa [hws] using this
  refine ⟨_, hlt, List.getElem?_eq_getElem hm1, ?_⟩
  have e : (excRes argsort eigh W t gmax numeig k).2[mind] = ws.getD ((excRes argsort eigh W t gmax numeig k).1[mind]) 0 := by
    simp only [excRes, excSelect, List.getElem_map, hws]
  rw [e, List.getD_eq_getElem?_getD, hws, List.getElem?_map, List.getElem?_eq_getElem (by simpa using hlt)]
  simp

theorem excRes_nodup (argsort : List ℝ → List ℕ) (hs : ∀ l, IsArgsort l (argsort l))
    (eigh : ∀ n, Matrix (Fin n) (Fin n) ℂ → Fin n → ℝ) (W : ExcWell) (t : TruncG) (gmax : ℝ) (numeig : ℕ) (k : R2) :
    (excRes argsort eigh W t gmax numeig k).1.Nodup := by
  obtain ⟨h1, -⟩ := hs ((List.ofFn (eigh _ (W.ham t gmax k + 1))).map (· - 1))
  exact (h1.symm.nodup List.nodup_range).sublist (List.take_sublist _ _)

theorem isEigh_col {n : ℕ} {A U : Matrix (Fin n) (Fin n) ℂ} {w : Fin n → ℝ} (h : IsEigh (A + 1) w U) (i s : Fin n) :
    ∑ j, A i j * U j s = ((w s - 1 : ℝ) : ℂ) * U i s := by
  have := congrFun (congrFun h.eigen i) s
  rw [Matrix.add_mul, Matrix.one_mul, Matrix.add_apply, mul_diagonal, Matrix.mul_apply] at this
  push_cast
  linear_combination this

/-- The components of a wave function. -/
theorem excWave_component {a1 a2 : R2} (W : ExcWell) (hd : Dual a1 a2 W.b1 W.b2) (t : TruncG) (gmax : ℝ)
    (c : Fin (W.gvec t gmax).length → ℂ) (i : Fin (W.gvec t gmax).length) :
    component a1 a2 (W.gvec t gmax)[i] (fun x y => ftinvAt (List.ofFn fun j => (c j, (W.gvec t gmax)[j])) x y) = c i := by
  simp only [ftinvAt_ofFn c _ (excWell_gvec_inj W hd t gmax)]
  simp only [excWell_gvec]
  rw [component_sum a1 a2 W.b1 W.b2 hd (fun j => (W.inds t gmax).getD j 0) c]
  rw [Finset.sum_eq_single i]
  · simp
  · intro j _ hj
    rw [if_neg fun e => hj (excWell_inds_inj W t gmax e)]
  · simp

theorem excWave_potential {a1 a2 : R2} (W : ExcWell) (hd : Dual a1 a2 W.b1 W.b2) (t : TruncG) (gmax : ℝ)
    (u : R2 → ℝ) (hu : Measurable u) (C : ℝ) (hC : ∀ p, |u p| ≤ C)
    (c : Fin (W.gvec t gmax).length → ℂ) (i : Fin (W.gvec t gmax).length) :
    component a1 a2 (W.gvec t gmax)[i]
      (fun x y => (u (x, y) : ℂ) * ftinvAt (List.ofFn fun j => (c j, (W.gvec t gmax)[j])) x y) =
      ∑ j : Fin (W.gvec t gmax).length, epsCoeff a1 a2 u (latVec W.b1 W.b2
        ((W.inds t gmax).getD i 0 - (W.inds t gmax).getD j 0)) * c j := by
  simp only [ftinvAt_ofFn c _ (excWell_gvec_inj W hd t gmax)]
  simp only [excWell_gvec]
  exact component_mul a1 a2 W.b1 W.b2 (dual_det _ _ _ _ hd) u hu C hC (fun j => (W.inds t gmax).getD j 0) c _

/-- The residual of the Schroedinger equation along one plane wave. -/
noncomputable def residual (a1 a2 : R2) (W : ExcWell) (u : R2 → ℝ) (k : R2) (E : ℂ) (ψ : ℝ → ℝ → ℂ) (g : R2) : ℂ :=
  ((W.hbar ^ 2 * ((k.1 + g.1) ^ 2 + (k.2 + g.2) ^ 2) / (2 * W.M * W.a ^ 2 * W.e) : ℝ) : ℂ) * component a1 a2 g ψ +
    component a1 a2 g (fun x y => (u (x, y) : ℂ) * ψ x y) - (E - W.E0 - Complex.I * W.loss) * component a1 a2 g ψ

theorem excWave_residual {a1 a2 : R2} (W : ExcWell) (hd : Dual a1 a2 W.b1 W.b2) (t : TruncG) (gmax : ℝ)
    (u : R2 → ℝ) (hu : Measurable u) (C : ℝ) (hC : ∀ p, |u p| ≤ C) (k : R2)
    (U : Matrix (Fin (W.gvec t gmax).length) (Fin (W.gvec t gmax).length) ℂ) (w : Fin (W.gvec t gmax).length → ℝ)
    (hU : IsEigh (W.ham t gmax k + 1) w U) (s i : Fin (W.gvec t gmax).length) :
    residual a1 a2 W u k (((w s - 1 : ℝ) : ℂ) + W.E0 + Complex.I * W.loss)
      (fun x y => ftinvAt (List.ofFn fun j => (U j s, (W.gvec t gmax)[j])) x y) (W.gvec t gmax)[i] =
      ∑ j : Fin (W.gvec t gmax).length, (epsCoeff a1 a2 u (latVec W.b1 W.b2 ((W.inds t gmax).getD i 0 - (W.inds t gmax).getD j 0)) -
        W.ft (latVec W.b1 W.b2 (W.idx t gmax j - W.idx t gmax i))) * U j s := by
  have h := isEigh_col hU i s
  have e : ∑ j, W.ham t gmax k i j * U j s =
      ((excKin W.hbar W.e W.a W.M k (W.gvec t gmax)[i] : ℝ) : ℂ) * U i s +
        ∑ j, W.ft (latVec W.b1 W.b2 (W.idx t gmax j - W.idx t gmax i)) * U j s := by
    simp only [excWell_ham_apply, add_mul, Finset.sum_add_distrib, ite_mul, zero_mul]
    rw [excWell_gvec]
    congr 1
    rw [Finset.sum_ite_eq, if_pos (Finset.mem_univ i)]
  rw [residual, excWave_component W hd, excWave_potential W hd t gmax u hu C hC]
  simp only [sub_mul, Finset.sum_sub_distrib]
  rw [e, excKin_eq] at h
  linear_combination h

theorem wellDrawn_measurable {a1 a2 : R2} {W : ExcWell} {sh : List Drawn} (hD : WellDrawn a1 a2 W sh) (v : R2 → ℝ)
    (hv : IsPermittivity a1 a2 (max 0 (-W.V)) (sh.map fun s => (max 0 W.V, s.region)) v) : Measurable v :=
  permittivity_measurable a1 a2 _ _ (by rw [List.map_map]; exact hD.apart) (by
    intro s hs
    obtain ⟨d, hd, rfl⟩ := List.mem_map.1 hs
    exact hD.measurable d hd) v hv

theorem excWave_schroed (argsort : List ℝ → List ℕ) (hs : ∀ l, IsArgsort l (argsort l))
    (eigh : ∀ n, Matrix (Fin n) (Fin n) ℂ → Fin n → ℝ)
    (vecs : ∀ n, Matrix (Fin n) (Fin n) ℂ → Matrix (Fin n) (Fin n) ℂ) (he : EighPair eigh vecs) (a1 a2 : R2) (W : ExcWell)
    (sh : List Drawn) (hD : WellDrawn a1 a2 W sh) (v : R2 → ℝ)
    (hv : IsPermittivity a1 a2 (max 0 (-W.V)) (sh.map fun s => (max 0 W.V, s.region)) v) (t : TruncG) (gmax : ℝ)
    (hg : 0 ≤ gmax) (u : R2 → ℝ) (hu : Measurable u) (C : ℝ) (hC : ∀ p, |u p| ≤ C)
    (huv : ∀ i j : Fin (W.gvec t gmax).length,
      epsCoeff a1 a2 u (latVec W.b1 W.b2 ((W.inds t gmax).getD i 0 - (W.inds t gmax).getD j 0)) =
        epsCoeff a1 a2 v (latVec W.b1 W.b2 (W.idx t gmax j - W.idx t gmax i))) (ks : List R2) (numeig : ℕ) :
    ∃ rs, excSim argsort eigh W t gmax ks numeig = .ok rs ∧ List.Forall₂ (fun k r =>
      ∀ (mind : ℕ) (h : mind < r.2.length), ∃ c ψ, excWaveFt argsort eigh vecs W t gmax k numeig mind = .ok c ∧
        (∀ x y, excWave argsort eigh vecs W t gmax k numeig mind x y = .ok (ψ x y)) ∧
        (∀ i : Fin (W.gvec t gmax).length, component a1 a2 (W.gvec t gmax)[i] ψ = c i) ∧
        ∀ i : Fin (W.gvec t gmax).length, ‖residual a1 a2 W u k r.2[mind] ψ (W.gvec t gmax)[i]‖ ≤
          wellErr W sh * ∑ j, ‖c j‖) ks rs := by
  have hr := wellDrawn_real hD
  refine ⟨_, excSim_ok argsort eigh W hD.resolved hr t gmax hg ks numeig, ?_⟩
  rw [List.forall₂_map_right_iff]
  refine List.forall₂_same.2 fun k _ mind h => ?_
  simp only [List.length_map] at h
  obtain ⟨s, hlt, h1, h2⟩ := excRes_spec argsort hs eigh W t gmax numeig k mind h
  have hft := excWaveFt_ok argsort eigh vecs W hD.resolved hr t gmax hg k numeig mind s h1 hlt
  refine ⟨_, fun x y => ftinvAt (List.ofFn fun j => (vecs _ (W.ham t gmax k + 1) j ⟨s, hlt⟩, (W.gvec t gmax)[j])) x y,
    hft, ?_, ?_, ?_⟩
  · intro x y
    unfold excWave
    rw [hft]
  · exact fun i => excWave_component W hD.dual t gmax _ i
  · intro i
    have hU := he _ _ ((excWell_ham_hermitian W hr t gmax k).add isHermitian_one)
    simp only [List.getElem_map, h2]
    rw [excWave_residual W hD.dual t gmax u hu C hC k _ _ hU ⟨s, hlt⟩ i]
    rw [Finset.mul_sum]
    refine (norm_sum_le _ _).trans (Finset.sum_le_sum fun j _ => ?_)
    rw [norm_mul, huv, norm_sub_rev]
    exact mul_le_mul_of_nonneg_right (wellDrawn_close hD v hv _) (norm_nonneg _)

/-- **C110 (truncation by rows).** With `truncate_g='tbt'`, the wave functions which `get_wavef_xy` returns satisfy the
Schroedinger equation with the potential drawn: along every plane wave of the expansion, kinetic energy plus potential times
wave function is the energy times the wave function, up to the errors of the transforms. -/
theorem C110_tbt (argsort : List ℝ → List ℕ) (hs : ∀ l, IsArgsort l (argsort l))
    (eigh : ∀ n, Matrix (Fin n) (Fin n) ℂ → Fin n → ℝ)
    (vecs : ∀ n, Matrix (Fin n) (Fin n) ℂ → Matrix (Fin n) (Fin n) ℂ) (he : EighPair eigh vecs) (a1 a2 : R2) (W : ExcWell)
    (sh : List Drawn) (hD : WellDrawn a1 a2 W sh) (v : R2 → ℝ)
    (hv : IsPermittivity a1 a2 (max 0 (-W.V)) (sh.map fun s => (max 0 W.V, s.region)) v) (gmax : ℝ)
    (hg : 0 ≤ gmax) (ks : List R2) (numeig : ℕ) :
    ∃ rs, excSim argsort eigh W .tbt gmax ks numeig = .ok rs ∧ List.Forall₂ (fun k r =>
      ∀ (mind : ℕ) (h : mind < r.2.length), ∃ c ψ, excWaveFt argsort eigh vecs W .tbt gmax k numeig mind = .ok c ∧
        (∀ x y, excWave argsort eigh vecs W .tbt gmax k numeig mind x y = .ok (ψ x y)) ∧
        (∀ i : Fin (W.gvec .tbt gmax).length, component a1 a2 (W.gvec .tbt gmax)[i] ψ = c i) ∧
        ∀ i : Fin (W.gvec .tbt gmax).length, ‖residual a1 a2 W v k r.2[mind] ψ (W.gvec .tbt gmax)[i]‖ ≤
          wellErr W sh * ∑ j, ‖c j‖) ks rs := by
  obtain ⟨C, hC⟩ := permittivity_bounded _ _ _ _ v hv
  refine excWave_schroed argsort hs eigh vecs he a1 a2 W sh hD v hv .tbt gmax hg v (wellDrawn_measurable hD v hv) C hC
    (fun i j => ?_) ks numeig
  congr 2
  simp only [ExcWell.idx, TruncG.sgn, neg_smul, one_smul]
  abel

/-- **C110 (default truncation).** With `truncate_g='abs'`, the wave functions are those of the potential inverted in the
origin. -/
theorem C110_abs (argsort : List ℝ → List ℕ) (hs : ∀ l, IsArgsort l (argsort l))
    (eigh : ∀ n, Matrix (Fin n) (Fin n) ℂ → Fin n → ℝ)
    (vecs : ∀ n, Matrix (Fin n) (Fin n) ℂ → Matrix (Fin n) (Fin n) ℂ) (he : EighPair eigh vecs) (a1 a2 : R2) (W : ExcWell)
    (sh : List Drawn) (hD : WellDrawn a1 a2 W sh) (v : R2 → ℝ)
    (hv : IsPermittivity a1 a2 (max 0 (-W.V)) (sh.map fun s => (max 0 W.V, s.region)) v) (gmax : ℝ)
    (hg : 0 ≤ gmax) (ks : List R2) (numeig : ℕ) :
    ∃ rs, excSim argsort eigh W .abs gmax ks numeig = .ok rs ∧ List.Forall₂ (fun k r =>
      ∀ (mind : ℕ) (h : mind < r.2.length), ∃ c ψ, excWaveFt argsort eigh vecs W .abs gmax k numeig mind = .ok c ∧
        (∀ x y, excWave argsort eigh vecs W .abs gmax k numeig mind x y = .ok (ψ x y)) ∧
        (∀ i : Fin (W.gvec .abs gmax).length, component a1 a2 (W.gvec .abs gmax)[i] ψ = c i) ∧
        ∀ i : Fin (W.gvec .abs gmax).length, ‖residual a1 a2 W (inverted v) k r.2[mind] ψ (W.gvec .abs gmax)[i]‖ ≤
          wellErr W sh * ∑ j, ‖c j‖) ks rs := by
  obtain ⟨C, hC⟩ := permittivity_bounded _ _ _ _ v hv
  refine excWave_schroed argsort hs eigh vecs he a1 a2 W sh hD v hv .abs gmax hg (inverted v)
    ((wellDrawn_measurable hD v hv).comp measurable_neg) C (fun p => hC _) (fun i j => ?_) ks numeig
  rw [epsCoeff_inverted a1 a2 W.b1 W.b2 hD.dual v (permittivity_periodic a1 a2 _ _ v hv), neg_sub]
  simp only [ExcWell.idx, TruncG.sgn, one_smul]

/-- **C110 (what remains true with the default truncation).** If the pattern is symmetric under inversion in the origin, the
wave functions are those of the potential drawn. -/
theorem C110_abs_partial (argsort : List ℝ → List ℕ) (hs : ∀ l, IsArgsort l (argsort l))
    (eigh : ∀ n, Matrix (Fin n) (Fin n) ℂ → Fin n → ℝ)
    (vecs : ∀ n, Matrix (Fin n) (Fin n) ℂ → Matrix (Fin n) (Fin n) ℂ) (he : EighPair eigh vecs) (a1 a2 : R2) (W : ExcWell)
    (sh : List Drawn) (hD : WellDrawn a1 a2 W sh) (v : R2 → ℝ)
    (hv : IsPermittivity a1 a2 (max 0 (-W.V)) (sh.map fun s => (max 0 W.V, s.region)) v) (hsym : ∀ p, v (-p) = v p)
    (gmax : ℝ) (hg : 0 ≤ gmax) (ks : List R2) (numeig : ℕ) :
    ∃ rs, excSim argsort eigh W .abs gmax ks numeig = .ok rs ∧ List.Forall₂ (fun k r =>
      ∀ (mind : ℕ) (h : mind < r.2.length), ∃ c ψ, excWaveFt argsort eigh vecs W .abs gmax k numeig mind = .ok c ∧
        (∀ x y, excWave argsort eigh vecs W .abs gmax k numeig mind x y = .ok (ψ x y)) ∧
        (∀ i : Fin (W.gvec .abs gmax).length, component a1 a2 (W.gvec .abs gmax)[i] ψ = c i) ∧
        ∀ i : Fin (W.gvec .abs gmax).length, ‖residual a1 a2 W v k r.2[mind] ψ (W.gvec .abs gmax)[i]‖ ≤
          wellErr W sh * ∑ j, ‖c j‖) ks rs := by
  have h := C110_abs argsort hs eigh vecs he a1 a2 W sh hD v hv gmax hg ks numeig
  have e : inverted v = v := funext hsym
  rwa [e] at h

/-- **C110 (normalisation).** The wave functions of the energies returned at one wave vector are orthonormal over the cell. -/
theorem C110_orthonormal (argsort : List ℝ → List ℕ) (hs : ∀ l, IsArgsort l (argsort l))
    (eigh : ∀ n, Matrix (Fin n) (Fin n) ℂ → Fin n → ℝ)
    (vecs : ∀ n, Matrix (Fin n) (Fin n) ℂ → Matrix (Fin n) (Fin n) ℂ) (he : EighPair eigh vecs) (a1 a2 : R2) (W : ExcWell)
    (hd : Dual a1 a2 W.b1 W.b2) (hb : Resolved W.b1 W.b2) (hr : ∀ s ∈ W.shapes, RealFt s) (t : TruncG) (gmax : ℝ)
    (hg : 0 ≤ gmax) (ks : List R2) (numeig : ℕ) :
    ∃ rs, excSim argsort eigh W t gmax ks numeig = .ok rs ∧ List.Forall₂ (fun k r =>
      ∃ ψ : ℕ → ℝ → ℝ → ℂ, (∀ mind < r.2.length, ∀ x y,
        excWave argsort eigh vecs W t gmax k numeig mind x y = .ok (ψ mind x y)) ∧
        ∀ m < r.2.length, ∀ n < r.2.length, cellMean a1 a2 (fun x y => conj (ψ m x y) * ψ n x y) =
          if m = n then 1 else 0) ks rs := by
  refine ⟨_, excSim_ok argsort eigh W hb hr t gmax hg ks numeig, ?_⟩
  rw [List.forall₂_map_right_iff]
  refine List.forall₂_same.2 fun k _ => ?_
  simp only [List.length_map]
  have hspec := excRes_spec argsort hs eigh W t gmax numeig k
  choose s hlt h1 h2 using hspec
  have hU := he _ _ ((excWell_ham_hermitian W hr t gmax k).add isHermitian_one)
  refine ⟨fun m x y => if h : m < (excRes argsort eigh W t gmax numeig k).2.length then
    ftinvAt (List.ofFn fun j => (vecs _ (W.ham t gmax k + 1) j ⟨s m h, hlt m h⟩, (W.gvec t gmax)[j])) x y else 0, ?_, ?_⟩
  · intro m hm x y
    unfold excWave
    rw [excWaveFt_ok argsort eigh vecs W hb hr t gmax hg k numeig m _ (h1 m hm) (hlt m hm)]
    simp only [dif_pos hm]
  · intro m hm n hn
    simp only [dif_pos hm, dif_pos hn, ftinvAt_ofFn _ _ (excWell_gvec_inj W hd t gmax)]
    simp only [excWell_gvec]
    rw [cellMean_parseval Finset.univ a1 a2 W.b1 W.b2 hd (fun j : Fin (W.gvec t gmax).length => (W.inds t gmax).getD j 0)
      (fun i _ j _ e => excWell_inds_inj W t gmax e)]
    have e : ∑ i, conj (vecs _ (W.ham t gmax k + 1) i ⟨s m hm, hlt m hm⟩) * vecs _ (W.ham t gmax k + 1) i ⟨s n hn, hlt n hn⟩ =
        (1 : Matrix (Fin (W.gvec t gmax).length) (Fin (W.gvec t gmax).length) ℂ) ⟨s m hm, hlt m hm⟩ ⟨s n hn, hlt n hn⟩ := by
      have := congrFun (congrFun hU.unitary ⟨s m hm, hlt m hm⟩) ⟨s n hn, hlt n hn⟩
      rw [← this, Matrix.mul_apply]
      rfl
    rw [e, Matrix.one_apply]
    by_cases hmn : m = n
    · subst hmn
      rw [if_pos rfl, if_pos rfl]
    · rw [if_neg hmn, if_neg]
      intro e
      have e' : s m hm = s n hn := congrArg Fin.val e
      obtain ⟨i1, g1⟩ := List.getElem?_eq_some_iff.1 (h1 m hm)
      obtain ⟨i2, g2⟩ := List.getElem?_eq_some_iff.1 (h1 n hn)
      exact hmn ((excRes_nodup argsort hs eigh W t gmax numeig k).getElem_inj_iff.1 (by rw [g1, g2, e']))

/-- **C110 (plot of the potential).** With `truncate_g='tbt'`, `get_pot_xy` raises an IndexError for every well and every
grid. -/
theorem C110_potential_tbt (W : ExcWell) (hb : Resolved W.b1 W.b2) (hr : ∀ s ∈ W.shapes, RealFt s) (gmax : ℝ)
    (hg : 0 ≤ gmax) (xs ys : List ℝ) : excPotXY W .tbt gmax xs ys = .error .indexError := by
  obtain ⟨P, hP, -⟩ := excWell_pot W hb hr .tbt gmax hg
  unfold excPotXY
  rw [hP]

/-- **C110 (plot of the potential).** With `truncate_g='abs'`, `get_pot_xy` returns the values on the grid of a real function
whose Fourier coefficients at the differences of two plane waves are those of the potential drawn, up to the errors of the
transforms, and which has no others. -/
theorem C110_potential_abs (a1 a2 : R2) (W : ExcWell) (sh : List Drawn) (hD : WellDrawn a1 a2 W sh) (v : R2 → ℝ)
    (hv : IsPermittivity a1 a2 (max 0 (-W.V)) (sh.map fun s => (max 0 W.V, s.region)) v) (gmax : ℝ) (hg : 0 ≤ gmax)
    (xs ys : List ℝ) : ∃ f : ℝ → ℝ → ℝ,
      excPotXY W .abs gmax xs ys = .ok (ys.map fun y => xs.map fun x => (f x y : ℂ)) ∧
      (∀ i j : Fin (W.gvec .abs gmax).length, ‖component a1 a2 ((W.gvec .abs gmax)[j] - (W.gvec .abs gmax)[i])
          (fun x y => (f x y : ℂ)) - epsCoeff a1 a2 v ((W.gvec .abs gmax)[j] - (W.gvec .abs gmax)[i])‖ ≤ wellErr W sh) ∧
      ∀ n : ℤ × ℤ, (∀ i j : Fin (W.gvec .abs gmax).length, latVec W.b1 W.b2 n ≠
          (W.gvec .abs gmax)[j] - (W.gvec .abs gmax)[i]) →
        component a1 a2 (latVec W.b1 W.b2 n) (fun x y => (f x y : ℂ)) = 0 := by
  classical
  have hr := wellDrawn_real hD
  obtain ⟨P, hP, -⟩ := excWell_pot W hD.resolved hr .abs gmax hg
  set inds := absInds W.b1 W.b2 gmax with hinds
  set U := absUnique inds with hU
  have hmem0 : (0, 0) ∈ U := (mem_absUnique _ _).2 ⟨_, absInds_zero W.b1 W.b2 gmax hg, _, absInds_zero W.b1 W.b2 gmax hg, by simp⟩
  have hz0 : ∀ g ∈ (U.map (gOf W.b1 W.b2)).filter fun g => decide (isG0 g), g = (0, 0) := by
    intro g hgm
    obtain ⟨h1, h2⟩ := List.mem_filter.1 hgm
    obtain ⟨n, -, rfl⟩ := List.mem_map.1 h1
    rw [resolved_zero hD.resolved n (by simpa using h2)]
    simp [gOf]
  have hg0 : ((U.map (gOf W.b1 W.b2)).filter fun g => decide (isG0 g)).head? = some (0, 0) := by
    have hin : gOf W.b1 W.b2 (0, 0) ∈ (U.map (gOf W.b1 W.b2)).filter fun g => decide (isG0 g) := by
      rw [List.mem_filter]
      exact ⟨List.mem_map_of_mem hmem0, by simp [isG0, gOf]; norm_num⟩
    cases hc : (U.map (gOf W.b1 W.b2)).filter fun g => decide (isG0 g) with
    | nil => rw [hc] at hin; simp at hin
    | cons x l => rw [List.head?_cons, hz0 x (by rw [hc]; exact List.mem_cons_self)]
  have hft := excFt_eq _ W.ecArea W.V _ hg0 W.shapes
  have hUn : U.Nodup := absUnique_nodup _
  set c : Fin U.length → ℂ := fun j => W.ft (latVec W.b1 W.b2 U[j]) with hc
  have hzip : ((U.map (gOf W.b1 W.b2)).map (excPot W.ecArea W.V (0, 0) W.shapes)).zip (U.map (gOf W.b1 W.b2)) =
      List.ofFn fun j : Fin U.length => (c j, latVec W.b1 W.b2 U[j]) := by
    refine List.ext_getElem (by simp) fun i h1 h2 => ?_
    simp only [List.getElem_zip, List.getElem_map, List.getElem_ofFn, hc, ExcWell.ft, latVec_eq]
    rfl
  have hinj : Function.Injective fun j : Fin U.length => latVec W.b1 W.b2 U[j] := fun i j h =>
    Fin.ext (hUn.getElem_inj_iff.1 (latVec_inj_of_dual hD.dual _ _ h))
  have hval : ∀ x y, ftinvAt (List.ofFn fun j : Fin U.length => (c j, latVec W.b1 W.b2 U[j])) x y =
      ∑ j : Fin U.length, c j * wave (latVec W.b1 W.b2 U[j]) x y := ftinvAt_ofFn c _ hinj
  have hreal : ∀ x y, conj (∑ j : Fin U.length, c j * wave (latVec W.b1 W.b2 U[j]) x y) =
      ∑ j : Fin U.length, c j * wave (latVec W.b1 W.b2 U[j]) x y := by
    intro x y
    rw [map_sum]
    refine Fintype.sum_equiv Fin.revPerm _ _ fun j => ?_
    have hneg : U[Fin.revPerm j] = -U[j] := by
      have := absUnique_getElem_neg inds (U.length - 1 - j) (by rw [← hU]; have := j.2; omega)
      have h1 : U.length - 1 - (U.length - 1 - (j : ℕ)) = j := by have := j.2; omega
      simp only [← hU, h1] at this
      have h2 : U[Fin.revPerm j] = U[U.length - 1 - (j : ℕ)]'(by have := j.2; omega) := by
        simp only [Fin.revPerm_apply, Fin.getElem_fin, Fin.val_rev]
        congr 1
        omega
      rw [h2, this]
      rfl
    simp only [hc]
    rw [hneg, excWell_ft_neg W hr, map_mul, latVec_neg']
    congr 1
    unfold wave
    rw [← Complex.exp_conj]
    congr 1
    simp
    ring
  have hre : ∀ x y, (((∑ j : Fin U.length, c j * wave (latVec W.b1 W.b2 U[j]) x y).re : ℝ) : ℂ) =
      ∑ j : Fin U.length, c j * wave (latVec W.b1 W.b2 U[j]) x y := fun x y => Complex.conj_eq_iff_re.1 (hreal x y)
  refine ⟨fun x y => (∑ j : Fin U.length, c j * wave (latVec W.b1 W.b2 U[j]) x y).re, ?_, ?_, ?_⟩
  · unfold excPotXY
    rw [hP]
    simp only [← hinds, ← hU, hft, hzip, ftinv, hval, hre]
  · intro i j
    simp only [hre, excWell_gvec]
    have hsub : ∀ m n : ℤ × ℤ, latVec W.b1 W.b2 m - latVec W.b1 W.b2 n = latVec W.b1 W.b2 (m - n) := by
      intro m n
      simp only [latVec, Prod.fst_sub, Prod.snd_sub]
      ext <;> simp <;> ring
    rw [hsub, component_sum a1 a2 W.b1 W.b2 hD.dual (fun j : Fin U.length => U[j]) c]
    have hlt : ∀ i : Fin (W.gvec .abs gmax).length, (i : ℕ) < (W.inds .abs gmax).length :=
      fun i => excWell_len W .abs gmax ▸ i.2
    have hm : (W.inds .abs gmax).getD j 0 - (W.inds .abs gmax).getD i 0 ∈ U := by
      rw [hU, mem_absUnique]
      refine ⟨(W.inds .abs gmax).getD i 0, ?_, (W.inds .abs gmax).getD j 0, ?_, rfl⟩
      · rw [getD_of_len (hlt i)]; exact List.getElem_mem _
      · rw [getD_of_len (hlt j)]; exact List.getElem_mem _
    obtain ⟨l, hl, hle⟩ := List.getElem_of_mem hm
    rw [Finset.sum_eq_single ⟨l, hl⟩]
    · rw [if_pos (show U[(⟨l, hl⟩ : Fin U.length)] = _ from hle)]
      simp only [hc]
      rw [show U[(⟨l, hl⟩ : Fin U.length)] = _ from hle]
      exact wellDrawn_close hD v hv _
    · intro j' _ hj'
      refine if_neg fun e => hj' (Fin.ext ?_)
      exact hUn.getElem_inj_iff.1 (e.trans hle.symm)
    · simp
  · intro n hn
    simp only [hre]
    rw [component_sum a1 a2 W.b1 W.b2 hD.dual (fun j : Fin U.length => U[j]) c]
    refine Finset.sum_eq_zero fun j _ => if_neg fun e => ?_
    have hm : n ∈ U := by rw [← e]; exact List.getElem_mem _
    rw [hU, mem_absUnique] at hm
    obtain ⟨a, ha, b, hb, rfl⟩ := hm
    obtain ⟨i, hi, rfl⟩ := List.getElem_of_mem ha
    obtain ⟨j, hj, rfl⟩ := List.getElem_of_mem hb
    have hi' : i < (W.gvec .abs gmax).length := by rw [excWell_len]; exact hi
    have hj' : j < (W.gvec .abs gmax).length := by rw [excWell_len]; exact hj
    apply hn ⟨i, hi'⟩ ⟨j, hj'⟩
    rw [excWell_gvec, excWell_gvec]
    have e1 : (W.inds .abs gmax).getD i 0 = inds[i] := getD_of_len hi
    have e2 : (W.inds .abs gmax).getD j 0 = inds[j] := getD_of_len hj
    simp only [e1, e2, latVec]
    ext <;> simp <;> ring

theorem wellDisc_coeff (V : ℝ) (hV : 0 < V) (v : R2 → ℝ)
    (hv : IsPermittivity (1, 0) (0, 1) 0 [(V, (drawnCircle 1 ⟨1 / 4, 0, 0.2⟩).region)] v) (n : ℤ × ℤ) (hn : n ≠ 0) :
    epsCoeff (1, 0) (0, 1) v (latVec (2 * π, 0) (0, 2 * π) n) =
      V * regionFourier (drawnCircle 1 ⟨1 / 4, 0, 0.2⟩).region (latVec (2 * π, 0) (0, 2 * π) n) := by
  have hA := shifted_draws.apart
  have hmeas := shifted_draws.measurable
  rw [epsCoeff_eq (1, 0) (0, 1) (2 * π, 0) (0, 2 * π) square_holes.dual (by norm_num) 0 _ (by simpa using hA)
    (by simpa using hmeas) v hv n, if_neg hn]
  simp

/-- What the potential matrix has between two neighbouring plane waves is not the coefficient of the potential drawn. -/
theorem wellDisc_differs (V : ℝ) (hV : 0 < V) (v : R2 → ℝ)
    (hv : IsPermittivity (1, 0) (0, 1) 0 [(V, (drawnCircle 1 ⟨1 / 4, 0, 0.2⟩).region)] v) :
    0.04 * V ≤ ‖epsCoeff (1, 0) (0, 1) v (latVec (2 * π, 0) (0, 2 * π) (1, 0)) -
      (wellDisc (1 / 4) 0 V).ft (latVec (2 * π, 0) (0, 2 * π) (-(1, 0)))‖ := by
  have hpi := Real.pi_gt_three
  have hm : max 0 (-V) = 0 := max_eq_left (by linarith)
  have hm' : max 0 V = V := max_eq_right hV.le
  have hcl := wellDrawn_close (wellDisc_drawn (1 / 4) 0 V) v (by
    simp only [wellDisc, hm, hm', List.map_cons, List.map_nil]; exact hv) (-(1, 0))
  have he := wellDisc_err (1 / 4) 0 V
  rw [abs_of_pos hV] at he
  have h1 := wellDisc_coeff V hV v hv (1, 0) (by simp)
  have h2 := wellDisc_coeff V hV v hv (-(1, 0)) (by simp)
  rw [shifted_conj] at h2
  have him := shifted_im
  have eL : latVec (2 * π, 0) (0, 2 * π) (1, 0) = (2 * π, 0) := by simp [latVec]
  rw [eL] at h1 h2 ⊢
  have hcl' : ‖(wellDisc (1 / 4) 0 V).ft (latVec (2 * π, 0) (0, 2 * π) (-(1, 0))) -
    epsCoeff (1, 0) (0, 1) v (latVec (2 * π, 0) (0, 2 * π) (-(1, 0)))‖ ≤ V * 1e-11 := hcl.trans he
  rw [h2] at hcl'
  rw [h1]
  generalize (wellDisc (1 / 4) 0 V).ft (latVec (2 * π, 0) (0, 2 * π) (-(1, 0))) = z at *
  generalize regionFourier (drawnCircle 1 ⟨1 / 4, 0, 0.2⟩).region (2 * π, 0) = f at *
  have a1 := (Complex.abs_im_le_norm _).trans hcl'
  have a2 := Complex.abs_im_le_norm ((V : ℂ) * f - z)
  simp only [Complex.sub_im, Complex.mul_im, Complex.ofReal_re, Complex.ofReal_im, Complex.conj_im, zero_mul, add_zero] at a1 a2
  have b1 := abs_le.1 a1
  have b2 := (abs_le.1 a2).1
  have hf : V * f.im ≤ V * -(0.2 * (π * 0.2 ^ 2)) := mul_le_mul_of_nonneg_left him hV.le
  nlinarith

theorem wellDisc_index (x y V gmax : ℝ) (hg : 1 ≤ gmax) (k : ℤ) (hk : |k| ≤ 1) :
    ∃ i : Fin ((wellDisc x y V).gvec .abs gmax).length, ((wellDisc x y V).inds .abs gmax).getD i 0 = (k, 0) := by
  obtain ⟨i, hi⟩ := shifted_index gmax hg k hk
  refine ⟨⟨i, ?_⟩, hi⟩
  have h1 : ((wellDisc x y V).gvec .abs gmax).length = (absInds (2 * π, 0) (0, 2 * π) gmax).length :=
    excWell_len (wellDisc x y V) .abs gmax
  have h2 : (shiftedStruct.gvec gmax).length = (absInds (2 * π, 0) (0, 2 * π) gmax).length := by
    simp [GmeStruct.gvec, shiftedStruct]
  rw [h1, ← h2]
  exact i.2

/-- If one entry of the potential matrix is not the coefficient of the potential drawn, some wave function shows it. -/
theorem excWave_misses (argsort : List ℝ → List ℕ) (hs : ∀ l, IsArgsort l (argsort l))
    (eigh : ∀ n, Matrix (Fin n) (Fin n) ℂ → Fin n → ℝ)
    (vecs : ∀ n, Matrix (Fin n) (Fin n) ℂ → Matrix (Fin n) (Fin n) ℂ) (he : EighPair eigh vecs) (a1 a2 : R2) (W : ExcWell)
    (sh : List Drawn) (hD : WellDrawn a1 a2 W sh) (v : R2 → ℝ)
    (hv' : IsPermittivity a1 a2 (max 0 (-W.V)) (sh.map fun s => (max 0 W.V, s.region)) v) (gmax : ℝ)
    (hg0 : 0 ≤ gmax) (k : R2) (N : ℕ) (hN : N = (W.gvec .abs gmax).length) (δ : ℝ)
    (i0 i1 : Fin (W.gvec .abs gmax).length)
    (hdiff : δ ≤ ‖epsCoeff a1 a2 v (latVec W.b1 W.b2 ((W.inds .abs gmax).getD i1 0 - (W.inds .abs gmax).getD i0 0)) -
      W.ft (latVec W.b1 W.b2 (-((W.inds .abs gmax).getD i1 0 - (W.inds .abs gmax).getD i0 0)))‖) :
    ∃ r, excSim argsort eigh W .abs gmax [k] N = .ok [r] ∧
      ∃ (mind : ℕ) (h : mind < r.2.length) (ψ : ℝ → ℝ → ℂ),
        (∀ x y, excWave argsort eigh vecs W .abs gmax k N mind x y = .ok (ψ x y)) ∧
        ∃ i : Fin (W.gvec .abs gmax).length, δ / N ≤ ‖residual a1 a2 W v k r.2[mind] ψ (W.gvec .abs gmax)[i]‖ := by
  have hr := wellDrawn_real hD
  obtain ⟨C, hC⟩ := permittivity_bounded _ _ _ _ v hv'
  have hmeas := wellDrawn_measurable hD v hv'
  have hU := he _ _ ((excWell_ham_hermitian W hr .abs gmax k).add isHermitian_one)
  set U := vecs _ (W.ham .abs gmax k + 1) with hUdef
  set D : Fin (W.gvec .abs gmax).length → Fin (W.gvec .abs gmax).length → ℂ := fun i j =>
    epsCoeff a1 a2 v (latVec W.b1 W.b2 ((W.inds .abs gmax).getD i 0 - (W.inds .abs gmax).getD j 0)) -
        W.ft (latVec W.b1 W.b2 (W.idx .abs gmax j - W.idx .abs gmax i)) with hDd
  have hD1 : δ ≤ ‖D i1 i0‖ := by
    have e : D i1 i0 = epsCoeff a1 a2 v (latVec W.b1 W.b2 ((W.inds .abs gmax).getD i1 0 - (W.inds .abs gmax).getD i0 0)) -
        W.ft (latVec W.b1 W.b2 (-((W.inds .abs gmax).getD i1 0 - (W.inds .abs gmax).getD i0 0))) := by
      simp only [hDd, ExcWell.idx, TruncG.sgn, one_smul, neg_sub]
    rw [e]; exact hdiff
  have hUU : U * U.conjTranspose = 1 := mul_eq_one_comm.1 hU.unitary
  have hsum : D i1 i0 = ∑ s, (∑ j, D i1 j * U j s) * conj (U i0 s) := by
    have hx : ∀ j, ∑ s, U j s * conj (U i0 s) = (1 : Matrix (Fin (W.gvec .abs gmax).length) (Fin (W.gvec .abs gmax).length) ℂ) j i0 := by
      intro j
      have := congrFun (congrFun hUU j) i0
      rw [← this, Matrix.mul_apply]
      rfl
    simp only [Finset.sum_mul]
    rw [Finset.sum_comm]
    simp only [mul_assoc, ← Finset.mul_sum, hx, Matrix.one_apply, mul_ite, mul_one, mul_zero]
    rw [Finset.sum_ite_eq', if_pos (Finset.mem_univ i0)]
  have hU1 : ∀ s, ‖U i0 s‖ ≤ 1 := by
    intro s
    have := congrFun (congrFun hU.unitary s) s
    rw [Matrix.mul_apply, Matrix.one_apply_eq] at this
    have h2 : ∑ j, ‖U j s‖ ^ 2 = 1 := by
      have h3 : ((∑ j, ‖U j s‖ ^ 2 : ℝ) : ℂ) = 1 := by
        rw [← this]
        push_cast
        refine Finset.sum_congr rfl fun j _ => ?_
        rw [Matrix.conjTranspose_apply, ← Complex.conj_mul']
        rfl
      exact_mod_cast h3
    have h4 : ‖U i0 s‖ ^ 2 ≤ 1 := by
      rw [← h2]
      exact Finset.single_le_sum (f := fun j => ‖U j s‖ ^ 2) (fun j _ => sq_nonneg _) (Finset.mem_univ i0)
    nlinarith [norm_nonneg (U i0 s)]
  have hNpos : 0 < N := by rw [hN]; exact i0.pos
  have hNr : (0 : ℝ) < N := by exact_mod_cast hNpos
  obtain ⟨s, hsr⟩ : ∃ s, δ / N ≤ ‖∑ j, D i1 j * U j s‖ := by
    by_contra hcon
    push Not at hcon
    have h5 : ‖D i1 i0‖ < ∑ _s : Fin (W.gvec .abs gmax).length, δ / N := by
      rw [hsum]
      refine (norm_sum_le _ _).trans_lt (Finset.sum_lt_sum_of_nonempty ⟨i0, Finset.mem_univ _⟩ fun s _ => ?_)
      rw [norm_mul, RCLike.norm_conj]
      exact (mul_le_of_le_one_right (norm_nonneg _) (hU1 s)).trans_lt (hcon s)
    rw [Finset.sum_const, Finset.card_univ, Fintype.card_fin, ← hN, nsmul_eq_mul] at h5
    have : (N : ℝ) * (δ / N) = δ := by field_simp
    linarith
  refine ⟨_, by rw [excSim_ok argsort eigh W hD.resolved hr .abs gmax hg0 [k] N]; rfl, ?_⟩
  have hmem : (s : ℕ) ∈ (excRes argsort eigh W .abs gmax N k).1 := by
    have h1 := (hs ((List.ofFn (eigh _ (W.ham .abs gmax k + 1))).map (· - 1))).1
    simp only [excRes, excSelect]
    rw [List.take_of_length_le (by rw [h1.length_eq]; simp [hN])]
    rw [h1.mem_iff, List.mem_range]
    simp
  obtain ⟨mind, hml, hme⟩ := List.getElem_of_mem hmem
  have hl : (excRes argsort eigh W .abs gmax N k).1.length = (excRes argsort eigh W .abs gmax N k).2.length := by
    simp [excRes, excSelect]
  have hml2 : mind < (excRes argsort eigh W .abs gmax N k).2.length := hl ▸ hml
  obtain ⟨s', hlt, g1, g2⟩ := excRes_spec argsort hs eigh W .abs gmax N k mind hml2
  have hss : s' = s := by
    rw [List.getElem?_eq_getElem hml, hme] at g1
    exact (Option.some.inj g1).symm
  subst hss
  refine ⟨mind, by simpa using hml2, fun x y => ftinvAt (List.ofFn fun j => (U j s, (W.gvec .abs gmax)[j])) x y, ?_, i1, ?_⟩
  · intro x y
    unfold excWave
    rw [excWaveFt_ok argsort eigh vecs W hD.resolved hr .abs gmax hg0 k N mind _ g1 hlt]
  · simp only [List.getElem_map, g2]
    rw [excWave_residual W hD.dual .abs gmax v hmeas C hC k U _ hU s i1]
    exact hsr

/-- **C110 (the default truncation fails for displaced discs).** A disc away from the origin: whatever the wave vector and the
cut-off, some wave function among those returned misses the Schroedinger equation with the potential drawn by a fixed fraction of the
potential. -/
theorem C110_abs_displaced (argsort : List ℝ → List ℕ) (hs : ∀ l, IsArgsort l (argsort l))
    (eigh : ∀ n, Matrix (Fin n) (Fin n) ℂ → Fin n → ℝ)
    (vecs : ∀ n, Matrix (Fin n) (Fin n) ℂ → Matrix (Fin n) (Fin n) ℂ) (he : EighPair eigh vecs) (V : ℝ) (hV : 0 < V)
    (v : R2 → ℝ) (hv : IsPermittivity (1, 0) (0, 1) 0 [(V, (drawnCircle 1 ⟨1 / 4, 0, 0.2⟩).region)] v) (gmax : ℝ)
    (hg : 1 ≤ gmax) (k : R2) (N : ℕ) (hN : N = ((wellDisc (1 / 4) 0 V).gvec .abs gmax).length) :
    ∃ r, excSim argsort eigh (wellDisc (1 / 4) 0 V) .abs gmax [k] N = .ok [r] ∧
      ∃ (mind : ℕ) (h : mind < r.2.length) (ψ : ℝ → ℝ → ℂ),
        (∀ x y, excWave argsort eigh vecs (wellDisc (1 / 4) 0 V) .abs gmax k N mind x y = .ok (ψ x y)) ∧
        ∃ i : Fin ((wellDisc (1 / 4) 0 V).gvec .abs gmax).length, 0.04 * V / N ≤
          ‖residual (1, 0) (0, 1) (wellDisc (1 / 4) 0 V) v k r.2[mind] ψ ((wellDisc (1 / 4) 0 V).gvec .abs gmax)[i]‖ := by
  have hm : max 0 (-V) = 0 := max_eq_left (by linarith)
  have hm' : max 0 V = V := max_eq_right hV.le
  have hD := wellDisc_drawn (1 / 4) 0 V
  have hv' : IsPermittivity (1, 0) (0, 1) (max 0 (-(wellDisc (1 / 4) 0 V).V))
      ([drawnCircle 1 ⟨1 / 4, 0, 0.2⟩].map fun s => (max 0 (wellDisc (1 / 4) 0 V).V, s.region)) v := by
    simp only [wellDisc, hm, hm', List.map_cons, List.map_nil]; exact hv
  have hdiff := wellDisc_differs V hV v hv
  obtain ⟨i0, hi0⟩ := wellDisc_index (1 / 4) 0 V gmax hg 0 (by simp)
  obtain ⟨i1, hi1⟩ := wellDisc_index (1 / 4) 0 V gmax hg 1 (by simp)
  refine excWave_misses argsort hs eigh vecs he (1, 0) (0, 1) _ _ hD v hv' gmax (by linarith) k N hN (0.04 * V) i0 i1 ?_
  rw [hi0, hi1, show ((1, 0) - (0, 0) : ℤ × ℤ) = (1, 0) by simp]
  exact hdiff

theorem wellDisc_draws (x y V : ℝ) :
    ∃ v, IsPermittivity (1, 0) (0, 1) (max 0 (-V)) [(max 0 V, (drawnCircle 1 ⟨x, y, 0.2⟩).region)] v := by
  classical
  refine ⟨fun p => if ∃ m, p + latVec (1, 0) (0, 1) m ∈ (drawnCircle 1 ⟨x, y, 0.2⟩).region then max 0 V else max 0 (-V), ?_, ?_⟩
  · intro s hs p m hm
    rw [List.mem_singleton.1 hs] at hm ⊢
    exact if_pos ⟨m, hm⟩
  · intro p hp
    exact if_neg fun ⟨m, hm⟩ => hp _ (List.mem_singleton_self _) m hm

/-- The parameters of the counterexample exist, with every gmax above 1. -/
example : ∃ (argsort : List ℝ → List ℕ) (eigh : _) (vecs : _) (v : R2 → ℝ), (∀ l, IsArgsort l (argsort l)) ∧ EighPair eigh vecs ∧
    IsPermittivity (1, 0) (0, 1) 0 [(0.005, (drawnCircle 1 ⟨1 / 4, 0, 0.2⟩).region)] v := by
  have hs := insArgsort_ok
  obtain ⟨eigh, vecs, he⟩ := eighPair_exists
  obtain ⟨v, hv⟩ := wellDisc_draws (1 / 4) 0 0.005
  refine ⟨insArgsort, eigh, vecs, v, hs, he, ?_⟩
  have h1 : max 0 (-(0.005 : ℝ)) = 0 := by norm_num
  have h2 : max 0 (0.005 : ℝ) = 0.005 := by norm_num
  rwa [h1, h2] at hv

/-- Discs anywhere, with 'tbt', and discs at the origin, with 'abs': the equation holds up to 5e-14 times the sum of the
coefficients. -/
example (argsort : List ℝ → List ℕ) (hs : ∀ l, IsArgsort l (argsort l)) (eigh : _) (vecs : _) (he : EighPair eigh vecs)
    (x y : ℝ) (ks : List R2) :
    ∃ v v0 rs rs0, IsPermittivity (1, 0) (0, 1) 0 [(0.005, (drawnCircle 1 ⟨x, y, 0.2⟩).region)] v ∧
      IsPermittivity (1, 0) (0, 1) 0 [(0.005, (drawnCircle 1 ⟨0, 0, 0.2⟩).region)] v0 ∧
      excSim argsort eigh (wellDisc x y 0.005) .tbt 2 ks 5 = .ok rs ∧
      excSim argsort eigh (wellDisc 0 0 0.005) .abs 2 ks 5 = .ok rs0 ∧ rs.length = ks.length ∧
      List.Forall₂ (fun k r => ∀ (mind : ℕ) (h : mind < r.2.length), ∃ (c : _ → ℂ) (ψ : _),
        (∀ x' y', excWave argsort eigh vecs (wellDisc x y 0.005) .tbt 2 k 5 mind x' y' = .ok (ψ x' y')) ∧
        ∀ i : Fin ((wellDisc x y 0.005).gvec .tbt 2).length,
          ‖residual (1, 0) (0, 1) (wellDisc x y 0.005) v k r.2[mind] ψ ((wellDisc x y 0.005).gvec .tbt 2)[i]‖ ≤
            5e-14 * ∑ j : Fin ((wellDisc x y 0.005).gvec .tbt 2).length, ‖c j‖) ks rs ∧
      List.Forall₂ (fun k r => ∀ (mind : ℕ) (h : mind < r.2.length), ∃ (c : _ → ℂ) (ψ : _),
        (∀ x' y', excWave argsort eigh vecs (wellDisc 0 0 0.005) .abs 2 k 5 mind x' y' = .ok (ψ x' y')) ∧
        ∀ i : Fin ((wellDisc 0 0 0.005).gvec .abs 2).length,
          ‖residual (1, 0) (0, 1) (wellDisc 0 0 0.005) v0 k r.2[mind] ψ ((wellDisc 0 0 0.005).gvec .abs 2)[i]‖ ≤
            5e-14 * ∑ j : Fin ((wellDisc 0 0 0.005).gvec .abs 2).length, ‖c j‖) ks rs0 := by
  have h1 : max 0 (-(0.005 : ℝ)) = 0 := by norm_num
  have h2 : max 0 (0.005 : ℝ) = 0.005 := by norm_num
  have herr : ∀ x y, wellErr (wellDisc x y 0.005) [drawnCircle 1 ⟨x, y, 0.2⟩] ≤ 5e-14 := fun x y =>
    (wellDisc_err x y 0.005).trans (by rw [abs_of_pos (by norm_num)]; norm_num)
  obtain ⟨v, hv⟩ := wellDisc_draws x y 0.005
  obtain ⟨v0, hv0⟩ := wellDisc_draws 0 0 0.005
  have hsym : ∀ p, v0 (-p) = v0 p := by
    have key : ∀ p m, p + latVec (1, 0) (0, 1) m ∈ (drawnCircle 1 ⟨0, 0, 0.2⟩).region →
        -p + latVec (1, 0) (0, 1) (-m) ∈ (drawnCircle 1 ⟨0, 0, 0.2⟩).region := by
      intro p m h
      have h' : ((p + latVec (1, 0) (0, 1) m).1 - 0) ^ 2 + ((p + latVec (1, 0) (0, 1) m).2 - 0) ^ 2 ≤ (0.2 : ℝ) ^ 2 := h
      show ((-p + latVec (1, 0) (0, 1) (-m)).1 - 0) ^ 2 + ((-p + latVec (1, 0) (0, 1) (-m)).2 - 0) ^ 2 ≤ (0.2 : ℝ) ^ 2
      rw [latVec_neg']
      simp only [Prod.fst_add, Prod.snd_add, Prod.fst_neg, Prod.snd_neg, sub_zero] at h' ⊢
      nlinarith
    intro p
    by_cases h : ∃ m, p + latVec (1, 0) (0, 1) m ∈ (drawnCircle 1 ⟨0, 0, 0.2⟩).region
    · obtain ⟨m, hm⟩ := h
      rw [hv0.1 _ (List.mem_singleton_self _) p m hm, hv0.1 _ (List.mem_singleton_self _) (-p) (-m) (key p m hm)]
    · rw [hv0.2 p fun s hs m hm => h ⟨m, by rwa [List.mem_singleton.1 hs] at hm⟩,
        hv0.2 (-p) fun s hs m hm => h ⟨-m, by
          rw [List.mem_singleton.1 hs] at hm
          have := key _ _ hm
          rwa [neg_neg] at this⟩]
  obtain ⟨rs, r1, r2⟩ := C110_tbt argsort hs eigh vecs he (1, 0) (0, 1) _ _ (wellDisc_drawn x y 0.005) v hv 2 (by norm_num) ks 5
  obtain ⟨rs0, s1, s2⟩ := C110_abs_partial argsort hs eigh vecs he (1, 0) (0, 1) _ _ (wellDisc_drawn 0 0 0.005) v0 hv0 hsym 2
    (by norm_num) ks 5
  rw [h1, h2] at hv hv0
  refine ⟨v, v0, rs, rs0, hv, hv0, r1, s1, r2.length_eq.symm, r2.imp ?_, s2.imp ?_⟩
  · intro k r h mind hm
    obtain ⟨c, ψ, -, p2, -, p4⟩ := h mind hm
    exact ⟨c, ψ, p2, fun i => (p4 i).trans (mul_le_mul_of_nonneg_right (herr x y) (Finset.sum_nonneg fun _ _ => norm_nonneg _))⟩
  · intro k r h mind hm
    obtain ⟨c, ψ, -, p2, -, p4⟩ := h mind hm
    exact ⟨c, ψ, p2, fun i => (p4 i).trans (mul_le_mul_of_nonneg_right (herr 0 0) (Finset.sum_nonneg fun _ _ => norm_nonneg _))⟩

/-- The other theorems apply to discs at any place. -/
example (argsort : List ℝ → List ℕ) (hs : ∀ l, IsArgsort l (argsort l)) (eigh : _) (vecs : _) (he : EighPair eigh vecs)
    (x y V : ℝ) (t : TruncG) (k : R2) (v : R2 → ℝ)
    (hv : IsPermittivity (1, 0) (0, 1) (max 0 (-V)) [(max 0 V, (drawnCircle 1 ⟨x, y, 0.2⟩).region)] v) :
    (∃ (r : _) (ψ : ℕ → ℝ → ℝ → ℂ), excSim argsort eigh (wellDisc x y V) t 2 [k] 5 = .ok [r] ∧
      (∀ m < r.2.length, ∀ x' y', excWave argsort eigh vecs (wellDisc x y V) t 2 k 5 m x' y' = .ok (ψ m x' y')) ∧
      ∀ m < r.2.length, ∀ n < r.2.length, cellMean (1, 0) (0, 1) (fun x y => conj (ψ m x y) * ψ n x y) =
          if m = n then 1 else 0) ∧
    (∃ rs, excSim argsort eigh (wellDisc x y V) .abs 2 [k] 5 = .ok rs ∧ rs.length = 1) ∧
    excPotXY (wellDisc x y V) .tbt 2 [0, 1 / 2] [0, 1 / 2] = .error .indexError ∧
    ∃ f : ℝ → ℝ → ℝ, excPotXY (wellDisc x y V) .abs 2 [0, 1 / 2] [0, 1 / 2] =
      .ok [[(f 0 0 : ℂ), (f (1 / 2) 0 : ℂ)], [(f 0 (1 / 2) : ℂ), (f (1 / 2) (1 / 2) : ℂ)]] := by
  have hr := wellDrawn_real (wellDisc_drawn x y V)
  refine ⟨?_, ?_, C110_potential_tbt _ resolved_square hr 2 (by norm_num) _ _, ?_⟩
  · obtain ⟨rs, r1, r2⟩ := C110_orthonormal argsort hs eigh vecs he (1, 0) (0, 1) (wellDisc x y V) square_holes.dual
      resolved_square hr t 2 (by norm_num) [k] 5
    cases r2 with
    | cons h t =>
      cases t
      obtain ⟨ψ, h1, h2⟩ := h
      exact ⟨_, ψ, r1, h1, h2⟩
  · obtain ⟨rs, r1, r2⟩ := C110_abs argsort hs eigh vecs he (1, 0) (0, 1) _ _ (wellDisc_drawn x y V) v hv 2 (by norm_num) [k] 5
    exact ⟨rs, r1, by simpa using r2.length_eq.symm⟩
  · obtain ⟨f, hf, -, -⟩ := C110_potential_abs (1, 0) (0, 1) _ _ (wellDisc_drawn x y V) v hv 2 (by norm_num) [0, 1 / 2] [0, 1 / 2]
    exact ⟨f, hf⟩

end Legume
