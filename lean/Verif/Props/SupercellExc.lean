import Verif.Props.Supercell
import Verif.Props.ExcBands

/-! # C142: supercells in `ExcitonSchroedEq` -/
namespace Legume

open Matrix Spec

/-- Without shifts the potential is what `excActual` says. -/
theorem excPot_actual (A V : ℝ) (hA : 0 < A) (shapes : List (R2 → ℂ))
    (hpos : ∀ s ∈ shapes, 0 ≤ V * (s (0, 0)).re ∧ (s (0, 0)).im = 0) (g : R2) :
    excPot A V (0, 0) shapes g = excActual A V shapes g := by
  have hA' : (A : ℂ) ≠ 0 := by exact_mod_cast hA.ne'
  suffices H : ∀ (shapes : List (R2 → ℂ)) (F : R2 → ℂ),
      (∀ s ∈ shapes, 0 ≤ V * (s (0, 0)).re ∧ (s (0, 0)).im = 0) → (0 ≤ (F (0, 0)).re ∧ (F (0, 0)).im = 0) →
      shapes.foldl (excRound A V (0, 0)) F g = F g / (A : ℂ) ^ shapes.length + excActual A V shapes g by
    have := H shapes (fun _ => 0) hpos (by simp)
    simpa [excPot] using this
  intro shapes
  induction shapes with
  | nil => intro F _ _; simp [excActual]
  | cons s l ih =>
    intro F hs hF
    obtain ⟨h1, h2⟩ := hs s List.mem_cons_self
    have hF1 : 0 ≤ ((F (0, 0) + V * s (0, 0)) / (A : ℂ)).re ∧ ((F (0, 0) + V * s (0, 0)) / (A : ℂ)).im = 0 := by
      simp only [Complex.div_ofReal_re, Complex.div_ofReal_im, Complex.add_re, Complex.add_im,
        Complex.mul_re, Complex.mul_im, Complex.ofReal_re, Complex.ofReal_im, zero_mul, sub_zero, add_zero]
      exact ⟨div_nonneg (by linarith [hF.1]) hA.le, by rw [hF.2, h2]; simp⟩
    have hr : excRound A V (0, 0) F s = fun g => (F g + V * s g) / (A : ℂ) := by
      funext g
      unfold excRound
      simp only
      rw [if_neg]
      rintro ⟨h | ⟨-, h⟩, -⟩ <;> linarith [hF1.1, hF1.2]
    rw [List.foldl_cons, hr, ih _ (fun s' h => hs s' (List.mem_cons_of_mem _ h)) hF1]
    simp only [List.length_cons, excActual]
    field_simp
    ring

/-- Cases in which all shapes have the same weight. -/
theorem excActual_sum (A V : ℝ) (shapes : List (R2 → ℂ)) (h : A = 1 ∨ shapes.length ≤ 1) (g : R2) :
    excActual A V shapes g = V * ((shapes.map fun s => s g).sum / A) := by
  rcases h with rfl | h
  · induction shapes with
    | nil => simp [excActual]
    | cons s l ih => simp only [excActual, List.map_cons, List.sum_cons, ih]; simp; ring
  · match shapes, h with
    | [], _ => simp [excActual]
    | [s], _ => simp only [excActual, List.map_cons, List.sum_cons, List.map_nil, List.sum_nil, List.length_nil]; ring

/-- A well described by a supercell of `N1` by `N2` cells. The copies of the shapes have the same areas. -/
structure SuperWell (N1 N2 : ℕ) (a1 a2 : R2) (W W' : ExcWell) : Prop where
  n1 : 0 < N1
  n2 : 0 < N2
  recip : Reciprocal a1 a2 W.b1 W.b2
  b1 : NthPart N1 W.b1 W'.b1
  b2 : NthPart N2 W.b2 W'.b2
  area : W'.ecArea = N1 * N2 * W.ecArea
  shapes : Copies N1 N2 a1 a2 (W.shapes.map (FShape.mk 1)) (W'.shapes.map (FShape.mk 1))
  areas : (W'.shapes.map fun s => s (0, 0)).sum = N1 * N2 * (W.shapes.map fun s => s (0, 0)).sum
  V : W'.V = W.V
  a : W'.a = W.a
  M : W'.M = W.M
  E0 : W'.E0 = W.E0
  loss : W'.loss = W.loss
  hbar : W'.hbar = W.hbar
  e : W'.e = W.e

/-- The potential is the sum of the transforms of the shapes over the area. -/
def EvenWeights (W : ExcWell) : Prop :=
  0 < W.ecArea ∧ (W.ecArea = 1 ∨ W.shapes.length ≤ 1) ∧
    ∀ s ∈ W.shapes, 0 ≤ W.V * (s (0, 0)).re ∧ (s (0, 0)).im = 0

theorem evenWeights_ft {W : ExcWell} (h : EvenWeights W) (g : R2) :
    W.ft g = W.V * ((W.shapes.map fun s => s g).sum / W.ecArea) := by
  rw [ExcWell.ft, excPot_actual _ _ h.1 _ h.2.2, excActual_sum _ _ _ h.2.1]

theorem sum_im_zero (l : List ℂ) (h : ∀ z ∈ l, z.im = 0) : ((l.sum.re : ℝ) : ℂ) = l.sum := by
  apply Complex.ext
  · simp
  · have : l.sum.im = 0 := by
      induction l with
      | nil => simp
      | cons a l ih =>
        rw [List.sum_cons, Complex.add_im, h a List.mem_cons_self,
          ih fun z hz => h z (List.mem_cons_of_mem _ hz), add_zero]
    rw [this, Complex.ofReal_im]

/-- The potential of a well in terms of the transform of a layer. -/
theorem evenWeights_layer {W : ExcWell} (h : EvenWeights W) (hb : Resolved W.b1 W.b2) (c : ℝ)
    (hc : (c : ℂ) = (W.shapes.map fun s => s (0, 0)).sum / W.ecArea) (i : ℤ × ℤ) :
    W.ft (gOf W.b1 W.b2 i) = W.V * layerFt 0 c W.ecArea (W.shapes.map (FShape.mk 1)) (gOf W.b1 W.b2 i) := by
  rw [evenWeights_ft h]
  congr 1
  by_cases h0 : i = (0, 0)
  · subst h0
    have e : gOf W.b1 W.b2 (0, 0) = (0, 0) := by simp [gOf]
    have hz : isG0 (gOf W.b1 W.b2 (0, 0)) := by rw [e]; simp [isG0]; norm_num
    rw [layerFt_g0 _ _ _ _ _ hz, e, hc]
  · have hg : ¬ (|(gOf W.b1 W.b2 i).1| < 1e-10 ∧ |(gOf W.b1 W.b2 i).2| < 1e-10) := hb i.1 i.2 h0
    have hg0 : ¬ |(gOf W.b1 W.b2 i).1| + |(gOf W.b1 W.b2 i).2| < 1e-10 := fun hc => hg (isG0_small hc)
    rw [C12_layer_value _ _ _ _ _ hg0, List.map_map]
    congr 2
    refine List.map_congr_left fun s _ => ?_
    simp

/-- The potential of a supercell: that of the cell at the reciprocal vectors of the cell, and zero between them. -/
theorem superWell_ft {N1 N2 : ℕ} {a1 a2 : R2} {W W' : ExcWell} (h : SuperWell N1 N2 a1 a2 W W') (hw : EvenWeights W)
    (hw' : EvenWeights W') (hb : Resolved W.b1 W.b2) (hb' : Resolved W'.b1 W'.b2) (i : ℤ × ℤ) :
    (∀ j : ℤ × ℤ, i = ((N1 : ℤ) * j.1, (N2 : ℤ) * j.2) → W'.ft (gOf W'.b1 W'.b2 i) = W.ft (gOf W.b1 W.b2 j)) ∧
      (¬ ((N1 : ℤ) ∣ i.1 ∧ (N2 : ℤ) ∣ i.2) → W'.ft (gOf W'.b1 W'.b2 i) = 0) := by
  have z1 : (N1 : ℂ) ≠ 0 := by exact_mod_cast h.n1.ne'
  have z2 : (N2 : ℂ) ≠ 0 := by exact_mod_cast h.n2.ne'
  have hA : (W.ecArea : ℂ) ≠ 0 := by exact_mod_cast hw.1.ne'
  obtain ⟨c, hc⟩ : ∃ c : ℝ, (c : ℂ) = (W.shapes.map fun s : R2 → ℂ => s (0, 0)).sum / W.ecArea := by
    refine ⟨(W.shapes.map fun s : R2 → ℂ => s (0, 0)).sum.re / W.ecArea, ?_⟩
    rw [Complex.ofReal_div, sum_im_zero]
    intro z hz
    obtain ⟨s, hs, rfl⟩ := List.mem_map.1 hz
    exact (hw.2.2 s hs).2
  have hc' : (c : ℂ) = (W'.shapes.map fun s => s (0, 0)).sum / W'.ecArea := by
    rw [hc, h.areas, h.area]
    push_cast
    field_simp
  have key := layerFt_super 0 c W.ecArea N1 N2 h.n1 h.n2 a1 a2 _ _ _ _ h.recip h.b1 h.b2 hb' _ _ h.shapes i
  rw [← h.area] at key
  constructor
  · rintro j rfl
    rw [evenWeights_layer hw' hb' c hc', key, if_pos ⟨dvd_mul_right _ _, dvd_mul_right _ _⟩, h.V,
      evenWeights_layer hw hb c hc]
    have e1 := h.b1
    have e2 := h.b2
    unfold NthPart at e1 e2
    congr 2
    rw [e1, e2]
    simp only [gOf, Prod.mk.injEq]
    push_cast
    constructor <;> ring
  · intro hn
    rw [evenWeights_layer hw' hb' c hc', key, if_neg hn, mul_zero]

/-- The plane waves of the cell are those of the supercell which are reciprocal vectors of the cell. -/
def CellWaves (N1 N2 : ℕ) (W W' : ExcWell) (t : TruncG) (gmax : ℝ) : Prop :=
  ∀ i : ℤ × ℤ, ((N1 : ℤ) * i.1, (N2 : ℤ) * i.2) ∈ W'.inds t gmax ↔ i ∈ W.inds t gmax

theorem cellWaves_tbt {N1 N2 : ℕ} {a1 a2 : R2} {W W' : ExcWell} (h : SuperWell N1 N2 a1 a2 W W') (gmax : ℝ) :
    CellWaves N1 N2 W W' .tbt gmax := by
  intro i
  have e1 := nmax_part N1 h.n1 gmax _ _ h.b1
  have e2 := nmax_part N2 h.n2 gmax _ _ h.b2
  simp only [ExcWell.inds, mem_tbtInds, ← abs_le]
  rw [abs_mul_le _ h.n1, abs_mul_le _ h.n2, ← e1, ← e2]

/-- The Hamiltonian of the cell is a decoupled block of that of the supercell. -/
theorem superWell_block {N1 N2 : ℕ} {a1 a2 : R2} {W W' : ExcWell} (h : SuperWell N1 N2 a1 a2 W W') (hw : EvenWeights W)
    (hw' : EvenWeights W') (hb : Resolved W.b1 W.b2) (hb' : Resolved W'.b1 W'.b2) (t : TruncG) (gmax : ℝ)
    (hs : CellWaves N1 N2 W W' t gmax) (k : R2) :
    ∃ f : Fin (W.gvec t gmax).length → Fin (W'.gvec t gmax).length, Function.Injective f ∧
      BlockIn f (W.ham t gmax k + 1) (W'.ham t gmax k + 1) := by
  have z1 : (N1 : ℤ) ≠ 0 := by exact_mod_cast h.n1.ne'
  have z2 : (N2 : ℤ) ≠ 0 := by exact_mod_cast h.n2.ne'
  have ex : ∀ I : Fin (W.gvec t gmax).length, ∃ J : Fin (W'.gvec t gmax).length, (W'.inds t gmax).getD J 0 =
      (N1 * ((W.inds t gmax).getD I 0).1, N2 * ((W.inds t gmax).getD I 0).2) := by
    intro I
    have hI : (I : ℕ) < (W.inds t gmax).length := by rw [← excWell_len]; exact I.2
    obtain ⟨J, hJ, e⟩ := List.getElem_of_mem ((hs _).2 (List.getElem_mem hI))
    refine ⟨⟨J, by rw [excWell_len]; exact hJ⟩, ?_⟩
    rw [getD_of_len hJ, getD_of_len hI, e]
  choose f hf using ex
  have hinj : Function.Injective f := by
    intro I J e
    refine excWell_inds_inj W t gmax ?_
    have := (hf I).symm.trans ((congrArg (fun x : Fin _ => (W'.inds t gmax).getD x 0) e).trans (hf J))
    simp only [Prod.mk.injEq, mul_eq_mul_left_iff, z1, z2, or_false] at this
    exact Prod.ext this.1 this.2
  have hout : ∀ J, J ∉ Set.range f → ¬ ((N1 : ℤ) ∣ ((W'.inds t gmax).getD J 0).1 ∧
      (N2 : ℤ) ∣ ((W'.inds t gmax).getD J 0).2) := by
    rintro J hJ ⟨⟨i, hi⟩, ⟨j, hj⟩⟩
    apply hJ
    have hJ' : (J : ℕ) < (W'.inds t gmax).length := by rw [← excWell_len]; exact J.2
    have hm : ((N1 : ℤ) * i, (N2 : ℤ) * j) ∈ W'.inds t gmax := by
      rw [← hi, ← hj, getD_of_len hJ']
      exact List.getElem_mem hJ'
    obtain ⟨I, hI, e⟩ := List.getElem_of_mem ((hs (i, j)).1 hm)
    refine ⟨⟨I, by rw [excWell_len]; exact hI⟩, excWell_inds_inj W' t gmax ?_⟩
    simp only
    rw [hf, getD_of_len hI, e]
    exact Prod.ext hi.symm hj.symm
  have hidx : ∀ I, W'.idx t gmax (f I) = (N1 * (W.idx t gmax I).1, N2 * (W.idx t gmax I).2) := by
    intro I
    simp only [ExcWell.idx]
    rw [hf]
    simp only [Prod.smul_mk, Prod.smul_fst, Prod.smul_snd, smul_eq_mul]
    refine Prod.ext ?_ ?_ <;> simp only <;> ring
  have hnd : ∀ J, J ∉ Set.range f → ¬ ((N1 : ℤ) ∣ (W'.idx t gmax J).1 ∧ (N2 : ℤ) ∣ (W'.idx t gmax J).2) := by
    intro J hJ hd
    apply hout J hJ
    cases t <;> simpa [ExcWell.idx, TruncG.sgn] using hd
  have ft := superWell_ft h hw hw' hb hb'
  refine ⟨f, hinj, fun I J => ?_, fun I J hJ => ?_, fun I J hJ => ?_⟩
  · rw [Matrix.add_apply, Matrix.add_apply, excWell_ham_apply, excWell_ham_apply, h.hbar, h.e, h.a, h.M, latVec_eq,
      latVec_eq, latVec_eq, latVec_eq, (ft _).1 (W.idx t gmax J - W.idx t gmax I)]
    · simp only [one_apply, hinj.eq_iff]
      congr 2
      by_cases hIJ : I = J
      · rw [if_pos hIJ, if_pos hIJ, hf]
        have e1 := h.b1
        have e2 := h.b2
        unfold NthPart at e1 e2
        congr 2
        rw [e1, e2]
        simp only [gOf, Prod.mk.injEq]
        push_cast
        constructor <;> ring
      · rw [if_neg hIJ, if_neg hIJ]
    · rw [hidx, hidx]
      refine Prod.ext ?_ ?_ <;> simp only [Prod.fst_sub, Prod.snd_sub] <;> ring
  · have hne : f I ≠ J := fun e => hJ ⟨I, e⟩
    rw [Matrix.add_apply, excWell_ham_apply, if_neg hne, one_apply, if_neg hne, latVec_eq, (ft _).2]
    · simp
    · rw [hidx]
      rintro ⟨d1, d2⟩
      simp only [Prod.fst_sub, Prod.snd_sub] at d1 d2
      exact hnd J hJ ⟨(dvd_sub_left (Dvd.intro _ rfl)).1 d1, (dvd_sub_left (Dvd.intro _ rfl)).1 d2⟩
  · have hne : J ≠ f I := fun e => hJ ⟨I, e.symm⟩
    rw [Matrix.add_apply, excWell_ham_apply, if_neg hne, one_apply, if_neg hne, latVec_eq, (ft _).2]
    · simp
    · rw [hidx]
      rintro ⟨d1, d2⟩
      simp only [Prod.fst_sub, Prod.snd_sub] at d1 d2
      exact hnd J hJ ⟨(dvd_sub_right (Dvd.intro _ rfl)).1 d1, (dvd_sub_right (Dvd.intro _ rfl)).1 d2⟩

/-- The sorted energies. -/
noncomputable def sortedEner (w : List ℝ) : List ℝ := (w.map (· - 1)).mergeSort fun a b => decide (a ≤ b)

theorem sortedEner_sublist {w u : List ℝ} (h : w.Subperm u) : (sortedEner w).Sublist (sortedEner u) := by
  refine List.sublist_of_subperm_of_pairwise ?_ (List.pairwise_mergeSort' (· ≤ ·) _) (List.pairwise_mergeSort' (· ≤ ·) _)
  obtain ⟨l, hl, hs⟩ := h
  exact (List.mergeSort_perm _ _).subperm.trans (((hl.map (· - 1)).symm.subperm.trans (hs.map (· - 1)).subperm).trans
    (List.mergeSort_perm _ _).symm.subperm)

/-- Energies of a cell and of a supercell: those of the cell are among those of the supercell if all of these are asked for,
and the `i`-th of the supercell is not above the `i`-th of the cell. -/
def FoldedEnergies (numeig' total : ℕ) (E E' : List ℂ) : Prop :=
  (total ≤ numeig' → E.Sublist E') ∧ ∀ (i : ℕ) (hi : i < E.length) (hi' : i < E'.length), E'[i].re ≤ E[i].re

/-- **C142 (supercells of excitons, partial).** Let a well be described by a supercell of `N1` by `N2` cells, let all shapes
enter with the same weight in both descriptions (`EvenWeights`: no negative potential, and one shape or a cell of area 1),
and let the same plane waves be used. Then both runs succeed, the energies of the cell are among those of the supercell if
all of these are asked for, and the `i`-th energy of the supercell is not above the `i`-th one of the cell. Missing: cells
in which shapes enter with different weights, where the statement is false of the code (`C142_supercell_wrong`). -/
theorem C142_supercell_partial (argsort : List ℝ → List ℕ) (hs : ∀ l, IsArgsort l (argsort l))
    (eigh : ∀ n, Matrix (Fin n) (Fin n) ℂ → Fin n → ℝ) (he : GoodEigh eigh) (N1 N2 : ℕ) (a1 a2 : R2) (W W' : ExcWell)
    (h : SuperWell N1 N2 a1 a2 W W') (hw : EvenWeights W) (hw' : EvenWeights W') (hb : Resolved W.b1 W.b2)
    (hb' : Resolved W'.b1 W'.b2) (hr : ∀ s ∈ W.shapes, RealFt s) (hr' : ∀ s ∈ W'.shapes, RealFt s) (t : TruncG)
    (gmax : ℝ) (hg : 0 ≤ gmax) (hsw : CellWaves N1 N2 W W' t gmax) (ks : List R2) (numeig numeig' : ℕ) :
    ∃ rs rs', excSim argsort eigh W t gmax ks numeig = .ok rs ∧ excSim argsort eigh W' t gmax ks numeig' = .ok rs' ∧
      List.Forall₂ (fun r r' => FoldedEnergies numeig' (W'.gvec t gmax).length r.2 r'.2) rs rs' := by
  refine ⟨_, _, excSim_ok argsort eigh W hb hr t gmax hg ks numeig,
    excSim_ok argsort eigh W' hb' hr' t gmax hg ks numeig', ?_⟩
  rw [List.forall₂_map_left_iff, List.forall₂_map_right_iff, List.forall₂_same]
  intro k _
  simp only [excRes]
  obtain ⟨f, hf, hbl⟩ := superWell_block h hw hw' hb hb' t gmax hsw k
  obtain ⟨U, hU⟩ := he _ _ ((excWell_ham_hermitian W hr t gmax k).add isHermitian_one)
  obtain ⟨U', hU'⟩ := he _ _ ((excWell_ham_hermitian W' hr' t gmax k).add isHermitian_one)
  have hsub := sortedEner_sublist (isEigh_subperm hU hU' (blockIn_charpoly hf hbl))
  rw [excSelect_take argsort hs _ (sortedEner _) (List.mergeSort_perm _ _) (List.pairwise_mergeSort' (· ≤ ·) _),
    excSelect_take argsort hs _ (sortedEner _) (List.mergeSort_perm _ _) (List.pairwise_mergeSort' (· ≤ ·) _), h.E0, h.loss]
  have hso : (sortedEner (List.ofFn (eigh _ (W'.ham t gmax k + 1)))).Pairwise (· ≤ ·) := List.pairwise_mergeSort' (· ≤ ·) _
  have hfold := foldedIn_take numeig numeig' hsub hso
  have hlen : (sortedEner (List.ofFn (eigh _ (W'.ham t gmax k + 1)))).length = (W'.gvec t gmax).length := by
    rw [sortedEner, (List.mergeSort_perm _ _).length_eq, List.length_map, List.length_ofFn]
  rw [hlen] at hfold
  refine ⟨fun hle => (hfold.1 hle).map _, fun i hi hi' => ?_⟩
  simp only [List.getElem_map, Complex.add_re, Complex.ofReal_re]
  have := hfold.2 i (by simpa using hi) (by simpa using hi')
  linarith

/-! ### Witness -/

theorem resolved_double {c : ℝ} {b2 : R2} (h : Resolved (c, 0) b2) : Resolved (2 * c, 0) b2 := by
  rintro m n hmn ⟨e1, e2⟩
  refine h (2 * m) n (fun e => hmn ?_) ⟨?_, ?_⟩
  · simp only [Prod.mk.injEq] at e ⊢
    omega
  · simp only at e1 ⊢
    push_cast
    rw [show c * (2 * (m : ℝ)) = 2 * c * (m : ℝ) by ring]
    exact e1
  · simp only at e2 ⊢
    push_cast
    rw [zero_mul] at e2 ⊢
    exact e2

/-- A square lattice with one round dot per cell, in a potential of 1 eV. -/
noncomputable def dotCell (J : ℝ → ℝ) : ExcWell :=
  ⟨(2 * Real.pi, 0), (0, 2 * Real.pi), 1, [Circle.ft J ⟨0, 0, 0.2⟩], 1, 1, 1, 0, 0, 1, 1⟩

/-- The same with two cells and two dots. -/
noncomputable def dotPair (J : ℝ → ℝ) : ExcWell :=
  ⟨(Real.pi, 0), (0, 2 * Real.pi), 2, [Circle.ft J ⟨0, 0, 0.2⟩, Circle.ft J ⟨1, 0, 0.2⟩], 1, 1, 1, 0, 0, 1, 1⟩

theorem circle_zero (J : ℝ → ℝ) (c : Circle) :
    Circle.ft J c (0, 0) = ((c.r * 2 * Real.pi / 1e-10 * J (1e-10 * c.r) : ℝ) : ℂ) := by
  simp [Circle.ft]

theorem dot_copies (J : ℝ → ℝ) : Copies 2 1 (1, 0) (0, 1) [⟨1, Circle.ft J ⟨0, 0, 0.2⟩⟩]
    [⟨1, Circle.ft J ⟨0, 0, 0.2⟩⟩, ⟨1, Circle.ft J ⟨1, 0, 0.2⟩⟩] := (holePair_super J).shapes

theorem dotPair_super (J : ℝ → ℝ) : SuperWell 2 1 (1, 0) (0, 1) (dotCell J) (dotPair J) := by
  refine ⟨by norm_num, by norm_num, ⟨?_, ?_, ?_, ?_⟩, ?_, ?_, ?_, ?_, ?_, rfl, rfl, rfl, rfl, rfl, rfl, rfl⟩
  · simp [dotCell]
  · simp [dotCell]
  · simp [dotCell]
  · simp [dotCell]
  · simp [NthPart, dotCell, dotPair]
  · simp [NthPart, dotCell, dotPair]
  · simp [dotCell, dotPair]
  · simpa [dotCell, dotPair] using dot_copies J
  · simp only [dotCell, dotPair, List.map_cons, List.map_nil, List.sum_cons, List.sum_nil, circle_zero]
    push_cast
    ring

theorem one_select (argsort : List ℝ → List ℕ) (hs : ∀ l, IsArgsort l (argsort l))
    (eigh : ∀ n, Matrix (Fin n) (Fin n) ℂ → Fin n → ℝ) (he : GoodEigh eigh) {n : ℕ} (hn : n = 1)
    (A : Matrix (Fin n) (Fin n) ℂ) (hA : A.IsHermitian) (x : ℝ) (hx : ∀ i j, A i j = x) :
    (excSelect argsort (List.ofFn (eigh n (A + 1))) 1).2 = [x] := by
  subst hn
  obtain ⟨U, hU⟩ := he _ _ (hA.add isHermitian_one)
  have e0 := congrFun (congrFun hU.eigen 0) 0
  have u0 := congrFun (congrFun hU.unitary 0) 0
  simp only [mul_apply, Finset.univ_unique, Finset.sum_singleton, Matrix.add_apply, hx, Fin.default_eq_zero,
    diagonal_apply_eq, one_apply_eq] at e0 u0
  have hne : U 0 0 ≠ 0 := by
    rintro e
    rw [e, mul_zero] at u0
    exact zero_ne_one u0
  have hw : eigh 1 (A + 1) 0 = x + 1 := by
    have : ((eigh 1 (A + 1) 0 : ℝ) : ℂ) = ((x + 1 : ℝ) : ℂ) := by
      push_cast
      rw [mul_comm] at e0
      exact (mul_left_cancel₀ hne e0).symm
    exact_mod_cast this
  rw [excSelect_take argsort hs _ [x] ?_ (List.pairwise_singleton _ _)]
  · rfl
  · simp [hw]

theorem one_wave (W : ExcWell) : W.inds .tbt 0 = [(0, 0)] := by
  simp only [ExcWell.inds, nmaxOf, mul_zero, zero_div, Nat.floor_zero]
  decide

theorem one_ham (W : ExcWell) (x : ℝ) (hx : W.ft (0, 0) = x) (i j) : W.ham .tbt 0 (0, 0) i j = x := by
  have hl : (W.gvec .tbt 0).length = 1 := by rw [excWell_len, one_wave]; rfl
  have hi : (i : ℕ) = 0 := by have := i.2; omega
  have hj : (j : ℕ) = 0 := by have := j.2; omega
  have hij : i = j := Fin.ext (hi.trans hj.symm)
  subst hij
  rw [excWell_ham_apply, if_pos rfl, sub_self, one_wave, hi]
  have : latVec W.b1 W.b2 0 = (0, 0) := by simp [latVec]
  rw [this, hx]
  simp [excKin, latVec]

/-- **C142 (negation).** One dot of positive area in a cell of area 1, described by one cell or by two. With one plane wave
the energy found at zero wave vector is `x` with the cell and `3 x / 4` with the supercell: the code divides the potential of
the first of two dots by the area of the cell twice. -/
theorem C142_supercell_wrong (J : ℝ → ℝ) (hJ : 0 < J (1e-10 * 0.2)) (argsort : List ℝ → List ℕ)
    (hs : ∀ l, IsArgsort l (argsort l)) (eigh : ∀ n, Matrix (Fin n) (Fin n) ℂ → Fin n → ℝ) (he : GoodEigh eigh) :
    SuperWell 2 1 (1, 0) (0, 1) (dotCell J) (dotPair J) ∧ CellWaves 2 1 (dotCell J) (dotPair J) .tbt 0 ∧
      ∃ (x : ℝ) (l l' : List ℕ), 0 < x ∧ excSim argsort eigh (dotCell J) .tbt 0 [(0, 0)] 1 = .ok [(l, [(x : ℂ)])] ∧
        excSim argsort eigh (dotPair J) .tbt 0 [(0, 0)] 1 = .ok [(l', [((3 / 4 * x : ℝ) : ℂ)])] := by
  have hr : ∀ s ∈ (dotCell J).shapes, RealFt s := by
    simp only [dotCell, List.mem_cons, List.not_mem_nil, or_false]
    rintro s rfl
    exact C12_circle_conj J _
  have hr' : ∀ s ∈ (dotPair J).shapes, RealFt s := by
    simp only [dotPair, List.mem_cons, List.not_mem_nil, or_false]
    rintro s (rfl | rfl) <;> exact C12_circle_conj J _
  have hb : Resolved (dotCell J).b1 (dotCell J).b2 := resolved_double resolved_pair
  set x : ℝ := 0.2 * 2 * Real.pi / 1e-10 * J (1e-10 * 0.2) with hx
  have hx0 : 0 < x := by
    have := Real.pi_pos
    positivity
  have p1 : ∀ s ∈ (dotCell J).shapes, 0 ≤ (dotCell J).V * (s (0, 0)).re ∧ (s (0, 0)).im = 0 := by
    simp only [dotCell, List.mem_cons, List.not_mem_nil, or_false]
    rintro s rfl
    rw [circle_zero, Complex.ofReal_re, Complex.ofReal_im]
    exact ⟨by simpa using hx0.le, rfl⟩
  have p2 : ∀ s ∈ (dotPair J).shapes, 0 ≤ (dotPair J).V * (s (0, 0)).re ∧ (s (0, 0)).im = 0 := by
    simp only [dotPair, List.mem_cons, List.not_mem_nil, or_false]
    rintro s (rfl | rfl) <;> rw [circle_zero, Complex.ofReal_re, Complex.ofReal_im] <;> exact ⟨by simpa using hx0.le, rfl⟩
  have f1 : (dotCell J).ft (0, 0) = x := by
    rw [ExcWell.ft, excPot_actual _ _ (by norm_num [dotCell]) _ p1]
    simp only [dotCell, excActual, circle_zero]
    rw [← hx]
    simp
  have f2 : (dotPair J).ft (0, 0) = ((3 / 4 * x : ℝ) : ℂ) := by
    rw [ExcWell.ft, excPot_actual _ _ (by norm_num [dotPair]) _ p2]
    simp only [dotPair, excActual, circle_zero]
    rw [← hx]
    simp
    ring
  have l1 : ∀ W : ExcWell, (W.gvec .tbt 0).length = 1 := fun W => by rw [excWell_len, one_wave]; rfl
  refine ⟨dotPair_super J, cellWaves_tbt (dotPair_super J) 0, x,
    (excRes argsort eigh (dotCell J) .tbt 0 1 (0, 0)).1, (excRes argsort eigh (dotPair J) .tbt 0 1 (0, 0)).1, hx0,
    (excSim_ok argsort eigh _ hb hr .tbt 0 le_rfl _ 1).trans ?_,
    (excSim_ok argsort eigh _ resolved_pair hr' .tbt 0 le_rfl _ 1).trans ?_⟩
  · have := one_select argsort hs eigh he (l1 _) _ (excWell_ham_hermitian _ hr .tbt 0 (0, 0)) x (one_ham _ x f1)
    simp only [List.map_cons, List.map_nil, excRes]
    rw [this]
    simp [dotCell]
  · have := one_select argsort hs eigh he (l1 _) _ (excWell_ham_hermitian _ hr' .tbt 0 (0, 0)) _ (one_ham _ _ f2)
    simp only [List.map_cons, List.map_nil, excRes]
    rw [this]
    simp [dotPair]

/-- Hypotheses of `C142_supercell_partial`: a cell of area 1/2 with one dot of positive area, and a supercell of area 1. -/
example (J : ℝ → ℝ) (hJ : 0 < J (1e-10 * 0.1)) (argsort : List ℝ → List ℕ) (hs : ∀ l, IsArgsort l (argsort l))
    (eigh : ∀ n, Matrix (Fin n) (Fin n) ℂ → Fin n → ℝ) (he : GoodEigh eigh) (k : R2) :
    let W : ExcWell := ⟨(2 * (2 * Real.pi), 0), (0, 2 * Real.pi), 1 / 2, [Circle.ft J ⟨0, 0, 0.1⟩], 1, 1, 1, 0, 0, 1, 1⟩
    let W' : ExcWell := ⟨(2 * Real.pi, 0), (0, 2 * Real.pi), 1, [Circle.ft J ⟨0, 0, 0.1⟩, Circle.ft J ⟨1 / 2, 0, 0.1⟩],
      1, 1, 1, 0, 0, 1, 1⟩
    ∃ rs rs', excSim argsort eigh W .tbt 3 [k] 5 = .ok rs ∧ excSim argsort eigh W' .tbt 3 [k] 49 = .ok rs' ∧
      List.Forall₂ (fun r r' => FoldedEnergies 49 (W'.gvec .tbt 3).length r.2 r'.2) rs rs' := by
  intro W W'
  have hz : ∀ x : ℝ, 0 ≤ (1 : ℝ) * (Circle.ft J ⟨x, 0, 0.1⟩ (0, 0)).re ∧ (Circle.ft J ⟨x, 0, 0.1⟩ (0, 0)).im = 0 := by
    intro x
    rw [circle_zero, Complex.ofReal_re, Complex.ofReal_im]
    have := Real.pi_pos
    exact ⟨by positivity, rfl⟩
  have hS : SuperWell 2 1 (1 / 2, 0) (0, 1) W W' := by
    refine ⟨by norm_num, by norm_num, ⟨?_, ?_, ?_, ?_⟩, ?_, ?_, ?_, ?_, ?_, rfl, rfl, rfl, rfl, rfl, rfl, rfl⟩
    · simp [W]
    · simp [W]
    · simp [W]
    · simp [W]
    · simp [NthPart, W, W']
    · simp [NthPart, W, W']
    · simp [W, W']
    · refine ⟨fun m n => [⟨1, Circle.ft J ⟨0 + (m * (1 / 2) + n * 0), 0 + (m * 0 + n * 1), 0.1⟩⟩], ?_, ?_⟩
      · intro m _ n _
        exact .cons (displaced_circle J 1 ⟨0, 0, 0.1⟩ (m * (1 / 2) + n * 0, m * 0 + n * 1)) .nil
      · simp [W', List.range_succ]
    · simp only [W, W', List.map_cons, List.map_nil, List.sum_cons, List.sum_nil, circle_zero]
      push_cast
      ring
  have hd : Resolved (2 * Real.pi, 0) (0, 2 * Real.pi) := resolved_double resolved_pair
  refine C142_supercell_partial argsort hs eigh he 2 1 (1 / 2, 0) (0, 1) W W' hS ⟨?_, ?_, ?_⟩ ⟨?_, ?_, ?_⟩
    (resolved_double hd) hd ?_ ?_ .tbt 3 (by norm_num) (cellWaves_tbt hS 3) [k] 5 49
  · norm_num [W]
  · exact .inr (by simp [W])
  · simp only [W, List.mem_cons, List.not_mem_nil, or_false]
    rintro s rfl
    exact hz 0
  · norm_num [W']
  · exact .inl rfl
  · simp only [W', List.mem_cons, List.not_mem_nil, or_false]
    rintro s (rfl | rfl)
    · exact hz 0
    · exact hz (1 / 2)
  · simp only [W, List.mem_cons, List.not_mem_nil, or_false]
    rintro s rfl
    exact C12_circle_conj J _
  · simp only [W', List.mem_cons, List.not_mem_nil, or_false]
    rintro s (rfl | rfl) <;> exact C12_circle_conj J _

/-- A function as in `C142_supercell_wrong`. -/
example : 0 < (fun x : ℝ => x / 2) (1e-10 * 0.2) := by norm_num

end Legume
