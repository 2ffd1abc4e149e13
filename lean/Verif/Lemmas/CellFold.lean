import Mathlib.Algebra.Module.ZLattice.Basic
import Mathlib.Analysis.SpecialFunctions.PolarCoord
import Mathlib.MeasureTheory.Integral.Prod
import Verif.Spec.PermittivityMap
import Verif.Lemmas.FieldOverlap

/-! # Integrals over the elementary cell and over shapes whose copies do not overlap -/
namespace Legume
open Spec MeasureTheory
open scoped Real Pointwise

/-- `(u, v) ↦ u a1 + v a2`. -/
noncomputable def cellLin (a1 a2 : R2) : ℝ × ℝ →L[ℝ] ℝ × ℝ :=
  LinearMap.toContinuousLinearMap (Matrix.toLin (Module.Basis.finTwoProd ℝ) (Module.Basis.finTwoProd ℝ)
    !![a1.1, a2.1; a1.2, a2.2])

theorem cellMap_apply (a1 a2 : R2) (p : ℝ × ℝ) :
    cellLin a1 a2 p = (p.1 * a1.1 + p.2 * a2.1, p.1 * a1.2 + p.2 * a2.2) := by
  simp only [cellLin, LinearMap.coe_toContinuousLinearMap', Matrix.toLin_finTwoProd_apply]
  ext <;> simp <;> ring

theorem cellMap_det (a1 a2 : R2) : (cellLin a1 a2).det = a1.1 * a2.2 - a2.1 * a1.2 := by
  rw [cellLin, LinearMap.det_toContinuousLinearMap, LinearMap.det_toLin, Matrix.det_fin_two_of]

theorem cellMap_injective (a1 a2 : R2) (h : a1.1 * a2.2 - a1.2 * a2.1 ≠ 0) : Function.Injective (cellLin a1 a2) := by
  intro p q hpq
  rw [cellMap_apply, cellMap_apply] at hpq
  obtain ⟨h1, h2⟩ := Prod.ext_iff.1 hpq
  simp only at h1 h2
  have e1 : (p.1 - q.1) * (a1.1 * a2.2 - a1.2 * a2.1) = 0 := by linear_combination a2.2 * h1 - a2.1 * h2
  have e2 : (p.2 - q.2) * (a1.1 * a2.2 - a1.2 * a2.1) = 0 := by linear_combination a1.1 * h2 - a1.2 * h1
  ext
  · exact sub_eq_zero.1 ((mul_eq_zero.1 e1).resolve_right h)
  · exact sub_eq_zero.1 ((mul_eq_zero.1 e2).resolve_right h)

/-- The elementary cell. -/
def cellSet (a1 a2 : R2) : Set R2 := cellLin a1 a2 '' (Set.Ico 0 1 ×ˢ Set.Ico 0 1)

theorem cellSet_integral (a1 a2 : R2) (h : a1.1 * a2.2 - a1.2 * a2.1 ≠ 0) (f : R2 → ℂ)
    (hf : IntegrableOn f (cellSet a1 a2)) :
    ∫ p in cellSet a1 a2, f p = ((|a1.1 * a2.2 - a1.2 * a2.1| : ℝ) : ℂ) * cellMean a1 a2 fun x y => f (x, y) := by
  have hs : MeasurableSet (Set.Ico (0:ℝ) 1 ×ˢ Set.Ico (0:ℝ) 1) := measurableSet_Ico.prod measurableSet_Ico
  have hd : ∀ x ∈ (Set.Ico (0:ℝ) 1 ×ˢ Set.Ico (0:ℝ) 1), HasFDerivWithinAt (cellLin a1 a2) (cellLin a1 a2)
    (Set.Ico (0:ℝ) 1 ×ˢ Set.Ico (0:ℝ) 1) x := fun x _ => (cellLin a1 a2).hasFDerivAt.hasFDerivWithinAt
  have hi : Set.InjOn (cellLin a1 a2) (Set.Ico (0:ℝ) 1 ×ˢ Set.Ico (0:ℝ) 1) := (cellMap_injective a1 a2 h).injOn
  have hint := (integrableOn_image_iff_integrableOn_abs_det_fderiv_smul volume hs hd hi f).1 hf
  rw [cellSet, integral_image_eq_integral_abs_det_fderiv_smul volume hs hd hi f]
  have hne : |(cellLin a1 a2).det| ≠ 0 := by
    rw [cellMap_det, abs_ne_zero]; intro h0; exact h (by linarith)
  have hdet : |(cellLin a1 a2).det| = |a1.1 * a2.2 - a1.2 * a2.1| := by
    rw [cellMap_det]; congr 1; ring
  have hint' : IntegrableOn (fun x => f (cellLin a1 a2 x)) (Set.Ico (0:ℝ) 1 ×ˢ Set.Ico (0:ℝ) 1) := by
    have := hint.smul (|(cellLin a1 a2).det|⁻¹)
    refine this.congr (Filter.Eventually.of_forall fun x => ?_)
    simp only [Pi.smul_apply]
    rw [smul_smul, inv_mul_cancel₀ hne, one_smul]
  rw [integral_smul, hdet, Complex.real_smul]
  congr 1
  rw [Measure.volume_eq_prod] at hint' ⊢
  rw [setIntegral_prod _ hint', cellMean, intervalIntegral.integral_of_le zero_le_one, integral_Ico_eq_integral_Ioc]
  refine setIntegral_congr_fun measurableSet_Ioc fun u _ => ?_
  rw [intervalIntegral.integral_of_le zero_le_one, integral_Ico_eq_integral_Ioc]
  simp only [cellMap_apply]

/-- The map as an equivalence. -/
noncomputable def cellEquiv (a1 a2 : R2) (h : a1.1 * a2.2 - a1.2 * a2.1 ≠ 0) : (ℝ × ℝ) ≃ₗ[ℝ] R2 :=
  LinearEquiv.ofInjectiveEndo (cellLin a1 a2 : ℝ × ℝ →ₗ[ℝ] ℝ × ℝ) (cellMap_injective a1 a2 h)

theorem cellEquiv_apply (a1 a2 : R2) (h) (p : ℝ × ℝ) : cellEquiv a1 a2 h p = cellLin a1 a2 p := by
  simp [cellEquiv]

/-- The basis `a1`, `a2`. -/
noncomputable def cellBasis (a1 a2 : R2) (h : a1.1 * a2.2 - a1.2 * a2.1 ≠ 0) : Module.Basis (Fin 2) ℝ R2 :=
  (Module.Basis.finTwoProd ℝ).map (cellEquiv a1 a2 h)

theorem cellBasis_zero (a1 a2 : R2) (h) : cellBasis a1 a2 h 0 = a1 := by
  simp [cellBasis, cellEquiv_apply, cellMap_apply]

theorem cellBasis_one (a1 a2 : R2) (h) : cellBasis a1 a2 h 1 = a2 := by
  simp [cellBasis, cellEquiv_apply, cellMap_apply]

theorem cellBasis_domain (a1 a2 : R2) (h) : ZSpan.fundamentalDomain (cellBasis a1 a2 h) = cellSet a1 a2 := by
  ext p
  simp only [ZSpan.mem_fundamentalDomain, cellBasis, Module.Basis.map_repr, LinearEquiv.trans_apply, cellSet,
    Set.mem_image, Module.Basis.coe_finTwoProd_repr, Fin.forall_fin_two, Set.mem_prod]
  constructor
  · rintro ⟨h1, h2⟩
    exact ⟨(cellEquiv a1 a2 h).symm p, ⟨h1, h2⟩, by
      rw [← cellEquiv_apply a1 a2 h, LinearEquiv.apply_symm_apply]⟩
  · rintro ⟨q, ⟨h1, h2⟩, rfl⟩
    rw [← cellEquiv_apply a1 a2 h, LinearEquiv.symm_apply_apply]
    exact ⟨h1, h2⟩

theorem mem_cellSpan (a1 a2 : R2) (h) (v : R2) :
    v ∈ Submodule.span ℤ (Set.range (cellBasis a1 a2 h)) ↔ ∃ m, v = latVec a1 a2 m := by
  have hr : Set.range (cellBasis a1 a2 h) = {a1, a2} := by
    ext w
    simp only [Set.mem_range, Fin.exists_fin_two, cellBasis_zero, cellBasis_one, Set.mem_insert_iff, Set.mem_singleton_iff]
    tauto
  rw [hr, Submodule.mem_span_pair]
  constructor
  · rintro ⟨m, n, rfl⟩
    exact ⟨(m, n), by simp [latVec, Prod.ext_iff]⟩
  · rintro ⟨m, rfl⟩
    exact ⟨m.1, m.2, by simp [latVec, Prod.ext_iff]⟩

instance cellSpan_countable (a1 a2 : R2) (h) :
    Countable (Submodule.span ℤ (Set.range (cellBasis a1 a2 h))).toAddSubgroup := by
  refine Function.Surjective.countable (f := fun m : ℤ × ℤ =>
    (⟨latVec a1 a2 m, (mem_cellSpan a1 a2 h _).2 ⟨m, rfl⟩⟩ :
      (Submodule.span ℤ (Set.range (cellBasis a1 a2 h))).toAddSubgroup)) fun g => ?_
  obtain ⟨m, hm⟩ := (mem_cellSpan a1 a2 h g.1).1 g.2
  exact ⟨m, Subtype.ext hm.symm⟩

/-- The cell and its translates tile the plane. -/
theorem cellSet_fundamental (a1 a2 : R2) (h : a1.1 * a2.2 - a1.2 * a2.1 ≠ 0) :
    IsAddFundamentalDomain (Submodule.span ℤ (Set.range (cellBasis a1 a2 h))).toAddSubgroup (cellSet a1 a2) volume := by
  rw [← cellBasis_domain a1 a2 h]
  exact ZSpan.isAddFundamentalDomain' _ _

theorem latVec_zero (a1 a2 : R2) : latVec a1 a2 0 = 0 := by simp [latVec]

theorem latVec_sub (a1 a2 : R2) (m n : ℤ × ℤ) : latVec a1 a2 (m - n) = latVec a1 a2 m - latVec a1 a2 n := by
  simp only [latVec, Prod.ext_iff, Prod.fst_sub, Prod.snd_sub]
  push_cast
  constructor <;> ring

theorem isolated_disjoint (a1 a2 : R2) (h : a1.1 * a2.2 - a1.2 * a2.1 ≠ 0) (R : Set R2) (hR : Isolated a1 a2 R) :
    Pairwise (Function.onFun Disjoint fun g : (Submodule.span ℤ (Set.range (cellBasis a1 a2 h))).toAddSubgroup =>
      (g +ᵥ R) ∩ cellSet a1 a2) := by
  intro g g' hne
  refine (Disjoint.inf_left _ ?_).inf_right _
  rw [Set.disjoint_left]
  rintro _ ⟨x, hx, rfl⟩ ⟨y, hy, hxy⟩
  apply hne
  obtain ⟨m, hm⟩ := (mem_cellSpan a1 a2 h (g - g' : _).1).1 (g - g').2
  have e : y = x + latVec a1 a2 m := by
    rw [← hm]
    have : (g' : R2) + y = g + x := hxy
    simp only [AddSubgroup.coe_sub]
    rw [add_sub, add_comm x, ← this]; abel
  have h0 := hR m x hx (e ▸ hy)
  rw [h0, latVec_zero] at hm
  exact sub_eq_zero.1 (Subtype.ext hm)

theorem cellSet_measure (a1 a2 : R2) : volume (cellSet a1 a2) < ⊤ := by
  have : Bornology.IsBounded (cellSet a1 a2) :=
    (cellLin a1 a2).lipschitz.isBounded_image ((Metric.isBounded_Ico (0:ℝ) 1).prod (Metric.isBounded_Ico (0:ℝ) 1))
  exact this.measure_lt_top

theorem isolated_measure (a1 a2 : R2) (h : a1.1 * a2.2 - a1.2 * a2.1 ≠ 0) (R : Set R2) (hm : MeasurableSet R)
    (hR : Isolated a1 a2 R) : volume R < ⊤ :=
  lt_of_le_of_lt ((cellSet_fundamental a1 a2 h).measure_le_of_pairwise_disjoint hm.nullMeasurableSet
    ((isolated_disjoint a1 a2 h R hR).mono fun _ _ hd => hd.aedisjoint)) (cellSet_measure a1 a2)

/-- The points of all the copies of a shape. -/
def copies (a1 a2 : R2) (R : Set R2) : Set R2 := {p | ∃ m, p + latVec a1 a2 m ∈ R}

theorem cellSet_measurable (a1 a2 : R2) (h : a1.1 * a2.2 - a1.2 * a2.1 ≠ 0) : MeasurableSet (cellSet a1 a2) := by
  rw [← cellBasis_domain a1 a2 h]; exact ZSpan.fundamentalDomain_measurableSet _

theorem copies_measurable (a1 a2 : R2) (R : Set R2) (hm : MeasurableSet R) : MeasurableSet (copies a1 a2 R) := by
  have : copies a1 a2 R = ⋃ m : ℤ × ℤ, (fun p => p + latVec a1 a2 m) ⁻¹' R := by ext; simp [copies]
  rw [this]
  exact MeasurableSet.iUnion fun m => (measurable_id.add_const _) hm

theorem copies_inter (a1 a2 : R2) (h : a1.1 * a2.2 - a1.2 * a2.1 ≠ 0) (R : Set R2) :
    (⋃ g : (Submodule.span ℤ (Set.range (cellBasis a1 a2 h))).toAddSubgroup, (g +ᵥ R) ∩ cellSet a1 a2) =
      copies a1 a2 R ∩ cellSet a1 a2 := by
  rw [← Set.iUnion_inter]
  congr 1
  ext p
  simp only [Set.mem_iUnion, copies, Set.mem_setOf_eq]
  constructor
  · rintro ⟨g, x, hx, rfl⟩
    obtain ⟨m, hm⟩ := (mem_cellSpan a1 a2 h (-g).1).1 (-g).2
    refine ⟨m, ?_⟩
    rw [← hm]
    have : (g +ᵥ x : R2) + (-g).1 = x := by
      change (g : R2) + x + -(g : R2) = x
      abel
    simpa only [this] using hx
  · rintro ⟨m, hm⟩
    refine ⟨-⟨latVec a1 a2 m, (mem_cellSpan a1 a2 h _).2 ⟨m, rfl⟩⟩, p + latVec a1 a2 m, hm, ?_⟩
    change -latVec a1 a2 m + (p + latVec a1 a2 m) = p
    abel

/-- A periodic function has the same integral over a shape and over the part of the cell covered by its copies. -/
theorem fold_integral (a1 a2 : R2) (h : a1.1 * a2.2 - a1.2 * a2.1 ≠ 0) (R : Set R2) (hm : MeasurableSet R)
    (hR : Isolated a1 a2 R) (f : R2 → ℂ) (hf : Continuous f) (C : ℝ) (hC : ∀ p, ‖f p‖ ≤ C)
    (hp : ∀ p m, f (p + latVec a1 a2 m) = f p) :
    ∫ p in R, f p = ∫ p in copies a1 a2 R ∩ cellSet a1 a2, f p := by
  have hfi : ∀ S : Set R2, volume S < ⊤ → IntegrableOn f S := fun S hS =>
    Measure.integrableOn_of_bounded (M := C) hS.ne hf.aestronglyMeasurable (Filter.Eventually.of_forall hC)
  rw [(cellSet_fundamental a1 a2 h).setIntegral_eq_tsum' (hfi R (isolated_measure a1 a2 h R hm hR))]
  have e : ∀ (g : (Submodule.span ℤ (Set.range (cellBasis a1 a2 h))).toAddSubgroup) (x : R2), f (-g +ᵥ x) = f x := by
    intro g x
    obtain ⟨m, hm⟩ := (mem_cellSpan a1 a2 h (-g).1).1 (-g).2
    change f ((-g).1 + x) = f x
    rw [hm, add_comm, hp]
  simp only [e]
  rw [← copies_inter a1 a2 h, integral_iUnion]
  · intro g
    exact (hm.const_vadd g).inter (cellSet_measurable a1 a2 h)
  · exact isolated_disjoint a1 a2 h R hR
  · refine hfi _ (lt_of_le_of_lt (measure_mono ?_) (cellSet_measure a1 a2))
    exact Set.iUnion_subset fun _ => Set.inter_subset_right

end Legume
