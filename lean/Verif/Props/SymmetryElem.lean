import Mathlib.LinearAlgebra.Matrix.NonsingularInverse
import Mathlib.Tactic.IntervalCases
import Verif.Model.MatrixElements
import Verif.Props.Symmetry

/-!
# C30: a mirror-symmetric structure gives a Hamiltonian that commutes with the mirror
-/
namespace Legume
open Finset

/-- The basis state at the mirrored plane wave: same guided mode, hence same polarisation, frequency and
amplitudes. -/
noncomputable def mirrorState (theta : ℝ) (s : GmeState) : GmeState :=
  { s with gx := (Spec.mirrorVec theta (s.gx, s.gy)).1, gy := (Spec.mirrorVec theta (s.gx, s.gy)).2 }

/-- Sign of a state under the mirror. -/
def stateSign (s : GmeState) : ℝ := match s.pol with
  | .te => -1
  | .tm => 1

theorem mirrorState_gk (theta : ℝ) (s : GmeState) : (mirrorState theta s).gk = s.gk := by
  unfold GmeState.gk mirrorState
  congr 1
  rw [← reflectG_eq]
  unfold reflectG
  have h := Real.sin_sq_add_cos_sq (2 * theta * Real.pi / 180)
  simp only
  linear_combination (s.gx ^ 2 + s.gy ^ 2) * h

theorem mirror_dots (theta : ℝ) (s t : GmeState) :
    dot2 (mirrorState theta s).p (mirrorState theta t).p = dot2 s.p t.p ∧
    dot2 (mirrorState theta s).q (mirrorState theta t).q = dot2 s.q t.q ∧
    dot2 (mirrorState theta s).p (mirrorState theta t).q = -dot2 s.p t.q := by
  have h := Real.sin_sq_add_cos_sq (2 * theta * Real.pi / 180)
  simp only [dot2, GmeState.p, GmeState.q, mirrorState_gk]
  simp only [mirrorState, ← reflectG_eq, reflectG]
  refine ⟨?_, ?_, ?_⟩
  · linear_combination (s.gx / s.gk * (t.gx / t.gk) + s.gy / s.gk * (t.gy / t.gk)) * h
  · linear_combination (s.gx / s.gk * (t.gx / t.gk) + s.gy / s.gk * (t.gy / t.gk)) * h
  · linear_combination (-(s.gx / s.gk * (t.gy / t.gk)) + s.gy / s.gk * (t.gx / t.gk)) * h

/-- **C30.** The coupling of two mirrored states is the coupling of the originals when the structure is
mirror symmetric (the same entry of the inverse permittivity), with one sign per TE state. -/
theorem C30_element (ij : LPos → ℂ → ℂ) (stack : List (LPos × ℝ)) (einv : List ℂ) (theta : ℝ)
    (s t : GmeState) :
    gmeElem ij stack einv (mirrorState theta s) (mirrorState theta t) =
      (stateSign s * stateSign t : ℝ) * gmeElem ij stack einv s t := by
  obtain ⟨h1, h2, -⟩ := mirror_dots theta s t
  have h3 := (mirror_dots theta s t).2.2
  have h4 := (mirror_dots theta t s).2.2
  have hl : layPairs stack einv (mirrorState theta s) (mirrorState theta t) = layPairs stack einv s t := rfl
  have hp : ∀ u : GmeState, (mirrorState theta u).pol = u.pol := fun _ => rfl
  have ho : ∀ u : GmeState, (mirrorState theta u).om = u.om := fun _ => rfl
  unfold gmeElem
  simp only [hl, hp, ho, mirrorState_gk, h1, h2, h3, h4, stateSign]
  cases hs : s.pol <;> cases ht : t.pol <;> simp only [matTeTm, matTmTe] <;> push_cast <;> ring

example : gmeElem ijLayer [(.inner 1, 2)] [1] (mirrorState 0 ⟨.te, 1, 2, 1, [⟨1, 1, 1⟩]⟩)
    (mirrorState 0 ⟨.tm, 1, 3, 1, [⟨1, 0, 1⟩]⟩) =
    ((-1 * 1 : ℝ) : ℂ) * gmeElem ijLayer [(.inner 1, 2)] [1] ⟨.te, 1, 2, 1, [⟨1, 1, 1⟩]⟩ ⟨.tm, 1, 3, 1, [⟨1, 0, 1⟩]⟩ :=
  C30_element ijLayer [(.inner 1, 2)] [1] 0 ⟨.te, 1, 2, 1, [⟨1, 1, 1⟩]⟩ ⟨.tm, 1, 3, 1, [⟨1, 0, 1⟩]⟩

/-- **C30.** If the permittivity matrix is unchanged when both indices are mirrored, so is its inverse. -/
theorem C30_eps_inv {n : ℕ} (T : Matrix (Fin n) (Fin n) ℂ) (e : Equiv.Perm (Fin n))
    (h : ∀ i j, T (e i) (e j) = T i j) (i j : Fin n) : T⁻¹ (e i) (e j) = T⁻¹ i j := by
  have h1 : T.submatrix e e = T := by ext i j; exact h i j
  have h2 := Matrix.inv_submatrix_equiv T e e
  rw [h1] at h2
  exact (congrFun (congrFun h2 i) j).symm

example : (!![2, 1; 1, 2] : Matrix (Fin 2) (Fin 2) ℂ)⁻¹ (Equiv.swap 0 1 0) (Equiv.swap 0 1 1) =
    (!![2, 1; 1, 2] : Matrix (Fin 2) (Fin 2) ℂ)⁻¹ 0 1 :=
  C30_eps_inv !![2, 1; 1, 2] (Equiv.swap 0 1) (by intro i j; fin_cases i <;> fin_cases j <;> simp) 0 1

/-- **C30.** The Hamiltonian of a mirror-symmetric structure commutes with the mirror: whenever state `j` is
the mirror image of state `i` (same guided mode, reflected plane wave) and the inverse permittivity has
the symmetry of the structure. -/
theorem C30_commutes (theta : ℝ) (gi : List ℕ) (used : List (List (ℝ × ℝ))) (ms : List SymMode)
    (hms : symModes theta gi used = .ok ms) (hs : ∀ gs ∈ used, Spec.Spread gs)
    (ij : LPos → ℂ → ℂ) (stack : List (LPos × ℝ)) (einv : ℕ → ℕ → List ℂ) (st : ℕ → GmeState)
    (M : ℕ → ℕ → ℂ)
    (hM : ∀ i < (Spec.gmBasis 0 gi used).length, ∀ j < (Spec.gmBasis 0 gi used).length,
      M i j = gmeElem ij stack (einv i j) (st i) (st j))
    (hpol : ∀ i < (Spec.gmBasis 0 gi used).length,
      (st i).pol = if ((Spec.gmBasis 0 gi used).getD i (0, 0, 0)).2.1 % 2 = 0 then Pol.te else Pol.tm)
    (himg : ∀ i < (Spec.gmBasis 0 gi used).length, ∀ j < (Spec.gmBasis 0 gi used).length,
      Spec.IsImage theta ((Spec.gmBasis 0 gi used).getD i (0, 0, 0))
        ((Spec.gmBasis 0 gi used).getD j (0, 0, 0)) → st j = mirrorState theta (st i))
    (heps : ∀ i < (Spec.gmBasis 0 gi used).length, ∀ j < (Spec.gmBasis 0 gi used).length,
      ∀ i' < (Spec.gmBasis 0 gi used).length, ∀ j' < (Spec.gmBasis 0 gi used).length,
      Spec.IsImage theta ((Spec.gmBasis 0 gi used).getD i (0, 0, 0))
        ((Spec.gmBasis 0 gi used).getD i' (0, 0, 0)) →
      Spec.IsImage theta ((Spec.gmBasis 0 gi used).getD j (0, 0, 0))
        ((Spec.gmBasis 0 gi used).getD j' (0, 0, 0)) → einv i' j' = einv i j) :
    SepFacts.Commutes theta (Spec.gmBasis 0 gi used) M := by
  obtain ⟨g1, g2, g3, -, g5⟩ := symModes_good theta gi used ms hms hs 0
  set B := Spec.gmBasis 0 gi used with hB
  have hr := gR_lt ms g1
  have hrr := gR_gR ms g1
  have hsign : ∀ i < B.length, stateSign (st i) = gP ms i := by
    intro i hi
    rw [g3 i (by rw [← g2]; exact hi)]
    unfold stateSign polSign
    rw [hpol i hi]
    split_ifs <;> rfl
  have hMr : ∀ i < B.length, ∀ j < B.length, M (gR ms i) (gR ms j) = (gP ms i * gP ms j : ℝ) * M i j := by
    intro i hi j hj
    have hi2 : gR ms i < B.length := by rw [g2] at hi ⊢; exact hr i hi
    have hj2 : gR ms j < B.length := by rw [g2] at hj ⊢; exact hr j hj
    have ii := (g5 i (gR ms i) (by rw [← g2]; exact hi) (by rw [← g2]; exact hi2)).2 rfl
    have jj := (g5 j (gR ms j) (by rw [← g2]; exact hj) (by rw [← g2]; exact hj2)).2 rfl
    rw [hM _ hi2 _ hj2, hM i hi j hj, himg i hi _ hi2 ii, himg j hj _ hj2 jj,
      heps i hi j hj _ hi2 _ hj2 ii jj, C30_element, hsign i hi, hsign j hj]
  have hpp : ∀ j, (gP ms j : ℂ) * gP ms j = 1 := by
    intro j; rcases gP_cases ms j with h | h <;> rw [h] <;> norm_num
  intro c i hi
  have hi' : i < symDim ms := by rw [← g2]; exact hi
  rw [mirror_eq theta gi used ms hms hs _ i hi']
  unfold Spec.act
  rw [mul_sum]
  -- reindex the sum by the partner map
  have e1 : ∀ j ∈ range B.length, M i j * Spec.mirror theta B c j = M i j * ((gP ms j : ℂ) * c (gR ms j)) := by
    intro j hj
    rw [hB, mirror_eq theta gi used ms hms hs c j (by rw [← g2]; exact mem_range.1 hj)]
  rw [sum_congr rfl e1]
  refine sum_bij (fun j _ => gR ms j) ?_ ?_ ?_ ?_
  · intro j hj; rw [mem_range, g2] at *; exact hr j hj
  · intro a ha b hb hab
    rw [mem_range, g2] at ha hb
    rw [← hrr a ha, ← hrr b hb, hab]
  · intro b hb
    rw [mem_range, g2] at hb
    exact ⟨gR ms b, by rw [mem_range, g2]; exact hr b hb, hrr b hb⟩
  · intro j hj
    have hj' := mem_range.1 hj
    rw [hMr i hi j hj']
    push_cast
    have := hpp i
    linear_combination (-(gP ms j : ℂ) * M i j * c (gR ms j)) * this

theorem exModes : ∃ ms, symModes 0 [1] exUsed = .ok ms := by
  obtain ⟨s, hs⟩ := exSep false
  cases h : symModes 0 [1] exUsed with
  | ok ms => exact ⟨ms, rfl⟩
  | error e => rw [separate, h] at hs; cases hs

/-- The TM states at `(0, 1)` and `(0, -1)` in a symmetric layer. -/
def exState (i : ℕ) : GmeState := ⟨.tm, 0, if i = 0 then 1 else -1, 1, [⟨1, 1, 1⟩]⟩

example : SepFacts.Commutes 0 (Spec.gmBasis 0 [1] exUsed)
    (fun i j => gmeElem ijLayer [(.inner 1, 2)] (if i = j then [2] else [1]) (exState i) (exState j)) := by
  obtain ⟨ms, hms⟩ := exModes
  refine C30_commutes 0 [1] exUsed ms hms exSpread ijLayer [(.inner 1, 2)]
    (fun i j => if i = j then [2] else [1]) exState _ (fun _ _ _ _ => rfl) ?_ ?_ ?_
  · intro i hi
    rw [exLen] at hi
    interval_cases i <;> simp [Spec.gmBasis, exUsed, exState]
  · intro i hi j hj
    rw [exLen] at hi hj
    interval_cases i <;> interval_cases j <;>
      simp [Spec.gmBasis, exUsed, exState, Spec.IsImage, Spec.mirrorVec, mirrorState] <;> norm_num
  · intro i hi j hj i' hi' j' hj'
    rw [exLen] at hi hj hi' hj'
    interval_cases i <;> interval_cases j <;> interval_cases i' <;> interval_cases j' <;>
      simp [Spec.gmBasis, exUsed, Spec.IsImage, Spec.mirrorVec] <;> norm_num

end Legume
