import Verif.Model.FieldPlanes
import Verif.Spec.FieldOverlap
import Verif.Props.EpsPlot
import Verif.Props.GmeInvariance
import Verif.Props.GmeFields

/-!
# Overlaps of fields over the cell and all heights
-/
namespace Legume

open Complex Spec MeasureTheory
open scoped ComplexConjugate

/-! ### Averages over the cell -/

theorem cellMean_sum {ι : Type} (S : Finset ι) (a1 a2 : R2) (f : ι → ℝ → ℝ → ℂ)
    (hf : ∀ i ∈ S, Continuous fun p : ℝ × ℝ => f i p.1 p.2) :
    cellMean a1 a2 (fun x y => ∑ i ∈ S, f i x y) = ∑ i ∈ S, cellMean a1 a2 (f i) := by
  have hc : ∀ i ∈ S, Continuous fun p : ℝ × ℝ => f i (p.1 * a1.1 + p.2 * a2.1) (p.1 * a1.2 + p.2 * a2.2) :=
    fun i hi => (hf i hi).comp (f := fun p : ℝ × ℝ => (p.1 * a1.1 + p.2 * a2.1, p.1 * a1.2 + p.2 * a2.2))
      (by fun_prop)
  unfold cellMean
  have h1 : ∀ u : ℝ, (∫ v in (0 : ℝ)..1, ∑ i ∈ S, f i (u * a1.1 + v * a2.1) (u * a1.2 + v * a2.2)) =
      ∑ i ∈ S, ∫ v in (0 : ℝ)..1, f i (u * a1.1 + v * a2.1) (u * a1.2 + v * a2.2) := by
    intro u
    refine intervalIntegral.integral_finset_sum fun i hi => Continuous.intervalIntegrable ?_ _ _
    exact (hc i hi).comp (f := fun v : ℝ => (u, v)) (by fun_prop)
  simp only [h1]
  refine intervalIntegral.integral_finset_sum fun i hi => Continuous.intervalIntegrable ?_ _ _
  exact intervalIntegral.continuous_parametric_intervalIntegral_of_continuous' (hc i hi) 0 1

/-- Parseval's identity for finitely many different plane waves. -/
theorem cellMean_parseval {ι : Type} [DecidableEq ι] (S : Finset ι) (a1 a2 b1 b2 : R2) (hd : Dual a1 a2 b1 b2)
    (m : ι → ℤ × ℤ) (hm : ∀ i ∈ S, ∀ j ∈ S, m i = m j → i = j) (a b : ι → ℂ) :
    cellMean a1 a2 (fun x y => conj (∑ i ∈ S, a i * wave (latVec b1 b2 (m i)) x y) *
      ∑ i ∈ S, b i * wave (latVec b1 b2 (m i)) x y) = ∑ i ∈ S, conj (a i) * b i := by
  have e : ∀ x y : ℝ, conj (∑ i ∈ S, a i * wave (latVec b1 b2 (m i)) x y) *
      ∑ i ∈ S, b i * wave (latVec b1 b2 (m i)) x y = ∑ p ∈ S ×ˢ S,
        (conj (a p.1) * b p.2) * wave (latVec b1 b2 (m p.2)) x y * conj (wave (latVec b1 b2 (m p.1)) x y) := by
    intro x y
    rw [map_sum, Finset.sum_mul_sum, Finset.sum_product]
    refine Finset.sum_congr rfl fun i _ => Finset.sum_congr rfl fun j _ => ?_
    rw [map_mul]; ring
  simp only [e]
  rw [cellMean_sum]
  · have h1 : ∀ p ∈ S ×ˢ S, cellMean a1 a2 (fun x y => (conj (a p.1) * b p.2) *
        wave (latVec b1 b2 (m p.2)) x y * conj (wave (latVec b1 b2 (m p.1)) x y)) =
        if p.2 = p.1 then conj (a p.1) * b p.2 else 0 := by
      intro p hp
      rw [Finset.mem_product] at hp
      have := cellMean_wave a1 a2 b1 b2 hd (m p.2) (m p.1) (conj (a p.1) * b p.2)
      unfold cellMean
      rw [this]
      by_cases h : p.2 = p.1
      · rw [if_pos h, if_pos (by rw [h])]
      · rw [if_neg h, if_neg fun h' => h (hm _ hp.2 _ hp.1 h')]
    rw [Finset.sum_congr rfl h1, Finset.sum_product]
    refine Finset.sum_congr rfl fun i hi => ?_
    rw [Finset.sum_ite_eq' S i fun j => conj (a i) * b j, if_pos hi]
  · intro p _
    exact (continuous_const.mul (continuous_wave _)).mul (Complex.continuous_conj.comp (continuous_wave _))

/-! ### The inverse transform for different plane waves -/

theorem fieldAt_eq (N : ℕ) (F : ℕ → Fin 3 → ℂ) (gvec : ℕ → R2)
    (hg : ∀ i < N, ∀ j < N, gvec i = gvec j → i = j) (x y : ℝ) (c : Fin 3) :
    fieldAt N F gvec x y c = ∑ G ∈ Finset.range N, F G c * wave (gvec G) x y := by
  classical
  let Fi : R2 → ℂ := fun g => if h : ∃ G < N, gvec G = g then F h.choose c else 0
  have hFi : ∀ G < N, Fi (gvec G) = F G c := by
    intro G hG
    have h : ∃ G' < N, gvec G' = gvec G := ⟨G, hG, rfl⟩
    simp only [Fi, dif_pos h]
    rw [hg _ h.choose_spec.1 _ hG h.choose_spec.2]
  unfold fieldAt
  rw [C55_once Fi]
  · rw [List.map_map]
    have : ((List.range N).map (Prod.snd ∘ fun (G : ℕ) => (F G c, gvec G))).toFinset =
        (Finset.range N).image gvec := by
      ext g
      simp [List.mem_toFinset]
    rw [this, Finset.sum_image]
    · refine Finset.sum_congr rfl fun G hG => ?_
      rw [hFi G (Finset.mem_range.1 hG)]
    · intro i hi j hj h
      exact hg i (Finset.mem_range.1 hi) j (Finset.mem_range.1 hj) h
  · intro p hp
    obtain ⟨G, hG, rfl⟩ := List.mem_map.1 hp
    exact (hFi G (List.mem_range.1 hG)).symm

/-- Average of the scalar product of two fields. -/
theorem cellMean_fields (N : ℕ) (F F' : ℕ → Fin 3 → ℂ) (a1 a2 b1 b2 : R2) (hd : Dual a1 a2 b1 b2)
    (m : ℕ → ℤ × ℤ) (hm : ∀ i < N, ∀ j < N, m i = m j → i = j)
    (hg : ∀ i < N, ∀ j < N, latVec b1 b2 (m i) = latVec b1 b2 (m j) → i = j) :
    cellMean a1 a2 (fun x y => ∑ c, conj (fieldAt N F (fun G => latVec b1 b2 (m G)) x y c) *
      fieldAt N F' (fun G => latVec b1 b2 (m G)) x y c) =
      ∑ G ∈ Finset.range N, ∑ c, conj (F G c) * F' G c := by
  have e : ∀ (F : ℕ → Fin 3 → ℂ) x y c, fieldAt N F (fun G => latVec b1 b2 (m G)) x y c =
      ∑ G ∈ Finset.range N, F G c * wave (latVec b1 b2 (m G)) x y := fun F x y c => fieldAt_eq N F _ hg x y c
  simp only [e]
  rw [cellMean_sum]
  · rw [Finset.sum_comm]
    refine Finset.sum_congr rfl fun c _ => ?_
    exact cellMean_parseval (Finset.range N) a1 a2 b1 b2 hd m (fun i hi j hj h =>
      hm i (Finset.mem_range.1 hi) j (Finset.mem_range.1 hj) h) (fun G => F G c) fun G => F' G c
  · intro c _
    have hs : ∀ F : ℕ → Fin 3 → ℂ, Continuous fun p : ℝ × ℝ =>
        ∑ G ∈ Finset.range N, F G c * wave (latVec b1 b2 (m G)) p.1 p.2 := fun F =>
      continuous_finset_sum _ fun G _ => continuous_const.mul (continuous_wave _)
    exact (Complex.continuous_conj.comp (hs F)).mul (hs F')

/-! ### Sums over plane waves as sums over pairs of states -/

theorem sum_ofFn_states {n : ℕ} (b : Fin n → ℕ × GmeState) (u : Fin n → ℂ) (j : ℕ) (f : FieldState → ℂ) :
    ((fieldStates b u j).map f).sum = ∑ i, f ⟨(b i).1, u i, (b i).2, (b i).2.layAt j⟩ := by
  unfold fieldStates
  rw [List.map_ofFn, List.sum_ofFn]; rfl

/-- `∑_G conj((E F)_G) · F'_G` for fields made of states, `E` Hermitian. -/
theorem sum_pairs {n N : ℕ} (ig : Fin n → ℕ) (hig : ∀ i, ig i < N) (E : ℕ → ℕ → ℂ)
    (hE : ∀ G < N, ∀ G' < N, conj (E G G') = E G' G) (f f' : Fin n → Fin 3 → ℂ) :
    ∑ G ∈ Finset.range N, ∑ c, conj (∑ G' ∈ Finset.range N, E G G' * ∑ i, if ig i = G' then f i c else 0) *
      (∑ i, if ig i = G then f' i c else 0) =
    ∑ i, ∑ i', E (ig i) (ig i') * ∑ c, conj (f i c) * f' i' c := by
  have h1 : ∀ G c, (∑ G' ∈ Finset.range N, E G G' * ∑ i, if ig i = G' then f i c else 0) =
      ∑ i, E G (ig i) * f i c := by
    intro G c
    simp only [Finset.mul_sum]
    rw [Finset.sum_comm]
    refine Finset.sum_congr rfl fun i _ => ?_
    rw [Finset.sum_eq_single (ig i)]
    · rw [if_pos rfl]
    · intro G' _ h; rw [if_neg (Ne.symm h), mul_zero]
    · intro h; exact absurd (Finset.mem_range.2 (hig i)) h
  simp only [h1]
  have h2 : ∀ G c, conj (∑ i, E G (ig i) * f i c) * (∑ i', if ig i' = G then f' i' c else 0) =
      ∑ i, ∑ i', if ig i' = G then conj (E G (ig i)) * (conj (f i c) * f' i' c) else 0 := by
    intro G c
    rw [map_sum, Finset.sum_mul_sum]
    refine Finset.sum_congr rfl fun i _ => Finset.sum_congr rfl fun i' _ => ?_
    split
    · rw [map_mul]; ring
    · rw [mul_zero]
  simp only [h2]
  have h3 : ∑ G ∈ Finset.range N, ∑ c : Fin 3, ∑ i, ∑ i',
      (if ig i' = G then conj (E G (ig i)) * (conj (f i c) * f' i' c) else 0) =
      ∑ i, ∑ i', ∑ c : Fin 3, ∑ G ∈ Finset.range N,
        (if ig i' = G then conj (E G (ig i)) * (conj (f i c) * f' i' c) else 0) := by
    rw [Finset.sum_comm]
    have : ∀ c : Fin 3, ∑ G ∈ Finset.range N, ∑ i, ∑ i',
        (if ig i' = G then conj (E G (ig i)) * (conj (f i c) * f' i' c) else 0) =
        ∑ i, ∑ i', ∑ G ∈ Finset.range N,
          (if ig i' = G then conj (E G (ig i)) * (conj (f i c) * f' i' c) else 0) := by
      intro c
      rw [Finset.sum_comm]
      refine Finset.sum_congr rfl fun i _ => ?_
      rw [Finset.sum_comm]
    simp only [this]
    rw [Finset.sum_comm]
    refine Finset.sum_congr rfl fun i _ => ?_
    rw [Finset.sum_comm]
  rw [h3]
  refine Finset.sum_congr rfl fun i _ => Finset.sum_congr rfl fun i' _ => ?_
  rw [Finset.mul_sum]
  refine Finset.sum_congr rfl fun c _ => ?_
  rw [Finset.sum_eq_single (ig i')]
  · rw [if_pos rfl, hE _ (hig i') _ (hig i)]
  · intro G _ h; rw [if_neg (Ne.symm h)]
  · intro h; exact absurd (Finset.mem_range.2 (hig i')) h

/-! ### The magnetic field of one layer -/

theorem decays_eff {pos : LPos} {m : ModeL} (h : Decays pos m) : effMode pos m = m := by
  obtain ⟨A, B, x⟩ := m
  cases pos with
  | lower => rw [show A = 0 from h.1]; rfl
  | upper => rw [show B = 0 from h.1]; rfl
  | inner d => rfl

/-- Scalar product of the magnetic fields of two states with the same plane wave. -/
theorem hMode_dot (pos : LPos) (s t : GmeState) (m1 m2 : ModeL) (h1 : Decays pos m1) (h2 : Decays pos m2)
    (hx : s.gx = t.gx) (hy : s.gy = t.gy) (hg : s.gk ≠ 0) (z : ℝ) :
    ∑ c, conj (hMode pos s m1 z c) * hMode pos t m2 z c = match s.pol, t.pol with
      | .te, .te => conj m1.x * m2.x * (conj (fld m1 (-1) z) * fld m2 (-1) z) +
          (s.gk : ℂ) ^ 2 * (conj (fld m1 1 z) * fld m2 1 z)
      | .tm, .tm => conj (fld m1 1 z) * fld m2 1 z
      | _, _ => 0 := by
  have hp : t.p = s.p := by unfold GmeState.p GmeState.gk; rw [hx, hy]
  have hk : t.gk = s.gk := by unfold GmeState.gk; rw [hx, hy]
  have e : (s.p.1 : ℂ) ^ 2 + (s.p.2 : ℂ) ^ 2 = 1 := by exact_mod_cast p_sq s hg
  rw [hMode_eq, hMode_eq, decays_eff h1, decays_eff h2]
  have hI := I_sq
  rcases hs : s.pol with _ | _ <;> rcases ht : t.pol with _ | _ <;>
    simp only [Fin.sum_univ_three, Matrix.cons_val_zero, Matrix.cons_val_one, Matrix.cons_val,
      fieldSum_eq_fld, fieldDiff_eq_fld, map_mul, map_neg, Complex.conj_ofReal, Complex.conj_I, map_zero, q_eq,
      hp, hk]
  · linear_combination (conj m1.x * m2.x * (conj (fld m1 (-1) z) * fld m2 (-1) z)) * e -
      (conj m1.x * m2.x * (conj (fld m1 (-1) z) * fld m2 (-1) z) * ((s.p.1 : ℂ) ^ 2 + (s.p.2 : ℂ) ^ 2) +
      (s.gk : ℂ) ^ 2 * (conj (fld m1 1 z) * fld m2 1 z)) * hI
  · push_cast; ring
  · push_cast; ring
  · push_cast
    linear_combination (conj (fld m1 1 z) * fld m2 1 z) * e

theorem hMode_dot_integrable (pos : LPos) (s t : GmeState) (m1 m2 : ModeL) (h1 : Decays pos m1)
    (h2 : Decays pos m2) (hx : s.gx = t.gx) (hy : s.gy = t.gy) (hg : s.gk ≠ 0) :
    Integrable (fun z => ∑ c, conj (hMode pos s m1 z c) * hMode pos t m2 z c) (layMeasure pos) := by
  simp only [hMode_dot pos s t m1 m2 h1 h2 hx hy hg]
  have i := fun s1 s2 hs => fld_mul_integrable pos m1 m2 h1 h2 s1 s2 hs
  rcases s.pol with _ | _ <;> rcases t.pol with _ | _ <;> simp only
  · exact ((i (-1) (-1) (by simp)).const_mul _).add ((i 1 1 (by simp)).const_mul _)
  · exact integrable_zero _ _ _
  · exact integrable_zero _ _ _
  · exact i 1 1 (by simp)

theorem hMode_dot_integral (pos : LPos) (s t : GmeState) (m1 m2 : ModeL) (h1 : Decays pos m1)
    (h2 : Decays pos m2) (hx : s.gx = t.gx) (hy : s.gy = t.gy) (hg : s.gk ≠ 0) :
    ∫ z, ∑ c, conj (hMode pos s m1 z c) * hMode pos t m2 z c ∂(layMeasure pos) = match s.pol, t.pol with
      | .te, .te => oDiff pos m1 m2 + (s.gk : ℂ) ^ 2 * oSum pos m1 m2
      | .tm, .tm => oSum pos m1 m2
      | _, _ => 0 := by
  simp only [hMode_dot pos s t m1 m2 h1 h2 hx hy hg]
  have i := fun s1 s2 hs => fld_mul_integrable pos m1 m2 h1 h2 s1 s2 hs
  rcases s.pol with _ | _ <;> rcases t.pol with _ | _ <;> simp only [integral_zero, oDiff, oSum]
  rw [integral_add ((i (-1) (-1) (by simp)).const_mul _) ((i 1 1 (by simp)).const_mul _), integral_const_mul,
    integral_const_mul]

/-! ### States of a slab, layer by layer -/

theorem dual_inj {a1 a2 b1 b2 : R2} (hd : Dual a1 a2 b1 b2) {m n : ℤ × ℤ}
    (h : latVec b1 b2 m = latVec b1 b2 n) : m = n := by
  have h1 := congrArg Prod.fst h
  have h2 := congrArg Prod.snd h
  simp only [latVec] at h1 h2
  have pp : (2 * Real.pi : ℝ) ≠ 0 := by positivity
  have e1 : (m.1 : ℝ) * (2 * Real.pi) = n.1 * (2 * Real.pi) := by
    linear_combination a1.1 * h1 + a1.2 * h2 - (m.1 - n.1 : ℝ) * hd.h11 - (m.2 - n.2 : ℝ) * hd.h12
  have e2 : (m.2 : ℝ) * (2 * Real.pi) = n.2 * (2 * Real.pi) := by
    linear_combination a2.1 * h1 + a2.2 * h2 - (m.1 - n.1 : ℝ) * hd.h21 - (m.2 - n.2 : ℝ) * hd.h22
  exact Prod.ext (by exact_mod_cast mul_right_cancel₀ pp e1) (by exact_mod_cast mul_right_cancel₀ pp e2)

theorem dual_area {a1 a2 b1 b2 : R2} (hd : Dual a1 a2 b1 b2) : 0 < cellArea a1 a2 := by
  unfold cellArea
  rw [abs_pos]
  intro h
  have e : (a1.1 * a2.2 - a1.2 * a2.1) * (b1.1 * b2.2 - b1.2 * b2.1) = (2 * Real.pi) ^ 2 := by
    have := hd.h11; have := hd.h12; have := hd.h21; have := hd.h22
    linear_combination hd.h22 * (a1.1 * b1.1 + a1.2 * b1.2) + 2 * Real.pi * hd.h11 -
      (a2.1 * b1.1 + a2.2 * b1.2) * hd.h12
  rw [h, zero_mul] at e
  have : (0 : ℝ) < (2 * Real.pi) ^ 2 := by positivity
  linarith

theorem getD_get {α : Type} (l : List α) (d : α) {j : ℕ} (h : j < l.length) : l.getD j d = l[j] := by
  simp [List.getD, h]

theorem sum_zip_fin {α β γ : Type} (l : List α) (l1 : List β) (l2 : List γ) (d1 : β) (d2 : γ)
    (h1 : l1.length = l.length) (h2 : l2.length = l.length) (f : α × β × γ → ℂ) :
    ((l.zip (l1.zip l2)).map f).sum = ∑ j : Fin l.length, f (l[j], l1.getD j d1, l2.getD j d2) := by
  induction l generalizing l1 l2 with
  | nil => simp
  | cons a l ih =>
    cases l1 with
    | nil => simp at h1
    | cons b l1 =>
      cases l2 with
      | nil => simp at h2
      | cons c l2 =>
        have := ih l1 l2 (by simpa using h1) (by simpa using h2)
        simp only [List.zip_cons_cons, List.map_cons, List.sum_cons, this]
        exact (Fin.sum_univ_succ (n := l.length)
          fun j => f ((a :: l)[j], (b :: l1).getD (j : ℕ) d1, (c :: l2).getD (j : ℕ) d2)).symm

theorem layAt_mkLayers (om g : ℝ) (stack : List (LPos × ℝ)) (abs : List (ℂ × ℂ)) (s : GmeState)
    (hs : s.layers = mkLayers om g (stack.map Prod.snd) abs) (h : abs.length = stack.length)
    (j : Fin stack.length) : s.layAt j = mAt om g stack[j].2 (abs.getD j (0, 0)) := by
  unfold GmeState.layAt
  rw [hs]
  unfold mkLayers
  have hj : (j : ℕ) < (List.zipWith (fun e ab => (⟨ab.1, ab.2, chi om g e⟩ : ModeL)) (stack.map Prod.snd)
      abs).length := by
    simp [h]
  have hj2 : (j : ℕ) < abs.length := by rw [h]; exact j.2
  rw [getD_get _ _ hj, List.getElem_zipWith, getD_get _ _ hj2, List.getElem_map]
  rfl

theorem layAt_mem (om g : ℝ) (stack : List (LPos × ℝ)) (abs : List (ℂ × ℂ)) (h : abs.length = stack.length)
    (j : Fin stack.length) : (stack[j], abs.getD j (0, 0)) ∈ stack.zip abs := by
  have hj2 : (j : ℕ) < abs.length := by rw [h]; exact j.2
  rw [getD_get _ _ hj2]
  have hj : (j : ℕ) < (stack.zip abs).length := by simp [h]
  have := List.getElem_mem hj
  rwa [List.getElem_zip] at this

/-- Normalised states of a slab decay in the claddings. -/
theorem state_decays {pol : Pol} {gx gy om e0 eN : ℝ} {ls : List (ℝ × ℝ)} {abs : List (ℂ × ℂ)} (hne : ls ≠ [])
    (hd : ∀ l ∈ ls, 0 ≤ l.2) (h0 : e0 ≠ 0) (hN : eN ≠ 0) (hl : ∀ l ∈ ls, l.1 ≠ 0)
    (h : SlabRoot pol om (√(gx ^ 2 + gy ^ 2)) e0 eN ls abs) (j : Fin (slabStack e0 eN ls).length) :
    Decays (slabStack e0 eN ls)[j].1 ((normState pol gx gy om e0 eN ls abs).layAt j) := by
  obtain ⟨g1, f1⟩ := slabRoot_guided h hne h0 hN hl
  set c := √(slabNorm pol (√(gx ^ 2 + gy ^ 2)) (slabStack e0 eN ls)
    (mkLayers om (√(gx ^ 2 + gy ^ 2)) ((slabStack e0 eN ls).map Prod.snd) abs))
  have hlen : (scaleAbs c abs).length = (slabStack e0 eN ls).length := by
    simp [scaleAbs, g1.len, slabStack_length]
  rw [layAt_mkLayers om (√(gx ^ 2 + gy ^ 2)) (slabStack e0 eN ls) (scaleAbs c abs) _ (by rw [normState_eq]) hlen]
  exact guided_decays (guided_scale g1 c) hd _ (layAt_mem om (√(gx ^ 2 + gy ^ 2)) _ _ hlen j)

/-- Normalised states of a slab with the same plane wave are orthonormal. -/
theorem states_orthonormal {pol1 pol2 : Pol} {gx gy om1 om2 e0 eN : ℝ} {ls : List (ℝ × ℝ)}
    {abs1 abs2 : List (ℂ × ℂ)} (hne : ls ≠ [])
    (hd : ∀ l ∈ ls, 0 ≤ l.2) (h0 : e0 ≠ 0) (hN : eN ≠ 0) (hl : ∀ l ∈ ls, l.1 ≠ 0) (hg : √(gx ^ 2 + gy ^ 2) ≠ 0)
    (h1 : SlabRoot pol1 om1 (√(gx ^ 2 + gy ^ 2)) e0 eN ls abs1)
    (h2 : SlabRoot pol2 om2 (√(gx ^ 2 + gy ^ 2)) e0 eN ls abs2) :
    (∑ j : Fin (slabStack e0 eN ls).length, ∫ z, ∑ c,
      conj (hMode (slabStack e0 eN ls)[j].1 (normState pol1 gx gy om1 e0 eN ls abs1)
        ((normState pol1 gx gy om1 e0 eN ls abs1).layAt j) z c) *
      hMode (slabStack e0 eN ls)[j].1 (normState pol1 gx gy om1 e0 eN ls abs1)
        ((normState pol1 gx gy om1 e0 eN ls abs1).layAt j) z c ∂(layMeasure (slabStack e0 eN ls)[j].1)) = 1 ∧
    (pol1 ≠ pol2 ∨ om1 ^ 2 ≠ om2 ^ 2 → (∑ j : Fin (slabStack e0 eN ls).length, ∫ z, ∑ c,
      conj (hMode (slabStack e0 eN ls)[j].1 (normState pol1 gx gy om1 e0 eN ls abs1)
        ((normState pol1 gx gy om1 e0 eN ls abs1).layAt j) z c) *
      hMode (slabStack e0 eN ls)[j].1 (normState pol2 gx gy om2 e0 eN ls abs2)
        ((normState pol2 gx gy om2 e0 eN ls abs2).layAt j) z c ∂(layMeasure (slabStack e0 eN ls)[j].1)) = 0) := by
  have he : ∀ p ∈ slabStack e0 eN ls, p.2 ≠ 0 := by
    intro p hp
    simp only [slabStack, List.cons_append, List.mem_cons, List.mem_append, List.not_mem_nil, or_false,
      List.mem_map] at hp
    rcases hp with rfl | ⟨l, hl', rfl⟩ | rfl
    exacts [h0, hl l hl', hN]
  have dec := fun {pol : Pol} {om : ℝ} {abs : List (ℂ × ℂ)} (h : SlabRoot pol om (√(gx ^ 2 + gy ^ 2)) e0 eN ls abs) j =>
    state_decays (gx := gx) (gy := gy) hne hd h0 hN hl h j
  have form : ∀ {p1 p2 : Pol} {o1 o2 : ℝ} {ab1 ab2 : List (ℂ × ℂ)}
      (_ : SlabRoot p1 o1 (√(gx ^ 2 + gy ^ 2)) e0 eN ls ab1) (_ : SlabRoot p2 o2 (√(gx ^ 2 + gy ^ 2)) e0 eN ls ab2),
      (∑ j : Fin (slabStack e0 eN ls).length, ∫ z, ∑ c,
      conj (hMode (slabStack e0 eN ls)[j].1 (normState p1 gx gy o1 e0 eN ls ab1)
        ((normState p1 gx gy o1 e0 eN ls ab1).layAt j) z c) *
      hMode (slabStack e0 eN ls)[j].1 (normState p2 gx gy o2 e0 eN ls ab2)
        ((normState p2 gx gy o2 e0 eN ls ab2).layAt j) z c ∂(layMeasure (slabStack e0 eN ls)[j].1)) =
      if p1 = p2 then normForm p1 o1 o2 (√(gx ^ 2 + gy ^ 2)) (bothModes e0 eN ls
        (scaleAbs (√(slabNorm p1 (√(gx ^ 2 + gy ^ 2)) (slabStack e0 eN ls)
          (mkLayers o1 (√(gx ^ 2 + gy ^ 2)) ((slabStack e0 eN ls).map Prod.snd) ab1))) ab1)
        (scaleAbs (√(slabNorm p2 (√(gx ^ 2 + gy ^ 2)) (slabStack e0 eN ls)
          (mkLayers o2 (√(gx ^ 2 + gy ^ 2)) ((slabStack e0 eN ls).map Prod.snd) ab2))) ab2)) else 0 := by
    intro p1 p2 o1 o2 ab1 ab2 r1 r2
    have gs : ∀ p o a, (normState p gx gy o e0 eN ls a).gk = √(gx ^ 2 + gy ^ 2) := fun _ _ _ => rfl
    have hI := fun j => hMode_dot_integral (slabStack e0 eN ls)[j].1 (normState p1 gx gy o1 e0 eN ls ab1)
      (normState p2 gx gy o2 e0 eN ls ab2) _ _ (dec r1 j) (dec r2 j) rfl rfl (by rw [gs]; exact hg)
    rw [Finset.sum_congr rfl fun j _ => hI j]
    simp only [gs]
    obtain ⟨q1, -⟩ := slabRoot_guided r1 hne h0 hN hl
    obtain ⟨q2, -⟩ := slabRoot_guided r2 hne h0 hN hl
    set g := √(gx ^ 2 + gy ^ 2)
    set c1 := √(slabNorm p1 g (slabStack e0 eN ls) (mkLayers o1 g ((slabStack e0 eN ls).map Prod.snd) ab1))
    set c2 := √(slabNorm p2 g (slabStack e0 eN ls) (mkLayers o2 g ((slabStack e0 eN ls).map Prod.snd) ab2))
    have l1 : (scaleAbs c1 ab1).length = (slabStack e0 eN ls).length := by
      simp [scaleAbs, q1.len, slabStack_length]
    have l2 : (scaleAbs c2 ab2).length = (slabStack e0 eN ls).length := by
      simp [scaleAbs, q2.len, slabStack_length]
    have m1 := layAt_mkLayers o1 g (slabStack e0 eN ls) (scaleAbs c1 ab1) (normState p1 gx gy o1 e0 eN ls ab1)
      (by rw [normState_eq]) l1
    have m2 := layAt_mkLayers o2 g (slabStack e0 eN ls) (scaleAbs c2 ab2) (normState p2 gx gy o2 e0 eN ls ab2)
      (by rw [normState_eq]) l2
    have hp1 : (normState p1 gx gy o1 e0 eN ls ab1).pol = p1 := rfl
    have hp2 : (normState p2 gx gy o2 e0 eN ls ab2).pol = p2 := rfl
    rw [hp1, hp2]
    simp only [m1, m2]
    cases p1 <;> cases p2
    · rw [if_pos rfl]
      simp only [normForm, sumQ, bothModes]
      rw [sum_zip_fin _ _ _ (0, 0) (0, 0) l1 l2]
      refine Finset.sum_congr rfl fun j _ => ?_
      simp only [vOf, one_mul]
    · simp
    · simp
    · rw [if_pos rfl]
      simp only [normForm, sumP, bothModes]
      rw [sum_zip_fin _ _ _ (0, 0) (0, 0) l1 l2]
      refine Finset.sum_congr rfl fun j _ => ?_
      have : ((slabStack e0 eN ls)[j].2 : ℂ) ≠ 0 :=
        Complex.ofReal_ne_zero.2 (he _ (List.getElem_mem j.2))
      simp only [vOf]
      rw [one_div, inv_mul_cancel₀ this, one_mul]
  obtain ⟨g1, f1⟩ := slabRoot_guided h1 hne h0 hN hl
  obtain ⟨g2, f2⟩ := slabRoot_guided h2 hne h0 hN hl
  constructor
  · rw [form h1 h1, if_pos rfl]
    have hp := slabNorm_pos g1 hd hg f1
    have hn := slabNorm_eq g1 hd he
    set N := slabNorm pol1 (√(gx ^ 2 + gy ^ 2)) (slabStack e0 eN ls)
      (mkLayers om1 (√(gx ^ 2 + gy ^ 2)) ((slabStack e0 eN ls).map Prod.snd) abs1)
    have hN0 : (N : ℂ) ≠ 0 := Complex.ofReal_ne_zero.2 hp.ne'
    have hsq : ((√N : ℝ) : ℂ) * ((√N : ℝ) : ℂ) = N := by
      rw [← Complex.ofReal_mul, Real.mul_self_sqrt hp.le]
    cases pol1
    · simp only [normForm, sumQ_scale, hsq] at hn ⊢
      rw [← hn, one_div, inv_mul_cancel₀ hN0]
    · simp only [normForm, sumP_scale, hsq] at hn ⊢
      rw [← hn, one_div, inv_mul_cancel₀ hN0]
  · intro hdiff
    rw [form h1 h2]
    split
    · rename_i hpol
      subst hpol
      have hom := hdiff.resolve_left (by simp)
      have ho := fun c c' => guided_orthogonal (guided_scale g1 c) (guided_scale g2 c') hd hom
      cases pol1
      · simp only [normForm]; exact (ho _ _).2
      · simp only [normForm]; exact (ho _ _).1
    · rfl

end Legume
