import Verif.Props.RadModes
import Verif.Props.RadFlip

/-! # Overlaps of decaying with radiating fields -/

namespace Legume

open Matrix MeasureTheory
open scoped ComplexConjugate
open Spec

/-- The part of a radiative mode in a layer is bounded: in a cladding the wave is propagating, or only the wave that
decays away from the slab is present. -/
def Radiates : LPos → ModeL → Prop
  | .lower, m => 0 ≤ m.x.im ∧ (m.x.im = 0 ∨ m.A = 0)
  | .inner d, _ => 0 ≤ d
  | .upper, m => 0 ≤ m.x.im ∧ (m.x.im = 0 ∨ m.B = 0)

theorem rad_terms_integrable (pos : LPos) (m1 m2 : ModeL) (h1 : Decays pos m1) (h2 : Radiates pos m2) :
    Integrable (fun t : ℝ => conj m1.A * m2.A * Complex.exp (Complex.I * (m2.x - conj m1.x) * t)) (layMeasure pos) ∧
    Integrable (fun t : ℝ => conj m1.B * m2.B * Complex.exp (Complex.I * (-m2.x + conj m1.x) * t)) (layMeasure pos) ∧
    Integrable (fun t : ℝ => conj m1.A * m2.B * Complex.exp (Complex.I * (-m2.x - conj m1.x) * t)) (layMeasure pos) ∧
    Integrable (fun t : ℝ => conj m1.B * m2.A * Complex.exp (Complex.I * (m2.x + conj m1.x) * t)) (layMeasure pos) := by
  cases pos with
  | inner d =>
    refine ⟨?_, ?_, ?_, ?_⟩ <;> exact (integrable_exp (.inner d) _ trivial).const_mul _
  | lower =>
    obtain ⟨a1, i1⟩ := h1
    obtain ⟨i2, a2⟩ := h2
    refine ⟨?_, (integrable_exp .lower _ ?_).const_mul _, ?_, ?_⟩
    · simp [a1]
    · simp; linarith
    · simp [a1]
    · rcases a2 with a2 | a2
      · refine (integrable_exp .lower _ ?_).const_mul _
        simp; linarith
      · simp [a2]
  | upper =>
    obtain ⟨a1, i1⟩ := h1
    obtain ⟨i2, a2⟩ := h2
    refine ⟨(integrable_exp .upper _ ?_).const_mul _, ?_, ?_, ?_⟩
    · simp; linarith
    · simp [a1]
    · rcases a2 with a2 | a2
      · refine (integrable_exp .upper _ ?_).const_mul _
        simp; linarith
      · simp [a2]
    · simp [a1]

theorem rad_fld_mul_integrable (pos : LPos) (m1 m2 : ModeL) (h1 : Decays pos m1) (h2 : Radiates pos m2)
    (s1 s2 : ℂ) (hs : conj s1 = s1) :
    Integrable (fun t : ℝ => conj (fld m1 s1 t) * fld m2 s2 t) (layMeasure pos) := by
  obtain ⟨i1, i2, i3, i4⟩ := rad_terms_integrable pos m1 m2 h1 h2
  simp only [fld_mul m1 m2 s1 s2 hs]
  exact ((i1.add (i2.const_mul _)).add (i3.const_mul _)).add (i4.const_mul _)

theorem rad_four_exact (pos : LPos) (m1 m2 : ModeL) (h1 : Decays pos m1) (h2 : Radiates pos m2)
    (s1 s2 : ℂ) (hs : conj s1 = s1) :
    four ijExact pos m1 m2 s1 s2 = ∫ t, conj (fld m1 s1 t) * fld m2 s2 t ∂(layMeasure pos) := by
  obtain ⟨i1, i2, i3, i4⟩ := rad_terms_integrable pos m1 m2 h1 h2
  simp only [fld_mul m1 m2 s1 s2 hs]
  rw [integral_four i1 i2 i3 i4]
  simp only [integral_const_mul]
  rfl

theorem rad_density_integrable (s t : GmeState) (eps : ℝ) (pos : LPos) (m1 m2 : ModeL)
    (h1 : Decays pos m1) (h2 : Radiates pos m2) :
    Integrable (density s t eps m1 m2) (layMeasure pos) := by
  have i := fun s1 s2 hs => rad_fld_mul_integrable pos m1 m2 h1 h2 s1 s2 hs
  have : density s t eps m1 m2 = fun z => density s t eps m1 m2 z := rfl
  rw [this]
  simp only [density_eq]
  rcases s.pol with _ | _ <;> rcases t.pol with _ | _ <;> simp only
  · exact (i 1 1 (by simp)).const_mul _
  · exact (i 1 (-1) (by simp)).const_mul _
  · exact (i (-1) 1 (by simp)).const_mul _
  · exact ((i (-1) (-1) (by simp)).const_mul _).add ((i 1 1 (by simp)).const_mul _)

theorem rad_layTerm_exact (s t : GmeState) (l : LayPair) (h1 : Decays l.pos l.m1) (h2 : Radiates l.pos l.m2) :
    layTerm ijExact s t l = l.einv * ∫ z, density s t l.eps l.m1 l.m2 z ∂(layMeasure l.pos) := by
  have i := fun s1 s2 hs => rad_fld_mul_integrable l.pos l.m1 l.m2 h1 h2 s1 s2 hs
  have f := fun s1 s2 hs => rad_four_exact l.pos l.m1 l.m2 h1 h2 s1 s2 hs
  simp only [density_eq]
  rcases hs : s.pol with _ | _ <;> rcases ht : t.pol with _ | _ <;> simp only [layTerm, hs, ht]
  · rw [f 1 1 (by simp), integral_const_mul]; ring
  · rw [f 1 (-1) (by simp), integral_const_mul]; ring
  · rw [f (-1) 1 (by simp), integral_const_mul]; ring
  · rw [integral_add ((i (-1) (-1) (by simp)).const_mul _) ((i 1 1 (by simp)).const_mul _),
      integral_const_mul, integral_const_mul, f (-1) (-1) (by simp), f 1 1 (by simp)]

/-- One layer of a stack with the inverse permittivity of the patterned layer. -/
abbrev PatLayer (N : ℕ) := (LPos × ℝ) × Matrix (Fin N) (Fin N) ℂ

/-- The part of a state in the `L`-th layer. -/
def GmeState.part (s : GmeState) (L : ℕ) : ModeL := s.layers.getD L ⟨0, 0, 0⟩

/-- The displacement field of an expansion in guided modes: the component `c` of its Fourier coefficient at the plane wave
`G` at the height `z` of the `L`-th layer. -/
noncomputable def modeDisp {N : ℕ} (basis : List (BasisEl N)) (evec : ℕ → ℂ) (L : ℕ) (eps z : ℝ) (G : Fin N) (c : Fin 3) : ℂ :=
  ∑ i : Fin basis.length, if basis[i].ig = G then evec i * dispField basis[i].st eps (basis[i].st.part L) z c else 0

/-- Elements as sums over the positions of the layers. -/
theorem gmeElem_range (ij : LPos → ℂ → ℂ) (stack : List (LPos × ℝ)) (es : List ℂ) (s t : GmeState)
    (h1 : es.length = stack.length) (h2 : s.layers.length = stack.length) (h3 : t.layers.length = stack.length) :
    gmeElem ij stack es s t = ∑ L : Fin stack.length,
      layTerm ij s t ⟨stack[L].1, stack[L].2, es.getD L 0, s.part L, t.part L⟩ := by
  rw [gmeElem_eq, layPairs, List.map_map, ← Fin.sum_univ_getElem]
  have hl : (List.map (layTerm ij s t ∘ fun l => (⟨l.1.1.1, l.1.1.2, l.1.2, l.2.1, l.2.2⟩ : LayPair))
      ((stack.zip es).zip (s.layers.zip t.layers))).length = stack.length := by
    simp [h1, h2, h3]
  refine Fintype.sum_equiv (finCongr hl) _ _ fun L => ?_
  have hL : (L : ℕ) < stack.length := hl ▸ L.2
  simp [GmeState.part, List.getD_eq_getElem?_getD, h1, h2, h3, hL]

/-- **The sum of the elements with the coefficients of an expansion** is the overlap of the two fields. -/
theorem sum_overlap {N : ℕ} (stack : List (LPos × ℝ)) (einv : List (Matrix (Fin N) (Fin N) ℂ))
    (hlen : einv.length = stack.length) (basis : List (BasisEl N)) (hd : DecayingBasis stack basis) (t : GmeState)
    (ht : List.Forall₂ (fun a m => Radiates a.1 m) stack t.layers) (j : Fin N) (evec : ℕ → ℂ) :
    ∑ i : Fin basis.length, gmeElem ijExact stack (einv.map fun E => E basis[i].ig j) basis[i].st t * conj (evec i) =
      ∑ L : Fin stack.length, ∫ z, ∑ c, (∑ G, (einv.getD L 0) G j * conj (modeDisp basis evec L stack[L].2 z G c)) *
        dispField t stack[L].2 (t.part L) z c ∂(layMeasure stack[L].1) := by
  have hs : ∀ i : Fin basis.length, basis[i].st.layers.length = stack.length := fun i =>
    (hd _ (List.getElem_mem _)).length_eq.symm
  have htl := ht.length_eq.symm
  have key : ∀ i : Fin basis.length, gmeElem ijExact stack (einv.map fun E => E basis[i].ig j) basis[i].st t =
      ∑ L : Fin stack.length, (einv.getD L 0) basis[i].ig j *
        ∫ z, density basis[i].st t stack[L].2 (basis[i].st.part L) (t.part L) z ∂(layMeasure stack[L].1) := by
    intro i
    rw [gmeElem_range _ _ _ _ _ (by simpa using hlen) (hs i) htl]
    refine Finset.sum_congr rfl fun L _ => ?_
    have hL := L.2
    rw [rad_layTerm_exact]
    · simp [List.getD_eq_getElem?_getD, hlen]
    · have := (List.forall₂_iff_get.1 (hd basis[i] (List.getElem_mem _))).2 L hL (by rw [hs i]; exact hL)
      have hL' : (L : ℕ) < basis[i].st.layers.length := by rw [hs i]; exact hL
      rw [List.get_eq_getElem] at this
      have hp : basis[i].st.part L = basis[i].st.layers[(L : ℕ)] := by
        rw [GmeState.part, List.getD_eq_getElem?_getD, List.getElem?_eq_getElem hL']
        rfl
      simp only [hp]
      exact this
    · have := (List.forall₂_iff_get.1 ht).2 L hL (by rw [htl]; exact hL)
      simpa [GmeState.part, List.getD_eq_getElem?_getD, htl, hL] using this
  simp only [key, Finset.sum_mul]
  rw [Finset.sum_comm]
  refine Finset.sum_congr rfl fun L _ => ?_
  have hL := L.2
  have hint : ∀ i : Fin basis.length, Integrable
      (density basis[i].st t stack[L].2 (basis[i].st.part L) (t.part L)) (layMeasure stack[L].1) := by
    intro i
    apply rad_density_integrable
    · have := (List.forall₂_iff_get.1 (hd basis[i] (List.getElem_mem _))).2 L hL (by rw [hs i]; exact hL)
      have hL' : (L : ℕ) < basis[i].st.layers.length := by rw [hs i]; exact hL
      rw [List.get_eq_getElem] at this
      have hp : basis[i].st.part L = basis[i].st.layers[(L : ℕ)] := by
        rw [GmeState.part, List.getD_eq_getElem?_getD, List.getElem?_eq_getElem hL']
        rfl
      simp only [hp]
      exact this
    · have := (List.forall₂_iff_get.1 ht).2 L hL (by rw [htl]; exact hL)
      simpa [GmeState.part, List.getD_eq_getElem?_getD, htl, hL] using this
  have e1 : ∀ i : Fin basis.length, (einv.getD L 0) basis[i].ig j *
      (∫ z, density basis[i].st t stack[L].2 (basis[i].st.part L) (t.part L) z ∂(layMeasure stack[L].1)) * conj (evec i) =
      ∫ z, ((einv.getD L 0) basis[i].ig j * conj (evec i)) *
        density basis[i].st t stack[L].2 (basis[i].st.part L) (t.part L) z ∂(layMeasure stack[L].1) := by
    intro i
    rw [integral_const_mul]
    ring
  simp only [e1]
  rw [← integral_finsetSum _ fun i _ => (hint i).const_mul _]
  congr 1
  funext z
  simp only [density, modeDisp, Finset.mul_sum, Finset.sum_mul, map_sum]
  rw [Finset.sum_comm]
  refine Finset.sum_congr rfl fun c _ => ?_
  rw [Finset.sum_comm]
  refine Finset.sum_congr rfl fun i _ => ?_
  rw [Finset.sum_eq_single basis[i].ig]
  · rw [if_pos rfl, map_mul]
    ring
  · intro G _ hG
    rw [if_neg (Ne.symm hG)]
    simp
  · simp

/-! ### Energy flux -/

/-- Flux of a field with the amplitudes `ab` through a layer. -/
noncomputable def flux (w : ℂ) (ab : ℂ × ℂ) : ℝ :=
  w.re * (Complex.normSq ab.1 - Complex.normSq ab.2) - 2 * w.im * (ab.1 * conj ab.2).im

theorem flux_fields (w x : ℂ) (ab : ℂ × ℂ) (t : ℝ) :
    (conj (fieldSum x ab t) * fieldDiff w x ab t).re =
      flux w (ab.1 * Complex.exp (Complex.I * x * t), ab.2 * Complex.exp (-(Complex.I * x * t))) := by
  unfold fieldSum fieldDiff flux
  generalize ab.1 * Complex.exp (Complex.I * x * t) = u
  generalize ab.2 * Complex.exp (-(Complex.I * x * t)) = v
  simp only [Complex.mul_re, Complex.mul_im, Complex.add_re, Complex.add_im, Complex.sub_re, Complex.sub_im,
    Complex.conj_re, Complex.conj_im, Complex.normSq_apply, map_add]
  ring

theorem flux_real (x w t : ℝ) (ab : ℂ × ℂ) :
    flux w (ab.1 * Complex.exp (Complex.I * x * t), ab.2 * Complex.exp (-(Complex.I * x * t))) = flux w ab := by
  unfold flux
  have h1 : Complex.normSq (Complex.exp (Complex.I * x * t)) = 1 := by
    rw [Complex.normSq_eq_norm_sq, Complex.norm_exp]
    simp
  have h2 : Complex.normSq (Complex.exp (-(Complex.I * x * t))) = 1 := by
    rw [Complex.normSq_eq_norm_sq, Complex.norm_exp]
    simp
  simp [map_mul, h1, h2]

theorem flux_imag (x w t : ℝ) (ab : ℂ × ℂ) :
    flux (Complex.I * w) (ab.1 * Complex.exp (Complex.I * (Complex.I * x) * t),
      ab.2 * Complex.exp (-(Complex.I * (Complex.I * x) * t))) = flux (Complex.I * w) ab := by
  unfold flux
  have h1 : Complex.exp (Complex.I * (Complex.I * x) * t) = ((Real.exp (-(x * t)) : ℝ) : ℂ) := by
    rw [Complex.ofReal_exp]
    congr 1
    push_cast
    linear_combination (x * t : ℂ) * Complex.I_sq
  have h2 : Complex.exp (-(Complex.I * (Complex.I * x) * t)) = ((Real.exp (x * t) : ℝ) : ℂ) := by
    rw [Complex.ofReal_exp]
    congr 1
    push_cast
    linear_combination -(x * t : ℂ) * Complex.I_sq
  have h3 : ((Real.exp (-(x * t)) : ℝ) : ℂ) * ((Real.exp (x * t) : ℝ) : ℂ) = 1 := by
    rw [← Complex.ofReal_mul, ← Real.exp_add, neg_add_cancel, Real.exp_zero, Complex.ofReal_one]
  rw [h1, h2]
  simp only [map_mul, Complex.conj_ofReal]
  have : ab.1 * ((Real.exp (-(x * t)) : ℝ) : ℂ) * (conj ab.2 * ((Real.exp (x * t) : ℝ) : ℂ)) = ab.1 * conj ab.2 := by
    linear_combination (ab.1 * conj ab.2) * h3
  rw [this]
  simp

/-- The flux does not depend on the height. -/
theorem flux_const (pol : Pol) (omega g e : ℝ) (ab : ℂ × ℂ) (t : ℝ) :
    (conj (fieldSum (chi omega g e) ab t) * fieldDiff (wgt pol omega g e) (chi omega g e) ab t).re =
      flux (wgt pol omega g e) ab := by
  rw [flux_fields]
  by_cases h : 0 ≤ e * omega ^ 2 - g ^ 2
  · have hc : chi omega g e = ((√(e * omega ^ 2 - g ^ 2) : ℝ) : ℂ) := by rw [chi, if_pos h]
    obtain ⟨w, hw⟩ : ∃ w : ℝ, wgt pol omega g e = (w : ℂ) := by
      cases pol
      · exact ⟨_, hc⟩
      · exact ⟨√(e * omega ^ 2 - g ^ 2) / e, by rw [wgt, hc]; push_cast; rfl⟩
    rw [hc, hw, flux_real]
  · have hc : chi omega g e = Complex.I * ((√(-(e * omega ^ 2 - g ^ 2)) : ℝ) : ℂ) := by rw [chi, if_neg h]
    obtain ⟨w, hw⟩ : ∃ w : ℝ, wgt pol omega g e = Complex.I * (w : ℂ) := by
      cases pol
      · exact ⟨_, hc⟩
      · exact ⟨√(-(e * omega ^ 2 - g ^ 2)) / e, by rw [wgt, hc]; push_cast; ring⟩
    rw [hc, hw, flux_imag]

/-- Neighbouring layers have the same flux. -/
theorem flux_interface {pol : Pol} {omega g : ℝ} {lo up : (ℝ × ℝ) × (ℂ × ℂ)} (h : Interface pol omega g lo up) :
    flux (wgt pol omega g lo.1.1) lo.2 = flux (wgt pol omega g up.1.1) up.2 := by
  rw [← flux_const pol omega g lo.1.1 lo.2 (lo.1.2 / 2), h.1, h.2, flux_const]

theorem flux_chain {pol : Pol} {omega g : ℝ} : ∀ (l : List ((ℝ × ℝ) × (ℂ × ℂ))), List.IsChain (Interface pol omega g) l →
    ∀ a ∈ l, ∀ b ∈ l, flux (wgt pol omega g a.1.1) a.2 = flux (wgt pol omega g b.1.1) b.2
  | [], _ => by simp
  | [a], _ => by simp
  | a :: b :: l, h => by
    rw [List.isChain_cons_cons] at h
    have ih := flux_chain (b :: l) h.2
    have h1 := flux_interface h.1
    have ha : ∀ x ∈ a :: b :: l, flux (wgt pol omega g x.1.1) x.2 = flux (wgt pol omega g b.1.1) b.2 := by
      intro x hx
      rcases List.mem_cons.1 hx with rfl | hx
      · exact h1
      · exact ih _ hx _ List.mem_cons_self
    intro x hx y hy
    rw [ha x hx, ha y hy]

/-- Flux in a cladding in which the wave propagates. -/
theorem flux_open {pol : Pol} {omega g e : ℝ} (h : g ^ 2 < e * omega ^ 2) (he : 0 < e) (ab : ℂ × ℂ) :
    0 < (wgt pol omega g e).re ∧
    flux (wgt pol omega g e) ab = (wgt pol omega g e).re * (Complex.normSq ab.1 - Complex.normSq ab.2) := by
  have hc : chi omega g e = ((√(e * omega ^ 2 - g ^ 2) : ℝ) : ℂ) := by rw [chi, if_pos (by linarith)]
  have hp : 0 < √(e * omega ^ 2 - g ^ 2) := Real.sqrt_pos.2 (by linarith)
  obtain ⟨w, hw, hwp⟩ : ∃ w : ℝ, wgt pol omega g e = (w : ℂ) ∧ 0 < w := by
    cases pol
    · exact ⟨_, hc, hp⟩
    · exact ⟨√(e * omega ^ 2 - g ^ 2) / e, by rw [wgt, hc]; push_cast; rfl, by positivity⟩
  rw [hw]
  exact ⟨by simpa using hwp, by simp [flux]⟩

/-- Flux in a cladding in which the wave decays. -/
theorem flux_closed {pol : Pol} {omega g e : ℝ} (h : e * omega ^ 2 < g ^ 2) (ab : ℂ × ℂ) (hab : ab.1 = 0 ∨ ab.2 = 0) :
    flux (wgt pol omega g e) ab = 0 := by
  have hc : chi omega g e = Complex.I * ((√(-(e * omega ^ 2 - g ^ 2)) : ℝ) : ℂ) := by rw [chi, if_neg (by linarith)]
  obtain ⟨w, hw⟩ : ∃ w : ℝ, wgt pol omega g e = Complex.I * (w : ℂ) := by
    cases pol
    · exact ⟨_, hc⟩
    · exact ⟨√(-(e * omega ^ 2 - g ^ 2)) / e, by rw [wgt, hc]; push_cast; ring⟩
  rw [hw]
  rcases hab with h | h <;> simp [flux, h]

theorem flux_noinc {pol : Pol} {omega g e : ℝ} (he : 0 < e) (hne : e * omega ^ 2 ≠ g ^ 2) (a : ℂ) :
    0 ≤ flux (wgt pol omega g e) (a, 0) := by
  rcases lt_or_gt_of_ne hne with h | h
  · rw [flux_closed h _ (Or.inr rfl)]
  · obtain ⟨h1, h2⟩ := flux_open (pol := pol) h he (a, 0)
    rw [h2]
    have := Complex.normSq_nonneg a
    simp only [map_zero, sub_zero]
    positivity

/-- **Radiative modes exist.** With a wave that propagates in the lower cladding, the amplitude that `rad_modes` divides by
is not zero. -/
theorem d22_ne_zero_lower (pol : Pol) (omega g e0 eN : ℝ) (ls : List (ℝ × ℝ)) (hne : ls ≠ []) (h0 : 0 < e0) (hN : 0 < eN)
    (hw : ∀ x ∈ e0 :: ls.map Prod.fst ++ [eN], x * omega ^ 2 ≠ g ^ 2 ∧ x ≠ 0) (ho : g ^ 2 < e0 * omega ^ 2) :
    d22General pol omega g (e0 :: ls.map Prod.fst ++ [eN]) (ls.map Prod.snd) ≠ 0 := by
  intro hz
  obtain ⟨cs, -, h2, h3, h4, A, h5⟩ := C25_interfaces pol omega g e0 eN ls hne hw
  rw [hz] at h5
  have m0 : ((e0, (0 : ℝ)), ((0 : ℂ), (1 : ℂ))) ∈ ((e0, 0) :: ls ++ [(eN, 0)]).zip cs := by
    refine List.mem_of_getElem? (i := 0) (List.getElem?_zip_eq_some.2 ⟨by simp, h3⟩)
  have mN : ((eN, (0 : ℝ)), (A, (0 : ℂ))) ∈ ((e0, 0) :: ls ++ [(eN, 0)]).zip cs := by
    refine List.mem_of_getElem? (i := ls.length + 1) (List.getElem?_zip_eq_some.2 ⟨by simp, ?_⟩)
    rw [← h5, List.getLast?_eq_getElem?, h2]
    rfl
  have hf := flux_chain _ h4 _ m0 _ mN
  have hn := flux_noinc (pol := pol) hN (hw eN (by simp)).1 A
  obtain ⟨hp, ho'⟩ := flux_open (pol := pol) ho h0 (0, 1)
  simp only at hf hn ho'
  rw [← hf, ho'] at hn
  simp only [map_zero, map_one, zero_sub] at hn
  linarith

theorem d22_ne_zero_open (pol : Pol) (omega g e0 eN : ℝ) (ls : List (ℝ × ℝ)) (hne : ls ≠ []) (h0 : 0 < e0) (hN : 0 < eN)
    (hw : ∀ x ∈ e0 :: ls.map Prod.fst ++ [eN], x * omega ^ 2 ≠ g ^ 2 ∧ x ≠ 0)
    (ho : g ^ 2 < e0 * omega ^ 2 ∨ g ^ 2 < eN * omega ^ 2) :
    d22General pol omega g (e0 :: ls.map Prod.fst ++ [eN]) (ls.map Prod.snd) ≠ 0 := by
  rcases ho with ho | ho
  · exact d22_ne_zero_lower pol omega g e0 eN ls hne h0 hN hw ho
  · obtain ⟨c, hc, e⟩ := C24_reverse pol omega g e0 eN ls hw
    have erev : (e0 :: ls.map Prod.fst ++ [eN]).reverse = eN :: ls.reverse.map Prod.fst ++ [e0] := by simp
    have drev : (ls.map Prod.snd).reverse = ls.reverse.map Prod.snd := by simp
    have := d22_ne_zero_lower pol omega g eN e0 ls.reverse (by simpa using hne) hN h0
      (by rw [← erev]; exact fun x hx => hw x (List.mem_reverse.1 hx)) ho
    rw [← erev, ← drev, e] at this
    exact right_ne_zero_of_mul this

end Legume
