import Mathlib.Algebra.Order.Field.Pointwise
import Mathlib.MeasureTheory.Measure.Haar.NormedSpace
import Verif.Props.GuidedWhole
import Verif.Props.IsoRun

/-!
# The guided-mode expansion under a change of the unit of length and of all permittivities

Wave vectors are multiplied by `c`, lengths divided by `c`, permittivities multiplied by `n ^ 2`, and frequencies by `c / n`.
-/
namespace Legume

open Spec Matrix MeasureTheory
open scoped Pointwise ComplexConjugate

/-! ### Slab modes -/

theorem chi_scale {c n : ℝ} (hc : 0 < c) (hn : 0 < n) (om g e : ℝ) :
    chi (c / n * om) (c * g) (n ^ 2 * e) = c * chi om g e := by
  have e1 : n ^ 2 * e * (c / n * om) ^ 2 - (c * g) ^ 2 = c ^ 2 * (e * om ^ 2 - g ^ 2) := by field_simp
  have hc2 : 0 < c ^ 2 := by positivity
  unfold chi
  rw [e1]
  by_cases h : 0 ≤ e * om ^ 2 - g ^ 2
  · rw [if_pos (mul_nonneg hc2.le h), if_pos h, Real.sqrt_mul hc2.le, Real.sqrt_sq hc.le]
    push_cast
    ring
  · have h' : ¬ 0 ≤ c ^ 2 * (e * om ^ 2 - g ^ 2) := by
      push Not at h ⊢
      exact mul_neg_of_pos_of_neg hc2 h
    rw [if_neg h', if_neg h, ← mul_neg, Real.sqrt_mul hc2.le, Real.sqrt_sq hc.le]
    push_cast
    ring

/-- Factor of the interface weights. -/
noncomputable def wgtFac (c n : ℝ) : Pol → ℝ
  | .te => c
  | .tm => c / n ^ 2

theorem wgtFac_pos {c n : ℝ} (hc : 0 < c) (hn : 0 < n) (pol : Pol) : 0 < wgtFac c n pol := by
  cases pol <;> simp only [wgtFac] <;> positivity

theorem wgt_scale {c n : ℝ} (hc : 0 < c) (hn : 0 < n) (pol : Pol) (om g e : ℝ) :
    wgt pol (c / n * om) (c * g) (n ^ 2 * e) = (wgtFac c n pol : ℝ) * wgt pol om g e := by
  cases pol
  · exact chi_scale hc hn om g e
  · simp only [wgt, wgtFac, chi_scale hc hn]
    push_cast
    rw [mul_div_mul_comm]

theorem sMat_scale {k : ℂ} (hk : k ≠ 0) (w1 w2 : ℂ) : sMat (k * w1) (k * w2) = sMat w1 w2 := by
  have key : ∀ z : ℂ, 0.5 / (k * w2) * (k * z) = 0.5 / w2 * z := by
    intro z
    rw [div_mul_eq_mul_div, div_mul_eq_mul_div, mul_left_comm, mul_div_mul_left _ _ hk]
  unfold sMat
  rw [← mul_neg, ← mul_add, ← mul_add, key, key]

theorem tMat_scale {c : ℝ} (hc : 0 < c) (x : ℂ) (d : ℝ) : tMat (c * x) (d / c) = tMat x d := by
  have hc0 : (c : ℂ) ≠ 0 := by exact_mod_cast hc.ne'
  have e1 : ∀ z : ℂ, z * (c * x) * ((d / c : ℝ) : ℂ) / 2 = z * x * d / 2 := by
    intro z
    push_cast
    field_simp
  unfold tMat
  rw [e1, e1]

theorem sMats_scale {c n : ℝ} (hc : 0 < c) (hn : 0 < n) (pol : Pol) (om g : ℝ) (eps : List ℝ) :
    sMats pol (c / n * om) (c * g) (eps.map (n ^ 2 * ·)) = sMats pol om g eps := by
  have hk : ((wgtFac c n pol : ℝ) : ℂ) ≠ 0 := by exact_mod_cast (wgtFac_pos hc hn pol).ne'
  unfold sMats
  rw [← List.map_tail, List.zipWith_map]
  simp only [wgt_scale hc hn, sMat_scale hk]

theorem tMats_scale {c n : ℝ} (hc : 0 < c) (hn : 0 < n) (om g : ℝ) (eps ds : List ℝ) :
    tMats (c / n * om) (c * g) (eps.map (n ^ 2 * ·)) (ds.map (· / c)) = tMats om g eps ds := by
  unfold tMats
  rw [← List.map_tail, ← List.map_dropLast, List.zipWith_map]
  simp only [chi_scale hc hn, tMat_scale hc]

theorem abMatrices_scale {c n : ℝ} (hc : 0 < c) (hn : 0 < n) (pol : Pol) (om g : ℝ) (eps ds : List ℝ) :
    abMatrices pol (c / n * om) (c * g) (eps.map (n ^ 2 * ·)) (ds.map (· / c)) = abMatrices pol om g eps ds := by
  unfold abMatrices
  rw [sMats_scale hc hn, tMats_scale hc hn]

theorem d22General_scale {c n : ℝ} (hc : 0 < c) (hn : 0 < n) (pol : Pol) (om g : ℝ) (eps ds : List ℝ) :
    d22General pol (c / n * om) (c * g) (eps.map (n ^ 2 * ·)) (ds.map (· / c)) = d22General pol om g eps ds := by
  unfold d22General
  rw [sMats_scale hc hn, tMats_scale hc hn]

theorem chis3_scale {c n : ℝ} (hc : 0 < c) (hn : 0 < n) (om g e1 e2 e3 : ℝ) :
    chis3 (c / n * om) (c * g) (n ^ 2 * e1) (n ^ 2 * e2) (n ^ 2 * e3) =
      (c * (chis3 om g e1 e2 e3).1, c * (chis3 om g e1 e2 e3).2.1, c * (chis3 om g e1 e2 e3).2.2) := by
  have hc2 : 0 ≤ c ^ 2 := by positivity
  have h1 : ∀ e, (c * g) ^ 2 - n ^ 2 * e * (c / n * om) ^ 2 = c ^ 2 * (g ^ 2 - e * om ^ 2) := by intro e; field_simp
  have h2 : ∀ e, -(c * g) ^ 2 + n ^ 2 * e * (c / n * om) ^ 2 = c ^ 2 * (-g ^ 2 + e * om ^ 2) := by intro e; field_simp
  unfold chis3
  rw [h1, h1, h2]
  simp only [Real.sqrt_mul hc2, Real.sqrt_sq hc.le]
  push_cast
  ext
  · ring
  · rfl
  · ring

theorem d22Three_scale {c n : ℝ} (hc : 0 < c) (hn : 0 < n) (pol : Pol) (om g e1 e2 e3 d : ℝ) :
    d22Three pol (c / n * om) (c * g) (n ^ 2 * e1) (n ^ 2 * e2) (n ^ 2 * e3) (d / c) =
      ((wgtFac c n pol ^ 2 : ℝ) : ℂ) * d22Three pol om g e1 e2 e3 d := by
  have hc0 : (c : ℂ) ≠ 0 := by exact_mod_cast hc.ne'
  have e0 : ∀ x : ℂ, (c * x) * ((d / c : ℝ) : ℂ) = x * d := by
    intro x
    push_cast
    field_simp
  have e4 : ∀ (x : ℂ) (e : ℝ), (c * x) / ((n ^ 2 * e : ℝ) : ℂ) = ((c / n ^ 2 : ℝ) : ℂ) * (x / e) := by
    intro x e
    push_cast
    rw [mul_div_mul_comm]
  unfold d22Three
  rw [chis3_scale hc hn]
  simp only [e0]
  cases pol
  · simp only [wgtFac]
    push_cast
    ring
  · simp only [wgtFac, e4]
    have e5 : ((c / n ^ 2 : ℝ) : ℂ) * ((chis3 om g e1 e2 e3).1 / e1) * (c * (chis3 om g e1 e2 e3).2.2) /
        ((n ^ 2 * e3 : ℝ) : ℂ) = ((c / n ^ 2 : ℝ) : ℂ) ^ 2 * ((chis3 om g e1 e2 e3).1 / e1 * (chis3 om g e1 e2 e3).2.2 / e3) := by
      rw [mul_div_assoc, e4]
      ring
    rw [e5]
    push_cast
    ring

theorem d22_scale {c n : ℝ} (hc : 0 < c) (hn : 0 < n) (pol : Pol) (eps ds : List ℝ) :
    ∃ k : ℝ, 0 < k ∧ ∀ om g, d22 pol (c / n * om) (c * g) (eps.map (n ^ 2 * ·)) (ds.map (· / c)) = k * d22 pol om g eps ds := by
  have gen : (∀ om g, d22 pol om g eps ds = d22General pol om g eps ds) →
      (∀ om g, d22 pol om g (eps.map (n ^ 2 * ·)) (ds.map (· / c)) =
        d22General pol om g (eps.map (n ^ 2 * ·)) (ds.map (· / c))) →
      ∃ k : ℝ, 0 < k ∧ ∀ om g, d22 pol (c / n * om) (c * g) (eps.map (n ^ 2 * ·)) (ds.map (· / c)) =
        k * d22 pol om g eps ds := by
    intro h1 h2
    refine ⟨1, one_pos, fun om g => ?_⟩
    rw [h2, h1, d22General_scale hc hn, Complex.ofReal_one, one_mul]
  rcases eps with _ | ⟨e1, _ | ⟨e2, _ | ⟨e3, _ | ⟨e4, t⟩⟩⟩⟩ <;> rcases ds with _ | ⟨d, _ | ⟨d2, u⟩⟩ <;>
    first
    | exact gen (fun _ _ => rfl) (fun _ _ => rfl)
    | exact ⟨wgtFac c n pol ^ 2, pow_pos (wgtFac_pos hc hn pol) 2, fun om g => d22Three_scale hc hn pol om g e1 e2 e3 d⟩

/-! ### Integrals -/

/-- A layer with thickness divided by `c`. -/
noncomputable def scalePos (c : ℝ) : LPos → LPos
  | .lower => .lower
  | .inner d => .inner (d / c)
  | .upper => .upper

theorem integral_scale {c : ℝ} (hc : 0 < c) {F : Type} [NormedAddCommGroup F] [NormedSpace ℝ F] (f : ℝ → F) (p : LPos) :
    ∫ t, f (c * t) ∂(layMeasure (scalePos c p)) = c⁻¹ • ∫ t, f t ∂(layMeasure p) := by
  have key : ∀ s : Set ℝ, ∫ t in s, f (c * t) = c⁻¹ • ∫ t in c • s, f t := by
    intro s
    have := Measure.setIntegral_comp_smul_of_pos (volume : Measure ℝ) f s hc
    simpa using this
  cases p with
  | lower =>
    simp only [scalePos, layMeasure]
    rw [key, LinearOrderedField.smul_Iic hc, mul_zero]
  | inner d =>
    simp only [scalePos, layMeasure]
    rw [key, LinearOrderedField.smul_Ioc hc, show c * (d / c / 2) = d / 2 by field_simp,
      show c * -(d / c / 2) = -(d / 2) by field_simp]
  | upper =>
    simp only [scalePos, layMeasure]
    rw [key, LinearOrderedField.smul_Ioi hc, mul_zero]

theorem ijExact_scale {c : ℝ} (hc : 0 < c) (p : LPos) (a : ℂ) : ijExact (scalePos c p) (c * a) = (c : ℂ)⁻¹ * ijExact p a := by
  have := integral_scale hc (fun t => Complex.exp (Complex.I * a * t)) p
  unfold ijExact
  rw [Complex.real_smul, Complex.ofReal_inv] at this
  rw [← this]
  congr 1
  funext t
  push_cast
  ring_nf

/-- Factor of the squared norm of a mode. -/
noncomputable def normFac (c : ℝ) : Pol → ℝ
  | .te => c
  | .tm => c⁻¹

theorem normFac_pos {c : ℝ} (hc : 0 < c) (pol : Pol) : 0 < normFac c pol := by
  cases pol <;> simp only [normFac] <;> positivity

theorem magSq_scale (c : ℝ) (pol : Pol) (g : ℝ) (m : ModeL) (t : ℝ) :
    magSq pol (c * g) { m with x := c * m.x } t = (match pol with | .te => c ^ 2 | .tm => 1) * magSq pol g m (c * t) := by
  have e : ∀ z : ℂ, Complex.exp (Complex.I * (c * m.x) * t) = Complex.exp (Complex.I * m.x * ((c * t : ℝ) : ℂ)) ∧
      Complex.exp (-(Complex.I * (c * m.x) * t)) = Complex.exp (-(Complex.I * m.x * ((c * t : ℝ) : ℂ))) := by
    intro z
    push_cast
    constructor <;> ring_nf
  cases pol
  · simp only [magSq, intensityTE, fieldSum, fieldDiff, (e 0).1, (e 0).2]
    rw [mul_assoc (c : ℂ), norm_mul, Complex.norm_real, mul_pow, Real.norm_eq_abs, sq_abs]
    ring
  · simp only [magSq, intensityTM, fieldSum, (e 0).1, (e 0).2, one_mul]

/-- The stack in other units. -/
noncomputable def scaleStack (c n : ℝ) (stack : List (LPos × ℝ)) : List (LPos × ℝ) :=
  stack.map fun p => (scalePos c p.1, n ^ 2 * p.2)

theorem slabNorm_scale {c : ℝ} (hc : 0 < c) (n : ℝ) (pol : Pol) (g : ℝ) (stack : List (LPos × ℝ)) (layers : List ModeL) :
    slabNorm pol (c * g) (scaleStack c n stack) (layers.map fun m => { m with x := c * m.x }) =
      normFac c pol * slabNorm pol g stack layers := by
  unfold slabNorm scaleStack
  rw [List.zip_map, List.map_map, ← List.sum_map_mul_left]
  congr 1
  refine List.map_congr_left fun z _ => ?_
  simp only [Function.comp, Prod.map]
  rw [show (fun t => magSq pol (c * g) { z.2 with x := c * z.2.x } t) = fun t =>
    (match pol with | .te => c ^ 2 | .tm => 1) * magSq pol g z.2 (c * t) from funext fun t => magSq_scale c pol g z.2 t,
    integral_const_mul, integral_scale hc, smul_eq_mul, ← mul_assoc]
  congr 1
  cases pol <;> simp only [normFac] <;> field_simp

/-- A mode in a layer in other units. -/
noncomputable def scaleMode (c : ℝ) (pol : Pol) (m : ModeL) : ModeL :=
  ⟨((√(normFac c pol))⁻¹ : ℝ) * m.A, ((√(normFac c pol))⁻¹ : ℝ) * m.B, c * m.x⟩

/-- A state in other units. -/
noncomputable def scaleState (c n : ℝ) (s : GmeState) : GmeState :=
  ⟨s.pol, c * s.gx, c * s.gy, c / n * s.om, s.layers.map (scaleMode c s.pol)⟩

theorem sqrt_scale {c : ℝ} (hc : 0 < c) (x y : ℝ) : √((c * x) ^ 2 + (c * y) ^ 2) = c * √(x ^ 2 + y ^ 2) := by
  rw [show (c * x) ^ 2 + (c * y) ^ 2 = c ^ 2 * (x ^ 2 + y ^ 2) by ring, Real.sqrt_mul (by positivity), Real.sqrt_sq hc.le]

theorem slabStack_scale (c n e0 eN : ℝ) (ls : List (ℝ × ℝ)) :
    slabStack (n ^ 2 * e0) (n ^ 2 * eN) (ls.map fun l => (n ^ 2 * l.1, l.2 / c)) = scaleStack c n (slabStack e0 eN ls) := by
  unfold slabStack scaleStack
  simp [scalePos]

theorem scaleStack_eps (c n : ℝ) (stack : List (LPos × ℝ)) :
    (scaleStack c n stack).map Prod.snd = (stack.map Prod.snd).map (n ^ 2 * ·) := by
  simp [scaleStack]

theorem modeLayers_scale {c n : ℝ} (hc : 0 < c) (hn : 0 < n) (pol : Pol) (om g : ℝ) (eps : List ℝ) (abs : List (ℂ × ℂ)) (N : ℝ) :
    modeLayers (c / n * om) (c * g) (eps.map (n ^ 2 * ·)) abs (normFac c pol * N) =
      (modeLayers om g eps abs N).map (scaleMode c pol) ∧
    modeLayers (c / n * om) (c * g) (eps.map (n ^ 2 * ·)) abs 1 =
      (modeLayers om g eps abs 1).map fun m => { m with x := c * m.x } := by
  unfold modeLayers
  rw [List.zipWith_map_left, List.zipWith_map_left, List.map_zipWith, List.map_zipWith]
  constructor
  · congr 1
    funext e ab
    simp only [scaleMode, chi_scale hc hn, Real.sqrt_mul (normFac_pos hc pol).le]
    push_cast
    rw [div_mul_eq_div_div, div_mul_eq_div_div]
    congr 1 <;> ring
  · congr 1
    funext e ab
    simp only [chi_scale hc hn]

theorem normState_scale {c n : ℝ} (hc : 0 < c) (hn : 0 < n) (pol : Pol) (gx gy om e0 eN : ℝ) (ls : List (ℝ × ℝ))
    (abs : List (ℂ × ℂ)) :
    normState pol (c * gx) (c * gy) (c / n * om) (n ^ 2 * e0) (n ^ 2 * eN) (ls.map fun l => (n ^ 2 * l.1, l.2 / c)) abs =
      scaleState c n (normState pol gx gy om e0 eN ls abs) := by
  unfold normState
  rw [slabStack_scale, scaleStack_eps, sqrt_scale hc, (modeLayers_scale hc hn pol _ _ _ _ 1).2, slabNorm_scale hc]
  unfold slabState scaleState
  rw [sqrt_scale hc, (modeLayers_scale hc hn pol _ _ _ _ _).1]

/-! ### Matrix elements -/

/-- The layer seen by two modes in other units. -/
noncomputable def scalePair (c n : ℝ) (p1 p2 : Pol) (l : LayPair) : LayPair :=
  ⟨scalePos c l.pos, n ^ 2 * l.eps, l.einv / (n : ℂ) ^ 2, scaleMode c p1 l.m1, scaleMode c p2 l.m2⟩

theorem layPairs_scale (c n : ℝ) (stack : List (LPos × ℝ)) (einv : List ℂ) (s t : GmeState) :
    layPairs (scaleStack c n stack) (einv.map (· / (n : ℂ) ^ 2)) (scaleState c n s) (scaleState c n t) =
      (layPairs stack einv s t).map (scalePair c n s.pol t.pol) := by
  unfold layPairs scaleStack scaleState
  simp only
  rw [List.zip_map, List.zip_map, List.zip_map, List.map_map, List.map_map]
  rfl

theorem ij_scale {c : ℝ} (hc : 0 < c) (p : LPos) (x y : ℂ) :
    ijExact (scalePos c p) (c * y - conj (c * x)) = (c : ℂ)⁻¹ * ijExact p (y - conj x) ∧
    ijExact (scalePos c p) (-(c * y) + conj (c * x)) = (c : ℂ)⁻¹ * ijExact p (-y + conj x) ∧
    ijExact (scalePos c p) (-(c * y) - conj (c * x)) = (c : ℂ)⁻¹ * ijExact p (-y - conj x) ∧
    ijExact (scalePos c p) (c * y + conj (c * x)) = (c : ℂ)⁻¹ * ijExact p (y + conj x) := by
  simp only [← ijExact_scale hc, map_mul, Complex.conj_ofReal]
  refine ⟨?_, ?_, ?_, ?_⟩ <;> congr 1 <;> ring

theorem scale_gk {c : ℝ} (hc : 0 < c) (n : ℝ) (s : GmeState) : (scaleState c n s).gk = c * s.gk := sqrt_scale hc _ _

theorem scale_pq {c : ℝ} (hc : 0 < c) (n : ℝ) (s : GmeState) :
    (scaleState c n s).p = s.p ∧ (scaleState c n s).q = s.q := by
  unfold GmeState.p GmeState.q
  rw [scale_gk hc]
  simp only [scaleState, ← mul_neg, mul_div_mul_left _ _ hc.ne', and_self]

theorem map_sum_scale {α : Type} (a : ℂ) (f g : α → ℂ) (h : ∀ l, g l = a * f l) (ls : List α) :
    (ls.map g).sum = a * (ls.map f).sum := by
  rw [← List.sum_map_mul_left]
  exact congrArg List.sum (List.map_congr_left fun l _ => h l)

theorem gmeElem_units {c n : ℝ} (hc : 0 < c) (hn : 0 < n) (stack : List (LPos × ℝ)) (einv : List ℂ) (s t : GmeState) :
    gmeElem ijExact (scaleStack c n stack) (einv.map (· / (n : ℂ) ^ 2)) (scaleState c n s) (scaleState c n t) =
      (c / n : ℂ) ^ 2 * gmeElem ijExact stack einv s t := by
  have hc0 : (c : ℂ) ≠ 0 := by exact_mod_cast hc.ne'
  have hn0 : (n : ℂ) ≠ 0 := by exact_mod_cast hn.ne'
  have hk : ∀ pol, ((((√(normFac c pol))⁻¹ : ℝ)) : ℂ) * ((((√(normFac c pol))⁻¹ : ℝ)) : ℂ) = ((normFac c pol)⁻¹ : ℝ) := by
    intro pol
    rw [← Complex.ofReal_mul, ← mul_inv, Real.mul_self_sqrt (normFac_pos hc pol).le]
  have hkk : ((((√(normFac c .te))⁻¹ : ℝ)) : ℂ) * ((((√(normFac c .tm))⁻¹ : ℝ)) : ℂ) = 1 := by
    rw [← Complex.ofReal_mul, ← mul_inv, ← Real.sqrt_mul (normFac_pos hc .te).le]
    simp only [normFac, mul_inv_cancel₀ hc.ne', Real.sqrt_one, inv_one, Complex.ofReal_one]
  have hte := hk .te
  have htm := hk .tm
  simp only [normFac, inv_inv, Complex.ofReal_inv] at hte htm
  have ht : (((√(normFac c .te))⁻¹ : ℝ) : ℂ) * (((√(normFac c .te))⁻¹ : ℝ) : ℂ) = (c : ℂ)⁻¹ := by
    rw [hk]; simp [normFac]
  have hm : (((√(normFac c .tm))⁻¹ : ℝ) : ℂ) * (((√(normFac c .tm))⁻¹ : ℝ) : ℂ) = (c : ℂ) := by
    rw [hk]; simp [normFac]
  clear hk hte htm
  unfold gmeElem
  simp only
  rw [layPairs_scale, (scale_pq hc n s).1, (scale_pq hc n s).2, (scale_pq hc n t).1, (scale_pq hc n t).2, scale_gk hc,
    scale_gk hc]
  have hp : ∀ u, (scaleState c n u).pol = u.pol := fun _ => rfl
  have ho : ∀ u, (scaleState c n u).om = c / n * u.om := fun _ => rfl
  rw [hp, hp, ho, ho]
  generalize (layPairs stack einv s t) = ls
  cases s.pol <;> cases t.pol <;> simp only
  · unfold matTeTe
    rw [List.map_map, map_sum_scale ((n : ℂ) ^ 2 / (c : ℂ) ^ 2) _ _ fun l => ?_]
    · push_cast
      field_simp
    · simp only [Function.comp, scalePair, scaleMode, map_mul, Complex.conj_ofReal]
      obtain ⟨i1, i2, i3, i4⟩ := ij_scale hc l.pos l.m1.x l.m2.x
      simp only [map_mul, Complex.conj_ofReal] at i1 i2 i3 i4
      rw [i1, i2, i3, i4]
      generalize (((√(normFac c .te))⁻¹ : ℝ) : ℂ) = κ at *
      have e : (n : ℂ) ^ 2 / (c : ℂ) ^ 2 = (n : ℂ) ^ 2 * (κ * κ) * (c : ℂ)⁻¹ := by rw [ht]; field_simp
      rw [e]
      push_cast
      field_simp
  · unfold matTeTm
    rw [List.map_map, map_sum_scale 1 _ _ fun l => ?_]
    · push_cast
      field_simp
    · simp only [Function.comp, scalePair, scaleMode, map_mul, Complex.conj_ofReal]
      obtain ⟨i1, i2, i3, i4⟩ := ij_scale hc l.pos l.m1.x l.m2.x
      simp only [map_mul, Complex.conj_ofReal] at i1 i2 i3 i4
      rw [i1, i2, i3, i4]
      generalize (((√(normFac c .te))⁻¹ : ℝ) : ℂ) = κ at *
      generalize (((√(normFac c .tm))⁻¹ : ℝ) : ℂ) = μ at *
      rw [← hkk]
      push_cast
      field_simp
  · unfold matTmTe
    rw [List.map_map, map_sum_scale 1 _ _ fun l => ?_]
    · push_cast
      field_simp
    · simp only [Function.comp, scalePair, scaleMode, map_mul, Complex.conj_ofReal]
      obtain ⟨i1, i2, i3, i4⟩ := ij_scale hc l.pos l.m1.x l.m2.x
      simp only [map_mul, Complex.conj_ofReal] at i1 i2 i3 i4
      rw [i1, i2, i3, i4]
      generalize (((√(normFac c .te))⁻¹ : ℝ) : ℂ) = κ at *
      generalize (((√(normFac c .tm))⁻¹ : ℝ) : ℂ) = μ at *
      rw [← hkk]
      push_cast
      field_simp
  · unfold matTmTm
    rw [List.map_map, map_sum_scale ((c : ℂ) ^ 2 / (n : ℂ) ^ 2) _ _ fun l => ?_]
    · push_cast
      field_simp
    · simp only [Function.comp, scalePair, scaleMode, map_mul, Complex.conj_ofReal]
      obtain ⟨i1, i2, i3, i4⟩ := ij_scale hc l.pos l.m1.x l.m2.x
      simp only [map_mul, Complex.conj_ofReal] at i1 i2 i3 i4
      rw [i1, i2, i3, i4]
      generalize (((√(normFac c .tm))⁻¹ : ℝ) : ℂ) = κ at *
      have e : (c : ℂ) ^ 2 / (n : ℂ) ^ 2 = (κ * κ) * c * (c : ℂ)⁻¹ * c / (n : ℂ) ^ 2 := by rw [hm]; field_simp
      rw [e]
      push_cast
      field_simp

/-! ### The matrix and its eigenvalues -/

/-- A basis element in other units, for the same plane waves in the same order. -/
noncomputable def BasisEl.scale {N N' : ℕ} (hN : N' = N) (c n : ℝ) (s : BasisEl N) : BasisEl N' :=
  ⟨s.blk, Fin.cast hN.symm s.ig, scaleState c n s.st⟩

theorem completeMat_mul (blk : ℕ → ℕ) (m m' : ℕ → ℕ → ℂ) (k : ℝ) (h : ∀ a b, m' a b = k * m a b) (i j : ℕ) :
    completeMat (blockUpper blk m') i j = k * completeMat (blockUpper blk m) i j := by
  have hb : ∀ a b, blockUpper blk m' a b = k * blockUpper blk m a b := by
    intro a b
    unfold blockUpper
    split_ifs
    · simp
    · exact h a b
  unfold completeMat
  simp only [hb]
  rw [mul_add, mul_add]
  congr 1
  · congr 1
    · split_ifs <;> simp
    · split_ifs <;> simp
  · split_ifs
    · rw [Complex.re_ofReal_mul, Complex.ofReal_mul]
    · simp

theorem gmeMatIj_scale {N N' : ℕ} (hN : N' = N) {c n : ℝ} (hc : 0 < c) (hn : 0 < n) (stack : List (LPos × ℝ))
    (Es : List (Matrix (Fin N) (Fin N) ℂ)) (Es' : List (Matrix (Fin N') (Fin N') ℂ))
    (hE : List.Forall₂ (fun E E' => ∀ i j, E' i j = E (Fin.cast hN i) (Fin.cast hN j) / (n : ℂ) ^ 2) Es Es')
    (basis : List (BasisEl N)) (hlen : (basis.map (BasisEl.scale hN c n)).length = basis.length) (i j) :
    gmeMatIj ijExact (scaleStack c n stack) Es' (basis.map (BasisEl.scale hN c n)) i j =
      (((c / n) ^ 2 : ℝ) : ℂ) * gmeMatIj ijExact stack Es basis (Fin.cast hlen i) (Fin.cast hlen j) := by
  subst hN
  have hEs : ∀ a b, (Es'.map fun E => E a b) = (Es.map fun E => E a b).map (· / (n : ℂ) ^ 2) := by
    intro a b
    induction hE with
    | nil => rfl
    | cons h _ ih => rw [List.map_cons, List.map_cons, List.map_cons, h, ih]; rfl
  unfold gmeMatIj
  rw [of_apply, of_apply]
  have hblk : (fun a => (((basis.map (BasisEl.scale rfl c n))[a]?).map BasisEl.blk).getD 0) =
      fun (a : ℕ) => ((basis[a]?).map BasisEl.blk).getD 0 := by
    funext a
    rw [List.getElem?_map]
    cases basis[a]? <;> rfl
  rw [hblk]
  refine completeMat_mul _ _ _ _ (fun a b => ?_) _ _
  rw [List.getElem?_map, List.getElem?_map]
  cases basis[a]? with
  | none => simp
  | some s =>
    cases basis[b]? with
    | none => simp
    | some t =>
      simp only [Option.map_some, BasisEl.scale, Fin.cast_eq_self]
      rw [hEs, gmeElem_units hc hn]
      push_cast
      rfl

/-- Eigenvalues of a multiple of a matrix, computed as by the code with the identity added. -/
theorem sortedEigh_affine {eigh : ∀ n, Matrix (Fin n) (Fin n) ℂ → Fin n → ℝ} (he : SortedEigh eigh) {N N' : ℕ}
    (hN : N' = N) {k : ℝ} (hk : 0 ≤ k) (A : Matrix (Fin N) (Fin N) ℂ) (B : Matrix (Fin N') (Fin N') ℂ) (hA : A.IsHermitian)
    (hB : ∀ i j, B i j = (k : ℂ) * A (Fin.cast hN i) (Fin.cast hN j)) :
    List.ofFn (eigh N' (B + 1)) = (List.ofFn (eigh N (A + 1))).map fun w => k * (w - 1) + 1 := by
  subst hN
  have hB' : B = (k : ℂ) • A := by ext i j; rw [hB]; rfl
  have hA1 : (A + 1).IsHermitian := hA.add isHermitian_one
  have hB1 : (B + 1).IsHermitian := by
    refine IsHermitian.add ?_ isHermitian_one
    rw [hB']
    unfold IsHermitian
    rw [conjTranspose_smul, hA]
    congr 1
    exact Complex.conj_ofReal k
  obtain ⟨V, hV⟩ := he.1 _ _ hA1
  obtain ⟨W, hW⟩ := he.1 _ _ hB1
  have h1 : IsEigh (B + 1) (fun i => k * (eigh _ (A + 1) i - 1) + 1) V := by
    refine ⟨hV.unitary, ?_⟩
    have h2 := hV.eigen
    have e1 : B + 1 = (k : ℂ) • (A + 1) + ((1 - k : ℝ) : ℂ) • (1 : Matrix (Fin N') (Fin N') ℂ) := by
      rw [hB']
      ext i j
      simp only [Matrix.add_apply, Matrix.smul_apply, smul_eq_mul]
      push_cast
      ring
    rw [e1, add_mul, Matrix.smul_mul, h2, Matrix.smul_mul, one_mul]
    ext i j
    simp only [Matrix.add_apply, Matrix.smul_apply, smul_eq_mul, mul_diagonal]
    push_cast
    ring
  rw [List.map_ofFn]
  refine (isEigh_perm hW h1 rfl).eq_of_pairwise' (r := (· ≤ ·))
    (List.pairwise_ofFn.2 fun i j h => he.2 _ _ hB1 h.le) (List.pairwise_ofFn.2 fun i j h => ?_)
  have := he.2 _ _ hA1 h.le
  simp only [Function.comp]
  nlinarith

/-! ### Selection of modes -/

theorem freqOf_scale {k : ℝ} (hk : 0 ≤ k) (w : ℝ) : freqOf (k ^ 2 * (w - 1) + 1) = k * freqOf w := by
  unfold freqOf
  rw [show k ^ 2 * (w - 1) + 1 - 1 = k ^ 2 * (w - 1) by ring, abs_mul, abs_of_nonneg (by positivity),
    Real.sqrt_mul (by positivity), Real.sqrt_sq hk]
  ring

/-- A result with all frequencies multiplied by `k`. -/
noncomputable def KRes.scale (k : ℝ) (r : KRes) : KRes := ⟨r.idx, r.freq.map (k * ·), r.symm⟩

theorem getD_map_mul (k : ℝ) (l : List ℝ) (i : ℕ) : (l.map (k * ·)).getD i 0 = k * l.getD i 0 := by
  rw [List.getD_eq_getElem?_getD, List.getD_eq_getElem?_getD, List.getElem?_map]
  cases l[i]? <;> simp

theorem selectModes_scale {argsort : List ℝ → List ℕ} {k : ℝ} (hk : 0 < k)
    (ha : ∀ l, argsort (l.map (k * ·)) = argsort l) (freq : List ℝ) (sigma : ℝ) (numeig : ℕ) :
    selectModes argsort (freq.map (k * ·)) (k * sigma) numeig = selectModes argsort freq sigma numeig := by
  have h1 : findNearest argsort (freq.map (k * ·)) (k * sigma) numeig = findNearest argsort freq sigma numeig := by
    unfold findNearest
    rw [List.map_map, ← ha (freq.map fun a => |a - sigma|), List.map_map]
    congr 2
    refine List.map_congr_left fun a _ => ?_
    simp only [Function.comp]
    rw [← mul_sub, abs_mul, abs_of_pos hk]
  unfold selectModes
  simp only [h1, getD_map_mul]
  have h2 : (List.map (fun i => k * freq.getD i 0) (findNearest argsort freq sigma numeig)) =
      ((findNearest argsort freq sigma numeig).map fun i => freq.getD i 0).map (k * ·) := by
    rw [List.map_map]; rfl
  rw [h2, ha]

theorem solveFull_scale {argsort : List ℝ → List ℕ} {k : ℝ} (hk : 0 < k)
    (ha : ∀ l, argsort (l.map (k * ·)) = argsort l) (w : List ℝ) (sigma : ℝ) (numeig : ℕ) :
    solveFull argsort (w.map fun x => k ^ 2 * (x - 1) + 1) (k * sigma) numeig =
      (solveFull argsort w sigma numeig).map (KRes.scale k) := by
  unfold solveFull
  rw [List.length_map]
  split_ifs
  · rfl
  · have e : (w.map fun x => k ^ 2 * (x - 1) + 1).map freqOf = (w.map freqOf).map (k * ·) := by
      rw [List.map_map, List.map_map]
      exact List.map_congr_left fun x _ => freqOf_scale hk.le x
    simp only [e, selectModes_scale hk ha, Except.map, KRes.scale, getD_map_mul]
    rw [List.map_map]
    rfl

end Legume
