import Mathlib.Analysis.Calculus.Deriv.Slope
import Mathlib.Analysis.SpecialFunctions.Complex.Log
import Mathlib.Tactic.FieldSimp
import Mathlib.Tactic.LinearCombination
import Mathlib.Tactic.NormNum
import Mathlib.Tactic.Linarith
import Mathlib.Algebra.Field.Rat
import Verif.Spec.Utils

/-!
# `utils.py`: properties C52 to C56
-/
namespace Legume

open Spec

/-! ### C52 -/

section
variable {K : Type*} [Field K]

/-- The loop of `grad_num`: no array of the caller changes and entry `i` is the difference quotient. -/
theorem gradLoop_eq (fn : List K → K) (fOld : K) (step arg : List K) (k : ℕ) (hk : k ≤ step.length)
    (g0 : List K) :
    ∃ g, (List.range k).foldlM (gradStep fn fOld step) ⟨arg, g0⟩ = .ok ⟨arg, g⟩ ∧ g.length = g0.length ∧
      ∀ (i : ℕ) (h : K), step[i]? = some h → i < g0.length → g[i]? = if i < k then
        some ((fn (arg.modify i (· + h)) - fOld) / h) else g0[i]? := by
  induction k with
  | zero => exact ⟨g0, rfl, rfl, by simp⟩
  | succ k ih =>
    obtain ⟨g, h1, h2, h3⟩ := ih (by omega)
    rw [List.range_succ, List.foldlM_append, h1]
    obtain ⟨hs, hs'⟩ : ∃ h, step[k]? = some h := ⟨step[k], List.getElem?_eq_getElem (by omega)⟩
    refine ⟨g.set k ((fn (arg.modify k (· + hs)) - fOld) / hs), ?_, by simpa using h2, ?_⟩
    · show (List.foldlM (gradStep fn fOld step) (⟨arg, g⟩ : GradState K) [k]) = _
      simp only [List.foldlM_cons, List.foldlM_nil, gradStep, hs']
      rfl
    · intro i h hi hl
      rw [List.getElem?_set]
      rcases lt_trichotomy i k with hik | rfl | hik
      · rw [if_neg (by omega), h3 i h hi hl, if_pos hik, if_pos (by omega)]
      · rw [if_pos rfl, if_pos (by omega), if_pos (by omega)]
        rw [hi] at hs'
        simp only [Option.some.injEq] at hs'
        rw [hs']
      · rw [if_neg (by omega), h3 i h hi hl, if_neg (by omega), if_neg (by omega)]

/-- **C52 (what is returned).** For a `float` step, or an array of steps at least as long as the
argument, `grad_num` returns one forward difference quotient per entry, and the array of the caller is
unchanged. -/
theorem C52_quotients (fn : List K → K) (arg : List K) (s : StepSize K) (step : List K)
    (hs : s.steps arg.length = .ok step) (hl : arg.length ≤ step.length) :
    ∃ g, gradNum fn arg s = .ok ⟨arg, g⟩ ∧ g.length = arg.length ∧
      ∀ (i : ℕ) (h : K), i < arg.length → step[i]? = some h →
        g[i]? = some ((fn (arg.modify i (· + h)) - fn arg) / h) := by
  obtain ⟨g, h1, h2, h3⟩ := gradLoop_eq fn (fn arg) step arg arg.length hl (List.replicate arg.length 0)
  refine ⟨g, ?_, by simpa using h2, ?_⟩
  · unfold gradNum; rw [hs]; exact h1
  · intro i h hi hh
    rw [h3 i h hh (by simpa using hi), if_pos hi]

theorem zipWith_modify_sum (w x : List K) (i : ℕ) (h wi : K) (hw : w[i]? = some wi) (hi : i < x.length) :
    (List.zipWith (· * ·) w (x.modify i (· + h))).sum = (List.zipWith (· * ·) w x).sum + wi * h := by
  induction w generalizing x i with
  | nil => simp at hw
  | cons a w ih =>
    cases x with
    | nil => simp at hi
    | cons b x =>
      cases i with
      | zero =>
        simp only [List.getElem?_cons_zero, Option.some.injEq] at hw
        subst hw
        simp only [List.modify_zero_cons, List.zipWith_cons_cons, List.sum_cons]
        ring
      | succ i =>
        simp only [List.modify_succ_cons, List.zipWith_cons_cons, List.sum_cons]
        rw [ih x i (by simpa using hw) (by simpa using hi)]
        ring

/-- **C52.** For every affine function and every list of non-zero steps, `grad_num` returns exactly the
gradient, and the argument is unchanged. -/
theorem C52_affine (c : K) (w arg : List K) (hw : w.length = arg.length) (s : StepSize K) (step : List K)
    (hs : s.steps arg.length = .ok step) (hl : arg.length ≤ step.length) (h0 : ∀ h ∈ step, h ≠ 0) :
    gradNum (affine c w) arg s = .ok ⟨arg, w⟩ := by
  obtain ⟨g, h1, h2, h3⟩ := C52_quotients (affine c w) arg s step hs hl
  rw [h1]
  congr 2
  apply List.ext_getElem?
  intro i
  by_cases hi : i < arg.length
  · have hst : step[i]? = some step[i] := List.getElem?_eq_getElem (by omega)
    have hwi : w[i]? = some w[i] := List.getElem?_eq_getElem (by omega)
    rw [h3 i _ hi hst, hwi]
    unfold affine
    rw [zipWith_modify_sum w arg i _ _ hwi hi]
    have hne : step[i] ≠ 0 := h0 _ (List.getElem_mem _)
    congr 1
    field_simp
    ring
  · rw [List.getElem?_eq_none (by omega), List.getElem?_eq_none (by omega)]

/-- **C52 (rejected steps).** An integer step raises, although it looks like a number. -/
theorem C52_int_step (fn : List K → K) (arg : List K) : gradNum fn arg .other = .error .attributeError := rfl

/-- Default call: a float step works for every argument. -/
example (c : K) (w arg : List K) (hw : w.length = arg.length) (h : K) (hh : h ≠ 0) :
    gradNum (affine c w) arg (.flt h) = .ok ⟨arg, w⟩ :=
  C52_affine c w arg hw _ _ rfl (by simp) (by simp only [List.mem_replicate]; rintro _ ⟨_, rfl⟩; exact hh)

example : gradNum (affine (1 : ℚ) [2, 3]) [5, 7] (.arr [1/10, 1/7]) = .ok ⟨[5, 7], [2, 3]⟩ :=
  C52_affine (1 : ℚ) [2, 3] [5, 7] rfl (.arr [1/10, 1/7]) [1/10, 1/7] rfl (by simp) (by simp)

end

/-- **C52 (convergence).** For a real function with a partial derivative the entries converge to it as
the step tends to zero. -/
theorem C52_limit (fn : List ℝ → ℝ) (arg : List ℝ) (i : ℕ) (hi : i < arg.length) (d : ℝ)
    (hd : HasDerivAt (fun t => fn (arg.modify i (· + t))) d 0) :
    Filter.Tendsto (fun h => match gradNum fn arg (.flt h) with
        | .ok st => st.gradient.getD i 0
        | .error _ => 0) (nhdsWithin 0 {0}ᶜ) (nhds d) := by
  have := hasDerivAt_iff_tendsto_slope.mp hd
  refine this.congr fun h => ?_
  obtain ⟨g, h1, h2, h3⟩ := C52_quotients fn arg (.flt h) _ rfl (by simp)
  rw [h1]
  simp only [List.getD_eq_getElem?_getD]
  rw [h3 i h hi (by simp [hi]), Option.getD_some, slope_def_field, sub_zero]
  congr 2
  have : arg.modify i (fun x => x + 0) = arg := by
    simp only [add_zero]
    exact List.modify_id i arg
  rw [this]

/-! ### C53 -/

theorem pyTake_nonneg {α : Type*} (l : List α) (N : ℕ) : pyTake l N = l.take N := by
  unfold pyTake; simp

section
variable {K : Type*} [Field K] [LinearOrder K] [IsStrictOrderedRing K]

/-- **C53.** For every array, value and `N >= 0`: the result has `min N len` entries, which are distinct
valid positions, in order of distance, and no position left out is strictly closer than a returned one;
this uses only that `argsort` sorts. -/
theorem C53_nearest (argsort : List K → List ℕ) (array : List K) (value : K) (N : ℕ)
    (hs : IsArgsort (array.map fun a => |a - value|) (argsort (array.map fun a => |a - value|))) :
    let r := findNearest argsort array value N
    r.length = min N array.length ∧ r.Nodup ∧ (∀ i ∈ r, i < array.length) ∧
      (r.map fun (i : ℕ) => |array.getD i 0 - value|).Pairwise (· ≤ ·) ∧
      ∀ i ∈ r, ∀ j, j < array.length → j ∉ r → |array.getD i 0 - value| ≤ |array.getD j 0 - value| := by
  obtain ⟨hp, ho⟩ := hs
  intro r
  have hr : r = (argsort (array.map fun a => |a - value|)).take N := pyTake_nonneg _ N
  set idx := argsort (array.map fun a => |a - value|) with hidx
  have hlen : idx.length = array.length := by rw [hp.length_eq]; simp
  have hnd : idx.Nodup := hp.nodup_iff.mpr List.nodup_range
  have hmem : ∀ i, i ∈ idx ↔ i < array.length := by intro i; rw [hp.mem_iff]; simp
  have hkey : ∀ i, i < array.length →
      (array.map fun a => |a - value|).getD i 0 = |array.getD i 0 - value| := by
    intro i hi
    simp [List.getD_eq_getElem?_getD, List.getElem?_eq_getElem hi]
  have ho' : idx.Pairwise fun i j => |array.getD i 0 - value| ≤ |array.getD j 0 - value| := by
    rw [List.pairwise_map] at ho
    refine ho.imp_of_mem ?_
    intro a b ha hb hab
    rwa [hkey a ((hmem a).mp ha), hkey b ((hmem b).mp hb)] at hab
  refine ⟨by rw [hr, List.length_take, hlen], ?_, ?_, ?_, ?_⟩
  · rw [hr]; exact hnd.sublist (List.take_sublist _ _)
  · intro i hi; rw [hr] at hi; exact (hmem i).mp (List.mem_of_mem_take hi)
  · rw [hr, List.pairwise_map]; exact ho'.sublist (List.take_sublist _ _)
  · intro i hi j hj hjr
    rw [hr] at hi hjr
    have hjd : j ∈ idx.drop N := by
      have := (hmem j).mpr hj
      rw [← List.take_append_drop N idx, List.mem_append] at this
      exact this.resolve_left hjr
    have := ho'
    rw [← List.take_append_drop N idx, List.pairwise_append] at this
    exact this.2.2 i hi j hjd

/-- **C53 (negative count).** A negative `N` is accepted silently: all but the `-N` farthest positions
are returned. -/
theorem C53_negative (argsort : List K → List ℕ) (array : List K) (value : K) (N : ℕ) (hN : 0 < N)
    (hs : IsArgsort (array.map fun a => |a - value|) (argsort (array.map fun a => |a - value|))) :
    findNearest argsort array value (-N) =
      findNearest argsort array value ((array.length - N : ℕ) : ℤ) := by
  have hlen : (argsort (array.map fun a => |a - value|)).length = array.length := by
    rw [hs.1.length_eq]; simp
  unfold findNearest
  rw [pyTake_nonneg]
  unfold pyTake
  rw [if_neg (by omega), hlen]
  congr 2
  simp

/-- The contract can be met, ties included. -/
example : IsArgsort ([3, 1, 1, 2].map fun (a : ℚ) => |a - 1|) [2, 1, 3, 0] := by
  unfold IsArgsort
  decide +kernel

end

/-! ### C54 -/

section
variable {K : Type*} [Field K]

/-- **C54 (meaning).** The waves between two devices and around them are consistent with both devices
only if the composed matrix scatters the outer waves. -/
theorem C54_scatters (A B : SMat K) (hD : 1 - A.s22 * B.s11 ≠ 0) (a1 a2 b1 b2 x y : K)
    (hA : Scatters A a1 y b1 x) (hB : Scatters B x a2 y b2) : Scatters (redheffer A B) a1 a2 b1 b2 := by
  obtain ⟨hA1, hA2⟩ := hA
  obtain ⟨hB1, hB2⟩ := hB
  have hD' : 1 - B.s11 * A.s22 ≠ 0 := by rwa [mul_comm] at hD
  have hx : x = (A.s21 * a1 + A.s22 * B.s12 * a2) / (1 - A.s22 * B.s11) := by
    rw [eq_div_iff hD]; linear_combination hA2 + A.s22 * hB1
  have hy : y = (B.s11 * A.s21 * a1 + B.s12 * a2) / (1 - B.s11 * A.s22) := by
    rw [eq_div_iff hD']; linear_combination hB1 + B.s11 * hA2
  constructor
  · rw [hA1, hy]; simp only [redheffer]; field_simp; ring
  · rw [hB2, hx]; simp only [redheffer]; field_simp; ring

/-- **C54 (meaning, converse).** For all incoming waves there are such inner waves. -/
theorem C54_scatters_exists (A B : SMat K) (hD : 1 - A.s22 * B.s11 ≠ 0) (a1 a2 : K) :
    ∃ b1 b2 x y, Scatters A a1 y b1 x ∧ Scatters B x a2 y b2 := by
  refine ⟨_, _, (A.s21 * a1 + A.s22 * B.s12 * a2) / (1 - A.s22 * B.s11),
    B.s11 * ((A.s21 * a1 + A.s22 * B.s12 * a2) / (1 - A.s22 * B.s11)) + B.s12 * a2,
    ⟨rfl, ?_⟩, ⟨rfl, rfl⟩⟩
  field_simp
  ring

/-- **C54 (identity).** The pass-through matrix is a two-sided identity. -/
theorem C54_identity (A : SMat K) : redheffer ⟨0, 1, 1, 0⟩ A = A ∧ redheffer A ⟨0, 1, 1, 0⟩ = A := by
  obtain ⟨a, b, c, d⟩ := A
  constructor <;> simp [redheffer]

/-- **C54 (associativity).** Wherever the inner denominators and one of the outer ones do not vanish. -/
theorem C54_assoc (A B C : SMat K) (h1 : 1 - A.s22 * B.s11 ≠ 0) (h2 : 1 - B.s22 * C.s11 ≠ 0)
    (h3 : 1 - (redheffer A B).s22 * C.s11 ≠ 0) :
    redheffer (redheffer A B) C = redheffer A (redheffer B C) := by
  obtain ⟨a, b, c, d⟩ := A
  obtain ⟨e, f, g, h⟩ := B
  obtain ⟨k, l, m, n⟩ := C
  simp only [redheffer] at *
  have h1' : 1 - e * d ≠ 0 := by rwa [mul_comm] at h1
  have h2' : 1 - k * h ≠ 0 := by rwa [mul_comm] at h2
  set N : K := (1 - d * e) * (1 - h * k) - g * d * f * k with hN
  have hN0 : N ≠ 0 := by
    intro h0
    apply h3
    have : (1 - (h + g * (1 / (1 - d * e)) * d * f) * k) * (1 - d * e) = N := by
      rw [hN]; field_simp; ring
    rw [h0] at this
    exact (mul_eq_zero.mp this).resolve_right h1
  have k1 : 1 - (h + g * (1 / (1 - d * e)) * d * f) * k = N / (1 - d * e) := by
    rw [hN]; field_simp; ring
  have k2 : 1 - k * (h + g * (1 / (1 - d * e)) * d * f) = N / (1 - d * e) := by
    rw [hN]; field_simp; ring
  have k3 : 1 - (e + f * (1 / (1 - k * h)) * k * g) * d = N / (1 - h * k) := by
    rw [hN, mul_comm k h]; field_simp; ring
  have k4 : 1 - d * (e + f * (1 / (1 - k * h)) * k * g) = N / (1 - h * k) := by
    rw [hN, mul_comm k h]; field_simp; ring
  rw [k1, k2, k3, k4, mul_comm k h, mul_comm e d]
  refine SMat.mk.injEq .. |>.mpr ⟨?_, ?_, ?_, ?_⟩ <;> field_simp <;> rw [hN] <;> ring

/-- **C54 (transfer matrices).** Composition is multiplication of transfer matrices. -/
theorem C54_transfer (A B : SMat K) (hA : A.s12 ≠ 0) (hB : B.s12 ≠ 0) (hD : 1 - A.s22 * B.s11 ≠ 0) :
    transfer (redheffer A B) = mul2 (transfer B) (transfer A) := by
  obtain ⟨a, b, c, d⟩ := A
  obtain ⟨e, f, g, h⟩ := B
  simp only at hA hB hD
  have hD' : 1 - e * d ≠ 0 := by rwa [mul_comm] at hD
  simp only [transfer, mul2, redheffer]
  rw [mul_comm e d]
  refine SMat.mk.injEq .. |>.mpr ⟨?_, ?_, ?_, ?_⟩ <;> field_simp <;> ring

/-- The transfer matrix has the meaning stated in its definition. -/
theorem C54_transfer_meaning (S : SMat K) (h : S.s12 ≠ 0) (a1 a2 b1 b2 : K) (hS : Scatters S a1 a2 b1 b2) :
    b2 = (transfer S).s11 * a1 + (transfer S).s12 * b1 ∧ a2 = (transfer S).s21 * a1 + (transfer S).s22 * b1 := by
  obtain ⟨h1, h2⟩ := hS
  simp only [transfer]
  constructor
  · rw [h2, h1]; field_simp; ring
  · rw [h1]; field_simp; ring

example : (1 - (SMat.s22 ⟨1/2, 1/3, 1/5, 1/7⟩) * (SMat.s11 ⟨1/2, 2/3, 1, (2 : ℚ)⟩) ≠ 0) ∧
    (1 - (redheffer ⟨1/2, 1/3, 1/5, 1/7⟩ ⟨1/2, 2/3, 1, (2 : ℚ)⟩).s22 * 3 ≠ 0) := by
  decide +kernel

end

/-! ### C55 -/

open scoped ComplexConjugate

/-- The phase factor of a plane wave. -/
noncomputable def Spec.wave (g : ℝ × ℝ) (x y : ℝ) : ℂ :=
  Complex.exp (Complex.I * ((g.1 * x + g.2 * y : ℝ) : ℂ))

theorem wave_eq (g : ℝ × ℝ) (x y : ℝ) :
    Complex.exp (Complex.I * g.1 * x + Complex.I * g.2 * y) = wave g x y := by
  unfold wave; congr 1; push_cast; ring

open Classical in
theorem keepFirst_sum (F : ℝ × ℝ → ℂ) (seen : List (ℝ × ℝ)) (cg : List (ℂ × ℝ × ℝ))
    (hF : ∀ c ∈ cg, c.1 = F c.2) (x y : ℝ) :
    ((keepFirst seen cg).map fun c => c.1 * Complex.exp (Complex.I * c.2.1 * x + Complex.I * c.2.2 * y)).sum =
      ∑ g ∈ (cg.map Prod.snd).toFinset \ seen.toFinset, F g * wave g x y := by
  induction cg generalizing seen with
  | nil => simp [keepFirst]
  | cons a l ih =>
    obtain ⟨c, g⟩ := a
    have hl : ∀ c ∈ l, c.1 = F c.2 := fun c hc => hF c (List.mem_cons_of_mem _ hc)
    unfold keepFirst
    by_cases hg : g ∈ seen
    · rw [if_pos hg, ih seen hl]
      congr 1
      ext h
      simp only [List.map_cons, List.toFinset_cons, Finset.mem_sdiff, List.mem_toFinset,
        Finset.mem_insert]
      constructor
      · rintro ⟨h1, h2⟩; exact ⟨Or.inr h1, h2⟩
      · rintro ⟨rfl | h1, h2⟩
        · exact absurd hg h2
        · exact ⟨h1, h2⟩
    · rw [if_neg hg, List.map_cons, List.sum_cons, ih (g :: seen) hl, wave_eq]
      have hc : c = F g := hF (c, g) List.mem_cons_self
      have : (((c, g) :: l).map Prod.snd).toFinset \ seen.toFinset =
          insert g ((l.map Prod.snd).toFinset \ (g :: seen).toFinset) := by
        ext h
        simp only [List.map_cons, List.toFinset_cons, Finset.mem_sdiff, List.mem_toFinset,
          Finset.mem_insert, not_or]
        constructor
        · rintro ⟨rfl | h1, h2⟩
          · exact Or.inl rfl
          · by_cases hh : h = g
            · exact Or.inl hh
            · exact Or.inr ⟨h1, hh, h2⟩
        · rintro (rfl | ⟨h1, h2, h3⟩)
          · exact ⟨Or.inl rfl, hg⟩
          · exact ⟨Or.inr h1, h3⟩
      rw [this, Finset.sum_insert (by simp), ← hc]

open Classical in
/-- **C55 (every vector counts once).** If the coefficient is a function of the reciprocal vector, the
result at every point is the sum over the set of vectors, however often they are repeated and whatever
their order. -/
theorem C55_once (F : ℝ × ℝ → ℂ) (cg : List (ℂ × ℝ × ℝ)) (hF : ∀ c ∈ cg, c.1 = F c.2) (x y : ℝ) :
    ftinvAt cg x y = ∑ g ∈ (cg.map Prod.snd).toFinset, F g * wave g x y := by
  unfold ftinvAt
  rw [keepFirst_sum F [] cg hF x y]
  simp

/-- **C55.** Two data sets with the same vectors up to repetition and order give the same result. -/
theorem C55_repetition (F : ℝ × ℝ → ℂ) (cg cg' : List (ℂ × ℝ × ℝ)) (hF : ∀ c ∈ cg, c.1 = F c.2)
    (hF' : ∀ c ∈ cg', c.1 = F c.2) (hs : ∀ g, g ∈ cg.map Prod.snd ↔ g ∈ cg'.map Prod.snd)
    (xgrid ygrid : List ℝ) : ftinv cg xgrid ygrid = ftinv cg' xgrid ygrid := by
  classical
  unfold ftinv
  congr 1; ext1 y; congr 1; ext1 x
  rw [C55_once F cg hF, C55_once F cg' hF']
  congr 1
  ext g
  simp only [List.mem_toFinset]
  exact hs g

theorem wave_neg (g : ℝ × ℝ) (x y : ℝ) : wave (-g) x y = conj (wave g x y) := by
  unfold wave
  rw [← Complex.exp_conj]
  congr 1
  simp only [map_mul, Complex.conj_I, Complex.conj_ofReal, Prod.fst_neg, Prod.snd_neg]
  push_cast; ring

/-- **C55 (real values).** For a set of vectors symmetric under inversion with conjugate coefficients,
all values are real. -/
theorem C55_real (F : ℝ × ℝ → ℂ) (hFc : ∀ g, F (-g) = conj (F g)) (cg : List (ℂ × ℝ × ℝ))
    (hF : ∀ c ∈ cg, c.1 = F c.2) (hs : ∀ g ∈ cg.map Prod.snd, -g ∈ cg.map Prod.snd) (x y : ℝ) :
    (ftinvAt cg x y).im = 0 := by
  classical
  rw [← Complex.conj_eq_iff_im, C55_once F cg hF, map_sum]
  refine Finset.sum_nbij' (fun g => -g) (fun g => -g) ?_ ?_ ?_ ?_ ?_
  · intro g hg; rw [List.mem_toFinset] at *; exact hs g hg
  · intro g hg; rw [List.mem_toFinset] at *; exact hs g hg
  · intro g _; simp
  · intro g _; simp
  · intro g _
    rw [wave_neg, hFc, map_mul]

/-- **C55 (permittivity).** What `get_eps_xy` shows in the `tbt` mode is real at every point, for every
conjugate-symmetric transform sampled at any two lists of vectors. -/
theorem C55_eps_real (F : ℝ × ℝ → ℂ) (hFc : ∀ g, F (-g) = conj (F g)) (t1 t2 : List (ℂ × ℝ × ℝ))
    (h1 : ∀ c ∈ t1, c.1 = F c.2) (h2 : ∀ c ∈ t2, c.1 = F c.2) (x y : ℝ) :
    (ftinvAt (epsXyTbt t1 t2) x y).im = 0 := by
  have hc : ∀ t : List (ℂ × ℝ × ℝ), (∀ c ∈ t, c.1 = F c.2) →
      ∀ c ∈ t.map (fun (c : ℂ × ℝ × ℝ) => ((starRingEnd ℂ) c.1, -c.2.1, -c.2.2)), c.1 = F c.2 := by
    intro t ht c hc
    obtain ⟨d, hd, rfl⟩ := List.mem_map.mp hc
    simp only
    rw [ht d hd, ← hFc]; rfl
  refine C55_real F hFc _ ?_ ?_ x y
  · intro c hcm
    unfold epsXyTbt at hcm
    simp only [List.mem_append] at hcm
    rcases hcm with ((h | h) | h) | h
    · exact h1 c h
    · exact h2 c h
    · exact hc t1 h1 c h
    · exact hc t2 h2 c h
  · intro g hg
    simp only [epsXyTbt, List.map_append, List.map_map, List.mem_append, List.mem_map,
      Function.comp] at hg ⊢
    rcases hg with ((⟨a, ha, rfl⟩ | ⟨a, ha, rfl⟩) | ⟨a, ha, rfl⟩) | ⟨a, ha, rfl⟩
    · exact Or.inl (Or.inr ⟨a, ha, rfl⟩)
    · exact Or.inr ⟨a, ha, rfl⟩
    · exact Or.inl (Or.inl (Or.inl ⟨a, ha, by ext <;> simp⟩))
    · exact Or.inl (Or.inl (Or.inr ⟨a, ha, by ext <;> simp⟩))

/-- **C55 (periodicity).** If all vectors are reciprocal to the translation `(u, v)`, so are the values,
for arbitrary coefficients, repeated vectors included. -/
theorem C55_periodic (cg : List (ℂ × ℝ × ℝ)) (u v : ℝ)
    (hR : ∀ c ∈ cg, ∃ n : ℤ, c.2.1 * u + c.2.2 * v = 2 * Real.pi * n) (x y : ℝ) :
    ftinvAt cg (x + u) (y + v) = ftinvAt cg x y := by
  have hk : ∀ (seen : List (ℝ × ℝ)) (cg : List (ℂ × ℝ × ℝ)), ∀ c ∈ keepFirst seen cg, c ∈ cg := by
    intro seen cg
    induction cg generalizing seen with
    | nil => simp [keepFirst]
    | cons a l ih =>
      intro c hc
      obtain ⟨d, g⟩ := a
      unfold keepFirst at hc
      split at hc
      · exact List.mem_cons_of_mem _ (ih _ c hc)
      · rcases List.mem_cons.mp hc with rfl | hc
        · exact List.mem_cons_self
        · exact List.mem_cons_of_mem _ (ih _ c hc)
  unfold ftinvAt
  congr 1
  apply List.map_congr_left
  intro c hc
  obtain ⟨n, hn⟩ := hR c (hk [] cg c hc)
  congr 1
  rw [wave_eq, wave_eq]
  unfold wave
  rw [Complex.exp_eq_exp_iff_exists_int]
  refine ⟨n, ?_⟩
  have : ((c.2.1 * (x + u) + c.2.2 * (y + v) : ℝ) : ℂ) =
      ((c.2.1 * x + c.2.2 * y : ℝ) : ℂ) + ((2 * Real.pi * n : ℝ) : ℂ) := by
    rw [← hn]; push_cast; ring
  rw [this]; push_cast; ring

/-- **C55 (grid).** Entry `[j][i]` belongs to `xgrid[i]` and `ygrid[j]`. -/
theorem C55_grid (cg : List (ℂ × ℝ × ℝ)) (xgrid ygrid : List ℝ) (i j : ℕ) :
    ((ftinv cg xgrid ygrid)[j]?.bind fun (r : List ℂ) => r[i]?) =
      ygrid[j]?.bind fun y => xgrid[i]?.map fun x => ftinvAt cg x y := by
  unfold ftinv
  rw [List.getElem?_map]
  cases ygrid[j]? <;> simp

/-- A conjugate-symmetric transform and vectors containing a repetition. -/
example : ∃ F : ℝ × ℝ → ℂ, (∀ g, F (-g) = conj (F g)) ∧ F (1, 0) ≠ 0 ∧
    ∀ c ∈ [(F (1, 0), ((1 : ℝ), (0 : ℝ))), (F (1, 0), (1, 0))], c.1 = F c.2 := by
  refine ⟨fun g => 1 + Complex.I * (g.1 : ℂ), ?_, ?_, ?_⟩
  · intro g; simp
  · intro h; have := congrArg Complex.re h; simp at this
  · simp

/-! ### C56 -/

theorem hcEV_pos : 0 < hcEV := by unfold hcEV; norm_num

/-- **C56 (counterexample).** `from_freq_to_e(0.0)` raises `ZeroDivisionError`, not `ValueError`: the
quotient is computed before the test. -/
theorem C56_zero_wrong_exception : fromFreqToE false 0 = .error .zeroDivisionError := by
  simp [fromFreqToE]

/-- **C56 (partial).** Except for the Python float `0.0`: `ValueError` exactly for `a <= 0`; otherwise
`h c / a`, which is positive, and a warning exactly outside `[5e-8, 5e-6]`. Missing: `a = 0.0`. -/
theorem C56_convert_partial (np : Bool) (a : ℝ) (h : a ≠ 0 ∨ np = true) :
    (a ≤ 0 → fromFreqToE np a = .error .valueError) ∧
    (0 < a → ∃ w, fromFreqToE np a = .ok (hcEV / a, w) ∧ 0 < hcEV / a ∧
      (w = true ↔ ¬ (5e-8 ≤ a ∧ a ≤ 5e-6))) := by
  have h' : ¬ (a = 0 ∧ np = false) := by
    rintro ⟨h1, h2⟩
    rcases h with h | h
    · exact h h1
    · rw [h] at h2; cases h2
  unfold fromFreqToE
  rw [if_neg h']
  constructor
  · intro ha; rw [if_pos ha]
  · intro ha
    rw [if_neg (not_le.mpr ha)]
    refine ⟨_, rfl, div_pos hcEV_pos ha, ?_⟩
    rw [decide_eq_true_iff, not_and_or, not_le, not_le]

/-- **C56 (monotone).** The factor decreases strictly with the lattice constant. -/
theorem C56_decreasing (np : Bool) (a b : ℝ) (ha : 0 < a) (hab : a < b) :
    ∃ ca cb wa wb, fromFreqToE np a = .ok (ca, wa) ∧ fromFreqToE np b = .ok (cb, wb) ∧ cb < ca := by
  obtain ⟨wa, h1, _⟩ := (C56_convert_partial np a (Or.inl ha.ne')).2 ha
  obtain ⟨wb, h2, _⟩ := (C56_convert_partial np b (Or.inl (ha.trans hab).ne')).2 (ha.trans hab)
  exact ⟨_, _, wa, wb, h1, h2, div_lt_div_of_pos_left hcEV_pos ha hab⟩

/-- A lattice constant of 400 nm gives no warning. -/
example : fromFreqToE false 4e-7 = .ok (hcEV / 4e-7, false) := by
  unfold fromFreqToE
  norm_num

end Legume
