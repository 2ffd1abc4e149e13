import Mathlib.MeasureTheory.Integral.IntervalIntegral.Basic
import Verif.Lemmas.Unpatterned
import Verif.Props.Unpatterned

/-!
# Guided modes of reversed and subdivided stacks
-/
namespace Legume

open Complex Spec MeasureTheory
open scoped ComplexConjugate

theorem zip_reverse_of_length {α β : Type} (l : List α) (m : List β) (h : l.length = m.length) :
    l.reverse.zip m.reverse = (l.zip m).reverse := by
  induction l generalizing m with
  | nil => simp
  | cons a l ih =>
    cases m with
    | nil => simp at h
    | cons b m =>
      simp only [List.length_cons, Nat.add_right_cancel_iff] at h
      rw [List.reverse_cons, List.reverse_cons, List.zip_append (by simpa using h), ih m h]
      simp

/-! ### Uniqueness -/

/-- The fields at one interface determine the amplitudes above it. -/
theorem interface_unique {pol : Pol} {omega g : ℝ} {lo : (ℝ × ℝ) × (ℂ × ℂ)} {up : ℝ × ℝ} {ab cd : ℂ × ℂ}
    (hw : wgt pol omega g up.1 ≠ 0) (h1 : Interface pol omega g lo (up, ab))
    (h2 : Interface pol omega g lo (up, cd)) : ab = cd := by
  have s := h1.1.symm.trans h2.1
  have d := h1.2.symm.trans h2.2
  simp only [fieldSum, fieldDiff] at s d
  have d' := mul_left_cancel₀ hw d
  have e1 := Complex.exp_ne_zero (I * chi omega g up.1 * ((-(up.2 / 2) : ℝ) : ℂ))
  have e2 := Complex.exp_ne_zero (-(I * chi omega g up.1 * ((-(up.2 / 2) : ℝ) : ℂ)))
  refine Prod.ext ?_ ?_
  · refine mul_right_cancel₀ e1 ?_
    linear_combination (1 / 2) * s + (1 / 2) * d'
  · refine mul_right_cancel₀ e2 ?_
    linear_combination (1 / 2) * s - (1 / 2) * d'

theorem chain_unique {pol : Pol} {omega g : ℝ} (l : ℝ × ℝ) (ls : List (ℝ × ℝ))
    (hw : ∀ x ∈ ls, wgt pol omega g x.1 ≠ 0) (a : ℂ × ℂ) (as bs : List (ℂ × ℂ)) (ha : as.length = ls.length)
    (hb : bs.length = ls.length) (h1 : List.IsChain (Interface pol omega g) ((l :: ls).zip (a :: as)))
    (h2 : List.IsChain (Interface pol omega g) ((l :: ls).zip (a :: bs))) : as = bs := by
  induction ls generalizing l a as bs with
  | nil =>
    rw [List.length_nil, List.length_eq_zero_iff] at ha hb
    rw [ha, hb]
  | cons m ls ih =>
    cases as with
    | nil => simp at ha
    | cons x as =>
      cases bs with
      | nil => simp at hb
      | cons y bs =>
        simp only [List.zip_cons_cons, List.isChain_cons_cons] at h1 h2
        have e := interface_unique (hw m (by simp)) h1.1 h2.1
        subst e
        rw [ih m (fun x hx => hw x (by simp [hx])) x as bs (by simpa using ha) (by simpa using hb)
          (by simpa using h1.2) (by simpa using h2.2)]

/-- Amplitudes times a complex number. -/
def mulAbs (c : ℂ) (abs : List (ℂ × ℂ)) : List (ℂ × ℂ) := abs.map fun ab => (c * ab.1, c * ab.2)

theorem chain_mul {pol : Pol} {omega g : ℝ} (ls : List (ℝ × ℝ)) (abs : List (ℂ × ℂ)) (c : ℂ)
    (h : List.IsChain (Interface pol omega g) (ls.zip abs)) :
    List.IsChain (Interface pol omega g) (ls.zip (mulAbs c abs)) := by
  unfold mulAbs
  rw [List.zip_map_right, List.isChain_map]
  refine h.imp ?_
  intro a b hab
  have fs : ∀ (x : ℂ) (ab : ℂ × ℂ) (t : ℝ), fieldSum x (c * ab.1, c * ab.2) t = c * fieldSum x ab t := by
    intro x ab t; simp only [fieldSum]; ring
  have fd : ∀ (w x : ℂ) (ab : ℂ × ℂ) (t : ℝ), fieldDiff w x (c * ab.1, c * ab.2) t = c * fieldDiff w x ab t := by
    intro w x ab t; simp only [fieldDiff]; ring
  simp only [Interface, Prod.map, id] at hab ⊢
  rw [fs, fs, fd, fd, hab.1, hab.2]
  exact ⟨rfl, rfl⟩

/-- The guided mode at a frequency is unique up to a factor. -/
theorem guided_unique {pol : Pol} {omega g e0 eN : ℝ} {ls : List (ℝ × ℝ)} {abs1 abs2 : List (ℂ × ℂ)}
    (hN : eN ≠ 0) (hl : ∀ l ∈ ls, l.1 ≠ 0) (hoff : ∀ l ∈ ls, l.1 * omega ^ 2 ≠ g ^ 2)
    (h1 : IsGuided pol omega g e0 eN ls abs1) (h2 : IsGuided pol omega g e0 eN ls abs2) (B1 B2 : ℂ)
    (hB1 : abs1.head? = some (0, B1)) (hB2 : abs2.head? = some (0, B2)) (hne : B1 ≠ 0) :
    abs2 = mulAbs (B2 / B1) abs1 := by
  have hw : ∀ x ∈ ls ++ [(eN, 0)], wgt pol omega g x.1 ≠ 0 := by
    intro x hx
    rw [List.mem_append, List.mem_singleton] at hx
    rcases hx with hx | rfl
    · exact wgt_ne_zero _ _ _ _ (hoff x hx) (hl x hx)
    · exact wgt_ne_zero _ _ _ _ h1.up.ne hN
  have c1 := chain_mul _ _ (B2 / B1) h1.chain
  have c2 := h2.chain
  have l1 := h1.len
  have l2 := h2.len
  cases abs1 with
  | nil => simp at l1
  | cons a as =>
    cases abs2 with
    | nil => simp at l2
    | cons b bs =>
      simp only [List.head?_cons, Option.some.injEq] at hB1 hB2
      subst hB1
      subst hB2
      have hb : ((B2 / B1) * (0 : ℂ), (B2 / B1) * B1) = (0, B2) := by
        rw [mul_zero, div_mul_cancel₀ _ hne]
      simp only [mulAbs, List.map_cons, hb] at c1 ⊢
      rw [chain_unique (e0, 0) (ls ++ [(eN, 0)]) hw (0, B2) bs (as.map fun ab : ℂ × ℂ => (B2 / B1 * ab.1, B2 / B1 * ab.2))
        (by simpa using l2) (by simpa using l1) c2 c1]

/-! ### Turning the stack upside down -/

/-- The position of a layer in the reversed stack. -/
def flipPos : LPos → LPos
  | .lower => .upper
  | .upper => .lower
  | .inner d => .inner d

/-- Amplitudes in the reversed stack. -/
def flipAbs (abs : List (ℂ × ℂ)) : List (ℂ × ℂ) := (abs.map Prod.swap).reverse

theorem slabStack_flip (e0 eN : ℝ) (ls : List (ℝ × ℝ)) :
    slabStack eN e0 ls.reverse = ((slabStack e0 eN ls).map fun p => (flipPos p.1, p.2)).reverse := by
  simp [slabStack, flipPos, Function.comp_def]

theorem guided_flip {pol : Pol} {omega g e0 eN : ℝ} {ls : List (ℝ × ℝ)} {abs : List (ℂ × ℂ)}
    (h : IsGuided pol omega g e0 eN ls abs) : IsGuided pol omega g eN e0 ls.reverse (flipAbs abs) := by
  obtain ⟨h1, h2, h3, h4, ⟨B, h5⟩, ⟨A, h6⟩⟩ := h
  refine ⟨h2, h1, by simpa [flipAbs] using h3, ?_, ⟨A, ?_⟩, ⟨B, ?_⟩⟩
  · have e : (eN, (0 : ℝ)) :: ls.reverse ++ [(e0, 0)] = ((e0, 0) :: ls ++ [(eN, 0)]).reverse := by simp
    rw [e, flipAbs, zip_reverse_of_length _ _ (by simp [h3]), List.isChain_reverse, List.zip_map_right,
      List.isChain_map]
    refine h4.imp ?_
    rintro ⟨⟨e1, d1⟩, ⟨a1, b1⟩⟩ ⟨⟨e2, d2⟩, ⟨a2, b2⟩⟩ hab
    simp only [Interface, fieldSum, fieldDiff, Prod.map, id, Prod.swap] at hab ⊢
    push_cast at hab ⊢
    simp only [mul_neg, neg_neg] at hab ⊢
    exact ⟨by linear_combination -hab.1, by linear_combination hab.2⟩
  · simp [flipAbs, h6]
  · simp [flipAbs, h5]

theorem integral_flip {E : Type} [NormedAddCommGroup E] [NormedSpace ℝ E] (pos : LPos) (f : ℝ → E) :
    ∫ t, f (-t) ∂(layMeasure (flipPos pos)) = ∫ t, f t ∂(layMeasure pos) := by
  cases pos with
  | lower =>
    simp only [flipPos, layMeasure]
    have := integral_comp_neg_Ioi (0 : ℝ) f
    rwa [neg_zero] at this
  | upper =>
    simp only [flipPos, layMeasure]
    have := integral_comp_neg_Iic (0 : ℝ) f
    rwa [neg_zero] at this
  | inner d =>
    simp only [flipPos, layMeasure]
    by_cases hd : 0 ≤ d
    · rw [← intervalIntegral.integral_of_le (by linarith), ← intervalIntegral.integral_of_le (by linarith),
        intervalIntegral.integral_comp_neg, neg_neg]
    · rw [Set.Ioc_eq_empty (by linarith), Measure.restrict_empty, integral_zero_measure, integral_zero_measure]

theorem ijExact_flip (pos : LPos) (a : ℂ) : ijExact (flipPos pos) (-a) = ijExact pos a := by
  unfold ijExact
  rw [← integral_flip pos]
  congr 1
  funext t
  congr 1
  push_cast
  ring

/-- A mode of one layer in the reversed stack, times a number. -/
def flipMode (u : ℂ) (m : ModeL) : ModeL := ⟨u * m.B, u * m.A, m.x⟩

theorem magSq_flip (pol : Pol) (g : ℝ) (m : ModeL) (u : ℂ) (t : ℝ) :
    magSq pol g (flipMode u m) t = ‖u‖ ^ 2 * magSq pol g m (-t) := by
  have hs : fieldSum m.x (u * m.B, u * m.A) t = u * fieldSum m.x (m.A, m.B) (-t) := by
    simp only [fieldSum]; push_cast; simp only [mul_neg, neg_neg]; ring
  have hd : fieldDiff m.x m.x (u * m.B, u * m.A) t = -(u * fieldDiff m.x m.x (m.A, m.B) (-t)) := by
    simp only [fieldDiff]; push_cast; simp only [mul_neg, neg_neg]; ring
  cases pol
  · simp only [magSq, intensityTE, flipMode, hs, hd, norm_neg, norm_mul]; ring
  · simp only [magSq, intensityTM, flipMode, hs, norm_mul]; ring

theorem slabNorm_flip (pol : Pol) (g : ℝ) (stack : List (LPos × ℝ)) (layers : List ModeL)
    (h : stack.length = layers.length) (u : ℂ) :
    slabNorm pol g (stack.map fun p => (flipPos p.1, p.2)).reverse (layers.map (flipMode u)).reverse =
      ‖u‖ ^ 2 * slabNorm pol g stack layers := by
  unfold slabNorm
  rw [zip_reverse_of_length _ _ (by simp [h]), List.map_reverse, List.sum_reverse, List.zip_map, List.map_map,
    ← List.sum_map_mul_left]
  congr 1
  refine List.map_congr_left fun z _ => ?_
  simp only [Function.comp, Prod.map, magSq_flip]
  rw [integral_const_mul, integral_flip z.1.1 fun t => magSq pol g z.2 t]

/-- Parity of a polarisation under reflection of the height. -/
def flipSign : Pol → ℂ
  | .te => 1
  | .tm => -1

theorem four_flip (ij : LPos → ℂ → ℂ) (hij : ∀ p a, ij (flipPos p) (-a) = ij p a) (pos : LPos) (m1 m2 : ModeL)
    (u v s1 s2 : ℂ) (h1 : s1 * s1 = 1) (h2 : s2 * s2 = 1) :
    four ij (flipPos pos) (flipMode u m1) (flipMode v m2) s1 s2 =
      conj u * v * (s1 * s2) * four ij pos m1 m2 s1 s2 := by
  have e : ∀ a, ij (flipPos pos) a = ij pos (-a) := by
    intro a
    rw [← hij pos, neg_neg]
  simp only [four, flipMode, e, map_mul]
  rw [show -(m2.x - conj m1.x) = -m2.x + conj m1.x by ring, show -(-m2.x + conj m1.x) = m2.x - conj m1.x by ring,
    show -(-m2.x - conj m1.x) = m2.x + conj m1.x by ring, show -(m2.x + conj m1.x) = -m2.x - conj m1.x by ring]
  linear_combination
    (-(conj u * v * s2 * s2 * (conj m1.B * m2.B * ij pos (-m2.x + conj m1.x)))
      - conj u * v * s2 * conj m1.B * m2.A * ij pos (m2.x + conj m1.x)) * h1 +
    (-(conj u * v * (conj m1.B * m2.B * ij pos (-m2.x + conj m1.x)))
      - conj u * v * s1 * conj m1.A * m2.B * ij pos (-m2.x - conj m1.x)) * h2

/-- A pair of modes of one layer in the reversed stack. -/
def flipPair (u v : ℂ) (l : LayPair) : LayPair := ⟨flipPos l.pos, l.eps, l.einv, flipMode u l.m1, flipMode v l.m2⟩

theorem layTerm_flip (ij : LPos → ℂ → ℂ) (hij : ∀ p a, ij (flipPos p) (-a) = ij p a) (s t s' t' : GmeState)
    (hs : s'.pol = s.pol ∧ s'.gx = s.gx ∧ s'.gy = s.gy ∧ s'.om = s.om)
    (ht : t'.pol = t.pol ∧ t'.gx = t.gx ∧ t'.gy = t.gy ∧ t'.om = t.om) (u v : ℂ) (l : LayPair) :
    layTerm ij s' t' (flipPair u v l) =
      conj u * v * (flipSign s.pol * flipSign t.pol) * layTerm ij s t l := by
  obtain ⟨a1, a2, a3, a4⟩ := hs
  obtain ⟨b1, b2, b3, b4⟩ := ht
  have f := fun s1 s2 h1 h2 => four_flip ij hij l.pos l.m1 l.m2 u v s1 s2 h1 h2
  have hx : (flipMode u l.m1).x = l.m1.x := rfl
  have hy : (flipMode v l.m2).x = l.m2.x := rfl
  unfold layTerm
  simp only [a1, b1, flipPair, GmeState.gk, GmeState.p, GmeState.q, a2, a3, a4, b2, b3, b4, hx, hy]
  rcases s.pol <;> rcases t.pol <;> simp only [flipSign]
  · rw [f 1 1 (by simp) (by simp)]; ring
  · rw [f 1 (-1) (by simp) (by simp)]; ring
  · rw [f (-1) 1 (by simp) (by simp)]; ring
  · rw [f (-1) (-1) (by simp) (by simp), f 1 1 (by simp) (by simp)]; ring

theorem gmeElem_flip (ij : LPos → ℂ → ℂ) (hij : ∀ p a, ij (flipPos p) (-a) = ij p a) (stack : List (LPos × ℝ))
    (einv : List ℂ) (s t s' t' : GmeState) (hl : einv.length = stack.length) (hls : s.layers.length = stack.length)
    (hlt : t.layers.length = stack.length)
    (hs : s'.pol = s.pol ∧ s'.gx = s.gx ∧ s'.gy = s.gy ∧ s'.om = s.om)
    (ht : t'.pol = t.pol ∧ t'.gx = t.gx ∧ t'.gy = t.gy ∧ t'.om = t.om) (u v : ℂ)
    (hs' : s'.layers = (s.layers.map (flipMode u)).reverse) (ht' : t'.layers = (t.layers.map (flipMode v)).reverse) :
    gmeElem ij (stack.map fun p => (flipPos p.1, p.2)).reverse einv.reverse s' t' =
      conj u * v * (flipSign s.pol * flipSign t.pol) * gmeElem ij stack einv s t := by
  have hp : layPairs (stack.map fun p => (flipPos p.1, p.2)).reverse einv.reverse s' t' =
      ((layPairs stack einv s t).map (flipPair u v)).reverse := by
    unfold layPairs
    rw [hs', ht', zip_reverse_of_length _ _ (by simp [hl]), zip_reverse_of_length _ _ (by simp [hls, hlt]),
      zip_reverse_of_length _ _ (by simp [hl, hls, hlt]), List.map_reverse]
    congr 1
    rw [List.zip_map, List.zip_map_left, List.zip_map, List.map_map, List.map_map]
    refine List.map_congr_left fun z _ => ?_
    rfl
  rw [gmeElem_eq, gmeElem_eq, hp, List.map_reverse, List.sum_reverse, List.map_map, ← List.sum_map_mul_left]
  congr 1
  refine List.map_congr_left fun l _ => ?_
  exact layTerm_flip ij hij s t s' t' hs ht u v l

/-! ### Subdividing a layer -/

/-- Amplitudes with respect to another origin of the height. -/
noncomputable def shiftAb (x : ℂ) (c : ℝ) (ab : ℂ × ℂ) : ℂ × ℂ :=
  (ab.1 * Complex.exp (I * x * c), ab.2 * Complex.exp (-(I * x * c)))

/-- A mode of one layer with respect to another origin of the height. -/
noncomputable def shiftMode (c : ℝ) (m : ModeL) : ModeL :=
  ⟨m.A * Complex.exp (I * m.x * c), m.B * Complex.exp (-(I * m.x * c)), m.x⟩

theorem fieldSum_shift (x : ℂ) (c : ℝ) (ab : ℂ × ℂ) (t : ℝ) :
    fieldSum x (shiftAb x c ab) t = fieldSum x ab (t + c) := by
  simp only [fieldSum, shiftAb]
  push_cast
  rw [mul_assoc ab.1, ← Complex.exp_add, mul_assoc ab.2, ← Complex.exp_add]
  congr 3 <;> ring

theorem fieldDiff_shift (w x : ℂ) (c : ℝ) (ab : ℂ × ℂ) (t : ℝ) :
    fieldDiff w x (shiftAb x c ab) t = fieldDiff w x ab (t + c) := by
  simp only [fieldDiff, shiftAb]
  push_cast
  rw [mul_assoc ab.1, ← Complex.exp_add, mul_assoc ab.2, ← Complex.exp_add]
  congr 4 <;> ring

theorem fld_shift (m : ModeL) (c : ℝ) (s : ℂ) (t : ℝ) : fld (shiftMode c m) s t = fld m s (t + c) := by
  simp only [fld, shiftMode]
  push_cast
  rw [mul_assoc m.A, ← Complex.exp_add, mul_assoc m.B, ← Complex.exp_add]
  congr 4 <;> ring

theorem fld_continuous (m : ModeL) (s : ℂ) : Continuous (fld m s) := by
  unfold fld
  fun_prop

theorem integral_inner_split {E : Type} [NormedAddCommGroup E] [NormedSpace ℝ E] (d1 d2 : ℝ) (h1 : 0 ≤ d1)
    (h2 : 0 ≤ d2) (f : ℝ → E) (hf : Continuous f) :
    ∫ t, f (t + -(d2 / 2)) ∂(layMeasure (.inner d1)) + ∫ t, f (t + d1 / 2) ∂(layMeasure (.inner d2)) =
      ∫ t, f t ∂(layMeasure (.inner (d1 + d2))) := by
  simp only [layMeasure]
  rw [← intervalIntegral.integral_of_le (by linarith), ← intervalIntegral.integral_of_le (by linarith),
    ← intervalIntegral.integral_of_le (by linarith), intervalIntegral.integral_comp_add_right,
    intervalIntegral.integral_comp_add_right]
  rw [show -(d1 / 2) + -(d2 / 2) = -((d1 + d2) / 2) by ring, show d1 / 2 + -(d2 / 2) = -(d2 / 2) + d1 / 2 by ring,
    show d2 / 2 + d1 / 2 = (d1 + d2) / 2 by ring]
  exact intervalIntegral.integral_add_adjacent_intervals (hf.intervalIntegrable _ _) (hf.intervalIntegrable _ _)

theorem four_split (d1 d2 : ℝ) (h1 : 0 ≤ d1) (h2 : 0 ≤ d2) (m1 m2 : ModeL) (s1 s2 : ℂ) (hs : conj s1 = s1) :
    four ijExact (.inner d1) (shiftMode (-(d2 / 2)) m1) (shiftMode (-(d2 / 2)) m2) s1 s2 +
      four ijExact (.inner d2) (shiftMode (d1 / 2) m1) (shiftMode (d1 / 2) m2) s1 s2 =
      four ijExact (.inner (d1 + d2)) m1 m2 s1 s2 := by
  rw [four_exact _ _ _ (by exact h1) (by exact h1) _ _ hs, four_exact _ _ _ (by exact h2) (by exact h2) _ _ hs,
    four_exact _ _ _ (by exact add_nonneg h1 h2) (by exact add_nonneg h1 h2) _ _ hs]
  simp only [fld_shift]
  refine integral_inner_split d1 d2 h1 h2 (fun t => conj (fld m1 s1 t) * fld m2 s2 t) ?_
  exact (Complex.continuous_conj.comp (fld_continuous m1 s1)).mul (fld_continuous m2 s2)

theorem layTerm_split (s t s' t' : GmeState) (hs : s'.pol = s.pol ∧ s'.gx = s.gx ∧ s'.gy = s.gy ∧ s'.om = s.om)
    (ht : t'.pol = t.pol ∧ t'.gx = t.gx ∧ t'.gy = t.gy ∧ t'.om = t.om) (e d1 d2 : ℝ) (h1 : 0 ≤ d1) (h2 : 0 ≤ d2)
    (x : ℂ) (m1 m2 : ModeL) :
    layTerm ijExact s' t' ⟨.inner d1, e, x, shiftMode (-(d2 / 2)) m1, shiftMode (-(d2 / 2)) m2⟩ +
      layTerm ijExact s' t' ⟨.inner d2, e, x, shiftMode (d1 / 2) m1, shiftMode (d1 / 2) m2⟩ =
      layTerm ijExact s t ⟨.inner (d1 + d2), e, x, m1, m2⟩ := by
  obtain ⟨a1, a2, a3, a4⟩ := hs
  obtain ⟨b1, b2, b3, b4⟩ := ht
  have f := fun s1 s2 hs => four_split d1 d2 h1 h2 m1 m2 s1 s2 hs
  have hx : ∀ c m, (shiftMode c m).x = m.x := fun _ _ => rfl
  unfold layTerm
  simp only [a1, b1, GmeState.gk, GmeState.p, GmeState.q, a2, a3, a4, b2, b3, b4, hx]
  rcases s.pol <;> rcases t.pol <;> simp only
  · rw [← f 1 1 (by simp)]; ring
  · rw [← f 1 (-1) (by simp)]; ring
  · rw [← f (-1) 1 (by simp)]; ring
  · rw [← f (-1) (-1) (by simp), ← f 1 1 (by simp)]; ring

theorem layTerm_congr (ij : LPos → ℂ → ℂ) (s t s' t' : GmeState)
    (hs : s'.pol = s.pol ∧ s'.gx = s.gx ∧ s'.gy = s.gy ∧ s'.om = s.om)
    (ht : t'.pol = t.pol ∧ t'.gx = t.gx ∧ t'.gy = t.gy ∧ t'.om = t.om) : layTerm ij s' t' = layTerm ij s t := by
  obtain ⟨a1, a2, a3, a4⟩ := hs
  obtain ⟨b1, b2, b3, b4⟩ := ht
  funext l
  unfold layTerm
  simp only [a1, b1, GmeState.gk, GmeState.p, GmeState.q, a2, a3, a4, b2, b3, b4]

theorem gmeElem_split (P1 P2 : List (LPos × ℝ)) (e d1 d2 : ℝ) (h1 : 0 ≤ d1) (h2 : 0 ≤ d2) (E1 E2 : List ℂ) (x : ℂ)
    (hE : P1.length = E1.length) (s t s' t' : GmeState)
    (hs : s'.pol = s.pol ∧ s'.gx = s.gx ∧ s'.gy = s.gy ∧ s'.om = s.om)
    (ht : t'.pol = t.pol ∧ t'.gx = t.gx ∧ t'.gy = t.gy ∧ t'.om = t.om) (M1 M2 N1 N2 : List ModeL) (m n : ModeL)
    (hM : P1.length = M1.length) (hN : P1.length = N1.length) (ls : s.layers = M1 ++ m :: M2)
    (lt : t.layers = N1 ++ n :: N2)
    (ls' : s'.layers = M1 ++ shiftMode (-(d2 / 2)) m :: shiftMode (d1 / 2) m :: M2)
    (lt' : t'.layers = N1 ++ shiftMode (-(d2 / 2)) n :: shiftMode (d1 / 2) n :: N2) :
    gmeElem ijExact (P1 ++ (.inner d1, e) :: (.inner d2, e) :: P2) (E1 ++ x :: x :: E2) s' t' =
      gmeElem ijExact (P1 ++ (.inner (d1 + d2), e) :: P2) (E1 ++ x :: E2) s t := by
  rw [gmeElem_eq, gmeElem_eq, layTerm_congr ijExact s t s' t' hs ht]
  have hc := layTerm_split s t s t ⟨rfl, rfl, rfl, rfl⟩ ⟨rfl, rfl, rfl, rfl⟩ e d1 d2 h1 h2 x m n
  unfold layPairs
  rw [ls, lt, ls', lt']
  repeat rw [List.zip_append (by simp [hE.symm, hM.symm, hN.symm])]
  simp only [List.zip_cons_cons, List.map_append, List.map_cons, List.sum_append, List.sum_cons, ← hc]
  ring

theorem magSq_shift (pol : Pol) (g : ℝ) (m : ModeL) (c t : ℝ) :
    magSq pol g (shiftMode c m) t = magSq pol g m (t + c) := by
  have hs := fieldSum_shift m.x c (m.A, m.B) t
  have hd := fieldDiff_shift m.x m.x c (m.A, m.B) t
  simp only [shiftAb] at hs hd
  cases pol <;> simp only [magSq, intensityTE, intensityTM, shiftMode, hs, hd]

theorem magSq_continuous (pol : Pol) (g : ℝ) (m : ModeL) : Continuous (magSq pol g m) := by
  have hs : Continuous (fieldSum m.x (m.A, m.B)) := by unfold fieldSum; fun_prop
  have hd : Continuous (fieldDiff m.x m.x (m.A, m.B)) := by unfold fieldDiff; fun_prop
  cases pol
  · exact ((hd.norm.pow 2).add (continuous_const.mul (hs.norm.pow 2)))
  · exact hs.norm.pow 2

theorem slabNorm_split (pol : Pol) (g : ℝ) (P1 P2 : List (LPos × ℝ)) (e d1 d2 : ℝ) (h1 : 0 ≤ d1) (h2 : 0 ≤ d2)
    (M1 M2 : List ModeL) (m : ModeL) (hM : P1.length = M1.length) :
    slabNorm pol g (P1 ++ (.inner d1, e) :: (.inner d2, e) :: P2)
        (M1 ++ shiftMode (-(d2 / 2)) m :: shiftMode (d1 / 2) m :: M2) =
      slabNorm pol g (P1 ++ (.inner (d1 + d2), e) :: P2) (M1 ++ m :: M2) := by
  have hc := integral_inner_split d1 d2 h1 h2 _ (magSq_continuous pol g m)
  unfold slabNorm
  rw [List.zip_append hM, List.zip_append hM]
  simp only [List.zip_cons_cons, List.map_append, List.map_cons, List.sum_append, List.sum_cons, ← hc, magSq_shift]
  ring

theorem chain_last {α : Type} {R : α → α → Prop} (l : List α) (x y : α) (h : ∀ p, R p x → R p y)
    (hc : List.IsChain R (l ++ [x])) : List.IsChain R (l ++ [y]) := by
  rw [List.isChain_append] at hc ⊢
  refine ⟨hc.1, by simp, fun a ha b hb => ?_⟩
  simp only [List.head?_cons, Option.mem_def, Option.some.injEq] at hb
  subst hb
  exact h a (hc.2.2 a ha x (by simp))

theorem chain_head {α : Type} {R : α → α → Prop} (l : List α) (x y : α) (h : ∀ p, R x p → R y p)
    (hc : List.IsChain R (x :: l)) : List.IsChain R (y :: l) := by
  rw [List.isChain_cons] at hc ⊢
  exact ⟨fun b hb => h b (hc.1 b hb), hc.2⟩

/-- Amplitudes in the subdivided stack. -/
theorem guided_split {pol : Pol} {omega g e0 eN e d1 d2 : ℝ} {l1 l2 : List (ℝ × ℝ)} {as1 as2 : List (ℂ × ℂ)}
    {ab : ℂ × ℂ} (hlen : as1.length = l1.length + 1)
    (h : IsGuided pol omega g e0 eN (l1 ++ (e, d1 + d2) :: l2) (as1 ++ ab :: as2)) :
    IsGuided pol omega g e0 eN (l1 ++ (e, d1) :: (e, d2) :: l2)
      (as1 ++ shiftAb (chi omega g e) (-(d2 / 2)) ab :: shiftAb (chi omega g e) (d1 / 2) ab :: as2) := by
  obtain ⟨h1, h2, h3, h4, h5, h6⟩ := h
  have n2 : as2.length = l2.length + 1 := by
    simp only [List.length_append, List.length_cons] at h3
    omega
  refine ⟨h1, h2, by simp; omega, ?_, ?_, ?_⟩
  · have e1 : ∀ x : List (ℝ × ℝ), (e0, (0 : ℝ)) :: (l1 ++ x) ++ [(eN, 0)] =
        ((e0, 0) :: l1) ++ (x ++ [(eN, 0)]) := by simp
    rw [e1, List.zip_append (by simp [hlen])] at h4 ⊢
    simp only [List.cons_append, List.zip_cons_cons] at h4 ⊢
    generalize (((e0, (0 : ℝ)) :: l1).zip as1) = Z1 at h4 ⊢
    generalize ((l2 ++ [(eN, (0 : ℝ))]).zip as2) = Z2 at h4 ⊢
    rw [List.isChain_split] at h4
    rw [List.isChain_append_cons_cons]
    refine ⟨chain_last _ _ _ ?_ h4.1, ?_, chain_head _ _ _ ?_ h4.2⟩
    · rintro ⟨⟨ep, dp⟩, cd⟩ hp
      simp only [Interface] at hp ⊢
      rw [fieldSum_shift, fieldDiff_shift, show -(d1 / 2) + -(d2 / 2) = -((d1 + d2) / 2) by ring]
      exact hp
    · simp only [Interface]
      rw [fieldSum_shift, fieldDiff_shift, fieldSum_shift, fieldDiff_shift,
        show d1 / 2 + -(d2 / 2) = -(d2 / 2) + d1 / 2 by ring]
      exact ⟨rfl, rfl⟩
    · rintro ⟨⟨ep, dp⟩, cd⟩ hp
      simp only [Interface] at hp ⊢
      rw [fieldSum_shift, fieldDiff_shift, show d2 / 2 + d1 / 2 = (d1 + d2) / 2 by ring]
      exact hp
  · cases as1 with
    | nil => simp at hlen
    | cons a as => simpa using h5
  · cases as2 with
    | nil => simp at n2
    | cons a as =>
      obtain ⟨A, hA⟩ := h6
      refine ⟨A, ?_⟩
      rw [List.getLast?_append, List.getLast?_cons_cons] at hA
      rw [List.getLast?_append, List.getLast?_cons_cons, List.getLast?_cons_cons]
      exact hA

end Legume
