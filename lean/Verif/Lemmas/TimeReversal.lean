import Verif.Props.GmeInvariance

/-!
# Guided modes are real fields, and conjugation of the coupling elements
-/
namespace Legume

open Complex Spec MeasureTheory
open scoped ComplexConjugate

theorem chi_real_or_imag (omega g e : ℝ) :
    conj (chi omega g e) = chi omega g e ∨ conj (chi omega g e) = -chi omega g e := by
  unfold chi
  split_ifs
  · left; rw [Complex.conj_ofReal]
  · right; rw [map_mul, Complex.conj_I, Complex.conj_ofReal, neg_mul]

theorem chi_imag_of_lt {omega g e : ℝ} (h : e * omega ^ 2 < g ^ 2) :
    conj (chi omega g e) = -chi omega g e ∧ conj (chi omega g e) ≠ chi omega g e := by
  unfold chi
  rw [if_neg (by linarith)]
  have h1 : conj (Complex.I * ((√(-(e * omega ^ 2 - g ^ 2)) : ℝ) : ℂ)) =
      -(Complex.I * ((√(-(e * omega ^ 2 - g ^ 2)) : ℝ) : ℂ)) := by
    rw [map_mul, Complex.conj_I, Complex.conj_ofReal, neg_mul]
  refine ⟨h1, fun h2 => ?_⟩
  rw [h1] at h2
  have h3 : Complex.I * ((√(-(e * omega ^ 2 - g ^ 2)) : ℝ) : ℂ) = 0 := by linear_combination (-1 / 2 : ℂ) * h2
  rcases mul_eq_zero.1 h3 with h4 | h4
  · exact Complex.I_ne_zero h4
  · rw [Complex.ofReal_eq_zero, Real.sqrt_eq_zero (by linarith)] at h4
    linarith

open Classical in
/-- Amplitudes of the complex conjugate field. -/
noncomputable def conjAb (x : ℂ) (ab : ℂ × ℂ) : ℂ × ℂ :=
  if conj x = x then (conj ab.2, conj ab.1) else (conj ab.1, conj ab.2)

theorem fieldSum_conjAb {x : ℂ} (hx : conj x = x ∨ conj x = -x) (ab : ℂ × ℂ) (t : ℝ) :
    fieldSum x (conjAb x ab) t = conj (fieldSum x ab t) := by
  unfold fieldSum conjAb
  by_cases h : conj x = x
  · rw [if_pos h]
    simp only [map_add, map_mul, ← Complex.exp_conj, map_neg, Complex.conj_I, Complex.conj_ofReal, h]
    rw [neg_mul, neg_mul, neg_neg, add_comm]
  · have h' := hx.resolve_left h
    rw [if_neg h]
    simp only [map_add, map_mul, ← Complex.exp_conj, map_neg, Complex.conj_I, Complex.conj_ofReal, h']
    rw [neg_mul_neg]

theorem fieldDiff_conjAb {x w : ℂ} (hx : conj x = x ∨ conj x = -x) (hw : ∃ v : ℝ, w = v * x) (ab : ℂ × ℂ) (t : ℝ) :
    fieldDiff w x (conjAb x ab) t = -conj (fieldDiff w x ab t) := by
  obtain ⟨v, rfl⟩ := hw
  unfold fieldDiff conjAb
  by_cases h : conj x = x
  · rw [if_pos h]
    simp only [map_sub, map_mul, ← Complex.exp_conj, map_neg, Complex.conj_I, Complex.conj_ofReal, h]
    rw [neg_mul, neg_mul, neg_neg]
    ring
  · have h' := hx.resolve_left h
    rw [if_neg h]
    simp only [map_sub, map_mul, ← Complex.exp_conj, map_neg, Complex.conj_I, Complex.conj_ofReal, h']
    rw [neg_mul_neg]
    ring

theorem wgt_multiple (pol : Pol) (omega g e : ℝ) : ∃ v : ℝ, wgt pol omega g e = v * chi omega g e := by
  cases pol
  · exact ⟨1, by simp [wgt]⟩
  · exact ⟨1 / e, by simp only [wgt]; push_cast; ring⟩

/-- Amplitudes of the complex conjugate field in all layers. -/
noncomputable def conjAbs (omega g : ℝ) (L : List (ℝ × ℝ)) (abs : List (ℂ × ℂ)) : List (ℂ × ℂ) :=
  (L.zip abs).map fun p => conjAb (chi omega g p.1.1) p.2

theorem zip_conjAbs (omega g : ℝ) (L : List (ℝ × ℝ)) (abs : List (ℂ × ℂ)) :
    L.zip (conjAbs omega g L abs) = (L.zip abs).map fun p => (p.1, conjAb (chi omega g p.1.1) p.2) := by
  unfold conjAbs
  induction L generalizing abs with
  | nil => simp
  | cons a L ih =>
    cases abs with
    | nil => simp
    | cons b abs => simp only [List.zip_cons_cons, List.map_cons, ih]

theorem guided_conj {pol : Pol} {omega g e0 eN : ℝ} {ls : List (ℝ × ℝ)} {abs : List (ℂ × ℂ)}
    (h : IsGuided pol omega g e0 eN ls abs) :
    IsGuided pol omega g e0 eN ls (conjAbs omega g ((e0, 0) :: ls ++ [(eN, 0)]) abs) := by
  obtain ⟨h1, h2, h3, h4, ⟨B, h5⟩, ⟨A, h6⟩⟩ := h
  refine ⟨h1, h2, by simp [conjAbs, h3], ?_, ⟨conj B, ?_⟩, ⟨conj A, ?_⟩⟩
  · rw [zip_conjAbs, List.isChain_map]
    refine h4.imp ?_
    intro a b hab
    unfold Interface at hab ⊢
    simp only at hab ⊢
    rw [fieldSum_conjAb (chi_real_or_imag _ _ _), fieldSum_conjAb (chi_real_or_imag _ _ _),
      fieldDiff_conjAb (chi_real_or_imag _ _ _) (wgt_multiple _ _ _ _),
      fieldDiff_conjAb (chi_real_or_imag _ _ _) (wgt_multiple _ _ _ _), hab.1, hab.2]
    exact ⟨rfl, rfl⟩
  · cases abs with
    | nil => simp at h5
    | cons a as =>
      simp only [List.head?_cons, Option.some.injEq] at h5
      subst h5
      simp [conjAbs, conjAb, (chi_imag_of_lt h1).2]
  · obtain ⟨as, rfl⟩ := List.getLast?_eq_some_iff.1 h6
    have hl : ((e0, (0 : ℝ)) :: ls).length = as.length := by simpa using h3.symm
    rw [conjAbs, List.zip_append hl]
    simp [conjAb, (chi_imag_of_lt h2).2]

/-- The field of a mode in a layer is real: equal amplitudes up to conjugation of the two running waves, or real
amplitudes of evanescent waves. -/
def RealMode (m : ModeL) : Prop :=
  (conj m.x = m.x ∧ m.B = conj m.A) ∨ (conj m.x = -m.x ∧ conj m.A = m.A ∧ conj m.B = m.B)

theorem realMode_scale {m : ModeL} (h : RealMode m) (c : ℝ) : RealMode ⟨m.A / (c : ℂ), m.B / (c : ℂ), m.x⟩ := by
  rcases h with ⟨h1, h2⟩ | ⟨h1, h2, h3⟩
  · exact .inl ⟨h1, by simp [h2]⟩
  · exact .inr ⟨h1, by simp [h2], by simp [h3]⟩

theorem realMode_of_fixed {x : ℂ} (hx : conj x = x ∨ conj x = -x) {ab : ℂ × ℂ} (h : conjAb x ab = ab) :
    RealMode ⟨ab.1, ab.2, x⟩ := by
  unfold conjAb at h
  by_cases hx' : conj x = x
  · rw [if_pos hx'] at h
    exact .inl ⟨hx', (congrArg Prod.snd h).symm⟩
  · rw [if_neg hx'] at h
    exact .inr ⟨hx.resolve_left hx', congrArg Prod.fst h, congrArg Prod.snd h⟩

theorem mulAbs_one (l : List (ℂ × ℂ)) : mulAbs 1 l = l := by simp [mulAbs]

/-- The guided modes as normalised by the code are real fields. -/
theorem guided_real {pol : Pol} {omega g e0 eN : ℝ} {ls : List (ℝ × ℝ)} {abs : List (ℂ × ℂ)}
    (hN : eN ≠ 0) (hl : ∀ l ∈ ls, l.1 ≠ 0) (hoff : ∀ l ∈ ls, l.1 * omega ^ 2 ≠ g ^ 2)
    (h : IsGuided pol omega g e0 eN ls abs) (h1 : abs.head? = some (0, 1)) :
    conjAbs omega g ((e0, 0) :: ls ++ [(eN, 0)]) abs = abs := by
  have hc : (conjAbs omega g ((e0, 0) :: ls ++ [(eN, 0)]) abs).head? = some (0, 1) := by
    cases abs with
    | nil => simp at h1
    | cons a as =>
      simp only [List.head?_cons, Option.some.injEq] at h1
      subst h1
      simp [conjAbs, conjAb, (chi_imag_of_lt h.low).2]
  have := guided_unique hN hl hoff h (guided_conj h) 1 1 h1 hc one_ne_zero
  rwa [div_one, mulAbs_one] at this

theorem mkLayers_real (omega g : ℝ) (L : List (ℝ × ℝ)) (abs : List (ℂ × ℂ)) (h : conjAbs omega g L abs = abs) :
    ∀ m ∈ mkLayers omega g (L.map Prod.fst) abs, RealMode m := by
  unfold mkLayers conjAbs at *
  induction L generalizing abs with
  | nil => simp
  | cons a L ih =>
    cases abs with
    | nil => simp
    | cons b abs =>
      simp only [List.zip_cons_cons, List.map_cons, List.cons.injEq, List.zipWith_cons_cons, List.mem_cons] at h ⊢
      rintro m (rfl | hm)
      · exact realMode_of_fixed (chi_real_or_imag _ _ _) h.1
      · exact ih abs h.2 m hm

theorem slabStack_snd (e0 eN : ℝ) (ls : List (ℝ × ℝ)) :
    (slabStack e0 eN ls).map Prod.snd = ((e0, (0 : ℝ)) :: ls ++ [(eN, 0)]).map Prod.fst := by
  simp [slabStack, Function.comp_def]

theorem conjAbs_scale (omega g c : ℝ) (L : List (ℝ × ℝ)) (abs : List (ℂ × ℂ)) (h : conjAbs omega g L abs = abs) :
    conjAbs omega g L (scaleAbs c abs) = scaleAbs c abs := by
  have : conjAbs omega g L (scaleAbs c abs) = scaleAbs c (conjAbs omega g L abs) := by
    unfold conjAbs scaleAbs
    rw [List.zip_map_right, List.map_map, List.map_map]
    refine List.map_congr_left fun p _ => ?_
    simp only [Function.comp, Prod.map, id, conjAb]
    split_ifs <;> simp
  rw [this, h]

/-- The layers of a normalised guided mode carry real fields. -/
theorem normState_real {pol : Pol} {gx gy om e0 eN : ℝ} {ls : List (ℝ × ℝ)} {abs : List (ℂ × ℂ)} (hne : ls ≠ [])
    (h0 : e0 ≠ 0) (hN : eN ≠ 0) (hl : ∀ l ∈ ls, l.1 ≠ 0)
    (h : SlabRoot pol om (√(gx ^ 2 + gy ^ 2)) e0 eN ls abs) :
    ∀ m ∈ (normState pol gx gy om e0 eN ls abs).layers, RealMode m := by
  obtain ⟨G, f⟩ := slabRoot_guided h hne h0 hN hl
  rw [normState_eq]
  simp only
  rw [slabStack_snd]
  exact mkLayers_real _ _ _ _ (conjAbs_scale _ _ _ _ _ (guided_real hN hl h.off G f))

/-! ### Coupling elements of real modes -/

theorem ijExact_conj' (pos : LPos) (a : ℂ) : conj (ijExact pos a) = ijExact pos (-conj a) := by
  unfold ijExact
  rw [← integral_conj]
  congr 1
  funext t
  rw [← Complex.exp_conj]
  congr 1
  simp

theorem four_real (pos : LPos) (m1 m2 : ModeL) (h1 : RealMode m1) (h2 : RealMode m2) :
    conj (four ijExact pos m1 m2 1 1) = four ijExact pos m1 m2 1 1 ∧
    conj (m2.x * four ijExact pos m1 m2 1 (-1)) = -(m2.x * four ijExact pos m1 m2 1 (-1)) ∧
    conj (conj m1.x * four ijExact pos m1 m2 (-1) 1) = -(conj m1.x * four ijExact pos m1 m2 (-1) 1) ∧
    conj (conj m1.x * m2.x * four ijExact pos m1 m2 (-1) (-1)) =
      conj m1.x * m2.x * four ijExact pos m1 m2 (-1) (-1) := by
  obtain ⟨A1, B1, x1⟩ := m1
  obtain ⟨A2, B2, x2⟩ := m2
  unfold four
  rcases h1 with ⟨a1, a2⟩ | ⟨a1, a2, a3⟩ <;> rcases h2 with ⟨b1, b2⟩ | ⟨b1, b2, b3⟩ <;> simp only at *
  · subst a2 b2
    simp only [map_add, map_mul, map_neg, map_one, map_sub, Complex.conj_conj, ijExact_conj', a1, b1]
    rw [show -(x2 - x1) = -x2 + x1 by ring, show -(-x2 + x1) = x2 - x1 by ring, show -(-x2 - x1) = x2 + x1 by ring,
      show -(x2 + x1) = -x2 - x1 by ring]
    exact ⟨by ring, by ring, by ring, by ring⟩
  · subst a2
    simp only [map_add, map_mul, map_neg, map_one, map_sub, Complex.conj_conj, ijExact_conj', a1, b1, b2, b3]
    rw [show -(-x2 - x1) = x2 + x1 by ring, show -(- -x2 + x1) = -x2 - x1 by ring,
      show -(- -x2 - x1) = -x2 + x1 by ring, show -(-x2 + x1) = x2 - x1 by ring]
    exact ⟨by ring, by ring, by ring, by ring⟩
  · subst b2
    simp only [map_add, map_mul, map_neg, map_one, map_sub, Complex.conj_conj, ijExact_conj', a1, b1, a2, a3]
    rw [show -(x2 - - -x1) = -x2 - -x1 by ring, show -(-x2 + - -x1) = x2 + -x1 by ring,
      show -(-x2 - - -x1) = x2 - -x1 by ring, show -(x2 + - -x1) = -x2 + -x1 by ring]
    exact ⟨by ring, by ring, by ring, by ring⟩
  · simp only [map_add, map_mul, map_neg, map_one, map_sub, Complex.conj_conj, ijExact_conj', a1, b1, a2, a3, b2, b3]
    rw [show -(-x2 - - -x1) = x2 - -x1 by ring, show -(- -x2 + - -x1) = -x2 + -x1 by ring,
      show -(- -x2 - - -x1) = -x2 - -x1 by ring, show -(-x2 + - -x1) = x2 + -x1 by ring]
    exact ⟨by ring, by ring, by ring, by ring⟩

theorem layTerm_real (s t : GmeState) (l : LayPair) (h1 : RealMode l.m1) (h2 : RealMode l.m2) :
    conj (layTerm ijExact s t l) = layTerm ijExact s t { l with einv := conj l.einv } := by
  obtain ⟨f1, f2, f3, f4⟩ := four_real l.pos l.m1 l.m2 h1 h2
  unfold layTerm
  rcases s.pol <;> rcases t.pol <;> simp only
  · simp only [map_mul, map_pow, Complex.conj_ofReal, f1]
  · rw [show -(Complex.I * l.einv * l.eps * l.m2.x * ((s.om : ℂ) ^ 2 * dot2 t.p s.q)) *
        four ijExact l.pos l.m1 l.m2 1 (-1) = -(Complex.I * l.einv * l.eps * ((s.om : ℂ) ^ 2 * dot2 t.p s.q)) *
        (l.m2.x * four ijExact l.pos l.m1 l.m2 1 (-1)) by ring, map_mul, f2]
    simp only [map_neg, map_mul, map_pow, Complex.conj_ofReal, Complex.conj_I]
    ring
  · rw [show Complex.I * l.einv * l.eps * conj l.m1.x * ((t.om : ℂ) ^ 2 * dot2 s.p t.q) *
        four ijExact l.pos l.m1 l.m2 (-1) 1 = Complex.I * l.einv * l.eps * ((t.om : ℂ) ^ 2 * dot2 s.p t.q) *
        (conj l.m1.x * four ijExact l.pos l.m1 l.m2 (-1) 1) by ring, map_mul, f3]
    simp only [map_mul, map_pow, Complex.conj_ofReal, Complex.conj_I]
    ring
  · rw [show l.einv * ((dot2 s.p t.p * (conj l.m1.x * l.m2.x)) * four ijExact l.pos l.m1 l.m2 (-1) (-1) +
        s.gk * t.gk * four ijExact l.pos l.m1 l.m2 1 1) = l.einv * (dot2 s.p t.p *
        (conj l.m1.x * l.m2.x * four ijExact l.pos l.m1 l.m2 (-1) (-1)) +
        s.gk * t.gk * four ijExact l.pos l.m1 l.m2 1 1) by ring,
      show dot2 s.p t.p * (conj l.m1.x * l.m2.x) * four ijExact l.pos l.m1 l.m2 (-1) (-1) = dot2 s.p t.p *
        (conj l.m1.x * l.m2.x * four ijExact l.pos l.m1 l.m2 (-1) (-1)) by ring]
    generalize conj l.m1.x * l.m2.x * four ijExact l.pos l.m1 l.m2 (-1) (-1) = F at f4 ⊢
    simp only [map_mul, map_add, Complex.conj_ofReal, f1, f4]

/-- Conjugation of a coupling element between real modes. -/
theorem gmeElem_conj (stack : List (LPos × ℝ)) (einv : List ℂ) (s t : GmeState) (hs : ∀ m ∈ s.layers, RealMode m)
    (ht : ∀ m ∈ t.layers, RealMode m) :
    conj (gmeElem ijExact stack einv s t) = gmeElem ijExact stack (einv.map conj) s t := by
  rw [gmeElem_eq, gmeElem_eq, conj_list_sum, List.map_map]
  have hp : layPairs stack (einv.map conj) s t =
      (layPairs stack einv s t).map fun l => { l with einv := conj l.einv } := by
    unfold layPairs
    rw [List.zip_map_right, List.zip_map_left, List.map_map, List.map_map]
    rfl
  rw [hp, List.map_map]
  congr 1
  refine List.map_congr_left fun l hl => ?_
  simp only [Function.comp]
  unfold layPairs at hl
  obtain ⟨z, hz, rfl⟩ := List.mem_map.1 hl
  have h2 := List.of_mem_zip hz
  have h3 := List.of_mem_zip (show (z.2.1, z.2.2) ∈ _ from h2.2)
  exact layTerm_real s t _ (hs _ h3.1) (ht _ h3.2)

/-- Turning the in-plane wave vectors of both modes around does not change a coupling element. -/
theorem gmeElem_neg (ij : LPos → ℂ → ℂ) (stack : List (LPos × ℝ)) (einv : List ℂ) (s t : GmeState) :
    gmeElem ij stack einv { s with gx := -s.gx, gy := -s.gy } { t with gx := -t.gx, gy := -t.gy } =
      gmeElem ij stack einv s t := by
  have hl : layPairs stack einv { s with gx := -s.gx, gy := -s.gy } { t with gx := -t.gx, gy := -t.gy } =
      layPairs stack einv s t := rfl
  unfold gmeElem
  rw [hl]
  simp only [GmeState.p, GmeState.q, GmeState.gk, dot2, neg_sq]
  rcases s.pol <;> rcases t.pol <;> simp only <;> congr 1 <;> try ring
  all_goals congr 1; ring

end Legume
