import Verif.Props.RadOverlap
import Verif.Props.TimeReversal
import Verif.Lemmas.RadMove

/-!
# Conjugated radiative waves

The complex conjugate of a wave that leaves through one cladding is a combination of the waves that leave through the two
claddings; the coefficients are those of a unitary matrix if powers are measured as the losses measure them.
-/
namespace Legume

open Spec Matrix
open scoped ComplexConjugate

/-! ### Conjugated coupling elements -/

/-- Amplitudes of the complex conjugate field. -/
noncomputable def conjMode (m : ModeL) : ModeL := ⟨(conjAb m.x (m.A, m.B)).1, (conjAb m.x (m.A, m.B)).2, m.x⟩

/-- The complex conjugate field. -/
noncomputable def GmeState.conjField (t : GmeState) : GmeState := { t with layers := t.layers.map conjMode }

theorem four_conjMode (pos : LPos) (m1 m2 : ModeL) (h1 : RealMode m1) (h2 : conj m2.x = m2.x ∨ conj m2.x = -m2.x) :
    conj (four ijExact pos m1 m2 1 1) = four ijExact pos m1 (conjMode m2) 1 1 ∧
    conj (m2.x * four ijExact pos m1 m2 1 (-1)) = -(m2.x * four ijExact pos m1 (conjMode m2) 1 (-1)) ∧
    conj (conj m1.x * four ijExact pos m1 m2 (-1) 1) = -(conj m1.x * four ijExact pos m1 (conjMode m2) (-1) 1) ∧
    conj (conj m1.x * m2.x * four ijExact pos m1 m2 (-1) (-1)) =
      conj m1.x * m2.x * four ijExact pos m1 (conjMode m2) (-1) (-1) := by
  obtain ⟨A1, B1, x1⟩ := m1
  obtain ⟨A2, B2, x2⟩ := m2
  simp only at h2
  unfold four conjMode conjAb
  by_cases b1 : conj x2 = x2
  · simp only [if_pos b1]
    rcases h1 with ⟨a1, a2⟩ | ⟨a1, a2, a3⟩ <;> simp only at *
    · subst a2
      simp only [map_add, map_mul, map_neg, map_one, map_sub, Complex.conj_conj, ijExact_conj', a1, b1]
      rw [show -(x2 - x1) = -x2 + x1 by ring, show -(-x2 + x1) = x2 - x1 by ring, show -(-x2 - x1) = x2 + x1 by ring,
        show -(x2 + x1) = -x2 - x1 by ring]
      exact ⟨by ring, by ring, by ring, by ring⟩
    · simp only [map_add, map_mul, map_neg, map_one, map_sub, Complex.conj_conj, ijExact_conj', a1, b1, a2, a3]
      rw [show -(x2 - - -x1) = -x2 - -x1 by ring, show -(-x2 + - -x1) = x2 + -x1 by ring,
        show -(-x2 - - -x1) = x2 - -x1 by ring, show -(x2 + - -x1) = -x2 + -x1 by ring]
      exact ⟨by ring, by ring, by ring, by ring⟩
  · have b2 := h2.resolve_left b1
    simp only [if_neg b1]
    rcases h1 with ⟨a1, a2⟩ | ⟨a1, a2, a3⟩ <;> simp only at *
    · subst a2
      simp only [map_add, map_mul, map_neg, map_one, map_sub, Complex.conj_conj, ijExact_conj', a1, b2]
      rw [show -(-x2 - x1) = x2 + x1 by ring, show -(- -x2 + x1) = -x2 - x1 by ring,
        show -(- -x2 - x1) = -x2 + x1 by ring, show -(-x2 + x1) = x2 - x1 by ring]
      exact ⟨by ring, by ring, by ring, by ring⟩
    · simp only [map_add, map_mul, map_neg, map_one, map_sub, Complex.conj_conj, ijExact_conj', a1, b2, a2, a3]
      rw [show -(-x2 - - -x1) = x2 - -x1 by ring, show -(- -x2 + - -x1) = -x2 + -x1 by ring,
        show -(- -x2 - - -x1) = -x2 - -x1 by ring, show -(-x2 + - -x1) = x2 + -x1 by ring]
      exact ⟨by ring, by ring, by ring, by ring⟩

theorem layTerm_conjField (s t : GmeState) (l : LayPair) (h1 : RealMode l.m1)
    (h2 : conj l.m2.x = l.m2.x ∨ conj l.m2.x = -l.m2.x) :
    conj (layTerm ijExact s t l) = layTerm ijExact s t { l with einv := conj l.einv, m2 := conjMode l.m2 } := by
  obtain ⟨f1, f2, f3, f4⟩ := four_conjMode l.pos l.m1 l.m2 h1 h2
  have hx : (conjMode l.m2).x = l.m2.x := rfl
  unfold layTerm
  rcases s.pol <;> rcases t.pol <;> simp only
  · simp only [map_mul, map_pow, Complex.conj_ofReal, f1]
  · rw [show -(Complex.I * l.einv * l.eps * l.m2.x * ((s.om : ℂ) ^ 2 * dot2 t.p s.q)) *
        four ijExact l.pos l.m1 l.m2 1 (-1) = -(Complex.I * l.einv * l.eps * ((s.om : ℂ) ^ 2 * dot2 t.p s.q)) *
        (l.m2.x * four ijExact l.pos l.m1 l.m2 1 (-1)) by ring, map_mul, f2, hx]
    simp only [map_neg, map_mul, map_pow, Complex.conj_ofReal, Complex.conj_I]
    ring
  · rw [show Complex.I * l.einv * l.eps * conj l.m1.x * ((t.om : ℂ) ^ 2 * dot2 s.p t.q) *
        four ijExact l.pos l.m1 l.m2 (-1) 1 = Complex.I * l.einv * l.eps * ((t.om : ℂ) ^ 2 * dot2 s.p t.q) *
        (conj l.m1.x * four ijExact l.pos l.m1 l.m2 (-1) 1) by ring, map_mul, f3]
    simp only [map_mul, map_pow, Complex.conj_ofReal, Complex.conj_I]
    ring
  · rw [hx, show l.einv * ((dot2 s.p t.p * (conj l.m1.x * l.m2.x)) * four ijExact l.pos l.m1 l.m2 (-1) (-1) +
        s.gk * t.gk * four ijExact l.pos l.m1 l.m2 1 1) = l.einv * (dot2 s.p t.p *
        (conj l.m1.x * l.m2.x * four ijExact l.pos l.m1 l.m2 (-1) (-1)) +
        s.gk * t.gk * four ijExact l.pos l.m1 l.m2 1 1) by ring,
      show dot2 s.p t.p * (conj l.m1.x * l.m2.x) * four ijExact l.pos l.m1 (conjMode l.m2) (-1) (-1) = dot2 s.p t.p *
        (conj l.m1.x * l.m2.x * four ijExact l.pos l.m1 (conjMode l.m2) (-1) (-1)) by ring]
    generalize conj l.m1.x * l.m2.x * four ijExact l.pos l.m1 l.m2 (-1) (-1) = F at f4 ⊢
    simp only [map_mul, map_add, Complex.conj_ofReal, f1, f4]

/-- Conjugation of the coupling of a real mode to any wave. -/
theorem gmeElem_conjField (stack : List (LPos × ℝ)) (einv : List ℂ) (s t : GmeState) (hs : ∀ m ∈ s.layers, RealMode m)
    (ht : ∀ m ∈ t.layers, conj m.x = m.x ∨ conj m.x = -m.x) :
    conj (gmeElem ijExact stack einv s t) = gmeElem ijExact stack (einv.map conj) s t.conjField := by
  rw [gmeElem_eq, gmeElem_eq, conj_list_sum, List.map_map]
  have hp : layPairs stack (einv.map conj) s t.conjField =
      (layPairs stack einv s t).map fun l => { l with einv := conj l.einv, m2 := conjMode l.m2 } := by
    unfold layPairs GmeState.conjField
    simp only
    rw [List.zip_map_right, List.zip_map_right, List.zip_map, List.map_map, List.map_map]
    rfl
  rw [hp, List.map_map]
  congr 1
  refine List.map_congr_left fun l hl => ?_
  simp only [Function.comp]
  unfold layPairs at hl
  obtain ⟨z, hz, rfl⟩ := List.mem_map.1 hl
  have h2 := List.of_mem_zip hz
  have h3 := List.of_mem_zip (show (z.2.1, z.2.2) ∈ _ from h2.2)
  exact layTerm_conjField s t _ (hs _ h3.1) (ht _ h3.2)

/-! ### Combinations of waves -/

/-- Amplitudes of a combination of two fields. -/
def addMode (a b : ℂ) (m m' : ModeL) : ModeL := ⟨a * m.A + b * m'.A, a * m.B + b * m'.B, m.x⟩

theorem gmeElem_add (ij : LPos → ℂ → ℂ) (stack : List (LPos × ℝ)) (einv : List ℂ) (s t t' : GmeState)
    (h1 : t'.pol = t.pol) (h2 : t'.gx = t.gx) (h3 : t'.gy = t.gy) (h4 : t'.om = t.om)
    (h5 : t'.layers.map ModeL.x = t.layers.map ModeL.x) (a b : ℂ) :
    gmeElem ij stack einv s { t with layers := List.zipWith (addMode a b) t.layers t'.layers } =
      a * gmeElem ij stack einv s t + b * gmeElem ij stack einv s t' := by
  obtain ⟨pol, gx, gy, om, ms⟩ := t
  obtain ⟨pol', gx', gy', om', ms'⟩ := t'
  simp only at h1 h2 h3 h4 h5
  subst h1 h2 h3 h4
  rw [gmeElem_eq, gmeElem_eq, gmeElem_eq]
  unfold layPairs
  simp only
  have inv2 : ∀ p, layTerm ij s ⟨pol', gx', gy', om', p⟩ = layTerm ij s ⟨pol', gx', gy', om', []⟩ := fun p => rfl
  rw [inv2 (List.zipWith (addMode a b) ms ms'), inv2 ms, inv2 ms']
  generalize hst : stack.zip einv = st
  generalize s.layers = ss
  clear hst
  induction st generalizing ss ms ms' with
  | nil => simp
  | cons c st ih =>
    cases ss with
    | nil => simp
    | cons m0 ss =>
      cases ms with
      | nil =>
        have : ms' = [] := by simpa using h5
        simp [this]
      | cons m ms =>
        cases ms' with
        | nil => simp at h5
        | cons m' ms' =>
          simp only [List.map_cons, List.cons.injEq] at h5
          simp only [List.zipWith_cons_cons, List.zip_cons_cons, List.map_cons, List.sum_cons]
          rw [ih ms ms' h5.2 ss]
          have key : layTerm ij s ⟨pol', gx', gy', om', []⟩ ⟨c.1.1, c.1.2, c.2, m0, addMode a b m m'⟩ =
              a * layTerm ij s ⟨pol', gx', gy', om', []⟩ ⟨c.1.1, c.1.2, c.2, m0, m⟩ +
              b * layTerm ij s ⟨pol', gx', gy', om', []⟩ ⟨c.1.1, c.1.2, c.2, m0, m'⟩ := by
            have hx : m'.x = m.x := h5.1
            unfold layTerm four addMode
            cases s.pol <;> cases pol' <;> simp only [hx] <;> ring
          rw [key]
          ring

/-- Amplitudes of a combination of two fields. -/
def addAbs (a b : ℂ) (cs cs' : List (ℂ × ℂ)) : List (ℂ × ℂ) :=
  List.zipWith (fun x y => (a * x.1 + b * y.1, a * x.2 + b * y.2)) cs cs'

theorem chain_addAbs {pol : Pol} {omega g : ℝ} (a b : ℂ) : ∀ (ls : List (ℝ × ℝ)) (cs cs' : List (ℂ × ℂ)),
    cs.length = ls.length → cs'.length = ls.length →
    List.IsChain (Interface pol omega g) (ls.zip cs) → List.IsChain (Interface pol omega g) (ls.zip cs') →
    List.IsChain (Interface pol omega g) (ls.zip (addAbs a b cs cs'))
  | [], _, _, _, _, _, _ => by simp
  | l :: ls, [], _, h, _, _, _ => by simp at h
  | l :: ls, c :: cs, [], _, h, _, _ => by simp at h
  | l :: ls, c :: cs, c' :: cs', h, h', h1, h2 => by
    have ih := chain_addAbs a b ls cs cs' (by simpa using h) (by simpa using h') (by
      cases ls with
      | nil => simp
      | cons m ls => 
        cases cs with
        | nil => simp at h
        | cons d cs => simp only [List.zip_cons_cons, List.isChain_cons_cons] at h1; exact h1.2) (by
      cases ls with
      | nil => simp
      | cons m ls => 
        cases cs' with
        | nil => simp at h'
        | cons d cs => simp only [List.zip_cons_cons, List.isChain_cons_cons] at h2; exact h2.2)
    cases ls with
    | nil => simp [addAbs]
    | cons m ls =>
      cases cs with
      | nil => simp at h
      | cons d cs =>
        cases cs' with
        | nil => simp at h'
        | cons d' cs' =>
          simp only [addAbs, List.zipWith_cons_cons, List.zip_cons_cons, List.isChain_cons_cons] at h1 h2 ih ⊢
          refine ⟨?_, ih⟩
          have fs : ∀ (x : ℂ) (p q : ℂ × ℂ) (t : ℝ), fieldSum x (a * p.1 + b * q.1, a * p.2 + b * q.2) t =
              a * fieldSum x p t + b * fieldSum x q t := by
            intro x p q t; simp only [fieldSum]; ring
          have fd : ∀ (w x : ℂ) (p q : ℂ × ℂ) (t : ℝ), fieldDiff w x (a * p.1 + b * q.1, a * p.2 + b * q.2) t =
              a * fieldDiff w x p t + b * fieldDiff w x q t := by
            intro w x p q t; simp only [fieldDiff]; ring
          unfold Interface at h1 h2 ⊢
          simp only at h1 h2 ⊢
          rw [fs, fs, fd, fd, h1.1.1, h1.1.2, h2.1.1, h2.1.2]
          exact ⟨rfl, rfl⟩

theorem chain_conjAbs {pol : Pol} {omega g : ℝ} (L : List (ℝ × ℝ)) (cs : List (ℂ × ℂ))
    (h : List.IsChain (Interface pol omega g) (L.zip cs)) :
    List.IsChain (Interface pol omega g) (L.zip (conjAbs omega g L cs)) := by
  rw [zip_conjAbs, List.isChain_map]
  refine h.imp ?_
  intro a b hab
  unfold Interface at hab ⊢
  simp only at hab ⊢
  rw [fieldSum_conjAb (chi_real_or_imag _ _ _), fieldSum_conjAb (chi_real_or_imag _ _ _),
    fieldDiff_conjAb (chi_real_or_imag _ _ _) (wgt_multiple _ _ _ _),
    fieldDiff_conjAb (chi_real_or_imag _ _ _) (wgt_multiple _ _ _ _), hab.1, hab.2]
  exact ⟨rfl, rfl⟩

/-! ### Uniqueness of outgoing waves -/

theorem field_zero {w : ℂ} (hw : w ≠ 0) (x : ℂ) (ab : ℂ × ℂ) (t : ℝ) :
    (fieldSum x ab t = 0 ∧ fieldDiff w x ab t = 0) ↔ ab = (0, 0) := by
  unfold fieldSum fieldDiff
  constructor
  · rintro ⟨h1, h2⟩
    have h3 := (mul_eq_zero.1 h2).resolve_left hw
    refine Prod.ext ?_ ?_
    · refine (mul_eq_zero.1 (?_ : ab.1 * Complex.exp (Complex.I * x * t) = 0)).resolve_right (Complex.exp_ne_zero _)
      linear_combination (1 / 2) * h1 + (1 / 2) * h3
    · refine (mul_eq_zero.1 (?_ : ab.2 * Complex.exp (-(Complex.I * x * t)) = 0)).resolve_right (Complex.exp_ne_zero _)
      linear_combination (1 / 2) * h1 - (1 / 2) * h3
  · rintro rfl
    simp

theorem chain_zero {pol : Pol} {omega g : ℝ} : ∀ (l : List ((ℝ × ℝ) × (ℂ × ℂ))),
    (∀ a ∈ l, wgt pol omega g a.1.1 ≠ 0) → List.IsChain (Interface pol omega g) l →
    ∀ a ∈ l, a.2 = (0, 0) → ∀ b ∈ l, b.2 = (0, 0)
  | [], _, _ => by simp
  | [a], _, _ => by simp
  | a :: b :: l, hw, h => by
    rw [List.isChain_cons_cons] at h
    have ih := chain_zero (b :: l) (fun x hx => hw x (List.mem_cons_of_mem _ hx)) h.2
    have h1 : a.2 = (0, 0) ↔ b.2 = (0, 0) := by
      rw [← field_zero (hw a List.mem_cons_self) (chi omega g a.1.1) a.2 (a.1.2 / 2),
        ← field_zero (hw b (by simp)) (chi omega g b.1.1) b.2 (-(b.1.2 / 2)), h.1.1, h.1.2]
    intro x hx hx0 y hy
    have hb : b.2 = (0, 0) := by
      rcases List.mem_cons.1 hx with rfl | hx
      · exact h1.1 hx0
      · exact ih x hx hx0 b List.mem_cons_self
    rcases List.mem_cons.1 hy with rfl | hy
    · exact h1.2 hb
    · exact ih b List.mem_cons_self hb y hy

/-- A field without the partial waves by which radiative waves are normalised vanishes. -/
theorem chain_still (pol : Pol) (om g e0 eN : ℝ) (ls : List (ℝ × ℝ)) (h0 : 0 < e0) (hN : 0 < eN)
    (hl : ∀ l ∈ ls, l.1 ≠ 0) (hoff : ∀ e ∈ slabEps e0 eN ls, e * om ^ 2 ≠ g ^ 2)
    (ho : g ^ 2 < e0 * om ^ 2 ∨ g ^ 2 < eN * om ^ 2) (cs : List (ℂ × ℂ)) (hlen : cs.length = ls.length + 2)
    (hc : List.IsChain (Interface pol om g) (((e0, 0) :: ls ++ [(eN, 0)]).zip cs)) (A B : ℂ)
    (h1 : cs.head? = some (0, B)) (h2 : cs.getLast? = some (A, 0)) : ∀ c ∈ cs, c = (0, 0) := by
  have k0 : ((e0, (0 : ℝ)), ((0 : ℂ), B)) ∈ ((e0, 0) :: ls ++ [(eN, 0)]).zip cs := by
    refine List.mem_of_getElem? (i := 0) (List.getElem?_zip_eq_some.2 ⟨by simp, ?_⟩)
    rw [← List.head?_eq_getElem?, h1]
  have kN : ((eN, (0 : ℝ)), (A, (0 : ℂ))) ∈ ((e0, 0) :: ls ++ [(eN, 0)]).zip cs := by
    refine List.mem_of_getElem? (i := ls.length + 1) (List.getElem?_zip_eq_some.2 ⟨by simp, ?_⟩)
    rw [List.getLast?_eq_getElem?, hlen] at h2
    exact h2
  have hw : ∀ a ∈ ((e0, 0) :: ls ++ [(eN, 0)]).zip cs, wgt pol om g a.1.1 ≠ 0 := by
    intro a ha
    have := (List.of_mem_zip (show (a.1, a.2) ∈ _ from ha)).1
    simp only [List.cons_append, List.mem_cons, List.mem_append, List.not_mem_nil, or_false] at this
    refine wgt_ne_zero _ _ _ _ (hoff _ ?_) ?_
    · simp only [slabEps, List.cons_append, List.mem_cons, List.mem_append, List.mem_map, List.not_mem_nil, or_false]
      rcases this with h | h | h
      · exact Or.inl (by rw [h])
      · exact Or.inr (Or.inl ⟨_, h, rfl⟩)
      · exact Or.inr (Or.inr (by rw [h]))
    · rcases this with h | h | h
      · rw [h]; exact h0.ne'
      · exact hl _ h
      · rw [h]; exact hN.ne'
  have hf := flux_chain _ hc _ k0 _ kN
  have hz : ∀ b ∈ ((e0, 0) :: ls ++ [(eN, 0)]).zip cs, b.2 = (0, 0) := by
    have hup := flux_noinc (pol := pol) hN (hoff eN (by simp [slabEps])) A
    have hlo : flux (wgt pol om g e0) (0, B) ≤ 0 := by
      rcases lt_or_gt_of_ne (hoff e0 (by simp [slabEps])) with h | h
      · rw [flux_closed h _ (Or.inl rfl)]
      · obtain ⟨p1, p2⟩ := flux_open (pol := pol) h h0 (0, B)
        rw [p2]
        have := Complex.normSq_nonneg B
        simp only [map_zero, zero_sub]
        nlinarith
    have e1 : flux (wgt pol om g e0) (0, B) = 0 := le_antisymm hlo (by rw [hf]; exact hup)
    rcases ho with h | h
    · obtain ⟨p1, p2⟩ := flux_open (pol := pol) h h0 (0, B)
      rw [p2] at e1
      have hB : B = 0 := by
        have := (mul_eq_zero.1 e1).resolve_left p1.ne'
        simpa using this
      subst hB
      exact chain_zero _ hw hc _ k0 rfl
    · obtain ⟨p1, p2⟩ := flux_open (pol := pol) h hN (A, 0)
      rw [e1] at hf
      simp only at hf
      rw [p2] at hf
      have hA : A = 0 := by
        have := (mul_eq_zero.1 hf.symm).resolve_left p1.ne'
        simpa using this
      subst hA
      exact chain_zero _ hw hc _ kN rfl
  intro c hcs
  obtain ⟨i, hi, rfl⟩ := List.getElem_of_mem hcs
  have hi' : i < ((e0, (0 : ℝ)) :: ls ++ [(eN, 0)]).length := by simp; omega
  exact hz (((e0, 0) :: ls ++ [(eN, 0)])[i], cs[i])
    (List.mem_of_getElem? (i := i) (List.getElem?_zip_eq_some.2 ⟨List.getElem?_eq_getElem hi', List.getElem?_eq_getElem hi⟩))

/-! ### Fields of a slab -/

/-- A field at the plane wave `p` and the angular frequency `om` whose tangential components are continuous. -/
structure SlabField (pol : Pol) (om e0 eN : ℝ) (ls : List (ℝ × ℝ)) (p : R2) (t : GmeState) : Prop where
  pol_eq : t.pol = pol
  plane : (t.gx, t.gy) = p
  om_eq : t.om = om
  chi_eq : t.layers.map ModeL.x = (slabEps e0 eN ls).map (chi om (planeAbs p))
  fields : List.IsChain (Interface pol om (planeAbs p))
    (((e0, 0) :: ls ++ [(eN, 0)]).zip (t.layers.map fun m : ModeL => (m.A, m.B)))

/-- Amplitudes in the claddings. -/
def GmeState.lowA (t : GmeState) : ℂ := (t.layers.head?.map ModeL.A).getD 0
@[inherit_doc GmeState.lowA]
def GmeState.lowB (t : GmeState) : ℂ := (t.layers.head?.map ModeL.B).getD 0
@[inherit_doc GmeState.lowA]
def GmeState.upA (t : GmeState) : ℂ := (t.layers.getLast?.map ModeL.A).getD 0
@[inherit_doc GmeState.lowA]
def GmeState.upB (t : GmeState) : ℂ := (t.layers.getLast?.map ModeL.B).getD 0

/-- A combination of two fields. -/
def GmeState.comb (a b : ℂ) (t t' : GmeState) : GmeState :=
  { t with layers := List.zipWith (addMode a b) t.layers t'.layers }

theorem RadWave.slabField {pol : Pol} {u : Bool} {om e0 eN : ℝ} {ls : List (ℝ × ℝ)} {p : R2} {t : GmeState}
    (h : RadWave pol u om e0 eN ls p t) (hp : 1e-10 ≤ planeAbs p) : SlabField pol om e0 eN ls p t := by
  refine ⟨h.pol_eq, h.plane, h.om_eq, h.chi_eq, ?_⟩
  have := h.fields
  rwa [max_eq_left hp] at this

theorem RadWave.lowA {pol : Pol} {u : Bool} {om e0 eN : ℝ} {ls : List (ℝ × ℝ)} {p : R2} {t : GmeState}
    (h : RadWave pol u om e0 eN ls p t) : t.lowA = if u then 0 else waveNorm pol e0 om := by
  obtain ⟨m, h1, h2⟩ := h.lower
  simp only [GmeState.lowA, h1, Option.map_some, Option.getD_some, h2]

theorem RadWave.upB {pol : Pol} {u : Bool} {om e0 eN : ℝ} {ls : List (ℝ × ℝ)} {p : R2} {t : GmeState}
    (h : RadWave pol u om e0 eN ls p t) : t.upB = if u then waveNorm pol eN om else 0 := by
  obtain ⟨m, h1, h2⟩ := h.upper
  simp only [GmeState.upB, h1, Option.map_some, Option.getD_some, h2]

section

variable {pol : Pol} {om e0 eN : ℝ} {ls : List (ℝ × ℝ)} {p : R2} {t t' : GmeState}

theorem SlabField.length (h : SlabField pol om e0 eN ls p t) : t.layers.length = ls.length + 2 := by
  have := congrArg List.length h.chi_eq
  simpa [slabEps] using this

theorem SlabField.ends (h : SlabField pol om e0 eN ls p t) :
    (t.layers.map fun m : ModeL => (m.A, m.B)).head? = some (t.lowA, t.lowB) ∧
    (t.layers.map fun m : ModeL => (m.A, m.B)).getLast? = some (t.upA, t.upB) ∧
    t.layers.head? = some ⟨t.lowA, t.lowB, chi om (planeAbs p) e0⟩ ∧
    t.layers.getLast? = some ⟨t.upA, t.upB, chi om (planeAbs p) eN⟩ := by
  have hl := h.length
  have h1 : t.layers.head?.map ModeL.x = some (chi om (planeAbs p) e0) := by
    rw [← List.head?_map, h.chi_eq]
    simp [slabEps]
  have h2 : t.layers.getLast?.map ModeL.x = some (chi om (planeAbs p) eN) := by
    rw [← List.getLast?_map, h.chi_eq]
    simp [slabEps, List.getLast?_cons]
  rw [List.head?_map, List.getLast?_map]
  unfold GmeState.lowA GmeState.lowB GmeState.upA GmeState.upB
  cases h3 : t.layers.head? with
  | none => rw [h3] at h1; simp at h1
  | some m =>
    cases h4 : t.layers.getLast? with
    | none => rw [h4] at h2; simp at h2
    | some m' =>
      rw [h3] at h1
      rw [h4] at h2
      simp only [Option.map_some, Option.some.injEq] at h1 h2
      refine ⟨rfl, rfl, ?_, ?_⟩
      · rw [← h1]; rfl
      · rw [← h2]; rfl

theorem zipWith_x (a b : ℂ) : ∀ (l l' : List ModeL), l.length = l'.length →
    (List.zipWith (addMode a b) l l').map ModeL.x = l.map ModeL.x
  | [], _, _ => rfl
  | m :: l, [], h => by simp at h
  | m :: l, m' :: l', h => by
    simp only [List.zipWith_cons_cons, List.map_cons, zipWith_x a b l l' (by simpa using h)]
    rfl

theorem zipWith_ab (a b : ℂ) : ∀ (l l' : List ModeL),
    (List.zipWith (addMode a b) l l').map (fun m : ModeL => (m.A, m.B)) =
      addAbs a b (l.map fun m : ModeL => (m.A, m.B)) (l'.map fun m : ModeL => (m.A, m.B))
  | [], _ => rfl
  | m :: l, [] => rfl
  | m :: l, m' :: l' => by
    simp only [List.zipWith_cons_cons, List.map_cons, zipWith_ab a b l l', addAbs]
    rfl

theorem SlabField.comb (h : SlabField pol om e0 eN ls p t) (h' : SlabField pol om e0 eN ls p t') (a b : ℂ) :
    SlabField pol om e0 eN ls p (t.comb a b t') := by
  refine ⟨h.pol_eq, h.plane, h.om_eq, ?_, ?_⟩
  · simp only [GmeState.comb]
    rw [zipWith_x _ _ _ _ (by rw [h.length, h'.length]), h.chi_eq]
  · simp only [GmeState.comb]
    rw [zipWith_ab]
    exact chain_addAbs a b _ _ _ (by simp [h.length]) (by simp [h'.length]) h.fields h'.fields

theorem SlabField.comb_amps (h : SlabField pol om e0 eN ls p t) (h' : SlabField pol om e0 eN ls p t') (a b : ℂ) :
    (t.comb a b t').lowA = a * t.lowA + b * t'.lowA ∧ (t.comb a b t').lowB = a * t.lowB + b * t'.lowB ∧
    (t.comb a b t').upA = a * t.upA + b * t'.upA ∧ (t.comb a b t').upB = a * t.upB + b * t'.upB := by
  have h1 : (t.comb a b t').layers.head? = some (addMode a b ⟨t.lowA, t.lowB, chi om (planeAbs p) e0⟩
      ⟨t'.lowA, t'.lowB, chi om (planeAbs p) e0⟩) := by
    simp only [GmeState.comb]
    rw [List.head?_eq_getElem?, List.getElem?_zipWith, ← List.head?_eq_getElem?, ← List.head?_eq_getElem?, h.ends.2.2.1,
      h'.ends.2.2.1]
  have h2 : (t.comb a b t').layers.getLast? = some (addMode a b ⟨t.upA, t.upB, chi om (planeAbs p) eN⟩
      ⟨t'.upA, t'.upB, chi om (planeAbs p) eN⟩) := by
    simp only [GmeState.comb]
    have e1 := h.ends.2.2.2
    have e2 := h'.ends.2.2.2
    rw [List.getLast?_eq_getElem?, h.length] at e1
    rw [List.getLast?_eq_getElem?, h'.length] at e2
    rw [List.getLast?_eq_getElem?, List.getElem?_zipWith, List.length_zipWith, h.length, h'.length, min_self, e1, e2]
  refine ⟨?_, ?_, ?_, ?_⟩
  · rw [GmeState.lowA, h1]; rfl
  · rw [GmeState.lowB, h1]; rfl
  · rw [GmeState.upA, h2]; rfl
  · rw [GmeState.upB, h2]; rfl

theorem modes_conjAbs (om g : ℝ) : ∀ (L : List (ℝ × ℝ)) (l : List ModeL), l.map ModeL.x = (L.map Prod.fst).map (chi om g) →
    (l.map conjMode).map (fun m : ModeL => (m.A, m.B)) = conjAbs om g L (l.map fun m : ModeL => (m.A, m.B))
  | [], l, h => by
    have : l = [] := by simpa using h
    subst this
    rfl
  | c :: L, [], h => by simp at h
  | c :: L, m :: l, h => by
    simp only [List.map_cons, List.cons.injEq] at h
    have ih := modes_conjAbs om g L l h.2
    unfold conjAbs at ih ⊢
    simp only [List.map_cons, List.zip_cons_cons, ih]
    rw [← h.1]
    rfl

theorem SlabField.conj (h : SlabField pol om e0 eN ls p t) : SlabField pol om e0 eN ls p t.conjField := by
  refine ⟨h.pol_eq, h.plane, h.om_eq, ?_, ?_⟩
  · rw [← h.chi_eq]
    simp only [GmeState.conjField, List.map_map]
    rfl
  · simp only [GmeState.conjField]
    rw [modes_conjAbs om (planeAbs p) ((e0, 0) :: ls ++ [(eN, 0)]) t.layers (by rw [h.chi_eq]; simp [slabEps])]
    exact chain_conjAbs _ _ h.fields

theorem chi_conj_open {om g e : ℝ} (h : g ^ 2 < e * om ^ 2) : (starRingEnd ℂ) (chi om g e) = chi om g e := by
  rw [chi, if_pos (by linarith), Complex.conj_ofReal]

theorem SlabField.conj_low (h : SlabField pol om e0 eN ls p t) :
    (planeAbs p ^ 2 < e0 * om ^ 2 → t.conjField.lowA = (starRingEnd ℂ) t.lowB ∧ t.conjField.lowB = (starRingEnd ℂ) t.lowA) ∧
    (e0 * om ^ 2 < planeAbs p ^ 2 → t.conjField.lowA = (starRingEnd ℂ) t.lowA ∧ t.conjField.lowB = (starRingEnd ℂ) t.lowB) := by
  have e : t.conjField.layers.head? = some (conjMode ⟨t.lowA, t.lowB, chi om (planeAbs p) e0⟩) := by
    simp only [GmeState.conjField, List.head?_map, h.ends.2.2.1, Option.map_some]
  constructor
  · intro ho
    constructor
    · rw [GmeState.lowA, e]; simp [conjMode, conjAb, chi_conj_open ho]
    · rw [GmeState.lowB, e]; simp [conjMode, conjAb, chi_conj_open ho]
  · intro ho
    constructor
    · rw [GmeState.lowA, e]; simp [conjMode, conjAb, (chi_imag_of_lt ho).2]
    · rw [GmeState.lowB, e]; simp [conjMode, conjAb, (chi_imag_of_lt ho).2]

theorem SlabField.conj_up (h : SlabField pol om e0 eN ls p t) :
    (planeAbs p ^ 2 < eN * om ^ 2 → t.conjField.upA = (starRingEnd ℂ) t.upB ∧ t.conjField.upB = (starRingEnd ℂ) t.upA) ∧
    (eN * om ^ 2 < planeAbs p ^ 2 → t.conjField.upA = (starRingEnd ℂ) t.upA ∧ t.conjField.upB = (starRingEnd ℂ) t.upB) := by
  have e : t.conjField.layers.getLast? = some (conjMode ⟨t.upA, t.upB, chi om (planeAbs p) eN⟩) := by
    simp only [GmeState.conjField, List.getLast?_map, h.ends.2.2.2, Option.map_some]
  constructor
  · intro ho
    constructor
    · rw [GmeState.upA, e]; simp [conjMode, conjAb, chi_conj_open ho]
    · rw [GmeState.upB, e]; simp [conjMode, conjAb, chi_conj_open ho]
  · intro ho
    constructor
    · rw [GmeState.upA, e]; simp [conjMode, conjAb, (chi_imag_of_lt ho).2]
    · rw [GmeState.upB, e]; simp [conjMode, conjAb, (chi_imag_of_lt ho).2]

theorem SlabField.flux (h : SlabField pol om e0 eN ls p t) :
    flux (wgt pol om (planeAbs p) e0) (t.lowA, t.lowB) = Legume.flux (wgt pol om (planeAbs p) eN) (t.upA, t.upB) := by
  obtain ⟨h1, h2, -⟩ := h.ends
  have k0 : ((e0, (0 : ℝ)), (t.lowA, t.lowB)) ∈
      ((e0, 0) :: ls ++ [(eN, 0)]).zip (t.layers.map fun m : ModeL => (m.A, m.B)) := by
    refine List.mem_of_getElem? (i := 0) (List.getElem?_zip_eq_some.2 ⟨by simp, ?_⟩)
    rw [← List.head?_eq_getElem?, h1]
  have kN : ((eN, (0 : ℝ)), (t.upA, t.upB)) ∈
      ((e0, 0) :: ls ++ [(eN, 0)]).zip (t.layers.map fun m : ModeL => (m.A, m.B)) := by
    refine List.mem_of_getElem? (i := ls.length + 1) (List.getElem?_zip_eq_some.2 ⟨by simp, ?_⟩)
    rw [List.getLast?_eq_getElem?, List.length_map, h.length] at h2
    exact h2
  exact flux_chain _ h.fields _ k0 _ kN

theorem modes_eq : ∀ (l l' : List ModeL), l.map ModeL.x = l'.map ModeL.x →
    (∀ c ∈ addAbs 1 (-1) (l.map fun m : ModeL => (m.A, m.B)) (l'.map fun m : ModeL => (m.A, m.B)), c = (0, 0)) → l = l'
  | [], l', h, _ => by
    have : l' = [] := by simpa using h.symm
    rw [this]
  | m :: l, [], h, _ => by simp at h
  | m :: l, m' :: l', h, h0 => by
    simp only [List.map_cons, List.cons.injEq] at h
    simp only [addAbs, List.map_cons, List.zipWith_cons_cons, List.mem_cons, forall_eq_or_imp, Prod.mk.injEq] at h0
    obtain ⟨⟨h1, h2⟩, h3⟩ := h0
    rw [modes_eq l l' h.2 h3]
    obtain ⟨A, B, x⟩ := m
    obtain ⟨A', B', x'⟩ := m'
    simp only at h h1 h2
    rw [h.1, show A = A' by linear_combination h1, show B = B' by linear_combination h2]

/-- Fields are determined by the amplitudes by which radiative waves are normalised. -/
theorem SlabField.eq (h : SlabField pol om e0 eN ls p t) (h' : SlabField pol om e0 eN ls p t') (h0 : 0 < e0) (hN : 0 < eN)
    (hl : ∀ l ∈ ls, l.1 ≠ 0) (hoff : ∀ e ∈ slabEps e0 eN ls, e * om ^ 2 ≠ planeAbs p ^ 2)
    (ho : planeAbs p ^ 2 < e0 * om ^ 2 ∨ planeAbs p ^ 2 < eN * om ^ 2) (hA : t.lowA = t'.lowA) (hB : t.upB = t'.upB) :
    t = t' := by
  have hc := h.comb h' 1 (-1)
  obtain ⟨a1, -, -, a4⟩ := h.comb_amps h' 1 (-1)
  rw [hA] at a1
  rw [hB] at a4
  have e1 := hc.ends.1
  have e2 := hc.ends.2.1
  rw [a1, show 1 * t'.lowA + -1 * t'.lowA = 0 by ring] at e1
  rw [a4, show 1 * t'.upB + -1 * t'.upB = 0 by ring] at e2
  have hz := chain_still pol om (planeAbs p) e0 eN ls h0 hN hl hoff ho _ (by rw [List.length_map, hc.length]) hc.fields _ _
    e1 e2
  have hlay : t.layers = t'.layers := by
    refine modes_eq _ _ (h.chi_eq.trans h'.chi_eq.symm) ?_
    rw [← zipWith_ab]
    exact hz
  have hp : (t.gx, t.gy) = (t'.gx, t'.gy) := h.plane.trans h'.plane.symm
  have hpol := h.pol_eq.trans h'.pol_eq.symm
  have hom := h.om_eq.trans h'.om_eq.symm
  obtain ⟨a, b, c, d, e⟩ := t
  obtain ⟨a', b', c', d', e'⟩ := t'
  simp only [Prod.mk.injEq] at hp hpol hom hlay
  rw [hp.1, hp.2, hpol, hom, hlay]

end

/-! ### Scattering is unitary -/

/-- A map of amplitudes which conserves weighted powers: its adjoint conserves the powers with the inverse weights. -/
theorem power_adjoint (T : Bool → Bool → ℂ) (w P : Bool → ℝ) (hw : ∀ b, 0 < w b) (hP : ∀ b, 0 < P b)
    (h : ∀ z : Bool → ℂ, ∑ a, P a * Complex.normSq (z a) = ∑ b, w b * Complex.normSq (∑ a, T b a * z a)) (y : Bool → ℂ) :
    ∑ a, 1 / P a * Complex.normSq (∑ b, conj (T b a) * y b) = ∑ b, 1 / w b * Complex.normSq (y b) := by
  have q1 := h fun b => if b then 0 else 1
  have q2 := h fun b => if b then 1 else 0
  have q3 := h fun _ => 1
  have q4 := h fun b => if b then Complex.I else 1
  simp only [Fintype.sum_bool, if_true, Bool.false_eq_true, if_false, mul_zero, mul_one, zero_add, add_zero, map_one, map_zero,
    Complex.normSq_I] at q1 q2 q3 q4
  simp only [Fintype.sum_bool]
  have hw0 := hw false
  have hw1 := hw true
  have hP0 := hP false
  have hP1 := hP true
  generalize w false = w0 at *
  generalize w true = w1 at *
  generalize P false = p0 at *
  generalize P true = p1 at *
  -- the entries as complex numbers
  have c00 : (w0 : ℂ) * (T false false * conj (T false false)) + w1 * (T true false * conj (T true false)) = p0 := by
    rw [Complex.mul_conj, Complex.mul_conj]
    exact_mod_cast by linarith
  have c11 : (w0 : ℂ) * (T false true * conj (T false true)) + w1 * (T true true * conj (T true true)) = p1 := by
    rw [Complex.mul_conj, Complex.mul_conj]
    exact_mod_cast by linarith
  have c01 : (w0 : ℂ) * (T false true * conj (T false false)) + w1 * (T true true * conj (T true false)) = 0 := by
    apply Complex.ext
    · simp only [Complex.add_re, Complex.mul_re, Complex.mul_im, Complex.ofReal_re, Complex.ofReal_im, Complex.conj_re,
        Complex.conj_im, Complex.zero_re, Complex.normSq_apply, Complex.add_im] at *
      nlinarith
    · simp only [Complex.add_re, Complex.mul_re, Complex.mul_im, Complex.ofReal_re, Complex.ofReal_im, Complex.conj_re,
        Complex.conj_im, Complex.zero_im, Complex.normSq_apply, Complex.add_im, Complex.I_re, Complex.I_im] at *
      nlinarith
  have c10 := congrArg conj c01
  simp only [map_add, map_mul, Complex.conj_conj, Complex.conj_ofReal, map_zero] at c10
  have n0 : (w0 : ℂ) ≠ 0 := by exact_mod_cast hw0.ne'
  have n1 : (w1 : ℂ) ≠ 0 := by exact_mod_cast hw1.ne'
  have m0 : (p0 : ℂ) ≠ 0 := by exact_mod_cast hP0.ne'
  have m1 : (p1 : ℂ) ≠ 0 := by exact_mod_cast hP1.ne'
  -- the same as a product of matrices
  have hL : !![conj (T false false) * w0 / p0, conj (T true false) * w1 / p0; conj (T false true) * w0 / p1,
      conj (T true true) * w1 / p1] * !![T false false, T false true; T true false, T true true] =
      (1 : Matrix (Fin 2) (Fin 2) ℂ) := by
    ext i j
    fin_cases i <;> fin_cases j <;> simp [Matrix.mul_apply, Fin.sum_univ_two] <;> field_simp
    · linear_combination c00
    · linear_combination c01
    · linear_combination c10
    · linear_combination c11
  have hR := mul_eq_one_comm.1 hL
  have r00 := congrFun (congrFun hR 0) 0
  have r01 := congrFun (congrFun hR 0) 1
  have r10 := congrFun (congrFun hR 1) 0
  have r11 := congrFun (congrFun hR 1) 1
  simp [Matrix.mul_apply, Fin.sum_univ_two] at r00 r01 r10 r11
  field_simp at r00 r01 r10 r11
  apply Complex.ofReal_injective
  push_cast
  simp only [← Complex.mul_conj, map_add, map_mul, Complex.conj_conj]
  field_simp
  linear_combination (y false * conj (y false) * w1) * r00 + (y true * conj (y true) * w0) * r11 +
    (y true * conj (y false) * w0) * r01 + (y false * conj (y true) * w1) * r10

open Classical in
/-- Weight of the squared overlap of an open channel in the losses; zero for closed channels. -/
noncomputable def chanRho (e om g : ℝ) : ℝ :=
  if g ^ 2 ≤ e * om ^ 2 then Real.pi * (e / √(e * om ^ 2 - g ^ 2) / 4 / Real.pi) else 0

theorem waveNorm_sq (pol : Pol) {e om : ℝ} (he : 0 < e) : Complex.normSq (waveNorm pol e om) =
    match pol with | .te => 1 / (e * om ^ 2) | .tm => 1 := by
  cases pol
  · simp only [waveNorm, map_div₀, map_one, Complex.normSq_ofReal, Real.mul_self_sqrt he.le]
    rw [div_div, ← sq]
  · simp [waveNorm]

theorem waveNorm_ne (pol : Pol) {e om : ℝ} (he : 0 < e) (hom : om ≠ 0) : waveNorm pol e om ≠ 0 := by
  rw [← Complex.normSq_pos, waveNorm_sq pol he]
  cases pol <;> simp only
  · positivity
  · exact one_pos

theorem wgt_open (pol : Pol) {om g e : ℝ} (h : g ^ 2 < e * om ^ 2) : (wgt pol om g e).re =
    match pol with | .te => √(e * om ^ 2 - g ^ 2) | .tm => √(e * om ^ 2 - g ^ 2) / e := by
  have hc : chi om g e = ((√(e * om ^ 2 - g ^ 2) : ℝ) : ℂ) := by rw [chi, if_pos (by linarith)]
  cases pol
  · simp [wgt, hc]
  · simp only [wgt, hc, ← Complex.ofReal_div, Complex.ofReal_re]

/-- Loss per unit of radiated power. -/
noncomputable def lossPerPower (om : ℝ) : Pol → ℝ
  | .te => 1 / (4 * om ^ 2)
  | .tm => 1 / 4

/-- The losses weigh all radiative waves by the power which they carry. -/
theorem chanRho_power (pol : Pol) {om g e : ℝ} (he : 0 < e) (h : g ^ 2 < e * om ^ 2) :
    chanRho e om g * ((wgt pol om g e).re * Complex.normSq (waveNorm pol e om)) = lossPerPower om pol := by
  have hp : 0 < √(e * om ^ 2 - g ^ 2) := Real.sqrt_pos.2 (by linarith)
  have hom : om ≠ 0 := by
    rintro rfl
    nlinarith [sq_nonneg g]
  rw [chanRho, if_pos h.le, wgt_open pol h, waveNorm_sq pol he]
  cases pol <;> simp only [lossPerPower] <;> field_simp

/-- **Reversed radiative waves.** The complex conjugates of the waves that leave through the open claddings are combinations of
these waves, and the combinations do not change the total loss. -/
theorem wave_reversal (pol : Pol) (om e0 eN : ℝ) (ls : List (ℝ × ℝ)) (p : R2) (h0 : 0 < e0) (hN : 0 < eN)
    (hl : ∀ l ∈ ls, l.1 ≠ 0) (hoff : ∀ e ∈ slabEps e0 eN ls, e * om ^ 2 ≠ planeAbs p ^ 2) (hp : 1e-10 ≤ planeAbs p)
    (t : Bool → GmeState)
    (ht : ∀ u, planeAbs p ^ 2 ≤ (if u then eN else e0) * om ^ 2 → RadWave pol u om e0 eN ls p (t u)) :
    ∃ S : Bool → Bool → ℂ,
      (∀ u, planeAbs p ^ 2 ≤ (if u then eN else e0) * om ^ 2 → ∀ ij stack einv s,
        gmeElem ij stack einv s (t u).conjField = ∑ b, S u b * gmeElem ij stack einv s (t b)) ∧
      ∀ z : Bool → ℂ, ∑ u, chanRho (if u then eN else e0) om (planeAbs p) * Complex.normSq (∑ b, S u b * z b) =
        ∑ u, chanRho (if u then eN else e0) om (planeAbs p) * Complex.normSq (z u) := by
  have n0 : e0 * om ^ 2 ≠ planeAbs p ^ 2 := hoff e0 (by simp [slabEps])
  have nN : eN * om ^ 2 ≠ planeAbs p ^ 2 := hoff eN (by simp [slabEps])
  have hp0 : 0 < planeAbs p ^ 2 := by
    have : (0 : ℝ) < planeAbs p := lt_of_lt_of_le (by norm_num) hp
    positivity
  rcases lt_or_gt_of_ne n0 with o0 | o0 <;> rcases lt_or_gt_of_ne nN with oN | oN
  · -- both claddings closed
    refine ⟨fun _ _ => 0, ?_, fun z => ?_⟩
    · intro u hu
      cases u
      · exact absurd hu (by simpa using o0)
      · exact absurd hu (by simpa using oN)
    · simp [chanRho, not_le.2 o0, not_le.2 oN]
  · -- the lower cladding closed
    have hom : om ≠ 0 := by
      rintro rfl
      nlinarith
    have w := ht true (by simpa using oN.le)
    have f := w.slabField hp
    have hA := w.lowA
    have hB := w.upB
    simp only [if_true] at hA hB
    have hne := waveNorm_ne pol hN hom
    have hfl := f.flux
    rw [hA, flux_closed o0 _ (Or.inl rfl), (flux_open oN hN _).2, hB] at hfl
    have hn : Complex.normSq (t true).upA = Complex.normSq (waveNorm pol eN om) := by
      have := (mul_eq_zero.1 hfl.symm).resolve_left (flux_open (pol := pol) oN hN (0, 0)).1.ne'
      simp only at this
      linarith
    have hζ : Complex.normSq (conj (t true).upA / waveNorm pol eN om) = 1 := by
      rw [map_div₀, Complex.normSq_conj, hn, div_self]
      exact (Complex.normSq_pos.2 hne).ne'
    refine ⟨fun _ b => if b then conj (t true).upA / waveNorm pol eN om else 0, ?_, fun z => ?_⟩
    · intro u hu
      cases u with
      | false => exact absurd hu (by simpa using o0)
      | true =>
        intro ij stack einv s
        have e := f.conj.eq (f.comb f (conj (t true).upA / waveNorm pol eN om) 0) h0 hN hl hoff (Or.inr oN) (by
          rw [(f.conj_low.2 o0).1, (f.comb_amps f _ _).1, hA]
          simp) (by
          rw [(f.conj_up.1 oN).2, (f.comb_amps f _ _).2.2.2, hB]
          field_simp
          ring)
        rw [e]
        refine (gmeElem_add ij stack einv s _ _ rfl rfl rfl rfl rfl _ _).trans ?_
        simp
    · simp [chanRho, not_le.2 o0, hζ]
  · -- the upper cladding closed
    have hom : om ≠ 0 := by
      rintro rfl
      nlinarith
    have w := ht false (by simpa using o0.le)
    have f := w.slabField hp
    have hA := w.lowA
    have hB := w.upB
    simp only [Bool.false_eq_true, if_false] at hA hB
    have hne := waveNorm_ne pol h0 hom
    have hfl := f.flux
    rw [hB, flux_closed oN _ (Or.inr rfl), (flux_open o0 h0 _).2, hA] at hfl
    have hn : Complex.normSq (t false).lowB = Complex.normSq (waveNorm pol e0 om) := by
      have := (mul_eq_zero.1 hfl).resolve_left (flux_open (pol := pol) o0 h0 (0, 0)).1.ne'
      simp only at this
      linarith
    have hζ : Complex.normSq (conj (t false).lowB / waveNorm pol e0 om) = 1 := by
      rw [map_div₀, Complex.normSq_conj, hn, div_self]
      exact (Complex.normSq_pos.2 hne).ne'
    refine ⟨fun _ b => if b then 0 else conj (t false).lowB / waveNorm pol e0 om, ?_, fun z => ?_⟩
    · intro u hu
      cases u with
      | true => exact absurd hu (by simpa using oN)
      | false =>
        intro ij stack einv s
        have e := f.conj.eq (f.comb f (conj (t false).lowB / waveNorm pol e0 om) 0) h0 hN hl hoff (Or.inl o0) (by
          rw [(f.conj_low.1 o0).1, (f.comb_amps f _ _).1, hA]
          field_simp
          ring) (by
          rw [(f.conj_up.2 oN).2, (f.comb_amps f _ _).2.2.2, hB]
          simp)
        rw [e]
        refine (gmeElem_add ij stack einv s _ _ rfl rfl rfl rfl rfl _ _).trans ?_
        simp
    · simp [chanRho, not_le.2 oN, hζ]
  · -- both claddings open
    have hom : om ≠ 0 := by
      rintro rfl
      nlinarith
    have w0 := ht false (by simpa using o0.le)
    have w1 := ht true (by simpa using oN.le)
    have f0 := w0.slabField hp
    have f1 := w1.slabField hp
    have hA0 := w0.lowA
    have hB0 := w0.upB
    have hA1 := w1.lowA
    have hB1 := w1.upB
    simp only [if_true, Bool.false_eq_true, if_false] at hA0 hB0 hA1 hB1
    have hne0 := waveNorm_ne pol h0 hom
    have hneN := waveNorm_ne pol hN hom
    have hf : ∀ u, SlabField pol om e0 eN ls p (t u) := by
      intro u; cases u
      · exact f0
      · exact f1
    have hcomb : ∀ u, (t u).conjField = (t false).comb (conj (t u).lowB / waveNorm pol e0 om)
        (conj (t u).upA / waveNorm pol eN om) (t true) := by
      intro u
      refine (hf u).conj.eq (f0.comb f1 _ _) h0 hN hl hoff (Or.inl o0) ?_ ?_
      · rw [((hf u).conj_low.1 o0).1, (f0.comb_amps f1 _ _).1, hA0, hA1]
        field_simp
        ring
      · rw [((hf u).conj_up.1 oN).2, (f0.comb_amps f1 _ _).2.2.2, hB0, hB1]
        field_simp
        ring
    refine ⟨fun u b => if b then conj (t u).upA / waveNorm pol eN om else conj (t u).lowB / waveNorm pol e0 om, ?_,
      fun z => ?_⟩
    · intro u _ ij stack einv s
      rw [hcomb]
      refine (gmeElem_add ij stack einv s (t false) (t true) (f1.pol_eq.trans f0.pol_eq.symm)
        (congrArg Prod.fst (f1.plane.trans f0.plane.symm)) (congrArg Prod.snd (f1.plane.trans f0.plane.symm))
        (f1.om_eq.trans f0.om_eq.symm) (f1.chi_eq.trans f0.chi_eq.symm) _ _).trans ?_
      rw [Fintype.sum_bool]
      simp only [if_true, Bool.false_eq_true, if_false]
      ring
    · set W : Bool → ℝ := fun b => (wgt pol om (planeAbs p) (if b then eN else e0)).re with hW
      set P : Bool → ℝ := fun b => W b * Complex.normSq (waveNorm pol (if b then eN else e0) om) with hP
      have hWp : ∀ b, 0 < W b := by
        intro b; cases b
        · exact (flux_open (pol := pol) o0 h0 (0, 0)).1
        · exact (flux_open (pol := pol) oN hN (0, 0)).1
      have hPp : ∀ b, 0 < P b := by
        intro b; cases b
        · exact mul_pos (hWp _) (Complex.normSq_pos.2 hne0)
        · exact mul_pos (hWp _) (Complex.normSq_pos.2 hneN)
      have hen := power_adjoint (fun b a => if b then (t a).upA else (t a).lowB) W P hWp hPp (by
        intro z
        have hfl := (f0.comb f1 (z false) (z true)).flux
        obtain ⟨a1, a2, a3, a4⟩ := f0.comb_amps f1 (z false) (z true)
        rw [(flux_open o0 h0 _).2, (flux_open oN hN _).2] at hfl
        simp only [a1, a2, a3, a4, hA0, hA1, hB0, hB1] at hfl
        simp only [Fintype.sum_bool, if_true, Bool.false_eq_true, if_false, hP, hW]
        rw [mul_zero, mul_zero, add_zero, zero_add, map_mul, map_mul] at hfl
        rw [show (t true).upA * z true + (t false).upA * z false = z false * (t false).upA + z true * (t true).upA by ring,
          show (t true).lowB * z true + (t false).lowB * z false = z false * (t false).lowB + z true * (t true).lowB by ring]
        linarith) fun b => z b / waveNorm pol (if b then eN else e0) om
      have k : ∃ κ : ℝ, ∀ b : Bool, chanRho (if b then eN else e0) om (planeAbs p) = κ * (1 / P b) := by
        refine ⟨lossPerPower om pol, fun b => ?_⟩
        have hb : 0 < (if b then eN else e0) ∧ planeAbs p ^ 2 < (if b then eN else e0) * om ^ 2 := by
          cases b
          · exact ⟨h0, o0⟩
          · exact ⟨hN, oN⟩
        have e := chanRho_power pol hb.1 hb.2
        rw [← e]
        have := (hPp b).ne'
        rw [mul_assoc, show (wgt pol om (planeAbs p) (if b then eN else e0)).re *
          Complex.normSq (waveNorm pol (if b then eN else e0) om) = P b from rfl, mul_one_div, div_self this, mul_one]
      obtain ⟨κ, hκ⟩ := k
      simp only [hκ, mul_assoc, ← Finset.mul_sum]
      congr 1
      have e1 : ∀ u, (∑ b, (if b = true then conj (t u).upA / waveNorm pol eN om else
          conj (t u).lowB / waveNorm pol e0 om) * z b) = ∑ b, conj (if b = true then (t u).upA else (t u).lowB) *
          (z b / waveNorm pol (if b then eN else e0) om) := by
        intro u
        simp only [Fintype.sum_bool, if_true, Bool.false_eq_true, if_false]
        ring
      simp only [e1]
      refine hen.trans (Finset.sum_congr rfl fun b _ => ?_)
      simp only [hP, map_div₀]
      have : Complex.normSq (waveNorm pol (if b then eN else e0) om) ≠ 0 := by
        cases b
        · exact (Complex.normSq_pos.2 hne0).ne'
        · exact (Complex.normSq_pos.2 hneN).ne'
      have := (hWp b).ne'
      field_simp

end Legume
