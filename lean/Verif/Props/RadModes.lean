import Verif.Props.SlabModes

/-!
# Radiative modes of the slab: property C64
-/
namespace Legume

open Complex Spec

theorem Interface.scale {pol : Pol} {omega g : ℝ} {lo up : (ℝ × ℝ) × (ℂ × ℂ)}
    (h : Interface pol omega g lo up) (c : ℂ) :
    Interface pol omega g (lo.1, (lo.2.1 * c, lo.2.2 * c)) (up.1, (up.2.1 * c, up.2.2 * c)) := by
  obtain ⟨h1, h2⟩ := h
  unfold Interface fieldSum fieldDiff at *
  constructor
  · linear_combination c * h1
  · linear_combination c * h2

theorem Interface.swap {pol : Pol} {omega g : ℝ} {lo up : (ℝ × ℝ) × (ℂ × ℂ)}
    (h : Interface pol omega g lo up) :
    Interface pol omega g (up.1, (up.2.2, up.2.1)) (lo.1, (lo.2.2, lo.2.1)) := by
  obtain ⟨h1, h2⟩ := h
  have e : ∀ (x : ℂ) (t : ℝ), Complex.I * x * ((-t : ℝ) : ℂ) = -(Complex.I * x * t) := by
    intro x t; push_cast; ring
  unfold Interface fieldSum fieldDiff at *
  simp only [e, neg_neg] at *
  constructor
  · linear_combination -h1
  · linear_combination h2

/-- The wave-like field of a layer of a radiative mode, `Y e^{i chi t} + X e^{-i chi t}`. -/
def radPair (xy : ℂ × ℂ) : ℂ × ℂ := (xy.2, xy.1)

theorem zip_map_right' {α β γ : Type} (l : List α) (m : List β) (f : β → γ) :
    l.zip (m.map f) = (l.zip m).map fun p => (p.1, f p.2) := by
  rw [List.zip_map_right]; rfl

theorem zip_reverse' {α β : Type} (l : List α) (m : List β) (h : l.length = m.length) :
    l.reverse.zip m.reverse = (l.zip m).reverse := by
  induction l generalizing m with
  | nil => simp
  | cons a l ih =>
    cases m with
    | nil => simp at h
    | cons b m =>
      simp only [List.length_cons, Nat.add_right_cancel_iff] at h
      rw [List.reverse_cons, List.reverse_cons, List.zip_append (by simpa using h), ih m h]
      simp

/-- **C64 (upper cladding).** For every stack with at least one layer and every frequency at which the
growing amplitude does not vanish, `rad_modes` with `clad = 1` returns one pair `(X, Y)` per layer
such that the field `Y e^{i chi t} + X e^{-i chi t}` has continuous tangential components at every
interface, `Y = 0` in the lower cladding and `X` in the upper cladding is the normalisation constant:
`1`, or `1 / (sqrt(eps) omega)` for the string `'te'`. -/
theorem C64_upper (pol : Pol) (te : Bool) (omega g e0 eN : ℝ) (ls : List (ℝ × ℝ)) (hne : ls ≠ [])
    (hw : ∀ x ∈ e0 :: ls.map Prod.fst ++ [eN], x * omega ^ 2 ≠ (max g 1e-10) ^ 2 ∧ x ≠ 0)
    (hD : d22General pol omega (max g 1e-10) (e0 :: ls.map Prod.fst ++ [eN]) (ls.map Prod.snd) ≠ 0) :
    ∃ xy, radMode pol te true omega g (e0 :: ls.map Prod.fst ++ [eN]) (ls.map Prod.snd) = .ok xy ∧
      xy.length = ls.length + 2 ∧
      List.IsChain (Interface pol omega (max g 1e-10))
        (((e0, 0) :: ls ++ [(eN, 0)]).zip (xy.map radPair)) ∧
      (∃ X, xy.head? = some (X, 0)) ∧
      (∃ Y, xy.getLast? = some (if te then 1 / ((√eN : ℝ) : ℂ) / omega else 1, Y)) := by
  obtain ⟨cs, h1, h2, h3, h4, A, h5⟩ := C25_interfaces pol omega (max g 1e-10) e0 eN ls hne hw
  set n := d22General pol omega (max g 1e-10) (e0 :: ls.map Prod.fst ++ [eN]) (ls.map Prod.snd) with hn
  set f := radFactor te omega eN with hf
  have hlast : cs.getLastD (0, 0) = (A, n) := by
    rw [List.getLastD_eq_getLast?, h5]; rfl
  have heN : (e0 :: ls.map Prod.fst ++ [eN]).getLastD 0 = eN := by
    rw [List.getLastD_eq_getLast?, List.getLast?_concat]; rfl
  refine ⟨cs.map fun c => (c.2 / n * f, c.1 / n * f), ?_, ?_, ?_, ?_, ?_⟩
  · unfold radMode
    simp only [if_true, h1, hlast, heN, List.map_map]
    rfl
  · simpa using h2
  · rw [List.map_map, zip_map_right']
    refine List.isChain_map_of_isChain _ ?_ h4
    intro a b hab
    have := hab.scale (f / n)
    simp only [Function.comp, radPair]
    convert this using 3 <;> first | rfl | (refine Prod.ext ?_ ?_ <;> simp only <;> ring) | ring
  · refine ⟨1 / n * f, ?_⟩
    rw [List.head?_map, List.head?_eq_getElem?, h3]
    simp
  · refine ⟨A / n * f, ?_⟩
    rw [List.getLast?_map, h5]
    simp only [Option.map_some, Option.some.injEq, Prod.mk.injEq, and_true]
    rw [div_self hD, one_mul, hf]; rfl

/-- **C64 (lower cladding).** The same for `clad = 0`: `X = 0` in the upper cladding, and `Y` in the
lower cladding is the normalisation constant. -/
theorem C64_lower (pol : Pol) (te : Bool) (omega g e0 eN : ℝ) (ls : List (ℝ × ℝ)) (hne : ls ≠ [])
    (hw : ∀ x ∈ e0 :: ls.map Prod.fst ++ [eN], x * omega ^ 2 ≠ (max g 1e-10) ^ 2 ∧ x ≠ 0)
    (hD : d22General pol omega (max g 1e-10) (e0 :: ls.map Prod.fst ++ [eN]) (ls.map Prod.snd) ≠ 0) :
    ∃ xy, radMode pol te false omega g (e0 :: ls.map Prod.fst ++ [eN]) (ls.map Prod.snd) = .ok xy ∧
      xy.length = ls.length + 2 ∧
      List.IsChain (Interface pol omega (max g 1e-10))
        (((e0, 0) :: ls ++ [(eN, 0)]).zip (xy.map radPair)) ∧
      (∃ X, xy.head? = some (X, if te then 1 / ((√e0 : ℝ) : ℂ) / omega else 1)) ∧
      (∃ Y, xy.getLast? = some (0, Y)) := by
  have erev : (e0 :: ls.map Prod.fst ++ [eN]).reverse = eN :: ls.reverse.map Prod.fst ++ [e0] := by simp
  have drev : (ls.map Prod.snd).reverse = ls.reverse.map Prod.snd := by simp
  have hwr : ∀ x ∈ eN :: ls.reverse.map Prod.fst ++ [e0],
      x * omega ^ 2 ≠ (max g 1e-10) ^ 2 ∧ x ≠ 0 := by
    intro x hx
    rw [← erev, List.mem_reverse] at hx
    exact hw x hx
  obtain ⟨cs, h1, h2, h3, h4, A, h5⟩ := C25_interfaces pol omega (max g 1e-10) eN e0 ls.reverse
    (by simpa using hne) hwr
  set n := d22General pol omega (max g 1e-10) (eN :: ls.reverse.map Prod.fst ++ [e0])
    (ls.reverse.map Prod.snd) with hn
  have hDr : n ≠ 0 := by
    intro h0
    apply hD
    obtain ⟨c, hc, e⟩ := C24_reverse pol omega (max g 1e-10) e0 eN ls hw
    rw [hn] at h0
    rw [erev, drev, h0] at e
    rcases mul_eq_zero.mp e.symm with h | h
    · exact absurd h hc
    · exact h
  set f := radFactor te omega e0 with hf
  have hlast : cs.getLastD (0, 0) = (A, n) := by
    rw [List.getLastD_eq_getLast?, h5]; rfl
  refine ⟨(cs.map fun c => (c.1 / n * f, c.2 / n * f)).reverse, ?_, ?_, ?_, ?_, ?_⟩
  · unfold radMode
    rw [erev, drev]
    simp only [h1, hlast, Bool.false_eq_true, if_false]
    rfl
  · simpa using h2
  · have hz : ((e0, 0) :: ls ++ [(eN, 0)]).zip
        (((cs.map fun (c : ℂ × ℂ) => (c.1 / n * f, c.2 / n * f)).reverse).map radPair) =
        ((((eN, 0) :: ls.reverse ++ [(e0, 0)]).zip cs).map fun (p : (ℝ × ℝ) × (ℂ × ℂ)) =>
          (p.1, radPair (p.2.1 / n * f, p.2.2 / n * f))).reverse := by
      have hl : ((e0, 0) :: ls ++ [(eN, (0 : ℝ))]) = ((eN, 0) :: ls.reverse ++ [(e0, 0)]).reverse := by simp
      rw [hl, List.map_reverse, List.map_map, ← zip_map_right' _ _
        (fun c : ℂ × ℂ => radPair (c.1 / n * f, c.2 / n * f))]
      rw [zip_reverse' _ _ (by simp [h2])]
      rfl
    rw [hz, List.isChain_reverse]
    refine List.isChain_map_of_isChain _ ?_ h4
    intro a b hab
    have := (hab.scale (f / n)).swap
    simp only [radPair]
    convert this using 3 <;> first | rfl | (refine Prod.ext ?_ ?_ <;> simp only <;> ring) | ring
  · refine ⟨A / n * f, ?_⟩
    rw [List.head?_reverse, List.getLast?_map, h5]
    simp only [Option.map_some, Option.some.injEq, Prod.mk.injEq, true_and]
    rw [div_self hDr, one_mul, hf]; rfl
  · refine ⟨1 / n * f, ?_⟩
    rw [List.getLast?_reverse, List.head?_map, List.head?_eq_getElem?, h3]
    simp

/-- The hypotheses are met, for example in a homogeneous stack above the light line. -/
example : let ls : List (ℝ × ℝ) := [(1, 3)]
    (∀ x ∈ (1 : ℝ) :: ls.map Prod.fst ++ [1], x * (2 : ℝ) ^ 2 ≠ (max (1 : ℝ) 1e-10) ^ 2 ∧ x ≠ 0) ∧
      d22General .te 2 (max 1 1e-10) ((1 : ℝ) :: ls.map Prod.fst ++ [1]) (ls.map Prod.snd) ≠ 0 := by
  have hm : max (1 : ℝ) 1e-10 = 1 := by norm_num
  intro ls
  rw [hm]
  constructor
  · intro x hx
    simp [ls] at hx
    subst hx
    norm_num
  · have hc : chi 2 1 1 ≠ 0 := chi_ne_zero 2 1 1 (by norm_num)
    have hs : sMat (chi 2 1 1) (chi 2 1 1) = M2.one := by
      ext <;> simp [sMat, M2.one] <;> field_simp <;> norm_num
    simp only [ls, d22General, sMats, tMats, List.map_cons, List.map_nil, List.cons_append,
      List.nil_append, List.tail_cons, List.zipWith_cons_cons, List.zipWith_nil_right, wgt, hs,
      List.dropLast_cons_cons, List.dropLast_singleton, List.zip_cons_cons, List.zip_nil_right,
      List.foldl_cons, List.foldl_nil, M2.mul_d, M2.mul_b, M2.one, tMat]
    simp

end Legume
