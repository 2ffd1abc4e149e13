import Verif.Lemmas.Unpatterned
import Verif.Lemmas.Spectrum
import Verif.Spec.Unpatterned
import Verif.Props.SlabModes
import Verif.Props.MatrixElements

/-!
# C93: the guided-mode expansion of an unpatterned slab
-/
namespace Legume

open Complex Spec MeasureTheory
open scoped ComplexConjugate

/-- Thickness entering the interface conditions. -/
def thick : LPos → ℝ
  | .inner d => d
  | _ => 0

/-- Amplitudes and wave numbers without normalisation. -/
noncomputable def mkLayers (omega g : ℝ) (eps : List ℝ) (abs : List (ℂ × ℂ)) : List ModeL :=
  List.zipWith (fun e ab => ⟨ab.1, ab.2, chi omega g e⟩) eps abs

/-- A guided mode of the stack: evanescent in the claddings, matched at every interface. -/
structure IsGuided (pol : Pol) (omega g e0 eN : ℝ) (ls : List (ℝ × ℝ)) (abs : List (ℂ × ℂ)) : Prop where
  low : e0 * omega ^ 2 < g ^ 2
  up : eN * omega ^ 2 < g ^ 2
  len : abs.length = ls.length + 2
  chain : List.IsChain (Interface pol omega g) (((e0, 0) :: ls ++ [(eN, 0)]).zip abs)
  first : ∃ B, abs.head? = some (0, B)
  last : ∃ A, abs.getLast? = some (A, 0)

/-- Interface weight relative to the wave number. -/
noncomputable def vOf (pol : Pol) (e : ℝ) : ℂ :=
  match pol with
  | .te => 1
  | .tm => 1 / e

theorem wgt_eq_v (pol : Pol) (omega g e : ℝ) : wgt pol omega g e = vOf pol e * chi omega g e := by
  cases pol <;> simp only [wgt, vOf] <;> ring

theorem vOf_conj (pol : Pol) (e : ℝ) : conj (vOf pol e) = vOf pol e := by
  cases pol <;> simp [vOf]

theorem chi_sq' (omega g e : ℝ) : chi omega g e ^ 2 = (e : ℂ) * (omega : ℂ) ^ 2 - (g : ℂ) ^ 2 := by
  unfold chi
  split
  · rename_i h
    rw [← Complex.ofReal_pow, Real.sq_sqrt h]; push_cast; ring
  · rename_i h
    rw [mul_pow, Complex.I_sq, ← Complex.ofReal_pow, Real.sq_sqrt (by linarith)]; push_cast; ring

theorem chi_im_pos (omega g e : ℝ) (h : e * omega ^ 2 < g ^ 2) : 0 < (chi omega g e).im := by
  rw [chi_of_lt _ _ _ h]
  simp only [Complex.I_mul_im, Complex.ofReal_re]
  exact Real.sqrt_pos.2 (by linarith)

/-- The layers with the amplitudes of two modes. -/
def bothModes (e0 eN : ℝ) (ls : List (ℝ × ℝ)) (abs1 abs2 : List (ℂ × ℂ)) :
    List ((LPos × ℝ) × (ℂ × ℂ) × (ℂ × ℂ)) :=
  (slabStack e0 eN ls).zip (abs1.zip abs2)

theorem slabStack_length (e0 eN : ℝ) (ls : List (ℝ × ℝ)) : (slabStack e0 eN ls).length = ls.length + 2 := by
  simp [slabStack]

theorem zip_proj1 {α β γ : Type} (s : List α) (a : List β) (b : List γ) (h : a.length = b.length) :
    (s.zip (a.zip b)).map (fun z => (z.1, z.2.1)) = s.zip a := by
  induction s generalizing a b with
  | nil => simp
  | cons x s ih =>
    cases a with
    | nil => simp
    | cons y a =>
      cases b with
      | nil => simp at h
      | cons z b => simpa using ih a b (by simpa using h)

theorem zip_proj2 {α β γ : Type} (s : List α) (a : List β) (b : List γ) (h : a.length = b.length) :
    (s.zip (a.zip b)).map (fun z => (z.1, z.2.2)) = s.zip b := by
  induction s generalizing a b with
  | nil => simp
  | cons x s ih =>
    cases a with
    | nil =>
      cases b with
      | nil => simp
      | cons z b => simp at h
    | cons y a =>
      cases b with
      | nil => simp at h
      | cons z b => simpa using ih a b (by simpa using h)

theorem slabStack_interface (e0 eN : ℝ) (ls : List (ℝ × ℝ)) :
    (slabStack e0 eN ls).map (fun p => (p.2, thick p.1)) = (e0, 0) :: ls ++ [(eN, 0)] := by
  have : ls.map ((fun p : LPos × ℝ => (p.2, thick p.1)) ∘ fun l : ℝ × ℝ => (LPos.inner l.2, l.1)) = ls := by
    conv_rhs => rw [← List.map_id ls]
    rfl
  simp only [slabStack, List.map_cons, List.map_append, List.map_map, this]
  rfl

/-- Claddings are at the ends. -/
theorem slabStack_pos (e0 eN : ℝ) (ls : List (ℝ × ℝ)) :
    List.IsChain (fun a b : LPos × ℝ => a.1 ≠ .upper ∧ b.1 ≠ .lower) (slabStack e0 eN ls) := by
  have key : ∀ (ls : List (ℝ × ℝ)) (a : LPos × ℝ), a.1 ≠ .upper →
      List.IsChain (fun a b : LPos × ℝ => a.1 ≠ .upper ∧ b.1 ≠ .lower)
        (a :: (ls.map (fun l => (LPos.inner l.2, l.1)) ++ [(.upper, eN)])) := by
    intro ls
    induction ls with
    | nil => intro a ha; simpa using ha
    | cons l ls ih =>
      intro a ha
      rw [List.map_cons, List.cons_append, List.isChain_cons_cons]
      exact ⟨⟨ha, by simp⟩, ih _ (by simp)⟩
  exact key ls (.lower, e0) (by simp)

theorem slabStack_eps (e0 eN : ℝ) (ls : List (ℝ × ℝ)) :
    (slabStack e0 eN ls).map Prod.snd = e0 :: ls.map Prod.fst ++ [eN] := by
  simp [slabStack]

/-- The interface conditions of one mode along the layers of `bothModes`. -/
theorem guided_chain {pol : Pol} {omega g e0 eN : ℝ} {ls : List (ℝ × ℝ)} {abs : List (ℂ × ℂ)}
    (h : IsGuided pol omega g e0 eN ls abs) :
    List.IsChain (fun a b : (LPos × ℝ) × (ℂ × ℂ) => Interface pol omega g ((a.1.2, thick a.1.1), a.2)
      ((b.1.2, thick b.1.1), b.2)) ((slabStack e0 eN ls).zip abs) := by
  have h1 := h.chain
  rw [← slabStack_interface, List.zip_map_left, List.isChain_map] at h1
  exact h1

/-- Mode of one layer. -/
noncomputable def mAt (omega g : ℝ) (e : ℝ) (ab : ℂ × ℂ) : ModeL := ⟨ab.1, ab.2, chi omega g e⟩

theorem fieldSum_mAt (omega g e : ℝ) (ab : ℂ × ℂ) (t : ℝ) :
    fieldSum (chi omega g e) ab t = fld (mAt omega g e ab) 1 t := by
  simp [fieldSum, fld, mAt]

theorem fieldDiff_mAt (pol : Pol) (omega g e : ℝ) (ab : ℂ × ℂ) (t : ℝ) :
    fieldDiff (wgt pol omega g e) (chi omega g e) ab t =
      vOf pol e * ((mAt omega g e ab).x * fld (mAt omega g e ab) (-1) t) := by
  rw [wgt_eq_v]; simp only [fieldDiff, fld, mAt]; ring

/-- Along the stack, claddings only at the ends, the modes decay. -/
theorem guided_decays {pol : Pol} {omega g e0 eN : ℝ} {ls : List (ℝ × ℝ)} {abs : List (ℂ × ℂ)}
    (h : IsGuided pol omega g e0 eN ls abs) (hd : ∀ l ∈ ls, 0 ≤ l.2) :
    ∀ z ∈ (slabStack e0 eN ls).zip abs, Decays z.1.1 (mAt omega g z.1.2 z.2) := by
  obtain ⟨B, hB⟩ := h.first
  obtain ⟨A, hA⟩ := h.last
  have hlen := h.len
  obtain ⟨a0, rest, rfl⟩ : ∃ a0 rest, abs = a0 :: rest := by
    cases abs with
    | nil => simp at hlen
    | cons a0 rest => exact ⟨a0, rest, rfl⟩
  simp only [List.head?_cons, Option.some.injEq] at hB
  have hr : rest ≠ [] := by rintro rfl; simp at hlen
  obtain ⟨mid, aN, rfl⟩ : ∃ mid aN, rest = mid ++ [aN] :=
    ⟨rest.dropLast, rest.getLast hr, (List.dropLast_append_getLast hr).symm⟩
  have hAN : aN = (A, 0) := by
    rw [← List.cons_append, List.getLast?_append] at hA
    simpa using hA
  have hm : mid.length = ls.length := by simpa using hlen
  intro z hz
  unfold slabStack at hz
  rw [List.cons_append, List.zip_cons_cons, List.zip_append (by simpa using hm.symm)] at hz
  simp only [List.mem_cons, List.mem_append, List.zip_cons_cons, List.zip_nil_left, List.not_mem_nil,
    or_false] at hz
  rcases hz with rfl | hz | rfl
  · exact ⟨by simp [mAt, hB], chi_im_pos _ _ _ h.low⟩
  · have := List.of_mem_zip hz
    obtain ⟨l, hl, hz1⟩ := List.mem_map.1 this.1
    rw [← hz1]
    exact hd l hl
  · exact ⟨by simp [mAt, hAN], chi_im_pos _ _ _ h.up⟩

/-- Ends of the list of layers. -/
theorem bothModes_ends (e0 eN : ℝ) (ls : List (ℝ × ℝ)) (abs1 abs2 : List (ℂ × ℂ))
    (h1 : abs1.length = ls.length + 2) (h2 : abs2.length = ls.length + 2) :
    ∃ a l, bothModes e0 eN ls abs1 abs2 = a :: l ∧ a.1.1 = .lower ∧
      ∀ h, ((a :: l).getLast h).1.1 = .upper := by
  have hlen : (bothModes e0 eN ls abs1 abs2).length = ls.length + 2 := by
    simp [bothModes, slabStack_length, h1, h2]
  obtain ⟨a, l, hal⟩ : ∃ a l, bothModes e0 eN ls abs1 abs2 = a :: l := by
    cases hb : bothModes e0 eN ls abs1 abs2 with
    | nil => rw [hb] at hlen; simp at hlen
    | cons a l => exact ⟨a, l, rfl⟩
  refine ⟨a, l, hal, ?_, ?_⟩
  · have : (bothModes e0 eN ls abs1 abs2)[0]? = some a := by rw [hal]; rfl
    unfold bothModes at this
    rw [List.getElem?_zip_eq_some] at this
    have := this.1
    simp only [slabStack, List.cons_append, List.getElem?_cons_zero, Option.some.injEq] at this
    rw [← this]
  · intro h
    have h3 : (bothModes e0 eN ls abs1 abs2)[ls.length + 1]? = some ((a :: l).getLast h) := by
      rw [hal, List.getLast_eq_getElem, List.getElem?_eq_getElem (by rw [hal] at hlen; omega)]
      congr 1
      rw [hal] at hlen
      congr 1
      omega
    unfold bothModes at h3
    rw [List.getElem?_zip_eq_some] at h3
    have := h3.1
    simp only [slabStack] at this
    rw [List.getElem?_append_right (by simp)] at this
    simp only [List.length_cons, List.length_map, Nat.sub_self, List.getElem?_cons_zero,
      Option.some.injEq] at this
    rw [← this]

/-- Sums over the layers of `weight * integral`. -/
noncomputable def sumQ (pol : Pol) (om1 om2 g : ℝ) (Z : List ((LPos × ℝ) × (ℂ × ℂ) × (ℂ × ℂ))) : ℂ :=
  (Z.map fun z => vOf pol z.1.2 * (oDiff z.1.1 (mAt om1 g z.1.2 z.2.1) (mAt om2 g z.1.2 z.2.2) +
    (g : ℂ) ^ 2 * oSum z.1.1 (mAt om1 g z.1.2 z.2.1) (mAt om2 g z.1.2 z.2.2))).sum
@[inherit_doc sumQ]
noncomputable def sumP (pol : Pol) (om1 om2 g : ℝ) (Z : List ((LPos × ℝ) × (ℂ × ℂ) × (ℂ × ℂ))) : ℂ :=
  (Z.map fun z => vOf pol z.1.2 * z.1.2 *
    oSum z.1.1 (mAt om1 g z.1.2 z.2.1) (mAt om2 g z.1.2 z.2.2)).sum

theorem guided_bilinear {pol : Pol} {om1 om2 g e0 eN : ℝ} {ls : List (ℝ × ℝ)} {abs1 abs2 : List (ℂ × ℂ)}
    (h1 : IsGuided pol om1 g e0 eN ls abs1) (h2 : IsGuided pol om2 g e0 eN ls abs2)
    (hd : ∀ l ∈ ls, 0 ≤ l.2) :
    sumQ pol om1 om2 g (bothModes e0 eN ls abs1 abs2) =
      (om2 : ℂ) ^ 2 * sumP pol om1 om2 g (bothModes e0 eN ls abs1 abs2) := by
  have hl : abs1.length = abs2.length := by rw [h1.len, h2.len]
  have c1 := guided_chain h1
  have c2 := guided_chain h2
  rw [← zip_proj1 _ abs1 abs2 hl, List.isChain_map] at c1
  rw [← zip_proj2 _ abs1 abs2 hl, List.isChain_map] at c2
  have d1 := guided_decays h1 hd
  have d2 := guided_decays h2 hd
  rw [← zip_proj1 _ abs1 abs2 hl] at d1
  rw [← zip_proj2 _ abs1 abs2 hl] at d2
  change List.IsChain _ (bothModes e0 eN ls abs1 abs2) at c1 c2
  change ∀ z ∈ (bothModes e0 eN ls abs1 abs2).map _, _ at d1 d2
  obtain ⟨a, l, hal, hlow, hup⟩ := bothModes_ends e0 eN ls abs1 abs2 h1.len h2.len
  rw [hal] at c1 c2 d1 d2 ⊢
  let top := fun z : (LPos × ℝ) × (ℂ × ℂ) × (ℂ × ℂ) =>
    wTop (vOf pol z.1.2) z.1.1 (mAt om1 g z.1.2 z.2.1) (mAt om2 g z.1.2 z.2.2)
  let bot := fun z : (LPos × ℝ) × (ℂ × ℂ) × (ℂ × ℂ) =>
    wBot (vOf pol z.1.2) z.1.1 (mAt om1 g z.1.2 z.2.1) (mAt om2 g z.1.2 z.2.2)
  have c3 := slabStack_pos e0 eN ls
  have hfst : (bothModes e0 eN ls abs1 abs2).map Prod.fst = slabStack e0 eN ls := by
    unfold bothModes
    rw [List.map_fst_zip]
    rw [List.length_zip, slabStack_length, h1.len, h2.len, Nat.min_self]
  rw [← hfst, List.isChain_map, hal] at c3
  have hchain : List.IsChain (fun a b => top a = bot b) (a :: l) := by
    rw [List.isChain_iff_getElem] at c1 c2 c3 ⊢
    intro i hi
    have k1 := (c1 i hi).1
    have k2 := (c2 i hi).2
    have k3 := c3 i hi
    generalize (a :: l)[i] = z at k1 k2 k3 ⊢
    generalize (a :: l)[i + 1] = z' at k1 k2 k3 ⊢
    obtain ⟨⟨p, e⟩, ab, ab'⟩ := z
    obtain ⟨⟨p', e'⟩, cd, cd'⟩ := z'
    simp only [fieldSum_mAt, fieldDiff_mAt] at k1 k2
    simp only [top, bot]
    have t1 : p ≠ .upper → wTop (vOf pol e) p (mAt om1 g e ab) (mAt om2 g e ab') =
        conj (fld (mAt om1 g e ab) 1 (thick p / 2)) *
          (vOf pol e * ((mAt om2 g e ab').x * fld (mAt om2 g e ab') (-1) (thick p / 2))) := by
      cases p <;> simp [wTop, thick]
    have t2 : p' ≠ .lower → wBot (vOf pol e') p' (mAt om1 g e' cd) (mAt om2 g e' cd') =
        conj (fld (mAt om1 g e' cd) 1 (-(thick p' / 2))) *
          (vOf pol e' * ((mAt om2 g e' cd').x * fld (mAt om2 g e' cd') (-1) (-(thick p' / 2)))) := by
      cases p' <;> simp [wBot, thick]
    rw [t1 k3.1, t2 k3.2, k1, k2]
  have htel := chain_telescope top bot a l hchain
  have htop : top ((a :: l).getLast (by simp)) = 0 := by
    simp only [top, hup, wTop]
  have hbot : bot a = 0 := by simp only [bot, hlow, wBot]
  rw [htop, hbot, sub_zero] at htel
  have hz : ∀ z ∈ a :: l, vOf pol z.1.2 *
      (oDiff z.1.1 (mAt om1 g z.1.2 z.2.1) (mAt om2 g z.1.2 z.2.2) +
        (g : ℂ) ^ 2 * oSum z.1.1 (mAt om1 g z.1.2 z.2.1) (mAt om2 g z.1.2 z.2.2)) =
      (om2 : ℂ) ^ 2 * (vOf pol z.1.2 * z.1.2 *
        oSum z.1.1 (mAt om1 g z.1.2 z.2.1) (mAt om2 g z.1.2 z.2.2)) + Complex.I * (top z - bot z) := by
    intro z hz
    have := layer_parts (vOf pol z.1.2) z.1.1 (mAt om1 g z.1.2 z.2.1) (mAt om2 g z.1.2 z.2.2)
      (d1 _ (List.mem_map_of_mem hz)) (d2 _ (List.mem_map_of_mem hz))
    rw [show (mAt om2 g z.1.2 z.2.2).x = chi om2 g z.1.2 from rfl, chi_sq'] at this
    linear_combination this
  unfold sumQ sumP
  rw [List.map_congr_left hz, List.sum_map_add, List.sum_map_mul_left, List.sum_map_mul_left, htel]
  ring

theorem oSum_conj (pos : LPos) (m1 m2 : ModeL) : conj (oSum pos m1 m2) = oSum pos m2 m1 := by
  unfold oSum
  rw [← integral_conj]
  congr 1
  funext t
  rw [map_mul, Complex.conj_conj, mul_comm]

theorem oDiff_conj (pos : LPos) (m1 m2 : ModeL) : conj (oDiff pos m1 m2) = oDiff pos m2 m1 := by
  unfold oDiff
  rw [map_mul, map_mul, Complex.conj_conj, ← integral_conj, mul_comm m1.x]
  congr 2
  funext t
  rw [map_mul, Complex.conj_conj, mul_comm]

/-- The layers with the modes exchanged. -/
theorem bothModes_swap (e0 eN : ℝ) (ls : List (ℝ × ℝ)) (abs1 abs2 : List (ℂ × ℂ)) :
    bothModes e0 eN ls abs2 abs1 = (bothModes e0 eN ls abs1 abs2).map fun z => (z.1, z.2.2, z.2.1) := by
  unfold bothModes
  rw [← List.zip_swap abs1 abs2, List.zip_map_right]
  rfl

theorem sumP_conj (pol : Pol) (om1 om2 g e0 eN : ℝ) (ls : List (ℝ × ℝ)) (abs1 abs2 : List (ℂ × ℂ)) :
    conj (sumP pol om2 om1 g (bothModes e0 eN ls abs2 abs1)) =
      sumP pol om1 om2 g (bothModes e0 eN ls abs1 abs2) := by
  unfold sumP
  rw [bothModes_swap e0 eN ls abs1 abs2, conj_list_sum, List.map_map, List.map_map]
  congr 1
  apply List.map_congr_left
  intro z _
  simp only [Function.comp, map_mul, vOf_conj, Complex.conj_ofReal, oSum_conj]

theorem sumQ_conj (pol : Pol) (om1 om2 g e0 eN : ℝ) (ls : List (ℝ × ℝ)) (abs1 abs2 : List (ℂ × ℂ)) :
    conj (sumQ pol om2 om1 g (bothModes e0 eN ls abs2 abs1)) =
      sumQ pol om1 om2 g (bothModes e0 eN ls abs1 abs2) := by
  unfold sumQ
  rw [bothModes_swap e0 eN ls abs1 abs2, conj_list_sum, List.map_map, List.map_map]
  congr 1
  apply List.map_congr_left
  intro z _
  simp only [Function.comp, map_mul, map_add, map_pow, vOf_conj, Complex.conj_ofReal, oSum_conj, oDiff_conj]

/-- Guided modes with different frequencies are orthogonal in both senses. -/
theorem guided_orthogonal {pol : Pol} {om1 om2 g e0 eN : ℝ} {ls : List (ℝ × ℝ)} {abs1 abs2 : List (ℂ × ℂ)}
    (h1 : IsGuided pol om1 g e0 eN ls abs1) (h2 : IsGuided pol om2 g e0 eN ls abs2)
    (hd : ∀ l ∈ ls, 0 ≤ l.2) (hom : om1 ^ 2 ≠ om2 ^ 2) :
    sumP pol om1 om2 g (bothModes e0 eN ls abs1 abs2) = 0 ∧
      sumQ pol om1 om2 g (bothModes e0 eN ls abs1 abs2) = 0 := by
  have q1 := guided_bilinear h1 h2 hd
  have q2 := congrArg conj (guided_bilinear h2 h1 hd)
  rw [map_mul, sumQ_conj, sumP_conj, map_pow, Complex.conj_ofReal] at q2
  have hne : (om2 : ℂ) ^ 2 - (om1 : ℂ) ^ 2 ≠ 0 := by
    intro h
    apply hom
    have : ((om2 ^ 2 - om1 ^ 2 : ℝ) : ℂ) = 0 := by push_cast; exact h
    rw [Complex.ofReal_eq_zero] at this
    linarith
  have hP : sumP pol om1 om2 g (bothModes e0 eN ls abs1 abs2) = 0 := by
    have : ((om2 : ℂ) ^ 2 - (om1 : ℂ) ^ 2) * sumP pol om1 om2 g (bothModes e0 eN ls abs1 abs2) = 0 := by
      linear_combination q2 - q1
    exact (mul_eq_zero.1 this).resolve_left hne
  exact ⟨hP, by rw [q1, hP, mul_zero]⟩

/-! ### Normalisation -/

theorem norm_sq_conj (z : ℂ) : ((‖z‖ ^ 2 : ℝ) : ℂ) = conj z * z := by
  rw [Complex.conj_mul']; push_cast; rfl

theorem magSq_eq (pol : Pol) (g : ℝ) (m : ModeL) (t : ℝ) : ((magSq pol g m t : ℝ) : ℂ) =
    match pol with
    | .tm => conj (fld m 1 t) * fld m 1 t
    | .te => conj m.x * m.x * (conj (fld m (-1) t) * fld m (-1) t) +
        (g : ℂ) ^ 2 * (conj (fld m 1 t) * fld m 1 t) := by
  cases pol
  · simp only [magSq, intensityTE, fieldSum_eq_fld, fieldDiff_eq_fld]
    rw [Complex.ofReal_add, Complex.ofReal_mul, norm_sq_conj, norm_sq_conj, Complex.ofReal_pow, map_mul]
    ring
  · simp only [magSq, intensityTM, fieldSum_eq_fld]
    rw [norm_sq_conj]

theorem magSq_integrable (pol : Pol) (g : ℝ) (pos : LPos) (m : ModeL) (h : Decays pos m) :
    Integrable (magSq pol g m) (layMeasure pos) := by
  have i1 := fld_mul_integrable pos m m h h (-1) (-1) (by simp)
  have i2 := fld_mul_integrable pos m m h h 1 1 (by simp)
  have : Integrable (fun t => ((magSq pol g m t : ℝ) : ℂ)) (layMeasure pos) := by
    simp only [magSq_eq]
    cases pol
    · exact (i1.const_mul _).add (i2.const_mul _)
    · exact i2
  exact this.re

theorem magSq_integral (pol : Pol) (g : ℝ) (pos : LPos) (m : ModeL) (h : Decays pos m) :
    ((∫ t, magSq pol g m t ∂(layMeasure pos) : ℝ) : ℂ) = match pol with
      | .tm => oSum pos m m
      | .te => oDiff pos m m + (g : ℂ) ^ 2 * oSum pos m m := by
  have i1 := fld_mul_integrable pos m m h h (-1) (-1) (by simp)
  have i2 := fld_mul_integrable pos m m h h 1 1 (by simp)
  rw [← integral_complex_ofReal]
  simp only [magSq_eq]
  cases pol
  · simp only [oDiff, oSum]
    rw [integral_add (i1.const_mul _) (i2.const_mul _), integral_const_mul, integral_const_mul]
  · rfl

theorem zip_mkLayers (omega g : ℝ) (stack : List (LPos × ℝ)) (abs : List (ℂ × ℂ)) :
    stack.zip (mkLayers omega g (stack.map Prod.snd) abs) =
      (stack.zip (abs.zip abs)).map fun z => (z.1, mAt omega g z.1.2 z.2.1) := by
  unfold mkLayers
  induction stack generalizing abs with
  | nil => simp
  | cons p stack ih =>
    cases abs with
    | nil => simp
    | cons ab abs => simpa [mAt] using ih abs

theorem layPairs_slab (om1 om2 g : ℝ) (stack : List (LPos × ℝ)) (abs1 abs2 : List (ℂ × ℂ)) (s t : GmeState)
    (hs : s.layers = mkLayers om1 g (stack.map Prod.snd) abs1)
    (ht : t.layers = mkLayers om2 g (stack.map Prod.snd) abs2) :
    layPairs stack (stack.map fun p => 1 / (p.2 : ℂ)) s t = (stack.zip (abs1.zip abs2)).map fun z =>
      ⟨z.1.1, z.1.2, 1 / (z.1.2 : ℂ), mAt om1 g z.1.2 z.2.1, mAt om2 g z.1.2 z.2.2⟩ := by
  unfold layPairs
  rw [hs, ht]
  unfold mkLayers
  induction stack generalizing abs1 abs2 s t with
  | nil => simp
  | cons p stack ih =>
    cases abs1 with
    | nil => simp
    | cons ab abs1 =>
      cases abs2 with
      | nil => simp
      | cons cd abs2 => simpa [mAt] using ih abs1 abs2 ⟨s.pol, 0, 0, 0, _⟩ ⟨s.pol, 0, 0, 0, _⟩ rfl rfl

/-- The form in which the modes of a polarisation are normalised. -/
noncomputable def normForm (pol : Pol) (om1 om2 g : ℝ) (Z : List ((LPos × ℝ) × (ℂ × ℂ) × (ℂ × ℂ))) : ℂ :=
  match pol with
  | .tm => sumP .tm om1 om2 g Z
  | .te => sumQ .te om1 om2 g Z

theorem ofReal_list_sum (l : List ℝ) : ((l.sum : ℝ) : ℂ) = (l.map fun (x : ℝ) => (x : ℂ)).sum := by
  induction l with
  | nil => simp
  | cons a l ih => simp [ih]

theorem zip_self_map {α : Type} (l : List α) : l.zip l = l.map fun a => (a, a) := by
  induction l with
  | nil => rfl
  | cons a l ih => simp [ih]

/-- The norm is the diagonal element of one of the two forms. -/
theorem slabNorm_eq {pol : Pol} {omega g e0 eN : ℝ} {ls : List (ℝ × ℝ)} {abs : List (ℂ × ℂ)}
    (h : IsGuided pol omega g e0 eN ls abs) (hd : ∀ l ∈ ls, 0 ≤ l.2)
    (he : ∀ p ∈ slabStack e0 eN ls, p.2 ≠ 0) :
    ((slabNorm pol g (slabStack e0 eN ls) (mkLayers omega g ((slabStack e0 eN ls).map Prod.snd) abs) : ℝ) : ℂ) =
      normForm pol omega omega g (bothModes e0 eN ls abs abs) := by
  have d1 := guided_decays h hd
  rw [← zip_proj1 _ abs abs rfl] at d1
  unfold slabNorm
  rw [zip_mkLayers, List.map_map, ofReal_list_sum, List.map_map]
  have hsnd : ∀ z ∈ bothModes e0 eN ls abs abs, z.2.1 = z.2.2 := by
    intro z hz
    have h2 := (List.of_mem_zip hz).2
    rw [zip_self_map] at h2
    obtain ⟨x, _, hx⟩ := List.mem_map.1 h2
    rw [← hx]
  have hp : ∀ z ∈ bothModes e0 eN ls abs abs, (z.1.2 : ℂ) ≠ 0 := fun z hz =>
    Complex.ofReal_ne_zero.2 (he _ (List.of_mem_zip hz).1)
  cases pol
  · simp only [normForm, sumQ]
    congr 1
    apply List.map_congr_left
    intro z hz
    simp only [Function.comp]
    rw [magSq_integral _ _ _ _ (d1 _ (List.mem_map_of_mem hz))]
    simp only [vOf, one_mul]
    rw [hsnd z hz]
  · simp only [normForm, sumP]
    congr 1
    apply List.map_congr_left
    intro z hz
    simp only [Function.comp]
    rw [magSq_integral _ _ _ _ (d1 _ (List.mem_map_of_mem hz))]
    simp only [vOf]
    rw [hsnd z hz, one_div, inv_mul_cancel₀ (hp z hz), one_mul]

/-- A mode with an amplitude in the lower cladding has a positive norm. -/
theorem slabNorm_pos {pol : Pol} {omega g e0 eN : ℝ} {ls : List (ℝ × ℝ)} {abs : List (ℂ × ℂ)}
    (h : IsGuided pol omega g e0 eN ls abs) (hd : ∀ l ∈ ls, 0 ≤ l.2) (hg : g ≠ 0)
    (h0 : abs.head? = some (0, 1)) :
    0 < slabNorm pol g (slabStack e0 eN ls) (mkLayers omega g ((slabStack e0 eN ls).map Prod.snd) abs) := by
  have d1 := guided_decays h hd
  obtain ⟨a0, rest, rfl⟩ : ∃ a0 rest, abs = a0 :: rest := by
    cases abs with
    | nil => simp at h0
    | cons a0 rest => exact ⟨a0, rest, rfl⟩
  simp only [List.head?_cons, Option.some.injEq] at h0
  have hnn : ∀ m : ModeL, ∀ t, 0 ≤ magSq pol g m t := by
    intro m t
    cases pol <;> simp only [magSq, intensityTE, intensityTM] <;> positivity
  have d0 : Decays .lower (mAt omega g e0 (0, 1)) := by
    have := d1 ((.lower, e0), a0) (by simp [slabStack])
    rwa [h0] at this
  unfold slabNorm slabStack mkLayers
  simp only [List.map_cons, List.cons_append, List.zipWith_cons_cons, List.zip_cons_cons, List.sum_cons, h0]
  apply add_pos_of_pos_of_nonneg
  · have hpos : ∀ t, 0 < magSq pol g (mAt omega g e0 (0, 1)) t := by
      intro t
      have hf : fieldSum (chi omega g e0) (0, 1) t ≠ 0 := by
        simp [fieldSum, Complex.exp_ne_zero]
      have : 0 < ‖fieldSum (chi omega g e0) (0, 1) t‖ := norm_pos_iff.2 hf
      cases pol <;> simp only [magSq, intensityTE, intensityTM, mAt] <;> positivity
    rw [show (⟨0, 1, chi omega g e0⟩ : ModeL) = mAt omega g e0 (0, 1) from rfl]
    rw [integral_pos_iff_support_of_nonneg (fun t => (hpos t).le) (magSq_integrable pol g .lower _ d0)]
    have : Function.support (magSq pol g (mAt omega g e0 (0, 1))) = Set.univ := by
      ext t; simp [(hpos t).ne']
    rw [this]
    simp [layMeasure]
  · apply List.sum_nonneg
    intro x hx
    obtain ⟨z, _, rfl⟩ := List.mem_map.1 hx
    exact integral_nonneg (hnn _)

/-! ### Scaling of the amplitudes -/

/-- Amplitudes divided by a number. -/
noncomputable def scaleAbs (c : ℝ) (abs : List (ℂ × ℂ)) : List (ℂ × ℂ) :=
  abs.map fun ab => (ab.1 / (c : ℂ), ab.2 / (c : ℂ))

theorem modeLayers_eq (omega g : ℝ) (eps : List ℝ) (abs : List (ℂ × ℂ)) (norm : ℝ) :
    modeLayers omega g eps abs norm = mkLayers omega g eps (scaleAbs (√norm) abs) := by
  unfold modeLayers mkLayers scaleAbs
  rw [List.zipWith_map_right]

theorem guided_scale {pol : Pol} {omega g e0 eN : ℝ} {ls : List (ℝ × ℝ)} {abs : List (ℂ × ℂ)}
    (h : IsGuided pol omega g e0 eN ls abs) (c : ℝ) : IsGuided pol omega g e0 eN ls (scaleAbs c abs) := by
  obtain ⟨h1, h2, h3, h4, ⟨B, h5⟩, ⟨A, h6⟩⟩ := h
  refine ⟨h1, h2, by simpa [scaleAbs] using h3, ?_, ⟨B / c, ?_⟩, ⟨A / c, ?_⟩⟩
  · unfold scaleAbs
    rw [List.zip_map_right, List.isChain_map]
    refine h4.imp ?_
    intro a b hab
    have fs : ∀ (x : ℂ) (ab : ℂ × ℂ) (t : ℝ), fieldSum x (ab.1 / (c : ℂ), ab.2 / (c : ℂ)) t = fieldSum x ab t / c := by
      intro x ab t; simp only [fieldSum]; ring
    have fd : ∀ (w x : ℂ) (ab : ℂ × ℂ) (t : ℝ),
        fieldDiff w x (ab.1 / (c : ℂ), ab.2 / (c : ℂ)) t = fieldDiff w x ab t / c := by
      intro w x ab t; simp only [fieldDiff]; ring
    simp only [Interface, Prod.map, id] at hab ⊢
    rw [fs, fs, fd, fd, hab.1, hab.2]
    exact ⟨rfl, rfl⟩
  · simp [scaleAbs, h5]
  · simp [scaleAbs, h6]

theorem fld_scale (omega g e : ℝ) (c : ℝ) (ab : ℂ × ℂ) (s : ℂ) (t : ℝ) :
    fld (mAt omega g e (ab.1 / (c : ℂ), ab.2 / (c : ℂ))) s t = fld (mAt omega g e ab) s t / c := by
  simp only [fld, mAt]; ring

theorem oSum_scale (pos : LPos) (om1 om2 g e c1 c2 : ℝ) (ab cd : ℂ × ℂ) :
    oSum pos (mAt om1 g e (ab.1 / (c1 : ℂ), ab.2 / (c1 : ℂ))) (mAt om2 g e (cd.1 / (c2 : ℂ), cd.2 / (c2 : ℂ))) =
      1 / ((c1 : ℂ) * c2) * oSum pos (mAt om1 g e ab) (mAt om2 g e cd) := by
  unfold oSum
  rw [← integral_const_mul]
  congr 1
  funext t
  rw [fld_scale, fld_scale, map_div₀, Complex.conj_ofReal]
  ring

theorem oDiff_scale (pos : LPos) (om1 om2 g e c1 c2 : ℝ) (ab cd : ℂ × ℂ) :
    oDiff pos (mAt om1 g e (ab.1 / (c1 : ℂ), ab.2 / (c1 : ℂ))) (mAt om2 g e (cd.1 / (c2 : ℂ), cd.2 / (c2 : ℂ))) =
      1 / ((c1 : ℂ) * c2) * oDiff pos (mAt om1 g e ab) (mAt om2 g e cd) := by
  have key : ∫ t, conj (fld (mAt om1 g e (ab.1 / (c1 : ℂ), ab.2 / (c1 : ℂ))) (-1) t) *
      fld (mAt om2 g e (cd.1 / (c2 : ℂ), cd.2 / (c2 : ℂ))) (-1) t ∂(layMeasure pos) =
      1 / ((c1 : ℂ) * c2) * ∫ t, conj (fld (mAt om1 g e ab) (-1) t) * fld (mAt om2 g e cd) (-1) t
        ∂(layMeasure pos) := by
    rw [← integral_const_mul]
    congr 1
    funext t
    rw [fld_scale, fld_scale, map_div₀, Complex.conj_ofReal]
    ring
  unfold oDiff
  rw [key]
  simp only [mAt]
  ring

theorem bothModes_scale (e0 eN c1 c2 : ℝ) (ls : List (ℝ × ℝ)) (abs1 abs2 : List (ℂ × ℂ)) :
    bothModes e0 eN ls (scaleAbs c1 abs1) (scaleAbs c2 abs2) = (bothModes e0 eN ls abs1 abs2).map fun z =>
      (z.1, (z.2.1.1 / (c1 : ℂ), z.2.1.2 / (c1 : ℂ)), (z.2.2.1 / (c2 : ℂ), z.2.2.2 / (c2 : ℂ))) := by
  unfold bothModes scaleAbs
  rw [List.zip_map, List.zip_map_right]
  rfl

theorem sumP_scale (pol : Pol) (om1 om2 g e0 eN c1 c2 : ℝ) (ls : List (ℝ × ℝ)) (abs1 abs2 : List (ℂ × ℂ)) :
    sumP pol om1 om2 g (bothModes e0 eN ls (scaleAbs c1 abs1) (scaleAbs c2 abs2)) =
      1 / ((c1 : ℂ) * c2) * sumP pol om1 om2 g (bothModes e0 eN ls abs1 abs2) := by
  unfold sumP
  rw [bothModes_scale, List.map_map, ← List.sum_map_mul_left]
  congr 1
  apply List.map_congr_left
  intro z _
  simp only [Function.comp, oSum_scale]
  ring

theorem sumQ_scale (pol : Pol) (om1 om2 g e0 eN c1 c2 : ℝ) (ls : List (ℝ × ℝ)) (abs1 abs2 : List (ℂ × ℂ)) :
    sumQ pol om1 om2 g (bothModes e0 eN ls (scaleAbs c1 abs1) (scaleAbs c2 abs2)) =
      1 / ((c1 : ℂ) * c2) * sumQ pol om1 om2 g (bothModes e0 eN ls abs1 abs2) := by
  unfold sumQ
  rw [bothModes_scale, List.map_map, ← List.sum_map_mul_left]
  congr 1
  apply List.map_congr_left
  intro z _
  simp only [Function.comp, oSum_scale, oDiff_scale]
  ring

/-! ### Matrix elements -/

theorem dot_pq (s t : GmeState) (hx : s.gx = t.gx) (hy : s.gy = t.gy) : dot2 s.p t.q = 0 ∧ dot2 t.p s.q = 0 := by
  simp only [dot2, GmeState.p, GmeState.q, GmeState.gk, hx, hy]
  constructor <;> ring

theorem dot_same (s t : GmeState) (hx : s.gx = t.gx) (hy : s.gy = t.gy) (hg : s.gk ≠ 0) :
    dot2 s.p t.p = 1 ∧ dot2 s.q t.q = 1 := by
  have e : t.gk = s.gk := by simp [GmeState.gk, hx, hy]
  have hsq : s.gk ^ 2 = s.gx ^ 2 + s.gy ^ 2 := Real.sq_sqrt (by positivity)
  simp only [dot2, GmeState.p, GmeState.q, e, ← hx, ← hy]
  constructor
  · field_simp; linarith
  · field_simp; linarith

/-- The form given by the matrix elements. -/
noncomputable def elemForm (pol : Pol) (om1 om2 g : ℝ) (Z : List ((LPos × ℝ) × (ℂ × ℂ) × (ℂ × ℂ))) : ℂ :=
  match pol with
  | .te => (om1 : ℂ) ^ 2 * (om2 : ℂ) ^ 2 * sumP .te om1 om2 g Z
  | .tm => sumQ .tm om1 om2 g Z

/-- The element between two guided modes with the same plane wave and polarisation. -/
theorem elem_same {pol : Pol} {om1 om2 g e0 eN : ℝ} {ls : List (ℝ × ℝ)} {abs1 abs2 : List (ℂ × ℂ)}
    (h1 : IsGuided pol om1 g e0 eN ls abs1) (h2 : IsGuided pol om2 g e0 eN ls abs2) (hd : ∀ l ∈ ls, 0 ≤ l.2)
    (he : ∀ p ∈ slabStack e0 eN ls, p.2 ≠ 0) (gx gy : ℝ) (hgg : g = √(gx ^ 2 + gy ^ 2)) (hg : g ≠ 0) :
    gmeElem ijExact (slabStack e0 eN ls) ((slabStack e0 eN ls).map fun p => 1 / (p.2 : ℂ))
      ⟨pol, gx, gy, om1, mkLayers om1 g ((slabStack e0 eN ls).map Prod.snd) abs1⟩
      ⟨pol, gx, gy, om2, mkLayers om2 g ((slabStack e0 eN ls).map Prod.snd) abs2⟩ =
      elemForm pol om1 om2 g (bothModes e0 eN ls abs1 abs2) := by
  have hdot : ∀ p l1 l2, dot2 (GmeState.p ⟨p, gx, gy, om1, l1⟩) (GmeState.p ⟨p, gx, gy, om2, l2⟩) = 1 ∧
      dot2 (GmeState.q ⟨p, gx, gy, om1, l1⟩) (GmeState.q ⟨p, gx, gy, om2, l2⟩) = 1 := fun p l1 l2 =>
    dot_same ⟨p, gx, gy, om1, l1⟩ ⟨p, gx, gy, om2, l2⟩ rfl rfl (by simpa only [GmeState.gk, ← hgg] using hg)
  have hl : abs1.length = abs2.length := by rw [h1.len, h2.len]
  have d1 := guided_decays h1 hd
  have d2 := guided_decays h2 hd
  rw [← zip_proj1 _ abs1 abs2 hl] at d1
  rw [← zip_proj2 _ abs1 abs2 hl] at d2
  have hp : ∀ z ∈ bothModes e0 eN ls abs1 abs2, (z.1.2 : ℂ) ≠ 0 := fun z hz =>
    Complex.ofReal_ne_zero.2 (he _ (List.of_mem_zip hz).1)
  rw [gmeElem_eq, layPairs_slab om1 om2 g _ abs1 abs2 _ _ rfl rfl, List.map_map]
  cases pol
  · simp only [elemForm, sumP]
    rw [← List.sum_map_mul_left]
    congr 1
    apply List.map_congr_left
    intro z hz
    have f := four_exact z.1.1 (mAt om1 g z.1.2 z.2.1) (mAt om2 g z.1.2 z.2.2)
      (d1 _ (List.mem_map_of_mem hz)) (d2 _ (List.mem_map_of_mem hz)) 1 1 (by simp)
    simp only [Function.comp, layTerm, f]
    rw [(hdot _ _ _).2]
    have := hp z hz
    simp only [vOf, oSum]
    push_cast
    field_simp
  · simp only [elemForm, sumQ]
    congr 1
    apply List.map_congr_left
    intro z hz
    have f := four_exact z.1.1 (mAt om1 g z.1.2 z.2.1) (mAt om2 g z.1.2 z.2.2)
      (d1 _ (List.mem_map_of_mem hz)) (d2 _ (List.mem_map_of_mem hz)) 1 1 (by simp)
    have f' := four_exact z.1.1 (mAt om1 g z.1.2 z.2.1) (mAt om2 g z.1.2 z.2.2)
      (d1 _ (List.mem_map_of_mem hz)) (d2 _ (List.mem_map_of_mem hz)) (-1) (-1) (by simp)
    simp only [Function.comp, layTerm, f, f']
    rw [(hdot _ _ _).1]
    simp only [vOf, oSum, oDiff, GmeState.gk, ← hgg]
    push_cast
    ring

/-- What `guided_mode_given_g` computes with for one frequency: a zero of the dispersion function below the light
lines of the claddings, not on the light line of a layer, for one layer above its light line; and the amplitudes. -/
structure SlabRoot (pol : Pol) (omega g e0 eN : ℝ) (ls : List (ℝ × ℝ)) (abs : List (ℂ × ℂ)) : Prop where
  low : e0 * omega ^ 2 < g ^ 2
  up : eN * omega ^ 2 < g ^ 2
  off : ∀ l ∈ ls, l.1 * omega ^ 2 ≠ g ^ 2
  core : ∀ l, ls = [l] → g ^ 2 < l.1 * omega ^ 2
  root : d22 pol omega g (e0 :: ls.map Prod.fst ++ [eN]) (ls.map Prod.snd) = 0
  amps : abMatrices pol omega g (e0 :: ls.map Prod.fst ++ [eN]) (ls.map Prod.snd) = .ok abs

theorem d22_of_length (pol : Pol) (omega g : ℝ) (eps ds : List ℝ) (h : eps.length ≠ 3) :
    d22 pol omega g eps ds = d22General pol omega g eps ds := by
  unfold d22
  split
  · simp at h
  · rfl

theorem slabRoot_guided {pol : Pol} {omega g e0 eN : ℝ} {ls : List (ℝ × ℝ)} {abs : List (ℂ × ℂ)}
    (h : SlabRoot pol omega g e0 eN ls abs) (hne : ls ≠ []) (h0 : e0 ≠ 0) (hN : eN ≠ 0)
    (hl : ∀ l ∈ ls, l.1 ≠ 0) :
    IsGuided pol omega g e0 eN ls abs ∧ abs.head? = some (0, 1) := by
  have hw : ∀ x ∈ e0 :: ls.map Prod.fst ++ [eN], x * omega ^ 2 ≠ g ^ 2 ∧ x ≠ 0 := by
    intro x hx
    simp only [List.cons_append, List.mem_cons, List.mem_append, List.not_mem_nil, or_false, List.mem_map] at hx
    rcases hx with rfl | ⟨l, hl', rfl⟩ | rfl
    · exact ⟨h.low.ne, h0⟩
    · exact ⟨h.off l hl', hl l hl'⟩
    · exact ⟨h.up.ne, hN⟩
  have hroot : d22General pol omega g (e0 :: ls.map Prod.fst ++ [eN]) (ls.map Prod.snd) = 0 := by
    have hr := h.root
    rcases ls with _ | ⟨l, _ | ⟨l', ls⟩⟩
    · exact absurd rfl hne
    · have := (C22_three_layers pol omega g e0 l.1 eN l.2 h.low (h.core l rfl) h.up h0 (hl l (by simp)) hN).2
      exact this.1 hr
    · rw [d22_of_length] at hr
      · exact hr
      · simp
  obtain ⟨abs', ha, hlen, hfirst, hchain, A, hlast⟩ := C25_interfaces pol omega g e0 eN ls hne hw
  have : abs' = abs := by
    have := ha.symm.trans h.amps
    exact Except.ok.inj this
  subst this
  have hfirst' : abs'.head? = some (0, 1) := by rw [List.head?_eq_getElem?]; exact hfirst
  exact ⟨⟨h.low, h.up, hlen, hchain, ⟨1, hfirst'⟩, ⟨A, by rw [hlast, hroot]⟩⟩, hfirst'⟩

/-- The normalised state made from a guided mode; the norm is the exact integral. -/
noncomputable def normState (pol : Pol) (gx gy omega e0 eN : ℝ) (ls : List (ℝ × ℝ)) (abs : List (ℂ × ℂ)) :
    GmeState :=
  slabState pol gx gy omega ((slabStack e0 eN ls).map Prod.snd) abs
    (slabNorm pol (√(gx ^ 2 + gy ^ 2)) (slabStack e0 eN ls)
      (modeLayers omega (√(gx ^ 2 + gy ^ 2)) ((slabStack e0 eN ls).map Prod.snd) abs 1))

theorem scaleAbs_one (abs : List (ℂ × ℂ)) : scaleAbs (√1) abs = abs := by
  simp [scaleAbs]

/-- **C93 (elements).** Between the normalised guided modes of an unpatterned slab with the same plane wave the
matrix elements of the guided-mode expansion are the squared frequency on the diagonal and zero for modes of
different polarisation or frequency; for any number of layers. -/
theorem C93_elements (gx gy e0 eN : ℝ) (ls : List (ℝ × ℝ)) (hne : ls ≠ []) (hd : ∀ l ∈ ls, 0 ≤ l.2)
    (h0 : e0 ≠ 0) (hN : eN ≠ 0) (hl : ∀ l ∈ ls, l.1 ≠ 0) (hg : √(gx ^ 2 + gy ^ 2) ≠ 0)
    (pol1 pol2 : Pol) (om1 om2 : ℝ) (abs1 abs2 : List (ℂ × ℂ))
    (h1 : SlabRoot pol1 om1 (√(gx ^ 2 + gy ^ 2)) e0 eN ls abs1)
    (h2 : SlabRoot pol2 om2 (√(gx ^ 2 + gy ^ 2)) e0 eN ls abs2) :
    let einv := (slabStack e0 eN ls).map fun p => 1 / (p.2 : ℂ)
    let s1 := normState pol1 gx gy om1 e0 eN ls abs1
    let s2 := normState pol2 gx gy om2 e0 eN ls abs2
    gmeElem ijExact (slabStack e0 eN ls) einv s1 s1 = ((om1 ^ 2 : ℝ) : ℂ) ∧
      (pol1 ≠ pol2 ∨ om1 ^ 2 ≠ om2 ^ 2 → gmeElem ijExact (slabStack e0 eN ls) einv s1 s2 = 0) := by
  intro einv s1 s2
  set g := √(gx ^ 2 + gy ^ 2) with hgg
  have he : ∀ p ∈ slabStack e0 eN ls, p.2 ≠ 0 := by
    intro p hp
    simp only [slabStack, List.cons_append, List.mem_cons, List.mem_append, List.not_mem_nil, or_false,
      List.mem_map] at hp
    rcases hp with rfl | ⟨l, hl', rfl⟩ | rfl
    exacts [h0, hl l hl', hN]
  obtain ⟨g1, f1⟩ := slabRoot_guided h1 hne h0 hN hl
  obtain ⟨g2, f2⟩ := slabRoot_guided h2 hne h0 hN hl
  have form : ∀ (pol : Pol) (om : ℝ) (abs : List (ℂ × ℂ)), normState pol gx gy om e0 eN ls abs =
      ⟨pol, gx, gy, om, mkLayers om g ((slabStack e0 eN ls).map Prod.snd)
        (scaleAbs (√(slabNorm pol g (slabStack e0 eN ls)
          (mkLayers om g ((slabStack e0 eN ls).map Prod.snd) abs))) abs)⟩ := by
    intro pol om abs
    unfold normState slabState
    rw [← hgg, modeLayers_eq, modeLayers_eq, scaleAbs_one]
  have hpq : ∀ p q o o' l l', dot2 (GmeState.p ⟨p, gx, gy, o, l⟩) (GmeState.q ⟨q, gx, gy, o', l'⟩) = 0 :=
    fun p q o o' l l' => (dot_pq ⟨p, gx, gy, o, l⟩ ⟨q, gx, gy, o', l'⟩ rfl rfl).1
  constructor
  · have hp := slabNorm_pos g1 hd hg f1
    have hn := slabNorm_eq g1 hd he
    simp only [s1, form]
    set N := slabNorm pol1 g (slabStack e0 eN ls) (mkLayers om1 g ((slabStack e0 eN ls).map Prod.snd) abs1)
    rw [elem_same (guided_scale g1 _) (guided_scale g1 _) hd he gx gy hgg hg]
    have hb := guided_bilinear g1 g1 hd
    have hN0 : (N : ℂ) ≠ 0 := Complex.ofReal_ne_zero.2 hp.ne'
    have hsq : ((√N : ℝ) : ℂ) * ((√N : ℝ) : ℂ) = N := by
      rw [← Complex.ofReal_mul, Real.mul_self_sqrt hp.le]
    cases pol1
    · simp only [elemForm, sumP_scale, hsq]
      simp only [normForm] at hn
      rw [hb] at hn
      have : (om1 : ℂ) ^ 2 * (1 / (N : ℂ) * sumP .te om1 om1 g (bothModes e0 eN ls abs1 abs1)) = 1 := by
        field_simp
        exact hn.symm
      push_cast
      linear_combination (om1 : ℂ) ^ 2 * this
    · simp only [elemForm, sumQ_scale, hsq]
      simp only [normForm] at hn
      rw [hb, ← hn]
      push_cast
      field_simp
  · intro hdiff
    by_cases hpol : pol1 = pol2
    · subst hpol
      have hom := hdiff.resolve_left (by simp)
      simp only [s1, s2, form]
      rw [elem_same (guided_scale g1 _) (guided_scale g2 _) hd he gx gy hgg hg]
      have ho := fun c c' => guided_orthogonal (guided_scale g1 c) (guided_scale g2 c') hd hom
      cases pol1
      · simp only [elemForm]
        rw [(ho _ _).1, mul_zero]
      · simp only [elemForm]
        exact (ho _ _).2
    · simp only [s1, s2, form]
      rw [gmeElem_eq]
      apply List.sum_eq_zero
      intro x hx
      obtain ⟨l, _, rfl⟩ := List.mem_map.1 hx
      cases pol1 <;> cases pol2 <;> first | exact absurd rfl hpol | skip
      · simp only [layTerm]
        rw [hpq]; simp
      · simp only [layTerm]
        rw [hpq]; simp

/-- One basis state of an unpatterned slab: plane wave number, plane wave, polarisation, frequency and
amplitudes. -/
structure SlabBasis where
  ig : ℕ
  gx : ℝ
  gy : ℝ
  pol : Pol
  om : ℝ
  abs : List (ℂ × ℂ)

/-- The state of a basis element. -/
noncomputable def SlabBasis.state (b : SlabBasis) (e0 eN : ℝ) (ls : List (ℝ × ℝ)) : GmeState :=
  normState b.pol b.gx b.gy b.om e0 eN ls b.abs

/-- Entries of the inverse permittivity matrices of homogeneous layers (gme.py 660-670): `1 / eps` for equal plane
waves. -/
noncomputable def homInv (e0 eN : ℝ) (ls : List (ℝ × ℝ)) (a b : SlabBasis) : List ℂ :=
  (slabStack e0 eN ls).map fun p => if a.ig = b.ig then 1 / (p.2 : ℂ) else 0

theorem gmeElem_zero (ij : LPos → ℂ → ℂ) (stack : List (LPos × ℝ)) (einv : List ℂ) (h : ∀ e ∈ einv, e = 0)
    (s t : GmeState) : gmeElem ij stack einv s t = 0 := by
  rw [gmeElem_eq]
  apply List.sum_eq_zero
  intro x hx
  obtain ⟨l, hl, rfl⟩ := List.mem_map.1 hx
  unfold layPairs at hl
  obtain ⟨z, hz, rfl⟩ := List.mem_map.1 hl
  have := h _ (List.of_mem_zip (List.of_mem_zip hz).1).2
  unfold layTerm
  rcases s.pol <;> rcases t.pol <;> simp [this]

/-- **C93 (spectrum).** The matrix of the guided-mode expansion of an unpatterned slab, completed from its upper
blocks, has exactly the frequencies of the guided modes in the basis, each as often as it occurs, whatever
eigensolver is used: the expansion does not change the modes of the slab. -/
theorem C93_spectrum (e0 eN : ℝ) (ls : List (ℝ × ℝ)) (hne : ls ≠ []) (hd : ∀ l ∈ ls, 0 ≤ l.2)
    (h0 : e0 ≠ 0) (hN : eN ≠ 0) (hl : ∀ l ∈ ls, l.1 ≠ 0) (n : ℕ) (b : ℕ → SlabBasis)
    (hb : ∀ i < n, √((b i).gx ^ 2 + (b i).gy ^ 2) ≠ 0 ∧
      SlabRoot (b i).pol (b i).om (√((b i).gx ^ 2 + (b i).gy ^ 2)) e0 eN ls (b i).abs)
    (hsame : ∀ i < n, ∀ j < n, (b i).ig = (b j).ig → (b i).gx = (b j).gx ∧ (b i).gy = (b j).gy)
    (hdiff : ∀ i < n, ∀ j < n, i ≠ j → (b i).ig = (b j).ig → (b i).pol ≠ (b j).pol ∨ (b i).om ^ 2 ≠ (b j).om ^ 2)
    (blk : ℕ → ℕ) (hblk : ∀ i j, i ≤ j → blk i ≤ blk j) (M V : Matrix (Fin n) (Fin n) ℂ) (w : Fin n → ℝ)
    (hM : ∀ i j, M i j = completeMat (blockUpper blk fun i j => gmeElem ijExact (slabStack e0 eN ls)
      (homInv e0 eN ls (b i) (b j)) ((b i).state e0 eN ls) ((b j).state e0 eN ls)) i j)
    (hw : IsEigh (M + 1) w V) :
    ((List.ofFn w).map freqOf).Perm (List.ofFn fun i : Fin n => |(b i).om| / (2 * Real.pi)) := by
  have hdiag : M = Matrix.diagonal fun i : Fin n => (((b i).om ^ 2 : ℝ) : ℂ) := by
    have elem : ∀ i < n, ∀ j < n, gmeElem ijExact (slabStack e0 eN ls)
        (homInv e0 eN ls (b i) (b j)) ((b i).state e0 eN ls) ((b j).state e0 eN ls) =
        if i = j then (((b i).om ^ 2 : ℝ) : ℂ) else 0 := by
      intro i hi j hj
      by_cases hg : (b i).ig = (b j).ig
      · have hs := hsame i hi j hj hg
        have hc := C93_elements (b i).gx (b i).gy e0 eN ls hne hd h0 hN hl (hb i hi).1 (b i).pol (b j).pol (b i).om
          (b j).om (b i).abs (b j).abs (hb i hi).2 (by rw [hs.1, hs.2]; exact (hb j hj).2)
        have hh : homInv e0 eN ls (b i) (b j) = (slabStack e0 eN ls).map fun p => 1 / (p.2 : ℂ) := by
          unfold homInv; simp only [hg, if_true]
        rw [hh]
        split
        · rename_i hij
          subst hij
          exact hc.1
        · rename_i hij
          have := hc.2 (hdiff i hi j hj hij hg)
          unfold SlabBasis.state
          rw [← hs.1, ← hs.2]
          exact this
      · rw [gmeElem_zero, if_neg (by rintro rfl; exact hg rfl)]
        intro e he
        unfold homInv at he
        simp only [hg, if_false, List.mem_map] at he
        obtain ⟨_, _, rfl⟩ := he
        rfl
    ext i j
    rw [hM, C29_blocks blk hblk, Matrix.diagonal_apply]
    have hi := i.2
    have hj := j.2
    unfold completeMat
    beta_reduce
    rcases lt_trichotomy (i : ℕ) (j : ℕ) with h | h | h
    · rw [if_pos h, if_neg h.not_gt, if_neg h.ne, elem _ hi _ hj, if_neg h.ne,
        if_neg (by rintro rfl; exact lt_irrefl _ h)]
      simp
    · have hij : i = j := Fin.ext h
      subst hij
      rw [if_neg (lt_irrefl _), if_pos rfl, elem _ hi _ hi, if_pos rfl, if_pos rfl]
      simp only [map_zero, zero_add, Complex.ofReal_re]
    · rw [if_neg h.not_gt, if_pos h, if_neg h.ne', elem _ hj _ hi, if_neg h.ne,
        if_neg (by rintro rfl; exact lt_irrefl _ h)]
      simp
  have h1 : M + 1 = Matrix.diagonal fun i : Fin n => ((((b i).om ^ 2 + 1 : ℝ)) : ℂ) := by
    rw [hdiag, ← Matrix.diagonal_one, Matrix.diagonal_add]
    congr 1
    funext i
    push_cast
    rfl
  have hp := isEigh_perm_list hw (List.ofFn fun i : Fin n => (b i).om ^ 2 + 1) (by
    rw [h1, Matrix.charpoly_diagonal, List.map_ofFn, List.prod_ofFn]; rfl)
  refine (hp.map freqOf).trans ?_
  rw [List.map_ofFn]
  apply List.Perm.of_eq
  congr 1
  funext i
  simp only [Function.comp, freqOf]
  rw [add_sub_cancel_right, abs_of_nonneg (sq_nonneg _), Real.sqrt_sq_eq_abs, div_div]

/-- A slab of permittivity 9/5 and thickness 2 in air has at the wave vector `(2 pi/3, 2 pi/3)` an even and an odd
TE mode; the frequencies are `pi sqrt(5)/3` and `2 pi sqrt(15)/9`. -/
theorem example_roots :
    (∃ abs, SlabRoot .te (√5 * Real.pi / 3) (√((2 * Real.pi / 3) ^ 2 + (2 * Real.pi / 3) ^ 2)) 1 1 [(9 / 5, 2)] abs) ∧
    (∃ abs, SlabRoot .te (√15 * (2 * Real.pi / 9)) (√((2 * Real.pi / 3) ^ 2 + (2 * Real.pi / 3) ^ 2)) 1 1
      [(9 / 5, 2)] abs) := by
  have pp := Real.pi_pos
  have pp2 : 0 < Real.pi ^ 2 := by positivity
  have g2 : √((2 * Real.pi / 3) ^ 2 + (2 * Real.pi / 3) ^ 2) ^ 2 = 8 * Real.pi ^ 2 / 9 := by
    rw [Real.sq_sqrt (by positivity)]; ring
  have o1 : (√5 * Real.pi / 3) ^ 2 = 5 * Real.pi ^ 2 / 9 := by
    rw [div_pow, mul_pow, Real.sq_sqrt (by norm_num)]; norm_num
  have o2 : (√15 * (2 * Real.pi / 9)) ^ 2 = 20 * Real.pi ^ 2 / 27 := by
    rw [mul_pow, Real.sq_sqrt (by norm_num)]; ring
  generalize √((2 * Real.pi / 3) ^ 2 + (2 * Real.pi / 3) ^ 2) = g at g2
  generalize √5 * Real.pi / 3 = w1 at o1
  generalize √15 * (2 * Real.pi / 9) = w2 at o2
  have s3 : √3 ^ 2 = 3 := Real.sq_sqrt (by norm_num)
  have key : ∀ w b k : ℝ, 0 ≤ b → 0 ≤ k → g ^ 2 - 1 * w ^ 2 = k ^ 2 → -g ^ 2 + 9 / 5 * w ^ 2 = b ^ 2 →
      2 * b * k * Real.cos (b * 2) - (b ^ 2 - k ^ 2) * Real.sin (b * 2) = 0 →
      d22Three .te w g 1 (9 / 5) 1 2 = 0 := by
    intro w b k hb hk h1 h2 h3
    simp only [d22Three, chis3, h1, h2, Real.sqrt_sq hb, Real.sqrt_sq hk]
    have h3' : ((2 * b * k * Real.cos (b * 2) - (b ^ 2 - k ^ 2) * Real.sin (b * 2) : ℝ) : ℂ) = 0 := by
      rw [h3]; rfl
    push_cast at h3' ⊢
    have I2 := Complex.I_sq
    linear_combination h3' + (-(2 * (b : ℂ) * k * Complex.cos (b * 2)) - (k : ℂ) ^ 2 * Complex.sin (b * 2)) * I2
  have amps : ∀ w, 1 * w ^ 2 ≠ g ^ 2 → 9 / 5 * w ^ 2 ≠ g ^ 2 → ∃ abs,
      abMatrices .te w g ((1 : ℝ) :: [((9 / 5 : ℝ), (2 : ℝ))].map Prod.fst ++ [1])
        ([((9 / 5 : ℝ), (2 : ℝ))].map Prod.snd) = .ok abs := by
    intro w h1 h2
    obtain ⟨abs, ha, _⟩ := C25_interfaces .te w g 1 1 [(9 / 5, 2)] (by simp) (by
      intro x hx
      simp only [List.map_cons, List.map_nil, List.cons_append, List.nil_append, List.mem_cons,
        List.not_mem_nil, or_false] at hx
      rcases hx with rfl | rfl | rfl
      exacts [⟨h1, by norm_num⟩, ⟨h2, by norm_num⟩, ⟨h1, by norm_num⟩])
    exact ⟨abs, ha⟩
  have c1 : Real.cos (Real.pi / 3 * 2) = -(1 / 2) := by
    rw [show Real.pi / 3 * 2 = Real.pi - Real.pi / 3 by ring, Real.cos_pi_sub, Real.cos_pi_div_three]
  have d1 : Real.sin (Real.pi / 3 * 2) = √3 / 2 := by
    rw [show Real.pi / 3 * 2 = Real.pi - Real.pi / 3 by ring, Real.sin_pi_sub, Real.sin_pi_div_three]
  have c2 : Real.cos (2 * Real.pi / 3 * 2) = -(1 / 2) := by
    rw [show 2 * Real.pi / 3 * 2 = Real.pi / 3 + Real.pi by ring, Real.cos_add_pi, Real.cos_pi_div_three]
  have d2 : Real.sin (2 * Real.pi / 3 * 2) = -(√3 / 2) := by
    rw [show 2 * Real.pi / 3 * 2 = Real.pi / 3 + Real.pi by ring, Real.sin_add_pi, Real.sin_pi_div_three]
  constructor
  · obtain ⟨abs, ha⟩ := amps w1 (by rw [o1, g2]; intro h; linarith) (by rw [o1, g2]; intro h; linarith)
    refine ⟨abs, ⟨by rw [o1, g2]; linarith, by rw [o1, g2]; linarith, ?_, ?_, ?_, ha⟩⟩
    · intro l hl
      rw [List.mem_singleton.1 hl, o1, g2]; intro h; dsimp only at h; linarith
    · intro l hl
      rw [← (List.cons.inj hl).1, o1, g2]; dsimp only; linarith
    · refine key w1 (Real.pi / 3) (√3 * (Real.pi / 3)) (by positivity) (by positivity) ?_ ?_ ?_
      · rw [o1, g2, mul_pow, s3]; ring
      · rw [o1, g2]; ring
      · rw [c1, d1, mul_pow, s3]; ring
  · obtain ⟨abs, ha⟩ := amps w2 (by rw [o2, g2]; intro h; linarith) (by rw [o2, g2]; intro h; linarith)
    refine ⟨abs, ⟨by rw [o2, g2]; linarith, by rw [o2, g2]; linarith, ?_, ?_, ?_, ha⟩⟩
    · intro l hl
      rw [List.mem_singleton.1 hl, o2, g2]; intro h; dsimp only at h; linarith
    · intro l hl
      rw [← (List.cons.inj hl).1, o2, g2]; dsimp only; linarith
    · refine key w2 (2 * Real.pi / 3) (√3 * (2 * Real.pi / 9)) (by positivity) (by positivity) ?_ ?_ ?_
      · rw [o2, g2, mul_pow, s3]; ring
      · rw [o2, g2]; ring
      · rw [c2, d2, mul_pow, s3]; ring

/-- The two modes of that slab: one squared frequency each and no coupling. -/
example : ∃ abs1 abs2,
    let st := fun om abs => normState .te (2 * Real.pi / 3) (2 * Real.pi / 3) om 1 1 [(9 / 5, 2)] abs
    let el := gmeElem ijExact (slabStack 1 1 [(9 / 5, 2)]) ((slabStack 1 1 [(9 / 5, 2)]).map fun p => 1 / (p.2 : ℂ))
    el (st (√5 * Real.pi / 3) abs1) (st (√5 * Real.pi / 3) abs1) = (((√5 * Real.pi / 3) ^ 2 : ℝ) : ℂ) ∧
      el (st (√5 * Real.pi / 3) abs1) (st (√15 * (2 * Real.pi / 9)) abs2) = 0 := by
  obtain ⟨⟨abs1, h1⟩, ⟨abs2, h2⟩⟩ := example_roots
  refine ⟨abs1, abs2, ?_⟩
  have hp := Real.pi_pos
  have h := C93_elements (2 * Real.pi / 3) (2 * Real.pi / 3) 1 1 [(9 / 5, 2)] (by simp) (by simp) one_ne_zero
    one_ne_zero (by simp) (Real.sqrt_pos.2 (by positivity)).ne' .te .te _ _ abs1 abs2 h1 h2
  refine ⟨h.1, h.2 (.inr ?_)⟩
  rw [mul_pow, div_pow, mul_pow, Real.sq_sqrt (by norm_num), Real.sq_sqrt (by norm_num)]
  intro h
  have : 0 < Real.pi ^ 2 := by positivity
  nlinarith

/-- The spectrum of the expansion in these two modes. -/
example (V : Matrix (Fin 2) (Fin 2) ℂ) (w : Fin 2 → ℝ) : ∃ abs1 abs2, ∃ b : ℕ → SlabBasis,
    (b 0 = ⟨0, 2 * Real.pi / 3, 2 * Real.pi / 3, .te, √5 * Real.pi / 3, abs1⟩ ∧
      b 1 = ⟨0, 2 * Real.pi / 3, 2 * Real.pi / 3, .te, √15 * (2 * Real.pi / 9), abs2⟩) ∧
    (IsEigh ((Matrix.of fun i j : Fin 2 => completeMat (blockUpper id fun i j =>
        gmeElem ijExact (slabStack 1 1 [(9 / 5, 2)]) (homInv 1 1 [(9 / 5, 2)] (b i) (b j))
          ((b i).state 1 1 [(9 / 5, 2)]) ((b j).state 1 1 [(9 / 5, 2)])) i j) + 1) w V →
      ((List.ofFn w).map freqOf).Perm [|√5 * Real.pi / 3| / (2 * Real.pi),
        |√15 * (2 * Real.pi / 9)| / (2 * Real.pi)]) := by
  obtain ⟨⟨abs1, h1⟩, ⟨abs2, h2⟩⟩ := example_roots
  have hp := Real.pi_pos
  have hne : (√5 * Real.pi / 3) ^ 2 ≠ (√15 * (2 * Real.pi / 9)) ^ 2 := by
    rw [mul_pow, div_pow, mul_pow, Real.sq_sqrt (by norm_num), Real.sq_sqrt (by norm_num)]
    intro h
    have : 0 < Real.pi ^ 2 := by positivity
    nlinarith
  refine ⟨abs1, abs2, fun i => if i = 0 then ⟨0, 2 * Real.pi / 3, 2 * Real.pi / 3, .te, √5 * Real.pi / 3, abs1⟩
    else ⟨0, 2 * Real.pi / 3, 2 * Real.pi / 3, .te, √15 * (2 * Real.pi / 9), abs2⟩, ⟨by simp, by simp⟩, ?_⟩
  intro hw
  have h := C93_spectrum 1 1 [(9 / 5, 2)] (by simp) (by simp) one_ne_zero one_ne_zero (by simp) 2
    (fun i => if i = 0 then ⟨0, 2 * Real.pi / 3, 2 * Real.pi / 3, .te, √5 * Real.pi / 3, abs1⟩
      else ⟨0, 2 * Real.pi / 3, 2 * Real.pi / 3, .te, √15 * (2 * Real.pi / 9), abs2⟩) (by
        intro i _
        have hg : √((2 * Real.pi / 3) ^ 2 + (2 * Real.pi / 3) ^ 2) ≠ 0 := (Real.sqrt_pos.2 (by positivity)).ne'
        split
        · exact ⟨hg, h1⟩
        · exact ⟨hg, h2⟩) (by intro i _ j _ _; split <;> split <;> exact ⟨rfl, rfl⟩) (by
        intro i hi j hj hij _
        right
        interval_cases i <;> interval_cases j
        · exact absurd rfl hij
        · exact hne
        · exact hne.symm
        · exact absurd rfl hij) id (fun _ _ h => h) _ V w (fun i j => rfl) hw
  simpa [List.ofFn_succ] using h

end Legume
