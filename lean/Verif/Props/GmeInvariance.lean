import Verif.Lemmas.GmeInvariance
import Verif.Props.GmeSim

/-!
# Guided-mode frequencies of reversed and subdivided stacks
-/
namespace Legume

open Complex Spec MeasureTheory
open scoped ComplexConjugate

theorem mkLayers_flip (omega g : ℝ) (eps : List ℝ) (abs : List (ℂ × ℂ)) (u : ℂ) (h : eps.length = abs.length) :
    mkLayers omega g eps.reverse (mulAbs u (flipAbs abs)) = ((mkLayers omega g eps abs).map (flipMode u)).reverse := by
  unfold mkLayers mulAbs flipAbs
  simp only [← List.map_uncurry_zip_eq_zipWith]
  rw [List.map_reverse, List.map_map, zip_reverse_of_length _ _ (by simp [h]), List.zip_map_right, List.map_reverse,
    List.map_map, List.map_map]
  rfl

theorem normState_eq (pol : Pol) (gx gy om e0 eN : ℝ) (ls : List (ℝ × ℝ)) (abs : List (ℂ × ℂ)) :
    normState pol gx gy om e0 eN ls abs =
      ⟨pol, gx, gy, om, mkLayers om (√(gx ^ 2 + gy ^ 2)) ((slabStack e0 eN ls).map Prod.snd)
        (scaleAbs (√(slabNorm pol (√(gx ^ 2 + gy ^ 2)) (slabStack e0 eN ls)
          (mkLayers om (√(gx ^ 2 + gy ^ 2)) ((slabStack e0 eN ls).map Prod.snd) abs))) abs)⟩ := by
  unfold normState slabState
  rw [modeLayers_eq, modeLayers_eq, scaleAbs_one]

theorem mkLayers_length (omega g : ℝ) (eps : List ℝ) (abs : List (ℂ × ℂ)) (h : eps.length = abs.length) :
    (mkLayers omega g eps abs).length = eps.length := by
  simp [mkLayers, h]

theorem normState_length {pol : Pol} {gx gy om e0 eN : ℝ} {ls : List (ℝ × ℝ)} {abs : List (ℂ × ℂ)}
    (h : abs.length = ls.length + 2) :
    (normState pol gx gy om e0 eN ls abs).layers.length = (slabStack e0 eN ls).length := by
  rw [normState_eq]
  simp only
  rw [mkLayers_length _ _ _ _ (by simp [scaleAbs, slabStack_length, h]), List.length_map]

/-- The guided modes of the reversed stack are the reflected modes, up to a phase. -/
theorem normState_flip {pol : Pol} {gx gy om e0 eN : ℝ} {ls : List (ℝ × ℝ)} {abs abs' : List (ℂ × ℂ)} (hne : ls ≠ [])
    (hd : ∀ l ∈ ls, 0 ≤ l.2) (h0 : e0 ≠ 0) (hN : eN ≠ 0) (hl : ∀ l ∈ ls, l.1 ≠ 0) (hg : √(gx ^ 2 + gy ^ 2) ≠ 0)
    (h : SlabRoot pol om (√(gx ^ 2 + gy ^ 2)) e0 eN ls abs)
    (h' : SlabRoot pol om (√(gx ^ 2 + gy ^ 2)) eN e0 ls.reverse abs') :
    ∃ u : ℂ, u * conj u = 1 ∧ (normState pol gx gy om eN e0 ls.reverse abs').layers =
      ((normState pol gx gy om e0 eN ls abs).layers.map (flipMode u)).reverse := by
  set g := √(gx ^ 2 + gy ^ 2) with hgg
  obtain ⟨G, f⟩ := slabRoot_guided h hne h0 hN hl
  obtain ⟨G', f'⟩ := slabRoot_guided h' (by simpa using hne) hN h0 (by simpa using hl)
  have hpos := slabNorm_pos G hd hg f
  obtain ⟨A, hA⟩ := (guided_flip G).first
  have key := guided_unique h0 (by simpa using hl) (by simpa using h.off) G' (guided_flip G) 1 A f' hA one_ne_zero
  rw [div_one] at key
  have hA0 : A ≠ 0 := by
    rintro rfl
    have e := congrArg List.getLast? key
    rw [flipAbs, List.getLast?_reverse, List.head?_map, f, mulAbs, List.getLast?_map] at e
    cases hq : abs'.getLast? with
    | none => simp [hq] at e
    | some q => simp [hq] at e
  have habs' : abs' = mulAbs A⁻¹ (flipAbs abs) := by
    rw [key, mulAbs, mulAbs, List.map_map]
    conv_lhs => rw [← List.map_id abs']
    refine List.map_congr_left fun x _ => ?_
    simp [hA0]
  set c := A⁻¹ with hc
  have hc0 : c ≠ 0 := inv_ne_zero hA0
  have hsnd : (slabStack eN e0 ls.reverse).map Prod.snd = ((slabStack e0 eN ls).map Prod.snd).reverse := by
    rw [slabStack_flip, List.map_reverse, List.map_map]; rfl
  have hlen : ((slabStack e0 eN ls).map Prod.snd).length = abs.length := by
    rw [List.length_map, slabStack_length, G.len]
  set N := slabNorm pol g (slabStack e0 eN ls) (mkLayers om g ((slabStack e0 eN ls).map Prod.snd) abs) with hNN
  have hnorm : slabNorm pol g (slabStack eN e0 ls.reverse)
      (mkLayers om g ((slabStack eN e0 ls.reverse).map Prod.snd) abs') = ‖c‖ ^ 2 * N := by
    rw [hsnd, habs', mkLayers_flip _ _ _ _ _ hlen, slabStack_flip, slabNorm_flip]
    rw [mkLayers_length _ _ _ _ hlen, List.length_map]
  have hcn : (‖c‖ : ℂ) ≠ 0 := by simpa using hc0
  refine ⟨c / ‖c‖, ?_, ?_⟩
  · rw [map_div₀, Complex.conj_ofReal, div_mul_div_comm, Complex.mul_conj']
    field_simp
  · rw [normState_eq, normState_eq]
    simp only
    rw [← hgg, ← hNN, hnorm, Real.sqrt_mul (by positivity), Real.sqrt_sq (norm_nonneg _), hsnd,
      ← mkLayers_flip _ _ _ _ _ (by simpa [scaleAbs] using hlen), habs']
    congr 1
    have hsN : ((√N : ℝ) : ℂ) ≠ 0 := by
      simpa using (Real.sqrt_pos.2 hpos).ne'
    simp only [scaleAbs, mulAbs, flipAbs, List.map_map, List.map_reverse]
    congr 1
    refine List.map_congr_left fun x _ => ?_
    simp only [Function.comp, Prod.swap]
    push_cast
    refine Prod.ext ?_ ?_ <;> simp only <;> field_simp

/-- A root for a stack is a root for the reversed stack. -/
theorem slabRoot_flip {pol : Pol} {om g e0 eN : ℝ} {ls : List (ℝ × ℝ)} {abs : List (ℂ × ℂ)} (hne : ls ≠ [])
    (h0 : e0 ≠ 0) (hN : eN ≠ 0) (hl : ∀ l ∈ ls, l.1 ≠ 0) (h : SlabRoot pol om g e0 eN ls abs) :
    ∃ abs', SlabRoot pol om g eN e0 ls.reverse abs' := by
  have hw : ∀ x ∈ e0 :: ls.map Prod.fst ++ [eN], x * om ^ 2 ≠ g ^ 2 ∧ x ≠ 0 := by
    intro x hx
    simp only [List.cons_append, List.mem_cons, List.mem_append, List.not_mem_nil, or_false, List.mem_map] at hx
    rcases hx with rfl | ⟨l, hl', rfl⟩ | rfl
    · exact ⟨h.low.ne, h0⟩
    · exact ⟨h.off l hl', hl l hl'⟩
    · exact ⟨h.up.ne, hN⟩
  have e1 : (e0 :: ls.map Prod.fst ++ [eN]).reverse = eN :: ls.reverse.map Prod.fst ++ [e0] := by simp
  have e2 : (ls.map Prod.snd).reverse = ls.reverse.map Prod.snd := by simp
  have hw' : ∀ x ∈ eN :: ls.reverse.map Prod.fst ++ [e0], x * om ^ 2 ≠ g ^ 2 ∧ x ≠ 0 := by
    intro x hx
    rw [← e1, List.mem_reverse] at hx
    exact hw x hx
  obtain ⟨abs', ha, -⟩ := C25_interfaces pol om g eN e0 ls.reverse (by simpa using hne) hw'
  refine ⟨abs', h.up, h.low, by simpa using h.off, ?_, ?_, ha⟩
  · intro l hl'
    exact h.core l (by simpa using congrArg List.reverse hl')
  · rw [← e1, ← e2]
    exact (C24_reverse_zeros pol om g e0 eN ls hw).2 h.root

/-- The matrix that is diagonalised for a basis of exact guided modes: entries with the exact integrals over the layers
(gme.py 585-643), `einv i j` being the entries of the inverse permittivity matrices of the layers for the plane waves of
the elements `i` and `j`. -/
noncomputable def exactMat (n : ℕ) (e0 eN : ℝ) (ls : List (ℝ × ℝ)) (b : ℕ → SlabBasis) (einv : ℕ → ℕ → List ℂ)
    (blk : ℕ → ℕ) : Matrix (Fin n) (Fin n) ℂ :=
  Matrix.of fun i j : Fin n => completeMat (blockUpper blk fun i j => gmeElem ijExact (slabStack e0 eN ls)
    (einv i j) ((b i).state e0 eN ls) ((b j).state e0 eN ls)) i j

/-- **C96 (upside down).** Turning a structure upside down, patterning included, leaves the frequencies unchanged: the
eigenvalues, and with them everything that `run` reports about them, are the same for the reversed stack with the
guided modes of the reversed stack. -/
theorem C96_upside_down (argsort : List ℝ → List ℕ) (eigh : ∀ n, Matrix (Fin n) (Fin n) ℂ → Fin n → ℝ)
    (he : SortedEigh eigh) (e0 eN : ℝ) (ls : List (ℝ × ℝ)) (hne : ls ≠ []) (hd : ∀ l ∈ ls, 0 ≤ l.2)
    (h0 : e0 ≠ 0) (hN : eN ≠ 0) (hl : ∀ l ∈ ls, l.1 ≠ 0) (n : ℕ) (b b' : ℕ → SlabBasis)
    (hb : ∀ i < n, √((b i).gx ^ 2 + (b i).gy ^ 2) ≠ 0 ∧
      SlabRoot (b i).pol (b i).om (√((b i).gx ^ 2 + (b i).gy ^ 2)) e0 eN ls (b i).abs)
    (hb' : ∀ i < n, SlabRoot (b' i).pol (b' i).om (√((b' i).gx ^ 2 + (b' i).gy ^ 2)) eN e0 ls.reverse (b' i).abs)
    (hsame : ∀ i < n, (b' i).pol = (b i).pol ∧ (b' i).gx = (b i).gx ∧ (b' i).gy = (b i).gy ∧ (b' i).om = (b i).om)
    (einv : ℕ → ℕ → List ℂ) (hlen : ∀ i j, (einv i j).length = ls.length + 2) (blk : ℕ → ℕ) (sigma : ℝ)
    (numeig : ℕ) :
    List.ofFn (eigh n (exactMat n eN e0 ls.reverse b' (fun i j => (einv i j).reverse) blk + 1)) =
      List.ofFn (eigh n (exactMat n e0 eN ls b einv blk + 1)) ∧
    solveFull argsort (List.ofFn
        (eigh n (exactMat n eN e0 ls.reverse b' (fun i j => (einv i j).reverse) blk + 1))) sigma numeig =
      solveFull argsort (List.ofFn (eigh n (exactMat n e0 eN ls b einv blk + 1))) sigma numeig := by
  have hev : List.ofFn (eigh n (exactMat n eN e0 ls.reverse b' (fun i j => (einv i j).reverse) blk + 1)) =
      List.ofFn (eigh n (exactMat n e0 eN ls b einv blk + 1)) := by
    have hu : ∀ i, ∃ u : ℂ, u * conj u = 1 ∧ (i < n → ((b' i).state eN e0 ls.reverse).layers =
        (((b i).state e0 eN ls).layers.map (flipMode u)).reverse) := by
      intro i
      by_cases hi : i < n
      · obtain ⟨u, h1, h2⟩ := normState_flip (pol := (b i).pol) (gx := (b i).gx) (gy := (b i).gy) (om := (b i).om)
          hne hd h0 hN hl (hb i hi).1 (hb i hi).2 (abs' := (b' i).abs) (by
            have := hb' i hi
            rw [(hsame i hi).1, (hsame i hi).2.1, (hsame i hi).2.2.1, (hsame i hi).2.2.2] at this
            exact this)
        refine ⟨u, h1, fun _ => ?_⟩
        rw [SlabBasis.state, (hsame i hi).1, (hsame i hi).2.1, (hsame i hi).2.2.1, (hsame i hi).2.2.2]
        exact h2
      · exact ⟨1, by simp, fun h => absurd h hi⟩
    choose u hu1 hu2 using hu
    have hsgn : ∀ p : Pol, flipSign p * flipSign p = 1 ∧ conj (flipSign p) = flipSign p := by
      intro p; cases p <;> simp [flipSign]
    have hfields : ∀ i < n, ((b' i).state eN e0 ls.reverse).pol = ((b i).state e0 eN ls).pol ∧
        ((b' i).state eN e0 ls.reverse).gx = ((b i).state e0 eN ls).gx ∧
        ((b' i).state eN e0 ls.reverse).gy = ((b i).state e0 eN ls).gy ∧
        ((b' i).state eN e0 ls.reverse).om = ((b i).state e0 eN ls).om := fun i hi => hsame i hi
    have hlay : ∀ i < n, ((b i).state e0 eN ls).layers.length = (slabStack e0 eN ls).length := fun i hi =>
      normState_length (slabRoot_guided (hb i hi).2 hne h0 hN hl).1.len
    have hdd : ∀ i, (flipSign (b i).pol * conj (u i)) * conj (flipSign (b i).pol * conj (u i)) = 1 := by
      intro i
      rw [map_mul, (hsgn _).2, Complex.conj_conj]
      linear_combination (u i * conj (u i)) * (hsgn (b i).pol).1 + hu1 i
    refine sortedEigh_eq he _ _ ((completeMat_hermitian _ _).add Matrix.isHermitian_one)
      ((completeMat_hermitian _ _).add Matrix.isHermitian_one) ?_
    refine unit_phases_charpoly (fun i : Fin n => flipSign (b i).pol * conj (u i)) (fun i => hdd i) _ _ ?_
    intro i j
    refine completeMat_phases _ _ (fun i => flipSign (b i).pol * conj (u i)) hdd n ?_ i j i.2 j.2
    intro i hi j hj
    refine blockUpper_phases blk _ _ (fun i => flipSign (b i).pol * conj (u i)) n ?_ i j hi hj
    intro i hi j hj
    rw [slabStack_flip, gmeElem_flip ijExact ijExact_flip (slabStack e0 eN ls) (einv i j) ((b i).state e0 eN ls)
      ((b j).state e0 eN ls) _ _ (by rw [hlen, slabStack_length]) (hlay i hi) (hlay j hj) (hfields i hi)
      (hfields j hj) (u i) (u j) (hu2 i hi) (hu2 j hj), map_mul, (hsgn _).2, Complex.conj_conj]
    change conj (u i) * u j * (flipSign (b i).pol * flipSign (b j).pol) * _ = _
    ring
  exact ⟨hev, by rw [hev]⟩

/-- **C96 (modes).** The reversed stack has the same guided modes: every root of the dispersion relation is one of the
reversed stack, so that a basis as in `C96_upside_down` exists. -/
theorem C96_basis (e0 eN : ℝ) (ls : List (ℝ × ℝ)) (hne : ls ≠ []) (h0 : e0 ≠ 0) (hN : eN ≠ 0)
    (hl : ∀ l ∈ ls, l.1 ≠ 0) (n : ℕ) (b : ℕ → SlabBasis)
    (hb : ∀ i < n, SlabRoot (b i).pol (b i).om (√((b i).gx ^ 2 + (b i).gy ^ 2)) e0 eN ls (b i).abs) :
    ∃ b' : ℕ → SlabBasis,
      (∀ i < n, SlabRoot (b' i).pol (b' i).om (√((b' i).gx ^ 2 + (b' i).gy ^ 2)) eN e0 ls.reverse (b' i).abs) ∧
      ∀ i < n, (b' i).pol = (b i).pol ∧ (b' i).gx = (b i).gx ∧ (b' i).gy = (b i).gy ∧ (b' i).om = (b i).om := by
  have h : ∀ i, ∃ abs', i < n →
      SlabRoot (b i).pol (b i).om (√((b i).gx ^ 2 + (b i).gy ^ 2)) eN e0 ls.reverse abs' := by
    intro i
    by_cases hi : i < n
    · obtain ⟨a, ha⟩ := slabRoot_flip hne h0 hN hl (hb i hi)
      exact ⟨a, fun _ => ha⟩
    · exact ⟨[], fun h => absurd h hi⟩
  choose a ha using h
  exact ⟨fun i => { b i with abs := a i }, fun i hi => ha i hi, fun i _ => ⟨rfl, rfl, rfl, rfl⟩⟩

/-- An asymmetric slab: permittivity 5 and thickness `7 pi/12` between 3 and 1, with a TE mode of wave number 2 and
frequency 1. -/
theorem asymmetric_root : ∃ abs, SlabRoot .te 1 2 3 1 [(5, 7 * Real.pi / 12)] abs := by
  have hp := Real.pi_pos
  have hw : ∀ x ∈ (3 : ℝ) :: [((5 : ℝ), 7 * Real.pi / 12)].map Prod.fst ++ [1], x * 1 ^ 2 ≠ (2 : ℝ) ^ 2 ∧ x ≠ 0 := by
    intro x hx
    simp only [List.map_cons, List.map_nil, List.cons_append, List.nil_append, List.mem_cons, List.not_mem_nil,
      or_false] at hx
    rcases hx with rfl | rfl | rfl <;> norm_num
  obtain ⟨abs, ha, -⟩ := C25_interfaces .te 1 2 3 1 [(5, 7 * Real.pi / 12)] (by simp) hw
  refine ⟨abs, by norm_num, by norm_num, ?_, ?_, ?_, ha⟩
  · intro l hl
    rw [List.mem_singleton.1 hl]; norm_num
  · intro l hl
    rw [← (List.cons.inj hl).1]; norm_num
  · change d22Three .te 1 2 3 5 1 (7 * Real.pi / 12) = 0
    have s3 : ((√3 : ℝ) : ℂ) ^ 2 = 3 := by
      rw [← Complex.ofReal_pow, Real.sq_sqrt (by norm_num)]; norm_num
    have hang : 7 * Real.pi / 12 = Real.pi / 3 + Real.pi / 4 := by ring
    have c : Complex.cos ((7 * Real.pi / 12 : ℝ) : ℂ) = ((1 / 2 * (√2 / 2) - √3 / 2 * (√2 / 2) : ℝ) : ℂ) := by
      rw [← Complex.ofReal_cos, hang, Real.cos_add, Real.cos_pi_div_three, Real.cos_pi_div_four,
        Real.sin_pi_div_three, Real.sin_pi_div_four]
    have d : Complex.sin ((7 * Real.pi / 12 : ℝ) : ℂ) = ((√3 / 2 * (√2 / 2) + 1 / 2 * (√2 / 2) : ℝ) : ℂ) := by
      rw [← Complex.ofReal_sin, hang, Real.sin_add, Real.cos_pi_div_three, Real.cos_pi_div_four,
        Real.sin_pi_div_three, Real.sin_pi_div_four]
    simp only [d22Three, chis3]
    rw [show (2 : ℝ) ^ 2 - 3 * 1 ^ 2 = 1 by norm_num, show -(2 : ℝ) ^ 2 + 5 * 1 ^ 2 = 1 by norm_num,
      show (2 : ℝ) ^ 2 - 1 * 1 ^ 2 = 3 by norm_num, Real.sqrt_one, Complex.ofReal_one, one_mul, one_mul, c, d]
    push_cast
    linear_combination (-(1 + (√3 : ℂ)) * (1 / 2 * (√2 / 2) - √3 / 2 * (√2 / 2)) -
      √3 * (√3 / 2 * (√2 / 2) + 1 / 2 * (√2 / 2))) * Complex.I_sq

/-- Two plane waves of that slab coupled by a pattern: the structure upside down has the same eigenvalues. -/
example (eigh : ∀ n, Matrix (Fin n) (Fin n) ℂ → Fin n → ℝ) (he : SortedEigh eigh) (a b c d e f : ℂ) :
    ∃ abs abs', SlabRoot .te 1 2 3 1 [(5, 7 * Real.pi / 12)] abs ∧ SlabRoot .te 1 2 1 3 [(5, 7 * Real.pi / 12)] abs' ∧
      List.ofFn (eigh 2 (exactMat 2 1 3 [(5, 7 * Real.pi / 12)]
          (fun i => if i = 0 then ⟨0, 2, 0, .te, 1, abs'⟩ else ⟨1, 0, 2, .te, 1, abs'⟩)
          (fun i j => (if i = j then [a, b, c] else [d, e, f]).reverse) (fun _ => 0) + 1)) =
        List.ofFn (eigh 2 (exactMat 2 3 1 [(5, 7 * Real.pi / 12)]
          (fun i => if i = 0 then ⟨0, 2, 0, .te, 1, abs⟩ else ⟨1, 0, 2, .te, 1, abs⟩)
          (fun i j => if i = j then [a, b, c] else [d, e, f]) (fun _ => 0) + 1)) := by
  obtain ⟨abs, h⟩ := asymmetric_root
  obtain ⟨abs', h'⟩ := slabRoot_flip (by simp) (by norm_num) one_ne_zero (by simp) h
  refine ⟨abs, abs', h, h', ?_⟩
  have g1 : √((2 : ℝ) ^ 2 + 0 ^ 2) = 2 := by
    rw [show (2 : ℝ) ^ 2 + 0 ^ 2 = 2 ^ 2 by norm_num, Real.sqrt_sq (by norm_num)]
  have g2 : √((0 : ℝ) ^ 2 + 2 ^ 2) = 2 := by
    rw [show (0 : ℝ) ^ 2 + 2 ^ 2 = 2 ^ 2 by norm_num, Real.sqrt_sq (by norm_num)]
  refine (C96_upside_down (fun l => List.range l.length) eigh he 3 1 [(5, 7 * Real.pi / 12)] (by simp)
    (by simp; positivity) (by norm_num) one_ne_zero (by simp) 2 _ _ ?_ ?_ ?_ _ ?_ _ 0 0).1
  · intro i _
    split <;> simp only [g1, g2] <;> exact ⟨by norm_num, h⟩
  · intro i _
    split <;> simp only [g1, g2] <;> exact h'
  · intro i _
    split <;> exact ⟨rfl, rfl, rfl, rfl⟩
  · intro i j
    split <;> rfl

/-- A list with its entry number `k` written twice. -/
def twiceAt {α : Type} (k : ℕ) (l : List α) : List α := l.take (k + 1) ++ l.drop k

theorem twiceAt_append {α : Type} (l1 l2 : List α) (x : α) :
    twiceAt l1.length (l1 ++ x :: l2) = l1 ++ x :: x :: l2 := by
  unfold twiceAt
  simp [List.take_append, List.drop_append]

theorem split_at_length {α : Type} (l : List α) (k : ℕ) (h : k < l.length) :
    ∃ l1 x l2, l = l1 ++ x :: l2 ∧ l1.length = k :=
  ⟨l.take k, l[k], l.drop (k + 1), by simp, by simp [h.le]⟩

theorem slabStack_split (e0 eN : ℝ) (l1 l2 : List (ℝ × ℝ)) :
    slabStack e0 eN (l1 ++ l2) = ((.lower, e0) :: l1.map fun l => (.inner l.2, l.1)) ++
      ((l2.map fun l => (.inner l.2, l.1)) ++ [(.upper, eN)]) := by
  simp [slabStack]

theorem mkLayers_append (omega g : ℝ) (e1 e2 : List ℝ) (a1 a2 : List (ℂ × ℂ)) (h : e1.length = a1.length) :
    mkLayers omega g (e1 ++ e2) (a1 ++ a2) = mkLayers omega g e1 a1 ++ mkLayers omega g e2 a2 := by
  unfold mkLayers
  rw [List.zipWith_append h]

/-- The guided modes of the subdivided stack are those of the stack. -/
theorem normState_split {pol : Pol} {gx gy om e0 eN e d1 d2 : ℝ} {l1 l2 : List (ℝ × ℝ)} {abs abs' : List (ℂ × ℂ)}
    (h1 : 0 ≤ d1) (h2 : 0 ≤ d2) (h0 : e0 ≠ 0) (hN : eN ≠ 0) (hl : ∀ l ∈ l1 ++ (e, d1 + d2) :: l2, l.1 ≠ 0)
    (h : SlabRoot pol om (√(gx ^ 2 + gy ^ 2)) e0 eN (l1 ++ (e, d1 + d2) :: l2) abs)
    (h' : SlabRoot pol om (√(gx ^ 2 + gy ^ 2)) e0 eN (l1 ++ (e, d1) :: (e, d2) :: l2) abs') :
    ∃ (M1 M2 : List ModeL) (m : ModeL), M1.length = l1.length + 1 ∧
      (normState pol gx gy om e0 eN (l1 ++ (e, d1 + d2) :: l2) abs).layers = M1 ++ m :: M2 ∧
      (normState pol gx gy om e0 eN (l1 ++ (e, d1) :: (e, d2) :: l2) abs').layers =
        M1 ++ shiftMode (-(d2 / 2)) m :: shiftMode (d1 / 2) m :: M2 := by
  set g := √(gx ^ 2 + gy ^ 2) with hgg
  have hl' : ∀ l ∈ l1 ++ (e, d1) :: (e, d2) :: l2, l.1 ≠ 0 := by
    intro l hm
    simp only [List.mem_append, List.mem_cons] at hm hl
    rcases hm with hm | rfl | rfl | hm
    exacts [hl l (.inl hm), hl (e, d1 + d2) (.inr (.inl rfl)), hl (e, d1 + d2) (.inr (.inl rfl)), hl l (.inr (.inr hm))]
  obtain ⟨G, f⟩ := slabRoot_guided h (by simp) h0 hN hl
  obtain ⟨G', f'⟩ := slabRoot_guided h' (by simp) h0 hN hl'
  obtain ⟨as1, ab, as2, rfl, hlen⟩ := split_at_length abs (l1.length + 1) (by rw [G.len]; simp)
  have hS := guided_split hlen G
  have hhead : (as1 ++ shiftAb (chi om g e) (-(d2 / 2)) ab :: shiftAb (chi om g e) (d1 / 2) ab :: as2).head? =
      some (0, 1) := by
    cases as1 with
    | nil => simp at hlen
    | cons a as => simpa using f
  have key := guided_unique hN hl' h'.off hS G' 1 1 hhead f' one_ne_zero
  rw [div_one] at key
  have hone : ∀ l : List (ℂ × ℂ), mulAbs 1 l = l := by
    intro l
    simp [mulAbs]
  rw [hone] at key
  set P1 : List (LPos × ℝ) := (.lower, e0) :: l1.map fun l => (.inner l.2, l.1) with hP1
  set P2 : List (LPos × ℝ) := (l2.map fun l => (.inner l.2, l.1)) ++ [(.upper, eN)] with hP2
  have st : slabStack e0 eN (l1 ++ (e, d1 + d2) :: l2) = P1 ++ (.inner (d1 + d2), e) :: P2 := by
    rw [slabStack_split]; rfl
  have st' : slabStack e0 eN (l1 ++ (e, d1) :: (e, d2) :: l2) = P1 ++ (.inner d1, e) :: (.inner d2, e) :: P2 := by
    rw [slabStack_split]; rfl
  have hPl : (P1.map Prod.snd).length = as1.length := by simp [hP1, hlen]
  -- layers before and after the split, for amplitudes times a common factor
  have lay : ∀ (a1 a2 : List (ℂ × ℂ)) (x : ℂ × ℂ), a1.length = as1.length →
      mkLayers om g ((P1 ++ (.inner (d1 + d2), e) :: P2).map Prod.snd) (a1 ++ x :: a2) =
        mkLayers om g (P1.map Prod.snd) a1 ++ ⟨x.1, x.2, chi om g e⟩ :: mkLayers om g (P2.map Prod.snd) a2 ∧
      mkLayers om g ((P1 ++ (.inner d1, e) :: (.inner d2, e) :: P2).map Prod.snd)
          (a1 ++ shiftAb (chi om g e) (-(d2 / 2)) x :: shiftAb (chi om g e) (d1 / 2) x :: a2) =
        mkLayers om g (P1.map Prod.snd) a1 ++ shiftMode (-(d2 / 2)) ⟨x.1, x.2, chi om g e⟩ ::
          shiftMode (d1 / 2) ⟨x.1, x.2, chi om g e⟩ :: mkLayers om g (P2.map Prod.snd) a2 := by
    intro a1 a2 x ha
    constructor
    · rw [List.map_append (l₁ := P1), mkLayers_append _ _ _ _ _ _ (hPl.trans ha.symm)]
      rfl
    · rw [List.map_append (l₁ := P1), mkLayers_append _ _ _ _ _ _ (hPl.trans ha.symm)]
      rfl
  have hm1 : P1.length = (mkLayers om g (P1.map Prod.snd) as1).length := by
    rw [mkLayers_length _ _ _ _ hPl, List.length_map]
  have hnorm : slabNorm pol g (slabStack e0 eN (l1 ++ (e, d1) :: (e, d2) :: l2))
      (mkLayers om g ((slabStack e0 eN (l1 ++ (e, d1) :: (e, d2) :: l2)).map Prod.snd) abs') =
      slabNorm pol g (slabStack e0 eN (l1 ++ (e, d1 + d2) :: l2))
        (mkLayers om g ((slabStack e0 eN (l1 ++ (e, d1 + d2) :: l2)).map Prod.snd) (as1 ++ ab :: as2)) := by
    rw [key, st, st', (lay as1 as2 ab rfl).1, (lay as1 as2 ab rfl).2, slabNorm_split pol g P1 P2 e d1 d2 h1 h2 _ _ _ hm1]
  rw [normState_eq, normState_eq]
  simp only
  rw [← hgg, hnorm]
  generalize √(slabNorm pol g (slabStack e0 eN (l1 ++ (e, d1 + d2) :: l2))
        (mkLayers om g ((slabStack e0 eN (l1 ++ (e, d1 + d2) :: l2)).map Prod.snd) (as1 ++ ab :: as2))) = c
  have sc : scaleAbs c abs' = scaleAbs c as1 ++ shiftAb (chi om g e) (-(d2 / 2)) (ab.1 / (c : ℂ), ab.2 / (c : ℂ)) ::
      shiftAb (chi om g e) (d1 / 2) (ab.1 / (c : ℂ), ab.2 / (c : ℂ)) :: scaleAbs c as2 := by
    rw [key]
    simp only [scaleAbs, List.map_append, List.map_cons, shiftAb, div_mul_eq_mul_div]
  have sc0 : scaleAbs c (as1 ++ ab :: as2) = scaleAbs c as1 ++ (ab.1 / (c : ℂ), ab.2 / (c : ℂ)) :: scaleAbs c as2 := by
    simp only [scaleAbs, List.map_append, List.map_cons]
  rw [sc, sc0, st, st']
  obtain ⟨q1, q2⟩ := lay (scaleAbs c as1) (scaleAbs c as2) (ab.1 / (c : ℂ), ab.2 / (c : ℂ)) (by simp [scaleAbs])
  refine ⟨_, _, _, ?_, q1, q2⟩
  rw [mkLayers_length _ _ _ _ (by simpa [scaleAbs] using hPl), hPl, hlen]

/-- A root for a stack is a root for the subdivided stack. -/
theorem slabRoot_split {pol : Pol} {om g e0 eN e d1 d2 : ℝ} {l1 l2 : List (ℝ × ℝ)} {abs : List (ℂ × ℂ)}
    (h0 : e0 ≠ 0) (hN : eN ≠ 0) (hl : ∀ l ∈ l1 ++ (e, d1 + d2) :: l2, l.1 ≠ 0)
    (h : SlabRoot pol om g e0 eN (l1 ++ (e, d1 + d2) :: l2) abs) :
    ∃ abs', SlabRoot pol om g e0 eN (l1 ++ (e, d1) :: (e, d2) :: l2) abs' := by
  have hoff : ∀ l ∈ l1 ++ (e, d1) :: (e, d2) :: l2, l.1 * om ^ 2 ≠ g ^ 2 ∧ l.1 ≠ 0 := by
    intro l hm
    have ho := h.off
    simp only [List.mem_append, List.mem_cons] at hm hl ho
    rcases hm with hm | rfl | rfl | hm
    exacts [⟨ho l (.inl hm), hl l (.inl hm)⟩, ⟨ho (e, d1 + d2) (.inr (.inl rfl)), hl (e, d1 + d2) (.inr (.inl rfl))⟩,
      ⟨ho (e, d1 + d2) (.inr (.inl rfl)), hl (e, d1 + d2) (.inr (.inl rfl))⟩,
      ⟨ho l (.inr (.inr hm)), hl l (.inr (.inr hm))⟩]
  have hw : ∀ x ∈ e0 :: (l1 ++ (e, d1) :: (e, d2) :: l2).map Prod.fst ++ [eN], x * om ^ 2 ≠ g ^ 2 ∧ x ≠ 0 := by
    intro x hx
    simp only [List.cons_append, List.mem_cons, List.mem_append (t := [eN]), List.not_mem_nil, or_false,
      List.mem_map] at hx
    rcases hx with rfl | ⟨l, hl', rfl⟩ | rfl
    · exact ⟨h.low.ne, h0⟩
    · exact hoff l (by simpa using hl')
    · exact ⟨h.up.ne, hN⟩
  have hw1 : ∀ x ∈ e0 :: (l1 ++ (e, d1) :: l2).map Prod.fst ++ [eN], x * om ^ 2 ≠ g ^ 2 ∧ x ≠ 0 := by
    intro x hx
    refine hw x ?_
    simp only [List.map_append, List.map_cons, List.cons_append, List.append_assoc, List.mem_cons,
      List.mem_append] at hx ⊢
    tauto
  obtain ⟨abs', ha, -⟩ := C25_interfaces pol om g e0 eN _ (by simp) hw
  refine ⟨abs', h.low, h.up, fun l hm => (hoff l hm).1, ?_, ?_, ha⟩
  · intro l hm
    have := congrArg List.length hm
    simp at this
    omega
  · by_cases hone : l1 = [] ∧ l2 = []
    · obtain ⟨rfl, rfl⟩ := hone
      exact (C23_split_zeros pol om g e0 eN e d1 d2 [] [] hw1 h.low h.up (h.core _ rfl)).2 h.root
    · have hr := h.root
      rw [d22_of_length] at hr ⊢
      · rw [C23_split pol om g e0 eN e d1 d2 l1 l2 hw1]
        exact hr
      · simp; omega
      · simp only [List.length_append, List.length_cons, List.length_map, List.length_nil]
        intro hc
        exact hone ⟨List.length_eq_zero_iff.1 (by omega), List.length_eq_zero_iff.1 (by omega)⟩

/-- **C97 (subdivision).** Writing one layer as two layers of the same material and pattern leaves the matrix of the
expansion unchanged, entry by entry, and therefore all results of `run`. -/
theorem C97_subdivision (e0 eN e d1 d2 : ℝ) (l1 l2 : List (ℝ × ℝ)) (h1 : 0 ≤ d1) (h2 : 0 ≤ d2) (h0 : e0 ≠ 0)
    (hN : eN ≠ 0) (hl : ∀ l ∈ l1 ++ (e, d1 + d2) :: l2, l.1 ≠ 0) (n : ℕ) (b b' : ℕ → SlabBasis)
    (hb : ∀ i < n, SlabRoot (b i).pol (b i).om (√((b i).gx ^ 2 + (b i).gy ^ 2)) e0 eN (l1 ++ (e, d1 + d2) :: l2)
      (b i).abs)
    (hb' : ∀ i < n, SlabRoot (b' i).pol (b' i).om (√((b' i).gx ^ 2 + (b' i).gy ^ 2)) e0 eN
      (l1 ++ (e, d1) :: (e, d2) :: l2) (b' i).abs)
    (hsame : ∀ i < n, (b' i).pol = (b i).pol ∧ (b' i).gx = (b i).gx ∧ (b' i).gy = (b i).gy ∧ (b' i).om = (b i).om)
    (einv : ℕ → ℕ → List ℂ) (hlen : ∀ i j, (einv i j).length = (l1 ++ (e, d1 + d2) :: l2).length + 2)
    (blk : ℕ → ℕ) :
    exactMat n e0 eN (l1 ++ (e, d1) :: (e, d2) :: l2) b' (fun i j => twiceAt (l1.length + 1) (einv i j)) blk =
      exactMat n e0 eN (l1 ++ (e, d1 + d2) :: l2) b einv blk := by
  have elem : ∀ i < n, ∀ j < n,
      gmeElem ijExact (slabStack e0 eN (l1 ++ (e, d1) :: (e, d2) :: l2)) (twiceAt (l1.length + 1) (einv i j))
        ((b' i).state e0 eN (l1 ++ (e, d1) :: (e, d2) :: l2)) ((b' j).state e0 eN (l1 ++ (e, d1) :: (e, d2) :: l2)) =
      gmeElem ijExact (slabStack e0 eN (l1 ++ (e, d1 + d2) :: l2)) (einv i j)
        ((b i).state e0 eN (l1 ++ (e, d1 + d2) :: l2)) ((b j).state e0 eN (l1 ++ (e, d1 + d2) :: l2)) := by
    intro i hi j hj
    have dec : ∀ i < n, ∃ (M1 M2 : List ModeL) (m : ModeL), M1.length = l1.length + 1 ∧
        ((b i).state e0 eN (l1 ++ (e, d1 + d2) :: l2)).layers = M1 ++ m :: M2 ∧
        ((b' i).state e0 eN (l1 ++ (e, d1) :: (e, d2) :: l2)).layers =
          M1 ++ shiftMode (-(d2 / 2)) m :: shiftMode (d1 / 2) m :: M2 := by
      intro i hi
      have hr := hb' i hi
      unfold SlabBasis.state
      rw [(hsame i hi).1, (hsame i hi).2.1, (hsame i hi).2.2.1, (hsame i hi).2.2.2] at hr ⊢
      exact normState_split h1 h2 h0 hN hl (hb i hi) hr
    obtain ⟨M1, M2, m, hM, a1, a2⟩ := dec i hi
    obtain ⟨N1, N2, k, hK, c1, c2⟩ := dec j hj
    obtain ⟨E1, x, E2, hE, hE1⟩ := split_at_length (einv i j) (l1.length + 1) (by rw [hlen]; simp)
    rw [hE, ← hE1, twiceAt_append, slabStack_split, slabStack_split]
    simp only [List.map_cons, List.cons_append (as := List.map _ l2)]
    refine gmeElem_split _ _ e d1 d2 h1 h2 E1 E2 x ?_ _ _ _ _ (hsame i hi) (hsame j hj) M1 M2 N1 N2 m k ?_ ?_ a1 c1 a2 c2
    · simp [hE1]
    · simp [hM]
    · simp [hK]
  ext i j
  unfold exactMat
  simp only [Matrix.of_apply]
  unfold completeMat blockUpper
  simp only [elem i i.2 j j.2, elem j j.2 i i.2, elem i i.2 i i.2]

/-- **C97 (modes).** The subdivided stack has the same guided modes. -/
theorem C97_basis (e0 eN e d1 d2 : ℝ) (l1 l2 : List (ℝ × ℝ)) (h0 : e0 ≠ 0)
    (hN : eN ≠ 0) (hl : ∀ l ∈ l1 ++ (e, d1 + d2) :: l2, l.1 ≠ 0) (n : ℕ) (b : ℕ → SlabBasis)
    (hb : ∀ i < n, SlabRoot (b i).pol (b i).om (√((b i).gx ^ 2 + (b i).gy ^ 2)) e0 eN (l1 ++ (e, d1 + d2) :: l2)
      (b i).abs) :
    ∃ b' : ℕ → SlabBasis,
      (∀ i < n, SlabRoot (b' i).pol (b' i).om (√((b' i).gx ^ 2 + (b' i).gy ^ 2)) e0 eN
        (l1 ++ (e, d1) :: (e, d2) :: l2) (b' i).abs) ∧
      ∀ i < n, (b' i).pol = (b i).pol ∧ (b' i).gx = (b i).gx ∧ (b' i).gy = (b i).gy ∧ (b' i).om = (b i).om := by
  have h : ∀ i, ∃ abs', i < n → SlabRoot (b i).pol (b i).om (√((b i).gx ^ 2 + (b i).gy ^ 2)) e0 eN
      (l1 ++ (e, d1) :: (e, d2) :: l2) abs' := by
    intro i
    by_cases hi : i < n
    · obtain ⟨a, ha⟩ := slabRoot_split h0 hN hl (hb i hi)
      exact ⟨a, fun _ => ha⟩
    · exact ⟨[], fun h => absurd h hi⟩
  choose a ha using h
  exact ⟨fun i => { b i with abs := a i }, fun i hi => ha i hi, fun i _ => ⟨rfl, rfl, rfl, rfl⟩⟩

/-- The asymmetric slab with a pattern, cut at one third. -/
example (a b c d e f : ℂ) :
    ∃ abs abs', SlabRoot .te 1 2 3 1 [(5, 7 * Real.pi / 36 + 7 * Real.pi / 18)] abs ∧
      SlabRoot .te 1 2 3 1 [(5, 7 * Real.pi / 36), (5, 7 * Real.pi / 18)] abs' ∧
      exactMat 2 3 1 [(5, 7 * Real.pi / 36), (5, 7 * Real.pi / 18)]
          (fun i => if i = 0 then ⟨0, 2, 0, .te, 1, abs'⟩ else ⟨1, 0, 2, .te, 1, abs'⟩)
          (fun i j => twiceAt 1 (if i = j then [a, b, c] else [d, e, f])) (fun _ => 0) =
        exactMat 2 3 1 [(5, 7 * Real.pi / 36 + 7 * Real.pi / 18)]
          (fun i => if i = 0 then ⟨0, 2, 0, .te, 1, abs⟩ else ⟨1, 0, 2, .te, 1, abs⟩)
          (fun i j => if i = j then [a, b, c] else [d, e, f]) (fun _ => 0) := by
  obtain ⟨abs, h⟩ := asymmetric_root
  rw [show 7 * Real.pi / 12 = 7 * Real.pi / 36 + 7 * Real.pi / 18 by ring] at h
  obtain ⟨abs', h'⟩ := slabRoot_split (l1 := []) (l2 := []) (by norm_num) one_ne_zero (by simp) h
  refine ⟨abs, abs', h, h', ?_⟩
  have g1 : √((2 : ℝ) ^ 2 + 0 ^ 2) = 2 := by
    rw [show (2 : ℝ) ^ 2 + 0 ^ 2 = 2 ^ 2 by norm_num, Real.sqrt_sq (by norm_num)]
  have g2 : √((0 : ℝ) ^ 2 + 2 ^ 2) = 2 := by
    rw [show (0 : ℝ) ^ 2 + 2 ^ 2 = 2 ^ 2 by norm_num, Real.sqrt_sq (by norm_num)]
  refine C97_subdivision 3 1 5 (7 * Real.pi / 36) (7 * Real.pi / 18) [] [] (by positivity) (by positivity)
    (by norm_num) one_ne_zero (by simp) 2 _ _ ?_ ?_ ?_ _ ?_ _
  · intro i _
    split <;> simp only [g1, g2] <;> exact h
  · intro i _
    split <;> simp only [g1, g2] <;> exact h'
  · intro i _
    split <;> exact ⟨rfl, rfl, rfl, rfl⟩
  · intro i j
    split <;> rfl

end Legume
