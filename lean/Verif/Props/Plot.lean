import Verif.Model.Plot
import Verif.Model.Radiation
import Mathlib.Tactic.Linarith
import Mathlib.Tactic.NormNum
import Mathlib.Tactic.FieldSimp

/-!
# C58 (k axis), C59 (light line), C81 (quality factor and progress bar)
-/
namespace Legume

/-! ### C58 -/

theorem kDists_length (l : List (ℝ × ℝ)) : (kDists l).length = l.length - 1 := by
  induction l with
  | nil => rfl
  | cons a l ih =>
    cases l with
    | nil => rfl
    | cons b l => simp only [kDists, List.length_cons, ih]; simp

theorem kDists_get (l : List (ℝ × ℝ)) (i : ℕ) (h : i + 1 < l.length) :
    (kDists l)[i]? = some (√((l[i + 1].1 - l[i].1) ^ 2 + (l[i + 1].2 - l[i].2) ^ 2)) := by
  induction l generalizing i with
  | nil => simp at h
  | cons a l ih =>
    cases l with
    | nil => simp at h
    | cons b l =>
      cases i with
      | zero => simp [kDists]
      | succ i =>
        have := ih i (by simpa using h)
        simpa [kDists] using this

theorem kDists_nonneg (l : List (ℝ × ℝ)) : ∀ x ∈ kDists l, 0 ≤ x := by
  induction l with
  | nil => simp [kDists]
  | cons a l ih =>
    cases l with
    | nil => simp [kDists]
    | cons b l =>
      intro x hx
      rcases List.mem_cons.1 hx with rfl | hx
      · exact Real.sqrt_nonneg _
      · exact ih x hx

/-- **C58.** With `k_units=False` the abscissae are 0, 1, 2, ...; in both cases there is one abscissa per k-point,
the first is 0, and every band has the same abscissae. -/
theorem C58_axis (kpoints : List (ℝ × ℝ)) (h : kpoints ≠ []) (numEig : ℕ) (kUnits : Bool) :
    (calcX0 kpoints kUnits).length = kpoints.length ∧ (calcX0 kpoints kUnits)[0]? = some (some 0) ∧
    (kUnits = false → ∀ i < kpoints.length, (calcX0 kpoints kUnits)[i]? = some (some (i : ℝ))) ∧
    (calcX kpoints numEig kUnits).length = kpoints.length ∧
    ∀ (i j : ℕ) (row : List (Option ℝ)), (calcX kpoints numEig kUnits)[i]? = some row → j < numEig →
      row.length = numEig ∧ row[j]? = (calcX0 kpoints kUnits)[i]? := by
  have hl : 0 < kpoints.length := List.length_pos_iff.2 h
  have hlen : (calcX0 kpoints kUnits).length = kpoints.length := by
    unfold calcX0
    split_ifs with h1 h2
    · simp [kDists_length]; omega
    · simp [kDists_length, cumsum]; omega
    · simp
  refine ⟨hlen, ?_, ?_, by simp [calcX, hlen], ?_⟩
  · unfold calcX0
    split_ifs with h1 h2
    · rfl
    · rfl
    · rw [List.getElem?_map, List.getElem?_range hl]; simp
  · intro hk i hi
    unfold calcX0
    rw [if_neg (by simp [hk]), List.getElem?_map, List.getElem?_range hi]; rfl
  · intro i j row hrow hj
    unfold calcX at hrow
    rw [List.getElem?_map, Option.map_eq_some_iff] at hrow
    obtain ⟨v, hv, rfl⟩ := hrow
    refine ⟨by simp, ?_⟩
    rw [hv, List.getElem?_replicate, if_pos hj]

/-- **C58 (partial).** With `k_units=True` and a path of positive length, the abscissae end at 1 and every increment
is the distance between the two k-points divided by the length of the path; hence they do not decrease.  Missing:
paths of zero length (`C58_degenerate`). -/
theorem C58_kunits_partial (kpoints : List (ℝ × ℝ)) (hd : (kDists kpoints).sum ≠ 0) :
    0 < (kDists kpoints).sum ∧
    (calcX0 kpoints true)[kpoints.length - 1]? = some (some 1) ∧
    ∀ i, (hi : i + 1 < kpoints.length) → ∃ a b : ℝ,
      (calcX0 kpoints true)[i]? = some (some a) ∧ (calcX0 kpoints true)[i + 1]? = some (some b) ∧ a ≤ b ∧
      (b - a) * (kDists kpoints).sum =
        √((kpoints[i + 1].1 - kpoints[i].1) ^ 2 + (kpoints[i + 1].2 - kpoints[i].2) ^ 2) := by
  have hnn := kDists_nonneg kpoints
  have hpos : 0 < (kDists kpoints).sum := lt_of_le_of_ne (List.sum_nonneg hnn) (Ne.symm hd)
  have hlen := kDists_length kpoints
  set D := kDists kpoints with hD
  set T := D.sum with hT
  have hone : ∀ i, i ≤ D.length → (calcX0 kpoints true)[i]? = some (some (((D.map (· / T)).take i).sum)) := by
    intro i hi
    unfold calcX0
    rw [if_pos rfl, if_neg hd]
    cases i with
    | zero => simp
    | succ i =>
      rw [List.getElem?_cons_succ, List.getElem?_map, cumsum, List.getElem?_map,
        List.getElem?_range (by rw [List.length_map]; exact hi)]
      rfl
  have hkp : 1 < kpoints.length := by
    by_contra hc
    have : D = [] := List.length_eq_zero_iff.1 (by omega)
    rw [hT, this] at hd
    simp at hd
  refine ⟨hpos, ?_, ?_⟩
  · rw [← hlen, hone _ (le_refl _)]
    rw [List.take_of_length_le (by simp)]
    have : (D.map (· / T)).sum = T / T := by
      simp only [div_eq_mul_inv]; rw [List.sum_map_mul_right]; simp only [List.map_id', hT]
    rw [this, div_self hd]
  · intro i hi
    refine ⟨_, _, hone i (by omega), hone (i + 1) (by omega), ?_⟩
    have hget := kDists_get kpoints i hi
    rw [← hD] at hget
    obtain ⟨hi', hget'⟩ := List.getElem?_eq_some_iff.1 hget
    have hsum : ((D.map (· / T)).take (i + 1)).sum = ((D.map (· / T)).take i).sum + D[i] / T := by
      rw [List.sum_take_succ _ _ (by simpa using hi')]
      simp
    rw [hsum]
    have h0 : 0 ≤ D[i] := hnn _ (List.getElem_mem _)
    refine ⟨le_add_of_nonneg_right (div_nonneg h0 hpos.le), ?_⟩
    rw [add_sub_cancel_left, div_mul_cancel₀ _ hd, hget']

/-- **C58.** A single k-point has the only abscissa 0; a path that stays at one point has `nan` at every k-point but
the first. -/
theorem C58_degenerate (k : ℝ × ℝ) (n : ℕ) :
    calcX0 (List.replicate (n + 1) k) true = some 0 :: List.replicate n none := by
  have hD : ∀ n, kDists (List.replicate (n + 1) k) = List.replicate n 0 := by
    intro n
    induction n with
    | zero => rfl
    | succ n ih =>
      rw [List.replicate_succ, List.replicate_succ, kDists, ← List.replicate_succ, ih]
      simp [List.replicate_succ]
  unfold calcX0
  rw [if_pos rfl, hD, if_pos (by simp)]
  simp

/-- Examples for C58: a path of three points. -/
example : (kDists [(0, 0), (3, 4), (3, 9)]).sum ≠ 0 ∧ calcX0 [(0, 0), (3, 4), (3, 9)] true =
    [some 0, some (1 / 2), some 1] := by
  have h1 : √((3 - 0 : ℝ) ^ 2 + (4 - 0) ^ 2) = 5 := by
    rw [show (3 - 0 : ℝ) ^ 2 + (4 - 0) ^ 2 = 5 ^ 2 by norm_num]; exact Real.sqrt_sq (by norm_num)
  have h2 : √((3 - 3 : ℝ) ^ 2 + (9 - 4) ^ 2) = 5 := by
    rw [show (3 - 3 : ℝ) ^ 2 + (9 - 4) ^ 2 = 5 ^ 2 by norm_num]; exact Real.sqrt_sq (by norm_num)
  have hD : kDists [(0, 0), (3, 4), (3, 9)] = [5, 5] := by simp only [kDists, h1, h2]
  constructor
  · rw [hD]; norm_num
  · unfold calcX0
    rw [hD, if_pos rfl, if_neg (by norm_num)]
    simp [cumsum, List.range_succ]
    norm_num

/-! ### C59 -/

theorem openChannels_single (eps omr g : ℝ) : openChannels eps omr [g] ≠ [] ↔ g ^ 2 ≤ eps * omr ^ 2 := by
  unfold openChannels
  simp [List.filter_cons, List.range_succ]

/-- **C59.** A frequency is on or above the plotted light line iff the lower or the upper cladding has an open
channel at that wave vector; `conv` is the factor of the frequency unit. -/
theorem C59_light_line (epsLo epsHi conv f : ℝ) (k : ℝ × ℝ) (hlo : 0 < epsLo) (hhi : 0 < epsHi) (hconv : 0 < conv)
    (hf : 0 ≤ f) :
    lightLine epsLo epsHi conv k ≤ conv * f ↔
      openChannels epsLo (2 * Real.pi * f) [√(k.1 ^ 2 + k.2 ^ 2)] ≠ [] ∨
      openChannels epsHi (2 * Real.pi * f) [√(k.1 ^ 2 + k.2 ^ 2)] ≠ [] := by
  set g := √(k.1 ^ 2 + k.2 ^ 2) with hg
  have hg0 : 0 ≤ g := Real.sqrt_nonneg _
  have hpi := Real.pi_pos
  rw [openChannels_single, openChannels_single]
  unfold lightLine
  set e := max epsLo epsHi with he
  have he0 : 0 < e := lt_of_lt_of_le hlo (le_max_left _ _)
  have hs0 : 0 < √e := Real.sqrt_pos.2 he0
  have h1 : conv * g / 2 / Real.pi / √e ≤ conv * f ↔ g ≤ √e * (2 * Real.pi * f) := by
    rw [show conv * g / 2 / Real.pi / √e = conv * (g / (2 * Real.pi * √e)) by field_simp]
    rw [mul_le_mul_iff_right₀ hconv, div_le_iff₀ (by positivity)]
    rw [show f * (2 * Real.pi * √e) = √e * (2 * Real.pi * f) by ring]
  have h2 : g ≤ √e * (2 * Real.pi * f) ↔ g ^ 2 ≤ e * (2 * Real.pi * f) ^ 2 := by
    rw [← sq_le_sq₀ hg0 (by positivity), mul_pow, Real.sq_sqrt he0.le]
  rw [h1, h2]
  have hw : 0 ≤ (2 * Real.pi * f) ^ 2 := sq_nonneg _
  constructor
  · intro h
    rcases max_choice epsLo epsHi with h' | h'
    · left; rwa [he, h'] at h
    · right; rwa [he, h'] at h
  · rintro (h | h)
    · exact h.trans (mul_le_mul_of_nonneg_right (le_max_left _ _) hw)
    · exact h.trans (mul_le_mul_of_nonneg_right (le_max_right _ _) hw)

/-- **C59.** Below the light line no diffraction order radiates, if `k` is the shortest of the `k + G`. -/
theorem C59_below (epsLo epsHi conv f : ℝ) (k : ℝ × ℝ) (hlo : 0 < epsLo) (hhi : 0 < epsHi) (hconv : 0 < conv)
    (hf : 0 ≤ f) (gk : List ℝ) (hgk : ∀ g ∈ gk, √(k.1 ^ 2 + k.2 ^ 2) ≤ g)
    (hbelow : conv * f < lightLine epsLo epsHi conv k) :
    openChannels epsLo (2 * Real.pi * f) gk = [] ∧ openChannels epsHi (2 * Real.pi * f) gk = [] := by
  have h := (C59_light_line epsLo epsHi conv f k hlo hhi hconv hf).not.1 (not_le.2 hbelow)
  rw [not_or, openChannels_single, openChannels_single, not_le, not_le] at h
  have hg0 : 0 ≤ √(k.1 ^ 2 + k.2 ^ 2) := Real.sqrt_nonneg _
  have key : ∀ e, e * (2 * Real.pi * f) ^ 2 < √(k.1 ^ 2 + k.2 ^ 2) ^ 2 →
      openChannels e (2 * Real.pi * f) gk = [] := by
    intro e he
    unfold openChannels
    rw [List.filter_eq_nil_iff]
    intro j hj
    have hj' := List.mem_range.1 hj
    have hm : gk.getD j 0 ∈ gk := by
      rw [List.getD_eq_getElem?_getD, List.getElem?_eq_getElem hj']; exact List.getElem_mem _
    have := pow_le_pow_left₀ hg0 (hgk _ hm) 2
    simp only [decide_eq_true_eq, not_le]
    linarith
  exact ⟨key _ h.1, key _ h.2⟩

/-- **C59.** For a k-point outside the first Brillouin zone the plotted line is too high: there are frequencies below
it at which a diffraction order radiates. -/
theorem C59_folded : ∃ (k G : ℝ × ℝ) (f : ℝ), f < lightLine 1 1 1 k ∧
    openChannels 1 (2 * Real.pi * f) [√((k.1 + G.1) ^ 2 + (k.2 + G.2) ^ 2)] ≠ [] := by
  have hpi := Real.pi_pos
  refine ⟨(2 * Real.pi, 0), (-(2 * Real.pi), 0), 1 / 2, ?_, ?_⟩
  · unfold lightLine
    simp only [max_self, Real.sqrt_one, div_one, one_mul]
    rw [show (2 * Real.pi) ^ 2 + (0 : ℝ) ^ 2 = (2 * Real.pi) ^ 2 by ring, Real.sqrt_sq (by positivity)]
    rw [show 2 * Real.pi / 2 / Real.pi = 1 by field_simp]
    norm_num
  · rw [openChannels_single]
    simp only [add_neg_cancel, add_zero]
    norm_num
    positivity

/-- Examples for C59: both sides of the line for a substrate. -/
example : lightLine 1 4 1 (2 * Real.pi, 0) = 1 / 2 := by
  have hpi := Real.pi_pos
  unfold lightLine
  rw [show (max 1 4 : ℝ) = 2 ^ 2 by norm_num, Real.sqrt_sq (by norm_num)]
  simp only
  rw [show (2 * Real.pi) ^ 2 + (0 : ℝ) ^ 2 = (2 * Real.pi) ^ 2 by ring, Real.sqrt_sq (by positivity)]
  field_simp

/-! ### C81 -/

section
variable {K : Type} [Field K] [LinearOrder K] [IsStrictOrderedRing K]

/-- **C81.** For a mode with non-negative loss the quality factor is positive and at most `5e15` times the frequency,
decreases with the loss, and is smaller than `re / (2 im)` by the relative amount `1e-16 / (im + 1e-16)`. -/
theorem C81_quality (re im : K) (hre : 0 < re) (him : 0 ≤ im) :
    0 < calcQ re im ∧ calcQ re im ≤ 5e15 * re ∧ (∀ im', im < im' → calcQ re im' < calcQ re im) ∧
    (0 < im → calcQ re im = re / (2 * im) * (1 - 1e-16 / (im + 1e-16))) := by
  unfold calcQ
  have h16 : (0 : K) < 1e-16 := by norm_num
  have hd : 0 < im + 1e-16 := by linarith
  refine ⟨by positivity, ?_, ?_, ?_⟩
  · rw [div_le_iff₀ hd]
    have : 5e15 * re * 1e-16 = re / 2 := by ring
    have h2 : 0 ≤ 5e15 * re * im := by positivity
    nlinarith
  · intro im' h
    exact div_lt_div_of_pos_left (by positivity) hd (by linarith)
  · intro h
    field_simp
    ring

end

/-- **C81.** The progress bar always consists of a frame and cells; between 0 and 100 per cent it has `precision`
cells, as many of them filled as the share rounded down. -/
theorem C81_bar {K : Type} [Field K] [LinearOrder K] [IsStrictOrderedRing K] [FloorRing K] (perc : K)
    (precision : ℕ) (h0 : 0 ≤ perc) (h1 : perc ≤ 100) :
    ∃ n : ℕ, (n : K) ≤ perc / 100 * precision ∧ perc / 100 * precision < n + 1 ∧ n ≤ precision ∧
      loadBar perc precision = '│' :: (List.replicate n '█' ++ List.replicate (precision - n) '-') ++ ['│'] := by
  have hx : 0 ≤ perc / 100 * precision := by positivity
  have hfl : 0 ≤ ⌊perc / 100 * (precision : K)⌋ := Int.floor_nonneg.2 hx
  obtain ⟨n, hn⟩ := Int.eq_ofNat_of_zero_le hfl
  have hle : (n : K) ≤ perc / 100 * precision := by
    have := Int.floor_le (perc / 100 * (precision : K))
    rw [hn] at this; exact_mod_cast this
  have hub : perc / 100 * precision ≤ (precision : K) := by
    have : perc / 100 ≤ 1 := by rw [div_le_one (by norm_num)]; exact h1
    exact mul_le_of_le_one_left (by positivity) this
  have hnp : n ≤ precision := by exact_mod_cast hle.trans hub
  refine ⟨n, hle, ?_, hnp, ?_⟩
  · have := Int.lt_floor_add_one (perc / 100 * (precision : K))
    rw [hn] at this; exact_mod_cast this
  · unfold loadBar
    simp only [if_pos hx, hn, Int.ofNat_eq_natCast, Int.toNat_natCast]
    rw [show ((precision : ℤ) - (n : ℤ)).toNat = precision - n by omega]

/-- Examples for C81. -/
example : loadBar (50 : ℚ) 4 = ['│', '█', '█', '-', '-', '│'] ∧ (loadBar (200 : ℚ) 4).length = 10 ∧
    calcQ (2 : ℚ) 0 = 10 ^ 16 := by decide +kernel

end Legume
