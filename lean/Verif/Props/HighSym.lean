import Mathlib.Analysis.SpecialFunctions.Trigonometric.Arctan
import Mathlib.Tactic.Linarith
import Mathlib.Tactic.FieldSimp
import Mathlib.Tactic.IntervalCases
import Verif.Model.HighSym
import Verif.Spec.Symmetry
import Verif.Props.Lattice
import Verif.Props.Reciprocal

/-!
# C87: wavevectors accepted by the vertical mirror separation are the mirror axes of the lattice
-/
namespace Legume

open Real Spec

/-! ### Rounding -/

theorem rint_even (x : ℝ) (N : ℤ) (hN : N % 2 = 0) : rint x = N ↔ |x - N| ≤ 1 / 2 := by
  have h1 := Int.floor_le x
  have h2 := Int.lt_floor_add_one x
  rw [abs_le]
  unfold rint
  generalize hf : ⌊x⌋ = f at *
  constructor
  · intro h
    split_ifs at h with a b c <;> subst h <;> push_cast <;> constructor <;> linarith
  · rintro ⟨ha, hb⟩
    have hlo : N ≤ f + 1 := by
      have : (N : ℝ) < f + 2 := by linarith
      have : N < f + 2 := by exact_mod_cast this
      omega
    have hhi : f ≤ N := by
      have : (f : ℝ) < N + 1 := by linarith
      have : f < N + 1 := by exact_mod_cast this
      omega
    have hcase : N = f ∨ N = f + 1 := by omega
    rcases hcase with rfl | rfl
    · split_ifs with a b <;> first | rfl | linarith
    · push_cast at *
      split_ifs with a b c
      · linarith
      · rfl
      · omega
      · rfl

theorem mem_angleTable (step : ℕ) (hs : step = 45 ∨ step = 30 ∨ step = 90) (z : ℤ) :
    z ∈ angleTable step ↔ ∃ n : ℤ, z = step * n ∧ |z| ≤ 360 := by
  unfold angleTable
  simp only [List.mem_map, List.mem_range]
  constructor
  · rintro ⟨i, hi, rfl⟩
    rcases hs with rfl | rfl | rfl
    · exact ⟨i - 8, by push_cast; ring, by rw [abs_le]; constructor <;> push_cast <;> omega⟩
    · exact ⟨i - 12, by push_cast; ring, by rw [abs_le]; constructor <;> push_cast <;> omega⟩
    · exact ⟨i - 4, by push_cast; ring, by rw [abs_le]; constructor <;> push_cast <;> omega⟩
  · rintro ⟨n, rfl, h⟩
    rw [abs_le] at h
    rcases hs with rfl | rfl | rfl
    · refine ⟨(n + 8).toNat, ?_, ?_⟩ <;> push_cast at * <;> omega
    · refine ⟨(n + 12).toNat, ?_, ?_⟩ <;> push_cast at * <;> omega
    · refine ⟨(n + 4).toNat, ?_, ?_⟩ <;> push_cast at * <;> omega

/-- The angle between the axes accepted for a lattice type, in degrees. -/
def Spec.axisStep : LatType → Option ℕ
  | .square => some 45
  | .hexagonal => some 30
  | .rectangular => some 90
  | .custom => none

theorem reflectG_eq (theta : ℝ) (g : ℝ × ℝ) : reflectG theta g = mirrorVec theta g := by
  have e : 2 * theta * π / 180 = 2 * (theta * π / 180) := by ring
  have hs := Real.sin_sq_add_cos_sq (theta * π / 180)
  unfold reflectG mirrorVec
  rw [e, Real.cos_two_mul, Real.sin_two_mul]
  ext
  · simp only; linear_combination (2 * g.1) * hs
  · simp only; ring

/-- **C87 (acceptance).** The vertical mirror separation accepts the directions of a list of
wavevectors exactly if the lattice is square, hexagonal or rectangular and every direction is within
`5e-9` degrees of a multiple of 45, 30 or 90 degrees (at most one turn); it then has, for every
direction, the matrix of the mirror in the line of that direction. Otherwise it raises
`ValueError`. -/
theorem C87_accept (t : LatType) (angles : List ℝ) :
    ((∃ d, reflMat t angles = .ok d) ↔
      ∃ step, axisStep t = some step ∧ ∀ a ∈ angles, ∃ n : ℤ, |(step : ℤ) * n| ≤ 360 ∧
        |a - step * n| ≤ 5e-9) ∧
    (∀ d, reflMat t angles = .ok d → ∀ a ∈ angles, ∃ M, d.lookup a = some M ∧
      ∀ g : ℝ × ℝ, (M.1.1 * g.1 + M.1.2 * g.2, M.2.1 * g.1 + M.2.2 * g.2) = mirrorVec a g) ∧
    ((∀ d, reflMat t angles ≠ .ok d) → reflMat t angles = .error .valueError) := by
  have hacc : ∀ step : ℕ, (step = 45 ∨ step = 30 ∨ step = 90) → ∀ a : ℝ,
      accepted (angleTable step) a ↔ ∃ n : ℤ, |(step : ℤ) * n| ≤ 360 ∧ |a - step * n| ≤ 5e-9 := by
    intro step hs a
    have key : ∀ z : ℤ, round8 a = z ↔ |a - z| ≤ 5e-9 := by
      intro z
      have e : round8 a = z ↔ rint (a * 1e8) = z * 100000000 := by
        unfold round8
        rw [div_eq_iff (by norm_num), ← @Int.cast_inj ℝ]
        push_cast
        norm_num
      rw [e, rint_even _ _ (by omega)]
      have e2 : a * 1e8 - ((z * 100000000 : ℤ) : ℝ) = (a - z) * 1e8 := by push_cast; norm_num; ring
      rw [e2, abs_mul, abs_of_pos (a := (1e8 : ℝ)) (by norm_num)]
      constructor <;> intro h <;> norm_num at * <;> linarith
    unfold accepted
    constructor
    · rintro ⟨z, hz, h⟩
      obtain ⟨n, rfl, hn⟩ := (mem_angleTable step hs z).1 hz
      exact ⟨n, hn, by simpa using (key _).1 h⟩
    · rintro ⟨n, hn, h⟩
      exact ⟨step * n, (mem_angleTable step hs _).2 ⟨n, rfl, hn⟩, (key _).2 (by simpa using h)⟩
  have hlook : ∀ (l : List ℝ) (a : ℝ), a ∈ l →
      (l.map fun a => (a, symMat a)).lookup a = some (symMat a) := by
    intro l a ha
    induction l with
    | nil => cases ha
    | cons b l ih =>
      by_cases hb : a = b
      · subst hb; simp
      · have : (a == b) = false := by simpa using hb
        simp only [List.map_cons, List.lookup_cons, this]
        exact ih (by simpa [hb] using ha)
  have hmat : ∀ (a : ℝ) (g : ℝ × ℝ), ((symMat a).1.1 * g.1 + (symMat a).1.2 * g.2,
      (symMat a).2.1 * g.1 + (symMat a).2.2 * g.2) = mirrorVec a g := by
    intro a g; rw [← reflectG_eq]; rfl
  have main : ∀ (t : LatType) (step : ℕ), anglesOf t = some (angleTable step) → axisStep t = some step →
      (step = 45 ∨ step = 30 ∨ step = 90) →
      ((∃ d, reflMat t angles = .ok d) ↔
        ∃ step, axisStep t = some step ∧ ∀ a ∈ angles, ∃ n : ℤ, |(step : ℤ) * n| ≤ 360 ∧
          |a - step * n| ≤ 5e-9) ∧
      (∀ d, reflMat t angles = .ok d → ∀ a ∈ angles, ∃ M, d.lookup a = some M ∧
        ∀ g : ℝ × ℝ, (M.1.1 * g.1 + M.1.2 * g.2, M.2.1 * g.1 + M.2.2 * g.2) = mirrorVec a g) ∧
      ((∀ d, reflMat t angles ≠ .ok d) → reflMat t angles = .error .valueError) := by
    intro t step ht hst hs
    have this := hacc step hs
    by_cases h : ∀ a ∈ angles, accepted (angleTable step) a
    · have hr : reflMat t angles = .ok (angles.dedup.map fun a => (a, symMat a)) := by
        simp only [reflMat, ht]; rw [if_pos h]
      refine ⟨⟨fun _ => ⟨step, hst, fun a ha => (this a).1 (h a ha)⟩, fun _ => ⟨_, hr⟩⟩, ?_,
        fun hn => absurd hr (hn _)⟩
      intro d hd a ha
      rw [hr] at hd; cases hd
      exact ⟨_, hlook _ a (by simpa using ha), hmat a⟩
    · have hr : reflMat t angles = .error .valueError := by
        simp only [reflMat, ht]; rw [if_neg h]
      refine ⟨⟨?_, ?_⟩, ?_, fun _ => hr⟩
      · rintro ⟨d, hd⟩; rw [hr] at hd; cases hd
      · rintro ⟨step', hst', hall⟩
        rw [hst] at hst'
        cases hst'
        exact absurd (fun a ha => (this a).2 (hall a ha)) h
      · intro d hd; rw [hr] at hd; cases hd
  cases t with
  | custom => simp [reflMat, anglesOf, axisStep]
  | square => exact main .square 45 rfl rfl (by simp)
  | hexagonal => exact main .hexagonal 30 rfl rfl (by simp)
  | rectangular => exact main .rectangular 90 rfl rfl (by simp)

/-- On a square lattice the directions 0, 45 and 90 degrees are accepted, 30 is not. -/
example : (∃ d, reflMat .square [0, 45, 90] = .ok d) ∧ reflMat .square [30] = .error .valueError := by
  constructor
  · rw [(C87_accept .square [0, 45, 90]).1]
    refine ⟨45, rfl, ?_⟩
    intro a ha
    simp at ha
    rcases ha with rfl | rfl | rfl
    · exact ⟨0, by norm_num, by norm_num⟩
    · exact ⟨1, by norm_num, by norm_num⟩
    · exact ⟨2, by norm_num, by norm_num⟩
  · apply (C87_accept .square [30]).2.2
    intro d hd
    obtain ⟨step, hs, h⟩ := (C87_accept .square [30]).1.1 ⟨d, hd⟩
    cases hs
    obtain ⟨n, -, h⟩ := h 30 (by simp)
    rw [abs_le] at h
    have h1 : (n : ℝ) < 1 := by norm_num at h; linarith
    have h2 : (0 : ℝ) < n := by norm_num at h; linarith
    have h1' : n < 1 := by exact_mod_cast h1
    have h2' : 0 < n := by exact_mod_cast h2
    omega

/-! ### The mirror axes of the named lattices -/

theorem cos_sin_quarter (n : ℤ) :
    (cos (n * (π / 2)) = 1 ∧ sin (n * (π / 2)) = 0) ∨ (cos (n * (π / 2)) = 0 ∧ sin (n * (π / 2)) = 1) ∨
    (cos (n * (π / 2)) = -1 ∧ sin (n * (π / 2)) = 0) ∨ (cos (n * (π / 2)) = 0 ∧ sin (n * (π / 2)) = -1) := by
  obtain ⟨q, r, hr, h0, h4⟩ : ∃ q r : ℤ, n = 4 * q + r ∧ 0 ≤ r ∧ r < 4 := ⟨n / 4, n % 4, by omega, by omega, by omega⟩
  have e : ((n : ℤ) : ℝ) * (π / 2) = r * (π / 2) + q * (2 * π) := by rw [hr]; push_cast; ring
  rw [e, Real.cos_add_int_mul_two_pi, Real.sin_add_int_mul_two_pi]
  interval_cases r
  · left; simp
  · right; left; simp
  · right; right; left
    have : ((2 : ℤ) : ℝ) * (π / 2) = π := by push_cast; ring
    rw [this]; simp
  · right; right; right
    have : ((3 : ℤ) : ℝ) * (π / 2) = π + π / 2 := by push_cast; ring
    rw [this, Real.cos_add, Real.sin_add]; simp

theorem cos_sin_sixth (n : ℤ) :
    (cos (n * (π / 3)) = 1 ∧ sin (n * (π / 3)) = 0) ∨
    (cos (n * (π / 3)) = 1 / 2 ∧ sin (n * (π / 3)) = √3 / 2) ∨
    (cos (n * (π / 3)) = -(1 / 2) ∧ sin (n * (π / 3)) = √3 / 2) ∨
    (cos (n * (π / 3)) = -1 ∧ sin (n * (π / 3)) = 0) ∨
    (cos (n * (π / 3)) = -(1 / 2) ∧ sin (n * (π / 3)) = -(√3 / 2)) ∨
    (cos (n * (π / 3)) = 1 / 2 ∧ sin (n * (π / 3)) = -(√3 / 2)) := by
  obtain ⟨q, r, hr, h0, h4⟩ : ∃ q r : ℤ, n = 6 * q + r ∧ 0 ≤ r ∧ r < 6 := ⟨n / 6, n % 6, by omega, by omega, by omega⟩
  have e : ((n : ℤ) : ℝ) * (π / 3) = r * (π / 3) + q * (2 * π) := by rw [hr]; push_cast; ring
  rw [e, Real.cos_add_int_mul_two_pi, Real.sin_add_int_mul_two_pi]
  interval_cases r
  · left; simp
  · right; left; simp
  · right; right; left
    have : ((2 : ℤ) : ℝ) * (π / 3) = π - π / 3 := by push_cast; ring
    rw [this, Real.cos_pi_sub, Real.sin_pi_sub]; simp
  · right; right; right; left
    have : ((3 : ℤ) : ℝ) * (π / 3) = π := by push_cast; ring
    rw [this]; simp
  · right; right; right; right; left
    have : ((4 : ℤ) : ℝ) * (π / 3) = π / 3 + π := by push_cast; ring
    rw [this, Real.cos_add_pi, Real.sin_add_pi]; simp
  · right; right; right; right; right
    have : ((5 : ℤ) : ℝ) * (π / 3) = -(π / 3) + 2 * π := by push_cast; ring
    rw [this, Real.cos_add_two_pi, Real.sin_add_two_pi]; simp

theorem square_comb (L : Lattice) (h : Lattice.new (.name "square") = .ok L) (m n : ℤ) :
    comb L.b1 L.b2 m n = (2 * π * m, 2 * π * n) := by
  cases h
  simp [comb, mkLattice, V3.scale, V3.cross, V3.dot]
  constructor <;> ring

theorem hex_comb (L : Lattice) (h : Lattice.new (.name "hexagonal") = .ok L) (m n : ℤ) :
    comb L.b1 L.b2 m n = (2 * π * (m + n), 2 * π * (m - n) / √3) := by
  cases h
  exact hex_b m n

/-- **C87 (square axes).** The mirror axes through the origin of the reciprocal lattice of the square
lattice are exactly the multiples of 45 degrees, i.e. the accepted directions. -/
theorem C87_square_axes (L : Lattice) (h : Lattice.new (.name "square") = .ok L) (theta : ℝ) :
    (∀ m n : ℤ, ∃ m' n' : ℤ, mirrorVec theta (comb L.b1 L.b2 m n) = comb L.b1 L.b2 m' n') ↔
      ∃ n : ℤ, theta = 45 * n := by
  have hπ := Real.pi_pos
  constructor
  · intro hall
    obtain ⟨m', n', e⟩ := hall 1 0
    rw [← reflectG_eq, square_comb L h, square_comb L h] at e
    simp only [reflectG, Prod.mk.injEq] at e
    obtain ⟨e1, e2⟩ := e
    have c1 : cos (2 * theta * π / 180) = m' := by
      have : 2 * π * (cos (2 * theta * π / 180) - m') = 0 := by push_cast at e1; linear_combination e1
      rcases mul_eq_zero.1 this with h | h
      · exact absurd h (by positivity)
      · linarith
    have c2 : sin (2 * theta * π / 180) = n' := by
      have : 2 * π * (sin (2 * theta * π / 180) - n') = 0 := by push_cast at e2; linear_combination e2
      rcases mul_eq_zero.1 this with h | h
      · exact absurd h (by positivity)
      · linarith
    have hsq := Real.sin_sq_add_cos_sq (2 * theta * π / 180)
    rw [c1, c2] at hsq
    have hsq' : n' ^ 2 + m' ^ 2 = 1 := by exact_mod_cast hsq
    have hprod : n' * m' = 0 := by
      by_contra hne
      have ha := mul_ne_zero_iff.1 hne
      have h1 : 0 < n' ^ 2 := by have := ha.1; positivity
      have h2 : 0 < m' ^ 2 := by have := ha.2; positivity
      omega
    have hs : sin (2 * (2 * theta * π / 180)) = 0 := by
      rw [Real.sin_two_mul, c1, c2]
      have : (n' : ℝ) * m' = 0 := by exact_mod_cast hprod
      linear_combination 2 * this
    obtain ⟨k, hk⟩ := Real.sin_eq_zero_iff.1 hs
    refine ⟨k, ?_⟩
    have : π * (theta - 45 * k) = 0 := by linear_combination (-45) * hk
    rcases mul_eq_zero.1 this with h | h
    · exact absurd h hπ.ne'
    · linarith
  · rintro ⟨k, rfl⟩ m n
    have e : 2 * (45 * (k : ℝ)) * π / 180 = k * (π / 2) := by ring
    rw [← reflectG_eq, square_comb L h]
    simp only [reflectG, e]
    rcases cos_sin_quarter k with ⟨hc, hs⟩ | ⟨hc, hs⟩ | ⟨hc, hs⟩ | ⟨hc, hs⟩ <;> rw [hc, hs]
    · exact ⟨m, -n, by rw [square_comb L h]; push_cast; ext <;> simp⟩
    · exact ⟨n, m, by rw [square_comb L h]; ext <;> simp⟩
    · exact ⟨-m, n, by rw [square_comb L h]; push_cast; ext <;> simp⟩
    · exact ⟨-n, -m, by rw [square_comb L h]; push_cast; ext <;> simp⟩

/-- **C87 (hexagonal axes).** The mirror axes through the origin of the reciprocal lattice of the
hexagonal lattice are exactly the multiples of 30 degrees. -/
theorem C87_hexagonal_axes (L : Lattice) (h : Lattice.new (.name "hexagonal") = .ok L) (theta : ℝ) :
    (∀ m n : ℤ, ∃ m' n' : ℤ, mirrorVec theta (comb L.b1 L.b2 m n) = comb L.b1 L.b2 m' n') ↔
      ∃ n : ℤ, theta = 30 * n := by
  have hπ := Real.pi_pos
  have h3 : (√3 : ℝ) * √3 = 3 := Real.mul_self_sqrt (by norm_num)
  have h3p : (0 : ℝ) < √3 := Real.sqrt_pos.2 (by norm_num)
  constructor
  · intro hall
    obtain ⟨m', n', e⟩ := hall 1 1
    rw [← reflectG_eq, hex_comb L h, hex_comb L h] at e
    simp only [reflectG, Prod.mk.injEq] at e
    obtain ⟨e1, e2⟩ := e
    set s := sin (2 * theta * π / 180) with hs
    set c := cos (2 * theta * π / 180) with hc
    have c1 : 2 * c = m' + n' := by
      have : 2 * π * (2 * c - (m' + n')) = 0 := by push_cast at e1; linear_combination e1
      rcases mul_eq_zero.1 this with h | h
      · exact absurd h (by positivity)
      · linarith
    have c2 : 2 * √3 * s = m' - n' := by
      have e2' : s * (2 * π * 2) * √3 = 2 * π * (m' - n') := by
        field_simp at e2
        push_cast at e2
        linear_combination (2 * π) * e2
      have : 2 * π * (2 * √3 * s - (m' - n')) = 0 := by linear_combination e2'
      rcases mul_eq_zero.1 this with h | h
      · exact absurd h (by positivity)
      · linarith
    have hsq : s ^ 2 + c ^ 2 = 1 := Real.sin_sq_add_cos_sq _
    have h12 : (3 : ℝ) * (m' + n') ^ 2 + (m' - n') ^ 2 = 12 := by
      rw [← c1, ← c2]
      linear_combination 12 * hsq + 4 * s ^ 2 * h3
    have h12' : 3 * (m' + n') ^ 2 + (m' - n') ^ 2 = 12 := by exact_mod_cast h12
    obtain ⟨d, hd⟩ : ∃ d, d = m' - n' := ⟨_, rfl⟩
    have hd3 : d = 0 ∨ d = 3 ∨ d = -3 := by
      rw [← hd] at h12'
      have hle : d ^ 2 ≤ 12 := by nlinarith [sq_nonneg (m' + n')]
      have hlo : -4 < d := by nlinarith
      have hhi : d < 4 := by nlinarith
      have hm : d ^ 2 % 3 = 0 := by omega
      clear hd h12' hle
      interval_cases d <;> revert hm <;> decide
    have hs3 : sin (3 * (2 * theta * π / 180)) = 0 := by
      rw [Real.sin_three_mul, ← hs]
      have hdr : 2 * √3 * s = d := by rw [c2, hd]; push_cast; ring
      have h4 : 12 * s ^ 2 = d ^ 2 := by rw [← hdr]; linear_combination (-4 * s ^ 2) * h3
      rcases hd3 with h | h | h
      · rw [h] at h4
        have : s = 0 := by
          have : s ^ 2 = 0 := by push_cast at h4; linarith
          exact pow_eq_zero_iff (two_ne_zero) |>.1 this
        rw [this]; ring
      · rw [h] at h4; push_cast at h4; linear_combination (-s / 3) * h4
      · rw [h] at h4; push_cast at h4; linear_combination (-s / 3) * h4
    obtain ⟨k, hk⟩ := Real.sin_eq_zero_iff.1 hs3
    refine ⟨k, ?_⟩
    have : π * (theta - 30 * k) = 0 := by linear_combination (-30) * hk
    rcases mul_eq_zero.1 this with h | h
    · exact absurd h hπ.ne'
    · linarith
  · rintro ⟨k, rfl⟩ m n
    have e : 2 * (30 * (k : ℝ)) * π / 180 = k * (π / 3) := by ring
    rw [← reflectG_eq, hex_comb L h]
    simp only [reflectG, e]
    have hne := h3p.ne'
    have h3' : (√3 : ℝ) ^ 2 = 3 := by rw [pow_two]; exact h3
    rcases cos_sin_sixth k with ⟨hc, hs⟩ | ⟨hc, hs⟩ | ⟨hc, hs⟩ | ⟨hc, hs⟩ | ⟨hc, hs⟩ | ⟨hc, hs⟩ <;>
      rw [hc, hs]
    · refine ⟨n, m, ?_⟩
      rw [hex_comb L h]; ext <;> simp only <;> field_simp <;> ring
    · refine ⟨m + n, -n, ?_⟩
      rw [hex_comb L h]; push_cast; ext <;> simp only <;> field_simp <;> (try rw [h3']) <;> ring
    · refine ⟨m, -m - n, ?_⟩
      rw [hex_comb L h]; push_cast; ext <;> simp only <;> field_simp <;> (try rw [h3']) <;> ring
    · refine ⟨-n, -m, ?_⟩
      rw [hex_comb L h]; push_cast; ext <;> simp only <;> field_simp <;> ring
    · refine ⟨-m - n, n, ?_⟩
      rw [hex_comb L h]; push_cast; ext <;> simp only <;> field_simp <;> (try rw [h3']) <;> ring
    · refine ⟨-m, m + n, ?_⟩
      rw [hex_comb L h]; push_cast; ext <;> simp only <;> field_simp <;> (try rw [h3']) <;> ring

/-- **C87 (rectangular axes).** For a lattice given by vectors along `x` and `y`, the accepted
multiples of 90 degrees are mirror axes of the reciprocal lattice. -/
theorem C87_rectangular_axes (a b : ℝ) (ha : 0 < a) (hb : 0 < b) (L : Lattice)
    (h : Lattice.new (.vecs (a, 0) (0, b)) = .ok L) (k : ℤ) :
    L.type = .rectangular ∧
    ∀ m n : ℤ, ∃ m' n' : ℤ, mirrorVec (90 * k) (comb L.b1 L.b2 m n) = comb L.b1 L.b2 m' n' := by
  have e : 2 * (90 * (k : ℝ)) * π / 180 = ((2 * k : ℤ) : ℝ) * (π / 2) := by push_cast; ring
  have hcs := cos_sin_quarter (2 * k)
  have hs : sin (((2 * k : ℤ) : ℝ) * (π / 2)) = 0 := by
    have : ((2 * k : ℤ) : ℝ) * (π / 2) = k * π := by push_cast; ring
    rw [this, Real.sin_int_mul_pi]
  cases h
  have hne := ha.ne'
  have hne' := hb.ne'
  have hb : ∀ m n : ℤ, comb (mkLattice .rectangular ⟨a, 0, 0⟩ ⟨0, b, 0⟩).b1
      (mkLattice .rectangular ⟨a, 0, 0⟩ ⟨0, b, 0⟩).b2 m n = (2 * π * m / a, 2 * π * n / b) := by
    intro m n
    simp only [comb, mkLattice, V3.scale, V3.cross, V3.dot]
    ext
    · simp only; field_simp; ring
    · simp only; field_simp; ring
  refine ⟨by simp [mkLattice], ?_⟩
  intro m n
  have hb' : ∀ t m n, comb (mkLattice t ⟨a, 0, 0⟩ ⟨0, b, 0⟩).b1
      (mkLattice t ⟨a, 0, 0⟩ ⟨0, b, 0⟩).b2 m n = (2 * π * m / a, 2 * π * n / b) := fun t => hb
  simp only [hb', ← reflectG_eq, reflectG, e, hs]
  rcases hcs with ⟨hc, -⟩ | ⟨hc, h1⟩ | ⟨hc, -⟩ | ⟨hc, h1⟩
  · exact ⟨m, -n, by rw [hc]; push_cast; ext <;> simp; ring⟩
  · rw [hs] at h1; norm_num at h1
  · exact ⟨-m, n, by rw [hc]; push_cast; ext <;> simp; ring⟩
  · rw [hs] at h1; norm_num at h1

/-- The mirror in the `x` axis of the lattice with periods 1 and 2. -/
example : ∃ L, Lattice.new (.vecs (1, 0) (0, 2)) = .ok L ∧ L.type = .rectangular :=
  ⟨_, rfl, by simp [mkLattice]⟩

/-- The mirror keeps lengths. -/
theorem mirror_norm (theta : ℝ) (v : ℝ × ℝ) :
    (mirrorVec theta v).1 ^ 2 + (mirrorVec theta v).2 ^ 2 = v.1 ^ 2 + v.2 ^ 2 := by
  rw [← reflectG_eq]
  have hs := Real.sin_sq_add_cos_sq (2 * theta * π / 180)
  simp only [reflectG]
  linear_combination (v.1 ^ 2 + v.2 ^ 2) * hs

theorem window_small (b1 b2 : ℝ × ℝ) (gmax : ℝ) (h1 : 1e-8 ≤ gmax) (h2 : gmax ≤ 1e8)
    (hb1 : 2 * π ≤ norm2 b1) (hb2 : 2 * π ≤ norm2 b2) :
    ((absWindow b1 b2 gmax).length : ℝ) * 1e-10 ≤ gmax / 2 := by
  have hπ := Real.pi_pos
  have hn : ∀ b : ℝ × ℝ, 2 * π ≤ norm2 b → (nmaxOf (4 * π) gmax b : ℝ) ≤ 2 * gmax := by
    intro b hb
    have hg0 : 0 ≤ gmax := le_trans (by norm_num) h1
    have hb0 : 0 ≤ norm2 b := Real.sqrt_nonneg _
    have h0 : 0 ≤ 4 * π * gmax / norm2 b := by positivity
    refine (Nat.floor_le h0).trans ?_
    rw [div_le_iff₀ (by linarith)]
    nlinarith [mul_le_mul_of_nonneg_left hb (show 0 ≤ 2 * gmax by linarith)]
  have ha := hn b1 hb1
  have hb := hn b2 hb2
  rw [absWindow, tbtInds_length]
  push_cast
  have hp : (2 * (nmaxOf (4 * π) gmax b1 : ℝ) + 1) * (2 * (nmaxOf (4 * π) gmax b2 : ℝ) + 1) ≤
      (4 * gmax + 1) * (4 * gmax + 1) := by
    apply mul_le_mul <;> linarith
  norm_num at h1 h2 ⊢
  nlinarith

/-- **C87 (plane waves).** With the `'abs'` truncation on the square or hexagonal lattice, the
plane-wave set of every cutoff between `1e-8` and `1e8` is invariant under the mirror of every
accepted axis. -/
theorem C87_invariant (s : String) (L : Lattice) (h : Lattice.new (.name s) = .ok L) (step : ℕ)
    (hstep : axisStep L.type = some step) (gmax : ℝ) (h1 : 1e-8 ≤ gmax) (h2 : gmax ≤ 1e8) (k : ℤ)
    (g : ℝ × ℝ) (hg : g ∈ gvecAbs L.b1 L.b2 gmax) :
    mirrorVec (step * k) g ∈ gvecAbs L.b1 L.b2 gmax := by
  have hπ := Real.pi_pos
  have hg0 : 0 < gmax := lt_of_lt_of_le (by norm_num) h1
  have hnew : (s = "square" ∧ L.type = .square) ∨ (s = "hexagonal" ∧ L.type = .hexagonal) := by
    unfold Lattice.new parseLatInput at h
    dsimp only at h
    split_ifs at h with h1 h2
    · cases h; exact .inl ⟨h1, rfl⟩
    · cases h; exact .inr ⟨h2, rfl⟩
  rcases hnew with ⟨rfl, ht⟩ | ⟨rfl, ht⟩
  · rw [ht] at hstep; cases hstep
    have hL := fun m n => ((C87_square_axes L h (((45 : ℕ) : ℝ) * k)).2 ⟨k, by norm_num⟩) m n
    have e1 : L.b1 = (2 * π, 0) := by have := square_comb L h 1 0; simpa [comb] using this
    have e2 : L.b2 = (0, 2 * π) := by have := square_comb L h 0 1; simpa [comb] using this
    have n1 : √(L.b1.1 ^ 2 + L.b1.2 ^ 2) = 2 * π := by
      rw [e1]; simp only; rw [show (2 * π) ^ 2 + 0 ^ 2 = (2 * π) ^ 2 by ring, Real.sqrt_sq (by positivity)]
    have n2 : √(L.b2.1 ^ 2 + L.b2.2 ^ 2) = 2 * π := by
      rw [e2]; simp only; rw [show 0 ^ 2 + (2 * π) ^ 2 = (2 * π) ^ 2 by ring, Real.sqrt_sq (by positivity)]
    have hw := window_small L.b1 L.b2 gmax h1 h2 n1.ge n2.ge
    have hdet : L.b1.1 * L.b2.2 - L.b1.2 * L.b2.1 = (2 * π) ^ 2 := by rw [e1, e2]; ring
    refine C18_symmetric_partial L.b1 L.b2 gmax hg0.le (by rw [hdet]; positivity) ?_
      (mirrorVec (((45 : ℕ) : ℝ) * k)) (mirror_norm _) hL g hg
    rw [n1, n2, hdet, abs_of_pos (by positivity)]
    nlinarith [sq_nonneg π, mul_pos hπ hπ]
  · rw [ht] at hstep; cases hstep
    have h3 : (√3 : ℝ) * √3 = 3 := Real.mul_self_sqrt (by norm_num)
    have h3p : (0 : ℝ) < √3 := Real.sqrt_pos.2 (by norm_num)
    have hL := fun m n => ((C87_hexagonal_axes L h (((30 : ℕ) : ℝ) * k)).2 ⟨k, by norm_num⟩) m n
    have e1 : L.b1 = (2 * π, 2 * π / √3) := by have := hex_comb L h 1 0; simpa [comb] using this
    have e2 : L.b2 = (2 * π, -(2 * π) / √3) := by
      have := hex_comb L h 0 1
      simpa [comb] using this
    have hq : (2 * π / √3) ^ 2 = (2 * π) ^ 2 / 3 := by rw [div_pow, Real.sq_sqrt (by norm_num)]
    have hq' : (-(2 * π) / √3) ^ 2 = (2 * π) ^ 2 / 3 := by
      rw [div_pow, Real.sq_sqrt (by norm_num)]; ring
    have nn : √((2 * π) ^ 2 + (2 * π) ^ 2 / 3) = 4 * π / √3 := by
      rw [show (2 * π) ^ 2 + (2 * π) ^ 2 / 3 = (4 * π / √3) ^ 2 by
        rw [div_pow, Real.sq_sqrt (by norm_num)]; ring, Real.sqrt_sq (by positivity)]
    have n1 : √(L.b1.1 ^ 2 + L.b1.2 ^ 2) = 4 * π / √3 := by
      rw [e1]; simp only; rw [hq, nn]
    have n2 : √(L.b2.1 ^ 2 + L.b2.2 ^ 2) = 4 * π / √3 := by
      rw [e2]; simp only; rw [hq', nn]
    have h32 : √3 ≤ 2 := by nlinarith
    have hge : 2 * π ≤ 4 * π / √3 := by
      rw [le_div_iff₀ h3p]; nlinarith
    have hw := window_small L.b1 L.b2 gmax h1 h2 (hge.trans n1.ge) (hge.trans n2.ge)
    have hdet : L.b1.1 * L.b2.2 - L.b1.2 * L.b2.1 = -(8 * π ^ 2 / √3) := by rw [e1, e2]; ring
    have hpos : 0 < 8 * π ^ 2 / √3 := by positivity
    refine C18_symmetric_partial L.b1 L.b2 gmax hg0.le (by rw [hdet]; linarith) ?_
      (mirrorVec (((30 : ℕ) : ℝ) * k)) (mirror_norm _) hL g hg
    rw [n1, n2, hdet, abs_neg, abs_of_pos hpos]
    have e4 : 4 * π / √3 * (4 * π / √3) = 8 * π ^ 2 / √3 * (2 / √3) := by field_simp; ring
    have h53 : 2 / √3 ≤ 4 / 3 := by rw [div_le_iff₀ h3p]; nlinarith
    rw [e4]
    have : (gmax + (absWindow L.b1 L.b2 gmax).length * 1e-10) * (2 / √3) ≤ 2 * gmax := by
      have ha : gmax + (absWindow L.b1 L.b2 gmax).length * 1e-10 ≤ 3 / 2 * gmax := by linarith
      calc _ ≤ (3 / 2 * gmax) * (4 / 3) := by
            apply mul_le_mul ha h53 (by positivity) (by positivity)
        _ = _ := by ring
    nlinarith

theorem indG_found (gs : List (ℝ × ℝ)) (g : ℝ × ℝ) (h : g ∈ gs) : ∃ i, indG gs g = .ok i := by
  unfold indG
  cases hf : gs.findIdx? (fun v => decide (|v.1 - g.1| < 1e-7 ∧ |v.2 - g.2| < 1e-7)) with
  | some i => exact ⟨i, rfl⟩
  | none =>
    rw [List.findIdx?_eq_none_iff] at hf
    have := hf g h
    simp at this
    norm_num at this

theorem mapM_all_ok {α β : Type} (f : α → Except PyErr β) (l : List α) (h : ∀ a ∈ l, ∃ b, f a = .ok b) :
    ∃ r, l.mapM f = .ok r := by
  induction l with
  | nil => exact ⟨[], rfl⟩
  | cons a l ih =>
    obtain ⟨b, hb⟩ := h a (by simp)
    obtain ⟨r, hr⟩ := ih fun a ha => h a (by simp [ha])
    exact ⟨b :: r, by simp [List.mapM_cons, hb, hr, bind, Except.bind, pure, Except.pure]⟩

/-- **C87 (separation runs).** On the square and hexagonal lattices with the `'abs'` truncation, for a
wavevector along an accepted axis, the partner of every plane wave of a guided mode is found, when the
mode uses the plane waves whose `|k + G|` passes some test: the separation raises no error there. -/
theorem C87_found (s : String) (L : Lattice) (h : Lattice.new (.name s) = .ok L) (step : ℕ)
    (hstep : axisStep L.type = some step) (gmax : ℝ) (h1 : 1e-8 ≤ gmax) (h2 : gmax ≤ 1e8) (n : ℤ)
    (kappa : ℝ) (test : ℝ → Bool) :
    ∃ r, reflIdx (step * n) ((gvecAbs L.b1 L.b2 gmax).filter fun g =>
      test (√((kappa * cos (step * n * π / 180) + g.1) ^ 2 + (kappa * sin (step * n * π / 180) + g.2) ^ 2)))
      = .ok r := by
  apply mapM_all_ok
  intro g hg
  rw [List.mem_filter] at hg
  rw [reflectG_eq]
  apply indG_found
  rw [List.mem_filter]
  refine ⟨C87_invariant s L h step hstep gmax h1 h2 n g hg.1, ?_⟩
  rw [← hg.2]
  congr 2
  have hs := Real.sin_sq_add_cos_sq (step * n * π / 180)
  simp only [mirrorVec]
  set c := cos (step * n * π / 180)
  set t := sin (step * n * π / 180)
  linear_combination (4 * (g.1 * -t + g.2 * c) ^ 2) * hs

/-- The square lattice with cutoff 3 and the axis at 45 degrees meets the hypotheses. -/
example : ∃ L, Lattice.new (.name "square") = .ok L ∧ axisStep L.type = some 45 ∧
    (1e-8 : ℝ) ≤ 3 ∧ (3 : ℝ) ≤ 1e8 ∧ ∃ r, reflIdx (((45 : ℕ) : ℝ) * (1 : ℤ))
      ((gvecAbs L.b1 L.b2 3).filter fun g => (fun _ => true)
        (√((1 * cos (((45 : ℕ) : ℝ) * (1 : ℤ) * π / 180) + g.1) ^ 2 +
          (1 * sin (((45 : ℕ) : ℝ) * (1 : ℤ) * π / 180) + g.2) ^ 2))) = .ok r :=
  ⟨_, rfl, rfl, by norm_num, by norm_num,
    C87_found "square" _ rfl 45 rfl 3 (by norm_num) (by norm_num) 1 1 fun _ => true⟩

/-- **The same lattice given by its vectors.** `Lattice([1, 0], [0, 1])` is of rectangular type, and
the diagonal, accepted for `Lattice('square')`, raises `ValueError`. -/
theorem C87_square_by_vectors : ∃ L L', Lattice.new (.name "square") = .ok L ∧
    Lattice.new (.vecs (1, 0) (0, 1)) = .ok L' ∧ L.b1 = L'.b1 ∧ L.b2 = L'.b2 ∧
    (∃ d, reflMat L.type [45] = .ok d) ∧ reflMat L'.type [45] = .error .valueError := by
  have ht : ((if (1 : ℝ) * 0 + 0 * 1 + 0 * 0 = 0 then LatType.rectangular else .custom)) = .rectangular := by
    norm_num
  refine ⟨_, _, rfl, rfl, rfl, rfl, ?_, ?_⟩
  · exact (C87_accept .square [45]).1.2
      ⟨45, rfl, fun a ha => ⟨1, by norm_num, by simp at ha; rw [ha]; norm_num⟩⟩
  · simp only [mkLattice, ht]
    apply (C87_accept .rectangular [45]).2.2
    intro d hd
    obtain ⟨step, hst, hall⟩ := (C87_accept .rectangular [_]).1.1 ⟨d, hd⟩
    cases hst
    obtain ⟨n, -, hn⟩ := hall _ (List.mem_singleton.2 rfl)
    rw [abs_le] at hn
    push_cast at hn
    norm_num at hn
    have h3 : (n : ℝ) < 1 := by linarith
    have h4 : (0 : ℝ) < n := by linarith
    have h3' : n < 1 := by exact_mod_cast h3
    have h4' : 0 < n := by exact_mod_cast h4
    omega

/-- **Rectangular lattices that are not aligned with the axes.** For the rectangular lattice along
`(3, 4)` and `(-8, 6)`, the direction 0 is accepted though the mirror in the `x` axis does not keep the
reciprocal lattice, and the direction of `(3, 4)`, a mirror axis, is rejected. -/
theorem C87_rotated_rectangular : ∃ L, Lattice.new (.vecs (3, 4) (-8, 6)) = .ok L ∧
    (∃ d, reflMat L.type [0] = .ok d) ∧
    (¬ ∃ m n : ℤ, mirrorVec 0 (comb L.b1 L.b2 1 0) = comb L.b1 L.b2 m n) ∧
    ∃ theta : ℝ, (3 : ℝ) = 5 * cos (theta * π / 180) ∧ 4 = 5 * sin (theta * π / 180) ∧
      (∀ m n : ℤ, ∃ m' n' : ℤ, mirrorVec theta (comb L.b1 L.b2 m n) = comb L.b1 L.b2 m' n') ∧
      reflMat L.type [theta] = .error .valueError := by
  have hπ := Real.pi_pos
  refine ⟨_, rfl, ?_⟩
  have ht : ((if (3 : ℝ) * -8 + 4 * 6 + 0 * 0 = 0 then LatType.rectangular else .custom)) = .rectangular := by
    norm_num
  have hb : ∀ m n : ℤ, comb (mkLattice .rectangular ⟨3, 4, 0⟩ ⟨-8, 6, 0⟩).b1
      (mkLattice .rectangular ⟨3, 4, 0⟩ ⟨-8, 6, 0⟩).b2 m n =
      (2 * π * (3 * m - 2 * n) / 25, 2 * π * (8 * m + 3 * n) / 50) := by
    intro m n
    simp only [comb, mkLattice, V3.scale, V3.cross, V3.dot]
    ext
    · simp only; norm_num; ring
    · simp only; norm_num; ring
  simp only [ht, hb, ← reflectG_eq]
  refine ⟨?_, ?_, arccos (3 / 5) * 180 / π, ?_⟩
  · exact (C87_accept .rectangular [0]).1.2 ⟨90, rfl, fun a ha => ⟨0, by norm_num, by simp at ha; rw [ha]; norm_num⟩⟩
  · rintro ⟨m, n, e⟩
    simp only [reflectG, Prod.mk.injEq] at e
    norm_num at e
    obtain ⟨e1, e2⟩ := e
    have c1 : (3 : ℝ) = 3 * m - 2 * n := e1
    have c2 : (-8 : ℝ) = 8 * m + 3 * n := by
      have : 2 * π * (-8 - (8 * m + 3 * n)) = 0 := by linear_combination 50 * e2
      rcases mul_eq_zero.1 this with h | h
      · exact absurd h (by positivity)
      · linarith
    have c1' : 3 = 3 * m - 2 * n := by exact_mod_cast c1
    have c2' : -8 = 8 * m + 3 * n := by exact_mod_cast c2
    omega
  · have e : arccos (3 / 5) * 180 / π * π / 180 = arccos (3 / 5) := by field_simp
    have hc : cos (arccos (3 / 5)) = 3 / 5 := Real.cos_arccos (by norm_num) (by norm_num)
    have hs : sin (arccos (3 / 5)) = 4 / 5 := by
      rw [Real.sin_arccos, show (1 : ℝ) - (3 / 5) ^ 2 = (4 / 5) ^ 2 by norm_num]
      exact Real.sqrt_sq (by norm_num)
    refine ⟨by rw [e, hc]; norm_num, by rw [e, hs]; norm_num, ?_, ?_⟩
    · intro m n
      refine ⟨m, -n, ?_⟩
      rw [reflectG_eq]
      simp only [mirrorVec, e, hc, hs]
      push_cast
      ext <;> simp only <;> ring
    · apply (C87_accept .rectangular [_]).2.2
      intro d hd
      obtain ⟨step, hst, hall⟩ := (C87_accept .rectangular [_]).1.1 ⟨d, hd⟩
      cases hst
      obtain ⟨n, -, hn⟩ := hall _ (List.mem_singleton.2 rfl)
      have h1 : arccos (3 / 5) < π / 3 := by
        by_contra hlt
        have := Real.cos_le_cos_of_nonneg_of_le_pi (by positivity) (Real.arccos_le_pi (3 / 5)) (not_lt.1 hlt)
        rw [hc, Real.cos_pi_div_three] at this
        norm_num at this
      have h2 : π / 4 < arccos (3 / 5) := by
        by_contra hlt
        have := Real.cos_le_cos_of_nonneg_of_le_pi (Real.arccos_nonneg (3 / 5)) (by linarith) (not_lt.1 hlt)
        rw [hc, Real.cos_pi_div_four] at this
        have h2 : (√2 : ℝ) * √2 = 2 := Real.mul_self_sqrt (by norm_num)
        nlinarith [Real.sqrt_nonneg 2]
      have h1' : arccos (3 / 5) * 180 / π < 60 := by rw [div_lt_iff₀ hπ]; linarith
      have h2' : 45 < arccos (3 / 5) * 180 / π := by rw [lt_div_iff₀ hπ]; linarith
      rw [abs_le] at hn
      push_cast at hn
      norm_num at hn
      have h3 : (n : ℝ) < 1 := by linarith
      have h4 : (0 : ℝ) < n := by linarith
      have h3' : n < 1 := by exact_mod_cast h3
      have h4' : 0 < n := by exact_mod_cast h4
      omega

theorem mapM_err {α β : Type} (f : α → Except PyErr β) (e : PyErr) (l : List α)
    (h : ∀ a ∈ l, (∃ b, f a = .ok b) ∨ f a = .error e) (hx : ∃ a ∈ l, f a = .error e) :
    l.mapM f = .error e := by
  induction l with
  | nil => obtain ⟨a, ha, -⟩ := hx; cases ha
  | cons a l ih =>
    rcases h a (by simp) with ⟨b, hb⟩ | hb
    · have hx' : ∃ a ∈ l, f a = .error e := by
        obtain ⟨c, hc, he⟩ := hx
        rcases List.mem_cons.1 hc with rfl | hc
        · rw [hb] at he; cases he
        · exact ⟨c, hc, he⟩
      have := ih (fun a ha => h a (by simp [ha])) hx'
      simp [List.mapM_cons, hb, this, bind, Except.bind]
    · simp [List.mapM_cons, hb, bind, Except.bind]

theorem near_int (d : ℝ) (hd : 1 ≤ d) (a b : ℤ) (h : |d * a - d * b| < 1e-7) : a = b := by
  by_contra hne
  have h1 : (1 : ℝ) ≤ |(a : ℝ) - b| := by
    have : (1 : ℤ) ≤ |a - b| := Int.one_le_abs (sub_ne_zero.2 hne)
    exact_mod_cast this
  rw [← mul_sub, abs_mul, abs_of_pos (by linarith)] at h
  norm_num at h
  nlinarith

/-- **`'tbt'` truncation.** On the hexagonal lattice with the parallelogram truncation the partner of
some plane wave is missing for the axis at 30 degrees, as soon as the set has more than one vector
along a primitive vector: the separation raises `ValueError`. -/
theorem C87_tbt_hexagonal (L : Lattice) (h : Lattice.new (.name "hexagonal") = .ok L) (gmax : ℝ)
    (hg : 2 / √3 ≤ gmax) : reflIdx 30 (gvecTbt L.b1 L.b2 gmax) = .error .valueError := by
  have hπ := Real.pi_pos
  have h3 : (√3 : ℝ) * √3 = 3 := Real.mul_self_sqrt (by norm_num)
  have h3p : (0 : ℝ) < √3 := Real.sqrt_pos.2 (by norm_num)
  have hg0 : 0 < gmax := lt_of_lt_of_le (by positivity) hg
  have e1 : L.b1 = (2 * π, 2 * π / √3) := by have := hex_comb L h 1 0; simpa [comb] using this
  have e2 : L.b2 = (2 * π, -(2 * π) / √3) := by have := hex_comb L h 0 1; simpa [comb] using this
  have nn : √((2 * π) ^ 2 + (2 * π) ^ 2 / 3) = 4 * π / √3 := by
    rw [show (2 * π) ^ 2 + (2 * π) ^ 2 / 3 = (4 * π / √3) ^ 2 by
      rw [div_pow, Real.sq_sqrt (by norm_num)]; ring, Real.sqrt_sq (by positivity)]
  have n1 : √(L.b1.1 ^ 2 + L.b1.2 ^ 2) = 4 * π / √3 := by
    rw [e1]; simp only; rw [div_pow, Real.sq_sqrt (by norm_num), nn]
  have n2 : √(L.b2.1 ^ 2 + L.b2.2 ^ 2) = 4 * π / √3 := by
    rw [e2]; simp only; rw [div_pow, Real.sq_sqrt (by norm_num), neg_sq, nn]
  have hb : 0 < 4 * π / √3 := by positivity
  have mem := C17_members L.b1 L.b2 gmax hg0.le (by rw [n1]; exact hb) (by rw [n2]; exact hb)
  rw [n1, n2] at mem
  have hle : ∀ m : ℤ, |(m : ℝ)| * (4 * π / √3) ≤ 2 * π * gmax ↔ |(m : ℝ)| ≤ √3 * gmax / 2 := by
    intro m
    rw [mul_div_assoc', div_le_iff₀ h3p]
    constructor <;> intro hh <;> nlinarith
  obtain ⟨N, hN⟩ : ∃ N : ℤ, N = ⌊√3 * gmax / 2⌋ := ⟨_, rfl⟩
  have hN1 : 1 ≤ N := by
    rw [hN, Int.le_floor]
    rw [div_le_iff₀ h3p] at hg
    push_cast; linarith
  have hNle : (N : ℝ) ≤ √3 * gmax / 2 := by rw [hN]; exact Int.floor_le _
  have hNabs : |(N : ℝ)| = N := abs_of_nonneg (by exact_mod_cast (by omega : (0 : ℤ) ≤ N))
  have herr : ∀ g, (∃ b, indG (gvecTbt L.b1 L.b2 gmax) g = .ok b) ∨
      indG (gvecTbt L.b1 L.b2 gmax) g = .error .valueError := by
    intro g
    unfold indG
    cases (gvecTbt L.b1 L.b2 gmax).findIdx? (fun v => decide (|v.1 - g.1| < 1e-7 ∧ |v.2 - g.2| < 1e-7)) with
    | some i => exact .inl ⟨i, rfl⟩
    | none => exact .inr rfl
  apply mapM_err _ _ _ (fun g _ => herr _)
  refine ⟨comb L.b1 L.b2 N N, (mem _).2 ⟨N, N, rfl, (hle N).2 (by rw [hNabs]; exact hNle),
    (hle N).2 (by rw [hNabs]; exact hNle)⟩, ?_⟩
  have hr : reflectG 30 (comb L.b1 L.b2 N N) = (2 * π * N, 2 * π / √3 * ((3 * N : ℤ) : ℝ)) := by
    rw [hex_comb L h]
    have e : 2 * (30 : ℝ) * π / 180 = π / 3 := by ring
    simp only [reflectG, e, Real.cos_pi_div_three, Real.sin_pi_div_three]
    push_cast
    ext
    · simp only; ring
    · simp only; field_simp; linear_combination (2 : ℝ) * h3
  rw [hr]
  unfold indG
  have hnone : (gvecTbt L.b1 L.b2 gmax).findIdx? (fun v => decide (|v.1 - (2 * π * N)| < 1e-7 ∧
      |v.2 - (2 * π / √3 * ((3 * N : ℤ) : ℝ))| < 1e-7)) = none := by
    rw [List.findIdx?_eq_none_iff]
    intro v hv
    simp only [decide_eq_false_iff_not, not_and]
    intro hx hy
    obtain ⟨m, n, rfl, hm, -⟩ := (mem v).1 hv
    rw [hle] at hm
    rw [hex_comb L h] at hx hy
    simp only at hx hy
    have hπ3 := Real.pi_gt_three
    have c1 := near_int (2 * π) (by linarith) (m + n) N (by push_cast; exact hx)
    have c2 := near_int (2 * π / √3) (by rw [le_div_iff₀ h3p]; nlinarith) (m - n) (3 * N) (by
      push_cast at hy ⊢
      rw [show 2 * π / √3 * ((m : ℝ) - n) = 2 * π * (m - n) / √3 by ring]; exact hy)
    have hm2 : m = 2 * N := by omega
    have : m ≤ N := by
      rw [hN, Int.le_floor]
      exact (le_abs_self _).trans hm
    omega
  rw [hnone]

end Legume
