import Verif.Lemmas.Lattice
import Mathlib.Analysis.SpecialFunctions.Complex.Log

/-!
# Properties C09 - C11: lattices, Brillouin-zone paths and points
-/
namespace Legume

open Spec Real

/-! ### C09 -/

/-- **C09 (duality).** For any lattice that `Lattice(...)` constructs from non-collinear
vectors (named or custom), `a_i . b_j = 2 pi delta_ij` and
`ec_area * bz_area = 4 pi^2`, with `ec_area` the area of the unit cell. -/
theorem C09_reciprocal_dual (arg : LatArg) (L : Lattice) (h : Lattice.new arg = .ok L)
    (hnc : L.a1.1 * L.a2.2 - L.a1.2 * L.a2.1 ≠ 0) :
    dot2 L.a1 L.b1 = 2 * π ∧ dot2 L.a1 L.b2 = 0 ∧ dot2 L.a2 L.b1 = 0 ∧ dot2 L.a2 L.b2 = 2 * π ∧
    L.ecArea = |L.a1.1 * L.a2.2 - L.a1.2 * L.a2.1| ∧ L.ecArea * L.bzArea = 4 * π ^ 2 := by
  obtain ⟨t, x1, y1, x2, y2, rfl⟩ : ∃ t x1 y1 x2 y2, L = mkLattice t ⟨x1, y1, 0⟩ ⟨x2, y2, 0⟩ := by
    unfold Lattice.new parseLatInput at h
    cases arg with
    | name s =>
      dsimp only at h
      split_ifs at h
      · cases h; exact ⟨_, _, _, _, _, rfl⟩
      · cases h; exact ⟨_, _, _, _, _, rfl⟩
    | vecs a1 a2 => cases h; exact ⟨_, _, _, _, _, rfl⟩
    | other => cases h
  have hd : x1 * y2 - y1 * x2 ≠ 0 := hnc
  have hpos : 0 < |x1 * y2 - y1 * x2| := abs_pos.2 hd
  have hD1 : V3.dot ⟨x1, y1, 0⟩ (V3.cross ⟨x2, y2, 0⟩ ⟨0, 0, 1⟩) = x1 * y2 - y1 * x2 := by
    simp only [V3.dot, V3.cross]; ring
  have hD2 : V3.dot ⟨x2, y2, 0⟩ (V3.cross ⟨0, 0, 1⟩ ⟨x1, y1, 0⟩) = x1 * y2 - y1 * x2 := by
    simp only [V3.dot, V3.cross]; ring
  set D := x1 * y2 - y1 * x2 with hDdef
  have hec : (mkLattice t ⟨x1, y1, 0⟩ ⟨x2, y2, 0⟩).ecArea = |D| := by
    simp only [mkLattice, V3.norm, V3.cross]
    rw [← Real.sqrt_sq_eq_abs]
    congr 1; rw [hDdef]; ring
  have hbz : (mkLattice t ⟨x1, y1, 0⟩ ⟨x2, y2, 0⟩).bzArea = 4 * π ^ 2 / |D| := by
    simp only [mkLattice, V3.norm]
    rw [hD1, hD2]
    have : (0 : ℝ) ≤ 4 * π ^ 2 / |D| := by positivity
    rw [← Real.sqrt_sq this]
    congr 1
    rw [div_pow, sq_abs]
    simp only [V3.cross, V3.scale]
    field_simp
    rw [hDdef]; ring
  refine ⟨?_, ?_, ?_, ?_, hec, ?_⟩
  · simp only [mkLattice, hD1]; simp only [V3.cross, V3.scale, dot2]; field_simp; rw [hDdef]; ring
  · simp only [mkLattice, hD2]; simp only [V3.cross, V3.scale, dot2]; field_simp; ring
  · simp only [mkLattice, hD1]; simp only [V3.cross, V3.scale, dot2]; field_simp; ring
  · simp only [mkLattice, hD2]; simp only [V3.cross, V3.scale, dot2]; field_simp; rw [hDdef]; ring
  · rw [hec, hbz]; field_simp

/-- **C09 (plane waves are lattice-periodic).** `exp(i G.R) = 1` for every reciprocal vector
`G = m b1 + n b2` and every lattice vector `R = p a1 + q a2`. -/
theorem C09_phase_one (arg : LatArg) (L : Lattice) (h : Lattice.new arg = .ok L)
    (hnc : L.a1.1 * L.a2.2 - L.a1.2 * L.a2.1 ≠ 0) (m n p q : ℤ) :
    Complex.exp (Complex.I * (dot2 (comb L.b1 L.b2 m n) (comb L.a1 L.a2 p q) : ℝ)) = 1 := by
  obtain ⟨h11, h12, h21, h22, -, -⟩ := C09_reciprocal_dual arg L h hnc
  have e : dot2 (comb L.b1 L.b2 m n) (comb L.a1 L.a2 p q) = ((m * p + n * q : ℤ) : ℝ) * (2 * π) := by
    simp only [dot2, comb] at *
    push_cast
    linear_combination (m * p : ℝ) * h11 + (n * q : ℝ) * h22 + (m * q : ℝ) * h21 + (n * p : ℝ) * h12
  rw [e, Complex.exp_eq_one_iff]
  exact ⟨m * p + n * q, by push_cast; ring⟩

/-- Non-vacuity of C09: the hexagonal lattice and a custom oblique one. -/
example : ∃ L, Lattice.new (.name "hexagonal") = .ok L ∧ L.a1.1 * L.a2.2 - L.a1.2 * L.a2.1 ≠ 0 := by
  refine ⟨_, rfl, ?_⟩
  simp only [mkLattice]
  have : (0 : ℝ) < √3 := Real.sqrt_pos.2 (by norm_num)
  nlinarith
example : ∃ L, Lattice.new (.vecs (1, 2) (-1, 3)) = .ok L ∧ L.a1.1 * L.a2.2 - L.a1.2 * L.a2.1 ≠ 0 := by
  refine ⟨_, rfl, ?_⟩
  simp only [mkLattice]; norm_num
/-- The error branch. -/
example : Lattice.new (.name "triangular") = .error .valueError := by
  simp [Lattice.new, parseLatInput]

/-! ### C10 -/

/-- **C10.** Whenever `bz_path` returns, with `n_j` points requested on segment `j`
(`ns`, spread over all segments if a single number was given):
* there are `1 + sum n_j` k-points and one index per requested point;
* the index reported for point `j` is `n_0 + ... + n_{j-1}`;
* the `i`-th k-point of segment `j` is at fraction `i / n_j` of the straight segment from
  point `j` to point `j+1`; in particular (`i = 0`) point `j` sits at its index when
  `n_j > 0`;
* the last k-point is the last requested point, at the last index. -/
theorem C10_bz_path (L : Lattice) (pts : List PtArg) (ns : NsArg) (symmG : PtArg)
    (ks : List (ℝ × ℝ)) (inds : List Nat) (h : L.bzPath pts ns symmG = .ok (ks, inds)) :
    ∃ (N : List Nat) (P : List (ℝ × ℝ)),
      pts.mapM L.parsePoint = .ok P ∧ P.length = pts.length ∧ 2 ≤ pts.length ∧
      (ns = .list N ∨ ∃ n, ns = .list [n] ∧ N = List.replicate (pts.length - 1) n) ∧
      N.length + 1 = pts.length ∧
      ks.length = N.sum + 1 ∧ inds.length = pts.length ∧
      (∀ j, j < pts.length → inds[j]? = some (N.take j).sum) ∧
      (∀ j i n p q, N[j]? = some n → i < n → P[j]? = some p → P[j + 1]? = some q →
        ks[(N.take j).sum + i]? =
          some (p.1 + (q.1 - p.1) * ((i : ℝ) / n), p.2 + (q.2 - p.2) * ((i : ℝ) / n))) ∧
      (ks[N.sum]? = P[pts.length - 1]?) := by
  unfold Lattice.bzPath at h
  cases hN : parseNs pts.length ns with
  | error e => rw [hN] at h; cases h
  | ok N =>
    cases hP : L.parsePoints pts with
    | error e => rw [hN, hP] at h; cases h
    | ok P =>
      rw [hN, hP] at h
      cases hS : L.parsePoint symmG with
      | error e => rw [hS] at h; cases h
      | ok g =>
        rw [hS] at h
        cases h
        have hlenP : P.length = pts.length := by
          have aux : ∀ (pts : List PtArg) (P : List (ℝ × ℝ)), pts.mapM L.parsePoint = .ok P →
              P.length = pts.length := by
            intro pts
            induction pts with
            | nil => intro P h; cases h; rfl
            | cons a l ih =>
              intro P h
              rw [List.mapM_cons] at h
              cases ha : L.parsePoint a with
              | error e => rw [ha] at h; cases h
              | ok b =>
                rw [ha] at h
                cases hl : l.mapM L.parsePoint with
                | error e => rw [hl] at h; cases h
                | ok Q =>
                  rw [hl] at h; cases h
                  simp [ih Q hl]
          exact aux pts P hP
        unfold parseNs at hN
        cases ns with
        | int n => cases hN
        | list l =>
          dsimp only at hN
          have h2 : 2 ≤ pts.length := by
            by_contra hc; rw [if_pos (by omega)] at hN; cases hN
          rw [if_neg (by omega)] at hN
          have hlen : N.length + 1 = pts.length ∧
              (NsArg.list l = .list N ∨ ∃ n, NsArg.list l = .list [n] ∧ N = List.replicate (pts.length - 1) n) := by
            split_ifs at hN with h1 h3
            · cases hN
              match l, h1 with
              | [n], _ => exact ⟨by simp; omega, .inr ⟨n, rfl, rfl⟩⟩
            · cases hN
              exact ⟨by omega, .inl rfl⟩
          have hl' : P.length = N.length + 1 := by omega
          refine ⟨N, P, hP, hlenP, h2, hlen.2, hlen.1, bzLoop_length P N 0 hl', ?_, ?_, ?_, ?_⟩
          · simp only [List.length_cons, bzLoop_inds_length P N 0 hl']; omega
          · intro j hj
            cases j with
            | zero => simp
            | succ j =>
              rw [List.getElem?_cons_succ, bzLoop_inds P N 0 hl' j (by omega)]
              simp
          · intro j i n p q hn hi hp hq
            exact bzLoop_kpoints P N 0 hl' j i n p q hn hp hq hi
          · rw [bzLoop_last P N 0 hl']
            congr 1; omega

/-- **C10 (documented integer `ns`).** The documentation promises that `ns` may be a plain
integer; the code rejects every such call with `TypeError`. -/
theorem C10_int_ns_rejected (L : Lattice) (pts : List PtArg) (n : Nat) (g : PtArg) :
    L.bzPath pts (.int n) g = .error .typeError := by
  rfl

/-- Non-vacuity of C10: a path on the hexagonal lattice through three points. -/
example : ∃ ks inds, (mkLattice .hexagonal ⟨0.5, √3 / 2, 0⟩ ⟨0.5, -√3 / 2, 0⟩).bzPath
    [.name "G", .vec (1, 0), .vec (0, 2)] (.list [3, 4]) (.vec (π, 0)) = .ok (ks, inds) ∧
    inds = [0, 3, 7] := by
  have h1 : ("G".toLower = "g") := by decide +kernel
  generalize mkLattice .hexagonal ⟨0.5, √3 / 2, 0⟩ ⟨0.5, -√3 / 2, 0⟩ = L
  refine ⟨(bzLoop [(0, 0), (1, 0), (0, 2)] [3, 4] 0).1, [0, 3, 7], ?_, rfl⟩
  simp only [Lattice.bzPath, parseNs, Lattice.parsePoints, List.mapM_cons, List.mapM_nil,
    Lattice.parsePoint, h1]
  rfl

/-! ### C11 -/

/-- **C11 (square, X).** On the square lattice 'X' is resolved to a point whose distance to
Gamma is minimal among all reciprocal lattice points, and the points at that minimal
distance are exactly Gamma and `b1`: X is the midpoint of a zone edge. -/
theorem C11_square_X (L : Lattice) (h : Lattice.new (.name "square") = .ok L) (s : String)
    (hs : s.toLower = "x") :
    ∃ X, L.parsePoint (.name s) = .ok X ∧ ∀ m n : ℤ,
      dist2 X (0, 0) ≤ dist2 X (comb L.b1 L.b2 m n) ∧
      (dist2 X (comb L.b1 L.b2 m n) = dist2 X (0, 0) ↔ (m = 0 ∨ m = 1) ∧ n = 0) := by
  cases h
  refine ⟨(π, 0), by simp [Lattice.parsePoint, hs, mkLattice], ?_⟩
  intro m n
  have hπ : 0 < π ^ 2 := by positivity
  have e : dist2 (π, 0) (comb (mkLattice .square ⟨1, 0, 0⟩ ⟨0, 1, 0⟩).b1
      (mkLattice .square ⟨1, 0, 0⟩ ⟨0, 1, 0⟩).b2 m n) - dist2 (π, 0) (0, 0) =
      4 * π ^ 2 * ((m * (m - 1) + n ^ 2 : ℤ) : ℝ) := by
    simp only [dist2, comb, mkLattice, V3.scale, V3.cross, V3.dot]
    push_cast; norm_num; ring
  have hi : 0 ≤ m * (m - 1) + n ^ 2 ∧ (m * (m - 1) + n ^ 2 = 0 ↔ (m = 0 ∨ m = 1) ∧ n = 0) := by
    have h1 : 0 ≤ m * (m - 1) := by
      rcases le_or_gt m 0 with hm | hm
      · exact mul_nonneg_of_nonpos_of_nonpos hm (by omega)
      · exact mul_nonneg (by omega) (by omega)
    refine ⟨by positivity, ?_, ?_⟩
    · intro h0
      have hm : m * (m - 1) = 0 := by nlinarith [sq_nonneg n]
      have hn : n ^ 2 = 0 := by nlinarith
      refine ⟨?_, by simpa using hn⟩
      rcases mul_eq_zero.1 hm with h | h
      · exact .inl h
      · right; omega
    · rintro ⟨h | h, rfl⟩ <;> subst h <;> simp
  constructor
  · have : (0 : ℝ) ≤ ((m * (m - 1) + n ^ 2 : ℤ) : ℝ) := by exact_mod_cast hi.1
    have := mul_nonneg (mul_nonneg (by norm_num : (0 : ℝ) ≤ 4) hπ.le) this
    linarith
  · rw [← hi.2, ← sub_eq_zero, e]
    constructor
    · intro h0
      rcases mul_eq_zero.1 h0 with h0 | h0
      · exact absurd h0 (by positivity)
      · exact_mod_cast h0
    · intro h0; rw [h0]; simp

/-- A common form of C11 for a lattice of arbitrary type: if the excess squared distance is a
positive multiple of an integer form `f`, nearest points are the zeros of `f`. -/
theorem nearest_of_form (P b1 b2 : ℝ × ℝ) (c : ℝ) (hc : 0 < c) (f : ℤ → ℤ → ℤ)
    (e : ∀ m n : ℤ, dist2 P (comb b1 b2 m n) - dist2 P (0, 0) = c * (f m n : ℝ))
    (S : ℤ → ℤ → Prop) (hf : ∀ m n, 0 ≤ f m n ∧ (f m n = 0 ↔ S m n)) (m n : ℤ) :
    dist2 P (0, 0) ≤ dist2 P (comb b1 b2 m n) ∧
      (dist2 P (comb b1 b2 m n) = dist2 P (0, 0) ↔ S m n) := by
  obtain ⟨h1, h2⟩ := hf m n
  constructor
  · have : (0 : ℝ) ≤ (f m n : ℝ) := by exact_mod_cast h1
    have := mul_nonneg hc.le this
    linarith [e m n]
  · rw [← h2, ← sub_eq_zero, e]
    constructor
    · intro h0
      rcases mul_eq_zero.1 h0 with h0 | h0
      · exact absurd h0 hc.ne'
      · exact_mod_cast h0
    · intro h0; rw [h0]; simp

/-- **C11 (square, M).** 'M' is equidistant from exactly the four reciprocal lattice points
`0, b1, b2, b1+b2`, and nearer to them than to any other: a zone corner. -/
theorem C11_square_M (L : Lattice) (h : Lattice.new (.name "square") = .ok L) (s : String)
    (hs : s.toLower = "m") :
    ∃ M, L.parsePoint (.name s) = .ok M ∧ ∀ m n : ℤ,
      dist2 M (0, 0) ≤ dist2 M (comb L.b1 L.b2 m n) ∧
      (dist2 M (comb L.b1 L.b2 m n) = dist2 M (0, 0) ↔ (m = 0 ∨ m = 1) ∧ (n = 0 ∨ n = 1)) := by
  cases h
  refine ⟨(π, π), by simp [Lattice.parsePoint, hs, mkLattice], ?_⟩
  apply nearest_of_form (π, π) _ _ (4 * π ^ 2) (by positivity) (fun m n => m * (m - 1) + n * (n - 1))
  · intro m n
    simp only [dist2, comb, mkLattice, V3.scale, V3.cross, V3.dot]
    push_cast; norm_num; ring
  · have hp : ∀ m : ℤ, 0 ≤ m * (m - 1) := by
      intro m
      rcases le_or_gt m 0 with hm | hm
      · exact mul_nonneg_of_nonpos_of_nonpos hm (by omega)
      · exact mul_nonneg (by omega) (by omega)
    have hz : ∀ m : ℤ, m * (m - 1) = 0 → m = 0 ∨ m = 1 := by
      intro m h
      rcases mul_eq_zero.1 h with h | h
      · exact .inl h
      · right; omega
    intro m n
    refine ⟨add_nonneg (hp m) (hp n), ?_, ?_⟩
    · intro h0
      exact ⟨hz m (by linarith [hp m, hp n]), hz n (by linarith [hp m, hp n])⟩
    · rintro ⟨h | h, h' | h'⟩ <;> subst h <;> subst h' <;> simp

theorem hex_b (m n : ℤ) :
    let L := mkLattice .hexagonal ⟨0.5, √3 / 2, 0⟩ ⟨0.5, -√3 / 2, 0⟩
    comb L.b1 L.b2 m n = (2 * π * (m + n), 2 * π * (m - n) / √3) := by
  have h3 : (√3 : ℝ) * √3 = 3 := Real.mul_self_sqrt (by norm_num)
  have h3p : (0 : ℝ) < √3 := Real.sqrt_pos.2 (by norm_num)
  simp only [comb, mkLattice, V3.scale, V3.cross, V3.dot, Prod.mk.injEq]
  constructor
  · norm_num; field_simp; ring
  · norm_num; field_simp; ring

/-- **C11 (hexagonal, M).** 'M' is equidistant from exactly Gamma and `b1`: the midpoint of a
zone edge. -/
theorem C11_hexagonal_M (L : Lattice) (h : Lattice.new (.name "hexagonal") = .ok L) (s : String)
    (hs : s.toLower = "m") :
    ∃ M, L.parsePoint (.name s) = .ok M ∧ ∀ m n : ℤ,
      dist2 M (0, 0) ≤ dist2 M (comb L.b1 L.b2 m n) ∧
      (dist2 M (comb L.b1 L.b2 m n) = dist2 M (0, 0) ↔ (m = 0 ∨ m = 1) ∧ n = 0) := by
  cases h
  have h3 : (√3 : ℝ) ^ 2 = 3 := Real.sq_sqrt (by norm_num)
  have h3p : (√3 : ℝ) ≠ 0 := (Real.sqrt_pos.2 (by norm_num)).ne'
  refine ⟨(π, π / √3), by simp [Lattice.parsePoint, hs, mkLattice], ?_⟩
  apply nearest_of_form (π, π / √3) _ _ (8 / 3 * π ^ 2) (by positivity)
    (fun m n => 2 * m ^ 2 - 2 * m + 2 * n ^ 2 + 2 * m * n - n)
  · intro m n
    rw [hex_b m n]
    simp only [dist2]
    push_cast
    field_simp
    rw [h3]; ring
  · intro m n
    have e : 2 * (2 * m ^ 2 - 2 * m + 2 * n ^ 2 + 2 * m * n - n) = (2 * m + n - 1) ^ 2 + 3 * n ^ 2 - 1 := by ring
    have hodd : n = 0 ∨ 1 ≤ n ^ 2 := by
      rcases eq_or_ne n 0 with h | h
      · exact .inl h
      · right; have := sq_pos_of_ne_zero h; omega
    constructor
    · rcases hodd with h | h
      · subst h
        have : 0 ≤ m * (m - 1) := by
          rcases le_or_gt m 0 with hm | hm
          · exact mul_nonneg_of_nonpos_of_nonpos hm (by omega)
          · exact mul_nonneg (by omega) (by omega)
        nlinarith
      · nlinarith [sq_nonneg (2 * m + n - 1)]
    · constructor
      · intro h0
        rcases hodd with h | h
        · subst h
          refine ⟨?_, rfl⟩
          have : m * (m - 1) = 0 := by linarith
          rcases mul_eq_zero.1 this with h | h
          · exact .inl h
          · right; omega
        · exfalso; nlinarith [sq_nonneg (2 * m + n - 1)]
      · rintro ⟨h | h, rfl⟩ <;> subst h <;> simp

/-- **C11 (hexagonal, K).** 'K' is equidistant from exactly Gamma, `b1` and `b2`: a zone
corner. -/
theorem C11_hexagonal_K (L : Lattice) (h : Lattice.new (.name "hexagonal") = .ok L) (s : String)
    (hs : s.toLower = "k") :
    ∃ M, L.parsePoint (.name s) = .ok M ∧ ∀ m n : ℤ,
      dist2 M (0, 0) ≤ dist2 M (comb L.b1 L.b2 m n) ∧
      (dist2 M (comb L.b1 L.b2 m n) = dist2 M (0, 0) ↔
        (m = 0 ∧ n = 0) ∨ (m = 1 ∧ n = 0) ∨ (m = 0 ∧ n = 1)) := by
  cases h
  have h3 : (√3 : ℝ) ^ 2 = 3 := Real.sq_sqrt (by norm_num)
  have h3p : (√3 : ℝ) ≠ 0 := (Real.sqrt_pos.2 (by norm_num)).ne'
  refine ⟨(4 / 3 * π, 0), by simp [Lattice.parsePoint, hs, mkLattice], ?_⟩
  apply nearest_of_form (4 / 3 * π, 0) _ _ (16 / 3 * π ^ 2) (by positivity)
    (fun m n => m ^ 2 + n ^ 2 + m * n - m - n)
  · intro m n
    rw [hex_b m n]
    simp only [dist2]
    push_cast
    field_simp
    rw [h3]; ring
  · intro m n
    have key : 0 ≤ m ^ 2 + n ^ 2 + m * n - m - n ∧ (m ^ 2 + n ^ 2 + m * n - m - n = 0 →
        -1 ≤ m ∧ m ≤ 1 ∧ -1 ≤ n ∧ n ≤ 1) := by
      have e : 2 * (m ^ 2 + n ^ 2 + m * n - m - n) = (m + n - 1) ^ 2 + m ^ 2 + n ^ 2 - 1 := by ring
      constructor
      · by_contra hc
        push Not at hc
        have hlt : (m + n - 1) ^ 2 + m ^ 2 + n ^ 2 < 1 := by linarith
        have hm : m = 0 := by nlinarith [sq_nonneg (m + n - 1), sq_nonneg n, sq_nonneg (m-1), sq_nonneg (m+1)]
        have hn : n = 0 := by nlinarith [sq_nonneg (m + n - 1), sq_nonneg m, sq_nonneg (n-1), sq_nonneg (n+1)]
        subst hm hn; norm_num at hlt
      · intro h0
        have hle : (m + n - 1) ^ 2 + m ^ 2 + n ^ 2 = 1 := by linarith
        refine ⟨?_, ?_, ?_, ?_⟩ <;> nlinarith [sq_nonneg (m + n - 1), sq_nonneg m, sq_nonneg n]
    refine ⟨key.1, ?_, ?_⟩
    · intro h0
      obtain ⟨a, b, c, d⟩ := key.2 h0
      have hm : m = -1 ∨ m = 0 ∨ m = 1 := by omega
      have hn : n = -1 ∨ n = 0 ∨ n = 1 := by omega
      rcases hm with rfl | rfl | rfl <;> rcases hn with rfl | rfl | rfl <;> revert h0 <;> norm_num
    · rintro (⟨rfl, rfl⟩ | ⟨rfl, rfl⟩ | ⟨rfl, rfl⟩) <;> norm_num

/-- Non-vacuity of C11: both lattices exist and the names are accepted in either case. -/
example : (∃ L, Lattice.new (.name "square") = .ok L) ∧ (∃ L, Lattice.new (.name "hexagonal") = .ok L) ∧
    "X".toLower = "x" ∧ "M".toLower = "m" ∧ "k".toLower = "k" := by
  refine ⟨⟨_, rfl⟩, ⟨_, rfl⟩, ?_, ?_, ?_⟩ <;> decide +kernel

/-- **C11 (rejection).** Named points are rejected with `ValueError` on lattices that do not
have them. -/
theorem C11_wrong_lattice_rejected (L : Lattice) (s : String) :
    (s.toLower = "x" → L.type ≠ .square → L.parsePoint (.name s) = .error .valueError) ∧
    (s.toLower = "m" → L.type ≠ .square → L.type ≠ .hexagonal →
      L.parsePoint (.name s) = .error .valueError) ∧
    (s.toLower = "k" → L.type ≠ .hexagonal → L.parsePoint (.name s) = .error .valueError) := by
  refine ⟨?_, ?_, ?_⟩
  · intro h h1; simp [Lattice.parsePoint, h, h1]
  · intro h h1 h2; simp [Lattice.parsePoint, h, h1, h2]
  · intro h h1; simp [Lattice.parsePoint, h, h1]

end Legume
