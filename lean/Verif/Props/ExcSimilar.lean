import Verif.Props.ExcBands
import Verif.Props.IsoRun

/-! # C133: excitons in rotated, mirrored and rescaled wells -/
namespace Legume

open Matrix Spec
open scoped Real ComplexConjugate

/-- Well `W'` is the image of well `W`: every reciprocal lattice vector is mapped by `q`, which multiplies lengths by `c`,
so that the area of the cell is divided by `c ^ 2` and the transforms of the shapes are, and the masses and the lengths `a`
are such that `M a ^ 2` is multiplied by `c ^ 2`. -/
structure WellImage (c : ℝ) (q : R2 → R2) (W W' : ExcWell) : Prop where
  b1 : W'.b1 = q W.b1
  b2 : W'.b2 = q W.b2
  area : c ^ 2 * W'.ecArea = W.ecArea
  shapes : List.Forall₂ (fun s s' : R2 → ℂ => ∀ n : ℤ × ℤ, (c : ℂ) ^ 2 * s' (q (latVec W.b1 W.b2 n)) =
    s (latVec W.b1 W.b2 n)) W.shapes W'.shapes
  V : W'.V = W.V
  unit : W'.M * W'.a ^ 2 = c ^ 2 * (W.M * W.a ^ 2)
  E0 : W'.E0 = W.E0
  loss : W'.loss = W.loss
  hbar : W'.hbar = W.hbar
  e : W'.e = W.e

theorem Spec.Similarity.latVec {c : ℝ} {q : R2 → R2} (h : Similarity c q) (b1 b2 : R2) (n : ℤ × ℤ) :
    Spec.latVec (q b1) (q b2) n = q (Spec.latVec b1 b2 n) := by
  rw [latVec_eq, latVec_eq, h.gOf]

/-- Kinetic energies. -/
theorem excKin_image {c : ℝ} {q : R2 → R2} (hq : Similarity c q) (hbar e : ℝ) {a a' M M' : ℝ}
    (h : M' * a' ^ 2 = c ^ 2 * (M * a ^ 2)) (k g : R2) :
    excKin hbar e a' M' (q k) (q g) = excKin hbar e a M k g := by
  have hc : c ^ 2 ≠ 0 := pow_ne_zero _ hq.pos.ne'
  have key : ∀ (a M : ℝ) (x : R2), (√((x.1 / a) ^ 2 + (x.2 / a) ^ 2)) ^ 2 * hbar ^ 2 / (2 * M * e) =
      hbar ^ 2 * (x.1 * x.1 + x.2 * x.2) * (M * a ^ 2)⁻¹ * (2 * e)⁻¹ := by
    intro a M x
    rw [Real.sq_sqrt (by positivity), mul_inv, mul_inv, div_eq_mul_inv, mul_inv, mul_inv, div_pow, div_pow, div_eq_mul_inv,
      div_eq_mul_inv]
    ring
  have h1 := key a' M' (q k + q g)
  have h2 := key a M (k + g)
  simp only [Prod.fst_add, Prod.snd_add] at h1 h2
  unfold excKin
  rw [h1, h2, h, mul_inv]
  have h3 := hq.dot (k + g) (k + g)
  rw [hq.add] at h3
  simp only [Prod.fst_add, Prod.snd_add] at h3
  rw [h3, show hbar ^ 2 * (c ^ 2 * ((k.1 + g.1) * (k.1 + g.1) + (k.2 + g.2) * (k.2 + g.2))) * ((c ^ 2)⁻¹ * (M * a ^ 2)⁻¹) *
    (2 * e)⁻¹ = (c ^ 2 * (c ^ 2)⁻¹) * (hbar ^ 2 * ((k.1 + g.1) * (k.1 + g.1) + (k.2 + g.2) * (k.2 + g.2)) *
      (M * a ^ 2)⁻¹ * (2 * e)⁻¹) by ring, mul_inv_cancel₀ hc, one_mul]

/-- One round of the accumulation of the potential. -/
theorem excRound_image {q : R2 → R2} {b1 b2 : R2} (hb : Resolved b1 b2) (hb' : Resolved (q b1) (q b2)) {c : ℝ}
    (hq : Similarity c q) {A A' V : ℝ} {F F' s s' : R2 → ℂ}
    (h : ∀ n : ℤ × ℤ, (F' (q (latVec b1 b2 n)) + V * s' (q (latVec b1 b2 n))) / (A' : ℂ) =
      (F (latVec b1 b2 n) + V * s (latVec b1 b2 n)) / (A : ℂ)) (n : ℤ × ℤ) :
    excRound A' V (0, 0) F' s' (q (latVec b1 b2 n)) = excRound A V (0, 0) F s (latVec b1 b2 n) := by
  have h0 : (F' (0, 0) + V * s' (0, 0)) / (A' : ℂ) = (F (0, 0) + V * s (0, 0)) / (A : ℂ) := by
    have := h 0
    rw [latVec_zero, hq.zero] at this
    exact this
  have hg : isG0 (q (latVec b1 b2 n)) ↔ isG0 (latVec b1 b2 n) := by
    by_cases hn : n = 0
    · subst hn
      rw [latVec_zero, hq.zero]
    · have h1 := resolved_not_g0 hb hn
      have h2 := resolved_not_g0 hb' hn
      rw [hq.gOf] at h2
      rw [latVec_eq]
      exact ⟨fun h => absurd h h2, fun h => absurd h h1⟩
  have hc : (((F' (0, 0) + V * s' (0, 0)) / (A' : ℂ)).re < 0 ∨ (((F' (0, 0) + V * s' (0, 0)) / (A' : ℂ)).re = 0 ∧
      ((F' (0, 0) + V * s' (0, 0)) / (A' : ℂ)).im < 0)) ∧ isG0 (q (latVec b1 b2 n)) ↔
      (((F (0, 0) + V * s (0, 0)) / (A : ℂ)).re < 0 ∨ (((F (0, 0) + V * s (0, 0)) / (A : ℂ)).re = 0 ∧
      ((F (0, 0) + V * s (0, 0)) / (A : ℂ)).im < 0)) ∧ isG0 (latVec b1 b2 n) := by rw [h0, hg]
  unfold excRound
  simp only [h]
  split_ifs with h1 h2 h2
  · rfl
  · exact absurd (hc.1 h1) h2
  · exact absurd (hc.2 h2) h1
  · rfl

theorem WellImage.ft {c : ℝ} {q : R2 → R2} {W W' : ExcWell} (hq : Similarity c q) (h : WellImage c q W W')
    (hb : Resolved W.b1 W.b2) (hb' : Resolved W'.b1 W'.b2) (h1 : c = 1 ∨ W.shapes.length ≤ 1) (n : ℤ × ℤ) :
    W'.ft (latVec W'.b1 W'.b2 n) = W.ft (latVec W.b1 W.b2 n) := by
  have hc : (c : ℂ) ^ 2 ≠ 0 := pow_ne_zero _ (by exact_mod_cast hq.pos.ne')
  have hA : (W.ecArea : ℂ) = (c : ℂ) ^ 2 * W'.ecArea := by rw [← h.area]; push_cast; ring
  have hr := hb'
  rw [h.b1, h.b2] at hb'
  rw [h.b1, h.b2, hq.latVec]
  unfold ExcWell.ft excPot
  rw [h.V]
  have hs := h.shapes
  rcases h1 with rfl | h1
  · suffices H : ∀ (l l' : List (R2 → ℂ)) (_ : List.Forall₂ (fun s s' : R2 → ℂ => ∀ n : ℤ × ℤ,
        ((1 : ℝ) : ℂ) ^ 2 * s' (q (latVec W.b1 W.b2 n)) = s (latVec W.b1 W.b2 n)) l l') (F F' : R2 → ℂ)
        (_ : ∀ n, F' (q (latVec W.b1 W.b2 n)) = F (latVec W.b1 W.b2 n)),
        l'.foldl (excRound W'.ecArea W.V (0, 0)) F' (q (latVec W.b1 W.b2 n)) =
          l.foldl (excRound W.ecArea W.V (0, 0)) F (latVec W.b1 W.b2 n) from H _ _ hs _ _ fun _ => rfl
    intro l l' hl
    induction hl with
    | nil => intro F F' hF; exact hF n
    | cons e _ ih =>
      intro F F' hF
      refine ih _ _ fun m => ?_
      refine excRound_image hb hb' hq (fun m => ?_) m
      rw [hF, ← e, hA, Complex.ofReal_one, one_pow, one_mul, one_mul]
  · generalize W.shapes = l at hs h1
    generalize W'.shapes = l' at hs
    cases hs with
    | nil => rfl
    | @cons s s' t t' e ht =>
      have : t = [] := by simpa using h1
      subst this
      cases ht
      simp only [List.foldl_cons, List.foldl_nil]
      refine excRound_image hb hb' hq (fun m => ?_) n
      rw [← e, hA, zero_add, zero_add, show (W.V : ℂ) * ((c : ℂ) ^ 2 * s' (q (latVec W.b1 W.b2 m))) =
        (c : ℂ) ^ 2 * (W.V * s' (q (latVec W.b1 W.b2 m))) by ring, mul_div_mul_left _ _ hc]

/-- The cutoff falls on no plane wave, so that 'abs' uses it as it is. -/
def CutClear (W : ExcWell) (gmax : ℝ) : Prop :=
  ∀ n ∈ absWindow W.b1 W.b2 gmax, norm2 (gOf W.b1 W.b2 n) ≠ 2 * π * gmax

theorem gmaxEff_clear {gmax : ℝ} {l : List ℝ} (h : ∀ x ∈ l, x ≠ 2 * π * gmax) : gmaxEff gmax l = gmax := by
  unfold gmaxEff
  have : Nat.find (exists_bump gmax l) = 0 := by
    rw [Nat.find_eq_zero]
    intro hm
    exact h _ hm (by push_cast; ring)
  rw [this]
  simp

theorem WellImage.inds {c : ℝ} {q : R2 → R2} {W W' : ExcWell} (hq : Similarity c q) (h : WellImage c q W W') (t : TruncG)
    (gmax : ℝ) (h1 : c = 1 ∨ (t = .abs → CutClear W gmax)) : W'.inds t (c * gmax) = W.inds t gmax := by
  cases t with
  | tbt =>
    simp only [ExcWell.inds]
    rw [h.b1, h.b2, hq.nmaxOf, hq.nmaxOf]
  | abs =>
    simp only [ExcWell.inds]
    rcases h1 with rfl | h1
    · rw [h.b1, h.b2, one_mul, absInds_image hq]
    · have h1 := h1 rfl
      have hw : absWindow W'.b1 W'.b2 (c * gmax) = absWindow W.b1 W.b2 gmax := by
        unfold absWindow
        rw [h.b1, h.b2, hq.nmaxOf, hq.nmaxOf]
      unfold absInds
      simp only [hw]
      have hn : ∀ i, norm2 (gOf W'.b1 W'.b2 i) = c * norm2 (gOf W.b1 W.b2 i) := by
        intro i; rw [h.b1, h.b2, hq.gOf, hq.norm2]
      have e1 : gmaxEff gmax ((absWindow W.b1 W.b2 gmax).map fun i => norm2 (gOf W.b1 W.b2 i)) = gmax := by
        refine gmaxEff_clear fun x hx => ?_
        rw [List.mem_map] at hx
        obtain ⟨i, hi, rfl⟩ := hx
        exact h1 i hi
      have e2 : gmaxEff (c * gmax) ((absWindow W.b1 W.b2 gmax).map fun i => norm2 (gOf W'.b1 W'.b2 i)) = c * gmax := by
        refine gmaxEff_clear fun x hx => ?_
        rw [List.mem_map] at hx
        obtain ⟨i, hi, rfl⟩ := hx
        rw [hn, show 2 * π * (c * gmax) = c * (2 * π * gmax) by ring]
        exact fun e => h1 i hi (mul_left_cancel₀ hq.pos.ne' e)
      rw [e1, e2]
      refine List.filter_congr fun i _ => ?_
      rw [hn, show 2 * π * (c * gmax) = c * (2 * π * gmax) by ring]
      simp only [mul_le_mul_iff_right₀ hq.pos]

/-- **C133 (similar wells).** Let the reciprocal lattice vectors of a patterned well be mapped by any map which multiplies
all lengths by `c` and keeps all angles, and its shapes accordingly, the length `a` or the mass being changed so that
`M a ^ 2` is multiplied by `c ^ 2`. Then the run with the cutoff and the wave vectors mapped returns the same energies for
every list of wave vectors and any number of energies, if `c` is one or the well has at most one shape, and, with 'abs', if
`c` is one or the cutoff falls on no plane wave. -/
theorem C133_similar_partial (argsort : List ℝ → List ℕ) (hs : ∀ l, IsArgsort l (argsort l))
    (eigh : ∀ n, Matrix (Fin n) (Fin n) ℂ → Fin n → ℝ) (he : GoodEigh eigh) (c : ℝ) (q : R2 → R2)
    (hq : Similarity c q) (W W' : ExcWell) (h : WellImage c q W W') (hb : Resolved W.b1 W.b2)
    (hb' : Resolved W'.b1 W'.b2) (hr : ∀ s ∈ W.shapes, RealFt s) (hr' : ∀ s ∈ W'.shapes, RealFt s) (t : TruncG)
    (gmax : ℝ) (hg : 0 ≤ gmax) (h1 : c = 1 ∨ W.shapes.length ≤ 1 ∧ (t = .abs → CutClear W gmax)) (ks : List R2)
    (numeig : ℕ) :
    ∃ rs rs', excSim argsort eigh W t gmax ks numeig = .ok rs ∧
      excSim argsort eigh W' t (c * gmax) (ks.map q) numeig = .ok rs' ∧ rs.length = ks.length ∧
      rs'.map Prod.snd = rs.map Prod.snd := by
  refine ⟨_, _, excSim_ok argsort eigh W hb hr t gmax hg ks numeig,
    excSim_ok argsort eigh W' hb' hr' t (c * gmax) (mul_nonneg hq.pos.le hg) _ numeig, by simp, ?_⟩
  simp only [List.map_map]
  refine List.map_congr_left fun k _ => ?_
  simp only [Function.comp, h.E0, h.loss]
  congr 1
  unfold excRes
  have hi := h.inds hq t gmax (h1.imp_right And.right)
  have hlen : (W'.gvec t (c * gmax)).length = (W.gvec t gmax).length := by rw [excWell_len, excWell_len, hi]
  refine excSelect_same argsort hs eigh he _ _ (excWell_ham_hermitian W' hr' t _ _) (excWell_ham_hermitian W hr t gmax _) ?_ _
  have key : W'.ham t (c * gmax) (q k) + 1 = reindex (finCongr hlen.symm) (finCongr hlen.symm) (W.ham t gmax k + 1) := by
    ext i j
    rw [reindex_apply, submatrix_apply, Matrix.add_apply, Matrix.add_apply, excWell_ham_apply, excWell_ham_apply,
      Matrix.one_apply, Matrix.one_apply]
    have hij : (finCongr hlen.symm).symm i = (finCongr hlen.symm).symm j ↔ i = j := Equiv.apply_eq_iff_eq _
    have hidx : ∀ i, W'.idx t (c * gmax) i = W.idx t gmax ((finCongr hlen.symm).symm i) := by
      intro i; unfold ExcWell.idx; rw [hi]; rfl
    have hind : ∀ i : Fin (W'.gvec t (c * gmax)).length, (W'.inds t (c * gmax)).getD i 0 =
        (W.inds t gmax).getD ((finCongr hlen.symm).symm i) 0 := by
      intro i; rw [hi]; rfl
    simp only [hij, hidx, hind]
    rw [h.ft hq hb hb' (h1.imp_right And.left), h.b1, h.b2, hq.latVec, h.hbar, h.e, excKin_image hq _ _ h.unit]
  rw [key, charpoly_reindex]

/-! ### Symmetric wells -/

/-- The coefficients of the potential other than the average, of one shape or of several in a cell of area 1. -/
theorem excPot_linear (b1 b2 : R2) (hb : Resolved b1 b2) (A V : ℝ) (l : List (R2 → ℂ)) (h1 : l.length ≤ 1 ∨ A = 1)
    (n : ℤ × ℤ) (hn : n ≠ 0) :
    excPot A V (0, 0) l (latVec b1 b2 n) = V * (l.map fun s => s (latVec b1 b2 n)).sum / A := by
  have hg : ¬ isG0 (latVec b1 b2 n) := by rw [latVec_eq]; exact resolved_not_g0 hb hn
  have step : ∀ F s : R2 → ℂ, excRound A V (0, 0) F s (latVec b1 b2 n) =
      (F (latVec b1 b2 n) + V * s (latVec b1 b2 n)) / (A : ℂ) := by
    intro F s
    unfold excRound
    simp only [hg, and_false, if_false]
  rcases h1 with h1 | rfl
  · match l, h1 with
    | [], _ => simp [excPot]
    | [s], _ => simp only [excPot, List.foldl_cons, List.foldl_nil, step, List.map_cons, List.map_nil, List.sum_cons,
        List.sum_nil, add_zero, zero_add]
  · suffices H : ∀ F : R2 → ℂ, l.foldl (excRound 1 V (0, 0)) F (latVec b1 b2 n) =
        F (latVec b1 b2 n) + V * (l.map fun s => s (latVec b1 b2 n)).sum / ((1 : ℝ) : ℂ) by
      have := H fun _ => 0
      rwa [zero_add] at this
    induction l with
    | nil => intro F; simp
    | cons s l ih =>
      intro F
      rw [List.foldl_cons, ih, step, List.map_cons, List.sum_cons, Complex.ofReal_one]
      ring

theorem images_map_sum {q : R2 → R2} {b1 b2 : R2} {l l' : List (R2 → ℂ)} (h : List.Forall₂ (fun s s' : R2 → ℂ =>
    ∀ n : ℤ × ℤ, s' (q (latVec b1 b2 n)) = s (latVec b1 b2 n)) l l') (n : ℤ × ℤ) :
    (l'.map fun s => s (q (latVec b1 b2 n))).sum = (l.map fun s => s (latVec b1 b2 n)).sum := by
  induction h with
  | nil => rfl
  | cons e _ ih => rw [List.map_cons, List.map_cons, List.sum_cons, List.sum_cons, ih, e]

/-- **C133 (symmetric wells).** If a rotation or mirror maps the plane waves of the run onto themselves and every shape of
the well onto a shape of the well, the energies at the mapped wave vectors are those at the original ones, if the cell has
area 1 or there is at most one shape. -/
theorem C133_symmetric_partial (argsort : List ℝ → List ℕ) (hs : ∀ l, IsArgsort l (argsort l))
    (eigh : ∀ n, Matrix (Fin n) (Fin n) ℂ → Fin n → ℝ) (he : GoodEigh eigh) (q : R2 → R2) (hq : Similarity 1 q)
    (W : ExcWell) (hb : Resolved W.b1 W.b2) (hr : ∀ s ∈ W.shapes, RealFt s) (shapes' : List (R2 → ℂ))
    (hp : shapes'.Perm W.shapes) (hi : List.Forall₂ (fun s s' : R2 → ℂ => ∀ n : ℤ × ℤ, s' (q (latVec W.b1 W.b2 n)) =
      s (latVec W.b1 W.b2 n)) W.shapes shapes') (h1 : W.shapes.length ≤ 1 ∨ W.ecArea = 1) (t : TruncG) (gmax : ℝ)
    (hg : 0 ≤ gmax) (hw : ∀ g ∈ W.gvec t gmax, q g ∈ W.gvec t gmax) (ks : List R2) (numeig : ℕ) :
    ∃ rs rs', excSim argsort eigh W t gmax ks numeig = .ok rs ∧ excSim argsort eigh W t gmax (ks.map q) numeig = .ok rs' ∧
      rs.length = ks.length ∧ rs'.map Prod.snd = rs.map Prod.snd := by
  refine ⟨_, _, excSim_ok argsort eigh W hb hr t gmax hg ks numeig, excSim_ok argsort eigh W hb hr t gmax hg _ numeig,
    by simp, ?_⟩
  simp only [List.map_map]
  refine List.map_congr_left fun k _ => ?_
  simp only [Function.comp]
  congr 1
  unfold excRes
  refine excSelect_same argsort hs eigh he _ _ (excWell_ham_hermitian W hr t _ _) (excWell_ham_hermitian W hr t gmax _) ?_ _
  have hnd : (W.gvec t gmax).Nodup := by
    unfold ExcWell.gvec
    refine (excWell_nodup W t gmax).map ?_
    intro m n e
    by_contra hmn
    have := resolved_not_g0 hb (i := m - n) (sub_ne_zero.2 hmn)
    refine this ?_
    have e1 := congrArg Prod.fst e
    have e2 := congrArg Prod.snd e
    simp only [gOf] at e1 e2
    have : gOf W.b1 W.b2 (m - n) = 0 := by
      simp only [gOf, Prod.fst_sub, Prod.snd_sub]
      push_cast
      ext
      · simp only [Prod.fst_zero]; linear_combination e1
      · simp only [Prod.snd_zero]; linear_combination e2
    rw [this]
    exact isG0_zero
  obtain ⟨ν, hν⟩ := iso_perm _ hq hw hnd
  have hlat : ∀ i, latVec W.b1 W.b2 ((W.inds t gmax).getD (ν i) 0) = q (latVec W.b1 W.b2 ((W.inds t gmax).getD i 0)) := by
    intro i; rw [← excWell_gvec, ← excWell_gvec]; exact hν i
  have hsub : ∀ m n : ℤ × ℤ, latVec W.b1 W.b2 (m - n) = latVec W.b1 W.b2 m - latVec W.b1 W.b2 n := by
    intro m n
    simp only [latVec, Prod.fst_sub, Prod.snd_sub]
    ext <;> simp <;> ring
  have hsm : ∀ (z : ℤ) (n : ℤ × ℤ), latVec W.b1 W.b2 (z • n) = ((z : ℝ) * (latVec W.b1 W.b2 n).1,
      (z : ℝ) * (latVec W.b1 W.b2 n).2) := by
    intro z n
    simp only [latVec, Prod.smul_fst, Prod.smul_snd, smul_eq_mul]
    push_cast
    ext <;> simp only <;> ring
  have hqs : ∀ (z : ℝ) (v : R2), q (z * v.1, z * v.2) = (z * (q v).1, z * (q v).2) := by
    intro z v
    have := hq.lin z 0 v 0
    simp only [Prod.fst_zero, Prod.snd_zero, mul_zero, add_zero, zero_mul] at this
    rw [mul_comm z, mul_comm z, this, mul_comm z, mul_comm z]
  have hdiff : ∀ i j, latVec W.b1 W.b2 (W.idx t gmax (ν j) - W.idx t gmax (ν i)) =
      q (latVec W.b1 W.b2 (W.idx t gmax j - W.idx t gmax i)) := by
    intro i j
    have : ∀ i, latVec W.b1 W.b2 (W.idx t gmax (ν i)) = q (latVec W.b1 W.b2 (W.idx t gmax i)) := by
      intro i
      unfold ExcWell.idx
      rw [hsm, hsm, hlat, hqs]
    rw [hsub, this, this, ← hq.sub, ← hsub]
  have key : (W.ham t gmax (q k) + 1).submatrix ν ν = W.ham t gmax k + 1 := by
    ext i j
    rw [submatrix_apply, Matrix.add_apply, Matrix.add_apply, excWell_ham_apply, excWell_ham_apply, Matrix.one_apply,
      Matrix.one_apply]
    simp only [ν.injective.eq_iff]
    rw [hlat, excKin_image hq W.hbar W.e (by ring : W.M * W.a ^ 2 = 1 ^ 2 * (W.M * W.a ^ 2))]
    congr 2
    by_cases hij : i = j
    · rw [hij, sub_self, sub_self]
    · have hne : ∀ i j, i ≠ j → W.idx t gmax j - W.idx t gmax i ≠ 0 := by
        intro i j hij e
        exact hij (excWell_idx_inj W t gmax (sub_eq_zero.1 e)).symm
      unfold ExcWell.ft
      rw [excPot_linear _ _ hb _ _ _ h1 _ (hne _ _ fun e => hij (ν.injective e)), excPot_linear _ _ hb _ _ _ h1 _ (hne _ _ hij),
        hdiff, ← (hp.map _).sum_eq]
      congr 2
      exact images_map_sum hi _
  rw [← key]
  have := charpoly_reindex ν.symm (W.ham t gmax (q k) + 1)
  rw [reindex_apply, Equiv.symm_symm] at this
  exact this.symm

/-! ### Several shapes in a rescaled cell -/

theorem eigh_one {n : ℕ} (hn : n = 1) {A U : Matrix (Fin n) (Fin n) ℂ} {w : Fin n → ℝ} (h : IsEigh (A + 1) w U)
    (i : Fin n) : ((w i - 1 : ℝ) : ℂ) = A i i := by
  subst hn
  have h1 := congrFun (congrFun h.eigen i) i
  have h2 := congrFun (congrFun h.unitary i) i
  have hi : i = 0 := Subsingleton.elim _ _
  subst hi
  simp only [Matrix.mul_apply, Finset.univ_unique, Fin.default_eq_zero, Finset.sum_singleton, Matrix.add_apply,
    Matrix.one_apply_eq, conjTranspose_apply, diagonal_apply_eq] at h1 h2
  have h3 : U 0 0 ≠ 0 := fun e => by rw [e, mul_zero] at h2; exact zero_ne_one h2
  have h4 : A 0 0 + 1 = w 0 := by
    refine mul_right_cancel₀ h3 ?_
    rw [h1, mul_comm]
  push_cast
  rw [← h4]
  ring

/-- With a single plane wave, the energy is the kinetic energy plus the average of the potential. -/
theorem excSim_one (argsort : List ℝ → List ℕ) (hs : ∀ l, IsArgsort l (argsort l))
    (eigh : ∀ n, Matrix (Fin n) (Fin n) ℂ → Fin n → ℝ) (he : GoodEigh eigh) (W : ExcWell) (hb : Resolved W.b1 W.b2)
    (hr : ∀ s ∈ W.shapes, RealFt s) (t : TruncG) (gmax : ℝ) (hg : 0 ≤ gmax) (hi : W.inds t gmax = [(0, 0)]) (k : R2) :
    ∃ r, excSim argsort eigh W t gmax [k] 1 = .ok [r] ∧
      r.2 = [((excKin W.hbar W.e W.a W.M k 0 : ℝ) : ℂ) + W.ft 0 + W.E0 + Complex.I * W.loss] := by
  refine ⟨_, excSim_ok argsort eigh W hb hr t gmax hg [k] 1, ?_⟩
  have hH := excWell_ham_hermitian W hr t gmax k
  obtain ⟨V, hV⟩ := he _ _ (hH.add isHermitian_one)
  have hlen : (W.gvec t gmax).length = 1 := by rw [excWell_len, hi]; rfl
  have h1 : ∀ i : Fin (W.gvec t gmax).length, ((eigh _ (W.ham t gmax k + 1) i - 1 : ℝ) : ℂ) =
      ((excKin W.hbar W.e W.a W.M k 0 : ℝ) : ℂ) + W.ft 0 := by
    intro i
    rw [eigh_one hlen hV, excWell_ham_apply, if_pos rfl, sub_self, latVec_zero]
    have h0 : (W.inds t gmax).getD (i : ℕ) 0 = 0 := by
      have : (i : ℕ) = 0 := by have := i.2; omega
      rw [this, hi]
      rfl
    rw [h0, latVec_zero]
  have h2 : ∃ x : ℝ, ((List.ofFn (eigh _ (W.ham t gmax k + 1))).map (· - 1)) = [x] ∧
      (x : ℂ) = ((excKin W.hbar W.e W.a W.M k 0 : ℝ) : ℂ) + W.ft 0 := by
    have : ∀ (n : ℕ) (hn : n = 1) (w : Fin n → ℝ), (List.ofFn w).map (· - 1) = [w ⟨0, by omega⟩ - 1] := by
      rintro _ rfl w
      simp
    exact ⟨_, this _ hlen _, h1 _⟩
  obtain ⟨x, hx, hx'⟩ := h2
  have h3 := excSelect_take argsort hs (List.ofFn (eigh _ (W.ham t gmax k + 1))) [x] (by rw [hx]) (by simp) 1
  simp only [excRes]
  rw [h3, ← hx']
  rfl

/-- Two discs in a square cell. -/
noncomputable def twoDiscs (J : ℝ → ℝ) : ExcWell :=
  ⟨(2 * π, 0), (0, 2 * π), 1, [Ellipse.ft J ⟨0, 0, 0.1, 0.1, 0⟩, Ellipse.ft J ⟨0.5, 0.5, 0.1, 0.1, 0⟩], 1, 2, 1, 0, 0, 1, 1⟩

/-- The same discs with all lengths in units half as long. -/
noncomputable def twoDiscsHalf (J : ℝ → ℝ) : ExcWell :=
  ⟨(1 / 2 * (2 * π), 1 / 2 * 0), (1 / 2 * 0, 1 / 2 * (2 * π)), 4,
    [Ellipse.ft J ⟨0 / (1 / 2), 0 / (1 / 2), 0.1 / (1 / 2), 0.1 / (1 / 2), 0⟩,
      Ellipse.ft J ⟨0.5 / (1 / 2), 0.5 / (1 / 2), 0.1 / (1 / 2), 0.1 / (1 / 2), 0⟩], 1, 1, 1, 0, 0, 1, 1⟩

theorem half_similarity : Similarity (1 / 2) fun v : R2 => (1 / 2 * v.1, 1 / 2 * v.2) := by
  have := similarity_turn 0 (1 / 2) (by norm_num)
  simpa only [turn_zero] using this

theorem ellipse_half (J : ℝ → ℝ) (b1 b2 : R2) (x y r : ℝ) (n : ℤ × ℤ) :
    ((1 / 2 : ℝ) : ℂ) ^ 2 * Ellipse.ft J ⟨x / (1 / 2), y / (1 / 2), r / (1 / 2), r / (1 / 2), 0⟩
      (1 / 2 * (latVec b1 b2 n).1, 1 / 2 * (latVec b1 b2 n).2) = Ellipse.ft J ⟨x, y, r, r, 0⟩ (latVec b1 b2 n) := by
  have := ((C122_shapes J b1 b2 1).2 0 (1 / 2) (by norm_num) x y r r 0).ft n.1 n.2
  simp only [turn_zero, add_zero] at this
  rw [latVec_eq]
  exact this

theorem twoDiscs_image (J : ℝ → ℝ) :
    WellImage (1 / 2) (fun v : R2 => (1 / 2 * v.1, 1 / 2 * v.2)) (twoDiscs J) (twoDiscsHalf J) :=
  ⟨rfl, rfl, by norm_num [twoDiscs, twoDiscsHalf],
    .cons (ellipse_half J _ _ 0 0 0.1) (.cons (ellipse_half J _ _ 0.5 0.5 0.1) .nil), rfl,
    by norm_num [twoDiscs, twoDiscsHalf], rfl, rfl, rfl, rfl⟩

theorem half_resolved : Resolved ((1 / 2 * (2 * π), 1 / 2 * 0) : R2) (1 / 2 * 0, 1 / 2 * (2 * π)) := by
  have hp := Real.pi_gt_three
  have big : ∀ n : ℤ, n ≠ 0 → ¬ |1 / 2 * (2 * π) * (n : ℝ)| < 1e-10 := by
    intro n hn
    have h1 := Int.one_le_abs hn
    have h2 : (1 : ℝ) ≤ |(n : ℝ)| := by exact_mod_cast h1
    rw [abs_mul, abs_of_pos (by positivity), not_lt]
    nlinarith
  rintro m n hmn ⟨e1, e2⟩
  simp only [mul_zero, zero_mul, add_zero, zero_add] at e1 e2
  by_cases hm : m = 0
  · by_cases hn : n = 0
    · exact hmn (by rw [hm, hn])
    · exact big n hn e2
  · exact big m hm e1

theorem ellipse_real (J : ℝ → ℝ) (e : Ellipse) : RealFt (Ellipse.ft J e) := C12_ellipse_conj J e

/-- The average of the potential of two shapes. -/
theorem excPot_two (A : ℝ) (hA : 0 < A) (s s' : R2 → ℂ) (x x' : ℝ) (hx : 0 ≤ x) (hx' : 0 ≤ x') (h : s (0, 0) = x)
    (h' : s' (0, 0) = x') : excPot A 1 (0, 0) [s, s'] (0, 0) = (((x / A + x') / A : ℝ) : ℂ) := by
  have step : ∀ (F t : R2 → ℂ) (y z : ℝ), 0 ≤ y → 0 ≤ z → F (0, 0) = y → t (0, 0) = z →
      excRound A 1 (0, 0) F t (0, 0) = (((y + z) / A : ℝ) : ℂ) := by
    intro F t y z hy hz e1 e2
    have e : (F (0, 0) + ((1 : ℝ) : ℂ) * t (0, 0)) / (A : ℂ) = (((y + z) / A : ℝ) : ℂ) := by
      rw [e1, e2]; push_cast; ring
    have hp : 0 ≤ (y + z) / A := by positivity
    unfold excRound
    simp only
    rw [if_neg, e]
    rintro ⟨h, -⟩
    rw [e, Complex.ofReal_re, Complex.ofReal_im] at h
    rcases h with h | h
    · exact absurd h (not_lt.2 hp)
    · exact lt_irrefl _ h.2
  have e1 := step (fun _ => 0) s 0 x le_rfl hx (by simp) h
  rw [zero_add] at e1
  simp only [excPot, List.foldl_cons, List.foldl_nil]
  exact step _ s' _ _ (by positivity) hx' e1 h'

/-- **C133 (negation).** With two shapes, a change of the unit of length changes the energies: the coefficients accumulated
are divided by the area of the cell once for every shape which follows. -/
theorem C133_similar_fails (argsort : List ℝ → List ℕ) (hs : ∀ l, IsArgsort l (argsort l))
    (eigh : ∀ n, Matrix (Fin n) (Fin n) ℂ → Fin n → ℝ) (he : GoodEigh eigh) (J : ℝ → ℝ) (hJ : 0 < J 1e-10) :
    ∃ W W' : ExcWell, WellImage (1 / 2) (fun v : R2 => (1 / 2 * v.1, 1 / 2 * v.2)) W W' ∧ W.shapes.length = 2 ∧
      Resolved W.b1 W.b2 ∧ Resolved W'.b1 W'.b2 ∧ (∀ s ∈ W.shapes ++ W'.shapes, RealFt s) ∧ ∃ r r',
        excSim argsort eigh W .tbt 0.4 [(0, 0)] 1 = .ok [r] ∧
        excSim argsort eigh W' .tbt (1 / 2 * 0.4) [(0, 0)] 1 = .ok [r'] ∧ r'.2 ≠ r.2 := by
  have hp := Real.pi_pos
  have hz : ∀ x y r : ℝ, Ellipse.ft J ⟨x, y, r, r, 0⟩ 0 = ((r * r * 2 * π / 1e-10 * J 1e-10 : ℝ) : ℂ) := by
    intro x y r
    simp [Ellipse.ft, toFrame]
  have hr : ∀ s ∈ (twoDiscs J).shapes, RealFt s := by
    simp only [twoDiscs, List.mem_cons, List.not_mem_nil, or_false]
    rintro s (rfl | rfl) <;> exact ellipse_real J _
  have hr' : ∀ s ∈ (twoDiscsHalf J).shapes, RealFt s := by
    simp only [twoDiscsHalf, List.mem_cons, List.not_mem_nil, or_false]
    rintro s (rfl | rfl) <;> exact ellipse_real J _
  have hi : (twoDiscs J).inds .tbt 0.4 = [(0, 0)] := by
    have e : ∀ b : R2, norm2 b = 2 * π → nmaxOf (2 * π) 0.4 b = 0 := by
      intro b hb
      unfold nmaxOf
      rw [hb, Nat.floor_eq_zero, div_lt_one (by positivity)]
      nlinarith
    simp only [ExcWell.inds, twoDiscs]
    rw [e _ (by simp [norm2, Real.sqrt_sq hp.le, Real.sqrt_sq (by positivity : (0 : ℝ) ≤ 2 * π)]),
      e _ (by simp [norm2, Real.sqrt_sq (by positivity : (0 : ℝ) ≤ 2 * π)])]
    decide
  have hi' := (twoDiscs_image J).inds half_similarity .tbt 0.4 (Or.inr (by simp))
  rw [hi] at hi'
  obtain ⟨r, h1, h2⟩ := excSim_one argsort hs eigh he (twoDiscs J) resolved_square hr .tbt 0.4 (by norm_num) hi (0, 0)
  obtain ⟨r', h1', h2'⟩ := excSim_one argsort hs eigh he (twoDiscsHalf J) half_resolved hr' .tbt (1 / 2 * 0.4) (by norm_num)
    hi' (0, 0)
  refine ⟨_, _, twoDiscs_image J, rfl, resolved_square, half_resolved, fun s hs => (List.mem_append.1 hs).elim (hr s) (hr' s),
    r, r', h1, h1', ?_⟩
  rw [h2, h2']
  intro e
  have e := (List.cons.inj e).1
  have ek : ∀ a : ℝ, excKin 1 1 a 1 (0, 0) 0 = 0 := by intro a; simp [excKin]
  have ft1 : (twoDiscs J).ft 0 = ((2 * (0.1 * 0.1 * 2 * π / 1e-10 * J 1e-10) : ℝ) : ℂ) := by
    have := excPot_two 1 one_pos _ _ _ _ (by positivity) (by positivity) (hz 0 0 0.1) (hz 0.5 0.5 0.1)
    refine this.trans ?_
    congr 1
    ring
  have ft2 : (twoDiscsHalf J).ft 0 = ((5 / 4 * (0.1 * 0.1 * 2 * π / 1e-10 * J 1e-10) : ℝ) : ℂ) := by
    have := excPot_two 4 (by norm_num) _ _ _ _ (by positivity) (by positivity) (hz (0 / (1 / 2)) (0 / (1 / 2)) (0.1 / (1 / 2)))
      (hz (0.5 / (1 / 2)) (0.5 / (1 / 2)) (0.1 / (1 / 2)))
    refine this.trans ?_
    congr 1
    ring
  have hpos : 0 < 0.1 * 0.1 * 2 * π / 1e-10 * J 1e-10 := by positivity
  rw [ft1, ft2] at e
  simp only [twoDiscs, twoDiscsHalf, ek] at e
  have := congrArg Complex.re e
  simp only [Complex.ofReal_zero, mul_zero, add_zero, zero_add, Complex.ofReal_re] at this
  linarith

/-! ### Examples -/

/-- The square lattice turned, mirrored and rescaled. -/
theorem resolved_similar {c : ℝ} {q : R2 → R2} (hq : Similarity c q) (hc : 1e-6 ≤ c) :
    Resolved (q (2 * π, 0)) (q (0, 2 * π)) := by
  have hp := Real.pi_gt_three
  rintro m n hmn ⟨e1, e2⟩
  have h1 := hq.lin m n (2 * π, 0) (0, 2 * π)
  have h2 := hq.dot (2 * π * m, 2 * π * n) (2 * π * m, 2 * π * n)
  simp only [zero_mul, add_zero, zero_add] at h1
  rw [h1] at h2
  simp only at h2
  have h3 : (1 : ℝ) ≤ (m : ℝ) ^ 2 + (n : ℝ) ^ 2 := by
    have : (1 : ℤ) ≤ m ^ 2 + n ^ 2 := by
      by_contra hlt
      have hm : m = 0 := by nlinarith [sq_nonneg m, sq_nonneg n]
      have hn : n = 0 := by nlinarith [sq_nonneg m, sq_nonneg n]
      exact hmn (by rw [hm, hn])
    exact_mod_cast this
  have h4 := abs_lt.1 e1
  have h5 := abs_lt.1 e2
  generalize (q (2 * π, 0)).1 * (m : ℝ) + (q (0, 2 * π)).1 * n = x at h2 h4
  generalize (q (2 * π, 0)).2 * (m : ℝ) + (q (0, 2 * π)).2 * n = y at h2 h5
  have h6 : x * x < 1e-19 := by nlinarith
  have h7 : y * y < 1e-19 := by nlinarith
  have h8 : (1e-12 : ℝ) ≤ c ^ 2 := by nlinarith
  have h9 : (1 : ℝ) ≤ 2 * π * m * (2 * π * m) + 2 * π * n * (2 * π * n) := by
    have h10 : (1 : ℝ) ≤ (2 * π) ^ 2 := by nlinarith
    calc (1 : ℝ) = 1 * 1 := by norm_num
      _ ≤ (2 * π) ^ 2 * ((m : ℝ) ^ 2 + (n : ℝ) ^ 2) := mul_le_mul h10 h3 zero_le_one (by positivity)
      _ = _ := by ring
  nlinarith

/-- One elliptical well, turned by an angle and with all lengths in another unit. -/
noncomputable def ellipseWell (J : ℝ → ℝ) (V a phi c : ℝ) : ExcWell :=
  ⟨(c * (turn phi (2 * π, 0)).1, c * (turn phi (2 * π, 0)).2), (c * (turn phi (0, 2 * π)).1, c * (turn phi (0, 2 * π)).2),
    1 / c ^ 2, [Ellipse.ft J ⟨0.1 / c, 0.2 / c, 0.3 / c, 0.2 / c, 0.5 + phi⟩], V, a * c, 1, 1.5, -0.1, 2, 3⟩

theorem ellipseWell_image (J : ℝ → ℝ) (V a phi c : ℝ) (hc : 0 < c) :
    WellImage c (fun v => (c * (turn phi v).1, c * (turn phi v).2)) (ellipseWell J V a 0 1) (ellipseWell J V a phi c) := by
  refine ⟨?_, ?_, ?_, .cons (fun n => ?_) .nil, rfl, ?_, rfl, rfl, rfl, rfl⟩
  · simp only [ellipseWell, turn_zero, one_mul]
  · simp only [ellipseWell, turn_zero, one_mul]
  · simp only [ellipseWell]
    field_simp
  · have := ((C122_shapes J (ellipseWell J V a 0 1).b1 (ellipseWell J V a 0 1).b2 1).2 phi c hc 0.1 0.2 0.3 0.2 0.5).ft n.1 n.2
    rw [latVec_eq]
    simp only [div_one, add_zero]
    exact this
  · simp only [ellipseWell]
    ring

/-- Turned by any angle and described in any unit of length, the well has the same energies. -/
example (J : ℝ → ℝ) (argsort : List ℝ → List ℕ) (hs : ∀ l, IsArgsort l (argsort l))
    (eigh : ∀ n, Matrix (Fin n) (Fin n) ℂ → Fin n → ℝ) (he : GoodEigh eigh) (V a phi c : ℝ) (hc : 1e-6 ≤ c) (ks : List R2) :
    ∃ rs rs', excSim argsort eigh (ellipseWell J V a 0 1) .tbt 3 ks 5 = .ok rs ∧
      excSim argsort eigh (ellipseWell J V a phi c) .tbt (c * 3)
        (ks.map fun v => (c * (turn phi v).1, c * (turn phi v).2)) 5 = .ok rs' ∧ rs.length = ks.length ∧
      rs'.map Prod.snd = rs.map Prod.snd := by
  have hc0 : 0 < c := lt_of_lt_of_le (by norm_num) hc
  have hreal : ∀ phi c, ∀ s ∈ (ellipseWell J V a phi c).shapes, RealFt s := by
    intro phi c
    simp only [ellipseWell, List.mem_singleton]
    rintro s rfl
    exact ellipse_real J _
  exact C133_similar_partial argsort hs eigh he c _ (similarity_turn phi c hc0) _ _ (ellipseWell_image J V a phi c hc0)
    (resolved_similar (similarity_turn 0 1 one_pos) (by norm_num)) (resolved_similar (similarity_turn phi c hc0) hc)
    (hreal 0 1) (hreal phi c) .tbt 3 (by norm_num) (Or.inr ⟨by simp [ellipseWell], by simp⟩) ks 5

/-- Four discs in the square lattice which a quarter turn maps onto each other, without any mirror. -/
noncomputable def pinwheelWell (J : ℝ → ℝ) (V : ℝ) (L : Lattice) : ExcWell :=
  ⟨L.b1, L.b2, 1, [Circle.ft J ⟨0.3, 0.1, 0.05⟩, Circle.ft J ⟨-0.1, 0.3, 0.05⟩, Circle.ft J ⟨-0.3, -0.1, 0.05⟩,
    Circle.ft J ⟨0.1, -0.3, 0.05⟩], V, 1e-7, 1, 1.5, -0.1, 2, 3⟩

/-- The energies have four-fold symmetry. -/
example (J : ℝ → ℝ) (argsort : List ℝ → List ℕ) (hs : ∀ l, IsArgsort l (argsort l))
    (eigh : ∀ n, Matrix (Fin n) (Fin n) ℂ → Fin n → ℝ) (he : GoodEigh eigh) (V x y : ℝ) (L : Lattice)
    (h : Lattice.new (.name "square") = .ok L) :
    ∃ rs rs', excSim argsort eigh (pinwheelWell J V L) .abs 3 [(x, y)] 5 = .ok rs ∧
      excSim argsort eigh (pinwheelWell J V L) .abs 3 [(-y, x)] 5 = .ok rs' ∧ rs.length = 1 ∧
      rs'.map Prod.snd = rs.map Prod.snd := by
  have ht : axisStep L.type = some 45 := by cases h; rfl
  have hb : Resolved L.b1 L.b2 := by
    intro m n hmn e
    refine resolved_square m n hmn ?_
    have h1 := square_comb L h m n
    have h2 := congrArg Prod.fst h1
    have h3 := congrArg Prod.snd h1
    simp only [comb] at h2 h3
    simp only [zero_mul, add_zero, zero_add]
    rw [← h2, ← h3, mul_comm (m : ℝ) L.b1.1, mul_comm (n : ℝ) L.b2.1, mul_comm (m : ℝ) L.b1.2, mul_comm (n : ℝ) L.b2.2]
    exact e
  have hw := C123_lattice "square" L h 45 ht 3 (by norm_num) (by norm_num) 1 ⟨L.b1, L.b2, 1, []⟩ rfl rfl
  rw [show 2 * (((45 : ℕ) : ℝ) * ((1 : ℤ) : ℝ)) * Real.pi / 180 = Real.pi / 2 by push_cast; ring] at hw
  have hc := fun x y (n : ℤ × ℤ) => circle_iso J (similarity_rotation (Real.pi / 2)) ⟨x, y, 0.05⟩
    (latVec (pinwheelWell J V L).b1 (pinwheelWell J V L).b2 n)
  have := C133_symmetric_partial argsort hs eigh he _ (similarity_rotation (Real.pi / 2)) (pinwheelWell J V L) hb
    (by simp only [pinwheelWell, List.mem_cons, List.not_mem_nil, or_false]
        rintro s (rfl | rfl | rfl | rfl) <;> exact C12_circle_conj J _)
    [Circle.ft J ⟨-0.1, 0.3, 0.05⟩, Circle.ft J ⟨-0.3, -0.1, 0.05⟩, Circle.ft J ⟨0.1, -0.3, 0.05⟩,
      Circle.ft J ⟨0.3, 0.1, 0.05⟩]
    (List.perm_append_comm (l₁ := [_, _, _]) (l₂ := [_]))
    (.cons (by simpa [turn_quarter] using hc 0.3 0.1) (.cons (by simpa [turn_quarter] using hc (-0.1) 0.3)
      (.cons (by simpa [turn_quarter] using hc (-0.3) (-0.1)) (.cons (by simpa [turn_quarter] using hc 0.1 (-0.3)) .nil))))
    (Or.inr rfl) .abs 3 (by norm_num) hw [(x, y)] 5
  simpa [turn_quarter] using this

end Legume
