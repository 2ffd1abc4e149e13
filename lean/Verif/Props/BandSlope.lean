import Verif.Props.PweOrder
import Verif.Props.ExcBands

/-! # C149: the slope of the bands -/
namespace Legume
open Spec MeasureTheory Matrix
open scoped Real ComplexConjugate ComplexOrder

theorem qform_add {n : ℕ} (A : Matrix (Fin n) (Fin n) ℂ) (hA : A.PosSemidef) (x y : Fin n → ℂ) (s : ℝ) (hs : 0 < s) :
    qform A (x + y) ≤ (1 + s) * qform A x + (1 + 1 / s) * qform A y := by
  have hneg : ∀ z : Fin n → ℂ, qform A (-z) = qform A z := by
    intro z; simp [qform, mulVec_neg]
  have hsm : ∀ (r : ℝ) (z : Fin n → ℂ), qform A ((r : ℂ) • z) = r ^ 2 * qform A z := by
    intro r z
    rw [qform, mulVec_smul, star_smul, smul_dotProduct, dotProduct_smul, smul_eq_mul, smul_eq_mul, RCLike.star_def,
      Complex.conj_ofReal, Complex.re_ofReal_mul, Complex.re_ofReal_mul, qform]
    ring
  have hcross : (star ((s : ℂ) • x) ⬝ᵥ (A *ᵥ y)).re = s * (star x ⬝ᵥ (A *ᵥ y)).re := by
    rw [star_smul, smul_dotProduct, smul_eq_mul, RCLike.star_def, Complex.conj_ofReal, Complex.re_ofReal_mul]
  have h1 := qform_nonneg hA ((s : ℂ) • x - y)
  rw [qform_sub A hA.1, hcross, hsm] at h1
  have h2 := qform_sub A hA.1 x (-y)
  rw [sub_neg_eq_add, hneg, mulVec_neg, dotProduct_neg, Complex.neg_re] at h2
  rw [h2]
  have h3 : 2 * (star x ⬝ᵥ (A *ᵥ y)).re ≤ s * qform A x + 1 / s * qform A y := by
    have : 0 ≤ (s ^ 2 * qform A x - 2 * (s * (star x ⬝ᵥ (A *ᵥ y)).re) + qform A y) / s := div_nonneg h1 hs.le
    have e : (s ^ 2 * qform A x - 2 * (s * (star x ⬝ᵥ (A *ᵥ y)).re) + qform A y) / s =
        s * qform A x - 2 * (star x ⬝ᵥ (A *ᵥ y)).re + 1 / s * qform A y := by
      field_simp
    linarith [this, e]
  linarith

/-- A bound with a free weight is a bound of square roots. -/
theorem sqrt_of_weights (a b c : ℝ) (hb : 0 ≤ b) (hc : 0 ≤ c)
    (h : ∀ s, 0 < s → a ≤ (1 + s) * b + (1 + 1 / s) * c ^ 2) : √a ≤ √b + c := by
  rw [Real.sqrt_le_left (by positivity)]
  by_contra hn
  push Not at hn
  set r := √b with hr
  have hb2 : b = r ^ 2 := (Real.sq_sqrt hb).symm
  have hr0 : 0 ≤ r := Real.sqrt_nonneg _
  rw [hb2] at h
  rcases hr0.eq_or_lt with h0 | h0
  · -- `b = 0`: take a large weight
    rw [← h0] at h hn
    have hd : 0 < a - c ^ 2 := by nlinarith
    have h1 := h ((c ^ 2 + 1) / (a - c ^ 2)) (by positivity)
    have h2 : 1 / ((c ^ 2 + 1) / (a - c ^ 2)) * c ^ 2 = (a - c ^ 2) * (c ^ 2 / (c ^ 2 + 1)) := by
      field_simp
    have h3 : c ^ 2 / (c ^ 2 + 1) < 1 := by rw [div_lt_one (by positivity)]; linarith
    nlinarith [mul_lt_mul_of_pos_left h3 hd]
  rcases hc.eq_or_lt with h1 | h1
  · rw [← h1] at h hn
    have hd : 0 < a - r ^ 2 := by nlinarith
    have h2 := h ((a - r ^ 2) / (2 * r ^ 2)) (by positivity)
    have h3 : (a - r ^ 2) / (2 * r ^ 2) * r ^ 2 = (a - r ^ 2) / 2 := by field_simp
    nlinarith
  · have h2 := h (c / r) (by positivity)
    have h3 : (1 + c / r) * r ^ 2 + (1 + 1 / (c / r)) * c ^ 2 = (r + c) ^ 2 := by
      field_simp; ring
    linarith

theorem isEigh_affine {n : ℕ} {A V : Matrix (Fin n) (Fin n) ℂ} {w : Fin n → ℝ} (h : IsEigh A w V) (a b : ℝ) :
    IsEigh ((a : ℂ) • A + (b : ℂ) • 1) (fun i => a * w i + b) V := by
  refine ⟨h.unitary, ?_⟩
  have e : (diagonal fun i => ((a * w i + b : ℝ) : ℂ)) =
      (a : ℂ) • diagonal (fun i => ((w i : ℝ) : ℂ)) + (b : ℂ) • (1 : Matrix (Fin n) (Fin n) ℂ) := by
    ext i j
    by_cases hij : i = j
    · subst hij; simp
    · simp [hij]
  rw [e, add_mul, smul_mul_assoc, h.eigen, mul_add, mul_smul_comm, smul_mul_assoc, one_mul, mul_smul_comm, mul_one]

/-- Sorted eigenvalues of two Hermitian matrices whose forms compare with a free weight. -/
theorem eigh_sqrt {n : ℕ} {A V B W : Matrix (Fin n) (Fin n) ℂ} {w u : Fin n → ℝ} (hA : IsEigh (A + 1) w V)
    (hB : IsEigh (B + 1) u W) (m c : ℝ) (hc : 0 ≤ c) (hm : ∀ x, 0 ≤ qform B x + m * ∑ i, ‖x i‖ ^ 2)
    (h : ∀ x s, 0 < s → qform A x + m * ∑ i, ‖x i‖ ^ 2 ≤
      (1 + s) * (qform B x + m * ∑ i, ‖x i‖ ^ 2) + (1 + 1 / s) * (c ^ 2 * ∑ i, ‖x i‖ ^ 2))
    (l l' : List ℝ) (hl : l.Perm (List.ofFn w)) (hl' : l'.Perm (List.ofFn u)) (hs : l.Pairwise (· ≤ ·))
    (hs' : l'.Pairwise (· ≤ ·)) (i : ℕ) (hi : i < l.length) (hi' : i < l'.length) :
    √(l[i] - 1 + m) ≤ √(l'[i] - 1 + m) + c := by
  have hu : ∀ y ∈ l', 0 ≤ y - 1 + m := by
    intro y hy
    obtain ⟨j, rfl⟩ := (List.mem_ofFn' _ _).1 (hl'.mem_iff.1 hy)
    have := eigh_ge hB (1 - m) (fun x => by rw [qform_add_one]; linarith [hm x]) j
    linarith
  refine sqrt_of_weights _ _ _ (hu _ (List.getElem_mem _)) hc fun s hs0 => ?_
  have hE := isEigh_affine hB (1 + s) ((1 + 1 / s) * c ^ 2 + s * (m - 1))
  have hq : ∀ x, qform (A + 1) ((LinearMap.id : (Fin n → ℂ) →ₗ[ℂ] (Fin n → ℂ)) x) ≤
      qform (((1 + s : ℝ) : ℂ) • (B + 1) + (((1 + 1 / s) * c ^ 2 + s * (m - 1) : ℝ) : ℂ) • 1) x := by
    intro x
    have e : qform (((1 + s : ℝ) : ℂ) • (B + 1) + (((1 + 1 / s) * c ^ 2 + s * (m - 1) : ℝ) : ℂ) • 1) x =
        (1 + s) * (qform B x + ∑ i, ‖x i‖ ^ 2) + ((1 + 1 / s) * c ^ 2 + s * (m - 1)) * ∑ i, ‖x i‖ ^ 2 := by
      rw [← qform_add_one, ← uniform_qform, qform, add_mulVec, dotProduct_add, Complex.add_re, smul_mulVec,
        dotProduct_smul, smul_eq_mul, Complex.re_ofReal_mul]
      rfl
    rw [LinearMap.id_apply, qform_add_one, e]
    linarith [h x s hs0]
  have hp : (l'.map fun y => (1 + s) * y + ((1 + 1 / s) * c ^ 2 + s * (m - 1))).Perm
      (List.ofFn fun i => (1 + s) * u i + ((1 + 1 / s) * c ^ 2 + s * (m - 1))) := by
    refine (hl'.map _).trans (List.Perm.of_eq ?_)
    rw [List.map_ofFn]
    rfl
  have := eigh_ritz hA hE LinearMap.id (fun x => rfl) hq l _ hl hp hs
    (by
      rw [List.pairwise_map]
      refine hs'.imp fun {a b} hab => ?_
      nlinarith) i hi (by simpa using hi')
  rw [List.getElem_map] at this
  linarith

/-- Distance of two wave vectors. -/
theorem norm_kg (k k' g : R2) : (√((k.1 + g.1) ^ 2 + (k.2 + g.2) ^ 2) - √((k'.1 + g.1) ^ 2 + (k'.2 + g.2) ^ 2)) ^ 2 ≤
    (k.1 - k'.1) ^ 2 + (k.2 - k'.2) ^ 2 := by
  set a := k.1 + g.1
  set b := k.2 + g.2
  set a' := k'.1 + g.1 with ha'
  set b' := k'.2 + g.2 with hb'
  have e1 : k.1 - k'.1 = a - a' := by simp [a, a']
  have e2 : k.2 - k'.2 = b - b' := by simp [b, b']
  rw [e1, e2]
  have h1 := Real.sq_sqrt (show 0 ≤ a ^ 2 + b ^ 2 by positivity)
  have h2 := Real.sq_sqrt (show 0 ≤ a' ^ 2 + b' ^ 2 by positivity)
  have h3 : a * a' + b * b' ≤ √(a ^ 2 + b ^ 2) * √(a' ^ 2 + b' ^ 2) := by
    rw [← Real.sqrt_mul (by positivity)]
    refine Real.le_sqrt_of_sq_le ?_
    nlinarith [sq_nonneg (a * b' - b * a')]
  nlinarith

theorem sum_le_sq {n : ℕ} (f : Fin n → ℝ) (x : Fin n → ℂ) (d : ℝ) (hf : ∀ i, f i ^ 2 ≤ d) :
    ∑ i, ‖(f i : ℂ) * x i‖ ^ 2 ≤ d * ∑ i, ‖x i‖ ^ 2 := by
  rw [Finset.mul_sum]
  refine Finset.sum_le_sum fun i _ => ?_
  rw [norm_mul, mul_pow, Complex.norm_real, Real.norm_eq_abs, sq_abs]
  exact mul_le_mul_of_nonneg_right (hf i) (by positivity)

/-- The forms of the plane-wave expansion at two wave vectors. -/
theorem pweMat_weights {n : ℕ} (p : Pol) (k k' : R2) (g : Fin n → R2) (E : Matrix (Fin n) (Fin n) ℂ) (hE : E.PosSemidef)
    (lam : ℝ) (h0 : 0 ≤ lam) (hlam : ∀ x, qform E x ≤ lam * ∑ i, ‖x i‖ ^ 2) (x : Fin n → ℂ) (s : ℝ) (hs : 0 < s) :
    qform (pweMat p k g E) x ≤ (1 + s) * qform (pweMat p k' g E) x +
      (1 + 1 / s) * (lam * ((k.1 - k'.1) ^ 2 + (k.2 - k'.2) ^ 2) * ∑ i, ‖x i‖ ^ 2) := by
  have hs1 : 0 < 1 + 1 / s := by positivity
  have key : ∀ f f' : Fin n → ℝ, qform E (fun i => (f i : ℂ) * x i) ≤ (1 + s) * qform E (fun i => (f' i : ℂ) * x i) +
      (1 + 1 / s) * (lam * ∑ i, ‖((f i - f' i : ℝ) : ℂ) * x i‖ ^ 2) := by
    intro f f'
    have e : (fun i => (f i : ℂ) * x i) = (fun i => (f' i : ℂ) * x i) + fun i => ((f i - f' i : ℝ) : ℂ) * x i := by
      funext i; simp only [Pi.add_apply]; push_cast; ring
    rw [e]
    refine (qform_add E hE _ _ s hs).trans ?_
    have := hlam fun i => ((f i - f' i : ℝ) : ℂ) * x i
    gcongr
  cases p with
  | te =>
    have e : ∀ q : R2, qform (pweMat .te q g E) x = qform E (fun i => ((q.1 + (g i).1 : ℝ) : ℂ) * x i) +
        qform E (fun i => ((q.2 + (g i).2 : ℝ) : ℂ) * x i) := fun q => by
      simp only [qform, (C36_energy q g E x).1, Complex.add_re]
    have h1 := key (fun i => k.1 + (g i).1) fun i => k'.1 + (g i).1
    have h2 := key (fun i => k.2 + (g i).2) fun i => k'.2 + (g i).2
    have b1 := sum_le_sq (fun i => k.1 + (g i).1 - (k'.1 + (g i).1)) x ((k.1 - k'.1) ^ 2)
      (fun i => by rw [show k.1 + (g i).1 - (k'.1 + (g i).1) = k.1 - k'.1 by ring])
    have b2 := sum_le_sq (fun i => k.2 + (g i).2 - (k'.2 + (g i).2)) x ((k.2 - k'.2) ^ 2)
      (fun i => by rw [show k.2 + (g i).2 - (k'.2 + (g i).2) = k.2 - k'.2 by ring])
    have c1 := mul_le_mul_of_nonneg_left (mul_le_mul_of_nonneg_left b1 h0) hs1.le
    have c2 := mul_le_mul_of_nonneg_left (mul_le_mul_of_nonneg_left b2 h0) hs1.le
    rw [e k, e k']
    linarith
  | tm =>
    have e : ∀ q : R2, qform (pweMat .tm q g E) x =
        qform E (fun i => ((√((q.1 + (g i).1) ^ 2 + (q.2 + (g i).2) ^ 2) : ℝ) : ℂ) * x i) := fun q => by
      simp only [qform, (C36_energy q g E x).2]
    have h1 := key (fun i => √((k.1 + (g i).1) ^ 2 + (k.2 + (g i).2) ^ 2))
      fun i => √((k'.1 + (g i).1) ^ 2 + (k'.2 + (g i).2) ^ 2)
    have b1 := sum_le_sq (fun i => √((k.1 + (g i).1) ^ 2 + (k.2 + (g i).2) ^ 2) -
      √((k'.1 + (g i).1) ^ 2 + (k'.2 + (g i).2) ^ 2)) x _ (fun i => norm_kg k k' (g i))
    have c1 := mul_le_mul_of_nonneg_left (mul_le_mul_of_nonneg_left b1 h0) hs1.le
    rw [e k, e k']
    linarith

/-- The inverse of a matrix which is at least `lo` is at most `1 / lo`. -/
theorem qform_inv_upper {n : ℕ} (E : Matrix (Fin n) (Fin n) ℂ) (hE : E.PosDef) (lo : ℝ) (hlo : 0 < lo)
    (h : ∀ x, lo * ∑ i, ‖x i‖ ^ 2 ≤ qform E x) (x : Fin n → ℂ) : qform E⁻¹ x ≤ 1 / lo * ∑ i, ‖x i‖ ^ 2 := by
  have hc0 : (lo : ℂ) ≠ 0 := by exact_mod_cast hlo.ne'
  have hinv : ((lo : ℂ) • (1 : Matrix (Fin n) (Fin n) ℂ))⁻¹ = ((1 / lo : ℝ) : ℂ) • 1 := by
    apply inv_eq_right_inv
    rw [smul_mul_smul_comm, one_mul]
    push_cast
    rw [mul_one_div_cancel hc0, one_smul]
  have := qform_inv_le _ E (uniform_posDef n lo hlo) hE (fun y => by rw [uniform_qform]; exact h y) x
  rwa [hinv, uniform_qform] at this

/-- **C149 (photons).** Two wave vectors of a plane-wave run: the frequencies of the same number differ by no more than
those of light in a uniform medium with the lowest permittivity of the crystal, `|k - k'| / (2π √εmin)`, up to the number of
plane waves times the error of a coefficient. No band is steeper than the light line of that medium. -/
theorem C149_pwe (argsort : List ℝ → List ℕ) (hs : ∀ l, IsArgsort l (argsort l))
    (eigh : ∀ n, Matrix (Fin n) (Fin n) ℂ → Fin n → ℝ) (he : GoodEigh eigh) (L : PweLayer) (a1 a2 : R2)
    (sh : List Drawn) (hD : Draws a1 a2 L.b1 L.b2 L.epsB L.epsAvg L.ecArea sh) (hsh : L.shapes = sh.map Drawn.shape)
    (hr : ∀ s ∈ L.shapes, RealShape s) (lo gmax δ : ℝ) (hlo : lo ≤ L.epsB ∧ ∀ s ∈ L.shapes, lo ≤ s.eps)
    (hδ : δ = (L.gvec gmax).length * drawErr L.epsB L.ecArea sh) (hpos : δ < lo)
    (ks : List R2) (pol : String) (p : Pol)
    (hp : pyLower pol = match p with | .te => ['t', 'e'] | .tm => ['t', 'm']) (numeig : ℕ) :
    ∃ fs, pweFreqs argsort eigh L gmax ks pol numeig = .ok fs ∧ fs.length = ks.length ∧
      ∀ (i j : ℕ) (hi : i < ks.length) (hj : j < ks.length) (hi' : i < fs.length) (hj' : j < fs.length) (m : ℕ)
        (h : m < fs[i].length) (h' : m < fs[j].length),
        |fs[i][m] - fs[j][m]| ≤ √((ks[i].1 - ks[j].1) ^ 2 + (ks[i].2 - ks[j].2) ^ 2) / (2 * π * √(lo - δ)) := by
  set hiE : ℝ := (L.shapes.map (·.eps)).foldr max L.epsB with hhiE
  have hhi : L.epsB ≤ hiE ∧ ∀ s ∈ L.shapes, s.eps ≤ hiE := by
    rw [hhiE]
    generalize L.shapes = shs
    induction shs with
    | nil => simp
    | cons a t ih =>
      simp only [List.map_cons, List.foldr_cons, List.mem_cons]
      refine ⟨ih.1.trans (le_max_right _ _), ?_⟩
      rintro s (rfl | h)
      · exact le_max_left _ _
      · exact (ih.2 s h).trans (le_max_right _ _)
  obtain ⟨b, cc⟩ := C101_pwe L a1 a2 _ hD hsh hr lo hiE hlo hhi gmax
  rw [← hδ] at b cc
  obtain ⟨hP, hdet, -⟩ := cc hpos
  have hpos' : 0 < lo - δ := sub_pos.2 hpos
  have hup := qform_inv_upper _ hP (lo - δ) hpos' fun x => by rw [qform_sum]; exact (b x).1
  refine ⟨_, pweFreqs_ok argsort eigh L gmax hdet ks pol p hp numeig, by simp, ?_⟩
  -- one direction
  have main : ∀ (k k' : R2) (m : ℕ)
      (h : m < (solvePwe argsort (List.ofFn (eigh _ (pweMat p k (L.gAt gmax) (L.epsMat gmax)⁻¹ + 1))) numeig).freq.length)
      (h' : m < (solvePwe argsort (List.ofFn (eigh _ (pweMat p k' (L.gAt gmax) (L.epsMat gmax)⁻¹ + 1))) numeig).freq.length),
      (solvePwe argsort (List.ofFn (eigh _ (pweMat p k (L.gAt gmax) (L.epsMat gmax)⁻¹ + 1))) numeig).freq[m] ≤
      (solvePwe argsort (List.ofFn (eigh _ (pweMat p k' (L.gAt gmax) (L.epsMat gmax)⁻¹ + 1))) numeig).freq[m] +
        √((k.1 - k'.1) ^ 2 + (k.2 - k'.2) ^ 2) / (2 * π * √(lo - δ)) := by
    intro k k' m h h'
    have P := C36_psd p k (L.gAt gmax) _ hP.inv.posSemidef
    have P' := C36_psd p k' (L.gAt gmax) _ hP.inv.posSemidef
    obtain ⟨V, hV⟩ := he _ _ (P.1.add isHermitian_one)
    obtain ⟨V', hV'⟩ := he _ _ (P'.1.add isHermitian_one)
    have hw : ∀ {q : R2} {U : Matrix _ _ ℂ}, IsEigh (pweMat p q (L.gAt gmax) (L.epsMat gmax)⁻¹ + 1)
        (eigh _ (pweMat p q (L.gAt gmax) (L.epsMat gmax)⁻¹ + 1)) U →
        (pweMat p q (L.gAt gmax) (L.epsMat gmax)⁻¹).PosSemidef →
        ∀ x ∈ List.ofFn (eigh _ (pweMat p q (L.gAt gmax) (L.epsMat gmax)⁻¹ + 1)), 1 ≤ x := by
      intro q U hU hq x hx
      obtain ⟨j, rfl⟩ := (List.mem_ofFn' _ _).1 hx
      exact eigh_ge hU 1 (fun y => by rw [qform_add_one]; linarith [qform_nonneg hq y]) j
    obtain ⟨l, p1, p2, p3, p4⟩ := solvePwe_sorted argsort hs _ (hw hV P) numeig
    obtain ⟨l', q1, q2, q3, q4⟩ := solvePwe_sorted argsort hs _ (hw hV' P') numeig
    have hl : m < l.length := by rw [p4] at h; simp at h; omega
    have hl' : m < l'.length := by rw [q4] at h'; simp at h'; omega
    have hmain := eigh_sqrt hV hV' 0 (√((k.1 - k'.1) ^ 2 + (k.2 - k'.2) ^ 2) / √(lo - δ)) (by positivity)
      (fun x => by simpa using qform_nonneg P' x)
      (fun x s hs0 => by
        have := pweMat_weights p k k' (L.gAt gmax) _ hP.inv.posSemidef (1 / (lo - δ)) (by positivity) hup x s hs0
        rw [div_pow, Real.sq_sqrt (by positivity), Real.sq_sqrt hpos'.le]
        simp only [zero_mul, add_zero]
        refine this.trans (le_of_eq ?_)
        ring) l l' p1 q1 p2 q2 m hl hl'
    simp only [p4, q4, List.getElem_take, List.getElem_map]
    have a1 := p3 _ (List.getElem_mem hl)
    have a2 := q3 _ (List.getElem_mem hl')
    unfold freqOf
    rw [abs_of_nonneg (by linarith), abs_of_nonneg (by linarith)]
    rw [add_zero, add_zero] at hmain
    have hpi := Real.pi_pos
    have e : √((k.1 - k'.1) ^ 2 + (k.2 - k'.2) ^ 2) / (2 * π * √(lo - δ)) =
        √((k.1 - k'.1) ^ 2 + (k.2 - k'.2) ^ 2) / √(lo - δ) / 2 / π := by
      rw [div_div, div_div, mul_assoc, mul_comm (√(lo - δ)), mul_assoc]
    rw [e, ← add_div, ← add_div]
    gcongr
  intro i j hi hj hi' hj' m h h'
  simp only [List.getElem_map] at h h' ⊢
  have h1 := main ks[i] ks[j] m h h'
  have h2 := main ks[j] ks[i] m h' h
  rw [show (ks[j].1 - ks[i].1) ^ 2 + (ks[j].2 - ks[i].2) ^ 2 = (ks[i].1 - ks[j].1) ^ 2 + (ks[i].2 - ks[j].2) ^ 2 by ring] at h2
  rw [abs_le]
  constructor <;> linarith

/-- The holes of C102 with up to a million plane waves: the slope is at most that of light in air, up to 1e-3. -/
example (argsort : List ℝ → List ℕ) (hs : ∀ l, IsArgsort l (argsort l))
    (eigh : ∀ n, Matrix (Fin n) (Fin n) ℂ → Fin n → ℝ) (he : GoodEigh eigh) (gmax : ℝ)
    (hn : (holesLayer.gvec gmax).length ≤ 10 ^ 6) (ks : List R2) :=
  C149_pwe argsort hs eigh he holesLayer (1, 0) (0, 1) [drawnCircle 1 ⟨0, 0, 0.2⟩] square_holes rfl holes_real
    1 gmax _ (by simp [holesLayer]) rfl (holes_err _ hn) ks "tm" .tm (by decide) 8

/-- **C149 (excitons).** Two wave vectors of an exciton run: the square roots of the energies above the bottom of the
potential differ by no more than those of a free exciton, `hbar |k - k'| / √(2 M a² e)`. No band is steeper than that of a free
exciton with the same energy, up to the number of plane waves times the error of a coefficient. -/
theorem C149_exc (argsort : List ℝ → List ℕ) (hs : ∀ l, IsArgsort l (argsort l))
    (eigh : ∀ n, Matrix (Fin n) (Fin n) ℂ → Fin n → ℝ) (he : GoodEigh eigh) (a1 a2 : R2) (W : ExcWell) (sh : List Drawn)
    (hD : WellDrawn a1 a2 W sh) (t : TruncG) (gmax : ℝ) (hg : 0 ≤ gmax) (δ : ℝ)
    (hδ : δ = (W.gvec t gmax).length * wellErr W sh) (hM : 0 < W.M) (hel : 0 < W.e) (ks : List R2) (numeig : ℕ) :
    ∃ rs, excSim argsort eigh W t gmax ks numeig = .ok rs ∧ rs.length = ks.length ∧
      ∀ (i j : ℕ) (hi : i < ks.length) (hj : j < ks.length) (hi' : i < rs.length) (hj' : j < rs.length) (m : ℕ)
        (h : m < rs[i].2.length) (h' : m < rs[j].2.length),
        |√(rs[i].2[m].re - W.E0 + δ) - √(rs[j].2[m].re - W.E0 + δ)| ≤
          √(W.hbar ^ 2 * ((ks[i].1 - ks[j].1) ^ 2 + (ks[i].2 - ks[j].2) ^ 2) / (2 * W.M * W.a ^ 2 * W.e)) := by
  have hr := wellDrawn_real hD
  refine ⟨_, excSim_ok argsort eigh W hD.resolved hr t gmax hg ks numeig, by simp, ?_⟩
  set kap : ℝ := W.hbar ^ 2 / (2 * W.M * W.a ^ 2 * W.e) with hkap
  have hkap0 : 0 ≤ kap := by positivity
  have hform := fun x => wellDrawn_form hD (W.idx t gmax) (excWell_idx_inj W t gmax) x
  have hkin : ∀ (k : R2) (x : Fin (W.gvec t gmax).length → ℂ), qform (diagonal fun i : Fin (W.gvec t gmax).length =>
      ((excKin W.hbar W.e W.a W.M k (W.gvec t gmax)[i] : ℝ) : ℂ)) x =
      kap * ∑ i : Fin (W.gvec t gmax).length,
        ‖((√((k.1 + (W.gvec t gmax)[i].1) ^ 2 + (k.2 + (W.gvec t gmax)[i].2) ^ 2) : ℝ) : ℂ) * x i‖ ^ 2 := by
    intro k x
    rw [qform_diagonal, Finset.mul_sum]
    refine Finset.sum_congr rfl fun i _ => ?_
    rw [excKin_eq, norm_mul, mul_pow, Complex.norm_real, Real.norm_eq_abs, sq_abs, Real.sq_sqrt (by positivity), hkap]
    ring
  have main : ∀ (k k' : R2) (m : ℕ) (h : m < (excRes argsort eigh W t gmax numeig k).2.length)
      (h' : m < (excRes argsort eigh W t gmax numeig k').2.length),
      √((excRes argsort eigh W t gmax numeig k).2[m] + δ) ≤ √((excRes argsort eigh W t gmax numeig k').2[m] + δ) +
        √(kap * ((k.1 - k'.1) ^ 2 + (k.2 - k'.2) ^ 2)) := by
    intro k k' m h h'
    obtain ⟨V, hV⟩ := he _ _ ((excWell_ham_hermitian W hr t gmax k).add isHermitian_one)
    obtain ⟨V', hV'⟩ := he _ _ ((excWell_ham_hermitian W hr t gmax k').add isHermitian_one)
    have hsel : ∀ q : R2, ∃ l : List ℝ, l.Perm (List.ofFn (eigh _ (W.ham t gmax q + 1))) ∧ l.Pairwise (· ≤ ·) ∧
        (excRes argsort eigh W t gmax numeig q).2 = (l.map (· - 1)).take numeig := by
      intro q
      refine ⟨(List.ofFn (eigh _ (W.ham t gmax q + 1))).mergeSort (fun a b => decide (a ≤ b)), List.mergeSort_perm _ _,
        List.pairwise_mergeSort' (· ≤ ·) _, ?_⟩
      refine excSelect_take argsort hs _ _ ((List.mergeSort_perm _ _).map _) ?_ numeig
      rw [List.pairwise_map]
      refine (List.pairwise_mergeSort' (· ≤ ·) (List.ofFn (eigh _ (W.ham t gmax q + 1)))).imp fun {a b} hab => ?_
      simpa using hab
    obtain ⟨l, p1, p2, p4⟩ := hsel k
    obtain ⟨l', q1, q2, q4⟩ := hsel k'
    have hl : m < l.length := by rw [p4] at h; simp at h; omega
    have hl' : m < l'.length := by rw [q4] at h'; simp at h'; omega
    have hmain := eigh_sqrt hV hV' δ (√(kap * ((k.1 - k'.1) ^ 2 + (k.2 - k'.2) ^ 2))) (by positivity)
      (fun x => by
        rw [excWell_qform, hkin, hδ]
        have h1 : 0 ≤ kap * ∑ i : Fin (W.gvec t gmax).length,
          ‖((√((k'.1 + (W.gvec t gmax)[i].1) ^ 2 + (k'.2 + (W.gvec t gmax)[i].2) ^ 2) : ℝ) : ℂ) * x i‖ ^ 2 := by positivity
        linarith [(hform x).1])
      (fun x s hs0 => by
        have hs1 : 0 < 1 + 1 / s := by positivity
        have k1 : qform (1 : Matrix (Fin (W.gvec t gmax).length) (Fin (W.gvec t gmax).length) ℂ)
            (fun i : Fin (W.gvec t gmax).length =>
              ((√((k.1 + (W.gvec t gmax)[i].1) ^ 2 + (k.2 + (W.gvec t gmax)[i].2) ^ 2) : ℝ) : ℂ) * x i) ≤ _ :=
          le_of_eq_of_le (by
            congr 1
            show _ = (fun i : Fin (W.gvec t gmax).length =>
              ((√((k'.1 + (W.gvec t gmax)[i].1) ^ 2 + (k'.2 + (W.gvec t gmax)[i].2) ^ 2) : ℝ) : ℂ) * x i) +
              fun i : Fin (W.gvec t gmax).length =>
              ((√((k.1 + (W.gvec t gmax)[i].1) ^ 2 + (k.2 + (W.gvec t gmax)[i].2) ^ 2) -
                √((k'.1 + (W.gvec t gmax)[i].1) ^ 2 + (k'.2 + (W.gvec t gmax)[i].2) ^ 2) : ℝ) : ℂ) * x i
            funext i
            simp only [Pi.add_apply]
            push_cast
            ring) (qform_add 1 PosSemidef.one _ _ s hs0)
        have b1 := sum_le_sq (fun i : Fin (W.gvec t gmax).length =>
          √((k.1 + (W.gvec t gmax)[i].1) ^ 2 + (k.2 + (W.gvec t gmax)[i].2) ^ 2) -
          √((k'.1 + (W.gvec t gmax)[i].1) ^ 2 + (k'.2 + (W.gvec t gmax)[i].2) ^ 2)) x _
          (fun i => norm_kg k k' (W.gvec t gmax)[i])
        rw [qform_one, qform_one, qform_one] at k1
        have c1 := mul_le_mul_of_nonneg_left (mul_le_mul_of_nonneg_left b1 hs1.le) hkap0
        have c2 := mul_le_mul_of_nonneg_left k1 hkap0
        rw [excWell_qform, excWell_qform, hkin, hkin, Real.sq_sqrt (by positivity), hδ]
        have h3 := mul_nonneg hs0.le (sub_nonneg.2 (hform x).1)
        nlinarith [c1, c2, h3]) l l' p1 q1 p2 q2 m hl hl'
    simp only [p4, q4, List.getElem_take, List.getElem_map]
    exact hmain
  intro i j hi hj hi' hj' m h h'
  simp only [List.getElem_map, List.length_map] at h h'
  simp only [List.getElem_map, Complex.add_re, Complex.ofReal_re, Complex.mul_re, Complex.I_re, Complex.I_im,
    Complex.ofReal_im, zero_mul, mul_zero, sub_self, add_zero, add_sub_cancel_right]
  have h1 := main ks[i] ks[j] m h h'
  have h2 := main ks[j] ks[i] m h' h
  rw [show (ks[j].1 - ks[i].1) ^ 2 + (ks[j].2 - ks[i].2) ^ 2 = (ks[i].1 - ks[j].1) ^ 2 + (ks[i].2 - ks[j].2) ^ 2 by ring] at h2
  rw [show W.hbar ^ 2 * ((ks[i].1 - ks[j].1) ^ 2 + (ks[i].2 - ks[j].2) ^ 2) / (2 * W.M * W.a ^ 2 * W.e) =
    kap * ((ks[i].1 - ks[j].1) ^ 2 + (ks[i].2 - ks[j].2) ^ 2) by rw [hkap]; ring]
  rw [abs_le]
  constructor <;> linarith

/-- A disc of depth 5 meV anywhere in the cell. -/
example (argsort : List ℝ → List ℕ) (hs : ∀ l, IsArgsort l (argsort l))
    (eigh : ∀ n, Matrix (Fin n) (Fin n) ℂ → Fin n → ℝ) (he : GoodEigh eigh) (x y : ℝ) (t : TruncG) (ks : List R2) :=
  C149_exc argsort hs eigh he (1, 0) (0, 1) _ _ (wellDisc_drawn x y (-0.005)) t 2 (by norm_num) _ rfl
    (by norm_num [wellDisc]) (by norm_num [wellDisc]) ks 5

end Legume
