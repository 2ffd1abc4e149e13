import Verif.Props.GmeBounds
import Verif.Props.PweOrder
import Verif.Props.OrderCode

/-!
# How far frequencies move when permittivities change (C152)
-/
namespace Legume
open Spec MeasureTheory Matrix
open scoped Real ComplexConjugate ComplexOrder

theorem freqOf_times (c : ℝ) (hc : 0 ≤ c) (x : ℝ) : freqOf (c * (x - 1) + 1) = √c * freqOf x := by
  unfold freqOf
  rw [add_sub_cancel_right, abs_mul, abs_of_nonneg hc, Real.sqrt_mul hc]
  ring

/-- The frequencies of a matrix and of its multiple. -/
theorem solvePwe_times (argsort : List ℝ → List ℕ) (hs : ∀ l, IsArgsort l (argsort l)) (c : ℝ) (hc : 0 ≤ c) (w : List ℝ)
    (numeig : ℕ) : (solvePwe argsort (w.map fun x => c * (x - 1) + 1) numeig).freq =
      (solvePwe argsort w numeig).freq.map (√c * ·) := by
  have h1 := solvePwe_freq argsort hs w ((w.map freqOf).mergeSort) (List.mergeSort_perm _ _)
    (List.pairwise_mergeSort' (· ≤ ·) _) numeig
  rw [h1, List.map_take]
  refine solvePwe_freq argsort hs _ _ ?_ ?_ numeig
  · rw [List.map_map]
    refine ((List.mergeSort_perm (w.map freqOf) _).map _).trans (List.Perm.of_eq ?_)
    rw [List.map_map]
    exact List.map_congr_left fun x _ => (freqOf_times c hc x).symm
  · rw [List.pairwise_map]
    exact (List.pairwise_mergeSort' (· ≤ ·) _).imp fun h => mul_le_mul_of_nonneg_left h (Real.sqrt_nonneg c)

theorem qform_times {n : ℕ} (c : ℝ) (B : Matrix (Fin n) (Fin n) ℂ) (x : Fin n → ℂ) :
    qform ((c : ℂ) • B) x = c * qform B x := by
  rw [qform, smul_mulVec, dotProduct_smul, smul_eq_mul, Complex.re_ofReal_mul, qform]

/-- If a matrix is below a multiple of another as a quadratic form, then its frequencies are below those of the other times
the square root of the factor. -/
theorem freq_scaled (argsort : List ℝ → List ℕ) (hs : ∀ l, IsArgsort l (argsort l))
    (eigh : ∀ n, Matrix (Fin n) (Fin n) ℂ → Fin n → ℝ) (he : GoodEigh eigh) {n : ℕ} (A B : Matrix (Fin n) (Fin n) ℂ)
    (hA : A.PosSemidef) (hB : B.PosSemidef) (c : ℝ) (hc : 0 ≤ c) (h : ∀ x, qform A x ≤ c * qform B x) (numeig : ℕ) :
    List.Forall₂ (fun f g => f ≤ √c * g) (solvePwe argsort (List.ofFn (eigh _ (A + 1))) numeig).freq
      (solvePwe argsort (List.ofFn (eigh _ (B + 1))) numeig).freq := by
  obtain ⟨V, hV⟩ := he _ _ (hA.1.add isHermitian_one)
  obtain ⟨W, hW⟩ := he _ _ (hB.1.add isHermitian_one)
  have hC : ((c : ℂ) • B).PosSemidef := hB.smul (by exact_mod_cast hc)
  have hCe : IsEigh ((c : ℂ) • B + 1) (fun i => c * (eigh _ (B + 1) i - 1) + 1) W := by
    refine ⟨hW.unitary, ?_⟩
    have h1 := hW.eigen
    rw [add_mul, one_mul] at h1 ⊢
    have h2 : B * W = W * diagonal (fun i => ((eigh _ (B + 1) i : ℝ) : ℂ)) - W := by rw [← h1, add_sub_cancel_right]
    rw [Matrix.smul_mul, h2]
    ext i j
    rw [Matrix.add_apply, Matrix.smul_apply, Matrix.sub_apply, mul_diagonal, mul_diagonal]
    push_cast
    simp only [smul_eq_mul]
    ring
  have hq : ∀ x, qform A ((LinearMap.id : (Fin n → ℂ) →ₗ[ℂ] (Fin n → ℂ)) x) ≤ qform ((c : ℂ) • B) x := by
    intro x
    rw [qform_times]
    exact h x
  have hsc := solvePwe_times argsort hs c hc (List.ofFn (eigh _ (B + 1))) numeig
  rw [List.map_ofFn] at hsc
  have hsc' : (solvePwe argsort (List.ofFn fun i => c * (eigh _ (B + 1) i - 1) + 1) numeig).freq =
      (solvePwe argsort (List.ofFn (eigh _ (B + 1))) numeig).freq.map (√c * ·) := hsc
  rw [List.forall₂_iff_get]
  refine ⟨by rw [solvePwe_length argsort hs, solvePwe_length argsort hs, List.length_ofFn, List.length_ofFn],
    fun i hi hi' => ?_⟩
  have h3 := freq_ritz argsort hs hA hC hV hCe LinearMap.id (fun x => rfl) hq numeig i hi (by
    rw [hsc', List.length_map]; exact hi')
  simp only [hsc', List.getElem_map] at h3
  exact h3

/-- The quadratic form of increments of at most `D`. -/
theorem increment_bounds {a1 a2 b1 b2 : R2} {epsB epsAvg area : ℝ} {sh : List (Drawn × ℝ)}
    (hD : Draws a1 a2 b1 b2 epsB epsAvg area (sh.map Prod.fst)) (dB D : ℝ) (hd : |dB| ≤ D ∧ ∀ s ∈ sh, |s.2| ≤ D) {n : ℕ}
    (m : Fin n → ℤ × ℤ) (hm : Function.Injective m) (x : Fin n → ℂ) :
    |(∑ i, ∑ j, conj (x i) * layerFt dB (dB + (sh.map fun s => (s.2 - dB) * volume.real s.1.region / area).sum) area
      (sh.map fun s => ⟨s.2, s.1.shape.ft⟩) (latVec b1 b2 (m j - m i)) * x j).re| ≤
      (D + n * ((sh.map fun s => |s.2 - dB| * s.1.err).sum / area)) * ∑ i, ‖x i‖ ^ 2 := by
  set E : List Drawn := sh.map fun s => ⟨⟨s.2, s.1.shape.ft⟩, s.1.region, s.1.err⟩ with hE
  have hD' : Draws a1 a2 b1 b2 dB (dB + (sh.map fun s => (s.2 - dB) * volume.real s.1.region / area).sum) area E := by
    refine ⟨hD.dual, hD.resolved, hD.area_eq, ?_, ?_, ?_, ?_, ?_⟩
    · have := hD.apart
      rw [List.map_map] at this
      rw [hE, List.map_map]
      exact this
    · intro s hs
      obtain ⟨t, ht, rfl⟩ := List.mem_map.1 hs
      exact hD.measurable t.1 (List.mem_map_of_mem ht)
    · intro s hs
      obtain ⟨t, ht, rfl⟩ := List.mem_map.1 hs
      exact hD.close t.1 (List.mem_map_of_mem ht)
    · intro s hs
      obtain ⟨t, ht, rfl⟩ := List.mem_map.1 hs
      exact hD.err_nonneg t.1 (List.mem_map_of_mem ht)
    · rw [hE, List.map_map]; rfl
  have hb := C101_bounds a1 a2 b1 b2 dB _ area E hD' (-D) D
    ⟨(abs_le.1 hd.1).1, fun s hs => by obtain ⟨t, ht, rfl⟩ := List.mem_map.1 hs; exact (abs_le.1 (hd.2 t ht)).1⟩
    ⟨(abs_le.1 hd.1).2, fun s hs => by obtain ⟨t, ht, rfl⟩ := List.mem_map.1 hs; exact (abs_le.1 (hd.2 t ht)).2⟩ m hm x
  have herr : drawErr dB area E = (sh.map fun s => |s.2 - dB| * s.1.err).sum / area := by
    rw [drawErr, hE, List.map_map]; rfl
  have hl : E.map Drawn.shape = sh.map fun s => ⟨s.2, s.1.shape.ft⟩ := by rw [hE, List.map_map]; rfl
  rw [herr, hl] at hb
  rw [abs_le]
  exact ⟨by linarith [hb.1], hb.2⟩

theorem qform_split {n : ℕ} (A B : Matrix (Fin n) (Fin n) ℂ) (F : Fin n → Fin n → ℂ) (h : ∀ i j, B i j = A i j + F i j)
    (x : Fin n → ℂ) : qform B x - qform A x = (∑ i, ∑ j, conj (x i) * F i j * x j).re := by
  rw [qform_sum, qform_sum, ← Complex.sub_re, ← Finset.sum_sub_distrib]
  congr 1
  refine Finset.sum_congr rfl fun i _ => ?_
  rw [← Finset.sum_sub_distrib]
  refine Finset.sum_congr rfl fun j _ => ?_
  rw [h]; ring

theorem raised_near (L : PweLayer) (a1 a2 : R2) (dB : ℝ) (sh : List (Drawn × ℝ))
    (hD : Draws a1 a2 L.b1 L.b2 L.epsB L.epsAvg L.ecArea (sh.map Prod.fst))
    (hsh : L.shapes = sh.map fun s => s.1.shape) (hr : ∀ s ∈ L.shapes, RealShape s) (D : ℝ)
    (hd : |dB| ≤ D ∧ ∀ s ∈ sh, |s.2| ≤ D) (gmax : ℝ) (x : Fin (L.gvec gmax).length → ℂ) :
    |qform ((raised L dB sh).epsMat gmax) x - qform (L.epsMat gmax) x| ≤
      (D + (L.gvec gmax).length * ((sh.map fun s => |s.2 - dB| * s.1.err).sum / L.ecArea)) * ∑ i, ‖x i‖ ^ 2 := by
  have hr' : ∀ s ∈ (raised L dB sh).shapes, RealShape s := by
    intro s hs
    obtain ⟨t, ht, rfl⟩ := List.mem_map.1 hs
    exact hr t.1.shape (by rw [hsh]; exact List.mem_map_of_mem ht)
  obtain ⟨ind, hinj, hind⟩ := pweG_index L gmax
  have hb := increment_bounds hD dB D hd (fun i => -ind i) (fun i j h => hinj (neg_injective h)) x
  refine (le_of_eq ?_).trans hb
  congr 1
  refine qform_split (L.epsMat gmax) _ _ (fun i j => ?_) x
  rw [show (raised L dB sh).epsMat gmax i j = (raised L dB sh).ft ((L.gAt gmax i).1 - (L.gAt gmax j).1,
      (L.gAt gmax i).2 - (L.gAt gmax j).2) from pweEps_entry (raised L dB sh) gmax (pweFt_conj _ hr') i j,
    pweEps_entry L gmax (pweFt_conj L hr) i j, raised_ft L dB sh hsh hD.avg, hind, hind, gOf_diff, latVec_eq]
  congr 1
  have hi : ((ind i).1 - (ind j).1, (ind i).2 - (ind j).2) = -ind j - -ind i := by
    ext <;> simp <;> ring
  rw [hi]

/-- The inverse of a multiple, as a quadratic form. -/
theorem qform_inv_times {n : ℕ} {E : Matrix (Fin n) (Fin n) ℂ} (hE : E.PosDef) {c : ℝ} (hc : 0 < c) (x : Fin n → ℂ) :
    qform ((c : ℂ) • E)⁻¹ x = c⁻¹ * qform E⁻¹ x := by
  have hu : IsUnit E.det := isUnit_iff_ne_zero.2 hE.det_pos.ne'
  have h0 : (c : ℂ) ≠ 0 := by exact_mod_cast hc.ne'
  have : ((c : ℂ) • E)⁻¹ = ((c⁻¹ : ℝ) : ℂ) • E⁻¹ := by
    refine inv_eq_right_inv ?_
    rw [Matrix.smul_mul, Matrix.mul_smul, mul_nonsing_inv _ hu, smul_smul]
    push_cast
    rw [mul_inv_cancel₀ h0, one_smul]
  rw [this, qform_times]

/-- Two matrices at most `D` apart as quadratic forms, the first at least `m`. -/
theorem near_ratio {n : ℕ} {E E' : Matrix (Fin n) (Fin n) ℂ} (hE : E.IsHermitian) (hE' : E'.IsHermitian) {m D : ℝ}
    (hm : 0 < m) (h0 : 0 ≤ D) (hD : D < m) (h1 : ∀ x, m * ∑ i, ‖x i‖ ^ 2 ≤ qform E x)
    (h2 : ∀ x, |qform E' x - qform E x| ≤ D * ∑ i, ‖x i‖ ^ 2) :
    E.PosDef ∧ E'.PosDef ∧ ∀ x, (1 - D / m) * qform E'⁻¹ x ≤ qform E⁻¹ x ∧ qform E⁻¹ x ≤ (1 + D / m) * qform E'⁻¹ x := by
  have hP : E.PosDef := posDef_of_form _ hE m hm fun x => by rw [← qform_sum]; exact h1 x
  have hP' : E'.PosDef := posDef_of_form _ hE' (m - D) (sub_pos.2 hD) fun x => by
    rw [← qform_sum]
    have := (abs_le.1 (h2 x)).1
    have := h1 x
    rw [sub_mul]
    linarith
  have hq1 : 0 < 1 - D / m := by rw [sub_pos, div_lt_one hm]; exact hD
  have hq2 : 0 < 1 + D / m := by positivity
  have hx : ∀ x, D * ∑ i, ‖x i‖ ^ 2 ≤ D / m * qform E x := by
    intro x
    have := mul_le_mul_of_nonneg_left (h1 x) (by positivity : 0 ≤ D / m)
    rwa [← mul_assoc, div_mul_cancel₀ _ hm.ne'] at this
  have hpos : ∀ c : ℝ, 0 < c → ((c : ℂ) • E).PosDef := fun c hc => hP.smul (by exact_mod_cast hc)
  refine ⟨hP, hP', fun x => ⟨?_, ?_⟩⟩
  · have h := qform_inv_le _ _ (hpos _ hq1) hP' (fun y => by
      rw [qform_times]
      have h3 := (abs_le.1 (h2 y)).1
      have h4 := hx y
      rw [sub_mul, one_mul]
      linarith) x
    rw [qform_inv_times hP hq1] at h
    calc (1 - D / m) * qform E'⁻¹ x ≤ (1 - D / m) * ((1 - D / m)⁻¹ * qform E⁻¹ x) := by gcongr
      _ = qform E⁻¹ x := by rw [← mul_assoc, mul_inv_cancel₀ hq1.ne', one_mul]
  · have h := qform_inv_le _ _ hP' (hpos _ hq2) (fun y => by
      rw [qform_times]
      have h3 := (abs_le.1 (h2 y)).2
      have h4 := hx y
      rw [add_mul, one_mul]
      linarith) x
    rw [qform_inv_times hP hq2] at h
    calc qform E⁻¹ x = (1 + D / m) * ((1 + D / m)⁻¹ * qform E⁻¹ x) := by
          rw [← mul_assoc, mul_inv_cancel₀ hq2.ne', one_mul]
      _ ≤ (1 + D / m) * qform E'⁻¹ x := by gcongr

/-- Frequencies of two matrices between multiples of each other. -/
theorem freq_between (argsort : List ℝ → List ℕ) (hs : ∀ l, IsArgsort l (argsort l))
    (eigh : ∀ n, Matrix (Fin n) (Fin n) ℂ → Fin n → ℝ) (he : GoodEigh eigh) {n : ℕ} (A B : Matrix (Fin n) (Fin n) ℂ)
    (hA : A.PosSemidef) (hB : B.PosSemidef) (c c' : ℝ) (hc : 0 ≤ c) (hc' : 0 < c')
    (h : ∀ x, c' * qform B x ≤ qform A x ∧ qform A x ≤ c * qform B x) (numeig : ℕ) :
    List.Forall₂ (fun f g => f ≤ √c * g ∧ √c' * g ≤ f) (solvePwe argsort (List.ofFn (eigh _ (A + 1))) numeig).freq
      (solvePwe argsort (List.ofFn (eigh _ (B + 1))) numeig).freq := by
  have h1 := freq_scaled argsort hs eigh he A B hA hB c hc (fun x => (h x).2) numeig
  have h2 := freq_scaled argsort hs eigh he B A hB hA c'⁻¹ (by positivity) (fun x => by
    rw [← div_eq_inv_mul, le_div_iff₀ hc', mul_comm]; exact (h x).1) numeig
  rw [List.forall₂_iff_get] at h1 h2 ⊢
  refine ⟨h1.1, fun i hi hi' => ⟨h1.2 i hi hi', ?_⟩⟩
  have h3 := h2.2 i hi' hi
  have h4 := mul_le_mul_of_nonneg_left h3 (Real.sqrt_nonneg c')
  rwa [← mul_assoc, Real.sqrt_inv, mul_inv_cancel₀ (Real.sqrt_pos.2 hc').ne', one_mul] at h4

theorem pweMat_times {n : ℕ} (p : Pol) (k : R2) (g : Fin n → R2) (E : Matrix (Fin n) (Fin n) ℂ) (c : ℂ) :
    pweMat p k g (c • E) = c • pweMat p k g E := by
  ext i j
  cases p <;> simp only [pweMat, of_apply, Matrix.smul_apply, smul_eq_mul] <;> ring

theorem pwe_between (argsort : List ℝ → List ℕ) (hs : ∀ l, IsArgsort l (argsort l))
    (eigh : ∀ n, Matrix (Fin n) (Fin n) ℂ → Fin n → ℝ) (he : GoodEigh eigh) {n : ℕ} (p : Pol) (k : R2)
    (g : Fin n → R2) (E E' : Matrix (Fin n) (Fin n) ℂ) (hE : E.PosDef) (hE' : E'.PosDef) (c c' : ℝ) (hc : 0 ≤ c) (hc' : 0 < c')
    (h : ∀ x, c' * qform E'⁻¹ x ≤ qform E⁻¹ x ∧ qform E⁻¹ x ≤ c * qform E'⁻¹ x) (numeig : ℕ) :
    List.Forall₂ (fun f f' => f ≤ √c * f' ∧ √c' * f' ≤ f)
      (solvePwe argsort (List.ofFn (eigh _ (pweMat p k g E⁻¹ + 1))) numeig).freq
      (solvePwe argsort (List.ofFn (eigh _ (pweMat p k g E'⁻¹ + 1))) numeig).freq := by
  refine freq_between argsort hs eigh he _ _ (C36_psd p k _ _ hE.inv.posSemidef)
    (C36_psd p k _ _ hE'.inv.posSemidef) c c' hc hc' (fun x => ⟨?_, ?_⟩) numeig
  · rw [← qform_times, ← pweMat_times]
    exact pweMat_mono p k _ _ _ (fun y => by rw [qform_times]; exact (h y).1) x
  · rw [← qform_times, ← pweMat_times]
    exact pweMat_mono p k _ _ _ (fun y => by rw [qform_times]; exact (h y).2) x

/-- **C152.** If no permittivity of a layer changes by more than `D`, then with the relative change `q` (the rounding of the
transforms included) no frequency of the plane-wave expansion moves by more than the factors `1 / √(1 + q)` and
`1 / √(1 - q)`. -/
theorem C152_pwe (argsort : List ℝ → List ℕ) (hs : ∀ l, IsArgsort l (argsort l))
    (eigh : ∀ n, Matrix (Fin n) (Fin n) ℂ → Fin n → ℝ) (he : GoodEigh eigh) (L : PweLayer) (a1 a2 : R2) (dB : ℝ)
    (sh : List (Drawn × ℝ)) (hD : Draws a1 a2 L.b1 L.b2 L.epsB L.epsAvg L.ecArea (sh.map Prod.fst))
    (hsh : L.shapes = sh.map fun s => s.1.shape) (hr : ∀ s ∈ L.shapes, RealShape s) (lo D q gmax : ℝ)
    (hlo : lo ≤ L.epsB ∧ ∀ s ∈ L.shapes, lo ≤ s.eps)
    (hpos : (L.gvec gmax).length * drawErr L.epsB L.ecArea (sh.map Prod.fst) < lo)
    (hd : |dB| ≤ D ∧ ∀ s ∈ sh, |s.2| ≤ D)
    (hq : q = (D + (L.gvec gmax).length * ((sh.map fun s => |s.2 - dB| * s.1.err).sum / L.ecArea)) /
      (lo - (L.gvec gmax).length * drawErr L.epsB L.ecArea (sh.map Prod.fst))) (hq1 : q < 1)
    (ks : List R2) (pol : String) (p : Pol)
    (hp : pyLower pol = match p with | .te => ['t', 'e'] | .tm => ['t', 'm']) (numeig : ℕ) :
    ∃ fs fs', pweFreqs argsort eigh L gmax ks pol numeig = .ok fs ∧
      pweFreqs argsort eigh (raised L dB sh) gmax ks pol numeig = .ok fs' ∧ fs.length = ks.length ∧
      List.Forall₂ (List.Forall₂ fun f f' => f ≤ √(1 + q) * f' ∧ √(1 - q) * f' ≤ f) fs fs' := by
  obtain ⟨hi, hhi⟩ := eps_bounded L.epsB L.shapes
  have hsh' : L.shapes = (sh.map Prod.fst).map Drawn.shape := by rw [hsh, List.map_map]; rfl
  obtain ⟨b, -⟩ := C101_pwe L a1 a2 _ hD hsh' hr lo hi hlo hhi gmax
  have hr' : ∀ s ∈ (raised L dB sh).shapes, RealShape s := by
    intro s hs
    obtain ⟨t, ht, rfl⟩ := List.mem_map.1 hs
    exact hr t.1.shape (by rw [hsh]; exact List.mem_map_of_mem ht)
  have hm := sub_pos.2 hpos
  have harea : 0 ≤ L.ecArea := by rw [hD.area_eq]; positivity
  have hD0 : 0 ≤ D + (L.gvec gmax).length * ((sh.map fun s => |s.2 - dB| * s.1.err).sum / L.ecArea) := by
    refine add_nonneg ((abs_nonneg _).trans hd.1) (mul_nonneg (by positivity) (div_nonneg (List.sum_nonneg ?_) harea))
    intro y hy
    obtain ⟨t, ht, rfl⟩ := List.mem_map.1 hy
    exact mul_nonneg (abs_nonneg _) (hD.err_nonneg t.1 (List.mem_map_of_mem ht))
  have hDm := (div_lt_one hm).1 (hq ▸ hq1)
  obtain ⟨hP, hP', hn⟩ := near_ratio (pweEps_hermitian L gmax (pweFt_conj L hr))
    (pweEps_hermitian (raised L dB sh) gmax (pweFt_conj _ hr')) hm hD0 hDm
    (fun x => (b x).1.trans_eq (qform_sum _ _).symm) (raised_near L a1 a2 dB sh hD hsh hr D hd gmax)
  rw [← hq] at hn
  have hq0 : 0 ≤ q := by rw [hq]; exact div_nonneg hD0 hm.le
  refine ⟨_, _, pweFreqs_ok argsort eigh L gmax hP.det_pos.ne' ks pol p hp numeig,
    pweFreqs_ok argsort eigh (raised L dB sh) gmax hP'.det_pos.ne' ks pol p hp numeig, by simp, ?_⟩
  rw [List.forall₂_map_left_iff, List.forall₂_map_right_iff]
  exact List.forall₂_same.2 fun k _ => pwe_between argsort hs eigh he p k (L.gAt gmax) _ _ hP hP' (1 + q) (1 - q)
    (by linarith) (by linarith) hn numeig

/-! ### Guided modes -/

theorem mapM_related {β : Type*} {ρ : β → β → Prop} {f f' : ℕ → Except PyErr β} : ∀ (l : List ℕ) {r r' : List β},
    l.mapM f = .ok r → l.mapM f' = .ok r' → (∀ i ∈ l, ∀ a a', f i = .ok a → f' i = .ok a' → ρ a a') →
    List.Forall₂ ρ r r' := by
  intro l r r' h h'
  have h1 := mapM_ok_forall h
  have h2 := mapM_ok_forall h'
  clear h h'
  induction h1 generalizing r' with
  | nil => cases h2; exact fun _ => .nil
  | cons a _ ih =>
    cases h2 with
    | cons a' t =>
      intro hh
      exact .cons (hh _ List.mem_cons_self _ _ a a') (ih t fun i hi => hh i (List.mem_cons_of_mem _ hi))

theorem gmeMatIj_times {N : ℕ} (stack : List (LPos × ℝ)) (einv : List (Matrix (Fin N) (Fin N) ℂ))
    (hE : ∀ E ∈ einv, E.IsHermitian) (basis : List (BasisEl N)) (hb : basis.Pairwise fun s t => s.blk ≤ t.blk) (c : ℝ) :
    gmeMatIj ijExact stack (einv.map fun E => (c : ℂ) • E) basis = (c : ℂ) • gmeMatIj ijExact stack einv basis := by
  ext i j
  rw [gmeMatIj_exact stack _ (fun E h => by
      obtain ⟨F, hF, rfl⟩ := List.mem_map.1 h
      ext a b
      rw [conjTranspose_apply, Matrix.smul_apply, Matrix.smul_apply, star_smul, ← conjTranspose_apply, hE F hF]
      simp) basis hb, Matrix.smul_apply, gmeMatIj_exact stack _ hE basis hb, smul_eq_mul, ← gmeElem_scale, List.map_map,
    List.map_map]
  rfl

/-- **C152.** Two structures with the same stack of effective permittivities: if in every layer the inverse permittivity
matrices are between `c'` and `c` times each other as quadratic forms, so are the squares of the frequencies of the
guided-mode expansion at every wave vector. -/
theorem C152_forms (argsort : List ℝ → List ℕ) (hs : ∀ l, IsArgsort l (argsort l))
    (eigh : ∀ n, Matrix (Fin n) (Fin n) ℂ → Fin n → ℝ) (he : GoodEigh eigh) (guided : GuidedSolver)
    (S : GmeStruct) (layers' : List GmeLay) (gmax : ℝ) (onlyG onlyG' : Bool) (opt opt' : String) (ks : List R2)
    (numeig : ℕ) (c c' : ℝ) (hc : 0 ≤ c) (hc' : 0 < c')
    (hl : List.Forall₂ (fun l l' : GmeLay => l'.pos = l.pos ∧ l'.eff opt' = l.eff opt ∧
      ∀ E E', S.epsInv gmax onlyG l = .ok E → S.epsInv gmax onlyG' l' = .ok E' →
        E.PosSemidef ∧ E'.PosSemidef ∧ ∀ x, c' * qform E' x ≤ qform E x ∧ qform E x ≤ c * qform E' x) S.layers layers')
    (hg : ∀ eff ik b, ik < ks.length → S.layers.mapM (GmeLay.eff opt) = .ok eff →
      guided ((S.layers.map GmeLay.pos).zip eff) (S.gvec gmax) ks ik = .ok b →
      GoodBasis ((S.layers.map GmeLay.pos).zip eff) b) (r r' : List KRes)
    (hr : gmeSimIj ijExact argsort eigh guided S gmax onlyG opt ks 0 numeig = .ok r)
    (hr' : gmeSimIj ijExact argsort eigh guided { S with layers := layers' } gmax onlyG' opt' ks 0 numeig = .ok r') :
    List.Forall₂ (fun a a' : KRes => List.Forall₂ (fun f f' => f ≤ √c * f' ∧ √c' * f' ≤ f) a.freq a'.freq) r r' := by
  have hpos : layers'.map GmeLay.pos = S.layers.map GmeLay.pos := by
    clear hg hr hr'
    generalize S.layers = L at hl
    induction hl with
    | nil => rfl
    | cons h _ ih => rw [List.map_cons, List.map_cons, ih, h.1]
  have heffs : layers'.mapM (GmeLay.eff opt') = S.layers.mapM (GmeLay.eff opt) := by
    clear hg hr hr' hpos
    generalize S.layers = L at hl
    induction hl with
    | nil => rfl
    | cons h _ ih => rw [List.mapM_cons, List.mapM_cons, h.2.1, ih]
  unfold gmeSimIj at hr hr'
  obtain ⟨eff, heff, hr⟩ := bind_ok hr
  obtain ⟨eff', heff', hr'⟩ := bind_ok hr'
  rw [show ({ S with layers := layers' } : GmeStruct).layers = layers' from rfl] at heff'
  rw [heffs, heff] at heff'
  cases heff'
  obtain ⟨einv, heinv, hr⟩ := bind_ok hr
  obtain ⟨einv', heinv', hr'⟩ := bind_ok hr'
  have heinv' : layers'.mapM (S.epsInv gmax onlyG') = .ok einv' := heinv'
  obtain ⟨P, hP1, hP2, hP3⟩ := forall2_pairs (hl.imp fun _ _ h => h.2.2) (mapM_ok_forall heinv) (mapM_ok_forall heinv')
  subst hP1
  subst hP2
  have hlen := stack_length heff heinv
  have hlenP : P.length = ((S.layers.map GmeLay.pos).zip eff).length := by rw [← hlen, List.length_map]
  have hlen' : (P.map Prod.snd).length = ((S.layers.map GmeLay.pos).zip eff).length := by rw [← hlenP, List.length_map]
  refine mapM_related _ hr hr' fun ik hik a a' ha ha' => ?_
  obtain ⟨b, hb, ha⟩ := bind_ok ha
  obtain ⟨b', hb', ha'⟩ := bind_ok ha'
  have hb2 : guided ((layers'.map GmeLay.pos).zip eff) (S.gvec gmax) ks ik = .ok b' := hb'
  rw [hpos, hb] at hb2
  obtain rfl : b = b' := Except.ok.inj hb2
  obtain ⟨g1, g2⟩ := hg eff ik b (List.mem_range.1 hik) heff hb
  have hM : solveFull argsort (List.ofFn (eigh _ (gmeMatIj ijExact ((layers'.map GmeLay.pos).zip eff) (P.map Prod.snd) b + 1))) 0
      numeig = .ok a' := ha'
  rw [hpos] at hM
  obtain ⟨t, ht, hf⟩ := solveFull_zero argsort hs _ numeig (solveFull_ok ha)
  obtain ⟨t', ht', hf'⟩ := solveFull_zero argsort hs _ numeig (solveFull_ok hM)
  rw [show solveFull argsort _ 0 numeig = Except.ok a from ha] at ht
  rw [hM] at ht'
  cases ht
  cases ht'
  rw [hf, hf']
  have hH : ∀ E ∈ P.map Prod.snd, E.IsHermitian := fun E h => by
    obtain ⟨F, hF, rfl⟩ := List.mem_map.1 h
    exact (hP3 F hF).2.1.1
  have hsm : ∀ d : ℝ, ∀ E ∈ P, ((d : ℂ) • E.2).IsHermitian := fun d E hE => by
    ext a b
    rw [conjTranspose_apply, Matrix.smul_apply, Matrix.smul_apply, star_smul, ← conjTranspose_apply, (hP3 E hE).2.1.1]
    simp
  refine freq_between argsort hs eigh he _ _ (gmeMatIj_psd _ (P.map Prod.fst) hlen (fun E h => ?_) b g1 g2)
    (gmeMatIj_psd _ (P.map Prod.snd) hlen' (fun E h => ?_) b g1 g2) c c' hc hc' (fun x => ⟨?_, ?_⟩) numeig
  · obtain ⟨F, hF, rfl⟩ := List.mem_map.1 h
    exact (hP3 F hF).1
  · obtain ⟨F, hF, rfl⟩ := List.mem_map.1 h
    exact (hP3 F hF).2.1
  · rw [← qform_times, ← gmeMatIj_times _ _ hH b g1]
    have := gmeMatIj_mono ((S.layers.map GmeLay.pos).zip eff) (P.map fun E => (E.1, (c' : ℂ) • E.2)) (by simpa using hlenP)
      (fun E h => by
        obtain ⟨F, hF, rfl⟩ := List.mem_map.1 h
        exact ⟨(hP3 F hF).1.1, hsm c' F hF⟩)
      (fun E h y => by
        obtain ⟨F, hF, rfl⟩ := List.mem_map.1 h
        simp only [qform_times]
        exact ((hP3 F hF).2.2 y).1) b g1 g2 x
    simpa only [List.map_map, Function.comp_def] using this
  · rw [← qform_times, ← gmeMatIj_times _ _ hH b g1]
    have := gmeMatIj_mono ((S.layers.map GmeLay.pos).zip eff) (P.map fun E => ((c : ℂ) • E.2, E.1)) (by simpa using hlenP)
      (fun E h => by
        obtain ⟨F, hF, rfl⟩ := List.mem_map.1 h
        exact ⟨hsm c F hF, (hP3 F hF).1.1⟩)
      (fun E h y => by
        obtain ⟨F, hF, rfl⟩ := List.mem_map.1 h
        simp only [qform_times]
        exact ((hP3 F hF).2.2 y).2) b g1 g2 x
    simpa only [List.map_map, Function.comp_def] using this

theorem raisedLay_near (S : GmeStruct) (l : GmeLay) (a1 a2 : R2) (dB : ℝ) (sh : List (Drawn × ℝ))
    (hD : Draws a1 a2 S.b1 S.b2 l.epsB l.epsAvg S.ecArea (sh.map Prod.fst))
    (hsh : l.shapes = sh.map fun s => s.1.shape) (hr : ∀ s ∈ l.shapes, RealShape s) (D : ℝ)
    (hd : |dB| ≤ D ∧ ∀ s ∈ sh, |s.2| ≤ D) (gmax : ℝ) (x : Fin (S.gvec gmax).length → ℂ) :
    (S.epsMat gmax l).IsHermitian ∧ (S.epsMat gmax (raisedLay S.ecArea l dB sh)).IsHermitian ∧
    |qform (S.epsMat gmax (raisedLay S.ecArea l dB sh)) x - qform (S.epsMat gmax l) x| ≤
      (D + (S.gvec gmax).length * ((sh.map fun s => |s.2 - dB| * s.1.err).sum / S.ecArea)) * ∑ i, ‖x i‖ ^ 2 := by
  have hr' : ∀ s ∈ (raisedLay S.ecArea l dB sh).shapes, RealShape s := by
    intro s hs
    obtain ⟨t, ht, rfl⟩ := List.mem_map.1 hs
    exact hr t.1.shape (by rw [hsh]; exact List.mem_map_of_mem ht)
  have herm : ∀ l : GmeLay, (∀ s ∈ l.shapes, RealShape s) → (S.epsMat gmax l).IsHermitian := by
    intro l hr
    obtain ⟨ind, -, -, hent⟩ := gme_entry S l hr gmax
    ext i j
    rw [conjTranspose_apply, hent, hent, RCLike.star_def, GmeStruct.ft,
      ← (C12_layer_conj l.epsB l.epsAvg S.ecArea l.shapes hr _).1]
    congr 1
    simp only [latVec, Prod.fst_sub, Prod.snd_sub]
    ext <;> push_cast <;> ring
  refine ⟨herm l hr, herm _ hr', ?_⟩
  obtain ⟨ind, hinj, hi1, hent⟩ := gme_entry S l hr gmax
  obtain ⟨ind', -, hi2, hent'⟩ := gme_entry S (raisedLay S.ecArea l dB sh) hr' gmax
  obtain rfl : ind' = ind := funext fun i => (hi2 i).trans (hi1 i).symm
  have hb := increment_bounds hD dB D hd ind' hinj x
  refine (le_of_eq ?_).trans hb
  congr 1
  refine qform_split (S.epsMat gmax l) _ _ (fun i j => ?_) x
  rw [hent, hent']
  exact raised_ft ⟨S.b1, S.b2, S.ecArea, l.epsB, l.epsAvg, l.shapes⟩ dB sh hsh hD.avg _

/-- **C152.** The same for the guided-mode expansion with effective permittivities that are kept: if in no layer the relative
change of the permittivities exceeds `q`, no frequency moves by more than the factors `1 / √(1 + q)` and `1 / √(1 - q)`. -/
theorem C152_gme (argsort : List ℝ → List ℕ) (hs : ∀ l, IsArgsort l (argsort l))
    (eigh : ∀ n, Matrix (Fin n) (Fin n) ℂ → Fin n → ℝ) (he : GoodEigh eigh) (guided : GuidedSolver)
    (S : GmeStruct) (layers' : List GmeLay) (gmax q : ℝ) (hq : 0 ≤ q) (hq1 : q < 1) (ks : List R2) (numeig : ℕ)
    (hl : List.Forall₂ (fun l l' : GmeLay => DrawnLayer S gmax l ∧ (l' = l ∨
      ∃ (a1 a2 : R2) (dB D lo : ℝ) (sh : List (Drawn × ℝ)), l' = raisedLay S.ecArea l dB sh ∧
        Draws a1 a2 S.b1 S.b2 l.epsB l.epsAvg S.ecArea (sh.map Prod.fst) ∧ (l.shapes = sh.map fun s => s.1.shape) ∧
        (∀ s ∈ l.shapes, RealShape s) ∧ lo ≤ l.epsB ∧ (∀ s ∈ l.shapes, lo ≤ s.eps) ∧
        (S.gvec gmax).length * drawErr l.epsB S.ecArea (sh.map Prod.fst) < lo ∧
        |dB| ≤ D ∧ (∀ s ∈ sh, |s.2| ≤ D) ∧
        D + (S.gvec gmax).length * ((sh.map fun s => |s.2 - dB| * s.1.err).sum / S.ecArea) ≤
          q * (lo - (S.gvec gmax).length * drawErr l.epsB S.ecArea (sh.map Prod.fst)) ∧
        (sh = [] ∨ ¬ TakenUniform S gmax l ∧ ¬ TakenUniform S gmax l'))) S.layers layers')
    (hg : ∀ eff ik b, ik < ks.length → S.layers.mapM (GmeLay.eff "custom") = .ok eff →
      guided ((S.layers.map GmeLay.pos).zip eff) (S.gvec gmax) ks ik = .ok b →
      GoodBasis ((S.layers.map GmeLay.pos).zip eff) b) (r r' : List KRes)
    (hr : gmeSimIj ijExact argsort eigh guided S gmax false "custom" ks 0 numeig = .ok r)
    (hr' : gmeSimIj ijExact argsort eigh guided { S with layers := layers' } gmax false "custom" ks 0 numeig = .ok r') :
    List.Forall₂ (fun a a' : KRes => List.Forall₂ (fun f f' => f ≤ √(1 + q) * f' ∧ √(1 - q) * f' ≤ f) a.freq a'.freq)
      r r' := by
  refine C152_forms argsort hs eigh he guided S layers' gmax false false "custom" "custom" ks numeig (1 + q) (1 - q)
    (by linarith) (by linarith) (hl.imp ?_) hg r r' hr hr'
  rintro l l' ⟨hdr, rfl | ⟨a1, a2, dB, D, lo, sh, rfl, hD, hsh, hrs, hlo, hlos, hpos, hd1, hd2, hm, hu⟩⟩
  · refine ⟨rfl, rfl, fun E E' hE hE' => ?_⟩
    obtain ⟨F, h1, h2⟩ := drawnLayer_inv S gmax l' hdr false
    rw [h1] at hE hE'
    cases hE
    cases hE'
    exact ⟨h2, h2, fun x => by have := qform_nonneg h2 x; constructor <;> nlinarith⟩
  · refine ⟨rfl, rfl, fun E E' hE hE' => ?_⟩
    have hn := fun x => raisedLay_near S l a1 a2 dB sh hD hsh hrs D ⟨hd1, hd2⟩ gmax x
    have hform : ∀ x, (lo - (S.gvec gmax).length * drawErr l.epsB S.ecArea (sh.map Prod.fst)) * ∑ i, ‖x i‖ ^ 2 ≤
        qform (S.epsMat gmax l) x := by
      intro x
      obtain ⟨hi, h4, h5⟩ := eps_bounded l.epsB l.shapes
      rw [qform_sum]
      exact ((C101_gme S l a1 a2 (sh.map Prod.fst) hD (by rw [hsh, List.map_map]; rfl) hrs lo hi ⟨hlo, hlos⟩ ⟨h4, h5⟩
        gmax).1 x).1
    set m := lo - (S.gvec gmax).length * drawErr l.epsB S.ecArea (sh.map Prod.fst) with hmdef
    have hm0 : 0 < m := sub_pos.2 hpos
    obtain ⟨hP, hP', hx⟩ := near_ratio (hn 0).1 (hn 0).2.1 hm0 (mul_nonneg hq hm0.le) (by nlinarith : q * m < m) hform
      (fun x => (hn x).2.2.trans (mul_le_mul_of_nonneg_right hm (Finset.sum_nonneg fun i _ => sq_nonneg _)))
    rw [mul_div_cancel_right₀ _ hm0.ne'] at hx
    have e1 : E = (S.epsMat gmax l)⁻¹ := epsInv_exact S hD.resolved gmax l
      (hu.imp (fun h => by rw [hsh, h]; rfl) fun h => h.1) E hE
    have e2 : E' = (S.epsMat gmax (raisedLay S.ecArea l dB sh))⁻¹ := epsInv_exact S hD.resolved gmax _
      (hu.imp (fun h => by rw [raisedLay, h]; rfl) fun h => h.2) E' hE'
    subst e1 e2
    exact ⟨hP.inv.posSemidef, hP'.inv.posSemidef, hx⟩

/-- **C152 (guided modes of the code).** The same with the guided modes that the code itself finds. -/
theorem C152_code (argsort : List ℝ → List ℕ) (hs : ∀ l, IsArgsort l (argsort l))
    (eigh : ∀ n, Matrix (Fin n) (Fin n) ℂ → Fin n → ℝ) (he : GoodEigh eigh) (fs : Finder) (o : GuidedOpts)
    (S : GmeStruct) (layers' : List GmeLay) (gmax q : ℝ) (hq : 0 ≤ q) (hq1 : q < 1) (ks : List R2) (numeig : ℕ)
    (hlay : List.Forall₂ (fun l l' : GmeLay => DrawnLayer S gmax l ∧ (l' = l ∨
      ∃ (a1 a2 : R2) (dB D lo : ℝ) (sh : List (Drawn × ℝ)), l' = raisedLay S.ecArea l dB sh ∧
        Draws a1 a2 S.b1 S.b2 l.epsB l.epsAvg S.ecArea (sh.map Prod.fst) ∧ (l.shapes = sh.map fun s => s.1.shape) ∧
        (∀ s ∈ l.shapes, RealShape s) ∧ lo ≤ l.epsB ∧ (∀ s ∈ l.shapes, lo ≤ s.eps) ∧
        (S.gvec gmax).length * drawErr l.epsB S.ecArea (sh.map Prod.fst) < lo ∧
        |dB| ≤ D ∧ (∀ s ∈ sh, |s.2| ≤ D) ∧
        D + (S.gvec gmax).length * ((sh.map fun s => |s.2 - dB| * s.1.err).sum / S.ecArea) ≤
          q * (lo - (S.gvec gmax).length * drawErr l.epsB S.ecArea (sh.map Prod.fst)) ∧
        (sh = [] ∨ ¬ TakenUniform S gmax l ∧ ¬ TakenUniform S gmax l'))) S.layers layers')
    (e0 eN : ℝ) (ls : List (ℝ × ℝ)) (hne : ls ≠ []) (h0 : 0 < e0) (hN : 0 < eN)
    (hl : ∀ l ∈ ls, 0 < l.1) (hd : ∀ l ∈ ls, 0 ≤ l.2) (hfs : RootFinder fs e0 eN ls) (ho : ExactOpts o)
    (hst : ∀ eff, S.layers.mapM (GmeLay.eff "custom") = .ok eff →
      (S.layers.map GmeLay.pos).zip eff = slabStack e0 eN ls)
    (hsep : ∀ k ∈ ks, SeparateWaves fs o e0 eN ls (waveLengths o (S.gvec gmax) k)) (r r' : List KRes)
    (hr : gmeSimIj ijExact argsort eigh (codeGuided normExact fs o) S gmax false "custom" ks 0 numeig = .ok r)
    (hr' : gmeSimIj ijExact argsort eigh (codeGuided normExact fs o) { S with layers := layers' } gmax false "custom" ks 0
      numeig = .ok r') :
    List.Forall₂ (fun a a' : KRes => List.Forall₂ (fun f f' => f ≤ √(1 + q) * f' ∧ √(1 - q) * f' ≤ f) a.freq a'.freq)
      r r' := by
  refine C152_gme argsort hs eigh he _ S layers' gmax q hq hq1 ks numeig hlay (fun eff ik b hik he hb => ?_) r r' hr hr'
  rw [hst eff he] at hb ⊢
  have hk : ks.getD ik 0 ∈ ks := by rw [getD_of_len hik]; exact List.getElem_mem _
  exact code_good hne h0 hN hl hd hfs ho (hsep _ hk) hb

/-! ### Examples -/

/-- Holes of permittivity 1 in 12, both changed by 0.1 and -0.1: the bands move by less than about 6 percent. -/
example (argsort : List ℝ → List ℕ) (hs : ∀ l, IsArgsort l (argsort l))
    (eigh : ∀ n, Matrix (Fin n) (Fin n) ℂ → Fin n → ℝ) (he : GoodEigh eigh) (gmax : ℝ)
    (hn : (holesLayer.gvec gmax).length ≤ 10 ^ 5) (ks : List R2) :
    ∃ q : ℝ, q ≤ 0.11 ∧ ∃ fs fs', pweFreqs argsort eigh holesLayer gmax ks "te" 8 = .ok fs ∧
      pweFreqs argsort eigh (raised holesLayer 0.1 [(drawnCircle 1 ⟨0, 0, 0.2⟩, -0.1)]) gmax ks "te" 8 = .ok fs' ∧
      fs.length = ks.length ∧
      List.Forall₂ (List.Forall₂ fun f f' => f ≤ √(1 + q) * f' ∧ √(1 - q) * f' ≤ f) fs fs' := by
  have h1 : ((holesLayer.gvec gmax).length : ℝ) ≤ 10 ^ 5 := by exact_mod_cast hn
  have h0 : (0 : ℝ) ≤ (holesLayer.gvec gmax).length := by positivity
  have hpi := Real.pi_lt_four
  have hpi0 := Real.pi_pos
  have hdr : drawErr 12 1 [drawnCircle 1 ⟨0, 0, 0.2⟩] ≤ 1e-9 := by
    have h11 : |(1 : ℝ) - 12| = 11 := by norm_num
    simp only [drawErr, drawnCircle, List.map_cons, List.map_nil, List.sum_cons, List.sum_nil, h11]
    norm_num; linarith
  have hN : ((holesLayer.gvec gmax).length : ℝ) * drawErr 12 1 [drawnCircle 1 ⟨0, 0, 0.2⟩] ≤ 1e-4 :=
    calc _ ≤ ((holesLayer.gvec gmax).length : ℝ) * 1e-9 := by gcongr
      _ ≤ 10 ^ 5 * 1e-9 := by gcongr
      _ = 1e-4 := by norm_num
  have hs1 : (([(drawnCircle 1 ⟨0, 0, 0.2⟩, -0.1)] : List (Drawn × ℝ)).map fun s => |s.2 - 0.1| * s.1.err).sum / holesLayer.ecArea
      ≤ 1e-9 := by
    have h2 : |(-0.1 : ℝ) - 0.1| = 0.2 := by norm_num
    simp only [drawnCircle, List.map_cons, List.map_nil, List.sum_cons, List.sum_nil, h2, holesLayer]
    norm_num; linarith
  have hη : ((holesLayer.gvec gmax).length : ℝ) *
      ((([(drawnCircle 1 ⟨0, 0, 0.2⟩, -0.1)] : List (Drawn × ℝ)).map fun s => |s.2 - 0.1| * s.1.err).sum / holesLayer.ecArea)
      ≤ 1e-4 :=
    calc _ ≤ ((holesLayer.gvec gmax).length : ℝ) * 1e-9 := by gcongr
      _ ≤ 10 ^ 5 * 1e-9 := by gcongr
      _ = 1e-4 := by norm_num
  have hq : (0.1 + ((holesLayer.gvec gmax).length : ℝ) *
      ((([(drawnCircle 1 ⟨0, 0, 0.2⟩, -0.1)] : List (Drawn × ℝ)).map fun s => |s.2 - 0.1| * s.1.err).sum / holesLayer.ecArea)) /
      (1 - ((holesLayer.gvec gmax).length : ℝ) * drawErr holesLayer.epsB holesLayer.ecArea
        (([(drawnCircle 1 ⟨0, 0, 0.2⟩, -0.1)] : List (Drawn × ℝ)).map Prod.fst)) ≤ 0.11 := by
    have hN' : ((holesLayer.gvec gmax).length : ℝ) * drawErr holesLayer.epsB holesLayer.ecArea
        (([(drawnCircle 1 ⟨0, 0, 0.2⟩, -0.1)] : List (Drawn × ℝ)).map Prod.fst) ≤ 1e-4 := hN
    rw [div_le_iff₀ (by norm_num at hN' ⊢; linarith)]
    norm_num at hη hN' ⊢
    linarith
  refine ⟨_, hq, C152_pwe argsort hs eigh he holesLayer (1, 0) (0, 1) 0.1 [(drawnCircle 1 ⟨0, 0, 0.2⟩, -0.1)] square_holes rfl
    holes_real 1 0.1 _ gmax (by simp [holesLayer]) (lt_of_le_of_lt hN (by norm_num)) (by simp; norm_num) rfl
    (lt_of_le_of_lt hq (by norm_num)) ks "te" .te (by decide) 8⟩

/-- Holes of permittivity 1 in 12 against 1.1 in 12.1 in the guided-mode expansion: at most 11 percent in the squares. -/
example (argsort : List ℝ → List ℕ) (hs : ∀ l, IsArgsort l (argsort l))
    (eigh : ∀ n, Matrix (Fin n) (Fin n) ℂ → Fin n → ℝ) (he : GoodEigh eigh) (gmax : ℝ) (hg : 1 ≤ gmax)
    (hn : ((holesStruct 1).gvec gmax).length ≤ 10 ^ 5) (ks : List R2) (r r' : List KRes)
    (hr : gmeSimIj ijExact argsort eigh (exGuided true) (holesStruct 1) gmax false "custom" ks 0 2 = .ok r)
    (hr' : gmeSimIj ijExact argsort eigh (exGuided true) (holesStruct 1.1) gmax false "custom" ks 0 2 = .ok r') :
    List.Forall₂ (fun a a' : KRes => List.Forall₂ (fun f f' => f ≤ √(1 + 0.11) * f' ∧ √(1 - 0.11) * f' ≤ f) a.freq a'.freq)
      r r' := by
  have hn6 : ((holesStruct 1).gvec gmax).length ≤ 10 ^ 6 := hn.trans (by norm_num)
  have e1 : raisedLay 1 (holesSlab 1) 0.1 [(drawnCircle 1 ⟨0, 0, 0.2⟩, 0.1)] = holesSlab 1.1 := by
    obtain ⟨-, m2, -, -⟩ := C101_circle 1 ⟨0, 0, 0.2⟩ (by norm_num)
    simp only [raisedLay, holesSlab, List.map_cons, List.map_nil, List.sum_cons, List.sum_nil, m2, drawnCircle]
    have a1 : (1 : ℝ) + 11 + 0.1 = 1.1 + 11 := by norm_num
    have a2 : (1 : ℝ) + 0.1 = 1.1 := by norm_num
    simp only [drawnCircle] at m2
    rw [a1, a2, add_zero, m2]
  refine C152_gme argsort hs eigh he _ (holesStruct 1) (holesStruct 1.1).layers gmax 0.11 (by norm_num) (by norm_num) ks 2
    (.cons ⟨cladding_drawn 1 gmax _ _, Or.inl rfl⟩ (.cons ⟨slab_drawn gmax hn6, Or.inr ?_⟩
      (.cons ⟨cladding_drawn 1 gmax _ _, Or.inl rfl⟩ .nil)))
    (fun eff ik b _ he hb => ?_) r r' hr hr'
  · refine ⟨(1, 0), (0, 1), 0.1, 0.1, 1, [(drawnCircle 1 ⟨0, 0, 0.2⟩, 0.1)], e1.symm, holes_draws 1, rfl, holes_real' 1,
      by norm_num [holesSlab], by simp [holesSlab], holes_err' 1 _ hn6, by norm_num, by norm_num, ?_,
      Or.inr ⟨holes_patterned 1 1 gmax hg, holes_patterned 1.1 1 gmax hg⟩⟩
    have h1 : (((holesStruct 1).gvec gmax).length : ℝ) ≤ 10 ^ 5 := by exact_mod_cast hn
    have h0 : (0 : ℝ) ≤ ((holesStruct 1).gvec gmax).length := by positivity
    have hpi := Real.pi_lt_four
    have hpi0 := Real.pi_pos
    have hdr : drawErr (holesSlab 1).epsB (holesStruct 1).ecArea
        (([(drawnCircle 1 ⟨0, 0, 0.2⟩, 0.1)] : List (Drawn × ℝ)).map Prod.fst) ≤ 1e-9 := by
      have h11 : |(1 : ℝ) - (1 + 11)| = 11 := by norm_num
      simp only [drawErr, drawnCircle, List.map_cons, List.map_nil, List.sum_cons, List.sum_nil, holesSlab, holesStruct, h11]
      norm_num; linarith
    have hN : (((holesStruct 1).gvec gmax).length : ℝ) * drawErr (holesSlab 1).epsB (holesStruct 1).ecArea
        (([(drawnCircle 1 ⟨0, 0, 0.2⟩, 0.1)] : List (Drawn × ℝ)).map Prod.fst) ≤ 1e-4 :=
      calc _ ≤ (((holesStruct 1).gvec gmax).length : ℝ) * 1e-9 := by gcongr
        _ ≤ 10 ^ 5 * 1e-9 := by gcongr
        _ = 1e-4 := by norm_num
    simp only [List.map_cons, List.map_nil, List.sum_cons, List.sum_nil, sub_self, abs_zero, zero_mul, add_zero, zero_div,
      mul_zero] at hN ⊢
    norm_num at hN ⊢
    linarith
  · rw [holes_custom he] at hb ⊢
    exact exGuided_good _ _ _ _ _ _ _ _ hb

/-- Raising the upper cladding from 1 to 1.2, with the guided modes of the code: at most 40 percent in the squares. -/
example (argsort : List ℝ → List ℕ) (hs : ∀ l, IsArgsort l (argsort l))
    (eigh : ∀ n, Matrix (Fin n) (Fin n) ℂ → Fin n → ℝ) (he : GoodEigh eigh) (fs : Finder)
    (hfs : RootFinder fs 3 1 [(5, 7 * Real.pi / 12)]) (r' : List KRes)
    (hr' : gmeSimIj ijExact argsort eigh (codeGuided normExact fs asymOpts) { orderHoles 1 with layers :=
        [⟨.lower, 3, 3, some 3, []⟩, { holesSlab 1 with pos := .inner (7 * Real.pi / 12), epsEff := some 5 },
          ⟨.upper, 1.2, 1.2, some 1, []⟩] } (1 / 2) false "custom" [(0, 2)] 0 1 = .ok r') :
    ∃ r, gmeSimIj ijExact argsort eigh (codeGuided normExact fs asymOpts) (orderHoles 1) (1 / 2) false "custom" [(0, 2)] 0 1 =
      .ok r ∧ List.Forall₂ (fun a a' : KRes => List.Forall₂ (fun f f' => f ≤ √(1 + 0.4) * f' ∧ √(1 - 0.4) * f' ≤ f)
        a.freq a'.freq) r r' := by
  obtain ⟨r, hr⟩ := orderHoles_runs fs hfs [0] (by simp) (by simp) (by simp) argsort eigh
  have hdr := orderHoles_drawn
  refine ⟨r, hr, C152_code argsort hs eigh he fs asymOpts (orderHoles 1) _ (1 / 2) 0.4 (by norm_num) (by norm_num) [(0, 2)] 1
    (.cons ⟨hdr _ (by simp [orderHoles]), .inl rfl⟩ (.cons ⟨hdr _ (by simp [orderHoles]), .inl rfl⟩
      (.cons ⟨hdr _ (by simp [orderHoles]), .inr ?_⟩ .nil))) 3 1 [(5, 7 * Real.pi / 12)] (by simp) (by norm_num) one_pos (by simp)
    (by simp; positivity) hfs asymOpts_exact (fun eff h => by rw [orderHoles_eff] at h; cases h; rfl) (fun k hk => ?_) r r' hr
    hr'⟩
  · refine ⟨(1, 0), (0, 1), 0.2, 0.2, 1 / 2, [], ?_, ⟨square_holes.dual, resolved_square, by simp [orderHoles],
      ⟨by simp, by simp⟩, by simp, by simp, by simp, by simp⟩, rfl, by simp, by norm_num, by simp, by simp [drawErr],
      by norm_num, by simp, by simp [drawErr]; norm_num, .inl rfl⟩
    simp [raisedLay]
    norm_num
  · rw [List.mem_singleton.1 hk, orderHoles_waves]
    exact single_waves _ _ _ _ _

end Legume
