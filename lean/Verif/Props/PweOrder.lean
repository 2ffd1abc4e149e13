import Verif.Lemmas.GenEigen
import Verif.Props.PermittivityMap

/-! # C102, C103: the frequencies of the plane-wave expansion, the permittivity and the truncation -/
namespace Legume
open Spec MeasureTheory Matrix
open scoped Real ComplexConjugate ComplexOrder

theorem pweMat_mono {n : ℕ} (p : Pol) (k : R2) (g : Fin n → R2) (E F : Matrix (Fin n) (Fin n) ℂ)
    (h : ∀ x, qform E x ≤ qform F x) (v : Fin n → ℂ) : qform (pweMat p k g E) v ≤ qform (pweMat p k g F) v := by
  cases p with
  | te =>
    simp only [qform, (C36_energy k g E v).1, (C36_energy k g F v).1, Complex.add_re]
    exact add_le_add (h _) (h _)
  | tm =>
    simp only [qform, (C36_energy k g E v).2, (C36_energy k g F v).2]
    exact h _

theorem parsePol_ok (pol : String) (p : Pol)
    (hp : pyLower pol = match p with | .te => ['t', 'e'] | .tm => ['t', 'm']) : parsePol pol = .ok p := by
  unfold parsePol
  cases p with
  | te => rw [if_pos hp]
  | tm => rw [if_neg (by rw [hp]; decide), if_pos hp]

theorem mapM_ok_map {α β : Type} (f : α → β) (l : List α) :
    (l.mapM fun a => (.ok (f a) : Except PyErr β)) = .ok (l.map f) := by
  induction l with
  | nil => rfl
  | cons a l ih => simp only [List.mapM_cons, bind, Except.bind, ih]; rfl

/-- `freqs` when nothing is raised. -/
theorem pweFreqs_ok (argsort : List ℝ → List ℕ) (eigh : ∀ n, Matrix (Fin n) (Fin n) ℂ → Fin n → ℝ)
    (L : PweLayer) (gmax : ℝ) (hdet : (L.epsMat gmax).det ≠ 0) (ks : List R2) (pol : String) (p : Pol)
    (hp : pyLower pol = match p with | .te => ['t', 'e'] | .tm => ['t', 'm']) (numeig : ℕ) :
    pweFreqs argsort eigh L gmax ks pol numeig =
      .ok (ks.map fun k => (solvePwe argsort (List.ofFn (eigh _ (pweMat p k (L.gAt gmax) (L.epsMat gmax)⁻¹ + 1)))
        numeig).freq) := by
  rw [pweFreqs_eq, if_neg hdet, ← mapM_ok_map]
  simp only [parsePol_ok pol p hp]

theorem solvePwe_length (argsort : List ℝ → List ℕ) (hs : ∀ l, IsArgsort l (argsort l)) (w : List ℝ) (numeig : ℕ) :
    (solvePwe argsort w numeig).freq.length = min numeig w.length := by
  have h := (hs (w.map freqOf)).1.length_eq
  simp only [List.length_range, List.length_map] at h
  simp [solvePwe, h]

/-- Two positive definite permittivity matrices in the same basis. -/
theorem pwe_order (argsort : List ℝ → List ℕ) (hs : ∀ l, IsArgsort l (argsort l))
    (eigh : ∀ n, Matrix (Fin n) (Fin n) ℂ → Fin n → ℝ) (he : GoodEigh eigh) {n : ℕ} (p : Pol) (k : R2)
    (g : Fin n → R2) (E E' : Matrix (Fin n) (Fin n) ℂ) (hE : E.PosDef) (hE' : E'.PosDef)
    (h : ∀ x, qform E x ≤ qform E' x) (numeig : ℕ) :
    List.Forall₂ (· ≤ ·) (solvePwe argsort (List.ofFn (eigh _ (pweMat p k g E'⁻¹ + 1))) numeig).freq
      (solvePwe argsort (List.ofFn (eigh _ (pweMat p k g E⁻¹ + 1))) numeig).freq := by
  have P := C36_psd p k g _ hE.inv.posSemidef
  have P' := C36_psd p k g _ hE'.inv.posSemidef
  obtain ⟨V, hV⟩ := he _ _ (P.1.add isHermitian_one)
  obtain ⟨V', hV'⟩ := he _ _ (P'.1.add isHermitian_one)
  rw [List.forall₂_iff_get]
  refine ⟨by rw [solvePwe_length argsort hs, solvePwe_length argsort hs, List.length_ofFn, List.length_ofFn],
    fun i hi hi' => ?_⟩
  exact freq_ritz argsort hs P' P hV' hV LinearMap.id (fun x => rfl)
    (fun x => pweMat_mono p k g _ _ (qform_inv_le E E' hE hE' h) x) numeig i hi hi'

/-- The layer with the permittivity of the background raised by `dB` and that of every shape by the second component; the
averages are those of the areas. -/
noncomputable def raised (L : PweLayer) (dB : ℝ) (sh : List (Drawn × ℝ)) : PweLayer :=
  { L with
    epsB := L.epsB + dB
    epsAvg := L.epsB + dB +
      (sh.map fun s => (s.1.shape.eps + s.2 - (L.epsB + dB)) * volume.real s.1.region / L.ecArea).sum
    shapes := sh.map fun s => ⟨s.1.shape.eps + s.2, s.1.shape.ft⟩ }

theorem raised_ft (L : PweLayer) (dB : ℝ) (sh : List (Drawn × ℝ)) (hsh : L.shapes = sh.map fun s => s.1.shape)
    (havg : L.epsAvg = L.epsB + ((sh.map Prod.fst).map fun s =>
      (s.shape.eps - L.epsB) * volume.real s.region / L.ecArea).sum) (g : R2) :
    (raised L dB sh).ft g = L.ft g + layerFt dB (dB + (sh.map fun s => (s.2 - dB) * volume.real s.1.region / L.ecArea).sum)
      L.ecArea (sh.map fun s => ⟨s.2, s.1.shape.ft⟩) g := by
  unfold PweLayer.ft raised
  by_cases h0 : isG0 g
  · rw [layerFt_g0 _ _ _ _ _ h0, layerFt_g0 _ _ _ _ _ h0, layerFt_g0 _ _ _ _ _ h0, havg, ← Complex.ofReal_add]
    congr 1
    rw [List.map_map]
    have : ∀ l : List (Drawn × ℝ), (l.map fun s => (s.1.shape.eps + s.2 - (L.epsB + dB)) * volume.real s.1.region / L.ecArea).sum =
        (l.map ((fun s : Drawn => (s.shape.eps - L.epsB) * volume.real s.region / L.ecArea) ∘ Prod.fst)).sum +
        (l.map fun s => (s.2 - dB) * volume.real s.1.region / L.ecArea).sum := by
      intro l
      induction l with
      | nil => simp
      | cons s l ih => simp only [List.map_cons, List.sum_cons, ih, Function.comp]; ring
    rw [this]
    ring
  · rw [C12_layer_value _ _ _ _ _ h0, C12_layer_value _ _ _ _ _ h0, C12_layer_value _ _ _ _ _ h0, hsh, ← add_div]
    congr 1
    simp only [List.map_map]
    clear hsh havg
    induction sh with
    | nil => simp
    | cons s l ih =>
      simp only [List.map_cons, List.sum_cons, ih, Function.comp]
      push_cast
      ring

theorem raised_qform (L : PweLayer) (a1 a2 : R2) (dB : ℝ) (sh : List (Drawn × ℝ))
    (hD : Draws a1 a2 L.b1 L.b2 L.epsB L.epsAvg L.ecArea (sh.map Prod.fst))
    (hsh : L.shapes = sh.map fun s => s.1.shape) (hr : ∀ s ∈ L.shapes, RealShape s) (d : ℝ)
    (hd : d ≤ dB ∧ ∀ s ∈ sh, d ≤ s.2) (gmax : ℝ)
    (hm : (L.gvec gmax).length * ((sh.map fun s => |s.2 - dB| * s.1.err).sum / L.ecArea) ≤ d)
    (x : Fin (L.gvec gmax).length → ℂ) :
    qform (L.epsMat gmax) x ≤ qform ((raised L dB sh).epsMat gmax) x := by
  have hr' : ∀ s ∈ (raised L dB sh).shapes, RealShape s := by
    intro s hs
    obtain ⟨t, ht, rfl⟩ := List.mem_map.1 hs
    exact hr t.1.shape (by rw [hsh]; exact List.mem_map_of_mem ht)
  set D : List Drawn := sh.map fun s => ⟨⟨s.2, s.1.shape.ft⟩, s.1.region, s.1.err⟩ with hDdef
  have hD' : Draws a1 a2 L.b1 L.b2 dB (dB + (sh.map fun s => (s.2 - dB) * volume.real s.1.region / L.ecArea).sum)
      L.ecArea D := by
    refine ⟨hD.dual, hD.resolved, hD.area_eq, ?_, ?_, ?_, ?_, ?_⟩
    · have := hD.apart
      rw [List.map_map] at this
      rw [hDdef, List.map_map]
      exact this
    · intro s hs
      obtain ⟨t, ht, rfl⟩ := List.mem_map.1 hs
      exact hD.measurable t.1 (List.mem_map_of_mem ht)
    · intro s hs
      obtain ⟨t, ht, rfl⟩ := List.mem_map.1 hs
      exact hD.close t.1 (List.mem_map_of_mem ht)
    · intro s hs
      obtain ⟨t, ht, rfl⟩ := List.mem_map.1 hs
      exact hD.err_nonneg t.1 (List.mem_map_of_mem ht)
    · rw [hDdef, List.map_map]; rfl
  obtain ⟨ind, hinj, hind⟩ := pweG_index L gmax
  obtain ⟨hi, hhi⟩ : ∃ hi : ℝ, dB ≤ hi ∧ ∀ s ∈ D, s.shape.eps ≤ hi := by
    have : ∀ l : List Drawn, ∃ hi : ℝ, dB ≤ hi ∧ ∀ s ∈ l, s.shape.eps ≤ hi := by
      intro l
      induction l with
      | nil => exact ⟨dB, le_refl _, by simp⟩
      | cons s l ih =>
        obtain ⟨hi, h1, h2⟩ := ih
        refine ⟨max hi s.shape.eps, h1.trans (le_max_left _ _), fun t ht => ?_⟩
        rcases List.mem_cons.1 ht with h | h
        · rw [h]; exact le_max_right _ _
        · exact (h2 t h).trans (le_max_left _ _)
    exact this D
  have hb := (C101_bounds a1 a2 L.b1 L.b2 dB _ L.ecArea D hD' d hi
    ⟨hd.1, fun s hs => by obtain ⟨t, ht, rfl⟩ := List.mem_map.1 hs; exact hd.2 t ht⟩ hhi (fun i => -ind i)
    (fun i j h => hinj (neg_injective h)) x).1
  have herr : drawErr dB L.ecArea D = (sh.map fun s => |s.2 - dB| * s.1.err).sum / L.ecArea := by
    rw [drawErr, hDdef, List.map_map]; rfl
  rw [herr] at hb
  have hpos : 0 ≤ (∑ i, ∑ j, conj (x i) * layerFt dB (dB + (sh.map fun s =>
      (s.2 - dB) * volume.real s.1.region / L.ecArea).sum) L.ecArea (D.map Drawn.shape)
      (latVec L.b1 L.b2 (-ind j - -ind i)) * x j).re :=
    (mul_nonneg (sub_nonneg.2 hm) (Finset.sum_nonneg fun _ _ => by positivity)).trans hb
  have hent : ∀ i j : Fin (L.gvec gmax).length, (raised L dB sh).epsMat gmax i j = L.epsMat gmax i j +
      layerFt dB (dB + (sh.map fun s => (s.2 - dB) * volume.real s.1.region / L.ecArea).sum) L.ecArea
        (D.map Drawn.shape) (latVec L.b1 L.b2 (-ind j - -ind i)) := by
    intro i j
    rw [show (raised L dB sh).epsMat gmax i j = (raised L dB sh).ft ((L.gAt gmax i).1 - (L.gAt gmax j).1,
        (L.gAt gmax i).2 - (L.gAt gmax j).2) from pweEps_entry (raised L dB sh) gmax (pweFt_conj _ hr') i j,
      pweEps_entry L gmax (pweFt_conj L hr) i j, raised_ft L dB sh hsh hD.avg, hind, hind, gOf_diff, latVec_eq]
    congr 1
    have hl : D.map Drawn.shape = sh.map fun s => ⟨s.2, s.1.shape.ft⟩ := by rw [hDdef, List.map_map]; rfl
    have hi : ((ind i).1 - (ind j).1, (ind i).2 - (ind j).2) = -ind j - -ind i := by
      ext <;> simp <;> ring
    rw [hl, hi]
  have key : ∀ E' : Matrix (Fin (L.gvec gmax).length) (Fin (L.gvec gmax).length) ℂ,
      (∀ i j, E' i j = L.epsMat gmax i j + layerFt dB (dB + (sh.map fun s =>
        (s.2 - dB) * volume.real s.1.region / L.ecArea).sum) L.ecArea
        (D.map Drawn.shape) (latVec L.b1 L.b2 (-ind j - -ind i))) → qform (L.epsMat gmax) x ≤ qform E' x := by
    intro E' hE'
    rw [qform_sum, qform_sum]
    have e : ∑ i, ∑ j, conj (x i) * E' i j * x j =
        (∑ i, ∑ j, conj (x i) * L.epsMat gmax i j * x j) + ∑ i, ∑ j, conj (x i) * layerFt dB (dB + (sh.map fun s =>
          (s.2 - dB) * volume.real s.1.region / L.ecArea).sum) L.ecArea (D.map Drawn.shape)
          (latVec L.b1 L.b2 (-ind j - -ind i)) * x j := by
      rw [← Finset.sum_add_distrib]
      refine Finset.sum_congr rfl fun i _ => ?_
      rw [← Finset.sum_add_distrib]
      refine Finset.sum_congr rfl fun j _ => ?_
      rw [hE']; ring
    rw [e, Complex.add_re]
    linarith
  exact key _ hent

/-- **C102 (raising permittivities).** If the permittivity of the background and of every shape is raised by at least `d`,
and `d` is not below the number of plane waves times the error of a coefficient of the increments, then no frequency rises:
at every wave vector the frequency of every band is at most what it was before. If all increments are equal there is no
condition on their size. -/
theorem C102_raise (argsort : List ℝ → List ℕ) (hs : ∀ l, IsArgsort l (argsort l))
    (eigh : ∀ n, Matrix (Fin n) (Fin n) ℂ → Fin n → ℝ) (he : GoodEigh eigh) (L : PweLayer) (a1 a2 : R2) (dB : ℝ)
    (sh : List (Drawn × ℝ)) (hD : Draws a1 a2 L.b1 L.b2 L.epsB L.epsAvg L.ecArea (sh.map Prod.fst))
    (hsh : L.shapes = sh.map fun s => s.1.shape) (hr : ∀ s ∈ L.shapes, RealShape s) (lo d gmax : ℝ)
    (hlo : lo ≤ L.epsB ∧ ∀ s ∈ L.shapes, lo ≤ s.eps)
    (hpos : (L.gvec gmax).length * drawErr L.epsB L.ecArea (sh.map Prod.fst) < lo)
    (hd : d ≤ dB ∧ ∀ s ∈ sh, d ≤ s.2)
    (hm : (L.gvec gmax).length * ((sh.map fun s => |s.2 - dB| * s.1.err).sum / L.ecArea) ≤ d)
    (ks : List R2) (pol : String) (p : Pol)
    (hp : pyLower pol = match p with | .te => ['t', 'e'] | .tm => ['t', 'm']) (numeig : ℕ) :
    ∃ fs fs', pweFreqs argsort eigh L gmax ks pol numeig = .ok fs ∧
      pweFreqs argsort eigh (raised L dB sh) gmax ks pol numeig = .ok fs' ∧
      fs.length = ks.length ∧ List.Forall₂ (List.Forall₂ (· ≤ ·)) fs' fs := by
  obtain ⟨hi, hhi⟩ : ∃ hi : ℝ, L.epsB ≤ hi ∧ ∀ s ∈ L.shapes, s.eps ≤ hi := by
    have : ∀ l : List FShape, ∃ hi : ℝ, L.epsB ≤ hi ∧ ∀ s ∈ l, s.eps ≤ hi := by
      intro l
      induction l with
      | nil => exact ⟨L.epsB, le_refl _, by simp⟩
      | cons s l ih =>
        obtain ⟨hi, h1, h2⟩ := ih
        refine ⟨max hi s.eps, h1.trans (le_max_left _ _), fun t ht => ?_⟩
        rcases List.mem_cons.1 ht with h | h
        · rw [h]; exact le_max_right _ _
        · exact (h2 t h).trans (le_max_left _ _)
    exact this _
  have hsh' : L.shapes = (sh.map Prod.fst).map Drawn.shape := by rw [hsh, List.map_map]; rfl
  obtain ⟨b, c⟩ := C101_pwe L a1 a2 _ hD hsh' hr lo hi hlo hhi gmax
  obtain ⟨hP, hdet, -⟩ := c hpos
  have hq := raised_qform L a1 a2 dB sh hD hsh hr d hd gmax hm
  have hr' : ∀ s ∈ (raised L dB sh).shapes, RealShape s := by
    intro s hs
    obtain ⟨t, ht, rfl⟩ := List.mem_map.1 hs
    exact hr t.1.shape (by rw [hsh]; exact List.mem_map_of_mem ht)
  have hP' : ((raised L dB sh).epsMat gmax).PosDef := by
    refine posDef_of_form _ (pweEps_hermitian _ gmax (pweFt_conj _ hr')) _ (sub_pos.2 hpos) fun x => ?_
    rw [← qform_sum]
    exact ((b x).1.trans_eq (qform_sum _ _).symm).trans (hq x)
  refine ⟨_, _, pweFreqs_ok argsort eigh L gmax hdet ks pol p hp numeig,
    pweFreqs_ok argsort eigh (raised L dB sh) gmax hP'.det_pos.ne' ks pol p hp numeig, by simp, ?_⟩
  rw [List.forall₂_map_left_iff, List.forall₂_map_right_iff]
  exact List.forall₂_same.2 fun k _ => pwe_order argsort hs eigh he p k (L.gAt gmax) _ _ hP hP' hq numeig

theorem uniform_posDef (n : ℕ) (e : ℝ) (he : 0 < e) : ((e : ℂ) • (1 : Matrix (Fin n) (Fin n) ℂ)).PosDef :=
  PosDef.one.smul (by exact_mod_cast he)

theorem uniform_qform {n : ℕ} (e : ℝ) (x : Fin n → ℂ) :
    qform ((e : ℂ) • (1 : Matrix (Fin n) (Fin n) ℂ)) x = e * ∑ i, ‖x i‖ ^ 2 := by
  rw [← qform_one, qform, smul_mulVec, dotProduct_smul, smul_eq_mul, Complex.re_ofReal_mul, qform]

/-- The frequencies of a uniform medium. -/
theorem uniform_freqs (argsort : List ℝ → List ℕ) (hs : ∀ l, IsArgsort l (argsort l))
    (eigh : ∀ n, Matrix (Fin n) (Fin n) ℂ → Fin n → ℝ) (he : GoodEigh eigh) {n : ℕ} (p : Pol) (k : R2)
    (g : Fin n → R2) (e : ℝ) (hpos : 0 < e) (c : List ℝ) (hc : c.Pairwise (· ≤ ·))
    (hperm : c.Perm (List.ofFn fun i => √((k.1 + (g i).1) ^ 2 + (k.2 + (g i).2) ^ 2))) (numeig : ℕ) :
    (solvePwe argsort (List.ofFn (eigh _ (pweMat p k g ((e : ℂ) • (1 : Matrix (Fin n) (Fin n) ℂ))⁻¹ + 1))) numeig).freq =
      (c.map fun x => x / (2 * π * √e)).take numeig := by
  have hc0 : (e : ℂ) ≠ 0 := by exact_mod_cast hpos.ne'
  have hinv : ((e : ℂ) • (1 : Matrix (Fin n) (Fin n) ℂ))⁻¹ = (e : ℂ)⁻¹ • 1 := by
    apply inv_eq_right_inv
    rw [smul_mul_smul_comm, mul_inv_cancel₀ hc0, one_smul, one_mul]
  have hdiag : pweMat p k g ((e : ℂ) • (1 : Matrix (Fin n) (Fin n) ℂ))⁻¹ + 1 = diagonal fun i =>
      ((((k.1 + (g i).1) ^ 2 + (k.2 + (g i).2) ^ 2) / e + 1 : ℝ) : ℂ) := by
    ext i j
    rw [Matrix.add_apply, hinv]
    by_cases hij : i = j
    · subst hij
      rw [diagonal_apply_eq, one_apply_eq, pweMat, of_apply, Matrix.smul_apply, one_apply_eq]
      cases p
      · simp only [kPlusG, smul_eq_mul]
        push_cast
        field_simp
      · simp only [kPlusG, smul_eq_mul]
        rw [Real.mul_self_sqrt (by positivity)]
        push_cast
        field_simp
    · rw [diagonal_apply_ne _ hij, one_apply_ne hij, pweMat, of_apply, Matrix.smul_apply, one_apply_ne hij]
      cases p <;> simp
  obtain ⟨V, hV⟩ := he _ _ ((C36_psd p k g _ (uniform_posDef n e hpos).inv.posSemidef).1.add isHermitian_one)
  have hp2 := isEigh_perm_list hV (List.ofFn fun i => ((k.1 + (g i).1) ^ 2 + (k.2 + (g i).2) ^ 2) / e + 1) (by
    rw [hdiag, charpoly_diagonal, ← List.prod_ofFn, List.map_ofFn]
    rfl)
  refine solvePwe_freq argsort hs _ _ ?_ ?_ numeig
  · refine ((hperm.map _).trans ?_).trans (hp2.map freqOf).symm
    rw [List.map_ofFn, List.map_ofFn]
    refine List.Perm.of_eq (congrArg _ (funext fun i => ?_))
    simp only [Function.comp, freqOf, add_sub_cancel_right]
    rw [abs_of_nonneg (by positivity), Real.sqrt_div (by positivity)]
    have := Real.pi_pos.ne'
    have : √e ≠ 0 := (Real.sqrt_pos.2 hpos).ne'
    field_simp
  · rw [List.pairwise_map]
    refine hc.imp fun h => ?_
    have := Real.pi_pos
    gcongr

/-- **C102 (bounds).** Every frequency of a patterned layer lies between those of the uniform media with the highest and the
lowest permittivity (up to the number of plane waves times the error of a coefficient): with the numbers `|k + G|` in
ascending order, the one of number `i` is between `|k + G|ᵢ / (2 π √hi)` and `|k + G|ᵢ / (2 π √lo)`. -/
theorem C102_between (argsort : List ℝ → List ℕ) (hs : ∀ l, IsArgsort l (argsort l))
    (eigh : ∀ n, Matrix (Fin n) (Fin n) ℂ → Fin n → ℝ) (he : GoodEigh eigh) (L : PweLayer) (a1 a2 : R2)
    (sh : List Drawn) (hD : Draws a1 a2 L.b1 L.b2 L.epsB L.epsAvg L.ecArea sh) (hsh : L.shapes = sh.map Drawn.shape)
    (hr : ∀ s ∈ L.shapes, RealShape s) (lo hi gmax δ : ℝ) (hlo : lo ≤ L.epsB ∧ ∀ s ∈ L.shapes, lo ≤ s.eps)
    (hhi : L.epsB ≤ hi ∧ ∀ s ∈ L.shapes, s.eps ≤ hi)
    (hδ : δ = (L.gvec gmax).length * drawErr L.epsB L.ecArea sh) (hpos : δ < lo)
    (ks : List R2) (pol : String) (p : Pol)
    (hp : pyLower pol = match p with | .te => ['t', 'e'] | .tm => ['t', 'm']) (numeig : ℕ) :
    ∃ fs, pweFreqs argsort eigh L gmax ks pol numeig = .ok fs ∧ List.Forall₂ (fun k f =>
      ∃ c : List ℝ, c.Pairwise (· ≤ ·) ∧
        c.Perm ((L.gvec gmax).map fun g => √((k.1 + g.1) ^ 2 + (k.2 + g.2) ^ 2)) ∧
        List.Forall₂ (· ≤ ·) ((c.map fun x => x / (2 * π * √(hi + δ))).take numeig) f ∧
        List.Forall₂ (· ≤ ·) f ((c.map fun x => x / (2 * π * √(lo - δ))).take numeig)) ks fs := by
  obtain ⟨b, cc⟩ := C101_pwe L a1 a2 _ hD hsh hr lo hi hlo hhi gmax
  rw [← hδ] at b cc
  obtain ⟨hP, hdet, -⟩ := cc hpos
  have hδ0 : 0 ≤ δ := by
    rw [hδ]; exact mul_nonneg (by positivity) (drawErr_nonneg a1 a2 _ _ _ _ _ _ hD)
  refine ⟨_, pweFreqs_ok argsort eigh L gmax hdet ks pol p hp numeig, ?_⟩
  rw [List.forall₂_map_right_iff]
  refine List.forall₂_same.2 fun k _ => ?_
  set c := (List.ofFn fun i => √((k.1 + (L.gAt gmax i).1) ^ 2 + (k.2 + (L.gAt gmax i).2) ^ 2)).mergeSort with hc
  have hcp : c.Perm (List.ofFn fun i => √((k.1 + (L.gAt gmax i).1) ^ 2 + (k.2 + (L.gAt gmax i).2) ^ 2)) :=
    List.mergeSort_perm _ _
  have hcs : c.Pairwise (· ≤ ·) := List.pairwise_mergeSort' (· ≤ ·) _
  have hhi0 : 0 < hi + δ := by linarith [hlo.1, hhi.1]
  refine ⟨c, hcs, hcp.trans (List.Perm.of_eq ?_), ?_, ?_⟩
  · apply List.ext_getElem
    · simp
    · intro i h1 h2
      simp [PweLayer.gAt]
  · rw [← uniform_freqs argsort hs eigh he p k (L.gAt gmax) (hi + δ) hhi0 c hcs hcp numeig]
    exact pwe_order argsort hs eigh he p k (L.gAt gmax) _ _ hP (uniform_posDef _ _ hhi0)
      (fun x => by rw [uniform_qform, qform_sum]; exact (b x).2) numeig
  · rw [← uniform_freqs argsort hs eigh he p k (L.gAt gmax) (lo - δ) (sub_pos.2 hpos) c hcs hcp numeig]
    exact pwe_order argsort hs eigh he p k (L.gAt gmax) _ _ (uniform_posDef _ _ (sub_pos.2 hpos)) hP
      (fun x => by rw [uniform_qform, qform_sum]; exact (b x).1) numeig

/-- The layer of the examples: air holes of radius 0.2 in a medium of permittivity 12. -/
noncomputable def holesLayer : PweLayer :=
  ⟨(2 * π, 0), (0, 2 * π), 1, 12, 12 + (1 - 12) * (π * 0.2 ^ 2) / 1, [⟨1, Circle.ft besselJ1 ⟨0, 0, 0.2⟩⟩]⟩

theorem holes_real : ∀ s ∈ holesLayer.shapes, RealShape s := by
  simp only [holesLayer, List.mem_singleton]
  rintro s rfl
  exact C12_circle_conj besselJ1 _

theorem holes_err (n : ℕ) (hn : n ≤ 10 ^ 6) : (n : ℝ) * drawErr 12 1 [drawnCircle 1 ⟨0, 0, 0.2⟩] < 1 := by
  have h11 : |(1 : ℝ) - 12| = 11 := by norm_num
  have h1 : (n : ℝ) ≤ 10 ^ 6 := by exact_mod_cast hn
  have := Real.pi_lt_four
  have h0 := Real.pi_pos
  simp only [drawErr, drawnCircle, List.map_cons, List.map_nil, List.sum_cons, List.sum_nil, h11]
  have h3 : (11 * (2 * π * (0.2 : ℝ) ^ 3 * 1e-10) + 0) / 1 ≤ 1e-9 := by norm_num; linarith
  have h4 : 0 ≤ (11 * (2 * π * (0.2 : ℝ) ^ 3 * 1e-10) + 0) / 1 := by positivity
  calc (n : ℝ) * ((11 * (2 * π * (0.2 : ℝ) ^ 3 * 1e-10) + 0) / 1) ≤ 10 ^ 6 * 1e-9 := by gcongr
    _ < 1 := by norm_num

/-- Up to a million plane waves: raising both permittivities by 0.5 lowers the bands. -/
example (argsort : List ℝ → List ℕ) (hs : ∀ l, IsArgsort l (argsort l))
    (eigh : ∀ n, Matrix (Fin n) (Fin n) ℂ → Fin n → ℝ) (he : GoodEigh eigh) (gmax : ℝ)
    (hn : (holesLayer.gvec gmax).length ≤ 10 ^ 6) (ks : List R2) :
    ∃ fs fs', pweFreqs argsort eigh holesLayer gmax ks "te" 8 = .ok fs ∧
      pweFreqs argsort eigh (raised holesLayer 0.5 [(drawnCircle 1 ⟨0, 0, 0.2⟩, 0.5)]) gmax ks "te" 8 = .ok fs' ∧
      fs.length = ks.length ∧ List.Forall₂ (List.Forall₂ (· ≤ ·)) fs' fs :=
  C102_raise argsort hs eigh he holesLayer (1, 0) (0, 1) 0.5 [(drawnCircle 1 ⟨0, 0, 0.2⟩, 0.5)] square_holes rfl holes_real
    1 0.5 gmax (by simp [holesLayer]) (holes_err _ hn) (by simp) (by simp; norm_num) ks "te" .te (by decide) 8

/-- The bands of the holes lie between those of permittivities 12 and 1 (up to 1e-3 for 10^6 plane waves). -/
example (argsort : List ℝ → List ℕ) (hs : ∀ l, IsArgsort l (argsort l))
    (eigh : ∀ n, Matrix (Fin n) (Fin n) ℂ → Fin n → ℝ) (he : GoodEigh eigh) (gmax : ℝ)
    (hn : (holesLayer.gvec gmax).length ≤ 10 ^ 6) (k : R2) :=
  C102_between argsort hs eigh he holesLayer (1, 0) (0, 1) [drawnCircle 1 ⟨0, 0, 0.2⟩] square_holes rfl holes_real
    1 12 gmax _ (by simp [holesLayer]) (by simp [holesLayer]) rfl (holes_err _ hn) [k] "tm" .tm (by decide) 8

/-! ### C103 -/

theorem pweMat_tm {n : ℕ} (k : R2) (g : Fin n → R2) (E : Matrix (Fin n) (Fin n) ℂ) :
    pweMat .tm k g E = diagonal (fun i => ((√((k.1 + (g i).1) ^ 2 + (k.2 + (g i).2) ^ 2) : ℝ) : ℂ)) * E *
      diagonal (fun i => ((√((k.1 + (g i).1) ^ 2 + (k.2 + (g i).2) ^ 2) : ℝ) : ℂ)) := by
  ext i j
  rw [mul_diagonal, diagonal_mul, pweMat, of_apply]
  simp only [kPlusG]
  push_cast
  ring

/-- A larger `gmax` keeps all plane waves of a smaller one. -/
theorem pweG_nested (L : PweLayer) {gmax gmax' : ℝ} (h : gmax ≤ gmax') :
    ∃ σ : Fin (L.gvec gmax).length → Fin (L.gvec gmax').length, Function.Injective σ ∧
      ∀ i, L.gAt gmax' (σ i) = L.gAt gmax i := by
  have hn : ∀ b : R2, nmaxOf (2 * π) gmax b ≤ nmaxOf (2 * π) gmax' b := by
    intro b
    refine Nat.floor_le_floor ?_
    have : 0 ≤ norm2 b := Real.sqrt_nonneg _
    have := Real.pi_pos
    gcongr
  have hl : ∀ x : ℝ, (L.gvec x).length = (tbtInds (L.n1 x) (L.n2 x)).length := fun x => by simp [PweLayer.gvec]
  have hmem : ∀ i : Fin (L.gvec gmax).length, ∃ j : Fin (L.gvec gmax').length,
      (tbtInds (L.n1 gmax') (L.n2 gmax'))[(j : ℕ)]'(by rw [← hl]; exact j.2) =
        (tbtInds (L.n1 gmax) (L.n2 gmax))[(i : ℕ)]'(by rw [← hl]; exact i.2) := by
    intro i
    have hm : (tbtInds (L.n1 gmax) (L.n2 gmax))[(i : ℕ)]'(by rw [← hl]; exact i.2) ∈
        tbtInds (L.n1 gmax') (L.n2 gmax') := by
      have := (mem_tbtInds _ _ _).1 (List.getElem_mem (l := tbtInds (L.n1 gmax) (L.n2 gmax)) (n := i)
        (by rw [← hl]; exact i.2))
      have h1 : L.n1 gmax ≤ L.n1 gmax' := hn L.b1
      have h2 : L.n2 gmax ≤ L.n2 gmax' := hn L.b2
      refine (mem_tbtInds _ _ _).2 ⟨⟨?_, ?_⟩, ?_, ?_⟩ <;> omega
    obtain ⟨j, hj, he⟩ := List.getElem_of_mem hm
    exact ⟨⟨j, by rw [hl]; exact hj⟩, he⟩
  choose σ hσ using hmem
  refine ⟨σ, fun i j hij => ?_, fun i => ?_⟩
  · have h1 := hσ i
    rw [hij] at h1
    have h2 := h1.symm.trans (hσ j)
    exact Fin.ext ((tbtInds_nodup _ _).getElem_inj_iff.1 h2)
  · have e : ∀ (x : ℝ) (i : Fin (L.gvec x).length), L.gAt x i =
        gOf L.b1 L.b2 ((tbtInds (L.n1 x) (L.n2 x))[(i : ℕ)]'(by rw [← hl]; exact i.2)) :=
      fun x i => List.getElem_map (gOf L.b1 L.b2)
    rw [e, e, hσ]

/-- **C103.** In TM polarisation the plane-wave expansion converges from above: with a larger `gmax` (and a positive definite
permittivity matrix) both runs succeed and at every wave vector no band has a higher frequency than with the smaller one. -/
theorem C103_truncation (argsort : List ℝ → List ℕ) (hs : ∀ l, IsArgsort l (argsort l))
    (eigh : ∀ n, Matrix (Fin n) (Fin n) ℂ → Fin n → ℝ) (he : GoodEigh eigh) (L : PweLayer)
    (hr : ∀ s ∈ L.shapes, RealShape s) (gmax gmax' : ℝ) (hg : gmax ≤ gmax') (hP' : (L.epsMat gmax').PosDef)
    (ks : List R2) (pol : String) (hp : pyLower pol = ['t', 'm']) (numeig : ℕ) :
    ∃ fs fs', pweFreqs argsort eigh L gmax ks pol numeig = .ok fs ∧
      pweFreqs argsort eigh L gmax' ks pol numeig = .ok fs' ∧ fs.length = ks.length ∧
      List.Forall₂ (fun f' f => f.length ≤ f'.length ∧
        ∀ (i : ℕ) (h' : i < f'.length) (h : i < f.length), f'[i] ≤ f[i]) fs' fs := by
  obtain ⟨σ, hinj, hσ⟩ := pweG_nested L hg
  have hF := pweFt_conj L hr
  have hsub : (L.epsMat gmax').submatrix σ σ = L.epsMat gmax := by
    ext i j
    rw [submatrix_apply, pweEps_entry L gmax' hF, pweEps_entry L gmax hF, hσ, hσ]
  have hP : (L.epsMat gmax).PosDef := by
    rw [← hsub]
    refine PosDef.of_dotProduct_mulVec_pos (hP'.1.submatrix σ) fun x hx => ?_
    have e : star x ⬝ᵥ ((L.epsMat gmax').submatrix σ σ *ᵥ x) =
        star (selMat σ *ᵥ x) ⬝ᵥ (L.epsMat gmax' *ᵥ (selMat σ *ᵥ x)) := by
      rw [← selMat_conj, star_mulVec, ← dotProduct_mulVec, mulVec_mulVec, mulVec_mulVec, Matrix.mul_assoc]
    rw [e]
    refine hP'.dotProduct_mulVec_pos fun h0 => hx ?_
    funext i
    have h1 := congrFun h0 (σ i)
    simp only [selMat, mulVec, dotProduct, submatrix_apply, id, one_apply, Pi.zero_apply, hinj.eq_iff, ite_mul, one_mul,
      zero_mul, Finset.sum_ite_eq, Finset.mem_univ, if_true] at h1
    exact h1
  refine ⟨_, _, pweFreqs_ok argsort eigh L gmax hP.det_pos.ne' ks pol .tm hp numeig,
    pweFreqs_ok argsort eigh L gmax' hP'.det_pos.ne' ks pol .tm hp numeig, by simp, ?_⟩
  rw [List.forall₂_map_left_iff, List.forall₂_map_right_iff]
  refine List.forall₂_same.2 fun k _ => ⟨?_, fun i hi hi' => ?_⟩
  · rw [solvePwe_length argsort hs, solvePwe_length argsort hs, List.length_ofFn, List.length_ofFn]
    have : (L.gvec gmax).length ≤ (L.gvec gmax').length := by
      simpa using Fintype.card_le_of_injective σ hinj
    omega
  · obtain ⟨V, hV⟩ := he _ _ ((C36_psd .tm k (L.gAt gmax) _ hP.inv.posSemidef).1.add isHermitian_one)
    obtain ⟨V', hV'⟩ := he _ _ ((C36_psd .tm k (L.gAt gmax') _ hP'.inv.posSemidef).1.add isHermitian_one)
    have hself : ∀ {n : ℕ} (f : Fin n → ℝ), (diagonal fun i => ((f i : ℝ) : ℂ))ᴴ = diagonal fun i => ((f i : ℝ) : ℂ) := by
      intro n f
      rw [diagonal_conjTranspose]
      congr 1
      funext i
      simp
    have hW := hV
    have hW' := hV'
    rw [show pweMat .tm k (L.gAt gmax) (L.epsMat gmax)⁻¹ + 1 = _ from congrArg (· + 1) (pweMat_tm k _ _)] at hW
    rw [show pweMat .tm k (L.gAt gmax') (L.epsMat gmax')⁻¹ + 1 = _ from congrArg (· + 1) (pweMat_tm k _ _)] at hW'
    have e := pweMat_tm k (L.gAt gmax) (L.epsMat gmax)⁻¹
    have e' := pweMat_tm k (L.gAt gmax') (L.epsMat gmax')⁻¹
    simp only [e, e'] at hi hi' ⊢
    refine kek_nested argsort hs σ _ _ _ _ (hself _) (hself _) hP hP' hsub ?_ hW hW' numeig i hi hi'
    rw [diagonal_mul_diagonal, diagonal_mul_diagonal]
    ext a b
    rw [submatrix_apply]
    by_cases hab : a = b
    · subst hab; rw [diagonal_apply_eq, diagonal_apply_eq, hσ]
    · rw [diagonal_apply_ne _ hab, diagonal_apply_ne _ fun h => hab (hinj h)]

theorem holes_count (n : ℕ) : (holesLayer.gvec n).length = (2 * n + 1) * (2 * n + 1) := by
  have h : ∀ b : R2, norm2 b = 2 * π → nmaxOf (2 * π) n b = n := by
    intro b hb
    rw [nmaxOf, hb, mul_div_assoc, mul_div_cancel₀ _ (by positivity), Nat.floor_natCast]
  have h1 : holesLayer.n1 n = n := h _ (by simp [holesLayer, norm2, Real.sqrt_sq_eq_abs, abs_of_pos Real.pi_pos])
  have h2 : holesLayer.n2 n = n := h _ (by simp [holesLayer, norm2, Real.sqrt_sq_eq_abs, abs_of_pos Real.pi_pos])
  rw [PweLayer.gvec, List.length_map, tbtInds_length, h1, h2]

/-- The holes with `gmax` 3 and 5. -/
example (argsort : List ℝ → List ℕ) (hs : ∀ l, IsArgsort l (argsort l))
    (eigh : ∀ n, Matrix (Fin n) (Fin n) ℂ → Fin n → ℝ) (he : GoodEigh eigh) (ks : List R2) :
    ∃ fs fs', pweFreqs argsort eigh holesLayer 3 ks "tm" 8 = .ok fs ∧
      pweFreqs argsort eigh holesLayer 5 ks "tm" 8 = .ok fs' ∧ fs.length = ks.length ∧
      List.Forall₂ (fun f' f => f.length ≤ f'.length ∧
        ∀ (i : ℕ) (h' : i < f'.length) (h : i < f.length), f'[i] ≤ f[i]) fs' fs :=
  C103_truncation argsort hs eigh he holesLayer holes_real 3 5 (by norm_num)
    ((C101_pwe holesLayer (1, 0) (0, 1) [drawnCircle 1 ⟨0, 0, 0.2⟩] square_holes rfl holes_real 1 12
      (by simp [holesLayer]) (by simp [holesLayer]) 5).2 (holes_err _ (by have := holes_count 5; norm_num at this; rw [this]; norm_num))).1 ks "tm" (by decide) 8

end Legume
