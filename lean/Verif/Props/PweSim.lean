import Mathlib.LinearAlgebra.Matrix.Charpoly.Basic
import Verif.Model.PweSim
import Verif.Spec.PweSim
import Verif.Lemmas.Spectrum
import Verif.Props.Exc
import Verif.Props.Pwe

/-! # C91, C92: the frequencies of `PlaneWaveExp` from the layer -/
namespace Legume

open Matrix Spec

/-- The type of the array does not matter for real samples. -/
theorem toeplitzBlock_real (n ntot : ℕ) (r : Bool) (T1 T2 : ℕ → ℂ) (h1 : ∀ k, castTo r (T1 k) = T1 k)
    (h2 : ∀ k, castTo r (T2 k) = T2 k) (I J : ℕ) :
    toeplitzBlock n ntot r T1 T2 I J = toeplitzBlock n ntot false T1 T2 I J := by
  have h : ∀ I J, toeplitzTmat n ntot r T1 T2 I J = toeplitzTmat n ntot false T1 T2 I J := by
    intro I J
    unfold toeplitzTmat
    simp only
    split_ifs
    · unfold scipyToeplitz
      split_ifs
      · rw [h2]; rfl
      · rw [h1]; rfl
    · rfl
  unfold toeplitzBlock
  rw [h, h]

/-- Entries of the permittivity matrix. -/
theorem pweEps_entry (L : PweLayer) (gmax : ℝ) (hF : ∀ g : R2, L.ft (-g.1, -g.2) = (starRingEnd ℂ) (L.ft g))
    (I J : Fin (L.gvec gmax).length) :
    L.epsMat gmax I J = L.ft ((L.gAt gmax I).1 - (L.gAt gmax J).1, (L.gAt gmax I).2 - (L.gAt gmax J).2) := by
  have hlen : (L.gvec gmax).length = (2 * L.n1 gmax + 1) * (2 * L.n2 gmax + 1) := by
    simp [PweLayer.gvec, tbtInds_length]
  have hreal : ∀ g, castTo L.shapes.isEmpty (L.ft g) = L.ft g := by
    intro g
    cases h : L.shapes with
    | nil =>
      simp only [List.isEmpty_nil, castTo, if_true, PweLayer.ft, h]
      unfold layerFt
      simp only [List.foldl_nil]
      split_ifs <;> simp
    | cons a l => rfl
  have hg : ∀ I : Fin (L.gvec gmax).length, (L.gvec gmax).getD I 0 = L.gAt gmax I := by
    intro I
    rw [List.getD_eq_getElem?_getD, List.getElem?_eq_getElem I.2, Option.getD_some]; rfl
  have h := toeplitz_raw_entry L.ft L.b1 L.b2 (L.n1 gmax) (L.n2 gmax) hF
    (T1raw L.ft (L.gvec gmax)) (T2raw L.ft (L.gvec gmax) (2 * L.n2 gmax + 1)) (fun _ _ => rfl)
    (fun _ _ => rfl) I J (by rw [← hlen]; exact I.2) (by rw [← hlen]; exact J.2)
  have h' : L.epsMat gmax I J = toeplitzBlock (2 * L.n1 gmax + 1) (L.gvec gmax).length false
      (T1raw L.ft (L.gvec gmax)) (T2raw L.ft (L.gvec gmax) (2 * L.n2 gmax + 1)) I J := by
    unfold PweLayer.epsMat
    rw [Matrix.of_apply]
    exact toeplitzBlock_real _ _ _ _ _ (fun _ => hreal _) (fun _ => hreal _) _ _
  rw [h', ← hg, ← hg]
  exact h

/-- The same for two reciprocal vectors given by their indices. -/
theorem pweG_index (L : PweLayer) (gmax : ℝ) : ∃ ind : Fin (L.gvec gmax).length → ℤ × ℤ,
    Function.Injective ind ∧ ∀ I, L.gAt gmax I = gOf L.b1 L.b2 (ind I) := by
  refine ⟨fun I => (tbtInds (L.n1 gmax) (L.n2 gmax))[(I : ℕ)]'(by
    have := I.2; simpa [PweLayer.gvec] using this), ?_, ?_⟩
  · intro I J h
    exact Fin.ext ((tbtInds_nodup _ _).getElem_inj_iff.1 h)
  · intro I
    exact List.getElem_map (gOf L.b1 L.b2)

theorem gOf_diff (b1 b2 : R2) (i j : ℤ × ℤ) :
    ((gOf b1 b2 i).1 - (gOf b1 b2 j).1, (gOf b1 b2 i).2 - (gOf b1 b2 j).2) =
      gOf b1 b2 (i.1 - j.1, i.2 - j.2) := by
  simp only [gOf, Prod.mk.injEq]
  push_cast
  constructor <;> ring

theorem except_mapM_map {α β γ : Type} (f : α → Except PyErr β) (g : β → γ) (l : List α) :
    (l.mapM f).map (List.map g) = l.mapM fun a => (f a).map g := by
  induction l with
  | nil => rfl
  | cons a l ih =>
    simp only [List.mapM_cons, bind, Except.bind, pure, Except.pure]
    rw [← ih]
    cases f a with
    | error e => rfl
    | ok b => cases l.mapM f <;> rfl

open Classical in
theorem pweFreqs_eq (argsort : List ℝ → List ℕ) (eigh : ∀ n, Matrix (Fin n) (Fin n) ℂ → Fin n → ℝ)
    (L : PweLayer) (gmax : ℝ) (ks : List R2) (pol : String) (numeig : ℕ) :
    pweFreqs argsort eigh L gmax ks pol numeig =
      if (L.epsMat gmax).det = 0 then .error .valueError else
      ks.mapM fun k => match parsePol pol with
        | .error e => .error e
        | .ok p => .ok (solvePwe argsort (List.ofFn (eigh _ (pweMat p k (L.gAt gmax) (L.epsMat gmax)⁻¹ + 1)))
            numeig).freq := by
  unfold pweFreqs pweSim
  split_ifs
  · rfl
  · refine (except_mapM_map _ _ _).trans ?_
    congr 1
    funext k
    unfold pweRun
    cases parsePol pol <;> rfl

/-- Eigenvalues of two matrices with the same characteristic polynomial give the same frequencies. -/
theorem solvePwe_congr (argsort : List ℝ → List ℕ) (hs : ∀ l, IsArgsort l (argsort l)) {w u : List ℝ}
    (h : w.Perm u) (numeig : ℕ) : (solvePwe argsort w numeig).freq = (solvePwe argsort u numeig).freq := by
  have hp := List.mergeSort_perm (u.map freqOf) (fun a b => decide (a ≤ b))
  have hso : ((u.map freqOf).mergeSort fun a b => decide (a ≤ b)).Pairwise (· ≤ ·) := by
    have := List.pairwise_mergeSort (le := fun a b : ℝ => decide (a ≤ b))
      (fun a b c h1 h2 => by simp at *; exact h1.trans h2) (fun a b => by simpa using le_total a b) (u.map freqOf)
    simpa using this
  rw [solvePwe_freq argsort hs w _ (hp.trans (h.map freqOf).symm) hso numeig,
    solvePwe_freq argsort hs u _ hp hso numeig]

/-- A correct eigensolver. -/
def GoodEigh (eigh : ∀ n, Matrix (Fin n) (Fin n) ℂ → Fin n → ℝ) : Prop :=
  ∀ (n : ℕ) (A : Matrix (Fin n) (Fin n) ℂ), A.IsHermitian → ∃ V, IsEigh A (eigh n A) V

/-- There is one. -/
theorem goodEigh_exists : ∃ eigh, GoodEigh eigh := by
  classical
  refine ⟨fun n A => if h : A.IsHermitian then h.eigenvalues else 0, fun n A h => ?_⟩
  simp only [dif_pos h]
  exact ⟨_, eigh_exists A h⟩

/-- `eps_mat` of a real permittivity is Hermitian. -/
theorem pweEps_hermitian (L : PweLayer) (gmax : ℝ)
    (hF : ∀ g : R2, L.ft (-g.1, -g.2) = (starRingEnd ℂ) (L.ft g)) : (L.epsMat gmax).IsHermitian := by
  ext I J
  rw [conjTranspose_apply, pweEps_entry L gmax hF, pweEps_entry L gmax hF, RCLike.star_def, ← hF]
  simp

theorem pweMat_hermitian {n : ℕ} (p : Pol) (k : R2) (g : Fin n → R2) (E : Matrix (Fin n) (Fin n) ℂ)
    (hE : E.IsHermitian) : (pweMat p k g E + 1).IsHermitian := by
  refine IsHermitian.add ?_ isHermitian_one
  ext i j
  have := hE.apply i j
  simp only [conjTranspose_apply, pweMat, of_apply, RCLike.star_def] at *
  cases p <;> simp only [map_mul, Complex.conj_ofReal, this]
  · congr 2; ring
  · congr 2; ring

theorem mapM_forall2 {α β γ : Type} {R : α → β → Prop} (f : α → Except PyErr γ) (f' : β → Except PyErr γ)
    (h : ∀ a b, R a b → f a = f' b) {l : List α} {l' : List β} (hl : List.Forall₂ R l l') :
    l.mapM f = l'.mapM f' := by
  induction hl with
  | nil => rfl
  | cons h1 _ ih => simp only [List.mapM_cons, h _ _ h1, ih]

/-- Two problems whose matrices have the same characteristic polynomials have the same frequencies. -/
theorem pweFreqs_congr (argsort : List ℝ → List ℕ) (hs : ∀ l, IsArgsort l (argsort l))
    (eigh : ∀ n, Matrix (Fin n) (Fin n) ℂ → Fin n → ℝ) (he : GoodEigh eigh) (L L' : PweLayer) (gmax gmax' : ℝ)
    (hF : ∀ g : R2, L.ft (-g.1, -g.2) = (starRingEnd ℂ) (L.ft g))
    (hF' : ∀ g : R2, L'.ft (-g.1, -g.2) = (starRingEnd ℂ) (L'.ft g)) (ks ks' : List R2) (pol : String)
    (numeig : ℕ) (hdet : (L.epsMat gmax).det = 0 ↔ (L'.epsMat gmax').det = 0)
    (hk : List.Forall₂ (fun k k' => ∀ p, (pweMat p k (L.gAt gmax) (L.epsMat gmax)⁻¹ + 1).charpoly =
      (pweMat p k' (L'.gAt gmax') (L'.epsMat gmax')⁻¹ + 1).charpoly) ks ks') :
    pweFreqs argsort eigh L gmax ks pol numeig = pweFreqs argsort eigh L' gmax' ks' pol numeig := by
  classical
  rw [pweFreqs_eq, pweFreqs_eq]
  by_cases hd : (L.epsMat gmax).det = 0
  · rw [if_pos hd, if_pos (hdet.1 hd)]
  · rw [if_neg hd, if_neg fun h => hd (hdet.2 h)]
    refine mapM_forall2 _ _ (fun k k' h => ?_) hk
    cases parsePol pol with
    | error e => rfl
    | ok p =>
      have h1 := pweMat_hermitian p k (L.gAt gmax) _ (pweEps_hermitian L gmax hF).inv
      have h2 := pweMat_hermitian p k' (L'.gAt gmax') _ (pweEps_hermitian L' gmax' hF').inv
      obtain ⟨V, hV⟩ := he _ _ h1
      obtain ⟨V', hV'⟩ := he _ _ h2
      simp only
      rw [solvePwe_congr argsort hs (isEigh_perm hV hV' (h p))]

theorem pweMat_scale_both {n : ℕ} (p : Pol) (k : R2) (g : Fin n → R2) (d e : Fin n → ℂ)
    (E : Matrix (Fin n) (Fin n) ℂ) :
    pweMat p k g (diagonal d * E * diagonal e) = diagonal d * pweMat p k g E * diagonal e := by
  ext i j
  rw [mul_diagonal, diagonal_mul, pweMat, pweMat, of_apply, of_apply, mul_diagonal, diagonal_mul]
  cases p <;> simp only <;> ring

/-- Phases attached to the plane waves. -/
theorem phases_charpoly {n : ℕ} (d : Fin n → ℂ) (hd : ∀ i, d i ≠ 0) (M M' : Matrix (Fin n) (Fin n) ℂ)
    (h : ∀ i j, M' i j = d i * M i j * (d j)⁻¹) (p : Pol) (k : R2) (g : Fin n → R2) :
    M'.det = M.det ∧ (pweMat p k g M'⁻¹ + 1).charpoly = (pweMat p k g M⁻¹ + 1).charpoly := by
  set D := diagonal d with hD
  set D' := diagonal (fun i => (d i)⁻¹) with hD'
  have h1 : D * D' = 1 := by
    rw [hD, hD', diagonal_mul_diagonal, ← diagonal_one]
    congr 1; funext i; exact mul_inv_cancel₀ (hd i)
  have h2 : D' * D = 1 := mul_eq_one_comm.1 h1
  have hM : M' = D * M * D' := by
    ext i j
    rw [h, hD', mul_diagonal, hD, diagonal_mul]
  have hi1 : D⁻¹ = D' := inv_eq_right_inv h1
  have hi2 : D'⁻¹ = D := inv_eq_right_inv h2
  have hMi : M'⁻¹ = D * M⁻¹ * D' := by
    rw [hM, Matrix.mul_inv_rev, Matrix.mul_inv_rev, hi1, hi2, mul_assoc]
  constructor
  · rw [hM, det_mul, det_mul, mul_comm, ← mul_assoc, ← det_mul, h2, det_one, one_mul]
  · have : pweMat p k g M'⁻¹ + 1 = D * (pweMat p k g M⁻¹ + 1) * D' := by
      rw [hMi, pweMat_scale_both, mul_add, add_mul, mul_one, h1]
    rw [this, charpoly_mul_comm, ← mul_assoc, h2, one_mul]

/-- The transform of a layer of real shapes is that of a real function. -/
theorem pweFt_conj (L : PweLayer) (h : ∀ s ∈ L.shapes, RealShape s) (g : R2) :
    L.ft (-g.1, -g.2) = (starRingEnd ℂ) (L.ft g) :=
  (C12_layer_conj L.epsB L.epsAvg L.ecArea L.shapes h g).1

theorem layerFt_g0 (epsB epsAvg ecArea : ℝ) (shapes : List FShape) (g : R2) (h : isG0 g) :
    layerFt epsB epsAvg ecArea shapes g = epsAvg := by
  simp [layerFt, if_pos h]

theorem isG0_small {g : R2} (h : isG0 g) : |g.1| < 1e-10 ∧ |g.2| < 1e-10 := by
  unfold isG0 at h
  have h1 := abs_nonneg g.1
  have h2 := abs_nonneg g.2
  constructor <;> linarith

/-- Displacing all shapes multiplies the transform at a reciprocal lattice vector by a phase. -/
theorem layerFt_displaced (epsB epsAvg ecArea : ℝ) (shapes shapes' : List FShape) (t : R2)
    (h : List.Forall₂ (Displaced t) shapes shapes') (g : R2)
    (hg : g = (0, 0) ∨ ¬ (|g.1| < 1e-10 ∧ |g.2| < 1e-10)) :
    layerFt epsB epsAvg ecArea shapes' g =
      Complex.exp (-Complex.I * (g.1 * t.1 + g.2 * t.2)) * layerFt epsB epsAvg ecArea shapes g := by
  rcases hg with rfl | hg
  · have hz : isG0 ((0, 0) : R2) := by simp [isG0]; norm_num
    rw [layerFt_g0 _ _ _ _ _ hz, layerFt_g0 _ _ _ _ _ hz]
    simp
  · have h0 : ¬ |g.1| + |g.2| < 1e-10 := fun hc => hg (isG0_small hc)
    rw [C12_layer_value _ _ _ _ _ h0, C12_layer_value _ _ _ _ _ h0, ← mul_div_assoc]
    congr 1
    induction h with
    | nil => simp
    | cons hd _ ih =>
      rw [List.map_cons, List.sum_cons, List.map_cons, List.sum_cons, mul_add, ih, hd.1, hd.2 g hg]
      ring

/-- **C92 (displacement).** Displacing all shapes of the layer by the same vector leaves all frequencies of
the plane-wave expansion unchanged, for every truncation, list of wave vectors, polarisation and number of
frequencies. -/
theorem C92_displacement (argsort : List ℝ → List ℕ) (hs : ∀ l, IsArgsort l (argsort l))
    (eigh : ∀ n, Matrix (Fin n) (Fin n) ℂ → Fin n → ℝ) (he : GoodEigh eigh) (L : PweLayer)
    (hL : Resolved L.b1 L.b2) (t : R2) (shapes' : List FShape) (hr : ∀ s ∈ L.shapes, RealShape s)
    (hr' : ∀ s ∈ shapes', RealShape s) (hd : List.Forall₂ (Displaced t) L.shapes shapes') (gmax : ℝ)
    (ks : List R2) (pol : String) (numeig : ℕ) :
    pweFreqs argsort eigh { L with shapes := shapes' } gmax ks pol numeig =
      pweFreqs argsort eigh L gmax ks pol numeig := by
  set L' : PweLayer := { L with shapes := shapes' } with hL'
  have hF := pweFt_conj L hr
  have hF' := pweFt_conj L' hr'
  obtain ⟨ind, -, hind⟩ := pweG_index L gmax
  have key := phases_charpoly (n := (L.gvec gmax).length)
    (fun i => Complex.exp (-Complex.I * ((L.gAt gmax i).1 * t.1 + (L.gAt gmax i).2 * t.2)))
    (fun i => Complex.exp_ne_zero _) (L.epsMat gmax) (L'.epsMat gmax) (by
      intro i j
      rw [show L'.epsMat gmax i j = L'.ft ((L.gAt gmax i).1 - (L.gAt gmax j).1,
        (L.gAt gmax i).2 - (L.gAt gmax j).2) from pweEps_entry L' gmax hF' i j, pweEps_entry L gmax hF i j]
      have := layerFt_displaced L.epsB L.epsAvg L.ecArea L.shapes shapes' t hd
        ((L.gAt gmax i).1 - (L.gAt gmax j).1, (L.gAt gmax i).2 - (L.gAt gmax j).2) (by
          rw [hind, hind, gOf_diff]
          by_cases hz : ((ind i).1 - (ind j).1, (ind i).2 - (ind j).2) = ((0, 0) : ℤ × ℤ)
          · left; rw [hz]; simp [gOf]
          · right
            have := hL _ _ hz
            simpa [gOf] using this)
      rw [show L'.ft _ = _ from this, ← Complex.exp_neg, mul_right_comm, ← Complex.exp_add]
      rw [show L.ft _ = layerFt L.epsB L.epsAvg L.ecArea L.shapes _ from rfl]
      congr 2
      push_cast
      ring)
  exact pweFreqs_congr argsort hs eigh he L' L gmax gmax hF' hF ks ks pol numeig
    (by rw [show (L'.epsMat gmax).det = (L.epsMat gmax).det from (key .te 0 (L.gAt gmax)).1])
    (List.forall₂_same.2 fun k _ p => (key p k (L.gAt gmax)).2)

/-- Circles are displaced by moving their centres. -/
theorem displaced_circle (J : ℝ → ℝ) (eps : ℝ) (c : Circle) (t : R2) :
    Displaced t ⟨eps, c.ft J⟩ ⟨eps, Circle.ft J ⟨c.x + t.1, c.y + t.2, c.r⟩⟩ :=
  ⟨rfl, fun g _ => C16_circle_translate J c t g⟩

/-- Polygons are displaced by moving their vertices. -/
theorem displaced_poly (eps : ℝ) (vs : List R2) (t : R2) :
    Displaced t ⟨eps, polyFt vs⟩ ⟨eps, polyFt (vs.map (shift t))⟩ :=
  ⟨rfl, fun g hg => C16_poly_translate_partial vs t g (Or.inr hg)⟩

/-- The square lattice with period 1. -/
theorem resolved_square : Resolved (2 * Real.pi, 0) (0, 2 * Real.pi) := by
  intro i j hij h
  have h3 := Real.pi_gt_three
  have big : ∀ n : ℤ, n ≠ 0 → ¬ |2 * Real.pi * (n : ℝ)| < 1e-10 := by
    intro n hn hc
    have h1 : (1 : ℝ) ≤ |(n : ℝ)| := by
      rw [← Int.cast_abs]; exact_mod_cast Int.one_le_abs hn
    rw [abs_mul, abs_of_pos (by positivity)] at hc
    nlinarith
  obtain ⟨h1, h2⟩ := h
  simp only [zero_mul, add_zero, zero_add] at h1 h2
  by_cases hi : i = 0
  · have hj : j ≠ 0 := fun hj => hij (by rw [hi, hj])
    exact big j hj h2
  · exact big i hi h1

/-- A square lattice with a circular and a triangular hole. -/
example (J : ℝ → ℝ) (argsort : List ℝ → List ℕ) (hs : ∀ l, IsArgsort l (argsort l))
    (eigh : ∀ n, Matrix (Fin n) (Fin n) ℂ → Fin n → ℝ) (he : GoodEigh eigh) (t k : R2) :
    pweFreqs argsort eigh ⟨(2 * Real.pi, 0), (0, 2 * Real.pi), 1, 12, 11,
        [⟨1, Circle.ft J ⟨0 + t.1, 0 + t.2, 0.2⟩⟩,
         ⟨1, polyFt ([(0, 0), (0.1, 0), (0, 0.1), (0, 0)].map (shift t))⟩]⟩ 3 [k] "te" 5 =
      pweFreqs argsort eigh ⟨(2 * Real.pi, 0), (0, 2 * Real.pi), 1, 12, 11,
        [⟨1, Circle.ft J ⟨0, 0, 0.2⟩⟩, ⟨1, polyFt [(0, 0), (0.1, 0), (0, 0.1), (0, 0)]⟩]⟩ 3 [k] "te" 5 :=
  C92_displacement argsort hs eigh he ⟨(2 * Real.pi, 0), (0, 2 * Real.pi), 1, 12, 11,
      [⟨1, Circle.ft J ⟨0, 0, 0.2⟩⟩, ⟨1, polyFt [(0, 0), (0.1, 0), (0, 0.1), (0, 0)]⟩]⟩ resolved_square t _
    (by simp only [List.mem_cons, List.not_mem_nil, or_false]
        rintro s (rfl | rfl)
        · exact C12_circle_conj J _
        · exact C12_poly_conj _)
    (by simp only [List.mem_cons, List.not_mem_nil, or_false]
        rintro s (rfl | rfl)
        · exact C12_circle_conj J _
        · exact C12_poly_conj _)
    (.cons (displaced_circle J 1 ⟨0, 0, 0.2⟩ t) (.cons (displaced_poly 1 _ t) .nil)) 3 [k] "te" 5

/-- The transform at all differences of plane waves decides everything. -/
theorem pweSim_congr (argsort : List ℝ → List ℕ) (eigh : ∀ n, Matrix (Fin n) (Fin n) ℂ → Fin n → ℝ)
    (L : PweLayer) (shapes' : List FShape) (gmax : ℝ) (hr : ∀ s ∈ L.shapes, RealShape s)
    (hr' : ∀ s ∈ shapes', RealShape s)
    (hft : ∀ i : ℤ × ℤ, layerFt L.epsB L.epsAvg L.ecArea shapes' (gOf L.b1 L.b2 i) = L.ft (gOf L.b1 L.b2 i))
    (ks : List R2) (pol : String) (numeig : ℕ) :
    pweSim argsort eigh { L with shapes := shapes' } gmax ks pol numeig =
      pweSim argsort eigh L gmax ks pol numeig := by
  set L' : PweLayer := { L with shapes := shapes' } with hL'
  obtain ⟨ind, -, hind⟩ := pweG_index L gmax
  have hent : ∀ i j : Fin (L.gvec gmax).length, L'.epsMat gmax i j = L.epsMat gmax i j := by
    intro i j
    have h1 : L'.epsMat gmax i j = L'.ft ((L.gAt gmax i).1 - (L.gAt gmax j).1,
        (L.gAt gmax i).2 - (L.gAt gmax j).2) := pweEps_entry L' gmax (pweFt_conj L' hr') i j
    rw [h1, pweEps_entry L gmax (pweFt_conj L hr) i j, hind, hind, gOf_diff]
    exact hft _
  have hE : L'.epsMat gmax = L.epsMat gmax := Matrix.ext hent
  unfold pweSim
  rw [hE]
  rfl

/-- **C92 (lattice periods).** Moving any shapes by lattice vectors, each by its own, changes nothing in the
results: `R` is a lattice vector if its products with the reciprocal basis are multiples of `2 pi`. -/
theorem C92_lattice_shift (argsort : List ℝ → List ℕ) (eigh : ∀ n, Matrix (Fin n) (Fin n) ℂ → Fin n → ℝ)
    (L : PweLayer) (hL : Resolved L.b1 L.b2) (shapes' : List FShape) (hr : ∀ s ∈ L.shapes, RealShape s)
    (hr' : ∀ s ∈ shapes', RealShape s)
    (hd : List.Forall₂ (fun s s' => ∃ R : R2, (∃ m n : ℤ, L.b1.1 * R.1 + L.b1.2 * R.2 = 2 * Real.pi * m ∧
      L.b2.1 * R.1 + L.b2.2 * R.2 = 2 * Real.pi * n) ∧ Displaced R s s') L.shapes shapes')
    (gmax : ℝ) (ks : List R2) (pol : String) (numeig : ℕ) :
    pweSim argsort eigh { L with shapes := shapes' } gmax ks pol numeig =
      pweSim argsort eigh L gmax ks pol numeig := by
  refine pweSim_congr argsort eigh L shapes' gmax hr hr' (fun i => ?_) ks pol numeig
  have hz : isG0 ((0, 0) : R2) := by simp [isG0]; norm_num
  by_cases hi : i = (0, 0)
  · have : gOf L.b1 L.b2 i = (0, 0) := by rw [hi]; simp [gOf]
    rw [PweLayer.ft, this, layerFt_g0 _ _ _ _ _ hz, layerFt_g0 _ _ _ _ _ hz]
  · have hg : ¬ (|(gOf L.b1 L.b2 i).1| < 1e-10 ∧ |(gOf L.b1 L.b2 i).2| < 1e-10) := hL i.1 i.2 hi
    have h0 : ¬ |(gOf L.b1 L.b2 i).1| + |(gOf L.b1 L.b2 i).2| < 1e-10 := fun hc => hg (isG0_small hc)
    rw [PweLayer.ft, C12_layer_value _ _ _ _ _ h0, C12_layer_value _ _ _ _ _ h0]
    congr 1
    clear hr hr'
    generalize L.shapes = shapes at hd
    induction hd with
    | nil => rfl
    | cons hd _ ih =>
      obtain ⟨R, ⟨m, n, hm, hn⟩, he, hR⟩ := hd
      rw [List.map_cons, List.sum_cons, List.map_cons, List.sum_cons, ih, he, hR _ hg]
      have hph : Complex.exp (-Complex.I * ((gOf L.b1 L.b2 i).1 * R.1 + (gOf L.b1 L.b2 i).2 * R.2)) = 1 := by
        rw [Complex.exp_eq_one_iff]
        refine ⟨-(m * i.1 + n * i.2), ?_⟩
        have : (gOf L.b1 L.b2 i).1 * R.1 + (gOf L.b1 L.b2 i).2 * R.2 =
            2 * Real.pi * (m * i.1 + n * i.2) := by
          simp only [gOf]
          linear_combination (i.1 : ℝ) * hm + (i.2 : ℝ) * hn
        have h' : (((gOf L.b1 L.b2 i).1 : ℂ) * R.1 + (gOf L.b1 L.b2 i).2 * R.2) =
            ((2 * Real.pi * (m * i.1 + n * i.2) : ℝ) : ℂ) := by
          rw [← this]; push_cast; ring
        rw [h']; push_cast; ring
      rw [hph, one_mul]

/-- A circle moved by `(3, -2)` periods of the square lattice. -/
example (J : ℝ → ℝ) (argsort : List ℝ → List ℕ) (eigh : ∀ n, Matrix (Fin n) (Fin n) ℂ → Fin n → ℝ) (k : R2) :
    pweSim argsort eigh ⟨(2 * Real.pi, 0), (0, 2 * Real.pi), 1, 12, 11,
        [⟨1, Circle.ft J ⟨0.1 + 3, 0 + -2, 0.2⟩⟩]⟩ 3 [k] "te" 5 =
      pweSim argsort eigh ⟨(2 * Real.pi, 0), (0, 2 * Real.pi), 1, 12, 11, [⟨1, Circle.ft J ⟨0.1, 0, 0.2⟩⟩]⟩
        3 [k] "te" 5 :=
  C92_lattice_shift argsort eigh ⟨(2 * Real.pi, 0), (0, 2 * Real.pi), 1, 12, 11,
      [⟨1, Circle.ft J ⟨0.1, 0, 0.2⟩⟩]⟩ resolved_square _
    (by simp only [List.mem_singleton]; rintro s rfl; exact C12_circle_conj J _)
    (by simp only [List.mem_singleton]; rintro s rfl; exact C12_circle_conj J _)
    (.cons ⟨(3, -2), ⟨3, -2, by push_cast; ring, by push_cast; ring⟩,
      displaced_circle J 1 ⟨0.1, 0, 0.2⟩ (3, -2)⟩ .nil) 3 [k] "te" 5

/-- **C92 (order).** The results do not depend on the order in which the shapes were added, and shapes with the
permittivity of the background do not count. -/
theorem C92_order (argsort : List ℝ → List ℕ) (eigh : ∀ n, Matrix (Fin n) (Fin n) ℂ → Fin n → ℝ)
    (L : PweLayer) (shapes' : List FShape) (hr : ∀ s ∈ L.shapes, RealShape s) (hr' : ∀ s ∈ shapes', RealShape s)
    (hp : (shapes'.filter fun s => s.eps ≠ L.epsB).Perm (L.shapes.filter fun s => s.eps ≠ L.epsB))
    (gmax : ℝ) (ks : List R2) (pol : String) (numeig : ℕ) :
    pweSim argsort eigh { L with shapes := shapes' } gmax ks pol numeig =
      pweSim argsort eigh L gmax ks pol numeig := by
  refine pweSim_congr argsort eigh L shapes' gmax hr hr' (fun i => ?_) ks pol numeig
  set g := gOf L.b1 L.b2 i
  by_cases h0 : isG0 g
  · rw [PweLayer.ft, layerFt_g0 _ _ _ _ _ h0, layerFt_g0 _ _ _ _ _ h0]
  · rw [PweLayer.ft, C12_layer_value _ _ _ _ _ h0, C12_layer_value _ _ _ _ _ h0]
    congr 1
    have key : ∀ l : List FShape, (l.map fun s => ((s.eps : ℂ) - L.epsB) * s.ft g).sum =
        ((l.filter fun s => s.eps ≠ L.epsB).map fun s => ((s.eps : ℂ) - L.epsB) * s.ft g).sum := by
      intro l
      induction l with
      | nil => rfl
      | cons a l ih =>
        by_cases ha : a.eps = L.epsB
        · rw [List.filter_cons_of_neg (by simpa using ha), List.map_cons, List.sum_cons, ih, ha]; simp
        · rw [List.filter_cons_of_pos (by simpa using ha), List.map_cons, List.sum_cons, ih, List.map_cons,
            List.sum_cons]
    rw [key, key L.shapes]
    exact (hp.map _).sum_eq

/-- Two circles in either order, one of them without contrast in addition. -/
example (s1 s2 s3 : FShape) (h1 : s1.eps = 1) (h2 : s2.eps = 2) (h3 : s3.eps = 12) :
    ([s2, s3, s1].filter fun s => s.eps ≠ 12).Perm ([s1, s2].filter fun s => s.eps ≠ 12) := by
  simp only [List.filter_cons, List.filter_nil, h1, h2, h3]
  norm_num
  exact .swap _ _ _

/-- The plane-wave set is symmetric: the wave in the mirrored position has the opposite vector. -/
theorem pweG_rev (L : PweLayer) (gmax : ℝ) (I : Fin (L.gvec gmax).length) :
    L.gAt gmax I.rev = (-(L.gAt gmax I).1, -(L.gAt gmax I).2) := by
  have h : (L.gvec gmax).reverse = (L.gvec gmax).map fun g => (-g.1, -g.2) := by
    unfold PweLayer.gvec
    rw [← List.map_reverse, tbtInds_reverse, List.map_map, List.map_map]
    refine List.map_congr_left fun i _ => ?_
    simp only [Function.comp, gOf, Prod.mk.injEq]
    push_cast
    constructor <;> ring
  have h1 : (L.gvec gmax).reverse[(I : ℕ)]? = some (L.gAt gmax I.rev) := by
    rw [List.getElem?_reverse I.2]
    have : (L.gvec gmax).length - 1 - (I : ℕ) = (I.rev : ℕ) := by rw [Fin.val_rev]; omega
    rw [this, List.getElem?_eq_getElem I.rev.2]; rfl
  rw [h, List.getElem?_map, List.getElem?_eq_getElem I.2] at h1
  exact (Option.some_injective _ h1).symm

/-- Reversal of all wave vectors transposes the problem. -/
theorem reversed_charpoly {n : ℕ} (M : Matrix (Fin n) (Fin n) ℂ) (g : Fin n → R2)
    (hg : ∀ i, g i.rev = (-(g i).1, -(g i).2)) (hM : ∀ i j, M i.rev j.rev = M j i) (p : Pol) (k : R2) :
    (pweMat p (-k.1, -k.2) g M⁻¹ + 1).charpoly = (pweMat p k g M⁻¹ + 1).charpoly := by
  have h1 : M.submatrix Fin.revPerm Fin.revPerm = Mᵀ := by
    ext i j; exact hM i j
  have h2 : M⁻¹.submatrix Fin.revPerm Fin.revPerm = (M⁻¹)ᵀ := by
    rw [← inv_submatrix_equiv, h1, transpose_nonsing_inv]
  have h3 : (pweMat p (-k.1, -k.2) g M⁻¹ + 1).submatrix Fin.revPerm Fin.revPerm = (pweMat p k g M⁻¹ + 1)ᵀ := by
    ext i j
    have h2' : M⁻¹ i.rev j.rev = M⁻¹ j i := congrFun (congrFun h2 i) j
    have h1' : (1 : Matrix (Fin n) (Fin n) ℂ) i.rev j.rev = (1 : Matrix (Fin n) (Fin n) ℂ) j i := by
      simp only [one_apply, Fin.rev_inj, eq_comm]
    simp only [submatrix_apply, transpose_apply, Matrix.add_apply, Fin.revPerm_apply, h1', pweMat, of_apply, hg, h2',
      kPlusG]
    congr 1
    cases p <;> simp only <;> congr 2
    · ring
    · rw [mul_comm]
      congr 3 <;> ring
  have h4 := charpoly_reindex Fin.revPerm (pweMat p (-k.1, -k.2) g M⁻¹ + 1)
  rw [← h4, reindex_apply, Fin.revPerm_symm, h3, charpoly_transpose]

/-- **C92 (reversal).** The frequencies at `-k` are those at `k`, for every list of wave vectors and whether
or not the structure has a centre of symmetry. -/
theorem C92_reversal (argsort : List ℝ → List ℕ) (hs : ∀ l, IsArgsort l (argsort l))
    (eigh : ∀ n, Matrix (Fin n) (Fin n) ℂ → Fin n → ℝ) (he : GoodEigh eigh) (L : PweLayer)
    (hr : ∀ s ∈ L.shapes, RealShape s) (gmax : ℝ) (ks : List R2) (pol : String) (numeig : ℕ) :
    pweFreqs argsort eigh L gmax (ks.map fun k => (-k.1, -k.2)) pol numeig =
      pweFreqs argsort eigh L gmax ks pol numeig := by
  have hF := pweFt_conj L hr
  refine pweFreqs_congr argsort hs eigh he L L gmax gmax hF hF _ _ pol numeig Iff.rfl ?_
  rw [List.forall₂_map_left_iff]
  refine List.forall₂_same.2 fun k _ p => ?_
  refine reversed_charpoly _ _ (pweG_rev L gmax) (fun i j => ?_) p k
  rw [pweEps_entry L gmax hF, pweEps_entry L gmax hF, pweG_rev, pweG_rev]
  congr 2 <;> ring

/-- A triangle, which has no centre of symmetry. -/
example : ∀ s ∈ [(⟨1, polyFt [(0, 0), (0.1, 0), (0, 0.1), (0, 0)]⟩ : FShape)], RealShape s := by
  simp only [List.mem_singleton]
  rintro s rfl
  exact C12_poly_conj _

/-- Sorted lists of eigenvalues under a scaling. -/
theorem solvePwe_scaled (argsort : List ℝ → List ℕ) (hs : ∀ l, IsArgsort l (argsort l)) {w u : List ℝ} (c : ℝ)
    (hc : 0 < c) (h : u.Perm (w.map fun x => (x - 1) / c + 1)) (numeig : ℕ) :
    (solvePwe argsort u numeig).freq = (solvePwe argsort w numeig).freq.map (· / √c) := by
  have hp := List.mergeSort_perm (w.map freqOf) (fun a b => decide (a ≤ b))
  have hso : ((w.map freqOf).mergeSort fun a b => decide (a ≤ b)).Pairwise (· ≤ ·) := by
    have := List.pairwise_mergeSort (le := fun a b : ℝ => decide (a ≤ b))
      (fun a b c h1 h2 => by simp at *; exact h1.trans h2) (fun a b => by simpa using le_total a b) (w.map freqOf)
    simpa using this
  rw [solvePwe_freq argsort hs w _ hp hso numeig, ← List.map_take.symm]
  refine solvePwe_freq argsort hs u _ ?_ ?_ numeig
  · refine (hp.map _).trans ?_
    refine List.Perm.trans ?_ (h.map freqOf).symm
    rw [List.map_map, List.map_map]
    refine List.Perm.of_eq (List.map_congr_left fun x _ => ?_)
    simp only [Function.comp, freqOf, add_sub_cancel_right]
    rw [abs_div, abs_of_pos hc, Real.sqrt_div (abs_nonneg _)]
    ring
  · rw [List.pairwise_map]
    exact hso.imp fun hab => div_le_div_of_nonneg_right hab (Real.sqrt_nonneg c)

/-- Scaling a matrix scales its eigenvalues. -/
theorem isEigh_scaled {n : ℕ} {A V : Matrix (Fin n) (Fin n) ℂ} {w : Fin n → ℝ} (c : ℝ) (hc : 0 < c)
    (h : IsEigh (A + 1) w V) : IsEigh ((c : ℂ)⁻¹ • A + 1) (fun i => (w i - 1) / c + 1) V := by
  have hc0 : (c : ℂ) ≠ 0 := by exact_mod_cast hc.ne'
  refine ⟨h.unitary, ?_⟩
  have e1 : A * V = V * diagonal (fun i => ((w i - 1 : ℝ) : ℂ)) := by
    have := h.eigen
    rw [add_mul, one_mul] at this
    rw [eq_sub_of_add_eq this]
    ext i j
    rw [Matrix.sub_apply, mul_diagonal, mul_diagonal]
    push_cast; ring
  rw [add_mul, smul_mul, e1, one_mul]
  ext i j
  rw [Matrix.add_apply, Matrix.smul_apply, mul_diagonal, mul_diagonal, smul_eq_mul]
  push_cast
  field_simp

/-- The layer with all permittivities multiplied by `c`. -/
def scaleEps (c : ℝ) (L : PweLayer) : PweLayer :=
  { L with epsB := c * L.epsB, epsAvg := c * L.epsAvg, shapes := L.shapes.map fun s => ⟨c * s.eps, s.ft⟩ }

/-- **C92 (permittivity).** Multiplying all permittivities by `c > 0` divides all frequencies by the square root
of `c`. -/
theorem C92_permittivity (argsort : List ℝ → List ℕ) (hs : ∀ l, IsArgsort l (argsort l))
    (eigh : ∀ n, Matrix (Fin n) (Fin n) ℂ → Fin n → ℝ) (he : GoodEigh eigh) (L : PweLayer)
    (hr : ∀ s ∈ L.shapes, RealShape s) (c : ℝ) (hc : 0 < c) (gmax : ℝ) (ks : List R2) (pol : String)
    (numeig : ℕ) :
    pweFreqs argsort eigh (scaleEps c L) gmax ks pol numeig =
      (pweFreqs argsort eigh L gmax ks pol numeig).map (List.map (List.map (· / √c))) := by
  classical
  set L' := scaleEps c L with hL'
  have hF := pweFt_conj L hr
  have hr' : ∀ s ∈ L'.shapes, RealShape s := by
    intro s hs'
    obtain ⟨a, ha, rfl⟩ := List.mem_map.1 hs'
    exact hr a ha
  have hF' := pweFt_conj L' hr'
  have hft : ∀ g, L'.ft g = c * L.ft g := by
    intro g
    by_cases h0 : isG0 g
    · rw [PweLayer.ft, PweLayer.ft, layerFt_g0 _ _ _ _ _ h0, layerFt_g0 _ _ _ _ _ h0]
      simp [hL', scaleEps]
    · rw [PweLayer.ft, PweLayer.ft, C12_layer_value _ _ _ _ _ h0, C12_layer_value _ _ _ _ _ h0,
        ← mul_div_assoc, ← List.sum_map_mul_left]
      simp only [hL', scaleEps, List.map_map, Function.comp_def]
      congr 3
      funext s
      push_cast
      ring
  have hent : ∀ i j : Fin (L.gvec gmax).length, L'.epsMat gmax i j = ((c : ℂ) • L.epsMat gmax) i j := by
    intro i j
    rw [show L'.epsMat gmax i j = L'.ft ((L.gAt gmax i).1 - (L.gAt gmax j).1,
      (L.gAt gmax i).2 - (L.gAt gmax j).2) from pweEps_entry L' gmax hF' i j, Matrix.smul_apply,
      pweEps_entry L gmax hF i j, hft, smul_eq_mul]
  have hE : L'.epsMat gmax = (c : ℂ) • L.epsMat gmax := Matrix.ext hent
  have hc0 : (c : ℂ) ≠ 0 := by exact_mod_cast hc.ne'
  have hdet : (L'.epsMat gmax).det = 0 ↔ (L.epsMat gmax).det = 0 := by
    rw [show (L'.epsMat gmax).det = ((c : ℂ) • L.epsMat gmax).det from congrArg _ hE, det_smul, mul_eq_zero]
    simp [hc0]
  rw [pweFreqs_eq, pweFreqs_eq]
  by_cases hd : (L.epsMat gmax).det = 0
  · rw [if_pos hd, if_pos (hdet.2 hd)]; rfl
  · rw [if_neg hd, if_neg fun h => hd (hdet.1 h), except_mapM_map]
    congr 1
    funext k
    cases parsePol pol with
    | error e => rfl
    | ok p =>
      have h1 := pweMat_hermitian p k (L.gAt gmax) _ (pweEps_hermitian L gmax hF).inv
      have h2 := pweMat_hermitian p k (L'.gAt gmax) _ (pweEps_hermitian L' gmax hF').inv
      obtain ⟨V, hV⟩ := he _ _ h1
      obtain ⟨V', hV'⟩ := he _ _ h2
      simp only [Except.map]
      congr 1
      refine solvePwe_scaled argsort hs c hc ?_ numeig
      set A := pweMat p k (L.gAt gmax) (L.epsMat gmax)⁻¹ with hA
      have hu : IsUnit (L.epsMat gmax).det := isUnit_iff_ne_zero.2 hd
      have hinv : (L'.epsMat gmax)⁻¹ = (c : ℂ)⁻¹ • (L.epsMat gmax)⁻¹ := by
        have : ((c : ℂ) • L.epsMat gmax)⁻¹ = (c : ℂ)⁻¹ • (L.epsMat gmax)⁻¹ := by
          apply inv_eq_right_inv
          rw [smul_mul_smul_comm, mul_inv_cancel₀ hc0, one_smul, mul_nonsing_inv _ hu]
        rw [← this]
        exact congrArg _ hE
      have hA' : pweMat p k (L'.gAt gmax) (L'.epsMat gmax)⁻¹ = (c : ℂ)⁻¹ • A := by
        rw [hinv]
        ext i j
        simp only [hA, Matrix.smul_apply, pweMat, of_apply, smul_eq_mul]
        cases p
        · exact mul_left_comm _ _ _
        · exact mul_left_comm _ _ _
      have hW := isEigh_scaled c hc hV
      have := isEigh_perm hV' hW (by rw [hA']; rfl)
      rw [List.map_ofFn]
      exact this

/-- Any real shapes, `c = 4`: all frequencies are halved. -/
example (argsort : List ℝ → List ℕ) (hs : ∀ l, IsArgsort l (argsort l))
    (eigh : ∀ n, Matrix (Fin n) (Fin n) ℂ → Fin n → ℝ) (he : GoodEigh eigh) (J : ℝ → ℝ) (k : R2) :
    pweFreqs argsort eigh (scaleEps 4 ⟨(2 * Real.pi, 0), (0, 2 * Real.pi), 1, 3, 2.9, [⟨1, Circle.ft J ⟨0, 0, 0.2⟩⟩]⟩)
        3 [k] "tm" 5 =
      (pweFreqs argsort eigh ⟨(2 * Real.pi, 0), (0, 2 * Real.pi), 1, 3, 2.9, [⟨1, Circle.ft J ⟨0, 0, 0.2⟩⟩]⟩
        3 [k] "tm" 5).map (List.map (List.map (· / √4))) :=
  C92_permittivity argsort hs eigh he _
    (by simp only [List.mem_singleton]; rintro s rfl; exact C12_circle_conj J _) 4 (by norm_num) _ _ _ _

theorem mapM_ok_all {α β : Type} (f : α → Except PyErr β) (Q : α → β → Prop)
    (h : ∀ a, ∃ b, f a = .ok b ∧ Q a b) (l : List α) : ∃ r, l.mapM f = .ok r ∧ List.Forall₂ Q l r := by
  induction l with
  | nil => exact ⟨[], rfl, .nil⟩
  | cons a l ih =>
    obtain ⟨b, hb, hq⟩ := h a
    obtain ⟨r, hr, hf⟩ := ih
    exact ⟨b :: r, by simp only [List.mapM_cons, bind, Except.bind, hb, hr]; rfl, .cons hq hf⟩

/-- **C91.** In a layer without contrast the plane-wave expansion returns, for every truncation and both
polarisations, at every wave vector exactly the lowest `numeig` of the frequencies `|k + G| / (2 pi sqrt(eps))`
of the plane waves of the set, each as often as it occurs. -/
theorem C91_homogeneous (argsort : List ℝ → List ℕ) (hs : ∀ l, IsArgsort l (argsort l))
    (eigh : ∀ n, Matrix (Fin n) (Fin n) ℂ → Fin n → ℝ) (he : GoodEigh eigh) (L : PweLayer)
    (hL : Resolved L.b1 L.b2) (eps : ℝ) (heps : 0 < eps) (hb : L.epsB = eps) (ha : L.epsAvg = eps)
    (hsh : ∀ s ∈ L.shapes, s.eps = eps) (gmax : ℝ) (ks : List R2) (pol : String) (p : Pol)
    (hp : pyLower pol = match p with | .te => ['t', 'e'] | .tm => ['t', 'm']) (numeig : ℕ) :
    ∃ fs, pweFreqs argsort eigh L gmax ks pol numeig = .ok fs ∧
      List.Forall₂ (fun k f => ∃ l : List ℝ, l.Pairwise (· ≤ ·) ∧
        l.Perm ((L.gvec gmax).map fun g => √((k.1 + g.1) ^ 2 + (k.2 + g.2) ^ 2) / (2 * Real.pi * √eps)) ∧
        f = l.take numeig) ks fs := by
  classical
  have hc0 : (eps : ℂ) ≠ 0 := by exact_mod_cast heps.ne'
  have hft : ∀ g, L.ft g = if isG0 g then (eps : ℂ) else 0 := by
    intro g
    by_cases h0 : isG0 g
    · rw [PweLayer.ft, layerFt_g0 _ _ _ _ _ h0, if_pos h0, ha]
    · rw [PweLayer.ft, C12_layer_value _ _ _ _ _ h0, if_neg h0]
      have : (L.shapes.map fun s => ((s.eps : ℂ) - L.epsB) * s.ft g).sum = 0 := by
        apply List.sum_eq_zero
        intro x hx
        obtain ⟨s, hs', rfl⟩ := List.mem_map.1 hx
        rw [hsh s hs', hb]; simp
      rw [this, zero_div]
  have hF : ∀ g : R2, L.ft (-g.1, -g.2) = (starRingEnd ℂ) (L.ft g) := by
    intro g
    have : isG0 (-g.1, -g.2) ↔ isG0 g := by simp [isG0]
    rw [hft, hft]
    by_cases h0 : isG0 g
    · rw [if_pos h0, if_pos (this.2 h0), Complex.conj_ofReal]
    · rw [if_neg h0, if_neg fun h => h0 (this.1 h), map_zero]
  obtain ⟨ind, hinj, hind⟩ := pweG_index L gmax
  have hE : L.epsMat gmax = (eps : ℂ) • 1 := by
    ext i j
    rw [pweEps_entry L gmax hF, hft, Matrix.smul_apply, one_apply, hind, hind, gOf_diff]
    by_cases hij : i = j
    · subst hij
      rw [if_pos, if_pos rfl]
      · simp
      · simp [isG0, gOf]; norm_num
    · rw [if_neg, if_neg hij]
      · simp
      · intro hc
        refine hL ((ind i).1 - (ind j).1) ((ind i).2 - (ind j).2) ?_ ?_
        · intro h
          simp only [Prod.mk.injEq, sub_eq_zero] at h
          exact hij (hinj (Prod.ext h.1 h.2))
        · have := isG0_small hc
          simpa [gOf] using this
  have hinv : (L.epsMat gmax)⁻¹ = (eps : ℂ)⁻¹ • 1 := by
    rw [hE]
    apply inv_eq_right_inv
    rw [smul_mul_smul_comm, mul_inv_cancel₀ hc0, one_smul, one_mul]
  have hdet : (L.epsMat gmax).det ≠ 0 := by
    rw [hE, det_smul, det_one, mul_one]
    exact pow_ne_zero _ hc0
  have hpar : parsePol pol = .ok p := by
    unfold parsePol
    cases p with
    | te => simp only at hp; rw [if_pos hp]
    | tm =>
      simp only at hp
      rw [if_neg (by rw [hp]; decide), if_pos hp]
  rw [pweFreqs_eq, if_neg hdet]
  simp only [hpar]
  refine mapM_ok_all _ _ (fun k => ⟨_, rfl, ?_⟩) ks
  have hdiag : pweMat p k (L.gAt gmax) (L.epsMat gmax)⁻¹ + 1 = diagonal fun i =>
      ((((k.1 + (L.gAt gmax i).1) ^ 2 + (k.2 + (L.gAt gmax i).2) ^ 2) / eps + 1 : ℝ) : ℂ) := by
    ext i j
    rw [Matrix.add_apply, hinv]
    by_cases hij : i = j
    · subst hij
      rw [diagonal_apply_eq, one_apply_eq, pweMat, of_apply, Matrix.smul_apply, one_apply_eq]
      cases p
      · simp only [kPlusG, smul_eq_mul]
        push_cast
        field_simp
      · simp only [kPlusG, smul_eq_mul]
        rw [Real.mul_self_sqrt (by positivity)]
        push_cast
        field_simp
    · rw [diagonal_apply_ne _ hij, one_apply_ne hij, pweMat, of_apply, Matrix.smul_apply, one_apply_ne hij]
      cases p <;> simp
  have hh := pweMat_hermitian p k (L.gAt gmax) _ (pweEps_hermitian L gmax hF).inv
  obtain ⟨V, hV⟩ := he _ _ hh
  have hperm := isEigh_perm_list hV ((L.gvec gmax).map fun g => ((k.1 + g.1) ^ 2 + (k.2 + g.2) ^ 2) / eps + 1) (by
    rw [hdiag, charpoly_diagonal, ← List.prod_ofFn, List.map_map]
    congr 1
    apply List.ext_getElem
    · simp
    · intro i h1 h2
      simp only [List.getElem_ofFn, List.getElem_map, Function.comp]
      rfl)
  set fl := (L.gvec gmax).map fun g => √((k.1 + g.1) ^ 2 + (k.2 + g.2) ^ 2) / (2 * Real.pi * √eps) with hfl
  have hp' := List.mergeSort_perm fl (fun a b => decide (a ≤ b))
  have hso : (fl.mergeSort fun a b => decide (a ≤ b)).Pairwise (· ≤ ·) := by
    have := List.pairwise_mergeSort (le := fun a b : ℝ => decide (a ≤ b))
      (fun a b c h1 h2 => by simp at *; exact h1.trans h2) (fun a b => by simpa using le_total a b) fl
    simpa using this
  refine ⟨_, hso, hp', solvePwe_freq argsort hs _ _ (hp'.trans ?_) hso numeig⟩
  refine List.Perm.trans ?_ (hperm.map freqOf).symm
  rw [hfl, List.map_map]
  refine List.Perm.of_eq (List.map_congr_left fun g _ => ?_)
  simp only [Function.comp, freqOf, add_sub_cancel_right]
  rw [abs_of_nonneg (by positivity), Real.sqrt_div (by positivity)]
  field_simp

/-- A layer without shapes, at two wave vectors. -/
example (argsort : List ℝ → List ℕ) (hs : ∀ l, IsArgsort l (argsort l))
    (eigh : ∀ n, Matrix (Fin n) (Fin n) ℂ → Fin n → ℝ) (he : GoodEigh eigh) (k : R2) :
    ∃ fs, pweFreqs argsort eigh ⟨(2 * Real.pi, 0), (0, 2 * Real.pi), 1, 12, 12, []⟩ 3 [k, (0, 0)] "TE" 4 = .ok fs ∧
      fs.length = 2 := by
  obtain ⟨fs, h1, h2⟩ := C91_homogeneous argsort hs eigh he ⟨(2 * Real.pi, 0), (0, 2 * Real.pi), 1, 12, 12, []⟩
    resolved_square 12 (by norm_num) rfl rfl (by simp) 3 [k, (0, 0)] "TE" .te (by decide) 4
  exact ⟨fs, h1, h2.length_eq.symm⟩

end Legume
