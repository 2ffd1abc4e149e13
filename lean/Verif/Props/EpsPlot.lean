import Verif.Model.EpsPlot
import Verif.Spec.EpsPlot
import Verif.Lemmas.Reciprocal
import Verif.Props.Utils
import Verif.Props.PweSim
import Verif.Props.Reciprocal
import Verif.Props.Structure

/-!
# C98: what `get_eps_xy` returns
-/
namespace Legume

open Spec Real

theorem latVec_eq (b1 b2 : R2) (m : ℤ × ℤ) : latVec b1 b2 m = gOf b1 b2 m := by
  unfold latVec gOf; ext <;> simp only <;> ring

/-- `ftinv` of data whose coefficients are those of `F`, at vectors numbered by `S`. -/
theorem ftinvAt_series (F : R2 → ℂ) (b1 b2 : R2) (hb : b1.1 * b2.2 - b1.2 * b2.1 ≠ 0) (cg : List (ℂ × R2))
    (S : Finset (ℤ × ℤ)) (hF : ∀ c ∈ cg, c.1 = F c.2)
    (hS : ∀ g, g ∈ cg.map Prod.snd ↔ ∃ i ∈ S, gOf b1 b2 i = g) (x y : ℝ) :
    ftinvAt cg x y = fourierSum F b1 b2 S x y := by
  classical
  rw [C55_once F cg hF]
  have : (cg.map Prod.snd).toFinset = S.image (gOf b1 b2) := by
    ext g; rw [List.mem_toFinset, hS, Finset.mem_image]
  rw [this, Finset.sum_image fun i _ j _ h => gOf_inj b1 b2 hb h]
  unfold fourierSum
  refine Finset.sum_congr rfl fun i _ => ?_
  rw [latVec_eq]; rfl

theorem tbt_getD (b1 b2 : R2) (n1 n2 k : ℕ) (h : k < (2 * n1 + 1) * (2 * n2 + 1)) :
    ((tbtInds n1 n2).map (gOf b1 b2)).getD k 0 =
      gOf b1 b2 (((k / (2 * n2 + 1) : ℕ) : ℤ) - n1, ((k % (2 * n2 + 1) : ℕ) : ℤ) - n2) := by
  rw [List.getD_eq_getElem?_getD, List.getElem?_map, tbtInds_getElem? n1 n2 k h]; rfl

theorem g1At_eq (b1 b2 : R2) (n1 n2 k : ℕ) (h : k < (2 * n1 + 1) * (2 * n2 + 1)) :
    g1At ((tbtInds n1 n2).map (gOf b1 b2)) k =
      gOf b1 b2 (-((k / (2 * n2 + 1) : ℕ) : ℤ), -((k % (2 * n2 + 1) : ℕ) : ℤ)) := by
  unfold g1At
  rw [tbt_getD b1 b2 n1 n2 k h, tbt_getD b1 b2 n1 n2 0 (by positivity), ← gOf_sub]
  congr 1
  ext <;> simp <;> ring

theorem g2At_eq (b1 b2 : R2) (n1 n2 k : ℕ) (h : k < (2 * n1 + 1) * (2 * n2 + 1)) :
    g2At ((tbtInds n1 n2).map (gOf b1 b2)) (2 * n2 + 1) k =
      gOf b1 b2 (-((k / (2 * n2 + 1) : ℕ) : ℤ), ((k % (2 * n2 + 1) : ℕ) : ℤ)) := by
  have hm : k % (2 * n2 + 1) < 2 * n2 + 1 := Nat.mod_lt _ (by omega)
  have h1 : k / (2 * n2 + 1) * (2 * n2 + 1) ≤ k := Nat.div_mul_le_self _ _
  unfold g2At
  rw [tbt_getD b1 b2 n1 n2 (k % (2 * n2 + 1)) (by nlinarith),
    tbt_getD b1 b2 n1 n2 (k / (2 * n2 + 1) * (2 * n2 + 1)) (by omega), ← gOf_sub]
  congr 1
  rw [Nat.div_eq_of_lt hm, Nat.mod_eq_of_lt hm, Nat.mul_div_cancel _ (by omega), Nat.mul_mod_left]
  ext <;> simp <;> ring

/-- Quotient and remainder range over the whole rectangle. -/
theorem exists_pos_iff (n1 n2 : ℕ) (P : ℕ → ℕ → Prop) :
    (∃ k, k < (2 * n1 + 1) * (2 * n2 + 1) ∧ P (k / (2 * n2 + 1)) (k % (2 * n2 + 1))) ↔
      ∃ a b, a < 2 * n1 + 1 ∧ b < 2 * n2 + 1 ∧ P a b := by
  constructor
  · rintro ⟨k, hk, h⟩
    exact ⟨_, _, div_lt_of_lt_mul' hk, Nat.mod_lt _ (by omega), h⟩
  · rintro ⟨a, b, ha, hb, h⟩
    refine ⟨a * (2 * n2 + 1) + b, by nlinarith, ?_⟩
    have h1 : (a * (2 * n2 + 1) + b) / (2 * n2 + 1) = a := by
      rw [Nat.add_comm, Nat.add_mul_div_right _ _ (by omega), Nat.div_eq_of_lt hb, Nat.zero_add]
    have h2 : (a * (2 * n2 + 1) + b) % (2 * n2 + 1) = b := by
      rw [Nat.add_comm, Nat.add_mul_mod_self_right, Nat.mod_eq_of_lt hb]
    rw [h1, h2]; exact h

/-- The vectors of the 'tbt' plots fill the rectangle. -/
theorem tbtPlot_vectors (t1 t2 : ℕ → ℂ) (b1 b2 : R2) (n1 n2 : ℕ) (g : R2) :
    g ∈ (tbtPlotData t1 t2 ((tbtInds n1 n2).map (gOf b1 b2)) (2 * n2 + 1)).map Prod.snd ↔
      ∃ i ∈ rect n1 n2, gOf b1 b2 i = g := by
  have hlen : ((tbtInds n1 n2).map (gOf b1 b2)).length = (2 * n1 + 1) * (2 * n2 + 1) := by
    rw [List.length_map, tbtInds_length]
  have e1 : (∃ k, k < (2 * n1 + 1) * (2 * n2 + 1) ∧ g1At ((tbtInds n1 n2).map (gOf b1 b2)) k = g) ↔
      ∃ a b, a < 2 * n1 + 1 ∧ b < 2 * n2 + 1 ∧ gOf b1 b2 (-(a : ℤ), -(b : ℤ)) = g := by
    rw [← exists_pos_iff n1 n2 fun a b => gOf b1 b2 (-(a : ℤ), -(b : ℤ)) = g]
    refine exists_congr fun k => and_congr_right fun hk => ?_
    rw [g1At_eq b1 b2 n1 n2 k hk]
  have e2 : (∃ k, k < (2 * n1 + 1) * (2 * n2 + 1) ∧
        g2At ((tbtInds n1 n2).map (gOf b1 b2)) (2 * n2 + 1) k = g) ↔
      ∃ a b, a < 2 * n1 + 1 ∧ b < 2 * n2 + 1 ∧ gOf b1 b2 (-(a : ℤ), (b : ℤ)) = g := by
    rw [← exists_pos_iff n1 n2 fun a b => gOf b1 b2 (-(a : ℤ), (b : ℤ)) = g]
    refine exists_congr fun k => and_congr_right fun hk => ?_
    rw [g2At_eq b1 b2 n1 n2 k hk]
  have e3 : (∃ k, k < (2 * n1 + 1) * (2 * n2 + 1) ∧
        (-(g1At ((tbtInds n1 n2).map (gOf b1 b2)) k).1, -(g1At ((tbtInds n1 n2).map (gOf b1 b2)) k).2) = g) ↔
      ∃ a b, a < 2 * n1 + 1 ∧ b < 2 * n2 + 1 ∧ gOf b1 b2 ((a : ℤ), (b : ℤ)) = g := by
    rw [← exists_pos_iff n1 n2 fun a b => gOf b1 b2 ((a : ℤ), (b : ℤ)) = g]
    refine exists_congr fun k => and_congr_right fun hk => ?_
    rw [g1At_eq b1 b2 n1 n2 k hk, ← gOf_neg]; simp
  have e4 : (∃ k, k < (2 * n1 + 1) * (2 * n2 + 1) ∧
        (-(g2At ((tbtInds n1 n2).map (gOf b1 b2)) (2 * n2 + 1) k).1,
         -(g2At ((tbtInds n1 n2).map (gOf b1 b2)) (2 * n2 + 1) k).2) = g) ↔
      ∃ a b, a < 2 * n1 + 1 ∧ b < 2 * n2 + 1 ∧ gOf b1 b2 ((a : ℤ), -(b : ℤ)) = g := by
    rw [← exists_pos_iff n1 n2 fun a b => gOf b1 b2 ((a : ℤ), -(b : ℤ)) = g]
    refine exists_congr fun k => and_congr_right fun hk => ?_
    rw [g2At_eq b1 b2 n1 n2 k hk, ← gOf_neg]; simp
  unfold tbtPlotData epsXyTbt
  simp only [List.map_append, List.map_map, List.mem_append, List.mem_map, List.mem_range, hlen,
    Function.comp_apply]
  rw [e1, e2, e3, e4]
  unfold rect
  simp only [Finset.mem_product, Finset.mem_Icc]
  constructor
  · rintro (((⟨a, b, ha, hb, rfl⟩ | ⟨a, b, ha, hb, rfl⟩) | ⟨a, b, ha, hb, rfl⟩) | ⟨a, b, ha, hb, rfl⟩)
    all_goals exact ⟨_, by simp only; omega, rfl⟩
  · rintro ⟨⟨p, q⟩, ⟨⟨hp1, hp2⟩, hq1, hq2⟩, rfl⟩
    simp only at hp1 hp2 hq1 hq2
    rcases le_total p 0 with hp | hp <;> rcases le_total q 0 with hq | hq
    · exact .inl (.inl (.inl ⟨p.natAbs, q.natAbs, by omega, by omega, by congr 1; ext <;> simp only <;> omega⟩))
    · exact .inl (.inl (.inr ⟨p.natAbs, q.natAbs, by omega, by omega, by congr 1; ext <;> simp only <;> omega⟩))
    · exact .inr ⟨p.natAbs, q.natAbs, by omega, by omega, by congr 1; ext <;> simp only <;> omega⟩
    · exact .inl (.inr ⟨p.natAbs, q.natAbs, by omega, by omega, by congr 1; ext <;> simp only <;> omega⟩)

/-- The coefficients are those of `F`. -/
theorem tbtPlot_coeffs (F : R2 → ℂ) (hFc : ∀ g : R2, F (-g.1, -g.2) = (starRingEnd ℂ) (F g)) (t1 t2 : ℕ → ℂ)
    (gs : List R2) (n2g : ℕ) (h1 : ∀ k, k < gs.length → t1 k = F (g1At gs k))
    (h2 : ∀ k, k < gs.length → t2 k = F (g2At gs n2g k)) :
    ∀ c ∈ tbtPlotData t1 t2 gs n2g, c.1 = F c.2 := by
  intro c hc
  unfold tbtPlotData epsXyTbt at hc
  simp only [List.mem_append, List.mem_map, List.mem_range, List.map_map, Function.comp_apply] at hc
  rcases hc with ((⟨k, hk, rfl⟩ | ⟨k, hk, rfl⟩) | ⟨k, hk, rfl⟩) | ⟨k, hk, rfl⟩
  · exact h1 k hk
  · exact h2 k hk
  · simp only; rw [hFc, h1 k hk]
  · simp only; rw [hFc, h2 k hk]

/-- **C98 (plane-wave expansion).** `get_eps_xy` returns at every point the Fourier series of the layer over the
whole rectangle of reciprocal vectors which occur as differences of the plane waves of the expansion, each taken
once; rows are indexed by `y`, columns by `x`. -/
theorem C98_pwe (L : PweLayer) (hb : L.b1.1 * L.b2.2 - L.b1.2 * L.b2.1 ≠ 0) (hr : ∀ s ∈ L.shapes, RealShape s)
    (gmax : ℝ) (xgrid ygrid : List ℝ) :
    pweEpsXy L gmax xgrid ygrid = ygrid.map fun y => xgrid.map fun x =>
      fourierSum (layerFt L.epsB L.epsAvg L.ecArea L.shapes) L.b1 L.b2
        (rect ⌊2 * π * gmax / √(L.b1.1 ^ 2 + L.b1.2 ^ 2)⌋₊ ⌊2 * π * gmax / √(L.b2.1 ^ 2 + L.b2.2 ^ 2)⌋₊) x y := by
  unfold pweEpsXy ftinv
  congr 1; ext1 y; congr 1; ext1 x
  exact ftinvAt_series L.ft L.b1 L.b2 hb _ _
    (tbtPlot_coeffs L.ft (pweFt_conj L hr) _ _ _ _ (fun k _ => rfl) fun k _ => rfl)
    (fun g => tbtPlot_vectors _ _ L.b1 L.b2 (L.n1 gmax) (L.n2 gmax) g) x y

theorem absInds_ne_nil (b1 b2 : R2) (gmax : ℝ) (hg : 0 ≤ gmax) : absInds b1 b2 gmax ≠ [] := by
  have h : ((0 : ℤ), (0 : ℤ)) ∈ absInds b1 b2 gmax := by
    rw [mem_absInds]
    refine ⟨(mem_tbtInds _ _ _).mpr (by simp), ?_⟩
    have h0 : norm2 (gOf b1 b2 (0, 0)) = 0 := by simp [norm2, gOf]
    rw [h0]
    have := hg.trans (gmax_le_gmaxEff gmax (absNorms b1 b2 gmax))
    positivity
  exact List.ne_nil_of_mem h

/-- **C98 (guided-mode expansion, 'abs').** `get_eps_xy` returns the Fourier series over all differences of the
plane waves of the expansion, which are the coefficients that enter the permittivity matrix, for the layer at
the position of `z`. -/
theorem C98_gme_abs (s : PhC ℝ) (S : GmeStruct) (hb : S.b1.1 * S.b2.2 - S.b1.2 * S.b2.1 ≠ 0) (gmax z : ℝ)
    (hg : 0 ≤ gmax) (l : GmeLay) (hl : S.layers[zToLind s z]? = some l)
    (hr : ∀ f ∈ l.shapes, RealShape f) (xgrid ygrid : List ℝ) (D : Finset (ℤ × ℤ))
    (hD : ∀ d, d ∈ D ↔ ∃ i ∈ absInds S.b1 S.b2 gmax, ∃ j ∈ absInds S.b1 S.b2 gmax, d = i - j) :
    gmeEpsXy true s S gmax z xgrid ygrid = .ok (ygrid.map fun y => xgrid.map fun x =>
      fourierSum (layerFt l.epsB l.epsAvg S.ecArea l.shapes) S.b1 S.b2 D x y) := by
  have hne := absInds_ne_nil S.b1 S.b2 gmax hg
  unfold gmeEpsXy
  rw [hl]
  simp only [if_true]
  set U := absUnique (absInds S.b1 S.b2 gmax) with hU
  have hconj : ∀ g : R2, S.ft l (-g.1, -g.2) = (starRingEnd ℂ) (S.ft l g) := fun g =>
    (C12_layer_conj l.epsB l.epsAvg S.ecArea l.shapes hr g).1
  have hlist : epsUniq (S.ft l) S.b1 S.b2 U = U.map fun d => S.ft l (gOf S.b1 S.b2 d) := by
    apply List.ext_getElem?
    intro k
    by_cases hk : k < U.length
    · rw [epsUniq_getElem _ _ _ _ hne hconj k hk, List.getElem?_map, List.getElem?_eq_getElem hk]; rfl
    · have hodd := absUnique_length_odd (absInds S.b1 S.b2 gmax) hne
      rw [← hU] at hodd
      rw [List.getElem?_map, List.getElem?_eq_none (l := U) (by omega), List.getElem?_eq_none]
      · rfl
      · unfold epsUniq
        simp only [List.length_append, List.length_map, List.length_take, List.length_reverse,
          List.length_dropLast]
        omega
  unfold ftinv
  congr 2; ext1 y; congr 1; ext1 x
  refine ftinvAt_series (S.ft l) S.b1 S.b2 hb _ D ?_ ?_ x y
  · intro c hc
    rw [hlist, List.zip_map'] at hc
    obtain ⟨d, _, rfl⟩ := List.mem_map.mp hc
    rfl
  · intro g
    rw [hlist, List.zip_map', List.map_map]
    simp only [List.mem_map, Function.comp_apply]
    refine exists_congr fun d => and_congr_left fun _ => ?_
    rw [hU, mem_absUnique, hD]
    constructor
    · rintro ⟨a, ha, b, hb', rfl⟩; exact ⟨b, hb', a, ha, rfl⟩
    · rintro ⟨a, ha, b, hb', rfl⟩; exact ⟨b, hb', a, ha, rfl⟩

/-- **C98 (guided-mode expansion, 'tbt').** The same over the rectangle, provided the code drops imaginary parts
of stored coefficients only where the transform is real. -/
theorem C98_gme_tbt (s : PhC ℝ) (S : GmeStruct) (hb : S.b1.1 * S.b2.2 - S.b1.2 * S.b2.1 ≠ 0) (gmax z : ℝ)
    (l : GmeLay) (hl : S.layers[zToLind s z]? = some l) (hr : ∀ f ∈ l.shapes, RealShape f)
    (hst : (T1real (S.ft l) (gvecTbt S.b1 S.b2 gmax) = true ∨
      T2real (S.ft l) (gvecTbt S.b1 S.b2 gmax) (2 * nmaxOf (2 * π) gmax S.b2 + 1) = true) →
        ∀ g, (layerFt l.epsB l.epsAvg S.ecArea l.shapes g).im = 0)
    (xgrid ygrid : List ℝ) :
    gmeEpsXy false s S gmax z xgrid ygrid = .ok (ygrid.map fun y => xgrid.map fun x =>
      fourierSum (layerFt l.epsB l.epsAvg S.ecArea l.shapes) S.b1 S.b2
        (rect ⌊2 * π * gmax / √(S.b1.1 ^ 2 + S.b1.2 ^ 2)⌋₊ ⌊2 * π * gmax / √(S.b2.1 ^ 2 + S.b2.2 ^ 2)⌋₊) x y) := by
  have hc : ∀ (r : Bool) (g : R2), (r = true → (S.ft l g).im = 0) → castTo r (S.ft l g) = S.ft l g := by
    intro r g h
    unfold castTo
    cases r with
    | false => rfl
    | true =>
      simp only [if_true]
      apply Complex.ext
      · simp
      · rw [h rfl, Complex.ofReal_im]
  unfold gmeEpsXy
  rw [hl]
  simp only [Bool.false_eq_true, if_false]
  unfold ftinv
  congr 2; ext1 y; congr 1; ext1 x
  refine ftinvAt_series (S.ft l) S.b1 S.b2 hb _ _ (tbtPlot_coeffs (S.ft l) (fun g =>
    (C12_layer_conj l.epsB l.epsAvg S.ecArea l.shapes hr g).1) _ _ _ _ (fun k _ => ?_) fun k _ => ?_)
    (fun g => tbtPlot_vectors _ _ S.b1 S.b2 (nmaxOf (2 * π) gmax S.b1) (nmaxOf (2 * π) gmax S.b2) g) x y
  · exact hc _ _ fun h => hst (.inl h) _
  · exact hc _ _ fun h => hst (.inr h) _

/-- A square lattice with a circular hole. -/
example (J : ℝ → ℝ) (gmax : ℝ) (xs ys : List ℝ) :=
  C98_pwe ⟨(2 * π, 0), (0, 2 * π), 1, 12, 12 - 11 * (π * 0.2 ^ 2), [⟨1, Circle.ft J ⟨0.1, 0, 0.2⟩⟩]⟩
    (by simp [Real.pi_ne_zero]) (by
      intro s hs
      rw [List.mem_singleton] at hs
      subst hs
      exact fun g => (C12_circle_conj J ⟨0.1, 0, 0.2⟩ g)) gmax xs ys

/-- A structure with one patterned layer between two claddings, at a height inside the layer. -/
example (lat : Lat ℝ) (J : ℝ → ℝ) (xs ys : List ℝ) (lo up : GmeLay) :=
  C98_gme_abs ⟨lat, mkShapesLayer 0 0 1, mkShapesLayer 2 2 1, [mkShapesLayer 0 2 12], []⟩
    ⟨(2 * π, 0), (0, 2 * π), 1, [lo, ⟨.inner 2, 12, 10, none, [⟨1, Circle.ft J ⟨0.1, 0, 0.2⟩⟩]⟩, up]⟩
    (by simp [Real.pi_ne_zero]) 3 1 (by norm_num) ⟨.inner 2, 12, 10, none, [⟨1, Circle.ft J ⟨0.1, 0, 0.2⟩⟩]⟩
    (by norm_num [zToLind, zToLindLoop, mkShapesLayer])
    (by
      intro s hs
      rw [List.mem_singleton] at hs
      subst hs
      exact fun g => (C12_circle_conj J ⟨0.1, 0, 0.2⟩ g)) xs ys
    (absUnique (absInds (2 * π, 0) (0, 2 * π) 3)).toFinset (by
      intro d
      rw [List.mem_toFinset, mem_absUnique]
      constructor
      · rintro ⟨a, ha, b, hb, rfl⟩; exact ⟨b, hb, a, ha, rfl⟩
      · rintro ⟨a, ha, b, hb, rfl⟩; exact ⟨b, hb, a, ha, rfl⟩)

/-! ### Meaning of the series -/

theorem integral_exp_int (n : ℤ) :
    ∫ u in (0 : ℝ)..1, Complex.exp (2 * π * Complex.I * n * (u : ℂ)) = if n = 0 then 1 else 0 := by
  by_cases h : n = 0
  · subst h; simp
  · rw [if_neg h]
    have hc : (2 * π * Complex.I * n : ℂ) ≠ 0 := by
      simp [Real.pi_ne_zero, Complex.I_ne_zero, h]
    have e := integral_exp_mul_complex (a := 0) (b := 1) hc
    refine e.trans ?_
    have : Complex.exp (2 * π * Complex.I * n * ((1 : ℝ) : ℂ)) = 1 := by
      rw [Complex.exp_eq_one_iff]; exact ⟨n, by push_cast; ring⟩
    rw [this]; simp

/-- The average of a product of plane waves. -/
theorem cellMean_wave (a1 a2 b1 b2 : R2) (hd : Dual a1 a2 b1 b2) (m n : ℤ × ℤ) (c : ℂ) :
    (∫ u in (0 : ℝ)..1, ∫ v in (0 : ℝ)..1,
      c * wave (latVec b1 b2 m) (u * a1.1 + v * a2.1) (u * a1.2 + v * a2.2) *
        (starRingEnd ℂ) (wave (latVec b1 b2 n) (u * a1.1 + v * a2.1) (u * a1.2 + v * a2.2))) =
      if m = n then c else 0 := by
  have e : ∀ u v : ℝ, c * wave (latVec b1 b2 m) (u * a1.1 + v * a2.1) (u * a1.2 + v * a2.2) *
        (starRingEnd ℂ) (wave (latVec b1 b2 n) (u * a1.1 + v * a2.1) (u * a1.2 + v * a2.2)) =
      c * Complex.exp (2 * π * Complex.I * ((m.1 - n.1 : ℤ) : ℂ) * (u : ℂ)) *
        Complex.exp (2 * π * Complex.I * ((m.2 - n.2 : ℤ) : ℂ) * (v : ℂ)) := by
    intro u v
    have hg : ∀ p : ℤ × ℤ, (latVec b1 b2 p).1 * (u * a1.1 + v * a2.1) + (latVec b1 b2 p).2 * (u * a1.2 + v * a2.2) =
        2 * π * (p.1 * u + p.2 * v) := by
      intro p
      unfold latVec
      simp only
      linear_combination (p.1 * u : ℝ) * hd.h11 + (p.2 * u : ℝ) * hd.h12 + (p.1 * v : ℝ) * hd.h21 +
        (p.2 * v : ℝ) * hd.h22
    unfold wave
    rw [hg, hg, ← Complex.exp_conj, mul_assoc c, mul_assoc c, ← Complex.exp_add, ← Complex.exp_add]
    congr 2
    rw [map_mul, Complex.conj_I, Complex.conj_ofReal]
    push_cast
    ring
  simp only [e]
  simp only [intervalIntegral.integral_const_mul, integral_exp_int, intervalIntegral.integral_mul_const]
  by_cases h1 : m.1 - n.1 = 0 <;> by_cases h2 : m.2 - n.2 = 0
  · rw [if_pos h1, if_pos h2, if_pos (Prod.ext (by omega) (by omega))]; ring
  · rw [if_neg h2, if_neg (c := m = n) (by rintro rfl; exact h2 (sub_self _))]; ring
  · rw [if_neg h1, if_neg (c := m = n) (by rintro rfl; exact h1 (sub_self _))]; ring
  · rw [if_neg h1, if_neg (c := m = n) (by rintro rfl; exact h1 (sub_self _))]; ring

theorem continuous_wave (g : R2) : Continuous fun p : ℝ × ℝ => wave g p.1 p.2 := by
  unfold wave; fun_prop

/-- **C98 (meaning).** The function which the plots sample has as Fourier coefficients over the elementary cell
the values of `F` at the vectors of the expansion and zero elsewhere. -/
theorem C98_coefficient (F : R2 → ℂ) (a1 a2 b1 b2 : R2) (hd : Dual a1 a2 b1 b2) (S : Finset (ℤ × ℤ)) (n : ℤ × ℤ) :
    cellMean a1 a2 (fun x y => fourierSum F b1 b2 S x y * Complex.exp
      (-(Complex.I * (((latVec b1 b2 n).1 * x + (latVec b1 b2 n).2 * y : ℝ) : ℂ)))) =
      if n ∈ S then F (latVec b1 b2 n) else 0 := by
  have hcont : ∀ m : ℤ × ℤ, Continuous fun p : ℝ × ℝ =>
      F (latVec b1 b2 m) * wave (latVec b1 b2 m) (p.1 * a1.1 + p.2 * a2.1) (p.1 * a1.2 + p.2 * a2.2) *
        (starRingEnd ℂ) (wave (latVec b1 b2 n) (p.1 * a1.1 + p.2 * a2.1) (p.1 * a1.2 + p.2 * a2.2)) := by
    intro m
    have hw : ∀ g : R2, Continuous fun p : ℝ × ℝ => wave g (p.1 * a1.1 + p.2 * a2.1) (p.1 * a1.2 + p.2 * a2.2) :=
      fun g => (continuous_wave g).comp (f := fun p : ℝ × ℝ => (p.1 * a1.1 + p.2 * a2.1, p.1 * a1.2 + p.2 * a2.2))
        (by fun_prop)
    exact (continuous_const.mul (hw _)).mul (Complex.continuous_conj.comp (hw _))
  have e : ∀ x y : ℝ, fourierSum F b1 b2 S x y * Complex.exp
      (-(Complex.I * (((latVec b1 b2 n).1 * x + (latVec b1 b2 n).2 * y : ℝ) : ℂ))) =
      ∑ m ∈ S, F (latVec b1 b2 m) * wave (latVec b1 b2 m) x y * (starRingEnd ℂ) (wave (latVec b1 b2 n) x y) := by
    intro x y
    unfold fourierSum
    rw [Finset.sum_mul]
    refine Finset.sum_congr rfl fun m _ => ?_
    congr 1
    unfold wave
    rw [← Complex.exp_conj, map_mul, Complex.conj_I, Complex.conj_ofReal, neg_mul]
  unfold cellMean
  simp only [e]
  have h1 : ∀ u : ℝ, (∫ v in (0 : ℝ)..1, ∑ m ∈ S,
      F (latVec b1 b2 m) * wave (latVec b1 b2 m) (u * a1.1 + v * a2.1) (u * a1.2 + v * a2.2) *
        (starRingEnd ℂ) (wave (latVec b1 b2 n) (u * a1.1 + v * a2.1) (u * a1.2 + v * a2.2))) =
      ∑ m ∈ S, ∫ v in (0 : ℝ)..1,
        F (latVec b1 b2 m) * wave (latVec b1 b2 m) (u * a1.1 + v * a2.1) (u * a1.2 + v * a2.2) *
        (starRingEnd ℂ) (wave (latVec b1 b2 n) (u * a1.1 + v * a2.1) (u * a1.2 + v * a2.2)) := by
    intro u
    refine intervalIntegral.integral_finset_sum fun m _ => Continuous.intervalIntegrable ?_ _ _
    exact (hcont m).comp (f := fun v : ℝ => (u, v)) (by fun_prop)
  simp only [h1]
  rw [intervalIntegral.integral_finset_sum]
  · simp only [cellMean_wave a1 a2 b1 b2 hd]
    rw [Finset.sum_ite_eq']
  · intro m _
    refine Continuous.intervalIntegrable ?_ _ _
    exact intervalIntegral.continuous_parametric_intervalIntegral_of_continuous' (hcont m) 0 1

/-- **C98 (average).** The average of the plotted permittivity over the cell is `eps_avg`, whatever the truncation.
-/
theorem C98_average (epsB epsAvg ecArea : ℝ) (shapes : List FShape) (a1 a2 b1 b2 : R2) (hd : Dual a1 a2 b1 b2)
    (S : Finset (ℤ × ℤ)) (h0 : (0, 0) ∈ S) :
    cellMean a1 a2 (fourierSum (layerFt epsB epsAvg ecArea shapes) b1 b2 S) = epsAvg := by
  have h := C98_coefficient (layerFt epsB epsAvg ecArea shapes) a1 a2 b1 b2 hd S (0, 0)
  have hz : latVec b1 b2 (0, 0) = (0, 0) := by simp [latVec]
  rw [if_pos h0, hz, layerFt_g0 _ _ _ _ _ (by norm_num [isG0])] at h
  rw [← h]
  congr 1
  ext x y
  simp

/-- **C98 (real).** The plotted values are real. -/
theorem C98_real (epsB epsAvg ecArea : ℝ) (shapes : List FShape) (hr : ∀ s ∈ shapes, RealShape s) (b1 b2 : R2)
    (S : Finset (ℤ × ℤ)) (hS : ∀ m ∈ S, -m ∈ S) (x y : ℝ) :
    (fourierSum (layerFt epsB epsAvg ecArea shapes) b1 b2 S x y).im = 0 := by
  rw [← Complex.conj_eq_iff_im]
  unfold fourierSum
  rw [map_sum]
  refine Finset.sum_nbij' (fun m => -m) (fun m => -m) (fun m hm => hS m hm) (fun m hm => hS m hm)
    (fun m _ => by simp) (fun m _ => by simp) fun m _ => ?_
  have hv : latVec b1 b2 (-m) = (-(latVec b1 b2 m).1, -(latVec b1 b2 m).2) := by
    unfold latVec; ext <;> simp <;> ring
  rw [hv, (C12_layer_conj epsB epsAvg ecArea shapes hr _).1, map_mul, ← Complex.exp_conj, map_mul, Complex.conj_I,
    Complex.conj_ofReal]
  congr 2
  push_cast
  ring

theorem dual_square : Dual (1, 0) (0, 1) (2 * π, 0) (0, 2 * π) := ⟨by simp, by simp, by simp, by simp⟩

theorem zero_mem_rect (n1 n2 : ℕ) : ((0 : ℤ), (0 : ℤ)) ∈ rect n1 n2 := by
  unfold rect; simp only [Finset.mem_product, Finset.mem_Icc]; omega

theorem neg_mem_rect (n1 n2 : ℕ) (m : ℤ × ℤ) (h : m ∈ rect n1 n2) : -m ∈ rect n1 n2 := by
  unfold rect at *; simp only [Finset.mem_product, Finset.mem_Icc, Prod.fst_neg, Prod.snd_neg] at *; omega

/-- The truncation of the square lattice, as in `C98_pwe`. -/
example (J : ℝ → ℝ) (n1 n2 : ℕ) :
    cellMean (1, 0) (0, 1) (fourierSum (layerFt 12 10 1 [⟨1, Circle.ft J ⟨0.1, 0, 0.2⟩⟩]) (2 * π, 0) (0, 2 * π)
      (rect n1 n2)) = 10 := by
  have := C98_average 12 10 1 [⟨1, Circle.ft J ⟨0.1, 0, 0.2⟩⟩] (1, 0) (0, 1) (2 * π, 0) (0, 2 * π) dual_square
    (rect n1 n2) (zero_mem_rect n1 n2)
  simpa using this

example (J : ℝ → ℝ) (n1 n2 : ℕ) (x y : ℝ) :=
  C98_real 12 10 1 [⟨1, Circle.ft J ⟨0.1, 0, 0.2⟩⟩] (by
      intro s hs
      rw [List.mem_singleton] at hs
      subst hs
      exact fun g => (C12_circle_conj J ⟨0.1, 0, 0.2⟩ g)) (2 * π, 0) (0, 2 * π) (rect n1 n2) (neg_mem_rect n1 n2) x y

end Legume
