import Verif.Lemmas.FreqsSame

/-!
# The dispersion function of subdivided stacks at all frequencies
-/
namespace Legume

open Spec

theorem vecGeneral_eq (pol : Pol) (om g e0 eN : ℝ) (ls : List (ℝ × ℝ)) :
    d22VecGeneral pol om g (e0 :: ls.map Prod.fst ++ [eN]) (ls.map Prod.snd) =
      d22General pol om g (e0 :: ls.map Prod.fst ++ [eN]) (ls.map Prod.snd) := by
  cases ls with
  | nil => simp [d22VecGeneral, d22General, sMats, vecLoop]
  | cons l ls =>
    have := vecLoop_eq pol om g (l :: ls) eN (sMat (wgt pol om g e0) (wgt pol om g l.1))
    simp only [List.map_cons, List.cons_append] at this
    have ht : tMats om g (e0 :: (l :: ls).map Prod.fst ++ [eN]) ((l :: ls).map Prod.snd) =
        List.zipWith (fun e d => tMat (chi om g e) d) ((l :: ls).map Prod.fst) ((l :: ls).map Prod.snd) := by
      unfold tMats
      rw [List.cons_append, List.tail_cons, List.dropLast_concat]
    unfold d22General
    rw [ht]
    simp only [List.map_cons, List.cons_append, d22VecGeneral]
    rw [this]
    simp [sMats]

theorem sMat_zero (w : ℂ) : sMat w 0 = ⟨0, 0, 0, 0⟩ := by
  unfold sMat
  simp

theorem sTprod_into_zero (pol : Pol) (om g e1 e2 d : ℝ) (m : M2) (h : wgt pol om g e2 = 0) :
    sTprod pol om g e1 e2 d m = ⟨0, 0, 0, 0⟩ := by
  unfold sTprod
  rw [h, sMat_zero]
  simp

theorem sTprod_of_zero (pol : Pol) (om g e1 e2 d : ℝ) : sTprod pol om g e1 e2 d ⟨0, 0, 0, 0⟩ = ⟨0, 0, 0, 0⟩ := by
  unfold sTprod
  simp

theorem sTprod_cut (pol : Pol) (om g e e' d1 d2 : ℝ) (m : M2) (h : wgt pol om g e = 0 → m = ⟨0, 0, 0, 0⟩) :
    sTprod pol om g e e' d2 (sTprod pol om g e e d1 m) = sTprod pol om g e e' (d1 + d2) m := by
  by_cases hw : wgt pol om g e = 0
  · rw [h hw, sTprod_of_zero, sTprod_of_zero, sTprod_of_zero]
  · have hs : sMat (wgt pol om g e) (wgt pol om g e) = M2.one := by
      unfold sMat M2.one
      congr 1 <;> (field_simp; norm_num)
    have x1 : Complex.exp (Complex.I * chi om g e * ((d1 + d2 : ℝ) : ℂ)) =
        Complex.exp (Complex.I * chi om g e * d1) * Complex.exp (Complex.I * chi om g e * d2) := by
      rw [← Complex.exp_add]
      congr 1
      push_cast
      ring
    have x2 : Complex.exp (-Complex.I * chi om g e * ((d1 + d2 : ℝ) : ℂ)) =
        Complex.exp (-Complex.I * chi om g e * d1) * Complex.exp (-Complex.I * chi om g e * d2) := by
      rw [← Complex.exp_add]
      congr 1
      push_cast
      ring
    unfold sTprod
    simp only [hs, M2.one, x1, x2]
    congr 1 <;> ring

theorem vecLoop_cut (pol : Pol) (om g eN e d1 d2 : ℝ) (l2 : List (ℝ × ℝ)) : ∀ (l1 : List (ℝ × ℝ)) (m : M2),
    (wgt pol om g ((l1.map Prod.fst).headD e) = 0 → m = ⟨0, 0, 0, 0⟩) →
    vecLoop pol om g ((l1 ++ (e, d1) :: (e, d2) :: l2).map Prod.fst ++ [eN]) ((l1 ++ (e, d1) :: (e, d2) :: l2).map Prod.snd) m =
      vecLoop pol om g ((l1 ++ (e, d1 + d2) :: l2).map Prod.fst ++ [eN]) ((l1 ++ (e, d1 + d2) :: l2).map Prod.snd) m
  | [], m, h => by
    cases l2 with
    | nil =>
      simp only [List.nil_append, List.map_cons, List.map_nil, List.cons_append, vecLoop]
      rw [sTprod_cut pol om g e _ _ _ m h]
    | cons l l2 =>
      simp only [List.nil_append, List.map_cons, List.cons_append, vecLoop]
      rw [sTprod_cut pol om g e _ _ _ m h]
  | [l], m, h => by
    have ih := vecLoop_cut pol om g eN e d1 d2 l2 [] (sTprod pol om g l.1 e l.2 m)
      fun h => sTprod_into_zero _ _ _ _ _ _ _ h
    simpa only [List.cons_append, List.nil_append, List.map_cons, vecLoop] using ih
  | l :: l' :: l1, m, h => by
    have ih := vecLoop_cut pol om g eN e d1 d2 l2 (l' :: l1) (sTprod pol om g l.1 l'.1 l.2 m)
      fun h => sTprod_into_zero _ _ _ _ _ _ _ h
    simpa only [List.cons_append, List.map_cons, vecLoop] using ih

/-- The dispersion function does not notice the cut, on and off light lines. -/
theorem d22General_cut (pol : Pol) (om g e0 eN e d1 d2 : ℝ) (l1 l2 : List (ℝ × ℝ)) :
    d22General pol om g (e0 :: (l1 ++ (e, d1) :: (e, d2) :: l2).map Prod.fst ++ [eN])
        ((l1 ++ (e, d1) :: (e, d2) :: l2).map Prod.snd) =
      d22General pol om g (e0 :: (l1 ++ (e, d1 + d2) :: l2).map Prod.fst ++ [eN])
        ((l1 ++ (e, d1 + d2) :: l2).map Prod.snd) := by
  rw [← vecGeneral_eq, ← vecGeneral_eq]
  have key := vecLoop_cut pol om g eN e d1 d2 l2 l1 (sMat (wgt pol om g e0) (wgt pol om g ((l1.map Prod.fst).headD e)))
    (fun h => by rw [h, sMat_zero])
  cases l1 with
  | nil => exact congrArg M2.d key
  | cons l l1 => exact congrArg M2.d key

theorem slabDisp_cut (e0 eN e d1 d2 : ℝ) (l1 l2 : List (ℝ × ℝ)) (h : l1 ≠ [] ∨ l2 ≠ []) (pol : Pol) :
    slabDisp e0 eN (l1 ++ (e, d1) :: (e, d2) :: l2) pol = slabDisp e0 eN (l1 ++ (e, d1 + d2) :: l2) pol := by
  funext g om
  unfold slabDisp
  rw [d22_long, d22_long, d22General_cut]
  · simp only [List.cons_append, List.length_cons, List.length_append, List.length_map, List.length_nil]
    intro h'
    rcases h with h | h
    · exact h (List.length_eq_zero_iff.1 (by omega))
    · exact h (List.length_eq_zero_iff.1 (by omega))
  · simp
    omega

theorem cut_mem {e d1 d2 : ℝ} {l1 l2 : List (ℝ × ℝ)} {P : ℝ → Prop} :
    (∀ l ∈ l1 ++ (e, d1) :: (e, d2) :: l2, P l.1) ↔ ∀ l ∈ l1 ++ (e, d1 + d2) :: l2, P l.1 := by
  simp only [List.mem_append, List.mem_cons]
  constructor
  · intro h l hl
    rcases hl with hl | rfl | hl
    · exact h l (.inl hl)
    · exact h (e, d1) (.inr (.inl rfl))
    · exact h l (.inr (.inr (.inr hl)))
  · intro h l hl
    rcases hl with hl | rfl | rfl | hl
    · exact h l (.inl hl)
    · exact h (e, d1 + d2) (.inr (.inl rfl))
    · exact h (e, d1 + d2) (.inr (.inl rfl))
    · exact h l (.inr (.inr hl))

/-- At frequencies above the light line of a single layer. -/
theorem slabDisp_halves {e0 eN e d1 d2 : ℝ} (h0 : 0 < e0) (hN : 0 < eN) (he : 0 < e) (pol : Pol) {g om : ℝ} (hom : 0 < om)
    (hg : 0 < g) (hcore : g / √e ≤ om) (hclad : om ≤ g / √(max e0 eN)) :
    ∃ c : ℝ, 0 ≤ c ∧ slabDisp e0 eN [(e, d1), (e, d2)] pol g om = c * slabDisp e0 eN [(e, d1 + d2)] pol g om := by
  have hm : 0 < max e0 eN := lt_max_of_lt_left h0
  have q1 : g ^ 2 ≤ e * om ^ 2 := by
    rw [div_le_iff₀ (Real.sqrt_pos.2 he)] at hcore
    have h2 : g ^ 2 ≤ (om * √e) ^ 2 := by gcongr
    rw [mul_pow, Real.sq_sqrt he.le] at h2
    linarith
  have q2 : max e0 eN * om ^ 2 ≤ g ^ 2 := by
    rw [le_div_iff₀ (Real.sqrt_pos.2 hm)] at hclad
    have h2 : (om * √(max e0 eN)) ^ 2 ≤ g ^ 2 := by
      have := Real.sqrt_nonneg (max e0 eN)
      gcongr
    rw [mul_pow, Real.sq_sqrt hm.le] at h2
    linarith
  have c1 : e0 * om ^ 2 ≤ g ^ 2 := (mul_le_mul_of_nonneg_right (le_max_left _ _) (sq_nonneg om)).trans q2
  have c2 : eN * om ^ 2 ≤ g ^ 2 := (mul_le_mul_of_nonneg_right (le_max_right _ _) (sq_nonneg om)).trans q2
  have hD : slabDisp e0 eN [(e, d1), (e, d2)] pol g om = (d22General pol om g [e0, e, eN] [d1 + d2]).re := by
    unfold slabDisp
    rw [d22_long _ _ _ _ _ (by simp)]
    exact congrArg Complex.re (d22General_cut pol om g e0 eN e d1 d2 [] [])
  rw [hD]
  have hV : d22General pol om g [e0, e, eN] [d1 + d2] =
      (sTprod pol om g e eN (d1 + d2) (sMat (wgt pol om g e0) (wgt pol om g e))).d :=
    (vecGeneral_eq pol om g e0 eN [(e, d1 + d2)]).symm
  by_cases hw : wgt pol om g e = 0
  · refine ⟨0, le_rfl, ?_⟩
    rw [hV, hw, sMat_zero, sTprod_of_zero]
    simp
  by_cases hwN : wgt pol om g eN = 0
  · refine ⟨0, le_rfl, ?_⟩
    rw [hV, sTprod_into_zero _ _ _ _ _ _ _ hwN]
    simp
  have q1' : g ^ 2 < e * om ^ 2 := by
    refine lt_of_le_of_ne q1 fun h => hw ?_
    unfold wgt
    rw [chi_of_le _ _ _ q1, ← h]
    cases pol <;> simp
  have c2' : eN * om ^ 2 < g ^ 2 := by
    refine lt_of_le_of_ne c2 fun h => hwN ?_
    unfold wgt
    rw [chi_of_le _ _ _ h.ge, h]
    cases pol <;> simp
  obtain ⟨t2, p2, w2⟩ := wgt_core pol he q1'
  obtain ⟨t3, p3, w3⟩ := wgt_clad pol hN c2'
  have chi1 : chi om g e0 = Complex.I * ((√(g ^ 2 - e0 * om ^ 2) : ℝ) : ℂ) := by
    rcases c1.lt_or_eq with h | h
    · exact chi_of_lt _ _ _ h
    · rw [chi_of_le _ _ _ h.ge, h]
      simp
  have chi3 : chi om g eN = Complex.I * ((√(g ^ 2 - eN * om ^ 2) : ℝ) : ℂ) := chi_of_lt _ _ _ c2'
  have chi2 : chi om g e = ((√(-g ^ 2 + e * om ^ 2) : ℝ) : ℂ) := by
    rw [chi_of_le _ _ _ q1]; congr 2; ring
  have gen : ∀ w1 w2 w3 x : ℂ, w2 ≠ 0 → w3 ≠ 0 →
      w2 * (w1 + w3) * (-Complex.I * Complex.cos (x * (d1 + d2 : ℝ))) + (w1 * w3 + w2 ^ 2) * (-Complex.sin (x * (d1 + d2 : ℝ))) =
        (-2 * Complex.I * (w2 * w3)) * ((sMat w2 w3) * (tMat x (d1 + d2) * (tMat x (d1 + d2) * sMat w1 w2))).d := by
    intro w1 w2 w3 x n2 n3
    have I2 := Complex.I_sq
    rw [sMat_eq _ _ n3, sMat_eq _ _ n2, ← M2.mul_assoc (tMat _ _), tMat_sq_eq _ _ _ n2]
    simp only [M2.mul_assoc]
    rw [← M2.mul_assoc (pMat w2) (pInv _), pMat_pInv _ n2, M2.one_mul, ← M2.mul_assoc (pMat w2) (pInv _), pMat_pInv _ n2,
      M2.one_mul]
    simp only [M2.mul_d, M2.mul_b, pInv, cMat, pMat]
    field_simp
    linear_combination (-(w1 * w3 + w2 ^ 2) * Complex.sin (x * (d1 + d2 : ℝ))) * I2
  have key : d22Three pol om g e0 e eN (d1 + d2) =
      (-2 * Complex.I * (wgt pol om g e * wgt pol om g eN)) * d22General pol om g [e0, e, eN] [d1 + d2] := by
    rw [hV, sTprod_eq]
    refine Eq.trans ?_ (gen _ _ _ (chi om g e) hw hwN)
    cases pol
    · simp only [d22Three, chis3, ← chi1, ← chi2, ← chi3, wgt]
    · simp only [d22Three, chis3, ← chi1, ← chi2, ← chi3, wgt]
      ring
  refine ⟨(2 * t2 * t3)⁻¹, by positivity, ?_⟩
  change (d22General pol om g [e0, e, eN] [d1 + d2]).re = (2 * t2 * t3)⁻¹ * (d22Three pol om g e0 e eN (d1 + d2)).re
  rw [key, w2, w3, show -2 * Complex.I * ((t2 : ℂ) * (Complex.I * t3)) = ((2 * t2 * t3 : ℝ) : ℂ) by
    push_cast
    linear_combination (-2 * (t2 : ℂ) * t3) * Complex.I_sq, Complex.re_ofReal_mul, inv_mul_cancel_left₀ (by positivity)]

/-- A root finder of a slab is a root finder of the subdivided slab. -/
theorem rootFinder_cut {fs : Finder} {e0 eN e d1 d2 : ℝ} {l1 l2 : List (ℝ × ℝ)} (h0 : 0 < e0) (hN : 0 < eN) (he : 0 < e)
    (h : RootFinder fs e0 eN (l1 ++ (e, d1 + d2) :: l2)) : RootFinder fs e0 eN (l1 ++ (e, d1) :: (e, d2) :: l2) := by
  intro pol g x y hg hxy hlow hx hy hs
  have hlow' : ∃ l ∈ l1 ++ (e, d1 + d2) :: l2, g / √l.1 ≤ x := by
    by_contra hn
    push Not at hn
    obtain ⟨l, q1, q2⟩ := hlow
    exact absurd q2 (not_le.2 ((cut_mem (P := fun e => x < g / √e)).2 hn l q1))
  change slabDisp e0 eN (l1 ++ (e, d1) :: (e, d2) :: l2) pol g x * slabDisp e0 eN (l1 ++ (e, d1) :: (e, d2) :: l2) pol g y < 0
    at hs
  change _ ∧ _ ∧ slabDisp e0 eN (l1 ++ (e, d1) :: (e, d2) :: l2) pol g (fs pol g x y) = 0 ∧ _
  by_cases h3 : l1 ≠ [] ∨ l2 ≠ []
  · rw [slabDisp_cut _ _ _ _ _ _ _ h3] at hs ⊢
    obtain ⟨a1, a2, a3, a4⟩ := h pol g x y hg hxy hlow' hx hy hs
    exact ⟨a1, a2, a3, (cut_mem (P := fun e => e * fs pol g x y ^ 2 ≠ g ^ 2)).2 a4⟩
  · push Not at h3
    obtain ⟨rfl, rfl⟩ := h3
    simp only [List.nil_append] at *
    obtain ⟨l, q1, q2⟩ := hlow'
    rw [List.mem_singleton.1 q1] at q2
    simp only at q2
    obtain ⟨c, hc, e1⟩ := slabDisp_halves (d1 := d1) (d2 := d2) h0 hN he pol hx hg q2 (hxy.le.trans hy)
    obtain ⟨c', hc', e2⟩ := slabDisp_halves (d1 := d1) (d2 := d2) h0 hN he pol (hx.trans hxy) hg (q2.trans hxy.le) hy
    have hs' : slabDisp e0 eN [(e, d1 + d2)] pol g x * slabDisp e0 eN [(e, d1 + d2)] pol g y < 0 := by
      rw [e1, e2] at hs
      by_contra hn
      have := mul_nonneg (mul_nonneg hc hc') (not_lt.1 hn)
      nlinarith
    obtain ⟨a1, a2, a3, a4⟩ := h pol g x y hg hxy ⟨(e, d1 + d2), by simp, q2⟩ hx hy hs'
    obtain ⟨c'', -, e3⟩ := slabDisp_halves (d1 := d1) (d2 := d2) h0 hN he pol (hx.trans_le a1) hg (q2.trans a1) (a2.trans hy)
    refine ⟨a1, a2, ?_, (cut_mem (l1 := []) (l2 := []) (P := fun e => e * fs pol g x y ^ 2 ≠ g ^ 2)).2 a4⟩
    rw [e3]
    change c'' * (d22 pol (fs pol g x y) g (e0 :: [(e, d1 + d2)].map Prod.fst ++ [eN]) ([(e, d1 + d2)].map Prod.snd)).re = 0
    rw [a3, mul_zero]

theorem freqs_cut_layers (fs : Finder) (o : GuidedOpts) (e0 eN e d1 d2 : ℝ) (l1 l2 : List (ℝ × ℝ)) (h : l1 ≠ [] ∨ l2 ≠ [])
    (pol : Pol) (grid : List ℝ) : freqsFound fs o e0 eN (l1 ++ (e, d1) :: (e, d2) :: l2) pol grid =
      freqsFound fs o e0 eN (l1 ++ (e, d1 + d2) :: l2) pol grid := by
  have hlb := omLb_cut e0 eN e d1 d2 l1 l2
  have hub : ∀ g, omUb (e0 :: (l1 ++ (e, d1) :: (e, d2) :: l2).map Prod.fst ++ [eN]) g =
      omUb (e0 :: (l1 ++ (e, d1 + d2) :: l2).map Prod.fst ++ [eN]) g := fun g => by rw [omUb_slab, omUb_slab]
  have key : ∀ (grid : List ℝ) prev, guidedModes (slabDisp e0 eN (l1 ++ (e, d1) :: (e, d2) :: l2) pol) (fs pol)
      (e0 :: (l1 ++ (e, d1) :: (e, d2) :: l2).map Prod.fst ++ [eN])
      (nModesOf o.inds pol) o.step o.tol prev grid = guidedModes (slabDisp e0 eN (l1 ++ (e, d1 + d2) :: l2) pol) (fs pol)
      (e0 :: (l1 ++ (e, d1 + d2) :: l2).map Prod.fst ++ [eN]) (nModesOf o.inds pol) o.step o.tol prev grid := by
    intro grid
    induction grid with
    | nil => intro _; rfl
    | cons g gs ih =>
      intro prev
      have hst : guidedStep (slabDisp e0 eN (l1 ++ (e, d1) :: (e, d2) :: l2) pol) (fs pol)
          (e0 :: (l1 ++ (e, d1) :: (e, d2) :: l2).map Prod.fst ++ [eN]) (nModesOf o.inds pol) o.step o.tol prev g =
          guidedStep (slabDisp e0 eN (l1 ++ (e, d1 + d2) :: l2) pol) (fs pol)
          (e0 :: (l1 ++ (e, d1 + d2) :: l2).map Prod.fst ++ [eN]) (nModesOf o.inds pol) o.step o.tol prev g := by
        unfold guidedStep
        simp only [hlb, hub, slabDisp_cut _ _ _ _ _ _ _ h]
      simp only [guidedModes]
      rw [hst, ih]
  exact key grid none

end Legume
