import Mathlib.Algebra.Order.Floor.Ring
import Mathlib.Tactic.NormNum
import Mathlib.Tactic.IntervalCases
import Mathlib.Tactic.Positivity
import Verif.Lemmas.SlabModes
import Verif.Spec.SlabModes

/-!
# Slab modes: C22 - C27
-/
namespace Legume

open Complex Spec

/-! ### C22 -/

theorem chi_of_lt (omega g eps : ℝ) (h : eps * omega ^ 2 < g ^ 2) :
    chi omega g eps = Complex.I * ((√(g ^ 2 - eps * omega ^ 2) : ℝ) : ℂ) := by
  unfold chi
  rw [if_neg (by linarith)]
  congr 3
  ring

theorem chi_of_le (omega g eps : ℝ) (h : g ^ 2 ≤ eps * omega ^ 2) :
    chi omega g eps = ((√(eps * omega ^ 2 - g ^ 2) : ℝ) : ℂ) := by
  unfold chi
  rw [if_pos (by linarith)]

theorem chi_ne_zero (omega g eps : ℝ) (h : eps * omega ^ 2 ≠ g ^ 2) : chi omega g eps ≠ 0 := by
  unfold chi
  split
  · rename_i h'
    rw [Complex.ofReal_ne_zero]
    exact (Real.sqrt_pos.mpr (lt_of_le_of_ne h' (fun e => h (by linarith)))).ne'
  · rename_i h'
    refine mul_ne_zero Complex.I_ne_zero ?_
    rw [Complex.ofReal_ne_zero]
    exact (Real.sqrt_pos.mpr (by linarith)).ne'

theorem wgt_ne_zero (pol : Pol) (omega g eps : ℝ) (h : eps * omega ^ 2 ≠ g ^ 2) (he : eps ≠ 0) :
    wgt pol omega g eps ≠ 0 := by
  unfold wgt
  cases pol
  · exact chi_ne_zero omega g eps h
  · exact div_ne_zero (chi_ne_zero omega g eps h) (by exact_mod_cast he)

/-- **C22.** Between the light lines the closed-form dispersion function of three-layer slabs is
the general one times a factor that does not vanish, for both polarisations; so both vanish at the
same frequencies. -/
theorem C22_three_layers (pol : Pol) (omega g e1 e2 e3 d : ℝ) (h1 : e1 * omega ^ 2 < g ^ 2)
    (h2 : g ^ 2 < e2 * omega ^ 2) (h3 : e3 * omega ^ 2 < g ^ 2) (he1 : e1 ≠ 0) (he2 : e2 ≠ 0)
    (he3 : e3 ≠ 0) :
    (∃ c : ℂ, c ≠ 0 ∧ d22Three pol omega g e1 e2 e3 d = c * d22General pol omega g [e1, e2, e3] [d]) ∧
    (d22 pol omega g [e1, e2, e3] [d] = 0 ↔ d22General pol omega g [e1, e2, e3] [d] = 0) := by
  have w1 := wgt_ne_zero pol omega g e1 h1.ne he1
  have w2 := wgt_ne_zero pol omega g e2 h2.ne' he2
  have w3 := wgt_ne_zero pol omega g e3 h3.ne he3
  have key : d22Three pol omega g e1 e2 e3 d =
      (-2 * Complex.I * (wgt pol omega g e2 * wgt pol omega g e3)) *
        d22General pol omega g [e1, e2, e3] [d] := by
    have hg := d22General_eq pol omega g e1 e3 [(e2, d)] (by
      intro e he
      simp only [List.map_cons, List.map_nil, List.cons_append, List.nil_append, List.mem_cons,
        List.not_mem_nil, or_false] at he
      rcases he with rfl | rfl | rfl <;> assumption)
    simp only [List.map_cons, List.map_nil, List.cons_append, List.nil_append] at hg
    rw [hg]
    have c1 : chi omega g e1 = Complex.I * ((√(g ^ 2 - e1 * omega ^ 2) : ℝ) : ℂ) := chi_of_lt _ _ _ h1
    have c3 : chi omega g e3 = Complex.I * ((√(g ^ 2 - e3 * omega ^ 2) : ℝ) : ℂ) := chi_of_lt _ _ _ h3
    have c2 : chi omega g e2 = ((√(-g ^ 2 + e2 * omega ^ 2) : ℝ) : ℂ) := by
      rw [chi_of_le _ _ _ h2.le]; congr 2; ring
    have gen : ∀ w1 w2 w3 x : ℂ, w2 ≠ 0 → w3 ≠ 0 →
        w2 * (w1 + w3) * (-Complex.I * Complex.cos (x * d)) + (w1 * w3 + w2 ^ 2) * (-Complex.sin (x * d)) =
          (-2 * Complex.I * (w2 * w3)) * (pInv w3 * ((M2.one * cMat w2 x d) * pMat w1)).d := by
      intro w1 w2 w3 x n2 n3
      have I2 := Complex.I_sq
      simp only [M2.one_mul, M2.mul_d, M2.mul_b, pInv, cMat, pMat]
      field_simp
      linear_combination (-(w1 * w3 + w2 ^ 2) * Complex.sin (x * d)) * I2
    refine Eq.trans ?_ (gen _ _ _ (chi omega g e2) w2 w3)
    cases pol
    · simp only [d22Three, chis3, ← c1, ← c2, ← c3, wgt]
    · simp only [d22Three, chis3, ← c1, ← c2, ← c3, wgt]
      ring
  have hc : (-2 * Complex.I * (wgt pol omega g e2 * wgt pol omega g e3)) ≠ 0 :=
    mul_ne_zero (mul_ne_zero (by norm_num) Complex.I_ne_zero) (mul_ne_zero w2 w3)
  refine ⟨⟨_, hc, key⟩, ?_⟩
  change d22Three pol omega g e1 e2 e3 d = 0 ↔ _
  rw [key, mul_eq_zero]
  exact or_iff_right hc

/-- A silicon slab (`eps = 12`) in air with `omega = 2`, `g = 3`. -/
example : (1 : ℝ) * 2 ^ 2 < 3 ^ 2 ∧ (3 : ℝ) ^ 2 < 12 * 2 ^ 2 := by norm_num

theorem sTprod_eq (pol : Pol) (omega g e1 e2 d : ℝ) (m : M2) :
    sTprod pol omega g e1 e2 d m = sMat (wgt pol omega g e1) (wgt pol omega g e2) *
      (tMat (chi omega g e1) d * (tMat (chi omega g e1) d * m)) := by
  rw [← M2.mul_assoc (tMat _ _), tMat_sq]
  have e1' : Complex.exp (Complex.I * (chi omega g e1 * d)) = Complex.exp (Complex.I * chi omega g e1 * d) := by
    congr 1; ring
  have e2' : Complex.exp (-Complex.I * (chi omega g e1 * d)) = Complex.exp (-Complex.I * chi omega g e1 * d) := by
    congr 1; ring
  rw [e1', e2']
  ext <;> simp [sTprod] <;> ring

theorem vecLoop_eq (pol : Pol) (omega g : ℝ) (ls : List (ℝ × ℝ)) (eN : ℝ) (m : M2) :
    vecLoop pol omega g (ls.map Prod.fst ++ [eN]) (ls.map Prod.snd) m =
      ((sMats pol omega g (ls.map Prod.fst ++ [eN])).zip
        (List.zipWith (fun e d => tMat (chi omega g e) d) (ls.map Prod.fst) (ls.map Prod.snd))).foldl
      (fun D st => st.1 * (st.2 * (st.2 * D))) m := by
  induction ls generalizing m with
  | nil => simp [vecLoop, sMats]
  | cons l ls ih =>
    cases ls with
    | nil => simp [vecLoop, sMats, sTprod_eq]
    | cons l' ls =>
      have := ih (sTprod pol omega g l.1 l'.1 l.2 m)
      simp only [List.map_cons, List.cons_append, vecLoop] at this ⊢
      rw [this, sTprod_eq]
      simp [sMats]

/-- **C22.** The vectorised dispersion function used to locate sign changes equals the one used by
the root finder, at every frequency and for every stack. -/
theorem C22_vectorised (pol : Pol) (omega g e0 eN : ℝ) (ls : List (ℝ × ℝ)) :
    d22Vec pol omega g (e0 :: ls.map Prod.fst ++ [eN]) (ls.map Prod.snd) =
      d22 pol omega g (e0 :: ls.map Prod.fst ++ [eN]) (ls.map Prod.snd) := by
  have hgen : d22VecGeneral pol omega g (e0 :: ls.map Prod.fst ++ [eN]) (ls.map Prod.snd) =
      d22General pol omega g (e0 :: ls.map Prod.fst ++ [eN]) (ls.map Prod.snd) := by
    cases ls with
    | nil => simp [d22VecGeneral, d22General, sMats, vecLoop]
    | cons l ls =>
      have := vecLoop_eq pol omega g (l :: ls) eN (sMat (wgt pol omega g e0) (wgt pol omega g l.1))
      simp only [List.map_cons, List.cons_append] at this
      have ht : tMats omega g (e0 :: (l :: ls).map Prod.fst ++ [eN]) ((l :: ls).map Prod.snd) =
          List.zipWith (fun e d => tMat (chi omega g e) d) ((l :: ls).map Prod.fst) ((l :: ls).map Prod.snd) := by
        unfold tMats
        rw [List.cons_append, List.tail_cons, List.dropLast_concat]
      unfold d22General
      rw [ht]
      simp only [List.map_cons, List.cons_append, d22VecGeneral]
      rw [this]
      simp [sMats]
  unfold d22Vec d22
  split
  · rfl
  · exact hgen

/-! ### C23 -/

/-- **C23.** Splitting a layer of thickness `d1 + d2` into two of the same permittivity leaves the
dispersion function unchanged, wherever the layer stands in a stack of any size (away from light
lines, where the weights vanish and numpy divides by zero). -/
theorem C23_split (pol : Pol) (omega g e0 eN e d1 d2 : ℝ) (l1 l2 : List (ℝ × ℝ))
    (hw : ∀ x ∈ e0 :: (l1 ++ (e, d1) :: l2).map Prod.fst ++ [eN], x * omega ^ 2 ≠ g ^ 2 ∧ x ≠ 0) :
    d22General pol omega g (e0 :: (l1 ++ (e, d1) :: (e, d2) :: l2).map Prod.fst ++ [eN])
        ((l1 ++ (e, d1) :: (e, d2) :: l2).map Prod.snd) =
      d22General pol omega g (e0 :: (l1 ++ (e, d1 + d2) :: l2).map Prod.fst ++ [eN])
        ((l1 ++ (e, d1 + d2) :: l2).map Prod.snd) := by
  have hw1 : ∀ x ∈ e0 :: (l1 ++ (e, d1) :: l2).map Prod.fst ++ [eN], wgt pol omega g x ≠ 0 :=
    fun x hx => wgt_ne_zero pol omega g x (hw x hx).1 (hw x hx).2
  rw [d22General_eq, d22General_eq]
  · rw [cProd_append, cProd_append]
    have he : wgt pol omega g e ≠ 0 := hw1 e (by simp)
    simp only [cProd]
    rw [M2.mul_assoc (cProd pol omega g l2), cMat_add _ _ _ _ he]
  · intro x hx
    apply hw1
    simp only [List.map_append, List.map_cons, List.cons_append, List.append_assoc, List.mem_cons,
      List.mem_append] at hx ⊢
    tauto
  · intro x hx
    apply hw1
    simp only [List.map_append, List.map_cons, List.cons_append, List.append_assoc, List.mem_cons,
      List.mem_append] at hx ⊢
    tauto

/-- **C23.** The same for the zeros of the function actually solved, which switches to the closed
form when the merged stack has three layers. -/
theorem C23_split_zeros (pol : Pol) (omega g e0 eN e d1 d2 : ℝ) (l1 l2 : List (ℝ × ℝ))
    (hw : ∀ x ∈ e0 :: (l1 ++ (e, d1) :: l2).map Prod.fst ++ [eN], x * omega ^ 2 ≠ g ^ 2 ∧ x ≠ 0)
    (hlow : e0 * omega ^ 2 < g ^ 2) (hup : eN * omega ^ 2 < g ^ 2) (hcore : g ^ 2 < e * omega ^ 2) :
    d22 pol omega g (e0 :: (l1 ++ (e, d1) :: (e, d2) :: l2).map Prod.fst ++ [eN])
        ((l1 ++ (e, d1) :: (e, d2) :: l2).map Prod.snd) = 0 ↔
      d22 pol omega g (e0 :: (l1 ++ (e, d1 + d2) :: l2).map Prod.fst ++ [eN])
        ((l1 ++ (e, d1 + d2) :: l2).map Prod.snd) = 0 := by
  have hs := C23_split pol omega g e0 eN e d1 d2 l1 l2 hw
  have hL : d22 pol omega g (e0 :: (l1 ++ (e, d1) :: (e, d2) :: l2).map Prod.fst ++ [eN])
        ((l1 ++ (e, d1) :: (e, d2) :: l2).map Prod.snd) =
      d22General pol omega g (e0 :: (l1 ++ (e, d1) :: (e, d2) :: l2).map Prod.fst ++ [eN])
        ((l1 ++ (e, d1) :: (e, d2) :: l2).map Prod.snd) := by
    unfold d22
    split
    · rename_i h _
      have := congrArg List.length h
      simp at this
      omega
    · rfl
  rw [hL, hs]
  by_cases hnil : l1 = [] ∧ l2 = []
  · obtain ⟨rfl, rfl⟩ := hnil
    have h0 := (hw e0 (by simp)).2
    have hN := (hw eN (by simp)).2
    have he := (hw e (by simp)).2
    exact (C22_three_layers pol omega g e0 e eN (d1 + d2) hlow hcore hup h0 he hN).2.symm
  · have hR : d22 pol omega g (e0 :: (l1 ++ (e, d1 + d2) :: l2).map Prod.fst ++ [eN])
          ((l1 ++ (e, d1 + d2) :: l2).map Prod.snd) =
        d22General pol omega g (e0 :: (l1 ++ (e, d1 + d2) :: l2).map Prod.fst ++ [eN])
          ((l1 ++ (e, d1 + d2) :: l2).map Prod.snd) := by
      unfold d22
      split
      · rename_i h _
        exfalso
        apply hnil
        have := congrArg List.length h
        simp at this
        constructor <;> apply List.length_eq_zero_iff.mp <;> omega
      · rfl
    rw [hR]

/-- A two-layer stack with claddings meets the hypotheses. -/
example : ∀ x ∈ (1 : ℝ) :: (([(4, 1)] : List (ℝ × ℝ)) ++ (12, (1/2 : ℝ)) :: []).map Prod.fst ++ [2],
    x * (2 : ℝ) ^ 2 ≠ (3 : ℝ) ^ 2 ∧ x ≠ 0 := by
  intro x hx
  simp only [List.map_append, List.map_cons, List.map_nil, List.cons_append, List.nil_append,
    List.mem_cons, List.not_mem_nil, or_false] at hx
  rcases hx with rfl | rfl | rfl | rfl <;> norm_num

/-! ### C24 -/

/-- **C24.** Turning the stack upside down multiplies the dispersion function by the ratio of the
claddings' weights, which is neither zero nor infinite; so the zeros are unchanged. -/
theorem C24_reverse (pol : Pol) (omega g e0 eN : ℝ) (ls : List (ℝ × ℝ))
    (hw : ∀ x ∈ e0 :: ls.map Prod.fst ++ [eN], x * omega ^ 2 ≠ g ^ 2 ∧ x ≠ 0) :
    ∃ c : ℂ, c ≠ 0 ∧
      d22General pol omega g (e0 :: ls.map Prod.fst ++ [eN]).reverse (ls.map Prod.snd).reverse =
        c * d22General pol omega g (e0 :: ls.map Prod.fst ++ [eN]) (ls.map Prod.snd) := by
  have hw1 : ∀ x ∈ e0 :: ls.map Prod.fst ++ [eN], wgt pol omega g x ≠ 0 :=
    fun x hx => wgt_ne_zero pol omega g x (hw x hx).1 (hw x hx).2
  have n0 := hw1 e0 (by simp)
  have nN := hw1 eN (by simp)
  refine ⟨wgt pol omega g eN / wgt pol omega g e0, div_ne_zero nN n0, ?_⟩
  have e1 : (e0 :: ls.map Prod.fst ++ [eN]).reverse = eN :: ls.reverse.map Prod.fst ++ [e0] := by
    simp
  have e2 : (ls.map Prod.snd).reverse = ls.reverse.map Prod.snd := by simp
  rw [e1, e2, d22General_eq, d22General_eq, cProd_reverse]
  · simp only [M2.mul_d, M2.mul_b, pInv, pMat, M2.flip]
    field_simp
    ring
  · intro x hx; exact hw1 x hx
  · intro x hx
    apply hw1
    rw [← e1, List.mem_reverse] at hx
    exact hx

/-- **C24.** The zeros of the function actually solved are unchanged as well. -/
theorem C24_reverse_zeros (pol : Pol) (omega g e0 eN : ℝ) (ls : List (ℝ × ℝ))
    (hw : ∀ x ∈ e0 :: ls.map Prod.fst ++ [eN], x * omega ^ 2 ≠ g ^ 2 ∧ x ≠ 0) :
    d22 pol omega g (e0 :: ls.map Prod.fst ++ [eN]).reverse (ls.map Prod.snd).reverse = 0 ↔
      d22 pol omega g (e0 :: ls.map Prod.fst ++ [eN]) (ls.map Prod.snd) = 0 := by
  by_cases h3 : ∃ l, ls = [l]
  · obtain ⟨l, rfl⟩ := h3
    simp only [List.map_cons, List.map_nil, List.cons_append, List.nil_append, List.reverse_cons,
      List.reverse_nil]
    change d22Three pol omega g eN l.1 e0 l.2 = 0 ↔ d22Three pol omega g e0 l.1 eN l.2 = 0
    have : d22Three pol omega g eN l.1 e0 l.2 = d22Three pol omega g e0 l.1 eN l.2 := by
      cases pol <;> simp only [d22Three, chis3] <;> ring
    rw [this]
  · have key : ∀ eps ds : List ℝ, eps.length ≠ 3 → d22 pol omega g eps ds = d22General pol omega g eps ds := by
      intro eps ds hne
      unfold d22
      split
      · rename_i h _; exact absurd rfl hne
      · rfl
    have hlen : (e0 :: ls.map Prod.fst ++ [eN]).length ≠ 3 := by
      intro h
      apply h3
      simp at h
      exact List.length_eq_one_iff.mp h
    rw [key _ _ hlen, key _ _ (by rw [List.length_reverse]; exact hlen)]
    obtain ⟨c, hc, e⟩ := C24_reverse pol omega g e0 eN ls hw
    rw [e, mul_eq_zero]
    exact or_iff_right hc

/-! ### C25 -/

/-- The interface conditions between two neighbouring layers `(eps, d)` with coefficients `ab`,
coefficients being referred to the middle of each layer: both tangential components agree at the
top of the lower and at the bottom of the upper layer. -/
def Interface (pol : Pol) (omega g : ℝ) (lo up : (ℝ × ℝ) × (ℂ × ℂ)) : Prop :=
  fieldSum (chi omega g lo.1.1) lo.2 (lo.1.2 / 2) = fieldSum (chi omega g up.1.1) up.2 (-(up.1.2 / 2)) ∧
  fieldDiff (wgt pol omega g lo.1.1) (chi omega g lo.1.1) lo.2 (lo.1.2 / 2) =
    fieldDiff (wgt pol omega g up.1.1) (chi omega g up.1.1) up.2 (-(up.1.2 / 2))

theorem tMat_zero (x : ℂ) : tMat x 0 = M2.one := by ext <;> simp [tMat, M2.one]

theorem interface_of (pol : Pol) (omega g : ℝ) (lo up : ℝ × ℝ) (ab : ℂ × ℂ)
    (hw : wgt pol omega g up.1 ≠ 0) :
    Interface pol omega g (lo, ab) (up, (tMat (chi omega g up.1) up.2).app
      ((sMat (wgt pol omega g lo.1) (wgt pol omega g up.1)).app ((tMat (chi omega g lo.1) lo.2).app ab))) := by
  have e1 : Complex.I * chi omega g lo.1 * ((lo.2 / 2 : ℝ) : ℂ) = Complex.I * chi omega g lo.1 * lo.2 / 2 := by
    push_cast; ring
  have e2 : Complex.I * chi omega g up.1 * ((-(up.2 / 2) : ℝ) : ℂ) = -(Complex.I * chi omega g up.1 * up.2 / 2) := by
    push_cast; ring
  have e3 : -Complex.I * chi omega g lo.1 * lo.2 / 2 = -(Complex.I * chi omega g lo.1 * lo.2 / 2) := by ring
  have e4 : -Complex.I * chi omega g up.1 * up.2 / 2 = -(Complex.I * chi omega g up.1 * up.2 / 2) := by ring
  unfold Interface fieldSum fieldDiff
  simp only [M2.app, tMat, sMat]
  rw [e1, e2, e3, e4, neg_neg]
  have k : Complex.exp (Complex.I * chi omega g up.1 * up.2 / 2) *
      Complex.exp (-(Complex.I * chi omega g up.1 * up.2 / 2)) = 1 := by
    rw [← Complex.exp_add]; simp
  generalize Complex.exp (Complex.I * chi omega g up.1 * up.2 / 2) = E at *
  generalize Complex.exp (-(Complex.I * chi omega g up.1 * up.2 / 2)) = E' at *
  generalize Complex.exp (Complex.I * chi omega g lo.1 * lo.2 / 2) = F at *
  generalize Complex.exp (-(Complex.I * chi omega g lo.1 * lo.2 / 2)) = F' at *
  generalize wgt pol omega g lo.1 = w1 at *
  generalize wgt pol omega g up.1 = w2 at *
  obtain ⟨a, b⟩ := ab
  constructor
  · have : (2 : ℂ) * w2 ≠ 0 := mul_ne_zero two_ne_zero hw
    field_simp
    ring_nf
    linear_combination (-(w2 * (a * F + b * F'))) * k
  · field_simp
    ring_nf
    linear_combination (-(w1 * (a * F - b * F'))) * k

theorem M2.app_mul (x y : M2) (v : ℂ × ℂ) : (x * y).app v = x.app (y.app v) := by
  simp only [M2.app, M2.mul_a, M2.mul_b, M2.mul_c, M2.mul_d]
  refine Prod.ext ?_ ?_ <;> simp only <;> ring

theorem M2.one_app (v : ℂ × ℂ) : M2.one.app v = v := by simp [M2.app, M2.one]

theorem abLoop_chain (pol : Pol) (omega g : ℝ) (ls : List (ℝ × ℝ)) (l : ℝ × ℝ) (eN : ℝ) (ab : ℂ × ℂ)
    (hw : nonDeg pol omega g (((l :: ls).map Prod.fst) ++ [eN])) :
    let out := abLoop (sMats pol omega g ((l :: ls).map Prod.fst ++ [eN]))
      (List.zipWith (fun e d => tMat (chi omega g e) d) ((l :: ls).map Prod.fst) ((l :: ls).map Prod.snd)) ab
    out.length = ls.length + 1 ∧
    List.IsChain (Interface pol omega g) (((l :: ls) ++ [(eN, 0)]).zip (ab :: out)) ∧
    ∃ last, out.getLast? = some last ∧
      ∀ s : M2, ∀ v : ℂ × ℂ, (tMat (chi omega g l.1) l.2).app (s.app v) = ab →
        last = (((sMats pol omega g ((l :: ls).map Prod.fst ++ [eN])).zip
      (List.zipWith (fun e d => tMat (chi omega g e) d) ((l :: ls).map Prod.fst) ((l :: ls).map Prod.snd))).foldl
      (fun D st => st.1 * (st.2 * (st.2 * D))) s).app v := by
  induction ls generalizing l ab with
  | nil =>
    have h2 : wgt pol omega g eN ≠ 0 := hw _ (by simp)
    have hi := interface_of pol omega g l (eN, 0) ab h2
    simp only [tMat_zero, M2.one_app] at hi
    intro out
    simp only [out, sMats, List.map_cons, List.map_nil, List.cons_append, List.nil_append, List.tail_cons,
      List.zipWith_cons_cons, List.zipWith_nil_right, abLoop, List.length_cons, List.length_nil,
      List.zip_cons_cons, List.zip_nil_left, List.foldl_cons, List.foldl_nil, List.getLast?_singleton]
    refine ⟨trivial, ?_, _, rfl, ?_⟩
    · rw [List.isChain_cons_cons]; exact ⟨hi, List.isChain_singleton _⟩
    · intro s v h
      rw [M2.app_mul, M2.app_mul, M2.app_mul, h]
  | cons l' ls ih =>
    have h2 : wgt pol omega g l'.1 ≠ 0 := hw _ (by simp)
    have hw' : nonDeg pol omega g (((l' :: ls).map Prod.fst) ++ [eN]) := by
      intro e he; exact hw e (by simp only [List.map_cons, List.cons_append, List.mem_cons] at he ⊢; tauto)
    have hi := interface_of pol omega g l l' ab h2
    obtain ⟨i1, i2, last, i3, i4⟩ := ih l' ((tMat (chi omega g l'.1) l'.2).app
      ((sMat (wgt pol omega g l.1) (wgt pol omega g l'.1)).app ((tMat (chi omega g l.1) l.2).app ab))) hw'
    intro out
    have hout : out = (tMat (chi omega g l'.1) l'.2).app
      ((sMat (wgt pol omega g l.1) (wgt pol omega g l'.1)).app ((tMat (chi omega g l.1) l.2).app ab)) ::
      abLoop (sMats pol omega g ((l' :: ls).map Prod.fst ++ [eN]))
      (List.zipWith (fun e d => tMat (chi omega g e) d) ((l' :: ls).map Prod.fst) ((l' :: ls).map Prod.snd))
      ((tMat (chi omega g l'.1) l'.2).app
      ((sMat (wgt pol omega g l.1) (wgt pol omega g l'.1)).app ((tMat (chi omega g l.1) l.2).app ab))) := by
      simp [out, sMats, abLoop]
    refine ⟨?_, ?_, last, ?_, ?_⟩
    · rw [hout, List.length_cons, i1]; rfl
    · rw [hout]
      rw [List.cons_append, List.cons_append, List.zip_cons_cons, List.zip_cons_cons, List.isChain_cons_cons]
      exact ⟨hi, i2⟩
    · rw [hout, List.getLast?_cons, i3]; rfl
    · intro s v h
      have := i4 (sMat (wgt pol omega g l.1) (wgt pol omega g l'.1) *
        (tMat (chi omega g l.1) l.2 * (tMat (chi omega g l.1) l.2 * s))) v (by
          rw [M2.app_mul, M2.app_mul, M2.app_mul, h])
      rw [this]
      simp [sMats]

/-- **C25.** `AB_matrices` succeeds for every stack with at least one layer, returns one pair per
layer, starts with no incoming wave (`A = 0`, `B = 1`) in the lower cladding, makes both tangential
components continuous at every interface, and its last `B` (the growing wave in the upper cladding)
is the dispersion function: it vanishes for guided modes. -/
theorem C25_interfaces (pol : Pol) (omega g e0 eN : ℝ) (ls : List (ℝ × ℝ)) (hne : ls ≠ [])
    (hw : ∀ x ∈ e0 :: ls.map Prod.fst ++ [eN], x * omega ^ 2 ≠ g ^ 2 ∧ x ≠ 0) :
    ∃ abs, abMatrices pol omega g (e0 :: ls.map Prod.fst ++ [eN]) (ls.map Prod.snd) = .ok abs ∧
      abs.length = ls.length + 2 ∧ abs[0]? = some (0, 1) ∧
      List.IsChain (Interface pol omega g) (((e0, 0) :: ls ++ [(eN, 0)]).zip abs) ∧
      ∃ A, abs.getLast? = some (A,
        d22General pol omega g (e0 :: ls.map Prod.fst ++ [eN]) (ls.map Prod.snd)) := by
  obtain ⟨l, ls, rfl⟩ := List.exists_cons_of_ne_nil hne
  have hw1 : ∀ x ∈ e0 :: (l :: ls).map Prod.fst ++ [eN], wgt pol omega g x ≠ 0 :=
    fun x hx => wgt_ne_zero pol omega g x (hw x hx).1 (hw x hx).2
  have hw' : nonDeg pol omega g (((l :: ls).map Prod.fst) ++ [eN]) := by
    intro e he; exact hw1 e (by simp only [List.map_cons, List.cons_append, List.mem_cons] at he ⊢; tauto)
  have ht : tMats omega g (e0 :: (l :: ls).map Prod.fst ++ [eN]) ((l :: ls).map Prod.snd) =
      List.zipWith (fun e d => tMat (chi omega g e) d) ((l :: ls).map Prod.fst) ((l :: ls).map Prod.snd) := by
    unfold tMats
    rw [List.cons_append, List.tail_cons, List.dropLast_concat]
  have hs : sMats pol omega g (e0 :: (l :: ls).map Prod.fst ++ [eN]) =
      sMat (wgt pol omega g e0) (wgt pol omega g l.1) ::
        sMats pol omega g ((l :: ls).map Prod.fst ++ [eN]) := by
    simp [sMats]
  set first := (tMat (chi omega g l.1) l.2).app ((sMat (wgt pol omega g e0) (wgt pol omega g l.1)).app (0, 1))
    with hfirst
  obtain ⟨c1, c2, last, c3, c4⟩ := abLoop_chain pol omega g ls l eN first hw'
  refine ⟨(0, 1) :: first :: abLoop (sMats pol omega g ((l :: ls).map Prod.fst ++ [eN]))
      (List.zipWith (fun e d => tMat (chi omega g e) d) ((l :: ls).map Prod.fst) ((l :: ls).map Prod.snd)) first,
      ?_, ?_, rfl, ?_, ?_⟩
  · unfold abMatrices
    rw [hs, ht]
    simp only [List.map_cons, List.zipWith_cons_cons]
    rfl
  · simp only [List.length_cons] at c1 ⊢; rw [c1]
  · rw [List.cons_append, List.cons_append, List.zip_cons_cons, List.zip_cons_cons, List.isChain_cons_cons]
    refine ⟨?_, c2⟩
    have hi := interface_of pol omega g (e0, 0) l (0, 1) (hw' _ (by simp))
    simp only [tMat_zero, M2.one_app] at hi
    exact hi
  · have e := c4 (sMat (wgt pol omega g e0) (wgt pol omega g l.1)) (0, 1) rfl
    refine ⟨last.1, ?_⟩
    have h2 : last.2 = d22General pol omega g (e0 :: (l :: ls).map Prod.fst ++ [eN]) ((l :: ls).map Prod.snd) := by
      unfold d22General
      rw [hs, ht, e]
      simp [M2.app]
    rw [← h2, List.getLast?_cons, List.getLast?_cons, c3]
    rfl

/-- **C25.** Without layers between the claddings the call raises `IndexError`. -/
theorem C25_no_layers (pol : Pol) (omega g e0 eN : ℝ) :
    abMatrices pol omega g [e0, eN] [] = .error .indexError := by
  simp [abMatrices, sMats, tMats]

/-! ### reality of the dispersion function -/

theorem cos_chi_im (omega g e d : ℝ) : (Complex.cos (chi omega g e * d)).im = 0 := by
  unfold chi
  split
  · rw [← Complex.ofReal_mul, ← Complex.ofReal_cos]; exact Complex.ofReal_im _
  · rw [show Complex.I * ((√(-(e * omega ^ 2 - g ^ 2)) : ℝ) : ℂ) * (d : ℂ) =
      ((√(-(e * omega ^ 2 - g ^ 2)) * d : ℝ) : ℂ) * Complex.I by push_cast; ring, Complex.cos_mul_I,
      ← Complex.ofReal_cosh]
    exact Complex.ofReal_im _

theorem sin_chi (omega g e d : ℝ) : ∃ p q : ℝ,
    Complex.sin (chi omega g e * d) = p * chi omega g e ∧
      chi omega g e * Complex.sin (chi omega g e * d) = q := by
  unfold chi
  split
  · rename_i h
    by_cases h0 : √(e * omega ^ 2 - g ^ 2) = 0
    · exact ⟨0, 0, by rw [h0]; simp, by rw [h0]; simp⟩
    · refine ⟨Real.sin (√(e * omega ^ 2 - g ^ 2) * d) / √(e * omega ^ 2 - g ^ 2),
        √(e * omega ^ 2 - g ^ 2) * Real.sin (√(e * omega ^ 2 - g ^ 2) * d), ?_, ?_⟩
      · rw [← Complex.ofReal_mul, ← Complex.ofReal_sin, ← Complex.ofReal_mul]
        congr 1; field_simp
      · push_cast; rfl
  · rename_i h
    have hs : √(-(e * omega ^ 2 - g ^ 2)) ≠ 0 := (Real.sqrt_pos.mpr (by linarith)).ne'
    have e1 : Complex.I * ((√(-(e * omega ^ 2 - g ^ 2)) : ℝ) : ℂ) * (d : ℂ) =
      ((√(-(e * omega ^ 2 - g ^ 2)) * d : ℝ) : ℂ) * Complex.I := by push_cast; ring
    refine ⟨Real.sinh (√(-(e * omega ^ 2 - g ^ 2)) * d) / √(-(e * omega ^ 2 - g ^ 2)),
      -(√(-(e * omega ^ 2 - g ^ 2)) * Real.sinh (√(-(e * omega ^ 2 - g ^ 2)) * d)), ?_, ?_⟩
    · rw [e1, Complex.sin_mul_I, ← Complex.ofReal_sinh]
      have : ((√(-(e * omega ^ 2 - g ^ 2)) : ℝ) : ℂ) ≠ 0 := by exact_mod_cast hs
      push_cast
      field_simp
    · rw [e1, Complex.sin_mul_I, ← Complex.ofReal_sinh]
      push_cast
      linear_combination (((√(-(e * omega ^ 2 - g ^ 2)) : ℝ) : ℂ) *
        Complex.sinh (((√(-(e * omega ^ 2 - g ^ 2)) : ℝ) : ℂ) * d)) * Complex.I_sq

/-- Entries of a characteristic matrix: diagonal real, off-diagonal imaginary. -/
def CReal (m : M2) : Prop :=
  m.a.im = 0 ∧ m.d.im = 0 ∧ m.b.re = 0 ∧ m.c.re = 0

theorem CReal.mul {x y : M2} (hx : CReal x) (hy : CReal y) : CReal (x * y) := by
  obtain ⟨a1, a2, a3, a4⟩ := hx
  obtain ⟨b1, b2, b3, b4⟩ := hy
  refine ⟨?_, ?_, ?_, ?_⟩ <;> simp [a1, a2, a3, a4, b1, b2, b3, b4]

theorem cMat_CReal (pol : Pol) (omega g e d : ℝ) (hw : wgt pol omega g e ≠ 0) :
    CReal (cMat (wgt pol omega g e) (chi omega g e) d) := by
  obtain ⟨p, q, hp, hq⟩ := sin_chi omega g e d
  refine ⟨cos_chi_im _ _ _ _, cos_chi_im _ _ _ _, ?_, ?_⟩
  · simp only [cMat]
    cases pol
    · have hx : chi omega g e ≠ 0 := hw
      rw [hp]
      simp only [wgt]
      rw [show Complex.I * ((p : ℂ) * chi omega g e) / chi omega g e = Complex.I * p by field_simp]
      simp
    · have hx : chi omega g e / (e : ℂ) ≠ 0 := hw
      have hx1 : chi omega g e ≠ 0 := fun h => hx (by rw [h]; simp)
      have hx2 : (e : ℂ) ≠ 0 := fun h => hx (by rw [h]; simp)
      rw [hp]
      simp only [wgt]
      rw [show Complex.I * ((p : ℂ) * chi omega g e) / (chi omega g e / e) = Complex.I * ((p * e : ℝ) : ℂ) by
        push_cast; field_simp]
      rw [Complex.I_mul_re]; simp
  · simp only [cMat]
    cases pol
    · simp only [wgt]
      rw [mul_assoc, hq]; simp
    · simp only [wgt]
      rw [show Complex.I * (chi omega g e / (e : ℂ)) * Complex.sin (chi omega g e * d) =
        Complex.I * ((chi omega g e * Complex.sin (chi omega g e * d)) / e) by ring, hq,
        ← Complex.ofReal_div]
      simp

theorem cProd_CReal (pol : Pol) (omega g : ℝ) (ls : List (ℝ × ℝ))
    (hw : ∀ l ∈ ls, wgt pol omega g l.1 ≠ 0) : CReal (cProd pol omega g ls) := by
  induction ls with
  | nil => refine ⟨?_, ?_, ?_, ?_⟩ <;> simp [cProd, M2.one]
  | cons l ls ih =>
    exact (ih fun x hx => hw x (by simp [hx])).mul (cMat_CReal pol omega g l.1 l.2 (hw l (by simp)))

/-- **C26.** Between the light lines the dispersion function is real, so nothing is lost by
searching sign changes of its real part: every zero of the real part is a zero of the function. -/
theorem C26_real (pol : Pol) (omega g e0 eN : ℝ) (ls : List (ℝ × ℝ))
    (hw : ∀ x ∈ e0 :: ls.map Prod.fst ++ [eN], x * omega ^ 2 ≠ g ^ 2 ∧ x ≠ 0)
    (h0 : e0 * omega ^ 2 < g ^ 2) (hN : eN * omega ^ 2 < g ^ 2) :
    (d22General pol omega g (e0 :: ls.map Prod.fst ++ [eN]) (ls.map Prod.snd)).im = 0 := by
  have hw1 : ∀ x ∈ e0 :: ls.map Prod.fst ++ [eN], wgt pol omega g x ≠ 0 :=
    fun x hx => wgt_ne_zero pol omega g x (hw x hx).1 (hw x hx).2
  have imag : ∀ e : ℝ, e * omega ^ 2 < g ^ 2 → ∃ k : ℝ, wgt pol omega g e = Complex.I * k := by
    intro e he
    cases pol
    · exact ⟨_, chi_of_lt omega g e he⟩
    · refine ⟨√(g ^ 2 - e * omega ^ 2) / e, ?_⟩
      simp only [wgt]; rw [chi_of_lt omega g e he]; push_cast; ring
  obtain ⟨k0, hk0⟩ := imag e0 h0
  obtain ⟨kN, hkN⟩ := imag eN hN
  rw [d22General_eq pol omega g e0 eN ls hw1]
  obtain ⟨c1, c2, c3, c4⟩ := cProd_CReal pol omega g ls (fun l hl => hw1 l.1 (by
    simp only [List.cons_append, List.mem_cons, List.mem_append, List.mem_map]
    exact Or.inr (Or.inl ⟨l, hl, rfl⟩)))
  have hkN0 : kN ≠ 0 := by
    intro h; apply hw1 eN (by simp); rw [hkN, h]; simp
  rw [hk0, hkN]
  simp only [M2.mul_d, M2.mul_b, pInv, pMat]
  have e1 : -(1 / (2 * (Complex.I * (kN : ℂ)))) = Complex.I * ((1 / (2 * kN) : ℝ) : ℂ) := by
    have hc : (kN : ℂ) ≠ 0 := by exact_mod_cast hkN0
    have hI := Complex.I_ne_zero
    push_cast
    field_simp
    rw [Complex.I_sq]
  rw [e1]
  set P := cProd pol omega g ls
  simp [c1, c2, c3, c4]

/-- **C26.** The closed form for three layers is real as well. -/
theorem C26_real_three (pol : Pol) (omega g e1 e2 e3 d : ℝ) :
    (d22Three pol omega g e1 e2 e3 d).im = 0 := by
  generalize ha : √(g ^ 2 - e1 * omega ^ 2) = a
  generalize hb : √(-g ^ 2 + e2 * omega ^ 2) = b
  generalize hc : √(g ^ 2 - e3 * omega ^ 2) = c
  have I2 := Complex.I_sq
  cases pol
  · have : d22Three .te omega g e1 e2 e3 d =
        ((b * (a + c) * Real.cos (b * d) - (b ^ 2 - a * c) * Real.sin (b * d) : ℝ) : ℂ) := by
      simp only [d22Three, chis3, ha, hb, hc]
      push_cast
      linear_combination (-(b * (a + c) * Complex.cos (b * d)) - a * c * Complex.sin (b * d)) * I2
    rw [this]; exact Complex.ofReal_im _
  · have : d22Three .tm omega g e1 e2 e3 d =
        ((b / e2 * (a / e1 + c / e3) * Real.cos (b * d) - ((b / e2) ^ 2 - a / e1 * c / e3) * Real.sin (b * d) : ℝ) : ℂ) := by
      simp only [d22Three, chis3, ha, hb, hc]
      push_cast
      linear_combination (-(b / e2 * (a / e1 + c / e3) * Complex.cos (b * d)) -
        a / e1 * c / e3 * Complex.sin (b * d)) * I2
    rw [this]; exact Complex.ofReal_im _

/-! ### C26: the root search -/

theorem omegaGrid_eq (lb ub step : ℝ) (hs : 0 < step) :
    omegaGrid lb ub step = (List.range (⌈(ub - lb) / step⌉₊ + 1)).map (samplePoint lb ub step) := by
  rw [List.range_succ, List.map_append]
  unfold omegaGrid
  congr 1
  · apply List.map_congr_left
    intro i hi
    have h1 := Nat.lt_ceil.mp (List.mem_range.mp hi)
    rw [lt_div_iff₀ hs] at h1
    unfold samplePoint
    rw [min_eq_left (by linarith)]
  · simp only [List.map_cons, List.map_nil, List.cons.injEq, and_true]
    have h1 := Nat.le_ceil ((ub - lb) / step)
    rw [div_le_iff₀ hs] at h1
    unfold samplePoint
    rw [min_eq_right (by linarith)]

open Classical in
theorem brackets_range' (D : ℝ → ℝ) (x : ℕ → ℝ) (a K : ℕ) :
    brackets D ((List.range' a (K + 1)).map x) =
      ((List.range' a K).filter fun i => decide (D (x i) * D (x (i + 1)) < 0)).map
        fun i => (x i, x (i + 1)) := by
  induction K generalizing a with
  | zero => simp [brackets]
  | succ K ih =>
    have h := ih (a + 1)
    simp only [List.range'_succ, List.map_cons, brackets, List.filter_cons] at h ⊢
    by_cases hD : D (x a) * D (x (a + 1)) < 0
    · rw [if_pos hD, h]; simp [hD]
    · rw [if_neg hD, h]; simp [hD]

open Classical in
/-- The positions at which the sampled function changes sign strictly. -/
noncomputable def signChanges (D : ℝ → ℝ) (lb ub step : ℝ) : List ℕ :=
  (List.range ⌈(ub - lb) / step⌉₊).filter fun i =>
    decide (D (samplePoint lb ub step i) * D (samplePoint lb ub step (i + 1)) < 0)

theorem guidedGivenG_eq (D : ℝ → ℝ) (fs : ℝ → ℝ → ℝ) (n : Nat) (lb ub step tol : ℝ) (hs : 0 < step) :
    guidedGivenG D fs n lb ub step tol =
      ((signChanges D (lb * (1 + tol)) (ub * (1 - tol)) step).take n).map fun i =>
        fs (samplePoint (lb * (1 + tol)) (ub * (1 - tol)) step i)
          (samplePoint (lb * (1 + tol)) (ub * (1 - tol)) step (i + 1)) := by
  unfold guidedGivenG
  rw [omegaGrid_eq _ _ _ hs, List.range_eq_range', brackets_range', ← List.map_take, List.map_map]
  unfold signChanges
  rw [List.range_eq_range']
  rfl

theorem samplePoint_mono (lb ub step : ℝ) (hs : 0 < step) {i j : ℕ} (h : i ≤ j) :
    samplePoint lb ub step i ≤ samplePoint lb ub step j := by
  unfold samplePoint
  apply min_le_min_right
  have : (i : ℝ) ≤ j := by exact_mod_cast h
  nlinarith

open Classical in
/-- **C26.** For a root finder that returns a zero inside every bracket with a sign change (the
contract of `brentq`): the frequencies reported for one wave vector are zeros of the dispersion
function, lie inside the search window, are strictly increasing, and there is one of them inside
every one of the first `n_modes` sampling intervals on which the function changes sign. -/
theorem C26_search (D : ℝ → ℝ) (fs : ℝ → ℝ → ℝ) (n : Nat) (lb ub step tol : ℝ) (hs : 0 < step)
    (hfs : ∀ x y, x ≤ y → D x * D y < 0 → x ≤ fs x y ∧ fs x y ≤ y ∧ D (fs x y) = 0) :
    let a := lb * (1 + tol)
    let b := ub * (1 - tol)
    let L := guidedGivenG D fs n lb ub step tol
    let changes := (List.range ⌈(b - a) / step⌉₊).filter fun i =>
      decide (D (samplePoint a b step i) * D (samplePoint a b step (i + 1)) < 0)
    (∀ om ∈ L, D om = 0 ∧ a ≤ om ∧ om ≤ b) ∧ L.Pairwise (· < ·) ∧
      L.length = min n changes.length ∧
      ∀ (k i : ℕ), (changes.take n)[k]? = some i → ∃ om, L[k]? = some om ∧
        samplePoint a b step i < om ∧ om < samplePoint a b step (i + 1) := by
  intro a b L changes
  have hL : L = (changes.take n).map fun i => fs (samplePoint a b step i) (samplePoint a b step (i + 1)) :=
    guidedGivenG_eq D fs n lb ub step tol hs
  have hchg : ∀ i ∈ changes, D (samplePoint a b step i) * D (samplePoint a b step (i + 1)) < 0 ∧
      i < ⌈(b - a) / step⌉₊ := by
    intro i hi
    simp only [changes, List.mem_filter, List.mem_range, decide_eq_true_eq] at hi
    exact ⟨hi.2, hi.1⟩
  have strict : ∀ i ∈ changes,
      samplePoint a b step i < fs (samplePoint a b step i) (samplePoint a b step (i + 1)) ∧
      fs (samplePoint a b step i) (samplePoint a b step (i + 1)) < samplePoint a b step (i + 1) ∧
      D (fs (samplePoint a b step i) (samplePoint a b step (i + 1))) = 0 := by
    intro i hi
    have h1 := (hchg i hi).1
    obtain ⟨f1, f2, f3⟩ := hfs _ _ (samplePoint_mono a b step hs (Nat.le_succ i)) h1
    refine ⟨lt_of_le_of_ne f1 ?_, lt_of_le_of_ne f2 ?_, f3⟩
    · intro h
      have : D (samplePoint a b step i) = 0 := by rw [h]; exact f3
      rw [this] at h1; simp at h1
    · intro h
      have : D (samplePoint a b step (i + 1)) = 0 := by rw [← h]; exact f3
      rw [this] at h1; simp at h1
  refine ⟨?_, ?_, ?_, ?_⟩
  · intro om hom
    rw [hL] at hom
    obtain ⟨i, hi, rfl⟩ := List.mem_map.mp hom
    have hi' := List.mem_of_mem_take hi
    obtain ⟨s1, s2, s3⟩ := strict i hi'
    have hK := (hchg i hi').2
    have hpos : 0 < (b - a) / step := by
      by_contra hneg
      rw [Nat.ceil_eq_zero.mpr (not_lt.mp hneg)] at hK
      omega
    have hab : a < b := by
      rw [lt_div_iff₀ hs] at hpos; linarith
    refine ⟨s3, ?_, ?_⟩
    · have : a ≤ samplePoint a b step i := by
        have h0 := samplePoint_mono a b step hs (Nat.zero_le i)
        have : samplePoint a b step 0 = a := by simp [samplePoint, hab.le]
        linarith
      linarith
    · exact s2.le.trans (min_le_right _ _)
  · rw [hL, List.pairwise_map]
    have hsorted : (changes.take n).Pairwise (· < ·) :=
      ((List.pairwise_lt_range).filter _).sublist (List.take_sublist _ _)
    refine List.Pairwise.imp_of_mem ?_ hsorted
    intro i j hi hj hij
    have := (strict i (List.mem_of_mem_take hi)).2.1
    have := (strict j (List.mem_of_mem_take hj)).1
    have := samplePoint_mono a b step hs (Nat.succ_le_of_lt hij)
    linarith
  · rw [hL, List.length_map, List.length_take]
  · intro k i hk
    refine ⟨fs (samplePoint a b step i) (samplePoint a b step (i + 1)), ?_, ?_⟩
    · rw [hL, List.getElem?_map, hk]; rfl
    · have hi : i ∈ changes := List.mem_of_mem_take (List.mem_of_getElem? hk)
      exact ⟨(strict i hi).1, (strict i hi).2.1⟩

/-- Contract met by an exact root finder for `D x = x - 1`. -/
example : ∀ x y : ℝ, x ≤ y → (x - 1) * (y - 1) < 0 →
    x ≤ (fun _ _ : ℝ => (1 : ℝ)) x y ∧ (fun _ _ : ℝ => (1 : ℝ)) x y ≤ y ∧
      ((fun _ _ : ℝ => (1 : ℝ)) x y - 1) = 0 := by
  intro x y h1 h2
  simp only [sub_self, and_true]
  constructor <;> nlinarith

/-- **C26 (a root on a sampling point is missed).** The sign test is strict: with a root exactly on
a sampling point no bracket is recorded. -/
theorem C26_root_on_grid_missed :
    guidedGivenG (fun x => x - 1) (fun _ _ => 1) 5 0 2 1 0 = [] := by
  rw [guidedGivenG_eq _ _ _ _ _ _ _ one_pos]
  have : signChanges (fun x => x - 1) (0 * (1 + 0)) (2 * (1 - 0)) 1 = [] := by
    unfold signChanges
    have : ⌈((2 : ℝ) * (1 - 0) - 0 * (1 + 0)) / 1⌉₊ = 2 := by norm_num
    rw [this]
    rw [List.filter_eq_nil_iff]
    intro i hi
    have : i < 2 := List.mem_range.mp hi
    interval_cases i <;> simp [samplePoint] <;> norm_num
  rw [this]; simp

theorem guidedModes_inv (D : ℝ → ℝ → ℝ) (fs : ℝ → ℝ → ℝ → ℝ) (eps : List ℝ) (nModes : Nat)
    (step tol : ℝ) (P : ℝ → List ℝ → Prop)
    (hcomp : ∀ g ub, ub ≤ omUb eps g →
      P g (guidedGivenG (D (max g 1e-4)) (fs (max g 1e-4)) nModes (omLb eps g) ub step tol))
    (gs : List ℝ) (prev : Option (ℝ × List ℝ)) (i : ℕ) (oms : List ℝ)
    (hi : (guidedModes D fs eps nModes step tol prev gs)[i]? = some oms) :
    (∃ (j : ℕ) (g : ℝ), j ≤ i ∧ gs[j]? = some g ∧ P g oms ∧
      ∀ (k : ℕ) (x y : ℝ), j ≤ k → k < i → gs[k]? = some x → gs[k + 1]? = some y → |y - x| ≤ 1e-8) ∨
    ∃ gp, prev = some (gp, oms) ∧ (∀ x, gs[0]? = some x → |x - gp| ≤ 1e-8) ∧
      ∀ (k : ℕ) (x y : ℝ), k < i → gs[k]? = some x → gs[k + 1]? = some y → |y - x| ≤ 1e-8 := by
  induction gs generalizing prev i with
  | nil => simp [guidedModes] at hi
  | cons g gs ih =>
    have hstep : P g (guidedStep D fs eps nModes step tol prev g) ∨
        ∃ gp, prev = some (gp, guidedStep D fs eps nModes step tol prev g) ∧ |g - gp| ≤ 1e-8 := by
      cases prev with
      | none =>
        left
        simp only [guidedStep, if_true]
        exact hcomp g _ le_rfl
      | some q =>
        obtain ⟨gp, oms'⟩ := q
        by_cases hc : 1e-8 < |g - gp|
        · left
          simp only [guidedStep, if_pos hc]
          refine hcomp g _ ?_
          split
          · exact min_le_left _ _
          · exact le_rfl
        · right
          refine ⟨gp, ?_, not_lt.mp hc⟩
          simp only [guidedStep, if_neg hc]
    rw [guidedModes] at hi
    cases i with
    | zero =>
      simp only [List.getElem?_cons_zero, Option.some.injEq] at hi
      rw [hi] at hstep
      rcases hstep with h | ⟨gp, h1, h2⟩
      · left
        exact ⟨0, g, le_rfl, rfl, h, fun k x y _ h2 => absurd h2 (by omega)⟩
      · right
        refine ⟨gp, h1, ?_, fun k x y h2 => absurd h2 (by omega)⟩
        intro x hx
        simp only [List.getElem?_cons_zero, Option.some.injEq] at hx
        rw [← hx]; exact h2
    | succ i =>
      simp only [List.getElem?_cons_succ] at hi
      rcases ih _ i hi with ⟨j, g', hj, hg', hP, hk⟩ | ⟨gp, h1, h2, h3⟩
      · left
        refine ⟨j + 1, g', by omega, by simpa using hg', hP, ?_⟩
        intro k x y hjk hki hx hy
        obtain ⟨k', rfl⟩ : ∃ k', k = k' + 1 := ⟨k - 1, by omega⟩
        exact hk k' x y (by omega) (by omega) (by simpa using hx) (by simpa using hy)
      · simp only [Option.some.injEq, Prod.mk.injEq] at h1
        obtain ⟨rfl, h1⟩ := h1
        have hall : ∀ (k : ℕ) (x y : ℝ), k < i + 1 → (g :: gs)[k]? = some x →
            (g :: gs)[k + 1]? = some y → |y - x| ≤ 1e-8 := by
          intro k x y hk hx hy
          cases k with
          | zero =>
            simp only [List.getElem?_cons_zero, Option.some.injEq] at hx
            rw [← hx]
            exact h2 y (by simpa using hy)
          | succ k => exact h3 k x y (by omega) (by simpa using hx) (by simpa using hy)
        rw [h1] at hstep
        rcases hstep with h | ⟨gp, h4, h5⟩
        · left
          exact ⟨0, g, by omega, rfl, h, fun k x y _ hk hx hy => hall k x y hk hx hy⟩
        · right
          refine ⟨gp, h4, ?_, hall⟩
          intro x hx
          simp only [List.getElem?_cons_zero, Option.some.injEq] at hx
          rw [← hx]; exact h5

/-- **C26 (all wave vectors).** The list of frequencies which `guided_modes` reports for the `i`-th
wave vector is an increasing list of at most `n_modes` zeros of the dispersion function, strictly
between the light lines (up to the relative offset `tol`) of a wave vector `g_j` with `j ≤ i`; and
`j` differs from `i` only across a run of wave vectors which differ by at most `1e-8` each. -/
theorem C26_modes (D : ℝ → ℝ → ℝ) (fs : ℝ → ℝ → ℝ → ℝ) (eps : List ℝ) (nModes : Nat)
    (step tol : ℝ) (hs : 0 < step) (htol : tol ≤ 1)
    (hfs : ∀ g x y, x ≤ y → D g x * D g y < 0 → x ≤ fs g x y ∧ fs g x y ≤ y ∧ D g (fs g x y) = 0)
    (gs : List ℝ) (i : ℕ) (oms : List ℝ)
    (hi : (guidedModes D fs eps nModes step tol none gs)[i]? = some oms) :
    ∃ (j : ℕ) (g : ℝ), j ≤ i ∧ gs[j]? = some g ∧
      (∀ (k : ℕ) (x y : ℝ), j ≤ k → k < i → gs[k]? = some x → gs[k + 1]? = some y → |y - x| ≤ 1e-8) ∧
      oms.length ≤ nModes ∧ oms.Pairwise (· < ·) ∧
      ∀ om ∈ oms, D (max g 1e-4) om = 0 ∧ omLb eps g * (1 + tol) ≤ om ∧ om ≤ omUb eps g * (1 - tol) := by
  rcases guidedModes_inv D fs eps nModes step tol
    (fun g oms => oms.length ≤ nModes ∧ oms.Pairwise (· < ·) ∧
      ∀ om ∈ oms, D (max g 1e-4) om = 0 ∧ omLb eps g * (1 + tol) ≤ om ∧ om ≤ omUb eps g * (1 - tol))
    (by
      intro g ub hub
      obtain ⟨h1, h2, h3, _⟩ := C26_search (D (max g 1e-4)) (fs (max g 1e-4)) nModes (omLb eps g) ub
        step tol hs (hfs _)
      refine ⟨h3.le.trans (min_le_left _ _), h2, ?_⟩
      intro om hom
      obtain ⟨a, b, c⟩ := h1 om hom
      exact ⟨a, b, c.trans (mul_le_mul_of_nonneg_right hub (by linarith))⟩) gs none i oms hi with
    ⟨j, g, h1, h2, h3, h4⟩ | ⟨gp, h, _⟩
  · exact ⟨j, g, h1, h2, h4, h3⟩
  · simp at h

/-- There is one list of frequencies per wave vector. -/
theorem C26_modes_length (D : ℝ → ℝ → ℝ) (fs : ℝ → ℝ → ℝ → ℝ) (eps : List ℝ) (nModes : Nat)
    (step tol : ℝ) (prev : Option (ℝ × List ℝ)) (gs : List ℝ) :
    (guidedModes D fs eps nModes step tol prev gs).length = gs.length := by
  induction gs generalizing prev with
  | nil => rfl
  | cons g gs ih => rw [guidedModes]; simp [ih]

/-- **C26 (reuse).** Wave vectors which differ by at most `1e-8` from the preceding one get the very
same list of frequencies. -/
theorem C26_modes_reuse (D : ℝ → ℝ → ℝ) (fs : ℝ → ℝ → ℝ → ℝ) (eps : List ℝ) (nModes : Nat)
    (step tol : ℝ) (prev : Option (ℝ × List ℝ)) (gs : List ℝ) (i : ℕ) (x y : ℝ)
    (hx : gs[i]? = some x) (hy : gs[i + 1]? = some y) (hxy : |y - x| ≤ 1e-8) :
    (guidedModes D fs eps nModes step tol prev gs)[i + 1]? =
      (guidedModes D fs eps nModes step tol prev gs)[i]? := by
  induction gs generalizing prev i with
  | nil => simp at hx
  | cons g gs ih =>
    cases i with
    | succ i => exact ih _ i hx hy
    | zero =>
      cases gs with
      | nil => simp at hy
      | cons g' gs =>
        simp only [List.getElem?_cons_zero, Option.some.injEq, zero_add, List.getElem?_cons_succ] at hx hy
        subst hx hy
        rw [guidedModes, guidedModes]
        simp only [zero_add, List.getElem?_cons_succ, List.getElem?_cons_zero, Option.some.injEq]
        generalize guidedStep D fs eps nModes step tol prev g = oms
        unfold guidedStep
        simp only [not_lt.mpr hxy, if_false]

example : |(1 + 1e-9 : ℝ) - 1| ≤ 1e-8 := by rw [abs_of_nonneg] <;> norm_num

end Legume
