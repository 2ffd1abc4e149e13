import Verif.Props.ScaleUnits
import Verif.Props.GmeTbtBounds

/-!
# Runs with `truncate_g='tbt'` in other units and for scaled permittivities (C160)
-/
namespace Legume

open Spec Matrix MeasureTheory
open scoped ComplexConjugate

/-! ### The permittivity matrices -/

theorem castTo_scale (b : Bool) (r : ℝ) (z : ℂ) : castTo b ((r : ℂ) * z) = (r : ℂ) * castTo b z := by
  unfold castTo
  split_ifs
  · rw [Complex.re_ofReal_mul, Complex.ofReal_mul]
  · rfl

theorem toeplitzBlock_scale (n ntot : ℕ) (b : Bool) (r : ℝ) (T1 T2 : ℕ → ℂ) (I J : ℕ) :
    toeplitzBlock n ntot b (fun k => (r : ℂ) * T1 k) (fun k => (r : ℂ) * T2 k) I J =
      (r : ℂ) * toeplitzBlock n ntot b T1 T2 I J := by
  have h : ∀ I J, toeplitzTmat n ntot b (fun k => (r : ℂ) * T1 k) (fun k => (r : ℂ) * T2 k) I J =
      (r : ℂ) * toeplitzTmat n ntot b T1 T2 I J := by
    intro I J
    unfold toeplitzTmat scipyToeplitz
    simp only
    split_ifs
    · exact castTo_scale _ _ _
    · exact castTo_scale _ _ _
    · rw [mul_zero]
  unfold toeplitzBlock
  rw [h, h, mul_add]
  congr 1
  · split_ifs
    · rfl
    · rw [mul_zero]
  · split_ifs
    · rw [map_mul, Complex.conj_ofReal]
    · rw [map_zero, mul_zero]

theorem maxAbs_scale {r : ℝ} (hr : 0 ≤ r) (l : List ℝ) : maxAbs (l.map (r * ·)) = r * maxAbs l := by
  induction l with
  | nil => simp [maxAbs]
  | cons a l ih =>
    unfold maxAbs at ih ⊢
    rw [List.map_cons, List.foldr_cons, List.foldr_cons, ih, abs_mul, abs_of_nonneg hr, mul_max_of_nonneg _ _ hr]

theorem storedReal_scale {r : ℝ} (hr : 0 < r) (T : List ℂ) : storedReal (T.map ((r : ℂ) * ·)) = storedReal T := by
  have e1 : (T.map ((r : ℂ) * ·)).map Complex.im = (T.map Complex.im).map (r * ·) := by
    simp [List.map_map, Function.comp_def]
  have e2 : (T.map ((r : ℂ) * ·)).map Complex.re = (T.map Complex.re).map (r * ·) := by
    simp [List.map_map, Function.comp_def]
  unfold storedReal
  rw [e1, e2, maxAbs_scale hr.le, maxAbs_scale hr.le, decide_eq_decide, mul_left_comm, mul_lt_mul_iff_right₀ hr]

theorem getD_gOf (b1 b2 : R2) (inds : List (ℤ × ℤ)) (k : ℕ) :
    (inds.map (gOf b1 b2)).getD k 0 = gOf b1 b2 (inds.getD k 0) := by
  rw [List.getD_eq_getElem?_getD, List.getD_eq_getElem?_getD, List.getElem?_map]
  cases inds[k]?
  · simp only [Option.map_none, Option.getD_none, gOf]
    ext <;> simp
  · rfl

theorem gOf_pairDiff (b1 b2 : R2) (i j : ℤ × ℤ) :
    ((gOf b1 b2 i).1 - (gOf b1 b2 j).1, (gOf b1 b2 i).2 - (gOf b1 b2 j).2) = gOf b1 b2 (i - j) := by
  simp only [gOf, Prod.fst_sub, Prod.snd_sub]
  ext <;> push_cast <;> ring

section
variable {r : ℝ} (hr : 0 < r) {F F' : R2 → ℂ} {b1 b2 b1' b2' : R2}
  (hF : ∀ i : ℤ × ℤ, F' (gOf b1' b2' i) = (r : ℂ) * F (gOf b1 b2 i)) (inds : List (ℤ × ℤ))
include hF

theorem T1raw_scale (k : ℕ) : T1raw F' (inds.map (gOf b1' b2')) k = (r : ℂ) * T1raw F (inds.map (gOf b1 b2)) k := by
  unfold T1raw
  rw [getD_gOf, getD_gOf, getD_gOf, getD_gOf, gOf_pairDiff, gOf_pairDiff, hF]

theorem T2raw_scale (m k : ℕ) :
    T2raw F' (inds.map (gOf b1' b2')) m k = (r : ℂ) * T2raw F (inds.map (gOf b1 b2)) m k := by
  unfold T2raw
  rw [getD_gOf, getD_gOf, getD_gOf, getD_gOf, gOf_pairDiff, gOf_pairDiff, hF]

include hr

theorem T1real_scale : T1real F' (inds.map (gOf b1' b2')) = T1real F (inds.map (gOf b1 b2)) := by
  unfold T1real
  rw [List.length_map, List.length_map, ← storedReal_scale hr ((List.range _).map (T1raw F _)), List.map_map]
  congr 1
  exact List.map_congr_left fun k _ => T1raw_scale hF inds k

theorem T2real_scale (m : ℕ) : T2real F' (inds.map (gOf b1' b2')) m = T2real F (inds.map (gOf b1 b2)) m := by
  unfold T2real
  rw [List.length_map, List.length_map, ← storedReal_scale hr ((List.range _).map (T2raw F _ m)), List.map_map]
  congr 1
  exact List.map_congr_left fun k _ => T2raw_scale hF inds m k

theorem T1tbt_scale (k : ℕ) : T1tbt F' (inds.map (gOf b1' b2')) k = (r : ℂ) * T1tbt F (inds.map (gOf b1 b2)) k := by
  unfold T1tbt
  rw [T1real_scale hr hF, T1raw_scale hF, castTo_scale]

theorem T2tbt_scale (m k : ℕ) :
    T2tbt F' (inds.map (gOf b1' b2')) m k = (r : ℂ) * T2tbt F (inds.map (gOf b1 b2)) m k := by
  unfold T2tbt
  rw [T2real_scale hr hF, T2raw_scale hF, castTo_scale]

omit inds in
theorem epsMatTbt_scale (n1 n2 I J : ℕ) : epsMatTbt F' b1' b2' n1 n2 I J = (r : ℂ) * epsMatTbt F b1 b2 n1 n2 I J := by
  have e1 := funext (T1tbt_scale hr hF (tbtInds n1 n2))
  have e2 := funext (T2tbt_scale hr hF (tbtInds n1 n2) (2 * n2 + 1))
  unfold epsMatTbt
  simp only
  rw [e1, e2, T1real_scale hr hF, toeplitzBlock_scale, List.length_map, List.length_map]

end

theorem StructScale.n12 {c n : ℝ} (hc : 0 < c) {S S' : GmeStruct} (h : StructScale c n S S') (gmax : ℝ) :
    S'.n1 (c * gmax) = S.n1 gmax ∧ S'.n2 (c * gmax) = S.n2 gmax := by
  unfold GmeStruct.n1 GmeStruct.n2
  rw [h.b1, h.b2, (similarity_stretch hc).nmaxOf, (similarity_stretch hc).nmaxOf]
  exact ⟨rfl, rfl⟩

theorem StructScale.gvecT {c n : ℝ} (hc : 0 < c) {S S' : GmeStruct} (h : StructScale c n S S') (gmax : ℝ) :
    S'.gvecT (c * gmax) = (S.gvecT gmax).map (stretch c) := by
  unfold GmeStruct.gvecT gvecTbt
  rw [h.b1, h.b2, (similarity_stretch hc).nmaxOf, (similarity_stretch hc).nmaxOf, List.map_map]
  exact List.map_congr_left fun i _ => (similarity_stretch hc).gOf _ _ _

/-- For every layer both structures agree on whether its permittivity is uniform, which the code decides by comparing a sum
of absolute values of Fourier components with `1e-10`. -/
def SameHomT (c n gmax : ℝ) (S S' : GmeStruct) : Prop :=
  ∀ l l', LayScale c n S.b1 S.b2 l l' → l ∈ S.layers → l' ∈ S'.layers →
    (homTbt (S'.ft l') S'.b1 S'.b2 (S.n1 gmax) (S.n2 gmax) ↔ homTbt (S.ft l) S.b1 S.b2 (S.n1 gmax) (S.n2 gmax))

theorem homTbt_scale {c n : ℝ} (hc : 0 < c) (hn : 0 < n) {S S' : GmeStruct} (h : StructScale c n S S')
    (hS : Resolved S.b1 S.b2) (hS' : Resolved S'.b1 S'.b2) {l l' : GmeLay} (hl : LayScale c n S.b1 S.b2 l l') (n1 n2 : ℕ) :
    homTbt (S'.ft l') S'.b1 S'.b2 n1 n2 ↔
      n ^ 2 * ((List.range ((tbtInds n1 n2).map (gOf S.b1 S.b2)).length).tail.map fun (k : ℕ) =>
        ‖T1tbt (S.ft l) ((tbtInds n1 n2).map (gOf S.b1 S.b2)) k‖).sum < 1e-10 := by
  have hr : 0 < n ^ 2 := pow_pos hn 2
  have hF : ∀ i : ℤ × ℤ, S'.ft l' (gOf S'.b1 S'.b2 i) = ((n ^ 2 : ℝ) : ℂ) * S.ft l (gOf S.b1 S.b2 i) := by
    intro i; rw [h.ft hc hS hS' hl]; push_cast; rfl
  unfold homTbt
  simp only
  rw [List.length_map, List.length_map, ← List.sum_map_mul_left]
  simp only [T1tbt_scale hr hF, norm_mul, Complex.norm_real, Real.norm_of_nonneg hr.le]

/-- In another unit of length the decision is the same. -/
theorem sameHomT_units {c : ℝ} (hc : 0 < c) {S S' : GmeStruct} (h : StructScale c 1 S S') (hS : Resolved S.b1 S.b2)
    (hS' : Resolved S'.b1 S'.b2) (gmax : ℝ) : SameHomT c 1 gmax S S' := by
  intro l l' hl _ _
  rw [homTbt_scale hc one_pos h hS hS' hl, one_pow, one_mul]
  rfl

/-- It is also the same if every layer is either uniform or so far from it that the sum is above `1e-10` in both. -/
theorem sameHomT_of {c n : ℝ} (hc : 0 < c) (hn : 0 < n) {S S' : GmeStruct} (h : StructScale c n S S')
    (hS : Resolved S.b1 S.b2) (hS' : Resolved S'.b1 S'.b2) (gmax : ℝ)
    (hs : ∀ l ∈ S.layers, ((List.range (S.gvecT gmax).length).tail.map fun (k : ℕ) =>
        ‖T1tbt (S.ft l) (S.gvecT gmax) k‖).sum = 0 ∨
      (1e-10 ≤ ((List.range (S.gvecT gmax).length).tail.map fun (k : ℕ) => ‖T1tbt (S.ft l) (S.gvecT gmax) k‖).sum ∧
        1e-10 ≤ n ^ 2 * ((List.range (S.gvecT gmax).length).tail.map fun (k : ℕ) =>
          ‖T1tbt (S.ft l) (S.gvecT gmax) k‖).sum)) : SameHomT c n gmax S S' := by
  intro l l' hl hm _
  rw [homTbt_scale hc hn h hS hS' hl]
  have e : (homTbt (S.ft l) S.b1 S.b2 (S.n1 gmax) (S.n2 gmax)) =
    (((List.range (S.gvecT gmax).length).tail.map fun (k : ℕ) => ‖T1tbt (S.ft l) (S.gvecT gmax) k‖).sum < 1e-10) := rfl
  rw [e]
  have e2 : (tbtInds (S.n1 gmax) (S.n2 gmax)).map (gOf S.b1 S.b2) = S.gvecT gmax := rfl
  rw [e2]
  rcases hs l hm with h0 | ⟨h1, h2⟩
  · rw [h0, mul_zero]
  · exact iff_of_false (not_lt.2 h2) (not_lt.2 h1)

theorem epsInvT_scale {c n : ℝ} (hc : 0 < c) (hn : 0 < n) {S S' : GmeStruct} (h : StructScale c n S S')
    (hS : Resolved S.b1 S.b2) (hS' : Resolved S'.b1 S'.b2) (gmax : ℝ) (hh : SameHomT c n gmax S S') (onlyG : Bool)
    (hN : (S'.gvecT (c * gmax)).length = (S.gvecT gmax).length) (l l' : GmeLay)
    (hl : LayScale c n S.b1 S.b2 l l' ∧ l ∈ S.layers ∧ l' ∈ S'.layers) :
    (∃ e, S.epsInvT gmax onlyG l = .error e ∧ S'.epsInvT (c * gmax) onlyG l' = .error e) ∨
      ∃ E E', S.epsInvT gmax onlyG l = .ok E ∧ S'.epsInvT (c * gmax) onlyG l' = .ok E' ∧
        ∀ i j, E' i j = E (Fin.cast hN i) (Fin.cast hN j) / (n : ℂ) ^ 2 := by
  classical
  have hn2 : (n : ℂ) ^ 2 ≠ 0 := pow_ne_zero _ (by exact_mod_cast hn.ne')
  have hr : 0 < n ^ 2 := pow_pos hn 2
  obtain ⟨hn1, hn22⟩ := h.n12 hc gmax
  have hho := hh l l' hl.1 hl.2.1 hl.2.2
  replace hl := hl.1
  have hF : ∀ i : ℤ × ℤ, S'.ft l' (gOf S'.b1 S'.b2 i) = ((n ^ 2 : ℝ) : ℂ) * S.ft l (gOf S.b1 S.b2 i) := by
    intro i; rw [h.ft hc hS hS' hl]; push_cast; rfl
  obtain ⟨hdet, hinv⟩ := inv_cast_mul hN (epsMatTbt (S.ft l) S.b1 S.b2 (S.n1 gmax) (S.n2 gmax))
    (epsMatTbt (S'.ft l') S'.b1 S'.b2 (S.n1 gmax) (S.n2 gmax)) _ hn2
    (fun i j => by rw [epsMatTbt_scale hr hF]; push_cast; rfl)
  have e0 : S'.gvecT (c * gmax) = (tbtInds (S.n1 gmax) (S.n2 gmax)).map (gOf S'.b1 S'.b2) := by
    rw [← hn1, ← hn22]; rfl
  have hT : T1tbt (S'.ft l') (S'.gvecT (c * gmax)) 0 = (n : ℂ) ^ 2 * T1tbt (S.ft l) (S.gvecT gmax) 0 := by
    rw [e0, T1tbt_scale hr hF]; push_cast; rfl
  have e1 : S'.epsInvT (c * gmax) onlyG l' = if homTbt (S'.ft l') S'.b1 S'.b2 (S.n1 gmax) (S.n2 gmax) ∨ onlyG = true then
      .ok ((T1tbt (S'.ft l') (S'.gvecT (c * gmax)) 0)⁻¹ • 1)
    else if (Matrix.of fun i j : Fin (S'.gvecT (c * gmax)).length =>
        epsMatTbt (S'.ft l') S'.b1 S'.b2 (S.n1 gmax) (S.n2 gmax) i j).det = 0 then .error .valueError
    else .ok (Matrix.of fun i j : Fin (S'.gvecT (c * gmax)).length =>
        epsMatTbt (S'.ft l') S'.b1 S'.b2 (S.n1 gmax) (S.n2 gmax) i j)⁻¹ := by
    rw [← hn1, ← hn22]; rfl
  have e2 : S.epsInvT gmax onlyG l = if homTbt (S.ft l) S.b1 S.b2 (S.n1 gmax) (S.n2 gmax) ∨ onlyG = true then
      .ok ((T1tbt (S.ft l) (S.gvecT gmax) 0)⁻¹ • 1)
    else if (Matrix.of fun i j : Fin (S.gvecT gmax).length =>
        epsMatTbt (S.ft l) S.b1 S.b2 (S.n1 gmax) (S.n2 gmax) i j).det = 0 then .error .valueError
    else .ok (Matrix.of fun i j : Fin (S.gvecT gmax).length =>
        epsMatTbt (S.ft l) S.b1 S.b2 (S.n1 gmax) (S.n2 gmax) i j)⁻¹ := rfl
  rw [e1, e2]
  simp only [hho, hdet]
  split_ifs with c1 c2
  · refine Or.inr ⟨_, _, rfl, rfl, fun i j => ?_⟩
    rw [Matrix.smul_apply, Matrix.smul_apply, Matrix.one_apply, Matrix.one_apply, hT]
    by_cases hij : i = j
    · subst hij
      simp only [if_true, smul_eq_mul, mul_one, mul_inv]
      ring
    · rw [if_neg hij, if_neg (by simpa [Fin.ext_iff] using hij)]
      simp
  · exact Or.inl ⟨_, rfl, rfl⟩
  · exact Or.inr ⟨_, _, rfl, rfl, hinv⟩

/-! ### Whole runs -/

theorem gmeSimTbt_units (argsort : List ℝ → List ℕ) (eigh : ∀ n, Matrix (Fin n) (Fin n) ℂ → Fin n → ℝ)
    (he : SortedEigh eigh) (c n : ℝ) (hc : 0 < c) (hn : 0 < n) (ha : ∀ l, argsort (l.map (c / n * ·)) = argsort l)
    (S S' : GmeStruct) (h : StructScale c n S S') (hS : Resolved S.b1 S.b2) (hS' : Resolved S'.b1 S'.b2) (gmax : ℝ)
    (hh : SameHomT c n gmax S S') (onlyG : Bool) (opt : String) (ks ks' : List R2) (hk : ks'.length = ks.length)
    (G G' : GuidedSolver) (hG : ∀ (hN : (S'.gvecT (c * gmax)).length = (S.gvecT gmax).length) eff,
      S.layers.mapM (GmeLay.eff opt) = .ok eff →
      GuidedScale c n G G' ((S.layers.map GmeLay.pos).zip eff) (S.gvecT gmax) (S'.gvecT (c * gmax)) ks ks' hN)
    (sigma : ℝ) (numeig : ℕ) :
    gmeSimTbtIj ijExact argsort eigh G' S' (c * gmax) onlyG opt ks' (c / n * sigma) numeig =
      (gmeSimTbtIj ijExact argsort eigh G S gmax onlyG opt ks sigma numeig).map (List.map (KRes.scale (c / n))) := by
  have hN : (S'.gvecT (c * gmax)).length = (S.gvecT gmax).length := by rw [h.gvecT hc, List.length_map]
  have hcn : 0 < c / n := div_pos hc hn
  have heff : S'.layers.mapM (GmeLay.eff opt) = (S.layers.mapM (GmeLay.eff opt)).map (List.map (n ^ 2 * ·)) := by
    rw [except_mapM_map]
    exact (mapM_forall2 (R := LayScale c n S.b1 S.b2) _ _ (fun l l' h => (eff_scale h opt).symm) h.layers).symm
  cases onlyG with
  | true =>
    rw [tbt_refused, tbt_refused]
    rfl
  | false =>
  rw [tbt_run, tbt_run, heff]
  specialize hG hN
  generalize S.layers.mapM (GmeLay.eff opt) = ef at hG ⊢
  cases ef with
  | error e => rfl
  | ok eff =>
    specialize hG eff rfl
    simp only [bind, Except.bind, Except.map]
    rw [stack_scale h.layers]
    rcases mapM_rel (S.epsInvT gmax false) (S'.epsInvT (c * gmax) false)
      (epsInvT_scale hc hn h hS hS' gmax hh false hN) (forall2_with_mem h.layers) with ⟨e, h1, h2⟩ | ⟨Es, Es', h1, h2, hE⟩
    · rw [h1, h2]
    · rw [h1, h2, hk]
      simp only
      generalize hst : (S.layers.map GmeLay.pos).zip eff = stack at hG ⊢
      refine Eq.trans ?_ (except_mapM_map _ (KRes.scale (c / n)) (List.range ks.length)).symm
      refine mapM_range_congr fun ik hik => ?_
      rw [hG ik hik]
      cases G stack (S.gvecT gmax) ks ik with
      | error e => rfl
      | ok basis =>
        simp only [Except.map]
        have hlen : (basis.map (BasisEl.scale hN c n)).length = basis.length := List.length_map _
        rw [sortedEigh_affine he hlen (sq_nonneg (c / n)) _ _ (gmeMatIj_hermitian _ _ _ _)
          (gmeMatIj_scale hN hc hn stack Es Es' hE basis hlen)]
        exact solveFull_scale hcn ha _ sigma numeig

/-- **C160 (other units, other permittivities).** Dividing all lengths of a structure by `c` and multiplying all its
permittivities by `n ^ 2`, with wave vectors and cutoff multiplied by `c` and with the same guided modes in the new units,
multiplies all frequencies of a run with `truncate_g='tbt'` by `c / n`, whether or not it fails. The cutoff may be any
number. -/
theorem C160_scale (argsort : List ℝ → List ℕ) (eigh : ∀ n, Matrix (Fin n) (Fin n) ℂ → Fin n → ℝ)
    (he : SortedEigh eigh) (c n : ℝ) (hc : 0 < c) (hn : 0 < n) (ha : ∀ l, argsort (l.map (c / n * ·)) = argsort l)
    (S S' : GmeStruct) (h : StructScale c n S S') (hS : Resolved S.b1 S.b2) (hS' : Resolved S'.b1 S'.b2) (gmax : ℝ)
    (hh : SameHomT c n gmax S S') (onlyG : Bool) (opt : String) (ks : List R2)
    (br : List (Pol × (ℝ → Option ℝ))) (delta e0 eN : ℝ) (ls : List (ℝ × ℝ)) (sigma : ℝ) (numeig : ℕ) :
    gmeSimTbtIj ijExact argsort eigh
        (branchGuided (scaleBranches c n br) (c * delta) (n ^ 2 * e0) (n ^ 2 * eN) (scaleSlab c n ls)) S' (c * gmax) onlyG opt
        (ks.map (stretch c)) (c / n * sigma) numeig =
      (gmeSimTbtIj ijExact argsort eigh (branchGuided br delta e0 eN ls) S gmax onlyG opt ks sigma numeig).map
        (List.map (KRes.scale (c / n))) :=
  gmeSimTbt_units argsort eigh he c n hc hn ha S S' h hS hS' gmax hh onlyG opt ks _ (List.length_map _) _ _
    (fun hN eff _ => branch_scale c n hc hn br delta e0 eN ls _ _ _ ks hN (h.gvecT hc gmax)) sigma numeig

/-- **C160 (unit of length).** Dividing all lengths of a structure by `c`, with wave vectors, cutoff, the step of the search
for guided modes and the shifts of wave vectors multiplied by `c`, multiplies all frequencies of a run with
`truncate_g='tbt'` by `c`, for the guided modes as computed by the code with exact normalisation. -/
theorem C160_units (argsort : List ℝ → List ℕ) (eigh : ∀ n, Matrix (Fin n) (Fin n) ℂ → Fin n → ℝ)
    (he : SortedEigh eigh) (c : ℝ) (hc : 0 < c) (ha : ∀ l, argsort (l.map (c * ·)) = argsort l)
    (S S' : GmeStruct) (h : StructScale c 1 S S') (hS : Resolved S.b1 S.b2) (hS' : Resolved S'.b1 S'.b2) (gmax : ℝ)
    (onlyG : Bool) (opt : String) (ks : List R2) (fs : Finder) (o : GuidedOpts)
    (hn : UnitNeutral c o (S.gvecT gmax) ks) (sigma : ℝ) (numeig : ℕ) :
    gmeSimTbtIj ijExact argsort eigh (codeGuided normExact (scaleFinder c fs) (scaleOpts c o)) S' (c * gmax) onlyG opt
        (ks.map (stretch c)) (c * sigma) numeig =
      (gmeSimTbtIj ijExact argsort eigh (codeGuided normExact fs o) S gmax onlyG opt ks sigma numeig).map
        (List.map (KRes.scale c)) := by
  have := gmeSimTbt_units argsort eigh he c 1 hc one_pos (by rwa [div_one]) S S' h hS hS' gmax
    (sameHomT_units hc h hS hS' gmax) onlyG opt ks _ (List.length_map _) _ _
    (fun hN eff _ => codeGuided_scale hc fs o _ _ _ ks hN (h.gvecT hc gmax) hn) sigma numeig
  rwa [div_one] at this

/-! ### Concrete structures -/

theorem unitSlabT_lengths (J : ℝ → ℝ) (x : ℝ)
    (hx : x ∈ waveLengths unitOpts ((unitSlab J 1).gvecT (6 / 5)) (Real.pi, 0)) :
    ∃ m : ℤ, 1 ≤ m ∧ m ≤ 20 ∧ x = Real.pi * √(m : ℝ) := by
  have hp := Real.pi_pos
  have hnm : ∀ b : R2, norm2 b = 2 * Real.pi → nmaxOf (2 * Real.pi) (6 / 5) b = 1 := by
    intro b hb
    unfold nmaxOf
    rw [hb, mul_div_cancel_left₀ _ (by positivity), Nat.floor_eq_iff (by norm_num)]
    norm_num
  have h1 : norm2 (unitSlab J 1).b1 = 2 * Real.pi := by
    simp only [norm2, unitSlab]
    rw [Real.sqrt_eq_iff_mul_self_eq (by positivity) (by positivity)]
    ring
  have h2 : norm2 (unitSlab J 1).b2 = 2 * Real.pi := by
    simp only [norm2, unitSlab]
    rw [Real.sqrt_eq_iff_mul_self_eq (by positivity) (by positivity)]
    ring
  unfold waveLengths GmeStruct.gvecT gvecTbt at hx
  rw [hnm _ h1, hnm _ h2, List.map_map] at hx
  obtain ⟨i, hi, rfl⟩ := List.mem_map.1 hx
  obtain ⟨⟨ha, hb⟩, hc, hd⟩ := (mem_tbtInds 1 1 i).1 hi
  push_cast at ha hb hc hd
  refine ⟨(2 * i.1 + 1) ^ 2 + 4 * i.2 ^ 2, ?_, ?_, ?_⟩
  · have : 2 * i.1 + 1 ≠ 0 := by omega
    have := pow_pos (abs_pos.2 this) 2
    rw [sq_abs] at this
    nlinarith [sq_nonneg i.2]
  · nlinarith
  · rw [← Real.sqrt_sq hp.le, ← Real.sqrt_mul (by positivity)]
    simp only [Function.comp, planeAbs, radPlane, unitSlab, unitOpts, gOf]
    congr 1
    push_cast
    rw [Real.sqrt_sq hp.le]
    ring

theorem unitSlabT_neutral (J : ℝ → ℝ) : UnitNeutral 2 unitOpts ((unitSlab J 1).gvecT (6 / 5)) [(Real.pi, 0)] := by
  have hp := Real.pi_gt_three
  refine neutral_of_separate two_pos rfl rfl ?_ ?_
  · intro k hk x hx
    rw [List.mem_singleton.1 hk] at hx
    obtain ⟨m, h1, -, rfl⟩ := unitSlabT_lengths J x hx
    have : (1 : ℝ) ≤ √(m : ℝ) := by rw [Real.one_le_sqrt]; exact_mod_cast h1
    have : (3 : ℝ) ≤ Real.pi * √(m : ℝ) := by nlinarith
    constructor
    · exact le_trans (by norm_num) this
    · exact le_trans (by norm_num) (show (3 : ℝ) ≤ 2 * (Real.pi * √(m : ℝ)) by linarith)
  · intro k hk x hx y hy hxy
    rw [List.mem_singleton.1 hk] at hx hy
    obtain ⟨m, h1, h2, rfl⟩ := unitSlabT_lengths J x hx
    obtain ⟨n, h3, h4, rfl⟩ := unitSlabT_lengths J y hy
    have hmn : m ≠ n := by rintro rfl; exact hxy rfl
    have key : (1 : ℝ) / 10 ≤ |√(m : ℝ) - √(n : ℝ)| := by
      have e : (√(m : ℝ) - √(n : ℝ)) * (√(m : ℝ) + √(n : ℝ)) = (m : ℝ) - n := by
        have a := Real.mul_self_sqrt (show (0 : ℝ) ≤ m by exact_mod_cast (by omega : (0 : ℤ) ≤ m))
        have b := Real.mul_self_sqrt (show (0 : ℝ) ≤ n by exact_mod_cast (by omega : (0 : ℤ) ≤ n))
        linear_combination a - b
      have hb : ∀ z : ℤ, z ≤ 20 → √(z : ℝ) ≤ 5 := by
        intro z hz
        rw [Real.sqrt_le_left (by norm_num)]
        have : (z : ℝ) ≤ ((20 : ℤ) : ℝ) := by exact_mod_cast hz
        norm_num at this ⊢
        linarith
      have h5 : (1 : ℝ) ≤ |(m : ℝ) - n| := by
        have : (1 : ℤ) ≤ |m - n| := Int.one_le_abs (sub_ne_zero.2 hmn)
        exact_mod_cast this
      rw [← e, abs_mul, abs_of_nonneg (add_nonneg (Real.sqrt_nonneg _) (Real.sqrt_nonneg _))] at h5
      nlinarith [hb m h2, hb n h4, abs_nonneg (√(m : ℝ) - √(n : ℝ))]
    have h6 : (3 : ℝ) / 10 ≤ |Real.pi * √(m : ℝ) - Real.pi * √(n : ℝ)| := by
      rw [← mul_sub, abs_mul, abs_of_pos Real.pi_pos]
      nlinarith
    constructor
    · exact lt_of_lt_of_le (by norm_num) h6
    · exact lt_of_lt_of_le (by norm_num) (show (3 : ℝ) / 10 ≤ 2 * |Real.pi * √(m : ℝ) - Real.pi * √(n : ℝ)| by linarith)

/-- Half the period of a slab with an elliptical hole: all frequencies double. -/
example (J : ℝ → ℝ) (argsort : List ℝ → List ℕ) (eigh : ∀ n, Matrix (Fin n) (Fin n) ℂ → Fin n → ℝ)
    (he : SortedEigh eigh) (ha : ∀ l, argsort (l.map (2 * ·)) = argsort l) (fs : Finder) :
    gmeSimTbtIj ijExact argsort eigh (codeGuided normExact (scaleFinder 2 fs) (scaleOpts 2 unitOpts)) (unitSlab J 2)
        (2 * (6 / 5)) false "average" [(2 * Real.pi, 2 * 0)] (2 * 0) 3 =
      (gmeSimTbtIj ijExact argsort eigh (codeGuided normExact fs unitOpts) (unitSlab J 1) (6 / 5) false "average"
        [(Real.pi, 0)] 0 3).map (List.map (KRes.scale 2)) :=
  C160_units argsort eigh he 2 two_pos ha _ _ (unitSlab_scale J two_pos) (unitSlab_spaced J le_rfl).resolved
    (unitSlab_spaced J (by norm_num)).resolved _ false "average" [(Real.pi, 0)] fs unitOpts (unitSlabT_neutral J) 0 3

/-- The same with guided modes given by branches, and with the cutoff at the length of a reciprocal vector. -/
example (J : ℝ → ℝ) (argsort : List ℝ → List ℕ) (eigh : ∀ n, Matrix (Fin n) (Fin n) ℂ → Fin n → ℝ)
    (he : SortedEigh eigh) (ha : ∀ l, argsort (l.map (2 / 1 * ·)) = argsort l) (br : List (Pol × (ℝ → Option ℝ)))
    (ks : List R2) :
    gmeSimTbtIj ijExact argsort eigh (branchGuided (scaleBranches 2 1 br) (2 * 0) (1 ^ 2 * 1) (1 ^ 2 * 1)
        (scaleSlab 2 1 [(11, 0.5)])) (unitSlab J 2) (2 * 1) false "average" (ks.map (stretch 2)) (2 / 1 * 0) 3 =
      (gmeSimTbtIj ijExact argsort eigh (branchGuided br 0 1 1 [(11, 0.5)]) (unitSlab J 1) 1 false "average" ks 0 3).map
        (List.map (KRes.scale (2 / 1))) :=
  C160_scale argsort eigh he 2 1 two_pos one_pos ha _ _ (unitSlab_scale J two_pos) (unitSlab_spaced J le_rfl).resolved
    (unitSlab_spaced J one_le_two).resolved _
    (sameHomT_units two_pos (unitSlab_scale J two_pos) (unitSlab_spaced J le_rfl).resolved
      (unitSlab_spaced J one_le_two).resolved _) false "average" ks br 0 1 1 _ 0 3

theorem plainT_sum (S : GmeStruct) (hS : Resolved S.b1 S.b2) (gmax : ℝ) (l : GmeLay) (h : l.shapes = []) :
    ((List.range (S.gvecT gmax).length).tail.map fun (k : ℕ) => ‖T1tbt (S.ft l) (S.gvecT gmax) k‖).sum = 0 := by
  refine List.sum_eq_zero fun x hx => ?_
  obtain ⟨k, hk, rfl⟩ := List.mem_map.1 hx
  have hk1 : 0 < (S.gvecT gmax).length := by rw [gvecT_len]; positivity
  have hk' := List.mem_range.1 (List.mem_of_mem_tail hk)
  have hk0 : k ≠ 0 := by
    rintro rfl
    obtain ⟨m, hm⟩ := Nat.exists_eq_succ_of_ne_zero hk1.ne'
    rw [hm, List.range_succ_eq_map] at hk
    simp at hk
  have hz : T1raw (S.ft l) (S.gvecT gmax) k = 0 := by
    unfold T1raw GmeStruct.ft
    rw [gvecT_getD S gmax k hk', gvecT_getD S gmax 0 hk1, gOf_pair, h, C12_layer_value]
    · simp
    · have hne : ((tbtInd S gmax 0).1 - (tbtInd S gmax k).1, (tbtInd S gmax 0).2 - (tbtInd S gmax k).2) ≠ ((0, 0) : ℤ × ℤ) := by
        intro e
        have e1 : tbtInd S gmax 0 = tbtInd S gmax k := by
          have := Prod.mk.inj e
          exact Prod.ext (by omega) (by omega)
        have := tbtInd_injective S gmax (a₁ := ⟨0, hk1⟩) (a₂ := ⟨k, hk'⟩) e1
        exact hk0 (Fin.mk.inj this).symm
      intro hlt
      have := hS _ _ hne
      refine this ⟨lt_of_le_of_lt ?_ hlt, lt_of_le_of_lt ?_ hlt⟩
      · simp only [gOf]
        exact le_add_of_nonneg_right (abs_nonneg _)
      · simp only [gOf]
        exact le_add_of_nonneg_left (abs_nonneg _)
  unfold T1tbt
  rw [hz]
  unfold castTo
  split <;> simp

/-- Lengths halved and refractive indices tripled: frequencies of the unpatterned slab are two thirds. -/
example (argsort : List ℝ → List ℕ) (eigh : ∀ n, Matrix (Fin n) (Fin n) ℂ → Fin n → ℝ) (he : SortedEigh eigh)
    (ha : ∀ l, argsort (l.map (2 / 3 * ·)) = argsort l) (br : List (Pol × (ℝ → Option ℝ))) (ks : List R2) :
    gmeSimTbtIj ijExact argsort eigh (branchGuided (scaleBranches 2 3 br) (2 * 0) (3 ^ 2 * 1) (3 ^ 2 * 1)
        (scaleSlab 2 3 [(12, 0.5)])) (plainSlab 2 3) (2 * 1) false "average" (ks.map (stretch 2)) (2 / 3 * 0) 3 =
      (gmeSimTbtIj ijExact argsort eigh (branchGuided br 0 1 1 [(12, 0.5)]) (plainSlab 1 1) 1 false "average" ks 0
        3).map (List.map (KRes.scale (2 / 3))) := by
  have h : StructScale 2 3 (plainSlab 1 1) (plainSlab 2 3) := by
    refine ⟨?_, ?_, ?_, .cons ?_ (.cons ?_ (.cons ?_ .nil))⟩
    · simp only [plainSlab, stretch]; ext <;> simp only <;> ring
    · simp only [plainSlab, stretch]; ext <;> simp only <;> ring
    · simp only [plainSlab]; field_simp
    · exact ⟨rfl, by simp, by simp, rfl, .nil⟩
    · exact ⟨by simp [scalePos], by simp, by simp, rfl, .nil⟩
    · exact ⟨rfl, by simp, by simp, rfl, .nil⟩
  have w1 : Resolved (plainSlab 1 1).b1 (plainSlab 1 1).b2 := (unitSlab_spaced id le_rfl).resolved
  have w2 : Resolved (plainSlab 2 3).b1 (plainSlab 2 3).b2 := (unitSlab_spaced id one_le_two).resolved
  refine C160_scale argsort eigh he 2 3 two_pos three_pos ha _ _ h w1 w2 _
    (sameHomT_of two_pos three_pos h w1 w2 _ fun l hl => Or.inl (plainT_sum _ w1 _ l ?_)) false "average" ks br 0 1 1 _ 0 3
  simp only [plainSlab, List.mem_cons, List.not_mem_nil, or_false] at hl
  rcases hl with rfl | rfl | rfl <;> rfl

end Legume
