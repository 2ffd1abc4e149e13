import Verif.Props.WholeGrad
import Verif.Lemmas.Weyl

/-! # C151: the results of a run depend continuously on the transforms of the layers -/
namespace Legume

open Matrix Spec Finset Filter Topology
open scoped ComplexConjugate Real

theorem countP_map_near (g : ℝ → ℝ) (d : ℝ) : ∀ (l l' : List ℝ), List.Forall₂ (fun a b => g a ≤ g b + d) l l' → ∀ t,
    (l'.map g).countP (fun x => decide (x ≤ t)) ≤ (l.map g).countP (fun x => decide (x ≤ t + d)) := by
  intro l l' h t
  induction h with
  | nil => simp
  | @cons a b _ _ h _ ih =>
    rw [List.map_cons, List.map_cons, List.countP_cons, List.countP_cons]
    refine Nat.add_le_add ih ?_
    by_cases hb : g b ≤ t
    · rw [if_pos (decide_eq_true hb), if_pos (decide_eq_true (by linarith))]
    · rw [if_neg (by simpa using hb)]
      exact Nat.zero_le _

/-- Squared angular frequencies of two Hermitian matrices whose forms differ by at most `d`. -/
theorem squares_near (argsort : List ℝ → List ℕ) (hs : ∀ l, IsArgsort l (argsort l)) {n : ℕ} {A B V W : Matrix (Fin n) (Fin n) ℂ}
    {w u : Fin n → ℝ} (hA : IsEigh A w V) (hB : IsEigh B u W) (d : ℝ) (hd : 0 ≤ d)
    (h : ∀ x, |qform B x - qform A x| ≤ d * ∑ i, ‖x i‖ ^ 2) (numeig i : ℕ) :
    (2 * π * (solvePwe argsort (List.ofFn w) numeig).freq.getD i 0) ^ 2 ≤
      (2 * π * (solvePwe argsort (List.ofFn u) numeig).freq.getD i 0) ^ 2 + d := by
  have key : ∀ {A B V W : Matrix (Fin n) (Fin n) ℂ} {w u : Fin n → ℝ}, IsEigh A w V → IsEigh B u W →
      (∀ x, |qform B x - qform A x| ≤ d * ∑ i, ‖x i‖ ^ 2) → ∀ (j : ℕ) (h1 : j < ((List.ofFn w).mergeSort).length)
      (h2 : j < ((List.ofFn u).mergeSort).length), ((List.ofFn w).mergeSort)[j] ≤ ((List.ofFn u).mergeSort)[j] + d := by
    intro A B V W w u hA hB h j h1 h2
    refine sorted_shift (List.pairwise_mergeSort' (· ≤ ·) _) (List.pairwise_mergeSort' (· ≤ ·) _) d (fun t => ?_) j h1 h2
    rw [(List.mergeSort_perm _ _).countP_eq, (List.mergeSort_perm _ _).countP_eq, countP_ofFn, countP_ofFn]
    exact eigh_count_shift hA hB d (fun x => by linarith [(abs_le.1 (h x)).1]) t
  obtain ⟨L, p1, p2, p3⟩ := solvePwe_squares argsort hs (List.ofFn w) numeig
  obtain ⟨L', q1, q2, q3⟩ := solvePwe_squares argsort hs (List.ofFn u) numeig
  have lw : ((List.ofFn w).mergeSort).length = n := by rw [(List.mergeSort_perm _ _).length_eq, List.length_ofFn]
  have lu : ((List.ofFn u).mergeSort).length = n := by rw [(List.mergeSort_perm _ _).length_eq, List.length_ofFn]
  have lenL : L.length = n := by rw [p1.length_eq]; simp
  have lenL' : L'.length = n := by rw [q1.length_eq]; simp
  have hgd : ∀ l : List ℝ, (2 * π * l.getD i 0) ^ 2 = (l.map fun f => (2 * π * f) ^ 2).getD i 0 := by
    intro l
    rw [List.getD_eq_getElem?_getD, List.getD_eq_getElem?_getD, List.getElem?_map]
    cases l[i]? <;> simp
  rw [hgd, hgd, p3, q3]
  by_cases hi : i < numeig ∧ i < n
  · have e : ∀ l : List ℝ, l.length = n → ∀ h : i < l.length, (l.take numeig).getD i 0 = l[i] := by
      intro l hl h
      rw [List.getD_eq_getElem?_getD, List.getElem?_take_of_lt hi.1, List.getElem?_eq_getElem h, Option.getD_some]
    rw [e L lenL (by omega), e L' lenL' (by omega)]
    refine sorted_shift p2 q2 d (fun t => ?_) i (by omega) (by omega)
    rw [p1.countP_eq, q1.countP_eq, ← ((List.mergeSort_perm (List.ofFn w) _).map fun x => |x - 1|).countP_eq,
      ← ((List.mergeSort_perm (List.ofFn u) _).map fun x => |x - 1|).countP_eq]
    refine countP_map_near _ d _ _ ?_ t
    rw [List.forall₂_iff_get]
    refine ⟨by rw [lw, lu], fun j h1 h2 => ?_⟩
    have k1 := key hA hB h j h1 h2
    have k2 := key hB hA (fun x => by rw [abs_sub_comm]; exact h x) j h2 h1
    rw [List.get_eq_getElem, List.get_eq_getElem]
    have := abs_sub_abs_le_abs_sub (((List.ofFn w).mergeSort)[j] - 1) (((List.ofFn u).mergeSort)[j] - 1)
    have : |((List.ofFn w).mergeSort)[j] - 1 - (((List.ofFn u).mergeSort)[j] - 1)| ≤ d := by
      rw [abs_le]
      constructor <;> linarith
    linarith
  · have e : ∀ l : List ℝ, l.length = n → (l.take numeig).getD i 0 = 0 := by
      intro l hl
      rw [List.getD_eq_getElem?_getD, List.getElem?_eq_none (by rw [List.length_take, hl]; omega), Option.getD_none]
    rw [e L lenL, e L' lenL']
    linarith

theorem solvePwe_getD_nonneg (argsort : List ℝ → List ℕ) (w : List ℝ) (numeig i : ℕ) :
    0 ≤ (solvePwe argsort w numeig).freq.getD i 0 := by
  rw [List.getD_eq_getElem?_getD]
  unfold solvePwe
  simp only [List.getElem?_map]
  cases h : ((argsort (w.map freqOf)).take numeig)[i]? with
  | none => simp
  | some j =>
    simp only [Option.map_some, Option.getD_some]
    rw [List.getD_eq_getElem?_getD, List.getElem?_map]
    cases w[j]? with
    | none => simp
    | some x => exact freqOf_nonneg x

/-- The frequencies of a continuous family of Hermitian matrices are continuous. -/
theorem freq_continuous {T : Type*} [TopologicalSpace T] (argsort : List ℝ → List ℕ) (hs : ∀ l, IsArgsort l (argsort l))
    (eigh : ∀ n, Matrix (Fin n) (Fin n) ℂ → Fin n → ℝ) (he : GoodEigh eigh) {n : ℕ} (A : T → Matrix (Fin n) (Fin n) ℂ)
    (hH : ∀ t, (A t).IsHermitian) (t0 : T) (hc : ∀ i j, ContinuousAt (fun t => A t i j) t0) (numeig i : ℕ) :
    ContinuousAt (fun t => (solvePwe argsort (List.ofFn (eigh n (A t))) numeig).freq.getD i 0) t0 := by
  set f : T → ℝ := fun t => (solvePwe argsort (List.ofFn (eigh n (A t))) numeig).freq.getD i 0 with hf
  have hf0 : ∀ t, 0 ≤ f t := fun t => solvePwe_getD_nonneg _ _ _ _
  set e : T → ℝ := fun t => ∑ i, ∑ j, ‖A t i j - A t0 i j‖ with hed
  have he0 : ∀ t, 0 ≤ e t := fun t => sum_nonneg fun _ _ => sum_nonneg fun _ _ => norm_nonneg _
  have hent : ∀ t i j, ‖A t i j - A t0 i j‖ ≤ e t := by
    intro t i j
    refine le_trans ?_ (single_le_sum (f := fun i => ∑ j, ‖A t i j - A t0 i j‖) (fun _ _ => sum_nonneg fun _ _ => norm_nonneg _)
      (mem_univ i))
    exact single_le_sum (f := fun j => ‖A t i j - A t0 i j‖) (fun _ _ => norm_nonneg _) (mem_univ j)
  have helim : Tendsto (fun t => (n : ℝ) * e t) (𝓝 t0) (𝓝 0) := by
    have h1 : Tendsto e (𝓝 t0) (𝓝 (∑ i : Fin n, ∑ j : Fin n, (0 : ℝ))) := by
      refine tendsto_finsetSum _ fun i _ => tendsto_finsetSum _ fun j _ => ?_
      have := ((hc i j).sub (continuousAt_const (y := A t0 i j))).norm
      simpa [ContinuousAt] using this
    simpa using h1.const_mul (n : ℝ)
  have hy : ∀ t, |(2 * π * f t) ^ 2 - (2 * π * f t0) ^ 2| ≤ n * e t := by
    intro t
    obtain ⟨V, hV⟩ := he _ _ (hH t)
    obtain ⟨W, hW⟩ := he _ _ (hH t0)
    have hb := qform_entry_bound (A t0) (A t) (e t) (hent t)
    have hn : 0 ≤ (n : ℝ) * e t := mul_nonneg (Nat.cast_nonneg _) (he0 t)
    have k1 := squares_near argsort hs hV hW _ hn (fun x => by rw [abs_sub_comm]; exact hb x) numeig i
    have k2 := squares_near argsort hs hW hV _ hn hb numeig i
    rw [abs_le]
    constructor <;> linarith
  have hlim : Tendsto (fun t => (2 * π * f t) ^ 2) (𝓝 t0) (𝓝 ((2 * π * f t0) ^ 2)) := by
    rw [tendsto_iff_dist_tendsto_zero]
    refine squeeze_zero (fun _ => dist_nonneg) (fun t => ?_) helim
    rw [Real.dist_eq]
    exact hy t
  have hsq : Tendsto (fun t => √((2 * π * f t) ^ 2)) (𝓝 t0) (𝓝 (√((2 * π * f t0) ^ 2))) :=
    (Real.continuous_sqrt.tendsto _).comp hlim
  have hpi : (0 : ℝ) < 2 * π := by positivity
  simp only [fun t => Real.sqrt_sq (mul_nonneg hpi.le (hf0 t))] at hsq
  have := hsq.div_const (2 * π)
  simp only [mul_div_cancel_left₀ _ hpi.ne'] at this
  exact this

theorem toepMat_continuousAt {T : Type*} [TopologicalSpace T] (n p : ℕ) (T1 T2 : T → ℕ → ℂ) (t0 : T)
    (h1 : ∀ m, ContinuousAt (fun t => T1 t m) t0) (h2 : ∀ m, ContinuousAt (fun t => T2 t m) t0) (I J : Fin (n * p)) :
    ContinuousAt (fun t => toepMat n p (T1 t) (T2 t) I J) t0 := by
  simp only [toepMat_apply]
  split_ifs
  · exact h2 _
  · exact h1 _
  · exact (h2 _).star
  · exact (h1 _).star
  · exact h2 _
  · exact h1 _
  · exact (h1 _).star

theorem inv_continuousAt {T : Type*} [TopologicalSpace T] {n : ℕ} (A : T → Matrix (Fin n) (Fin n) ℂ) (t0 : T)
    (hA : ∀ i j, ContinuousAt (fun t => A t i j) t0) (hd : (A t0).det ≠ 0) (i j : Fin n) :
    ContinuousAt (fun t => (A t)⁻¹ i j) t0 := by
  have hc : ContinuousAt A t0 := tendsto_pi_nhds.2 fun i => tendsto_pi_nhds.2 fun j => hA i j
  have h1 : ContinuousAt (fun t => (A t).det) t0 := (continuous_id.matrix_det).continuousAt.comp hc
  have h2 : ContinuousAt (fun t => (A t).adjugate i j) t0 :=
    (((continuous_id.matrix_adjugate).matrix_elem i j).continuousAt (x := A t0)).comp hc
  simp only [Matrix.inv_def, Ring.inverse_eq_inv', Matrix.smul_apply, smul_eq_mul]
  exact (h1.inv₀ hd).mul h2

section
variable (b1 b2 : R2) (gmax : ℝ)

/-- The plane waves. -/
local notation "gS" => List.map (gOf b1 b2) (tbtInds (nmaxOf (2 * π) gmax b1) (nmaxOf (2 * π) gmax b2))
/-- Their numbers along the two directions. -/
local notation "p1" => (2 * nmaxOf (2 * π) gmax b1 + 1)
local notation "p2" => (2 * nmaxOf (2 * π) gmax b2 + 1)

/-- **C151 (two-dimensional crystals).** If the transform of the layer at every vector and the wave vectors depend continuously
on any parameters and the run succeeds for some values of them, it succeeds for values nearby, and all returned frequencies are
continuous there, also where bands cross. -/
theorem C151_pwe {T : Type*} [TopologicalSpace T] (argsort : List ℝ → List ℕ) (hs : ∀ l, IsArgsort l (argsort l))
    (eigh : ∀ n, Matrix (Fin n) (Fin n) ℂ → Fin n → ℝ) (he : GoodEigh eigh) (area : ℝ) (epsB epsAvg : T → ℝ)
    (shapes : T → List FShape) (hr : ∀ t, ∀ s ∈ shapes t, RealShape s) (t0 : T)
    (hD : ∀ g, ContinuousAt (fun t => layerFt (epsB t) (epsAvg t) area (shapes t) g) t0) {K : ℕ} (k : Fin K → T → R2)
    (hk : ∀ q, ContinuousAt (k q) t0) (pol : String) (numeig : ℕ) (r0 : List (List ℝ))
    (hok : pweFreqs argsort eigh ⟨b1, b2, area, epsB t0, epsAvg t0, shapes t0⟩ gmax (List.ofFn fun q => k q t0) pol numeig = .ok r0)
    (hK : 0 < K) :
    ∃ rs : T → List (List ℝ), rs t0 = r0 ∧ (∀ᶠ t in 𝓝 t0, pweFreqs argsort eigh ⟨b1, b2, area, epsB t, epsAvg t, shapes t⟩ gmax
        (List.ofFn fun q => k q t) pol numeig = .ok (rs t)) ∧
      ∀ q i, ContinuousAt (fun t => ((rs t).getD q []).getD i 0) t0 := by
  classical
  set FT : T → R2 → ℂ := fun t => layerFt (epsB t) (epsAvg t) area (shapes t) with hFT
  have hF : ∀ t (g : R2), FT t (-g.1, -g.2) = conj (FT t g) := fun t g => (C12_layer_conj _ _ _ _ (hr t) g).1
  set T1 : T → ℕ → ℂ := fun t => T1raw (FT t) gS with hT1
  set T2 : T → ℕ → ℂ := fun t => T2raw (FT t) gS p2 with hT2
  have hl : (gS).length = p1 * p2 := by rw [List.length_map, tbtInds_length]
  have hm : ∀ t, (⟨b1, b2, area, epsB t, epsAvg t, shapes t⟩ : PweLayer).epsMat gmax =
      (of fun I J : Fin (gS).length => toeplitzBlock p1 (gS).length false (T1 t) (T2 t) I J) := by
    intro t
    ext I J
    exact toeplitzBlock_real _ _ _ _ _ (fun _ => layerFt_castTo _ _ _ _ _) (fun _ => layerFt_castTo _ _ _ _ _) _ _
  have hdetE : ∀ t, ((⟨b1, b2, area, epsB t, epsAvg t, shapes t⟩ : PweLayer).epsMat gmax).det =
      (toepMat p1 p2 (T1 t) (T2 t)).det := by
    intro t
    rw [hm]
    exact (pweRun_resize argsort eigh pol 0 gS p1 p2 hl (T1 t) (T2 t) numeig).1
  have hdet : (toepMat p1 p2 (T1 t0) (T2 t0)).det ≠ 0 := by
    unfold pweFreqs pweSim at hok
    intro h0
    rw [if_pos (by rw [hdetE]; exact h0)] at hok
    cases hok
  obtain ⟨P, hpol⟩ : ∃ P, parsePol pol = .ok P := by
    cases hp : parsePol pol with
    | ok P => exact ⟨P, rfl⟩
    | error e =>
      exfalso
      obtain ⟨K', rfl⟩ : ∃ K', K = K' + 1 := ⟨K - 1, by omega⟩
      unfold pweFreqs pweSim at hok
      rw [if_neg (by rw [hdetE]; exact hdet), List.ofFn_succ, List.mapM_cons] at hok
      simp only [pweRun, hp, Bind.bind, Except.bind, Except.map] at hok
      cases hok
  set A : T → R2 → Matrix (Fin (p1 * p2)) (Fin (p1 * p2)) ℂ := fun t k => pweMat P k (fun i : Fin (p1 * p2) => (gS).getD i 0)
    (toepMat p1 p2 (T1 t) (T2 t))⁻¹ + 1 with hA
  set sol : T → R2 → KRes := fun t k => solvePwe argsort (List.ofFn (eigh _ (A t k))) numeig with hsol
  have hrun : ∀ t k, pweRun argsort (eigh _) pol k ((⟨b1, b2, area, epsB t, epsAvg t, shapes t⟩ : PweLayer).gAt gmax)
      ((⟨b1, b2, area, epsB t, epsAvg t, shapes t⟩ : PweLayer).epsMat gmax)⁻¹ numeig = .ok (sol t k) := by
    intro t k
    rw [hm]
    refine ((pweRun_resize argsort eigh pol k gS p1 p2 hl (T1 t) (T2 t) numeig).2).trans ?_
    unfold pweRun
    rw [hpol]
  have hfr : ∀ t, (toepMat p1 p2 (T1 t) (T2 t)).det ≠ 0 →
      pweFreqs argsort eigh ⟨b1, b2, area, epsB t, epsAvg t, shapes t⟩ gmax (List.ofFn fun q => k q t) pol numeig =
        .ok ((List.ofFn fun q => k q t).map fun k => (sol t k).freq) := by
    intro t hd
    unfold pweFreqs pweSim
    rw [if_neg (by rw [hdetE]; exact hd)]
    simp only [hrun, mapM_ok_map]
    simp [Except.map, List.map_map, Function.comp_def]
  have h1 : ∀ m, ContinuousAt (fun t => T1 t m) t0 := fun m => hD _
  have h2 : ∀ m, ContinuousAt (fun t => T2 t m) t0 := fun m => hD _
  have hEc : ContinuousAt (fun t => toepMat p1 p2 (T1 t) (T2 t)) t0 := by
    exact tendsto_pi_nhds.2 fun i => tendsto_pi_nhds.2 fun j => toepMat_continuousAt _ _ T1 T2 t0 h1 h2 i j
  have hev : ∀ᶠ t in 𝓝 t0, (toepMat p1 p2 (T1 t) (T2 t)).det ≠ 0 := by
    have hd : ContinuousAt (fun t => (toepMat p1 p2 (T1 t) (T2 t)).det) t0 :=
      (continuous_id.matrix_det).continuousAt.comp hEc
    exact hd.eventually_ne hdet
  have hinv : ∀ i j, ContinuousAt (fun t => (toepMat p1 p2 (T1 t) (T2 t))⁻¹ i j) t0 :=
    inv_continuousAt _ t0 (fun i j => toepMat_continuousAt _ _ T1 T2 t0 h1 h2 i j) hdet
  refine ⟨fun t => (List.ofFn fun q => k q t).map fun k => (sol t k).freq, ?_, hev.mono fun t ht => hfr t ht, fun q i => ?_⟩
  · exact Except.ok.inj ((hfr t0 hdet).symm.trans hok)
  · by_cases hq : q < K
    · have e : ∀ t, ((List.ofFn fun q => k q t).map fun k => (sol t k).freq).getD q [] = (sol t (k ⟨q, hq⟩ t)).freq := by
        intro t
        rw [List.getD_eq_getElem?_getD, List.getElem?_map, List.getElem?_ofFn, dif_pos hq]
        rfl
      simp only [e]
      refine freq_continuous argsort hs eigh he (fun t => A t (k ⟨q, hq⟩ t)) (fun t => ?_) t0 (fun a b => ?_) numeig i
      · exact pweMat_hermitian P _ _ _
          (toepMat_hermitian _ _ _ _ (raw_consistent (FT t) (hF t) gS p1 p2 (Nat.succ_pos _))).inv
      · simp only [hA, Matrix.add_apply, pweMat_factor]
        refine ContinuousAt.add (ContinuousAt.mul ?_ (hinv a b)) continuousAt_const
        refine Complex.continuous_ofReal.continuousAt.comp ?_
        have hk1 : ContinuousAt (fun t => (k ⟨q, hq⟩ t).1) t0 := (hk ⟨q, hq⟩).fst
        have hk2 : ContinuousAt (fun t => (k ⟨q, hq⟩ t).2) t0 := (hk ⟨q, hq⟩).snd
        unfold pweFactor kPlusG
        cases P <;> simp only <;> fun_prop
    · have e : ∀ t, ((List.ofFn fun q => k q t).map fun k => (sol t k).freq).getD q [] = [] := by
        intro t
        rw [List.getD_eq_getElem?_getD, List.getElem?_eq_none (by simpa using hq)]
        rfl
      simp only [e]
      exact continuousAt_const

end

theorem bind_eq_ok {A B : Type} {x : Except PyErr A} {f : A → Except PyErr B} {r : B} (h : x.bind f = .ok r) :
    ∃ v, x = .ok v ∧ f v = .ok r := by
  cases x with
  | error e => cases h
  | ok v => exact ⟨v, rfl, h⟩

theorem gmeMatIj_continuousAt {T : Type*} [TopologicalSpace T] {N : ℕ} (ij : LPos → ℂ → ℂ) (stack : List (LPos × ℝ)) {L : ℕ}
    (basis : List (BasisEl N)) (F : Fin L → T → Matrix (Fin N) (Fin N) ℂ) (t0 : T)
    (hF : ∀ l a b, ContinuousAt (fun t => F l t a b) t0) (i j : Fin basis.length) :
    ContinuousAt (fun t => gmeMatIj ij stack (List.ofFn fun l => F l t) basis i j) t0 := by
  have hel : ∀ s u : Fin basis.length, ContinuousAt (fun t => blockUpper (fun a => ((basis[a]?).map BasisEl.blk).getD 0) (fun a b =>
      match basis[a]?, basis[b]? with
      | some s, some u => gmeElem ij stack ((List.ofFn fun l => F l t).map fun E => E s.ig u.ig) s.st u.st
      | _, _ => 0) s u) t0 := by
    intro s u
    have gs : basis[(s : ℕ)]? = some basis[s] := List.getElem?_eq_getElem s.2
    have gu : basis[(u : ℕ)]? = some basis[u] := List.getElem?_eq_getElem u.2
    simp only [blockUpper, gs, gu, Option.map_some, Option.getD_some, List.map_ofFn]
    by_cases hb : basis[u].blk < basis[s].blk
    · simp only [if_pos hb]
      exact continuousAt_const
    · simp only [if_neg hb]
      have e1 : ∀ f : Fin L → Matrix (Fin N) (Fin N) ℂ, gmeElem ij stack (List.ofFn
          ((fun E : Matrix (Fin N) (Fin N) ℂ => E basis[s].ig basis[u].ig) ∘ f)) basis[s].st basis[u].st =
          ∑ l, f l basis[s].ig basis[u].ig * gmeCoef ij stack L l basis[s].st basis[u].st := fun f => gmeElem_coef _ _ _ _ _
      simp only [e1]
      exact tendsto_finsetSum _ fun l _ => (hF l _ _).mul continuousAt_const
  unfold gmeMatIj
  simp only [of_apply, completeMat]
  refine ((ContinuousAt.add ?_ ?_).add ?_)
  · by_cases h : (i : ℕ) < j
    · simp only [if_pos h]
      exact hel i j
    · simp only [if_neg h]
      exact continuousAt_const
  · by_cases h : (j : ℕ) < i
    · simp only [if_pos h]
      exact (hel j i).star
    · simp only [if_neg h, map_zero]
      exact continuousAt_const
  · by_cases h : (i : ℕ) = j
    · simp only [if_pos h]
      exact (Complex.continuous_ofReal.comp Complex.continuous_re).continuousAt.comp (hel i i)
    · simp only [if_neg h]
      exact continuousAt_const

section
variable (b1 b2 : R2) (gmax : ℝ)

/-- The integer coordinates of the plane waves. -/
local notation "iG" => absInds b1 b2 gmax
/-- Their unique differences. -/
local notation "iU" => absUnique (absInds b1 b2 gmax)
/-- The number of plane waves. -/
local notation "iN" => List.length (List.map (gOf b1 b2) (absInds b1 b2 gmax))

/-- **C151 (guided modes).** A run with `truncate_g='abs'` and `eig_sigma=0` for structures whose effective permittivities do not
depend on the parameters, at whose values `t0` it succeeds, no layer sits exactly on the threshold of homogeneity and no mean
permittivity vanishes. Then it succeeds for values nearby and all returned frequencies are continuous at `t0`, also where bands
cross. -/
theorem C151_gme {T : Type*} [TopologicalSpace T] (ij : LPos → ℂ → ℂ) (argsort : List ℝ → List ℕ)
    (hs : ∀ l, IsArgsort l (argsort l)) (eigh : ∀ n, Matrix (Fin n) (Fin n) ℂ → Fin n → ℝ) (he : GoodEigh eigh)
    (guided : GuidedSolver) (area : ℝ) {L : ℕ} (lay : Fin L → T → GmeLay) (opt : String) (hg : 0 ≤ gmax) (pos : Fin L → LPos)
    (eps : Fin L → ℝ) (hpos : ∀ l t, (lay l t).pos = pos l) (heps : ∀ l t, (lay l t).eff opt = .ok (eps l)) (t0 : T)
    (hD : ∀ l g, ContinuousAt (fun t => layFt area (lay l t) g) t0)
    (hthr : ∀ l, homSum (layFt area (lay l t0)) b1 b2 iG ≠ 1e-10)
    (hzero : ∀ l, epsMatAbs (layFt area (lay l t0)) b1 b2 iG 0 0 ≠ 0) (ks : List R2) (numeig : ℕ) (r0 : List KRes)
    (hok : gmeSimIj ij argsort eigh guided (withLayers b1 b2 area fun l => lay l t0) gmax false opt ks 0 numeig = .ok r0) :
    ∃ rs : T → List KRes, rs t0 = r0 ∧ (∀ᶠ t in 𝓝 t0, gmeSimIj ij argsort eigh guided (withLayers b1 b2 area fun l => lay l t)
        gmax false opt ks 0 numeig = .ok (rs t)) ∧
      ∀ q i : ℕ, ContinuousAt (fun t => (((rs t)[q]?).map fun (r : KRes) => r.freq.getD i 0).getD 0) t0 := by
  classical
  -- what the run at `t0` did
  have heffs : ∀ t, (List.ofFn fun l => lay l t).mapM (GmeLay.eff opt) = .ok (List.ofFn eps) := fun t =>
    mapM_ofFn_ok _ _ _ fun l => heps l t
  have hposs : ∀ t, (List.ofFn fun l => lay l t).map GmeLay.pos = List.ofFn pos := by
    intro t
    rw [List.map_ofFn]
    congr 1
    funext l
    exact hpos l t
  obtain ⟨heinv, hgd⟩ : (∀ l, ∃ E, (withLayers b1 b2 area fun l => lay l t0).epsInv gmax false (lay l t0) = .ok E) ∧
      ∀ q : Fin ks.length, ∃ v : List (BasisEl iN), guided ((List.ofFn pos).zip (List.ofFn eps)) ((iG).map (gOf b1 b2)) ks q =
        .ok v ∧ numeig ≤ v.length := by
    have hok' := hok
    unfold gmeSimIj at hok'
    simp only [withLayers] at hok' ⊢
    rw [heffs t0] at hok'
    simp only [Bind.bind, Except.bind] at hok'
    cases hm : (List.ofFn fun l => lay l t0).mapM ((withLayers b1 b2 area fun l => lay l t0).epsInv gmax false) with
    | error e =>
      simp only [withLayers] at hm
      rw [hm] at hok'
      cases hok'
    | ok es =>
      simp only [withLayers] at hm
      rw [hm] at hok'
      simp only [hposs t0] at hok'
      obtain ⟨l1, l2⟩ := (mapM_ok_iff _ _ _).1 hm
      obtain ⟨g1, g2⟩ := (mapM_ok_iff _ _ _).1 hok'
      refine ⟨fun l => ?_, fun q => ?_⟩
      · have hl : (l : ℕ) < es.length := by rw [l1, List.length_ofFn]; exact l.2
        exact ⟨es[(l : ℕ)], l2 l _ _ (by rw [List.getElem?_ofFn, dif_pos l.2]) (List.getElem?_eq_getElem hl)⟩
      · have hq : (q : ℕ) < r0.length := by rw [g1, List.length_range]; exact q.2
        have h3 := g2 q _ _ (List.getElem?_range q.2) (List.getElem?_eq_getElem hq)
        replace h3 : (guided ((List.ofFn pos).zip (List.ofFn eps)) ((iG).map (gOf b1 b2)) ks q).bind
            (fun (v : List (BasisEl iN)) => solveFull argsort (List.ofFn (eigh v.length (gmeMatIj (N := iN) ij
              ((List.ofFn pos).zip (List.ofFn eps)) es v + (1 : Matrix (Fin v.length) (Fin v.length) ℂ)))) 0 numeig) = .ok r0[(q : ℕ)] := h3
        obtain ⟨v, v1, v2⟩ := bind_eq_ok h3
        refine ⟨v, v1, ?_⟩
        by_contra hlt
        unfold solveFull at v2
        rw [if_pos (by rw [List.length_ofFn]; exact not_le.1 hlt)] at v2
        cases v2
  choose einv heinv using heinv
  choose basis hguided hnum using hgd
  have hlenN : iN = (iG).length := List.length_map _
  have hne : iG ≠ [] := absInds_ne_nil b1 b2 gmax hg
  have hodd := absUnique_length_odd iG hne
  obtain ⟨h, hU⟩ : ∃ h, (iU).length = 2 * h + 1 := ⟨(iU).length / 2, by omega⟩
  have hhalf : (2 * h + 1 - 1) / 2 = h := by omega
  set idx : Fin iN → Fin iN → ℕ := fun i j => (iU).idxOf (((iG).getD j 0).1 - ((iG).getD i 0).1,
    ((iG).getD j 0).2 - ((iG).getD i 0).2) with hidxd
  have hidx : ∀ i j, idx i j < (iU).length := by
    intro i j
    apply List.idxOf_lt_length_of_mem
    have hm : ∀ i : Fin iN, (iG).getD i 0 ∈ iG := fun i => by
      rw [getD_of_len (hlenN ▸ i.2)]; exact List.getElem_mem _
    exact (mem_absUnique _ _).2 ⟨_, hm i, _, hm j, rfl⟩
  have h0mem : ((0, 0) : ℤ × ℤ) ∈ iU := (mem_absUnique _ _).2
    ⟨(0, 0), absInds_zero b1 b2 gmax hg, (0, 0), absInds_zero b1 b2 gmax hg, by simp⟩
  set u0 := (iU).idxOf (0, 0) with hu0d
  have hu0 : u0 < (iU).length := List.idxOf_lt_length_of_mem h0mem
  set S : Fin L → T → ℕ → ℂ := fun l t u => (epsUniq (layFt area (lay l t)) b1 b2 (iU)).getD u 0 with hSd
  have hcont : ∀ l u, ContinuousAt (fun t => S l t u) t0 := by
    intro l u
    simp only [S, epsUniq_getD _ b1 b2 iU h hU]
    split_ifs
    · exact hD l _
    · exact (hD l _).star
    · exact continuousAt_const
  -- the matrices in terms of the samples
  have hent : ∀ l t (i j : Fin iN), epsMatAbs (layFt area (lay l t)) b1 b2 iG i j = S l t (idx i j) := fun _ _ _ _ => rfl
  have hent0 : ∀ l t, epsMatAbs (layFt area (lay l t)) b1 b2 iG 0 0 = S l t u0 := by
    intro l t
    simp only [epsMatAbs, S, u0, sub_self]
  set hom : Fin L → Bool := fun l => decide (homAbs (layFt area (lay l t0)) b1 b2 iG) with hhom
  have hEinv : ∀ l t, (homAbs (layFt area (lay l t)) b1 b2 iG ↔ hom l = true) →
      (hom l = false → (of fun i j => S l t (idx i j)).det ≠ 0) →
      (withLayers b1 b2 area fun l => lay l t).epsInv gmax false (lay l t) = .ok (gmeEinv idx u0 (hom l) (S l t)) := by
    intro l t h1 h2
    have e0 : (withLayers b1 b2 area fun l => lay l t).epsInv gmax false (lay l t) =
        if homAbs (layFt area (lay l t)) b1 b2 iG ∨ false = true then
          .ok ((epsMatAbs (layFt area (lay l t)) b1 b2 iG 0 0)⁻¹ • 1)
        else if (of fun i j => S l t (idx i j)).det = 0 then .error .valueError
        else .ok (of fun i j => S l t (idx i j))⁻¹ := rfl
    rw [e0]
    unfold gmeEinv
    by_cases hh : hom l = true
    · rw [if_pos (Or.inl (h1.2 hh)), if_pos hh, ← hent0]
    · have hf : hom l = false := by simpa using hh
      rw [if_neg (by
        rintro (h | h)
        · exact hh (h1.1 h)
        · simp at h), if_neg hh]
      rw [if_neg (h2 hf)]
  have hinv : ∀ l, if hom l then S l t0 u0 ≠ 0 else (of fun i j => S l t0 (idx i j)).det ≠ 0 := by
    intro l
    by_cases hh : hom l = true
    · rw [if_pos hh, ← hent0]
      exact hzero l
    · rw [if_neg hh]
      have hM := heinv l
      have e0 : (withLayers b1 b2 area fun l => lay l t0).epsInv gmax false (lay l t0) =
          if homAbs (layFt area (lay l t0)) b1 b2 iG ∨ false = true then
            .ok ((epsMatAbs (layFt area (lay l t0)) b1 b2 iG 0 0)⁻¹ • 1)
          else if (of fun i j => S l t0 (idx i j)).det = 0 then .error .valueError
          else .ok (of fun i j => S l t0 (idx i j))⁻¹ := rfl
      rw [e0] at hM
      rw [if_neg (by
        rintro (h | h)
        · exact hh (by simpa [hom] using h)
        · simp at h)] at hM
      intro h0
      rw [if_pos h0] at hM
      cases hM
  have hsum : ∀ l, ContinuousAt (fun t => homSum (layFt area (lay l t)) b1 b2 iG) t0 := by
    intro l
    unfold homSum
    refine tendsto_finsetSum _ fun i hi => tendsto_finsetSum _ fun j hj => ?_
    split_ifs
    · exact (hcont l ((iU).idxOf (((iG).getD j 0).1 - ((iG).getD i 0).1, ((iG).getD j 0).2 - ((iG).getD i 0).2))).norm
    · exact tendsto_const_nhds
  have hev1 : ∀ l, ∀ᶠ t in 𝓝 t0, (homAbs (layFt area (lay l t)) b1 b2 iG ↔ hom l = true) := by
    intro l
    rcases lt_or_gt_of_ne (hthr l) with h1 | h1
    · filter_upwards [(hsum l).eventually (gt_mem_nhds h1)] with t ht
      simp only [hom, homAbs_iff, decide_eq_true_eq]
      exact iff_of_true ht h1
    · filter_upwards [(hsum l).eventually (lt_mem_nhds h1)] with t ht
      simp only [hom, homAbs_iff, decide_eq_true_eq]
      exact iff_of_false (not_lt.2 ht.le) (not_lt.2 h1.le)
  have hev2 : ∀ l, ∀ᶠ t in 𝓝 t0, (hom l = false → (of fun i j => S l t (idx i j)).det ≠ 0) := by
    intro l
    by_cases hh : hom l = true
    · exact Eventually.of_forall fun t hf => by rw [hh] at hf; cases hf
    · have h1 := hinv l
      rw [if_neg hh] at h1
      have hc : ContinuousAt (fun t => (of fun i j => S l t (idx i j) : Matrix (Fin iN) (Fin iN) ℂ)) t0 := by
        refine tendsto_pi_nhds.2 fun i => tendsto_pi_nhds.2 fun j => ?_
        exact hcont l (idx i j)
      have hd : ContinuousAt (fun t => (of fun i j => S l t (idx i j) : Matrix (Fin iN) (Fin iN) ℂ).det) t0 :=
        (continuous_id.matrix_det).continuousAt.comp hc
      filter_upwards [hd.eventually_ne h1] with t ht _
      exact ht
  set stack := (List.ofFn pos).zip (List.ofFn eps) with hstack
  set A : ∀ (q : Fin ks.length) (_ : T), Matrix (Fin (basis q).length) (Fin (basis q).length) ℂ := fun q t =>
    gmeMatIj ij stack (List.ofFn fun l => gmeEinv idx u0 (hom l) (S l t)) (basis q) + 1 with hA
  have hsol : ∀ t q, ∃ r, solveFull argsort (List.ofFn (eigh _ (A q t))) 0 numeig = .ok r ∧
      r.freq = (solvePwe argsort (List.ofFn (eigh _ (A q t))) numeig).freq := fun t q =>
    solveFull_zero argsort hs _ numeig (by rw [List.length_ofFn]; exact hnum q)
  choose sol hsolve hfreq using hsol
  have hrun : ∀ᶠ t in 𝓝 t0, gmeSimIj ij argsort eigh guided (withLayers b1 b2 area fun l => lay l t) gmax false opt ks 0 numeig =
      .ok (List.ofFn (sol t)) := by
    filter_upwards [eventually_all.2 hev1, eventually_all.2 hev2] with t h1 h2
    have m1 : (List.ofFn fun l => lay l t).mapM (GmeLay.eff opt) = .ok (List.ofFn eps) :=
      mapM_ofFn_ok _ _ _ fun l => heps l t
    have m2 : (List.ofFn fun l => lay l t).mapM ((withLayers b1 b2 area fun l => lay l t).epsInv gmax false) =
        .ok (List.ofFn fun l => gmeEinv idx u0 (hom l) (S l t)) :=
      mapM_ofFn_ok _ _ _ fun l => hEinv l t (h1 l) (h2 l)
    have m3 : (List.ofFn fun l => lay l t).map GmeLay.pos = List.ofFn pos := by
      rw [List.map_ofFn]
      congr 1
      funext l
      exact hpos l t
    unfold gmeSimIj
    simp only [withLayers] at m1 m2 m3 ⊢
    rw [m1]
    simp only [Bind.bind, Except.bind]
    rw [m2]
    simp only [m3]
    rw [mapM_ok_iff]
    refine ⟨by simp, fun i a b ha hb => ?_⟩
    have hi : i < ks.length := by
      have := (List.getElem?_eq_some_iff.1 ha).1
      simpa using this
    rw [List.getElem?_range hi] at ha
    rw [List.getElem?_ofFn, dif_pos hi] at hb
    rw [← Option.some.inj ha, ← Option.some.inj hb]
    have hgq := hguided ⟨i, hi⟩
    show (guided stack ((iG).map (gOf b1 b2)) ks i).bind (fun (v : List (BasisEl iN)) => solveFull argsort (List.ofFn (eigh v.length (gmeMatIj ij stack
        (List.ofFn fun l => gmeEinv idx u0 (hom l) (S l t)) v + 1))) 0 numeig) = Except.ok (sol t ⟨i, hi⟩)
    rw [hgq]
    exact hsolve t ⟨i, hi⟩
  refine ⟨fun t => List.ofFn (sol t), ?_, hrun, fun q i => ?_⟩
  · exact Except.ok.inj (hrun.self_of_nhds.symm.trans hok)
  · by_cases hq : q < ks.length
    · have e : ∀ t, (((List.ofFn (sol t))[q]?).map fun r => r.freq.getD i 0).getD 0 =
          (solvePwe argsort (List.ofFn (eigh _ (A ⟨q, hq⟩ t))) numeig).freq.getD i 0 := by
        intro t
        rw [List.getElem?_ofFn, dif_pos hq, Option.map_some, Option.getD_some, hfreq]
      simp only [e]
      refine freq_continuous argsort hs eigh he (fun t => A ⟨q, hq⟩ t) (fun t => ?_) t0 (fun a b => ?_) numeig i
      · exact (gmeMatIj_herm _ _ _ _).add Matrix.isHermitian_one
      · simp only [hA, Matrix.add_apply]
        refine ContinuousAt.add (gmeMatIj_continuousAt ij stack _ (fun l t => gmeEinv idx u0 (hom l) (S l t)) t0
          (fun l a b => ?_) a b) continuousAt_const
        have h1 := hinv l
        unfold gmeEinv
        by_cases hh : hom l = true
        · rw [if_pos hh] at h1
          simp only [if_pos hh, Matrix.smul_apply, smul_eq_mul]
          exact ((hcont l u0).inv₀ h1).mul continuousAt_const
        · rw [if_neg hh] at h1
          simp only [if_neg hh]
          exact inv_continuousAt (fun t => of fun i j => S l t (idx i j)) t0 (fun i j => hcont l (idx i j)) h1 a b
    · have e : ∀ t, (((List.ofFn (sol t))[q]?).map fun r => r.freq.getD i 0).getD 0 = 0 := by
        intro t
        rw [List.getElem?_eq_none (by simpa using hq)]
        rfl
      simp only [e]
      exact continuousAt_const

end

/-- The mean permittivity of a layer and two wave vectors that depend on it, any lattice: degenerate for `t = 2`. -/
example (argsort : List ℝ → List ℕ) (hs : ∀ l, IsArgsort l (argsort l))
    (eigh : ∀ n, Matrix (Fin n) (Fin n) ℂ → Fin n → ℝ) (he : GoodEigh eigh) (b1 b2 : R2) :
    ∃ rs : ℝ → List (List ℝ), (∀ᶠ t in 𝓝 (2 : ℝ), pweFreqs argsort eigh ⟨b1, b2, 1, 1, t, []⟩ 0
        (List.ofFn fun q : Fin 2 => (t, (q : ℝ) * (t - 2))) "te" 1 = .ok (rs t)) ∧
      ContinuousAt (fun t => ((rs t).getD 1 []).getD 0 0 - ((rs t).getD 0 []).getD 0 0) 2 := by
  classical
  obtain ⟨r0, hr0⟩ := pweFreqs_one argsort eigh b1 b2 (List.ofFn fun q : Fin 2 => ((2 : ℝ), (q : ℝ) * (2 - 2))) 1
  obtain ⟨rs, -, k1, k2⟩ := C151_pwe b1 b2 0 argsort hs eigh he 1 (fun _ : ℝ => 1) (fun t => t) (fun _ => [])
    (fun _ s hs => by cases hs) 2 (fun g => by
      simp only [layerFt_uniform]
      split_ifs
      · exact Complex.continuous_ofReal.continuousAt
      · exact continuousAt_const) (fun (q : Fin 2) t => (t, (q : ℝ) * (t - 2)))
    (fun q => by fun_prop) "te" 1 r0 hr0 (by norm_num)
  exact ⟨rs, k1, (k2 1 0).sub (k2 0 0)⟩

/-- A homogeneous layer whose effective permittivity was set by hand, its permittivity varied, any lattice and any `gmax`. -/
example (argsort : List ℝ → List ℕ) (hs : ∀ l, IsArgsort l (argsort l))
    (eigh : ∀ n, Matrix (Fin n) (Fin n) ℂ → Fin n → ℝ) (he : GoodEigh eigh) (b1 b2 : R2) (gmax : ℝ) (hg : 0 ≤ gmax)
    (guided : GuidedSolver) (h0 : 0 < ((absInds b1 b2 gmax).map (gOf b1 b2)).length)
    (hgd : guided [(.inner 1, 1)] ((absInds b1 b2 gmax).map (gOf b1 b2)) [(1, 0)] 0 =
      .ok [⟨0, ⟨0, h0⟩, ⟨.te, 1, 0, 1, [⟨1, 0, 0⟩]⟩⟩]) :
    ∃ rs : ℝ → List KRes, (∀ᶠ t in 𝓝 (2 : ℝ), gmeSimIj (fun _ _ => 1) argsort eigh guided
      (withLayers b1 b2 1 fun _ : Fin 1 => ⟨.inner 1, 1, t, some 1, []⟩) gmax false "custom" [(1, 0)] 0 1 = .ok (rs t)) ∧
      ContinuousAt (fun t => (((rs t)[0]?).map fun (r : KRes) => r.freq.getD 0 0).getD 0) 2 := by
  classical
  have hz : epsMatAbs (layFt 1 ⟨.inner 1, 1, 2, some 1, []⟩) b1 b2 (absInds b1 b2 gmax) 0 0 = 2 := by
    have h1 := gme_entry_diff ⟨b1, b2, 1, []⟩ ⟨.inner 1, 1, 2, some 1, []⟩ (fun s hs => by cases hs) gmax ⟨0, h0⟩ ⟨0, h0⟩
    refine Eq.trans (show _ = (⟨b1, b2, 1, []⟩ : GmeStruct).epsMat gmax ⟨.inner 1, 1, 2, some 1, []⟩ ⟨0, h0⟩ ⟨0, h0⟩ from rfl)
      (h1.trans ?_)
    unfold GmeStruct.ft
    rw [layerFt_uniform, sub_self, if_pos isG0_zero]
    norm_num
  have hei : ∃ E, (withLayers b1 b2 1 fun _ : Fin 1 => ⟨.inner 1, 1, 2, some 1, []⟩).epsInv gmax false
      ⟨.inner 1, 1, 2, some 1, []⟩ = .ok E := by
    have e0 : (withLayers b1 b2 1 fun _ : Fin 1 => ⟨.inner 1, 1, 2, some 1, []⟩).epsInv gmax false
        ⟨.inner 1, 1, 2, some 1, []⟩ =
        if homAbs (layFt 1 ⟨.inner 1, 1, 2, some 1, []⟩) b1 b2 (absInds b1 b2 gmax) ∨ false = true then
          .ok ((epsMatAbs (layFt 1 ⟨.inner 1, 1, 2, some 1, []⟩) b1 b2 (absInds b1 b2 gmax) 0 0)⁻¹ • 1)
        else if ((withLayers b1 b2 1 fun _ : Fin 1 => ⟨.inner 1, 1, 2, some 1, []⟩).epsMat gmax
          ⟨.inner 1, 1, 2, some 1, []⟩).det = 0 then .error .valueError
        else .ok ((withLayers b1 b2 1 fun _ : Fin 1 => ⟨.inner 1, 1, 2, some 1, []⟩).epsMat gmax
          ⟨.inner 1, 1, 2, some 1, []⟩)⁻¹ := rfl
    refine ⟨_, e0.trans (if_pos (Or.inl ?_))⟩
    rw [homAbs_iff, homSum_uniform]
    norm_num
  obtain ⟨E, hei⟩ := hei
  obtain ⟨r0, hr0⟩ : ∃ r0, gmeSimIj (fun _ _ => 1) argsort eigh guided
      (withLayers b1 b2 1 fun _ : Fin 1 => ⟨.inner 1, 1, 2, some 1, []⟩) gmax false "custom" [(1, 0)] 0 1 = .ok r0 := by
    have m1 : (List.ofFn fun _ : Fin 1 => (⟨.inner 1, 1, 2, some 1, []⟩ : GmeLay)).mapM (GmeLay.eff "custom") =
        .ok (List.ofFn fun _ : Fin 1 => (1 : ℝ)) := mapM_ofFn_ok _ _ _ fun _ => by simp [GmeLay.eff]
    have m2 : (List.ofFn fun _ : Fin 1 => (⟨.inner 1, 1, 2, some 1, []⟩ : GmeLay)).mapM
        ((withLayers b1 b2 1 fun _ : Fin 1 => ⟨.inner 1, 1, 2, some 1, []⟩).epsInv gmax false) =
        .ok (List.ofFn fun _ : Fin 1 => E) := mapM_ofFn_ok _ _ _ fun _ => hei
    unfold gmeSimIj
    simp only [withLayers] at m1 m2 ⊢
    rw [m1]
    simp only [Bind.bind, Except.bind]
    rw [m2]
    obtain ⟨r, hr, -⟩ := solveFull_zero argsort hs (List.ofFn (eigh _ (gmeMatIj (fun _ _ => 1) [(.inner 1, 1)]
      (List.ofFn fun _ : Fin 1 => E) ([⟨0, ⟨0, h0⟩, ⟨.te, 1, 0, 1, [⟨1, 0, 0⟩]⟩⟩] : List (BasisEl
        ((absInds b1 b2 gmax).map (gOf b1 b2)).length)) + 1))) 1 (by rw [List.length_ofFn]; exact le_refl 1)
    refine ⟨[r], (mapM_ok_iff _ _ _).2 ⟨rfl, fun i a b ha hb => ?_⟩⟩
    have hi : i = 0 := by
      have := (List.getElem?_eq_some_iff.1 hb).1
      simpa using this
    subst hi
    rw [← Option.some.inj hb]
    have ha' : a = 0 := (Option.some.inj ha).symm
    rw [ha']
    show (guided [(.inner 1, 1)] ((absInds b1 b2 gmax).map (gOf b1 b2)) [(1, 0)] 0).bind
        (fun (v : List (BasisEl ((absInds b1 b2 gmax).map (gOf b1 b2)).length)) => solveFull argsort (List.ofFn (eigh v.length
          (gmeMatIj (N := ((absInds b1 b2 gmax).map (gOf b1 b2)).length) (fun _ _ => 1) [(.inner 1, 1)]
            (List.ofFn fun _ : Fin 1 => E) v + (1 : Matrix (Fin v.length) (Fin v.length) ℂ)))) 0 1) = .ok r
    rw [hgd]
    exact hr
  obtain ⟨rs, -, k1, k2⟩ := C151_gme b1 b2 gmax (fun _ _ => 1) argsort hs eigh he guided 1
    (fun (_ : Fin 1) (t : ℝ) => ⟨.inner 1, 1, t, some 1, []⟩) "custom" hg (fun _ => .inner 1) (fun _ => 1) (fun _ _ => rfl)
    (fun _ _ => by simp [GmeLay.eff]) 2 (fun _ g => by
      simp only [layFt, layerFt_uniform]
      split_ifs
      · exact Complex.continuous_ofReal.continuousAt
      · exact continuousAt_const) (fun _ => by rw [homSum_uniform]; norm_num) (fun _ => by rw [hz]; norm_num) [(1, 0)] 1 r0 hr0
  exact ⟨rs, k1, k2 0 0⟩

end Legume
