import Mathlib.Analysis.Calculus.Deriv.Mul
import Mathlib.Analysis.Calculus.Deriv.Slope
import Mathlib.Algebra.Field.Rat
import Mathlib.Tactic.Linarith
import Mathlib.Tactic.FieldSimp
import Verif.Model.NumVjp
import Verif.Props.Utils
import Verif.Lemmas.Symmetry

/-! # C90: numerical vector-Jacobian products -/
namespace Legume

section
variable {K : Type*} [Field K]

/-- **C90 (one maker per argument).** `vjp_maker_num` returns one maker per listed argument if there is a
step for each, and raises `IndexError` otherwise; the maker number `ia` differentiates with respect to the
argument `arg_inds[ia]` with the step `steps[ia]`: the entry `p` of its product with `v` is the sum over the
outputs of `v` times the forward difference quotient in the component `p`. The caller's arrays are
unchanged. -/
theorem C90_makers (fn : List (List K) → List K) (argInds : List ℕ) (steps : List K) :
    (argInds.length ≤ steps.length → ∃ ms, vjpMakerNum fn argInds steps = .ok ms ∧
      ms.length = argInds.length ∧
      ∀ (ia k : ℕ) (h : K) (args : List (List K)) (a fnOut : List K), argInds[ia]? = some k →
        steps[ia]? = some h → args[k]? = some a →
        ∃ m vjp, ms[ia]? = some m ∧ m fnOut args = .ok vjp ∧ ∀ v : List K, (vjp v).length = a.length ∧
          ∀ p < a.length, (vjp v)[p]? = some (List.zipWith (· * ·) v (List.zipWith (fun y y0 => (y - y0) / h)
            (fn (args.set k (a.set p (a.getD p 0 + h)))) fnOut)).sum) ∧
    (steps.length < argInds.length → vjpMakerNum fn argInds steps = .error .indexError) := by
  have hset : ∀ (args : List (List K)) (k : ℕ) (a : List K) (p : ℕ) (h : K), args[k]? = some a → p < a.length →
      args.modify k (fun a => a.modify p (· + h)) = args.set k (a.set p (a.getD p 0 + h)) := by
    intro args k a p h hk hp
    apply List.ext_getElem?
    intro i
    rw [List.getElem?_modify, List.getElem?_set]
    by_cases hi : k = i
    · subst hi
      have hkl : k < args.length := by
        by_contra hc
        rw [List.getElem?_eq_none (by omega)] at hk; cases hk
      simp only [hk, if_true, hkl]
      change some _ = some _
      congr 1
      apply List.ext_getElem?
      intro j
      rw [List.getElem?_modify, List.getElem?_set]
      by_cases hj : p = j
      · subst hj; simp [hp, List.getD_eq_getElem?_getD]
      · simp [hj]
    · simp [hi]
  have main : ∀ (n : ℕ), n ≤ argInds.length → n ≤ steps.length →
      (List.range n).mapM (vjpSingleArg fn argInds steps) =
      .ok ((List.range n).map fun (ia : ℕ) fnOut args => vjpNum fn (argInds.getD ia 0) (steps.getD ia 0) fnOut args) := by
    intro n hn hn'
    have : ∀ l : List ℕ, (∀ ia ∈ l, ia < n) → l.mapM (vjpSingleArg fn argInds steps) =
      .ok (l.map fun (ia : ℕ) fnOut args => vjpNum fn (argInds.getD ia 0) (steps.getD ia 0) fnOut args) := by
      intro l
      induction l with
      | nil => intro _; rfl
      | cons x l ih =>
        intro hl
        have hx := hl x (by simp)
        have e1 : argInds[x]? = some (argInds.getD x 0) := by
          rw [List.getD_eq_getElem?_getD, List.getElem?_eq_getElem (by omega)]; rfl
        have e2 : steps[x]? = some (steps.getD x 0) := by
          rw [List.getD_eq_getElem?_getD, List.getElem?_eq_getElem (by omega)]; rfl
        rw [List.mapM_cons, ih fun y hy => hl y (by simp [hy])]
        simp only [vjpSingleArg, e1, e2]
        rfl
    exact this _ fun ia h => List.mem_range.1 h
  constructor
  · intro hle
    refine ⟨_, main argInds.length le_rfl hle, by simp, ?_⟩
    intro ia k h args a fnOut hk hh ha
    have hia : ia < argInds.length := by
      by_contra hc
      rw [List.getElem?_eq_none (by omega)] at hk; cases hk
    refine ⟨_, fun v => (List.range a.length).map fun (ip : ℕ) => vjpNumEntry fn k h fnOut args v ip,
      by rw [List.getElem?_map, List.getElem?_range hia]; rfl, ?_, ?_⟩
    · simp only [vjpNum, List.getD_eq_getElem?_getD, hk, hh, Option.getD_some, ha]
    · intro v
      refine ⟨by simp, ?_⟩
      intro p hp
      rw [List.getElem?_map, List.getElem?_range hp]
      simp only [Option.map_some, vjpNumEntry, hset args k a p h ha hp]
  · intro hlt
    have hsplit : List.range argInds.length =
        List.range steps.length ++ steps.length :: (List.range (argInds.length - steps.length - 1)).map
          (fun i => steps.length + 1 + i) := by
      have e : argInds.length = (steps.length + 1) + (argInds.length - steps.length - 1) := by omega
      conv_lhs => rw [e, List.range_add, List.range_succ]
      simp
    unfold vjpMakerNum
    rw [hsplit, List.mapM_append, main _ hlt.le le_rfl]
    simp only [List.mapM_cons, bind, Except.bind, vjpSingleArg]
    rw [List.getElem?_eq_none (l := steps) le_rfl]
    cases argInds[steps.length]? <;> rfl

/-- **C90 (missing argument).** A maker for an argument that the function was not called with raises `IndexError`. -/
theorem C90_missing (fn : List (List K) → List K) (argInds : List ℕ) (steps : List K)
    (ms : List (List K → List (List K) → Except PyErr (List K → List K))) (hms : vjpMakerNum fn argInds steps = .ok ms)
    (ia k : ℕ) (hk : argInds[ia]? = some k) (args : List (List K)) (hargs : args.length ≤ k) (fnOut : List K) :
    ∃ m, ms[ia]? = some m ∧ m fnOut args = .error .indexError := by
  have hia : ia < argInds.length := by
    by_contra hc
    rw [List.getElem?_eq_none (by omega)] at hk
    cases hk
  obtain ⟨m, h1, h2⟩ := (mapM_ok _ _ _ hms).2 ia ia (List.getElem?_range hia)
  refine ⟨m, h1, ?_⟩
  unfold vjpSingleArg at h2
  rw [hk] at h2
  cases hs : steps[ia]? with
  | none => rw [hs] at h2; cases h2
  | some h =>
    rw [hs] at h2
    simp only [Except.ok.injEq] at h2
    rw [← h2]
    simp only [vjpNum, List.getElem?_eq_none hargs]

/-- The maker for the second argument of a function called with one. -/
example : ∃ ms, vjpMakerNum (K := ℚ) (fun _ => [0]) [1] [1] = .ok ms ∧
    ∃ m, ms[0]? = some m ∧ m [0] [[3]] = .error .indexError :=
  ⟨_, rfl, C90_missing _ [1] [1] _ rfl 0 1 rfl [[3]] le_rfl [0]⟩

/-- **C90 (affine functions).** If the outputs depend affinely on the differentiated argument, with matrix
`A` (one row per output), the product is exactly `v A`, for every non-zero step. -/
theorem C90_affine (fn : List (List K) → List K) (k : ℕ) (h : K) (hh : h ≠ 0) (args : List (List K))
    (a c : List K) (A : List (List K)) (ha : args[k]? = some a) (hA : ∀ r ∈ A, r.length = a.length)
    (hfn : ∀ x : List K, x.length = a.length → fn (args.set k x) =
      List.zipWith (fun c r => c + (List.zipWith (· * ·) r x).sum) c A) :
    ∃ vjp, vjpNum fn k h (fn args) args = .ok vjp ∧ ∀ (v : List K), v.length = A.length → c.length = A.length →
      ∀ p < a.length, (vjp v)[p]? = some (List.zipWith (fun vj r => vj * r.getD p 0) v A).sum := by
  obtain ⟨ms, hms, -, hall⟩ := (C90_makers fn [k] [h]).1 le_rfl
  obtain ⟨m, vjp, hm, hv, hent⟩ := hall 0 k h args a (fn args) rfl rfl ha
  have hms' : ms = [fun fnOut args => vjpNum fn k h fnOut args] := by
    have : vjpMakerNum fn [k] [h] = .ok [fun fnOut args => vjpNum fn k h fnOut args] := rfl
    rw [this] at hms; cases hms; rfl
  rw [hms'] at hm
  cases hm
  refine ⟨vjp, hv, ?_⟩
  intro v hvl hcl p hp
  rw [(hent v).2 p hp]
  congr 1
  have hargs : args.set k a = args := by
    apply List.ext_getElem?
    intro i
    rw [List.getElem?_set]
    split_ifs with h1 h2
    · subst h1; exact ha.symm
    · subst h1; rw [List.getElem?_eq_none (by omega)]
    · rfl
  have e0 := hfn a rfl
  rw [hargs] at e0
  have e1 := hfn (a.set p (a.getD p 0 + h)) (by simp)
  rw [e1, e0]
  have hmod : a.set p (a.getD p 0 + h) = a.modify p (· + h) := by
    apply List.ext_getElem?
    intro j
    rw [List.getElem?_modify, List.getElem?_set]
    by_cases hj : p = j
    · subst hj; simp [hp, List.getD_eq_getElem?_getD]
    · simp [hj]
  rw [hmod]
  clear hfn hall hent hms hv e0 e1 hms'
  induction A generalizing v c with
  | nil => simp
  | cons r A ih =>
    cases v with
    | nil => simp at hvl
    | cons x v =>
      cases c with
      | nil => simp at hcl
      | cons y c =>
        have hr := hA r (by simp)
        have hrp : r[p]? = some (r.getD p 0) := by
          rw [List.getD_eq_getElem?_getD, List.getElem?_eq_getElem (by omega)]; rfl
        simp only [List.zipWith_cons_cons, List.sum_cons]
        rw [ih c (fun r hr => hA r (by simp [hr])) v (by simpa using hvl) (by simpa using hcl),
          zipWith_modify_sum r a p h _ hrp hp]
        congr 1
        field_simp
        ring

/-- The product of `v = (1, 2)` with the matrix `[[3, 4], [5, 6]]` for the second of two arguments. -/
example : ∃ vjp, vjpNum (fun args => List.zipWith (fun c r => c + (List.zipWith (· * ·) r (args.getD 1 [])).sum)
      [7, 8] [[3, 4], [5, 6]]) 1 (1 / 10 : ℚ)
      (List.zipWith (fun c r => c + (List.zipWith (· * ·) r [1, 1]).sum) [7, 8] [[3, 4], [5, 6]])
      [[0], [1, 1]] = .ok vjp ∧ vjp [1, 2] = [13, 16] :=
  ⟨_, rfl, by decide +kernel⟩

end

/-- **C90 (convergence).** If every output has a partial derivative in the component `p`, the entry of the
product converges to `v` times the column of derivatives as the step tends to zero. -/
theorem C90_limit {n : ℕ} (fn : List (List ℝ) → List ℝ) (k p : ℕ) (args : List (List ℝ)) (a : List ℝ)
    (ha : args[k]? = some a) (hp : p < a.length) (f : Fin n → ℝ → ℝ) (d v : Fin n → ℝ)
    (hf : ∀ t, fn (args.modify k fun a => a.modify p (· + t)) = List.ofFn fun j => f j t)
    (hd : ∀ j, HasDerivAt (f j) (d j) 0) :
    Filter.Tendsto (fun h => match vjpNum fn k h (fn args) args with
        | .ok vjp => (vjp (List.ofFn v)).getD p 0
        | .error _ => 0) (nhdsWithin 0 {0}ᶜ) (nhds (∑ j, v j * d j)) := by
  have h0 : fn args = List.ofFn fun j => f j 0 := by
    rw [← hf 0]
    congr 1
    have e1 : ∀ a : List ℝ, a.modify p (· + 0) = a := by
      intro a
      apply List.ext_getElem?
      intro j
      rw [List.getElem?_modify]
      by_cases hj : p = j <;> simp [hj]
    apply List.ext_getElem?
    intro j
    rw [List.getElem?_modify]
    simp only [e1]
    by_cases hj : k = j <;> simp [hj]
  have hval : ∀ h, (match vjpNum fn k h (fn args) args with
        | .ok vjp => (vjp (List.ofFn v)).getD p 0
        | .error _ => 0) = ∑ j, v j * ((f j h - f j 0) / h) := by
    intro h
    have e : vjpNum fn k h (fn args) args =
        .ok fun v => (List.range a.length).map fun (ip : ℕ) => vjpNumEntry fn k h (fn args) args v ip := by
      simp only [vjpNum, ha]
    rw [e]
    simp only [List.getD_eq_getElem?_getD, List.getElem?_map, List.getElem?_range hp, Option.map_some,
      Option.getD_some, vjpNumEntry, hf, h0]
    have e2 : List.zipWith (fun a b => (a - b) / h) (List.ofFn fun j => f j h) (List.ofFn fun j => f j 0) =
        List.ofFn fun j => (f j h - f j 0) / h := by
      apply List.ext_getElem?
      intro i
      simp only [List.getElem?_zipWith, List.getElem?_ofFn]
      by_cases hi : i < n <;> simp [hi]
    have e3 : List.zipWith (· * ·) (List.ofFn v) (List.ofFn fun j => (f j h - f j 0) / h) =
        List.ofFn fun j => v j * ((f j h - f j 0) / h) := by
      apply List.ext_getElem?
      intro i
      simp only [List.getElem?_zipWith, List.getElem?_ofFn]
      by_cases hi : i < n <;> simp [hi]
    rw [e2, e3, List.sum_ofFn]
  simp only [hval]
  apply tendsto_finsetSum
  intro j _
  apply Filter.Tendsto.const_mul
  have := hasDerivAt_iff_tendsto_slope.mp (hd j)
  refine this.congr fun h => ?_
  rw [slope_def_field, sub_zero]

/-- The square of the only component, at 3: the derivative is 6. -/
example : Filter.Tendsto (fun h => match vjpNum (fun l => [(l.headD []).headD 0 ^ 2]) 0 h [9] [[(3 : ℝ)]] with
        | .ok vjp => (vjp [1]).getD 0 0
        | .error _ => 0) (nhdsWithin 0 {0}ᶜ) (nhds 6) := by
  have h := C90_limit (n := 1) (fun l => [(l.headD []).headD 0 ^ 2]) 0 0 [[(3 : ℝ)]] [3] rfl (by simp)
    (fun _ t => (3 + t) ^ 2) (fun _ => 6) (fun _ => 1) (by intro t; simp) (by
      intro _
      have h1 := (hasDerivAt_id (0 : ℝ)).const_add 3
      have h2 := h1.mul h1
      refine (h2.congr_deriv (by norm_num)).congr_of_eventuallyEq (Filter.Eventually.of_forall fun t => ?_)
      exact pow_two _)
  simpa [show (3 : ℝ) ^ 2 = 9 by norm_num] using h

/-- **`ft2square`.** It returns for no input. -/
theorem C90_ft2square (known : Bool) (nG : ℕ) : ∃ e, ft2square known nG = .error e ∧
    (known = false → e = .notImplementedError) ∧ (known = true → 0 < nG → e = .nameError) := by
  unfold ft2square
  cases known
  · exact ⟨_, rfl, fun _ => rfl, by simp⟩
  · by_cases h : nG = 0
    · subst h; exact ⟨.valueError, rfl, by simp, by simp⟩
    · exact ⟨.nameError, by simp [h], by simp, fun _ _ => rfl⟩

end Legume
