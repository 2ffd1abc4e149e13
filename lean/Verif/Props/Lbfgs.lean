import Mathlib.Analysis.SpecialFunctions.Sqrt
import Mathlib.Tactic.Linarith
import Verif.Model.Lbfgs
import Verif.Spec.Lbfgs

/-! # C88: the history kept by `lbfgs` -/
namespace Legume

open Spec

theorem lbRun_history {P : Type} (o : LbObj P) (nargs : ℕ) (ps : Bool) (f : P → ℝ)
    (hcall : ∀ p st, (if ps then o.call p (nargs + 1) (some st) else o.call p nargs none) = .ok (f p))
    (tr : List (LbEv P)) : ∀ (last : Option P) (st : LbSt P), Reports last tr →
      (∀ p, last = some p → st.ofLast = some (f p)) →
      ∃ st' seen, lbRun o nargs ps st tr = .ok (st', seen) ∧
        st'.ofList = st.ofList ++ (reported tr).map f ∧
        st'.iteration = st.iteration + (reported tr).length ∧
        st'.bounds = st.bounds ∧
        st'.params = (reported tr).getLastD st.params ∧
        seen.length = (reported tr).length ∧
        ∀ (i : ℕ) (s : LbSt P), seen[i]? = some s → s.iteration = st.iteration + (i + 1) ∧
          (reported tr)[i]? = some s.params ∧
          s.ofList = st.ofList ++ ((reported tr).take (i + 1)).map f := by
  induction tr with
  | nil =>
    intro last st _ _
    exact ⟨st, [], rfl, by simp [reported], by simp [reported], rfl, by simp [reported], rfl, by simp⟩
  | cons e tr ih =>
    intro last st hr hl
    cases e with
    | eval p =>
      have hs : lbStep o nargs ps st (.eval p) = .ok ({ st with ofLast := some (f p) }, []) := by
        simp only [lbStep, hcall]
      obtain ⟨st', seen, h1, h2, h3, h4, h5, h6, h7⟩ := ih (some p) { st with ofLast := some (f p) } hr
        (by intro q hq; cases hq; rfl)
      exact ⟨st', seen, by simp only [lbRun, hs, h1, List.nil_append], h2, h3, h4, h5, h6, h7⟩
    | cb x =>
      obtain ⟨hlast, hr⟩ := hr
      have hv := hl x hlast
      have hs : lbStep o nargs ps st (.cb x) =
          .ok ({ st with iteration := st.iteration + 1, ofList := st.ofList ++ [f x], params := x },
            [{ st with iteration := st.iteration + 1, ofList := st.ofList ++ [f x], params := x }]) := by
        simp only [lbStep, hv]
      obtain ⟨st', seen, h1, h2, h3, h4, h5, h6, h7⟩ := ih last
        { st with iteration := st.iteration + 1, ofList := st.ofList ++ [f x], params := x } hr hl
      refine ⟨st', _, by simp only [lbRun, hs, h1]; rfl, ?_, ?_, h4, ?_, ?_, ?_⟩
      · rw [h2]; simp [reported]
      · rw [h3]; simp [reported]; omega
      · rw [h5]; simp only [reported]
        cases hh : reported tr with
        | nil => rfl
        | cons a l => simp [List.getLastD]
      · simp [reported, h6]
      · intro i s hi
        cases i with
        | zero =>
          simp at hi
          subst hi
          simp [reported]
        | succ i =>
          simp at hi
          obtain ⟨k1, k2, k3⟩ := h7 i s hi
          refine ⟨by rw [k1]; simp only; omega, by simpa [reported] using k2, ?_⟩
          rw [k3]; simp [reported]

/-- **C88 (history).** For every objective that takes the given arguments and does not look at the
minimiser, every starting point, and every execution of SciPy that reports iterations at the point
evaluated last, `lbfgs` ends with one objective value for the starting point followed by the objective
value of every reported point, in order; the iteration counter is their number and the parameters are the
last reported point. The user's callback is called once per report and sees the history up to it. Nothing
of this depends on earlier runs of the same object. -/
theorem C88_history {P : Type} (size : P → ℕ) (o : LbObj P) (nargs : ℕ) (f : P → ℝ)
    (hext : o.extra = none ∨ o.extra = some nargs) (hf : ∀ p, o.val p none = f p)
    (bounds : BArg) (b : Option (List PyV)) (pstart : P) (hb : parseBounds (size pstart) bounds = .ok b)
    (tr : List (LbEv P)) (htr : Reports none tr) (old : LbSt P) :
    ∃ st seen, lbfgs size o nargs false bounds pstart tr old = .ok (st, seen) ∧
      st.ofList = f pstart :: (reported tr).map f ∧
      st.iteration = (reported tr).length ∧ st.bounds = b ∧
      st.params = (reported tr).getLastD pstart ∧
      seen.length = (reported tr).length ∧
      ∀ (i : ℕ) (s : LbSt P), seen[i]? = some s → s.iteration = i + 1 ∧
        (reported tr)[i]? = some s.params ∧ s.ofList = f pstart :: ((reported tr).take (i + 1)).map f := by
  have hcall : ∀ p, o.call p nargs none = .ok (f p) := by
    intro p
    unfold LbObj.call
    rcases hext with h | h <;> rw [h] <;> simp [hf]
  have hi : lbInit size o nargs bounds pstart old =
      ({ old with params := pstart, bounds := b, iteration := 0, ofList := [f pstart] }, .ok ()) := by
    simp only [lbInit, hb, hcall]
  obtain ⟨st', seen, h1, h2, h3, h4, h5, h6, h7⟩ := lbRun_history o nargs false f (by simp [hcall]) tr none
    { old with params := pstart, bounds := b, iteration := 0, ofList := [f pstart] } htr (by simp)
  refine ⟨st', seen, by simp only [lbfgs, hi, h1], ?_, ?_, h4, h5, h6, ?_⟩
  · rw [h2]; rfl
  · rw [h3]; simp
  · intro i s hs
    obtain ⟨k1, k2, k3⟩ := h7 i s hs
    exact ⟨by rw [k1]; simp, k2, by rw [k3]; rfl⟩

/-- Two iterations of a minimisation of `x^2` from 1, one of them with two evaluations. -/
example : ∃ st seen, lbfgs (fun _ => 1) ⟨some 0, fun p _ => p ^ 2⟩ 0 false .none (1 : ℝ)
      [.eval 1, .eval 3, .eval (1 / 2), .cb (1 / 2), .eval 0, .cb 0] ⟨7, none, 4, [2, 3], some 9⟩ =
        .ok (st, seen) ∧ st.ofList = [1, 1 / 4, 0] ∧ st.params = 0 := by
  obtain ⟨st, seen, h1, h2, -, -, h5, -⟩ := C88_history (fun _ => 1) ⟨some 0, fun (p : ℝ) _ => p ^ 2⟩ 0
    (fun p => p ^ 2) (by simp) (fun _ => rfl) .none none 1 rfl
    [.eval 1, .eval 3, .eval (1 / 2), .cb (1 / 2), .eval 0, .cb 0] (by simp [Reports])
    ⟨7, none, 4, [2, 3], some 9⟩
  exact ⟨st, seen, h1, by rw [h2]; norm_num [reported], by rw [h5]; simp [reported]⟩

/-- **C88 (`pass_self`).** With `pass_self=True` every objective with a fixed number of arguments makes
`lbfgs` raise `TypeError`, whatever the object did before and however many arguments the objective takes:
the first evaluation leaves the minimiser out, the later ones pass it. -/
theorem C88_pass_self {P : Type} (size : P → ℕ) (o : LbObj P) (m nargs : ℕ) (hext : o.extra = some m)
    (bounds : BArg) (b : Option (List PyV)) (pstart : P) (hb : parseBounds (size pstart) bounds = .ok b)
    (p : P) (tr : List (LbEv P)) (old : LbSt P) :
    lbfgs size o nargs true bounds pstart (.eval p :: tr) old = .error .typeError := by
  unfold lbfgs
  by_cases h : m = nargs
  · have hi : lbInit size o nargs bounds pstart old =
        ({ old with params := pstart, bounds := b, iteration := 0, ofList := [o.val pstart none] }, .ok ()) := by
      simp only [lbInit, hb, LbObj.call, hext, if_pos h]
    have : ¬ m = nargs + 1 := by omega
    simp [hi, lbRun, lbStep, LbObj.call, hext, this]
  · have hi : lbInit size o nargs bounds pstart old =
        ({ old with params := pstart, bounds := b, iteration := 0, ofList := [] }, .error .typeError) := by
      simp only [lbInit, hb, LbObj.call, hext, if_neg h]
    simp [hi]

/-- An objective of one argument. -/
example : lbfgs (fun _ => 1) ⟨some 0, fun p _ => p ^ 2⟩ 0 true .none (1 : ℝ) [.eval 1] ⟨7, none, 4, [], none⟩ =
    .error .typeError :=
  C88_pass_self _ _ 0 0 rfl _ none _ rfl _ _ _

/-- **C88 (`pass_self`, variable arguments).** An objective taking any number of arguments is accepted;
if its value does not depend on the minimiser, the history is the same as without `pass_self`. -/
theorem C88_pass_self_variadic {P : Type} (size : P → ℕ) (o : LbObj P) (nargs : ℕ) (f : P → ℝ)
    (hext : o.extra = none) (hf : ∀ p s, o.val p s = f p)
    (bounds : BArg) (b : Option (List PyV)) (pstart : P) (hb : parseBounds (size pstart) bounds = .ok b)
    (tr : List (LbEv P)) (htr : Reports none tr) (old : LbSt P) :
    ∃ st seen, lbfgs size o nargs true bounds pstart tr old = .ok (st, seen) ∧
      st.ofList = f pstart :: (reported tr).map f ∧ st.params = (reported tr).getLastD pstart := by
  have hcall : ∀ p n s, o.call p n s = .ok (f p) := by
    intro p n s
    simp [LbObj.call, hext, hf]
  have hi : lbInit size o nargs bounds pstart old =
      ({ old with params := pstart, bounds := b, iteration := 0, ofList := [f pstart] }, .ok ()) := by
    simp only [lbInit, hb, hcall]
  obtain ⟨st', seen, h1, h2, h3, h4, h5, h6, h7⟩ := lbRun_history o nargs true f (by simp [hcall]) tr none
    { old with params := pstart, bounds := b, iteration := 0, ofList := [f pstart] } htr (by simp)
  exact ⟨st', seen, by simp only [lbfgs, hi, h1], by rw [h2]; rfl, h5⟩

/-- An objective of any number of arguments. -/
example : ∃ st seen, lbfgs (fun _ => 1) ⟨none, fun p _ => p ^ 2⟩ 0 true .none (1 : ℝ) [.eval 1, .eval 2, .cb 2]
    ⟨7, none, 4, [], none⟩ = .ok (st, seen) ∧ st.ofList = [1, 4] := by
  obtain ⟨st, seen, h1, h2, -⟩ := C88_pass_self_variadic (fun _ => 1) ⟨none, fun (p : ℝ) _ => p ^ 2⟩ 0
    (fun p => p ^ 2) rfl (fun _ _ => rfl) .none none 1 rfl [.eval 1, .eval 2, .cb 2] (by simp [Reports])
    ⟨7, none, 4, [], none⟩
  exact ⟨st, seen, h1, by rw [h2]; norm_num [reported]⟩

/-- **C88 (rejected bounds).** Bounds that cannot be parsed raise `ValueError` before the objective is
called; the history and the counter of the previous run are kept, but the parameters are already
replaced by the starting point. -/
theorem C88_bad_bounds {P : Type} (size : P → ℕ) (o : LbObj P) (nargs : ℕ) (ps : Bool) (bounds : BArg)
    (pstart : P) (hb : ∀ b, parseBounds (size pstart) bounds ≠ .ok b) (tr : List (LbEv P)) (old : LbSt P) :
    lbfgs size o nargs ps bounds pstart tr old = .error .valueError ∧
    (lbInit size o nargs bounds pstart old).1 = { old with params := pstart } := by
  have he : parseBounds (size pstart) bounds = .error .valueError := by
    cases h : parseBounds (size pstart) bounds with
    | ok b => exact absurd h (hb b)
    | error e =>
      unfold parseBounds at h
      split at h
      · cases h
      · cases h; rfl
      · split at h
        · cases h; rfl
        · split_ifs at h <;> cases h <;> rfl
  simp [lbfgs, lbInit, he]

/-- A single number is not accepted for the bounds. -/
example : ∀ b, parseBounds 3 .scalar ≠ .ok b := by intro b h; cases h

end Legume
