import Verif.Model.EpsEff
import Mathlib.Data.List.Induction
import Mathlib.Tactic.Common
import Mathlib.Tactic.NormNum

/-! # C141: effective permittivities set by hand, and base classes -/
namespace Legume

section
variable {K : Type}

/-- What a call assigns to a region. -/
def EffOp.assigns (r : EffRegion) : EffOp K → Option (Option K)
  | .set r' x => if r' = r then some x else none
  | _ => none

/-- The last value assigned to a region in a sequence of calls, `none` if there is no assignment. -/
def lastAssigned (r : EffRegion) (ops : List (EffOp K)) : Option K := ((ops.filterMap (EffOp.assigns r)).getLast?).getD none

theorem lastAssigned_snoc (r : EffRegion) (ops : List (EffOp K)) (o : EffOp K) :
    lastAssigned r (ops ++ [o]) = (match o.assigns r with | some x => x | none => lastAssigned r ops) := by
  unfold lastAssigned
  rw [List.filterMap_append]
  cases h : o.assigns r with
  | none => simp [h]
  | some x => simp [h]

theorem exec_snoc (s : EffState K) (ops : List (EffOp K)) (o : EffOp K) : s.exec (ops ++ [o]) = ((s.exec ops).step o).1 := by
  unfold EffState.exec
  rw [List.foldl_append]
  rfl

theorem exec_append (s : EffState K) (ops ops' : List (EffOp K)) : s.exec (ops ++ ops') = (s.exec ops).exec ops' :=
  List.foldl_append

/-- The number of layers. -/
theorem exec_length (s : EffState K) (ops : List (EffOp K)) :
    (s.exec ops).layers.length = s.layers.length + ops.countP (fun o => o matches .addLayer) := by
  induction ops using List.reverseRecOn with
  | nil => rfl
  | append_singleton ops o ih =>
    rw [exec_snoc, List.countP_append, ← add_assoc, ← ih]
    cases o with
    | addLayer => simp [EffState.step]
    | addShape r => cases r <;> simp [EffState.step]
    | set r x =>
      cases r with
      | lower => simp [EffState.step]
      | upper => simp [EffState.step]
      | layer n =>
        simp only [EffState.step]
        split_ifs <;> simp

/-- **C141 (claddings).** After any sequence of calls, the effective permittivity of a cladding is the value assigned last,
and reading it raises `ValueError` if none was assigned or the last one was `None`. -/
theorem C141_claddings (ops : List (EffOp K)) (r : EffRegion) (hr : r = .lower ∨ r = .upper) :
    (EffState.init.exec ops).get r = (match lastAssigned r ops with | some e => .ok e | none => .error .valueError) := by
  have key : (EffState.init.exec ops).lower = lastAssigned .lower ops ∧ (EffState.init.exec ops).upper = lastAssigned .upper ops := by
    induction ops using List.reverseRecOn with
    | nil => exact ⟨rfl, rfl⟩
    | append_singleton ops o ih =>
      rw [exec_snoc, lastAssigned_snoc, lastAssigned_snoc]
      cases o with
      | addLayer => exact ih
      | addShape r => cases r <;> exact ih
      | set r x =>
        cases r with
        | lower => exact ⟨by simp [EffState.step, EffOp.assigns], by simpa [EffState.step, EffOp.assigns] using ih.2⟩
        | upper => exact ⟨by simpa [EffState.step, EffOp.assigns] using ih.1, by simp [EffState.step, EffOp.assigns]⟩
        | layer n =>
          have : (((EffState.init.exec ops).step (.set (.layer n) x)).1.lower = (EffState.init.exec ops).lower) ∧
              (((EffState.init.exec ops).step (.set (.layer n) x)).1.upper = (EffState.init.exec ops).upper) := by
            simp only [EffState.step]
            split_ifs <;> exact ⟨rfl, rfl⟩
          rw [this.1, this.2]
          simpa [EffOp.assigns] using ih
  rcases hr with rfl | rfl
  · simp only [EffState.get, key.1]
    cases lastAssigned .lower ops <;> rfl
  · simp only [EffState.get, key.2]
    cases lastAssigned .upper ops <;> rfl

/-- **C141 (layers).** The effective permittivity of a layer is the value assigned last since it was added; later layers,
shapes and assignments to other regions, or to it before it exists, do not matter. -/
theorem C141_layers (pre post : List (EffOp K)) :
    (EffState.init.exec (pre ++ [.addLayer] ++ post)).get (.layer (pre.countP (fun o => o matches .addLayer))) =
      (match lastAssigned (.layer (pre.countP (fun o => o matches .addLayer))) post with
        | some e => .ok e | none => .error .valueError) := by
  set n := pre.countP (fun o => o matches .addLayer) with hn
  set s := (EffState.init : EffState K).exec (pre ++ [.addLayer]) with hs
  have hlen : s.layers.length = n + 1 := by
    rw [hs, exec_length, List.countP_append, ← hn]
    simp [EffState.init]
  have h0 : s.layers[n]? = some none := by
    have hp : ((EffState.init : EffState K).exec pre).layers.length = n := by
      rw [exec_length, hn]
      simp [EffState.init]
    rw [hs, exec_snoc]
    simp only [EffState.step]
    rw [← hp, List.getElem?_append_right (le_refl _)]
    simp
  have key : (s.exec post).layers[n]? = some (lastAssigned (.layer n) post) := by
    induction post using List.reverseRecOn with
    | nil => exact h0
    | append_singleton post o ih =>
      have hl : n < (s.exec post).layers.length := by
        rw [exec_length, hlen]
        omega
      rw [exec_snoc, lastAssigned_snoc]
      cases o with
      | addLayer =>
        simp only [EffState.step, EffOp.assigns]
        rw [List.getElem?_append_left hl]
        exact ih
      | addShape r => cases r <;> exact ih
      | set r x =>
        cases r with
        | lower => simpa [EffState.step, EffOp.assigns] using ih
        | upper => simpa [EffState.step, EffOp.assigns] using ih
        | layer m =>
          by_cases hm : m = n
          · subst hm
            simp only [EffState.step, EffOp.assigns]
            rw [if_pos hl]
            simp [hl]
          · have hm' : (EffRegion.layer m = EffRegion.layer n) = False := by simp [hm]
            simp only [EffState.step, EffOp.assigns, hm', if_false]
            split_ifs with h
            · rw [List.getElem?_set_ne hm]
              exact ih
            · exact ih
  rw [exec_append, ← hs]
  simp only [EffState.get, key]
  cases lastAssigned (.layer n) post <;> rfl

/-- **C141 (use in a run).** With `eps_eff='custom'` a guided-mode run gets one permittivity for every region from below to
above, each the one that reading the region gives, and raises `ValueError` exactly if one of them is not set. -/
theorem C141_custom (s : EffState K) :
    (∀ es, s.array = .ok es → es.length = s.layers.length + 2 ∧ es[0]? = (s.get .lower).toOption ∧
      es[s.layers.length + 1]? = (s.get .upper).toOption ∧
      ∀ n, n < s.layers.length → es[n + 1]? = (s.get (.layer n)).toOption) ∧
    (∀ e, s.array = .error e ↔ e = .valueError ∧ (s.lower = none ∨ none ∈ s.layers ∨ s.upper = none)) := by
  have all : ∀ l : List (Option K), (∀ es, l.mapM readEff = .ok es → l = es.map some) ∧
      (∀ e, l.mapM readEff = .error e ↔ e = .valueError ∧ none ∈ l) := by
    intro l
    induction l with
    | nil => exact ⟨fun es h => (by cases h; rfl), fun e => ⟨fun h => (by cases h), fun h => (by simp at h)⟩⟩
    | cons x l ih =>
      cases x with
      | none =>
        refine ⟨fun es h => ?_, fun e => ?_⟩
        · rw [List.mapM_cons] at h
          cases h
        · rw [List.mapM_cons]
          constructor
          · intro h
            cases h
            simp
          · rintro ⟨rfl, -⟩
            rfl
      | some x =>
        have hc : List.mapM readEff (some x :: l) = (l.mapM readEff >>= fun es => .ok (x :: es)) := by
          rw [List.mapM_cons]
          rfl
        rw [hc]
        cases hl : l.mapM readEff with
        | error e' =>
          refine ⟨fun es h => (by cases h), fun e => ?_⟩
          have := ih.2 e
          rw [hl] at this
          simp only [List.mem_cons, reduceCtorEq, false_or]
          exact this
        | ok es =>
          refine ⟨fun es' h => ?_, fun e => ?_⟩
          · cases h
            rw [ih.1 es hl]
            rfl
          · have := ih.2 e
            rw [hl] at this
            simp only [List.mem_cons, reduceCtorEq, false_or]
            rw [← this]
            constructor <;> intro h <;> cases h
  have some_get : ∀ (es : List K) (l : List (Option K)) (i : ℕ), l = es.map some → ∀ x, l[i]? = some x →
      es[i]? = (readEff x).toOption := by
    intro es l i hl x hx
    rw [hl, List.getElem?_map] at hx
    cases he : es[i]? with
    | none => simp [he] at hx
    | some y =>
      rw [he] at hx
      cases hx
      rfl
  obtain ⟨a1, a2⟩ := all ([s.lower] ++ s.layers ++ [s.upper])
  refine ⟨fun es h => ?_, fun e => ?_⟩
  · have hl := a1 es h
    have hlen := congrArg List.length hl
    simp only [List.length_append, List.length_cons, List.length_nil, List.length_map] at hlen
    refine ⟨by omega, some_get es _ 0 hl _ (by simp), some_get es _ _ hl _ (by simp), fun n hn => ?_⟩
    have : (s.get (.layer n)) = readEff s.layers[n] := by
      simp [EffState.get, List.getElem?_eq_getElem hn]
    rw [this]
    exact some_get es _ _ hl _ (by simp [List.getElem?_append_left, hn])
  · rw [EffState.array, a2 e]
    simp only [List.mem_append, List.mem_singleton, @eq_comm _ none, or_assoc]

/-- **C141 (rejected calls).** A call raises exactly if it names a layer which does not exist, ValueError for shapes and
IndexError for an assignment, and then nothing changes. -/
theorem C141_rejected (s : EffState K) (o : EffOp K) (e : PyErr) :
    (s.step o).2 = .error e ↔ ∃ n, s.layers.length ≤ n ∧ (s.step o).1 = s ∧
      ((o = .addShape (.layer n) ∧ e = .valueError) ∨ (∃ x, o = .set (.layer n) x ∧ e = .indexError)) := by
  cases o with
  | addLayer => simp [EffState.step]
  | addShape r =>
    cases r with
    | lower => simp [EffState.step]
    | upper => simp [EffState.step]
    | layer n =>
      by_cases h : n < s.layers.length
      · simp [EffState.step, h]
      · have h' := not_lt.1 h
        simp [EffState.step, h, h', eq_comm]
  | set r x =>
    cases r with
    | lower => simp [EffState.step]
    | upper => simp [EffState.step]
    | layer n =>
      by_cases h : n < s.layers.length
      · simp [EffState.step, h]
      · have h' := not_lt.1 h
        simp [EffState.step, h, h', eq_comm]

/-- **C141 (classes).** Only layers of shapes can be expanded in plane waves: with any other object that can be created,
`PlaneWaveExp` raises; with one, it stores the effective permittivity given, or that of the background if none or zero is
given. A free-form layer and a bare shape cannot be created; the area of any other shape is its transform at zero. -/
theorem C141_classes [Zero K] [DecidableEq K] (epsB : K) (x : Option K) :
    (∀ cls e, pweInit cls epsB x = .ok e ↔ cls = .shapes ∧ e = (if x = none ∨ x = some 0 then epsB else x.getD 0)) ∧
    (∀ cls : LayerClass, cls.construct = .ok () ↔ cls ≠ .freeform) ∧ LayerClass.freeform.construct = .error .nameError ∧
    (∀ m, LayerClass.base.call m = .error .notImplementedError) ∧
    (ShapeClass.construct (.base : ShapeClass K) = .error .notImplementedError) ∧
    (∀ a : K, ShapeClass.construct (.drawn a) = .ok a) := by
  refine ⟨fun cls e => ?_, fun cls => ?_, rfl, fun m => by cases m <;> rfl, rfl, fun _ => rfl⟩
  · cases x with
    | none => cases cls <;> simp [pweInit, LayerClass.call, bind, Except.bind, pure, Except.pure, eq_comm]
    | some y =>
      by_cases hy : y = 0
      · cases cls <;> simp [pweInit, LayerClass.call, bind, Except.bind, pure, Except.pure, hy, eq_comm]
      · cases cls <;> simp [pweInit, LayerClass.call, bind, Except.bind, pure, Except.pure, hy, eq_comm]
  · cases cls <;> simp [LayerClass.construct]

end

/-- Two layers; the first one is set, reset and set again, the second one after a failing assignment. -/
def effCalls : List (EffOp ℚ) :=
  [.set .lower (some 1), .addLayer, .set (.layer 1) (some 7), .set (.layer 0) (some 9), .addShape (.layer 0), .addLayer,
    .set (.layer 0) none, .set (.layer 1) (some 5), .set (.layer 0) (some 11)]

example : (EffState.init.exec effCalls).get (.layer 0) = .ok 11 ∧ (EffState.init.exec effCalls).get (.layer 1) = .ok 5 ∧
    (EffState.init.exec effCalls).array = .error .valueError ∧
    (EffState.init.exec (effCalls ++ [.set .upper (some 1)])).array = .ok [1, 11, 5, 1] := by decide +kernel

end Legume
