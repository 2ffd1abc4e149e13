import Verif.Model.GmeRun
import Verif.Props.GmeRun

/-!
# C31: what a call of `run` inherits from earlier calls on the same object
-/
namespace Legume
open Spec

section
variable {K R E I F L : Type} (env : GmeEnv K R E I F L)

/-- The loop reads only the entries of `ind_modes` up to the point where it stops: it gives the same modes
and the same error from two lists that agree there. -/
theorem kLoop_agree (o : RunArgs K R) (e : E) : ∀ (ks : List K) (ik : ℕ) (inds inds0 : List I) (fs : List F),
    ik ≤ inds.length → ik ≤ inds0.length →
    (o.kz = true → ∀ i, ik ≤ i → i < ik + ((kLoop env o e ks ik inds0 fs).1.length - inds0.length) →
      (inds ++ ks.map (env.ind o))[i]? = (inds0 ++ ks.map (env.ind o))[i]?) →
    (kLoop env o e ks ik inds fs).2 = (kLoop env o e ks ik inds0 fs).2 ∧
    ∃ P, (kLoop env o e ks ik inds0 fs).1 = inds0 ++ P ∧ (kLoop env o e ks ik inds fs).1 = inds ++ P ∧
      P <+: ks.map (env.ind o) := by
  intro ks
  induction ks with
  | nil => intro ik inds inds0 fs _ _ _; exact ⟨rfl, [], by simp [kLoop], by simp [kLoop], by simp⟩
  | cons k ks ih =>
    intro ik inds inds0 fs h1 h2 hag
    have hlen : ∀ (ks : List K) (ik : ℕ) (inds : List I) (fs : List F),
        inds.length ≤ (kLoop env o e ks ik inds fs).1.length := by
      intro ks
      induction ks with
      | nil => intro ik inds fs; simp [kLoop]
      | cons k ks ih2 =>
        intro ik inds fs
        rw [kLoop]
        split
        · simp
        · refine le_trans ?_ (ih2 _ _ _); simp
    have hread : (if o.kz then (inds ++ [env.ind o k])[ik]? else none) =
        (if o.kz then (inds0 ++ [env.ind o k])[ik]? else none) := by
      by_cases hz : o.kz = true
      · have hpos : inds0.length + 1 ≤ (kLoop env o e (k :: ks) ik inds0 fs).1.length := by
          rw [kLoop]
          split
          · simp
          · refine le_trans ?_ (hlen _ _ _ _); simp
        have := hag hz ik le_rfl (by omega)
        rw [if_pos hz, if_pos hz]
        have r1 : ∀ l : List I, ik ≤ l.length →
            (l ++ (k :: ks).map (env.ind o))[ik]? = (l ++ [env.ind o k])[ik]? := by
          intro l hl
          have : l ++ (k :: ks).map (env.ind o) = (l ++ [env.ind o k]) ++ ks.map (env.ind o) := by simp
          rw [this, List.getElem?_append_left (by rw [List.length_append, List.length_singleton]; omega)]
        rw [r1 _ h1, r1 _ h2] at this
        exact this
      · simp [hz]
    rw [kLoop, kLoop]
    simp only [hread]
    cases hsol : env.solve o e k (if o.kz then (inds0 ++ [env.ind o k])[ik]? else none) with
    | error err => exact ⟨rfl, [env.ind o k], rfl, rfl, by simp⟩
    | ok f =>
      simp only
      obtain ⟨q1, P, q2, q3, q4⟩ := ih (ik + 1) (inds ++ [env.ind o k]) (inds0 ++ [env.ind o k]) (fs ++ [f])
        (by simp; omega) (by simp; omega) (by
          intro hz i hi1 hi2
          have := hag hz i (by omega) (by
            rw [kLoop]
            simp only [hsol]
            rw [List.length_append] at hi2
            simp only [List.length_singleton] at hi2
            have := hlen ks (ik + 1) (inds0 ++ [env.ind o k]) (fs ++ [f])
            rw [List.length_append, List.length_singleton] at this
            omega)
          simpa using this)
      exact ⟨q1, env.ind o k :: P, by simp [q2], by simp [q3], by simpa using q4⟩

/-- Same result as on a fresh object: the same error, or the same frequencies and imaginary parts. -/
def SameResult (o : RunArgs K R) (st : GmeObj E I F L) : Prop :=
  (gmeRun env o st).2 = (gmeRun env o GmeObj.fresh).2 ∧
  ((gmeRun env o GmeObj.fresh).2 = none →
    (gmeRun env o st).1.freqs = (gmeRun env o GmeObj.fresh).1.freqs ∧
    (o.computeIm = true ∨ st.freqsIm = none →
      (gmeRun env o st).1.freqsIm = (gmeRun env o GmeObj.fresh).1.freqsIm))

theorem same_result (o : RunArgs K R) (st : GmeObj E I F L)
    (he : st.epsInv = none ∨ st.epsInv = some (env.eps o.onlyG))
    (hi : o.kz = true → ∀ i, i < (kLoop env o (env.eps o.onlyG) o.kpts 0 [] []).1.length →
      (st.indModes ++ o.kpts.map (env.ind o))[i]? = (o.kpts.map (env.ind o))[i]?) :
    SameResult env o st := by
  have hE : st.epsInv.getD (env.eps o.onlyG) = env.eps o.onlyG := by rcases he with h | h <;> simp [h]
  obtain ⟨h1, -⟩ := kLoop_agree env o (env.eps o.onlyG) o.kpts 0 st.indModes [] [] (by simp) (by simp)
    (by intro hz i _ h2; simpa using hi hz i (by simpa using h2))
  unfold SameResult gmeRun
  cases hch : env.check o with
  | some err => exact ⟨rfl, fun h => by simp at h⟩
  | none =>
    simp only [hE, GmeObj.fresh, Option.getD_none]
    generalize kLoop env o (env.eps o.onlyG) o.kpts 0 st.indModes [] = A at h1 ⊢
    generalize kLoop env o (env.eps o.onlyG) o.kpts 0 [] [] = A0 at h1 ⊢
    obtain ⟨a, b, c⟩ := A
    obtain ⟨a0, b0, c0⟩ := A0
    simp only [Prod.mk.injEq] at h1
    obtain ⟨rfl, rfl⟩ := h1
    cases c with
    | some err => exact ⟨rfl, fun h => by simp at h⟩
    | none =>
      refine ⟨rfl, fun _ => ⟨rfl, ?_⟩⟩
      rintro (h | h)
      · simp [h]
      · by_cases hc : o.computeIm = true <;> simp [hc, h]

theorem run_eps (o : RunArgs K R) (st : GmeObj E I F L) :
    (gmeRun env o st).1.epsInv = if (env.check o).isSome then st.epsInv
      else some (st.epsInv.getD (env.eps o.onlyG)) := by
  unfold gmeRun
  cases hch : env.check o with
  | some err => simp
  | none =>
    simp only
    generalize kLoop env o (st.epsInv.getD (env.eps o.onlyG)) o.kpts 0 st.indModes [] = A
    obtain ⟨a, b, c⟩ := A
    cases c <;> simp

/-- **C31 (partial).** A call without symmetry separation and with `compute_im=True` gives on a used object
what it gives on a new one, whatever calls were made before (successful or not), as long as they had the same
value of `only_gmodes`.  Missing: changes of `only_gmodes`, symmetry separation and `compute_im=False`, for
which the property fails (`C31_stale_eps`, `C31_stale_ind`, `C31_stale_loss`). -/
theorem C31_history_partial (os : List (RunArgs K R)) (o : RunArgs K R) (h : ∀ p ∈ os, p.onlyG = o.onlyG)
    (hz : o.kz = false) (hc : o.computeIm = true) :
    (gmeRun env o (gmeHistory env os)).2 = (gmeRun env o GmeObj.fresh).2 ∧
    ((gmeRun env o GmeObj.fresh).2 = none →
      (gmeRun env o (gmeHistory env os)).1.freqs = (gmeRun env o GmeObj.fresh).1.freqs ∧
      (gmeRun env o (gmeHistory env os)).1.freqsIm = (gmeRun env o GmeObj.fresh).1.freqsIm) := by
  have key : (gmeHistory env os).epsInv = none ∨ (gmeHistory env os).epsInv = some (env.eps o.onlyG) := by
    unfold gmeHistory
    have : ∀ (os : List (RunArgs K R)) (st : GmeObj E I F L), (∀ p ∈ os, p.onlyG = o.onlyG) →
        (st.epsInv = none ∨ st.epsInv = some (env.eps o.onlyG)) →
        ((os.foldl (fun st o => (gmeRun env o st).1) st).epsInv = none ∨
         (os.foldl (fun st o => (gmeRun env o st).1) st).epsInv = some (env.eps o.onlyG)) := by
      intro os
      induction os with
      | nil => intro st _ h; exact h
      | cons p ps ih =>
        intro st hp hst
        refine ih _ (fun q hq => hp q (by simp [hq])) ?_
        rw [run_eps]
        split_ifs
        · exact hst
        · right
          rcases hst with h1 | h1 <;> simp [h1, hp p (by simp)]
    exact this os _ h (Or.inl rfl)
  obtain ⟨h1, h2⟩ := same_result env o (gmeHistory env os) key (fun h => by simp [hz] at h)
  exact ⟨h1, fun h => ⟨(h2 h).1, (h2 h).2 (Or.inl hc)⟩⟩

theorem flatten_replicate_read {α : Type} (P A : List α) (hP : P <+: A) (j i : ℕ) (hi : i < P.length) :
    ((List.replicate j P).flatten ++ A)[i]? = A[i]? := by
  obtain ⟨t, rfl⟩ := hP
  cases j with
  | zero => simp
  | succ j =>
    rw [List.replicate_succ, List.flatten_cons, List.append_assoc, List.getElem?_append_left hi,
      List.getElem?_append_left hi]

/-- **C31.** Repeating a call any number of times changes nothing, for all options: the same error or the same
frequencies and imaginary parts as the first time. -/
theorem C31_repeat (o : RunArgs K R) (j : ℕ) :
    (gmeRun env o (gmeHistory env (List.replicate j o))).2 = (gmeRun env o GmeObj.fresh).2 ∧
    ((gmeRun env o GmeObj.fresh).2 = none →
      (gmeRun env o (gmeHistory env (List.replicate j o))).1.freqs = (gmeRun env o GmeObj.fresh).1.freqs ∧
      (gmeRun env o (gmeHistory env (List.replicate j o))).1.freqsIm =
        (gmeRun env o GmeObj.fresh).1.freqsIm) := by
  set e := env.eps o.onlyG with he
  set P := (kLoop env o e o.kpts 0 [] []).1 with hP
  have hpre : P <+: o.kpts.map (env.ind o) := by
    obtain ⟨-, Q, q2, -, q4⟩ := kLoop_agree env o e o.kpts 0 [] [] [] (by simp) (by simp) (by simp)
    rw [hP, q2]; simpa using q4
  have inv : ∀ j, ((gmeHistory env (List.replicate j o)).epsInv = none ∨
        (gmeHistory env (List.replicate j o)).epsInv = some e) ∧
      (∃ q, (gmeHistory env (List.replicate j o)).indModes = (List.replicate q P).flatten) ∧
      (o.computeIm = false → (gmeHistory env (List.replicate j o)).freqsIm = none) := by
    intro j
    induction j with
    | zero => exact ⟨Or.inl rfl, ⟨0, rfl⟩, fun _ => rfl⟩
    | succ j ih =>
      obtain ⟨i1, ⟨q, i2⟩, i3⟩ := ih
      have hs : gmeHistory env (List.replicate (j + 1) o) =
          (gmeRun env o (gmeHistory env (List.replicate j o))).1 := by
        rw [List.replicate_succ']; simp [gmeHistory]
      rw [hs]
      set st := gmeHistory env (List.replicate j o) with hst
      refine ⟨?_, ?_, ?_⟩
      · rw [run_eps]
        split_ifs
        · exact i1
        · right; rcases i1 with h | h <;> simp [h, he]
      · have hE : st.epsInv.getD (env.eps o.onlyG) = e := by rcases i1 with h | h <;> simp [h, he]
        unfold gmeRun
        cases hch : env.check o with
        | some err => exact ⟨q, i2⟩
        | none =>
          simp only [hE]
          obtain ⟨-, Q, q2, q3, -⟩ := kLoop_agree env o e o.kpts 0 st.indModes [] [] (by simp) (by simp)
            (by
              intro _ i _ h2
              rw [i2]
              simpa using flatten_replicate_read P _ hpre q i (by simpa using h2))
          have hQ : Q = P := by rw [hP, q2]; simp
          generalize hA : kLoop env o e o.kpts 0 st.indModes [] = A at q3
          obtain ⟨a, b, c⟩ := A
          simp only at q3
          refine ⟨q + 1, ?_⟩
          rw [List.replicate_succ', List.flatten_append]
          simp only [List.flatten_singleton]
          cases c <;> simp only [q3, i2, hQ]
      · intro hc
        unfold gmeRun
        cases hch : env.check o with
        | some err => exact i3 hc
        | none =>
          simp only
          generalize kLoop env o (st.epsInv.getD (env.eps o.onlyG)) o.kpts 0 st.indModes [] = A
          obtain ⟨a, b, c⟩ := A
          cases c <;> simp [hc, i3 hc]
  obtain ⟨i1, ⟨q, i2⟩, i3⟩ := inv j
  obtain ⟨h1, h2⟩ := same_result env o _ i1 (by
    intro _ i hi
    rw [i2]
    exact flatten_replicate_read P _ hpre q i hi)
  refine ⟨h1, fun h => ⟨(h2 h).1, (h2 h).2 ?_⟩⟩
  by_cases hc : o.computeIm = true
  · exact Or.inl hc
  · exact Or.inr (i3 (by simpa using hc))

/-- **C31.** A call that raises leaves the frequencies and imaginary parts of the last successful call in place. -/
theorem C31_failed_call (o : RunArgs K R) (st : GmeObj E I F L) (err : PyErr)
    (h : (gmeRun env o st).2 = some err) :
    (gmeRun env o st).1.freqs = st.freqs ∧ (gmeRun env o st).1.freqsIm = st.freqsIm := by
  unfold gmeRun at h ⊢
  cases hch : env.check o with
  | some err => exact ⟨rfl, rfl⟩
  | none =>
    simp only [hch] at h ⊢
    generalize kLoop env o (st.epsInv.getD (env.eps o.onlyG)) o.kpts 0 st.indModes [] = A at h ⊢
    obtain ⟨a, b, c⟩ := A
    cases c with
    | none => simp at h
    | some e => exact ⟨rfl, rfl⟩

/-- **C31 (violation).** The inverse permittivity of the first call that got past its checks is used by all
later calls: each of them returns what a new object would return if `only_gmodes` had the value it had in that
first call. -/
theorem C31_stale_eps (o0 : RunArgs K R) (os : List (RunArgs K R)) (o : RunArgs K R)
    (h0 : env.check o0 = none) (hz : o.kz = false) (hc : o.computeIm = true) :
    (gmeRun env o (gmeHistory env (o0 :: os))).2 =
      (gmeRun { env with eps := fun _ => env.eps o0.onlyG } o GmeObj.fresh).2 ∧
    ((gmeRun { env with eps := fun _ => env.eps o0.onlyG } o GmeObj.fresh).2 = none →
      (gmeRun env o (gmeHistory env (o0 :: os))).1.freqs =
        (gmeRun { env with eps := fun _ => env.eps o0.onlyG } o GmeObj.fresh).1.freqs ∧
      (gmeRun env o (gmeHistory env (o0 :: os))).1.freqsIm =
        (gmeRun { env with eps := fun _ => env.eps o0.onlyG } o GmeObj.fresh).1.freqsIm) := by
  have key : (gmeHistory env (o0 :: os)).epsInv = some (env.eps o0.onlyG) := by
    have : ∀ (os : List (RunArgs K R)) (st : GmeObj E I F L), st.epsInv = some (env.eps o0.onlyG) →
        (os.foldl (fun st o => (gmeRun env o st).1) st).epsInv = some (env.eps o0.onlyG) := by
      intro os
      induction os with
      | nil => intro st h; exact h
      | cons p ps ih =>
        intro st hst
        refine ih _ ?_
        rw [run_eps]
        split_ifs
        · exact hst
        · simp [hst]
    unfold gmeHistory
    rw [List.foldl_cons]
    refine this os _ ?_
    rw [run_eps, h0]
    simp [GmeObj.fresh]
  set st := gmeHistory env (o0 :: os) with hst
  have hsame : gmeRun env o st = gmeRun { env with eps := fun _ => env.eps o0.onlyG } o st := by
    have hk : ∀ (e : E) (ks : List K) (ik : ℕ) (inds : List I) (fs : List F),
        kLoop { env with eps := fun _ => env.eps o0.onlyG } o e ks ik inds fs = kLoop env o e ks ik inds fs := by
      intro e ks
      induction ks with
      | nil => intro ik inds fs; rfl
      | cons k ks ih =>
        intro ik inds fs
        rw [kLoop, kLoop]
        simp only [ih]
    unfold gmeRun
    simp only [key, Option.getD_some, hk]
  rw [hsame]
  obtain ⟨h1, h2⟩ := same_result { env with eps := fun _ => env.eps o0.onlyG } o st (Or.inr key)
    (fun h => by simp [hz] at h)
  exact ⟨h1, fun h => ⟨(h2 h).1, (h2 h).2 (Or.inl hc)⟩⟩

/-- **C31 (violation).** With symmetry separation, `k` point number `ik` of a later call is separated with the
plane waves that were recorded for `k` point number `ik` of the first call. -/
theorem C31_stale_ind (o0 o : RunArgs K R) (k0 k : K) (h0 : env.check o0 = none) (ho : env.check o = none)
    (hk0 : o0.kpts = [k0]) (hk : o.kpts = [k]) (hz : o.kz = true) :
    (gmeRun env o (gmeHistory env [o0])).2 =
      (match env.solve o (env.eps o0.onlyG) k (some (env.ind o0 k0)) with
       | .error err => some err
       | .ok _ => none) := by
  have hst : (gmeHistory env [o0]).epsInv = some (env.eps o0.onlyG) ∧
      (gmeHistory env [o0]).indModes = [env.ind o0 k0] := by
    refine ⟨by simp [gmeHistory, run_eps, h0, GmeObj.fresh], ?_⟩
    simp only [gmeHistory, List.foldl_cons, List.foldl_nil, gmeRun, h0, hk0, kLoop, GmeObj.fresh,
      List.nil_append, Option.getD_none]
    generalize hs : env.solve o0 (env.eps o0.onlyG) k0 (if o0.kz then [env.ind o0 k0][0]? else none) = X
    cases X <;> rfl
  simp only [gmeRun, ho, hst.1, hst.2, hk, kLoop, hz, Option.getD_some]
  simp only [if_true, List.singleton_append, List.getElem?_cons_zero]
  generalize env.solve o (env.eps o0.onlyG) k (some (env.ind o0 k0)) = X
  cases X <;> rfl

/-- **C31 (violation).** After a call with `compute_im=False` the imaginary parts are those of an earlier call,
not of the frequencies now stored. -/
theorem C31_stale_loss (o : RunArgs K R) (st : GmeObj E I F L) (h : o.computeIm = false) :
    (gmeRun env o st).1.freqsIm = st.freqsIm := by
  unfold gmeRun
  cases hch : env.check o with
  | some err => rfl
  | none =>
    simp only
    generalize kLoop env o (st.epsInv.getD (env.eps o.onlyG)) o.kpts 0 st.indModes [] = A
    obtain ⟨a, b, c⟩ := A
    cases c <;> simp [h]

end

/-! ### Concrete calls -/

noncomputable section

/-- One layer whose permittivity matrix is `[[2, 1], [1, 2]]`; the "frequency" is an entry of the inverse
permittivity; `k = 0` is off the mirror plane and its vectors `(0, 1)` have no partner, the others do. -/
def exEnv : GmeEnv ℕ Unit (Matrix (Fin 2) (Fin 2) ℂ) (List (List (ℝ × ℝ))) ℂ ℂ where
  check _ := none
  eps g := epsInvLayer !![2, 1; 1, 2] 2 g
  ind _ k := if k = 0 then [[(0, 1)]] else exUsed
  solve _ e _ u := match u with
    | none => .ok (e 0 0)
    | some used => match symModes 0 [1] used with
      | .error err => .error err
      | .ok _ => .ok (e 0 0)
  loss _ e _ := e 0 1

theorem exEps : exEnv.eps true 0 0 = 1 / 2 ∧ exEnv.eps false 0 0 = 2 / 3 := by
  constructor
  · simp [exEnv, epsInvLayer]
  · have h : ¬ ((∑ i : Fin 2, ∑ j : Fin 2, if i = j then 0 else
        ‖(!![2, 1; 1, 2] : Matrix (Fin 2) (Fin 2) ℂ) i j‖) < 1e-10 ∨ false = true) := by
      simp [Fin.sum_univ_two]; norm_num
    simp only [exEnv, epsInvLayer]
    rw [if_neg h, Matrix.inv_def, Matrix.adjugate_fin_two]
    simp [Matrix.det_fin_two]
    norm_num

/-- After `run(only_gmodes=True)`, a call `run(only_gmodes=False)` returns a frequency that a new object would not
return. -/
theorem C31_only_gmodes_counterexample :
    (gmeRun exEnv ⟨[1], false, false, true, ()⟩ (gmeHistory exEnv [⟨[1], true, false, true, ()⟩])).1.freqs ≠
    (gmeRun exEnv ⟨[1], false, false, true, ()⟩ GmeObj.fresh).1.freqs := by
  have h := (C31_stale_eps exEnv ⟨[1], true, false, true, ()⟩ [] ⟨[1], false, false, true, ()⟩ rfl rfl rfl).2 rfl
  rw [h.1]
  have e1 : (gmeRun { exEnv with eps := fun _ => exEnv.eps true } ⟨[1], false, false, true, ()⟩
      GmeObj.fresh).1.freqs = [exEnv.eps true 0 0] := rfl
  have e2 : (gmeRun exEnv ⟨[1], false, false, true, ()⟩ GmeObj.fresh).1.freqs = [exEnv.eps false 0 0] := rfl
  rw [e1, e2, exEps.1, exEps.2]
  norm_num

/-- A call with symmetry separation that succeeds on a new object raises after an ordinary call at a `k` point
off the mirror plane. -/
theorem C31_symmetry_counterexample :
    (gmeRun exEnv ⟨[1], false, true, true, ()⟩ GmeObj.fresh).2 = none ∧
    (gmeRun exEnv ⟨[1], false, true, true, ()⟩ (gmeHistory exEnv [⟨[0], false, false, true, ()⟩])).2 =
      some .valueError := by
  constructor
  · obtain ⟨s, hs⟩ := exSep false
    cases h : symModes 0 [1] exUsed with
    | ok ms => simp [gmeRun, kLoop, exEnv, GmeObj.fresh, h]
    | error e => rw [separate, h] at hs; cases hs
  · rw [C31_stale_ind exEnv _ _ 0 1 rfl rfl rfl rfl rfl]
    have : symModes 0 [1] [[(0, 1)]] = .error .valueError := by
      simp [symModes, reflIdx, indG, reflectG, List.findIdx?_cons]
      norm_num [bind, Except.bind]
    simp [exEnv, this]

example : (gmeRun exEnv ⟨[1], false, false, true, ()⟩
      (gmeHistory exEnv [⟨[0, 1], false, true, false, ()⟩, ⟨[2], false, false, true, ()⟩])).1.freqs =
    (gmeRun exEnv ⟨[1], false, false, true, ()⟩ GmeObj.fresh).1.freqs :=
  ((C31_history_partial exEnv [⟨[0, 1], false, true, false, ()⟩, ⟨[2], false, false, true, ()⟩]
    ⟨[1], false, false, true, ()⟩ (by simp) rfl rfl).2 rfl).1

example : (gmeRun exEnv ⟨[0, 1], true, true, true, ()⟩
    (gmeHistory exEnv (List.replicate 3 ⟨[0, 1], true, true, true, ()⟩))).2 =
    (gmeRun exEnv ⟨[0, 1], true, true, true, ()⟩ GmeObj.fresh).2 :=
  (C31_repeat exEnv ⟨[0, 1], true, true, true, ()⟩ 3).1

/-- The imaginary parts stay those of the first call while the frequencies change. -/
example : (gmeRun exEnv ⟨[1, 2], false, false, false, ()⟩
    (gmeHistory exEnv [⟨[1], false, false, true, ()⟩])).1.freqsIm =
      (gmeHistory exEnv [⟨[1], false, false, true, ()⟩]).freqsIm :=
  C31_stale_loss exEnv _ _ rfl

end

end Legume
