import Verif.Model.Report
import Verif.Props.Plot
import Mathlib.Tactic.Linarith
import Mathlib.Tactic.FieldSimp

/-! # C139: timing of runs and its reports -/
namespace Legume

section
variable {K : Type} [Field K] [LinearOrder K] [IsStrictOrderedRing K]

/-- The sums which the loop adds up. -/
theorem timing_foldl (interp kz : Bool) (ks : List (KTimes K)) (t : Timing K) :
    ks.foldl (Timing.step interp kz) t =
      { t with
        guided := t.guided + if interp then 0 else (ks.map fun c => c.g1 - c.g0).sum
        creatMat := t.creatMat + (ks.map fun c => c.created - c.create).sum
        symmetry := t.symmetry + if kz then (ks.map fun c => c.s1 - c.s0).sum else 0
        eig := t.eig + (ks.map fun c => c.eig1 - c.eig0).sum } := by
  induction ks generalizing t with
  | nil => cases interp <;> cases kz <;> simp
  | cons c ks ih =>
    rw [List.foldl_cons, ih]
    cases interp <;> cases kz <;> simp [Timing.step, add_assoc]

/-- Bounds of the sums by the span of the readings. -/
theorem loop_span (interp kz : Bool) (ks : List (KTimes K)) (a b : K) (hab : a ≤ b)
    (h : (ks.flatMap (KTimes.readings interp kz)).Pairwise (· ≤ ·))
    (ha : ∀ x ∈ ks.flatMap (KTimes.readings interp kz), a ≤ x) (hb : ∀ x ∈ ks.flatMap (KTimes.readings interp kz), x ≤ b) :
    (interp = false → 0 ≤ (ks.map fun c => c.g1 - c.g0).sum ∧
      (ks.map fun c => c.g1 - c.g0).sum ≤ (ks.map fun c => c.created - c.create).sum) ∧
    (kz = true → 0 ≤ (ks.map fun c => c.s1 - c.s0).sum ∧
      (ks.map fun c => c.s1 - c.s0).sum ≤ (ks.map fun c => c.eig1 - c.eig0).sum) ∧
    0 ≤ (ks.map fun c => c.created - c.create).sum ∧ 0 ≤ (ks.map fun c => c.eig1 - c.eig0).sum ∧
    (ks.map fun c => c.created - c.create).sum + (ks.map fun c => c.eig1 - c.eig0).sum ≤ b - a := by
  induction ks generalizing a with
  | nil => simpa using hab
  | cons c ks ih =>
    rw [List.flatMap_cons, List.pairwise_append] at h
    rw [List.flatMap_cons] at ha hb
    obtain ⟨h1, h2, h3⟩ := h
    have hc : c.eig1 ∈ c.readings interp kz := by simp [KTimes.readings]
    have ih := ih c.eig1 (hb _ (List.mem_append_left _ hc)) h2 (fun x hx => h3 _ hc x hx)
      fun x hx => hb x (List.mem_append_right _ hx)
    obtain ⟨i1, i2, i3, i4, i5⟩ := ih
    have ha0 : a ≤ c.create := ha _ (List.mem_append_left _ (by simp [KTimes.readings]))
    simp only [List.map_cons, List.sum_cons]
    cases interp <;> cases kz <;>
      simp only [KTimes.readings, Bool.false_eq_true, if_true, if_false, List.cons_append, List.nil_append,
        List.append_nil, List.pairwise_cons, List.mem_cons, List.not_mem_nil, or_false, forall_eq_or_imp, forall_eq] at h1 <;>
      refine ⟨fun hi => ?_, fun hk => ?_, ?_, ?_, ?_⟩ <;>
      first
        | (cases hi; done)
        | (cases hk; done)
        | (obtain ⟨j1, j2⟩ := i1 hi; constructor <;> linarith)
        | (obtain ⟨j1, j2⟩ := i2 hk; constructor <;> linarith)
        | linarith

/-- The parts of the readings of a run. -/
theorem run_span (interp kz : Bool) (c : RunTimes K) (h : (c.readings interp kz).Pairwise (· ≤ ·)) :
    c.start ≤ c.v0 ∧ c.v0 ≤ c.v1 ∧ c.v1 ≤ c.loop ∧ c.loop ≤ c.stop ∧
    (interp = true → c.start ≤ c.i0 ∧ c.i0 ≤ c.i1 ∧ c.i1 ≤ c.v0) ∧
    (c.ks.flatMap (KTimes.readings interp kz)).Pairwise (· ≤ ·) ∧
    (∀ x ∈ c.ks.flatMap (KTimes.readings interp kz), c.loop ≤ x) ∧
    (∀ x ∈ c.ks.flatMap (KTimes.readings interp kz), x ≤ c.stop) := by
  unfold RunTimes.readings at h
  rw [List.pairwise_append, List.pairwise_append] at h
  obtain ⟨⟨h1, h2, h3⟩, -, h4⟩ := h
  have hloop : c.loop ∈ [c.start] ++ (if interp then [c.i0, c.i1] else []) ++ [c.v0, c.v1, c.loop] := by simp
  refine ⟨?_, ?_, ?_, h4 _ (List.mem_append_left _ hloop) _ (List.mem_singleton_self _), ?_, h2, fun x hx => h3 _ hloop x hx,
    fun x hx => h4 x (List.mem_append_right _ hx) _ (List.mem_singleton_self _)⟩ <;>
  · cases interp <;> simp at h1 ⊢ <;> tauto

/-- **C139 (guided modes at every wave vector).** With `gmode_compute='exact'` and a clock that does not go back, the times of
all stages are non-negative and add up to at most the total time. -/
theorem C139_exact (kz : Bool) (c : RunTimes K) (h : (c.readings false kz).Pairwise (· ≤ ·)) :
    let t := gmeTiming false kz c
    0 ≤ t.guided ∧ 0 ≤ t.epsInv ∧ 0 ≤ t.eig - t.symmetry ∧ 0 ≤ t.symmetry ∧ 0 ≤ t.creatMat ∧
      t.guided + t.epsInv + (t.eig - t.symmetry) + t.symmetry + t.creatMat ≤ t.total := by
  obtain ⟨r1, r2, r3, r4, -, r5, r6, r7⟩ := run_span false kz c h
  obtain ⟨l1, l2, l3, l4, l5⟩ := loop_span false kz c.ks c.loop c.stop r4 r5 r6 r7
  obtain ⟨l1, l1'⟩ := l1 rfl
  simp only [gmeTiming, timing_foldl]
  cases kz
  · simp only [Bool.false_eq_true, if_false]
    refine ⟨?_, ?_, ?_, ?_, ?_, ?_⟩ <;> linarith
  · obtain ⟨l2, l2'⟩ := l2 rfl
    simp only [Bool.false_eq_true, if_false, if_true]
    refine ⟨?_, ?_, ?_, ?_, ?_, ?_⟩ <;> linarith

/-- **C139 (interpolated guided modes).** With `gmode_compute='interp'` the same holds for all stages but the construction of
the matrices: the time of the guided modes, which is not part of it, is subtracted from it all the same. What is missing is
`0 ≤ t.creatMat`, which is false (`C139_interp_negative`). -/
theorem C139_interp_partial (kz : Bool) (c : RunTimes K) (h : (c.readings true kz).Pairwise (· ≤ ·)) :
    let t := gmeTiming true kz c
    0 ≤ t.guided ∧ 0 ≤ t.epsInv ∧ 0 ≤ t.eig - t.symmetry ∧ 0 ≤ t.symmetry ∧ -t.guided ≤ t.creatMat ∧
      t.creatMat = (c.ks.map fun q => q.created - q.create).sum - t.guided ∧
      t.guided + t.epsInv + (t.eig - t.symmetry) + t.symmetry + (t.creatMat + t.guided) ≤ t.total := by
  obtain ⟨r1, r2, r3, r4, r0, r5, r6, r7⟩ := run_span true kz c h
  obtain ⟨-, l2, l3, l4, l5⟩ := loop_span true kz c.ks c.loop c.stop r4 r5 r6 r7
  obtain ⟨r8, r9, r10⟩ := r0 rfl
  simp only [gmeTiming, timing_foldl]
  cases kz
  · simp only [Bool.false_eq_true, if_false, if_true]
    refine ⟨?_, ?_, ?_, ?_, ?_, ?_, ?_⟩ <;> linarith
  · obtain ⟨l2, l2'⟩ := l2 rfl
    simp only [if_true]
    refine ⟨?_, ?_, ?_, ?_, ?_, ?_, ?_⟩ <;> linarith

/-- **C139 (reports).** A guided-mode report raises `ZeroDivisionError` exactly if the clock shows the same time at the start
and at the end, whether or not something is to be printed. Otherwise nothing is printed without `verbose`; with it, every
stage is printed once with the stored seconds and with its share of the total time. -/
theorem C139_report (rich verbose kz : Bool) (t : Timing K) :
    (gmeReport rich verbose kz t = .error .zeroDivisionError ↔ t.total = 0) ∧
    (t.total ≠ 0 → ∃ rows, gmeReport rich verbose kz t = .ok rows ∧ (verbose = false → rows = []) ∧
      (verbose = true → (rows.map ReportRow.stage).Perm
        ([.total, .guided, .epsInv, .diag, .creatMat] ++ if kz then [.symmetry] else [])) ∧
      ∀ r ∈ rows, (r.stage ≠ .total → r.share = some (100 * (r.seconds / t.total))) ∧
        r.seconds = match r.stage with
          | .guided => t.guided | .epsInv => t.epsInv | .diag => t.eig - t.symmetry | .creatMat => t.creatMat
          | .symmetry => t.symmetry | .total => t.total | .imag => 0) := by
  unfold gmeReport
  by_cases h : t.total = 0
  · simp [h]
  · rw [if_neg h]
    refine ⟨⟨fun he => ?_, fun he => absurd he h⟩, fun _ => ?_⟩
    · cases verbose <;> simp at he
    · cases verbose
      · exact ⟨[], rfl, fun _ => rfl, fun he => by simp at he, by simp⟩
      · refine ⟨_, rfl, fun he => by simp at he, fun _ => ?_, ?_⟩
        · cases rich <;> cases kz <;> simp <;> decide
        · cases rich <;> cases kz <;> simp [mul_comm]

/-- **C139 (shares).** With `gmode_compute='exact'`, every printed share lies between 0 and 100 per cent, so that its bar has
twenty cells. -/
theorem C139_shares [FloorRing K] (rich kz : Bool) (c : RunTimes K) (h : (c.readings false kz).Pairwise (· ≤ ·))
    (rows : List (ReportRow K)) (hr : gmeReport rich true kz (gmeTiming false kz c) = .ok rows) (r : ReportRow K)
    (hm : r ∈ rows) (s : K) (hs : r.share = some s) : 0 ≤ s ∧ s ≤ 100 ∧ (loadBar s 20).length = 22 := by
  obtain ⟨t1, t2, t3, t4, t5, t6⟩ := C139_exact kz c h
  set t := gmeTiming false kz c
  have ht : t.total ≠ 0 := fun h0 => by
    rw [(C139_report rich true kz t).1.2 h0] at hr
    cases hr
  have hp : 0 < t.total := lt_of_le_of_ne (by linarith) (Ne.symm ht)
  have key : 0 ≤ s ∧ s ≤ 100 := by
    have sh : ∀ x, 0 ≤ x → x ≤ t.total → 0 ≤ x / t.total * 100 ∧ x / t.total * 100 ≤ 100 := fun x h0 h1 => by
      have := div_le_one_of_le₀ h1 hp.le
      exact ⟨mul_nonneg (div_nonneg h0 hp.le) (by norm_num), by linarith⟩
    unfold gmeReport at hr
    rw [if_neg ht] at hr
    simp only [if_true] at hr
    cases hr
    have a1 := sh _ t1 (by linarith)
    have a2 := sh _ t2 (by linarith)
    have a3 := sh _ t3 (by linarith)
    have a4 := sh _ t4 (by linarith)
    have a5 := sh _ t5 (by linarith)
    cases rich <;> cases kz <;> simp at hm <;> rcases hm with rfl | rfl | rfl | rfl | rfl | rfl | rfl <;> simp at hs <;>
      subst hs <;> first | assumption | norm_num
  refine ⟨key.1, key.2, ?_⟩
  obtain ⟨n, -, -, hn, e⟩ := C81_bar s 20 key.1 key.2
  rw [e]
  simp
  omega

/-- **C139 (excitons).** The time of the diagonalizations is non-negative and at most the total time. Printing fails only in
tables, if they are printed and the clock shows the same time at the start and at the end; nothing is printed without
`verbose_ex`. -/
theorem C139_exciton (c : ExcTimes K) (h : c.readings.Pairwise (· ≤ ·)) :
    0 ≤ (excTiming c).1 ∧ (excTiming c).1 ≤ (excTiming c).2 ∧
    (∀ rich verbose e, excReport rich verbose (excTiming c) = .error e ↔
      rich = true ∧ verbose = true ∧ c.start = c.stop ∧ e = .zeroDivisionError) ∧
    ∀ rich, excReport rich false (excTiming c) = .ok [] := by
  have fold : ∀ (ks : List (K × K)) (x : K), ks.foldl (fun t p => t + (p.2 - p.1)) x = x + (ks.map fun p => p.2 - p.1).sum := by
    intro ks
    induction ks with
    | nil => simp
    | cons p ks ih => intro x; rw [List.foldl_cons, ih, List.map_cons, List.sum_cons, add_assoc]
  have span : ∀ (ks : List (K × K)) (a : K), ([a] ++ ks.flatMap (fun p => [p.1, p.2]) ++ [c.stop]).Pairwise (· ≤ ·) →
      0 ≤ (ks.map fun p => p.2 - p.1).sum ∧ (ks.map fun p => p.2 - p.1).sum ≤ c.stop - a := by
    intro ks
    induction ks with
    | nil => intro a ha; simpa using ha
    | cons p ks ih =>
      intro a ha
      simp only [List.flatMap_cons, List.cons_append, List.nil_append] at ha ih
      obtain ⟨b1, ha⟩ := List.pairwise_cons.1 ha
      obtain ⟨b2, ha⟩ := List.pairwise_cons.1 ha
      obtain ⟨i1, i2⟩ := ih p.2 ha
      have e1 := b1 p.1 (by simp)
      have e2 := b2 p.2 (by simp)
      rw [List.map_cons, List.sum_cons]
      constructor <;> linarith
  obtain ⟨s1, s2⟩ := span c.ks c.start h
  have e1 : (excTiming c).1 = (c.ks.map fun p => p.2 - p.1).sum := by rw [excTiming, fold, zero_add]
  have e2 : (excTiming c).2 = c.stop - c.start := rfl
  refine ⟨by rw [e1]; exact s1, by rw [e1, e2]; exact s2, fun rich verbose e => ?_, fun rich => rfl⟩
  unfold excReport
  rw [e2]
  by_cases hq : c.stop = c.start
  · rw [if_pos (sub_eq_zero.2 hq)]
    cases rich <;> cases verbose <;> simp [hq, eq_comm]
  · rw [if_neg (sub_ne_zero.2 hq)]
    cases rich <;> cases verbose <;> simp [Ne.symm hq]

end

/-- A run with three seconds for the guided modes and one second for the only matrix. -/
def slowGuided : RunTimes ℚ := ⟨0, 0, 3, 3, 4, 4, [⟨4, 0, 0, 5, 5, 0, 0, 6⟩], 6⟩

/-- **C139 (losses and polaritons).** The reports of `run_im` and of `HopfieldPol` are one row with the seconds, and nothing when
they are switched off. -/
theorem C139_one_row (s : Stage) (seconds : K) :
    (oneRowReport s true seconds = .ok [⟨s, seconds, none⟩]) ∧ oneRowReport s false seconds = .ok [] := ⟨rfl, rfl⟩

/-- **C139: negative time.** With `gmode_compute='interp'` the time stored and printed for the construction of the matrices can
be negative, and its bar has too many cells. -/
theorem C139_interp_negative : (slowGuided.readings true false).Pairwise (· ≤ ·) ∧
    (gmeTiming true false slowGuided).creatMat = -2 ∧
    (loadBar ((gmeTiming true false slowGuided).creatMat / (gmeTiming true false slowGuided).total * 100) 20).length = 28 := by
  decide +kernel

/-- The hypotheses of `C139_exact`, `C139_shares`: two wave vectors and the vertical mirror. -/
def steadyRun : RunTimes ℚ :=
  ⟨0, 0, 0, 1, 2, 2, [⟨2, 3, 4, 5, 5, 5, 6, 7⟩, ⟨7, 7, 8, 10, 10, 10, 11, 14⟩], 16⟩

example : (steadyRun.readings false true).Pairwise (· ≤ ·) ∧ (gmeTiming false true steadyRun).guided = 2 ∧
    (gmeTiming false true steadyRun).creatMat = 4 ∧ (gmeTiming false true steadyRun).symmetry = 2 ∧
    (gmeTiming false true steadyRun).eig = 6 ∧ (gmeTiming false true steadyRun).total = 16 := by decide +kernel

example : (excTiming (⟨0, [(1, 2), (3, 5)], 6⟩ : ExcTimes ℚ)) = (3, 6) ∧
    (⟨0, [(1, 2), (3, 5)], 6⟩ : ExcTimes ℚ).readings.Pairwise (· ≤ ·) := by decide +kernel

end Legume
