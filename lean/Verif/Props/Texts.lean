import Verif.Model.Texts
import Verif.Spec.Units
import Verif.Props.Minimize

/-!
# C147: texts of solver objects. C148: using a minimiser again
-/
namespace Legume
open Spec

/-! ### Options shown -/

section
variable {V : Type} (dflt : String → V) (asArray : V → V)

/-- The options of `GuidedModeExp.run` as documented (docstring of `set_run_options`). -/
def runOptions : List String :=
  ["verbose", "compute_im", "gradients", "kz_symmetry", "symm_thr", "delta_gx", "delta_gabs", "use_sparse", "only_gmodes",
    "eig_solver", "eig_sigma", "eps_eff", "numeig", "gmode_compute", "gmode_inds", "gmode_npts", "gmode_step", "gmode_tol"]

/-- Is a call accepted? -/
def GoodCall (kw : List (String × V)) : Prop := ∀ p ∈ kw, p.1 ∈ runOptions

theorem mem_runOptions (o : String) : o ∈ runOptions ↔ o ∈ gmeOptNames := by
  constructor
  · exact fun h => (by decide : ∀ o ∈ runOptions, o ∈ gmeOptNames) o h
  · exact fun h => (by decide : ∀ o ∈ gmeOptNames, o ∈ runOptions) o h

/-- The value of an option in a call. -/
def valueIn (kw : List (String × V)) (o : String) : V :=
  if o = "gmode_inds" then asArray ((kw.lookup o).getD (dflt o)) else (kw.lookup o).getD (dflt o)

theorem setRunOptions_good (attrs : Attrs V) (kw : List (String × V)) (h : GoodCall kw) :
    setRunOptions dflt asArray attrs kw =
      .ok fun o => if gmeOptNames.contains o then some (valueIn dflt asArray kw o) else attrs o := by
  unfold setRunOptions
  rw [if_pos]
  · rfl
  · rw [List.all_eq_true]
    intro p hp
    rw [List.contains_iff_mem]
    exact (mem_runOptions _).1 (h p hp)

theorem setRunOptions_bad (attrs : Attrs V) (kw : List (String × V)) (h : ¬ GoodCall kw) :
    setRunOptions dflt asArray attrs kw = .error .typeError := by
  unfold setRunOptions
  rw [if_neg]
  intro h'
  rw [List.all_eq_true] at h'
  exact h fun p hp => (mem_runOptions _).2 (List.contains_iff_mem.1 (h' p hp))

theorem attrsAfter_append (attrs : Attrs V) (cs cs' : List (List (String × V))) :
    attrsAfter dflt asArray attrs (cs ++ cs') = attrsAfter dflt asArray (attrsAfter dflt asArray attrs cs) cs' := by
  unfold attrsAfter
  rw [List.foldl_append]

theorem attrsAfter_bad (attrs : Attrs V) (cs : List (List (String × V))) (h : ∀ kw ∈ cs, ¬ GoodCall kw) :
    attrsAfter dflt asArray attrs cs = attrs := by
  induction cs generalizing attrs with
  | nil => rfl
  | cons kw cs ih =>
    have e : attrsAfter dflt asArray attrs (kw :: cs) = attrsAfter dflt asArray
        (match setRunOptions dflt asArray attrs kw with | .ok a' => a' | .error _ => attrs) cs := rfl
    rw [e, setRunOptions_bad dflt asArray attrs kw (h kw List.mem_cons_self)]
    exact ih attrs fun k hk => h k (List.mem_cons_of_mem _ hk)

/-- The attributes of the options after a last accepted call. -/
theorem attrsAfter_last (attrs : Attrs V) (before after : List (List (String × V))) (kw : List (String × V)) (hk : GoodCall kw)
    (ha : ∀ k ∈ after, ¬ GoodCall k) (o : String) :
    attrsAfter dflt asArray attrs (before ++ kw :: after) o =
      if gmeOptNames.contains o then some (valueIn dflt asArray kw o) else attrsAfter dflt asArray attrs before o := by
  rw [attrsAfter_append]
  have e : ∀ a, attrsAfter dflt asArray a (kw :: after) = attrsAfter dflt asArray
      (match setRunOptions dflt asArray a kw with | .ok a' => a' | .error _ => a) after := fun a => rfl
  rw [e, setRunOptions_good dflt asArray _ kw hk, attrsAfter_bad dflt asArray _ after ha]

theorem optLines_all (attrs : Attrs V) (f : String → V) (names : List String) (h : ∀ o ∈ names, attrs o = some (f o)) :
    optLines attrs names = names.map fun o => (o, f o) := by
  induction names with
  | nil => rfl
  | cons o names ih =>
    have h1 := h o List.mem_cons_self
    have h2 := ih fun x hx => h x (List.mem_cons_of_mem _ hx)
    unfold optLines at h2 ⊢
    rw [List.filterMap_cons, h1, List.map_cons]
    simp only [Option.map_some]
    rw [h2]

theorem optLines_none (attrs : Attrs V) (names : List String) (h : ∀ o ∈ names, attrs o = none) : optLines attrs names = [] := by
  unfold optLines
  rw [List.filterMap_eq_nil_iff]
  intro o ho
  rw [h o ho]
  rfl

theorem gmeShown_known : ∀ o ∈ gmeShown, gmeOptNames.contains o = true := by decide

/-- **C147 (guided-mode expansion).** Whatever the history of calls of `run`, the text shows `gmax` and the seven options, in a
fixed order, with the values of the last call that was accepted: those passed, otherwise the defaults. -/
theorem C147_gme (gmax : V) (attrs : Attrs V) (before after : List (List (String × V))) (kw : List (String × V))
    (hk : GoodCall kw) (ha : ∀ k ∈ after, ¬ GoodCall k) :
    gmeText gmax (attrsAfter dflt asArray attrs (before ++ kw :: after)) =
      ("gmax", gmax) :: ["gmode_compute", "gmode_inds", "gmode_step", "gradients", "eig_solver", "eig_sigma", "eps_eff"].map
        fun o => (o, valueIn dflt asArray kw o) := by
  unfold gmeText
  congr 1
  refine optLines_all _ _ _ fun o ho => ?_
  rw [attrsAfter_last dflt asArray attrs before after kw hk ha, if_pos (gmeShown_known o ho)]

/-- **C147 (options).** A call of `run` is accepted exactly if every name is a documented option; then every documented option has
the value passed, otherwise the default, and no other attribute changes. -/
theorem C147_options (attrs : Attrs V) (kw : List (String × V)) :
    ((∃ a, setRunOptions dflt asArray attrs kw = .ok a) ↔ ∀ p ∈ kw, p.1 ∈ runOptions) ∧
    ∀ a, setRunOptions dflt asArray attrs kw = .ok a → ∀ o,
      a o = if o ∈ runOptions then some (valueIn dflt asArray kw o) else attrs o := by
  refine ⟨⟨fun ⟨a, ha⟩ => ?_, fun h => ⟨_, setRunOptions_good dflt asArray attrs kw h⟩⟩, fun a ha o => ?_⟩
  · by_contra h
    rw [setRunOptions_bad dflt asArray attrs kw h] at ha
    cases ha
  · have h : GoodCall kw := by
      by_contra h
      rw [setRunOptions_bad dflt asArray attrs kw h] at ha
      cases ha
    rw [setRunOptions_good dflt asArray attrs kw h] at ha
    cases ha
    simp only [List.contains_iff_mem, mem_runOptions]

/-- Before an accepted call, only `gmax` is shown. -/
theorem C147_gme_fresh (gmax : V) (calls : List (List (String × V))) (hc : ∀ kw ∈ calls, ¬ GoodCall kw) :
    gmeText gmax (attrsAfter dflt asArray (fun _ => none) calls) = [("gmax", gmax)] := by
  rw [attrsAfter_bad dflt asArray _ calls hc]
  unfold gmeText
  rw [optLines_none _ _ fun _ _ => rfl]

/-- **C147 (polaritons).** The same for the photonic part, followed by the positions of the wells in the order in which they were
added. -/
theorem C147_pol (gmax : V) (attrs : Attrs V) (hg : attrs "gmax" = some gmax) (before after : List (List (String × V)))
    (kw : List (String × V)) (hk : GoodCall kw) (ha : ∀ k ∈ after, ¬ GoodCall k) (zs : List V) :
    polText (attrsAfter dflt asArray attrs (before ++ kw :: after)) zs =
      (("gmax", gmax) :: gmeShown.map fun o => (o, valueIn dflt asArray kw o), zs) := by
  have hgmax : ∀ cs : List (List (String × V)), ∀ a : Attrs V, a "gmax" = some gmax →
      attrsAfter dflt asArray a cs "gmax" = some gmax := by
    intro cs
    induction cs with
    | nil => intro a h; exact h
    | cons k cs ih =>
      intro a h
      have e : attrsAfter dflt asArray a (k :: cs) = attrsAfter dflt asArray
          (match setRunOptions dflt asArray a k with | .ok a' => a' | .error _ => a) cs := rfl
      rw [e]
      apply ih
      by_cases hgood : GoodCall k
      · rw [setRunOptions_good dflt asArray a k hgood]
        simp only []
        rw [if_neg (by decide), h]
      · rw [setRunOptions_bad dflt asArray a k hgood]
        exact h
  unfold polText
  congr 1
  have e2 : optLines (attrsAfter dflt asArray attrs (before ++ kw :: after)) ("gmax" :: gmeShown) =
      ("gmax", gmax) :: optLines (attrsAfter dflt asArray attrs (before ++ kw :: after)) gmeShown := by
    unfold optLines
    rw [List.filterMap_cons, hgmax _ attrs hg]
    rfl
  rw [e2]
  congr 1
  refine optLines_all _ _ _ fun o ho => ?_
  rw [attrsAfter_last dflt asArray attrs before after kw hk ha, if_pos (gmeShown_known o ho)]

/-- **C147 (plane-wave expansion).** After any number of calls of `run` the text shows the polarisation in lower case and the number
of eigenvalues of the last one. -/
theorem C147_pwe (lower : V → V) (gmax epsEff : V) (calls : List (V × V)) (pol numeig : V) :
    pweText gmax epsEff ((calls ++ [(pol, numeig)]).foldl (fun a c => pweStore lower a c.1 c.2) fun _ => none) =
      [("gmax", gmax), ("eps_eff", epsEff), ("pol", lower pol), ("numeig", numeig)] := by
  rw [List.foldl_append]
  rfl

end

/-- Options of two calls: the second is rejected, so the text shows the first. -/
example : gmeText "3" (attrsAfter (fun _ => "default") id (fun _ => none)
      ([] ++ [("gradients", "approx"), ("numeig", "5")] :: [[("gmode_indices", "[0]")]])) =
    [("gmax", "3"), ("gmode_compute", "default"), ("gmode_inds", "default"), ("gmode_step", "default"), ("gradients", "approx"),
      ("eig_solver", "default"), ("eig_sigma", "default"), ("eps_eff", "default")] := by
  rw [C147_gme (fun _ => "default") id "3" _ [] [[("gmode_indices", "[0]")]] [("gradients", "approx"), ("numeig", "5")]]
  · rfl
  · intro p hp
    simp only [List.mem_cons, List.not_mem_nil, or_false] at hp
    rcases hp with rfl | rfl <;> decide
  · intro k hk h
    rw [List.mem_singleton] at hk
    subst hk
    have := h _ List.mem_cons_self
    revert this
    decide

/-! ### Excitons -/

/-- **C147 (excitons, partial).** Every number shown is the attribute; the energies `E0` and `V_shapes` are right with their
unit. Missing: the loss, see `C147_loss_fails`. -/
theorem C147_exc_partial (gmax a M E0 loss z V : ℝ) (osc : Option (ℝ × ℝ × ℝ)) (l : UnitLine)
    (hl : l ∈ excText gmax a M E0 loss z V osc) :
    (l.name = "E0" → Reads l.val l.unit E0) ∧ (l.name = "V_shapes" → Reads l.val l.unit V) ∧
      (l.name = "gmax" → l.val = gmax) ∧ (l.name = "a" → l.val = a ∧ l.unit = "m") ∧ (l.name = "M" → l.val = M ∧ l.unit = "kg") ∧
      (l.name = "z" → l.val = z) ∧ (l.name = "loss" → Reads l.val "meV" loss) ∧
      (l.name = "osc_str" → ∃ f, osc = some f ∧ (l.val = f.1 ∨ l.val = f.2.1 ∨ l.val = f.2.2) ∧ l.unit = "m^-2") := by
  have r1 : ∀ x, Reads x "eV" x := fun x => ⟨1, rfl, by ring⟩
  have r2 : Reads (loss * 1e3) "meV" loss := ⟨1e-3, rfl, by norm_num; ring⟩
  unfold excText at hl
  cases osc with
  | none =>
    simp only [List.append_nil, List.mem_cons, List.not_mem_nil, or_false] at hl
    rcases hl with rfl | rfl | rfl | rfl | rfl | rfl | rfl <;> simp [r1, r2]
  | some f =>
    obtain ⟨f0, f1, f2⟩ := f
    simp only [List.mem_append, List.mem_cons, List.not_mem_nil, or_false] at hl
    rcases hl with (rfl | rfl | rfl | rfl | rfl | rfl | rfl) | (rfl | rfl | rfl) <;> simp [r1, r2]

/-- The loss is shown in the wrong unit: whenever it is not zero, the number with the unit printed next to it is not the loss. -/
theorem C147_loss_fails (gmax a M E0 loss z V : ℝ) (osc : Option (ℝ × ℝ × ℝ)) (h : loss ≠ 0) :
    ∃ l ∈ excText gmax a M E0 loss z V osc, l.name = "loss" ∧ ¬ Reads l.val l.unit loss := by
  refine ⟨⟨"loss", loss * 1e3, "ueV"⟩, by simp [excText], rfl, ?_⟩
  rintro ⟨u, hu, e⟩
  obtain rfl : (1e-6 : ℝ) = u := Option.some.inj hu
  apply h
  norm_num at e
  linarith

example : ∃ l ∈ excText 3 1e-7 1e-31 1.5 1e-4 0.1 0.2 (some (1e16, 1e16, 0)), l.name = "loss" ∧ ¬ Reads l.val l.unit 1e-4 :=
  C147_loss_fails _ _ _ _ _ _ _ _ (by norm_num)

/-! ### The minimiser -/

/-- The loop of `adam` on the object follows `adam` itself. -/
theorem epoch_foldl (c : AdamCall) (o : MinObj) (n : ℕ) :
    ∃ lines : List EpochLine,
      (List.range n).foldl (MinObj.epoch c) (.ok (⟨o.old ++ [o.cur], [], 0, o.printed⟩, adamInit c.pstart)) =
        .ok (⟨o.old ++ [o.cur], (adamRun c.cfg c.pstart n).ofs, n, o.printed ++ lines⟩, adamRun c.cfg c.pstart n) ∧
      lines.length = n ∧ ∀ (i : ℕ) (l : EpochLine), lines[i]? = some l →
        l.epoch = i + 1 ∧ l.total = c.cfg.nEpochs ∧ (adamRun c.cfg c.pstart n).ofs[i]? = some l.objective ∧
        l.params = if c.dispP then (adamRun c.cfg c.pstart n).evals[i]? else none := by
  induction n with
  | zero => exact ⟨[], by simp [adamRun, adamInit], rfl, by simp⟩
  | succ n ih =>
    obtain ⟨lines, h1, h2, h3⟩ := ih
    have e1 : (adamRun c.cfg c.pstart (n + 1)).ofs = (adamRun c.cfg c.pstart n).ofs ++ [(c.cfg.vg (adamRun c.cfg c.pstart n)).1] := by
      rw [adamRun_succ]; rfl
    have e2 : (adamRun c.cfg c.pstart (n + 1)).evals = (adamRun c.cfg c.pstart n).evals ++ [(adamRun c.cfg c.pstart n).params] := by
      rw [adamRun_succ]; rfl
    have lens : ∀ m, (adamRun c.cfg c.pstart m).ofs.length = m ∧ (adamRun c.cfg c.pstart m).evals.length = m := by
      intro m
      induction m with
      | zero => exact ⟨rfl, rfl⟩
      | succ m ihm =>
        have a1 : (adamRun c.cfg c.pstart (m + 1)).ofs =
            (adamRun c.cfg c.pstart m).ofs ++ [(c.cfg.vg (adamRun c.cfg c.pstart m)).1] := by rw [adamRun_succ]; rfl
        have a2 : (adamRun c.cfg c.pstart (m + 1)).evals =
            (adamRun c.cfg c.pstart m).evals ++ [(adamRun c.cfg c.pstart m).params] := by rw [adamRun_succ]; rfl
        rw [a1, a2]
        simp [ihm.1, ihm.2]
    refine ⟨lines ++ [⟨n + 1, c.cfg.nEpochs, (c.cfg.vg (adamRun c.cfg c.pstart n)).1,
      if c.dispP then some (adamRun c.cfg c.pstart n).params else none⟩], ?_, by simp [h2], ?_⟩
    · rw [List.range_succ, List.foldl_append, h1]
      simp only [List.foldl_cons, List.foldl_nil, MinObj.epoch, bind, Except.bind, dispLine]
      rw [List.getLast?_append, List.getLast?_singleton]
      simp only [Option.some_or]
      rw [e1, adamRun_succ, List.append_assoc]
    · intro i l hl
      rcases Nat.lt_or_ge i n with hi | hi
      · rw [List.getElem?_append_left (by rw [h2]; exact hi)] at hl
        obtain ⟨g1, g2, g3, g4⟩ := h3 i l hl
        refine ⟨g1, g2, ?_, ?_⟩
        · rw [e1, List.getElem?_append_left (by rw [(lens n).1]; exact hi)]
          exact g3
        · rw [g4, e2, List.getElem?_append_left (by rw [(lens n).2]; exact hi)]
      · rw [List.getElem?_append_right (by rw [h2]; exact hi), h2] at hl
        have h0 : i - n = 0 := by
          by_contra hne
          obtain ⟨m, hm⟩ := Nat.exists_eq_succ_of_ne_zero hne
          rw [hm] at hl
          simp at hl
        have hin : i = n := by omega
        subst hin
        rw [h0] at hl
        simp only [List.getElem?_cons_zero, Option.some.injEq] at hl
        subst hl
        refine ⟨rfl, rfl, ?_, ?_⟩
        · rw [e1, List.getElem?_append_right (by rw [(lens i).1]), (lens i).1]
          simp
        · rw [e2, List.getElem?_append_right (by rw [(lens i).2]), (lens i).2]
          simp

/-- **C148 (results).** Whatever was done with the object before, an accepted call of `adam` returns the parameters and the list of
objectives of a fresh run, and the counter is the number of epochs. One line is printed per epoch: its number, the value of the
objective and, on demand, the parameters at which this value was computed. -/
theorem C148_result (o : MinObj) (c : AdamCall) (hc : c.parsed = .ok ()) :
    (o.adam c).2 = .ok ((Legume.adam c.cfg c.pstart).params, (Legume.adam c.cfg c.pstart).ofs) ∧
      (o.adam c).1.cur = (Legume.adam c.cfg c.pstart).ofs ∧ (o.adam c).1.iteration = c.cfg.nEpochs ∧
      ∃ lines : List EpochLine, (o.adam c).1.printed = o.printed ++ lines ∧ lines.length = c.cfg.nEpochs ∧
        ∀ (i : ℕ) (l : EpochLine), lines[i]? = some l → l.epoch = i + 1 ∧ l.total = c.cfg.nEpochs ∧
          (Legume.adam c.cfg c.pstart).ofs[i]? = some l.objective ∧
          l.params = if c.dispP then (Legume.adam c.cfg c.pstart).evals[i]? else none := by
  obtain ⟨lines, h1, h2, h3⟩ := epoch_foldl c o c.cfg.nEpochs
  rw [← adam_eq_run] at h1 h3
  have e : o.adam c = (⟨o.old ++ [o.cur], (Legume.adam c.cfg c.pstart).ofs, c.cfg.nEpochs, o.printed ++ lines⟩,
      .ok ((Legume.adam c.cfg c.pstart).params, (Legume.adam c.cfg c.pstart).ofs)) := by
    unfold MinObj.adam
    rw [hc]
    simp only []
    rw [h1]
  rw [e]
  exact ⟨rfl, rfl, rfl, lines, rfl, h2, h3⟩

/-- A call with rejected bounds raises and leaves the counter, the lists and the printed lines as they were. -/
theorem C148_rejected (o : MinObj) (c : AdamCall) (e : PyErr) (hc : c.parsed = .error e) : o.adam c = (o, .error e) := by
  unfold MinObj.adam
  rw [hc]

/-- **C148 (earlier results).** The lists returned by earlier calls are not changed by later ones: each stays in its place with its
contents. -/
theorem C148_earlier (o : MinObj) (cs : List AdamCall) :
    (o.old ++ [o.cur]) <+: ((o.after cs).old ++ [(o.after cs).cur]) := by
  induction cs generalizing o with
  | nil => exact List.prefix_rfl
  | cons c cs ih =>
    have e : o.after (c :: cs) = (o.adam c).1.after cs := rfl
    rw [e]
    refine List.IsPrefix.trans ?_ (ih _)
    rcases hc : c.parsed with err | ⟨⟩
    · rw [C148_rejected o c err hc]
    · obtain ⟨lines, h1, -⟩ := epoch_foldl c o c.cfg.nEpochs
      unfold MinObj.adam
      rw [hc]
      simp only []
      rw [h1]
      exact ⟨[_], rfl⟩

/-- Two calls on one object: the second starts afresh. -/
example (cfg : AdamCfg) (p q : List ℝ) :
    ((MinObj.fresh.adam ⟨cfg, .ok (), false, p⟩).1.adam ⟨cfg, .ok (), true, q⟩).2 =
      .ok ((Legume.adam cfg q).params, (Legume.adam cfg q).ofs) :=
  (C148_result _ ⟨cfg, .ok (), true, q⟩ rfl).1

end Legume
