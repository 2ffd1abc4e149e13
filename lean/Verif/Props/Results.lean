import Verif.Model.Results

/-!
# Results kept by solver objects (C130)
-/
namespace Legume

theorem solveLoop_ok {A : Type*} (solve : ℕ → Except PyErr A) : ∀ (is : List ℕ) (rs : List A),
    solveLoop solve is = (rs, .ok ()) → rs.length = is.length ∧ ∀ (p i : ℕ), is[p]? = some i →
      ∃ a, rs[p]? = some a ∧ solve i = .ok a
  | [], rs, h => by
    cases h
    exact ⟨rfl, fun p i hp => by simp at hp⟩
  | i :: is, rs, h => by
    unfold solveLoop at h
    cases hs : solve i with
    | error e => rw [hs] at h; simp at h
    | ok a =>
      rw [hs] at h
      obtain ⟨h1, h2⟩ := solveLoop_ok solve is (solveLoop solve is).1 (by
        have := congrArg Prod.snd h
        exact Prod.ext rfl this)
      have hr : rs = a :: (solveLoop solve is).1 := (congrArg Prod.fst h).symm
      subst hr
      refine ⟨by rw [List.length_cons, List.length_cons, h1], ?_⟩
      rintro (_ | p) j hj
      · simp only [List.getElem?_cons_zero, Option.some.injEq] at hj
        exact ⟨a, rfl, by rw [← hj, hs]⟩
      · simp only [List.getElem?_cons_succ] at hj ⊢
        exact h2 p j hj

theorem solveLoop_error {A : Type*} (solve : ℕ → Except PyErr A) : ∀ (is : List ℕ) (rs : List A) (e : PyErr),
    solveLoop solve is = (rs, .error e) → ∃ (p i : ℕ), is[p]? = some i ∧ solve i = .error e ∧ rs.length = p ∧
      ∀ (q j : ℕ), q < p → is[q]? = some j → ∃ a, rs[q]? = some a ∧ solve j = .ok a
  | [], rs, e, h => by simp [solveLoop] at h
  | i :: is, rs, e, h => by
    unfold solveLoop at h
    cases hs : solve i with
    | error e' =>
      rw [hs] at h
      simp only [Prod.mk.injEq, Except.error.injEq] at h
      exact ⟨0, i, rfl, by rw [hs, h.2], by rw [← h.1]; rfl, fun q j hq => absurd hq (Nat.not_lt_zero q)⟩
    | ok a =>
      rw [hs] at h
      obtain ⟨p, k, h1, h2, h3, h4⟩ := solveLoop_error solve is (solveLoop solve is).1 e (by
        have := congrArg Prod.snd h
        exact Prod.ext rfl this)
      have hr : rs = a :: (solveLoop solve is).1 := (congrArg Prod.fst h).symm
      subst hr
      refine ⟨p + 1, k, h1, h2, by rw [List.length_cons, h3], ?_⟩
      rintro (_ | q) j hq hj
      · simp only [List.getElem?_cons_zero, Option.some.injEq] at hj
        exact ⟨a, rfl, by rw [← hj, hs]⟩
      · simp only [List.getElem?_cons_succ] at hj ⊢
        exact h4 q j (by omega) hj

/-- **C130 (before the first call).** The results of a plane-wave expansion, of a Schrödinger equation or of a polariton problem
which was not run cannot be read (`AttributeError`), and the reciprocal vectors of a polariton problem neither; a guided-mode
expansion returns empty lists. -/
theorem C130_fresh {F V : Type*} (kind : SolverKind) (gvec : List R2) :
    readAttr (ResObj.fresh (F := F) (V := V) kind gvec).energies =
        (if kind = .gme then .ok [] else .error .attributeError) ∧
      readAttr (ResObj.fresh (F := F) (V := V) kind gvec).eigvecs =
        (if kind = .gme then .ok [] else .error .attributeError) ∧
      readAttr (ResObj.fresh (F := F) (V := V) kind gvec).kpoints =
        (if kind = .gme then .ok [] else .error .attributeError) ∧
      readAttr (ResObj.fresh (F := F) (V := V) kind gvec).gvec =
        (if kind = .pol then .error .attributeError else .ok gvec) := by
  cases kind <;> exact ⟨rfl, rfl, rfl, rfl⟩

example : readAttr (ResObj.fresh (F := ℝ) (V := ℂ) .pol [(1, 2)]).gvec = .error .attributeError :=
  (C130_fresh .pol _).2.2.2

/-- What an object shows belongs to the call `c`: its wave vectors, and at each of them the result computed in the call. -/
def ShowsCall {F V : Type*} (o : ResObj F V) (c : RunCall F V) : Prop :=
  o.kpoints = some c.ks ∧ ∃ es vs, o.energies = some es ∧ o.eigvecs = some vs ∧ es.length = c.ks.length ∧
    vs.length = c.ks.length ∧ ∀ ik < c.ks.length, ∃ f v, es[ik]? = some f ∧ vs[ik]? = some v ∧ c.solve ik = .ok (f, v)

/-- **C130 (a call that returns).** After any history, and whatever the earlier calls did, a call of `run` that returns leaves an
object whose wave vectors, energies and eigenvectors all belong to this call. -/
theorem C130_success_partial {F V : Type*} (kind : SolverKind) (gvec : List R2) (o : ResObj F V) (c : RunCall F V)
    (h : (o.run kind gvec c).2 = .ok ()) :
    ShowsCall (o.run kind gvec c).1 c ∧ ∀ o' : ResObj F V, (o'.run kind gvec c).1.energies = (o.run kind gvec c).1.energies ∧
      (o'.run kind gvec c).1.eigvecs = (o.run kind gvec c).1.eigvecs ∧
      (o'.run kind gvec c).1.kpoints = (o.run kind gvec c).1.kpoints := by
  unfold ResObj.run at h ⊢
  cases ho : (if kind.hasOptions then c.opts else Except.ok () : PyRes) with
  | error e => rw [ho] at h; simp at h
  | ok u =>
    rw [ho] at h
    simp only at h ⊢
    cases hp : c.prep with
    | error e => rw [hp] at h; simp at h
    | ok u =>
      rw [hp] at h
      simp only at h ⊢
      rcases hl : solveLoop c.solve (List.range c.ks.length) with ⟨rs, e | u⟩
      · rw [hl] at h
        simp at h
      · rw [hl] at h
        obtain ⟨h1, h2⟩ := solveLoop_ok c.solve _ rs hl
        rw [List.length_range] at h1
        simp only at h ⊢
        have hall : ∀ ik < c.ks.length, ∃ f v, (rs.map Prod.fst)[ik]? = some f ∧ (rs.map Prod.snd)[ik]? = some v ∧
            c.solve ik = .ok (f, v) := fun ik hik => by
          obtain ⟨a, ha, hs⟩ := h2 ik ik (by rw [List.getElem?_range hik])
          exact ⟨a.1, a.2, by simp [ha], by simp [ha], hs⟩
        have hS : ∀ x : ResObj F V, x.kpoints = some c.ks → x.energies = some (rs.map Prod.fst) →
            x.eigvecs = some (rs.map Prod.snd) → ShowsCall x c := fun x a b d =>
          ⟨a, _, _, b, d, by rw [List.length_map, h1], by rw [List.length_map, h1], hall⟩
        cases kind
        · exact ⟨hS _ rfl rfl rfl, fun _ => ⟨rfl, rfl, rfl⟩⟩
        · exact ⟨hS _ rfl rfl rfl, fun _ => ⟨rfl, rfl, rfl⟩⟩
        · cases hq : c.post with
          | error e => simp [ResObj.finish, hq] at h
          | ok u =>
            refine ⟨hS _ ?_ ?_ ?_, fun o' => ⟨?_, ?_, ?_⟩⟩ <;> simp [ResObj.finish, hq, ResObj.begin]
        · exact ⟨hS _ rfl rfl rfl, fun _ => ⟨rfl, rfl, rfl⟩⟩

/-- Did the call get as far as to store energies? -/
def Stores {F V : Type*} (kind : SolverKind) (c : RunCall F V) : Prop :=
  (kind.hasOptions = true → c.opts = .ok ()) ∧ c.prep = .ok () ∧ (∀ ik < c.ks.length, ∃ r, c.solve ik = .ok r) ∧
    (kind = .exc → c.post = .ok ())

theorem solveLoop_all {A : Type*} (solve : ℕ → Except PyErr A) : ∀ is : List ℕ, (∀ i ∈ is, ∃ a, solve i = .ok a) →
    (solveLoop solve is).2 = .ok ()
  | [], _ => rfl
  | i :: is, h => by
    obtain ⟨a, ha⟩ := h i List.mem_cons_self
    unfold solveLoop
    rw [ha]
    exact solveLoop_all solve is fun j hj => h j (List.mem_cons_of_mem _ hj)

/-- **C130 (a call that raises).** A call which did not get as far as to store energies leaves the energies of the last call that
did, although the wave vectors are replaced by those of the failed call, unless its options were not accepted; the eigenvectors
are those of the wave vectors before the one that failed, or, if the failure was before the loop, the previous ones, except
that a polariton problem has none. -/
theorem C130_failed {F V : Type*} (kind : SolverKind) (gvec : List R2) (o : ResObj F V) (c : RunCall F V)
    (h : ¬ Stores kind c) :
    (∃ e, (o.run kind gvec c).2 = .error e) ∧ (o.run kind gvec c).1.energies = o.energies ∧
      (kind.hasOptions = true → (∃ e, c.opts = .error e) → (o.run kind gvec c).1 = o) ∧
      ((kind.hasOptions = true → c.opts = .ok ()) → (o.run kind gvec c).1.kpoints = some c.ks) ∧
      ((kind.hasOptions = true → c.opts = .ok ()) → (∃ e, c.prep = .error e) →
        (o.run kind gvec c).1.eigvecs = if kind = .pol then some [] else o.eigvecs) ∧
      (∀ p < c.ks.length, (kind.hasOptions = true → c.opts = .ok ()) → c.prep = .ok () → (∃ e, c.solve p = .error e) →
        (∀ q < p, ∃ r, c.solve q = .ok r) → ∃ vs, (o.run kind gvec c).1.eigvecs = some vs ∧ vs.length = p ∧
          ∀ q < p, ∃ f v, c.solve q = .ok (f, v) ∧ vs[q]? = some v) := by
  unfold ResObj.run
  cases ho : (if kind.hasOptions then c.opts else Except.ok () : PyRes) with
  | error e =>
    have h1 : kind.hasOptions = true ∧ c.opts = .error e := by
      cases hk : kind.hasOptions with
      | false => rw [hk] at ho; simp at ho
      | true => rw [hk] at ho; exact ⟨rfl, ho⟩
    have hc : ¬(kind.hasOptions = true → c.opts = .ok ()) := fun hh => by
      have := hh h1.1
      rw [h1.2] at this
      cases this
    exact ⟨⟨e, rfl⟩, rfl, fun _ _ => rfl, fun hh => absurd hh hc, fun hh => absurd hh hc, fun p _ hh => absurd hh hc⟩
  | ok u =>
    have h1 : kind.hasOptions = true → c.opts = .ok () := fun hk => by rw [hk] at ho; exact ho
    have h2 : kind.hasOptions = true → ¬ ∃ e, c.opts = .error e := fun hk ⟨e, he⟩ => by
      rw [h1 hk] at he
      cases he
    simp only
    cases hp : c.prep with
    | error e =>
      simp only
      refine ⟨⟨e, rfl⟩, ?_, fun hk he => absurd he (h2 hk), fun _ => ?_, fun _ _ => ?_, fun p _ _ hh => by cases hh⟩
      · cases kind <;> rfl
      · cases kind <;> rfl
      · cases kind <;> rfl
    | ok u =>
      simp only
      have h3 : ¬ ∃ e, (Except.ok () : PyRes) = .error e := fun ⟨e, he⟩ => by cases he
      rcases hl : solveLoop c.solve (List.range c.ks.length) with ⟨rs, e | u⟩
      · obtain ⟨p, i, hi, he, hlen, hbefore⟩ := solveLoop_error c.solve _ rs e hl
        have hp' : p < c.ks.length := by
          by_contra hh
          rw [List.getElem?_eq_none (by rw [List.length_range]; omega)] at hi
          cases hi
        rw [List.getElem?_range hp'] at hi
        obtain rfl : p = i := Option.some.inj hi
        simp only
        refine ⟨⟨e, rfl⟩, ?_, fun hk hh => absurd hh (h2 hk), fun _ => ?_, fun _ hh => absurd hh h3, ?_⟩
        · cases kind <;> rfl
        · cases kind <;> rfl
        · intro p' hp'' _ _ ⟨e', he'⟩ hok
          have hpp : p' = p := by
            rcases lt_trichotomy p' p with h | h | h
            · obtain ⟨a, -, ha⟩ := hbefore p' p' h (by rw [List.getElem?_range hp''])
              rw [he'] at ha
              cases ha
            · exact h
            · obtain ⟨r, hr⟩ := hok p h
              rw [he] at hr
              cases hr
          subst hpp
          refine ⟨_, rfl, by rw [List.length_map, hlen], fun q hq => ?_⟩
          obtain ⟨a, ha, hs⟩ := hbefore q q hq (by rw [List.getElem?_range (hq.trans hp')])
          exact ⟨a.1, a.2, hs, by simp [ha]⟩
      · obtain ⟨hlen, hall⟩ := solveLoop_ok c.solve _ rs hl
        have hex : kind = .exc ∧ ∃ e, c.post = .error e := by
          by_contra hh
          refine h ⟨h1, hp, fun ik hik => ?_, fun hk => ?_⟩
          · obtain ⟨a, -, ha⟩ := hall ik ik (by rw [List.getElem?_range hik])
            exact ⟨a, ha⟩
          · cases hq : c.post with
            | ok u => rfl
            | error e => exact absurd ⟨hk, e, hq⟩ hh
        obtain ⟨rfl, e, hq⟩ := hex
        simp only [ResObj.finish, hq, ResObj.begin]
        refine ⟨⟨e, rfl⟩, trivial, fun hk hh => absurd hh (h2 hk), fun _ => trivial, fun _ hh => absurd hh h3, ?_⟩
        intro p hp' _ _ ⟨e', he'⟩
        obtain ⟨a, -, ha⟩ := hall p p (by rw [List.getElem?_range hp'])
        rw [he'] at ha
        cases ha

/-- **C130 (histories).** After any history of calls the energies are those of the last call that stored energies. -/
theorem C130_history {F V : Type*} (kind : SolverKind) (gvec : List R2) (before after : List (RunCall F V)) (c : RunCall F V)
    (hc : Stores kind c) (ha : ∀ d ∈ after, ¬ Stores kind d) :
    ∃ es, (ResObj.history kind gvec (before ++ c :: after)).energies = some es ∧ es.length = c.ks.length ∧
      ∀ ik < c.ks.length, ∃ f v, es[ik]? = some f ∧ c.solve ik = .ok (f, v) := by
  have hafter : ∀ (l : List (RunCall F V)), (∀ d ∈ l, ¬ Stores kind d) → ∀ o : ResObj F V,
      (l.foldl (fun o c => (o.run kind gvec c).1) o).energies = o.energies := by
    intro l
    induction l with
    | nil => intro _ o; rfl
    | cons d l ih =>
      intro hl o
      rw [List.foldl_cons, ih (fun x hx => hl x (List.mem_cons_of_mem _ hx))]
      exact (C130_failed kind gvec o d (hl d List.mem_cons_self)).2.1
  unfold ResObj.history
  rw [List.foldl_append, List.foldl_cons, hafter after ha]
  generalize before.foldl _ _ = o
  obtain ⟨h1, h2, h3, h4⟩ := hc
  have ho : (if kind.hasOptions then c.opts else Except.ok () : PyRes) = .ok () := by
    cases hk : kind.hasOptions with
    | false => rfl
    | true => exact h1 hk
  unfold ResObj.run
  rw [ho, h2]
  rcases hl : solveLoop c.solve (List.range c.ks.length) with ⟨rs, e | u⟩
  · have := solveLoop_all c.solve (List.range c.ks.length) fun i hi => h3 i (List.mem_range.1 hi)
    rw [hl] at this
    cases this
  · obtain ⟨hlen, hall⟩ := solveLoop_ok c.solve _ rs hl
    rw [List.length_range] at hlen
    have hen : ((o.begin kind gvec c.ks).finish kind c rs).1.energies = some (rs.map Prod.fst) := by
      cases kind
      · rfl
      · rfl
      · simp [ResObj.finish, h4 rfl]
      · rfl
    refine ⟨_, hen, by rw [List.length_map, hlen], fun ik hik => ?_⟩
    obtain ⟨a, ha, hs⟩ := hall ik ik (by rw [List.getElem?_range hik])
    exact ⟨a.1, a.2, by simp [ha], hs⟩

/-- **C130 (refuted).** That what an object shows belongs to one call is false of all four classes: after a call with two wave
vectors and one with three, of which the second fails, the object shows three wave vectors with two energies. -/
theorem C130_mixed (kind : SolverKind) (gvec : List R2) :
    ∃ c d : RunCall ℝ ℝ, (∃ es ks, (ResObj.history kind gvec [c, d]).energies = some es ∧
      (ResObj.history kind gvec [c, d]).kpoints = some ks ∧ es.length = 2 ∧ ks.length = 3) ∧
      ¬ ∃ e, ShowsCall (ResObj.history kind gvec [c, d]) e := by
  refine ⟨⟨[(0, 0), (1, 0)], .ok (), .ok (), fun _ => .ok (1, 1), .ok ()⟩,
    ⟨[(0, 0), (1, 0), (2, 0)], .ok (), .ok (), fun _ => .error .valueError, .ok ()⟩, ?_, ?_⟩
  · cases kind <;> exact ⟨_, _, rfl, rfl, rfl, rfl⟩
  · rintro ⟨e, h1, es, vs, h2, h3, h4, h5, h6⟩
    cases kind <;>
    · have a : es.length = 2 := by rw [← Option.some.inj h2]; rfl
      have b : e.ks.length = 3 := by rw [← Option.some.inj h1]; rfl
      omega

/-- **C130 (no wave vectors).** With an empty list of wave vectors all calls raise except those of a guided-mode expansion, but
not before the empty results were stored. -/
theorem C130_empty {F V : Type*} (kind : SolverKind) (hk : kind ≠ .gme) (gvec : List R2) (o : ResObj F V) (c : RunCall F V)
    (h : c.ks = []) (ho : c.opts = .ok ()) (hp : c.prep = .ok ()) (hq : c.post = .ok ()) :
    (o.run kind gvec c).2 = .error .nameError ∧ (o.run kind gvec c).1.energies = some [] := by
  unfold ResObj.run
  rw [ho, hp, h]
  cases kind <;> simp_all [SolverKind.hasOptions, solveLoop, ResObj.finish, ResObj.begin]

example : ((ResObj.fresh (F := ℝ) (V := ℝ) .exc []).run .exc [] ⟨[], .ok (), .ok (), fun _ => .ok (1, 1), .ok ()⟩).2 =
    .error .nameError := (C130_empty .exc (by decide) [] _ _ rfl rfl rfl rfl).1

/-- A call that stores, and one that fails at its second wave vector. -/
example : Stores .gme (⟨[(0, 0), (1, 0)], .ok (), .ok (), fun _ => .ok (1, 1), .ok ()⟩ : RunCall ℝ ℝ) ∧
    ¬ Stores .gme (⟨[(0, 0), (1, 0)], .ok (), .ok (), fun ik => if ik = 0 then .ok (1, 1) else .error .valueError, .ok ()⟩ :
      RunCall ℝ ℝ) := by
  refine ⟨⟨fun _ => rfl, rfl, fun _ _ => ⟨_, rfl⟩, fun h => by cases h⟩, fun h => ?_⟩
  obtain ⟨r, hr⟩ := h.2.2.1 1 (Nat.lt_succ_self 1)
  cases hr

end Legume
