import Verif.Spec.PointWise
import Verif.Model.KzRun
import Verif.Model.PolSim
import Verif.Props.TimeReversal
import Verif.Props.Supercell
import Verif.Props.PolSim

/-!
# C146: wave vectors of a run are independent
-/
namespace Legume
open Spec

theorem mapM_ok_iff {A B : Type} (f : A → Except PyErr B) (l : List A) (r : List B) :
    l.mapM f = .ok r ↔ r.length = l.length ∧
      ∀ (i : ℕ) (a : A) (b : B), l[i]? = some a → r[i]? = some b → f a = .ok b := by
  induction l generalizing r with
  | nil =>
    constructor
    · intro h
      simp [pure, Except.pure] at h
      subst h
      simp
    · rintro ⟨h, -⟩
      rw [List.length_nil, List.length_eq_zero_iff] at h
      subst h
      rfl
  | cons a l ih =>
    rw [List.mapM_cons]
    constructor
    · intro h
      cases hf : f a with
      | error e => rw [hf] at h; simp [bind, Except.bind] at h
      | ok b =>
        rw [hf] at h
        simp only [bind, Except.bind] at h
        cases hl : l.mapM f with
        | error e => rw [hl] at h; simp at h
        | ok r' =>
          rw [hl] at h
          simp only [pure, Except.pure, Except.ok.injEq] at h
          subst h
          obtain ⟨h1, h2⟩ := (ih r').1 hl
          refine ⟨by simp [h1], ?_⟩
          rintro (_ | i) x y hx hy
          · simp only [List.getElem?_cons_zero, Option.some.injEq] at hx hy
            rw [← hx, ← hy, hf]
          · rw [List.getElem?_cons_succ] at hx hy
            exact h2 i x y hx hy
    · rintro ⟨h1, h2⟩
      match r, h1 with
      | b :: r', h1 =>
        have hb := h2 0 a b rfl rfl
        have hl := (ih r').2 ⟨by simpa using h1, fun i x y hx hy => h2 (i + 1) x y hx hy⟩
        rw [hb, hl]
        rfl

theorem mapM_one {A B : Type} (f : A → Except PyErr B) (a : A) (b : B) : [a].mapM f = .ok [b] ↔ f a = .ok b := by
  rw [mapM_ok_iff]
  constructor
  · rintro ⟨-, h⟩
    exact h 0 a b rfl rfl
  · intro h
    refine ⟨rfl, ?_⟩
    rintro (_ | i) x y hx hy
    · simp only [List.getElem?_cons_zero, Option.some.injEq] at hx hy
      rw [← hx, ← hy, h]
    · simp at hx

/-- A run which prepares something independent of the wave vectors and then treats one after the other. -/
theorem pointWise_of {A B C : Type} (run : List A → Except PyErr (List B)) (pre : Except PyErr C) (f : C → A → Except PyErr B)
    (h : ∀ ks, ks ≠ [] → run ks = pre.bind fun c => ks.mapM (f c)) : PointWise run := by
  intro ks hks rs
  cases hp : pre with
  | error e =>
    rw [h ks hks, hp]
    constructor
    · intro h'; exact absurd h' (by simp [Except.bind])
    · rintro ⟨h1, h2⟩
      match ks, hks, h1 with
      | k :: ks', hks, h1 =>
        match rs, h1 with
        | r :: rs', h1 =>
          have := h2 0 k r rfl rfl
          rw [h [k] (by simp), hp] at this
          simp [Except.bind] at this
  | ok c =>
    rw [h ks hks, hp]
    simp only [Except.bind]
    rw [mapM_ok_iff]
    refine and_congr_right fun _ => forall_congr' fun i => forall_congr' fun k => forall_congr' fun r =>
      imp_congr_right fun _ => imp_congr_right fun _ => ?_
    rw [h [k] (by simp), hp]
    simp only [Except.bind]
    exact (mapM_one (f c) k r).symm

theorem range_mapM {A B : Type} (f : A → Except PyErr B) (d : A) (l : List A) :
    ((List.range l.length).mapM fun (i : ℕ) => f (l.getD i d)) = l.mapM f := by
  have h1 : l = (List.range l.length).map fun (i : ℕ) => l.getD i d := by
    apply List.ext_getElem
    · simp
    · intro n hn hn'
      simp [List.getD_eq_getElem?_getD, hn]
  conv_rhs => rw [h1]
  rw [List.mapM_map]
  rfl

/-! ### Photonic solvers -/

/-- The plane-wave expansion. -/
theorem C146_pwe (argsort : List ℝ → List ℕ) (eigh : ∀ n, Matrix (Fin n) (Fin n) ℂ → Fin n → ℝ) (L : PweLayer) (gmax : ℝ)
    (pol : String) (numeig : ℕ) : PointWise fun ks => pweSim argsort eigh L gmax ks pol numeig := by
  classical
  refine pointWise_of _ (if (L.epsMat gmax).det = 0 then .error .valueError else .ok ()) (fun _ k =>
    pweRun argsort (eigh _) pol k (L.gAt gmax) (L.epsMat gmax)⁻¹ numeig) fun ks _ => ?_
  unfold pweSim
  split_ifs <;> rfl

variable (ij : LPos → ℂ → ℂ) (argsort : List ℝ → List ℕ) (eigh : ∀ n, Matrix (Fin n) (Fin n) ℂ → Fin n → ℝ)
  (vecs : ∀ n, Matrix (Fin n) (Fin n) ℂ → Matrix (Fin n) (Fin n) ℂ) (norm : NormFn) (fs : Finder) (o : GuidedOpts)
  (S : GmeStruct) (gmax : ℝ) (onlyG : Bool) (opt : String) (sigma : ℝ) (numeig : ℕ)

/-- What does not depend on the wave vectors: the effective stack and the inverse permittivities. -/
noncomputable def gmePrep : Except PyErr (List (LPos × ℝ) × List (Matrix (Fin (S.gvec gmax).length) (Fin (S.gvec gmax).length) ℂ)) := do
  let eff ← S.layers.mapM (GmeLay.eff opt)
  let einv ← S.layers.mapM (S.epsInv gmax onlyG)
  .ok ((S.layers.map GmeLay.pos).zip eff, einv)

/-- The grid when the guided modes are computed at the wave vectors themselves. -/
theorem guidedGrid_exact (ho : o.exact = true) (gvec ks : List R2) (k : R2) :
    guidedGrid o gvec ks k = guidedGrid o gvec [] k := by
  unfold guidedGrid
  rw [if_pos ho, if_pos ho]

theorem gmeSimIj_split (grid : R2 → List ℝ) (ks : List R2) (hg : ∀ k, guidedGrid o (S.gvec gmax) ks k = grid k) :
    gmeSimIj ij argsort eigh (codeGuided norm fs o) S gmax onlyG opt ks sigma numeig =
      (gmePrep S gmax onlyG opt).bind fun c => ks.mapM fun k =>
        (basisOf norm fs o c.1 (grid k) fun i => radPlane o.deltaGx k (S.gvec gmax)[i]).bind fun basis =>
          solveFull argsort (List.ofFn (eigh _ (gmeMatIj ij c.1 c.2 basis + 1))) sigma numeig := by
  unfold gmeSimIj gmePrep codeGuided
  simp only [bind, Except.bind]
  cases S.layers.mapM (GmeLay.eff opt) with
  | error e => rfl
  | ok eff =>
    cases S.layers.mapM (S.epsInv gmax onlyG) with
    | error e => rfl
    | ok einv =>
      simp only [hg]
      exact range_mapM (fun k : R2 => (basisOf norm fs o ((S.layers.map GmeLay.pos).zip eff) (grid k)
        (fun i => radPlane o.deltaGx k (S.gvec gmax)[i])).bind fun basis => solveFull argsort (List.ofFn (eigh _ (gmeMatIj ij ((S.layers.map GmeLay.pos).zip eff) einv basis + 1))) sigma
            numeig) 0 ks

/-- The guided-mode expansion with `gmode_compute='exact'`. -/
theorem C146_gme (ho : o.exact = true) :
    PointWise fun ks => gmeSimIj ij argsort eigh (codeGuided norm fs o) S gmax onlyG opt ks sigma numeig :=
  pointWise_of _ _ _ fun ks _ => gmeSimIj_split ij argsort eigh norm fs o S gmax onlyG opt sigma numeig _ ks
    (guidedGrid_exact o ho _ ks)

theorem radSimIj_split (dgx : ℝ) (grid : R2 → List ℝ) (ks : List R2)
    (hg : ∀ k, guidedGrid o (S.gvec gmax) ks k = grid k) :
    radSimIj ij dgx argsort eigh vecs (codeGuided norm fs o) S gmax onlyG opt ks sigma numeig =
      (gmePrep S gmax onlyG opt).bind fun c => ks.mapM fun k =>
        (basisOf norm fs o c.1 (grid k) fun i => radPlane o.deltaGx k (S.gvec gmax)[i]).bind fun basis =>
          radAt ij argsort c.1 c.2 basis (fun i => radPlane dgx k (S.gvec gmax)[i]) (cladAvgs S)
            (eigh _ (gmeMatIj ij c.1 c.2 basis + 1)) (vecs _ (gmeMatIj ij c.1 c.2 basis + 1)) sigma numeig := by
  unfold radSimIj gmePrep codeGuided
  simp only [bind, Except.bind]
  cases S.layers.mapM (GmeLay.eff opt) with
  | error e => rfl
  | ok eff =>
    cases S.layers.mapM (S.epsInv gmax onlyG) with
    | error e => rfl
    | ok einv =>
      simp only [hg]
      exact range_mapM (fun k : R2 => (basisOf norm fs o ((S.layers.map GmeLay.pos).zip eff) (grid k)
        (fun i => radPlane o.deltaGx k (S.gvec gmax)[i])).bind fun basis => radAt ij argsort ((S.layers.map GmeLay.pos).zip eff) einv basis
            (fun i => radPlane dgx k (S.gvec gmax)[i]) (cladAvgs S)
            (eigh _ (gmeMatIj ij ((S.layers.map GmeLay.pos).zip eff) einv basis + 1))
            (vecs _ (gmeMatIj ij ((S.layers.map GmeLay.pos).zip eff) einv basis + 1)) sigma numeig) 0 ks

/-- The same with the losses. -/
theorem C146_losses (dgx : ℝ) (ho : o.exact = true) : PointWise fun ks =>
    radSimIj ij dgx argsort eigh vecs (codeGuided norm fs o) S gmax onlyG opt ks sigma numeig :=
  pointWise_of _ _ _ fun ks _ => radSimIj_split ij argsort eigh vecs norm fs o S gmax onlyG opt sigma numeig dgx _ ks
    (guidedGrid_exact o ho _ ks)

theorem foldl_max_eq (l : List ℝ) (a : ℝ) (h0 : 0 ≤ a) (ha : a ∈ l) (hm : ∀ b ∈ l, b ≤ a) : l.foldl max 0 = a := by
  have key : ∀ (l : List ℝ) (x : ℝ), x ≤ a → (∀ b ∈ l, b ≤ a) → l.foldl max x ≤ a ∧ x ≤ l.foldl max x ∧ ∀ b ∈ l, b ≤ l.foldl max x := by
    intro l
    induction l with
    | nil => intro x hx _; exact ⟨hx, le_rfl, by simp⟩
    | cons c l ih =>
      intro x hx hl
      obtain ⟨h1, h2, h3⟩ := ih (max x c) (max_le hx (hl c List.mem_cons_self)) fun b hb => hl b (List.mem_cons_of_mem _ hb)
      rw [List.foldl_cons]
      refine ⟨h1, (le_max_left _ _).trans h2, fun b hb => ?_⟩
      rcases List.mem_cons.1 hb with rfl | hb
      · exact (le_max_right _ _).trans h2
      · exact h3 b hb
  obtain ⟨h1, -, h3⟩ := key l 0 h0 hm
  exact le_antisymm h1 (h3 a ha)

/-- `k` is one of the wave vectors `ks` and none is longer. -/
def LongestIn (k : R2) (ks : List R2) : Prop := k ∈ ks ∧ ∀ k' ∈ ks, k'.1 ^ 2 + k'.2 ^ 2 ≤ k.1 ^ 2 + k.2 ^ 2

theorem gridMax_longest {k : R2} {ks : List R2} (h : LongestIn k ks) (gvec : List R2) :
    gridMax ks gvec = gridMax [k] gvec := by
  unfold gridMax
  rw [foldl_max_eq (ks.map fun k => √(k.1 ^ 2 + k.2 ^ 2)) (√(k.1 ^ 2 + k.2 ^ 2)) (Real.sqrt_nonneg _)
    (List.mem_map_of_mem h.1) (by
      intro b hb
      obtain ⟨k', hk', rfl⟩ := List.mem_map.1 hb
      exact Real.sqrt_le_sqrt (h.2 k' hk'))]
  simp

/-- With `gmode_compute='interp'` the guided modes are computed on a grid up to the longest wave vector: runs over lists with
the same longest wave vector agree at the wave vectors that they share. -/
theorem C146_interp (kl : R2) (ks ks' : List R2) (h : LongestIn kl ks) (h' : LongestIn kl ks') (rs rs' : List KRes)
    (hr : gmeSimIj ij argsort eigh (codeGuided norm fs o) S gmax onlyG opt ks sigma numeig = .ok rs)
    (hr' : gmeSimIj ij argsort eigh (codeGuided norm fs o) S gmax onlyG opt ks' sigma numeig = .ok rs')
    (i j : ℕ) (k : R2) (hi : ks[i]? = some k) (hj : ks'[j]? = some k) : rs[i]? = rs'[j]? := by
  have hg : ∀ ks, LongestIn kl ks → ∀ k, guidedGrid o (S.gvec gmax) ks k = guidedGrid o (S.gvec gmax) [kl] k := by
    intro ks h k
    unfold guidedGrid
    rw [gridMax_longest h]
  rw [gmeSimIj_split ij argsort eigh norm fs o S gmax onlyG opt sigma numeig _ ks (hg ks h)] at hr
  rw [gmeSimIj_split ij argsort eigh norm fs o S gmax onlyG opt sigma numeig _ ks' (hg ks' h')] at hr'
  cases hp : gmePrep S gmax onlyG opt with
  | error e => rw [hp] at hr; simp [Except.bind] at hr
  | ok c =>
    rw [hp] at hr hr'
    obtain ⟨h1, h2⟩ := (mapM_ok_iff _ _ _).1 hr
    obtain ⟨h1', h2'⟩ := (mapM_ok_iff _ _ _).1 hr'
    have li : i < rs.length := by rw [h1]; exact (List.getElem?_eq_some_iff.1 hi).1
    have lj : j < rs'.length := by rw [h1']; exact (List.getElem?_eq_some_iff.1 hj).1
    have e1 := h2 i k rs[i] hi (List.getElem?_eq_getElem li)
    have e2 := h2' j k rs'[j] hj (List.getElem?_eq_getElem lj)
    rw [e1] at e2
    rw [List.getElem?_eq_getElem li, List.getElem?_eq_getElem lj]
    exact congrArg some (Except.ok.inj e2)

/-- A run which checks every point first. -/
theorem pointWise_checked {A B : Type} (run rest : List A → Except PyErr (List B)) (P : A → Prop) (hr : PointWise rest)
    (h : ∀ ks, ks ≠ [] → ∀ rs, run ks = .ok rs ↔ (∀ a ∈ ks, P a) ∧ rest ks = .ok rs) : PointWise run := by
  intro ks hks rs
  rw [h ks hks, hr ks hks]
  constructor
  · rintro ⟨h1, h2, h3⟩
    refine ⟨h2, fun i k r hi hj => (h [k] (by simp) [r]).2 ⟨?_, h3 i k r hi hj⟩⟩
    intro a ha
    rw [List.mem_singleton.1 ha]
    exact h1 k (List.mem_of_getElem? hi)
  · rintro ⟨h2, h3⟩
    refine ⟨?_, h2, fun i k r hi hj => ((h [k] (by simp) [r]).1 (h3 i k r hi hj)).2⟩
    intro a ha
    obtain ⟨i, hi, rfl⟩ := List.getElem_of_mem ha
    have hi' : i < rs.length := by rw [h2]; exact hi
    exact ((h [ks[i]] (by simp) [rs[i]]).1 (h3 i _ _ (List.getElem?_eq_getElem hi) (List.getElem?_eq_getElem hi'))).1 _
      List.mem_cons_self

/-- With `kz_symmetry`, every wave vector with its direction. -/
theorem C146_kz (ho : o.exact = true) (kz : KzSymm) (sparse : Bool) (thr : ℝ) (t : LatType) : PointWise fun kas : List (R2 × ℝ) =>
    gmeSimKz ij argsort eigh norm fs o kz sparse thr t (kas.map Prod.snd) S gmax onlyG opt (kas.map Prod.fst) sigma numeig := by
  classical
  let f : (List (LPos × ℝ) × List (Matrix (Fin (S.gvec gmax).length) (Fin (S.gvec gmax).length) ℂ)) → R2 × ℝ → Except PyErr KRes :=
    fun c ka => (codeBlocks norm fs o c.1 (guidedGrid o (S.gvec gmax) [] ka.1) fun i =>
      radPlane o.deltaGx ka.1 (S.gvec gmax)[i]).bind fun blocks =>
        kzPoint ij argsort eigh kz sparse thr (some ka.2) o.inds (S.gvec gmax) c.1 c.2 blocks sigma numeig
  have hloop : ∀ kas : List (R2 × ℝ), ∀ c, ((List.range (kas.map Prod.fst).length).mapM fun (ik : ℕ) => do
      let blocks ← codeBlocks norm fs o c.1 (guidedGrid o (S.gvec gmax) (kas.map Prod.fst) ((kas.map Prod.fst).getD ik 0))
        fun i => radPlane o.deltaGx ((kas.map Prod.fst).getD ik 0) (S.gvec gmax)[i]
      kzPoint ij argsort eigh kz sparse thr (kas.map Prod.snd)[ik]? o.inds (S.gvec gmax) c.1 c.2 blocks sigma numeig) =
      kas.mapM (f c) := by
    intro kas c
    rw [← range_mapM (f c) (0, 0) kas, List.length_map]
    refine mapM_congr_mem _ _ _ fun ik hik => ?_
    have hik : ik < kas.length := List.mem_range.1 hik
    simp only [f, bind]
    rw [guidedGrid_exact o ho]
    have e1 : (kas.map Prod.fst).getD ik 0 = (kas.getD ik (0, 0)).1 := by
      simp [List.getD_eq_getElem?_getD, List.getElem?_eq_getElem hik]
    have e2 : (kas.map Prod.snd)[ik]? = some (kas.getD ik (0, 0)).2 := by
      simp [List.getD_eq_getElem?_getD, List.getElem?_eq_getElem hik]
    rw [e1, e2]
  refine pointWise_checked _ (fun kas => (gmePrep S gmax onlyG opt).bind fun c => kas.mapM (f c))
    (fun ka => ∃ r, reflMat t [ka.2] = .ok r) (pointWise_of _ _ f fun ks _ => rfl) fun kas hne rs => ?_
  have hne' : kas.map Prod.snd ≠ [] := by simpa using hne
  unfold gmeSimKz
  rw [if_neg hne']
  have hrefl : (∃ r, reflMat t (kas.map Prod.snd) = .ok r) ↔ ∀ ka ∈ kas, ∃ r, reflMat t [ka.2] = .ok r := by
    obtain ⟨ka0, hka0⟩ := List.exists_mem_of_ne_nil kas hne
    unfold reflMat
    cases anglesOf t with
    | none =>
      simp only [reduceCtorEq, exists_false, false_iff]
      intro h
      exact h ka0 hka0
    | some table =>
      by_cases hA : ∀ a ∈ kas.map Prod.snd, accepted table a
      · simp only [if_pos hA]
        refine ⟨fun _ ka hka => ?_, fun _ => ⟨_, rfl⟩⟩
        have : ∀ a ∈ [ka.2], accepted table a := by
          intro a ha
          rw [List.mem_singleton.1 ha]
          exact hA _ (List.mem_map_of_mem hka)
        rw [if_pos this]
        exact ⟨_, rfl⟩
      · simp only [if_neg hA, reduceCtorEq, exists_false, false_iff]
        intro h
        apply hA
        intro a ha
        obtain ⟨ka, hka, rfl⟩ := List.mem_map.1 ha
        obtain ⟨r, hr⟩ := h ka hka
        by_contra hn
        rw [if_neg (fun hh => hn (hh ka.2 List.mem_cons_self))] at hr
        exact absurd hr (by simp)
  rw [← hrefl]
  cases hR : reflMat t (kas.map Prod.snd) with
  | error e => simp [bind, Except.bind]
  | ok R =>
    have : (∃ r, (Except.ok R : Except PyErr (List (ℝ × ((ℝ × ℝ) × (ℝ × ℝ))))) = .ok r) := ⟨R, rfl⟩
    simp only [this, true_and]
    have hl := fun c => hloop kas c
    unfold gmePrep
    simp only [bind, Except.bind] at hl ⊢
    cases S.layers.mapM (GmeLay.eff opt) with
    | error e => rfl
    | ok eff =>
      cases S.layers.mapM (S.epsInv gmax onlyG) with
      | error e => rfl
      | ok einv =>
        simp only []
        rw [← hl ((S.layers.map GmeLay.pos).zip eff, einv)]

/-! ### Excitons and polaritons -/

/-- The exciton problem. -/
theorem C146_exc (W : ExcWell) (t : TruncG) : PointWise fun ks => excSim argsort eigh W t gmax ks numeig := by
  refine pointWise_of _ (W.pot t gmax) (fun P k => excRun argsort (eigh (W.gvec t gmax).length)
      (excMat W.hbar W.e W.a W.M k (fun i => (W.gvec t gmax)[i]) (Matrix.of fun i j => P i j)) W.E0 W.loss numeig) fun ks _ => ?_
  unfold excSim
  cases W.pot t gmax <;> rfl

/-- What the photonic solver found at the `i`-th wave vector alone. -/
noncomputable def PhotOut.at (ph : PhotOut) (i : ℕ) : PhotOut :=
  { ph with
    freqs := [ph.freqs.getD i []]
    freqsIm := ph.freqsIm.map fun im => [im.getD i []]
    eft := fun _ => ph.eft i }

section
variable {Q : ℕ} (argsortC : List ℂ → List ℕ) (eig : ∀ N Q m : ℕ, Matrix (HIdx N Q m) (HIdx N Q m) ℂ → List ℂ)
  (t : TruncG) (pref : ℂ) (conv : ℝ) (M : ℕ) (qws : Fin (Q + 1) → PolWell)

/-- The body of the loop over the wave vectors for given exciton energies. -/
noncomputable def polBody (ph : PhotOut) (en : Fin (Q + 1) → Fin M → ℂ) (k : R2) (i : ℕ) : Except PyErr (List ℂ) := do
  let p ← polPhot conv ph i
  let C ← (List.finRange (Q + 1)).mapM fun q => polC argsort eigh vecs t gmax pref ph M (qws q) k i
  return polSelect argsortC (eig _ _ _ (hopfield p en (fun q => C.getD q 0) + 1))

theorem polBody_at (ph : PhotOut) (en : Fin (Q + 1) → Fin M → ℂ) (k : R2) (i : ℕ) :
    polBody argsort eigh vecs gmax argsortC eig t pref conv M qws (ph.at i) en k 0 =
      polBody argsort eigh vecs gmax argsortC eig t pref conv M qws ph en k i := by
  have h1 : polPhot conv (ph.at i) 0 = polPhot conv ph i := by
    unfold polPhot PhotOut.at
    cases ph.freqsIm <;> rfl
  have h2 : ∀ w, polC argsort eigh vecs t gmax pref (ph.at i) M w k 0 = polC argsort eigh vecs t gmax pref ph M w k i :=
    fun w => rfl
  unfold polBody
  rw [h1]
  simp only [h2]
  rfl

theorem polSim_ok_iff (ph : PhotOut) (ks : List R2) (rs : List (List ℂ)) :
    polSim argsort eigh vecs argsortC eig t gmax pref conv ph M qws ks = .ok rs ↔
      ∃ ex : Fin (Q + 1) → List (List ℕ × List ℂ), (∀ q, excSim argsort eigh (qws q).W t gmax ks M = .ok (ex q)) ∧
        rs.length = ks.length ∧ ∀ (i : ℕ) (k : R2) (r : List ℂ), ks[i]? = some k → rs[i]? = some r →
          polBody argsort eigh vecs gmax argsortC eig t pref conv M qws ph
            (fun q x => ((ex q).getD i ([], [])).2.getD x 0) k i = .ok r := by
  have body : ∀ exl : List (List (List ℕ × List ℂ)), (ks.zipIdx.mapM fun ki => do
      let p ← polPhot conv ph ki.2
      let C ← (List.finRange (Q + 1)).mapM fun q => polC argsort eigh vecs t gmax pref ph M (qws q) ki.1 ki.2
      let en : Fin (Q + 1) → Fin M → ℂ := fun q x => ((exl.getD q []).getD ki.2 ([], [])).2.getD x 0
      return polSelect argsortC (eig _ _ _ (hopfield p en (fun q => C.getD q 0) + 1))) = .ok rs ↔
      rs.length = ks.length ∧ ∀ (i : ℕ) (k : R2) (r : List ℂ), ks[i]? = some k → rs[i]? = some r →
          polBody argsort eigh vecs gmax argsortC eig t pref conv M qws ph
            (fun q x => ((exl.getD q []).getD i ([], [])).2.getD x 0) k i = .ok r := by
    intro exl
    refine (mapM_ok_iff _ _ _).trans ?_
    rw [List.length_zipIdx]
    refine and_congr_right fun _ => ?_
    constructor
    · intro h i k r hi hr
      exact h i (k, i) r (by rw [List.getElem?_zipIdx, hi]; simp) hr
    · intro h i ki r hi hr
      rw [List.getElem?_zipIdx] at hi
      obtain ⟨k, hk, e⟩ := Option.map_eq_some_iff.1 hi
      subst e
      have := h i k r hk hr
      simpa [polBody] using this
  unfold polSim
  constructor
  · intro h
    cases hx : (List.finRange (Q + 1)).mapM fun q => excSim argsort eigh (qws q).W t gmax ks M with
    | error e => rw [hx] at h; simp [bind, Except.bind] at h
    | ok exl =>
      rw [hx] at h
      obtain ⟨l1, l2⟩ := (mapM_ok_iff _ _ _).1 hx
      rw [List.length_finRange] at l1
      refine ⟨fun q => exl.getD q [], fun q => ?_, (body exl).1 h⟩
      have hq : (q : ℕ) < exl.length := by rw [l1]; exact q.2
      refine l2 q q _ (by rw [List.getElem?_eq_getElem (by rw [List.length_finRange]; exact q.2), List.getElem_finRange]; rfl) ?_
      simp only []
      rw [List.getElem?_eq_getElem hq, List.getD_eq_getElem?_getD, List.getElem?_eq_getElem hq]
      rfl
  · rintro ⟨ex, h1, h2⟩
    rw [mapM_finRange_ok _ _ ex h1]
    refine (body (List.ofFn ex)).2 ⟨h2.1, fun i k r hi hr => ?_⟩
    have := h2.2 i k r hi hr
    simpa only [getD_ofFn_fin] using this

/-- Polaritons: the energies at a wave vector follow from what the photonic solver found there and from the wells. -/
theorem C146_pol (ph : PhotOut) (ks : List R2) (hks : ks ≠ []) (rs : List (List ℂ)) :
    polSim argsort eigh vecs argsortC eig t gmax pref conv ph M qws ks = .ok rs ↔
      rs.length = ks.length ∧ ∀ (i : ℕ) (k : R2) (r : List ℂ), ks[i]? = some k → rs[i]? = some r →
        polSim argsort eigh vecs argsortC eig t gmax pref conv (ph.at i) M qws [k] = .ok [r] := by
  simp only [polSim_ok_iff]
  have single : ∀ (i : ℕ) (k : R2) (r : List ℂ),
      (∃ ex : Fin (Q + 1) → List (List ℕ × List ℂ), (∀ q, excSim argsort eigh (qws q).W t gmax [k] M = .ok (ex q)) ∧
        [r].length = [k].length ∧ ∀ (j : ℕ) (k' : R2) (r' : List ℂ), [k][j]? = some k' → [r][j]? = some r' →
          polBody argsort eigh vecs gmax argsortC eig t pref conv M qws (ph.at i)
            (fun q x => ((ex q).getD j ([], [])).2.getD x 0) k' j = .ok r') ↔
      ∃ e : Fin (Q + 1) → List ℕ × List ℂ, (∀ q, excSim argsort eigh (qws q).W t gmax [k] M = .ok [e q]) ∧
        polBody argsort eigh vecs gmax argsortC eig t pref conv M qws ph (fun q x => (e q).2.getD x 0) k i = .ok r := by
    intro i k r
    constructor
    · rintro ⟨ex, h1, -, h2⟩
      have hl : ∀ q, (ex q).length = 1 := fun q =>
        ((C146_exc argsort eigh gmax M (qws q).W t [k] (by simp) (ex q)).1 (h1 q)).1
      refine ⟨fun q => (ex q).getD 0 ([], []), fun q => ?_, ?_⟩
      · rw [h1 q]
        obtain ⟨e, he⟩ := List.length_eq_one_iff.1 (hl q)
        simp only [he]
        rfl
      · have := h2 0 k r rfl rfl
        rwa [polBody_at] at this
    · rintro ⟨e, h1, h2⟩
      refine ⟨fun q => [e q], h1, rfl, ?_⟩
      rintro (_ | j) k' r' hk hr
      · simp only [List.getElem?_cons_zero, Option.some.injEq] at hk hr
        subst hk hr
        rw [polBody_at]
        exact h2
      · simp at hk
  simp only [single]
  constructor
  · rintro ⟨ex, h1, h2, h3⟩
    refine ⟨h2, fun i k r hi hr => ⟨fun q => (ex q).getD i ([], []), fun q => ?_, h3 i k r hi hr⟩⟩
    obtain ⟨l1, l2⟩ := (C146_exc argsort eigh gmax M (qws q).W t ks hks (ex q)).1 (h1 q)
    have hq : i < (ex q).length := by rw [l1]; exact (List.getElem?_eq_some_iff.1 hi).1
    refine l2 i k _ hi ?_
    simp only []
    rw [List.getElem?_eq_getElem hq, List.getD_eq_getElem?_getD, List.getElem?_eq_getElem hq]
    rfl
  · rintro ⟨h1, h2⟩
    have key : ∀ (i : ℕ), ∃ e : Fin (Q + 1) → List ℕ × List ℂ, ∀ (k : R2) (r : List ℂ), ks[i]? = some k → rs[i]? = some r →
        (∀ q, excSim argsort eigh (qws q).W t gmax [k] M = .ok [e q]) ∧
        polBody argsort eigh vecs gmax argsortC eig t pref conv M qws ph (fun q x => (e q).2.getD x 0) k i = .ok r := by
      intro i
      by_cases hi : i < ks.length
      · obtain ⟨e, he1, he2⟩ := h2 i ks[i] (rs[i]'(by rw [h1]; exact hi)) (List.getElem?_eq_getElem hi)
          (List.getElem?_eq_getElem _)
        refine ⟨e, fun k r hk hr => ?_⟩
        rw [List.getElem?_eq_getElem hi] at hk
        rw [List.getElem?_eq_getElem (by rw [h1]; exact hi)] at hr
        rw [← Option.some.inj hk, ← Option.some.inj hr]
        exact ⟨he1, he2⟩
      · refine ⟨fun _ => ([], []), fun k r hk _ => ?_⟩
        exact absurd (List.getElem?_eq_some_iff.1 hk).1 hi
    choose e he using key
    have hget : ∀ q (i : ℕ), i < ks.length → (List.ofFn fun i : Fin ks.length => e i q).getD i ([], []) = e i q := by
      intro q i hi
      rw [List.getD_eq_getElem?_getD, List.getElem?_eq_getElem (by simpa using hi)]
      simp
    refine ⟨fun q => List.ofFn fun i : Fin ks.length => e i q, fun q => ?_, h1, fun i k r hi hr => ?_⟩
    · refine (C146_exc argsort eigh gmax M (qws q).W t ks hks _).2 ⟨by simp, fun i k b hi hb => ?_⟩
      have hi' : i < ks.length := (List.getElem?_eq_some_iff.1 hi).1
      have hb' : e i q = b := by
        rw [List.getElem?_eq_getElem (by simpa using hi')] at hb
        simpa using Option.some.inj hb
      rw [← hb']
      exact (he i k (rs[i]'(by rw [h1]; exact hi')) hi (List.getElem?_eq_getElem _)).1 q
    · have hi' : i < ks.length := (List.getElem?_eq_some_iff.1 hi).1
      simp only [hget _ i hi']
      exact (he i k r hi hr).2

end

/-! ### Examples -/

/-- A run of the exciton solver over two wave vectors, and what a run over the second alone returns. -/
example (J : ℝ → ℝ) (argsort : List ℝ → List ℕ) (eigh : ∀ n, Matrix (Fin n) (Fin n) ℂ → Fin n → ℝ) :
    ∃ r r' : List ℕ × List ℂ,
      excSim argsort eigh ⟨(2 * Real.pi, 0), (0, 2 * Real.pi), 1, [Circle.ft J ⟨0.1, 0, 0.2⟩], 0.1, 1e-6, 1e-31, 1.5, 0.001, 1e-34,
        1.6e-19⟩ .abs 2 [(0.1, 0), (0.2, 0.3)] 3 = .ok [r, r'] ∧
      excSim argsort eigh ⟨(2 * Real.pi, 0), (0, 2 * Real.pi), 1, [Circle.ft J ⟨0.1, 0, 0.2⟩], 0.1, 1e-6, 1e-31, 1.5, 0.001, 1e-34,
        1.6e-19⟩ .abs 2 [(0.2, 0.3)] 3 = .ok [r'] := by
  have h := excSim_ok argsort eigh ⟨(2 * Real.pi, 0), (0, 2 * Real.pi), 1, [Circle.ft J ⟨0.1, 0, 0.2⟩], 0.1, 1e-6, 1e-31, 1.5,
    0.001, 1e-34, 1.6e-19⟩ resolved_square (by simp only [List.mem_singleton]; rintro s rfl; exact C12_circle_conj J _) .abs 2
    (by norm_num) [(0.1, 0), (0.2, 0.3)] 3
  simp only [List.map_cons, List.map_nil] at h
  exact ⟨_, _, h, ((C146_exc argsort eigh 2 3 _ .abs _ (by simp) _).1 h).2 1 _ _ rfl rfl⟩

/-- Two lists with the same longest wave vector. -/
example : LongestIn (0.3, 0.1) [(0.1, 0), (0.3, 0.1)] ∧ LongestIn (0.3, 0.1) [(0.3, 0.1), (0.2, 0.2), (0.1, 0)] := by
  constructor
  · refine ⟨by simp, ?_⟩
    simp only [List.mem_cons, List.not_mem_nil, or_false]
    rintro k (rfl | rfl) <;> norm_num
  · refine ⟨by simp, ?_⟩
    simp only [List.mem_cons, List.not_mem_nil, or_false]
    rintro k (rfl | rfl | rfl) <;> norm_num

end Legume
