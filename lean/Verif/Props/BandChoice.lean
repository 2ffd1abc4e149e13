import Verif.Props.GmeTbtOrder
import Verif.Model.ExcSim

/-!
# What `numeig` and `eig_sigma` do to whole runs (C159)
-/
namespace Legume

open Spec

theorem select_perm (argsort : List ℝ → List ℕ) (hs : ∀ l, IsArgsort l (argsort l)) (freq1 : List ℝ) (sigma : ℝ)
    (numeig : ℕ) :
    (selectModes argsort freq1 sigma numeig).Perm ((argsort (freq1.map fun a => |a - sigma|)).take numeig) := by
  have hnear : findNearest argsort freq1 sigma numeig = (argsort (freq1.map fun a => |a - sigma|)).take numeig :=
    pyTake_nonneg _ _
  unfold selectModes
  rw [hnear]
  set near := (argsort (freq1.map fun a => |a - sigma|)).take numeig
  obtain ⟨hp, -⟩ := hs (near.map fun (i : ℕ) => freq1.getD i 0)
  rw [List.length_map] at hp
  refine (hp.map _).trans (List.Perm.of_eq ?_)
  apply List.ext_getElem
  · simp
  · intro i h1 h2
    simp only [List.getElem_map, List.getElem_range, List.getD_eq_getElem?_getD, List.getElem?_eq_getElem h2,
      Option.getD_some]

/-- Fewer bands at one wave vector. -/
theorem solveFull_fewer (argsort : List ℝ → List ℕ) (hs : ∀ l, IsArgsort l (argsort l)) (w : List ℝ) (sigma : ℝ)
    {n n' : ℕ} (hn : n ≤ n') {a' : KRes} (h : solveFull argsort w sigma n' = .ok a') :
    ∃ a, solveFull argsort w sigma n = .ok a ∧ a.freq.Sublist a'.freq := by
  have hn' := solveFull_ok h
  have h1 : ∀ m ≤ w.length, solveFull argsort w sigma m = .ok ⟨selectModes argsort (w.map freqOf) sigma m,
      (selectModes argsort (w.map freqOf) sigma m).map fun (i : ℕ) => (w.map freqOf).getD i 0, []⟩ := by
    intro m hm
    unfold solveFull
    rw [if_neg (not_lt.2 hm)]
  rw [h1 n' hn'] at h
  cases h
  refine ⟨_, h1 n (hn.trans hn'), ?_⟩
  obtain ⟨-, -, -, s1, -⟩ := select_facts argsort hs (w.map freqOf) sigma n (by simpa using hn.trans hn')
  obtain ⟨-, -, -, s2, -⟩ := select_facts argsort hs (w.map freqOf) sigma n' (by simpa using hn')
  refine List.sublist_of_subperm_of_pairwise (r := (· ≤ ·)) ?_ s1 s2
  have hp := ((select_perm argsort hs (w.map freqOf) sigma n).map fun (i : ℕ) => (w.map freqOf).getD i 0).subperm
  have hp' := ((select_perm argsort hs (w.map freqOf) sigma n').map fun (i : ℕ) => (w.map freqOf).getD i 0).symm.subperm
  exact hp.trans ((((List.take_sublist_take_left hn).map _).subperm).trans hp')

/-- Other numbers of bands and other targets at one wave vector. -/
theorem solveFull_choice (argsort : List ℝ → List ℕ) (hs : ∀ l, IsArgsort l (argsort l)) (w : List ℝ)
    {sigma sigma' : ℝ} {n n' : ℕ} {a a' : KRes} (h : solveFull argsort w sigma n = .ok a)
    (h' : solveFull argsort w sigma' n' = .ok a') :
    a.freq.length = n ∧ a.freq.Pairwise (· ≤ ·) ∧
      ∀ f ∈ a'.freq, f ∈ a.freq ∨ ∀ g ∈ a.freq, |g - sigma| ≤ |f - sigma| := by
  have hn := solveFull_ok h
  have hn' := solveFull_ok h'
  unfold solveFull at h h'
  rw [if_neg (not_lt.2 hn)] at h
  rw [if_neg (not_lt.2 hn')] at h'
  cases h
  cases h'
  obtain ⟨t1, -, -, t4, t5⟩ := select_facts argsort hs (w.map freqOf) sigma n (by simpa using hn)
  obtain ⟨-, -, u3, -, -⟩ := select_facts argsort hs (w.map freqOf) sigma' n' (by simpa using hn')
  refine ⟨by simpa using t1, t4, fun f hf => ?_⟩
  obtain ⟨j, hj, rfl⟩ := List.mem_map.1 hf
  by_cases hm : j ∈ selectModes argsort (w.map freqOf) sigma n
  · exact .inl (List.mem_map_of_mem hm)
  · refine .inr fun g hg => ?_
    obtain ⟨i, hi, rfl⟩ := List.mem_map.1 hg
    exact t5 i hi j (u3 j hj) hm

theorem mapM_fewer {α β : Type} {R : β → β → Prop} {f f' : α → Except PyErr β}
    (h : ∀ i a', f' i = .ok a' → ∃ a, f i = .ok a ∧ R a a') :
    ∀ {l : List α} {r' : List β}, l.mapM f' = .ok r' → ∃ r, l.mapM f = .ok r ∧ List.Forall₂ R r r'
  | [], r', hr => by
    cases hr
    exact ⟨[], rfl, .nil⟩
  | i :: l, r', hr => by
    rw [List.mapM_cons] at hr
    obtain ⟨a', ha', hr⟩ := bind_ok hr
    obtain ⟨t', ht', hr⟩ := bind_ok hr
    cases hr
    obtain ⟨a, ha, hR⟩ := h i a' ha'
    obtain ⟨t, ht, hT⟩ := mapM_fewer h ht'
    exact ⟨a :: t, by rw [List.mapM_cons, ha, ht]; rfl, .cons hR hT⟩

theorem mapM_both {α β : Type} {R : β → β → Prop} {f f' : α → Except PyErr β}
    (h : ∀ i a a', f i = .ok a → f' i = .ok a' → R a a') {l : List α} {r r' : List β} (h1 : l.mapM f = .ok r)
    (h2 : l.mapM f' = .ok r') : List.Forall₂ R r r' := by
  have k1 := mapM_ok_forall h1
  have k2 := mapM_ok_forall h2
  clear h1 h2
  induction k1 generalizing r' with
  | nil => cases k2; exact .nil
  | cons a _ ih =>
    cases k2 with
    | cons b k2 => exact .cons (h _ _ _ a b) (ih k2)

variable (argsort : List ℝ → List ℕ) (eigh : ∀ n, Matrix (Fin n) (Fin n) ℂ → Fin n → ℝ)

/-- **C159 (fewer bands).** If a run of the guided-mode expansion returns, then so does the run with a smaller `numeig`, and
at every wave vector its frequencies are among the other ones, in the same order. -/
theorem C159_fewer (hs : ∀ l, IsArgsort l (argsort l)) (ij : LPos → ℂ → ℂ) (guided : GuidedSolver) (S : GmeStruct) (gmax : ℝ)
    (onlyG : Bool) (opt : String) (ks : List R2) (sigma : ℝ) (n n' : ℕ) (hn : n ≤ n') :
    (∀ r', gmeSimIj ij argsort eigh guided S gmax onlyG opt ks sigma n' = .ok r' →
      ∃ r, gmeSimIj ij argsort eigh guided S gmax onlyG opt ks sigma n = .ok r ∧
        List.Forall₂ (fun a a' => a.freq.Sublist a'.freq) r r') ∧
    (∀ r', gmeSimTbtIj ij argsort eigh guided S gmax onlyG opt ks sigma n' = .ok r' →
      ∃ r, gmeSimTbtIj ij argsort eigh guided S gmax onlyG opt ks sigma n = .ok r ∧
        List.Forall₂ (fun a a' => a.freq.Sublist a'.freq) r r') := by
  constructor
  · intro r' h
    unfold gmeSimIj at h ⊢
    obtain ⟨eff, heff, h⟩ := bind_ok h
    obtain ⟨einv, heinv, h⟩ := bind_ok h
    rw [heff]
    simp only [bind, Except.bind, heinv]
    refine mapM_fewer (fun ik a' ha' => ?_) h
    obtain ⟨b, hb, ha'⟩ := bind_ok ha'
    rw [hb]
    exact solveFull_fewer argsort hs _ sigma hn ha'
  · intro r' h
    cases onlyG with
    | true => rw [tbt_refused] at h; cases h
    | false =>
      rw [tbt_run] at h ⊢
      obtain ⟨eff, heff, h⟩ := bind_ok h
      obtain ⟨einv, heinv, h⟩ := bind_ok h
      rw [heff]
      simp only [bind, Except.bind, heinv]
      refine mapM_fewer (fun ik a' ha' => ?_) h
      obtain ⟨b, hb, ha'⟩ := bind_ok ha'
      rw [hb]
      exact solveFull_fewer argsort hs _ sigma hn ha'

/-- What two runs that differ in `eig_sigma` and `numeig` report at one wave vector. -/
def Chosen (sigma : ℝ) (n : ℕ) (a a' : KRes) : Prop :=
  a.freq.length = n ∧ a.freq.Pairwise (· ≤ ·) ∧ ∀ f ∈ a'.freq, f ∈ a.freq ∨ ∀ g ∈ a.freq, |g - sigma| ≤ |f - sigma|

/-- **C159 (target frequency).** At every wave vector a run of the guided-mode expansion reports `numeig` frequencies in
increasing order; a frequency found with any other `eig_sigma` and `numeig` is among them or not closer to `eig_sigma` than
any of them. -/
theorem C159_sigma (hs : ∀ l, IsArgsort l (argsort l)) (ij : LPos → ℂ → ℂ) (guided : GuidedSolver) (S : GmeStruct) (gmax : ℝ)
    (onlyG : Bool) (opt : String) (ks : List R2) (sigma sigma' : ℝ) (n n' : ℕ) (r r' : List KRes) :
    (gmeSimIj ij argsort eigh guided S gmax onlyG opt ks sigma n = .ok r →
      gmeSimIj ij argsort eigh guided S gmax onlyG opt ks sigma' n' = .ok r' → List.Forall₂ (Chosen sigma n) r r') ∧
    (gmeSimTbtIj ij argsort eigh guided S gmax onlyG opt ks sigma n = .ok r →
      gmeSimTbtIj ij argsort eigh guided S gmax onlyG opt ks sigma' n' = .ok r' → List.Forall₂ (Chosen sigma n) r r') := by
  constructor
  · intro h h'
    unfold gmeSimIj at h h'
    obtain ⟨eff, heff, h⟩ := bind_ok h
    obtain ⟨einv, heinv, h⟩ := bind_ok h
    rw [heff] at h'
    simp only [bind, Except.bind, heinv] at h'
    refine mapM_both (fun ik a a' ha ha' => ?_) h h'
    obtain ⟨b, hb, ha⟩ := bind_ok ha
    rw [hb] at ha'
    exact solveFull_choice argsort hs _ ha ha'
  · intro h h'
    replace h := tbt_ok h
    replace h' := tbt_ok h'
    obtain ⟨eff, heff, h⟩ := bind_ok h
    obtain ⟨einv, heinv, h⟩ := bind_ok h
    rw [heff] at h'
    simp only [bind, Except.bind, heinv] at h'
    refine mapM_both (fun ik a a' ha ha' => ?_) h h'
    obtain ⟨b, hb, ha⟩ := bind_ok ha
    rw [hb] at ha'
    exact solveFull_choice argsort hs _ ha ha'

theorem take_take_of_le {α : Type} (l : List α) {n n' : ℕ} (hn : n ≤ n') : l.take n = (l.take n').take n := by
  rw [List.take_take, min_eq_left hn]

/-- The first `n` bands. -/
def KRes.first (n : ℕ) (a : KRes) : KRes := ⟨a.idx.take n, a.freq.take n, a.symm⟩

/-- **C159 (plane waves).** A run of the plane-wave expansion with a smaller `numeig` reports the first of the bands, or the
same error. -/
theorem C159_pwe (L : PweLayer) (gmax : ℝ) (ks : List R2) (pol : String) (n n' : ℕ) (hn : n ≤ n') :
    pweSim argsort eigh L gmax ks pol n =
      (pweSim argsort eigh L gmax ks pol n').map (List.map (KRes.first n)) := by
  unfold pweSim
  split_ifs
  · rfl
  · rw [except_mapM_map]
    congr 1
    funext k
    unfold pweRun
    cases parsePol pol with
    | error e => rfl
    | ok p => simp only [Except.map, solvePwe, KRes.first, ← List.map_take, ← take_take_of_le _ hn]

/-- **C159 (excitons).** A run of the exciton equation with a smaller `numeig` reports the first of the levels, or the same
error. -/
theorem C159_exc (W : ExcWell) (t : TruncG) (gmax : ℝ) (ks : List R2) (n n' : ℕ) (hn : n ≤ n') :
    excSim argsort eigh W t gmax ks n =
      (excSim argsort eigh W t gmax ks n').map (List.map fun p => (p.1.take n, p.2.take n)) := by
  unfold excSim
  cases W.pot t gmax with
  | error e => rfl
  | ok P =>
    simp only
    rw [except_mapM_map]
    congr 1
    funext k
    unfold excRun
    split_ifs
    · rfl
    · simp only [Except.map, excSelect, ← List.map_take, ← take_take_of_le _ hn]

/-! ### Examples -/

/-- Two bands are computed; one of them is asked for near the frequency 0.3. -/
example (hs : ∀ l, IsArgsort l (argsort l)) (gmax : ℝ) (hn : ((holesStruct 1).gvecT gmax).length ≤ 10 ^ 6) (k : R2) :
    ∃ r r', gmeSimTbtIj ijExact argsort eigh (exGuided true) (holesStruct 1) gmax false "custom" [k] 0 2 = .ok r' ∧
      gmeSimTbtIj ijExact argsort eigh (exGuided true) (holesStruct 1) gmax false "custom" [k] 0.3 1 = .ok r ∧
      List.Forall₂ (Chosen 0.3 1) r r' := by
  have h0 : 0 < ((holesStruct 1).gvecT gmax).length := by rw [gvecT_len]; positivity
  obtain ⟨E1, h1, -⟩ := drawnLayerT_inv _ gmax _ (cladding_drawnT 1 gmax .lower (some 1)) false
  obtain ⟨E2, h2, -⟩ := drawnLayerT_inv _ gmax _ (slab_drawnT gmax hn) false
  obtain ⟨E3, h3, -⟩ := drawnLayerT_inv _ gmax _ (cladding_drawnT 1 gmax .upper (some 1)) false
  have he : (holesStruct 1).layers.mapM ((holesStruct 1).epsInvT gmax false) = .ok [E1, E2, E3] := by
    rw [show (holesStruct 1).layers = [⟨.lower, 1, 1, some 1, []⟩, holesSlab 1, ⟨.upper, 1, 1, some 1, []⟩] from rfl]
    simp only [List.mapM_cons, List.mapM_nil, h1, h2, h3]
    rfl
  have run : ∀ (sigma : ℝ), ∃ r, gmeSimTbtIj ijExact argsort eigh (exGuided true) (holesStruct 1) gmax false "custom" [k]
      sigma 2 = .ok r := by
    intro sigma
    rw [tbt_run, show (holesStruct 1).layers.mapM (GmeLay.eff "custom") = .ok [1, 11, 1] from rfl, he]
    simp only [bind, Except.bind, List.length_singleton, List.range_one, List.mapM_cons, List.mapM_nil, exGuided,
      dif_pos h0, solveFull]
    simp [pure, Except.pure]
  obtain ⟨r', hr'⟩ := run 0
  obtain ⟨q, hq⟩ := run 0.3
  obtain ⟨r, hr, -⟩ := (C159_fewer argsort eigh hs ijExact (exGuided true) (holesStruct 1) gmax false "custom" [k] 0.3 1 2
    (by norm_num)).2 q hq
  exact ⟨r, r', hr', hr, (C159_sigma argsort eigh hs ijExact (exGuided true) (holesStruct 1) gmax false "custom" [k] 0.3 0 1
    2 r r').2 hr hr'⟩

end Legume
