import Verif.Props.RadSim
import Verif.Lemmas.IsoRun

/-!
# Losses of two problems whose plane waves and basis states correspond
-/
namespace Legume

open Spec Matrix
open scoped ComplexConjugate

/-! ### Eigenvectors -/

/-- Couplings to the modes of one eigenvalue, for two matrices which differ by phases and the order of the basis. -/
theorem eigh_moved_group {n n' : ℕ} (e : Fin n' ≃ Fin n) {A V : Matrix (Fin n) (Fin n) ℂ}
    {A' V' : Matrix (Fin n') (Fin n') ℂ} {w : Fin n → ℝ} {w' : Fin n' → ℝ} (h : IsEigh A w V) (h' : IsEigh A' w' V')
    (d : Fin n' → ℂ) (hd : ∀ i, d i * conj (d i) = 1) (hA : ∀ i j, A' i j = d i * A (e i) (e j) * conj (d j))
    (c : Fin n → ℂ) (c' : Fin n' → ℂ) (ζ : ℂ) (hζ : ‖ζ‖ = 1) (hc : ∀ i, c' i = ζ * d i * c (e i)) (x : ℝ) :
    ∑ m with w' m = x, ‖∑ i, c' i * conj (V' i m)‖ ^ 2 = ∑ m with w m = x, ‖∑ i, c i * conj (V i m)‖ ^ 2 := by
  obtain rfl : n' = n := by simpa using Fintype.card_congr e
  have h2 : IsEigh (A.submatrix e e) w (V.submatrix e id) := by
    constructor
    · rw [conjTranspose_submatrix, submatrix_mul_equiv _ _ _ e, h.unitary]
      rfl
    · rw [submatrix_mul_equiv _ _ _ e, h.eigen]
      ext i j
      rw [submatrix_apply, mul_diagonal, mul_diagonal]
      rfl
  rw [eigh_phases_group h2 h' d hd hA (fun i => c (e i)) c' ζ hζ hc x]
  refine Finset.sum_congr rfl fun m _ => ?_
  congr 2
  exact Equiv.sum_comp e fun i => c i * conj (V i m)

theorem eigh_moved_simple {n n' : ℕ} (e : Fin n' ≃ Fin n) {A V : Matrix (Fin n) (Fin n) ℂ}
    {A' V' : Matrix (Fin n') (Fin n') ℂ} {w : Fin n → ℝ} {w' : Fin n' → ℝ} (h : IsEigh A w V) (h' : IsEigh A' w' V')
    (hw : List.ofFn w' = List.ofFn w)
    (d : Fin n' → ℂ) (hd : ∀ i, d i * conj (d i) = 1) (hA : ∀ i j, A' i j = d i * A (e i) (e j) * conj (d j))
    (c c' : ℕ → ℂ) (ζ : ℂ) (hζ : ‖ζ‖ = 1) (hc : ∀ i : Fin n', c' i = ζ * d i * c (e i)) (m : ℕ) (hm : SimpleMode w m) :
    ‖∑ i ∈ Finset.range n', c' i * conj (colOf V' m i)‖ = ‖∑ i ∈ Finset.range n, c i * conj (colOf V m i)‖ := by
  have hn : n' = n := by simpa using congrArg List.length hw
  subst hn
  obtain ⟨hlt, huniq⟩ := hm
  obtain rfl := List.ofFn_injective hw
  have hg := eigh_moved_group e h h' d hd hA (fun i => c i) (fun i => c' i) ζ hζ hc (w' ⟨m, hlt⟩)
  have hf : (Finset.univ.filter fun j => w' j = w' ⟨m, hlt⟩) = {⟨m, hlt⟩} := by
    ext j
    simp only [Finset.mem_filter, Finset.mem_univ, true_and, Finset.mem_singleton]
    exact ⟨huniq j, fun hj => by rw [hj]⟩
  rw [hf, Finset.sum_singleton, Finset.sum_singleton] at hg
  have h1 := sum_colOf V c ⟨m, hlt⟩
  have h2 := sum_colOf V' c' ⟨m, hlt⟩
  simp only at h1 h2
  rw [h1, h2]
  exact (pow_left_inj₀ (norm_nonneg _) (norm_nonneg _) two_ne_zero).1 hg

/-! ### Sums over channels -/

/-- Squared couplings of a list of channels. -/
theorem mapM_sumSq_cons {α : Type} (f : α → Option ℂ) (a : α) (l : List α) :
    ((a :: l).mapM f).map sumSq = (f a).bind fun z => ((l.mapM f).map sumSq).map (‖z‖ ^ 2 + ·) := by
  rw [List.mapM_cons]
  cases f a with
  | none => rfl
  | some z =>
    cases hl : l.mapM f with
    | none => simp [hl]
    | some r => simp [hl, sumSq]

theorem mapM_sumSq_perm {α : Type} (f : α → Option ℂ) {l l' : List α} (h : l.Perm l') :
    (l.mapM f).map sumSq = (l'.mapM f).map sumSq := by
  induction h with
  | nil => rfl
  | cons a _ ih => rw [mapM_sumSq_cons, mapM_sumSq_cons, ih]
  | swap a b l =>
    simp only [mapM_sumSq_cons]
    cases f a <;> cases f b <;> cases (l.mapM f).map sumSq <;> simp
    ring
  | trans _ _ ih1 ih2 => rw [ih1, ih2]

theorem mapM_sumSq_congr {α β : Type} (f : α → Option ℂ) (f' : β → Option ℂ) (φ : α → β) (l : List α)
    (h : ∀ a ∈ l, (f' (φ a)).map norm = (f a).map norm) :
    ((l.map φ).mapM f').map sumSq = (l.mapM f).map sumSq := by
  induction l with
  | nil => rfl
  | cons a l ih =>
    rw [List.map_cons, mapM_sumSq_cons, mapM_sumSq_cons, ih fun b hb => h b (List.mem_cons_of_mem _ hb)]
    have h1 := h a List.mem_cons_self
    cases ha : f a with
    | none =>
      cases hb : f' (φ a) with
      | none => rfl
      | some z => rw [ha, hb] at h1; simp at h1
    | some z =>
      cases hb : f' (φ a) with
      | none => rw [ha, hb] at h1; simp at h1
      | some z' =>
        rw [ha, hb] at h1
        simp only [Option.map_some, Option.some.injEq] at h1
        simp [h1]

/-- The losses by way of the sums of squares. -/
theorem modeRad_sumSq (lo up : Clad) (omr : ℝ) (gk : List ℝ) (evec : ℕ → ℂ) :
    modeRad lo up omr gk evec =
      match (lo.coup .te omr gk evec).map sumSq, (up.coup .te omr gk evec).map sumSq,
        (lo.coup .tm omr gk evec).map sumSq, (up.coup .tm omr gk evec).map sumSq with
      | some a, some b, some c, some d => some (a + b, c + d)
      | _, _, _, _ => none := by
  unfold modeRad
  cases lo.coup .te omr gk evec <;> cases up.coup .te omr gk evec <;> cases lo.coup .tm omr gk evec <;>
    cases up.coup .tm omr gk evec <;> simp

/-- A correspondence of plane waves on positions. -/
def posMap {N N' : ℕ} (ν : Fin N ≃ Fin N') (j : ℕ) : ℕ := if h : j < N then ν ⟨j, h⟩ else j

theorem posMap_fin {N N' : ℕ} (ν : Fin N ≃ Fin N') (j : Fin N) : posMap ν j = ν j := by
  unfold posMap
  rw [dif_pos j.2]

theorem openChannels_nodup (eps omr : ℝ) (gk : List ℝ) : (openChannels eps omr gk).Nodup :=
  List.Nodup.filter _ List.nodup_range

theorem getD_ofFn {N : ℕ} (f : Fin N → ℝ) (j : Fin N) : (List.ofFn f).getD j 0 = f j := by
  rw [getD_of_len (by simp)]
  simp

theorem openChannels_moved {N N' : ℕ} (ν : Fin N ≃ Fin N') (eps omr : ℝ) (a : Fin N → ℝ) (a' : Fin N' → ℝ)
    (h : ∀ j, a' (ν j) = a j) :
    (openChannels eps omr (List.ofFn a')).Perm ((openChannels eps omr (List.ofFn a)).map (posMap ν)) := by
  have hN : N = N' := by simpa using Fintype.card_congr ν
  refine (List.perm_ext_iff_of_nodup (openChannels_nodup _ _ _) ?_).2 fun x => ?_
  · refine List.Nodup.map_on ?_ (openChannels_nodup _ _ _)
    intro x hx y hy hxy
    have hx1 : x < N := by simpa using ((mem_openChannels _ _ _ _).1 hx).1
    have hy1 : y < N := by simpa using ((mem_openChannels _ _ _ _).1 hy).1
    rw [show x = ((⟨x, hx1⟩ : Fin N) : ℕ) from rfl, show y = ((⟨y, hy1⟩ : Fin N) : ℕ) from rfl, posMap_fin, posMap_fin] at hxy
    exact congrArg Fin.val (ν.injective (Fin.ext hxy))
  · constructor
    · intro hx
      obtain ⟨h1, h2⟩ := (mem_openChannels _ _ _ _).1 hx
      rw [List.length_ofFn] at h1
      refine List.mem_map.2 ⟨ν.symm ⟨x, h1⟩, (mem_openChannels _ _ _ _).2 ⟨by simp, ?_⟩, ?_⟩
      · rw [getD_ofFn, ← h, ν.apply_symm_apply]
        rwa [show x = ((⟨x, h1⟩ : Fin N') : ℕ) from rfl, getD_ofFn] at h2
      · rw [posMap_fin, ν.apply_symm_apply]
    · intro hx
      obtain ⟨y, hy, rfl⟩ := List.mem_map.1 hx
      obtain ⟨h1, h2⟩ := (mem_openChannels _ _ _ _).1 hy
      rw [List.length_ofFn] at h1
      rw [show y = ((⟨y, h1⟩ : Fin N) : ℕ) from rfl, getD_ofFn] at h2
      rw [show y = ((⟨y, h1⟩ : Fin N) : ℕ) from rfl, posMap_fin]
      exact (mem_openChannels _ _ _ _).2 ⟨by simp, by rw [getD_ofFn, h]; exact h2⟩

/-! ### One mode -/

/-- Results about two modes whose plane waves correspond by `ν`: the corresponding channels are open, and for simple modes
the losses and the absolute values of the couplings in corresponding channels are the same. -/
structure MovedRad {N N' : ℕ} (ν : Fin N ≃ Fin N') (simple : Prop) (a a' : RadRes) : Prop where
  chan : ∀ u, (a'.chan u).Perm ((a.chan u).map (posMap ν))
  finite : a'.loss = none ↔ a.loss = none
  loss : simple → a'.loss = a.loss
  coup : simple → ∀ (u : Bool) (pol : Pol) (l l' : List ℂ), a.coup u pol = some l → a'.coup u pol = some l' →
    ∀ (p p' j : ℕ) (z z' : ℂ), (a.chan u)[p]? = some j → (a'.chan u)[p']? = some (posMap ν j) → l[p]? = some z →
      l'[p']? = some z' → ‖z'‖ = ‖z‖

theorem mapM_option_getElem {α : Type} (f : α → Option ℂ) {l : List α} {r : List ℂ} (h : l.mapM f = some r) (p : ℕ) (a : α)
    (z : ℂ) (ha : l[p]? = some a) (hz : r[p]? = some z) : (f a).getD 0 = z := by
  have := mapM_option_eq f 0 l r h
  rw [this, List.getElem?_map, ha] at hz
  exact Option.some.inj hz

theorem radOf_moved (ij ij' : LPos → ℂ → ℂ) {N N' : ℕ} (ν : Fin N ≃ Fin N') (stack stack' : List (LPos × ℝ))
    (einv : List (Matrix (Fin N) (Fin N) ℂ)) (einv' : List (Matrix (Fin N') (Fin N') ℂ)) (basis : List (BasisEl N))
    (basis' : List (BasisEl N')) (planes : Fin N → R2) (planes' : Fin N' → R2)
    (hpl : ∀ j, planeAbs (planes' (ν j)) = planeAbs (planes j)) (clads : ℝ × ℝ) (omr : ℝ) (evec evec' : ℕ → ℂ)
    (simple : Prop) (h : simple → ∀ u pol, ∀ j : Fin N,
      ‖∑ i ∈ Finset.range basis'.length, radElem ij' stack' einv' basis' planes' omr pol u i (ν j) * conj (evec' i)‖ =
      ‖∑ i ∈ Finset.range basis.length, radElem ij stack einv basis planes omr pol u i j * conj (evec i)‖) :
    MovedRad ν simple (radOf ij stack einv basis planes clads omr evec)
      (radOf ij' stack' einv' basis' planes' clads omr evec') := by
  have hch := fun eps => openChannels_moved ν eps omr (fun i => planeAbs (planes i)) (fun i => planeAbs (planes' i)) hpl
  have hg : ∀ j : Fin N, (List.ofFn fun i => planeAbs (planes' i)).getD (posMap ν j) 0 =
      (List.ofFn fun i => planeAbs (planes i)).getD j 0 := by
    intro j
    rw [posMap_fin, getD_ofFn, getD_ofFn, hpl]
  have hsum : simple → ∀ u pol, ((radOf ij' stack' einv' basis' planes' clads omr evec').coup u pol).map sumSq =
      ((radOf ij stack einv basis planes clads omr evec).coup u pol).map sumSq := by
    intro hs u pol
    simp only [radOf, radClad_coup]
    rw [mapM_sumSq_perm _ (hch _)]
    refine mapM_sumSq_congr _ _ _ _ fun j hj => ?_
    have hj' : j < N := by simpa using ((mem_openChannels _ _ _ _).1 hj).1
    obtain ⟨j, rfl⟩ : ∃ i : Fin N, (i : ℕ) = j := ⟨⟨j, hj'⟩, rfl⟩
    rw [hg, posMap_fin]
    cases radDos (if u = true then clads.2 else clads.1) omr ((List.ofFn fun i => planeAbs (planes i)).getD j 0) with
    | none => rfl
    | some d => simp only [Option.map_some, norm_mul, h hs u pol j]
  refine ⟨fun u => hch _, ?_, fun hs => ?_, ?_⟩
  · obtain ⟨-, h1, -⟩ := radOf_losses ij stack einv basis planes clads omr evec _ rfl _ rfl
    obtain ⟨-, h2, -⟩ := radOf_losses ij' stack' einv' basis' planes' clads omr evec' _ rfl _ rfl
    rw [h1, h2]
    refine exists_congr fun u => ?_
    have e : ∀ j, (planes' (ν j)).1 ^ 2 + (planes' (ν j)).2 ^ 2 = (planes j).1 ^ 2 + (planes j).2 ^ 2 := by
      intro j
      rw [← planeAbs_sq, ← planeAbs_sq, hpl]
    constructor
    · rintro ⟨j, hj⟩
      exact ⟨ν.symm j, by rw [← e, ν.apply_symm_apply]; exact hj⟩
    · rintro ⟨j, hj⟩
      exact ⟨ν j, by rw [e]; exact hj⟩
  · have e1 : ∀ (b : Bool) pol, ((radOf ij' stack' einv' basis' planes' clads omr evec').coup b pol).map sumSq =
      ((radOf ij stack einv basis planes clads omr evec).coup b pol).map sumSq := hsum hs
    have e2 := e1 false
    have e3 := e1 true
    simp only [radOf] at e2 e3 ⊢
    unfold modeLoss
    rw [modeRad_sumSq, modeRad_sumSq, e2, e2, e3, e3]
  · intro hs u pol l l' hl hl' p p' j z z' hp hp' hz hz'
    have hj' : j < N := by
      have := List.mem_of_getElem? hp
      simpa using ((mem_openChannels _ _ _ _).1 this).1
    obtain ⟨j, rfl⟩ : ∃ i : Fin N, (i : ℕ) = j := ⟨⟨j, hj'⟩, rfl⟩
    simp only [radOf, radClad_coup] at hl hl'
    rw [← mapM_option_getElem _ hl p _ z hp hz, ← mapM_option_getElem _ hl' p' _ z' hp' hz', hg, posMap_fin]
    cases radDos (if u = true then clads.2 else clads.1) omr ((List.ofFn fun i => planeAbs (planes i)).getD j 0) with
    | none => rfl
    | some d => simp only [Option.map_some, Option.getD_some, norm_mul, h hs u pol j]

/-! ### All modes at one wave vector -/

open Classical in
/-- Sum of a number over all stored modes whose eigenvalue is `lam`. -/
noncomputable def groupSum {n : ℕ} (w : Fin n → ℝ) (lam : ℝ) (x : KRes × List RadRes) (F : RadRes → ℝ) : ℝ :=
  (((x.1.idx.zip x.2).filter fun p => decide (∃ h : p.1 < n, w ⟨p.1, h⟩ = lam)).map fun p => F p.2).sum

/-- Sum of the squared couplings of all stored modes whose eigenvalue is `lam`, for one cladding and polarisation. -/
noncomputable def groupPower {n : ℕ} (w : Fin n → ℝ) (lam : ℝ) (x : KRes × List RadRes) (u : Bool) (pol : Pol) : ℝ :=
  groupSum w lam x fun a => ((a.coup u pol).map sumSq).getD 0

theorem mapM_sumSq_getD {α : Type} (g : α → Option ℝ) (c : ℝ → ℂ) (s : α → ℂ) (l : List α) :
    ((l.mapM fun a => (g a).map fun d => c d * s a).map sumSq).getD 0 =
      if l.all fun a => (g a).isSome then (l.map fun a => ‖c ((g a).getD 0)‖ ^ 2 * ‖s a‖ ^ 2).sum else 0 := by
  have key : ((l.mapM fun a => (g a).map fun d => c d * s a).map sumSq) =
      if l.all fun a => (g a).isSome then some (l.map fun a => ‖c ((g a).getD 0)‖ ^ 2 * ‖s a‖ ^ 2).sum else none := by
    induction l with
    | nil => simp [sumSq]
    | cons a l ih =>
      rw [mapM_sumSq_cons, ih]
      cases ha : g a with
      | none => simp [ha]
      | some d =>
        by_cases hl : (l.all fun a => (g a).isSome) = true
        · simp [ha, hl, mul_pow]
        · simp [ha, hl]
  rw [key]
  split_ifs <;> rfl

theorem list_sum_comm {α β : Type} (l : List α) (s : Finset β) (F : α → β → ℝ) :
    ∑ m ∈ s, (l.map fun a => F a m).sum = (l.map fun a => ∑ m ∈ s, F a m).sum := by
  induction l with
  | nil => simp
  | cons a l ih => simp only [List.map_cons, List.sum_cons, Finset.sum_add_distrib, ih]

/-- A sum over a complete group of modes. -/
theorem groupSum_eq {ij : LPos → ℂ → ℂ} {N : ℕ} {argsort : List ℝ → List ℕ} (hs : ∀ l, IsArgsort l (argsort l))
    {stack : List (LPos × ℝ)} {einv : List (Matrix (Fin N) (Fin N) ℂ)} {basis : List (BasisEl N)} {planes : Fin N → R2}
    {clads : ℝ × ℝ} {w : Fin basis.length → ℝ} {V : Matrix (Fin basis.length) (Fin basis.length) ℂ} {sigma : ℝ}
    {numeig : ℕ} {x : KRes × List RadRes} (h : radAt ij argsort stack einv basis planes clads w V sigma numeig = .ok x)
    (lam : ℝ) (hall : ∀ m, w m = lam → (m : ℕ) ∈ x.1.idx) (F : RadRes → ℝ) :
    groupSum w lam x F = ∑ m with w m = lam,
      F (radOf ij stack einv basis planes clads (2 * Real.pi * freqOf lam) (colOf V m)) := by
  classical
  rw [radAt_eq] at h
  cases hr : solveFull argsort (List.ofFn w) sigma numeig with
  | error e => rw [hr] at h; cases h
  | ok r =>
    rw [hr] at h
    simp only at h
    split_ifs at h
    cases h
    have hl := solveFull_lengths hr
    have hnd : r.idx.Nodup ∧ ∀ i ∈ r.idx, i < basis.length := by
      unfold solveFull at hr
      split_ifs at hr with hlt
      cases hr
      obtain ⟨-, h1, h2, -⟩ := select_facts argsort hs ((List.ofFn w).map freqOf) sigma numeig (by simpa using hlt)
      exact ⟨h1, fun i hi => by simpa using h2 i hi⟩
    simp only at hall ⊢
    unfold groupSum
    simp only
    have hz : r.idx.zip ((r.idx.zip r.freq).map fun m =>
        radOf ij stack einv basis planes clads (2 * Real.pi * m.2) (colOf V m.1)) =
        r.idx.map fun m => (m, radOf ij stack einv basis planes clads
          (2 * Real.pi * ((List.ofFn w).map freqOf).getD m 0) (colOf V m)) := by
      rw [hl]
      generalize r.idx = l
      induction l with
      | nil => rfl
      | cons a l ih => simp only [List.map_cons, List.zip_cons_cons, ih]
    rw [hz, List.filter_map, List.map_map]
    have hp : (r.idx.filter fun m => decide (∃ h : m < basis.length, w ⟨m, h⟩ = lam)).Perm
        (((Finset.univ.filter fun m => w m = lam).toList).map Fin.val) := by
      refine (List.perm_ext_iff_of_nodup (hnd.1.filter _) ((Finset.nodup_toList _).map Fin.val_injective)).2 fun m => ?_
      simp only [List.mem_filter, decide_eq_true_eq, List.mem_map, Finset.mem_toList, Finset.mem_filter, Finset.mem_univ,
        true_and]
      constructor
      · rintro ⟨h1, h2, h3⟩
        exact ⟨⟨m, h2⟩, h3, rfl⟩
      · rintro ⟨m, h1, rfl⟩
        exact ⟨hall m h1, m.2, h1⟩
    refine Eq.trans (List.Perm.sum_eq (hp.map _)) ?_
    rw [List.map_map, Finset.sum_map_toList]
    refine Finset.sum_congr rfl fun m hm => ?_
    have hm' : w m = lam := (Finset.mem_filter.1 hm).2
    simp only [Function.comp]
    rw [getD_of_len (by simp)]
    simp [hm']

/-- Two problems with the same eigenvalues. -/
theorem groupSum_congr {n n' : ℕ} {w : Fin n → ℝ} {w' : Fin n' → ℝ} (hw : List.ofFn w' = List.ofFn w) (lam : ℝ)
    (x : KRes × List RadRes) (F : RadRes → ℝ) : groupSum w lam x F = groupSum w' lam x F := by
  obtain rfl : n' = n := by simpa using congrArg List.length hw
  rw [List.ofFn_injective hw]

/-- The stored couplings of a complete group of modes. -/
theorem groupPower_eq {ij : LPos → ℂ → ℂ} {N : ℕ} {argsort : List ℝ → List ℕ} (hs : ∀ l, IsArgsort l (argsort l))
    {stack : List (LPos × ℝ)} {einv : List (Matrix (Fin N) (Fin N) ℂ)} {basis : List (BasisEl N)} {planes : Fin N → R2}
    {clads : ℝ × ℝ} {w : Fin basis.length → ℝ} {V : Matrix (Fin basis.length) (Fin basis.length) ℂ} {sigma : ℝ}
    {numeig : ℕ} {x : KRes × List RadRes} (h : radAt ij argsort stack einv basis planes clads w V sigma numeig = .ok x)
    (lam : ℝ) (hall : ∀ m, w m = lam → (m : ℕ) ∈ x.1.idx) (u : Bool) (pol : Pol) :
    groupPower w lam x u pol = ∑ m with w m = lam,
      (((radOf ij stack einv basis planes clads (2 * Real.pi * freqOf lam) (colOf V m)).coup u pol).map sumSq).getD 0 :=
  groupSum_eq hs h lam hall _

/-- Results at one wave vector: the same frequencies, and modes as in `MovedRad`; the sums of the squared couplings of all
modes of one eigenvalue are the same too, if all of them are stored. -/
structure MovedModes {N N' : ℕ} (ν : Fin N ≃ Fin N') {n : ℕ} (w : Fin n → ℝ) (x x' : KRes × List RadRes) : Prop where
  freq : x'.1 = x.1
  len : x.2.length = x.1.freq.length
  len' : x'.2.length = x.1.freq.length
  mode : ∀ (p m : ℕ) (a a' : RadRes), x.1.idx[p]? = some m → x.2[p]? = some a → x'.2[p]? = some a' →
    MovedRad ν (SimpleMode w m) a a'
  group : ∀ lam, (∀ m, w m = lam → (m : ℕ) ∈ x.1.idx) → ∀ u pol, groupPower w lam x' u pol = groupPower w lam x u pol

theorem radOf_group (ij ij' : LPos → ℂ → ℂ) {N N' : ℕ} (ν : Fin N ≃ Fin N')
    (stack stack' : List (LPos × ℝ)) (einv : List (Matrix (Fin N) (Fin N) ℂ)) (einv' : List (Matrix (Fin N') (Fin N') ℂ))
    (basis : List (BasisEl N)) (basis' : List (BasisEl N')) (planes : Fin N → R2) (planes' : Fin N' → R2)
    (hpl : ∀ j, planeAbs (planes' (ν j)) = planeAbs (planes j)) (clads : ℝ × ℝ)
    (e : Fin basis'.length ≃ Fin basis.length) {A V : Matrix (Fin basis.length) (Fin basis.length) ℂ}
    {A' V' : Matrix (Fin basis'.length) (Fin basis'.length) ℂ} {w : Fin basis.length → ℝ}
    {w' : Fin basis'.length → ℝ} (h : IsEigh A w V) (h' : IsEigh A' w' V')
    (d : Fin basis'.length → ℂ) (hd : ∀ i, d i * conj (d i) = 1)
    (hA : ∀ i j, A' i j = d i * A (e i) (e j) * conj (d j)) (omr : ℝ)
    (he : ∀ (pol : Pol) (u : Bool) (j : Fin N), ∃ ζ : ℂ, ‖ζ‖ = 1 ∧ ∀ i : Fin basis'.length,
      radElem ij' stack' einv' basis' planes' omr pol u i (ν j) =
        ζ * d i * radElem ij stack einv basis planes omr pol u (e i) j) (lam : ℝ) (u : Bool) (pol : Pol) :
    ∑ m with w' m = lam,
      (((radOf ij' stack' einv' basis' planes' clads omr (colOf V' m)).coup u pol).map sumSq).getD 0 =
    ∑ m with w m = lam,
      (((radOf ij stack einv basis planes clads omr (colOf V m)).coup u pol).map sumSq).getD 0 := by
  have hch := fun eps => openChannels_moved ν eps omr (fun i => planeAbs (planes i)) (fun i => planeAbs (planes' i)) hpl
  simp only [radOf, radClad_coup]
  set eps := if u = true then clads.2 else clads.1
  set gk := List.ofFn fun i => planeAbs (planes i) with hgk
  set gk' := List.ofFn fun i => planeAbs (planes' i) with hgk'
  have hg : ∀ j : Fin N, gk'.getD (posMap ν j) 0 = gk.getD j 0 := by
    intro j
    rw [posMap_fin, getD_ofFn, getD_ofFn, hpl]
  have hlt : ∀ j ∈ openChannels eps omr gk, j < N := by
    intro j hj
    simpa [hgk] using ((mem_openChannels _ _ _ _).1 hj).1
  have e1 : ∀ j ∈ openChannels eps omr gk, radDos eps omr (gk'.getD (posMap ν j) 0) = radDos eps omr (gk.getD j 0) := by
    intro j hj
    rw [hg ⟨j, hlt j hj⟩]
  simp only [mapM_sumSq_perm _ (hch eps), mapM_sumSq_getD]
  have e2 : (((openChannels eps omr gk).map (posMap ν)).all fun a => (radDos eps omr (gk'.getD a 0)).isSome) =
      (openChannels eps omr gk).all fun a => (radDos eps omr (gk.getD a 0)).isSome := by
    rw [List.all_map, Bool.eq_iff_iff, List.all_eq_true, List.all_eq_true]
    refine forall₂_congr fun j hj => ?_
    simp only [Function.comp]
    rw [e1 j hj]
  rw [e2]
  split_ifs
  · rw [list_sum_comm, list_sum_comm, List.map_map]
    refine congrArg List.sum (List.map_congr_left fun j hj => ?_)
    obtain ⟨j, rfl⟩ : ∃ i : Fin N, (i : ℕ) = j := ⟨⟨j, hlt j hj⟩, rfl⟩
    simp only [Function.comp]
    rw [e1 _ hj, ← Finset.mul_sum, ← Finset.mul_sum]
    congr 1
    simp only [norm_mul, mul_pow, ← Finset.mul_sum]
    congr 1
    obtain ⟨ζ, hζ, hez⟩ := he pol u j
    have key := eigh_moved_group e h h' d hd hA (fun i => radElem ij stack einv basis planes omr pol u i j)
      (fun i => radElem ij' stack' einv' basis' planes' omr pol u i (ν j)) ζ hζ hez lam
    rw [posMap_fin]
    simp only [sum_colOf]
    exact key
  · simp

theorem radAt_moved (ij ij' : LPos → ℂ → ℂ) {N N' : ℕ} (ν : Fin N ≃ Fin N') (argsort : List ℝ → List ℕ)
    (hsort : ∀ l, IsArgsort l (argsort l))
    (stack stack' : List (LPos × ℝ)) (einv : List (Matrix (Fin N) (Fin N) ℂ)) (einv' : List (Matrix (Fin N') (Fin N') ℂ))
    (basis : List (BasisEl N)) (basis' : List (BasisEl N')) (planes : Fin N → R2) (planes' : Fin N' → R2)
    (hpl : ∀ j, planeAbs (planes' (ν j)) = planeAbs (planes j)) (clads : ℝ × ℝ)
    (e : Fin basis'.length ≃ Fin basis.length) {A V : Matrix (Fin basis.length) (Fin basis.length) ℂ}
    {A' V' : Matrix (Fin basis'.length) (Fin basis'.length) ℂ} {w : Fin basis.length → ℝ}
    {w' : Fin basis'.length → ℝ} (h : IsEigh A w V) (h' : IsEigh A' w' V') (hw : List.ofFn w' = List.ofFn w)
    (d : Fin basis'.length → ℂ) (hd : ∀ i, d i * conj (d i) = 1)
    (hA : ∀ i j, A' i j = d i * A (e i) (e j) * conj (d j))
    (he : ∀ (omr : ℝ) (pol : Pol) (u : Bool) (j : Fin N), ∃ ζ : ℂ, ‖ζ‖ = 1 ∧ ∀ i : Fin basis'.length,
      radElem ij' stack' einv' basis' planes' omr pol u i (ν j) =
        ζ * d i * radElem ij stack einv basis planes omr pol u (e i) j) (sigma : ℝ) (numeig : ℕ) :
    SameOutcome (MovedModes ν w) (radAt ij argsort stack einv basis planes clads w V sigma numeig)
      (radAt ij' argsort stack' einv' basis' planes' clads w' V' sigma numeig) := by
  cases hr : radAt ij argsort stack einv basis planes clads w V sigma numeig with
  | error e =>
    refine Or.inl ⟨e, rfl, ?_⟩
    rw [radAt_eq] at hr ⊢
    rw [hw]
    cases hs : solveFull argsort (List.ofFn w) sigma numeig with
    | error e' => rw [hs] at hr; exact hr
    | ok r =>
      rw [hs] at hr
      simp only at hr ⊢
      split_ifs at hr ⊢
      exact hr
  | ok x =>
    cases hr' : radAt ij' argsort stack' einv' basis' planes' clads w' V' sigma numeig with
    | error e =>
      rw [radAt_eq] at hr hr'
      rw [hw] at hr'
      cases hs : solveFull argsort (List.ofFn w) sigma numeig with
      | error e' => rw [hs] at hr; cases hr
      | ok r =>
        rw [hs] at hr hr'
        simp only at hr hr'
        split_ifs at hr hr'
    | ok x' =>
      obtain ⟨a1, a2, a3⟩ := radAt_ok hr
      obtain ⟨b1, b2, b3⟩ := radAt_ok hr'
      rw [hw, a1] at b1
      have hx : x'.1 = x.1 := (Except.ok.inj b1).symm
      refine Or.inr ⟨x, x', rfl, rfl, hx, a2, by rw [b2, hx], ?_, ?_⟩
      swap
      · intro lam hall u pol
        have hn : basis'.length = basis.length := by simpa using congrArg List.length hw
        have hw' : ∀ m (h : m < basis'.length) (h2 : m < basis.length), w' ⟨m, h⟩ = w ⟨m, h2⟩ := by
          intro m h h2
          have := congrArg (fun l => l[m]?) hw
          simpa [List.getElem?_ofFn, h, h2] using this
        have hall' : ∀ m, w' m = lam → (m : ℕ) ∈ x'.1.idx := by
          intro m hm
          rw [hx]
          exact hall ⟨m, hn ▸ m.2⟩ (by rw [← hw' m m.2]; exact hm)
        have hgp : groupPower w lam x' u pol = groupPower w' lam x' u pol := groupSum_congr hw lam x' _
        rw [hgp, groupPower_eq hsort hr lam hall, groupPower_eq hsort hr' lam hall']
        exact radOf_group ij ij' ν stack stack' einv einv' basis basis' planes planes' hpl clads e h h' d hd hA _
          (he _) lam u pol
      intro p m a a' hm ha ha'
      obtain ⟨m1, f1, h1, h2, -, rfl⟩ := a3 p a ha
      obtain ⟨m2, f2, h3, h4, -, rfl⟩ := b3 p a' ha'
      rw [hx] at h3 h4
      obtain rfl := Option.some.inj (h1.symm.trans hm)
      obtain rfl := Option.some.inj (h1.symm.trans h3)
      obtain rfl := Option.some.inj (h2.symm.trans h4)
      refine radOf_moved ij ij' ν stack stack' einv einv' basis basis' planes planes' hpl clads _ _ _ _ ?_
      intro hs u pol j
      obtain ⟨ζ, hζ, hez⟩ := he (2 * Real.pi * f1) pol u j
      exact eigh_moved_simple e h h' hw d hd hA (fun i => radElem ij stack einv basis planes _ pol u i j)
        (fun i => radElem ij' stack' einv' basis' planes' _ pol u i (ν j)) ζ hζ hez m1 hs

/-! ### Rotations and mirrors -/

theorem radState_image {q : R2 → R2} (h : Similarity 1 q) (pol : Pol) (u : Bool) (omr : ℝ) (stack : List (LPos × ℝ)) (p : R2) :
    radState pol u omr stack (q p) = (radState pol u omr stack p).map (GmeState.image q) := by
  unfold radState
  rw [planeAbs_image h]
  cases radMode pol (decide (pol = .te)) u omr (planeAbs p) (stack.map Prod.snd) (stackDs stack) <;> rfl

theorem radState_pol {pol : Pol} {u : Bool} {omr : ℝ} {stack : List (LPos × ℝ)} {p : R2} {t : GmeState}
    (h : radState pol u omr stack p = .ok t) : t.pol = pol := by
  unfold radState at h
  split at h
  · cases h
  · cases h; rfl

/-- Couplings of corresponding states to corresponding radiative modes. -/
theorem radElem_iso {q : R2 → R2} (h : Similarity 1 q) {D : ℝ} (hD : D * D = 1)
    (hc : ∀ a b : R2, (q a).1 * (q b).2 - (q a).2 * (q b).1 = D * (a.1 * b.2 - a.2 * b.1)) (ij : LPos → ℂ → ℂ) {N N' : ℕ}
    (ν : Fin N ≃ Fin N') (stack : List (LPos × ℝ)) (Es : List (Matrix (Fin N) (Fin N) ℂ))
    (Es' : List (Matrix (Fin N') (Fin N') ℂ))
    (hE : List.Forall₂ (fun E E' => ∀ i j, E' (ν i) (ν j) = E i j) Es Es') (b : List (BasisEl N)) (b' : List (BasisEl N'))
    (e : Fin b'.length ≃ Fin b.length) (hb : ∀ i, b'[i].ig = ν b[e i].ig ∧ b'[i].st = b[e i].st.image q)
    (planes : Fin N → R2) (planes' : Fin N' → R2) (hpl : ∀ j, planes' (ν j) = q (planes j)) (omr : ℝ) (pol : Pol) (u : Bool)
    (j : Fin N) : ∃ ζ : ℂ, ‖ζ‖ = 1 ∧ ∀ i : Fin b'.length, radElem ij stack Es' b' planes' omr pol u i (ν j) =
      ζ * (isoSign D b[e i].st : ℝ) * radElem ij stack Es b planes omr pol u (e i) j := by
  have h1 : ∀ s : GmeState, ‖((isoSign D s : ℝ) : ℂ)‖ = 1 := by
    intro s
    have := congrArg norm (isoSign_sq hD s)
    rw [norm_mul, norm_one] at this
    rw [Complex.norm_real]
    nlinarith [norm_nonneg (isoSign D s)]
  refine ⟨(isoSign D ⟨pol, 0, 0, 0, []⟩ : ℝ), h1 _, fun i => ?_⟩
  unfold radElem
  rw [dif_pos (ν j).2, dif_pos j.2, List.getElem?_eq_getElem i.2, List.getElem?_eq_getElem (e i).2]
  simp only [Fin.eta]
  rw [hpl, radState_image h]
  cases ht : radState pol u omr stack (planes j) with
  | error e => simp [Except.map]
  | ok t =>
    simp only [Except.map]
    obtain ⟨hb1, hb2⟩ := hb i
    simp only [Fin.getElem_fin] at hb1 hb2 ⊢
    rw [hb1, hb2, gmeElem_image h hD hc]
    have hEs : (Es'.map fun E => E (ν (b[((e i : Fin b.length) : ℕ)]).ig) (ν j)) =
        Es.map fun E => E (b[((e i : Fin b.length) : ℕ)]).ig j := by
      induction hE with
      | nil => rfl
      | cons h1 _ ih => rw [List.map_cons, List.map_cons, h1, ih]
    rw [hEs]
    have : isoSign D t = isoSign D ⟨pol, 0, 0, 0, []⟩ := by
      unfold isoSign
      rw [radState_pol ht]
    rw [this]
    push_cast
    ring

end Legume
