import Verif.Lemmas.RadReverse

/-!
# Losses at opposite wave vectors
-/
namespace Legume

open Spec Matrix
open scoped ComplexConjugate

/-! ### Couplings -/

/-- All channels that are open in a cladding are off the light lines of all layers, and none is at normal incidence. -/
def RegularChannels (om e0 eN : ℝ) (ls : List (ℝ × ℝ)) {N : ℕ} (planes : Fin N → R2) : Prop :=
  ∀ (u : Bool) (j : Fin N), planeAbs (planes j) ^ 2 ≤ (if u then eN else e0) * om ^ 2 →
    1e-10 ≤ planeAbs (planes j) ∧ ∀ e ∈ slabEps e0 eN ls, e * om ^ 2 ≠ planeAbs (planes j) ^ 2

theorem similarity_neg : Similarity 1 (fun p : R2 => -p) := by
  refine ⟨one_pos, fun x y a b => ?_, fun a b => ?_⟩
  · ext <;> simp <;> ring
  · simp

theorem chi_conj (om g e : ℝ) : conj (chi om g e) = chi om g e ∨ conj (chi om g e) = -chi om g e := by
  unfold chi
  split_ifs
  · left; exact Complex.conj_ofReal _
  · right
    rw [map_mul, Complex.conj_I, Complex.conj_ofReal]
    ring

theorem radState_chi {pol : Pol} {u : Bool} {om : ℝ} {stack : List (LPos × ℝ)} {p : R2} {t : GmeState}
    (h : radState pol u om stack p = .ok t) : ∀ m ∈ t.layers, conj m.x = m.x ∨ conj m.x = -m.x := by
  unfold radState at h
  split at h
  · cases h
  · cases h
    intro m hm
    rw [List.mem_iff_getElem] at hm
    obtain ⟨i, hi, rfl⟩ := hm
    simp only [List.getElem_zipWith]
    exact chi_conj _ _ _

theorem gmeElem_nil (ij : LPos → ℂ → ℂ) (stack : List (LPos × ℝ)) (einv : List ℂ) (s t : GmeState) (h : t.layers = []) :
    gmeElem ij stack einv s t = 0 := by
  have : layPairs stack einv s t = [] := by
    unfold layPairs
    rw [h]
    simp
  rw [gmeElem_eq, this]
  rfl

/-- Couplings to the radiative waves at one plane wave and at its opposite. -/
theorem radElem_reversed {N : ℕ} (ν : Equiv.Perm (Fin N)) (e0 eN : ℝ) (ls : List (ℝ × ℝ)) (hne : ls ≠ []) (h0 : 0 < e0)
    (hN : 0 < eN) (hl : ∀ l ∈ ls, l.1 ≠ 0) (Es Es' : List (Matrix (Fin N) (Fin N) ℂ))
    (hE : List.Forall₂ (fun E E' : Matrix (Fin N) (Fin N) ℂ => ∀ i j, E' (ν i) (ν j) = conj (E i j)) Es Es')
    (b b' : List (BasisEl N)) (hr : ∀ s ∈ b, ∀ m ∈ s.st.layers, RealMode m) (σ : Fin b'.length ≃ Fin b.length)
    (h1 : ∀ i, b'[i].ig = ν b[σ i].ig)
    (h2 : ∀ i, b'[i].st = { b[σ i].st with gx := -b[σ i].st.gx, gy := -b[σ i].st.gy })
    (planes planes' : Fin N → R2) (hpl : ∀ j, planes' (ν j) = -planes j) (om : ℝ)
    (hreg : RegularChannels om e0 eN ls planes) (pol : Pol) (j : Fin N) :
    ∃ S : Bool → Bool → ℂ,
      (∀ u, planeAbs (planes j) ^ 2 ≤ (if u then eN else e0) * om ^ 2 → ∀ i : Fin b'.length,
        conj (radElem ijExact (slabStack e0 eN ls) Es' b' planes' om pol u i (ν j)) =
          ∑ v, S u v * radElem ijExact (slabStack e0 eN ls) Es b planes om pol v (σ i) j) ∧
      ∀ z : Bool → ℂ, ∑ u, chanRho (if u then eN else e0) om (planeAbs (planes j)) * Complex.normSq (∑ v, S u v * z v) =
        ∑ u, chanRho (if u then eN else e0) om (planeAbs (planes j)) * Complex.normSq (z u) := by
  by_cases hop : ∃ u : Bool, planeAbs (planes j) ^ 2 ≤ (if u then eN else e0) * om ^ 2
  swap
  · refine ⟨fun _ _ => 0, fun u hu => absurd ⟨u, hu⟩ hop, fun z => ?_⟩
    refine (Finset.sum_eq_zero fun u _ => ?_).trans (Finset.sum_eq_zero fun u _ => ?_).symm
    all_goals
      rw [chanRho, if_neg fun h => hop ⟨u, h⟩, zero_mul]
  obtain ⟨u0, hu0⟩ := hop
  obtain ⟨hp, hoff⟩ := hreg u0 j hu0
  have hmax : max (planeAbs (planes j)) 1e-10 = planeAbs (planes j) := max_eq_left hp
  have hw : ∀ u, planeAbs (planes j) ^ 2 ≤ (if u then eN else e0) * om ^ 2 →
      ∃ t, radState pol u om (slabStack e0 eN ls) (planes j) = .ok t ∧ RadWave pol u om e0 eN ls (planes j) t :=
    fun u hu => C119_wave pol u om e0 eN ls hne h0 hN hl (planes j) ⟨by rwa [hmax], by rwa [hmax]⟩
  set t : Bool → GmeState := fun u => match radState pol u om (slabStack e0 eN ls) (planes j) with
    | .ok t => t
    | .error _ => ⟨pol, 0, 0, 0, []⟩ with htdef
  have hval : ∀ u (i : Fin b.length), radElem ijExact (slabStack e0 eN ls) Es b planes om pol u i j =
      gmeElem ijExact (slabStack e0 eN ls) (Es.map fun E => E b[i].ig j) b[i].st (t u) := by
    intro u i
    unfold radElem
    rw [dif_pos j.2, List.getElem?_eq_getElem i.2]
    simp only [Fin.eta, htdef]
    cases radState pol u om (slabStack e0 eN ls) (planes j) with
    | error e => exact (gmeElem_nil _ _ _ _ _ rfl).symm
    | ok t => rfl
  obtain ⟨S, hS1, hS2⟩ := wave_reversal pol om e0 eN ls (planes j) h0 hN hl hoff hp t (by
    intro u hu
    obtain ⟨t', h3, h4⟩ := hw u hu
    simp only [htdef, h3]
    exact h4)
  refine ⟨S, fun u hu i => ?_, hS2⟩
  obtain ⟨t', h3, -⟩ := hw u hu
  have ht' : t u = t' := by simp only [htdef, h3]
  have hv' : radElem ijExact (slabStack e0 eN ls) Es' b' planes' om pol u i (ν j) =
      gmeElem ijExact (slabStack e0 eN ls) (Es'.map fun E => E b'[i].ig (ν j)) b'[i].st
        { t' with gx := -t'.gx, gy := -t'.gy } := by
    unfold radElem
    rw [dif_pos (ν j).2, List.getElem?_eq_getElem i.2]
    simp only [Fin.eta]
    rw [hpl, show -planes j = (fun p : R2 => -p) (planes j) from rfl, radState_image similarity_neg, h3]
    rfl
  rw [hv', h2, gmeElem_neg, gmeElem_conjField _ _ _ _ (hr b[σ i] (List.getElem_mem _)) (radState_chi h3), ← ht',
    hS1 u hu]
  refine Finset.sum_congr rfl fun v _ => ?_
  rw [hval v (σ i)]
  congr 2
  rw [List.map_map, h1 i]
  clear hS1 hS2 hval hv'
  generalize b[σ i].ig = q
  induction hE with
  | nil => rfl
  | cons a _ ih => rw [List.map_cons, List.map_cons, ih, Function.comp_apply, a, Complex.conj_conj]

/-! ### Groups of modes -/

/-- Powers radiated into one plane wave by all modes of one eigenvalue, for two problems that are conjugates of each other. -/
theorem eigh_reversed_group {n n' : ℕ} (σ : Fin n' ≃ Fin n) {A V : Matrix (Fin n) (Fin n) ℂ}
    {A' V' : Matrix (Fin n') (Fin n') ℂ} {w : Fin n → ℝ} {w' : Fin n' → ℝ} (h : IsEigh A w V) (h' : IsEigh A' w' V')
    (hA : ∀ i j, A' i j = conj (A (σ i) (σ j))) (c : Bool → Fin n → ℂ) (c' : Bool → Fin n' → ℂ) (R : Bool → ℝ)
    (S : Bool → Bool → ℂ) (hc : ∀ u, R u ≠ 0 → ∀ i, conj (c' u i) = ∑ v, S u v * c v (σ i))
    (hS : ∀ z : Bool → ℂ, ∑ u, R u * Complex.normSq (∑ v, S u v * z v) = ∑ u, R u * Complex.normSq (z u)) (x : ℝ) :
    ∑ m with w' m = x, ∑ u, R u * ‖∑ i, c' u i * conj (V' i m)‖ ^ 2 =
      ∑ m with w m = x, ∑ u, R u * ‖∑ i, c u i * conj (V i m)‖ ^ 2 := by
  have h2 : IsEigh (A'.map conj) w' (V'.map conj) := by
    constructor
    · have := congrArg (fun M : Matrix (Fin n') (Fin n') ℂ => M.map conj) h'.unitary
      simp only [Matrix.map_mul] at this
      rw [show (V'.map conj).conjTranspose = V'.conjTranspose.map conj by ext; simp]
      rw [this]
      ext i j
      by_cases hij : i = j
      · subst hij; simp
      · simp [Matrix.one_apply_ne hij]
    · have := congrArg (fun M : Matrix (Fin n') (Fin n') ℂ => M.map conj) h'.eigen
      simp only [Matrix.map_mul] at this
      rw [this]
      congr 1
      ext i j
      by_cases hij : i = j
      · subst hij; simp
      · simp [Matrix.diagonal_apply_ne _ hij]
  have e1 : ∀ m, ∑ u, R u * ‖∑ i, c' u i * conj (V' i m)‖ ^ 2 =
      ∑ u, R u * ‖∑ i, c u (σ i) * conj ((V'.map conj) i m)‖ ^ 2 := by
    intro m
    have := hS fun v => ∑ i, c v (σ i) * conj ((V'.map conj) i m)
    simp only [Complex.normSq_eq_norm_sq] at this
    rw [← this]
    refine Finset.sum_congr rfl fun u _ => ?_
    by_cases hu : R u = 0
    · rw [hu, zero_mul, zero_mul]
    · congr 2
      rw [← RCLike.norm_conj, map_sum]
      congr 1
      simp only [map_mul, hc u hu, Finset.mul_sum, Matrix.map_apply, Complex.conj_conj]
      rw [Finset.sum_comm]
      refine Finset.sum_congr rfl fun i _ => ?_
      rw [Finset.sum_mul]
      exact Finset.sum_congr rfl fun v _ => by ring
  rw [Finset.sum_congr rfl fun m _ => e1 m, Finset.sum_comm, Finset.sum_comm (s := Finset.univ.filter fun m => w m = x)]
  refine Finset.sum_congr rfl fun u _ => ?_
  rw [← Finset.mul_sum, ← Finset.mul_sum]
  congr 1
  refine eigh_moved_group σ h h2 (fun _ => 1) (fun _ => by simp) (fun i j => ?_) (c u) (fun i => c u (σ i)) 1 (by simp)
    (fun i => by simp) x
  simp [hA]

/-! ### One mode -/

/-- Power that a mode radiates through the cladding `u` into the `j`-th plane wave. -/
noncomputable def RadRes.power (a : RadRes) (u : Bool) (pol : Pol) (j : ℕ) : ℝ :=
  (((a.chan u).zip ((a.coup u pol).getD [])).map fun p => if p.1 = j then ‖p.2‖ ^ 2 else 0).sum

theorem nodup_sum_ite (l : List ℕ) (hl : l.Nodup) (f : ℕ → ℝ) (j : ℕ) :
    (l.map fun i => if i = j then f i else 0).sum = if j ∈ l then f j else 0 := by
  induction l with
  | nil => simp
  | cons a l ih =>
    rw [List.map_cons, List.sum_cons, ih hl.of_cons]
    have ha := (List.nodup_cons.1 hl).1
    by_cases h1 : a = j
    · subst h1
      simp [ha]
    · have : j ≠ a := fun e => h1 e.symm
      simp [h1, this]

theorem zip_with_map {α β : Type} (l : List α) (f : α → β) : l.zip (l.map f) = l.map fun a => (a, f a) := by
  induction l with
  | nil => rfl
  | cons a l ih => simp [ih]

theorem mapM_option_map_some {α β : Type} (f : α → Option β) (g : α → β) (l : List α) (h : ∀ a ∈ l, f a = some (g a)) :
    l.mapM f = some (l.map g) := by
  induction l with
  | nil => rfl
  | cons a l ih =>
    rw [List.mapM_cons, h a List.mem_cons_self, ih fun b hb => h b (List.mem_cons_of_mem _ hb)]
    rfl

theorem RegularChannels.lt {om e0 eN : ℝ} {ls : List (ℝ × ℝ)} {N : ℕ} {planes : Fin N → R2}
    (h : RegularChannels om e0 eN ls planes) {u : Bool} {j : Fin N}
    (hj : planeAbs (planes j) ^ 2 ≤ (if u then eN else e0) * om ^ 2) :
    planeAbs (planes j) ^ 2 < (if u then eN else e0) * om ^ 2 := by
  refine lt_of_le_of_ne hj (Ne.symm ((h u j hj).2 _ ?_))
  cases u <;> simp [slabEps]

/-- The couplings of a mode with regular channels. -/
theorem radOf_regular (ij : LPos → ℂ → ℂ) {N : ℕ} (stack : List (LPos × ℝ)) (einv : List (Matrix (Fin N) (Fin N) ℂ))
    (basis : List (BasisEl N)) (planes : Fin N → R2) (om e0 eN : ℝ) (ls : List (ℝ × ℝ)) (h0 : 0 < e0) (hN : 0 < eN)
    (hreg : RegularChannels om e0 eN ls planes) (ev : ℕ → ℂ) (u : Bool) (pol : Pol) :
    (∀ j : Fin N, (radOf ij stack einv basis planes (e0, eN) om ev).power u pol j =
      chanRho (if u then eN else e0) om (planeAbs (planes j)) *
        ‖∑ i ∈ Finset.range basis.length, radElem ij stack einv basis planes om pol u i j * conj (ev i)‖ ^ 2) ∧
    ((radOf ij stack einv basis planes (e0, eN) om ev).coup u pol).map sumSq =
      some (∑ j : Fin N, (radOf ij stack einv basis planes (e0, eN) om ev).power u pol j) := by
  set a := radOf ij stack einv basis planes (e0, eN) om ev with ha
  set eps := if u then eN else e0 with heps
  have hpos : 0 < eps := by rw [heps]; cases u <;> simpa
  set gk := List.ofFn fun i => planeAbs (planes i) with hgk
  set F : ℕ → ℂ := fun j => ((√(chanRho eps om (gk.getD j 0)) : ℝ) : ℂ) * ((match pol with | .te => -Complex.I | .tm => 1) *
    ∑ i ∈ Finset.range basis.length, radElem ij stack einv basis planes om pol u i j * conj (ev i)) with hF
  have hchan : a.chan u = openChannels eps om gk := rfl
  have hlt : ∀ j ∈ openChannels eps om gk, ∃ i : Fin N, (i : ℕ) = j := by
    intro j hj
    have : j < N := by simpa [hgk] using ((mem_openChannels _ _ _ _).1 hj).1
    exact ⟨⟨j, this⟩, rfl⟩
  have hcoup : a.coup u pol = some ((openChannels eps om gk).map F) := by
    refine (radClad_coup ij stack einv basis planes om eps u pol gk ev).trans ?_
    refine mapM_option_map_some _ _ _ fun j hj => ?_
    obtain ⟨j, rfl⟩ := hlt j hj
    have h1 := ((mem_openChannels _ _ _ _).1 hj).2
    rw [hgk, getD_ofFn] at h1
    have h2 := hreg.lt h1
    rw [hF]
    simp only
    rw [hgk, getD_ofFn, radDos, if_neg (by rw [heps]; linarith), chanRho, if_pos h1]
    rfl
  have hsq : ∀ j : Fin N, chanRho eps om (planeAbs (planes j)) = 0 ∨ 0 ≤ chanRho eps om (planeAbs (planes j)) := by
    intro j
    right
    unfold chanRho
    split_ifs
    · have := Real.pi_pos
      positivity
    · exact le_rfl
  have hnorm : ∀ j : Fin N, ‖F j‖ ^ 2 = chanRho eps om (planeAbs (planes j)) *
      ‖∑ i ∈ Finset.range basis.length, radElem ij stack einv basis planes om pol u i j * conj (ev i)‖ ^ 2 := by
    intro j
    have hr : 0 ≤ chanRho eps om (planeAbs (planes j)) := by
      rcases hsq j with h | h
      · exact h.ge
      · exact h
    rw [hF]
    simp only
    rw [hgk, getD_ofFn, norm_mul, norm_mul, mul_pow, mul_pow, Complex.norm_real, Real.norm_eq_abs, sq_abs, Real.sq_sqrt hr]
    have : ‖(match pol with | .te => -Complex.I | .tm => (1 : ℂ))‖ = 1 := by cases pol <;> simp
    rw [this, one_pow, one_mul]
  have hpow : ∀ j : ℕ, a.power u pol j = if j ∈ openChannels eps om gk then ‖F j‖ ^ 2 else 0 := by
    intro j
    unfold RadRes.power
    rw [hcoup, hchan, Option.getD_some, zip_with_map, List.map_map]
    exact nodup_sum_ite _ (openChannels_nodup _ _ _) (fun j => ‖F j‖ ^ 2) j
  refine ⟨fun j => ?_, ?_⟩
  · rw [hpow, ← hnorm]
    split_ifs with hj
    · rfl
    · have hc : chanRho eps om (planeAbs (planes j)) = 0 := by
        rw [chanRho, if_neg]
        intro h
        exact hj ((mem_openChannels _ _ _ _).2 ⟨by simp [hgk], by rw [hgk, getD_ofFn]; exact h⟩)
      rw [hnorm, hc, zero_mul]
  · rw [hcoup, Option.map_some, sumSq, List.map_map]
    congr 1
    have : ∀ l : List ℕ, l.Nodup → (∀ j ∈ l, ∃ i : Fin N, (i : ℕ) = j) → ∀ f : ℕ → ℝ,
        (l.map f).sum = ∑ j : Fin N, if (j : ℕ) ∈ l then f j else 0 := by
      intro l
      induction l with
      | nil => simp
      | cons x l ih =>
        intro hnd hl f
        obtain ⟨i, rfl⟩ := hl x List.mem_cons_self
        have hx := (List.nodup_cons.1 hnd).1
        rw [List.map_cons, List.sum_cons, ih hnd.of_cons (fun j hj => hl j (List.mem_cons_of_mem _ hj)) f]
        have : ∀ j : Fin N, (if (j : ℕ) ∈ (i : ℕ) :: l then f j else 0) =
            (if j = i then f i else 0) + if (j : ℕ) ∈ l then f j else 0 := by
          intro j
          by_cases hj : j = i
          · subst hj; simp [hx]
          · have : (j : ℕ) ≠ i := fun h => hj (Fin.ext h)
            simp [this, hj]
        rw [Finset.sum_congr rfl fun j _ => this j, Finset.sum_add_distrib]
        simp
    rw [this _ (openChannels_nodup _ _ _) hlt]
    exact Finset.sum_congr rfl fun j _ => (hpow j).symm

theorem radOf_loss (ij : LPos → ℂ → ℂ) {N : ℕ} (stack : List (LPos × ℝ)) (einv : List (Matrix (Fin N) (Fin N) ℂ))
    (basis : List (BasisEl N)) (planes : Fin N → R2) (clads : ℝ × ℝ) (om : ℝ) (ev : ℕ → ℂ) (z : Bool → Pol → ℝ)
    (h : ∀ u pol, ((radOf ij stack einv basis planes clads om ev).coup u pol).map sumSq = some (z u pol)) :
    (radOf ij stack einv basis planes clads om ev).loss =
      some ⟨lossOf om ((z true .te + z false .te) + (z true .tm + z false .tm)), lossOf om (z true .te + z false .te),
        lossOf om (z true .tm + z false .tm)⟩ := by
  have d1 : ∀ pol, _ := h false
  have d2 : ∀ pol, _ := h true
  simp only [radOf, Bool.false_eq_true, if_false, if_true] at d1 d2 ⊢
  unfold modeLoss
  rw [modeRad_sumSq, d1, d1, d2, d2]
  simp only [Option.map_some, add_comm]

/-- Results about two modes at opposite wave vectors, whose plane waves correspond by `ν`: the opposite channels are open;
for good modes the losses are the same, and so is the power radiated through both claddings together into opposite
channels. -/
structure ReversedRad {N : ℕ} (ν : Equiv.Perm (Fin N)) (good : Prop) (a a' : RadRes) : Prop where
  chan : ∀ u, (a'.chan u).Perm ((a.chan u).map (posMap ν))
  finite : a'.loss = none ↔ a.loss = none
  loss : good → a'.loss = a.loss
  power : good → ∀ (pol : Pol) (j : Fin N), ∑ u, a'.power u pol (ν j) = ∑ u, a.power u pol j

/-- Results at one wave vector and at its opposite. -/
structure ReversedModes {N : ℕ} (ν : Equiv.Perm (Fin N)) (e0 eN : ℝ) (ls : List (ℝ × ℝ)) (planes : Fin N → R2) {n : ℕ}
    (w : Fin n → ℝ) (x x' : KRes × List RadRes) : Prop where
  freq : x'.1 = x.1
  len : x.2.length = x.1.freq.length
  len' : x'.2.length = x.1.freq.length
  mode : ∀ (p m : ℕ) (f : ℝ) (a a' : RadRes), x.1.idx[p]? = some m → x.1.freq[p]? = some f → x.2[p]? = some a →
    x'.2[p]? = some a' → ReversedRad ν (SimpleMode w m ∧ RegularChannels (2 * Real.pi * f) e0 eN ls planes) a a'
  group : ∀ lam, (∀ m, w m = lam → (m : ℕ) ∈ x.1.idx) →
    RegularChannels (2 * Real.pi * freqOf lam) e0 eN ls planes → ∀ (pol : Pol) (j : Fin N),
      groupSum w lam x' (fun a => ∑ u, a.power u pol (ν j)) = groupSum w lam x fun a => ∑ u, a.power u pol j

theorem planeAbs_neg (p : R2) : planeAbs (-p) = planeAbs p := by simp [planeAbs]

theorem RegularChannels.neg {om e0 eN : ℝ} {ls : List (ℝ × ℝ)} {N : ℕ} {planes planes' : Fin N → R2}
    (h : RegularChannels om e0 eN ls planes) (ν : Equiv.Perm (Fin N)) (hpl : ∀ j, planes' (ν j) = -planes j) :
    RegularChannels om e0 eN ls planes' := by
  intro u j hj
  obtain ⟨j, rfl⟩ := ν.surjective j
  rw [hpl, planeAbs_neg] at hj ⊢
  exact h u j hj

/-- All modes at one wave vector. -/
theorem radAt_reversed {N : ℕ} (ν : Equiv.Perm (Fin N)) (argsort : List ℝ → List ℕ) (hsort : ∀ l, IsArgsort l (argsort l))
    (e0 eN : ℝ) (ls : List (ℝ × ℝ)) (hne : ls ≠ []) (h0 : 0 < e0)
    (hN : 0 < eN) (hl : ∀ l ∈ ls, l.1 ≠ 0) (Es Es' : List (Matrix (Fin N) (Fin N) ℂ))
    (hE : List.Forall₂ (fun E E' : Matrix (Fin N) (Fin N) ℂ => ∀ i j, E' (ν i) (ν j) = conj (E i j)) Es Es')
    (b b' : List (BasisEl N)) (hr : ∀ s ∈ b, ∀ m ∈ s.st.layers, RealMode m) (σ : Fin b'.length ≃ Fin b.length)
    (h1 : ∀ i, b'[i].ig = ν b[σ i].ig)
    (h2 : ∀ i, b'[i].st = { b[σ i].st with gx := -b[σ i].st.gx, gy := -b[σ i].st.gy })
    (planes planes' : Fin N → R2) (hpl : ∀ j, planes' (ν j) = -planes j)
    {A V : Matrix (Fin b.length) (Fin b.length) ℂ} {A' V' : Matrix (Fin b'.length) (Fin b'.length) ℂ}
    {w : Fin b.length → ℝ} {w' : Fin b'.length → ℝ} (h : IsEigh A w V) (h' : IsEigh A' w' V')
    (hw : List.ofFn w' = List.ofFn w) (hA : ∀ i j, A' i j = conj (A (σ i) (σ j))) (sigma : ℝ) (numeig : ℕ) :
    SameOutcome (ReversedModes ν e0 eN ls planes w)
      (radAt ijExact argsort (slabStack e0 eN ls) Es b planes (e0, eN) w V sigma numeig)
      (radAt ijExact argsort (slabStack e0 eN ls) Es' b' planes' (e0, eN) w' V' sigma numeig) := by
  -- powers of all modes of one eigenvalue
  have hgrp : ∀ (om : ℝ), RegularChannels om e0 eN ls planes → ∀ (lam : ℝ) (pol : Pol) (j : Fin N),
      ∑ m with w' m = lam, ∑ u, (radOf ijExact (slabStack e0 eN ls) Es' b' planes' (e0, eN) om (colOf V' m)).power u pol (ν j) =
      ∑ m with w m = lam, ∑ u, (radOf ijExact (slabStack e0 eN ls) Es b planes (e0, eN) om (colOf V m)).power u pol j := by
    intro om hreg lam pol j
    obtain ⟨S, hS1, hS2⟩ := radElem_reversed ν e0 eN ls hne h0 hN hl Es Es' hE b b' hr σ h1 h2 planes planes' hpl om hreg
      pol j
    have e1 := fun (m : Fin b.length) u => (radOf_regular ijExact (slabStack e0 eN ls) Es b planes om e0 eN ls h0 hN hreg
      (colOf V m) u pol).1 j
    have e2 := fun (m : Fin b'.length) u => (radOf_regular ijExact (slabStack e0 eN ls) Es' b' planes' om e0 eN ls h0 hN
      (hreg.neg ν hpl) (colOf V' m) u pol).1 (ν j)
    simp only [e1, e2, sum_colOf, hpl, planeAbs_neg]
    refine eigh_reversed_group σ h h' hA (fun u i => radElem ijExact (slabStack e0 eN ls) Es b planes om pol u i j)
      (fun u i => radElem ijExact (slabStack e0 eN ls) Es' b' planes' om pol u i (ν j))
      (fun u => chanRho (if u then eN else e0) om (planeAbs (planes j))) S (fun u hu i => ?_) hS2 lam
    refine hS1 u ?_ i
    by_contra hc
    exact hu (by rw [chanRho, if_neg hc])
  cases hr : radAt ijExact argsort (slabStack e0 eN ls) Es b planes (e0, eN) w V sigma numeig with
  | error e =>
    refine Or.inl ⟨e, rfl, ?_⟩
    rw [radAt_eq] at hr ⊢
    rw [hw]
    cases hs : solveFull argsort (List.ofFn w) sigma numeig with
    | error e' => rw [hs] at hr; exact hr
    | ok r =>
      rw [hs] at hr
      simp only at hr ⊢
      split_ifs at hr ⊢
      exact hr
  | ok x =>
    cases hr' : radAt ijExact argsort (slabStack e0 eN ls) Es' b' planes' (e0, eN) w' V' sigma numeig with
    | error e =>
      rw [radAt_eq] at hr hr'
      rw [hw] at hr'
      cases hs : solveFull argsort (List.ofFn w) sigma numeig with
      | error e' => rw [hs] at hr; cases hr
      | ok r =>
        rw [hs] at hr hr'
        simp only at hr hr'
        split_ifs at hr hr'
    | ok x' =>
      obtain ⟨a1, a2, a3⟩ := radAt_ok hr
      obtain ⟨b1, b2, b3⟩ := radAt_ok hr'
      rw [hw, a1] at b1
      have hx : x'.1 = x.1 := (Except.ok.inj b1).symm
      have hn : b'.length = b.length := by simpa using congrArg List.length hw
      have hw' : ∀ m (h : m < b'.length) (h2 : m < b.length), w' ⟨m, h⟩ = w ⟨m, h2⟩ := by
        intro m h h2
        have := congrArg (fun l => l[m]?) hw
        simpa [List.getElem?_ofFn, h, h2] using this
      refine Or.inr ⟨x, x', rfl, rfl, hx, a2, by rw [b2, hx], ?_, ?_⟩
      swap
      · intro lam hall hreg pol j
        have hall' : ∀ m, w' m = lam → (m : ℕ) ∈ x'.1.idx := by
          intro m hm
          rw [hx]
          exact hall ⟨m, hn ▸ m.2⟩ (by rw [← hw' m m.2]; exact hm)
        rw [groupSum_congr hw, groupSum_eq hsort hr lam hall, groupSum_eq hsort hr' lam hall']
        exact hgrp _ hreg lam pol j
      intro p m f a a' hm hf ha ha'
      obtain ⟨m1, f1, h1, h2, -, rfl⟩ := a3 p a ha
      obtain ⟨m2, f2, h3, h4, -, rfl⟩ := b3 p a' ha'
      rw [hx] at h3 h4
      obtain rfl := Option.some.inj (h1.symm.trans hm)
      obtain rfl := Option.some.inj (h1.symm.trans h3)
      obtain rfl := Option.some.inj (h2.symm.trans h4)
      obtain rfl := Option.some.inj (h2.symm.trans hf)
      set om := 2 * Real.pi * f1 with hom
      have hpow : SimpleMode w m1 ∧ RegularChannels om e0 eN ls planes → ∀ (pol : Pol) (j : Fin N),
          ∑ u, (radOf ijExact (slabStack e0 eN ls) Es' b' planes' (e0, eN) om (colOf V' m1)).power u pol (ν j) =
          ∑ u, (radOf ijExact (slabStack e0 eN ls) Es b planes (e0, eN) om (colOf V m1)).power u pol j := by
        rintro ⟨⟨hlt, huniq⟩, hreg⟩ pol j
        have hg := hgrp om hreg (w ⟨m1, hlt⟩) pol j
        have hf1 : (Finset.univ.filter fun j => w j = w ⟨m1, hlt⟩) = {⟨m1, hlt⟩} := by
          ext j
          simp only [Finset.mem_filter, Finset.mem_univ, true_and, Finset.mem_singleton]
          exact ⟨huniq j, fun hj => by rw [hj]⟩
        have hf2 : (Finset.univ.filter fun j => w' j = w ⟨m1, hlt⟩) = {⟨m1, hn ▸ hlt⟩} := by
          ext j
          simp only [Finset.mem_filter, Finset.mem_univ, true_and, Finset.mem_singleton]
          constructor
          · intro hj
            rw [show j = ⟨j, j.2⟩ from rfl, hw' j j.2 (hn ▸ j.2)] at hj
            have := congrArg Fin.val (huniq _ hj)
            exact Fin.ext this
          · rintro rfl
            exact hw' _ _ _
        rw [hf1, hf2, Finset.sum_singleton, Finset.sum_singleton] at hg
        exact hg
      have hch := fun eps => openChannels_moved ν eps om (fun i => planeAbs (planes i)) (fun i => planeAbs (planes' i))
        fun j => by rw [hpl, planeAbs_neg]
      refine ⟨fun u => hch _, ?_, fun hg => ?_, hpow⟩
      · obtain ⟨-, q1, -⟩ := radOf_losses ijExact (slabStack e0 eN ls) Es b planes (e0, eN) om (colOf V m1) _ rfl _ rfl
        obtain ⟨-, q2, -⟩ := radOf_losses ijExact (slabStack e0 eN ls) Es' b' planes' (e0, eN) om (colOf V' m1) _ rfl _ rfl
        rw [q1, q2]
        refine exists_congr fun u => ?_
        have e : ∀ j, (planes' (ν j)).1 ^ 2 + (planes' (ν j)).2 ^ 2 = (planes j).1 ^ 2 + (planes j).2 ^ 2 := by
          intro j
          rw [hpl]
          simp
        constructor
        · rintro ⟨j, hj⟩
          exact ⟨ν.symm j, by rw [← e, ν.apply_symm_apply]; exact hj⟩
        · rintro ⟨j, hj⟩
          exact ⟨ν j, by rw [e]; exact hj⟩
      · have c1 := fun u pol => (radOf_regular ijExact (slabStack e0 eN ls) Es b planes om e0 eN ls h0 hN hg.2
          (colOf V m1) u pol).2
        have c2 := fun u pol => (radOf_regular ijExact (slabStack e0 eN ls) Es' b' planes' om e0 eN ls h0 hN
          (hg.2.neg ν hpl) (colOf V' m1) u pol).2
        have hs : ∀ pol, ∑ u, ∑ j : Fin N,
            (radOf ijExact (slabStack e0 eN ls) Es' b' planes' (e0, eN) om (colOf V' m1)).power u pol j =
            ∑ u, ∑ j : Fin N, (radOf ijExact (slabStack e0 eN ls) Es b planes (e0, eN) om (colOf V m1)).power u pol j := by
          intro pol
          rw [Finset.sum_comm, Finset.sum_comm (s := Finset.univ (α := Bool))]
          rw [← Equiv.sum_comp ν]
          exact Finset.sum_congr rfl fun j _ => hpow hg pol j
        have s1 := hs .te
        have s2 := hs .tm
        rw [Fintype.sum_bool, Fintype.sum_bool] at s1 s2
        rw [radOf_loss _ _ _ _ _ _ _ _ _ c1, radOf_loss _ _ _ _ _ _ _ _ _ c2, s1, s2]

end Legume
