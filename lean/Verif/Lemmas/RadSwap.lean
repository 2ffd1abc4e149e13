import Verif.Lemmas.RadReverseRun
import Verif.Props.RadIso

/-!
# Losses of two descriptions of one stack
-/
namespace Legume

open Spec Matrix
open scoped ComplexConjugate

/-- Results about one mode in two descriptions of a stack, the cladding `u` of the first being the cladding `sw u` of the
second: the same channels are open in corresponding claddings; for good modes the losses are the same, and so is the power
radiated through every cladding with each polarisation into every plane wave. -/
structure SwappedRad (N : ℕ) (sw : Bool → Bool) (good : Prop) (a a' : RadRes) : Prop where
  chan : ∀ u, a'.chan (sw u) = a.chan u
  finite : a'.loss = none ↔ a.loss = none
  loss : good → a'.loss = a.loss
  power : good → ∀ (u : Bool) (pol : Pol) (j : Fin N), a'.power (sw u) pol j = a.power u pol j

/-- Results at one wave vector: the same frequencies, and modes as in `SwappedRad`; for eigenvalues of several modes the
sums of the powers are the same, if all of them are stored. -/
structure SwappedModes {N : ℕ} (sw : Bool → Bool) (e0 eN : ℝ) (ls : List (ℝ × ℝ)) (planes : Fin N → R2) {n : ℕ}
    (w : Fin n → ℝ) (x x' : KRes × List RadRes) : Prop where
  freq : x'.1 = x.1
  len : x.2.length = x.1.freq.length
  len' : x'.2.length = x.1.freq.length
  mode : ∀ (p m : ℕ) (f : ℝ) (a a' : RadRes), x.1.idx[p]? = some m → x.1.freq[p]? = some f → x.2[p]? = some a →
    x'.2[p]? = some a' → SwappedRad N sw (SimpleMode w m ∧ RegularChannels (2 * Real.pi * f) e0 eN ls planes) a a'
  group : ∀ lam, (∀ m, w m = lam → (m : ℕ) ∈ x.1.idx) →
    RegularChannels (2 * Real.pi * freqOf lam) e0 eN ls planes → ∀ (u : Bool) (pol : Pol) (j : Fin N),
      groupSum w lam x' (fun a => a.power (sw u) pol j) = groupSum w lam x fun a => a.power u pol j

/-- The matrices of the expansion for two bases whose elements couple in the same way up to phases. -/
theorem gmeMatIj_phases (ij ij' : LPos → ℂ → ℂ) {N : ℕ} (stack stack' : List (LPos × ℝ))
    (Es Es' : List (Matrix (Fin N) (Fin N) ℂ)) (b b' : List (BasisEl N)) (hlen : b'.length = b.length) (d : ℕ → ℂ)
    (hd : ∀ i, d i * conj (d i) = 1)
    (hblk : ∀ (i : ℕ) (h : i < b.length) (h' : i < b'.length), b'[i].blk = b[i].blk)
    (helem : ∀ (i j : ℕ) (hi : i < b.length) (hj : j < b.length) (hi' : i < b'.length) (hj' : j < b'.length),
      gmeElem ij' stack' (Es'.map fun E => E b'[i].ig b'[j].ig) b'[i].st b'[j].st =
        d i * gmeElem ij stack (Es.map fun E => E b[i].ig b[j].ig) b[i].st b[j].st * conj (d j))
    (i j : Fin b'.length) :
    gmeMatIj ij' stack' Es' b' i j =
      d i * gmeMatIj ij stack Es b (finCongr hlen i) (finCongr hlen j) * conj (d j) := by
  have hb : (fun a => ((b'[a]?).map BasisEl.blk).getD 0) = fun (a : ℕ) => ((b[a]?).map BasisEl.blk).getD 0 := by
    funext a
    by_cases ha : a < b.length
    · rw [List.getElem?_eq_getElem ha, List.getElem?_eq_getElem (hlen ▸ ha)]
      simp only [Option.map_some, Option.getD_some]
      exact hblk a ha _
    · rw [List.getElem?_eq_none (by omega), List.getElem?_eq_none (by omega)]
  unfold gmeMatIj
  simp only [Matrix.of_apply, hb]
  refine completeMat_phases _ _ d hd b.length (fun p hp q hq => ?_) i j (hlen ▸ i.2) (hlen ▸ j.2)
  refine blockUpper_phases _ _ _ d b.length (fun p hp q hq => ?_) p q hp hq
  rw [List.getElem?_eq_getElem hp, List.getElem?_eq_getElem hq, List.getElem?_eq_getElem (hlen ▸ hp),
    List.getElem?_eq_getElem (hlen ▸ hq)]
  exact helem p q hp hq _ _

theorem moved_charpoly {n n' : ℕ} (e : Fin n' ≃ Fin n) (d : Fin n' → ℂ) (hd : ∀ i, d i * conj (d i) = 1)
    (M : Matrix (Fin n) (Fin n) ℂ) (M' : Matrix (Fin n') (Fin n') ℂ)
    (h : ∀ i j, M' i j = d i * M (e i) (e j) * conj (d j)) : (M' + 1).charpoly = (M + 1).charpoly := by
  rw [unit_phases_charpoly d hd (M.submatrix e e) M' h]
  have h1 : M.submatrix e e + 1 = Matrix.reindex e.symm e.symm (M + 1) := by
    ext i j
    by_cases hij : i = j
    · subst hij
      simp
    · have : e i ≠ e j := fun h => hij (e.injective h)
      simp [Matrix.one_apply_ne hij, Matrix.one_apply_ne this]
  rw [h1]
  exact Matrix.charpoly_reindex e.symm (M + 1)

/-- All modes at one wave vector. -/
theorem radAt_swapped {N : ℕ} (sw : Bool → Bool) (hsw : Function.Involutive sw) (argsort : List ℝ → List ℕ)
    (hsort : ∀ l, IsArgsort l (argsort l)) (eigh : ∀ n, Matrix (Fin n) (Fin n) ℂ → Fin n → ℝ)
    (vecs : ∀ n, Matrix (Fin n) (Fin n) ℂ → Matrix (Fin n) (Fin n) ℂ) (he : SortedEigh eigh) (hp : EighPair eigh vecs)
    (ij ij' : LPos → ℂ → ℂ) (e0 eN e0' eN' : ℝ) (ls ls' : List (ℝ × ℝ)) (h0 : 0 < e0) (hN : 0 < eN)
    (hclad : ∀ u, (if sw u then eN' else e0') = if u then eN else e0)
    (hsub : ∀ e ∈ slabEps e0' eN' ls', e ∈ slabEps e0 eN ls) (stack stack' : List (LPos × ℝ))
    (Es Es' : List (Matrix (Fin N) (Fin N) ℂ)) (b b' : List (BasisEl N)) (hlen : b'.length = b.length) (d : ℕ → ℂ)
    (hd : ∀ i, d i * conj (d i) = 1)
    (hblk : ∀ (i : ℕ) (h : i < b.length) (h' : i < b'.length), b'[i].blk = b[i].blk)
    (helem : ∀ (i j : ℕ) (hi : i < b.length) (hj : j < b.length) (hi' : i < b'.length) (hj' : j < b'.length),
      gmeElem ij' stack' (Es'.map fun E => E b'[i].ig b'[j].ig) b'[i].st b'[j].st =
        d i * gmeElem ij stack (Es.map fun E => E b[i].ig b[j].ig) b[i].st b[j].st * conj (d j))
    (planes : Fin N → R2)
    (hrad : ∀ om, RegularChannels om e0 eN ls planes → ∀ (pol : Pol) (u : Bool) (j : Fin N),
      planeAbs (planes j) ^ 2 ≤ (if u then eN else e0) * om ^ 2 → ∃ ζ : ℂ, ‖ζ‖ = 1 ∧ ∀ i < b.length,
        radElem ij' stack' Es' b' planes om pol (sw u) i j = ζ * d i * radElem ij stack Es b planes om pol u i j)
    (sigma : ℝ) (numeig : ℕ) :
    SameOutcome (SwappedModes sw e0 eN ls planes (eigh _ (gmeMatIj ij stack Es b + 1)))
      (radAt ij argsort stack Es b planes (e0, eN) (eigh _ (gmeMatIj ij stack Es b + 1))
        (vecs _ (gmeMatIj ij stack Es b + 1)) sigma numeig)
      (radAt ij' argsort stack' Es' b' planes (e0', eN') (eigh _ (gmeMatIj ij' stack' Es' b' + 1))
        (vecs _ (gmeMatIj ij' stack' Es' b' + 1)) sigma numeig) := by
  have hent := gmeMatIj_phases ij ij' stack stack' Es Es' b b' hlen d hd hblk helem
  have h := hp _ _ (gmeIj_hermitian ij stack Es b)
  have h' := hp _ _ (gmeIj_hermitian ij' stack' Es' b')
  have hcp := moved_charpoly (finCongr hlen) (fun i => d i) (fun i => hd i) (gmeMatIj ij stack Es b) (gmeMatIj ij' stack' Es' b')
    hent
  have hw := sortedEigh_eq he _ _ (gmeIj_hermitian ij' stack' Es' b') (gmeIj_hermitian ij stack Es b) hcp
  have hA : ∀ i j, (gmeMatIj ij' stack' Es' b' + 1) i j =
      d i * (gmeMatIj ij stack Es b + 1) (finCongr hlen i) (finCongr hlen j) * conj (d j) := by
    intro i j
    rw [Matrix.add_apply, Matrix.add_apply, hent]
    by_cases hij : i = j
    · subst hij
      rw [one_apply_eq, one_apply_eq]
      linear_combination -(hd i)
    · rw [one_apply_ne hij, one_apply_ne fun h => hij ((finCongr hlen).injective h)]
      simp
  generalize eigh _ (gmeMatIj ij stack Es b + 1) = w at *
  generalize eigh _ (gmeMatIj ij' stack' Es' b' + 1) = w' at *
  generalize vecs _ (gmeMatIj ij stack Es b + 1) = V at *
  generalize vecs _ (gmeMatIj ij' stack' Es' b' + 1) = V' at *
  have hreg' : ∀ om, RegularChannels om e0 eN ls planes → RegularChannels om e0' eN' ls' planes := by
    intro om hreg u j hj
    have hu := hclad (sw u)
    rw [hsw] at hu
    rw [hu] at hj
    obtain ⟨a1, a2⟩ := hreg (sw u) j hj
    exact ⟨a1, fun e he => a2 e (hsub e he)⟩
  have h0' : 0 < e0' ∧ 0 < eN' := by
    have hu := fun u => hclad (sw u)
    simp only [hsw _] at hu
    have hpos : ∀ u : Bool, 0 < if u then eN else e0 := by intro u; cases u <;> simpa
    have := hu true
    have h2 := hu false
    simp only [if_true, Bool.false_eq_true, if_false] at this h2
    exact ⟨h2 ▸ hpos _, this ▸ hpos _⟩
  -- powers of all modes of one eigenvalue
  have hgrp : ∀ (om : ℝ), RegularChannels om e0 eN ls planes → ∀ (lam : ℝ) (u : Bool) (pol : Pol) (j : Fin N),
      ∑ m with w' m = lam, (radOf ij' stack' Es' b' planes (e0', eN') om (colOf V' m)).power (sw u) pol j =
      ∑ m with w m = lam, (radOf ij stack Es b planes (e0, eN) om (colOf V m)).power u pol j := by
    intro om hreg lam u pol j
    have e1 := fun (m : Fin b.length) => (radOf_regular ij stack Es b planes om e0 eN ls h0 hN hreg (colOf V m) u pol).1 j
    have e2 := fun (m : Fin b'.length) => (radOf_regular ij' stack' Es' b' planes om e0' eN' ls' h0'.1 h0'.2
      (hreg' om hreg) (colOf V' m) (sw u) pol).1 j
    simp only [e1, e2, sum_colOf, hclad]
    rw [← Finset.mul_sum, ← Finset.mul_sum]
    by_cases ho : planeAbs (planes j) ^ 2 ≤ (if u then eN else e0) * om ^ 2
    · congr 1
      obtain ⟨ζ, hζ, hez⟩ := hrad om hreg pol u j ho
      exact eigh_moved_group (finCongr hlen) h h' (fun i => d i) (fun i => hd i) hA
        (fun i => radElem ij stack Es b planes om pol u i j) (fun i => radElem ij' stack' Es' b' planes om pol (sw u) i j)
        ζ hζ (fun i => hez i (hlen ▸ i.2)) lam
    · rw [chanRho, if_neg ho, zero_mul, zero_mul]
  cases hr : radAt ij argsort stack Es b planes (e0, eN) w V sigma numeig with
  | error e =>
    refine Or.inl ⟨e, rfl, ?_⟩
    rw [radAt_eq] at hr ⊢
    rw [hw]
    cases hs : solveFull argsort (List.ofFn w) sigma numeig with
    | error e' => rw [hs] at hr; exact hr
    | ok r =>
      rw [hs] at hr
      simp only at hr ⊢
      split_ifs at hr ⊢
      exact hr
  | ok x =>
    cases hr' : radAt ij' argsort stack' Es' b' planes (e0', eN') w' V' sigma numeig with
    | error e =>
      rw [radAt_eq] at hr hr'
      rw [hw] at hr'
      cases hs : solveFull argsort (List.ofFn w) sigma numeig with
      | error e' => rw [hs] at hr; cases hr
      | ok r =>
        rw [hs] at hr hr'
        simp only at hr hr'
        split_ifs at hr hr'
    | ok x' =>
      obtain ⟨a1, a2, a3⟩ := radAt_ok hr
      obtain ⟨b1, b2, b3⟩ := radAt_ok hr'
      rw [hw, a1] at b1
      have hx : x'.1 = x.1 := (Except.ok.inj b1).symm
      have hw' : ∀ m (h : m < b'.length) (h2 : m < b.length), w' ⟨m, h⟩ = w ⟨m, h2⟩ := by
        intro m h h2
        have := congrArg (fun l => l[m]?) hw
        simpa [List.getElem?_ofFn, h, h2] using this
      refine Or.inr ⟨x, x', rfl, rfl, hx, a2, by rw [b2, hx], ?_, ?_⟩
      swap
      · intro lam hall hreg u pol j
        have hall' : ∀ m, w' m = lam → (m : ℕ) ∈ x'.1.idx := by
          intro m hm
          rw [hx]
          exact hall ⟨m, hlen ▸ m.2⟩ (by rw [← hw' m m.2]; exact hm)
        rw [groupSum_congr hw, groupSum_eq hsort hr lam hall, groupSum_eq hsort hr' lam hall']
        exact hgrp _ hreg lam u pol j
      intro p m f a a' hm hf ha ha'
      obtain ⟨m1, f1, h1, h2, -, rfl⟩ := a3 p a ha
      obtain ⟨m2, f2, h3, h4, -, rfl⟩ := b3 p a' ha'
      rw [hx] at h3 h4
      obtain rfl := Option.some.inj (h1.symm.trans hm)
      obtain rfl := Option.some.inj (h1.symm.trans h3)
      obtain rfl := Option.some.inj (h2.symm.trans h4)
      obtain rfl := Option.some.inj (h2.symm.trans hf)
      set om := 2 * Real.pi * f1 with hom
      have hpow : SimpleMode w m1 ∧ RegularChannels om e0 eN ls planes → ∀ (u : Bool) (pol : Pol) (j : Fin N),
          (radOf ij' stack' Es' b' planes (e0', eN') om (colOf V' m1)).power (sw u) pol j =
          (radOf ij stack Es b planes (e0, eN) om (colOf V m1)).power u pol j := by
        rintro ⟨⟨hlt, huniq⟩, hreg⟩ u pol j
        have hg := hgrp om hreg (w ⟨m1, hlt⟩) u pol j
        have hf1 : (Finset.univ.filter fun j => w j = w ⟨m1, hlt⟩) = {⟨m1, hlt⟩} := by
          ext j
          simp only [Finset.mem_filter, Finset.mem_univ, true_and, Finset.mem_singleton]
          exact ⟨huniq j, fun hj => by rw [hj]⟩
        have hf2 : (Finset.univ.filter fun j => w' j = w ⟨m1, hlt⟩) = {⟨m1, hlen ▸ hlt⟩} := by
          ext j
          simp only [Finset.mem_filter, Finset.mem_univ, true_and, Finset.mem_singleton]
          constructor
          · intro hj
            rw [show j = ⟨j, j.2⟩ from rfl, hw' j j.2 (hlen ▸ j.2)] at hj
            have := congrArg Fin.val (huniq _ hj)
            exact Fin.ext this
          · rintro rfl
            exact hw' _ _ _
        rw [hf1, hf2, Finset.sum_singleton, Finset.sum_singleton] at hg
        exact hg
      have hcc : ∀ u : Bool, (if sw u = true then (e0', eN').2 else (e0', eN').1) = if u = true then (e0, eN).2 else (e0, eN).1 :=
        hclad
      refine ⟨fun u => ?_, ?_, fun hg => ?_, hpow⟩
      · simp only [radOf, radClad]
        rw [hclad u]
      · obtain ⟨-, q1, -⟩ := radOf_losses ij stack Es b planes (e0, eN) om (colOf V m1) _ rfl _ rfl
        obtain ⟨-, q2, -⟩ := radOf_losses ij' stack' Es' b' planes (e0', eN') om (colOf V' m1) _ rfl _ rfl
        rw [q1, q2]
        constructor
        · rintro ⟨u, j, hj⟩
          refine ⟨sw u, j, ?_⟩
          rw [← hcc (sw u), hsw]
          exact hj
        · rintro ⟨u, j, hj⟩
          refine ⟨sw u, j, ?_⟩
          rw [hcc u]
          exact hj
      · have c1 := fun u pol => (radOf_regular ij stack Es b planes om e0 eN ls h0 hN hg.2 (colOf V m1) u pol).2
        have c2 := fun u pol => (radOf_regular ij' stack' Es' b' planes om e0' eN' ls' h0'.1 h0'.2 (hreg' om hg.2)
          (colOf V' m1) u pol).2
        have hs : ∀ u pol, ∑ j : Fin N, (radOf ij' stack' Es' b' planes (e0', eN') om (colOf V' m1)).power (sw u) pol j =
            ∑ j : Fin N, (radOf ij stack Es b planes (e0, eN) om (colOf V m1)).power u pol j :=
          fun u pol => Finset.sum_congr rfl fun j _ => hpow hg u pol j
        rw [radOf_loss _ _ _ _ _ _ _ _ _ c1, radOf_loss _ _ _ _ _ _ _ _ _ c2]
        have hs' := fun u pol => hs (sw u) pol
        simp only [hsw _] at hs'
        simp only [hs']
        cases ht : sw true with
        | true =>
          have hf : sw false = false := by
            cases hf : sw false with
            | false => rfl
            | true => have := hsw false; rw [hf, ht] at this; cases this
          simp only [hf]
        | false =>
          have hf : sw false = true := by
            have := hsw true
            rwa [ht] at this
          simp only [hf]
          congr 2
          · congr 1; ring
          · congr 1; ring
          · congr 1; ring

end Legume
