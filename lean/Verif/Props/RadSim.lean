import Verif.Model.RadSim
import Verif.Props.Radiation
import Verif.Props.GmeBounds
import Verif.Props.GmeOrder
import Verif.Props.GmeInvariance
import Verif.Props.ExcWave

/-!
# Losses of whole guided-mode runs (C117)
-/
open Matrix
open scoped ComplexConjugate

namespace Legume

open Spec

/-! ### Eigenvectors of two matrices which differ by phases -/

theorem unitary_sum_sq {n : ℕ} {U : Matrix (Fin n) (Fin n) ℂ} (h : U * Uᴴ = 1) (y : Fin n → ℂ) :
    ∑ m, ‖(Uᴴ *ᵥ y) m‖ ^ 2 = ∑ m, ‖y m‖ ^ 2 := by
  have key : ∀ z : Fin n → ℂ, ((∑ m, ‖z m‖ ^ 2 : ℝ) : ℂ) = star z ⬝ᵥ z := by
    intro z
    rw [dotProduct, Complex.ofReal_sum]
    refine Finset.sum_congr rfl fun m _ => ?_
    rw [Pi.star_apply, RCLike.star_def, mul_comm, Complex.mul_conj, Complex.normSq_eq_norm_sq]
  have : ((∑ m, ‖(Uᴴ *ᵥ y) m‖ ^ 2 : ℝ) : ℂ) = ((∑ m, ‖y m‖ ^ 2 : ℝ) : ℂ) := by
    rw [key, key, star_mulVec, conjTranspose_conjTranspose, dotProduct_mulVec, vecMul_vecMul, h, vecMul_one]
  exact_mod_cast this

/-- The couplings of the modes with one eigenvalue, summed, do not change when the basis gets phases. -/
theorem eigh_phases_group {n : ℕ} {A A' V V' : Matrix (Fin n) (Fin n) ℂ} {w w' : Fin n → ℝ} (h : IsEigh A w V)
    (h' : IsEigh A' w' V') (d : Fin n → ℂ) (hd : ∀ i, d i * conj (d i) = 1)
    (hA : ∀ i j, A' i j = d i * A i j * conj (d j)) (e e' : Fin n → ℂ) (ζ : ℂ) (hζ : ‖ζ‖ = 1)
    (he : ∀ i, e' i = ζ * d i * e i) (x : ℝ) :
    ∑ m with w' m = x, ‖∑ i, e' i * conj (V' i m)‖ ^ 2 = ∑ m with w m = x, ‖∑ i, e i * conj (V i m)‖ ^ 2 := by
  set D := diagonal d with hD
  have hDD : D * Dᴴ = 1 := by
    rw [hD, diagonal_conjTranspose, diagonal_mul_diagonal, ← diagonal_one]
    congr 1; funext i; exact hd i
  have hDD' : Dᴴ * D = 1 := mul_eq_one_comm.1 hDD
  have hAD : A' = D * A * Dᴴ := by
    ext i j
    rw [hA, hD, diagonal_conjTranspose, mul_diagonal, diagonal_mul]
    rfl
  have hV : V * Vᴴ = 1 := mul_eq_one_comm.1 h.unitary
  have hV' : V' * V'ᴴ = 1 := mul_eq_one_comm.1 h'.unitary
  set U := Vᴴ * Dᴴ * V' with hU
  have hUU : U * Uᴴ = 1 := by
    rw [hU, conjTranspose_mul, conjTranspose_mul, conjTranspose_conjTranspose, conjTranspose_conjTranspose]
    calc Vᴴ * Dᴴ * V' * (V'ᴴ * (D * V)) = Vᴴ * Dᴴ * (V' * V'ᴴ) * (D * V) := by simp only [mul_assoc]
      _ = Vᴴ * (Dᴴ * D) * V := by rw [hV', mul_one]; simp only [mul_assoc]
      _ = 1 := by rw [hDD', mul_one, h.unitary]
  have hVA : Vᴴ * A = diagonal (fun i => (w i : ℂ)) * Vᴴ := by
    calc Vᴴ * A = Vᴴ * (A * V) * Vᴴ := by rw [mul_assoc, mul_assoc, hV, mul_one]
      _ = _ := by rw [h.eigen, ← mul_assoc, h.unitary, one_mul]
  have hint : diagonal (fun i => (w i : ℂ)) * U = U * diagonal (fun i => (w' i : ℂ)) := by
    have h1 : A * Dᴴ = Dᴴ * A' := by rw [hAD, ← mul_assoc, ← mul_assoc, hDD', one_mul]
    calc diagonal (fun i => (w i : ℂ)) * U = (diagonal (fun i => (w i : ℂ)) * Vᴴ) * Dᴴ * V' := by
          rw [hU]; simp only [mul_assoc]
      _ = Vᴴ * (A * Dᴴ) * V' := by rw [← hVA]; simp only [mul_assoc]
      _ = Vᴴ * Dᴴ * (A' * V') := by rw [h1]; simp only [mul_assoc]
      _ = _ := by rw [h'.eigen, hU]; simp only [mul_assoc]
  have hz : ∀ a m, U a m ≠ 0 → w a = w' m := by
    intro a m hne
    have := congrFun (congrFun hint a) m
    rw [diagonal_mul, mul_diagonal, mul_comm] at this
    exact_mod_cast mul_left_cancel₀ hne this
  set c : Fin n → ℂ := Vᴴ *ᵥ e with hc
  have hcm : ∀ m, ∑ i, e i * conj (V i m) = c m := by
    intro m
    rw [hc, mulVec, dotProduct]
    exact Finset.sum_congr rfl fun i _ => mul_comm _ _
  have hcm' : ∀ m, ∑ i, e' i * conj (V' i m) = ζ * (Uᴴ *ᵥ c) m := by
    intro m
    have h1 : Uᴴ *ᵥ c = V'ᴴ *ᵥ (D *ᵥ e) := by
      rw [hc, mulVec_mulVec, mulVec_mulVec, hU, conjTranspose_mul, conjTranspose_mul, conjTranspose_conjTranspose,
        conjTranspose_conjTranspose]
      congr 1
      simp only [mul_assoc, hV, mul_one]
    rw [h1, mulVec, dotProduct, Finset.mul_sum]
    refine Finset.sum_congr rfl fun i _ => ?_
    rw [he, hD, mulVec_diagonal, conjTranspose_apply, RCLike.star_def]
    ring
  set y : Fin n → ℂ := fun a => if w a = x then c a else 0 with hy
  have hUy : ∀ m, (Uᴴ *ᵥ y) m = if w' m = x then (Uᴴ *ᵥ c) m else 0 := by
    intro m
    rw [mulVec, dotProduct, mulVec, dotProduct]
    by_cases hm : w' m = x
    · rw [if_pos hm]
      refine Finset.sum_congr rfl fun a _ => ?_
      by_cases hu : U a m = 0
      · rw [conjTranspose_apply, hu]; simp
      · rw [hy]
        simp only
        rw [if_pos ((hz a m hu).trans hm)]
    · rw [if_neg hm]
      refine Finset.sum_eq_zero fun a _ => ?_
      by_cases hu : U a m = 0
      · rw [conjTranspose_apply, hu]; simp
      · rw [hy]
        simp only
        rw [if_neg fun hh => hm ((hz a m hu).symm.trans hh), mul_zero]
  have hs := unitary_sum_sq hUU y
  have h1 : ∑ m with w' m = x, ‖∑ i, e' i * conj (V' i m)‖ ^ 2 = ∑ m, ‖(Uᴴ *ᵥ y) m‖ ^ 2 := by
    rw [Finset.sum_filter]
    refine Finset.sum_congr rfl fun m _ => ?_
    rw [hUy, hcm', norm_mul, hζ, one_mul]
    split <;> simp
  have h2 : ∑ m with w m = x, ‖∑ i, e i * conj (V i m)‖ ^ 2 = ∑ m, ‖y m‖ ^ 2 := by
    rw [Finset.sum_filter]
    refine Finset.sum_congr rfl fun m _ => ?_
    rw [hcm, hy]
    simp only
    split <;> simp
  rw [h1, h2, hs]

/-- A mode whose eigenvalue no other mode has. -/
def SimpleMode {n : ℕ} (w : Fin n → ℝ) (m : ℕ) : Prop := ∃ h : m < n, ∀ j, w j = w ⟨m, h⟩ → j = ⟨m, h⟩

/-- A column of eigenvectors as the sums over basis and modes read it. -/
theorem sum_colOf {n : ℕ} (V : Matrix (Fin n) (Fin n) ℂ) (e : ℕ → ℂ) (m : Fin n) :
    ∑ i ∈ Finset.range n, e i * conj (colOf V m i) = ∑ i : Fin n, e i * conj (V i m) := by
  rw [Finset.sum_range]
  refine Finset.sum_congr rfl fun i _ => ?_
  rw [colOf, dif_pos ⟨i.2, m.2⟩]

/-- Coupling of a simple mode. -/
theorem eigh_phases_simple {n n' : ℕ} (hn : n' = n) {A V : Matrix (Fin n) (Fin n) ℂ}
    {A' V' : Matrix (Fin n') (Fin n') ℂ} {w : Fin n → ℝ} {w' : Fin n' → ℝ} (h : IsEigh A w V) (h' : IsEigh A' w' V')
    (hw : List.ofFn w' = List.ofFn w) (d : ℕ → ℂ) (hd : ∀ i < n, d i * conj (d i) = 1)
    (hA : ∀ i j : Fin n', A' i j = d i * A (i.cast hn) (j.cast hn) * conj (d j)) (e e' : ℕ → ℂ) (ζ : ℂ)
    (hζ : ‖ζ‖ = 1) (he : ∀ i < n, e' i = ζ * d i * e i) (m : ℕ) (hm : SimpleMode w m) :
    ‖∑ i ∈ Finset.range n', e' i * conj (colOf V' m i)‖ = ‖∑ i ∈ Finset.range n, e i * conj (colOf V m i)‖ := by
  subst hn
  obtain ⟨hlt, huniq⟩ := hm
  obtain rfl := List.ofFn_injective hw
  have hg := eigh_phases_group h h' (fun i => d i) (fun i => hd i i.2) hA (fun i => e i) (fun i => e' i) ζ hζ
    (fun i => he i i.2) (w' ⟨m, hlt⟩)
  have hf : (Finset.univ.filter fun j => w' j = w' ⟨m, hlt⟩) = {⟨m, hlt⟩} := by
    ext j
    simp only [Finset.mem_filter, Finset.mem_univ, true_and, Finset.mem_singleton]
    exact ⟨huniq j, fun hj => by rw [hj]⟩
  rw [hf, Finset.sum_singleton, Finset.sum_singleton] at hg
  have h1 := sum_colOf V e ⟨m, hlt⟩
  have h2 := sum_colOf V' e' ⟨m, hlt⟩
  simp only at h1 h2
  rw [h1, h2]
  exact (pow_left_inj₀ (norm_nonneg _) (norm_nonneg _) two_ne_zero).1 hg

/-! ### Losses depend on the absolute values of the couplings -/

/-- Absolute values of couplings. -/
noncomputable def coupAbs (l : Option (List ℂ)) : Option (List ℝ) := l.map (List.map norm)

theorem coupAbs_mapM {α : Type} (l : List α) (f f' : α → Option ℂ) (h : ∀ a ∈ l, (f a).map norm = (f' a).map norm) :
    coupAbs (l.mapM f) = coupAbs (l.mapM f') := by
  unfold coupAbs
  induction l with
  | nil => rfl
  | cons a l ih =>
    have h1 := h a List.mem_cons_self
    have h2 := ih fun b hb => h b (List.mem_cons_of_mem _ hb)
    rw [List.mapM_cons, List.mapM_cons]
    cases ha : f a with
    | none =>
      cases ha' : f' a with
      | none => rfl
      | some z => rw [ha, ha'] at h1; simp at h1
    | some z =>
      cases ha' : f' a with
      | none => rw [ha, ha'] at h1; simp at h1
      | some z' =>
        rw [ha, ha'] at h1
        simp only [Option.map_some, Option.some.injEq] at h1
        cases hl : l.mapM f with
        | none =>
          cases hl' : l.mapM f' with
          | none => rfl
          | some r => rw [hl, hl'] at h2; simp at h2
        | some r =>
          cases hl' : l.mapM f' with
          | none => rw [hl, hl'] at h2; simp at h2
          | some r' =>
            rw [hl, hl'] at h2
            simp only [Option.map_some, Option.some.injEq] at h2
            simp [h1, h2]

theorem sumSq_abs (l : List ℂ) : sumSq l = ((l.map norm).map fun x : ℝ => x ^ 2).sum := by
  unfold sumSq
  rw [List.map_map]
  rfl

/-- The losses by way of the absolute values. -/
theorem modeRad_abs (lo up : Clad) (omr : ℝ) (gk : List ℝ) (evec : ℕ → ℂ) :
    modeRad lo up omr gk evec =
      match coupAbs (lo.coup .te omr gk evec), coupAbs (up.coup .te omr gk evec), coupAbs (lo.coup .tm omr gk evec),
        coupAbs (up.coup .tm omr gk evec) with
      | some a, some b, some c, some d =>
        some ((a.map fun x : ℝ => x ^ 2).sum + (b.map fun x : ℝ => x ^ 2).sum,
          (c.map fun x : ℝ => x ^ 2).sum + (d.map fun x : ℝ => x ^ 2).sum)
      | _, _, _, _ => none := by
  unfold modeRad coupAbs
  cases lo.coup .te omr gk evec <;> cases up.coup .te omr gk evec <;> cases lo.coup .tm omr gk evec <;>
    cases up.coup .tm omr gk evec <;> simp [sumSq_abs]

/-- Exchanging the claddings. -/
theorem modeLoss_swap (lo up : Clad) (omr : ℝ) (gk : List ℝ) (evec : ℕ → ℂ) :
    modeLoss up lo omr gk evec = modeLoss lo up omr gk evec := by
  unfold modeLoss modeRad
  cases lo.coup .te omr gk evec <;> cases up.coup .te omr gk evec <;> cases lo.coup .tm omr gk evec <;>
    cases up.coup .tm omr gk evec <;> simp [add_comm]

/-- Coupling of one mode. -/
theorem radClad_coup (ij : LPos → ℂ → ℂ) {N : ℕ} (stack : List (LPos × ℝ)) (einv : List (Matrix (Fin N) (Fin N) ℂ))
    (basis : List (BasisEl N)) (planes : Fin N → R2) (omr eps : ℝ) (upper : Bool) (pol : Pol) (gk : List ℝ)
    (evec : ℕ → ℂ) :
    (radClad ij stack einv basis planes omr eps upper).coup pol omr gk evec =
      (openChannels eps omr gk).mapM fun j => (radDos eps omr (gk.getD j 0)).map fun d =>
        ((√(Real.pi * d) : ℝ) : ℂ) * ((match pol with | .te => -Complex.I | .tm => 1) *
          ∑ i ∈ Finset.range basis.length, radElem ij stack einv basis planes omr pol upper i j * conj (evec i)) := by
  unfold Clad.coup radClad
  congr 1
  funext j
  congr 1
  funext d
  cases pol <;> simp only [radC_eq, List.map_cons, List.map_nil, List.sum_cons, List.sum_nil, add_zero] <;>
    · congr 2
      refine Finset.sum_congr rfl fun i hi => ?_
      rw [flatCoup, if_pos (Finset.mem_range.1 hi)]

/-- Results about two modes: the same open channels and, for simple modes, the same losses and the same absolute values of
all couplings; the claddings correspond by `f`. -/
structure SameRad (f : Bool → Bool) (simple : Prop) (a a' : RadRes) : Prop where
  chan : ∀ u, a'.chan u = a.chan (f u)
  loss : simple → a'.loss = a.loss
  coup : simple → ∀ u pol, coupAbs (a'.coup u pol) = coupAbs (a.coup (f u) pol)

/-- Two modes whose couplings have the same absolute values. -/
theorem radOf_same (ij ij' : LPos → ℂ → ℂ) {N : ℕ} (stack stack' : List (LPos × ℝ))
    (einv einv' : List (Matrix (Fin N) (Fin N) ℂ)) (basis basis' : List (BasisEl N)) (planes : Fin N → R2)
    (f : Bool → Bool) (hf : f = id ∨ f = not) (clads clads' : ℝ × ℝ)
    (hc : ∀ u : Bool, (if u then clads'.2 else clads'.1) = if f u then clads.2 else clads.1) (omr : ℝ)
    (evec evec' : ℕ → ℂ) (simple : Prop)
    (h : simple → ∀ u pol, ∀ j < N,
      ‖∑ i ∈ Finset.range basis'.length, radElem ij' stack' einv' basis' planes omr pol u i j * conj (evec' i)‖ =
      ‖∑ i ∈ Finset.range basis.length, radElem ij stack einv basis planes omr pol (f u) i j * conj (evec i)‖) :
    SameRad f simple (radOf ij stack einv basis planes clads omr evec)
      (radOf ij' stack' einv' basis' planes clads' omr evec') := by
  have hcoup : simple → ∀ u pol, coupAbs ((radOf ij' stack' einv' basis' planes clads' omr evec').coup u pol) =
      coupAbs ((radOf ij stack einv basis planes clads omr evec).coup (f u) pol) := by
    intro hs u pol
    simp only [radOf, radClad_coup, hc]
    refine coupAbs_mapM _ _ _ fun j hj => ?_
    have hj' : j < N := by simpa using ((mem_openChannels _ _ _ _).1 hj).1
    cases radDos (if f u = true then clads.2 else clads.1) omr ((List.ofFn fun i => planeAbs (planes i)).getD j 0) with
    | none => rfl
    | some d => simp only [Option.map_some, norm_mul, h hs u pol j hj']
  refine ⟨fun u => ?_, fun hs => ?_, hcoup⟩
  · simp only [radOf, radClad, hc]
  · have hl : ∀ (lo up lo' up' : Clad) (gk : List ℝ), (∀ pol, coupAbs (lo'.coup pol omr gk evec') =
        coupAbs (lo.coup pol omr gk evec)) → (∀ pol, coupAbs (up'.coup pol omr gk evec') =
        coupAbs (up.coup pol omr gk evec)) → modeLoss lo' up' omr gk evec' = modeLoss lo up omr gk evec := by
      intro lo up lo' up' gk h1 h2
      unfold modeLoss
      rw [modeRad_abs, modeRad_abs, h1, h1, h2, h2]
    rcases hf with rfl | rfl
    · exact hl _ _ _ _ _ (hcoup hs false) (hcoup hs true)
    · refine (hl _ _ _ _ _ (hcoup hs false) (hcoup hs true)).trans ?_
      exact modeLoss_swap _ _ _ _ _

/-! ### All stored modes at one wave vector -/

/-- Two runs fail with the same error, or give related results. -/
def SameOutcome {α : Type} (R : α → α → Prop) (x x' : Except PyErr α) : Prop :=
  (∃ e, x = .error e ∧ x' = .error e) ∨ ∃ a a', x = .ok a ∧ x' = .ok a' ∧ R a a'

/-- Results at one wave vector: the same frequencies, and modes as in `SameRad`. -/
structure SameModes (f : Bool → Bool) {n : ℕ} (w : Fin n → ℝ) (x x' : KRes × List RadRes) : Prop where
  freq : x'.1 = x.1
  len : x.2.length = x.1.freq.length
  len' : x'.2.length = x.1.freq.length
  mode : ∀ (p m : ℕ) (a a' : RadRes), x.1.idx[p]? = some m → x.2[p]? = some a → x'.2[p]? = some a' →
    SameRad f (SimpleMode w m) a a'

theorem radAt_eq (ij : LPos → ℂ → ℂ) {N : ℕ} (argsort : List ℝ → List ℕ) (stack : List (LPos × ℝ))
    (einv : List (Matrix (Fin N) (Fin N) ℂ)) (basis : List (BasisEl N)) (planes : Fin N → R2) (clads : ℝ × ℝ)
    (w : Fin basis.length → ℝ) (V : Matrix (Fin basis.length) (Fin basis.length) ℂ) (sigma : ℝ) (numeig : ℕ) :
    radAt ij argsort stack einv basis planes clads w V sigma numeig =
      match solveFull argsort (List.ofFn w) sigma numeig with
      | .error e => .error e
      | .ok r => if numeig = 0 then .error .valueError else .ok (r, (r.idx.zip r.freq).map fun m =>
          radOf ij stack einv basis planes clads (2 * Real.pi * m.2) (colOf V m.1)) := by
  unfold radAt
  cases solveFull argsort (List.ofFn w) sigma numeig with
  | error e => rfl
  | ok r =>
    simp only [bind, Except.bind]
    by_cases h : numeig = 0
    · simp only [h, if_true]; rfl
    · simp only [h, if_false]; rfl

theorem solveFull_lengths {argsort : List ℝ → List ℕ} {w : List ℝ} {sigma : ℝ} {numeig : ℕ} {r : KRes}
    (h : solveFull argsort w sigma numeig = .ok r) : r.freq = r.idx.map fun i => (w.map freqOf).getD i 0 := by
  unfold solveFull at h
  split_ifs at h
  cases h
  rfl

/-- What is stored at one wave vector. -/
theorem radAt_ok {ij : LPos → ℂ → ℂ} {N : ℕ} {argsort : List ℝ → List ℕ} {stack : List (LPos × ℝ)}
    {einv : List (Matrix (Fin N) (Fin N) ℂ)} {basis : List (BasisEl N)} {planes : Fin N → R2} {clads : ℝ × ℝ}
    {w : Fin basis.length → ℝ} {V : Matrix (Fin basis.length) (Fin basis.length) ℂ} {sigma : ℝ} {numeig : ℕ}
    {x : KRes × List RadRes} (h : radAt ij argsort stack einv basis planes clads w V sigma numeig = .ok x) :
    solveFull argsort (List.ofFn w) sigma numeig = .ok x.1 ∧ x.2.length = x.1.freq.length ∧
    ∀ (p : ℕ) (a : RadRes), x.2[p]? = some a → ∃ m f, x.1.idx[p]? = some m ∧ x.1.freq[p]? = some f ∧
      f = ((List.ofFn w).map freqOf).getD m 0 ∧
      a = radOf ij stack einv basis planes clads (2 * Real.pi * f) (colOf V m) := by
  rw [radAt_eq] at h
  cases hr : solveFull argsort (List.ofFn w) sigma numeig with
  | error e => rw [hr] at h; cases h
  | ok r =>
    rw [hr] at h
    simp only at h
    split_ifs at h
    cases h
    have hl := solveFull_lengths hr
    refine ⟨rfl, by rw [List.length_map, List.length_zip, hl, List.length_map, min_self], ?_⟩
    intro p a ha
    rw [List.getElem?_map, Option.map_eq_some_iff] at ha
    obtain ⟨z, hz, rfl⟩ := ha
    obtain ⟨z1, z2⟩ := List.getElem?_zip_eq_some.1 hz
    refine ⟨z.1, z.2, z1, z2, ?_, rfl⟩
    rw [hl, List.getElem?_map, z1] at z2
    exact (Option.some.inj z2).symm

/-- Two problems whose matrices and couplings differ by phases. -/
theorem radAt_same (ij ij' : LPos → ℂ → ℂ) {N : ℕ} (argsort : List ℝ → List ℕ) (stack stack' : List (LPos × ℝ))
    (einv einv' : List (Matrix (Fin N) (Fin N) ℂ)) (basis basis' : List (BasisEl N)) (planes : Fin N → R2)
    (f : Bool → Bool) (hf : f = id ∨ f = not) (clads clads' : ℝ × ℝ)
    (hc : ∀ u : Bool, (if u then clads'.2 else clads'.1) = if f u then clads.2 else clads.1)
    (hn : basis'.length = basis.length) {A V : Matrix (Fin basis.length) (Fin basis.length) ℂ}
    {A' V' : Matrix (Fin basis'.length) (Fin basis'.length) ℂ} {w : Fin basis.length → ℝ}
    {w' : Fin basis'.length → ℝ} (h : IsEigh A w V) (h' : IsEigh A' w' V') (hw : List.ofFn w' = List.ofFn w)
    (d : ℕ → ℂ) (hd : ∀ i < basis.length, d i * conj (d i) = 1)
    (hA : ∀ i j : Fin basis'.length, A' i j = d i * A (i.cast hn) (j.cast hn) * conj (d j))
    (he : ∀ (omr : ℝ) (pol : Pol) (u : Bool), ∀ j < N, ∃ ζ : ℂ, ‖ζ‖ = 1 ∧ ∀ i < basis.length,
      radElem ij' stack' einv' basis' planes omr pol u i j =
        ζ * d i * radElem ij stack einv basis planes omr pol (f u) i j) (sigma : ℝ) (numeig : ℕ) :
    SameOutcome (SameModes f w) (radAt ij argsort stack einv basis planes clads w V sigma numeig)
      (radAt ij' argsort stack' einv' basis' planes clads' w' V' sigma numeig) := by
  cases hr : radAt ij argsort stack einv basis planes clads w V sigma numeig with
  | error e =>
    refine Or.inl ⟨e, rfl, ?_⟩
    rw [radAt_eq] at hr ⊢
    rw [hw]
    cases hs : solveFull argsort (List.ofFn w) sigma numeig with
    | error e' => rw [hs] at hr; exact hr
    | ok r =>
      rw [hs] at hr
      simp only at hr ⊢
      split_ifs at hr ⊢
      exact hr
  | ok x =>
    cases hr' : radAt ij' argsort stack' einv' basis' planes clads' w' V' sigma numeig with
    | error e =>
      rw [radAt_eq] at hr hr'
      rw [hw] at hr'
      cases hs : solveFull argsort (List.ofFn w) sigma numeig with
      | error e' => rw [hs] at hr; cases hr
      | ok r =>
        rw [hs] at hr hr'
        simp only at hr hr'
        split_ifs at hr hr'
    | ok x' =>
      obtain ⟨a1, a2, a3⟩ := radAt_ok hr
      obtain ⟨b1, b2, b3⟩ := radAt_ok hr'
      rw [hw, a1] at b1
      have hx : x'.1 = x.1 := (Except.ok.inj b1).symm
      refine Or.inr ⟨x, x', rfl, rfl, hx, a2, by rw [b2, hx], ?_⟩
      intro p m a a' hm ha ha'
      obtain ⟨m1, f1, h1, h2, -, rfl⟩ := a3 p a ha
      obtain ⟨m2, f2, h3, h4, -, rfl⟩ := b3 p a' ha'
      rw [hx] at h3 h4
      obtain rfl := Option.some.inj (h1.symm.trans hm)
      obtain rfl := Option.some.inj (h1.symm.trans h3)
      obtain rfl := Option.some.inj (h2.symm.trans h4)
      refine radOf_same ij ij' stack stack' einv einv' basis basis' planes f hf clads clads' hc _ _ _ _ ?_
      intro hs u pol j hj
      obtain ⟨ζ, hζ, hez⟩ := he (2 * Real.pi * f1) pol u j hj
      exact eigh_phases_simple hn h h' hw d hd hA _ _ ζ hζ hez m1 hs

/-! ### Whole runs -/

theorem mapM_range_same {α : Type} {n : ℕ} {R : ℕ → α → α → Prop} {f f' : ℕ → Except PyErr α}
    (h : ∀ ik < n, SameOutcome (R ik) (f ik) (f' ik)) :
    SameOutcome (fun xs ys => xs.length = n ∧ ys.length = n ∧ ∀ (ik : ℕ) (x y : α), xs[ik]? = some x →
      ys[ik]? = some y → R ik x y) ((List.range n).mapM f) ((List.range n).mapM f') := by
  have key : ∀ (l : List ℕ), (∀ ik ∈ l, SameOutcome (R ik) (f ik) (f' ik)) →
      SameOutcome (fun xs ys => xs.length = l.length ∧ ys.length = l.length ∧ ∀ (p ik : ℕ) (x y : α), l[p]? = some ik →
        xs[p]? = some x → ys[p]? = some y → R ik x y) (l.mapM f) (l.mapM f') := by
    intro l
    induction l with
    | nil => exact fun _ => Or.inr ⟨[], [], rfl, rfl, rfl, rfl, by simp⟩
    | cons a l ih =>
      intro hl
      simp only [List.mapM_cons, bind, Except.bind, pure, Except.pure]
      rcases hl a List.mem_cons_self with ⟨e, e1, e2⟩ | ⟨x, y, e1, e2, q⟩
      · exact Or.inl ⟨e, by rw [e1], by rw [e2]⟩
      · rw [e1, e2]
        rcases ih fun ik hik => hl ik (List.mem_cons_of_mem _ hik) with ⟨e, e1, e2⟩ | ⟨xs, ys, e1, e2, l1, l2, qs⟩
        · exact Or.inl ⟨e, by rw [e1], by rw [e2]⟩
        · refine Or.inr ⟨x :: xs, y :: ys, by rw [e1], by rw [e2], by simp [l1], by simp [l2], ?_⟩
          intro p ik u v h1 h2 h3
          cases p with
          | zero =>
            simp only [List.getElem?_cons_zero, Option.some.injEq] at h1 h2 h3
            subst h1 h2 h3
            exact q
          | succ p =>
            simp only [List.getElem?_cons_succ] at h1 h2 h3
            exact qs p ik u v h1 h2 h3
  rcases key (List.range n) fun ik hik => h ik (List.mem_range.1 hik) with h1 | ⟨xs, ys, h1, h2, l1, l2, q⟩
  · exact Or.inl h1
  · rw [List.length_range] at l1 l2
    refine Or.inr ⟨xs, ys, h1, h2, l1, l2, fun ik x y hx hy => ?_⟩
    have hik : ik < n := by
      rw [← l1]
      exact (List.getElem?_eq_some_iff.1 hx).1
    exact q ik ik x y (List.getElem?_range hik) hx hy

/-- With the integrals of the code this is `radSim`. -/
theorem radSimIj_layer : radSimIj ijLayer = radSim := rfl

/-- The stored results, wave vector by wave vector. -/
theorem radSimIj_ok {ij : LPos → ℂ → ℂ} {dgx : ℝ} {argsort : List ℝ → List ℕ}
    {eigh : ∀ n, Matrix (Fin n) (Fin n) ℂ → Fin n → ℝ}
    {vecs : ∀ n, Matrix (Fin n) (Fin n) ℂ → Matrix (Fin n) (Fin n) ℂ} {guided : GuidedSolver} {S : GmeStruct}
    {gmax : ℝ} {onlyG : Bool} {opt : String} {ks : List R2} {sigma : ℝ} {numeig : ℕ} {r : List (KRes × List RadRes)}
    (h : radSimIj ij dgx argsort eigh vecs guided S gmax onlyG opt ks sigma numeig = .ok r) :
    ∃ eff einv, S.layers.mapM (GmeLay.eff opt) = .ok eff ∧ S.layers.mapM (S.epsInv gmax onlyG) = .ok einv ∧
      r.length = ks.length ∧ ∀ (ik : ℕ) (x : KRes × List RadRes), r[ik]? = some x → ik < ks.length ∧
        ∃ basis, guided ((S.layers.map GmeLay.pos).zip eff) (S.gvec gmax) ks ik = .ok basis ∧
          radAt ij argsort ((S.layers.map GmeLay.pos).zip eff) einv basis
            (fun i => radPlane dgx (ks.getD ik 0) (S.gvec gmax)[i]) (cladAvgs S)
            (eigh _ (gmeMatIj ij ((S.layers.map GmeLay.pos).zip eff) einv basis + 1))
            (vecs _ (gmeMatIj ij ((S.layers.map GmeLay.pos).zip eff) einv basis + 1)) sigma numeig = .ok x := by
  unfold radSimIj at h
  obtain ⟨eff, h1, h⟩ := bind_ok h
  obtain ⟨einv, h2, h⟩ := bind_ok h
  obtain ⟨hlen, hget⟩ := mapM_ok _ _ _ h
  rw [List.length_range] at hlen
  refine ⟨eff, einv, h1, h2, hlen, fun ik x hx => ?_⟩
  have hik : ik < ks.length := by
    rw [← hlen]
    exact (List.getElem?_eq_some_iff.1 hx).1
  obtain ⟨y, hy, hf⟩ := hget ik ik (List.getElem?_range hik)
  obtain rfl := Option.some.inj (hx.symm.trans hy)
  obtain ⟨basis, h3, h4⟩ := bind_ok hf
  exact ⟨hik, basis, h3, h4⟩

/-- **C117 (frequencies).** Asking for the losses as well changes nothing about the real part: if at least one mode is
asked for, the frequencies, their order and every error are those of the run without losses. -/
theorem C117_frequencies (dgx : ℝ) (argsort : List ℝ → List ℕ) (eigh : ∀ n, Matrix (Fin n) (Fin n) ℂ → Fin n → ℝ)
    (vecs : ∀ n, Matrix (Fin n) (Fin n) ℂ → Matrix (Fin n) (Fin n) ℂ) (guided : GuidedSolver) (S : GmeStruct)
    (gmax : ℝ) (onlyG : Bool) (opt : String) (ks : List R2) (sigma : ℝ) (numeig : ℕ) (hn : numeig ≠ 0) :
    (radSim dgx argsort eigh vecs guided S gmax onlyG opt ks sigma numeig).map (List.map Prod.fst) =
      gmeSim argsort eigh guided S gmax onlyG opt ks sigma numeig := by
  unfold radSim gmeSim radSimIj gmeSimIj
  cases S.layers.mapM (GmeLay.eff opt) with
  | error e => rfl
  | ok eff =>
    simp only [bind, Except.bind]
    cases S.layers.mapM (S.epsInv gmax onlyG) with
    | error e => rfl
    | ok einv =>
      simp only
      have key : ∀ (l : List ℕ) (f : ℕ → Except PyErr (KRes × List RadRes)) (g : ℕ → Except PyErr KRes),
          (∀ ik, (f ik).map Prod.fst = g ik) → (l.mapM f).map (List.map Prod.fst) = l.mapM g := by
        intro l f g hfg
        induction l with
        | nil => rfl
        | cons a l ih =>
          rw [List.mapM_cons, List.mapM_cons, ← hfg a, ← ih]
          cases f a with
          | error e => rfl
          | ok y =>
            simp only [bind, Except.bind, Except.map]
            cases l.mapM f with
            | error e => rfl
            | ok ys => rfl
      refine key _ _ _ fun ik => ?_
      cases guided ((S.layers.map GmeLay.pos).zip eff) (S.gvec gmax) ks ik with
      | error e => rfl
      | ok basis =>
        simp only
        rw [radAt_eq]
        cases solveFull argsort (List.ofFn (eigh _ (gmeMatIj ijLayer ((S.layers.map GmeLay.pos).zip eff) einv basis + 1))) sigma
          numeig with
        | error e => rfl
        | ok r => simp only [if_neg hn]; rfl

/-- Permittivity of a cladding in the losses. -/
noncomputable def cladEps (S : GmeStruct) (u : Bool) : ℝ := if u then (cladAvgs S).2 else (cladAvgs S).1

theorem planeAbs_sq (p : R2) : planeAbs p ^ 2 = p.1 ^ 2 + p.2 ^ 2 := by
  unfold planeAbs
  exact Real.sq_sqrt (by positivity)

theorem coup_length {c : Clad} {pol : Pol} {omr : ℝ} {gk : List ℝ} {evec : ℕ → ℂ} {l : List ℂ}
    (h : c.coup pol omr gk evec = some l) : l.length = (openChannels c.eps omr gk).length := by
  rw [mapM_option_eq _ 0 _ _ h, List.length_map]

/-- Squared rate at which a mode of angular frequency `om` with loss `y` decays, as the sum of the squared couplings. -/
noncomputable def decayOf (om y : ℝ) : ℝ := 2 * (2 * Real.pi * y) * √(om ^ 2 + (2 * Real.pi * y) ^ 2)

/-- Losses of one mode. -/
theorem radOf_losses (ij : LPos → ℂ → ℂ) {N : ℕ} (stack : List (LPos × ℝ)) (einv : List (Matrix (Fin N) (Fin N) ℂ))
    (basis : List (BasisEl N)) (planes : Fin N → R2) (clads : ℝ × ℝ) (om : ℝ) (ev : ℕ → ℂ) (eps : Bool → ℝ)
    (heps : eps = fun u => if u then clads.2 else clads.1) (res : RadRes)
    (hres : res = radOf ij stack einv basis planes clads om ev) :
    (∀ (u : Bool) (j : ℕ), j ∈ res.chan u ↔ ∃ h : j < N,
        (planes ⟨j, h⟩).1 ^ 2 + (planes ⟨j, h⟩).2 ^ 2 ≤ eps u * om ^ 2) ∧
      (res.loss = none ↔ ∃ (u : Bool), ∃ j, (planes j).1 ^ 2 + (planes j).2 ^ 2 = eps u * om ^ 2) ∧
      (∀ l, res.loss = some l → 0 ≤ l.tot ∧ 0 ≤ l.te ∧ 0 ≤ l.tm ∧ l.te ≤ l.tot ∧ l.tm ≤ l.tot ∧ l.tot ≤ l.te + l.tm ∧
        0 ≤ unbalance l ∧ unbalance l ≤ 1 ∧
        ∃ c : Bool → Pol → List ℂ, (∀ u pol, res.coup u pol = some (c u pol) ∧ (c u pol).length = (res.chan u).length) ∧
          decayOf om l.te = sumSq (c false .te) + sumSq (c true .te) ∧
          decayOf om l.tm = sumSq (c false .tm) + sumSq (c true .tm) ∧
          decayOf om l.tot = decayOf om l.te + decayOf om l.tm) ∧
      ((∀ u, res.chan u = []) → res.loss = some ⟨0, 0, 0⟩) := by
  set gk := List.ofFn fun i : Fin N => planeAbs (planes i) with hgk
  have hgl : gk.length = N := by rw [hgk, List.length_ofFn]
  have hgv : ∀ (j : ℕ) (h : j < N), gk.getD j 0 ^ 2 = (planes ⟨j, h⟩).1 ^ 2 + (planes ⟨j, h⟩).2 ^ 2 := by
    intro j hj
    rw [List.getD_eq_getElem?_getD, hgk, List.getElem?_ofFn, dif_pos hj, Option.getD_some, planeAbs_sq]
  set lo := radClad ij stack einv basis planes om clads.1 false with hlo
  set up := radClad ij stack einv basis planes om clads.2 true with hup
  have e1 : res.loss = modeLoss lo up om gk ev := by rw [hres]; rfl
  have e2 : ∀ pol, res.coup false pol = lo.coup pol om gk ev := by rw [hres]; exact fun _ => rfl
  have e3 : ∀ pol, res.coup true pol = up.coup pol om gk ev := by rw [hres]; exact fun _ => rfl
  have e4 : ∀ u, res.chan u = openChannels (eps u) om gk := by
    intro u; rw [hres, heps]; cases u <;> rfl
  have f1 : lo.eps = eps false := by rw [heps]; rfl
  have f2 : up.eps = eps true := by rw [heps]; rfl
  clear_value lo up
  clear hres heps hlo hup
  have eline : ∀ u, OnLightLine (eps u) om gk ↔
      ∃ j, (planes j).1 ^ 2 + (planes j).2 ^ 2 = eps u * om ^ 2 := by
    intro u
    constructor
    · rintro ⟨j, hj, he⟩
      rw [hgl] at hj
      exact ⟨⟨j, hj⟩, by rw [← hgv j hj]; exact he⟩
    · rintro ⟨j, he⟩
      exact ⟨j, by rw [hgl]; exact j.2, (hgv j j.2).trans he⟩
  have hnone : res.loss = none ↔ ∃ u, OnLightLine (eps u) om gk := by
    rw [e1, C33_light_line, f1, f2]
    exact ⟨fun h => h.elim (fun h => ⟨false, h⟩) fun h => ⟨true, h⟩,
      fun ⟨u, h⟩ => by cases u; exacts [Or.inl h, Or.inr h]⟩
  refine ⟨fun u j => ?_, ?_, fun l hl' => ?_, fun hz => ?_⟩
  · rw [e4, mem_openChannels, hgl]
    exact ⟨fun ⟨hj, he⟩ => ⟨hj, by rwa [← hgv j hj]⟩, fun ⟨hj, he⟩ => ⟨hj, by rwa [hgv j hj]⟩⟩
  · rw [hnone]
    exact exists_congr fun u => eline u
  · rw [e1] at hl'
    obtain ⟨a1, a2, a3, a4, a5, a6⟩ := C33_nonneg_partial lo up om gk ev l hl'
    obtain ⟨b1, b2, -⟩ := C34_fraction lo up om gk ev l hl'
    refine ⟨a1, a2, a3, a4, a5, a6, b1, b2, ?_⟩
    have hno : ∀ u, ¬ OnLightLine (eps u) om gk := by
      intro u hu
      have := hnone.2 ⟨u, hu⟩
      rw [e1, hl'] at this
      cases this
    have hc : ∀ u pol, ∃ c, res.coup u pol = some c ∧ c.length = (res.chan u).length := by
      intro u pol
      cases u
      · obtain ⟨c, hc⟩ := Option.ne_none_iff_exists'.1 ((not_congr (coup_finite lo pol om gk ev)).2 (f1 ▸ hno false))
        exact ⟨c, by rw [e2, hc], by rw [e4, coup_length hc, f1]⟩
      · obtain ⟨c, hc⟩ := Option.ne_none_iff_exists'.1 ((not_congr (coup_finite up pol om gk ev)).2 (f2 ▸ hno true))
        exact ⟨c, by rw [e3, hc], by rw [e4, coup_length hc, f2]⟩
    choose c hc1 hc2 using hc
    have hrad : modeRad lo up om gk ev = some (sumSq (c false .te) + sumSq (c true .te),
        sumSq (c false .tm) + sumSq (c true .tm)) := by
      unfold modeRad
      rw [← e2, ← e2, ← e3, ← e3, hc1, hc1, hc1, hc1]
    unfold modeLoss at hl'
    rw [hrad] at hl'
    simp only [Option.map_some, Option.some.injEq] at hl'
    subst hl'
    have n1 : 0 ≤ sumSq (c false .te) + sumSq (c true .te) := add_nonneg (sumSq_nonneg _) (sumSq_nonneg _)
    have n2 : 0 ≤ sumSq (c false .tm) + sumSq (c true .tm) := add_nonneg (sumSq_nonneg _) (sumSq_nonneg _)
    have d1 := (loss_equation om _ n1).2
    have d2 := (loss_equation om _ n2).2
    have d3 := (loss_equation om _ (add_nonneg n1 n2)).2
    refine ⟨c, fun u pol => ⟨hc1 u pol, hc2 u pol⟩, d1, d2, ?_⟩
    unfold decayOf
    simp only
    rw [d1, d2, d3]
  · rw [e1]
    refine C33_guided lo up om gk ev fun g hg => ?_
    obtain ⟨j, hj, rfl⟩ := List.mem_iff_getElem.1 hg
    have hj2 : gk.getD j 0 = gk[j] := by
      rw [List.getD_eq_getElem?_getD, List.getElem?_eq_getElem hj]; rfl
    have key : ∀ u, eps u * om ^ 2 < gk[j] ^ 2 := by
      intro u
      by_contra hcon
      have : j ∈ res.chan u := by
        rw [e4, mem_openChannels, hj2]
        exact ⟨hj, not_lt.1 hcon⟩
      rw [hz u] at this
      cases this
    rw [f1, f2]
    exact ⟨key false, key true⟩

/-- **C117 (losses).** For every structure, truncation, basis of guided modes and eigenvectors: at every wave vector the
run stores one loss per frequency. The channels of a mode are exactly the plane waves within the light cone of the cladding
at its frequency. The loss is not a number exactly when a plane wave lies on a light line. Otherwise the losses are
non-negative, the parts do not exceed the total nor the total their sum, there is one coupling per channel, cladding and
polarisation, the squared couplings of each polarisation add up to its loss, and those of both to the total. Without
channels the losses are zero. -/
theorem C117_losses (dgx : ℝ) (argsort : List ℝ → List ℕ) (eigh : ∀ n, Matrix (Fin n) (Fin n) ℂ → Fin n → ℝ)
    (vecs : ∀ n, Matrix (Fin n) (Fin n) ℂ → Matrix (Fin n) (Fin n) ℂ) (guided : GuidedSolver) (S : GmeStruct)
    (gmax : ℝ) (onlyG : Bool) (opt : String) (ks : List R2) (sigma : ℝ) (numeig : ℕ) (r : List (KRes × List RadRes))
    (hrun : radSim dgx argsort eigh vecs guided S gmax onlyG opt ks sigma numeig = .ok r) :
    r.length = ks.length ∧ ∀ (ik : ℕ) (k : R2) (x : KRes × List RadRes), ks[ik]? = some k → r[ik]? = some x →
    x.2.length = x.1.freq.length ∧ ∀ (p : ℕ) (f : ℝ) (a : RadRes), x.1.freq[p]? = some f → x.2[p]? = some a →
      (∀ (u : Bool) (j : ℕ), j ∈ a.chan u ↔ ∃ g, (S.gvec gmax)[j]? = some g ∧
        (g.1 + k.1 + dgx) ^ 2 + (g.2 + k.2) ^ 2 ≤ cladEps S u * (2 * Real.pi * f) ^ 2) ∧
      (a.loss = none ↔ ∃ (u : Bool), ∃ g ∈ S.gvec gmax,
        (g.1 + k.1 + dgx) ^ 2 + (g.2 + k.2) ^ 2 = cladEps S u * (2 * Real.pi * f) ^ 2) ∧
      (∀ l, a.loss = some l → 0 ≤ l.tot ∧ 0 ≤ l.te ∧ 0 ≤ l.tm ∧ l.te ≤ l.tot ∧ l.tm ≤ l.tot ∧ l.tot ≤ l.te + l.tm ∧
        0 ≤ unbalance l ∧ unbalance l ≤ 1 ∧
        ∃ c : Bool → Pol → List ℂ, (∀ u pol, a.coup u pol = some (c u pol) ∧ (c u pol).length = (a.chan u).length) ∧
          decayOf (2 * Real.pi * f) l.te = sumSq (c false .te) + sumSq (c true .te) ∧
          decayOf (2 * Real.pi * f) l.tm = sumSq (c false .tm) + sumSq (c true .tm) ∧
          decayOf (2 * Real.pi * f) l.tot = decayOf (2 * Real.pi * f) l.te + decayOf (2 * Real.pi * f) l.tm) ∧
      ((∀ u, a.chan u = []) → a.loss = some ⟨0, 0, 0⟩) := by
  rw [← radSimIj_layer] at hrun
  obtain ⟨eff, einv, -, -, hlen, hget⟩ := radSimIj_ok hrun
  refine ⟨hlen, fun ik k x hk hx => ?_⟩
  obtain ⟨hik, basis, -, hat⟩ := hget ik x hx
  obtain ⟨-, hl, hm⟩ := radAt_ok hat
  refine ⟨hl, fun p f a hf ha => ?_⟩
  obtain ⟨m, f', h1, h2, -, ha'⟩ := hm p a ha
  obtain rfl := Option.some.inj (h2.symm.trans hf)
  have hkd : ks.getD ik 0 = k := by rw [List.getD_eq_getElem?_getD, hk]; rfl
  rw [hkd] at ha'
  obtain ⟨c1, c2, c3, c4⟩ := radOf_losses _ _ _ _ _ _ _ _ (cladEps S) (by funext u; rfl) a ha'
  refine ⟨fun u j => ?_, ?_, c3, c4⟩
  · rw [c1]
    constructor
    · rintro ⟨hj, he⟩
      exact ⟨_, List.getElem?_eq_getElem hj, he⟩
    · rintro ⟨g, hg, he⟩
      obtain ⟨hj, rfl⟩ := List.getElem?_eq_some_iff.1 hg
      exact ⟨hj, he⟩
  · rw [c2]
    refine exists_congr fun u => ?_
    constructor
    · rintro ⟨j, he⟩
      exact ⟨_, List.getElem_mem j.2, he⟩
    · rintro ⟨g, hg, he⟩
      obtain ⟨j, hj, rfl⟩ := List.mem_iff_getElem.1 hg
      exact ⟨⟨j, hj⟩, he⟩

/-! ### Displaced structures -/

/-- Results of two runs over the same wave vectors, where the first is of the structure `S`. -/
def SameRun (f : Bool → Bool) (eigh : ∀ n, Matrix (Fin n) (Fin n) ℂ → Fin n → ℝ) (guided : GuidedSolver) (S : GmeStruct)
    (gmax : ℝ) (onlyG : Bool) (opt : String) (ks : List R2) (r r' : List (KRes × List RadRes)) : Prop :=
  r.length = ks.length ∧ r'.length = ks.length ∧ ∀ (ik : ℕ) (x x' : KRes × List RadRes), r[ik]? = some x →
    r'[ik]? = some x' → ∃ eff einv basis, S.layers.mapM (GmeLay.eff opt) = .ok eff ∧
      S.layers.mapM (S.epsInv gmax onlyG) = .ok einv ∧
      guided ((S.layers.map GmeLay.pos).zip eff) (S.gvec gmax) ks ik = .ok basis ∧
      SameModes f (eigh _ (gmeMat ((S.layers.map GmeLay.pos).zip eff) einv basis + 1)) x x'

/-- Couplings of two problems which differ by phases of the plane waves. -/
theorem radElem_phases (ij : LPos → ℂ → ℂ) {N : ℕ} (stack : List (LPos × ℝ)) (Es Es' : List (Matrix (Fin N) (Fin N) ℂ))
    (D : Fin N → ℂ) (hq : List.Forall₂ (fun E E' : Matrix (Fin N) (Fin N) ℂ =>
      ∀ i j, E' i j = D i * E i j * (starRingEnd ℂ) (D j)) Es Es') (basis : List (BasisEl N)) (planes : Fin N → R2)
    (omr : ℝ) (pol : Pol) (u : Bool) (i j : ℕ) (hi : i < basis.length) (hj : j < N) :
    radElem ij stack Es' basis planes omr pol u i j =
      conj (D ⟨j, hj⟩) * D (basis[i]).ig * radElem ij stack Es basis planes omr pol u i j := by
  unfold radElem
  rw [dif_pos hj, dif_pos hj, List.getElem?_eq_getElem hi]
  cases radState pol u omr stack (planes ⟨j, hj⟩) with
  | error e => simp
  | ok t =>
    simp only
    rw [← gmeElem_smul, List.map_map]
    congr 1
    induction hq with
    | nil => rfl
    | cons hq1 _ ih =>
      simp only [List.map_cons, Function.comp_apply, ih, hq1]
      congr 1
      ring

theorem radSim_phases (dgx : ℝ) (argsort : List ℝ → List ℕ) (eigh : ∀ n, Matrix (Fin n) (Fin n) ℂ → Fin n → ℝ)
    (vecs : ∀ n, Matrix (Fin n) (Fin n) ℂ → Matrix (Fin n) (Fin n) ℂ) (he : SortedEigh eigh) (hp : EighPair eigh vecs)
    (guided : GuidedSolver) (S : GmeStruct) (layers' : List GmeLay) (d : ℤ × ℤ → ℂ)
    (hd : ∀ i, d i * (starRingEnd ℂ) (d i) = 1)
    (hl : List.Forall₂ (fun l l' : GmeLay => l'.pos = l.pos ∧ l'.epsB = l.epsB ∧ l'.epsAvg = l.epsAvg ∧
      l'.epsEff = l.epsEff ∧ (∀ s ∈ l.shapes, RealShape s) ∧ (∀ s ∈ l'.shapes, RealShape s) ∧
      ∀ i j : ℤ × ℤ, S.ft l' (gOf S.b1 S.b2 (j.1 - i.1, j.2 - i.2)) =
        d i * S.ft l (gOf S.b1 S.b2 (j.1 - i.1, j.2 - i.2)) * (starRingEnd ℂ) (d j)) S.layers layers')
    (gmax : ℝ) (onlyG : Bool) (opt : String) (ks : List R2) (sigma : ℝ) (numeig : ℕ) :
    SameOutcome (SameRun id eigh guided S gmax onlyG opt ks)
      (radSim dgx argsort eigh vecs guided S gmax onlyG opt ks sigma numeig)
      (radSim dgx argsort eigh vecs guided { S with layers := layers' } gmax onlyG opt ks sigma numeig) := by
  obtain ⟨hpos, heff, D, hD, hE⟩ := epsInvs_phases S layers' d hd hl gmax onlyG opt
  have havg : layers'.map GmeLay.epsAvg = S.layers.map GmeLay.epsAvg := by
    clear hE
    generalize S.layers = ls at hl
    clear heff hpos
    induction hl with
    | nil => rfl
    | cons h _ ih => simp only [List.map_cons, h.2.2.1, ih]
  set S' : GmeStruct := { S with layers := layers' } with hS'
  have hcl : cladAvgs S' = cladAvgs S := by
    unfold cladAvgs
    rw [← List.head?_map, ← List.getLast?_map, ← List.head?_map, ← List.getLast?_map, ← havg]
  have u1 : radSim dgx argsort eigh vecs guided S' gmax onlyG opt ks sigma numeig = (do
    let eff ← layers'.mapM (GmeLay.eff opt)
    let stack := (layers'.map GmeLay.pos).zip eff
    let einv ← layers'.mapM (S'.epsInv gmax onlyG)
    (List.range ks.length).mapM fun (ik : ℕ) => do
      let basis ← guided stack (S.gvec gmax) ks ik
      let M := gmeMat stack einv basis + 1
      radAt ijLayer argsort stack einv basis (fun i => radPlane dgx (ks.getD ik 0) (S.gvec gmax)[i]) (cladAvgs S')
        (eigh _ M) (vecs _ M) sigma numeig) := rfl
  have u2 : radSim dgx argsort eigh vecs guided S gmax onlyG opt ks sigma numeig = (do
    let eff ← S.layers.mapM (GmeLay.eff opt)
    let stack := (S.layers.map GmeLay.pos).zip eff
    let einv ← S.layers.mapM (S.epsInv gmax onlyG)
    (List.range ks.length).mapM fun (ik : ℕ) => do
      let basis ← guided stack (S.gvec gmax) ks ik
      let M := gmeMat stack einv basis + 1
      radAt ijLayer argsort stack einv basis (fun i => radPlane dgx (ks.getD ik 0) (S.gvec gmax)[i]) (cladAvgs S)
        (eigh _ M) (vecs _ M) sigma numeig) := rfl
  rw [u1, u2, heff, hpos, hcl]
  cases heff0 : S.layers.mapM (GmeLay.eff opt) with
  | error e => exact Or.inl ⟨e, rfl, rfl⟩
  | ok eff =>
    simp only [bind, Except.bind]
    rcases hE with ⟨e, h1, h2⟩ | ⟨Es, Es', h1, h2, hq⟩
    · rw [h1, h2]
      exact Or.inl ⟨e, rfl, rfl⟩
    · rw [h1, h2]
      simp only
      unfold SameRun
      refine mapM_range_same (n := ks.length)
        (R := fun ik x x' => ∃ eff einv basis, S.layers.mapM (GmeLay.eff opt) = .ok eff ∧
          S.layers.mapM (S.epsInv gmax onlyG) = .ok einv ∧
          guided ((S.layers.map GmeLay.pos).zip eff) (S.gvec gmax) ks ik = .ok basis ∧
          SameModes id (eigh _ (gmeMat ((S.layers.map GmeLay.pos).zip eff) einv basis + 1)) x x') ?_
      · intro ik _
        cases hb : guided ((S.layers.map GmeLay.pos).zip eff) (S.gvec gmax) ks ik with
        | error e => exact Or.inl ⟨e, rfl, rfl⟩
        | ok basis =>
          simp only
          set dd : ℕ → ℂ := fun a => match basis[a]? with | some s => D s.ig | none => 1 with hdd
          have hval : ∀ a (ha : a < basis.length), dd a = D (basis[a]).ig := by
            intro a ha
            simp [hdd, ha]
          have hent := gmeMat_phases_entry ((S.layers.map GmeLay.pos).zip eff) Es Es' D hD hq basis
          have hsame := radAt_same ijLayer ijLayer argsort ((S.layers.map GmeLay.pos).zip eff)
            ((S.layers.map GmeLay.pos).zip eff) Es Es' basis basis
            (fun i => radPlane dgx (ks.getD ik 0) (S.gvec gmax)[i]) id (Or.inl rfl) (cladAvgs S) (cladAvgs S)
            (fun _ => rfl) rfl (hp _ _ (gmeMat_hermitian ((S.layers.map GmeLay.pos).zip eff) Es basis))
            (hp _ _ (gmeMat_hermitian ((S.layers.map GmeLay.pos).zip eff) Es' basis))
            (sortedEigh_eq he _ _ (gmeMat_hermitian _ _ _) (gmeMat_hermitian _ _ _)
              (gmeMat_phases _ Es Es' D hD hq basis)) dd
            (fun a ha => by rw [hval a ha]; exact hD _) ?_ ?_ sigma numeig
          · rcases hsame with h | ⟨x, x', h3, h4, h5⟩
            · exact Or.inl h
            · exact Or.inr ⟨x, x', h3, h4, eff, Es, basis, heff0, h1, hb, h5⟩
          · intro i j
            rw [hval i i.2, hval j j.2, Matrix.add_apply, hent]
            by_cases hij : i = j
            · subst hij
              simp only [Fin.cast_eq_self, Matrix.add_apply, one_apply_eq]
              linear_combination -(hD (basis[i]).ig)
            · simp [Matrix.add_apply, one_apply_ne hij]
          · intro omr pol u j hj
            refine ⟨conj (D ⟨j, hj⟩), ?_, fun i hi => ?_⟩
            · have := congrArg norm (hD ⟨j, hj⟩)
              rw [norm_mul, RCLike.norm_conj, norm_one] at this
              rw [RCLike.norm_conj]
              nlinarith [norm_nonneg (D ⟨j, hj⟩)]
            · rw [hval i hi]
              exact radElem_phases ijLayer _ Es Es' D hq basis _ omr pol u i j hi hj

/-- **C117 (displacement).** Displacing the shapes of all layers and claddings by the same in-plane vector: the run fails
with the same error, or it stores the same frequencies and the same open channels, and every mode whose eigenvalue no other
mode at that wave vector has keeps its losses and the absolute values of all its couplings. (The eigenvectors of modes with
the same eigenvalue are the choice of the eigensolver.) -/
theorem C117_displacement (dgx : ℝ) (argsort : List ℝ → List ℕ) (eigh : ∀ n, Matrix (Fin n) (Fin n) ℂ → Fin n → ℝ)
    (vecs : ∀ n, Matrix (Fin n) (Fin n) ℂ → Matrix (Fin n) (Fin n) ℂ) (he : SortedEigh eigh) (hp : EighPair eigh vecs)
    (guided : GuidedSolver) (S : GmeStruct) (hS : Resolved S.b1 S.b2) (t : R2) (layers' : List GmeLay)
    (hl : List.Forall₂ (fun l l' : GmeLay => ∃ shapes', l' = { l with shapes := shapes' } ∧
      (∀ s ∈ l.shapes, RealShape s) ∧ (∀ s ∈ shapes', RealShape s) ∧
      List.Forall₂ (Displaced t) l.shapes shapes') S.layers layers')
    (gmax : ℝ) (onlyG : Bool) (opt : String) (ks : List R2) (sigma : ℝ) (numeig : ℕ) :
    SameOutcome (SameRun id eigh guided S gmax onlyG opt ks)
      (radSim dgx argsort eigh vecs guided S gmax onlyG opt ks sigma numeig)
      (radSim dgx argsort eigh vecs guided { S with layers := layers' } gmax onlyG opt ks sigma numeig) := by
  refine radSim_phases dgx argsort eigh vecs he hp guided S layers'
    (fun i => Complex.exp (Complex.I * ((gOf S.b1 S.b2 i).1 * t.1 + (gOf S.b1 S.b2 i).2 * t.2))) ?_ ?_ gmax onlyG opt
    ks sigma numeig
  · intro i
    rw [← Complex.exp_conj, ← Complex.exp_add]
    simp
  · exact displaced_phases S hS t layers' hl

/-- **C117 (order and lattice periods).** The same holds for changes which leave the transforms of the layers at all
reciprocal lattice vectors as they are: another order of the shapes, additional shapes of the background permittivity,
shapes moved by lattice vectors. -/
theorem C117_same_transform (dgx : ℝ) (argsort : List ℝ → List ℕ) (eigh : ∀ n, Matrix (Fin n) (Fin n) ℂ → Fin n → ℝ)
    (vecs : ∀ n, Matrix (Fin n) (Fin n) ℂ → Matrix (Fin n) (Fin n) ℂ) (he : SortedEigh eigh) (hp : EighPair eigh vecs)
    (guided : GuidedSolver) (S : GmeStruct) (layers' : List GmeLay)
    (hl : List.Forall₂ (fun l l' : GmeLay => ∃ shapes', l' = { l with shapes := shapes' } ∧
      (∀ s ∈ l.shapes, RealShape s) ∧ (∀ s ∈ shapes', RealShape s) ∧
      ∀ i : ℤ × ℤ, i ≠ (0, 0) →
        (shapes'.map fun s => ((s.eps : ℂ) - l.epsB) * s.ft (gOf S.b1 S.b2 i)).sum =
          (l.shapes.map fun s => ((s.eps : ℂ) - l.epsB) * s.ft (gOf S.b1 S.b2 i)).sum) S.layers layers')
    (gmax : ℝ) (onlyG : Bool) (opt : String) (ks : List R2) (sigma : ℝ) (numeig : ℕ) :
    SameOutcome (SameRun id eigh guided S gmax onlyG opt ks)
      (radSim dgx argsort eigh vecs guided S gmax onlyG opt ks sigma numeig)
      (radSim dgx argsort eigh vecs guided { S with layers := layers' } gmax onlyG opt ks sigma numeig) :=
  radSim_phases dgx argsort eigh vecs he hp guided S layers' (fun _ => 1) (by simp)
    (same_transform_phases S layers' hl) gmax onlyG opt ks sigma numeig

/-! ### Examples -/

theorem sortedPair_exists : ∃ eigh vecs, SortedEigh eigh ∧ EighPair eigh vecs := by
  classical
  obtain ⟨eigh, he⟩ := sortedEigh_exists
  have he' : ∀ (n : ℕ) (A : Matrix (Fin n) (Fin n) ℂ), A.IsHermitian → ∃ V, IsEigh A (eigh n A) V := he.1
  refine ⟨eigh, fun n A => if h : A.IsHermitian then (he' n A h).choose else 1, he, fun n A h => ?_⟩
  simp only [dif_pos h]
  exact (he' n A h).choose_spec

/-- A slab with a circular and a triangular hole. -/
example (J : ℝ → ℝ) (argsort : List ℝ → List ℕ) : ∃ eigh vecs, ∀ (guided : GuidedSolver) (t k : R2),
    SameOutcome (SameRun id eigh guided ⟨(2 * Real.pi, 0), (0, 2 * Real.pi), 1, [⟨.lower, 1, 1, none, []⟩,
        ⟨.inner 0.5, 12, 11, none, [⟨1, Circle.ft J ⟨0, 0, 0.2⟩⟩,
         ⟨1, polyFt [(0, 0), (0.1, 0), (0, 0.1), (0, 0)]⟩]⟩, ⟨.upper, 1, 1, none, []⟩]⟩ 3 false "average" [k])
      (radSim 1e-15 argsort eigh vecs guided ⟨(2 * Real.pi, 0), (0, 2 * Real.pi), 1, [⟨.lower, 1, 1, none, []⟩,
        ⟨.inner 0.5, 12, 11, none, [⟨1, Circle.ft J ⟨0, 0, 0.2⟩⟩,
         ⟨1, polyFt [(0, 0), (0.1, 0), (0, 0.1), (0, 0)]⟩]⟩, ⟨.upper, 1, 1, none, []⟩]⟩ 3 false "average" [k] 0 5)
      (radSim 1e-15 argsort eigh vecs guided ⟨(2 * Real.pi, 0), (0, 2 * Real.pi), 1, [⟨.lower, 1, 1, none, []⟩,
        ⟨.inner 0.5, 12, 11, none, [⟨1, Circle.ft J ⟨0 + t.1, 0 + t.2, 0.2⟩⟩,
         ⟨1, polyFt ([(0, 0), (0.1, 0), (0, 0.1), (0, 0)].map (shift t))⟩]⟩, ⟨.upper, 1, 1, none, []⟩]⟩ 3 false
        "average" [k] 0 5) := by
  obtain ⟨eigh, vecs, he, hp⟩ := sortedPair_exists
  refine ⟨eigh, vecs, fun guided t k => C117_displacement 1e-15 argsort eigh vecs he hp guided
    ⟨(2 * Real.pi, 0), (0, 2 * Real.pi), 1, [⟨.lower, 1, 1, none, []⟩, ⟨.inner 0.5, 12, 11, none,
      [⟨1, Circle.ft J ⟨0, 0, 0.2⟩⟩, ⟨1, polyFt [(0, 0), (0.1, 0), (0, 0.1), (0, 0)]⟩]⟩, ⟨.upper, 1, 1, none, []⟩]⟩
    resolved_square t _
    (.cons ⟨[], rfl, by simp, by simp, .nil⟩ (.cons ⟨_, rfl,
      (by simp only [List.mem_cons, List.not_mem_nil, or_false]
          rintro s (rfl | rfl)
          · exact C12_circle_conj J _
          · exact C12_poly_conj _),
      (by simp only [List.mem_cons, List.not_mem_nil, or_false]
          rintro s (rfl | rfl)
          · exact C12_circle_conj J _
          · exact C12_poly_conj _),
      .cons (displaced_circle J 1 ⟨0, 0, 0.2⟩ t) (.cons (displaced_poly 1 _ t) .nil)⟩
      (.cons ⟨[], rfl, by simp, by simp, .nil⟩ .nil))) 3 false "average" [k] 0 5⟩

/-- Two holes in the other order, with a shape of the background permittivity between them. -/
example (J : ℝ → ℝ) (argsort : List ℝ → List ℕ) (a b c : Circle) : ∃ eigh vecs, ∀ (guided : GuidedSolver) (k : R2),
    SameOutcome (SameRun id eigh guided ⟨(2 * Real.pi, 0), (0, 2 * Real.pi), 1, [
        ⟨.inner 0.5, 12, 11, none, [⟨1, Circle.ft J a⟩, ⟨2, Circle.ft J b⟩]⟩]⟩ 3 false "average" [k])
      (radSim 1e-15 argsort eigh vecs guided ⟨(2 * Real.pi, 0), (0, 2 * Real.pi), 1, [
        ⟨.inner 0.5, 12, 11, none, [⟨1, Circle.ft J a⟩, ⟨2, Circle.ft J b⟩]⟩]⟩ 3 false "average" [k] 0 5)
      (radSim 1e-15 argsort eigh vecs guided ⟨(2 * Real.pi, 0), (0, 2 * Real.pi), 1, [
        ⟨.inner 0.5, 12, 11, none, [⟨2, Circle.ft J b⟩, ⟨12, Circle.ft J c⟩, ⟨1, Circle.ft J a⟩]⟩]⟩
        3 false "average" [k] 0 5) := by
  obtain ⟨eigh, vecs, he, hp⟩ := sortedPair_exists
  exact ⟨eigh, vecs, fun guided k => C117_same_transform 1e-15 argsort eigh vecs he hp guided
    ⟨(2 * Real.pi, 0), (0, 2 * Real.pi), 1, [
        ⟨.inner 0.5, 12, 11, none, [⟨1, Circle.ft J a⟩, ⟨2, Circle.ft J b⟩]⟩]⟩ _
    (.cons ⟨[⟨2, Circle.ft J b⟩, ⟨12, Circle.ft J c⟩, ⟨1, Circle.ft J a⟩], rfl,
      (by simp only [List.mem_cons, List.not_mem_nil, or_false]
          rintro s (rfl | rfl) <;> exact C12_circle_conj J _),
      (by simp only [List.mem_cons, List.not_mem_nil, or_false]
          rintro s (rfl | rfl | rfl) <;> exact C12_circle_conj J _),
      fun i _ => same_transform_perm 12 _ _ [⟨1, Circle.ft J a⟩, ⟨2, Circle.ft J b⟩]
        [⟨2, Circle.ft J b⟩, ⟨12, Circle.ft J c⟩, ⟨1, Circle.ft J a⟩] [⟨12, Circle.ft J c⟩]
        (List.reverse_perm [_, _, _] |>.trans (.cons _ (.swap _ _ _))) (by simp) i⟩ .nil) 3 false "average" [k] 0 5⟩

/-- When a run returns. -/
theorem radSimIj_runs {ij : LPos → ℂ → ℂ} {dgx : ℝ} {argsort : List ℝ → List ℕ}
    {eigh : ∀ n, Matrix (Fin n) (Fin n) ℂ → Fin n → ℝ}
    {vecs : ∀ n, Matrix (Fin n) (Fin n) ℂ → Matrix (Fin n) (Fin n) ℂ} {guided : GuidedSolver} {S : GmeStruct}
    {gmax : ℝ} {onlyG : Bool} {opt : String} {ks : List R2} {sigma : ℝ} {numeig : ℕ} {eff : List ℝ}
    {einv : List (Matrix (Fin (S.gvec gmax).length) (Fin (S.gvec gmax).length) ℂ)} (hn : numeig ≠ 0)
    (heff : S.layers.mapM (GmeLay.eff opt) = .ok eff) (heinv : S.layers.mapM (S.epsInv gmax onlyG) = .ok einv)
    (hb : ∀ ik < ks.length, ∃ b, guided ((S.layers.map GmeLay.pos).zip eff) (S.gvec gmax) ks ik = .ok b ∧
      numeig ≤ b.length) :
    ∃ r, radSimIj ij dgx argsort eigh vecs guided S gmax onlyG opt ks sigma numeig = .ok r := by
  have key : ∀ (l : List ℕ) (f : ℕ → Except PyErr (KRes × List RadRes)), (∀ ik ∈ l, ∃ y, f ik = .ok y) →
      ∃ ys, l.mapM f = .ok ys := by
    intro l f hf
    induction l with
    | nil => exact ⟨[], rfl⟩
    | cons a l ih =>
      obtain ⟨y, hy⟩ := hf a List.mem_cons_self
      obtain ⟨ys, hys⟩ := ih fun ik h => hf ik (List.mem_cons_of_mem _ h)
      exact ⟨y :: ys, by rw [List.mapM_cons, hy, hys]; rfl⟩
  unfold radSimIj
  rw [heff, heinv]
  simp only [bind, Except.bind]
  refine key _ _ fun ik hik => ?_
  obtain ⟨b, h1, h2⟩ := hb ik (List.mem_range.1 hik)
  rw [h1]
  simp only
  rw [radAt_eq]
  unfold solveFull
  rw [if_neg (by rw [List.length_ofFn]; omega)]
  simp only [if_neg hn]
  exact ⟨_, rfl⟩

end Legume
