import Verif.Lemmas.ScaleRun
import Verif.Lemmas.ScaleGuided
import Verif.Lemmas.RadMove
import Verif.Lemmas.RadReverse

/-!
# Losses in other units
-/
namespace Legume

open Spec Matrix
open scoped ComplexConjugate

/-! ### Radiative modes -/

theorem headD_map_mul (k : ℝ) (l : List ℝ) : (l.map (k * ·)).headD 0 = k * l.headD 0 := by
  cases l <;> simp

/-- Factor of the amplitudes of a radiative mode. -/
noncomputable def radFac (c : ℝ) (lit : Bool) : ℂ := if lit then (c : ℂ)⁻¹ else 1

theorem radFactor_scale {c n : ℝ} (hn : 0 < n) (lit : Bool) (om e : ℝ) :
    radFactor lit (c / n * om) (n ^ 2 * e) = radFac c lit * radFactor lit om e := by
  unfold radFactor radFac
  cases lit
  · simp
  · have hn0 : (n : ℂ) ≠ 0 := by exact_mod_cast hn.ne'
    simp only [if_true]
    rw [Real.sqrt_mul (by positivity), Real.sqrt_sq hn.le]
    push_cast
    rw [div_div, div_div, show (n : ℂ) * (√e : ℝ) * (c / n * om) = c * ((√e : ℝ) * om) by field_simp, one_div, mul_inv,
      one_div]

theorem radMode_scale {c n : ℝ} (hc : 0 < c) (hn : 0 < n) (pol : Pol) (lit u : Bool) (om g : ℝ)
    (hg : max (c * g) 1e-10 = c * max g 1e-10) (eps ds : List ℝ) :
    radMode pol lit u (c / n * om) (c * g) (eps.map (n ^ 2 * ·)) (ds.map (· / c)) =
      (radMode pol lit u om g eps ds).map (List.map fun a => (radFac c lit * a.1, radFac c lit * a.2)) := by
  unfold radMode
  simp only [hg, getLastD_map_mul, headD_map_mul]
  rw [← List.map_reverse, ← List.map_reverse, abMatrices_scale hc hn, abMatrices_scale hc hn]
  have hf : ∀ (cs : List (ℂ × ℂ)) (e : ℝ), (cs.map fun a => (a.1 / (cs.getLastD (0, 0)).2 * radFactor lit (c / n * om) (n ^ 2 * e),
      a.2 / (cs.getLastD (0, 0)).2 * radFactor lit (c / n * om) (n ^ 2 * e))) =
      (cs.map fun a => (a.1 / (cs.getLastD (0, 0)).2 * radFactor lit om e,
        a.2 / (cs.getLastD (0, 0)).2 * radFactor lit om e)).map fun a => (radFac c lit * a.1, radFac c lit * a.2) := by
    intro cs e
    rw [List.map_map]
    refine List.map_congr_left fun a _ => ?_
    simp only [Function.comp, radFactor_scale hn]
    ext <;> simp only <;> ring
  cases u
  · simp only [Bool.false_eq_true, if_false]
    cases abMatrices pol om (max g 1e-10) eps.reverse ds.reverse with
    | error e => rfl
    | ok cs =>
      simp only [Except.map]
      rw [hf, List.map_reverse]
  · simp only [if_true]
    cases abMatrices pol om (max g 1e-10) eps ds with
    | error e => rfl
    | ok cs =>
      simp only [Except.map]
      rw [hf, List.map_map, List.map_map]
      simp only [List.map_map]
      rfl

/-- A state with its amplitudes multiplied. -/
def ampState (a : ℂ) (t : GmeState) : GmeState := { t with layers := t.layers.map fun m => ⟨a * m.A, a * m.B, m.x⟩ }

theorem gmeElem_amp (ij : LPos → ℂ → ℂ) (stack : List (LPos × ℝ)) (einv : List ℂ) (s t : GmeState) (a : ℂ) :
    gmeElem ij stack einv s (ampState a t) = a * gmeElem ij stack einv s t := by
  have := gmeElem_add ij stack einv s t t rfl rfl rfl rfl rfl a 0
  rw [zero_mul, add_zero] at this
  rw [← this]
  unfold ampState
  congr 2
  rw [List.zipWith_self]
  refine List.map_congr_left fun m _ => ?_
  simp [addMode]

theorem radFac_amp {c : ℝ} (hc : 0 < c) (pol : Pol) :
    radFac c (decide (pol = .te)) = (((√c)⁻¹ : ℝ) : ℂ) * (((√(normFac c pol))⁻¹ : ℝ) : ℂ) := by
  cases pol
  · simp only [radFac, decide_true, if_true, normFac]
    rw [← Complex.ofReal_mul, ← mul_inv, Real.mul_self_sqrt hc.le, Complex.ofReal_inv]
  · have h : (decide (Pol.tm = Pol.te)) = false := rfl
    simp only [radFac, h, Bool.false_eq_true, if_false, normFac]
    rw [← Complex.ofReal_mul, ← mul_inv, ← Real.sqrt_mul hc.le, mul_inv_cancel₀ hc.ne', Real.sqrt_one, inv_one,
      Complex.ofReal_one]

theorem radState_scale {c n : ℝ} (hc : 0 < c) (hn : 0 < n) (pol : Pol) (u : Bool) (om : ℝ) (stack : List (LPos × ℝ)) (p : R2)
    (hg : max (c * planeAbs p) 1e-10 = c * max (planeAbs p) 1e-10) :
    radState pol u (c / n * om) (scaleStack c n stack) (stretch c p) =
      (radState pol u om stack p).map fun t => ampState (((√c)⁻¹ : ℝ) : ℂ) (scaleState c n t) := by
  unfold radState
  rw [planeAbs_stretch hc, scaleStack_eps, stackDs_scale, radMode_scale hc hn pol _ u om _ hg]
  cases radMode pol (decide (pol = .te)) u om (planeAbs p) (stack.map Prod.snd) (stackDs stack) with
  | error e => rfl
  | ok xy =>
    simp only [Except.map, stretch, ampState, scaleState, Except.ok.injEq, GmeState.mk.injEq, true_and]
    rw [List.zipWith_map, List.map_zipWith, List.map_zipWith]
    congr 1
    funext e a
    simp only [chi_scale hc hn, radFac_amp hc, scaleMode, mul_assoc]

/-! ### Couplings -/

theorem radElem_scale {N : ℕ} {c n : ℝ} (hc : 0 < c) (hn : 0 < n) (stack : List (LPos × ℝ))
    (Es Es' : List (Matrix (Fin N) (Fin N) ℂ)) (hE : List.Forall₂ (fun E E' => ∀ i j, E' i j = E i j / (n : ℂ) ^ 2) Es Es')
    (basis : List (BasisEl N)) (planes planes' : Fin N → R2) (hp : ∀ j, planes' j = stretch c (planes j))
    (hg : ∀ j, max (c * planeAbs (planes j)) 1e-10 = c * max (planeAbs (planes j)) 1e-10) (om : ℝ) (pol : Pol) (u : Bool)
    (i j : ℕ) :
    radElem ijExact (scaleStack c n stack) Es' (basis.map (BasisEl.scale rfl c n)) planes' (c / n * om) pol u i j =
      ((c / n) ^ 2 * (√c)⁻¹ : ℝ) * radElem ijExact stack Es basis planes om pol u i j := by
  unfold radElem
  split_ifs with hj
  · rw [hp, radState_scale hc hn pol u om stack _ (hg _), List.getElem?_map]
    cases basis[i]? with
    | none => simp
    | some s =>
      cases radState pol u om stack (planes ⟨j, hj⟩) with
      | error e => simp [Except.map]
      | ok t =>
        simp only [Option.map_some, Except.map]
        have hEs : (Es'.map fun E => E (BasisEl.scale rfl c n s).ig ⟨j, hj⟩) =
            (Es.map fun E => E s.ig ⟨j, hj⟩).map (· / (n : ℂ) ^ 2) := by
          rw [List.map_map]
          induction hE with
          | nil => rfl
          | cons h1 _ ih => rw [List.map_cons, List.map_cons, ih, h1]; rfl
        rw [hEs, gmeElem_amp, show (BasisEl.scale rfl c n s).st = scaleState c n s.st from rfl, gmeElem_units hc hn]
        push_cast
        ring
  · simp

theorem lossOf_scale {k : ℝ} (hk : 0 < k) (om rad : ℝ) : lossOf (k * om) (k ^ 2 * rad) = k * lossOf om rad := by
  unfold lossOf
  have e : ((((k * om) ^ 2 : ℝ) : ℂ) + Complex.I * ((k ^ 2 * rad : ℝ) : ℂ)) =
      ((k ^ 2 : ℝ) : ℂ) * (((om ^ 2 : ℝ) : ℂ) + Complex.I * rad) := by
    push_cast
    ring
  rw [e]
  by_cases hz : ((om ^ 2 : ℝ) : ℂ) + Complex.I * rad = 0
  · rw [hz]
    simp
  · have hk2 : ((k ^ 2 : ℝ) : ℂ) ≠ 0 := by exact_mod_cast (by positivity : k ^ 2 ≠ 0)
    rw [Complex.cpow_def_of_ne_zero (mul_ne_zero hk2 hz), Complex.cpow_def_of_ne_zero hz,
      Complex.log_ofReal_mul (by positivity) hz, add_mul, Complex.exp_add, Real.log_pow,
      show ((((2 : ℕ) : ℝ) * Real.log k : ℝ) : ℂ) * 2⁻¹ = ((Real.log k : ℝ) : ℂ) by push_cast; ring, ← Complex.ofReal_exp,
      Real.exp_log hk, Complex.im_ofReal_mul]
    ring

theorem openChannels_scale {c n : ℝ} (hc : 0 < c) (hn : 0 < n) (eps om : ℝ) (gk : List ℝ) :
    openChannels (n ^ 2 * eps) (c / n * om) (gk.map (c * ·)) = openChannels eps om gk := by
  unfold openChannels
  rw [List.length_map]
  refine List.filter_congr fun j _ => ?_
  rw [getD_map_mul, mul_pow, show n ^ 2 * eps * (c / n * om) ^ 2 = c ^ 2 * (eps * om ^ 2) by field_simp,
    decide_eq_decide]
  exact mul_le_mul_iff_right₀ (by positivity)

theorem radDos_scale {c n : ℝ} (hc : 0 < c) (hn : 0 < n) (eps om g : ℝ) :
    radDos (n ^ 2 * eps) (c / n * om) (c * g) = (radDos eps om g).map (n ^ 2 / c * ·) := by
  unfold radDos
  have e : n ^ 2 * eps * (c / n * om) ^ 2 - (c * g) ^ 2 = c ^ 2 * (eps * om ^ 2 - g ^ 2) := by field_simp
  rw [e]
  have hc2 : c ^ 2 ≠ 0 := by positivity
  by_cases h : eps * om ^ 2 - g ^ 2 = 0
  · rw [if_pos (by rw [h, mul_zero]), if_pos h]; rfl
  · rw [if_neg (mul_ne_zero hc2 h), if_neg h, Real.sqrt_mul (by positivity), Real.sqrt_sq hc.le]
    simp only [Option.map_some, Option.some.injEq]
    rw [mul_div_mul_comm]
    ring

/-- The losses of a mode multiplied by `k`. -/
def Loss.scale (k : ℝ) (l : Loss) : Loss := ⟨k * l.tot, k * l.te, k * l.tm⟩

/-- What is stored about a mode, with losses and couplings multiplied by `k`. -/
noncomputable def RadRes.scale (k : ℝ) (a : RadRes) : RadRes :=
  ⟨a.loss.map (Loss.scale k), fun u pol => (a.coup u pol).map (List.map ((k : ℂ) * ·)), a.chan⟩

theorem mapM_option_mul {α : Type} (k : ℂ) (f f' : α → Option ℂ) (h : ∀ a, f' a = (f a).map (k * ·)) (l : List α) :
    l.mapM f' = (l.mapM f).map (List.map (k * ·)) := by
  induction l with
  | nil => rfl
  | cons a l ih =>
    simp only [List.mapM_cons, h, ih]
    cases f a with
    | none => rfl
    | some z => cases l.mapM f <;> rfl

theorem sumSq_mul (k : ℝ) (l : List ℂ) : sumSq (l.map ((k : ℂ) * ·)) = k ^ 2 * sumSq l := by
  unfold sumSq
  rw [List.map_map, ← List.sum_map_mul_left]
  congr 1
  refine List.map_congr_left fun z _ => ?_
  simp only [Function.comp, norm_mul, Complex.norm_real, mul_pow, Real.norm_eq_abs, sq_abs]

theorem modeLoss_scale {k : ℝ} (hk : 0 < k) (lo up lo' up' : Clad) (om : ℝ) (gk gk' : List ℝ) (ev ev' : ℕ → ℂ)
    (h1 : ∀ pol, (lo'.coup pol (k * om) gk' ev').map sumSq = ((lo.coup pol om gk ev).map sumSq).map (k ^ 2 * ·))
    (h2 : ∀ pol, (up'.coup pol (k * om) gk' ev').map sumSq = ((up.coup pol om gk ev).map sumSq).map (k ^ 2 * ·)) :
    modeLoss lo' up' (k * om) gk' ev' = (modeLoss lo up om gk ev).map (Loss.scale k) := by
  unfold modeLoss
  rw [modeRad_sumSq, modeRad_sumSq, h1, h1, h2, h2]
  generalize (lo.coup .te om gk ev).map sumSq = o1
  generalize (up.coup .te om gk ev).map sumSq = o2
  generalize (lo.coup .tm om gk ev).map sumSq = o3
  generalize (up.coup .tm om gk ev).map sumSq = o4
  rcases o1 with _ | a <;> rcases o2 with _ | b <;> rcases o3 with _ | x <;> rcases o4 with _ | y <;> try rfl
  simp only [Option.map_some, Option.some.injEq, Loss.scale, Loss.mk.injEq]
  rw [← mul_add, ← mul_add, ← mul_add, lossOf_scale hk, lossOf_scale hk, lossOf_scale hk]
  exact ⟨rfl, rfl, rfl⟩

/-- One mode in other units, with the same eigenvector. -/
theorem radOf_scale {N : ℕ} {c n : ℝ} (hc : 0 < c) (hn : 0 < n) (stack : List (LPos × ℝ))
    (Es Es' : List (Matrix (Fin N) (Fin N) ℂ)) (hE : List.Forall₂ (fun E E' => ∀ i j, E' i j = E i j / (n : ℂ) ^ 2) Es Es')
    (basis : List (BasisEl N)) (planes planes' : Fin N → R2) (hp : ∀ j, planes' j = stretch c (planes j))
    (hg : ∀ j, max (c * planeAbs (planes j)) 1e-10 = c * max (planeAbs (planes j)) 1e-10) (clads : ℝ × ℝ) (om : ℝ)
    (evec : ℕ → ℂ) :
    radOf ijExact (scaleStack c n stack) Es' (basis.map (BasisEl.scale rfl c n)) planes' (n ^ 2 * clads.1, n ^ 2 * clads.2)
        (c / n * om) evec =
      (radOf ijExact stack Es basis planes clads om evec).scale (c / n) := by
  have hcn : 0 < c / n := div_pos hc hn
  have hgk : (List.ofFn fun i => planeAbs (planes' i)) = (List.ofFn fun i => planeAbs (planes i)).map (c * ·) := by
    rw [List.map_ofFn]
    congr 1
    funext i
    rw [hp, planeAbs_stretch hc]
    rfl
  have heps : ∀ u : Bool, (if u = true then n ^ 2 * clads.2 else n ^ 2 * clads.1) =
      n ^ 2 * if u = true then clads.2 else clads.1 := by
    intro u
    split_ifs <;> rfl
  have hfac : √(n ^ 2 / c) * ((c / n) ^ 2 * (√c)⁻¹) = c / n := by
    rw [Real.sqrt_div (by positivity), Real.sqrt_sq hn.le]
    have h2 : √c * √c = c := Real.mul_self_sqrt hc.le
    have h3 : √c ≠ 0 := (Real.sqrt_pos.2 hc).ne'
    field_simp
    rw [sq, h2]
  have hcoup : ∀ (u : Bool) pol, (radOf ijExact (scaleStack c n stack) Es' (basis.map (BasisEl.scale rfl c n)) planes'
      (n ^ 2 * clads.1, n ^ 2 * clads.2) (c / n * om) evec).coup u pol =
      ((radOf ijExact stack Es basis planes clads om evec).coup u pol).map (List.map (((c / n : ℝ) : ℂ) * ·)) := by
    intro u pol
    simp only [radOf, radClad_coup, hgk, heps, openChannels_scale hc hn]
    refine mapM_option_mul _ _ _ (fun j => ?_) _
    rw [getD_map_mul, radDos_scale hc hn]
    cases radDos (if u = true then clads.2 else clads.1) om ((List.ofFn fun i => planeAbs (planes i)).getD j 0) with
    | none => rfl
    | some d =>
      simp only [Option.map_some, Option.some.injEq, List.length_map,
        radElem_scale hc hn stack Es Es' hE basis planes planes' hp hg]
      simp only [mul_assoc, ← Finset.mul_sum]
      rw [show Real.pi * (n ^ 2 / c * d) = n ^ 2 / c * (Real.pi * d) by ring, Real.sqrt_mul (by positivity),
        show ((c / n : ℝ) : ℂ) = (√(n ^ 2 / c) : ℝ) * (((c / n) ^ 2 * (√c)⁻¹ : ℝ) : ℂ) by rw [← Complex.ofReal_mul, hfac]]
      rw [Complex.ofReal_mul (√(n ^ 2 / c))]
      ring
  have hsum : ∀ (u : Bool) pol, (((radOf ijExact (scaleStack c n stack) Es' (basis.map (BasisEl.scale rfl c n)) planes'
      (n ^ 2 * clads.1, n ^ 2 * clads.2) (c / n * om) evec).coup u pol).map sumSq) =
      (((radOf ijExact stack Es basis planes clads om evec).coup u pol).map sumSq).map ((c / n) ^ 2 * ·) := by
    intro u pol
    rw [hcoup, Option.map_map, Option.map_map]
    congr 1
    funext l
    exact sumSq_mul _ _
  have hloss : (radOf ijExact (scaleStack c n stack) Es' (basis.map (BasisEl.scale rfl c n)) planes'
      (n ^ 2 * clads.1, n ^ 2 * clads.2) (c / n * om) evec).loss =
      (radOf ijExact stack Es basis planes clads om evec).loss.map (Loss.scale (c / n)) := by
    have e2 := hsum false
    have e3 := hsum true
    simp only [radOf] at e2 e3 ⊢
    exact modeLoss_scale hcn _ _ _ _ om _ _ _ _ e2 e3
  have hchan : (radOf ijExact (scaleStack c n stack) Es' (basis.map (BasisEl.scale rfl c n)) planes'
      (n ^ 2 * clads.1, n ^ 2 * clads.2) (c / n * om) evec).chan =
      (radOf ijExact stack Es basis planes clads om evec).chan := by
    funext u
    simp only [radOf, radClad, hgk, heps, openChannels_scale hc hn]
  unfold RadRes.scale
  rw [← hloss, ← hchan]
  simp only [← hcoup]

/-! ### All modes at one wave vector -/

theorem eigh_affine {n n' : ℕ} (hn : n' = n) {k : ℝ} (hk : 0 < k) {A : Matrix (Fin n) (Fin n) ℂ}
    {A' V' : Matrix (Fin n') (Fin n') ℂ} {w : Fin n → ℝ} {w' : Fin n' → ℝ} (h' : IsEigh (A' + 1) w' V')
    (hA : ∀ i j, A' i j = ((k ^ 2 : ℝ) : ℂ) * A (Fin.cast hn i) (Fin.cast hn j))
    (hw : List.ofFn w' = (List.ofFn w).map fun x => k ^ 2 * (x - 1) + 1) :
    IsEigh (A + 1) w (V'.submatrix (Fin.cast hn.symm) (Fin.cast hn.symm)) := by
  subst hn
  have hw' : ∀ i, w' i = k ^ 2 * (w i - 1) + 1 := by
    rw [List.map_ofFn] at hw
    intro i
    rw [List.ofFn_injective hw]
    rfl
  have hA' : A' = ((k ^ 2 : ℝ) : ℂ) • A := by ext i j; rw [hA]; rfl
  have hk2 : ((k ^ 2 : ℝ) : ℂ) ≠ 0 := by exact_mod_cast (by positivity : k ^ 2 ≠ 0)
  refine ⟨h'.unitary, ?_⟩
  have h1 := h'.eigen
  rw [hA'] at h1
  have hs : V'.submatrix (Fin.cast (rfl : n' = n')) (Fin.cast (rfl : n' = n')) = V' := rfl
  rw [hs]
  have h2 : ((k ^ 2 : ℝ) : ℂ) • ((A + 1) * V') = ((k ^ 2 : ℝ) : ℂ) • (V' * diagonal fun i => (w i : ℂ)) := by
    ext i j
    have h3 := congrFun (congrFun h1 i) j
    simp only [add_mul, one_mul, smul_mul_assoc, Matrix.add_apply, Matrix.smul_apply, smul_eq_mul, mul_diagonal, hw'] at h3 ⊢
    push_cast at h3 ⊢
    linear_combination h3
  exact smul_right_injective _ hk2 h2

/-- Results about a mode in two units: the same channels, and for simple modes losses and absolute values of the couplings
multiplied by `k`. -/
structure ScaledRad (k : ℝ) (simple : Prop) (a a' : RadRes) : Prop where
  chan : a'.chan = a.chan
  finite : a'.loss = none ↔ a.loss = none
  loss : simple → a'.loss = a.loss.map (Loss.scale k)
  coup : simple → ∀ (u : Bool) (pol : Pol) (l l' : List ℂ), a.coup u pol = some l → a'.coup u pol = some l' →
    l'.map norm = l.map fun z => k * ‖z‖

/-- Results at one wave vector in two units: frequencies multiplied by `k`, modes as in `ScaledRad`, and the sums of the
squared couplings of all modes of one eigenvalue multiplied by `k ^ 2`, if all of them are stored. -/
structure ScaledModes (k : ℝ) {n : ℕ} (w : Fin n → ℝ) (x x' : KRes × List RadRes) : Prop where
  freq : x'.1 = x.1.scale k
  len : x.2.length = x.1.freq.length
  len' : x'.2.length = x.1.freq.length
  mode : ∀ (p m : ℕ) (a a' : RadRes), x.1.idx[p]? = some m → x.2[p]? = some a → x'.2[p]? = some a' →
    ScaledRad k (SimpleMode w m) a a'
  group : ∀ lam, (∀ m, w m = lam → (m : ℕ) ∈ x.1.idx) → ∀ u pol,
    groupPower w lam x' u pol = k ^ 2 * groupPower w lam x u pol

theorem groupSum_mul {n : ℕ} (w : Fin n → ℝ) (lam : ℝ) (r : KRes) (l : List RadRes) (k b : ℝ) (φ : RadRes → RadRes)
    (F : RadRes → ℝ) (h : ∀ a, F (φ a) = b * F a) :
    groupSum w lam (r.scale k, l.map φ) F = b * groupSum w lam (r, l) F := by
  classical
  unfold groupSum
  simp only [KRes.scale]
  rw [List.zip_map_right, List.filter_map, List.map_map, ← List.sum_map_mul_left]
  refine congrArg List.sum (List.map_congr_left fun p _ => ?_)
  exact h _

theorem colOf_cast {n n' : ℕ} (hn : n' = n) (V : Matrix (Fin n') (Fin n') ℂ) :
    colOf (V.submatrix (Fin.cast hn.symm) (Fin.cast hn.symm)) = colOf V := by
  subst hn
  rfl

theorem radAt_units {N : ℕ} {c n : ℝ} (hc : 0 < c) (hn : 0 < n) {argsort : List ℝ → List ℕ}
    (ha : ∀ l, argsort (l.map (c / n * ·)) = argsort l) (stack : List (LPos × ℝ))
    (Es Es' : List (Matrix (Fin N) (Fin N) ℂ)) (hE : List.Forall₂ (fun E E' => ∀ i j, E' i j = E i j / (n : ℂ) ^ 2) Es Es')
    (basis : List (BasisEl N)) (planes planes' : Fin N → R2) (hp : ∀ j, planes' j = stretch c (planes j))
    (hg : ∀ j, max (c * planeAbs (planes j)) 1e-10 = c * max (planeAbs (planes j)) 1e-10) (clads : ℝ × ℝ)
    (hlen : (basis.map (BasisEl.scale rfl c n)).length = basis.length)
    (w : Fin basis.length → ℝ) (w' : Fin (basis.map (BasisEl.scale rfl c n)).length → ℝ)
    (V' : Matrix (Fin (basis.map (BasisEl.scale rfl c n)).length) (Fin (basis.map (BasisEl.scale rfl c n)).length) ℂ)
    (hw : List.ofFn w' = (List.ofFn w).map fun x => (c / n) ^ 2 * (x - 1) + 1) (sigma : ℝ) (numeig : ℕ) :
    radAt ijExact argsort (scaleStack c n stack) Es' (basis.map (BasisEl.scale rfl c n)) planes'
        (n ^ 2 * clads.1, n ^ 2 * clads.2) w' V' (c / n * sigma) numeig =
      (radAt ijExact argsort stack Es basis planes clads w (V'.submatrix (Fin.cast hlen.symm) (Fin.cast hlen.symm)) sigma
        numeig).map fun x => (x.1.scale (c / n), x.2.map (RadRes.scale (c / n))) := by
  rw [radAt_eq, radAt_eq, hw, solveFull_scale (div_pos hc hn) ha]
  cases solveFull argsort (List.ofFn w) sigma numeig with
  | error e => rfl
  | ok r =>
    simp only [Except.map]
    split_ifs
    · rfl
    · simp only [Except.ok.injEq, Prod.mk.injEq, true_and, KRes.scale]
      rw [List.zip_map_right, List.map_map, List.map_map]
      refine List.map_congr_left fun m _ => ?_
      simp only [Function.comp, Prod.map_fst, Prod.map_snd, id_eq]
      rw [← radOf_scale hc hn stack Es Es' hE basis planes planes' hp hg clads, colOf_cast hlen,
        show 2 * Real.pi * (c / n * m.2) = c / n * (2 * Real.pi * m.2) by ring]

theorem mapM_option_length {α β : Type} (f : α → Option β) (d : β) {l : List α} {r : List β} (h : l.mapM f = some r) :
    r.length = l.length := by
  rw [mapM_option_eq f d l r h, List.length_map]

/-- All modes at one wave vector in two units. -/
theorem radAt_scaled {N : ℕ} {c n : ℝ} (hc : 0 < c) (hn : 0 < n) {argsort : List ℝ → List ℕ}
    (hsort : ∀ l, IsArgsort l (argsort l))
    (ha : ∀ l, argsort (l.map (c / n * ·)) = argsort l) (stack : List (LPos × ℝ))
    (Es Es' : List (Matrix (Fin N) (Fin N) ℂ)) (hE : List.Forall₂ (fun E E' => ∀ i j, E' i j = E i j / (n : ℂ) ^ 2) Es Es')
    (basis : List (BasisEl N)) (planes planes' : Fin N → R2) (hp : ∀ j, planes' j = stretch c (planes j))
    (hg : ∀ j, max (c * planeAbs (planes j)) 1e-10 = c * max (planeAbs (planes j)) 1e-10) (clads : ℝ × ℝ)
    (hlen : (basis.map (BasisEl.scale rfl c n)).length = basis.length)
    {w : Fin basis.length → ℝ} {w' : Fin (basis.map (BasisEl.scale rfl c n)).length → ℝ}
    {A V : Matrix (Fin basis.length) (Fin basis.length) ℂ}
    {A' V' : Matrix (Fin (basis.map (BasisEl.scale rfl c n)).length) (Fin (basis.map (BasisEl.scale rfl c n)).length) ℂ}
    (h : IsEigh (A + 1) w V) (h' : IsEigh (A' + 1) w' V')
    (hA : ∀ i j, A' i j = (((c / n) ^ 2 : ℝ) : ℂ) * A (Fin.cast hlen i) (Fin.cast hlen j))
    (hw : List.ofFn w' = (List.ofFn w).map fun x => (c / n) ^ 2 * (x - 1) + 1) (sigma : ℝ) (numeig : ℕ) :
    SameOutcome (ScaledModes (c / n) w) (radAt ijExact argsort stack Es basis planes clads w V sigma numeig)
      (radAt ijExact argsort (scaleStack c n stack) Es' (basis.map (BasisEl.scale rfl c n)) planes'
        (n ^ 2 * clads.1, n ^ 2 * clads.2) w' V' (c / n * sigma) numeig) := by
  rw [radAt_units hc hn ha stack Es Es' hE basis planes planes' hp hg clads hlen w w' V' hw]
  have hV := eigh_affine hlen (div_pos hc hn) h' hA hw
  set V'' := V'.submatrix (Fin.cast hlen.symm) (Fin.cast hlen.symm)
  rcases radAt_moved ijExact ijExact (Equiv.refl (Fin N)) argsort hsort stack stack Es Es basis basis planes planes
    (fun _ => rfl) clads (Equiv.refl _) h hV rfl (fun _ => 1) (fun _ => by simp) (fun i j => by simp)
    (fun om pol u j => ⟨1, by simp, fun i => by simp⟩) sigma numeig with ⟨e, h1, h2⟩ | ⟨x, y, h1, h2, q⟩
  · exact Or.inl ⟨e, h1, by rw [h2]; rfl⟩
  · refine Or.inr ⟨x, _, h1, by rw [h2]; rfl, congrArg (KRes.scale (c / n)) q.freq, q.len,
      (List.length_map _).trans q.len', ?_, ?_⟩
    · intro p m a a' hm hxa hxa'
      rw [List.getElem?_map] at hxa'
      cases hy : y.2[p]? with
      | none => rw [hy] at hxa'; cases hxa'
      | some b =>
        rw [hy] at hxa'
        simp only [Option.map_some, Option.some.injEq] at hxa'
        subst hxa'
        have hq := q.mode p m a b hm hxa hy
        obtain ⟨m1, f1, a1, a2, -, a3⟩ := (radAt_ok h1).2.2 p a hxa
        obtain ⟨m2, f2, b1, b2, -, b3⟩ := (radAt_ok h2).2.2 p b hy
        rw [q.freq] at b1 b2
        obtain rfl := Option.some.inj (a1.symm.trans hm)
        obtain rfl := Option.some.inj (a1.symm.trans b1)
        obtain rfl := Option.some.inj (a2.symm.trans b2)
        have hch : b.chan = a.chan := by rw [a3, b3]; rfl
        refine ⟨hch, ?_, fun hs => ?_, fun hs u pol l l' hl hl' => ?_⟩
        · rw [← hq.finite]
          simp [RadRes.scale]
        · rw [← hq.loss hs]
          rfl
        · simp only [RadRes.scale] at hl'
          cases hb : b.coup u pol with
          | none => rw [hb] at hl'; cases hl'
          | some l2 =>
            rw [hb] at hl'
            simp only [Option.map_some, Option.some.injEq] at hl'
            subst hl'
            have hl1 : l.length = (a.chan u).length := by
              rw [a3] at hl ⊢
              simp only [radOf, radClad_coup] at hl
              exact mapM_option_length _ 0 hl
            have hl2 : l2.length = (a.chan u).length := by
              rw [← hch]
              rw [b3] at hb ⊢
              simp only [radOf, radClad_coup] at hb
              exact mapM_option_length _ 0 hb
            rw [List.map_map]
            refine List.ext_getElem (by simp [hl1, hl2]) fun i g1 g2 => ?_
            have i1 : i < l.length := by simpa using g2
            have i2 : i < l2.length := by simpa using g1
            have i3 : i < (a.chan u).length := hl1 ▸ i1
            have hj : (a.chan u)[i] < N := by
              have hall : ∀ j ∈ a.chan u, j < N := by
                rw [a3]
                intro j hj
                simpa [radOf, radClad] using ((mem_openChannels _ _ _ _).1 hj).1
              exact hall _ (List.getElem_mem _)
            have key := hq.coup hs u pol l l2 hl hb i i (a.chan u)[i] l[i] l2[i] (List.getElem?_eq_getElem i3)
              (by
                rw [hch, List.getElem?_eq_getElem i3]
                unfold posMap
                rw [dif_pos hj]
                rfl)
              (List.getElem?_eq_getElem i1) (List.getElem?_eq_getElem i2)
            simp only [List.getElem_map, Function.comp, norm_mul, key, Complex.norm_real, Real.norm_eq_abs,
              abs_of_pos (div_pos hc hn)]
    · intro lam hall u pol
      rw [← q.group lam hall u pol]
      unfold groupPower
      rw [groupSum_mul w lam y.1 y.2 (c / n) ((c / n) ^ 2)]
      intro a
      simp only [RadRes.scale, Option.map_map]
      cases a.coup u pol with
      | none => simp
      | some l => simp only [Option.map_some, Option.getD_some, Function.comp, sumSq_mul]

end Legume
