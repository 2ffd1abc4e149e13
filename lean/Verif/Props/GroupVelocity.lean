import Verif.Props.Continuity
import Verif.Props.ExcWave
import Verif.Props.SupercellExc
import Verif.Props.ExcSimilar
import Verif.Props.BandSlope

/-! # C153: the slope of a simple band is the energy flux of its mode -/
namespace Legume

open Matrix Spec Finset Filter Topology
open scoped ComplexConjugate Real ComplexOrder

/-! ### One simple eigenvalue -/

/-- A simple eigenvalue can be followed. -/
theorem eig_branch_one {N : ℕ} (A : ℝ → Matrix (Fin N) (Fin N) ℂ) (A' : Matrix (Fin N) (Fin N) ℂ) (t0 : ℝ)
    (hA : ∀ i j, HasDerivAt (fun t => A t i j) (A' i j) t0) (hH : ∀ t, (A t).IsHermitian)
    (W : ℝ → Fin N → ℝ) (hW : ∀ t, ∃ V, IsEigh (A t) (W t) V) (V : Matrix (Fin N) (Fin N) ℂ)
    (h0 : IsEigh (A t0) (W t0) V) (n : Fin N) (hn : ∀ m, m ≠ n → W t0 m ≠ W t0 n) :
    ∃ ω : ℝ → ℝ, (∀ t, ∃ j, ω t = W t j) ∧ ω t0 = W t0 n ∧
      HasDerivAt ω (sandwich (fun i => V i n) A' fun i => V i n).re t0 := by
  classical
  set μ : ℝ := (sandwich (fun i => V i n) A' fun i => V i n).re with hμ
  have hmin : ∀ t, ∃ j, ∀ j', |W t j - (W t0 n + (t - t0) * μ)| ≤ |W t j' - (W t0 n + (t - t0) * μ)| := by
    intro t
    haveI : Nonempty (Fin N) := ⟨n⟩
    exact Finite.exists_min fun j => |W t j - (W t0 n + (t - t0) * μ)|
  choose j hj using hmin
  have hz : W t0 (j t0) = W t0 n := by
    have := hj t0 n
    simp only [sub_self, zero_mul, add_zero, abs_zero] at this
    exact sub_eq_zero.1 (abs_eq_zero.1 (le_antisymm this (abs_nonneg _)))
  refine ⟨fun t => W t (j t), fun t => ⟨j t, rfl⟩, hz, ?_⟩
  rw [hasDerivAt_iff_isLittleO, Asymptotics.isLittleO_iff]
  intro ε hε
  filter_upwards [eig_first_order A A' t0 hA hH W hW (W t0) V h0 n hn ε hε] with t ⟨j', hj'⟩
  simp only [hz]
  rw [Real.norm_eq_abs, Real.norm_eq_abs, smul_eq_mul]
  have e : W t (j t) - W t0 n - (t - t0) * μ = W t (j t) - (W t0 n + (t - t0) * μ) := by ring
  rw [e]
  exact (hj t j').trans hj'

/-- A member of a continuous list of numbers stays at its position as long as it differs from the others. -/
theorem follow_one {n : ℕ} (F : ℝ → List ℝ) (t0 : ℝ) (hlen : ∀ t, (F t).length = n)
    (hc : ∀ j, ContinuousAt (fun t => (F t).getD j 0) t0) (i : ℕ)
    (hne : ∀ j, j < n → j ≠ i → (F t0).getD j 0 ≠ (F t0).getD i 0) (x : ℝ → ℝ) (hx : ∀ t, x t ∈ F t)
    (hxc : ContinuousAt x t0) (hx0 : x t0 = (F t0).getD i 0) : ∀ᶠ t in 𝓝 t0, (F t).getD i 0 = x t := by
  have h : ∀ᶠ t in 𝓝 t0, ∀ j : Fin n, (j : ℕ) ≠ i → (F t).getD j 0 - x t ≠ 0 := by
    rw [eventually_all]
    intro j
    by_cases hj : (j : ℕ) = i
    · exact Eventually.of_forall fun _ h => absurd hj h
    · have := ((hc j).sub hxc).eventually_ne (y := 0) (by
        show (F t0).getD j 0 - x t0 ≠ 0
        rw [hx0]
        exact sub_ne_zero.2 (hne j j.2 hj))
      filter_upwards [this] with t ht _ using ht
  filter_upwards [h] with t ht
  obtain ⟨j, hj, e⟩ := List.getElem_of_mem (hx t)
  have hjn : j < n := by rw [← hlen t]; exact hj
  have eg : (F t).getD j 0 = x t := by
    rw [List.getD_eq_getElem?_getD, List.getElem?_eq_getElem hj, Option.getD_some, e]
  by_cases hji : j = i
  · rw [← hji]; exact eg
  · exact absurd (sub_eq_zero.2 eg) (ht ⟨j, hjn⟩ hji)

/-- If the values in the order of the selection differ from the one at position `i`, so do the values at other indices. -/
theorem others_differ {N : ℕ} (v : Fin N → ℝ) (sel : List ℕ) (hsel : sel.Perm (List.range N)) (i : ℕ) (s : Fin N)
    (hi : sel[i]? = some (s : ℕ))
    (h : ∀ j, j ≠ i → (sel.map fun (a : ℕ) => (List.ofFn v).getD a 0)[j]? ≠ some (v s)) (m : Fin N) (hm : m ≠ s) : v m ≠ v s := by
  have hmem : (m : ℕ) ∈ sel := hsel.mem_iff.2 (List.mem_range.2 m.2)
  obtain ⟨j, hj, e⟩ := List.getElem_of_mem hmem
  have hji : j ≠ i := by
    rintro rfl
    rw [List.getElem?_eq_getElem hj, e, Option.some.injEq] at hi
    exact hm (Fin.ext hi)
  intro hv
  apply h j hji
  rw [List.getElem?_map, List.getElem?_eq_getElem hj, e, Option.map_some, List.getD_eq_getElem?_getD,
    List.getElem?_eq_getElem (by simp), Option.getD_some, ← hv]
  simp

/-- The derivative of a returned frequency which no other frequency equals. -/
theorem simple_freq_deriv (argsort : List ℝ → List ℕ) (hs : ∀ l, IsArgsort l (argsort l))
    (eigh : ∀ n, Matrix (Fin n) (Fin n) ℂ → Fin n → ℝ) (he : GoodEigh eigh) {N : ℕ} (A : ℝ → Matrix (Fin N) (Fin N) ℂ)
    (A' : Matrix (Fin N) (Fin N) ℂ) (t0 : ℝ) (hA : ∀ i j, HasDerivAt (fun t => A t i j) (A' i j) t0)
    (hH : ∀ t, (A t).IsHermitian) (V : Matrix (Fin N) (Fin N) ℂ) (h0 : IsEigh (A t0) (eigh N (A t0)) V) (numeig i : ℕ)
    (s : Fin N) (hsel : (solvePwe argsort (List.ofFn (eigh N (A t0))) numeig).idx[i]? = some (s : ℕ))
    (hne : ∀ m, m ≠ s → freqOf (eigh N (A t0) m) ≠ freqOf (eigh N (A t0) s)) (h1 : eigh N (A t0) s ≠ 1) :
    HasDerivAt (fun t => (solvePwe argsort (List.ofFn (eigh N (A t))) numeig).freq.getD i 0)
      (((eigh N (A t0) s - 1) / |eigh N (A t0) s - 1| * (sandwich (fun j => V j s) A' fun j => V j s).re) /
        (2 * √|eigh N (A t0) s - 1|) / 2 / π) t0 := by
  obtain ⟨ω, hω, hω0, hωd⟩ := eig_branch_one A A' t0 hA hH (fun t => eigh N (A t)) (fun t => he _ _ (hH t)) V h0 s
    (fun m hm e => hne m hm (by rw [e]))
  set F : ℝ → List ℝ := fun t => sortedFreqs (List.ofFn (eigh N (A t))) with hF
  have hlen : ∀ t, (F t).length = N := by
    intro t
    rw [hF, (sortedFreqs_perm _).length_eq]
    simp
  have htake : ∀ t, (solvePwe argsort (List.ofFn (eigh N (A t))) N).freq = F t := by
    intro t
    rw [solvePwe_sortedFreqs argsort hs, List.take_of_length_le (hlen t).le]
  have hc : ∀ j, ContinuousAt (fun t => (F t).getD j 0) t0 := by
    intro j
    have := freq_continuous argsort hs eigh he A hH t0 (fun i j => (hA i j).continuousAt) N j
    simpa only [htake] using this
  -- the selection
  set sel := argsort ((List.ofFn (eigh N (A t0))).map freqOf) with hseld
  obtain ⟨s1, -⟩ := hs ((List.ofFn (eigh N (A t0))).map freqOf)
  rw [List.length_map, List.length_ofFn, ← hseld] at s1
  have hslen : sel.length = N := by rw [s1.length_eq, List.length_range]
  have hnd : sel.Nodup := s1.nodup_iff.2 List.nodup_range
  have hi : i < numeig ∧ sel[i]? = some (s : ℕ) := by
    change (sel.take numeig)[i]? = some (s : ℕ) at hsel
    by_cases h : i < numeig
    · rw [List.getElem?_take_of_lt h] at hsel
      exact ⟨h, hsel⟩
    · rw [List.getElem?_eq_none (by rw [List.length_take]; omega)] at hsel
      cases hsel
  have hF0 : ∀ j, (hj : j < N) → ∃ m : Fin N, sel[j]? = some (m : ℕ) ∧ (F t0).getD j 0 = freqOf (eigh N (A t0) m) := by
    intro j hj
    have hj' : j < sel.length := by rw [hslen]; exact hj
    have hm : sel[j] < N := List.mem_range.1 (s1.mem_iff.1 (List.getElem_mem hj'))
    refine ⟨⟨sel[j], hm⟩, List.getElem?_eq_getElem hj', ?_⟩
    rw [← htake]
    unfold solvePwe
    simp only
    rw [← hseld, List.take_of_length_le hslen.le, List.getD_eq_getElem?_getD, List.getElem?_map,
      List.getElem?_eq_getElem hj', Option.map_some, Option.getD_some]
    exact ofFn_map_getD _ _ hm
  have hiN : i < N := by
    have := (List.getElem?_eq_some_iff.1 hi.2).1
    rwa [hslen] at this
  have hFi : (F t0).getD i 0 = freqOf (eigh N (A t0) s) := by
    obtain ⟨m, hm, e⟩ := hF0 i hiN
    rw [hi.2] at hm
    rw [e, Fin.ext (Option.some.inj hm)]
  have hfol := follow_one F t0 hlen hc i (fun j hj hji => by
      obtain ⟨m, hm, e⟩ := hF0 j hj
      rw [hFi, e]
      refine hne m fun hms => hji ?_
      rw [hms] at hm
      have hj' : j < sel.length := by rw [hslen]; exact hj
      exact (List.getElem?_inj hj' hnd).1 (hm.trans hi.2.symm))
    (fun t => freqOf (ω t)) (fun t => by
      obtain ⟨j, e⟩ := hω t
      rw [e, hF, (sortedFreqs_perm _).mem_iff, List.mem_map]
      exact ⟨_, (List.mem_ofFn' _ _).2 ⟨j, rfl⟩, rfl⟩)
    (by
      unfold freqOf
      exact (((hωd.continuousAt.sub continuousAt_const).abs.sqrt).div_const 2).div_const π)
    (by rw [hFi, hω0])
  have hd := freqOf_deriv hωd (by rw [hω0]; exact h1)
  rw [hω0] at hd
  refine hd.congr_of_eventuallyEq ?_
  filter_upwards [hfol] with t ht
  rw [← ht, solvePwe_sortedFreqs argsort hs, List.getD_eq_getElem?_getD, List.getElem?_take_of_lt hi.1,
    ← List.getD_eq_getElem?_getD]

/-! ### Fields of a mode -/

/-- The magnetic field with the amplitudes `x`: along `z` for TE, perpendicular to each wave vector in the plane for TM. -/
noncomputable def modeH {n : ℕ} (pol : Pol) (q : Fin n → R2) (x : Fin n → ℂ) : FtField n :=
  match pol with
  | .te => ⟨fun _ => 0, fun _ => 0, x⟩
  | .tm => ⟨fun i => x i * ((q i).2 / √((q i).1 ^ 2 + (q i).2 ^ 2) : ℝ), fun i => x i * (-(q i).1 / √((q i).1 ^ 2 + (q i).2 ^ 2) : ℝ),
      fun _ => 0⟩

/-- The displacement field `(i/ω) curl H`. -/
noncomputable def modeD {n : ℕ} (pol : Pol) (q : Fin n → R2) (x : Fin n → ℂ) (ω : ℝ) : FtField n :=
  (curl q (modeH pol q x)).weight fun _ => Complex.I / ω

/-- The mean over the unit cell of the real part of `E × H*` along `u`. -/
noncomputable def FtField.flux {n : ℕ} (E H : FtField n) (u : R2) : ℝ :=
  (∑ i, ((E.y i * conj (H.z i) - E.z i * conj (H.y i)) * u.1 + (E.z i * conj (H.x i) - E.x i * conj (H.z i)) * u.2)).re

/-- The mean over the unit cell of `F* · G`. -/
noncomputable def FtField.inner {n : ℕ} (F G : FtField n) : ℂ :=
  ∑ i, (conj (F.x i) * G.x i + conj (F.y i) * G.y i + conj (F.z i) * G.z i)

/-- `x† (α η β) x` for two lists of real factors. -/
noncomputable def form2 {n : ℕ} (η : Matrix (Fin n) (Fin n) ℂ) (α β : Fin n → ℝ) (x : Fin n → ℂ) : ℂ :=
  ∑ i, ∑ j, conj (x i) * (α i * η i j * β j) * x j

theorem form2_swap {n : ℕ} {η : Matrix (Fin n) (Fin n) ℂ} (hη : η.IsHermitian) (α β : Fin n → ℝ) (x : Fin n → ℂ) :
    (form2 η α β x).re = (form2 η β α x).re := by
  have : conj (form2 η α β x) = form2 η β α x := by
    unfold form2
    rw [map_sum]
    simp only [map_sum]
    rw [sum_comm]
    refine sum_congr rfl fun j _ => sum_congr rfl fun i _ => ?_
    have h : conj (η i j) = η j i := hη.apply j i
    simp only [map_mul, Complex.conj_conj, Complex.conj_ofReal, h]
    ring
  rw [← this, Complex.conj_re]

/-- The factors of `modeE` along which the field varies. -/
theorem flux_te {n : ℕ} (η : Matrix (Fin n) (Fin n) ℂ) (q : Fin n → R2) (x : Fin n → ℂ) (ω : ℝ) (u : R2) :
    (pweE η (modeD .te q x ω)).flux (modeH .te q x) u =
      (u.1 * (form2 η 1 (fun i => (q i).1) x).re + u.2 * (form2 η 1 (fun i => (q i).2) x).re) / ω := by
  have e : (∑ i, (((pweE η (modeD .te q x ω)).y i * conj ((modeH .te q x).z i) -
        (pweE η (modeD .te q x ω)).z i * conj ((modeH .te q x).y i)) * (u.1 : ℂ) +
      ((pweE η (modeD .te q x ω)).z i * conj ((modeH .te q x).x i) -
        (pweE η (modeD .te q x ω)).x i * conj ((modeH .te q x).z i)) * (u.2 : ℂ))) =
      ((1 / ω : ℝ) : ℂ) * (u.1 * form2 η 1 (fun i => (q i).1) x + u.2 * form2 η 1 (fun i => (q i).2) x) := by
    unfold form2
    simp only [pweE, modeD, modeH, curl, FtField.weight, mulVec, dotProduct, map_zero, mul_zero, sub_zero, zero_sub, mul_sum,
      sum_mul, ← sum_add_distrib, ← sum_neg_distrib, Pi.one_apply, Complex.ofReal_one, one_mul]
    refine sum_congr rfl fun i _ => sum_congr rfl fun j _ => ?_
    push_cast
    linear_combination (-(η i j) * (q j).1 * x j * conj (x i) * u.1 / ω - η i j * (q j).2 * x j * conj (x i) * u.2 / ω) *
      Complex.I_mul_I
  unfold FtField.flux
  rw [e, Complex.re_ofReal_mul, Complex.add_re, Complex.re_ofReal_mul, Complex.re_ofReal_mul]
  ring

theorem flux_tm {n : ℕ} (η : Matrix (Fin n) (Fin n) ℂ) (q : Fin n → R2) (x : Fin n → ℂ) (ω : ℝ) (u : R2) :
    (pweE η (modeD .tm q x ω)).flux (modeH .tm q x) u =
      (form2 η (fun i => ((q i).1 * u.1 + (q i).2 * u.2) / √((q i).1 ^ 2 + (q i).2 ^ 2))
        (fun i => √((q i).1 ^ 2 + (q i).2 ^ 2)) x).re / ω := by
  have hD : ∀ j, (modeD .tm q x ω).z j = ((√((q j).1 ^ 2 + (q j).2 ^ 2) : ℝ) : ℂ) * x j / ω := by
    intro j
    set r := √((q j).1 ^ 2 + (q j).2 ^ 2) with hr
    have h2 : (q j).1 * ((q j).1 / r) + (q j).2 * ((q j).2 / r) = r := by
      by_cases h0 : r = 0
      · rw [h0]; simp
      · have := Real.sq_sqrt (show 0 ≤ (q j).1 ^ 2 + (q j).2 ^ 2 by positivity)
        rw [← hr] at this
        field_simp
        linarith
    simp only [modeD, modeH, curl, FtField.weight, ← hr]
    have h3 : ((q j).1 : ℂ) * ((q j).1 / r) + (q j).2 * ((q j).2 / r) = r := by exact_mod_cast h2
    push_cast
    linear_combination (-(x j) * ((q j).1 * ((q j).1 / r) + (q j).2 * ((q j).2 / r)) / ω) * Complex.I_mul_I + x j / ω * h3
  have e : (∑ i, (((pweE η (modeD .tm q x ω)).y i * conj ((modeH .tm q x).z i) -
        (pweE η (modeD .tm q x ω)).z i * conj ((modeH .tm q x).y i)) * (u.1 : ℂ) +
      ((pweE η (modeD .tm q x ω)).z i * conj ((modeH .tm q x).x i) -
        (pweE η (modeD .tm q x ω)).x i * conj ((modeH .tm q x).z i)) * (u.2 : ℂ))) =
      ((1 / ω : ℝ) : ℂ) * form2 η (fun i => ((q i).1 * u.1 + (q i).2 * u.2) / √((q i).1 ^ 2 + (q i).2 ^ 2))
        (fun i => √((q i).1 ^ 2 + (q i).2 ^ 2)) x := by
    unfold form2
    have hE : ∀ i, (pweE η (modeD .tm q x ω)).z i = ∑ j, η i j * (((√((q j).1 ^ 2 + (q j).2 ^ 2) : ℝ) : ℂ) * x j / ω) := by
      intro i
      simp only [pweE, mulVec, dotProduct, hD]
    simp only [hE]
    simp only [modeH, map_zero, mul_zero, zero_sub, sub_zero, mul_sum, sum_mul, ← sum_add_distrib, ← sum_neg_distrib, map_mul,
      Complex.conj_ofReal]
    refine sum_congr rfl fun i _ => sum_congr rfl fun j _ => ?_
    push_cast
    ring
  unfold FtField.flux
  rw [e, Complex.re_ofReal_mul]
  ring

/-! ### The slope -/

/-- The derivative of the factors of the matrix along the direction `u`. -/
noncomputable def pweFactor' {n : ℕ} (pol : Pol) (q : Fin n → R2) (u : R2) (i j : Fin n) : ℝ :=
  match pol with
  | .te => (u.1 * (q j).1 + (q i).1 * u.1) + (u.2 * (q j).2 + (q i).2 * u.2)
  | .tm => ((q i).1 * u.1 + (q i).2 * u.2) / √((q i).1 ^ 2 + (q i).2 ^ 2) * √((q j).1 ^ 2 + (q j).2 ^ 2) +
      √((q i).1 ^ 2 + (q i).2 ^ 2) * (((q j).1 * u.1 + (q j).2 * u.2) / √((q j).1 ^ 2 + (q j).2 ^ 2))

theorem norm_deriv (k u g : R2) (h : (k.1 + g.1, k.2 + g.2) ≠ ((0 : ℝ), (0 : ℝ))) :
    HasDerivAt (fun t : ℝ => √((k.1 + t * u.1 + g.1) ^ 2 + (k.2 + t * u.2 + g.2) ^ 2))
      (((k.1 + g.1) * u.1 + (k.2 + g.2) * u.2) / √((k.1 + g.1) ^ 2 + (k.2 + g.2) ^ 2)) 0 := by
  have hl : ∀ a b c : ℝ, HasDerivAt (fun t : ℝ => a + t * b + c) b 0 := by
    intro a b c
    simpa using (((hasDerivAt_id (0 : ℝ)).mul_const b).const_add a).add_const c
  have hne : (k.1 + 0 * u.1 + g.1) ^ 2 + (k.2 + 0 * u.2 + g.2) ^ 2 ≠ 0 := by
    intro h0
    apply h
    rw [zero_mul, zero_mul, add_zero, add_zero] at h0
    have h1 : (k.1 + g.1) ^ 2 = 0 := by nlinarith [sq_nonneg (k.1 + g.1), sq_nonneg (k.2 + g.2)]
    have h2 : (k.2 + g.2) ^ 2 = 0 := by nlinarith [sq_nonneg (k.1 + g.1), sq_nonneg (k.2 + g.2)]
    rw [pow_eq_zero_iff two_ne_zero] at h1 h2
    rw [h1, h2]
  have := (((hl k.1 u.1 g.1).pow 2).add ((hl k.2 u.2 g.2).pow 2)).sqrt hne
  refine this.congr_deriv ?_
  simp only [Pi.add_apply, Pi.pow_apply, zero_mul, add_zero]
  push_cast
  rw [div_eq_div_iff]
  · ring
  · simp only [zero_mul, add_zero] at hne
    exact mul_ne_zero two_ne_zero (Real.sqrt_ne_zero'.2 (lt_of_le_of_ne (by positivity) (Ne.symm hne)))
  · simp only [zero_mul, add_zero] at hne
    exact Real.sqrt_ne_zero'.2 (lt_of_le_of_ne (by positivity) (Ne.symm hne))

theorem pweFactor_deriv {n : ℕ} (pol : Pol) (k u : R2) (g : Fin n → R2) (h : pol = .tm → ∀ i, kPlusG k (g i) ≠ (0, 0))
    (i j : Fin n) : HasDerivAt (fun t : ℝ => pweFactor pol (k.1 + t * u.1, k.2 + t * u.2) g i j)
      (pweFactor' pol (fun i => kPlusG k (g i)) u i j) 0 := by
  have hl : ∀ a b c : ℝ, HasDerivAt (fun t : ℝ => a + t * b + c) b 0 := by
    intro a b c
    simpa using (((hasDerivAt_id (0 : ℝ)).mul_const b).const_add a).add_const c
  cases pol with
  | te =>
    have h1 := ((hl k.1 u.1 (g i).1).mul (hl k.1 u.1 (g j).1)).add ((hl k.2 u.2 (g i).2).mul (hl k.2 u.2 (g j).2))
    refine h1.congr_deriv ?_
    simp [pweFactor', kPlusG]
  | tm =>
    have h1 := (norm_deriv k u (g i) (h rfl i)).mul (norm_deriv k u (g j) (h rfl j))
    refine h1.congr_deriv ?_
    simp [pweFactor', kPlusG]

theorem pweFactor'_sandwich {n : ℕ} (pol : Pol) {η : Matrix (Fin n) (Fin n) ℂ} (hη : η.IsHermitian) (q : Fin n → R2) (u : R2)
    (x : Fin n → ℂ) (ω : ℝ) (hω : ω ≠ 0) :
    (sandwich x (of fun i j => (pweFactor' pol q u i j : ℂ) * η i j) x).re =
      2 * ω * (pweE η (modeD pol q x ω)).flux (modeH pol q x) u := by
  cases pol with
  | te =>
    have e : sandwich x (of fun i j => (pweFactor' .te q u i j : ℂ) * η i j) x =
        u.1 * (form2 η 1 (fun i => (q i).1) x + form2 η (fun i => (q i).1) 1 x) +
          u.2 * (form2 η 1 (fun i => (q i).2) x + form2 η (fun i => (q i).2) 1 x) := by
      unfold sandwich form2
      simp only [← sum_add_distrib, mul_sum]
      refine sum_congr rfl fun i _ => sum_congr rfl fun j _ => ?_
      simp only [of_apply, pweFactor', Pi.one_apply]
      push_cast
      ring
    rw [e, flux_te, Complex.add_re, Complex.re_ofReal_mul, Complex.re_ofReal_mul, Complex.add_re, Complex.add_re,
      form2_swap hη (fun i => (q i).1), form2_swap hη (fun i => (q i).2)]
    field_simp
    ring
  | tm =>
    set α : Fin n → ℝ := fun i => ((q i).1 * u.1 + (q i).2 * u.2) / √((q i).1 ^ 2 + (q i).2 ^ 2) with hα
    set β : Fin n → ℝ := fun i => √((q i).1 ^ 2 + (q i).2 ^ 2) with hβ
    have e : sandwich x (of fun i j => (pweFactor' .tm q u i j : ℂ) * η i j) x = form2 η α β x + form2 η β α x := by
      unfold sandwich form2
      simp only [← sum_add_distrib]
      refine sum_congr rfl fun i _ => sum_congr rfl fun j _ => ?_
      have : pweFactor' .tm q u i j = α i * β j + β i * α j := rfl
      rw [of_apply, this]
      push_cast
      ring
    rw [e, flux_tm, ← hα, ← hβ, Complex.add_re, form2_swap hη β α]
    field_simp
    ring

/-- **C153 (matrices).** Let the matrix of the inverse permittivity be positive semidefinite and let a returned frequency be
different from zero and from all others at the wave vector `k`. (TM: no plane wave has the wave vector zero.) Then the
frequency has a derivative along every direction `u`: the energy flux of the mode along `u` divided by `2 π`, for the
eigenvector as amplitudes of the magnetic field, `D = (i/ω) curl H` and `E` the inverse permittivity applied to `D`. -/
theorem C153_slope (argsort : List ℝ → List ℕ) (hs : ∀ l, IsArgsort l (argsort l))
    (eigh : ∀ n, Matrix (Fin n) (Fin n) ℂ → Fin n → ℝ) (he : GoodEigh eigh) {N : ℕ} (pol : Pol) (k u : R2)
    (g : Fin N → R2) (η : Matrix (Fin N) (Fin N) ℂ) (hη : η.PosSemidef) (htm : pol = .tm → ∀ i, kPlusG k (g i) ≠ (0, 0))
    (numeig i : ℕ) (s : Fin N) (V : Matrix (Fin N) (Fin N) ℂ)
    (hV : IsEigh (pweMat pol k g η + 1) (eigh N (pweMat pol k g η + 1)) V)
    (hsel : (solvePwe argsort (List.ofFn (eigh N (pweMat pol k g η + 1))) numeig).idx[i]? = some (s : ℕ)) (f : ℝ)
    (hf : f = freqOf (eigh N (pweMat pol k g η + 1) s)) (hf0 : f ≠ 0)
    (hne : ∀ m, m ≠ s → freqOf (eigh N (pweMat pol k g η + 1) m) ≠ f) :
    HasDerivAt (fun t : ℝ => (solvePwe argsort (List.ofFn (eigh N (pweMat pol (k.1 + t * u.1, k.2 + t * u.2) g η + 1)))
        numeig).freq.getD i 0)
      ((pweE η (modeD pol (fun i => kPlusG k (g i)) (fun j => V j s) (2 * π * f))).flux
        (modeH pol (fun i => kPlusG k (g i)) fun j => V j s) u / (2 * π)) 0 := by
  set A : ℝ → Matrix (Fin N) (Fin N) ℂ := fun t => pweMat pol (k.1 + t * u.1, k.2 + t * u.2) g η + 1 with hA
  have hA0 : A 0 = pweMat pol k g η + 1 := by simp [hA]
  have hAd : ∀ i j, HasDerivAt (fun t => A t i j)
      ((of fun i j => (pweFactor' pol (fun i => kPlusG k (g i)) u i j : ℂ) * η i j) i j) 0 := by
    intro i j
    have := (((pweFactor_deriv pol k u g htm i j).ofReal_comp).mul_const (η i j)).add_const
      ((1 : Matrix (Fin N) (Fin N) ℂ) i j)
    simp only [hA, Matrix.add_apply, pweMat_factor]
    exact this
  have hpos : 1 < eigh N (pweMat pol k g η + 1) s := by
    have h1 := eigh_ge hV 1 (fun y => by rw [qform_add_one]; linarith [qform_nonneg (C36_psd pol k g η hη) y]) s
    refine lt_of_le_of_ne h1 fun h => hf0 ?_
    rw [hf, ← h]
    simp [freqOf]
  have hd := simple_freq_deriv argsort hs eigh he A _ 0 hAd (fun t => pweMat_hermitian pol _ g η hη.1) V
    (by rw [hA0]; exact hV) numeig i s (by rw [hA0]; exact hsel) (by rw [hA0, ← hf]; exact hne) (by rw [hA0]; exact hpos.ne')
  rw [hA0] at hd
  refine hd.congr_deriv ?_
  have hw : 0 < eigh N (pweMat pol k g η + 1) s - 1 := by linarith
  have hr : √(eigh N (pweMat pol k g η + 1) s - 1) = 2 * π * f := by
    rw [hf, freqOf, abs_of_pos hw]
    have := Real.pi_ne_zero
    field_simp
  have h2 : 2 * π * f ≠ 0 := mul_ne_zero (mul_ne_zero two_ne_zero Real.pi_ne_zero) hf0
  rw [abs_of_pos hw, div_self hw.ne', one_mul, hr, pweFactor'_sandwich pol hη.1 _ u _ _ h2]
  have := Real.pi_ne_zero
  field_simp

/-- **C153 (energies).** The electric and the magnetic energy of a mode are equal: the mean of `D* · E` is that of `H* · H`. -/
theorem C153_energy {n : ℕ} (pol : Pol) (k : R2) (g : Fin n → R2) (η : Matrix (Fin n) (Fin n) ℂ) (x : Fin n → ℂ) (ω : ℝ)
    (hω : ω ≠ 0) (hx : pweMat pol k g η *ᵥ x = ((ω : ℂ) ^ 2) • x) :
    (modeD pol (fun i => kPlusG k (g i)) x ω).inner (pweE η (modeD pol (fun i => kPlusG k (g i)) x ω)) =
      (modeH pol (fun i => kPlusG k (g i)) x).inner (modeH pol (fun i => kPlusG k (g i)) x) := by
  have hω' : (ω : ℂ) ≠ 0 := by exact_mod_cast hω
  have hx' : ∀ i, ∑ j, pweMat pol k g η i j * x j = (ω : ℂ) ^ 2 * x i := by
    intro i
    have := congrFun hx i
    simpa [mulVec, dotProduct] using this
  have key : ∑ i, conj (x i) * x i = ∑ i, ∑ j, conj (x i) * (pweMat pol k g η i j * x j) / (ω : ℂ) ^ 2 := by
    refine sum_congr rfl fun i _ => ?_
    rw [← sum_div, ← mul_sum, hx']
    field_simp
  set q : Fin n → R2 := fun i => kPlusG k (g i) with hq
  cases pol with
  | te =>
    have hD : modeD .te q x ω = ⟨fun i => -((q i).2 * x i / ω), fun i => (q i).1 * x i / ω, fun _ => 0⟩ := by
      simp only [modeD, modeH, curl, FtField.weight, mul_zero, sub_zero, FtField.mk.injEq]
      refine ⟨funext fun i => ?_, funext fun i => ?_, trivial⟩
      · linear_combination ((q i).2 * x i / ω) * Complex.I_mul_I
      · linear_combination (-((q i).1 * x i / ω)) * Complex.I_mul_I
    have hHH : (modeH .te q x).inner (modeH .te q x) = ∑ i, conj (x i) * x i := by
      simp [FtField.inner, modeH]
    rw [hHH, key, hD]
    simp only [FtField.inner, pweE, mulVec, dotProduct, map_zero, zero_mul, add_zero, mul_sum, ← sum_add_distrib]
    refine sum_congr rfl fun i _ => sum_congr rfl fun j _ => ?_
    simp only [pweMat, of_apply, ← hq, map_neg, map_div₀, map_mul, Complex.conj_ofReal]
    change _ = conj (x i) * (((((q i).1 * (q j).1 + (q i).2 * (q j).2 : ℝ) : ℂ) * η i j) * x j) / (ω : ℂ) ^ 2
    push_cast
    field_simp
    ring
  | tm =>
    set r : Fin n → ℝ := fun i => √((q i).1 ^ 2 + (q i).2 ^ 2) with hr
    have hr2 : ∀ i, r i ^ 2 = (q i).1 ^ 2 + (q i).2 ^ 2 := fun i => Real.sq_sqrt (by positivity)
    have hM : ∀ i j, pweMat .tm k g η i j = ((r i * r j : ℝ) : ℂ) * η i j := fun i j => rfl
    have hz : ∀ i, r i = 0 → x i = 0 := by
      intro i h0
      have := hx' i
      simp only [hM, h0, zero_mul, Complex.ofReal_zero, sum_const_zero] at this
      rcases mul_eq_zero.1 this.symm with h | h
      · exact absurd h (pow_ne_zero 2 hω')
      · exact h
    have hD : modeD .tm q x ω = ⟨fun _ => 0, fun _ => 0, fun i => r i * x i / ω⟩ := by
      simp only [modeD, modeH, curl, FtField.weight, mul_zero, neg_zero, FtField.mk.injEq]
      refine ⟨trivial, trivial, funext fun i => ?_⟩
      by_cases h0 : r i = 0
      · simp [hz i h0]
      · have h1 : ((r i : ℝ) : ℂ) ≠ 0 := by exact_mod_cast h0
        have h2 : ((r i : ℝ) : ℂ) ^ 2 = ((q i).1 : ℂ) ^ 2 + ((q i).2 : ℂ) ^ 2 := by exact_mod_cast hr2 i
        change Complex.I / ω * (Complex.I * ((q i).1 * (x i * ((-(q i).1 / r i : ℝ) : ℂ)) - (q i).2 * (x i * (((q i).2 / r i : ℝ) : ℂ)))) = _
        push_cast
        field_simp
        linear_combination (-((q i).1 : ℂ) ^ 2 - ((q i).2 : ℂ) ^ 2) * x i * Complex.I_sq - x i * h2
    have hHH : (modeH .tm q x).inner (modeH .tm q x) = ∑ i, conj (x i) * x i := by
      unfold FtField.inner
      refine sum_congr rfl fun i _ => ?_
      change conj (x i * (((q i).2 / r i : ℝ) : ℂ)) * (x i * (((q i).2 / r i : ℝ) : ℂ)) +
        conj (x i * ((-(q i).1 / r i : ℝ) : ℂ)) * (x i * ((-(q i).1 / r i : ℝ) : ℂ)) + conj (0 : ℂ) * 0 = _
      by_cases h0 : r i = 0
      · simp [hz i h0]
      · have h1 : ((r i : ℝ) : ℂ) ≠ 0 := by exact_mod_cast h0
        have h2 : ((r i : ℝ) : ℂ) ^ 2 = ((q i).1 : ℂ) ^ 2 + ((q i).2 : ℂ) ^ 2 := by exact_mod_cast hr2 i
        simp only [map_mul, Complex.conj_ofReal]
        push_cast
        field_simp
        linear_combination (-1 : ℂ) * conj (x i) * x i * h2
    rw [hHH, key, hD]
    simp only [FtField.inner, pweE, mulVec, dotProduct, map_zero, zero_mul, zero_add, mul_sum, sum_const_zero]
    refine sum_congr rfl fun i _ => sum_congr rfl fun j _ => ?_
    simp only [hM, map_div₀, map_mul, Complex.conj_ofReal]
    push_cast
    field_simp

/-- Two plane waves with the wave vectors `(1, 1)` and `(-1, 1)` in a medium with the inverse permittivity 2. -/
example : (modeD .te (fun i => kPlusG (0, 1) (![(1, 0), (-1, 0)] i)) ![1, 1] 2).inner
      (pweE ((2 : ℂ) • 1) (modeD .te (fun i => kPlusG (0, 1) (![(1, 0), (-1, 0)] i)) ![1, 1] 2)) =
    (modeH .te (fun i => kPlusG (0, 1) (![(1, 0), (-1, 0)] i)) ![1, 1]).inner
      (modeH .te (fun i => kPlusG (0, 1) (![(1, 0), (-1, 0)] i)) ![1, 1]) := by
  refine C153_energy .te (0, 1) ![(1, 0), (-1, 0)] _ _ 2 two_ne_zero ?_
  ext i
  fin_cases i <;> simp [mulVec, dotProduct, pweMat, kPlusG, Fin.sum_univ_two] <;> norm_num

/-- **C153 (plane-wave expansion).** A run at the wave vector `k` for a layer as drawn by the library, and a returned
frequency which is not zero and which no other one equals. (TM: no plane wave has the wave vector zero.) The frequency
returned at the same position for the wave vectors `k + t u` has a derivative at `t = 0`: the energy flux of the mode along
`u` divided by `2 π`. -/
theorem C153_pwe (argsort : List ℝ → List ℕ) (hs : ∀ l, IsArgsort l (argsort l))
    (eigh : ∀ n, Matrix (Fin n) (Fin n) ℂ → Fin n → ℝ) (he : GoodEigh eigh) (L : PweLayer) (a1 a2 : R2)
    (sh : List Drawn) (hD : Draws a1 a2 L.b1 L.b2 L.epsB L.epsAvg L.ecArea sh) (hsh : L.shapes = sh.map Drawn.shape)
    (hr : ∀ s ∈ L.shapes, RealShape s) (lo hi gmax δ : ℝ) (hlo : lo ≤ L.epsB ∧ ∀ s ∈ L.shapes, lo ≤ s.eps)
    (hhi : L.epsB ≤ hi ∧ ∀ s ∈ L.shapes, s.eps ≤ hi)
    (hδ : δ = (L.gvec gmax).length * drawErr L.epsB L.ecArea sh) (hpos : δ < lo) (k u : R2) (pol : String) (p : Pol)
    (hp : pyLower pol = match p with | .te => ['t', 'e'] | .tm => ['t', 'm'])
    (htm : p = .tm → ∀ g ∈ L.gvec gmax, kPlusG k g ≠ (0, 0)) (numeig i : ℕ) (r : KRes)
    (hok : pweSim argsort eigh L gmax [k] pol numeig = .ok [r]) (s : Fin (L.gvec gmax).length)
    (hsel : r.idx[i]? = some (s : ℕ)) (V : Matrix (Fin (L.gvec gmax).length) (Fin (L.gvec gmax).length) ℂ)
    (hV : IsEigh (pweMat p k (L.gAt gmax) (L.epsMat gmax)⁻¹ + 1) (eigh _ (pweMat p k (L.gAt gmax) (L.epsMat gmax)⁻¹ + 1)) V)
    (f : ℝ) (hf : r.freq[i]? = some f) (hf0 : f ≠ 0) (fall : List ℝ)
    (hall : pweFreqs argsort eigh L gmax [k] pol (L.gvec gmax).length = .ok [fall]) (hne : ∀ j, j ≠ i → fall[j]? ≠ some f) :
    ∃ fs : ℝ → List ℝ, (∀ t, pweFreqs argsort eigh L gmax [(k.1 + t * u.1, k.2 + t * u.2)] pol numeig = .ok [fs t]) ∧
      fs 0 = r.freq ∧ HasDerivAt (fun t => (fs t).getD i 0)
        ((pweE (L.epsMat gmax)⁻¹ (modeD p (fun i => kPlusG k (L.gAt gmax i)) (fun j => V j s) (2 * π * f))).flux
          (modeH p (fun i => kPlusG k (L.gAt gmax i)) fun j => V j s) u / (2 * π)) 0 := by
  obtain ⟨-, cc⟩ := C101_pwe L a1 a2 _ hD hsh hr lo hi hlo hhi gmax
  rw [← hδ] at cc
  obtain ⟨hP, hdet, -⟩ := cc hpos
  have hr' : r = solvePwe argsort (List.ofFn (eigh _ (pweMat p k (L.gAt gmax) (L.epsMat gmax)⁻¹ + 1))) numeig := by
    unfold pweSim at hok
    rw [if_neg hdet, List.mapM_cons, List.mapM_nil] at hok
    simp only [pweRun, parsePol_ok pol p hp] at hok
    injection hok with hok
    injection hok with h1 h2
    exact h1.symm
  have hfs : f = freqOf (eigh _ (pweMat p k (L.gAt gmax) (L.epsMat gmax)⁻¹ + 1) s) := by
    rw [hr'] at hf hsel
    unfold solvePwe at hf hsel
    simp only [List.getElem?_map] at hf hsel
    rw [hsel, Option.map_some, Option.some.injEq, ofFn_map_getD _ _ s.2] at hf
    exact hf.symm
  set w := eigh _ (pweMat p k (L.gAt gmax) (L.epsMat gmax)⁻¹ + 1) with hw
  have hsel' := (hs ((List.ofFn w).map freqOf)).1
  rw [List.length_map, List.length_ofFn] at hsel'
  have hne' : ∀ m, m ≠ s → freqOf (w m) ≠ f := by
    intro m hm
    rw [hfs]
    refine others_differ (fun m => freqOf (w m)) _ hsel' i s ?_ (fun j hj => ?_) m hm
    · rw [hr'] at hsel
      change ((argsort ((List.ofFn w).map freqOf)).take numeig)[i]? = _ at hsel
      by_cases h : i < numeig
      · rwa [List.getElem?_take_of_lt h] at hsel
      · rw [List.getElem?_eq_none (by rw [List.length_take]; omega)] at hsel
        cases hsel
    · have := hne j hj
      rw [pweFreqs_ok argsort eigh L gmax hdet _ pol p hp _] at hall
      injection hall with hall
      injection hall with h1 h2
      rw [← h1, hfs] at this
      change ((((argsort ((List.ofFn w).map freqOf)).take (L.gvec gmax).length)).map fun (i : ℕ) =>
        ((List.ofFn w).map freqOf).getD i 0)[j]? ≠ _ at this
      rw [List.take_of_length_le (by rw [hsel'.length_eq, List.length_range])] at this
      rw [show (List.ofFn fun m => freqOf (w m)) = (List.ofFn w).map freqOf by rw [List.map_ofFn]; rfl]
      exact this
  refine ⟨fun t => (solvePwe argsort (List.ofFn (eigh _ (pweMat p (k.1 + t * u.1, k.2 + t * u.2) (L.gAt gmax)
    (L.epsMat gmax)⁻¹ + 1))) numeig).freq, fun t => ?_, ?_, ?_⟩
  · rw [pweFreqs_ok argsort eigh L gmax hdet _ pol p hp numeig]
    rfl
  · simp [hr', hw]
  · exact C153_slope argsort hs eigh he p k u (L.gAt gmax) _ hP.inv.posSemidef
      (fun h i => htm h _ (List.getElem_mem _)) numeig i s V hV (by rw [← hr']; exact hsel) f hfs hf0 hne'

/-- The holes of C102 with a single plane wave, along the direction of the wave vector. -/
example (argsort : List ℝ → List ℕ) (hs : ∀ l, IsArgsort l (argsort l))
    (eigh : ∀ n, Matrix (Fin n) (Fin n) ℂ → Fin n → ℝ) (he : GoodEigh eigh) :
    ∃ (fs : ℝ → List ℝ) (v : ℝ), (∀ t, pweFreqs argsort eigh holesLayer 0 [(1 + t * 1, 0 + t * 0)] "tm" 1 = .ok [fs t]) ∧
      HasDerivAt (fun t => (fs t).getD 0 0) v 0 := by
  have hg : holesLayer.gvec 0 = [(0, 0)] := by
    have h0 : tbtInds 0 0 = [(0, 0)] := by decide
    simp [PweLayer.gvec, PweLayer.n1, PweLayer.n2, nmaxOf, h0, gOf]
  have hlen : (holesLayer.gvec 0).length = 1 := by rw [hg]; rfl
  obtain ⟨-, cc⟩ := C101_pwe holesLayer (1, 0) (0, 1) [drawnCircle 1 ⟨0, 0, 0.2⟩] square_holes rfl holes_real 1 12
    (by simp [holesLayer]) (by simp [holesLayer]) 0
  obtain ⟨hP, hdet, hPi⟩ := cc (holes_err _ (by rw [hlen]; norm_num))
  set M := pweMat .tm (1, 0) (holesLayer.gAt 0) (holesLayer.epsMat 0)⁻¹ with hM
  have hMH : (M + 1).IsHermitian := (C36_psd .tm (1, 0) (holesLayer.gAt 0) _ hPi.posSemidef).1.add isHermitian_one
  obtain ⟨V, hV⟩ := he _ _ hMH
  set s : Fin (holesLayer.gvec 0).length := ⟨0, by rw [hlen]; exact one_pos⟩ with hs0
  have hgs : ∀ i, holesLayer.gAt 0 i = (0, 0) := by
    intro i
    have : holesLayer.gAt 0 i ∈ holesLayer.gvec 0 := List.getElem_mem _
    rw [hg, List.mem_singleton] at this
    exact this
  have hw : 0 < eigh _ (M + 1) s - 1 := by
    have h1 := eigh_one hlen hV s
    have h2 : M s s = (holesLayer.epsMat 0)⁻¹ s s := by
      simp [hM, pweMat, hgs, kPlusG]
    have h3 : 0 < (holesLayer.epsMat 0)⁻¹ s s := hPi.diag_pos
    rw [h2] at h1
    rw [← h1] at h3
    exact_mod_cast h3
  have hone : argsort ((List.ofFn (eigh _ (M + 1))).map freqOf) = [0] := by
    have := (hs ((List.ofFn (eigh _ (M + 1))).map freqOf)).1
    have h2 : List.range (holesLayer.gvec 0).length = [0] := by rw [hlen]; rfl
    rw [List.length_map, List.length_ofFn, h2] at this
    exact List.perm_singleton.1 this
  have hidx : (solvePwe argsort (List.ofFn (eigh _ (M + 1))) 1).idx = [0] := by
    unfold solvePwe
    simp only [hone]
    rfl
  have hfr : ∀ n, n = 1 → (solvePwe argsort (List.ofFn (eigh _ (M + 1))) n).freq = [freqOf (eigh _ (M + 1) s)] := by
    rintro _ rfl
    unfold solvePwe
    simp only [hone]
    rw [show List.take 1 [0] = [0] from rfl, List.map_singleton, ofFn_map_getD _ _ s.2]
  have hfr0 : freqOf (eigh _ (M + 1) s) ≠ 0 := by
    unfold freqOf
    rw [abs_of_pos hw]
    exact div_ne_zero (div_ne_zero (Real.sqrt_ne_zero'.2 hw) two_ne_zero) Real.pi_ne_zero
  obtain ⟨fs, h1, -, h3⟩ := C153_pwe argsort hs eigh he holesLayer (1, 0) (0, 1) [drawnCircle 1 ⟨0, 0, 0.2⟩] square_holes rfl
    holes_real 1 12 0 _ (by simp [holesLayer]) (by simp [holesLayer]) rfl (holes_err _ (by rw [hlen]; norm_num)) (1, 0) (1, 0) "tm" .tm
    (by decide) (fun _ g hg' => by rw [hg, List.mem_singleton] at hg'; rw [hg']; simp [kPlusG]) 1 0
    (solvePwe argsort (List.ofFn (eigh _ (M + 1))) 1) (by
      unfold pweSim
      rw [if_neg hdet, List.mapM_cons, List.mapM_nil]
      simp only [pweRun, parsePol_ok "tm" .tm (by decide)]
      rfl) s (by rw [hidx]; rfl) V hV _ (by rw [hfr 1 rfl]; rfl) hfr0 _
    (by rw [pweFreqs_ok argsort eigh holesLayer 0 hdet _ "tm" .tm (by decide)]; rfl) (fun j hj => by
      show (solvePwe argsort (List.ofFn (eigh _ (M + 1))) _).freq[j]? ≠ _
      rw [hfr _ hlen, List.getElem?_eq_none (by simp; omega)]
      simp)
  exact ⟨fs, _, h1, h3⟩

/-! ### Excitons -/

/-- The sorted eigenvalues of a continuous family of Hermitian matrices are continuous. -/
theorem eig_continuous {T : Type*} [TopologicalSpace T] (eigh : ∀ n, Matrix (Fin n) (Fin n) ℂ → Fin n → ℝ) (he : GoodEigh eigh)
    {n : ℕ} (A : T → Matrix (Fin n) (Fin n) ℂ) (hH : ∀ t, (A t).IsHermitian) (t0 : T)
    (hc : ∀ i j, ContinuousAt (fun t => A t i j) t0) (j : ℕ) :
    ContinuousAt (fun t => ((List.ofFn (eigh n (A t))).mergeSort).getD j 0) t0 := by
  have hlen : ∀ t, ((List.ofFn (eigh n (A t))).mergeSort).length = n := by
    intro t
    rw [(List.mergeSort_perm _ _).length_eq, List.length_ofFn]
  by_cases hj : j < n
  swap
  · have : (fun t => ((List.ofFn (eigh n (A t))).mergeSort).getD j 0) = fun _ => (0 : ℝ) := by
      funext t
      rw [List.getD_eq_getElem?_getD, List.getElem?_eq_none (by rw [hlen]; omega), Option.getD_none]
    rw [this]
    exact continuousAt_const
  have hg : ∀ t, ((List.ofFn (eigh n (A t))).mergeSort).getD j 0 =
      ((List.ofFn (eigh n (A t))).mergeSort)[j]'(by rw [hlen]; exact hj) := by
    intro t
    rw [List.getD_eq_getElem?_getD, List.getElem?_eq_getElem (by rw [hlen]; exact hj), Option.getD_some]
  set e : T → ℝ := fun t => ∑ i, ∑ j, ‖A t i j - A t0 i j‖ with hed
  have hent : ∀ t i j, ‖A t i j - A t0 i j‖ ≤ e t := by
    intro t i j
    refine le_trans ?_ (single_le_sum (f := fun i => ∑ j, ‖A t i j - A t0 i j‖) (fun _ _ => sum_nonneg fun _ _ => norm_nonneg _)
      (mem_univ i))
    exact single_le_sum (f := fun j => ‖A t i j - A t0 i j‖) (fun _ _ => norm_nonneg _) (mem_univ j)
  have helim : Tendsto (fun t => (n : ℝ) * e t) (𝓝 t0) (𝓝 0) := by
    have h1 : Tendsto e (𝓝 t0) (𝓝 (∑ i : Fin n, ∑ j : Fin n, (0 : ℝ))) := by
      refine tendsto_finsetSum _ fun i _ => tendsto_finsetSum _ fun j _ => ?_
      have := ((hc i j).sub (continuousAt_const (y := A t0 i j))).norm
      simpa [ContinuousAt] using this
    simpa using h1.const_mul (n : ℝ)
  have key : ∀ (t t' : T) (d : ℝ), (∀ x, |qform (A t') x - qform (A t) x| ≤ d * ∑ i, ‖x i‖ ^ 2) →
      ((List.ofFn (eigh n (A t))).mergeSort)[j]'(by rw [hlen]; exact hj) ≤
        ((List.ofFn (eigh n (A t'))).mergeSort)[j]'(by rw [hlen]; exact hj) + d := by
    intro t t' d h
    obtain ⟨V, hV⟩ := he _ _ (hH t)
    obtain ⟨V', hV'⟩ := he _ _ (hH t')
    refine sorted_shift (List.pairwise_mergeSort' (· ≤ ·) _) (List.pairwise_mergeSort' (· ≤ ·) _) d (fun r => ?_) j _ _
    rw [(List.mergeSort_perm _ _).countP_eq, (List.mergeSort_perm _ _).countP_eq, countP_ofFn, countP_ofFn]
    exact eigh_count_shift hV hV' d (fun x => by linarith [(abs_le.1 (h x)).1]) r
  rw [ContinuousAt, tendsto_iff_dist_tendsto_zero]
  refine squeeze_zero (fun _ => dist_nonneg) (fun t => ?_) helim
  rw [Real.dist_eq, hg, hg]
  have hb := qform_entry_bound (A t0) (A t) (e t) (hent t)
  have k1 := key t t0 _ (fun x => by rw [abs_sub_comm]; exact hb x)
  have k2 := key t0 t _ hb
  rw [abs_le]
  constructor <;> linarith

theorem ofFn_sub_getD {N : ℕ} (w : Fin N → ℝ) (m : ℕ) (hm : m < N) :
    ((List.ofFn w).map (· - 1)).getD m 0 = w ⟨m, hm⟩ - 1 := by
  rw [List.getD_eq_getElem?_getD, List.getElem?_eq_getElem (by simpa using hm), Option.getD_some]
  simp

/-- The derivative of an energy of an exciton which no other energy equals. -/
theorem simple_ener_deriv (argsort : List ℝ → List ℕ) (hs : ∀ l, IsArgsort l (argsort l))
    (eigh : ∀ n, Matrix (Fin n) (Fin n) ℂ → Fin n → ℝ) (he : GoodEigh eigh) {N : ℕ} (A : ℝ → Matrix (Fin N) (Fin N) ℂ)
    (A' : Matrix (Fin N) (Fin N) ℂ) (t0 : ℝ) (hA : ∀ i j, HasDerivAt (fun t => A t i j) (A' i j) t0)
    (hH : ∀ t, (A t).IsHermitian) (V : Matrix (Fin N) (Fin N) ℂ) (h0 : IsEigh (A t0) (eigh N (A t0)) V) (numeig i : ℕ)
    (s : Fin N) (hsel : (excSelect argsort (List.ofFn (eigh N (A t0))) numeig).1[i]? = some (s : ℕ))
    (hne : ∀ m, m ≠ s → eigh N (A t0) m ≠ eigh N (A t0) s) :
    HasDerivAt (fun t => (excSelect argsort (List.ofFn (eigh N (A t))) numeig).2.getD i 0)
      (sandwich (fun j => V j s) A' fun j => V j s).re t0 := by
  obtain ⟨ω, hω, hω0, hωd⟩ := eig_branch_one A A' t0 hA hH (fun t => eigh N (A t)) (fun t => he _ _ (hH t)) V h0 s hne
  set F : ℝ → List ℝ := fun t => ((List.ofFn (eigh N (A t))).mergeSort).map (· - 1) with hF
  have hperm : ∀ t, (F t).Perm ((List.ofFn (eigh N (A t))).map (· - 1)) := fun t => (List.mergeSort_perm _ _).map _
  have hlen : ∀ t, (F t).length = N := by
    intro t
    rw [(hperm t).length_eq]
    simp
  have htk : ∀ t m, (excSelect argsort (List.ofFn (eigh N (A t))) m).2 = (F t).take m := by
    intro t m
    refine excSelect_take argsort hs _ _ (hperm t) ?_ m
    rw [hF, List.pairwise_map]
    exact (List.pairwise_mergeSort' (· ≤ ·) _).imp fun h => by linarith
  have hc : ∀ j, ContinuousAt (fun t => (F t).getD j 0) t0 := by
    intro j
    by_cases hj : j < N
    · have := (eig_continuous eigh he A hH t0 (fun i j => (hA i j).continuousAt) j).sub (continuousAt_const (y := (1 : ℝ)))
      refine this.congr (Eventually.of_forall fun t => ?_)
      have h1 : j < ((List.ofFn (eigh N (A t))).mergeSort).length := by
        rw [(List.mergeSort_perm _ _).length_eq, List.length_ofFn]; exact hj
      show ((List.ofFn (eigh N (A t))).mergeSort).getD j 0 - 1 = (((List.ofFn (eigh N (A t))).mergeSort).map (· - 1)).getD j 0
      rw [List.getD_eq_getElem?_getD, List.getD_eq_getElem?_getD, List.getElem?_map, List.getElem?_eq_getElem h1, Option.map_some,
        Option.getD_some, Option.getD_some]
    · have : (fun t => (F t).getD j 0) = fun _ => (0 : ℝ) := by
        funext t
        rw [List.getD_eq_getElem?_getD, List.getElem?_eq_none (by rw [hlen]; omega), Option.getD_none]
      rw [this]
      exact continuousAt_const
  set sel := argsort ((List.ofFn (eigh N (A t0))).map (· - 1)) with hseld
  obtain ⟨s1, -⟩ := hs ((List.ofFn (eigh N (A t0))).map (· - 1))
  rw [List.length_map, List.length_ofFn, ← hseld] at s1
  have hslen : sel.length = N := by rw [s1.length_eq, List.length_range]
  have hnd : sel.Nodup := s1.nodup_iff.2 List.nodup_range
  have hi : i < numeig ∧ sel[i]? = some (s : ℕ) := by
    change (sel.take numeig)[i]? = some (s : ℕ) at hsel
    by_cases h : i < numeig
    · rw [List.getElem?_take_of_lt h] at hsel
      exact ⟨h, hsel⟩
    · rw [List.getElem?_eq_none (by rw [List.length_take]; omega)] at hsel
      cases hsel
  have hF0 : ∀ j, (hj : j < N) → ∃ m : Fin N, sel[j]? = some (m : ℕ) ∧ (F t0).getD j 0 = eigh N (A t0) m - 1 := by
    intro j hj
    have hj' : j < sel.length := by rw [hslen]; exact hj
    have hm : sel[j] < N := List.mem_range.1 (s1.mem_iff.1 (List.getElem_mem hj'))
    refine ⟨⟨sel[j], hm⟩, List.getElem?_eq_getElem hj', ?_⟩
    have e : F t0 = (excSelect argsort (List.ofFn (eigh N (A t0))) N).2 := by
      rw [htk, List.take_of_length_le (hlen t0).le]
    rw [e]
    unfold excSelect
    simp only
    rw [← hseld, List.take_of_length_le hslen.le, List.getD_eq_getElem?_getD, List.getElem?_map,
      List.getElem?_eq_getElem hj', Option.map_some, Option.getD_some]
    exact ofFn_sub_getD _ _ hm
  have hiN : i < N := by
    have := (List.getElem?_eq_some_iff.1 hi.2).1
    rwa [hslen] at this
  have hFi : (F t0).getD i 0 = eigh N (A t0) s - 1 := by
    obtain ⟨m, hm, e⟩ := hF0 i hiN
    rw [hi.2] at hm
    rw [e, Fin.ext (Option.some.inj hm)]
  have hfol := follow_one F t0 hlen hc i (fun j hj hji => by
      obtain ⟨m, hm, e⟩ := hF0 j hj
      rw [hFi, e]
      refine fun h => hne m (fun hms => hji ?_) (sub_left_inj.1 h)
      rw [hms] at hm
      have hj' : j < sel.length := by rw [hslen]; exact hj
      exact (List.getElem?_inj hj' hnd).1 (hm.trans hi.2.symm))
    (fun t => ω t - 1) (fun t => by
      obtain ⟨j, e⟩ := hω t
      rw [e, (hperm t).mem_iff, List.mem_map]
      exact ⟨_, (List.mem_ofFn' _ _).2 ⟨j, rfl⟩, rfl⟩)
    (hωd.continuousAt.sub continuousAt_const) (by rw [hFi, hω0])
  refine (hωd.sub_const 1).congr_of_eventuallyEq ?_
  filter_upwards [hfol] with t ht
  rw [← ht, htk, List.getD_eq_getElem?_getD, List.getElem?_take_of_lt hi.1, ← List.getD_eq_getElem?_getD]

theorem excKin_deriv (hbar e a M : ℝ) (k u g : R2) :
    HasDerivAt (fun t : ℝ => excKin hbar e a M (k.1 + t * u.1, k.2 + t * u.2) g)
      (hbar ^ 2 / (M * a ^ 2 * e) * ((k.1 + g.1) * u.1 + (k.2 + g.2) * u.2)) 0 := by
  have hl : ∀ a b c : ℝ, HasDerivAt (fun t : ℝ => a + t * b + c) b 0 := by
    intro a b c
    simpa using (((hasDerivAt_id (0 : ℝ)).mul_const b).const_add a).add_const c
  have e1 : (fun t : ℝ => excKin hbar e a M (k.1 + t * u.1, k.2 + t * u.2) g) = fun t : ℝ =>
      (((k.1 + t * u.1 + g.1) / a) ^ 2 + ((k.2 + t * u.2 + g.2) / a) ^ 2) * hbar ^ 2 / (2 * M * e) := by
    funext t
    unfold excKin
    rw [Real.sq_sqrt (by positivity)]
  rw [e1]
  have := ((((((hl k.1 u.1 g.1).div_const a).pow 2).add (((hl k.2 u.2 g.2).div_const a).pow 2)).mul_const
    (hbar ^ 2)).div_const (2 * M * e))
  refine this.congr_deriv ?_
  simp only [zero_mul, add_zero]
  push_cast
  by_cases h1 : M = 0
  · simp [h1]
  by_cases h2 : a = 0
  · simp [h2]
  by_cases h3 : e = 0
  · simp [h3]
  field_simp

/-- **C153 (excitons).** A run of an exciton at the wave vector `k` and a returned energy which no other one equals. The energy
returned at the same position for `k + t u` has a derivative at `t = 0`: `hbar² / (M a² e)` times the mean of the wave vector
along `u` over the plane waves of the wave function. -/
theorem C153_exc (argsort : List ℝ → List ℕ) (hs : ∀ l, IsArgsort l (argsort l))
    (eigh : ∀ n, Matrix (Fin n) (Fin n) ℂ → Fin n → ℝ) (he : GoodEigh eigh)
    (vecs : ∀ n, Matrix (Fin n) (Fin n) ℂ → Matrix (Fin n) (Fin n) ℂ)
    (hvecs : ∀ n (A : Matrix (Fin n) (Fin n) ℂ), A.IsHermitian → IsEigh A (eigh n A) (vecs n A)) (W : ExcWell)
    (hb : Resolved W.b1 W.b2) (hr : ∀ s ∈ W.shapes, RealFt s) (t : TruncG) (gmax : ℝ) (hg : 0 ≤ gmax) (k u : R2) (numeig i : ℕ)
    (hi : i < numeig) (hiN : i < (W.gvec t gmax).length) (es : List ℂ) (idx : List ℕ)
    (hok : excSim argsort eigh W t gmax [k] (W.gvec t gmax).length = .ok [(idx, es)]) (hne : ∀ j, j ≠ i → es[j]? ≠ es[i]?) :
    ∃ (x : Fin (W.gvec t gmax).length → ℂ) (E : ℝ → List ℕ × List ℂ),
      excWaveFt argsort eigh vecs W t gmax k numeig i = .ok x ∧ ∑ j, ‖x j‖ ^ 2 = 1 ∧
      (∀ τ, excSim argsort eigh W t gmax [(k.1 + τ * u.1, k.2 + τ * u.2)] numeig = .ok [E τ]) ∧
      HasDerivAt (fun τ => ((E τ).2.getD i 0).re) (W.hbar ^ 2 / (W.M * W.a ^ 2 * W.e) *
        ∑ j, ((k.1 + (W.gvec t gmax)[j].1) * u.1 + (k.2 + (W.gvec t gmax)[j].2) * u.2) * ‖x j‖ ^ 2) 0 := by
  set N := (W.gvec t gmax).length with hN
  set A : ℝ → Matrix (Fin N) (Fin N) ℂ := fun τ => W.ham t gmax (k.1 + τ * u.1, k.2 + τ * u.2) + 1 with hA
  have hA0 : A 0 = W.ham t gmax k + 1 := by simp [hA]
  have hH : ∀ τ, (A τ).IsHermitian := fun τ => (excWell_ham_hermitian W hr t gmax _).add isHermitian_one
  set w := eigh N (W.ham t gmax k + 1) with hw
  set sel := argsort ((List.ofFn w).map (· - 1)) with hseld
  have hperm := (hs ((List.ofFn w).map (· - 1))).1
  rw [List.length_map, List.length_ofFn, ← hseld] at hperm
  have hslen : sel.length = N := by rw [hperm.length_eq, List.length_range]
  have hi' : i < sel.length := by rw [hslen]; exact hiN
  have hsN : sel[i] < N := List.mem_range.1 (hperm.mem_iff.1 (List.getElem_mem hi'))
  set s : Fin N := ⟨sel[i], hsN⟩ with hsd
  have hsi : sel[i]? = some (s : ℕ) := List.getElem?_eq_getElem hi'
  have hsel : (excSelect argsort (List.ofFn w) numeig).1[i]? = some (s : ℕ) := by
    change (sel.take numeig)[i]? = _
    rw [List.getElem?_take_of_lt hi, hsi]
  have hd : ∀ m, m ≠ s → w m ≠ w s := by
    intro m hm h
    refine others_differ (fun m => w m - 1) sel hperm i s hsi (fun j hj => ?_) m hm (by rw [h])
    rw [excSim_ok argsort eigh W hb hr t gmax hg] at hok
    injection hok with hok
    injection hok with h1 h2
    have hes : es = (sel.map fun (a : ℕ) => ((List.ofFn w).map (· - 1)).getD a 0).map fun (x : ℝ) =>
        ((x : ℂ) + W.E0 + Complex.I * W.loss) := by
      refine (congrArg Prod.snd h1).symm.trans ?_
      change ((sel.take N).map fun (a : ℕ) => ((List.ofFn w).map (· - 1)).getD a 0).map _ = _
      rw [List.take_of_length_le hslen.le]
    have := hne j hj
    rw [hes, List.map_ofFn] at this
    intro h4
    apply this
    have h5 : (sel.map fun (a : ℕ) => (List.ofFn ((· - 1) ∘ w)).getD a 0)[i]? = some (w s - 1) := by
      rw [List.getElem?_map, hsi, Option.map_some, List.getD_eq_getElem?_getD, List.getElem?_eq_getElem (by simp),
        Option.getD_some]
      simp
    have h6 : (sel.map fun (a : ℕ) => (List.ofFn ((· - 1) ∘ w)).getD a 0)[j]? = some (w s - 1) := h4
    exact List.getElem?_map.trans ((congrArg _ (h6.trans h5.symm)).trans List.getElem?_map.symm)
  have hV := hvecs N (W.ham t gmax k + 1) (by rw [← hA0]; exact hH 0)
  have hder : ∀ a b, HasDerivAt (fun τ => A τ a b) (diagonal (fun j : Fin N => ((W.hbar ^ 2 / (W.M * W.a ^ 2 * W.e) *
      ((k.1 + (W.gvec t gmax)[j].1) * u.1 + (k.2 + (W.gvec t gmax)[j].2) * u.2) : ℝ) : ℂ)) a b) 0 := by
    intro a b
    by_cases hab : a = b
    · subst hab
      have := (((excKin_deriv W.hbar W.e W.a W.M k u ((W.gvec t gmax)[a])).ofReal_comp).add_const
        ((of fun i j : Fin N => W.ft (latVec W.b1 W.b2 (W.idx t gmax j - W.idx t gmax i))) a a)).add_const
        ((1 : Matrix (Fin N) (Fin N) ℂ) a a)
      rw [diagonal_apply_eq]
      refine this.congr_of_eventuallyEq (Eventually.of_forall fun τ => ?_)
      simp [hA, ExcWell.ham, excMat]
    · rw [diagonal_apply_ne _ hab]
      have : (fun τ => A τ a b) = fun _ => (of fun i j : Fin N => W.ft (latVec W.b1 W.b2 (W.idx t gmax j - W.idx t gmax i))) a b := by
        funext τ
        simp [hA, ExcWell.ham, excMat, hab]
      rw [this]
      exact hasDerivAt_const _ _
  have hmain := simple_ener_deriv argsort hs eigh he A _ 0 hder hH (vecs N (W.ham t gmax k + 1)) (by rw [hA0]; exact hV) numeig i s
    (by rw [hA0]; exact hsel) (by rw [hA0]; exact hd)
  refine ⟨fun j => vecs N (W.ham t gmax k + 1) j s, fun τ => ((excRes argsort eigh W t gmax numeig (k.1 + τ * u.1, k.2 + τ * u.2)).1,
    (excRes argsort eigh W t gmax numeig (k.1 + τ * u.1, k.2 + τ * u.2)).2.map fun (x : ℝ) => ((x : ℂ) + W.E0 + Complex.I * W.loss)),
    excWaveFt_ok argsort eigh vecs W hb hr t gmax hg k numeig i s hsel hsN, ?_, fun τ => ?_, ?_⟩
  · have := isEigh_orth hV s s
    rw [if_pos rfl] at this
    have h2 := congrArg Complex.re this
    rw [Complex.re_sum, Complex.one_re] at h2
    rw [← h2]
    refine sum_congr rfl fun j _ => ?_
    rw [← Complex.normSq_eq_conj_mul_self, Complex.ofReal_re, Complex.normSq_eq_norm_sq]
  · rw [excSim_ok argsort eigh W hb hr t gmax hg]
    rfl
  · have hlen : ∀ τ, i < (excSelect argsort (List.ofFn (eigh N (A τ))) numeig).2.length := by
      intro τ
      rw [excSelect_length argsort hs, List.length_ofFn]
      exact lt_min hi hiN
    have e : (fun τ : ℝ => ((((excRes argsort eigh W t gmax numeig (k.1 + τ * u.1, k.2 + τ * u.2)).2.map fun (x : ℝ) =>
        ((x : ℂ) + W.E0 + Complex.I * W.loss))).getD i 0).re) =
        fun τ => (excSelect argsort (List.ofFn (eigh N (A τ))) numeig).2.getD i 0 + W.E0 := by
      funext τ
      change ((((excSelect argsort (List.ofFn (eigh N (A τ))) numeig).2.map fun (x : ℝ) =>
        ((x : ℂ) + W.E0 + Complex.I * W.loss))).getD i 0).re = _
      rw [List.getD_eq_getElem?_getD, List.getD_eq_getElem?_getD, List.getElem?_map, List.getElem?_eq_getElem (hlen τ),
        Option.map_some, Option.getD_some, Option.getD_some]
      simp
    rw [show (fun τ : ℝ => ((((excRes argsort eigh W t gmax numeig (k.1 + τ * u.1, k.2 + τ * u.2)).1,
        (excRes argsort eigh W t gmax numeig (k.1 + τ * u.1, k.2 + τ * u.2)).2.map fun (x : ℝ) =>
        ((x : ℂ) + W.E0 + Complex.I * W.loss)) : List ℕ × List ℂ).2.getD i 0).re) = _ from e]
    refine (hmain.add_const W.E0).congr_deriv ?_
    unfold sandwich
    rw [Complex.re_sum, mul_sum]
    refine sum_congr rfl fun j _ => ?_
    rw [sum_eq_single j (fun b _ hb => by rw [diagonal_apply_ne _ (Ne.symm hb)]; simp) (fun h => absurd (mem_univ j) h),
      diagonal_apply_eq, mul_right_comm, ← Complex.normSq_eq_conj_mul_self, ← Complex.ofReal_mul, Complex.ofReal_re,
      Complex.normSq_eq_norm_sq]
    ring

/-- Two discs with a single plane wave. -/
example (J : ℝ → ℝ) (argsort : List ℝ → List ℕ) (hs : ∀ l, IsArgsort l (argsort l))
    (eigh : ∀ n, Matrix (Fin n) (Fin n) ℂ → Fin n → ℝ) (he : GoodEigh eigh)
    (vecs : ∀ n, Matrix (Fin n) (Fin n) ℂ → Matrix (Fin n) (Fin n) ℂ)
    (hvecs : ∀ n (A : Matrix (Fin n) (Fin n) ℂ), A.IsHermitian → IsEigh A (eigh n A) (vecs n A)) (k u : R2)
    (hb : Resolved (twoDiscs J).b1 (twoDiscs J).b2) (hr : ∀ s ∈ (twoDiscs J).shapes, RealFt s) :
    ∃ (E : ℝ → List ℕ × List ℂ) (v : ℝ),
      (∀ τ, excSim argsort eigh (twoDiscs J) .tbt 0 [(k.1 + τ * u.1, k.2 + τ * u.2)] 1 = .ok [E τ]) ∧
      HasDerivAt (fun τ => ((E τ).2.getD 0 0).re) v 0 := by
  have hlen : ((twoDiscs J).gvec .tbt 0).length = 1 := by rw [excWell_len, one_wave]; rfl
  obtain ⟨r, h1, h2⟩ := excSim_one argsort hs eigh he (twoDiscs J) hb hr .tbt 0 le_rfl (one_wave _) k
  obtain ⟨x, E, -, -, h3, h4⟩ := C153_exc argsort hs eigh he vecs hvecs (twoDiscs J) hb hr .tbt 0 le_rfl k u 1 0 one_pos
    (by rw [hlen]; exact one_pos) r.2 r.1 (by rw [hlen]; exact h1) (fun j hj => by
      rw [h2, List.getElem?_eq_none (by simp; omega)]
      simp)
  exact ⟨E, _, h3, h4⟩

end Legume
