import Verif.Lemmas.RadOverlap
import Verif.Props.GuidedRun
import Verif.Props.GmeBounds

/-!
# C119: radiative couplings as overlaps; C120: energy of radiative modes

The couplings stored by a run with `compute_im=True` are the overlap integrals of the electric field of the mode with the
displacement field of the waves that leave through one of the claddings. These waves exist whenever the channel is open, and
they conserve energy.
-/
namespace Legume

open Matrix MeasureTheory
open scoped ComplexConjugate
open Spec

/-- The permittivities of a slab from the lower to the upper cladding. -/
def slabEps (e0 eN : ℝ) (ls : List (ℝ × ℝ)) : List ℝ := e0 :: ls.map Prod.fst ++ [eN]

/-- The amplitude of the partial wave by which radiative waves are normalised. -/
noncomputable def waveNorm (pol : Pol) (e om : ℝ) : ℂ :=
  match pol with
  | .te => 1 / ((√e : ℝ) : ℂ) / om
  | .tm => 1

/-- The phase of couplings to radiative waves. -/
noncomputable def wavePhase (pol : Pol) : ℂ :=
  match pol with
  | .te => -Complex.I
  | .tm => 1

/-- A wave at the plane wave `p` and the angular frequency `om` that leaves through one cladding (the upper one if `u`): its
tangential components are continuous at all interfaces, in the other cladding there is one partial wave only, and the one
without a partner there has the amplitude `1` (TM) or `1 / (√eps om)` (TE). -/
structure RadWave (pol : Pol) (u : Bool) (om e0 eN : ℝ) (ls : List (ℝ × ℝ)) (p : R2) (t : GmeState) : Prop where
  pol_eq : t.pol = pol
  plane : (t.gx, t.gy) = p
  om_eq : t.om = om
  chi_eq : t.layers.map ModeL.x = (slabEps e0 eN ls).map (chi om (planeAbs p))
  fields : List.IsChain (Interface pol om (max (planeAbs p) 1e-10))
    (((e0, 0) :: ls ++ [(eN, 0)]).zip (t.layers.map fun m : ModeL => (m.A, m.B)))
  lower : ∃ m, t.layers.head? = some m ∧
    m.A = if u then 0 else waveNorm pol e0 om
  upper : ∃ m, t.layers.getLast? = some m ∧
    m.B = if u then waveNorm pol eN om else 0

/-- The channel `p` is open in the cladding `u`, and no layer is on its light line. -/
structure OpenWave (u : Bool) (om e0 eN : ℝ) (ls : List (ℝ × ℝ)) (p : R2) : Prop where
  off : ∀ e ∈ slabEps e0 eN ls, e * om ^ 2 ≠ (max (planeAbs p) 1e-10) ^ 2
  opn : (max (planeAbs p) 1e-10) ^ 2 ≤ (if u then eN else e0) * om ^ 2

theorem OpenWave.lt {u : Bool} {om e0 eN : ℝ} {ls : List (ℝ × ℝ)} {p : R2} (h : OpenWave u om e0 eN ls p) :
    (max (planeAbs p) 1e-10) ^ 2 < (if u then eN else e0) * om ^ 2 := by
  refine lt_of_le_of_ne h.opn (Ne.symm (h.off _ ?_))
  cases u <;> simp [slabEps]

theorem slab_zipWith {α : Type} (om g : ℝ) (es : List ℝ) (xy : List (ℂ × ℂ)) (hl : xy.length = es.length)
    (f : ModeL → α) (k : ℂ × ℂ → ℂ → α) (hf : ∀ (e : ℝ) (c : ℂ × ℂ), f ⟨c.2, c.1, chi om g e⟩ = k c (chi om g e)) :
    (List.zipWith (fun e c => (⟨c.2, c.1, chi om g e⟩ : ModeL)) es xy).map f =
      List.zipWith (fun e c => k c (chi om g e)) es xy := by
  rw [List.map_zipWith]
  simp only [hf]

/-- **C119 (existence).** In every open channel `rad_modes` yields a wave that leaves through that cladding: there is no
frequency at which the amplitude it divides by vanishes. -/
theorem C119_wave (pol : Pol) (u : Bool) (om e0 eN : ℝ) (ls : List (ℝ × ℝ)) (hne : ls ≠ []) (h0 : 0 < e0) (hN : 0 < eN)
    (hl : ∀ l ∈ ls, l.1 ≠ 0) (p : R2) (ho : OpenWave u om e0 eN ls p) :
    ∃ t, radState pol u om (slabStack e0 eN ls) p = .ok t ∧ RadWave pol u om e0 eN ls p t := by
  have hw : ∀ x ∈ e0 :: ls.map Prod.fst ++ [eN], x * om ^ 2 ≠ (max (planeAbs p) 1e-10) ^ 2 ∧ x ≠ 0 := by
    intro x hx
    refine ⟨ho.off x hx, ?_⟩
    simp only [List.cons_append, List.mem_cons, List.mem_append, List.mem_map, List.not_mem_nil, or_false] at hx
    rcases hx with rfl | ⟨l, h1, rfl⟩ | rfl
    · exact h0.ne'
    · exact hl l h1
    · exact hN.ne'
  have hD := d22_ne_zero_open pol om (max (planeAbs p) 1e-10) e0 eN ls hne h0 hN hw (by
    have := ho.lt
    cases u
    · exact Or.inl this
    · exact Or.inr this)
  have main : ∀ xy : List (ℂ × ℂ), radMode pol (decide (pol = .te)) u om (planeAbs p) (e0 :: ls.map Prod.fst ++ [eN])
        (ls.map Prod.snd) = .ok xy → xy.length = ls.length + 2 →
      List.IsChain (Interface pol om (max (planeAbs p) 1e-10)) (((e0, 0) :: ls ++ [(eN, 0)]).zip (xy.map radPair)) →
      (∃ c, xy.head? = some c ∧
        c.2 = if u then 0 else waveNorm pol e0 om) →
      (∃ c, xy.getLast? = some c ∧
        c.1 = if u then waveNorm pol eN om else 0) →
      ∃ t, radState pol u om (slabStack e0 eN ls) p = .ok t ∧ RadWave pol u om e0 eN ls p t := by
    intro xy h1 h2 h3 ⟨c, h4, h5⟩ ⟨c', h6, h7⟩
    have hlen : xy.length = (e0 :: ls.map Prod.fst ++ [eN]).length := by simp [h2]
    refine ⟨⟨pol, p.1, p.2, om, List.zipWith (fun e c => ⟨c.2, c.1, chi om (planeAbs p) e⟩)
      (e0 :: ls.map Prod.fst ++ [eN]) xy⟩, ?_, rfl, rfl, rfl, ?_, ?_, ?_, ?_⟩
    · unfold radState
      rw [slab_eps, stackDs_slab, h1]
    · simp only
      rw [slab_zipWith _ _ _ _ hlen _ (fun _ x => x) (fun _ _ => rfl), slabEps]
      apply List.ext_getElem
      · simp [h2]
      · intro i h1 h2
        rw [List.getElem_zipWith, List.getElem_map]
    · simp only
      rw [slab_zipWith _ _ _ _ hlen _ (fun c _ => (c.2, c.1)) (fun _ _ => rfl)]
      convert h3 using 2
      apply List.ext_getElem
      · simp [h2]
      · intro i h1 h2
        rw [List.getElem_zipWith, List.getElem_map, radPair]
    · obtain ⟨y, ys, rfl⟩ : ∃ y ys, xy = y :: ys := by
        cases xy with
        | nil => simp at h2
        | cons y ys => exact ⟨y, ys, rfl⟩
      obtain rfl : y = c := by simpa using h4
      exact ⟨_, rfl, h5⟩
    · refine ⟨⟨c'.2, c'.1, chi om (planeAbs p) eN⟩, ?_, h7⟩
      simp only
      rw [List.getLast?_eq_getElem?, List.getElem?_zipWith]
      rw [List.getLast?_eq_getElem?, h2] at h6
      have : (List.zipWith (fun e c => (⟨c.2, c.1, chi om (planeAbs p) e⟩ : ModeL)) (e0 :: ls.map Prod.fst ++ [eN])
        xy).length - 1 = ls.length + 1 := by simp [h2]
      rw [this]
      have h8 : (e0 :: ls.map Prod.fst ++ [eN])[ls.length + 1]? = some eN := by simp
      have h6' : xy[ls.length + 1]? = some c' := h6
      rw [h8, h6']
  cases u with
  | true =>
    obtain ⟨xy, h1, h2, h3, ⟨X, h4⟩, ⟨Y, h5⟩⟩ := C64_upper pol (decide (pol = .te)) om (planeAbs p) e0 eN ls hne hw hD
    refine main xy h1 h2 h3 ⟨_, h4, rfl⟩ ⟨_, h5, ?_⟩
    cases pol <;> simp [waveNorm]
  | false =>
    obtain ⟨xy, h1, h2, h3, ⟨X, h4⟩, ⟨Y, h5⟩⟩ := C64_lower pol (decide (pol = .te)) om (planeAbs p) e0 eN ls hne hw hD
    refine main xy h1 h2 h3 ⟨_, h4, ?_⟩ ⟨_, h5, rfl⟩
    cases pol <;> simp [waveNorm]

theorem chi_im_nonneg (om g e : ℝ) : 0 ≤ (chi om g e).im := by
  unfold chi
  split_ifs
  · simp
  · simp [Real.sqrt_nonneg]

theorem chi_im_zero {om g e : ℝ} (h : g ^ 2 ≤ e * om ^ 2) : (chi om g e).im = 0 := by
  unfold chi
  rw [if_pos (by linarith)]
  simp

/-- Such a wave is bounded. -/
theorem RadWave.radiates {pol : Pol} {u : Bool} {om e0 eN : ℝ} {ls : List (ℝ × ℝ)} {p : R2} {t : GmeState}
    (h : RadWave pol u om e0 eN ls p t) (ho : planeAbs p ^ 2 ≤ (if u then eN else e0) * om ^ 2) (hd : ∀ l ∈ ls, 0 ≤ l.2) :
    List.Forall₂ (fun a m => Radiates a.1 m) (slabStack e0 eN ls) t.layers := by
  have hlen : t.layers.length = ls.length + 2 := by
    have := congrArg List.length h.chi_eq
    simpa [slabEps] using this
  have hx : ∀ (i : ℕ) (hi : i < t.layers.length), (slabEps e0 eN ls)[i]?.map (chi om (planeAbs p)) = some t.layers[i].x := by
    intro i hi
    have := congrArg (fun l => l[i]?) h.chi_eq
    simp only [List.getElem?_map, List.getElem?_eq_getElem hi, Option.map_some] at this
    rw [← this]
  rw [List.forall₂_iff_get]
  refine ⟨by simp [hlen, slabStack_length], fun i hi hi' => ?_⟩
  simp only [List.get_eq_getElem]
  rcases Nat.eq_zero_or_pos i with rfl | hpos
  · obtain ⟨m, hm, hA⟩ := h.lower
    rw [List.head?_eq_getElem?, List.getElem?_eq_getElem hi'] at hm
    obtain rfl := Option.some.inj hm
    have h1 := hx 0 hi'
    simp only [slabEps, List.cons_append, List.getElem?_cons_zero, Option.map_some, Option.some.injEq] at h1
    change 0 ≤ _ ∧ _
    rw [← h1]
    refine ⟨chi_im_nonneg _ _ _, ?_⟩
    cases u
    · exact Or.inl (chi_im_zero ho)
    · exact Or.inr hA
  · by_cases hi2 : i = ls.length + 1
    · subst hi2
      obtain ⟨m, hm, hB⟩ := h.upper
      rw [List.getLast?_eq_getElem?, hlen, show ls.length + 2 - 1 = ls.length + 1 from rfl,
        List.getElem?_eq_getElem hi'] at hm
      obtain rfl := Option.some.inj hm
      have h1 := hx _ hi'
      have h8 : (slabEps e0 eN ls)[ls.length + 1]? = some eN := by simp [slabEps]
      rw [h8, Option.map_some] at h1
      have h9 : (slabStack e0 eN ls)[ls.length + 1] = (.upper, eN) := by simp [slabStack]
      rw [h9]
      change 0 ≤ _ ∧ _
      rw [← Option.some.inj h1]
      refine ⟨chi_im_nonneg _ _ _, ?_⟩
      cases u
      · exact Or.inr hB
      · exact Or.inl (chi_im_zero ho)
    · obtain ⟨n, rfl⟩ : ∃ n, i = n + 1 := ⟨i - 1, by omega⟩
      have hn : n < ls.length := by
        rw [slabStack_length] at hi
        omega
      have h9 : (slabStack e0 eN ls)[n + 1] = (.inner ls[n].2, ls[n].1) := by
        simp [slabStack, List.getElem_append, hn]
      rw [h9]
      exact hd _ (List.getElem_mem _)

/-- The overlap of the mode with the coefficients `evec` and the wave `t` at the plane wave `j`: the integral over all heights
of the displacement field of the wave times the conjugate of the electric field of the mode, whose Fourier coefficient at `j`
is `∑ G, einv(j, G) D(G)`. -/
noncomputable def waveOverlap {N : ℕ} (stack : List (LPos × ℝ)) (einv : List (Matrix (Fin N) (Fin N) ℂ))
    (basis : List (BasisEl N)) (evec : ℕ → ℂ) (t : GmeState) (j : Fin N) : ℂ :=
  ∑ L : Fin stack.length, ∫ z, ∑ c, conj (∑ G, (einv.getD L 0) j G * modeDisp basis evec L stack[L].2 z G c) *
    dispField t stack[L].2 (t.part L) z c ∂(layMeasure stack[L].1)

theorem mapM_option_get {α β : Type} (f : α → Option β) : ∀ (js : List α) (l : List β), js.mapM f = some l →
    ∀ (q : ℕ) (j : α), js[q]? = some j → ∃ c, f j = some c ∧ l[q]? = some c
  | [], _, _, q, j, hj => by simp at hj
  | a :: js, l, h, q, j, hj => by
    rw [List.mapM_cons] at h
    cases ha : f a with
    | none => rw [ha] at h; cases h
    | some b =>
      cases hr : js.mapM f with
      | none => rw [ha, hr] at h; cases h
      | some l' =>
        rw [ha, hr] at h
        obtain rfl : b :: l' = l := by simpa using h
        cases q with
        | zero =>
          obtain rfl : a = j := by simpa using hj
          exact ⟨b, ha, rfl⟩
        | succ q => exact mapM_option_get f js l' hr q j (by simpa using hj)

/-- **C119.** With exact layer integrals, the coupling of a mode to an open channel is the overlap of its electric field with
the wave that leaves through that cladding at that plane wave, with the density of states of the cladding as weight (and the
phase `-i` for TE waves). -/
theorem C119_coupling {N : ℕ} (e0 eN : ℝ) (ls : List (ℝ × ℝ)) (hne : ls ≠ []) (h0 : 0 < e0) (hN : 0 < eN)
    (hl : ∀ l ∈ ls, l.1 ≠ 0) (hd : ∀ l ∈ ls, 0 ≤ l.2) (einv : List (Matrix (Fin N) (Fin N) ℂ))
    (hlen : einv.length = ls.length + 2) (hH : ∀ E ∈ einv, E.IsHermitian) (basis : List (BasisEl N))
    (hb : DecayingBasis (slabStack e0 eN ls) basis) (planes : Fin N → R2) (clads : ℝ × ℝ) (om : ℝ) (evec : ℕ → ℂ) (u : Bool)
    (pol : Pol) (l : List ℂ)
    (hc : (radOf ijExact (slabStack e0 eN ls) einv basis planes clads om evec).coup u pol = some l) (q : ℕ) (j : Fin N)
    (hj : ((radOf ijExact (slabStack e0 eN ls) einv basis planes clads om evec).chan u)[q]? = some (j : ℕ))
    (ho : OpenWave u om e0 eN ls (planes j)) :
    ∃ t d, RadWave pol u om e0 eN ls (planes j) t ∧
      radDos (if u then clads.2 else clads.1) om (planeAbs (planes j)) = some d ∧
      l[q]? = some (((√(Real.pi * d) : ℝ) : ℂ) * (wavePhase pol *
        waveOverlap (slabStack e0 eN ls) einv basis evec t j)) := by
  obtain ⟨t, ht, hr⟩ := C119_wave pol u om e0 eN ls hne h0 hN hl (planes j) ho
  have hopen : planeAbs (planes j) ^ 2 ≤ (if u then eN else e0) * om ^ 2 :=
    (pow_le_pow_left₀ (Real.sqrt_nonneg _) (le_max_left _ _) 2).trans ho.opn
  have hsum := sum_overlap (slabStack e0 eN ls) einv (by rw [hlen, slabStack_length]) basis hb t (hr.radiates hopen hd) j evec
  have hov : waveOverlap (slabStack e0 eN ls) einv basis evec t j = ∑ i ∈ Finset.range basis.length,
      radElem ijExact (slabStack e0 eN ls) einv basis planes om pol u i j * conj (evec i) := by
    have e1 : waveOverlap (slabStack e0 eN ls) einv basis evec t j = ∑ i : Fin basis.length,
        gmeElem ijExact (slabStack e0 eN ls) (einv.map fun E => E basis[i].ig j) basis[i].st t * conj (evec i) := by
      refine Eq.trans ?_ hsum.symm
      unfold waveOverlap
      refine Finset.sum_congr rfl fun L _ => ?_
      congr 1
      funext z
      refine Finset.sum_congr rfl fun c _ => ?_
      rw [map_sum]
      congr 1
      refine Finset.sum_congr rfl fun G _ => ?_
      have hL : (L : ℕ) < einv.length := by
        rw [hlen, ← slabStack_length e0 eN ls]
        exact L.2
      have hE := hH _ (List.getElem_mem hL)
      rw [map_mul, List.getD_eq_getElem?_getD, List.getElem?_eq_getElem hL, Option.getD_some]
      rw [← hE.apply G j]
      rfl
    rw [e1, Finset.sum_range]
    refine Finset.sum_congr rfl fun i _ => ?_
    unfold radElem
    rw [dif_pos j.2, List.getElem?_eq_getElem i.2, ht]
    rfl
  have hmap : ∀ (f : ℕ → Option ℂ) (js : List ℕ) (l : List ℂ), js.mapM f = some l → js[q]? = some (j : ℕ) →
      ∃ c, f j = some c ∧ l[q]? = some c := by
    intro f js l h1 h2
    obtain ⟨c, h3, h4⟩ := mapM_option_get f js l h1 q j h2
    exact ⟨c, h3, h4⟩
  obtain ⟨c, hc1, hc2⟩ := hmap _ _ _ hc hj
  rw [hc2]
  have hgk : (List.ofFn fun i => planeAbs (planes i)).getD (j : ℕ) 0 = planeAbs (planes j) := by
    simp [List.getD_eq_getElem?_getD]
  simp only [hgk] at hc1
  obtain ⟨d, hd1, hd2⟩ := Option.map_eq_some_iff.1 hc1
  refine ⟨t, d, hr, hd1, ?_⟩
  rw [← hd2, hov]
  cases pol <;> simp [radC, radStep, radClad, wavePhase]

theorem mapM_mem_ok {α β : Type} {f : α → Except PyErr β} : ∀ {l : List α} {r : List β}, l.mapM f = .ok r →
    r.length = l.length ∧ ∀ y ∈ r, ∃ x ∈ l, f x = .ok y := by
  intro l r h
  obtain ⟨h1, h2⟩ := mapM_ok _ _ _ h
  refine ⟨h1, fun y hy => ?_⟩
  obtain ⟨i, hi, rfl⟩ := List.mem_iff_getElem.1 hy
  have hi' : i < l.length := by omega
  obtain ⟨z, hz, hf⟩ := h2 i l[i] (List.getElem?_eq_getElem hi')
  rw [List.getElem?_eq_getElem hi] at hz
  obtain rfl := Option.some.inj hz
  exact ⟨_, List.getElem_mem _, hf⟩

/-- **C119 (whole runs).** In a run with `compute_im=True`, the couplings stored for a mode in an open channel are the overlaps
of its electric field with the wave that leaves through that cladding at the frequency of the mode. -/
theorem C119_run (dgx : ℝ) (argsort : List ℝ → List ℕ) (eigh : ∀ n, Matrix (Fin n) (Fin n) ℂ → Fin n → ℝ)
    (vecs : ∀ n, Matrix (Fin n) (Fin n) ℂ → Matrix (Fin n) (Fin n) ℂ) (guided : GuidedSolver) (S : GmeStruct)
    (hr : ∀ l ∈ S.layers, ∀ s ∈ l.shapes, RealShape s) (gmax : ℝ) (onlyG : Bool) (opt : String) (e0 eN : ℝ)
    (ls : List (ℝ × ℝ)) (hne : ls ≠ []) (h0 : 0 < e0) (hN : 0 < eN) (hl : ∀ l ∈ ls, l.1 ≠ 0) (hd : ∀ l ∈ ls, 0 ≤ l.2)
    (hst : ∀ eff, S.layers.mapM (GmeLay.eff opt) = .ok eff →
      (S.layers.map GmeLay.pos).zip eff = slabStack e0 eN ls) (ks : List R2)
    (hg : ∀ ik < ks.length, ∀ b, guided (slabStack e0 eN ls) (S.gvec gmax) ks ik = .ok b →
      ∃ k, SlabGuided e0 eN ls (S.gvec gmax) k b) (sigma : ℝ) (numeig : ℕ) (r : List (KRes × List RadRes))
    (hrun : radSimIj ijExact dgx argsort eigh vecs guided S gmax onlyG opt ks sigma numeig = .ok r) (ik : ℕ)
    (x : KRes × List RadRes) (hx : r[ik]? = some x) :
    ∃ b einv, guided (slabStack e0 eN ls) (S.gvec gmax) ks ik = .ok b ∧ S.layers.mapM (S.epsInv gmax onlyG) = .ok einv ∧
      ∀ (p : ℕ) (a : RadRes), x.2[p]? = some a → ∃ m f, x.1.idx[p]? = some m ∧ x.1.freq[p]? = some f ∧
        ∀ (u : Bool) (pol : Pol) (l : List ℂ) (q : ℕ) (j : Fin (S.gvec gmax).length), a.coup u pol = some l →
          (a.chan u)[q]? = some (j : ℕ) →
          OpenWave u (2 * Real.pi * f) e0 eN ls (radPlane dgx (ks.getD ik 0) (S.gvec gmax)[j]) →
          ∃ t d, RadWave pol u (2 * Real.pi * f) e0 eN ls (radPlane dgx (ks.getD ik 0) (S.gvec gmax)[j]) t ∧
            radDos (if u then (cladAvgs S).2 else (cladAvgs S).1) (2 * Real.pi * f)
              (planeAbs (radPlane dgx (ks.getD ik 0) (S.gvec gmax)[j])) = some d ∧
            l[q]? = some (((√(Real.pi * d) : ℝ) : ℂ) * (wavePhase pol *
              waveOverlap (slabStack e0 eN ls) einv b
                (colOf (vecs _ (gmeMatIj ijExact (slabStack e0 eN ls) einv b + 1)) m) t j)) := by
  obtain ⟨eff, einv, heff, heinv, hlen, hget⟩ := radSimIj_ok hrun
  obtain ⟨hik, b, hb, hat⟩ := hget ik x hx
  rw [hst eff heff] at hb hat
  obtain ⟨k, hk⟩ := hg ik hik b hb
  obtain ⟨-, -, hmode⟩ := radAt_ok hat
  obtain ⟨l1, hE⟩ := mapM_mem_ok heinv
  obtain ⟨l2, -⟩ := mapM_mem_ok heff
  have hl3 : einv.length = ls.length + 2 := by
    rw [l1, ← slabStack_length e0 eN ls, ← hst eff heff, List.length_zip, List.length_map, l2, min_self]
  refine ⟨b, einv, hb, heinv, fun p a ha => ?_⟩
  obtain ⟨m, f, h1, h2, -, rfl⟩ := hmode p a ha
  refine ⟨m, f, h1, h2, fun u pol l q j hc hj ho => ?_⟩
  exact C119_coupling e0 eN ls hne h0 hN hl hd einv hl3 (fun E hE' => by
    obtain ⟨lay, hlay, hEl⟩ := hE E hE'
    exact epsInv_hermitian S gmax onlyG lay (hr lay hlay) E hEl) b
    (slabGuided_decaying hne h0.ne' hN.ne' hl hd hk) _ (cladAvgs S) _ _ u pol l hc q j hj ho

/-- A mode with one guided state at a closed plane wave that couples through a non-diagonal inverse permittivity to an open
one. -/
example (u : Bool) (pol : Pol) : ∃ l t d,
    (radOf ijExact (slabStack 1 1 [(2, 1)]) (List.replicate 3 (1 + !![0, 1; 1, 0])) [⟨0, (0 : Fin 2), exampleState .te⟩]
      ![(3, 4), (1, 0)] (1, 1) 2 (fun _ => 1)).coup u pol = some l ∧
    RadWave pol u 2 1 1 [(2, 1)] (1, 0) t ∧
    l[0]? = some (((√(Real.pi * d) : ℝ) : ℂ) * (wavePhase pol *
      waveOverlap (slabStack 1 1 [(2, 1)]) (List.replicate 3 (1 + !![0, 1; 1, 0])) [⟨0, (0 : Fin 2), exampleState .te⟩]
        (fun _ => 1) t 1)) := by
  have hp1 : planeAbs (1, 0) = 1 := by simp [planeAbs]
  have hp0 : planeAbs (3, 4) = 5 := by
    rw [planeAbs, show ((3 : ℝ), (4 : ℝ)).1 ^ 2 + ((3 : ℝ), (4 : ℝ)).2 ^ 2 = 5 ^ 2 by norm_num, Real.sqrt_sq (by norm_num)]
  have hch : openChannels 1 2 (List.ofFn fun i => planeAbs ((![(3, 4), (1, 0)] : Fin 2 → R2) i)) = [1] := by
    have : (List.ofFn fun i => planeAbs ((![(3, 4), (1, 0)] : Fin 2 → R2) i)) = [5, 1] := by
      simp [hp1, hp0]
    rw [this]
    simp only [openChannels, List.length_cons, List.length_nil, List.range_succ, List.range_zero, List.nil_append,
      List.cons_append, List.filter_cons, List.filter_nil, List.getD_cons_zero, List.getD_cons_succ]
    norm_num
  have hcoup : ∃ l, (radOf ijExact (slabStack 1 1 [(2, 1)]) (List.replicate 3 (1 + !![0, 1; 1, 0]))
      [⟨0, (0 : Fin 2), exampleState .te⟩] ![(3, 4), (1, 0)] (1, 1) 2 (fun _ => 1)).coup u pol = some l := by
    refine mapM_option_some _ _ fun j hj => ?_
    have hj' : j = 1 := by
      have : j ∈ openChannels 1 2 (List.ofFn fun i => planeAbs ((![(3, 4), (1, 0)] : Fin 2 → R2) i)) := by
        cases u <;> exact hj
      rw [hch] at this
      simpa using this
    subst hj'
    have h1 : (radClad ijExact (slabStack 1 1 [(2, 1)]) (List.replicate 3 (1 + !![0, 1; 1, 0]))
      [⟨0, (0 : Fin 2), exampleState .te⟩] ![(3, 4), (1, 0)] 2 (if u then ((1 : ℝ), (1 : ℝ)).2 else ((1 : ℝ), (1 : ℝ)).1) u).eps
        = 1 := by cases u <;> rfl
    rw [h1]
    have h2 : (List.ofFn fun i => planeAbs ((![(3, 4), (1, 0)] : Fin 2 → R2) i)).getD 1 0 = 1 := by
      simp [hp1]
    rw [h2]
    have h3 : radDos 1 2 1 = some (1 / √((1 : ℝ) * 2 ^ 2 - 1 ^ 2) / 4 / Real.pi) := if_neg (by norm_num)
    rw [h3]
    rfl
  obtain ⟨l, hl⟩ := hcoup
  obtain ⟨t, d, h1, -, h3⟩ := C119_coupling 1 1 [(2, 1)] (by simp) one_pos one_pos (by simp) (by simp) _ (by simp) (by
    intro E hE
    rw [List.eq_of_mem_replicate hE]
    ext i j
    fin_cases i <;> fin_cases j <;> simp) _ (by
    intro s hs
    rw [List.mem_singleton] at hs
    subst hs
    simp [slabStack, exampleState, Decays]) ![(3, 4), (1, 0)] (1, 1) 2 (fun _ => 1) u pol l hl 0 1 (by
    have : (radOf ijExact (slabStack 1 1 [(2, 1)]) (List.replicate 3 (1 + !![0, 1; 1, 0]))
      [⟨0, (0 : Fin 2), exampleState .te⟩] ![(3, 4), (1, 0)] (1, 1) 2 (fun _ => 1)).chan u = [1] := by
      rw [← hch]
      cases u <;> rfl
    rw [this]
    rfl) (by
    have hm : max (planeAbs (1, 0)) 1e-10 = 1 := by rw [hp1]; norm_num
    refine ⟨?_, ?_⟩
    · simp only [Matrix.cons_val_one, Matrix.cons_val_zero, hm]
      simp [slabEps]
      norm_num
    · simp only [Matrix.cons_val_one, Matrix.cons_val_zero, hm]
      cases u <;> norm_num)
  exact ⟨l, t, d, hl, h1, h3⟩

/-- Power carried through a cladding by a partial wave with the amplitude `a`; none if the cladding is closed. -/
noncomputable def wavePower (pol : Pol) (om g e : ℝ) (a : ℂ) : ℝ := (wgt pol om g e).re * Complex.normSq a

theorem wavePower_closed {pol : Pol} {om g e : ℝ} (h : e * om ^ 2 < g ^ 2) (a : ℂ) : wavePower pol om g e a = 0 := by
  have hc : chi om g e = Complex.I * ((√(-(e * om ^ 2 - g ^ 2)) : ℝ) : ℂ) := by rw [chi, if_neg (by linarith)]
  cases pol
  · simp [wavePower, wgt, hc]
  · simp only [wavePower, wgt, hc, ← Complex.ofReal_inv, div_eq_mul_inv]
    simp

theorem flux_power {pol : Pol} {om g e : ℝ} (he : 0 < e) (hne : e * om ^ 2 ≠ g ^ 2) (ab : ℂ × ℂ)
    (h : g ^ 2 < e * om ^ 2 ∨ ab.1 = 0 ∨ ab.2 = 0) :
    flux (wgt pol om g e) ab = wavePower pol om g e ab.1 - wavePower pol om g e ab.2 := by
  rcases lt_or_gt_of_ne hne with h1 | h1
  · rw [flux_closed h1 _ (h.resolve_left h1.not_gt), wavePower_closed h1, wavePower_closed h1, sub_zero]
  · rw [(flux_open h1 he ab).2, wavePower, wavePower]
    ring

/-- **C120.** Radiative waves conserve energy: the partial wave of fixed amplitude in the cladding `u` carries the power of the
other partial wave there plus the power of the wave in the other cladding (none if that one is closed). -/
theorem C120_energy (pol : Pol) (om e0 eN : ℝ) (ls : List (ℝ × ℝ)) (p : R2) (h0 : 0 < e0) (hN : 0 < eN) (t : GmeState)
    (u : Bool) (ho : OpenWave u om e0 eN ls p) (h : RadWave pol u om e0 eN ls p t) :
    ∃ m0 mN, t.layers.head? = some m0 ∧ t.layers.getLast? = some mN ∧
      (if u then
        wavePower pol om (max (planeAbs p) 1e-10) eN mN.B = wavePower pol om (max (planeAbs p) 1e-10) eN mN.A +
          wavePower pol om (max (planeAbs p) 1e-10) e0 m0.B
      else
        wavePower pol om (max (planeAbs p) 1e-10) e0 m0.A = wavePower pol om (max (planeAbs p) 1e-10) e0 m0.B +
          wavePower pol om (max (planeAbs p) 1e-10) eN mN.A) := by
  obtain ⟨m0, h1, h2⟩ := h.lower
  obtain ⟨mN, h3, h4⟩ := h.upper
  have hlen : t.layers.length = ls.length + 2 := by
    have := congrArg List.length h.chi_eq
    simpa [slabEps] using this
  have k0 : ((e0, (0 : ℝ)), (m0.A, m0.B)) ∈
      ((e0, 0) :: ls ++ [(eN, 0)]).zip (t.layers.map fun m : ModeL => (m.A, m.B)) := by
    refine List.mem_of_getElem? (i := 0) (List.getElem?_zip_eq_some.2 ⟨by simp, ?_⟩)
    rw [List.getElem?_map, ← List.head?_eq_getElem?, h1]
    rfl
  have kN : ((eN, (0 : ℝ)), (mN.A, mN.B)) ∈
      ((e0, 0) :: ls ++ [(eN, 0)]).zip (t.layers.map fun m : ModeL => (m.A, m.B)) := by
    refine List.mem_of_getElem? (i := ls.length + 1) (List.getElem?_zip_eq_some.2 ⟨by simp, ?_⟩)
    rw [List.getElem?_map]
    rw [List.getLast?_eq_getElem?, hlen] at h3
    change t.layers[ls.length + 1]? = _ at h3
    rw [h3]
    rfl
  have hf := flux_chain _ h.fields _ k0 _ kN
  have n0 := ho.off e0 (by simp [slabEps])
  have nN := ho.off eN (by simp [slabEps])
  have hlt := ho.lt
  refine ⟨m0, mN, h1, h3, ?_⟩
  cases u with
  | true =>
    simp only [if_true] at h2 h4 hlt ⊢
    rw [flux_power h0 n0 _ (Or.inr (Or.inl h2)), flux_power hN nN _ (Or.inl hlt)] at hf
    simp only [h2] at hf
    have : wavePower pol om (max (planeAbs p) 1e-10) e0 0 = 0 := by simp [wavePower]
    linarith
  | false =>
    simp only [Bool.false_eq_true, if_false] at h2 h4 hlt ⊢
    rw [flux_power h0 n0 _ (Or.inl hlt), flux_power hN nN _ (Or.inr (Or.inr h4))] at hf
    simp only [h4] at hf
    have : wavePower pol om (max (planeAbs p) 1e-10) eN 0 = 0 := by simp [wavePower]
    linarith

/-- A wave that leaves through the upper cladding of a slab, with both claddings open and with the lower one only closed. -/
example (pol : Pol) : (∃ t, RadWave pol true 2 1 1 [(2, 1)] (1, 0) t ∧ OpenWave true 2 1 1 [(2, 1)] (1, 0)) ∧
    ∃ t, RadWave pol true 1 1 5 [(9, 1)] (2, 0) t ∧ OpenWave true 1 1 5 [(9, 1)] (2, 0) := by
  have hp1 : max (planeAbs (1, 0)) 1e-10 = 1 := by simp [planeAbs]; norm_num
  have hp2 : max (planeAbs (2, 0)) 1e-10 = 2 := by simp [planeAbs]; norm_num
  have o1 : OpenWave true 2 1 1 [(2, 1)] (1, 0) := by
    refine ⟨?_, ?_⟩
    · rw [hp1]; simp [slabEps]; norm_num
    · rw [hp1]; norm_num
  have o2 : OpenWave true 1 1 5 [(9, 1)] (2, 0) := by
    refine ⟨?_, ?_⟩
    · rw [hp2]; simp [slabEps]; norm_num
    · rw [hp2]; norm_num
  obtain ⟨t1, -, h1⟩ := C119_wave pol true 2 1 1 [(2, 1)] (by simp) one_pos one_pos (by simp) (1, 0) o1
  obtain ⟨t2, -, h2⟩ := C119_wave pol true 1 1 5 [(9, 1)] (by simp) one_pos (by norm_num) (by simp) (2, 0) o2
  exact ⟨⟨t1, h1, o1⟩, ⟨t2, h2, o2⟩⟩

end Legume
