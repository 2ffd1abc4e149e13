import Verif.Lemmas.RadSwap
import Verif.Props.GmeInvariance

/-!
# Radiative waves of reversed and subdivided stacks
-/
namespace Legume

open Complex Spec
open scoped ComplexConjugate

/-! ### Waves -/

theorem chain_flip {pol : Pol} {omega g : ℝ} (L : List (ℝ × ℝ)) (abs : List (ℂ × ℂ)) (hlen : L.length = abs.length)
    (h : List.IsChain (Interface pol omega g) (L.zip abs)) :
    List.IsChain (Interface pol omega g) (L.reverse.zip (flipAbs abs)) := by
  rw [flipAbs, zip_reverse_of_length _ _ (by simp [hlen]), List.isChain_reverse, List.zip_map_right, List.isChain_map]
  refine h.imp ?_
  rintro ⟨⟨e1, d1⟩, ⟨a1, b1⟩⟩ ⟨⟨e2, d2⟩, ⟨a2, b2⟩⟩ hab
  simp only [Interface, fieldSum, fieldDiff, Prod.map, id, Prod.swap] at hab ⊢
  push_cast at hab ⊢
  simp only [mul_neg, neg_neg] at hab ⊢
  exact ⟨by linear_combination -hab.1, by linear_combination hab.2⟩

theorem chain_split {pol : Pol} {omega g e d1 d2 : ℝ} {L1 L2 : List (ℝ × ℝ)} {as1 as2 : List (ℂ × ℂ)} {ab : ℂ × ℂ}
    (hlen : L1.length = as1.length)
    (h : List.IsChain (Interface pol omega g) ((L1 ++ (e, d1 + d2) :: L2).zip (as1 ++ ab :: as2))) :
    List.IsChain (Interface pol omega g) ((L1 ++ (e, d1) :: (e, d2) :: L2).zip
      (as1 ++ shiftAb (chi omega g e) (-(d2 / 2)) ab :: shiftAb (chi omega g e) (d1 / 2) ab :: as2)) := by
  rw [List.zip_append hlen] at h ⊢
  simp only [List.zip_cons_cons] at h ⊢
  generalize L1.zip as1 = Z1 at h ⊢
  generalize L2.zip as2 = Z2 at h ⊢
  rw [List.isChain_split] at h
  rw [List.isChain_append_cons_cons]
  refine ⟨chain_last _ _ _ ?_ h.1, ?_, chain_head _ _ _ ?_ h.2⟩
  · rintro ⟨⟨ep, dp⟩, cd⟩ hp
    simp only [Interface] at hp ⊢
    rw [fieldSum_shift, fieldDiff_shift, show -(d1 / 2) + -(d2 / 2) = -((d1 + d2) / 2) by ring]
    exact hp
  · simp only [Interface]
    rw [fieldSum_shift, fieldDiff_shift, fieldSum_shift, fieldDiff_shift,
      show d1 / 2 + -(d2 / 2) = -(d2 / 2) + d1 / 2 by ring]
    exact ⟨rfl, rfl⟩
  · rintro ⟨⟨ep, dp⟩, cd⟩ hp
    simp only [Interface] at hp ⊢
    rw [fieldSum_shift, fieldDiff_shift, show d2 / 2 + d1 / 2 = (d1 + d2) / 2 by ring]
    exact hp

/-- A field in the reversed stack. -/
def GmeState.turned (t : GmeState) : GmeState := { t with layers := (t.layers.map (flipMode 1)).reverse }

theorem slabEps_reverse (e0 eN : ℝ) (ls : List (ℝ × ℝ)) : slabEps eN e0 ls.reverse = (slabEps e0 eN ls).reverse := by
  simp [slabEps]

theorem RadWave.length {pol : Pol} {u : Bool} {om e0 eN : ℝ} {ls : List (ℝ × ℝ)} {p : R2} {t : GmeState}
    (h : RadWave pol u om e0 eN ls p t) : t.layers.length = ls.length + 2 := by
  have := congrArg List.length h.chi_eq
  simpa [slabEps] using this

theorem RadWave.turned {pol : Pol} {u : Bool} {om e0 eN : ℝ} {ls : List (ℝ × ℝ)} {p : R2} {t : GmeState}
    (h : RadWave pol u om e0 eN ls p t) : RadWave pol (!u) om eN e0 ls.reverse p t.turned := by
  refine ⟨h.pol_eq, h.plane, h.om_eq, ?_, ?_, ?_, ?_⟩
  · simp only [GmeState.turned]
    rw [List.map_reverse, List.map_map, slabEps_reverse, List.map_reverse]
    exact congrArg List.reverse h.chi_eq
  · have e : (eN, (0 : ℝ)) :: ls.reverse ++ [(e0, 0)] = ((e0, 0) :: ls ++ [(eN, 0)]).reverse := by simp
    have hc := chain_flip _ _ (by simp [h.length]) h.fields
    rw [e]
    refine cast ?_ hc
    congr 2
    simp only [GmeState.turned, flipAbs, List.map_reverse, List.map_map]
    congr 1
    refine List.map_congr_left fun m _ => ?_
    simp [flipMode]
  · obtain ⟨m, h1, h2⟩ := h.upper
    refine ⟨flipMode 1 m, ?_, ?_⟩
    · simp only [GmeState.turned]
      rw [List.head?_reverse, List.getLast?_map, h1]
      rfl
    · simp only [flipMode, one_mul, h2]
      cases u <;> simp
  · obtain ⟨m, h1, h2⟩ := h.lower
    refine ⟨flipMode 1 m, ?_, ?_⟩
    · simp only [GmeState.turned]
      rw [List.getLast?_reverse, List.head?_map, h1]
      rfl
    · simp only [flipMode, one_mul, h2]
      cases u <;> simp

theorem RadWave.split {pol : Pol} {u : Bool} {om e0 eN e d1 d2 : ℝ} {l1 l2 : List (ℝ × ℝ)} {p : R2} {t : GmeState}
    (hp : 1e-10 ≤ planeAbs p) (h : RadWave pol u om e0 eN (l1 ++ (e, d1 + d2) :: l2) p t) {M1 M2 : List ModeL} {m : ModeL}
    (hM : M1.length = l1.length + 1) (ht : t.layers = M1 ++ m :: M2) :
    RadWave pol u om e0 eN (l1 ++ (e, d1) :: (e, d2) :: l2) p
      { t with layers := M1 ++ shiftMode (-(d2 / 2)) m :: shiftMode (d1 / 2) m :: M2 } := by
  have hchi := h.chi_eq
  rw [ht, slabEps] at hchi
  simp only [List.map_append, List.map_cons, List.map_nil, List.cons_append, List.append_assoc] at hchi
  rw [← List.cons_append] at hchi
  have hM2 := List.append_inj hchi (by simp [hM])
  obtain ⟨c1, c2⟩ := hM2
  rw [List.cons.injEq] at c2
  obtain ⟨c2, c3⟩ := c2
  have hl2 : M2.length = l2.length + 1 := by simpa using congrArg List.length c3
  refine ⟨h.pol_eq, h.plane, h.om_eq, ?_, ?_, ?_, ?_⟩
  · simp only [slabEps, List.map_append, List.map_cons, List.map_nil, List.cons_append, List.append_assoc]
    rw [← List.cons_append, c1]
    congr 1
    simp only [shiftMode, c2, c3]
  · have hf := h.fields
    rw [ht, max_eq_left hp] at hf
    rw [max_eq_left hp]
    simp only [List.map_append, List.map_cons, List.cons_append, List.append_assoc] at hf ⊢
    rw [← List.cons_append] at hf ⊢
    have := chain_split (by simp [hM]) hf
    refine cast ?_ this
    congr 4
    · simp only [shiftMode, shiftAb, c2]
    · simp only [shiftMode, shiftAb, c2]
  · obtain ⟨m', h1, h2⟩ := h.lower
    refine ⟨m', ?_, h2⟩
    rw [ht] at h1
    cases M1 with
    | nil => simp at hM
    | cons a as => simpa using h1
  · obtain ⟨m', h1, h2⟩ := h.upper
    refine ⟨m', ?_, h2⟩
    rw [ht] at h1
    cases M2 with
    | nil => simp at hl2
    | cons a as =>
      rw [List.getLast?_append, List.getLast?_cons_cons] at h1
      simp only
      rw [List.getLast?_append, List.getLast?_cons_cons, List.getLast?_cons_cons]
      exact h1

/-- Radiative waves are determined by the cladding through which they leave. -/
theorem RadWave.unique {pol : Pol} {u : Bool} {om e0 eN : ℝ} {ls : List (ℝ × ℝ)} {p : R2} {t t' : GmeState} (h0 : 0 < e0)
    (hN : 0 < eN) (hl : ∀ l ∈ ls, l.1 ≠ 0) (hp : 1e-10 ≤ planeAbs p)
    (hoff : ∀ e ∈ slabEps e0 eN ls, e * om ^ 2 ≠ planeAbs p ^ 2) (ho : planeAbs p ^ 2 ≤ (if u then eN else e0) * om ^ 2)
    (h : RadWave pol u om e0 eN ls p t) (h' : RadWave pol u om e0 eN ls p t') : t = t' := by
  refine (h.slabField hp).eq (h'.slabField hp) h0 hN hl hoff ?_ (by rw [h.lowA, h'.lowA]) (by rw [h.upB, h'.upB])
  cases u with
  | false => exact .inl (lt_of_le_of_ne (by simpa using ho) (Ne.symm (hoff e0 (by simp [slabEps]))))
  | true => exact .inr (lt_of_le_of_ne (by simpa using ho) (Ne.symm (hoff eN (by simp [slabEps]))))

/-- The wave of a regular open channel. -/
theorem RegularChannels.wave {om e0 eN : ℝ} {ls : List (ℝ × ℝ)} {N : ℕ} {planes : Fin N → R2}
    (h : RegularChannels om e0 eN ls planes) (hne : ls ≠ []) (h0 : 0 < e0) (hN : 0 < eN) (hl : ∀ l ∈ ls, l.1 ≠ 0) (pol : Pol)
    {u : Bool} {j : Fin N} (hj : planeAbs (planes j) ^ 2 ≤ (if u then eN else e0) * om ^ 2) :
    ∃ t, radState pol u om (slabStack e0 eN ls) (planes j) = .ok t ∧ RadWave pol u om e0 eN ls (planes j) t := by
  obtain ⟨hp, hoff⟩ := h u j hj
  have hmax : max (planeAbs (planes j)) 1e-10 = planeAbs (planes j) := max_eq_left hp
  exact C119_wave pol u om e0 eN ls hne h0 hN hl (planes j) ⟨by rwa [hmax], by rwa [hmax]⟩

theorem radElem_of_wave (ij : LPos → ℂ → ℂ) {N : ℕ} (stack : List (LPos × ℝ)) (Es : List (Matrix (Fin N) (Fin N) ℂ))
    (b : List (BasisEl N)) (planes : Fin N → R2) (om : ℝ) (pol : Pol) (u : Bool) (i : ℕ) (hi : i < b.length) (j : Fin N)
    {t : GmeState} (h : radState pol u om stack (planes j) = .ok t) :
    radElem ij stack Es b planes om pol u i j = gmeElem ij stack (Es.map fun E => E b[i].ig j) b[i].st t := by
  unfold radElem
  rw [dif_pos j.2, List.getElem?_eq_getElem hi]
  simp only [Fin.eta, h]

/-! ### Bases -/

/-- The elements of two bases are the same modes: the same guided mode, plane wave, polarisation and frequency. -/
def SameBasis {N : ℕ} (b b' : List (BasisEl N)) : Prop :=
  List.Forall₂ (fun s s' => s'.blk = s.blk ∧ s'.ig = s.ig ∧ s'.st.pol = s.st.pol ∧ s'.st.om = s.st.om) b b'

theorem SameBasis.get {N : ℕ} {b b' : List (BasisEl N)} (h : SameBasis b b') (i : ℕ) (hi : i < b.length)
    (hi' : i < b'.length) : b'[i].blk = b[i].blk ∧ b'[i].ig = b[i].ig ∧ b'[i].st.pol = b[i].st.pol ∧
      b'[i].st.om = b[i].st.om := by
  have := (List.forall₂_iff_get.1 h).2 i hi hi'
  simpa using this

theorem normState_fields (pol : Pol) (gx gy om e0 eN : ℝ) (ls : List (ℝ × ℝ)) (abs : List (ℂ × ℂ)) :
    (normState pol gx gy om e0 eN ls abs).pol = pol ∧ (normState pol gx gy om e0 eN ls abs).gx = gx ∧
    (normState pol gx gy om e0 eN ls abs).gy = gy ∧ (normState pol gx gy om e0 eN ls abs).om = om := by
  rw [normState_eq]
  exact ⟨rfl, rfl, rfl, rfl⟩

/-- One element of two bases of guided modes has the same polarisation, wave vector and frequency. -/
theorem sameBasis_fields {e0 eN e0' eN' : ℝ} {ls ls' : List (ℝ × ℝ)} {gvec : List R2} {k : R2}
    {b b' : List (BasisEl gvec.length)} (h : SlabGuided e0 eN ls gvec k b) (h' : SlabGuided e0' eN' ls' gvec k b')
    (hs : SameBasis b b') (i : ℕ) (hi : i < b.length) (hi' : i < b'.length) :
    b'[i].st.pol = b[i].st.pol ∧ b'[i].st.gx = b[i].st.gx ∧ b'[i].st.gy = b[i].st.gy ∧ b'[i].st.om = b[i].st.om := by
  obtain ⟨-, h2, h3, h4⟩ := hs.get i hi hi'
  obtain ⟨abs, -, q⟩ := h.mode b[i] (List.getElem_mem _)
  obtain ⟨abs', -, q'⟩ := h'.mode b'[i] (List.getElem_mem _)
  have hgv : gvec[b'[i].ig] = gvec[b[i].ig] := by simp only [Fin.getElem_fin, h2]
  refine ⟨h3, ?_, ?_, h4⟩
  · rw [q', q, (normState_fields _ _ _ _ _ _ _ _).2.1, (normState_fields _ _ _ _ _ _ _ _).2.1, hgv]
  · rw [q', q, (normState_fields _ _ _ _ _ _ _ _).2.2.1, (normState_fields _ _ _ _ _ _ _ _).2.2.1, hgv]

theorem flipSign_unit (p : Pol) : flipSign p * flipSign p = 1 ∧ conj (flipSign p) = flipSign p := by
  cases p <;> simp [flipSign]

theorem slabRoot_pos {pol : Pol} {om g e0 eN : ℝ} {ls : List (ℝ × ℝ)} {abs : List (ℂ × ℂ)} (h0 : 0 < e0)
    (h : SlabRoot pol om g e0 eN ls abs) : g ≠ 0 := by
  rintro rfl
  have := h.low
  have h2 : 0 ≤ e0 * om ^ 2 := by positivity
  simp at this
  linarith

/-- The elements of the reversed basis couple with each other and with radiative waves as those of the basis, up to phases. -/
theorem turned_elems (e0 eN : ℝ) (ls : List (ℝ × ℝ)) (hne : ls ≠ []) (hd : ∀ l ∈ ls, 0 ≤ l.2) (h0 : 0 < e0) (hN : 0 < eN)
    (hl : ∀ l ∈ ls, l.1 ≠ 0) (gvec : List R2) (k : R2) (Es : List (Matrix (Fin gvec.length) (Fin gvec.length) ℂ))
    (hE : Es.length = ls.length + 2) (b b' : List (BasisEl gvec.length)) (hb : SlabGuided e0 eN ls gvec k b)
    (hb' : SlabGuided eN e0 ls.reverse gvec k b') (hs : SameBasis b b') (planes : Fin gvec.length → R2) :
    ∃ d : ℕ → ℂ, (∀ i, d i * conj (d i) = 1) ∧
      (∀ (i j : ℕ) (hi : i < b.length) (hj : j < b.length) (hi' : i < b'.length) (hj' : j < b'.length),
        gmeElem ijExact (slabStack eN e0 ls.reverse) (Es.reverse.map fun E => E b'[i].ig b'[j].ig) b'[i].st b'[j].st =
          d i * gmeElem ijExact (slabStack e0 eN ls) (Es.map fun E => E b[i].ig b[j].ig) b[i].st b[j].st * conj (d j)) ∧
      ∀ om, RegularChannels om e0 eN ls planes → ∀ (pol : Pol) (u : Bool) (j : Fin gvec.length),
        planeAbs (planes j) ^ 2 ≤ (if u then eN else e0) * om ^ 2 → ∃ ζ : ℂ, ‖ζ‖ = 1 ∧ ∀ i < b.length,
          radElem ijExact (slabStack eN e0 ls.reverse) Es.reverse b' planes om pol (!u) i j =
            ζ * d i * radElem ijExact (slabStack e0 eN ls) Es b planes om pol u i j := by
  have hlen : b'.length = b.length := hs.length_eq.symm
  have hu : ∀ i : ℕ, ∃ u : ℂ, u * conj u = 1 ∧ ∀ (hi : i < b.length) (hi' : i < b'.length), b'[i].st.layers =
      (b[i].st.layers.map (flipMode u)).reverse := by
    intro i
    by_cases hi : i < b.length
    · have hi' : i < b'.length := hlen ▸ hi
      obtain ⟨-, h2, h3, h4⟩ := hs.get i hi hi'
      obtain ⟨abs, q1, q2⟩ := hb.mode b[i] (List.getElem_mem _)
      obtain ⟨abs', q3, q4⟩ := hb'.mode b'[i] (List.getElem_mem _)
      have hgv : gvec[b'[i].ig] = gvec[b[i].ig] := by simp only [Fin.getElem_fin, h2]
      rw [hgv, h3, h4] at q3 q4
      obtain ⟨u, u1, u2⟩ := normState_flip hne hd h0.ne' hN.ne' hl (slabRoot_pos h0 q1) q1 q3
      refine ⟨u, u1, fun _ _ => ?_⟩
      rw [q4, u2]
      conv_rhs => rw [q2]
    · exact ⟨1, by simp, fun h => absurd h hi⟩
  choose u hu1 hu2 using hu
  have hlay : ∀ (i : ℕ) (hi : i < b.length), b[i].st.layers.length = (slabStack e0 eN ls).length := by
    intro i hi
    obtain ⟨abs, q1, q2⟩ := hb.mode b[i] (List.getElem_mem _)
    rw [q2]
    exact normState_length (slabRoot_guided q1 hne h0.ne' hN.ne' hl).1.len
  have hEl : ∀ x y : Fin gvec.length, (Es.map fun E => E x y).length = (slabStack e0 eN ls).length := by
    intro x y
    rw [List.length_map, hE, slabStack_length]
  set d : ℕ → ℂ := fun i => (if h : i < b.length then flipSign b[i].st.pol else 1) * conj (u i) with hdd
  have hd1 : ∀ i, d i * conj (d i) = 1 := by
    intro i
    simp only [hdd]
    split_ifs with h
    · rw [map_mul, (flipSign_unit _).2, Complex.conj_conj]
      linear_combination (u i * conj (u i)) * (flipSign_unit b[i].st.pol).1 + hu1 i
    · rw [map_mul, map_one, Complex.conj_conj]
      linear_combination hu1 i
  refine ⟨d, hd1, ?_, ?_⟩
  · intro i j hi hj hi' hj'
    rw [(hs.get i hi hi').2.1, (hs.get j hj hj').2.1, slabStack_flip, List.map_reverse,
      gmeElem_flip ijExact ijExact_flip (slabStack e0 eN ls) _ b[i].st b[j].st _ _
      (hEl _ _) (hlay i hi) (hlay j hj) (sameBasis_fields hb hb' hs i hi hi') (sameBasis_fields hb hb' hs j hj hj') (u i)
      (u j) (hu2 i hi hi') (hu2 j hj hj')]
    simp only [hdd]
    rw [dif_pos hi, dif_pos hj, map_mul, (flipSign_unit _).2, Complex.conj_conj]
    ring
  · intro om hreg pol v j hj
    refine ⟨flipSign pol, by cases pol <;> simp [flipSign], fun i hi => ?_⟩
    have hi' : i < b'.length := hlen ▸ hi
    obtain ⟨t, t1, t2⟩ := hreg.wave hne h0 hN hl pol hj
    have hreg' : RegularChannels om eN e0 ls.reverse planes := by
      intro w q hq
      have : (if w then e0 else eN) = if !w then eN else e0 := by cases w <;> rfl
      rw [this] at hq
      obtain ⟨a1, a2⟩ := hreg (!w) q hq
      exact ⟨a1, fun e h => a2 e (by rw [slabEps_reverse, List.mem_reverse] at h; exact h)⟩
    have hj' : planeAbs (planes j) ^ 2 ≤ (if !v then e0 else eN) * om ^ 2 := by
      have : (if !v then e0 else eN) = if v then eN else e0 := by cases v <;> rfl
      rw [this]
      exact hj
    obtain ⟨t', t3, t4⟩ := hreg'.wave (by simpa using hne) hN h0 (by simpa using hl) pol hj'
    obtain ⟨hpj, hoff⟩ := hreg' (!v) j hj'
    have htt : t' = t.turned := t4.unique hN h0 (by simpa using hl) hpj hoff hj' t2.turned
    rw [radElem_of_wave _ _ _ _ _ _ _ _ i hi' j t3, radElem_of_wave _ _ _ _ _ _ _ _ i hi j t1, htt,
      (hs.get i hi hi').2.1, slabStack_flip, List.map_reverse,
      gmeElem_flip ijExact ijExact_flip (slabStack e0 eN ls) _ b[i].st t _ t.turned
      (hEl _ _) (hlay i hi) (by rw [t2.length, slabStack_length]) (sameBasis_fields hb hb' hs i hi hi')
      ⟨rfl, rfl, rfl, rfl⟩ (u i) 1 (hu2 i hi hi') rfl, t2.pol_eq]
    simp only [hdd]
    rw [dif_pos hi]
    ring

/-- All modes at one wave vector of a structure and of the structure upside down. -/
theorem radAt_turned (argsort : List ℝ → List ℕ) (hsort : ∀ l, IsArgsort l (argsort l))
    (eigh : ∀ n, Matrix (Fin n) (Fin n) ℂ → Fin n → ℝ)
    (vecs : ∀ n, Matrix (Fin n) (Fin n) ℂ → Matrix (Fin n) (Fin n) ℂ) (he : SortedEigh eigh) (hp : EighPair eigh vecs)
    (e0 eN : ℝ) (ls : List (ℝ × ℝ)) (hne : ls ≠ []) (hd : ∀ l ∈ ls, 0 ≤ l.2) (h0 : 0 < e0) (hN : 0 < eN)
    (hl : ∀ l ∈ ls, l.1 ≠ 0) (gvec : List R2) (k : R2) (Es : List (Matrix (Fin gvec.length) (Fin gvec.length) ℂ))
    (hE : Es.length = ls.length + 2) (b b' : List (BasisEl gvec.length)) (hb : SlabGuided e0 eN ls gvec k b)
    (hb' : SlabGuided eN e0 ls.reverse gvec k b') (hs : SameBasis b b') (planes : Fin gvec.length → R2)
    (sigma : ℝ) (numeig : ℕ) :
    SameOutcome (SwappedModes (fun u => !u) e0 eN ls planes (eigh _ (gmeMatIj ijExact (slabStack e0 eN ls) Es b + 1)))
      (radAt ijExact argsort (slabStack e0 eN ls) Es b planes (e0, eN)
        (eigh _ (gmeMatIj ijExact (slabStack e0 eN ls) Es b + 1))
        (vecs _ (gmeMatIj ijExact (slabStack e0 eN ls) Es b + 1)) sigma numeig)
      (radAt ijExact argsort (slabStack eN e0 ls.reverse) Es.reverse b' planes (eN, e0)
        (eigh _ (gmeMatIj ijExact (slabStack eN e0 ls.reverse) Es.reverse b' + 1))
        (vecs _ (gmeMatIj ijExact (slabStack eN e0 ls.reverse) Es.reverse b' + 1)) sigma numeig) := by
  obtain ⟨d, hd1, hel, hrad⟩ := turned_elems e0 eN ls hne hd h0 hN hl gvec k Es hE b b' hb hb' hs planes
  exact radAt_swapped (fun u => !u) (fun u => by simp) argsort hsort eigh vecs he hp ijExact ijExact e0 eN eN e0 ls ls.reverse
    h0 hN (fun u => by cases u <;> simp) (fun e h => by rw [slabEps_reverse, List.mem_reverse] at h; exact h) _ _ _ _ b b'
    hs.length_eq.symm d hd1 (fun i h h' => (hs.get i h h').1) hel planes hrad sigma numeig

/-- The eigenvalues of the expansion for two bases whose elements couple in the same way up to phases. -/
theorem eigh_phases (eigh : ∀ n, Matrix (Fin n) (Fin n) ℂ → Fin n → ℝ) (he : SortedEigh eigh) {N : ℕ}
    (stack stack' : List (LPos × ℝ)) (Es Es' : List (Matrix (Fin N) (Fin N) ℂ)) (b b' : List (BasisEl N)) (hs : SameBasis b b')
    (d : ℕ → ℂ) (hd : ∀ i, d i * conj (d i) = 1)
    (helem : ∀ (i j : ℕ) (hi : i < b.length) (hj : j < b.length) (hi' : i < b'.length) (hj' : j < b'.length),
      gmeElem ijExact stack' (Es'.map fun E => E b'[i].ig b'[j].ig) b'[i].st b'[j].st =
        d i * gmeElem ijExact stack (Es.map fun E => E b[i].ig b[j].ig) b[i].st b[j].st * conj (d j)) :
    List.ofFn (eigh _ (gmeMatIj ijExact stack' Es' b' + 1)) = List.ofFn (eigh _ (gmeMatIj ijExact stack Es b + 1)) :=
  sortedEigh_eq he _ _ (gmeIj_hermitian ijExact stack' Es' b') (gmeIj_hermitian ijExact stack Es b)
    (moved_charpoly (finCongr hs.length_eq.symm) (fun i => d i) (fun i => hd i) _ _
      (gmeMatIj_phases ijExact ijExact stack stack' Es Es' b b' hs.length_eq.symm d hd (fun i h h' => (hs.get i h h').1) helem))

end Legume
