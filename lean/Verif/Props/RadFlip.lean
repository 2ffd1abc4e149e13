import Verif.Props.RadSim

/-! # C117: losses of structures turned upside down and of unpatterned slabs -/

namespace Legume

open Matrix
open scoped ComplexConjugate
open Spec

/-! ### Upside down -/

theorem abLoop_length : ∀ (ss ts : List M2) (x : ℂ × ℂ), (abLoop ss ts x).length = min ss.length ts.length
  | [], _, _ => by simp [abLoop]
  | _ :: _, [], _ => by simp [abLoop]
  | s :: ss, t :: ts, x => by
    unfold abLoop
    simp only [List.length_cons, abLoop_length ss ts]
    omega

theorem abMatrices_length {pol : Pol} {omega g : ℝ} {eps ds : List ℝ} {cs : List (ℂ × ℂ)}
    (hl : eps.length = ds.length + 2) (h : abMatrices pol omega g eps ds = .ok cs) : cs.length = eps.length := by
  have h1 : (sMats pol omega g eps).length = ds.length + 1 := by
    unfold sMats
    rw [List.length_zipWith, List.length_tail]
    omega
  have h2 : (tMats omega g eps ds).length = ds.length := by
    unfold tMats
    rw [List.length_zipWith, List.length_dropLast, List.length_tail]
    omega
  unfold abMatrices at h
  split at h
  · rename_i s0 ss t0 ts e1 e2
    rw [e1] at h1
    rw [e2] at h2
    cases h
    simp only [List.length_cons] at h1 h2 ⊢
    rw [abLoop_length, List.length_cons]
    omega
  · cases h

theorem radMode_length {pol : Pol} {lt u : Bool} {omega g : ℝ} {eps ds : List ℝ} {cs : List (ℂ × ℂ)}
    (hl : eps.length = ds.length + 2) (h : radMode pol lt u omega g eps ds = .ok cs) : cs.length = eps.length := by
  unfold radMode at h
  simp only at h
  split at h
  · cases h
  · rename_i cs' hr
    have hc : cs'.length = eps.length := by
      cases u
      · simp only [Bool.false_eq_true, if_false] at hr
        rw [abMatrices_length (by simpa using hl) hr, List.length_reverse]
      · simp only [if_true] at hr
        exact abMatrices_length hl hr
    cases h
    cases u <;> simp [hc]

/-- The radiative modes of the reversed stack are those of the stack, going out into the other cladding. -/
theorem radMode_flip (pol : Pol) (lt u : Bool) (omega g : ℝ) (eps ds : List ℝ) :
    radMode pol lt u omega g eps.reverse ds.reverse =
      (radMode pol lt (!u) omega g eps ds).map fun cs => (cs.map Prod.swap).reverse := by
  have hh : eps.reverse.headD 0 = eps.getLastD 0 := by
    rw [List.headD_eq_head?_getD, List.head?_reverse, List.getLastD_eq_getLast?]
  have hg : eps.reverse.getLastD 0 = eps.headD 0 := by
    rw [List.headD_eq_head?_getD, List.getLastD_eq_getLast?, List.getLast?_reverse]
  unfold radMode
  cases u
  · simp only [Bool.false_eq_true, if_false, Bool.not_false, if_true, List.reverse_reverse, hh]
    cases abMatrices pol omega (max g 1e-10) eps ds with
    | error e => rfl
    | ok cs =>
      simp only [Except.map, List.map_map]
      rfl
  · simp only [Bool.false_eq_true, if_false, Bool.not_true, if_true, hg]
    cases abMatrices pol omega (max g 1e-10) eps.reverse ds.reverse with
    | error e => rfl
    | ok cs =>
      simp only [Except.map, List.map_map, List.map_reverse, List.reverse_reverse]
      rfl

/-- A state of the reversed stack. -/
def flipState (t : GmeState) : GmeState := { t with layers := (t.layers.map (flipMode 1)).reverse }

theorem stackDs_slab (e0 eN : ℝ) (ls : List (ℝ × ℝ)) : stackDs (slabStack e0 eN ls) = ls.map Prod.snd := by
  simp only [stackDs, slabStack, List.cons_append, List.filterMap_cons, List.filterMap_append, List.filterMap_nil,
    List.append_nil, List.filterMap_map]
  induction ls with
  | nil => rfl
  | cons l ls ih => simp [Function.comp_def] at ih ⊢

theorem radState_length {pol : Pol} {u : Bool} {omr e0 eN : ℝ} {ls : List (ℝ × ℝ)} {p : R2} {t : GmeState}
    (h : radState pol u omr (slabStack e0 eN ls) p = .ok t) : t.layers.length = (slabStack e0 eN ls).length := by
  unfold radState at h
  split at h
  · cases h
  · rename_i xy hxy
    cases h
    have := radMode_length (by rw [stackDs_slab, List.length_map, List.length_map, slabStack_length]) hxy
    simp only [List.length_zipWith, List.length_map, this, min_self]

theorem radState_flip (pol : Pol) (u : Bool) (omr e0 eN : ℝ) (ls : List (ℝ × ℝ)) (p : R2) :
    radState pol u omr (slabStack eN e0 ls.reverse) p =
      (radState pol (!u) omr (slabStack e0 eN ls) p).map flipState := by
  have he : (slabStack eN e0 ls.reverse).map Prod.snd = ((slabStack e0 eN ls).map Prod.snd).reverse := by
    rw [slabStack_flip, List.map_reverse, List.map_map]
    rfl
  have hd : stackDs (slabStack eN e0 ls.reverse) = (stackDs (slabStack e0 eN ls)).reverse := by
    rw [stackDs_slab, stackDs_slab, List.map_reverse]
  unfold radState
  rw [he, hd, radMode_flip]
  cases hxy : radMode pol (decide (pol = .te)) (!u) omr (planeAbs p) ((slabStack e0 eN ls).map Prod.snd)
    (stackDs (slabStack e0 eN ls)) with
  | error e => rfl
  | ok xy =>
    have hlen := radMode_length (by rw [stackDs_slab, List.length_map, List.length_map, slabStack_length]) hxy
    simp only [Except.map, flipState]
    congr 2
    rw [List.map_zipWith, List.reverse_zipWith (by simp [hlen]), ← List.map_reverse (f := Prod.swap),
      List.zipWith_map_right]
    simp [flipMode]

theorem cast_phases_charpoly {n n' : ℕ} (h : n' = n) (d : ℕ → ℂ) (hd : ∀ i, d i * conj (d i) = 1)
    (A : Matrix (Fin n) (Fin n) ℂ) (B : Matrix (Fin n') (Fin n') ℂ)
    (hB : ∀ i j, B i j = d i * A (i.cast h) (j.cast h) * conj (d j)) : (B + 1).charpoly = (A + 1).charpoly := by
  subst h
  exact unit_phases_charpoly (fun i : Fin n' => d i) (fun i => hd i) _ _ hB

/-- The same guided modes for the reversed stack. -/
def SameGuided {N : ℕ} (b b' : List (BasisEl N)) : Prop :=
  List.Forall₂ (fun s s' : BasisEl N => s'.blk = s.blk ∧ s'.ig = s.ig ∧ s'.st.pol = s.st.pol ∧ s'.st.om = s.st.om) b b'

/-- **C117 (upside down).** Turn a structure upside down, patterning included. With exact integrals over the layers and the
guided modes of both stacks, the frequencies are the same, the channels of the lower cladding are those of the upper
cladding of the original and the other way round, and every mode whose eigenvalue no other mode has keeps its losses, while
the absolute values of the couplings to the two claddings are exchanged. -/
theorem C117_upside_down (argsort : List ℝ → List ℕ) (eigh : ∀ n, Matrix (Fin n) (Fin n) ℂ → Fin n → ℝ)
    (vecs : ∀ n, Matrix (Fin n) (Fin n) ℂ → Matrix (Fin n) (Fin n) ℂ) (he : SortedEigh eigh) (hp : EighPair eigh vecs)
    (e0 eN : ℝ) (ls : List (ℝ × ℝ)) (hne : ls ≠ []) (hd : ∀ l ∈ ls, 0 ≤ l.2) (h0 : 0 < e0) (hN : eN ≠ 0)
    (hl : ∀ l ∈ ls, l.1 ≠ 0) (gvec : List R2) (k : R2) (b b' : List (BasisEl gvec.length))
    (hb : SlabGuided e0 eN ls gvec k b) (hb' : SlabGuided eN e0 ls.reverse gvec k b') (hsame : SameGuided b b')
    (einv : List (Matrix (Fin gvec.length) (Fin gvec.length) ℂ)) (hlen : einv.length = ls.length + 2)
    (planes : Fin gvec.length → R2) (clads : ℝ × ℝ) (sigma : ℝ) (numeig : ℕ) :
    SameOutcome (SameModes not (eigh _ (gmeMatIj ijExact (slabStack e0 eN ls) einv b + 1)))
      (radAt ijExact argsort (slabStack e0 eN ls) einv b planes clads
        (eigh _ (gmeMatIj ijExact (slabStack e0 eN ls) einv b + 1))
        (vecs _ (gmeMatIj ijExact (slabStack e0 eN ls) einv b + 1)) sigma numeig)
      (radAt ijExact argsort (slabStack eN e0 ls.reverse) einv.reverse b' planes clads.swap
        (eigh _ (gmeMatIj ijExact (slabStack eN e0 ls.reverse) einv.reverse b' + 1))
        (vecs _ (gmeMatIj ijExact (slabStack eN e0 ls.reverse) einv.reverse b' + 1)) sigma numeig) := by
  have hbl : b'.length = b.length := (List.Forall₂.length_eq hsame).symm
  have hget : ∀ (i : ℕ) (h : i < b.length), b'[i].blk = b[i].blk ∧ b'[i].ig = b[i].ig ∧ b'[i].st.pol = b[i].st.pol ∧
      b'[i].st.om = b[i].st.om := fun i h => List.Forall₂.get hsame h (by rw [hbl]; exact h)
  have hu : ∀ i, ∃ u : ℂ, u * conj u = 1 ∧ ∀ h : i < b.length,
      (b'[i].st.pol = b[i].st.pol ∧ b'[i].st.gx = b[i].st.gx ∧ b'[i].st.gy = b[i].st.gy ∧
        b'[i].st.om = b[i].st.om) ∧ b[i].st.layers.length = (slabStack e0 eN ls).length ∧
      b'[i].st.layers = (b[i].st.layers.map (flipMode u)).reverse := by
    intro i
    by_cases hi : i < b.length
    · obtain ⟨g1, g2, g3, g4⟩ := hget i hi
      obtain ⟨abs, r1, q1⟩ := hb.mode b[i] (List.getElem_mem _)
      obtain ⟨abs', r2, q2⟩ := hb'.mode b'[i] (List.getElem_mem _)
      have hgt : gvec[b'[i].ig] = gvec[b[i].ig] := congrArg (fun i : Fin gvec.length => gvec[i]) g2
      rw [hgt, g3, g4] at r2 q2
      have hg : √((gvec[b[i].ig].1 + k.1) ^ 2 + (gvec[b[i].ig].2 + k.2) ^ 2) ≠ 0 := by
        intro hz
        have := r1.low
        rw [hz] at this
        nlinarith [mul_nonneg h0.le (sq_nonneg b[i].st.om)]
      obtain ⟨u, u1, u2⟩ := normState_flip hne hd h0.ne' hN hl hg r1 r2
      rw [← q1, ← q2] at u2
      refine ⟨u, u1, fun _ => ⟨⟨g3, ?_, ?_, g4⟩, ?_, u2⟩⟩
      · rw [q1, q2]; rfl
      · rw [q1, q2]; rfl
      · rw [q1]
        exact normState_length (slabRoot_guided r1 hne h0.ne' hN hl).1.len
    · exact ⟨1, by simp, fun h => absurd h hi⟩
  choose u hu1 hu2 using hu
  have hsgn : ∀ p : Pol, flipSign p * flipSign p = 1 ∧ conj (flipSign p) = flipSign p := by
    intro p; cases p <;> simp [flipSign]
  set d : ℕ → ℂ := fun i => (match b[i]? with | some s => flipSign s.st.pol | none => 1) * conj (u i) with hdef
  have hdv : ∀ i (h : i < b.length), d i = flipSign b[i].st.pol * conj (u i) := by
    intro i h
    simp only [hdef, List.getElem?_eq_getElem h]
  have hdd : ∀ i, d i * conj (d i) = 1 := by
    intro i
    by_cases h : i < b.length
    · rw [hdv i h, map_mul, (hsgn _).2, Complex.conj_conj]
      linear_combination (u i * conj (u i)) * (hsgn b[i].st.pol).1 + hu1 i
    · simp only [hdef, List.getElem?_eq_none (not_lt.1 h), one_mul, Complex.conj_conj]
      rw [mul_comm]
      exact hu1 i
  have hmap : ∀ (i j : Fin gvec.length), (einv.reverse.map fun E => E i j) = (einv.map fun E => E i j).reverse :=
    fun i j => List.map_reverse
  have hent : ∀ i j : Fin b'.length, gmeMatIj ijExact (slabStack eN e0 ls.reverse) einv.reverse b' i j =
      d i * gmeMatIj ijExact (slabStack e0 eN ls) einv b (i.cast hbl) (j.cast hbl) * conj (d j) := by
    intro i j
    unfold gmeMatIj
    rw [of_apply, of_apply]
    have hblk : (fun a : ℕ => ((b'[a]?).map BasisEl.blk).getD 0) = fun a : ℕ => ((b[a]?).map BasisEl.blk).getD 0 := by
      funext a
      by_cases h : a < b.length
      · rw [List.getElem?_eq_getElem h, List.getElem?_eq_getElem (by rw [hbl]; exact h)]
        simp [(hget a h).1]
      · rw [List.getElem?_eq_none (not_lt.1 h), List.getElem?_eq_none (by rw [hbl]; exact not_lt.1 h)]
    rw [hblk]
    have hi : (i : ℕ) < b.length := hbl ▸ i.2
    have hj : (j : ℕ) < b.length := hbl ▸ j.2
    refine completeMat_phases _ _ d hdd b.length ?_ i j hi hj
    intro i hi j hj
    refine blockUpper_phases _ _ _ d b.length ?_ i j hi hj
    intro i hi j hj
    simp only [List.getElem?_eq_getElem hi, List.getElem?_eq_getElem hj,
      List.getElem?_eq_getElem (show i < b'.length by rw [hbl]; exact hi),
      List.getElem?_eq_getElem (show j < b'.length by rw [hbl]; exact hj)]
    obtain ⟨a1, a2, a3⟩ := hu2 i hi
    obtain ⟨c1, c2, c3⟩ := hu2 j hj
    rw [(hget i hi).2.1, (hget j hj).2.1, hmap, slabStack_flip,
      gmeElem_flip ijExact ijExact_flip (slabStack e0 eN ls) _ b[i].st b[j].st _ _
        (by rw [List.length_map, hlen, slabStack_length]) a2 c2 a1 c1 (u i) (u j) a3 c3, hdv i hi, hdv j hj, map_mul,
      (hsgn _).2, Complex.conj_conj]
    ring
  have hherm : ∀ (st : List (LPos × ℝ)) (E : List (Matrix (Fin gvec.length) (Fin gvec.length) ℂ))
      (bb : List (BasisEl gvec.length)), (gmeMatIj ijExact st E bb + 1).IsHermitian := fun st E bb =>
    (completeMat_hermitian _ _).add isHermitian_one
  have hent1 : ∀ i j : Fin b'.length, (gmeMatIj ijExact (slabStack eN e0 ls.reverse) einv.reverse b' + 1) i j =
      d i * (gmeMatIj ijExact (slabStack e0 eN ls) einv b + 1) (i.cast hbl) (j.cast hbl) * conj (d j) := by
    intro i j
    rw [Matrix.add_apply, Matrix.add_apply, hent]
    by_cases hij : i = j
    · subst hij
      simp only [one_apply_eq]
      linear_combination -(hdd i)
    · rw [one_apply_ne hij, one_apply_ne fun h => hij (Fin.ext (by simpa using congrArg Fin.val h))]
      simp
  have hw : List.ofFn (eigh _ (gmeMatIj ijExact (slabStack eN e0 ls.reverse) einv.reverse b' + 1)) =
      List.ofFn (eigh _ (gmeMatIj ijExact (slabStack e0 eN ls) einv b + 1)) := by
    refine sortedEigh_eq he _ _ (hherm _ _ _) (hherm _ _ _) ?_
    exact cast_phases_charpoly hbl d hdd _ _ hent
  refine radAt_same ijExact ijExact argsort _ _ einv einv.reverse b b' planes not (Or.inr rfl) clads clads.swap
    (fun u => by cases u <;> rfl) hbl (hp _ _ (hherm _ _ _)) (hp _ _ (hherm _ _ _)) hw d (fun i _ => hdd i) hent1 ?_ sigma
    numeig
  intro omr pol v j hj
  refine ⟨flipSign pol, by cases pol <;> simp [flipSign], fun i hi => ?_⟩
  unfold radElem
  rw [dif_pos hj, dif_pos hj, List.getElem?_eq_getElem hi,
    List.getElem?_eq_getElem (show i < b'.length by rw [hbl]; exact hi), radState_flip]
  cases ht : radState pol (!v) omr (slabStack e0 eN ls) (planes ⟨j, hj⟩) with
  | error e => simp [Except.map]
  | ok t =>
    have htp : t.pol = pol := by
      unfold radState at ht
      split at ht
      · cases ht
      · cases ht; rfl
    obtain ⟨a1, a2, a3⟩ := hu2 i hi
    simp only [Except.map]
    rw [(hget i hi).2.1, hmap, slabStack_flip,
      gmeElem_flip ijExact ijExact_flip (slabStack e0 eN ls) _ b[i].st t _ (flipState t)
        (by rw [List.length_map, hlen, slabStack_length]) a2 (radState_length ht) a1 ⟨rfl, rfl, rfl, rfl⟩ (u i) 1 a3 rfl,
      hdv i hi, htp]
    ring

/-- **C117 (modes).** The reversed stack has the same guided modes, so that a basis as in `C117_upside_down` exists. -/
theorem C117_basis (e0 eN : ℝ) (ls : List (ℝ × ℝ)) (hne : ls ≠ []) (h0 : e0 ≠ 0) (hN : eN ≠ 0) (hl : ∀ l ∈ ls, l.1 ≠ 0)
    (gvec : List R2) (k : R2) (b : List (BasisEl gvec.length)) (hb : SlabGuided e0 eN ls gvec k b) :
    ∃ b', SlabGuided eN e0 ls.reverse gvec k b' ∧ SameGuided b b' := by
  have h : ∀ s, ∃ abs', s ∈ b → SlabRoot s.st.pol s.st.om (√((gvec[s.ig].1 + k.1) ^ 2 + (gvec[s.ig].2 + k.2) ^ 2)) eN e0
      ls.reverse abs' := by
    intro s
    by_cases hs : s ∈ b
    · obtain ⟨abs, r1, -⟩ := hb.mode s hs
      obtain ⟨abs', r2⟩ := slabRoot_flip hne h0 hN hl r1
      exact ⟨abs', fun _ => r2⟩
    · exact ⟨[], fun h => absurd h hs⟩
  choose abs' habs using h
  refine ⟨b.map fun s => ⟨s.blk, s.ig, normState s.st.pol (gvec[s.ig].1 + k.1) (gvec[s.ig].2 + k.2) s.st.om eN e0
    ls.reverse (abs' s)⟩, ⟨?_, ?_⟩, ?_⟩
  · rw [List.pairwise_map]
    exact hb.sorted
  · intro s' hs'
    obtain ⟨s, hs, rfl⟩ := List.mem_map.1 hs'
    exact ⟨abs' s, habs s hs, rfl⟩
  · unfold SameGuided
    rw [List.forall₂_map_right_iff]
    exact List.forall₂_same.2 fun s _ => ⟨rfl, rfl, rfl, rfl⟩

/-- The asymmetric slab of C96 with any patterning, at any wave vectors. -/
example (argsort : List ℝ → List ℕ) : ∃ (eigh : ∀ n, Matrix (Fin n) (Fin n) ℂ → Fin n → ℝ)
    (vecs : ∀ n, Matrix (Fin n) (Fin n) ℂ → Matrix (Fin n) (Fin n) ℂ), ∀ (gvec : List R2) (k : R2)
    (einv : List (Matrix (Fin gvec.length) (Fin gvec.length) ℂ)), einv.length = 3 → ∃ b b' : List (BasisEl gvec.length),
    branchGuided asymBranch 1e-15 3 1 [(5, 7 * Real.pi / 12)] (slabStack 3 1 [(5, 7 * Real.pi / 12)]) gvec [k] 0 = .ok b ∧
    SameGuided b b' ∧
    SameOutcome (SameModes not (eigh _ (gmeMatIj ijExact (slabStack 3 1 [(5, 7 * Real.pi / 12)]) einv b + 1)))
      (radAt ijExact argsort (slabStack 3 1 [(5, 7 * Real.pi / 12)]) einv b (fun i => radPlane 1e-15 k gvec[i]) (3, 1)
        (eigh _ (gmeMatIj ijExact (slabStack 3 1 [(5, 7 * Real.pi / 12)]) einv b + 1))
        (vecs _ (gmeMatIj ijExact (slabStack 3 1 [(5, 7 * Real.pi / 12)]) einv b + 1)) 0 5)
      (radAt ijExact argsort (slabStack 1 3 [(5, 7 * Real.pi / 12)]) einv.reverse b' (fun i => radPlane 1e-15 k gvec[i])
        (1, 3) (eigh _ (gmeMatIj ijExact (slabStack 1 3 [(5, 7 * Real.pi / 12)]) einv.reverse b' + 1))
        (vecs _ (gmeMatIj ijExact (slabStack 1 3 [(5, 7 * Real.pi / 12)]) einv.reverse b' + 1)) 0 5) := by
  obtain ⟨eigh, vecs, he, hp⟩ := sortedPair_exists
  refine ⟨eigh, vecs, fun gvec k einv hlen => ?_⟩
  have hb := branch_basis asym_roots 1e-15 (slabStack 3 1 [(5, 7 * Real.pi / 12)]) gvec [k] 0 _ rfl
  obtain ⟨b', hb', hs⟩ := C117_basis 3 1 [(5, 7 * Real.pi / 12)] (by simp) (by norm_num) one_ne_zero (by simp) _ _ _ hb
  refine ⟨_, b', rfl, hs, ?_⟩
  exact C117_upside_down argsort eigh vecs he hp 3 1 [(5, 7 * Real.pi / 12)] (by simp) (by simp; positivity) (by norm_num)
    one_ne_zero (by simp) gvec _ _ b' hb hb' hs einv hlen _ (3, 1) 0 5

/-! ### Unpatterned slabs -/

/-- The inverse permittivity of a layer without shapes. -/
theorem epsInv_plain (S : GmeStruct) (hres : Resolved S.b1 S.b2) (gmax : ℝ) (onlyG : Bool) (l : GmeLay)
    (hs : l.shapes = []) (E : Matrix (Fin (S.gvec gmax).length) (Fin (S.gvec gmax).length) ℂ)
    (hE : S.epsInv gmax onlyG l = .ok E) : E = ((1 / l.epsAvg : ℝ) : ℂ) • 1 := by
  rcases Nat.eq_zero_or_pos (S.gvec gmax).length with h0 | h0
  · have : IsEmpty (Fin (S.gvec gmax).length) := by rw [h0]; infer_instance
    exact Subsingleton.elim _ _
  have hp := plain_mat S hres l hs gmax
  have h00 : epsMatAbs (S.ft l) S.b1 S.b2 (absInds S.b1 S.b2 gmax) 0 0 = (l.epsAvg : ℂ) := by
    have := congrFun (congrFun hp ⟨0, h0⟩) ⟨0, h0⟩
    rw [Matrix.smul_apply, one_apply_eq, smul_eq_mul, mul_one] at this
    exact this
  unfold GmeStruct.epsInv at hE
  split_ifs at hE with c1 c2
  · cases hE
    rw [h00]
    push_cast
    rw [one_div]
  · cases hE
    rw [hp]
    have hz : (l.epsAvg : ℂ) ≠ 0 := by
      intro hz
      rw [hp, hz, zero_smul] at c2
      have : Nonempty (Fin (S.gvec gmax).length) := ⟨⟨0, h0⟩⟩
      exact c2 det_zero
    refine inv_eq_right_inv ?_
    rw [Matrix.smul_mul, Matrix.mul_smul, Matrix.mul_one, smul_smul]
    push_cast
    rw [one_div, mul_inv_cancel₀ hz, one_smul]

/-- **C117 (unpatterned).** A structure without shapes does not radiate: with exact integrals over the layers and the
guided modes of the slab, at every wave vector, for every truncation and every choice of eigenvectors, also within
degenerate groups, all couplings of all modes to all open channels are zero, and all losses that are numbers are zero. -/
theorem C117_unpatterned (dgx : ℝ) (argsort : List ℝ → List ℕ) (eigh : ∀ n, Matrix (Fin n) (Fin n) ℂ → Fin n → ℝ)
    (vecs : ∀ n, Matrix (Fin n) (Fin n) ℂ → Matrix (Fin n) (Fin n) ℂ) (hp : EighPair eigh vecs)
    (guided : GuidedSolver) (S : GmeStruct) (hS : Resolved S.b1 S.b2) (hsh : ∀ l ∈ S.layers, l.shapes = [])
    (gmax : ℝ) (onlyG : Bool) (e0 eN : ℝ) (ls : List (ℝ × ℝ)) (hne : ls ≠ []) (h0 : 0 < e0) (hN : 0 < eN)
    (hl : ∀ l ∈ ls, l.1 ≠ 0) (hd : ∀ l ∈ ls, 0 ≤ l.2)
    (hst : (S.layers.map GmeLay.pos).zip (S.layers.map GmeLay.epsAvg) = slabStack e0 eN ls) (ks : List R2)
    (hg : ∀ ik k, ks[ik]? = some k → ∀ b, guided (slabStack e0 eN ls) (S.gvec gmax) ks ik = .ok b →
      DistinctModes b ∧ SlabGuided e0 eN ls (S.gvec gmax) (k.1 + dgx, k.2) b) (sigma : ℝ) (numeig : ℕ)
    (r : List (KRes × List RadRes))
    (hrun : radSimIj ijExact dgx argsort eigh vecs guided S gmax onlyG "average" ks sigma numeig = .ok r) :
    ∀ x ∈ r, ∀ a ∈ x.2, (∀ u pol l, a.coup u pol = some l → ∀ c ∈ l, c = 0) ∧ ∀ l, a.loss = some l → l = ⟨0, 0, 0⟩ := by
  obtain ⟨eff, einv, heff, heinv, hlen, hget⟩ := radSimIj_ok hrun
  have he1 : eff = S.layers.map GmeLay.epsAvg := by
    have : S.layers.mapM (GmeLay.eff "average") = .ok (S.layers.map GmeLay.epsAvg) := by
      rw [show GmeLay.eff "average" = fun l => .ok l.epsAvg from funext fun l => by simp [GmeLay.eff]]
      exact mapM_ok_map _ _
    exact Except.ok.inj (heff.symm.trans this)
  subst he1
  have hlp : (S.layers.map GmeLay.epsAvg) = (slabStack e0 eN ls).map Prod.snd := by
    rw [← hst, List.map_snd_zip (by simp)]
  have hcl : cladAvgs S = (e0, eN) := by
    unfold cladAvgs
    rw [← List.head?_map, ← List.getLast?_map, hlp]
    simp only [slabStack, List.map_append, List.map_cons, List.map_nil, List.getLast?_concat]
    rfl
  have he2 : einv = scaledInv (S.gvec gmax).length e0 eN ls 1 := by
    have hf := mapM_ok_forall heinv
    have : List.Forall₂ (fun (l : GmeLay) E => E = ((1 / l.epsAvg : ℝ) : ℂ) •
        (1 : Matrix (Fin (S.gvec gmax).length) (Fin (S.gvec gmax).length) ℂ)) S.layers einv := by
      have key : ∀ (ls : List GmeLay) (es : List (Matrix (Fin (S.gvec gmax).length) (Fin (S.gvec gmax).length) ℂ)),
          (∀ l ∈ ls, l.shapes = []) → List.Forall₂ (fun a b => S.epsInv gmax onlyG a = .ok b) ls es →
          List.Forall₂ (fun (l : GmeLay) E => E = ((1 / l.epsAvg : ℝ) : ℂ) •
            (1 : Matrix (Fin (S.gvec gmax).length) (Fin (S.gvec gmax).length) ℂ)) ls es := by
        intro ls es h1 h2
        induction h2 with
        | nil => exact .nil
        | cons h _ ih =>
          exact .cons (epsInv_plain S hS gmax onlyG _ (h1 _ List.mem_cons_self) _ h)
            (ih fun l hl => h1 l (List.mem_cons_of_mem _ hl))
      exact key _ _ hsh hf
    have h2 : einv = S.layers.map fun l => ((1 / l.epsAvg : ℝ) : ℂ) •
        (1 : Matrix (Fin (S.gvec gmax).length) (Fin (S.gvec gmax).length) ℂ) := by
      clear hf heinv hget
      generalize S.layers = ll at this
      induction this with
      | nil => rfl
      | cons h _ ih => rw [List.map_cons, ← ih, ← h]
    rw [h2]
    unfold scaledInv
    have h3 := congrArg (List.map fun e : ℝ => ((1 / e : ℝ) : ℂ) •
      (1 : Matrix (Fin (S.gvec gmax).length) (Fin (S.gvec gmax).length) ℂ)) hlp
    rw [List.map_map, List.map_map] at h3
    exact h3
  subst he2
  intro x hx a ha
  obtain ⟨ik, hik⟩ := List.mem_iff_getElem?.1 hx
  obtain ⟨p, hpp⟩ := List.mem_iff_getElem?.1 ha
  obtain ⟨hlt, basis, hbas, hat⟩ := hget ik x hik
  rw [hst] at hbas hat
  obtain ⟨hdis, hslab⟩ := hg ik _ (List.getElem?_eq_getElem hlt) basis hbas
  have hkd : ks.getD ik 0 = ks[ik] := by
    rw [List.getD_eq_getElem?_getD, List.getElem?_eq_getElem hlt]; rfl
  rw [hkd, hcl] at hat
  set k := ks[ik] with hk
  have hM := slabGuided_diagonal hne h0 hN.ne' hl hd hslab hdis 1
  set M := gmeMatIj ijExact (slabStack e0 eN ls) (scaledInv (S.gvec gmax).length e0 eN ls 1) basis + 1 with hMdef
  have hH : M.IsHermitian := (completeMat_hermitian _ _).add isHermitian_one
  have hei := hp _ M hH
  obtain ⟨-, -, hm⟩ := radAt_ok hat
  obtain ⟨m, f, h1, h2, h3, ha'⟩ := hm p a hpp
  set V := vecs basis.length M with hV
  set w := eigh basis.length M with hw
  -- every coupling to an open channel vanishes
  have hsum : ∀ (u : Bool) (pol : Pol) (j : ℕ) (hj : j < (S.gvec gmax).length),
      (radPlane dgx k (S.gvec gmax)[j]).1 ^ 2 + (radPlane dgx k (S.gvec gmax)[j]).2 ^ 2 ≤
        (if u then eN else e0) * (2 * Real.pi * f) ^ 2 →
      ∑ i ∈ Finset.range basis.length, radElem ijExact (slabStack e0 eN ls)
        (scaledInv (S.gvec gmax).length e0 eN ls 1) basis (fun i => radPlane dgx k (S.gvec gmax)[i])
        (2 * Real.pi * f) pol u i j * conj (colOf V m i) = 0 := by
    intro u pol j hj hopen
    refine Finset.sum_eq_zero fun i hi => ?_
    have hi := Finset.mem_range.1 hi
    by_cases hc : colOf V m i = 0
    · rw [hc, map_zero, mul_zero]
    by_cases hig : basis[i].ig = ⟨j, hj⟩
    · exfalso
      unfold colOf at hc
      split_ifs at hc with hmm
      · have hev := congrFun (congrFun hei.eigen ⟨i, hi⟩) ⟨m, hmm.2⟩
        rw [mul_diagonal, hMdef, hM, ← diagonal_one, diagonal_add, diagonal_mul] at hev
        have hw1 : ((basis[i].st.om ^ 2 + 1 : ℝ) : ℂ) = (w ⟨m, hmm.2⟩ : ℂ) := by
          have := mul_right_cancel₀ hc (hev.trans (mul_comm _ _))
          rw [← this]
          push_cast
          simp
        have hw2 : w ⟨m, hmm.2⟩ = basis[i].st.om ^ 2 + 1 := by exact_mod_cast hw1.symm
        have hfm : f = freqOf (w ⟨m, hmm.2⟩) := by
          rw [h3, List.getD_eq_getElem?_getD, List.getElem?_map, List.getElem?_ofFn, dif_pos hmm.2]
          rfl
        have hom : (2 * Real.pi * f) ^ 2 = basis[i].st.om ^ 2 := by
          rw [hfm, hw2, freqOf, add_sub_cancel_right, abs_of_nonneg (sq_nonneg _)]
          have hpi := Real.pi_ne_zero
          rw [show 2 * Real.pi * (√(basis[i].st.om ^ 2) / 2 / Real.pi) = √(basis[i].st.om ^ 2) by field_simp,
            Real.sq_sqrt (sq_nonneg _)]
        obtain ⟨abs, r1, -⟩ := hslab.mode basis[i] (List.getElem_mem _)
        have hgi : (S.gvec gmax)[basis[i].ig] = (S.gvec gmax)[j] :=
          congrArg (fun i : Fin (S.gvec gmax).length => (S.gvec gmax)[i]) hig
        have hsq : ∀ y z : ℝ, √(y ^ 2 + z ^ 2) ^ 2 = y ^ 2 + z ^ 2 := fun y z => Real.sq_sqrt (by positivity)
        have l1 := r1.low
        have l2 := r1.up
        rw [hgi, hsq] at l1 l2
        rw [hom] at hopen
        simp only [radPlane] at hopen
        rw [add_assoc] at hopen
        cases u
        · simp only [Bool.false_eq_true, if_false] at hopen
          linarith
        · simp only [if_true] at hopen
          linarith
      · exact hc rfl
    · unfold radElem
      rw [dif_pos hj, List.getElem?_eq_getElem hi]
      cases radState pol u (2 * Real.pi * f) (slabStack e0 eN ls) (radPlane dgx k (S.gvec gmax)[j]) with
      | error e => simp
      | ok t =>
        simp only
        rw [gmeElem_zero, zero_mul]
        intro e he
        obtain ⟨E, hE, rfl⟩ := List.mem_map.1 he
        obtain ⟨q, -, rfl⟩ := List.mem_map.1 hE
        rw [Matrix.smul_apply, one_apply_ne hig, smul_zero]
  have hcoup : ∀ u pol l, a.coup u pol = some l → ∀ c ∈ l, c = 0 := by
    intro u pol l hcl c hc
    rw [ha'] at hcl
    simp only [radOf, radClad_coup] at hcl
    rw [mapM_option_eq _ 0 _ _ hcl] at hc
    obtain ⟨j, hj, rfl⟩ := List.mem_map.1 hc
    obtain ⟨j1, j2⟩ := (mem_openChannels _ _ _ _).1 hj
    rw [List.length_ofFn] at j1
    rw [List.getD_eq_getElem?_getD, List.getElem?_ofFn, dif_pos j1, Option.getD_some, planeAbs_sq] at j2
    cases radDos (if u = true then eN else e0) (2 * Real.pi * f)
        ((List.ofFn fun i : Fin (S.gvec gmax).length => planeAbs (radPlane dgx k (S.gvec gmax)[i])).getD j 0) with
    | none => rfl
    | some dd =>
      simp only [Option.map_some, Option.getD_some]
      rw [hsum u pol j j1 j2, mul_zero, mul_zero]
  refine ⟨hcoup, fun l hloss => ?_⟩
  obtain ⟨-, -, c3, -⟩ := radOf_losses _ _ _ _ _ _ _ _ (fun u => if u then eN else e0) rfl a ha'
  obtain ⟨n1, n2, n3, n4, n5, n6, -, -, c, hc, d1, d2, d3⟩ := c3 l hloss
  have hz : ∀ u pol, sumSq (c u pol) = 0 := by
    intro u pol
    unfold sumSq
    refine List.sum_eq_zero fun y hy => ?_
    obtain ⟨z, hz, rfl⟩ := List.mem_map.1 hy
    rw [hcoup u pol _ (hc u pol).1 z hz]
    simp
  have hdec : ∀ y, 0 ≤ y → decayOf (2 * Real.pi * f) y = 0 → y = 0 := by
    intro y hy hdy
    unfold decayOf at hdy
    have hpi := Real.pi_pos
    rcases mul_eq_zero.1 hdy with h | h
    · have : Real.pi * y = 0 := by linarith
      exact (mul_eq_zero.1 this).resolve_left hpi.ne'
    · rw [Real.sqrt_eq_zero (by positivity)] at h
      have : (2 * Real.pi * y) ^ 2 = 0 := by nlinarith [sq_nonneg (2 * Real.pi * f), sq_nonneg (2 * Real.pi * y)]
      have := pow_eq_zero_iff two_ne_zero |>.1 this
      have : Real.pi * y = 0 := by linarith
      exact (mul_eq_zero.1 this).resolve_left hpi.ne'
  rw [hz, hz, add_zero] at d1 d2
  have t1 := hdec _ n2 d1
  have t2 := hdec _ n3 d2
  have t3 : l.tot = 0 := le_antisymm (by linarith) n1
  cases l
  simp only at t1 t2 t3
  rw [t1, t2, t3]

/-- The asymmetric slab without holes in an empty square lattice. -/
noncomputable def asymPlain : GmeStruct :=
  ⟨(2 * Real.pi, 0), (0, 2 * Real.pi), 1, [⟨.lower, 3, 3, none, []⟩, ⟨.inner (7 * Real.pi / 12), 5, 5, none, []⟩,
    ⟨.upper, 1, 1, none, []⟩]⟩

/-- Runs of the unpatterned slab return, and nothing in them radiates. -/
example (argsort : List ℝ → List ℕ) (gmax : ℝ) (hg : 0 ≤ gmax) : ∃ eigh vecs r,
    radSimIj ijExact 1e-15 argsort eigh vecs (branchGuided asymBranch 1e-15 3 1 [(5, 7 * Real.pi / 12)]) asymPlain gmax
      false "average" [(2 - 1e-15, 0)] 0 1 = .ok r ∧ r.length = 1 ∧
    ∀ x ∈ r, ∀ a ∈ x.2, (∀ u pol l, a.coup u pol = some l → ∀ c ∈ l, c = 0) ∧ ∀ l, a.loss = some l → l = ⟨0, 0, 0⟩ := by
  obtain ⟨eigh, vecs, hp⟩ := eighPair_exists
  have hsh : ∀ l ∈ asymPlain.layers, l.shapes = [] := by
    intro l hl
    simp only [asymPlain, List.mem_cons, List.not_mem_nil, or_false] at hl
    rcases hl with rfl | rfl | rfl <;> rfl
  have hmem : ((0, 0) : R2) ∈ asymPlain.gvec gmax := by
    exact List.mem_map.2 ⟨(0, 0), absInds_zero _ _ _ hg, by simp [gOf]⟩
  have hpos : 0 < (asymPlain.gvec gmax).length := List.length_pos_of_mem hmem
  have hE : ∀ l ∈ asymPlain.layers, ∃ E, asymPlain.epsInv gmax false l = .ok E := by
    intro l hl
    unfold GmeStruct.epsInv
    split_ifs with c1 c2
    · exact ⟨_, rfl⟩
    · exfalso
      rw [plain_mat asymPlain resolved_square l (hsh l hl) gmax, det_smul, det_one, mul_one] at c2
      have c3 := pow_eq_zero_iff (by rw [Fintype.card_fin]; exact hpos.ne') |>.1 c2
      simp only [asymPlain, List.mem_cons, List.not_mem_nil, or_false] at hl
      rcases hl with rfl | rfl | rfl <;> norm_num at c3
    · exact ⟨_, rfl⟩
  have hE2 : ∃ einv, asymPlain.layers.mapM (asymPlain.epsInv gmax false) = .ok einv := by
    obtain ⟨E1, h1⟩ := hE _ (by simp [asymPlain]; exact Or.inl rfl)
    obtain ⟨E2, h2⟩ := hE _ (by simp [asymPlain]; exact Or.inr (Or.inl rfl))
    obtain ⟨E3, h3⟩ := hE _ (by simp [asymPlain]; exact Or.inr (Or.inr rfl))
    refine ⟨[E1, E2, E3], ?_⟩
    simp only [asymPlain] at h1 h2 h3 ⊢
    simp only [List.mapM_cons, List.mapM_nil, h1, h2, h3, bind, Except.bind, pure, Except.pure]
  obtain ⟨einv, hE3⟩ := hE2
  have heff : asymPlain.layers.mapM (GmeLay.eff "average") = .ok [3, 5, 1] := rfl
  have hst : (asymPlain.layers.map GmeLay.pos).zip (asymPlain.layers.map GmeLay.epsAvg) =
      slabStack 3 1 [(5, 7 * Real.pi / 12)] := rfl
  obtain ⟨r, hr⟩ := radSimIj_runs (ij := ijExact) (dgx := 1e-15) (argsort := argsort) (eigh := eigh) (vecs := vecs)
    (guided := branchGuided asymBranch 1e-15 3 1 [(5, 7 * Real.pi / 12)]) (ks := [(2 - 1e-15, 0)]) (sigma := 0)
    (numeig := 1) one_ne_zero heff hE3 (by
      intro ik hik
      refine ⟨_, rfl, ?_⟩
      obtain rfl : ik = 0 := by simpa using hik
      obtain ⟨i, hi, h0⟩ := List.mem_iff_getElem.1 hmem
      refine List.length_pos_of_mem (a := ⟨0, ⟨i, hi⟩, _⟩) (List.mem_flatMap.2 ⟨0, by simp [asymBranch],
        List.mem_filterMap.2 ⟨⟨i, hi⟩, List.mem_finRange _, Option.map_eq_some_iff.2 ⟨1, ?_, rfl⟩⟩⟩)
      have h2 : √((2 : ℝ) ^ 2) = 2 := Real.sqrt_sq (by norm_num)
      simp [asymBranch, h0, h2])
  refine ⟨eigh, vecs, r, hr, ?_, ?_⟩
  · obtain ⟨-, -, -, -, hlen, -⟩ := radSimIj_ok hr
    exact hlen
  · refine C117_unpatterned 1e-15 argsort eigh vecs hp _ asymPlain resolved_square hsh gmax false 3 1
      [(5, 7 * Real.pi / 12)] (by simp) (by norm_num) one_pos (by simp) (by simp; positivity) hst _ ?_ 0 1 r hr
    intro ik k hk b hb
    refine ⟨branch_distinct asymBranch (by simp [asymBranch]) _ _ _ _ _ _ _ ik b hb, ?_⟩
    have := branch_basis asym_roots _ _ _ _ ik b hb
    rw [List.getD_eq_getElem?_getD, hk, Option.getD_some] at this
    have e : (k + ((1e-15 : ℝ), (0 : ℝ)) : R2) = (k.1 + 1e-15, k.2) := by ext <;> simp
    rwa [e] at this

end Legume
