import Verif.Lemmas.RadTurn

/-!
# Losses of subdivided stacks, at one wave vector
-/
namespace Legume

open Complex Spec
open scoped ComplexConjugate

theorem slabEps_split (e0 eN e d1 d2 : ℝ) (l1 l2 : List (ℝ × ℝ)) (x : ℝ) :
    x ∈ slabEps e0 eN (l1 ++ (e, d1) :: (e, d2) :: l2) ↔ x ∈ slabEps e0 eN (l1 ++ (e, d1 + d2) :: l2) := by
  simp [slabEps]

/-- The elements of the basis of the subdivided stack couple with each other and with radiative waves as those of the basis. -/
theorem split_elems (e0 eN e d1 d2 : ℝ) (l1 l2 : List (ℝ × ℝ)) (hd1 : 0 ≤ d1) (hd2 : 0 ≤ d2) (h0 : 0 < e0) (hN : 0 < eN)
    (hl : ∀ l ∈ l1 ++ (e, d1 + d2) :: l2, l.1 ≠ 0) (gvec : List R2) (k : R2)
    (Es : List (Matrix (Fin gvec.length) (Fin gvec.length) ℂ)) (hE : Es.length = (l1 ++ (e, d1 + d2) :: l2).length + 2)
    (b b' : List (BasisEl gvec.length)) (hb : SlabGuided e0 eN (l1 ++ (e, d1 + d2) :: l2) gvec k b)
    (hb' : SlabGuided e0 eN (l1 ++ (e, d1) :: (e, d2) :: l2) gvec k b') (hs : SameBasis b b')
    (planes : Fin gvec.length → R2) :
    (∀ (i j : ℕ) (hi : i < b.length) (hj : j < b.length) (hi' : i < b'.length) (hj' : j < b'.length),
      gmeElem ijExact (slabStack e0 eN (l1 ++ (e, d1) :: (e, d2) :: l2))
        ((twiceAt (l1.length + 1) Es).map fun E => E b'[i].ig b'[j].ig) b'[i].st b'[j].st =
      (1 : ℂ) * gmeElem ijExact (slabStack e0 eN (l1 ++ (e, d1 + d2) :: l2)) (Es.map fun E => E b[i].ig b[j].ig)
        b[i].st b[j].st * conj (1 : ℂ)) ∧
    ∀ om, RegularChannels om e0 eN (l1 ++ (e, d1 + d2) :: l2) planes → ∀ (pol : Pol) (u : Bool) (j : Fin gvec.length),
      planeAbs (planes j) ^ 2 ≤ (if u then eN else e0) * om ^ 2 → ∃ ζ : ℂ, ‖ζ‖ = 1 ∧ ∀ i < b.length,
        radElem ijExact (slabStack e0 eN (l1 ++ (e, d1) :: (e, d2) :: l2)) (twiceAt (l1.length + 1) Es) b' planes om pol
          (id u) i j = ζ * 1 * radElem ijExact (slabStack e0 eN (l1 ++ (e, d1 + d2) :: l2)) Es b planes om pol u i j := by
  have hlen : b'.length = b.length := hs.length_eq.symm
  have hl' : ∀ l ∈ l1 ++ (e, d1) :: (e, d2) :: l2, l.1 ≠ 0 := by
    intro l hm
    simp only [List.mem_append, List.mem_cons] at hm
    rcases hm with hm | rfl | rfl | hm
    · exact hl l (by simp [hm])
    · exact hl (e, d1 + d2) (by simp)
    · exact hl (e, d1 + d2) (by simp)
    · exact hl l (by simp [hm])
  have dec : ∀ (i : ℕ) (hi : i < b.length) (hi' : i < b'.length), ∃ (M1 M2 : List ModeL) (m : ModeL),
      M1.length = l1.length + 1 ∧ b[i].st.layers = M1 ++ m :: M2 ∧
      b'[i].st.layers = M1 ++ shiftMode (-(d2 / 2)) m :: shiftMode (d1 / 2) m :: M2 := by
    intro i hi hi'
    obtain ⟨-, g2, g3, g4⟩ := hs.get i hi hi'
    obtain ⟨abs, q1, q2⟩ := hb.mode b[i] (List.getElem_mem _)
    obtain ⟨abs', q3, q4⟩ := hb'.mode b'[i] (List.getElem_mem _)
    have hgv : gvec[b'[i].ig] = gvec[b[i].ig] := by simp only [Fin.getElem_fin, g2]
    rw [hgv, g3, g4] at q3 q4
    rw [q4]
    conv => enter [1, M1, 1, M2, 1, m]; rw [q2]
    exact normState_split hd1 hd2 h0.ne' hN.ne' hl q1 q3
  obtain ⟨E1, X, E2, hE1, hE2⟩ := split_at_length Es (l1.length + 1) (by rw [hE]; simp)
  have elem : ∀ (x y : Fin gvec.length) (s t s' t' : GmeState)
      (_ : s'.pol = s.pol ∧ s'.gx = s.gx ∧ s'.gy = s.gy ∧ s'.om = s.om)
      (_ : t'.pol = t.pol ∧ t'.gx = t.gx ∧ t'.gy = t.gy ∧ t'.om = t.om) (M1 M2 N1 N2 : List ModeL) (m n : ModeL)
      (_ : M1.length = l1.length + 1) (_ : N1.length = l1.length + 1) (_ : s.layers = M1 ++ m :: M2)
      (_ : t.layers = N1 ++ n :: N2)
      (_ : s'.layers = M1 ++ shiftMode (-(d2 / 2)) m :: shiftMode (d1 / 2) m :: M2)
      (_ : t'.layers = N1 ++ shiftMode (-(d2 / 2)) n :: shiftMode (d1 / 2) n :: N2),
      gmeElem ijExact (slabStack e0 eN (l1 ++ (e, d1) :: (e, d2) :: l2))
        ((twiceAt (l1.length + 1) Es).map fun E => E x y) s' t' =
      gmeElem ijExact (slabStack e0 eN (l1 ++ (e, d1 + d2) :: l2)) (Es.map fun E => E x y) s t := by
    intro x y s t s' t' a1 a2 M1 M2 N1 N2 m n a3 a4 a5 a6 a7 a8
    rw [hE1, ← hE2, twiceAt_append, slabStack_split, slabStack_split]
    simp only [List.map_cons, List.map_append, List.cons_append (as := List.map _ l2)]
    refine gmeElem_split _ _ e d1 d2 hd1 hd2 _ _ _ ?_ s t s' t' a1 a2 M1 M2 N1 N2 m n ?_ ?_ a5 a6 a7 a8
    · simp [hE2]
    · simp [a3]
    · simp [a4]
  refine ⟨?_, ?_⟩
  · intro i j hi hj hi' hj'
    obtain ⟨M1, M2, m, c1, c2, c3⟩ := dec i hi hi'
    obtain ⟨N1, N2, n, c4, c5, c6⟩ := dec j hj hj'
    rw [(hs.get i hi hi').2.1, (hs.get j hj hj').2.1,
      elem _ _ b[i].st b[j].st _ _ (sameBasis_fields hb hb' hs i hi hi') (sameBasis_fields hb hb' hs j hj hj') M1 M2 N1 N2
        m n c1 c4 c2 c5 c3 c6]
    simp
  · intro om hreg pol v j hj
    refine ⟨1, by simp, fun i hi => ?_⟩
    have hi' : i < b'.length := hlen ▸ hi
    obtain ⟨t, t1, t2⟩ := hreg.wave (by simp) h0 hN hl pol hj
    have hreg' : RegularChannels om e0 eN (l1 ++ (e, d1) :: (e, d2) :: l2) planes := by
      intro w q hq
      obtain ⟨a1, a2⟩ := hreg w q hq
      exact ⟨a1, fun x h => a2 x ((slabEps_split _ _ _ _ _ _ _ x).1 h)⟩
    obtain ⟨t', t3, t4⟩ := hreg'.wave (by simp) h0 hN hl' pol hj
    obtain ⟨hpj, hoff⟩ := hreg' v j hj
    obtain ⟨N1, n, N2, c4, c5⟩ := split_at_length t.layers (l1.length + 1) (by rw [t2.length]; simp)
    have htt := t4.unique h0 hN hl' hpj hoff hj (t2.split hpj c5 c4)
    obtain ⟨M1, M2, m, c1, c2, c3⟩ := dec i hi hi'
    simp only [id]
    have hf : t'.pol = t.pol ∧ t'.gx = t.gx ∧ t'.gy = t.gy ∧ t'.om = t.om := by rw [htt]; exact ⟨rfl, rfl, rfl, rfl⟩
    have hL : t'.layers = N1 ++ shiftMode (-(d2 / 2)) n :: shiftMode (d1 / 2) n :: N2 := by rw [htt]
    rw [radElem_of_wave _ _ _ _ _ _ _ _ i hi' j t3, radElem_of_wave _ _ _ _ _ _ _ _ i hi j t1, (hs.get i hi hi').2.1,
      elem _ _ b[i].st t b'[i].st t' (sameBasis_fields hb hb' hs i hi hi') hf M1 M2 N1 N2 m n c1 c5 c2 c4 c3 hL]
    simp

/-- All modes at one wave vector of a structure and of the structure with one layer written as two. -/
theorem radAt_split (argsort : List ℝ → List ℕ) (hsort : ∀ l, IsArgsort l (argsort l))
    (eigh : ∀ n, Matrix (Fin n) (Fin n) ℂ → Fin n → ℝ)
    (vecs : ∀ n, Matrix (Fin n) (Fin n) ℂ → Matrix (Fin n) (Fin n) ℂ) (he : SortedEigh eigh) (hp : EighPair eigh vecs)
    (e0 eN e d1 d2 : ℝ) (l1 l2 : List (ℝ × ℝ)) (hd1 : 0 ≤ d1) (hd2 : 0 ≤ d2) (h0 : 0 < e0) (hN : 0 < eN)
    (hl : ∀ l ∈ l1 ++ (e, d1 + d2) :: l2, l.1 ≠ 0) (gvec : List R2) (k : R2)
    (Es : List (Matrix (Fin gvec.length) (Fin gvec.length) ℂ)) (hE : Es.length = (l1 ++ (e, d1 + d2) :: l2).length + 2)
    (b b' : List (BasisEl gvec.length)) (hb : SlabGuided e0 eN (l1 ++ (e, d1 + d2) :: l2) gvec k b)
    (hb' : SlabGuided e0 eN (l1 ++ (e, d1) :: (e, d2) :: l2) gvec k b') (hs : SameBasis b b')
    (planes : Fin gvec.length → R2) (sigma : ℝ) (numeig : ℕ) :
    SameOutcome (SwappedModes id e0 eN (l1 ++ (e, d1 + d2) :: l2) planes
        (eigh _ (gmeMatIj ijExact (slabStack e0 eN (l1 ++ (e, d1 + d2) :: l2)) Es b + 1)))
      (radAt ijExact argsort (slabStack e0 eN (l1 ++ (e, d1 + d2) :: l2)) Es b planes (e0, eN)
        (eigh _ (gmeMatIj ijExact (slabStack e0 eN (l1 ++ (e, d1 + d2) :: l2)) Es b + 1))
        (vecs _ (gmeMatIj ijExact (slabStack e0 eN (l1 ++ (e, d1 + d2) :: l2)) Es b + 1)) sigma numeig)
      (radAt ijExact argsort (slabStack e0 eN (l1 ++ (e, d1) :: (e, d2) :: l2)) (twiceAt (l1.length + 1) Es) b' planes (e0, eN)
        (eigh _ (gmeMatIj ijExact (slabStack e0 eN (l1 ++ (e, d1) :: (e, d2) :: l2)) (twiceAt (l1.length + 1) Es) b' + 1))
        (vecs _ (gmeMatIj ijExact (slabStack e0 eN (l1 ++ (e, d1) :: (e, d2) :: l2)) (twiceAt (l1.length + 1) Es) b' + 1))
        sigma numeig) := by
  obtain ⟨hel, hrad⟩ := split_elems e0 eN e d1 d2 l1 l2 hd1 hd2 h0 hN hl gvec k Es hE b b' hb hb' hs planes
  exact radAt_swapped id (fun u => rfl) argsort hsort eigh vecs he hp ijExact ijExact e0 eN e0 eN _ _ h0 hN (fun u => rfl)
    (fun x h => (slabEps_split _ _ _ _ _ _ _ x).1 h) _ _ _ _ b b' hs.length_eq.symm (fun _ => 1) (fun _ => by simp)
    (fun i h h' => (hs.get i h h').1) hel planes hrad sigma numeig

end Legume
