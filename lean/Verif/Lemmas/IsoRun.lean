import Verif.Model.GuidedRun
import Verif.Props.GmeSim
import Verif.Props.Similar
import Verif.Lemmas.GmeForm

/-!
# The basis and the matrix of a run under rotations and mirrors of the plane
-/
namespace Legume

open Spec Matrix
open scoped ComplexConjugate

/-! ### States -/

/-- The state of the same guided mode at the plane wave mapped by `q`. -/
def GmeState.image (q : R2 → R2) (s : GmeState) : GmeState :=
  { s with gx := (q (s.gx, s.gy)).1, gy := (q (s.gx, s.gy)).2 }

/-- Oriented area under a rotation or mirror. -/
theorem Spec.Similarity.cross {q : R2 → R2} (h : Similarity 1 q) : ∃ D : ℝ, D * D = 1 ∧
    ∀ a b : R2, (q a).1 * (q b).2 - (q a).2 * (q b).1 = D * (a.1 * b.2 - a.2 * b.1) := by
  have hq : ∀ v : R2, q v = ((q (1, 0)).1 * v.1 + (q (0, 1)).1 * v.2, (q (1, 0)).2 * v.1 + (q (0, 1)).2 * v.2) := by
    intro v
    rw [← h.lin]
    congr 1
    ext <;> simp
  have h1 := h.dot (1, 0) (1, 0)
  have h2 := h.dot (0, 1) (0, 1)
  have h3 := h.dot (1, 0) (0, 1)
  simp only [one_pow, one_mul, mul_one, mul_zero, add_zero, zero_add] at h1 h2 h3
  refine ⟨(q (1, 0)).1 * (q (0, 1)).2 - (q (1, 0)).2 * (q (0, 1)).1, ?_, ?_⟩
  · generalize (q (1, 0)).1 = a at *
    generalize (q (1, 0)).2 = b at *
    generalize (q (0, 1)).1 = c at *
    generalize (q (0, 1)).2 = d at *
    linear_combination (c * c + d * d) * h1 + h2 - (a * c + b * d) * h3
  · intro a b
    rw [hq a, hq b]
    ring

theorem image_gk {q : R2 → R2} (h : Similarity 1 q) (s : GmeState) : (s.image q).gk = s.gk := by
  have := h.norm (s.gx, s.gy)
  rw [one_mul] at this
  exact this

/-- Sign of a state under a map of determinant `D`. -/
def isoSign (D : ℝ) (s : GmeState) : ℝ := match s.pol with
  | .te => D
  | .tm => 1

theorem isoSign_sq {D : ℝ} (hD : D * D = 1) (s : GmeState) : isoSign D s * isoSign D s = 1 := by
  unfold isoSign
  cases s.pol <;> simp [hD]

theorem image_dots {q : R2 → R2} (h : Similarity 1 q) {D : ℝ} (hD : D * D = 1)
    (hc : ∀ a b : R2, (q a).1 * (q b).2 - (q a).2 * (q b).1 = D * (a.1 * b.2 - a.2 * b.1)) (s t : GmeState) :
    dot2 (s.image q).p (t.image q).p = dot2 s.p t.p ∧ dot2 (s.image q).q (t.image q).q = dot2 s.q t.q ∧
      dot2 (s.image q).p (t.image q).q = D * dot2 s.p t.q := by
  have h1 := h.dot (s.gx, s.gy) (t.gx, t.gy)
  have h2 := hc (s.gx, s.gy) (t.gx, t.gy)
  simp only [dot2, GmeState.p, GmeState.q, image_gk h]
  simp only [GmeState.image]
  simp only [one_pow, one_mul] at h1 h2
  refine ⟨?_, ?_, ?_⟩
  · linear_combination (s.gk⁻¹ * t.gk⁻¹) * h1
  · linear_combination (s.gk⁻¹ * t.gk⁻¹) * h1
  · linear_combination (s.gk⁻¹ * t.gk⁻¹) * h2

theorem gmeElem_image {q : R2 → R2} (h : Similarity 1 q) {D : ℝ} (hD : D * D = 1)
    (hc : ∀ a b : R2, (q a).1 * (q b).2 - (q a).2 * (q b).1 = D * (a.1 * b.2 - a.2 * b.1)) (ij : LPos → ℂ → ℂ)
    (stack : List (LPos × ℝ)) (einv : List ℂ) (s t : GmeState) :
    gmeElem ij stack einv (s.image q) (t.image q) = (isoSign D s * isoSign D t : ℝ) * gmeElem ij stack einv s t := by
  obtain ⟨h1, h2, h3⟩ := image_dots h hD hc s t
  have h4 := (image_dots h hD hc t s).2.2
  have hl : layPairs stack einv (s.image q) (t.image q) = layPairs stack einv s t := rfl
  have hp : ∀ u : GmeState, (u.image q).pol = u.pol := fun _ => rfl
  have ho : ∀ u : GmeState, (u.image q).om = u.om := fun _ => rfl
  have hDC : (D : ℂ) * D = 1 := by exact_mod_cast hD
  unfold gmeElem
  simp only [hl, hp, ho, image_gk h, h1, h2, h3, h4, isoSign]
  cases hs : s.pol <;> cases ht : t.pol <;> simp only [matTeTm, matTmTe] <;> push_cast
  · rw [hDC, one_mul]
  · ring
  · ring
  · ring

theorem interpState_image {q : R2 → R2} (h : Similarity 1 q) (stack : List (LPos × ℝ)) (pol : Pol) (gs : List ℝ)
    (om : List GMode) (p : R2) : interpState stack pol gs om (q p) = (interpState stack pol gs om p).image q := by
  have hp : planeAbs (q p) = planeAbs p := by
    have := h.norm p
    rw [one_mul] at this
    exact this
  unfold interpState GmeState.image
  simp only [hp]

theorem planeAbs_image {q : R2 → R2} (h : Similarity 1 q) (p : R2) : planeAbs (q p) = planeAbs p := by
  have := h.norm p
  rw [one_mul] at this
  exact this

theorem radPlane_eq (dgx : ℝ) (k g : R2) : radPlane dgx k g = g + (k + (dgx, 0)) := by
  unfold radPlane
  ext <;> simp <;> ring

theorem radPlane_image {q : R2 → R2} (h : Similarity 1 q) {dgx : ℝ} {k k' : R2} (hk : k' + (dgx, 0) = q (k + (dgx, 0)))
    (g : R2) : radPlane dgx k' (q g) = q (radPlane dgx k g) := by
  rw [radPlane_eq, radPlane_eq, hk]
  exact (h.add _ _).symm

/-! ### The basis -/

/-- The image of a basis element, for the same plane waves in the same order. -/
def BasisEl.image {N N' : ℕ} (hN : N' = N) (q : R2 → R2) (s : BasisEl N) : BasisEl N' :=
  ⟨s.blk, Fin.cast hN.symm s.ig, s.st.image q⟩

theorem guidedBlock_image {N N' : ℕ} (hN : N' = N) {q : R2 → R2} (h : Similarity 1 q) (stack : List (LPos × ℝ))
    (grid : List ℝ) (plane : Fin N → R2) (plane' : Fin N' → R2) (hp : ∀ i, plane' i = q (plane (Fin.cast hN i)))
    (modes : List (List GMode)) (n mode : ℕ) :
    guidedBlock stack grid plane' modes n mode =
      (guidedBlock stack grid plane modes n mode).map (List.map (BasisEl.image hN q)) := by
  classical
  subst hN
  simp only [Fin.cast_eq_self] at hp
  unfold guidedBlock
  cases modes[mode / 2]? with
  | none => rfl
  | some om =>
    simp only
    cases gsOf grid om with
    | nil => rfl
    | cons gs0 gs =>
      simp only [Except.map]
      congr 1
      rw [List.map_filterMap]
      refine List.filterMap_congr fun i _ => ?_
      rw [hp, planeAbs_image h, interpState_image h]
      split_ifs <;> rfl

theorem mapM_map_ok {α β γ : Type} (f : α → Except PyErr β) (f' : α → Except PyErr γ) (φ : β → γ)
    (h : ∀ a, f' a = (f a).map φ) (l : List α) : l.mapM f' = (l.mapM f).map (List.map φ) := by
  rw [except_mapM_map]
  congr 1
  funext a
  exact h a

theorem basisOf_image {N N' : ℕ} (hN : N' = N) {q : R2 → R2} (h : Similarity 1 q) (norm : NormFn) (fs : Finder)
    (o : GuidedOpts) (stack : List (LPos × ℝ)) (grid : List ℝ) (plane : Fin N → R2) (plane' : Fin N' → R2)
    (hp : ∀ i, plane' i = q (plane (Fin.cast hN i))) :
    basisOf norm fs o stack grid plane' =
      (basisOf norm fs o stack grid plane).map (List.map (BasisEl.image hN q)) := by
  unfold basisOf
  simp only [bind, Except.bind]
  cases computeGuided norm fs o stack .te grid with
  | error e => rfl
  | ok te =>
    simp only
    cases computeGuided norm fs o stack .tm grid with
    | error e => rfl
    | ok tm =>
      simp only
      cases gmodeInclude o.inds te.length tm.length with
      | error e => rfl
      | ok inc =>
        simp only
        have key : ∀ g : ℕ → List (List GMode),
            (List.range inc.length).mapM (fun (n : ℕ) => guidedBlock stack grid plane' (g n) n (inc.getD n 0)) =
              ((List.range inc.length).mapM
                (fun (n : ℕ) => guidedBlock stack grid plane (g n) n (inc.getD n 0))).map
                  (List.map (List.map (BasisEl.image hN q))) := fun g =>
          mapM_map_ok _ _ _ (fun n => guidedBlock_image hN h stack grid plane plane' hp _ _ _) _
        rw [key]
        generalize (List.mapM _ (List.range inc.length) : Except PyErr (List (List (BasisEl N)))) = r
        cases r with
        | error e => rfl
        | ok bs => simp only [Except.map, List.map_flatten]

theorem guidedGrid_image {q : R2 → R2} (h : Similarity 1 q) (o : GuidedOpts) {gvec gvec' ks ks' : List R2} {k k' : R2}
    (hg : gvec'.Perm (gvec.map q)) (hk : k' + (o.deltaGx, 0) = q (k + (o.deltaGx, 0)))
    (hks : o.exact = true ∨ ks' = ks.map q) : guidedGrid o gvec' ks' k' = guidedGrid o gvec ks k := by
  unfold guidedGrid
  by_cases ho : o.exact = true
  · rw [if_pos ho, if_pos ho]
    unfold gridExact
    congr 1
    refine List.Perm.eq_of_pairwise' (r := (· ≤ ·)) (List.pairwise_insertionSort _ _) (List.pairwise_insertionSort _ _) ?_
    refine (List.perm_insertionSort _ _).trans (List.Perm.trans ?_ (List.perm_insertionSort _ _).symm)
    refine (hg.map _).trans (List.Perm.of_eq ?_)
    rw [List.map_map]
    refine List.map_congr_left fun g _ => ?_
    rw [Function.comp, radPlane_image h hk, planeAbs_image h]
  · rw [if_neg ho, if_neg ho]
    have hn : ∀ a : R2, √((q a).1 ^ 2 + (q a).2 ^ 2) = √(a.1 ^ 2 + a.2 ^ 2) := planeAbs_image h
    congr 2
    unfold gridMax
    rw [hks.resolve_left ho, List.map_map]
    congr 1
    · have h1 : (gvec'.map fun g => √(g.1 ^ 2 + g.2 ^ 2)).Perm (gvec.map fun g => √(g.1 ^ 2 + g.2 ^ 2)) := by
        refine (hg.map _).trans (List.Perm.of_eq ?_)
        rw [List.map_map]
        exact List.map_congr_left fun g _ => hn g
      exact h1.foldl_eq (f := max) 0
    · congr 1
      exact List.map_congr_left fun g _ => hn g

/-! ### The matrix -/

/-- Entries of the matrix in the mapped basis. -/
theorem gmeMatIj_image_entry {N : ℕ} {q : R2 → R2} (h : Similarity 1 q) {D : ℝ} (hD : D * D = 1)
    (hc : ∀ a b : R2, (q a).1 * (q b).2 - (q a).2 * (q b).1 = D * (a.1 * b.2 - a.2 * b.1)) (ij : LPos → ℂ → ℂ)
    (stack : List (LPos × ℝ)) (Es : List (Matrix (Fin N) (Fin N) ℂ)) (basis : List (BasisEl N))
    (hlen : (basis.map (BasisEl.image rfl q)).length = basis.length) (i j : Fin basis.length) :
    gmeMatIj ij stack Es (basis.map (BasisEl.image rfl q)) (Fin.cast hlen.symm i) (Fin.cast hlen.symm j) =
      (isoSign D basis[i].st : ℝ) * gmeMatIj ij stack Es basis i j * conj ((isoSign D basis[j].st : ℝ) : ℂ) := by
  set dd : ℕ → ℂ := fun a => match basis[a]? with | some s => ((isoSign D s.st : ℝ) : ℂ) | none => 1 with hdd
  have hd1 : ∀ a, dd a * conj (dd a) = 1 := by
    intro a
    simp only [hdd]
    split
    · rw [Complex.conj_ofReal]
      exact_mod_cast isoSign_sq hD _
    · simp
  have hval : ∀ a : Fin basis.length, ((isoSign D basis[a].st : ℝ) : ℂ) = dd a := by
    intro a
    simp [hdd]
  rw [hval, hval]
  unfold gmeMatIj
  rw [of_apply, of_apply]
  refine completeMat_phases _ _ dd hd1 basis.length ?_ _ _ i.2 j.2
  intro a ha b hb
  have hblk : (fun a => (((basis.map (BasisEl.image rfl q))[a]?).map BasisEl.blk).getD 0) =
      fun (a : ℕ) => ((basis[a]?).map BasisEl.blk).getD 0 := by
    funext a
    rw [List.getElem?_map]
    cases basis[a]? <;> rfl
  rw [hblk]
  refine blockUpper_phases _ _ _ dd basis.length ?_ a b ha hb
  intro a ha b hb
  simp only [hdd, List.getElem?_map, List.getElem?_eq_getElem ha, List.getElem?_eq_getElem hb, Option.map_some,
    BasisEl.image, Complex.conj_ofReal]
  rw [gmeElem_image h hD hc]
  push_cast
  simp only [Fin.cast_eq_self]
  ring

theorem gmeMatIj_image {N N' : ℕ} (hN : N' = N) {q : R2 → R2} (h : Similarity 1 q) (ij : LPos → ℂ → ℂ)
    (stack : List (LPos × ℝ)) (Es : List (Matrix (Fin N) (Fin N) ℂ)) (Es' : List (Matrix (Fin N') (Fin N') ℂ))
    (hE : List.Forall₂ (fun E E' => ∀ i j, E' i j = E (Fin.cast hN i) (Fin.cast hN j)) Es Es')
    (basis : List (BasisEl N)) :
    (gmeMatIj ij stack Es' (basis.map (BasisEl.image hN q)) + 1).charpoly = (gmeMatIj ij stack Es basis + 1).charpoly := by
  subst hN
  obtain ⟨D, hD, hc⟩ := h.cross
  have hEs : Es = Es' := by
    have hx : List.Forall₂ (· = ·) Es Es' := hE.imp fun E E' he => Matrix.ext fun i j => (he i j).symm
    rwa [List.forall₂_eq_eq_eq] at hx
  subst hEs
  have hlen : (basis.map (BasisEl.image rfl q)).length = basis.length := List.length_map _
  have hent : ∀ i j : Fin basis.length, gmeMatIj ij stack Es (basis.map (BasisEl.image rfl q))
      (Fin.cast hlen.symm i) (Fin.cast hlen.symm j) = (isoSign D basis[i].st : ℝ) * gmeMatIj ij stack Es basis i j *
        conj ((isoSign D basis[j].st : ℝ) : ℂ) := gmeMatIj_image_entry h hD hc ij stack Es basis hlen
  have h1 := unit_phases_charpoly (fun i : Fin basis.length => ((isoSign D basis[i].st : ℝ) : ℂ)) (fun i => by
    rw [Complex.conj_ofReal]; exact_mod_cast isoSign_sq hD _) (gmeMatIj ij stack Es basis)
    ((gmeMatIj ij stack Es (basis.map (BasisEl.image rfl q))).submatrix (Fin.cast hlen.symm) (Fin.cast hlen.symm)) hent
  rw [← h1]
  have h2 := charpoly_reindex (finCongr hlen) (gmeMatIj ij stack Es (basis.map (BasisEl.image rfl q)) + 1)
  rw [← h2]
  congr 1
  ext i j
  simp only [reindex_apply, submatrix_apply, Matrix.add_apply, Matrix.one_apply]
  congr 2
  simp [Fin.ext_iff]

end Legume
