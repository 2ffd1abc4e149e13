import Verif.Props.RadTurnRun
import Verif.Props.ExcSimilar
import Verif.Spec.FieldMap
import Verif.Lemmas.FieldOverlap

/-!
# C134: fields of rotated and mirrored structures
-/
namespace Legume

open Spec Matrix
open scoped ComplexConjugate

theorem image_pq {q : R2 → R2} (h : Similarity 1 q) {D : ℝ} (hD : D * D = 1)
    (hc : ∀ a b : R2, (q a).1 * (q b).2 - (q a).2 * (q b).1 = D * (a.1 * b.2 - a.2 * b.1)) (s : GmeState) :
    ((s.image q).p.1 = (q (1, 0)).1 * s.p.1 + (q (0, 1)).1 * s.p.2 ∧
      (s.image q).p.2 = (q (1, 0)).2 * s.p.1 + (q (0, 1)).2 * s.p.2) ∧
    ((s.image q).q.1 = D * ((q (1, 0)).1 * s.q.1 + (q (0, 1)).1 * s.q.2) ∧
      (s.image q).q.2 = D * ((q (1, 0)).2 * s.q.1 + (q (0, 1)).2 * s.q.2)) := by
  have hl : q (s.gx, s.gy) = ((q (1, 0)).1 * s.gx + (q (0, 1)).1 * s.gy, (q (1, 0)).2 * s.gx + (q (0, 1)).2 * s.gy) := by
    rw [← h.lin]
    congr 1
    ext <;> simp
  have h1 := h.dot (1, 0) (1, 0)
  have h2 := h.dot (0, 1) (0, 1)
  have h3 := h.dot (1, 0) (0, 1)
  have h4 := hc (1, 0) (0, 1)
  simp only [one_pow, one_mul, mul_one, mul_zero, add_zero, zero_add, sub_zero] at h1 h2 h3 h4
  simp only [GmeState.p, GmeState.q, image_gk h]
  simp only [GmeState.image, hl]
  generalize (q (1, 0)).1 = a at *
  generalize (q (1, 0)).2 = b at *
  generalize (q (0, 1)).1 = c at *
  generalize (q (0, 1)).2 = d at *
  -- the second column is the first turned by a right angle, up to the sign
  have e1 : c = -(D * b) := by
    linear_combination -c * h1 + (-b) * h4 + a * h3
  have e2 : d = D * a := by
    linear_combination -d * h1 + a * h4 + b * h3
  refine ⟨⟨by ring, by ring⟩, ?_, ?_⟩
  · rw [e1, e2]
    linear_combination (-(b * s.gx / s.gk)) * hD
  · rw [e1, e2]
    linear_combination (a * s.gx / s.gk) * hD

/-- Displacement of one basis state. -/
theorem dMode_image {q : R2 → R2} (h : Similarity 1 q) {D : ℝ} (hD : D * D = 1)
    (hc : ∀ a b : R2, (q a).1 * (q b).2 - (q a).2 * (q b).1 = D * (a.1 * b.2 - a.2 * b.1)) (om : ℝ) (pos : LPos)
    (eps : ℝ) (s : GmeState) (m : ModeL) (z : ℝ) (c : Fin 3) :
    ((isoSign D s : ℝ) : ℂ) * dMode om pos eps (s.image q) m z c = mapVec q (dMode om pos eps s m z) c := by
  obtain ⟨⟨p1, p2⟩, q1, q2⟩ := image_pq h hD hc s
  have hp : (s.image q).pol = s.pol := rfl
  have ho : (s.image q).om = s.om := rfl
  unfold dMode isoSign mapVec
  simp only [p1, p2, q1, q2, hp, ho, image_gk h]
  rcases mul_self_eq_one_iff.1 hD with rfl | rfl <;> cases s.pol <;> cases pos <;> fin_cases c <;> simp <;> ring

/-- Magnetic field of one basis state. -/
theorem hMode_image {q : R2 → R2} (h : Similarity 1 q) {D : ℝ} (hD : D * D = 1)
    (hc : ∀ a b : R2, (q a).1 * (q b).2 - (q a).2 * (q b).1 = D * (a.1 * b.2 - a.2 * b.1)) (pos : LPos)
    (s : GmeState) (m : ModeL) (z : ℝ) (c : Fin 3) :
    ((isoSign D s : ℝ) : ℂ) * hMode pos (s.image q) m z c = D * mapVec q (hMode pos s m z) c := by
  obtain ⟨⟨p1, p2⟩, q1, q2⟩ := image_pq h hD hc s
  have hp : (s.image q).pol = s.pol := rfl
  unfold hMode isoSign mapVec
  simp only [p1, p2, q1, q2, hp, image_gk h]
  rcases mul_self_eq_one_iff.1 hD with rfl | rfl <;> cases s.pol <;> cases pos <;> fin_cases c <;> simp <;> ring

/-- The basis as `ft_field_xy` uses it. -/
def basisStates {N : ℕ} (basis : List (BasisEl N)) (i : Fin basis.length) : ℕ × GmeState :=
  ((basis[i].ig : ℕ), basis[i].st)

/-- The entries of a matrix by position (zero outside). -/
def entries {N : ℕ} (E : Matrix (Fin N) (Fin N) ℂ) (i j : ℕ) : ℂ :=
  if h : i < N ∧ j < N then E ⟨i, h.1⟩ ⟨j, h.2⟩ else 0

theorem mapVec_sum {ι : Type} (q : R2 → R2) (s : Finset ι) (F : ι → Fin 3 → ℂ) (a : ι → ℂ) (c : Fin 3) :
    ∑ i ∈ s, a i * mapVec q (F i) c = mapVec q (fun c => ∑ i ∈ s, a i * F i c) c := by
  unfold mapVec
  fin_cases c <;> simp [Finset.mul_sum, ← Finset.sum_add_distrib] <;>
    exact Finset.sum_congr rfl fun i _ => by ring

theorem mapVec_list {ι : Type} (q : R2 → R2) (l : List ι) (F : ι → Fin 3 → ℂ) (c : Fin 3) :
    (l.map fun i => mapVec q (F i) c).sum = mapVec q (fun c => (l.map fun i => F i c).sum) c := by
  induction l with
  | nil => fin_cases c <;> simp [mapVec]
  | cons x l ih =>
    simp only [List.map_cons, List.sum_cons]
    rw [ih]
    unfold mapVec
    fin_cases c <;> simp <;> ring

theorem mapVec_smul (q : R2 → R2) (a : ℂ) (F : Fin 3 → ℂ) (c : Fin 3) :
    a * mapVec q F c = mapVec q (fun c => a * F c) c := by
  unfold mapVec
  fin_cases c <;> simp <;> ring

section
variable {N : ℕ} {q : R2 → R2} {D : ℝ}

/-- The eigenvector of the mapped structure. -/
noncomputable def imageCoef (D : ℝ) {N N' : ℕ} (hN : N' = N) (q : R2 → R2) (basis : List (BasisEl N))
    (u : Fin basis.length → ℂ) : Fin (basis.map (BasisEl.image hN q)).length → ℂ :=
  fun i => ((isoSign D (basis[(Fin.cast (List.length_map _) i : Fin basis.length)]).st : ℝ) : ℂ) *
    u (Fin.cast (List.length_map _) i)

theorem fieldStates_image {N' : ℕ} (hN : N' = N) (basis : List (BasisEl N)) (u : Fin basis.length → ℂ) (j : ℕ) :
    fieldStates (basisStates (basis.map (BasisEl.image hN q))) (imageCoef D hN q basis u) j =
      (fieldStates (basisStates basis) u j).map fun b => ⟨b.ind, ((isoSign D b.s : ℝ) : ℂ) * b.c, b.s.image q, b.m⟩ := by
  subst hN
  unfold fieldStates
  rw [List.map_ofFn]
  refine List.ext_getElem (by simp) fun i h1 h2 => ?_
  simp [basisStates, imageCoef, BasisEl.image, GmeState.image, GmeState.layAt]

theorem dFt_image {N' : ℕ} (hN : N' = N) (h : Similarity 1 q) (hD : D * D = 1)
    (hc : ∀ a b : R2, (q a).1 * (q b).2 - (q a).2 * (q b).1 = D * (a.1 * b.2 - a.2 * b.1)) (basis : List (BasisEl N))
    (u : Fin basis.length → ℂ) (j : ℕ) (area om : ℝ) (pos : LPos) (eps : ℝ) (G : ℕ) (z : ℝ) (c : Fin 3) :
    dFt area om pos eps (fieldStates (basisStates (basis.map (BasisEl.image hN q))) (imageCoef D hN q basis u) j) G z c =
      mapVec q (fun c => dFt area om pos eps (fieldStates (basisStates basis) u j) G z c) c := by
  rw [fieldStates_image]
  unfold dFt
  rw [← mapVec_list, List.map_map]
  congr 1
  refine List.map_congr_left fun b _ => ?_
  simp only [Function.comp]
  by_cases hb : b.ind = G
  · simp only [if_pos hb]
    have := dMode_image h hD hc om pos eps b.s b.m z c
    rw [show ((isoSign D b.s : ℝ) : ℂ) * b.c * dMode om pos eps (b.s.image q) b.m z c / ((√area : ℝ) : ℂ) =
      b.c / ((√area : ℝ) : ℂ) * (((isoSign D b.s : ℝ) : ℂ) * dMode om pos eps (b.s.image q) b.m z c) by ring, this,
      mapVec_smul]
    congr 1
    funext c
    ring
  · simp only [if_neg hb]
    fin_cases c <;> simp [mapVec]

theorem hFt_image {N' : ℕ} (hN : N' = N) (h : Similarity 1 q) (hD : D * D = 1)
    (hc : ∀ a b : R2, (q a).1 * (q b).2 - (q a).2 * (q b).1 = D * (a.1 * b.2 - a.2 * b.1)) (basis : List (BasisEl N))
    (u : Fin basis.length → ℂ) (j : ℕ) (area : ℝ) (pos : LPos) (G : ℕ) (z : ℝ) (c : Fin 3) :
    hFt area pos (fieldStates (basisStates (basis.map (BasisEl.image hN q))) (imageCoef D hN q basis u) j) G z c =
      D * mapVec q (fun c => hFt area pos (fieldStates (basisStates basis) u j) G z c) c := by
  rw [fieldStates_image]
  unfold hFt
  rw [mapVec_smul]
  simp only [← List.sum_map_mul_left]
  rw [← mapVec_list, List.map_map]
  congr 1
  refine List.map_congr_left fun b _ => ?_
  simp only [Function.comp]
  by_cases hb : b.ind = G
  · simp only [if_pos hb]
    have := hMode_image h hD hc pos b.s b.m z c
    rw [show ((isoSign D b.s : ℝ) : ℂ) * b.c * hMode pos (b.s.image q) b.m z c / ((√area : ℝ) : ℂ) =
      b.c / ((√area : ℝ) : ℂ) * (((isoSign D b.s : ℝ) : ℂ) * hMode pos (b.s.image q) b.m z c) by ring, this, mapVec_smul,
      mapVec_smul]
    congr 1
    funext c
    ring
  · simp only [if_neg hb]
    fin_cases c <;> simp [mapVec]

end

theorem entries_cast {N N' : ℕ} (hN : N' = N) (Es : List (Matrix (Fin N) (Fin N) ℂ))
    (Es' : List (Matrix (Fin N') (Fin N') ℂ))
    (hE : List.Forall₂ (fun E E' => ∀ i j, E' i j = E (Fin.cast hN i) (Fin.cast hN j)) Es Es') :
    Es'.map entries = Es.map entries := by
  subst hN
  have hx : List.Forall₂ (· = ·) Es Es' := hE.imp fun E E' he => Matrix.ext fun i j => (he i j).symm
  rw [List.forall₂_eq_eq_eq] at hx
  rw [hx]

/-- Modes in the mapped basis. -/
theorem gmeMatIj_image_vec {N N' : ℕ} (hN : N' = N) {q : R2 → R2} (h : Similarity 1 q) {D : ℝ} (hD : D * D = 1)
    (hc : ∀ a b : R2, (q a).1 * (q b).2 - (q a).2 * (q b).1 = D * (a.1 * b.2 - a.2 * b.1)) (ij : LPos → ℂ → ℂ)
    (stack : List (LPos × ℝ)) (Es : List (Matrix (Fin N) (Fin N) ℂ)) (Es' : List (Matrix (Fin N') (Fin N') ℂ))
    (hE : List.Forall₂ (fun E E' => ∀ i j, E' i j = E (Fin.cast hN i) (Fin.cast hN j)) Es Es')
    (basis : List (BasisEl N)) (u : Fin basis.length → ℂ) (lam : ℂ) (hu : gmeMatIj ij stack Es basis *ᵥ u = lam • u) :
    gmeMatIj ij stack Es' (basis.map (BasisEl.image hN q)) *ᵥ imageCoef D hN q basis u =
      lam • imageCoef D hN q basis u := by
  subst hN
  have hEs : Es = Es' := by
    have hx : List.Forall₂ (· = ·) Es Es' := hE.imp fun E E' he => Matrix.ext fun i j => (he i j).symm
    rwa [List.forall₂_eq_eq_eq] at hx
  subst hEs
  have hlen : (basis.map (BasisEl.image rfl q)).length = basis.length := List.length_map _
  funext i'
  obtain ⟨i, rfl⟩ : ∃ i : Fin basis.length, Fin.cast hlen.symm i = i' := ⟨Fin.cast hlen i', by simp⟩
  have hi := congrFun hu i
  simp only [mulVec, dotProduct, Pi.smul_apply, smul_eq_mul] at hi ⊢
  have hco : ∀ j : Fin basis.length, imageCoef D rfl q basis u (Fin.cast hlen.symm j) =
      ((isoSign D basis[j].st : ℝ) : ℂ) * u j := fun j => rfl
  rw [← (finCongr hlen.symm).sum_comp]
  have hent := gmeMatIj_image_entry h hD hc ij stack Es basis hlen i
  simp only [finCongr_apply, hco]
  rw [Finset.sum_congr rfl fun j _ => by rw [hent j]]
  have hsq : ∀ j : Fin basis.length, conj ((isoSign D basis[j].st : ℝ) : ℂ) * ((isoSign D basis[j].st : ℝ) : ℂ) = 1 := by
    intro j
    rw [Complex.conj_ofReal]
    exact_mod_cast isoSign_sq hD _
  have : ∀ j : Fin basis.length, ((isoSign D basis[i].st : ℝ) : ℂ) * gmeMatIj ij stack Es basis i j *
      conj ((isoSign D basis[j].st : ℝ) : ℂ) * (((isoSign D basis[j].st : ℝ) : ℂ) * u j) =
        ((isoSign D basis[i].st : ℝ) : ℂ) * (gmeMatIj ij stack Es basis i j * u j) := by
    intro j
    linear_combination ((isoSign D basis[i].st : ℝ) : ℂ) * gmeMatIj ij stack Es basis i j * u j * hsq j
  rw [Finset.sum_congr rfl fun j _ => this j, ← Finset.mul_sum, hi]
  ring

/-- Phases at mapped points. -/
theorem wave_image {q : R2 → R2} (h : Similarity 1 q) (g : R2) (x y : ℝ) :
    wave (q g) (q (x, y)).1 (q (x, y)).2 = wave g x y := by
  have := h.dot g (x, y)
  rw [one_pow, one_mul] at this
  unfold wave
  rw [this]

theorem resolved_gOf_inj {b1 b2 : R2} (hb : Resolved b1 b2) : Function.Injective (gOf b1 b2) := by
  intro m n e
  by_contra hmn
  refine resolved_not_g0 hb (i := m - n) (sub_ne_zero.2 hmn) ?_
  have e1 := congrArg Prod.fst e
  have e2 := congrArg Prod.snd e
  simp only [gOf] at e1 e2
  have : gOf b1 b2 (m - n) = 0 := by
    simp only [gOf, Prod.fst_sub, Prod.snd_sub]
    push_cast
    ext
    · simp only [Prod.fst_zero]; linear_combination e1
    · simp only [Prod.snd_zero]; linear_combination e2
  rw [this]
  exact isG0_zero

theorem gvec_inj {S : GmeStruct} (hS : Resolved S.b1 S.b2) (gmax : ℝ) (i : ℕ) (hi : i < (S.gvec gmax).length) (j : ℕ)
    (hj : j < (S.gvec gmax).length) (e : (S.gvec gmax).getD i 0 = (S.gvec gmax).getD j 0) : i = j := by
  have hnd : (S.gvec gmax).Nodup := ((tbtInds_nodup _ _).filter _).map (resolved_gOf_inj hS)
  rw [getD_of_len hi, getD_of_len hj] at e
  exact (hnd.getElem_inj_iff).1 e

/-- A field whose Fourier components are mapped. -/
theorem fieldAt_image {q : R2 → R2} (h : Similarity 1 q) {S S' : GmeStruct} (hi : StructImage q S S')
    (hS : Resolved S.b1 S.b2) (hS' : Resolved S'.b1 S'.b2) (gmax : ℝ) (F F' : ℕ → Fin 3 → ℂ) (a : ℂ)
    (hF : ∀ G < (S.gvec gmax).length, ∀ c, F' G c = a * mapVec q (F G) c) (x y : ℝ) (c : Fin 3) :
    fieldAt (S'.gvec gmax).length F' (fun G => (S'.gvec gmax).getD G 0) (q (x, y)).1 (q (x, y)).2 c =
      a * mapVec q (fieldAt (S.gvec gmax).length F (fun G => (S.gvec gmax).getD G 0) x y) c := by
  have hg := hi.gvec h gmax
  have hN : (S'.gvec gmax).length = (S.gvec gmax).length := by rw [hg, List.length_map]
  have e2 : fieldAt (S.gvec gmax).length F (fun G => (S.gvec gmax).getD G 0) x y =
      fun c => ∑ G ∈ Finset.range (S.gvec gmax).length, wave ((S.gvec gmax).getD G 0) x y * F G c := by
    funext c
    rw [fieldAt_eq _ _ _ (gvec_inj hS gmax)]
    exact Finset.sum_congr rfl fun G _ => mul_comm _ _
  rw [fieldAt_eq _ _ _ (gvec_inj hS' gmax), e2, ← mapVec_sum, hN, Finset.mul_sum]
  refine Finset.sum_congr rfl fun G hG => ?_
  have hG := Finset.mem_range.1 hG
  rw [hF G hG, hg, getD_of_len (by rw [List.length_map]; exact hG), List.getElem_map, wave_image h, getD_of_len hG]
  ring

/-- **C134 (fields of mapped structures).** Let a structure, lattice and shapes of all layers, and the wave vectors be
mapped by a rotation (`D = 1`) or a mirror (`D = -1`). Whenever the matrix and the basis are set up at a wave vector of the
original, they are set up at the mapped one, and every mode of the original gives a mode of the other one with the same
eigenvalue and coefficients of the same size, whose displacement and electric field at any point are those of the original
at the original point, mapped as vectors, and whose magnetic field is mapped as an axial vector. -/
theorem C134_fields (ij : LPos → ℂ → ℂ) (norm : NormFn) (fs : Finder) (o : GuidedOpts) (q : R2 → R2)
    (hq : Similarity 1 q) (D : ℝ) (hD : D * D = 1)
    (hc : ∀ a b : R2, (q a).1 * (q b).2 - (q a).2 * (q b).1 = D * (a.1 * b.2 - a.2 * b.1)) (S S' : GmeStruct)
    (hS : Resolved S.b1 S.b2) (hS' : Resolved S'.b1 S'.b2) (h : StructImage q S S') (gmax : ℝ) (onlyG : Bool) (opt : String)
    (ks ks' : List R2) (hk : WaveImage q o ks ks') (ik : ℕ) (hik : ik < ks.length) (eff : List ℝ)
    (heff : S.layers.mapM (GmeLay.eff opt) = .ok eff)
    (Es : List (Matrix (Fin (S.gvec gmax).length) (Fin (S.gvec gmax).length) ℂ))
    (hE : S.layers.mapM (S.epsInv gmax onlyG) = .ok Es) (basis : List (BasisEl (S.gvec gmax).length))
    (hb : codeGuided norm fs o ((S.layers.map GmeLay.pos).zip eff) (S.gvec gmax) ks ik = .ok basis) :
    ∃ (Es' : List (Matrix (Fin (S'.gvec gmax).length) (Fin (S'.gvec gmax).length) ℂ))
      (basis' : List (BasisEl (S'.gvec gmax).length)) (hl : basis'.length = basis.length),
      S'.layers.mapM (GmeLay.eff opt) = .ok eff ∧ S'.layers.mapM (S'.epsInv gmax onlyG) = .ok Es' ∧
      codeGuided norm fs o ((S'.layers.map GmeLay.pos).zip eff) (S'.gvec gmax) ks' ik = .ok basis' ∧
      ∀ (u : Fin basis.length → ℂ) (lam : ℂ),
        gmeMatIj ij ((S.layers.map GmeLay.pos).zip eff) Es basis *ᵥ u = lam • u → ∃ u' : Fin basis'.length → ℂ,
        gmeMatIj ij ((S'.layers.map GmeLay.pos).zip eff) Es' basis' *ᵥ u' = lam • u' ∧
        (∀ i, ‖u' i‖ = ‖u (Fin.cast hl i)‖) ∧
        ∀ (om : ℝ) (j : ℕ) (z x y : ℝ) (c : Fin 3),
          dField S'.ecArea om ((S'.layers.map GmeLay.pos).zip eff) (S'.gvec gmax).length
              (fun G => (S'.gvec gmax).getD G 0) (basisStates basis') u' j z (q (x, y)).1 (q (x, y)).2 c =
            mapVec q (dField S.ecArea om ((S.layers.map GmeLay.pos).zip eff) (S.gvec gmax).length
              (fun G => (S.gvec gmax).getD G 0) (basisStates basis) u j z x y) c ∧
          eField S'.ecArea om ((S'.layers.map GmeLay.pos).zip eff) (Es'.map entries) (S'.gvec gmax).length
              (fun G => (S'.gvec gmax).getD G 0) (basisStates basis') u' j z (q (x, y)).1 (q (x, y)).2 c =
            mapVec q (eField S.ecArea om ((S.layers.map GmeLay.pos).zip eff) (Es.map entries) (S.gvec gmax).length
              (fun G => (S.gvec gmax).getD G 0) (basisStates basis) u j z x y) c ∧
          hField S'.ecArea ((S'.layers.map GmeLay.pos).zip eff) (S'.gvec gmax).length
              (fun G => (S'.gvec gmax).getD G 0) (basisStates basis') u' j z (q (x, y)).1 (q (x, y)).2 c =
            D * mapVec q (hField S.ecArea ((S.layers.map GmeLay.pos).zip eff) (S.gvec gmax).length
              (fun G => (S.gvec gmax).getD G 0) (basisStates basis) u j z x y) c := by
  have hg := h.gvec hq gmax
  have hN : (S'.gvec gmax).length = (S.gvec gmax).length := by rw [hg, List.length_map]
  have hpos : S'.layers.map GmeLay.pos = S.layers.map GmeLay.pos := by
    have := h.layers
    generalize S.layers = ls at this
    generalize S'.layers = ls' at this
    induction this with
    | nil => rfl
    | cons h1 _ ih => rw [List.map_cons, List.map_cons, h1.pos, ih]
  have heff' : S'.layers.mapM (GmeLay.eff opt) = S.layers.mapM (GmeLay.eff opt) :=
    (mapM_forall2 _ _ (fun l l' h => by unfold GmeLay.eff; rw [h.epsB, h.epsAvg, h.epsEff]) h.layers).symm
  rcases mapM_rel (S.epsInv gmax onlyG) (S'.epsInv gmax onlyG)
    (epsInv_image hq h hS hS' gmax onlyG hN) h.layers with ⟨e, h1, -⟩ | ⟨Fs, Es', h1, h2, hEE⟩
  · rw [hE] at h1
    exact absurd h1 (by simp)
  rw [hE] at h1
  obtain rfl : Es = Fs := by simpa using h1
  have hk' := hk.getD hik
  have hb' : codeGuided norm fs o ((S.layers.map GmeLay.pos).zip eff) (S'.gvec gmax) ks' ik =
      .ok (basis.map (BasisEl.image hN q)) := by
    have : codeGuided norm fs o ((S.layers.map GmeLay.pos).zip eff) (S'.gvec gmax) ks' ik =
        (codeGuided norm fs o ((S.layers.map GmeLay.pos).zip eff) (S.gvec gmax) ks ik).map
          (List.map (BasisEl.image hN q)) := by
      unfold codeGuided
      rw [guidedGrid_image hq o (List.Perm.of_eq hg) hk' hk.map]
      refine basisOf_image hN hq norm fs o _ _ _ _ fun i => ?_
      have e : (S'.gvec gmax)[i] = q (S.gvec gmax)[Fin.cast hN i] := by
        simp only [Fin.getElem_fin, hg, List.getElem_map, Fin.val_cast]
      rw [e, radPlane_image hq hk']
    rw [this, hb, Except.map]
  refine ⟨Es', basis.map (BasisEl.image hN q), List.length_map _, heff'.trans heff, h2, by rw [hpos]; exact hb',
    fun u lam hu => ⟨imageCoef D hN q basis u, ?_, ?_, ?_⟩⟩
  · rw [hpos]
    exact gmeMatIj_image_vec hN hq hD hc ij _ Es Es' hEE basis u lam hu
  · intro i
    unfold imageCoef
    have := isoSign_sq hD (basis[(Fin.cast (List.length_map _) i : Fin basis.length)]).st
    rw [norm_mul]
    rcases mul_self_eq_one_iff.1 this with e | e <;> rw [e] <;> simp
  · intro om j z x y c
    have hent : Es'.map entries = Es.map entries := entries_cast hN Es Es' hEE
    rw [hpos, h.area]
    refine ⟨?_, ?_, ?_⟩
    · have := fieldAt_image hq h hS hS' gmax _ _ 1 (fun G _ c => (dFt_image hN hq hD hc basis u j S.ecArea om
        (((S.layers.map GmeLay.pos).zip eff).getD j (.upper, 0)).1
        (((S.layers.map GmeLay.pos).zip eff).getD j (.upper, 0)).2 G z c).trans (one_mul _).symm) x y c
      rw [one_mul] at this
      exact this
    · have := fieldAt_image hq h hS hS' gmax
        (eFt (S.gvec gmax).length ((Es.map entries).getD j fun _ _ => 0) fun G c => dFt S.ecArea om
          (((S.layers.map GmeLay.pos).zip eff).getD j (.upper, 0)).1
          (((S.layers.map GmeLay.pos).zip eff).getD j (.upper, 0)).2 (fieldStates (basisStates basis) u j) G z c)
        (eFt (S'.gvec gmax).length ((Es'.map entries).getD j fun _ _ => 0) fun G c => dFt S.ecArea om
          (((S.layers.map GmeLay.pos).zip eff).getD j (.upper, 0)).1
          (((S.layers.map GmeLay.pos).zip eff).getD j (.upper, 0)).2
          (fieldStates (basisStates (basis.map (BasisEl.image hN q))) (imageCoef D hN q basis u) j) G z c) 1
        (fun G _ c => by
          rw [one_mul]
          unfold eFt
          rw [← mapVec_sum]
          refine Finset.sum_congr (by rw [hN]) fun G' _ => ?_
          rw [hent]
          exact congrArg _ (dFt_image hN hq hD hc basis u j _ _ _ _ G' z c)) x y c
      rw [one_mul] at this
      exact this
    · exact fieldAt_image hq h hS hS' gmax _ _ D (fun G _ c => hFt_image hN hq hD hc basis u j S.ecArea
        (((S.layers.map GmeLay.pos).zip eff).getD j (.upper, 0)).1 G z c) x y c

/-! ### Example -/

/-- The asymmetric slab in a lattice turned by the angle `a`. -/
noncomputable def asymTilted (a : ℝ) : GmeStruct :=
  { asymPlain with b1 := turn a (2 * Real.pi, 0), b2 := turn a (0, 2 * Real.pi) }

theorem asymTilted_image (a : ℝ) : StructImage (turn a) asymPlain (asymTilted a) :=
  ⟨rfl, rfl, rfl, List.forall₂_same.2 fun l hl => by
    simp only [asymPlain, List.mem_cons, List.not_mem_nil, or_false] at hl
    rcases hl with rfl | rfl | rfl <;> exact ⟨rfl, rfl, rfl, rfl, .nil⟩⟩

theorem turn_cross (a : ℝ) (u v : R2) :
    (turn a u).1 * (turn a v).2 - (turn a u).2 * (turn a v).1 = 1 * (u.1 * v.2 - u.2 * v.1) := by
  have := Real.sin_sq_add_cos_sq a
  simp only [turn]
  linear_combination (u.1 * v.2 - u.2 * v.1) * this

theorem asymPlain_epsInv : ∃ Es, asymPlain.layers.mapM (asymPlain.epsInv (1 / 2) false) = .ok Es := by
  have hsh : ∀ l ∈ asymPlain.layers, l.shapes = [] := by
    intro l hl
    simp only [asymPlain, List.mem_cons, List.not_mem_nil, or_false] at hl
    rcases hl with rfl | rfl | rfl <;> rfl
  have hpos : 0 < (asymPlain.gvec (1 / 2)).length := by rw [asymPlain_gvec]; simp
  refine mapM_each_ok fun l hl => ?_
  unfold GmeStruct.epsInv
  split_ifs with c1 c2
  · exact ⟨_, rfl⟩
  · exfalso
    rw [plain_mat asymPlain resolved_square l (hsh l hl) (1 / 2), det_smul, det_one, mul_one] at c2
    have c3 := pow_eq_zero_iff (by rw [Fintype.card_fin]; exact hpos.ne') |>.1 c2
    simp only [asymPlain, List.mem_cons, List.not_mem_nil, or_false] at hl
    rcases hl with rfl | rfl | rfl <;> norm_num at c3
  · exact ⟨_, rfl⟩

theorem asymPlain_basis : ∃ fs basis, codeGuided normExact fs asymOpts ((asymPlain.layers.map GmeLay.pos).zip [3, 5, 1])
    (asymPlain.gvec (1 / 2)) [(0, 2)] 0 = .ok basis := by
  obtain ⟨fs, hfs⟩ := C118_finder 3 1 (5, 7 * Real.pi / 12) (by norm_num)
  refine ⟨fs, (C118_outcome normExact fs asymOpts 3 1 [(5, 7 * Real.pi / 12)] (by simp) (asymPlain.gvec (1 / 2)) [(0, 2)]
    0).1 ?_⟩
  unfold guidedGrid
  rw [if_pos (show asymOpts.exact = true from rfl), show asymOpts.deltaGabs = 0 from rfl, gridExact_zero]
  have e : [((0 : ℝ), (2 : ℝ))].getD 0 0 = (0, 2) := rfl
  have hw := asymPlain_waves
  unfold waveLengths at hw
  rw [e, hw]
  exact (asym_waves fs [2] (by simp)).2 (by simp)

/-- The modes of the asymmetric slab in a lattice turned by any angle. -/
example (a : ℝ) : ∃ fs basis basis', codeGuided normExact fs asymOpts ((asymPlain.layers.map GmeLay.pos).zip [3, 5, 1])
      (asymPlain.gvec (1 / 2)) [(0, 2)] 0 = .ok basis ∧
    codeGuided normExact fs asymOpts (((asymTilted a).layers.map GmeLay.pos).zip [3, 5, 1])
      ((asymTilted a).gvec (1 / 2)) [turn a (0, 2)] 0 = .ok basis' ∧
    ∀ (u : Fin basis.length → ℂ), ∃ u' : Fin basis'.length → ℂ, ∀ (om : ℝ) (j : ℕ) (z x y : ℝ) (c : Fin 3) (Es : _),
      asymPlain.layers.mapM (asymPlain.epsInv (1 / 2) false) = .ok Es →
      (∃ lam : ℂ, gmeMatIj ijExact ((asymPlain.layers.map GmeLay.pos).zip [3, 5, 1]) Es basis *ᵥ u = lam • u) →
      dField 1 om (((asymTilted a).layers.map GmeLay.pos).zip [3, 5, 1]) ((asymTilted a).gvec (1 / 2)).length
          (fun G => ((asymTilted a).gvec (1 / 2)).getD G 0) (basisStates basis') u' j z (turn a (x, y)).1 (turn a (x, y)).2 c =
        mapVec (turn a) (dField 1 om ((asymPlain.layers.map GmeLay.pos).zip [3, 5, 1]) (asymPlain.gvec (1 / 2)).length
          (fun G => (asymPlain.gvec (1 / 2)).getD G 0) (basisStates basis) u j z x y) c := by
  obtain ⟨fs, basis, hb⟩ := asymPlain_basis
  obtain ⟨Es, hE⟩ := asymPlain_epsInv
  obtain ⟨Es', basis', hl, -, -, h3, h4⟩ := C134_fields ijExact normExact fs asymOpts (turn a) (similarity_rotation a) 1
    (by norm_num) (turn_cross a) asymPlain (asymTilted a) resolved_square
    (resolved_similar (similarity_rotation a) (by norm_num)) (asymTilted_image a) (1 / 2) false "average" [(0, 2)]
    [turn a (0, 2)] ⟨.cons (by
      have hz : ((0 : ℝ), (0 : ℝ)) = (0 : R2) := rfl
      simp only [asymOpts, hz, add_zero]) .nil, Or.inl rfl⟩ 0 (by simp) [3, 5, 1] rfl Es hE basis hb
  refine ⟨fs, basis, basis', hb, h3, fun u => ?_⟩
  by_cases hu : ∃ lam : ℂ, gmeMatIj ijExact ((asymPlain.layers.map GmeLay.pos).zip [3, 5, 1]) Es basis *ᵥ u = lam • u
  · obtain ⟨lam, hu⟩ := hu
    obtain ⟨u', -, -, h5⟩ := h4 u lam hu
    exact ⟨u', fun om j z x y c _ _ _ => (h5 om j z x y c).1⟩
  · refine ⟨0, fun om j z x y c Fs hF hlam => absurd hlam ?_⟩
    rw [hE] at hF
    obtain rfl : Es = Fs := by simpa using hF
    exact hu

end Legume
