import Verif.Props.PolSim
import Verif.Props.ExcSimilar
import Verif.Props.Dispersion
import Verif.Spec.FieldMap

/-!
# C135: polaritons of rotated samples
-/
namespace Legume
open Spec Matrix
open scoped Real ComplexConjugate ComplexOrder

variable {Q : ℕ}

/-- The photonic modes of a sample turned or mirrored by `q`: the same frequencies, the plane waves and the electric fields
mapped (C134). -/
noncomputable abbrev PhotOut.mapped (q : R2 → R2) (ph : PhotOut) : PhotOut :=
  { ph with gvec := ph.gvec.map q, eft := fun i n z G => mapVec q (ph.eft i n z G) }

/-- The well `w'` of the mapped sample: pattern mapped, same height, and the vector of the roots of the oscillator strengths
mapped, up to the sign `s`. -/
structure WellMapped (q : R2 → R2) (s : ℝ) (w w' : PolWell) : Prop where
  W : WellImage 1 q w.W w'.W
  z : w'.z = w.z
  plane : (√(w'.osc 0), √(w'.osc 1)) = (s * (q (√(w.osc 0), √(w.osc 1))).1, s * (q (√(w.osc 0), √(w.osc 1))).2)
  up : √(w'.osc 2) = s * √(w.osc 2)
  sign : s * s = 1

/-! ### Wave functions of mapped wells -/

theorem family_cast {n n' : ℕ} (h : n' = n) (F : ∀ n, Matrix (Fin n) (Fin n) ℂ → Matrix (Fin n) (Fin n) ℂ)
    (A : Matrix (Fin n) (Fin n) ℂ) (A' : Matrix (Fin n') (Fin n') ℂ)
    (hA : ∀ i j, A' i j = A (Fin.cast h i) (Fin.cast h j)) (i j : Fin n') :
    F n' A' i j = F n A (Fin.cast h i) (Fin.cast h j) := by
  subst h
  obtain rfl : A' = A := Matrix.ext hA
  rfl

theorem eigh_cast {n n' : ℕ} (h : n' = n) (F : ∀ n, Matrix (Fin n) (Fin n) ℂ → Fin n → ℝ)
    (A : Matrix (Fin n) (Fin n) ℂ) (A' : Matrix (Fin n') (Fin n') ℂ)
    (hA : ∀ i j, A' i j = A (Fin.cast h i) (Fin.cast h j)) : List.ofFn (F n' A') = List.ofFn (F n A) := by
  subst h
  obtain rfl : A' = A := Matrix.ext hA
  rfl

section
variable {q : R2 → R2} {W W' : ExcWell} (hq : Similarity 1 q) (h : WellImage 1 q W W')
include hq h

theorem wellImage_inds (t : TruncG) (gmax : ℝ) : W'.inds t gmax = W.inds t gmax := by
  have := h.inds hq t gmax (Or.inl rfl)
  rwa [one_mul] at this

theorem wellImage_len (t : TruncG) (gmax : ℝ) : (W'.gvec t gmax).length = (W.gvec t gmax).length := by
  rw [excWell_len, excWell_len, wellImage_inds hq h]

theorem wellImage_gvec (t : TruncG) (gmax : ℝ) : W'.gvec t gmax = (W.gvec t gmax).map q := by
  unfold ExcWell.gvec
  rw [wellImage_inds hq h, h.b1, h.b2, List.map_map]
  exact List.map_congr_left fun i _ => hq.gOf _ _ _

theorem wellImage_ham (hb : Resolved W.b1 W.b2) (hb' : Resolved W'.b1 W'.b2) (t : TruncG) (gmax : ℝ) (k : R2)
    (i j : Fin (W'.gvec t gmax).length) :
    (W'.ham t gmax (q k) + 1) i j = (W.ham t gmax k + 1) (Fin.cast (wellImage_len hq h t gmax) i)
      (Fin.cast (wellImage_len hq h t gmax) j) := by
  have hi := wellImage_inds hq h t gmax
  have hlen := wellImage_len hq h t gmax
  rw [Matrix.add_apply, Matrix.add_apply, excWell_ham_apply, excWell_ham_apply, Matrix.one_apply, Matrix.one_apply]
  have hij : Fin.cast hlen i = Fin.cast hlen j ↔ i = j := by simp [Fin.ext_iff]
  have hidx : ∀ i, W'.idx t gmax i = W.idx t gmax (Fin.cast hlen i) := by
    intro i; unfold ExcWell.idx; rw [hi]; rfl
  have hind : ∀ i : Fin (W'.gvec t gmax).length, (W'.inds t gmax).getD i 0 =
      (W.inds t gmax).getD (Fin.cast hlen i) 0 := by
    intro i; rw [hi]; rfl
  simp only [hij, hidx, hind]
  rw [h.ft hq hb hb' (Or.inl rfl), h.b1, h.b2, hq.latVec, h.hbar, h.e, excKin_image hq _ _ h.unit]

theorem wellImage_res (hb : Resolved W.b1 W.b2) (hb' : Resolved W'.b1 W'.b2) (argsort : List ℝ → List ℕ)
    (eigh : ∀ n, Matrix (Fin n) (Fin n) ℂ → Fin n → ℝ) (t : TruncG) (gmax : ℝ) (M : ℕ) (k : R2) :
    excRes argsort eigh W' t gmax M (q k) = excRes argsort eigh W t gmax M k := by
  unfold excRes
  rw [eigh_cast (wellImage_len hq h t gmax) eigh _ _ (wellImage_ham hq h hb hb' t gmax k)]

/-- The wave functions of a mapped well have the same coefficients. -/
theorem wellImage_wave (hb : Resolved W.b1 W.b2) (hb' : Resolved W'.b1 W'.b2) (hr : ∀ s ∈ W.shapes, RealFt s)
    (hr' : ∀ s ∈ W'.shapes, RealFt s) (argsort : List ℝ → List ℕ) (hs : ∀ l, IsArgsort l (argsort l))
    (eigh : ∀ n, Matrix (Fin n) (Fin n) ℂ → Fin n → ℝ)
    (vecs : ∀ n, Matrix (Fin n) (Fin n) ℂ → Matrix (Fin n) (Fin n) ℂ) (t : TruncG) (gmax : ℝ) (hg : 0 ≤ gmax) (M : ℕ)
    (hM : M ≤ (W.gvec t gmax).length) (k : R2) (m : ℕ) (hm : m < M) (v : Fin (W.gvec t gmax).length → ℂ)
    (v' : Fin (W'.gvec t gmax).length → ℂ) (hv : excWaveFt argsort eigh vecs W t gmax k M m = .ok v)
    (hv' : excWaveFt argsort eigh vecs W' t gmax (q k) M m = .ok v') (G : Fin (W'.gvec t gmax).length) :
    v' G = v (Fin.cast (wellImage_len hq h t gmax) G) := by
  have hlen : (excRes argsort eigh W t gmax M k).2.length = M := by
    rw [excRes, excSelect_length argsort hs, List.length_ofFn, min_eq_left hM]
  obtain ⟨s, hlt, h1, -⟩ := excRes_spec argsort hs eigh W t gmax M k m (by rw [hlen]; exact hm)
  have h2 := excWaveFt_ok argsort eigh vecs W hb hr t gmax hg k M m s h1 hlt
  rw [← wellImage_res hq h hb hb'] at h1
  have h3 := excWaveFt_ok argsort eigh vecs W' hb' hr' t gmax hg (q k) M m s h1 (by rw [wellImage_len hq h]; exact hlt)
  rw [hv] at h2
  rw [hv'] at h3
  obtain rfl := Except.ok.inj h2
  obtain rfl := Except.ok.inj h3
  exact family_cast (wellImage_len hq h t gmax) vecs _ _ (wellImage_ham hq h hb hb' t gmax k) G _

end

/-! ### Couplings -/

theorem mapped_dot {q : R2 → R2} (hq : Similarity 1 q) {s : ℝ} {w w' : PolWell} (h : WellMapped q s w w')
    (E : Fin 3 → ℂ) : ∑ d, ((√(w'.osc d) : ℝ) : ℂ) * mapVec q E d = s * ∑ d, ((√(w.osc d) : ℝ) : ℂ) * E d := by
  have h1 := hq.dot (1, 0) (1, 0)
  have h2 := hq.dot (0, 1) (0, 1)
  have h3 := hq.dot (1, 0) (0, 1)
  simp only [one_pow, one_mul, mul_one, mul_zero, add_zero, zero_add] at h1 h2 h3
  have hl : q (√(w.osc 0), √(w.osc 1)) = ((q (1, 0)).1 * √(w.osc 0) + (q (0, 1)).1 * √(w.osc 1),
      (q (1, 0)).2 * √(w.osc 0) + (q (0, 1)).2 * √(w.osc 1)) := by
    rw [← hq.lin]
    congr 1
    ext <;> simp
  have e0 := congrArg Prod.fst h.plane
  have e1 := congrArg Prod.snd h.plane
  have e2 := h.up
  simp only [hl] at e0 e1
  rw [Fin.sum_univ_three, Fin.sum_univ_three, e0, e1, e2]
  simp only [mapVec, Matrix.cons_val_zero, Matrix.cons_val_one, Matrix.cons_val]
  generalize (q (1, 0)).1 = a at *
  generalize (q (1, 0)).2 = b at *
  generalize (q (0, 1)).1 = c at *
  generalize (q (0, 1)).2 = d at *
  have h1' : (a : ℂ) * a + b * b = 1 := by exact_mod_cast h1
  have h2' : (c : ℂ) * c + d * d = 1 := by exact_mod_cast h2
  have h3' : (a : ℂ) * c + b * d = 0 := by exact_mod_cast h3
  push_cast
  linear_combination (s * (√(w.osc 0) : ℂ) * E 0) * h1' + (s * (√(w.osc 1) : ℂ) * E 1) * h2' +
    (s * ((√(w.osc 0) : ℂ) * E 1 + (√(w.osc 1) : ℂ) * E 0)) * h3'

/-- Couplings of a mapped well. -/
theorem mapped_polCm {q : R2 → R2} (hq : Similarity 1 q) {s : ℝ} {w w' : PolWell} (h : WellMapped q s w w') (t : TruncG)
    (gmax : ℝ) (pref : ℂ) (ph : PhotOut) (M i : ℕ) (hlen : (w'.W.gvec t gmax).length = (w.W.gvec t gmax).length)
    (c : Fin M → Fin (w.W.gvec t gmax).length → ℂ) (c' : Fin M → Fin (w'.W.gvec t gmax).length → ℂ)
    (hc : ∀ m G, c' m G = c m (Fin.cast hlen G)) :
    polCm t gmax pref (ph.mapped q) w' w'.osc i c' =
      Matrix.of fun n m => (1 * ((1 : ℝ) : ℂ)) * polCm t gmax pref ph w w.osc i c n m * ((s : ℝ) : ℂ) := by
  ext n m
  unfold polCm hopC
  simp only [Matrix.of_apply]
  rw [← (finCongr hlen.symm).sum_comp]
  simp only [finCongr_apply, hc]
  have : ∀ G : Fin (w.W.gvec t gmax).length,
      ∑ d, ((√(w'.osc d) : ℝ) : ℂ) * (ph.mapped q).eft i n w'.z (Fin.cast hlen.symm G) d =
        s * ∑ d, ((√(w.osc d) : ℝ) : ℂ) * ph.eft i n w.z G d := by
    intro G
    rw [h.z]
    exact mapped_dot hq h _
  simp only [this, Fin.cast_cast, Fin.cast_eq_self]
  rw [Complex.ofReal_one, one_mul, one_mul, mul_assoc, Finset.sum_mul]
  congr 1
  exact Finset.sum_congr rfl fun G _ => by ring

/-! ### Energies kept -/

/-- The real parts kept depend only on the eigenvalues, not on their order. -/
theorem polSelect_re (argsort : List ℂ → List ℕ) (hs : ∀ l, IsArgsortRe l (argsort l)) (w w' : List ℂ)
    (h : (w'.map (· - 1)).Perm (w.map (· - 1))) :
    (polSelect argsort w').map Complex.re = (polSelect argsort w).map Complex.re := by
  classical
  have hl : w'.length = w.length := by simpa using h.length_eq
  have key : ∀ w : List ℂ, (polSelect argsort w).map Complex.re =
      (((((w.map (· - 1)).filter fun z => decide (0 ≤ z.re)).map Complex.re).insertionSort (· ≤ ·)).take (w.length / 2 - 1)) := by
    intro w
    unfold polSelect
    simp only
    generalize hen : (w.map (· - 1)).filter (fun z => decide (0 ≤ z.re)) = en
    obtain ⟨h1, h2⟩ := hs en
    rw [List.map_map, List.map_take]
    congr 1
    refine List.Perm.eq_of_pairwise' (r := (· ≤ ·)) h2 (List.pairwise_insertionSort _ _) ?_
    refine List.Perm.trans ?_ (List.perm_insertionSort _ _).symm
    refine (h1.map _).trans (List.Perm.of_eq ?_)
    refine List.ext_getElem (by simp) fun i h1 h2 => ?_
    simp only [List.getElem_map, List.getElem_range, Function.comp]
    rw [getD_of_len (by simpa using h1)]
  rw [key, key, hl]
  congr 1
  refine List.Perm.eq_of_pairwise' (r := (· ≤ ·)) (List.pairwise_insertionSort _ _) (List.pairwise_insertionSort _ _) ?_
  exact (List.perm_insertionSort _ _).trans ((((h.filter _).map _)).trans (List.perm_insertionSort _ _).symm)

/-- **C135 (partial).** Let a sample with any number of wells be turned or mirrored, the photonic modes being mapped as C134
says, the patterns of the wells as in C133 and the wave vectors with them. If the vector of the square roots of the
oscillator strengths of each well is mapped too, up to a sign, all polariton energies stay the same. Missing: wells with
equal strengths along x and y, for which the energies ought to stay the same for every angle, see `C135_turned_fails`. -/
theorem C135_turned_partial (argsort : List ℝ → List ℕ) (hs : ∀ l, IsArgsort l (argsort l))
    (eigh : ∀ n, Matrix (Fin n) (Fin n) ℂ → Fin n → ℝ)
    (vecs : ∀ n, Matrix (Fin n) (Fin n) ℂ → Matrix (Fin n) (Fin n) ℂ) (he : EighPair eigh vecs)
    (argsortC : List ℂ → List ℕ) (hsC : ∀ l, IsArgsortRe l (argsortC l))
    (eig : ∀ N Q m : ℕ, Matrix (HIdx N Q m) (HIdx N Q m) ℂ → List ℂ) (hE : IsEig eig) (t : TruncG)
    (gmax : ℝ) (hg : 0 ≤ gmax) (pref : ℂ) (conv : ℝ) (ph : PhotOut) (im : List (List ℝ)) (him : ph.freqsIm = some im)
    (M : ℕ) (qws qws' : Fin (Q + 1) → PolWell) (hw : ∀ x, (qws x).Good t gmax ph M (qws x).osc) (q : R2 → R2)
    (hq : Similarity 1 q) (s : Fin (Q + 1) → ℝ) (h : ∀ x, WellMapped q (s x) (qws x) (qws' x))
    (hb' : ∀ x, Resolved (qws' x).W.b1 (qws' x).W.b2) (hr' : ∀ x, ∀ s ∈ (qws' x).W.shapes, RealFt s) (ks : List R2) :
    ∃ rs rs', polSim argsort eigh vecs argsortC eig t gmax pref conv ph M qws ks = .ok rs ∧
      polSim argsort eigh vecs argsortC eig t gmax pref conv (ph.mapped q) M qws' (ks.map q) = .ok rs' ∧
      rs.length = ks.length ∧ rs'.map (List.map Complex.re) = rs.map (List.map Complex.re) := by
  have hlen : ∀ x, ((qws' x).W.gvec t gmax).length = ((qws x).W.gvec t gmax).length := fun x => wellImage_len hq (h x).W t gmax
  have hw' : ∀ x, (qws' x).Good t gmax (ph.mapped q) M (qws' x).osc := fun x =>
    ⟨hb' x, hr' x, rfl, by rw [wellImage_gvec hq (h x).W, ← (hw x).waves], by rw [hlen]; exact (hw x).enough⟩
  obtain ⟨c, h1, -, h3⟩ := polSim_ok argsort hs eigh vecs he argsortC eig t gmax hg pref conv ph im him M qws
    (fun x => (qws x).osc) hw ks
  obtain ⟨c', h1', -, h3'⟩ := polSim_ok argsort hs eigh vecs he argsortC eig t gmax hg pref conv (ph.mapped q) im him M qws'
    (fun x => (qws' x).osc) hw' (ks.map q)
  refine ⟨_, _, h3, h3', by simp, ?_⟩
  rw [List.zipIdx_map, List.map_map, List.map_map, List.map_map]
  refine List.map_congr_left fun ki _ => ?_
  simp only [Function.comp, Prod.map, id_eq]
  refine polSelect_re argsortC hsC _ _ ?_
  refine Multiset.coe_eq_coe.1 ((eig_shift eig hE _).trans (Eq.trans (congrArg Polynomial.roots ?_) (eig_shift eig hE _).symm))
  have hen : polEn argsort eigh t gmax M qws' (q ki.1) = polEn argsort eigh t gmax M qws ki.1 := by
    funext x m
    unfold polEn
    rw [wellImage_res hq (h x).W (hw x).resolved (hb' x), (h x).W.E0, (h x).W.loss]
  rw [hen, funext fun x => mapped_polCm hq (h x) t gmax pref ph M ki.2 (hlen x) (c x ki.1) (c' x (q ki.1)) fun m G =>
    wellImage_wave hq (h x).W (hw x).resolved (hb' x) (hw x).shapes (hr' x) argsort hs eigh vecs t gmax hg M (hw x).enough
      ki.1 m m.2 _ _ (h1 x ki.1 m) (h1' x (q ki.1) m) G]
  exact C76_phases_partial (N := ph.numeig) (polPh conv ph im ki.2) _ _ 1 (by simp) (fun _ => 1) (fun _ => Or.inl rfl)
    (fun x _ => ((s x : ℝ) : ℂ)) fun x _ => by
      rcases mul_self_eq_one_iff.1 (h x).sign with e | e <;> rw [e] <;> simp

/-! ### Equal strengths along x and y -/

/-- A plain well with one plane wave; `q` maps its lattice. -/
noncomputable def plainWell (q : R2 → R2) (f : Fin 3 → ℝ) : PolWell :=
  ⟨⟨q (2 * π, 0), q (0, 2 * π), 1, [], 0, 1, 1, 1, 0, 1, 1⟩, f, 0⟩

/-- A TE mode of a plain slab at a wave vector along (1, 1), with the frequency of the exciton: the field is perpendicular to
the wave vector. -/
noncomputable def diagMode : PhotOut := ⟨1, [(0, 0)], [[2]], some [[0]], fun _ _ _ _ => ![1, -1, 0]⟩

theorem plainWell_inds {q : R2 → R2} (hq : Similarity 1 q) (f : Fin 3 → ℝ) : (plainWell q f).W.inds .tbt 0.4 = [(0, 0)] := by
  have hp := Real.pi_pos
  have e : ∀ b : R2, norm2 b = 2 * π → nmaxOf (2 * π) 0.4 (q b) = 0 := by
    intro b hb
    unfold nmaxOf
    rw [hq.norm2, hb, Nat.floor_eq_zero, one_mul, div_lt_one (by positivity)]
    nlinarith
  simp only [ExcWell.inds, plainWell]
  rw [e _ (by simp [norm2, Real.sqrt_sq hp.le, Real.sqrt_sq (by positivity : (0 : ℝ) ≤ 2 * π)]),
    e _ (by simp [norm2, Real.sqrt_sq (by positivity : (0 : ℝ) ≤ 2 * π)])]
  decide

theorem plainWell_gvec {q : R2 → R2} (hq : Similarity 1 q) (f : Fin 3 → ℝ) : (plainWell q f).W.gvec .tbt 0.4 = [(0, 0)] := by
  unfold ExcWell.gvec
  rw [plainWell_inds hq]
  simp [gOf]

theorem plainWell_energy {q : R2 → R2} (hq : Similarity 1 q) (f : Fin 3 → ℝ) (argsort : List ℝ → List ℕ)
    (hs : ∀ l, IsArgsort l (argsort l)) (eigh : ∀ n, Matrix (Fin n) (Fin n) ℂ → Fin n → ℝ) (he : GoodEigh eigh) :
    polEn argsort eigh .tbt 0.4 1 (fun _ : Fin (0 + 1) => plainWell q f) (q (1, 1)) = fun _ _ => ((2 : ℝ) : ℂ) := by
  have hb : Resolved (plainWell q f).W.b1 (plainWell q f).W.b2 := resolved_similar hq (by norm_num)
  have hr : ∀ s ∈ (plainWell q f).W.shapes, RealFt s := by simp [plainWell]
  obtain ⟨r, h1, h2⟩ := excSim_one argsort hs eigh he (plainWell q f).W hb hr .tbt 0.4 (by norm_num)
    (plainWell_inds hq f) (q (1, 1))
  rw [excSim_ok argsort eigh _ hb hr .tbt 0.4 (by norm_num)] at h1
  have h3 := (List.cons.inj (Except.ok.inj h1)).1
  rw [← h3] at h2
  have hk : excKin 1 1 1 1 (q (1, 1)) 0 = 1 := by
    have := excKin_image hq 1 1 (a := 1) (a' := 1) (M := 1) (M' := 1) (by norm_num) (1, 1) 0
    rw [hq.zero] at this
    rw [this]
    have : (√(2 : ℝ)) ^ 2 = 2 := Real.sq_sqrt (by norm_num)
    norm_num [excKin, this]
  have hft : (plainWell q f).W.ft 0 = 0 := rfl
  funext x m
  have hm : m = 0 := Subsingleton.elim _ _
  subst hm
  unfold polEn
  simp only at h2
  have hk' : excKin (plainWell q f).W.hbar (plainWell q f).W.e (plainWell q f).W.a (plainWell q f).W.M (q (1, 1)) 0 = 1 := hk
  rw [hk', hft] at h2
  generalize (excRes argsort eigh (plainWell q f).W .tbt 0.4 1 (q (1, 1))).2 = l at h2 ⊢
  obtain ⟨y, rfl⟩ : ∃ y, l = [y] := List.length_eq_one_iff.1 (by simpa using congrArg List.length h2)
  have := (List.cons.inj h2).1
  change ((y : ℝ) : ℂ) + _ + _ = _
  refine this.trans ?_
  simp only [plainWell]
  push_cast
  ring

theorem plainWell_good {q : R2 → R2} (hq : Similarity 1 q) (f : Fin 3 → ℝ) :
    (plainWell q f).Good .tbt 0.4 (diagMode.mapped q) 1 f :=
  ⟨resolved_similar hq (by norm_num), by simp [plainWell], rfl, by
    rw [plainWell_gvec hq]
    have : q (0, 0) = (0, 0) := hq.zero
    simp [diagMode, this], by rw [plainWell_gvec hq]; rfl⟩

/-- The run of the plain well in the mapped sample. -/
theorem plainWell_run {q : R2 → R2} (hq : Similarity 1 q) (f : Fin 3 → ℝ) (argsort : List ℝ → List ℕ)
    (hs : ∀ l, IsArgsort l (argsort l)) (eigh : ∀ n, Matrix (Fin n) (Fin n) ℂ → Fin n → ℝ)
    (vecs : ∀ n, Matrix (Fin n) (Fin n) ℂ → Matrix (Fin n) (Fin n) ℂ) (he : EighPair eigh vecs)
    (argsortC : List ℂ → List ℕ) (hsC : ∀ l, IsArgsortRe l (argsortC l))
    (eig : ∀ N Q m : ℕ, Matrix (HIdx N Q m) (HIdx N Q m) ℂ → List ℂ) (hE : IsEig eig) :
    ∃ (u z : ℂ), ‖u‖ = 1 ∧ polSim argsort eigh vecs argsortC eig .tbt 0.4 1 1 (diagMode.mapped q) 1
        (fun _ : Fin (0 + 1) => plainWell q f) [q (1, 1)] = .ok [[z]] ∧ 0 ≤ z.re ∧
      z ∈ (hopfield (fun _ : Fin 1 => ((2 : ℝ) : ℂ)) (fun (_ : Fin (0 + 1)) (_ : Fin 1) => ((2 : ℝ) : ℂ))
        (fun _ => Matrix.of fun _ _ => (∑ d, ((√(f d) : ℝ) : ℂ) * mapVec q ![1, -1, 0] d) * u)).charpoly.roots := by
  have hlen : ((plainWell q f).W.gvec .tbt 0.4).length = 1 := by rw [plainWell_gvec hq]; rfl
  obtain ⟨c, -, h2, h3⟩ := polSim_ok argsort hs eigh vecs he argsortC eig .tbt 0.4 (by norm_num) 1 1 (diagMode.mapped q)
    [[0]] rfl 1 (fun _ : Fin (0 + 1) => plainWell q f) (fun _ => f) (fun _ => plainWell_good hq f) [q (1, 1)]
  have hen := plainWell_energy hq f argsort hs eigh (fun n A hA => ⟨_, he n A hA⟩)
  have hph : polPh 1 (diagMode.mapped q) [[0]] 0 = fun _ => ((2 : ℝ) : ℂ) := by
    funext n
    have hn : n = (0 : Fin 1) := Subsingleton.elim (α := Fin 1) _ _
    subst hn
    simp [polPh, diagMode]
  set G0 : Fin ((plainWell q f).W.gvec .tbt 0.4).length := ⟨0, by rw [hlen]; exact one_pos⟩ with hG0
  have hsum : ∀ F : Fin ((plainWell q f).W.gvec .tbt 0.4).length → ℂ, ∑ G, F G = F G0 := by
    intro F
    refine Finset.sum_eq_single_of_mem G0 (Finset.mem_univ _) fun G _ hG => absurd (Fin.ext ?_) hG
    have := G.2
    simp only [hG0]
    omega
  have hC : (fun x : Fin (0 + 1) => polCm .tbt 0.4 1 (diagMode.mapped q) (plainWell q f) f 0 (c x (q (1, 1)))) =
      fun _ => Matrix.of fun _ _ => (∑ d, ((√(f d) : ℝ) : ℂ) * mapVec q ![1, -1, 0] d) * conj (c 0 (q (1, 1)) 0 G0) := by
    funext x
    ext n m
    have hm : m = 0 := Subsingleton.elim _ _
    have hx : x = 0 := Subsingleton.elim (α := Fin 1) _ _
    subst hm hx
    unfold polCm hopC
    rw [Matrix.of_apply, Matrix.of_apply, hsum, one_mul]
    rfl
  have hu : ‖conj (c 0 (q (1, 1)) 0 G0)‖ = 1 := by
    have := h2 0 (q (1, 1)) 0 0
    rw [hsum, if_pos rfl, Complex.conj_mul'] at this
    have h5 : ‖c 0 (q (1, 1)) 0 G0‖ ^ 2 = 1 := by exact_mod_cast this
    rw [RCLike.norm_conj]
    nlinarith [norm_nonneg (c 0 (q (1, 1)) 0 G0)]
  simp only [List.zipIdx_cons, List.zipIdx_nil, List.map_cons, List.map_nil] at h3
  rw [hen, hph, hC] at h3
  obtain ⟨k1, -, k3⟩ := polSelect_kept argsortC hsC (N := 1) (Q := 0) (m := 1) _ _ _ _ (eig_shift eig hE (hopfield
    (fun _ : Fin 1 => ((2 : ℝ) : ℂ)) (fun (_ : Fin (0 + 1)) (_ : Fin 1) => ((2 : ℝ) : ℂ)) (fun _ => Matrix.of fun _ _ =>
      (∑ d, ((√(f d) : ℝ) : ℂ) * mapVec q ![1, -1, 0] d) * conj (c 0 (q (1, 1)) 0 G0))))
  obtain ⟨z, hz⟩ := List.length_eq_one_iff.1 k1
  rw [hz] at k3
  refine ⟨_, z, hu, ?_, k3 z (List.mem_singleton_self z)⟩
  rw [← hz]
  exact h3

/-- **C135 (negation).** A plain well with equal oscillator strengths along x and y, in a plain slab with one TE mode: at a
wave vector along (1, 1) the mode does not couple to the exciton at all, and after a quarter turn of everything it does, so
that the energies differ. -/
theorem C135_turned_fails (argsort : List ℝ → List ℕ) (hs : ∀ l, IsArgsort l (argsort l))
    (eigh : ∀ n, Matrix (Fin n) (Fin n) ℂ → Fin n → ℝ)
    (vecs : ∀ n, Matrix (Fin n) (Fin n) ℂ → Matrix (Fin n) (Fin n) ℂ) (he : EighPair eigh vecs)
    (argsortC : List ℂ → List ℕ) (hsC : ∀ l, IsArgsortRe l (argsortC l))
    (eig : ∀ N Q m : ℕ, Matrix (HIdx N Q m) (HIdx N Q m) ℂ → List ℂ) (hE : IsEig eig) :
    ∃ (ph : PhotOut) (w w' : PolWell) (k : R2) (z z' : ℂ), w.osc = ![1, 1, 0] ∧ w'.osc = ![1, 1, 0] ∧ w'.z = w.z ∧
      WellImage 1 (turn (π / 2)) w.W w'.W ∧ w.Good .tbt 0.4 ph 1 ![1, 1, 0] ∧
      polSim argsort eigh vecs argsortC eig .tbt 0.4 1 1 ph 1 (fun _ : Fin (0 + 1) => w) [k] = .ok [[z]] ∧
      polSim argsort eigh vecs argsortC eig .tbt 0.4 1 1 (ph.mapped (turn (π / 2))) 1 (fun _ : Fin (0 + 1) => w')
        [turn (π / 2) k] = .ok [[z']] ∧ z'.re ≠ z.re := by
  have hid : Similarity 1 (id : R2 → R2) := ⟨one_pos, fun _ _ _ _ => rfl, fun a b => by simp⟩
  have hq := similarity_rotation (π / 2)
  have hmid : ∀ v, mapVec id v = v := by
    intro v
    funext d
    fin_cases d <;> simp [mapVec]
  have hph : diagMode.mapped id = diagMode := by simp [PhotOut.mapped, hmid]
  obtain ⟨u, z, -, h1, h2, h3⟩ := plainWell_run hid ![1, 1, 0] argsort hs eigh vecs he argsortC hsC eig hE
  obtain ⟨u', z', hu', h1', h2', h3'⟩ := plainWell_run hq ![1, 1, 0] argsort hs eigh vecs he argsortC hsC eig hE
  have hg := plainWell_good hid ![1, 1, 0]
  rw [hph] at h1 hg
  refine ⟨diagMode, plainWell id ![1, 1, 0], plainWell (turn (π / 2)) ![1, 1, 0], (1, 1), z, z', rfl, rfl, rfl,
    ⟨rfl, rfl, by norm_num [plainWell], .nil, rfl, by norm_num [plainWell], rfl, rfl, rfl, rfl⟩, hg, h1, h1', ?_⟩
  -- without coupling
  have c1 : (fun _ : Fin (0 + 1) => Matrix.of fun (_ : Fin 1) (_ : Fin 1) =>
      (∑ d, ((√((![1, 1, 0] : Fin 3 → ℝ) d) : ℝ) : ℂ) * mapVec id ![1, -1, 0] d) * u) = fun _ => 0 := by
    funext _
    ext i j
    rw [hmid]
    simp [Fin.sum_univ_three]
  rw [c1, hop_uncoupled] at h3
  have hz : z.re = 2 := by
    simp only [Multiset.mem_add, Multiset.mem_map] at h3
    rcases h3 with (⟨n, -, rfl⟩ | ⟨x, -, rfl⟩) | (⟨n, -, rfl⟩ | ⟨x, -, rfl⟩)
    · simp
    · simp
    · simp at h2; norm_num at h2
    · simp at h2; norm_num at h2
  -- with coupling
  have c2 : (∑ d, ((√((![1, 1, 0] : Fin 3 → ℝ) d) : ℝ) : ℂ) * mapVec (turn (π / 2)) ![1, -1, 0] d) = 2 := by
    simp [Fin.sum_univ_three, mapVec, turn]
    norm_num
  rw [c2] at h3'
  obtain ⟨v, hv, hM⟩ := (hop_root_vec _ _ _ z').1 h3'
  obtain ⟨r, hr, -, hrr, -⟩ := (C82_splitting 2 2 two_pos two_pos (2 * u') (by
    refine mul_ne_zero two_ne_zero fun e => ?_
    rw [e, norm_zero] at hu'
    exact zero_ne_one hu')).1 z' v hv hM
  rw [hz, hr, Complex.ofReal_re]
  rintro rfl
  norm_num at hrr

/-! ### Examples -/

/-- An elliptical well at some height. -/
noncomputable def ellipsePol (J : ℝ → ℝ) (V phi : ℝ) (f : Fin 3 → ℝ) : PolWell := ⟨ellipseWell J V 1 phi 1, f, 0.25⟩

theorem ellipsePol_good (J : ℝ → ℝ) (V : ℝ) (f : Fin 3 → ℝ) (E : Fin 3 → ℂ) :
    (ellipsePol J V 0 f).Good .tbt 1
      ⟨2, (ellipseWell J V 1 0 1).gvec .tbt 1, [[1, 1.1]], some [[0, 0.01]], fun _ _ _ _ => E⟩ 3 f := by
  refine ⟨resolved_similar (similarity_turn 0 1 one_pos) (by norm_num), ?_, rfl, rfl, ?_⟩
  · simp only [ellipsePol, ellipseWell, List.mem_singleton]
    rintro s rfl
    exact ellipse_real J _
  · have h : ∀ b : R2, norm2 b = 2 * π → nmaxOf (2 * π) 1 b = 1 := by
      intro b hb
      rw [nmaxOf, hb, mul_div_assoc, mul_div_cancel₀ _ (by positivity)]
      exact_mod_cast Nat.floor_natCast (R := ℝ) 1
    have h1 : nmaxOf (2 * π) 1 (ellipseWell J V 1 0 1).b1 = 1 :=
      h _ (by simp [ellipseWell, turn_zero, norm2, Real.sqrt_sq_eq_abs, abs_of_pos Real.pi_pos])
    have h2 : nmaxOf (2 * π) 1 (ellipseWell J V 1 0 1).b2 = 1 :=
      h _ (by simp [ellipseWell, turn_zero, norm2, Real.sqrt_sq_eq_abs, abs_of_pos Real.pi_pos])
    change 3 ≤ ((ellipseWell J V 1 0 1).gvec .tbt 1).length
    rw [excWell_len, ExcWell.inds]
    simp only [h1, h2, tbtInds_length]
    norm_num

theorem ellipsePol_mapped (J : ℝ → ℝ) (V phi : ℝ) (f : Fin 3 → ℝ) (s : ℝ)
    (plane : (√(f 0), √(f 1)) = (s * (turn phi (√(f 0), √(f 1))).1, s * (turn phi (√(f 0), √(f 1))).2))
    (up : √(f 2) = s * √(f 2)) (sign : s * s = 1) :
    WellMapped (turn phi) s (ellipsePol J V 0 f) (ellipsePol J V phi f) := by
  refine ⟨?_, rfl, plane, up, sign⟩
  have e : (fun v : R2 => (1 * (turn phi v).1, 1 * (turn phi v).2)) = turn phi := by
    funext v
    rw [one_mul, one_mul]
  have := ellipseWell_image J V 1 phi 1 one_pos
  rwa [e] at this

theorem ellipsePol_turned (J : ℝ → ℝ) (V phi : ℝ) (f : Fin 3 → ℝ) (s : ℝ) (E : Fin 3 → ℂ)
    (plane : (√(f 0), √(f 1)) = (s * (turn phi (√(f 0), √(f 1))).1, s * (turn phi (√(f 0), √(f 1))).2))
    (up : √(f 2) = s * √(f 2)) (sign : s * s = 1)
    (argsort : List ℝ → List ℕ) (hs : ∀ l, IsArgsort l (argsort l)) (eigh : ∀ n, Matrix (Fin n) (Fin n) ℂ → Fin n → ℝ)
    (vecs : ∀ n, Matrix (Fin n) (Fin n) ℂ → Matrix (Fin n) (Fin n) ℂ) (he : EighPair eigh vecs)
    (argsortC : List ℂ → List ℕ) (hsC : ∀ l, IsArgsortRe l (argsortC l))
    (eig : ∀ N Q m : ℕ, Matrix (HIdx N Q m) (HIdx N Q m) ℂ → List ℂ) (hE : IsEig eig) (k : R2) :
    ∃ rs rs', polSim argsort eigh vecs argsortC eig .tbt 1 1 1 ⟨2, (ellipseWell J V 1 0 1).gvec .tbt 1, [[1, 1.1]],
          some [[0, 0.01]], fun _ _ _ _ => E⟩ 3 (fun _ : Fin (0 + 1) => ellipsePol J V 0 f) [k] = .ok rs ∧
      polSim argsort eigh vecs argsortC eig .tbt 1 1 1 ⟨2, ((ellipseWell J V 1 0 1).gvec .tbt 1).map (turn phi), [[1, 1.1]],
          some [[0, 0.01]], fun _ _ _ _ => mapVec (turn phi) E⟩ 3 (fun _ : Fin (0 + 1) => ellipsePol J V phi f)
          [turn phi k] = .ok rs' ∧
      rs.length = 1 ∧ rs'.map (List.map Complex.re) = rs.map (List.map Complex.re) :=
  C135_turned_partial argsort hs eigh vecs he argsortC hsC eig hE .tbt 1 zero_le_one 1 1 _ _ rfl 3
    (fun _ : Fin (0 + 1) => ellipsePol J V 0 f) (fun _ => ellipsePol J V phi f) (fun _ => ellipsePol_good J V f E)
    (turn phi) (similarity_rotation phi) (fun _ => s) (fun _ => ellipsePol_mapped J V phi f s plane up sign)
    (fun _ => resolved_similar (similarity_turn phi 1 one_pos) (by norm_num))
    (fun _ => by
      simp only [ellipsePol, ellipseWell, List.mem_singleton]
      rintro s rfl
      exact ellipse_real J _) [k]

/-- Elliptical wells whose excitons have their dipole along z: the same energies after a turn by any angle. -/
example (J : ℝ → ℝ) (V phi : ℝ) (E : Fin 3 → ℂ)
    (argsort : List ℝ → List ℕ) (hs : ∀ l, IsArgsort l (argsort l)) (eigh : ∀ n, Matrix (Fin n) (Fin n) ℂ → Fin n → ℝ)
    (vecs : ∀ n, Matrix (Fin n) (Fin n) ℂ → Matrix (Fin n) (Fin n) ℂ) (he : EighPair eigh vecs)
    (argsortC : List ℂ → List ℕ) (hsC : ∀ l, IsArgsortRe l (argsortC l))
    (eig : ∀ N Q m : ℕ, Matrix (HIdx N Q m) (HIdx N Q m) ℂ → List ℂ) (hE : IsEig eig) (k : R2) :=
  ellipsePol_turned J V phi ![0, 0, 1.5] 1 E (by simp [turn]) (by simp) (by norm_num) argsort hs eigh vecs he argsortC hsC
    eig hE k

/-- Half a turn of wells with different strengths along x and y. -/
example (J : ℝ → ℝ) (V : ℝ) (E : Fin 3 → ℂ)
    (argsort : List ℝ → List ℕ) (hs : ∀ l, IsArgsort l (argsort l)) (eigh : ∀ n, Matrix (Fin n) (Fin n) ℂ → Fin n → ℝ)
    (vecs : ∀ n, Matrix (Fin n) (Fin n) ℂ → Matrix (Fin n) (Fin n) ℂ) (he : EighPair eigh vecs)
    (argsortC : List ℂ → List ℕ) (hsC : ∀ l, IsArgsortRe l (argsortC l))
    (eig : ∀ N Q m : ℕ, Matrix (HIdx N Q m) (HIdx N Q m) ℂ → List ℂ) (hE : IsEig eig) (k : R2) :=
  ellipsePol_turned J V π ![1, 2, 0] (-1) E (by simp [turn]) (by simp) (by norm_num) argsort hs eigh vecs he argsortC hsC
    eig hE k

end Legume
