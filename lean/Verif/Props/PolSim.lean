import Verif.Model.PolSim
import Verif.Props.PolReal
import Verif.Props.ExcWave
import Verif.Lemmas.FieldOverlap
import Mathlib.Analysis.InnerProductSpace.Orthonormal
import Mathlib.Analysis.InnerProductSpace.PiL2

/-!
# C113: whole polariton runs
-/
namespace Legume
open Spec MeasureTheory Matrix
open scoped Real ComplexConjugate ComplexOrder

variable {Q : ℕ}

/-- A well for which the exciton solver runs and which can be coupled. -/
structure PolWell.Good (w : PolWell) (t : TruncG) (gmax : ℝ) (ph : PhotOut) (M : ℕ) (f : Fin 3 → ℝ) : Prop where
  resolved : Resolved w.W.b1 w.W.b2
  shapes : ∀ s ∈ w.W.shapes, RealFt s
  osc : w.osc = f
  waves : ph.gvec = w.W.gvec t gmax
  enough : M ≤ (w.W.gvec t gmax).length

/-- Eigenvalues of a general matrix, with multiplicities. -/
def Spec.IsEig (eig : ∀ N Q m : ℕ, Matrix (HIdx N Q m) (HIdx N Q m) ℂ → List ℂ) : Prop :=
  ∀ N Q m A, ((eig N Q m A : List ℂ) : Multiset ℂ) = A.charpoly.roots

theorem isEig_exists : ∃ eig, IsEig eig :=
  ⟨fun _ _ _ A => A.charpoly.roots.toList, fun _ _ _ A => Multiset.coe_toList _⟩

/-- Wave functions kept, as Fourier components. -/
theorem excWaves (argsort : List ℝ → List ℕ) (hs : ∀ l, IsArgsort l (argsort l))
    (eigh : ∀ n, Matrix (Fin n) (Fin n) ℂ → Fin n → ℝ)
    (vecs : ∀ n, Matrix (Fin n) (Fin n) ℂ → Matrix (Fin n) (Fin n) ℂ) (he : EighPair eigh vecs) (W : ExcWell)
    (hb : Resolved W.b1 W.b2) (hr : ∀ s ∈ W.shapes, RealFt s) (t : TruncG) (gmax : ℝ) (hg : 0 ≤ gmax) (k : R2) (M : ℕ)
    (hM : M ≤ (W.gvec t gmax).length) :
    ∃ c : Fin M → Fin (W.gvec t gmax).length → ℂ,
      (∀ nu : Fin M, excWaveFt argsort eigh vecs W t gmax k M nu = .ok (c nu)) ∧
      ∀ a b, ∑ G, conj (c a G) * c b G = if a = b then 1 else 0 := by
  have hlen : (excRes argsort eigh W t gmax M k).2.length = M := by
    rw [excRes, excSelect_length argsort hs, List.length_ofFn, min_eq_left hM]
  have hspec : ∀ m < M, ∃ (s : ℕ) (_ : s < (W.gvec t gmax).length),
      (excRes argsort eigh W t gmax M k).1[m]? = some s := fun m hm => by
    obtain ⟨s, h, h1, -⟩ := excRes_spec argsort hs eigh W t gmax M k m (by rw [hlen]; exact hm)
    exact ⟨s, h, h1⟩
  choose s hlt h1 using hspec
  have hU := he _ _ ((excWell_ham_hermitian W hr t gmax k).add isHermitian_one)
  refine ⟨fun nu G => vecs _ (W.ham t gmax k + 1) G ⟨s nu nu.2, hlt nu nu.2⟩, fun nu =>
    excWaveFt_ok argsort eigh vecs W hb hr t gmax hg k M nu _ (h1 nu nu.2) (hlt nu nu.2), fun a b => ?_⟩
  have := congrFun (congrFun hU.unitary ⟨s a a.2, hlt a a.2⟩) ⟨s b b.2, hlt b b.2⟩
  rw [Matrix.mul_apply, Matrix.one_apply] at this
  refine Eq.trans this ?_
  by_cases hab : a = b
  · subst hab; rw [if_pos rfl, if_pos rfl]
  · rw [if_neg hab, if_neg]
    intro e
    have e' : s a a.2 = s b b.2 := congrArg Fin.val e
    obtain ⟨i1, g1⟩ := List.getElem?_eq_some_iff.1 (h1 a a.2)
    obtain ⟨i2, g2⟩ := List.getElem?_eq_some_iff.1 (h1 b b.2)
    exact hab (Fin.ext ((excRes_nodup argsort hs eigh W t gmax M k).getElem_inj_iff.1 (by rw [g1, g2, e'])))

theorem getD_ofFn_fin {β : Type*} {n : ℕ} (g : Fin n → β) (i : Fin n) (d : β) : (List.ofFn g).getD i d = g i := by
  rw [getD_of_len (by rw [List.length_ofFn]; exact i.2), List.getElem_ofFn]

theorem mapM_finRange_ok {β : Type} (n : ℕ) (f : Fin n → Except PyErr β) (g : Fin n → β) (h : ∀ i, f i = .ok (g i)) :
    (List.finRange n).mapM f = .ok (List.ofFn g) := by
  rw [mapM_congr_mem _ f (fun i => .ok (g i)) fun i _ => h i, List.ofFn_eq_map]
  exact mapM_ok_map _ _

/-- Bessel's inequality for the overlaps of one field with the wave functions. -/
theorem bessel_waves {n M : ℕ} (c : Fin M → Fin n → ℂ) (hc : ∀ a b, ∑ G, conj (c a G) * c b G = if a = b then 1 else 0)
    (x : Fin n → ℂ) : ∑ nu, ‖∑ G, x G * conj (c nu G)‖ ^ 2 ≤ ∑ G, ‖x G‖ ^ 2 := by
  classical
  have ho : Orthonormal ℂ fun nu : Fin M => (WithLp.toLp 2 (c nu) : EuclideanSpace ℂ (Fin n)) := by
    rw [orthonormal_iff_ite]
    intro a b
    rw [← hc a b, PiLp.inner_apply]
    refine Finset.sum_congr rfl fun G _ => ?_
    rw [RCLike.inner_apply, mul_comm]
  have h := ho.sum_inner_products_le (WithLp.toLp 2 x) (s := Finset.univ)
  rw [EuclideanSpace.norm_sq_eq] at h
  refine le_trans (le_of_eq (Finset.sum_congr rfl fun nu _ => ?_)) h
  rw [PiLp.inner_apply]
  congr 2

/-- Photon energies of a run at the `i`-th wave vector. -/
noncomputable def polPh (conv : ℝ) (ph : PhotOut) (im : List (List ℝ)) (i : ℕ) (n : Fin ph.numeig) : ℂ :=
  (((ph.freqs.getD i []).getD n 0 * conv : ℝ) : ℂ) + Complex.I * (((im.getD i []).getD n 0 * conv : ℝ) : ℂ)

/-- Exciton energies at the wave vector `k`. -/
noncomputable def polEn (argsort : List ℝ → List ℕ) (eigh : ∀ n, Matrix (Fin n) (Fin n) ℂ → Fin n → ℝ) (t : TruncG)
    (gmax : ℝ) (M : ℕ) (qws : Fin (Q + 1) → PolWell) (k : R2) (q : Fin (Q + 1)) (x : Fin M) : ℂ :=
  (((excRes argsort eigh (qws q).W t gmax M k).2.getD x 0 : ℝ) : ℂ) + (qws q).W.E0 + Complex.I * (qws q).W.loss

/-- Couplings for given wave functions. -/
noncomputable def polCm (t : TruncG) (gmax : ℝ) (pref : ℂ) (ph : PhotOut) {M : ℕ} (w : PolWell) (f : Fin 3 → ℝ) (i : ℕ)
    (c : Fin M → Fin (w.W.gvec t gmax).length → ℂ) : Matrix (Fin ph.numeig) (Fin M) ℂ :=
  hopC pref f (fun n d (G : Fin (w.W.gvec t gmax).length) => ph.eft i n w.z G d) c

/-- A run step by step. -/
theorem polSim_ok (argsort : List ℝ → List ℕ) (hs : ∀ l, IsArgsort l (argsort l))
    (eigh : ∀ n, Matrix (Fin n) (Fin n) ℂ → Fin n → ℝ)
    (vecs : ∀ n, Matrix (Fin n) (Fin n) ℂ → Matrix (Fin n) (Fin n) ℂ) (he : EighPair eigh vecs)
    (argsortC : List ℂ → List ℕ) (eig : ∀ N Q m : ℕ, Matrix (HIdx N Q m) (HIdx N Q m) ℂ → List ℂ) (t : TruncG)
    (gmax : ℝ) (hg : 0 ≤ gmax) (pref : ℂ) (conv : ℝ) (ph : PhotOut) (im : List (List ℝ)) (him : ph.freqsIm = some im)
    (M : ℕ) (qws : Fin (Q + 1) → PolWell) (f : Fin (Q + 1) → Fin 3 → ℝ) (hw : ∀ q, (qws q).Good t gmax ph M (f q))
    (ks : List R2) :
    ∃ c : ∀ (q : Fin (Q + 1)) (_ : R2), Fin M → Fin ((qws q).W.gvec t gmax).length → ℂ,
      (∀ q k nu, excWaveFt argsort eigh vecs (qws q).W t gmax k M (nu : Fin M) = .ok (c q k nu)) ∧
      (∀ q k a b, ∑ G, conj (c q k a G) * c q k b G = if a = b then 1 else 0) ∧
      polSim argsort eigh vecs argsortC eig t gmax pref conv ph M qws ks = .ok (ks.zipIdx.map fun ki =>
        polSelect argsortC (eig ph.numeig Q M (hopfield (polPh conv ph im ki.2) (polEn argsort eigh t gmax M qws ki.1)
          (fun q => polCm t gmax pref ph (qws q) (f q) ki.2 (c q ki.1)) + 1))) := by
  have hex : ∀ q k, _ := fun q k => excWaves argsort hs eigh vecs he (qws q).W (hw q).resolved (hw q).shapes t gmax hg k M
    (hw q).enough
  choose c hc1 hc2 using hex
  refine ⟨c, hc1, hc2, ?_⟩
  unfold polSim
  rw [mapM_finRange_ok _ _ _ fun q => excSim_ok argsort eigh (qws q).W (hw q).resolved (hw q).shapes t gmax hg ks M]
  change List.mapM _ _ = _
  rw [mapM_congr_mem _ _ (fun ki : R2 × ℕ => .ok (polSelect argsortC (eig ph.numeig Q M (hopfield (polPh conv ph im ki.2)
    (polEn argsort eigh t gmax M qws ki.1) (fun q => polCm t gmax pref ph (qws q) (f q) ki.2 (c q ki.1)) + 1))))]
  · exact mapM_ok_map _ _
  intro ki hki
  have hC : ∀ q, polC argsort eigh vecs t gmax pref ph M (qws q) ki.1 ki.2 =
      .ok (polCm t gmax pref ph (qws q) (f q) ki.2 (c q ki.1)) := by
    intro q
    unfold polC
    rw [(hw q).osc]
    rw [if_neg (by rw [(hw q).waves]; simp), mapM_finRange_ok _ _ _ fun nu => hc1 q ki.1 nu]
    change Except.ok _ = Except.ok _
    unfold polCm
    congr 2
    funext nu
    rw [getD_ofFn_fin]
  have hp : polPhot conv ph ki.2 = .ok (polPh conv ph im ki.2) := by
    unfold polPhot
    rw [him]
    rfl
  rw [hp, mapM_finRange_ok _ _ _ hC]
  change Except.ok _ = Except.ok _
  have hk := List.mem_zipIdx_iff_getElem?.1 hki
  congr 5
  · funext q x
    rw [getD_ofFn_fin]
    have hlen : (excRes argsort eigh (qws q).W t gmax M ki.1).2.length = M := by
      rw [excRes, excSelect_length argsort hs, List.length_ofFn, min_eq_left (hw q).enough]
    simp only [List.getD_eq_getElem?_getD, List.getElem?_map, hk, Option.map_some, Option.getD_some, polEn]
    rw [List.getElem?_eq_getElem (by rw [hlen]; exact x.2)]
    simp
  · funext q
    rw [getD_ofFn_fin]

/-! ### C113: couplings -/

/-- The photonic modes of a run with their fields in the plane at height `z` (`get_field_xy('E', kind, mind, z)` without its
grid): component `d` of mode `n` at the `i`-th wave vector. -/
noncomputable def PhotOut.field (ph : PhotOut) (i n : ℕ) (z x y : ℝ) (d : Fin 3) : ℂ :=
  fieldAt ph.gvec.length (fun G d => ph.eft i n z G d) (fun G => ph.gvec.getD G 0) x y d

theorem photOut_field (ph : PhotOut) (W : ExcWell) {a1 a2 : R2} (hd : Dual a1 a2 W.b1 W.b2) (t : TruncG) (gmax : ℝ)
    (h : ph.gvec = W.gvec t gmax) (i n : ℕ) (z x y : ℝ) (d : Fin 3) :
    ph.field i n z x y d = ∑ G : Fin (W.gvec t gmax).length, ph.eft i n z G d * wave (W.gvec t gmax)[G] x y := by
  unfold PhotOut.field
  rw [h, fieldAt_eq]
  · rw [Finset.sum_range]
    refine Finset.sum_congr rfl fun G _ => ?_
    rw [getD_of_len G.2]
    rfl
  · intro a ha b hb e
    rw [getD_of_len ha, getD_of_len hb] at e
    have := excWell_gvec_inj W hd t gmax (a₁ := ⟨a, ha⟩) (a₂ := ⟨b, hb⟩) e
    exact congrArg Fin.val this

theorem polCm_overlap {a1 a2 : R2} (t : TruncG) (gmax : ℝ) (pref : ℂ) (ph : PhotOut) {M : ℕ} (w : PolWell)
    (hd : Dual a1 a2 w.W.b1 w.W.b2) (h : ph.gvec = w.W.gvec t gmax) (f : Fin 3 → ℝ) (i : ℕ)
    (c : Fin M → Fin (w.W.gvec t gmax).length → ℂ) (n : Fin ph.numeig) (nu : Fin M) :
    polCm t gmax pref ph w f i c n nu = pref * cellMean a1 a2 (fun x y =>
      (∑ d, ((√(f d) : ℝ) : ℂ) * ph.field i n w.z x y d) *
      conj (ftinvAt (List.ofFn fun j => (c nu j, (w.W.gvec t gmax)[j])) x y)) := by
  have e : ∀ x y : ℝ, (∑ d, ((√(f d) : ℝ) : ℂ) * ph.field i n w.z x y d) *
      conj (ftinvAt (List.ofFn fun j => (c nu j, (w.W.gvec t gmax)[j])) x y) =
      conj (∑ j, c nu j * wave (latVec w.W.b1 w.W.b2 ((w.W.inds t gmax).getD j 0)) x y) *
      ∑ j : Fin (w.W.gvec t gmax).length, (∑ d, ((√(f d) : ℝ) : ℂ) * ph.eft i n w.z j d) *
        wave (latVec w.W.b1 w.W.b2 ((w.W.inds t gmax).getD j 0)) x y := by
    intro x y
    rw [ftinvAt_ofFn _ _ (excWell_gvec_inj w.W hd t gmax), mul_comm]
    simp only [photOut_field ph w.W hd t gmax h, excWell_gvec]
    congr 1
    simp only [Finset.mul_sum, Finset.sum_mul]
    rw [Finset.sum_comm]
    refine Finset.sum_congr rfl fun j _ => Finset.sum_congr rfl fun d _ => ?_
    ring
  simp only [e]
  rw [cellMean_parseval Finset.univ a1 a2 w.W.b1 w.W.b2 hd
    (fun j : Fin (w.W.gvec t gmax).length => (w.W.inds t gmax).getD j 0) (fun i _ j _ e => excWell_inds_inj w.W t gmax e)]
  unfold polCm hopC
  rw [Matrix.of_apply]
  congr 1
  refine Finset.sum_congr rfl fun G _ => ?_
  ring

/-- **C113 (couplings).** A polariton run with well-formed wells and computed losses succeeds. At every wave vector its
energies are those kept from the Hopfield problem of the photon energies, the energies `ExcitonSchroedEq.run` returns, and
couplings that are the prefactor times the average over the cell of the field `get_field_xy` returns at the height of the
well, weighted by the square roots of the oscillator strengths, and the conjugate of the wave function `get_wavef_xy`
returns. -/
theorem C113_couplings (argsort : List ℝ → List ℕ) (hs : ∀ l, IsArgsort l (argsort l))
    (eigh : ∀ n, Matrix (Fin n) (Fin n) ℂ → Fin n → ℝ)
    (vecs : ∀ n, Matrix (Fin n) (Fin n) ℂ → Matrix (Fin n) (Fin n) ℂ) (he : EighPair eigh vecs)
    (argsortC : List ℂ → List ℕ) (eig : ∀ N Q m : ℕ, Matrix (HIdx N Q m) (HIdx N Q m) ℂ → List ℂ) (t : TruncG)
    (gmax : ℝ) (hg : 0 ≤ gmax) (pref : ℂ) (conv : ℝ) (ph : PhotOut) (im : List (List ℝ)) (him : ph.freqsIm = some im)
    (M : ℕ) (qws : Fin (Q + 1) → PolWell) (f : Fin (Q + 1) → Fin 3 → ℝ) (hw : ∀ q, (qws q).Good t gmax ph M (f q))
    (a1 a2 : R2) (hd : ∀ q, Dual a1 a2 (qws q).W.b1 (qws q).W.b2) (ks : List R2) :
    ∃ rs, polSim argsort eigh vecs argsortC eig t gmax pref conv ph M qws ks = .ok rs ∧
      List.Forall₂ (fun ki r => ∃ (en : Fin (Q + 1) → Fin M → ℂ) (ψ : Fin (Q + 1) → Fin M → ℝ → ℝ → ℂ)
        (C : Fin (Q + 1) → Matrix (Fin ph.numeig) (Fin M) ℂ),
        (∀ q, ∃ es, excSim argsort eigh (qws q).W t gmax ks M = .ok es ∧
          ∀ x : Fin M, (es.getD ki.2 ([], [])).2[(x : ℕ)]? = some (en q x)) ∧
        (∀ q (nu : Fin M) x y, excWave argsort eigh vecs (qws q).W t gmax ki.1 M nu x y = .ok (ψ q nu x y)) ∧
        (∀ q n nu, C q n nu = pref * cellMean a1 a2 (fun x y =>
          (∑ d, ((√(f q d) : ℝ) : ℂ) * ph.field ki.2 n (qws q).z x y d) * conj (ψ q nu x y))) ∧
        r = polSelect argsortC (eig ph.numeig Q M (hopfield (fun n =>
          (((ph.freqs.getD ki.2 []).getD n 0 * conv : ℝ) : ℂ) + Complex.I * (((im.getD ki.2 []).getD n 0 * conv : ℝ) : ℂ))
          en C + 1))) ks.zipIdx rs := by
  obtain ⟨c, h1, h2, h3⟩ := polSim_ok argsort hs eigh vecs he argsortC eig t gmax hg pref conv ph im him M qws f hw ks
  refine ⟨_, h3, ?_⟩
  rw [List.forall₂_map_right_iff]
  refine List.forall₂_same.2 fun ki hki => ?_
  have hk := List.mem_zipIdx_iff_getElem?.1 hki
  refine ⟨polEn argsort eigh t gmax M qws ki.1,
    fun q nu x y => ftinvAt (List.ofFn fun j => (c q ki.1 nu j, ((qws q).W.gvec t gmax)[j])) x y, _, fun q => ?_,
    fun q nu x y => ?_, fun q n nu => ?_, rfl⟩
  · refine ⟨_, excSim_ok argsort eigh (qws q).W (hw q).resolved (hw q).shapes t gmax hg ks M, fun x => ?_⟩
    have hlen : (excRes argsort eigh (qws q).W t gmax M ki.1).2.length = M := by
      rw [excRes, excSelect_length argsort hs, List.length_ofFn, min_eq_left (hw q).enough]
    simp only [List.getD_eq_getElem?_getD, List.getElem?_map, hk, Option.map_some, Option.getD_some, polEn]
    rw [List.getElem?_eq_getElem (by rw [hlen]; exact x.2)]
    simp
  · unfold excWave
    rw [h1]
  · exact polCm_overlap t gmax pref ph (qws q) (hd q) (hw q).waves (f q) ki.2 (c q ki.1) n nu

/-! ### C113: the energies kept -/

theorem eig_shift (eig : ∀ N Q m : ℕ, Matrix (HIdx N Q m) (HIdx N Q m) ℂ → List ℂ) (hE : IsEig eig) {N Q m : ℕ}
    (A : Matrix (HIdx N Q m) (HIdx N Q m) ℂ) :
    (((eig N Q m (A + 1)).map (· - 1) : List ℂ) : Multiset ℂ) = A.charpoly.roots := by
  rw [← Multiset.map_coe, hE]
  have h : (A + 1).charpoly = A.charpoly.comp (Polynomial.X + Polynomial.C (-1)) := by
    rw [← Matrix.charpoly_sub_scalar A (-1)]
    congr 1
    rw [← sub_neg_eq_add]
    congr 1
    rw [map_neg, map_one]
  rw [h]
  apply Multiset.ext.2
  intro a
  have hinj : Function.Injective fun z : ℂ => z - 1 := fun x y e => by simpa using e
  have ha : a = (fun z : ℂ => z - 1) (a + 1) := by simp
  conv_lhs => rw [ha]
  rw [Multiset.count_map_eq_count' _ _ hinj, Polynomial.count_roots, Polynomial.count_roots,
    Polynomial.rootMultiplicity_eq_rootMultiplicity, Polynomial.rootMultiplicity_eq_rootMultiplicity (t := a),
    Polynomial.comp_assoc]
  congr 2
  simp [add_assoc]

/-- Of the eigenvalues of a Hopfield problem at least half have no negative real part. -/
theorem polSelect_kept (argsort : List ℂ → List ℕ) (hs : ∀ l, IsArgsortRe l (argsort l)) {N Q m : ℕ}
    (ph : Fin N → ℂ) (en : Fin (Q + 1) → Fin m → ℂ) (C : Fin (Q + 1) → Matrix (Fin N) (Fin m) ℂ) (w : List ℂ)
    (hw : ((w.map (· - 1) : List ℂ) : Multiset ℂ) = (hopfield ph en C).charpoly.roots) :
    (polSelect argsort w).length = N + (Q + 1) * m - 1 ∧
    ((polSelect argsort w).map Complex.re).Pairwise (· ≤ ·) ∧
    ∀ z ∈ polSelect argsort w, 0 ≤ z.re ∧ z ∈ (hopfield ph en C).charpoly.roots := by
  classical
  set R := (hopfield ph en C).charpoly.roots with hR
  have hcard : R.card = 2 * (N + (Q + 1) * m) := by
    rw [hR, (IsAlgClosed.splits _).natDegree_eq_card_roots.symm, Matrix.charpoly_natDegree_eq_dim]
    simp; ring
  have hneg : R.map (fun z => -z) = R := C41_multiplicities ph en C
  have hsplit : (R.filter fun z => 0 ≤ z.re).card + (R.filter fun z => ¬ 0 ≤ z.re).card = R.card := by
    rw [← Multiset.card_add, Multiset.filter_add_not]
  have hhalf : (R.filter fun z => ¬ 0 ≤ z.re).card ≤ (R.filter fun z => 0 ≤ z.re).card := by
    have h1 : (R.filter fun z => ¬ 0 ≤ z.re) ≤ R.filter fun z => 0 ≤ (-z).re := by
      apply Multiset.monotone_filter_right
      intro z hz
      rw [Complex.neg_re]
      push Not at hz
      linarith
    refine (Multiset.card_le_card h1).trans (le_of_eq ?_)
    conv_rhs => rw [← hneg, Multiset.filter_map, Multiset.card_map]
    rfl
  set l := (w.map (· - 1)).filter fun z : ℂ => decide (0 ≤ z.re) with hl
  have hlR : (l : Multiset ℂ) = R.filter fun z => 0 ≤ z.re := by
    rw [hl, ← Multiset.filter_coe, hw]
  have hll : N + (Q + 1) * m ≤ l.length := by
    have : l.length = (R.filter fun z => 0 ≤ z.re).card := by rw [← hlR]; rfl
    omega
  have hwl : w.length / 2 - 1 = N + (Q + 1) * m - 1 := by
    have : w.length = R.card := by rw [← hw]; simp
    rw [this, hcard]; omega
  obtain ⟨hp, ho⟩ := hs l
  have hal : (argsort l).length = l.length := by rw [hp.length_eq, List.length_range]
  have hsel : polSelect argsort w = ((argsort l).take (N + (Q + 1) * m - 1)).map fun (i : ℕ) => l.getD i 0 := by
    unfold polSelect
    simp only
    rw [hwl]
  rw [hsel]
  refine ⟨?_, ?_, ?_⟩
  · rw [List.length_map, List.length_take, hal]; omega
  · rw [List.map_map, List.map_take]
    exact ho.sublist (List.take_sublist _ _)
  · intro z hz
    obtain ⟨i, hi, rfl⟩ := List.mem_map.1 hz
    have hi' : i < l.length := List.mem_range.1 (hp.mem_iff.1 (List.mem_of_mem_take hi))
    have : l.getD i 0 ∈ (l : Multiset ℂ) := by
      rw [getD_of_len hi']; exact List.getElem_mem hi'
    rw [hlR, Multiset.mem_filter] at this
    exact ⟨this.2, this.1⟩

/-- **C113 (what is stored).** Every polariton run with well-formed wells stores at every wave vector exactly
`N + K - 1` energies, in ascending order of their real parts, none of which is negative; `N` is the number of photonic
modes, `K` that of exciton levels of all wells. -/
theorem C113_stored (argsort : List ℝ → List ℕ) (hs : ∀ l, IsArgsort l (argsort l))
    (eigh : ∀ n, Matrix (Fin n) (Fin n) ℂ → Fin n → ℝ)
    (vecs : ∀ n, Matrix (Fin n) (Fin n) ℂ → Matrix (Fin n) (Fin n) ℂ) (he : EighPair eigh vecs)
    (argsortC : List ℂ → List ℕ) (hsC : ∀ l, IsArgsortRe l (argsortC l))
    (eig : ∀ N Q m : ℕ, Matrix (HIdx N Q m) (HIdx N Q m) ℂ → List ℂ) (hE : IsEig eig) (t : TruncG)
    (gmax : ℝ) (hg : 0 ≤ gmax) (pref : ℂ) (conv : ℝ) (ph : PhotOut) (im : List (List ℝ)) (him : ph.freqsIm = some im)
    (M : ℕ) (qws : Fin (Q + 1) → PolWell) (f : Fin (Q + 1) → Fin 3 → ℝ) (hw : ∀ q, (qws q).Good t gmax ph M (f q))
    (ks : List R2) :
    ∃ rs, polSim argsort eigh vecs argsortC eig t gmax pref conv ph M qws ks = .ok rs ∧ rs.length = ks.length ∧
      ∀ r ∈ rs, r.length = ph.numeig + (Q + 1) * M - 1 ∧ (r.map Complex.re).Pairwise (· ≤ ·) ∧ ∀ z ∈ r, 0 ≤ z.re := by
  obtain ⟨c, h1, h2, h3⟩ := polSim_ok argsort hs eigh vecs he argsortC eig t gmax hg pref conv ph im him M qws f hw ks
  refine ⟨_, h3, by simp, fun r hr => ?_⟩
  obtain ⟨ki, -, rfl⟩ := List.mem_map.1 hr
  obtain ⟨k1, k2, k3⟩ := polSelect_kept argsortC hsC _ _ _ _ (eig_shift eig hE (hopfield (polPh conv ph im ki.2)
    (polEn argsort eigh t gmax M qws ki.1) (fun q => polCm t gmax pref ph (qws q) (f q) ki.2 (c q ki.1))))
  exact ⟨k1, k2, fun z hz => (k3 z hz).1⟩

/-! ### C113: without coupling -/

theorem map_univ_sum {α β γ : Type} [Fintype α] [Fintype β] (g : α ⊕ β → γ) :
    (Finset.univ : Finset (α ⊕ β)).val.map g =
      (Finset.univ : Finset α).val.map (fun a => g (.inl a)) + (Finset.univ : Finset β).val.map fun b => g (.inr b) := by
  rw [← Finset.univ_disjSum_univ, Finset.val_disjSum, Multiset.disjSum, Multiset.map_add, Multiset.map_map,
    Multiset.map_map]
  rfl

theorem hop_uncoupled {N Q m : ℕ} (ph : Fin N → ℂ) (en : Fin (Q + 1) → Fin m → ℂ) :
    (hopfield ph en (fun _ => 0)).charpoly.roots =
      (Finset.univ.val.map ph + Finset.univ.val.map fun x : Fin (Q + 1) × Fin m => en x.1 x.2) +
      (Finset.univ.val.map (fun n => -ph n) + Finset.univ.val.map fun x : Fin (Q + 1) × Fin m => -en x.1 x.2) := by
  have h : hopfield ph en (fun _ => 0) = Matrix.diagonal (Sum.elim (Sum.elim ph fun x => en x.1 x.2)
      (Sum.elim (fun n => -ph n) fun x => -en x.1 x.2)) := by
    have hD : ∀ e : Fin m → ℂ, hopD (0 : Matrix (Fin N) (Fin m) ℂ) e = 0 := by
      intro e; ext i j; simp [hopD]
    have hC : hopCf (fun _ => 0 : Fin (Q + 1) → Matrix (Fin N) (Fin m) ℂ) = 0 := by ext i j; rfl
    have hA : hopA ph en (fun _ => 0) = Matrix.diagonal ph := by
      unfold hopA; ext i j; simp [hD]
    rw [hop_eq, hC, hD, hA]
    ext i j
    rcases i with (n | x) | (n | x) <;> rcases j with (n' | x') | (n' | x') <;>
      simp [hopX, Matrix.diagonal_apply, apply_ite Neg.neg]
  rw [h, Matrix.charpoly_diagonal, Polynomial.roots_prod _ _ (Finset.prod_ne_zero_iff.2 fun i _ =>
    Polynomial.X_sub_C_ne_zero _)]
  simp only [Polynomial.roots_X_sub_C]
  rw [Multiset.bind_singleton, map_univ_sum, map_univ_sum, map_univ_sum]
  rfl

/-- **C113 (selection rule).** If in every well every component of the oscillator strength or of the fields in its plane
vanishes, nothing couples: the energies kept at every wave vector together with the one that is lost are the photon energies
and the energies of the excitons of all wells, for positive energies. -/
theorem C113_uncoupled (argsort : List ℝ → List ℕ) (hs : ∀ l, IsArgsort l (argsort l))
    (eigh : ∀ n, Matrix (Fin n) (Fin n) ℂ → Fin n → ℝ)
    (vecs : ∀ n, Matrix (Fin n) (Fin n) ℂ → Matrix (Fin n) (Fin n) ℂ) (he : EighPair eigh vecs)
    (argsortC : List ℂ → List ℕ) (hsC : ∀ l, IsArgsortRe l (argsortC l))
    (eig : ∀ N Q m : ℕ, Matrix (HIdx N Q m) (HIdx N Q m) ℂ → List ℂ) (hE : IsEig eig) (t : TruncG)
    (gmax : ℝ) (hg : 0 ≤ gmax) (pref : ℂ) (conv : ℝ) (ph : PhotOut) (im : List (List ℝ)) (him : ph.freqsIm = some im)
    (M : ℕ) (qws : Fin (Q + 1) → PolWell) (f : Fin (Q + 1) → Fin 3 → ℝ) (hw : ∀ q, (qws q).Good t gmax ph M (f q))
    (ks : List R2) (hN : 0 < ph.numeig + M)
    (h0 : ∀ q d, f q d = 0 ∨ ∀ i n G, ph.eft i n (qws q).z G d = 0)
    (hph : ∀ i < ks.length, ∀ n < ph.numeig, 0 < (ph.freqs.getD i []).getD n 0 * conv)
    (hen : ∀ q es, excSim argsort eigh (qws q).W t gmax ks M = .ok es → ∀ r ∈ es, ∀ z ∈ r.2, 0 < z.re) :
    ∃ rs, polSim argsort eigh vecs argsortC eig t gmax pref conv ph M qws ks = .ok rs ∧
      List.Forall₂ (fun ki r => ∃ (lost : ℂ) (en : Fin (Q + 1) → Fin M → ℂ),
        (∀ q, ∃ es, excSim argsort eigh (qws q).W t gmax ks M = .ok es ∧
          ∀ x : Fin M, (es.getD ki.2 ([], [])).2[(x : ℕ)]? = some (en q x)) ∧
        ((r ++ [lost] : List ℂ) : Multiset ℂ) =
          (Finset.univ : Finset (Fin ph.numeig)).val.map (fun n : Fin ph.numeig => (((ph.freqs.getD ki.2 []).getD n 0 * conv : ℝ) : ℂ) +
            Complex.I * (((im.getD ki.2 []).getD n 0 * conv : ℝ) : ℂ)) +
          (Finset.univ : Finset (Fin (Q + 1) × Fin M)).val.map (fun x => en x.1 x.2) ∧
        ((r ++ [lost]).map Complex.re).Pairwise (· ≤ ·)) ks.zipIdx rs := by
  classical
  obtain ⟨c, h1, h2, h3⟩ := polSim_ok argsort hs eigh vecs he argsortC eig t gmax hg pref conv ph im him M qws f hw ks
  refine ⟨_, h3, ?_⟩
  rw [List.forall₂_map_right_iff]
  refine List.forall₂_same.2 fun ki hki => ?_
  have hk := List.mem_zipIdx_iff_getElem?.1 hki
  have hen' : ∀ q, ∃ es, excSim argsort eigh (qws q).W t gmax ks M = .ok es ∧
      ∀ x : Fin M, (es.getD ki.2 ([], [])).2[(x : ℕ)]? = some (polEn argsort eigh t gmax M qws ki.1 q x) := by
    intro q
    refine ⟨_, excSim_ok argsort eigh (qws q).W (hw q).resolved (hw q).shapes t gmax hg ks M, fun x => ?_⟩
    have hlen : (excRes argsort eigh (qws q).W t gmax M ki.1).2.length = M := by
      rw [excRes, excSelect_length argsort hs, List.length_ofFn, min_eq_left (hw q).enough]
    simp only [List.getD_eq_getElem?_getD, List.getElem?_map, hk, Option.map_some, Option.getD_some, polEn]
    rw [List.getElem?_eq_getElem (by rw [hlen]; exact x.2)]
    simp
  have hpe : ∀ q x, 0 < (polEn argsort eigh t gmax M qws ki.1 q x).re := by
    intro q x
    obtain ⟨es, e1, e2⟩ := hen' q
    have hlt : ki.2 < es.length := by
      by_contra hc
      have := e2 x
      rw [List.getD_eq_getElem?_getD (l := es), List.getElem?_eq_none (l := es) (by omega)] at this
      simp at this
    have e3 := e2 x
    rw [getD_of_len hlt] at e3
    exact hen q es e1 _ (List.getElem_mem hlt) _ (List.mem_of_getElem? e3)
  have hpp : ∀ n, 0 < (polPh conv ph im ki.2 n).re := by
    intro n
    have hlt : ki.2 < ks.length := (List.getElem?_eq_some_iff.1 hk).1
    have : (polPh conv ph im ki.2 n).re = (ph.freqs.getD ki.2 []).getD n 0 * conv := by
      unfold polPh
      rw [Complex.add_re, Complex.ofReal_re, Complex.mul_re, Complex.I_re, Complex.I_im, Complex.ofReal_re, Complex.ofReal_im]
      ring
    rw [this]
    exact hph _ hlt n n.2
  have hC : (fun q => polCm t gmax pref ph (qws q) (f q) ki.2 (c q ki.1)) = fun _ => 0 := by
    funext q
    ext n nu
    unfold polCm hopC
    rw [Matrix.of_apply]
    have : ∀ G : Fin ((qws q).W.gvec t gmax).length, ∑ d, ((√(f q d) : ℝ) : ℂ) * ph.eft ki.2 n (qws q).z G d = 0 := by
      intro G
      refine Finset.sum_eq_zero fun d _ => ?_
      rcases h0 q d with h | h
      · rw [h]; simp
      · rw [h, mul_zero]
    simp [this]
  rw [hC]
  have hroots := hop_uncoupled (polPh conv ph im ki.2) (polEn argsort eigh t gmax M qws ki.1)
  have hre : ∀ z ∈ (hopfield (polPh conv ph im ki.2) (polEn argsort eigh t gmax M qws ki.1) fun _ => 0).charpoly.roots,
      z.re ≠ 0 := by
    intro z hz
    rw [hroots] at hz
    simp only [Multiset.mem_add, Multiset.mem_map] at hz
    rcases hz with (⟨n, -, rfl⟩ | ⟨x, -, rfl⟩) | (⟨n, -, rfl⟩ | ⟨x, -, rfl⟩)
    · exact (hpp n).ne'
    · exact (hpe _ _).ne'
    · rw [Complex.neg_re]; exact neg_ne_zero.2 (hpp n).ne'
    · rw [Complex.neg_re]; exact neg_ne_zero.2 (hpe _ _).ne'
  have hN' : 0 < ph.numeig + (Q + 1) * M := by
    rcases Nat.eq_zero_or_pos M with h | h
    · subst h; omega
    · have := Nat.mul_pos (Nat.succ_pos Q) h
      simp only [Nat.succ_eq_add_one] at this
      omega
  obtain ⟨lost, k1, k2, k3⟩ := C78_stored_partial argsortC hsC _ _ _ hN' _ (eig_shift eig hE (hopfield
    (polPh conv ph im ki.2) (polEn argsort eigh t gmax M qws ki.1) fun _ => 0)) hre
  refine ⟨lost, _, hen', ?_, k3⟩
  have f1 : ∀ z ∈ (Finset.univ : Finset (Fin ph.numeig)).val.map (polPh conv ph im ki.2), 0 < z.re := by
    intro z hz
    obtain ⟨x, -, rfl⟩ := Multiset.mem_map.1 hz
    exact hpp _
  have f2 : ∀ z ∈ (Finset.univ : Finset (Fin (Q + 1) × Fin M)).val.map
      (fun x => polEn argsort eigh t gmax M qws ki.1 x.1 x.2), 0 < z.re := by
    intro z hz
    obtain ⟨x, -, rfl⟩ := Multiset.mem_map.1 hz
    exact hpe _ _
  have f3 : ∀ z ∈ (Finset.univ : Finset (Fin ph.numeig)).val.map (fun n => -polPh conv ph im ki.2 n), ¬ 0 < z.re := by
    intro z hz
    obtain ⟨x, -, rfl⟩ := Multiset.mem_map.1 hz
    rw [Complex.neg_re]
    have := hpp x
    linarith
  have f4 : ∀ z ∈ (Finset.univ : Finset (Fin (Q + 1) × Fin M)).val.map
      (fun x => -polEn argsort eigh t gmax M qws ki.1 x.1 x.2), ¬ 0 < z.re := by
    intro z hz
    obtain ⟨x, -, rfl⟩ := Multiset.mem_map.1 hz
    rw [Complex.neg_re]
    have := hpe x.1 x.2
    linarith
  rw [k1, hroots, Multiset.filter_add, Multiset.filter_add, Multiset.filter_add, Multiset.filter_eq_self.2 f1,
    Multiset.filter_eq_self.2 f2, Multiset.filter_eq_nil.2 f3, Multiset.filter_eq_nil.2 f4]
  simp only [add_zero]
  rfl

/-! ### C113: real energies -/

/-- **C113 (no losses).** Photonic modes and excitons without losses, and fields weak enough: when four times the sum over
all modes and wells of the squared weighted fields, times the squared prefactor and divided by the lowest exciton energy, is
below every photon energy, the imaginary parts of all energies stored vanish, and the energies are positive. -/
theorem C113_real (argsort : List ℝ → List ℕ) (hs : ∀ l, IsArgsort l (argsort l))
    (eigh : ∀ n, Matrix (Fin n) (Fin n) ℂ → Fin n → ℝ)
    (vecs : ∀ n, Matrix (Fin n) (Fin n) ℂ → Matrix (Fin n) (Fin n) ℂ) (he : EighPair eigh vecs)
    (argsortC : List ℂ → List ℕ) (hsC : ∀ l, IsArgsortRe l (argsortC l))
    (eig : ∀ N Q m : ℕ, Matrix (HIdx N Q m) (HIdx N Q m) ℂ → List ℂ) (hE : IsEig eig) (t : TruncG)
    (gmax : ℝ) (hg : 0 ≤ gmax) (pref : ℂ) (conv : ℝ) (ph : PhotOut) (im : List (List ℝ)) (him : ph.freqsIm = some im)
    (M : ℕ) (qws : Fin (Q + 1) → PolWell) (f : Fin (Q + 1) → Fin 3 → ℝ) (hw : ∀ q, (qws q).Good t gmax ph M (f q))
    (ks : List R2) (hN : 0 < ph.numeig + M) (him0 : ∀ l ∈ im, ∀ x ∈ l, x = 0) (hloss : ∀ q, (qws q).W.loss = 0)
    (emin : ℝ) (hemin : 0 < emin)
    (hen : ∀ q es, excSim argsort eigh (qws q).W t gmax ks M = .ok es → ∀ r ∈ es, ∀ z ∈ r.2, emin ≤ z.re)
    (hph : ∀ i < ks.length, ∀ n < ph.numeig, 4 * ∑ q, ∑ n : Fin ph.numeig, ‖pref‖ ^ 2 *
      (∑ G ∈ Finset.range ph.gvec.length, ‖∑ d, ((√(f q d) : ℝ) : ℂ) * ph.eft i n (qws q).z G d‖ ^ 2) / emin <
        (ph.freqs.getD i []).getD n 0 * conv) :
    ∃ rs, polSim argsort eigh vecs argsortC eig t gmax pref conv ph M qws ks = .ok rs ∧
      ∀ r ∈ rs, ∀ z ∈ r, z.im = 0 ∧ 0 < z.re := by
  classical
  obtain ⟨c, h1, h2, h3⟩ := polSim_ok argsort hs eigh vecs he argsortC eig t gmax hg pref conv ph im him M qws f hw ks
  refine ⟨_, h3, fun r hr => ?_⟩
  obtain ⟨ki, hki, rfl⟩ := List.mem_map.1 hr
  have hk := List.mem_zipIdx_iff_getElem?.1 hki
  have hlt : ki.2 < ks.length := (List.getElem?_eq_some_iff.1 hk).1
  set e : Fin (Q + 1) → Fin M → ℝ := fun q x => (excRes argsort eigh (qws q).W t gmax M ki.1).2.getD x 0 + (qws q).W.E0
    with he'
  have hene : polEn argsort eigh t gmax M qws ki.1 = fun q x => ((e q x : ℝ) : ℂ) := by
    funext q x
    rw [polEn, hloss, he']
    push_cast
    simp
  have hphe : polPh conv ph im ki.2 = fun n : Fin ph.numeig => (((ph.freqs.getD ki.2 []).getD n 0 * conv : ℝ) : ℂ) := by
    funext n
    have : (im.getD ki.2 []).getD n 0 = 0 := by
      by_cases hi : ki.2 < im.length
      · by_cases hn : (n : ℕ) < (im.getD ki.2 []).length
        · rw [getD_of_len hn]
          refine him0 _ ?_ _ (List.getElem_mem hn)
          rw [getD_of_len hi]; exact List.getElem_mem hi
        · rw [List.getD_eq_getElem?_getD, List.getElem?_eq_none (by omega)]; rfl
      · rw [List.getD_eq_getElem?_getD (l := im), List.getElem?_eq_none (by omega)]; rfl
    rw [polPh, this]
    simp
  have hge : ∀ q x, emin ≤ e q x := by
    intro q x
    have hlen : (excRes argsort eigh (qws q).W t gmax M ki.1).2.length = M := by
      rw [excRes, excSelect_length argsort hs, List.length_ofFn, min_eq_left (hw q).enough]
    have hok := excSim_ok argsort eigh (qws q).W (hw q).resolved (hw q).shapes t gmax hg ks M
    have hmem : ki.1 ∈ ks := List.mem_of_getElem? hk
    have := hen q _ hok _ (List.mem_map.2 ⟨ki.1, hmem, rfl⟩)
      ((((excRes argsort eigh (qws q).W t gmax M ki.1).2.getD x 0 : ℝ) : ℂ) + (qws q).W.E0 + Complex.I * (qws q).W.loss) (by
        refine List.mem_map.2 ⟨(excRes argsort eigh (qws q).W t gmax M ki.1).2.getD x 0, ?_, rfl⟩
        rw [getD_of_len (by rw [hlen]; exact x.2)]
        exact List.getElem_mem _)
    simpa [he', hloss] using this
  have hepos : ∀ q x, 0 < e q x := fun q x => hemin.trans_le (hge q x)
  set C := fun q => polCm t gmax pref ph (qws q) (f q) ki.2 (c q ki.1) with hC
  have hosc : totalOsc e C ≤ ∑ q, ∑ n : Fin ph.numeig, ‖pref‖ ^ 2 *
      (∑ G ∈ Finset.range ph.gvec.length, ‖∑ d, ((√(f q d) : ℝ) : ℂ) * ph.eft ki.2 n (qws q).z G d‖ ^ 2) / emin := by
    unfold totalOsc
    refine Finset.sum_le_sum fun q _ => Finset.sum_le_sum fun n _ => ?_
    have hb := bessel_waves (c q ki.1) (h2 q ki.1) fun G : Fin ((qws q).W.gvec t gmax).length =>
      ∑ d, ((√(f q d) : ℝ) : ℂ) * ph.eft ki.2 n (qws q).z G d
    have hr : ∑ G ∈ Finset.range ph.gvec.length, ‖∑ d, ((√(f q d) : ℝ) : ℂ) * ph.eft ki.2 n (qws q).z G d‖ ^ 2 =
        ∑ G : Fin ((qws q).W.gvec t gmax).length, ‖∑ d, ((√(f q d) : ℝ) : ℂ) * ph.eft ki.2 n (qws q).z G d‖ ^ 2 := by
      rw [(hw q).waves, Finset.sum_range]
    rw [hr]
    refine le_trans ?_ (div_le_div_of_nonneg_right (mul_le_mul_of_nonneg_left hb (sq_nonneg ‖pref‖)) hemin.le)
    rw [Finset.mul_sum, Finset.sum_div]
    refine Finset.sum_le_sum fun nu _ => ?_
    rw [hC]
    simp only [polCm, hopC, Matrix.of_apply]
    rw [norm_mul, mul_pow]
    exact div_le_div_of_nonneg_left (by positivity) hemin (hge q nu)
  have hreal : ∀ z ∈ (hopfield (polPh conv ph im ki.2) (polEn argsort eigh t gmax M qws ki.1) C).charpoly.roots,
      z.im = 0 ∧ z ≠ 0 := by
    intro z hz
    rw [hene, hphe] at hz
    refine C112_weak_partial (fun n : Fin ph.numeig => (ph.freqs.getD ki.2 []).getD n 0 * conv) e hepos C (fun n => ?_) z hz
    exact lt_of_le_of_lt (mul_le_mul_of_nonneg_left hosc (by norm_num)) (hph ki.2 hlt n n.2)
  have hN' : 0 < ph.numeig + (Q + 1) * M := by
    rcases Nat.eq_zero_or_pos M with h | h
    · subst h; omega
    · have := Nat.mul_pos (Nat.succ_pos Q) h
      simp only [Nat.succ_eq_add_one] at this
      omega
  obtain ⟨-, -, k3⟩ := C112_stored argsortC hsC _ _ C hN' _ (eig_shift eig hE _) hreal
  exact fun z hz => ⟨(k3 z hz).1, (k3 z hz).2.1⟩

/-! ### C113: errors -/

theorem mapM_one_error {α β : Type} (l : List α) (g : α → Except PyErr β) (err : PyErr)
    (h : ∀ a ∈ l, (∃ b, g a = .ok b) ∨ g a = .error err) (hex : ∃ a ∈ l, g a = .error err) :
    l.mapM g = .error err := by
  induction l with
  | nil => obtain ⟨a, ha, -⟩ := hex; simp at ha
  | cons a l ih =>
    rw [List.mapM_cons]
    rcases h a (by simp) with ⟨b, hb⟩ | hb
    · rw [hb]
      obtain ⟨a', ha', e⟩ := hex
      have hl : a' ∈ l := by
        rcases List.mem_cons.1 ha' with rfl | h'
        · rw [hb] at e; exact absurd e (by simp)
        · exact h'
      have := ih (fun x hx => h x (List.mem_cons_of_mem _ hx)) ⟨a', hl, e⟩
      change (l.mapM g >>= _) = _
      rw [this]
      rfl
    · rw [hb]; rfl

/-- **C113 (losses not computed).** After a run of `GuidedModeExp` with `compute_im=False` every polariton run raises a
TypeError. -/
theorem C113_no_losses (argsort : List ℝ → List ℕ) (eigh : ∀ n, Matrix (Fin n) (Fin n) ℂ → Fin n → ℝ)
    (vecs : ∀ n, Matrix (Fin n) (Fin n) ℂ → Matrix (Fin n) (Fin n) ℂ)
    (argsortC : List ℂ → List ℕ) (eig : ∀ N Q m : ℕ, Matrix (HIdx N Q m) (HIdx N Q m) ℂ → List ℂ) (t : TruncG)
    (gmax : ℝ) (hg : 0 ≤ gmax) (pref : ℂ) (conv : ℝ) (ph : PhotOut) (him : ph.freqsIm = none)
    (M : ℕ) (qws : Fin (Q + 1) → PolWell) (hb : ∀ q, Resolved (qws q).W.b1 (qws q).W.b2)
    (hr : ∀ q, ∀ s ∈ (qws q).W.shapes, RealFt s) (ks : List R2) (hks : ks ≠ []) :
    polSim argsort eigh vecs argsortC eig t gmax pref conv ph M qws ks = .error .typeError := by
  unfold polSim
  rw [mapM_finRange_ok _ _ _ fun q => excSim_ok argsort eigh (qws q).W (hb q) (hr q) t gmax hg ks M]
  change List.mapM _ _ = _
  have hp : ∀ i, polPhot conv ph i = .error .typeError := fun i => by unfold polPhot; rw [him]
  apply mapM_one_error
  · intro a _
    right
    rw [hp]; rfl
  · obtain ⟨k, ks', rfl⟩ := List.exists_cons_of_ne_nil hks
    refine ⟨(k, 0), by simp [List.zipIdx_cons], ?_⟩
    rw [hp]; rfl

/-! ### C113: examples -/

/-- Energies of a drawn well from below. -/
theorem wellDrawn_energy_ge (argsort : List ℝ → List ℕ) (hs : ∀ l, IsArgsort l (argsort l))
    (eigh : ∀ n, Matrix (Fin n) (Fin n) ℂ → Fin n → ℝ) (he : GoodEigh eigh) (a1 a2 : R2) (W : ExcWell) (sh : List Drawn)
    (hD : WellDrawn a1 a2 W sh) (hM : 0 < W.M) (he' : 0 < W.e) (t : TruncG) (gmax : ℝ) (hg : 0 ≤ gmax) (ks : List R2)
    (numeig : ℕ) (es) (h : excSim argsort eigh W t gmax ks numeig = .ok es) :
    ∀ r ∈ es, ∀ z ∈ r.2, W.E0 - (W.gvec t gmax).length * wellErr W sh ≤ z.re := by
  obtain ⟨rs, h1, h2⟩ := C109_between argsort hs eigh he a1 a2 W sh hD t gmax hg _ rfl ks numeig
  rw [h] at h1
  obtain rfl := Except.ok.inj h1
  intro r hr z hz
  obtain ⟨k, hk⟩ : ∃ k : R2, ∃ c : List ℝ, c.Pairwise (· ≤ ·) ∧ c.Perm ((W.gvec t gmax).map fun g =>
          W.hbar ^ 2 * ((k.1 + g.1) ^ 2 + (k.2 + g.2) ^ 2) / (2 * W.M * W.a ^ 2 * W.e)) ∧
        r.2.length = min numeig c.length ∧ ∀ (i : ℕ) (h : i < r.2.length) (h' : i < c.length),
          W.E0 + c[i] - (W.gvec t gmax).length * wellErr W sh ≤ r.2[i].re ∧
          r.2[i].re ≤ W.E0 + c[i] + |W.V| + (W.gvec t gmax).length * wellErr W sh ∧ r.2[i].im = W.loss := by
    clear h h1
    induction h2 with
    | nil => simp at hr
    | cons hab _ ih =>
      rcases List.mem_cons.1 hr with rfl | h
      · exact ⟨_, hab⟩
      · exact ih h
  obtain ⟨c, c1, c2, c3, c4⟩ := hk
  obtain ⟨i, hi, rfl⟩ := List.mem_iff_getElem.1 hz
  have hic : i < c.length := by rw [c3] at hi; omega
  have hc : c[i] ∈ (W.gvec t gmax).map fun g =>
      W.hbar ^ 2 * ((k.1 + g.1) ^ 2 + (k.2 + g.2) ^ 2) / (2 * W.M * W.a ^ 2 * W.e) := c2.mem_iff.1 (List.getElem_mem hic)
  obtain ⟨g, -, hgc⟩ := List.mem_map.1 hc
  have h0 : 0 ≤ c[i] := by rw [← hgc]; positivity
  have := (c4 i hi hic).1
  linarith

/-- Two wells of discs without losses: oscillator strengths in the plane, at heights 0.1 and 0.2. -/
noncomputable def polDiscs (loss : ℝ) (f : Fin 3 → ℝ) (q : Fin 2) : PolWell :=
  ⟨{ wellDisc 0.1 0.3 (-0.005) with loss := loss }, f, 0.1 * (q + 1)⟩

theorem polDiscs_drawn (loss : ℝ) (f : Fin 3 → ℝ) (q : Fin 2) :
    WellDrawn (1, 0) (0, 1) (polDiscs loss f q).W [drawnCircle 1 ⟨0.1, 0.3, 0.2⟩] := by
  have h := wellDisc_drawn 0.1 0.3 (-0.005)
  exact ⟨h.1, h.2, h.3, h.4, h.5, h.6, h.7, h.8, h.9, h.10, h.11, h.12⟩

theorem polDiscs_count (loss : ℝ) (f : Fin 3 → ℝ) (q : Fin 2) : ((polDiscs loss f q).W.gvec .tbt 2).length = 25 := by
  have h : ∀ b : R2, norm2 b = 2 * π → nmaxOf (2 * π) 2 b = 2 := by
    intro b hb
    rw [nmaxOf, hb, mul_div_assoc, mul_div_cancel₀ _ (by positivity)]
    exact_mod_cast Nat.floor_natCast (R := ℝ) 2
  have h1 : nmaxOf (2 * π) 2 (polDiscs loss f q).W.b1 = 2 :=
    h _ (by simp [polDiscs, wellDisc, norm2, Real.sqrt_sq_eq_abs, abs_of_pos Real.pi_pos])
  have h2 : nmaxOf (2 * π) 2 (polDiscs loss f q).W.b2 = 2 :=
    h _ (by simp [polDiscs, wellDisc, norm2, Real.sqrt_sq_eq_abs, abs_of_pos Real.pi_pos])
  rw [excWell_len, ExcWell.inds]
  simp only [h1, h2, tbtInds_length]

/-- Two photonic modes with uniform fields in the plane. -/
noncomputable def photTwo (E : ℂ) (im : Option (List (List ℝ))) : PhotOut :=
  ⟨2, (polDiscs 0 0 0).W.gvec .tbt 2, [[1, 1.1], [1.2, 1.3]], im, fun _ _ _ _ d => if d = 2 then 0 else E⟩

theorem polDiscs_good (E : ℂ) (im) (loss : ℝ) (f : Fin 3 → ℝ) (q : Fin 2) :
    (polDiscs loss f q).Good .tbt 2 (photTwo E im) 3 f :=
  ⟨resolved_square, wellDrawn_real (polDiscs_drawn loss f q), rfl, rfl, by rw [polDiscs_count]; norm_num⟩

theorem polDiscs_energy (argsort : List ℝ → List ℕ) (hs : ∀ l, IsArgsort l (argsort l))
    (eigh : ∀ n, Matrix (Fin n) (Fin n) ℂ → Fin n → ℝ) (he : GoodEigh eigh) (loss : ℝ) (f : Fin 3 → ℝ) (ks : List R2)
    (q : Fin 2) (es) (h : excSim argsort eigh (polDiscs loss f q).W .tbt 2 ks 3 = .ok es) :
    ∀ r ∈ es, ∀ z ∈ r.2, 1.4 ≤ z.re := by
  intro r hr z hz
  have h1 := wellDrawn_energy_ge argsort hs eigh he _ _ _ _ (polDiscs_drawn loss f q) (by norm_num [polDiscs, wellDisc])
    (by norm_num [polDiscs, wellDisc]) .tbt 2 (by norm_num) ks 3 es h r hr z hz
  rw [polDiscs_count] at h1
  have h2 : wellErr (polDiscs loss f q).W [drawnCircle 1 ⟨0.1, 0.3, 0.2⟩] ≤ |(-0.005 : ℝ)| * 1e-11 :=
    wellDisc_err 0.1 0.3 (-0.005)
  have h3 : |(-0.005 : ℝ)| = 0.005 := by norm_num
  have h4 : (polDiscs loss f q).W.E0 = 1.5 := rfl
  rw [h3] at h2
  rw [h4] at h1
  push_cast at h1
  linarith

/-- Lossy wells: the couplings are the overlaps of fields and wave functions, seven energies are stored at both wave
vectors. -/
example (argsort : List ℝ → List ℕ) (hs : ∀ l, IsArgsort l (argsort l))
    (eigh : ∀ n, Matrix (Fin n) (Fin n) ℂ → Fin n → ℝ)
    (vecs : ∀ n, Matrix (Fin n) (Fin n) ℂ → Matrix (Fin n) (Fin n) ℂ) (he : EighPair eigh vecs)
    (argsortC : List ℂ → List ℕ) (hsC : ∀ l, IsArgsortRe l (argsortC l))
    (eig : ∀ N Q m : ℕ, Matrix (HIdx N Q m) (HIdx N Q m) ℂ → List ℂ) (hE : IsEig eig) :
    ∃ rs, polSim argsort eigh vecs argsortC eig .tbt 2 0.5 1 (photTwo 3 (some [[1e-3, 0], [2e-3, 1e-2]])) 3
      (polDiscs (-0.1) ![1, 1, 0]) [(0, 0), (1, 2)] = .ok rs ∧ rs.length = 2 ∧ ∀ r ∈ rs, r.length = 7 := by
  obtain ⟨rs, h1, h2, h3⟩ := C113_stored argsort hs eigh vecs he argsortC hsC eig hE .tbt 2 (by norm_num) 0.5 1
    (photTwo 3 (some [[1e-3, 0], [2e-3, 1e-2]])) _ rfl 3 (polDiscs (-0.1) ![1, 1, 0]) (fun _ => ![1, 1, 0])
    (fun q => polDiscs_good 3 _ _ _ q) [(0, 0), (1, 2)]
  exact ⟨rs, h1, h2, fun r hr => (h3 r hr).1⟩

example (argsort : List ℝ → List ℕ) (hs : ∀ l, IsArgsort l (argsort l))
    (eigh : ∀ n, Matrix (Fin n) (Fin n) ℂ → Fin n → ℝ)
    (vecs : ∀ n, Matrix (Fin n) (Fin n) ℂ → Matrix (Fin n) (Fin n) ℂ) (he : EighPair eigh vecs)
    (argsortC : List ℂ → List ℕ) (eig : ∀ N Q m : ℕ, Matrix (HIdx N Q m) (HIdx N Q m) ℂ → List ℂ) :=
  C113_couplings argsort hs eigh vecs he argsortC eig .tbt 2 (by norm_num) 0.5 1
    (photTwo 3 (some [[1e-3, 0], [2e-3, 1e-2]])) _ rfl 3 (polDiscs (-0.1) ![1, 1, 0]) (fun _ => ![1, 1, 0])
    (fun q => polDiscs_good 3 _ _ _ q) (1, 0) (0, 1) (fun q => (polDiscs_drawn (-0.1) ![1, 1, 0] q).dual) [(0, 0), (1, 2)]

/-- Excitons that couple only to fields normal to the plane, which vanish here. -/
example (argsort : List ℝ → List ℕ) (hs : ∀ l, IsArgsort l (argsort l))
    (eigh : ∀ n, Matrix (Fin n) (Fin n) ℂ → Fin n → ℝ)
    (vecs : ∀ n, Matrix (Fin n) (Fin n) ℂ → Matrix (Fin n) (Fin n) ℂ) (he : EighPair eigh vecs)
    (argsortC : List ℂ → List ℕ) (hsC : ∀ l, IsArgsortRe l (argsortC l))
    (eig : ∀ N Q m : ℕ, Matrix (HIdx N Q m) (HIdx N Q m) ℂ → List ℂ) (hE : IsEig eig) :=
  C113_uncoupled argsort hs eigh vecs he argsortC hsC eig hE .tbt 2 (by norm_num) 0.5 1
    (photTwo 3 (some [[1e-3, 0], [2e-3, 1e-2]])) _ rfl 3 (polDiscs (-0.1) ![0, 0, 1]) (fun _ => ![0, 0, 1])
    (fun q => polDiscs_good 3 _ _ _ q) [(0, 0), (1, 2)] (by norm_num [photTwo])
    (fun q d => by
      fin_cases d
      · left; rfl
      · left; rfl
      · right; intro i n G; simp [photTwo])
    (fun i hi n hn => by
      have h2 : n < 2 := hn
      have h1 : i < 2 := by simpa using hi
      interval_cases i <;> interval_cases n <;> norm_num [photTwo])
    (fun q es h r hr z hz => lt_of_lt_of_le (by norm_num) (polDiscs_energy argsort hs eigh
      (fun n A hA => ⟨_, he n A hA⟩) _ _ _ q es h r hr z hz))

/-- Without losses and with weak fields all energies are real. -/
example (argsort : List ℝ → List ℕ) (hs : ∀ l, IsArgsort l (argsort l))
    (eigh : ∀ n, Matrix (Fin n) (Fin n) ℂ → Fin n → ℝ)
    (vecs : ∀ n, Matrix (Fin n) (Fin n) ℂ → Matrix (Fin n) (Fin n) ℂ) (he : EighPair eigh vecs)
    (argsortC : List ℂ → List ℕ) (hsC : ∀ l, IsArgsortRe l (argsortC l))
    (eig : ∀ N Q m : ℕ, Matrix (HIdx N Q m) (HIdx N Q m) ℂ → List ℂ) (hE : IsEig eig) :
    ∃ rs, polSim argsort eigh vecs argsortC eig .tbt 2 1 1 (photTwo 0.02 (some [[0, 0], [0, 0]])) 3
      (polDiscs 0 ![1, 1, 0]) [(0, 0), (1, 2)] = .ok rs ∧ ∀ r ∈ rs, ∀ z ∈ r, z.im = 0 ∧ 0 < z.re := by
  refine C113_real argsort hs eigh vecs he argsortC hsC eig hE .tbt 2 (by norm_num) 1 1
    (photTwo 0.02 (some [[0, 0], [0, 0]])) _ rfl 3 (polDiscs 0 ![1, 1, 0]) (fun _ => ![1, 1, 0])
    (fun q => polDiscs_good 0.02 _ _ _ q) [(0, 0), (1, 2)] (by norm_num [photTwo]) (by simp) (fun _ => rfl) 1.4
    (by norm_num) (polDiscs_energy argsort hs eigh (fun n A hA => ⟨_, he n A hA⟩) 0 ![1, 1, 0] [(0, 0), (1, 2)]) ?_
  intro i hi n hn
  have h2 : n < 2 := hn
  have h1 : i < 2 := by simpa using hi
  have hc : (photTwo 0.02 (some [[0, 0], [0, 0]])).gvec.length = 25 := polDiscs_count 0 0 0
  have hn2 : (photTwo 0.02 (some [[0, 0], [0, 0]])).numeig = 2 := rfl
  have hE' : ∀ (i n G : ℕ) (z : ℝ), ∑ d, ((√((![1, 1, 0] : Fin 3 → ℝ) d) : ℝ) : ℂ) *
      (photTwo 0.02 (some [[0, 0], [0, 0]])).eft i n z G d = 0.04 := by
    intro i n G z
    simp [photTwo, Fin.sum_univ_three]
    norm_num
  have hno : ‖(0.04 : ℂ)‖ = 0.04 := by
    rw [show (0.04 : ℂ) = ((0.04 : ℝ) : ℂ) by push_cast; norm_num, Complex.norm_real]
    norm_num
  simp only [hE', hno, hc, Finset.sum_const, Finset.card_range, Finset.card_univ, Fintype.card_fin, hn2]
  interval_cases i <;> interval_cases n <;> norm_num [photTwo]

/-- The same run after `compute_im=False`. -/
example (argsort : List ℝ → List ℕ) (eigh : ∀ n, Matrix (Fin n) (Fin n) ℂ → Fin n → ℝ)
    (vecs : ∀ n, Matrix (Fin n) (Fin n) ℂ → Matrix (Fin n) (Fin n) ℂ)
    (argsortC : List ℂ → List ℕ) (eig : ∀ N Q m : ℕ, Matrix (HIdx N Q m) (HIdx N Q m) ℂ → List ℂ) :
    polSim argsort eigh vecs argsortC eig .tbt 2 1 1 (photTwo 1 none) 3 (polDiscs 0 ![1, 1, 0]) [(0, 0), (1, 2)] =
      .error .typeError :=
  C113_no_losses argsort eigh vecs argsortC eig .tbt 2 (by norm_num) 1 1 _ rfl 3 _ (fun _ => resolved_square)
    (fun q => wellDrawn_real (polDiscs_drawn 0 ![1, 1, 0] q)) _ (by simp)

end Legume
