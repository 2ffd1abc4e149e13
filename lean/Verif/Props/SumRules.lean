import Verif.Lemmas.TraceDeriv
import Verif.Props.PweOrder
import Verif.Props.ExcBands
import Verif.Props.Supercell

/-! # C155: sum rules and vanishing frequencies -/
namespace Legume
open Spec Matrix
open scoped Real ComplexConjugate ComplexOrder

/-- Eigenvalues after the shift by the identity sum to the trace. -/
theorem isEigh_shift_sum {n : ℕ} {A V : Matrix (Fin n) (Fin n) ℂ} {w : Fin n → ℝ} (h : IsEigh (A + 1) w V) :
    ∑ m, ((w m : ℂ) - 1) = A.trace := by
  have := isEigh_trace_pow h 1
  simp only [pow_one, trace_add, trace_one, Fintype.card_fin] at this
  rw [Finset.sum_sub_distrib, ← this]
  simp

/-- The squares of all frequencies sum to the trace. -/
theorem solvePwe_sum_sq (argsort : List ℝ → List ℕ) (hs : ∀ l, IsArgsort l (argsort l)) {n : ℕ}
    {A V : Matrix (Fin n) (Fin n) ℂ} {w : Fin n → ℝ} (hA : A.PosSemidef) (h : IsEigh (A + 1) w V) (numeig : ℕ)
    (hn : n ≤ numeig) :
    (((solvePwe argsort (List.ofFn w) numeig).freq.map fun f => (2 * π * f) ^ 2).sum : ℝ) = A.trace.re := by
  have hw : ∀ i, 0 ≤ w i - 1 := by
    intro i
    have hA1 : A * V = V * diagonal fun i => ((w i : ℂ) - 1) := by
      have := h.eigen
      rw [add_mul, one_mul] at this
      rw [eq_sub_of_add_eq this]
      ext a b
      simp [mul_sub]
    have hd : V.conjTranspose * A * V = diagonal fun i => ((w i : ℂ) - 1) := by
      rw [mul_assoc, hA1, ← mul_assoc, h.unitary, one_mul]
    have hp := hA.conjTranspose_mul_mul_same V
    rw [hd] at hp
    have := hp.diag_nonneg (i := i)
    rw [diagonal_apply_eq, Complex.le_def] at this
    simpa using this.1
  rw [solvePwe_sortedFreqs argsort hs, List.take_of_length_le]
  · rw [((sortedFreqs_perm _).map _).sum_eq, List.map_map, List.map_ofFn, List.sum_ofFn, ← isEigh_shift_sum h]
    rw [Complex.re_sum]
    refine Finset.sum_congr rfl fun i _ => ?_
    simp only [Function.comp, freqOf, Complex.sub_re, Complex.ofReal_re, Complex.one_re]
    have : 2 * π * (√|w i - 1| / 2 / π) = √|w i - 1| := by field_simp
    rw [this, Real.sq_sqrt (abs_nonneg _), abs_of_nonneg (hw i)]
  · rw [(sortedFreqs_perm _).length_eq]
    simpa using hn

theorem pweMat_trace {n : ℕ} (k : R2) (g : Fin n → R2) (E : Matrix (Fin n) (Fin n) ℂ) :
    (pweMat .te k g E).trace = (pweMat .tm k g E).trace := by
  simp only [Matrix.trace, diag_apply, pweMat, of_apply]
  refine Finset.sum_congr rfl fun i _ => ?_
  congr 2
  rw [Real.mul_self_sqrt (by positivity)]
  ring

/-- **C155 (sum rule).** With as many bands as plane waves, or more, the squares of the frequencies of the two polarisations
have the same sum at every wave vector. -/
theorem C155_polarisations (argsort : List ℝ → List ℕ) (hs : ∀ l, IsArgsort l (argsort l))
    (eigh : ∀ n, Matrix (Fin n) (Fin n) ℂ → Fin n → ℝ) (he : GoodEigh eigh) (L : PweLayer) (a1 a2 : R2)
    (sh : List Drawn) (hD : Draws a1 a2 L.b1 L.b2 L.epsB L.epsAvg L.ecArea sh) (hsh : L.shapes = sh.map Drawn.shape)
    (hr : ∀ s ∈ L.shapes, RealShape s) (lo gmax : ℝ) (hlo : lo ≤ L.epsB ∧ ∀ s ∈ L.shapes, lo ≤ s.eps)
    (hpos : (L.gvec gmax).length * drawErr L.epsB L.ecArea sh < lo) (ks : List R2) (te tm : String)
    (hte : pyLower te = ['t', 'e']) (htm : pyLower tm = ['t', 'm']) (numeig : ℕ)
    (hn : (L.gvec gmax).length ≤ numeig) :
    ∃ fs fs', pweFreqs argsort eigh L gmax ks te numeig = .ok fs ∧ pweFreqs argsort eigh L gmax ks tm numeig = .ok fs' ∧
      fs.length = ks.length ∧ List.Forall₂ (fun f f' : List ℝ => f.length = (L.gvec gmax).length ∧
        f'.length = (L.gvec gmax).length ∧ (f.map (· ^ 2)).sum = (f'.map (· ^ 2)).sum) fs fs' := by
  obtain ⟨hi, hhi⟩ : ∃ hi, L.epsB ≤ hi ∧ ∀ s ∈ L.shapes, s.eps ≤ hi := by
    refine ⟨L.epsB + (L.shapes.map fun s => |s.eps| + |L.epsB|).sum, ?_, fun s hs => ?_⟩
    · exact le_add_of_nonneg_right (List.sum_nonneg fun x hx => by
        obtain ⟨s, -, rfl⟩ := List.mem_map.1 hx; positivity)
    · have h1 := List.single_le_sum (l := L.shapes.map fun s => |s.eps| + |L.epsB|) (fun x hx => by
        obtain ⟨s, -, rfl⟩ := List.mem_map.1 hx; positivity) _ (List.mem_map.2 ⟨s, hs, rfl⟩)
      have h2 := le_abs_self s.eps
      have h3 := neg_abs_le L.epsB
      linarith
  obtain ⟨-, hdet, hE⟩ := (C101_pwe L a1 a2 _ hD hsh hr lo hi hlo hhi gmax).2 hpos
  refine ⟨_, _, pweFreqs_ok argsort eigh L gmax hdet ks te .te hte numeig,
    pweFreqs_ok argsort eigh L gmax hdet ks tm .tm htm numeig, by simp, ?_⟩
  rw [List.forall₂_map_left_iff, List.forall₂_map_right_iff]
  refine List.forall₂_same.2 fun k _ => ?_
  have P := C36_psd .te k (L.gAt gmax) _ hE.posSemidef
  have P' := C36_psd .tm k (L.gAt gmax) _ hE.posSemidef
  obtain ⟨V, hV⟩ := he _ _ (P.1.add isHermitian_one)
  obtain ⟨V', hV'⟩ := he _ _ (P'.1.add isHermitian_one)
  refine ⟨by rw [solvePwe_length argsort hs, List.length_ofFn, min_eq_right hn],
    by rw [solvePwe_length argsort hs, List.length_ofFn, min_eq_right hn], ?_⟩
  have h1 := solvePwe_sum_sq argsort hs P hV numeig hn
  have h2 := solvePwe_sum_sq argsort hs P' hV' numeig hn
  rw [← pweMat_trace, ← h1] at h2
  simp only [mul_pow, List.sum_map_mul_left] at h2
  have : (2 : ℝ) ^ 2 * π ^ 2 ≠ 0 := by have := Real.pi_pos; positivity
  exact (mul_left_cancel₀ this h2).symm

theorem two_zeros {c : List ℝ} {i : ℕ} (h0 : 0 < c.length) (hi : i < c.length) (hne : i ≠ 0) (e0 : c[0] = 0)
    (e : c[i] = 0) : 2 ≤ c.count 0 := by
  cases c with
  | nil => exact absurd h0 (by simp)
  | cons x c =>
    cases i with
    | zero => exact absurd rfl hne
    | succ i =>
      simp only [List.getElem_cons_zero, List.getElem_cons_succ] at e0 e
      subst e0
      have : 0 < c.count 0 := List.count_pos_iff.2 (e ▸ List.getElem_mem _)
      rw [List.count_cons_self]
      omega

/-- **C155 (zero frequencies).** A frequency vanishes exactly if it is the first one and the opposite of the wave vector is
one of the plane waves. -/
theorem C155_zero (argsort : List ℝ → List ℕ) (hs : ∀ l, IsArgsort l (argsort l))
    (eigh : ∀ n, Matrix (Fin n) (Fin n) ℂ → Fin n → ℝ) (he : GoodEigh eigh) (L : PweLayer) (a1 a2 : R2)
    (sh : List Drawn) (hD : Draws a1 a2 L.b1 L.b2 L.epsB L.epsAvg L.ecArea sh) (hsh : L.shapes = sh.map Drawn.shape)
    (hr : ∀ s ∈ L.shapes, RealShape s) (lo hi gmax : ℝ) (hlo : lo ≤ L.epsB ∧ ∀ s ∈ L.shapes, lo ≤ s.eps)
    (hhi : L.epsB ≤ hi ∧ ∀ s ∈ L.shapes, s.eps ≤ hi)
    (hpos : (L.gvec gmax).length * drawErr L.epsB L.ecArea sh < lo) (ks : List R2) (pol : String)
    (hp : pyLower pol = ['t', 'e'] ∨ pyLower pol = ['t', 'm']) (numeig : ℕ) :
    ∃ fs, pweFreqs argsort eigh L gmax ks pol numeig = .ok fs ∧ List.Forall₂ (fun k f =>
      f.length = min numeig (L.gvec gmax).length ∧
      ∀ (i : ℕ) (h : i < f.length), f[i] = 0 ↔ i = 0 ∧ (-k.1, -k.2) ∈ L.gvec gmax) ks fs := by
  obtain ⟨p, hp'⟩ : ∃ p : Pol, pyLower pol = match p with | .te => ['t', 'e'] | .tm => ['t', 'm'] := by
    rcases hp with hp | hp
    exacts [⟨.te, hp⟩, ⟨.tm, hp⟩]
  obtain ⟨fs, h1, h2⟩ := C102_between argsort hs eigh he L a1 a2 sh hD hsh hr lo hi gmax _ hlo hhi rfl hpos ks pol p hp' numeig
  refine ⟨fs, h1, h2.imp fun k f hf => ?_⟩
  obtain ⟨c, hcs, hcp, ha, hb⟩ := hf
  set δ := (L.gvec gmax).length * drawErr L.epsB L.ecArea sh with hδ
  have hδ0 : 0 ≤ δ := mul_nonneg (by positivity) (drawErr_nonneg a1 a2 _ _ _ _ _ _ hD)
  have hpi := Real.pi_pos
  have hu : 0 < √(hi + δ) := Real.sqrt_pos.2 (by linarith [hlo.1, hhi.1])
  have hl : 0 < √(lo - δ) := Real.sqrt_pos.2 (by linarith)
  have hcl : c.length = (L.gvec gmax).length := by rw [hcp.length_eq, List.length_map]
  have hlen : f.length = min numeig (L.gvec gmax).length := by
    rw [← ha.length_eq, List.length_take, List.length_map, hcl]
  refine ⟨hlen, fun i h => ?_⟩
  have hic : i < c.length := by rw [hcl]; omega
  have hc0 : ∀ x ∈ c, 0 ≤ x := by
    intro x hx
    obtain ⟨g, -, rfl⟩ := List.mem_map.1 (hcp.mem_iff.1 hx)
    exact Real.sqrt_nonneg _
  have key : f[i] = 0 ↔ c[i] = 0 := by
    have e1 := ha.get (i := i) (by rw [ha.length_eq]; exact h) h
    have e2 := hb.get (i := i) h (by rw [← hb.length_eq]; exact h)
    simp only [List.get_eq_getElem, List.getElem_take, List.getElem_map] at e1 e2
    have hcn := hc0 _ (List.getElem_mem hic)
    constructor
    · intro e
      rw [e] at e1
      by_contra hne
      have : 0 < c[i] / (2 * π * √(hi + δ)) := div_pos (lt_of_le_of_ne hcn (Ne.symm hne)) (by positivity)
      linarith
    · intro e
      rw [e, zero_div] at e1 e2
      exact le_antisymm e2 e1
  rw [key]
  have hz : ∀ g : R2, √((k.1 + g.1) ^ 2 + (k.2 + g.2) ^ 2) = 0 ↔ g = (-k.1, -k.2) := by
    intro g
    rw [Real.sqrt_eq_zero (by positivity)]
    constructor
    · intro e
      have e1 : k.1 + g.1 = 0 := by nlinarith [sq_nonneg (k.1 + g.1), sq_nonneg (k.2 + g.2)]
      have e2 : k.2 + g.2 = 0 := by nlinarith [sq_nonneg (k.1 + g.1), sq_nonneg (k.2 + g.2)]
      exact Prod.ext (by simp; linarith) (by simp; linarith)
    · rintro rfl
      simp
  have hmem : (0 : ℝ) ∈ c ↔ (-k.1, -k.2) ∈ L.gvec gmax := by
    rw [hcp.mem_iff, List.mem_map]
    constructor
    · rintro ⟨g, hg, e⟩
      rwa [← (hz g).1 e]
    · exact fun hg => ⟨_, hg, (hz _).2 rfl⟩
  have hcount : c.count 0 ≤ 1 := by
    rw [hcp.count_eq, List.count_eq_countP, List.countP_map]
    have hnd : (L.gvec gmax).Nodup := by
      obtain ⟨ind, hinj, hind⟩ := pweG_index L gmax
      rw [List.nodup_iff_injective_get]
      intro I J hIJ
      apply hinj
      have e : gOf L.b1 L.b2 (ind I) = gOf L.b1 L.b2 (ind J) := by
        rw [← hind, ← hind]; exact hIJ
      by_contra hne
      refine resolved_isG0 hD.resolved (ind I - ind J) (sub_ne_zero.2 hne) ?_
      have : latVec L.b1 L.b2 (ind I - ind J) = (0, 0) := by
        simp only [gOf, Prod.mk.injEq] at e
        simp only [latVec, Prod.fst_sub, Prod.snd_sub]
        push_cast
        ext
        · simp; linarith [e.1]
        · simp; linarith [e.2]
      rw [this]
      simp [isG0]; norm_num
    have : (L.gvec gmax).countP ((fun x => x == (0 : ℝ)) ∘ fun g : R2 => √((k.1 + g.1) ^ 2 + (k.2 + g.2) ^ 2)) =
        (L.gvec gmax).count ((-k.1, -k.2) : R2) := by
      rw [List.count_eq_countP]
      refine List.countP_congr fun g _ => ?_
      simp only [Function.comp, beq_iff_eq]
      exact hz g
    rw [this]
    exact List.nodup_iff_count_le_one.1 hnd _
  constructor
  · intro e
    refine ⟨?_, hmem.1 (e ▸ List.getElem_mem hic)⟩
    by_contra hi0
    have h0c : 0 < c.length := by omega
    have e0 : c[0] = 0 := le_antisymm (by
      rw [← e]
      exact List.pairwise_iff_getElem.1 hcs 0 i h0c hic (by omega)) (hc0 _ (List.getElem_mem h0c))
    have hle := two_zeros h0c hic hi0 e0 e
    omega
  · rintro ⟨rfl, hg⟩
    obtain ⟨j, hj, e⟩ := List.getElem_of_mem (hmem.2 hg)
    refine le_antisymm ?_ (hc0 _ (List.getElem_mem hic))
    rcases Nat.eq_zero_or_pos j with h0 | h0
    · subst h0; exact e.le
    · rw [← e]; exact List.pairwise_iff_getElem.1 hcs 0 j hic hj h0

/-- **C155 (excitons).** With as many energies as plane waves, or more, they sum to the kinetic energies
`hbar² |k + G|² / (2 M a² e)` plus, for every plane wave, the energy and loss of the free exciton and the mean of the
potential: `V` times the filled fraction of the cell, raised by `|V|` when `V` is negative. -/
theorem C155_exciton (argsort : List ℝ → List ℕ) (hs : ∀ l, IsArgsort l (argsort l))
    (eigh : ∀ n, Matrix (Fin n) (Fin n) ℂ → Fin n → ℝ) (he : GoodEigh eigh) (W : ExcWell) (hb : Resolved W.b1 W.b2)
    (hr : ∀ s ∈ W.shapes, RealFt s) (hA : 0 < W.ecArea) (hne : W.shapes ≠ [])
    (hone : W.shapes.length ≤ 1 ∨ W.ecArea = 1) (hpos : ∀ s ∈ W.shapes, 0 < (s (0, 0)).re)
    (hfill : (W.shapes.map fun s => (s (0, 0)).re).sum ≤ W.ecArea) (t : TruncG) (gmax : ℝ) (hg : 0 ≤ gmax)
    (ks : List R2) (numeig : ℕ) (hn : (W.gvec t gmax).length ≤ numeig) :
    ∃ rs, excSim argsort eigh W t gmax ks numeig = .ok rs ∧ List.Forall₂ (fun k r =>
      r.2.length = (W.gvec t gmax).length ∧
      r.2.sum = ((((W.gvec t gmax).map fun g =>
          W.hbar ^ 2 * ((k.1 + g.1) ^ 2 + (k.2 + g.2) ^ 2) / (2 * W.M * W.a ^ 2 * W.e)).sum : ℝ) : ℂ) +
        (W.gvec t gmax).length * (W.E0 + Complex.I * W.loss +
          ((W.V * ((W.shapes.map fun s => (s (0, 0)).re).sum / W.ecArea) + (if W.V < 0 then |W.V| else 0) : ℝ) : ℂ))) ks rs := by
  refine ⟨_, excSim_ok argsort eigh W hb hr t gmax hg ks numeig, ?_⟩
  rw [List.forall₂_map_right_iff]
  refine List.forall₂_same.2 fun k _ => ?_
  have H := excWell_ham_hermitian W hr t gmax k
  obtain ⟨V, hV⟩ := he _ _ (H.add isHermitian_one)
  set w := eigh _ (W.ham t gmax k + 1) with hw
  have e := excSelect_take argsort hs (List.ofFn w) _ (List.mergeSort_perm _ _) (List.pairwise_mergeSort' (· ≤ ·) _) numeig
  rw [List.take_of_length_le (by simpa using hn)] at e
  have him : ∀ s ∈ W.shapes, (s (0, 0)).im = 0 := by
    intro s hs
    have := congrArg Complex.im (hr s hs (0, 0))
    simp only [neg_zero, Complex.conj_im] at this
    linarith
  have hft : W.ft (latVec W.b1 W.b2 0) =
      ((W.V * ((W.shapes.map fun s => (s (0, 0)).re).sum / W.ecArea) + (if W.V < 0 then |W.V| else 0) : ℝ) : ℂ) := by
    unfold ExcWell.ft
    rw [excPot_sum W.b1 W.b2 hb W.ecArea W.V hA W.shapes hne hone him hpos hfill, if_pos rfl, latVec_zero]
    have hsum : (W.shapes.map fun s => s 0).sum = (((W.shapes.map fun s => (s (0, 0)).re).sum : ℝ) : ℂ) := by
      clear hfill hpos hone hne hr e
      generalize W.shapes = l at *
      induction l with
      | nil => simp
      | cons s l ih =>
        simp only [List.map_cons, List.sum_cons, Complex.ofReal_add]
        rw [ih fun t ht => him t (List.mem_cons_of_mem _ ht)]
        congr 1
        exact Complex.ext rfl (him s List.mem_cons_self)
    rw [hsum]
    by_cases hv : W.V < 0
    · rw [if_pos hv, max_eq_right (by linarith), abs_of_neg hv]; push_cast; ring
    · rw [if_neg hv, max_eq_left (by linarith)]; push_cast; ring
  simp only [excRes]
  refine ⟨by rw [List.length_map, e]; simp, ?_⟩
  have hmap : ((excSelect argsort (List.ofFn w) numeig).2.map fun (x : ℝ) => ((x : ℂ) + W.E0 + Complex.I * W.loss)).Perm
      (List.ofFn fun i => ((w i : ℂ) - 1) + W.E0 + Complex.I * W.loss) := by
    rw [e]
    refine ((List.mergeSort_perm _ _).map _).trans (List.Perm.of_eq ?_)
    rw [List.map_map, List.map_ofFn]
    congr 1
    funext i
    simp
  rw [hmap.sum_eq, List.sum_ofFn]
  simp only [add_assoc]
  rw [Finset.sum_add_distrib, isEigh_shift_sum hV, Finset.sum_const, Finset.card_univ, Fintype.card_fin, nsmul_eq_mul]
  have htr : (W.ham t gmax k).trace = ((((W.gvec t gmax).map fun g =>
      W.hbar ^ 2 * ((k.1 + g.1) ^ 2 + (k.2 + g.2) ^ 2) / (2 * W.M * W.a ^ 2 * W.e)).sum : ℝ) : ℂ) +
      (W.gvec t gmax).length * W.ft (latVec W.b1 W.b2 0) := by
    simp only [Matrix.trace, diag_apply, excWell_ham_apply, if_true, sub_self]
    rw [Finset.sum_add_distrib, Finset.sum_const, Finset.card_univ, Fintype.card_fin, nsmul_eq_mul]
    congr 1
    rw [← Complex.ofReal_sum]
    congr 1
    rw [← List.sum_ofFn]
    congr 1
    apply List.ext_getElem
    · simp
    · intro i h1 h2
      rw [List.getElem_ofFn, List.getElem_map, ← excWell_gvec, excKin_eq]
      rfl
  rw [htr, hft]
  ring

/-- Holes in a square lattice, 49 plane waves: the sums agree, and at `Gamma` the first frequency alone vanishes. -/
example (argsort : List ℝ → List ℕ) (hs : ∀ l, IsArgsort l (argsort l))
    (eigh : ∀ n, Matrix (Fin n) (Fin n) ℂ → Fin n → ℝ) (he : GoodEigh eigh) (ks : List R2) :
    (∃ fs fs', pweFreqs argsort eigh holesLayer 3 ks "TE" 49 = .ok fs ∧ pweFreqs argsort eigh holesLayer 3 ks "tm" 49 = .ok fs' ∧
      fs.length = ks.length ∧ List.Forall₂ (fun f f' : List ℝ => f.length = 49 ∧ f'.length = 49 ∧
        (f.map (· ^ 2)).sum = (f'.map (· ^ 2)).sum) fs fs') ∧
    ∃ f, pweFreqs argsort eigh holesLayer 3 [(0, 0)] "te" 8 = .ok [f] ∧ f.length = 8 ∧
      ∀ (i : ℕ) (h : i < f.length), f[i] = 0 ↔ i = 0 := by
  have hc : (holesLayer.gvec 3).length = 49 := by have := holes_count 3; norm_num at this; exact this
  have herr : (holesLayer.gvec 3).length * drawErr holesLayer.epsB holesLayer.ecArea [drawnCircle 1 ⟨0, 0, 0.2⟩] < 1 :=
    holes_err _ (by rw [hc]; norm_num)
  constructor
  · have := C155_polarisations argsort hs eigh he holesLayer (1, 0) (0, 1) [drawnCircle 1 ⟨0, 0, 0.2⟩] square_holes rfl
      holes_real 1 3 (by simp [holesLayer]) herr ks "TE" "tm" (by decide) (by decide) 49 hc.le
    rwa [hc] at this
  · obtain ⟨fs, h1, h2⟩ := C155_zero argsort hs eigh he holesLayer (1, 0) (0, 1) [drawnCircle 1 ⟨0, 0, 0.2⟩] square_holes rfl
      holes_real 1 12 3 (by simp [holesLayer]) (by simp [holesLayer]) herr [(0, 0)] "te" (Or.inl (by decide)) 8
    rw [List.forall₂_cons_left_iff] at h2
    obtain ⟨f, l, ⟨hf, hz⟩, hl, rfl⟩ := h2
    rw [List.forall₂_nil_left_iff] at hl
    subst hl
    refine ⟨f, h1, by rw [hf, hc]; rfl, fun i h => (hz i h).trans ⟨fun q => q.1, fun q => ⟨q, ?_⟩⟩⟩
    simp only [PweLayer.gvec, List.mem_map]
    refine ⟨(0, 0), ?_, by simp [gOf]⟩
    rw [mem_tbtInds]
    simp

/-- Wells of depth 5 meV in discs of radius 0.2. -/
example (argsort : List ℝ → List ℕ) (hs : ∀ l, IsArgsort l (argsort l))
    (eigh : ∀ n, Matrix (Fin n) (Fin n) ℂ → Fin n → ℝ) (he : GoodEigh eigh) (x y : ℝ) (t : TruncG) (ks : List R2) (numeig : ℕ)
    (hn : ((wellDisc x y (-0.005)).gvec t 2).length ≤ numeig) :
    ∃ rs f, |f - π * 0.2 ^ 2| ≤ 1e-11 ∧ excSim argsort eigh (wellDisc x y (-0.005)) t 2 ks numeig = .ok rs ∧ List.Forall₂ (fun k r =>
      r.2.sum.im = -0.1 * (((wellDisc x y (-0.005)).gvec t 2).length : ℝ) ∧
      r.2.sum.re = (((wellDisc x y (-0.005)).gvec t 2).map fun g =>
          (2 : ℝ) ^ 2 * ((k.1 + g.1) ^ 2 + (k.2 + g.2) ^ 2) / (2 * 1 * 1e-7 ^ 2 * 3)).sum +
        ((wellDisc x y (-0.005)).gvec t 2).length * (1.5 + 0.005 * (1 - f))) ks rs := by
  have hpi := Real.pi_pos
  have hpi4 := Real.pi_lt_four
  have hf : |(Circle.ft besselJ1 ⟨x, y, 0.2⟩ (0, 0)).re - π * 0.2 ^ 2| ≤ 1e-11 := by
    obtain ⟨-, m2, -, m4⟩ := C101_circle 1 ⟨x, y, 0.2⟩ (by norm_num)
    have h := (Complex.abs_re_le_norm _).trans (m4 0)
    rw [regionFourier_zero, m2, Complex.sub_re, Complex.ofReal_re] at h
    refine h.trans ?_
    simp only [drawnCircle]
    norm_num
    linarith
  have hf' := abs_le.1 hf
  obtain ⟨rs, h1, h2⟩ := C155_exciton argsort hs eigh he (wellDisc x y (-0.005)) resolved_square
    (wellDrawn_real (wellDisc_drawn x y _)) (by simp [wellDisc]) (by simp [wellDisc]) (Or.inr rfl)
    (by simp only [wellDisc, List.mem_singleton, forall_eq]; have := Real.pi_gt_three; norm_num at hf' ⊢; linarith)
    (by simp only [wellDisc, List.map_cons, List.map_nil, List.sum_cons, List.sum_nil]; norm_num at hf' ⊢; linarith)
    t 2 (by norm_num) ks numeig hn
  refine ⟨rs, _, hf, h1, h2.imp fun k r hr => ?_⟩
  rw [hr.2]
  have hs0 : ((wellDisc x y (-0.005)).shapes.map fun s => (s (0, 0)).re).sum =
      (Circle.ft besselJ1 ⟨x, y, 0.2⟩ (0, 0)).re := by
    simp only [wellDisc, List.map_cons, List.map_nil, List.sum_cons, List.sum_nil, add_zero]
  have habs : |(-0.005 : ℝ)| = 0.005 := by norm_num
  rw [hs0]
  generalize ((wellDisc x y (-0.005)).gvec t 2) = G
  simp only [wellDisc, habs]
  rw [if_pos (by norm_num)]
  constructor
  · simp; ring
  · simp; ring_nf; simp

end Legume
