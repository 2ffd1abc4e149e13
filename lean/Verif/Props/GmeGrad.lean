import Verif.Model.GmeGrad
import Verif.Props.ExcGrad
import Verif.Props.MatrixElements

/-! # C145: gradients of the frequencies of `GuidedModeExp` with fixed guided modes -/
namespace Legume

open Matrix Spec Finset Filter Topology
open scoped ComplexConjugate Real

/-! ### Selection of modes -/

/-- The order of different keys is unique. -/
theorem argsort_unique {keys : List ℝ} {idx : List ℕ} (hp : idx.Perm (List.range keys.length))
    (hlt : (idx.map fun (i : ℕ) => keys.getD i 0).Pairwise (· < ·)) {idx' : List ℕ} (h : IsArgsort keys idx') : idx' = idx := by
  have hpp : idx'.Perm idx := h.1.trans hp.symm
  have hinj : ∀ a ∈ idx, ∀ b ∈ idx, keys.getD a 0 = keys.getD b 0 → a = b := by
    have hnd : (idx.map fun (i : ℕ) => keys.getD i 0).Nodup := hlt.imp ne_of_lt
    exact fun a ha b hb hab => List.inj_on_of_nodup_map hnd ha hb hab
  have hval : idx'.map (fun (i : ℕ) => keys.getD i 0) = idx.map fun (i : ℕ) => keys.getD i 0 :=
    (hpp.map _).eq_of_pairwise (fun _ _ _ _ => le_antisymm) h.2 (hlt.imp le_of_lt)
  apply List.ext_getElem hpp.length_eq
  intro i h1 h2
  refine hinj _ (hpp.mem_iff.1 (List.getElem_mem h1)) _ (List.getElem_mem h2) ?_
  have := congrArg (fun l => l[i]?) hval
  simpa [h1, h2] using this

/-- Keys that are continuous and different at `t0` are sorted alike near `t0`, up to the renumbering `r` of the values. -/
theorem argsort_follow {N : ℕ} (argsort : List ℝ → List ℕ) (hs : ∀ l, IsArgsort l (argsort l)) (φ : ℝ → ℝ) (hφ : Continuous φ)
    (W : ℝ → Fin N → ℝ) (t0 : ℝ) (ω : Fin N → ℝ → ℝ) (h0 : ∀ n, ω n t0 = W t0 n) (hc : ∀ n, ContinuousAt (ω n) t0)
    (hp : ∀ᶠ t in 𝓝 t0, (List.ofFn fun n => ω n t).Perm (List.ofFn (W t)))
    (hinj : Function.Injective fun n => φ (W t0 n)) :
    ∀ᶠ t in 𝓝 t0, ∃ r : ℕ → ℕ, (∀ i (h : i < N), ∃ h' : r i < N, W t ⟨r i, h'⟩ = ω ⟨i, h⟩ t) ∧
      argsort ((List.ofFn (W t)).map φ) = (argsort ((List.ofFn (W t0)).map φ)).map r := by
  have getD : ∀ (w : Fin N → ℝ) (m : ℕ) (hm : m < N), ((List.ofFn w).map φ).getD m 0 = φ (w ⟨m, hm⟩) := by
    intro w m hm
    rw [List.getD_eq_getElem?_getD, List.getElem?_eq_getElem (by simpa using hm), Option.getD_some]
    simp
  set sel := argsort ((List.ofFn (W t0)).map φ) with hsel
  obtain ⟨s1, s2⟩ := hs ((List.ofFn (W t0)).map φ)
  rw [List.length_map, List.length_ofFn] at s1
  rw [← hsel] at s1 s2
  have hlt : ∀ i ∈ sel, i < N := fun i hi => List.mem_range.1 (s1.mem_iff.1 hi)
  have hnd : sel.Nodup := s1.nodup_iff.2 List.nodup_range
  have hord : ∀ᶠ t in 𝓝 t0, ∀ m n, φ (W t0 m) < φ (W t0 n) → φ (ω m t) < φ (ω n t) := by
    rw [eventually_all]
    intro m
    rw [eventually_all]
    intro n
    by_cases hmn : φ (W t0 m) < φ (W t0 n)
    · have h := (hφ.continuousAt.comp (hc m)).eventually_lt (hφ.continuousAt.comp (hc n))
        (by simpa only [Function.comp, h0] using hmn)
      filter_upwards [h] with t ht _ using ht
    · exact Eventually.of_forall fun t h => absurd h hmn
  filter_upwards [hp, hord] with t ht1 ht2
  have hex : ∀ n : Fin N, ∃ m : Fin N, W t m = ω n t := by
    intro n
    have : ω n t ∈ List.ofFn (W t) := ht1.mem_iff.1 (by simp [List.mem_ofFn])
    simpa [List.mem_ofFn] using this
  choose ρ hρ using hex
  have hρinj : Function.Injective ρ := by
    intro m n e
    by_contra hne
    have hw : φ (ω m t) = φ (ω n t) := by rw [← hρ m, ← hρ n, e]
    rcases lt_or_gt_of_ne (fun h => hne (hinj h) : φ (W t0 m) ≠ φ (W t0 n)) with h | h
    · exact absurd hw (ht2 _ _ h).ne
    · exact absurd hw (ht2 _ _ h).ne'
  refine ⟨fun i => if h : i < N then (ρ ⟨i, h⟩ : ℕ) else 0, fun i h => ?_, ?_⟩
  · refine ⟨by simp only [dif_pos h]; exact (ρ ⟨i, h⟩).2, ?_⟩
    simp only [dif_pos h]
    exact hρ _
  · refine argsort_unique ?_ ?_ (hs _)
    · rw [List.length_map, List.length_ofFn]
      refine (s1.map _).trans ?_
      refine (List.perm_ext_iff_of_nodup ?_ List.nodup_range).2 ?_
      · refine List.Nodup.map_on ?_ List.nodup_range
        intro a ha b hb hab
        have ha := List.mem_range.1 ha
        have hb := List.mem_range.1 hb
        rw [dif_pos ha, dif_pos hb] at hab
        have := hρinj (Fin.ext hab)
        simpa using this
      · intro m
        rw [List.mem_range, List.mem_map]
        constructor
        · rintro ⟨i, hi, rfl⟩
          rw [dif_pos (List.mem_range.1 hi)]
          exact (ρ _).2
        · intro hm
          obtain ⟨n, hn⟩ := (Finite.injective_iff_surjective.1 hρinj) ⟨m, hm⟩
          refine ⟨n, List.mem_range.2 n.2, ?_⟩
          rw [dif_pos n.2]
          exact congrArg Fin.val hn
    · rw [List.map_map, List.pairwise_map]
      rw [List.pairwise_map] at s2
      have s3 := s2.and hnd
      refine List.pairwise_iff_forall_sublist.2 ?_
      intro a b hab
      obtain ⟨hle, hne⟩ := List.pairwise_iff_forall_sublist.1 s3 hab
      have ha : a < N := hlt a (hab.subset List.mem_cons_self)
      have hb : b < N := hlt b (hab.subset (List.mem_cons_of_mem _ List.mem_cons_self))
      rw [getD _ _ ha, getD _ _ hb] at hle
      simp only [Function.comp, dif_pos ha, dif_pos hb]
      rw [getD _ _ (ρ ⟨a, ha⟩).2, getD _ _ (ρ ⟨b, hb⟩).2]
      change φ (W t (ρ _)) < φ (W t (ρ _))
      rw [hρ, hρ]
      refine ht2 _ _ (lt_of_le_of_ne hle fun e => hne ?_)
      have := hinj e
      simpa using this

/-- If the distances of the frequencies from `eig_sigma` are all different, each returned frequency follows one eigenvalue. -/
theorem modes_follow {N : ℕ} (argsort : List ℝ → List ℕ) (hs : ∀ l, IsArgsort l (argsort l))
    (W : ℝ → Fin N → ℝ) (t0 : ℝ) (ω : Fin N → ℝ → ℝ) (h0 : ∀ n, ω n t0 = W t0 n) (hc : ∀ n, ContinuousAt (ω n) t0)
    (hp : ∀ᶠ t in 𝓝 t0, (List.ofFn fun n => ω n t).Perm (List.ofFn (W t))) (sigma : ℝ)
    (hinj : Function.Injective fun n => |freqOf (W t0 n) - sigma|) (numeig : ℕ) :
    ∀ᶠ t in 𝓝 t0, ((selectModes argsort ((List.ofFn (W t)).map freqOf) sigma numeig).map fun (i : ℕ) =>
        ((List.ofFn (W t)).map freqOf).getD i 0) =
      (selectModes argsort ((List.ofFn (W t0)).map freqOf) sigma numeig).map fun (i : ℕ) =>
        if h : i < N then freqOf (ω ⟨i, h⟩ t) else 0 := by
  have hfc : Continuous freqOf := by
    unfold freqOf
    exact (((continuous_id.sub continuous_const).abs.sqrt).div_const 2).div_const π
  set near0 := findNearest argsort ((List.ofFn (W t0)).map freqOf) sigma numeig with hnear0
  have hn0 : ∀ i ∈ near0, i < N := by
    intro i hi
    have h1 := (hs ((((List.ofFn (W t0)).map freqOf)).map fun x => |x - sigma|)).1.mem_iff.1 (List.mem_of_mem_take hi)
    simpa using h1
  have hn0nd : near0.Nodup := by
    refine List.Nodup.sublist (List.take_sublist _ _) ?_
    exact (hs _).1.nodup_iff.2 List.nodup_range
  set ω' : Fin near0.length → ℝ → ℝ := fun j => ω ⟨near0[j], hn0 _ (List.getElem_mem j.2)⟩ with hω'
  have hinj2 : Function.Injective fun n => freqOf (W t0 n) := fun a b h => hinj (by simp only at h ⊢; rw [h])
  have f1 := argsort_follow argsort hs (fun x => |freqOf x - sigma|) ((hfc.sub continuous_const).abs) W t0 ω h0 hc hp hinj
  have f2 := argsort_follow argsort hs freqOf hfc (fun t j => ω' j t) t0 ω' (fun _ => rfl) (fun j => hc _)
    (Eventually.of_forall fun t => List.Perm.refl _) (by
      intro a b hab
      simp only [ω', h0] at hab
      have e1 := hinj2 hab
      have e2 : near0[a] = near0[b] := congrArg Fin.val e1
      exact Fin.ext ((List.Nodup.getElem_inj_iff hn0nd).1 e2))
  have getD : ∀ (w : Fin N → ℝ) (m : ℕ) (hm : m < N), ((List.ofFn w).map freqOf).getD m 0 = freqOf (w ⟨m, hm⟩) :=
    ofFn_map_getD
  have getD' : ∀ (w : Fin near0.length → ℝ) (m : ℕ) (hm : m < near0.length),
      ((List.ofFn w).map freqOf).getD m 0 = freqOf (w ⟨m, hm⟩) := ofFn_map_getD
  have hL0 : (near0.map fun (i : ℕ) => ((List.ofFn (W t0)).map freqOf).getD i 0) = (List.ofFn fun j => ω' j t0).map freqOf := by
    apply List.ext_getElem
    · simp
    · intro i h1 h2
      have hi : i < near0.length := by simpa using h1
      rw [List.getElem_map, getD _ _ (hn0 _ (List.getElem_mem hi)), List.getElem_map, List.getElem_ofFn]
      simp only [ω', h0]
      rfl
  filter_upwards [f1, f2] with t ht1 ht2
  obtain ⟨r, hr, hsel⟩ := ht1
  obtain ⟨r', hr', hsel'⟩ := ht2
  have hnear : findNearest argsort ((List.ofFn (W t)).map freqOf) sigma numeig = near0.map r := by
    have hpt : ∀ l : List ℕ, pyTake l (numeig : ℤ) = l.take numeig := fun l => by simp [pyTake]
    simp only [hnear0, findNearest, List.map_map, hpt]
    rw [List.map_take]
    exact congrArg (List.take numeig) hsel
  have hLt : ((near0.map r).map fun (i : ℕ) => ((List.ofFn (W t)).map freqOf).getD i 0) =
      (List.ofFn fun j => ω' j t).map freqOf := by
    apply List.ext_getElem
    · simp
    · intro i h1 h2
      have hi : i < near0.length := by simpa using h1
      obtain ⟨b1, b2⟩ := hr _ (hn0 _ (List.getElem_mem hi))
      rw [List.getElem_map, List.getElem_map, getD _ _ b1, b2, List.getElem_map, List.getElem_ofFn]
      rfl
  simp only [selectModes, hnear, ← hnear0]
  rw [hL0, hLt, hsel', List.map_map, List.map_map, List.map_map]
  have hmem : ∀ i ∈ argsort ((List.ofFn fun j => ω' j t0).map freqOf), i < near0.length := by
    intro i hi
    have := (hs ((List.ofFn fun j => ω' j t0).map freqOf)).1.mem_iff.1 hi
    simpa using this
  refine List.map_congr_left fun i hi => ?_
  have hi' := hmem i hi
  obtain ⟨b1, b2⟩ := hr' i hi'
  simp only [Function.comp]
  have e1 : (near0.map r).getD (r' i) 0 = r near0[r' i] := by
    rw [List.getD_eq_getElem?_getD, List.getElem?_eq_getElem (by simpa using b1), Option.getD_some, List.getElem_map]
  have e2 : near0.getD i 0 = near0[i] := by
    rw [List.getD_eq_getElem?_getD, List.getElem?_eq_getElem hi', Option.getD_some]
  obtain ⟨d1, d2⟩ := hr _ (hn0 _ (List.getElem_mem b1))
  have e3 : (if h : near0.getD i 0 < N then freqOf (ω ⟨near0.getD i 0, h⟩ t) else 0) =
      freqOf (ω ⟨near0[i], hn0 _ (List.getElem_mem hi')⟩ t) := by
    simp only [e2]
    rw [dif_pos (hn0 _ (List.getElem_mem hi'))]
  rw [e1, getD _ _ d1, d2]
  exact (congrArg freqOf b2).trans e3.symm

/-! ### Elements of the matrix as linear functions of the inverse permittivities -/

/-- A function of the `l`-th entries of two lists. -/
def zipAt {X Y : Type*} (h : X → Y → ℂ) (st : List X) (ms : List Y) (l : ℕ) : ℂ :=
  match st[l]?, ms[l]? with
  | some s, some m => h s m
  | _, _ => 0

theorem zip_sum {X Y : Type*} (h : X → Y → ℂ) : ∀ {L : ℕ} (st : List X) (ms : List Y) (f : Fin L → ℂ),
    (((st.zip (List.ofFn f)).zip ms).map fun x => x.1.2 * h x.1.1 x.2).sum =
      ∑ l : Fin L, f l * zipAt h st ms l := by
  intro L
  induction L with
  | zero => intro st ms f; simp
  | succ L ih =>
    intro st ms f
    cases st with
    | nil => simp [zipAt]
    | cons s st =>
      cases ms with
      | nil => simp [zipAt]
      | cons m ms =>
        rw [List.ofFn_succ, Fin.sum_univ_succ]
        simp only [List.zip_cons_cons, List.map_cons, List.sum_cons, ih st ms (fun i => f i.succ)]
        simp [zipAt]

theorem gmeElem_linear (ij : LPos → ℂ → ℂ) (stack : List (LPos × ℝ)) (s t : GmeState) (L : ℕ) :
    ∃ c : Fin L → ℂ, ∀ f : Fin L → ℂ, gmeElem ij stack (List.ofFn f) s t = ∑ l, f l * c l := by
  have key : ∀ (h : LPos × ℝ → ModeL × ModeL → ℂ) (z : ℂ) (e : List LayPair → ℂ), (∀ ls, e ls =
      (ls.map fun l => l.einv * h (l.pos, l.eps) (l.m1, l.m2)).sum * z) →
      ∃ c : Fin L → ℂ, ∀ f : Fin L → ℂ, e (layPairs stack (List.ofFn f) s t) = ∑ l, f l * c l := by
    intro h z e he
    refine ⟨fun l => zipAt h stack (s.layers.zip t.layers) l * z, fun f => ?_⟩
    rw [he, layPairs, List.map_map]
    have := zip_sum h stack (s.layers.zip t.layers) f
    simp only [Function.comp]
    refine Eq.trans (congrArg (· * z) this) ?_
    rw [sum_mul]
    exact sum_congr rfl fun l _ => mul_assoc _ _ _
  unfold gmeElem
  cases s.pol <;> cases t.pol <;> simp only
  · refine key (fun a m => (a.2 : ℂ) ^ 2 *
      (conj m.1.A * m.2.A * ij a.1 (m.2.x - conj m.1.x) + conj m.1.B * m.2.B * ij a.1 (-m.2.x + conj m.1.x) +
       conj m.1.A * m.2.B * ij a.1 (-m.2.x - conj m.1.x) + conj m.1.B * m.2.A * ij a.1 (m.2.x + conj m.1.x)))
      ((s.om : ℂ) ^ 2 * (t.om : ℂ) ^ 2 * (dot2 s.q t.q : ℝ)) (fun ls => matTeTe ij ls s.om t.om (dot2 s.q t.q)) fun ls => ?_
    simp only [matTeTe, mul_assoc]
  · refine key (fun a m => Complex.I * a.2 * m.2.x *
      (-(conj m.1.A * m.2.A) * ij a.1 (m.2.x - conj m.1.x) + conj m.1.B * m.2.B * ij a.1 (-m.2.x + conj m.1.x) +
       conj m.1.A * m.2.B * ij a.1 (-m.2.x - conj m.1.x) - conj m.1.B * m.2.A * ij a.1 (m.2.x + conj m.1.x)))
      ((s.om : ℂ) ^ 2 * (dot2 t.p s.q : ℝ)) (fun ls => matTeTm ij ls s.om (dot2 t.p s.q)) fun ls => ?_
    simp only [matTeTm]
    rw [mul_assoc]
    congr 2
    refine List.map_congr_left fun l _ => ?_
    ring
  · refine key (fun a m => Complex.I * a.2 * conj m.1.x *
      (conj m.1.A * m.2.A * ij a.1 (m.2.x - conj m.1.x) - conj m.1.B * m.2.B * ij a.1 (-m.2.x + conj m.1.x) +
       conj m.1.A * m.2.B * ij a.1 (-m.2.x - conj m.1.x) - conj m.1.B * m.2.A * ij a.1 (m.2.x + conj m.1.x)))
      ((t.om : ℂ) ^ 2 * (dot2 s.p t.q : ℝ)) (fun ls => matTmTe ij ls t.om (dot2 s.p t.q)) fun ls => ?_
    simp only [matTmTe]
    rw [mul_assoc]
    congr 2
    refine List.map_congr_left fun l _ => ?_
    ring
  · refine key (fun a m => ((dot2 s.p t.p : ℝ) * (conj m.1.x * m.2.x) + s.gk * t.gk) *
      (conj m.1.A * m.2.A * ij a.1 (m.2.x - conj m.1.x) + conj m.1.B * m.2.B * ij a.1 (-m.2.x + conj m.1.x)) -
     ((dot2 s.p t.p : ℝ) * (conj m.1.x * m.2.x) - s.gk * t.gk) *
      (conj m.1.A * m.2.B * ij a.1 (-m.2.x - conj m.1.x) + conj m.1.B * m.2.A * ij a.1 (m.2.x + conj m.1.x)))
      1 (fun ls => matTmTm ij ls s.gk t.gk (dot2 s.p t.p)) fun ls => ?_
    rw [mul_one]
    rfl

/-- An element of the matrix is the sum over the layers of the inverse permittivities times the coefficients. -/
theorem gmeElem_coef (ij : LPos → ℂ → ℂ) (stack : List (LPos × ℝ)) (s t : GmeState) {L : ℕ} (f : Fin L → ℂ) :
    gmeElem ij stack (List.ofFn f) s t = ∑ l, f l * gmeCoef ij stack L l s t := by
  obtain ⟨c, hc⟩ := gmeElem_linear ij stack s t L
  rw [hc]
  refine sum_congr rfl fun l _ => ?_
  rw [gmeCoef, hc]
  simp [Pi.single_apply]

/-! ### The backward pass -/

theorem pair_complete {n : ℕ} (G : Matrix (Fin n) (Fin n) ℂ) (m : ℕ → ℕ → ℂ) :
    pairMat G (of fun i j : Fin n => completeMat m i j) = (∑ i, ∑ j, backComplete G i j * m i j).re := by
  have h1 : ∀ i j : Fin n, (G i j * completeMat m i j).re =
      (if i < j then (G i j * m i j).re else 0) + (if j < i then (G i j * conj (m j i)).re else 0) +
        (if i = j then (G i i).re * (m i i).re else 0) := by
    intro i j
    unfold completeMat
    by_cases h : i < j
    · have a1 : ¬ (j : ℕ) < i := by omega
      have a2 : ¬ (i : ℕ) = j := by omega
      have a3 : ¬ j < i := by omega
      have a4 : ¬ i = j := by omega
      simp [h, a1, a2, a3, a4]
    · by_cases h' : i = j
      · subst h'
        simp
      · have a1 : j < i := by omega
        have a2 : ¬ (i : ℕ) = j := by omega
        have a3 : ¬ (i : ℕ) < j := by omega
        simp [h, h', a1, a2, a3]
  have h2 : ∀ i j : Fin n, (backComplete G i j * m i j).re =
      (if i < j then (G i j * m i j).re else 0) + (if i < j then (G j i * conj (m i j)).re else 0) +
        (if i = j then (G i i).re * (m i i).re else 0) := by
    intro i j
    unfold backComplete
    by_cases h : i < j
    · have a4 : ¬ i = j := by omega
      simp only [if_pos h, if_neg a4, add_mul, Complex.add_re, Complex.mul_re, Complex.conj_re, Complex.conj_im]
      ring
    · by_cases h' : i = j
      · subst h'
        simp
      · simp [h, h']
  simp only [pairMat, of_apply, Complex.re_sum, h1, h2, sum_add_distrib]
  congr 2
  exact sum_comm

theorem back_inv_pair {N K : ℕ} (ij : LPos → ℂ → ℂ) (stack : List (LPos × ℝ)) (L : ℕ) (basis : Fin K → List (BasisEl N))
    (G : ∀ q, Matrix (Fin (basis q).length) (Fin (basis q).length) ℂ) (F : Fin L → Matrix (Fin N) (Fin N) ℂ) :
    ∑ l, (∑ a, ∑ b, gmeBackInv ij stack L basis G l a b * F l a b).re =
      ∑ q, pairMat (G q) (gmeMatIj ij stack (List.ofFn F) (basis q)) := by
  have h1 : ∀ q, pairMat (G q) (gmeMatIj ij stack (List.ofFn F) (basis q)) =
      (∑ i : Fin (basis q).length, ∑ j : Fin (basis q).length, ∑ l : Fin L,
        if ¬ (basis q)[j].blk < (basis q)[i].blk then backComplete (G q) i j *
          gmeCoef ij stack L l (basis q)[i].st (basis q)[j].st * F l (basis q)[i].ig (basis q)[j].ig else 0).re := by
    intro q
    unfold gmeMatIj
    rw [pair_complete]
    congr 1
    refine sum_congr rfl fun i _ => sum_congr rfl fun j _ => ?_
    have gi : (basis q)[(i : ℕ)]? = some (basis q)[i] := List.getElem?_eq_getElem i.2
    have gj : (basis q)[(j : ℕ)]? = some (basis q)[j] := List.getElem?_eq_getElem j.2
    simp only [blockUpper, gi, gj, Option.map_some, Option.getD_some]
    by_cases hb : (basis q)[j].blk < (basis q)[i].blk
    · have hb' : ¬ ¬ (basis q)[j].blk < (basis q)[i].blk := not_not.2 hb
      simp only [if_pos hb, if_neg hb', mul_zero, sum_const_zero]
    · simp only [if_neg hb, if_pos hb]
      rw [List.map_ofFn]
      rw [show ((fun E : Matrix (Fin N) (Fin N) ℂ => E (basis q)[i].ig (basis q)[j].ig) ∘ F) = fun l =>
        F l (basis q)[i].ig (basis q)[j].ig from rfl, gmeElem_coef, mul_sum]
      refine sum_congr rfl fun l _ => ?_
      ring
  simp only [h1, ← Complex.re_sum]
  congr 1
  simp only [gmeBackInv, of_apply, sum_mul]
  -- both sides as a sum over wave vectors, pairs of modes and layers
  have h2 : ∀ l : Fin L, ∑ a, ∑ b, ∑ q, ∑ i : Fin (basis q).length, ∑ j : Fin (basis q).length,
      (if (basis q)[i].ig = a ∧ (basis q)[j].ig = b ∧ ¬ (basis q)[j].blk < (basis q)[i].blk then
        backComplete (G q) i j * gmeCoef ij stack L l (basis q)[i].st (basis q)[j].st else 0) * F l a b =
      ∑ q, ∑ i : Fin (basis q).length, ∑ j : Fin (basis q).length,
        if ¬ (basis q)[j].blk < (basis q)[i].blk then backComplete (G q) i j *
          gmeCoef ij stack L l (basis q)[i].st (basis q)[j].st * F l (basis q)[i].ig (basis q)[j].ig else 0 := by
    intro l
    rw [sum_congr rfl fun a _ => sum_comm, sum_comm]
    refine sum_congr rfl fun q _ => ?_
    rw [sum_congr rfl fun a _ => sum_comm, sum_comm]
    refine sum_congr rfl fun i _ => ?_
    rw [sum_congr rfl fun a _ => sum_comm, sum_comm]
    refine sum_congr rfl fun j _ => ?_
    rw [sum_eq_single (basis q)[i].ig (fun a _ ha => sum_eq_zero fun b _ => by
      rw [if_neg (fun h => ha h.1.symm), zero_mul]) (fun h => absurd (mem_univ _) h),
      sum_eq_single (basis q)[j].ig (fun b _ hb => by
      rw [if_neg (fun h => hb h.2.1.symm), zero_mul]) (fun h => absurd (mem_univ _) h)]
    simp only [true_and, ite_mul, zero_mul]
  simp only [h2]
  rw [sum_comm]
  refine sum_congr rfl fun q _ => ?_
  rw [sum_comm]
  refine sum_congr rfl fun i _ => ?_
  rw [sum_comm]

theorem gmeMatIj_herm {N : ℕ} (ij : LPos → ℂ → ℂ) (stack : List (LPos × ℝ)) (einv : List (Matrix (Fin N) (Fin N) ℂ))
    (basis : List (BasisEl N)) : (gmeMatIj ij stack einv basis).IsHermitian := by
  ext i j
  exact C29_hermitian _ i j

theorem gmeMatIj_deriv {N : ℕ} (ij : LPos → ℂ → ℂ) (stack : List (LPos × ℝ)) {L : ℕ} (basis : List (BasisEl N))
    (F : Fin L → ℝ → Matrix (Fin N) (Fin N) ℂ) (F' : Fin L → Matrix (Fin N) (Fin N) ℂ) (t0 : ℝ)
    (hF : ∀ l a b, HasDerivAt (fun t => F l t a b) (F' l a b) t0) (i j : Fin basis.length) :
    HasDerivAt (fun t => gmeMatIj ij stack (List.ofFn fun l => F l t) basis i j)
      (gmeMatIj ij stack (List.ofFn F') basis i j) t0 := by
  have hel : ∀ s u : Fin basis.length, HasDerivAt (fun t => blockUpper (fun a => ((basis[a]?).map BasisEl.blk).getD 0) (fun a b =>
      match basis[a]?, basis[b]? with
      | some s, some u => gmeElem ij stack ((List.ofFn fun l => F l t).map fun E => E s.ig u.ig) s.st u.st
      | _, _ => 0) s u) (blockUpper (fun a => ((basis[a]?).map BasisEl.blk).getD 0) (fun a b =>
      match basis[a]?, basis[b]? with
      | some s, some u => gmeElem ij stack ((List.ofFn F').map fun E => E s.ig u.ig) s.st u.st
      | _, _ => 0) s u) t0 := by
    intro s u
    have gs : basis[(s : ℕ)]? = some basis[s] := List.getElem?_eq_getElem s.2
    have gu : basis[(u : ℕ)]? = some basis[u] := List.getElem?_eq_getElem u.2
    simp only [blockUpper, gs, gu, Option.map_some, Option.getD_some, List.map_ofFn]
    by_cases hb : basis[u].blk < basis[s].blk
    · simp only [if_pos hb]
      exact hasDerivAt_const t0 0
    · simp only [if_neg hb]
      have e1 : ∀ f : Fin L → Matrix (Fin N) (Fin N) ℂ, gmeElem ij stack (List.ofFn
          ((fun E : Matrix (Fin N) (Fin N) ℂ => E basis[s].ig basis[u].ig) ∘ f)) basis[s].st basis[u].st =
          ∑ l, f l basis[s].ig basis[u].ig * gmeCoef ij stack L l basis[s].st basis[u].st := fun f => gmeElem_coef _ _ _ _ _
      simp only [e1]
      exact HasDerivAt.fun_sum fun l _ => (hF l _ _).mul_const _
  unfold gmeMatIj
  simp only [of_apply, completeMat]
  refine ((HasDerivAt.add ?_ ?_).add ?_)
  · by_cases h : (i : ℕ) < j
    · simp only [if_pos h]
      exact hel i j
    · simp only [if_neg h]
      exact hasDerivAt_const t0 0
  · by_cases h : (j : ℕ) < i
    · simp only [if_pos h]
      exact (hel j i).star
    · simp only [if_neg h, map_zero]
      exact hasDerivAt_const t0 0
  · by_cases h : (i : ℕ) = j
    · simp only [if_pos h]
      have := (Complex.reCLM.hasFDerivAt.comp_hasDerivAt t0 (hel i i)).ofReal_comp
      exact this
    · simp only [if_neg h]
      exact hasDerivAt_const t0 0

/-! ### Frequencies at one wave vector -/

/-- The gradient of returned frequencies with respect to the matrix. -/
theorem freq_gradient {N : ℕ} (A : ℝ → Matrix (Fin N) (Fin N) ℂ) (A' : Matrix (Fin N) (Fin N) ℂ) (t0 : ℝ)
    (hA : ∀ i j, HasDerivAt (fun t => A t i j) (A' i j) t0) (hH : ∀ t, (A t).IsHermitian) (W : ℝ → Fin N → ℝ)
    (hW : ∀ t, ∃ U, IsEigh (A t) (W t) U) (V : Matrix (Fin N) (Fin N) ℂ) (hV : IsEigh (A t0) (W t0) V)
    (hinj : Function.Injective (W t0)) (fr : ℝ → List ℝ) (sel : List ℕ) (hselN : ∀ i ∈ sel, i < N)
    (hfol : ∀ ω : Fin N → ℝ → ℝ, (∀ n, ω n t0 = W t0 n) → (∀ n, ContinuousAt (ω n) t0) →
      (∀ᶠ t in 𝓝 t0, (List.ofFn fun n => ω n t).Perm (List.ofFn (W t))) →
      ∀ᶠ t in 𝓝 t0, fr t = sel.map fun (i : ℕ) => if h : i < N then freqOf (ω ⟨i, h⟩ t) else 0)
    (c : ℕ → ℝ) (hz : ∀ i, c i ≠ 0 → (fr t0).getD i 0 ≠ 0) :
    ∃ f' : ℕ → ℝ, (∀ i, c i ≠ 0 → HasDerivAt (fun t => (fr t).getD i 0) (f' i) t0) ∧
      pairMat (vjpEigh false (W t0) V (backFreq (W t0) sel c) 0) A' =
        ∑ i ∈ range sel.length, c i * sqrtRatio ((fr t0).getD i 0) * f' i := by
  classical
  obtain ⟨ω, hω0, hωd, hωp⟩ := eig_branches A A' t0 hA hH W hW V hV hinj
  have hfr := hfol ω hω0 (fun n => (hωd n).continuousAt) hωp
  set μ : Fin N → ℝ := fun m => (sandwich (fun i => V i m) A' fun i => V i m).re with hμ
  have hret : ∀ i (hi : i < sel.length), ∀ᶠ t in 𝓝 t0,
      (fr t).getD i 0 = freqOf (ω ⟨sel[i], hselN _ (List.getElem_mem hi)⟩ t) := by
    intro i hi
    filter_upwards [hfr] with t ht
    rw [ht, List.getD_eq_getElem?_getD, List.getElem?_eq_getElem (by rw [List.length_map]; exact hi), Option.getD_some,
      List.getElem_map]
    rw [dif_pos (hselN _ (List.getElem_mem hi))]
  have hret0 : ∀ i (hi : i < sel.length), (fr t0).getD i 0 = freqOf (W t0 ⟨sel[i], hselN _ (List.getElem_mem hi)⟩) := by
    intro i hi
    rw [(hret i hi).self_of_nhds, hω0]
  have hcut : ∀ i, ¬ i < sel.length → c i = 0 := by
    intro i hi
    by_contra hc
    apply hz i hc
    rw [hfr.self_of_nhds, List.getD_eq_getElem?_getD, List.getElem?_eq_none (by rw [List.length_map]; exact not_lt.1 hi),
      Option.getD_none]
  have hne1 : ∀ i (hi : i < sel.length), c i ≠ 0 → W t0 ⟨sel[i], hselN _ (List.getElem_mem hi)⟩ ≠ 1 := by
    intro i hi hc e
    apply hz i hc
    rw [hret0 i hi, e]
    simp [freqOf]
  let g : Fin N → ℝ := fun m => ((W t0 m - 1) / |W t0 m - 1| * μ m) / (2 * √|W t0 m - 1|) / 2 / π
  refine ⟨fun i => if hi : i < sel.length then g ⟨sel[i], hselN _ (List.getElem_mem hi)⟩ else 0, ?_, ?_⟩
  · intro i hc
    have hi : i < sel.length := by
      by_contra hno
      exact hc (hcut i hno)
    simp only [dif_pos hi]
    have h3 := freqOf_deriv (hωd ⟨sel[i], hselN _ (List.getElem_mem hi)⟩)
      (by rw [hω0]; exact hne1 i hi hc)
    rw [hω0] at h3
    exact h3.congr_of_eventuallyEq (hret i hi)
  · have hA'H : ∀ i j, A' j i = conj (A' i j) := by
      intro i j
      have e1 := (hA i j).star
      have e2 : (fun t => star (A t i j)) = fun t => A t j i := by
        ext t; exact (hH t).apply j i
      rw [e2] at e1
      exact (hA j i).unique e1
    rw [C48_eigenvalues false (W t0) V A' _ hA'H]
    change ∑ m, backFreq (W t0) sel c m * μ m = _
    have hL : ∀ m, backFreq (W t0) sel c m * μ m = ∑ i ∈ range sel.length,
        if sel.getD i 0 = (m : ℕ) then
          c i / π / 2 * vjpSqrt |W t0 m - 1| * ((W t0 m - 1) / |W t0 m - 1|) * μ m else 0 := by
      intro m
      unfold backFreq
      rw [sum_div, sum_div, sum_mul, sum_mul, sum_mul]
      refine sum_congr rfl fun i _ => ?_
      split_ifs <;> simp
    simp only [hL]
    rw [sum_comm]
    refine sum_congr rfl fun i hi => ?_
    have hi' : i < sel.length := mem_range.1 hi
    rw [dif_pos hi']
    set m0 : Fin N := ⟨sel[i], hselN _ (List.getElem_mem hi')⟩ with hm0
    have hget : sel.getD i 0 = (m0 : ℕ) := by
      rw [List.getD_eq_getElem?_getD, List.getElem?_eq_getElem hi', Option.getD_some]
    have hiff : ∀ m : Fin N, sel.getD i 0 = (m : ℕ) ↔ m0 = m := by
      intro m
      rw [hget, Fin.ext_iff]
    simp only [hiff, sum_ite_eq, mem_univ, if_true]
    by_cases hc : c i = 0
    · simp [hc]
    · have hw1 := hne1 i hi' hc
      have hpos : 0 < |W t0 m0 - 1| := abs_pos.2 (sub_ne_zero.2 hw1)
      rw [hret0 i hi', sqrtRatio_freq _ hw1, vjpSqrt_ratio _ hpos]
      simp only [g]
      ring

theorem selectModes_mem {N : ℕ} {argsort : List ℝ → List ℕ} (hs : ∀ l, IsArgsort l (argsort l)) (w : Fin N → ℝ) (sigma : ℝ)
    {numeig : ℕ} (hn : numeig ≤ N) :
    (∀ i ∈ selectModes argsort ((List.ofFn w).map freqOf) sigma numeig, i < N) ∧
      (selectModes argsort ((List.ofFn w).map freqOf) sigma numeig).length = numeig := by
  set near := findNearest argsort ((List.ofFn w).map freqOf) sigma numeig with hnear
  have hp := (hs (((List.ofFn w).map freqOf).map fun a => |a - sigma|)).1
  rw [List.length_map, List.length_map, List.length_ofFn] at hp
  have hpt : near = (argsort (((List.ofFn w).map freqOf).map fun a => |a - sigma|)).take numeig := by
    rw [hnear, findNearest, pyTake_nonneg]
  have hlen : near.length = numeig := by
    rw [hpt, List.length_take, hp.length_eq, List.length_range, min_eq_left hn]
  have hq := (hs (near.map fun (i : ℕ) => ((List.ofFn w).map freqOf).getD i 0)).1
  rw [List.length_map, hlen] at hq
  constructor
  · intro i hi
    simp only [selectModes, ← hnear] at hi
    obtain ⟨j, hj, rfl⟩ := List.mem_map.1 hi
    have hj' := List.mem_range.1 (hq.mem_iff.1 hj)
    rw [List.getD_eq_getElem?_getD, List.getElem?_eq_getElem (by omega), Option.getD_some]
    have hall : ∀ x ∈ near, x < N := fun x hx => List.mem_range.1 (hp.mem_iff.1 (List.mem_of_mem_take (hpt ▸ hx)))
    exact hall _ (List.getElem_mem _)
  · simp only [selectModes, ← hnear, List.length_map]
    rw [hq.length_eq, List.length_range]

/-! ### The gradient -/

/-- The `i`-th frequency returned at one wave vector for given guided modes and inverse permittivities of the layers. -/
noncomputable def gmeFreqAt (argsort : List ℝ → List ℕ) (eigh : ∀ n, Matrix (Fin n) (Fin n) ℂ → Fin n → ℝ)
    (ij : LPos → ℂ → ℂ) {N : ℕ} (stack : List (LPos × ℝ)) (einv : List (Matrix (Fin N) (Fin N) ℂ)) (basis : List (BasisEl N))
    (sigma : ℝ) (numeig i : ℕ) : ℝ :=
  match solveFull argsort (List.ofFn (eigh _ (gmeMatIj ij stack einv basis + 1))) sigma numeig with
  | .ok r => r.freq.getD i 0
  | .error _ => 0

/-- The inverse permittivity of a layer for given samples (gme.py 683-699), `hom` saying that it was found to be
homogeneous. -/
noncomputable def gmeEinv {N : ℕ} (idx : Fin N → Fin N → ℕ) (u0 : ℕ) (hom : Bool) (S : ℕ → ℂ) : Matrix (Fin N) (Fin N) ℂ :=
  if hom then (S u0)⁻¹ • 1 else (of fun i j => S (idx i j))⁻¹

/-- **C145 (gradients of frequencies with fixed guided modes).** Let the samples `S l` of the permittivities of the layers
depend differentiably on a parameter on which the effective stack, and with it the basis of guided modes, does not depend, and
let the distances of the frequencies from `eig_sigma` be different from each other at each wave vector. Consider an objective
with the gradients `c` with respect to returned frequencies that are not zero. Then these frequencies are differentiable, and
the gradients of the samples which the registered rules give, paired with the derivatives of the samples, are the sum of the
derivatives of the frequencies times `c` and a factor between 0 and 1 which differs from 1 by at most `1e-10 / (2 π f)²`. -/
theorem C145_gradient (argsort : List ℝ → List ℕ) (hs : ∀ l, IsArgsort l (argsort l))
    (eigh : ∀ n, Matrix (Fin n) (Fin n) ℂ → Fin n → ℝ) (he : GoodEigh eigh) (ij : LPos → ℂ → ℂ) {N K L : ℕ}
    (stack : List (LPos × ℝ)) (basis : Fin K → List (BasisEl N)) (nU : ℕ) (idx : Fin N → Fin N → ℕ)
    (hidx : ∀ i j, idx i j < nU) (u0 : ℕ) (hu0 : u0 < nU) (hom : Fin L → Bool)
    (S : Fin L → ℝ → ℕ → ℂ) (D : Fin L → ℕ → ℂ) (t0 : ℝ) (hS : ∀ l u, HasDerivAt (fun t => S l t u) (D l u) t0)
    (hinv : ∀ l, if hom l then S l t0 u0 ≠ 0 else (of fun i j => S l t0 (idx i j)).det ≠ 0)
    (sigma : ℝ) (numeig : ℕ) (hnum : ∀ q, numeig ≤ (basis q).length) (c : Fin K → ℕ → ℝ)
    (V : ∀ q, Matrix (Fin (basis q).length) (Fin (basis q).length) ℂ)
    (hV : ∀ q, IsEigh (gmeMatIj ij stack (List.ofFn fun l => gmeEinv idx u0 (hom l) (S l t0)) (basis q) + 1)
      (eigh _ (gmeMatIj ij stack (List.ofFn fun l => gmeEinv idx u0 (hom l) (S l t0)) (basis q) + 1)) (V q))
    (hinj : ∀ q, Function.Injective fun m =>
      |freqOf (eigh _ (gmeMatIj ij stack (List.ofFn fun l => gmeEinv idx u0 (hom l) (S l t0)) (basis q) + 1) m) - sigma|)
    (hz : ∀ q i, c q i ≠ 0 → gmeFreqAt argsort eigh ij stack (List.ofFn fun l => gmeEinv idx u0 (hom l) (S l t0)) (basis q)
      sigma numeig i ≠ 0) :
    ∃ f' : Fin K → ℕ → ℝ,
      (∀ q i, c q i ≠ 0 → HasDerivAt (fun t => gmeFreqAt argsort eigh ij stack
        (List.ofFn fun l => gmeEinv idx u0 (hom l) (S l t)) (basis q) sigma numeig i) (f' q i) t0) ∧
      ∑ l, (∑ u ∈ range nU, gmeBackSamples idx u0 (hom l) (S l t0 u0) (gmeEinv idx u0 (hom l) (S l t0))
          (gmeBackward argsort ij stack L basis (fun q =>
            eigh _ (gmeMatIj ij stack (List.ofFn fun l => gmeEinv idx u0 (hom l) (S l t0)) (basis q) + 1)) V sigma numeig c l) u *
          D l u).re =
        ∑ q, ∑ i ∈ range numeig, c q i * sqrtRatio (gmeFreqAt argsort eigh ij stack
          (List.ofFn fun l => gmeEinv idx u0 (hom l) (S l t0)) (basis q) sigma numeig i) * f' q i := by
  classical
  set F : Fin L → ℝ → Matrix (Fin N) (Fin N) ℂ := fun l t => gmeEinv idx u0 (hom l) (S l t) with hFd
  set F' : Fin L → Matrix (Fin N) (Fin N) ℂ := fun l => if hom l then (-(D l u0) / (S l t0 u0) ^ 2) • 1 else
    -(F l t0 * (of fun i j => D l (idx i j)) * F l t0) with hF'd
  have hF : ∀ l a b, HasDerivAt (fun t => F l t a b) (F' l a b) t0 := by
    intro l a b
    have hi := hinv l
    by_cases hh : hom l = true
    · rw [if_pos hh] at hi
      simp only [F, F', gmeEinv, hh, if_true, Matrix.smul_apply, smul_eq_mul]
      exact ((hS l u0).inv hi).mul_const _
    · rw [if_neg hh] at hi
      have hu : IsUnit (of fun i j => S l t0 (idx i j)) := (Matrix.isUnit_iff_isUnit_det _).mpr (isUnit_iff_ne_zero.mpr hi)
      simp only [F, F', gmeEinv, if_neg hh]
      exact inv_deriv (fun t => of fun i j => S l t (idx i j)) (of fun i j => D l (idx i j)) t0
        (fun i j => hS l (idx i j)) hu a b
  set A : ∀ q, ℝ → Matrix (Fin (basis q).length) (Fin (basis q).length) ℂ := fun q t =>
    gmeMatIj ij stack (List.ofFn fun l => F l t) (basis q) + 1 with hAd
  set W : ∀ q, ℝ → Fin (basis q).length → ℝ := fun q t => eigh _ (A q t) with hWd
  have hA : ∀ q i j, HasDerivAt (fun t => A q t i j) (gmeMatIj ij stack (List.ofFn F') (basis q) i j) t0 := by
    intro q i j
    simp only [A, Matrix.add_apply]
    exact (gmeMatIj_deriv ij stack (basis q) F F' t0 hF i j).add_const _
  have hH : ∀ q t, (A q t).IsHermitian := fun q t => (gmeMatIj_herm _ _ _ _).add Matrix.isHermitian_one
  set sel : Fin K → List ℕ := fun q => selectModes argsort ((List.ofFn (W q t0)).map freqOf) sigma numeig with hsel
  set fr : Fin K → ℝ → List ℝ := fun q t => (selectModes argsort ((List.ofFn (W q t)).map freqOf) sigma numeig).map
    fun (i : ℕ) => ((List.ofFn (W q t)).map freqOf).getD i 0 with hfr
  have hat : ∀ q t i, gmeFreqAt argsort eigh ij stack (List.ofFn fun l => F l t) (basis q) sigma numeig i =
      (fr q t).getD i 0 := by
    intro q t i
    unfold gmeFreqAt solveFull
    rw [if_neg (by rw [List.length_ofFn]; exact not_lt.2 (hnum q))]
  have hmain := fun q => freq_gradient (A q) (gmeMatIj ij stack (List.ofFn F') (basis q)) t0 (hA q) (hH q) (W q)
    (fun t => he _ _ (hH q t)) (V q) (hV q) (fun a b h => hinj q (by simp only; rw [show
      eigh _ (A q t0) a = eigh _ (A q t0) b from h])) (fr q) (sel q) (selectModes_mem hs (W q t0) sigma (hnum q)).1
    (fun ω h0 hc hp => modes_follow argsort hs (W q) t0 ω h0 hc hp sigma (hinj q) numeig) (c q)
    (fun i hc => by rw [← hat]; exact hz q i hc)
  choose f' hf' hsum using hmain
  refine ⟨f', fun q i hc => ?_, ?_⟩
  · exact (hf' q i hc).congr_of_eventuallyEq (Eventually.of_forall fun t => hat q t i)
  · have hlen : ∀ q, (sel q).length = numeig := fun q => (selectModes_mem hs (W q t0) sigma (hnum q)).2
    have hR : ∀ q, ∑ i ∈ range numeig, c q i * sqrtRatio (gmeFreqAt argsort eigh ij stack
        (List.ofFn fun l => F l t0) (basis q) sigma numeig i) * f' q i =
        pairMat (vjpEigh false (W q t0) (V q) (backFreq (W q t0) (sel q) (c q)) 0)
          (gmeMatIj ij stack (List.ofFn F') (basis q)) := by
      intro q
      rw [hsum q, hlen q]
      simp only [hat]
    rw [sum_congr rfl fun q _ => hR q]
    refine Eq.trans ?_ (back_inv_pair ij stack L basis (fun q =>
      vjpEigh false (W q t0) (V q) (backFreq (W q t0) (sel q) (c q)) 0) F')
    refine sum_congr rfl fun l _ => ?_
    congr 1
    change ∑ u ∈ range nU, gmeBackSamples idx u0 (hom l) (S l t0 u0) (F l t0) (gmeBackInv ij stack L basis (fun q =>
      vjpEigh false (W q t0) (V q) (backFreq (W q t0) (sel q) (c q)) 0) l) u * D l u = _
    generalize gmeBackInv ij stack L basis (fun q => vjpEigh false (W q t0) (V q) (backFreq (W q t0) (sel q) (c q)) 0) l = g
    by_cases hh : hom l = true
    · simp only [gmeBackSamples, hh, if_true, ite_mul, zero_mul, F']
      rw [sum_ite_eq', if_pos (mem_range.2 hu0), sum_mul]
      refine sum_congr rfl fun a _ => ?_
      rw [sum_eq_single a (fun b _ hb => by simp [Matrix.one_apply, hb.symm]) (fun h => absurd (mem_univ _) h)]
      simp only [Matrix.smul_apply, Matrix.one_apply_eq, smul_eq_mul, mul_one]
      ring
    · simp only [gmeBackSamples, if_neg hh, F', excBackAbs, sum_mul]
      rw [← C49_pairing (F l t0) g (of fun i j => D l (idx i j)), sum_comm]
      refine sum_congr rfl fun i _ => ?_
      rw [sum_comm]
      refine sum_congr rfl fun j _ => ?_
      simp only [ite_mul, zero_mul, of_apply]
      rw [sum_ite_eq, if_pos (mem_range.2 (hidx i j))]

/-- **C145 (error).** Under the same hypotheses the objective `∑ c f` has a derivative with respect to the parameter, and the
number which the registered rules give differs from it by at most `∑ |c f'| 1e-10 / (2 π f)²`. -/
theorem C145_error (argsort : List ℝ → List ℕ) (hs : ∀ l, IsArgsort l (argsort l))
    (eigh : ∀ n, Matrix (Fin n) (Fin n) ℂ → Fin n → ℝ) (he : GoodEigh eigh) (ij : LPos → ℂ → ℂ) {N K L : ℕ}
    (stack : List (LPos × ℝ)) (basis : Fin K → List (BasisEl N)) (nU : ℕ) (idx : Fin N → Fin N → ℕ)
    (hidx : ∀ i j, idx i j < nU) (u0 : ℕ) (hu0 : u0 < nU) (hom : Fin L → Bool)
    (S : Fin L → ℝ → ℕ → ℂ) (D : Fin L → ℕ → ℂ) (t0 : ℝ) (hS : ∀ l u, HasDerivAt (fun t => S l t u) (D l u) t0)
    (hinv : ∀ l, if hom l then S l t0 u0 ≠ 0 else (of fun i j => S l t0 (idx i j)).det ≠ 0)
    (sigma : ℝ) (numeig : ℕ) (hnum : ∀ q, numeig ≤ (basis q).length) (c : Fin K → ℕ → ℝ)
    (V : ∀ q, Matrix (Fin (basis q).length) (Fin (basis q).length) ℂ)
    (hV : ∀ q, IsEigh (gmeMatIj ij stack (List.ofFn fun l => gmeEinv idx u0 (hom l) (S l t0)) (basis q) + 1)
      (eigh _ (gmeMatIj ij stack (List.ofFn fun l => gmeEinv idx u0 (hom l) (S l t0)) (basis q) + 1)) (V q))
    (hinj : ∀ q, Function.Injective fun m =>
      |freqOf (eigh _ (gmeMatIj ij stack (List.ofFn fun l => gmeEinv idx u0 (hom l) (S l t0)) (basis q) + 1) m) - sigma|)
    (hz : ∀ q i, c q i ≠ 0 → gmeFreqAt argsort eigh ij stack (List.ofFn fun l => gmeEinv idx u0 (hom l) (S l t0)) (basis q)
      sigma numeig i ≠ 0) :
    ∃ f' : Fin K → ℕ → ℝ,
      HasDerivAt (fun t => ∑ q, ∑ i ∈ range numeig, c q i * gmeFreqAt argsort eigh ij stack
        (List.ofFn fun l => gmeEinv idx u0 (hom l) (S l t)) (basis q) sigma numeig i)
        (∑ q, ∑ i ∈ range numeig, c q i * f' q i) t0 ∧
      |∑ l, (∑ u ∈ range nU, gmeBackSamples idx u0 (hom l) (S l t0 u0) (gmeEinv idx u0 (hom l) (S l t0))
          (gmeBackward argsort ij stack L basis (fun q =>
            eigh _ (gmeMatIj ij stack (List.ofFn fun l => gmeEinv idx u0 (hom l) (S l t0)) (basis q) + 1)) V sigma numeig c l) u *
          D l u).re - ∑ q, ∑ i ∈ range numeig, c q i * f' q i| ≤
      ∑ q, ∑ i ∈ range numeig, |c q i * f' q i| * (1e-10 / (2 * π * gmeFreqAt argsort eigh ij stack
        (List.ofFn fun l => gmeEinv idx u0 (hom l) (S l t0)) (basis q) sigma numeig i) ^ 2) := by
  obtain ⟨f', hf, hsum⟩ := C145_gradient argsort hs eigh he ij stack basis nU idx hidx u0 hu0 hom S D t0 hS hinv sigma numeig
    hnum c V hV hinj hz
  refine ⟨f', ?_, ?_⟩
  · refine HasDerivAt.fun_sum fun q _ => HasDerivAt.fun_sum fun i _ => ?_
    by_cases hc : c q i = 0
    · simp only [hc, zero_mul]
      exact hasDerivAt_const t0 0
    · exact (hf q i hc).const_mul _
  · rw [hsum, ← sum_sub_distrib]
    refine (abs_sum_le_sum_abs _ _).trans (sum_le_sum fun q _ => ?_)
    rw [← sum_sub_distrib]
    refine (abs_sum_le_sum_abs _ _).trans (sum_le_sum fun i _ => ?_)
    by_cases hc : c q i = 0
    · simp [hc]
    · obtain ⟨b1, b2, b3⟩ := sqrtRatio_bounds _ (hz q i hc)
      set r := sqrtRatio (gmeFreqAt argsort eigh ij stack (List.ofFn fun l => gmeEinv idx u0 (hom l) (S l t0)) (basis q) sigma
        numeig i)
      have e : c q i * r * f' q i - c q i * f' q i = c q i * f' q i * -(1 - r) := by ring
      rw [e, abs_mul, abs_neg, abs_of_pos (show (0 : ℝ) < 1 - r by linarith)]
      exact mul_le_mul_of_nonneg_left b3 (abs_nonneg _)

/-- Eigenvalue of a matrix with one entry. -/
theorem isEigh_one {A V : Matrix (Fin 1) (Fin 1) ℂ} {w : Fin 1 → ℝ} (h : IsEigh A w V) : w 0 = (A 0 0).re := by
  have h1 := isEigh_eigen h 0 0
  have h2 := congrFun (congrFun h.unitary 0) 0
  rw [Fin.sum_univ_one] at h1
  rw [mul_apply, Fin.sum_univ_one] at h2
  have hv : V 0 0 ≠ 0 := by
    intro h0
    rw [h0] at h2
    simp at h2
  have h3 := mul_right_cancel₀ hv h1
  rw [h3, Complex.ofReal_re]

/-- One TE mode, one plane wave and one layer whose permittivity is the parameter, at the permittivity 2 and with all
integrals equal to one. -/
example (argsort : List ℝ → List ℕ) (hs : ∀ l, IsArgsort l (argsort l))
    (eigh : ∀ n, Matrix (Fin n) (Fin n) ℂ → Fin n → ℝ) (he : GoodEigh eigh) :
    ∃ f' : ℝ, HasDerivAt (fun t : ℝ => gmeFreqAt argsort eigh (fun _ _ => 1) [(.inner 1, 1)]
      (List.ofFn fun _ : Fin 1 => gmeEinv (fun _ _ : Fin 1 => 0) 0 false fun _ => (t : ℂ))
      [⟨0, 0, ⟨.te, 1, 0, 1, [⟨1, 0, 0⟩]⟩⟩] 0 1 0) f' 2 := by
  set b : List (BasisEl 1) := [⟨0, 0, ⟨.te, 1, 0, 1, [⟨1, 0, 0⟩]⟩⟩] with hb
  set ei : List (Matrix (Fin 1) (Fin 1) ℂ) :=
    List.ofFn fun _ : Fin 1 => gmeEinv (fun _ _ : Fin 1 => 0) 0 false fun _ => ((2 : ℝ) : ℂ) with hei
  have hE : gmeEinv (fun _ _ : Fin 1 => 0) 0 false (fun _ => ((2 : ℝ) : ℂ)) = of fun _ _ => (1 / 2 : ℂ) := by
    simp only [gmeEinv]
    rw [if_neg (by simp)]
    apply Matrix.inv_eq_right_inv
    ext i j
    fin_cases i
    fin_cases j
    simp [mul_apply]
  have hM : (gmeMatIj (fun _ _ => 1) [(.inner 1, 1)] ei b + 1) 0 0 = ((3 / 2 : ℝ) : ℂ) := by
    rw [hei, hE]
    simp [gmeMatIj, completeMat, blockUpper, gmeElem, layPairs, matTeTe, dot2, GmeState.q, GmeState.gk, b]
    norm_num
  have hH : (gmeMatIj (fun _ _ => 1) [(.inner 1, 1)] ei b + 1).IsHermitian :=
    (gmeMatIj_herm _ _ _ _).add Matrix.isHermitian_one
  obtain ⟨V, hV⟩ := he _ _ hH
  have hw : eigh _ (gmeMatIj (fun _ _ => 1) [(.inner 1, 1)] ei b + 1) = fun _ => (3 / 2 : ℝ) := by
    funext m
    have h1 : eigh 1 (gmeMatIj (fun _ _ => 1) [(.inner 1, 1)] ei b + 1) 0 =
        ((gmeMatIj (fun _ _ => 1) [(.inner 1, 1)] ei b + 1) 0 0).re := isEigh_one hV
    rw [hM] at h1
    have hm : m = (0 : Fin 1) := Subsingleton.elim (α := Fin 1) _ _
    rw [hm]
    exact h1.trans (Complex.ofReal_re _)
  have hf : gmeFreqAt argsort eigh (fun _ _ => 1) [(.inner 1, 1)] ei b 0 1 0 ≠ 0 := by
    unfold gmeFreqAt
    rw [hw]
    obtain ⟨q1, q2⟩ := selectModes_mem hs (fun _ : Fin 1 => (3 / 2 : ℝ)) 0 (le_refl 1)
    have hl : List.ofFn (fun _ : Fin b.length => (3 / 2 : ℝ)) = [3 / 2] := rfl
    have hl' : List.ofFn (fun _ : Fin 1 => (3 / 2 : ℝ)) = [3 / 2] := rfl
    rw [hl'] at q1 q2
    rw [hl]
    have hsel : selectModes argsort ([3 / 2].map freqOf) 0 1 = [0] := by
      obtain ⟨x, hx⟩ := List.length_eq_one_iff.1 q2
      have : x = 0 := Nat.lt_one_iff.1 (q1 x (by rw [hx]; simp))
      rw [hx, this]
    simp only [solveFull, List.length_singleton, lt_self_iff_false, if_false, hsel]
    norm_num [freqOf, Real.pi_ne_zero]
  obtain ⟨f', h1, -⟩ := C145_error argsort hs eigh he (fun _ _ => 1) [(.inner 1, 1)] (fun _ : Fin 1 => b) 1
    (fun _ _ => 0) (fun _ _ => one_pos) 0 one_pos (fun _ : Fin 1 => false) (fun _ t _ => (t : ℂ)) (fun _ _ => 1) 2
    (fun _ _ => Complex.ofRealCLM.hasDerivAt) (fun _ => by
      rw [if_neg (by simp)]
      simp [Matrix.det_fin_one]) 0 1 (fun _ => le_refl 1) (fun _ i => if i = 0 then 1 else 0) (fun _ => V) (fun _ => hV)
    (fun _ x y _ => Subsingleton.elim (α := Fin 1) x y) (fun q i hc => by
      have : i = 0 := by
        by_contra h
        simp [h] at hc
      rw [this]
      exact hf)
  refine ⟨f' 0 0, ?_⟩
  simpa using h1

end Legume
