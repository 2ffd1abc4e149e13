import Mathlib.Algebra.Field.GeomSum
import Mathlib.Analysis.SpecialFunctions.Complex.Log
import Mathlib.Algebra.Order.Floor.Semifield
import Verif.Lemmas.BlockIn
import Verif.Spec.Supercell
import Verif.Props.PweSim

/-! # C137: supercells in `PlaneWaveExp` -/
namespace Legume

open Matrix Spec

theorem sum_flatMap_map {α β : Type} (l : List α) (f : α → List β) (g : β → ℂ) :
    ((l.flatMap f).map g).sum = (l.map fun a => ((f a).map g).sum).sum := by
  induction l with
  | nil => simp
  | cons a l ih => simp [List.flatMap_cons, ih]

theorem mapM_pure_ok {α β : Type} (f : α → β) (l : List α) :
    l.mapM (fun a => (.ok (f a) : Except PyErr β)) = .ok (l.map f) := by
  induction l with
  | nil => rfl
  | cons a l ih => simp only [List.mapM_cons, bind, Except.bind, ih, pure, Except.pure, List.map_cons]

/-- Sum of the `N`-th roots of unity to the power `i`. -/
theorem roots_sum (N : ℕ) (hN : 0 < N) (i : ℤ) :
    ∑ m ∈ Finset.range N, Complex.exp (-Complex.I * (2 * Real.pi * i / N)) ^ m = if (N : ℤ) ∣ i then (N : ℂ) else 0 := by
  have hN0 : (N : ℂ) ≠ 0 := by exact_mod_cast hN.ne'
  have hpi : (Real.pi : ℂ) ≠ 0 := by exact_mod_cast Real.pi_ne_zero
  split_ifs with h
  · obtain ⟨j, rfl⟩ := h
    have : Complex.exp (-Complex.I * (2 * Real.pi * ((N * j : ℤ) : ℂ) / N)) = 1 := by
      rw [Complex.exp_eq_one_iff]
      refine ⟨-j, ?_⟩
      push_cast
      field_simp
    rw [this]
    simp
  · rw [geom_sum_eq, ← Complex.exp_nat_mul]
    · have : Complex.exp ((N : ℂ) * (-Complex.I * (2 * Real.pi * i / N))) = 1 := by
        rw [Complex.exp_eq_one_iff]
        refine ⟨-i, ?_⟩
        push_cast
        field_simp
      rw [this, sub_self, zero_div]
    · intro h1
      rw [Complex.exp_eq_one_iff] at h1
      obtain ⟨n, hn⟩ := h1
      apply h
      refine ⟨-n, ?_⟩
      have h2 : (i : ℂ) = ((N : ℤ) * -n : ℤ) := by
        push_cast
        field_simp at hn
        linear_combination -hn
      exact_mod_cast h2

theorem displaced_sum {t : R2} {epsB : ℝ} {shapes shapes' : List FShape} (h : List.Forall₂ (Displaced t) shapes shapes')
    (g : R2) (hg : ¬ (|g.1| < 1e-10 ∧ |g.2| < 1e-10)) :
    (shapes'.map fun s => ((s.eps : ℂ) - epsB) * s.ft g).sum =
      Complex.exp (-Complex.I * (g.1 * t.1 + g.2 * t.2)) * (shapes.map fun s => ((s.eps : ℂ) - epsB) * s.ft g).sum := by
  induction h with
  | nil => simp
  | cons hd _ ih =>
    rw [List.map_cons, List.sum_cons, List.map_cons, List.sum_cons, mul_add, ih, hd.1, hd.2 g hg]
    ring

/-- The transform of a supercell: that of the cell at the reciprocal vectors of the cell, and zero between them. -/
theorem layerFt_super (epsB epsAvg A : ℝ) (N1 N2 : ℕ) (h1 : 0 < N1) (h2 : 0 < N2) (a1 a2 b1 b2 b1' b2' : R2)
    (hr : Reciprocal a1 a2 b1 b2) (hb1 : NthPart N1 b1 b1') (hb2 : NthPart N2 b2 b2') (hL : Resolved b1' b2')
    (shapes shapes' : List FShape) (hc : Copies N1 N2 a1 a2 shapes shapes') (i : ℤ × ℤ) :
    layerFt epsB epsAvg (N1 * N2 * A) shapes' (gOf b1' b2' i) =
      if (N1 : ℤ) ∣ i.1 ∧ (N2 : ℤ) ∣ i.2 then layerFt epsB epsAvg A shapes (gOf b1' b2' i) else 0 := by
  have hN1 : (N1 : ℝ) ≠ 0 := by exact_mod_cast h1.ne'
  have hN2 : (N2 : ℝ) ≠ 0 := by exact_mod_cast h2.ne'
  by_cases h0 : i = (0, 0)
  · subst h0
    have hz : isG0 (gOf b1' b2' (0, 0)) := by simp [isG0, gOf]; norm_num
    rw [layerFt_g0 _ _ _ _ _ hz, layerFt_g0 _ _ _ _ _ hz, if_pos ⟨dvd_zero _, dvd_zero _⟩]
  · have hg : ¬ (|(gOf b1' b2' i).1| < 1e-10 ∧ |(gOf b1' b2' i).2| < 1e-10) := hL i.1 i.2 h0
    have hg0 : ¬ |(gOf b1' b2' i).1| + |(gOf b1' b2' i).2| < 1e-10 := fun hc => hg (isG0_small hc)
    obtain ⟨c, hcd, hp⟩ := hc
    rw [C12_layer_value _ _ _ _ _ hg0, C12_layer_value _ _ _ _ _ hg0, (hp.map _).sum_eq, sum_flatMap_map]
    set S := (shapes.map fun s => ((s.eps : ℂ) - epsB) * s.ft (gOf b1' b2' i)).sum with hS
    set x := Complex.exp (-Complex.I * (2 * Real.pi * i.1 / N1)) with hx
    set y := Complex.exp (-Complex.I * (2 * Real.pi * i.2 / N2)) with hy
    have d1 : (gOf b1' b2' i).1 * a1.1 + (gOf b1' b2' i).2 * a1.2 = 2 * Real.pi * i.1 / N1 := by
      have e1 := hr.h11
      have e2 := hr.h12
      rw [hb1] at e1
      rw [hb2] at e2
      simp only [gOf] at *
      have e2' : a1.1 * b2'.1 + a1.2 * b2'.2 = 0 := by
        have : (N2 : ℝ) * (a1.1 * b2'.1 + a1.2 * b2'.2) = 0 := by linarith
        exact (mul_eq_zero.1 this).resolve_left hN2
      rw [eq_div_iff hN1]
      linear_combination (i.1 : ℝ) * e1 + (N1 : ℝ) * i.2 * e2'
    have d2 : (gOf b1' b2' i).1 * a2.1 + (gOf b1' b2' i).2 * a2.2 = 2 * Real.pi * i.2 / N2 := by
      have e1 := hr.h21
      have e2 := hr.h22
      rw [hb1] at e1
      rw [hb2] at e2
      simp only [gOf] at *
      have e1' : a2.1 * b1'.1 + a2.2 * b1'.2 = 0 := by
        have : (N1 : ℝ) * (a2.1 * b1'.1 + a2.2 * b1'.2) = 0 := by linarith
        exact (mul_eq_zero.1 this).resolve_left hN1
      rw [eq_div_iff hN2]
      linear_combination (i.2 : ℝ) * e2 + (N2 : ℝ) * i.1 * e1'
    have key : ∀ m < N1, ∀ n < N2, ((c m n).map fun s => ((s.eps : ℂ) - epsB) * s.ft (gOf b1' b2' i)).sum =
        x ^ m * y ^ n * S := by
      intro m hm n hn
      rw [displaced_sum (hcd m hm n hn) _ hg, hx, hy, ← Complex.exp_nat_mul, ← Complex.exp_nat_mul, ← Complex.exp_add]
      congr 2
      have e1 := congrArg (fun r : ℝ => (r : ℂ)) d1
      have e2 := congrArg (fun r : ℝ => (r : ℂ)) d2
      push_cast at e1 e2 ⊢
      linear_combination -Complex.I * m * e1 - Complex.I * n * e2
    have inner : ∀ m ∈ List.range N1, (((List.range N2).flatMap fun n => c m n).map
        fun s => ((s.eps : ℂ) - epsB) * s.ft (gOf b1' b2' i)).sum = x ^ m * ((∑ n ∈ Finset.range N2, y ^ n) * S) := by
      intro m hm
      rw [sum_flatMap_map, Finset.sum_mul, Finset.mul_sum, Finset.sum_range, ← List.sum_ofFn,
        ← List.ofFn_getElem (xs := List.map _ (List.range N2))]
      congr 1
      apply List.ext_getElem
      · simp
      · intro k hk hk'
        simp only [List.getElem_ofFn, List.getElem_map, List.getElem_range]
        rw [key m (List.mem_range.1 hm) k (by simpa using hk)]
        ring
    rw [List.map_congr_left inner]
    have outer : ((List.range N1).map fun m => x ^ m * ((∑ n ∈ Finset.range N2, y ^ n) * S)).sum =
        (∑ m ∈ Finset.range N1, x ^ m) * ((∑ n ∈ Finset.range N2, y ^ n) * S) := by
      generalize (∑ n ∈ Finset.range N2, y ^ n) * S = Z
      rw [Finset.sum_mul]
      rfl
    rw [outer, hx, hy, roots_sum N1 h1, roots_sum N2 h2]
    by_cases e1 : (N1 : ℤ) ∣ i.1 <;> by_cases e2 : (N2 : ℤ) ∣ i.2
    · rw [if_pos e1, if_pos e2, if_pos ⟨e1, e2⟩]
      have h1' : (N1 : ℂ) ≠ 0 := by exact_mod_cast h1.ne'
      have h2' : (N2 : ℂ) ≠ 0 := by exact_mod_cast h2.ne'
      push_cast
      rw [← mul_assoc, mul_div_mul_left _ _ (mul_ne_zero h1' h2')]
    · simp [e2]
    · simp [e1]
    · simp [e1]

/-- The indices of the plane waves. -/
noncomputable def pweInd (L : PweLayer) (gmax : ℝ) (I : Fin (L.gvec gmax).length) : ℤ × ℤ :=
  (tbtInds (L.n1 gmax) (L.n2 gmax))[(I : ℕ)]'(by have := I.2; simpa [PweLayer.gvec] using this)

theorem pweInd_injective (L : PweLayer) (gmax : ℝ) : Function.Injective (pweInd L gmax) := fun _ _ h =>
  Fin.ext ((tbtInds_nodup _ _).getElem_inj_iff.1 h)

theorem pweInd_g (L : PweLayer) (gmax : ℝ) (I) : L.gAt gmax I = gOf L.b1 L.b2 (pweInd L gmax I) :=
  List.getElem_map (gOf L.b1 L.b2)

theorem pweInd_mem (L : PweLayer) (gmax : ℝ) (i : ℤ × ℤ) :
    (∃ I, pweInd L gmax I = i) ↔ |i.1| ≤ L.n1 gmax ∧ |i.2| ≤ L.n2 gmax := by
  rw [abs_le, abs_le, ← mem_tbtInds, List.mem_iff_getElem]
  constructor
  · rintro ⟨I, h⟩
    exact ⟨I, _, h⟩
  · rintro ⟨I, hI, h⟩
    exact ⟨⟨I, by simpa [PweLayer.gvec] using hI⟩, h⟩

/-- Numbers of plane waves along the vectors. -/
theorem nmax_part (N : ℕ) (hN : 0 < N) (gmax : ℝ) (b b' : R2) (h : NthPart N b b') :
    nmaxOf (2 * Real.pi) gmax b = nmaxOf (2 * Real.pi) gmax b' / N := by
  have hN0 : (0 : ℝ) < N := by exact_mod_cast hN
  have hn : norm2 b = N * norm2 b' := by
    rw [h]
    unfold norm2
    rw [← Real.sqrt_sq hN0.le, ← Real.sqrt_mul (sq_nonneg _), Real.sqrt_sq hN0.le]
    congr 1
    simp only
    ring
  unfold nmaxOf
  rw [hn, ← Nat.floor_div_natCast]
  congr 1
  rw [div_div, mul_comm (N : ℝ)]

theorem abs_mul_le (N : ℕ) (hN : 0 < N) (n : ℕ) (i : ℤ) : |(N : ℤ) * i| ≤ n ↔ |i| ≤ ((n / N : ℕ) : ℤ) := by
  rw [abs_mul, Nat.abs_cast, Int.natCast_div, Int.le_ediv_iff_mul_le (by exact_mod_cast hN), mul_comm]

/-- A supercell of `N1` by `N2` cells. -/
structure SuperOf (N1 N2 : ℕ) (a1 a2 : R2) (L L' : PweLayer) : Prop where
  n1 : 0 < N1
  n2 : 0 < N2
  recip : Reciprocal a1 a2 L.b1 L.b2
  b1 : NthPart N1 L.b1 L'.b1
  b2 : NthPart N2 L.b2 L'.b2
  area : L'.ecArea = N1 * N2 * L.ecArea
  epsB : L'.epsB = L.epsB
  epsAvg : L'.epsAvg = L.epsAvg
  shapes : Copies N1 N2 a1 a2 L.shapes L'.shapes

theorem super_g {N1 N2 : ℕ} {a1 a2 : R2} {L L' : PweLayer} (h : SuperOf N1 N2 a1 a2 L L') (i : ℤ × ℤ) :
    gOf L'.b1 L'.b2 (N1 * i.1, N2 * i.2) = gOf L.b1 L.b2 i := by
  have e1 := h.b1
  have e2 := h.b2
  unfold NthPart at e1 e2
  rw [e1, e2]
  simp only [gOf, Prod.mk.injEq]
  push_cast
  constructor <;> ring

theorem super_ft {N1 N2 : ℕ} {a1 a2 : R2} {L L' : PweLayer} (h : SuperOf N1 N2 a1 a2 L L') (hL : Resolved L'.b1 L'.b2)
    (i : ℤ × ℤ) : L'.ft (gOf L'.b1 L'.b2 i) =
      if (N1 : ℤ) ∣ i.1 ∧ (N2 : ℤ) ∣ i.2 then L.ft (gOf L'.b1 L'.b2 i) else 0 := by
  unfold PweLayer.ft
  rw [h.area, h.epsB, h.epsAvg]
  exact layerFt_super _ _ _ N1 N2 h.n1 h.n2 a1 a2 _ _ _ _ h.recip h.b1 h.b2 hL _ _ h.shapes i

/-- The plane waves of the cell among those of the supercell. -/
theorem super_waves {N1 N2 : ℕ} {a1 a2 : R2} {L L' : PweLayer} (h : SuperOf N1 N2 a1 a2 L L') (gmax : ℝ) :
    ∃ f : Fin (L.gvec gmax).length → Fin (L'.gvec gmax).length, Function.Injective f ∧
      (∀ I, pweInd L' gmax (f I) = (N1 * (pweInd L gmax I).1, N2 * (pweInd L gmax I).2)) ∧
      ∀ J, J ∉ Set.range f → ¬ ((N1 : ℤ) ∣ (pweInd L' gmax J).1 ∧ (N2 : ℤ) ∣ (pweInd L' gmax J).2) := by
  have e1 : L.n1 gmax = L'.n1 gmax / N1 := nmax_part N1 h.n1 gmax _ _ h.b1
  have e2 : L.n2 gmax = L'.n2 gmax / N2 := nmax_part N2 h.n2 gmax _ _ h.b2
  have ex : ∀ I, ∃ J, pweInd L' gmax J = (N1 * (pweInd L gmax I).1, N2 * (pweInd L gmax I).2) := by
    intro I
    rw [pweInd_mem, abs_mul_le _ h.n1, abs_mul_le _ h.n2, ← e1, ← e2]
    exact (pweInd_mem L gmax _).1 ⟨I, rfl⟩
  choose f hf using ex
  have z1 : (N1 : ℤ) ≠ 0 := by exact_mod_cast h.n1.ne'
  have z2 : (N2 : ℤ) ≠ 0 := by exact_mod_cast h.n2.ne'
  refine ⟨f, fun I J e => pweInd_injective L gmax ?_, hf, ?_⟩
  · have := (hf I).symm.trans ((congrArg _ e).trans (hf J))
    simp only [Prod.mk.injEq, mul_eq_mul_left_iff, z1, z2, or_false] at this
    exact Prod.ext this.1 this.2
  · rintro J hJ ⟨⟨i, hi⟩, ⟨j, hj⟩⟩
    apply hJ
    have hm := (pweInd_mem L' gmax _).1 ⟨J, rfl⟩
    rw [hi, hj, abs_mul_le _ h.n1, abs_mul_le _ h.n2, ← e1, ← e2] at hm
    obtain ⟨I, hI⟩ := (pweInd_mem L gmax (i, j)).2 hm
    refine ⟨I, pweInd_injective L' gmax ?_⟩
    rw [hf, hI]
    exact Prod.ext hi.symm hj.symm

/-- The permittivity matrix of the cell is a decoupled block of that of the supercell. -/
theorem super_block {N1 N2 : ℕ} {a1 a2 : R2} {L L' : PweLayer} (h : SuperOf N1 N2 a1 a2 L L') (hL : Resolved L'.b1 L'.b2)
    (hF : ∀ g : R2, L.ft (-g.1, -g.2) = (starRingEnd ℂ) (L.ft g))
    (hF' : ∀ g : R2, L'.ft (-g.1, -g.2) = (starRingEnd ℂ) (L'.ft g)) (gmax : ℝ) :
    ∃ f : Fin (L.gvec gmax).length → Fin (L'.gvec gmax).length, Function.Injective f ∧
      (∀ I, L'.gAt gmax (f I) = L.gAt gmax I) ∧ BlockIn f (L.epsMat gmax) (L'.epsMat gmax) := by
  obtain ⟨f, hf, hi, hn⟩ := super_waves h gmax
  have hg : ∀ I, L'.gAt gmax (f I) = L.gAt gmax I := by
    intro I
    rw [pweInd_g, hi, super_g h, pweInd_g]
  have ent : ∀ A B, L'.epsMat gmax A B = if (N1 : ℤ) ∣ (pweInd L' gmax A).1 - (pweInd L' gmax B).1 ∧
      (N2 : ℤ) ∣ (pweInd L' gmax A).2 - (pweInd L' gmax B).2 then
        L.ft (gOf L'.b1 L'.b2 ((pweInd L' gmax A).1 - (pweInd L' gmax B).1, (pweInd L' gmax A).2 - (pweInd L' gmax B).2))
      else 0 := by
    intro A B
    rw [pweEps_entry L' gmax hF', pweInd_g, pweInd_g, gOf_diff, super_ft h hL]
  refine ⟨f, hf, hg, fun I J => ?_, fun I J hJ => ?_, fun I J hJ => ?_⟩
  · rw [ent, if_pos, ← gOf_diff, ← pweInd_g, ← pweInd_g, hg, hg, pweEps_entry L gmax hF]
    rw [hi, hi]
    exact ⟨⟨(pweInd L gmax I).1 - (pweInd L gmax J).1, by simp only; ring⟩,
      ⟨(pweInd L gmax I).2 - (pweInd L gmax J).2, by simp only; ring⟩⟩
  · rw [ent, if_neg]
    rintro ⟨d1, d2⟩
    rw [hi] at d1 d2
    refine hn J hJ ⟨?_, ?_⟩
    · exact (dvd_sub_right (Dvd.intro _ rfl)).1 d1
    · exact (dvd_sub_right (Dvd.intro _ rfl)).1 d2
  · rw [ent, if_neg]
    rintro ⟨d1, d2⟩
    rw [hi] at d1 d2
    refine hn J hJ ⟨?_, ?_⟩
    · exact (dvd_sub_left (Dvd.intro _ rfl)).1 d1
    · exact (dvd_sub_left (Dvd.intro _ rfl)).1 d2

theorem pweMat_block {n n' : ℕ} {f : Fin n → Fin n'} {E : Matrix (Fin n) (Fin n) ℂ} {E' : Matrix (Fin n') (Fin n') ℂ}
    (h : BlockIn f E E') (hf : Function.Injective f) (p : Pol) (k : R2) (g : Fin n → R2) (g' : Fin n' → R2)
    (hg : ∀ I, g' (f I) = g I) : BlockIn f (pweMat p k g E + 1) (pweMat p k g' E' + 1) := by
  refine ⟨fun i j => ?_, fun i j hj => ?_, fun i j hj => ?_⟩
  · simp only [Matrix.add_apply, pweMat, of_apply, hg, h.entry, one_apply, hf.eq_iff]
  · have hne : f i ≠ j := fun e => hj ⟨i, e⟩
    simp only [Matrix.add_apply, pweMat, of_apply, h.row i j hj, one_apply, if_neg hne]
    cases p <;> simp
  · have hne : j ≠ f i := fun e => hj ⟨i, e.symm⟩
    simp only [Matrix.add_apply, pweMat, of_apply, h.col i j hj, one_apply, if_neg hne]
    cases p <;> simp

/-- The sorted frequencies belonging to a list of eigenvalues. -/
noncomputable def sortedFreqs (w : List ℝ) : List ℝ := (w.map freqOf).mergeSort fun a b => decide (a ≤ b)

theorem sortedFreqs_sorted (w : List ℝ) : (sortedFreqs w).Pairwise (· ≤ ·) := by
  have := List.pairwise_mergeSort (le := fun a b : ℝ => decide (a ≤ b))
    (fun a b c h1 h2 => by simp at *; exact h1.trans h2) (fun a b => by simpa using le_total a b) (w.map freqOf)
  simpa [sortedFreqs] using this

theorem sortedFreqs_perm (w : List ℝ) : (sortedFreqs w).Perm (w.map freqOf) := List.mergeSort_perm _ _

theorem solvePwe_sortedFreqs (argsort : List ℝ → List ℕ) (hs : ∀ l, IsArgsort l (argsort l)) (w : List ℝ) (numeig : ℕ) :
    (solvePwe argsort w numeig).freq = (sortedFreqs w).take numeig :=
  solvePwe_freq argsort hs w _ (sortedFreqs_perm w) (sortedFreqs_sorted w) numeig

theorem sortedFreqs_sublist {w u : List ℝ} (h : w.Subperm u) : (sortedFreqs w).Sublist (sortedFreqs u) := by
  refine List.sublist_of_subperm_of_pairwise ?_ (sortedFreqs_sorted w) (sortedFreqs_sorted u)
  obtain ⟨l, hl, hs⟩ := h
  exact (sortedFreqs_perm w).subperm.trans (((hl.map freqOf).symm.subperm.trans (hs.map freqOf).subperm).trans
    (sortedFreqs_perm u).symm.subperm)

/-- One frequency list is part of another one; the smallest of the other are not larger. -/
def FoldedIn (numeig' total : ℕ) (f f' : List ℝ) : Prop :=
  (total ≤ numeig' → f.Sublist f') ∧ ∀ (i : ℕ) (hi : i < f.length) (hi' : i < f'.length), f'[i] ≤ f[i]

theorem foldedIn_take (numeig numeig' : ℕ) {l l' : List ℝ} (h : l.Sublist l') (hs : l'.Pairwise (· ≤ ·)) :
    FoldedIn numeig' l'.length (l.take numeig) (l'.take numeig') := by
  constructor
  · intro hle
    rw [List.take_of_length_le hle]
    exact (List.take_sublist _ _).trans h
  · intro i hi hi'
    rw [List.getElem_take, List.getElem_take]
    exact sublist_sorted_le h hs i _ _

/-- **C137 (supercells).** Let a layer be described by a supercell of `N1` by `N2` cells, and let `PlaneWaveExp` return
frequencies of the supercell. Then it returns frequencies of the cell with the same cutoff, wave vectors and polarisation;
all of them are among those of the supercell if all of these are asked for, and for any numbers of frequencies the `i`-th
one of the supercell is not larger than the `i`-th one of the cell. -/
theorem C137_supercell (argsort : List ℝ → List ℕ) (hs : ∀ l, IsArgsort l (argsort l))
    (eigh : ∀ n, Matrix (Fin n) (Fin n) ℂ → Fin n → ℝ) (he : GoodEigh eigh) (N1 N2 : ℕ) (a1 a2 : R2) (L L' : PweLayer)
    (h : SuperOf N1 N2 a1 a2 L L') (hL : Resolved L'.b1 L'.b2) (hr : ∀ s ∈ L.shapes, RealShape s)
    (hr' : ∀ s ∈ L'.shapes, RealShape s) (gmax : ℝ) (ks : List R2) (pol : String) (numeig numeig' : ℕ)
    (F' : List (List ℝ)) (hF' : pweFreqs argsort eigh L' gmax ks pol numeig' = .ok F') :
    ∃ F, pweFreqs argsort eigh L gmax ks pol numeig = .ok F ∧
      List.Forall₂ (FoldedIn numeig' (L'.gvec gmax).length) F F' := by
  classical
  have hc := pweFt_conj L hr
  have hc' := pweFt_conj L' hr'
  obtain ⟨f, hf, hg, hb⟩ := super_block h hL hc hc' gmax
  rw [pweFreqs_eq] at hF'
  rw [pweFreqs_eq]
  by_cases hd : (L'.epsMat gmax).det = 0
  · rw [if_pos hd] at hF'
    cases hF'
  · rw [if_neg hd] at hF'
    obtain ⟨hd', hbi⟩ := blockIn_inv hf hb hd
    rw [if_neg hd']
    cases hp : parsePol pol with
    | error e =>
      rw [hp] at hF'
      cases ks with
      | nil =>
        refine ⟨[], rfl, ?_⟩
        cases hF'
        exact .nil
      | cons k ks => simp [List.mapM_cons, bind, Except.bind] at hF'
    | ok p =>
      rw [hp] at hF'
      simp only at hF' ⊢
      have hF2 : F' = ks.map fun k => (solvePwe argsort (List.ofFn (eigh _ (pweMat p k (L'.gAt gmax)
          (L'.epsMat gmax)⁻¹ + 1))) numeig').freq := by
        have := mapM_pure_ok (fun k => (solvePwe argsort (List.ofFn (eigh _ (pweMat p k (L'.gAt gmax)
          (L'.epsMat gmax)⁻¹ + 1))) numeig').freq) ks
        rw [this] at hF'
        exact (Except.ok.inj hF').symm
      refine ⟨_, mapM_pure_ok _ ks, ?_⟩
      rw [hF2, List.forall₂_map_left_iff, List.forall₂_map_right_iff, List.forall₂_same]
      intro k _
      rw [solvePwe_sortedFreqs argsort hs, solvePwe_sortedFreqs argsort hs]
      have m1 := pweMat_hermitian p k (L.gAt gmax) _ (pweEps_hermitian L gmax hc).inv
      have m2 := pweMat_hermitian p k (L'.gAt gmax) _ (pweEps_hermitian L' gmax hc').inv
      obtain ⟨V, hV⟩ := he _ _ m1
      obtain ⟨V', hV'⟩ := he _ _ m2
      have hdvd := blockIn_charpoly hf (pweMat_block hbi hf p k (L.gAt gmax) (L'.gAt gmax) hg)
      have hsub := sortedFreqs_sublist (isEigh_subperm hV hV' hdvd)
      have := foldedIn_take numeig numeig' hsub (sortedFreqs_sorted _)
      rwa [(sortedFreqs_perm _).length_eq, List.length_map, List.length_ofFn] at this

/-- A square lattice with one round hole per cell. -/
noncomputable def holeCell (J : ℝ → ℝ) : PweLayer :=
  ⟨(2 * Real.pi, 0), (0, 2 * Real.pi), 1, 12, 11, [⟨1, Circle.ft J ⟨0, 0, 0.2⟩⟩]⟩

/-- The same with two cells and two holes. -/
noncomputable def holePair (J : ℝ → ℝ) : PweLayer :=
  ⟨(Real.pi, 0), (0, 2 * Real.pi), 2, 12, 11, [⟨1, Circle.ft J ⟨0, 0, 0.2⟩⟩, ⟨1, Circle.ft J ⟨1, 0, 0.2⟩⟩]⟩

theorem holePair_super (J : ℝ → ℝ) : SuperOf 2 1 (1, 0) (0, 1) (holeCell J) (holePair J) := by
  refine ⟨by norm_num, by norm_num, ⟨?_, ?_, ?_, ?_⟩, ?_, ?_, ?_, rfl, rfl, ?_⟩
  · simp [holeCell]
  · simp [holeCell]
  · simp [holeCell]
  · simp [holeCell]
  · simp [NthPart, holeCell, holePair]
  · simp [NthPart, holeCell, holePair]
  · simp [holeCell, holePair]
  · refine ⟨fun m n => [⟨1, Circle.ft J ⟨0 + m * 1 + n * 0, 0 + m * 0 + n * 1, 0.2⟩⟩], ?_, ?_⟩
    · intro m _ n _
      refine .cons ?_ .nil
      have := displaced_circle J 1 ⟨0, 0, 0.2⟩ (m * 1 + n * 0, m * 0 + n * 1)
      simpa [add_assoc] using this
    · simp [holePair, List.range_succ]

theorem resolved_pair : Resolved (Real.pi, 0) (0, 2 * Real.pi) := by
  rintro m n hmn ⟨e1, e2⟩
  simp only [zero_mul, add_zero, zero_add] at e1 e2
  have big : ∀ (c : ℝ), 1 ≤ c → ∀ z : ℤ, |c * z| < 1e-10 → z = 0 := by
    intro c hc z hz
    by_contra h0
    have h1 : (1 : ℝ) ≤ |(z : ℝ)| := by exact_mod_cast Int.one_le_abs h0
    rw [abs_mul, abs_of_pos (by linarith)] at hz
    have : (1 : ℝ) ≤ c * |(z : ℝ)| := by nlinarith
    norm_num at hz
    linarith
  have hpi := Real.pi_gt_three
  rw [big _ (by linarith) m e1, big _ (by linarith) n e2] at hmn
  exact hmn rfl

/-- Two holes in a doubled cell: with the cutoff 3, the supercell has 13 times 7 plane waves, 7 times 7 of them those of
the cell. -/
example (J : ℝ → ℝ) (argsort : List ℝ → List ℕ) (hs : ∀ l, IsArgsort l (argsort l))
    (eigh : ∀ n, Matrix (Fin n) (Fin n) ℂ → Fin n → ℝ) (he : GoodEigh eigh) (k : R2) (F' : List (List ℝ))
    (hF' : pweFreqs argsort eigh (holePair J) 3 [k] "te" 91 = .ok F') :
    ∃ F, pweFreqs argsort eigh (holeCell J) 3 [k] "te" 5 = .ok F ∧
      List.Forall₂ (FoldedIn 91 ((holePair J).gvec 3).length) F F' := by
  refine C137_supercell argsort hs eigh he 2 1 (1, 0) (0, 1) _ _ (holePair_super J) resolved_pair ?_ ?_ 3 [k] "te" 5 91 F' hF'
  · simp only [holeCell, List.mem_cons, List.not_mem_nil, or_false]
    rintro s rfl
    exact C12_circle_conj J _
  · simp only [holePair, List.mem_cons, List.not_mem_nil, or_false]
    rintro s (rfl | rfl)
    · exact C12_circle_conj J _
    · exact C12_circle_conj J _

end Legume
