import Mathlib.LinearAlgebra.Matrix.Charpoly.Basic
import Mathlib.LinearAlgebra.Matrix.SchurComplement
import Verif.Model.KzRun
import Verif.Props.Symmetry
import Verif.Props.GmeRun
import Verif.Props.GmeSim

/-!
# The spectrum of a matrix split into an even and an odd block, and the selection of modes from permuted lists
-/
namespace Legume

open Spec Matrix

/-! ### Selection -/

theorem argsort_map_perm {argsort : List ℝ → List ℕ} (hs : ∀ l, IsArgsort l (argsort l)) (d : List ℝ) :
    ((argsort d).map fun (i : ℕ) => d.getD i 0).Perm d := by
  refine ((hs d).1.map _).trans ?_
  have : (List.range d.length).map (fun (i : ℕ) => d.getD i 0) = d := by
    apply List.ext_getElem
    · simp
    · intro i h1 h2
      simp only [List.getElem_map, List.getElem_range, List.getD_eq_getElem?_getD, List.getElem?_eq_getElem h2,
        Option.getD_some]
  rw [this]

theorem select_near_perm {argsort : List ℝ → List ℕ} (hs : ∀ l, IsArgsort l (argsort l)) (freq1 : List ℝ) (sigma : ℝ)
    (numeig : ℕ) : (selectModes argsort freq1 sigma numeig).Perm (findNearest argsort freq1 sigma numeig) := by
  unfold selectModes
  simp only
  set near := findNearest argsort freq1 sigma numeig
  have hp := (hs (near.map fun (i : ℕ) => freq1.getD i 0)).1
  rw [List.length_map] at hp
  refine (hp.map _).trans ?_
  have : (List.range near.length).map (fun (i : ℕ) => near.getD i 0) = near := by
    apply List.ext_getElem
    · simp
    · intro i h1 h2
      simp only [List.getElem_map, List.getElem_range, List.getD_eq_getElem?_getD, List.getElem?_eq_getElem h2,
        Option.getD_some]
  rw [this]

theorem near_dist {argsort : List ℝ → List ℕ} (hs : ∀ l, IsArgsort l (argsort l)) (freq1 : List ℝ) (sigma : ℝ)
    (N : ℕ) : (findNearest argsort freq1 sigma N).map (fun (i : ℕ) => |freq1.getD i 0 - sigma|) =
      ((argsort (freq1.map fun a => |a - sigma|)).map
        fun (i : ℕ) => (freq1.map fun a => |a - sigma|).getD i 0).take N := by
  unfold findNearest
  rw [pyTake_nonneg, ← List.map_take]
  refine List.map_congr_left fun i hi => ?_
  have hi' := (hs (freq1.map fun a => |a - sigma|)).1.mem_iff.1 (List.mem_of_mem_take hi)
  rw [List.mem_range, List.length_map] at hi'
  simp only [List.getD_eq_getElem?_getD, List.getElem?_map, List.getElem?_eq_getElem hi', Option.map_some,
    Option.getD_some]

/-- From two orderings of the same frequencies modes at the same distances from `sigma` are selected. -/
theorem select_dist_perm {argsort : List ℝ → List ℕ} (hs : ∀ l, IsArgsort l (argsort l)) {f g : List ℝ} (h : f.Perm g)
    (sigma : ℝ) (numeig : ℕ) :
    ((selectModes argsort f sigma numeig).map fun (i : ℕ) => |f.getD i 0 - sigma|).Perm
      ((selectModes argsort g sigma numeig).map fun (i : ℕ) => |g.getD i 0 - sigma|) := by
  refine ((select_near_perm hs f sigma numeig).map _).trans (List.Perm.trans ?_
    ((select_near_perm hs g sigma numeig).map _).symm)
  rw [near_dist hs, near_dist hs]
  have e : (argsort (f.map fun a => |a - sigma|)).map (fun (i : ℕ) => (f.map fun a => |a - sigma|).getD i 0) =
      (argsort (g.map fun a => |a - sigma|)).map (fun (i : ℕ) => (g.map fun a => |a - sigma|).getD i 0) := by
    refine List.Perm.eq_of_pairwise' (r := (· ≤ ·)) (hs _).2 (hs _).2 ?_
    exact (argsort_map_perm hs _).trans ((h.map _).trans (argsort_map_perm hs _).symm)
  rw [e]

/-- Below all frequencies there are no two at the same distance. -/
theorem select_freq_eq {argsort : List ℝ → List ℕ} (hs : ∀ l, IsArgsort l (argsort l)) {f g : List ℝ} (h : f.Perm g)
    (sigma : ℝ) (numeig : ℕ) (hn : numeig ≤ f.length) (hsig : ∀ a ∈ f, sigma ≤ a) :
    (selectModes argsort f sigma numeig).map (fun (i : ℕ) => f.getD i 0) =
      (selectModes argsort g sigma numeig).map (fun (i : ℕ) => g.getD i 0) := by
  obtain ⟨-, -, a3, a4, -⟩ := select_facts argsort hs f sigma numeig hn
  obtain ⟨-, -, b3, b4, -⟩ := select_facts argsort hs g sigma numeig (h.length_eq ▸ hn)
  refine List.Perm.eq_of_pairwise' (r := (· ≤ ·)) a4 b4 ?_
  have := (select_dist_perm hs h sigma numeig).map (· + sigma)
  rw [List.map_map, List.map_map] at this
  have key : ∀ (l : List ℝ) (sel : List ℕ), (∀ i ∈ sel, i < l.length) → (∀ a ∈ l, sigma ≤ a) →
      sel.map ((· + sigma) ∘ fun (i : ℕ) => |l.getD i 0 - sigma|) = sel.map fun (i : ℕ) => l.getD i 0 := by
    intro l sel h1 h2
    refine List.map_congr_left fun i hi => ?_
    have : l.getD i 0 ∈ l := by
      rw [List.getD_eq_getElem?_getD, List.getElem?_eq_getElem (h1 i hi)]
      exact List.getElem_mem _
    simp only [Function.comp_apply]
    rw [abs_of_nonneg (sub_nonneg.2 (h2 _ this)), sub_add_cancel]
  rwa [key f _ a3 hsig, key g _ b3 fun a ha => hsig a (h.mem_iff.2 ha)] at this

/-! ### The two blocks -/

theorem sep_charpoly {n : ℕ} (M : Matrix (Fin n) (Fin n) ℂ) (s : Separated) (hsz : s.even + s.odd = n)
    (hcols : ∀ k < n, ∀ l < n, ∑ i ∈ Finset.range n, s.V i k * s.V i l = if k = l then 1 else 0)
    (hsep : ∀ k l, s.sep k l = changeBasis n s.V (natMat M) k l)
    (hdec : ∀ k l, k < s.even → l < s.odd → s.sep k (s.even + l) = 0 ∧ s.sep (s.even + l) k = 0) :
    (M + 1).charpoly =
      (finMat s.even s.matEven + 1).charpoly * (finMat s.odd s.matOdd + 1).charpoly := by
  subst hsz
  set V : Matrix (Fin (s.even + s.odd)) (Fin (s.even + s.odd)) ℂ := Matrix.of fun i k => (s.V i k : ℂ) with hV
  have h1 : V.transpose * V = 1 := by
    ext k l
    rw [Matrix.mul_apply, Matrix.one_apply]
    have := hcols k k.2 l l.2
    rw [Finset.sum_range] at this
    have e := congrArg (fun x : ℝ => (x : ℂ)) this
    simp only [hV, Matrix.transpose_apply, Matrix.of_apply]
    push_cast at e
    rw [e]
    simp only [Fin.ext_iff]
    split_ifs <;> simp
  have h2 : V * V.transpose = 1 := mul_eq_one_comm.1 h1
  have h3 : finMat (s.even + s.odd) s.sep = V.transpose * M * V := by
    ext k l
    rw [Matrix.mul_assoc, Matrix.mul_apply]
    simp only [finMat, Matrix.of_apply, hsep, changeBasis]
    rw [Finset.sum_range]
    refine Finset.sum_congr rfl fun i _ => ?_
    rw [Matrix.mul_apply, Finset.sum_range]
    congr 1
    refine Finset.sum_congr rfl fun j _ => ?_
    simp [natMat, hV]
  have h4 : (finMat (s.even + s.odd) s.sep + 1).charpoly = (M + 1).charpoly := by
    have : finMat (s.even + s.odd) s.sep + 1 = V.transpose * (M + 1) * V := by
      rw [h3, Matrix.mul_add, Matrix.add_mul, Matrix.mul_one, h1]
    rw [this, charpoly_mul_comm, ← mul_assoc, h2, one_mul]
  rw [← h4]
  have h5 : Matrix.reindex finSumFinEquiv.symm finSumFinEquiv.symm (finMat (s.even + s.odd) s.sep + 1) =
      Matrix.fromBlocks (finMat s.even s.matEven + 1) 0 0 (finMat s.odd s.matOdd + 1) := by
    ext i j
    rcases i with i | i <;> rcases j with j | j
    · simp [finMat, Matrix.one_apply, Separated.matEven, Fin.ext_iff]
    · have : (s.even + (j : ℕ)) ≠ i := by have := i.2; omega
      simp [finMat, Matrix.one_apply, Fin.ext_iff, (hdec i j i.2 j.2).1]
      omega
    · simp [finMat, Matrix.one_apply, Fin.ext_iff, (hdec j i j.2 i.2).2]
      omega
    · simp [finMat, Matrix.one_apply, Separated.matOdd, Fin.ext_iff]
  rw [← charpoly_reindex finSumFinEquiv.symm, h5, charpoly_fromBlocks_zero₂₁]

/-- The blocks of a Hermitian matrix are Hermitian. -/
theorem sep_hermitian {n : ℕ} (M : Matrix (Fin n) (Fin n) ℂ) (hM : M.IsHermitian) (s : Separated)
    (hsep : ∀ k l, s.sep k l = changeBasis n s.V (natMat M) k l) :
    (finMat s.even s.matEven + 1).IsHermitian ∧ (finMat s.odd s.matOdd + 1).IsHermitian := by
  have h1 : ∀ k l, starRingEnd ℂ (s.sep k l) = s.sep l k := by
    intro k l
    rw [hsep, hsep]
    unfold changeBasis
    rw [map_sum]
    simp only [map_mul, map_sum, Complex.conj_ofReal, Finset.mul_sum]
    rw [Finset.sum_comm]
    refine Finset.sum_congr rfl fun j _ => Finset.sum_congr rfl fun i _ => ?_
    have : starRingEnd ℂ (natMat M i j) = natMat M j i := by
      unfold natMat
      by_cases h : i < n ∧ j < n
      · rw [dif_pos h, dif_pos ⟨h.2, h.1⟩]
        exact hM.apply _ _
      · rw [dif_neg h, dif_neg fun h' => h ⟨h'.2, h'.1⟩, map_zero]
    rw [this]
    ring
  constructor
  · refine Matrix.IsHermitian.add ?_ Matrix.isHermitian_one
    ext i j
    exact h1 j i
  · refine Matrix.IsHermitian.add ?_ Matrix.isHermitian_one
    ext i j
    exact h1 _ _

/-- The eigenvalues of the whole are those of the two blocks. -/
theorem sep_eigs {eigh : ∀ n, Matrix (Fin n) (Fin n) ℂ → Fin n → ℝ} (he : GoodEigh eigh) {n : ℕ}
    (M : Matrix (Fin n) (Fin n) ℂ) (hM : M.IsHermitian) (s : Separated) (hsz : s.even + s.odd = n)
    (hcols : ∀ k < n, ∀ l < n, ∑ i ∈ Finset.range n, s.V i k * s.V i l = if k = l then 1 else 0)
    (hsep : ∀ k l, s.sep k l = changeBasis n s.V (natMat M) k l)
    (hdec : ∀ k l, k < s.even → l < s.odd → s.sep k (s.even + l) = 0 ∧ s.sep (s.even + l) k = 0) :
    (List.ofFn (eigh n (M + 1))).Perm (List.ofFn (eigh s.even (finMat s.even s.matEven + 1)) ++
      List.ofFn (eigh s.odd (finMat s.odd s.matOdd + 1))) := by
  obtain ⟨h1, h2⟩ := sep_hermitian M hM s hsep
  obtain ⟨V, hV⟩ := he n (M + 1) (hM.add Matrix.isHermitian_one)
  obtain ⟨W, hW⟩ := he _ _ h1
  obtain ⟨U, hU⟩ := he _ _ h2
  refine isEigh_perm_list hV _ ?_
  rw [sep_charpoly M s hsz hcols hsep hdec, isEigh_charpoly hW, isEigh_charpoly hU, List.map_append, List.prod_append,
    List.map_ofFn, List.map_ofFn, List.prod_ofFn, List.prod_ofFn]
  rfl

end Legume
