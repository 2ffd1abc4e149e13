import Mathlib.LinearAlgebra.Matrix.Charpoly.Basic
import Mathlib.Analysis.Complex.Basic
import Mathlib.Data.List.Sort
import Mathlib.Data.Fin.Tuple.Basic
import Verif.Model.GmeRun
import Verif.Spec.GmeRun
import Verif.Spec.Utils

/-! # Eigenvalues are determined by the characteristic polynomial -/
namespace Legume

open Matrix Polynomial Spec

/-- The characteristic polynomial of a diagonalised matrix. -/
theorem isEigh_charpoly {n : ℕ} {A V : Matrix (Fin n) (Fin n) ℂ} {w : Fin n → ℝ} (h : IsEigh A w V) :
    A.charpoly = ∏ i, (X - C (w i : ℂ)) := by
  have h2 : V * V.conjTranspose = 1 := mul_eq_one_comm.1 h.unitary
  have hA : A = V * diagonal (fun i => (w i : ℂ)) * V.conjTranspose := by
    rw [← h.eigen, mul_assoc, h2, mul_one]
  rw [hA, charpoly_mul_comm, ← mul_assoc, h.unitary, one_mul, charpoly_diagonal]

/-- Two diagonalised matrices with the same characteristic polynomial have the same eigenvalues, counted
with multiplicity. -/
theorem isEigh_perm {n m : ℕ} {A V : Matrix (Fin n) (Fin n) ℂ} {B W : Matrix (Fin m) (Fin m) ℂ}
    {w : Fin n → ℝ} {u : Fin m → ℝ} (h : IsEigh A w V) (h' : IsEigh B u W) (hc : A.charpoly = B.charpoly) :
    (List.ofFn w).Perm (List.ofFn u) := by
  rw [isEigh_charpoly h, isEigh_charpoly h'] at hc
  have key : ∀ {k : ℕ} (v : Fin k → ℝ), (∏ i, (X - C (v i : ℂ))).roots =
      (((List.ofFn v).map fun (x : ℝ) => (x : ℂ) : List ℂ) : Multiset ℂ) := by
    intro k v
    have : ∏ i, (X - C (v i : ℂ)) =
        ((((List.ofFn v).map fun (x : ℝ) => (x : ℂ) : List ℂ) : Multiset ℂ).map fun a => X - C a).prod := by
      rw [Multiset.map_coe, Multiset.prod_coe, List.map_map, List.map_ofFn, List.prod_ofFn]
      rfl
    rw [this, roots_multiset_prod_X_sub_C]
  have hr := congrArg roots hc
  rw [key, key, Multiset.coe_eq_coe] at hr
  have := hr.map Complex.re
  simpa [List.map_map, Function.comp_def] using this

/-- The same for one matrix: the eigenvalues are any list whose polynomial is the characteristic one. -/
theorem isEigh_perm_list {n : ℕ} {A V : Matrix (Fin n) (Fin n) ℂ} {w : Fin n → ℝ} (h : IsEigh A w V)
    (l : List ℝ) (hl : A.charpoly = (l.map fun (x : ℝ) => X - C (x : ℂ)).prod) : (List.ofFn w).Perm l := by
  have hc : ∏ i, (X - C (w i : ℂ)) = ((List.ofFn w).map fun (x : ℝ) => X - C (x : ℂ)).prod := by
    rw [List.map_ofFn, List.prod_ofFn]; rfl
  rw [isEigh_charpoly h, hc] at hl
  have key : ∀ l : List ℝ, (l.map fun (x : ℝ) => X - C (x : ℂ)).prod.roots =
      ((l.map fun (x : ℝ) => (x : ℂ) : List ℂ) : Multiset ℂ) := by
    intro l
    have : (l.map fun (x : ℝ) => X - C (x : ℂ)).prod =
        (((l.map fun (x : ℝ) => (x : ℂ) : List ℂ) : Multiset ℂ).map fun a => X - C a).prod := by
      rw [Multiset.map_coe, Multiset.prod_coe, List.map_map]; rfl
    rw [this, roots_multiset_prod_X_sub_C]
  have hr := congrArg roots hl
  rw [key, key, Multiset.coe_eq_coe] at hr
  have := hr.map Complex.re
  simpa [List.map_map, Function.comp_def] using this

/-- What is kept at one `k` depends only on the eigenvalues counted with multiplicity. -/
theorem solvePwe_freq (argsort : List ℝ → List ℕ) (hs : ∀ l, IsArgsort l (argsort l)) (w l : List ℝ)
    (hl : l.Perm (w.map freqOf)) (hso : l.Pairwise (· ≤ ·)) (numeig : ℕ) :
    (solvePwe argsort w numeig).freq = l.take numeig := by
  obtain ⟨h1, h2⟩ := hs (w.map freqOf)
  have h3 : ((argsort (w.map freqOf)).map fun (i : ℕ) => (w.map freqOf).getD i 0).Perm (w.map freqOf) := by
    refine (h1.map _).trans ?_
    have : (List.range (w.map freqOf).length).map (fun (i : ℕ) => (w.map freqOf).getD i 0) = w.map freqOf := by
      apply List.ext_getElem
      · simp
      · intro i hi hi'
        simp only [List.getElem_map, List.getElem_range, List.getD_eq_getElem?_getD]
        rw [List.getElem?_eq_getElem hi', Option.getD_some]
        simp
    rw [this]
  have h4 := (h3.trans hl.symm).eq_of_pairwise (fun a b _ _ => le_antisymm) h2 hso
  simp only [solvePwe]
  rw [← h4, List.map_take]

end Legume
