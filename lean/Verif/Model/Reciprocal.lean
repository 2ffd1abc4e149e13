import Mathlib.Algebra.Order.Floor.Semiring
import Mathlib.Data.Set.Finite.Range
import Mathlib.Algebra.BigOperators.Group.Finset.Basic
import Verif.Model.Lattice
import Verif.Model.Shapes

/-!
# Plane-wave sets and permittivity matrices of `legume/gme/gme.py`,
`legume/utils.py:toeplitz_block`
-/
namespace Legume

open Real

/-- `sqrt(x^2 + y^2)`, also `np.linalg.norm` of a 2-vector. -/
noncomputable def norm2 (v : R2) : ℝ := √(v.1 ^ 2 + v.2 ^ 2)

/-- `np.int_(c * gmax / |b|)` (gme.py 187-190, 215-218). Simplification: `gmax >= 0`, so that
truncation towards zero is the floor. -/
noncomputable def nmaxOf (c gmax : ℝ) (b : R2) : Nat := ⌊c * gmax / norm2 b⌋₊

/-- The index pairs `(inds1, inds2)` (gme.py 196-198, 220-222): `inds1` repeats every value
`2*n2max+1` times, `inds2` runs fastest. -/
def tbtInds (n1max n2max : Nat) : List (ℤ × ℤ) :=
  (symRange n1max).flatMap fun i => (symRange n2max).map fun j => (i, j)

/-- `b1 * inds1 + b2 * inds2` for one index pair (gme.py 200-201, 228-229). -/
noncomputable def gOf (b1 b2 : R2) (i : ℤ × ℤ) : R2 :=
  (b1.1 * i.1 + b2.1 * i.2, b1.2 * i.1 + b2.2 * i.2)

/-- `gvec` after `_init_reciprocal_tbt` (gme.py 182-204). -/
noncomputable def gvecTbt (b1 b2 : R2) (gmax : ℝ) : List R2 :=
  (tbtInds (nmaxOf (2 * π) gmax b1) (nmaxOf (2 * π) gmax b2)).map (gOf b1 b2)

/-- All index pairs scanned by `_init_reciprocal_abs` (gme.py 215-222). -/
noncomputable def absWindow (b1 b2 : R2) (gmax : ℝ) : List (ℤ × ℤ) :=
  tbtInds (nmaxOf (4 * π) gmax b1) (nmaxOf (4 * π) gmax b2)

theorem exists_bump (gmax : ℝ) (norms : List ℝ) :
    ∃ k : Nat, (gmax + k * 1e-10) * 2 * π ∉ norms := by
  classical
  have hinj : Function.Injective fun k : Nat => (gmax + k * 1e-10) * 2 * π := by
    intro a b h
    have hπ := Real.pi_ne_zero
    simp only at h
    have h1 := mul_right_cancel₀ hπ h
    have h2 := mul_right_cancel₀ two_ne_zero h1
    have h3 := add_left_cancel h2
    have h4 := mul_right_cancel₀ (by norm_num) h3
    exact_mod_cast h4
  obtain ⟨x, ⟨k, rfl⟩, hx⟩ := (Set.infinite_range_of_injective hinj).exists_notMem_finset norms.toFinset
  exact ⟨k, by simpa using hx⟩

/-- The `gmax` used for the cut: increased by `1e-10` as long as `2 pi gmax` is one of the norms
(gme.py 233-236; no iteration if it is not). -/
noncomputable def gmaxEff (gmax : ℝ) (norms : List ℝ) : ℝ :=
  open Classical in gmax + Nat.find (exists_bump gmax norms) * 1e-10

/-- `inds1`, `inds2` after `_init_reciprocal_abs` (gme.py 211-256). -/
noncomputable def absInds (b1 b2 : R2) (gmax : ℝ) : List (ℤ × ℤ) :=
  open Classical in
  let w := absWindow b1 b2 gmax
  let g' := gmaxEff gmax (w.map fun i => norm2 (gOf b1 b2 i))
  w.filter fun i => decide (norm2 (gOf b1 b2 i) ≤ 2 * π * g')

/-! ### 'tbt' permittivity matrix -/

/-- `scipy.linalg.toeplitz(c, r)` at `(i, j)`. -/
def scipyToeplitz (c r : Nat → ℂ) (i j : Nat) : ℂ := if j ≤ i then c (i - j) else r (j - i)

/-- Assignment into an array of the given dtype: a real array discards imaginary parts. -/
def castTo (real : Bool) (z : ℂ) : ℂ := if real then (z.re : ℂ) else z

/-- `Tmat` of `toeplitz_block` (utils.py 148-156); `real` tells whether `T1.dtype` is real. -/
def toeplitzTmat (n ntot : Nat) (real : Bool) (T1 T2 : Nat → ℂ) (I J : Nat) : ℂ :=
  let p := ntot / n
  if I / p < n ∧ J / p < n ∧ I / p ≤ J / p then
    castTo real (scipyToeplitz (fun k => T2 ((J / p - I / p) * p + k))
      (fun k => T1 ((J / p - I / p) * p + k)) (I % p) (J % p))
  else 0

/-- `toeplitz_block` (utils.py 142-158) at `(I, J)`. -/
def toeplitzBlock (n ntot : Nat) (real : Bool) (T1 T2 : Nat → ℂ) (I J : Nat) : ℂ :=
  (if I ≤ J then toeplitzTmat n ntot real T1 T2 I J else 0) +
    (starRingEnd ℂ) (if J < I then toeplitzTmat n ntot real T1 T2 J I else 0)

/-- The test of gme.py 425-426, 430-431: is the array stored as a real one? -/
noncomputable def storedReal (T : List ℂ) : Bool :=
  open Classical in
  decide (maxAbs (T.map Complex.im) < 1e-10 * maxAbs (T.map Complex.re))

/-- `T1` before storing (gme.py 409, 422): `FT(g_0 - g_k)`. -/
noncomputable def T1raw (FT : R2 → ℂ) (gs : List R2) (k : Nat) : ℂ :=
  FT ((gs.getD 0 0).1 - (gs.getD k 0).1, (gs.getD 0 0).2 - (gs.getD k 0).2)

/-- `T2` before storing (gme.py 417-419, 423): `FT(g_j - g_{m n2})` at position `m n2 + j`. -/
noncomputable def T2raw (FT : R2 → ℂ) (gs : List R2) (n2g : Nat) (k : Nat) : ℂ :=
  FT ((gs.getD (k % n2g) 0).1 - (gs.getD (k / n2g * n2g) 0).1,
      (gs.getD (k % n2g) 0).2 - (gs.getD (k / n2g * n2g) 0).2)

/-- Is `T1` stored real? -/
noncomputable def T1real (FT : R2 → ℂ) (gs : List R2) : Bool :=
  storedReal ((List.range gs.length).map (T1raw FT gs))

/-- Is `T2` stored real? -/
noncomputable def T2real (FT : R2 → ℂ) (gs : List R2) (n2g : Nat) : Bool :=
  storedReal ((List.range gs.length).map (T2raw FT gs n2g))

/-- The stored `T1`, `T2` (gme.py 425-434). -/
noncomputable def T1tbt (FT : R2 → ℂ) (gs : List R2) (k : Nat) : ℂ :=
  castTo (T1real FT gs) (T1raw FT gs k)
@[inherit_doc T1tbt]
noncomputable def T2tbt (FT : R2 → ℂ) (gs : List R2) (n2g : Nat) (k : Nat) : ℂ :=
  castTo (T2real FT gs n2g) (T2raw FT gs n2g k)

/-- `eps_mat` of the 'tbt' branch for an inhomogeneous layer (gme.py 666) with
`n1g = 2*n1+1`, `n2g = 2*n2+1`. -/
noncomputable def epsMatTbt (FT : R2 → ℂ) (b1 b2 : R2) (n1 n2 : Nat) (I J : Nat) : ℂ :=
  let gs := (tbtInds n1 n2).map (gOf b1 b2)
  toeplitzBlock (2 * n1 + 1) gs.length (T1real FT gs) (T1tbt FT gs) (T2tbt FT gs (2 * n2 + 1)) I J

/-- `hom_layer` test of the 'tbt' branch with `only_gmodes=False` (gme.py 661):
`sum(abs(T1[1:])) < 1e-10`. -/
noncomputable def homTbt (FT : R2 → ℂ) (b1 b2 : R2) (n1 n2 : Nat) : Prop :=
  let gs := (tbtInds n1 n2).map (gOf b1 b2)
  ((List.range gs.length).tail.map fun (k : Nat) => ‖T1tbt FT gs k‖).sum < 1e-10

/-- The matrix that `compute_eps_inv` inverts in the 'tbt' branch (gme.py 655-668): diagonal if
the layer passes the homogeneity test. -/
noncomputable def epsUsedTbt (FT : R2 → ℂ) (b1 b2 : R2) (n1 n2 : Nat) (I J : Nat) : ℂ :=
  open Classical in
  let gs := (tbtInds n1 n2).map (gOf b1 b2)
  if homTbt FT b1 b2 n1 n2 then (if I = J then T1tbt FT gs 0 else 0)
  else epsMatTbt FT b1 b2 n1 n2 I J

/-! ### 'abs' permittivity matrix -/

/-- Lexicographic order of columns used by `np.unique(..., axis=1)`. -/
def lexLe (a b : ℤ × ℤ) : Bool := decide (a.1 < b.1) || (decide (a.1 = b.1) && decide (a.2 ≤ b.2))

/-- `indgrid` (gme.py 457-460): all `inds[j] - inds[i]`, row-major. -/
def diffGrid (inds : List (ℤ × ℤ)) : List (ℤ × ℤ) :=
  inds.flatMap fun a => inds.map fun b => (b.1 - a.1, b.2 - a.2)

/-- `unique` (gme.py 465-466): the distinct columns, sorted. -/
def absUnique (inds : List (ℤ × ℤ)) : List (ℤ × ℤ) := (diffGrid inds).dedup.mergeSort lexLe

/-- `eps_ft_uniq` (gme.py 509-513): the transform on the first half, completed by
conjugation. -/
noncomputable def epsUniq (FT : R2 → ℂ) (b1 b2 : R2) (U : List (ℤ × ℤ)) : List ℂ :=
  let pos := (U.take ((U.length - 1) / 2 + 1)).map fun d => FT (gOf b1 b2 d)
  pos ++ pos.dropLast.reverse.map (starRingEnd ℂ)

/-- `eps_ft` of the 'abs' branch reshaped to a matrix (gme.py 517, 683-684) at `(i, j)`;
`ind_unique` is the position of the difference among the unique ones. -/
noncomputable def epsMatAbs (FT : R2 → ℂ) (b1 b2 : R2) (inds : List (ℤ × ℤ)) (i j : Nat) : ℂ :=
  let U := absUnique inds
  let a := inds.getD i 0
  let b := inds.getD j 0
  (epsUniq FT b1 b2 U).getD (U.idxOf (b.1 - a.1, b.2 - a.2)) 0

/-- Homogeneity test of the 'abs' branch with `only_gmodes=False` (gme.py 677-687):
`sum(abs(T1[mod_G1 > 1e-10])) < 1e-10`, the sum over all pairs `(i, j)`. -/
noncomputable def homAbs (FT : R2 → ℂ) (b1 b2 : R2) (inds : List (ℤ × ℤ)) : Prop :=
  open Classical in
  ∑ i ∈ Finset.range inds.length, ∑ j ∈ Finset.range inds.length,
    (if 1e-10 < norm2 (gOf b1 b2 ((inds.getD j 0).1 - (inds.getD i 0).1,
        (inds.getD j 0).2 - (inds.getD i 0).2))
      then ‖epsMatAbs FT b1 b2 inds i j‖ else 0) < 1e-10

/-- The matrix inverted in the 'abs' branch (gme.py 686-701). `T1[index_G0]`, `index_G0` the
first position of the smallest `|G_j - G_i|`, is the entry at `(0, 0)`, whose difference is
zero. -/
noncomputable def epsUsedAbs (FT : R2 → ℂ) (b1 b2 : R2) (inds : List (ℤ × ℤ)) (i j : Nat) : ℂ :=
  open Classical in
  if homAbs FT b1 b2 inds then (if i = j then epsMatAbs FT b1 b2 inds 0 0 else 0)
  else epsMatAbs FT b1 b2 inds i j

end Legume
