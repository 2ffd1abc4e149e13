import Verif.Model.SlabModes

/-!
# Coupling elements of the guided-mode expansion: `legume/gme/matrix_elements.py`

Each function of that file computes a block, i.e. a matrix indexed by the plane waves of two guided
modes, with numpy broadcasting. The model gives one entry of the block. An entry depends on the two
modes through their frequencies and, in every layer, the amplitudes `A`, `B` and the transverse wave
number `chi`.
-/
namespace Legume

/-- Position of a layer in the stack: `il == 0`, `il == Nl - 1`, or in between with its thickness. -/
inductive LPos
  | lower
  | inner (d : ℝ)
  | upper

/-- `IJ_layer` (matrix_elements.py 10-19). -/
noncomputable def ijLayer : LPos → ℂ → ℂ
  | .lower, arg => JAlpha (-arg)
  | .upper, arg => JAlpha arg
  | .inner d, arg => IAlpha arg d

/-- Amplitudes and transverse wave number of a guided mode in one layer. -/
structure ModeL where
  A : ℂ
  B : ℂ
  x : ℂ

/-- What the loop body needs from one layer: its position, its effective permittivity, the entry of
the inverse permittivity matrix for the two plane waves, and both modes. -/
structure LayPair where
  pos : LPos
  eps : ℝ
  einv : ℂ
  m1 : ModeL
  m2 : ModeL

open scoped ComplexConjugate in
/-- Entry of `mat_te_te` (matrix_elements.py 33-65). `ij` is `IJ_layer`. -/
noncomputable def matTeTe (ij : LPos → ℂ → ℂ) (ls : List LayPair) (om1 om2 qq : ℝ) : ℂ :=
  (ls.map fun l => l.einv * (l.eps : ℂ) ^ 2 *
    (conj l.m1.A * l.m2.A * ij l.pos (l.m2.x - conj l.m1.x) +
     conj l.m1.B * l.m2.B * ij l.pos (-l.m2.x + conj l.m1.x) +
     conj l.m1.A * l.m2.B * ij l.pos (-l.m2.x - conj l.m1.x) +
     conj l.m1.B * l.m2.A * ij l.pos (l.m2.x + conj l.m1.x))).sum *
  ((om1 : ℂ) ^ 2 * (om2 : ℂ) ^ 2) * qq

open scoped ComplexConjugate in
/-- Entry of `mat_tm_tm` (matrix_elements.py 68-103). -/
noncomputable def matTmTm (ij : LPos → ℂ → ℂ) (ls : List LayPair) (gk1 gk2 pp : ℝ) : ℂ :=
  (ls.map fun l => l.einv *
    ((pp * (conj l.m1.x * l.m2.x) + gk1 * gk2) *
      (conj l.m1.A * l.m2.A * ij l.pos (l.m2.x - conj l.m1.x) +
       conj l.m1.B * l.m2.B * ij l.pos (-l.m2.x + conj l.m1.x)) -
     (pp * (conj l.m1.x * l.m2.x) - gk1 * gk2) *
      (conj l.m1.A * l.m2.B * ij l.pos (-l.m2.x - conj l.m1.x) +
       conj l.m1.B * l.m2.A * ij l.pos (l.m2.x + conj l.m1.x)))).sum

open scoped ComplexConjugate in
/-- Entry of `mat_te_tm` (matrix_elements.py 106-137). -/
noncomputable def matTeTm (ij : LPos → ℂ → ℂ) (ls : List LayPair) (om1 qp : ℝ) : ℂ :=
  (ls.map fun l => Complex.I * l.einv * l.eps * l.m2.x *
    (-(conj l.m1.A * l.m2.A) * ij l.pos (l.m2.x - conj l.m1.x) +
     conj l.m1.B * l.m2.B * ij l.pos (-l.m2.x + conj l.m1.x) +
     conj l.m1.A * l.m2.B * ij l.pos (-l.m2.x - conj l.m1.x) -
     conj l.m1.B * l.m2.A * ij l.pos (l.m2.x + conj l.m1.x))).sum * (om1 : ℂ) ^ 2 * qp

open scoped ComplexConjugate in
/-- Entry of `mat_tm_te` (matrix_elements.py 140-168). -/
noncomputable def matTmTe (ij : LPos → ℂ → ℂ) (ls : List LayPair) (om2 pq : ℝ) : ℂ :=
  (ls.map fun l => Complex.I * l.einv * l.eps * conj l.m1.x *
    (conj l.m1.A * l.m2.A * ij l.pos (l.m2.x - conj l.m1.x) -
     conj l.m1.B * l.m2.B * ij l.pos (-l.m2.x + conj l.m1.x) +
     conj l.m1.A * l.m2.B * ij l.pos (-l.m2.x - conj l.m1.x) -
     conj l.m1.B * l.m2.A * ij l.pos (l.m2.x + conj l.m1.x))).sum * (om2 : ℂ) ^ 2 * pq

/-! ### Assembly: `_construct_mat` (gme.py 523-643) -/

/-- A basis state: polarisation of its guided mode (`mode % 2`), its plane wave `g + k` with the tiny
shift already added (gme.py 528-530), frequency, and amplitudes in every layer. -/
structure GmeState where
  pol : Pol
  gx : ℝ
  gy : ℝ
  om : ℝ
  layers : List ModeL

/-- `gk` (gme.py 530). -/
noncomputable def GmeState.gk (s : GmeState) : ℝ := √(s.gx ^ 2 + s.gy ^ 2)

/-- Unit vectors `p` and `q` (gme.py 541-546). -/
noncomputable def GmeState.p (s : GmeState) : ℝ × ℝ := (s.gx / s.gk, s.gy / s.gk)

@[inherit_doc GmeState.p]
noncomputable def GmeState.q (s : GmeState) : ℝ × ℝ := (s.gy / s.gk, -s.gx / s.gk)

/-- Entry of `np.outer(ax, bx) + np.outer(ay, by)` (gme.py 548-550). -/
def dot2 (a b : ℝ × ℝ) : ℝ := a.1 * b.1 + a.2 * b.2

/-- The stack seen by two states: positions and effective permittivities, and for every layer the
entry of the inverse permittivity matrix. -/
def layPairs (stack : List (LPos × ℝ)) (einv : List ℂ) (s t : GmeState) : List LayPair :=
  (((stack.zip einv).zip (s.layers.zip t.layers))).map fun l =>
    ⟨l.1.1.1, l.1.1.2, l.1.2, l.2.1, l.2.2⟩

/-- Computed matrix entry for the states `s` (row) and `t` (column), the case distinction over
polarisations in gme.py 597-616. -/
noncomputable def gmeElem (ij : LPos → ℂ → ℂ) (stack : List (LPos × ℝ)) (einv : List ℂ)
    (s t : GmeState) : ℂ :=
  let ls := layPairs stack einv s t
  match s.pol, t.pol with
  | .te, .te => matTeTe ij ls s.om t.om (dot2 s.q t.q)
  | .tm, .tm => matTmTm ij ls s.gk t.gk (dot2 s.p t.p)
  | .te, .tm => matTeTm ij ls s.om (dot2 t.p s.q)
  | .tm, .te => matTmTe ij ls t.om (dot2 s.p t.q)

/-- Completion of the computed upper block triangle (gme.py 642-643): `triu(mat, 1)`, its adjoint and
the real part of the diagonal. -/
noncomputable def completeMat (m : ℕ → ℕ → ℂ) (i j : ℕ) : ℂ :=
  (if i < j then m i j else 0) + (starRingEnd ℂ) (if j < i then m j i else 0) +
    (if i = j then ((m i i).re : ℂ) else 0)

/-- `mat` before completion: blocks below the block diagonal are zero (gme.py 585-587), `blk i` being
the number of the guided mode to which row `i` belongs. -/
noncomputable def blockUpper (blk : ℕ → ℕ) (m : ℕ → ℕ → ℂ) (i j : ℕ) : ℂ :=
  if blk j < blk i then 0 else m i j

end Legume
