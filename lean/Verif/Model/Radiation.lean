import Mathlib.Analysis.SpecialFunctions.Pow.Complex
import Verif.Model.Py
import Verif.Model.MatrixElements

/-!
# Radiative losses

`gme/gme.py` `_compute_rad_components` 1588-1781, `compute_rad` 1783-1816, `compute_rad_sp` 1818-1857,
`run_im` 1181-1229.

Simplifications: arithmetic is exact; a division by zero in the density of states, which in numpy gives
`inf` and then `inf` or `nan` in every later quantity, is `none`.  `bd.sqrt` of a complex number is the
principal root.
-/
namespace Legume

/-- One cladding as seen by the losses of one mode: its permittivity, and for every guided mode included in
the basis (in order) the number of its plane waves and the couplings `rad[i, j]` of plane wave `i` to the
radiative mode of plane wave `j`, for both polarisations of the radiative mode (gme.py 1676-1727). -/
structure Clad where
  eps : ℝ
  te : List (ℕ × (ℕ → ℕ → ℂ))
  tm : List (ℕ × (ℕ → ℕ → ℂ))

/-- `indmoder` (gme.py 1640-1644). -/
noncomputable def openChannels (eps omr : ℝ) (gk : List ℝ) : List ℕ :=
  (List.range gk.length).filter fun j => decide (gk.getD j 0 ^ 2 ≤ eps * omr ^ 2)

/-- One guided mode of the loop (gme.py 1695-1702, 1724-1728): state `count` and the accumulated coupling to
channel `j`; `f` is `-1j` for TE and `1` for TM radiative modes. -/
noncomputable def radStep (f : ℂ) (evec : ℕ → ℂ) (j : ℕ) (st : ℕ × ℂ) (b : ℕ × (ℕ → ℕ → ℂ)) : ℕ × ℂ :=
  (st.1 + b.1,
   st.2 + f * ∑ i ∈ Finset.range b.1, b.2 i j * (starRingEnd ℂ) (evec (st.1 + i)))

@[inherit_doc radStep]
noncomputable def radC (f : ℂ) (evec : ℕ → ℂ) (bs : List (ℕ × (ℕ → ℕ → ℂ))) (j : ℕ) : ℂ :=
  (bs.foldl (radStep f evec j) (0, 0)).2

open Classical in
/-- `rad_dos` (gme.py 1731-1733); `none` for the division by zero on the light line. -/
noncomputable def radDos (eps omr g : ℝ) : Option ℝ :=
  if eps * omr ^ 2 - g ^ 2 = 0 then none else some (eps / √(eps * omr ^ 2 - g ^ 2) / 4 / Real.pi)

/-- `c_l`, `c_u` of one polarisation (gme.py 1745-1747), one entry per open channel. -/
noncomputable def Clad.coup (c : Clad) (pol : Pol) (omr : ℝ) (gk : List ℝ) (evec : ℕ → ℂ) :
    Option (List ℂ) :=
  (openChannels c.eps omr gk).mapM fun j =>
    (radDos c.eps omr (gk.getD j 0)).map fun d =>
      ((√(Real.pi * d) : ℝ) : ℂ) *
        match pol with
        | .te => radC (-Complex.I) evec c.te j
        | .tm => radC 1 evec c.tm j

/-- `bd.sum(bd.square(bd.abs(c)))`. -/
noncomputable def sumSq (l : List ℂ) : ℝ := (l.map fun c => ‖c‖ ^ 2).sum

/-- `rad_te` and `rad_tm` (gme.py 1754-1760). -/
noncomputable def modeRad (lo up : Clad) (omr : ℝ) (gk : List ℝ) (evec : ℕ → ℂ) : Option (ℝ × ℝ) :=
  match lo.coup .te omr gk evec, up.coup .te omr gk evec, lo.coup .tm omr gk evec, up.coup .tm omr gk evec with
  | some a, some b, some c, some d => some (sumSq a + sumSq b, sumSq c + sumSq d)
  | _, _, _, _ => none

/-- `bd.imag(bd.sqrt(omr**2 + 1j * rad)) / 2 / np.pi` (gme.py 1763-1765, 1852-1855). -/
noncomputable def lossOf (omr rad : ℝ) : ℝ :=
  ((((omr ^ 2 : ℝ) : ℂ) + Complex.I * rad) ^ ((2 : ℂ)⁻¹)).im / 2 / Real.pi

/-- Imaginary part of the frequency of one mode, in total and for the two polarisations. -/
structure Loss where
  tot : ℝ
  te : ℝ
  tm : ℝ

/-- Losses of one mode (gme.py 1761-1765). -/
noncomputable def modeLoss (lo up : Clad) (omr : ℝ) (gk : List ℝ) (evec : ℕ → ℂ) : Option Loss :=
  (modeRad lo up omr gk evec).map fun r => ⟨lossOf omr (r.1 + r.2), lossOf omr r.1, lossOf omr r.2⟩

/-- `unbalance_sp` of one mode (gme.py 1216-1219). -/
noncomputable def unbalance (l : Loss) : ℝ :=
  if |l.tot| < 1e-15 then 0.5 else l.te / (l.te + l.tm + 1e-15)

/-- The checks on the requested modes and their resolution to stored columns (gme.py 1617-1621, 1637);
`np.max` of an empty array raises `ValueError`. -/
def resolveMinds (nk numeig : ℕ) (minds : List ℤ) : Except PyErr (List ℕ) :=
  if nk = 0 then .error .runtimeError
  else match minds.max? with
    | none => .error .valueError
    | some m => if (numeig : ℤ) - 1 < m then .error .valueError else minds.mapM (pyIndex numeig)

/-- `compute_rad` at one `k` (gme.py 1783-1816): `loss m` is the loss of stored mode `m`. -/
def computeRad {L : Type} (nk numeig : ℕ) (minds : List ℤ) (loss : ℕ → L) : Except PyErr (List L) :=
  match resolveMinds nk numeig minds with
  | .error e => .error e
  | .ok ms => .ok (ms.map loss)

end Legume
