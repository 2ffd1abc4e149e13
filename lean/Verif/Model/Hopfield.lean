import Mathlib.Data.Matrix.Block
import Mathlib.Data.Complex.Basic
import Mathlib.Data.Fintype.Prod
import Verif.Model.Exc
import Verif.Model.Utils

/-!
# `HopfieldPol`: `legume/pol/pol.py`

`N` photonic modes, `Q + 1` quantum wells with `m` excitonic levels each.  The vectors of the Hopfield problem
have four blocks: photons, excitons, photons, excitons; the exciton index is the pair (well, level).
-/
namespace Legume
open Matrix

open Classical in
/-- Checks of `HopfieldPol.__init__` (pol.py 36-61): `wells` is the list of lattice constants of the wells;
the common one is returned. -/
noncomputable def polInit (wells : List ℝ) : Except PyErr ℝ :=
  match wells with
  | [] => .error .valueError
  | a0 :: _ => if ∀ a ∈ wells, |a - a0| < 1e-15 then .ok a0 else .error .valueError

/-- Index of the Hopfield problem. -/
abbrev HIdx (N Q m : ℕ) : Type := (Fin N ⊕ (Fin (Q + 1) × Fin m)) ⊕ (Fin N ⊕ (Fin (Q + 1) × Fin m))

/-- Entry of the block `C` of one well (pol.py 170-180): `pref * sum_G (sqrt(f) . E_n(G)) conj(W_nu(G))`. -/
noncomputable def hopC {n N m : ℕ} (pref : ℂ) (osc : Fin 3 → ℝ) (E : Fin N → Fin 3 → Fin n → ℂ)
    (W : Fin m → Fin n → ℂ) : Matrix (Fin N) (Fin m) ℂ :=
  Matrix.of fun a nu => pref * ∑ G, (∑ c, ((√(osc c) : ℝ) : ℂ) * E a c G) * (starRingEnd ℂ) (W nu G)

/-- Block `D` of one well (pol.py 182-189): `sum_nu conj(C[n1, nu]) C[n2, nu] / Re E_nu`. -/
noncomputable def hopD {N m : ℕ} (C : Matrix (Fin N) (Fin m) ℂ) (en : Fin m → ℂ) : Matrix (Fin N) (Fin N) ℂ :=
  Matrix.of fun n1 n2 => ∑ nu, (starRingEnd ℂ) (C n1 nu) * C n2 nu / (((en nu).re : ℝ) : ℂ)

/-- The Hopfield matrix (pol.py 193-241).  `ph` are the complex photon energies, `en q` the complex exciton
energies of well `q`.  The diagonal blocks use the sum of the blocks `D` of all wells; the off-diagonal ones use
the variable `D`, left over from the loop, which is that of the last well (pol.py 213-216, 232-237). -/
noncomputable def hopfield {N Q m : ℕ} (ph : Fin N → ℂ) (en : Fin (Q + 1) → Fin m → ℂ)
    (C : Fin (Q + 1) → Matrix (Fin N) (Fin m) ℂ) : Matrix (HIdx N Q m) (HIdx N Q m) ℂ :=
  let Dsum : Matrix (Fin N) (Fin N) ℂ := ∑ q, hopD (C q) (en q)
  let D : Matrix (Fin N) (Fin N) ℂ := hopD (C (Fin.last Q)) (en (Fin.last Q))
  let Cf : Matrix (Fin N) (Fin (Q + 1) × Fin m) ℂ := Matrix.of fun n x => C x.1 n x.2
  let A : Matrix (Fin N) (Fin N) ℂ :=
    Matrix.diagonal ph + Matrix.of fun n1 n2 => 2 * (((Dsum n1 n2).re : ℝ) : ℂ)
  let X : Matrix (Fin (Q + 1) × Fin m) (Fin (Q + 1) × Fin m) ℂ := Matrix.diagonal fun x => en x.1 x.2
  Matrix.fromBlocks
    (Matrix.fromBlocks A (-(Complex.I • Cf)) (Complex.I • Cfᴴ) X)
    (Matrix.fromBlocks (-((2 : ℂ) • D)) (-(Complex.I • Cf)) (-(Complex.I • Cfᴴ)) 0)
    (Matrix.fromBlocks ((2 : ℂ) • D) (-(Complex.I • Cf)) (-(Complex.I • Cfᴴ)) 0)
    (Matrix.fromBlocks (-A) (-(Complex.I • Cf)) (Complex.I • Cfᴴ) (-X))

/-- Photonic and excitonic fraction of a vector stored as a flat list (`_calculate_fraction`, pol.py 135-154),
`K = M_max * num_QWs`. -/
noncomputable def fracPh (N K : ℕ) (v : List ℂ) : ℝ :=
  ((v.take N).map fun z => ‖z‖ ^ 2).sum + (((v.take (2 * N + K)).drop (N + K)).map fun z => ‖z‖ ^ 2).sum
@[inherit_doc fracPh]
noncomputable def fracEx (N K : ℕ) (v : List ℂ) : ℝ :=
  (((v.take (N + K)).drop N).map fun z => ‖z‖ ^ 2).sum + ((v.drop (2 * N + K)).map fun z => ‖z‖ ^ 2).sum

/-- Energies kept at one `k` (pol.py 315-329): of the eigenvalues `w` of `mat + eye` those with
`real(w - 1) >= 0`, sorted, without the ones beyond `numeig // 2 - 1`.  `argsort` sorts complex numbers
(by real part, then imaginary part). -/
noncomputable def polSelect (argsort : List ℂ → List ℕ) (w : List ℂ) : List ℂ :=
  open Classical in
  let ener1 := (w.map (· - 1)).filter fun z => decide (0 ≤ z.re)
  ((argsort ener1).take (w.length / 2 - 1)).map fun (i : ℕ) => ener1.getD i 0

/-! ### Option dictionaries of `run` -/

/-- A dictionary of keyword arguments, in insertion order. -/
abbrev Opts (α : Type) := List (String × α)

/-- `d[key] = x`. -/
def Opts.set {α : Type} (d : Opts α) (key : String) (x : α) : Opts α :=
  if d.any fun p => p.1 = key then d.map fun p => if p.1 = key then (key, x) else p else d ++ [(key, x)]

/-- `d.get(key)`. -/
def Opts.get {α : Type} (d : Opts α) (key : String) : Option α := (d.find? fun p => p.1 = key).map Prod.snd

/-- A call of `HopfieldPol.run`: `none` where the caller relies on the default dictionary. -/
structure PolCall (α : Type) where
  gme : Option (Opts α)
  exc : Option (Opts α)
  kpoints : α

/-- What a call passes on to `GuidedModeExp.run` and `ExcitonSchroedEq.run`, the contents of the caller's
dictionaries afterwards, and of the two default dictionaries, which Python creates once with the function. -/
structure PolPassed (α : Type) where
  gme : Opts α
  exc : Opts α
  callerGme : Option (Opts α)
  callerExc : Option (Opts α)
  defaults : Opts α × Opts α

/-- Treatment of the options in `run` (pol.py 243-247, 289-299). The caller's two dictionaries are taken to be
different objects. -/
def polRunOpts {α : Type} (defaults : Opts α × Opts α) (c : PolCall α) : PolPassed α :=
  let g := (c.gme.getD defaults.1).set "kpoints" c.kpoints
  let e := (c.exc.getD defaults.2).set "kpoints" c.kpoints
  { gme := g
    exc := e
    callerGme := c.gme.map fun _ => g
    callerExc := c.exc.map fun _ => e
    defaults := (if c.gme.isNone then g else defaults.1, if c.exc.isNone then e else defaults.2) }

/-- The default dictionaries after a history of calls, on any number of objects. -/
def polDefaults {α : Type} (calls : List (PolCall α)) : Opts α × Opts α :=
  calls.foldl (fun d c => (polRunOpts d c).defaults) ([], [])

end Legume
