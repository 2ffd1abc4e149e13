import Verif.Model.Guided
import Verif.Model.SlabModes
import Verif.Model.Unpatterned
import Verif.Model.RadSim

/-!
# The guided modes which `GuidedModeExp` expands in

`gme/gme.py` `_get_guided` 284-329, `_compute_guided` 356-401, `_construct_mat` 523-595, `run` 949-968, with
`gme/slab_modes.py` `guided_modes` 21-90 and `guided_mode_given_g` 93-157: from the effective stack, the plane waves and
the wave vectors to the basis. Simplifications: `gmode_inds` are natural numbers; the root finder is a parameter; the
normalisation is a parameter, `normCode` being that of the code; at equal grid points the interpolation takes the value
of the first of them (numpy takes the last), which is the same value because the modes are not computed anew there.
-/
namespace Legume

/-- A guided mode as stored: frequency, and normalised amplitudes `(A, B)` in every layer. -/
abbrev GMode := ℝ × List (ℂ × ℂ)

/-- Options of `run` which concern the guided modes (gme.py 703-824). -/
structure GuidedOpts where
  inds : List ℕ
  exact : Bool
  step : ℝ
  tol : ℝ
  npts : ℕ
  deltaGabs : ℝ
  deltaGx : ℝ

/-- Root finder: for a polarisation and a wave vector, a zero between two frequencies. -/
abbrev Finder := Pol → ℝ → ℝ → ℝ → ℝ

/-- Squared norm of a mode: polarisation, frequency, wave vector, stack, amplitudes. -/
abbrev NormFn := Pol → ℝ → ℝ → List (LPos × ℝ) → List (ℂ × ℂ) → ℂ

/-- The norm of `guided_mode_given_g` (slab_modes.py 148-151, 424-464). -/
noncomputable def normCode : NormFn := fun pol om g stack abs =>
  let xs := (stack.map fun p => chi om g p.2).zip abs
  normCoeff pol g (xs.headD 0)
    (List.zipWith (fun (x : ℂ × ℂ × ℂ) d => (x.1, d, x.2)) xs.tail.dropLast (stackDs stack)) (xs.getLastD 0)

/-- Real part of the dispersion function of a stack (slab_modes.py 115-118). -/
noncomputable def dispRe (stack : List (LPos × ℝ)) (pol : Pol) (g om : ℝ) : ℝ :=
  (d22 pol om g (stack.map Prod.snd) (stackDs stack)).re

/-- The loop body of `guided_mode_given_g` (slab_modes.py 136-155) for one frequency. -/
noncomputable def modeAt (norm : NormFn) (stack : List (LPos × ℝ)) (pol : Pol) (gv om : ℝ) : Except PyErr GMode :=
  match abMatrices pol om gv (stack.map Prod.snd) (stackDs stack) with
  | .error e => .error e
  | .ok abs =>
    let s := norm pol om gv stack abs ^ (1 / 2 : ℂ)
    .ok (om, abs.map fun c => (c.1 / s, c.2 / s))

open Classical in
/-- One iteration of the loop of `guided_modes` (slab_modes.py 51-88) with the amplitudes; `prev` is the previous wave
vector with its modes. -/
noncomputable def guidedAt (norm : NormFn) (fs : Finder) (o : GuidedOpts) (stack : List (LPos × ℝ)) (pol : Pol)
    (nModes : ℕ) (prev : Option (ℝ × List GMode)) (g : ℝ) : Except PyErr (List GMode) :=
  match prev with
  | some (gp, ms) =>
    if 1e-8 < |g - gp| then
      (guidedStep (dispRe stack pol) (fs pol) (stack.map Prod.snd) nModes o.step o.tol
        (some (gp, ms.map Prod.fst)) g).mapM (modeAt norm stack pol (max g 1e-4))
    else .ok ms
  | none =>
    (guidedStep (dispRe stack pol) (fs pol) (stack.map Prod.snd) nModes o.step o.tol none g).mapM
      (modeAt norm stack pol (max g 1e-4))

/-- `guided_modes` (slab_modes.py 21-90) with the amplitudes. -/
noncomputable def guidedRun (norm : NormFn) (fs : Finder) (o : GuidedOpts) (stack : List (LPos × ℝ)) (pol : Pol)
    (nModes : ℕ) : Option (ℝ × List GMode) → List ℝ → Except PyErr (List (List GMode))
  | _, [] => .ok []
  | prev, g :: gs =>
    match guidedAt norm fs o stack pol nModes prev g with
    | .error e => .error e
    | .ok ms =>
      match guidedRun norm fs o stack pol nModes (some (g, ms)) gs with
      | .error e => .error e
      | .ok rest => .ok (ms :: rest)

/-- Polarisation of a guided mode by its number (gme.py 368-369, 320-326). -/
def modePol (mode : ℕ) : Pol := if mode % 2 = 0 then .te else .tm

/-- The numbers of the modes of one polarisation (gme.py 368-369). -/
def polInds (inds : List ℕ) (pol : Pol) : List ℕ := inds.filter fun m => decide (modePol m = pol)

/-- `n_modes` (gme.py 384, 397). -/
def nModesOf (inds : List ℕ) (pol : Pol) : ℕ := 1 + (polInds inds pol).foldl max 0 / 2

/-- `_compute_guided` (gme.py 356-401) for one polarisation: the modes by order. Without modes of the polarisation nothing
is computed; the largest permittivity of no layers raises ValueError (slab_modes.py 58). -/
noncomputable def computeGuided (norm : NormFn) (fs : Finder) (o : GuidedOpts) (stack : List (LPos × ℝ)) (pol : Pol)
    (grid : List ℝ) : Except PyErr (List (List GMode)) :=
  if polInds o.inds pol = [] then .ok []
  else if stackDs stack = [] then .error .valueError
  else
    match guidedRun norm fs o stack pol (nModesOf o.inds pol) none grid with
    | .error e => .error e
    | .ok ms => .ok (reshapeList ms)

/-- `bd.interp` of complex samples (gme.py 291-297). -/
noncomputable def npInterpC (xp : List ℝ) (yp : List ℂ) (x : ℝ) : ℂ :=
  ⟨npInterp xp (yp.map Complex.re) x, npInterp xp (yp.map Complex.im) x⟩

/-- The state of one plane wave `p` in a mode: frequency and amplitudes interpolated (gme.py 298-317). -/
noncomputable def interpState (stack : List (LPos × ℝ)) (pol : Pol) (gs : List ℝ) (om : List GMode) (p : R2) :
    GmeState :=
  let o := npInterp gs (om.map Prod.fst) (planeAbs p)
  ⟨pol, p.1, p.2, o, (List.range stack.length).map fun (il : ℕ) =>
    ⟨npInterpC gs (om.map fun c => (c.2.getD il 0).1) (planeAbs p),
      npInterpC gs (om.map fun c => (c.2.getD il 0).2) (planeAbs p),
      chi o (planeAbs p) ((stack.map Prod.snd).getD il 0)⟩⟩

open Classical in
/-- `_get_guided` (gme.py 284-329): the basis states of the `n`-th block, mode number `mode`; `modes` are the modes by
order of its polarisation, `plane` is the plane wave seen from the wave vector. -/
noncomputable def guidedBlock {N : ℕ} (stack : List (LPos × ℝ)) (grid : List ℝ) (plane : Fin N → R2)
    (modes : List (List GMode)) (n mode : ℕ) : Except PyErr (List (BasisEl N)) :=
  match modes[mode / 2]? with
  | none => .error .indexError
  | some om =>
    match gsOf grid om with
    | [] => .error .indexError
    | gs0 :: gs => .ok ((List.finRange N).filterMap fun i =>
        if gs0 - (1e-10 : ℝ) < planeAbs (plane i) then
          some ⟨n, i, interpState stack (modePol mode) (gs0 :: gs) om (plane i)⟩
        else none)

/-- The grid of wave vectors (gme.py 365-366, 535-536, 959-967) at the wave vector `k`. -/
noncomputable def guidedGrid (o : GuidedOpts) (gvec ks : List R2) (k : R2) : List ℝ :=
  if o.exact then gridExact o.deltaGabs (gvec.map fun g => planeAbs (radPlane o.deltaGx k g))
  else gridShift o.deltaGabs (gridLin (gridMax ks gvec) o.npts)

/-- The basis as computed (gme.py 523-595). -/
noncomputable def basisOf {N : ℕ} (norm : NormFn) (fs : Finder) (o : GuidedOpts) (stack : List (LPos × ℝ))
    (grid : List ℝ) (plane : Fin N → R2) : Except PyErr (List (BasisEl N)) := do
  let te ← computeGuided norm fs o stack .te grid
  let tm ← computeGuided norm fs o stack .tm grid
  let inc ← gmodeInclude o.inds te.length tm.length
  let blocks ← (List.range inc.length).mapM fun (n : ℕ) =>
    guidedBlock stack grid plane (match modePol (inc.getD n 0) with | .te => te | .tm => tm) n (inc.getD n 0)
  .ok blocks.flatten

/-- `_compute_guided` and `_get_guided` as the source of the basis of a run. -/
noncomputable def codeGuided (norm : NormFn) (fs : Finder) (o : GuidedOpts) : GuidedSolver :=
  fun stack gvec ks ik => basisOf norm fs o stack (guidedGrid o gvec ks (ks.getD ik 0))
    fun i => radPlane o.deltaGx (ks.getD ik 0) gvec[i]

end Legume
