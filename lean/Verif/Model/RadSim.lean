import Verif.Model.GmeSim
import Verif.Model.Radiation

/-!
# Radiative losses of a whole run of `GuidedModeExp`

`gme/gme.py`: `_get_rad` 346-354, `run` 826-1060 with `compute_im=True`, `run_im` 1181-1229, `_compute_rad_components`
1588-1781, `compute_rad_sp` 1816-1857. Simplifications: at least one wave vector (with none `run_im` raises, 1200-1201);
the sums over the plane waves of one guided mode after the other (1676-1729) are one sum over the basis, which by C35 is
the same.
-/
namespace Legume

/-- Thicknesses of the inner layers of a stack (`d_array`, gme.py 936-943). -/
def stackDs (stack : List (LPos × ℝ)) : List ℝ :=
  stack.filterMap fun p => match p.1 with
    | .inner d => some d
    | _ => none

/-- Plane wave `g + k` with the shift `delta_gx` (gme.py 1624-1625). -/
def radPlane (dgx : ℝ) (k g : R2) : R2 := (g.1 + k.1 + dgx, g.2 + k.2)

/-- `gk` (gme.py 1626). -/
noncomputable def planeAbs (p : R2) : ℝ := √(p.1 ^ 2 + p.2 ^ 2)

/-- Amplitudes and wave numbers of a radiative mode in the order in which they enter the matrix elements: `Ys` as the
amplitudes `A` and `Xs` as `B` (gme.py 346-354, 1662-1672, 1684-1693, 1708-1722). -/
noncomputable def radState (pol : Pol) (upper : Bool) (omr : ℝ) (stack : List (LPos × ℝ)) (p : R2) :
    Except PyErr GmeState :=
  match radMode pol (decide (pol = .te)) upper omr (planeAbs p) (stack.map Prod.snd) (stackDs stack) with
  | .error e => .error e
  | .ok xy => .ok ⟨pol, p.1, p.2, omr,
      List.zipWith (fun e c => ⟨c.2, c.1, chi omr (planeAbs p) e⟩) (stack.map Prod.snd) xy⟩

/-- Coupling `rad[i, j]` of the `i`-th basis state to the radiative mode at the `j`-th plane wave (gme.py 1681-1693,
1708-1722); `ij` is `IJ_layer`. -/
noncomputable def radElem (ij : LPos → ℂ → ℂ) {N : ℕ} (stack : List (LPos × ℝ)) (einv : List (Matrix (Fin N) (Fin N) ℂ))
    (basis : List (BasisEl N)) (planes : Fin N → R2) (omr : ℝ) (pol : Pol) (upper : Bool) (i j : ℕ) : ℂ :=
  if h : j < N then
    match basis[i]?, radState pol upper omr stack (planes ⟨j, h⟩) with
    | some s, .ok t => gmeElem ij stack (einv.map fun E => E s.ig ⟨j, h⟩) s.st t
    | _, _ => 0
  else 0

/-- One cladding as seen by the losses; `eps` is its average permittivity (gme.py 1642-1644, 1732). -/
noncomputable def radClad (ij : LPos → ℂ → ℂ) {N : ℕ} (stack : List (LPos × ℝ)) (einv : List (Matrix (Fin N) (Fin N) ℂ))
    (basis : List (BasisEl N)) (planes : Fin N → R2) (omr eps : ℝ) (upper : Bool) : Clad :=
  ⟨eps, [(basis.length, radElem ij stack einv basis planes omr .te upper)],
    [(basis.length, radElem ij stack einv basis planes omr .tm upper)]⟩

/-- What `run_im` stores about one mode: the losses (`none` for `inf` and `nan`), `rad_coup` by cladding and polarisation,
and `rad_gvec` as positions in `gvec`. -/
structure RadRes where
  loss : Option Loss
  coup : Bool → Pol → Option (List ℂ)
  chan : Bool → List ℕ

/-- One mode with angular frequency `omr` and eigenvector `evec` (gme.py 1634-1765); `clads` are the average permittivities
of the lower and the upper cladding. -/
noncomputable def radOf (ij : LPos → ℂ → ℂ) {N : ℕ} (stack : List (LPos × ℝ)) (einv : List (Matrix (Fin N) (Fin N) ℂ))
    (basis : List (BasisEl N)) (planes : Fin N → R2) (clads : ℝ × ℝ) (omr : ℝ) (evec : ℕ → ℂ) : RadRes :=
  let c := fun upper : Bool => radClad ij stack einv basis planes omr (if upper then clads.2 else clads.1) upper
  let gk := List.ofFn fun i => planeAbs (planes i)
  ⟨modeLoss (c false) (c true) omr gk evec, fun u pol => (c u).coup pol omr gk evec,
    fun u => openChannels (c u).eps omr gk⟩

/-- Column of the matrix of eigenvectors (gme.py 1060, 1636). -/
noncomputable def colOf {n : ℕ} (V : Matrix (Fin n) (Fin n) ℂ) (m i : ℕ) : ℂ :=
  if h : i < n ∧ m < n then V ⟨i, h.1⟩ ⟨m, h.2⟩ else 0

/-- All stored modes at one wave vector, whose matrix (plus one) has the eigenvalues `w` and the eigenvectors `V`; a run
without modes raises `ValueError` (gme.py 1619). -/
noncomputable def radAt (ij : LPos → ℂ → ℂ) {N : ℕ} (argsort : List ℝ → List ℕ) (stack : List (LPos × ℝ))
    (einv : List (Matrix (Fin N) (Fin N) ℂ)) (basis : List (BasisEl N)) (planes : Fin N → R2) (clads : ℝ × ℝ)
    (w : Fin basis.length → ℝ) (V : Matrix (Fin basis.length) (Fin basis.length) ℂ) (sigma : ℝ) (numeig : ℕ) :
    Except PyErr (KRes × List RadRes) := do
  let r ← solveFull argsort (List.ofFn w) sigma numeig
  if numeig = 0 then throw .valueError
  return (r, (r.idx.zip r.freq).map fun m =>
    radOf ij stack einv basis planes clads (2 * Real.pi * m.2) (colOf V m.1))

/-- Average permittivities of the claddings. -/
noncomputable def cladAvgs (S : GmeStruct) : ℝ × ℝ :=
  ((S.layers.head?.map GmeLay.epsAvg).getD 0, (S.layers.getLast?.map GmeLay.epsAvg).getD 0)

/-- `run` with `compute_im=True`; `ij` is `IJ_layer`. -/
noncomputable def radSimIj (ij : LPos → ℂ → ℂ) (dgx : ℝ) (argsort : List ℝ → List ℕ)
    (eigh : ∀ n, Matrix (Fin n) (Fin n) ℂ → Fin n → ℝ)
    (vecs : ∀ n, Matrix (Fin n) (Fin n) ℂ → Matrix (Fin n) (Fin n) ℂ) (guided : GuidedSolver) (S : GmeStruct)
    (gmax : ℝ) (onlyG : Bool) (opt : String) (ks : List R2) (sigma : ℝ) (numeig : ℕ) :
    Except PyErr (List (KRes × List RadRes)) := do
  let eff ← S.layers.mapM (GmeLay.eff opt)
  let stack := (S.layers.map GmeLay.pos).zip eff
  let einv ← S.layers.mapM (S.epsInv gmax onlyG)
  (List.range ks.length).mapM fun (ik : ℕ) => do
    let basis ← guided stack (S.gvec gmax) ks ik
    let M := gmeMatIj ij stack einv basis + 1
    radAt ij argsort stack einv basis (fun i => radPlane dgx (ks.getD ik 0) (S.gvec gmax)[i]) (cladAvgs S)
      (eigh _ M) (vecs _ M) sigma numeig

/-- `run` with `compute_im=True` and the integrals as computed. -/
noncomputable def radSim := radSimIj ijLayer

end Legume
