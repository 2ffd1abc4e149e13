import Verif.Model.ExcWave
import Verif.Model.Hopfield

/-!
# A whole run of `HopfieldPol`: `legume/pol/pol.py` 156-350
-/
namespace Legume
open Real

/-- A quantum well as `PhotCrys.add_qw` stores it: the exciton problem, the oscillator strengths and the position. `None` or
a number of strengths other than three is rejected when the `HopfieldPol` object is made (exc.py 79-87); simplification: the
strengths are not negative. -/
structure PolWell where
  W : ExcWell
  osc : Fin 3 → ℝ
  z : ℝ

/-- What `HopfieldPol` reads from `GuidedModeExp` after its run: number of modes, plane waves, frequencies, their imaginary
parts (`None` unless they were computed, when the property returns an empty list) and `ft_field_xy('E', kind, mind, z)` by
plane wave and component. -/
structure PhotOut where
  numeig : ℕ
  gvec : List R2
  freqs : List (List ℝ)
  freqsIm : Option (List (List ℝ))
  eft : ℕ → ℕ → ℝ → ℕ → Fin 3 → ℂ

/-- Block `C` of one well at the `i`-th wave vector `k` (pol.py 156-180), for at least one photonic mode and at least one
exciton. Arrays of different lengths do not broadcast (lengths of one, which do, are not
distinguished: both solvers have the same plane waves). -/
noncomputable def polC (argsort : List ℝ → List ℕ) (eigh : ∀ n, Matrix (Fin n) (Fin n) ℂ → Fin n → ℝ)
    (vecs : ∀ n, Matrix (Fin n) (Fin n) ℂ → Matrix (Fin n) (Fin n) ℂ) (t : TruncG) (gmax : ℝ) (pref : ℂ)
    (ph : PhotOut) (M : ℕ) (w : PolWell) (k : R2) (i : ℕ) : Except PyErr (Matrix (Fin ph.numeig) (Fin M) ℂ) :=
  if ph.gvec.length ≠ (w.W.gvec t gmax).length then .error .valueError
  else do
    let wf ← (List.finRange M).mapM fun (nu : Fin M) => excWaveFt argsort eigh vecs w.W t gmax k M nu
    return hopC pref w.osc (fun n c G => ph.eft i n w.z G c) fun nu => wf.getD nu 0

/-- Complex photon energies in eV at the `i`-th wave vector (pol.py 199-211): `freqs * conv + 1j * freqs_im * conv`. An empty
list instead of an array of imaginary parts cannot be indexed by a tuple. -/
noncomputable def polPhot (conv : ℝ) (ph : PhotOut) (i : ℕ) : Except PyErr (Fin ph.numeig → ℂ) :=
  match ph.freqsIm with
  | none => .error .typeError
  | some im => .ok fun n =>
      (((ph.freqs.getD i []).getD n 0 * conv : ℝ) : ℂ) + Complex.I * (((im.getD i []).getD n 0 * conv : ℝ) : ℂ)

/-- `run` (pol.py 243-350) after the run of `GuidedModeExp`: all exciton problems at all wave vectors, then at each wave vector
the Hopfield matrix, its eigenvalues and the energies kept (real and imaginary parts as complex numbers). `eig` are the
eigenvalues of a general matrix. At least one wave vector (with none, the name `mat` is unbound, pol.py 346). -/
noncomputable def polSim {Q : ℕ} (argsort : List ℝ → List ℕ) (eigh : ∀ n, Matrix (Fin n) (Fin n) ℂ → Fin n → ℝ)
    (vecs : ∀ n, Matrix (Fin n) (Fin n) ℂ → Matrix (Fin n) (Fin n) ℂ) (argsortC : List ℂ → List ℕ)
    (eig : ∀ N Q m : ℕ, Matrix (HIdx N Q m) (HIdx N Q m) ℂ → List ℂ) (t : TruncG) (gmax : ℝ) (pref : ℂ) (conv : ℝ)
    (ph : PhotOut) (M : ℕ) (qws : Fin (Q + 1) → PolWell) (ks : List R2) : Except PyErr (List (List ℂ)) := do
  let ex ← (List.finRange (Q + 1)).mapM fun q => excSim argsort eigh (qws q).W t gmax ks M
  ks.zipIdx.mapM fun ki => do
    let p ← polPhot conv ph ki.2
    let C ← (List.finRange (Q + 1)).mapM fun q => polC argsort eigh vecs t gmax pref ph M (qws q) ki.1 ki.2
    let en : Fin (Q + 1) → Fin M → ℂ := fun q x => ((ex.getD q []).getD ki.2 ([], [])).2.getD x 0
    return polSelect argsortC (eig _ _ _ (hopfield p en (fun q => C.getD q 0) + 1))

end Legume
