import Verif.Model.Py
import Verif.Model.Shapes

/-!
# Results kept by solver objects

The attributes in which `PlaneWaveExp` (pwe.py 55-82, 142-199), `GuidedModeExp` (gme.py 46-65, 101-180, 868-1175),
`ExcitonSchroedEq` (exc.py 113-141, 306-385) and `HopfieldPol` (pol.py 84-133, 243-350) keep their results, and the order in
which `run` writes them. What is computed is given: a call is described by the outcomes of its parts. An attribute that was never
assigned is `none`; no attribute is ever assigned the Python value `None`, so that the tests `is None` in the properties are
never true.
-/
namespace Legume

/-- The four solver classes. -/
inductive SolverKind
  | pwe
  | gme
  | exc
  | pol
  deriving DecidableEq

/-- The attributes `_kpoints`, `_gvec`, `_freqs` or `_eners`, and `_eigvecs`. -/
structure ResObj (F V : Type*) where
  kpoints : Option (List R2)
  gvec : Option (List R2)
  energies : Option (List F)
  eigvecs : Option (List V)

/-- An object after its constructor (pwe.py 24-36, gme.py 56-88, exc.py 86-94, pol.py 31-61). -/
def ResObj.fresh {F V : Type*} (kind : SolverKind) (gvec : List R2) : ResObj F V :=
  match kind with
  | .pwe => ⟨none, some gvec, none, none⟩
  | .gme => ⟨some [], some gvec, some [], some []⟩
  | .exc => ⟨none, some gvec, none, none⟩
  | .pol => ⟨none, none, none, none⟩

/-- Reading an attribute. -/
def readAttr {A : Type*} : Option A → Except PyErr A
  | some a => .ok a
  | none => .error .attributeError

/-- A call of `run`: the wave vectors, the outcome of `set_run_options` (gme.py 869, exc.py 325; unknown names raise), the
outcome of everything between the assignment of `_kpoints` and the loop, the outcome of the loop body at the `ik`-th wave
vector, and the outcome of the report and of `run_im`. -/
structure RunCall (F V : Type*) where
  ks : List R2
  opts : PyRes
  prep : PyRes
  solve : ℕ → Except PyErr (F × V)
  post : PyRes

/-- The loop over wave vectors: what was appended, and how it ended. -/
def solveLoop {A : Type*} (solve : ℕ → Except PyErr A) : List ℕ → List A × PyRes
  | [] => ([], .ok ())
  | i :: is =>
    match solve i with
    | .error e => ([], .error e)
    | .ok a => (a :: (solveLoop solve is).1, (solveLoop solve is).2)

/-- Do the options of a call go through `set_run_options`? -/
def SolverKind.hasOptions : SolverKind → Bool
  | .pwe => false
  | .gme => true
  | .exc => true
  | .pol => false

/-- The state in which the loop begins or the preparation fails: `HopfieldPol` empties its lists and copies `gvec` before it
prepares (pol.py 283-288), the others empty their lists afterwards (pwe.py 168, gme.py 989, exc.py 337). -/
def ResObj.begin {F V : Type*} (kind : SolverKind) (o : ResObj F V) (gvec ks : List R2) : ResObj F V :=
  match kind with
  | .pol => { o with kpoints := some ks, gvec := some gvec, eigvecs := some [] }
  | _ => { o with kpoints := some ks }

/-- The end of a call, after all wave vectors (pwe.py 195-199, gme.py 1163-1179, exc.py 379-385, pol.py 340-350): the report of
`ExcitonSchroedEq` comes before the energies are stored, those of the others afterwards. `self.mat = mat` raises
`UnboundLocalError`, a `NameError`, if there was no wave vector; `GuidedModeExp` does not store `mat`. -/
def ResObj.finish {F V : Type*} (kind : SolverKind) (o : ResObj F V) (c : RunCall F V) (rs : List (F × V)) :
    ResObj F V × PyRes :=
  let stored : ResObj F V := { o with energies := some (rs.map Prod.fst), eigvecs := some (rs.map Prod.snd) }
  match kind with
  | .pwe => (stored, if c.ks.isEmpty then .error .nameError else .ok ())
  | .gme => (stored, c.post)
  | .exc =>
    match c.post with
    | .error e => ({ o with eigvecs := some (rs.map Prod.snd) }, .error e)
    | .ok _ => (stored, if c.ks.isEmpty then .error .nameError else .ok ())
  | .pol => (stored, if c.ks.isEmpty then .error .nameError else c.post)

/-- `run`. -/
def ResObj.run {F V : Type*} (kind : SolverKind) (gvec : List R2) (o : ResObj F V) (c : RunCall F V) : ResObj F V × PyRes :=
  match (if kind.hasOptions then c.opts else .ok ()) with
  | .error e => (o, .error e)
  | .ok _ =>
    match c.prep with
    | .error e => (o.begin kind gvec c.ks, .error e)
    | .ok _ =>
      match solveLoop c.solve (List.range c.ks.length) with
      | (rs, .error e) => ({ o.begin kind gvec c.ks with eigvecs := some (rs.map Prod.snd) }, .error e)
      | (rs, .ok _) => (o.begin kind gvec c.ks).finish kind c rs

/-- The object after a history of calls, whose exceptions are caught. -/
def ResObj.history {F V : Type*} (kind : SolverKind) (gvec : List R2) (cs : List (RunCall F V)) : ResObj F V :=
  cs.foldl (fun o c => (o.run kind gvec c).1) (ResObj.fresh kind gvec)

end Legume
