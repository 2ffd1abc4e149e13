import Verif.Model.Minimize
import Verif.Model.Lbfgs

/-!
# Texts of solver objects, and lines printed by the minimiser

`__repr__` of `GuidedModeExp` (gme/gme.py 84-101), `PlaneWaveExp` (pwe/pwe.py 38-52), `ExcitonSchroedEq` (exc/exc.py 98-111) and
`HopfieldPol` (pol/pol.py 63-81); `set_run_options` (gme.py 703-823); `Minimize.__init__` (minimize.py 12-20), `_get_value` (22-31)
and `_disp` (58-66). A text is the list of its lines, a line is the name with the value; how a value is written is left out.
-/
namespace Legume

/-! ### Options -/

/-- Options of `GuidedModeExp.run` (gme.py 796-815). -/
def gmeOptNames : List String :=
  ["gmode_compute", "gmode_inds", "gmode_npts", "gmode_step", "gmode_tol", "numeig", "compute_im", "gradients", "eig_solver",
    "eig_sigma", "eps_eff", "verbose", "kz_symmetry", "symm_thr", "delta_gx", "delta_gabs", "use_sparse", "only_gmodes"]

/-- Attributes of an object: `none` for one which does not exist. -/
abbrev Attrs (V : Type) := String → Option V

/-- `set_run_options` (gme.py 703-823): an argument with another name raises TypeError before anything is stored. `dflt` are the
values in the signature, `asArray` is `np.array`, applied to `gmode_inds` only. -/
def setRunOptions {V : Type} (dflt : String → V) (asArray : V → V) (attrs : Attrs V) (kw : List (String × V)) :
    Except PyErr (Attrs V) :=
  if kw.all fun p => gmeOptNames.contains p.1 then
    .ok fun o => if gmeOptNames.contains o then
        let v := (kw.lookup o).getD (dflt o)
        some (if o = "gmode_inds" then asArray v else v)
      else attrs o
  else .error .typeError

/-- Attributes after calls of `run`: only `set_run_options` touches the options, whatever happens afterwards. -/
def attrsAfter {V : Type} (dflt : String → V) (asArray : V → V) (attrs : Attrs V) (calls : List (List (String × V))) : Attrs V :=
  calls.foldl (fun a kw => match setRunOptions dflt asArray a kw with | .ok a' => a' | .error _ => a) attrs

/-- The options shown (gme.py 88-91). -/
def gmeShown : List String :=
  ["gmode_compute", "gmode_inds", "gmode_step", "gradients", "eig_solver", "eig_sigma", "eps_eff"]

/-- Lines for those of the options which exist (gme.py 92-97). -/
def optLines {V : Type} (attrs : Attrs V) (names : List String) : List (String × V) :=
  names.filterMap fun o => (attrs o).map fun v => (o, v)

/-- `GuidedModeExp.__repr__` (gme.py 84-100) after the line `phc = PhotCryst object`. -/
def gmeText {V : Type} (gmax : V) (attrs : Attrs V) : List (String × V) := ("gmax", gmax) :: optLines attrs gmeShown

/-- `HopfieldPol.__repr__` (pol.py 63-81): lines about the photonic solver, and the positions of the wells. -/
def polText {V : Type} (attrs : Attrs V) (zs : List V) : List (String × V) × List V :=
  (optLines attrs ("gmax" :: gmeShown), zs)

/-- `PlaneWaveExp.__repr__` (pwe.py 38-52) after the line `layer = Layer object`. -/
def pweText {V : Type} (gmax epsEff : V) (attrs : Attrs V) : List (String × V) :=
  ("gmax", gmax) :: ("eps_eff", epsEff) :: optLines attrs ["pol", "numeig"]

/-- `PlaneWaveExp.run` stores its arguments (pwe.py 158-161); `lower` is `str.lower`. -/
def pweStore {V : Type} (lower : V → V) (attrs : Attrs V) (pol numeig : V) : Attrs V :=
  fun o => if o = "pol" then some (lower pol) else if o = "numeig" then some numeig else attrs o

/-- A line with a number and a unit. -/
structure UnitLine where
  name : String
  val : ℝ
  unit : String

/-- `ExcitonSchroedEq.__repr__` (exc.py 98-111); the oscillator strengths are one line with three numbers, here three. -/
def excText (gmax a M E0 loss z V : ℝ) (osc : Option (ℝ × ℝ × ℝ)) : List UnitLine :=
  [⟨"gmax", gmax, ""⟩, ⟨"a", a, "m"⟩, ⟨"M", M, "kg"⟩, ⟨"E0", E0, "eV"⟩, ⟨"loss", loss * 1e3, "ueV"⟩, ⟨"z", z, ""⟩,
    ⟨"V_shapes", V, "eV"⟩] ++
  match osc with
  | none => []
  | some (x, y, z) => [⟨"osc_str", x, "m^-2"⟩, ⟨"osc_str", y, "m^-2"⟩, ⟨"osc_str", z, "m^-2"⟩]

/-! ### The minimiser -/

/-- A line of `_disp` (minimize.py 58-66): epoch, number of epochs, objective and, on demand, the parameters. -/
structure EpochLine where
  epoch : ℕ
  total : ℕ
  objective : ℝ
  params : Option (List ℝ)

/-- `_disp`; an empty `of_list` has no last element. -/
def dispLine (iteration total : ℕ) (dispP : Bool) (ofList : List ℝ) (params : List ℝ) : Except PyErr EpochLine :=
  match ofList.getLast? with
  | none => .error .indexError
  | some v => .ok ⟨iteration, total, v, if dispP then some params else none⟩

/-- The object: the lists that `self.of_list` was before, the present one, the counter, and the lines printed so far. -/
structure MinObj where
  old : List (List ℝ)
  cur : List ℝ
  iteration : ℕ
  printed : List EpochLine

/-- `Minimize(objective)` (minimize.py 12-20). -/
def MinObj.fresh : MinObj := ⟨[], [], 0, []⟩

/-- A call of `adam`: the outcome of `_parse_bounds`, the other arguments, and the start. The objective does not use `pass_self` to
look at the lists of earlier calls. -/
structure AdamCall where
  cfg : AdamCfg
  parsed : Except PyErr Unit
  dispP : Bool
  pstart : List ℝ

/-- One epoch (minimize.py 109-138) with the counter, the list and the line (22-31, 58-66). -/
noncomputable def MinObj.epoch (c : AdamCall) (s : Except PyErr (MinObj × AdamSt)) (i : ℕ) : Except PyErr (MinObj × AdamSt) := do
  let (o, st) ← s
  let cur := o.cur ++ [(c.cfg.vg st).1]
  let line ← dispLine (o.iteration + 1) c.cfg.nEpochs c.dispP cur st.params
  .ok (⟨o.old, cur, o.iteration + 1, o.printed ++ [line]⟩, adamEpoch c.cfg st i)

/-- `adam` as a method (minimize.py 95-140): rejected `bounds` leave the counters as they were, otherwise a new `of_list` is
made. Returns the parameters and the list. -/
noncomputable def MinObj.adam (o : MinObj) (c : AdamCall) : MinObj × Except PyErr (List ℝ × List ℝ) :=
  match c.parsed with
  | .error e => (o, .error e)
  | .ok _ =>
    match (List.range c.cfg.nEpochs).foldl (MinObj.epoch c) (.ok (⟨o.old ++ [o.cur], [], 0, o.printed⟩, adamInit c.pstart)) with
    | .error e => (o, .error e)
    | .ok (o', st) => (o', .ok (st.params, o'.cur))

/-- The object after calls. -/
noncomputable def MinObj.after (o : MinObj) (cs : List AdamCall) : MinObj := cs.foldl (fun o c => (o.adam c).1) o

end Legume
