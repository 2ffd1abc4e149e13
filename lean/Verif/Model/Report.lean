import Verif.Model.Py
import Verif.Model.Plot

/-!
# Timing and its reports

`gme/gme.py` `run` 872, 957-975, 979-982, 997-1003, 1010-1026, 1148, 1166-1171, `_construct_mat` 533-537; `exc/exc.py` `run`
327-328, 368-370, 379-380; `pol/pol.py` `run` 303, 348-350; `print_utils.py` 40-236.

`time.time()` is read at fixed places; a run is given by what it reads there. Simplifications: the number of wave vectors is the
length of a list; runs which raise before the report are left out; the texts of the rows are represented by their kind, the
seconds and the share in per cent before rounding; differences of floats are exact, so that a share is a float divided by a
float and raises `ZeroDivisionError` exactly if the total time is zero.
-/
namespace Legume

section
variable {K : Type} [Field K] [LinearOrder K]

/-- What is read for one wave vector in `GuidedModeExp.run`: `t_create`, then for `'exact'` before and after the guided modes
(gme.py 534, 537), after `_construct_mat` (1003), `t_eig` (1010), with `kz_symmetry` before and after the separation (1016,
1026), after the diagonalization (1148). -/
structure KTimes (K : Type) where
  create : K
  g0 : K
  g1 : K
  created : K
  eig0 : K
  s0 : K
  s1 : K
  eig1 : K

/-- What is read in one run: `t_start` (872), for `'interp'` before and after the guided modes (958, 969), before and after
`compute_eps_inv` (977, 980), `t_loop_k` (994), the wave vectors, the end (1169). -/
structure RunTimes (K : Type) where
  start : K
  i0 : K
  i1 : K
  v0 : K
  v1 : K
  loop : K
  ks : List (KTimes K)
  stop : K

/-- The readings of one wave vector in the order in which they are made. -/
def KTimes.readings (interp kz : Bool) (c : KTimes K) : List K :=
  [c.create] ++ (if interp then [] else [c.g0, c.g1]) ++ [c.created, c.eig0] ++ (if kz then [c.s0, c.s1] else []) ++ [c.eig1]

/-- The readings of a run in the order in which they are made. -/
def RunTimes.readings (interp kz : Bool) (c : RunTimes K) : List K :=
  [c.start] ++ (if interp then [c.i0, c.i1] else []) ++ [c.v0, c.v1, c.loop] ++ c.ks.flatMap (KTimes.readings interp kz) ++
    [c.stop]

/-- The attributes about timing after a run. -/
structure Timing (K : Type) where
  guided : K
  epsInv : K
  eig : K
  symmetry : K
  creatMat : K
  total : K

/-- One pass of the loop over wave vectors (gme.py 537, 1003, 1026, 1148). -/
def Timing.step (interp kz : Bool) (t : Timing K) (c : KTimes K) : Timing K :=
  { t with
    guided := if interp then t.guided else t.guided + (c.g1 - c.g0)
    creatMat := t.creatMat + (c.created - c.create)
    symmetry := if kz then t.symmetry + (c.s1 - c.s0) else t.symmetry
    eig := t.eig + (c.eig1 - c.eig0) }

/-- `GuidedModeExp.run`: what it stores about timing. -/
def gmeTiming (interp kz : Bool) (c : RunTimes K) : Timing K :=
  let t0 : Timing K := ⟨if interp then c.i1 - c.i0 else 0, c.v1 - c.v0, 0, 0, 0, 0⟩
  let t := c.ks.foldl (Timing.step interp kz) t0
  { t with creatMat := t.creatMat - t.guided, total := c.stop - c.start }

/-- The stages named in a report. -/
inductive Stage where
  | guided | epsInv | diag | creatMat | symmetry | total | imag
  deriving DecidableEq, Repr

/-- A row: the stage, the seconds, the share in per cent if it is shown. -/
structure ReportRow (K : Type) where
  stage : Stage
  seconds : K
  share : Option K

/-- `print_GME_report` (print_utils.py 116-149) and `print_GME_report_rich` (58-113); the shares are computed before
`verbose` is looked at. -/
def gmeReport (rich verbose kz : Bool) (t : Timing K) : Except PyErr (List (ReportRow K)) :=
  if t.total = 0 then .error .zeroDivisionError
  else
    let row (s : Stage) (x : K) : ReportRow K := ⟨s, x, some (x / t.total * 100)⟩
    let rows := [row .guided t.guided, row .epsInv t.epsInv, row .diag (t.eig - t.symmetry), row .creatMat t.creatMat] ++
      (if kz then [row .symmetry t.symmetry] else [])
    if verbose then
      .ok (if rich then rows ++ [⟨.total, t.total, some 100⟩] else ⟨.total, t.total, none⟩ :: rows)
    else .ok []

/-- What is read in one run of `ExcitonSchroedEq`: the start, before and after each diagonalization, the end. -/
structure ExcTimes (K : Type) where
  start : K
  ks : List (K × K)
  stop : K

/-- The readings in order. -/
def ExcTimes.readings (c : ExcTimes K) : List K := [c.start] ++ c.ks.flatMap (fun p => [p.1, p.2]) ++ [c.stop]

/-- `t_eig` and `total_time` (exc.py 327, 370, 379). -/
def excTiming (c : ExcTimes K) : K × K := (c.ks.foldl (fun t p => t + (p.2 - p.1)) 0, c.stop - c.start)

/-- `print_ESE_report` (print_utils.py 202-208) and `print_ESE_report_rich` (178-199). -/
def excReport (rich verbose : Bool) (t : K × K) : Except PyErr (List (ReportRow K)) :=
  if verbose then
    if rich then
      if t.2 = 0 then .error .zeroDivisionError
      else .ok [⟨.diag, t.1, some (t.1 / t.2 * 100)⟩, ⟨.total, t.2, some 100⟩]
    else .ok [⟨.total, t.2, none⟩, ⟨.diag, t.1, none⟩]
  else .ok []

/-- `print_GME_im_report` (print_utils.py 171-175), `print_GME_im_report_rich` (152-168), `print_HP_report` (232-236) and
`print_HP_report_rich` (211-229): one row without a share. -/
def oneRowReport (s : Stage) (verbose : Bool) (seconds : K) : Except PyErr (List (ReportRow K)) :=
  if verbose then .ok [⟨s, seconds, none⟩] else .ok []

end

end Legume
