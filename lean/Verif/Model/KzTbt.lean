import Verif.Model.KzRun
import Verif.Model.GmeTbt

/-!
# `GuidedModeExp.run` with `kz_symmetry` and `truncate_g='tbt'`

`gme/gme.py` `run` 877-903 and 1022-1158 with `eig_solver='eigh'`; the test that would refuse the combination is commented
out (894-897). Simplifications as in `Verif/Model/KzRun.lean`.
-/
namespace Legume

/-- `run` (gme.py 826-1158); `t` is the type of the lattice, `angles` the directions passed by the user. -/
noncomputable def gmeSimKzTbt (ij : LPos → ℂ → ℂ) (argsort : List ℝ → List ℕ)
    (eigh : ∀ n, Matrix (Fin n) (Fin n) ℂ → Fin n → ℝ) (norm : NormFn) (fs : Finder) (o : GuidedOpts) (kz : KzSymm)
    (sparse : Bool) (thr : ℝ) (t : LatType) (angles : List ℝ) (S : GmeStruct) (gmax : ℝ) (onlyG : Bool) (opt : String)
    (ks : List R2) (sigma : ℝ) (numeig : ℕ) : Except PyErr (List KRes) :=
  if angles = [] then .error .valueError
  else do
    let _ ← reflMat t angles
    if onlyG then .error .valueError else do
      let eff ← S.layers.mapM (GmeLay.eff opt)
      let stack := (S.layers.map GmeLay.pos).zip eff
      let einv ← S.layers.mapM (S.epsInvT gmax onlyG)
      (List.range ks.length).mapM fun (ik : ℕ) => do
        let blocks ← codeBlocks norm fs o stack (guidedGrid o (S.gvecT gmax) ks (ks.getD ik 0))
          fun i => radPlane o.deltaGx (ks.getD ik 0) (S.gvecT gmax)[i]
        kzPoint ij argsort eigh kz sparse thr angles[ik]? o.inds (S.gvecT gmax) stack einv blocks sigma numeig

end Legume
