import Verif.Props.WaveVecs
import Verif.Props.GmeTbt

/-!
# C146: wave vectors of a run with `truncate_g='tbt'` are independent
-/
namespace Legume
open Spec

variable (ij : LPos → ℂ → ℂ) (argsort : List ℝ → List ℕ) (eigh : ∀ n, Matrix (Fin n) (Fin n) ℂ → Fin n → ℝ)
  (norm : NormFn) (fs : Finder) (o : GuidedOpts) (S : GmeStruct) (gmax : ℝ) (onlyG : Bool) (opt : String) (sigma : ℝ)
  (numeig : ℕ)

/-- What does not depend on the wave vectors: the effective stack and the inverse permittivities. -/
noncomputable def gmePrepT :
    Except PyErr (List (LPos × ℝ) × List (Matrix (Fin (S.gvecT gmax).length) (Fin (S.gvecT gmax).length) ℂ)) :=
  if onlyG then .error .valueError else do
    let eff ← S.layers.mapM (GmeLay.eff opt)
    let einv ← S.layers.mapM (S.epsInvT gmax false)
    .ok ((S.layers.map GmeLay.pos).zip eff, einv)

theorem gmeSimTbtIj_split (grid : R2 → List ℝ) (ks : List R2) (hg : ∀ k, guidedGrid o (S.gvecT gmax) ks k = grid k) :
    gmeSimTbtIj ij argsort eigh (codeGuided norm fs o) S gmax onlyG opt ks sigma numeig =
      (gmePrepT S gmax onlyG opt).bind fun c => ks.mapM fun k =>
        (basisOf norm fs o c.1 (grid k) fun i => radPlane o.deltaGx k (S.gvecT gmax)[i]).bind fun basis =>
          solveFull argsort (List.ofFn (eigh _ (gmeMatIj ij c.1 c.2 basis + 1))) sigma numeig := by
  cases onlyG with
  | true =>
    rw [tbt_refused]
    rfl
  | false =>
  rw [tbt_run]
  unfold gmePrepT codeGuided
  rw [if_neg Bool.false_ne_true]
  simp only [bind, Except.bind]
  cases S.layers.mapM (GmeLay.eff opt) with
  | error e => rfl
  | ok eff =>
    cases S.layers.mapM (S.epsInvT gmax false) with
    | error e => rfl
    | ok einv =>
      simp only [hg]
      exact range_mapM (fun k : R2 => (basisOf norm fs o ((S.layers.map GmeLay.pos).zip eff) (grid k)
        (fun i => radPlane o.deltaGx k (S.gvecT gmax)[i])).bind fun basis => solveFull argsort (List.ofFn (eigh _ (gmeMatIj ij ((S.layers.map GmeLay.pos).zip eff) einv basis + 1))) sigma
            numeig) 0 ks

/-- **C146 ('tbt').** The guided-mode expansion with `truncate_g='tbt'` and `gmode_compute='exact'`. -/
theorem C146_tbt (ho : o.exact = true) :
    PointWise fun ks => gmeSimTbtIj ij argsort eigh (codeGuided norm fs o) S gmax onlyG opt ks sigma numeig :=
  pointWise_of _ _ _ fun ks _ => gmeSimTbtIj_split ij argsort eigh norm fs o S gmax onlyG opt sigma numeig _ ks
    (guidedGrid_exact o ho _ ks)

/-- **C146 ('tbt', interpolation).** With `gmode_compute='interp'` runs over lists with the same longest wave vector agree at
the wave vectors that they share. -/
theorem C146_tbt_interp (kl : R2) (ks ks' : List R2) (h : LongestIn kl ks) (h' : LongestIn kl ks') (rs rs' : List KRes)
    (hr : gmeSimTbtIj ij argsort eigh (codeGuided norm fs o) S gmax onlyG opt ks sigma numeig = .ok rs)
    (hr' : gmeSimTbtIj ij argsort eigh (codeGuided norm fs o) S gmax onlyG opt ks' sigma numeig = .ok rs')
    (i j : ℕ) (k : R2) (hi : ks[i]? = some k) (hj : ks'[j]? = some k) : rs[i]? = rs'[j]? := by
  have hg : ∀ ks, LongestIn kl ks → ∀ k, guidedGrid o (S.gvecT gmax) ks k = guidedGrid o (S.gvecT gmax) [kl] k := by
    intro ks h k
    unfold guidedGrid
    rw [gridMax_longest h]
  rw [gmeSimTbtIj_split ij argsort eigh norm fs o S gmax onlyG opt sigma numeig _ ks (hg ks h)] at hr
  rw [gmeSimTbtIj_split ij argsort eigh norm fs o S gmax onlyG opt sigma numeig _ ks' (hg ks' h')] at hr'
  cases hp : gmePrepT S gmax onlyG opt with
  | error e => rw [hp] at hr; simp [Except.bind] at hr
  | ok c =>
    rw [hp] at hr hr'
    obtain ⟨h1, h2⟩ := (mapM_ok_iff _ _ _).1 hr
    obtain ⟨h1', h2'⟩ := (mapM_ok_iff _ _ _).1 hr'
    have li : i < rs.length := by rw [h1]; exact (List.getElem?_eq_some_iff.1 hi).1
    have lj : j < rs'.length := by rw [h1']; exact (List.getElem?_eq_some_iff.1 hj).1
    have e1 := h2 i k rs[i] hi (List.getElem?_eq_getElem li)
    have e2 := h2' j k rs'[j] hj (List.getElem?_eq_getElem lj)
    rw [e1] at e2
    rw [List.getElem?_eq_getElem li, List.getElem?_eq_getElem lj]
    exact congrArg some (Except.ok.inj e2)

/-- A slab with a circular hole at two wave vectors: what the run returns for the second one is what it returns for it alone. -/
example (J : ℝ → ℝ) (r r' : KRes)
    (h : gmeSimTbtIj ij argsort eigh (codeGuided norm fs ⟨[0, 1], true, 0.01, 1e-8, 0, 0, 1e-15⟩)
      ⟨(2 * Real.pi, 0), (0, 2 * Real.pi), 1, [⟨.lower, 1, 1, none, []⟩,
        ⟨.inner 0.5, 12, 11, none, [⟨1, Circle.ft J ⟨0.1, 0, 0.2⟩⟩]⟩, ⟨.upper, 1, 1, none, []⟩]⟩ 2 false "average"
      [(0.1, 0), (0.2, 0.3)] 0 3 = .ok [r, r']) :
    gmeSimTbtIj ij argsort eigh (codeGuided norm fs ⟨[0, 1], true, 0.01, 1e-8, 0, 0, 1e-15⟩)
      ⟨(2 * Real.pi, 0), (0, 2 * Real.pi), 1, [⟨.lower, 1, 1, none, []⟩,
        ⟨.inner 0.5, 12, 11, none, [⟨1, Circle.ft J ⟨0.1, 0, 0.2⟩⟩]⟩, ⟨.upper, 1, 1, none, []⟩]⟩ 2 false "average"
      [(0.2, 0.3)] 0 3 = .ok [r'] :=
  ((C146_tbt ij argsort eigh norm fs ⟨[0, 1], true, 0.01, 1e-8, 0, 0, 1e-15⟩ _ 2 false "average" 0 3 rfl _ (by simp) _).1
    h).2 1 _ _ rfl rfl

end Legume
