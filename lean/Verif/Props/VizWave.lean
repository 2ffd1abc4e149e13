import Verif.Model.VizWave
import Verif.Props.ExcWave
import Verif.Props.Results
import Verif.Props.VizField

/-!
# C131: images of exciton wave functions (`viz.wavef`) and of reciprocal lattices (`viz.reciprocal`)
-/
namespace Legume

open scoped ComplexConjugate

namespace Spec

/-- What is shown of a wave function. -/
inductive WavePart where
  | re
  | im
  | abs2

/-- Name of the argument `val`. -/
def WavePart.name : WavePart → String
  | .re => "re"
  | .im => "im"
  | .abs2 => "abs2"

/-- The number shown. -/
noncomputable def WavePart.val : WavePart → ℂ → ℝ
  | .re, z => z.re
  | .im, z => z.im
  | .abs2, z => ‖z‖ ^ 2

/-- Lower end of the colour scale for the upper end `m`. -/
def WavePart.low : WavePart → ℝ → ℝ
  | .abs2, _ => 0
  | _, m => -m

/-- The image shows the part `q` of `F`: the pixel in row `r` and column `s` is that at the point `(g1 s, g2 r)`, the extent is
that of the grids, the colour scale is symmetric about zero for real and imaginary parts, starts at zero for the density, and
ends at the largest value. -/
def ShowsWave (P : WavefImage) (q : WavePart) (g1 g2 : List ℝ) (F : ℝ → ℝ → ℂ) : Prop :=
  P.Z = ((List.range g2.length).map fun (r : ℕ) => (List.range g1.length).map fun (s : ℕ) =>
    q.val (F (g1.getD s 0) (g2.getD r 0))) ∧
  (g1[0]? = some P.extent.1 ∧ g1[g1.length - 1]? = some P.extent.2.1 ∧
    g2[0]? = some P.extent.2.2.1 ∧ g2[g2.length - 1]? = some P.extent.2.2.2) ∧
  P.vmin = q.low P.vmax ∧
  (∀ r s, r < g2.length → s < g1.length → |q.val (F (g1.getD s 0) (g2.getD r 0))| ≤ P.vmax) ∧
  ∃ r s, r < g2.length ∧ s < g1.length ∧ |q.val (F (g1.getD s 0) (g2.getD r 0))| = P.vmax

/-- The index `i` of an array of `n` entries means the position `p`, from the front or from the back. -/
def IsPos (n : ℕ) (i : ℤ) (p : ℕ) : Prop := p < n ∧ (i = p ∨ i = (p : ℤ) - n)

end Spec

open Spec

theorem isPos_index {n : ℕ} {i : ℤ} {p : ℕ} (h : IsPos n i p) : pyIndex n i = .ok p := by
  obtain ⟨h1, rfl | rfl⟩ := h
  · unfold pyIndex
    rw [if_pos ⟨by omega, by omega⟩]
    simp
  · unfold pyIndex
    rw [if_neg (by omega), if_pos ⟨by omega, by omega⟩]
    congr 1
    omega

theorem pyLower_wave : pyLower "re" = ['r', 'e'] ∧ pyLower "im" = ['i', 'm'] ∧ pyLower "abs2" = ['a', 'b', 's', '2'] := by
  decide

theorem waveValue_table (q : WavePart) (R C : ℕ) (hR : 0 < R) (hC : 0 < C) (v : ℕ → ℕ → ℂ) :
    ∃ m, waveValue (pyLower q.name) (table R C v) = .ok (table R C (fun r s => q.val (v r s)), q.low m, m) ∧
      (∀ r s, r < R → s < C → |q.val (v r s)| ≤ m) ∧ ∃ r s, r < R ∧ s < C ∧ |q.val (v r s)| = m := by
  obtain ⟨p1, p2, p3⟩ := pyLower_wave
  obtain ⟨m, h1, h2, h3⟩ := arrMax_table R C hR hC fun r s => |q.val (v r s)|
  refine ⟨m, ?_, h2, h3⟩
  cases q with
  | re =>
    simp only [WavePart.name, p1, waveValue, true_or, if_true, table_map]
    simp only [WavePart.val] at h1
    rw [h1]; rfl
  | im =>
    simp only [WavePart.name, p2, waveValue, or_true, if_true, table_map]
    simp only [WavePart.val] at h1
    have hne : ∀ a b : ℝ, (if (['i', 'm'] : List Char) = ['r', 'e'] then a else b) = b := fun a b => if_neg (by decide)
    simp only [hne]
    rw [h1]; rfl
  | abs2 =>
    simp only [WavePart.name, p3, waveValue, table_map]
    simp only [WavePart.val, abs_pow, abs_norm] at h1
    rw [if_neg (by decide), if_pos trivial, h1]; rfl

theorem ftinv_table (gvec : List R2) (hg : gvec.Nodup) (c : List ℂ) (xs ys : List ℝ) :
    ftinv (c.zip gvec) xs ys = table ys.length xs.length fun r s => pointField gvec c (xs.getD s 0) (ys.getD r 0) := by
  have hl : ∀ (l : List ℝ), l = (List.range l.length).map fun (i : ℕ) => l.getD i 0 := fun l => by
    apply List.ext_getElem
    · simp
    · intro i h1 h2
      simp [h1]
  unfold ftinv table
  conv_lhs => rw [hl ys, hl xs]
  rw [List.map_map]
  refine List.map_congr_left fun r _ => ?_
  simp only [Function.comp_def, List.map_map]
  exact List.map_congr_left fun s _ => ftinvAt_point gvec c hg _ _

theorem getWavefXy_ok (S : WaveSrc) (hg : S.gvec.Nodup) {kind mind : ℤ} {ik im : ℕ} (hk : IsPos S.vecs.length kind ik)
    (hm : IsPos S.nmode mind im) (nx ny : ℕ) :
    ∃ g1 g2, S.L.xyGrid nx ny .none = .ok (g1, g2) ∧ g1.length = nx ∧ g2.length = ny ∧
      getWavefXy S kind mind nx ny = .ok (table ny nx fun r s =>
        pointField S.gvec ((S.vecs.getD ik []).getD im []) (g1.getD s 0) (g2.getD r 0), g1, g2) := by
  obtain ⟨⟨g1, g2⟩, h, h1, h2⟩ := xyGrid_ok S.L nx ny
  refine ⟨g1, g2, h, h1, h2, ?_⟩
  unfold getWavefXy
  rw [h]
  simp only [bind, Except.bind]
  rw [isPos_index hk]
  simp only
  rw [isPos_index hm]
  simp only
  rw [ftinv_table _ hg]
  simp only at h1 h2
  rw [h1, h2]
  rfl

/-- **C131 (image, without the Bloch phase for real and imaginary parts).** `wavef` shows the part asked for of the sum of the plane waves of the mode, the wave vector and the mode
counted from the front or from the back, whatever the letters of `val` (upper or lower case), and the title has the real part of
the energy stored for the mode. -/
theorem C131_image_partial (S : WaveSrc) (hg : S.gvec.Nodup) (he : S.eners.length = S.vecs.length) {kind mind : ℤ} {ik im : ℕ}
    (hk : IsPos S.vecs.length kind ik) (hm : IsPos S.nmode mind im) (q : WavePart) (val : String)
    (hv : pyLower val = pyLower q.name) (n1 n2 : ℕ) (h1 : 0 < n1) (h2 : 0 < n2) :
    ∃ g1 g2 P, S.L.xyGrid n1 n2 .none = .ok (g1, g2) ∧ vizWavef true S kind mind val n1 n2 = .ok P ∧
      ShowsWave P q g1 g2 (pointField S.gvec ((S.vecs.getD ik []).getD im [])) ∧
      P.energy = ((S.eners.getD ik []).getD im 0).re := by
  obtain ⟨g1, g2, hgr, l1, l2, hdat⟩ := getWavefXy_ok S hg hk hm n1 n2
  obtain ⟨m, m1, m2, m3⟩ := waveValue_table q n2 n1 h2 h1 fun r s =>
    pointField S.gvec ((S.vecs.getD ik []).getD im []) (g1.getD s 0) (g2.getD r 0)
  have e1 : g1 ≠ [] := fun h => by rw [h] at l1; simp at l1; omega
  have e2 : g2 ≠ [] := fun h => by rw [h] at l2; simp at l2; omega
  have hends : ∀ l : List ℝ, l ≠ [] → l[0]? = some (l.headD 0) ∧ l[l.length - 1]? = some (l.getLastD 0) := by
    intro l hl
    obtain ⟨a, l', rfl⟩ := List.exists_cons_of_ne_nil hl
    refine ⟨rfl, ?_⟩
    rw [← List.getLast?_eq_getElem?, List.getLast?_eq_getLast_of_ne_nil (by simp)]
    rw [List.getLastD_eq_getLast?, List.getLast?_eq_getLast_of_ne_nil (by simp)]
    rfl
  refine ⟨g1, g2, ⟨_, q.low m, m, (g1.headD 0, g1.getLastD 0, g2.headD 0, g2.getLastD 0),
    ((S.eners.getD ik []).getD im 0).re⟩, hgr, ?_, ⟨rfl, ⟨(hends g1 e1).1, (hends g1 e1).2, (hends g2 e2).1, (hends g2 e2).2⟩,
      rfl, by rw [l1, l2]; exact m2, by rw [l1, l2]; exact m3⟩, rfl⟩
  unfold vizWavef
  rw [if_pos rfl, hdat]
  simp only [bind, Except.bind]
  rw [if_neg (by simp [e1, e2]), hv, m1]
  simp only
  rw [he, isPos_index hk]
  simp only
  rw [isPos_index hm]
  simp only [l1, l2]
  rfl

/-- **C131 (density).** With `val='abs2'` the image is the density of the wave function itself, with its Bloch phase, at every wave
vector, and it does not change with the phase of the eigenvector. -/
theorem C131_density (gvec : List R2) (k : R2) (c : List ℂ) (u : ℂ) (hu : ‖u‖ = 1) (x y : ℝ) :
    WavePart.abs2.val (pointField gvec c x y) = ‖blochField gvec k c x y‖ ^ 2 ∧
      WavePart.abs2.val (pointField gvec (c.map (u * ·)) x y) = WavePart.abs2.val (pointField gvec c x y) := by
  constructor
  · rw [bloch_eq, norm_mul, mul_comm Complex.I, Complex.norm_exp_ofReal_mul_I, mul_one]
    rfl
  · have : pointField gvec (c.map (u * ·)) x y = u * pointField gvec c x y := by
      unfold pointField
      rw [List.zipWith_map_left]
      induction c generalizing gvec with
      | nil => simp
      | cons a c ih =>
        cases gvec with
        | nil => simp
        | cons g gs =>
          simp only [List.zipWith_cons_cons, List.sum_cons]
          rw [ih gs]
          ring
    simp only [WavePart.val]
    rw [this, norm_mul, hu, one_mul]

/-- **C131 (norm).** For the wave functions of a run, the density shown with `val='abs2'` has the mean one over the unit cell. -/
theorem C131_norm (argsort : List ℝ → List ℕ) (hs : ∀ l, IsArgsort l (argsort l))
    (eigh : ∀ n, Matrix (Fin n) (Fin n) ℂ → Fin n → ℝ)
    (vecs : ∀ n, Matrix (Fin n) (Fin n) ℂ → Matrix (Fin n) (Fin n) ℂ) (he : EighPair eigh vecs) (a1 a2 : R2) (W : ExcWell)
    (hd : Dual a1 a2 W.b1 W.b2) (hb : Resolved W.b1 W.b2) (hr : ∀ s ∈ W.shapes, RealFt s) (t : TruncG) (gmax : ℝ)
    (hg : 0 ≤ gmax) (k : R2) (numeig : ℕ) :
    ∃ r, excSim argsort eigh W t gmax [k] numeig = .ok [r] ∧ ∀ mind < r.2.length, ∀ c,
      excWaveFt argsort eigh vecs W t gmax k numeig mind = .ok c →
      cellMean a1 a2 (fun x y => ((WavePart.abs2.val (pointField (W.gvec t gmax) (List.ofFn c) x y) : ℝ) : ℂ)) = 1 := by
  have hnd : (W.gvec t gmax).Nodup := List.nodup_iff_injective_get.2 (excWell_gvec_inj W hd t gmax)
  obtain ⟨rs, h1, h2⟩ := C110_orthonormal argsort hs eigh vecs he a1 a2 W hd hb hr t gmax hg [k] numeig
  cases h2 with
  | @cons _ r _ rs' h3 h4 =>
    cases h4
    obtain ⟨ψ, h5, h6⟩ := h3
    refine ⟨r, h1, fun mind hm c hc => ?_⟩
    have hψ : ∀ x y, pointField (W.gvec t gmax) (List.ofFn c) x y = ψ mind x y := by
      intro x y
      have h7 := h5 mind hm x y
      unfold excWave at h7
      rw [hc] at h7
      rw [← Except.ok.inj h7, ← ftinvAt_point _ _ hnd]
      congr 1
      unfold withG
      apply List.ext_getElem
      · simp
      · intro i p q
        simp
    have h8 := h6 mind hm mind hm
    rw [if_pos rfl] at h8
    rw [← h8]
    congr 1
    funext x y
    simp only [WavePart.val]
    rw [hψ, ← Complex.normSq_eq_norm_sq, Complex.normSq_eq_conj_mul_self]

/-- **C131 (errors).** Other objects, other names of `val` and indices outside the stored arrays are rejected; the name `'abs'`, which
`viz.field` accepts, is one of the names rejected. -/
theorem C131_errors (S : WaveSrc) (hg : S.gvec.Nodup) (kind mind : ℤ) (val : String) (n1 n2 : ℕ) (h1 : 0 < n1) (h2 : 0 < n2) :
    vizWavef false S kind mind val n1 n2 = .error .valueError ∧
      ((¬ ∃ p, IsPos S.vecs.length kind p) → vizWavef true S kind mind val n1 n2 = .error .indexError) ∧
      ((∃ p, IsPos S.vecs.length kind p) → (¬ ∃ p, IsPos S.nmode mind p) →
        vizWavef true S kind mind val n1 n2 = .error .indexError) ∧
      ((∃ p, IsPos S.vecs.length kind p) → (∃ p, IsPos S.nmode mind p) → (∀ q : WavePart, pyLower val ≠ pyLower q.name) →
        vizWavef true S kind mind val n1 n2 = .error .valueError) := by
  have hno : ∀ (n : ℕ) (i : ℤ), (¬ ∃ p, IsPos n i p) → pyIndex n i = .error .indexError := by
    intro n i h
    unfold pyIndex
    rw [if_neg fun hh => h ⟨i.toNat, by omega, by left; omega⟩,
      if_neg fun hh => h ⟨(i + n).toNat, by omega, by right; omega⟩]
  obtain ⟨⟨g1, g2⟩, hgr, l1, l2⟩ := xyGrid_ok S.L n1 n2
  refine ⟨rfl, fun h => ?_, fun ⟨p, hp⟩ h => ?_, fun ⟨p, hp⟩ ⟨p', hp'⟩ h => ?_⟩
  · unfold vizWavef getWavefXy
    rw [if_pos rfl, hgr]
    simp only [bind, Except.bind]
    rw [hno _ _ h]
  · unfold vizWavef getWavefXy
    rw [if_pos rfl, hgr]
    simp only [bind, Except.bind]
    rw [isPos_index hp, hno _ _ h]
  · obtain ⟨g1', g2', -, m1, m2, hdat⟩ := getWavefXy_ok S hg hp hp' n1 n2
    unfold vizWavef
    rw [if_pos rfl, hdat]
    simp only [bind, Except.bind]
    have e1 : g1' ≠ [] := fun h => by rw [h] at m1; simp at m1; omega
    have e2 : g2' ≠ [] := fun h => by rw [h] at m2; simp at m2; omega
    rw [if_neg (by simp [e1, e2])]
    have a := h .re
    have b := h .im
    have d := h .abs2
    obtain ⟨p1, p2, p3⟩ := pyLower_wave
    simp only [WavePart.name, p1, p2, p3] at a b d
    unfold waveValue
    rw [if_neg (by simp [a, b]), if_neg d]

/-- One plane wave, which is the wave function of a uniform well at the wave vector `(π, 0)` and the energy `3/2`. -/
noncomputable def flatWave : WaveSrc := ⟨mkLattice .square ⟨1, 0, 0⟩ ⟨0, 1, 0⟩, [(0, 0)], 1, [[⟨3 / 2, 1⟩]], [[[1]]]⟩

/-- **C131 (refuted for real and imaginary parts).** With `val='re'` the image is not the real part of the wave function, but that of
its periodic part: the wave function `exp(i π x)` is shown as the constant one, at the left edge of the cell too, where its real
part is zero. -/
theorem C131_re_periodic : ∃ P g1 g2, vizWavef true flatWave 0 0 "re" 2 2 = .ok P ∧
    flatWave.L.xyGrid 2 2 .none = .ok (g1, g2) ∧ P.Z = [[1, 1], [1, 1]] ∧
    ¬ ShowsWave P .re g1 g2 (blochField flatWave.gvec (Real.pi, 0) [1]) := by
  obtain ⟨g1, g2, P, hgr, hP, ⟨hZ, -⟩, -⟩ := C131_image_partial flatWave (by simp [flatWave]) rfl (kind := 0) (mind := 0) (ik := 0) (im := 0)
    ⟨by simp [flatWave], by simp⟩ ⟨by simp [flatWave], by simp⟩ .re "re" rfl 2 2 two_pos two_pos
  have hg : g1 = [-1 / 2, 1 / 2] ∧ g2 = [-1 / 2, 1 / 2] := by
    simp [flatWave, Lattice.xyGrid, parsePeriods, mkLattice, linspace, List.range_succ, bind, Except.bind, pure, Except.pure]
      at hgr
    rw [← hgr.1, ← hgr.2]
    norm_num
  obtain ⟨rfl, rfl⟩ := hg
  have hone : P.Z = [[1, 1], [1, 1]] := by
    rw [hZ]
    simp [flatWave, pointField, WavePart.val, List.range_succ]
  refine ⟨P, _, _, hP, hgr, hone, fun h => ?_⟩
  have h0 := h.1
  rw [hone] at h0
  have h1 := congrArg (fun l : List (List ℝ) => (l.getD 0 []).getD 0 0) h0
  simp [flatWave, blochField, WavePart.val, List.range_succ] at h1
  rw [Complex.exp_re] at h1
  have h2 : (Complex.I * ((Real.pi : ℂ) * (-1 / 2))).im = -(Real.pi / 2) := by
    simp [Complex.mul_im, Complex.div_re, Complex.div_im, Complex.normSq]
    ring
  rw [h2, Real.cos_neg, Real.cos_pi_div_two, mul_zero] at h1
  exact one_ne_zero h1

/-- **C131 (reciprocal lattice).** `reciprocal` plots the reciprocal vectors which the solver uses; for a polariton problem that was never
run it raises `AttributeError`, and after any call of `run` it does not. -/
theorem C131_reciprocal {F V : Type*} (kind : SolverKind) (gvec : List R2) (cs : List (RunCall F V)) :
    vizReciprocal (ResObj.history kind gvec cs) =
      if kind = .pol ∧ cs = [] then .error .attributeError else .ok gvec := by
  have hstep : ∀ (o : ResObj F V) (c : RunCall F V), (o.run kind gvec c).1.gvec =
      if kind = .pol then some gvec else o.gvec := by
    intro o c
    unfold ResObj.run
    cases kind
    · simp only [SolverKind.hasOptions]
      cases c.prep with
      | error e => rfl
      | ok u =>
        rcases solveLoop c.solve (List.range c.ks.length) with ⟨rs, e | u⟩ <;> rfl
    · simp only [SolverKind.hasOptions]
      cases c.opts with
      | error e => rfl
      | ok u =>
        cases c.prep with
        | error e => rfl
        | ok u =>
          rcases solveLoop c.solve (List.range c.ks.length) with ⟨rs, e | u⟩ <;> rfl
    · simp only [SolverKind.hasOptions]
      cases c.opts with
      | error e => rfl
      | ok u =>
        cases c.prep with
        | error e => rfl
        | ok u =>
          rcases solveLoop c.solve (List.range c.ks.length) with ⟨rs, e | u⟩
          · rfl
          · simp only [ResObj.finish, ResObj.begin]
            cases c.post <;> rfl
    · simp only [SolverKind.hasOptions]
      cases c.prep with
      | error e => rfl
      | ok u =>
        rcases solveLoop c.solve (List.range c.ks.length) with ⟨rs, e | u⟩ <;> rfl
  have hall : ∀ (cs : List (RunCall F V)) (o : ResObj F V), (cs.foldl (fun o c => (o.run kind gvec c).1) o).gvec =
      if kind = .pol ∧ cs ≠ [] then some gvec else o.gvec := by
    intro cs
    induction cs with
    | nil => intro o; simp
    | cons c cs ih =>
      intro o
      rw [List.foldl_cons, ih, hstep]
      by_cases hk : kind = .pol <;> simp [hk]
  unfold vizReciprocal ResObj.history
  rw [hall]
  cases kind <;> cases cs <;> simp [ResObj.fresh, readAttr]

/-! ### Examples -/

example : ∃ g1 g2 P, flatWave.L.xyGrid 3 4 .none = .ok (g1, g2) ∧ vizWavef true flatWave (-1) 0 "Abs2" 3 4 = .ok P ∧
    P.energy = 3 / 2 ∧ P.vmin = 0 := by
  obtain ⟨g1, g2, P, h1, h2, h3, h4⟩ := C131_image_partial flatWave (by simp [flatWave]) rfl (kind := -1) (mind := 0) (ik := 0) (im := 0)
    ⟨by simp [flatWave], by simp [flatWave]⟩ ⟨by simp [flatWave], by simp⟩ .abs2 "Abs2" (by decide) 3 4 (by norm_num)
    (by norm_num)
  exact ⟨g1, g2, P, h1, h2, by rw [h4]; simp [flatWave], by rw [h3.2.2.1]; rfl⟩

example : vizWavef true flatWave 0 0 "abs" 2 2 = .error .valueError ∧ vizWavef true flatWave 1 0 "re" 2 2 = .error .indexError := by
  refine ⟨(C131_errors flatWave (by simp [flatWave]) 0 0 "abs" 2 2 two_pos two_pos).2.2.2
    ⟨0, by simp [flatWave], by simp⟩ ⟨0, by simp [flatWave], by simp⟩ (by rintro (_ | _ | _) <;> decide),
    (C131_errors flatWave (by simp [flatWave]) 1 0 "re" 2 2 two_pos two_pos).2.1 ?_⟩
  rintro ⟨p, h1, h2⟩
  simp only [flatWave, List.length_cons, List.length_nil] at h1 h2
  omega

example (argsort : List ℝ → List ℕ) (hs : ∀ l, IsArgsort l (argsort l)) (eigh : _) (vecs : _) (he : EighPair eigh vecs)
    (x y V : ℝ) (k : R2) : ∃ r, excSim argsort eigh (wellDisc x y V) .abs 2 [k] 5 = .ok [r] := by
  obtain ⟨r, h, -⟩ := C131_norm argsort hs eigh vecs he (1, 0) (0, 1) (wellDisc x y V) (wellDisc_drawn x y V).dual resolved_square
    (wellDrawn_real (wellDisc_drawn x y V)) .abs 2 (by norm_num) k 5
  exact ⟨r, h⟩

end Legume
