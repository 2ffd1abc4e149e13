import Mathlib.Analysis.SpecialFunctions.Trigonometric.Basic
import Mathlib.Analysis.SpecialFunctions.Pow.Real
import Mathlib.Algebra.Order.Floor.Semiring
import Verif.Model.Py

/-!
# Slab modes: `legume/gme/slab_modes.py`
-/
namespace Legume

open Complex

/-- Polarisation string after `.lower()`. -/
inductive Pol
  | te
  | tm
  deriving DecidableEq, Repr

/-- 2 x 2 complex matrices `[[a, b], [c, d]]`. -/
@[ext] structure M2 where
  a : ℂ
  b : ℂ
  c : ℂ
  d : ℂ

/-- `bd.dot` of two matrices. -/
def M2.mul (x y : M2) : M2 :=
  ⟨x.a * y.a + x.b * y.c, x.a * y.b + x.b * y.d, x.c * y.a + x.d * y.c, x.c * y.b + x.d * y.d⟩

instance : Mul M2 := ⟨M2.mul⟩

/-- `bd.dot` of a matrix and a column. -/
def M2.app (x : M2) (v : ℂ × ℂ) : ℂ × ℂ := (x.a * v.1 + x.b * v.2, x.c * v.1 + x.d * v.2)

/-- `I_alpha` (slab_modes.py 8-10). -/
noncomputable def IAlpha (a : ℂ) (d : ℝ) : ℂ :=
  let a := a + 1e-20
  2 / a * Complex.sin (a * d / 2)

/-- `J_alpha` (slab_modes.py 13-15). -/
noncomputable def JAlpha (a : ℂ) : ℂ :=
  let a := a + 1e-20
  Complex.I / a

/-- `chi` for one layer (slab_modes.py 160-172). `bd.sqrt` of a complex number with vanishing
imaginary part and non-negative real part is the real square root. -/
noncomputable def chi (omega g eps : ℝ) : ℂ :=
  if 0 ≤ eps * omega ^ 2 - g ^ 2 then ((√(eps * omega ^ 2 - g ^ 2) : ℝ) : ℂ)
  else Complex.I * ((√(-(eps * omega ^ 2 - g ^ 2)) : ℝ) : ℂ)

/-- The interface weight of a layer: `chi` for TE, `chi / eps` for TM
(slab_modes.py 207-208, 226-227). -/
noncomputable def wgt (pol : Pol) (omega g eps : ℝ) : ℂ :=
  match pol with
  | .te => chi omega g eps
  | .tm => chi omega g eps / eps

/-- One interface matrix `0.5 / w2 * [[w1 + w2, -w1 + w2], [-w1 + w2, w1 + w2]]`
(slab_modes.py 207-212, 226-231). -/
noncomputable def sMat (w1 w2 : ℂ) : M2 :=
  ⟨0.5 / w2 * (w1 + w2), 0.5 / w2 * (-w1 + w2), 0.5 / w2 * (-w1 + w2), 0.5 / w2 * (w1 + w2)⟩

/-- One half-layer propagation matrix (slab_modes.py 213-216, 232-235). -/
noncomputable def tMat (x : ℂ) (d : ℝ) : M2 :=
  ⟨Complex.exp (Complex.I * x * d / 2), 0, 0, Complex.exp (-Complex.I * x * d / 2)⟩

/-- `S_matrices` (slab_modes.py 199-238): one for every pair of neighbouring layers. -/
noncomputable def sMats (pol : Pol) (omega g : ℝ) (eps : List ℝ) : List M2 :=
  List.zipWith (fun e1 e2 => sMat (wgt pol omega g e1) (wgt pol omega g e2)) eps eps.tail

/-- `T_matrices` (slab_modes.py 199-238): one for every layer except the claddings. -/
noncomputable def tMats (omega g : ℝ) (eps ds : List ℝ) : List M2 :=
  List.zipWith (fun e d => tMat (chi omega g e) d) eps.tail.dropLast ds

/-- The assertion at the beginning of `S_T_matrices_*` (slab_modes.py 203, 222). -/
def stackOk (eps ds : List ℝ) : Prop := ds.length = eps.length - 2

/-- `D22` for a stack which does not consist of three layers (slab_modes.py 267-279). -/
noncomputable def d22General (pol : Pol) (omega g : ℝ) (eps ds : List ℝ) : ℂ :=
  match sMats pol omega g eps with
  | [] => 0
  | s0 :: ss => (((ss.zip (tMats omega g eps ds)).foldl
      (fun D st => st.1 * (st.2 * (st.2 * D))) s0)).d

/-- `chis_3layer` (slab_modes.py 175-183). Simplification: real square roots, i.e. the frequency
lies between the light lines (outside numpy gives nan). -/
noncomputable def chis3 (omega g e1 e2 e3 : ℝ) : ℂ × ℂ × ℂ :=
  (Complex.I * ((√(g ^ 2 - e1 * omega ^ 2) : ℝ) : ℂ), ((√(-g ^ 2 + e2 * omega ^ 2) : ℝ) : ℂ),
    Complex.I * ((√(g ^ 2 - e3 * omega ^ 2) : ℝ) : ℂ))

/-- `D22` for three layers (slab_modes.py 252-266, and 352-366 in the vectorised version). -/
noncomputable def d22Three (pol : Pol) (omega g e1 e2 e3 d : ℝ) : ℂ :=
  let x := chis3 omega g e1 e2 e3
  let tcos := -Complex.I * Complex.cos (x.2.1 * d)
  let tsin := -Complex.sin (x.2.1 * d)
  match pol with
  | .te => x.2.1 * (x.1 + x.2.2) * tcos + (x.1 * x.2.2 + x.2.1 ^ 2) * tsin
  | .tm => x.2.1 / e2 * (x.1 / e1 + x.2.2 / e3) * tcos +
      (x.1 / e1 * x.2.2 / e3 + (x.2.1 / e2) ^ 2) * tsin

/-- `D22` (slab_modes.py 241-279). -/
noncomputable def d22 (pol : Pol) (omega g : ℝ) (eps ds : List ℝ) : ℂ :=
  match eps, ds with
  | [e1, e2, e3], [d] => d22Three pol omega g e1 e2 e3 d
  | _, _ => d22General pol omega g eps ds

/-- `S_T_prod` of `D22s_vec` for one frequency (slab_modes.py 318-349). -/
noncomputable def sTprod (pol : Pol) (omega g e1 e2 d : ℝ) (m : M2) : M2 :=
  let s := sMat (wgt pol omega g e1) (wgt pol omega g e2)
  let t11 := Complex.exp (Complex.I * chi omega g e1 * d)
  let t22 := Complex.exp (-Complex.I * chi omega g e1 * d)
  let tm : M2 := ⟨m.a * t11, m.b * t11, m.c * t22, m.d * t22⟩
  ⟨s.a * tm.a + s.b * tm.c, s.a * tm.b + s.b * tm.d, s.c * tm.a + s.d * tm.c,
    s.c * tm.b + s.d * tm.d⟩

/-- The loop `for il in range(1, eps_array.size - 1)` (slab_modes.py 380-382), the head of `eps`
being `eps_array[il]`. -/
noncomputable def vecLoop (pol : Pol) (omega g : ℝ) : List ℝ → List ℝ → M2 → M2
  | e1 :: e2 :: eps, d :: ds, m => vecLoop pol omega g (e2 :: eps) ds (sTprod pol omega g e1 e2 d m)
  | _, _, m => m

/-- `D22s_vec` at one frequency, general stack (slab_modes.py 367-386). -/
noncomputable def d22VecGeneral (pol : Pol) (omega g : ℝ) (eps ds : List ℝ) : ℂ :=
  match eps with
  | e1 :: e2 :: eps' =>
    (vecLoop pol omega g (e2 :: eps') ds (sMat (wgt pol omega g e1) (wgt pol omega g e2))).d
  | _ => 0

/-- `D22s_vec` at one frequency (slab_modes.py 282-386). -/
noncomputable def d22Vec (pol : Pol) (omega g : ℝ) (eps ds : List ℝ) : ℂ :=
  match eps, ds with
  | [e1, e2, e3], [d] => d22Three pol omega g e1 e2 e3 d
  | _, _ => d22VecGeneral pol omega g eps ds

/-- The loop of `AB_matrices` (slab_modes.py 411-420): `ss` are the interface matrices still to
be used, `ts` the propagation matrices from `T_matrices[i]` on. -/
noncomputable def abLoop : List M2 → List M2 → ℂ × ℂ → List (ℂ × ℂ)
  | s :: ss, t :: ts, last =>
    let term := s.app (t.app last)
    let term := match ts with
      | t' :: _ => t'.app term
      | [] => term
    term :: abLoop ss ts term
  | _, _, _ => []

/-- `AB_matrices` (slab_modes.py 389-421). With no layer between the claddings
`T_matrices[0]` raises. -/
noncomputable def abMatrices (pol : Pol) (omega g : ℝ) (eps ds : List ℝ) :
    Except PyErr (List (ℂ × ℂ)) :=
  match sMats pol omega g eps, tMats omega g eps ds with
  | s0 :: ss, t0 :: ts =>
    let first := t0.app (s0.app (0, 1))
    .ok ((0, 1) :: first :: abLoop ss (t0 :: ts) first)
  | _, _ => .error .indexError

/-! ### Root search -/

/-- `omega_bounds` (slab_modes.py 121): `np.append(np.arange(lb, ub, step), ub)`. -/
noncomputable def omegaGrid (lb ub step : ℝ) : List ℝ :=
  ((List.range ⌈(ub - lb) / step⌉₊).map fun (i : Nat) => lb + i * step) ++ [ub]

/-- The brackets with a strict sign change (slab_modes.py 127-129). -/
noncomputable def brackets (D : ℝ → ℝ) : List ℝ → List (ℝ × ℝ)
  | x :: y :: l => if D x * D y < 0 then (x, y) :: brackets D (y :: l) else brackets D (y :: l)
  | _ => []

/-- The frequencies found by `guided_mode_given_g` (slab_modes.py 93-157); `D` is the real part
of the dispersion function, `fs lb ub` the root finder `fsolve_D22`. -/
noncomputable def guidedGivenG (D : ℝ → ℝ) (fs : ℝ → ℝ → ℝ) (nModes : Nat) (lb ub step tol : ℝ) : List ℝ :=
  ((brackets D (omegaGrid (lb * (1 + tol)) (ub * (1 - tol)) step)).take nModes).map
    fun b => fs b.1 b.2

/-- Light-line limits used by `guided_modes` for the wave vector `g` (slab_modes.py 55-59). -/
noncomputable def omLb (eps : List ℝ) (g : ℝ) : ℝ :=
  max g 1e-4 / ((eps.tail.dropLast.map Real.sqrt).foldr max 0)
@[inherit_doc omLb]
noncomputable def omUb (eps : List ℝ) (g : ℝ) : ℝ :=
  max g 1e-4 / √(max (eps.headD 0) (eps.getLastD 0))

open Classical in
/-- One iteration of the loop of `guided_modes` (slab_modes.py 51-88): `prev` is the previous
wave vector together with the list of frequencies found last. `D g` is the real part of the
dispersion function for the wave vector `g`. -/
noncomputable def guidedStep (D : ℝ → ℝ → ℝ) (fs : ℝ → ℝ → ℝ → ℝ) (eps : List ℝ) (nModes : Nat)
    (step tol : ℝ) (prev : Option (ℝ × List ℝ)) (g : ℝ) : List ℝ :=
  let gv := max g 1e-4
  let ub := match prev with
    | some (gp, oms) =>
      if oms.length = nModes ∧ oms ≠ [] then min (omUb eps g) (oms.getLastD 0 + step + (g - gp))
      else omUb eps g
    | none => omUb eps g
  let compute := match prev with
    | some (gp, _) => 1e-8 < |g - gp|
    | none => True
  if compute then guidedGivenG (D gv) (fs gv) nModes (omLb eps g) ub step tol
  else match prev with
    | some (_, oms) => oms
    | none => []

/-- `om_guided` of `guided_modes` (slab_modes.py 21-90). Simplification: `n_modes >= 1` (with
`n_modes = 0` and no solution `omegas[-1]` raises). -/
noncomputable def guidedModes (D : ℝ → ℝ → ℝ) (fs : ℝ → ℝ → ℝ → ℝ) (eps : List ℝ) (nModes : Nat)
    (step tol : ℝ) : Option (ℝ × List ℝ) → List ℝ → List (List ℝ)
  | _, [] => []
  | prev, g :: gs =>
    let oms := guidedStep D fs eps nModes step tol prev g
    oms :: guidedModes D fs eps nModes step tol (some (g, oms)) gs

/-! ### Normalisation -/

/-- Terms of the inner layers in `normalization_coeff` for TM (slab_modes.py 446-451). -/
noncomputable def normInnerTM (x : ℂ) (d : ℝ) (ab : ℂ × ℂ) : ℂ :=
  ((‖ab.1‖ ^ 2 + ‖ab.2‖ ^ 2 : ℝ) : ℂ) * IAlpha (x - (starRingEnd ℂ) x) d +
    ((starRingEnd ℂ) ab.1 * ab.2 + ab.1 * (starRingEnd ℂ) ab.2) * IAlpha (-x - (starRingEnd ℂ) x) d

/-- The same for TE (slab_modes.py 457-462). -/
noncomputable def normInnerTE (g : ℝ) (x : ℂ) (d : ℝ) (ab : ℂ × ℂ) : ℂ :=
  ((‖x‖ ^ 2 + g ^ 2 : ℝ) : ℂ) * (((‖ab.1‖ ^ 2 + ‖ab.2‖ ^ 2 : ℝ) : ℂ) * IAlpha (x - (starRingEnd ℂ) x) d) +
    ((g ^ 2 - ‖x‖ ^ 2 : ℝ) : ℂ) * (((starRingEnd ℂ) ab.1 * ab.2 + ab.1 * (starRingEnd ℂ) ab.2) *
      IAlpha (-x - (starRingEnd ℂ) x) d)

/-- Cladding terms of `normalization_coeff` (slab_modes.py 440-445, 453-456): `amp` is the one
amplitude used, `Bs[0]` or `As[-1]`. -/
noncomputable def normClad (pol : Pol) (g : ℝ) (x : ℂ) (amp : ℂ) : ℂ :=
  match pol with
  | .tm => ((‖amp‖ ^ 2 : ℝ) : ℂ) * JAlpha (x - (starRingEnd ℂ) x)
  | .te => ((‖x‖ ^ 2 + g ^ 2 : ℝ) : ℂ) * ((‖amp‖ ^ 2 : ℝ) : ℂ) * JAlpha (x - (starRingEnd ℂ) x)

/-- Term of one inner layer. -/
noncomputable def normInner (pol : Pol) (g : ℝ) (x : ℂ) (d : ℝ) (ab : ℂ × ℂ) : ℂ :=
  match pol with
  | .tm => normInnerTM x d ab
  | .te => normInnerTE g x d ab

/-- `normalization_coeff` (slab_modes.py 424-464). The arrays over layers are given as the entry of
the lower cladding, the list of inner layers `(chi, d, (A, B))`, and the entry of the upper cladding.
Simplification: the polarisation strings other than 'TE' and 'TM' (exception) are not values of
`Pol`. -/
noncomputable def normCoeff (pol : Pol) (g : ℝ) (lo : ℂ × ℂ × ℂ) (inner : List (ℂ × ℝ × (ℂ × ℂ)))
    (up : ℂ × ℂ × ℂ) : ℂ :=
  normClad pol g lo.1 lo.2.2 + normClad pol g up.1 up.2.1 +
    (inner.map fun l => normInner pol g l.1 l.2.1 l.2.2).sum

/-! ### Radiative modes -/

/-- Normalisation factor of `rad_modes`: `1`, or `1 / sqrt(eps) / omega` if the string passed is
exactly `'te'` (slab_modes.py 513-516). -/
noncomputable def radFactor (literalTe : Bool) (omega : ℝ) (epsClad : ℝ) : ℂ :=
  if literalTe then 1 / ((√epsClad : ℝ) : ℂ) / omega else 1

/-- `rad_modes` for one wave vector (slab_modes.py 490-522), with `g_val = max(g, 1e-10)`. The result
lists `(X, Y)` per layer. The loop over the interface matrices is that of `AB_matrices`. `literalTe`
tells whether the string passed is exactly `'te'`; `upper` is `clad == 1`. Simplification: `clad` is 0
or 1; `coeffs[1, -1] = 0` (numpy gives inf and nan) is the Lean `x / 0 = 0`. -/
noncomputable def radMode (pol : Pol) (literalTe upper : Bool) (omega g : ℝ) (eps ds : List ℝ) :
    Except PyErr (List (ℂ × ℂ)) :=
  let gv := max g 1e-10
  let run := if upper then abMatrices pol omega gv eps ds
    else abMatrices pol omega gv eps.reverse ds.reverse
  match run with
  | .error e => .error e
  | .ok cs =>
    let n := (cs.getLastD (0, 0)).2
    let f := radFactor literalTe omega (if upper then eps.getLastD 0 else eps.headD 0)
    let cs := cs.map fun c => (c.1 / n * f, c.2 / n * f)
    .ok (if upper then cs.map fun c => (c.2, c.1) else cs.reverse)

end Legume
