import Verif.Model.VizField
import Verif.Model.Plot

/-!
# `viz.bands` and `viz.pol_bands`: `legume/viz.py` 13-226 and 229-352

Colour maps, marker styles and labels are left out. Arrays are rectangular; `kz_symms` has the shape of `freqs`.
-/
namespace Legume

/-- What `bands` reads: the kind of object, `kz_symmetry`, the wave vectors, `freqs` and `freqs_im` with one row per wave
vector (`[]` before losses are computed), the result of `run_im`, `kz_symms`, and the average permittivities of the lower and
upper claddings. `PlaneWaveExp` objects have no `phc`, `freqs_im` and symmetries. -/
structure BandSrc where
  isGme : Bool
  symm : Option String
  kpoints : List R2
  freqs : List (List ℝ)
  freqsIm : List (List ℝ)
  runIm : List (List ℝ)
  kzSymms : List (List ℝ)
  epsLo : ℝ
  epsHi : ℝ

/-- A marker: coordinates (`none` is `nan`), and the values giving the colours of its face and edge. -/
structure Marker where
  x : Option ℝ
  y : ℝ
  face : Option ℝ
  edge : Option ℝ

/-- Shaded region between the light line and a constant. -/
structure Cone where
  xs : List (Option ℝ)
  low : List ℝ
  top : ℝ

/-- A plot of bands: markers, upper end of the colour scale, shaded region, and the upper limits of the axes, whose lower
limits are zero. -/
structure BandPlot where
  markers : List Marker
  vmax : Option ℝ
  cone : Option Cone
  xmax : Option ℝ
  ymax : ℝ

/-- `conv` (viz.py 103-112). -/
noncomputable def vizConv (eV : Bool) (a : Option ℝ) : Except PyErr ℝ :=
  if eV then
    match a with
    | none => .error .valueError
    | some a => (fromFreqToE false a).map Prod.fst
  else .ok 1

/-- `a > b` of floats. -/
noncomputable def floatGt : Option ℝ → Option ℝ → Bool
  | some a, some b => decide (b < a)
  | _, _ => false

/-- `max(X0)` of Python (viz.py 220, 346): an entry replaces the current maximum if it is larger. -/
noncomputable def pyMax : List (Option ℝ) → Except PyErr (Option ℝ)
  | [] => .error .valueError
  | x :: l => .ok (l.foldl (fun m y => if floatGt y m then y else m) x)

/-- `np.max(Q[Q < Q_clip])` (viz.py 125). -/
noncomputable def clipMax (clip : ℝ) (Q : List ℝ) : Except PyErr ℝ := arrMax [Q.filter fun q => decide (q < clip)]

/-- Shaded region (viz.py 211-218, 336-344). -/
noncomputable def vizCone (kpoints : List R2) (epsLo epsHi conv : ℝ) (xs : List (Option ℝ)) (ymax : ℝ) : Except PyErr Cone := do
  let low := kpoints.map (lightLine epsLo epsHi conv)
  let m ← arrMax [low]
  return ⟨xs, low, max (max 100 m) ymax⟩

/-- Quality factors of all modes (viz.py 121-124). -/
noncomputable def vizQ (re im : List (List ℝ)) : List ℝ := List.zipWith calcQ re.flatten im.flatten

/-- Face colours and the upper end of their scale (viz.py 119-208). A `PlaneWaveExp` object has no `freqs_im`. -/
noncomputable def vizFaces (B : BandSrc) (Q showSymm : Bool) (Qclip : ℝ) : Except PyErr (Option (List ℝ) × Option ℝ) :=
  if Q then
    if B.isGme then do
      let q := vizQ B.freqs (if B.freqsIm.length = 0 then B.runIm else B.freqsIm)
      let vmax ← clipMax Qclip q
      return (some q, some vmax)
    else .error .attributeError
  else if B.symm.map pyLower = some ['b', 'o', 't', 'h'] ∧ showSymm then .ok (some B.kzSymms.flatten, none)
  else .ok (none, none)

/-- Edge colours (viz.py 143-145). -/
noncomputable def vizEdges (B : BandSrc) (Q showSymm : Bool) : Option (List ℝ) :=
  if Q ∧ B.symm.map pyLower = some ['b', 'o', 't', 'h'] ∧ showSymm then some (B.kzSymms.flatten.map fun s => (s + 1) / 2)
  else none

/-- The markers (viz.py 127-129, 169-172). -/
noncomputable def vizMarkers (X : List (List (Option ℝ))) (ys : List ℝ) (face edge : Option (List ℝ)) : List Marker :=
  (List.range ys.length).map fun (i : ℕ) =>
    ⟨(X.flatten.getD i none), ys.getD i 0, face.bind (·[i]?), edge.bind (·[i]?)⟩

/-- `bands` (viz.py 13-226). -/
noncomputable def vizBands (B : BandSrc) (Q : Bool) (Qclip : ℝ) (cone showSymm eV : Bool) (a : Option ℝ) (kUnits : Bool) :
    Except PyErr BandPlot := do
  let conv ← vizConv eV a
  let xs := calcX0 B.kpoints kUnits
  let X := calcX B.kpoints (B.freqs.headD []).length kUnits
  let (face, vmax) ← vizFaces B Q showSymm Qclip
  let fmax ← arrMax B.freqs
  let shade ← if cone then (if B.isGme then (vizCone B.kpoints B.epsLo B.epsHi conv xs (conv * fmax)).map some
    else .error .attributeError) else .ok none
  let xmax ← pyMax xs
  return ⟨vizMarkers X (B.freqs.flatten.map (conv * ·)) face (vizEdges B Q showSymm), vmax, shade, xmax, conv * fmax⟩

/-- What `pol_bands` reads: wave vectors, energies and losses, excitonic fractions, the permittivities of the claddings and
the lattice constant. -/
structure PolBandSrc where
  kpoints : List R2
  eners : List (List ℝ)
  enersIm : List (List ℝ)
  fractions : List (List ℝ)
  epsLo : ℝ
  epsHi : ℝ
  a : ℝ

/-- `pol_bands` (viz.py 229-352); `vmin`, `vmax` of the colour scale are constants and left out. -/
noncomputable def vizPolBands (B : PolBandSrc) (Q fraction cone kUnits : Bool) : Except PyErr BandPlot := do
  let xs := calcX0 B.kpoints kUnits
  let X := calcX B.kpoints (B.eners.headD []).length kUnits
  let face := if Q && !fraction then some (vizQ B.eners B.enersIm) else if fraction then some B.fractions.flatten else none
  let shade ← if cone then do
      let conv ← (fromFreqToE false B.a).map Prod.fst
      let emax ← arrMax B.eners
      (vizCone B.kpoints B.epsLo B.epsHi conv xs emax).map some
    else .ok none
  let xmax ← pyMax xs
  let emax ← arrMax B.eners
  return ⟨vizMarkers X B.eners.flatten face none, none, shade, xmax, emax⟩

end Legume
