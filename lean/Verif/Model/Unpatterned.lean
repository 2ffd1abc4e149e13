import Verif.Model.MatrixElements

/-!
# Guided modes of the effective slab as basis states

`gme/gme.py` 313-344 and `gme/slab_modes.py` 143-151. Simplification: the states are taken at the wave vector
itself; the interpolation between the wave vectors of the grid is modelled in `Verif.Model.Guided`.
-/
namespace Legume

/-- The layers seen by the matrix elements: claddings and, between them, `(eps, d)` (gme.py 938-943). -/
def slabStack (e0 eN : ℝ) (ls : List (ℝ × ℝ)) : List (LPos × ℝ) :=
  (.lower, e0) :: ls.map (fun l => (.inner l.2, l.1)) ++ [(.upper, eN)]

/-- `AB / bd.sqrt(norm)` (slab_modes.py 151) with the wave numbers of `_get_chi` (gme.py 331-344). -/
noncomputable def modeLayers (omega g : ℝ) (eps : List ℝ) (abs : List (ℂ × ℂ)) (norm : ℝ) : List ModeL :=
  List.zipWith (fun e ab => ⟨ab.1 / ((√norm : ℝ) : ℂ), ab.2 / ((√norm : ℝ) : ℂ), chi omega g e⟩) eps abs

/-- The state with plane wave `(gx, gy)` made from a guided mode. -/
noncomputable def slabState (pol : Pol) (gx gy omega : ℝ) (eps : List ℝ) (abs : List (ℂ × ℂ)) (norm : ℝ) :
    GmeState :=
  ⟨pol, gx, gy, omega, modeLayers omega (√(gx ^ 2 + gy ^ 2)) eps abs norm⟩

/-- `_get_chi` (gme.py 331-344) for one layer; `sqrt` is the principal root. -/
noncomputable def getChi (gk omega eps : ℂ) : ℂ :=
  let s := eps * omega ^ 2 - gk ^ 2
  if 0 ≤ s.re then s ^ (1 / 2 : ℂ) else Complex.I * (-s) ^ (1 / 2 : ℂ)

end Legume
