import Verif.Model.GuidedRun
import Verif.Model.Unpatterned

/-! # C22: the assertion of the dispersion function -/
namespace Legume

/-- **C22 (assertion).** The lengths of the permittivities and thicknesses handed to the dispersion function for a slab
between two claddings meet its assertion; without one of the claddings they do not. -/
theorem C22_assertion (e0 eN : ℝ) (ls : List (ℝ × ℝ)) :
    stackOk ((slabStack e0 eN ls).map Prod.snd) (stackDs (slabStack e0 eN ls)) ∧
      (ls ≠ [] → ¬ stackOk (((slabStack e0 eN ls).tail).map Prod.snd) (stackDs (slabStack e0 eN ls).tail)) := by
  have h : ∀ (ls : List (ℝ × ℝ)), stackDs (ls.map (fun l => (LPos.inner l.2, l.1)) ++ [(.upper, eN)]) = ls.map Prod.snd := by
    intro ls
    induction ls with
    | nil => rfl
    | cons l t ih =>
      have : stackDs ((LPos.inner l.2, l.1) :: (t.map (fun l => (LPos.inner l.2, l.1)) ++ [(.upper, eN)])) =
        l.2 :: stackDs (t.map (fun l => (LPos.inner l.2, l.1)) ++ [(.upper, eN)]) := by simp [stackDs]
      rw [List.map_cons, List.map_cons, List.cons_append, this, ih]
  have h0 : stackDs (slabStack e0 eN ls) = ls.map Prod.snd := by
    rw [← h ls]
    simp [stackDs, slabStack]
  constructor
  · unfold stackOk
    rw [h0]
    simp [slabStack]
  · intro hne
    have hl := List.length_pos_iff.2 hne
    unfold stackOk
    rw [show (slabStack e0 eN ls).tail = ls.map (fun l => (LPos.inner l.2, l.1)) ++ [(.upper, eN)] from rfl, h]
    simp
    omega

/-- Two layers: two thicknesses, four permittivities. -/
example : stackOk ((slabStack 1 2 [(12, 0.3), (10, 0.2)]).map Prod.snd) [0.3, 0.2] := by
  simp [stackOk, slabStack]

end Legume
