import Verif.Props.Shapes

/-! # C62: coefficient lists of `FourierShape` without an entry -/
namespace Legume

open Real

/-- **C62 (empty list).** `FourierShape` raises `IndexError` exactly for an empty list of cosine coefficients. -/
theorem C62_empty (x y : ℝ) (fas fbs : List ℝ) (npts : Nat) (hn : 1 ≤ npts) :
    fourierShape x y fas fbs npts = .error .indexError ↔ fas = [] := by
  constructor
  · intro h
    by_contra hne
    obtain ⟨h1, h2⟩ := C62_fourier_shape x y fas fbs hne npts hn
    by_cases hneg : ∃ i, i ≤ npts ∧ fourierR fas fbs (i * (2 * π / npts)) < 0
    · rw [h1.2 hneg] at h
      cases h
    · push Not at hneg
      obtain ⟨p, hp, -⟩ := h2 hneg
      rw [hp] at h
      cases h
  · rintro rfl
    unfold fourierShape
    rw [if_pos rfl]

example : fourierShape 0 0 [] [1] 8 = .error .indexError := (C62_empty 0 0 [] [1] 8 (by norm_num)).2 rfl

end Legume
