import Verif.Lemmas.Weyl
import Mathlib.Analysis.Complex.ExponentialBounds

/-!
# The regulariser of the layer integrals hardly moves the frequencies (C106)

`gmeSim` is the code with the integrals of `matrix_elements.py`, which add 1e-20 to the denominators;
`gmeSimIj ijExact` has the exact integrals.
-/
open Matrix MeasureTheory
open scoped ComplexOrder ComplexConjugate

namespace Legume

open Spec

/-- Every element of the matrix changes by at most `e`. -/
def SmallReg {N : ℕ} (e : ℝ) (stack : List (LPos × ℝ)) (einv : List (Matrix (Fin N) (Fin N) ℂ))
    (basis : List (BasisEl N)) : Prop :=
  ∀ s ∈ basis, ∀ t ∈ basis, ‖gmeElem ijLayer stack (einv.map fun E => E s.ig t.ig) s.st t.st -
    gmeElem ijExact stack (einv.map fun E => E s.ig t.ig) s.st t.st‖ ≤ e

/-- Elements of the completed matrix. -/
theorem gmeMatIj_close {N : ℕ} (e : ℝ) (stack : List (LPos × ℝ)) (einv : List (Matrix (Fin N) (Fin N) ℂ))
    (basis : List (BasisEl N)) (hb : basis.Pairwise fun s t => s.blk ≤ t.blk) (h : SmallReg e stack einv basis)
    (i j : Fin basis.length) :
    ‖gmeMatIj ijLayer stack einv basis i j - gmeMatIj ijExact stack einv basis i j‖ ≤ e := by
  have up : ∀ i j : Fin basis.length, i < j →
      ‖gmeMatIj ijLayer stack einv basis i j - gmeMatIj ijExact stack einv basis i j‖ ≤ e := by
    intro i j hij
    rw [(gmeMatIj_upper ijLayer stack einv basis hb i j).1 hij, (gmeMatIj_upper ijExact stack einv basis hb i j).1 hij]
    exact h _ (List.getElem_mem _) _ (List.getElem_mem _)
  rcases lt_trichotomy i j with hij | hij | hij
  · exact up i j hij
  · subst hij
    rw [(gmeMatIj_upper ijLayer stack einv basis hb i i).2, (gmeMatIj_upper ijExact stack einv basis hb i i).2,
      ← Complex.ofReal_sub, ← Complex.sub_re, Complex.norm_real]
    exact (Complex.abs_re_le_norm _).trans (h _ (List.getElem_mem _) _ (List.getElem_mem _))
  · rw [← (gmeMatIj_hermitian ijLayer stack einv basis).apply i j,
      ← (gmeMatIj_hermitian ijExact stack einv basis).apply i j, ← star_sub, norm_star]
    exact up j i hij

theorem mapM_transfer {f f' : ℕ → Except PyErr KRes} {R : KRes → KRes → Prop} (l : List ℕ) {r : List KRes}
    (h : l.mapM f = .ok r) (hb : ∀ i ∈ l, ∀ a, f i = .ok a → ∃ a', f' i = .ok a' ∧ R a a') :
    ∃ r', l.mapM f' = .ok r' ∧ List.Forall₂ R r r' := by
  induction l generalizing r with
  | nil => cases h; exact ⟨[], rfl, .nil⟩
  | cons i l ih =>
    rw [List.mapM_cons] at h
    obtain ⟨a, ha, h⟩ := bind_ok h
    obtain ⟨rs, hrs, h⟩ := bind_ok h
    cases h
    obtain ⟨a', ha', hR⟩ := hb i (List.mem_cons_self ..) a ha
    obtain ⟨rs', hrs', hRs⟩ := ih hrs fun i hi => hb i (List.mem_cons_of_mem _ hi)
    refine ⟨a' :: rs', ?_, .cons hR hRs⟩
    rw [List.mapM_cons, ha', hrs']
    rfl

/-- **C106 (regulariser).** If every matrix element changes by at most `e` and the matrices have at most `d / e` rows,
then the run with exact integrals succeeds like the one of the code, and at every wave vector the squared angular
frequencies of the two differ by at most `d`, band by band. -/
theorem C106_near (argsort : List ℝ → List ℕ) (hs : ∀ l, IsArgsort l (argsort l))
    (eigh : ∀ n, Matrix (Fin n) (Fin n) ℂ → Fin n → ℝ) (he : GoodEigh eigh) (guided : GuidedSolver) (S : GmeStruct)
    (gmax : ℝ) (onlyG : Bool) (opt : String) (ks : List R2) (numeig : ℕ) (e d : ℝ)
    (hE : ∀ l ∈ S.layers, ∀ E, S.epsInv gmax onlyG l = .ok E → E.PosSemidef)
    (hg : ∀ eff einv ik b, S.layers.mapM (GmeLay.eff opt) = .ok eff → S.layers.mapM (S.epsInv gmax onlyG) = .ok einv →
      guided ((S.layers.map GmeLay.pos).zip eff) (S.gvec gmax) ks ik = .ok b →
      GoodBasis ((S.layers.map GmeLay.pos).zip eff) b ∧ SmallReg e ((S.layers.map GmeLay.pos).zip eff) einv b ∧
      b.length * e ≤ d)
    (r : List KRes) (hr : gmeSim argsort eigh guided S gmax onlyG opt ks 0 numeig = .ok r) :
    ∃ r', gmeSimIj ijExact argsort eigh guided S gmax onlyG opt ks 0 numeig = .ok r' ∧ List.Forall₂ (Near d) r r' := by
  rw [← gmeSimIj_layer] at hr
  unfold gmeSimIj at hr ⊢
  obtain ⟨eff, heff, hr⟩ := bind_ok hr
  obtain ⟨einv, heinv, hr⟩ := bind_ok hr
  rw [heff, heinv]
  have hP : ∀ E ∈ einv, E.PosSemidef := by
    intro E hE'
    obtain ⟨l, hl, h⟩ := forall2_mem_right (mapM_ok_forall heinv) E hE'
    exact hE l hl E h
  have hlen := stack_length heff heinv
  refine mapM_transfer _ hr fun ik _ a ha => ?_
  obtain ⟨b, hb, ha⟩ := bind_ok ha
  obtain ⟨⟨g1, g2⟩, g3, g4⟩ := hg eff einv ik b heff heinv hb
  have hn := solveFull_ok ha
  rw [List.length_ofFn] at hn
  obtain ⟨a', ha', -⟩ := solveFull_zero argsort hs (List.ofFn (eigh _ (gmeMatIj ijExact
    ((S.layers.map GmeLay.pos).zip eff) einv b + 1))) numeig (by rw [List.length_ofFn]; exact hn)
  refine ⟨a', ?_, ?_⟩
  · rw [hb]; exact ha'
  · refine gme_near argsort hs eigh he _ _ (gmeMatIj_psd _ einv hlen hP b g1 g2) (gmeMatIj_hermitian _ _ _ _) d
      (fun x => ?_) numeig a a' ha ha'
    refine (qform_entry_bound _ _ e (gmeMatIj_close e _ einv b g1 g3) x).trans ?_
    gcongr

/-- One run is below another up to a margin in the squared angular frequencies. -/
def AlmostBelow (d : ℝ) (a' a : KRes) : Prop :=
  a'.freq.length = a.freq.length ∧ ∀ (m : ℕ) (h' : m < a'.freq.length) (h : m < a.freq.length),
    (2 * Real.pi * a'.freq[m]) ^ 2 ≤ (2 * Real.pi * a.freq[m]) ^ 2 + d

theorem almostBelow_of_near {a a' c c' : KRes} {d : ℝ} (h1 : Near d a c) (h2 : Near d a' c') (h : Below c' c)
    (h0 : ∀ f ∈ c'.freq, 0 ≤ f) : AlmostBelow (2 * d) a' a := by
  refine ⟨by rw [h2.1, h.1, h1.1], fun m m1 m2 => ?_⟩
  have l1 : m < c'.freq.length := by rw [← h2.1]; exact m1
  have l2 : m < c.freq.length := by rw [← h1.1]; exact m2
  have e1 := (abs_le.1 (h2.2 m m1 l1)).2
  have e2 := (abs_le.1 (h1.2 m m2 l2)).1
  have e3 := h.2 m l1 l2
  have e4 := h0 _ (List.getElem_mem l1)
  have e5 : (2 * Real.pi * c'.freq[m]) ^ 2 ≤ (2 * Real.pi * c.freq[m]) ^ 2 := by
    have := Real.pi_pos
    gcongr
  linarith

theorem forall2_almost {r r' q q' : List KRes} {d : ℝ} (h1 : List.Forall₂ (Near d) r q)
    (h2 : List.Forall₂ (Near d) r' q') (h : List.Forall₂ Below q' q) (h0 : ∀ c ∈ q', ∀ f ∈ c.freq, 0 ≤ f) :
    List.Forall₂ (AlmostBelow (2 * d)) r' r := by
  induction h generalizing r r' with
  | nil => cases h1; cases h2; exact .nil
  | cons hb _ ih =>
    cases h1 with
    | cons a1 h1 =>
      cases h2 with
      | cons a2 h2 =>
        exact .cons (almostBelow_of_near a1 a2 hb (h0 _ (List.mem_cons_self ..)))
          (ih h1 h2 fun c hc => h0 c (List.mem_cons_of_mem _ hc))

theorem gmeSimIj_nonneg (ij : LPos → ℂ → ℂ) (argsort : List ℝ → List ℕ) (hs : ∀ l, IsArgsort l (argsort l))
    (eigh : ∀ n, Matrix (Fin n) (Fin n) ℂ → Fin n → ℝ) (guided : GuidedSolver) (S : GmeStruct) (gmax : ℝ) (onlyG : Bool)
    (opt : String) (ks : List R2) (numeig : ℕ) (r : List KRes)
    (hr : gmeSimIj ij argsort eigh guided S gmax onlyG opt ks 0 numeig = .ok r) : ∀ c ∈ r, ∀ f ∈ c.freq, 0 ≤ f := by
  unfold gmeSimIj at hr
  obtain ⟨eff, heff, hr⟩ := bind_ok hr
  obtain ⟨einv, heinv, hr⟩ := bind_ok hr
  intro c hc f hf
  obtain ⟨ik, -, h⟩ := forall2_mem_right (mapM_ok_forall hr) c hc
  obtain ⟨b, hb, h⟩ := bind_ok h
  obtain ⟨t, ht, hf'⟩ := solveFull_zero argsort hs _ numeig (solveFull_ok h)
  rw [h] at ht
  cases ht
  rw [hf'] at hf
  simp only [solvePwe, List.mem_map] at hf
  obtain ⟨i, -, rfl⟩ := hf
  rw [List.getD_eq_getElem?_getD]
  rcases hh : ((List.ofFn (eigh _ (gmeMatIj ij ((S.layers.map GmeLay.pos).zip eff) einv b + 1))).map freqOf)[i]? with _ | x
  · simp
  · obtain ⟨y, -, rfl⟩ := List.mem_map.1 (List.mem_of_getElem? hh)
    exact freqOf_nonneg y

/-- **C106 (more guided modes, code).** C104 for the integrals of the code: up to twice the bound, more guided modes never
raise a squared angular frequency. -/
theorem C106_modes (argsort : List ℝ → List ℕ) (hs : ∀ l, IsArgsort l (argsort l))
    (eigh : ∀ n, Matrix (Fin n) (Fin n) ℂ → Fin n → ℝ) (he : GoodEigh eigh) (guided guided' : GuidedSolver)
    (S : GmeStruct) (gmax : ℝ) (onlyG : Bool) (opt : String) (ks : List R2) (numeig : ℕ) (e d : ℝ)
    (hE : ∀ l ∈ S.layers, ∀ E, S.epsInv gmax onlyG l = .ok E → E.PosSemidef)
    (hg : ∀ eff einv ik b b', S.layers.mapM (GmeLay.eff opt) = .ok eff → S.layers.mapM (S.epsInv gmax onlyG) = .ok einv →
      guided ((S.layers.map GmeLay.pos).zip eff) (S.gvec gmax) ks ik = .ok b →
      guided' ((S.layers.map GmeLay.pos).zip eff) (S.gvec gmax) ks ik = .ok b' →
      (b.map fun s => (s.ig, s.st)).Subperm (b'.map fun s => (s.ig, s.st)))
    (hb : ∀ g ∈ [guided, guided'], ∀ eff einv ik b, S.layers.mapM (GmeLay.eff opt) = .ok eff →
      S.layers.mapM (S.epsInv gmax onlyG) = .ok einv →
      g ((S.layers.map GmeLay.pos).zip eff) (S.gvec gmax) ks ik = .ok b →
      GoodBasis ((S.layers.map GmeLay.pos).zip eff) b ∧ SmallReg e ((S.layers.map GmeLay.pos).zip eff) einv b ∧
      b.length * e ≤ d) (r r' : List KRes)
    (hr : gmeSim argsort eigh guided S gmax onlyG opt ks 0 numeig = .ok r)
    (hr' : gmeSim argsort eigh guided' S gmax onlyG opt ks 0 numeig = .ok r') :
    List.Forall₂ (AlmostBelow (2 * d)) r' r := by
  obtain ⟨q, hq, h1⟩ := C106_near argsort hs eigh he guided S gmax onlyG opt ks numeig e d hE
    (hb guided (by simp)) r hr
  obtain ⟨q', hq', h2⟩ := C106_near argsort hs eigh he guided' S gmax onlyG opt ks numeig e d hE
    (hb guided' (by simp)) r' hr'
  have hinv : ∃ einv, S.layers.mapM (S.epsInv gmax onlyG) = .ok einv := by
    unfold gmeSim gmeSimIj at hr
    obtain ⟨eff, heff, hr⟩ := bind_ok hr
    obtain ⟨einv, heinv, hr⟩ := bind_ok hr
    exact ⟨einv, heinv⟩
  obtain ⟨einv, heinv⟩ := hinv
  refine forall2_almost h1 h2 (C104_modes argsort hs eigh he guided guided' S gmax onlyG opt ks numeig
    (fun eff ik b b' _ he hb1 hb2 => ⟨(hb guided (by simp) eff einv ik b he heinv hb1).1,
      (hb guided' (by simp) eff einv ik b' he heinv hb2).1, hg eff einv ik b b' he heinv hb1 hb2⟩) hE q q' hq hq')
    (gmeSimIj_nonneg ijExact argsort hs eigh guided' S gmax onlyG opt ks numeig q' hq')

/-- **C106 (order of the permittivities, code).** C105 for the integrals of the code. -/
theorem C106_order (argsort : List ℝ → List ℕ) (hs : ∀ l, IsArgsort l (argsort l))
    (eigh : ∀ n, Matrix (Fin n) (Fin n) ℂ → Fin n → ℝ) (he : GoodEigh eigh) (guided : GuidedSolver)
    (S : GmeStruct) (layers' : List GmeLay) (gmax : ℝ) (onlyG onlyG' : Bool) (opt opt' : String) (ks : List R2)
    (numeig : ℕ) (e d : ℝ)
    (hl : List.Forall₂ (fun l l' : GmeLay => l'.pos = l.pos ∧ l'.eff opt' = l.eff opt ∧
      ∀ E E', S.epsInv gmax onlyG l = .ok E → S.epsInv gmax onlyG' l' = .ok E' →
        E.PosSemidef ∧ E'.PosSemidef ∧ ∀ x, qform E' x ≤ qform E x) S.layers layers')
    (hb : ∀ eff einv ik b, S.layers.mapM (GmeLay.eff opt) = .ok eff →
      (S.layers.mapM (S.epsInv gmax onlyG) = .ok einv ∨ layers'.mapM (S.epsInv gmax onlyG') = .ok einv) →
      guided ((S.layers.map GmeLay.pos).zip eff) (S.gvec gmax) ks ik = .ok b →
      GoodBasis ((S.layers.map GmeLay.pos).zip eff) b ∧ SmallReg e ((S.layers.map GmeLay.pos).zip eff) einv b ∧
      b.length * e ≤ d) (r r' : List KRes)
    (hr : gmeSim argsort eigh guided S gmax onlyG opt ks 0 numeig = .ok r)
    (hr' : gmeSim argsort eigh guided { S with layers := layers' } gmax onlyG' opt' ks 0 numeig = .ok r') :
    List.Forall₂ (AlmostBelow (2 * d)) r' r := by
  have hinv : ∃ einv einv', S.layers.mapM (S.epsInv gmax onlyG) = .ok einv ∧
      layers'.mapM (S.epsInv gmax onlyG') = .ok einv' := by
    have h1 := hr
    have h2 := hr'
    unfold gmeSim gmeSimIj at h1 h2
    obtain ⟨eff, -, h1⟩ := bind_ok h1
    obtain ⟨einv, heinv, -⟩ := bind_ok h1
    obtain ⟨eff', -, h2⟩ := bind_ok h2
    obtain ⟨einv', heinv', -⟩ := bind_ok h2
    exact ⟨einv, einv', heinv, heinv'⟩
  obtain ⟨einv, einv', heinv, heinv'⟩ := hinv
  have hpsd : (∀ l ∈ S.layers, ∀ E, S.epsInv gmax onlyG l = .ok E → E.PosSemidef) ∧
      (∀ l ∈ layers', ∀ E, S.epsInv gmax onlyG' l = .ok E → E.PosSemidef) := by
    have f1 := mapM_ok_forall heinv
    have f2 := mapM_ok_forall heinv'
    clear hb hr hr' heinv heinv'
    generalize S.layers = L at hl f1
    induction hl generalizing einv einv' with
    | nil => simp
    | cons h _ ih =>
      cases f1 with
      | cons a1 f1 =>
        cases f2 with
        | cons a2 f2 =>
          obtain ⟨i1, i2⟩ := ih _ _ f2 f1
          obtain ⟨b1, b2, -⟩ := h.2.2 _ _ a1 a2
          refine ⟨fun l hl E hE => ?_, fun l hl E hE => ?_⟩
          · rcases List.mem_cons.1 hl with rfl | hl
            · rw [a1] at hE; cases hE; exact b1
            · exact i1 l hl E hE
          · rcases List.mem_cons.1 hl with rfl | hl
            · rw [a2] at hE; cases hE; exact b2
            · exact i2 l hl E hE
  have hpos : layers'.map GmeLay.pos = S.layers.map GmeLay.pos := by
    clear hb hr hr' heinv heinv' hpsd
    generalize S.layers = L at hl
    induction hl with
    | nil => rfl
    | cons h _ ih => rw [List.map_cons, List.map_cons, ih, h.1]
  have heffs : layers'.mapM (GmeLay.eff opt') = S.layers.mapM (GmeLay.eff opt) := by
    clear hb hr hr' hpos heinv heinv' hpsd
    generalize S.layers = L at hl
    induction hl with
    | nil => rfl
    | cons h _ ih => rw [List.mapM_cons, List.mapM_cons, h.2.1, ih]
  obtain ⟨q, hq, h1⟩ := C106_near argsort hs eigh he guided S gmax onlyG opt ks numeig e d hpsd.1
    (fun eff einv ik b h1 h2 h3 => hb eff einv ik b h1 (Or.inl h2) h3) r hr
  obtain ⟨q', hq', h2⟩ := C106_near argsort hs eigh he guided { S with layers := layers' } gmax onlyG' opt' ks numeig e d
    hpsd.2 (fun eff einv ik b h1 h2 h3 => by
      have h1' : layers'.mapM (GmeLay.eff opt') = .ok eff := h1
      have h3' : guided ((layers'.map GmeLay.pos).zip eff) (S.gvec gmax) ks ik = .ok b := h3
      rw [heffs] at h1'
      rw [hpos] at h3'
      have := hb eff einv ik b h1' (Or.inr h2) h3'
      rw [← hpos] at this
      exact this) r' hr'
  exact forall2_almost h1 h2 (C105_order argsort hs eigh he guided S layers' gmax onlyG onlyG' opt opt' ks numeig hl
    (fun eff ik b _ he hb1 => (hb eff einv ik b he (Or.inl heinv) hb1).1) q q' hq hq')
    (gmeSimIj_nonneg ijExact argsort hs eigh guided _ gmax onlyG' opt' ks numeig q' hq')

/-! ### The size of the bound -/

/-- Bounds of the quantities that enter a matrix element: amplitudes, vertical wave numbers, decay constants in the
claddings (from below), thicknesses, effective permittivities, frequencies of the guided modes, lengths of the wave
vectors, entries of the inverse permittivity matrices. -/
structure Sizes where
  amp : ℝ
  wave : ℝ
  decay : ℝ
  thick : ℝ
  perm : ℝ
  om : ℝ
  gk : ℝ
  einv : ℝ

/-- Bounds that depend on the position of a layer. -/
def Sizes.Fits (c : Sizes) (m : ModeL) : LPos → Prop
  | .inner d => d ≤ c.thick
  | _ => c.decay ≤ m.x.im

/-- A guided mode within the bounds. -/
def TameState (c : Sizes) (stack : List (LPos × ℝ)) (s : GmeState) : Prop :=
  |s.om| ≤ c.om ∧ s.gk ≤ c.gk ∧ List.Forall₂ (fun (a : LPos × ℝ) m => ‖m.A‖ ≤ c.amp ∧ ‖m.B‖ ≤ c.amp ∧ ‖m.x‖ ≤ c.wave ∧
    |a.2| ≤ c.perm ∧ c.Fits m a.1) stack s.layers

/-- The bound of the change of a matrix element for a stack of `n` layers. -/
noncomputable def Sizes.bound (c : Sizes) (n : ℕ) : ℝ :=
  n * (c.einv * (c.perm ^ 2 * c.om ^ 4 + c.wave ^ 2 + c.gk ^ 2 + c.perm * c.wave * c.om ^ 2) *
    (c.amp ^ 2 * (1 / (4 * c.decay ^ 2) + 2 * c.thick ^ 2 * Real.exp (c.wave * c.thick)))) * 1e-20

theorem dot2_unit_le (s t : GmeState) : |dot2 s.p t.p| ≤ 1 ∧ |dot2 s.q t.q| ≤ 1 ∧ |dot2 s.p t.q| ≤ 1 := by
  have key : ∀ a b c d : ℝ, a ^ 2 + b ^ 2 ≤ 1 → c ^ 2 + d ^ 2 ≤ 1 → |a * c + b * d| ≤ 1 := by
    intro a b c d h1 h2
    rw [abs_le]
    constructor <;> nlinarith [sq_nonneg (a - c), sq_nonneg (b - d), sq_nonneg (a + c), sq_nonneg (b + d)]
  have hp : ∀ s : GmeState, (s.gx / s.gk) ^ 2 + (s.gy / s.gk) ^ 2 ≤ 1 := by
    intro s
    rw [div_pow, div_pow, ← add_div]
    have : s.gk ^ 2 = s.gx ^ 2 + s.gy ^ 2 := Real.sq_sqrt (by positivity)
    rw [this]
    exact div_self_le_one _
  have hq : ∀ s : GmeState, (s.gy / s.gk) ^ 2 + (-s.gx / s.gk) ^ 2 ≤ 1 := by
    intro s
    have := hp s
    rw [neg_div, neg_sq]
    linarith
  exact ⟨key _ _ _ _ (hp s) (hp t), key _ _ _ _ (hq s) (hq t), key _ _ _ _ (hp s) (hq t)⟩

theorem layPairs_mem {stack : List (LPos × ℝ)} {einv : List ℂ} {s t : GmeState} {l : LayPair}
    (hl : l ∈ layPairs stack einv s t) {P : LPos × ℝ → ModeL → Prop} {P' : LPos × ℝ → ModeL → Prop}
    (h1 : List.Forall₂ P stack s.layers) (h2 : List.Forall₂ P' stack t.layers) :
    l.einv ∈ einv ∧ P (l.pos, l.eps) l.m1 ∧ P' (l.pos, l.eps) l.m2 := by
  unfold layPairs at hl
  obtain ⟨x, hx, rfl⟩ := List.mem_map.1 hl
  obtain ⟨i, hi, rfl⟩ := List.mem_iff_getElem.1 hx
  simp only [List.getElem_zip, List.length_zip] at hi ⊢
  refine ⟨List.getElem_mem _, ?_, ?_⟩
  · exact h1.get (i := i) (by omega) (by omega)
  · exact h2.get (i := i) (by omega) (by omega)

theorem layWeight_le (c : Sizes) (s t : GmeState) (l : LayPair) (hs : |s.om| ≤ c.om) (ht : |t.om| ≤ c.om)
    (gs : s.gk ≤ c.gk) (gt : t.gk ≤ c.gk) (he : ‖l.einv‖ ≤ c.einv) (hp : |l.eps| ≤ c.perm) (h1 : ‖l.m1.x‖ ≤ c.wave)
    (h2 : ‖l.m2.x‖ ≤ c.wave) : layWeight s t l ≤
      c.einv * (c.perm ^ 2 * c.om ^ 4 + c.wave ^ 2 + c.gk ^ 2 + c.perm * c.wave * c.om ^ 2) := by
  have p0 : 0 ≤ c.perm := (abs_nonneg _).trans hp
  have w0 : 0 ≤ c.wave := (norm_nonneg _).trans h1
  have o0 : 0 ≤ c.om := (abs_nonneg _).trans hs
  have g0 := gk_nonneg s
  have g1 := gk_nonneg t
  have g2 : 0 ≤ c.gk := g0.trans gs
  have e0 : 0 ≤ c.einv := (norm_nonneg _).trans he
  have os : s.om ^ 2 ≤ c.om ^ 2 := by rw [← sq_abs]; gcongr
  have ot : t.om ^ 2 ≤ c.om ^ 2 := by rw [← sq_abs]; gcongr
  have ep : l.eps ^ 2 ≤ c.perm ^ 2 := by rw [← sq_abs]; gcongr
  have k1 : 0 ≤ c.perm ^ 2 * c.om ^ 4 := by positivity
  have k2 : 0 ≤ c.wave ^ 2 := by positivity
  have k3 : 0 ≤ c.gk ^ 2 := by positivity
  have k4 : 0 ≤ c.perm * c.wave * c.om ^ 2 := by positivity
  have wm : ∀ X : ℝ, 0 ≤ X → X ≤ c.perm ^ 2 * c.om ^ 4 + c.wave ^ 2 + c.gk ^ 2 + c.perm * c.wave * c.om ^ 2 →
      ‖l.einv‖ * X ≤ c.einv * (c.perm ^ 2 * c.om ^ 4 + c.wave ^ 2 + c.gk ^ 2 + c.perm * c.wave * c.om ^ 2) :=
    fun X h0 hX => mul_le_mul he hX h0 e0
  obtain ⟨d1, d2, d3⟩ := dot2_unit_le s t
  obtain ⟨-, -, d4⟩ := dot2_unit_le t s
  unfold layWeight
  rcases s.pol with _ | _ <;> rcases t.pol with _ | _ <;> simp only
  · refine wm _ (by positivity) ?_
    have : l.eps ^ 2 * (s.om ^ 2 * t.om ^ 2 * |dot2 s.q t.q|) ≤ c.perm ^ 2 * (c.om ^ 2 * c.om ^ 2 * 1) := by gcongr
    have e : c.perm ^ 2 * (c.om ^ 2 * c.om ^ 2 * 1) = c.perm ^ 2 * c.om ^ 4 := by ring
    linarith
  · refine wm _ (by positivity) ?_
    have : |l.eps| * ‖l.m2.x‖ * (s.om ^ 2 * |dot2 t.p s.q|) ≤ c.perm * c.wave * (c.om ^ 2 * 1) := by gcongr
    linarith
  · refine wm _ (by positivity) ?_
    have : |l.eps| * ‖l.m1.x‖ * (t.om ^ 2 * |dot2 s.p t.q|) ≤ c.perm * c.wave * (c.om ^ 2 * 1) := by gcongr
    linarith
  · refine wm _ (by positivity) ?_
    have : |dot2 s.p t.p| * (‖l.m1.x‖ * ‖l.m2.x‖) + s.gk * t.gk ≤ 1 * (c.wave * c.wave) + c.gk * c.gk := by gcongr
    have e : 1 * (c.wave * c.wave) + c.gk * c.gk = c.wave ^ 2 + c.gk ^ 2 := by ring
    linarith

theorem fourErr_le (c : Sizes) (pos : LPos) (m1 m2 : ModeL) (hd : 0 < c.decay) (d1 : Decays pos m1) (d2 : Decays pos m2)
    (a1 : ‖m1.A‖ ≤ c.amp) (b1 : ‖m1.B‖ ≤ c.amp) (a2 : ‖m2.A‖ ≤ c.amp) (b2 : ‖m2.B‖ ≤ c.amp) (x1 : ‖m1.x‖ ≤ c.wave)
    (x2 : ‖m2.x‖ ≤ c.wave)
    (p1 : c.Fits m1 pos) (p2 : c.Fits m2 pos) :
    fourErr pos m1 m2 ≤
      c.amp ^ 2 * (1 / (4 * c.decay ^ 2) + 2 * c.thick ^ 2 * Real.exp (c.wave * c.thick)) * 1e-20 := by
  have hamp : 0 ≤ c.amp := (norm_nonneg _).trans a1
  have n1 := norm_nonneg m1.A
  have n2 := norm_nonneg m1.B
  have n3 := norm_nonneg m2.A
  have n4 := norm_nonneg m2.B
  have hex := Real.exp_pos (c.wave * c.thick)
  have claddingBound : ∀ a : ℂ, 2 * c.decay ≤ |a.im| → 1e-20 / a.im ^ 2 ≤ 1 / (4 * c.decay ^ 2) * 1e-20 := by
    intro a ha
    have h2 : 4 * c.decay ^ 2 ≤ a.im ^ 2 := by
      rw [← sq_abs a.im]
      nlinarith
    have : (1e-20 : ℝ) / a.im ^ 2 ≤ 1e-20 / (4 * c.decay ^ 2) := by
      gcongr
    linarith [show (1e-20 : ℝ) / (4 * c.decay ^ 2) = 1 / (4 * c.decay ^ 2) * 1e-20 by ring]
  have hcl : ∀ (u v : ℝ) (a : ℂ), 0 ≤ u → u ≤ c.amp → 0 ≤ v → v ≤ c.amp → 2 * c.decay ≤ |a.im| →
      u * v * (1e-20 / a.im ^ 2) ≤
      c.amp ^ 2 * (1 / (4 * c.decay ^ 2) + 2 * c.thick ^ 2 * Real.exp (c.wave * c.thick)) * 1e-20 := by
    intro u v a hu hu' hv hv' ha
    calc u * v * (1e-20 / a.im ^ 2) ≤ c.amp * c.amp * (1 / (4 * c.decay ^ 2) * 1e-20) := by
          gcongr
          exact claddingBound a ha
      _ = c.amp ^ 2 * (1 / (4 * c.decay ^ 2)) * 1e-20 := by ring
      _ ≤ _ := by
          gcongr
          have : 0 ≤ 2 * c.thick ^ 2 * Real.exp (c.wave * c.thick) := by positivity
          linarith
  cases pos with
  | lower =>
    simp only [Decays] at d1 d2
    simp only [Sizes.Fits] at p1 p2
    simp only [fourErr, ijErr, d1.1, d2.1, norm_zero, zero_mul, mul_zero, add_zero, zero_add]
    refine hcl _ _ _ n2 b1 n4 b2 ?_
    simp only [Complex.add_im, Complex.neg_im, Complex.conj_im]
    rw [abs_of_nonpos (by linarith)]
    linarith
  | upper =>
    simp only [Decays] at d1 d2
    simp only [Sizes.Fits] at p1 p2
    simp only [fourErr, ijErr, d1.1, d2.1, norm_zero, zero_mul, mul_zero, add_zero]
    refine hcl _ _ _ n1 a1 n3 a2 ?_
    simp only [Complex.sub_im, Complex.conj_im]
    rw [abs_of_nonneg (by linarith)]
    linarith
  | inner d =>
    simp only [Decays] at d1 d2
    simp only [Sizes.Fits] at p1 p2
    have w0 : 0 ≤ c.wave := (norm_nonneg _).trans x1
    have i1 := (Complex.abs_im_le_norm m1.x).trans x1
    have i2 := (Complex.abs_im_le_norm m2.x).trans x2
    have one : ∀ (u v : ℝ) (a : ℂ), 0 ≤ u → u ≤ c.amp → 0 ≤ v → v ≤ c.amp → |a.im| ≤ 2 * c.wave →
        u * v * ijErr (.inner d) a ≤ c.amp ^ 2 * (c.thick ^ 2 / 2 * Real.exp (c.wave * c.thick)) * 1e-20 := by
      intro u v a hu hu' hv hv' ha
      have hexp : Real.exp (|a.im| * |d| / 2) ≤ Real.exp (c.wave * c.thick) := by
        apply Real.exp_le_exp.2
        rw [abs_of_nonneg d1]
        have : |a.im| * d ≤ 2 * c.wave * c.thick := by gcongr
        linarith
      calc u * v * ijErr (.inner d) a ≤ c.amp * c.amp * (1e-20 * c.thick ^ 2 / 2 * Real.exp (c.wave * c.thick)) := by
            simp only [ijErr]
            gcongr
        _ = _ := by ring
    have im1 : ∀ x y : ℂ, ‖x‖ ≤ c.wave → ‖y‖ ≤ c.wave → |(x + y).im| ≤ 2 * c.wave := by
      intro x y hx hy
      rw [Complex.add_im]
      have h1 := (Complex.abs_im_le_norm x).trans hx
      have h2 := (Complex.abs_im_le_norm y).trans hy
      have := abs_add_le x.im y.im
      linarith
    have c1 : ‖conj m1.x‖ ≤ c.wave := by rw [RCLike.norm_conj]; exact x1
    have c2 : ‖-conj m1.x‖ ≤ c.wave := by rw [norm_neg]; exact c1
    have c3 : ‖-m2.x‖ ≤ c.wave := by rw [norm_neg]; exact x2
    have s1 := one ‖m1.A‖ ‖m2.A‖ (m2.x - conj m1.x) n1 a1 n3 a2 (by rw [sub_eq_add_neg]; exact im1 _ _ x2 c2)
    have s2 := one ‖m1.B‖ ‖m2.B‖ (-m2.x + conj m1.x) n2 b1 n4 b2 (im1 _ _ c3 c1)
    have s3 := one ‖m1.A‖ ‖m2.B‖ (-m2.x - conj m1.x) n1 a1 n4 b2 (by rw [sub_eq_add_neg]; exact im1 _ _ c3 c2)
    have s4 := one ‖m1.B‖ ‖m2.A‖ (m2.x + conj m1.x) n2 b1 n3 a2 (im1 _ _ x2 c1)
    unfold fourErr
    have k : 0 ≤ c.amp ^ 2 * (1 / (4 * c.decay ^ 2)) * 1e-20 := by positivity
    have e : c.amp ^ 2 * (1 / (4 * c.decay ^ 2) + 2 * c.thick ^ 2 * Real.exp (c.wave * c.thick)) * 1e-20 =
      4 * (c.amp ^ 2 * (c.thick ^ 2 / 2 * Real.exp (c.wave * c.thick)) * 1e-20) +
        c.amp ^ 2 * (1 / (4 * c.decay ^ 2)) * 1e-20 := by ring
    rw [e]
    linarith

theorem layWeight_nonneg (s t : GmeState) (l : LayPair) : 0 ≤ layWeight s t l := by
  have g0 := gk_nonneg s
  have g1 := gk_nonneg t
  unfold layWeight
  rcases s.pol with _ | _ <;> rcases t.pol with _ | _ <;> simp only <;> positivity

/-- **C106 (size of the change).** Explicit bound of the change of a matrix element in terms of the sizes of the guided
modes. -/
theorem C106_size {N : ℕ} (c : Sizes) (hc : 0 < c.decay) (hc' : 0 ≤ c.einv ∧ 0 ≤ c.perm ∧ 0 ≤ c.wave)
    (stack : List (LPos × ℝ))
    (einv : List (Matrix (Fin N) (Fin N) ℂ)) (hE : ∀ E ∈ einv, ∀ i j, ‖E i j‖ ≤ c.einv) (basis : List (BasisEl N))
    (hd : DecayingBasis stack basis) (ht : ∀ s ∈ basis, TameState c stack s.st)
    (hr : ∀ s ∈ basis, ∀ t ∈ basis, ∀ l ∈ layPairs stack (einv.map fun E => E s.ig t.ig) s.st t.st, Regular l) :
    SmallReg (c.bound stack.length) stack einv basis := by
  intro s hs t ht'
  obtain ⟨t1, t2, t3⟩ := ht s hs
  obtain ⟨u1, u2, u3⟩ := ht t ht'
  have dec : ∀ l ∈ layPairs stack (einv.map fun E => E s.ig t.ig) s.st t.st, Decays l.pos l.m1 ∧ Decays l.pos l.m2 :=
    fun l hl => (layPairs_mem hl (hd s hs) (hd t ht')).2
  have tame := fun l hl => layPairs_mem (l := l) (einv := einv.map fun E => E s.ig t.ig) hl t3 u3
  have hr := hr s hs t ht'
  have hE' : ∀ e ∈ einv.map fun E => E s.ig t.ig, ‖e‖ ≤ c.einv := by
    intro e he
    obtain ⟨E, hEm, rfl⟩ := List.mem_map.1 he
    exact hE E hEm _ _
  have hlen : (layPairs stack (einv.map fun E => E s.ig t.ig) s.st t.st).length ≤ stack.length := by
    simp only [layPairs, List.length_map, List.length_zip]
    omega
  refine (C28_error stack _ s.st t.st fun l hl => ⟨(dec l hl).1, (dec l hl).2, hr l hl⟩).trans ?_
  generalize (einv.map fun E => E s.ig t.ig) = ev at *
  generalize layPairs stack ev s.st t.st = L at *
  set B := c.einv * (c.perm ^ 2 * c.om ^ 4 + c.wave ^ 2 + c.gk ^ 2 + c.perm * c.wave * c.om ^ 2) *
    (c.amp ^ 2 * (1 / (4 * c.decay ^ 2) + 2 * c.thick ^ 2 * Real.exp (c.wave * c.thick))) * 1e-20 with hB
  obtain ⟨c1, c2, c3⟩ := hc'
  have hB0 : 0 ≤ B := by rw [hB]; positivity
  have each : ∀ l ∈ L, layWeight s.st t.st l * fourErr l.pos l.m1 l.m2 ≤ B := by
    intro l hl
    obtain ⟨e1, k1, k2⟩ := tame l hl
    have w := layWeight_le c s.st t.st l t1 u1 t2 u2 (hE' _ e1) k1.2.2.2.1 k1.2.2.1 k2.2.2.1
    have f := fourErr_le c l.pos l.m1 l.m2 hc (dec l hl).1 (dec l hl).2 k1.1 k1.2.1 k2.1 k2.2.1 k1.2.2.1 k2.2.2.1
      k1.2.2.2.2 k2.2.2.2.2
    have w0 := layWeight_nonneg s.st t.st l
    have f0 := fourErr_nonneg l.pos l.m1 l.m2
    exact (mul_le_mul w f f0 (w0.trans w)).trans (le_of_eq (by rw [hB]; ring))
  have h1 := List.sum_le_card_nsmul (L.map fun l => layWeight s.st t.st l * fourErr l.pos l.m1 l.m2) B (fun x hx => by
    obtain ⟨l, hl, rfl⟩ := List.mem_map.1 hx
    exact each l hl)
  rw [List.length_map, nsmul_eq_mul] at h1
  refine h1.trans ?_
  have h2 : (L.length : ℝ) * B ≤ (stack.length : ℝ) * B := by gcongr
  refine h2.trans (le_of_eq ?_)
  rw [hB]
  unfold Sizes.bound
  ring

/-- The entries of the inverse of a matrix bounded from below as a form. -/
theorem inv_entry_le {n : ℕ} (A : Matrix (Fin n) (Fin n) ℂ) (hA : A.det ≠ 0) (c : ℝ) (hc : 0 < c)
    (h : ∀ x, c * ∑ i, ‖x i‖ ^ 2 ≤ qform A x) (i j : Fin n) : ‖A⁻¹ i j‖ ≤ 1 / c := by
  set y := A⁻¹ *ᵥ Pi.single j 1 with hy
  have hyi : y i = A⁻¹ i j := by rw [hy, mulVec_single_one, col_apply]
  have hAy : A *ᵥ y = Pi.single j 1 := by
    rw [hy, mulVec_mulVec, mul_nonsing_inv _ (isUnit_iff_ne_zero.2 hA), one_mulVec]
  have h1 := h y
  have h2 : qform A y = (conj (y j)).re := by
    rw [qform, hAy, dotProduct_single_one]
    rfl
  have h3 : (conj (y j)).re ≤ ‖y j‖ := by
    rw [Complex.conj_re]
    exact Complex.re_le_norm _
  have h4 : ∀ k, ‖y k‖ ^ 2 ≤ ∑ i, ‖y i‖ ^ 2 := fun k =>
    Finset.single_le_sum (f := fun i => ‖y i‖ ^ 2) (fun i _ => by positivity) (Finset.mem_univ k)
  set T := ∑ i, ‖y i‖ ^ 2 with hT
  have hT0 : 0 ≤ T := Finset.sum_nonneg fun i _ => by positivity
  have h5 : c * T ≤ ‖y j‖ := by rw [h2] at h1; linarith
  have h6 : (c * T) ^ 2 ≤ T := (pow_le_pow_left₀ (mul_nonneg hc.le hT0) h5 2).trans (h4 j)
  have h7 : c ^ 2 * T ≤ 1 := by
    rcases hT0.eq_or_lt with h0 | h0
    · rw [← h0]; norm_num
    · have : c ^ 2 * T * T ≤ 1 * T := by nlinarith
      exact le_of_mul_le_mul_right this h0
  rw [← hyi, le_div_iff₀ hc]
  have h8 : (‖y i‖ * c) ^ 2 ≤ 1 := by
    rw [mul_pow]
    nlinarith [h4 i, sq_nonneg c]
  nlinarith [norm_nonneg (y i), mul_nonneg (norm_nonneg (y i)) hc.le]

theorem epsInv_entry (S : GmeStruct) (gmax : ℝ) (l : GmeLay) (c : ℝ) (hc : 0 < c)
    (h : ∀ x, c * ∑ i, ‖x i‖ ^ 2 ≤ qform (S.epsMat gmax l) x) (onlyG : Bool)
    (E : Matrix (Fin (S.gvec gmax).length) (Fin (S.gvec gmax).length) ℂ) (hE : S.epsInv gmax onlyG l = .ok E)
    (i j : Fin (S.gvec gmax).length) : ‖E i j‖ ≤ 1 / c := by
  unfold GmeStruct.epsInv at hE
  split_ifs at hE with h1 h2
  · cases hE
    have h0 : 0 < (S.gvec gmax).length := lt_of_le_of_lt (Nat.zero_le _) i.2
    set t := epsMatAbs (S.ft l) S.b1 S.b2 (absInds S.b1 S.b2 gmax) 0 0 with ht
    have h3 := h (Pi.single ⟨0, h0⟩ 1)
    have e1 : ∑ k, ‖(Pi.single (⟨0, h0⟩ : Fin (S.gvec gmax).length) (1 : ℂ) : Fin (S.gvec gmax).length → ℂ) k‖ ^ 2 = 1 := by
      rw [Finset.sum_eq_single ⟨0, h0⟩] <;> simp +contextual [Pi.single_apply]
    have e2 : qform (S.epsMat gmax l) (Pi.single ⟨0, h0⟩ 1) = t.re := by
      rw [qform, mulVec_single_one, ← Pi.single_star, single_dotProduct, star_one, one_mul]
      rfl
    rw [e1, e2, mul_one] at h3
    have h4 : c ≤ ‖t‖ := h3.trans (Complex.re_le_norm _)
    rw [Matrix.smul_apply, one_apply, smul_eq_mul]
    split_ifs
    · rw [mul_one, norm_inv, ← one_div]
      exact one_div_le_one_div_of_le hc h4
    · rw [mul_zero, norm_zero]; positivity
  · cases hE
    exact inv_entry_le _ h2 c hc h i j

/-- **C106 (structures of shapes).** For layers of shapes which do not overlap, the change of the squared angular
frequencies is bounded explicitly by the sizes of the guided modes and the number of basis elements. -/
theorem C106_drawn (argsort : List ℝ → List ℕ) (hs : ∀ l, IsArgsort l (argsort l))
    (eigh : ∀ n, Matrix (Fin n) (Fin n) ℂ → Fin n → ℝ) (he : GoodEigh eigh) (guided : GuidedSolver) (S : GmeStruct)
    (gmax : ℝ) (onlyG : Bool) (opt : String) (ks : List R2) (numeig nb : ℕ) (c : Sizes) (hc : 0 < c.decay)
    (hc' : 0 < c.einv ∧ 0 ≤ c.perm ∧ 0 ≤ c.wave)
    (hS : ∀ l ∈ S.layers, DrawnLayer S gmax l ∧ ∀ x, 1 / c.einv * ∑ i, ‖x i‖ ^ 2 ≤ qform (S.epsMat gmax l) x)
    (hg : ∀ eff ik b, S.layers.mapM (GmeLay.eff opt) = .ok eff →
      guided ((S.layers.map GmeLay.pos).zip eff) (S.gvec gmax) ks ik = .ok b →
      GoodBasis ((S.layers.map GmeLay.pos).zip eff) b ∧ (∀ s ∈ b, TameState c ((S.layers.map GmeLay.pos).zip eff) s.st) ∧
      (∀ s ∈ b, ∀ t ∈ b, ∀ ev, ∀ l ∈ layPairs ((S.layers.map GmeLay.pos).zip eff) ev s.st t.st, Regular l) ∧
      b.length ≤ nb)
    (r : List KRes) (hr : gmeSim argsort eigh guided S gmax onlyG opt ks 0 numeig = .ok r) :
    ∃ r', gmeSimIj ijExact argsort eigh guided S gmax onlyG opt ks 0 numeig = .ok r' ∧
      List.Forall₂ (Near (nb * c.bound S.layers.length)) r r' := by
  refine C106_near argsort hs eigh he guided S gmax onlyG opt ks numeig (c.bound S.layers.length) _ ?_ ?_ r hr
  · intro l hl E hE
    obtain ⟨E', h1, h2⟩ := drawnLayer_inv S gmax l (hS l hl).1 onlyG
    rw [h1] at hE
    cases hE
    exact h2
  · intro eff einv ik b h1 h2 h3
    obtain ⟨g1, g2, g3, g4⟩ := hg eff ik b h1 h3
    have hlen : ((S.layers.map GmeLay.pos).zip eff).length = S.layers.length := by
      rw [← stack_length h1 h2, ← (mapM_ok_forall h2).length_eq]
    refine ⟨g1, ?_, ?_⟩
    · rw [← hlen]
      refine C106_size c hc ⟨hc'.1.le, hc'.2.1, hc'.2.2⟩ _ einv ?_ b g1.2 g2 (fun s hs t ht => g3 s hs t ht _)
      intro E hE i j
      obtain ⟨l, hl, hEl⟩ := forall2_mem_right (mapM_ok_forall h2) E hE
      have := epsInv_entry S gmax l _ (one_div_pos.2 hc'.1) (hS l hl).2 onlyG E hEl i j
      rwa [one_div_one_div] at this
    · have : 0 ≤ c.bound S.layers.length := by
        obtain ⟨c1, c2, c3⟩ := hc'
        unfold Sizes.bound
        positivity
      gcongr

/-! ### Example -/

/-- The holes of C104, at most 100000 plane waves: the squared angular frequencies of the code
are exact to 1e-13. -/
example (argsort : List ℝ → List ℕ) (hs : ∀ l, IsArgsort l (argsort l))
    (eigh : ∀ n, Matrix (Fin n) (Fin n) ℂ → Fin n → ℝ) (he : GoodEigh eigh) (gmax : ℝ)
    (hn : ((holesStruct 1).gvec gmax).length ≤ 10 ^ 5) (ks : List R2) (r : List KRes)
    (hr : gmeSim argsort eigh (exGuided true) (holesStruct 1) gmax false "custom" ks 0 2 = .ok r) :
    ∃ r', gmeSimIj ijExact argsort eigh (exGuided true) (holesStruct 1) gmax false "custom" ks 0 2 = .ok r' ∧
      List.Forall₂ (Near 1e-13) r r' := by
  have hn' : ((holesStruct 1).gvec gmax).length ≤ 10 ^ 6 := hn.trans (by norm_num)
  have hgk : (exampleState .te).gk = 5 ∧ (exampleState .tm).gk = 5 := by
    have : √((3 : ℝ) ^ 2 + 4 ^ 2) = 5 := by
      rw [show (3 : ℝ) ^ 2 + 4 ^ 2 = 5 ^ 2 by norm_num]; exact Real.sqrt_sq (by norm_num)
    exact ⟨this, this⟩
  refine Exists.elim (C106_drawn argsort hs eigh he (exGuided true) (holesStruct 1) gmax false "custom" ks 2 2
    ⟨2, 1, 1, 1, 11, 2, 5, 2⟩ (by norm_num) (by norm_num) ?_ ?_ r hr) ?_
  · intro l hl
    refine ⟨holes_layers gmax hn' l hl, ?_⟩
    have hN : ((((holesStruct 1).gvec gmax).length : ℕ) : ℝ) ≤ 10 ^ 5 := by exact_mod_cast hn
    have clad : ∀ p eff, ∀ x, 1 / (2 : ℝ) * ∑ i, ‖x i‖ ^ 2 ≤ qform ((holesStruct 1).epsMat gmax ⟨p, 1, 1, eff, []⟩) x := by
      intro p eff x
      have hD : Draws (1, 0) (0, 1) (holesStruct 1).b1 (holesStruct 1).b2 1 1 (holesStruct 1).ecArea [] :=
        ⟨square_holes.dual, resolved_square, by simp [holesStruct], ⟨by simp, by simp⟩, by simp, by simp, by simp, by simp⟩
      have h := ((C101_gme (holesStruct 1) ⟨p, 1, 1, eff, []⟩ (1, 0) (0, 1) [] hD rfl (by simp) 1 1 (by simp) (by simp)
        gmax).1 x).1
      rw [← qform_sum] at h
      simp only [drawErr, List.map_nil, List.sum_nil, zero_div, mul_zero, sub_zero] at h
      have : 0 ≤ ∑ i, ‖x i‖ ^ 2 := Finset.sum_nonneg fun i _ => by positivity
      linarith
    simp only [holesStruct, List.mem_cons, List.not_mem_nil, or_false] at hl
    rcases hl with rfl | rfl | rfl
    · exact clad _ _
    · intro x
      have h := ((C101_gme (holesStruct 1) (holesSlab 1) (1, 0) (0, 1) [drawnCircle 1 ⟨0, 0, 0.2⟩] (holes_draws 1) rfl
        (holes_real' 1) 1 12 (by norm_num [holesSlab]) (by norm_num [holesSlab]) gmax).1 x).1
      rw [← qform_sum] at h
      have e1 := holes_err' 1 (10 ^ 6) le_rfl
      have e2 := drawErr_nonneg _ _ _ _ _ _ _ _ (holes_draws 1)
      have e3 : ((((holesStruct 1).gvec gmax).length : ℕ) : ℝ) *
          drawErr (holesSlab 1).epsB (holesStruct 1).ecArea [drawnCircle 1 ⟨0, 0, 0.2⟩] ≤ 1 / 2 := by
        change ((((holesStruct 1).gvec gmax).length : ℕ) : ℝ) * drawErr (1 + 11) 1 [drawnCircle 1 ⟨0, 0, 0.2⟩] ≤ 1 / 2
        push_cast at e1
        nlinarith
      have : 0 ≤ ∑ i, ‖x i‖ ^ 2 := Finset.sum_nonneg fun i _ => by positivity
      nlinarith
    · exact clad _ _
  · intro eff ik b h1 h2
    rw [holes_custom h1] at h2 ⊢
    have hgood := exGuided_good _ _ _ _ _ _ _ _ h2
    have hb : ∀ s ∈ b, s.st = exampleState .te ∨ s.st = exampleState .tm := by
      unfold exGuided at h2
      by_cases h0 : 0 < ((holesStruct 1).gvec gmax).length
      · rw [dif_pos h0] at h2
        cases h2
        simp
      · rw [dif_neg h0] at h2
        cases h2
        simp
    have hl : b.length ≤ 2 := by
      unfold exGuided at h2
      by_cases h0 : 0 < ((holesStruct 1).gvec gmax).length
      · rw [dif_pos h0] at h2
        cases h2
        simp
      · rw [dif_neg h0] at h2
        cases h2
        simp
    refine ⟨hgood, ?_, ?_, hl⟩
    · intro s hs
      have : ∀ pol, TameState ⟨2, 1, 1, 1, 11, 2, 5, 2⟩ [(.lower, 1), (.inner 1, 11), (.upper, 1)] (exampleState pol) := by
        intro pol
        refine ⟨by simp [exampleState], by cases pol; exacts [hgk.1.le, hgk.2.le], ?_⟩
        refine .cons ?_ (.cons ?_ (.cons ?_ .nil)) <;> simp [Sizes.Fits] <;> norm_num
      rcases hb s hs with h | h <;> rw [h] <;> exact this _
    · intro s hs t ht ev l hl
      have key : ∀ p p', l ∈ layPairs [(.lower, 1), (.inner 1, 11), (.upper, 1)] ev (exampleState p) (exampleState p') →
          Regular l := by
        intro p p' hl
        have hx : ∀ (p : Pol), List.Forall₂ (fun (a : LPos × ℝ) (m : ModeL) => ∀ d, a.1 = .inner d → m.x = 1)
            [(.lower, 1), (.inner 1, 11), (.upper, 1)] (exampleState p).layers := by
          intro p
          refine .cons ?_ (.cons ?_ (.cons ?_ .nil)) <;> simp
        obtain ⟨-, h1, h2⟩ := layPairs_mem hl (hx p) (hx p')
        unfold Regular
        split
        · rename_i d hd
          rw [h1 d hd, h2 d hd, map_one]
          norm_num
        · trivial
      rcases hb s hs with h | h <;> rcases hb t ht with h' | h' <;> rw [h, h'] at hl <;> exact key _ _ hl
  · rintro r' ⟨h1, h2⟩
    refine ⟨r', h1, ?_⟩
    refine h2.imp fun a b h => ⟨h.1, fun m m1 m2 => (h.2 m m1 m2).trans ?_⟩
    simp only [Sizes.bound, holesStruct, List.length_cons, List.length_nil]
    have := Real.exp_one_lt_d9
    norm_num
    linarith

end Legume
