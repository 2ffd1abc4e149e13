import Verif.Lemmas.RadSplit
import Verif.Props.RadReverse

/-!
# Losses of structures upside down and of subdivided layers (C132)
-/
namespace Legume

open Spec Matrix
open scoped ComplexConjugate

/-- The structure upside down: the layers in the opposite order, the lower cladding as the upper one and conversely. -/
def GmeStruct.turned (S : GmeStruct) : GmeStruct :=
  { S with layers := (S.layers.map fun l => { l with pos := flipPos l.pos }).reverse }

/-- The structure whose layers are `L1`, two layers of thicknesses `d1` and `d2` made as `l`, and `L2`. -/
def GmeStruct.cut (S : GmeStruct) (L1 : List GmeLay) (l : GmeLay) (L2 : List GmeLay) (d1 d2 : ℝ) : GmeStruct :=
  { S with layers := L1 ++ { l with pos := .inner d1 } :: { l with pos := .inner d2 } :: L2 }

/-- Results of two runs at the wave vectors `ks`, the first of the structure `S`: the modes are as in `SwappedModes`. -/
def SwappedRun (sw : Bool → Bool) (S : GmeStruct) (gmax : ℝ) (e0 eN : ℝ) (ls : List (ℝ × ℝ))
    (dgx : ℝ) (eigh : ∀ n, Matrix (Fin n) (Fin n) ℂ → Fin n → ℝ) (guided : GuidedSolver) (onlyG : Bool) (opt : String)
    (ks : List R2) (r r' : List (KRes × List RadRes)) : Prop :=
  r.length = ks.length ∧ r'.length = ks.length ∧ ∀ (ik : ℕ) (x x' : KRes × List RadRes), r[ik]? = some x →
    r'[ik]? = some x' → ∃ eff einv basis, S.layers.mapM (GmeLay.eff opt) = .ok eff ∧
      S.layers.mapM (S.epsInv gmax onlyG) = .ok einv ∧
      guided ((S.layers.map GmeLay.pos).zip eff) (S.gvec gmax) ks ik = .ok basis ∧
      SwappedModes sw e0 eN ls (fun i => radPlane dgx (ks.getD ik 0) (S.gvec gmax)[i])
        (eigh _ (gmeMatIj ijExact ((S.layers.map GmeLay.pos).zip eff) einv basis + 1)) x x'

/-- The guided modes of two stacks at the wave vectors `ks`: the same error, or the same modes. -/
def SameSlabModes (gvec : List R2) (ks : List R2) (dgx e0 eN : ℝ) (ls : List (ℝ × ℝ)) (e0' eN' : ℝ) (ls' : List (ℝ × ℝ))
    (guided guided' : GuidedSolver) : Prop :=
  ∀ (ik : ℕ) (h : ik < ks.length),
    (∃ e, guided (slabStack e0 eN ls) gvec ks ik = .error e ∧ guided' (slabStack e0' eN' ls') gvec ks ik = .error e) ∨
    ∃ b b', guided (slabStack e0 eN ls) gvec ks ik = .ok b ∧ guided' (slabStack e0' eN' ls') gvec ks ik = .ok b' ∧
      SlabGuided e0 eN ls gvec (ks[ik] + (dgx, 0)) b ∧ SlabGuided e0' eN' ls' gvec (ks[ik] + (dgx, 0)) b' ∧ SameBasis b b'

/-! ### Layers in another order -/

theorem mapM_reverse_same {α β : Type} {f : α → Except PyErr β} {e0 : PyErr} (hf : ∀ a e, f a = .error e → e = e0) (l : List α) :
    l.reverse.mapM f = (l.mapM f).map List.reverse := by
  induction l with
  | nil => rfl
  | cons a l ih =>
    rw [List.reverse_cons, List.mapM_append, ih, List.mapM_cons, List.mapM_cons, List.mapM_nil]
    simp only [bind, Except.bind, pure, Except.pure, Except.map]
    cases hl : l.mapM f with
    | ok r =>
      cases ha : f a with
      | ok x => simp
      | error e => rfl
    | error e =>
      cases ha : f a with
      | ok x => rfl
      | error e' =>
        simp only
        have h1 : ∀ (l : List α) e, l.mapM f = .error e → e = e0 := by
          intro l
          induction l with
          | nil => intro e h; simp [pure, Except.pure] at h
          | cons a l ih' =>
            intro e h
            rw [List.mapM_cons] at h
            simp only [bind, Except.bind, pure, Except.pure] at h
            cases h2 : f a with
            | error e2 => rw [h2] at h; cases h; exact hf _ _ h2
            | ok x =>
              rw [h2] at h
              simp only at h
              cases h3 : l.mapM f with
              | error e3 => rw [h3] at h; cases h; exact ih' _ h3
              | ok r => rw [h3] at h; cases h
        rw [h1 l e hl, hf a e' ha]

theorem mapM_twice {α β : Type} (f : α → Except PyErr β) (l1 l2 : List α) (x y z : α) (hy : f y = f x) (hz : f z = f x) :
    (l1 ++ y :: z :: l2).mapM f = ((l1 ++ x :: l2).mapM f).map (twiceAt l1.length) := by
  rw [List.mapM_append, List.mapM_append, List.mapM_cons, List.mapM_cons, List.mapM_cons, hy, hz]
  simp only [bind, Except.bind, pure, Except.pure, Except.map]
  cases h1 : l1.mapM f with
  | error e => rfl
  | ok r =>
    simp only
    have hl := (mapM_ok f l1 r h1).1
    cases f x with
    | error e => rfl
    | ok v =>
      simp only
      cases l2.mapM f with
      | error e => rfl
      | ok r2 =>
        simp only
        rw [← hl, twiceAt_append]

theorem eff_error {opt : String} (l : GmeLay) (e : PyErr) (h : l.eff opt = .error e) : e = .valueError := by
  unfold GmeLay.eff at h
  split_ifs at h
  · split at h
    · cases h
    · cases h; rfl
  · cases h; rfl

theorem epsInv_error {S : GmeStruct} {gmax : ℝ} {onlyG : Bool} (l : GmeLay) (e : PyErr)
    (h : S.epsInv gmax onlyG l = .error e) : e = .valueError := by
  unfold GmeStruct.epsInv at h
  split_ifs at h
  cases h; rfl

theorem turned_mapM {α : Type} {f : GmeLay → Except PyErr α} {e0 : PyErr} (hf : ∀ a e, f a = .error e → e = e0)
    (hpos : ∀ l p, f { l with pos := p } = f l) (S : GmeStruct) :
    S.turned.layers.mapM f = (S.layers.mapM f).map List.reverse := by
  unfold GmeStruct.turned
  rw [mapM_reverse_same hf, List.mapM_map]
  congr 2
  funext l
  exact hpos l _

theorem turned_clads (S : GmeStruct) : cladAvgs S.turned = (cladAvgs S).swap := by
  unfold cladAvgs GmeStruct.turned
  simp only [List.head?_reverse, List.getLast?_reverse, List.getLast?_map, List.head?_map, Option.map_map, Prod.swap]
  rfl

theorem turned_stack {S : GmeStruct} {e0 eN : ℝ} {ls : List (ℝ × ℝ)} {eff : List ℝ} (hl : eff.length = S.layers.length)
    (h : (S.layers.map GmeLay.pos).zip eff = slabStack e0 eN ls) :
    (S.turned.layers.map GmeLay.pos).zip eff.reverse = slabStack eN e0 ls.reverse := by
  rw [slabStack_flip, ← h]
  unfold GmeStruct.turned
  rw [List.map_reverse, List.map_map, zip_reverse_of_length _ _ (by simp [hl])]
  congr 1
  rw [show (GmeLay.pos ∘ fun l : GmeLay => { l with pos := flipPos l.pos }) = flipPos ∘ GmeLay.pos from rfl, ← List.map_map,
    List.zip_map_left]
  rfl

theorem cut_mapM {α : Type} {f : GmeLay → Except PyErr α} (hpos : ∀ l p, f { l with pos := p } = f l) {S : GmeStruct}
    {L1 L2 : List GmeLay} {l : GmeLay} (hS : S.layers = L1 ++ l :: L2) (d1 d2 : ℝ) :
    (S.cut L1 l L2 d1 d2).layers.mapM f = (S.layers.mapM f).map (twiceAt L1.length) := by
  unfold GmeStruct.cut
  rw [hS]
  exact mapM_twice f L1 L2 l _ _ (hpos _ _) (hpos _ _)

theorem cut_stack {S : GmeStruct} {L1 L2 : List GmeLay} {l : GmeLay} (hS : S.layers = L1 ++ l :: L2) {d1 d2 e0 eN e : ℝ}
    {l1 l2 : List (ℝ × ℝ)} {eff : List ℝ} (hlen : eff.length = S.layers.length) (h1 : L1.length = l1.length + 1)
    (h : (S.layers.map GmeLay.pos).zip eff = slabStack e0 eN (l1 ++ (e, d1 + d2) :: l2)) :
    ((S.cut L1 l L2 d1 d2).layers.map GmeLay.pos).zip (twiceAt L1.length eff) =
      slabStack e0 eN (l1 ++ (e, d1) :: (e, d2) :: l2) := by
  obtain ⟨F1, x, F2, hF, hF1⟩ := split_at_length eff L1.length (by rw [hlen, hS]; simp)
  rw [hF, hS, List.map_append, List.zip_append (by simp [hF1]), List.map_cons, List.zip_cons_cons, slabStack_split] at h
  have hh := List.append_inj h (by simp [hF1, h1])
  obtain ⟨c1, c2⟩ := hh
  rw [List.map_cons, List.cons_append, List.cons.injEq] at c2
  rw [hF, ← hF1, twiceAt_append, slabStack_split]
  unfold GmeStruct.cut
  rw [List.map_append, List.zip_append (by simp [hF1]), c1, List.map_cons, List.map_cons, List.zip_cons_cons,
    List.zip_cons_cons, c2.2]
  have hx : x = e := congrArg Prod.snd c2.1
  rw [hx]
  rfl

theorem cut_clads {S : GmeStruct} {L1 L2 : List GmeLay} {l : GmeLay} (hS : S.layers = L1 ++ l :: L2) (d1 d2 : ℝ)
    (h1 : L1 ≠ []) (h2 : L2 ≠ []) : cladAvgs (S.cut L1 l L2 d1 d2) = cladAvgs S := by
  unfold cladAvgs GmeStruct.cut
  rw [hS]
  cases L1 with
  | nil => exact absurd rfl h1
  | cons a L1 =>
    cases L2 with
    | nil => exact absurd rfl h2
    | cons c L2 =>
      simp only [List.cons_append, List.head?_cons]
      congr 3
      rw [← List.cons_append, ← List.cons_append, List.getLast?_append, List.getLast?_append, List.getLast?_cons_cons,
        List.getLast?_cons_cons, List.getLast?_cons_cons]

/-! ### Runs -/

theorem layers_length {S : GmeStruct} {gmax e0 eN : ℝ} {onlyG : Bool} {opt : String} {ls : List (ℝ × ℝ)} {eff : List ℝ}
    {Es : List (Matrix (Fin (S.gvec gmax).length) (Fin (S.gvec gmax).length) ℂ)}
    (h1 : S.layers.mapM (GmeLay.eff opt) = .ok eff) (h2 : S.layers.mapM (S.epsInv gmax onlyG) = .ok Es)
    (h : (S.layers.map GmeLay.pos).zip eff = slabStack e0 eN ls) : Es.length = ls.length + 2 := by
  have h3 := congrArg List.length h
  rw [List.length_zip, List.length_map, (mapM_ok _ _ _ h1).1, min_self, slabStack_length] at h3
  rw [(mapM_ok _ _ _ h2).1, h3]

/-- Runs of two structures that differ in the list of layers. -/
theorem radSim_swapped (sw : Bool → Bool) (argsort : List ℝ → List ℕ) (eigh : ∀ n, Matrix (Fin n) (Fin n) ℂ → Fin n → ℝ)
    (vecs : ∀ n, Matrix (Fin n) (Fin n) ℂ → Matrix (Fin n) (Fin n) ℂ) (guided guided' : GuidedSolver) (S : GmeStruct)
    (L' : List GmeLay) (gmax : ℝ) (onlyG : Bool) (opt : String) (e0 eN e0' eN' : ℝ) (ls ls' : List (ℝ × ℝ))
    (tw : ∀ {α : Type}, List α → List α)
    (heff : L'.mapM (GmeLay.eff opt) = (S.layers.mapM (GmeLay.eff opt)).map tw)
    (hinv : L'.mapM (S.epsInv gmax onlyG) = (S.layers.mapM (S.epsInv gmax onlyG)).map tw)
    (hclad : cladAvgs S = (e0, eN)) (hclad' : cladAvgs { S with layers := L' } = (e0', eN'))
    (hst : ∀ eff, S.layers.mapM (GmeLay.eff opt) = .ok eff → (S.layers.map GmeLay.pos).zip eff = slabStack e0 eN ls)
    (hst' : ∀ eff, S.layers.mapM (GmeLay.eff opt) = .ok eff → (L'.map GmeLay.pos).zip (tw eff) = slabStack e0' eN' ls')
    (ks : List R2) (dgx sigma : ℝ) (numeig : ℕ)
    (hg : SameSlabModes (S.gvec gmax) ks dgx e0 eN ls e0' eN' ls' guided guided')
    (hat : ∀ Es, S.layers.mapM (S.epsInv gmax onlyG) = .ok Es → Es.length = ls.length + 2 → ∀ k planes b b',
      SlabGuided e0 eN ls (S.gvec gmax) k b → SlabGuided e0' eN' ls' (S.gvec gmax) k b' → SameBasis b b' →
      SameOutcome (SwappedModes sw e0 eN ls planes (eigh _ (gmeMatIj ijExact (slabStack e0 eN ls) Es b + 1)))
        (radAt ijExact argsort (slabStack e0 eN ls) Es b planes (e0, eN)
          (eigh _ (gmeMatIj ijExact (slabStack e0 eN ls) Es b + 1))
          (vecs _ (gmeMatIj ijExact (slabStack e0 eN ls) Es b + 1)) sigma numeig)
        (radAt ijExact argsort (slabStack e0' eN' ls') (tw Es) b' planes (e0', eN')
          (eigh _ (gmeMatIj ijExact (slabStack e0' eN' ls') (tw Es) b' + 1))
          (vecs _ (gmeMatIj ijExact (slabStack e0' eN' ls') (tw Es) b' + 1)) sigma numeig)) :
    SameOutcome (SwappedRun sw S gmax e0 eN ls dgx eigh guided onlyG opt ks)
      (radSimIj ijExact dgx argsort eigh vecs guided S gmax onlyG opt ks sigma numeig)
      (radSimIj ijExact dgx argsort eigh vecs guided' { S with layers := L' } gmax onlyG opt ks sigma numeig) := by
  have hrun : radSimIj ijExact dgx argsort eigh vecs guided' { S with layers := L' } gmax onlyG opt ks sigma numeig = (do
      let eff ← L'.mapM (GmeLay.eff opt)
      let einv ← L'.mapM (S.epsInv gmax onlyG)
      (List.range ks.length).mapM fun (ik : ℕ) => do
        let basis ← guided' ((L'.map GmeLay.pos).zip eff) (S.gvec gmax) ks ik
        radAt ijExact argsort ((L'.map GmeLay.pos).zip eff) einv basis
          (fun i => radPlane dgx (ks.getD ik 0) (S.gvec gmax)[i]) (cladAvgs { S with layers := L' })
          (eigh _ (gmeMatIj ijExact ((L'.map GmeLay.pos).zip eff) einv basis + 1))
          (vecs _ (gmeMatIj ijExact ((L'.map GmeLay.pos).zip eff) einv basis + 1)) sigma numeig) := rfl
  rw [hrun, heff, hinv, hclad']
  unfold radSimIj
  cases heff0 : S.layers.mapM (GmeLay.eff opt) with
  | error e => exact Or.inl ⟨e, rfl, rfl⟩
  | ok eff =>
    simp only [bind, Except.bind, Except.map]
    cases hEs : S.layers.mapM (S.epsInv gmax onlyG) with
    | error e => exact Or.inl ⟨e, rfl, rfl⟩
    | ok Es =>
      simp only
      rw [hclad, hst' eff heff0]
      unfold SwappedRun
      refine mapM_range_same (n := ks.length)
        (R := fun ik x x' => ∃ eff einv basis, S.layers.mapM (GmeLay.eff opt) = .ok eff ∧
          S.layers.mapM (S.epsInv gmax onlyG) = .ok einv ∧
          guided ((S.layers.map GmeLay.pos).zip eff) (S.gvec gmax) ks ik = .ok basis ∧
          SwappedModes sw e0 eN ls (fun i => radPlane dgx (ks.getD ik 0) (S.gvec gmax)[i])
            (eigh _ (gmeMatIj ijExact ((S.layers.map GmeLay.pos).zip eff) einv basis + 1)) x x') ?_
      intro ik hik
      have hst0 := hst eff heff0
      rcases hg ik hik with ⟨e, h1, h2⟩ | ⟨b, b', h1, h2, h3, h4, h5⟩
      · rw [hst0, h1, h2]
        exact Or.inl ⟨e, rfl, rfl⟩
      · rw [hst0, h1, h2]
        simp only
        rcases hat Es hEs (layers_length heff0 hEs (hst eff heff0)) _ (fun i => radPlane dgx (ks.getD ik 0) (S.gvec gmax)[i]) b b' h3 h4 h5 with
          h | ⟨x, x', q1, q2, q3⟩
        · exact Or.inl h
        · refine Or.inr ⟨x, x', q1, q2, eff, Es, b, heff0, hEs, ?_, ?_⟩
          · rw [hst0]; exact h1
          · rw [hst0]; exact q3

theorem gmeSimIj_layers (ij : LPos → ℂ → ℂ) (argsort : List ℝ → List ℕ) (eigh : ∀ n, Matrix (Fin n) (Fin n) ℂ → Fin n → ℝ)
    (guided : GuidedSolver) (S : GmeStruct) (L' : List GmeLay) (gmax : ℝ) (onlyG : Bool) (opt : String) (ks : List R2)
    (sigma : ℝ) (numeig : ℕ) :
    gmeSimIj ij argsort eigh guided { S with layers := L' } gmax onlyG opt ks sigma numeig = (do
      let eff ← L'.mapM (GmeLay.eff opt)
      let einv ← L'.mapM (S.epsInv gmax onlyG)
      (List.range ks.length).mapM fun (ik : ℕ) => do
        let basis ← guided ((L'.map GmeLay.pos).zip eff) (S.gvec gmax) ks ik
        solveFull argsort (List.ofFn (eigh _ (gmeMatIj ij ((L'.map GmeLay.pos).zip eff) einv basis + 1))) sigma numeig) := rfl

/-- Frequencies of two structures that differ in the list of layers. -/
theorem gmeSim_swapped (argsort : List ℝ → List ℕ) (eigh : ∀ n, Matrix (Fin n) (Fin n) ℂ → Fin n → ℝ)
    (guided guided' : GuidedSolver) (S : GmeStruct)
    (L' : List GmeLay) (gmax : ℝ) (onlyG : Bool) (opt : String) (e0 eN e0' eN' : ℝ) (ls ls' : List (ℝ × ℝ))
    (tw : ∀ {α : Type}, List α → List α)
    (heff : L'.mapM (GmeLay.eff opt) = (S.layers.mapM (GmeLay.eff opt)).map tw)
    (hinv : L'.mapM (S.epsInv gmax onlyG) = (S.layers.mapM (S.epsInv gmax onlyG)).map tw)
    (hst : ∀ eff, S.layers.mapM (GmeLay.eff opt) = .ok eff → (S.layers.map GmeLay.pos).zip eff = slabStack e0 eN ls)
    (hst' : ∀ eff, S.layers.mapM (GmeLay.eff opt) = .ok eff → (L'.map GmeLay.pos).zip (tw eff) = slabStack e0' eN' ls')
    (ks : List R2) (dgx sigma : ℝ) (numeig : ℕ)
    (hg : SameSlabModes (S.gvec gmax) ks dgx e0 eN ls e0' eN' ls' guided guided')
    (hat : ∀ Es, S.layers.mapM (S.epsInv gmax onlyG) = .ok Es → Es.length = ls.length + 2 → ∀ k b b',
      SlabGuided e0 eN ls (S.gvec gmax) k b → SlabGuided e0' eN' ls' (S.gvec gmax) k b' → SameBasis b b' →
      List.ofFn (eigh _ (gmeMatIj ijExact (slabStack e0' eN' ls') (tw Es) b' + 1)) =
        List.ofFn (eigh _ (gmeMatIj ijExact (slabStack e0 eN ls) Es b + 1))) :
    gmeSimIj ijExact argsort eigh guided' { S with layers := L' } gmax onlyG opt ks sigma numeig =
      gmeSimIj ijExact argsort eigh guided S gmax onlyG opt ks sigma numeig := by
  rw [gmeSimIj_layers, heff, hinv]
  unfold gmeSimIj
  cases heff0 : S.layers.mapM (GmeLay.eff opt) with
  | error e => simp only [bind, Except.bind, Except.map]
  | ok eff =>
    simp only [bind, Except.bind, Except.map]
    cases hEs : S.layers.mapM (S.epsInv gmax onlyG) with
    | error e => simp only
    | ok Es =>
      simp only
      rw [hst' eff heff0, hst eff heff0]
      refine mapM_range_congr fun ik hik => ?_
      rcases hg ik hik with ⟨e, h1, h2⟩ | ⟨b, b', h1, h2, h3, h4, h5⟩
      · simp only [h1, h2]
      · simp only [h1, h2]
        rw [hat Es hEs (layers_length heff0 hEs (hst eff heff0)) _ b b' h3 h4 h5]

/-- **C132 (upside down).** A structure and the structure upside down, with guided modes that are the same: the runs fail with
the same error or store the same frequencies, and the same channels are open in the exchanged claddings. A mode whose eigenvalue
no other mode has, with no channel on a light line or at normal incidence, has the same losses in both, and radiates the same
power with each polarisation into each plane wave through the exchanged cladding. For eigenvalues of several modes the sums of
these powers are the same. -/
theorem C132_upside_down (argsort : List ℝ → List ℕ) (hs : ∀ l, IsArgsort l (argsort l))
    (eigh : ∀ n, Matrix (Fin n) (Fin n) ℂ → Fin n → ℝ) (vecs : ∀ n, Matrix (Fin n) (Fin n) ℂ → Matrix (Fin n) (Fin n) ℂ)
    (he : SortedEigh eigh) (hp : EighPair eigh vecs) (guided guided' : GuidedSolver) (S : GmeStruct) (gmax : ℝ) (onlyG : Bool)
    (opt : String) (e0 eN : ℝ) (ls : List (ℝ × ℝ)) (hne : ls ≠ []) (hd : ∀ l ∈ ls, 0 ≤ l.2) (h0 : 0 < e0) (hN : 0 < eN)
    (hl : ∀ l ∈ ls, l.1 ≠ 0) (hclad : cladAvgs S = (e0, eN))
    (hst : ∀ eff, S.layers.mapM (GmeLay.eff opt) = .ok eff →
      (S.layers.map GmeLay.pos).zip eff = slabStack e0 eN ls) (ks : List R2) (dgx : ℝ)
    (hg : SameSlabModes (S.gvec gmax) ks dgx e0 eN ls eN e0 ls.reverse guided guided') (sigma : ℝ) (numeig : ℕ) :
    SameOutcome (SwappedRun (fun u => !u) S gmax e0 eN ls dgx eigh guided onlyG opt ks)
      (radSimIj ijExact dgx argsort eigh vecs guided S gmax onlyG opt ks sigma numeig)
      (radSimIj ijExact dgx argsort eigh vecs guided' S.turned gmax onlyG opt ks sigma numeig) :=
  radSim_swapped _ argsort eigh vecs guided guided' S S.turned.layers gmax onlyG opt e0 eN eN e0 ls ls.reverse List.reverse
    (turned_mapM eff_error (fun _ _ => rfl) S) (turned_mapM epsInv_error (fun _ _ => rfl) S) hclad
    ((turned_clads S).trans (by rw [hclad]; rfl)) hst
    (fun eff h => turned_stack (mapM_ok _ _ _ h).1 (hst eff h)) ks dgx sigma numeig hg
    (fun Es _ hE k planes b b' hb hb' hsb => radAt_turned argsort hs eigh vecs he hp e0 eN ls hne hd h0 hN hl (S.gvec gmax) k Es
      hE b b' hb hb' hsb planes sigma numeig)

/-- **C132 (upside down, frequencies).** The frequencies without losses. -/
theorem C132_frequencies (argsort : List ℝ → List ℕ) (eigh : ∀ n, Matrix (Fin n) (Fin n) ℂ → Fin n → ℝ)
    (he : SortedEigh eigh) (guided guided' : GuidedSolver) (S : GmeStruct) (gmax : ℝ) (onlyG : Bool)
    (opt : String) (e0 eN : ℝ) (ls : List (ℝ × ℝ)) (hne : ls ≠ []) (hd : ∀ l ∈ ls, 0 ≤ l.2) (h0 : 0 < e0) (hN : 0 < eN)
    (hl : ∀ l ∈ ls, l.1 ≠ 0)
    (hst : ∀ eff, S.layers.mapM (GmeLay.eff opt) = .ok eff →
      (S.layers.map GmeLay.pos).zip eff = slabStack e0 eN ls) (ks : List R2) (dgx : ℝ)
    (hg : SameSlabModes (S.gvec gmax) ks dgx e0 eN ls eN e0 ls.reverse guided guided') (sigma : ℝ) (numeig : ℕ) :
    gmeSimIj ijExact argsort eigh guided' S.turned gmax onlyG opt ks sigma numeig =
      gmeSimIj ijExact argsort eigh guided S gmax onlyG opt ks sigma numeig :=
  gmeSim_swapped argsort eigh guided guided' S S.turned.layers gmax onlyG opt e0 eN eN e0 ls ls.reverse List.reverse
    (turned_mapM eff_error (fun _ _ => rfl) S) (turned_mapM epsInv_error (fun _ _ => rfl) S) hst
    (fun eff h => turned_stack (mapM_ok _ _ _ h).1 (hst eff h)) ks dgx sigma numeig hg
    (fun Es _ hE k b b' hb hb' hsb => by
      obtain ⟨d, hd1, hel, -⟩ := turned_elems e0 eN ls hne hd h0 hN hl (S.gvec gmax) k Es hE b b' hb hb' hsb (fun _ => 0)
      exact eigh_phases eigh he _ _ _ _ b b' hsb d hd1 hel)

/-- **C132 (subdivision).** A structure and the structure with one layer written as two layers of the same material and pattern:
the same frequencies, channels, losses and radiated powers, as in `C132_upside_down` with the claddings in place. -/
theorem C132_subdivision (argsort : List ℝ → List ℕ) (hs : ∀ l, IsArgsort l (argsort l))
    (eigh : ∀ n, Matrix (Fin n) (Fin n) ℂ → Fin n → ℝ) (vecs : ∀ n, Matrix (Fin n) (Fin n) ℂ → Matrix (Fin n) (Fin n) ℂ)
    (he : SortedEigh eigh) (hp : EighPair eigh vecs) (guided guided' : GuidedSolver) (S : GmeStruct) (gmax : ℝ) (onlyG : Bool)
    (opt : String) (e0 eN e d1 d2 : ℝ) (l1 l2 : List (ℝ × ℝ)) (hd1 : 0 ≤ d1) (hd2 : 0 ≤ d2) (h0 : 0 < e0) (hN : 0 < eN)
    (hl : ∀ l ∈ l1 ++ (e, d1 + d2) :: l2, l.1 ≠ 0) (hclad : cladAvgs S = (e0, eN)) (L1 L2 : List GmeLay) (l : GmeLay)
    (hS : S.layers = L1 ++ l :: L2) (hL1 : L1.length = l1.length + 1) (hL2 : L2 ≠ [])
    (hst : ∀ eff, S.layers.mapM (GmeLay.eff opt) = .ok eff →
      (S.layers.map GmeLay.pos).zip eff = slabStack e0 eN (l1 ++ (e, d1 + d2) :: l2)) (ks : List R2) (dgx : ℝ)
    (hg : SameSlabModes (S.gvec gmax) ks dgx e0 eN (l1 ++ (e, d1 + d2) :: l2) e0 eN (l1 ++ (e, d1) :: (e, d2) :: l2)
      guided guided') (sigma : ℝ) (numeig : ℕ) :
    SameOutcome (SwappedRun id S gmax e0 eN (l1 ++ (e, d1 + d2) :: l2) dgx eigh guided onlyG opt ks)
      (radSimIj ijExact dgx argsort eigh vecs guided S gmax onlyG opt ks sigma numeig)
      (radSimIj ijExact dgx argsort eigh vecs guided' (S.cut L1 l L2 d1 d2) gmax onlyG opt ks sigma numeig) :=
  radSim_swapped _ argsort eigh vecs guided guided' S (S.cut L1 l L2 d1 d2).layers gmax onlyG opt e0 eN e0 eN _ _
    (twiceAt L1.length) (cut_mapM (fun _ _ => rfl) hS d1 d2) (cut_mapM (fun _ _ => rfl) hS d1 d2) hclad
    ((cut_clads hS d1 d2 (by rintro rfl; simp at hL1) hL2).trans hclad) hst
    (fun eff h => cut_stack hS (mapM_ok _ _ _ h).1 hL1 (hst eff h)) ks dgx sigma numeig hg
    (fun Es _ hE k planes b b' hb hb' hsb => by
      rw [hL1]
      exact radAt_split argsort hs eigh vecs he hp e0 eN e d1 d2 l1 l2 hd1 hd2 h0 hN hl (S.gvec gmax) k Es
        hE b b' hb hb' hsb planes sigma numeig)

/-- **C132 (subdivision, frequencies).** -/
theorem C132_subdivision_frequencies (argsort : List ℝ → List ℕ) (eigh : ∀ n, Matrix (Fin n) (Fin n) ℂ → Fin n → ℝ)
    (he : SortedEigh eigh) (guided guided' : GuidedSolver) (S : GmeStruct) (gmax : ℝ) (onlyG : Bool)
    (opt : String) (e0 eN e d1 d2 : ℝ) (l1 l2 : List (ℝ × ℝ)) (hd1 : 0 ≤ d1) (hd2 : 0 ≤ d2) (h0 : 0 < e0) (hN : 0 < eN)
    (hl : ∀ l ∈ l1 ++ (e, d1 + d2) :: l2, l.1 ≠ 0) (L1 L2 : List GmeLay) (l : GmeLay)
    (hS : S.layers = L1 ++ l :: L2) (hL1 : L1.length = l1.length + 1)
    (hst : ∀ eff, S.layers.mapM (GmeLay.eff opt) = .ok eff →
      (S.layers.map GmeLay.pos).zip eff = slabStack e0 eN (l1 ++ (e, d1 + d2) :: l2)) (ks : List R2) (dgx : ℝ)
    (hg : SameSlabModes (S.gvec gmax) ks dgx e0 eN (l1 ++ (e, d1 + d2) :: l2) e0 eN (l1 ++ (e, d1) :: (e, d2) :: l2)
      guided guided') (sigma : ℝ) (numeig : ℕ) :
    gmeSimIj ijExact argsort eigh guided' (S.cut L1 l L2 d1 d2) gmax onlyG opt ks sigma numeig =
      gmeSimIj ijExact argsort eigh guided S gmax onlyG opt ks sigma numeig :=
  gmeSim_swapped argsort eigh guided guided' S (S.cut L1 l L2 d1 d2).layers gmax onlyG opt e0 eN e0 eN _ _
    (twiceAt L1.length) (cut_mapM (fun _ _ => rfl) hS d1 d2) (cut_mapM (fun _ _ => rfl) hS d1 d2) hst
    (fun eff h => cut_stack hS (mapM_ok _ _ _ h).1 hL1 (hst eff h)) ks dgx sigma numeig hg
    (fun Es _ hE k b b' hb hb' hsb => by
      rw [hL1]
      obtain ⟨hel, -⟩ := split_elems e0 eN e d1 d2 l1 l2 hd1 hd2 h0 hN hl (S.gvec gmax) k Es hE b b' hb hb' hsb (fun _ => 0)
      exact eigh_phases eigh he _ _ _ _ b b' hsb (fun _ => 1) (fun _ => by simp) hel)

/-! ### Branches of guided modes -/

theorem branch_sameBasis (br : List (Pol × (ℝ → Option ℝ))) (dgx e0 eN e0' eN' : ℝ) (ls ls' : List (ℝ × ℝ))
    (stack stack' : List (LPos × ℝ)) (gvec ks : List R2) (ik : ℕ) (b b' : List (BasisEl gvec.length))
    (h : branchGuided br dgx e0 eN ls stack gvec ks ik = .ok b)
    (h' : branchGuided br dgx e0' eN' ls' stack' gvec ks ik = .ok b') : SameBasis b b' := by
  cases h
  cases h'
  unfold SameBasis
  refine List.rel_flatMap (R := Eq) (List.forall₂_eq_eq_eq ▸ rfl) ?_
  rintro n _ rfl
  refine List.rel_filterMap (R := Eq) ?_ (List.forall₂_eq_eq_eq ▸ rfl)
  rintro i _ rfl
  simp only
  cases (br.getD n (.te, fun _ => none)).2
    (√((gvec[i].1 + ((ks.getD ik 0).1 + dgx)) ^ 2 + (gvec[i].2 + (ks.getD ik 0).2) ^ 2)) with
  | none => exact .none
  | some om =>
    refine .some ⟨rfl, rfl, ?_, ?_⟩
    · rw [(normState_fields _ _ _ _ _ _ _ _).1, (normState_fields _ _ _ _ _ _ _ _).1]
    · rw [(normState_fields _ _ _ _ _ _ _ _).2.2.2, (normState_fields _ _ _ _ _ _ _ _).2.2.2]

theorem branch_same (br : List (Pol × (ℝ → Option ℝ))) (dgx e0 eN e0' eN' : ℝ) (ls ls' : List (ℝ × ℝ))
    (h : RootBranches br e0 eN ls) (h' : RootBranches br e0' eN' ls') (gvec ks : List R2) :
    SameSlabModes gvec ks dgx e0 eN ls e0' eN' ls' (branchGuided br dgx e0 eN ls) (branchGuided br dgx e0' eN' ls') := by
  intro ik hik
  refine Or.inr ⟨_, _, rfl, rfl, ?_, ?_, branch_sameBasis br dgx e0 eN e0' eN' ls ls' (slabStack e0 eN ls)
    (slabStack e0' eN' ls') gvec ks ik _ _ rfl rfl⟩
  · rw [← getD_of_len (d := 0) hik]
    exact branch_basis h dgx (slabStack e0 eN ls) gvec ks ik _ rfl
  · rw [← getD_of_len (d := 0) hik]
    exact branch_basis h' dgx (slabStack e0' eN' ls') gvec ks ik _ rfl

/-- **C132 (branches).** With guided modes from branches `omega(|g|)` of roots of the dispersion relation. -/
theorem C132_branches (argsort : List ℝ → List ℕ) (hs : ∀ l, IsArgsort l (argsort l))
    (eigh : ∀ n, Matrix (Fin n) (Fin n) ℂ → Fin n → ℝ) (vecs : ∀ n, Matrix (Fin n) (Fin n) ℂ → Matrix (Fin n) (Fin n) ℂ)
    (he : SortedEigh eigh) (hp : EighPair eigh vecs) (S : GmeStruct) (gmax : ℝ) (onlyG : Bool)
    (opt : String) (e0 eN : ℝ) (ls : List (ℝ × ℝ)) (hne : ls ≠ []) (hd : ∀ l ∈ ls, 0 ≤ l.2) (h0 : 0 < e0) (hN : 0 < eN)
    (hl : ∀ l ∈ ls, l.1 ≠ 0) (hclad : cladAvgs S = (e0, eN))
    (hst : ∀ eff, S.layers.mapM (GmeLay.eff opt) = .ok eff →
      (S.layers.map GmeLay.pos).zip eff = slabStack e0 eN ls) (ks : List R2) (dgx : ℝ)
    (br : List (Pol × (ℝ → Option ℝ))) (hbr : RootBranches br e0 eN ls) (sigma : ℝ) (numeig : ℕ) :
    SameOutcome (SwappedRun (fun u => !u) S gmax e0 eN ls dgx eigh (branchGuided br dgx e0 eN ls) onlyG opt ks)
      (radSimIj ijExact dgx argsort eigh vecs (branchGuided br dgx e0 eN ls) S gmax onlyG opt ks sigma numeig)
      (radSimIj ijExact dgx argsort eigh vecs (branchGuided br dgx eN e0 ls.reverse) S.turned gmax onlyG opt ks sigma numeig) :=
  C132_upside_down argsort hs eigh vecs he hp _ _ S gmax onlyG opt e0 eN ls hne hd h0 hN hl hclad hst ks dgx
    (branch_same br dgx e0 eN eN e0 ls ls.reverse hbr
      (fun p hp g om h => slabRoot_flip hne h0.ne' hN.ne' hl (hbr p hp g om h).choose_spec) _ ks) sigma numeig

/-- **C132 (branches, subdivision).** -/
theorem C132_branches_subdivision (argsort : List ℝ → List ℕ) (hs : ∀ l, IsArgsort l (argsort l))
    (eigh : ∀ n, Matrix (Fin n) (Fin n) ℂ → Fin n → ℝ) (vecs : ∀ n, Matrix (Fin n) (Fin n) ℂ → Matrix (Fin n) (Fin n) ℂ)
    (he : SortedEigh eigh) (hp : EighPair eigh vecs) (S : GmeStruct) (gmax : ℝ) (onlyG : Bool)
    (opt : String) (e0 eN e d1 d2 : ℝ) (l1 l2 : List (ℝ × ℝ)) (hd1 : 0 ≤ d1) (hd2 : 0 ≤ d2) (h0 : 0 < e0) (hN : 0 < eN)
    (hl : ∀ l ∈ l1 ++ (e, d1 + d2) :: l2, l.1 ≠ 0) (hclad : cladAvgs S = (e0, eN)) (L1 L2 : List GmeLay) (l : GmeLay)
    (hS : S.layers = L1 ++ l :: L2) (hL1 : L1.length = l1.length + 1) (hL2 : L2 ≠ [])
    (hst : ∀ eff, S.layers.mapM (GmeLay.eff opt) = .ok eff →
      (S.layers.map GmeLay.pos).zip eff = slabStack e0 eN (l1 ++ (e, d1 + d2) :: l2)) (ks : List R2) (dgx : ℝ)
    (br : List (Pol × (ℝ → Option ℝ))) (hbr : RootBranches br e0 eN (l1 ++ (e, d1 + d2) :: l2)) (sigma : ℝ) (numeig : ℕ) :
    SameOutcome (SwappedRun id S gmax e0 eN (l1 ++ (e, d1 + d2) :: l2) dgx eigh
        (branchGuided br dgx e0 eN (l1 ++ (e, d1 + d2) :: l2)) onlyG opt ks)
      (radSimIj ijExact dgx argsort eigh vecs (branchGuided br dgx e0 eN (l1 ++ (e, d1 + d2) :: l2)) S gmax onlyG opt ks sigma
        numeig)
      (radSimIj ijExact dgx argsort eigh vecs (branchGuided br dgx e0 eN (l1 ++ (e, d1) :: (e, d2) :: l2))
        (S.cut L1 l L2 d1 d2) gmax onlyG opt ks sigma numeig) :=
  C132_subdivision argsort hs eigh vecs he hp _ _ S gmax onlyG opt e0 eN e d1 d2 l1 l2 hd1 hd2 h0 hN hl hclad L1 L2 l hS hL1
    hL2 hst ks dgx (branch_same br dgx e0 eN e0 eN _ _ hbr
      (fun p hp g om h => slabRoot_split h0.ne' hN.ne' hl (hbr p hp g om h).choose_spec) _ ks) sigma numeig

/-! ### Examples -/

/-- The asymmetric slab with a hole, upside down: the claddings have permittivities 3 and 1. -/
example (argsort : List ℝ → List ℕ) (hs : ∀ l, IsArgsort l (argsort l)) (gmax : ℝ) (ks : List R2) (numeig : ℕ) :
    ∃ eigh vecs, SortedEigh eigh ∧ EighPair eigh vecs ∧
      (asymStruct 0.3).turned.layers.map GmeLay.epsB = [1, 5, 3] ∧
      SameOutcome (SwappedRun (fun u => !u) (asymStruct 0.3) gmax 3 1 [(5, 7 * Real.pi / 12)] 1e-15 eigh
          (branchGuided asymBranch 1e-15 3 1 [(5, 7 * Real.pi / 12)]) false "background" ks)
        (radSimIj ijExact 1e-15 argsort eigh vecs (branchGuided asymBranch 1e-15 3 1 [(5, 7 * Real.pi / 12)]) (asymStruct 0.3)
          gmax false "background" ks 0 numeig)
        (radSimIj ijExact 1e-15 argsort eigh vecs (branchGuided asymBranch 1e-15 1 3 [(5, 7 * Real.pi / 12)])
          (asymStruct 0.3).turned gmax false "background" ks 0 numeig) := by
  obtain ⟨eigh, vecs, he, hp⟩ := sortedPair_exists
  exact ⟨eigh, vecs, he, hp, rfl, C132_branches argsort hs eigh vecs he hp (asymStruct 0.3) gmax false "background" 3 1
    [(5, 7 * Real.pi / 12)] (by simp) (by simp; positivity) (by norm_num) one_pos (by simp) rfl (asym_stack _) ks 1e-15
    asymBranch asym_roots 0 numeig⟩

/-- The asymmetric slab with a hole, cut at one third. -/
example (argsort : List ℝ → List ℕ) (hs : ∀ l, IsArgsort l (argsort l)) (gmax : ℝ) (ks : List R2) (numeig : ℕ) :
    ∃ (S' : GmeStruct) (guided' : GuidedSolver) (eigh : _) (vecs : _), SortedEigh eigh ∧ EighPair eigh vecs ∧
      S'.layers.map GmeLay.pos = [.lower, .inner (7 * Real.pi / 36), .inner (7 * Real.pi / 18), .upper] ∧
      S'.layers.map GmeLay.epsAvg = [3, 4, 4, 1] ∧
      SameOutcome (SwappedRun id (asymStruct 0.3) gmax 3 1 [(5, 7 * Real.pi / 36 + 7 * Real.pi / 18)] 1e-15 eigh
          (branchGuided asymBranch 1e-15 3 1 [(5, 7 * Real.pi / 36 + 7 * Real.pi / 18)]) false "background" ks)
        (radSimIj ijExact 1e-15 argsort eigh vecs
          (branchGuided asymBranch 1e-15 3 1 [(5, 7 * Real.pi / 36 + 7 * Real.pi / 18)]) (asymStruct 0.3)
          gmax false "background" ks 0 numeig)
        (radSimIj ijExact 1e-15 argsort eigh vecs guided' S' gmax false "background" ks 0 numeig) := by
  obtain ⟨eigh, vecs, he, hp⟩ := sortedPair_exists
  have hpi : 7 * Real.pi / 12 = 7 * Real.pi / 36 + 7 * Real.pi / 18 := by ring
  have h := C132_branches_subdivision argsort hs eigh vecs he hp (asymStruct 0.3) gmax false "background" 3 1 5
    (7 * Real.pi / 36) (7 * Real.pi / 18) [] [] (by positivity) (by positivity) (by norm_num) one_pos (by simp) rfl
    [⟨.lower, 3, 3, none, []⟩] [⟨.upper, 1, 1, none, []⟩] _ rfl rfl (by simp)
    (by rw [← hpi]; exact asym_stack _) ks 1e-15
    asymBranch (by rw [← hpi]; exact asym_roots) 0 numeig
  exact ⟨_, _, eigh, vecs, he, hp, rfl, rfl, h⟩

end Legume
