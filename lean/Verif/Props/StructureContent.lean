import Verif.Props.Structure

/-!
# Property C61: what each region of the structure contains
-/
set_option linter.unusedSectionVars false

namespace Legume

open Spec

variable {K : Type} [Field K] [LinearOrder K]

/-- The region (0 = lower cladding, `1..n` = layers, `n+1` = upper cladding) that the
arguments `layer` and `cladding` of `add_shape` name in a structure with `n` layers, if any:
an explicit cladding wins; layers may be counted from the end with negative numbers. -/
def addressed (n : Nat) (layer : Int) : CladArg → Option Nat
  | .int c => if c = 0 then some 0 else if c = 1 then some (n + 1) else none
  | .str c => if c = "l" then some 0 else if c = "u" then some (n + 1) else none
  | .none =>
    if -(n : Int) ≤ layer ∧ layer < n then some ((layer % n).toNat + 1) else none

/-- The shapes which a call actually hands over: all of them, or those before the first bad
element. -/
def handedOver : ShapeArg K → List (Shape K)
  | .single s => [s]
  | .many l => goodPrefix l
  | .notIterable => []

/-- Whether the argument consists of shapes only. -/
def allShapes : ShapeArg K → Prop
  | .single _ => True
  | .many l => ∀ o ∈ l, o ≠ none
  | .notIterable => False

/-- The log of the structure's content kept by an independent bookkeeper who only sees the
calls. -/
def bookStep (R : List (Rec K (Shape K))) : Op K → List (Rec K (Shape K))
  | .addLayer _ e t =>
    if t.toLower = "shapes" then R.insertIdx (R.length - 1) ⟨e, []⟩ else R
  | .addQW _ => R
  | .addShape arg layer c =>
    match addressed (R.length - 2) layer c with
    | none => R
    | some j => R.modify j fun r => { r with shapes := r.shapes ++ handedOver arg }

/-- The content of the structure as the object reports it. -/
def PhC.recs (s : PhC K) : List (Rec K (Shape K)) := s.regions.map fun r => ⟨r.epsB, r.shapes⟩

theorem addShapeLoop_shapes (lat : Lat K) (ss : List (Option (Shape K))) (l : Layer K) :
    (l.addShapeLoop lat ss).1.shapes = l.shapes ++ goodPrefix ss ∧
    (l.addShapeLoop lat ss).1.epsB = l.epsB ∧
    ((l.addShapeLoop lat ss).2 = .ok () ↔ ∀ o ∈ ss, o ≠ none) := by
  induction ss generalizing l with
  | nil => simp [Layer.addShapeLoop, goodPrefix]
  | cons a ss ih =>
    cases a with
    | none => simp [Layer.addShapeLoop, goodPrefix]
    | some s =>
      obtain ⟨h1, h2, h3⟩ := ih (l.push lat s)
      refine ⟨?_, ?_, ?_⟩
      · simp only [Layer.addShapeLoop]; rw [h1]; simp [Layer.push, goodPrefix]
      · simp only [Layer.addShapeLoop]; rw [h2]; rfl
      · simp only [Layer.addShapeLoop]; rw [h3]; simp

theorem layer_addShape_content (lat : Lat K) (l : Layer K) (arg : ShapeArg K) :
    (l.addShape lat arg).1.shapes = l.shapes ++ handedOver arg ∧
    (l.addShape lat arg).1.epsB = l.epsB ∧
    ((l.addShape lat arg).2 = .ok () ↔ allShapes arg) := by
  cases arg with
  | single s =>
    have := addShapeLoop_shapes lat [some s] l
    simpa [Layer.addShape, handedOver, allShapes, goodPrefix] using this
  | many ss => exact addShapeLoop_shapes lat ss l
  | notIterable => simp [Layer.addShape, handedOver, allShapes]

theorem addressed_layer (n : Nat) (layer : Int) (i : Nat) (h : pyIndex n layer = .ok i) :
    addressed n layer .none = some (i + 1) ∧ i < n := by
  unfold pyIndex at h
  unfold addressed
  split_ifs at h with h1 h2
  · cases h
    rw [if_pos (by omega), Int.emod_eq_of_lt h1.1 h1.2]
    exact ⟨rfl, by omega⟩
  · cases h
    rw [if_pos (by omega)]
    have : layer % (n : Int) = layer + n := by
      rw [← Int.add_emod_right, Int.emod_eq_of_lt (by omega) (by omega)]
    rw [this]
    exact ⟨rfl, by omega⟩

theorem addressed_none (n : Nat) (layer : Int)
    (h : (n : Int) ≤ layer ∨ ∃ e, pyIndex n layer = .error e) : addressed n layer .none = none := by
  unfold addressed
  dsimp only
  rw [if_neg]
  rintro ⟨h1, h2⟩
  rcases h with h | ⟨e, h⟩
  · omega
  · unfold pyIndex at h
    split_ifs at h <;> omega

theorem modify_map_regions (s : PhC K) (i : Nat) (l l' : Layer K) (h : s.layers[i]? = some l)
    (f : Rec K (Shape K) → Rec K (Shape K))
    (hf : (⟨l'.epsB, l'.shapes⟩ : Rec K (Shape K)) = f ⟨l.epsB, l.shapes⟩) :
    PhC.recs { s with layers := s.layers.set i l' } = s.recs.modify (i + 1) f := by
  have hi : i < s.layers.length := (List.getElem?_eq_some_iff.1 h).1
  simp only [PhC.recs, PhC.regions, List.map_cons, List.map_append, List.map_nil,
    List.modify_succ_cons, List.cons.injEq, true_and]
  apply List.ext_getElem?
  intro j
  rw [List.getElem?_modify]
  simp only [List.getElem?_append, List.length_map, List.length_set, List.getElem?_map,
    List.getElem?_set]
  by_cases hj : i = j
  · subst hj
    have hg : s.layers[i] = l := by
      have := List.getElem?_eq_getElem hi
      rw [h] at this; exact (Option.some.inj this).symm
    simp [hi, hf, hg]
  · simp only [hj, if_false]
    by_cases hlt : j < s.layers.length <;> simp [hlt]

theorem addShape_content (s : PhC K) (arg : ShapeArg K) (layer : Int) (c : CladArg) :
    (s.addShape arg layer c).1.recs =
      (match addressed s.layers.length layer c with
      | none => s.recs
      | some j => s.recs.modify j fun r => { r with shapes := r.shapes ++ handedOver arg }) ∧
    ((s.addShape arg layer c).2 = .ok () ↔
      (addressed s.layers.length layer c).isSome ∧ allShapes arg) := by
  have lower : PhC.recs { s with clad0 := (s.clad0.addShape s.lat arg).1 } =
      s.recs.modify 0 fun r => { r with shapes := r.shapes ++ handedOver arg } := by
    obtain ⟨h1, h2, -⟩ := layer_addShape_content s.lat s.clad0 arg
    simp [PhC.recs, PhC.regions, h1, h2]
  have upper : PhC.recs { s with clad1 := (s.clad1.addShape s.lat arg).1 } =
      s.recs.modify (s.layers.length + 1)
        fun r => { r with shapes := r.shapes ++ handedOver arg } := by
    obtain ⟨h1, h2, -⟩ := layer_addShape_content s.lat s.clad1 arg
    simp only [PhC.recs, PhC.regions, List.map_cons, List.map_append, List.map_nil,
      List.modify_succ_cons, h1, h2]
    congr 1
    rw [List.modify_eq_set_getElem?]
    simp
  have hl := (layer_addShape_content s.lat s.clad0 arg).2.2
  have hu := (layer_addShape_content s.lat s.clad1 arg).2.2
  unfold PhC.addShape
  cases c with
  | int n =>
    dsimp only [addressed]
    by_cases h0 : n = 0
    · simp only [h0, if_true]; exact ⟨lower, by simpa using hl⟩
    · by_cases h1 : n = 1
      · simp only [h1, if_true, if_neg (by norm_num : ¬ (1 : Int) = 0)]
        exact ⟨upper, by simpa using hu⟩
      · simp [h0, h1]
  | str n =>
    dsimp only [addressed]
    by_cases h0 : n = "l"
    · simp only [h0, if_true]; exact ⟨lower, by simpa using hl⟩
    · by_cases h1 : n = "u"
      · have : ¬ (n = "l") := h0
        simp only [if_neg this, if_pos h1]
        exact ⟨upper, by simpa using hu⟩
      · simp [h0, h1]
  | none =>
    dsimp only
    by_cases h : (s.layers.length : Int) ≤ layer
    · rw [if_pos h, addressed_none _ _ (.inl h)]
      simp
    · rw [if_neg h]
      cases hp : pyIndex s.layers.length layer with
      | error e =>
        rw [addressed_none _ _ (.inr ⟨e, hp⟩)]
        simp
      | ok i =>
        obtain ⟨ha, hi⟩ := addressed_layer _ _ _ hp
        rw [ha]
        have hsi : s.layers[i]? = some s.layers[i] := List.getElem?_eq_getElem hi
        simp only [hsi]
        obtain ⟨h1, h2, h3⟩ := layer_addShape_content s.lat s.layers[i] arg
        exact ⟨modify_map_regions s i s.layers[i] _ hsi _ (by rw [h1, h2]), by simpa using h3⟩

theorem recs_length (s : PhC K) : s.recs.length = s.layers.length + 2 := by
  simp [PhC.recs, PhC.regions]

theorem recs_step (s : PhC K) (op : Op K) : (s.step op).1.recs = bookStep s.recs op := by
  cases op with
  | addLayer d e t =>
    simp only [PhC.step, PhC.addLayer, bookStep]
    by_cases h : t.toLower = "shapes"
    · simp only [if_pos h]
      rw [recs_length]
      simp only [PhC.recs, PhC.regions, List.map_cons, List.map_append, List.map_nil,
        mkShapesLayer, Nat.add_sub_cancel]
      rw [show s.layers.length + 2 - 1 = s.layers.length + 1 by omega, List.insertIdx_succ_cons]
      congr 1
      have key : ∀ (l : List (Rec K (Shape K))) (a b : Rec K (Shape K)),
          (l ++ [b]).insertIdx l.length a = l ++ [a] ++ [b] := by
        intro l a b
        induction l with
        | nil => rfl
        | cons c l ih => simp [List.insertIdx_succ_cons, ih]
      have := key (s.layers.map fun r => ⟨r.epsB, r.shapes⟩) ⟨e, []⟩ ⟨s.clad1.epsB, s.clad1.shapes⟩
      rw [List.length_map] at this
      exact this.symm
    · simp only [if_neg h]
      split_ifs <;> rfl
  | addQW q => simp only [PhC.step, PhC.addQW, bookStep]; split_ifs <;> rfl
  | addShape a l c =>
    simp only [PhC.step, bookStep]
    rw [(addShape_content s a l c).1, recs_length]
    rfl

/-- **C61 (history).** After any history of building calls the regions of the structure have
exactly the background permittivities and shapes, in order, that an independent bookkeeper
recorded from the calls: the two claddings have the constructor's permittivities, every
accepted `add_layer` appends an empty region below the upper cladding, and every `add_shape`
appends the shapes handed over to the addressed region and to no other. -/
theorem C61_content_history (lat : Lat K) (epsL epsU : K) (ops : List (Op K)) :
    (built lat epsL epsU ops).recs = ops.foldl bookStep [⟨epsL, []⟩, ⟨epsU, []⟩] := by
  have key : ∀ (ops : List (Op K)) (s : PhC K), (s.run ops).recs = ops.foldl bookStep s.recs := by
    intro ops
    induction ops with
    | nil => intro s; rfl
    | cons op ops ih =>
      intro s
      have : s.run (op :: ops) = (s.step op).1.run ops := rfl
      rw [this, ih, recs_step]; rfl
  exact key ops _

/-- **C61 (acceptance).** `add_shape` returns normally iff its arguments address a region of
the structure and everything handed over is a shape. -/
theorem C61_add_shape_ok_iff (s : PhC K) (arg : ShapeArg K) (layer : Int) (c : CladArg) :
    (s.addShape arg layer c).2 = .ok () ↔
      (addressed s.layers.length layer c).isSome ∧ allShapes arg :=
  (addShape_content s arg layer c).2

/-- **C61 (mid-planes).** Every region records the middle of its interval as its centre,
except the upper cladding, whose centre is not updated when it is pushed up. -/
theorem C61_z_mid [IsStrictOrderedRing K] (lat : Lat K) (epsL epsU : K) (ops : List (Op K)) :
    let s := built lat epsL epsU ops
    (∀ l ∈ s.clad0 :: s.layers, 2 * l.zMid = l.zMin + l.zMax) ∧ 2 * s.clad1.zMid = 10 ^ 10 := by
  have key : ∀ (ops : List (Op K)) (s : PhC K),
      ((∀ l ∈ s.clad0 :: s.layers, 2 * l.zMid = l.zMin + l.zMax) ∧ 2 * s.clad1.zMid = 10 ^ 10) →
      ((∀ l ∈ (s.run ops).clad0 :: (s.run ops).layers, 2 * l.zMid = l.zMin + l.zMax) ∧
        2 * (s.run ops).clad1.zMid = 10 ^ 10) := by
    intro ops
    induction ops with
    | nil => intro s h; exact h
    | cons op ops ih =>
      intro s h
      apply ih (s.step op).1
      have frame_mid : ∀ {l l' : Layer K}, l.frame = l'.frame →
          l.zMin = l'.zMin ∧ l.zMax = l'.zMax ∧ l.zMid = l'.zMid := by
        intro l l' h
        simp only [Layer.frame, Prod.mk.injEq] at h
        exact ⟨h.1, h.2.1, h.2.2.1⟩
      cases op with
      | addLayer d e t =>
        simp only [PhC.step, PhC.addLayer]
        split_ifs
        · refine ⟨?_, h.2⟩
          intro l hl
          rcases List.mem_cons.1 hl with rfl | hl
          · exact h.1 _ (List.mem_cons_self ..)
          · rcases List.mem_append.1 hl with hl | hl
            · exact h.1 _ (List.mem_cons_of_mem _ hl)
            · rw [List.mem_singleton.1 hl]
              simp only [mkShapesLayer]; ring
        · exact h
        · exact h
      | addQW q =>
        simp only [PhC.step, PhC.addQW]; split_ifs <;> exact h
      | addShape a l c =>
        have f := addShape_sameFrame s a l c
        refine ⟨?_, by rw [show ((s.step (.addShape a l c)).1).clad1.zMid = s.clad1.zMid from (frame_mid f.c1).2.2]; exact h.2⟩
        intro r hr
        have hmem : r.frame ∈ (s.clad0 :: s.layers).map Layer.frame := by
          have : ((s.step (.addShape a l c)).1.clad0 :: (s.step (.addShape a l c)).1.layers).map
              Layer.frame = (s.clad0 :: s.layers).map Layer.frame := by
            simp only [List.map_cons]
            exact congrArg₂ _ f.c0 f.ls
          rw [← this]
          exact List.mem_map_of_mem hr
        obtain ⟨r', hr', he⟩ := List.mem_map.1 hmem
        obtain ⟨e1, e2, e3⟩ := frame_mid he
        rw [← e1, ← e2, ← e3]
        exact h.1 r' hr'
  apply key ops
  constructor
  · intro l hl
    simp only [PhC.init, List.mem_singleton] at hl
    subst hl
    simp only [mkShapesLayer]; ring
  · simp only [PhC.init, mkShapesLayer, zInf]; ring

/-- Non-vacuity of C61: two layers, a shape in the first (addressed from the end), a list with
a bad element into the upper cladding, and a misaddressed call. -/
example :
    let lat : Lat ℚ := ⟨(1, 0), (0, 1), 1, fun _ => 1⟩
    let sh (e : ℚ) : Shape ℚ := ⟨e, 1 / 4, fun _ => true⟩
    ((built lat 1 2 [.addLayer 1 12 "shapes", .addLayer 1 10 "Shapes",
        .addShape (.single (sh 3)) (-2) .none,
        .addShape (.many [some (sh 4), none, some (sh 5)]) 0 (.str "u"),
        .addShape (.single (sh 6)) 2 .none]).recs.map fun r => (r.eps, r.shapes.map Shape.eps)) =
      [(1, []), (12, [3]), (10, []), (2, [4])] := by
  decide +kernel

end Legume
