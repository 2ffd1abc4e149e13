import Mathlib.Tactic.Ring
import Mathlib.Tactic.Linarith
import Mathlib.Tactic.FieldSimp
import Mathlib.Algebra.BigOperators.Group.List.Basic
import Verif.Model.Structure
import Verif.Spec.Structure

/-!
# Helper lemmas about the structure state machine
-/
set_option linter.unusedSectionVars false

namespace Legume

open Spec

variable {K : Type} [Field K] [LinearOrder K]

/-- Interval of a layer. -/
def Layer.iv (l : Layer K) : K × K := (l.zMin, l.zMax)

/-- Everything in a layer that `add_shape` must not touch. -/
def Layer.frame (l : Layer K) : K × K × K × K × K := (l.zMin, l.zMax, l.zMid, l.d, l.epsB)

theorem push_frame (lat : Lat K) (l : Layer K) (s : Shape K) : (l.push lat s).frame = l.frame := rfl

theorem addShapeLoop_frame (lat : Lat K) (ss : List (Option (Shape K))) (l : Layer K) :
    (l.addShapeLoop lat ss).1.frame = l.frame := by
  induction ss generalizing l with
  | nil => rfl
  | cons a ss ih =>
    cases a with
    | none => rfl
    | some s => simp only [Layer.addShapeLoop]; rw [ih]; rfl

theorem addShape_frame (lat : Lat K) (l : Layer K) (a : ShapeArg K) :
    (l.addShape lat a).1.frame = l.frame := by
  cases a with
  | single s => exact addShapeLoop_frame lat _ l
  | many ss => exact addShapeLoop_frame lat _ l
  | notIterable => rfl

theorem frame_iv {l l' : Layer K} (h : l.frame = l'.frame) : l.iv = l'.iv := by
  simp only [Layer.frame, Prod.mk.injEq] at h
  simp [Layer.iv, h.1, h.2.1]

theorem frame_d {l l' : Layer K} (h : l.frame = l'.frame) : l.d = l'.d := by
  simp only [Layer.frame, Prod.mk.injEq] at h; exact h.2.2.2.1

theorem frame_epsB {l l' : Layer K} (h : l.frame = l'.frame) : l.epsB = l'.epsB := by
  simp only [Layer.frame, Prod.mk.injEq] at h; exact h.2.2.2.2

/-- The weighted-average formula for one layer. -/
def Layer.AvgOK (lat : Lat K) (l : Layer K) : Prop :=
  l.epsAvg = l.epsB + (l.shapes.map fun s => (s.eps - l.epsB) * s.area / lat.ecArea).sum

theorem push_avg (lat : Lat K) (l : Layer K) (s : Shape K) (h : l.AvgOK lat) :
    (l.push lat s).AvgOK lat := by
  simp only [Layer.AvgOK, Layer.push, List.map_append, List.sum_append, List.map_cons,
    List.map_nil, List.sum_cons, List.sum_nil] at *
  rw [h]; ring

theorem addShapeLoop_avg (lat : Lat K) (ss : List (Option (Shape K))) (l : Layer K)
    (h : l.AvgOK lat) : (l.addShapeLoop lat ss).1.AvgOK lat := by
  induction ss generalizing l with
  | nil => exact h
  | cons a ss ih =>
    cases a with
    | none => exact h
    | some s => exact ih _ (push_avg lat l s h)

theorem addShape_avg (lat : Lat K) (l : Layer K) (a : ShapeArg K) (h : l.AvgOK lat) :
    (l.addShape lat a).1.AvgOK lat := by
  cases a with
  | single s => exact addShapeLoop_avg lat _ l h
  | many ss => exact addShapeLoop_avg lat _ l h
  | notIterable => exact h

/-- The frames of the whole structure: what shapes can never change. -/
structure SameFrame (s t : PhC K) : Prop where
  c0 : s.clad0.frame = t.clad0.frame
  c1 : s.clad1.frame = t.clad1.frame
  ls : s.layers.map Layer.frame = t.layers.map Layer.frame

theorem set_map_eq {α β : Type} (f : α → β) (l : List α) (i : Nat) (a x : α)
    (h : l[i]? = some x) (hf : f a = f x) : (l.set i a).map f = l.map f := by
  induction l generalizing i with
  | nil => simp
  | cons b l ih =>
    cases i with
    | zero => simp at h; subst h; simp [hf]
    | succ i => simp at h; simp [ih i h]

theorem addShape_sameFrame (s : PhC K) (arg : ShapeArg K) (layer : Int) (c : CladArg) :
    SameFrame (s.addShape arg layer c).1 s := by
  have lower : SameFrame { s with clad0 := (s.clad0.addShape s.lat arg).1 } s :=
    ⟨addShape_frame _ _ _, rfl, rfl⟩
  have upper : SameFrame { s with clad1 := (s.clad1.addShape s.lat arg).1 } s :=
    ⟨rfl, addShape_frame _ _ _, rfl⟩
  have same : SameFrame s s := ⟨rfl, rfl, rfl⟩
  unfold PhC.addShape
  cases c with
  | int n => dsimp only; split_ifs <;> assumption
  | str n => dsimp only; split_ifs <;> assumption
  | none =>
    dsimp only
    split_ifs
    · assumption
    · split
      · assumption
      · split
        · assumption
        · rename_i l hl
          exact ⟨rfl, rfl, set_map_eq _ _ _ _ _ hl (addShape_frame _ _ _)⟩

theorem addShape_qws (s : PhC K) (arg : ShapeArg K) (layer : Int) (c : CladArg) :
    (s.addShape arg layer c).1.qws = s.qws := by
  unfold PhC.addShape
  cases c with
  | int n => dsimp only; split_ifs <;> rfl
  | str n => dsimp only; split_ifs <;> rfl
  | none =>
    dsimp only
    split_ifs
    · rfl
    · split
      · rfl
      · split <;> rfl

theorem step_lat (s : PhC K) (op : Op K) : (s.step op).1.lat = s.lat := by
  cases op with
  | addLayer d e t =>
    simp only [PhC.step, PhC.addLayer]; split_ifs <;> rfl
  | addQW q => simp only [PhC.step, PhC.addQW]; split_ifs <;> rfl
  | addShape a l c =>
    simp only [PhC.step, PhC.addShape]
    cases c with
    | int n => dsimp only; split_ifs <;> rfl
    | str n => dsimp only; split_ifs <;> rfl
    | none =>
      dsimp only
      split_ifs
      · rfl
      · split
        · rfl
        · split <;> rfl

/-- Thickness contributed by one call. -/
def acceptedD : Op K → Option K
  | .addLayer d _ t => if t.toLower = "shapes" then some d else none
  | _ => none

/-! ### Tiles -/

theorem Tiles.snoc {a b c : K} {l : List (K × K)} (h : Tiles a l b) : Tiles a (l ++ [(b, c)]) c := by
  induction h with
  | nil a => exact .cons (.nil _)
  | cons _ ih => exact .cons ih

theorem Tiles.last {a b : K} {l : List (K × K)} (h : Tiles a l b) :
    b = (match l.getLast? with | none => a | some i => i.2) := by
  induction h with
  | nil a => rfl
  | @cons a b c l h ih =>
    cases l with
    | nil => simpa using ih
    | cons i l =>
      rw [ih]
      simp [List.getLast?_cons]

/-- The geometric invariant. -/
structure Geo (s : PhC K) (ds : List K) : Prop where
  c0min : s.clad0.zMin = -zInf
  c0max : s.clad0.zMax = 0
  c1max : s.clad1.zMax = zInf
  tiles : Tiles 0 (s.layers.map Layer.iv) s.clad1.zMin
  ds_eq : s.layers.map Layer.d = ds
  ds_iv : s.layers.map (fun l => l.zMax - l.zMin) = ds

theorem geo_init (lat : Lat K) (el eu : K) : Geo (PhC.init lat el eu) [] := by
  constructor <;> simp [PhC.init, mkShapesLayer]
  exact .nil _

theorem geo_sameFrame {s t : PhC K} {ds : List K} (h : SameFrame s t) (g : Geo t ds) : Geo s ds := by
  have h0 := h.c0; have h1 := h.c1; have hl := h.ls
  simp only [Layer.frame, Prod.mk.injEq] at h0 h1
  have mp : ∀ {β : Type} (f : K × K × K × K × K → β),
      s.layers.map (fun l => f l.frame) = t.layers.map (fun l => f l.frame) := by
    intro β f
    have := congrArg (List.map f) hl
    simpa [List.map_map, Function.comp_def] using this
  constructor
  · rw [h0.1, g.c0min]
  · rw [h0.2.1, g.c0max]
  · rw [h1.2.1, g.c1max]
  · rw [h1.1]
    have := mp (fun f => (f.1, f.2.1))
    simp only [Layer.frame] at this
    have e : ∀ u : PhC K, u.layers.map Layer.iv = u.layers.map (fun l => (l.zMin, l.zMax)) :=
      fun _ => rfl
    rw [e, this, ← e]; exact g.tiles
  · rw [← g.ds_eq]; exact mp (fun f => f.2.2.2.1)
  · rw [← g.ds_iv]; exact mp (fun f => f.2.1 - f.1)

theorem geo_zMin {s : PhC K} {ds : List K} (g : Geo s ds) :
    s.nextZ = s.clad1.zMin := by
  have := Legume.Tiles.last g.tiles
  rw [PhC.nextZ, this, List.getLast?_map]
  cases s.layers.getLast? <;> simp [Layer.iv]

theorem geo_step (s : PhC K) (ds : List K) (g : Geo s ds) (op : Op K) :
    Geo (s.step op).1 (ds ++ (acceptedD op).toList) := by
  cases op with
  | addLayer d e t =>
    simp only [PhC.step, PhC.addLayer, acceptedD]
    rw [geo_zMin g]
    by_cases h : t.toLower = "shapes"
    · simp only [h, if_true, Option.toList]
      constructor
      · exact g.c0min
      · exact g.c0max
      · exact g.c1max
      · simp only [List.map_append, List.map_cons, List.map_nil]
        exact Tiles.snoc g.tiles
      · simp [g.ds_eq, mkShapesLayer]
      · simp [g.ds_iv, mkShapesLayer]
    · simp only [h, if_false, Option.toList, List.append_nil]
      split_ifs <;> exact g
  | addQW q =>
    simp only [PhC.step, PhC.addQW, acceptedD, Option.toList, List.append_nil]
    split_ifs
    · exact g
    · exact ⟨g.c0min, g.c0max, g.c1max, g.tiles, g.ds_eq, g.ds_iv⟩
  | addShape a l c =>
    simp only [PhC.step, acceptedD, Option.toList, List.append_nil]
    exact geo_sameFrame (addShape_sameFrame s a l c) g

theorem geo_run (s : PhC K) (ds : List K) (g : Geo s ds) (ops : List (Op K)) :
    Geo (s.run ops) (ds ++ ops.filterMap acceptedD) := by
  induction ops generalizing s ds with
  | nil => simpa [PhC.run] using g
  | cons op ops ih =>
    have := ih _ _ (geo_step s ds g op)
    simp only [PhC.run, List.foldl_cons] at *
    convert this using 1
    cases h : acceptedD op <;> simp [h]

/-! ### Averages -/

/-- Every region of the structure has the right average permittivity. -/
def AllAvg (s : PhC K) : Prop := ∀ l ∈ s.layers ++ [s.clad0, s.clad1], l.AvgOK s.lat

theorem mem_regions {s : PhC K} {l : Layer K} :
    l ∈ s.layers ++ [s.clad0, s.clad1] ↔ l ∈ s.layers ∨ l = s.clad0 ∨ l = s.clad1 := by
  simp

theorem mkShapesLayer_avg (lat : Lat K) (a b e : K) : (mkShapesLayer a b e).AvgOK lat := by
  simp [Layer.AvgOK, mkShapesLayer]

theorem avg_step (s : PhC K) (h : AllAvg s) (op : Op K) : AllAvg (s.step op).1 := by
  have h' : ∀ l, l ∈ s.layers ∨ l = s.clad0 ∨ l = s.clad1 → l.AvgOK s.lat :=
    fun l hl => h l (mem_regions.2 hl)
  intro l hl
  rw [step_lat]
  rw [mem_regions] at hl
  cases op with
  | addLayer d e t =>
    simp only [PhC.step, PhC.addLayer] at hl
    split_ifs at hl
    · simp only [List.mem_append, List.mem_singleton] at hl
      rcases hl with (hl | hl) | hl | hl
      · exact h' _ (.inl hl)
      · rw [hl]; exact mkShapesLayer_avg _ _ _ _
      · exact h' _ (.inr (.inl hl))
      · rw [hl]; exact h' s.clad1 (.inr (.inr rfl))
    · exact h' _ hl
    · exact h' _ hl
  | addQW q =>
    simp only [PhC.step, PhC.addQW] at hl
    split_ifs at hl <;> exact h' _ hl
  | addShape a i c =>
    have low : ∀ l, (l ∈ s.layers ∨ l = (s.clad0.addShape s.lat a).1 ∨ l = s.clad1) →
        l.AvgOK s.lat := by
      rintro l (hl | hl | hl)
      · exact h' _ (.inl hl)
      · rw [hl]; exact addShape_avg _ _ _ (h' _ (.inr (.inl rfl)))
      · exact h' _ (.inr (.inr hl))
    have up : ∀ l, (l ∈ s.layers ∨ l = s.clad0 ∨ l = (s.clad1.addShape s.lat a).1) →
        l.AvgOK s.lat := by
      rintro l (hl | hl | hl)
      · exact h' _ (.inl hl)
      · exact h' _ (.inr (.inl hl))
      · rw [hl]; exact addShape_avg _ _ _ (h' _ (.inr (.inr rfl)))
    simp only [PhC.step, PhC.addShape] at hl
    cases c with
    | int n => dsimp only at hl; split_ifs at hl <;> first | exact low _ hl | exact up _ hl | exact h' _ hl
    | str n => dsimp only at hl; split_ifs at hl <;> first | exact low _ hl | exact up _ hl | exact h' _ hl
    | none =>
      dsimp only at hl
      split_ifs at hl
      · exact h' _ hl
      · revert hl
        split
        · exact h' _
        · split
          · exact h' _
          · rename_i lx hlx
            rintro (hl | hl | hl)
            · rcases List.mem_or_eq_of_mem_set hl with hl | hl
              · exact h' _ (.inl hl)
              · rw [hl]; exact addShape_avg _ _ _ (h' _ (.inl (List.mem_of_getElem? hlx)))
            · exact h' _ (.inr (.inl hl))
            · exact h' _ (.inr (.inr hl))

theorem avg_run (s : PhC K) (h : AllAvg s) (ops : List (Op K)) : AllAvg (s.run ops) := by
  induction ops generalizing s with
  | nil => exact h
  | cons op ops ih => exact ih _ (avg_step s h op)

theorem run_lat (s : PhC K) (ops : List (Op K)) : (s.run ops).lat = s.lat := by
  induction ops generalizing s with
  | nil => rfl
  | cons op ops ih =>
    have := ih (s.step op).1
    rw [step_lat] at this
    exact this

end Legume
