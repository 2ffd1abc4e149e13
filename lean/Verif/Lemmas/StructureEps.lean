import Verif.Lemmas.Structure
import Mathlib.Algebra.Order.Ring.Defs
import Mathlib.Tactic.NormNum
import Mathlib.Tactic.Positivity

/-!
# Helper lemmas: regions, permittivity map, bounds, z_to_lind
-/
set_option linter.unusedSectionVars false

namespace Legume

open Spec

variable {K : Type} [Field K] [LinearOrder K]

/-! ### Tilings of ordered intervals -/

theorem Tiles.le_lo {a c : K} {l : List (K × K)} (h : Tiles a l c) (ho : ∀ i ∈ l, i.1 ≤ i.2) :
    a ≤ c ∧ ∀ i ∈ l, a ≤ i.1 ∧ i.2 ≤ c := by
  induction h with
  | nil a => simp
  | @cons a b c l h ih =>
    have hab : a ≤ b := ho (a, b) (by simp)
    obtain ⟨h1, h2⟩ := ih (fun i hi => ho i (by simp [hi]))
    refine ⟨hab.trans h1, ?_⟩
    intro i hi
    rcases List.mem_cons.1 hi with rfl | hi
    · exact ⟨le_rfl, h1⟩
    · exact ⟨hab.trans (h2 i hi).1, (h2 i hi).2⟩

theorem Tiles.exists_co {a c z : K} {l : List (K × K)} (h : Tiles a l c)
    (ho : ∀ i ∈ l, i.1 ≤ i.2) (h1 : a ≤ z) (h2 : z < c) :
    ∃ (j : Nat) (iv : K × K), l[j]? = some iv ∧ InCO iv z ∧
      ∀ (j' : Nat) (iv' : K × K), l[j']? = some iv' → InCO iv' z → j' = j := by
  induction h with
  | nil a => exact absurd (h1.trans_lt h2) (lt_irrefl _)
  | @cons a b c l h ih =>
    have ho' : ∀ i ∈ l, i.1 ≤ i.2 := fun i hi => ho i (by simp [hi])
    have hl := (Tiles.le_lo h ho').2
    by_cases hb : z < b
    · refine ⟨0, (a, b), rfl, ⟨h1, hb⟩, ?_⟩
      intro j' iv' hj hin
      cases j' with
      | zero => rfl
      | succ j' =>
        simp only [List.getElem?_cons_succ] at hj
        have := (hl iv' (List.mem_of_getElem? hj)).1
        exact absurd (this.trans hin.1) (not_le.2 hb)
    · obtain ⟨j, iv, hj, hin, hu⟩ := ih ho' (not_lt.1 hb) h2
      refine ⟨j + 1, iv, by simpa using hj, hin, ?_⟩
      intro j' iv' hj' hin'
      cases j' with
      | zero => simp at hj'; subst hj'; exact absurd hin'.2 hb
      | succ j' => simp at hj'; rw [hu j' iv' hj' hin']

/-! ### Boolean-mask assignment -/

theorem maskSet_eq {α : Type} (m : α → Bool) (f : α → K) (pts : List α) (old : List K)
    (h : old.length = pts.length) :
    maskSet (pts.map m) ((pts.filter m).map f) old =
      List.zipWith (fun p o => if m p then f p else o) pts old := by
  induction pts generalizing old with
  | nil => cases old <;> simp [maskSet] at *
  | cons p pts ih =>
    cases old with
    | nil => simp at h
    | cons o old =>
      have h' : old.length = pts.length := by simpa using h
      cases hm : m p <;> simp [maskSet, hm, ih old h']

theorem zipWith_noop {α : Type} (m : α → Bool) (f : α → K) (pts : List α) (old : List K)
    (h : old.length = pts.length) (hm : ∀ p ∈ pts, m p = false) :
    List.zipWith (fun p o => if m p then f p else o) pts old = old := by
  induction pts generalizing old with
  | nil => cases old <;> simp at *
  | cons p pts ih =>
    cases old with
    | nil => simp at h
    | cons o old =>
      have := ih old (by simpa using h) (fun q hq => hm q (by simp [hq]))
      simp [this, hm p (by simp)]

/-- Value which layer `l` gives to the point `p` in a call on the list `pts`. -/
def Layer.valIn (lat : Lat K) (pts : List (Pt K)) (l : Layer K) (p : Pt K) : K :=
  l.epsAt lat (lat.win ((pts.filter l.inMask).map fun p => (p.x, p.y))) (p.x, p.y)

theorem getEpsStep_eq (lat : Lat K) (pts : List (Pt K)) (old : List K) (l : Layer K)
    (h : old.length = pts.length) :
    PhC.getEpsStep lat pts old l =
      List.zipWith (fun p o => if l.inMask p then l.valIn lat pts p else o) pts old := by
  unfold PhC.getEpsStep
  dsimp only
  split_ifs with he
  · rw [zipWith_noop _ _ _ _ h]
    intro p hp
    rw [List.isEmpty_iff, List.filter_eq_nil_iff] at he
    simpa using he p hp
  · have : l.getEps lat ((pts.filter l.inMask).map fun p => (p.x, p.y)) =
        (pts.filter l.inMask).map (l.valIn lat pts) := by
      simp only [Layer.getEps, List.map_map]
      rfl
    rw [this, maskSet_eq _ _ _ _ h]

theorem zipWith_map_right {α β γ : Type} (g : α → β → γ) (f : α → β) (pts : List α) :
    List.zipWith g pts (pts.map f) = pts.map (fun p => g p (f p)) := by
  induction pts with
  | nil => rfl
  | cons p pts ih => simp [ih]

theorem getEps_fold (lat : Lat K) (pts : List (Pt K)) (L : List (Layer K)) (f : Pt K → K) :
    L.foldl (PhC.getEpsStep lat pts) (pts.map f) =
      pts.map (fun p => L.foldl (fun e l => if l.inMask p then l.valIn lat pts p else e) (f p)) := by
  induction L generalizing f with
  | nil => simp
  | cons l L ih =>
    rw [List.foldl_cons, getEpsStep_eq _ _ _ _ (by simp), zipWith_map_right, ih]
    rfl

theorem getEps_eq (s : PhC K) (pts : List (Pt K)) :
    s.getEps pts = pts.map (fun p => (s.layers ++ [s.clad0, s.clad1]).foldl
      (fun e l => if l.inMask p then l.valIn s.lat pts p else e) 0) :=
  getEps_fold _ _ _ _

theorem fold_noop {α : Type} (m : α → Bool) (v : α → K) (L : List α) (e : K)
    (h : ∀ l ∈ L, m l = false) : L.foldl (fun e l => if m l then v l else e) e = e := by
  induction L generalizing e with
  | nil => rfl
  | cons l L ih =>
    rw [List.foldl_cons, h l (by simp), if_neg (by simp)]
    exact ih e (fun l hl => h l (by simp [hl]))

theorem fold_hit {α : Type} (m : α → Bool) (v : α → K) (L : List α) (e c : K)
    (hex : e = c ∨ ∃ l ∈ L, m l = true) (h : ∀ l ∈ L, m l = true → v l = c) :
    L.foldl (fun e l => if m l then v l else e) e = c := by
  induction L generalizing e with
  | nil => rcases hex with h | ⟨l, hl, _⟩ <;> simp_all
  | cons l L ih =>
    rw [List.foldl_cons]
    apply ih
    · by_cases hm : m l = true
      · left; simp [hm, h l (by simp) hm]
      · rcases hex with h | ⟨l', hl', hm'⟩
        · left; simp [hm, h]
        · rcases List.mem_cons.1 hl' with rfl | hl'
          · exact absurd hm' hm
          · right; exact ⟨l', hl', hm'⟩
    · exact fun l hl => h l (by simp [hl])

/-! ### Values of the in-plane map -/

theorem foldl_mem {α β : Type} (S : β → Prop) (f : β → α → β) (l : List α) (b : β) (hb : S b)
    (hf : ∀ b, S b → ∀ a ∈ l, S (f b a)) : S (l.foldl f b) := by
  induction l generalizing b with
  | nil => exact hb
  | cons a l ih =>
    exact ih _ (hf b hb a (by simp)) (fun b hb a ha => hf b hb a (by simp [ha]))

theorem epsAt_mem (lat : Lat K) (l : Layer K) (n : Nat) (p : K × K) :
    l.epsAt lat n p ∈ l.epsB :: l.shapes.map Shape.eps := by
  unfold Layer.epsAt
  apply foldl_mem (fun e => e ∈ l.epsB :: l.shapes.map Shape.eps)
  · simp
  · intro b hb s hs
    apply foldl_mem _ _ _ _ hb
    intro b hb n1 _
    apply foldl_mem _ _ _ _ hb
    intro b hb n2 _
    unfold epsAssign
    split_ifs
    · exact List.mem_cons_of_mem _ (List.mem_map_of_mem hs)
    · exact hb

/-- All permittivities named in a list of layers. -/
def epsValues (L : List (Layer K)) : List K := L.flatMap fun l => l.epsB :: l.shapes.map Shape.eps

theorem boundsStep_eq (b : K × K) (l : Layer K) :
    boundsStep b l = ((l.epsB :: l.shapes.map Shape.eps).foldl min b.1,
      (l.epsB :: l.shapes.map Shape.eps).foldl max b.2) := by
  unfold boundsStep
  rw [List.foldl_cons, List.foldl_cons]
  generalize min b.1 l.epsB = u
  generalize max b.2 l.epsB = v
  induction l.shapes generalizing u v with
  | nil => rfl
  | cons s ss ih => simp [ih]

theorem bounds_fold (L : List (Layer K)) (b : K × K) :
    L.foldl boundsStep b = ((epsValues L).foldl min b.1, (epsValues L).foldl max b.2) := by
  induction L generalizing b with
  | nil => rfl
  | cons l L ih =>
    rw [List.foldl_cons, ih, boundsStep_eq]
    simp only [epsValues, List.flatMap_cons, List.foldl_append]

theorem foldl_min_spec (L : List K) (b : K) :
    (∀ x ∈ b :: L, L.foldl min b ≤ x) ∧ L.foldl min b ∈ b :: L := by
  induction L generalizing b with
  | nil => simp
  | cons y L ih =>
    obtain ⟨h1, h2⟩ := ih (min b y)
    rw [List.foldl_cons]
    constructor
    · intro x hx
      have hb := h1 (min b y) (by simp)
      rcases List.mem_cons.1 hx with rfl | hx
      · exact hb.trans (min_le_left _ _)
      · rcases List.mem_cons.1 hx with rfl | hx
        · exact hb.trans (min_le_right _ _)
        · exact h1 x (by simp [hx])
    · rcases List.mem_cons.1 h2 with h | h
      · rw [h]; rcases min_choice b y with h | h <;> simp [h]
      · simp [h]

theorem foldl_max_spec (L : List K) (b : K) :
    (∀ x ∈ b :: L, x ≤ L.foldl max b) ∧ L.foldl max b ∈ b :: L := by
  induction L generalizing b with
  | nil => simp
  | cons y L ih =>
    obtain ⟨h1, h2⟩ := ih (max b y)
    rw [List.foldl_cons]
    constructor
    · intro x hx
      have hb := h1 (max b y) (by simp)
      rcases List.mem_cons.1 hx with rfl | hx
      · exact (le_max_left _ _).trans hb
      · rcases List.mem_cons.1 hx with rfl | hx
        · exact (le_max_right _ _).trans hb
        · exact h1 x (by simp [hx])
    · rcases List.mem_cons.1 h2 with h | h
      · rw [h]; rcases max_choice b y with h | h <;> simp [h]
      · simp [h]

/-! ### z_to_lind -/

/-- Result of the loop plus the final `if`, from an intermediate state. -/
def lindFrom (z a : K) (k : Nat) (ls : List (Layer K)) : Nat :=
  let r := zToLindLoop z a k ls
  if r.1 < z ∧ r.2 = k + ls.length then r.2 + 1 else r.2

theorem lindFrom_nil (z a : K) (k : Nat) : lindFrom z a k [] = if a < z then k + 1 else k := by
  simp [lindFrom, zToLindLoop]

theorem lindFrom_cons (z a : K) (k : Nat) (l : Layer K) (ls : List (Layer K)) :
    lindFrom z a k (l :: ls) = if a < z then lindFrom z l.zMax (k + 1) ls else k := by
  unfold lindFrom
  simp only [zToLindLoop]
  split_ifs <;> simp_all <;> omega

theorem lindFrom_le (z a : K) (k : Nat) (ls : List (Layer K)) :
    (z ≤ a → lindFrom z a k ls = k) ∧ (a < z → k + 1 ≤ lindFrom z a k ls) := by
  induction ls generalizing a k with
  | nil => rw [lindFrom_nil]; constructor <;> intro h <;> simp [h]
  | cons l ls ih =>
    rw [lindFrom_cons]
    constructor
    · intro h; rw [if_neg (not_lt.2 h)]
    · intro h
      rw [if_pos h]
      rcases le_or_gt z l.zMax with h' | h'
      · rw [(ih l.zMax (k + 1)).1 h']
      · have := (ih l.zMax (k + 1)).2 h'; omega

/-- `z` lies in region number `r` of a stack with bottom `a`, layers `ls` and top `b`,
counting from `k`, with regions open below and closed above. -/
def RegionOC (z a b : K) (k : Nat) (ls : List (Layer K)) (r : Nat) : Prop :=
  (r = k ∧ z ≤ a) ∨ (∃ (j : Nat) (l : Layer K), r = k + 1 + j ∧ ls[j]? = some l ∧ InOC l.iv z) ∨
    (r = k + 1 + ls.length ∧ b < z)

theorem lindFrom_region {z a b : K} (k : Nat) (ls : List (Layer K))
    (ht : Tiles a (ls.map Layer.iv) b) (ho : ∀ l ∈ ls, l.zMin ≤ l.zMax) :
    RegionOC z a b k ls (lindFrom z a k ls) := by
  induction ls generalizing a k with
  | nil =>
    simp only [List.map_nil] at ht
    cases ht
    rw [lindFrom_nil]
    split_ifs with h
    · right; right; exact ⟨by simp, h⟩
    · left; exact ⟨rfl, not_lt.1 h⟩
  | cons l ls ih =>
    simp only [List.map_cons] at ht
    have hl : ∃ b', l.iv = (a, b') ∧ Tiles b' (ls.map Layer.iv) b := by
      generalize hiv : l.iv = iv at ht
      cases ht with
      | cons h => exact ⟨_, rfl, h⟩
    obtain ⟨b', hiv, ht'⟩ := hl
    simp only [Layer.iv, Prod.mk.injEq] at hiv
    rw [lindFrom_cons]
    split_ifs with h
    · rw [hiv.2]
      rcases ih (k := k + 1) ht' (fun l hl => ho l (by simp [hl])) with h1 | ⟨j, l', h1, h2, h3⟩ | h1
      · right; left
        exact ⟨0, l, by omega, by simp, by rw [Layer.iv, hiv.1, hiv.2]; exact ⟨h, h1.2⟩⟩
      · right; left
        exact ⟨j + 1, l', by omega, by simpa using h2, h3⟩
      · right; right
        exact ⟨by simp only [List.length_cons]; omega, h1.2⟩
    · left; exact ⟨rfl, not_lt.1 h⟩

theorem region_unique {z a b : K} (k : Nat) (ls : List (Layer K))
    (ht : Tiles a (ls.map Layer.iv) b) (ho : ∀ l ∈ ls, l.zMin ≤ l.zMax) (r : Nat)
    (hr : RegionOC z a b k ls r) : r = lindFrom z a k ls := by
  induction ls generalizing a k r with
  | nil =>
    simp only [List.map_nil] at ht
    cases ht
    rw [lindFrom_nil]
    rcases hr with h | ⟨j, l, _, h, _⟩ | h
    · rw [if_neg (not_lt.2 h.2)]; exact h.1
    · simp at h
    · rw [if_pos h.2]; simpa using h.1
  | cons l ls ih =>
    simp only [List.map_cons] at ht
    have hl : ∃ b', l.iv = (a, b') ∧ Tiles b' (ls.map Layer.iv) b := by
      generalize hiv : l.iv = iv at ht
      cases ht with
      | cons h => exact ⟨_, rfl, h⟩
    obtain ⟨b', hiv, ht'⟩ := hl
    simp only [Layer.iv, Prod.mk.injEq] at hiv
    have hab : a ≤ b' := by have := ho l (by simp); rwa [hiv.1, hiv.2] at this
    have ho' : ∀ l ∈ ls, l.zMin ≤ l.zMax := fun l hl => ho l (by simp [hl])
    have hle := Tiles.le_lo ht' (by
      intro i hi
      obtain ⟨l', hl', rfl⟩ := List.mem_map.1 hi
      exact ho' l' hl')
    rw [lindFrom_cons]
    rcases hr with h | ⟨j, l', h1, h2, h3⟩ | h
    · rw [if_neg (not_lt.2 h.2)]; exact h.1
    · have haz : a < z := by
        cases j with
        | zero => simp at h2; subst h2; have := h3.1; rwa [Layer.iv, hiv.1] at this
        | succ j =>
          simp at h2
          exact (hab.trans (hle.2 _ (List.mem_map_of_mem (List.mem_of_getElem? h2))).1).trans_lt h3.1
      rw [if_pos haz, hiv.2]
      apply ih (k := k + 1) ht' ho'
      cases j with
      | zero =>
        simp at h2; subst h2
        left; exact ⟨by omega, by have := h3.2; rwa [Layer.iv, hiv.2] at this⟩
      | succ j =>
        right; left
        exact ⟨j, l', by omega, by simpa using h2, h3⟩
    · have haz : a < z := (hab.trans hle.1).trans_lt h.2
      rw [if_pos haz, hiv.2]
      apply ih (k := k + 1) ht' ho'
      right; right
      exact ⟨by have := h.1; simp only [List.length_cons] at this; omega, h.2⟩

/-! ### Ordered fields -/

variable [IsStrictOrderedRing K]

theorem geo_ordered {s : PhC K} {ds : List K} (g : Geo s ds) (h : ∀ d ∈ ds, 0 ≤ d) :
    ∀ l ∈ s.layers, l.zMin ≤ l.zMax := by
  intro l hl
  have : l.zMax - l.zMin ∈ ds := by
    rw [← g.ds_iv]; exact List.mem_map_of_mem (f := fun l => l.zMax - l.zMin) hl
  exact sub_nonneg.1 (h _ this)

theorem tiles_sum {a b : K} {l : List (K × K)} (h : Tiles a l b) :
    b = a + (l.map fun i => i.2 - i.1).sum := by
  induction h with
  | nil a => simp
  | cons _ ih => rw [ih]; simp only [List.map_cons, List.sum_cons]; ring

theorem geo_top {s : PhC K} {ds : List K} (g : Geo s ds) : s.clad1.zMin = ds.sum := by
  have := tiles_sum g.tiles
  rw [this, ← g.ds_iv]
  simp [List.map_map, Function.comp_def, Layer.iv]

theorem zInf_pos : (0 : K) < zInf := by unfold zInf; positivity

theorem zToLind_eq (s : PhC K) (z : K) : zToLind s z = lindFrom z s.clad0.zMax 0 s.layers := by
  simp [zToLind, lindFrom]

/-- All quantum wells lie strictly between the claddings. -/
def QWsInside (s : PhC K) : Prop := ∀ q ∈ s.qws, 0 < q.z ∧ q.z < s.clad1.zMin

theorem qws_step (s : PhC K) (ds : List K) (g : Geo s ds) (op : Op K)
    (hd : ∀ d ∈ acceptedD op, 0 ≤ d) (h : QWsInside s) : QWsInside (s.step op).1 := by
  cases op with
  | addLayer d e t =>
    simp only [PhC.step, PhC.addLayer]
    split_ifs with ht
    · intro q hq
      obtain ⟨q1, q2⟩ := h q hq
      refine ⟨q1, q2.trans_le ?_⟩
      simp only [geo_zMin g]
      have := hd d (by simp [acceptedD, ht])
      linarith
    · exact h
    · exact h
  | addQW q =>
    simp only [PhC.step, PhC.addQW]
    split_ifs with hq
    · exact h
    · rw [g.c0max] at hq
      push Not at hq
      intro q' hq'
      simp only [List.mem_append, List.mem_singleton] at hq'
      rcases hq' with hq' | rfl
      · exact h q' hq'
      · exact hq
  | addShape a i c =>
    intro q hq
    simp only [PhC.step] at *
    rw [addShape_qws] at hq
    have h1 := (addShape_sameFrame s a i c).c1
    simp only [Layer.frame, Prod.mk.injEq] at h1
    rw [h1.1]
    exact h q hq

end Legume
