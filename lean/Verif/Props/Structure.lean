import Verif.Lemmas.StructureEps
import Mathlib.Algebra.Order.Ring.Rat

/-!
# Properties C01 - C07: the layer stack
-/
set_option linter.unusedSectionVars false
set_option linter.unusedTactic false
set_option linter.unreachableTactic false

namespace Legume

open Spec

section
variable {K : Type} [Field K] [LinearOrder K]

/-- The structure obtained from `PhotCryst(lattice, eps_l, eps_u)` by an arbitrary
history of building calls. -/
def built (lat : Lat K) (epsL epsU : K) (ops : List (Op K)) : PhC K := (PhC.init lat epsL epsU).run ops

/-- The thicknesses passed to the accepted `add_layer` calls of a history. -/
def passedThicknesses (ops : List (Op K)) : List K :=
  ops.filterMap fun
    | .addLayer d _ t => if t.toLower = "shapes" then some d else none
    | _ => none

/-- All regions, bottom to top: lower cladding, layers, upper cladding. -/
def PhC.regions (s : PhC K) : List (Layer K) := s.clad0 :: (s.layers ++ [s.clad1])

theorem passedThicknesses_eq (ops : List (Op K)) :
    passedThicknesses ops = ops.filterMap acceptedD := by
  unfold passedThicknesses
  congr 1

theorem geo_built (lat : Lat K) (epsL epsU : K) (ops : List (Op K)) :
    Geo (built lat epsL epsU ops) (passedThicknesses ops) := by
  have := geo_run _ _ (geo_init lat epsL epsU) ops
  rw [passedThicknesses_eq]
  exact this

/-- **C01.** After any history of building calls the regions tile the z axis: the lower
cladding ends at 0, every layer starts where the one below ends, the upper cladding
starts where the topmost layer ends, and the layer thicknesses are those passed by the
user, in order. -/
theorem C01_layers_tile (lat : Lat K) (epsL epsU : K) (ops : List (Op K)) :
    let s := built lat epsL epsU ops
    s.clad0.zMin = -10 ^ 10 ∧ s.clad0.zMax = 0 ∧ s.clad1.zMax = 10 ^ 10 ∧
    Tiles 0 (s.layers.map fun l => (l.zMin, l.zMax)) s.clad1.zMin ∧
    s.layers.map (fun l => l.zMax - l.zMin) = passedThicknesses ops ∧
    s.layers.map Layer.d = passedThicknesses ops := by
  have g := geo_built lat epsL epsU ops
  exact ⟨g.c0min, g.c0max, g.c1max, g.tiles, g.ds_iv, g.ds_eq⟩

end

section
variable {K : Type} [Field K] [LinearOrder K] [IsStrictOrderedRing K]

theorem geo_regions {s : PhC K} {ds : List K} (g : Geo s ds) :
    Tiles (-zInf) (s.regions.map Layer.iv) zInf := by
  have h1 : s.clad0.iv = (-zInf, 0) := by rw [Layer.iv, g.c0min, g.c0max]
  have h2 : s.clad1.iv = (s.clad1.zMin, zInf) := by rw [Layer.iv, g.c1max]
  simp only [PhC.regions, List.map_cons, List.map_append, List.map_nil, h1, h2]
  exact .cons (Tiles.snoc g.tiles)

theorem geo_regions_ordered {s : PhC K} {ds : List K} (g : Geo s ds) (h : ∀ d ∈ ds, 0 ≤ d)
    (ht : ds.sum < zInf) : ∀ l ∈ s.regions, l.zMin ≤ l.zMax := by
  intro l hl
  simp only [PhC.regions, List.mem_cons, List.mem_append, List.mem_singleton] at hl
  rcases hl with rfl | hl | hl
  · rw [g.c0min, g.c0max]; exact neg_nonpos.2 zInf_pos.le
  · exact geo_ordered g h l hl
  · rcases hl with rfl | hl
    · rw [g.c1max, geo_top g]; exact ht.le
    · simp at hl

/-- **C01 (placement).** For any history, layer number `i` starts at the sum of the
thicknesses of the layers below it, and the upper cladding at the sum of all. -/
theorem C01_layer_positions (lat : Lat K) (epsL epsU : K) (ops : List (Op K)) :
    let s := built lat epsL epsU ops
    s.clad1.zMin = (passedThicknesses ops).sum ∧
    ∀ (i : Nat) (l : Layer K), s.layers[i]? = some l →
      l.zMin = ((passedThicknesses ops).take i).sum ∧
      l.zMax = ((passedThicknesses ops).take (i + 1)).sum := by
  intro s
  have g := geo_built lat epsL epsU ops
  refine ⟨geo_top g, ?_⟩
  have key : ∀ (ls : List (Layer K)) (a b : K), Tiles a (ls.map Layer.iv) b →
      ∀ (i : Nat) (l : Layer K), ls[i]? = some l →
        l.zMin = a + ((ls.map fun l => l.zMax - l.zMin).take i).sum ∧
        l.zMax = a + ((ls.map fun l => l.zMax - l.zMin).take (i + 1)).sum := by
    intro ls
    induction ls with
    | nil => intro a b _ i l h; simp at h
    | cons l0 ls ih =>
      intro a b ht i l h
      simp only [List.map_cons] at ht
      generalize hiv : l0.iv = iv at ht
      cases ht with
      | cons ht =>
        simp only [Layer.iv, Prod.mk.injEq] at hiv
        cases i with
        | zero =>
          simp at h; subst h
          simp [hiv.1]
        | succ i =>
          simp at h
          obtain ⟨h1, h2⟩ := ih _ _ ht i l h
          rw [← hiv.2] at h1 h2
          rw [h1, h2]
          simp only [List.map_cons, List.take_succ_cons, List.sum_cons, ← hiv.1]
          constructor <;> ring
  intro i l hl
  have := key s.layers 0 _ g.tiles i l hl
  rw [g.ds_iv] at this
  simpa using this

/-- **C02.** In any structure built with non-negative thicknesses of total below `1e10`,
a point with `-1e10 ≤ z < 1e10` lies in exactly one region `[z_min, z_max)`, and
`get_eps` reports for it what that region's own in-plane map reports. -/
theorem C02_get_eps_region (lat : Lat K) (epsL epsU : K) (ops : List (Op K))
    (hd : ∀ d ∈ passedThicknesses ops, 0 ≤ d) (ht : (passedThicknesses ops).sum < 10 ^ 10)
    (pts : List (Pt K)) (i : Nat) (p : Pt K) (hp : pts[i]? = some p)
    (h1 : -10 ^ 10 ≤ p.z) (h2 : p.z < 10 ^ 10) :
    let s := built lat epsL epsU ops
    ∃ (j : Nat) (l : Layer K), s.regions[j]? = some l ∧ InCO (l.zMin, l.zMax) p.z ∧
      (∀ (j' : Nat) (l' : Layer K), s.regions[j']? = some l' →
        InCO (l'.zMin, l'.zMax) p.z → j' = j) ∧
      (s.getEps pts)[i]? = some (l.epsAt lat
        (lat.win ((pts.filter fun q => decide (l.zMin ≤ q.z ∧ q.z < l.zMax)).map
          fun q => (q.x, q.y))) (p.x, p.y)) := by
  intro s
  have g := geo_built lat epsL epsU ops
  have ho := geo_regions_ordered g hd ht
  obtain ⟨j, iv, hj, hin, hu⟩ := Tiles.exists_co (geo_regions g) (by
    intro i hi
    obtain ⟨l, hl, rfl⟩ := List.mem_map.1 hi
    exact ho l hl) h1 h2
  rw [List.getElem?_map] at hj
  obtain ⟨l, hl, rfl⟩ := Option.map_eq_some_iff.1 hj
  have hu' : ∀ (j' : Nat) (l' : Layer K), s.regions[j']? = some l' →
        InCO (l'.zMin, l'.zMax) p.z → j' = j := by
    intro j' l' hl' hin'
    exact hu j' l'.iv (by rw [List.getElem?_map, hl']; rfl) hin'
  refine ⟨j, l, hl, hin, hu', ?_⟩
  have hlat : s.lat = lat := run_lat _ _
  rw [getEps_eq, List.getElem?_map, hp, Option.map_some, hlat]
  congr 1
  apply fold_hit
  · right
    refine ⟨l, ?_, decide_eq_true (p := l.zMin ≤ p.z ∧ p.z < l.zMax) hin⟩
    have := List.mem_of_getElem? hl
    simp only [PhC.regions, List.mem_cons, List.mem_append] at this
    simp only [List.mem_append, List.mem_cons]
    tauto
  · intro l' hl' hm
    have hmem : l' ∈ s.regions := by
      simp only [PhC.regions, List.mem_cons, List.mem_append]
      simp only [List.mem_append, List.mem_cons] at hl'
      tauto
    obtain ⟨j', hj'⟩ := List.mem_iff_getElem?.1 hmem
    have := hu' j' l' hj' (of_decide_eq_true (p := l'.zMin ≤ p.z ∧ p.z < l'.zMax) hm)
    subst this
    rw [hl] at hj'
    cases hj'
    rfl

/-- **C02 (outside).** Points outside `[-1e10, 1e10)` are reported with permittivity 0. -/
theorem C02_get_eps_outside (lat : Lat K) (epsL epsU : K) (ops : List (Op K))
    (hd : ∀ d ∈ passedThicknesses ops, 0 ≤ d) (ht : (passedThicknesses ops).sum < 10 ^ 10)
    (pts : List (Pt K)) (i : Nat) (p : Pt K) (hp : pts[i]? = some p)
    (h : p.z < -10 ^ 10 ∨ 10 ^ 10 ≤ p.z) :
    ((built lat epsL epsU ops).getEps pts)[i]? = some 0 := by
  have g := geo_built lat epsL epsU ops
  have ho := geo_regions_ordered g hd ht
  have hb := (Tiles.le_lo (geo_regions g) (by
    intro i hi
    obtain ⟨l, hl, rfl⟩ := List.mem_map.1 hi
    exact ho l hl)).2
  rw [getEps_eq, List.getElem?_map, hp, Option.map_some]
  congr 1
  apply fold_noop
  intro l hl
  have hmem : l ∈ (built lat epsL epsU ops).regions := by
    simp only [PhC.regions, List.mem_cons, List.mem_append]
    simp only [List.mem_append, List.mem_cons] at hl
    tauto
  obtain ⟨hlo, hhi⟩ := hb l.iv (List.mem_map_of_mem hmem)
  simp only [Layer.inMask, decide_eq_false_iff_not, not_and, not_lt]
  intro hz
  rcases h with h | h
  · exact absurd (hlo.trans hz) (not_le.2 h)
  · exact hhi.trans h

/-- **C03.** Inside the simulated z range `get_eps` never leaves the interval reported by
`get_eps_bounds`. -/
theorem C03_get_eps_in_bounds (lat : Lat K) (epsL epsU : K) (ops : List (Op K))
    (hd : ∀ d ∈ passedThicknesses ops, 0 ≤ d) (ht : (passedThicknesses ops).sum < 10 ^ 10)
    (pts : List (Pt K)) (i : Nat) (p : Pt K) (hp : pts[i]? = some p)
    (h1 : -10 ^ 10 ≤ p.z) (h2 : p.z < 10 ^ 10) :
    let s := built lat epsL epsU ops
    ∃ e, (s.getEps pts)[i]? = some e ∧ s.getEpsBounds.1 ≤ e ∧ e ≤ s.getEpsBounds.2 := by
  intro s
  obtain ⟨j, l, hl, -, -, he⟩ := C02_get_eps_region lat epsL epsU ops hd ht pts i p hp h1 h2
  refine ⟨_, he, ?_⟩
  have hmem : l.epsAt lat (lat.win ((pts.filter fun q => decide (l.zMin ≤ q.z ∧ q.z < l.zMax)).map
          fun q => (q.x, q.y))) (p.x, p.y) ∈ epsValues (s.layers ++ [s.clad0, s.clad1]) := by
    unfold epsValues
    rw [List.mem_flatMap]
    refine ⟨l, ?_, epsAt_mem _ _ _ _⟩
    have := List.mem_of_getElem? hl
    simp only [PhC.regions, List.mem_cons, List.mem_append] at this
    simp only [List.mem_append, List.mem_cons]
    tauto
  rw [PhC.getEpsBounds, bounds_fold]
  exact ⟨(foldl_min_spec _ _).1 _ (List.mem_cons_of_mem _ hmem),
    (foldl_max_spec _ _).1 _ (List.mem_cons_of_mem _ hmem)⟩

end

section
variable {K : Type} [Field K] [LinearOrder K]

/-- **C03 (tightness).** Both bounds are permittivities of a background or of a shape
present in the structure, and bound all of them. -/
theorem C03_bounds_attained (s : PhC K) :
    let present (e : K) : Prop := ∃ l ∈ s.regions, e = l.epsB ∨ ∃ sh ∈ l.shapes, e = sh.eps
    present s.getEpsBounds.1 ∧ present s.getEpsBounds.2 ∧
    ∀ e, present e → s.getEpsBounds.1 ≤ e ∧ e ≤ s.getEpsBounds.2 := by
  intro present
  have hiff : ∀ e, present e ↔ e ∈ epsValues (s.layers ++ [s.clad0, s.clad1]) := by
    intro e
    simp only [present, epsValues, List.mem_flatMap, PhC.regions, List.mem_cons, List.mem_append,
      List.mem_map]
    constructor
    · rintro ⟨l, hl, h⟩
      refine ⟨l, by tauto, ?_⟩
      rcases h with h | ⟨sh, hsh, h⟩
      · exact .inl h
      · exact .inr ⟨sh, hsh, h.symm⟩
    · rintro ⟨l, hl, h⟩
      refine ⟨l, by tauto, ?_⟩
      rcases h with h | ⟨sh, hsh, h⟩
      · exact .inl h
      · exact .inr ⟨sh, hsh, h.symm⟩
  have hc : present s.clad0.epsB := ⟨s.clad0, by simp [PhC.regions], .inl rfl⟩
  simp only [PhC.getEpsBounds, bounds_fold]
  obtain ⟨m1, m2⟩ := foldl_min_spec (epsValues (s.layers ++ [s.clad0, s.clad1])) s.clad0.epsB
  obtain ⟨M1, M2⟩ := foldl_max_spec (epsValues (s.layers ++ [s.clad0, s.clad1])) s.clad0.epsB
  refine ⟨?_, ?_, ?_⟩
  · rcases List.mem_cons.1 m2 with h | h
    · rw [h]; exact hc
    · exact (hiff _).2 h
  · rcases List.mem_cons.1 M2 with h | h
    · rw [h]; exact hc
    · exact (hiff _).2 h
  · intro e he
    have := (hiff e).1 he
    exact ⟨m1 e (List.mem_cons_of_mem _ this), M1 e (List.mem_cons_of_mem _ this)⟩

/-- **C04.** After any history (including calls that raised midway), the average
permittivity of every region is the area-weighted sum over its shapes. -/
theorem C04_eps_avg (lat : Lat K) (epsL epsU : K) (ops : List (Op K)) :
    ∀ l ∈ (built lat epsL epsU ops).regions,
      l.epsAvg = l.epsB + (l.shapes.map fun sh => (sh.eps - l.epsB) * sh.area / lat.ecArea).sum := by
  intro l hl
  have h0 : AllAvg (PhC.init lat epsL epsU) := by
    intro l hl
    simp only [PhC.init, List.nil_append, List.mem_cons, List.not_mem_nil, or_false] at hl
    rcases hl with rfl | rfl <;> exact mkShapesLayer_avg _ _ _ _
  have := avg_run _ h0 ops l (by
    simp only [PhC.regions, List.mem_cons, List.mem_append] at hl
    simp only [List.mem_append, List.mem_cons]
    tauto)
  have hlat : (built lat epsL epsU ops).lat = lat := run_lat _ _
  rw [Layer.AvgOK] at this
  change _ = _ + (l.shapes.map fun sh => (sh.eps - l.epsB) * sh.area / (built lat epsL epsU ops).lat.ecArea).sum at this
  rwa [hlat] at this

/-- **C04 (order independence).** Two layers (of possibly different structures on the
same lattice) with the same background which hold the same shapes in different order
have the same average permittivity. -/
theorem C04_order_independent (lat : Lat K) (epsL epsU epsL' epsU' : K) (ops ops' : List (Op K))
    (l l' : Layer K) (hl : l ∈ (built lat epsL epsU ops).regions)
    (hl' : l' ∈ (built lat epsL' epsU' ops').regions) (hb : l.epsB = l'.epsB)
    (hp : l.shapes.Perm l'.shapes) : l.epsAvg = l'.epsAvg := by
  rw [C04_eps_avg lat epsL epsU ops l hl, C04_eps_avg lat epsL' epsU' ops' l' hl', hb]
  congr 1
  exact (hp.map _).sum_eq

/-- The calls whose failure is guaranteed to leave the structure alone: everything except
adding a *list* of shapes. -/
def Op.notList : Op K → Prop
  | .addShape (.many _) _ _ => False
  | _ => True

/-- **C05 (partial).** Full property: *every* rejected building call leaves the structure
unchanged.  Proved for every call except `add_shape` with a list argument, for which the
full property is false (`C05_list_not_atomic`). -/
theorem C05_rejected_unchanged_partial (s : PhC K) (op : Op K) (hop : op.notList) (e : PyErr)
    (h : (s.step op).2 = .error e) : (s.step op).1 = s := by
  cases op with
  | addLayer d b t =>
    simp only [PhC.step, PhC.addLayer] at *
    split_ifs at * <;> first | rfl | simp_all
  | addQW q =>
    simp only [PhC.step, PhC.addQW] at *
    split_ifs at * <;> first | rfl | simp_all
  | addShape a i c =>
    have hl : ∀ l : Layer K, (l.addShape s.lat a).2 = .error e → (l.addShape s.lat a).1 = l := by
      intro l
      cases a with
      | single sh => intro h; simp [Layer.addShape, Layer.addShapeLoop] at h
      | many ss => exact absurd hop (by simp [Op.notList])
      | notIterable => intro _; rfl
    simp only [PhC.step, PhC.addShape] at *
    cases c with
    | int n =>
      dsimp only at *
      split_ifs at *
      · rw [hl _ h]
      · rw [hl _ h]
      · rfl
    | str n =>
      dsimp only at *
      split_ifs at *
      · rw [hl _ h]
      · rw [hl _ h]
      · rfl
    | none =>
      dsimp only at *
      split_ifs at *
      · rfl
      · revert h
        split
        · intro _; rfl
        · split
          · intro _; rfl
          · rename_i l hlx
            intro h
            rw [hl _ h]
            have : ∀ (ls : List (Layer K)) (i : Nat), ls[i]? = some l → ls.set i l = ls := by
              intro ls i hi
              apply List.ext_getElem?
              intro j
              rw [List.getElem?_set]
              split_ifs with h1 h2
              · subst h1; exact hi.symm
              · subst h1; exact (List.getElem?_eq_none (by omega)).symm
              · rfl
            rw [this _ _ hlx]

/-- **C05 (what a failing list call does).** A failing list call has exactly the effect of
adding the good prefix of the list: all elements before the first non-`Shape`. -/
theorem C05_list_prefix (lat : Lat K) (l : Layer K) (ss : List (Option (Shape K))) :
    (l.addShape lat (.many ss)).1 =
      (l.addShape lat (.many (ss.takeWhile Option.isSome))).1 ∧
    ((l.addShape lat (.many ss)).2 = .ok () ↔ ∀ s ∈ ss, s.isSome) := by
  simp only [Layer.addShape]
  induction ss generalizing l with
  | nil => simp [Layer.addShapeLoop]
  | cons a ss ih =>
    cases a with
    | none => simp [Layer.addShapeLoop]
    | some s =>
      have := ih (l.push lat s)
      simp only [Layer.addShapeLoop, List.takeWhile_cons, Option.isSome_some, if_true]
      simpa using this

/-- **C05 (which error).** Adding shapes raises `TypeError` for an argument which cannot be iterated, and then the layer
stays as it was; for an iterable the only error is `ValueError`, and a single shape is always accepted. -/
theorem C05_which_error (lat : Lat K) (l : Layer K) :
    l.addShape lat .notIterable = (l, .error .typeError) ∧
    (∀ ss e, (l.addShape lat (.many ss)).2 = .error e → e = .valueError) ∧
    (∀ s, (l.addShape lat (.single s)).2 = .ok ()) := by
  refine ⟨rfl, fun ss => ?_, fun s => rfl⟩
  simp only [Layer.addShape]
  induction ss generalizing l with
  | nil => intro e h; cases h
  | cons a ss ih =>
    cases a with
    | none =>
      intro e h
      cases h
      rfl
    | some s => exact ih (l.push lat s)

end

section
variable {K : Type} [Field K] [LinearOrder K] [IsStrictOrderedRing K]

/-- **C06.** For every height `z` (no range restriction), `z_to_lind` returns the number of
the one region that contains `z`, regions being open below and closed above, the lower
cladding (number 0) reaching down without limit and the upper cladding (number `N+1`)
up without limit. -/
theorem C06_z_to_lind (lat : Lat K) (epsL epsU : K) (ops : List (Op K))
    (hd : ∀ d ∈ passedThicknesses ops, 0 ≤ d) (z : K) (r : Nat) :
    let s := built lat epsL epsU ops
    zToLind s z = r ↔
      (r = 0 ∧ z ≤ 0) ∨
      (∃ (j : Nat) (l : Layer K), r = j + 1 ∧ s.layers[j]? = some l ∧ InOC (l.zMin, l.zMax) z) ∨
      (r = s.layers.length + 1 ∧ s.clad1.zMin < z) := by
  intro s
  have g := geo_built lat epsL epsU ops
  have ho := geo_ordered g hd
  have hc : s.clad0.zMax = 0 := g.c0max
  have hconv : RegionOC z 0 s.clad1.zMin 0 s.layers r ↔ ((r = 0 ∧ z ≤ 0) ∨
      (∃ (j : Nat) (l : Layer K), r = j + 1 ∧ s.layers[j]? = some l ∧ InOC (l.zMin, l.zMax) z) ∨
      (r = s.layers.length + 1 ∧ s.clad1.zMin < z)) := by
    unfold RegionOC
    constructor
    · rintro (h | ⟨j, l, h1, h2, h3⟩ | h)
      · exact .inl h
      · exact .inr (.inl ⟨j, l, by omega, h2, h3⟩)
      · exact .inr (.inr ⟨by omega, h.2⟩)
    · rintro (h | ⟨j, l, h1, h2, h3⟩ | h)
      · exact .inl h
      · exact .inr (.inl ⟨j, l, by omega, h2, h3⟩)
      · exact .inr (.inr ⟨by omega, h.2⟩)
  rw [← hconv, zToLind_eq, hc]
  constructor
  · rintro rfl; exact lindFrom_region 0 s.layers g.tiles ho
  · intro h; exact (region_unique 0 s.layers g.tiles ho r h).symm

/-- **C06 (agreement with get_eps).** At every height in range which is not an interface,
the region named by `z_to_lind` is the region whose permittivity `get_eps` reports, i.e.
the one with `z_min ≤ z < z_max` (unique by C02). -/
theorem C06_agrees_with_get_eps (lat : Lat K) (epsL epsU : K) (ops : List (Op K))
    (hd : ∀ d ∈ passedThicknesses ops, 0 ≤ d) (z : K) (h1 : -10 ^ 10 ≤ z) (h2 : z < 10 ^ 10)
    (hi : ∀ l ∈ (built lat epsL epsU ops).regions, z ≠ l.zMax) :
    let s := built lat epsL epsU ops
    ∃ l : Layer K, s.regions[zToLind s z]? = some l ∧ InCO (l.zMin, l.zMax) z := by
  intro s
  have g := geo_built lat epsL epsU ops
  have hc0 : s.clad0 ∈ s.regions := by simp [PhC.regions]
  rcases (C06_z_to_lind lat epsL epsU ops hd z _).1 rfl with ⟨hr, hz⟩ | ⟨j, l, hr, hl, hz⟩ | ⟨hr, hz⟩
  · refine ⟨s.clad0, ?_, ?_⟩
    · change s.regions[zToLind s z]? = _
      rw [hr]; rfl
    · have := hi _ hc0
      rw [g.c0max] at this
      rw [g.c0min, g.c0max]
      exact ⟨h1, lt_of_le_of_ne hz this⟩
  · have hl' : s.regions[j + 1]? = some l := by
      simp only [PhC.regions, List.getElem?_cons_succ]
      rw [List.getElem?_append_left (List.getElem?_eq_some_iff.1 hl).1]
      exact hl
    refine ⟨l, ?_, hz.1.le, lt_of_le_of_ne hz.2 (hi l (List.mem_of_getElem? hl'))⟩
    change s.regions[zToLind s z]? = _
    rw [hr]; exact hl'
  · refine ⟨s.clad1, ?_, ?_⟩
    · change s.regions[zToLind s z]? = _
      rw [hr]; simp [PhC.regions, s]
    · exact ⟨hz.le, by rw [g.c1max]; exact h2⟩

/-- **C07 (acceptance).** `add_qw` succeeds exactly when the well is strictly above the lower
cladding and strictly below the upper one; success appends the well, failure is a
`ValueError`. -/
theorem C07_add_qw_iff (lat : Lat K) (epsL epsU : K) (ops : List (Op K)) (q : QW K) :
    let s := built lat epsL epsU ops
    let r := s.step (.addQW q)
    (0 < q.z ∧ q.z < (passedThicknesses ops).sum → r.2 = .ok () ∧ r.1.qws = s.qws ++ [q]) ∧
    (¬(0 < q.z ∧ q.z < (passedThicknesses ops).sum) →
      r.2 = .error .valueError ∧ r.1.qws = s.qws) := by
  intro s r
  have g := geo_built lat epsL epsU ops
  have h0 : s.clad0.zMax = 0 := g.c0max
  have h1 : s.clad1.zMin = (passedThicknesses ops).sum := geo_top g
  simp only [r, PhC.step, PhC.addQW, h0, h1]
  constructor
  · rintro ⟨a, b⟩
    rw [if_neg (by push Not; exact ⟨a, b⟩)]
    exact ⟨rfl, rfl⟩
  · intro h
    rw [if_pos (by by_contra hc; push Not at hc; exact h hc)]
    exact ⟨rfl, rfl⟩

/-- **C07 (stability).** Whatever building calls follow, every accepted quantum well lies in a
true layer, never in a cladding: `z_to_lind` numbers it between 1 and the number of
layers, and that layer's interval contains it. -/
theorem C07_qw_in_layer (lat : Lat K) (epsL epsU : K) (ops : List (Op K))
    (hd : ∀ d ∈ passedThicknesses ops, 0 ≤ d) :
    let s := built lat epsL epsU ops
    ∀ q ∈ s.qws, 1 ≤ zToLind s q.z ∧ zToLind s q.z ≤ s.layers.length ∧
      ∃ l, s.layers[zToLind s q.z - 1]? = some l ∧ InOC (l.zMin, l.zMax) q.z := by
  intro s q hq
  have hin : QWsInside s := by
    have key : ∀ (ops : List (Op K)) (s : PhC K) (ds : List K), Geo s ds → QWsInside s →
        (∀ d ∈ ops.filterMap acceptedD, 0 ≤ d) → QWsInside (s.run ops) := by
      intro ops
      induction ops with
      | nil => intro s ds _ h _; exact h
      | cons op ops ih =>
        intro s ds g h hd
        refine ih _ _ (geo_step s ds g op) (qws_step s ds g op ?_ h) ?_
        · intro d hd'
          exact hd d (List.mem_filterMap.2 ⟨op, by simp, by simpa using hd'⟩)
        · intro d hd'
          obtain ⟨o, ho, h⟩ := List.mem_filterMap.1 hd'
          exact hd d (List.mem_filterMap.2 ⟨o, by simp [ho], h⟩)
    refine key ops _ _ (geo_init lat epsL epsU) ?_ ?_
    · intro q hq; simp [PhC.init] at hq
    · rwa [← passedThicknesses_eq]
  obtain ⟨q1, q2⟩ := hin q hq
  rcases (C06_z_to_lind lat epsL epsU ops hd q.z _).1 rfl with ⟨_, hz⟩ | ⟨j, l, hr, hl, hz⟩ | ⟨_, hz⟩
  · exact absurd q1 (not_lt.2 hz)
  · have hr' : zToLind s q.z = j + 1 := hr
    have hl' : s.layers[j]? = some l := hl
    have := (List.getElem?_eq_some_iff.1 hl').1
    refine ⟨by omega, by omega, l, ?_, hz⟩
    rw [hr']; simpa using hl'
  · exact absurd q2 (not_lt.2 hz.le)

end

/-! ### Concrete cases -/
section Examples

/-- A lattice, shapes and a history used to show that the hypotheses above are met. -/
def exLat : Lat ℚ where
  a1 := (1, 0)
  a2 := (0, 1)
  ecArea := 1
  win := fun _ => 1

def exShape (e : ℚ) : Shape ℚ where
  eps := e
  area := 1 / 4
  isInside := fun p => decide (p.1 * p.1 + p.2 * p.2 ≤ 1 / 16)

def exQW (z : ℚ) : QW ℚ := ⟨z, 0, 1, 1, 1, 0, []⟩

/-- Two layers, a failing call, shapes (one list call failing midway), and a well. -/
def exOps : List (Op ℚ) :=
  [.addLayer (1 / 2) 12 "shapes", .addShape (.single (exShape 1)) (-1) .none,
   .addLayer 3 2 "freeform", .addLayer (1 / 4) 2 "Shapes",
   .addShape (.many [some (exShape 5), none, some (exShape 7)]) 0 .none,
   .addQW (exQW (1 / 4)), .addQW (exQW 9), .addShape (.single (exShape 3)) 7 .none,
   .addShape (.single (exShape 3)) 0 (.str "u")]

example : passedThicknesses exOps = [1 / 2, 1 / 4] := by decide +kernel
example : (∀ d ∈ passedThicknesses exOps, (0 : ℚ) ≤ d) ∧ (passedThicknesses exOps).sum < 10 ^ 10 := by
  decide +kernel
example : ((built exLat 1 1 exOps).layers.map fun l => (l.zMin, l.zMax)) =
    [(0, 1 / 2), (1 / 2, 3 / 4)] := by decide +kernel
example : (built exLat 1 1 exOps).qws.map QW.z = [1 / 4] := by decide +kernel
example : zToLind (built exLat 1 1 exOps) (1 / 4) = 1 ∧ zToLind (built exLat 1 1 exOps) (1 / 2) = 1 ∧
    zToLind (built exLat 1 1 exOps) (3 / 5) = 2 ∧ zToLind (built exLat 1 1 exOps) 4 = 3 := by
  decide +kernel
example : (built exLat 1 1 exOps).getEps [⟨0, 0, 1 / 4⟩, ⟨1 / 2, 0, 1 / 4⟩, ⟨1, 0, 1 / 2⟩, ⟨0, 0, -5⟩] =
    [5, 12, 2, 1] := by decide +kernel
example : (built exLat 1 1 exOps).getEpsBounds = (1, 12) := by decide +kernel
/-- The layer average after `1` and `5` have been added to background `12`. -/
example : (built exLat 1 1 exOps).layers.map Layer.epsAvg = [12 - 11 / 4 - 7 / 4, 2] := by
  decide +kernel
/-- The same shapes in the other order give a permutation, hence (C04) the same average. -/
example : [exShape 1, exShape 5].Perm [exShape 5, exShape 1] := List.Perm.swap _ _ _
/-- A rejected call as in C05. -/
example : (Op.addLayer (3 : ℚ) 2 "freeform").notList ∧
    ((PhC.init exLat 1 1).step (.addLayer 3 2 "freeform")).2 = .error .typeError := by
  refine ⟨trivial, ?_⟩
  decide +kernel
/-- Heights that are not interfaces exist. -/
example : ∀ l ∈ (built exLat 1 1 exOps).regions, (3 / 5 : ℚ) ≠ l.zMax := by decide +kernel

/-- **C05 (negation).** The full C05 is false: adding the list `[shape, non-shape]` raises
`ValueError` although the first shape has been added. -/
theorem C05_list_not_atomic :
    ∃ (s : PhC ℚ) (op : Op ℚ) (e : PyErr), (s.step op).2 = .error e ∧
      (s.step op).1.layers.map (fun l => l.shapes.length) ≠ s.layers.map (fun l => l.shapes.length) := by
  refine ⟨built exLat 1 1 [.addLayer 1 12 "shapes"],
    .addShape (.many [some (exShape 5), none]) (-1) .none, .valueError, ?_⟩
  decide +kernel

/-- **C06 (interfaces).** Exactly at an interface the two functions disagree: `get_eps`
takes the upper layer, `z_to_lind` the lower one. -/
theorem C06_interface_disagreement :
    let s := built exLat 1 1 exOps
    zToLind s (1 / 2) = 1 ∧ (s.layers.map fun l => decide (l.zMin ≤ (1 / 2 : ℚ) ∧ (1 / 2 : ℚ) < l.zMax)) =
      [false, true] := by
  decide +kernel

end Examples

end Legume
