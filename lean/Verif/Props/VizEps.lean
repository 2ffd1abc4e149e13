import Verif.Model.VizEps
import Verif.Props.VizBands
import Verif.Props.EpsMap
import Verif.Props.EpsPlot
import Verif.Props.ExcWave
import Verif.Props.StructureContent

/-!
# C116: what images of the permittivity show
-/
namespace Legume

namespace Spec

/-- The image has the value `F u v` at the points of the grid, one row for each `v`, and extends over the grid. -/
def ImageOf (im : EpsImage) (us vs : List ℝ) (F : ℝ → ℝ → ℝ) : Prop :=
  im.Z = (vs.map fun v => us.map fun u => F u v) ∧
  (us[0]? = some im.extent.1 ∧ us[us.length - 1]? = some im.extent.2.1) ∧
  (vs[0]? = some im.extent.2.2.1 ∧ vs[vs.length - 1]? = some im.extent.2.2.2)

/-- Shapes close to the origin of an orthogonal lattice: none reaches further than the shorter lattice vector. -/
def Centred (L : Lattice) (l : Layer ℝ) : Prop :=
  ∀ s ∈ l.shapes, ∀ q : ℝ × ℝ, s.isInside q = true →
    √(q.1 ^ 2 + q.2 ^ 2) ≤ min (√(L.a1.1 ^ 2 + L.a1.2 ^ 2)) (√(L.a2.1 ^ 2 + L.a2.2 ^ 2))

/-- Lattice vectors which are non-zero and orthogonal. -/
def Orthogonal (L : Lattice) : Prop := L.a1 ≠ (0, 0) ∧ L.a2 ≠ (0, 0) ∧ L.a1.1 * L.a2.1 + L.a1.2 * L.a2.2 = 0

end Spec

open Spec

/-! ### Arrays -/

theorem meshPts_map {α β : Type} (us vs : List ℝ) (f : ℝ → ℝ → α) (g : α → β) :
    (meshPts us vs f).map g = meshPts us vs fun u v => g (f u v) := by
  simp [meshPts, List.map_flatMap, Function.comp_def]

theorem meshPts_mem {α : Type} {us vs : List ℝ} {f : ℝ → ℝ → α} {a : α} (h : a ∈ meshPts us vs f) :
    ∃ u ∈ us, ∃ v ∈ vs, a = f u v := by
  simp only [meshPts, List.mem_flatMap, List.mem_map] at h
  obtain ⟨v, hv, u, hu, rfl⟩ := h
  exact ⟨u, hu, v, hv, rfl⟩

theorem meshPts_get {α : Type} (us : List ℝ) (f : ℝ → ℝ → α) : ∀ (vs : List ℝ) (r c : ℕ) (u v : ℝ),
    us[c]? = some u → vs[r]? = some v → (meshPts us vs f)[r * us.length + c]? = some (f u v)
  | [], r, c, u, v, _, hv => by simp at hv
  | w :: vs, 0, c, u, v, hu, hv => by
    have hc := (List.getElem?_eq_some_iff.1 hu).1
    simp only [List.getElem?_cons_zero, Option.some.injEq] at hv
    subst hv
    simp only [meshPts, List.flatMap_cons, Nat.zero_mul, Nat.zero_add]
    rw [List.getElem?_append_left (by simpa using hc), List.getElem?_map, hu]
    rfl
  | w :: vs, r + 1, c, u, v, hu, hv => by
    simp only [meshPts, List.flatMap_cons]
    rw [List.getElem?_append_right (by simp [Nat.succ_mul]; omega), List.length_map,
      show (r + 1) * us.length + c - us.length = r * us.length + c by rw [Nat.succ_mul]; omega]
    exact meshPts_get us f vs r c u v hu (by simpa using hv)

theorem unflat_mesh (us vs : List ℝ) (F : ℝ → ℝ → ℝ) :
    unflat vs.length us.length (meshPts us vs F) = vs.map fun v => us.map fun u => F u v := by
  unfold unflat
  apply List.ext_getElem?
  intro r
  by_cases hr : r < vs.length
  · rw [List.getElem?_map, List.getElem?_range hr, List.getElem?_map, List.getElem?_eq_getElem hr]
    simp only [Option.map_some, Option.some.injEq]
    apply List.ext_getElem?
    intro c
    by_cases hc : c < us.length
    · rw [List.getElem?_map, List.getElem?_range hc, List.getElem?_map, List.getElem?_eq_getElem hc]
      simp only [Option.map_some, Option.some.injEq]
      rw [List.getD_eq_getElem?_getD, meshPts_get us F vs r c _ _ (List.getElem?_eq_getElem hc) (List.getElem?_eq_getElem hr)]
      rfl
    · rw [List.getElem?_eq_none (by simpa using hc), List.getElem?_eq_none (by simpa using hc)]
  · rw [List.getElem?_eq_none (by simpa using hr), List.getElem?_eq_none (by simpa using hr)]

theorem gridExtent_ends {us vs : List ℝ} (hu : us ≠ []) (hv : vs ≠ []) :
    (us[0]? = some (gridExtent us vs).1 ∧ us[us.length - 1]? = some (gridExtent us vs).2.1) ∧
    (vs[0]? = some (gridExtent us vs).2.2.1 ∧ vs[vs.length - 1]? = some (gridExtent us vs).2.2.2) := by
  have key : ∀ l : List ℝ, l ≠ [] → l[0]? = some (l.headD 0) ∧ l[l.length - 1]? = some (l.getLastD 0) := by
    intro l hl
    cases l with
    | nil => exact absurd rfl hl
    | cons a l =>
      refine ⟨rfl, ?_⟩
      rw [← List.getLast?_eq_getElem?, List.getLast?_eq_some_getLast hl]
      simp [List.getLastD_eq_getLast?, List.getLast?_eq_some_getLast]
  exact ⟨key us hu, key vs hv⟩

theorem imageOf_mk {us vs : List ℝ} (hu : us ≠ []) (hv : vs ≠ []) (F : ℝ → ℝ → ℝ) {vals : List ℝ}
    (h : vals = meshPts us vs F) : ImageOf ⟨unflat vs.length us.length vals, gridExtent us vs⟩ us vs F := by
  refine ⟨?_, gridExtent_ends hu hv⟩
  rw [h]
  exact unflat_mesh us vs F

theorem ne_nil_of_length_pos {l : List ℝ} {n : ℕ} (h : l.length = n) (hn : 0 < n) : l ≠ [] := by
  rintro rfl
  simp at h
  omega

/-! ### One layer -/

/-- **C116 (one layer).** For an orthogonal lattice and shapes around its origin, `viz.eps(layer)` shows the periodic
permittivity of the layer over the grid of the elementary cell. -/
theorem C116_layer_image_partial (L : Lattice) (l : Layer ℝ) (hL : Orthogonal L) (hl : Centred L l) (Nx Ny : ℕ) (hx : 0 < Nx)
    (hy : 0 < Ny) : ∃ (xs ys : List ℝ) (im : EpsImage), L.xyGrid Nx Ny .none = .ok (xs, ys) ∧
      vizEpsLayer L l Nx Ny = .ok im ∧
      ImageOf im xs ys fun x y => periodicEps L.a1 L.a2 l.epsB (shapeData l) (x, y) := by
  obtain ⟨⟨xs, ys⟩, hg, hxs, hys⟩ := xyGrid_ok L Nx Ny
  refine ⟨xs, ys, ⟨unflat ys.length xs.length (l.getEps L.toLat (meshPts xs ys fun x y => (x, y))), gridExtent xs ys⟩, hg, ?_, ?_⟩
  · unfold vizEpsLayer
    rw [hg]
    rfl
  · apply imageOf_mk (ne_nil_of_length_pos hxs hx) (ne_nil_of_length_pos hys hy)
    rw [C08_orthogonal_partial L l _ hL.1 hL.2.1 hL.2.2 hl, meshPts_map]

theorem vizEpsLayer_ok (L : Lattice) (l : Layer ℝ) (Nx Ny : ℕ) : ∃ im, vizEpsLayer L l Nx Ny = .ok im := by
  obtain ⟨⟨xs, ys⟩, hg, -, -⟩ := xyGrid_ok L Nx Ny
  unfold vizEpsLayer
  rw [hg]
  exact ⟨_, rfl⟩

/-! ### Planes through a structure -/

/-- What `get_eps` returns for points which all lie in one region. -/
theorem getEps_region (lat : Lat ℝ) (epsL epsU : ℝ) (ops : List (Op ℝ)) (hd : ∀ d ∈ passedThicknesses ops, 0 ≤ d)
    (ht : (passedThicknesses ops).sum < 10 ^ 10) (pts : List (Pt ℝ)) (l : Layer ℝ)
    (hl : l ∈ (built lat epsL epsU ops).regions) (hp : ∀ p ∈ pts, l.zMin ≤ p.z ∧ p.z < l.zMax) :
    (built lat epsL epsU ops).getEps pts = l.getEps lat (pts.map fun p => (p.x, p.y)) := by
  have g := geo_built lat epsL epsU ops
  have ho := geo_regions_ordered g hd ht
  have hb := (Tiles.le_lo (geo_regions g) (by
    intro i hi
    obtain ⟨l, hl, rfl⟩ := List.mem_map.1 hi
    exact ho l hl)).2 l.iv (List.mem_map_of_mem hl)
  have hfil : (pts.filter fun q => decide (l.zMin ≤ q.z ∧ q.z < l.zMax)) = pts := by
    rw [List.filter_eq_self]
    intro p h
    simpa using hp p h
  have hlen : ((built lat epsL epsU ops).getEps pts).length = pts.length := by rw [getEps_eq]; simp
  apply List.ext_getElem?
  intro i
  by_cases hi : i < pts.length
  · have hpi := List.getElem?_eq_getElem hi
    have hz := hp _ (List.getElem_mem hi)
    have h1 : (-10 ^ 10 : ℝ) ≤ pts[i].z := le_trans hb.1 hz.1
    have h2 : pts[i].z < (10 ^ 10 : ℝ) := lt_of_lt_of_le hz.2 hb.2
    obtain ⟨j, l', hj, -, hu, he⟩ := C02_get_eps_region lat epsL epsU ops hd ht pts i _ hpi h1 h2
    obtain ⟨j', hj'⟩ := List.mem_iff_getElem?.1 hl
    have := hu j' l hj' hz
    subst this
    cases hj.symm.trans hj'
    rw [he, hfil]
    simp only [Layer.getEps, List.getElem?_map, hpi, Option.map_some]
  · rw [List.getElem?_eq_none (by rw [hlen]; omega), List.getElem?_eq_none (by simp [Layer.getEps]; omega)]

/-- **C116 (a plane in a layer).** At any height inside a layer or cladding, `viz.eps_xy` of the structure shows what
`viz.eps` shows of that layer. -/
theorem C116_plane_in_layer (L : Lattice) (epsL epsU : ℝ) (ops : List (Op ℝ)) (hd : ∀ d ∈ passedThicknesses ops, 0 ≤ d)
    (ht : (passedThicknesses ops).sum < 10 ^ 10) (l : Layer ℝ) (hl : l ∈ (built L.toLat epsL epsU ops).regions) (z : ℝ)
    (hz : l.zMin ≤ z ∧ z < l.zMax) (Nx Ny : ℕ) :
    vizEpsXy L (built L.toLat epsL epsU ops) z Nx Ny = vizEpsLayer L l Nx Ny := by
  obtain ⟨⟨xs, ys⟩, hg, -, -⟩ := xyGrid_ok L Nx Ny
  unfold vizEpsXy vizEpsLayer
  rw [hg]
  simp only [bind, Except.bind]
  rw [getEps_region L.toLat epsL epsU ops hd ht _ l hl (by
    intro p hp
    obtain ⟨u, -, v, -, rfl⟩ := meshPts_mem hp
    exact hz), meshPts_map]

/-- The points in which `get_eps` asks a layer. -/
theorem getEps_periodic (L : Lattice) (epsL epsU : ℝ) (ops : List (Op ℝ))
    (hd : ∀ d ∈ passedThicknesses ops, 0 ≤ d) (ht : (passedThicknesses ops).sum < 10 ^ 10) (pts : List (Pt ℝ)) (i : ℕ)
    (p : Pt ℝ) (hp : pts[i]? = some p) (l : Layer ℝ) (hl : l ∈ (built L.toLat epsL epsU ops).regions)
    (hper : ∀ sel : List (ℝ × ℝ), (∀ q ∈ sel, ∃ a ∈ pts, q = (a.x, a.y)) →
      l.getEps L.toLat sel = sel.map (periodicEps L.a1 L.a2 l.epsB (shapeData l)))
    (hz : l.zMin ≤ p.z ∧ p.z < l.zMax) :
    ((built L.toLat epsL epsU ops).getEps pts)[i]? = some (periodicEps L.a1 L.a2 l.epsB (shapeData l) (p.x, p.y)) := by
  have g := geo_built L.toLat epsL epsU ops
  have ho := geo_regions_ordered g hd ht
  have hb := (Tiles.le_lo (geo_regions g) (by
    intro i hi
    obtain ⟨l, hl, rfl⟩ := List.mem_map.1 hi
    exact ho l hl)).2 l.iv (List.mem_map_of_mem hl)
  have h1 : (-10 ^ 10 : ℝ) ≤ p.z := le_trans hb.1 hz.1
  have h2 : p.z < (10 ^ 10 : ℝ) := lt_of_lt_of_le hz.2 hb.2
  obtain ⟨j, l', hj, -, hu, he⟩ := C02_get_eps_region L.toLat epsL epsU ops hd ht pts i p hp h1 h2
  obtain ⟨j', hj'⟩ := List.mem_iff_getElem?.1 hl
  have := hu j' l hj' hz
  subst this
  cases hj.symm.trans hj'
  rw [he]
  set sel := (pts.filter fun q => decide (l.zMin ≤ q.z ∧ q.z < l.zMax)).map fun q => (q.x, q.y) with hsel
  have hmem : (p.x, p.y) ∈ sel :=
    List.mem_map.2 ⟨p, List.mem_filter.2 ⟨List.mem_of_getElem? hp, by simpa using hz⟩, rfl⟩
  have := hper sel (by
    intro q hq
    obtain ⟨a, ha, rfl⟩ := List.mem_map.1 hq
    exact ⟨a, List.mem_of_mem_filter ha, rfl⟩)
  unfold Layer.getEps at this
  rw [List.map_inj_left.1 this _ hmem]

/-- Pixels of `unflat`. -/
theorem unflat_get {vals : List ℝ} {R C r c : ℕ} (hr : r < R) (hc : c < C) {e : ℝ} (h : vals[r * C + c]? = some e) :
    ((unflat R C vals)[r]?.bind (·[c]?)) = some e := by
  unfold unflat
  rw [List.getElem?_map, List.getElem?_range hr, Option.map_some, Option.bind_some, List.getElem?_map, List.getElem?_range hc,
    Option.map_some, List.getD_eq_getElem?_getD, h]
  rfl

theorem built_zGrid (lat : Lat ℝ) (epsL epsU : ℝ) (ops : List (Op ℝ)) (hne : passedThicknesses ops ≠ []) (nz : ℕ) :
    zGrid ((built lat epsL epsU ops).layers.map fun l => (l.zMin, l.zMax)) nz 1 =
      .ok (linspace (-1) ((passedThicknesses ops).sum + 1) nz) := by
  have h1 := C01_layers_tile lat epsL epsU ops
  have hpos := C01_layer_positions lat epsL epsU ops
  set s := built lat epsL epsU ops with hs
  have hlen : s.layers.length = (passedThicknesses ops).length := by rw [← h1.2.2.2.2.2]; simp
  have hlpos : 0 < s.layers.length := by rw [hlen]; exact List.length_pos_of_ne_nil hne
  have hhead : (s.layers.map fun l => (l.zMin, l.zMax)).head? = some (s.layers[0].zMin, s.layers[0].zMax) := by
    rw [List.head?_eq_getElem?, List.getElem?_map, List.getElem?_eq_getElem hlpos]; rfl
  have hll : s.layers.length - 1 < s.layers.length := by omega
  have hlast : (s.layers.map fun l => (l.zMin, l.zMax)).getLast? =
      some (s.layers[s.layers.length - 1].zMin, s.layers[s.layers.length - 1].zMax) := by
    rw [List.getLast?_eq_getElem?, List.length_map, List.getElem?_map, List.getElem?_eq_getElem hll]; rfl
  unfold zGrid
  rw [hhead, hlast]
  simp only
  have e0 := (hpos.2 0 _ (List.getElem?_eq_getElem hlpos)).1
  have e1 := (hpos.2 _ _ (List.getElem?_eq_getElem hll)).2
  rw [e0, e1, Nat.sub_add_cancel hlpos, hlen, List.take_length]
  simp

/-- Both vertical planes, for points at which the layers report their periodic permittivity. -/
theorem vertical_planes (L : Lattice) (epsL epsU : ℝ) (ops : List (Op ℝ))
    (hne : passedThicknesses ops ≠ []) (hd : ∀ d ∈ passedThicknesses ops, 0 ≤ d)
    (ht : (passedThicknesses ops).sum < 10 ^ 10) (c : ℝ) (N Nz : ℕ)
    (hper : ∀ l ∈ (built L.toLat epsL epsU ops).regions, ∀ (sel : List (ℝ × ℝ)) (xs ys : List ℝ) (M : ℕ),
      (L.xyGrid N M .none = .ok (xs, ys) ∧ (∀ q ∈ sel, q.1 ∈ xs ∧ q.2 = c)) ∨
        (L.xyGrid M N .none = .ok (xs, ys) ∧ (∀ q ∈ sel, q.1 = c ∧ q.2 ∈ ys)) →
      l.getEps L.toLat sel = sel.map (periodicEps L.a1 L.a2 l.epsB (shapeData l))) :
    let s := built L.toLat epsL epsU ops
    let zs := linspace (-1) ((passedThicknesses ops).sum + 1) Nz
    (∃ (g : List ℝ × List ℝ) (im : EpsImage), L.xyGrid N 100 .none = .ok g ∧ vizEpsXz L s c N Nz = .ok im ∧
      ∀ (i j : ℕ) (x z : ℝ) (l : Layer ℝ), zs[i]? = some z → g.1[j]? = some x → l ∈ s.regions → InCO (l.zMin, l.zMax) z →
        (im.Z[i]?.bind (·[j]?)) = some (periodicEps L.a1 L.a2 l.epsB (shapeData l) (x, c))) ∧
    ∃ (g : List ℝ × List ℝ) (im : EpsImage), L.xyGrid 100 N .none = .ok g ∧ vizEpsYz L s c N Nz = .ok im ∧
      ∀ (i j : ℕ) (y z : ℝ) (l : Layer ℝ), zs[i]? = some z → g.2[j]? = some y → l ∈ s.regions → InCO (l.zMin, l.zMax) z →
        (im.Z[i]?.bind (·[j]?)) = some (periodicEps L.a1 L.a2 l.epsB (shapeData l) (c, y)) := by
  intro s zs
  constructor
  · obtain ⟨g, hg, -, -⟩ := xyGrid_ok L N 100
    refine ⟨g, ⟨unflat zs.length g.1.length (s.getEps (meshPts g.1 zs fun x z => ⟨x, c, z⟩)), gridExtent g.1 zs⟩, hg, ?_, ?_⟩
    · unfold vizEpsXz
      rw [hg, built_zGrid L.toLat epsL epsU ops hne]
      rfl
    · intro i j x z l hz hx hl hin
      refine unflat_get (List.getElem?_eq_some_iff.1 hz).1 (List.getElem?_eq_some_iff.1 hx).1 ?_
      refine getEps_periodic L epsL epsU ops hd ht _ _ _ (meshPts_get _ _ _ _ _ _ _ hx hz) l hl ?_ hin
      intro sel hsel
      refine hper l hl sel g.1 g.2 100 (.inl ⟨hg, fun q hq => ?_⟩)
      obtain ⟨a, ha, rfl⟩ := hsel q hq
      obtain ⟨u, hu, v, -, rfl⟩ := meshPts_mem ha
      exact ⟨hu, rfl⟩
  · obtain ⟨g, hg, -, -⟩ := xyGrid_ok L 100 N
    refine ⟨g, ⟨unflat zs.length g.2.length (s.getEps (meshPts g.2 zs fun y z => ⟨c, y, z⟩)), gridExtent g.2 zs⟩, hg, ?_, ?_⟩
    · unfold vizEpsYz
      rw [hg, built_zGrid L.toLat epsL epsU ops hne]
      rfl
    · intro i j x z l hz hx hl hin
      refine unflat_get (List.getElem?_eq_some_iff.1 hz).1 (List.getElem?_eq_some_iff.1 hx).1 ?_
      refine getEps_periodic L epsL epsU ops hd ht _ _ _ (meshPts_get _ _ _ _ _ _ _ hx hz) l hl ?_ hin
      intro sel hsel
      refine hper l hl sel g.1 g.2 100 (.inr ⟨hg, fun q hq => ?_⟩)
      obtain ⟨a, ha, rfl⟩ := hsel q hq
      obtain ⟨u, hu, v, -, rfl⟩ := meshPts_mem ha
      exact ⟨rfl, hu⟩

/-- **C116 (vertical planes).** For an orthogonal lattice and shapes around its origin, `viz.eps_xz` and `viz.eps_yz` show at
every point of the grid the periodic permittivity of the layer which contains the height of the point; the grid reaches from
1 below the lowest layer to 1 above the topmost. -/
theorem C116_vertical_partial (L : Lattice) (hL : Orthogonal L) (epsL epsU : ℝ) (ops : List (Op ℝ))
    (hne : passedThicknesses ops ≠ []) (hd : ∀ d ∈ passedThicknesses ops, 0 ≤ d)
    (ht : (passedThicknesses ops).sum < 10 ^ 10) (hc : ∀ l ∈ (built L.toLat epsL epsU ops).regions, Centred L l)
    (c : ℝ) (N Nz : ℕ) :
    let s := built L.toLat epsL epsU ops
    let zs := linspace (-1) ((passedThicknesses ops).sum + 1) Nz
    (∃ (g : List ℝ × List ℝ) (im : EpsImage), L.xyGrid N 100 .none = .ok g ∧ vizEpsXz L s c N Nz = .ok im ∧
      ∀ (i j : ℕ) (x z : ℝ) (l : Layer ℝ), zs[i]? = some z → g.1[j]? = some x → l ∈ s.regions → InCO (l.zMin, l.zMax) z →
        (im.Z[i]?.bind (·[j]?)) = some (periodicEps L.a1 L.a2 l.epsB (shapeData l) (x, c))) ∧
    ∃ (g : List ℝ × List ℝ) (im : EpsImage), L.xyGrid 100 N .none = .ok g ∧ vizEpsYz L s c N Nz = .ok im ∧
      ∀ (i j : ℕ) (y z : ℝ) (l : Layer ℝ), zs[i]? = some z → g.2[j]? = some y → l ∈ s.regions → InCO (l.zMin, l.zMax) z →
        (im.Z[i]?.bind (·[j]?)) = some (periodicEps L.a1 L.a2 l.epsB (shapeData l) (c, y)) :=
  vertical_planes L epsL epsU ops hne hd ht c N Nz fun l hl sel _ _ _ _ =>
    C08_orthogonal_partial L l sel hL.1 hL.2.1 hL.2.2 (hc l hl)

theorem linspace_between {a b : ℝ} (hab : a ≤ b) {n : ℕ} {x : ℝ} (hx : x ∈ linspace a b n) : a ≤ x ∧ x ≤ b := by
  unfold linspace at hx
  obtain ⟨i, hi, rfl⟩ := List.mem_map.1 hx
  have hi := List.mem_range.1 hi
  split_ifs with h
  · exact ⟨le_rfl, hab⟩
  · have h2 : (2 : ℝ) ≤ n := by exact_mod_cast (by omega : 2 ≤ n)
    have h0 : (0 : ℝ) ≤ (i : ℝ) / ((n : ℝ) - 1) := div_nonneg (Nat.cast_nonneg i) (by linarith)
    have h1 : (i : ℝ) / ((n : ℝ) - 1) ≤ 1 := by
      rw [div_le_one (by linarith)]
      have : ((i + 1 : ℕ) : ℝ) ≤ n := by exact_mod_cast hi
      push_cast at this
      linarith
    constructor <;> nlinarith

theorem maxAbs_nonneg (l : List ℝ) : 0 ≤ maxAbs l := by
  induction l with
  | nil => exact le_rfl
  | cons a l ih => exact ih.trans (le_max_right _ _)

/-- On the hexagonal lattice the window is wide enough within the grid of `xy_grid`. -/
theorem hexagonal_periodic (l : Layer ℝ)
    (hl : ∀ s ∈ l.shapes, ∀ q : ℝ × ℝ, s.isInside q = true → √(q.1 ^ 2 + q.2 ^ 2) ≤ 7 / 10) (pts : List (ℝ × ℝ))
    (hp : ∀ q ∈ pts, |q.1| ≤ 1 / 2 ∧ |q.2| ≤ √3 / 2) :
    l.getEps hexLattice.toLat pts = pts.map (periodicEps hexLattice.a1 hexLattice.a2 l.epsB (shapeData l)) := by
  have h3 : (√3 : ℝ) ^ 2 = 3 := Real.sq_sqrt (by norm_num)
  have h3' : (1.73 : ℝ) < √3 := by
    rw [show (1.73 : ℝ) = √(1.73 ^ 2) by rw [Real.sqrt_sq]; norm_num]
    exact Real.sqrt_lt_sqrt (by norm_num) (by norm_num)
  have hn1 : √((0.5 : ℝ) ^ 2 + (√3 / 2) ^ 2) = 1 := by
    rw [div_pow, h3]; norm_num
  have hn2 : √((0.5 : ℝ) ^ 2 + (-√3 / 2) ^ 2) = 1 := by
    rw [div_pow, neg_sq, h3]; norm_num
  have hdet : (0.5 : ℝ) * (-√3 / 2) - √3 / 2 * 0.5 = -(√3 / 2) := by ring
  have hX : maxAbs (pts.map Prod.fst) ≤ 1 / 2 := maxAbs_le _ _ (by norm_num) (by
    intro x hx
    obtain ⟨q, hq, rfl⟩ := List.mem_map.1 hx
    exact (hp q hq).1)
  have hY : maxAbs (pts.map Prod.snd) ≤ √3 / 2 := maxAbs_le _ _ (by positivity) (by
    intro x hx
    obtain ⟨q, hq, rfl⟩ := List.mem_map.1 hx
    exact (hp q hq).2)
  have hn : √((maxAbs (pts.map Prod.fst)) ^ 2 + (maxAbs (pts.map Prod.snd)) ^ 2) ≤ 1 := by
    rw [Real.sqrt_le_one]
    have := pow_le_pow_left₀ (maxAbs_nonneg (pts.map Prod.fst)) hX 2
    have h2 := pow_le_pow_left₀ (maxAbs_nonneg (pts.map Prod.snd)) hY 2
    rw [div_pow, h3] at h2
    linarith
  refine C08_get_eps_periodic_map_partial hexLattice l pts (7 / 10) (by norm_num) hl ?_ ?_
  · change (0.5 : ℝ) * (-√3 / 2) - √3 / 2 * 0.5 ≠ 0
    rw [hdet]
    intro h
    linarith
  · change (_ + 7 / 10) * max (√((0.5 : ℝ) ^ 2 + (√3 / 2) ^ 2)) (√((0.5 : ℝ) ^ 2 + (-√3 / 2) ^ 2)) <
      ((epsWindow hexLattice.a1 hexLattice.a2 pts : ℕ) + 1 : ℝ) * |(0.5 : ℝ) * (-√3 / 2) - √3 / 2 * 0.5|
    rw [hn1, hn2, max_self, mul_one, hdet, abs_neg, abs_of_pos (by linarith)]
    have hw : (1 : ℝ) ≤ (epsWindow hexLattice.a1 hexLattice.a2 pts : ℕ) := by
      unfold epsWindow
      push_cast
      have := Nat.cast_nonneg (α := ℝ) (Nat.floor (√((maxAbs (pts.map Prod.fst)) ^ 2 + (maxAbs (pts.map Prod.snd)) ^ 2) /
        min (√(hexLattice.a1.1 ^ 2 + hexLattice.a1.2 ^ 2)) (√(hexLattice.a2.1 ^ 2 + hexLattice.a2.2 ^ 2))))
      linarith
    nlinarith

theorem hexGrid_bounds {Nx Ny : ℕ} {xs ys : List ℝ} (h : hexLattice.xyGrid Nx Ny .none = .ok (xs, ys)) :
    (∀ x ∈ xs, |x| ≤ 1 / 2) ∧ ∀ y ∈ ys, |y| ≤ √3 / 2 := by
  have h3 : (0 : ℝ) < √3 := Real.sqrt_pos.2 (by norm_num)
  have hy : |max hexLattice.a1.2 hexLattice.a2.2| * 2 / 2 = √3 / 2 := by
    change |max (√3 / 2) (-√3 / 2)| * 2 / 2 = √3 / 2
    rw [max_eq_left (by linarith), abs_of_pos (by linarith)]
    ring
  have hx : |max hexLattice.a1.1 hexLattice.a2.1| * 2 / 2 = 1 / 2 := by
    change |max (0.5 : ℝ) 0.5| * 2 / 2 = 1 / 2
    rw [max_self, abs_of_pos (by norm_num)]
    norm_num
  unfold Lattice.xyGrid parsePeriods at h
  rw [if_neg (by
    change ¬ (LatType.hexagonal = .square ∨ LatType.hexagonal = .rectangular)
    simp)] at h
  simp only [bind, Except.bind, pure, Except.pure] at h
  rw [hx, hy] at h
  cases h
  exact ⟨fun x h => abs_le.2 (linspace_between (by norm_num) h), fun y h => abs_le.2 (linspace_between (by linarith) h)⟩

/-- **C116 (hexagonal lattice).** On `Lattice('hexagonal')`, with shapes within 7/10 of the origin, `viz.eps` shows the periodic
permittivity of the layer over its grid of two periods in both directions, and so do the vertical planes within 1/2 of the
origin. -/
theorem C116_hexagonal_partial (epsL epsU : ℝ) (ops : List (Op ℝ)) (hne : passedThicknesses ops ≠ [])
    (hd : ∀ d ∈ passedThicknesses ops, 0 ≤ d) (ht : (passedThicknesses ops).sum < 10 ^ 10)
    (hc : ∀ l ∈ (built hexLattice.toLat epsL epsU ops).regions,
      ∀ s ∈ l.shapes, ∀ q : ℝ × ℝ, s.isInside q = true → √(q.1 ^ 2 + q.2 ^ 2) ≤ 7 / 10)
    (c : ℝ) (hcc : |c| ≤ 1 / 2) (N M Nz : ℕ) (hN : 0 < N) (hM : 0 < M) :
    let s := built hexLattice.toLat epsL epsU ops
    let zs := linspace (-1) ((passedThicknesses ops).sum + 1) Nz
    (∀ l ∈ s.regions, ∃ (xs ys : List ℝ) (im : EpsImage), hexLattice.xyGrid N M .none = .ok (xs, ys) ∧
      vizEpsLayer hexLattice l N M = .ok im ∧
      ImageOf im xs ys fun x y => periodicEps hexLattice.a1 hexLattice.a2 l.epsB (shapeData l) (x, y)) ∧
    (∃ (g : List ℝ × List ℝ) (im : EpsImage), hexLattice.xyGrid N 100 .none = .ok g ∧ vizEpsXz hexLattice s c N Nz = .ok im ∧
      ∀ (i j : ℕ) (x z : ℝ) (l : Layer ℝ), zs[i]? = some z → g.1[j]? = some x → l ∈ s.regions → InCO (l.zMin, l.zMax) z →
        (im.Z[i]?.bind (·[j]?)) = some (periodicEps hexLattice.a1 hexLattice.a2 l.epsB (shapeData l) (x, c))) ∧
    ∃ (g : List ℝ × List ℝ) (im : EpsImage), hexLattice.xyGrid 100 N .none = .ok g ∧ vizEpsYz hexLattice s c N Nz = .ok im ∧
      ∀ (i j : ℕ) (y z : ℝ) (l : Layer ℝ), zs[i]? = some z → g.2[j]? = some y → l ∈ s.regions → InCO (l.zMin, l.zMax) z →
        (im.Z[i]?.bind (·[j]?)) = some (periodicEps hexLattice.a1 hexLattice.a2 l.epsB (shapeData l) (c, y)) := by
  intro s zs
  have h3' : (1 : ℝ) < √3 := by
    rw [show (1 : ℝ) = √1 by simp]
    exact Real.sqrt_lt_sqrt (by norm_num) (by norm_num)
  refine ⟨?_, vertical_planes hexLattice epsL epsU ops hne hd ht c N Nz ?_⟩
  · intro l hl
    obtain ⟨⟨xs, ys⟩, hg, hxs, hys⟩ := xyGrid_ok hexLattice N M
    refine ⟨xs, ys, ⟨unflat ys.length xs.length (l.getEps hexLattice.toLat (meshPts xs ys fun x y => (x, y))), gridExtent xs ys⟩,
      hg, ?_, ?_⟩
    · unfold vizEpsLayer
      rw [hg]
      rfl
    · apply imageOf_mk (ne_nil_of_length_pos hxs hN) (ne_nil_of_length_pos hys hM)
      rw [hexagonal_periodic l (hc l hl), meshPts_map]
      intro q hq
      obtain ⟨u, hu, v, hv, rfl⟩ := meshPts_mem hq
      have := hexGrid_bounds hg
      exact ⟨this.1 u hu, this.2 v hv⟩
  · intro l hl sel xs ys K h
    apply hexagonal_periodic l (hc l hl)
    rcases h with ⟨hg, h⟩ | ⟨hg, h⟩
    · intro q hq
      refine ⟨(hexGrid_bounds hg).1 _ (h q hq).1, ?_⟩
      rw [(h q hq).2]
      linarith
    · intro q hq
      refine ⟨?_, (hexGrid_bounds hg).2 _ (h q hq).2⟩
      rw [(h q hq).1]
      exact hcc

/-! ### The panels of `structure` -/

theorem vizEpsXy_ok (L : Lattice) (s : PhC ℝ) (z : ℝ) (Nx Ny : ℕ) : ∃ im, vizEpsXy L s z Nx Ny = .ok im := by
  obtain ⟨⟨xs, ys⟩, hg, -, -⟩ := xyGrid_ok L Nx Ny
  unfold vizEpsXy
  rw [hg]
  exact ⟨_, rfl⟩

theorem vizEpsXz_ok (L : Lattice) (s : PhC ℝ) {Nz : ℕ} {zs : List ℝ}
    (hz : zGrid (s.layers.map fun l => (l.zMin, l.zMax)) Nz 1 = .ok zs) (y : ℝ) (Nx : ℕ) : ∃ im, vizEpsXz L s y Nx Nz = .ok im := by
  obtain ⟨⟨xs, ys⟩, hg, -, -⟩ := xyGrid_ok L Nx 100
  unfold vizEpsXz
  rw [hg, hz]
  exact ⟨_, rfl⟩

theorem vizEpsYz_ok (L : Lattice) (s : PhC ℝ) {Nz : ℕ} {zs : List ℝ}
    (hz : zGrid (s.layers.map fun l => (l.zMin, l.zMax)) Nz 1 = .ok zs) (x : ℝ) (Ny : ℕ) : ∃ im, vizEpsYz L s x Ny Nz = .ok im := by
  obtain ⟨⟨xs, ys⟩, hg, -, -⟩ := xyGrid_ok L 100 Ny
  unfold vizEpsYz
  rw [hg, hz]
  exact ⟨_, rfl⟩

theorem allLayers_eq (s : PhC ℝ) (cladding : Bool) : allLayers s cladding = if cladding then s.regions else s.layers := by
  unfold allLayers PhC.regions
  cases cladding <;> simp

theorem allLayers_sub {s : PhC ℝ} {cladding : Bool} {l : Layer ℝ} (h : l ∈ allLayers s cladding) : l ∈ s.regions := by
  rw [allLayers_eq] at h
  cases cladding with
  | true => exact h
  | false => simp only [PhC.regions, List.mem_cons, List.mem_append]; exact .inr (.inl h)

theorem layerTitle_eq (s : PhC ℝ) (cladding : Bool) (i : ℕ) (hi : i < (allLayers s cladding).length) :
    layerTitle cladding (allLayers s cladding).length i =
      if cladding then (if i = 0 then .lower else if i = s.layers.length + 1 then .upper else .layer i) else .layer i := by
  rw [allLayers_eq] at hi ⊢
  unfold layerTitle
  cases cladding with
  | false => rfl
  | true =>
    simp only [if_true, PhC.regions, List.length_cons, List.length_append, List.length_nil] at hi ⊢
    by_cases h0 : i = 0
    · subst h0
      rw [if_neg (by omega), if_neg (by omega), if_pos rfl]
    · by_cases h1 : i = s.layers.length + 1
      · subst h1
        rw [if_neg (by omega), if_pos (by omega), if_neg h0, if_pos rfl]
      · rw [if_pos (by omega), if_neg h0, if_neg h1]

/-- **C116 (`structure`).** For every structure with at least one layer, `viz.structure` draws, in this order, the xz plane
through the origin and the yz plane through the origin if asked for, and one xy panel for each layer (and cladding, if asked
for) from bottom to top. The panel of a layer of positive thickness shows what `viz.eps` shows of that layer. All panels have
the same colour limits, those of `get_eps_bounds`. Quantum wells are marked in the vertical planes, at their heights, except
for a `GuidedModeExp` object. The titles number the layers from 0 without claddings and from 1 with claddings. -/
theorem C116_structure (L : Lattice) (epsL epsU : ℝ) (ops : List (Op ℝ)) (hne : passedThicknesses ops ≠ [])
    (hd : ∀ d ∈ passedThicknesses ops, 0 ≤ d) (ht : (passedThicknesses ops).sum < 10 ^ 10) (kind : VizStruct)
    (hk : kind = .gme ∨ kind = .phc ∨ kind = .pol) (Nx Ny Nz : ℕ) (cladding f xy xz yz : Bool)
    (hsome : (xy || xz || yz) = true) :
    let s := built L.toLat epsL epsU ops
    let all := if cladding then s.regions else s.layers
    let wells := if kind = .gme then [] else s.qws.map fun q => q.z
    let off := xz.toNat + yz.toNat
    ∃ ps, vizStructure kind L s Nx Ny Nz cladding f f xy xz yz = .ok ps ∧
      ps.length = off + (if xy then all.length else 0) ∧ (∀ P ∈ ps, P.clim = s.getEpsBounds) ∧
      (xz = true → ∃ P, ps[0]? = some P ∧ P.title = .xz ∧ vizEpsXz L s 0 Nx Nz = .ok P.image ∧ P.wells = wells) ∧
      (yz = true → ∃ P, ps[xz.toNat]? = some P ∧ P.title = .yz ∧ vizEpsYz L s 0 Ny Nz = .ok P.image ∧ P.wells = wells) ∧
      (xy = true → ∀ (i : ℕ) (l : Layer ℝ), all[i]? = some l → ∃ P, ps[off + i]? = some P ∧
        (l.zMin < l.zMax → vizEpsLayer L l Nx Ny = .ok P.image) ∧ P.wells = [] ∧
        P.title = if cladding then (if i = 0 then .lower else if i = s.layers.length + 1 then .upper else .layer i)
          else .layer i) := by
  intro s all wells off
  have hwells : structWells kind s = .ok wells := by
    rcases hk with rfl | rfl | rfl <;> simp [structWells, wells]
  have hz := fun nz => built_zGrid L.toLat epsL epsU ops hne nz
  have hall : allLayers s cladding = all := allLayers_eq s cladding
  have hlne : s.layers ≠ [] := by
    intro h
    have := (C01_layers_tile L.toLat epsL epsU ops).2.2.2.2.2
    change s.layers.map Layer.d = _ at this
    rw [h] at this
    exact hne this.symm
  have hallne : all ≠ [] := by
    simp only [all]
    split_ifs
    · simp [PhC.regions]
    · exact hlne
  obtain ⟨ixz, hxz⟩ := vizEpsXz_ok L s (hz Nz) 0 Nx
  obtain ⟨iyz, hyz⟩ := vizEpsYz_ok L s (hz Nz) 0 Ny
  choose im him using fun z => vizEpsXy_ok L s z Nx Ny
  set p : List EpsPanel := if xz then [⟨.xz, ixz, s.getEpsBounds, wells⟩] else [] with hp
  set q : List EpsPanel := if yz then [⟨.yz, iyz, s.getEpsBounds, wells⟩] else [] with hq
  set r : List EpsPanel := if xy then all.zipIdx.map fun li =>
    ⟨layerTitle cladding all.length li.2, im ((li.1.zMax + li.1.zMin) / 2), s.getEpsBounds, []⟩ else [] with hr
  have e1 : structXz L s wells Nx Nz xz = .ok p := by
    unfold structXz
    cases xz with
    | true => rw [if_pos rfl, hxz, hp]; rfl
    | false => rfl
  have e2 : structYz L s wells Ny Nz yz = .ok q := by
    unfold structYz
    cases yz with
    | true => rw [if_pos rfl, hyz, hq]; rfl
    | false => rfl
  have e3 : structXy L s Nx Ny cladding xy = .ok r := by
    unfold structXy
    simp only [hall]
    cases xy with
    | true =>
      rw [if_pos rfl, hr, if_pos rfl]
      apply mapM_eq_ok
      intro li _
      rw [him]; rfl
    | false => rfl
  have hpl : p.length = xz.toNat := by rw [hp]; cases xz <;> rfl
  have hql : q.length = yz.toNat := by rw [hq]; cases yz <;> rfl
  refine ⟨p ++ q ++ r, ?_, ?_, ?_, ?_, ?_, ?_⟩
  · unfold vizStructure
    rw [hwells]
    simp only [bind, Except.bind]
    rw [hall, if_neg (by simpa using hallne), hz 2]
    simp only [figCheck, beq_self_eq_true, if_true]
    rw [if_neg (by revert hsome; cases xy <;> cases xz <;> cases yz <;> simp), e1]
    simp only
    rw [e2]
    simp only
    rw [e3]
    rfl
  · rw [List.length_append, List.length_append, hpl, hql, hr]
    cases xy <;> simp [off]
  · intro P hP
    simp only [List.mem_append] at hP
    rcases hP with (hP | hP) | hP
    · rw [hp] at hP
      cases xz with
      | true => rw [if_pos rfl, List.mem_singleton] at hP; rw [hP]
      | false => simp at hP
    · rw [hq] at hP
      cases yz with
      | true => rw [if_pos rfl, List.mem_singleton] at hP; rw [hP]
      | false => simp at hP
    · rw [hr] at hP
      cases xy with
      | true =>
        rw [if_pos rfl] at hP
        obtain ⟨li, -, rfl⟩ := List.mem_map.1 hP
        rfl
      | false => simp at hP
  · rintro rfl
    exact ⟨_, by rw [hp]; rfl, rfl, hxz, rfl⟩
  · rintro rfl
    refine ⟨⟨.yz, iyz, s.getEpsBounds, wells⟩, ?_, rfl, hyz, rfl⟩
    rw [List.append_assoc, List.getElem?_append_right (by rw [hpl]), hpl, Nat.sub_self, hq]
    rfl
  · rintro rfl i l hi
    have hlt := (List.getElem?_eq_some_iff.1 hi).1
    refine ⟨⟨layerTitle cladding all.length i, im ((l.zMax + l.zMin) / 2), s.getEpsBounds, []⟩, ?_, ?_, rfl, ?_⟩
    · rw [List.getElem?_append_right (by rw [List.length_append, hpl, hql]; omega), List.length_append, hpl, hql,
        show off + i - (xz.toNat + yz.toNat) = i by simp only [off]; omega, hr, if_pos rfl, List.getElem?_map, List.getElem?_zipIdx, hi]
      simp
    · intro hlz
      have hmem : l ∈ s.regions := allLayers_sub (cladding := cladding) (by rw [hall]; exact List.mem_of_getElem? hi)
      have := C116_plane_in_layer L epsL epsU ops hd ht l hmem ((l.zMax + l.zMin) / 2) ⟨by linarith, by linarith⟩ Nx Ny
      rw [← this]
      exact him _
    · rw [← hall]
      exact layerTitle_eq s cladding i (by rw [hall]; exact hlt)

theorem unflat_bounded {us vs : List ℝ} {vals : List ℝ} {lo hi : ℝ}
    (h : ∀ (r c : ℕ) (u v : ℝ), us[c]? = some u → vs[r]? = some v → ∃ e, vals[r * us.length + c]? = some e ∧ lo ≤ e ∧ e ≤ hi) :
    ∀ row ∈ unflat vs.length us.length vals, ∀ e ∈ row, lo ≤ e ∧ e ≤ hi := by
  intro row hrow e he
  unfold unflat at hrow
  obtain ⟨r, hr, rfl⟩ := List.mem_map.1 hrow
  obtain ⟨c, hc, rfl⟩ := List.mem_map.1 he
  have hr := List.mem_range.1 hr
  have hc := List.mem_range.1 hc
  obtain ⟨e, h1, h2⟩ := h r c _ _ (List.getElem?_eq_getElem hc) (List.getElem?_eq_getElem hr)
  rw [List.getD_eq_getElem?_getD, h1]
  exact h2

/-- **C116 (colour limits).** No pixel of any panel of `viz.structure` is outside the colour limits of the panel. -/
theorem C116_structure_limits (L : Lattice) (epsL epsU : ℝ) (ops : List (Op ℝ)) (hne : passedThicknesses ops ≠ [])
    (hd : ∀ d ∈ passedThicknesses ops, 0 ≤ d) (ht : (passedThicknesses ops).sum + 1 < 10 ^ 10) (kind : VizStruct)
    (Nx Ny Nz : ℕ) (cladding gridspec fig xy xz yz : Bool) (ps : List EpsPanel)
    (h : vizStructure kind L (built L.toLat epsL epsU ops) Nx Ny Nz cladding gridspec fig xy xz yz = .ok ps) :
    ∀ P ∈ ps, ∀ row ∈ P.image.Z, ∀ e ∈ row, P.clim.1 ≤ e ∧ e ≤ P.clim.2 := by
  set s := built L.toLat epsL epsU ops with hs
  have ht' : (passedThicknesses ops).sum < 10 ^ 10 := by linarith
  have g := geo_built L.toLat epsL epsU ops
  have ho := geo_regions_ordered g hd ht'
  have hb := (Tiles.le_lo (geo_regions g) (by
    intro i hi
    obtain ⟨l, hl, rfl⟩ := List.mem_map.1 hi
    exact ho l hl)).2
  have hsum : 0 ≤ (passedThicknesses ops).sum := List.sum_nonneg hd
  have hz := fun nz => built_zGrid L.toLat epsL epsU ops hne nz
  have key : ∀ (us vs : List ℝ) (f : ℝ → ℝ → Pt ℝ), (∀ u ∈ us, ∀ v ∈ vs, (-10 ^ 10 : ℝ) ≤ (f u v).z ∧ (f u v).z < 10 ^ 10) →
      ∀ row ∈ unflat vs.length us.length (s.getEps (meshPts us vs f)), ∀ e ∈ row, s.getEpsBounds.1 ≤ e ∧ e ≤ s.getEpsBounds.2 := by
    intro us vs f hf
    apply unflat_bounded
    intro r c u v hu hv
    have := hf u (List.mem_of_getElem? hu) v (List.mem_of_getElem? hv)
    exact C03_get_eps_in_bounds L.toLat epsL epsU ops hd ht' _ _ _ (meshPts_get us f vs r c u v hu hv) this.1 this.2
  have hzr : ∀ (nz : ℕ) (z : ℝ), z ∈ linspace (-1) ((passedThicknesses ops).sum + 1) nz → (-10 ^ 10 : ℝ) ≤ z ∧ z < 10 ^ 10 := by
    intro nz z hz
    have := linspace_between (by linarith) hz
    constructor
    · have h1 := this.1
      norm_num at h1 ⊢
      linarith
    · linarith [this.2]
  unfold vizStructure at h
  obtain ⟨wells, -, h⟩ := bind_ok h
  split at h
  · cases h
  obtain ⟨_, -, h⟩ := bind_ok h
  obtain ⟨_, -, h⟩ := bind_ok h
  split at h
  · cases h
  obtain ⟨p, hp, h⟩ := bind_ok h
  obtain ⟨q, hq, h⟩ := bind_ok h
  obtain ⟨r, hr, h⟩ := bind_ok h
  cases h
  intro P hP
  simp only [List.mem_append] at hP
  rcases hP with (hP | hP) | hP
  · unfold structXz at hp
    split_ifs at hp
    · obtain ⟨⟨xs, ys⟩, hg, -, -⟩ := xyGrid_ok L Nx 100
      unfold vizEpsXz at hp
      rw [hg, hz Nz] at hp
      cases hp
      rw [List.mem_singleton] at hP
      subst hP
      exact key _ _ _ fun u _ v hv => hzr _ _ hv
    · cases hp; simp at hP
  · unfold structYz at hq
    split_ifs at hq
    · obtain ⟨⟨xs, ys⟩, hg, -, -⟩ := xyGrid_ok L 100 Ny
      unfold vizEpsYz at hq
      rw [hg, hz Nz] at hq
      cases hq
      rw [List.mem_singleton] at hP
      subst hP
      exact key _ _ _ fun u _ v hv => hzr _ _ hv
    · cases hq; simp at hP
  · unfold structXy at hr
    simp only at hr
    split_ifs at hr
    · obtain ⟨i, hi⟩ := List.mem_iff_getElem?.1 hP
      obtain ⟨hlen, hget⟩ := mapM_ok _ _ _ hr
      have hlt : i < (allLayers s cladding).zipIdx.length := by
        rw [← hlen]; exact (List.getElem?_eq_some_iff.1 hi).1
      obtain ⟨b, hb1, hb2⟩ := hget i _ (List.getElem?_eq_getElem hlt)
      cases hi.symm.trans hb1
      rw [List.getElem_zipIdx] at hb2
      have hlt' : i < (allLayers s cladding).length := by simpa using hlt
      have hmem : (allLayers s cladding)[i] ∈ s.regions := allLayers_sub (List.getElem_mem hlt')
      set l := (allLayers s cladding)[i] with hl
      obtain ⟨⟨xs, ys⟩, hg, -, -⟩ := xyGrid_ok L Nx Ny
      unfold vizEpsXy at hb2
      rw [hg] at hb2
      cases hb2
      have h1 := ho l hmem
      have h2 := hb l.iv (List.mem_map_of_mem hmem)
      simp only [Layer.iv, zInf] at h2
      refine key _ _ _ fun u _ v _ => ⟨?_, ?_⟩
      · change (-10 ^ 10 : ℝ) ≤ (l.zMax + l.zMin) / 2
        linarith [h2.1]
      · change (l.zMax + l.zMin) / 2 < (10 ^ 10 : ℝ)
        have h3 : l.zMin < 10 ^ 10 := by
          simp only [PhC.regions, List.mem_cons, List.mem_append, List.not_mem_nil, or_false] at hmem
          rcases hmem with h | h | h
          · rw [h, g.c0min]; exact neg_lt_self zInf_pos
          · obtain ⟨k, hk⟩ := List.mem_iff_getElem?.1 h
            have := ((C01_layer_positions L.toLat epsL epsU ops).2 k l hk).1
            rw [this]
            refine lt_of_le_of_lt ?_ ht'
            conv_rhs => rw [← List.take_append_drop k (passedThicknesses ops), List.sum_append]
            have := List.sum_nonneg (l := (passedThicknesses ops).drop k) fun x hx => hd x (List.mem_of_mem_drop hx)
            linarith
          · rw [h, geo_top g]; exact ht'
        linarith [h2.2]
    · cases hr; simp at hP

/-- **C116 (layers without thickness).** The panel of a layer of zero thickness shows the layer or cladding which begins at
its height, not the layer itself. -/
theorem C116_zero_thickness (L : Lattice) (epsL epsU : ℝ) (ops : List (Op ℝ)) (hd : ∀ d ∈ passedThicknesses ops, 0 ≤ d)
    (ht : (passedThicknesses ops).sum < 10 ^ 10) (l l' : Layer ℝ) (hz : l.zMin = l.zMax)
    (hl' : l' ∈ (built L.toLat epsL epsU ops).regions) (hz' : l'.zMin = l.zMax) (hpos : l'.zMin < l'.zMax) (Nx Ny : ℕ) :
    vizEpsXy L (built L.toLat epsL epsU ops) ((l.zMax + l.zMin) / 2) Nx Ny = vizEpsLayer L l' Nx Ny := by
  have : (l.zMax + l.zMin) / 2 = l'.zMin := by rw [hz', hz]; ring
  rw [this]
  exact C116_plane_in_layer L epsL epsU ops hd ht l' hl' _ ⟨le_rfl, hpos⟩ Nx Ny

/-- **C116 (errors of `structure`).** A `PlaneWaveExp` object, although documented, or anything else raises ValueError; a
structure without layers raises IndexError; only one of `gridspec` and `fig`, or no plane at all, raise ValueError. -/
theorem C116_structure_errors (L : Lattice) (epsL epsU : ℝ) (ops : List (Op ℝ)) (s : PhC ℝ) (kind : VizStruct) (Nx Ny Nz : ℕ)
    (cladding gridspec fig xy xz yz : Bool) :
    (kind = .pwe ∨ kind = .other → vizStructure kind L s Nx Ny Nz cladding gridspec fig xy xz yz = .error .valueError) ∧
    (kind = .gme ∨ kind = .phc ∨ kind = .pol →
      (s.layers = [] → vizStructure kind L s Nx Ny Nz cladding gridspec fig xy xz yz = .error .indexError) ∧
      (passedThicknesses ops ≠ [] → gridspec ≠ fig ∨ (xy = false ∧ xz = false ∧ yz = false) →
        vizStructure kind L (built L.toLat epsL epsU ops) Nx Ny Nz cladding gridspec fig xy xz yz = .error .valueError)) := by
  refine ⟨?_, fun hk => ⟨?_, ?_⟩⟩
  · rintro (rfl | rfl) <;> rfl
  · intro h
    have hw : ∃ w, structWells kind s = .ok w := by
      rcases hk with rfl | rfl | rfl <;> exact ⟨_, rfl⟩
    obtain ⟨w, hw⟩ := hw
    unfold vizStructure
    rw [hw, h]
    simp only [bind, Except.bind, List.map_nil, zGrid, List.head?_nil]
    split_ifs <;> rfl
  · intro hne h
    set s' := built L.toLat epsL epsU ops with hs'
    have hw : ∃ w, structWells kind s' = .ok w := by
      rcases hk with rfl | rfl | rfl <;> exact ⟨_, rfl⟩
    obtain ⟨w, hw⟩ := hw
    have hlne : s'.layers ≠ [] := by
      intro h
      have := (C01_layers_tile L.toLat epsL epsU ops).2.2.2.2.2
      change s'.layers.map Layer.d = _ at this
      rw [h] at this
      exact hne this.symm
    unfold vizStructure
    rw [hw, built_zGrid L.toLat epsL epsU ops hne]
    simp only [bind, Except.bind]
    rw [if_neg (by rw [allLayers_eq]; cases cladding <;> simp [PhC.regions, hlne])]
    rcases h with h | ⟨rfl, rfl, rfl⟩
    · have : (gridspec == fig) = false := by simpa using h
      simp [figCheck, this]
    · unfold figCheck
      cases gridspec <;> cases fig <;> rfl


/-! ### Images from Fourier series -/

namespace Spec

/-- The colour limits enclose all pixels of all panels and the value `e`, and are no wider than that. -/
def LimitsOf (lo hi e : ℝ) (ps : List FtPanel) : Prop :=
  (lo ≤ e ∧ e ≤ hi) ∧ (∀ P ∈ ps, ∀ row ∈ P.image.Z, ∀ v ∈ row, lo ≤ v ∧ v ≤ hi) ∧
  (lo = e ∨ ∃ P ∈ ps, ∃ row ∈ P.image.Z, lo ∈ row) ∧ (hi = e ∨ ∃ P ∈ ps, ∃ row ∈ P.image.Z, hi ∈ row)

end Spec

theorem rowMin_spec (l : List ℝ) (a : ℝ) : l.foldl min a ∈ a :: l ∧ ∀ b ∈ a :: l, l.foldl min a ≤ b := by
  induction l generalizing a with
  | nil => simp
  | cons c l ih =>
    rw [List.foldl_cons]
    obtain ⟨h1, h2⟩ := ih (min a c)
    constructor
    · rcases List.mem_cons.1 h1 with h | h
      · rw [h]
        rcases min_choice a c with e | e <;> rw [e] <;> simp
      · simp [h]
    · intro b hb
      have h0 := h2 _ List.mem_cons_self
      rcases List.mem_cons.1 hb with rfl | hb
      · exact h0.trans (min_le_left _ _)
      · rcases List.mem_cons.1 hb with rfl | hb
        · exact h0.trans (min_le_right _ _)
        · exact h2 _ (List.mem_cons_of_mem _ hb)

theorem arrMin_ok (A : List (List ℝ)) (h : A.flatten ≠ []) :
    ∃ m, arrMin A = .ok m ∧ m ∈ A.flatten ∧ ∀ x ∈ A.flatten, m ≤ x := by
  unfold arrMin
  cases hA : A.flatten with
  | nil => exact absurd hA h
  | cons a l => exact ⟨_, rfl, (rowMin_spec l a).1, (rowMin_spec l a).2⟩

theorem ftLimits_fold (ps : List FtPanel) (hne : ∀ P ∈ ps, P.image.Z.flatten ≠ []) (b : ℝ × ℝ) :
    ∃ b', (ps.foldlM (fun (b : ℝ × ℝ) p => do
        let lo ← arrMin p.image.Z
        let hi ← arrMax p.image.Z
        return (min b.1 lo, max b.2 hi)) b : Except PyErr (ℝ × ℝ)) = .ok b' ∧
      (b'.1 ≤ b.1 ∧ b.2 ≤ b'.2) ∧ (∀ P ∈ ps, ∀ row ∈ P.image.Z, ∀ v ∈ row, b'.1 ≤ v ∧ v ≤ b'.2) ∧
      (b'.1 = b.1 ∨ ∃ P ∈ ps, ∃ row ∈ P.image.Z, b'.1 ∈ row) ∧ (b'.2 = b.2 ∨ ∃ P ∈ ps, ∃ row ∈ P.image.Z, b'.2 ∈ row) := by
  induction ps generalizing b with
  | nil => exact ⟨b, rfl, ⟨le_rfl, le_rfl⟩, by simp, .inl rfl, .inl rfl⟩
  | cons P ps ih =>
    obtain ⟨lo, h1, h2, h3⟩ := arrMin_ok _ (hne P List.mem_cons_self)
    obtain ⟨hi, k1, k2, k3⟩ := arrMax_ok _ (hne P List.mem_cons_self)
    obtain ⟨b', e1, ⟨e2, e2'⟩, e3, e4, e5⟩ := ih (fun Q hQ => hne Q (List.mem_cons_of_mem _ hQ)) (min b.1 lo, max b.2 hi)
    obtain ⟨r1, hr1, hm1⟩ := List.mem_flatten.1 h2
    obtain ⟨r2, hr2, hm2⟩ := List.mem_flatten.1 k2
    refine ⟨b', ?_, ⟨e2.trans (min_le_left _ _), (le_max_left _ _).trans e2'⟩, ?_, ?_, ?_⟩
    · rw [List.foldlM_cons, h1]
      simp only [bind, Except.bind]
      rw [k1]
      exact e1
    · intro Q hQ row hrow v hv
      rcases List.mem_cons.1 hQ with rfl | hQ
      · have hv := List.mem_flatten.2 ⟨row, hrow, hv⟩
        exact ⟨(e2.trans (min_le_right _ _)).trans (h3 v hv), (k3 v hv).trans ((le_max_right _ _).trans e2')⟩
      · exact e3 Q hQ row hrow v hv
    · rcases e4 with e | ⟨Q, hQ, h⟩
      · simp only at e
        rcases min_choice b.1 lo with c | c
        · exact .inl (e.trans c)
        · exact .inr ⟨P, List.mem_cons_self, r1, hr1, by rw [e, c]; exact hm1⟩
      · exact .inr ⟨Q, List.mem_cons_of_mem _ hQ, h⟩
    · rcases e5 with e | ⟨Q, hQ, h⟩
      · simp only at e
        rcases max_choice b.2 hi with c | c
        · exact .inl (e.trans c)
        · exact .inr ⟨P, List.mem_cons_self, r2, hr2, by rw [e, c]; exact hm2⟩
      · exact .inr ⟨Q, List.mem_cons_of_mem _ hQ, h⟩

theorem ftLoop_ok (L : Lattice) (get : ℝ → List ℝ → List ℝ → Except PyErr (List (List ℂ))) (l0 : ℝ × ℝ) (rest : List (ℝ × ℝ))
    (Nx Ny : ℕ) (hx : 0 < Nx) (hy : 0 < Ny) (cladding : Bool) (F : ℕ → ℝ → ℝ → ℂ)
    (hget : ∀ (i : ℕ) (l : ℝ × ℝ), (l0 :: rest)[i]? = some l → ∀ xs ys : List ℝ,
      get l.1 xs ys = .ok (ys.map fun y => xs.map fun x => F i x y)) :
    ∃ (xs ys : List ℝ) (ps : List FtPanel) (lo hi : ℝ), L.xyGrid Nx Ny .none = .ok (xs, ys) ∧
      ftLoop L get (l0 :: rest) Nx Ny cladding false false = .ok (ps, lo, hi) ∧ ps.length = rest.length + 1 ∧
      (∀ i < rest.length + 1, ∃ P, ps[i]? = some P ∧ P.title = layerTitle cladding (rest.length + 1) i ∧
        ImageOf P.image xs ys fun x y => (F i x y).re) ∧ LimitsOf lo hi l0.2 ps := by
  obtain ⟨⟨xs, ys⟩, hg, hxs, hys⟩ := xyGrid_ok L Nx Ny
  simp only at hxs hys
  have hxn := ne_nil_of_length_pos hxs hx
  have hyn := ne_nil_of_length_pos hys hy
  set ps : List FtPanel := (l0 :: rest).zipIdx.map fun li =>
    ⟨layerTitle cladding (l0 :: rest).length li.2, (ys.map fun y => xs.map fun x => F li.2 x y).map fun row => row.map Complex.re,
      gridExtent xs ys⟩ with hps
  have hmap : ((l0 :: rest).zipIdx.mapM fun li => do
      let (xs, ys) ← L.xyGrid Nx Ny .none
      let E ← get li.1.1 xs ys
      return (⟨layerTitle cladding (l0 :: rest).length li.2, E.map fun row => row.map Complex.re, gridExtent xs ys⟩ : FtPanel)) =
      (.ok ps : Except PyErr (List FtPanel)) := by
    apply mapM_eq_ok
    rintro ⟨l, i⟩ hm
    rw [hg]
    simp only [bind, Except.bind]
    rw [hget i l (List.mem_zipIdx_iff_getElem?.1 hm)]
    rfl
  have hZ : ∀ P ∈ ps, P.image.Z.flatten ≠ [] := by
    intro P hP
    obtain ⟨li, -, rfl⟩ := List.mem_map.1 hP
    cases ys with
    | nil => exact absurd rfl hyn
    | cons y ys =>
      cases xs with
      | nil => exact absurd rfl hxn
      | cons x xs => simp
  obtain ⟨b, hb, h1, h2, h3, h4⟩ := ftLimits_fold ps hZ (l0.2, l0.2)
  refine ⟨xs, ys, ps, b.1, b.2, hg, ?_, by rw [hps]; simp, ?_, h1, h2, h3, h4⟩
  · unfold ftLoop
    simp only [ftFigCheck, bind, Except.bind]
    simp only [bind, Except.bind] at hmap
    rw [hmap]
    simp only
    unfold ftLimits
    simp only [bind, Except.bind] at hb
    simp only [bind, Except.bind]
    rw [hb]
    rfl
  · intro i hi
    refine ⟨⟨layerTitle cladding (rest.length + 1) i, (ys.map fun y => xs.map fun x => F i x y).map fun row => row.map Complex.re,
      gridExtent xs ys⟩, ?_, rfl, ?_, gridExtent_ends hxn hyn⟩
    · rw [hps, List.getElem?_map, List.getElem?_zipIdx, List.getElem?_eq_getElem (by simpa using hi)]
      simp
    · simp [Function.comp_def]

/-- Heights in one layer are not distinguished by `get_eps_xy`. -/
theorem zToLind_layer (lat : Lat ℝ) (epsL epsU : ℝ) (ops : List (Op ℝ)) (hd : ∀ d ∈ passedThicknesses ops, 0 ≤ d) (j : ℕ)
    (l : Layer ℝ) (hl : (built lat epsL epsU ops).layers[j]? = some l) (z : ℝ) (hz : InOC (l.zMin, l.zMax) z) :
    zToLind (built lat epsL epsU ops) z = j + 1 :=
  (C06_z_to_lind lat epsL epsU ops hd z (j + 1)).2 (.inr (.inl ⟨j, l, rfl, hl, hz⟩))

/-- The middle of region number `j` is found in region `j`. -/
theorem zToLind_mid (lat : Lat ℝ) (epsL epsU : ℝ) (ops : List (Op ℝ)) (hd : ∀ d ∈ passedThicknesses ops, 0 < d) (j : ℕ)
    (l : Layer ℝ) (hl : (built lat epsL epsU ops).regions[j]? = some l)
    (hc : j = (built lat epsL epsU ops).layers.length + 1 → (passedThicknesses ops).sum < 5 * 10 ^ 9) :
    zToLind (built lat epsL epsU ops) l.zMid = j := by
  have hd' : ∀ d ∈ passedThicknesses ops, 0 ≤ d := fun d h => (hd d h).le
  obtain ⟨hm, hm1⟩ := C61_z_mid lat epsL epsU ops
  have ht := C01_layers_tile lat epsL epsU ops
  have hp := C01_layer_positions lat epsL epsU ops
  set s := built lat epsL epsU ops with hs
  unfold PhC.regions at hl
  refine (C06_z_to_lind lat epsL epsU ops hd' l.zMid j).2 ?_
  cases j with
  | zero =>
    left
    simp only [List.getElem?_cons_zero, Option.some.injEq] at hl
    subst hl
    refine ⟨rfl, ?_⟩
    have := hm _ List.mem_cons_self
    rw [ht.1, ht.2.1] at this
    nlinarith
  | succ j =>
    right
    simp only [List.getElem?_cons_succ] at hl
    by_cases hj : j < s.layers.length
    · left
      rw [List.getElem?_append_left hj] at hl
      refine ⟨j, l, rfl, hl, ?_⟩
      have h2 := hm l (List.mem_cons_of_mem _ (List.mem_of_getElem? hl))
      have h3 : l.zMin < l.zMax := by
        have hmem : l.zMax - l.zMin ∈ passedThicknesses ops := by
          rw [← ht.2.2.2.2.1]
          exact List.mem_map.2 ⟨l, List.mem_of_getElem? hl, rfl⟩
        have := hd _ hmem
        linarith
      exact ⟨by change l.zMin < l.zMid; linarith, by change l.zMid ≤ l.zMax; linarith⟩
    · right
      rw [List.getElem?_append_right (by omega)] at hl
      have hj' : j = s.layers.length := by
        have := (List.getElem?_eq_some_iff.1 hl).1
        simp at this
        omega
      subst hj'
      simp only [Nat.sub_self, List.getElem?_cons_zero, Option.some.injEq] at hl
      subst hl
      refine ⟨rfl, ?_⟩
      rw [hp.1]
      have := hc rfl
      norm_num at hm1 this ⊢
      linarith

/-- **C116 (`eps_ft`, guided-mode expansion).** With `truncate_g='abs'` and layers of positive thickness, `viz.eps_ft` draws
one panel for each layer (and cladding, if asked for; the total thickness is then below half of the extent of the upper
cladding) from bottom to top, which shows the real part of the Fourier series that the expansion uses for that layer. The
common colour limits enclose all pixels and the background of the first layer, and are no wider. -/
theorem C116_eps_ft (L : Lattice) (epsL epsU : ℝ) (ops : List (Op ℝ)) (hne : passedThicknesses ops ≠ [])
    (hd : ∀ d ∈ passedThicknesses ops, 0 < d) (cladding : Bool)
    (hc : cladding = true → (passedThicknesses ops).sum < 5 * 10 ^ 9) (S : GmeStruct)
    (hS : S.layers.length = (built L.toLat epsL epsU ops).layers.length + 2)
    (hb : S.b1.1 * S.b2.2 - S.b1.2 * S.b2.1 ≠ 0) (hr : ∀ g ∈ S.layers, ∀ f ∈ g.shapes, RealShape f) (gmax : ℝ) (hg : 0 ≤ gmax)
    (D : Finset (ℤ × ℤ))
    (hD : ∀ d, d ∈ D ↔ ∃ i ∈ absInds S.b1 S.b2 gmax, ∃ j ∈ absInds S.b1 S.b2 gmax, d = i - j)
    (Nx Ny : ℕ) (hx : 0 < Nx) (hy : 0 < Ny) :
    let s := built L.toLat epsL epsU ops
    let all := if cladding then s.regions else s.layers
    ∃ (xs ys : List ℝ) (ps : List FtPanel) (lo hi e : ℝ), L.xyGrid Nx Ny .none = .ok (xs, ys) ∧
      vizEpsFtGme true L s S gmax Nx Ny cladding false false = .ok (ps, lo, hi) ∧ ps.length = all.length ∧
      (all.map fun l => l.epsB)[0]? = some e ∧ LimitsOf lo hi e ps ∧
      ∀ (i : ℕ) (l : Layer ℝ) (g : GmeLay), all[i]? = some l → S.layers[if cladding then i else i + 1]? = some g →
        ∃ P, ps[i]? = some P ∧
          P.title = (if cladding then (if i = 0 then .lower else if i = s.layers.length + 1 then .upper else .layer i)
            else .layer i) ∧
          ImageOf P.image xs ys fun x y => (fourierSum (layerFt g.epsB g.epsAvg S.ecArea g.shapes) S.b1 S.b2 D x y).re := by
  intro s all
  have hall : allLayers s cladding = all := allLayers_eq s cladding
  have hlne : s.layers ≠ [] := by
    intro h
    have := (C01_layers_tile L.toLat epsL epsU ops).2.2.2.2.2
    change s.layers.map Layer.d = _ at this
    rw [h] at this
    exact hne this.symm
  have hallne : all ≠ [] := by
    simp only [all]
    split_ifs
    · simp [PhC.regions]
    · exact hlne
  obtain ⟨a0, rest, hcons⟩ := List.exists_cons_of_ne_nil hallne
  -- number of the region shown in panel `i`
  have hreg : ∀ (i : ℕ) (l : Layer ℝ), all[i]? = some l → s.regions[if cladding then i else i + 1]? = some l := by
    intro i l h
    simp only [all] at h
    cases cladding with
    | true => exact h
    | false =>
      simp only [Bool.false_eq_true, if_false] at h ⊢
      have := (List.getElem?_eq_some_iff.1 h).1
      simp only [PhC.regions, List.getElem?_cons_succ]
      rw [List.getElem?_append_left this]
      exact h
  have hlen : ∀ (i : ℕ) (l : Layer ℝ), all[i]? = some l → (if cladding then i else i + 1) < S.layers.length := by
    intro i l h
    have := (List.getElem?_eq_some_iff.1 (hreg i l h)).1
    rw [hS]
    simp only [PhC.regions, List.length_cons, List.length_append, List.length_nil] at this
    exact this
  have hlind : ∀ (i : ℕ) (l : Layer ℝ), all[i]? = some l → zToLind s l.zMid = if cladding then i else i + 1 := by
    intro i l h
    apply zToLind_mid L.toLat epsL epsU ops hd _ l (hreg i l h)
    intro hi
    cases cladding with
    | true => exact hc rfl
    | false =>
      simp only [Bool.false_eq_true, if_false] at hi
      have := (List.getElem?_eq_some_iff.1 h).1
      simp only [all, Bool.false_eq_true, if_false] at this
      have hs : (built L.toLat epsL epsU ops).layers.length = s.layers.length := rfl
      omega
  obtain ⟨xs, ys, ps, lo, hi, h1, h2, h3, h4, h5⟩ := ftLoop_ok L (gmeEpsXy true s S gmax) (a0.zMid, a0.epsB)
    (rest.map fun l => (l.zMid, l.epsB)) Nx Ny hx hy cladding
    (fun i x y => match S.layers[if cladding then i else i + 1]? with
      | some g => fourierSum (layerFt g.epsB g.epsAvg S.ecArea g.shapes) S.b1 S.b2 D x y
      | none => 0) (by
    intro i m hm xs ys
    have hm' : (all.map fun l => (l.zMid, l.epsB))[i]? = some m := by rw [hcons]; exact hm
    rw [List.getElem?_map] at hm'
    obtain ⟨l, hl, rfl⟩ := Option.map_eq_some_iff.1 hm'
    have hlt := hlen i l hl
    have hgl := List.getElem?_eq_getElem hlt
    simp only
    rw [C98_gme_abs s S hb gmax l.zMid hg _ (by rw [hlind i l hl]; exact hgl) (hr _ (List.getElem_mem hlt)) xs ys D hD]
    rw [hgl])
  have hrl : rest.length + 1 = all.length := by rw [hcons]; rfl
  rw [List.length_map] at h3 h4
  refine ⟨xs, ys, ps, lo, hi, a0.epsB, h1, ?_, ?_, ?_, h5, ?_⟩
  · unfold vizEpsFtGme
    rw [hall, hcons]
    exact h2
  · rw [h3, hrl]
  · rw [hcons]; rfl
  · intro i l g hl hgl
    have hi := (List.getElem?_eq_some_iff.1 hl).1
    obtain ⟨P, hP, ht, him⟩ := h4 i (by omega)
    refine ⟨P, hP, ?_, ?_⟩
    · rw [ht, hrl, ← hall]
      exact layerTitle_eq s cladding i (by rw [hall]; exact hi)
    · rw [hgl] at him
      exact him

/-- **C116 (`eps_ft`, heights).** `eps_ft` asks for the permittivity at the recorded centre of each layer. In the upper
cladding this is always `5e9`: in a stack that reaches this height, the panel titled "upper cladding" shows the layer found
there. The panel of a layer without thickness shows the layer below, which ends at its height. -/
theorem C116_eps_ft_wrong_layer (lat : Lat ℝ) (epsL epsU : ℝ) (ops : List (Op ℝ)) (hd : ∀ d ∈ passedThicknesses ops, 0 ≤ d)
    (abs : Bool) (S : GmeStruct) (gmax : ℝ) (xs ys : List ℝ) :
    let s := built lat epsL epsU ops
    ∀ l ∈ s.layers,
      (InOC (l.zMin, l.zMax) (5 * 10 ^ 9) → gmeEpsXy abs s S gmax s.clad1.zMid xs ys = gmeEpsXy abs s S gmax l.zMid xs ys) ∧
      ∀ l' ∈ s.layers, l'.zMin = l'.zMax → l.zMin < l.zMax → l.zMax = l'.zMin →
        gmeEpsXy abs s S gmax l'.zMid xs ys = gmeEpsXy abs s S gmax l.zMid xs ys := by
  intro s l hl
  obtain ⟨j, hj⟩ := List.mem_iff_getElem?.1 hl
  obtain ⟨hm, hm1⟩ := C61_z_mid lat epsL epsU ops
  have h2 := hm l (List.mem_cons_of_mem _ hl)
  have key : ∀ z, InOC (l.zMin, l.zMax) z → gmeEpsXy abs s S gmax z xs ys = gmeEpsXy abs s S gmax l.zMid xs ys := by
    intro z hz
    have hlt : l.zMin < l.zMax := lt_of_lt_of_le hz.1 hz.2
    have e1 := zToLind_layer lat epsL epsU ops hd j l hj z hz
    have e2 := zToLind_layer lat epsL epsU ops hd j l hj l.zMid
      ⟨by change l.zMin < l.zMid; linarith, by change l.zMid ≤ l.zMax; linarith⟩
    unfold gmeEpsXy
    rw [e1, e2]
  constructor
  · intro h
    have : s.clad1.zMid = 5 * 10 ^ 9 := by
      have : 2 * s.clad1.zMid = 10 ^ 10 := hm1
      linarith
    rw [this]
    exact key _ h
  · intro l' hl' h1 h3 h4
    have h5 := hm l' (List.mem_cons_of_mem _ hl')
    exact key _ ⟨by change l.zMin < l'.zMid; linarith, by change l'.zMid ≤ l.zMax; linarith⟩

/-- **C116 (`eps_ft`, plane-wave expansion).** For a `PlaneWaveExp` object `viz.eps_ft` draws one panel with the real part of
the Fourier series that the expansion uses. With `cladding=True` it is titled "upper cladding". -/
theorem C116_eps_ft_pwe (L : Lattice) (P : PweLayer) (hb : P.b1.1 * P.b2.2 - P.b1.2 * P.b2.1 ≠ 0)
    (hr : ∀ s ∈ P.shapes, RealShape s) (gmax zmid : ℝ) (Nx Ny : ℕ) (hx : 0 < Nx) (hy : 0 < Ny) (cladding : Bool) :
    ∃ (xs ys : List ℝ) (Q : FtPanel) (lo hi : ℝ), L.xyGrid Nx Ny .none = .ok (xs, ys) ∧
      vizEpsFtPwe L P gmax zmid Nx Ny cladding false false = .ok ([Q], lo, hi) ∧ LimitsOf lo hi P.epsB [Q] ∧
      Q.title = (if cladding then .upper else .layer 0) ∧
      ImageOf Q.image xs ys fun x y => (fourierSum (layerFt P.epsB P.epsAvg P.ecArea P.shapes) P.b1 P.b2
        (rect ⌊2 * Real.pi * gmax / √(P.b1.1 ^ 2 + P.b1.2 ^ 2)⌋₊ ⌊2 * Real.pi * gmax / √(P.b2.1 ^ 2 + P.b2.2 ^ 2)⌋₊) x y).re := by
  obtain ⟨xs, ys, ps, lo, hi, h1, h2, h3, h4, h5⟩ := ftLoop_ok L (fun _ xs ys => .ok (pweEpsXy P gmax xs ys)) (zmid, P.epsB) []
    Nx Ny hx hy cladding (fun _ x y => fourierSum (layerFt P.epsB P.epsAvg P.ecArea P.shapes) P.b1 P.b2
        (rect ⌊2 * Real.pi * gmax / √(P.b1.1 ^ 2 + P.b1.2 ^ 2)⌋₊ ⌊2 * Real.pi * gmax / √(P.b2.1 ^ 2 + P.b2.2 ^ 2)⌋₊) x y) (by
    intro i l _ xs ys
    rw [C98_pwe P hb hr gmax xs ys])
  obtain ⟨Q, hQ, ht, him⟩ := h4 0 (by simp)
  have hps : ps = [Q] := by
    cases ps with
    | nil => simp at hQ
    | cons a l =>
      simp only [List.length_cons, List.length_nil] at h3
      have : l = [] := List.length_eq_zero_iff.1 (by omega)
      subst this
      simp only [List.getElem?_cons_zero, Option.some.injEq] at hQ
      rw [hQ]
  subst hps
  refine ⟨xs, ys, Q, lo, hi, h1, h2, h5, ?_, him⟩
  rw [ht]
  cases cladding <;> rfl

/-- **C116 (errors of `eps_ft`).** A structure without layers raises IndexError unless claddings are asked for; `gridspec` and
`fig` together, although documented, raise NameError, and only one of them ValueError. -/
theorem C116_eps_ft_errors (abs : Bool) (L : Lattice) (s : PhC ℝ) (S : GmeStruct) (gmax : ℝ) (Nx Ny : ℕ) (cladding gridspec fig : Bool) :
    (s.layers = [] → vizEpsFtGme abs L s S gmax Nx Ny false gridspec fig = .error .indexError) ∧
    (s.layers ≠ [] ∨ cladding = true →
      vizEpsFtGme abs L s S gmax Nx Ny cladding true true = .error .nameError ∧
      vizEpsFtGme abs L s S gmax Nx Ny cladding true false = .error .valueError ∧
      vizEpsFtGme abs L s S gmax Nx Ny cladding false true = .error .valueError) := by
  constructor
  · intro h
    unfold vizEpsFtGme
    rw [allLayers_eq, if_neg Bool.false_ne_true, h]
    rfl
  · intro h
    have : ∃ a l, (allLayers s cladding).map (fun l => (l.zMid, l.epsB)) = a :: l := by
      apply List.exists_cons_of_ne_nil
      rw [allLayers_eq]
      rcases h with h | rfl
      · cases cladding <;> simp [PhC.regions, h]
      · simp [PhC.regions]
    obtain ⟨a, l, h⟩ := this
    unfold vizEpsFtGme
    rw [h]
    exact ⟨rfl, rfl, rfl⟩

/-- **C116 (`pot_ft`).** With `truncate_g='tbt'`, `viz.pot_ft` raises IndexError for every well. With 'abs' it shows, between 0
and the absolute value of the potential, the real function on the grid whose Fourier coefficients are those of C110. -/
theorem C116_pot_ft (a1 a2 : R2) (W : ExcWell) (sh : List Drawn) (hD : WellDrawn a1 a2 W sh) (v : R2 → ℝ)
    (hv : IsPermittivity a1 a2 (max 0 (-W.V)) (sh.map fun s => (max 0 W.V, s.region)) v) (gmax : ℝ) (hg : 0 ≤ gmax)
    (L : Lattice) (Nx Ny : ℕ) (hx : 0 < Nx) (hy : 0 < Ny) :
    vizPotFt L W .tbt gmax Nx Ny false false = .error .indexError ∧
    ∃ (xs ys : List ℝ) (im : EpsImage) (f : ℝ → ℝ → ℝ), L.xyGrid Nx Ny .none = .ok (xs, ys) ∧
      vizPotFt L W .abs gmax Nx Ny false false = .ok (im, 0, |W.V|) ∧ ImageOf im xs ys f ∧
      ∀ i j : Fin (W.gvec .abs gmax).length, ‖component a1 a2 ((W.gvec .abs gmax)[j] - (W.gvec .abs gmax)[i])
        (fun x y => (f x y : ℂ)) - epsCoeff a1 a2 v ((W.gvec .abs gmax)[j] - (W.gvec .abs gmax)[i])‖ ≤ wellErr W sh := by
  obtain ⟨⟨xs, ys⟩, hgr, hxs, hys⟩ := xyGrid_ok L Nx Ny
  constructor
  · unfold vizPotFt
    rw [hgr]
    simp only [bind, Except.bind, ftFigCheck]
    rw [C110_potential_tbt W hD.resolved (wellDrawn_real hD) gmax hg]
    rfl
  · obtain ⟨f, h1, h2, -⟩ := C110_potential_abs a1 a2 W sh hD v hv gmax hg xs ys
    refine ⟨xs, ys, ⟨(ys.map fun y => xs.map fun x => (f x y : ℂ)).map fun row => row.map Complex.re, gridExtent xs ys⟩, f, hgr,
      ?_, ⟨?_, gridExtent_ends (ne_nil_of_length_pos hxs hx) (ne_nil_of_length_pos hys hy)⟩, h2⟩
    · unfold vizPotFt
      rw [hgr]
      simp only [bind, Except.bind, ftFigCheck]
      rw [h1]
      rfl
    · simp [Function.comp_def]

/-! ### Instances -/

theorem shapes_lower : "shapes".toLower = "shapes" := by decide +kernel

/-- Two layers with a circular hole in the first, and a quantum well. -/
noncomputable def vizOps : List (Op ℝ) :=
  [.addLayer 1 12 "shapes", .addShape (.single (circleShape 1 0 0 (3 / 10))) 0 .none, .addLayer 2 9 "shapes",
    .addQW ⟨1 / 2, 0, 0, 0, 0, 0, []⟩]

theorem vizOps_thick : passedThicknesses vizOps = [1, 2] := by
  simp [passedThicknesses, vizOps, shapes_lower]

theorem square_orthogonal : Orthogonal squareLattice :=
  ⟨by simp [squareLattice, mkLattice], by simp [squareLattice, mkLattice], by simp [squareLattice, mkLattice]⟩

theorem vizOps_shapes (lat : Lat ℝ) : ∀ l ∈ (built lat 1 1 vizOps).regions, ∀ s ∈ l.shapes, s = circleShape 1 0 0 (3 / 10) := by
  intro l hl s hs
  simp only [built, vizOps, PhC.run, List.foldl_cons, List.foldl_nil, PhC.step, PhC.addLayer, shapes_lower, if_true, PhC.init,
    PhC.nextZ, List.getLast?_nil, List.nil_append, PhC.addShape, List.length_cons, List.length_nil, PhC.addQW, mkShapesLayer,
    Layer.addShape, Layer.addShapeLoop, Layer.push, zInf] at hl
  norm_num [pyIndex] at hl
  simp only [PhC.regions, List.mem_cons, List.mem_append, List.not_mem_nil, or_false] at hl
  rcases hl with rfl | (rfl | rfl) | rfl <;> simp_all

theorem circle_within (s : Shape ℝ) (hs : s = circleShape 1 0 0 (3 / 10)) (q : ℝ × ℝ) (hq : s.isInside q = true) :
    √(q.1 ^ 2 + q.2 ^ 2) ≤ 3 / 10 := by
  subst hs
  simp only [circleShape, decide_eq_true_eq, sub_zero] at hq
  rw [← Real.sqrt_sq (show (0 : ℝ) ≤ 3 / 10 by norm_num)]
  exact Real.sqrt_le_sqrt hq

/-- All panels of the two layers and the claddings, for the square and the hexagonal lattice. -/
example (kind : VizStruct) (hk : kind = .gme ∨ kind = .phc ∨ kind = .pol) :
    (∃ ps, vizStructure kind squareLattice (built squareLattice.toLat 1 1 vizOps) 100 100 50 true false false true true true = .ok ps ∧
      ps.length = 6 ∧ ∀ P ∈ ps, ∀ row ∈ P.image.Z, ∀ e ∈ row, P.clim.1 ≤ e ∧ e ≤ P.clim.2) ∧
    (∀ l ∈ (built hexLattice.toLat 1 1 vizOps).regions, ∃ (xs ys : List ℝ) (im : EpsImage),
      hexLattice.xyGrid 100 100 .none = .ok (xs, ys) ∧ vizEpsLayer hexLattice l 100 100 = .ok im ∧
      ImageOf im xs ys fun x y => periodicEps hexLattice.a1 hexLattice.a2 l.epsB (shapeData l) (x, y)) := by
  have hne : passedThicknesses vizOps ≠ [] := by rw [vizOps_thick]; simp
  have hd : ∀ d ∈ passedThicknesses vizOps, 0 ≤ d := by
    rw [vizOps_thick]
    intro d hd
    simp only [List.mem_cons, List.not_mem_nil, or_false] at hd
    rcases hd with rfl | rfl <;> norm_num
  have ht : (passedThicknesses vizOps).sum + 1 < 10 ^ 10 := by rw [vizOps_thick]; norm_num
  constructor
  · obtain ⟨ps, h1, h2, -⟩ := C116_structure squareLattice 1 1 vizOps hne hd (by linarith) kind hk 100 100 50 true false true true true rfl
    refine ⟨ps, h1, ?_, C116_structure_limits squareLattice 1 1 vizOps hne hd ht kind 100 100 50 true false false true true true ps h1⟩
    have := (C01_layers_tile squareLattice.toLat 1 1 vizOps).2.2.2.2.2
    rw [vizOps_thick] at this
    have hl : (built squareLattice.toLat 1 1 vizOps).layers.length = 2 := by
      rw [← List.length_map (f := Layer.d), this]; rfl
    rw [h2]
    simp [PhC.regions, hl]
  · exact (C116_hexagonal_partial 1 1 vizOps hne hd (by linarith) (fun l hl s hs q hq =>
      (circle_within s (vizOps_shapes _ l hl s hs) q hq).trans (by norm_num)) 0 (by norm_num) 100 100 50 (by norm_num) (by norm_num)).1

/-- The vertical plane through the holes of the square lattice, and the image of each layer. -/
example : (∃ im, vizEpsXz squareLattice (built squareLattice.toLat 1 1 vizOps) 0 100 50 = .ok im) ∧
    ∀ l ∈ (built squareLattice.toLat 1 1 vizOps).regions, ∃ im, vizEpsLayer squareLattice l 100 100 = .ok im ∧
      ∃ xs ys, ImageOf im xs ys fun x y => periodicEps squareLattice.a1 squareLattice.a2 l.epsB (shapeData l) (x, y) := by
  have hne : passedThicknesses vizOps ≠ [] := by rw [vizOps_thick]; simp
  have hd : ∀ d ∈ passedThicknesses vizOps, 0 ≤ d := by
    rw [vizOps_thick]
    intro d hd
    simp only [List.mem_cons, List.not_mem_nil, or_false] at hd
    rcases hd with rfl | rfl <;> norm_num
  have hc : ∀ l ∈ (built squareLattice.toLat 1 1 vizOps).regions, Centred squareLattice l := by
    intro l hl s hs q hq
    refine (circle_within s (vizOps_shapes _ l hl s hs) q hq).trans ?_
    simp [squareLattice, mkLattice]
    norm_num
  constructor
  · obtain ⟨-, im, -, h, -⟩ := (C116_vertical_partial squareLattice square_orthogonal 1 1 vizOps hne hd
      (by rw [vizOps_thick]; norm_num) hc 0 100 50).1
    exact ⟨im, h⟩
  · intro l hl
    obtain ⟨xs, ys, im, -, h1, h2⟩ := C116_layer_image_partial squareLattice l square_orthogonal (hc l hl) 100 100 (by norm_num) (by norm_num)
    exact ⟨im, h1, xs, ys, h2⟩

/-- A layer without thickness below another one is not shown: its panel has the permittivity of the layer above. -/
example : let ops : List (Op ℝ) := [.addLayer 0 4 "shapes", .addLayer 1 9 "shapes"]
    let s := built squareLattice.toLat 1 1 ops
    ∃ l l', s.layers = [l, l'] ∧ l.epsB = 4 ∧ l'.epsB = 9 ∧
      vizEpsXy squareLattice s ((l.zMax + l.zMin) / 2) 10 10 = vizEpsLayer squareLattice l' 10 10 := by
  intro ops s
  have hth : passedThicknesses ops = [0, 1] := by simp [passedThicknesses, ops, shapes_lower]
  have hs : s.layers = [mkShapesLayer 0 (0 + 0) 4, mkShapesLayer (0 + 0) (0 + 0 + 1) 9] := by
    simp [s, ops, built, PhC.run, PhC.step, PhC.addLayer, shapes_lower, PhC.init, PhC.nextZ, mkShapesLayer]
  refine ⟨_, _, hs, rfl, rfl, ?_⟩
  apply C116_zero_thickness squareLattice 1 1 ops (by
    rw [hth]; intro d hd
    simp only [List.mem_cons, List.not_mem_nil, or_false] at hd
    rcases hd with rfl | rfl <;> norm_num) (by rw [hth]; norm_num)
  · simp [mkShapesLayer]
  · simp only [PhC.regions]
    change _ ∈ s.clad0 :: (s.layers ++ [s.clad1])
    rw [hs]; simp
  · simp [mkShapesLayer]
  · simp [mkShapesLayer]

/-- One patterned layer between two claddings, by its Fourier series. -/
example (J : ℝ → ℝ) (lo up : GmeLay) (hlo : lo.shapes = []) (hup : up.shapes = []) (cladding : Bool) :=
  C116_eps_ft squareLattice 1 1 [.addLayer 1 12 "shapes"] (by simp [passedThicknesses, shapes_lower])
    (by
      intro d hd
      simp only [passedThicknesses, shapes_lower, if_true, List.filterMap_cons, List.filterMap_nil, List.mem_singleton] at hd
      subst hd; norm_num) cladding (fun _ => by simp [passedThicknesses, shapes_lower]; norm_num)
    ⟨(2 * Real.pi, 0), (0, 2 * Real.pi), 1, [lo, ⟨.inner 1, 12, 10, none, [⟨1, Circle.ft J ⟨0.1, 0, 0.2⟩⟩]⟩, up]⟩
    (by simp [built, PhC.run, PhC.step, PhC.addLayer, shapes_lower, PhC.init])
    (by simp [Real.pi_ne_zero])
    (by
      intro g hg f hf
      simp only [List.mem_cons, List.not_mem_nil, or_false] at hg
      rcases hg with rfl | rfl | rfl
      · rw [hlo] at hf; simp at hf
      · rw [List.mem_singleton] at hf
        subst hf
        exact fun g => (C12_circle_conj J ⟨0.1, 0, 0.2⟩ g)
      · rw [hup] at hf; simp at hf) 3 (by norm_num)
    (absUnique (absInds (2 * Real.pi, 0) (0, 2 * Real.pi) 3)).toFinset (by
      intro d
      rw [List.mem_toFinset, mem_absUnique]
      constructor
      · rintro ⟨a, ha, b, hb, rfl⟩; exact ⟨b, hb, a, ha, rfl⟩
      · rintro ⟨a, ha, b, hb, rfl⟩; exact ⟨b, hb, a, ha, rfl⟩) 100 100 (by norm_num) (by norm_num)

/-- A layer of thickness `6e9` is shown under the title of the upper cladding. -/
example (lat : Lat ℝ) (S : GmeStruct) (xs ys : List ℝ) :
    let s := built lat 1 1 [.addLayer (6 * 10 ^ 9) 12 "shapes"]
    ∃ l ∈ s.layers, gmeEpsXy true s S 3 s.clad1.zMid xs ys = gmeEpsXy true s S 3 l.zMid xs ys := by
  intro s
  have hth : passedThicknesses [Op.addLayer (6 * 10 ^ 9 : ℝ) 12 "shapes"] = [6 * 10 ^ 9] := by simp [passedThicknesses, shapes_lower]
  have hs : s.layers = [mkShapesLayer 0 (0 + 6 * 10 ^ 9) 12] := by
    simp [s, built, PhC.run, PhC.step, PhC.addLayer, shapes_lower, PhC.init, PhC.nextZ]
  refine ⟨mkShapesLayer 0 (0 + 6 * 10 ^ 9) 12, by rw [hs]; simp, ?_⟩
  refine (C116_eps_ft_wrong_layer lat 1 1 _ (by rw [hth]; simp) true S 3 xs ys _ ?_).1 ?_
  · change _ ∈ s.layers
    rw [hs]; simp
  · constructor <;> norm_num [mkShapesLayer]

/-- A photonic crystal slab without thickness, a plane-wave expansion and a disc as exciton potential. -/
example (J : ℝ → ℝ) (gmax : ℝ) (cladding : Bool) :=
  C116_eps_ft_pwe squareLattice
    ⟨(2 * Real.pi, 0), (0, 2 * Real.pi), 1, 12, 12 - 11 * (Real.pi * 0.2 ^ 2), [⟨1, Circle.ft J ⟨0.1, 0, 0.2⟩⟩]⟩
    (by simp [Real.pi_ne_zero]) (by
      intro s hs
      rw [List.mem_singleton] at hs
      subst hs
      exact fun g => (C12_circle_conj J ⟨0.1, 0, 0.2⟩ g)) gmax 0 100 100 (by norm_num) (by norm_num) cladding

example (x y V : ℝ) (v : R2 → ℝ)
    (hv : IsPermittivity (1, 0) (0, 1) (max 0 (-V)) [(max 0 V, (drawnCircle 1 ⟨x, y, 0.2⟩).region)] v) :
    vizPotFt squareLattice (wellDisc x y V) .tbt 2 100 100 false false = .error .indexError ∧
    ∃ im, vizPotFt squareLattice (wellDisc x y V) .abs 2 100 100 false false = .ok (im, 0, |V|) := by
  obtain ⟨h, xs, ys, im, f, -, h1, -⟩ := C116_pot_ft (1, 0) (0, 1) _ _ (wellDisc_drawn x y V) v hv 2 (by norm_num) squareLattice 100 100
    (by norm_num) (by norm_num)
  exact ⟨h, im, h1⟩

end Legume
