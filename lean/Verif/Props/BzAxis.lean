import Verif.Model.BzAxis
import Verif.Spec.Path
import Verif.Props.Lattice
import Verif.Props.Plot

/-!
# C85 (abscissae and angles of a path), C86 (visualisation grids)
-/
namespace Legume

open Spec Real

/-! ### C85 -/

theorem kDists_sum (l : List (ℝ × ℝ)) : (kDists l).sum = pathLength l := by
  induction l with
  | nil => rfl
  | cons a l ih =>
    cases l with
    | nil => rfl
    | cons b l =>
      simp only [kDists, pathLength, List.sum_cons, ih]
      congr 2; ring

theorem kDists_take (l : List (ℝ × ℝ)) (i : ℕ) :
    ((kDists l).take i).sum = pathLength (l.take (i + 1)) := by
  induction l generalizing i with
  | nil => simp [kDists, pathLength]
  | cons a l ih =>
    cases l with
    | nil => simp [kDists, pathLength]
    | cons b l =>
      cases i with
      | zero => simp [kDists, pathLength]
      | succ i =>
        have := ih i
        simp only [kDists, List.take_succ_cons, List.sum_cons, pathLength] at this ⊢
        rw [this]
        congr 2; ring

/-- Distances along one straight segment sampled at `n` points. -/
theorem kDists_segment (p q : ℝ × ℝ) (n : ℕ) (hn : 0 < n) (t : List (ℝ × ℝ)) :
    kDists (bzSegment p q n ++ q :: t) =
      List.replicate n (√((q.1 - p.1) ^ 2 + (q.2 - p.2) ^ 2) / n) ++ kDists (q :: t) := by
  have hn' : (n : ℝ) ≠ 0 := by positivity
  set f : ℕ → ℝ × ℝ := fun (i : ℕ) =>
    (p.1 + (q.1 - p.1) * ((i : ℝ) / n), p.2 + (q.2 - p.2) * ((i : ℝ) / n)) with hf
  have hq : f n = q := by
    rw [hf]; simp [div_self hn']
  have hd : ∀ i : ℕ, √(((f (i + 1)).1 - (f i).1) ^ 2 + ((f (i + 1)).2 - (f i).2) ^ 2) =
      √((q.1 - p.1) ^ 2 + (q.2 - p.2) ^ 2) / n := by
    intro i
    have : ((f (i + 1)).1 - (f i).1) ^ 2 + ((f (i + 1)).2 - (f i).2) ^ 2 =
        ((q.1 - p.1) ^ 2 + (q.2 - p.2) ^ 2) / (n : ℝ) ^ 2 := by
      rw [hf]; simp only; push_cast; field_simp; ring
    rw [this, Real.sqrt_div (by positivity), Real.sqrt_sq (by positivity)]
  have key : ∀ m i : ℕ, i + m = n → kDists ((List.range' i m).map f ++ q :: t) =
      List.replicate m (√((q.1 - p.1) ^ 2 + (q.2 - p.2) ^ 2) / n) ++ kDists (q :: t) := by
    intro m
    induction m with
    | zero => intro i _; simp
    | succ m ih =>
      intro i hi
      have h1 := ih (i + 1) (by omega)
      rw [List.range'_succ, List.map_cons, List.cons_append, List.replicate_succ, List.cons_append,
        ← h1]
      cases m with
      | zero =>
        have : i + 1 = n := by omega
        simp only [List.range'_zero, List.map_nil, List.nil_append, kDists]
        rw [← hd i, this, hq]
      | succ m =>
        rw [List.range'_succ, List.map_cons, List.cons_append]
        simp only [kDists]
        rw [hd]
  have := key n 0 (by omega)
  rw [← this]
  congr 2
  rw [← List.range_eq_range']
  rfl

theorem bzLoop_head (p : ℝ × ℝ) (ps : List (ℝ × ℝ)) (ns : List ℕ) (c : ℕ)
    (h : (p :: ps).length = ns.length + 1) (hpos : ∀ n ∈ ns, 0 < n) :
    ∃ t, (bzLoop (p :: ps) ns c).1 = p :: t := by
  cases ns with
  | nil =>
    cases ps with
    | nil => exact ⟨[], rfl⟩
    | cons q ps => simp at h
  | cons n ns =>
    cases ps with
    | nil => simp at h
    | cons q ps =>
      have h0 := hpos n (by simp)
      obtain ⟨m, rfl⟩ := Nat.exists_eq_succ_of_ne_zero h0.ne'
      simp only [bzLoop, bzSegment]
      rw [List.range_succ_eq_map, List.map_cons, List.cons_append]
      exact ⟨_, congrArg₂ List.cons (by simp) rfl⟩

/-- Distance walked when the `j`-th requested point is reached. -/
theorem bzLoop_walked (ps : List (ℝ × ℝ)) (ns : List ℕ) (c : ℕ) (h : ps.length = ns.length + 1)
    (hpos : ∀ n ∈ ns, 0 < n) (j : ℕ) (hj : j ≤ ns.length) :
    ((kDists (bzLoop ps ns c).1).take (ns.take j).sum).sum = ((kDists ps).take j).sum := by
  induction ns generalizing ps c j with
  | nil => simp at hj; subst hj; simp
  | cons n ns ih =>
    match ps, h with
    | p1 :: p2 :: ps, h =>
      have h0 := hpos n (by simp)
      have hn' : (n : ℝ) ≠ 0 := by positivity
      have hpos' : ∀ m ∈ ns, 0 < m := fun m hm => hpos m (by simp [hm])
      obtain ⟨t, ht⟩ := bzLoop_head p2 ps ns (c + n) (by simpa using h) hpos'
      cases j with
      | zero => simp
      | succ j =>
        have := ih (p2 :: ps) (c + n) (by simpa using h) hpos' j (by simpa using hj)
        simp only [bzLoop, List.take_succ_cons, List.sum_cons]
        rw [ht] at this ⊢
        rw [kDists_segment _ _ _ h0, List.take_append, List.sum_append]
        simp only [List.length_replicate, Nat.add_sub_cancel_left, this, kDists,
          List.take_succ_cons, List.sum_cons]
        rw [List.take_replicate, Nat.min_eq_right (by omega), List.sum_replicate, nsmul_eq_mul,
          mul_div_cancel₀ _ hn']

theorem mapM_ok_get {α β : Type} (f : α → Except PyErr β) (l : List α) (r : List β)
    (h : l.mapM f = .ok r) : r.length = l.length ∧ ∀ (i : ℕ) (a : α), l[i]? = some a →
      ∃ b, f a = .ok b ∧ r[i]? = some b := by
  induction l generalizing r with
  | nil => cases h; simp
  | cons a l ih =>
    rw [List.mapM_cons] at h
    cases ha : f a with
    | error e => rw [ha] at h; cases h
    | ok b =>
      rw [ha] at h
      cases hl : l.mapM f with
      | error e => rw [hl] at h; cases h
      | ok s =>
        rw [hl] at h; cases h
        obtain ⟨h1, h2⟩ := ih s hl
        refine ⟨by simp [h1], fun i a' hi => ?_⟩
        cases i with
        | zero => simp at hi; subst hi; exact ⟨b, ha, by simp⟩
        | succ i => simpa using h2 i a' (by simpa using hi)

theorem takeInds_total {α : Type} (l : List α) (inds : List ℕ) (h : ∀ i ∈ inds, i < l.length) :
    ∃ r, takeInds l inds = .ok r := by
  unfold takeInds
  induction inds with
  | nil => exact ⟨[], rfl⟩
  | cons i inds ih =>
    obtain ⟨r, hr⟩ := ih fun j hj => h j (by simp [hj])
    have hi := h i (by simp)
    rw [List.mapM_cons, List.getElem?_eq_getElem hi, hr]
    exact ⟨_, rfl⟩

theorem takeInds_outside {α : Type} (l : List α) (inds : List ℕ) (h : ∃ i ∈ inds, l.length ≤ i) :
    takeInds l inds = .error .indexError := by
  unfold takeInds
  induction inds with
  | nil => simp at h
  | cons i inds ih =>
    rw [List.mapM_cons]
    by_cases hi : l.length ≤ i
    · rw [List.getElem?_eq_none hi]
      rfl
    · rw [List.getElem?_eq_getElem (by omega)]
      obtain ⟨j, hj, hl⟩ := h
      rw [ih ⟨j, (List.mem_cons.1 hj).resolve_left fun e => hi (e ▸ hl), hl⟩]
      rfl

theorem bzKs_length (k : List (ℝ × ℝ)) (h : k ≠ []) : (bzKs k).length = k.length := by
  have hl : 0 < k.length := List.length_pos_iff.2 h
  unfold bzKs
  split_ifs
  · simp [kDists_length]; omega
  · simp [kDists_length, cumsum]; omega

theorem sum_take_map_div (l : List ℝ) (c : ℝ) (i : ℕ) :
    ((l.map (· / c)).take i).sum = (l.take i).sum / c := by
  induction l generalizing i with
  | nil => simp
  | cons a l ih => cases i <;> simp [ih, add_div]

theorem bzKs_get (k : List (ℝ × ℝ)) (hs : (kDists k).sum ≠ 0) (i : ℕ) (hi : i < k.length) :
    (bzKs k)[i]? = some (some (((kDists k).take i).sum / (kDists k).sum)) := by
  unfold bzKs
  rw [if_neg hs]
  cases i with
  | zero => simp
  | succ i =>
    rw [List.getElem?_cons_succ]
    simp only [cumsum, List.getElem?_map, List.length_map, kDists_length]
    rw [List.getElem?_range (by omega)]
    simp only [Option.map_some, sum_take_map_div]

theorem pathLength_nonneg (l : List (ℝ × ℝ)) : 0 ≤ pathLength l := by
  induction l with
  | nil => simp [pathLength]
  | cons a l ih =>
    cases l with
    | nil => simp [pathLength]
    | cons b l => simp only [pathLength]; positivity

/-- The abscissa of every requested point is the fraction of the length of the broken line through the
requested points that precedes it, whatever the numbers of points on the segments. -/
theorem C85_abscissae (L : Lattice) (pts : List PtArg) (l : List ℕ) (symmG : PtArg)
    (ki : List (Option ℝ)) (ang : List ℝ) (P : List (ℝ × ℝ)) (hP : pts.mapM L.parsePoint = .ok P)
    (h : L.bzAxis pts (.list l) symmG = .ok (ki, ang)) (hpos : ∀ n ∈ l, 0 < n)
    (hlen : pathLength P ≠ 0) :
    ki.length = pts.length ∧
    (∀ j < pts.length, ki[j]? = some (some (pathLength (P.take (j + 1)) / pathLength P))) ∧
    ki.head? = some (some 0) ∧ ki.getLast? = some (some 1) := by
  have hmain : ki.length = pts.length ∧ 2 ≤ pts.length ∧ P.length = pts.length ∧
      (∀ j < pts.length, ki[j]? = some (some (pathLength (P.take (j + 1)) / pathLength P))) := by
    unfold Lattice.bzAxis at h
    cases hb : L.bzPath pts (.list l) symmG with
    | error e => rw [hb] at h; cases h
    | ok r =>
      obtain ⟨ks, inds⟩ := r
      rw [hb] at h
      obtain ⟨N, P', hP', hPl, h2, hN, hNl, hksl, hil, hinds, -, -⟩ := C10_bz_path L pts _ symmG ks inds hb
      have hPP : P' = P := by rw [hP] at hP'; cases hP'; rfl
      subst hPP
      have hNpos : ∀ n ∈ N, 0 < n := by
        rcases hN with hN | ⟨n, hn, hrep⟩
        · cases hN; exact hpos
        · cases hn
          rw [hrep]; intro m hm
          rw [List.eq_of_mem_replicate hm]; exact hpos n (by simp)
      cases hs : L.parsePoint symmG with
      | error e => rw [hs] at h; cases h
      | ok s =>
        rw [hs] at h
        -- the k-points
        have hk : ks = (bzLoop P' N 0).1 := by
          unfold Lattice.bzPath at hb
          cases hNN : parseNs pts.length (.list l) with
          | error e => rw [hNN] at hb; cases hb
          | ok N' =>
            have hp2 : L.parsePoints pts = .ok P' := hP
            rw [hNN, hp2, hs] at hb
            cases hb
            have : N' = N := by
              unfold parseNs at hNN
              dsimp only at hNN
              rw [if_neg (by omega)] at hNN
              rcases hN with hN | ⟨n, hn, hrep⟩
              · cases hN
                split_ifs at hNN with h1
                · cases hNN
                  match l, h1 with
                  | [n], _ =>
                    simp at hNl
                    have : pts.length - 1 = 1 := by omega
                    rw [this]; rfl
                · cases hNN; rfl
              · cases hn
                simp at hNN
                rw [hrep, hNN]
            rw [this]
        have hl' : P'.length = N.length + 1 := by omega
        cases ht : takeInds (bzKs ks) inds with
        | error e =>
          have := takeInds_total (bzKs ks) inds (by
            intro i hi
            have hne : ks ≠ [] := by intro hc; rw [hc] at hksl; simp at hksl
            rw [bzKs_length ks hne, hksl]
            obtain ⟨j, hj⟩ := List.mem_iff_getElem?.1 hi
            have hjl : j < pts.length := by
              rw [← hil]; exact (List.getElem?_eq_some_iff.1 hj).1
            rw [hinds j hjl] at hj
            cases hj
            have := List.sum_take_add_sum_drop N j
            omega)
          obtain ⟨r, hr⟩ := this
          rw [hr] at ht; cases ht
        | ok k' =>
          have hkk : ki = k' := by
            have h3 : (Except.ok (k', bzAngles ks s) : Except PyErr _) = .ok (ki, ang) := by
              rw [← h]; simp only [bind, Except.bind]; rw [ht]; rfl
            cases h3; rfl
          subst hkk
          obtain ⟨hlen1, hget⟩ := mapM_ok_get _ _ _ ht
          refine ⟨by omega, h2, hPl, fun j hj => ?_⟩
          obtain ⟨b, hb1, hb2⟩ := hget j _ (hinds j hj)
          rw [hb2]
          have hsum : (kDists ks).sum = pathLength P' := by
            rw [← kDists_sum P']
            have h4 := bzLoop_walked P' N 0 hl' hNpos N.length le_rfl
            rw [List.take_length, ← hk] at h4
            have h5 : N.sum = (kDists ks).length := by rw [kDists_length, hksl]; omega
            have h6 : N.length = (kDists P').length := by rw [kDists_length]; omega
            rwa [h5, List.take_length, h6, List.take_length] at h4
          have hlt : (N.take j).sum < ks.length := by
            have := List.sum_take_add_sum_drop N j
            omega
          have hg := bzKs_get ks (by rw [hsum]; exact hlen) _ hlt
          rw [hg] at hb1
          cases hb1
          rw [hsum, hk, bzLoop_walked P' N 0 hl' hNpos j (by omega), kDists_take]
  obtain ⟨h1, h2, h3, h4⟩ := hmain
  refine ⟨h1, h4, ?_, ?_⟩
  · rw [List.head?_eq_getElem?, h4 0 (by omega)]
    match P, h3 with
    | p :: P, _ => simp [pathLength]
  · rw [List.getLast?_eq_getElem?, h1, h4 _ (by omega)]
    have : pts.length - 1 + 1 = P.length := by omega
    rw [this, List.take_length, div_self hlen]

theorem angleDeg_spec (p : ℝ × ℝ) : -180 < angleDeg p ∧ angleDeg p ≤ 180 ∧
    p = (√(p.1 ^ 2 + p.2 ^ 2) * Real.cos (angleDeg p * π / 180),
      √(p.1 ^ 2 + p.2 ^ 2) * Real.sin (angleDeg p * π / 180)) := by
  have hpi := Real.pi_pos
  unfold angleDeg
  have h1 := Complex.neg_pi_lt_arg ⟨p.1, p.2⟩
  have h2 := Complex.arg_le_pi ⟨p.1, p.2⟩
  have h3 : Complex.arg ⟨p.1, p.2⟩ * 180 / π * π / 180 = Complex.arg ⟨p.1, p.2⟩ := by
    field_simp
  refine ⟨?_, ?_, ?_⟩
  · rw [lt_div_iff₀ hpi]; linarith
  · rw [div_le_iff₀ hpi]; linarith
  · rw [h3, ← Complex.norm_eq_sqrt_sq_add_sq ⟨p.1, p.2⟩, Complex.norm_mul_cos_arg,
      Complex.norm_mul_sin_arg]

/-- There is one angle per k-point: the direction of the k-point, or that of `symm_g` at the origin. -/
theorem C85_angles (L : Lattice) (pts : List PtArg) (ns : NsArg) (symmG : PtArg)
    (ki : List (Option ℝ)) (ang : List ℝ) (h : L.bzAxis pts ns symmG = .ok (ki, ang)) :
    ∃ (ks : List (ℝ × ℝ)) (inds : List ℕ) (s : ℝ × ℝ), L.bzPath pts ns symmG = .ok (ks, inds) ∧
      L.parsePoint symmG = .ok s ∧ ang.length = ks.length ∧
      ∀ (i : ℕ) (k : ℝ × ℝ) (a : ℝ), ks[i]? = some k → ang[i]? = some a →
        -180 < a ∧ a ≤ 180 ∧
        (k ≠ (0, 0) → k = (√(k.1 ^ 2 + k.2 ^ 2) * Real.cos (a * π / 180),
          √(k.1 ^ 2 + k.2 ^ 2) * Real.sin (a * π / 180))) ∧
        (k = (0, 0) → s = (√(s.1 ^ 2 + s.2 ^ 2) * Real.cos (a * π / 180),
          √(s.1 ^ 2 + s.2 ^ 2) * Real.sin (a * π / 180))) ∧
        (k = (0, 0) → s = (0, 0) → a = 0) := by
  unfold Lattice.bzAxis at h
  cases hb : L.bzPath pts ns symmG with
  | error e => rw [hb] at h; cases h
  | ok r =>
    obtain ⟨ks, inds⟩ := r
    rw [hb] at h
    cases hs : L.parsePoint symmG with
    | error e => rw [hs] at h; cases h
    | ok s =>
      rw [hs] at h
      cases ht : takeInds (bzKs ks) inds with
      | error e => simp only [bind, Except.bind] at h; rw [ht] at h; cases h
      | ok k' =>
        have hang : ang = bzAngles ks s := by
          have h3 : (Except.ok (k', bzAngles ks s) : Except PyErr _) = .ok (ki, ang) := by
            rw [← h]; simp only [bind, Except.bind]; rw [ht]; rfl
          cases h3; rfl
        refine ⟨ks, inds, s, rfl, rfl, by rw [hang]; simp [bzAngles], ?_⟩
        intro i k a hk ha
        rw [hang, bzAngles, List.getElem?_map, hk, Option.map_some] at ha
        have hks := angleDeg_spec k
        have hss := angleDeg_spec s
        by_cases h0 : k.1 = 0 ∧ k.2 = 0
        · rw [if_pos h0] at ha
          cases ha
          have hk0 : k = (0, 0) := Prod.ext h0.1 h0.2
          refine ⟨hss.1, hss.2.1, fun hc => absurd hk0 hc, fun _ => hss.2.2, ?_⟩
          rintro - rfl
          have h9 : (⟨(0:ℝ), (0:ℝ)⟩ : ℂ) = 0 := rfl
          simp [angleDeg, h9]
        · rw [if_neg h0] at ha
          cases ha
          have hk0 : k ≠ (0, 0) := by rintro rfl; simp at h0
          exact ⟨hks.1, hks.2.1, fun _ => hks.2.2, fun hc => absurd hc hk0, fun hc => absurd hc hk0⟩

/-! ### C86 -/

theorem linspace_get (a b : ℝ) (n i : ℕ) (hn : 2 ≤ n) (hi : i < n) :
    (linspace a b n)[i]? = some (a + (b - a) * ((i : ℝ) / ((n : ℝ) - 1))) := by
  unfold linspace
  rw [List.getElem?_map, List.getElem?_range hi, Option.map_some, if_neg (by omega)]

theorem linspace_length (a b : ℝ) (n : ℕ) : (linspace a b n).length = n := by simp [linspace]

theorem linspace_last (a b : ℝ) (n : ℕ) (hn : 2 ≤ n) : (linspace a b n)[n - 1]? = some b := by
  have h1 : (n : ℝ) - 1 ≠ 0 := by
    have : (2:ℝ) ≤ n := by exact_mod_cast hn
    linarith
  rw [linspace_get a b n _ hn (by omega)]
  have : ((n - 1 : ℕ) : ℝ) = (n : ℝ) - 1 := by rw [Nat.cast_sub (by omega)]; simp
  rw [this, div_self h1]; simp

theorem linspace_first (a b : ℝ) (n : ℕ) (hn : 2 ≤ n) : (linspace a b n)[0]? = some a := by
  rw [linspace_get a b n 0 hn (by omega)]; simp

/-- A symmetric grid is mirrored onto itself. -/
theorem linspace_symm (c : ℝ) (n i : ℕ) (hn : 2 ≤ n) (hi : i < n) (x : ℝ)
    (hx : (linspace (-c) c n)[i]? = some x) : (linspace (-c) c n)[n - 1 - i]? = some (-x) := by
  have h1 : (n : ℝ) - 1 ≠ 0 := by
    have : (2:ℝ) ≤ n := by exact_mod_cast hn
    linarith
  rw [linspace_get _ _ n i hn hi] at hx
  cases hx
  rw [linspace_get _ _ n _ hn (by omega)]
  have : ((n - 1 - i : ℕ) : ℝ) = (n : ℝ) - 1 - i := by
    rw [Nat.sub_sub, Nat.cast_sub (by omega)]; push_cast; ring
  rw [this]
  congr 1; field_simp; ring

/-- The grids have the requested numbers of equally spaced points and are symmetric about 0; for the
default `periods` they end at half (square and rectangular lattices) or once (other lattices) the
absolute value of the larger component of the primitive vectors. -/
theorem C86_xy_grid (L : Lattice) (nx ny : ℕ) (hx : 2 ≤ nx) (hy : 2 ≤ ny) (periods : PeriodsArg)
    (px py : ℝ)
    (hp : periods = .list [px, py] ∨ (periods = .none ∧ (L.type = .square ∨ L.type = .rectangular) ∧
      px = 1 ∧ py = 1) ∨ (periods = .none ∧ L.type ≠ .square ∧ L.type ≠ .rectangular ∧ px = 2 ∧ py = 2)) :
    ∃ xs ys, L.xyGrid nx ny periods = .ok (xs, ys) ∧ xs.length = nx ∧ ys.length = ny ∧
      xs[nx - 1]? = some (|max L.a1.1 L.a2.1| * px / 2) ∧
      ys[ny - 1]? = some (|max L.a1.2 L.a2.2| * py / 2) ∧
      (∀ (i : ℕ) (x : ℝ), xs[i]? = some x → xs[nx - 1 - i]? = some (-x)) ∧
      (∀ (i : ℕ) (y : ℝ), ys[i]? = some y → ys[ny - 1 - i]? = some (-y)) ∧
      (∀ (i : ℕ) (x x' : ℝ), xs[i]? = some x → xs[i + 1]? = some x' →
        x' - x = |max L.a1.1 L.a2.1| * px / (nx - 1)) ∧
      (∀ (i : ℕ) (y y' : ℝ), ys[i]? = some y → ys[i + 1]? = some y' →
        y' - y = |max L.a1.2 L.a2.2| * py / (ny - 1)) := by
  have hpp : parsePeriods L.type periods = .ok (px, py) := by
    rcases hp with rfl | ⟨rfl, h, rfl, rfl⟩ | ⟨rfl, h1, h2, rfl, rfl⟩
    · simp [parsePeriods]
    · simp [parsePeriods, h]
    · simp [parsePeriods, h1, h2]
  have step : ∀ (c : ℝ) (n : ℕ), 2 ≤ n → ∀ (i : ℕ) (x x' : ℝ), (linspace (-c) c n)[i]? = some x →
      (linspace (-c) c n)[i + 1]? = some x' → x' - x = 2 * c / (n - 1) := by
    intro c n hn i x x' h h'
    have hi : i + 1 < n := by
      have := (List.getElem?_eq_some_iff.1 h').1
      rwa [linspace_length] at this
    rw [linspace_get _ _ n _ hn (by omega)] at h h'
    cases h; cases h'
    push_cast; ring
  have sym : ∀ (c : ℝ) (n : ℕ), 2 ≤ n → ∀ (i : ℕ) (x : ℝ), (linspace (-c) c n)[i]? = some x →
      (linspace (-c) c n)[n - 1 - i]? = some (-x) := by
    intro c n hn i x h
    refine linspace_symm c n i hn ?_ x h
    have := (List.getElem?_eq_some_iff.1 h).1
    rwa [linspace_length] at this
  unfold Lattice.xyGrid
  rw [hpp]
  refine ⟨_, _, rfl, linspace_length _ _ _, linspace_length _ _ _, linspace_last _ _ _ hx,
    linspace_last _ _ _ hy, sym _ _ hx, sym _ _ hy, ?_, ?_⟩
  · intro i x x' h h'
    rw [step _ _ hx i x x' h h']; ring
  · intro i y y' h h'
    rw [step _ _ hy i y y' h h']; ring

/-- For the built-in lattices the default grid spans one rectangular cell: the translations by the full
width and by the full height are lattice vectors. -/
theorem C86_xy_cell (s : String) (L : Lattice) (h : Lattice.new (.name s) = .ok L) (nx ny : ℕ)
    (hx : 2 ≤ nx) (hy : 2 ≤ ny) : ∃ xs ys w v, L.xyGrid nx ny .none = .ok (xs, ys) ∧
      xs[0]? = some (-w / 2) ∧ xs[nx - 1]? = some (w / 2) ∧ ys[0]? = some (-v / 2) ∧
      ys[ny - 1]? = some (v / 2) ∧ 0 < w ∧ 0 < v ∧
      (∃ m n : ℤ, comb L.a1 L.a2 m n = (w, 0)) ∧ (∃ m n : ℤ, comb L.a1 L.a2 m n = (0, v)) := by
  have h3 : (0:ℝ) < √3 := by positivity
  unfold Lattice.new parseLatInput at h
  dsimp only at h
  split_ifs at h with h1 h2
  · cases h
    refine ⟨linspace (-(1/2)) (1/2) nx, linspace (-(1/2)) (1/2) ny, 1, 1, ?_, ?_, ?_, ?_, ?_,
      by norm_num, by norm_num, ⟨1, 0, by simp [comb, mkLattice]⟩, ⟨0, 1, by simp [comb, mkLattice]⟩⟩
    · simp [Lattice.xyGrid, parsePeriods, mkLattice, bind, Except.bind, pure, Except.pure]
    · rw [linspace_first _ _ _ hx]; norm_num
    · rw [linspace_last _ _ _ hx]
    · rw [linspace_first _ _ _ hy]; norm_num
    · rw [linspace_last _ _ _ hy]
  · cases h
    refine ⟨linspace (-(1/2)) (1/2) nx, linspace (-(√3/2)) (√3/2) ny, 1, √3, ?_, ?_, ?_, ?_, ?_,
      by norm_num, h3, ⟨1, 1, by simp [comb, mkLattice]; constructor <;> ring⟩,
      ⟨1, -1, by simp [comb, mkLattice]; ring⟩⟩
    · have hm : max (√3 / 2) (-√3 / 2) = √3 / 2 := max_eq_left (by linarith)
      simp [Lattice.xyGrid, parsePeriods, mkLattice, bind, Except.bind, pure, Except.pure, hm]
      have : |√3 / 2| = √3 / 2 := abs_of_pos (by positivity)
      rw [this]; norm_num
    · rw [linspace_first _ _ _ hx]; norm_num
    · rw [linspace_last _ _ _ hx]
    · rw [linspace_first _ _ _ hy]; congr 1; ring
    · rw [linspace_last _ _ _ hy]

/-- The maximum is taken before the absolute value: for a rectangular cell with a primitive vector
pointing down the `y` grid collapses to the single value 0. -/
theorem C86_xy_collapse : ∃ L, Lattice.new (.vecs (1, 0) (0, -1)) = .ok L ∧ ∀ nx ny : ℕ,
    ∃ xs ys, L.xyGrid nx ny .none = .ok (xs, ys) ∧ ys.length = ny ∧ ∀ y ∈ ys, y = 0 := by
  refine ⟨_, rfl, fun nx ny => ⟨_, _, by
    simp [Lattice.xyGrid, parsePeriods, mkLattice, bind, Except.bind, pure, Except.pure]
    exact ⟨rfl, rfl⟩, ?_, ?_⟩⟩
  · exact linspace_length _ _ _
  · intro y hy
    simp [linspace] at hy
    exact hy.2

/-- A single number for `periods`, documented as accepted, always raises `TypeError`. -/
theorem C86_scalar_periods (L : Lattice) (nx ny : ℕ) (p : ℝ) :
    L.xyGrid nx ny (.scalar p) = .error .typeError := rfl

/-- The `z` grid runs from `dist` below the first layer to `dist` above the last, and needs a layer. -/
theorem C86_z_grid (layers : List (ℝ × ℝ)) (nz : ℕ) (dist : ℝ) (hn : 2 ≤ nz) :
    (layers = [] → zGrid layers nz dist = .error .indexError) ∧
    ∀ a b, layers.head? = some a → layers.getLast? = some b →
      ∃ zs, zGrid layers nz dist = .ok zs ∧ zs.length = nz ∧ zs[0]? = some (a.1 - dist) ∧
        zs[nz - 1]? = some (b.2 + dist) ∧
        (a.1 - dist ≤ b.2 + dist → ∀ z ∈ zs, a.1 - dist ≤ z ∧ z ≤ b.2 + dist) := by
  constructor
  · rintro rfl; rfl
  · intro a b ha hb
    refine ⟨linspace (a.1 - dist) (b.2 + dist) nz, by simp [zGrid, ha, hb], linspace_length _ _ _,
      linspace_first _ _ _ hn, linspace_last _ _ _ hn, ?_⟩
    intro hle z hz
    obtain ⟨i, hi⟩ := List.mem_iff_getElem?.1 hz
    have hil : i < nz := by
      have := (List.getElem?_eq_some_iff.1 hi).1
      rwa [linspace_length] at this
    rw [linspace_get _ _ _ _ hn hil] at hi
    cases hi
    have h2 : (1:ℝ) ≤ (nz : ℝ) - 1 := by
      have : (2:ℝ) ≤ nz := by exact_mod_cast hn
      linarith
    have h0 : 0 ≤ (i : ℝ) / ((nz : ℝ) - 1) := by positivity
    have h1 : (i : ℝ) / ((nz : ℝ) - 1) ≤ 1 := by
      rw [div_le_one (by linarith)]
      have : (i : ℝ) + 1 ≤ nz := by exact_mod_cast hil
      linarith
    have hd : 0 ≤ b.2 + dist - (a.1 - dist) := by linarith
    constructor
    · nlinarith
    · nlinarith

/-! ### Concrete instances -/

/-- A path of two segments of different lengths and numbers of points meets the hypotheses of C85. -/
example (L : Lattice) : (∃ r, L.bzAxis [.vec (0, 0), .vec (3, 4), .vec (3, 5)] (.list [2, 1]) (.vec (1, 0)) =
    .ok r) ∧ pathLength [(0, 0), (3, 4), (3, 5)] ≠ 0 := by
  constructor
  · have hb : L.bzPath [.vec (0, 0), .vec (3, 4), .vec (3, 5)] (.list [2, 1]) (.vec (1, 0)) =
      .ok ((bzLoop [(0, 0), (3, 4), (3, 5)] [2, 1] 0).1, [0, 2, 3]) := rfl
    have hl := bzLoop_length [(0, 0), (3, 4), (3, 5)] [2, 1] 0 rfl
    obtain ⟨r, hr⟩ := takeInds_total (bzKs (bzLoop [(0, 0), (3, 4), (3, 5)] [2, 1] 0).1) [0, 2, 3] (by
      rw [bzKs_length _ (by intro hc; rw [hc] at hl; simp at hl), hl]; simp)
    unfold Lattice.bzAxis
    rw [hb]
    simp only [bind, Except.bind, Lattice.parsePoint]
    rw [hr]
    exact ⟨_, rfl⟩
  have : (0:ℝ) < √((0 - 3) ^ 2 + (0 - 4) ^ 2) := by apply Real.sqrt_pos.2; norm_num
  simp only [pathLength]
  positivity

end Legume
