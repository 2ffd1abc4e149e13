import Mathlib.Tactic.Linarith
import Mathlib.Tactic.Ring
import Mathlib.Tactic.NormNum
import Mathlib.Tactic.FieldSimp
import Mathlib.Algebra.BigOperators.Intervals
import Verif.Model.Minimize

/-!
# `minimize.py`: properties C42 to C45 and C68
-/
namespace Legume

/-! ### C42 -/

/-- Every parameter lies within its bounds. -/
def Spec.InBounds (bs : List (ℝ × ℝ)) (p : List ℝ) : Prop :=
  List.Forall₂ (fun b x => b.1 ≤ x ∧ x ≤ b.2) bs p

open Spec

theorem clip1_mem (b : ℝ × ℝ) (h : b.1 ≤ b.2) (p : ℝ) : b.1 ≤ clip1 b p ∧ clip1 b p ≤ b.2 := by
  unfold clip1
  by_cases h1 : p < b.1
  · rw [if_pos h1]
    simp only [gt_iff_lt, if_neg (not_lt.mpr h)]
    exact ⟨le_rfl, h⟩
  · rw [if_neg h1]
    by_cases h2 : b.2 < p
    · simp only [gt_iff_lt, if_pos h2]
      exact ⟨h, le_rfl⟩
    · simp only [gt_iff_lt, if_neg h2]
      exact ⟨not_lt.mp h1, not_lt.mp h2⟩

theorem clip1_id (b : ℝ × ℝ) (p : ℝ) (h : b.1 ≤ p ∧ p ≤ b.2) : clip1 b p = p := by
  unfold clip1
  rw [if_neg (not_lt.mpr h.1), if_neg (by simpa using h.2)]

theorem clip1_eq (b : ℝ × ℝ) (p : ℝ) : clip1 b p = min b.2 (max b.1 p) := by
  unfold clip1
  rcases lt_or_ge p b.1 with h | h
  · rw [if_pos h, max_eq_left h.le]
    rcases lt_or_ge b.2 b.1 with h2 | h2
    · rw [if_pos h2, min_eq_left h2.le]
    · rw [if_neg (not_lt.mpr h2), min_eq_right h2]
  · rw [if_neg (not_lt.mpr h), max_eq_right h]
    rcases lt_or_ge b.2 p with h2 | h2
    · rw [if_pos h2, min_eq_left h2.le]
    · rw [if_neg (not_lt.mpr h2), min_eq_right h2]

theorem clip_inBounds (bs : List (ℝ × ℝ)) (p : List ℝ) (hb : ∀ b ∈ bs, b.1 ≤ b.2)
    (hl : bs.length = p.length) : InBounds bs (List.zipWith clip1 bs p) := by
  unfold InBounds
  induction bs generalizing p with
  | nil => simp
  | cons b bs ih =>
    cases p with
    | nil => simp at hl
    | cons x p =>
      rw [List.zipWith_cons_cons]
      exact .cons (clip1_mem b (hb b List.mem_cons_self) x)
        (ih p (fun b' hb' => hb b' (List.mem_cons_of_mem _ hb')) (by simpa using hl))

theorem clip_id (bs : List (ℝ × ℝ)) (p : List ℝ) (h : InBounds bs p) : List.zipWith clip1 bs p = p := by
  unfold InBounds at h
  induction h with
  | nil => rfl
  | cons hx _ ih => rw [List.zipWith_cons_cons, clip1_id _ _ hx, ih]

/-- Gradients have the shape of the parameters. -/
def GradShape (cfg : AdamCfg) (n : ℕ) : Prop := ∀ st, st.params.length = n → (cfg.vg st).2.length = n

/-- Partial run: the first `k` epochs. -/
noncomputable def adamRun (cfg : AdamCfg) (pstart : List ℝ) (k : ℕ) : AdamSt :=
  (List.range k).foldl (adamEpoch cfg) (adamInit pstart)

theorem adamRun_succ (cfg : AdamCfg) (pstart : List ℝ) (k : ℕ) :
    adamRun cfg pstart (k + 1) = adamEpoch cfg (adamRun cfg pstart k) k := by
  unfold adamRun; rw [List.range_succ, List.foldl_append]; rfl

theorem adam_eq_run (cfg : AdamCfg) (pstart : List ℝ) : adam cfg pstart = adamRun cfg pstart cfg.nEpochs := rfl

/-- The parameters before they are snapped to the bounds. -/
theorem adamRun_lengths (cfg : AdamCfg) (pstart : List ℝ) (hg : GradShape cfg pstart.length)
    (hb : ∀ bs, cfg.bounds = some bs → bs.length = pstart.length) (k : ℕ) :
    (adamRun cfg pstart k).params.length = pstart.length ∧
    (0 < k → (adamRun cfg pstart k).mopt.length = pstart.length ∧
      (adamRun cfg pstart k).vopt.length = pstart.length) := by
  induction k with
  | zero => exact ⟨rfl, by simp⟩
  | succ k ih =>
    obtain ⟨h1, h2⟩ := ih
    have hgl := hg _ h1
    rw [adamRun_succ]
    have hm : (if k = 0 then List.replicate (cfg.vg (adamRun cfg pstart k)).2.length 0
        else (adamRun cfg pstart k).mopt).length = pstart.length := by
      split
      · simp [hgl]
      · exact (h2 (by omega)).1
    have hv : (if k = 0 then List.replicate (cfg.vg (adamRun cfg pstart k)).2.length 0
        else (adamRun cfg pstart k).vopt).length = pstart.length := by
      split
      · simp [hgl]
      · exact (h2 (by omega)).2
    rw [hgl] at hm hv
    refine ⟨?_, fun _ => ⟨?_, ?_⟩⟩
    · have hp : ∀ g : List ℝ, g.length = pstart.length →
          (if k < cfg.nEpochs - 1 then
            List.zipWith (fun p g => p - cfg.stepSize * g) (adamRun cfg pstart k).params g
            else (adamRun cfg pstart k).params).length = pstart.length := by
        intro g hgl
        split <;> simp [h1, hgl]
      unfold adamEpoch
      simp only
      rcases hbd : cfg.bounds with _ | bs
      · exact hp _ (by simp [hm, hv, hgl])
      · simp only [List.length_zipWith, hb bs hbd]
        rw [hp _ (by simp [hm, hv, hgl]), Nat.min_self]
    · unfold adamEpoch; simp only [List.length_zipWith, hm, hgl, Nat.min_self]
    · unfold adamEpoch; simp only [List.length_zipWith, hv, hgl, Nat.min_self]

/-- With bounds, the parameters are inside after every epoch. -/
theorem adamRun_inBounds (cfg : AdamCfg) (pstart : List ℝ) (bs : List (ℝ × ℝ)) (hbs : cfg.bounds = some bs)
    (hg : GradShape cfg pstart.length) (hl : bs.length = pstart.length) (ho : ∀ b ∈ bs, b.1 ≤ b.2) (k : ℕ) :
    InBounds bs (adamRun cfg pstart (k + 1)).params := by
  have hlen := (adamRun_lengths cfg pstart hg (by rintro bs' h; rw [hbs] at h; cases h; exact hl) (k + 1)).1
  rw [adamRun_succ] at hlen ⊢
  unfold adamEpoch at hlen ⊢
  simp only [hbs] at hlen ⊢
  refine clip_inBounds bs _ ho ?_
  rw [List.length_zipWith] at hlen
  have hk := (adamRun_lengths cfg pstart hg (by rintro bs' h; rw [hbs] at h; cases h; exact hl) k).1
  split at hlen <;> rename_i hc
  · rw [if_pos hc]
    simp only [List.length_zipWith] at hlen ⊢
    omega
  · rw [if_neg hc, hk, hl]

theorem adamRun_evals (cfg : AdamCfg) (pstart : List ℝ) (k : ℕ) :
    (adamRun cfg pstart k).evals = (List.range k).map fun (j : ℕ) => (adamRun cfg pstart j).params := by
  induction k with
  | zero => rfl
  | succ k ih =>
    rw [adamRun_succ, List.range_succ, List.map_append, ← ih]; rfl

/-- **C42 (counterexample).** With `Nepochs = 0` the starting point is returned as it is, bounds or not. -/
theorem C42_zero_epochs : ∃ (cfg : AdamCfg) (p : List ℝ) (bs : List (ℝ × ℝ)), cfg.bounds = some bs ∧
    bs.length = p.length ∧ (∀ b ∈ bs, b.1 ≤ b.2) ∧ ¬ InBounds bs (adam cfg p).params := by
  refine ⟨⟨fun _ => (0, [0]), 0, some [(0, 1)], 1, 0, 0⟩, [5], [(0, 1)], rfl, rfl, by simp, ?_⟩
  unfold InBounds adam adamInit
  simp only [List.range_zero, List.foldl_nil, List.forall₂_cons, not_and]
  intro h
  norm_num at h

/-- **C42 (partial).** With bounds given, for every objective, starting point and number of epochs
`>= 1`, the returned parameters lie inside the bounds and so do all those at which the objective is
evaluated after the first time. Missing: zero epochs, where `C42_zero_epochs` shows that it fails. -/
theorem C42_bounds_partial (cfg : AdamCfg) (pstart : List ℝ) (bs : List (ℝ × ℝ)) (hbs : cfg.bounds = some bs)
    (hg : GradShape cfg pstart.length) (hl : bs.length = pstart.length) (ho : ∀ b ∈ bs, b.1 ≤ b.2)
    (hN : 0 < cfg.nEpochs) :
    InBounds bs (adam cfg pstart).params ∧ ∀ p ∈ (adam cfg pstart).evals.tail, InBounds bs p := by
  obtain ⟨n, hn⟩ : ∃ n, cfg.nEpochs = n + 1 := ⟨cfg.nEpochs - 1, by omega⟩
  rw [adam_eq_run, hn]
  refine ⟨adamRun_inBounds cfg pstart bs hbs hg hl ho n, ?_⟩
  rw [adamRun_evals, List.range_succ_eq_map, List.map_cons, List.tail_cons, List.map_map]
  intro p hp
  obtain ⟨j, _, rfl⟩ := List.mem_map.mp hp
  exact adamRun_inBounds cfg pstart bs hbs hg hl ho j

/-- The hypotheses are met by a start outside the bounds. -/
example : GradShape ⟨fun st => (0, st.params), 3, some [(0, 1), (2, 3)], 1, 0.9, 0.999⟩ ([5, 7] : List ℝ).length :=
  fun _ h => h

/-! ### C43 -/

/-- **C43 (history).** For every objective (which may look at the object) and every number of epochs
there are exactly `Nepochs` recorded values, the `i`-th being the objective at the `i`-th iterate; the
first iterate is the starting point. -/
theorem C43_history (cfg : AdamCfg) (f : List ℝ → ℝ) (hf : ∀ st, (cfg.vg st).1 = f st.params) (pstart : List ℝ) :
    let r := adam cfg pstart
    r.ofs.length = cfg.nEpochs ∧ r.evals.length = cfg.nEpochs ∧ r.ofs = r.evals.map f ∧
      (0 < cfg.nEpochs → r.evals.head? = some pstart) := by
  have key : ∀ k, (adamRun cfg pstart k).ofs = (adamRun cfg pstart k).evals.map f := by
    intro k
    induction k with
    | zero => rfl
    | succ k ih =>
      rw [adamRun_succ]
      show (adamRun cfg pstart k).ofs ++ [(cfg.vg _).1] = ((adamRun cfg pstart k).evals ++ [_]).map f
      rw [ih, List.map_append, hf]; rfl
  have hl : (adam cfg pstart).evals.length = cfg.nEpochs := by
    rw [adam_eq_run, adamRun_evals]; simp
  refine ⟨?_, hl, key _, ?_⟩
  · rw [adam_eq_run, key, ← adam_eq_run, List.length_map, hl]
  · intro hN
    obtain ⟨n, hn⟩ : ∃ n, cfg.nEpochs = n + 1 := ⟨cfg.nEpochs - 1, by omega⟩
    rw [adam_eq_run, adamRun_evals, hn, List.range_succ_eq_map]
    rfl

/-- **C43 (iterates).** Each further iterate is the previous one moved by the Adam step and snapped to
the bounds. -/
theorem C43_iterates (cfg : AdamCfg) (pstart : List ℝ) (k : ℕ) (hk : k + 1 < cfg.nEpochs) :
    ∃ g : List ℝ, (adam cfg pstart).evals[k + 1]? = some
      (let p := List.zipWith (fun p g => p - cfg.stepSize * g) (adamRun cfg pstart k).params g
       match cfg.bounds with
       | none => p
       | some bs => List.zipWith (fun b x => min b.2 (max b.1 x)) bs p) ∧
      (adam cfg pstart).evals[k]? = some (adamRun cfg pstart k).params ∧
      g = List.zipWith (adamG cfg.beta1 cfg.beta2 k) (adamRun cfg pstart (k + 1)).mopt
        (adamRun cfg pstart (k + 1)).vopt := by
  refine ⟨_, ?_, ?_, rfl⟩
  · rw [adam_eq_run, adamRun_evals, List.getElem?_map, List.getElem?_range hk, Option.map_some, adamRun_succ]
    congr 1
    have : k < cfg.nEpochs - 1 := by omega
    unfold adamEpoch
    simp only [if_pos this, show (fun (b : ℝ × ℝ) x => min b.2 (max b.1 x)) = clip1 from
      funext fun b => funext fun p => (clip1_eq b p).symm]
    rfl
  · rw [adam_eq_run, adamRun_evals, List.getElem?_map, List.getElem?_range (by omega), Option.map_some]

/-- **C43 (returned parameters).** Without bounds the returned parameters are those of the last
evaluation. -/
theorem C43_last (cfg : AdamCfg) (pstart : List ℝ) (hN : 0 < cfg.nEpochs) (hb : cfg.bounds = none) :
    (adam cfg pstart).evals.getLast? = some (adam cfg pstart).params := by
  obtain ⟨n, hn⟩ : ∃ n, cfg.nEpochs = n + 1 := ⟨cfg.nEpochs - 1, by omega⟩
  rw [adam_eq_run, adamRun_evals, hn, List.range_succ, List.map_append, List.map_singleton,
    List.getLast?_concat, adamRun_succ]
  congr 1
  have : ¬ n < cfg.nEpochs - 1 := by omega
  unfold adamEpoch
  simp only [if_neg this, hb]

/-- **C43 (returned parameters, bounds).** The same with bounds, for at least two epochs. -/
theorem C43_last_bounded (cfg : AdamCfg) (pstart : List ℝ) (bs : List (ℝ × ℝ)) (hbs : cfg.bounds = some bs)
    (hg : GradShape cfg pstart.length) (hl : bs.length = pstart.length) (ho : ∀ b ∈ bs, b.1 ≤ b.2)
    (hN : 2 ≤ cfg.nEpochs) : (adam cfg pstart).evals.getLast? = some (adam cfg pstart).params := by
  obtain ⟨n, hn⟩ : ∃ n, cfg.nEpochs = n + 2 := ⟨cfg.nEpochs - 2, by omega⟩
  have hin := adamRun_inBounds cfg pstart bs hbs hg hl ho n
  rw [adam_eq_run, adamRun_evals, hn, List.range_succ, List.map_append, List.map_singleton,
    List.getLast?_concat, adamRun_succ cfg pstart (n + 1)]
  congr 1
  have : ¬ n + 1 < cfg.nEpochs - 1 := by omega
  unfold adamEpoch
  simp only [if_neg this, hbs]
  exact (clip_id bs _ hin).symm

/-- **C43 (one epoch with bounds).** With one epoch the returned parameters are snapped after the only
evaluation and can differ from those of the recorded value. -/
theorem C43_one_epoch_bounded : ∃ (cfg : AdamCfg) (p : List ℝ), cfg.nEpochs = 1 ∧
    (adam cfg p).evals.getLast? ≠ some (adam cfg p).params := by
  refine ⟨⟨fun _ => (0, [0]), 1, some [(0, 1)], 1, 0, 0⟩, [5], rfl, ?_⟩
  have h1 : (adam ⟨fun _ => (0, [0]), 1, some [(0, 1)], 1, 0, 0⟩ [5]).evals = [[5]] := by
    rw [adam_eq_run, adamRun_evals]; rfl
  have h2 : (adam ⟨fun _ => (0, [0]), 1, some [(0, 1)], 1, 0, 0⟩ [5]).params = [1] := by
    rw [adam_eq_run]
    show (adamRun _ _ (0 + 1)).params = _
    rw [adamRun_succ]
    unfold adamRun adamEpoch clip1
    norm_num [adamInit]
  rw [h1, h2]
  norm_num

/-! ### C68 -/

/-- **C68 (partial).** `adam` leaves the caller's starting array alone, with any objective, if there are
no bounds or at least two epochs (or none). Missing: exactly one epoch with bounds, see
`C68_one_epoch_overwrites`. -/
theorem C68_pstart_partial (cfg : AdamCfg) (pstart : List ℝ) (h : cfg.bounds = none ∨ cfg.nEpochs ≠ 1) :
    (adam cfg pstart).pstart = pstart := by
  have key : ∀ k, k ≤ cfg.nEpochs → (adamRun cfg pstart k).pstart = pstart ∧
      ((adamRun cfg pstart k).aliased = true → (adamRun cfg pstart k).params = pstart ∧
        (cfg.bounds = none ∨ k = 0)) := by
    intro k
    induction k with
    | zero => intro _; exact ⟨rfl, fun _ => ⟨rfl, Or.inr rfl⟩⟩
    | succ k ih =>
      intro hk
      obtain ⟨h1, h2⟩ := ih (by omega)
      rw [adamRun_succ]
      unfold adamEpoch
      simp only
      by_cases hu : k < cfg.nEpochs - 1
      · simp [if_pos hu, h1]
      · rw [if_neg hu, if_neg hu]
        by_cases ha : (adamRun cfg pstart k).aliased = true
        · obtain ⟨h3, h4⟩ := h2 ha
          have hb : cfg.bounds = none := by
            rcases h with h | h
            · exact h
            · rcases h4 with h4 | h4
              · exact h4
              · omega
          simp [ha, hb, h3]
        · simp [ha, h1]
  exact (key _ le_rfl).1

/-- **C68 (counterexample).** With one epoch and bounds the starting array of the caller is overwritten
by the snapped values. -/
theorem C68_one_epoch_overwrites : ∃ (cfg : AdamCfg) (p : List ℝ), cfg.nEpochs = 1 ∧ (adam cfg p).pstart ≠ p := by
  refine ⟨⟨fun _ => (0, [0]), 1, some [(0, 1)], 1, 0, 0⟩, [5], rfl, ?_⟩
  have h2 : (adam ⟨fun _ => (0, [0]), 1, some [(0, 1)], 1, 0, 0⟩ [5]).pstart = [1] := by
    rw [adam_eq_run]
    show (adamRun _ _ (0 + 1)).pstart = _
    rw [adamRun_succ]
    unfold adamRun adamEpoch clip1
    norm_num [adamInit]
  rw [h2]
  norm_num

/-! ### C44 -/

/-- Moments after some epochs for a sequence of gradients of one parameter. -/
def Spec.moments (beta1 beta2 : ℝ) (g : ℕ → ℝ) : ℕ → ℝ × ℝ
  | 0 => (0, 0)
  | k + 1 => (adamM beta1 (moments beta1 beta2 g k).1 (g k), adamV beta2 (moments beta1 beta2 g k).2 (g k))

/-- **C44 (moments).** The moments are exponentially weighted sums of the gradients and of their squares. -/
theorem C44_moments (beta1 beta2 : ℝ) (g : ℕ → ℝ) (k : ℕ) :
    (moments beta1 beta2 g k).1 = (1 - beta1) * ∑ j ∈ Finset.range k, beta1 ^ (k - 1 - j) * g j ∧
    (moments beta1 beta2 g k).2 = (1 - beta2) * ∑ j ∈ Finset.range k, beta2 ^ (k - 1 - j) * g j ^ 2 := by
  have key : ∀ (b : ℝ) (f : ℕ → ℝ) (k : ℕ), ∑ j ∈ Finset.range (k + 1), b ^ (k + 1 - 1 - j) * f j =
      b * (∑ j ∈ Finset.range k, b ^ (k - 1 - j) * f j) + f k := by
    intro b f k
    rw [Finset.sum_range_succ, Finset.mul_sum]
    congr 1
    · refine Finset.sum_congr rfl fun j hj => ?_
      rw [Finset.mem_range] at hj
      rw [show k + 1 - 1 - j = (k - 1 - j) + 1 by omega, pow_succ]; ring
    · simp
  induction k with
  | zero => simp [moments]
  | succ k ih =>
    rw [key, key]
    show adamM _ _ _ = _ ∧ adamV _ _ _ = _
    unfold adamM adamV
    rw [ih.1, ih.2]
    constructor <;> ring

/-- Two gradients: the older one carries the factor `beta1`. -/
example : (moments (1 / 2) (1 / 4) (fun j => if j = 0 then 8 else 4) 2).1 = 4 := by
  rw [(C44_moments _ _ _ _).1]
  norm_num [Finset.sum_range_succ]

/-- **C44 (moments in a run).** After `k + 1` epochs the moments kept for parameter `i` are those of the
gradients of parameter `i` at the iterates so far. -/
theorem C44_run_moments (cfg : AdamCfg) (pstart : List ℝ) (hg : GradShape cfg pstart.length)
    (hb : ∀ bs, cfg.bounds = some bs → bs.length = pstart.length) (k i : ℕ) (hi : i < pstart.length) :
    (adamRun cfg pstart (k + 1)).mopt[i]? = some (moments cfg.beta1 cfg.beta2
      (fun j => (cfg.vg (adamRun cfg pstart j)).2.getD i 0) (k + 1)).1 ∧
    (adamRun cfg pstart (k + 1)).vopt[i]? = some (moments cfg.beta1 cfg.beta2
      (fun j => (cfg.vg (adamRun cfg pstart j)).2.getD i 0) (k + 1)).2 := by
  have hgl : ∀ k, (cfg.vg (adamRun cfg pstart k)).2.length = pstart.length := fun k =>
    hg _ (adamRun_lengths cfg pstart hg hb k).1
  have hgi : ∀ k, (cfg.vg (adamRun cfg pstart k)).2[i]? =
      some ((cfg.vg (adamRun cfg pstart k)).2.getD i 0) := by
    intro k
    rw [List.getD_eq_getElem?_getD, List.getElem?_eq_getElem (by rw [hgl]; exact hi), Option.getD_some]
  induction k with
  | zero =>
    rw [adamRun_succ]
    unfold adamEpoch
    simp only [if_true, List.getElem?_zipWith, hgi, List.getElem?_replicate, hgl, hi]
    exact ⟨rfl, rfl⟩
  | succ k ih =>
    rw [adamRun_succ cfg pstart (k + 1)]
    unfold adamEpoch
    simp only [Nat.add_eq_zero_iff, one_ne_zero, and_false, if_false, List.getElem?_zipWith, hgi, ih]
    exact ⟨rfl, rfl⟩

/-- **C44 (second moment).** The running second moment is never negative, for all gradients. -/
theorem C44_second_moment (beta1 beta2 : ℝ) (h0 : 0 ≤ beta2) (h1 : beta2 ≤ 1) (g : ℕ → ℝ) (k : ℕ) :
    0 ≤ (moments beta1 beta2 g k).2 := by
  induction k with
  | zero => exact le_rfl
  | succ k ih =>
    show 0 ≤ adamV beta2 _ _
    unfold adamV
    have := sq_nonneg (g k)
    have h2 : 0 ≤ 1 - beta2 := by linarith
    positivity

theorem moments_const (beta1 beta2 g : ℝ) (k : ℕ) :
    moments beta1 beta2 (fun _ => g) k = ((1 - beta1 ^ k) * g, (1 - beta2 ^ k) * g ^ 2) := by
  induction k with
  | zero => simp [moments]
  | succ k ih =>
    show (adamM _ _ _, adamV _ _ _) = _
    rw [ih]
    unfold adamM adamV
    ext <;> simp only <;> ring

theorem adamG_const (beta1 beta2 g : ℝ) (h1 : 0 ≤ beta1) (h1' : beta1 < 1) (h2 : 0 ≤ beta2) (h2' : beta2 < 1)
    (k : ℕ) : adamG beta1 beta2 k ((1 - beta1 ^ (k + 1)) * g) ((1 - beta2 ^ (k + 1)) * g ^ 2) =
      g / (|g| + 1e-8) := by
  have e1 : 1 - beta1 ^ (k + 1) ≠ 0 := by
    have := pow_lt_one₀ h1 h1' (show k + 1 ≠ 0 by omega); linarith
  have e2 : 1 - beta2 ^ (k + 1) ≠ 0 := by
    have := pow_lt_one₀ h2 h2' (show k + 1 ≠ 0 by omega); linarith
  unfold adamG
  rw [mul_div_cancel_left₀ _ e1, mul_div_cancel_left₀ _ e2, Real.sqrt_sq_eq_abs]

/-- **C44 (constant gradient).** The step is `g / (|g| + eps)` at every epoch, whatever the betas. -/
theorem C44_constant (beta1 beta2 g : ℝ) (h1 : 0 ≤ beta1) (h1' : beta1 < 1) (h2 : 0 ≤ beta2) (h2' : beta2 < 1)
    (k : ℕ) : adamG beta1 beta2 k (moments beta1 beta2 (fun _ => g) (k + 1)).1
      (moments beta1 beta2 (fun _ => g) (k + 1)).2 = g / (|g| + 1e-8) := by
  rw [moments_const]
  exact adamG_const beta1 beta2 g h1 h1' h2 h2' k

/-- Hence it is smaller than one in magnitude. -/
theorem C44_step_lt_one (beta1 beta2 g : ℝ) (h1 : 0 ≤ beta1) (h1' : beta1 < 1) (h2 : 0 ≤ beta2)
    (h2' : beta2 < 1) (k : ℕ) : |adamG beta1 beta2 k (moments beta1 beta2 (fun _ => g) (k + 1)).1
      (moments beta1 beta2 (fun _ => g) (k + 1)).2| < 1 := by
  rw [C44_constant beta1 beta2 g h1 h1' h2 h2', abs_div,
    abs_of_pos (by positivity : (0 : ℝ) < |g| + 1e-8), div_lt_one (by positivity)]
  linarith [show (0 : ℝ) < 1e-8 by norm_num]

/-- **C44 (linear objectives).** Minimising a function with the constant gradient `w`, the `k`-th
evaluation of `adam` is at `pstart - k * step_size * w / (|w| + eps)`, entry by entry. -/
theorem C44_linear (cfg : AdamCfg) (w pstart : List ℝ) (hw : ∀ st, (cfg.vg st).2 = w)
    (hl : w.length = pstart.length) (hb : cfg.bounds = none)
    (h1 : 0 ≤ cfg.beta1) (h1' : cfg.beta1 < 1) (h2 : 0 ≤ cfg.beta2) (h2' : cfg.beta2 < 1)
    (k : ℕ) (hk : k < cfg.nEpochs) :
    (adam cfg pstart).evals[k]? =
      some (List.zipWith (fun p g => p - k * cfg.stepSize * (g / (|g| + 1e-8))) pstart w) := by
  have zw : ∀ (f : ℝ → ℝ → ℝ) (a b : ℝ → ℝ) (l : List ℝ),
      List.zipWith f (l.map a) (l.map b) = l.map fun x => f (a x) (b x) := by
    intro f a b l; induction l with
    | nil => rfl
    | cons x l ih => simp [ih]
  have zp : ∀ (f g : ℝ → ℝ → ℝ) (p l : List ℝ) (a : ℝ → ℝ), (∀ x y, f (g x y) (a y) = g x y - cfg.stepSize * a y) →
      List.zipWith f (List.zipWith g p l) (l.map a) =
        List.zipWith (fun x y => g x y - cfg.stepSize * a y) p l := by
    intro f g p l a hf
    induction l generalizing p with
    | nil => simp
    | cons y l ih => cases p with
      | nil => simp
      | cons x p => simp [hf, ih]
  have key : ∀ k, k < cfg.nEpochs → (adamRun cfg pstart k).params =
        List.zipWith (fun p g => p - k * cfg.stepSize * (g / (|g| + 1e-8))) pstart w ∧
      (0 < k → (adamRun cfg pstart k).mopt = w.map (fun g => (1 - cfg.beta1 ^ k) * g) ∧
        (adamRun cfg pstart k).vopt = w.map (fun g => (1 - cfg.beta2 ^ k) * g ^ 2)) := by
    intro k
    induction k with
    | zero =>
      intro _
      refine ⟨?_, by simp⟩
      show pstart = _
      clear hw hk hb zw zp
      induction w generalizing pstart with
      | nil => cases pstart with
        | nil => rfl
        | cons _ _ => simp at hl
      | cons g w ih => cases pstart with
        | nil => simp at hl
        | cons p q =>
          rw [List.zipWith_cons_cons, ← ih q (by simpa using hl)]
          simp
    | succ k ih =>
      intro hk
      obtain ⟨i1, i2⟩ := ih (by omega)
      rw [adamRun_succ]
      have hm : (if k = 0 then List.replicate (cfg.vg (adamRun cfg pstart k)).2.length 0
          else (adamRun cfg pstart k).mopt) = w.map (fun g => (1 - cfg.beta1 ^ k) * g) := by
        split
        · rename_i h0; subst h0; rw [hw]; simp
        · exact (i2 (by omega)).1
      have hv : (if k = 0 then List.replicate (cfg.vg (adamRun cfg pstart k)).2.length 0
          else (adamRun cfg pstart k).vopt) = w.map (fun g => (1 - cfg.beta2 ^ k) * g ^ 2) := by
        split
        · rename_i h0; subst h0; rw [hw]; simp
        · exact (i2 (by omega)).2
      rw [hw] at hm hv
      have hm' : List.zipWith (adamM cfg.beta1) (w.map (fun g => (1 - cfg.beta1 ^ k) * g)) w =
          w.map (fun g => (1 - cfg.beta1 ^ (k + 1)) * g) := by
        have := zw (adamM cfg.beta1) (fun g => (1 - cfg.beta1 ^ k) * g) id w
        rw [List.map_id] at this
        rw [this]
        congr 1; ext g; unfold adamM; simp only [id]; ring
      have hv' : List.zipWith (adamV cfg.beta2) (w.map (fun g => (1 - cfg.beta2 ^ k) * g ^ 2)) w =
          w.map (fun g => (1 - cfg.beta2 ^ (k + 1)) * g ^ 2) := by
        have := zw (adamV cfg.beta2) (fun g => (1 - cfg.beta2 ^ k) * g ^ 2) id w
        rw [List.map_id] at this
        rw [this]
        congr 1; ext g; unfold adamV; simp only [id]; ring
      have hu : k < cfg.nEpochs - 1 := by omega
      unfold adamEpoch
      simp only [hw, hm, hv, if_pos hu, hb, hm', hv']
      refine ⟨?_, fun _ => ⟨trivial, trivial⟩⟩
      rw [zw]
      simp only [adamG_const cfg.beta1 cfg.beta2 _ h1 h1' h2 h2' k]
      rw [i1, zp _ _ _ _ _ (fun x y => rfl)]
      congr 1
      funext p g
      push_cast; ring
  rw [adam_eq_run, adamRun_evals, List.getElem?_map, List.getElem?_range hk, Option.map_some,
    (key k hk).1]

/-- The default betas satisfy the hypotheses. -/
example : (0 : ℝ) ≤ 0.9 ∧ (0.9 : ℝ) < 1 ∧ (0 : ℝ) ≤ 0.999 ∧ (0.999 : ℝ) < 1 := by norm_num

/-! ### C45 -/

/-- A pair of numbers. -/
def PyV.IsPair : PyV → Prop
  | .tup [.num _, .num _] => True
  | _ => False

/-- **C45 (counterexample).** A list of two lists is taken for a `[lb, ub]` pair: for two parameters
`[[0, 1], [2, 3]]` is accepted, and the parsed bounds are not pairs of numbers. -/
theorem C45_lists_accepted : ∃ l r, parseBounds 2 (.seq l) = .ok (some r) ∧ ¬ ∀ b ∈ r, b.IsPair := by
  refine ⟨[.lst [.num 0, .num 1], .lst [.num 2, .num 3]], _, rfl, ?_⟩
  intro h
  exact h _ List.mem_cons_self

/-- **C45 (exceptions).** Whatever is passed, the only exception is `ValueError`, and whatever is
accepted is `None` or a list with one entry per parameter. -/
theorem C45_outcome (n : ℕ) (b : BArg) :
    (∀ e, parseBounds n b = .error e → e = .valueError) ∧
    (∀ r, parseBounds n b = .ok r → (r = none ↔ match b with | .none => True | _ => False) ∧
      ∀ l, r = some l → l.length = n) := by
  unfold parseBounds
  constructor
  · intro e he
    split at he
    · cases he
    · cases he; rfl
    · split at he
      · cases he; rfl
      · split at he
        · split at he
          · cases he
          · cases he; rfl
        · split at he
          · split at he
            · cases he
            · cases he; rfl
          · cases he; rfl
  · intro r hr
    split at hr
    · cases hr; simp
    · cases hr
    · split at hr
      · cases hr
      · split at hr
        · split at hr
          · cases hr; simp
          · cases hr
        · split at hr
          · rename_i hlen
            split at hr
            · cases hr; simp [hlen]
            · cases hr
          · cases hr

theorem parseBounds_tup (n : ℕ) (l : List PyV) (b : PyV) (hl : l.head? = some b) (hb : b.isTup = true) :
    parseBounds n (.seq l) = if l.length = n then
      (if (l.all fun b => decide (b.len = some 2)) = true then .ok (some l) else .error .valueError)
      else .error .valueError := by
  cases l with
  | nil => simp at hl
  | cons a l =>
    simp only [List.head?_cons, Option.some.injEq] at hl
    subst hl
    simp [parseBounds, hb]

/-- **C45 (partial).** For `None`, for lists of numbers and for lists of tuples of numbers, exactly the
documented forms are accepted and they give one pair per parameter; all else is a `ValueError`.
Missing: lists of lists and mixed lists, see `C45_lists_accepted`. -/
theorem C45_parse_partial (n : ℕ) :
    parseBounds n .none = .ok none ∧ parseBounds n .scalar = .error .valueError ∧
    (∀ l : List ℚ, parseBounds n (.seq (l.map .num)) = match l with
      | [a, b] => .ok (some (List.replicate n (.tup [.num a, .num b])))
      | _ => .error .valueError) ∧
    (∀ l : List (List ℚ), l ≠ [] → parseBounds n (.seq (l.map fun t => .tup (t.map .num))) =
      if l.length = n ∧ ∀ t ∈ l, t.length = 2 then .ok (some (l.map fun t => .tup (t.map .num)))
      else .error .valueError) := by
  refine ⟨rfl, rfl, ?_, ?_⟩
  · intro l
    match l with
    | [] => rfl
    | [a] => rfl
    | [a, b] => rfl
    | a :: b :: c :: l => simp [parseBounds, PyV.isTup]
  · intro l hl
    match l with
    | [] => exact absurd rfl hl
    | t :: l =>
      have e1 : ((t :: l).all fun t => decide (t.length = 2)) = true ↔ ∀ s ∈ (t :: l), s.length = 2 := by
        simp [List.all_eq_true]
      have e2 : (((t :: l).map fun t => (PyV.tup (t.map PyV.num))).all fun b => decide (b.len = some 2)) =
          (t :: l).all fun t => decide (t.length = 2) := by
        rw [List.all_map]
        congr 1; funext s
        simp [PyV.len]
      have e3 : ((t :: l).map fun t => (PyV.tup (t.map PyV.num))).length = (t :: l).length := by simp
      rw [parseBounds_tup n _ (.tup (t.map .num)) rfl rfl, e2, e3]
      by_cases hn : (t :: l).length = n
      · rw [if_pos hn]
        by_cases ha : ∀ s ∈ (t :: l), s.length = 2
        · rw [if_pos (e1.mpr ha), if_pos ⟨hn, ha⟩]
        · rw [if_neg (fun h => ha (e1.mp h)), if_neg (fun h => ha h.2)]
      · rw [if_neg hn, if_neg (fun h => hn h.1)]

/-- **C45 (all lists).** What a list of bounds gives, whatever its entries. If the first entry is a tuple, the list is kept when
it has one entry per parameter and all entries are tuples or lists of two values. If the first entry is not a tuple, a list of
two entries is taken as the one pair for all parameters, whatever the entries are. All else is a `ValueError`. -/
theorem C45_all_lists (n : ℕ) (l : List PyV) :
    (∀ t rest, l = .tup t :: rest →
      ((l.length = n ∧ ∀ v ∈ l, ∃ a b, v = .tup [a, b] ∨ v = .lst [a, b]) → parseBounds n (.seq l) = .ok (some l)) ∧
      (¬(l.length = n ∧ ∀ v ∈ l, ∃ a b, v = .tup [a, b] ∨ v = .lst [a, b]) →
        parseBounds n (.seq l) = .error .valueError)) ∧
    ((∀ t rest, l ≠ .tup t :: rest) →
      (∀ a b, l = [a, b] → parseBounds n (.seq l) = .ok (some (List.replicate n (.tup [a, b])))) ∧
      (l.length ≠ 2 → parseBounds n (.seq l) = .error .valueError)) := by
  have hpair : ∀ v : PyV, v.len = some 2 ↔ ∃ a b, v = .tup [a, b] ∨ v = .lst [a, b] := by
    intro v
    cases v with
    | num x => simp [PyV.len]
    | other => simp [PyV.len]
    | tup l => simp [PyV.len, List.length_eq_two]
    | lst l => simp [PyV.len, List.length_eq_two]
  have hall : l.all (fun b => b.len = some 2) = true ↔ ∀ v ∈ l, ∃ a b, v = .tup [a, b] ∨ v = .lst [a, b] := by
    simp [List.all_eq_true, hpair]
  refine ⟨fun t rest hl => ?_, fun hl => ?_⟩
  · rw [parseBounds_tup n l (.tup t) (by rw [hl]; rfl) rfl]
    constructor
    · rintro ⟨h1, h2⟩
      rw [if_pos h1, if_pos (hall.2 h2)]
    · intro h
      by_cases h1 : l.length = n
      · rw [if_pos h1, if_neg fun h2 => h ⟨h1, hall.1 h2⟩]
      · rw [if_neg h1]
  · have hnt : ∀ b0 rest, l = b0 :: rest → b0.isTup = false := by
      intro b0 rest h
      cases b0 with
      | tup t => exact absurd h (hl t rest)
      | num x => rfl
      | lst x => rfl
      | other => rfl
    constructor
    · intro a b h
      have ha := hnt a [b] h
      subst h
      simp [parseBounds, ha]
    · intro h
      cases l with
      | nil => rfl
      | cons b0 rest =>
        simp only [parseBounds, hnt b0 rest rfl, if_true, if_neg h]

/-- A tuple and a list of two values are accepted for two parameters. -/
example : parseBounds 2 (.seq [.tup [.num 0, .num 1], .lst [.num 2, .num 3]]) =
    .ok (some [.tup [.num 0, .num 1], .lst [.num 2, .num 3]]) :=
  ((C45_all_lists 2 _).1 _ _ rfl).1 ⟨rfl, by
    intro v hv
    simp only [List.mem_cons, List.not_mem_nil, or_false] at hv
    rcases hv with rfl | rfl
    · exact ⟨_, _, Or.inl rfl⟩
    · exact ⟨_, _, Or.inr rfl⟩⟩

/-- The pairs for a list of tuples. -/
example : parseBounds 2 (.seq [.tup [.num 0, .num 1], .tup [.num 2, .num 3]]) =
    .ok (some [.tup [.num 0, .num 1], .tup [.num 2, .num 3]]) := rfl

end Legume
