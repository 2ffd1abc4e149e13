import Verif.Model.Backend
import Mathlib.Data.List.Sort

/-!
# C60: backend switching is all-or-nothing
-/
namespace Legume

/-- **C60.** A call of `set_backend` either succeeds and puts exactly the named backend in force, or raises
`ValueError` and changes nothing; it succeeds iff the name is `'numpy'`, or `'autograd'` with autograd installed. -/
theorem C60_backend (ag : Bool) (st : BackendClass) (name : String) :
    ((setBackend ag st name).2 = .ok () ↔ name = "numpy" ∨ (name = "autograd" ∧ ag = true)) ∧
    ((setBackend ag st name).2 = .ok () →
      (name = "numpy" → (setBackend ag st name).1 = .numpy) ∧
      (name = "autograd" → (setBackend ag st name).1 = .autograd)) ∧
    ((setBackend ag st name).2 ≠ .ok () →
      (setBackend ag st name).2 = .error .valueError ∧ (setBackend ag st name).1 = st) := by
  unfold setBackend
  by_cases h1 : name = "autograd"
  · subst h1
    cases ag <;> simp
  · by_cases h2 : name = "numpy"
    · subst h2
      simp
    · simp [h1, h2]

/-- **C60.** The same for `set_print_backend` with the names `'base'`, and `'rich'` with rich installed. -/
theorem C60_print (rich : Bool) (st : PrintClass) (name : String) :
    ((setPrint rich st name).2 = .ok () ↔ name = "base" ∨ (name = "rich" ∧ rich = true)) ∧
    ((setPrint rich st name).2 = .ok () →
      (name = "base" → (setPrint rich st name).1 = .base) ∧
      (name = "rich" → (setPrint rich st name).1 = .rich)) ∧
    ((setPrint rich st name).2 ≠ .ok () →
      (setPrint rich st name).2 = .error .valueError ∧ (setPrint rich st name).1 = st) := by
  unfold setPrint
  by_cases h1 : name = "rich"
  · subst h1
    cases rich <;> simp
  · by_cases h2 : name = "base"
    · subst h2
      simp
    · simp [h1, h2]

/-- **C60.** After any sequence of calls the backend in force is that named by the last successful call, whatever
calls follow that fail; without a successful call it is the initial one. -/
theorem C60_history (ag : Bool) (st : BackendClass) (before after : List String)
    (hafter : ∀ n ∈ after, n ≠ "numpy" ∧ (n = "autograd" → ag = false)) :
    runBackend ag st after = st ∧
    runBackend ag st (before ++ "numpy" :: after) = .numpy ∧
    (ag = true → runBackend ag st (before ++ "autograd" :: after) = .autograd) := by
  have key : ∀ s, runBackend ag s after = s := by
    intro s
    unfold runBackend
    induction after generalizing s with
    | nil => rfl
    | cons n l ih =>
      rw [List.foldl_cons]
      have hn := hafter n List.mem_cons_self
      have hs : (setBackend ag s n).1 = s := by
        refine ((C60_backend ag s n).2.2 fun hok => ?_).2
        rcases (C60_backend ag s n).1.1 hok with h | ⟨h, h'⟩
        · exact hn.1 h
        · rw [hn.2 h] at h'; simp at h'
      rw [hs]
      exact ih (fun m hm => hafter m (List.mem_cons_of_mem _ hm)) s
  refine ⟨key st, ?_, ?_⟩
  · have := key .numpy
    unfold runBackend at this ⊢
    rw [List.foldl_append, List.foldl_cons]
    have h : ∀ s, (setBackend ag s "numpy").1 = .numpy := fun s => by cases ag <;> rfl
    rw [h, this]
  · intro hag
    subst hag
    have := key .autograd
    unfold runBackend at this ⊢
    rw [List.foldl_append, List.foldl_cons]
    exact this

/-- **C60.** The same for the print backend; and the rich backend is never in force unless rich is installed. -/
theorem C60_print_history (rich : Bool) (st : PrintClass) (before after : List String)
    (hafter : ∀ n ∈ after, n ≠ "base" ∧ (n = "rich" → rich = false)) :
    runPrint rich st after = st ∧
    runPrint rich st (before ++ "base" :: after) = .base ∧
    (rich = true → runPrint rich st (before ++ "rich" :: after) = .rich) := by
  have key : ∀ s, runPrint rich s after = s := by
    intro s
    unfold runPrint
    induction after generalizing s with
    | nil => rfl
    | cons n l ih =>
      rw [List.foldl_cons]
      have hn := hafter n List.mem_cons_self
      have hs : (setPrint rich s n).1 = s := by
        refine ((C60_print rich s n).2.2 fun hok => ?_).2
        rcases (C60_print rich s n).1.1 hok with h | ⟨h, h'⟩
        · exact hn.1 h
        · rw [hn.2 h] at h'; simp at h'
      rw [hs]
      exact ih (fun m hm => hafter m (List.mem_cons_of_mem _ hm)) s
  refine ⟨key st, ?_, ?_⟩
  · have := key .base
    unfold runPrint at this ⊢
    rw [List.foldl_append, List.foldl_cons]
    have h : ∀ s, (setPrint rich s "base").1 = .base := fun s => by cases rich <;> rfl
    rw [h, this]
  · intro hr
    subst hr
    have := key .rich
    unfold runPrint at this ⊢
    rw [List.foldl_append, List.foldl_cons]
    exact this

/-- **C60.** A backend whose package is not installed is never in force, whatever was called since the import. -/
theorem C60_available (names : List String) :
    runBackend false .numpy names = .numpy ∧ runPrint false (initPrint false) names = .base := by
  constructor
  · unfold runBackend
    induction names with
    | nil => rfl
    | cons n l ih =>
      rw [List.foldl_cons]
      have : (setBackend false .numpy n).1 = .numpy := by
        unfold setBackend; split_ifs <;> simp_all
      rw [this]; exact ih
  · unfold runPrint initPrint
    induction names with
    | nil => rfl
    | cons n l ih =>
      rw [List.foldl_cons]
      have : (setPrint false .base n).1 = .base := by
        unfold setPrint; split_ifs <;> simp_all
      simp only [Bool.false_eq_true, if_false] at ih ⊢
      rw [this]; exact ih

/-- Examples for C60. -/
example : runBackend true .numpy ["autograd", "torch", "Numpy"] = .autograd ∧
    runBackend false .numpy ["autograd", "torch"] = .numpy ∧
    (setBackend false .numpy "autograd").2 = .error .valueError ∧
    runPrint true (initPrint true) ["base", "rich", "plain"] = .rich := by decide +kernel

end Legume
