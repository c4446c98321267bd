/-
Lemmas for C94: the state of the untimed execution in terms of the executions made.
-/
import Verif.Model.Untimed
import Verif.Spec.Untimed
import Verif.Spec.Throughput
import Mathlib.Tactic.Linarith
import Mathlib.Algebra.Order.BigOperators.Group.List
import Mathlib.Tactic.Ring

set_option autoImplicit false

namespace Kiter.Untimed

/-- Identifiers are unique. -/
structure Unique (B : BaseGraph) : Prop where
  tasks : (B.tasks.map KTask.id).Nodup
  channels : (B.channels.map fun c => c.1.id).Nodup

section
variable {B : BaseGraph}

theorem foldl_update {α : Type} (key : α → Int) (f : α → Int) : ∀ (l : List α) (m : Int → Int), (l.map key).Nodup → ∀ i,
    (l.foldl (fun m c => Function.update m (key c) (m (key c) + f c)) m) i =
      m i + ((l.find? fun c => key c = i).map f).getD 0 := by
  intro l
  induction l with
  | nil => intro m _ i; simp
  | cons a l ih =>
    intro m h i
    rw [List.map_cons, List.nodup_cons] at h
    rw [List.foldl_cons, ih _ h.2]
    by_cases hi : key a = i
    · subst hi
      have : l.find? (fun c => decide (key c = key a)) = none := by
        rw [List.find?_eq_none]
        intro x hx hc
        exact h.1 (by rw [← of_decide_eq_true hc]; exact List.mem_map_of_mem hx)
      rw [this, List.find?_cons_of_pos (by simp)]
      simp
    · rw [List.find?_cons_of_neg (by simpa using hi), Function.update_of_ne (Ne.symm hi)]

theorem find_filter {l : List BChannel} (h : (l.map fun c => c.1.id).Nodup) {e : BChannel} (he : e ∈ l) (p : BChannel → Bool) :
    (l.filter p).find? (fun c => c.1.id = e.1.id) = if p e then some e else none := by
  induction l with
  | nil => simp at he
  | cons a l ih =>
    rw [List.map_cons, List.nodup_cons] at h
    rcases List.mem_cons.1 he with rfl | he'
    · by_cases hp : p e
      · rw [List.filter_cons_of_pos hp, List.find?_cons_of_pos (by simp), if_pos hp]
      · rw [List.filter_cons_of_neg hp, if_neg hp, List.find?_eq_none]
        intro x hx hc
        exact h.1 (by rw [← of_decide_eq_true hc]; exact List.mem_map_of_mem (f := fun c : BChannel => c.1.id) (List.mem_filter.1 hx).1)
    · have hne : ¬ a.1.id = e.1.id := fun hc => h.1 (by rw [hc]; exact List.mem_map_of_mem (f := fun c : BChannel => c.1.id) he')
      by_cases hp : p a
      · rw [List.filter_cons_of_pos hp, List.find?_cons_of_neg (by simpa using hne), ih h.2 he']
      · rw [List.filter_cons_of_neg hp, ih h.2 he']

theorem filter_nodup {l : List BChannel} (h : (l.map fun c => c.1.id).Nodup) (p : BChannel → Bool) :
    ((l.filter p).map fun c => c.1.id).Nodup := h.sublist (List.filter_sublist.map _)

theorem take_get (hu : Unique B) (t : KTask) (m : Int → Int) {e : BChannel} (he : e ∈ B.channels) :
    take (inputs B t) m e.1.id = m e.1.id - if e.2.2.id = t.id then used e else 0 := by
  have h := foldl_update (fun c : BChannel => c.1.id) (fun c => - used c) (inputs B t) m (filter_nodup hu.channels _) e.1.id
  have e1 : take (inputs B t) m = (inputs B t).foldl (fun m c => Function.update m c.1.id (m c.1.id + - used c)) m := by
    unfold take; simp only [sub_eq_add_neg]
  rw [e1, h]
  unfold inputs
  rw [find_filter hu.channels he]
  by_cases hc : e.2.2.id = t.id
  · simp [hc, sub_eq_add_neg]
  · simp [hc]

theorem put_get (hu : Unique B) (t : KTask) (m : Int → Int) {e : BChannel} (he : e ∈ B.channels) :
    put (outputs B t) m e.1.id = m e.1.id + if e.2.1.id = t.id then made e else 0 := by
  have h := foldl_update (fun c : BChannel => c.1.id) (fun c => made c) (outputs B t) m (filter_nodup hu.channels _) e.1.id
  unfold put
  rw [h]
  unfold outputs
  rw [find_filter hu.channels he]
  by_cases hc : e.2.1.id = t.id
  · simp [hc]
  · simp [hc]

/-- The state after the executions `seq`. -/
structure After (B : BaseGraph) (iterations : Int) (seq : List Int) (s : Exec) : Prop where
  admissible : Admissible B seq
  tasks : ∀ i ∈ seq, ∃ t ∈ B.tasks, t.id = i
  counts : ∀ t ∈ B.tasks, (seq.count t.id : Int) ≤ t.ni * iterations
  remained : ∀ t ∈ B.tasks, s.remained t.id = t.ni * iterations - seq.count t.id
  content : ∀ e ∈ B.channels, s.content e.1.id = e.1.preload + made e * seq.count e.2.1.id - used e * seq.count e.2.2.id
  total : s.total = (B.tasks.map fun t => t.ni * iterations - seq.count t.id).sum

theorem find_id {l : List KTask} (h : (l.map KTask.id).Nodup) {t : KTask} (ht : t ∈ l) : l.find? (fun x => x.id = t.id) = some t := by
  induction l with
  | nil => simp at ht
  | cons a l ih =>
    rw [List.map_cons, List.nodup_cons] at h
    rcases List.mem_cons.1 ht with rfl | ht'
    · exact List.find?_cons_of_pos (by simp)
    · have hne : ¬ a.id = t.id := fun hc => h.1 (by rw [hc]; exact List.mem_map_of_mem ht')
      rw [List.find?_cons_of_neg (by simpa using hne), ih h.2 ht']

theorem after_start (hu : Unique B) {iterations : Int} (h0 : ∀ t ∈ B.tasks, 0 ≤ t.ni * iterations) :
    After B iterations [] (start B iterations) := by
  refine ⟨?_, by simp, fun t ht => by simpa using h0 t ht, fun t ht => ?_, fun e he => ?_, by simp [start]⟩
  · intro p i h
    rw [List.prefix_nil] at h
    simp at h
  · unfold start
    simp only [find_id hu.tasks ht]
    simp
  · unfold start
    have := find_filter hu.channels he (fun _ => true)
    rw [List.filter_eq_self.2 (by simp)] at this
    simp only [this]
    simp

theorem sum_update {l : List KTask} (h : (l.map KTask.id).Nodup) {t : KTask} (ht : t ∈ l) (f : KTask → Int) (seq : List Int) :
    (l.map fun x => f x - (seq ++ [t.id]).count x.id).sum = (l.map fun x => f x - seq.count x.id).sum - 1 := by
  induction l with
  | nil => simp at ht
  | cons a l ih =>
    rw [List.map_cons, List.nodup_cons] at h
    simp only [List.map_cons, List.sum_cons]
    rcases List.mem_cons.1 ht with rfl | ht'
    · have : ∀ x ∈ l, f x - ((seq ++ [t.id]).count x.id : Int) = f x - (seq.count x.id : Int) := by
        intro x hx
        have hne : t.id ≠ x.id := fun hc => h.1 (by rw [hc]; exact List.mem_map_of_mem hx)
        rw [List.count_append, List.count_singleton]
        simp [hne]
      rw [List.map_congr_left this, List.count_append, List.count_singleton]
      simp
      ring
    · have hne : t.id ≠ a.id := fun hc => h.1 (by rw [← hc]; exact List.mem_map_of_mem ht')
      rw [ih h.2 ht', List.count_append, List.count_singleton]
      simp [hne]
      ring

theorem canExecute_iff {s : Exec} {t : KTask} : canExecute B s t = true ↔
    0 < s.remained t.id ∧ ∀ c ∈ B.channels, c.2.2.id = t.id → used c ≤ s.content c.1.id := by
  unfold canExecute inputs
  simp only [Bool.and_eq_true, decide_eq_true_eq, List.all_eq_true, List.mem_filter, and_imp]

theorem after_execute (hu : Unique B) {iterations : Int} {seq : List Int} {s : Exec} (h : After B iterations seq s) {t : KTask}
    (ht : t ∈ B.tasks) (hc : canExecute B s t = true) : After B iterations (seq ++ [t.id]) (execute B s t) := by
  obtain ⟨h1, h2⟩ := canExecute_iff.1 hc
  have cnt : ∀ i, ((seq ++ [t.id]).count i : Int) = seq.count i + if i = t.id then 1 else 0 := by
    intro i
    rw [List.count_append, List.count_singleton]
    by_cases hi : i = t.id
    · simp [hi]
    · simp [hi, Ne.symm hi]
  refine ⟨?_, ?_, ?_, ?_, ?_, ?_⟩
  · intro p i hp c hcm hci
    rw [List.prefix_concat_iff] at hp
    rcases hp with hp | hp
    · obtain ⟨rfl, hi⟩ := List.append_inj' hp rfl
      simp only [List.cons.injEq, and_true] at hi
      subst hi
      have := h2 c hcm hci
      rw [h.content c hcm, hci] at this
      unfold used made at this
      linarith
    · exact h.admissible p i hp c hcm hci
  · intro i hi
    rcases List.mem_append.1 hi with hi | hi
    · exact h.tasks i hi
    · simp only [List.mem_singleton] at hi
      exact ⟨t, ht, hi.symm⟩
  · intro x hx
    rw [cnt]
    split
    · rename_i hi
      rw [h.remained t ht, ← hi] at h1
      have : x = t := by
        have a := find_id hu.tasks hx
        have b := find_id hu.tasks ht
        rw [hi, b] at a
        exact (Option.some.inj a).symm
      subst this
      linarith
    · rw [add_zero]; exact h.counts x hx
  · intro x hx
    unfold execute
    dsimp only
    rw [cnt]
    by_cases hi : x.id = t.id
    · rw [hi, Function.update_self, if_pos rfl, ← hi, h.remained x hx]; ring
    · rw [Function.update_of_ne hi, if_neg hi, h.remained x hx]; ring
  · intro e he
    unfold execute
    dsimp only
    rw [put_get hu t _ he, take_get hu t _ he, cnt, cnt, h.content e he]
    split_ifs <;> ring
  · unfold execute
    dsimp only
    rw [sum_update hu.tasks ht (fun t => t.ni * iterations) seq, h.total]

/-- A turn leaves the state alone, when no task can execute, or executes something. -/
theorem after_pass (hu : Unique B) {iterations : Int} : ∀ (l : List KTask), (∀ t ∈ l, t ∈ B.tasks) → ∀ {seq : List Int} {s : Exec},
    After B iterations seq s → (l.foldl (visit B) s = s ∧ ∀ t ∈ l, canExecute B s t = false) ∨
      ∃ x, x ≠ [] ∧ After B iterations (seq ++ x) (l.foldl (visit B) s) := by
  intro l
  induction l with
  | nil => intro _ seq s _; exact .inl ⟨rfl, by simp⟩
  | cons t l ih =>
    intro hl seq s h
    rw [List.foldl_cons]
    unfold visit
    by_cases hc : canExecute B s t = true
    · rw [if_pos hc]
      have h1 := after_execute hu h (hl t (by simp)) hc
      right
      rcases ih (fun x hx => hl x (by simp [hx])) h1 with ⟨h2, -⟩ | ⟨x, hx, h2⟩
      · exact ⟨[t.id], by simp, by unfold visit at h2; rw [h2]; exact h1⟩
      · exact ⟨t.id :: x, by simp, by rw [List.append_assoc] at h2; exact h2⟩
    · rw [if_neg hc]
      rcases ih (fun x hx => hl x (by simp [hx])) h with ⟨h2, h3⟩ | h2
      · refine .inl ⟨h2, fun x hx => ?_⟩
        rcases List.mem_cons.1 hx with rfl | hx
        · simpa using hc
        · exact h3 x hx
      · exact .inr h2

theorem sum_ge {l : List KTask} (f : KTask → Int) (h : ∀ t ∈ l, 0 ≤ f t) {t : KTask} (ht : t ∈ l) : f t ≤ (l.map f).sum := by
  induction l with
  | nil => simp at ht
  | cons a l ih =>
    rw [List.map_cons, List.sum_cons]
    have h0 : 0 ≤ (l.map f).sum := List.sum_nonneg (by simpa using fun t ht => h t (by simp [ht]))
    rcases List.mem_cons.1 ht with rfl | ht'
    · omega
    · have := ih (fun t ht => h t (by simp [ht])) ht'
      have := h a (by simp)
      omega

theorem After.total_nonneg {iterations : Int} {seq : List Int} {s : Exec} (h : After B iterations seq s) : 0 ≤ s.total := by
  rw [h.total]
  refine List.sum_nonneg ?_
  simpa using fun t ht => h.counts t ht

/-- The total is 0 when all the executions are made. -/
theorem After.iterates {iterations : Int} {seq : List Int} {s : Exec} (h : After B iterations seq s) (h0 : s.total ≤ 0) :
    Iterates B iterations seq := by
  refine ⟨h.admissible, h.tasks, fun t ht => ?_⟩
  have h1 := h.counts t ht
  have h2 := sum_ge (fun t => t.ni * iterations - seq.count t.id) (fun t ht => by have := h.counts t ht; omega) ht
  rw [h.total] at h0
  omega

/-- Some execution of a longer sequence is the first that has not been made. -/
theorem first_missing (c : Int → ℕ) (seq : List Int) : (∀ i, seq.count i ≤ c i) ∨
    ∃ p i, p ++ [i] <+: seq ∧ (∀ j, p.count j ≤ c j) ∧ p.count i = c i := by
  induction seq using List.reverseRecOn with
  | nil => exact .inl (by simp)
  | append_singleton l a ih =>
    rcases ih with h | ⟨p, i, h1, h2, h3⟩
    · by_cases ha : l.count a = c a
      · exact .inr ⟨l, a, List.prefix_rfl, h, ha⟩
      · left
        intro i
        rw [List.count_append, List.count_singleton]
        by_cases hi : a = i
        · subst hi
          have := h a
          simp
          omega
        · have := h i
          simp [hi]
          omega
    · exact .inr ⟨p, i, h1.trans (List.prefix_append _ _), h2, h3⟩

theorem count_prefix {p seq : List Int} (h : p <+: seq) (i : Int) : p.count i ≤ seq.count i := h.sublist.count_le i

/-- While some sequence completes the iterations, some task can execute. -/
theorem not_stuck {iterations : Int} {seq goal : List Int} {s : Exec} (hmade : ∀ e ∈ B.channels, 0 ≤ made e) (h : After B iterations seq s)
    (hg : Iterates B iterations goal) (hpos : 0 < s.total) : ∃ t ∈ B.tasks, canExecute B s t = true := by
  rcases first_missing (fun i => seq.count i) goal with hle | ⟨p, i, h1, h2, h3⟩
  · exfalso
    rw [h.total] at hpos
    have : (B.tasks.map fun t => t.ni * iterations - (seq.count t.id : Int)).sum ≤ 0 := by
      have : ∀ l : List KTask, (∀ t ∈ l, t ∈ B.tasks) → (l.map fun t => t.ni * iterations - (seq.count t.id : Int)).sum ≤ 0 := by
        intro l
        induction l with
        | nil => simp
        | cons a l ih =>
          intro hl
          rw [List.map_cons, List.sum_cons]
          have h1 := ih fun t ht => hl t (by simp [ht])
          have h2 := hg.counts a (hl a (by simp))
          have h3 : (goal.count a.id : Int) ≤ seq.count a.id := by exact_mod_cast hle a.id
          omega
      exact this _ fun _ h => h
    omega
  · have hmem : i ∈ goal := h1.subset (by simp)
    obtain ⟨t, ht, rfl⟩ := hg.tasks i hmem
    refine ⟨t, ht, canExecute_iff.2 ⟨?_, fun c hc hci => ?_⟩⟩
    · have h4 := count_prefix h1 t.id
      rw [List.count_append, List.count_singleton_self] at h4
      have h5 := hg.counts t ht
      rw [h.remained t ht]
      have : (p.count t.id + 1 : Int) ≤ goal.count t.id := by exact_mod_cast h4
      rw [h3] at this
      omega
    · have h4 := hg.admissible p t.id h1 c hc hci
      rw [h.content c hc, hci]
      have h5 : made c * (p.count c.2.1.id : Int) ≤ made c * seq.count c.2.1.id :=
        mul_le_mul_of_nonneg_left (by exact_mod_cast h2 _) (hmade c hc)
      rw [h3] at h4
      unfold used made at *
      linarith

theorem after_passes (hu : Unique B) {iterations : Int} (h0 : ∀ t ∈ B.tasks, 0 ≤ t.ni * iterations) (n : ℕ) :
    ∃ seq, After B iterations seq (passes B (start B iterations) n) := by
  induction n with
  | zero => exact ⟨[], after_start hu h0⟩
  | succ n ih =>
    obtain ⟨seq, h⟩ := ih
    unfold passes
    split
    · rcases after_pass hu B.tasks (fun _ h => h) h with ⟨h1, -⟩ | ⟨x, -, h1⟩
      · exact ⟨seq, by unfold pass; rw [h1]; exact h⟩
      · exact ⟨_, h1⟩
    · exact ⟨seq, h⟩

end

end Kiter.Untimed
