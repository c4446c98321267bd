/-
Lemmas on the merging of tasks along a schedule.
-/
import Verif.Model.Merging
import Mathlib.Algebra.BigOperators.Group.List.Basic
import Mathlib.Tactic.Linarith
import Mathlib.Tactic.Ring
import Mathlib.Data.Nat.ModEq
import Mathlib.Algebra.Order.Floor.Ring
import Mathlib.Data.Rat.Floor
import Mathlib.Data.List.Nodup
import Mathlib.Algebra.Order.BigOperators.Group.List
import Mathlib.Algebra.Order.Archimedean.Basic

set_option autoImplicit false

namespace Kiter.Merging

/-! ### The helpers -/

theorem cycleFrom_spec (per : List Int) (hp : per ≠ []) (f : Nat → Int)
    (h : ∀ i, per[i % per.length]? = some (f i)) : ∀ n i,
    cycleFrom per n i = some ((List.range n).map fun j => f (i + j)) := by
  intro n
  induction n with
  | zero => intro i; rfl
  | succ n ih =>
    intro i
    have : per.length ≠ 0 := fun h => hp (List.length_eq_zero_iff.1 h)
    rw [cycleFrom, if_neg this, h i]
    simp only
    rw [ih, List.range_succ_eq_map, Option.map_some, List.map_cons, List.map_map]
    congr 2
    refine List.map_congr_left ?_
    intro j _
    simp only [Function.comp]
    congr 1
    omega

theorem periodic_index {f : Nat → Int} {a m : Nat} (h : ∀ k, a ≤ k → f (k + m) = f k) (q k : Nat)
    (hk : a ≤ k) : f (k + q * m) = f k := by
  induction q with
  | zero => simp
  | succ q ih =>
    rw [show k + (q + 1) * m = (k + q * m) + m by ring, h _ (by omega), ih]

theorem produceSequence_spec {init per : List Int} {n : Nat} (hn : init.length + per.length ≤ n)
    (hp : per ≠ []) (f : Nat → Int) (hi : ∀ i (h : i < init.length), f i = init[i])
    (hper : ∀ i (h : i < per.length), f (init.length + i) = per[i])
    (hrep : ∀ k, init.length ≤ k → f (k + per.length) = f k) :
    produceSequence init per n = some ((List.range n).map f) := by
  have hm : 0 < per.length := List.length_pos_iff.2 hp
  have hidx : ∀ i, per[i % per.length]? = some (f (init.length + i)) := by
    intro i
    have hlt := Nat.mod_lt i hm
    rw [List.getElem?_eq_getElem hlt, ← hper _ hlt]
    congr 1
    have := periodic_index hrep (i / per.length) (init.length + i % per.length) (by omega)
    rw [← this]
    congr 1
    have h1 := Nat.mod_add_div i per.length
    have h2 : per.length * (i / per.length) = i / per.length * per.length := Nat.mul_comm _ _
    omega
  have hc := cycleFrom_spec per hp (fun i => f (init.length + i)) hidx (n - init.length) 0
  have hlen : init ++ ((List.range (n - init.length)).map fun j => f (init.length + (0 + j)))
      = (List.range n).map f := by
    refine List.ext_getElem ?_ ?_
    · simp; omega
    · intro i h1 h2
      rw [List.getElem_append]
      split
      · rename_i h
        simp [hi i h]
      · rename_i h
        simp only [List.getElem_map, List.getElem_range]
        congr 1
        omega
  unfold produceSequence
  rw [if_pos hn, hc]
  simp only
  rw [hlen, if_pos (by simp)]

theorem time_index {f : Nat → ℚ} {a m : Nat} {p : ℚ} (h : ∀ k, a ≤ k → f (k + m) = f k + p)
    (q k : Nat) (hk : a ≤ k) : f (k + q * m) = f k + q * p := by
  induction q with
  | zero => simp
  | succ q ih =>
    rw [show k + (q + 1) * m = (k + q * m) + m by ring, h _ (by omega), ih]
    push_cast
    ring

theorem nextTime_spec {t : Task} (ht : t.init < t.starts.length) (f : Nat → ℚ)
    (hs : ∀ i (h : i < t.starts.length), f i = t.starts[i])
    (hrep : ∀ k, t.init ≤ k → f (k + (t.starts.length - t.init)) = f k + t.period) (k : Nat) :
    nextTime t k = some (f k) := by
  unfold nextTime
  by_cases hk : k < t.starts.length
  · rw [if_pos hk, List.getElem?_eq_getElem hk, hs k hk]
  · rw [if_neg hk]
    have hm : 0 < t.starts.length - t.init := by omega
    simp only
    rw [if_neg (by omega)]
    have hlt := Nat.mod_lt (k - t.init) hm
    have hin : t.init + (k - t.init) % (t.starts.length - t.init) < t.starts.length := by omega
    rw [List.getElem?_eq_getElem hin]
    simp only
    rw [← hs _ hin]
    congr 1
    rw [← time_index hrep ((k - t.init) / (t.starts.length - t.init)) _ (by omega)]
    congr 1
    have h1 := Nat.mod_add_div (k - t.init) (t.starts.length - t.init)
    have h2 : (t.starts.length - t.init) * ((k - t.init) / (t.starts.length - t.init))
        = (k - t.init) / (t.starts.length - t.init) * (t.starts.length - t.init) := Nat.mul_comm _ _
    omega

theorem nextTime_some {t : Task} (ht : t.init < t.starts.length) (k : Nat) :
    ∃ s, nextTime t k = some s := by
  unfold nextTime
  by_cases hk : k < t.starts.length
  · rw [if_pos hk, List.getElem?_eq_getElem hk]
    exact ⟨_, rfl⟩
  · rw [if_neg hk]
    have hm : 0 < t.starts.length - t.init := by omega
    simp only
    rw [if_neg (by omega)]
    have hlt := Nat.mod_lt (k - t.init) hm
    have hin : t.init + (k - t.init) % (t.starts.length - t.init) < t.starts.length := by omega
    rw [List.getElem?_eq_getElem hin]
    exact ⟨_, rfl⟩

/-! ### The sequence of executions -/

/-- The candidate kept so far is at least as early as all tasks looked at. -/
theorem pick_spec (count : Nat → Nat) (l : List Task) : ∀ (best r : Option (ℚ × Nat)),
    pick count l best = some r →
      (∀ t ∈ l, ∀ s, nextTime t (count t.id) = some s → ∃ b i, r = some (b, i) ∧ b ≤ s) ∧
      (∀ b i, best = some (b, i) → ∃ b' i', r = some (b', i') ∧ b' ≤ b) ∧
      (∀ b i, r = some (b, i) → best = some (b, i) ∨
        ∃ t ∈ l, t.id = i ∧ nextTime t (count i) = some b) := by
  induction l with
  | nil =>
    intro best r h
    simp only [pick, Option.some.injEq] at h
    subst h
    refine ⟨by simp, ?_, fun b i h => Or.inl h⟩
    intro b i h
    exact ⟨b, i, h, le_refl _⟩
  | cons t l ih =>
    intro best r h
    simp only [pick] at h
    cases hn : nextTime t (count t.id) with
    | none => rw [hn] at h; cases h
    | some time =>
      rw [hn] at h
      simp only at h
      obtain ⟨h1, h2, h3⟩ := ih _ _ h
      have hkeep : ∃ b' i', r = some (b', i') ∧ b' ≤ time ∧ ∀ b i, best = some (b, i) → b' ≤ b := by
        cases best with
        | none =>
          obtain ⟨b', i', h4, h5⟩ := h2 time t.id rfl
          exact ⟨b', i', h4, h5, by simp⟩
        | some p =>
          obtain ⟨b, i⟩ := p
          by_cases hle : time ≤ b
          · obtain ⟨b', i', h4, h5⟩ := h2 time t.id (by simp [hle])
            refine ⟨b', i', h4, h5, ?_⟩
            intro b2 i2 he
            cases he
            exact le_trans h5 hle
          · obtain ⟨b', i', h4, h5⟩ := h2 b i (by simp [hle])
            refine ⟨b', i', h4, le_trans h5 (le_of_lt (not_le.1 hle)), ?_⟩
            intro b2 i2 he
            cases he
            exact h5
      obtain ⟨b', i', hr, hle, hb⟩ := hkeep
      refine ⟨?_, ?_, ?_⟩
      · intro u hu s hs
        rcases List.mem_cons.1 hu with rfl | hu
        · rw [hn] at hs
          cases hs
          exact ⟨b', i', hr, hle⟩
        · exact h1 u hu s hs
      · intro b i he
        exact ⟨b', i', hr, hb b i he⟩
      · intro b i he
        rcases h3 b i he with h4 | ⟨u, hu, h5, h6⟩
        · cases best with
          | none =>
            simp only [Option.some.injEq, Prod.mk.injEq] at h4
            obtain ⟨rfl, rfl⟩ := h4
            exact Or.inr ⟨t, List.mem_cons_self, rfl, hn⟩
          | some p =>
            obtain ⟨b2, i2⟩ := p
            by_cases hle : time ≤ b2
            · simp only [hle, if_true, Option.some.injEq, Prod.mk.injEq] at h4
              obtain ⟨rfl, rfl⟩ := h4
              exact Or.inr ⟨t, List.mem_cons_self, rfl, hn⟩
            · simp only [hle, if_false] at h4
              exact Or.inl h4
        · exact Or.inr ⟨u, List.mem_cons_of_mem _ hu, h5, h6⟩

/-- The executions of a task start in the order of their numbers. -/
def Increasing (t : Task) : Prop :=
  ∀ i s s', nextTime t i = some s → nextTime t (i + 1) = some s' → s ≤ s'

/-- The invariant of the loop that lists the executions. -/
structure SInv (tasks : List Task) (count : Nat → Nat) (seq : List Exec) : Prop where
  iters : ∀ id, (seq.filter fun e => decide (e.task = id)).map Exec.iter = List.range (count id)
  real : ∀ e ∈ seq, ∃ t ∈ tasks, t.id = e.task ∧ nextTime t e.iter = some e.time
  sorted : seq.Pairwise fun e e' => e.time ≤ e'.time
  next : ∀ e ∈ seq, ∀ t ∈ tasks, ∀ s, nextTime t (count t.id) = some s → e.time ≤ s

theorem sinv_step {tasks : List Task} (hid : (tasks.map Task.id).Nodup)
    (hinc : ∀ t ∈ tasks, Increasing t) {count : Nat → Nat} {seq : List Exec}
    (hi : SInv tasks count seq) {time : ℚ} {id : Nat}
    (hp : pick count tasks none = some (some (time, id))) :
    SInv tasks (Function.update count id (count id + 1)) (seq ++ [⟨id, count id, time⟩]) := by
  obtain ⟨h1, _, h3⟩ := pick_spec count tasks none _ hp
  rcases h3 time id rfl with h | ⟨t, ht, rfl, hnt⟩
  · cases h
  refine ⟨?_, ?_, ?_, ?_⟩
  · intro x
    rw [List.filter_append, List.map_append, hi.iters]
    by_cases hx : t.id = x
    · subst hx
      simp [List.range_succ]
    · have : x ≠ t.id := fun h => hx h.symm
      simp [hx, Function.update_of_ne this]
  · intro e he
    rcases List.mem_append.1 he with he | he
    · exact hi.real e he
    · rw [List.mem_singleton] at he
      subst he
      exact ⟨t, ht, rfl, hnt⟩
  · refine List.pairwise_append.2 ⟨hi.sorted, List.pairwise_singleton _ _, ?_⟩
    intro e he e' he'
    rw [List.mem_singleton] at he'
    subst he'
    exact hi.next e he t ht time hnt
  · intro e he u hu s hs
    have hlow : time ≤ s := by
      by_cases hut : u.id = t.id
      · have : u = t := List.inj_on_of_nodup_map hid hu ht hut
        subst this
        rw [Function.update_self] at hs
        exact hinc u hu _ _ _ hnt hs
      · rw [Function.update_of_ne hut] at hs
        obtain ⟨b, i, hb, hle⟩ := h1 u hu s hs
        cases hb
        exact hle
    rcases List.mem_append.1 he with he | he
    · exact le_trans (hi.next e he t ht time hnt) hlow
    · rw [List.mem_singleton] at he
      subst he
      exact hlow

theorem schedule_inv {tasks : List Task} (hid : (tasks.map Task.id).Nodup)
    (hinc : ∀ t ∈ tasks, Increasing t) (fuel : Nat) : ∀ (count : Nat → Nat) (seq out : List Exec),
    SInv tasks count seq → schedule tasks fuel count seq = some out →
    ∃ count', SInv tasks count' out ∧ dontStop tasks count' = false ∧ out ≠ [] := by
  induction fuel with
  | zero => intro count seq out _ h; cases h
  | succ fuel ih =>
    intro count seq out hi h
    rw [schedule] at h
    cases hp : pick count tasks none with
    | none => rw [hp] at h; cases h
    | some r =>
      cases r with
      | none => rw [hp] at h; cases h
      | some p =>
        obtain ⟨time, id⟩ := p
        rw [hp] at h
        simp only at h
        have hstep := sinv_step hid hinc hi hp
        split at h
        · exact ih _ _ _ hstep h
        · rename_i hd
          cases h
          exact ⟨_, hstep, by simpa using hd, by simp⟩

theorem sinv_empty (tasks : List Task) : SInv tasks (fun _ => 0) [] :=
  ⟨fun _ => rfl, by simp, List.Pairwise.nil, by simp⟩

theorem executionSequence_inv {tasks : List Task} (hid : (tasks.map Task.id).Nodup)
    (hinc : ∀ t ∈ tasks, Increasing t) {fuel : Nat} {out : List Exec}
    (h : executionSequence tasks fuel = some out) :
    ∃ count, SInv tasks count out ∧ dontStop tasks count = false ∧ out ≠ [] :=
  schedule_inv hid hinc fuel _ _ _ (sinv_empty tasks) h

/-! ### Termination -/

theorem list_lower_bound (l : List ℚ) : ∃ b : ℚ, ∀ x ∈ l, b ≤ x := by
  induction l with
  | nil => exact ⟨0, by simp⟩
  | cons a l ih =>
    obtain ⟨b, hb⟩ := ih
    refine ⟨min a b, ?_⟩
    intro x hx
    rcases List.mem_cons.1 hx with rfl | hx
    · exact min_le_left _ _
    · exact le_trans (min_le_right _ _) (hb x hx)

theorem nextTime_unbounded {t : Task} (ht : t.init < t.starts.length) (hp : 0 < t.period) (B : ℚ) :
    ∃ K, ∀ k, K ≤ k → ∀ s, nextTime t k = some s → B < s := by
  obtain ⟨L, hL⟩ := list_lower_bound t.starts
  obtain ⟨Q, hQ⟩ := exists_nat_gt ((B - L) / t.period)
  rw [div_lt_iff₀ hp] at hQ
  refine ⟨t.starts.length + (t.init + Q * (t.starts.length - t.init)), ?_⟩
  intro k hk s hs
  have hm : 0 < t.starts.length - t.init := by omega
  unfold nextTime at hs
  rw [if_neg (by omega)] at hs
  simp only at hs
  rw [if_neg (by omega)] at hs
  have hlt := Nat.mod_lt (k - t.init) hm
  have hin : t.init + (k - t.init) % (t.starts.length - t.init) < t.starts.length := by omega
  rw [List.getElem?_eq_getElem hin] at hs
  simp only [Option.some.injEq] at hs
  have h1 := hL _ (List.getElem_mem hin)
  have h2 : Q ≤ (k - t.init) / (t.starts.length - t.init) := by
    rw [Nat.le_div_iff_mul_le hm]
    omega
  have h3 : (Q : ℚ) * t.period ≤ ((k - t.init) / (t.starts.length - t.init) : Nat) * t.period := by
    refine mul_le_mul_of_nonneg_right ?_ (le_of_lt hp)
    exact_mod_cast h2
  rw [← hs]
  linarith

theorem pick_total {tasks : List Task} (ht : ∀ t ∈ tasks, t.init < t.starts.length)
    (count : Nat → Nat) : ∀ best, ∃ r, pick count tasks best = some r := by
  induction tasks with
  | nil => intro best; exact ⟨best, rfl⟩
  | cons t l ih =>
    intro best
    obtain ⟨s, hs⟩ := nextTime_some (ht t List.mem_cons_self) (count t.id)
    rw [pick, hs]
    exact ih (fun u hu => ht u (List.mem_cons_of_mem _ hu)) _

theorem bound_all {tasks : List Task} (P : Task → Nat → Prop)
    (hm : ∀ t ∈ tasks, ∃ K, ∀ k, K ≤ k → P t k) : ∃ K, ∀ t ∈ tasks, ∀ k, K ≤ k → P t k := by
  induction tasks with
  | nil => exact ⟨0, by simp⟩
  | cons t l ih =>
    obtain ⟨K1, h1⟩ := hm t List.mem_cons_self
    obtain ⟨K2, h2⟩ := ih fun u hu => hm u (List.mem_cons_of_mem _ hu)
    refine ⟨max K1 K2, ?_⟩
    intro u hu k hk
    rcases List.mem_cons.1 hu with rfl | hu
    · exact h1 k (by omega)
    · exact h2 u hu k (by omega)

theorem upper_bound (tasks : List Task) (ht : ∀ t ∈ tasks, t.init < t.starts.length)
    (th : Task → Nat) :
    ∃ B : ℚ, ∀ t ∈ tasks, ∀ k, k ≤ th t → ∀ s, nextTime t k = some s → s ≤ B := by
  induction tasks with
  | nil => exact ⟨0, by simp⟩
  | cons t l ih =>
    obtain ⟨B1, h1⟩ := ih fun u hu => ht u (List.mem_cons_of_mem _ hu)
    have : ∀ n, ∃ B : ℚ, ∀ k, k ≤ n → ∀ s, nextTime t k = some s → s ≤ B := by
      intro n
      induction n with
      | zero =>
        obtain ⟨s, hs⟩ := nextTime_some (ht t List.mem_cons_self) 0
        refine ⟨s, ?_⟩
        intro k hk s' hs'
        have : k = 0 := by omega
        subst this
        rw [hs] at hs'
        cases hs'
        exact le_refl _
      | succ n ihn =>
        obtain ⟨B, hB⟩ := ihn
        obtain ⟨s, hs⟩ := nextTime_some (ht t List.mem_cons_self) (n + 1)
        refine ⟨max B s, ?_⟩
        intro k hk s' hs'
        rcases Nat.lt_or_ge k (n + 1) with h | h
        · exact le_trans (hB k (by omega) s' hs') (le_max_left _ _)
        · have : k = n + 1 := by omega
          subst this
          rw [hs] at hs'
          cases hs'
          exact le_max_right _ _
    obtain ⟨B2, h2⟩ := this (th t)
    refine ⟨max B1 B2, ?_⟩
    intro u hu k hk s hs
    rcases List.mem_cons.1 hu with rfl | hu
    · exact le_trans (h2 k hk s hs) (le_max_right _ _)
    · exact le_trans (h1 u hu k hk s hs) (le_max_left _ _)

theorem schedule_terminates {tasks : List Task} (hne : tasks ≠ [])
    (ht : ∀ t ∈ tasks, t.init < t.starts.length ∧ 0 < t.period) :
    ∃ fuel out, executionSequence tasks fuel = some out := by
  obtain ⟨B, hB⟩ := upper_bound tasks (fun t h => (ht t h).1) fun t => t.init + t.per * t.ni
  obtain ⟨K, hK⟩ := bound_all (tasks := tasks) (fun t k => ∀ s, nextTime t k = some s → B < s)
    fun t h => nextTime_unbounded (ht t h).1 (ht t h).2 B
  have main : ∀ n count seq, (∃ u ∈ tasks, count u.id ≤ u.init + u.per * u.ni) →
      (tasks.map fun t => K - count t.id).sum ≤ n →
      ∃ out, schedule tasks (n + 1) count seq = some out := by
    intro n
    induction n with
    | zero =>
      intro count seq hex hsum
      exfalso
      obtain ⟨u, hu, hc⟩ := hex
      obtain ⟨r, hr⟩ := pick_total (fun t h => (ht t h).1) count none
      obtain ⟨h1, _, h3⟩ := pick_spec count tasks none r hr
      obtain ⟨s, hs⟩ := nextTime_some (ht u hu).1 (count u.id)
      obtain ⟨b, i, rfl, hle⟩ := h1 u hu s hs
      rcases h3 b i rfl with h | ⟨t, htm, rfl, hnt⟩
      · cases h
      have h4 : ¬ K ≤ count t.id := by
        intro h
        have h5 := hK t htm _ h b hnt
        have h6 := hB u hu _ hc s hs
        linarith
      have h5 : K - count t.id ≤ (tasks.map fun t => K - count t.id).sum :=
        List.single_le_sum (by simp) _ (List.mem_map.2 ⟨t, htm, rfl⟩)
      omega
    | succ n ih =>
      intro count seq hex hsum
      obtain ⟨u, hu, hc⟩ := hex
      obtain ⟨r, hr⟩ := pick_total (fun t h => (ht t h).1) count none
      obtain ⟨h1, _, h3⟩ := pick_spec count tasks none r hr
      obtain ⟨s, hs⟩ := nextTime_some (ht u hu).1 (count u.id)
      obtain ⟨b, i, rfl, hle⟩ := h1 u hu s hs
      rcases h3 b i rfl with h | ⟨t, htm, rfl, hnt⟩
      · cases h
      have h4 : ¬ K ≤ count t.id := by
        intro h
        have h5 := hK t htm _ h b hnt
        have h6 := hB u hu _ hc s hs
        linarith
      rw [schedule, hr]
      simp only
      split
      · rename_i hd
        refine ih _ _ ?_ ?_
        · unfold dontStop at hd
          rw [List.any_eq_true] at hd
          obtain ⟨w, hw, hlt⟩ := hd
          exact ⟨w, hw, le_of_lt (by simpa using hlt)⟩
        · have : (tasks.map fun v => K - Function.update count t.id (count t.id + 1) v.id).sum
              < (tasks.map fun v => K - count v.id).sum := by
            refine List.sum_lt_sum _ _ ?_ ⟨t, htm, ?_⟩
            · intro v _
              by_cases hv : v.id = t.id
              · simp [hv]; omega
              · rw [Function.update_of_ne hv]
            · simp; omega
          omega
      · exact ⟨_, rfl⟩
  obtain ⟨u, hu⟩ := List.exists_mem_of_ne_nil tasks hne
  obtain ⟨out, hout⟩ := main _ (fun _ => 0) [] ⟨u, hu, Nat.zero_le _⟩ (le_refl _)
  exact ⟨_, out, hout⟩

/-! ### The pattern -/

theorem countIn_eq (l : List Exec) (id : Nat) : countIn l id = (l.map Exec.task).count id := by
  unfold countIn
  rw [List.count, List.countP_map]
  congr 1

theorem okCounts_spec (g : Nat) (l : List Exec) (ts : List Task) : ∀ factor,
    okCounts g l factor ts = some true →
    ∃ F, (factor ≠ 0 → F = factor) ∧ (ts ≠ [] → F ≠ 0) ∧
      ∀ t ∈ ts, countIn l t.id = t.ni / g * F := by
  induction ts with
  | nil => intro factor _; exact ⟨factor, fun _ => rfl, by simp, by simp⟩
  | cons t ts ih =>
    intro factor h
    rw [okCounts] at h
    split at h
    · cases h
    simp only at h
    split at h
    · cases h
    generalize hf : (if factor = 0 then countIn l t.id / (t.ni / g) else factor) = f' at h
    cases ho : okCounts g l f' ts with
    | none => rw [ho] at h; cases h
    | some r =>
      rw [ho] at h
      simp only [Option.some.injEq, Bool.and_eq_true, decide_eq_true_eq] at h
      obtain ⟨⟨⟨h1, h2⟩, h3⟩, rfl⟩ := h
      have hf0 : f' ≠ 0 := by
        rintro rfl
        simp at h3
        exact h1 h3
      obtain ⟨F, h4, h5, h6⟩ := ih f' ho
      have hF := h4 hf0
      subst hF
      refine ⟨F, ?_, fun _ => hf0, ?_⟩
      · intro hne
        rw [if_neg hne] at hf
        exact hf.symm
      · intro u hu
        rcases List.mem_cons.1 hu with rfl | hu
        · exact h3
        · exact h6 u hu

theorem gcd_fold (l : List Task) : ∀ g, (l.foldl (fun g t => Nat.gcd g t.ni) g ∣ g) ∧
    ∀ t ∈ l, l.foldl (fun g t => Nat.gcd g t.ni) g ∣ t.ni := by
  induction l with
  | nil => intro g; exact ⟨dvd_refl _, by simp⟩
  | cons t l ih =>
    intro g
    obtain ⟨h1, h2⟩ := ih (Nat.gcd g t.ni)
    rw [List.foldl_cons]
    refine ⟨dvd_trans h1 (Nat.gcd_dvd_left _ _), ?_⟩
    intro u hu
    rcases List.mem_cons.1 hu with rfl | hu
    · exact dvd_trans h1 (Nat.gcd_dvd_right _ _)
    · exact h2 u hu

theorem gcdNi_dvd {tasks : List Task} {t : Task} (ht : t ∈ tasks) : gcdNi tasks ∣ t.ni :=
  (gcd_fold tasks 0).2 t ht

theorem findInit_spec (tasks : List Task) (seq : List Exec) : ∀ n c,
    findInit tasks seq n = some c →
    c < n ∧ okCounts (gcdNi tasks) (seq.drop c) 0 tasks = some true := by
  intro n
  induction n with
  | zero => intro c h; cases h
  | succ n ih =>
    intro c h
    rw [findInit] at h
    cases ho : okCounts (gcdNi tasks) (seq.drop n) 0 tasks with
    | none => rw [ho] at h; cases h
    | some b =>
      rw [ho] at h
      cases b with
      | true => cases h; exact ⟨by omega, ho⟩
      | false =>
        obtain ⟨h1, h2⟩ := ih c h
        exact ⟨by omega, h2⟩

theorem reduceInit_spec (seq : List Exec) (pattern : List Nat) : ∀ fuel e new,
    ((seq.drop new).take pattern.length).map Exec.task = pattern →
    e ≤ new →
    ((seq.drop (reduceInit seq pattern fuel e new)).take pattern.length).map Exec.task = pattern ∧
      reduceInit seq pattern fuel e new ≤ new := by
  intro fuel
  induction fuel with
  | zero => intro e new h _; exact ⟨h, le_refl _⟩
  | succ fuel ih =>
    intro e new h he
    rw [reduceInit]
    by_cases hc : ((seq.drop e).take pattern.length).map Exec.task = pattern
    · simp only [hc, if_true]
      split
      · exact ⟨hc, he⟩
      · obtain ⟨h1, h2⟩ := ih (e - pattern.length) e hc (Nat.sub_le _ _)
        exact ⟨h1, le_trans h2 he⟩
    · simp only [hc, if_false]
      split
      · exact ⟨h, le_refl _⟩
      · exact ih (e - pattern.length) new h (by omega)

theorem choosePattern_spec {tasks : List Task} {seq out : List Exec} {e : Nat}
    (h : choosePattern tasks seq = some (e, out)) :
    ∃ F c, (tasks ≠ [] → F ≠ 0) ∧
      (∀ t ∈ tasks, countIn (out.drop e) t.id = t.ni / gcdNi tasks * F) ∧
      out = seq.take out.length ∧ e < out.length ∧ c < seq.length ∧
      (out.drop e).map Exec.task = (seq.drop c).map Exec.task := by
  unfold choosePattern at h
  split at h
  · cases h
  cases hf : findInit tasks seq seq.length with
  | none => rw [hf] at h; cases h
  | some c =>
    rw [hf] at h
    simp only [Option.some.injEq, Prod.mk.injEq] at h
    obtain ⟨he, hout⟩ := h
    obtain ⟨hc, hok⟩ := findInit_spec tasks seq _ _ hf
    obtain ⟨F, _, hF, hcount⟩ := okCounts_spec _ _ _ _ hok
    have h0 : ((seq.drop c).take ((seq.drop c).map Exec.task).length).map Exec.task
        = (seq.drop c).map Exec.task := by
      rw [List.length_map, List.take_length]
    obtain ⟨h1, h2⟩ := reduceInit_spec seq _ (c + 1) c c h0 (le_refl _)
    rw [he] at h1 h2
    have hlen : ((seq.drop c).map Exec.task).length = seq.length - c := by simp
    rw [he, hlen] at hout
    rw [hlen] at h1
    have hol : out.length = e + (seq.length - c) := by
      rw [← hout, List.length_take]; omega
    have hd : (out.drop e).map Exec.task = (seq.drop c).map Exec.task := by
      rw [← hout, List.drop_take, ← h1]
      congr 2
      omega
    refine ⟨F, c, hF, ?_, ?_, by omega, hc, hd⟩
    · intro t ht
      rw [countIn_eq, hd, ← countIn_eq]
      exact hcount t ht
    · rw [hol, ← hout]

/-! ### Rates -/

/-- The executions of each task are numbered from 0 without gap. -/
def Iters (seq : List Exec) : Prop :=
  ∀ id, (seq.filter fun e => decide (e.task = id)).map Exec.iter = List.range (countIn seq id)

theorem iters_of_range {seq : List Exec} {count : Nat → Nat}
    (h : ∀ id, (seq.filter fun e => decide (e.task = id)).map Exec.iter = List.range (count id)) :
    Iters seq ∧ ∀ id, countIn seq id = count id := by
  have : ∀ id, countIn seq id = count id := by
    intro id
    have := congrArg List.length (h id)
    rw [List.length_map, List.length_range, ← List.countP_eq_length_filter] at this
    exact this
  exact ⟨fun id => by rw [this id]; exact h id, this⟩

theorem iters_take {seq : List Exec} (h : Iters seq) (n : Nat) : Iters (seq.take n) := by
  intro id
  have h1 : (seq.filter fun e => decide (e.task = id)) =
      ((seq.take n).filter fun e => decide (e.task = id)) ++
      ((seq.drop n).filter fun e => decide (e.task = id)) := by
    rw [← List.filter_append, List.take_append_drop]
  have h2 := h id
  rw [h1, List.map_append] at h2
  have h3 := congrArg (List.take (countIn (seq.take n) id)) h2
  have h4 : countIn (seq.take n) id
      = (((seq.take n).filter fun e => decide (e.task = id)).map Exec.iter).length := by
    rw [List.length_map, ← List.countP_eq_length_filter]; rfl
  rw [List.take_left' h4.symm, List.take_range] at h3
  rw [h3]
  congr 1
  refine Nat.min_eq_left ?_
  have : countIn seq id = countIn (seq.take n) id + countIn (seq.drop n) id := by
    unfold countIn
    rw [← List.countP_append, List.take_append_drop]
  omega

/-- Sum of the first `n` values of a sequence. -/
def S (f : Nat → Int) (n : Nat) : Int := ((List.range n).map f).sum

theorem S_succ (f : Nat → Int) (n : Nat) : S f (n + 1) = S f n + f n := by
  simp [S, List.range_succ]

theorem sum_ite_filter (f : Nat → Int) (id : Nat) (l : List Exec) :
    (l.map fun e => if e.task = id then f e.iter else 0).sum
      = (((l.filter fun e => decide (e.task = id)).map Exec.iter).map f).sum := by
  induction l with
  | nil => rfl
  | cons e l ih =>
    rw [List.map_cons, List.sum_cons, ih]
    by_cases h : e.task = id
    · simp [h]
    · simp [h]

theorem iters_sum {seq : List Exec} (h : Iters seq) (f : Nat → Int) (id : Nat) :
    (seq.map fun e => if e.task = id then f e.iter else 0).sum = S f (countIn seq id) := by
  rw [sum_ite_filter, h id]
  rfl

theorem iters_lt {seq : List Exec} (h : Iters seq) {e : Exec} (he : e ∈ seq) :
    e.iter < countIn seq e.task := by
  have : e.iter ∈ (seq.filter fun x => decide (x.task = e.task)).map Exec.iter :=
    List.mem_map.2 ⟨e, List.mem_filter.2 ⟨he, by simp⟩, rfl⟩
  rw [h e.task] at this
  exact List.mem_range.1 this

theorem mapM_eq_some {A B : Type} (l : List A) (f : A → Option B) (g : A → B)
    (h : ∀ a ∈ l, f a = some (g a)) : l.mapM f = some (l.map g) := by
  induction l with
  | nil => rfl
  | cons a l ih =>
    rw [List.mapM_cons, h a List.mem_cons_self, ih fun x hx => h x (List.mem_cons_of_mem _ hx)]
    rfl

theorem mergedRates_spec {seq : List Exec} (hi : Iters seq) (id : Nat) {init per : List Int}
    (hn : init.length + per.length ≤ seq.length) (hp : per ≠ []) (f : Nat → Int)
    (h1 : ∀ i (h : i < init.length), f i = init[i])
    (h2 : ∀ i (h : i < per.length), f (init.length + i) = per[i])
    (h3 : ∀ k, init.length ≤ k → f (k + per.length) = f k) :
    mergedRates seq id init per
      = some (seq.map fun e => if e.task = id then f e.iter else 0) := by
  unfold mergedRates
  rw [produceSequence_spec hn hp f h1 h2 h3]
  simp only
  refine mapM_eq_some _ _ _ ?_
  intro e he
  by_cases h : e.task = id
  · rw [if_pos h, if_pos h]
    have hlt : e.iter < seq.length := by
      have := iters_lt hi he
      have : countIn seq e.task ≤ seq.length := List.countP_le_length
      omega
    rw [List.getElem?_map, List.getElem?_range hlt]
    rfl
  · rw [if_neg h, if_neg h]

theorem S_add (f : Nat → Int) (a b : Nat) : S f (a + b) = S f a + S (fun j => f (a + j)) b := by
  induction b with
  | zero => simp [S]
  | succ b ih => rw [← Nat.add_assoc, S_succ, S_succ, ih]; ring

theorem S_shift {f : Nat → Int} {p : Nat} (h : ∀ k, f (k + p) = f k) (a : Nat) :
    S (fun j => f (a + j)) p = S f p := by
  have h1 := S_add f a p
  have h2 := S_add f p a
  have h3 : S (fun j => f (p + j)) a = S f a := by
    unfold S
    congr 1
    refine List.map_congr_left ?_
    intro j _
    rw [Nat.add_comm p j, h]
  rw [Nat.add_comm p a] at h2
  rw [h3] at h2
  linarith

theorem S_periodic {f : Nat → Int} {p : Nat} (h : ∀ k, f (k + p) = f k) (q : Nat) : ∀ a,
    S (fun j => f (a + j)) (q * p) = q * S f p := by
  induction q with
  | zero => intro a; simp [S]
  | succ q ih =>
    intro a
    rw [Nat.add_mul, Nat.one_mul, S_add, ih]
    have : (fun j => f (a + (q * p + j))) = fun j => f ((a + q * p) + j) := by
      funext j; rw [Nat.add_assoc]
    rw [this, S_shift h]
    push_cast
    ring

end Kiter.Merging
