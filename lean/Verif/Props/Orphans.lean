/-
C138, C139: the tasks left without channel after merging, and the hyperperiod computed at the end of the command.
-/
import Verif.Model.Orphans
import Mathlib.Tactic.Ring
import Mathlib.Tactic.FieldSimp
import Mathlib.Tactic.NormNum

set_option autoImplicit false

namespace Kiter.Orphan

variable {link : ℕ → Option ℕ}

theorem degree_remove (g : Net) (v w : ℕ) : (g.remove link v).degree w = g.degree w := rfl

theorem channels_remove (g : Net) (v : ℕ) : (g.remove link v).channels = g.channels := rfl

/-- A task has a channel. -/
def Linked (g : Net) (v : ℕ) : Prop := ∃ c ∈ g.channels, c.1 = v ∨ c.2 = v

theorem degree_zero {g : Net} {v : ℕ} : g.degree v = 0 ↔ ¬ Linked g v := by
  unfold Net.degree Linked
  rw [Nat.add_eq_zero_iff, List.countP_eq_zero, List.countP_eq_zero]
  constructor
  · rintro ⟨h1, h2⟩ ⟨c, hc, h | h⟩
    · exact h1 c hc (by simpa using h)
    · exact h2 c hc (by simpa using h)
  · intro h
    exact ⟨fun c hc hv => h ⟨c, hc, .inl (by simpa using hv)⟩, fun c hc hv => h ⟨c, hc, .inr (by simpa using hv)⟩⟩

/-- What the tasks, the channels and the lists of conflicts must be at the end. -/
structure Cleaned (link : ℕ → Option ℕ) (g g' : Net) : Prop where
  channels : g'.channels = g.channels
  tasks : g'.tasks.Sublist g.tasks
  kept : ∀ v, v ∈ g'.tasks ↔ v ∈ g.tasks ∧ Linked g v
  order : ∀ e, (g'.conflicts e).Sublist (g.conflicts e)
  conflicts : ∀ e v, v ∈ g'.conflicts e ↔ v ∈ g.conflicts e ∧ ¬ (v ∈ g.tasks ∧ ¬ Linked g v ∧ link v = some e)

theorem conflicts_remove {g : Net} {v : ℕ} (e : ℕ) : (g.remove link v).conflicts e =
    if link v = some e then (g.conflicts e).erase v else g.conflicts e := by
  unfold Net.remove
  cases h : link v with
  | none => simp
  | some x =>
    by_cases hx : e = x
    · subst hx; simp
    · have : x ≠ e := fun h => hx h.symm
      simp [hx, this]

theorem removeOrphans_spec : ∀ (fuel : ℕ) (g : Net), g.tasks.length < fuel → g.tasks.Nodup → (∀ e, (g.conflicts e).Nodup) →
    (∃ v ∈ g.tasks, Linked g v) → ∃ g', removeOrphans link fuel g = some g' ∧ Cleaned link g g'
  | 0, _, h, _, _, _ => absurd h (Nat.not_lt_zero _)
  | fuel + 1, g, hf, hn, hc, ⟨w, hw, hl⟩ => by
    unfold removeOrphans
    cases hfind : g.tasks.find? fun v => g.degree v == 0 with
    | none =>
      have hne : g.tasks.isEmpty = false := by
        cases h : g.tasks with
        | nil => rw [h] at hw; cases hw
        | cons a l => rfl
      simp only [hne]
      have hall : ∀ v ∈ g.tasks, Linked g v := by
        intro v hv
        by_contra hnl
        exact (List.find?_eq_none.mp hfind) v hv (by simpa using degree_zero.mpr hnl)
      refine ⟨g, rfl, rfl, List.Sublist.refl _, fun v => ⟨fun h => ⟨h, hall v h⟩, fun h => h.1⟩, fun e => List.Sublist.refl _,
        fun e v => ⟨fun h => ⟨h, fun ⟨a, b, _⟩ => b (hall v a)⟩, fun h => h.1⟩⟩
    | some v =>
      have hv : v ∈ g.tasks := List.mem_of_find?_eq_some hfind
      have hnl : ¬ Linked g v := degree_zero.mp (by simpa using List.find?_some hfind)
      have hwv : w ≠ v := fun h => hnl (h ▸ hl)
      have hmem : ∀ x, x ∈ (g.remove link v).tasks ↔ x ≠ v ∧ x ∈ g.tasks := fun x => hn.mem_erase_iff
      obtain ⟨g', h1, h2⟩ := removeOrphans_spec fuel (g.remove link v)
        (by
          show (g.tasks.erase v).length < fuel
          have := List.length_pos_of_mem hv
          rw [List.length_erase_of_mem hv]; omega)
        (hn.erase v)
        (fun e => by rw [conflicts_remove]; split
                     · exact (hc e).erase v
                     · exact hc e)
        ⟨w, (hmem w).mpr ⟨hwv, hw⟩, hl⟩
      refine ⟨g', h1, h2.channels, h2.tasks.trans List.erase_sublist, fun x => ?_, fun e => ?_, fun e x => ?_⟩
      · rw [h2.kept, hmem]
        constructor
        · rintro ⟨⟨-, a⟩, b⟩; exact ⟨a, b⟩
        · rintro ⟨a, b⟩; exact ⟨⟨fun h => hnl (h ▸ b), a⟩, b⟩
      · refine (h2.order e).trans ?_
        rw [conflicts_remove]
        split
        · exact List.erase_sublist
        · exact List.Sublist.refl _
      · rw [h2.conflicts, hmem, conflicts_remove]
        change _ ∧ ¬ (_ ∧ ¬ Linked g x ∧ _) ↔ _
        by_cases hx : x = v
        · subst hx
          split
          · rename_i hlk
            rw [(hc e).mem_erase_iff]
            constructor
            · rintro ⟨⟨h, -⟩, -⟩; exact absurd rfl h
            · rintro ⟨-, h⟩; exact absurd ⟨hv, hnl, hlk⟩ h
          · rename_i hlk
            exact ⟨fun h => ⟨h.1, fun h' => hlk h'.2.2⟩, fun h => ⟨h.1, fun h' => hlk h'.2.2⟩⟩
        · split
          · rw [List.mem_erase_of_ne hx]
            exact ⟨fun h => ⟨h.1, fun h' => h.2 ⟨⟨hx, h'.1⟩, h'.2⟩⟩, fun h => ⟨h.1, fun h' => h.2 ⟨h'.1.2, h'.2⟩⟩⟩
          · exact ⟨fun h => ⟨h.1, fun h' => h.2 ⟨⟨hx, h'.1⟩, h'.2⟩⟩, fun h => ⟨h.1, fun h' => h.2 ⟨h'.1.2, h'.2⟩⟩⟩

/-- **C138** (partial) If some task has a channel, the cleaning ends, after at most one turn more than there are tasks: exactly the tasks
with a channel stay, in their order, no channel is touched, and from the lists of conflicts exactly the removed tasks disappear, each
from the list of its link. Missing: graphs in which no task has a channel (`C138_diverges_counterexample`). -/
theorem _root_.Kiter.C138_orphans_partial (link : ℕ → Option ℕ) {g : Net} (hn : g.tasks.Nodup) (hc : ∀ e, (g.conflicts e).Nodup)
    (hl : ∃ v ∈ g.tasks, Linked g v) {fuel : ℕ} (hf : g.tasks.length < fuel) :
    ∃ g', removeOrphans link fuel g = some g' ∧ Cleaned link g g' := removeOrphans_spec fuel g hf hn hc hl

/-- **C138, counterexample.** If no task has a channel, the cleaning never ends: when the last task is removed, nothing stops the loop. -/
theorem _root_.Kiter.C138_diverges_counterexample (link : ℕ → Option ℕ) : ∀ (fuel : ℕ) (g : Net), (∀ v ∈ g.tasks, ¬ Linked g v) →
    removeOrphans link fuel g = none
  | 0, _, _ => rfl
  | fuel + 1, g, h => by
    unfold removeOrphans
    cases hfind : g.tasks.find? fun v => g.degree v == 0 with
    | some v => exact C138_diverges_counterexample link fuel _ fun x hx => h x (List.mem_of_mem_erase hx)
    | none =>
      have he : g.tasks = [] := by
        cases ht : g.tasks with
        | nil => rfl
        | cons a l =>
          have ha : a ∈ g.tasks := by rw [ht]; exact List.mem_cons_self ..
          exact absurd (degree_zero.mpr (h a ha)) (by simpa using (List.find?_eq_none.mp hfind) a ha)
      simp only [he, List.isEmpty_nil, if_true]
      exact C138_diverges_counterexample link fuel g h

/-! ### The hyperperiod -/

theorem hpLoop_last : ∀ (ts : List Task) (t : Task) (hp : Option ℚ) (l : ℕ), (hpLoop (ts ++ [t]) hp l).1 = hpOf t
  | [], _, _, _ => rfl
  | _ :: ts, t, _, _ => hpLoop_last ts t _ _

theorem hpLoop_lcm : ∀ (ts : List Task) (hp : Option ℚ) (l : ℕ), l ∣ (hpLoop ts hp l).2 ∧ ∀ t ∈ ts, t.ni ∣ (hpLoop ts hp l).2
  | [], _, _ => ⟨Nat.dvd_refl _, by simp⟩
  | t :: ts, _, l => by
    obtain ⟨h1, h2⟩ := hpLoop_lcm ts (hpOf t) (Nat.lcm l t.ni)
    refine ⟨(Nat.dvd_lcm_left ..).trans h1, fun x hx => ?_⟩
    rcases List.mem_cons.mp hx with rfl | hx
    · exact (Nat.dvd_lcm_right ..).trans h1
    · exact h2 x hx

/-- **C139** (partial) When every task of the schedule is one of the original graph, with positive repetition counts, the first value
computed is the time of one iteration of the original graph: for a schedule in which all tasks keep the pace `Ω` of it (the period of
a task is that of its starts), it is `Ω`; and the second value is a multiple of all repetition counts. Missing: schedules with tasks
of the network (`C139_network_counterexample`). -/
theorem _root_.Kiter.C139_hyperperiod_partial {ts : List Task} (hne : ts ≠ []) {Ω : ℚ}
    (h : ∀ t ∈ ts, 0 < t.ni ∧ ∃ n, t.orig = some n ∧ 0 < n ∧ 0 < t.starts ∧ t.starts ∣ n ∧ t.period = Ω * t.starts / n) :
    ∃ l, findHP ts = some (Ω, l) ∧ ∀ t ∈ ts, t.ni ∣ l := by
  obtain ⟨pre, t, rfl⟩ : ∃ pre t, ts = pre ++ [t] := ⟨ts.dropLast, ts.getLast hne, (List.dropLast_append_getLast hne).symm⟩
  have hall : (pre ++ [t]).all supported = true := by
    rw [List.all_eq_true]
    intro x hx
    obtain ⟨-, n, h1, -, h2, h3, -⟩ := h x hx
    unfold supported
    rw [h1]
    simp only [bne_iff_ne, ne_eq, Bool.and_eq_true, beq_iff_eq]
    exact ⟨h2.ne', Nat.mod_eq_zero_of_dvd h3⟩
  have hv : hpOf t = some Ω := by
    obtain ⟨h0, n, h1, h2, h3, -, h5⟩ := h t (by simp)
    have a : (t.ni : ℚ) ≠ 0 := by exact_mod_cast h0.ne'
    have b : (n : ℚ) ≠ 0 := by exact_mod_cast h2.ne'
    have c : (t.starts : ℚ) ≠ 0 := by exact_mod_cast h3.ne'
    unfold hpOf ratio
    rw [h1]
    simp only
    rw [if_neg (mul_ne_zero (div_ne_zero a b) c), h5]
    congr 1
    field_simp
  unfold findHP
  rw [if_pos hall]
  simp only [hpLoop_last, hv, Option.bind_eq_bind, Option.bind_some, Option.pure_def]
  exact ⟨_, rfl, fun x hx => ((hpLoop_lcm _ _ _).2 x hx).trans (Nat.dvd_lcm_left ..)⟩

/-- **C139, counterexample.** If the last task of the schedule, the one with the greatest identifier, belongs to the network, the
computation has no result: its ratio is 0, and an infinite value is converted to an integer. Tasks of the network are added after
those of the graph. -/
theorem _root_.Kiter.C139_network_counterexample (ts : List Task) (t : Task) (h : t.orig = none) : findHP (ts ++ [t]) = none := by
  unfold findHP
  split
  · have : hpOf t = none := by unfold hpOf ratio; rw [h]; simp
    simp [hpLoop_last, this]
  · rfl

/-! ### The hypotheses are met -/

/-- Tasks 1 to 4, a channel from 1 to 3; 2 and 4 are listed for the links 7 and 8, and 4 wrongly for 7 too. -/
def net : Net := ⟨[1, 2, 3, 4], [(1, 3)], fun e => if e = 7 then [3, 2, 4] else if e = 8 then [4] else []⟩
def netLink : ℕ → Option ℕ := fun v => if v = 2 then some 7 else if v = 4 then some 8 else none

example : net.tasks.Nodup ∧ (∃ v ∈ net.tasks, Linked net v) ∧
    (removeOrphans netLink 5 net).map (fun g => (g.tasks, g.channels, g.conflicts 7, g.conflicts 8)) =
      some ([1, 3], [(1, 3)], [3, 4], []) := by
  refine ⟨by decide, ⟨1, by decide, (1, 3), by decide, .inl rfl⟩, by decide +kernel⟩

example : ∀ e, (net.conflicts e).Nodup := by
  intro e; unfold net; dsimp only; split
  · decide
  · split <;> decide

/-- A graph of one task and no channel meets the hypothesis of `C138_diverges_counterexample`. -/
example : ∀ v ∈ (⟨[1], [], fun _ => []⟩ : Net).tasks, ¬ Linked ⟨[1], [], fun _ => []⟩ v := by
  rintro v - ⟨c, hc, -⟩; cases hc

/-- Two tasks of the original graph that run twice and three times every 12, then with a task of the network. -/
example : findHP [⟨1, 2, some 2, 6, 1⟩, ⟨2, 3, some 3, 12, 3⟩] = some (12, 12) ∧
    findHP [⟨1, 2, some 2, 6, 1⟩, ⟨2, 3, some 3, 12, 3⟩, ⟨3, 2, none, 6, 1⟩] = none := by decide +kernel

end Kiter.Orphan
