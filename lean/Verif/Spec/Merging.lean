/-
Specification of infinite sequences and schedules, used for the merging of tasks.
-/
import Verif.Model.Merging

set_option autoImplicit false

namespace Kiter.Merging

/-- `f` is the infinite sequence that starts with `init` and then repeats `per` for ever. -/
structure IsStream {A : Type} (init per : List A) (f : Nat → A) : Prop where
  start : ∀ i (h : i < init.length), f i = init[i]
  cycle : ∀ i (h : i < per.length), f (init.length + i) = per[i]
  rep : ∀ k, init.length ≤ k → f (k + per.length) = f k

/-- `f k` is the start of execution `k` in the infinite schedule of `t`: the given starts, then,
after the initial ones, the same starts one period later, again and again. -/
structure IsSchedule (t : Task) (f : Nat → ℚ) : Prop where
  start : ∀ i (h : i < t.starts.length), f i = t.starts[i]
  rep : ∀ k, t.init ≤ k → f (k + (t.starts.length - t.init)) = f k + t.period

/-- Such sequences exist. -/
theorem stream_exists {A : Type} (init per : List A) (hp : per ≠ []) : ∃ f, IsStream init per f := by
  have hm : 0 < per.length := List.length_pos_iff.2 hp
  refine ⟨fun k => if h : k < init.length then init[k]
    else per[(k - init.length) % per.length]'(Nat.mod_lt _ hm), ?_, ?_, ?_⟩
  · intro i h; simp [h]
  · intro i h
    have : ¬ init.length + i < init.length := by omega
    simp only [this, dif_neg, not_false_eq_true, Nat.add_sub_cancel_left, Nat.mod_eq_of_lt h]
  · intro k hk
    have h1 : ¬ k < init.length := by omega
    have h2 : ¬ k + per.length < init.length := by omega
    simp only [h1, h2, dif_neg, not_false_eq_true]
    congr 1
    rw [show k + per.length - init.length = (k - init.length) + per.length by omega,
      Nat.add_mod_right]

end Kiter.Merging
