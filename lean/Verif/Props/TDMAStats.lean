/-
C134: the statistics of the replay of packets.

Specification vocabulary: with `h` packets per iteration, iteration `i` has the packets `i * h, …, i * h + h - 1`.
-/
import Verif.Model.TDMAStats
import Verif.Props.TDMA
import Mathlib.Algebra.BigOperators.Group.Finset.Basic
import Mathlib.Tactic.Ring
import Mathlib.Tactic.Linarith
import Mathlib.Tactic.FieldSimp
import Mathlib.Tactic.Positivity

set_option autoImplicit false

namespace Kiter
namespace TDMA

open Finset

variable {h : Nat} {data : Nat → Int}

theorem loop_succ (n : Nat) : Stats.loop h data (n + 1) = Stats.packet h data (Stats.loop h data n) n := by
  unfold Stats.loop
  rw [List.range_succ, List.foldl_append]
  rfl

theorem mod_start (k r : Nat) (hr : r < h) : (k * h + r) % h = r := by
  rw [Nat.mul_comm, Nat.mul_add_mod, Nat.mod_eq_of_lt hr]

theorem mod_stop (k r : Nat) (hr : r + 1 < h) : (k * h + r + 1) % h ≠ 0 := by
  rw [Nat.add_assoc, mod_start k (r + 1) hr]
  omega

/-- In the middle of an iteration. -/
theorem loop_middle (k : Nat) : ∀ r, 0 < r → r < h → Stats.loop h data (k * h + r) =
    { Stats.loop h data (k * h) with iter := (Stats.loop h data (k * h)).iter + 1, start := data (k * h) } := by
  intro r
  induction r with
  | zero => intro h0; exact absurd h0 (lt_irrefl _)
  | succ r ih =>
    intro _ hr
    rw [← Nat.add_assoc, loop_succ]
    rcases Nat.eq_zero_or_pos r with rfl | hp
    · simp only [Nat.add_zero]
      have h1 : (k * h) % h = 0 := Nat.mul_mod_left _ _
      have h2 : ¬ (k * h + 1) % h = 0 := mod_stop k 0 hr
      simp only [Stats.packet, h1, h2, if_true, if_false]
    · rw [ih hp (by omega)]
      have h1 : ¬ (k * h + r) % h = 0 := by rw [mod_start k r (by omega)]; omega
      have h2 : ¬ (k * h + r + 1) % h = 0 := mod_stop k r hr
      simp only [Stats.packet, h1, h2, if_false]

/-- A whole iteration. -/
theorem loop_iteration (hh : 0 < h) (k : Nat) : Stats.loop h data ((k + 1) * h) =
    let s := Stats.loop h data (k * h)
    ⟨s.iter + 1, data (k * h), data (k * h + h - 1), s.exec + (data (k * h + h - 1) - data (k * h)),
      s.thro + (data (k * h + h - 1) - s.stop)⟩ := by
  have e : (k + 1) * h = k * h + (h - 1) + 1 := by rw [Nat.add_mul, Nat.one_mul]; omega
  have e2 : k * h + h - 1 = k * h + (h - 1) := by omega
  have hz : (k * h + (h - 1) + 1) % h = 0 := by rw [← e]; exact Nat.mul_mod_left _ _
  rw [e, loop_succ, e2]
  by_cases h1 : h = 1
  · subst h1
    simp only [Nat.sub_self, Nat.add_zero, Nat.mul_one]
    simp only [Stats.packet, Nat.mod_one, if_true]
  · rw [loop_middle k (h - 1) (by omega) (by omega)]
    have h2 : ¬ (k * h + (h - 1)) % h = 0 := by rw [mod_start k (h - 1) (by omega)]; omega
    simp only [Stats.packet, h2, hz, if_true, if_false]

/-- After `k` whole iterations. -/
theorem loop_whole (hh : 0 < h) (k : Nat) : (Stats.loop h data (k * h)).iter = k ∧
    (Stats.loop h data (k * h)).stop = (if k = 0 then 0 else data (k * h - 1)) ∧
    (Stats.loop h data (k * h)).exec = ∑ i ∈ range k, (data (i * h + h - 1) - data (i * h)) ∧
    (Stats.loop h data (k * h)).thro = (if k = 0 then 0 else data (k * h - 1)) := by
  induction k with
  | zero => simp [Stats.loop]
  | succ k ih =>
    obtain ⟨h1, h2, h3, h4⟩ := ih
    have e : k * h + h - 1 = (k + 1) * h - 1 := by rw [Nat.add_mul, Nat.one_mul]
    rw [loop_iteration hh, if_neg (Nat.succ_ne_zero k)]
    simp only
    rw [h1, h2, h3, h4, sum_range_succ, e]
    refine ⟨by push_cast; ring, rfl, rfl, by ring⟩

/-- Specification: the average of `f 0, …, f (k - 1)`. -/
def average (k : Nat) (f : Nat → Int) : ℚ := ((∑ i ∈ range k, f i : Int) : ℚ) / k

/-- Specification: the end of an iteration, the delivery of its last packet; before the first one, cycle 0. -/
def iterationEnd (h : Nat) (data : Nat → Int) : Nat → Int
  | 0 => 0
  | i + 1 => data (i * h + h - 1)

theorem sum_gaps (f : Nat → Int) (k : Nat) : ∑ i ∈ range k, (f (i + 1) - f i) = f k - f 0 := by
  induction k with
  | zero => simp
  | succ k ih => rw [sum_range_succ, ih]; ring

/-- **C134 (whole iterations; what is missing: the rest).** If the packets make up `k > 0` whole iterations, `thro` is the average of the
times between the ends of successive iterations (the first one counted from cycle 0), which is the end of the last iteration over `k`;
`exec_time` is the average of the times from the delivery of the first packet of an iteration to the delivery of its last one.
Missing: packets that do not make up whole iterations (`C134_rest_counterexample`), and the time before the delivery of the first
packet (`C134_single_counterexample`). -/
theorem _root_.Kiter.C134_whole_partial (hh : 0 < h) {k : Nat} (hk : 0 < k) :
    ∃ thro exec, stats h data (k * h) = some (thro, exec) ∧
      thro = average k (fun i => iterationEnd h data (i + 1) - iterationEnd h data i) ∧
      thro = (data (k * h - 1) : ℚ) / k ∧
      exec = average k (fun i => data (i * h + h - 1) - data (i * h)) := by
  obtain ⟨h1, -, h3, h4⟩ := loop_whole (data := data) hh k
  refine ⟨_, _, if_neg (by have := Nat.mul_pos hk hh; omega), ?_, ?_, ?_⟩
  · unfold average
    rw [sum_gaps, h1, h4, if_neg (by omega)]
    obtain ⟨j, rfl⟩ : ∃ j, k = j + 1 := ⟨k - 1, by omega⟩
    have e : j * h + h - 1 = (j + 1) * h - 1 := by rw [Nat.add_mul, Nat.one_mul]
    simp [iterationEnd, e]
  · rw [h1, h4, if_neg (by omega)]; rfl
  · unfold average
    rw [h1, h3]; rfl

/-- **C134 (a rest).** If some packets are left after `k` whole iterations, nothing is added for them but both sums are divided by
`k + 1`: the printed averages are `k / (k + 1)` of the averages over the whole iterations. -/
theorem _root_.Kiter.C134_rest_counterexample (k r : Nat) (h0 : 0 < r) (hr : r < h) :
    stats h data (k * h + r) =
      some ((k / (k + 1) : ℚ) * average k (fun i => iterationEnd h data (i + 1) - iterationEnd h data i),
        (k / (k + 1) : ℚ) * average k (fun i => data (i * h + h - 1) - data (i * h))) := by
  have hh : 0 < h := by omega
  obtain ⟨h1, -, h3, h4⟩ := loop_whole (data := data) hh k
  have e : (if k = 0 then 0 else data (k * h - 1)) = iterationEnd h data k - iterationEnd h data 0 := by
    cases k with
    | zero => simp [iterationEnd]
    | succ j =>
      rw [if_neg (Nat.succ_ne_zero j)]
      have e : j * h + h - 1 = (j + 1) * h - 1 := by rw [Nat.add_mul, Nat.one_mul]
      simp [iterationEnd, e]
  have avg : ∀ f : Nat → Int, (k / (k + 1) : ℚ) * average k f = ((∑ i ∈ range k, f i : Int) : ℚ) / (((k : Int) + 1 : Int) : ℚ) := by
    intro f
    unfold average
    have hk1 : (k : ℚ) + 1 ≠ 0 := by positivity
    rcases Nat.eq_zero_or_pos k with rfl | hk
    · simp
    · have hk0 : (k : ℚ) ≠ 0 := by exact_mod_cast hk.ne'
      push_cast
      field_simp
  rw [avg, avg, sum_gaps]
  unfold stats
  rw [if_neg (by omega), loop_middle k r h0 hr]
  simp only
  rw [h1, h3, h4, e]

/-- **C134 (one packet per iteration).** The execution time does not count the first packet of an iteration: with one packet per
iteration it is 0, whatever the durations of the computations and transfers are. -/
theorem _root_.Kiter.C134_single_counterexample {k : Nat} (hk : 0 < k) :
    ∃ thro, stats 1 data k = some (thro, 0) := by
  obtain ⟨thro, exec, h1, -, -, h2⟩ := C134_whole_partial (h := 1) (data := data) Nat.one_pos hk
  rw [Nat.mul_one] at h1
  refine ⟨thro, ?_⟩
  rw [h1, h2]
  simp [average]

/-- Two packets per iteration; the first one is computed for 10 cycles and sent to the next node, the second one stays on its node. -/
def pairCfg : Cfg where
  rows := 2
  cols := 2
  total := 4
  slot := fun _ => 0
  pkts := [⟨0, 1, 10, []⟩, ⟨2, 2, 1, []⟩]

/-- **C134 (order of delivery).** Packets need not be delivered in the order of their numbers: in a replay that ends, with all packets
delivered, the printed execution time of the only iteration is negative. -/
theorem _root_.Kiter.C134_negative_counterexample : ∃ (c : Cfg) (n : Nat) (s : St), run c n = some s ∧ s.heap = [] ∧
    ∃ thro exec, stats c.pkts.length (fun p => (s.prof p).data) c.pkts.length = some (thro, exec) ∧ exec < 0 := by
  have h1 : (run pairCfg 5).map (fun s => (s.heap, (s.prof 0).data, (s.prof 1).data)) = some ([], 14, 1) := by decide +kernel
  cases hr : run pairCfg 5 with
  | none => rw [hr] at h1; simp at h1
  | some s =>
    rw [hr] at h1
    simp only [Option.map_some, Option.some.injEq, Prod.mk.injEq] at h1
    obtain ⟨a, b, c⟩ := h1
    refine ⟨pairCfg, 5, s, hr, a, ?_⟩
    obtain ⟨t, e, s1, -, -, s2⟩ := C134_whole_partial (h := 2) (data := fun p => (s.prof p).data) (by omega) (k := 1) (by omega)
    refine ⟨t, e, s1, ?_⟩
    rw [s2]
    simp [average, b, c]

/-! ### Concrete cases -/

/-- Two iterations of two packets. -/
example : stats 2 (fun p => [3, 5, 8, 11].getD p 0) 4 = some (11 / 2, 5 / 2) := by decide +kernel

/-- The same with one more packet. -/
example : stats 2 (fun p => [3, 5, 8, 11, 12].getD p 0) 5 = some (11 / 3, 5 / 3) := by decide +kernel

end TDMA
end Kiter
