/-
C67: the self-timed execution and K-Iter report the same throughput.
-/
import Verif.Props.SelfTimed
import Verif.Props.KIterHoward

set_option autoImplicit false

namespace Kiter
open Kiter.Sim Kiter.Howard Finset

variable {nV nE : Nat} {g : Graph nV nE}

/-- `g` (as the simulator reads it) and `B` (as K-Iter reads it) are the same dataflow graph: `task` and `chan` give for
every actor and channel number what K-Iter reads. -/
structure Sim.SameGraph (g : Graph nV nE) (B : BaseGraph) (task : Fin nV → KTask) (chan : Fin nE → KChannel) : Prop where
  tasks : B.tasks = List.ofFn task
  channels : B.channels = List.ofFn fun e => (chan e, task (g.src e), task (g.tgt e))
  ids : Function.Injective fun a => (task a).id
  durations : ∀ a, (task a).durations = g.dur a
  ni : ∀ a, (task a).ni = g.ni a
  prod : ∀ e, (chan e).inPhases = g.prod e
  cons : ∀ e, (chan e).outPhases = g.cons e
  preload : ∀ e, (chan e).preload = g.preload e

theorem Sim.SameGraph.sustainable {B : BaseGraph} {task : Fin nV → KTask} {chan : Fin nE → KChannel}
    (hsame : SameGraph g B task chan) (h : OK g) (hpos : ∀ a, ∀ d ∈ g.dur a, 0 < d) :
    SustainablePeriods B = Sustainable g none ∧ ((∃ σ, ValidGen B σ) → ∃ σ, Valid g none σ) := by
  have hdur : ∀ a k, (task a).dur k = g.execDur a k := by
    intro a k; unfold KTask.dur Graph.execDur; rw [hsame.durations]
  have htask : ∀ a, task a ∈ B.tasks := fun a => by rw [hsame.tasks]; exact List.mem_ofFn.2 ⟨a, rfl⟩
  have hchan : ∀ e, (chan e, task (g.src e), task (g.tgt e)) ∈ B.channels := fun e => by
    rw [hsame.channels]; exact List.mem_ofFn.2 ⟨e, rfl⟩
  have hfwd : ∀ σ, ValidGen B σ → Valid g none fun a => σ (task a).id := by
    intro σ hv
    refine ⟨fun a k => hv.nonneg _ (htask a) k, fun a k => ?_, fun e => ?_, by simp⟩
    · rw [← hdur]; exact hv.noOverlap _ (htask a) k
    · have := hv.channels _ (hchan e)
      simp only [hsame.prod, hsame.cons, hsame.preload, hdur] at this
      exact this
  refine ⟨?_, fun ⟨σ, hv⟩ => ⟨_, hfwd σ hv⟩⟩
  ext Ω
  constructor
  · rintro ⟨σ, hv, hsus⟩
    refine ⟨_, hfwd σ hv, (hfwd σ hv).causal h hpos, fun a => ?_⟩
    obtain ⟨C, hC⟩ := hsus _ (htask a)
    exact ⟨C, fun k => by have := hC k; rwa [hsame.ni] at this⟩
  · rintro ⟨σ, hv, -, hsus⟩
    classical
    -- read the schedule by id
    obtain ⟨τ, hτ⟩ : ∃ τ : Int → ℕ → ℚ, ∀ a, τ (task a).id = σ a :=
      ⟨fun i => if hx : ∃ a, (task a).id = i then σ hx.choose else fun _ => 0, fun a => by
        have hx : ∃ b, (task b).id = (task a).id := ⟨a, rfl⟩
        show (if hx : ∃ b, (task b).id = (task a).id then σ hx.choose else fun _ => 0) = σ a
        rw [dif_pos hx, hsame.ids hx.choose_spec]⟩
    refine ⟨τ, ⟨?_, ?_, ?_⟩, ?_⟩
    · intro t ht k
      rw [hsame.tasks, List.mem_ofFn] at ht
      obtain ⟨a, rfl⟩ := ht
      rw [hτ]; exact hv.nonneg a k
    · intro t ht k
      rw [hsame.tasks, List.mem_ofFn] at ht
      obtain ⟨a, rfl⟩ := ht
      rw [hτ, hdur]; exact hv.noOverlap a k
    · intro c hc
      rw [hsame.channels, List.mem_ofFn] at hc
      obtain ⟨e, rfl⟩ := hc
      simp only [hsame.prod, hsame.cons, hsame.preload, hdur, hτ]
      exact hv.tokens e
    · intro t ht
      rw [hsame.tasks, List.mem_ofFn] at ht
      obtain ⟨a, rfl⟩ := ht
      obtain ⟨C, hC⟩ := hsus a
      exact ⟨C, fun k => by rw [hτ, hsame.ni]; exact hC k⟩

/-- Any two answers of the two engines agree: `verdict` is what `C52_kiter_verdict` and `C52_kiter_with_solver` establish of
a K-Iter answer. -/
theorem Sim.engines_agree {B : BaseGraph} {task : Fin nV → KTask} {chan : Fin nE → KChannel}
    (hsame : SameGraph g B task chan) (h : OK g) (hpos : ∀ a, ∀ d ∈ g.dur a, 0 < d) (hg : Guarded g none)
    (hb : Balanced g) {c : Cfg nV nE} {m : Machine nV nE} (hs : start g none true = some (c, m)) {th : ℚ}
    (verdict : (0 < th → IsLeast (SustainablePeriods B) (1 / th)) ∧ (th ≤ 0 → ¬ ∃ σ, ValidGen B σ)) (n : ℕ) :
    (∀ thr, (run c m n).pc = .recurrent (some thr) → thr = th) ∧ ((run c m n).pc = .deadlock → th ≤ 0) := by
  obtain ⟨e1, e2⟩ := hsame.sustainable h hpos
  refine ⟨fun thr hres => ?_, fun hd => ?_⟩
  · obtain ⟨h1, h2⟩ := C67_optimal h hg hb (by simp) hs hres
    rw [← e1] at h2
    have hth : 0 < th := by
      by_contra hcon
      obtain ⟨σ, hv, -⟩ := h2.1
      exact verdict.2 (not_lt.1 hcon) ⟨σ, hv⟩
    have := h2.unique (verdict.1 hth)
    have h3 := congrArg (fun x => 1 / x) this
    simpa using h3
  · by_contra hcon
    obtain ⟨⟨σ, hv, -⟩, -⟩ := verdict.1 (not_le.1 hcon)
    obtain ⟨τ, hτ⟩ := e2 ⟨σ, hv⟩
    exact C67_deadlock h hg hs (hb.ni _) hd ⟨τ, hτ, hτ.causal h hpos⟩

/-- **C67** The two engines agree: on a connected graph with positive durations, for a machine precision that is fine enough
for the numbers of the graph, if K-Iter (with its own cycle ratio solver) answers `r` and the self-timed execution stops at a
recurrent state with throughput `thr`, then `thr = r.throughput`; if it stops with a deadlock, K-Iter's answer is not
positive. -/
theorem C67_engines_agree {B : BaseGraph} (hB : BaseOK B) {task : Fin nV → KTask} {chan : Fin nE → KChannel}
    (hsame : SameGraph g B task chan) (h : OK g) (hpos : ∀ a, ∀ d ∈ g.dur a, 0 < d) (hg : Guarded g none)
    (hb : Balanced g) {c : Cfg nV nE} {m : Machine nV nE} (hs : start g none true = some (c, m)) (L : ℕ) :
    ∃ ε₀ : ℚ, 0 < ε₀ ∧ ∀ (eps huge : ℚ) (vertices : List EvConstraint → List Event), 0 < eps → eps ≤ ε₀ →
      (∀ K cs, ((∀ i, 0 < K i) ∧ ∀ t ∈ B.tasks, K t.id ∣ reps t) →
        (∃ cs0, eventGraph (B.withK K) = some cs0 ∧ ∀ c, c ∈ cs ↔ c ∈ cs0) →
        WF ⟨vertices cs, cs⟩ ∧ (vertices cs).length ≤ L) →
      ∀ (fuel : ℕ) (r : KIterResult), kiter (solver eps huge vertices) B fuel = some (some r) →
        ∀ n, (∀ thr, (run c m n).pc = .recurrent (some thr) → thr = r.throughput) ∧
          ((run c m n).pc = .deadlock → r.throughput ≤ 0) := by
  have hposB : ∀ t ∈ B.tasks, ∀ d ∈ t.durations, 0 < d := by
    intro t ht
    rw [hsame.tasks, List.mem_ofFn] at ht
    obtain ⟨a, rfl⟩ := ht
    rw [hsame.durations]; exact hpos a
  obtain ⟨ε₀, h0, hall⟩ := C52_kiter_with_solver hB hposB L
  refine ⟨ε₀, h0, fun eps huge vertices h1 h2 hv fuel r hr n => ?_⟩
  have hverdict := hall eps huge vertices h1 h2 hv fuel r hr
  exact engines_agree hsame h hpos hg hb hs ⟨fun hx => (hverdict.1 hx).1, hverdict.2⟩ n

/-! ### Non-vacuity -/

/-- `exGraph` as K-Iter reads it. -/
def Sim.exTask : Fin 2 → KTask := ![⟨0, [2], [], 1, 1⟩, ⟨1, [1, 3], [], 1, 2⟩]
def Sim.exChan : Fin 2 → KChannel := ![⟨1, [2], [1, 1], [], [], 0, 1⟩, ⟨2, [0, 2], [2], [], [], 2, 2⟩]
def Sim.exBase : BaseGraph :=
  ⟨List.ofFn exTask, List.ofFn fun e => (exChan e, exTask (exGraph.src e), exTask (exGraph.tgt e))⟩

theorem Sim.exBase_same : SameGraph exGraph exBase exTask exChan := by
  constructor
  · rfl
  · rfl
  all_goals decide +kernel

theorem Sim.exBase_ok : BaseOK exBase := by
  have tasks : exBase.tasks = [exTask 0, exTask 1] := rfl
  have chans : exBase.channels = [(exChan 0, exTask 0, exTask 1), (exChan 1, exTask 1, exTask 0)] := rfl
  constructor
  · rw [tasks]; simp [exTask]
  · intro t ht
    simp only [tasks, List.mem_cons, List.not_mem_nil, or_false] at ht
    rcases ht with rfl | rfl <;> constructor <;> decide +kernel
  · rw [tasks]; simp [exTask]
  · intro c hc
    simp only [chans, List.mem_cons, List.not_mem_nil, or_false] at hc
    rw [tasks]
    rcases hc with rfl | rfl
    · refine ⟨by simp, by simp, ?_⟩; constructor <;> decide +kernel
    · refine ⟨by simp, by simp, ?_⟩; constructor <;> decide +kernel
  · rw [chans]; simp [exChan]

theorem Sim.exGraph_balanced : Balanced exGraph := by
  refine ⟨by decide +kernel, by decide +kernel, by decide +kernel, by decide +kernel, fun a b => ?_⟩
  have h01 : Adj exGraph 0 1 := ⟨0, .inl ⟨rfl, rfl⟩⟩
  have h10 : Adj exGraph 1 0 := ⟨0, .inr ⟨rfl, rfl⟩⟩
  rcases Fin.exists_fin_two.1 ⟨a, rfl⟩ with rfl | rfl <;> rcases Fin.exists_fin_two.1 ⟨b, rfl⟩ with rfl | rfl
  · exact .refl
  · exact .single h01
  · exact .single h10
  · exact .refl

/-- All the hypotheses on the graph hold, and the execution stops with throughput 1/6. -/
example : BaseOK exBase ∧ SameGraph exGraph exBase exTask exChan ∧ OK exGraph ∧ (∀ a, ∀ d ∈ exGraph.dur a, 0 < d) ∧
    Guarded exGraph none ∧ Balanced exGraph ∧ ∃ c m, start exGraph none true = some (c, m) ∧
    (run c m 100).pc = .recurrent (some (1 / 6)) :=
  ⟨exBase_ok, exBase_same, exGraph_ok, by decide +kernel, exGraph_guarded none, exGraph_balanced, _, _, rfl, by decide +kernel⟩

/-- So 6 is the smallest period any schedule sustains. -/
example : IsLeast (SustainablePeriods exBase) 6 := by
  have := (C67_optimal (cap := none) exGraph_ok (exGraph_guarded none) exGraph_balanced (by simp) (n := 100)
    (thr := 1 / 6) (rfl : start exGraph none true = some (_, _)) (by decide +kernel)).2
  rw [(exBase_same.sustainable exGraph_ok (by decide +kernel)).1]
  norm_num at this
  exact this

/-- And K-Iter answers the same with its own solver. -/
example : ((kiter (solver (1 / 10 ^ 15) (10 ^ 37) endpoints) exBase 10).bind id).map (fun r => r.throughput) = some (1 / 6) := by
  decide +kernel

/-- The step at which the first actor starts its second execution, at time 6. -/
example : ∃ c m, start exGraph none true = some (c, m) ∧ StartsAt c m 30 0 1 6 :=
  ⟨_, _, rfl, by decide +kernel, by decide +kernel, by decide +kernel⟩

/-- Two actors of zero duration on a circuit without tokens. -/
def Sim.zeroGraph : Graph 2 2 :=
  ⟨![0, 1], ![1, 0], ![[1], [1]], ![[1], [1]], ![0, 0], ![1, 1], ![[0], [0]], ![1, 1]⟩

/-- Why schedules must be causal in C66 and C67: with zero durations a schedule can be valid because two executions provide
each other's tokens at the same instant, whereas the program reports a deadlock. -/
theorem C66_zero_duration_counterexample : OK zeroGraph ∧ Guarded zeroGraph none ∧ Valid zeroGraph none (fun _ _ => 0) ∧
    ∃ c m, start zeroGraph none true = some (c, m) ∧ (run c m 20).pc = .deadlock := by
  refine ⟨by constructor <;> decide +kernel, fun a => ?_, ⟨fun _ _ => le_rfl, fun a k => ?_, fun e x C hC => ⟨C, fun k hk => ?_, ?_⟩,
    by simp⟩, _, _, rfl, by decide +kernel⟩
  · rcases Fin.exists_fin_two.1 ⟨a, rfl⟩ with rfl | rfl
    · exact ⟨1, .inl rfl⟩
    · exact ⟨0, .inl rfl⟩
  · have : zeroGraph.execDur a k = 0 := by
      rcases Fin.exists_fin_two.1 ⟨a, rfl⟩ with rfl | rfl <;> simp [zeroGraph, Graph.execDur, Nat.mod_one]
    rw [this]; simp
  · have : zeroGraph.execDur (zeroGraph.src e) k = 0 := by
      rcases Fin.exists_fin_two.1 ⟨e, rfl⟩ with rfl | rfl <;> simp [zeroGraph, Graph.execDur, Nat.mod_one]
    simp only [this]; simpa using hC k hk
  · rcases Fin.exists_fin_two.1 ⟨e, rfl⟩ with rfl | rfl <;> simp [zeroGraph]

end Kiter
