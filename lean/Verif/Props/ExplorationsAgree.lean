/-
**C122**: the exploration of buffer sizes with the K-periodic analysis and the one with the self-timed execution find the same trade-off.
-/
import Verif.Props.EnginesAgree
import Verif.Props.SymbolicExploration

set_option autoImplicit false

namespace Kiter
open Kiter.Sim Finset

variable {nV nE : Nat} {g : Graph nV nE} {N : Fin nV → Int} {id : Fin nV → Int}

/-! ### Both start from the same sizes -/

theorem channelBound_comm (p c t : Int) : channelBound p c t = channelBound c p t := by
  unfold channelBound
  rw [Int.gcd_comm p c, Int.add_comm p c]

theorem minChannelLoop_comm (inV outV : List Int) (t : Int) :
    ∀ (k i : ℕ) (best : Int), minChannelLoop inV outV t k i best = minChannelLoop outV inV t k i best := by
  intro k
  induction k with
  | zero => intro i best; rfl
  | succ k ih =>
    intro i best
    unfold minChannelLoop
    by_cases h : inV.length = 0 ∨ outV.length = 0
    · rw [if_pos h, if_pos h.symm]
    · rw [if_neg h, if_neg (fun h' => h h'.symm)]
      cases hp : inV[i % inV.length]? <;> cases hc : outV[i % outV.length]? <;> simp only [Option.bind_eq_bind, Option.bind_some, Option.bind_none]
      rw [channelBound_comm, ih]

/-- The starting size of a channel does not depend on its direction. -/
theorem findMinimumChannelSz_comm (inV outV : List Int) (t : Int) : findMinimumChannelSz inV outV t = findMinimumChannelSz outV inV t := by
  unfold findMinimumChannelSz
  rw [Nat.gcd_comm, minChannelLoop_comm]

/-! ### Both mean the same by throughput -/

namespace Sim.SameGraph

variable {B : BaseGraph} {task : Fin nV → KTask} {chan : Fin nE → KChannel}

theorem length (hsame : SameGraph (g.withNi N) B task chan) : B.channels.length = nE := by
  rw [hsame.channels, List.length_ofFn]

/-- Number of the channel in the list that K-Iter reads. -/
def idx (hsame : SameGraph (g.withNi N) B task chan) (e : Fin nE) : Fin B.channels.length := Fin.cast hsame.length.symm e

theorem channel (hsame : SameGraph (g.withNi N) B task chan) (e : Fin nE) :
    B.channels[hsame.idx e] = (chan e, task (g.src e), task (g.tgt e)) := by
  have : B.channels[e.val]? = some (chan e, task (g.src e), task (g.tgt e)) := by
    rw [hsame.channels]
    simp [Graph.withNi]
  rw [List.getElem?_eq_some_iff] at this
  exact this.2

theorem idx_surj (hsame : SameGraph (g.withNi N) B task chan) (i : Fin B.channels.length) : ∃ e, hsame.idx e = i :=
  ⟨Fin.cast hsame.length i, by simp [idx]⟩

theorem sum_idx (hsame : SameGraph (g.withNi N) B task chan) (w : Fin B.channels.length → Int) : ∑ i, w i = ∑ e, w (hsame.idx e) := by
  symm
  exact Equiv.sum_comp (finCongr hsame.length.symm) w

theorem dur_eq (hsame : SameGraph (g.withNi N) B task chan) (a : Fin nV) (k : ℕ) : (task a).dur k = g.execDur a k := by
  unfold KTask.dur Graph.execDur; rw [hsame.durations]; rfl

/-- Schedules with bounded channels, read by task number and by task id. -/
theorem bounded_fwd (hsame : SameGraph (g.withNi N) B task chan) {w : Fin B.channels.length → Int} {σ : Int → ℕ → ℚ}
    (h : BoundedSchedule B w σ) : Valid g (some fun e => w (hsame.idx e)) fun a => σ (task a).id := by
  have htask : ∀ a, task a ∈ B.tasks := fun a => by rw [hsame.tasks]; exact List.mem_ofFn.2 ⟨a, rfl⟩
  refine ⟨fun a k => h.valid.nonneg _ (htask a) k, fun a k => ?_, fun e => ?_, fun w' hw' e => ?_⟩
  · rw [← hsame.dur_eq]; exact h.valid.noOverlap _ (htask a) k
  · have := h.valid.channels _ (List.getElem_mem (hsame.idx e).2)
    rw [show B.channels[(hsame.idx e).val] = _ from hsame.channel e] at this
    simp only [hsame.prod, hsame.cons, hsame.preload, hsame.dur_eq] at this
    exact this
  · have := h.room (hsame.idx e)
    simp only [hsame.channel e, hsame.prod, hsame.cons, hsame.preload, hsame.dur_eq] at this
    simp only [Option.some.injEq] at hw'
    subst hw'
    exact this

theorem bounded_bwd (hsame : SameGraph (g.withNi N) B task chan) {w : Fin B.channels.length → Int} {σ : Fin nV → ℕ → ℚ}
    (h : Valid g (some fun e => w (hsame.idx e)) σ) {τ : Int → ℕ → ℚ} (hτ : ∀ a, τ (task a).id = σ a) : BoundedSchedule B w τ := by
  refine ⟨⟨?_, ?_, ?_⟩, fun i => ?_⟩
  · intro t ht k
    rw [hsame.tasks, List.mem_ofFn] at ht
    obtain ⟨a, rfl⟩ := ht
    rw [hτ]; exact h.nonneg a k
  · intro t ht k
    rw [hsame.tasks, List.mem_ofFn] at ht
    obtain ⟨a, rfl⟩ := ht
    rw [hτ, hsame.dur_eq]; exact h.noOverlap a k
  · intro c hc
    rw [hsame.channels, List.mem_ofFn] at hc
    obtain ⟨e, rfl⟩ := hc
    simp only [hsame.prod, hsame.cons, hsame.preload, hsame.dur_eq, hτ]
    exact h.tokens e
  · obtain ⟨e, rfl⟩ := hsame.idx_surj i
    simp only [hsame.channel e, hsame.prod, hsame.cons, hsame.preload, hsame.dur_eq, hτ]
    exact h.room _ rfl e

/-- A schedule by task number, read by id. -/
theorem byId (hsame : SameGraph (g.withNi N) B task chan) (σ : Fin nV → ℕ → ℚ) : ∃ τ : Int → ℕ → ℚ, ∀ a, τ (task a).id = σ a := by
  classical
  exact ⟨fun i => if hx : ∃ a, (task a).id = i then σ hx.choose else fun _ => 0, fun a => by
    have hx : ∃ b, (task b).id = (task a).id := ⟨a, rfl⟩
    show (if hx : ∃ b, (task b).id = (task a).id then σ hx.choose else fun _ => 0) = σ a
    rw [dif_pos hx, hsame.ids hx.choose_spec]⟩

theorem sustains_iff (hsame : SameGraph (g.withNi N) B task chan) {τ : Int → ℕ → ℚ} {Ω : ℚ} :
    Sustains B τ Ω ↔ Sustained (g.withNi N) (fun a => τ (task a).id) Ω := by
  constructor
  · intro h a
    obtain ⟨C, hC⟩ := h (task a) (by rw [hsame.tasks]; exact List.mem_ofFn.2 ⟨a, rfl⟩)
    exact ⟨C, fun k => by have := hC k; rwa [hsame.ni] at this⟩
  · intro h t ht
    rw [hsame.tasks, List.mem_ofFn] at ht
    obtain ⟨a, rfl⟩ := ht
    obtain ⟨C, hC⟩ := h a
    exact ⟨C, fun k => by rw [hsame.ni]; exact hC k⟩

/-- The two specifications of the throughput with given channel sizes are the same. -/
theorem throughput_iff (hsame : SameGraph (g.withNi N) B task chan) (w : Fin B.channels.length → Int) (thr : ℚ) :
    Kiter.HasThroughput B w thr ↔ Sim.HasThroughput g N (fun e => w (hsame.idx e)) thr := by
  have e1 : {Ω | ∃ σ, BoundedSchedule B w σ ∧ Sustains B σ Ω} =
      {Ω | ∃ σ, Valid g (some fun e => w (hsame.idx e)) σ ∧ Sustained (g.withNi N) σ Ω} := by
    ext Ω
    constructor
    · rintro ⟨σ, h1, h2⟩
      exact ⟨_, hsame.bounded_fwd h1, hsame.sustains_iff.1 h2⟩
    · rintro ⟨σ, h1, h2⟩
      obtain ⟨τ, hτ⟩ := hsame.byId σ
      refine ⟨τ, hsame.bounded_bwd h1 hτ, hsame.sustains_iff.2 ?_⟩
      simpa only [hτ] using h2
  have e2 : (∃ σ, BoundedSchedule B w σ) ↔ ∃ σ, Valid g (some fun e => w (hsame.idx e)) σ := by
    constructor
    · rintro ⟨σ, h1⟩
      exact ⟨_, hsame.bounded_fwd h1⟩
    · rintro ⟨σ, h1⟩
      obtain ⟨τ, hτ⟩ := hsame.byId σ
      exact ⟨τ, hsame.bounded_bwd h1 hτ⟩
  unfold Kiter.HasThroughput Sim.HasThroughput
  rw [e1, e2]

end Sim.SameGraph

/-! ### The explorations -/

section
variable {B : BaseGraph} {task : Fin nV → KTask} {chan : Fin nE → KChannel}
  {solve : List EvConstraint → Option (ℚ × List EvConstraint)} {fuel : ℕ} {DK : DSE (B.m + B.m)} {initK : SD (B.m + B.m)}
  {DS : DSE nE} {initS : SD nE}

/-- The exploration with the K-periodic analysis only keeps sizes that are not below the initial ones. -/
theorem Explores.above (hB : BaseOK B) (hids : ∀ c ∈ B.channels, c.1.id ≤ B.m) (hE : Explores solve B fuel DK initK)
    (hsolve : SolverOK B solve) (hmax : ∀ i, initK.quantity (Fin.natAdd B.m i) < 2147483647) (heps : 0 < DK.eps)
    (htarget : DK.eps ≤ DK.target) {rounds : ℕ} {R : SDSet (B.m + B.m)} (hR : DK.explore initK rounds = some (some R)) :
    ∀ r ∈ R.members, ∀ e, initK.quantity e ≤ r.quantity e := by
  have hpos : 0 < DK.target := by linarith
  have hinit : initK.size = ∑ e, initK.quantity e := by
    rw [hE.size, foldl_add_eq, Fin.sum_univ_def]; simp
  have hstep := hE.step_pos hB hids
  obtain ⟨-, c2, -⟩ := C54_pareto_complete DK initK hinit heps htarget hstep
    (fun q hq => hE.bounded_by_target hB hids hsolve hmax hpos (DSE.lattice_ge hstep hq)) (hE.criticalComplete hB hids hsolve hmax) rounds R hR
  exact fun r hr => DSE.lattice_ge hstep (c2 r hr).1

/-- So does the exploration with the self-timed execution. -/
theorem Sim.Explores.above (hx : Explorable g N) (hid : Function.Injective id) (hE : Sim.Explores g id true DS initS)
    (hmax : ∀ e, initS.quantity e < 2147483647) (heps : 0 < DS.eps) (htarget : DS.eps ≤ DS.target) {rounds : ℕ} {R : SDSet nE}
    (hR : DS.explore initS rounds = some (some R)) : ∀ r ∈ R.members, ∀ e, initS.quantity e ≤ r.quantity e := by
  have hpos : 0 < DS.target := by linarith
  have hinit : initS.size = ∑ e, initS.quantity e := by
    rw [hE.size, foldl_add_eq, Fin.sum_univ_def]; simp
  have hstep := fun e (_ : DS.modelled e = true) => (hE.step_spec hx e).1
  obtain ⟨-, c2, -⟩ := C54_pareto_complete DS initS hinit heps htarget hstep
    (fun q hq => hE.bounded_by_target hx hid hmax hpos (DSE.lattice_ge hstep hq)) (hE.criticalComplete hx hid hmax) rounds R hR
  exact fun r hr => DSE.lattice_ge hstep (c2 r hr).1

/-- **C122, where they start and stop**: both explorations start from the same size of each channel and aim at the same throughput. -/
theorem C122_same_search (hx : Explorable g N) (hid : Function.Injective id) (hsame : SameGraph (g.withNi N) B task chan) (hB : BaseOK B)
    (hK : Explores solve B fuel DK initK) (hsolve : SolverOK B solve) (hS : Sim.Explores g id true DS initS) :
    (∀ e, initK.quantity (Fin.natAdd B.m (hsame.idx e)) = initS.quantity e) ∧ (0 < DK.target → DS.target = DK.target) := by
  refine ⟨fun e => ?_, fun hpos => ?_⟩
  · have h1 := hK.start (hsame.idx e)
    simp only [hsame.channel e, hsame.prod, hsame.cons, hsame.preload] at h1
    rw [findMinimumChannelSz_comm] at h1
    exact Option.some.inj (h1.symm.trans (hS.start e))
  · obtain ⟨hleast, -⟩ := hK.target_spec hB hsolve hpos
    have hok : OK (g.withNi N) := hx.ok.withNi N
    obtain ⟨e1, -⟩ := hsame.sustainable hok (fun a => hx.durations.pos a)
    obtain ⟨n, hn⟩ := hS.target
    obtain ⟨n0, thr, h1, h2⟩ := asap_paced hx.ok hx.durations hx.rep hx.fits hid hx.vertices fun _ => hx.channel
    have ht : thr = DS.target := by
      have e1 := h1 (max n n0) (le_max_right ..)
      rw [asap_stays (le_max_left n n0) hn] at e1
      exact (Option.some.inj e1).symm
    rw [ht] at h2
    rw [e1] at hleast
    obtain ⟨σ, hv, -, hsus⟩ := hleast.1
    have hv' : Valid g none σ := ⟨hv.nonneg, hv.noOverlap, hv.tokens, fun w hw => by simp at hw⟩
    rcases h2 with ⟨h0, ⟨τ, hτ, hpace⟩, hlow⟩ | ⟨-, h0⟩
    · have hτ' : Valid (g.withNi N) none τ := ⟨hτ.nonneg, hτ.noOverlap, hτ.tokens, fun w hw => by simp at hw⟩
      have a1 : 1 / DS.target ≤ 1 / DK.target := hlow _ σ hv' hsus
      have a2 : 1 / DK.target ≤ 1 / DS.target := hleast.2 ⟨τ, hτ', hτ'.causal hok fun a => hx.durations.pos a, fun a => by
        obtain ⟨C, hC⟩ := hpace a
        exact ⟨C, fun k => by have := (abs_le.1 (hC k)).2; show _ ≤ 1 / DS.target * k / N a + C; linarith⟩⟩
      have := le_antisymm a1 a2
      rw [one_div, one_div] at this
      exact inv_injective this
    · exact absurd ⟨σ, hv'⟩ h0

/-- **C122** On a consistent, connected graph with positive integer durations whose throughput is at least the tolerance, the exploration with the K-periodic analysis and the
one with `SYMB_EXEC_CORRECTED` both stop; whatever one of them retains, the other retains a distribution that is no larger and as fast, up to twice the tolerance; and distributions
with the same sizes are recorded with the same throughput and the same total by both. -/
theorem C122_explorations_agree (hx : Explorable g N) (hid : Function.Injective id) (hsame : SameGraph (g.withNi N) B task chan)
    (hB : BaseOK B) (hids : ∀ c ∈ B.channels, c.1.id ≤ B.m) (hK : Explores solve B fuel DK initK) (hsolve : SolverOK B solve)
    (hS : Sim.Explores g id true DS initS) (hmax : ∀ e, initS.quantity e < 2147483647) (heps : 0 < DK.eps) (heq : DS.eps = DK.eps)
    (htarget : DK.eps ≤ DK.target) :
    (∃ rounds RK, DK.explore initK rounds = some (some RK)) ∧ (∃ rounds RS, DS.explore initS rounds = some (some RS)) ∧
    ∀ rounds RK rounds' RS, DK.explore initK rounds = some (some RK) → DS.explore initS rounds' = some (some RS) →
      (∀ r ∈ RS.members, ∃ r' ∈ RK.members, r'.size ≤ r.size ∧ r.thr - 2 * DK.eps < r'.thr) ∧
      (∀ r ∈ RK.members, ∃ r' ∈ RS.members, r'.size ≤ r.size ∧ r.thr - 2 * DK.eps < r'.thr) ∧
      (∀ r ∈ RK.members, ∀ r' ∈ RS.members, (∀ e, r.quantity (Fin.natAdd B.m (hsame.idx e)) = r'.quantity e) →
        r.thr = r'.thr ∧ r.size = r'.size) := by
  obtain ⟨hstart, htgt⟩ := C122_same_search hx hid hsame hB hK hsolve hS
  have htgt := htgt (by linarith)
  have hmaxK : ∀ i, initK.quantity (Fin.natAdd B.m i) < 2147483647 := fun i => by
    obtain ⟨e, rfl⟩ := hsame.idx_surj i
    rw [hstart]; exact hmax e
  have hepsS : 0 < DS.eps := by rw [heq]; exact heps
  have htS : DS.eps ≤ DS.target := by rw [heq, htgt]; exact htarget
  obtain ⟨k1, k2⟩ := C70_pareto_front hB hids hK hsolve hmaxK heps htarget
  obtain ⟨s1, s2⟩ := C87_pareto_front hx hid hS hmax hepsS htS
  refine ⟨k1, s1, fun rounds RK rounds' RS hRK hRS => ?_⟩
  obtain ⟨k3, k4, -⟩ := k2 rounds RK hRK
  obtain ⟨s3, s4, -⟩ := s2 rounds' RS hRS
  refine ⟨fun r hr => ?_, fun r hr => ?_, fun r hr r' hr' hq => ?_⟩
  · -- the sizes of the self-timed exploration, as sizes of the other one
    obtain ⟨h1, h2⟩ := s4 r hr
    have hab := hS.above hx hid hmax hepsS htS hRS r hr
    have hw : ∀ e, (fun i => r.quantity (Fin.cast hsame.length i)) (hsame.idx e) = r.quantity e := fun e => rfl
    obtain ⟨r', hr', h3, h4⟩ := k3 (fun i => r.quantity (Fin.cast hsame.length i)) r.thr
      (fun i => by
        obtain ⟨e, rfl⟩ := hsame.idx_surj i
        rw [hstart]; exact hab e)
      ((hsame.throughput_iff _ _).2 h1)
    rw [hsame.sum_idx] at h3
    exact ⟨r', hr', by rw [h2]; exact h3, h4⟩
  · obtain ⟨h1, h2⟩ := k4 r hr
    have hab := hK.above hB hids hsolve hmaxK heps htarget hRK r hr
    obtain ⟨r', hr', h3, h4⟩ := s3 (fun e => r.quantity (Fin.natAdd B.m (hsame.idx e))) r.thr
      (fun e => by rw [← hstart]; exact hab _) ((hsame.throughput_iff _ _).1 h1)
    exact ⟨r', hr', by rw [h2, hsame.sum_idx]; exact h3, by rw [← heq]; exact h4⟩
  · obtain ⟨h1, h2⟩ := k4 r hr
    obtain ⟨h3, h4⟩ := s4 r' hr'
    have h1 := (hsame.throughput_iff _ _).1 h1
    have : (fun e => r.quantity (Fin.natAdd B.m (hsame.idx e))) = r'.quantity := funext hq
    rw [this] at h1
    refine ⟨h1.unique h3, ?_⟩
    rw [h2, h4, hsame.sum_idx]
    exact sum_congr rfl fun e _ => hq e

end

/-! ### An example -/

namespace ExplorationExample

/-- `exFront` as K-Iter reads it. -/
def task : Fin 3 → KTask := ![⟨0, [1], [], 1, 2⟩, ⟨1, [1], [], 1, 2⟩, ⟨2, [1], [], 1, 1⟩]
def chan : Fin 3 → KChannel := ![⟨1, [1], [2], [], [], 0, 1⟩, ⟨2, [1], [2], [], [], 0, 1⟩, ⟨3, [3], [3], [], [], 0, 3⟩]
def B : BaseGraph :=
  ⟨[task 0, task 1, task 2], [(chan 0, task 0, task 2), (chan 1, task 1, task 2), (chan 2, task 0, task 1)]⟩

theorem same : SameGraph (exFront.withNi ![2, 2, 1]) B task chan := by
  constructor
  · rfl
  · rfl
  all_goals decide +kernel

theorem B_ok : BaseOK B := by
  have tasks : B.tasks = [task 0, task 1, task 2] := rfl
  have chans : B.channels = [(chan 0, task 0, task 2), (chan 1, task 1, task 2), (chan 2, task 0, task 1)] := rfl
  constructor
  · rw [tasks]; simp [task]
  · intro t ht
    simp only [tasks, List.mem_cons, List.not_mem_nil, or_false] at ht
    rcases ht with rfl | rfl | rfl <;> constructor <;> decide +kernel
  · rw [tasks]; simp [task]
  · intro c hc
    simp only [chans, List.mem_cons, List.not_mem_nil, or_false] at hc
    rw [tasks]
    rcases hc with rfl | rfl | rfl
    all_goals refine ⟨by simp, by simp, ?_⟩; constructor <;> decide +kernel
  · rw [chans]; simp [chan]

end ExplorationExample

namespace ExplorationExample

theorem pos : ∀ t ∈ B.tasks, ∀ d ∈ t.durations, 0 < d := by simp [B, task]

theorem ids_le : ∀ c ∈ B.channels, c.1.id ≤ B.m := by simp [B, chan, BaseGraph.m]

theorem start_lt : ∀ i, (initialSD B).quantity (Fin.natAdd B.m i) < 2147483647 := by decide +kernel

theorem few : primeBound B < 5 := by
  simp [primeBound, B, reps, task, Nat.primeFactorsList_prime Nat.prime_two]

theorem explores : Explores exhaustive B 5 (exploration exhaustive B 5 (1 / 100)) (initialSD B) :=
  C70_defined B_ok ids_le (exhaustive_ok (B := B) pos (by simp [B])).2 few (1 / 100) start_lt

theorem target : (exploration exhaustive B 5 (1 / 100)).target = 1 / 2 := by decide +kernel

end ExplorationExample

open ExplorationExample in
/-- All the hypotheses of `C122_explorations_agree` hold for this graph, with a tolerance of 1/100: there are explorations as required. -/
example : ∃ (DK : DSE (B.m + B.m)) (initK : SD (B.m + B.m)) (DS : DSE 3) (initS : SD 3),
    Explorable exFront ![2, 2, 1] ∧ BaseOK B ∧ (∀ c ∈ B.channels, c.1.id ≤ B.m) ∧ Explores exhaustive B 5 DK initK ∧
    SolverOK B exhaustive ∧ Sim.Explores exFront (fun a => (a : Int)) true DS initS ∧ (∀ e, initS.quantity e < 2147483647) ∧
    DK.eps = 1 / 100 ∧ DS.eps = DK.eps ∧ DK.eps ≤ DK.target := by
  obtain ⟨D, init, h1, h2, h3⟩ := C87_defined exFront_explorable (id := fun a => (a : Int))
    (fun a b h => Fin.ext (by simpa using h)) (1 / 100)
    (by
      intro e r h
      have h' : ∀ e : Fin 3, findMinimumChannelSz (exFront.prod e) (exFront.cons e) (exFront.preload e) =
        some ((![2, 2, 3] : Fin 3 → Int) e) := by decide +kernel
      rw [h' e] at h
      rw [← Option.some.inj h]
      exact (by decide : ∀ e : Fin 3, (![2, 2, 3] : Fin 3 → Int) e < 2147483647) e)
  have he : (exploration exhaustive B 5 (1 / 100)).eps = 1 / 100 := rfl
  refine ⟨exploration exhaustive B 5 (1 / 100), initialSD B, D, init, exFront_explorable, B_ok, ids_le, explores,
    (exhaustive_ok (B := B) pos (by simp [B])).1, h1, h3, he, h2.trans he.symm, ?_⟩
  rw [he, target]; norm_num

end Kiter
