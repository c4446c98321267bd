/-
C113: the order of the tasks, and the whole command BufferlessNoCMapAndRoute.
-/
import Verif.Props.CircuitCut
import Verif.Props.Untimed
import Verif.Model.TaskOrder

set_option autoImplicit false

namespace Kiter

open BMap Cut Untimed

namespace Cut

section
variable {B : BaseGraph}

theorem first_append {seq o : List Int} (h : InOrderOfFirst seq o) (x : Int) :
    InOrderOfFirst (seq ++ [x]) (if x ∈ o then o else o ++ [x]) := by
  have hold : ∀ a ∈ o, (seq ++ [x]).idxOf a = seq.idxOf a := fun a ha => List.idxOf_append_of_mem ((h.1 a).mp ha)
  have hp : o.Pairwise fun a b => (seq ++ [x]).idxOf a < (seq ++ [x]).idxOf b :=
    h.2.imp_of_mem fun ha hb hab => by rw [hold _ ha, hold _ hb]; exact hab
  by_cases hx : x ∈ o
  · rw [if_pos hx]
    refine ⟨fun i => ?_, hp⟩
    rw [List.mem_append, ← h.1, List.mem_singleton]
    constructor
    · exact Or.inl
    · rintro (h' | rfl)
      · exact h'
      · exact hx
  · rw [if_neg hx]
    refine ⟨fun i => by rw [List.mem_append, List.mem_append, h.1], List.pairwise_append.mpr ⟨hp, List.pairwise_singleton _ _, ?_⟩⟩
    intro a ha b hb
    rw [List.mem_singleton.mp hb, hold a ha, List.idxOf_append_of_notMem fun hc => hx ((h.1 x).mpr hc), List.idxOf_cons_self]
    have := List.idxOf_lt_length_of_mem ((h.1 a).mp ha)
    omega

theorem order_pass (hu : Unique B) (l : List KTask) (hl : ∀ t ∈ l, t ∈ B.tasks) (s : Exec × List Int) {seq : List Int}
    (h : After B 1 seq s.1) (ho : InOrderOfFirst seq s.2) :
    (l.foldl (visitO B) s).1 = l.foldl (visit B) s.1 ∧
      ∃ seq', After B 1 seq' (l.foldl (visitO B) s).1 ∧ InOrderOfFirst seq' (l.foldl (visitO B) s).2 := by
  induction l generalizing s seq with
  | nil => exact ⟨rfl, seq, h, ho⟩
  | cons t l ih =>
    rw [List.foldl_cons, List.foldl_cons]
    have hl' : ∀ t ∈ l, t ∈ B.tasks := fun x hx => hl x (List.mem_cons_of_mem _ hx)
    unfold visitO visit
    by_cases hc : canExecute B s.1 t = true
    · rw [if_pos hc, if_pos hc]
      exact ih hl' (execute B s.1 t, _) (after_execute hu h (hl t List.mem_cons_self) hc) (first_append ho t.id)
    · rw [if_neg hc, if_neg hc]
      exact ih hl' s h ho

theorem order_passes (hB : BaseOK B) (hu : Unique B) (n : ℕ) :
    (passesO B (Untimed.start B 1, []) n).1 = passes B (Untimed.start B 1) n ∧
      ∃ seq, After B 1 seq (passesO B (Untimed.start B 1, []) n).1 ∧ InOrderOfFirst seq (passesO B (Untimed.start B 1, []) n).2 := by
  have h0 : ∀ t ∈ B.tasks, 0 ≤ t.ni * 1 := fun t ht => by have := (hB.tasks t ht).ni; omega
  induction n with
  | zero => exact ⟨rfl, [], after_start hu h0, by simp [passesO], by simp [passesO]⟩
  | succ n ih =>
    obtain ⟨h1, seq, h2, h3⟩ := ih
    unfold passesO passes
    rw [← h1]
    split
    · exact order_pass hu B.tasks (fun _ h => h) _ h2 h3
    · exact ⟨rfl, seq, h2, h3⟩

end

end Cut

section
variable {B : BaseGraph}

/-- C113: the order of the tasks is that of their first executions in an iteration of the graph, one execution at a time,
each with the tokens it needs; every task is in it once. -/
theorem C113_task_order (hB : BaseOK B) (hu : Unique B) {n : ℕ} {o : List Int} (h : taskOrder B n = some o) :
    (∃ seq, Iterates B 1 seq ∧ InOrderOfFirst seq o) ∧ o.Nodup ∧ ∀ i, i ∈ o ↔ i ∈ B.tasks.map KTask.id := by
  obtain ⟨h1, seq, h2, h3⟩ := order_passes hB hu n
  unfold taskOrder at h
  simp only at h
  split at h
  · cases h
  · next ht =>
    simp only [Option.some.injEq] at h
    subst h
    have hi := h2.iterates (by omega)
    refine ⟨⟨seq, hi, h3⟩, h3.2.imp fun {a b} hab (e : a = b) => by rw [e] at hab; omega, fun i => ?_⟩
    rw [h3.1 i]
    constructor
    · intro hm
      obtain ⟨t, ht, rfl⟩ := h2.tasks i hm
      exact List.mem_map_of_mem ht
    · intro hm
      obtain ⟨t, ht, rfl⟩ := List.mem_map.mp hm
      have h4 := hi.counts t ht
      have h5 := (hB.tasks t ht).ni
      exact List.count_pos_iff.mp (by omega)

/-- C113: the order is found exactly when the graph can execute an iteration; otherwise the loop does not end. -/
theorem C113_task_order_iff (hB : BaseOK B) (hu : Unique B) : (∃ n o, taskOrder B n = some o) ↔ ∃ seq, Iterates B 1 seq := by
  rw [← C94_ends_iff hB hu]
  have key : ∀ n, (taskOrder B n).isSome = (symbolicExecution B n).isSome := by
    intro n
    unfold taskOrder symbolicExecution
    simp only
    rw [(order_passes hB hu n).1]
    split <;> rfl
  constructor
  · rintro ⟨n, o, h⟩
    have := key n
    rw [h] at this
    obtain ⟨r, hr⟩ := Option.isSome_iff_exists.mp this.symm
    exact ⟨n, r, hr⟩
  · rintro ⟨n, r, h⟩
    have := key n
    rw [h] at this
    obtain ⟨o, ho⟩ := Option.isSome_iff_exists.mp this
    exact ⟨n, o, ho⟩

namespace Cut

/-- A graph for the command: identifiers not negative, channels between different tasks. -/
structure CommandOK (B : BaseGraph) : Prop where
  base : BaseOK B
  unique : Unique B
  tasks : B.tasks ≠ []
  taskPos : ∀ t ∈ B.tasks, 0 ≤ t.id
  chanPos : ∀ c ∈ B.channels, 0 ≤ c.1.id
  self : ∀ c ∈ B.channels, c.2.1.id ≠ c.2.2.id

theorem start_new (B : BaseGraph) : startId B ∉ taskIds B := by
  unfold startId
  have key : ∀ (l : List ℕ) (a : ℕ), a ≤ l.foldl max a ∧ ∀ x ∈ l, x ≤ l.foldl max a := by
    intro l
    induction l with
    | nil => intro a; simp
    | cons b l ih =>
      intro a
      rw [List.foldl_cons]
      obtain ⟨h1, h2⟩ := ih (max a b)
      refine ⟨by omega, fun x hx => ?_⟩
      rcases List.mem_cons.mp hx with rfl | hx
      · omega
      · exact h2 x hx
  intro h
  have := (key (taskIds B) 0).2 _ h
  omega

theorem CommandOK.ids_nodup (h : CommandOK B) : (taskIds B).Nodup := by
  unfold taskIds
  rw [show (B.tasks.map fun t => t.id.toNat) = (B.tasks.map KTask.id).map Int.toNat by simp]
  refine List.Nodup.map_on (fun a ha b hb hab => ?_) h.unique.tasks
  obtain ⟨t, ht, rfl⟩ := List.mem_map.mp ha
  obtain ⟨u, hu, rfl⟩ := List.mem_map.mp hb
  have := h.taskPos t ht
  have := h.taskPos u hu
  omega

theorem CommandOK.chan_nodup (h : CommandOK B) : ((chans B).map fun e => e.id).Nodup := by
  unfold chans
  rw [List.map_map, show (B.channels.map ((fun e : Chan => e.id) ∘ fun c => ⟨c.1.id.toNat, c.2.1.id.toNat, c.2.2.id.toNat⟩)) =
    (B.channels.map fun c => c.1.id).map Int.toNat by simp]
  refine List.Nodup.map_on (fun a ha b hb hab => ?_) h.unique.channels
  obtain ⟨t, ht, rfl⟩ := List.mem_map.mp ha
  obtain ⟨u, hu, rfl⟩ := List.mem_map.mp hb
  have := h.chanPos t ht
  have := h.chanPos u hu
  omega

theorem CommandOK.inside (h : CommandOK B) : ∀ e ∈ chans B, e.src ∈ taskIds B ∧ e.dst ∈ taskIds B := by
  intro e he
  obtain ⟨c, hc, rfl⟩ := List.mem_map.mp he
  obtain ⟨h1, h2, _⟩ := h.base.channels c hc
  exact ⟨List.mem_map_of_mem (f := fun t : KTask => t.id.toNat) h1, List.mem_map_of_mem (f := fun t : KTask => t.id.toNat) h2⟩

theorem CommandOK.noSelf (h : CommandOK B) : ∀ e ∈ chans B, e.src ≠ e.dst := by
  intro e he
  obtain ⟨c, hc, rfl⟩ := List.mem_map.mp he
  obtain ⟨h1, h2, _⟩ := h.base.channels c hc
  have := h.taskPos _ h1
  have := h.taskPos _ h2
  have := h.self c hc
  simp only
  omega

theorem CommandOK.input (h : CommandOK B) {n : ℕ} {o : List Int} (ho : taskOrder B n = some o) :
    Input (taskIds B) (chans B) (o.map Int.toNat) (startId B) := by
  refine ⟨h.chan_nodup, h.inside, h.noSelf, by simpa [taskIds] using h.tasks, start_new B, fun v => ?_⟩
  have hm := (C113_task_order h.base h.unique ho).2.2
  unfold taskIds
  rw [show (B.tasks.map fun t => t.id.toNat) = (B.tasks.map KTask.id).map Int.toNat by simp, List.mem_map, List.mem_map]
  simp only [hm]

end Cut

/-- C113: if the command completes on a graph whose tasks were not mapped, each task is on a core of its own and each channel
has a shortest route between the cores of its two ends. -/
theorem C113_command {n : ℕ} {pick : ℕ → List ℕ → ℕ} {meshsize : Int} {before : ℕ → Int} {node : ℕ → Int}
    {route : ℕ → Option (List Int)} (hB : CommandOK B)
    (hsmall : ∀ t ∈ B.tasks, t.id.toNat < meshRow B.tasks.length meshsize * meshRow B.tasks.length meshsize * 2)
    (hb : ∀ t ∈ B.tasks, before t.id.toNat < 0) (h : command B n pick meshsize before = some (node, route)) :
    PlacedWell (meshRow B.tasks.length meshsize) (taskIds B) (triples (chans B)) node route := by
  have hlen : (taskIds B).length = B.tasks.length := by unfold taskIds; rw [List.length_map]
  unfold command commandWith at h
  cases h1 : taskOrder B n with
  | none => rw [h1] at h; cases h
  | some prog =>
    rw [h1, Option.bind_some] at h
    cases h2 : orderGraphWith B.tasks.length (taskIds B) (chans B) (prog.map Int.toNat) (startId B) with
    | none => rw [h2] at h; cases h
    | some dag =>
      rw [h2, Option.bind_some] at h
      have := C112_map_and_route (tasks := taskIds B) (cs := chans B) (dag := dag) (start := startId B) (pick := pick)
        (meshsize := meshsize) (before := before) ⟨hB.chan_nodup, hB.inside, hB.noSelf, fun v hv => by
          obtain ⟨t, ht, rfl⟩ := List.mem_map.mp hv
          rw [hlen]
          exact hsmall t ht⟩ (fun v hv => by
          obtain ⟨t, ht, rfl⟩ := List.mem_map.mp hv
          exact hb t ht) h
      rwa [hlen] at this

/-- C113: with a mark for each id and a utilisation for each link (the tables of the code are shorter), the command completes
on every graph that can execute an iteration, in which each task has a channel and no two channels have the same ends, if
the mesh has enough cores. -/
theorem C113_command_partial {pick : ℕ → List ℕ → ℕ} {meshsize : Int} {before : ℕ → Int} {size : ℕ} (hB : CommandOK B)
    (hlive : ∃ seq, Iterates B 1 seq) (hsize : ∀ t ∈ B.tasks, t.id.toNat < size)
    (hsmall : ∀ t ∈ B.tasks, t.id.toNat < meshRow B.tasks.length meshsize * meshRow B.tasks.length meshsize * 2)
    (hc : ∀ t ∈ B.tasks, ∃ c ∈ B.channels, c.2.1.id = t.id ∨ c.2.2.id = t.id)
    (hpar : (B.channels.map fun c => (c.2.1.id, c.2.2.id)).Nodup) (hpick : ∀ i q, q ≠ [] → pick i q ∈ q)
    (hn : B.tasks.length ≤ meshRow B.tasks.length meshsize * meshRow B.tasks.length meshsize) :
    ∃ n node route, commandWith size (fun V => List.replicate (V * V + V) 0) B n pick meshsize before = some (node, route) ∧
      PlacedWell (meshRow B.tasks.length meshsize) (taskIds B) (triples (chans B)) node route := by
  have hlen : (taskIds B).length = B.tasks.length := by unfold taskIds; rw [List.length_map]
  obtain ⟨n, o, ho⟩ := (C113_task_order_iff hB.base hB.unique).mpr hlive
  obtain ⟨dag, d1, d2, _, _, d3⟩ := C113_order (hB.input ho) (size := size) (fun v hv => by
    obtain ⟨t, ht, rfl⟩ := List.mem_map.mp hv
    exact hsize t ht)
  have hends : (ends (chans B)).Nodup := by
    unfold ends chans
    rw [List.map_map, show (B.channels.map ((fun e : Chan => (e.src, e.dst)) ∘ fun c => ⟨c.1.id.toNat, c.2.1.id.toNat, c.2.2.id.toNat⟩)) =
      (B.channels.map fun c => (c.2.1.id, c.2.2.id)).map fun x => (x.1.toNat, x.2.toNat) by simp]
    refine List.Nodup.map_on (fun a ha b hb hab => ?_) hpar
    obtain ⟨c, hc, rfl⟩ := List.mem_map.mp ha
    obtain ⟨d, hd, rfl⟩ := List.mem_map.mp hb
    obtain ⟨c1, c2, _⟩ := hB.base.channels c hc
    obtain ⟨e1, e2, _⟩ := hB.base.channels d hd
    have := hB.taskPos _ c1
    have := hB.taskPos _ c2
    have := hB.taskPos _ e1
    have := hB.taskPos _ e2
    simp only [Prod.mk.injEq] at hab ⊢
    omega
  obtain ⟨node, route, r1, r2⟩ := C112_returns_partial (tasks := taskIds B) (cs := chans B) (dag := dag) (start := startId B)
    (pick := pick) (meshsize := meshsize) (before := before) ⟨hB.chan_nodup, hB.inside, hB.noSelf, fun v hv => by
      obtain ⟨t, ht, rfl⟩ := List.mem_map.mp hv
      rw [hlen]
      exact hsmall t ht⟩ d2 (fun v hv => by
      obtain ⟨t, ht, rfl⟩ := List.mem_map.mp hv
      obtain ⟨c, hc, h⟩ := hc t ht
      refine ⟨_, List.mem_map_of_mem (f := fun c : BChannel => (⟨c.1.id.toNat, c.2.1.id.toNat, c.2.2.id.toNat⟩ : Chan)) hc, ?_⟩
      rcases h with h | h
      · exact Or.inl (by rw [h])
      · exact Or.inr (by rw [h])) (d3 hB.ids_nodup hends) hpick (by rw [hlen]; exact hn)
  refine ⟨n, node, route, ?_, by rwa [hlen] at r2⟩
  unfold commandWith
  rw [ho, Option.bind_some, d1, Option.bind_some, r1]

end

/-! ### Examples -/

namespace TaskOrderExample
open UntimedExample

def A : KTask := ⟨0, [1], [], 1, 2⟩
def C : KTask := ⟨1, [1], [], 1, 1⟩
def D : KTask := ⟨2, [1], [], 1, 2⟩

/-- A circuit of three tasks with rates. -/
def ring : BaseGraph := ⟨[A, C, D], [(⟨1, [1], [2], [], [], 0, 1⟩, A, C), (⟨2, [2], [1], [], [], 0, 1⟩, C, D),
  (⟨3, [1], [1], [], [], 2, 1⟩, D, A)]⟩

/-- The same without the channel that closes the circuit. -/
def chain : BaseGraph := ⟨[A, C, D], [(⟨1, [1], [2], [], [], 0, 1⟩, A, C), (⟨2, [2], [1], [], [], 0, 1⟩, C, D)]⟩

theorem ring_ok : CommandOK ring := by
  refine ⟨⟨by simp [ring, A, C, D], ?_, by simp [ring, A, C, D], ?_, by simp [ring]⟩, ⟨by decide, by decide⟩, by decide, by decide,
    by decide, by decide⟩
  · intro t ht
    simp only [ring, List.mem_cons, List.not_mem_nil, or_false] at ht
    rcases ht with rfl | rfl | rfl
    · exact ⟨by decide, rfl, by decide, by decide, by decide, by decide⟩
    · exact ⟨by decide, rfl, by decide, by decide, by decide, by decide⟩
    · exact ⟨by decide, rfl, by decide, by decide, by decide, by decide⟩
  · intro c hc
    simp only [ring, List.mem_cons, List.not_mem_nil, or_false] at hc
    rcases hc with rfl | rfl | rfl
    · exact ⟨by simp [ring], by simp [ring],
        rfl, rfl, rfl, rfl, by decide, by decide, by decide, by decide, by decide, by decide, by decide, by decide, by decide⟩
    · exact ⟨by simp [ring], by simp [ring],
        rfl, rfl, rfl, rfl, by decide, by decide, by decide, by decide, by decide, by decide, by decide, by decide, by decide⟩
    · exact ⟨by simp [ring], by simp [ring],
        rfl, rfl, rfl, rfl, by decide, by decide, by decide, by decide, by decide, by decide, by decide, by decide, by decide⟩

/-- The tasks of the circuit in the order of their first executions. -/
example : taskOrder ring 3 = some [0, 1, 2] := by decide +kernel

example : BaseOK ring ∧ Unique ring := ⟨ring_ok.base, ring_ok.unique⟩

/-- The channel that comes back to the first task is left out. -/
theorem ring_order : orderGraph (taskIds ring) (chans ring) [0, 1, 2] (startId ring) = some [⟨1, 0, 1⟩, ⟨2, 1, 2⟩, ⟨0, 3, 0⟩] := by
  decide +kernel

/-- `C113_order` applies to it. -/
example : Input (taskIds ring) (chans ring) [0, 1, 2] (startId ring) :=
  ring_ok.input (n := 3) (o := [0, 1, 2]) (by decide +kernel)

/-- Two circuits with a vertex in common: their lengths are kept, also for the task before them. -/
example : (circuitLengths [0, 1, 2, 3] [⟨1, 0, 1⟩, ⟨2, 1, 2⟩, ⟨3, 2, 1⟩, ⟨4, 2, 3⟩, ⟨5, 3, 1⟩, ⟨0, 4, 0⟩] 4).map
    (fun f => [0, 1, 2, 3, 4].map f) = some [[2, 3], [2, 3], [2, 3], [2, 3], [2, 3]] := by decide +kernel

/-- The command, with tables large enough, places the circuit on the cores 4, 5 and 6 of the mesh of two rows. -/
example : ((commandWith 3 (fun V => List.replicate (V * V + V) 0) ring 3 PlacementExample.fifo 0 fun _ => -1).map fun r =>
    ([0, 1, 2].map r.1, [1, 2, 3].map r.2)) = some ([4, 5, 6], [some [40, 9, 21], some [49, 16, 10, 30], some [58, 24, 12]]) := by
  decide +kernel

/-- `C113_command_partial` applies to it. -/
example : ∃ n node route, commandWith 3 (fun V => List.replicate (V * V + V) 0) ring n PlacementExample.fifo 0 (fun _ => -1) =
    some (node, route) ∧ PlacedWell (meshRow ring.tasks.length 0) (taskIds ring) (triples (chans ring)) node route := by
  have ho : taskOrder ring 3 = some [0, 1, 2] := by decide +kernel
  refine C113_command_partial ring_ok ((C113_task_order_iff ring_ok.base ring_ok.unique).mp ⟨3, _, ho⟩) (by decide)
    (by decide +kernel) (by decide) (by decide) (fun i q hq => ?_) (by decide +kernel)
  cases q with
  | nil => exact absurd rfl hq
  | cons x q => simp [PlacementExample.fifo]

/-- With the tables of the code too, the chain is placed. -/
example : ((command chain 3 PlacementExample.fifo 0 fun _ => -1).map fun r => ([0, 1, 2].map r.1, [1, 2].map r.2)) =
    some ([4, 5, 7], [some [40, 9, 21], some [49, 19, 39]]) := by decide +kernel

/-- C113, why the number of marks matters: ids start at 1 in the graphs that are read, so that the last one is beyond the
end of the vector of marks. -/
theorem C113_out_of_bounds : orderGraph [1, 2, 3] [⟨1, 1, 2⟩, ⟨2, 2, 3⟩] [1, 2, 3] 4 = none ∧
    orderGraphWith 4 [1, 2, 3] [⟨1, 1, 2⟩, ⟨2, 2, 3⟩] [1, 2, 3] 4 = some [⟨1, 1, 2⟩, ⟨2, 2, 3⟩, ⟨0, 4, 1⟩] := by decide +kernel

/-- This is so of every graph whose ids are 1, 2, ... -/
theorem C113_always_out_of_bounds {n : ℕ} (hn : 0 < n) (cs : List Chan) (prog : List ℕ) (start : ℕ) :
    orderGraph ((List.range n).map (· + 1)) cs prog start = none := by
  unfold orderGraph orderGraphWith
  cases withStart ((List.range n).map (· + 1)) cs start with
  | none => rfl
  | some g =>
    rw [Option.bind_some]
    cases circuitLengths ((List.range n).map (· + 1)) g start with
    | none => rfl
    | some f =>
      rw [Option.bind_some]
      unfold removeCycleEdges
      rw [if_pos]
      rw [List.any_eq_true]
      exact ⟨n, List.mem_map.mpr ⟨n - 1, by rw [List.mem_range]; omega, by omega⟩, by simp⟩

/-- C113, why self-loops matter: one outside all circuits is kept, so that its task waits for itself. -/
theorem C113_self_loop : orderGraph [0, 1] [⟨1, 0, 1⟩, ⟨2, 1, 1⟩] [0, 1] 2 = some [⟨1, 0, 1⟩, ⟨2, 1, 1⟩, ⟨0, 2, 0⟩] := by
  decide +kernel

/-- C113, why phases matter: on a live graph in which a task has two phases the loop that orders the tasks does not end. -/
theorem C113_phases : (∃ σ, ValidGen csdf σ) ∧ ∀ n, taskOrder csdf n = none := by
  refine ⟨C94_csdf_counterexample.1, fun n => ?_⟩
  cases h : taskOrder csdf n with
  | none => rfl
  | some o =>
    have hu : Unique csdf := ⟨by decide, by decide⟩
    obtain ⟨seq, hs⟩ := (C113_task_order_iff csdf_ok hu).mp ⟨n, o, h⟩
    obtain ⟨m, r, hm⟩ := (C94_ends_iff csdf_ok hu).mpr ⟨seq, hs⟩
    rw [C94_csdf_counterexample.2 m] at hm
    cases hm

end TaskOrderExample

end Kiter
