/-
C112: the bufferless mapping gives each task its own core and each channel a shortest route.
-/
import Verif.Lemmas.Placement

set_option autoImplicit false

namespace Kiter

open NoC BMap

namespace BMap

/-- The channels as triples. -/
def triples (cs : List Chan) : List (ℕ × ℕ × ℕ) := cs.map fun e => (e.id, e.src, e.dst)

/-- The end points of the channels. -/
def ends (cs : List Chan) : List (ℕ × ℕ) := cs.map fun e => (e.src, e.dst)

/-- A graph the command is meant for: distinct ids, which fit the network of `2 r²` nodes, channels between different
tasks. -/
structure GraphOK (r : ℕ) (tasks : List ℕ) (cs : List Chan) : Prop where
  ids : (cs.map fun e => e.id).Nodup
  inside : ∀ e ∈ cs, e.src ∈ tasks ∧ e.dst ∈ tasks
  self : ∀ e ∈ cs, e.src ≠ e.dst
  small : ∀ v ∈ tasks, v < r * r * 2

theorem ordered_of {tasks : List ℕ} {dag : List Chan} {start : ℕ} (h : TakesAll tasks (ends dag) start) :
    Ordered tasks dag start := by
  have m : ∀ e ∈ dag, (e.src, e.dst) ∈ ends dag := fun e he => List.mem_map_of_mem (f := fun e : Chan => (e.src, e.dst)) he
  obtain ⟨rank, hr⟩ := h.rank
  refine ⟨⟨rank, fun e he => hr _ (m e he)⟩, fun e he => h.source _ (m e he), fun e he => h.target _ (m e he), fun v hv => ?_,
    h.new⟩
  obtain ⟨u, hu⟩ := h.entered v hv
  obtain ⟨e, he, h'⟩ := List.mem_map.mp hu
  simp only [Prod.mk.injEq] at h'
  exact ⟨e, he, h'.2⟩

theorem placed_well {r L : ℕ} {tasks : List ℕ} {cs : List Chan} {P : Placed} {m : Recorded} {before : ℕ → Int}
    (hg : GraphOK r tasks cs) (hP : Inv r L cs P) (hm : RecOK r cs P m)
    (hdone : ∀ x ∈ P.routes, ∀ e ∈ cs, key (r * r * 2) e.src e.dst = x.1 → Done e m)
    (hall : ∀ v ∈ tasks, (m.node v).isSome) :
    PlacedWell r tasks (triples cs) (fun v => (m.node v).getD (before v)) m.route := by
  have node : ∀ v ∈ tasks, ∃ c, P.cores v = some c ∧ (m.node v).getD (before v) = ((c + r * r : ℕ) : Int) := by
    intro v hv
    obtain ⟨n, hn⟩ := Option.isSome_iff_exists.mp (hall v hv)
    obtain ⟨c, h1, h2⟩ := hm.node v n hn
    exact ⟨c, h1, by rw [hn]; exact h2⟩
  refine ⟨fun v hv => ?_, fun v hv w hw he => ?_, fun i u w hi => ?_⟩
  · obtain ⟨c, h1, h2⟩ := node v hv
    obtain ⟨X, Y, h3, h4, h5⟩ := core_coords (hP.taken v c h1).1
    exact ⟨X, Y, h3, h4, h2.trans h5⟩
  · obtain ⟨c, h1, h2⟩ := node v hv
    obtain ⟨d, h3, h4⟩ := node w hw
    rw [h2, h4] at he
    have : c = d := by omega
    subst this
    exact hP.inj _ _ _ h1 h3
  · obtain ⟨e, he, h'⟩ := List.mem_map.mp hi
    simp only [Prod.mk.injEq] at h'
    obtain ⟨rfl, rfl, rfl⟩ := h'
    obtain ⟨i1, i2⟩ := hg.inside e he
    obtain ⟨a, a1, a2⟩ := node _ i1
    obtain ⟨b, b1, b2⟩ := node _ i2
    obtain ⟨p0, hp0⟩ := hP.routed e he (hg.self e he) a b a1 b1
    obtain ⟨p, hp⟩ := Option.isSome_iff_exists.mp (hdone _ hp0 e he rfl).1
    obtain ⟨e', he', hid, hpm⟩ := hm.route _ _ hp
    have : e' = e := List.inj_on_of_nodup_map hg.ids he' he hid
    subst this
    have hsmall : ∀ e ∈ cs, e.src < r * r * 2 ∧ e.dst < r * r * 2 := fun e he =>
      ⟨hg.small _ (hg.inside e he).1, hg.small _ (hg.inside e he).2⟩
    obtain ⟨a', b', h1, h2, hgood⟩ := good_of_mem hP hsmall hg.self he hpm
    rw [a1] at h1
    rw [b1] at h2
    cases h1
    cases h2
    refine ⟨p, hp, ?_⟩
    rw [a2, b2]
    exact hgood

end BMap

/-- C112: whatever the graph that decides the order of the tasks and whichever task is taken from the queue, if the command
completes on a graph whose tasks were not mapped, each task is on a core of its own and each channel has a shortest route
between the cores of its two ends. -/
theorem C112_map_and_route {tasks : List ℕ} {cs dag : List Chan} {start : ℕ} {pick : ℕ → List ℕ → ℕ} {meshsize : Int}
    {before : ℕ → Int} {node : ℕ → Int} {route : ℕ → Option (List Int)}
    (hg : GraphOK (meshRow tasks.length meshsize) tasks cs) (hb : ∀ v ∈ tasks, before v < 0)
    (h : mapAndRoute tasks cs dag start pick meshsize before = some (node, route)) :
    PlacedWell (meshRow tasks.length meshsize) tasks (triples cs) node route := by
  unfold mapAndRoute mapAndRouteWith at h
  simp only at h
  set r := meshRow tasks.length meshsize with hr
  cases hp : placement (r * r * 2) (adjacency (generate r r)) (cleared (r * r * 2)) cs dag start pick with
  | none => rw [hp] at h; cases h
  | some P =>
    rw [hp, Option.bind_some] at h
    have hP := placement_ok (Or.inl (by unfold cleared; simp)) hp
    obtain ⟨m, h1, h2, h3⟩ := recordAll_ok hP (fun e he => ⟨hg.small _ (hg.inside e he).1, hg.small _ (hg.inside e he).2⟩) hg.self
    rw [h1, Option.bind_some] at h
    split at h
    · next hall =>
      simp only [Option.some.injEq, Prod.mk.injEq] at h
      obtain ⟨rfl, rfl⟩ := h
      refine placed_well hg hP h2 h3 fun v hv => ?_
      rw [List.all_eq_true] at hall
      have := hall v hv
      simp only [ge_iff_le, decide_eq_true_eq] at this
      cases hn : m.node v with
      | some n => rfl
      | none =>
        rw [hn] at this
        have h0 := hb v hv
        simp only [Option.getD_none] at this
        omega
    · cases h

/-- C112: with the tasks in an order without circuit, every task has been given a core when the placement ends, and if
every task has a channel no later assertion fails: the command completes. -/
theorem C112_no_abort {tasks : List ℕ} {cs dag : List Chan} {start : ℕ} {pick : ℕ → List ℕ → ℕ} {meshsize : Int}
    {before : ℕ → Int} (hg : GraphOK (meshRow tasks.length meshsize) tasks cs) (hd : TakesAll tasks (ends dag) start)
    (hc : ∀ v ∈ tasks, ∃ e ∈ cs, e.src = v ∨ e.dst = v) {table : ℕ → List Int} {V : ℕ}
    (hV : V = meshRow tasks.length meshsize * meshRow tasks.length meshsize * 2)
    (ht : (table V).length = V * V ∨ V * V + V ≤ (table V).length) {P : Placed}
    (hp : placement V (adjacency (generate (meshRow tasks.length meshsize) (meshRow tasks.length meshsize))) (table V) cs dag
      start pick = some P) :
    ∃ node route, mapAndRouteWith table tasks cs dag start pick meshsize before = some (node, route) ∧
      PlacedWell (meshRow tasks.length meshsize) tasks (triples cs) node route := by
  subst hV
  unfold mapAndRouteWith
  simp only
  set r := meshRow tasks.length meshsize with hr
  rw [hp, Option.bind_some]
  have hP := placement_ok ht hp
  have hcomp := placement_complete ht (ordered_of hd) hp
  obtain ⟨m, h1, h2, h3⟩ := recordAll_ok hP (fun e he => ⟨hg.small _ (hg.inside e he).1, hg.small _ (hg.inside e he).2⟩) hg.self
  rw [h1, Option.bind_some]
  have hnode : ∀ v ∈ tasks, (m.node v).isSome := by
    intro v hv
    obtain ⟨e, he, hev⟩ := hc v hv
    obtain ⟨i1, i2⟩ := hg.inside e he
    obtain ⟨a, ha⟩ := Option.isSome_iff_exists.mp (hcomp _ i1)
    obtain ⟨b, hb⟩ := Option.isSome_iff_exists.mp (hcomp _ i2)
    obtain ⟨p, hp⟩ := hP.routed e he (hg.self e he) a b ha hb
    have hD := h3 _ hp e he rfl
    rcases hev with rfl | rfl
    · exact hD.2.1
    · exact hD.2.2
  have hw := placed_well (before := before) hg hP h2 h3 hnode
  rw [if_pos]
  · exact ⟨_, _, rfl, hw⟩
  · rw [List.all_eq_true]
    intro v hv
    obtain ⟨X, Y, -, -, e⟩ := hw.core v hv
    simp only [ge_iff_le, decide_eq_true_eq]
    rw [e]
    unfold coreId
    positivity

/-- C112: without MESHSIZE, the mesh has a core for each task. -/
theorem C112_mesh (n : ℕ) (meshsize : Int) (h : meshsize ≤ 0) :
    n ≤ meshRow n meshsize * meshRow n meshsize ∧ 2 ≤ meshRow n meshsize := by
  unfold meshRow
  rw [if_neg (by omega)]
  simp only
  have h1 := Nat.sqrt_le n
  have h2 := Nat.lt_succ_sqrt n
  set s := Nat.sqrt n
  have h3 : n < (s + 1) * (s + 1) := h2
  have key : n ≤ (if s * s = n then s else s + 1) * (if s * s = n then s else s + 1) := by split <;> omega
  generalize (if s * s = n then s else s + 1) = row at key
  split
  · next h => exact ⟨by nlinarith, le_refl _⟩
  · exact ⟨key, by omega⟩

/-- C112: with a table of utilisations with an entry for each link, which is `V` entries longer than that of the code, the
command completes on every graph in which each task has a channel and no two edges of the graph that decides the order have
the same ends, if the mesh has enough cores. -/
theorem C112_returns_partial {tasks : List ℕ} {cs dag : List Chan} {start : ℕ} {pick : ℕ → List ℕ → ℕ} {meshsize : Int}
    {before : ℕ → Int} (hg : GraphOK (meshRow tasks.length meshsize) tasks cs) (hd : TakesAll tasks (ends dag) start)
    (hc : ∀ v ∈ tasks, ∃ e ∈ cs, e.src = v ∨ e.dst = v) (hs : (ends dag).Nodup) (hpick : ∀ i q, q ≠ [] → pick i q ∈ q)
    (hn : tasks.length ≤ meshRow tasks.length meshsize * meshRow tasks.length meshsize) :
    ∃ node route, mapAndRouteWith (fun V => List.replicate (V * V + V) 0) tasks cs dag start pick meshsize before =
        some (node, route) ∧ PlacedWell (meshRow tasks.length meshsize) tasks (triples cs) node route := by
  obtain ⟨P, hp⟩ := placement_returns (cs := cs)
    (table := List.replicate (meshRow tasks.length meshsize * meshRow tasks.length meshsize * 2 *
      (meshRow tasks.length meshsize * meshRow tasks.length meshsize * 2) +
      meshRow tasks.length meshsize * meshRow tasks.length meshsize * 2) 0)
    (by rw [List.length_replicate]; unfold big; exact le_refl _) hs (ordered_of hd) hpick hn
  exact C112_no_abort hg hd hc rfl (Or.inr (by rw [List.length_replicate])) hp

namespace PlacementExample

/-- The queue taken in order. -/
def fifo (_ : ℕ) (q : List ℕ) : ℕ := q.headD 0

/-- A chain of three tasks; 9 is `start`. -/
def chain3 : List Chan := [⟨1, 1, 2⟩, ⟨2, 2, 3⟩]
def chain4 : List Chan := [⟨1, 1, 2⟩, ⟨2, 2, 3⟩, ⟨3, 3, 4⟩]

/-- What the command returns, by task and by channel. -/
def result (tasks : List ℕ) (cs dag : List Chan) : Option (List Int × List (Option (List Int))) :=
  (mapAndRoute tasks cs dag 9 fifo 0 fun _ => -1).map fun r => (tasks.map r.1, cs.map fun e => r.2 e.id)

/-- The chain of three tasks is placed, on the cores 4, 5 and 7 of the mesh of two rows. -/
example : result [1, 2, 3] chain3 (chain3 ++ [⟨3, 9, 1⟩]) = some ([4, 5, 7], [some [40, 9, 21], some [49, 19, 39]]) := by
  decide +kernel

theorem chain_ok (n : ℕ) (cs : List Chan) (tasks : List ℕ) (hn : meshRow tasks.length 0 = n)
    (h : (cs.map fun e => e.id).Nodup ∧ (∀ e ∈ cs, e.src ∈ tasks ∧ e.dst ∈ tasks) ∧ (∀ e ∈ cs, e.src ≠ e.dst) ∧
      ∀ v ∈ tasks, v < n * n * 2) : GraphOK (meshRow tasks.length 0) tasks cs := by
  subst hn
  exact ⟨h.1, h.2.1, h.2.2.1, h.2.2.2⟩

/-- C112 applies to it. -/
example : ∃ node route, mapAndRoute [1, 2, 3] chain3 (chain3 ++ [⟨3, 9, 1⟩]) 9 fifo 0 (fun _ => -1) = some (node, route) ∧
    PlacedWell 2 [1, 2, 3] (triples chain3) node route := by
  cases h : mapAndRoute [1, 2, 3] chain3 (chain3 ++ [⟨3, 9, 1⟩]) 9 fifo 0 (fun _ => -1) with
  | none =>
    have : result [1, 2, 3] chain3 (chain3 ++ [⟨3, 9, 1⟩]) = none := by unfold result; rw [h]; rfl
    have h2 : (result [1, 2, 3] chain3 (chain3 ++ [⟨3, 9, 1⟩])).isSome = true := by decide +kernel
    rw [this] at h2
    cases h2
  | some x =>
    have hw := C112_map_and_route (chain_ok 2 _ _ (by decide +kernel) (by decide)) (by decide) h
    rw [show meshRow [1, 2, 3].length 0 = 2 by decide +kernel] at hw
    exact ⟨x.1, x.2, rfl, hw⟩

/-- The hypotheses of `C112_no_abort` and `C112_returns_partial` hold for the chain of four tasks. -/
example : TakesAll [1, 2, 3, 4] (ends (chain4 ++ [⟨4, 9, 1⟩])) 9 :=
  ⟨⟨fun v => if v = 9 then 0 else v, by decide⟩, by decide, by decide, by
    intro v hv
    simp only [List.mem_cons, List.not_mem_nil, or_false] at hv
    rcases hv with rfl | rfl | rfl | rfl
    · exact ⟨9, by decide⟩
    · exact ⟨1, by decide⟩
    · exact ⟨2, by decide⟩
    · exact ⟨3, by decide⟩, by decide⟩

example : GraphOK (meshRow [1, 2, 3, 4].length 0) [1, 2, 3, 4] chain4 ∧ (ends (chain4 ++ [⟨4, 9, 1⟩])).Nodup ∧
    (∀ i q, q ≠ [] → fifo i q ∈ q) ∧ (∀ v ∈ [1, 2, 3, 4], ∃ e ∈ chain4, e.src = v ∨ e.dst = v) := by
  refine ⟨chain_ok 2 _ _ (by decide +kernel) (by decide), by decide, fun i q hq => ?_, by decide⟩
  cases q with
  | nil => exact absurd rfl hq
  | cons x q => simp [fifo]

/-- C112, why the table matters: with the table of the code, a chain of four tasks on the mesh the command chooses for it
reads the utilisation of a link beyond the end of the table, since the third task is on the last core. -/
theorem C112_out_of_bounds : mapAndRoute [1, 2, 3, 4] chain4 (chain4 ++ [⟨4, 9, 1⟩]) 9 fifo 0 (fun _ => -1) = none := by
  have h : (result [1, 2, 3, 4] chain4 (chain4 ++ [⟨4, 9, 1⟩])).isNone = true := by decide +kernel
  unfold result at h
  simpa using h

/-- So does any circuit of two tasks, where the last core is considered for the second. -/
theorem C112_circuit_out_of_bounds :
    mapAndRoute [1, 2] [⟨1, 1, 2⟩, ⟨2, 2, 1⟩] [⟨1, 1, 2⟩, ⟨3, 9, 1⟩] 9 fifo 0 (fun _ => -1) = none := by
  have h : (result [1, 2] [⟨1, 1, 2⟩, ⟨2, 2, 1⟩] [⟨1, 1, 2⟩, ⟨3, 9, 1⟩]).isNone = true := by decide +kernel
  unfold result at h
  simpa using h

/-- C112, why edges with the same ends matter: a task is put once in the queue for each channel that brings it, and takes a
core each time. Four channels between two tasks use up a mesh of four cores, even with a larger table. -/
theorem C112_parallel : mapAndRouteWith (fun V => List.replicate (V * V + V) 0) [1, 2]
    [⟨1, 1, 2⟩, ⟨2, 1, 2⟩, ⟨3, 1, 2⟩, ⟨4, 1, 2⟩] [⟨1, 1, 2⟩, ⟨2, 1, 2⟩, ⟨3, 1, 2⟩, ⟨4, 1, 2⟩, ⟨5, 9, 1⟩] 9 fifo 0
      (fun _ => -1) = none := by
  have h : ((mapAndRouteWith (fun V => List.replicate (V * V + V) 0) [1, 2]
    [⟨1, 1, 2⟩, ⟨2, 1, 2⟩, ⟨3, 1, 2⟩, ⟨4, 1, 2⟩] [⟨1, 1, 2⟩, ⟨2, 1, 2⟩, ⟨3, 1, 2⟩, ⟨4, 1, 2⟩, ⟨5, 9, 1⟩] 9 fifo 0
      (fun _ => -1)).map fun _ => ()).isNone = true := by decide +kernel
  simpa using h

/-- C112, why each task needs a channel: the nodes are read from the routes, and a task without channel is left unmapped. -/
theorem C112_alone : mapAndRoute [1] [] [⟨1, 9, 1⟩] 9 fifo 0 (fun _ => -1) = none := by
  have h : (result [1] [] [⟨1, 9, 1⟩]).isNone = true := by decide +kernel
  unfold result at h
  simpa using h

/-- C112, why a channel from a task to itself matters: it stays in the graph that decides the order, the task waits for
itself, and is left unmapped. -/
theorem C112_self_loop : mapAndRoute [1, 2] [⟨1, 1, 2⟩, ⟨2, 2, 2⟩] [⟨1, 1, 2⟩, ⟨2, 2, 2⟩, ⟨3, 9, 1⟩] 9 fifo 0
    (fun _ => -1) = none := by
  have h : (result [1, 2] [⟨1, 1, 2⟩, ⟨2, 2, 2⟩] [⟨1, 1, 2⟩, ⟨2, 2, 2⟩, ⟨3, 9, 1⟩]).isNone = true := by decide +kernel
  unfold result at h
  simpa using h

end PlacementExample

end Kiter
