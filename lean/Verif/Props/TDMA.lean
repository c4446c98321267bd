/-
Properties C36, C37, C58, C59: TDMA slot arithmetic and packet replay.
-/
import Verif.Lemmas.TDMA
import Mathlib.Order.Bounds.Basic
import Mathlib.Tactic.IntervalCases

set_option autoImplicit false

namespace Kiter

open TDMA

/-! ### C36: the wait for a slot -/

/-- C36.  `findEventCycle` called as the scheduler calls it, in any cycle, with any slot of a
table of any length, returns the smallest non-negative wait after which that slot is active. -/
theorem C36_slot_wait (cycle my total : Int) (h0 : 0 ≤ my) (h1 : my < total) :
    IsLeast {w : Int | 0 ≤ w ∧ (cycle + w) % total = my}
      (findEventCycle (cycle % total) my total) := by
  have ht : 0 < total := by omega
  have hm0 := Int.emod_nonneg cycle ht.ne'
  have hm1 := Int.emod_lt_of_pos cycle ht
  constructor
  · refine ⟨?_, ?_⟩
    · unfold findEventCycle; split <;> omega
    · rw [← Int.emod_add_emod]
      exact findEventCycle_hit h0 h1
  · rintro w ⟨hw0, hw⟩
    by_contra hlt
    by_cases he : cycle % total = my
    · rw [he] at hlt
      unfold findEventCycle at hlt
      simp at hlt
      omega
    · refine (findEventCycle_pos hm0 hm1 h0 h1 he).2.2 w hw0 (by omega) ?_
      rw [Int.emod_add_emod]
      exact hw

example : findEventCycle (25 % 18) 3 18 = 14 ∧ (25 + 14) % 18 = 3 := by decide

/-! ### C37: the distance on the mesh -/

/-- Manhattan distance on (row, column). -/
def TDMA.manhattan (cols a b : Nat) : Nat :=
  ((a / cols : Nat) - (b / cols : Nat) : Int).natAbs + ((a % cols : Nat) - (b % cols : Nat) : Int).natAbs

theorem TDMA.walk_lower {rows cols n a b : Nat} (h : MeshWalk rows cols n a b) :
    manhattan cols a b ≤ n := by
  induction h with
  | refl a => simp [manhattan]
  | step _ hadj ih =>
    unfold manhattan at *
    obtain ⟨_, _, h | h⟩ := hadj <;> omega

theorem TDMA.coords {rows cols r k : Nat} (hr : r < rows) (hk : k < cols) :
    r * cols + k < rows * cols ∧ (r * cols + k) / cols = r ∧ (r * cols + k) % cols = k := by
  refine ⟨?_, ?_, ?_⟩
  · calc r * cols + k < r * cols + cols := by omega
      _ = (r + 1) * cols := by ring
      _ ≤ _ := Nat.mul_le_mul_right _ hr
  · rw [Nat.add_comm, Nat.add_mul_div_right _ _ (by omega), Nat.div_eq_of_lt hk]; omega
  · rw [Nat.add_comm, Nat.add_mul_mod_self_right, Nat.mod_eq_of_lt hk]

theorem TDMA.adj_coords {rows cols r k r' k' : Nat} (hr : r < rows) (hk : k < cols)
    (hr' : r' < rows) (hk' : k' < cols)
    (h : (r = r' ∧ (k + 1 = k' ∨ k' + 1 = k)) ∨ (k = k' ∧ (r + 1 = r' ∨ r' + 1 = r))) :
    MeshAdj rows cols (r * cols + k) (r' * cols + k') := by
  obtain ⟨a1, a2, a3⟩ := coords hr hk
  obtain ⟨b1, b2, b3⟩ := coords hr' hk'
  unfold MeshAdj
  rw [a2, a3, b2, b3]
  exact ⟨a1, b1, h⟩

theorem TDMA.walk_exists {rows cols : Nat} : ∀ (n r k r' k' : Nat), r < rows → k < cols →
    r' < rows → k' < cols → ((r : Int) - r').natAbs + ((k : Int) - k').natAbs = n →
    MeshWalk rows cols n (r * cols + k) (r' * cols + k') := by
  intro n
  induction n with
  | zero =>
    intro r k r' k' _ _ _ _ h
    have h1 : r = r' := by omega
    have h2 : k = k' := by omega
    rw [h1, h2]; exact MeshWalk.refl _
  | succ n ih =>
    intro r k r' k' h1 h2 h3 h4 h
    rcases lt_trichotomy k k' with hk | hk | hk
    · exact (ih r k r' (k' - 1) h1 h2 h3 (by omega) (by omega)).step
        (adj_coords h3 (by omega) h3 h4 (by omega))
    · rcases lt_trichotomy r r' with hr | hr | hr
      · exact (ih r k (r' - 1) k' h1 h2 (by omega) h4 (by omega)).step
          (adj_coords (by omega) h4 h3 h4 (by omega))
      · omega
      · exact (ih r k (r' + 1) k' h1 h2 (by omega) h4 (by omega)).step
          (adj_coords (by omega) h4 h3 h4 (by omega))
    · exact (ih r k r' (k' + 1) h1 h2 h3 (by omega) (by omega)).step
        (adj_coords h3 (by omega) h3 h4 (by omega))

theorem TDMA.getDistance_square {n a b : Nat} (hn : 0 < n) :
    getDistance a b n n = some ((manhattan n a b : Nat) + 1 : Int) := by
  unfold getDistance manhattan
  rw [if_neg (by omega)]
  rw [Int.tdiv_eq_ediv_of_nonneg (by omega), Int.tdiv_eq_ediv_of_nonneg (by omega),
    Int.tmod_eq_emod_of_nonneg (by omega), Int.tmod_eq_emod_of_nonneg (by omega),
    Int.abs_eq_natAbs, Int.abs_eq_natAbs]
  push_cast
  rfl

/-- C37 on square meshes.  The result of `getDistance` between two nodes of an `n` by `n` mesh is
one more than the length of a shortest walk between them. -/
theorem C37_distance_partial (n a b : Nat) (ha : a < n * n) (hb : b < n * n) :
    ∃ d : Nat, getDistance a b n n = some ((d : Int) + 1) ∧
      IsLeast {k : Nat | MeshWalk n n k a b} d := by
  have hn : 0 < n := by
    rcases Nat.eq_zero_or_pos n with rfl | h
    · omega
    · exact h
  refine ⟨manhattan n a b, getDistance_square hn, ?_, fun k hk => walk_lower hk⟩
  have h1 : ∀ x : Nat, x < n * n → x / n < n := fun x hx => Nat.div_lt_of_lt_mul hx
  have h2 : ∀ x : Nat, x / n * n + x % n = x := fun x => Nat.div_add_mod' x n
  have := walk_exists (rows := n) (cols := n) _ (a / n) (a % n) (b / n) (b % n) (h1 a ha)
    (Nat.mod_lt _ hn) (h1 b hb) (Nat.mod_lt _ hn) rfl
  rw [h2, h2] at this
  exact this

/-- C37: on every mesh, square or not, the value is symmetric and satisfies the triangle
inequality. -/
theorem C37_metric (a b d rows cols ab ba bd ad : Int)
    (h1 : getDistance a b rows cols = some ab) (h2 : getDistance b a rows cols = some ba)
    (h3 : getDistance b d rows cols = some bd) (h4 : getDistance a d rows cols = some ad) :
    ab = ba ∧ ad ≤ ab + bd := by
  unfold getDistance at *
  split at h1
  · cases h1
  · rename_i hz
    rw [if_neg hz] at h2 h3 h4
    cases h1; cases h2; cases h3; cases h4
    refine ⟨by rw [abs_sub_comm (a.tdiv rows), abs_sub_comm (a.tmod cols)], ?_⟩
    have := abs_sub_le (a.tdiv rows) (b.tdiv rows) (d.tdiv rows)
    have := abs_sub_le (a.tmod cols) (b.tmod cols) (d.tmod cols)
    omega

/-- On a mesh of two rows and three columns the value is wrong: nodes 2 and 3 are three hops
apart, like nodes 0 and 5, but they get different distances. -/
theorem C37_rectangular_counterexample :
    IsLeast {k : Nat | MeshWalk 2 3 k 2 3} 3 ∧ IsLeast {k : Nat | MeshWalk 2 3 k 0 5} 3 ∧
      getDistance 2 3 2 3 = some 3 ∧ getDistance 0 5 2 3 = some 5 := by
  refine ⟨⟨?_, fun k hk => walk_lower hk⟩, ⟨?_, fun k hk => walk_lower hk⟩, by decide, by decide⟩
  · exact walk_exists (rows := 2) (cols := 3) 3 0 2 1 0 (by omega) (by omega) (by omega) (by omega)
      (by decide)
  · exact walk_exists (rows := 2) (cols := 3) 3 0 0 1 2 (by omega) (by omega) (by omega) (by omega)
      (by decide)

example : getDistance 1 14 4 4 = some 5 ∧ IsLeast {k : Nat | MeshWalk 4 4 k 1 14} 4 :=
  ⟨by decide, by
    obtain ⟨d, h1, h2⟩ := C37_distance_partial 4 1 14 (by omega) (by omega)
    have : getDistance (1 : Nat) (14 : Nat) (4 : Nat) (4 : Nat) = some 5 := by decide
    rw [this] at h1
    have : d = 4 := by simp at h1; omega
    rw [this] at h2
    exact h2⟩

/-! ### C58: what the replay prints is a correct schedule -/

theorem TDMA.delivered_iff {s : St} {p : Nat} : Delivered s p ↔ ¬ queued s p := by
  unfold Delivered queued
  simp only [List.mem_map]
  constructor
  · rintro h ⟨e, he, h'⟩; exact h e he h'
  · rintro h e he h'; exact h ⟨e, he, h'⟩

/-- C58.  At any point of the replay of any well-formed list of packets, for every packet that
has been delivered: its dependencies were delivered before the recorded cycle `deps`; the
computation ended exactly `duration` later; a packet that stays on its node is delivered then; a
packet that crosses the network leaves in a cycle of its own slot, not before the computation has
ended, and arrives after the number of cycles given by `getDistance`. -/
theorem C58_packet_dates (c : Cfg) (hc : c.Ok) (n : Nat) (s : St) (hs : run c n = some s)
    (p : Nat) (pk : Packet) (hp : c.pkts[p]? = some pk) (hd : Delivered s p) :
    (∀ d ∈ pk.deps, Delivered s d ∧ (s.prof d).data ≤ (s.prof p).deps) ∧
    0 ≤ (s.prof p).deps ∧
    (s.prof p).comp = (s.prof p).deps + pk.duration ∧
    (pk.src = pk.dest → (s.prof p).slot = (s.prof p).comp ∧ (s.prof p).data = (s.prof p).comp) ∧
    (pk.src ≠ pk.dest → (s.prof p).comp ≤ (s.prof p).slot ∧
      (s.prof p).slot % c.total = c.slot (c.key pk) ∧
      some (s.prof p).data = (getDistance pk.src pk.dest c.rows c.cols).map ((s.prof p).slot + ·)) := by
  obtain ⟨s', now, h1, hi⟩ := run_inv hc n
  rw [hs] at h1
  cases h1
  have hf := hi.fin p pk hp (delivered_iff.1 hd)
  refine ⟨?_, hf.started.1, hf.comp, ?_, ?_⟩
  · intro d hdm
    have hr := hf.started.2.1 d hdm
    have hdl := hc.deps pk (List.mem_of_getElem? hp) d hdm
    have hdel : Delivered s d := by
      intro e he hed
      exact hr.1 (by rw [← hed]; exact (hi.pend e he _ (List.getElem?_eq_getElem (hi.lt e he))).done)
    refine ⟨hdel, ?_⟩
    rw [(hi.fin d _ (List.getElem?_eq_getElem hdl) (delivered_iff.1 hdel)).data]
    exact hr.2
  · intro h
    obtain ⟨a, b⟩ := hf.loc h
    exact ⟨a, by rw [b, a]⟩
  · intro h
    obtain ⟨a, ⟨d, hd1, hd2⟩, _⟩ := hf.rem h
    exact ⟨hf.slot, a, by rw [hd1, hd2]; rfl⟩

/-- C58.  Two packets with the same source and destination never leave in the same cycle. -/
theorem C58_exclusive (c : Cfg) (hc : c.Ok) (n : Nat) (s : St) (hs : run c n = some s)
    (p q : Nat) (pk qk : Packet) (hp : c.pkts[p]? = some pk) (hq : c.pkts[q]? = some qk)
    (hdp : Delivered s p) (hdq : Delivered s q) (hne : p ≠ q)
    (h1 : pk.src = qk.src) (h2 : pk.dest = qk.dest) (h3 : pk.src ≠ pk.dest) :
    (s.prof p).slot ≠ (s.prof q).slot := by
  obtain ⟨s', now, h, hi⟩ := run_inv hc n
  rw [hs] at h
  cases h
  exact hi.excl p q pk qk hp hq (delivered_iff.1 hdp) (delivered_iff.1 hdq) h3
    (by rw [← h1, ← h2]; exact h3) (by unfold Cfg.key; rw [h1, h2]) hne

/-- C58.  No waiting without a reason: the dependencies are seen at most one cycle after the last
of them is delivered, and every occurrence of the slot between the end of the computation and the
departure was used by another packet with the same source and destination. -/
theorem C58_no_idle (c : Cfg) (hc : c.Ok) (n : Nat) (s : St) (hs : run c n = some s)
    (p : Nat) (pk : Packet) (hp : c.pkts[p]? = some pk) (hd : Delivered s p) :
    ((s.prof p).deps = 0 ∨ ∃ d ∈ pk.deps, (s.prof p).deps ≤ (s.prof d).data + 1) ∧
    (pk.src ≠ pk.dest → ∀ t, (s.prof p).comp ≤ t → t < (s.prof p).slot →
      t % c.total = c.slot (c.key pk) →
      ∃ q qk, c.pkts[q]? = some qk ∧ Delivered s q ∧ q ≠ p ∧ qk.src = pk.src ∧ qk.dest = pk.dest ∧
        (s.prof q).slot = t) := by
  obtain ⟨s', now, h1, hi⟩ := run_inv hc n
  rw [hs] at h1
  cases h1
  have hf := hi.fin p pk hp (delivered_iff.1 hd)
  have hdel : ∀ q, s.done q ≠ -1 → Delivered s q := by
    intro q hq e he hed
    exact hq (by rw [← hed]; exact (hi.pend e he _ (List.getElem?_eq_getElem (hi.lt e he))).done)
  refine ⟨?_, ?_⟩
  · rcases hf.started.2.2 with h | ⟨d, hdm, h⟩
    · exact Or.inl h
    · refine Or.inr ⟨d, hdm, ?_⟩
      have hdl := hc.deps pk (List.mem_of_getElem? hp) d hdm
      rw [(hi.fin d _ (List.getElem?_eq_getElem hdl)
        (delivered_iff.1 (hdel d (hf.started.2.1 d hdm).1))).data]
      omega
  · intro hr t h1 h2 h3
    obtain ⟨q, qk, a1, a2, a3, a4, a5⟩ := (hf.rem hr).2.2 t h1 h2 h3
    obtain ⟨b1, b2⟩ := key_inj hc (List.mem_of_getElem? a1) (List.mem_of_getElem? hp) a4
    exact ⟨q, qk, a1, hdel q a2, by rintro rfl; omega, b1, b2, a5⟩

/-! ### C59: the replay ends -/

/-- C59.  A well-formed input never makes the loop read outside its tables, and if the
dependencies have no cycle (some ranking decreases along them) the loop ends, with every packet
delivered. -/
theorem C59_terminates (c : Cfg) (hc : c.Ok) (rank : Nat → Nat)
    (hrank : ∀ p pk, c.pkts[p]? = some pk → ∀ d ∈ pk.deps, rank d < rank p) :
    (∀ n, run c n ≠ none) ∧ ∃ n s, run c n = some s ∧ s.heap = [] ∧ ∀ p, Delivered s p := by
  refine ⟨?_, ?_⟩
  · intro n h
    obtain ⟨s, now, h1, _⟩ := run_inv hc n
    rw [h] at h1
    cases h1
  · obtain ⟨n, s, now, h1, h2, _⟩ := terminates hc hrank
    exact ⟨n, s, h1, h2, by intro p e he; rw [h2] at he; cases he⟩

/-- C59, the converse: packets that depend on each other are never delivered, so that the loop
never ends. -/
theorem C59_cyclic_never_ends (c : Cfg) (hc : c.Ok) (S : Nat → Prop) (p0 : Nat) (h0 : S p0)
    (hS : ∀ p, S p → ∃ pk, c.pkts[p]? = some pk ∧ 0 < pk.duration ∧ ∃ d ∈ pk.deps, S d)
    (n : Nat) (s : St) (hs : run c n = some s) : s.heap ≠ [] := by
  intro hemp
  have hdel : ∀ p, Delivered s p := by intro p e he; rw [hemp] at he; cases he
  -- delivery dates strictly decrease along the dependencies
  have hdec : ∀ p, S p → ∃ d, S d ∧ 0 ≤ (s.prof p).data ∧ (s.prof d).data < (s.prof p).data := by
    intro p hp
    obtain ⟨pk, hpk, hpos, d, hd, hSd⟩ := hS p hp
    obtain ⟨h1, h2, h3, h4, h5⟩ := C58_packet_dates c hc n s hs p pk hpk (hdel p)
    have hle := (h1 d hd).2
    refine ⟨d, hSd, ?_⟩
    by_cases hl : pk.src = pk.dest
    · have := (h4 hl).2
      omega
    · obtain ⟨a1, a2, a3⟩ := h5 hl
      obtain ⟨dd, e1, e2⟩ := getDistance_some hc (pk.src : Int) pk.dest
      rw [e1] at a3
      simp at a3
      omega
  have : ∀ (m : Nat) (p : Nat), S p → (s.prof p).data.toNat = m → False := by
    intro m
    induction m using Nat.strong_induction_on with
    | _ m ih =>
      intro p hp hm
      obtain ⟨d, hd, h1, h2⟩ := hdec p hp
      obtain ⟨_, _, h3, _⟩ := hdec d hd
      exact ih _ (by omega) d hd rfl
  exact this _ p0 h0 rfl

/-! A concrete input: a 2 by 2 mesh, four slots; packet 0 is computed on node 0 and sent to node 3,
packet 1 uses the same route, packet 2 stays on node 3 and waits for both. -/

def TDMA.exampleCfg : Cfg where
  rows := 2
  cols := 2
  total := 4
  slot := fun k => if k = 3 then 2 else -1
  pkts := [⟨0, 3, 5, []⟩, ⟨0, 3, 5, []⟩, ⟨3, 3, 2, [0, 1]⟩]

theorem TDMA.exampleCfg_ok : exampleCfg.Ok := by
  refine ⟨by decide, by decide, by decide, ?_, ?_, ?_, ?_⟩ <;> decide

example : (run exampleCfg 60).map (fun s => (s.heap, (List.range 3).map s.prof)) =
    some ([], [⟨0, 5, 6, 9⟩, ⟨0, 5, 10, 13⟩, ⟨13, 15, 15, 15⟩]) := by decide +kernel

example : ∃ n s, run exampleCfg n = some s ∧ s.heap = [] ∧ ∀ p, Delivered s p := by
  refine (C59_terminates exampleCfg exampleCfg_ok id ?_).2
  intro p pk hp d hd
  have hlt := (List.getElem?_eq_some_iff.1 hp).1
  change p < 3 at hlt
  interval_cases p <;> simp [exampleCfg] at hp <;> subst hp <;> simp at hd
  rcases hd with rfl | rfl <;> decide

/-- Two packets waiting for each other. -/
def TDMA.cyclicCfg : Cfg where
  rows := 2
  cols := 2
  total := 4
  slot := fun k => if k = 3 then 2 else -1
  pkts := [⟨0, 0, 5, [1]⟩, ⟨0, 3, 5, [0]⟩]

example (n : Nat) (s : St) (hs : run cyclicCfg n = some s) : s.heap ≠ [] := by
  refine C59_cyclic_never_ends cyclicCfg ?_ (fun p => p < 2) 0 (by decide) ?_ n s hs
  · refine ⟨by decide, by decide, by decide, ?_, ?_, ?_, ?_⟩ <;> decide
  · intro p hp
    have : p = 0 ∨ p = 1 := by omega
    rcases this with rfl | rfl
    · exact ⟨_, rfl, by decide, 1, by decide, by decide⟩
    · exact ⟨_, rfl, by decide, 0, by decide, by decide⟩

end Kiter
