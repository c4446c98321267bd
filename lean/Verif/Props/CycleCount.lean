/-
C97: the cycles printed by the command CycleCount.
-/
import Verif.Lemmas.CycleCount
import Verif.Props.SCC
import Mathlib.Data.List.Induction
import Mathlib.Data.List.Rotate

set_option autoImplicit false

namespace Kiter
namespace CycleCount

theorem trail_append {p q : List Channel} : ∀ {u v : Int}, Trail u (p ++ q) v ↔ ∃ w, Trail u p w ∧ Trail w q v := by
  induction p with
  | nil => intro u v; simp [Trail]
  | cons c p ih =>
    intro u v
    simp only [List.cons_append, Trail, ih]
    constructor
    · rintro ⟨h, w, h1, h2⟩
      exact ⟨w, ⟨h, h1⟩, h2⟩
    · rintro ⟨w, ⟨h, h1⟩, h2⟩
      exact ⟨h, w, h1, h2⟩

theorem trail_reach {g : Graph} {p : List Channel} : ∀ {u v : Int}, Trail u p v → (∀ c ∈ p, c ∈ g.channels) → SCC.Reach g.toSCC u v := by
  induction p with
  | nil => intro u v h _; cases h; exact .refl
  | cons c p ih =>
    intro u v h hc
    refine .head ?_ (ih h.2 fun d hd => hc d (by simp [hd]))
    rw [← h.1]
    exact List.mem_map.2 ⟨c, hc c (by simp), rfl⟩

/-- The tasks of channels that lead somewhere: each is reached, and reaches the end. -/
theorem trail_split {u v : Int} {p : List Channel} (h : Trail u p v) {c : Channel} (hc : c ∈ p) :
    ∃ a b, p = a ++ c :: b ∧ Trail u a c.src ∧ Trail c.src (c :: b) v := by
  obtain ⟨a, b, rfl⟩ := List.append_of_mem hc
  obtain ⟨w, h1, h2⟩ := trail_append.1 h
  obtain rfl : c.src = w := h2.1
  exact ⟨a, b, rfl, h1, h2⟩

theorem simple_trail {g : Graph} {y m : Int} (h : SCC.Reach g.toSCC y m) :
    ∃ q, Trail y q m ∧ (∀ c ∈ q, c ∈ g.channels) ∧ (q.map fun c => c.src).Nodup ∧ ∀ c ∈ q, c.src ≠ m := by
  induction h using Relation.ReflTransGen.head_induction_on with
  | refl => exact ⟨[], rfl, by simp, by simp, by simp⟩
  | @head y z hyz _ ih =>
    obtain ⟨q, h1, h2, h3, h4⟩ := ih
    obtain ⟨c, hc, e⟩ := List.mem_map.1 hyz
    obtain ⟨rfl, rfl⟩ : c.src = y ∧ c.dst = z := by simpa using e
    by_cases hm : c.src = m
    · exact ⟨[], hm, by simp, by simp, by simp⟩
    · by_cases hq : c.src ∈ q.map fun c => c.src
      · obtain ⟨d, hd, e⟩ := List.mem_map.1 hq
        obtain ⟨a, b, rfl, -, h5⟩ := trail_split h1 hd
        refine ⟨d :: b, e ▸ h5, fun x hx => h2 x (by simp [List.mem_cons.1 hx]), h3.sublist ?_, fun x hx => h4 x ?_⟩
        · exact (List.sublist_append_right _ _).map _
        · simp [List.mem_cons.1 hx]
      · refine ⟨c :: q, ⟨rfl, h1⟩, ?_, ?_, ?_⟩
        · intro x hx
          rcases List.mem_cons.1 hx with rfl | hx
          · exact hc
          · exact h2 x hx
        · rw [List.map_cons, List.nodup_cons]
          exact ⟨hq, h3⟩
        · intro x hx
          rcases List.mem_cons.1 hx with rfl | hx
          · exact hm
          · exact h4 x hx

theorem leave {α : Type} {r : α → α → Prop} {a b : α} (h : Relation.ReflTransGen r a b) (hab : a ≠ b) :
    ∃ y, y ≠ a ∧ r a y ∧ Relation.ReflTransGen r y b := by
  induction h with
  | refl => exact absurd rfl hab
  | @tail c b _ hcb ih =>
    by_cases hc : a = c
    · subst hc
      exact ⟨b, hab.symm, hcb, .refl⟩
    · obtain ⟨y, h1, h2, h3⟩ := ih hc
      exact ⟨y, h1, h2, h3.tail hcb⟩

/-- A task on a circuit through another one is on a simple cycle of two channels or more. -/
theorem cycle_exists {g : Graph} {m x : Int} (hx : m ≠ x) (h1 : SCC.Reach g.toSCC m x) (h2 : SCC.Reach g.toSCC x m) :
    ∃ p, IsCycle g p ∧ 2 ≤ p.length ∧ ∃ c q, p = c :: q ∧ c.src = m := by
  obtain ⟨y, hy, hmy, hyx⟩ := leave h1 hx
  obtain ⟨c, hc, e⟩ := List.mem_map.1 hmy
  obtain ⟨rfl, rfl⟩ : c.src = m ∧ c.dst = y := by simpa using e
  obtain ⟨q, k1, k2, k3, k4⟩ := simple_trail (g := g) (hyx.trans h2)
  refine ⟨c :: q, ⟨by simp, ?_, ⟨c.src, rfl, k1⟩, ?_⟩, ?_, c, q, rfl, rfl⟩
  · intro d hd
    rcases List.mem_cons.1 hd with rfl | hd
    · exact hc
    · exact k2 d hd
  · rw [List.map_cons, List.nodup_cons]
    refine ⟨fun hm => ?_, k3⟩
    obtain ⟨d, hd, e⟩ := List.mem_map.1 hm
    exact k4 d hd e
  · cases q with
    | nil => exact absurd k1 hy
    | cons d q => simp

theorem minElement_spec {l : List Int} (hl : l ≠ []) : ∃ m, minElement l = some m ∧ m ∈ l ∧ ∀ x ∈ l, m ≤ x := by
  cases l with
  | nil => exact absurd rfl hl
  | cons a l =>
    have : ∀ (l : List Int) (a : Int), l.foldl (fun m x => if x < m then x else m) a ∈ a :: l ∧
        ∀ x ∈ a :: l, l.foldl (fun m x => if x < m then x else m) a ≤ x := by
      intro l
      induction l with
      | nil => intro a; simp
      | cons b l ih =>
        intro a
        obtain ⟨h1, h2⟩ := ih (if b < a then b else a)
        rw [List.foldl_cons]
        generalize l.foldl (fun m x => if x < m then x else m) (if b < a then b else a) = r at h1 h2
        have h3 := h2 _ (List.mem_cons_self ..)
        refine ⟨?_, ?_⟩
        · rcases List.mem_cons.1 h1 with h | h
          · rw [h]; split <;> simp
          · simp [h]
        · intro x hx
          rcases List.mem_cons.1 hx with rfl | hx
          · split at h3 <;> omega
          · rcases List.mem_cons.1 hx with rfl | hx
            · split at h3 <;> omega
            · exact h2 x (by simp [hx])
    exact ⟨_, rfl, this l a⟩

theorem smallest_spec (cs : List (List Int)) :
    (smallest cs = none ∧ ∀ c ∈ cs, ¬ 1 < c.length) ∨
    ∃ m, smallest cs = some m ∧ (∃ c ∈ cs, 1 < c.length ∧ m ∈ c) ∧ ∀ c ∈ cs, 1 < c.length → ∀ x ∈ c, m ≤ x := by
  unfold smallest
  induction cs using List.reverseRecOn with
  | nil => left; simp
  | append_singleton cs c ih =>
    rw [List.foldl_append, List.foldl_cons, List.foldl_nil]
    generalize cs.foldl _ _ = r at ih ⊢
    by_cases hc : c.length > 1
    · right
      rw [if_pos hc]
      obtain ⟨a, e, h1, h2⟩ := minElement_spec (l := c) (by rintro rfl; simp at hc)
      rcases ih with ⟨rfl, ih⟩ | ⟨m, rfl, ⟨d, hd, hd1, hd2⟩, ih⟩
      · refine ⟨a, by simp [e], ⟨c, by simp, hc, h1⟩, fun d hd hl x hx => ?_⟩
        rcases List.mem_append.1 hd with h | h
        · exact absurd hl (ih d h)
        · rw [List.mem_singleton.1 h] at hx
          exact h2 x hx
      · by_cases ham : a < m
        · refine ⟨a, by simp [e, ham], ⟨c, by simp, hc, h1⟩, fun d hd hl x hx => ?_⟩
          rcases List.mem_append.1 hd with h | h
          · have := ih d h hl x hx
            omega
          · rw [List.mem_singleton.1 h] at hx
            exact h2 x hx
        · refine ⟨m, by simp [e, ham], ⟨d, by simp [hd], hd1, hd2⟩, fun d hd hl x hx => ?_⟩
          rcases List.mem_append.1 hd with h | h
          · exact ih d h hl x hx
          · rw [List.mem_singleton.1 h] at hx
            have := h2 x hx
            omega
    · rw [if_neg hc]
      rcases ih with ⟨rfl, ih⟩ | ⟨m, rfl, ⟨d, hd, hd1, hd2⟩, ih⟩
      · left
        refine ⟨rfl, fun d hd => ?_⟩
        rcases List.mem_append.1 hd with h | h
        · exact ih d h
        · rw [List.mem_singleton.1 h]; exact hc
      · right
        refine ⟨m, rfl, ⟨d, by simp [hd], hd1, hd2⟩, fun d hd hl x hx => ?_⟩
        rcases List.mem_append.1 hd with h | h
        · exact ih d h hl x hx
        · rw [List.mem_singleton.1 h] at hl
          exact absurd hl hc

theorem keep_valid {g : Graph} (hg : Valid g) (p : Int → Bool) : Valid (g.keep p) where
  tasks := hg.tasks.filter _
  chans := hg.chans.sublist (List.filter_sublist.map _)
  ends := by
    intro c hc
    simp only [Graph.keep, List.mem_filter, Bool.and_eq_true] at hc ⊢
    exact ⟨⟨(hg.ends c hc.1).1, hc.2.1⟩, ⟨(hg.ends c hc.1).2, hc.2.2⟩⟩

theorem scc_valid {g : Graph} (hg : Valid g) : SCC.Valid g.toSCC := by
  refine ⟨hg.tasks, fun e he => ?_⟩
  obtain ⟨c, hc, rfl⟩ := List.mem_map.1 he
  exact hg.ends c hc

theorem mem_keep {g : Graph} {p : Int → Bool} {c : Channel} :
    c ∈ (g.keep p).channels ↔ c ∈ g.channels ∧ p c.src = true ∧ p c.dst = true := by
  simp [Graph.keep]

/-- The channels of a cycle end in tasks from which channels of the cycle start. -/
theorem dst_mem {p : List Channel} {u v : Int} (h : Trail u p v) {c : Channel} (hc : c ∈ p) : c.dst = v ∨ ∃ d ∈ p, d.src = c.dst := by
  obtain ⟨a, b, rfl, -, h2⟩ := trail_split h hc
  have h3 : Trail c.dst b v := h2.2
  cases b with
  | nil => exact .inl h3
  | cons d b => exact .inr ⟨d, by simp, h3.1⟩

/-- A cycle from its least task `m`, as the rounds of the command look for it. -/
structure From (g : Graph) (m : Int) (p : List Channel) : Prop where
  cycle : IsCycle g p
  trail : Trail m p m
  least : ∀ c ∈ p, m ≤ c.src

theorem IsCycle.from {g : Graph} {p : List Channel} (h : IsCycle g p) (hl : LeastFirst p) : ∃ c q, p = c :: q ∧ From g c.src p := by
  cases p with
  | nil => exact absurd rfl h.nonempty
  | cons c q =>
    obtain ⟨u, hu⟩ := h.closed
    exact ⟨c, q, rfl, h, hu.1 ▸ hu, hl c rfl⟩

theorem From.leastFirst {g : Graph} {m : Int} {p : List Channel} (h : From g m p) : LeastFirst p := by
  intro a ha c hc
  cases p with
  | nil => simp at ha
  | cons d q =>
    obtain rfl : d = a := by simpa using ha
    rw [h.trail.1]
    exact h.least c hc

/-- All the tasks of a cycle are in the graph of the tasks from its least one on, where they reach each other. -/
theorem From.reach {g : Graph} {m start : Int} {p : List Channel} (h : From g m p) (hs : start ≤ m) :
    (∀ c ∈ p, c ∈ (subgraph g start).channels) ∧ ∀ c ∈ p, SCC.Reach (subgraph g start).toSCC m c.src ∧
      SCC.Reach (subgraph g start).toSCC c.src m := by
  have h1 : ∀ c ∈ p, c ∈ (subgraph g start).channels := by
    intro c hc
    rw [subgraph, mem_keep]
    refine ⟨h.cycle.chans c hc, by simpa using hs.trans (h.least c hc), ?_⟩
    rcases dst_mem h.trail hc with e | ⟨d, hd, e⟩
    · simpa [e] using hs
    · rw [← e]
      simpa using hs.trans (h.least d hd)
  refine ⟨h1, fun c hc => ?_⟩
  obtain ⟨a, b, rfl, k1, k2⟩ := trail_split h.trail hc
  exact ⟨trail_reach k1 fun d hd => h1 d (by simp [hd]), trail_reach k2 fun d hd => h1 d (by simp [List.mem_cons.1 hd])⟩

theorem From.second {g : Graph} {m : Int} {p : List Channel} (h : From g m p) (h2 : 2 ≤ p.length) : ∃ c ∈ p, c.src ≠ m := by
  match p, h, h2 with
  | c :: d :: q, h, _ =>
    refine ⟨d, by simp, fun e => ?_⟩
    have := h.cycle.simple
    rw [List.map_cons, List.nodup_cons] at this
    exact this.1 (by rw [h.trail.1, ← e]; simp)

/-- A round: the cycles whose least task is the smallest one of the components. -/
theorem round_spec {g : Graph} (hg : Valid g) {start m : Int} {cs : List (List Int)}
    (hcs : cs.flatten.Perm (subgraph g start).ids ∧ ∀ c ∈ cs, ∀ u ∈ c, ∀ v, v ∈ c ↔ SCC.Reach (subgraph g start).toSCC u v ∧
      SCC.Reach (subgraph g start).toSCC v u)
    (hm : (∃ c ∈ cs, 1 < c.length ∧ m ∈ c) ∧ ∀ c ∈ cs, 1 < c.length → ∀ x ∈ c, m ≤ x) (cycles : List (List Int)) :
    start ≤ m ∧ ∃ L : List (List Channel), L.Nodup ∧ (∀ p, p ∈ L ↔ From g m p) ∧
      round (subgraph g start) cs m cycles = some (cycles ++ L.map tasksOf) := by
  obtain ⟨⟨c', hc', hl', hm'⟩, hleast⟩ := hm
  have hsub : ∀ c ∈ cs, ∀ x ∈ c, x ∈ (subgraph g start).ids := fun c hc x hx => hcs.1.mem_iff.1 (List.mem_flatten.2 ⟨c, hc, hx⟩)
  have hms : start ≤ m := by simpa [subgraph, Graph.keep] using (List.mem_filter.1 (hsub c' hc' m hm')).2
  refine ⟨hms, ?_⟩
  obtain ⟨c, hf⟩ : ∃ c, (cs.find? fun c => decide (m ∈ c)) = some c := by
    rw [← Option.isSome_iff_exists, List.find?_isSome]
    exact ⟨c', hc', by simpa using hm'⟩
  have hc := List.mem_of_find?_eq_some hf
  have hmc : m ∈ c := by simpa using List.find?_some hf
  have hmle : ∀ x ∈ c, m ≤ x := fun x hx =>
    hleast c' hc' hl' x ((hcs.2 c' hc' m hm' x).2 ((hcs.2 c hc m hmc x).1 hx))
  set sub := subgraph g start with hsubdef
  set scc := sub.keep fun i => decide (i ∈ c) with hscc
  have vscc : Valid scc := keep_valid (keep_valid hg _) _
  have mscc : m ∈ scc.ids := by
    rw [hscc]
    simp only [Graph.keep, List.mem_filter, decide_eq_true_eq]
    exact ⟨hsub c hc m hmc, hmc⟩
  obtain ⟨found, s', e, -, -, -, L, h1, h2, h3⟩ := visit_spec vscc m scc.ids.length [] m ⟨[], fun _ => [], cycles⟩ (by simp)
    (by simpa using mscc) (by simp) (by simp) (by simp) ⟨by simp, by simp, by simp⟩
  refine ⟨L, h1, fun p => ?_, ?_⟩
  · rw [h2]
    constructor
    · intro h
      have hp : ∀ d ∈ p, d ∈ g.channels ∧ m ≤ d.src := by
        intro d hd
        obtain ⟨k1, k2, -⟩ := mem_keep.1 (h.chans d hd)
        exact ⟨(mem_keep.1 k1).1, hmle _ (by simpa using k2)⟩
      refine ⟨⟨h.nonempty, fun d hd => (hp d hd).1, ⟨m, h.trail⟩, ?_⟩, h.trail, fun d hd => (hp d hd).2⟩
      cases p with
      | nil => simp
      | cons d q =>
        rw [List.map_cons, List.nodup_cons]
        refine ⟨fun hm => ?_, h.simple⟩
        obtain ⟨x, hx, e⟩ := List.mem_map.1 hm
        exact h.fresh x hx (by simp [e, h.trail.1])
    · intro h
      obtain ⟨k1, k2⟩ := h.reach hms
      have hin : ∀ d ∈ p, d.src ∈ c := fun d hd => (hcs.2 c hc m hmc _).2 (k2 d hd)
      refine ⟨h.cycle.nonempty, fun d hd => mem_keep.2 ⟨k1 d hd, by simpa using hin d hd, ?_⟩, h.trail, ?_, ?_⟩
      · rcases dst_mem h.trail hd with e | ⟨x, hx, e⟩
        · simpa [e] using hmc
        · rw [← e]; simpa using hin x hx
      · exact h.cycle.simple.sublist ((List.tail_sublist p).map _)
      · intro d hd
        have := h.cycle.simple
        cases p with
        | nil => simp at hd
        | cons x q =>
          rw [List.map_cons, List.nodup_cons] at this
          intro hm
          refine this.1 (List.mem_map.2 ⟨d, hd, ?_⟩)
          rw [h.trail.1]
          simpa using hm
  · unfold round sccOf
    rw [hf, Option.map_some, Option.bind_some, ← hscc, e, Option.map_some, h3]
    congr 2
    refine List.map_congr_left fun p hp => ?_
    have := (h2 p).1 hp
    cases p with
    | nil => exact absurd rfl this.nonempty
    | cons d q => simp [tasksOf, this.trail.1]

theorem rounds_spec {g : Graph} (hg : Valid g) (hids : ∀ i ∈ g.ids, i ≤ g.ids.length) (n : ℕ) : ∀ (start : Int) (cycles : List (List Int)),
    (g.ids.length : Int) + 1 < n + start → 0 < n → ∃ L : List (List Channel), L.Nodup ∧
      (∀ p, p ∈ L ↔ ∃ m, start ≤ m ∧ From g m p ∧ ∃ q, From g m q ∧ 2 ≤ q.length) ∧
      rounds g n start cycles = some (cycles ++ L.map tasksOf) := by
  induction n with
  | zero => exact fun _ _ _ h => absurd h (lt_irrefl 0)
  | succ n ih =>
    intro start cycles hn _
    unfold rounds
    by_cases hs : start ≤ g.ids.length
    · rw [if_pos hs]
      obtain ⟨cs, e, hperm, -, hcs⟩ := C43_exact _ (scc_valid (keep_valid hg fun i => decide (¬ i < start)))
      rw [show (subgraph g start).toSCC = (g.keep fun i => decide (¬ i < start)).toSCC from rfl, e, Option.bind_some]
      -- a cycle of two channels is in a component of two tasks
      have big : ∀ m q, start ≤ m → From g m q → 2 ≤ q.length → ∃ c ∈ cs, 1 < c.length ∧ m ∈ c := by
        intro m q hm hq h2
        obtain ⟨d, hd, hdm⟩ := hq.second h2
        obtain ⟨k1, k2⟩ := hq.reach hm
        have hmid : m ∈ cs.flatten := by
          rw [hperm.mem_iff]
          obtain ⟨x, l, rfl⟩ : ∃ x l, q = x :: l := by
            cases q with
            | nil => simp at h2
            | cons x l => exact ⟨x, l, rfl⟩
          rw [← hq.trail.1]
          exact ((keep_valid hg _).ends x (k1 x (by simp))).1
        obtain ⟨c, hc, hmc⟩ := List.mem_flatten.1 hmid
        have hdc : d.src ∈ c := (hcs c hc m hmc _).2 (k2 d hd)
        refine ⟨c, hc, ?_, hmc⟩
        match c, hmc, hdc with
        | [x], h1, h2 => exact absurd ((List.mem_singleton.1 h2).trans (List.mem_singleton.1 h1).symm) hdm
        | _ :: _ :: _, _, _ => simp
      rcases smallest_spec cs with ⟨e2, hno⟩ | ⟨m, e2, hm⟩
      · rw [e2]
        refine ⟨[], by simp, fun p => ⟨fun h => by simp at h, ?_⟩, by simp⟩
        rintro ⟨m, hm, -, q, hq, h2⟩
        obtain ⟨c, hc, hl, -⟩ := big m q hm hq h2
        exact absurd hl (hno c hc)
      · rw [e2]
        obtain ⟨hms, L, h1, h2, h3⟩ := round_spec hg ⟨hperm, hcs⟩ hm cycles
        have hmid : m ∈ g.ids := by
          obtain ⟨c, hc, -, hmc⟩ := hm.1
          exact (List.mem_filter.1 (hperm.mem_iff.1 (List.mem_flatten.2 ⟨c, hc, hmc⟩))).1
        have hmn : m ≤ g.ids.length := hids m hmid
        -- some cycle of two channels or more starts there
        have hex : ∃ q, From g m q ∧ 2 ≤ q.length := by
          obtain ⟨c, hc, hl, hmc⟩ := hm.1
          obtain ⟨x, hx, hxm⟩ : ∃ x ∈ c, m ≠ x := by
            by_contra hn
            push Not at hn
            have hnd : c.Nodup := by
              have h : cs.flatten.Nodup := hperm.nodup_iff.2 (keep_valid hg _).tasks
              exact (List.nodup_flatten.1 h).1 c hc
            match c, hl, hn, hnd with
            | a :: b :: l, _, hn, hnd =>
              have e1 := hn a (by simp)
              have e2 := hn b (by simp)
              rw [← e1, ← e2] at hnd
              simp at hnd
          obtain ⟨r1, r2⟩ := (hcs c hc m hmc x).1 hx
          obtain ⟨p, hp, hp2, d, q, rfl, hd⟩ := cycle_exists hxm r1 r2
          have hsub : ∀ y ∈ d :: q, SCC.Reach (g.keep fun i => decide (¬ i < start)).toSCC m y.src ∧
              SCC.Reach (g.keep fun i => decide (¬ i < start)).toSCC y.src m := by
            intro y hy
            obtain ⟨u, hu⟩ := hp.closed
            have hu' : Trail m (d :: q) m := by rw [← hd, hu.1]; exact hu
            obtain ⟨a, b, e, k1, k2⟩ := trail_split hu' hy
            rw [e] at hp
            exact ⟨trail_reach k1 fun z hz => hp.chans z (by simp [hz]), trail_reach k2 fun z hz => hp.chans z (by simp [List.mem_cons.1 hz])⟩
          refine ⟨d :: q, ⟨⟨hp.nonempty, fun y hy => (mem_keep.1 (hp.chans y hy)).1, hp.closed, hp.simple⟩, ?_, ?_⟩, hp2⟩
          · obtain ⟨u, hu⟩ := hp.closed
            rw [← hd, hu.1]
            exact hu
          · intro y hy
            exact hm.2 c hc hl _ ((hcs c hc m hmc _).2 (hsub y hy))
        have hrest : ∃ M : List (List Channel), M.Nodup ∧ (∀ p, p ∈ M ↔ ∃ k, m + 1 ≤ k ∧ From g k p ∧ ∃ q, From g k q ∧ 2 ≤ q.length) ∧
            rounds g n (m + 1) (cycles ++ L.map tasksOf) = some (cycles ++ L.map tasksOf ++ M.map tasksOf) :=
          ih (m + 1) _ (by push_cast at hn; omega) (by push_cast at hn; omega)
        obtain ⟨M, h4, h5, h6⟩ := hrest
        have huniq : ∀ {a b : Int} {p : List Channel}, From g a p → From g b p → a = b := by
          intro a b p ha hb
          cases p with
          | nil => exact absurd rfl ha.cycle.nonempty
          | cons c q => rw [← ha.trail.1, hb.trail.1]
        refine ⟨L ++ M, ?_, fun p => ?_, ?_⟩
        · rw [List.nodup_append]
          refine ⟨h1, h4, fun p hp q hq e => ?_⟩
          subst e
          obtain ⟨k, hk, hk2, -⟩ := (h5 p).1 hq
          have := huniq ((h2 p).1 hp) hk2
          omega
        · rw [List.mem_append, h2, h5]
          constructor
          · rintro (h | ⟨k, hk, h⟩)
            · exact ⟨m, hms, h, hex⟩
            · exact ⟨k, by omega, h⟩
          · rintro ⟨k, hk, h, q, hq, hq2⟩
            have hmk : m ≤ k := by
              obtain ⟨c, hc, hl, hkc⟩ := big k q hk hq hq2
              exact hm.2 c hc hl k hkc
            rcases hmk.eq_or_lt with rfl | hlt
            · exact .inl h
            · exact .inr ⟨k, by omega, h, q, hq, hq2⟩
        · dsimp only
          rw [h3, Option.bind_some, h6, List.map_append, List.append_assoc]
    · rw [if_neg hs]
      refine ⟨[], by simp, fun p => ⟨fun h => by simp at h, ?_⟩, by simp⟩
      rintro ⟨m, hm, hp, -⟩
      exfalso
      obtain ⟨c, q, rfl⟩ : ∃ c q, p = c :: q := by
        cases p with
        | nil => exact absurd rfl hp.cycle.nonempty
        | cons c q => exact ⟨c, q, rfl⟩
      have h1 := hids _ (hg.ends c (hp.cycle.chans c (by simp))).1
      have h2 : c.src = m := hp.trail.1
      omega

end CycleCount

open CycleCount

/-- The command ends. It prints, after the cycles found by earlier calls, each simple cycle of two channels or more exactly once,
from its task of least id; a cycle of one channel, from a task to itself, is printed when the task is the least one of a longer
cycle. -/
theorem C97_cycles {g : Graph} (hg : Valid g) (hids : ∀ i ∈ g.ids, 1 ≤ i ∧ i ≤ g.ids.length) (before : List (List Int)) :
    ∃ L : List (List Channel), cycleCount g before = some (before ++ L.map tasksOf) ∧ L.Nodup ∧
      ∀ p, p ∈ L ↔ IsCycle g p ∧ LeastFirst p ∧
        (2 ≤ p.length ∨ ∃ q, IsCycle g q ∧ LeastFirst q ∧ 2 ≤ q.length ∧ q.head?.map (fun c => c.src) = p.head?.map fun c => c.src) := by
  obtain ⟨L, h1, h2, h3⟩ := rounds_spec hg (fun i hi => (hids i hi).2) (g.ids.length + 1) 1 before (by push_cast; omega) (by omega)
  refine ⟨L, h3, h1, fun p => ?_⟩
  rw [h2]
  constructor
  · rintro ⟨m, -, hp, q, hq, hq2⟩
    refine ⟨hp.cycle, hp.leastFirst, .inr ⟨q, hq.cycle, hq.leastFirst, hq2, ?_⟩⟩
    have : ∀ {p}, From g m p → p.head?.map (fun c => c.src) = some m := by
      intro p hp
      cases p with
      | nil => exact absurd rfl hp.cycle.nonempty
      | cons c q => exact congrArg some hp.trail.1
    rw [this hp, this hq]
  · rintro ⟨hp, hl, h⟩
    obtain ⟨c, r, rfl, hf⟩ := hp.from hl
    refine ⟨c.src, (hids _ (hg.ends c (hp.chans c (by simp))).1).1, hf, ?_⟩
    rcases h with h | ⟨q, hq, hql, hq2, e⟩
    · exact ⟨_, hf, h⟩
    · obtain ⟨d, t, rfl, hd⟩ := hq.from hql
      have e : d.src = c.src := by simpa using e
      rw [e] at hd
      exact ⟨_, hd, hq2⟩

/-- On a graph without channels from a task to itself, the first call prints exactly the simple cycles. -/
theorem C97_no_loops {g : Graph} (hg : Valid g) (hids : ∀ i ∈ g.ids, 1 ≤ i ∧ i ≤ g.ids.length) (hl : ∀ c ∈ g.channels, c.src ≠ c.dst) :
    ∃ L : List (List Channel), cycleCount g [] = some (L.map tasksOf) ∧ L.Nodup ∧ ∀ p, p ∈ L ↔ IsCycle g p ∧ LeastFirst p := by
  obtain ⟨L, h1, h2, h3⟩ := C97_cycles hg hids []
  refine ⟨L, by simpa using h1, h2, fun p => ?_⟩
  rw [h3]
  refine ⟨fun h => ⟨h.1, h.2.1⟩, fun h => ⟨h.1, h.2, .inl ?_⟩⟩
  obtain ⟨hp, -⟩ := h
  match p, hp with
  | [], hp => exact absurd rfl hp.nonempty
  | [c], hp =>
    obtain ⟨u, hu⟩ := hp.closed
    exact absurd (hu.1.trans hu.2.symm) (hl c (hp.chans c (by simp)))
  | _ :: _ :: _, _ => simp

/-- The choice of the first task loses no cycle and repeats none: a cycle written from another of its tasks is still a cycle, and
exactly one of these ways to write it is from the task of least id. -/
theorem C97_rotation {g : Graph} {p : List Channel} (hp : IsCycle g p) : (∀ k, IsCycle g (p.rotate k)) ∧
    ∃! k, k < p.length ∧ LeastFirst (p.rotate k) := by
  have h1 : ∀ k, IsCycle g (p.rotate k) := by
    intro k
    induction k with
    | zero => simpa using hp
    | succ k ih =>
      rw [← List.rotate_rotate]
      generalize p.rotate k = q at ih
      cases q with
      | nil => exact absurd rfl ih.nonempty
      | cons c q =>
        rw [List.rotate_cons_succ, List.rotate_zero]
        refine ⟨by simp, fun d hd => ih.chans d ?_, ?_, ?_⟩
        · rcases List.mem_append.1 hd with h | h
          · simp [h]
          · simp [List.mem_singleton.1 h]
        · obtain ⟨u, hu⟩ := ih.closed
          exact ⟨c.dst, trail_append.2 ⟨u, hu.2, hu.1, rfl⟩⟩
        · have := ih.simple
          rw [List.map_append, List.map_cons, List.map_nil]
          rw [List.map_cons] at this
          exact (List.perm_append_singleton ..).nodup_iff.2 this
  refine ⟨h1, ?_⟩
  have hpos : 0 < p.length := List.length_pos_iff.2 hp.nonempty
  have head : ∀ k (hk : k < p.length), (p.rotate k).head? = some p[k] := by
    intro k hk
    rw [List.head?_rotate hk, List.getElem?_eq_getElem hk]
  have least : ∀ k (hk : k < p.length), LeastFirst (p.rotate k) ↔ ∀ c ∈ p, p[k].src ≤ c.src := by
    intro k hk
    unfold LeastFirst
    rw [head k hk]
    simp
  obtain ⟨m, -, hm, hmin⟩ := minElement_spec (l := p.map fun c => c.src) (by simpa using hp.nonempty)
  obtain ⟨c, hc, rfl⟩ := List.mem_map.1 hm
  obtain ⟨k, hk, rfl⟩ := List.getElem_of_mem hc
  refine ⟨k, ⟨hk, (least k hk).2 fun c hc => hmin _ (List.mem_map.2 ⟨c, hc, rfl⟩)⟩, ?_⟩
  rintro j ⟨hj, hjl⟩
  have h2 := (least j hj).1 hjl p[k] (List.getElem_mem _)
  have h3 := hmin _ (List.mem_map.2 ⟨p[j], List.getElem_mem _, rfl⟩)
  have h4 : (p.map fun c => c.src)[j]'(by simpa using hj) = (p.map fun c => c.src)[k]'(by simpa using hk) := by
    simp only [List.getElem_map]
    exact le_antisymm h2 h3
  exact (List.Nodup.getElem_inj_iff hp.simple).1 h4

/-- What the command reads of a graph built through the interface. -/
def CycleCount.ofState (s : DF.State) : Graph :=
  ⟨s.verts.map fun v => v.id, s.edges.map fun e => ⟨e.id, ((s.verts[e.src]?).map fun v => v.id).getD 0,
    ((s.verts[e.tgt]?).map fun v => v.id).getD 0⟩⟩

/-- Every graph built through the interface meets the first hypothesis of the theorems. -/
theorem C97_valid {ops : List DF.Op} {s : DF.State} (h : DF.calls DF.empty ops = some s) : Valid (CycleCount.ofState s) := by
  have hi := DF.inv_calls DF.inv_empty h
  refine ⟨(C43_valid h).1, ?_, ?_⟩
  · have h1 : s.edges.Nodup := List.Nodup.of_map _ hi.keys
    simp only [CycleCount.ofState, List.map_map]
    refine List.Nodup.map_on (fun e he f hf hef => ?_) h1
    exact List.inj_on_of_nodup_map hi.keys he hf (hi.eid e he f hf hef)
  · intro c hc
    obtain ⟨e, he, rfl⟩ := List.mem_map.1 hc
    obtain ⟨h1, h2⟩ := hi.ends e he
    simp only [List.getElem?_eq_getElem h1, List.getElem?_eq_getElem h2, Option.map_some, Option.getD_some]
    exact ⟨List.mem_map.2 ⟨_, List.getElem_mem h1, rfl⟩, List.mem_map.2 ⟨_, List.getElem_mem h2, rfl⟩⟩

namespace CycleCountExample

/-- Three tasks: a channel each way between the first two, two in parallel from the second to the third, one back to the first. -/
def G : Graph := ⟨[1, 2, 3], [⟨1, 1, 2⟩, ⟨2, 2, 1⟩, ⟨3, 2, 3⟩, ⟨4, 2, 3⟩, ⟨5, 3, 1⟩, ⟨6, 3, 2⟩]⟩

theorem G_valid : Valid G := ⟨by decide, by decide, by decide⟩

/-- The two channels in parallel count for two cycles, printed with the same tasks. -/
example : Valid G ∧ (∀ i ∈ G.ids, 1 ≤ i ∧ i ≤ G.ids.length) ∧ (∀ c ∈ G.channels, c.src ≠ c.dst) ∧
    cycleCount G [] = some [[1, 2, 1], [1, 2, 3, 1], [1, 2, 3, 1], [2, 3, 2], [2, 3, 2]] :=
  ⟨G_valid, by decide, by decide, by decide +kernel⟩

/-- The list of cycles is never emptied: a second call prints the cycles twice. -/
theorem C97_second_call : cycleCount ⟨[1, 2], [⟨1, 1, 2⟩, ⟨2, 2, 1⟩]⟩ [] = some [[1, 2, 1]] ∧
    cycleCount ⟨[1, 2], [⟨1, 1, 2⟩, ⟨2, 2, 1⟩]⟩ [[1, 2, 1]] = some [[1, 2, 1], [1, 2, 1]] := by decide +kernel

/-- The loop stops when the next id exceeds the number of tasks: with ids from 5 to 8, one of two cycles is missed. -/
def gap : Graph := ⟨[5, 6, 7, 8], [⟨1, 5, 6⟩, ⟨2, 6, 5⟩, ⟨3, 7, 8⟩, ⟨4, 8, 7⟩]⟩
theorem C97_gap : Valid gap ∧ IsCycle gap [⟨3, 7, 8⟩, ⟨4, 8, 7⟩] ∧ cycleCount gap [] = some [[5, 6, 5]] :=
  ⟨⟨by decide, by decide, by decide⟩, ⟨by simp, by decide, ⟨7, rfl, rfl, rfl⟩, by decide⟩, by decide +kernel⟩

/-- Such a graph is what remains of one with eight tasks when the first four are removed. -/
example : (DF.calls DF.empty (List.replicate 8 .addVertex ++ List.replicate 4 (.removeVertex 0) ++
    [.addEdge 0 1, .addEdge 1 0, .addEdge 2 3, .addEdge 3 2])).map CycleCount.ofState = some gap := by decide +kernel

/-- Of two channels from a task to itself, on the same cycle, only that of the task of least id is counted. -/
def loops : Graph := ⟨[1, 2], [⟨1, 1, 2⟩, ⟨2, 2, 1⟩, ⟨3, 1, 1⟩, ⟨4, 2, 2⟩]⟩
theorem C97_loops : Valid loops ∧ IsCycle loops [⟨3, 1, 1⟩] ∧ IsCycle loops [⟨4, 2, 2⟩] ∧
    cycleCount loops [] = some [[1, 2, 1], [1, 1]] :=
  ⟨⟨by decide, by decide, by decide⟩, ⟨by simp, by decide, ⟨1, rfl, rfl⟩, by decide⟩, ⟨by simp, by decide, ⟨2, rfl, rfl⟩, by decide⟩,
    by decide +kernel⟩

end CycleCountExample

end Kiter
