/-
Invariant of the event loop of the TDMA replay (`Verif.Model.TDMA`).
-/
import Verif.Spec.TDMA
import Mathlib.Data.List.Nodup
import Mathlib.Data.List.Range
import Mathlib.Data.List.Perm.Basic
import Mathlib.Algebra.BigOperators.Group.List.Basic
import Mathlib.Tactic.Ring
import Mathlib.Tactic.Linarith

set_option autoImplicit false

namespace Kiter.TDMA

theorem top_none {l : List Ev} (h : top l = none) : l = [] := by
  cases l with
  | nil => rfl
  | cons e l =>
    simp only [top] at h
    split at h
    · cases h
    · split at h <;> cases h

theorem top_spec {l : List Ev} {e : Ev} (h : top l = some e) :
    e ∈ l ∧ ∀ x ∈ l, e.cycle ≤ x.cycle := by
  induction l generalizing e with
  | nil => simp [top] at h
  | cons a l ih =>
    simp only [top] at h
    split at h
    · rename_i h0
      cases h
      have := top_none h0
      subst this
      simp
    · rename_i e' h0
      obtain ⟨h1, h2⟩ := ih h0
      split at h
      · rename_i hb
        cases h
        refine ⟨List.mem_cons_of_mem _ h1, ?_⟩
        intro x hx
        rcases List.mem_cons.1 hx with rfl | hx
        · unfold before at hb
          split at hb <;> simp at hb <;> omega
        · exact h2 x hx
      · rename_i hb
        cases h
        refine ⟨List.mem_cons_self, ?_⟩
        intro x hx
        rcases List.mem_cons.1 hx with rfl | hx
        · exact le_refl _
        · have := h2 x hx
          unfold before at hb
          split at hb <;> simp at hb <;> omega

variable {c : Cfg}

theorem key_inj (hc : c.Ok) {p q : Packet} (hp : p ∈ c.pkts) (hq : q ∈ c.pkts)
    (h : c.key p = c.key q) : p.src = q.src ∧ p.dest = q.dest := by
  obtain ⟨_, hp2⟩ := hc.ends p hp
  obtain ⟨_, hq2⟩ := hc.ends q hq
  unfold Cfg.key at h
  have h1 : p.src = q.src := by
    have e1 : (p.src * (c.rows * c.cols) + p.dest) / (c.rows * c.cols) = p.src := by
      rw [Nat.add_comm, Nat.add_mul_div_right _ _ (by omega), Nat.div_eq_of_lt hp2]; omega
    have e2 : (q.src * (c.rows * c.cols) + q.dest) / (c.rows * c.cols) = q.src := by
      rw [Nat.add_comm, Nat.add_mul_div_right _ _ (by omega), Nat.div_eq_of_lt hq2]; omega
    rw [← e1, ← e2, h]
  refine ⟨h1, ?_⟩
  rw [h1] at h
  omega

theorem key_lt (hc : c.Ok) {p : Packet} (hp : p ∈ c.pkts) : c.key p < c.tableSize := by
  obtain ⟨h1, h2⟩ := hc.ends p hp
  unfold Cfg.key Cfg.tableSize
  calc p.src * (c.rows * c.cols) + p.dest
      < p.src * (c.rows * c.cols) + (c.rows * c.cols) := by omega
    _ = (p.src + 1) * (c.rows * c.cols) := by ring
    _ ≤ _ := Nat.mul_le_mul_right _ h1

theorem getDistance_some (hc : c.Ok) (a b : Int) :
    ∃ d, getDistance a b c.rows c.cols = some d ∧ 1 ≤ d := by
  have h1 := hc.rows
  have h2 := hc.cols
  refine ⟨_, by rw [getDistance, if_neg (by omega)], ?_⟩
  have := abs_nonneg (a.tdiv c.rows - b.tdiv c.rows)
  have := abs_nonneg (a.tmod c.cols - b.tmod c.cols)
  omega

/-! ### Properties of a state -/

/-- All dependencies are delivered at `t`. -/
def Ready (s : St) (pk : Packet) (t : Int) : Prop :=
  ∀ d ∈ pk.deps, s.done d ≠ -1 ∧ s.done d ≤ t

/-- `t` is 0 or one dependency was not delivered before `t - 1`. -/
def Late (s : St) (pk : Packet) (t : Int) : Prop :=
  t = 0 ∨ ∃ d ∈ pk.deps, t - 1 ≤ s.done d

/-- Every occurrence of the slot of `pk` in `[a, b)` was used by a packet with the same ends. -/
def Skip (c : Cfg) (s : St) (pk : Packet) (a b : Int) : Prop :=
  ∀ t, a ≤ t → t < b → t % c.total = c.slot (c.key pk) →
    ∃ q qk, c.pkts[q]? = some qk ∧ s.done q ≠ -1 ∧ qk.src ≠ qk.dest ∧ c.key qk = c.key pk ∧
      (s.prof q).slot = t

def Started (s : St) (pk : Packet) (p : Nat) : Prop :=
  0 ≤ (s.prof p).deps ∧ Ready s pk (s.prof p).deps ∧ Late s pk (s.prof p).deps

structure Pend (c : Cfg) (s : St) (now : Int) (pk : Packet) (e : Ev) : Prop where
  done : s.done e.pkt = -1
  data : (s.prof e.pkt).data = -1
  idle : e.comp = false → s.prof e.pkt = ⟨-1, -1, -1, -1⟩ ∧
    (e.cycle = 0 ∨ (e.cycle ≤ now + 1 ∧ ∃ d ∈ pk.deps, s.done d = -1 ∨ e.cycle - 1 ≤ s.done d))
  work : e.comp = true → Started s pk e.pkt ∧
    (((s.prof e.pkt).comp = -1 ∧ (s.prof e.pkt).slot = -1 ∧
        e.cycle = (s.prof e.pkt).deps + pk.duration) ∨
      ((s.prof e.pkt).comp = (s.prof e.pkt).deps + pk.duration ∧ (s.prof e.pkt).slot = e.cycle ∧
        pk.src ≠ pk.dest ∧ (s.prof e.pkt).comp ≤ e.cycle ∧
        e.cycle % c.total = c.slot (c.key pk) ∧ Skip c s pk (s.prof e.pkt).comp e.cycle))

structure Fin (c : Cfg) (s : St) (now : Int) (pk : Packet) (p : Nat) : Prop where
  done : s.done p ≠ -1
  data : (s.prof p).data = s.done p
  started : Started s pk p
  comp : (s.prof p).comp = (s.prof p).deps + pk.duration
  slot : (s.prof p).comp ≤ (s.prof p).slot
  now : (s.prof p).slot ≤ now
  loc : pk.src = pk.dest → (s.prof p).slot = (s.prof p).comp ∧ (s.prof p).data = (s.prof p).slot
  rem : pk.src ≠ pk.dest → (s.prof p).slot % c.total = c.slot (c.key pk) ∧
    (∃ d, getDistance pk.src pk.dest c.rows c.cols = some d ∧
      (s.prof p).data = (s.prof p).slot + d) ∧
    Skip c s pk (s.prof p).comp (s.prof p).slot

def queued (s : St) (p : Nat) : Prop := p ∈ s.heap.map Ev.pkt

structure Inv (c : Cfg) (s : St) (now : Int) : Prop where
  now0 : 0 ≤ now
  nodup : (s.heap.map Ev.pkt).Nodup
  lt : ∀ e ∈ s.heap, e.pkt < c.pkts.length
  time : ∀ e ∈ s.heap, now ≤ e.cycle
  pend : ∀ e ∈ s.heap, ∀ pk, c.pkts[e.pkt]? = some pk → Pend c s now pk e
  fin : ∀ p pk, c.pkts[p]? = some pk → ¬ queued s p → Fin c s now pk p
  lockLe : ∀ p pk, c.pkts[p]? = some pk → ¬ queued s p → pk.src ≠ pk.dest →
    (s.prof p).slot ≤ s.lock (c.key pk)
  lockEx : ∀ k, s.lock k ≠ -1 → s.lock k ≤ now ∧ ∃ p pk, c.pkts[p]? = some pk ∧ ¬ queued s p ∧
    pk.src ≠ pk.dest ∧ c.key pk = k ∧ (s.prof p).slot = s.lock k
  excl : ∀ p q pk qk, c.pkts[p]? = some pk → c.pkts[q]? = some qk → ¬ queued s p → ¬ queued s q →
    pk.src ≠ pk.dest → qk.src ≠ qk.dest → c.key pk = c.key qk → p ≠ q →
    (s.prof p).slot ≠ (s.prof q).slot

theorem depsDone_cases {done : Nat → Int} {t : Int} {l : List Nat}
    (h : ∀ d ∈ l, d < c.pkts.length) :
    (depsDone c done t l = some true ∧ ∀ d ∈ l, done d ≠ -1 ∧ done d ≤ t) ∨
    (depsDone c done t l = some false ∧ ∃ d ∈ l, done d = -1 ∨ t < done d) := by
  induction l with
  | nil => left; simp [depsDone]
  | cons d l ih =>
    have hd := h d List.mem_cons_self
    have ih := ih fun x hx => h x (List.mem_cons_of_mem _ hx)
    rw [depsDone, if_neg (by omega)]
    by_cases h1 : done d = -1
    · right; rw [if_pos h1]; exact ⟨rfl, d, List.mem_cons_self, Or.inl h1⟩
    · rw [if_neg h1]
      by_cases h2 : done d > t
      · right; rw [if_pos h2]; exact ⟨rfl, d, List.mem_cons_self, Or.inr h2⟩
      · rw [if_neg h2]
        rcases ih with ⟨a, b⟩ | ⟨a, x, hx, b⟩
        · left
          refine ⟨a, ?_⟩
          intro y hy
          rcases List.mem_cons.1 hy with rfl | hy
          · exact ⟨h1, by omega⟩
          · exact b y hy
        · right
          exact ⟨a, x, List.mem_cons_of_mem _ hx, b⟩

/-! ### Popping an event -/

theorem erase_mem {s : St} (hn : (s.heap.map Ev.pkt).Nodup) {e x : Ev} (he : e ∈ s.heap) :
    x ∈ s.heap.erase e ↔ x ∈ s.heap ∧ x.pkt ≠ e.pkt := by
  have hn' : s.heap.Nodup := List.Nodup.of_map _ hn
  rw [hn'.mem_erase_iff]
  constructor
  · rintro ⟨h1, h2⟩
    refine ⟨h2, fun h3 => h1 ?_⟩
    exact List.inj_on_of_nodup_map hn h2 he h3
  · rintro ⟨h1, h2⟩
    exact ⟨fun h => h2 (by rw [h]), h1⟩

theorem erase_nodup {l : List Ev} (hn : (l.map Ev.pkt).Nodup) (e : Ev) :
    ((l.erase e).map Ev.pkt).Nodup :=
  hn.sublist (List.erase_sublist.map _)

theorem erase_queued {s : St} (hn : (s.heap.map Ev.pkt).Nodup) {e : Ev} (he : e ∈ s.heap)
    (p : Nat) : p ∈ (s.heap.erase e).map Ev.pkt ↔ queued s p ∧ p ≠ e.pkt := by
  unfold queued
  simp only [List.mem_map]
  constructor
  · rintro ⟨x, hx, rfl⟩
    have := (erase_mem hn he).1 hx
    exact ⟨⟨x, this.1, rfl⟩, this.2⟩
  · rintro ⟨⟨x, hx, rfl⟩, h⟩
    exact ⟨x, (erase_mem hn he).2 ⟨hx, h⟩, rfl⟩

/-- The part of the state that concerns the other packets is the same. -/
structure Frame (s s' : St) (p : Nat) : Prop where
  done : ∀ q, q ≠ p → s'.done q = s.done q
  prof : ∀ q, q ≠ p → s'.prof q = s.prof q

section frame

variable {s s' : St} {p : Nat} {now now' : Int}

theorem Frame.ready (hf : Frame s s' p) (hp : s.done p = -1) {pk : Packet} {t : Int}
    (h : Ready s pk t) : Ready s' pk t := by
  intro d hd
  have := h d hd
  have hne : d ≠ p := fun e => this.1 (by rw [e, hp])
  rw [hf.done d hne]
  exact this

theorem Frame.late (hf : Frame s s' p) (hp : s.done p = -1) {pk : Packet} {t : Int}
    (hr : Ready s pk t) (h : Late s pk t) : Late s' pk t := by
  rcases h with h | ⟨d, hd, h⟩
  · exact Or.inl h
  · have hne : d ≠ p := fun e => (hr d hd).1 (by rw [e, hp])
    exact Or.inr ⟨d, hd, by rw [hf.done d hne]; exact h⟩

theorem Frame.skip (hf : Frame s s' p) (hp : s.done p = -1) {pk : Packet} {a b : Int}
    (h : Skip c s pk a b) : Skip c s' pk a b := by
  intro t h1 h2 h3
  obtain ⟨q, qk, a1, a2, a3, a4, a5⟩ := h t h1 h2 h3
  have hne : q ≠ p := fun e => a2 (by rw [e, hp])
  exact ⟨q, qk, a1, by rw [hf.done q hne]; exact a2, a3, a4, by rw [hf.prof q hne]; exact a5⟩

theorem Frame.started (hf : Frame s s' p) (hp : s.done p = -1) {pk : Packet} {q : Nat}
    (hq : q ≠ p) (h : Started s pk q) : Started s' pk q := by
  unfold Started at h ⊢
  rw [hf.prof q hq]
  exact ⟨h.1, hf.ready hp h.2.1, hf.late hp h.2.1 h.2.2⟩

theorem Frame.pend (hf : Frame s s' p) (hp : s.done p = -1) (hnow : now ≤ now')
    (hdone : s'.done p = -1 ∨ now' ≤ s'.done p) {pk : Packet} {e : Ev} (hq : e.pkt ≠ p)
    (h : Pend c s now pk e) : Pend c s' now' pk e where
  done := by rw [hf.done _ hq]; exact h.done
  data := by rw [hf.prof _ hq]; exact h.data
  idle := by
    intro hc
    obtain ⟨h1, h2⟩ := h.idle hc
    refine ⟨by rw [hf.prof _ hq]; exact h1, ?_⟩
    rcases h2 with h2 | ⟨h2, d, hd, h3⟩
    · exact Or.inl h2
    · refine Or.inr ⟨by omega, d, hd, ?_⟩
      by_cases hne : d = p
      · rw [hne]
        rcases hdone with h | h
        · exact Or.inl h
        · exact Or.inr (by omega)
      · rw [hf.done d hne]; exact h3
  work := by
    intro hc
    obtain ⟨h1, h2⟩ := h.work hc
    refine ⟨hf.started hp hq h1, ?_⟩
    rw [hf.prof _ hq]
    rcases h2 with h2 | ⟨a, b, d, e1, f, g⟩
    · exact Or.inl h2
    · exact Or.inr ⟨a, b, d, e1, f, hf.skip hp g⟩

theorem Frame.fin (hf : Frame s s' p) (hp : s.done p = -1) (hnow : now ≤ now')
    {pk : Packet} {q : Nat} (hq : q ≠ p) (h : Fin c s now pk q) : Fin c s' now' pk q where
  done := by rw [hf.done _ hq]; exact h.done
  data := by rw [hf.done _ hq, hf.prof _ hq]; exact h.data
  started := hf.started hp hq h.started
  comp := by rw [hf.prof _ hq]; exact h.comp
  slot := by rw [hf.prof _ hq]; exact h.slot
  now := by rw [hf.prof _ hq]; exact h.now.trans hnow
  loc := by rw [hf.prof _ hq]; exact h.loc
  rem := by
    rw [hf.prof _ hq]
    intro hc
    obtain ⟨h1, h2, h3⟩ := h.rem hc
    exact ⟨h1, h2, hf.skip hp h3⟩

/-- Putting the event back with another time or status. -/
theorem Inv.requeue (hi : Inv c s now) {e e' : Ev} (he : e ∈ s.heap)
    (hmin : ∀ x ∈ s.heap, e.cycle ≤ x.cycle) (hpk : e'.pkt = e.pkt) (hcy : e.cycle ≤ e'.cycle)
    (hheap : s'.heap = e' :: s.heap.erase e) (hlock : s'.lock = s.lock)
    (hf : Frame s s' e.pkt)
    (hpend : ∀ pk, c.pkts[e.pkt]? = some pk → Pend c s' e.cycle pk e') :
    Inv c s' e.cycle := by
  have hnow := hi.time e he
  have hdone : s.done e.pkt = -1 := by
    have := hi.lt e he
    exact (hi.pend e he _ (List.getElem?_eq_getElem this)).done
  have hdone' : s'.done e.pkt = -1 := by
    have := hi.lt e he
    have := (hpend _ (List.getElem?_eq_getElem this)).done
    rw [hpk] at this; exact this
  have hq : ∀ p, queued s' p ↔ queued s p := by
    intro p
    unfold queued
    rw [hheap, List.map_cons, List.mem_cons, erase_queued hi.nodup he, hpk]
    unfold queued
    constructor
    · rintro (h | h)
      · rw [h]; exact List.mem_map.2 ⟨e, he, rfl⟩
      · exact h.1
    · intro h
      by_cases hp : p = e.pkt
      · exact Or.inl hp
      · exact Or.inr ⟨h, hp⟩
  have hnq : ∀ p, ¬ queued s p → p ≠ e.pkt := by
    rintro p hp rfl
    exact hp (List.mem_map.2 ⟨e, he, rfl⟩)
  refine ⟨hi.now0.trans hnow, ?_, ?_, ?_, ?_, ?_, ?_, ?_, ?_⟩
  · rw [hheap, List.map_cons, List.nodup_cons, erase_queued hi.nodup he]
    exact ⟨fun h => h.2 hpk, erase_nodup hi.nodup e⟩
  · intro x hx
    rw [hheap, List.mem_cons] at hx
    rcases hx with rfl | hx
    · rw [hpk]; exact hi.lt e he
    · exact hi.lt x ((erase_mem hi.nodup he).1 hx).1
  · intro x hx
    rw [hheap, List.mem_cons] at hx
    rcases hx with rfl | hx
    · exact hcy
    · exact hmin x ((erase_mem hi.nodup he).1 hx).1
  · intro x hx pk hpk'
    rw [hheap, List.mem_cons] at hx
    rcases hx with rfl | hx
    · rw [hpk] at hpk'; exact hpend pk hpk'
    · have := (erase_mem hi.nodup he).1 hx
      exact hf.pend hdone hnow (Or.inl hdone') this.2 (hi.pend x this.1 pk hpk')
  · intro p pk hp hnp
    rw [hq] at hnp
    exact hf.fin hdone hnow (hnq p hnp) (hi.fin p pk hp hnp)
  · intro p pk hp hnp hr
    rw [hq] at hnp
    rw [hf.prof _ (hnq p hnp), hlock]
    exact hi.lockLe p pk hp hnp hr
  · intro k hk
    rw [hlock] at hk ⊢
    obtain ⟨h0, p, pk, a, b, d, e1, f⟩ := hi.lockEx k hk
    exact ⟨h0.trans hnow, p, pk, a, by rw [hq]; exact b, d, e1, by rw [hf.prof _ (hnq p b)]; exact f⟩
  · intro p q pk qk hp hq' h1 h2 h3 h4 h5 h6
    rw [hq] at h1 h2
    rw [hf.prof _ (hnq p h1), hf.prof _ (hnq q h2)]
    exact hi.excl p q pk qk hp hq' h1 h2 h3 h4 h5 h6

/-- The packet leaves the queue. -/
theorem Inv.complete (hi : Inv c s now) {e : Ev} (he : e ∈ s.heap)
    (hmin : ∀ x ∈ s.heap, e.cycle ≤ x.cycle) (hheap : s'.heap = s.heap.erase e)
    (hf : Frame s s' e.pkt) {pk : Packet} (hpk : c.pkts[e.pkt]? = some pk)
    (hfin : Fin c s' e.cycle pk e.pkt) (hdone' : e.cycle ≤ s'.done e.pkt)
    (hlock : (pk.src = pk.dest ∧ s'.lock = s.lock) ∨
      (pk.src ≠ pk.dest ∧ s.lock (c.key pk) ≠ e.cycle ∧
        s'.lock = Function.update s.lock (c.key pk) e.cycle ∧ (s'.prof e.pkt).slot = e.cycle)) :
    Inv c s' e.cycle := by
  have hnow := hi.time e he
  have hdone : s.done e.pkt = -1 := (hi.pend e he pk hpk).done
  have hq : ∀ p, queued s' p ↔ queued s p ∧ p ≠ e.pkt := by
    intro p
    rw [← erase_queued hi.nodup he]
    unfold queued
    rw [hheap]
  have hold : ∀ p, ¬ queued s' p → p ≠ e.pkt → ¬ queued s p := by
    intro p h1 h2 h3
    exact h1 ((hq p).2 ⟨h3, h2⟩)
  have hnq : ∀ p, ¬ queued s p → p ≠ e.pkt := by
    rintro p hp rfl
    exact hp (List.mem_map.2 ⟨e, he, rfl⟩)
  have h0 := hi.now0
  -- slots used before are strictly smaller
  have hlt : pk.src ≠ pk.dest → ∀ p qk, c.pkts[p]? = some qk → ¬ queued s p →
      qk.src ≠ qk.dest → c.key qk = c.key pk → (s.prof p).slot < e.cycle := by
    intro hr p qk hp hnp hqr hk
    rcases hlock with ⟨h, _⟩ | ⟨_, hl, _, _⟩
    · exact absurd h hr
    · have h1 := hi.lockLe p qk hp hnp hqr
      rw [hk] at h1
      by_cases h2 : s.lock (c.key pk) = -1
      · omega
      · have := (hi.lockEx _ h2).1
        omega
  refine ⟨hi.now0.trans hnow, ?_, ?_, ?_, ?_, ?_, ?_, ?_, ?_⟩
  · rw [hheap]; exact erase_nodup hi.nodup e
  · intro x hx
    rw [hheap] at hx
    exact hi.lt x ((erase_mem hi.nodup he).1 hx).1
  · intro x hx
    rw [hheap] at hx
    exact hmin x ((erase_mem hi.nodup he).1 hx).1
  · intro x hx qk hqk
    rw [hheap] at hx
    have := (erase_mem hi.nodup he).1 hx
    exact hf.pend hdone hnow (Or.inr hdone') this.2 (hi.pend x this.1 qk hqk)
  · intro p qk hp hnp
    by_cases hpe : p = e.pkt
    · subst hpe
      rw [hpk] at hp
      cases hp
      exact hfin
    · exact hf.fin hdone hnow hpe (hi.fin p qk hp (hold p hnp hpe))
  · intro p qk hp hnp hr
    by_cases hpe : p = e.pkt
    · subst hpe
      rw [hpk] at hp
      cases hp
      rcases hlock with ⟨h, _⟩ | ⟨_, _, hl, hs⟩
      · exact absurd h hr
      · rw [hl, Function.update_self, hs]
    · rw [hf.prof _ hpe]
      have h1 := hi.lockLe p qk hp (hold p hnp hpe) hr
      rcases hlock with ⟨_, hl⟩ | ⟨hr', _, hl, _⟩
      · rw [hl]; exact h1
      · rw [hl]
        by_cases hk : c.key qk = c.key pk
        · rw [hk, Function.update_self]
          exact (hlt hr' p qk hp (hold p hnp hpe) hr hk).le
        · rw [Function.update_of_ne hk]; exact h1
  · intro k hk
    have hcase : s'.lock k = s.lock k ∨
        (pk.src ≠ pk.dest ∧ k = c.key pk ∧ s'.lock k = e.cycle ∧ (s'.prof e.pkt).slot = e.cycle) := by
      rcases hlock with ⟨_, hl⟩ | ⟨hr', _, hl, hs⟩
      · rw [hl]; exact Or.inl rfl
      · by_cases hkk : k = c.key pk
        · right; exact ⟨hr', hkk, by rw [hl, hkk, Function.update_self], hs⟩
        · left; rw [hl, Function.update_of_ne hkk]
    rcases hcase with hl | ⟨hr', hkk, hl, hs⟩
    · rw [hl] at hk ⊢
      obtain ⟨h0, p, qk, a, b, d, e1, f⟩ := hi.lockEx k hk
      refine ⟨h0.trans hnow, p, qk, a, fun h => b ((hq p).1 h).1, d, e1, ?_⟩
      rw [hf.prof _ (hnq p b)]; exact f
    · rw [hl]
      exact ⟨le_refl _, e.pkt, pk, hpk, fun h => ((hq _).1 h).2 rfl, hr', hkk.symm, hs⟩
  · intro p q qk rk hp hq' h1 h2 h3 h4 h5 h6
    have key : ∀ q rk, c.pkts[q]? = some rk → ¬ queued s' q → q ≠ e.pkt → rk.src ≠ rk.dest →
        c.key pk = c.key rk → pk.src ≠ pk.dest → (s'.prof e.pkt).slot ≠ (s'.prof q).slot := by
      intro q rk hq1 hnq1 hne hr1 hk1 hr2
      rcases hlock with ⟨h, _⟩ | ⟨_, _, _, hs⟩
      · exact absurd h hr2
      · rw [hs, hf.prof _ hne]
        exact (hlt hr2 q rk hq1 (hold q hnq1 hne) hr1 hk1.symm).ne'
    by_cases hpe : p = e.pkt
    · subst hpe
      rw [hpk] at hp
      cases hp
      exact key q rk hq' h2 (Ne.symm h6) h4 h5 h3
    · by_cases hqe : q = e.pkt
      · subst hqe
        rw [hpk] at hq'
        cases hq'
        exact (key p qk hp h1 hpe h3 h5.symm h4).symm
      · rw [hf.prof _ hpe, hf.prof _ hqe]
        exact hi.excl p q qk rk hp hq' (hold p h1 hpe) (hold q h2 hqe) h3 h4 h5 h6

end frame

theorem initial_inv : Inv c (initial c) 0 := by
  have hmap : (initial c).heap.map Ev.pkt = List.range c.pkts.length := by
    simp [initial, Function.comp_def]
  have hq : ∀ p pk, c.pkts[p]? = some pk → queued (initial c) p := by
    intro p pk h
    unfold queued
    rw [hmap, List.mem_range]
    exact (List.getElem?_eq_some_iff.1 h).1
  refine ⟨le_refl _, ?_, ?_, ?_, ?_, ?_, ?_, ?_, ?_⟩
  · rw [hmap]; exact List.nodup_range
  · intro e he
    have : e.pkt ∈ (initial c).heap.map Ev.pkt := List.mem_map.2 ⟨e, he, rfl⟩
    rw [hmap, List.mem_range] at this
    exact this
  · intro e he
    simp only [initial, List.mem_map, List.mem_range] at he
    obtain ⟨p, _, rfl⟩ := he
    exact le_refl _
  · intro e he pk _
    simp only [initial, List.mem_map, List.mem_range] at he
    obtain ⟨p, _, rfl⟩ := he
    exact ⟨rfl, rfl, fun _ => ⟨rfl, Or.inl rfl⟩, fun h => by cases h⟩
  · intro p pk h h'; exact absurd (hq p pk h) h'
  · intro p pk h h'; exact absurd (hq p pk h) h'
  · intro k h; exact absurd rfl h
  · intro p q pk qk h _ h'; exact absurd (hq p pk h) h'

/-! ### One turn of the loop -/

/-- What one turn of the loop does. -/
inductive Turn (c : Cfg) (s s' : St) (e : Ev) : Prop where
  | requeue (e' : Ev) (pkt : e'.pkt = e.pkt) (cycle : e.cycle ≤ e'.cycle)
      (progress : e.cycle < e'.cycle ∨ (e.comp = false ∧ e'.comp = true))
      (heap : s'.heap = e' :: s.heap.erase e) (done : s'.done = s.done) (lock : s'.lock = s.lock)
      (prof : ∀ q, q ≠ e.pkt → s'.prof q = s.prof q)
      (comp : e.comp = true → e'.comp = true)
      (why : ∀ pk, c.pkts[e.pkt]? = some pk →
        (¬ Ready s pk e.cycle ∧ e'.cycle = e.cycle + 1 ∧ e'.comp = e.comp ∧
          s'.prof e.pkt = s.prof e.pkt) ∨
        (e.comp = false ∧ e'.comp = true ∧ e'.cycle = e.cycle + pk.duration ∧
          (s'.prof e.pkt).slot = -1) ∨
        (e.comp = true ∧ (s.prof e.pkt).slot = -1 ∧ e'.cycle ≤ e.cycle + c.total ∧
          (s'.prof e.pkt).slot ≠ -1) ∨
        (e.comp = true ∧ e'.cycle = e.cycle + c.total ∧ e.cycle = s.lock (c.key pk) ∧
          (s'.prof e.pkt).slot ≠ -1)) : Turn c s s' e
  | complete (heap : s'.heap = s.heap.erase e) : Turn c s s' e

theorem findEventCycle_pos {curr my total : Int} (h1 : 0 ≤ curr) (h2 : curr < total)
    (h3 : 0 ≤ my) (h4 : my < total) (h5 : curr ≠ my) :
    0 < findEventCycle curr my total ∧ findEventCycle curr my total < total ∧
      ∀ w, 0 ≤ w → w < findEventCycle curr my total → (curr + w) % total ≠ my := by
  unfold findEventCycle
  split
  · refine ⟨by omega, by omega, ?_⟩
    intro w a b h
    rw [Int.emod_eq_of_lt (by omega) (by omega)] at h
    omega
  · refine ⟨by omega, by omega, ?_⟩
    intro w a b h
    by_cases hw : curr + w < total
    · rw [Int.emod_eq_of_lt (by omega) hw] at h
      omega
    · rw [← Int.sub_emod_right, Int.emod_eq_of_lt (by omega) (by omega)] at h
      omega

theorem findEventCycle_hit {curr my total : Int}
    (h3 : 0 ≤ my) (h4 : my < total) :
    (curr + findEventCycle curr my total) % total = my := by
  unfold findEventCycle
  split
  · rw [show curr + (my - curr) = my by ring, Int.emod_eq_of_lt h3 h4]
  · rw [show curr + (total - curr + my) = my + total by ring, Int.add_emod_right,
      Int.emod_eq_of_lt h3 h4]

theorem frame_prof {s : St} {e : Ev} {l : List Ev} {q : Prof} :
    Frame s { s with heap := l, prof := Function.update s.prof e.pkt q } e.pkt :=
  ⟨fun _ _ => rfl, fun _ h => Function.update_of_ne h _ _⟩

theorem step_spec (hc : c.Ok) {s : St} {now : Int} (hi : Inv c s now) {e : Ev}
    (ht : top s.heap = some e) :
    ∃ s', step c s = some s' ∧ Inv c s' e.cycle ∧ Turn c s s' e := by
  obtain ⟨he, hmin⟩ := top_spec ht
  have hlt := hi.lt e he
  obtain ⟨pk, hpk⟩ : ∃ pk, c.pkts[e.pkt]? = some pk := ⟨_, List.getElem?_eq_getElem hlt⟩
  have hmem : pk ∈ c.pkts := List.mem_of_getElem? hpk
  have hp := hi.pend e he pk hpk
  have hnow := hi.time e he
  have hn0 := hi.now0
  have hdur := hc.dur pk hmem
  have hT := hc.total
  have hone : ∀ {P : Packet → Prop}, P pk → ∀ pk', c.pkts[e.pkt]? = some pk' → P pk' := by
    intro P h pk' h'
    rw [hpk] at h'
    cases h'
    exact h
  unfold step
  rw [ht]
  unfold handle
  simp only [hpk]
  rcases depsDone_cases (c := c) (done := s.done) (t := e.cycle) (hc.deps pk hmem) with
    ⟨hd, hr⟩ | ⟨hd, d, hdm, hdd⟩
  · simp only [hd]
    cases hcomp : e.comp with
    | false =>
      obtain ⟨hidle, hlate⟩ := hp.idle hcomp
      simp only [hidle, if_true]
      have hlate' : Late s pk e.cycle := by
        rcases hlate with h | ⟨_, d, hdm, h⟩
        · exact Or.inl h
        · refine Or.inr ⟨d, hdm, ?_⟩
          rcases h with h | h
          · exact absurd h (hr d hdm).1
          · exact h
      refine ⟨_, rfl, ?_, ?_⟩
      · refine hi.requeue (e' := ⟨e.cycle + pk.duration, e.pkt, true⟩) he hmin rfl (by simp; omega)
          rfl rfl frame_prof (hone ?_)
        refine ⟨hp.done, ?_, fun h => (by cases h), fun _ => ⟨⟨?_, ?_, ?_⟩, Or.inl ?_⟩⟩
        · simp [St.push, St.setProf]
        · simp [St.push, St.setProf]; omega
        · simpa [St.push, St.setProf, Ready] using hr
        · simpa [St.push, St.setProf, Late] using hlate'
        · simp [St.push, St.setProf]
      · refine Turn.requeue ⟨e.cycle + pk.duration, e.pkt, true⟩ rfl (by simp; omega)
          (Or.inr ⟨hcomp, rfl⟩) rfl rfl rfl (fun q h => Function.update_of_ne h _ _)
          (fun _ => rfl) (hone (Or.inr (Or.inl ⟨hcomp, rfl, rfl, ?_⟩)))
        simp [St.push, St.setProf]
    | true =>
      obtain ⟨hst, hw⟩ := hp.work hcomp
      have hdne : (s.prof e.pkt).deps ≠ -1 := by have := hst.1; omega
      simp only [hdne, if_false, if_true]
      unfold transfer
      -- the profile after the computation date is recorded
      obtain ⟨s1, hs1, h1heap, h1done, h1lock, h1deps, h1comp, h1slot, h1data, h1f⟩ :
          ∃ s1 : St, (if (s.prof e.pkt).comp = -1 then
              ({ s with heap := s.heap.erase e } : St).setProf e.pkt
                { s.prof e.pkt with comp := e.cycle }
            else { s with heap := s.heap.erase e }) = s1 ∧ s1.heap = s.heap.erase e ∧
            s1.done = s.done ∧ s1.lock = s.lock ∧ (s1.prof e.pkt).deps = (s.prof e.pkt).deps ∧
            (s1.prof e.pkt).comp = (s.prof e.pkt).deps + pk.duration ∧
            (s1.prof e.pkt).slot = (s.prof e.pkt).slot ∧
            (s1.prof e.pkt).data = -1 ∧ Frame s s1 e.pkt := by
        refine ⟨_, rfl, ?_⟩
        split
        · rename_i hcc
          refine ⟨rfl, rfl, rfl, ?_, ?_, ?_, ?_, frame_prof⟩
          · simp [St.setProf]
          · rcases hw with ⟨_, _, h⟩ | ⟨h, _⟩
            · simp [St.setProf, h]
            · have := hst.1; omega
          · simp [St.setProf]
          · simpa [St.setProf] using hp.data
        · rename_i hcc
          refine ⟨rfl, rfl, rfl, rfl, ?_, rfl, hp.data, ⟨fun _ _ => rfl, fun _ _ => rfl⟩⟩
          rcases hw with ⟨h, _⟩ | ⟨h, _⟩
          · exact absurd h hcc
          · exact h
      have hcond : ∀ {α : Type} (a b : α), (if (({ s with heap := s.heap.erase e } : St).prof e.pkt).comp = -1
          then a else b) = if (s.prof e.pkt).comp = -1 then a else b := fun _ _ => rfl
      rw [hcond]
      have hs1' : (if (s.prof e.pkt).comp = -1 then
              ({ s with heap := s.heap.erase e } : St).setProf e.pkt
                { ({ s with heap := s.heap.erase e } : St).prof e.pkt with comp := e.cycle }
            else { s with heap := s.heap.erase e }) = s1 := hs1
      rw [hs1']
      have hcle : (s1.prof e.pkt).comp ≤ e.cycle := by
        rw [h1comp]
        rcases hw with ⟨_, _, h⟩ | ⟨h, _, _, h', _⟩ <;> omega
      have hstep1 : Started s1 pk e.pkt := by
        refine ⟨by rw [h1deps]; exact hst.1, ?_, ?_⟩
        · rw [h1deps]; exact h1f.ready hp.done hst.2.1
        · rw [h1deps]; exact h1f.late hp.done hst.2.1 hst.2.2
      simp only [if_neg hT.ne']
      by_cases hloc : pk.src = pk.dest
      · rw [if_pos hloc]
        refine ⟨_, rfl, ?_, Turn.complete h1heap⟩
        have hslot1 : (s.prof e.pkt).slot = -1 ∧ e.cycle = (s.prof e.pkt).deps + pk.duration := by
          rcases hw with ⟨_, h, h'⟩ | ⟨_, _, h, _⟩
          · exact ⟨h, h'⟩
          · exact absurd hloc h
        refine hi.complete he hmin h1heap ?_ hpk ?_ ?_ (Or.inl ⟨hloc, h1lock⟩)
        · refine ⟨fun q hq => ?_, fun q hq => ?_⟩
          · simp only [sendLocal, Function.update_of_ne hq]; rw [h1done]
          · simp only [sendLocal, Function.update_of_ne hq]; exact h1f.prof q hq
        · have hfr : Frame s1 (sendLocal s1 e) e.pkt :=
            ⟨fun q hq => by simp only [sendLocal, Function.update_of_ne hq],
             fun q hq => by simp only [sendLocal, Function.update_of_ne hq]⟩
          have hd1 : s1.done e.pkt = -1 := by rw [h1done]; exact hp.done
          refine ⟨?_, ?_, ⟨?_, ?_, ?_⟩, ?_, ?_, ?_, ?_, fun h => absurd hloc h⟩
          · simp [sendLocal]; omega
          · simp [sendLocal]
          · simp only [sendLocal, Function.update_self]; exact hstep1.1
          · have := hfr.ready hd1 hstep1.2.1
            simpa only [sendLocal, Function.update_self] using this
          · have := hfr.late hd1 hstep1.2.1 hstep1.2.2
            simpa only [sendLocal, Function.update_self] using this
          · simp only [sendLocal, Function.update_self]; rw [h1comp, h1deps]
          · simp only [sendLocal, Function.update_self]; exact hcle
          · simp only [sendLocal, Function.update_self]; exact le_refl _
          · intro _
            simp only [sendLocal, Function.update_self]
            exact ⟨by rw [h1comp]; exact hslot1.2, by omega⟩
        · simp [sendLocal]
      · rw [if_neg hloc, if_neg (not_le.2 (key_lt hc hmem))]
        obtain ⟨hsl0, hsl1⟩ := hc.slot pk hmem hloc
        have htm : e.cycle.tmod c.total = e.cycle % c.total :=
          Int.tmod_eq_emod_of_nonneg (by omega)
        have hskip : (s.prof e.pkt).slot ≠ -1 →
            (s.prof e.pkt).slot = e.cycle ∧ e.cycle % c.total = c.slot (c.key pk) ∧
            Skip c s1 pk (s1.prof e.pkt).comp e.cycle := by
          intro hne
          rcases hw with ⟨_, h, _⟩ | ⟨h1, h2, _, _, h3, h4⟩
          · exact absurd h hne
          · refine ⟨h2, h3, ?_⟩
            rw [h1comp, ← h1]
            exact h1f.skip hp.done h4
        have hskip' : (s.prof e.pkt).slot = -1 → e.cycle = (s1.prof e.pkt).comp := by
          intro h
          rcases hw with ⟨_, _, h'⟩ | ⟨_, h2, _⟩
          · rw [h1comp]; exact h'
          · omega
        have hsk : Skip c s1 pk (s1.prof e.pkt).comp e.cycle := by
          by_cases hne : (s.prof e.pkt).slot = -1
          · intro t h1 h2 _
            have := hskip' hne
            omega
          · exact (hskip hne).2.2
        by_cases hsl : e.cycle.tmod c.total = c.slot (c.key pk)
        · rw [if_pos hsl]
          have hsl' : e.cycle % c.total = c.slot (c.key pk) := by rw [← htm]; exact hsl
          by_cases hlk : e.cycle = s1.lock (c.key pk)
          · rw [if_pos hlk]
            have hlk' : e.cycle = s.lock (c.key pk) := by rw [← h1lock]; exact hlk
            refine ⟨_, rfl, ?_, ?_⟩
            · refine hi.requeue (e' := ⟨e.cycle + c.total, e.pkt, e.comp⟩) he hmin rfl
                (by simp; omega) (by simp [waitRound, St.push, St.setProf, h1heap])
                (by simp [waitRound, St.push, St.setProf, h1lock]) ?_ (hone ?_)
              · refine ⟨fun q hq => ?_, fun q hq => ?_⟩
                · simp only [waitRound, St.push, St.setProf]; rw [h1done]
                · simp only [waitRound, St.push, St.setProf, Function.update_of_ne hq]
                  exact h1f.prof q hq
              · have hfr : Frame s1 (waitRound c s1 e) e.pkt :=
                  ⟨fun q hq => by simp only [waitRound, St.push, St.setProf],
                   fun q hq => by simp only [waitRound, St.push, St.setProf, Function.update_of_ne hq]⟩
                have hd1 : s1.done e.pkt = -1 := by rw [h1done]; exact hp.done
                refine ⟨by simp only [waitRound, St.push, St.setProf]; exact hd1, ?_,
                  fun h => ?_, fun _ => ⟨⟨?_, ?_, ?_⟩, Or.inr ⟨?_, ?_, hloc, ?_, ?_, ?_⟩⟩⟩
                · simp only [waitRound, St.push, St.setProf, Function.update_self]; exact h1data
                · simp only [hcomp] at h; cases h
                · simp only [waitRound, St.push, St.setProf, Function.update_self]; exact hstep1.1
                · have := hfr.ready hd1 hstep1.2.1
                  simpa only [waitRound, St.push, St.setProf, Function.update_self] using this
                · have := hfr.late hd1 hstep1.2.1 hstep1.2.2
                  simpa only [waitRound, St.push, St.setProf, Function.update_self] using this
                · simp only [waitRound, St.push, St.setProf, Function.update_self]
                  rw [h1comp, h1deps]
                · simp only [waitRound, St.push, St.setProf, Function.update_self]
                · simp only [waitRound, St.push, St.setProf, Function.update_self]; omega
                · simp only [Int.add_emod_right]; exact hsl'
                · have hold := hfr.skip hd1 hsk
                  simp only [waitRound, St.push, St.setProf, Function.update_self]
                  intro t ht1 ht2 ht3
                  by_cases htc : t < e.cycle
                  · exact hold t ht1 htc ht3
                  · have hte : t = e.cycle := by
                      have hz : (t - e.cycle) % c.total = 0 := by
                        apply Int.emod_eq_zero_of_dvd
                        exact Int.dvd_of_emod_eq_zero (Int.emod_eq_emod_iff_emod_sub_eq_zero.1 (by rw [hsl', ht3]))
                      rw [Int.emod_eq_of_lt (by omega) (by omega)] at hz
                      omega
                    have hl0 : s.lock (c.key pk) ≠ -1 := by omega
                    obtain ⟨_, q, qk, a1, a2, a3, a4, a5⟩ := hi.lockEx _ hl0
                    have hqe : q ≠ e.pkt := by
                      rintro rfl
                      exact a2 (List.mem_map.2 ⟨e, he, rfl⟩)
                    have hfq := hi.fin q qk a1 a2
                    refine ⟨q, qk, a1, ?_, a3, a4, ?_⟩
                    · rw [h1done]; exact hfq.done
                    · simp only [Function.update_of_ne hqe]
                      rw [h1f.prof q hqe, a5, hte, hlk']
            · refine Turn.requeue ⟨e.cycle + c.total, e.pkt, e.comp⟩ rfl (by simp; omega)
                (Or.inl (by simp; omega)) (by simp [waitRound, St.push, St.setProf, h1heap])
                (by simp [waitRound, St.push, St.setProf, h1done])
                (by simp [waitRound, St.push, St.setProf, h1lock]) ?_ (fun h => h)
                (hone (Or.inr (Or.inr (Or.inr ⟨hcomp, rfl, hlk', by
                  simp only [waitRound, St.push, St.setProf, Function.update_self]; omega⟩))))
              intro q hq
              simp only [waitRound, St.push, St.setProf, Function.update_of_ne hq]
              exact h1f.prof q hq
          · rw [if_neg hlk]
            unfold sendRemote
            obtain ⟨dist, hdist, hdpos⟩ := getDistance_some hc pk.src pk.dest
            rw [hdist]
            refine ⟨_, rfl, ?_, Turn.complete h1heap⟩
            have hslotEq : (if (s1.prof e.pkt).slot = -1 then e.cycle else (s1.prof e.pkt).slot)
                = e.cycle := by
              split
              · rfl
              · rename_i h
                rw [h1slot] at h ⊢
                exact (hskip h).1
            refine hi.complete he hmin h1heap ?_ hpk ?_ ?_
              (Or.inr ⟨hloc, by rw [← h1lock]; exact fun h => hlk h.symm, by rw [← h1lock], ?_⟩)
            · refine ⟨fun q hq => ?_, fun q hq => ?_⟩
              · simp only [Function.update_of_ne hq]; rw [h1done]
              · simp only [Function.update_of_ne hq]; exact h1f.prof q hq
            · generalize hs2 : ((fun left => let q := s1.prof e.pkt
                  St.mk s1.heap (Function.update s1.done e.pkt (e.cycle + left))
                  (Function.update s1.lock (c.key pk) e.cycle)
                  (Function.update s1.prof e.pkt (Prof.mk q.deps q.comp
                    (if q.slot = -1 then e.cycle else q.slot)
                    (e.cycle + left)))) dist) = s2
              have hfr : Frame s1 s2 e.pkt := by
                subst hs2
                exact ⟨fun q hq => by simp only [Function.update_of_ne hq],
                  fun q hq => by simp only [Function.update_of_ne hq]⟩
              have hd1 : s1.done e.pkt = -1 := by rw [h1done]; exact hp.done
              have e1 : s2.prof e.pkt = ⟨(s1.prof e.pkt).deps, (s1.prof e.pkt).comp, e.cycle,
                  e.cycle + dist⟩ := by
                subst hs2
                simp only [Function.update_self, hslotEq]
              have e2 : s2.done e.pkt = e.cycle + dist := by
                subst hs2; simp only [Function.update_self]
              refine ⟨by rw [e2]; omega, by rw [e1, e2], ⟨?_, ?_, ?_⟩, ?_, ?_, ?_,
                fun h => absurd h hloc, fun _ => ⟨?_, ⟨dist, hdist, ?_⟩, ?_⟩⟩
              · rw [e1]; exact hstep1.1
              · rw [e1]; exact hfr.ready hd1 hstep1.2.1
              · rw [e1]; exact hfr.late hd1 hstep1.2.1 hstep1.2.2
              · rw [e1]; simp only []; rw [h1comp, h1deps]
              · rw [e1]; exact hcle
              · rw [e1]
              · rw [e1]; exact hsl'
              · rw [e1]
              · rw [e1]; exact hfr.skip hd1 hsk
            · simp only [Function.update_self]; omega
            · simp only [Function.update_self]; exact hslotEq
        · rw [if_neg hsl]
          have hsl' : e.cycle % c.total ≠ c.slot (c.key pk) := by rw [← htm]; exact hsl
          have hslot1 : (s.prof e.pkt).slot = -1 := by
            by_contra h
            exact hsl' (hskip h).2.1
          unfold waitSlot
          rw [if_pos (by rw [h1slot]; exact hslot1), htm]
          have hm0 := Int.emod_nonneg e.cycle hT.ne'
          have hm1 := Int.emod_lt_of_pos e.cycle hT
          obtain ⟨hw0, hw1, hw2⟩ := findEventCycle_pos hm0 hm1 hsl0 hsl1 hsl'
          have hhit := findEventCycle_hit (curr := e.cycle % c.total) hsl0 hsl1
          generalize findEventCycle (e.cycle % c.total) (c.slot (c.key pk)) c.total = w at *
          rw [Int.emod_add_emod] at hhit
          refine ⟨_, rfl, ?_, ?_⟩
          · refine hi.requeue (e' := ⟨e.cycle + w, e.pkt, e.comp⟩) he hmin rfl
              (by simp; omega) (by simp [St.push, St.setProf, h1heap])
              (by simp [St.push, St.setProf, h1lock]) ?_ (hone ?_)
            · refine ⟨fun q hq => ?_, fun q hq => ?_⟩
              · simp only [St.push, St.setProf]; rw [h1done]
              · simp only [St.push, St.setProf, Function.update_of_ne hq]
                exact h1f.prof q hq
            · generalize hs2 : (s1.setProf e.pkt ⟨(s1.prof e.pkt).deps, (s1.prof e.pkt).comp,
                  e.cycle + w, (s1.prof e.pkt).data⟩).push ⟨e.cycle + w, e.pkt, e.comp⟩ = s2
              have hfr : Frame s1 s2 e.pkt := by
                subst hs2
                exact ⟨fun q hq => by simp only [St.push, St.setProf],
                  fun q hq => by simp only [St.push, St.setProf, Function.update_of_ne hq]⟩
              have hd1 : s1.done e.pkt = -1 := by rw [h1done]; exact hp.done
              have e1 : s2.prof e.pkt = ⟨(s1.prof e.pkt).deps, (s1.prof e.pkt).comp, e.cycle + w,
                  (s1.prof e.pkt).data⟩ := by
                subst hs2
                simp only [St.push, St.setProf, Function.update_self]
              have e2 : s2.done e.pkt = -1 := by
                subst hs2; exact hd1
              refine ⟨e2, by rw [e1]; exact h1data, fun h => ?_,
                fun _ => ⟨⟨?_, ?_, ?_⟩, Or.inr ⟨?_, ?_, hloc, ?_, hhit, ?_⟩⟩⟩
              · simp only [hcomp] at h; cases h
              · rw [e1]; exact hstep1.1
              · rw [e1]; exact hfr.ready hd1 hstep1.2.1
              · rw [e1]; exact hfr.late hd1 hstep1.2.1 hstep1.2.2
              · rw [e1]; simp only []; rw [h1comp, h1deps]
              · rw [e1]
              · rw [e1]; simp only []; omega
              · rw [e1]
                simp only []
                intro t ht1 ht2 ht3
                have hce := hskip' hslot1
                exfalso
                refine hw2 (t - e.cycle) (by omega) (by omega) ?_
                rw [Int.emod_add_emod, show e.cycle + (t - e.cycle) = t by ring]
                exact ht3
          · refine Turn.requeue ⟨e.cycle + w, e.pkt, e.comp⟩ rfl (by simp; omega)
              (Or.inl (by simp; omega)) (by simp [St.push, St.setProf, h1heap])
              (by simp [St.push, St.setProf, h1done])
              (by simp [St.push, St.setProf, h1lock]) ?_ (fun h => h)
              (hone (Or.inr (Or.inr (Or.inl ⟨hcomp, hslot1, by simp; omega, by
                simp only [St.push, St.setProf, Function.update_self]; omega⟩))))
            intro q hq
            simp only [St.push, St.setProf, Function.update_of_ne hq]
            exact h1f.prof q hq
  · simp only [hd]
    refine ⟨_, rfl, ?_, ?_⟩
    · refine hi.requeue (e' := ⟨e.cycle + 1, e.pkt, e.comp⟩) he hmin rfl (by simp) rfl rfl
        ⟨fun _ _ => rfl, fun _ _ => rfl⟩ (hone ?_)
      cases hcomp : e.comp with
      | false =>
        refine ⟨hp.done, hp.data, fun _ => ⟨(hp.idle hcomp).1, Or.inr ⟨le_refl _, d, hdm, ?_⟩⟩,
          fun h => by cases h⟩
        rcases hdd with h | h
        · exact Or.inl h
        · right; simp only [St.push]; omega
      | true =>
        exfalso
        obtain ⟨hst, hw⟩ := hp.work hcomp
        have hrd := hst.2.1 d hdm
        have hle : (s.prof e.pkt).deps ≤ e.cycle := by
          rcases hw with ⟨_, _, h⟩ | ⟨h, _, _, h', _⟩ <;> omega
        rcases hdd with h | h
        · exact hrd.1 h
        · omega
    · refine Turn.requeue ⟨e.cycle + 1, e.pkt, e.comp⟩ rfl (by simp) (Or.inl (by simp)) rfl rfl rfl
        (fun _ _ => rfl) (fun h => h) (hone (Or.inl ⟨?_, rfl, rfl, rfl⟩))
      intro hr
      rcases hdd with h | h
      · exact (hr d hdm).1 h
      · have := (hr d hdm).2; omega

/-! ### Runs -/

/-- `k` turns of the loop from a state. -/
def iter (c : Cfg) : Nat → St → Option St
  | 0, s => some s
  | k + 1, s => (step c s).bind (iter c k)

theorem run_add (c : Cfg) (n k : Nat) : run c (n + k) = (run c n).bind (iter c k) := by
  induction k generalizing n with
  | zero => cases run c n <;> simp [iter]
  | succ k ih =>
    rw [show n + (k + 1) = (n + 1) + k by omega, ih, run, Option.bind_assoc]
    rfl

theorem run_inv (hc : c.Ok) (n : Nat) : ∃ s now, run c n = some s ∧ Inv c s now := by
  induction n with
  | zero => exact ⟨_, 0, rfl, initial_inv⟩
  | succ n ih =>
    obtain ⟨s, now, h1, h2⟩ := ih
    rw [run, h1, Option.bind_some]
    cases ht : top s.heap with
    | none => exact ⟨s, now, by simp [step, ht], h2⟩
    | some e =>
      obtain ⟨s', h3, h4, _⟩ := step_spec hc h2 ht
      exact ⟨s', _, h3, h4⟩

/-- Work left for an event before cycle `B`. -/
def weight (B : Int) (e : Ev) : Nat := 2 * (B + 1 - e.cycle).toNat + if e.comp then 0 else 1

theorem weight_erase {B : Int} {l : List Ev} {e : Ev} (h : e ∈ l) :
    (l.map (weight B)).sum = weight B e + ((l.erase e).map (weight B)).sum := by
  have := (List.perm_cons_erase h).map (weight B)
  rw [this.sum_eq, List.map_cons, List.sum_cons]

theorem progress_aux (hc : c.Ok) {M D L B : Int} (hMD : D + 1 ≤ M) {pk : Packet}
    (hB1 : M + pk.duration + c.total ≤ B) (hB2 : L + c.total ≤ B) :
    ∀ (m : Nat) (s : St) (now : Int) (e0 : Ev), Inv c s now → e0 ∈ s.heap →
      c.pkts[e0.pkt]? = some pk → (∀ d ∈ pk.deps, s.done d ≠ -1 ∧ s.done d ≤ D) →
      s.lock (c.key pk) = L →
      (e0.comp = false → e0.cycle ≤ M) →
      (e0.comp = true → (s.prof e0.pkt).slot = -1 → e0.cycle ≤ M + pk.duration) →
      (e0.comp = true → (s.prof e0.pkt).slot ≠ -1 →
        e0.cycle ≤ M + pk.duration + c.total ∨ e0.cycle ≤ L + c.total) →
      (s.heap.map (weight B)).sum = m →
      ∃ k s' now', iter c k s = some s' ∧ Inv c s' now' ∧ s'.heap.length < s.heap.length := by
  intro m
  induction m using Nat.strong_induction_on with
  | _ m ih =>
    intro s now e0 hi he0 hpk hdeps hL h1 h2 h3 hm
    have hdur := hc.dur pk (List.mem_of_getElem? hpk)
    have hT := hc.total
    have hcB : e0.cycle ≤ B := by
      cases hcm : e0.comp with
      | false => have := h1 hcm; omega
      | true =>
        by_cases hs : (s.prof e0.pkt).slot = -1
        · have := h2 hcm hs; omega
        · rcases h3 hcm hs with h | h <;> omega
    cases ht : top s.heap with
    | none =>
      have := top_none ht
      rw [this] at he0
      cases he0
    | some e =>
      obtain ⟨he, hmin⟩ := top_spec ht
      obtain ⟨s', hst, hi', turn⟩ := step_spec hc hi ht
      cases turn with
      | complete heap =>
        refine ⟨1, s', _, by simp [iter, hst], hi', ?_⟩
        rw [heap, List.length_erase_of_mem he]
        have := List.length_pos_of_mem he
        omega
      | requeue e' pkt cycle progress heap done lock prof comp why =>
        have hlen : s'.heap.length = s.heap.length := by
          rw [heap, List.length_cons, List.length_erase_of_mem he]
          have := List.length_pos_of_mem he
          omega
        have hecB : e.cycle ≤ B := (hmin e0 he0).trans hcB
        have hw : (s'.heap.map (weight B)).sum < m := by
          rw [← hm, weight_erase he, heap, List.map_cons, List.sum_cons]
          have : weight B e' < weight B e := by
            unfold weight
            rcases progress with h | ⟨h, h'⟩
            · have : (B + 1 - e'.cycle).toNat + 1 ≤ (B + 1 - e.cycle).toNat := by omega
              split <;> split <;> omega
            · rw [h, h']
              have : (B + 1 - e'.cycle).toNat ≤ (B + 1 - e.cycle).toNat := by omega
              simp
              omega
          omega
        have next : ∃ k s'' now', iter c k s' = some s'' ∧ Inv c s'' now' ∧
            s''.heap.length < s'.heap.length := by
          by_cases hne : e0.pkt = e.pkt
          · have hee : e0 = e := List.inj_on_of_nodup_map hi.nodup he0 he hne
            subst hee
            refine ih _ hw s' _ e' hi' (by rw [heap]; exact List.mem_cons_self) (by rw [pkt]; exact hpk)
              (by rw [done]; exact hdeps) (by rw [lock]; exact hL) ?_ ?_ ?_ rfl
            · intro hcf
              rcases why pk hpk with ⟨hr, hcy, hcc, hpp⟩ | ⟨_, h, _⟩ | ⟨h, _⟩ | ⟨h, _⟩
              · have : e0.cycle < D := by
                  by_contra hlt
                  exact hr fun d hd => ⟨(hdeps d hd).1, (hdeps d hd).2.trans (by omega)⟩
                omega
              · rw [h] at hcf; cases hcf
              · rw [comp h] at hcf; cases hcf
              · rw [comp h] at hcf; cases hcf
            · intro hct hsl
              rw [pkt] at hsl
              rcases why pk hpk with ⟨hr, hcy, hcc, hpp⟩ | ⟨h, _, h', _⟩ | ⟨_, _, _, h⟩ | ⟨_, _, _, h⟩
              · exfalso
                rw [hcc] at hct
                have hp := hi.pend e0 he0 pk hpk
                obtain ⟨hst, hw⟩ := hp.work hct
                have hle : (s.prof e0.pkt).deps ≤ e0.cycle := by
                  rcases hw with ⟨_, _, h⟩ | ⟨h, _, _, h', _⟩ <;> omega
                exact hr fun d hd => ⟨(hst.2.1 d hd).1, (hst.2.1 d hd).2.trans hle⟩
              · have := h1 h; omega
              · exact absurd hsl h
              · exact absurd hsl h
            · intro hct hsl
              rw [pkt] at hsl
              rcases why pk hpk with ⟨hr, hcy, hcc, hpp⟩ | ⟨_, _, _, h⟩ | ⟨h, h', h'', _⟩ | ⟨_, h, h', _⟩
              · exfalso
                rw [hcc] at hct
                have hp := hi.pend e0 he0 pk hpk
                obtain ⟨hst, hw⟩ := hp.work hct
                have hle : (s.prof e0.pkt).deps ≤ e0.cycle := by
                  rcases hw with ⟨_, _, h⟩ | ⟨h, _, _, h', _⟩ <;> omega
                exact hr fun d hd => ⟨(hst.2.1 d hd).1, (hst.2.1 d hd).2.trans hle⟩
              · exact absurd h hsl
              · left; have := h2 h h'; omega
              · right; omega
          · refine ih _ hw s' _ e0 hi' ?_ hpk (by rw [done]; exact hdeps) (by rw [lock]; exact hL)
              h1 (by rw [prof _ hne]; exact h2) (by rw [prof _ hne]; exact h3) rfl
            rw [heap]
            exact List.mem_cons_of_mem _ ((erase_mem hi.nodup he).2 ⟨he0, hne⟩)
        obtain ⟨k, s'', now', a, b, d⟩ := next
        exact ⟨k + 1, s'', now', by simp [iter, hst, a], b, by omega⟩

theorem exists_le_all (l : List Nat) (f : Nat → Int) : ∃ D, ∀ d ∈ l, f d ≤ D := by
  induction l with
  | nil => exact ⟨0, by simp⟩
  | cons a l ih =>
    obtain ⟨D, h⟩ := ih
    refine ⟨max D (f a), ?_⟩
    intro d hd
    rcases List.mem_cons.1 hd with rfl | hd
    · exact le_max_right _ _
    · exact (h d hd).trans (le_max_left _ _)

theorem progress (hc : c.Ok) {rank : Nat → Nat}
    (hrank : ∀ p pk, c.pkts[p]? = some pk → ∀ d ∈ pk.deps, rank d < rank p)
    {s : St} {now : Int} (hi : Inv c s now) (hne : s.heap ≠ []) :
    ∃ k s' now', iter c k s = some s' ∧ Inv c s' now' ∧ s'.heap.length < s.heap.length := by
  classical
  have hex : ∃ r, ∃ e ∈ s.heap, rank e.pkt = r := by
    obtain ⟨e, he⟩ := List.exists_mem_of_ne_nil _ hne
    exact ⟨_, e, he, rfl⟩
  obtain ⟨e0, he0, hr0⟩ := Nat.find_spec hex
  have hmin : ∀ e ∈ s.heap, rank e0.pkt ≤ rank e.pkt := by
    intro e he
    rw [hr0]
    exact Nat.find_min' hex ⟨e, he, rfl⟩
  have hlt := hi.lt e0 he0
  obtain ⟨pk, hpk⟩ : ∃ pk, c.pkts[e0.pkt]? = some pk := ⟨_, List.getElem?_eq_getElem hlt⟩
  have hmem : pk ∈ c.pkts := List.mem_of_getElem? hpk
  obtain ⟨D, hD⟩ := exists_le_all pk.deps s.done
  have hdeps : ∀ d ∈ pk.deps, s.done d ≠ -1 ∧ s.done d ≤ D := by
    intro d hd
    refine ⟨?_, hD d hd⟩
    have hdl := hc.deps pk hmem d hd
    refine (hi.fin d _ (List.getElem?_eq_getElem hdl) ?_).done
    intro hq
    obtain ⟨x, hx, hxe⟩ := List.mem_map.1 hq
    have h1 := hmin x hx
    have h2 := hrank _ pk hpk d hd
    rw [hxe] at h1
    omega
  have hdur := hc.dur pk hmem
  have hT := hc.total
  refine progress_aux hc (M := max e0.cycle (D + 1)) (D := D) (L := s.lock (c.key pk))
    (B := max (max e0.cycle (D + 1) + pk.duration + c.total) (s.lock (c.key pk) + c.total))
    (le_max_right _ _) (pk := pk) (le_max_left _ _) (le_max_right _ _) _ s now e0 hi he0 hpk hdeps rfl
    (fun _ => le_max_left _ _) (fun _ _ => ?_) (fun _ _ => Or.inl ?_) rfl
  · have := le_max_left e0.cycle (D + 1); omega
  · have := le_max_left e0.cycle (D + 1); omega

theorem terminates (hc : c.Ok) {rank : Nat → Nat}
    (hrank : ∀ p pk, c.pkts[p]? = some pk → ∀ d ∈ pk.deps, rank d < rank p) :
    ∃ n s now, run c n = some s ∧ s.heap = [] ∧ Inv c s now := by
  have : ∀ (m n : Nat) (s : St) (now : Int), run c n = some s → Inv c s now → s.heap.length = m →
      ∃ n s now, run c n = some s ∧ s.heap = [] ∧ Inv c s now := by
    intro m
    induction m using Nat.strong_induction_on with
    | _ m ih =>
      intro n s now h1 h2 h3
      by_cases hne : s.heap = []
      · exact ⟨n, s, now, h1, hne, h2⟩
      · obtain ⟨k, s', now', a, b, d⟩ := progress hc hrank h2 hne
        exact ih _ (by omega) (n + k) s' now' (by rw [run_add, h1, Option.bind_some, a]) b rfl
  exact this _ 0 _ 0 rfl initial_inv rfl

end Kiter.TDMA
