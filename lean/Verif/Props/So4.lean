/-
**C120** (execution over a network with time slots) and **C121** (tables of slots).
-/
import Verif.Lemmas.So4
import Mathlib.Data.Fin.VecNotation
import Mathlib.Tactic.FinCases
import Mathlib.Tactic.NormNum
import Mathlib.Tactic.IntervalCases

set_option autoImplicit false

namespace Kiter.So4
open Kiter.Sim

variable {nV nE : Nat} {g : Graph nV nE} {T : Table nE}

/-- **C120, arrival dates**: what is produced at an integer date (within the range of `int`) leaves at the first date of the slot of its channel and arrives
after one time unit per link. -/
theorem _root_.Kiter.C120_arrival (hT : T.OK) (e : Fin nE) (n : ℕ) (hn : n ≤ 2147483647) :
    ∃ d, arrival T e (n : ℚ) = some d ∧ Crosses T e n d := by
  have : ∃ d, arrival T e (n : ℚ) = some d := by
    unfold arrival toInt
    have h0 : (if (0 : ℚ) ≤ (n : ℚ) then ⌊(n : ℚ)⌋ else ⌈(n : ℚ)⌉) = (n : Int) := by
      rw [if_pos (Nat.cast_nonneg n)]; simp
    rw [h0]
    dsimp only
    rw [if_pos (by omega)]
    simp only [Option.bind_eq_bind, Option.bind_some]
    rw [if_neg (by have := hT.1; omega)]
    split
    · exact ⟨_, rfl⟩
    · split <;> exact ⟨_, rfl⟩
  obtain ⟨d, hd⟩ := this
  exact ⟨d, hd, arrival_crosses hT hd⟩

/-- **C120** With integer durations and a table of slots that makes sense, every execution started by the simulation starts after the arrival over the network of
what it consumes, and after the end of the execution of the task before. -/
theorem _root_.Kiter.C120_respects (h : Sim.OK g) (hg : ∀ a, ∃ e, g.tgt e = a) (hT : T.OK) (hi : ∀ a, ∀ d ∈ g.dur a, ∃ n : ℕ, d = n)
    {c : Cfg nV nE} {m : Machine nV nE} {detect : Bool} (hs : start g none detect = some (c, m)) {n : ℕ} {x : Run nV nE}
    (hx : rounds T c (init m) n = some x) : Respects g T x.hist :=
  good_respects (good_rounds h hg hT hi hs n hx)

/-- **C120, conservation**: no token is lost or made by the network. What is on a channel and on its way to it is what was there at first and what the ended executions have
produced, less what the started ones have consumed; and a channel never holds less than nothing. -/
theorem _root_.Kiter.C120_conservation (h : Sim.OK g) (hg : ∀ a, ∃ e, g.tgt e = a) (hT : T.OK) (hi : ∀ a, ∀ d ∈ g.dur a, ∃ n : ℕ, d = n)
    {c : Cfg nV nE} {m : Machine nV nE} {detect : Bool} (hs : start g none detect = some (c, m)) {n : ℕ} {x : Run nV nE}
    (hx : rounds T c (init m) n = some x) (e : Fin nE) :
    x.r.m.st.tokens e + ((x.net.filter fun i => decide (i.2.1 = e)).map fun i => i.2.2).sum =
      g.preload e + cum (g.prod e) (x.r.m.completed (g.src e)) - cum (g.cons e) (x.hist (g.tgt e)).length ∧
    0 ≤ x.r.m.st.tokens e := by
  obtain ⟨d, arr, I⟩ := good_rounds h hg hT hi hs n hx
  constructor
  · rw [I.nets e, List.map_map, I.tok e, I.len]
    have h2 : ((fun i : ℚ × Fin nE × Int => i.2.2) ∘ fun j => (arr e j, e, rate (g.prod e) j)) = rate (g.prod e) := rfl
    rw [h2, sum_range', Nat.add_sub_cancel' (I.dle e)]
    ring
  · rw [I.tok e]
    cases hk : (x.r.m.acts (g.tgt e)).numExecs with
    | zero =>
      have := h.preload e
      have := cum_mono (h.prodNonneg e) (Nat.zero_le (d e))
      simp at this ⊢; omega
    | succ k =>
      obtain ⟨n, hn, -, h2⟩ := I.fed e k (by omega)
      have := cum_mono (h.prodNonneg e) hn
      omega

/-! ### What is printed -/

/-- The dates written down are those of the starts, in order; once every task has been seen after the recurrent state nothing more is written. -/
structure Written (x : Run nV nE) : Prop where
  pre : ∀ a, (x.r.starts a).flatten <+: x.hist a
  all : ∀ a, x.r.found = none ∨ x.r.check a = none → (x.r.starts a).flatten = x.hist a
  chk : ∀ a, (x.r.check a).isSome → x.r.found.isSome

theorem pushLast_flatten : ∀ {L L' : List (List ℚ)} {t : ℚ}, pushLast L t = some L' → L'.flatten = L.flatten ++ [t]
  | [], _, _, h => by simp [pushLast] at h
  | [l], _, _, h => by simp only [pushLast, Option.some.injEq] at h; subst h; simp
  | l :: l' :: r, L', t, h => by
    unfold pushLast at h
    cases h' : pushLast (l' :: r) t with
    | none => rw [h'] at h; simp at h
    | some L'' =>
      rw [h'] at h
      simp only [Option.map_some, Option.some.injEq] at h
      subst h
      rw [List.flatten_cons, pushLast_flatten h']; simp

theorem written_mark (c : Cfg nV nE) {x : Run nV nE} (a : Fin nV) (hx : Written x) : Written (mark c x a) := by
  unfold mark
  split
  · split
    · unfold record
      split
      · exact ⟨hx.pre, hx.all, hx.chk⟩
      · rename_i hf
        split
        · refine ⟨hx.pre, fun b _ => hx.all b (.inl hf), fun b _ => rfl⟩
        · refine ⟨fun b => ?_, fun b hb => ?_, hx.chk⟩
          · simpa using hx.pre b
          · simpa using hx.all b hb
    · exact ⟨hx.pre, hx.all, hx.chk⟩
  · exact hx

theorem written_end {x y : Run nV nE} {a : Fin nV} (hx : Written x) (he : execEnd T g x a = some y) : Written y := by
  unfold execEnd at he
  split at he
  · simp only [Option.some.injEq] at he; exact he ▸ hx
  · simp only [Option.bind_eq_bind, Option.bind_eq_some_iff, Option.some.injEq] at he
    obtain ⟨l, -, rfl⟩ := he
    exact ⟨hx.pre, hx.all, hx.chk⟩

theorem written_endTask {c : Cfg nV nE} {a : Fin nV} :
    ∀ (n : ℕ) {x y : Run nV nE}, Written x → endTask T c a n x = some y → Written y := by
  intro n
  induction n with
  | zero => intro x y hx hy; simp only [endTask, Option.some.injEq] at hy; exact hy ▸ hx
  | succ n ih =>
    intro x y hx hy
    unfold endTask at hy
    split at hy
    · cases hz : execEnd T c.g (mark c x a) a with
      | none => rw [hz] at hy; simp at hy
      | some z => rw [hz] at hy; exact ih (written_end (written_mark c a hx) hz) hy
    · simp only [Option.some.injEq] at hy; exact hy ▸ hx

theorem written_start {c : Cfg nV nE} {x y : Run nV nE} {a : Fin nV} (hx : Written x) (he : startTask c x a = some y) : Written y := by
  unfold startTask at he
  split at he
  · simp only [Option.some.injEq] at he; exact he ▸ hx
  split at he
  swap
  · simp only [Option.some.injEq] at he; exact he ▸ hx
  cases hl : logStart x.r a with
  | none => rw [hl] at he; simp at he
  | some r' =>
    rw [hl] at he
    simp only [Option.map_some, Option.some.injEq] at he
    subst he
    have hpre : ∀ b, x.hist b <+: Function.update x.hist a (x.hist a ++ [x.r.m.clock]) b := by
      intro b
      by_cases hb : b = a
      · subst hb; simp
      · simp [hb]
    unfold logStart at hl
    split at hl
    · rename_i hf
      split at hl
      · rename_i hck
        cases hp : pushLast (x.r.starts a) x.r.m.clock with
        | none => rw [hp] at hl; simp at hl
        | some L =>
          rw [hp] at hl
          simp only [Option.map_some, Option.some.injEq] at hl
          subst hl
          have hfl := pushLast_flatten hp
          rw [hx.all a (.inr (by simpa using hck))] at hfl
          refine ⟨fun b => ?_, fun b hb => ?_, fun b _ => hf⟩
          · dsimp only
            by_cases hb : b = a
            · subst hb; simp [hfl]
            · simpa [hb] using hx.pre b
          · dsimp only at hb ⊢
            by_cases hba : b = a
            · subst hba
              rcases hb with hb | hb
              · rw [hb] at hf; simp at hf
              · simp at hb
            · simp only [Function.update_of_ne hba] at hb ⊢
              exact hx.all b hb
      · rename_i hck
        simp only [Option.some.injEq] at hl
        subst hl
        refine ⟨fun b => (hx.pre b).trans (hpre b), fun b hb => ?_, fun b _ => hf⟩
        dsimp only at hb ⊢
        have hba : b ≠ a := by
          rintro rfl
          rcases hb with hb | hb
          · rw [hb] at hf; simp at hf
          · rw [hb] at hck; simp at hck
        rw [Function.update_of_ne hba]; exact hx.all b hb
    · rename_i hf
      have hfn : x.r.found = none := by simpa using hf
      have hck : ∀ b, x.r.check b = none := fun b => by
        by_contra hb
        exact hf (hx.chk b (Option.isSome_iff_ne_none.2 hb))
      have key : ∀ (m' : Machine nV nE) (L : List (List ℚ)), L.flatten = (x.r.starts a).flatten ++ [x.r.m.clock] →
          Written ⟨⟨m', Function.update x.r.starts a L, x.r.found, x.r.check, x.r.left, x.r.done⟩, x.net,
            Function.update x.hist a (x.hist a ++ [x.r.m.clock])⟩ := by
        intro m' L hL
        rw [hx.all a (.inl hfn)] at hL
        have : ∀ b, (Function.update x.r.starts a L b).flatten = Function.update x.hist a (x.hist a ++ [x.r.m.clock]) b := by
          intro b
          by_cases hb : b = a
          · subst hb; simp [hL]
          · simpa [hb] using hx.all b (.inl hfn)
        exact ⟨fun b => by dsimp only; rw [this b], fun b _ => this b, hx.chk⟩
      split at hl
      · rename_i h0
        simp only [Option.some.injEq] at hl
        subst hl
        refine key _ [[x.r.m.clock]] ?_
        rw [List.length_eq_zero_iff.1 h0]; simp
      · cases hp : pushLast (x.r.starts a) x.r.m.clock with
        | none => rw [hp] at hl; simp at hl
        | some L =>
          rw [hp] at hl
          simp only [Option.map_some, Option.some.injEq] at hl
          subst hl
          exact key _ L (pushLast_flatten hp)

theorem written_foldlM {f : Run nV nE → Fin nV → Option (Run nV nE)} (hf : ∀ x y a, Written x → f x a = some y → Written y) :
    ∀ (l : List (Fin nV)) {x y : Run nV nE}, Written x → l.foldlM f x = some y → Written y := by
  intro l
  induction l with
  | nil => intro x y hx hy; simp at hy; exact hy ▸ hx
  | cons a l ih =>
    intro x y hx hy
    rw [List.foldlM_cons] at hy
    cases hz : f x a with
    | none => rw [hz] at hy; simp at hy
    | some z => rw [hz] at hy; exact ih (hf _ _ _ hx hz) hy

theorem written_rounds {c : Cfg nV nE} {m : Machine nV nE} :
    ∀ (n : ℕ) {x : Run nV nE}, rounds T c (init m) n = some x → Written x := by
  intro n
  induction n with
  | zero =>
    intro x hx
    simp only [rounds, Option.some.injEq] at hx
    subst hx
    constructor <;> simp [init, logInit]
  | succ n ih =>
    intro x hx
    unfold rounds at hx
    cases hz : rounds T c (init m) n with
    | none => rw [hz] at hx; simp at hx
    | some z =>
      rw [hz] at hx
      have hW := ih hz
      simp only [Option.bind_some] at hx
      unfold round at hx
      split at hx
      · simp only [Option.some.injEq] at hx; exact hx ▸ hW
      simp only [Option.bind_eq_bind, Option.bind_eq_some_iff] at hx
      obtain ⟨y, hy, w, hw, hx⟩ := hx
      have h1 : Written y := written_foldlM (fun _ _ a hx => written_endTask _ hx) _ hW hy
      have h2 : Written (deliver c.g y) := ⟨h1.pre, h1.all, h1.chk⟩
      have h3 : Written w := written_foldlM (fun _ _ a hx => written_start hx) _ h2 hw
      split at hx <;> simp only [Option.some.injEq] at hx
      · exact hx ▸ h3
      · subst hx
        unfold advance
        dsimp only
        split
        · exact h3
        · split <;> exact ⟨h3.pre, h3.all, h3.chk⟩

theorem periodicPart_prefix : ∀ {L : List (List ℚ)} {p : List ℚ}, periodicPart L = some p → p <+: L.flatten
  | [], p, h => by simp [periodicPart] at h; simp [h]
  | [l], p, h => by
    unfold periodicPart at h
    split at h
    · simp at h
    · simp only [Option.some.injEq] at h; subst h; simpa using List.dropLast_prefix l
  | l :: l' :: r, p, h => by
    unfold periodicPart at h
    cases h' : periodicPart (l' :: r) with
    | none => rw [h'] at h; simp at h
    | some q =>
      rw [h'] at h
      simp only [Option.map_some, Option.some.injEq] at h
      subst h
      rw [List.flatten_cons]
      exact List.prefix_append_right_inj l |>.2 (periodicPart_prefix h')

theorem mapM_index {α β : Type} {f : α → Option β} : ∀ {l : List α} {r : List β}, l.mapM f = some r →
    ∀ i (hi : i < l.length) (hr : i < r.length), f l[i] = some r[i] := by
  intro l
  induction l with
  | nil => intro r _ i hi; simp at hi
  | cons a l ih =>
    intro r h i hi hr
    rw [List.mapM_cons] at h
    simp only [Option.bind_eq_bind, Option.bind_eq_some_iff, Option.pure_def, Option.some.injEq] at h
    obtain ⟨b, hb, r', hr', rfl⟩ := h
    cases i with
    | zero => exact hb
    | succ i => exact ih hr' i (by simpa using hi) (by simpa using hr)

/-- **C120, printed starts**: when the simulation returns a schedule, the initial and periodic starts it lists for a task are, in order, the first starts of an execution that
respects the network. -/
theorem _root_.Kiter.C120_printed (h : Sim.OK g) (hg : ∀ a, ∃ e, g.tgt e = a) (hT : T.OK) (hi : ∀ a, ∀ d ∈ g.dur a, ∃ n : ℕ, d = n)
    {n : ℕ} {a : Fin nV} {thr : ℚ} {es : Fin nV → Chart.Entry} (hc : component T g n = some (a, thr, some es)) :
    ∃ starts : Fin nV → List ℚ, Respects g T starts ∧ ∀ b, (es b).init ++ (es b).starts <+: starts b := by
  unfold component at hc
  simp only [Option.bind_eq_bind, Option.bind_eq_some_iff, Option.map_eq_some_iff, Prod.mk.injEq] at hc
  obtain ⟨s, hs, x, hx, o, ho, -, ho'⟩ := hc
  have hW : Written x := written_rounds n hx
  refine ⟨x.hist, C120_respects h hg hT hi hs hx, fun b => ?_⟩
  split at ho
  swap
  · simp at ho
  rename_i hdone
  unfold outcome at ho
  rw [if_pos hdone] at ho
  simp only [Option.bind_eq_bind, Option.bind_eq_some_iff] at ho
  obtain ⟨f, hf, t, ht, l, hl, ho⟩ := ho
  split at ho
  swap
  · simp at ho
  rename_i hlen
  simp only [Option.pure_def, Option.some.injEq] at ho
  rw [← ho] at ho'
  simp only [Prod.mk.injEq, Option.some.injEq] at ho'
  have hb := mapM_index hl b.val (by simp) (by rw [hlen]; exact b.isLt)
  simp only [List.getElem_finRange, Fin.cast_mk, Fin.eta] at hb
  have he : es b = l[b.val]'(by rw [hlen]; exact b.isLt) := by rw [← ho'.2]; rfl
  rw [← he] at hb
  unfold taskEntry at hb
  simp only [Option.bind_eq_bind, Option.bind_eq_some_iff, Option.pure_def, Option.some.injEq] at hb
  obtain ⟨p, hp, q, -, u, -, hb⟩ := hb
  rw [← hb]
  refine List.IsPrefix.trans ?_ (hW.pre b)
  have h1 : (x.r.starts b).flatten = ((x.r.starts b).take f.2).flatten ++ ((x.r.starts b).drop f.2).flatten := by
    rw [← List.flatten_append, List.take_append_drop]
  rw [h1]
  exact (List.prefix_append_right_inj _).2 (periodicPart_prefix hp)

/-! ### A deadlock is never reported -/

/-- What a state of a blocked graph looks like. -/
structure Blocked (c : Cfg nV nE) (x : Run nV nE) : Prop where
  queue : ∀ a, x.r.m.st.queue a = []
  acts : ∀ a, (x.r.m.acts a).numExecs = 0
  tokens : x.r.m.st.tokens = c.g.preload
  net : x.net = []
  done : x.r.done = false
  hist : ∀ a, x.hist a = []

/-- **C120, no report of deadlocks**: on a graph in which no task can start its first execution, the simulation never returns: after any number of passes it is still running
and has started nothing. -/
theorem _root_.Kiter.C120_deadlock_never_reported (h : Sim.OK g) {detect : Bool} {c : Cfg nV nE} {m : Machine nV nE}
    (hs : start g none detect = some (c, m))
    (hb : ∀ a, ∃ e, g.tgt e = a ∧ g.preload e < rate (g.cons e) 0) (n : ℕ) :
    ∃ x, rounds T c (init m) n = some x ∧ x.r.done = false ∧ ∀ a, x.hist a = [] := by
  obtain ⟨hc, hm⟩ : c.g = g ∧ Blocked c (init m) := by
    unfold start at hs
    split at hs
    · cases hm : selectMin g with
      | none => rw [hm] at hs; simp at hs
      | some t =>
        rw [hm] at hs
        simp only [Option.some.injEq, Prod.mk.injEq] at hs
        obtain ⟨rfl, rfl⟩ := hs
        refine ⟨rfl, ?_⟩
        constructor <;> simp [init, logInit]
    · simp at hs
  have key : ∀ x, Blocked c x → ∃ y, round T c x = some y ∧ Blocked c y := by
    intro x hx
    have h1 : (List.finRange nV).foldlM (fun y a => endTask T c a (y.r.m.st.queue a).length y) x = some x := by
      have : ∀ l : List (Fin nV), l.foldlM (fun y a => endTask T c a (y.r.m.st.queue a).length y) x = some x := by
        intro l
        induction l with
        | nil => rfl
        | cons a l ih =>
          rw [List.foldlM_cons, hx.queue a]
          simpa [endTask] using ih
      exact this _
    have h2 : Blocked c (deliver c.g x) := by
      refine ⟨hx.queue, hx.acts, ?_, ?_, hx.done, hx.hist⟩
      · unfold deliver updateState
        dsimp only
        rw [hx.net, hx.tokens]; funext e; simp
      · unfold deliver; dsimp only; rw [hx.net]; rfl
    have h3 : ∀ y, Blocked c y → ∀ a, startTask c y a = some y := by
      intro y hy a
      unfold startTask
      rw [if_neg (by simp [hy.done]), if_neg]
      intro hr
      obtain ⟨e, he, hlt⟩ := hb a
      rw [hc] at hr
      have := (ready_tok hr he).1
      rw [execRate_tgt h _ he, hy.acts, hy.tokens, hc] at this
      omega
    have h4 : (List.finRange nV).foldlM (startTask c) (deliver c.g x) = some (deliver c.g x) := by
      have : ∀ l : List (Fin nV), l.foldlM (startTask c) (deliver c.g x) = some (deliver c.g x) := by
        intro l
        induction l with
        | nil => rfl
        | cons a l ih => rw [List.foldlM_cons, h3 _ h2]; simpa using ih
      exact this _
    refine ⟨advance (deliver c.g x), ?_, ?_⟩
    · unfold round
      rw [if_neg (by simp [hx.done]), h1]
      simp only [Option.bind_eq_bind, Option.bind_some]
      rw [h4]
      simp [h2.done]
    · generalize deliver c.g x = y at h2
      unfold advance
      dsimp only
      split
      · exact h2
      · split
        · exact ⟨h2.queue, h2.acts, h2.tokens, h2.net, h2.done, h2.hist⟩
        · exact ⟨fun a => by dsimp only; rw [h2.queue a]; rfl, h2.acts, h2.tokens, h2.net, h2.done, h2.hist⟩
  have all : ∀ n, ∃ x, rounds T c (init m) n = some x ∧ Blocked c x := by
    intro n
    induction n with
    | zero => exact ⟨_, rfl, hm⟩
    | succ n ih =>
      obtain ⟨x, hx, hbx⟩ := ih
      obtain ⟨y, hy, hby⟩ := key x hbx
      exact ⟨y, by unfold rounds; rw [hx]; exact hy, hby⟩
  obtain ⟨x, hx, hbx⟩ := all n
  exact ⟨x, hx, hbx.done, hbx.hist⟩

/-! ### Cases -/

/-- A circuit of two tasks with one execution each per iteration. -/
def circuit (p q : Int) (dA dB : ℚ) : Graph 2 2 :=
  ⟨![0, 1], ![1, 0], fun _ => [1], fun _ => [1], ![p, q], fun _ => 1, ![[dA], [dB]], fun _ => 1⟩

/-- Both channels over the network. -/
def frame (s₀ s₁ : Int) (h₀ h₁ : Nat) (n : Int) : Table 2 := ⟨fun _ => false, ![s₀, s₁], ![h₀, h₁], n⟩

theorem circuit_ok {p q : Int} {a b : ℕ} (hp : 0 ≤ p) (hq : 0 ≤ q) (ha : (a : ℚ) < longMax) (hb : (b : ℚ) < longMax) :
    Sim.OK (circuit p q a b) ∧ (∀ t, ∃ e, (circuit p q a b).tgt e = t) ∧
    ∀ t, ∀ d ∈ (circuit p q a b).dur t, ∃ n : ℕ, d = n := by
  refine ⟨⟨?_, ?_, ?_, ?_, ?_, ?_, ?_, ?_, ?_, ?_⟩, ?_, ?_⟩
  · intro e; rfl
  · intro e; rfl
  · intro t; exact Nat.one_pos
  · intro t; fin_cases t <;> rfl
  · intro t d hd; fin_cases t <;> simp [circuit] at hd <;> subst hd <;> positivity
  · intro t d hd; fin_cases t <;> simp [circuit] at hd <;> subst hd <;> assumption
  · intro e r hr; simp [circuit] at hr; omega
  · intro e r hr; simp [circuit] at hr; omega
  · intro e; fin_cases e <;> simpa [circuit]
  · intro e _; rfl
  · intro t; fin_cases t
    · exact ⟨1, rfl⟩
    · exact ⟨0, rfl⟩
  · intro t d hd; fin_cases t <;> simp [circuit] at hd
    · exact ⟨a, hd⟩
    · exact ⟨b, hd⟩

/-- The dates of the starts of both tasks, and whether the function has returned. -/
def trace (T : Table 2) (g : Graph 2 2) (n : Nat) : Option (Bool × List ℚ × List ℚ) := do
  let s ← start g none true
  let x ← rounds T s.1 (init s.2) n
  some (x.r.done, x.hist 0, x.hist 1)

/-- What is returned, with the entries as a list. -/
def answer (T : Table 2) (g : Graph 2 2) (n : Nat) : Option (Fin 2 × ℚ × Option (List Chart.Entry)) :=
  (component T g n).map fun o => (o.1, o.2.1, o.2.2.map fun f => [f 0, f 1])

-- Three slots, one token on a circuit, routes of two links and of one: the hypotheses of the theorems hold and the simulation returns.
example : Sim.OK (circuit 0 1 1 1) ∧ (∀ t, ∃ e, (circuit 0 1 1 1).tgt e = t) ∧
    (∀ t, ∀ d ∈ (circuit 0 1 1 1).dur t, ∃ n : ℕ, d = n) ∧ (frame 1 2 2 1 3).OK ∧
    trace (frame 1 2 2 1 3) (circuit 0 1 1 1) 20 = some (true, [0, 6, 12, 18], [3, 9, 15]) ∧
    answer (frame 1 2 2 1 3) (circuit 0 1 1 1) 20 = some (0, 1 / 6, some [⟨[0], 12, [6, 12]⟩, ⟨[3], 6, [9]⟩]) := by
  have h := circuit_ok (p := 0) (q := 1) (a := 1) (b := 1) le_rfl zero_le_one (by norm_num [longMax]) (by norm_num [longMax])
  refine ⟨by simpa using h.1, by simpa using h.2.1, by simpa using h.2.2, ⟨by decide, ?_⟩, by decide +kernel, by decide +kernel⟩
  intro e _; fin_cases e <;> decide

/-- What crossing the network takes at least. -/
theorem crosses_le {e : Fin nE} {fin arr : ℚ} (h : Crosses T e fin arr) (hv : T.virt e = false) : fin + T.hops e ≤ arr := by
  rcases h with ⟨h, -⟩ | ⟨-, d, hd, rfl⟩
  · rw [hv] at h; simp at h
  · have := hd.1.1
    linarith

/-- **C120, the throughput can be wrong**: tokens on their way and the position in the frame are no part of the states that are compared. On this circuit a throughput of 1/3
is reported, with a schedule in which one task starts twice in 8 time units and the other once in 6; in every execution that respects the network, two more executions of a task take at least 7 time units. -/
theorem _root_.Kiter.C120_throughput_counterexample :
    let g := circuit 1 1 3 1
    let T := frame 0 1 2 1 2
    Sim.OK g ∧ (∀ t, ∃ e, g.tgt e = t) ∧ (∀ t, ∀ d ∈ g.dur t, ∃ n : ℕ, d = n) ∧ T.OK ∧
    (∃ n es, component T g n = some (0, 1 / 3, some es) ∧ es 0 = ⟨[], 8, [0, 3]⟩ ∧ es 1 = ⟨[], 6, [0]⟩) ∧
    ∀ starts, Respects g T starts → ∀ k, k + 2 < (starts 0).length → (starts 0).getD k 0 + 7 ≤ (starts 0).getD (k + 2) 0 := by
  intro g T
  have h := circuit_ok (p := 1) (q := 1) (a := 3) (b := 1) zero_le_one zero_le_one (by norm_num [longMax]) (by norm_num [longMax])
  refine ⟨by simpa using h.1, by simpa using h.2.1, by simpa using h.2.2, ⟨by decide, ?_⟩, ⟨20, ?_⟩, ?_⟩
  · intro e _; fin_cases e <;> decide
  · have : answer T g 20 = some (0, 1 / 3, some [⟨[], 8, [0, 3]⟩, ⟨[], 6, [0]⟩]) := by decide +kernel
    unfold answer at this
    simp only [Option.map_eq_some_iff, Prod.mk.injEq] at this
    obtain ⟨⟨a, t, o⟩, h1, h2, h3, f, h4, h5⟩ := this
    simp only at h2 h3 h4
    simp only [List.cons.injEq, and_true] at h5
    exact ⟨f, by rw [h1, h2, h3, h4], h5.1, h5.2⟩
  · intro starts hr k hk
    have hrate : ∀ n, cum [1] n = (n : Int) := by
      intro n
      induction n with
      | zero => simp
      | succ n ih => rw [cum_succ, ih]; simp [rate, Nat.mod_one]
    obtain ⟨d₁, hd₁, ha₁, hc₁⟩ := hr.tokens 1 (k + 2) hk
    have hd₁' : k + 1 < d₁ := by
      simp only [g, circuit, hrate] at hc₁
      simp at hc₁
      omega
    obtain ⟨t₁, hx₁, hl₁⟩ := ha₁ (k + 1) hd₁'
    have hB : k + 1 < (starts 1).length := lt_of_lt_of_le hd₁' hd₁
    obtain ⟨d₀, hd₀, ha₀, hc₀⟩ := hr.tokens 0 (k + 1) hB
    have hd₀' : k < d₀ := by
      simp only [g, circuit, hrate] at hc₀
      simp at hc₀
      omega
    obtain ⟨t₀, hx₀, hl₀⟩ := ha₀ k hd₀'
    have e₁ := crosses_le hx₁ rfl
    have e₀ := crosses_le hx₀ rfl
    have du₀ : g.execDur 0 k = 3 := by simp [Graph.execDur, g, circuit, Nat.mod_one]
    have du₁ : g.execDur 1 (k + 1) = 1 := by simp [Graph.execDur, g, circuit, Nat.mod_one]
    have hh₀ : (T.hops 0 : ℚ) = 2 := by simp [T, frame]
    have hh₁ : (T.hops 1 : ℚ) = 1 := by simp [T, frame]
    unfold endOf at e₀ e₁
    change (starts 0).getD k 0 + g.execDur 0 k + T.hops 0 ≤ t₀ at e₀
    change (starts 1).getD (k + 1) 0 + g.execDur 1 (k + 1) + T.hops 1 ≤ t₁ at e₁
    change t₀ ≤ (starts 1).getD (k + 1) 0 at hl₀
    change t₁ ≤ (starts 0).getD (k + 2) 0 at hl₁
    rw [du₀, hh₀] at e₀
    rw [du₁, hh₁] at e₁
    linarith

/-- **C120, starts can be late**: time goes from one end of an execution to the next, whatever arrives between. Here the second task starts at date 4 although what it needs
is there at date 3, and starting it at that date respects the network. -/
theorem _root_.Kiter.C120_late_counterexample :
    let g := circuit 0 2 2 1
    let T := frame 0 0 1 1 1
    trace T g 3 = some (false, [0, 2], [4]) ∧ Respects g T ![[0, 2], [3]] := by
  intro g T
  refine ⟨by decide +kernel, ?_, ?_⟩
  · intro e k hk
    fin_cases e
    · have hk' : k = 0 := by simp [g, circuit] at hk; omega
      subst hk'
      refine ⟨1, by decide, ?_, by decide⟩
      intro j hj
      have : j = 0 := by omega
      subst this
      refine ⟨3, .inr ⟨rfl, 2, ⟨⟨?_, by decide⟩, ?_⟩, ?_⟩, ?_⟩
      · norm_num [endOf, g, circuit, Graph.execDur]
      · rintro w ⟨hw, -⟩
        norm_num [endOf, g, circuit, Graph.execDur] at hw
        exact_mod_cast hw
      · norm_num [T, frame]
      · norm_num [g, circuit]
    · refine ⟨0, Nat.zero_le _, fun j hj => absurd hj (by omega), ?_⟩
      have hk' : k = 0 ∨ k = 1 := by simp [g, circuit] at hk; omega
      rcases hk' with rfl | rfl <;> decide
  · intro a k hk
    fin_cases a
    · have hk' : k = 0 := by simp at hk; omega
      subst hk'
      norm_num [endOf, g, circuit, Graph.execDur]
    · simp at hk

/-- **C120, durations that are not integers**: the date is truncated before its slot is looked up, so that the departure is not in the slot of the channel. -/
theorem _root_.Kiter.C120_fraction_counterexample :
    (frame 0 1 1 1 2).OK ∧ arrival (frame 0 1 1 1 2) 0 (1 / 2) = some (3 / 2) ∧ ¬ Crosses (frame 0 1 1 1 2) 0 (1 / 2) (3 / 2) := by
  refine ⟨⟨by decide, fun e _ => by fin_cases e <;> decide⟩, by decide +kernel, ?_⟩
  rintro (⟨h, -⟩ | ⟨-, d, -, h⟩)
  · exact absurd h (by decide)
  · have h1 : (frame 0 1 1 1 2).hops 0 = 1 := rfl
    rw [h1] at h
    have h2 : (3 : ℚ) = ((2 * (d + 1) : ℤ) : ℚ) := by push_cast at h ⊢; linarith
    have h3 : (3 : ℤ) = 2 * (d + 1) := by exact_mod_cast h2
    omega

-- A circuit without tokens: the hypotheses of the theorem about deadlocks.
example : ∃ c m, start (circuit 0 0 1 1) none true = some (c, m) ∧ Sim.OK (circuit 0 0 1 1) ∧
    ∀ a, ∃ e, (circuit 0 0 1 1).tgt e = a ∧ (circuit 0 0 1 1).preload e < rate ((circuit 0 0 1 1).cons e) 0 := by
  have h := circuit_ok (p := 0) (q := 0) (a := 1) (b := 1) le_rfl le_rfl (by norm_num [longMax]) (by norm_num [longMax])
  have hs : (start (circuit 0 0 1 1) none true).isSome := by decide +kernel
  obtain ⟨⟨c, m⟩, hs⟩ := Option.isSome_iff_exists.1 hs
  refine ⟨c, m, hs, by simpa using h.1, ?_⟩
  intro a; fin_cases a
  · exact ⟨1, rfl, by decide⟩
  · exact ⟨0, rfl, by decide⟩

/-! ### Tables -/

theorem firstRule_some {κ : Type} [DecidableEq κ] {l : List (κ × Int)} {k : κ} {s : Int} (h : firstRule l k = some s) :
    (k, s) ∈ l := by
  induction l with
  | nil => simp [firstRule] at h
  | cons p l ih =>
    obtain ⟨k', s'⟩ := p
    unfold firstRule at h
    split at h
    · rename_i hk
      simp only [Option.some.injEq] at h
      subst h; subst hk; simp
    · exact List.mem_cons_of_mem _ (ih h)

theorem firstRule_unique {κ : Type} [DecidableEq κ] {l : List (κ × Int)} {k : κ} {s : Int} (hm : (k, s) ∈ l)
    (hu : ∀ s', (k, s') ∈ l → s' = s) : firstRule l k = some s := by
  induction l with
  | nil => simp at hm
  | cons p l ih =>
    obtain ⟨k', s'⟩ := p
    unfold firstRule
    split
    · rename_i hk
      rw [hu s' (by rw [hk]; simp)]
    · rename_i hk
      refine ih ?_ fun s'' hs => hu s'' (List.mem_cons_of_mem _ hs)
      rcases List.mem_cons.1 hm with h | h
      · simp only [Prod.mk.injEq] at h; exact absurd h.1.symm hk
      · exact h

theorem foldl_max (l : List ((Int × Int) × Int)) (m : Int) :
    m ≤ l.foldl (fun m r => if r.2 > m then r.2 else m) m ∧ (∀ r ∈ l, r.2 ≤ l.foldl (fun m r => if r.2 > m then r.2 else m) m) ∧
    (l.foldl (fun m r => if r.2 > m then r.2 else m) m = m ∨ ∃ r ∈ l, r.2 = l.foldl (fun m r => if r.2 > m then r.2 else m) m) := by
  induction l generalizing m with
  | nil => simp
  | cons p l ih =>
    rw [List.foldl_cons]
    obtain ⟨h1, h2, h3⟩ := ih (if p.2 > m then p.2 else m)
    have hle : m ≤ (if p.2 > m then p.2 else m) ∧ p.2 ≤ (if p.2 > m then p.2 else m) := by split <;> omega
    refine ⟨hle.1.trans h1, ?_, ?_⟩
    · intro r hr
      rcases List.mem_cons.1 hr with rfl | hr
      · exact hle.2.trans h1
      · exact h2 r hr
    · rcases h3 with h3 | ⟨r, hr, h3⟩
      · by_cases hp : p.2 > m
        · right; rw [if_pos hp] at h3 ⊢; exact ⟨p, by simp, h3.symm⟩
        · left; rw [if_neg hp] at h3 ⊢; exact h3
      · exact .inr ⟨r, List.mem_cons_of_mem _ hr, h3⟩

/-- **C121, text tables**: from a table of lines `source, destination, slot`, a channel over the network gets the slot of the line of its two ends when there is exactly one slot
for them; when no slot is negative the frame has one slot more than the greatest number, so that the table makes sense for the simulation. -/
theorem _root_.Kiter.C121_txt_partial (p : Placed nE) (size : Int) (rules : List (Int × Int × Int)) :
    ∃ T, txtTable p size (rules.map fun r => [r.1, r.2.1, r.2.2]) = some T ∧ T.virt = p.virt ∧ (∀ e, T.hops e = (p.route e).length) ∧
    (∀ e, p.virt e = false → ∀ a b s, (a, b, s) ∈ rules → p.srcNode e = a + size → p.dstNode e = b + size →
      (∀ s', (a, b, s') ∈ rules → s' = s) → T.slot e = s) ∧
    ((∀ r ∈ rules, 0 ≤ r.2.2) → T.OK ∧ (∀ r ∈ rules, r.2.2 < T.slots) ∧ (T.slots = 1 ∨ ∃ r ∈ rules, T.slots = r.2.2 + 1)) := by
  have hm : (rules.map fun r => [r.1, r.2.1, r.2.2]).mapM (txtRule size) =
      some (rules.map fun r => ((r.1 + size, r.2.1 + size), r.2.2)) := by
    induction rules with
    | nil => rfl
    | cons r l ih =>
      rw [List.map_cons, List.mapM_cons, ih]
      simp [txtRule]
  obtain ⟨f1, f2, f3⟩ := foldl_max (rules.map fun r => ((r.1 + size, r.2.1 + size), r.2.2)) 0
  refine ⟨_, by unfold txtTable; rw [hm]; rfl, rfl, fun _ => rfl, ?_, ?_⟩
  · intro e hv a b s hr ha hb hu
    dsimp only
    rw [hv, ha, hb]
    have : firstRule (rules.map fun r => ((r.1 + size, r.2.1 + size), r.2.2)) (a + size, b + size) = some s := by
      apply firstRule_unique
      · exact List.mem_map.2 ⟨(a, b, s), hr, rfl⟩
      · intro s' hs'
        obtain ⟨⟨a', b', s''⟩, h1, h2⟩ := List.mem_map.1 hs'
        simp only [Prod.mk.injEq] at h2
        obtain ⟨⟨h2, h3⟩, rfl⟩ := h2
        have : a' = a := by omega
        have : b' = b := by omega
        subst a' b'
        exact hu _ h1
    rw [this]; rfl
  · intro hpos
    dsimp only at f1 f2 f3 ⊢
    refine ⟨⟨by show 0 < _ + (1 : Int); omega, ?_⟩, ?_, ?_⟩
    · intro e hv
      dsimp only at hv ⊢
      rw [hv]
      simp only [Bool.false_eq_true, if_false]
      cases hf : firstRule (rules.map fun r => ((r.1 + size, r.2.1 + size), r.2.2)) (p.srcNode e, p.dstNode e) with
      | none => simp only [Option.getD_none]; exact ⟨le_rfl, by omega⟩
      | some s =>
        have hmem := firstRule_some hf
        obtain ⟨r, hr, h2⟩ := List.mem_map.1 hmem
        simp only [Prod.mk.injEq] at h2
        have := hpos r hr
        have := f2 _ hmem
        simp only [Option.getD_some]
        exact ⟨by omega, by dsimp only at this; omega⟩
    · intro r hr
      have := f2 _ (List.mem_map.2 ⟨r, hr, rfl⟩)
      dsimp only at this
      omega
    · rcases f3 with h | ⟨r, hr, h⟩
      · left; rw [h]; rfl
      · right
        obtain ⟨r', hr', rfl⟩ := List.mem_map.1 hr
        exact ⟨r', hr', by rw [← h]⟩

/-- Two tasks on nodes 4 and 5 of a network with 4 routers, and a channel without a rule. -/
def placed : Placed 2 := ⟨fun _ => false, ![[7, 8], [9]], ![4, 5], ![5, 4]⟩

example : (txtTable placed 4 [[0, 1, 2], [3, 3, 5]]).map (fun T => ([T.slot 0, T.slot 1], [T.hops 0, T.hops 1], T.slots)) =
    some ([2, 0], [2, 1], 6) := by decide +kernel

/-- **C121, xml tables**: a channel over the network gets the slot of the rule of the first link of its route. -/
theorem _root_.Kiter.C121_xml_partial (p : Placed nE) (n : Int) (rules : List (Int × Int)) (hr : ∀ e, p.virt e = false → p.route e ≠ []) :
    ∃ T, xmlTable p n rules = some T ∧ T.virt = p.virt ∧ (∀ e, T.hops e = (p.route e).length) ∧
    ∀ e, p.virt e = false → ∀ l s, (p.route e).head? = some l → (l, s) ∈ rules → (∀ s', (l, s') ∈ rules → s' = s) → T.slot e = s := by
  refine ⟨_, by unfold xmlTable; rw [if_pos hr], rfl, fun _ => rfl, ?_⟩
  intro e hv l s hl hm hu
  dsimp only
  rw [hv]
  have : (p.route e).headD 0 = l := by
    cases hp : p.route e with
    | nil => exact absurd hp (hr e hv)
    | cons a t => rw [hp] at hl; simpa using hl
  rw [this, firstRule_unique hm hu]; rfl

/-- **C121, xml tables have one slot too many**: with the number of slots of the file, the frame of the simulation is one slot longer than that of the network; what is produced at
date 1 for slot 0 of a frame of one slot waits until date 2. -/
theorem _root_.Kiter.C121_xml_counterexample :
    ∃ T, xmlTable placed 1 [(7, 0), (9, 0)] = some T ∧ T.slots = 2 ∧ arrival T 1 1 = some 3 ∧
      ¬ Crosses (⟨T.virt, T.slot, T.hops, 1⟩ : Table 2) 1 1 3 := by
  refine ⟨⟨placed.virt, fun e => if placed.virt e then -1 else (firstRule [(7, 0), (9, 0)] ((placed.route e).headD 0)).getD 0,
    fun e => (placed.route e).length, 2⟩, by unfold xmlTable; rw [if_pos (by intro e _; fin_cases e <;> decide)]; rfl, rfl,
    by decide +kernel, ?_⟩
  rintro (⟨h, -⟩ | ⟨-, d, hd, h⟩)
  · exact absurd h (by decide)
  · have h1 : ((placed.route 1).length : ℚ) = 1 := by decide +kernel
    dsimp only at h
    rw [h1] at h
    have h2 : d ≤ 1 := hd.2 ⟨by norm_num, by decide +kernel⟩
    have h3 : (d : ℚ) ≤ 1 := by exact_mod_cast h2
    linarith

/-- **C121, other ways to go wrong**: a heading line makes the reader look past the end of an empty vector; channels without a rule share slot 0; a channel over the network without
a route is read out of bounds. -/
theorem _root_.Kiter.C121_heading_counterexample (p : Placed nE) (size : Int) (lines : List (List Int)) :
    txtTable p size ([] :: lines) = none ∧
    (∀ T, txtTable p size [] = some T → ∀ e, p.virt e = false → T.slot e = 0) := by
  refine ⟨by unfold txtTable; rw [List.mapM_cons]; rfl, ?_⟩
  intro T hT e hv
  unfold txtTable at hT
  simp only [List.mapM_nil, Option.pure_def, Option.bind_eq_bind, Option.bind_some, Option.some.injEq] at hT
  subst hT
  simp [hv, firstRule]

end Kiter.So4
