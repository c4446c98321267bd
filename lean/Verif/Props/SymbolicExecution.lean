/-
Properties C22 to C26: the self-timed (symbolic) execution.
-/
import Verif.Lemmas.SymbolicRec
import Mathlib.Algebra.Order.Archimedean.Basic
import Mathlib.Data.Rat.Floor
import Mathlib.Data.Nat.ModEq
import Mathlib.Tactic.LinearCombination
import Mathlib.Tactic.Positivity
import Mathlib.Data.Fin.VecNotation

set_option autoImplicit false

namespace Kiter
open Finset Sim

variable {nV nE : Nat} {g : Graph nV nE} {cap : Option (Fin nE → Int)}

/-! ### C22 -/

/-- **C22** In every execution, whatever the order of starts, ends and time advances, no channel is ever negative, and
tokens present + tokens consumed by the started executions of the target = initial tokens + tokens produced by the
completed executions of the source. (`completed` counts ends; an actor has started what it completed and what runs.) -/
theorem C22_conservation_partial (h : OK g) {x : Core nV nE} (hx : Reachable g cap x) :
    (∀ e, 0 ≤ x.st.tokens e ∧
      x.st.tokens e + ∑ k ∈ range (x.acts (g.tgt e)).numExecs, rate (g.cons e) k =
        g.preload e + ∑ k ∈ range (x.completed (g.src e)), rate (g.prod e) k) ∧
    ∀ a, (x.acts a).numExecs = x.completed a + (x.st.queue a).length := by
  have hi := inv_reachable h hx
  refine ⟨fun e => ⟨hi.tokNonneg e, ?_⟩, fun a => (hi.len a).symm⟩
  have := hi.tok e
  unfold cum at this
  rw [this]; ring

/-- **C22**, for the program: it holds after every loop test and every time advance. -/
theorem C22_program_partial (h : OK g) {detect : Bool} {c : Cfg nV nE} {m : Machine nV nE}
    (hs : start g cap detect = some (c, m)) (n : ℕ) :
    ∀ e, 0 ≤ (run c m n).st.tokens e ∧
      (run c m n).st.tokens e + ∑ k ∈ range ((run c m n).acts (g.tgt e)).numExecs, rate (g.cons e) k =
        g.preload e + ∑ k ∈ range ((run c m n).completed (g.src e)), rate (g.prod e) k :=
  (C22_conservation_partial h (run_reachable hs n)).1

/-! ### C23 -/

theorem Sim.running_sum {x : Core nV nE} (hi : Inv g cap x) (l : List Int) (a : Fin nV)
    (hl : l.length = g.phases a) :
    cum l (x.acts a).numExecs - cum l (x.completed a) = ((x.st.queue a).map fun y => l.getD (y.2 - 1) 0).sum := by
  have key : ∀ (q : List (ℚ × Nat)) (c : ℕ), (∀ i y, q[i]? = some y → y.2 = (c + i) % g.phases a + 1) →
      cum l (c + q.length) - cum l c = (q.map fun y => l.getD (y.2 - 1) 0).sum := by
    intro q
    induction q with
    | nil => intro c _; simp
    | cons y q ih =>
      intro c hq
      have h1 := ih (c + 1) fun i z hz => by
        rw [hq (i + 1) z (by simpa using hz)]; congr 2; omega
      have h2 := hq 0 y (by simp)
      have h3 : c + (y :: q).length = c + 1 + q.length := by simp; omega
      have h4 : l.getD (y.2 - 1) 0 = rate l c := by unfold rate; rw [h2, hl]; simp
      rw [h3, List.map_cons, List.sum_cons, ← h1, h4, cum_succ]; ring
  rw [← hi.len a]
  exact key _ _ fun i y hy => hi.phs a i y hy

/-- Tokens that running executions of the source of `e` have reserved room for. -/
def Sim.reserved (g : Graph nV nE) (s : St nV nE) (e : Fin nE) : Int :=
  ((s.queue (g.src e)).map fun y => (g.prod e).getD (y.2 - 1) 0).sum
/-- Tokens that running executions of the target of `e` are reading and whose room is not yet free. -/
def Sim.beingRead (g : Graph nV nE) (s : St nV nE) (e : Fin nE) : Int :=
  ((s.queue (g.tgt e)).map fun y => (g.cons e).getD (y.2 - 1) 0).sum

/-- **C23** In every execution with a storage distribution at least as large as the initial tokens, tokens present plus
room reserved by running producers plus tokens being read never exceed the capacity, and the free space is exactly the
difference. -/
theorem C23_capacity (h : OK g) {k : Fin nE → Int} (hk : ∀ e, g.preload e ≤ k e) {x : Core nV nE}
    (hx : Reachable g (some k) x) :
    ∀ e, x.st.tokens e + reserved g x.st e + beingRead g x.st e ≤ k e ∧
      x.st.space e = k e - (x.st.tokens e + reserved g x.st e + beingRead g x.st e) := by
  intro e
  have hi := inv_reachable h hx
  have h1 := running_sum hi (g.prod e) (g.src e) (h.prodLen e)
  have h2 := running_sum hi (g.cons e) (g.tgt e) (h.consLen e)
  have h3 := hi.tok e
  have h4 := hi.space k rfl e
  have h5 := hi.spaceNonneg k rfl hk e
  unfold reserved beingRead
  rw [← h1, ← h2]
  constructor <;> linarith

/-- **C23** Free space is determined by the compared part of the state: two situations of executions with the same
capacities that the state comparison identifies have the same free spaces. -/
theorem C23_space_determined (h : OK g) {k : Fin nE → Int} (hk : ∀ e, g.preload e ≤ k e) {x y : Core nV nE}
    (hx : Reachable g (some k) x) (hy : Reachable g (some k) y) (hs : same x.st y.st) :
    ∀ e, x.st.space e = y.st.space e := by
  intro e
  rw [(C23_capacity h hk hx e).2, (C23_capacity h hk hy e).2]
  unfold reserved beingRead
  rw [hs.2.2.1 e, hs.2.2.2, hs.2.2.2]

/-! ### C24 -/

/-- **C24** When executions are running (queues sorted, remaining times in `[0, LONG_MAX)`), time advances by the
smallest remaining time `d`: the clock grows by `d`, each remaining time decreases by `d` and none becomes negative,
some execution has no time left, and nothing else changes. -/
theorem C24_advance (s : St nV nE) (hsorted : ∀ a, (s.queue a).Pairwise fun x y => x.1 ≤ y.1)
    (hpos : ∀ a, ∀ x ∈ s.queue a, 0 ≤ x.1 ∧ x.1 < longMax) (hrun : ∃ a, s.queue a ≠ []) :
    ∃ d, (advanceTime s).2 = d ∧ (∀ a, ∀ x ∈ s.queue a, d ≤ x.1) ∧ d < longMax ∧
      (∀ a, (advanceTime s).1.queue a = (s.queue a).map fun x => (x.1 - d, x.2)) ∧
      (∀ a, ∀ x ∈ (advanceTime s).1.queue a, 0 ≤ x.1) ∧
      (∃ a x rest, (advanceTime s).1.queue a = x :: rest ∧ x.1 = 0) ∧
      (advanceTime s).1.elapsed = s.elapsed + d ∧ (advanceTime s).1.tokens = s.tokens ∧
      (advanceTime s).1.space = s.space ∧ (advanceTime s).1.phase = s.phase := by
  have hle : ∀ a, ∀ x ∈ s.queue a, nextEvent s ≤ x.1 := by
    intro a x hx
    cases hq : s.queue a with
    | nil => rw [hq] at hx; simp at hx
    | cons y ys =>
      have h1 := nextEvent_le_head s hq
      have h2 := hsorted a
      rw [hq] at hx h2
      rcases List.mem_cons.1 hx with rfl | hx
      · exact h1
      · exact h1.trans ((List.pairwise_cons.1 h2).1 x hx)
  obtain ⟨a0, ha0⟩ := hrun
  obtain ⟨x0, hx0⟩ := List.exists_mem_of_ne_nil _ ha0
  have hlt : nextEvent s < longMax := lt_of_le_of_lt (hle a0 x0 hx0) (hpos a0 x0 hx0).2
  have hqueue : ∀ a, (advanceTime s).1.queue a = (s.queue a).map fun x => (x.1 - nextEvent s, x.2) := by
    intro a
    unfold advanceTime; simp only
    split
    · rename_i h0; rw [h0]; simp
    · rw [if_neg hlt.ne]
  obtain ⟨f1, f2, f3, -⟩ := advance_fields s
  refine ⟨nextEvent s, advance_snd s, hle, hlt, hqueue, fun a x hx => ?_, ?_, ?_, f2, f3, f1⟩
  · rw [hqueue, List.mem_map] at hx
    obtain ⟨y, hy, rfl⟩ := hx
    simpa using hle a y hy
  · rcases nextEvent_cases s with h | ⟨a, y, rest, hy, he⟩
    · exact absurd h hlt.ne
    · exact ⟨a, _, _, by rw [hqueue, hy]; rfl, by simp [he]⟩
  · unfold advanceTime; simp only
    split
    · rename_i h0; rw [h0]; simp
    · rw [if_neg hlt.ne]

/-- **C24** With nothing running, time advance signals deadlock (`LONG_MAX`) and changes nothing. -/
theorem C24_idle (s : St nV nE) (h : ∀ a, s.queue a = []) : advanceTime s = (s, longMax) := by
  have : nextEvent s = longMax := by
    rcases nextEvent_cases s with h1 | ⟨a, y, rest, hy, -⟩
    · exact h1
    · rw [h a] at hy; simp at hy
  unfold advanceTime; simp only [this]
  rw [if_neg longMax_pos.ne']; simp

/-- The bound on remaining times is needed: a single execution of `LONG_MAX` time units is taken for a deadlock. -/
theorem C24_longmax_counterexample :
    (advanceTime (nV := 1) (nE := 0) ⟨fun _ => [(longMax, 1)], fun _ => 1, Fin.elim0, Fin.elim0, 0⟩).2 = longMax := by
  decide +kernel

/-! ### C25 -/

/-- Firing counts that some sequence of executions of the graph reaches: `a` may execute once more when each of its input
channels holds what this execution consumes and, with bounded buffers, each output channel has room for what it
produces. (Executions are atomic here, which allows every sequence that overlapping executions allow.) -/
inductive Fires (g : Graph nV nE) (cap : Option (Fin nE → Int)) : (Fin nV → ℕ) → Prop where
  | zero : Fires g cap fun _ => 0
  | fire (n : Fin nV → ℕ) (a : Fin nV) (hn : Fires g cap n)
      (tokens : ∀ e, g.tgt e = a →
        rate (g.cons e) (n a) ≤ g.preload e + cum (g.prod e) (n (g.src e)) - cum (g.cons e) (n a))
      (room : ∀ k, cap = some k → ∀ e, g.src e = a →
        rate (g.prod e) (n a) ≤ k e - (g.preload e + cum (g.prod e) (n a) - cum (g.cons e) (n (g.tgt e)))) :
      Fires g cap (Function.update n a (n a + 1))

/-- **C25** When the program reports deadlock, no actor is ready, none is running, and no sequence of executions of the
graph, in any order, ever executes an actor more often than the program did. No sequence of moves starts or ends
anything from there. -/
theorem C25_deadlock_real_partial (h : OK g) (hg : Guarded g cap) {detect : Bool} {c : Cfg nV nE} {m : Machine nV nE}
    (hs : start g cap detect = some (c, m)) (hni : 0 < g.ni c.minActor) {n : ℕ}
    (hd : (run c m n).pc = .deadlock) :
    (∀ a, ready g cap (run c m n).acts (run c m n).st a = false ∧ (run c m n).st.queue a = []) ∧
    (∀ k, Fires g cap k → ∀ a, k a ≤ ((run c m n).acts a).numExecs) ∧
    ∀ y, Relation.ReflTransGen (Move g cap) (run c m n).core y →
      y.acts = (run c m n).acts ∧ y.completed = (run c m n).completed ∧ y.st.tokens = (run c m n).st.tokens := by
  obtain ⟨h1, h2, -⟩ := start_spec hs
  have hm := minv_run hs h hg hni n
  obtain ⟨hr, hq⟩ := hm.deadDone hd
  rw [h1, h2] at hr
  have hi := inv_reachable h (run_reachable hs n)
  have hcomp : ∀ a, (run c m n).completed a = ((run c m n).acts a).numExecs := by
    intro a
    have := hi.len a
    simp only [Machine.core] at this
    rw [hq a] at this; simpa using this
  have hidle : ∀ a, ((run c m n).acts a).isExecuting = false := by
    intro a
    rcases (ginv_reachable h hg (run_reachable hs n)).one a with ⟨x, -⟩ | ⟨-, y, hy, -⟩
    · exact x
    · simp only [Machine.core] at hy; rw [hq a] at hy; simp at hy
  refine ⟨fun a => ⟨hr a, hq a⟩, fun k hk => ?_, fun y hy => ?_⟩
  · induction hk with
    | zero => intro a; exact Nat.zero_le _
    | fire k a hk htok hroom ih =>
      intro b
      by_cases hb : b = a
      · subst hb
        rw [Function.update_self]
        rcases Nat.lt_or_ge (k b) ((run c m n).acts b).numExecs with hlt | hge
        · omega
        · have heq : k b = ((run c m n).acts b).numExecs := le_antisymm (ih b) hge
          exfalso
          have hready : ready g cap (run c m n).acts (run c m n).st b = true := by
            unfold ready
            simp only [Bool.and_eq_true, Bool.or_eq_true, decide_eq_true_eq]
            refine ⟨fun e he => ?_, ?_⟩
            · have t1 := htok e he
              have t2 := hi.tok e
              have t3 := cum_mono (h.prodNonneg e) (ih (g.src e))
              simp only [Machine.core] at t2
              rw [hcomp, he] at t2
              rw [execRate_tgt h _ he, hidle b, ← heq]
              rw [heq] at t1 ⊢
              push Not
              exact ⟨by linarith, by simp⟩
            · cases hcap : cap with
              | none => simp
              | some w =>
                right
                intro e he
                have t1 := hroom w hcap e he
                have t2 := hi.space w hcap e
                have t3 := cum_mono (h.consNonneg e) (ih (g.tgt e))
                simp only [Machine.core] at t2
                rw [hcomp, he] at t2
                rw [execRate_src h _ he, hidle b, ← heq]
                rw [heq] at t1 ⊢
                push Not
                exact ⟨by linarith, by simp⟩
          rw [hr b] at hready; simp at hready
      · rw [Function.update_of_ne hb]; exact ih b
  · have key : y.acts = (run c m n).acts ∧ y.completed = (run c m n).completed ∧ y.st.tokens = (run c m n).st.tokens ∧
        y.st.space = (run c m n).st.space ∧ ∀ a, y.st.queue a = [] := by
      induction hy with
      | refl => exact ⟨rfl, rfl, rfl, rfl, hq⟩
      | tail _ hm ih =>
        obtain ⟨i1, i2, i3, i4, i5⟩ := ih
        cases hm with
        | start a hr' =>
          exfalso
          have := hr a
          unfold ready at this hr'
          rw [i1, i3, i4] at hr'
          rw [hr'] at this; simp at this
        | finish a hr' =>
          obtain ⟨_, _, h3, -⟩ := readyToEnd_cons hr'
          rw [i5 a] at h3; simp at h3
        | advance =>
          rw [C24_idle _ i5]; exact ⟨i1, i2, i3, i4, i5⟩
        | reset => exact ⟨i1, i2, i3, i4, i5⟩
    exact ⟨key.1, key.2.1, key.2.2.1⟩

/-! ### C26 -/

theorem Sim.periodic_bounded (w : ℕ → ℚ) (i P : ℕ) (hP : 0 < P) (hw : ∀ n, i ≤ n → w (n + P) = w n) :
    ∃ K, ∀ n, |w n| ≤ K := by
  refine ⟨∑ k ∈ range (i + P), |w k|, fun n => ?_⟩
  induction n using Nat.strong_induction_on with
  | _ n ih =>
    by_cases hn : n < i + P
    · exact single_le_sum (f := fun k => |w k|) (fun k _ => abs_nonneg _) (mem_range.2 hn)
    · have := hw (n - P) (by omega)
      rw [show n - P + P = n by omega] at this
      rw [this]
      exact ih (n - P) (by omega)

theorem Sim.clock_mono_step (h : OK g) (hg : Guarded g cap) {detect : Bool} {c : Cfg nV nE} {m : Machine nV nE}
    (hs : start g cap detect = some (c, m)) (n : ℕ) : (run c m n).clock ≤ (run c m (n + 1)).clock := by
  have hx := ginv_reachable h hg (run_reachable hs n)
  have h0 : 0 ≤ nextEvent (run c m n).st := by
    rcases nextEvent_cases (run c m n).st with h | ⟨b, z, rest, hz, he⟩
    · rw [h]; exact longMax_pos.le
    · rcases hx.one b with ⟨-, h2⟩ | ⟨-, w', hw', h7, -⟩
      · simp only [Machine.core] at h2; rw [hz] at h2; simp at h2
      · simp only [Machine.core] at hw'; rw [hz] at hw'; obtain ⟨rfl, -⟩ := List.cons.inj hw'
        rw [he]; exact h7
  show _ ≤ (step c (run c m n)).clock
  unfold step
  split
  · exact le_refl _
  · split
    · split
      · split
        · split <;> exact le_refl _
        · exact le_refl _
      · exact le_refl _
    · exact le_refl _
  · exact le_refl _
  · split <;> exact le_refl _
  · simp only
    split
    · exact le_refl _
    · rw [advance_snd]; simpa using h0
  · exact le_refl _
  · exact le_refl _

theorem Sim.clock_mono (h : OK g) (hg : Guarded g cap) {detect : Bool} {c : Cfg nV nE} {m : Machine nV nE}
    (hs : start g cap detect = some (c, m)) {i j : ℕ} (hij : i ≤ j) : (run c m i).clock ≤ (run c m j).clock :=
  monotone_nat_of_le_succ (f := fun n => (run c m n).clock) (clock_mono_step h hg hs) hij

/-- The two equivalent situations behind a reported throughput, with the effects of the cycle between them. -/
theorem Sim.recurrence_cycle (h : OK g) (hg : Guarded g cap) {c : Cfg nV nE} {m : Machine nV nE}
    (hs : start g cap true = some (c, m)) (hni : 0 < g.ni c.minActor) {n : ℕ} {thr : ℚ}
    (hres : (run c m n).pc = .recurrent (some thr)) :
    ∃ (i P p : ℕ) (T : ℚ) (X : Fin nV → ℕ), 0 < P ∧ 0 < p ∧ 0 < T ∧ thr * T = p ∧
      (X c.minActor : ℤ) = p * g.ni c.minActor ∧
      (∀ n, i ≤ n → Equiv c.free (run c.free m n) (run c.free m (n + P)) ∧ (run c.free m (n + P)).clock = (run c.free m n).clock + T ∧
        (∀ a, (run c.free m (n + P)).completed a = (run c.free m n).completed a + X a) ∧
        (run c.free m (n + P)).visited.length = (run c.free m n).visited.length + p) ∧
      (∀ k, (run c.free m i).visited.length ≤ k → ∀ n s, (run c.free m n).visited[k + p]? = some s →
        (run c.free m n).visited[k]? = some s) := by
  obtain ⟨i, j, hij, heq, hri, hrj, hlen, hne, hthr⟩ := recurrence h hg hs hni hres
  obtain ⟨h1, h2, -, -, -, -, -, h8, -⟩ := start_spec hs
  have hsf := start_free hs
  have hfg : OK c.free.g := by rw [show c.free.g = g from h1]; exact h
  have hT : (run c.free m i).clock < (run c.free m j).clock := lt_of_le_of_ne (clock_mono h hg hsf hij.le) (Ne.symm hne)
  have ai := (minv_run hsf h hg hni i).acc (by obtain ⟨r, hr⟩ := hri.pc; rw [hr]; simp)
  have aj := (minv_run hsf h hg hni j).acc (by obtain ⟨r, hr⟩ := hrj.pc; rw [hr]; simp)
  have hX : ∀ a, (run c.free m i).completed a ≤ (run c.free m j).completed a := by
    intro a
    have hmono : ∀ n, (run c.free m n).completed a ≤ (run c.free m (n + 1)).completed a := by
      intro n
      show _ ≤ (step c.free (run c.free m n)).completed a
      have he : ∀ (m' : Machine nV nE) t, m'.completed a ≤ (endOne c.free m' t).completed a := by
        intro m' t
        by_cases hat : a = t
        · subst hat; simp [endOne]
        · simp [endOne, hat]
      unfold step
      split
      · exact le_refl _
      · split
        · split
          · split
            · split
              · exact le_refl _
              · exact he _ _
            · exact he _ _
          · exact he _ _
        · exact le_refl _
      · exact le_refl _
      · split <;> exact le_refl _
      · simp only; split <;> exact le_refl _
      · exact le_refl _
      · exact le_refl _
    exact monotone_nat_of_le_succ (f := fun n => (run c.free m n).completed a) hmono hij.le
  have hshift : ∀ d, run c.free m (i + d + (j - i)) = run c.free m (j + d) := fun d => by congr 1; omega
  refine ⟨i, j - i, (run c.free m j).visited.length - (run c.free m i).visited.length, (run c.free m j).clock - (run c.free m i).clock,
    fun a => (run c.free m j).completed a - (run c.free m i).completed a, by omega, by omega, by linarith, ?_, ?_, ?_, ?_⟩
  · rw [hthr, Nat.cast_sub hlen.le]
  · rw [Nat.cast_sub (hX _), Nat.cast_sub hlen.le]
    have e1 := ai.1; have e2 := aj.1
    have e3 := hri.count; have e4 := hrj.count
    simp only [Cfg.free] at e1 e2 e3 e4 ⊢
    rw [← h1, e1, e2]
    have : (run ⟨c.g, c.cap, c.minActor, false⟩ m i).count = (run ⟨c.g, c.cap, c.minActor, false⟩ m j).count := by omega
    rw [this]; ring
  · intro n hn
    obtain ⟨d, rfl⟩ := Nat.exists_eq_add_of_le hn
    obtain ⟨e1, e2⟩ := run_equiv hfg rfl m heq d
    rw [hshift d]
    refine ⟨e1, by linarith [e2.clock], fun a => ?_, ?_⟩
    · obtain ⟨k, k1, k2⟩ := e2.completed a
      have := hX a
      show _ = _ + (_ - _)
      omega
    · obtain ⟨l, l1, l2⟩ := e2.visited
      rw [l1, l2, List.length_append, List.length_append]; omega
  · -- records repeat
    intro k hk n s hget
    set p := (run c.free m j).visited.length - (run c.free m i).visited.length with hp
    -- the record `k + p` is made at some step; look far enough
    have hbig : ∀ d, ∃ l, (run c.free m (j + d)).visited = (run c.free m j).visited ++ l ∧
        (run c.free m (i + d)).visited = (run c.free m i).visited ++ l := by
      intro d
      obtain ⟨l, l1, l2⟩ := (run_equiv hfg rfl m heq d).2.visited
      exact ⟨l, l2, l1⟩
    have ext : ∀ a b, a ≤ b → ∀ (q : ℕ) (t : St nV nE), (run c.free m a).visited[q]? = some t →
        (run c.free m b).visited[q]? = some t := by
      intro a b hab q t ht
      obtain ⟨l, hl⟩ := visited_prefix c.free m a (b - a)
      rw [show a + (b - a) = b by omega] at hl
      rw [hl, List.getElem?_append_left (List.getElem?_eq_some_iff.1 ht).1]; exact ht
    obtain ⟨l, l1, l2⟩ := hbig n
    have g1 := ext n (j + n) (by omega) _ _ hget
    rw [l1, List.getElem?_append_right (by omega)] at g1
    have g2 : (run c.free m (i + n)).visited[k]? = some s := by
      rw [l2, List.getElem?_append_right (by omega)]
      rw [show k - (run c.free m i).visited.length = k + p - (run c.free m j).visited.length by omega]; exact g1
    -- both ends of the comparison lie in the log of step `n`
    have hkn : k < (run c.free m n).visited.length := by
      have := (List.getElem?_eq_some_iff.1 hget).1; omega
    have g3 : (run c.free m n).visited[k]? = some ((run c.free m n).visited[k]) := List.getElem?_eq_getElem hkn
    rw [g3]
    rw [← ext n (i + n) (by omega) _ _ g3, g2]

/-- **C26** If the program stops at a recurrent state and returns `thr`, then in the same execution carried on forever:
the recorded states repeat with a fixed period from some index on; the number of completed iterations (executions of the
reference actor divided by its repetition factor) stays within a constant of `thr` times the elapsed time; and time
grows without bound, so that `thr` is the limit of iterations per time unit. -/
theorem C26_long_run (h : OK g) (hg : Guarded g cap) {c : Cfg nV nE} {m : Machine nV nE}
    (hs : start g cap true = some (c, m)) (hni : 0 < g.ni c.minActor) {n : ℕ} {thr : ℚ}
    (hres : (run c m n).pc = .recurrent (some thr)) :
    (∃ i p, 0 < p ∧ ∀ k, i ≤ k → ∀ n s, (run c.free m n).visited[k + p]? = some s → (run c.free m n).visited[k]? = some s) ∧
    (∃ K, ∀ n, |((run c.free m n).completed c.minActor : ℚ) / g.ni c.minActor - thr * (run c.free m n).clock| ≤ K) ∧
    (∀ B, ∃ N, ∀ n, N ≤ n → B < (run c.free m n).clock) ∧
    ∀ ε, 0 < ε → ∃ N, ∀ n, N ≤ n →
      |((run c.free m n).completed c.minActor : ℚ) / g.ni c.minActor / (run c.free m n).clock - thr| < ε := by
  obtain ⟨i, P, p, T, X, hP, hp, hT, hthr, hXm, hper, hrec⟩ := recurrence_cycle h hg hs hni hres
  have hsf := start_free hs
  have hniq : (0 : ℚ) < g.ni c.minActor := by exact_mod_cast hni
  have hb : ∃ K, ∀ n, |((run c.free m n).completed c.minActor : ℚ) / g.ni c.minActor - thr * (run c.free m n).clock| ≤ K := by
    apply periodic_bounded _ i P hP
    intro n hn
    obtain ⟨-, h2, h3, -⟩ := hper n hn
    rw [h2, h3]
    have hx : ((X c.minActor : ℕ) : ℚ) = p * g.ni c.minActor := by exact_mod_cast hXm
    push_cast
    rw [hx, mul_add, hthr]
    field_simp
    ring
  have hclock : ∀ B, ∃ N, ∀ n, N ≤ n → B < (run c.free m n).clock := by
    intro B
    have hk : ∀ k : ℕ, (run c.free m (i + k * P)).clock = (run c.free m i).clock + k * T := by
      intro k
      induction k with
      | zero => simp
      | succ k ih =>
        have := (hper (i + k * P) (by omega)).2.1
        rw [show i + (k + 1) * P = i + k * P + P by ring, this, ih]; push_cast; ring
    obtain ⟨k, hk2⟩ := exists_nat_gt ((B - (run c.free m i).clock) / T)
    refine ⟨i + k * P, fun n hn => ?_⟩
    have h1 := clock_mono h hg hsf hn
    have h2 : (B - (run c.free m i).clock) < k * T := by rwa [div_lt_iff₀ hT] at hk2
    have h3 := hk k
    have h4 : (run c.free m (i + k * P)).clock ≤ (run c.free m n).clock := h1
    linarith
  refine ⟨⟨_, p, hp, hrec⟩, hb, hclock, fun ε hε => ?_⟩
  obtain ⟨K, hK⟩ := hb
  obtain ⟨N, hN⟩ := hclock (max 0 (K / ε))
  refine ⟨N, fun n hn => ?_⟩
  have hc := hN n hn
  have hc0 : 0 < (run c.free m n).clock := lt_of_le_of_lt (le_max_left _ _) hc
  have hc1 : K / ε < (run c.free m n).clock := lt_of_le_of_lt (le_max_right _ _) hc
  have e : ((run c.free m n).completed c.minActor : ℚ) / g.ni c.minActor / (run c.free m n).clock - thr =
      (((run c.free m n).completed c.minActor : ℚ) / g.ni c.minActor - thr * (run c.free m n).clock) / (run c.free m n).clock := by
    field_simp
  rw [e, abs_div, abs_of_pos hc0, div_lt_iff₀ hc0]
  rw [div_lt_iff₀ hε] at hc1
  calc _ ≤ K := hK n
    _ < (run c.free m n).clock * ε := hc1
    _ = ε * (run c.free m n).clock := by ring

theorem Sim.cum_add_length (l : List Int) (n : ℕ) : cum l (n + l.length) = cum l n + l.sum := by
  by_cases hl : l = []
  · subst hl; simp
  have hpos : 0 < l.length := List.length_pos_iff.2 hl
  induction n with
  | zero =>
    have : ∀ k, k ≤ l.length → cum l k = (l.take k).sum := by
      intro k
      induction k with
      | zero => simp
      | succ k ih =>
        intro hk
        rw [cum_succ, ih (by omega), List.take_succ_eq_append_getElem (by omega), List.sum_append]
        simp [rate, Nat.mod_eq_of_lt (show k < l.length by omega), List.getD_eq_getElem?_getD,
          List.getElem?_eq_getElem (show k < l.length by omega)]
    rw [Nat.zero_add, this _ (le_refl _)]; simp
  | succ n ih =>
    rw [show n + 1 + l.length = n + l.length + 1 by ring, cum_succ, ih, cum_succ]
    have : rate l (n + l.length) = rate l n := by simp [rate]
    rw [this]; ring

theorem Sim.cum_add_mul (l : List Int) (n k : ℕ) : cum l (n + k * l.length) = cum l n + k * l.sum := by
  induction k with
  | zero => simp
  | succ k ih =>
    rw [show n + (k + 1) * l.length = (n + k * l.length) + l.length by ring, Sim.cum_add_length, ih]; push_cast; ring

/-- Two actors share a channel. -/
def Sim.Adj (g : Graph nV nE) (a b : Fin nV) : Prop := ∃ e, g.src e = a ∧ g.tgt e = b ∨ g.src e = b ∧ g.tgt e = a

/-- **C26**, for every actor of a connected graph whose repetition factors balance every channel: the number of
executions of every actor, divided by its repetition factor, follows `thr` times the elapsed time within a constant. -/
theorem C26_every_actor (h : OK g) (hg : Guarded g cap) {c : Cfg nV nE} {m : Machine nV nE}
    (hs : start g cap true = some (c, m)) (hni : ∀ a, 0 < g.ni a)
    (hbal : ∀ e, (g.prod e).sum * g.ni (g.src e) * g.phases (g.tgt e) =
      (g.cons e).sum * g.ni (g.tgt e) * g.phases (g.src e))
    (hps : ∀ e, 0 < (g.prod e).sum) (hcs : ∀ e, 0 < (g.cons e).sum)
    (hcon : ∀ a, Relation.ReflTransGen (Adj g) c.minActor a) {n : ℕ} {thr : ℚ}
    (hres : (run c m n).pc = .recurrent (some thr)) (a : Fin nV) :
    ∃ K, ∀ n, |((run c.free m n).completed a : ℚ) / g.ni a - thr * (run c.free m n).clock| ≤ K := by
  obtain ⟨i, P, p, T, X, hP, hp, hT, hthr, hXm, hper, -⟩ := recurrence_cycle h hg hs (hni _) hres
  have hsf := start_free hs
  obtain ⟨heq, -, hcomp, -⟩ := hper i (le_refl _)
  obtain ⟨h1, h2, -⟩ := start_spec hs
  have ri := inv_reachable h (run_reachable hsf i)
  have rj := inv_reachable h (run_reachable hsf (i + P))
  have hnum : ∀ b, ((run c.free m (i + P)).acts b).numExecs = ((run c.free m i).acts b).numExecs + X b := by
    intro b
    have a1 := ri.len b
    have a2 := rj.len b
    simp only [Machine.core] at a1 a2
    rw [← heq.st, hcomp b] at a2
    omega
  have hdvd : ∀ b, g.phases b ∣ X b := by
    intro b
    have := heq.num b
    rw [hnum b, show c.free.g = g from h1] at this
    have h3 : ((run c.free m i).acts b).numExecs ≡ ((run c.free m i).acts b).numExecs + X b [MOD g.phases b] := this
    have := (Nat.modEq_iff_dvd' (Nat.le_add_right _ _)).1 h3
    simpa using this
  have hedge : ∀ e, (g.prod e).sum * X (g.src e) * g.phases (g.tgt e) =
      (g.cons e).sum * X (g.tgt e) * g.phases (g.src e) := by
    intro e
    have t1 := ri.tok e
    have t2 := rj.tok e
    simp only [Machine.core] at t1 t2
    rw [← heq.st, t1, hcomp, hnum] at t2
    obtain ⟨x, hx⟩ := hdvd (g.src e)
    obtain ⟨y, hy⟩ := hdvd (g.tgt e)
    have l1 := h.prodLen e
    have l2 := h.consLen e
    rw [hx, hy, ← l1, ← l2, mul_comm (g.prod e).length x, mul_comm (g.cons e).length y, Sim.cum_add_mul, Sim.cum_add_mul] at t2
    rw [hx, hy]
    have : (x : ℤ) * (g.prod e).sum = y * (g.cons e).sum := by linarith
    push_cast
    linear_combination ((g.phases (g.src e) : ℤ) * g.phases (g.tgt e)) * this
  have hXa : ∀ b, (X b : ℤ) = p * g.ni b := by
    intro b
    induction hcon b with
    | refl => exact hXm
    | @tail u v _ huv ih =>
      obtain ⟨e, ⟨rfl, rfl⟩ | ⟨rfl, rfl⟩⟩ := huv
      · have e1 := hedge e
        have e2 := hbal e
        rw [ih] at e1
        have : (g.cons e).sum * (g.phases (g.src e) : ℤ) * (X (g.tgt e) - p * g.ni (g.tgt e)) = 0 := by
          linear_combination -e1 + p * e2
        rcases mul_eq_zero.1 this with h0 | h0
        · have := hcs e; have := h.phases (g.src e)
          exact absurd h0 (by positivity)
        · linarith
      · have e1 := hedge e
        have e2 := hbal e
        rw [ih] at e1
        have : (g.prod e).sum * (g.phases (g.tgt e) : ℤ) * (X (g.src e) - p * g.ni (g.src e)) = 0 := by
          linear_combination e1 - p * e2
        rcases mul_eq_zero.1 this with h0 | h0
        · have := hps e; have := h.phases (g.tgt e)
          exact absurd h0 (by positivity)
        · linarith
  apply periodic_bounded _ i P hP
  intro n hn
  obtain ⟨-, h2, h3, -⟩ := hper n hn
  rw [h2, h3]
  have hniq : (0 : ℚ) < g.ni a := by exact_mod_cast hni a
  have hx : ((X a : ℕ) : ℚ) = p * g.ni a := by exact_mod_cast hXa a
  push_cast
  rw [hx, mul_add, hthr]
  field_simp
  ring

/-! ### Outside the hypotheses -/

/-- A graph with one actor of two phases and one channel to itself. -/
def Sim.selfLoop (prod cons : List Int) (preload : Int) : Graph 1 1 :=
  ⟨fun _ => 0, fun _ => 0, fun _ => prod, fun _ => cons, fun _ => preload, fun _ => 2, fun _ => [1, 1], fun _ => 2⟩

/-- On a channel from an actor to itself the consumption is read from the production rates: with production 0,2 and
consumption 1,1 the first execution consumes nothing, against C22. -/
theorem C22_selfloop_counterexample :
    ∃ c m, start (selfLoop [0, 2] [1, 1] 1) none true = some (c, m) ∧
      ((run c m 3).acts 0).numExecs = 1 ∧ (run c m 3).completed 0 = 0 ∧ (run c m 3).st.tokens 0 = 1 ∧
      (run c m 3).st.tokens 0 + ∑ k ∈ range 1, rate [1, 1] k ≠ 1 + ∑ k ∈ range 0, rate [0, 2] k :=
  ⟨_, _, rfl, by decide +kernel, by decide +kernel, by decide +kernel, by decide +kernel⟩

/-- For the same reason, with production 2,0, consumption 1,1 and one token, the program reports a deadlock although the
graph can execute. -/
theorem C25_selfloop_counterexample :
    ∃ c m, start (selfLoop [2, 0] [1, 1] 1) none true = some (c, m) ∧
      result (run c m 10) = some (some 0) ∧ Fires (selfLoop [2, 0] [1, 1] 1) none (fun _ => 1) := by
  refine ⟨_, _, rfl, by decide +kernel, ?_⟩
  have := Fires.fire (g := selfLoop [2, 0] [1, 1] 1) (cap := none) (fun _ => 0) 0 .zero
    (fun e _ => by simp [selfLoop, rate]) (by simp)
  convert this using 1
  funext x
  have : x = 0 := Subsingleton.elim _ _
  subst this; simp

/-- An actor that no tested channel guards is always ready: from the moment the program tries to start it, it starts
executions forever, in zero time, and never returns. -/
theorem C25_unguarded_diverges {c : Cfg nV nE} {a : Fin nV}
    (ha : ∀ e, c.g.tgt e ≠ a ∧ (c.cap.isSome → c.g.src e ≠ a)) (m : Machine nV nE) {rest : List (Fin nV)}
    (hpc : m.pc = .starts (a :: rest)) (n : ℕ) :
    (run c m n).pc = .starts (a :: rest) ∧ (run c m n).clock = m.clock ∧
      ((run c m n).acts a).numExecs = (m.acts a).numExecs + n := by
  induction n with
  | zero => exact ⟨hpc, rfl, rfl⟩
  | succ n ih =>
    obtain ⟨i1, i2, i3⟩ := ih
    have hr : ready c.g c.cap (run c m n).acts (run c m n).st a = true := by
      unfold ready
      simp only [Bool.and_eq_true, Bool.or_eq_true, decide_eq_true_eq]
      refine ⟨fun e he => absurd he (ha e).1, ?_⟩
      cases hc : c.cap with
      | none => simp
      | some k => exact .inr fun e he => absurd he ((ha e).2 (by simp [hc]))
    have e : run c m (n + 1) = { run c m n with
        acts := (Sim.execStart c.g c.cap (run c m n).acts (run c m n).st a).1,
        st := updateState c.g (Sim.execStart c.g c.cap (run c m n).acts (run c m n).st a).1
          (Sim.execStart c.g c.cap (run c m n).acts (run c m n).st a).2 } := by
      show step c (run c m n) = _
      unfold step; rw [i1]; simp only [hr, if_true]; rw [← i1]
    rw [e]
    refine ⟨i1, i2, ?_⟩
    simp only [Sim.execStart, Function.update_self, i3]; omega

/-! ### Non-vacuity -/

/-- Two actors, the second with two phases, on a cycle with one initial token; durations 2 and 1,3. -/
def Sim.exGraph : Graph 2 2 :=
  ⟨![0, 1], ![1, 0], ![[2], [0, 2]], ![[1, 1], [2]], ![0, 2], ![1, 2], ![[2], [1, 3]], ![1, 2]⟩

theorem Sim.exGraph_ok : OK exGraph := by
  constructor <;> decide +kernel

theorem Sim.exGraph_guarded (cap : Option (Fin 2 → Int)) : Guarded exGraph cap := by
  intro a
  rcases Fin.exists_fin_two.1 ⟨a, rfl⟩ with rfl | rfl
  · exact ⟨1, .inl rfl⟩
  · exact ⟨0, .inl rfl⟩

/-- The program stops at a recurrent state with throughput 1/6. -/
example : ∃ c m, start exGraph none true = some (c, m) ∧ 0 < exGraph.ni c.minActor ∧
    (∀ a, Relation.ReflTransGen (Adj exGraph) c.minActor a) ∧
    (run c m 100).pc = .recurrent (some (1 / 6)) := by
  refine ⟨_, _, rfl, by decide +kernel, fun a => ?_, by decide +kernel⟩
  rcases Fin.exists_fin_two.1 ⟨a, rfl⟩ with rfl | rfl
  · exact .refl
  · exact .single ⟨0, .inl ⟨rfl, rfl⟩⟩

/-- It meets the balance hypotheses of `C26_every_actor`. -/
example : (∀ a, 0 < exGraph.ni a) ∧ (∀ e, (exGraph.prod e).sum * exGraph.ni (exGraph.src e) * exGraph.phases (exGraph.tgt e) =
      (exGraph.cons e).sum * exGraph.ni (exGraph.tgt e) * exGraph.phases (exGraph.src e)) ∧
    (∀ e, 0 < (exGraph.prod e).sum) ∧ ∀ e, 0 < (exGraph.cons e).sum := by decide +kernel

/-- With buffers of 2 and 3 tokens the second actor is running after 14 steps: room is reserved and being read. -/
example : ∃ c m, start exGraph (some ![2, 3]) true = some (c, m) ∧ (∀ e, exGraph.preload e ≤ ![2, 3] e) ∧
    (run c m 14).st.queue 1 = [(1, 1)] ∧ (run c m 14).st.tokens 0 = 1 ∧ beingRead exGraph (run c m 14).st 0 = 1 ∧
    (run c m 14).st.space 0 = 0 :=
  ⟨_, _, rfl, by decide +kernel, by decide +kernel, by decide +kernel, by decide +kernel, by decide +kernel⟩

/-- With no initial token the program reports a deadlock. -/
example : ∃ c m, start { exGraph with preload := fun _ => 1 } none true = some (c, m) ∧
    0 < exGraph.ni c.minActor ∧ (run c m 30).pc = .deadlock :=
  ⟨_, _, rfl, by decide +kernel, by decide +kernel⟩
example : OK { exGraph with preload := fun _ => 1 } := by constructor <;> decide +kernel

/-- A state as in `C24_advance`: two executions running. -/
example : let s : St 2 0 := ⟨![[(2, 1)], [(3, 1), (4, 2)]], ![1, 1], Fin.elim0, Fin.elim0, 7⟩
    (∀ a, (s.queue a).Pairwise fun x y => x.1 ≤ y.1) ∧ (∀ a, ∀ x ∈ s.queue a, 0 ≤ x.1 ∧ x.1 < longMax) ∧
    (∃ a, s.queue a ≠ []) ∧ (advanceTime s).1.queue 1 = [(1, 1), (2, 2)] ∧ (advanceTime s).1.elapsed = 9 := by
  decide +kernel

/-- An actor without input channel, as in `C25_unguarded_diverges`. -/
example : ∃ c m, start (nV := 1) (nE := 0) ⟨Fin.elim0, Fin.elim0, Fin.elim0, Fin.elim0, Fin.elim0, fun _ => 1,
      fun _ => [1], fun _ => 1⟩ none true = some (c, m) ∧ (run c m 2).pc = .starts (0 :: []) :=
  ⟨_, _, rfl, by decide +kernel⟩

end Kiter
