/-
Invariant of the execution over a network with time slots.
-/
import Verif.Spec.So4
import Verif.Lemmas.SymbolicRun
import Mathlib.Data.List.TakeWhile

set_option autoImplicit false

namespace Kiter.So4
open Kiter.Sim

variable {nV nE : Nat} {g : Graph nV nE} {T : Table nE}

/-- Arrival dates are those of the specification, for integer dates. -/
theorem arrival_crosses (hT : T.OK) {e : Fin nE} {n : ℕ} {d : ℚ} (h : arrival T e (n : ℚ) = some d) :
    Crosses T e n d := by
  obtain ⟨hs, hsl⟩ := hT
  unfold arrival toInt at h
  have hn : (if (0 : ℚ) ≤ (n : ℚ) then ⌊(n : ℚ)⌋ else ⌈(n : ℚ)⌉) = (n : Int) := by
    rw [if_pos (Nat.cast_nonneg n)]; simp
  rw [hn] at h
  simp only at h
  split at h
  · simp only [Option.bind_eq_bind, Option.bind_some] at h
    rw [if_neg (by omega)] at h
    have hm : Int.tmod (n : Int) T.slots = (n : Int) % T.slots := Int.tmod_eq_emod_of_nonneg (by omega)
    rw [hm] at h
    have h0 := Int.emod_nonneg (n : Int) (by omega : T.slots ≠ 0)
    have h1 := Int.emod_lt_of_pos (n : Int) hs
    have h2 := Int.mul_ediv_add_emod (n : Int) T.slots
    cases hv : T.virt e with
    | true =>
      rw [hv] at h
      simp only [if_true, Option.some.injEq] at h
      exact .inl ⟨hv, h.symm⟩
    | false =>
      obtain ⟨s0, s1⟩ := hsl e hv
      rw [hv] at h
      simp only [Bool.false_eq_true, if_false] at h
      refine .inr ⟨hv, ?_⟩
      set q := (n : Int) / T.slots
      set m := (n : Int) % T.slots
      have key : ∀ w : Int, (n : Int) ≤ w → w % T.slots = T.slot e →
          (m ≤ T.slot e → n + (T.slot e - m) ≤ w) ∧ (T.slot e < m → n + T.slots - (m - T.slot e) ≤ w) := by
        intro w hw hw'
        have h3 := Int.mul_ediv_add_emod w T.slots
        rw [hw'] at h3
        constructor
        · intro hle
          by_contra hc
          have : T.slots * (w / T.slots) < T.slots * q := by omega
          have := lt_of_mul_lt_mul_left this hs.le
          have : w / T.slots + 1 ≤ q := by omega
          have := mul_le_mul_of_nonneg_left this hs.le
          rw [mul_add, mul_one] at this
          omega
        · intro hlt
          by_contra hc
          have : T.slots * (w / T.slots) < T.slots * (q + 1) := by rw [mul_add, mul_one]; omega
          have := lt_of_mul_lt_mul_left this hs.le
          have : w / T.slots ≤ q := by omega
          have := mul_le_mul_of_nonneg_left this hs.le
          omega
      split at h
      · rename_i hle
        simp only [Option.some.injEq] at h
        refine ⟨n + (T.slot e - m), ⟨⟨?_, ?_⟩, ?_⟩, ?_⟩
        · push_cast
          have : (m : ℚ) ≤ T.slot e := by exact_mod_cast hle
          linarith
        · have : (n : Int) + (T.slot e - m) = T.slot e + T.slots * q := by omega
          rw [this, Int.add_mul_emod_self_left, Int.emod_eq_of_lt s0 s1]
        · rintro w ⟨hw, hw'⟩
          exact (key w (by exact_mod_cast hw) hw').1 hle
        · rw [← h]; push_cast; ring
      · rename_i hle
        simp only [Option.some.injEq] at h
        refine ⟨n + T.slots - (m - T.slot e), ⟨⟨?_, ?_⟩, ?_⟩, ?_⟩
        · have : (n : Int) ≤ n + T.slots - (m - T.slot e) := by omega
          exact_mod_cast this
        · have : (n : Int) + T.slots - (m - T.slot e) = T.slot e + T.slots * (q + 1) := by rw [mul_add]; omega
          rw [this, Int.add_mul_emod_self_left, Int.emod_eq_of_lt s0 s1]
        · rintro w ⟨hw, hw'⟩
          exact (key w (by exact_mod_cast hw) hw').2 (by omega)
        · rw [← h]; push_cast; ring
  · simp at h

/-- What holds at every point of the loop. `d e` is the number of executions of the producer of `e` whose tokens have been put on the channel,
`arr e j` the arrival date of those of the `j`-th. -/
structure Inv (g : Graph nV nE) (T : Table nE) (acts : Fin nV → Act) (queue : Fin nV → List (ℚ × Nat)) (tokens : Fin nE → Int)
    (clock : ℚ) (completed : Fin nV → Nat) (net : List (ℚ × Fin nE × Int)) (hist : Fin nV → List ℚ)
    (d : Fin nE → ℕ) (arr : Fin nE → ℕ → ℚ) : Prop where
  len : ∀ a, (hist a).length = (acts a).numExecs
  run : ∀ a, (queue a = [] ∧ (acts a).isExecuting = false ∧ completed a = (acts a).numExecs) ∨
    (∃ rem, queue a = [(rem, completed a % g.phases a + 1)] ∧ (acts a).isExecuting = true ∧
      completed a + 1 = (acts a).numExecs ∧ rem = endOf g hist a (completed a) - clock ∧ 0 ≤ rem)
  clk : ∃ n : ℕ, clock = n
  dates : ∀ a k, ∃ n : ℕ, (hist a).getD k 0 = n
  past : ∀ a k, k < (acts a).numExecs → (hist a).getD k 0 ≤ clock
  ended : ∀ a k, k < completed a → endOf g hist a k ≤ clock
  order : ∀ a k, k + 1 < (acts a).numExecs → endOf g hist a k ≤ (hist a).getD (k + 1) 0
  dle : ∀ e, d e ≤ completed (g.src e)
  arrs : ∀ e j, j < completed (g.src e) → Crosses T e (endOf g hist (g.src e) j) (arr e j)
  due : ∀ e j, j < d e → arr e j ≤ clock
  nets : ∀ e, (net.filter fun i => decide (i.2.1 = e)) =
    (List.range' (d e) (completed (g.src e) - d e)).map fun j => (arr e j, e, rate (g.prod e) j)
  tok : ∀ e, tokens e = g.preload e + cum (g.prod e) (d e) - cum (g.cons e) (acts (g.tgt e)).numExecs
  fed : ∀ e k, k < (acts (g.tgt e)).numExecs → ∃ n ≤ d e, (∀ j < n, arr e j ≤ (hist (g.tgt e)).getD k 0) ∧
    cum (g.cons e) (k + 1) ≤ g.preload e + cum (g.prod e) n

/-- The invariant of a state of the loop. -/
def Good (g : Graph nV nE) (T : Table nE) (x : Run nV nE) : Prop :=
  ∃ d arr, Inv g T x.r.m.acts x.r.m.st.queue x.r.m.st.tokens x.r.m.clock x.r.m.completed x.net x.hist d arr

theorem good_init {detect : Bool} {c : Cfg nV nE} {m : Machine nV nE} (hs : start g none detect = some (c, m)) :
    Good g T (init m) := by
  unfold start at hs
  split at hs
  · cases hm : selectMin g with
    | none => rw [hm] at hs; simp at hs
    | some t =>
      rw [hm] at hs
      simp only [Option.some.injEq, Prod.mk.injEq] at hs
      obtain ⟨-, rfl⟩ := hs
      refine ⟨fun _ => 0, fun _ _ => 0, ?_⟩
      constructor <;> simp [init, logInit]
      · exact ⟨0, by simp⟩
      · exact fun _ => ⟨0, by simp⟩
  · simp at hs

theorem mark_fields (c : Cfg nV nE) (x : Run nV nE) (a : Fin nV) :
    (mark c x a).r.m.acts = x.r.m.acts ∧ (mark c x a).r.m.st.queue = x.r.m.st.queue ∧
    (mark c x a).r.m.st.tokens = x.r.m.st.tokens ∧ (mark c x a).r.m.clock = x.r.m.clock ∧
    (mark c x a).r.m.completed = x.r.m.completed ∧ (mark c x a).net = x.net ∧ (mark c x a).hist = x.hist := by
  unfold mark
  split
  · split
    · dsimp only
      unfold record
      split
      · exact ⟨rfl, rfl, rfl, rfl, rfl, rfl, rfl⟩
      · split <;> exact ⟨rfl, rfl, rfl, rfl, rfl, rfl, rfl⟩
    · exact ⟨rfl, rfl, rfl, rfl, rfl, rfl, rfl⟩
  · exact ⟨rfl, rfl, rfl, rfl, rfl, rfl, rfl⟩

theorem good_mark (c : Cfg nV nE) {x : Run nV nE} (a : Fin nV) (hx : Good g T x) : Good g T (mark c x a) := by
  obtain ⟨h1, h2, h3, h4, h5, h6, h7⟩ := mark_fields c x a
  unfold Good
  rw [h1, h2, h3, h4, h5, h6, h7]
  exact hx

theorem execDur_int (hi : ∀ a, ∀ d ∈ g.dur a, ∃ n : ℕ, d = n) (a : Fin nV) (k : ℕ) : ∃ n : ℕ, g.execDur a k = n := by
  unfold Graph.execDur
  rw [List.getD_eq_getElem?_getD]
  cases hk : (g.dur a)[k % (g.dur a).length]? with
  | none => exact ⟨0, by simp⟩
  | some r => simpa using hi a r (List.mem_of_getElem? hk)

theorem mapM_arrival {a : Fin nV} {t : ℚ} {p : Nat} : ∀ {L : List (Fin nE)} {l : List (ℚ × Fin nE × Int)},
    (L.mapM fun e => (arrival T e t).map fun d => (d, e, rateAt g a e p)) = some l →
    (∀ e ∈ L, (arrival T e t).isSome) ∧ l = L.map fun e => ((arrival T e t).getD 0, e, rateAt g a e p) := by
  intro L
  induction L with
  | nil => intro l h; simp at h; simp [h]
  | cons e L ih =>
    intro l h
    rw [List.mapM_cons] at h
    cases ha : arrival T e t with
    | none => rw [ha] at h; simp at h
    | some d =>
      rw [ha] at h
      simp only [Option.map_some, Option.bind_eq_bind, Option.bind_some] at h
      cases hL : (L.mapM fun e => (arrival T e t).map fun d => (d, e, rateAt g a e p)) with
      | none => rw [hL] at h; simp at h
      | some l' =>
        rw [hL] at h
        simp only [Option.bind_some, Option.pure_def, Option.some.injEq] at h
        obtain ⟨i1, i2⟩ := ih hL
        subst h
        refine ⟨fun e' he' => ?_, ?_⟩
        · rcases List.mem_cons.1 he' with rfl | he'
          · simp [ha]
          · exact i1 e' he'
        · simp [ha, i2]

theorem endOf_int (hi : ∀ a, ∀ d ∈ g.dur a, ∃ n : ℕ, d = n) {hist : Fin nV → List ℚ} {a : Fin nV} {k : ℕ}
    (hd : ∃ n : ℕ, (hist a).getD k 0 = n) : ∃ n : ℕ, endOf g hist a k = n := by
  obtain ⟨n, hn⟩ := hd
  obtain ⟨m, hm⟩ := execDur_int hi a k
  exact ⟨n + m, by unfold endOf; rw [hn, hm]; push_cast; rfl⟩

/-- An execution ends: its tokens are put on the network. -/
theorem good_end (h : Sim.OK g) (hT : T.OK) {x y : Run nV nE} {a : Fin nV}
    (hx : Good g T x) (hr : readyToEnd x.r.m.st a = true) (he : execEnd T g x a = some y) : Good g T y := by
  obtain ⟨d, arr, I⟩ := hx
  obtain ⟨q, rest, hq, hq0⟩ : ∃ q rest, x.r.m.st.queue a = q :: rest ∧ q.1 = 0 := by
    unfold readyToEnd at hr
    split at hr
    · simp at hr
    · rename_i q rest hq
      exact ⟨q, rest, hq, by simpa using hr⟩
  obtain ⟨rem, hqe, hex, hcomp, hrem, hrem0⟩ : ∃ rem, x.r.m.st.queue a = [(rem, x.r.m.completed a % g.phases a + 1)] ∧
      (x.r.m.acts a).isExecuting = true ∧ x.r.m.completed a + 1 = (x.r.m.acts a).numExecs ∧
      rem = endOf g x.hist a (x.r.m.completed a) - x.r.m.clock ∧ 0 ≤ rem := by
    rcases I.run a with h1 | h1
    · rw [h1.1] at hq; simp at hq
    · exact h1
  rw [hqe] at hq
  simp only [List.cons.injEq] at hq
  obtain ⟨rfl, rfl⟩ := hq
  simp only at hq0
  unfold execEnd at he
  rw [hqe] at he
  simp only [Option.bind_eq_bind] at he
  cases hl : (((List.finRange nE).filter fun e => decide (g.src e = a)).mapM fun e =>
      (arrival T e x.r.m.clock).map fun d => (d, e, rateAt g a e (x.r.m.completed a % g.phases a + 1))) with
  | none => rw [hl] at he; simp at he
  | some l =>
    rw [hl] at he
    simp only [Option.bind_some, Option.some.injEq] at he
    obtain ⟨l1, l2⟩ := mapM_arrival hl
    have hclk : endOf g x.hist a (x.r.m.completed a) = x.r.m.clock := by linarith
    have hfil : ∀ e, (l.filter fun i => decide (i.2.1 = e)) =
        if g.src e = a then [((arrival T e x.r.m.clock).getD 0, e, rate (g.prod e) (x.r.m.completed a))] else [] := by
      intro e
      rw [l2, List.filter_map, List.filter_filter]
      have : (List.finRange nE).filter (fun e' => ((fun i : ℚ × Fin nE × Int => decide (i.2.1 = e)) ∘
          fun e => ((arrival T e x.r.m.clock).getD 0, e, rateAt g a e (x.r.m.completed a % g.phases a + 1))) e' && decide (g.src e' = a)) =
          if g.src e = a then [e] else [] := by
        have h1 : (List.finRange nE).filter (fun e' => decide (e' = e)) = [e] := by
          have := (List.nodup_finRange nE).filter (fun e' => decide (e' = e))
          have hm : ∀ z, z ∈ (List.finRange nE).filter (fun e' => decide (e' = e)) ↔ z = e := by simp
          generalize (List.finRange nE).filter (fun e' => decide (e' = e)) = L at this hm
          match L, this, hm with
          | [], _, hm => exact absurd ((hm e).2 rfl) (by simp)
          | [z], _, hm => rw [(hm z).1 (by simp)]
          | z :: w :: L, hn, hm =>
            have hz := (hm z).1 (by simp)
            have hw := (hm w).1 (by simp)
            rw [hz, hw] at hn
            simp at hn
        split
        · rename_i hs
          rw [← h1]
          apply List.filter_congr
          intro e' _
          by_cases hee : e' = e
          · subst hee; simp [hs]
          · simp [hee]
        · rename_i hs
          rw [List.filter_eq_nil_iff]
          intro e' _
          simp only [Function.comp, Bool.and_eq_true, decide_eq_true_eq, not_and]
          rintro rfl; exact hs
      rw [this]
      split
      · rename_i hs
        simp only [List.map_cons, List.map_nil, rateAt_src h hs]
      · rfl
    obtain ⟨n, hn⟩ := I.clk
    have hcross : ∀ e, g.src e = a → Crosses T e (endOf g x.hist a (x.r.m.completed a)) ((arrival T e x.r.m.clock).getD 0) := by
      intro e hs
      have := l1 e (by simp [hs])
      obtain ⟨d', hd'⟩ := Option.isSome_iff_exists.1 this
      rw [hclk, hd']
      rw [hn] at hd' ⊢
      exact arrival_crosses hT hd'
    subst he
    refine ⟨d, fun e j => if g.src e = a ∧ j = x.r.m.completed a then (arrival T e x.r.m.clock).getD 0 else arr e j, ?_⟩
    have hcle : ∀ b, x.r.m.completed b ≤ Function.update x.r.m.completed a (x.r.m.completed a + 1) b := by
      intro b
      by_cases hb : b = a
      · subst hb; simp
      · simp [hb]
    have hnum : ∀ b, (Function.update x.r.m.acts a ⟨(x.r.m.acts a).numExecs, false⟩ b).numExecs = (x.r.m.acts b).numExecs := by
      intro b
      by_cases hb : b = a
      · subst hb; simp
      · simp [hb]
    have harr : ∀ e j, j < d e → (if g.src e = a ∧ j = x.r.m.completed a then (arrival T e x.r.m.clock).getD 0 else arr e j) = arr e j := by
      intro e j hj
      rw [if_neg]
      rintro ⟨hs, rfl⟩
      have := I.dle e
      rw [hs] at this
      omega
    constructor
    · intro b; dsimp only; rw [hnum]; exact I.len b
    · intro b
      dsimp only
      by_cases hb : b = a
      · subst hb
        left
        simp only [Function.update_self]
        exact ⟨trivial, trivial, hcomp⟩
      · simp only [Function.update_of_ne hb]
        exact I.run b
    · exact I.clk
    · exact I.dates
    · intro b k; dsimp only; rw [hnum]; exact I.past b k
    · intro b k hk
      dsimp only at hk ⊢
      by_cases hb : b = a
      · subst hb
        rw [Function.update_self] at hk
        rcases Nat.lt_succ_iff_lt_or_eq.1 hk with hk | rfl
        · exact I.ended b k hk
        · exact hclk.le
      · rw [Function.update_of_ne hb] at hk
        exact I.ended b k hk
    · intro b k; dsimp only; rw [hnum]; exact I.order b k
    · intro e; exact (I.dle e).trans (hcle _)
    · intro e j hj
      dsimp only at hj ⊢
      by_cases hs : g.src e = a
      · rw [hs, Function.update_self] at hj
        by_cases hjc : j = x.r.m.completed a
        · rw [if_pos ⟨hs, hjc⟩, hjc, hs]
          exact hcross e hs
        · rw [if_neg (fun hh => hjc hh.2)]
          exact I.arrs e j (by rw [hs]; omega)
      · rw [Function.update_of_ne hs] at hj
        rw [if_neg (fun hh => hs hh.1)]
        exact I.arrs e j hj
    · intro e j hj
      dsimp only
      rw [harr e j hj]; exact I.due e j hj
    · intro e
      dsimp only
      rw [List.filter_append, hfil, I.nets e]
      have hd := I.dle e
      by_cases hs : g.src e = a
      · rw [hs] at hd
        rw [if_pos hs, hs, Function.update_self]
        have h1 : x.r.m.completed a + 1 - d e = (x.r.m.completed a - d e) + 1 := by omega
        rw [h1, List.range'_1_concat, List.map_append]
        congr 1
        · apply List.map_congr_left
          intro j hj
          rw [List.mem_range'_1] at hj
          rw [if_neg (fun hh => by omega)]
        · simp only [List.map_cons, List.map_nil]
          have h2 : d e + (x.r.m.completed a - d e) = x.r.m.completed a := by omega
          rw [h2]; simp
      · rw [if_neg hs, Function.update_of_ne hs, List.append_nil]
        apply List.map_congr_left
        intro j _
        rw [if_neg (fun hh => hs hh.1)]
    · intro e; dsimp only; rw [hnum]; exact I.tok e
    · intro e k hk
      dsimp only at hk ⊢
      rw [hnum] at hk
      obtain ⟨m, hm, h1, h2⟩ := I.fed e k hk
      exact ⟨m, hm, fun j hj => by rw [harr e j (by omega)]; exact h1 j hj, h2⟩

theorem sum_range' (l : List Int) (s k : ℕ) : ((List.range' s k).map (rate l)).sum = cum l (s + k) - cum l s := by
  induction k with
  | zero => simp
  | succ k ih =>
    rw [List.range'_1_concat, List.map_append, List.sum_append, ih, ← Nat.add_assoc, cum_succ]
    simp; ring

/-- What is due is put on the channels. -/
theorem good_deliver {x : Run nV nE} (hx : Good g T x) : Good g T (deliver g x) := by
  obtain ⟨d, arr, I⟩ := hx
  set due := x.net.takeWhile fun i => decide (i.1 ≤ x.r.m.clock) with hdue
  set late := x.net.dropWhile fun i => decide (i.1 ≤ x.r.m.clock) with hlate
  have hnet : due ++ late = x.net := List.takeWhile_append_dropWhile
  have hsplit : ∀ e, ∃ k ≤ x.r.m.completed (g.src e) - d e,
      (due.filter fun i => decide (i.2.1 = e)) = (List.range' (d e) k).map (fun j => (arr e j, e, rate (g.prod e) j)) ∧
      (late.filter fun i => decide (i.2.1 = e)) =
        (List.range' (d e + k) (x.r.m.completed (g.src e) - d e - k)).map (fun j => (arr e j, e, rate (g.prod e) j)) := by
    intro e
    have h1 := I.nets e
    rw [← hnet, List.filter_append] at h1
    obtain ⟨l1, l2, h2, h3, h4⟩ := List.map_eq_append_iff.1 h1.symm
    obtain ⟨k, hk, rfl, rfl⟩ := List.range'_eq_append_iff.1 h2
    exact ⟨k, hk, h3.symm, by simpa using h4.symm⟩
  choose k hk hd1 hd2 using hsplit
  refine ⟨fun e => d e + k e, arr, ?_⟩
  constructor
  · exact I.len
  · exact I.run
  · exact I.clk
  · exact I.dates
  · exact I.past
  · exact I.ended
  · exact I.order
  · intro e; have := hk e; have := I.dle e; show d e + k e ≤ x.r.m.completed (g.src e); omega
  · exact I.arrs
  · intro e j hj
    show arr e j ≤ x.r.m.clock
    by_cases hjd : j < d e
    · exact I.due e j hjd
    · have hm : (arr e j, e, rate (g.prod e) j) ∈ due.filter fun i => decide (i.2.1 = e) := by
        rw [hd1 e]
        exact List.mem_map.2 ⟨j, List.mem_range'_1.2 ⟨by omega, hj⟩, rfl⟩
      have := List.mem_takeWhile_imp (List.mem_filter.1 hm).1
      simpa using this
  · intro e
    show (late.filter fun i => decide (i.2.1 = e)) = _
    rw [hd2 e, Nat.sub_sub]; rfl
  · intro e
    show x.r.m.st.tokens e + ((due.filter fun i => decide (i.2.1 = e)).map fun i => i.2.2).sum = _
    rw [hd1 e, List.map_map, I.tok e]
    have := sum_range' (g.prod e) (d e) (k e)
    have h2 : ((fun i : ℚ × Fin nE × Int => i.2.2) ∘ fun j => (arr e j, e, rate (g.prod e) j)) = rate (g.prod e) := rfl
    rw [h2, this]
    show _ = g.preload e + cum (g.prod e) (d e + k e) - cum (g.cons e) (x.r.m.acts (g.tgt e)).numExecs
    ring
  · intro e n hn
    obtain ⟨m, hm, h1⟩ := I.fed e n hn
    exact ⟨m, by show m ≤ d e + k e; omega, h1⟩

theorem getD_append_lt {l : List ℚ} {x : ℚ} {k : ℕ} (h : k < l.length) : (l ++ [x]).getD k 0 = l.getD k 0 := by
  rw [List.getD_eq_getElem?_getD, List.getD_eq_getElem?_getD, List.getElem?_append_left h]

theorem getD_append_eq {l : List ℚ} {x : ℚ} : (l ++ [x]).getD l.length 0 = x := by
  rw [List.getD_eq_getElem?_getD]; simp

theorem endOf_append (hist : Fin nV → List ℚ) (a b : Fin nV) (t : ℚ) {k : ℕ} (h : k < (hist b).length) :
    endOf g (Function.update hist a (hist a ++ [t])) b k = endOf g hist b k := by
  unfold endOf
  by_cases hb : b = a
  · subst hb; rw [Function.update_self, getD_append_lt h]
  · rw [Function.update_of_ne hb]

theorem getD_update (hist : Fin nV → List ℚ) (a b : Fin nV) (t : ℚ) {k : ℕ} (h : k < (hist b).length) :
    (Function.update hist a (hist a ++ [t]) b).getD k 0 = (hist b).getD k 0 := by
  by_cases hb : b = a
  · subst hb; rw [Function.update_self, getD_append_lt h]
  · rw [Function.update_of_ne hb]

/-- An execution starts. -/
theorem good_start (h : Sim.OK g) (hg : ∀ a, ∃ e, g.tgt e = a) {c : Cfg nV nE} (hc : c.g = g) {x y : Run nV nE} {a : Fin nV}
    (hx : Good g T x) (he : startTask c x a = some y) : Good g T y := by
  unfold startTask at he
  split at he
  · simp only [Option.some.injEq] at he; exact he ▸ hx
  rename_i hdone
  split at he
  swap
  · simp only [Option.some.injEq] at he; exact he ▸ hx
  rename_i hready
  rw [hc] at hready he
  cases hl : logStart x.r a with
  | none => rw [hl] at he; simp at he
  | some r' =>
    rw [hl] at he
    simp only [Option.map_some, Option.some.injEq] at he
    subst he
    obtain ⟨d, arr, I⟩ := hx
    obtain ⟨e₀, he₀⟩ := hg a
    have hidle := (ready_tok hready he₀).2
    obtain ⟨hq, -, hcomp⟩ : x.r.m.st.queue a = [] ∧ (x.r.m.acts a).isExecuting = false ∧
        x.r.m.completed a = (x.r.m.acts a).numExecs := by
      rcases I.run a with h1 | ⟨_, _, h1, _⟩
      · exact h1
      · rw [hidle] at h1; simp at h1
    have hnum : ∀ b, (Function.update x.r.m.acts a ⟨(x.r.m.acts a).numExecs + 1, true⟩ b).numExecs =
        (x.r.m.acts b).numExecs + if b = a then 1 else 0 := by
      intro b
      by_cases hb : b = a
      · subst hb; simp
      · simp [hb]
    have hlen : ∀ b, (Function.update x.hist a (x.hist a ++ [x.r.m.clock]) b).length = (x.hist b).length + if b = a then 1 else 0 := by
      intro b
      by_cases hb : b = a
      · subst hb; simp
      · simp [hb]
    have hcle : ∀ b, x.r.m.completed b ≤ (x.hist b).length := by
      intro b
      rw [I.len b]
      rcases I.run b with h1 | ⟨_, _, _, h1, _⟩ <;> omega
    have hlast : (Function.update x.hist a (x.hist a ++ [x.r.m.clock]) a).getD (x.r.m.acts a).numExecs 0 = x.r.m.clock := by
      rw [Function.update_self, ← I.len a, getD_append_eq]
    refine ⟨d, arr, ?_⟩
    show Inv g T (Function.update x.r.m.acts a ⟨(x.r.m.acts a).numExecs + 1, true⟩)
      (Function.update x.r.m.st.queue a (x.r.m.st.queue a ++ [(duration g a (phaseOf g x.r.m.acts a), phaseOf g x.r.m.acts a)]))
      (fun e => if g.tgt e = a then x.r.m.st.tokens e - execRate g x.r.m.acts a e else x.r.m.st.tokens e)
      x.r.m.clock x.r.m.completed x.net (Function.update x.hist a (x.hist a ++ [x.r.m.clock])) d arr
    constructor
    · intro b; rw [hlen, hnum, I.len]
    · intro b
      by_cases hb : b = a
      · subst hb
        right
        refine ⟨g.execDur b (x.r.m.acts b).numExecs, ?_, by simp, by simp [hcomp], ?_, ?_⟩
        · rw [Function.update_self, hq, hcomp]
          simp only [List.nil_append, phaseOf, duration, Graph.execDur, List.cons.injEq, and_true, Prod.mk.injEq]
          rw [h.durLen]; simp
        · rw [hcomp]
          unfold endOf
          rw [hlast]; ring
        · unfold Graph.execDur
          rw [List.getD_eq_getElem?_getD]
          cases hk : (g.dur b)[(x.r.m.acts b).numExecs % (g.dur b).length]? with
          | none => simp
          | some r => simpa using h.durNonneg b r (List.mem_of_getElem? hk)
      · simp only [Function.update_of_ne hb]
        rcases I.run b with h1 | ⟨rem, h1, h2, h3, h4, h5⟩
        · exact .inl h1
        · refine .inr ⟨rem, h1, h2, h3, ?_, h5⟩
          rw [endOf_append _ _ _ _ (by rw [I.len]; omega)]; exact h4
    · exact I.clk
    · intro b k
      by_cases hb : b = a
      · subst hb
        rw [Function.update_self]
        rcases Nat.lt_trichotomy k (x.hist b).length with hk | hk | hk
        · rw [getD_append_lt hk]; exact I.dates b k
        · rw [hk, getD_append_eq]; exact I.clk
        · exact ⟨0, by rw [List.getD_eq_getElem?_getD, List.getElem?_eq_none (by simp; omega)]; simp⟩
      · rw [Function.update_of_ne hb]; exact I.dates b k
    · intro b k hk
      rw [hnum] at hk
      by_cases hkl : k < (x.r.m.acts b).numExecs
      · rw [getD_update _ _ _ _ (by rw [I.len]; exact hkl)]; exact I.past b k hkl
      · have hb : b = a := by by_contra hb; rw [if_neg hb] at hk; omega
        subst hb
        rw [if_pos rfl] at hk
        have : k = (x.r.m.acts b).numExecs := by omega
        rw [this, hlast]
    · intro b k hk
      rw [endOf_append _ _ _ _ (lt_of_lt_of_le hk (hcle b))]; exact I.ended b k hk
    · intro b k hk
      rw [hnum] at hk
      rw [endOf_append _ _ _ _ (by rw [I.len]; split at hk <;> omega)]
      by_cases hkl : k + 1 < (x.r.m.acts b).numExecs
      · rw [getD_update _ _ _ _ (by rw [I.len]; exact hkl)]; exact I.order b k hkl
      · have hb : b = a := by by_contra hb; rw [if_neg hb] at hk; omega
        subst hb
        rw [if_pos rfl] at hk
        have : k + 1 = (x.r.m.acts b).numExecs := by omega
        rw [this, hlast]
        exact I.ended b k (by omega)
    · exact I.dle
    · intro e j hj
      rw [endOf_append _ _ _ _ (lt_of_lt_of_le hj (hcle _))]; exact I.arrs e j hj
    · exact I.due
    · exact I.nets
    · intro e
      rw [hnum]
      by_cases hb : g.tgt e = a
      · rw [if_pos hb, if_pos hb, cum_succ, I.tok e, execRate_tgt h _ hb, hb]; ring
      · rw [if_neg hb, if_neg hb, Nat.add_zero]; exact I.tok e
    · intro e k hk
      rw [hnum] at hk
      by_cases hkl : k < (x.r.m.acts (g.tgt e)).numExecs
      · rw [getD_update _ _ _ _ (by rw [I.len]; exact hkl)]; exact I.fed e k hkl
      · have hb : g.tgt e = a := by by_contra hb; rw [if_neg hb] at hk; omega
        rw [if_pos hb] at hk
        have hk' : k = (x.r.m.acts a).numExecs := by rw [hb] at hk hkl; omega
        refine ⟨d e, le_rfl, ?_, ?_⟩
        · rw [hb, hk', hlast]; exact I.due e
        · have h1 := (ready_tok hready hb).1
          rw [execRate_tgt h _ hb, I.tok e, hb] at h1
          rw [hk', cum_succ]; linarith

/-- Time goes on. -/
theorem good_advance (h : Sim.OK g) (hi : ∀ a, ∀ d ∈ g.dur a, ∃ n : ℕ, d = n) {x : Run nV nE} (hx : Good g T x) :
    Good g T (advance x) := by
  obtain ⟨d, arr, I⟩ := hx
  have hdurlt : ∀ a k, g.execDur a k < longMax := by
    intro a k
    unfold Graph.execDur
    rw [List.getD_eq_getElem?_getD]
    cases hk : (g.dur a)[k % (g.dur a).length]? with
    | none => simp [longMax]
    | some r => simpa using h.durMax a r (List.mem_of_getElem? hk)
  have key : ∀ (δ : ℚ) (q : Fin nV → List (ℚ × Nat)), 0 ≤ δ → (∃ n : ℕ, x.r.m.clock + δ = n) →
      (∀ a, q a = (x.r.m.st.queue a).map fun p => (p.1 - δ, p.2)) → (∀ a p rest, x.r.m.st.queue a = p :: rest → δ ≤ p.1) →
      Inv g T x.r.m.acts q x.r.m.st.tokens (x.r.m.clock + δ) x.r.m.completed x.net x.hist d arr := by
    intro δ q hδ hint hq hhead
    constructor
    · exact I.len
    · intro a
      rcases I.run a with ⟨h1, h2, h3⟩ | ⟨rem, h1, h2, h3, h4, h5⟩
      · exact .inl ⟨by rw [hq, h1]; rfl, h2, h3⟩
      · refine .inr ⟨rem - δ, by rw [hq, h1]; rfl, h2, h3, by rw [h4]; ring, ?_⟩
        have := hhead a _ _ h1
        simp only at this
        linarith
    · exact hint
    · exact I.dates
    · intro a k hk; have := I.past a k hk; linarith
    · intro a k hk; have := I.ended a k hk; linarith
    · exact I.order
    · exact I.dle
    · exact I.arrs
    · intro e j hj; have := I.due e j hj; linarith
    · exact I.nets
    · exact I.tok
    · exact I.fed
  obtain ⟨n, hn⟩ := I.clk
  unfold advance
  dsimp only
  split
  · exact ⟨d, arr, I⟩
  split
  · rename_i h0 hmax
    have hempty : ∀ a, x.r.m.st.queue a = [] := by
      intro a
      rcases I.run a with ⟨h1, _⟩ | ⟨rem, h1, h2, h3, h4, h5⟩
      · exact h1
      · exfalso
        have h6 := nextEvent_le_head x.r.m.st h1
        simp only at h6
        have h7 := I.past a (x.r.m.completed a) (by omega)
        have h8 := hdurlt a (x.r.m.completed a)
        unfold endOf at h4
        rw [hmax] at h6
        linarith
    refine ⟨d, arr, key 1 _ (by norm_num) ⟨n + 1, by rw [hn]; push_cast; rfl⟩ ?_ ?_⟩
    · intro a; rw [hempty a]; rfl
    · intro a p rest hp; rw [hempty a] at hp; simp at hp
  · rename_i h0 hmax
    rcases nextEvent_cases x.r.m.st with h1 | ⟨a, y, rest, hy, hyd⟩
    · exact absurd h1 hmax
    obtain ⟨rem, hq, hrem, hrem0⟩ : ∃ rem, x.r.m.st.queue a = [(rem, x.r.m.completed a % g.phases a + 1)] ∧
        rem = endOf g x.hist a (x.r.m.completed a) - x.r.m.clock ∧ 0 ≤ rem := by
      rcases I.run a with ⟨h1, _⟩ | ⟨rem, h1, h2, h3, h4, h5⟩
      · rw [h1] at hy; simp at hy
      · exact ⟨rem, h1, h4, h5⟩
    rw [hq] at hy
    simp only [List.cons.injEq] at hy
    obtain ⟨rfl, rfl⟩ := hy
    simp only at hyd
    refine ⟨d, arr, key _ _ (by rw [hyd]; exact hrem0) ?_ (fun _ => rfl) ?_⟩
    · rw [hyd, hrem]
      obtain ⟨m, hm⟩ := endOf_int hi (I.dates a (x.r.m.completed a))
      exact ⟨m, by rw [hm]; ring⟩
    · intro b p rest hp
      exact nextEvent_le_head _ hp

theorem good_endTask (h : Sim.OK g) (hT : T.OK) {c : Cfg nV nE} (hc : c.g = g) {a : Fin nV} :
    ∀ (n : ℕ) {x y : Run nV nE}, Good g T x → endTask T c a n x = some y → Good g T y := by
  intro n
  induction n with
  | zero => intro x y hx hy; simp only [endTask, Option.some.injEq] at hy; exact hy ▸ hx
  | succ n ih =>
    intro x y hx hy
    unfold endTask at hy
    split at hy
    · rename_i hr
      rw [hc] at hy
      cases hz : execEnd T g (mark c x a) a with
      | none => rw [hz] at hy; simp at hy
      | some z =>
        rw [hz] at hy
        refine ih (good_end h hT (good_mark c a hx) ?_ hz) hy
        unfold readyToEnd at hr ⊢
        rw [(mark_fields c x a).2.1]; exact hr
    · simp only [Option.some.injEq] at hy; exact hy ▸ hx

theorem good_foldlM {f : Run nV nE → Fin nV → Option (Run nV nE)} (hf : ∀ x y a, Good g T x → f x a = some y → Good g T y) :
    ∀ (l : List (Fin nV)) {x y : Run nV nE}, Good g T x → l.foldlM f x = some y → Good g T y := by
  intro l
  induction l with
  | nil => intro x y hx hy; simp at hy; exact hy ▸ hx
  | cons a l ih =>
    intro x y hx hy
    rw [List.foldlM_cons] at hy
    cases hz : f x a with
    | none => rw [hz] at hy; simp at hy
    | some z =>
      rw [hz] at hy
      exact ih (hf _ _ _ hx hz) hy

theorem good_round (h : Sim.OK g) (hg : ∀ a, ∃ e, g.tgt e = a) (hT : T.OK) (hi : ∀ a, ∀ d ∈ g.dur a, ∃ n : ℕ, d = n)
    {c : Cfg nV nE} (hc : c.g = g) {x y : Run nV nE} (hx : Good g T x) (hy : round T c x = some y) : Good g T y := by
  unfold round at hy
  split at hy
  · simp only [Option.some.injEq] at hy; exact hy ▸ hx
  simp only [Option.bind_eq_bind, Option.bind_eq_some_iff] at hy
  obtain ⟨z, hz, w, hw, hy⟩ := hy
  have h1 : Good g T z := good_foldlM (fun _ _ a hx => good_endTask h hT hc _ hx) _ hx hz
  have h2 : Good g T w := good_foldlM (fun _ _ a hx => good_start h hg hc hx) _ (hc ▸ good_deliver (g := c.g) (hc ▸ h1)) hw
  split at hy <;> simp only [Option.some.injEq] at hy
  · exact hy ▸ h2
  · exact hy ▸ good_advance h hi h2

theorem good_rounds (h : Sim.OK g) (hg : ∀ a, ∃ e, g.tgt e = a) (hT : T.OK) (hi : ∀ a, ∀ d ∈ g.dur a, ∃ n : ℕ, d = n)
    {c : Cfg nV nE} {m : Machine nV nE} {detect : Bool} (hs : start g none detect = some (c, m)) :
    ∀ (n : ℕ) {x : Run nV nE}, rounds T c (init m) n = some x → Good g T x := by
  have hc : c.g = g := by
    unfold start at hs
    split at hs
    · cases hm : selectMin g with
      | none => rw [hm] at hs; simp at hs
      | some t =>
        rw [hm] at hs
        simp only [Option.some.injEq, Prod.mk.injEq] at hs
        rw [← hs.1]
    · simp at hs
  intro n
  induction n with
  | zero => intro x hx; simp only [rounds, Option.some.injEq] at hx; exact hx ▸ good_init hs
  | succ n ih =>
    intro x hx
    unfold rounds at hx
    cases hz : rounds T c (init m) n with
    | none => rw [hz] at hx; simp at hx
    | some z =>
      rw [hz] at hx
      exact good_round h hg hT hi hc (ih hz) hx

/-- The invariant gives what the specification asks for. -/
theorem good_respects {x : Run nV nE} (hx : Good g T x) : Respects g T x.hist := by
  obtain ⟨d, arr, I⟩ := hx
  constructor
  · intro e k hk
    rw [I.len] at hk
    obtain ⟨n, hn, h1, h2⟩ := I.fed e k hk
    have hd := I.dle e
    refine ⟨n, ?_, fun j hj => ⟨arr e j, I.arrs e j (by omega), h1 j hj⟩, h2⟩
    rw [I.len]
    rcases I.run (g.src e) with h3 | ⟨_, _, _, h3, _⟩ <;> omega
  · intro a k hk
    rw [I.len] at hk
    exact I.order a k hk

end Kiter.So4
