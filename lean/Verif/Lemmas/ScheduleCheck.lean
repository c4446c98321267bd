/-
Lemmas on the loop of the check of schedules (C123).
-/
import Verif.Spec.ScheduleCheck
import Verif.Lemmas.SymbolicExecution
import Mathlib.Tactic.Linarith
import Mathlib.Tactic.Ring

set_option autoImplicit false

namespace Kiter.Check
open Kiter.Sim

variable {nV nE : Nat} {g : Graph nV nE} {σ : Fin nV → ℕ → ℚ}

/-! ### The next task -/

theorem pick_split {t h x : ℚ} : ∀ {l1 l2 : List ℚ}, (∀ y ∈ l1, y < t ∨ y ≤ h) → ¬ (x < t ∨ x ≤ h) → pick t h (l1 ++ x :: l2) = some x
  | [], [], _, _ => rfl
  | [], y :: l2, _, hx => by simp only [List.nil_append, pick]; rw [if_neg hx]
  | y :: l1, l2, hl, hx => by
    have ih := pick_split (l1 := l1) (l2 := l2) (fun z hz => hl z (List.mem_cons_of_mem _ hz)) hx
    have hy := hl y List.mem_cons_self
    cases l1 with
    | nil => simp only [List.cons_append, List.nil_append, pick] at ih ⊢; rw [if_pos hy]; exact ih
    | cons z l1 => simp only [List.cons_append, pick] at ih ⊢; rw [if_pos hy]; exact ih

theorem pick_mem {t h : ℚ} : ∀ {l : List ℚ} {x : ℚ}, pick t h l = some x → x ∈ l
  | [], _, hx => by simp [pick] at hx
  | [y], x, hx => by simp only [pick, Option.some.injEq] at hx; simp [hx]
  | y :: z :: l, x, hx => by
    unfold pick at hx
    split at hx
    · exact List.mem_cons_of_mem _ (pick_mem hx)
    · simp only [Option.some.injEq] at hx; simp [hx]

theorem candidate_split {t h x : ℚ} {l1 l2 : List ℚ} (hl : ∀ y ∈ l1, y ≤ h) (h1 : t ≤ x) (h2 : h < x) :
    candidate t h (l1 ++ x :: l2) = some x := by
  unfold candidate
  rw [pick_split (fun y hy => .inr (hl y hy)) (by rw [not_or, not_lt, not_le]; exact ⟨h1, h2⟩)]
  simp [h2]

theorem candidate_none {t h : ℚ} {l : List ℚ} (hl : ∀ y ∈ l, y ≤ h) : candidate t h l = none := by
  unfold candidate
  cases hp : pick t h l with
  | none => rfl
  | some x => simp [hl x (pick_mem hp)]

/-- The earliest candidate; the greatest task among those of the same date. -/
theorem earliest_spec (c : Fin nV → Option ℚ) :
    (earliest c = none ∧ ∀ a, c a = none) ∨
    ∃ b t, earliest c = some (b, t) ∧ c b = some t ∧ ∀ a x, c a = some x → t ≤ x ∧ (x = t → a ≤ b) := by
  have key : ∀ (l : List (Fin nV)) (best : Option (Fin nV × ℚ)) (seen : Fin nV → Prop), (l.Pairwise (· < ·)) → (∀ a, seen a → ∀ b ∈ l, a < b) →
      ((best = none ∧ ∀ a, seen a → c a = none) ∨
        ∃ b t, best = some (b, t) ∧ seen b ∧ c b = some t ∧ ∀ a x, seen a → c a = some x → t ≤ x ∧ (x = t → a ≤ b)) →
      let r := l.foldl (fun best a => better best a (c a)) best
      ((r = none ∧ ∀ a, seen a ∨ a ∈ l → c a = none) ∨
        ∃ b t, r = some (b, t) ∧ c b = some t ∧ ∀ a x, seen a ∨ a ∈ l → c a = some x → t ≤ x ∧ (x = t → a ≤ b)) := by
    intro l
    induction l with
    | nil =>
      intro best seen _ _ h
      rcases h with ⟨h1, h2⟩ | ⟨b, t, h1, -, h3, h4⟩
      · exact .inl ⟨h1, fun a ha => h2 a (by simpa using ha)⟩
      · exact .inr ⟨b, t, h1, h3, fun a x ha => h4 a x (by simpa using ha)⟩
    | cons a l ih =>
      intro best seen hl hs h
      rw [List.pairwise_cons] at hl
      have hstep := ih (better best a (c a)) (fun b => seen b ∨ b = a) hl.2
        (by
          rintro b (hb | rfl) d hd
          · exact hs b hb d (List.mem_cons_of_mem _ hd)
          · exact hl.1 d hd)
        (by
          cases hca : c a with
          | none =>
            rcases h with ⟨h1, h2⟩ | ⟨b, t, h1, h2, h3, h4⟩
            · refine .inl ⟨by simpa [better] using h1, ?_⟩
              rintro b (hb | rfl)
              · exact h2 b hb
              · exact hca
            · refine .inr ⟨b, t, by simpa [better] using h1, .inl h2, h3, ?_⟩
              rintro d x (hd | rfl) hx
              · exact h4 d x hd hx
              · rw [hca] at hx; simp at hx
          | some x =>
            right
            rcases h with ⟨h1, h2⟩ | ⟨b, t, h1, h2, h3, h4⟩
            · refine ⟨a, x, by simp [h1, better], .inr rfl, hca, ?_⟩
              rintro d y (hd | rfl) hy
              · rw [h2 d hd] at hy; simp at hy
              · rw [hca] at hy; simp at hy; subst hy; exact ⟨le_rfl, fun _ => le_rfl⟩
            · have hba : b < a := hs b h2 a List.mem_cons_self
              by_cases hxt : x ≤ t
              · refine ⟨a, x, by simp [h1, hxt, better], .inr rfl, hca, ?_⟩
                rintro d y (hd | rfl) hy
                · exact ⟨hxt.trans (h4 d y hd hy).1, fun _ => (hs d hd a List.mem_cons_self).le⟩
                · rw [hca] at hy; simp at hy; subst hy; exact ⟨le_rfl, fun _ => le_rfl⟩
              · refine ⟨b, t, by simp [h1, hxt, better], .inl h2, h3, ?_⟩
                rintro d y (hd | rfl) hy
                · exact h4 d y hd hy
                · rw [hca] at hy; simp at hy; subst hy
                  exact ⟨(not_le.1 hxt).le, fun e => absurd e.le hxt⟩)
      rw [List.foldl_cons]
      rcases hstep with ⟨h1, h2⟩ | ⟨b, t, h1, h3, h4⟩
      · refine .inl ⟨h1, fun b hb => h2 b ?_⟩
        rcases hb with hb | hb
        · exact .inl (.inl hb)
        · rcases List.mem_cons.1 hb with hb | hb
          · exact .inl (.inr hb)
          · exact .inr hb
      · refine .inr ⟨b, t, h1, h3, fun d x hd => h4 d x ?_⟩
        rcases hd with hb | hb
        · exact .inl (.inl hb)
        · rcases List.mem_cons.1 hb with hb | hb
          · exact .inl (.inr hb)
          · exact .inr hb
  have := key (List.finRange nV) none (fun _ => False) (List.pairwise_lt_finRange nV) (fun _ h => h.elim) (.inl ⟨rfl, fun _ h => h.elim⟩)
  rcases this with ⟨h1, h2⟩ | ⟨b, t, h1, h2, h3⟩
  · exact .inl ⟨h1, fun a => h2 a (.inr (List.mem_finRange a))⟩
  · exact .inr ⟨b, t, h1, h2, fun a x => h3 a x (.inr (List.mem_finRange a))⟩

/-! ### Graphs with one phase per task -/

theorem Plain.dur (h : Sim.OK g) (H : Plain g σ) (a : Fin nV) : g.dur a = [g.execDur a 0] ∧ 0 < g.execDur a 0 ∧ ∀ k, g.execDur a k = g.execDur a 0 := by
  obtain ⟨d, hd⟩ := List.length_eq_one_iff.1 ((h.durLen a).trans (H.one a))
  have : ∀ k, g.execDur a k = d := by intro k; simp [Graph.execDur, hd, Nat.mod_one]
  rw [this 0]
  exact ⟨hd, H.pos a d (by simp [hd]), this⟩

theorem rate_one {l : List Int} (hl : l.length = 1) (k : ℕ) : rate l k = l.getD 0 0 := by
  obtain ⟨d, rfl⟩ := List.length_eq_one_iff.1 hl
  simp [rate, Nat.mod_one]

theorem Plain.lt (h : Sim.OK g) (H : Plain g σ) (a : Fin nV) {i j : ℕ} (hij : i < j) : σ a i + g.execDur a 0 ≤ σ a j := by
  induction j, hij using Nat.le_induction with
  | base => rw [← (H.dur h a).2.2 i]; exact H.seq a i
  | succ j _ ih =>
    have := H.seq a j
    rw [(H.dur h a).2.2 j] at this
    have := (H.dur h a).2.1
    linarith

theorem Plain.mono (h : Sim.OK g) (H : Plain g σ) (a : Fin nV) {i j : ℕ} (hij : i ≤ j) : σ a i ≤ σ a j := by
  rcases hij.eq_or_lt with rfl | hij
  · exact le_rfl
  · have := H.lt h a hij
    have := (H.dur h a).2.1
    linarith

theorem Plain.nonneg (h : Sim.OK g) (H : Plain g σ) (a : Fin nV) (k : ℕ) : 0 ≤ σ a k := by
  obtain ⟨b, hb, hz⟩ := H.zero
  have := H.mono h a (Nat.zero_le k)
  by_cases hab : a = b
  · subst hab; linarith
  · have := hz a hab; linarith

/-! ### The invariant -/

/-- `c a` executions of `a` have ended and `st a` have started before the pass. -/
structure Inv (g : Graph nV nE) (σ : Fin nV → ℕ → ℚ) (len goal : Fin nV → ℕ) (x : State nV nE) (c st : Fin nV → ℕ) : Prop where
  phase : ∀ a, x.phase a = 0
  dates : ∀ a, x.dates a = ((List.range (len a)).map (σ a)).drop (c a)
  left : ∀ a, x.left a = ((goal a - c a : ℕ) : Int)
  load : ∀ e, x.load e = g.preload e + Sim.cum (g.prod e) (c (g.src e)) - Sim.cum (g.cons e) (st (g.tgt e))
  hist : ∀ a, x.hist a = if st a = 0 then 0 else σ a (st a - 1)
  nlt : st x.next.1 < len x.next.1
  next : x.next.2 = σ x.next.1 (st x.next.1)
  order : ∀ a k, k < len a → (k < st a ↔ σ a k < x.next.2 ∨ (σ a k = x.next.2 ∧ x.next.1 < a))
  le : ∀ a, st a ≤ len a
  ended : ∀ a, ∀ k < c a, σ a k + g.execDur a 0 ≤ x.next.2 
  running : ∀ a, c a < len a → ∀ b, ∀ k < st b, σ b k < σ a (c a) + g.execDur a 0
  cle : ∀ a, c a ≤ len a
  fed : ∀ e, ∀ k < st (g.tgt e), Fed g σ e k

variable {len goal : Fin nV → ℕ} {x y : State nV nE} {c st : Fin nV → ℕ}

theorem Inv.head (I : Inv g σ len goal x c st) (a : Fin nV) : (x.dates a).head? = if c a < len a then some (σ a (c a)) else none := by
  rw [I.dates, List.head?_drop]
  split
  · rename_i hc; simp [hc]
  · rename_i hc; simp; omega

theorem Inv.finish (h : Sim.OK g) (H : Plain g σ) (I : Inv g σ len goal x c st) (a : Fin nV) :
    finish g x a = if c a < len a then some (g.execDur a 0 + σ a (c a)) else none := by
  unfold Check.finish
  rw [I.head, I.phase, (H.dur h a).1]
  simp only [List.length_cons, List.length_nil, Nat.zero_add, Nat.lt_one_iff, getElem?_pos, List.getElem_cons_zero, Option.bind_eq_bind, Option.bind_some]
  split <;> rfl

theorem Inv.ends (h : Sim.OK g) (H : Plain g σ) (I : Inv g σ len goal x c st) (a : Fin nV) :
    ends g x a = decide (c a < len a ∧ σ a (c a) + g.execDur a 0 ≤ x.next.2) := by
  unfold Check.ends
  rw [I.finish h H]
  by_cases hc : c a < len a
  · rw [if_pos hc]; simp [hc, add_comm]
  · rw [if_neg hc]; simp [hc]

/-- After the pass. -/
def cnext (g : Graph nV nE) (σ : Fin nV → ℕ → ℚ) (len : Fin nV → ℕ) (x : State nV nE) (c : Fin nV → ℕ) (a : Fin nV) : ℕ :=
  if c a < len a ∧ σ a (c a) + g.execDur a 0 ≤ x.next.2 then c a + 1 else c a

/-- After the ends of the pass, what has not ended ends after the date of the pass. -/
theorem Inv.after (h : Sim.OK g) (H : Plain g σ) (I : Inv g σ len goal x c st) (a : Fin nV) (hc : cnext g σ len x c a < len a) :
    x.next.2 < σ a (cnext g σ len x c a) + g.execDur a 0 := by
  unfold cnext at hc ⊢
  split at hc <;> rename_i hcond
  · rw [if_pos hcond]
    by_contra hcon
    rw [not_lt] at hcon
    have hd := (H.dur h a).2.1
    have h1 : c a + 1 < st a := (I.order a (c a + 1) hc).2 (.inl (by linarith))
    have h2 := I.running a (by omega) a (c a + 1) h1
    have h3 := H.lt h a (Nat.lt_succ_self (c a))
    simp only [Nat.succ_eq_add_one] at h3
    linarith
  · rw [if_neg hcond]
    by_contra hcon
    exact hcond ⟨hc, not_lt.1 hcon⟩

theorem Inv.before (I : Inv g σ len goal x c st) (a : Fin nV) (k : ℕ) (hk : k < cnext g σ len x c a) :
    σ a k + g.execDur a 0 ≤ x.next.2 := by
  unfold cnext at hk
  split at hk <;> rename_i hcond
  · rcases Nat.lt_succ_iff_lt_or_eq.1 hk with hk | rfl
    · exact I.ended a k hk
    · exact hcond.2
  · exact I.ended a k hk

theorem Inv.cnext_le (I : Inv g σ len goal x c st) (a : Fin nV) : cnext g σ len x c a ≤ len a := by
  unfold cnext
  split
  · omega
  · exact I.cle a

theorem Inv.cnext_le_st (h : Sim.OK g) (H : Plain g σ) (I : Inv g σ len goal x c st) (a : Fin nV) : cnext g σ len x c a ≤ st a := by
  by_contra hcon
  rw [not_le] at hcon
  have h1 := I.before a (st a) hcon
  have h2 := I.cnext_le a
  have h3 := (I.order a (st a) (by omega)).2 (.inl (by have := (H.dur h a).2.1; linarith))
  omega

/-- Tokens on a channel after the ends and the start of the pass. -/
theorem Inv.newLoad (h : Sim.OK g) (H : Plain g σ) (I : Inv g σ len goal x c st) (e : Fin nE) :
    x.load e + (if Check.ends g x (g.src e) then (g.prod e).getD (x.phase (g.src e)) 0 else 0) -
      (if g.tgt e = x.next.1 then (g.cons e).getD (x.phase x.next.1) 0 else 0) =
    g.preload e + Sim.cum (g.prod e) (cnext g σ len x c (g.src e)) -
      Sim.cum (g.cons e) (if g.tgt e = x.next.1 then st (g.tgt e) + 1 else st (g.tgt e)) := by
  rw [I.load, I.ends h H, I.phase, I.phase]
  unfold cnext
  have h1 := rate_one ((h.prodLen e).trans (H.one _)) (c (g.src e))
  have h2 := rate_one ((h.consLen e).trans (H.one _)) (st (g.tgt e))
  rw [← h1, ← h2]
  simp only [decide_eq_true_eq]
  split_ifs <;> (try simp only [Sim.cum_succ]) <;> ring

/-- The candidates after the pass. -/
theorem Inv.cand (h : Sim.OK g) (H : Plain g σ) (I : Inv g σ len goal x c st) (a : Fin nV) (st' : ℕ) (hst : st' = if a = x.next.1 then st a + 1 else st a) :
    candidate x.next.2 (Function.update x.hist x.next.1 x.next.2 a) (((List.range (len a)).map (σ a)).drop (cnext g σ len x c a)) =
      if st' < len a then some (σ a st') else none := by
  have hh : Function.update x.hist x.next.1 x.next.2 a = if st' = 0 then 0 else σ a (st' - 1) := by
    by_cases ha : a = x.next.1
    · rw [if_pos ha] at hst
      subst hst
      rw [if_neg (by omega)]
      have := I.next
      subst ha
      simp [this]
    · rw [if_neg ha] at hst
      subst hst
      rw [Function.update_of_ne ha, I.hist]
  rw [hh]
  have hle : ∀ k < st', σ a k ≤ if st' = 0 then 0 else σ a (st' - 1) := by
    intro k hk
    rw [if_neg (by omega)]
    exact H.mono h a (by omega)
  by_cases hlt : st' < len a
  · rw [if_pos hlt]
    have hc : cnext g σ len x c a ≤ st' := by
      have := I.cnext_le_st h H a
      rw [hst]; split <;> omega
    have hs : ((List.range (len a)).map (σ a)).drop (cnext g σ len x c a) =
        (((List.range st').map (σ a)).drop (cnext g σ len x c a)) ++ σ a st' :: ((List.range (len a)).map (σ a)).drop (st' + 1) := by
      have e1 : (List.range (len a)).map (σ a) = (List.range st').map (σ a) ++ ((List.range (len a)).map (σ a)).drop st' := by
        conv_lhs => rw [← List.take_append_drop st' ((List.range (len a)).map (σ a))]
        congr 1
        rw [← List.map_take, List.take_range, Nat.min_eq_left hlt.le]
      conv_lhs => rw [e1]
      rw [List.drop_append_of_le_length (by simpa using hc)]
      congr 1
      rw [List.drop_eq_getElem_cons (by simpa using hlt)]
      simp
    rw [hs]
    apply candidate_split
    · intro y hy
      obtain ⟨k, hk, rfl⟩ := List.mem_map.1 (List.mem_of_mem_drop hy)
      exact hle k (List.mem_range.1 hk)
    · by_cases ha : a = x.next.1
      · rw [if_pos ha] at hst
        subst ha
        rw [I.next, hst]
        exact H.mono h _ (Nat.le_succ _)
      · rw [if_neg ha] at hst
        subst hst
        by_contra hcon
        have := (I.order a (st a) hlt).2 (.inl (not_le.1 hcon))
        omega
    · by_cases h0 : st' = 0
      · rw [if_pos h0, h0]
        obtain ⟨b, hb, hz⟩ := H.zero
        by_cases hab : a = b
        · subst hab
          exfalso
          have ha : a ≠ x.next.1 := by intro ha; rw [if_pos ha] at hst; omega
          rw [if_neg ha] at hst
          have h1 := (I.order a 0 (by omega)).not.1 (by omega)
          rw [not_or, hb, not_lt] at h1
          have h2 := I.next
          have h3 := H.nonneg h x.next.1 (st x.next.1)
          have h4 := hz x.next.1 (Ne.symm ha)
          have h5 := H.mono h x.next.1 (Nat.zero_le (st x.next.1))
          linarith [h1.1]
        · exact hz a hab
      · rw [if_neg h0]
        have := H.lt h a (show st' - 1 < st' by omega)
        have := (H.dur h a).2.1
        linarith
  · rw [if_neg hlt]
    apply candidate_none
    intro y hy
    obtain ⟨k, hk, rfl⟩ := List.mem_map.1 (List.mem_of_mem_drop hy)
    have hk := List.mem_range.1 hk
    exact hle k (by omega)

/-- Executions started after the pass. -/
def snext (x : State nV nE) (st : Fin nV → ℕ) (a : Fin nV) : ℕ := if a = x.next.1 then st a + 1 else st a

/-- What a pass does when no task has run out of dates. -/
theorem Inv.pass (h : Sim.OK g) (H : Plain g σ) (I : Inv g σ len goal x c st) (reent : Fin nV → Int)
    (hl : ((List.finRange nV).map x.left).sum ≠ 0) (hc : ∀ a, c a < len a) :
    (Check.pass g reent x = some (.stop false) ∧ ∃ e, g.tgt e = x.next.1 ∧
      g.preload e + Sim.cum (g.prod e) (cnext g σ len x c (g.src e)) < Sim.cum (g.cons e) (st (g.tgt e) + 1)) ∨
    (Check.pass g reent x = none ∧ ∀ a, snext x st a = len a) ∨
    (Check.pass g reent x = some (.stop false) ∧ ∃ a, reent a = 0) ∨
    ∃ y, Check.pass g reent x = some (.go y) ∧ Inv g σ len goal y (cnext g σ len x c) (snext x st) := by
  have hsle : ∀ a, snext x st a ≤ len a := by
    intro a
    unfold snext
    split
    · rename_i ha; subst ha; exact I.nlt
    · exact I.le a
  have hfin : ¬ ∃ a, (Check.finish g x a).isNone := by
    rintro ⟨a, ha⟩
    rw [I.finish h H, if_pos (hc a)] at ha
    simp at ha
  unfold Check.pass
  rw [if_neg hl, if_neg hfin]
  dsimp only
  simp only [I.newLoad h H]
  by_cases hneg : ∃ e, g.tgt e = x.next.1 ∧ g.preload e + Sim.cum (g.prod e) (cnext g σ len x c (g.src e)) -
      Sim.cum (g.cons e) (if g.tgt e = x.next.1 then st (g.tgt e) + 1 else st (g.tgt e)) < 0
  · rw [if_pos hneg]
    obtain ⟨e, he, hlt⟩ := hneg
    rw [if_pos he] at hlt
    exact .inl ⟨rfl, e, he, by omega⟩
  right
  rw [if_neg hneg]
  have hdates : ∀ a, (if Check.ends g x a = true then (x.dates a).tail else x.dates a) = ((List.range (len a)).map (σ a)).drop (cnext g σ len x c a) := by
    intro a
    rw [I.ends h H, I.dates]
    unfold cnext
    simp only [decide_eq_true_eq]
    split
    · rw [List.tail_drop]
    · rfl
  have hphase : ∀ a, (if Check.ends g x a = true then (x.phase a + 1) % (g.dur a).length else x.phase a) = 0 := by
    intro a
    rw [I.phase, (H.dur h a).1]
    split <;> simp
  simp only [hdates, hphase, I.cand h H _ _ rfl]
  have hsn : (fun a => if (if a = x.next.1 then st a + 1 else st a) < len a then some (σ a (if a = x.next.1 then st a + 1 else st a)) else none) =
      fun a => if snext x st a < len a then some (σ a (snext x st a)) else none := rfl
  rw [hsn]
  rcases earliest_spec (fun a => if snext x st a < len a then some (σ a (snext x st a)) else none) with ⟨h1, h2⟩ | ⟨b, t, h1, h2, h3⟩
  · rw [h1]
    refine .inl ⟨rfl, fun a => ?_⟩
    have := h2 a
    split at this
    · simp at this
    · have := hsle a; omega
  right
  rw [h1]
  simp only [Option.bind_eq_bind, Option.bind_some, (H.dur h b).1]
  simp only [List.length_cons, List.length_nil, Nat.zero_add, Nat.lt_one_iff, getElem?_pos, List.getElem_cons_zero, Option.bind_some]
  by_cases hr : reent b = 0 ∧ t < Function.update x.hist x.next.1 x.next.2 b + g.execDur b 0
  · rw [if_pos hr]
    exact .inl ⟨rfl, b, hr.1⟩
  right
  rw [if_neg hr]
  refine ⟨_, rfl, ?_⟩
  split at h2
  swap
  · simp at h2
  rename_i hb
  simp only [Option.some.injEq] at h2
  have hmin : ∀ a, snext x st a < len a → t ≤ σ a (snext x st a) ∧ (σ a (snext x st a) = t → a ≤ b) :=
    fun a ha => h3 a _ (by rw [if_pos ha])
  -- what has not started is not before the date of the pass
  have hnot : ∀ a, snext x st a < len a → x.next.2 ≤ σ a (snext x st a) ∧ (σ a (snext x st a) = x.next.2 → a < x.next.1) := by
    intro a ha
    unfold snext at ha ⊢
    split at ha <;> rename_i hab
    · rw [if_pos hab]
      subst hab
      have := H.lt h x.next.1 (Nat.lt_succ_self (st x.next.1))
      have h5 := (H.dur h x.next.1).2.1
      rw [I.next]
      simp only [Nat.succ_eq_add_one] at this
      exact ⟨by linarith, fun e => by linarith⟩
    · rw [if_neg hab]
      have := (I.order a (st a) ha).not.1 (by omega)
      rw [not_or, not_lt, not_and] at this
      exact ⟨this.1, fun e => lt_of_le_of_ne (not_lt.1 (this.2 e)) hab⟩
  have hyes : ∀ a, ∀ k < snext x st a, σ a k ≤ x.next.2 ∧ (σ a k = x.next.2 → x.next.1 ≤ a) := by
    intro a k hk
    have hk' : k < len a := lt_of_lt_of_le hk (hsle a)
    unfold snext at hk
    split at hk <;> rename_i hab
    · subst hab
      rw [I.next]
      exact ⟨H.mono h _ (by omega), fun _ => le_rfl⟩
    · rcases (I.order a k hk').1 hk with h4 | ⟨h4, h5⟩
      · exact ⟨h4.le, fun e => absurd e h4.ne⟩
      · exact ⟨h4.le, fun _ => h5.le⟩
  have htt : x.next.2 ≤ t := by rw [← h2]; exact (hnot b hb).1
  constructor
  · intro a; rfl
  · intro a; rfl
  · intro a
    show (if Check.ends g x a = true ∧ 0 < x.left a then x.left a - 1 else x.left a) = _
    rw [I.ends h H, I.left]
    unfold cnext
    simp only [decide_eq_true_eq]
    by_cases h6 : c a < len a ∧ σ a (c a) + g.execDur a 0 ≤ x.next.2
    · rw [if_pos h6]
      by_cases h7 : 0 < ((goal a - c a : ℕ) : Int)
      · rw [if_pos ⟨h6, h7⟩]; omega
      · rw [if_neg (fun h8 => h7 h8.2)]; omega
    · rw [if_neg h6, if_neg (fun h7 => h6 h7.1)]
  · intro e
    show g.preload e + _ - _ = _
    unfold snext
    rfl
  · intro a
    show Function.update x.hist x.next.1 x.next.2 a = _
    unfold snext
    by_cases ha : a = x.next.1
    · rw [if_pos ha, if_neg (by omega)]
      subst ha
      simp [I.next]
    · rw [if_neg ha, Function.update_of_ne ha, I.hist]
  · exact hb
  · exact h2.symm
  · intro a k hk
    show k < snext x st a ↔ σ a k < t ∨ (σ a k = t ∧ b < a)
    constructor
    · intro hka
      obtain ⟨h4, h5⟩ := hyes a k hka
      rcases htt.eq_or_lt with he | hlt
      · rcases h4.eq_or_lt with h6 | h6
        · refine .inr ⟨h6.trans he, ?_⟩
          have := (hnot b hb).2 (by rw [h2, he])
          exact lt_of_lt_of_le this (h5 h6)
        · exact .inl (by rw [← he]; exact h6)
      · exact .inl (lt_of_le_of_lt h4 hlt)
    · intro hor
      by_contra hcon
      rw [not_lt] at hcon
      have hs' : snext x st a < len a := lt_of_le_of_lt hcon hk
      obtain ⟨h4, h5⟩ := hmin a hs'
      have h6 := H.mono h a hcon
      rcases hor with h7 | ⟨h7, h8⟩
      · linarith
      · have : σ a (snext x st a) = t := by linarith
        exact absurd (h5 this) (not_le.2 h8)
  · exact hsle
  · intro a k hk
    exact (I.before a k hk).trans htt
  · intro a ha b' k hk
    exact lt_of_le_of_lt (hyes b' k hk).1 (I.after h H a ha)
  · exact I.cnext_le
  · intro e k hk
    unfold snext at hk
    split at hk <;> rename_i hab
    · rcases Nat.lt_succ_iff_lt_or_eq.1 hk with hk | rfl
      · exact I.fed e k hk
      · refine ⟨cnext g σ len x c (g.src e), fun j hj => ?_, ?_⟩
        · rw [(H.dur h _).2.2 j, hab]
          have := I.before _ j hj
          rw [I.next] at this
          exact this
        · by_contra hcon
          exact hneg ⟨e, hab, by rw [if_pos hab]; omega⟩
    · exact I.fed e k hk

/-! ### The loop -/

theorem Inv.done (I : Inv g σ len goal x c st) (hl : ((List.finRange nV).map x.left).sum = 0) (a : Fin nV) : goal a ≤ c a := by
  have h0 : ∀ i ∈ (List.finRange nV).map x.left, 0 ≤ i := by
    intro i hi
    obtain ⟨b, -, rfl⟩ := List.mem_map.1 hi
    rw [I.left]; omega
  have h1 : x.left a ≤ ((List.finRange nV).map x.left).sum :=
    List.single_le_sum h0 _ (List.mem_map_of_mem (List.mem_finRange a))
  rw [I.left] at h1
  omega

theorem Inv.undone (I : Inv g σ len goal x c st) (hl : ((List.finRange nV).map x.left).sum ≠ 0) : ∃ a, c a < goal a := by
  by_contra hcon
  push Not at hcon
  apply hl
  apply List.sum_eq_zero
  intro i hi
  obtain ⟨b, -, rfl⟩ := List.mem_map.1 hi
  rw [I.left]
  have := hcon b
  omega

theorem Inv.c_le_st (h : Sim.OK g) (H : Plain g σ) (I : Inv g σ len goal x c st) (a : Fin nV) : c a ≤ st a :=
  le_trans (by unfold cnext; split <;> omega) (I.cnext_le_st h H a)

/-- Soundness of the loop: a date `T` by which the executions to be seen have ended, and every execution that starts before it has its tokens. -/
theorem Inv.sound (h : Sim.OK g) (H : Plain g σ) (reent : Fin nV → Int) : ∀ (n : ℕ) {x : State nV nE} {c st : Fin nV → ℕ},
    Inv g σ len goal x c st → loop g reent n x = some true →
    ∃ T, (∀ a, ∀ k < goal a, σ a k + g.execDur a k ≤ T) ∧ ∀ e, ∀ k < len (g.tgt e), σ (g.tgt e) k < T → Fed g σ e k := by
  intro n
  induction n with
  | zero => intro x c st _ hr; simp [loop] at hr
  | succ n ih =>
    intro x c st I hr
    unfold loop at hr
    by_cases hl : ((List.finRange nV).map x.left).sum = 0
    · refine ⟨x.next.2, fun a k hk => ?_, fun e k hk hT => ?_⟩
      · rw [(H.dur h a).2.2 k]
        exact I.ended a k (lt_of_lt_of_le hk (I.done hl a))
      · exact I.fed e k ((I.order _ k hk).2 (.inl hT))
    · by_cases hc : ∀ a, c a < len a
      · rcases I.pass h H reent hl hc with ⟨hp, -⟩ | ⟨hp, -⟩ | ⟨hp, -⟩ | ⟨y, hp, hI⟩
        · rw [hp] at hr; simp at hr
        · rw [hp] at hr; simp at hr
        · rw [hp] at hr; simp at hr
        · rw [hp] at hr; exact ih hI hr
      · exfalso
        have hfin : ∃ a, (Check.finish g x a).isNone := by
          push Not at hc
          obtain ⟨a, ha⟩ := hc
          refine ⟨a, ?_⟩
          rw [I.finish h H, if_neg (by omega)]; rfl
        have : Check.pass g reent x = none := by
          unfold Check.pass
          rw [if_neg hl, if_pos hfin]
        rw [this] at hr
        simp at hr

/-- Where the dates of the tasks end. -/
structure Horizon (σ : Fin nV → ℕ → ℚ) (len goal : Fin nV → ℕ) (top : ℚ) : Prop where
  lt : ∀ a, goal a < len a
  upto : ∀ a, σ a (goal a) ≤ top
  last : ∀ a, top ≤ σ a (len a - 1)
  beyond : ∃ a, top < σ a (len a - 1)

/-- The loop returns, and accepts a schedule in which every execution has its tokens. -/
theorem Inv.complete (h : Sim.OK g) (H : Plain g σ) {reent : Fin nV → Int} (hr : ∀ a, reent a ≠ 0) {top : ℚ} (hh : Horizon σ len goal top)
    : ∀ (n : ℕ) {x : State nV nE} {c st : Fin nV → ℕ}, Inv g σ len goal x c st →
    (((List.finRange nV).map x.left).sum ≠ 0 → x.next.2 ≤ top) → (∑ a, len a) < n + ∑ a, st a →
    ∃ r, loop g reent n x = some r ∧ ((∀ e k, Fed g σ e k) → r = true) := by
  intro n
  induction n with
  | zero =>
    intro x c st I _ hn
    have := Finset.sum_le_sum fun a (_ : a ∈ Finset.univ) => I.le a
    omega
  | succ n ih =>
    intro x c st I ht hn
    unfold loop
    by_cases hl : ((List.finRange nV).map x.left).sum = 0
    · have : Check.pass g reent x = some (.stop true) := by unfold Check.pass; rw [if_pos hl]
      rw [this]
      exact ⟨true, rfl, fun _ => rfl⟩
    · have ht := ht hl
      have hd := fun a => (H.dur h a).2.1
      have hpos : ∀ a, 0 < len a := fun a => lt_of_le_of_lt (Nat.zero_le _) (hh.lt a)
      have hc : ∀ a, c a < len a := by
        intro a
        by_contra hcon
        have h1 := I.ended a (len a - 1) (by have := hpos a; omega)
        have h2 := hh.last a
        have := hd a
        linarith
      have hc' : ∀ a, cnext g σ len x c a < len a := by
        intro a
        by_contra hcon
        have h1 := I.before a (len a - 1) (by have := hpos a; omega)
        have h2 := hh.last a
        have := hd a
        linarith
      rcases I.pass h H reent hl hc with ⟨hp, e, he, hlt⟩ | ⟨hp, hall⟩ | ⟨-, a, ha⟩ | ⟨y, hp, hI⟩
      · rw [hp]
        refine ⟨false, rfl, fun hf => ?_⟩
        exfalso
        obtain ⟨k, h1, h2⟩ := hf e (st (g.tgt e))
        have hk : k ≤ cnext g σ len x c (g.src e) := by
          by_contra hcon
          have h3 := h1 _ (not_le.1 hcon)
          have h4 := I.after h H _ (hc' (g.src e))
          rw [(H.dur h _).2.2, he, ← I.next] at h3
          linarith
        have := Sim.cum_mono (h.prodNonneg e) hk
        omega
      · exfalso
        obtain ⟨a, ha⟩ := hh.beyond
        have h1 : len a - 1 < snext x st a := by rw [hall]; have := hpos a; omega
        have h2 : σ a (len a - 1) ≤ x.next.2 := by
          unfold snext at h1
          split at h1
          · rename_i hax
            subst hax
            rw [I.next]
            exact H.mono h _ (by omega)
          · rcases (I.order a (len a - 1) (by have := hpos a; omega)).1 h1 with h2 | ⟨h2, -⟩
            · exact h2.le
            · exact h2.le
        linarith
      · exact absurd ha (hr a)
      · rw [hp]
        refine ih hI (fun hly => ?_) ?_
        · by_contra hcon
          rw [not_le] at hcon
          obtain ⟨a, ha⟩ := hI.undone hly
          have h1 : goal a < snext x st a := (hI.order a (goal a) (hh.lt a)).2 (.inl (lt_of_le_of_lt (hh.upto a) hcon))
          have h2 := hI.running a (hc' a) a (goal a) h1
          have h3 := H.lt h a ha
          linarith
        · have h1 : ∑ a, snext x st a = (∑ a, st a) + 1 := by
            unfold snext
            have : ∀ a, (if a = x.next.1 then st a + 1 else st a) = st a + if a = x.next.1 then 1 else 0 := by
              intro a; split <;> rfl
            simp only [this]
            rw [Finset.sum_add_distrib]
            simp
          omega

end Kiter.Check
