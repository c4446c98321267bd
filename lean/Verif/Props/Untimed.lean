/-
C94: the command SymbolicExecution ends exactly on the graphs that can execute one iteration, which for graphs of tasks with one
phase are the live ones.
-/
import Verif.Lemmas.Untimed
import Verif.Lemmas.Optimality
import Verif.Props.BufferExploration
import Mathlib.Data.Nat.Nth
import Mathlib.Data.Finset.Max
import Mathlib.Tactic.Positivity

set_option autoImplicit false

namespace Kiter

open Untimed

section
variable {B : BaseGraph}

theorem Untimed.made_nonneg (hB : BaseOK B) {e : BChannel} (he : e ∈ B.channels) : 0 ≤ made e := (hB.channels e he).2.2.inPos.le

theorem Untimed.passes_progress (hu : Unique B) {iterations : Int} (h0 : ∀ t ∈ B.tasks, 0 ≤ t.ni * iterations)
    (hmade : ∀ e ∈ B.channels, 0 ≤ made e) {goal : List Int} (hg : Iterates B iterations goal) (n : ℕ) :
    (passes B (start B iterations) n).total ≤ 0 ∨
      (passes B (start B iterations) n).total ≤ (B.tasks.map fun t => t.ni * iterations).sum - n := by
  induction n with
  | zero => right; simp [passes, start]
  | succ n ih =>
    unfold passes
    split
    · rename_i hpos
      have ih := ih.resolve_left (by omega)
      obtain ⟨seq, h⟩ := after_passes hu h0 n
      rcases after_pass hu B.tasks (fun _ h => h) h with ⟨-, h1⟩ | ⟨x, hx, h1⟩
      · obtain ⟨t, ht, hc⟩ := not_stuck hmade h hg hpos
        rw [h1 t ht] at hc
        exact absurd hc (by simp)
      · right
        have h2 : (pass B (passes B (start B iterations) n)).total + x.length ≤ (passes B (start B iterations) n).total := by
          unfold pass
          rw [h1.total, h.total]
          have key : ∀ (x seq : List Int), (∀ i ∈ x, ∃ t ∈ B.tasks, t.id = i) →
              (B.tasks.map fun t => t.ni * iterations - ((seq ++ x).count t.id : Int)).sum + x.length ≤
                (B.tasks.map fun t => t.ni * iterations - (seq.count t.id : Int)).sum := by
            intro x
            induction x with
            | nil => intro seq _; simp
            | cons i x ihx =>
              intro seq hm
              obtain ⟨t, ht, rfl⟩ := hm i (by simp)
              have h3 := ihx (seq ++ [t.id]) fun i hi => hm i (by simp [hi])
              have h4 := sum_update hu.tasks ht (fun t => t.ni * iterations) seq
              rw [List.append_assoc, List.singleton_append] at h3
              rw [List.length_cons]
              push_cast
              omega
          exact key x seq fun i hi => h1.tasks i (by simp [hi])
        have : 0 < x.length := List.length_pos_iff.2 hx
        push_cast
        omega
    · left; omega

/-- The loops reach the end within as many turns as executions. -/
theorem C94_bound (hB : BaseOK B) (hu : Unique B) {seq : List Int} (hs : Iterates B 1 seq) {n : ℕ}
    (hn : (B.tasks.map KTask.ni).sum ≤ n) : symbolicExecution B n = some true := by
  have h0 : ∀ t ∈ B.tasks, 0 ≤ t.ni * 1 := fun t ht => by have := (hB.tasks t ht).ni; omega
  have h1 := passes_progress hu h0 (fun e he => made_nonneg hB he) hs n
  simp only [mul_one] at h1
  change _ ∨ _ ≤ (B.tasks.map KTask.ni).sum - _ at h1
  obtain ⟨q, hq⟩ := after_passes hu h0 n
  have h2 := hq.total_nonneg
  have h3 : (passes B (start B 1) n).total = 0 := by omega
  unfold symbolicExecution
  simp [h3]

/-- What the command has done when it ends: a complete iteration of the graph, one execution at a time, each with the tokens it
needs. It answers that the execution has succeeded; no execution is left, and the contents of the channels are those after it. -/
theorem C94_executes (hB : BaseOK B) (hu : Unique B) {n : ℕ} {r : Bool} (h : symbolicExecution B n = some r) :
    r = true ∧ ∃ seq, Iterates B 1 seq ∧ (∀ t ∈ B.tasks, (passes B (start B 1) n).remained t.id = 0) ∧
      ∀ e ∈ B.channels, (passes B (start B 1) n).content e.1.id =
        e.1.preload + e.1.inPhases.sum * e.2.1.ni - e.1.outPhases.sum * e.2.2.ni := by
  have h0 : ∀ t ∈ B.tasks, 0 ≤ t.ni * 1 := fun t ht => by have := (hB.tasks t ht).ni; omega
  obtain ⟨q, hq⟩ := after_passes hu h0 n
  have h2 := hq.total_nonneg
  unfold symbolicExecution at h
  dsimp only at h
  split at h
  · simp at h
  · have h3 : (passes B (start B 1) n).total = 0 := by omega
    rw [h3] at h
    have hi := hq.iterates h3.le
    refine ⟨by simpa using h.symm, q, hi, fun t ht => ?_, fun e he => ?_⟩
    · rw [hq.remained t ht, hi.counts t ht]; ring
    · obtain ⟨m1, m2, -⟩ := hB.channels e he
      rw [hq.content e he, hi.counts _ m1, hi.counts _ m2]
      unfold made used
      ring

/-- The command ends exactly when the graph can execute a complete iteration. -/
theorem C94_ends_iff (hB : BaseOK B) (hu : Unique B) : (∃ n r, symbolicExecution B n = some r) ↔ ∃ seq, Iterates B 1 seq := by
  constructor
  · rintro ⟨n, r, h⟩
    obtain ⟨-, seq, hs, -⟩ := C94_executes hB hu h
    exact ⟨seq, hs⟩
  · rintro ⟨seq, hs⟩
    refine ⟨(B.tasks.map KTask.ni).sum.toNat, true, C94_bound hB hu hs (by omega)⟩

/-- Tasks with one phase: the contents of the channels are back to the initial tokens. -/
theorem C94_returns (hB : BaseOK B) (hu : Unique B) (h1 : ∀ t ∈ B.tasks, t.durations.length = 1) {n : ℕ} {r : Bool}
    (h : symbolicExecution B n = some r) : ∀ e ∈ B.channels, (passes B (start B 1) n).content e.1.id = e.1.preload := by
  intro e he
  obtain ⟨-, seq, -, -, hc⟩ := C94_executes hB hu h
  obtain ⟨m1, m2, hok⟩ := hB.channels e he
  have hb := hok.balance
  rw [h1 _ m1, h1 _ m2] at hb
  rw [hc e he]
  push_cast at hb
  linarith

/-! ### Live graphs -/

theorem Untimed.rate_single {l : List Int} (h : l.length = 1) (k : ℕ) : rate l k = l.sum := by
  obtain ⟨a, rfl⟩ := List.length_eq_one_iff.1 h
  simp [rate, Nat.mod_one]

/-- The endless repetition of a sequence. -/
def Untimed.cyc (seq : List Int) (m : ℕ) : Int := seq.getD (m % seq.length) 0

theorem Untimed.count_take (seq : List Int) (i : Int) (b : ℕ) : ∀ r, r ≤ seq.length →
    Nat.count (fun k => cyc seq (seq.length * b + k) = i) r = (seq.take r).count i := by
  intro r
  induction r with
  | zero => intro _; simp
  | succ r ih =>
    intro hr
    rw [Nat.count_succ, ih (by omega), List.take_succ_eq_append_getElem (by omega), List.count_append, List.count_singleton]
    have : cyc seq (seq.length * b + r) = seq[r] := by
      unfold cyc
      rw [Nat.mul_add_mod, Nat.mod_eq_of_lt (by omega), List.getD_eq_getElem _ _ (by omega)]
    rw [this]
    simp

theorem Untimed.count_cyc (seq : List Int) (i : Int) (b r : ℕ) (hr : r ≤ seq.length) :
    Nat.count (fun m => cyc seq m = i) (seq.length * b + r) = b * seq.count i + (seq.take r).count i := by
  rw [Nat.count_add, count_take seq i b r hr]
  congr 1
  induction b with
  | zero => simp
  | succ b ih =>
    rw [Nat.mul_succ, Nat.count_add, ih, count_take seq i b _ le_rfl, List.take_length]
    ring

theorem Untimed.infinite_cyc {seq : List Int} {i : Int} (hi : i ∈ seq) : (Set.ofPred fun m => cyc seq m = i).Infinite := by
  obtain ⟨r, hr, rfl⟩ := List.mem_iff_getElem.1 hi
  rw [Set.infinite_iff_exists_gt]
  intro a
  refine ⟨seq.length * (a + 1) + r, ?_, ?_⟩
  · show cyc seq _ = _
    unfold cyc
    rw [Nat.mul_add_mod, Nat.mod_eq_of_lt hr, List.getD_eq_getElem _ _ hr]
  · have : 1 * (a + 1) ≤ seq.length * (a + 1) := Nat.mul_le_mul_right _ (by omega)
    omega

/-- Repeating an iteration for ever never lacks tokens. -/
theorem Untimed.cyc_admissible (hB : BaseOK B) (h1 : ∀ t ∈ B.tasks, t.durations.length = 1) {seq : List Int} (hs : Iterates B 1 seq)
    (hne : 0 < seq.length) {c : BChannel} (hc : c ∈ B.channels) {m : ℕ} (hm : cyc seq m = c.2.2.id) :
    c.1.outPhases.sum * ((Nat.count (fun m => cyc seq m = c.2.2.id) m : ℕ) + 1 : Int) ≤
      c.1.preload + c.1.inPhases.sum * (Nat.count (fun m => cyc seq m = c.2.1.id) m : ℕ) := by
  obtain ⟨m1, m2, hok⟩ := hB.channels c hc
  have hb := hok.balance
  rw [h1 _ m1, h1 _ m2] at hb
  have hr : m % seq.length < seq.length := Nat.mod_lt _ hne
  have h2 := hs.admissible (seq.take (m % seq.length)) c.2.2.id (by
    rw [← hm]
    unfold cyc
    rw [List.getD_eq_getElem _ _ hr, ← List.take_succ_eq_append_getElem hr]
    exact List.take_prefix _ _) c hc rfl
  have e : m = seq.length * (m / seq.length) + m % seq.length := (Nat.div_add_mod _ _).symm
  have e1 := count_cyc seq c.2.2.id (m / seq.length) (m % seq.length) hr.le
  have e2 := count_cyc seq c.2.1.id (m / seq.length) (m % seq.length) hr.le
  rw [← e] at e1 e2
  rw [e1, e2]
  generalize m / seq.length = b
  have n1 := hs.counts _ m1
  have n2 := hs.counts _ m2
  push_cast
  rw [n1, n2]
  push_cast at hb
  have : c.1.inPhases.sum * (b * c.2.1.ni) = c.1.outPhases.sum * (b * c.2.2.ni) := by linear_combination (b : Int) * hb
  linarith

/-- Repeating an iteration, with enough time for each execution, is a schedule. -/
theorem Untimed.iterates_valid (hB : BaseOK B) (h1 : ∀ t ∈ B.tasks, t.durations.length = 1) {seq : List Int} (hs : Iterates B 1 seq) :
    ∃ σ, ValidGen B σ := by
  have hmem : ∀ t ∈ B.tasks, t.id ∈ seq := by
    intro t ht
    rw [← List.count_pos_iff]
    have := hs.counts t ht
    have := (hB.tasks t ht).ni
    omega
  obtain ⟨D, hD0, hD⟩ : ∃ D : ℚ, 0 ≤ D ∧ ∀ t ∈ B.tasks, ∀ k, t.dur k ≤ D := by
    have : ∀ l : List KTask, (∀ t ∈ l, t ∈ B.tasks) → ∃ D : ℚ, 0 ≤ D ∧ ∀ t ∈ l, ∀ k, t.dur k ≤ D := by
      intro l
      induction l with
      | nil => exact fun _ => ⟨0, le_rfl, by simp⟩
      | cons a l ih =>
        intro hl
        obtain ⟨D, h0, h⟩ := ih fun t ht => hl t (by simp [ht])
        have ha : ∀ k, a.dur k = a.dur 0 := by
          intro k
          unfold KTask.dur
          rw [h1 a (hl a (by simp))]
          simp [Nat.mod_one]
        refine ⟨max D (a.dur 0), le_max_of_le_left h0, fun t ht k => ?_⟩
        rcases List.mem_cons.1 ht with rfl | ht
        · rw [ha]; exact le_max_right _ _
        · exact (h t ht k).trans (le_max_left _ _)
    exact this _ fun _ h => h
  refine ⟨fun i k => D * (Nat.nth (fun m => cyc seq m = i) k : ℕ), fun t ht k => by positivity, fun t ht k => ?_, fun c hc => ?_⟩
  · have h2 := Nat.nth_strictMono (infinite_cyc (hmem t ht)) (Nat.lt_succ_self k)
    have h3 : ((Nat.nth (fun m => cyc seq m = t.id) k : ℕ) : ℚ) + 1 ≤ (Nat.nth (fun m => cyc seq m = t.id) (k + 1) : ℕ) := by
      exact_mod_cast h2
    have h4 := mul_le_mul_of_nonneg_left h3 hD0
    have := hD t ht k
    linarith
  · obtain ⟨m1, m2, hok⟩ := hB.channels c hc
    have r1 := rate_single (l := c.1.inPhases) (by rw [← hok.srcPhases, h1 _ m1])
    have r2 := rate_single (l := c.1.outPhases) (by rw [← hok.dstPhases, h1 _ m2])
    have hne : 0 < seq.length := List.length_pos_of_mem (hmem _ m1)
    intro x C hC
    simp only [r1, r2, Finset.sum_const, nsmul_eq_mul]
    rcases C.eq_empty_or_nonempty with rfl | hCne
    · exact ⟨∅, by simp, by simpa using hok.preload⟩
    · set L := C.max' hCne with hL
      set m := Nat.nth (fun m => cyc seq m = c.2.2.id) L with hm
      have hinf := infinite_cyc (hmem _ m2)
      have hcm : cyc seq m = c.2.2.id := Nat.nth_mem_of_infinite hinf L
      have hadm := cyc_admissible hB h1 hs hne hc hcm
      rw [show Nat.count (fun m => cyc seq m = c.2.2.id) m = L from Nat.count_nth_of_infinite hinf L] at hadm
      have hcard : (C.card : Int) ≤ L + 1 := by
        have : C ⊆ Finset.range (L + 1) := fun l hl => Finset.mem_range.2 (Nat.lt_succ_of_le (C.le_max' l hl))
        have := Finset.card_le_card this
        rw [Finset.card_range] at this
        exact_mod_cast this
      refine ⟨Finset.range (Nat.count (fun m => cyc seq m = c.2.1.id) m), fun k hk => ?_, ?_⟩
      · have h2 := Nat.nth_lt_of_lt_count (Finset.mem_range.1 hk)
        have h3 : ((Nat.nth (fun m => cyc seq m = c.2.1.id) k : ℕ) : ℚ) + 1 ≤ m := by exact_mod_cast h2
        have h4 := mul_le_mul_of_nonneg_left h3 hD0
        have h5 := hD _ m1 k
        have h6 := hC L (C.max'_mem hCne)
        linarith
      · rw [Finset.card_range]
        have := mul_le_mul_of_nonneg_right hcard hok.outPos.le
        linarith

/-- A live graph whose tasks take time is never stuck. -/
theorem Untimed.live_not_stuck (hB : BaseOK B) (h1 : ∀ t ∈ B.tasks, t.durations.length = 1) (hd : ∀ t ∈ B.tasks, ∀ k, 0 < t.dur k)
    {σ : Int → ℕ → ℚ} (hσ : ValidGen B σ) {seq : List Int} {s : Exec} (h : After B 1 seq s) (hpos : 0 < s.total) :
    ∃ t ∈ B.tasks, canExecute B s t = true := by
  by_contra hno
  push Not at hno
  -- tasks with executions left, the one whose next execution starts first
  have hex : ∃ t ∈ B.tasks, 0 < s.remained t.id := by
    by_contra hn
    push Not at hn
    rw [h.total] at hpos
    have : (B.tasks.map fun t => t.ni * 1 - (seq.count t.id : Int)).sum = 0 := by
      have : ∀ l : List KTask, (∀ t ∈ l, t ∈ B.tasks) → (l.map fun t => t.ni * 1 - (seq.count t.id : Int)).sum = 0 := by
        intro l
        induction l with
        | nil => simp
        | cons a l ih =>
          intro hl
          rw [List.map_cons, List.sum_cons, ih fun t ht => hl t (by simp [ht])]
          have h2 := hn a (hl a (by simp))
          have h3 := h.counts a (hl a (by simp))
          rw [h.remained a (hl a (by simp))] at h2
          omega
      exact this _ fun _ h => h
    omega
  classical
  let S := (B.tasks.toFinset.filter fun t => 0 < s.remained t.id)
  have hS : S.Nonempty := by
    obtain ⟨t, ht, hp⟩ := hex
    exact ⟨t, by simp [S, ht, hp]⟩
  obtain ⟨t, htS, hmin⟩ := S.exists_min_image (fun t => σ t.id (seq.count t.id)) hS
  obtain ⟨ht, hrem⟩ : t ∈ B.tasks ∧ 0 < s.remained t.id := by simpa [S] using htS
  have hcan := hno t ht
  rw [ne_eq, canExecute_iff] at hcan
  push Not at hcan
  obtain ⟨c, hc, hct, hlt⟩ := hcan hrem
  obtain ⟨m1, m2, hok⟩ := hB.channels c hc
  have etc : c.2.2 = t := hB.ids _ m2 _ ht hct
  have r1 := rate_single (l := c.1.inPhases) (by rw [← hok.srcPhases, h1 _ m1])
  have r2 := rate_single (l := c.1.outPhases) (by rw [← hok.dstPhases, h1 _ m2])
  have hb := hok.balance
  rw [h1 _ m1, h1 _ m2] at hb
  push_cast at hb
  rw [h.content c hc] at hlt
  unfold made used at hlt
  -- the producer has executions left
  have hsrc : c.2.1 ∈ S := by
    simp only [S, Finset.mem_filter, List.mem_toFinset]
    refine ⟨m1, ?_⟩
    rw [h.remained _ m1]
    by_contra hc0
    have e1 : (seq.count c.2.1.id : Int) = c.2.1.ni := by have := h.counts _ m1; omega
    rw [h.remained t ht] at hrem
    rw [e1, hct] at hlt
    have h5 : c.1.outPhases.sum * (seq.count t.id + 1 : Int) ≤ c.1.outPhases.sum * t.ni :=
      mul_le_mul_of_nonneg_left (by omega) hok.outPos.le
    rw [etc] at hb
    have := hok.preload
    linarith
  -- yet its next execution must complete before
  have hns := hσ.channels c hc (σ t.id (seq.count t.id)) (Finset.range (seq.count t.id + 1)) (by
    intro l hl
    rw [hct]
    exact gen_mono hB hσ ht (Nat.lt_succ_iff.1 (Finset.mem_range.1 hl)))
  obtain ⟨P, hP, hcov⟩ := hns
  simp only [r1, r2, Finset.sum_const, nsmul_eq_mul, Finset.card_range] at hcov
  rw [hct] at hlt
  have hcard : seq.count c.2.1.id < P.card := by
    by_contra hle
    have h6 : (P.card : Int) ≤ seq.count c.2.1.id := by exact_mod_cast not_lt.1 hle
    have := mul_le_mul_of_nonneg_right h6 hok.inPos.le
    push_cast at hcov
    linarith
  obtain ⟨k, hk, hge⟩ : ∃ k ∈ P, seq.count c.2.1.id ≤ k := by
    by_contra hn
    push Not at hn
    have : P ⊆ Finset.range (seq.count c.2.1.id) := fun k hk => Finset.mem_range.2 (hn k hk)
    have := Finset.card_le_card this
    rw [Finset.card_range] at this
    omega
  have h7 := hP k hk
  have h8 := gen_mono hB hσ m1 hge
  have h9 := hd _ m1 k
  have h10 := hmin _ hsrc
  linarith

theorem Untimed.passes_live (hu : Unique B)
    (hstuck : ∀ seq s, After B 1 seq s → 0 < s.total → ∃ t ∈ B.tasks, canExecute B s t = true) :
    ∀ n : ℕ, ∀ seq s, After B 1 seq s → s.total ≤ n → ∃ q, Iterates B 1 q := by
  intro n
  induction n with
  | zero => intro seq s h h0; exact ⟨seq, h.iterates (by simpa using h0)⟩
  | succ n ih =>
    intro seq s h h0
    by_cases hp : 0 < s.total
    · obtain ⟨t, ht, hc⟩ := hstuck seq s h hp
      refine ih _ _ (after_execute hu h ht hc) ?_
      unfold execute
      push_cast at h0
      simp only
      omega
    · exact ⟨seq, h.iterates (by omega)⟩

/-- Graphs of tasks with one phase, which take time: the command ends exactly on the graphs that have a schedule, that is on those
that can run for ever. -/
theorem C94_live (hB : BaseOK B) (hu : Unique B) (h1 : ∀ t ∈ B.tasks, t.durations.length = 1)
    (hd : ∀ t ∈ B.tasks, ∀ d ∈ t.durations, 0 < d) : (∃ n r, symbolicExecution B n = some r) ↔ ∃ σ, ValidGen B σ := by
  rw [C94_ends_iff hB hu]
  constructor
  · rintro ⟨seq, hs⟩
    exact iterates_valid hB h1 hs
  · rintro ⟨σ, hσ⟩
    have hd' : ∀ t ∈ B.tasks, ∀ k, 0 < t.dur k := by
      intro t ht k
      obtain ⟨d, hl⟩ := List.length_eq_one_iff.1 (h1 t ht)
      unfold KTask.dur
      rw [hl]
      simpa [Nat.mod_one] using hd t ht d (by simp [hl])
    refine passes_live hu (fun seq s h hp => live_not_stuck hB h1 hd' hσ h hp) _ [] (start B 1)
      (after_start hu fun t ht => by have := (hB.tasks t ht).ni; omega) (Int.self_le_toNat _)

end

/-! ### Examples -/

namespace UntimedExample
open BufferExample

theorem G_unique : Unique G := ⟨by decide, by decide⟩

/-- Two executions of the first task, one of the second. -/
example : symbolicExecution G 2 = some true := by decide +kernel
example : BaseOK G ∧ Unique G ∧ (∀ t ∈ G.tasks, t.durations.length = 1) ∧ (∀ t ∈ G.tasks, ∀ d ∈ t.durations, 0 < d) ∧
    Iterates G 1 [0, 0, 1] := by
  refine ⟨G_ok, G_unique, by decide, by decide, ?_, by decide, by decide⟩
  intro p i h c hc hi
  have hc' : c = (ch, A, C) := by simpa [G] using hc
  subst hc'
  have h1 : (1 : Int) = i := hi
  subst h1
  obtain ⟨t, ht⟩ := h
  match p, ht with
  | [], ht => simp at ht
  | [a], ht => simp at ht
  | [a, b], ht => simp at ht; obtain ⟨rfl, rfl, -⟩ := ht; decide
  | a :: b :: c :: p, ht => simp at ht

/-- Two tasks in a circuit without tokens: the command does not end, and reports nothing. -/
def X : KTask := ⟨1, [1], [], 1, 1⟩
def Y : KTask := ⟨2, [1], [], 1, 1⟩
def dead : BaseGraph := ⟨[X, Y], [(⟨1, [1], [1], [], [], 0, 1⟩, X, Y), (⟨2, [1], [1], [], [], 0, 1⟩, Y, X)]⟩

theorem dead_ok : BaseOK dead := by
  have hX : TaskOK X 1 := ⟨by decide, rfl, by decide, by decide, by decide, by decide⟩
  have hY : TaskOK Y 1 := ⟨by decide, rfl, by decide, by decide, by decide, by decide⟩
  constructor
  · simp [dead, X, Y]
  · intro t ht; simp only [dead, List.mem_cons, List.not_mem_nil, or_false] at ht
    rcases ht with rfl | rfl
    · exact hX
    · exact hY
  · simp [dead, X, Y]
  · intro c hc; simp only [dead, List.mem_cons, List.not_mem_nil, or_false] at hc
    rcases hc with rfl | rfl
    · exact ⟨by simp [dead], by simp [dead],
        rfl, rfl, rfl, rfl, by decide, by decide, by decide, by decide, by decide, by decide, by decide, by decide, by decide⟩
    · exact ⟨by simp [dead], by simp [dead],
        rfl, rfl, rfl, rfl, by decide, by decide, by decide, by decide, by decide, by decide, by decide, by decide, by decide⟩
  · simp [dead]

theorem C94_deadlock (n : ℕ) : symbolicExecution dead n = none := by
  have h : ∀ n, passes dead (start dead 1) n = start dead 1 := by
    intro n
    induction n with
    | zero => rfl
    | succ n ih =>
      unfold passes
      rw [ih]
      have h1 : canExecute dead (start dead 1) X = false := by decide +kernel
      have h2 : canExecute dead (start dead 1) Y = false := by decide +kernel
      have h3 : pass dead (start dead 1) = start dead 1 := by
        show visit dead (visit dead (start dead 1) X) Y = _
        have : visit dead (start dead 1) X = start dead 1 := by unfold visit; rw [h1]; rfl
        rw [this]
        unfold visit
        rw [h2]
        rfl
      rw [h3, ite_self]
  unfold symbolicExecution
  rw [h n]
  decide +kernel

/-- A task with two phases, that takes one token in each, after one with one phase: the graph is live, but the command asks for two
executions of each, each taking two tokens, when two are produced. -/
def P : KTask := ⟨1, [1], [], 1, 2⟩
def Q : KTask := ⟨2, [1, 1], [], 1, 2⟩
def csdf : BaseGraph := ⟨[P, Q], [(⟨1, [1], [1, 1], [], [], 0, 1⟩, P, Q)]⟩

theorem csdf_ok : BaseOK csdf := by
  have hP : TaskOK P 1 := ⟨by decide, rfl, by decide, by decide, by decide, by decide⟩
  have hQ : TaskOK Q 1 := ⟨by decide, rfl, by decide, by decide, by decide, by decide⟩
  constructor
  · simp [csdf, P, Q]
  · intro t ht; simp only [csdf, List.mem_cons, List.not_mem_nil, or_false] at ht
    rcases ht with rfl | rfl
    · exact hP
    · exact hQ
  · simp [csdf, P, Q]
  · intro c hc; simp only [csdf, List.mem_cons, List.not_mem_nil, or_false] at hc
    rcases hc with rfl
    exact ⟨by simp [csdf], by simp [csdf],
        rfl, rfl, rfl, rfl, by decide, by decide, by decide, by decide, by decide, by decide, by decide, by decide, by decide⟩
  · simp [csdf]

/-- The schedule that starts the first task at every instant, the second one later. -/
theorem csdf_live : ValidGen csdf fun i k => if i = 1 then k else k + 1 := by
  refine ⟨fun t _ k => by split <;> positivity, fun t ht k => ?_, fun c hc => ?_⟩
  · simp only [csdf, List.mem_cons, List.not_mem_nil, or_false] at ht
    rcases ht with rfl | rfl
    · simp [P, KTask.dur, Nat.mod_one]
    · have : Q.dur k = 1 := by
        unfold KTask.dur
        rcases Nat.mod_two_eq_zero_or_one k with h | h <;> simp [Q, h]
      rw [this]
      simp [Q]
  · simp only [csdf, List.mem_cons, List.not_mem_nil, or_false] at hc
    subst hc
    intro x C hC
    refine ⟨C, fun k hk => ?_, ?_⟩
    · have := hC k hk
      simpa [P, Q, KTask.dur, Nat.mod_one] using this
    · have h1 : ∀ k, rate [1] k = 1 := fun k => by simp [rate, Nat.mod_one]
      have h2 : ∀ k, rate [1, 1] k = 1 := fun k => by
        unfold rate
        rcases Nat.mod_two_eq_zero_or_one k with h | h <;> simp [h]
      simp [h1, h2]

theorem C94_csdf_counterexample : (∃ σ, ValidGen csdf σ) ∧ ∀ n, symbolicExecution csdf n = none := by
  refine ⟨⟨_, csdf_live⟩, fun n => ?_⟩
  cases hr : symbolicExecution csdf n with
  | none => rfl
  | some r =>
    exfalso
    have hu : Unique csdf := ⟨by decide, by decide⟩
    obtain ⟨-, seq, hs, -⟩ := C94_executes csdf_ok hu hr
    have n1 : (seq.count 1 : Int) = 2 := hs.counts P (by simp [csdf])
    have n2 : (seq.count 2 : Int) = 2 := hs.counts Q (by simp [csdf])
    rcases first_missing (fun i => if i = 2 then 1 else 2) seq with h | ⟨p, i, h1, h2, h3⟩
    · have := h 2
      simp at this
      omega
    · obtain ⟨t, ht, rfl⟩ := hs.tasks i (h1.subset (by simp))
      simp only [csdf, List.mem_cons, List.not_mem_nil, or_false] at ht
      rcases ht with rfl | rfl
      · have h4 := count_prefix h1 1
        simp [P, List.count_append] at h3 h4
        omega
      · have h4 := hs.admissible p 2 h1 _ (List.mem_singleton.2 rfl) rfl
        have h5 := h2 1
        simp [P, Q] at h3 h4 h5
        omega

end UntimedExample

end Kiter
