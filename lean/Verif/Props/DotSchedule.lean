/-
Property C126: the drawing of a schedule for Graphviz.
-/
import Verif.Lemmas.DotSchedule
import Mathlib.Data.List.Nodup

set_option autoImplicit false

namespace Kiter.DotSched
open Kiter.Text

/-- Specification: row `r` shows the schedule of task `t`: it has the name of the task and its `m`-th block spans the
`m`-th execution of the schedule, from its start to its end, in the row; the executions of the first pattern are filled. -/
structure Shows (xscale : ℚ) (t : Task) (r : Row) : Prop where
  label : r.label = t.name
  block : ∀ (m : ℕ) (b : Node), r.blocks[m]? = some b →
    b.left = xscale * startOf t m ∧ b.right = xscale * (startOf t m + durationOf t m) ∧ b.y = r.y ∧
    (b.fill = true ↔ m < t.starts.length)

theorem specRow_shows {xs ys height : ℚ} {t : Task} (hd : Drawable t) (idx R : ℕ) :
    Shows xs t (specRow xs ys height t idx R) := by
  have hpos : 0 < t.starts.length := List.length_pos_of_ne_nil hd.starts
  refine ⟨rfl, ?_⟩
  intro m b hb
  unfold specRow at hb
  dsimp only at hb
  rw [List.getElem?_map, Option.map_eq_some_iff] at hb
  obtain ⟨m', hm, rfl⟩ := hb
  obtain ⟨hlt, rfl⟩ := List.getElem?_eq_some_iff.mp hm
  rw [List.getElem_range]
  refine ⟨?_, ?_, rfl, ?_⟩
  · unfold specBlock DotSched.block Node.left
    dsimp only
    ring
  · unfold specBlock DotSched.block Node.right
    dsimp only
    ring
  · unfold specBlock DotSched.block
    dsimp only
    rw [beq_iff_eq, Nat.div_eq_zero_iff]
    omega

theorem render_eq {static : Option ℚ} {tasks : List Task} {last xs ys : ℚ} {n : ℕ} (hd : ∀ t ∈ tasks, Drawable t)
    {last' : ℚ} (hl : dateFor tasks last = some last') :
    render static tasks last xs ys n = if ∀ t ∈ tasks, count last' t < n then
      some (specRows xs ys (static.getD (ys * (1 / 20))) last' tasks, some (static.getD (ys * (1 / 20)))) else none := by
  unfold render
  dsimp only
  rw [hl]
  dsimp only [Option.bind_eq_bind, Option.bind_some]
  rw [rows_eq hd]
  split <;> rfl

theorem exists_bound (last : ℚ) : ∀ tasks : List Task, ∃ n, ∀ t ∈ tasks, count last t < n
  | [] => ⟨0, by simp⟩
  | t :: l => by
    obtain ⟨n, hn⟩ := exists_bound last l
    refine ⟨max n (count last t + 1), ?_⟩
    intro x hx
    rcases List.mem_cons.mp hx with rfl | hx
    · omega
    · have := hn x hx; omega

theorem bound_eq {tasks : List Task} (hd : ∀ t ∈ tasks, Drawable t) :
    bound tasks = some ((tasks.flatMap ends).foldl max 0) := by
  unfold bound
  rw [if_neg]
  rintro ⟨t, ht, h | h⟩
  · exact (hd t ht).starts (List.length_eq_zero_iff.mp h)
  · exact (hd t ht).phases (List.length_eq_zero_iff.mp h)

theorem specRows_get {xs ys height last : ℚ} {tasks : List Task} {i : ℕ} {t : Task} (h : tasks[i]? = some t) :
    (specRows xs ys height last tasks)[i]? = some (specRow xs ys height t i (count last t)) := by
  unfold specRows
  rw [List.getElem?_map, List.getElem?_zipIdx, h]
  simp

theorem startOf_lt {t : Task} (hd : Drawable t) (hfirst : ∀ s ∈ t.starts, t.starts.getD 0 0 ≤ s) {last : ℚ} {m : ℕ}
    (hm : startOf t m < last) : m < count last t * t.starts.length := by
  have hpos : 0 < t.starts.length := List.length_pos_of_ne_nil hd.starts
  have hlt : m % t.starts.length < t.starts.length := Nat.mod_lt _ hpos
  have h1 : t.starts.getD 0 0 ≤ t.starts.getD (m % t.starts.length) 0 := by
    apply hfirst
    rw [List.getD, List.getElem?_eq_getElem hlt]
    exact List.getElem_mem _
  have h2 : t.starts.getD 0 0 + t.period * ((m / t.starts.length : ℕ) : ℚ) < last := by
    unfold startOf at hm
    linarith
  rw [count_spec hd] at h2
  exact (Nat.div_lt_iff_lt_mul hpos).mp h2

/-- **C126** For every list of tasks with drawable schedules, every date other than 0 and all scales, the drawing ends, and
has one row per task that shows its schedule; the executions drawn are the patterns whose first execution starts before
the date, which includes every execution that starts before the date when the first start of a list is its least. -/
theorem _root_.Kiter.C126_blocks (static : Option ℚ) {tasks : List Task} (hd : ∀ t ∈ tasks, Drawable t) {last : ℚ}
    (hl : last ≠ 0) (xscale yscale : ℚ) :
    (∃ n out, render static tasks last xscale yscale n = some out) ∧
    ∀ n rows st, render static tasks last xscale yscale n = some (rows, st) →
      rows.length = tasks.length ∧
      ∀ (i : ℕ) (t : Task), tasks[i]? = some t → ∃ r, rows[i]? = some r ∧ Shows xscale t r ∧
        (∀ m, m < r.blocks.length ↔ startOf t (m / t.starts.length * t.starts.length) < last) ∧
        ((∀ s ∈ t.starts, t.starts.getD 0 0 ≤ s) → ∀ m, startOf t m < last → m < r.blocks.length) := by
  have hb : dateFor tasks last = some last := if_neg hl
  refine ⟨?_, ?_⟩
  · obtain ⟨n, hn⟩ := exists_bound last tasks
    exact ⟨n, _, by rw [render_eq hd hb, if_pos hn]⟩
  · intro n rows st h
    rw [render_eq hd hb] at h
    split at h
    case isFalse => cases h
    case isTrue hn =>
      simp only [Option.some.injEq, Prod.mk.injEq] at h
      obtain ⟨rfl, -⟩ := h
      refine ⟨by simp [specRows], ?_⟩
      intro i t ht
      have htm : t ∈ tasks := List.mem_of_getElem? ht
      have hpos : 0 < t.starts.length := List.length_pos_of_ne_nil (hd t htm).starts
      have hlen : (specRow xscale yscale (static.getD (yscale * (1 / 20))) t i (count last t)).blocks.length =
          count last t * t.starts.length := by simp [specRow]
      refine ⟨_, specRows_get ht, specRow_shows (hd t htm) i _, ?_, ?_⟩
      · intro m
        rw [hlen, ← Nat.div_lt_iff_lt_mul hpos, ← count_spec (hd t htm)]
        unfold startOf
        rw [Nat.mul_mod_left, Nat.mul_div_cancel _ hpos]
      · intro hf m hm
        rw [hlen]
        exact startOf_lt (hd t htm) hf hm

theorem le_foldl_max {l : List ℚ} : ∀ {a x : ℚ}, x ≤ a ∨ x ∈ l → x ≤ l.foldl max a := by
  induction l with
  | nil =>
    intro a x h
    rcases h with h | h
    · exact h
    · simp at h
  | cons y l ih =>
    intro a x h
    rw [List.foldl_cons]
    apply ih
    rcases h with h | h
    · exact Or.inl (le_trans h (le_max_left _ _))
    · rcases List.mem_cons.mp h with rfl | h
      · exact Or.inl (le_max_right _ _)
      · exact Or.inr h

theorem totalDuration_pos {l : List ℚ} (h0 : ∀ d ∈ l, 0 ≤ d) (h1 : ∃ d ∈ l, 1 ≤ d) : 1 ≤ totalDuration l := by
  have key : ∀ (l : List ℚ) (s : Int), 0 ≤ s → (∀ d ∈ l, 0 ≤ d) → (1 ≤ s ∨ ∃ d ∈ l, 1 ≤ d) →
      1 ≤ l.foldl (fun (s : Int) (d : ℚ) => trunc ((s : ℚ) + d)) s := by
    intro l
    induction l with
    | nil =>
      intro s _ _ h
      rcases h with h | ⟨d, hd, _⟩
      · exact h
      · simp at hd
    | cons x l ih =>
      intro s hs h0 h
      rw [List.foldl_cons]
      have hx := h0 x List.mem_cons_self
      have hs' : (0 : ℚ) ≤ s := by exact_mod_cast hs
      have ht : trunc ((s : ℚ) + x) = ⌊(s : ℚ) + x⌋ := if_pos (by linarith)
      have hge : s ≤ trunc ((s : ℚ) + x) := by rw [ht, Int.le_floor]; linarith
      apply ih _ (by omega) fun d hd => h0 d (List.mem_cons_of_mem _ hd)
      rcases h with h | ⟨d, hd, h⟩
      · exact Or.inl (by omega)
      · rcases List.mem_cons.mp hd with rfl | hd
        · left
          rw [ht, Int.le_floor]
          push_cast
          linarith
        · exact Or.inr ⟨d, hd, h⟩
  exact key l 0 le_rfl h0 (Or.inr h1)

/-- **C126** Without a date (0) the drawing ends too, its rows show the schedules, and they contain at least one whole
iteration of the graph, the first `ni` executions of every task with a phase of duration at least 1. -/
theorem _root_.Kiter.C126_default (static : Option ℚ) {tasks : List Task} (hd : ∀ t ∈ tasks, Drawable t)
    (xscale yscale : ℚ) :
    (∃ n out, render static tasks 0 xscale yscale n = some out) ∧
    ∀ n rows st, render static tasks 0 xscale yscale n = some (rows, st) →
      rows.length = tasks.length ∧
      ∀ (i : ℕ) (t : Task), tasks[i]? = some t → ∃ r, rows[i]? = some r ∧ Shows xscale t r ∧
        (t.starts.length ∣ t.ni → (∀ d ∈ t.durations, 0 ≤ d) → (∃ d ∈ t.durations, 1 ≤ d) → t.ni ≤ r.blocks.length) := by
  have hb : dateFor tasks 0 = some ((tasks.flatMap ends).foldl max 0) := by
    rw [dateFor, if_pos rfl, bound_eq hd]
  generalize hlast : (tasks.flatMap ends).foldl max 0 = last at hb
  refine ⟨?_, ?_⟩
  · obtain ⟨n, hn⟩ := exists_bound last tasks
    exact ⟨n, _, by rw [render_eq hd hb, if_pos hn]⟩
  · intro n rows st h
    rw [render_eq hd hb] at h
    split at h
    case isFalse => cases h
    case isTrue hn =>
      simp only [Option.some.injEq, Prod.mk.injEq] at h
      obtain ⟨rfl, -⟩ := h
      refine ⟨by simp [specRows], ?_⟩
      intro i t ht
      have htm : t ∈ tasks := List.mem_of_getElem? ht
      have hpos : 0 < t.starts.length := List.length_pos_of_ne_nil (hd t htm).starts
      refine ⟨_, specRows_get ht, specRow_shows (hd t htm) i _, ?_⟩
      intro hdvd h0 h1
      have hlen : (specRow xscale yscale (static.getD (yscale * (1 / 20))) t i (count last t)).blocks.length =
          count last t * t.starts.length := by simp [specRow]
      rw [hlen]
      obtain ⟨c, hc⟩ := hdvd
      rw [hc, Nat.mul_comm]
      apply Nat.mul_le_mul_right
      rcases Nat.eq_zero_or_pos c with rfl | hcpos
      · omega
      · have hlt : t.starts.getD 0 0 + t.period * ((c - 1 : ℕ) : ℚ) < last := by
          have hmem : (totalDuration t.durations : ℚ) + (t.starts.getD 0 0 + t.period * ((c - 1 : ℕ) : ℚ)) ∈
              tasks.flatMap ends := by
            refine List.mem_flatMap.mpr ⟨t, htm, ?_⟩
            unfold ends
            refine List.mem_flatMap.mpr ⟨c - 1, ?_, ?_⟩
            · rw [List.mem_range, hc, Nat.mul_div_cancel_left _ hpos]; omega
            · refine List.mem_map.mpr ⟨t.starts.getD 0 0, ?_, rfl⟩
              rw [List.getD, List.getElem?_eq_getElem hpos]
              exact List.getElem_mem _
          have := le_foldl_max (a := 0) (Or.inr hmem)
          rw [hlast] at this
          have h1' : (1 : ℚ) ≤ totalDuration t.durations := by exact_mod_cast totalDuration_pos h0 h1
          linarith
        have := (count_spec (hd t htm) last (c - 1)).mp hlt
        omega

/-- Specification: a text of digits. -/
def Digits (s : Str) : Prop := ∀ c ∈ s, isDigit c = true

/-- Specification: neither name is the other followed by digits. -/
def Apart (a b : Str) : Prop := ∀ s, Digits s → a ≠ b ++ s ∧ b ≠ a ++ s

theorem digits_dec (n : ℕ) : Digits (dec n) := by
  intro c hc
  obtain ⟨d, hd, rfl⟩ := dec_mem hc
  exact (digit_facts d hd).1

theorem dec_inj {i j : ℕ} (h : dec i = dec j) : i = j := by
  rw [← readNat_dec i, h, readNat_dec]

/-- A text that is two names followed by digits makes one of them the other followed by digits. -/
theorem apart_ne {a b : Str} (h : Apart a b) {s t : Str} (hs : Digits s) (ht : Digits t) : a ++ s ≠ b ++ t := by
  intro e
  rcases List.append_eq_append_iff.mp e with ⟨u, hu, hsu⟩ | ⟨u, hu, htu⟩
  · refine (h u ?_).2 hu
    intro c hc
    exact hs c (by rw [hsu]; exact List.mem_append_left _ hc)
  · refine (h u ?_).1 hu
    intro c hc
    exact ht c (by rw [htu]; exact List.mem_append_left _ hc)

/-- The names of a row: those of the task followed by digits, all different. -/
theorem specRow_names (xs ys height : ℚ) (t : Task) (idx R : ℕ) :
    let r := specRow xs ys height t idx R
    (r.label :: r.blocks.map Node.name).Nodup ∧
    ∀ x ∈ r.label :: r.blocks.map Node.name, ∃ s, Digits s ∧ x = t.name ++ s := by
  have hn : (specRow xs ys height t idx R).blocks.map Node.name =
      (List.range (R * t.starts.length)).map fun m => t.name ++ (dec m ++ ['0']) := by
    unfold specRow
    dsimp only
    rw [List.map_map]
    apply List.map_congr_left
    intro m _
    simp [specBlock, block]
  dsimp only
  rw [hn]
  constructor
  · refine List.nodup_cons.mpr ⟨?_, ?_⟩
    · intro h
      obtain ⟨m, -, h⟩ := List.mem_map.mp h
      have := congrArg List.length h
      simp [specRow] at this
    · refine List.Nodup.map ?_ List.nodup_range
      intro i j h
      exact dec_inj (List.append_cancel_right (List.append_cancel_left h))
  · intro x hx
    rcases List.mem_cons.mp hx with rfl | hx
    · exact ⟨[], by simp [Digits], by simp [specRow]⟩
    · obtain ⟨m, -, rfl⟩ := List.mem_map.mp hx
      refine ⟨_, ?_, rfl⟩
      intro c hc
      rcases List.mem_append.mp hc with hc | hc
      · exact digits_dec m c hc
      · have : c = '0' := by simpa using hc
        rw [this]; decide

/-- **C126** When no name is another one followed by digits, all the nodes of the drawing have different names, so that
all the labels and blocks are seen. -/
theorem _root_.Kiter.C126_names {static : Option ℚ} {tasks : List Task} (hd : ∀ t ∈ tasks, Drawable t)
    (hnames : tasks.Pairwise fun a b => Apart a.name b.name) {last xscale yscale : ℚ} {n : ℕ} {rows : List Row}
    {st : Option ℚ} (h : render static tasks last xscale yscale n = some (rows, st)) : (names rows).Nodup := by
  have hb : ∃ last', dateFor tasks last = some last' := by
    by_cases h0 : last = 0
    · exact ⟨_, by rw [dateFor, if_pos h0, bound_eq hd]⟩
    · exact ⟨_, if_neg h0⟩
  obtain ⟨last', hb⟩ := hb
  rw [render_eq hd hb] at h
  split at h
  case isFalse => cases h
  case isTrue hn =>
    simp only [Option.some.injEq, Prod.mk.injEq] at h
    obtain ⟨rfl, -⟩ := h
    unfold names specRows
    rw [List.flatMap_map, List.nodup_flatMap]
    refine ⟨fun p _ => (specRow_names _ _ _ p.1 p.2 _).1, ?_⟩
    have hz : tasks.zipIdx.Pairwise fun a b => Apart a.1.name b.1.name := by
      have := List.pairwise_map (l := tasks.zipIdx) (f := Prod.fst) (R := fun a b : Task => Apart a.name b.name)
      rw [List.zipIdx_map_fst] at this
      exact this.mp hnames
    refine hz.imp ?_
    intro a b hab x hx hx'
    obtain ⟨s, hs, rfl⟩ := (specRow_names _ _ _ a.1 a.2 _).2 _ hx
    obtain ⟨s', hs', h'⟩ := (specRow_names _ _ _ b.1 b.2 _).2 _ hx'
    exact apart_ne hab hs hs' h'

/-- **C126** In a first drawing, or after drawings with the same scale, blocks of different rows do not overlap. -/
theorem _root_.Kiter.C126_rows {static : Option ℚ} {tasks : List Task} (hd : ∀ t ∈ tasks, Drawable t)
    {last xscale yscale : ℚ} (hy : 0 < yscale) (hs : static = none ∨ static = some (yscale * (1 / 20))) {n : ℕ}
    {rows : List Row} {st : Option ℚ} (h : render static tasks last xscale yscale n = some (rows, st)) :
    st = some (yscale * (1 / 20)) ∧
    ∀ (i j : ℕ) (r r' : Row), i < j → rows[i]? = some r → rows[j]? = some r' →
      ∀ b ∈ r.blocks, ∀ b' ∈ r'.blocks, b'.top < b.bottom := by
  have hg : static.getD (yscale * (1 / 20)) = yscale * (1 / 20) := by rcases hs with rfl | rfl <;> rfl
  have hb : ∃ last', dateFor tasks last = some last' := by
    by_cases h0 : last = 0
    · exact ⟨_, by rw [dateFor, if_pos h0, bound_eq hd]⟩
    · exact ⟨_, if_neg h0⟩
  obtain ⟨last', hb⟩ := hb
  rw [render_eq hd hb, hg] at h
  split at h
  case isFalse => cases h
  case isTrue hn =>
    simp only [Option.some.injEq, Prod.mk.injEq] at h
    obtain ⟨rfl, rfl⟩ := h
    refine ⟨rfl, ?_⟩
    have hrow : ∀ (i : ℕ) (r : Row), (specRows xscale yscale (yscale * (1 / 20)) last' tasks)[i]? = some r →
        ∀ b ∈ r.blocks, b.y = yscale * -(4 + 1) * (i : ℚ) ∧ b.height = yscale * (1 / 20) := by
      intro i r hr b hbm
      have hlt : i < tasks.length := by
        have := (List.getElem?_eq_some_iff.mp hr).1
        simpa [specRows] using this
      rw [specRows_get (List.getElem?_eq_getElem hlt)] at hr
      obtain rfl := Option.some.inj hr
      obtain ⟨m, -, rfl⟩ := List.mem_map.mp hbm
      exact ⟨rfl, rfl⟩
    intro i j r r' hij hr hr' b hbm b' hbm'
    obtain ⟨h1, h2⟩ := hrow i r hr b hbm
    obtain ⟨h3, h4⟩ := hrow j r' hr' b' hbm'
    unfold Node.top Node.bottom
    rw [h1, h2, h3, h4]
    have : (i : ℚ) + 1 ≤ j := by exact_mod_cast hij
    nlinarith

/-- Two tasks of one phase. -/
def exTasks (a b : String) : List Task := [⟨a.toList, 2, [], [1], 3, [0]⟩, ⟨b.toList, 4, [], [1, 2], 6, [1, 2, 3, 5]⟩]

theorem exTasks_drawable (a b : String) : ∀ t ∈ exTasks a b, Drawable t := by
  intro t ht
  simp only [exTasks, List.mem_cons, List.not_mem_nil, or_false] at ht
  rcases ht with rfl | rfl <;> exact ⟨rfl, by simp, by simp, by simp, by simp⟩

/-- The hypotheses of C126 are met: tasks `a` and `b`, one with a pattern of two cycles of its two phases, drawn up to
date 7. -/
example : (∀ t ∈ exTasks "a" "b", Drawable t) ∧ ((exTasks "a" "b").Pairwise fun a b => Apart a.name b.name) ∧
    ((render none (exTasks "a" "b") 7 10 10 5).map fun o => o.1.map fun r => (r.y, r.blocks.map fun b => (b.left, b.right))) =
      some [(0, [(0, 10), (30, 40), (60, 70)]),
        (-50, [(10, 20), (20, 40), (30, 40), (50, 70)])] ∧
    ((render none (exTasks "a" "b") 0 10 10 5).map fun o => o.1.map fun r => r.blocks.length) = some [3, 8] := by
  refine ⟨exTasks_drawable _ _, ?_, by decide +kernel, by decide +kernel⟩
  simp only [exTasks, List.pairwise_cons, List.mem_cons, List.not_mem_nil, or_false, forall_eq, List.Pairwise.nil,
    IsEmpty.forall_iff, implies_true, and_true]
  intro s hs
  constructor
  · intro h
    have : ("a".toList).head? = ("b".toList ++ s).head? := by rw [h]
    revert this
    simp
  · intro h
    have : ("b".toList).head? = ("a".toList ++ s).head? := by rw [h]
    revert this
    simp

/-- **C126, names** The block of execution 11 of task `a1` and that of execution 1 of task `a11` have the same name, so that
Graphviz draws one of them only. -/
theorem _root_.Kiter.C126_names_counterexample :
    (∀ t ∈ exTasks "a1" "a11", Drawable t) ∧
    ∃ rows st, render none (exTasks "a1" "a11") 40 1 1 20 = some (rows, st) ∧ ¬ (names rows).Nodup := by
  refine ⟨exTasks_drawable _ _, ?_⟩
  have h : ((render none (exTasks "a1" "a11") 40 1 1 20).map fun o => decide (names o.1).Nodup) = some false := by
    decide +kernel
  rw [Option.map_eq_some_iff] at h
  obtain ⟨⟨rows, st⟩, h1, h2⟩ := h
  exact ⟨rows, st, h1, by simpa using h2⟩

/-- **C126, second drawing** The height of a block is that of the first drawing of the program: after a drawing with a
scale of 10, the blocks of two rows of a drawing with a scale of 1 overlap. -/
theorem _root_.Kiter.C126_static_counterexample :
    ∃ rows st rows' st', render none (exTasks "a" "b") 7 1 10 5 = some (rows, st) ∧
      render st (exTasks "a" "b") 7 1 1 5 = some (rows', st') ∧
      ∃ r r', rows'[0]? = some r ∧ rows'[1]? = some r' ∧ ∃ b ∈ r.blocks, ∃ b' ∈ r'.blocks, b.bottom < b'.top ∧
        b'.left < b.right ∧ b.left < b'.right := by
  have h : ((render none (exTasks "a" "b") 7 1 10 5).bind fun o => (render o.2 (exTasks "a" "b") 7 1 1 5).bind fun o' =>
      o'.1[0]?.bind fun r => o'.1[1]?.map fun r' => decide (∃ b ∈ r.blocks, ∃ b' ∈ r'.blocks, b.bottom < b'.top ∧
        b'.left < b.right ∧ b.left < b'.right)) = some true := by
    decide +kernel
  rw [Option.bind_eq_some_iff] at h
  obtain ⟨⟨rows, st⟩, h1, h⟩ := h
  rw [Option.bind_eq_some_iff] at h
  obtain ⟨⟨rows', st'⟩, h2, h⟩ := h
  rw [Option.bind_eq_some_iff] at h
  obtain ⟨r, h3, h⟩ := h
  rw [Option.map_eq_some_iff] at h
  obtain ⟨r', h4, h5⟩ := h
  exact ⟨rows, st, rows', st', h1, h2, r, r', h3, h4, by simpa using h5⟩

/-- **C126, initial phases** After one initial phase the durations are those of the wrong phases: the first periodic phase
has duration 1 and is drawn with duration 5. -/
theorem _root_.Kiter.C126_init_counterexample :
    ((render none [⟨"a".toList, 2, [2], [1, 5], 10, [0, 2, 3]⟩] 3 1 1 5).map fun o =>
      o.1.map fun r => r.blocks.map fun b => (b.left, b.right - b.left)) = some [[(0, 2), (2, 5), (3, 1)]] := by
  decide +kernel

/-- **C126, short durations** Without a date, an iteration of a task whose phase is shorter than 1 is not drawn whole: one
of its two executions is missing. -/
theorem _root_.Kiter.C126_default_counterexample :
    Drawable ⟨"a".toList, 2, [], [1 / 2], 1, [0]⟩ ∧
    ((render none [⟨"a".toList, 2, [], [1 / 2], 1, [0]⟩] 0 1 1 5).map fun o => o.1.map fun r => r.blocks.length) =
      some [1] := by
  refine ⟨⟨rfl, by simp, by simp, by decide, by decide⟩, by decide +kernel⟩

/-- **C126, empty schedules** A task without starts, as in the schedule given for a graph of unbounded throughput, is read
outside of its list of starts. -/
theorem _root_.Kiter.C126_empty_counterexample (static : Option ℚ) {tasks : List Task} {t : Task} (ht : t ∈ tasks)
    (hs : t.starts = []) (last xscale yscale : ℚ) (n : ℕ) : render static tasks last xscale yscale n = none := by
  unfold render
  dsimp only
  cases hdate : dateFor tasks last with
  | none => rfl
  | some d =>
    dsimp only [Option.bind_eq_bind, Option.bind_some]
    obtain ⟨i, hi, rfl⟩ := List.getElem_of_mem ht
    have hp : (tasks[i], i) ∈ tasks.zipIdx := by
      rw [List.mem_zipIdx_iff_getElem?]
      exact List.getElem?_eq_getElem hi
    rw [mapM_none hp]
    · rfl
    · unfold row
      dsimp only
      cases initBlocks xscale (static.getD (yscale * (1 / 20))) (yscale * -(4 + 1) * (i : ℚ)) tasks[i] with
      | none => rfl
      | some a =>
        dsimp only [Option.bind_eq_bind, Option.bind_some]
        cases n with
        | zero => rfl
        | succ n => rw [loop, hs]; rfl

end Kiter.DotSched
