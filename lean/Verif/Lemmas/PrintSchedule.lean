/-
Lemmas for C124: what the loops of `print_schedule` compute.
-/
import Verif.Spec.PrintSchedule
import Verif.Props.StartTimes
import Mathlib.Tactic.Linarith
import Mathlib.Tactic.FieldSimp

set_option autoImplicit false

namespace Kiter.Tikz

/-- What is recorded for the `x`-th execution of a task. -/
def recAt (Ω : ℚ) (S : Event → ℚ) (tk : KTask × ℕ) (x : ℕ) : Rec :=
  ⟨tk.1.id, S (evAt tk.1 x), tk.1.dur x, pattern Ω tk.1 tk.2, tk.1.ni⟩

theorem graphEvents_eq {g : KGraph} (hg : GraphOK g) :
    graphEvents g = g.tasks.flatMap fun tk => (List.range (tk.2 * tk.1.durations.length)).map (evAt tk.1) := by
  unfold graphEvents
  apply List.flatMap_congr
  intro tk htk
  have ht := hg.tasks tk htk
  have h1 := loopPairs_eq tk.1.durations.length tk.2 ht.phases
  unfold loopPairs at h1
  simp only [ite_self, Nat.zero_add] at h1
  have := congrArg (List.map (fun q : Int × Int => (⟨tk.1.id, q.2, q.1⟩ : Event))) h1
  rw [List.map_flatMap, List.map_map] at this
  simp only [List.map_map] at this
  rw [ht.noInit]
  simp only [List.length_nil, List.range_zero, List.map_nil, List.nil_append]
  simp only [Function.comp_def, Int.natCast_zero, sub_zero] at this
  exact this

theorem find_task {g : KGraph} (hn : (g.tasks.map fun tk => tk.1.id).Nodup) {tk : KTask × ℕ} (h : tk ∈ g.tasks) :
    (g.tasks.find? fun t => t.1.id = tk.1.id) = some tk := by
  generalize hl : g.tasks = l at hn h
  clear hl
  induction l with
  | nil => simp at h
  | cons a l ih =>
    rw [List.map_cons, List.nodup_cons] at hn
    rcases List.mem_cons.mp h with rfl | h
    · simp
    · rw [List.find?_cons_of_neg, ih hn.2 h]
      intro e
      exact hn.1 (List.mem_map.mpr ⟨tk, h, (of_decide_eq_true e).symm⟩)

theorem record_evAt {g : KGraph} (hg : GraphOK g) (hn : (g.tasks.map fun tk => tk.1.id).Nodup) {Ω : ℚ} (hΩ : 0 < Ω)
    (S : Event → ℚ) {tk : KTask × ℕ} (h : tk ∈ g.tasks) (x : ℕ) :
    record g Ω S (evAt tk.1 x) = some (recAt Ω S tk x) := by
  have ht := hg.tasks tk h
  have hd : phaseDuration tk.1 (evAt tk.1 x).phase = some (tk.1.dur x) := by
    unfold phaseDuration evAt
    dsimp only
    rw [if_neg (by omega), if_neg ht.phases.ne']
    have : (((x % tk.1.durations.length : ℕ) : Int) + 1 - 1).toNat = x % tk.1.durations.length := by omega
    rw [this, Nat.mod_mod]
    unfold KTask.dur
    rw [List.getD_eq_getElem?_getD, List.getElem?_eq_getElem (Nat.mod_lt _ ht.phases)]
    rfl
  have hp : (tk.2 : ℚ) * tk.1.durations.length * Ω / tk.1.ni = pattern Ω tk.1 tk.2 := by unfold pattern; ring
  have hpos : 0 < pattern Ω tk.1 tk.2 := by
    unfold pattern
    have h1 : (0 : ℚ) < tk.1.ni := by exact_mod_cast ht.ni
    have h2 : (0 : ℚ) < tk.1.durations.length := by exact_mod_cast ht.phases
    have h3 : (0 : ℚ) < tk.2 := by exact_mod_cast ht.k
    positivity
  unfold record
  have hf : (g.tasks.find? fun t => t.1.id = (evAt tk.1 x).task) = some tk := find_task hn h
  rw [hf]
  simp only [Option.bind_eq_bind, Option.bind_some]
  rw [hd]
  simp only [Option.bind_some]
  rw [hp, if_neg (by rintro (e | e); exact ht.ni.ne' e; exact hpos.ne' e)]
  rfl

/-- All the records of a graph. -/
def allRecs (g : KGraph) (Ω : ℚ) (S : Event → ℚ) : List Rec :=
  g.tasks.flatMap fun tk => (List.range (tk.2 * tk.1.durations.length)).map (recAt Ω S tk)

theorem records {g : KGraph} (hg : GraphOK g) (hn : (g.tasks.map fun tk => tk.1.id).Nodup) {Ω : ℚ} (hΩ : 0 < Ω)
    (S : Event → ℚ) : (graphEvents g).mapM (record g Ω S) = some (allRecs g Ω S) := by
  have h := mapM_some (record g Ω S) (fun e => (record g Ω S e).getD ⟨0, 0, 0, 0, 0⟩) (graphEvents g) (by
    intro e he
    rw [graphEvents_eq hg, List.mem_flatMap] at he
    obtain ⟨tk, htk, he⟩ := he
    obtain ⟨x, _, rfl⟩ := List.mem_map.mp he
    rw [record_evAt hg hn hΩ S htk]; rfl)
  rw [h, graphEvents_eq hg, List.map_flatMap]
  unfold allRecs
  congr 1
  apply List.flatMap_congr
  intro tk htk
  rw [List.map_map]
  apply List.map_congr_left
  intro x _
  simp only [Function.comp_apply, record_evAt hg hn hΩ S htk]
  rfl

theorem mem_allRecs {g : KGraph} {Ω : ℚ} {S : Event → ℚ} {r : Rec} :
    r ∈ allRecs g Ω S ↔ ∃ tk ∈ g.tasks, ∃ x < tk.2 * tk.1.durations.length, recAt Ω S tk x = r := by
  unfold allRecs
  simp only [List.mem_flatMap, List.mem_map, List.mem_range]

/-! ### The latest date -/

theorem maxTime_ge (recs : List Rec) : ∀ r ∈ recs, r.last ≤ maxTime recs := by
  have key : ∀ (l : List Rec) (m : ℚ),
      m ≤ l.foldl (fun m r => max m r.last) m ∧
      ∀ r ∈ l, r.last ≤
        l.foldl (fun m r => max m r.last) m := by
    intro l
    induction l with
    | nil => intro m; simp
    | cons a l ih =>
      intro m
      obtain ⟨h1, h2⟩ := ih (max m a.last)
      refine ⟨le_trans (le_max_left _ _) h1, ?_⟩
      intro r hr
      rcases List.mem_cons.mp hr with rfl | hr
      · exact le_trans (le_max_right _ _) h1
      · exact h2 r hr
  exact (key recs 0).2

theorem maxTime_attained (recs : List Rec) :
    maxTime recs = 0 ∨ ∃ r ∈ recs, maxTime recs = r.last := by
  have key : ∀ (l : List Rec) (m : ℚ),
      l.foldl (fun m r => max m r.last) m = m ∨
      ∃ r ∈ l, l.foldl (fun m r => max m r.last) m =
        r.last := by
    intro l
    induction l with
    | nil => intro m; exact Or.inl rfl
    | cons a l ih =>
      intro m
      rw [List.foldl_cons]
      rcases ih (max m a.last) with h | ⟨r, hr, h⟩
      · rcases max_choice m a.last with e | e
        · left; rw [h, e]
        · right; exact ⟨a, by simp, by rw [h, e]⟩
      · right; exact ⟨r, by simp [hr], h⟩
  exact key recs 0

/-! ### The rows -/

/-- Strictly before: smaller start, or same start and smaller task id. -/
def Before (a b : Int × ℚ) : Prop := a.2 < b.2 ∨ (a.2 = b.2 ∧ a.1 < b.1)

theorem before_of_le {a b : Int × ℚ} (h : le a b) (hne : a.1 ≠ b.1) : Before a b := by
  rcases h with h | ⟨h1, h2⟩
  · exact Or.inl h
  · rcases lt_or_eq_of_le (not_lt.mp h1) with h | h
    · exact Or.inl h
    · exact Or.inr ⟨h, lt_of_le_of_ne h2 hne⟩

instance : Std.Total le := ⟨fun a b => by
  unfold le
  rcases lt_trichotomy a.2 b.2 with h | h | h
  · exact Or.inl (Or.inl h)
  · rcases le_total a.1 b.1 with h' | h'
    · exact Or.inl (Or.inr ⟨by rw [h]; exact lt_irrefl _, h'⟩)
    · exact Or.inr (Or.inr ⟨by rw [h]; exact lt_irrefl _, h'⟩)
  · exact Or.inr (Or.inl h)⟩

instance : IsTrans (Int × ℚ) le := ⟨fun a b c h1 h2 => by
  unfold le at *
  rcases h1 with h1 | ⟨h1, h1'⟩ <;> rcases h2 with h2 | ⟨h2, h2'⟩
  · exact Or.inl (lt_trans h1 h2)
  · exact Or.inl (lt_of_lt_of_le h1 (not_lt.mp h2))
  · exact Or.inl (lt_of_le_of_lt (not_lt.mp h1) h2)
  · exact Or.inr ⟨not_lt.mpr (le_trans (not_lt.mp h1) (not_lt.mp h2)), le_trans h1' h2'⟩⟩

/-- What the table of rows satisfies after a part `l` of the sorted list. -/
structure RowsInv (l : List (Int × ℚ)) (rows : List (Int × ℕ)) : Prop where
  vals : rows.map Prod.snd = List.range rows.length
  keys : (rows.map Prod.fst).Nodup
  seen : ∀ i, i ∈ rows.map Prod.fst ↔ ∃ s, (i, s) ∈ l
  order : ∀ a ∈ rows, ∀ b ∈ rows, a.2 < b.2 →
    ∃ s, (a.1, s) ∈ l ∧ ∀ s', (b.1, s') ∈ l → Before (a.1, s) (b.1, s')

theorem RowsInv.step {l : List (Int × ℚ)} {p : Int × ℚ} {rows : List (Int × ℕ)} (h : RowsInv l rows)
    (hp : ∀ a ∈ l, le a p) : RowsInv (l ++ [p]) (addRow rows p) := by
  have hval : ∀ a ∈ rows, a.2 < rows.length := by
    intro a ha
    have : a.2 ∈ rows.map Prod.snd := List.mem_map_of_mem ha
    rw [h.vals] at this
    exact List.mem_range.mp this
  unfold addRow
  by_cases hm : p.1 ∈ rows.map Prod.fst
  · rw [if_pos hm]
    refine ⟨h.vals, h.keys, ?_, ?_⟩
    · intro i
      rw [h.seen]
      constructor
      · rintro ⟨s, hs⟩; exact ⟨s, by simp [hs]⟩
      · rintro ⟨s, hs⟩
        rcases List.mem_append.mp hs with hs | hs
        · exact ⟨s, hs⟩
        · have : (i, s) = p := by simpa using hs
          exact (h.seen i).mp (by rw [show i = p.1 by rw [← this]]; exact hm)
    · intro a ha b hb hab
      obtain ⟨s, hs, hall⟩ := h.order a ha b hb hab
      refine ⟨s, by simp [hs], ?_⟩
      intro s' hs'
      rcases List.mem_append.mp hs' with hs' | hs'
      · exact hall s' hs'
      · have e : (b.1, s') = p := by simpa using hs'
        rw [e]
        refine before_of_le (hp _ hs) ?_
        rw [← e]
        intro hk
        have : a = b := by
          have hinj := List.inj_on_of_nodup_map h.keys
          exact hinj ha hb hk
        rw [this] at hab
        exact lt_irrefl _ hab
  · rw [if_neg hm]
    refine ⟨?_, ?_, ?_, ?_⟩
    · rw [List.map_append, h.vals, List.length_append, List.length_singleton, List.range_succ]; rfl
    · rw [List.map_append, List.nodup_append]
      refine ⟨h.keys, by simp, ?_⟩
      intro a ha b hb e
      have hb' : b = p.1 := by simpa using hb
      exact hm (by rw [← hb', ← e]; exact ha)
    · intro i
      rw [List.map_append, List.mem_append, h.seen]
      constructor
      · rintro (⟨s, hs⟩ | hi)
        · exact ⟨s, by simp [hs]⟩
        · have hi' : i = p.1 := by simpa using hi
          exact ⟨p.2, by simp [hi']⟩
      · rintro ⟨s, hs⟩
        rcases List.mem_append.mp hs with hs | hs
        · exact Or.inl ⟨s, hs⟩
        · have : (i, s) = p := by simpa using hs
          right; simp [← this]
    · intro a ha b hb hab
      rcases List.mem_append.mp ha with ha | ha
      · rcases List.mem_append.mp hb with hb | hb
        · obtain ⟨s, hs, hall⟩ := h.order a ha b hb hab
          refine ⟨s, by simp [hs], ?_⟩
          intro s' hs'
          rcases List.mem_append.mp hs' with hs' | hs'
          · exact hall s' hs'
          · exfalso
            have e : (b.1, s') = p := by simpa using hs'
            exact hm (by rw [← e]; exact List.mem_map_of_mem hb)
        · have hb' : b = (p.1, rows.length) := by simpa using hb
          obtain ⟨s, hs⟩ := (h.seen a.1).mp (List.mem_map_of_mem ha)
          refine ⟨s, by simp [hs], ?_⟩
          intro s' hs'
          have hne : a.1 ≠ p.1 := fun e => hm (by rw [← e]; exact List.mem_map_of_mem ha)
          rw [hb'] at hs' ⊢
          rcases List.mem_append.mp hs' with hs' | hs'
          · exact absurd ((h.seen p.1).mpr ⟨s', hs'⟩) hm
          · have e : (p.1, s') = p := by simpa using hs'
            dsimp only
            rw [e]
            exact before_of_le (hp _ hs) hne
      · exfalso
        have ha' : a = (p.1, rows.length) := by simpa using ha
        rw [ha'] at hab
        rcases List.mem_append.mp hb with hb | hb
        · exact absurd (hval b hb) (by dsimp only at hab; omega)
        · have hb' : b = (p.1, rows.length) := by simpa using hb
          rw [hb'] at hab; exact lt_irrefl _ hab

theorem rowsInv_foldl (l2 : List (Int × ℚ)) : ∀ (l1 : List (Int × ℚ)) (rows : List (Int × ℕ)),
    (l1 ++ l2).Pairwise le → RowsInv l1 rows → RowsInv (l1 ++ l2) (l2.foldl addRow rows) := by
  induction l2 with
  | nil => intro l1 rows _ h; simpa using h
  | cons p l2 ih =>
    intro l1 rows hs h
    have := ih (l1 ++ [p]) (addRow rows p) (by simpa using hs) (h.step (by
      intro a ha
      rw [List.pairwise_append] at hs
      exact hs.2.2 a ha p (by simp)))
    simpa using this

theorem rowsInv (recs : List Rec) : RowsInv (ordered recs) (rowsOf recs) := by
  have := rowsInv_foldl (ordered recs) [] [] (by
    rw [List.nil_append]
    exact List.pairwise_insertionSort _ _) ⟨rfl, List.nodup_nil, by simp, by simp⟩
  unfold rowsOf
  simpa using this

theorem mem_ordered {recs : List Rec} {i : Int} {s : ℚ} :
    (i, s) ∈ ordered recs ↔ ∃ r ∈ recs, r.id = i ∧ r.start = s := by
  unfold ordered
  rw [List.mem_insertionSort, List.mem_map]
  constructor
  · rintro ⟨r, hr, e⟩
    rw [Prod.mk.injEq] at e
    exact ⟨r, hr, e⟩
  · rintro ⟨r, hr, rfl, rfl⟩; exact ⟨r, hr, rfl⟩

theorem lookup_mem {rows : List (Int × ℕ)} (hk : (rows.map Prod.fst).Nodup) {i : Int} {r : ℕ} :
    rows.lookup i = some r ↔ (i, r) ∈ rows := by
  induction rows with
  | nil => simp
  | cons a rows ih =>
    rw [List.map_cons, List.nodup_cons] at hk
    rw [List.lookup_cons]
    by_cases h : i = a.1
    · subst h
      simp only [beq_self_eq_true]
      constructor
      · intro e; cases e; simp
      · intro e
        rcases List.mem_cons.mp e with e | e
        · rw [← e]
        · exact absurd (List.mem_map_of_mem (f := Prod.fst) e) hk.1
    · rw [beq_false_of_ne h]
      rw [ih hk.2]
      constructor
      · intro e; simp [e]
      · intro e
        rcases List.mem_cons.mp e with e | e
        · rw [← e] at h; exact absurd rfl h
        · exact e

/-! ### The calls -/

theorem mem_nameCalls {g : KGraph} {rows : List (Int × ℕ)} (hk : (rows.map Prod.fst).Nodup) {i : Int} {r : ℕ} :
    (r, i) ∈ nameCalls g rows ↔ (∃ tk ∈ g.tasks, tk.1.id = i) ∧ (i, r) ∈ rows := by
  unfold nameCalls
  rw [List.mem_filterMap]
  constructor
  · rintro ⟨tk, htk, e⟩
    rw [Option.map_eq_some_iff] at e
    obtain ⟨r', h1, h2⟩ := e
    rw [Prod.mk.injEq] at h2
    obtain ⟨rfl, rfl⟩ := h2
    exact ⟨⟨tk, htk, rfl⟩, (lookup_mem hk).mp h1⟩
  · rintro ⟨⟨tk, htk, rfl⟩, h⟩
    exact ⟨tk, htk, by rw [(lookup_mem hk).mpr h]; rfl⟩

theorem nameCalls_ids {g : KGraph} {rows : List (Int × ℕ)} (h : ∀ tk ∈ g.tasks, (rows.lookup tk.1.id).isSome) :
    (nameCalls g rows).map Prod.snd = g.tasks.map fun tk => tk.1.id := by
  unfold nameCalls
  generalize g.tasks = l at h
  induction l with
  | nil => rfl
  | cons a l ih =>
    obtain ⟨r, hr⟩ := Option.isSome_iff_exists.mp (h a (by simp))
    rw [List.filterMap_cons_some (b := (r, a.1.id)) (by rw [hr]; rfl), List.map_cons, List.map_cons,
      ih fun tk htk => h tk (by simp [htk])]

theorem mem_foreachValues {n x : Int} (hn : 0 ≤ n) : x ∈ foreachValues n ↔ 0 ≤ x ∧ x ≤ n := by
  unfold foreachValues
  rw [if_pos hn, List.mem_map]
  constructor
  · rintro ⟨i, hi, rfl⟩
    rw [List.mem_range] at hi
    simp only [Int.ofNat_eq_natCast]
    omega
  · rintro ⟨h1, h2⟩
    exact ⟨x.toNat, by rw [List.mem_range]; omega, by simp only [Int.ofNat_eq_natCast]; omega⟩

/-- The blocks of an event of period `p > 0` with at least two periods before `maxtime`: one for every period that
ends by `maxtime`. -/
theorem mem_eventBlocks {rows : List (Int × ℕ)} {maxtime : ℚ} {r : Rec} {row : ℕ} (hrow : rows.lookup r.id = some row)
    (hp : 0 < r.period) (h2 : r.start + 2 * r.period ≤ maxtime) {b : Block} :
    (b ∈ (eventCalls rows maxtime r).flatMap Cmd.blocks) ↔
      ∃ q : ℕ, b = ⟨row, r.start + q * r.period, r.duration⟩ ∧ r.start + q * r.period + r.period ≤ maxtime := by
  have hle : ∀ q : Int, q ≤ repeats maxtime r ↔ r.start + q * r.period + r.period ≤ maxtime := by
    intro q
    unfold repeats
    rw [Int.le_floor, le_div_iff₀ hp]
    constructor <;> intro h <;> linarith
  have h1 : 1 ≤ repeats maxtime r := by rw [hle]; push_cast; linarith
  unfold eventCalls
  rw [hrow]
  simp only [List.flatMap_cons, List.flatMap_nil, List.append_nil, List.mem_append, Cmd.blocks, List.mem_singleton,
    List.mem_map]
  constructor
  · rintro (rfl | ⟨x, hx, rfl⟩)
    · exact ⟨0, by simp, by push_cast; linarith⟩
    · rw [mem_foreachValues (by omega)] at hx
      refine ⟨x.toNat + 1, ?_, ?_⟩
      · have : ((x.toNat : ℕ) : ℚ) = (x : ℚ) := by exact_mod_cast Int.toNat_of_nonneg hx.1
        push_cast
        rw [this]
        congr 1
        ring
      · have := (hle (x + 1)).mp (by omega)
        have e : ((x.toNat : ℕ) : ℚ) = (x : ℚ) := by exact_mod_cast Int.toNat_of_nonneg hx.1
        push_cast at this ⊢
        rw [e]
        exact this
  · rintro ⟨q, rfl, hq⟩
    rcases Nat.eq_zero_or_pos q with rfl | hq0
    · left; simp
    · right
      have h3 := (hle (q : Int)).mpr (by exact_mod_cast hq)
      refine ⟨(q : Int) - 1, (mem_foreachValues (by omega)).mpr (by omega), ?_⟩
      push_cast
      congr 1
      ring

/-- Starts of the executions in terms of the first pattern. -/
theorem execStart_split {S : Event → ℚ} {Ω : ℚ} {t : KTask} {K : ℕ} (k : ℕ) : execStart S Ω t K k =
      S (evAt t (k % (K * t.durations.length))) + ((k / (K * t.durations.length) : ℕ) : ℚ) * pattern Ω t K := by
  unfold execStart evAt pattern
  have e1 : k % (K * t.durations.length) % t.durations.length = k % t.durations.length :=
    Nat.mod_mod_of_dvd _ (Dvd.intro_left _ rfl)
  have e2 : k % (K * t.durations.length) / t.durations.length = k / t.durations.length % K := by
    rw [Nat.mul_comm, Nat.mod_mul_right_div_self]
  rw [e1, e2]

theorem dur_mod (t : KTask) (K k : ℕ) : t.dur (k % (K * t.durations.length)) = t.dur k := by
  unfold KTask.dur
  rw [Nat.mod_mod_of_dvd _ (Dvd.intro_left _ rfl)]

/-- Starting times are never negative, even when no schedule exists: they are shifted by the smallest. -/
theorem start_nonneg (events : List Event) (cs : List EvConstraint) (ω : ℚ) {e : Event} (he : e ∈ events) :
    0 ≤ (computeStartingTime events cs (some ω)).2 e := by
  unfold computeStartingTime shiftMin
  dsimp only
  generalize relaxRounds ω (relaxOrder events cs) events.length (fun _ => 0) = R
  cases events with
  | nil => simp at he
  | cons a l =>
    obtain ⟨m1, m2, _⟩ := foldl_min_spec R l (R a)
    dsimp only
    rw [if_pos he, sub_nonneg]
    rcases List.mem_cons.mp he with rfl | h
    · exact m2
    · exact m1 e h

end Kiter.Tikz
