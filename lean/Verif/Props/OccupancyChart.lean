import Verif.Model.OccupancyChart
import Mathlib.Algebra.Order.Archimedean.Basic
import Mathlib.Data.Rat.Floor
import Mathlib.Tactic.Ring
import Mathlib.Tactic.Linarith
import Mathlib.Tactic.FieldSimp
import Mathlib.Tactic.NormNum

/-!
C140: the occupancy chart printed at the end of SoftwareControlledNoCBufferless.
-/

set_option autoImplicit false

namespace Kiter.OccChart

/-- Specification: start number `i` is at `s` and its phase lasts `d`. -/
def HasStart (e : Entry) (s d : ℚ) : Prop :=
  ∃ i : ℕ, e.starts[i]? = some s ∧ e.durations[i % e.durations.length]? = some d

/-- Specification: the task executes at time `t`, in the first or a later period. -/
def Executing (e : Entry) (t : ℚ) : Prop :=
  ∃ s d, HasStart e s d ∧ ∃ n : ℕ, s + n * e.period ≤ t ∧ t < s + n * e.period + d

/-- Specification: the task executes at time `t`, in the first period. -/
def ExecutingFirst (e : Entry) (t : ℚ) : Prop := ∃ s d, HasStart e s d ∧ s ≤ t ∧ t < s + d

theorem ExecutingFirst.executing {e : Entry} {t : ℚ} (h : ExecutingFirst e t) : Executing e t := by
  obtain ⟨s, d, h, h1, h2⟩ := h
  exact ⟨s, d, h, 0, by simpa using h1, by simpa using h2⟩

theorem executeHere_iff {p s d t : ℚ} (hp : 1 ≤ p) :
    executeHere p s d t = true ↔ s ≤ t ∧ (t - s) * (p - 1) < d * p := by
  have p0 : 0 < p := by linarith
  unfold executeHere
  by_cases h : t > s
  · rw [if_pos h, if_neg p0.ne']
    have e : (t - s) - (t - s) / p = (t - s) * (p - 1) / p := by field_simp
    simp only [e, Bool.and_eq_true, decide_eq_true_eq, div_lt_iff₀ p0]
    constructor
    · rintro ⟨_, h2⟩; exact ⟨h.le, h2⟩
    · rintro ⟨_, h2⟩
      exact ⟨div_nonneg (mul_nonneg (by linarith) (by linarith)) p0.le, h2⟩
  · rw [if_neg h]
    simp only [Bool.and_eq_true, decide_eq_true_eq]
    constructor
    · rintro ⟨h1, h2⟩
      have : t - s = 0 := by linarith
      rw [this] at h2 ⊢
      exact ⟨by linarith, by rw [zero_mul]; exact mul_pos h2 p0⟩
    · rintro ⟨h1, h2⟩
      have : t - s = 0 := by linarith
      rw [this, zero_mul] at h2
      rw [this]
      exact ⟨le_refl _, pos_of_mul_pos_left h2 p0.le⟩

theorem executeFrom_spec {p : ℚ} {ds : List ℚ} (t : ℚ) (hd : ds ≠ []) :
    ∀ (l : List ℚ) (k : ℕ) (b : Bool), ∃ r, executeFrom p ds t k l b = some r ∧
      (r = true ↔ b = true ∨ ∃ i s d, l[i]? = some s ∧ ds[(k + i) % ds.length]? = some d ∧ executeHere p s d t = true)
  | [], k, b => ⟨b, rfl, by simp⟩
  | s :: rest, k, b => by
    have hl : ds.length ≠ 0 := by simpa using hd
    have hk : k % ds.length < ds.length := Nat.mod_lt _ (Nat.pos_of_ne_zero hl)
    obtain ⟨r, h1, h2⟩ := executeFrom_spec t hd rest (k + 1) (b || executeHere p s ds[k % ds.length] t)
    refine ⟨r, ?_, ?_⟩
    · simp only [executeFrom, if_neg hl, List.getElem?_eq_getElem hk]
      exact h1
    · rw [h2, Bool.or_eq_true]
      constructor
      · rintro ((h | h) | ⟨i, s', d, h, h', h''⟩)
        · exact .inl h
        · exact .inr ⟨0, s, _, rfl, List.getElem?_eq_getElem hk, h⟩
        · exact .inr ⟨i + 1, s', d, by simpa using h, by rw [← h']; congr 2; omega, h''⟩
      · rintro (h | ⟨i, s', d, h, h', h''⟩)
        · exact .inl (.inl h)
        · rcases i with _ | i
          · simp only [List.getElem?_cons_zero, Option.some.injEq] at h
            rw [Nat.add_zero, List.getElem?_eq_getElem hk] at h'
            simp only [Option.some.injEq] at h'
            subst h h'
            exact .inl (.inr h'')
          · exact .inr ⟨i, s', d, by simpa using h, by rw [← h']; congr 2; omega, h''⟩

theorem cell_spec {e : Entry} (t : ℕ) (hd : e.durations ≠ []) (hp : 1 ≤ e.period) :
    ∃ c, cell e t = some c ∧ (c = '#' ∨ c = ' ') ∧
      (c = '#' ↔ ∃ s d, HasStart e s d ∧ s ≤ t ∧ ((t : ℚ) - s) * (e.period - 1) < d * e.period) := by
  obtain ⟨r, h1, h2⟩ := executeFrom_spec (p := e.period) (t : ℚ) hd e.starts 0 false
  refine ⟨if r then '#' else ' ', by simp [cell, h1], by cases r <;> simp, ?_⟩
  have : ((if r then '#' else ' ') = '#') ↔ r = true := by cases r <;> simp
  rw [this, h2]
  simp only [Nat.zero_add, executeHere_iff hp, HasStart, Bool.false_eq_true, false_or]
  constructor
  · rintro ⟨i, s, d, a, b, c⟩; exact ⟨s, d, ⟨i, a, b⟩, c⟩
  · rintro ⟨s, d, ⟨i, a, b⟩, c⟩; exact ⟨i, s, d, a, b, c⟩

theorem lineFrom_spec {e : Entry} (hc : ∀ t, ∃ c, cell e t = some c) :
    ∀ (n t : ℕ), ∃ l, lineFrom e t n = some l ∧ l.length = n ∧ ∀ i < n, l[i]? = cell e (t + i)
  | 0, t => ⟨[], rfl, rfl, fun i h => absurd h (by omega)⟩
  | n + 1, t => by
    obtain ⟨c, h⟩ := hc t
    obtain ⟨l, h1, h2, h3⟩ := lineFrom_spec hc n (t + 1)
    refine ⟨c :: l, by simp [lineFrom, h, h1], by simp [h2], ?_⟩
    rintro (_ | i) hi
    · simpa using h.symm
    · have := h3 i (by omega)
      rw [List.getElem?_cons_succ, this]
      congr 1; omega

/-- C140, the part that holds: for a schedule without initial starts and a period of at least one, the line has fifty characters, each a
mark or a blank; the task is marked while it executes in the first period, and not marked before its first start. Missing: the
same for later periods, which is false. -/
theorem _root_.Kiter.C140_chart_partial {e : Entry} (hi : e.initialStarts = []) (hd : e.durations ≠ [])
    (hp : 1 ≤ e.period) :
    ∃ l, line e = some l ∧ l.length = 50 ∧ (∀ c ∈ l, c = '#' ∨ c = ' ') ∧ ∀ t : ℕ, t < 50 →
      (ExecutingFirst e t → l[t]? = some '#') ∧ ((∀ s ∈ e.starts, (t : ℚ) < s) → l[t]? = some ' ') := by
  have hc : ∀ t, ∃ c, cell e t = some c := fun t => (cell_spec t hd hp).imp fun _ h => h.1
  obtain ⟨l, h1, h2, h3⟩ := lineFrom_spec hc 50 0
  refine ⟨l, by simp [line, hi, h1], h2, ?_, ?_⟩
  · intro c hcl
    obtain ⟨i, hi', rfl⟩ := List.getElem_of_mem hcl
    obtain ⟨c, a, b, -⟩ := cell_spec (e := e) (0 + i) hd hp
    have := h3 i (by omega)
    rw [a, List.getElem?_eq_getElem hi'] at this
    simp only [Option.some.injEq] at this
    rwa [this]
  · intro t ht
    obtain ⟨c, a, b, h⟩ := cell_spec (e := e) t hd hp
    have hl : l[t]? = some c := by rw [h3 t ht, Nat.zero_add, a]
    rw [hl]
    constructor
    · rintro ⟨s, d, hs, x, y⟩
      rw [h.2 ⟨s, d, hs, x, ?_⟩]
      have hd0 : 0 < d := by linarith
      nlinarith [mul_le_mul_of_nonneg_right (show (t : ℚ) - s ≤ d by linarith) (show 0 ≤ e.period - 1 by linarith)]
    · intro hb
      rcases b with b | b
      · obtain ⟨s, d, ⟨i, hs, -⟩, x, -⟩ := h.1 b
        exact absurd (hb s (List.mem_of_getElem? hs)) (not_lt.2 x)
      · rw [b]

/-- A task that starts at 3 and 7 with a period of eight, phases of one and two. -/
def sample : Entry := ⟨[], 8, [3, 7], [1, 2]⟩

example : sample.initialStarts = [] ∧ sample.durations ≠ [] ∧ 1 ≤ sample.period := by
  refine ⟨rfl, by simp [sample], by norm_num [sample]⟩

example : ExecutingFirst sample (8 : ℕ) := ⟨7, 2, ⟨1, rfl, rfl⟩, by norm_num, by norm_num⟩

/-- C140 fails in later periods: whatever the schedule, with a period above one, from some time on the task is never marked. -/
theorem _root_.Kiter.C140_blank_counterexample {e : Entry} (hd : e.durations ≠ []) (hp : 1 < e.period) :
    ∃ T : ℕ, ∀ t : ℕ, T ≤ t → cell e t = some ' ' := by
  have bound : ∀ l : List ℚ, ∃ B : ℚ, ∀ x ∈ l, x ≤ B := by
    intro l
    induction l with
    | nil => exact ⟨0, by simp⟩
    | cons a l ih =>
      obtain ⟨B, h⟩ := ih
      exact ⟨max a B, by
        intro x hx
        rcases List.mem_cons.1 hx with rfl | hx
        · exact le_max_left _ _
        · exact (h x hx).trans (le_max_right _ _)⟩
  obtain ⟨S, hS⟩ := bound e.starts
  obtain ⟨D, hD⟩ := bound e.durations
  obtain ⟨T, hT⟩ := exists_nat_ge (S + D * e.period / (e.period - 1))
  refine ⟨T, fun t ht => ?_⟩
  obtain ⟨c, a, b, h⟩ := cell_spec (e := e) t hd hp.le
  rcases b with b | b
  · exfalso
    obtain ⟨s, d, ⟨i, hs, hdd⟩, x, y⟩ := h.1 b
    have p1 : 0 < e.period - 1 := by linarith
    have tt : (T : ℚ) ≤ t := by exact_mod_cast ht
    have h1 := hS s (List.mem_of_getElem? hs)
    have h2 := hD d (List.mem_of_getElem? hdd)
    have h3 : D * e.period / (e.period - 1) ≤ t - s := by linarith
    rw [div_le_iff₀ p1] at h3
    have h4 : d * e.period ≤ D * e.period := mul_le_mul_of_nonneg_right h2 (by linarith)
    linarith
  · rw [a, b]

/-- A task that starts at 0 every ten units and lasts two. -/
def wrong : Entry := ⟨[], 10, [0], [2]⟩

theorem wrong_idle : ¬ Executing wrong 2 := by
  rintro ⟨s, d, ⟨i, hs, hd⟩, n, h1, h2⟩
  rcases i with _ | i
  · simp only [wrong, List.getElem?_cons_zero, Option.some.injEq, List.length_singleton, Nat.mod_one] at hs hd
    subst hs hd
    simp only [wrong] at h1 h2
    have : n = 0 := by
      by_contra hn
      have : (1 : ℚ) ≤ n := by exact_mod_cast Nat.pos_of_ne_zero hn
      linarith
    subst this
    norm_num at h2
  · simp [wrong] at hs

/-- C140 fails within the fifty characters: the task executes at 10, in its second period, and is not marked; it is idle at 2 and
is marked. -/
theorem _root_.Kiter.C140_marks_counterexample :
    ∃ (e : Entry) (l : List Char), e.initialStarts = [] ∧ 1 ≤ e.period ∧ line e = some l ∧
      (Executing e (10 : ℕ) ∧ l[10]? = some ' ') ∧ (¬ Executing e (2 : ℕ) ∧ l[2]? = some '#') := by
  refine ⟨wrong, ['#', '#', '#'] ++ List.replicate 47 ' ', rfl, by norm_num [wrong], by decide +kernel, ⟨?_, by decide⟩, ?_, by decide⟩
  · exact ⟨0, 2, ⟨0, rfl, rfl⟩, 1, by norm_num [wrong], by norm_num [wrong]⟩
  · exact_mod_cast wrong_idle

end Kiter.OccChart
