/-
C90: the chart of a schedule with integral times shows each execution where it is; with other times it drifts.
-/
import Verif.Lemmas.Chart
import Verif.Props.SPSchedule

set_option autoImplicit false

namespace Kiter
namespace Chart

theorem entry_init (e : Entry) : e.init = (List.range' 0 e.init.length).map e.start := by
  apply List.ext_getElem
  · simp
  · intro i h1 h2
    rw [List.getElem_map, List.getElem_range']
    unfold Entry.start
    rw [if_pos (by omega), List.getD_eq_getElem _ _ (by omega)]
    congr 1
    omega

theorem entry_starts (e : Entry) : e.starts = (List.range' e.init.length e.starts.length).map e.start := by
  apply List.ext_getElem
  · simp
  · intro i h1 h2
    rw [List.getElem_map, List.getElem_range']
    unfold Entry.start
    rw [if_neg (by omega), show e.init.length + 1 * i - e.init.length = i by omega, Nat.mod_eq_of_lt h1,
      Nat.div_eq_of_lt h1, List.getD_eq_getElem _ _ h1]
    simp

theorem entry_period (e : Entry) (hne : e.starts ≠ []) {k : ℕ} (hk : e.init.length ≤ k) :
    e.start (k + e.starts.length) = e.start k + e.period := by
  have hn : 0 < e.starts.length := List.length_pos_iff.mpr hne
  unfold Entry.start
  rw [if_neg (by omega), if_neg (by omega), show k + e.starts.length - e.init.length = k - e.init.length + e.starts.length by omega,
    Nat.add_mod_right, Nat.add_div_right _ hn]
  push_cast
  ring

theorem phases_at {phases : List ℚ} (hne : phases ≠ []) (k : ℕ) : phases[k % phases.length]? = some (durAt phases k) := by
  have hlt := Nat.mod_lt k (List.length_pos_iff.mpr hne)
  unfold durAt
  rw [List.getElem?_eq_getElem hlt, List.getD_eq_getElem _ _ hlt]

/-- **C90** For every schedule of a task at integral times, with integral positive durations and executions that do not
overlap, the chart can be drawn for every line length and every column is right: `@` where an execution starts, `#` where
one is running, a space elsewhere. The starts of a period cover whole rounds of the phases, or there is a single start and
the initial starts cover whole rounds. -/
theorem C90_chart (phases : List ℚ) (e : Entry) (n : ℕ) (hph : phases ≠ []) (hst : e.starts ≠ [])
    (hint : ∀ k, ∃ a : ℕ, e.start k = a) (hdur : ∀ d ∈ phases, ∃ a : ℕ, 0 < a ∧ d = a)
    (hord : ∀ k, e.start k + durAt phases k ≤ e.start (k + 1))
    (hrounds : phases.length ∣ e.starts.length ∨ (e.starts.length = 1 ∧ phases.length ∣ e.init.length)) :
    ∃ line, drawLine phases e n = some line ∧ Shows line n e.start (durAt phases) := by
  have hP := List.length_pos_iff.mpr hph
  have hN := List.length_pos_iff.mpr hst
  choose s hs using hint
  have hd : ∀ k, ∃ a : ℕ, 0 < a ∧ durAt phases k = a := by
    intro k
    refine hdur _ ?_
    unfold durAt
    rw [List.getD_eq_getElem _ _ (Nat.mod_lt _ hP)]
    exact List.getElem_mem _
  choose w hw0 hw using hd
  have R : Runs e.start (durAt phases) s w := by
    refine ⟨hs, hw, hw0, fun k => ?_⟩
    have := hord k
    rw [hs, hs, hw] at this
    exact_mod_cast this
  have hph' := phases_at hph
  set m := e.init.length with hm
  have hper : ∀ k, m ≤ k → (s (k + e.starts.length) : ℚ) = s k + e.period := by
    intro k hk
    rw [← hs, ← hs]; exact entry_period e hst hk
  -- the period is integral
  obtain ⟨P, hPp, hP0⟩ : ∃ P : ℕ, e.period = P ∧ s m + P = s (m + e.starts.length) := by
    have h1 := hper m le_rfl
    have h2 := R.mono (show m < m + e.starts.length by omega)
    refine ⟨s (m + e.starts.length) - s m, ?_, by omega⟩
    rw [Nat.cast_sub (by omega)]
    linarith
  have hsP : ∀ k, m ≤ k → s (k + e.starts.length) = s k + P := by
    intro k hk
    have := hper k hk
    rw [hPp] at this
    exact_mod_cast this
  have hwP : ∀ k, w (k + phases.length) = w k := by
    intro k
    have h1 := hw (k + phases.length)
    have h2 := hw k
    unfold durAt at h1 h2
    rw [Nat.add_mod_right, h2] at h1
    exact_mod_cast h1.symm
  have hwPm : ∀ q k, w (k + phases.length * q) = w k := by
    intro q
    induction q with
    | zero => intro k; rfl
    | succ q ih => intro k; rw [show k + phases.length * (q + 1) = k + phases.length * q + phases.length by ring, hwP, ih]
  -- initial starts
  obtain ⟨b, b1, b2, b3, b4⟩ := draw_spec R hph' m 0 0 [] (by simp) (by omega)
  simp only [Nat.zero_add, List.nil_append, Nat.cast_zero, zero_sub] at b2 b3 b4
  rw [hm, ← entry_init e, ← hm] at b2
  -- periodic starts
  obtain ⟨c, c1, c2, c3, c4⟩ := draw_spec R hph' e.starts.length m (s m) [] (by
    intro j hj; exact R.mono hj) le_rfl
  rw [hm, ← entry_starts e, ← hm] at c2
  simp only [List.nil_append] at c2
  have hhead : e.starts.head? = some (s m : ℚ) := by
    have : e.starts[0]? = some (e.start m) := by
      have h := entry_starts e
      rw [List.getElem?_eq_getElem hN]
      congr 1
      have h2 : (List.map e.start (List.range' e.init.length e.starts.length))[0]'(by simpa using hN) = e.start m := by
        rw [List.getElem_map, List.getElem_range']; simp [hm]
      rw [← h2]
      congr 1
    rw [List.head?_eq_getElem?, this, hs]
  have htrail : fill (e.period + (s m : ℚ) - ((c : ℚ) - 1) - 1) ' ' = some (cov e.start (durAt phases) c (s m + P)) := by
    rw [fill_sub (a := c) (b := s m + P) (by omega) (by rw [hPp]; push_cast; ring), cov_gap R c3 (by omega)]
  have hlead : fill ((s m : ℚ) - (((b : ℕ) : ℚ) - 1) - 1) ' ' = some (cov e.start (durAt phases) b (s m)) := by
    rw [fill_sub (a := b) (b := s m) b4 (by ring), cov_gap R b3 le_rfl]
  -- text of a period
  obtain ⟨N, T, hT, hNs, hNw, htext⟩ : ∃ N T : ℕ, 0 < T ∧ (∀ k, m ≤ k → s (k + N) = s k + T) ∧ (∀ k, w (k + N) = w k) ∧
      complete phases e (cov e.start (durAt phases) (s m) c ++ cov e.start (durAt phases) c (s m + P)) (m + e.starts.length) =
        some (cov e.start (durAt phases) (s m) (s m + T)) := by
    have hPpos : 0 < P := by
      have := R.mono (show m < m + e.starts.length by omega)
      have := R.pos m
      omega
    unfold complete
    rw [cov_append _ _ c1 (by omega)]
    by_cases hlt : e.starts.length < phases.length
    · rw [if_pos hlt]
      have h1 : e.starts.length = 1 ∧ phases.length ∣ m := by
        rcases hrounds with h | h
        · exact absurd (Nat.le_of_dvd hN h) (by omega)
        · exact h
      obtain ⟨x, hx⟩ := List.length_eq_one_iff.mp h1.1
      have hxe : e.starts = [(s m : ℚ)] := by
        rw [hx] at hhead ⊢
        simpa using hhead
      rw [h1.1] at hsP hP0
      have hmul : ∀ q k, m ≤ k → s (k + q) = s k + P * q := by
        intro q
        induction q with
        | zero => intro k _; simp
        | succ q ih => intro k hk; rw [← Nat.add_assoc, hsP _ (by omega), ih k hk]; ring
      refine ⟨phases.length, P * phases.length, by positivity, hmul _, hwP, ?_⟩
      rw [h1.1, hxe, hPp, hP0, ← hmul _ m le_rfl]
      exact look_spec R hph' h1.2 hsP (phases.length - 1) 1 phases.length 0 (by omega) one_pos (by omega)
    · rw [if_neg hlt]
      obtain ⟨q, hq⟩ : phases.length ∣ e.starts.length := by
        rcases hrounds with h | h
        · exact h
        · have : phases.length = 1 := by omega
          rw [this]; exact one_dvd _
      exact ⟨e.starts.length, P, hPpos, hsP, by rw [hq]; exact hwPm q, rfl⟩
  have hbody := repeat_spec R hNs hNw hT (n - s m) (n - s m) le_rfl
  refine ⟨_, ?_, rfl⟩
  unfold drawLine
  rw [b2]
  simp only [Option.bind_eq_bind, Option.bind_some]
  rw [hhead]
  simp only [Option.bind_some]
  rw [hlead]
  simp only [Option.bind_some]
  rw [c2]
  simp only [Option.bind_some]
  rw [htrail]
  simp only [Option.bind_some]
  rw [htext]
  simp only [Option.bind_some]
  rw [cov_append _ _ (Nat.zero_le _) b4, cov_length, Nat.sub_zero, hbody]
  simp only [Option.bind_some]
  show some _ = some _
  congr 1
  have hr : (List.range n).map (column e.start (durAt phases)) = cov e.start (durAt phases) 0 n := by
    unfold cov; rw [Nat.sub_zero, List.range_eq_range']
  rw [hr]
  rcases Nat.le_total (s m) n with h | h
  · rw [List.take_of_length_le (by rw [cov_length]; omega), show s m + (n - s m) = n by omega, cov_append _ _ (Nat.zero_le _) h]
  · rw [show n - s m = 0 by omega, Nat.add_zero, cov_self, List.append_nil, ← cov_append _ _ (Nat.zero_le n) h,
      List.take_append_of_le_length (by rw [cov_length]; omega), List.take_of_length_le (by rw [cov_length]; omega)]

theorem strict_entry_start (S P : ℚ) (k : ℕ) : (⟨[], P, [S]⟩ : Entry).start k = S + k * P := by
  unfold Entry.start; simp [Nat.mod_one]

/-- **C90 with C89** The chart of a strictly periodic schedule returned by the scheduling is right for each task with
integral positive durations, integral start and integral period. -/
theorem C90_strict {B : BaseGraph} (hB : BaseOK B) {solve : List EvConstraint → Option (ℚ × List EvConstraint)}
    {cs : List EvConstraint} (hcs : generateSP B false = some cs) {th : ℚ} {p : List EvConstraint}
    (hs : solve cs = some (th, p)) (hp : ExactRatio cs th p) :
    ∃ r, spSchedule solve B = some r ∧ ∀ t ∈ B.tasks, ∃ P S : ℚ, (⟨t.id, P, [S]⟩ : TaskSchedule) ∈ r.tasks ∧
      ((∃ a : ℕ, S = a) → (∃ a : ℕ, P = a) → (∀ d ∈ t.durations, ∃ a : ℕ, 0 < a ∧ d = a) → ∀ n,
        ∃ line, drawLine t.durations ⟨[], P, [S]⟩ n = some line ∧ Shows line n (listedStart r.tasks t) t.dur) := by
  obtain ⟨r, hr, -, -, hv, -⟩ := C89_schedule hB hcs hs hp
  refine ⟨r, hr, fun t ht => ?_⟩
  have heq := spSchedule_eq hB hcs hs (exact_th_pos hp).ne'
  rw [hr] at heq
  set S := (computeStartingTime (spEvents B) cs (some (1 / th))).2 with hS
  refine ⟨1 / th / t.ni, S ⟨t.id, 1, 1⟩, ?_, ?_⟩
  · cases heq; exact List.mem_map.mpr ⟨t, ht, rfl⟩
  rintro ⟨a, ha⟩ ⟨b, hb⟩ hd n
  have hstart : ∀ k, listedStart r.tasks t k = (⟨[], 1 / th / t.ni, [S ⟨t.id, 1, 1⟩]⟩ : Entry).start k := by
    intro k
    cases heq
    rw [listed_strict hB S (1 / th) ht, strict_entry_start]
    rfl
  have hno := hv.noOverlap t ht
  simp only [hstart] at hno
  obtain ⟨line, h1, h2⟩ := C90_chart t.durations ⟨[], 1 / th / t.ni, [S ⟨t.id, 1, 1⟩]⟩ n
    (List.length_pos_iff.mp (hB.tasks t ht).phases) (by simp)
    (fun k => ⟨a + k * b, by rw [strict_entry_start, ha, hb]; push_cast; ring⟩) hd hno (Or.inr ⟨rfl, by simp⟩)
  refine ⟨line, h1, ?_⟩
  unfold Shows at h2 ⊢
  rw [h2]
  congr 1
  have : listedStart r.tasks t = (⟨[], 1 / th / t.ni, [S ⟨t.id, 1, 1⟩]⟩ : Entry).start := funext hstart
  rw [this]
  rfl

/-! ### Concrete cases -/

/-- A schedule with an initial start and two phases: drawn, and C90 applies to it. -/
def sample : Entry := ⟨[1, 4], 7, [8, 10]⟩

theorem sample_drawn : (drawLine [1, 3] sample 24).map String.ofList = some " @  @## @ @##  @ @##  @ " := by decide +kernel

example : ∃ line, drawLine [1, 3] sample 24 = some line ∧ Shows line 24 sample.start (durAt [1, 3]) := by
  have hmod : ∀ k, k % 2 = 0 ∨ k % 2 = 1 := by omega
  have hst : ∀ k, 2 ≤ k → sample.start k = (if k % 2 = 0 then 8 else 10) + (((k - 2) / 2 : ℕ) : ℚ) * 7 := by
    intro k hk
    unfold Entry.start sample
    rw [if_neg (by simp; omega)]
    simp only [List.length_cons, List.length_nil]
    have : (k - 2) % 2 = k % 2 := by omega
    rw [this]
    rcases hmod k with h | h <;> simp [h]
  have h0 : sample.start 0 = 1 := by simp [Entry.start, sample]
  have h1 : sample.start 1 = 4 := by simp [Entry.start, sample]
  refine C90_chart [1, 3] sample 24 (by simp) (by simp [sample]) ?_ ?_ ?_ (Or.inl (by simp [sample]))
  · intro k
    match k with
    | 0 => exact ⟨1, by rw [h0]; norm_num⟩
    | 1 => exact ⟨4, by rw [h1]; norm_num⟩
    | k + 2 =>
      rw [hst _ (by omega)]
      exact ⟨(if (k + 2) % 2 = 0 then 8 else 10) + (k + 2 - 2) / 2 * 7, by split_ifs <;> push_cast <;> ring⟩
  · intro d hd
    simp only [List.mem_cons, List.not_mem_nil, or_false] at hd
    rcases hd with rfl | rfl
    · exact ⟨1, by norm_num, by norm_num⟩
    · exact ⟨3, by norm_num, by norm_num⟩
  · intro k
    unfold durAt
    match k with
    | 0 => rw [h0, h1]; norm_num
    | 1 => rw [h1, hst 2 le_rfl]; norm_num
    | k + 2 =>
      rw [hst _ (by omega), hst _ (by omega)]
      rcases hmod k with h | h
      · have a : (k + 2) % 2 = 0 := by omega
        have b : ¬ (k + 2 + 1) % 2 = 0 := by omega
        have c : (k + 2 + 1 - 2) / 2 = (k + 2 - 2) / 2 := by omega
        rw [if_pos a, if_neg b, c]
        simp only [List.length_cons, List.length_nil, a]
        simp
        linarith
      · have a : ¬ (k + 2) % 2 = 0 := by omega
        have a' : (k + 2) % 2 = 1 := by omega
        have b : (k + 2 + 1) % 2 = 0 := by omega
        have c : (k + 2 + 1 - 2) / 2 = (k + 2 - 2) / 2 + 1 := by omega
        rw [if_neg a, if_pos b, c]
        simp only [List.length_cons, List.length_nil, a']
        push_cast
        simp
        linarith

/-- **C90** With a period that is not integral the chart drifts. The first task of the C49 graph starts every 15/4, so 11
executions start in 40 time units; in the chart a period takes 3 columns and 14 executions start. -/
theorem C90_drift :
    ((spSchedule (Howard.solver (1 / 10 ^ 19) (10 ^ 300) fun _ => spEvents KIterExample.G) KIterExample.G).bind
      fun r => r.tasks.head?) = some ⟨0, 15 / 4, [0]⟩ ∧
    ∃ line, drawLine [1, 3] ⟨[], 15 / 4, [0]⟩ 40 = some line ∧ String.ofList line = "@  @##@  @##@  @##@  @##@  @##@  @##@  @" ∧
      ¬ Shows line 40 (⟨[], 15 / 4, [0]⟩ : Entry).start (durAt [1, 3]) := by
  refine ⟨by decide +kernel, "@  @##@  @##@  @##@  @##@  @##@  @##@  @".toList, by decide +kernel, by decide +kernel, fun h => ?_⟩
  unfold Shows at h
  have h2 := congrArg (fun l => l[33]?) h
  have e1 : "@  @##@  @##@  @##@  @##@  @##@  @##@  @".toList[33]? = some '@' := by decide +kernel
  simp only [e1, List.getElem?_map] at h2
  rw [List.getElem?_range (by norm_num)] at h2
  simp only [Option.map_some, Option.some.injEq] at h2
  unfold column at h2
  rw [if_neg] at h2
  · split_ifs at h2 <;> exact absurd h2 (by decide)
  · rintro ⟨k, hk⟩
    rw [strict_entry_start] at hk
    have : (15 * k : ℚ) = 132 := by push_cast at hk; linarith
    have : 15 * k = 132 := by exact_mod_cast this
    omega

/-- **C90** A phase of duration 0 makes the chart undefined (the number of `#` is -1). -/
theorem C90_zero_duration : drawLine [0, 1] ⟨[], 4, [0, 1]⟩ 8 = none := by decide +kernel

end Chart
end Kiter
