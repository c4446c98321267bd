/-
Properties C35, C61, C62: merging tasks along a schedule.
-/
import Verif.Lemmas.Merging
import Verif.Spec.Merging

set_option autoImplicit false

namespace Kiter

open Merging

/-! ### C35: the helpers -/

/-- C35.  The first `n` values of the infinite sequence; too small an `n` is refused. -/
theorem C35_sequence (init per : List Int) (n : Nat) (hp : per ≠ []) (f : Nat → Int)
    (hf : IsStream init per f) :
    (init.length + per.length ≤ n → produceSequence init per n = some ((List.range n).map f)) ∧
    (n < init.length + per.length → produceSequence init per n = none) := by
  refine ⟨fun h => produceSequence_spec h hp f hf.start hf.cycle hf.rep, ?_⟩
  intro h
  unfold produceSequence
  rw [if_neg (by omega)]

/-- C35.  The start of every execution of the infinite schedule. -/
theorem C35_time (t : Task) (ht : t.init < t.starts.length) (f : Nat → ℚ) (hf : IsSchedule t f)
    (k : Nat) : nextTime t k = some (f k) := nextTime_spec ht f hf.start hf.rep k

example : produceSequence [9] [1, 2, 3] 8 = some [9, 1, 2, 3, 1, 2, 3, 1] := by decide
example : nextTime ⟨0, 1, 2, [1, 1, 1], 10, [0, 3, 5], 2⟩ 6 = some (5 + 2 * 10) ∧
    nextTime ⟨0, 1, 2, [1, 1, 1], 10, [0, 3, 5], 2⟩ 2 = some 5 := by decide +kernel
example : IsSchedule ⟨0, 0, 1, [1], 4, [3], 1⟩ fun k => 3 + k * 4 :=
  ⟨by
    intro i h
    have : i = 0 := by simpa using h
    subst this
    norm_num, by
    intro k _
    show (3 : ℚ) + ((k + (1 - 0) : Nat) : ℚ) * 4 = 3 + k * 4 + 4
    push_cast
    ring⟩

/-! ### C61: the order of the executions -/

/-- C61.  The executions are listed without gap for each task, with the start that the schedule gives
them, in the order of their starts; every task is executed as often as asked for; and an execution
that is not listed does not start before any listed one. -/
theorem C61_order (tasks : List Task) (f : Task → Nat → ℚ) (fuel : Nat) (seq : List Exec)
    (hid : (tasks.map Task.id).Nodup)
    (ht : ∀ t ∈ tasks, t.init < t.starts.length ∧ IsSchedule t (f t) ∧ ∀ k, f t k ≤ f t (k + 1))
    (h : executionSequence tasks fuel = some seq) :
    (∀ e ∈ seq, ∃ t ∈ tasks, t.id = e.task ∧ e.time = f t e.iter) ∧
    (∀ t ∈ tasks, ∃ n, (seq.filter fun e => decide (e.task = t.id)).map Exec.iter = List.range n ∧
      t.init + t.per * t.ni ≤ n ∧ ∀ k, n ≤ k → ∀ e ∈ seq, e.time ≤ f t k) ∧
    seq.Pairwise fun e e' => e.time ≤ e'.time := by
  have hnt : ∀ t ∈ tasks, ∀ k, nextTime t k = some (f t k) := fun t htm k =>
    C35_time t (ht t htm).1 (f t) (ht t htm).2.1 k
  have hinc : ∀ t ∈ tasks, Increasing t := by
    intro t htm i s s' h1 h2
    rw [hnt t htm] at h1 h2
    cases h1
    cases h2
    exact (ht t htm).2.2 i
  obtain ⟨count, hi, hd, _⟩ := executionSequence_inv hid hinc h
  refine ⟨?_, ?_, hi.sorted⟩
  · intro e he
    obtain ⟨t, htm, h1, h2⟩ := hi.real e he
    rw [hnt t htm] at h2
    exact ⟨t, htm, h1, (Option.some.inj h2).symm⟩
  · intro t htm
    refine ⟨count t.id, hi.iters t.id, ?_, ?_⟩
    · unfold dontStop at hd
      rw [List.any_eq_false] at hd
      have := hd t htm
      simpa using this
    · intro k hk e he
      have h1 := hi.next e he t htm _ (hnt t htm _)
      have h2 : f t (count t.id) ≤ f t k := by
        induction k, hk using Nat.le_induction with
        | base => exact le_refl _
        | succ k _ ih => exact le_trans ih ((ht t htm).2.2 k)
      exact le_trans h1 h2

/-- C61.  The listing ends, whatever the tasks, when the periods are positive. -/
theorem C61_terminates (tasks : List Task) (hne : tasks ≠ [])
    (ht : ∀ t ∈ tasks, t.init < t.starts.length ∧ 0 < t.period) :
    ∃ fuel seq, executionSequence tasks fuel = some seq := schedule_terminates hne ht

/-- A schedule of two tasks. -/
def mergeExample : List Task := [⟨0, 0, 1, [1], 4, [0], 1⟩, ⟨7, 0, 1, [1], 2, [1], 2⟩]

example : (executionSequence mergeExample 20).map (List.map fun e => (e.task, e.iter, e.time)) =
    some [(0, 0, 0), (7, 0, 1), (7, 1, 3)] := by decide +kernel

/-! ### C62: the rates of the merged task -/

namespace Merging

theorem mergeSequence_inv {tasks : List Task} {f : Task → Nat → ℚ} {fuel : Nat} {e : Nat}
    {out : List Exec} (hid : (tasks.map Task.id).Nodup)
    (ht : ∀ t ∈ tasks, t.init < t.starts.length ∧ IsSchedule t (f t) ∧ ∀ k, f t k ≤ f t (k + 1))
    (h : mergeSequence tasks fuel = some (e, out)) :
    Iters out ∧ e < out.length ∧ ∃ F, (tasks ≠ [] → F ≠ 0) ∧
      ∀ t ∈ tasks, countIn (out.drop e) t.id * gcdNi tasks = F * t.ni := by
  unfold mergeSequence at h
  split at h
  · cases hs : executionSequence tasks fuel with
    | none => rw [hs] at h; cases h
    | some seq =>
      rw [hs] at h
      have hinc : ∀ t ∈ tasks, Increasing t := by
        intro t htm i s s' h1 h2
        rw [C35_time t (ht t htm).1 (f t) (ht t htm).2.1] at h1 h2
        cases h1
        cases h2
        exact (ht t htm).2.2 i
      obtain ⟨count, hi, _, _⟩ := executionSequence_inv hid hinc hs
      obtain ⟨F, c, hF, hc, hpre, hlt, _, _⟩ := choosePattern_spec h
      refine ⟨?_, hlt, F, hF, ?_⟩
      · rw [hpre]
        exact iters_take (iters_of_range hi.iters).1 _
      · intro t htm
        rw [hc t htm, Nat.mul_right_comm, Nat.div_mul_cancel (gcdNi_dvd htm), Nat.mul_comm]
  · cases h

end Merging

/-- C62.  The rates given to the merged task on the channels of its tasks are exact: after any number
`k` of executions of the merged task (up to the end of its first period) a channel has moved the tokens
that its own task moves in the executions that are among these `k`. -/
theorem C62_exact_rates (tasks : List Task) (f : Task → Nat → ℚ) (fuel e : Nat) (out : List Exec)
    (hid : (tasks.map Task.id).Nodup)
    (ht : ∀ t ∈ tasks, t.init < t.starts.length ∧ IsSchedule t (f t) ∧ ∀ k, f t k ≤ f t (k + 1))
    (h : mergeSequence tasks fuel = some (e, out))
    (id : Nat) (init per : List Int) (rate : Nat → Int) (hr : IsStream init per rate)
    (hp : per ≠ []) (hn : init.length + per.length ≤ out.length) :
    ∃ rates, mergedRates out id init per = some rates ∧ rates.length = out.length ∧
      ∀ k, ∃ n, ((out.take k).filter fun x => decide (x.task = id)).map Exec.iter = List.range n ∧
        (rates.take k).sum = ((List.range n).map rate).sum := by
  obtain ⟨hi, _, _⟩ := mergeSequence_inv hid ht h
  refine ⟨_, mergedRates_spec hi id hn hp rate hr.start hr.cycle hr.rep, by simp, ?_⟩
  intro k
  have hk := iters_take hi k
  refine ⟨_, hk id, ?_⟩
  rw [← List.map_take, iters_sum hk]
  rfl

/-- C62.  The merged graph stays balanced, when the period of the merged task contains whole
iterations of the phases of each task.  There are a common factor and a repetition count for the
merged task such that, for every channel between one of the tasks and a task outside, of which the
tokens moved outside per iteration were balanced before, they are balanced after the merge when the
repetitions outside are multiplied by the factor. -/
theorem C62_balance_partial (tasks : List Task) (f : Task → Nat → ℚ) (fuel e : Nat) (out : List Exec)
    (hne : tasks ≠ []) (hid : (tasks.map Task.id).Nodup)
    (ht : ∀ t ∈ tasks, t.init < t.starts.length ∧ IsSchedule t (f t) ∧ ∀ k, f t k ≤ f t (k + 1))
    (h : mergeSequence tasks fuel = some (e, out))
    (hwhole : ∀ t ∈ tasks, t.per ∣ (out.drop e).countP fun x => decide (x.task = t.id)) :
    ∃ factor reps : Nat, factor ≠ 0 ∧ ∀ t ∈ tasks, ∀ per : List Int, per.length = t.per → per ≠ [] →
      per.length ≤ out.length →
      ∃ rates, mergedRates out t.id [] per = some rates ∧
        ∀ (outside : Int) (repsOutside : Nat),
          outside * repsOutside * t.per = per.sum * t.ni →
          outside * (factor * repsOutside : Nat) = (cutRates e rates).2.sum * reps := by
  obtain ⟨hi, helt, F, hF, hc⟩ := mergeSequence_inv hid ht h
  refine ⟨F, gcdNi tasks, hF hne, ?_⟩
  intro t htm per hlen hpne hle
  obtain ⟨rate, hr⟩ := stream_exists ([] : List Int) per hpne
  have hm := mergedRates_spec hi t.id (init := []) (by simpa using hle) hpne rate hr.start hr.cycle hr.rep
  refine ⟨_, hm, ?_⟩
  intro outside R hbal
  obtain ⟨q, hq⟩ := hwhole t htm
  have hq : countIn (out.drop e) t.id = t.per * q := hq
  have hrep : ∀ k, rate (k + per.length) = rate k := fun k => hr.rep k (Nat.zero_le _)
  have hsumper : S rate per.length = per.sum := by
    unfold S
    congr 1
    refine List.ext_getElem (by simp) ?_
    intro i h1 h2
    simp only [List.getElem_map, List.getElem_range]
    have := hr.cycle i h2
    simpa using this
  have htot : countIn out t.id = countIn (out.take e) t.id + countIn (out.drop e) t.id := by
    unfold countIn
    rw [← List.countP_append, List.take_append_drop]
  have hcut : (cutRates e (out.map fun x => if x.task = t.id then rate x.iter else 0)).2.sum
      = q * per.sum := by
    have h1 := iters_sum hi rate t.id
    have h2 := iters_sum (iters_take hi e) rate t.id
    have h3 : (out.map fun x => if x.task = t.id then rate x.iter else 0).sum =
        ((out.map fun x => if x.task = t.id then rate x.iter else 0).take e).sum +
        ((out.map fun x => if x.task = t.id then rate x.iter else 0).drop e).sum := by
      rw [← List.sum_append, List.take_append_drop]
    rw [h1, ← List.map_take, h2, htot, S_add, hq, ← hlen, Nat.mul_comm, S_periodic hrep, hsumper] at h3
    show ((out.map fun x => if x.task = t.id then rate x.iter else 0).drop e).sum = _
    linarith
  rw [hcut]
  have hper0 : (t.per : Int) ≠ 0 := by
    rw [← hlen]
    have := List.length_pos_iff.2 hpne
    omega
  have hcz : (t.per : Int) * q * gcdNi tasks = F * t.ni := by
    have := hc t htm
    rw [hq] at this
    exact_mod_cast this
  refine mul_right_cancel₀ hper0 ?_
  push_cast
  calc outside * (F * R) * t.per = F * (outside * R * t.per) := by ring
    _ = per.sum * (F * t.ni) := by rw [hbal]; ring
    _ = q * per.sum * gcdNi tasks * t.per := by rw [← hcz]; ring

/-- Tasks of one phase always meet the condition of `C62_balance_partial`. -/
theorem C62_balance_single_phase (tasks : List Task) (f : Task → Nat → ℚ) (fuel e : Nat)
    (out : List Exec) (hne : tasks ≠ []) (hid : (tasks.map Task.id).Nodup)
    (ht : ∀ t ∈ tasks, t.init < t.starts.length ∧ IsSchedule t (f t) ∧ ∀ k, f t k ≤ f t (k + 1))
    (h1 : ∀ t ∈ tasks, t.per = 1) (h : mergeSequence tasks fuel = some (e, out)) :
    ∃ factor reps : Nat, factor ≠ 0 ∧ ∀ t ∈ tasks, ∀ rate : Int,
      ∃ rates, mergedRates out t.id [] [rate] = some rates ∧
        ∀ (outside : Int) (repsOutside : Nat), outside * repsOutside = rate * t.ni →
          outside * (factor * repsOutside : Nat) = (cutRates e rates).2.sum * reps := by
  obtain ⟨F, reps, hF, hall⟩ := C62_balance_partial tasks f fuel e out hne hid ht h (by
    intro t htm
    rw [h1 t htm]
    exact one_dvd _)
  obtain ⟨_, helt, _⟩ := mergeSequence_inv hid ht h
  refine ⟨F, reps, hF, ?_⟩
  intro t htm rate
  obtain ⟨rates, h2, h3⟩ := hall t htm [rate] (by rw [h1 t htm]; rfl) (by simp) (by
    show 1 ≤ out.length
    omega)
  refine ⟨rates, h2, ?_⟩
  intro outside R hb
  refine h3 outside R ?_
  rw [h1 t htm]
  simpa using hb

/-- Without the condition the merge goes wrong: two tasks of two phases, executed as often as each
other.  The period chosen has one execution of each, although each has two phases.  A channel whose
token is produced in the second phase never receives one again, so no repetition counts balance it. -/
theorem C62_phases_counterexample :
    (mergeSequence [⟨0, 0, 2, [1, 1], 2, [0, 1], 2⟩, ⟨1, 0, 2, [1, 1], 2, [0, 1], 2⟩] 20).bind
      (fun r => (mergedRates r.2 1 [] [0, 1]).map fun l => (r.1, l)) = some (0, [0, 0]) := by
  decide +kernel

/-- The merge can also stop for want of a period: a schedule of period 12 that executes one task four
times in a row and the other one three times every 6 units of time.  The sequence ends when each task
has been executed as often as in one iteration, and no suffix of it has the right proportion, so that
the program ends with a failed assertion. -/
theorem C62_no_period_counterexample :
    ∃ seq, executionSequence [⟨0, 0, 1, [1 / 20], 12, [0, 1 / 10, 2 / 10, 3 / 10], 2⟩,
        ⟨1, 0, 1, [1], 6, [0, 2, 4], 3⟩] 20 = some seq ∧
      choosePattern [⟨0, 0, 1, [1 / 20], 12, [0, 1 / 10, 2 / 10, 3 / 10], 2⟩,
        ⟨1, 0, 1, [1], 6, [0, 2, 4], 3⟩] seq = none := by
  refine ⟨[⟨1, 0, 0⟩, ⟨0, 0, 0⟩, ⟨0, 1, 1 / 10⟩, ⟨0, 2, 2 / 10⟩, ⟨0, 3, 3 / 10⟩, ⟨1, 1, 2⟩, ⟨1, 2, 4⟩],
    ?_, ?_⟩ <;> decide +kernel

/-- C62.  The durations of the merged task are those of the executions it consists of. -/
theorem C62_durations (tasks : List Task) (e : Nat) (out : List Exec)
    (hid : (tasks.map Task.id).Nodup) (d : Task → Nat → ℚ)
    (ht : ∀ t ∈ tasks, t.init = 0 ∧ t.durations.length = t.per ∧ t.durations ≠ [] ∧
      IsStream [] t.durations (d t))
    (hmem : ∀ x ∈ out, ∃ t ∈ tasks, t.id = x.task) :
    ∃ i p, mergedDurations tasks e out = some (i, p) ∧ i.length = min e out.length ∧
      List.Forall₂ (fun x v => ∃ t ∈ tasks, t.id = x.task ∧ v = d t x.iter) out (i ++ p) := by
  have hone : ∀ x ∈ out, ∃ t ∈ tasks, t.id = x.task ∧
      ((tasks.find? fun (t : Task) => decide (t.id = x.task)).bind fun t => durationOf t x.iter)
        = some (d t x.iter) := by
    intro x hx
    obtain ⟨t, htm, hti⟩ := hmem x hx
    refine ⟨t, htm, hti, ?_⟩
    have hfind : (tasks.find? fun (t : Task) => decide (t.id = x.task)) = some t := by
      cases hf : tasks.find? fun (t : Task) => decide (t.id = x.task) with
      | none =>
        have := List.find?_eq_none.1 hf t htm
        simp [hti] at this
      | some u =>
        have h1 := List.find?_some hf
        have h2 := List.mem_of_find?_eq_some hf
        simp only [decide_eq_true_eq] at h1
        rw [List.inj_on_of_nodup_map hid h2 htm (h1.trans hti.symm)]
    rw [hfind]
    obtain ⟨h0, hl, hne, hs⟩ := ht t htm
    show durationOf t x.iter = _
    unfold durationOf
    by_cases hlt : x.iter < t.durations.length
    · rw [if_pos hlt, List.getElem?_eq_getElem hlt]
      have := hs.cycle x.iter hlt
      simp only [List.length_nil, Nat.zero_add] at this
      rw [this]
    · have hpos := List.length_pos_iff.2 hne
      rw [if_neg hlt, if_neg (by omega), h0, Nat.zero_add, Nat.sub_zero, ← hl]
      have hm := Nat.mod_lt x.iter hpos
      rw [List.getElem?_eq_getElem hm]
      have := hs.cycle _ hm
      simp only [List.length_nil, Nat.zero_add] at this
      rw [← this]
      have hper : ∀ q k, d t (k + q * t.durations.length) = d t k := by
        intro q
        induction q with
        | zero => intro k; simp
        | succ q ih =>
          intro k
          rw [show k + (q + 1) * t.durations.length = (k + q * t.durations.length)
            + t.durations.length by ring, hs.rep _ (Nat.zero_le _), ih]
      rw [← hper (x.iter / t.durations.length)]
      congr 2
      have h1 := Nat.mod_add_div x.iter t.durations.length
      rw [Nat.mul_comm] at h1
      exact h1
  have hall : ∀ l : List Exec, (∀ x ∈ l, x ∈ out) → ∃ vs,
      (l.mapM fun (x : Exec) =>
        (tasks.find? fun (t : Task) => decide (t.id = x.task)).bind fun t => durationOf t x.iter)
        = some vs ∧ List.Forall₂ (fun x v => ∃ t ∈ tasks, t.id = x.task ∧ v = d t x.iter) l vs := by
    intro l
    induction l with
    | nil => intro _; exact ⟨[], rfl, List.Forall₂.nil⟩
    | cons x l ih =>
      intro hl
      obtain ⟨vs, h1, h2⟩ := ih fun y hy => hl y (List.mem_cons_of_mem _ hy)
      obtain ⟨t, htm, hti, h3⟩ := hone x (hl x List.mem_cons_self)
      refine ⟨d t x.iter :: vs, ?_, List.Forall₂.cons ⟨t, htm, hti, rfl⟩ h2⟩
      rw [List.mapM_cons, h3, h1]
      rfl
  obtain ⟨vs, h1, h2⟩ := hall out fun _ h => h
  refine ⟨vs.take e, vs.drop e, ?_, ?_, ?_⟩
  · unfold mergedDurations
    rw [h1]
    rfl
  · rw [List.length_take, h2.length_eq]
  · rw [List.take_append_drop]
    exact h2

/-- The hypotheses are met by the two tasks of `mergeExample`. -/
example : (mergeSequence mergeExample 20).map (fun r => (r.1, r.2.map Exec.task)) = some (0, [0, 7, 7]) := by
  decide +kernel
example : (mergeSequence mergeExample 20).bind (fun r => mergedRates r.2 7 [] [5]) = some [0, 5, 5] := by
  decide +kernel
example : IsSchedule ⟨7, 0, 1, [1], 2, [1], 2⟩ (fun k => 1 + k * 2) ∧
    ∀ k : Nat, (fun k : Nat => (1 : ℚ) + k * 2) k ≤ (fun k : Nat => (1 : ℚ) + k * 2) (k + 1) := by
  refine ⟨⟨?_, ?_⟩, ?_⟩
  · intro i h
    have : i = 0 := by simpa using h
    subst this
    norm_num
  · intro k _
    show (1 : ℚ) + ((k + (1 - 0) : Nat) : ℚ) * 2 = 1 + k * 2 + 2
    push_cast
    ring
  · intro k
    simp only
    push_cast
    linarith

end Kiter
