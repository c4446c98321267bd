/-
Property C17 (the three builds of the constraint generator agree), and the reentrancy limits of C15.
-/
import Verif.Props.KPeriodic

set_option autoImplicit false

namespace Kiter

/-- Specification: the largest multiple of `g` below `l` and the smallest above. -/
def IsFloorMultiple (l g a : Int) : Prop := g ∣ a ∧ a ≤ l ∧ ∀ b, g ∣ b → b ≤ l → b ≤ a
def IsCeilMultiple (l g a : Int) : Prop := g ∣ a ∧ l ≤ a ∧ ∀ b, g ∣ b → l ≤ b → a ≤ b

theorem floorMult_is (l g : Int) (hg : 0 < g) : IsFloorMultiple l g (floorMult l g) :=
  ⟨(floorMult_spec l g hg).1, (floorMult_spec l g hg).2.1, fun _ hb h => le_floorMult hg hb h⟩

theorem ceilMult_is (l g : Int) (hg : 0 < g) : IsCeilMultiple l g (ceilMult l g) :=
  ⟨(ceilMult_spec l g hg).1, (ceilMult_spec l g hg).2.1, fun _ hb h => ceilMult_le hg hb h⟩

theorem cFloor_is (l g : Int) (hg : 0 < g) : ∃ a, cFloor l g = some a ∧ IsFloorMultiple l g a := by
  have hq : (0 : ℚ) < g := by exact_mod_cast hg
  refine ⟨_, by unfold cFloor; rw [if_neg hg.ne'], Dvd.intro_left _ rfl, ?_, ?_⟩
  · have := Int.floor_le ((l : ℚ) / g)
    rw [le_div_iff₀ hq] at this
    exact_mod_cast this
  · rintro b ⟨k, rfl⟩ hb
    have : k ≤ ⌊(l : ℚ) / g⌋ := by
      rw [Int.le_floor, le_div_iff₀ hq]
      have : g * k ≤ l := hb
      have : (g : ℚ) * k ≤ l := by exact_mod_cast this
      linarith
    have := mul_le_mul_of_nonneg_right this hg.le
    linarith

theorem cCeil_is (l g : Int) (hg : 0 < g) : ∃ a, cCeil l g = some a ∧ IsCeilMultiple l g a := by
  have hq : (0 : ℚ) < g := by exact_mod_cast hg
  refine ⟨_, by unfold cCeil; rw [if_neg hg.ne'], Dvd.intro_left _ rfl, ?_, ?_⟩
  · have := Int.le_ceil ((l : ℚ) / g)
    rw [div_le_iff₀ hq] at this
    exact_mod_cast this
  · rintro b ⟨k, rfl⟩ hb
    have : ⌈(l : ℚ) / g⌉ ≤ k := by
      rw [Int.ceil_le, div_le_iff₀ hq]
      have : (l : ℚ) ≤ g * k := by exact_mod_cast hb
      linarith
    have := mul_le_mul_of_nonneg_right this hg.le
    linarith

/-- **C17** For a positive gcd the default remainder-based rounding and the reference rounding both compute the
largest multiple below / smallest multiple above, so the three builds (reference, default, early exit) add the same
constraint, or none, for every pair of bounds. -/
theorem C17_builds_agree (lpimin lpimax g : Int) (hg : 0 < g) :
    IsFloorMultiple lpimax g (floorMult lpimax g) ∧ IsCeilMultiple lpimin g (ceilMult lpimin g) ∧
    boundsReference lpimin lpimax g = some (boundsDefault lpimin lpimax g) ∧
    boundsStrong lpimin lpimax g = boundsDefault lpimin lpimax g := by
  have f1 := floorMult_is lpimax g hg
  have c1 := ceilMult_is lpimin g hg
  refine ⟨f1, c1, ?_, ?_⟩
  · obtain ⟨a, ha, sa⟩ := cFloor_is lpimax g hg
    obtain ⟨b, hb, sb⟩ := cCeil_is lpimin g hg
    have ea : a = floorMult lpimax g := le_antisymm (f1.2.2 _ sa.1 sa.2.1) (sa.2.2 _ f1.1 f1.2.1)
    have eb : b = ceilMult lpimin g := le_antisymm (sb.2.2 _ c1.1 c1.2.1) (c1.2.2 _ sb.1 sb.2.1)
    unfold boundsReference boundsDefault
    rw [ha, hb, ea, eb]; rfl
  · unfold boundsStrong boundsDefault
    by_cases h : lpimin > floorMult lpimax g
    · rw [if_pos h, if_neg]
      have := c1.2.1; omega
    · rw [if_neg h]

example : boundsDefault (-7) 5 3 = some 3 ∧ boundsDefault 4 5 3 = none ∧ floorMult (-7) 3 = -9 ∧ ceilMult (-7) 3 = -6 := by
  decide

/-! ### A covered graph (hypotheses of C15, C16, C18 are met) -/

namespace Example
/-- Two-phase producer. -/
def A : KTask := ⟨0, [1, 2], [], 1, 2⟩
/-- Single-phase consumer, three executions per graph iteration. -/
def B : KTask := ⟨1, [2], [], 1, 3⟩
def fwd : KChannel := ⟨1, [1, 2], [1], [], [], 0, 1⟩
def bwd : KChannel := ⟨2, [1], [1, 2], [], [], 4, 1⟩
def G : KGraph := ⟨[(A, 1), (B, 3)], [(fwd, (A, 1), (B, 3)), (bwd, (B, 3), (A, 1))]⟩

theorem A_ok : TaskOK A 1 := ⟨by decide, rfl, by decide, by decide, by decide, by decide⟩
theorem B_ok : TaskOK B 3 := ⟨by decide, rfl, by decide, by decide, by decide, by decide⟩
theorem fwd_ok : ChannelOK fwd A B :=
  ⟨rfl, rfl, rfl, rfl, by decide, by decide, by decide, by decide, by decide, by decide, by decide, by decide, by decide⟩
theorem bwd_ok : ChannelOK bwd B A :=
  ⟨rfl, rfl, rfl, rfl, by decide, by decide, by decide, by decide, by decide, by decide, by decide, by decide, by decide⟩
theorem G_ok : GraphOK G := by
  refine ⟨?_, ?_⟩
  · intro tk h
    simp only [G, List.mem_cons, List.not_mem_nil, or_false] at h
    rcases h with rfl | rfl
    · exact A_ok
    · exact B_ok
  · intro c h
    simp only [G, List.mem_cons, List.not_mem_nil, or_false] at h
    rcases h with rfl | rfl
    · exact ⟨by simp [G], by simp [G], fwd_ok⟩
    · exact ⟨by simp [G], by simp [G], bwd_ok⟩

/-- Starting times: the two phases of A at 0 and 1, the three executions of B at 1, 3, 5. -/
def S : Event → ℚ := fun e => if e.task = 0 then (if e.phase = 1 then 0 else 1) else
  (if e.iter = 1 then 1 else if e.iter = 2 then 3 else 5)

/-- With period 7 these times satisfy every generated constraint, hence the infinite schedule is valid. -/
theorem valid : ValidSchedule G S 7 := by
  obtain ⟨cs, h, e⟩ := C15_C16_graph_iff G_ok S (Ω := 7) (by norm_num)
  rw [← e]
  have h' : eventGraph G = some cs := h
  have : ∀ c ∈ (eventGraph G).getD [], Satisfies S 7 c := by
    unfold Satisfies
    decide +kernel
  rw [h'] at this
  simpa using this
end Example

/-! ### Reentrant tasks are not covered by the generated constraints -/

namespace Reentrant
/-- Producer with unlimited reentrancy (factor 0) and phases of different durations. -/
def P : KTask := ⟨0, [100, 0], [], 0, 2⟩
def C : KTask := ⟨1, [1000], [], 1, 1⟩
def ch : KChannel := ⟨1, [1, 1], [2], [], [], 0, 1⟩
def G : KGraph := ⟨[(P, 1), (C, 1)], [(ch, (P, 1), (C, 1))]⟩
end Reentrant

/-- **C15, reentrant producer**: with a reentrancy factor of 0 the generated constraints are not sufficient. Here all
constraints hold for the starting times 0 and the period 1000, but the consumer starts at time 0 and needs two tokens
while the first phase of the producer completes at time 100. -/
theorem C15_reentrant_producer_counterexample :
    ∃ cs, eventGraph Reentrant.G = some cs ∧ (∀ c ∈ cs, Satisfies (fun _ => 0) 1000 c) ∧
      ChannelOK Reentrant.ch Reentrant.P Reentrant.C ∧
      ¬ ChannelSafe (fun _ => 0) 1000 Reentrant.ch (Reentrant.P, 1) (Reentrant.C, 1) := by
  have h1 : eventGraph Reentrant.G ≠ none := by decide +kernel
  obtain ⟨cs, hcs⟩ := Option.ne_none_iff_exists'.mp h1
  refine ⟨cs, hcs, ?_, ?_, ?_⟩
  · have : ∀ c ∈ (eventGraph Reentrant.G).getD [], Satisfies (fun _ => 0) 1000 c := by
      unfold Satisfies
      decide +kernel
    rw [hcs] at this
    simpa using this
  · exact ⟨rfl, rfl, rfl, rfl, by decide, by decide, by decide, by decide, by decide, by decide, by decide,
      by decide, by decide⟩
  · intro H
    obtain ⟨Q, hQ, hsum⟩ := H 0 {0} (by simp [execStart])
    have hsub : Q ⊆ {1} := by
      intro k hk
      have := hQ k hk
      unfold execEnd execStart KTask.dur Reentrant.P at this
      simp only [List.length_cons, List.length_nil] at this
      have hk0 : k / 2 = 0 := by
        by_contra hne
        have h1 : (1 : ℚ) ≤ ((k / 2 : ℕ) : ℚ) := by exact_mod_cast Nat.one_le_iff_ne_zero.mpr hne
        have h2 : (0 : ℚ) ≤ [100, 0].getD (k % 2) 0 := by
          rcases Nat.mod_two_eq_zero_or_one k with h | h <;> rw [h] <;> norm_num
        norm_num at this h2
        linarith
      have hk1 : k % 2 = 1 := by
        rcases Nat.mod_two_eq_zero_or_one k with h | h
        · norm_num [h, hk0] at this
        · exact h
      simp; omega
    have h1 : ∑ k ∈ Q, rate Reentrant.ch.inPhases k ≤ ∑ k ∈ ({1} : Finset ℕ), rate Reentrant.ch.inPhases k := by
      refine Finset.sum_le_sum_of_subset_of_nonneg hsub (fun i hi _ => ?_)
      have : i = 1 := by simpa using hi
      subst this; decide
    have e1 : ∑ k ∈ ({1} : Finset ℕ), rate Reentrant.ch.inPhases k = 1 := by decide
    have e2 : ∑ l ∈ ({0} : Finset ℕ), rate Reentrant.ch.outPhases l = 2 := by decide
    have e3 : Reentrant.ch.preload = 0 := rfl
    omega

namespace ReentrantC
def P : KTask := ⟨0, [1], [], 1, 1⟩
/-- Consumer with unlimited reentrancy and two phases. -/
def C : KTask := ⟨1, [1, 1], [], 0, 2⟩
def ch : KChannel := ⟨1, [2], [1, 1], [], [], 1, 1⟩
def G : KGraph := ⟨[(P, 1), (C, 1)], [(ch, (P, 1), (C, 1))]⟩
/-- Producer at 100, consumer phases at 0 and 101. -/
def S : Event → ℚ := fun e => if e.task = 0 then 100 else if e.phase = 1 then 0 else 101
end ReentrantC

/-- **C15, reentrant consumer**: no constraint orders the last phase of one period of the consumer before the first
phase of the next. Here all constraints hold, but at time 1 two executions of the first consumer phase have
started with a single initial token, and the producer completes at 101. -/
theorem C15_reentrant_consumer_counterexample :
    ∃ cs, eventGraph ReentrantC.G = some cs ∧ (∀ c ∈ cs, Satisfies ReentrantC.S 1 c) ∧
      ChannelOK ReentrantC.ch ReentrantC.P ReentrantC.C ∧
      ¬ ChannelSafe ReentrantC.S 1 ReentrantC.ch (ReentrantC.P, 1) (ReentrantC.C, 1) := by
  have h1 : eventGraph ReentrantC.G ≠ none := by decide +kernel
  obtain ⟨cs, hcs⟩ := Option.ne_none_iff_exists'.mp h1
  refine ⟨cs, hcs, ?_, ?_, ?_⟩
  · have : ∀ c ∈ (eventGraph ReentrantC.G).getD [], Satisfies ReentrantC.S 1 c := by
      unfold Satisfies
      decide +kernel
    rw [hcs] at this
    simpa using this
  · exact ⟨rfl, rfl, rfl, rfl, by decide, by decide, by decide, by decide, by decide, by decide, by decide,
      by decide, by decide⟩
  · intro H
    obtain ⟨Q, hQ, hsum⟩ := H 1 {0, 2} (by
      intro l hl
      simp only [Finset.mem_insert, Finset.mem_singleton] at hl
      rcases hl with rfl | rfl <;> norm_num [execStart, ReentrantC.S, ReentrantC.C])
    have hsub : Q = ∅ := by
      rw [Finset.eq_empty_iff_forall_notMem]
      intro k hk
      have := hQ k hk
      unfold execEnd execStart KTask.dur ReentrantC.P ReentrantC.S at this
      norm_num [Nat.mod_one] at this
      have h0 : (0 : ℚ) ≤ (k : ℚ) := by positivity
      linarith
    subst hsub
    have e2 : ∑ l ∈ ({0, 2} : Finset ℕ), rate ReentrantC.ch.outPhases l = 2 := by decide
    have e3 : ReentrantC.ch.preload = 1 := rfl
    rw [e2, e3] at hsum
    simp at hsum

end Kiter
