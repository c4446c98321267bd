import Verif.Model.BufferExploration
import Verif.Spec.Buffers
import Verif.Props.KIter
import Verif.Props.DSE
import Verif.Props.ChannelSize
import Verif.Lemmas.Compose

set_option autoImplicit false

namespace Kiter
open Finset

/-! ### Feedback channels are capacities -/

theorem NeverShort.mono {f v : ℕ → Int} {p p' : Int} {e t : ℕ → ℚ} (h : NeverShort f v p e t) (hp : p ≤ p') :
    NeverShort f v p' e t := by
  intro x C hC
  obtain ⟨P, h1, h2⟩ := h x C hC
  exact ⟨P, h1, by linarith⟩

/-- The capacities described by quantities of the extended graph. -/
def caps {B : BaseGraph} (q : Fin (B.m + B.m) → Int) : Fin B.m → Int := fun i => q (Fin.natAdd B.m i)

theorem bounded_channels {B : BaseGraph} {q : Fin (B.m + B.m) → Int} {c : BChannel} :
    c ∈ (B.bounded q).channels ↔ c ∈ B.channels ∨ ∃ i, c = feedback B i (caps q i) := by
  unfold BaseGraph.bounded caps
  simp only [List.mem_append, List.mem_map, List.mem_finRange, true_and, eq_comm]

theorem bounded_valid {B : BaseGraph} {q : Fin (B.m + B.m) → Int} {σ : Int → ℕ → ℚ} :
    ValidGen (B.bounded q) σ ↔ BoundedSchedule B (caps q) σ := by
  constructor
  · intro h
    exact ⟨⟨h.nonneg, h.noOverlap, fun c hc => h.channels c (bounded_channels.2 (.inl hc))⟩,
      fun i => h.channels _ (bounded_channels.2 (.inr ⟨i, rfl⟩))⟩
  · intro h
    refine ⟨h.valid.nonneg, h.valid.noOverlap, fun c hc => ?_⟩
    rcases bounded_channels.1 hc with hc | ⟨i, rfl⟩
    · exact h.valid.channels c hc
    · exact h.room i

theorem bounded_periods {B : BaseGraph} {q : Fin (B.m + B.m) → Int} :
    SustainablePeriods (B.bounded q) = {Ω | ∃ σ, BoundedSchedule B (caps q) σ ∧ Sustains B σ Ω} := by
  ext Ω
  constructor
  · rintro ⟨σ, h1, h2⟩; exact ⟨σ, bounded_valid.1 h1, h2⟩
  · rintro ⟨σ, h1, h2⟩; exact ⟨σ, bounded_valid.2 h1, h2⟩

theorem bounded_ok {B : BaseGraph} (hB : BaseOK B) (hids : ∀ c ∈ B.channels, c.1.id ≤ B.m) {q : Fin (B.m + B.m) → Int}
    (hq : ∀ i, B.channels[i].1.preload ≤ caps q i) : BaseOK (B.bounded q) where
  ids := hB.ids
  tasks := hB.tasks
  multiple := hB.multiple
  channels c hc := by
    rcases bounded_channels.1 hc with hc | ⟨i, rfl⟩
    · exact hB.channels c hc
    · obtain ⟨h1, h2, h3⟩ := hB.channels B.channels[i] (List.getElem_mem _)
      refine ⟨h2, h1, rfl, rfl, h3.dstPhases, h3.srcPhases, h3.outNonneg, h3.inNonneg, h3.outPos, h3.inPos, h3.gcdPos,
        h3.gcdOut, h3.gcdIn, ?_, h3.balance.symm⟩
      have := hq i
      show 0 ≤ caps q i - B.channels[i].1.preload
      omega
  channelIds c hc e he hid := by
    rcases bounded_channels.1 hc with hc | ⟨i, rfl⟩ <;> rcases bounded_channels.1 he with he | ⟨j, rfl⟩
    · exact hB.channelIds c hc e he hid
    · have h1 := hids c hc
      have : c.1.id = (B.m : Int) + 1 + j.val := hid
      omega
    · have h1 := hids e he
      have : (B.m : Int) + 1 + i.val = e.1.id := hid
      omega
    · have : (B.m : Int) + 1 + i.val = (B.m : Int) + 1 + j.val := hid
      have : i = j := Fin.ext (by omega)
      rw [this]

/-! ### The analysis -/

/-- What an answer of the analysis is: a circuit of the event graph of some periodicity vector that treats the tasks of the
circuit in whole blocks, and which is optimal in this event graph. -/
structure Critical (B : BaseGraph) (th : ℚ) (cc : List BChannel) (K : Int → ℕ) (cs p : List EvConstraint) (G : ℕ) : Prop where
  k : KOk B K
  graph : GraphFor B K cs
  answer : CycleAnswer cs th p
  edges : cc = criticalEdges B p
  pos : criticalEdges B p ≠ [] → 0 < G
  blocks : ∀ e ∈ criticalEdges B p, G ∣ reps e.2.1 ∧ reps e.2.1 / G ∣ K e.2.1.id

theorem cyclesLoop_critical {B : BaseGraph} (hB : BaseOK B) (solve : List EvConstraint → Option (ℚ × List EvConstraint))
    (hsolve : ∀ K cs th p, KOk B K → GraphFor B K cs → solve cs = some (th, p) → CycleAnswer cs th p)
    (fuel : ℕ) (K : Int → ℕ) (hK : KOk B K) (cs : List EvConstraint) (hcs : GraphFor B K cs)
    (th : ℚ) (p : List EvConstraint) (hp : CycleAnswer cs th p) (r : ℚ × List BChannel)
    (hr : cyclesLoop solve B fuel K cs (criticalEdges B p) th = some (some r)) :
    ∃ K cs p G, Critical B r.1 r.2 K cs p G := by
  induction fuel generalizing K cs th p with
  | zero => simp [cyclesLoop] at hr
  | succ fuel ih =>
    obtain ⟨K', ch, h1, h2⟩ := updateEventGraph_spec hB hK (criticalEdges_sub B p) hcs
    obtain ⟨g, K1, ch1, u1, u2, u3, -, u4, u5, u6, u7, -, -⟩ := updateVector_spec hB (criticalEdges B p) (criticalEdges_sub B p) K hK
    rw [h1] at u1; cases u1
    rcases h2 with ⟨rfl, h⟩ | ⟨rfl, cs', h, hcs'⟩
    · have e : cyclesLoop solve B (fuel + 1) K cs (criticalEdges B p) th = some (some (th, criticalEdges B p)) := by
        unfold cyclesLoop; rw [h]; rfl
      rw [e] at hr; cases hr
      have hsame : ∀ i, K' i = K i := by
        intro i
        by_contra hne
        have := u7.mpr ⟨i, hne⟩
        simp at this
      refine ⟨K, cs, p, g, hK, hcs, hp, rfl, u2, fun e he => ⟨u3 e he, ?_⟩⟩
      rw [← hsame]; exact u6 e he
    · cases hs : solve cs' with
      | none =>
        have e : cyclesLoop solve B (fuel + 1) K cs (criticalEdges B p) th = none := by
          unfold cyclesLoop; rw [h]; simp [hs]
        rw [e] at hr; simp at hr
      | some q =>
        have hq : CycleAnswer cs' q.1 q.2 := hsolve K' cs' q.1 q.2 u4 hcs' hs
        by_cases hsame : sameset (criticalEdges B q.2) (criticalEdges B p) = true
        · have e : cyclesLoop solve B (fuel + 1) K cs (criticalEdges B p) th = some (some (q.1, criticalEdges B q.2)) := by
            unfold cyclesLoop; rw [h]; simp [hs, hsame]
          rw [e] at hr; cases hr
          have hsub := sameset_sub hB (criticalEdges_sub B q.2) (criticalEdges_sub B p) hsame
          refine ⟨K', cs', q.2, g, u4, hcs', hq, rfl, fun hne => u2 ?_, fun e he => ⟨u3 e (hsub e he), u6 e (hsub e he)⟩⟩
          obtain ⟨e, he⟩ := List.exists_mem_of_ne_nil _ hne
          exact List.ne_nil_of_mem (hsub e he)
        · have e : cyclesLoop solve B (fuel + 1) K cs (criticalEdges B p) th =
              cyclesLoop solve B fuel K' cs' (criticalEdges B q.2) q.1 := by
            conv_lhs => unfold cyclesLoop
            rw [h]; simp [hs, hsame]
          rw [e] at hr
          exact ih K' u4 cs' hcs' q.1 q.2 hq hr

theorem cycles_critical {B : BaseGraph} (hB : BaseOK B) (solve : List EvConstraint → Option (ℚ × List EvConstraint))
    (hsolve : ∀ K cs th p, KOk B K → GraphFor B K cs → solve cs = some (th, p) → CycleAnswer cs th p)
    (fuel : ℕ) (r : ℚ × List BChannel) (hr : cycles solve B fuel = some (some r)) :
    ∃ K cs p G, Critical B r.1 r.2 K cs p G := by
  obtain ⟨cs, hcs⟩ := eventGraph_total (withK_ok hB (K := fun _ => 1) (fun _ _ => Nat.one_pos))
  cases hs : solve cs with
  | none =>
    have e : cycles solve B fuel = none := by unfold cycles; simp [hcs, hs]
    rw [e] at hr; simp at hr
  | some q =>
    have hgf : GraphFor B (fun _ => 1) cs := ⟨cs, hcs, fun _ => Iff.rfl⟩
    have hq : CycleAnswer cs q.1 q.2 := hsolve _ cs q.1 q.2 kOk_one hgf hs
    by_cases hc : (criticalEdges B q.2).isEmpty = true
    · have e : cycles solve B fuel = some (some (q.1, criticalEdges B q.2)) := by
        unfold cycles; simp only [hcs, hs, Option.bind_eq_bind, Option.bind_some, hc, if_true]; rfl
      rw [e] at hr; cases hr
      have hnil := List.isEmpty_iff.mp hc
      exact ⟨_, cs, q.2, 0, kOk_one, hgf, hq, rfl, fun h => absurd hnil h, by rw [hnil]; simp⟩
    · have e : cycles solve B fuel = cyclesLoop solve B fuel (fun _ => 1) cs (criticalEdges B q.2) q.1 := by
        unfold cycles; simp only [hcs, hs, Option.bind_eq_bind, Option.bind_some]; rw [if_neg hc]
      rw [e] at hr
      exact cyclesLoop_critical hB solve hsolve fuel _ kOk_one cs hgf q.1 q.2 hq r hr

/-- What the answer says about the graph. -/
theorem Critical.verdict {B : BaseGraph} (hB : BaseOK B) {th : ℚ} {cc : List BChannel} {K : Int → ℕ} {cs p : List EvConstraint}
    {G : ℕ} (h : Critical B th cc K cs p G) :
    (0 < th → IsLeast (SustainablePeriods B) (1 / th)) ∧ (th ≤ 0 → ¬ ∃ σ, ValidGen B σ) :=
  have := Kiter.verdict hB h.k.1 h.graph h.answer h.pos h.blocks
  ⟨fun ht => (this.1 ht).1, this.2⟩

/-- Another graph with the same tasks that has all critical channels is not faster: `E` relates channels of the two graphs
that may differ in their initial tokens only. -/
theorem Critical.transfer {B B' : BaseGraph} (hB : BaseOK B) (hB' : BaseOK B') (htasks : B'.tasks = B.tasks) {th : ℚ}
    {cc : List BChannel} {K : Int → ℕ} {cs p : List EvConstraint} {G : ℕ} (h : Critical B th cc K cs p G)
    (hkeep : ∀ c ∈ cc, c ∈ B'.channels)
    (hsame : ∀ c' ∈ B'.channels, ∃ c ∈ B.channels, c.1.id = c'.1.id ∧ c.2.1 = c'.2.1) :
    (0 < th → ∀ Ω ∈ SustainablePeriods B', 1 / th ≤ Ω) ∧ (th ≤ 0 → ¬ ∃ σ, ValidGen B' σ) := by
  have hK : KOk B' K := ⟨h.k.1, by rw [htasks]; exact h.k.2⟩
  obtain ⟨cs', hcs'⟩ := eventGraph_total (withK_ok hB' (K := K) (fun _ _ => h.k.1 _))
  have hgf : GraphFor B' K cs' := ⟨cs', hcs', fun _ => Iff.rfl⟩
  obtain ⟨cs0, hcs0, hmem⟩ := h.graph
  have hp : ∀ c ∈ p, c ∈ cs → c ∈ cs' := by
    intro c hcp hc
    rcases (eventGraph_mem hcs0 c).mp ((hmem c).mp hc) with ⟨t, ht, x, hx, hcx⟩ | ⟨e, he, x, hx, hcx⟩
    · exact (eventGraph_mem hcs' c).mpr (.inl ⟨t, by rw [htasks]; exact ht, x, hx, hcx⟩)
    · refine (eventGraph_mem hcs' c).mpr (.inr ⟨e, hkeep e ?_, x, hx, hcx⟩)
      rw [h.edges]
      unfold criticalEdges
      rw [List.mem_filter, List.any_eq_true]
      refine ⟨he, c, hcp, ?_⟩
      obtain ⟨x', hx', hend⟩ := channel_ends hB he (Kj := K e.2.2.id) (h.k.1 e.2.1.id)
      rw [hx] at hx'; cases hx'
      simpa using (hend c hcx).2.2
  have hwalk : ∀ (l : List EvConstraint) (u v : Event), (∀ c ∈ l, c ∈ p) → IsWalk cs u l v → IsWalk cs' u l v := by
    intro l
    induction l with
    | nil => intro u v _ hw; exact hw
    | cons c l ih =>
      intro u v hl ⟨a, b, d⟩
      exact ⟨hp c (hl c (by simp)) a, b, ih _ _ (fun x hx => hl x (by simp [hx])) d⟩
  have hcr : CircuitRatio cs' th p := by
    obtain ⟨u, hu⟩ := h.answer.circuit
    exact ⟨⟨u, hwalk p u u (fun _ h => h) hu⟩, h.answer.posD, h.answer.ratio⟩
  have hcrit : ∀ c' ∈ criticalEdges B' p, ∃ c ∈ criticalEdges B p, c.2.1 = c'.2.1 := by
    intro c' hc'
    unfold criticalEdges at hc' ⊢
    rw [List.mem_filter, List.any_eq_true] at hc'
    obtain ⟨hc', x, hx, hid⟩ := hc'
    obtain ⟨c, hc, hid', hsrc⟩ := hsame c' hc'
    exact ⟨c, List.mem_filter.2 ⟨hc, List.any_eq_true.2 ⟨x, hx, by rw [hid']; exact hid⟩⟩, hsrc⟩
  have hG0 : criticalEdges B' p ≠ [] → 0 < G := by
    intro hne
    obtain ⟨c', hc'⟩ := List.exists_mem_of_ne_nil _ hne
    obtain ⟨c, hc, -⟩ := hcrit c' hc'
    exact h.pos (List.ne_nil_of_mem hc)
  have hG : ∀ e ∈ criticalEdges B' p, G ∣ reps e.2.1 ∧ reps e.2.1 / G ∣ K e.2.1.id := by
    intro c' hc'
    obtain ⟨c, hc, hsrc⟩ := hcrit c' hc'
    rw [← hsrc]; exact h.blocks c hc
  exact ⟨fun ht Ω hΩ => lower_bound hB' hK.1 hgf hcr ht hG0 hG hΩ, fun ht => no_schedule hB' hK.1 hgf hcr ht hG0 hG⟩

/-! ### Large capacities -/

theorem rate_le_sum {v : List Int} (hv : ∀ r ∈ v, 0 ≤ r) (k : ℕ) : 0 ≤ rate v k ∧ rate v k ≤ v.sum := by
  unfold rate
  rw [List.getD_eq_getElem?_getD]
  cases hx : v[k % v.length]? with
  | none => exact ⟨le_rfl, List.sum_nonneg hv⟩
  | some r => exact ⟨hv r (List.mem_of_getElem? hx), List.single_le_sum hv r (List.mem_of_getElem? hx)⟩

theorem cum_add_le {v : List Int} (hv : ∀ r ∈ v, 0 ≤ r) (a b : ℕ) : Sim.cum v (a + b) ≤ Sim.cum v a + b * v.sum := by
  induction b with
  | zero => simp
  | succ b ih =>
    have h1 : Sim.cum v (a + (b + 1)) = Sim.cum v (a + b) + rate v (a + b) := by
      unfold Sim.cum; rw [← add_assoc, sum_range_succ]
    have h2 := (rate_le_sum hv (a + b)).2
    rw [h1]; push_cast; linarith

/-- Two tasks that keep their pace need only a bounded amount of initial tokens. -/
theorem tokens_suffice {f v : List Int} (hf : ∀ r ∈ f, 0 ≤ r) (hv : ∀ r ∈ v, 0 ≤ r) (hfl : 0 < f.length) (hvl : 0 < v.length)
    (hfs : 0 < f.sum) {ni nj : ℤ} (hni : 0 < ni) (hnj : 0 < nj)
    (hbal : f.sum * ni * v.length = v.sum * nj * f.length) {Ω A A' : ℚ} (hΩ : 0 < Ω) {e t : ℕ → ℚ}
    (he : ∀ k : ℕ, e k ≤ Ω * k / ni + A) (ht : ∀ k : ℕ, Ω * k / nj - A' ≤ t k) :
    ∃ L : Int, ∀ p, L ≤ p → NeverShort (rate f) (rate v) p e t := by
  obtain ⟨D, hD⟩ := Sim.enough_produced hf hv hfl hvl hfs hni hnj hbal
  have hi : (0 : ℚ) < ni := by exact_mod_cast hni
  have hj : (0 : ℚ) < nj := by exact_mod_cast hnj
  obtain ⟨c, hc⟩ := exists_nat_gt ((Ω * (1 / nj + D) + A + A') * nj / Ω)
  have hvs : 0 ≤ v.sum := List.sum_nonneg hv
  have hc' : Ω * (1 / nj + D) + A + A' ≤ Ω * c / nj := by
    rw [div_lt_iff₀ hΩ] at hc
    rw [le_div_iff₀ hj]; linarith
  refine ⟨c * v.sum, fun p hp x C hC => ?_⟩
  rcases C.eq_empty_or_nonempty with rfl | hne
  · refine ⟨∅, by simp, ?_⟩
    have : 0 ≤ (c : Int) * v.sum := mul_nonneg (Int.natCast_nonneg c) hvs
    simp only [sum_empty, add_zero]; omega
  set m := C.max' hne with hm
  have hCm : ∑ l ∈ C, rate v l ≤ Sim.cum v (m + 1) :=
    Sim.sum_le_cum hv fun l hl => Nat.lt_succ_of_le (C.le_max' l hl)
  by_cases hmc : m + 1 ≤ c
  · refine ⟨∅, by simp, ?_⟩
    have h1 := cum_add_le hv 0 (m + 1)
    rw [zero_add] at h1
    have h2 : ((m + 1 : ℕ) : Int) * v.sum ≤ c * v.sum := mul_le_mul_of_nonneg_right (by exact_mod_cast hmc) hvs
    have h3 : Sim.cum v 0 = 0 := by simp [Sim.cum]
    simp only [sum_empty, add_zero]
    linarith
  · obtain ⟨n, hn1, hn2⟩ := hD (m + 1 - c)
    refine ⟨range n, fun k hk => ?_, ?_⟩
    · have hkn : (k : ℚ) ≤ n := by exact_mod_cast (mem_range.1 hk).le
      have h1 := he k
      have h2 : Ω * k / ni ≤ Ω * ((n : ℚ) / ni) := by
        rw [mul_div_assoc]
        exact mul_le_mul_of_nonneg_left (div_le_div_of_nonneg_right hkn hi.le) hΩ.le
      have h3 : Ω * ((n : ℚ) / ni) ≤ Ω * (((m + 1 - c : ℕ) : ℚ) / nj + D) := mul_le_mul_of_nonneg_left hn1 hΩ.le
      have h4 : ((m + 1 - c : ℕ) : ℚ) = m + 1 - c := by
        rw [Nat.cast_sub (by omega)]; push_cast; ring
      rw [h4] at h3
      have h5 := ht m
      have h6 := hC m (C.max'_mem hne)
      have h7 : Ω * (((m : ℚ) + 1 - c) / nj + D) = Ω * m / nj + Ω * (1 / nj + D) - Ω * c / nj := by field_simp; ring
      linarith
    · have h1 := cum_add_le hv (m + 1 - c) c
      rw [Nat.sub_add_cancel (by omega)] at h1
      have h2 : Sim.cum f n = ∑ k ∈ range n, rate f k := rfl
      rw [← h2]
      linarith

/-! ### Only whole steps matter -/

theorem rate_dvd {g : Int} {v : List Int} (hv : ∀ r ∈ v, g ∣ r) (k : ℕ) : g ∣ rate v k := by
  unfold rate
  rw [List.getD_eq_getElem?_getD]
  cases hx : v[k % v.length]? with
  | none => exact dvd_zero g
  | some r => exact hv r (List.mem_of_getElem? hx)

theorem neverShort_round {f v : List Int} {g : Int} (hg : 0 < g) (hf : ∀ r ∈ f, g ∣ r) (hv : ∀ r ∈ v, g ∣ r) {p p' : Int}
    (hp : p / g = p' / g) {e t : ℕ → ℚ} (h : NeverShort (rate f) (rate v) p e t) :
    NeverShort (rate f) (rate v) p' e t := by
  intro x C hC
  obtain ⟨P, h1, h2⟩ := h x C hC
  refine ⟨P, h1, ?_⟩
  obtain ⟨a, ha⟩ : g ∣ ∑ l ∈ C, rate v l := dvd_sum fun l _ => rate_dvd hv l
  obtain ⟨b, hb⟩ : g ∣ ∑ k ∈ P, rate f k := dvd_sum fun l _ => rate_dvd hf l
  rw [ha, hb] at h2 ⊢
  have h3 : a - b ≤ p / g := by
    rw [Int.le_ediv_iff_mul_le hg]; linarith [mul_comm g (a - b), mul_sub g a b]
  rw [hp, Int.le_ediv_iff_mul_le hg] at h3
  linarith [mul_comm g (a - b), mul_sub g a b]

/-! ### Lower bounds of the capacities -/

theorem minChannelLoop_mem (inV outV : List Int) (t : Int) (k i : ℕ) (best r : Int)
    (h : minChannelLoop inV outV t k i best = some r) :
    r = best ∨ ∃ p ∈ inV, ∃ c ∈ outV, r = channelBound p c t := by
  induction k generalizing i best with
  | zero => simp only [minChannelLoop, Option.some.injEq] at h; exact .inl h.symm
  | succ k ih =>
    unfold minChannelLoop at h
    split at h
    · simp at h
    · simp only [Option.bind_eq_bind] at h
      obtain ⟨p, hp, h⟩ := Option.bind_eq_some_iff.mp h
      obtain ⟨c, hc, h⟩ := Option.bind_eq_some_iff.mp h
      rcases ih _ _ h with h | h
      · split at h
        · exact .inr ⟨p, List.mem_of_getElem? hp, c, List.mem_of_getElem? hc, h⟩
        · exact .inl h
      · exact .inr h

theorem minSize_spec {inV outV : List Int} {t r : Int} (h : findMinimumChannelSz inV outV t = some r) (hr : r < 2147483647) :
    ∃ p ∈ inV, ∃ c ∈ outV, r = channelBound p c t := by
  rcases minChannelLoop_mem _ _ _ _ _ _ _ h with h | h
  · omega
  · exact h

theorem channelBound_spec {p c t g : Int} (ht : 0 ≤ t) (hp : g ∣ p) (hc : g ∣ c) :
    t ≤ channelBound p c t ∧ g ∣ channelBound p c t - t := by
  unfold channelBound
  have hg : g ∣ (Int.gcd p c : Int) := Int.dvd_coe_gcd hp hc
  by_cases h0 : Int.gcd p c = 0
  · obtain ⟨rfl, rfl⟩ := Int.gcd_eq_zero_iff.1 h0
    have : ¬ t < 0 := by omega
    simp [this]
  · simp only [h0, ne_eq, not_false_eq_true, if_true]
    split
    · rename_i h
      refine ⟨le_of_lt h, ?_⟩
      have e : t.tmod (Int.gcd p c) = t - (Int.gcd p c : Int) * (t / (Int.gcd p c)) := by
        rw [Int.tmod_eq_emod_of_nonneg ht]; exact Int.emod_def ..
      rw [e]
      have : p + c - (Int.gcd p c : Int) + (t - (Int.gcd p c : Int) * (t / (Int.gcd p c))) - t
          = p + c - (Int.gcd p c : Int) * (1 + t / (Int.gcd p c)) := by ring
      rw [this]
      exact dvd_sub (dvd_add hp hc) (hg.mul_right _)
    · exact ⟨le_rfl, by simp⟩

/-- With one rate on each side and positive durations, a channel needs at least the computed capacity. -/
theorem capacity_needed {p c t w : Int} (hp : 0 < p) (hc : 0 < c) (ht : 0 ≤ t) {s es z ez : ℕ → ℚ}
    (hs : ∀ k, s k < es k ∧ es k ≤ s (k + 1)) (hz : ∀ k, z k < ez k ∧ ez k ≤ z (k + 1)) (hz0 : 0 ≤ z 0)
    (htok : NeverShort (fun _ => p) (fun _ => c) t es z) (hroom : NeverShort (fun _ => c) (fun _ => p) (w - t) ez s) :
    channelBound p c t ≤ w := by
  have hms : Monotone s := monotone_nat_of_le_succ fun k => (hs k).1.le.trans (hs k).2
  have hmz : Monotone z := monotone_nat_of_le_succ fun k => (hz k).1.le.trans (hz k).2
  have htw : t ≤ w := by
    obtain ⟨P, h1, h2⟩ := hroom (-1) ∅ (by simp)
    have : P = ∅ := by
      rw [eq_empty_iff_forall_notMem]
      intro l hl
      have a := h1 l hl
      have b := hmz (Nat.zero_le l)
      have d := (hz l).1
      linarith
    rw [this] at h2
    simp at h2
    omega
  have hgn : Int.gcd p c ≠ 0 := by intro h; rw [Int.gcd_eq_zero_iff] at h; omega
  unfold channelBound
  simp only [hgn, ne_eq, not_false_eq_true, if_true]
  rw [Int.tmod_eq_emod_of_nonneg ht]
  obtain ⟨a, b, hab⟩ : ∃ a b : Int, (Int.gcd p c : Int) = p * a + c * b := ⟨_, _, Int.gcd_eq_gcd_ab p c⟩
  generalize hg : (Int.gcd p c : Int) = g at *
  have hg0 : 0 < g := by rw [← hg]; exact_mod_cast Nat.pos_of_ne_zero hgn
  have hdiv := Int.emod_add_mul_ediv t g
  split
  swap
  · exact htw
  by_contra hlt
  push Not at hlt
  -- executions k of the producer and y-1 of the consumer that wait for each other
  set Z : Int := g * (t / g + 1) with hZ
  have hZt : t < Z := by have := Int.emod_lt_of_pos t hg0; rw [hZ]; linarith [mul_add g (t / g) 1]
  have hZw : Z < p + c + t - w := by rw [hZ]; linarith [mul_add g (t / g) 1]
  obtain ⟨k, y, hky⟩ : ∃ k y : ℕ, (y : Int) * c - k * p = Z := by
    set z' := t / g + 1 with hz'
    set N : Int := |b * z'| + |a * z'| with hN
    have hN0 : 0 ≤ N := by positivity
    have h1 : 0 ≤ b * z' + p * N := by
      have h3 := neg_abs_le (b * z'); have h4 := abs_nonneg (a * z')
      have h5 : N ≤ p * N := le_mul_of_one_le_left hN0 hp
      linarith
    have h2 : 0 ≤ -(a * z') + c * N := by
      have h3 := le_abs_self (a * z'); have h4 := abs_nonneg (b * z')
      have h5 : N ≤ c * N := le_mul_of_one_le_left hN0 hc
      linarith
    refine ⟨(-(a * z') + c * N).toNat, (b * z' + p * N).toNat, ?_⟩
    rw [Int.toNat_of_nonneg h1, Int.toNat_of_nonneg h2, hZ, hab]
    ring
  obtain ⟨P, hP1, hP2⟩ := hroom (s k) (range (k + 1)) fun l hl => hms (by simpa [Nat.lt_succ_iff] using hl)
  simp only [sum_const, card_range, nsmul_eq_mul] at hP2
  push_cast at hP2
  have hPy : y ≤ P.card := by
    by_contra hcon
    have : (P.card : Int) + 1 ≤ y := by exact_mod_cast Nat.lt_of_not_le hcon
    nlinarith
  have hy0 : 0 < y := by
    by_contra h0
    have : y = 0 := by omega
    rw [this] at hky
    have : 0 ≤ (k : Int) * p := by positivity
    push_cast at hky
    linarith
  obtain ⟨l, hl, hly⟩ : ∃ l ∈ P, y ≤ l + 1 := by
    by_contra hcon
    push Not at hcon
    have : P ⊆ range (y - 1) := fun l hl => mem_range.2 (by have := hcon l hl; omega)
    have := card_le_card this
    rw [card_range] at this
    omega
  obtain ⟨Q, hQ1, hQ2⟩ := htok (z l) (range y) fun j hj => hmz (by have := mem_range.1 hj; omega)
  simp only [sum_const, card_range, nsmul_eq_mul] at hQ2
  have hQk : k + 1 ≤ Q.card := by
    by_contra hcon
    have : (Q.card : Int) ≤ k := by exact_mod_cast Nat.le_of_lt_succ (Nat.lt_of_not_le hcon)
    nlinarith
  obtain ⟨k', hk', hkk⟩ : ∃ k' ∈ Q, k ≤ k' := by
    by_contra hcon
    push Not at hcon
    have : Q ⊆ range k := fun l hl => mem_range.2 (hcon l hl)
    have := card_le_card this
    rw [card_range] at this
    omega
  have e1 := hQ1 k' hk'
  have e2 := hP1 l hl
  have e3 := hms hkk
  have e4 := (hs k').1
  have e5 := (hz l).1
  linarith

end Kiter
