/-
Properties C19, C20, C52, C53: the K-Iter throughput computation.
-/
import Verif.Lemmas.KIterOpt

set_option autoImplicit false

namespace Kiter
open Finset

/-- **C19** For every graph, vector `K` whose entries divide the iteration counts, and list of channels of the graph,
the update never fails (the "Bad idea" assertions hold). With `g` the gcd of the iteration counts of the sources, the
new vector is the smallest (for divisibility) that is a multiple of the old one and of `reps / g` at each source: its
entries still divide the iteration counts, entries never decrease, tasks that are no source keep theirs, and the
result is `true` exactly when an entry changed. -/
theorem C19_update {B : BaseGraph} (hB : BaseOK B) (cc : List BChannel) (hcc : ∀ e ∈ cc, e ∈ B.channels)
    (K : Int → ℕ) (hpos : ∀ i, 0 < K i) (hdvd : ∀ t ∈ B.tasks, K t.id ∣ reps t) :
    ∃ (g : ℕ) (K' : Int → ℕ) (changed : Bool), updateVectorWithLocalNi K cc = some (K', changed) ∧
      ((∀ e ∈ cc, g ∣ reps e.2.1) ∧ ∀ d : ℕ, (∀ e ∈ cc, d ∣ reps e.2.1) → d ∣ g) ∧
      (∀ t ∈ B.tasks, K' t.id ∣ reps t) ∧ (∀ i, K i ∣ K' i ∧ K i ≤ K' i) ∧
      (∀ e ∈ cc, reps e.2.1 / g ∣ K' e.2.1.id) ∧
      (∀ M : Int → ℕ, (∀ i, K i ∣ M i) → (∀ e ∈ cc, reps e.2.1 / g ∣ M e.2.1.id) → ∀ i, K' i ∣ M i) ∧
      (∀ i, (∀ e ∈ cc, e.2.1.id ≠ i) → K' i = K i) ∧
      (changed = true ↔ ∃ i, K' i ≠ K i) := by
  obtain ⟨g, K', ch, h1, -, h3, h3', h4, h5, h6, h7, h8, h9⟩ := updateVector_spec hB cc hcc K ⟨hpos, hdvd⟩
  refine ⟨g, K', ch, h1, ⟨h3, h3'⟩, h4.2, fun i => ⟨h5 i, Nat.le_of_dvd (h4.1 i) (h5 i)⟩, h6, h9, fun i hi => ?_, h7⟩
  by_contra hc
  obtain ⟨e, he, hid⟩ := h8 i hc
  exact hi e he hid

/-- **C53** The incremental update of the event graph gives the same constraints as generating the event graph of the
new periodicity vector from scratch, for every graph, vector and critical circuit. -/
theorem C53_incremental_update {B : BaseGraph} (hB : BaseOK B) (cc : List BChannel) (hcc : ∀ e ∈ cc, e ∈ B.channels)
    (K : Int → ℕ) (hpos : ∀ i, 0 < K i) (hdvd : ∀ t ∈ B.tasks, K t.id ∣ reps t)
    (old cs : List EvConstraint) (hold : eventGraph (B.withK K) = some old) (hcs : ∀ c, c ∈ cs ↔ c ∈ old) :
    ∃ (K' : Int → ℕ) (changed : Bool), updateVectorWithLocalNi K cc = some (K', changed) ∧
      if changed then ∃ cs' new, updateEventGraph B K cc cs = some (some (K', cs')) ∧
          eventGraph (B.withK K') = some new ∧ ∀ c, c ∈ cs' ↔ c ∈ new
        else updateEventGraph B K cc cs = some none := by
  obtain ⟨K', ch, h1, h2⟩ := updateEventGraph_spec hB ⟨hpos, hdvd⟩ hcc ⟨old, hold, hcs⟩
  refine ⟨K', ch, h1, ?_⟩
  rcases h2 with ⟨rfl, h⟩ | ⟨rfl, cs', h, new, hn, hm⟩
  · simpa using h
  · simp only [if_true]
    exact ⟨cs', new, h, hn, hm⟩

/-! ### Termination -/

/-- Total number of prime factors of the entries of `K`. -/
def primeRank (B : BaseGraph) (K : Int → ℕ) : ℕ := (B.tasks.map fun t => (K t.id).primeFactorsList.length).sum
/-- Total number of prime factors of the iteration counts. -/
def primeBound (B : BaseGraph) : ℕ := (B.tasks.map fun t => (reps t).primeFactorsList.length).sum

theorem pfl_le {a b : ℕ} (hb : 0 < b) (h : a ∣ b) : a.primeFactorsList.length ≤ b.primeFactorsList.length := by
  obtain ⟨c, rfl⟩ := h
  have ha : a ≠ 0 := by rintro rfl; simp at hb
  have hc : c ≠ 0 := by rintro rfl; simp at hb
  rw [(Nat.perm_primeFactorsList_mul ha hc).length_eq, List.length_append]; omega

theorem pfl_lt {a b : ℕ} (hb : 0 < b) (h : a ∣ b) (hne : b ≠ a) : a.primeFactorsList.length < b.primeFactorsList.length := by
  obtain ⟨c, rfl⟩ := h
  have ha : a ≠ 0 := by rintro rfl; simp at hb
  have hc : c ≠ 0 := by rintro rfl; simp at hb
  have hc1 : c ≠ 1 := by rintro rfl; simp at hne
  rw [(Nat.perm_primeFactorsList_mul ha hc).length_eq, List.length_append]
  have : 0 < c.primeFactorsList.length := by
    rw [List.length_pos_iff]
    intro h
    rcases (Nat.primeFactorsList_eq_nil c).mp h with h | h
    · exact hc h
    · exact hc1 h
  omega

theorem sum_le_sum' {α : Type} (l : List α) (f g : α → ℕ) (h : ∀ a ∈ l, f a ≤ g a) : (l.map f).sum ≤ (l.map g).sum := by
  induction l with
  | nil => simp
  | cons a l ih =>
    have := ih (fun b hb => h b (by simp [hb]))
    have := h a (by simp)
    simp only [List.map_cons, List.sum_cons]; omega

theorem sum_lt_sum' {α : Type} (l : List α) (f g : α → ℕ) (h : ∀ a ∈ l, f a ≤ g a) {a : α} (ha : a ∈ l) (hlt : f a < g a) :
    (l.map f).sum < (l.map g).sum := by
  induction l with
  | nil => simp at ha
  | cons b l ih =>
    simp only [List.map_cons, List.sum_cons]
    have hb := h b (by simp)
    have hl := sum_le_sum' l f g (fun c hc => h c (by simp [hc]))
    rcases List.mem_cons.mp ha with rfl | ha
    · omega
    · have := ih (fun c hc => h c (by simp [hc])) ha; omega

theorem rank_le_bound {B : BaseGraph} (hB : BaseOK B) {K : Int → ℕ} (hK : KOk B K) : primeRank B K ≤ primeBound B :=
  sum_le_sum' _ _ _ fun t ht => pfl_le (reps_spec hB ht).1 (hK.2 t ht)

theorem rank_lt {B : BaseGraph} (hB : BaseOK B) {K : Int → ℕ} (hK : KOk B K) {cc : List BChannel}
    (hcc : ∀ e ∈ cc, e ∈ B.channels) {K' : Int → ℕ} (h : updateVectorWithLocalNi K cc = some (K', true)) :
    KOk B K' ∧ primeRank B K < primeRank B K' := by
  obtain ⟨g, K1, ch, h1, -, -, -, h4, h5, -, h7, h8, -⟩ := updateVector_spec hB cc hcc K hK
  rw [h] at h1; cases h1
  refine ⟨h4, ?_⟩
  obtain ⟨i, hi⟩ := h7.mp rfl
  obtain ⟨e, he, rfl⟩ := h8 i hi
  exact sum_lt_sum' _ _ _ (fun t _ => pfl_le (h4.1 _) (h5 _)) (hB.channels e (hcc e he)).1 (pfl_lt (h4.1 _) (h5 _) hi)

theorem criticalEdges_sub (B : BaseGraph) (p : List EvConstraint) : ∀ e ∈ criticalEdges B p, e ∈ B.channels :=
  fun _ he => (List.mem_filter.mp he).1

theorem kiterLoop_terminates {B : BaseGraph} (hB : BaseOK B) (solve : List EvConstraint → Option (ℚ × List EvConstraint))
    (fuel it : ℕ) (K : Int → ℕ) (hK : KOk B K) (cs : List EvConstraint) (hcs : GraphFor B K cs) (cc : List BChannel)
    (hcc : ∀ e ∈ cc, e ∈ B.channels) (th : ℚ) (hfuel : primeBound B < fuel + primeRank B K) :
    kiterLoop solve B fuel it K cs cc th ≠ some none ∧
    (∀ r, kiterLoop solve B fuel it K cs cc th = some (some r) → KOk B r.K ∧ r.iterations ≤ it + 1 + (primeBound B - primeRank B K)) ∧
    ((∀ K cs, KOk B K → GraphFor B K cs → solve cs ≠ none) → kiterLoop solve B fuel it K cs cc th ≠ none) := by
  induction fuel generalizing it K cs cc th with
  | zero => have := rank_le_bound hB hK; omega
  | succ fuel ih =>
    obtain ⟨K', ch, h1, h2⟩ := updateEventGraph_spec hB hK hcc hcs
    rcases h2 with ⟨rfl, h⟩ | ⟨rfl, cs', h, hcs'⟩
    · have e : kiterLoop solve B (fuel + 1) it K cs cc th = some (some ⟨K, th, it + 1⟩) := by
        unfold kiterLoop; rw [h]; rfl
      rw [e]
      refine ⟨by simp, fun r hr => ?_, by simp⟩
      cases hr; exact ⟨hK, by simp⟩
    · obtain ⟨hK', hlt⟩ := rank_lt hB hK hcc h1
      have hb' := rank_le_bound hB hK'
      cases hs : solve cs' with
      | none =>
        have e : kiterLoop solve B (fuel + 1) it K cs cc th = none := by
          unfold kiterLoop; rw [h]; simp [hs]
        rw [e]
        exact ⟨by simp, by simp, fun hall => absurd hs (hall K' cs' hK' hcs')⟩
      | some r =>
        by_cases hsame : sameset (criticalEdges B r.2) cc = true
        · have e : kiterLoop solve B (fuel + 1) it K cs cc th = some (some ⟨K', r.1, it + 1⟩) := by
            unfold kiterLoop; rw [h]; simp [hs, hsame]
          rw [e]
          refine ⟨by simp, fun r' hr => ?_, by simp⟩
          cases hr; exact ⟨hK', by simp⟩
        · have e : kiterLoop solve B (fuel + 1) it K cs cc th =
              kiterLoop solve B fuel (it + 1) K' cs' (criticalEdges B r.2) r.1 := by
            conv_lhs => unfold kiterLoop
            rw [h]; simp [hs, hsame]
          rw [e]
          obtain ⟨a1, a2, a3⟩ := ih (it + 1) K' hK' cs' hcs' (criticalEdges B r.2) (criticalEdges_sub B r.2) r.1 (by omega)
          refine ⟨a1, fun r' hr => ?_, a3⟩
          obtain ⟨b1, b2⟩ := a2 r' hr
          exact ⟨b1, by omega⟩

theorem kOk_one {B : BaseGraph} : KOk B (fun _ => 1) := ⟨fun _ => Nat.one_pos, fun _ _ => one_dvd _⟩

/-- **C20** Whatever circuits the cycle ratio solver returns, the K-Iter loop stops: with more fuel than the total number
of prime factors of the iteration counts it never runs out, no assertion fails, the number of loop iterations is at most
one more than this total, and every entry of the final vector divides the iteration count of its task. -/
theorem C20_terminates {B : BaseGraph} (hB : BaseOK B) (solve : List EvConstraint → Option (ℚ × List EvConstraint))
    (fuel : ℕ) (hfuel : primeBound B < fuel) :
    kiter solve B fuel ≠ some none ∧
    (∀ r, kiter solve B fuel = some (some r) →
      (∀ t ∈ B.tasks, r.K t.id ∣ reps t) ∧ r.iterations ≤ primeBound B + 1) ∧
    ((∀ K cs, ((∀ i, 0 < K i) ∧ ∀ t ∈ B.tasks, K t.id ∣ reps t) →
      (∃ cs0, eventGraph (B.withK K) = some cs0 ∧ ∀ c, c ∈ cs ↔ c ∈ cs0) → solve cs ≠ none) → kiter solve B fuel ≠ none) := by
  obtain ⟨cs, hcs⟩ := eventGraph_total (withK_ok hB (K := fun _ => 1) (fun _ _ => Nat.one_pos))
  cases hs : solve cs with
  | none =>
    have e : kiter solve B fuel = none := by unfold kiter; simp [hcs, hs]
    rw [e]
    exact ⟨by simp, by simp, fun hall => absurd hs (hall _ cs kOk_one ⟨cs, hcs, fun _ => Iff.rfl⟩)⟩
  | some r =>
    by_cases hc : (criticalEdges B r.2).isEmpty = true
    · have e : kiter solve B fuel = some (some ⟨fun _ => 1, r.1, 0⟩) := by
        unfold kiter; simp only [hcs, hs, Option.bind_eq_bind, Option.bind_some, hc, if_true]; rfl
      rw [e]
      refine ⟨by simp, fun r' hr => ?_, by simp⟩
      cases hr; exact ⟨fun t _ => one_dvd _, by simp⟩
    · have e : kiter solve B fuel = kiterLoop solve B fuel 0 (fun _ => 1) cs (criticalEdges B r.2) r.1 := by
        unfold kiter; simp only [hcs, hs, Option.bind_eq_bind, Option.bind_some]; rw [if_neg hc]
      rw [e]
      obtain ⟨a1, a2, a3⟩ := kiterLoop_terminates hB solve fuel 0 (fun _ => 1) kOk_one cs ⟨cs, hcs, fun _ => Iff.rfl⟩
        (criticalEdges B r.2) (criticalEdges_sub B r.2) r.1 (by omega)
      refine ⟨a1, fun r' hr => ?_, a3⟩
      obtain ⟨b1, b2⟩ := a2 r' hr
      exact ⟨b1.2, by omega⟩

/-! ### Optimality -/

theorem exact_th_pos {cs : List EvConstraint} {th : ℚ} {p : List EvConstraint} (hp : ExactRatio cs th p) : 0 < th := by
  have := hp.ratio; have h1 := hp.posD; have h2 := hp.posW
  by_contra hc
  have := mul_nonpos_of_nonneg_of_nonpos h1.le (not_lt.mp hc)
  linarith

theorem ExactRatio.answer {cs : List EvConstraint} {th : ℚ} {p : List EvConstraint} (hp : ExactRatio cs th p) :
    CycleAnswer cs th p := ⟨hp.circuit, hp.posD, hp.ratio, hp.best⟩

/-- What the last event graph says about the graph, for both signs of its best ratio. -/
theorem verdict {B : BaseGraph} (hB : BaseOK B) {K : Int → ℕ} (hK : ∀ i, 0 < K i) {cs : List EvConstraint}
    (hcs : GraphFor B K cs) {th : ℚ} {p : List EvConstraint} (hp : CycleAnswer cs th p) {G : ℕ}
    (hG0 : criticalEdges B p ≠ [] → 0 < G)
    (hG : ∀ e ∈ criticalEdges B p, G ∣ reps e.2.1 ∧ reps e.2.1 / G ∣ K e.2.1.id) :
    (0 < th → IsLeast (SustainablePeriods B) (1 / th) ∧ ∃ S, ValidSchedule (B.withK K) S (1 / th)) ∧
      (th ≤ 0 → ¬ ∃ σ, ValidGen B σ) :=
  ⟨fun h => ⟨⟨attained hB hK hcs h hp.best, fun _ hΩ => lower_bound hB hK hcs hp.circuitRatio h hG0 hG hΩ⟩,
    attained_schedule hB hK hcs h hp.best⟩, fun h => no_schedule hB hK hcs hp.circuitRatio h hG0 hG⟩

theorem sameset_sub {B : BaseGraph} (hB : BaseOK B) {a b : List BChannel} (ha : ∀ e ∈ a, e ∈ B.channels)
    (hb : ∀ e ∈ b, e ∈ B.channels) (h : sameset a b = true) : ∀ e ∈ a, e ∈ b := by
  unfold sameset at h
  rw [Bool.and_eq_true, List.all_eq_true] at h
  intro e he
  have := h.2 e he
  rw [List.any_eq_true] at this
  obtain ⟨y, hy, hid⟩ := this
  rw [hB.channelIds e (ha e he) y (hb y hy) (by simpa using hid)]
  exact hy

theorem kiterLoop_verdict {B : BaseGraph} (hB : BaseOK B) (solve : List EvConstraint → Option (ℚ × List EvConstraint))
    (hsolve : ∀ K cs th p, KOk B K → GraphFor B K cs → solve cs = some (th, p) → CycleAnswer cs th p)
    (fuel it : ℕ) (K : Int → ℕ) (hK : KOk B K) (cs : List EvConstraint) (hcs : GraphFor B K cs)
    (th : ℚ) (p : List EvConstraint) (hp : CycleAnswer cs th p) (r : KIterResult)
    (hr : kiterLoop solve B fuel it K cs (criticalEdges B p) th = some (some r)) :
    (0 < r.throughput → IsLeast (SustainablePeriods B) (1 / r.throughput) ∧
      ∃ S, ValidSchedule (B.withK r.K) S (1 / r.throughput)) ∧ (r.throughput ≤ 0 → ¬ ∃ σ, ValidGen B σ) := by
  induction fuel generalizing it K cs th p with
  | zero => simp [kiterLoop] at hr
  | succ fuel ih =>
    obtain ⟨K', ch, h1, h2⟩ := updateEventGraph_spec hB hK (criticalEdges_sub B p) hcs
    obtain ⟨g, K1, ch1, u1, u2, u3, -, u4, u5, u6, u7, -, -⟩ := updateVector_spec hB (criticalEdges B p) (criticalEdges_sub B p) K hK
    rw [h1] at u1; cases u1
    rcases h2 with ⟨rfl, h⟩ | ⟨rfl, cs', h, hcs'⟩
    · have e : kiterLoop solve B (fuel + 1) it K cs (criticalEdges B p) th = some (some ⟨K, th, it + 1⟩) := by
        unfold kiterLoop; rw [h]; rfl
      rw [e] at hr; cases hr
      have hsame : ∀ i, K' i = K i := by
        intro i
        by_contra hne
        have := u7.mpr ⟨i, hne⟩
        simp at this
      refine verdict hB hK.1 hcs hp u2 fun e he => ⟨u3 e he, ?_⟩
      rw [← hsame]; exact u6 e he
    · cases hs : solve cs' with
      | none =>
        have e : kiterLoop solve B (fuel + 1) it K cs (criticalEdges B p) th = none := by
          unfold kiterLoop; rw [h]; simp [hs]
        rw [e] at hr; simp at hr
      | some q =>
        have hq : CycleAnswer cs' q.1 q.2 := hsolve K' cs' q.1 q.2 u4 hcs' hs
        by_cases hsame : sameset (criticalEdges B q.2) (criticalEdges B p) = true
        · have e : kiterLoop solve B (fuel + 1) it K cs (criticalEdges B p) th = some (some ⟨K', q.1, it + 1⟩) := by
            unfold kiterLoop; rw [h]; simp [hs, hsame]
          rw [e] at hr; cases hr
          have hsub := sameset_sub hB (criticalEdges_sub B q.2) (criticalEdges_sub B p) hsame
          refine verdict hB u4.1 hcs' hq (fun hne => u2 ?_) fun e he => ⟨u3 e (hsub e he), u6 e (hsub e he)⟩
          obtain ⟨e, he⟩ := List.exists_mem_of_ne_nil _ hne
          exact List.ne_nil_of_mem (hsub e he)
        · have e : kiterLoop solve B (fuel + 1) it K cs (criticalEdges B p) th =
              kiterLoop solve B fuel (it + 1) K' cs' (criticalEdges B q.2) q.1 := by
            conv_lhs => unfold kiterLoop
            rw [h]; simp [hs, hsame]
          rw [e] at hr
          exact ih (it + 1) K' u4 cs' hcs' q.1 q.2 hq hr

/-- **C52** If the cycle ratio solver answers correctly on the event graphs of the dataflow graph, the value reported by
K-Iter settles the throughput. When it is positive, its inverse is the smallest period sustained by any valid schedule,
periodic or not, and a valid K-periodic schedule for the final vector reaches it. Otherwise the graph deadlocks: it has no
valid infinite schedule at all. -/
theorem C52_kiter_verdict {B : BaseGraph} (hB : BaseOK B) (solve : List EvConstraint → Option (ℚ × List EvConstraint))
    (hsolve : ∀ K cs th p, ((∀ i, 0 < K i) ∧ ∀ t ∈ B.tasks, K t.id ∣ reps t) →
      (∃ cs0, eventGraph (B.withK K) = some cs0 ∧ ∀ c, c ∈ cs ↔ c ∈ cs0) → solve cs = some (th, p) → CycleAnswer cs th p)
    (fuel : ℕ) (r : KIterResult) (hr : kiter solve B fuel = some (some r)) :
    (0 < r.throughput → IsLeast (SustainablePeriods B) (1 / r.throughput) ∧
      ∃ S, ValidSchedule (B.withK r.K) S (1 / r.throughput)) ∧ (r.throughput ≤ 0 → ¬ ∃ σ, ValidGen B σ) := by
  obtain ⟨cs, hcs⟩ := eventGraph_total (withK_ok hB (K := fun _ => 1) (fun _ _ => Nat.one_pos))
  cases hs : solve cs with
  | none =>
    have e : kiter solve B fuel = none := by unfold kiter; simp [hcs, hs]
    rw [e] at hr; simp at hr
  | some q =>
    have hgf : GraphFor B (fun _ => 1) cs := ⟨cs, hcs, fun _ => Iff.rfl⟩
    have hq : CycleAnswer cs q.1 q.2 := hsolve _ cs q.1 q.2 kOk_one hgf hs
    by_cases hc : (criticalEdges B q.2).isEmpty = true
    · have e : kiter solve B fuel = some (some ⟨fun _ => 1, q.1, 0⟩) := by
        unfold kiter; simp only [hcs, hs, Option.bind_eq_bind, Option.bind_some, hc, if_true]; rfl
      rw [e] at hr; cases hr
      have hnil := List.isEmpty_iff.mp hc
      exact verdict hB (fun _ => Nat.one_pos) hgf hq (G := 0) (fun h => absurd hnil h) (by rw [hnil]; simp)
    · have e : kiter solve B fuel = kiterLoop solve B fuel 0 (fun _ => 1) cs (criticalEdges B q.2) q.1 := by
        unfold kiter; simp only [hcs, hs, Option.bind_eq_bind, Option.bind_some]; rw [if_neg hc]
      rw [e] at hr
      exact kiterLoop_verdict hB solve hsolve fuel 0 _ kOk_one cs hgf q.1 q.2 hq r hr

/-- The value reported by K-Iter is positive when the solver only returns positive ratios. -/
theorem kiter_throughput {solve : List EvConstraint → Option (ℚ × List EvConstraint)} {P : ℚ → Prop}
    (hsolve : ∀ cs th p, solve cs = some (th, p) → P th) {B : BaseGraph} {fuel : ℕ} {r : KIterResult}
    (hr : kiter solve B fuel = some (some r)) : P r.throughput := by
  have hloop : ∀ (fuel it : ℕ) (K : Int → ℕ) (cs : List EvConstraint) (cc : List BChannel) (th : ℚ), P th →
      kiterLoop solve B fuel it K cs cc th = some (some r) → P r.throughput := by
    intro fuel
    induction fuel with
    | zero => intro it K cs cc th _ h; simp [kiterLoop] at h
    | succ fuel ih =>
      intro it K cs cc th hth h
      unfold kiterLoop at h
      cases hu : updateEventGraph B K cc cs with
      | none => rw [hu] at h; simp at h
      | some o =>
        rw [hu] at h
        cases o with
        | none =>
          simp only [Option.bind_eq_bind, Option.bind_some, Option.pure_def, Option.some.injEq] at h
          rw [← h]; exact hth
        | some kc =>
          simp only [Option.bind_eq_bind, Option.bind_some] at h
          cases hs : solve kc.2 with
          | none => rw [hs] at h; simp at h
          | some q =>
            rw [hs] at h
            simp only [Option.bind_some] at h
            have hq := hsolve _ q.1 q.2 hs
            split at h
            · simp only [Option.pure_def, Option.some.injEq] at h
              rw [← h]; exact hq
            · exact ih _ _ _ _ _ hq h
  unfold kiter at hr
  cases hc : eventGraph (B.withK fun _ => 1) with
  | none => rw [hc] at hr; simp at hr
  | some cs =>
    rw [hc] at hr
    simp only [Option.bind_eq_bind, Option.bind_some] at hr
    cases hs : solve cs with
    | none => rw [hs] at hr; simp at hr
    | some q =>
      rw [hs] at hr
      simp only [Option.bind_some] at hr
      have hq := hsolve _ q.1 q.2 hs
      split at hr
      · simp only [Option.pure_def, Option.some.injEq] at hr
        rw [← hr]; exact hq
      · exact hloop _ _ _ _ _ _ hq hr

/-- C52 for solvers that only answer with circuits of positive ratio (live graphs). -/
theorem C52_kiter_optimal {B : BaseGraph} (hB : BaseOK B) (solve : List EvConstraint → Option (ℚ × List EvConstraint))
    (hsolve : ∀ cs th p, solve cs = some (th, p) → ExactRatio cs th p) (fuel : ℕ) (r : KIterResult)
    (hr : kiter solve B fuel = some (some r)) :
    IsLeast (SustainablePeriods B) (1 / r.throughput) ∧
      ∃ S, ValidSchedule (B.withK r.K) S (1 / r.throughput) :=
  (C52_kiter_verdict hB solve (fun _ cs th p _ _ h => (hsolve cs th p h).answer) fuel r hr).1
    (kiter_throughput (fun cs th p h => exact_th_pos (hsolve cs th p h)) hr)

/-! ### A concrete case -/

/-- A solver that accepts only answers with a certificate: a circuit and starting times satisfying all constraints. -/
def certified (cands : List (List EvConstraint × (Event → ℚ))) (cs : List EvConstraint) : Option (ℚ × List EvConstraint) :=
  (cands.find? fun c => decide (0 < totalD c.1 ∧ 0 < totalW c.1 ∧ (∀ e ∈ c.1, e ∈ cs) ∧
      c.1.map (fun e => e.dst) = (c.1.map fun e => e.src).rotate 1 ∧
      ∀ e ∈ cs, c.2 e.src + e.d - totalD c.1 / totalW c.1 * e.w ≤ c.2 e.dst)).map fun c => (totalW c.1 / totalD c.1, c.1)

theorem isWalk_of_chain {cs : List EvConstraint} (p : List EvConstraint) (hp : ∀ e ∈ p, e ∈ cs) (v : Event) :
    ∀ u, p.map (fun e => e.src) ++ [v] = u :: p.map (fun e => e.dst) → IsWalk cs u p v := by
  induction p with
  | nil => intro u h; simp at h; exact h.symm
  | cons e p ih =>
    intro u h
    simp only [List.map_cons, List.cons_append, List.cons.injEq] at h
    exact ⟨hp e (by simp), h.1, ih (fun x hx => hp x (by simp [hx])) _ h.2⟩

theorem certified_exact (cands : List (List EvConstraint × (Event → ℚ))) (cs : List EvConstraint) (th : ℚ)
    (p : List EvConstraint) (h : certified cands cs = some (th, p)) : ExactRatio cs th p := by
  unfold certified at h
  obtain ⟨c, hc, he⟩ := Option.map_eq_some_iff.mp h
  have := List.find?_some hc
  simp only [decide_eq_true_eq] at this
  obtain ⟨hD, hW, hmem, hrot, hX⟩ := this
  cases he
  have hne : c.1 ≠ [] := by intro h0; rw [h0] at hD; simp [totalD] at hD
  refine ⟨?_, hD, hW, by field_simp, ?_⟩
  · cases hp : c.1 with
    | nil => exact absurd hp hne
    | cons e q =>
      refine ⟨e.src, isWalk_of_chain _ (by rw [← hp]; exact hmem) _ _ ?_⟩
      rw [hp] at hrot
      rw [hrot]
      simp [List.rotate_cons_succ]
  · intro u q hq
    have := noPositiveCircuit_of_feasible (cs := cs) (ω := totalD c.1 / totalW c.1) (X := c.2) hX u q hq
    have e : (q.map fun x => x.d - totalD c.1 / totalW c.1 * x.w).sum = totalD q - totalD c.1 / totalW c.1 * totalW q := by
      unfold totalD totalW
      generalize (c.1.map fun c => c.d).sum / (c.1.map fun c => c.w).sum = r
      clear hq this
      induction q with
      | nil => simp
      | cons a q ih => simp only [List.map_cons, List.sum_cons]; rw [ih]; ring
    rw [e] at this
    have h2 : totalD q ≤ totalD c.1 / totalW c.1 * totalW q := by linarith
    calc totalD q * (totalW c.1 / totalD c.1) ≤ (totalD c.1 / totalW c.1 * totalW q) * (totalW c.1 / totalD c.1) :=
          mul_le_mul_of_nonneg_right h2 (div_pos hW hD).le
      _ = totalW q := by field_simp

namespace KIterExample
def A : KTask := ⟨0, [1, 3], [], 1, 2⟩
def B : KTask := ⟨1, [2], [], 1, 3⟩
def fwd : KChannel := ⟨1, [1, 2], [1], [], [], 0, 1⟩
def bwd : KChannel := ⟨2, [1], [1, 2], [], [], 3, 1⟩
def G : BaseGraph := ⟨[A, B], [(fwd, A, B), (bwd, B, A)]⟩

theorem G_ok : BaseOK G := by
  have fwd_ok : ChannelOK fwd A B :=
    ⟨rfl, rfl, rfl, rfl, by decide, by decide, by decide, by decide, by decide, by decide, by decide, by decide, by decide⟩
  have bwd_ok : ChannelOK bwd B A :=
    ⟨rfl, rfl, rfl, rfl, by decide, by decide, by decide, by decide, by decide, by decide, by decide, by decide, by decide⟩
  have A_ok : TaskOK A 1 := ⟨by decide, rfl, by decide, by decide, by decide, by decide⟩
  have B_ok : TaskOK B 1 := ⟨by decide, rfl, by decide, by decide, by decide, by decide⟩
  constructor
  · simp [G, A, B]
  · intro t ht; simp only [G, List.mem_cons, List.not_mem_nil, or_false] at ht
    rcases ht with rfl | rfl
    · exact A_ok
    · exact B_ok
  · simp [G, A, B]
  · intro c hc; simp only [G, List.mem_cons, List.not_mem_nil, or_false] at hc
    rcases hc with rfl | rfl
    · exact ⟨by simp [G], by simp [G], fwd_ok⟩
    · exact ⟨by simp [G], by simp [G], bwd_ok⟩
  · simp [G, fwd, bwd]

/-- Certificates for the two event graphs met by K-Iter on this graph: ratio 2/15 with K = (1,1), 1/7 with K = (1,3). -/
def cands : List (List EvConstraint × (Event → ℚ)) :=
  [([⟨⟨0, 2, 1⟩, ⟨1, 1, 1⟩, 1/3, 3, 1⟩, ⟨⟨1, 1, 1⟩, ⟨0, 2, 1⟩, 1/3, 2, 2⟩],
      fun e => if e.task = 0 then (if e.phase = 1 then 0 else 1) else 3/2),
   ([⟨⟨0, 2, 1⟩, ⟨1, 1, 2⟩, 0, 3, 1⟩, ⟨⟨1, 1, 2⟩, ⟨1, 1, 3⟩, 0, 2, 0⟩, ⟨⟨1, 1, 3⟩, ⟨0, 2, 1⟩, 1, 2, 2⟩],
      fun e => if e.task = 0 then (if e.phase = 1 then 0 else 1) else (if e.iter = 1 then 1 else if e.iter = 2 then 4 else 6))]

/-- On this graph K-Iter first finds the ratio 2/15, raises the periodicity of `B` to 3 and stops at 1/7. -/
theorem run : (kiter (certified cands) G 10).map (fun o => o.map fun r => (r.K 0, r.K 1, r.throughput, r.iterations)) =
    some (some (1, 3, 1/7, 1)) := by
  decide +kernel
end KIterExample

/-- C52 (and C19, C20, C53 through it) applies to a run where the vector changes: 7 is the best period. -/
example : IsLeast (SustainablePeriods KIterExample.G) 7 := by
  have h := KIterExample.run
  obtain ⟨o, ho, h⟩ := Option.map_eq_some_iff.mp h
  obtain ⟨r, rfl, h⟩ := Option.map_eq_some_iff.mp h
  have := (C52_kiter_optimal KIterExample.G_ok _ (certified_exact _) 10 r ho).1
  have h7 : r.throughput = 1/7 := congrArg (fun x => x.2.2.1) (Option.some.inj h)
  rw [h7] at this
  simpa using this

/-- The fuel of C20 for this graph: the iteration counts are 1 and 3. -/
example : primeBound KIterExample.G < 10 := by
  have h3 : Nat.primeFactorsList 3 = [3] := Nat.primeFactorsList_prime Nat.prime_three
  have hA : reps KIterExample.A = 1 := by decide
  have hB : reps KIterExample.B = 3 := by decide
  simp [primeBound, KIterExample.G, hA, hB, h3]

end Kiter
