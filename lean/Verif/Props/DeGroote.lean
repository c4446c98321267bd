/-
C48: the linear constraint graph of de Groote's method describes exactly the repeated schedules of the graph, and its
maximum cycle ratio is the best period of the graph over all schedules.
-/
import Verif.Lemmas.DeGroote
import Verif.Lemmas.Periodic
import Verif.Props.KIter

set_option autoImplicit false

namespace Kiter
open Finset

/-- A graph the method accepts: as in `BaseOK`, with one phase per task and executions of a task one at a time. -/
structure SdfOK (B : BaseGraph) : Prop where
  base : BaseOK B
  phases : ∀ t ∈ B.tasks, t.durations.length = 1
  reentrancy : ∀ t ∈ B.tasks, t.reentrancy = 1

/-- C48: the constraints of a channel. For every execution `j` of the consumer in a graph iteration there is exactly one
constraint, and every constraint is of this kind: it goes from an execution `i` of the producer in an iteration, `m`
iterations earlier (`m` is never negative), its weight is the duration of the consumer, and `i - m * Ni` is the least
number of producer executions after which the initial tokens and the production cover `j` executions of the consumer. -/
theorem C48_indices (src dst : KTask) (edge mc nc dc : Int) (tj : ℚ) (hm : 0 < mc) (hn : 0 ≤ nc) (hd : 0 ≤ dc)
    (hs : 0 < src.ni) (hb : src.ni * mc = dst.ni * nc) (hdur : dst.durations = [tj]) :
    ∃ cs, lcgChannel src dst edge mc nc dc = some cs ∧
      cs.map (fun c => c.dst) = (List.range dst.ni.toNat).map (fun j : ℕ => (⟨dst.id, 1, (j : Int) + 1⟩ : Event)) ∧
      ∀ c ∈ cs, ∃ (i j : Int) (m : ℕ), 1 ≤ j ∧ j ≤ dst.ni ∧ 1 ≤ i ∧ i ≤ src.ni ∧
        c = ⟨⟨src.id, 1, i⟩, ⟨dst.id, 1, j⟩, tj, m, edge⟩ ∧
        IsLeast {p : Int | j * nc ≤ dc + p * mc} (i - m * src.ni) := by
  refine ⟨_, lcgChannel_eq hm hs hdur, ?_, fun c hc => ?_⟩
  · rw [List.map_map]; rfl
  · obtain ⟨j, hj, rfl⟩ := List.mem_map.mp hc
    rw [List.mem_range] at hj
    set P := need mc nc dc (j + 1) with hP
    have h1 := Int.emod_add_mul_ediv (P - 1) src.ni
    have h2 := Int.emod_nonneg (P - 1) hs.ne'
    have h3 := Int.emod_lt_of_pos (P - 1) hs
    have h4 : P ≤ src.ni := by
      rw [hP, need_le hm, hb]
      have : ((j : Int) + 1) * nc ≤ dst.ni * nc := mul_le_mul_of_nonneg_right (by omega) hn
      linarith
    have h5 : (P - 1) / src.ni ≤ 0 := by
      have : (P - 1) / src.ni < 1 := Int.ediv_lt_of_lt_mul hs (by omega)
      omega
    have hmq : ((-((P - 1) / src.ni)).toNat : Int) = -((P - 1) / src.ni) := by omega
    refine ⟨(P - 1) % src.ni + 1, (j : Int) + 1, (-((P - 1) / src.ni)).toNat, by omega, by omega, by omega, by omega, ?_, ?_⟩
    · unfold lcgC
      rw [← hP, ← Int.cast_natCast (R := ℚ) (-((P - 1) / src.ni)).toNat, hmq, Int.cast_neg]
    · have e : (P - 1) % src.ni + 1 - ((-((P - 1) / src.ni)).toNat : Int) * src.ni = P := by
        rw [hmq]; linarith
      rw [e, hP]
      refine ⟨(need_le hm).mp le_rfl, fun p hp => (need_le hm).mpr hp⟩

section
variable {B : BaseGraph}

theorem sdf_dur (hB : SdfOK B) {t : KTask} (ht : t ∈ B.tasks) : ∃ d, t.durations = [d] ∧ ∀ k, t.dur k = d := by
  obtain ⟨d, hd⟩ := List.length_eq_one_iff.mp (hB.phases t ht)
  refine ⟨d, hd, fun k => ?_⟩
  unfold KTask.dur
  rw [hd]
  simp [Nat.mod_one]

theorem sdf_rate {l : List Int} (h : l.length = 1) : rate l = fun _ => l.sum := by
  obtain ⟨d, rfl⟩ := List.length_eq_one_iff.mp h
  funext k
  simp [rate, Nat.mod_one]

theorem sdf_chan (hB : SdfOK B) {c : BChannel} (hc : c ∈ B.channels) :
    c.2.1 ∈ B.tasks ∧ c.2.2 ∈ B.tasks ∧ 0 < c.1.inPhases.sum ∧ 0 < c.1.outPhases.sum ∧ 0 ≤ c.1.preload ∧
    c.2.1.ni * c.1.inPhases.sum = c.2.2.ni * c.1.outPhases.sum ∧
    rate c.1.inPhases = (fun _ => c.1.inPhases.sum) ∧ rate c.1.outPhases = (fun _ => c.1.outPhases.sum) := by
  obtain ⟨a, b, h⟩ := hB.base.channels c hc
  have p1 := hB.phases _ a
  have p2 := hB.phases _ b
  refine ⟨a, b, h.inPos, h.outPos, h.preload, ?_, sdf_rate (by rw [← h.srcPhases, p1]), sdf_rate (by rw [← h.dstPhases, p2])⟩
  have := h.balance
  rw [p1, p2] at this
  push_cast at this
  linarith

theorem lcg_mem (hB : SdfOK B) : ∃ cs, generateLCG B = some cs ∧
    (∀ c, c ∈ cs ↔ (∃ t ∈ B.tasks, ∃ d, t.durations = [d] ∧ ∃ j < t.ni.toNat, c = lcgC t t 0 1 1 1 d j) ∨
      ∃ e ∈ B.channels, ∃ d, e.2.2.durations = [d] ∧ ∃ j < e.2.2.ni.toNat,
        c = lcgC e.2.1 e.2.2 e.1.id e.1.inPhases.sum e.1.outPhases.sum e.1.preload d j) := by
  have h1 : ∀ t ∈ B.tasks, ∃ d, t.durations = [d] ∧ lcgSelf t = some ((List.range t.ni.toNat).map (lcgC t t 0 1 1 1 d)) := by
    intro t ht
    obtain ⟨d, hd, -⟩ := sdf_dur hB ht
    refine ⟨d, hd, ?_⟩
    unfold lcgSelf
    rw [hB.reentrancy t ht, if_neg (by omega), if_pos rfl]
    exact lcgChannel_eq one_pos (hB.base.tasks t ht).ni hd
  have h2 : ∀ c ∈ B.channels, ∃ d, c.2.2.durations = [d] ∧
      lcgChannel c.2.1 c.2.2 c.1.id c.1.inPhases.sum c.1.outPhases.sum c.1.preload =
        some ((List.range c.2.2.ni.toNat).map (lcgC c.2.1 c.2.2 c.1.id c.1.inPhases.sum c.1.outPhases.sum c.1.preload d)) := by
    intro c hc
    obtain ⟨a, b, x1, -⟩ := sdf_chan hB hc
    obtain ⟨d, hd, -⟩ := sdf_dur hB b
    exact ⟨d, hd, lcgChannel_eq x1 (hB.base.tasks _ a).ni hd⟩
  have tot : ∀ {α : Type} (f : α → Option (List EvConstraint)) (l : List α), (∀ a ∈ l, ∃ x, f a = some x) → ∃ x, collect f l = some x := by
    intro α f l
    induction l with
    | nil => intro _; exact ⟨[], rfl⟩
    | cons a l ih =>
      intro h
      obtain ⟨x, hx⟩ := h a (by simp)
      obtain ⟨y, hy⟩ := ih (fun b hb => h b (by simp [hb]))
      exact ⟨x ++ y, by simp [collect, hx, hy]⟩
  obtain ⟨a, ha⟩ := tot lcgSelf B.tasks (fun t ht => by obtain ⟨d, -, h⟩ := h1 t ht; exact ⟨_, h⟩)
  obtain ⟨b, hb⟩ := tot (fun c : BChannel => lcgChannel c.2.1 c.2.2 c.1.id c.1.inPhases.sum c.1.outPhases.sum c.1.preload) B.channels
    (fun c hc => by obtain ⟨d, -, h⟩ := h2 c hc; exact ⟨_, h⟩)
  refine ⟨a ++ b, ?_, fun c => ?_⟩
  · unfold generateLCG
    have : B.tasks.any (fun t : KTask => t.durations.length != 1) = false := by
      rw [List.any_eq_false]
      intro t ht
      simp [hB.phases t ht]
    rw [if_neg (by simp [this]), ha, hb]
    rfl
  · rw [List.mem_append, collect_mem _ _ _ ha, collect_mem _ _ _ hb]
    refine or_congr ⟨?_, ?_⟩ ⟨?_, ?_⟩
    · rintro ⟨t, ht, x, hx, hc⟩
      obtain ⟨d, hd, h⟩ := h1 t ht
      rw [hx] at h; cases h
      obtain ⟨j, hj, rfl⟩ := List.mem_map.mp hc
      exact ⟨t, ht, d, hd, j, by simpa using hj, rfl⟩
    · rintro ⟨t, ht, d, hd, j, hj, rfl⟩
      obtain ⟨d', hd', h⟩ := h1 t ht
      rw [hd] at hd'; cases hd'
      exact ⟨t, ht, _, h, List.mem_map.mpr ⟨j, by simpa using hj, rfl⟩⟩
    · rintro ⟨t, ht, x, hx, hc⟩
      obtain ⟨d, hd, h⟩ := h2 t ht
      rw [hx] at h; cases h
      obtain ⟨j, hj, rfl⟩ := List.mem_map.mp hc
      exact ⟨t, ht, d, hd, j, by simpa using hj, rfl⟩
    · rintro ⟨t, ht, d, hd, j, hj, rfl⟩
      obtain ⟨d', hd', h⟩ := h2 t ht
      rw [hd] at hd'; cases hd'
      exact ⟨t, ht, _, h, List.mem_map.mpr ⟨j, by simpa using hj, rfl⟩⟩

/-- C48: the method builds a graph for every supported input. -/
theorem C48_total (hB : SdfOK B) : ∃ cs, generateLCG B = some cs := (lcg_mem hB).imp fun _ h => h.1

theorem need_self (l : Int) : need 1 1 1 (l + 1) = l := by
  unfold need
  simp

theorem iterationStart_eq (hB : SdfOK B) {t : KTask} (ht : t ∈ B.tasks) {d : ℚ} (hd : t.durations = [d]) (E : Event → ℚ) (Ω : ℚ) :
    iterationStart E Ω t = (fun k => lcgEnd E Ω t.id t.ni.toNat k - d) ∧
    (fun k => iterationStart E Ω t k + t.dur k) = lcgEnd E Ω t.id t.ni.toNat := by
  obtain ⟨d', hd', h⟩ := sdf_dur hB ht
  rw [hd] at hd'; cases hd'
  constructor
  · funext k; unfold iterationStart lcgEnd; rw [h]; ring
  · funext k; unfold iterationStart lcgEnd; ring

/-- C48: completion times satisfy all the constraints for a period `Ω` exactly when, repeated every `Ω`, they form a
valid infinite schedule. -/
theorem C48_valid (hB : SdfOK B) {cs : List EvConstraint} (hcs : generateLCG B = some cs) (E : Event → ℚ) (Ω : ℚ) :
    (∀ c ∈ cs, E c.src + c.w - Ω * c.d ≤ E c.dst) ↔ ValidStarts B (iterationStart E Ω) := by
  obtain ⟨cs', h, hmem⟩ := lcg_mem hB
  rw [hcs] at h; cases h
  have hself : ∀ t ∈ B.tasks, ∀ d, t.durations = [d] →
      ((∀ j < t.ni.toNat, E (lcgC t t 0 1 1 1 d j).src + (lcgC t t 0 1 1 1 d j).w - Ω * (lcgC t t 0 1 1 1 d j).d
        ≤ E (lcgC t t 0 1 1 1 d j).dst) ↔ ∀ k, iterationStart E Ω t k + t.dur k ≤ iterationStart E Ω t (k + 1)) := by
    intro t ht d hd
    have hN := (hB.base.tasks t ht).ni
    rw [lcg_prec one_pos hN hN rfl]
    obtain ⟨e1, e2⟩ := iterationStart_eq hB ht hd E Ω
    constructor
    · intro H k
      have := H k (k + 1) (by rw [need_self]; push_cast; rfl)
      rw [← e1, ← e2] at this
      exact this
    · intro H k l hkl
      rw [need_self] at hkl
      have : l = k + 1 := by omega
      subst this
      rw [← e1, ← e2]
      exact H k
  constructor
  · intro H
    have hno : ∀ t ∈ B.tasks, ∀ k, iterationStart E Ω t k + t.dur k ≤ iterationStart E Ω t (k + 1) := by
      intro t ht
      obtain ⟨d, hd, -⟩ := sdf_dur hB ht
      exact (hself t ht d hd).mp fun j hj => H _ ((hmem _).mpr (Or.inl ⟨t, ht, d, hd, j, hj, rfl⟩))
    refine ⟨hno, fun c hc => ?_⟩
    obtain ⟨a, b, x1, x2, x3, x4, x5, x6⟩ := sdf_chan hB hc
    obtain ⟨d, hd, -⟩ := sdf_dur hB b
    obtain ⟨ds, hds, -⟩ := sdf_dur hB a
    have hV : ∀ t ∈ B.tasks, Monotone (iterationStart E Ω t) ∧ Monotone (fun k => iterationStart E Ω t k + t.dur k) := by
      intro t ht
      refine ⟨monotone_nat_of_le_succ fun k => ?_, monotone_nat_of_le_succ fun k => ?_⟩
      · have h1 := hno t ht k
        have h2 := dur_nonneg (hB.base.tasks t ht).phases (hB.base.tasks t ht).durNonneg k
        linarith
      · have h1 := hno t ht k
        have h2 := dur_nonneg (hB.base.tasks t ht).phases (hB.base.tasks t ht).durNonneg (k + 1)
        linarith
    rw [x5, x6, prec_iff x1 x2.le x3 (hV _ a).2 (hV _ b).1, (iterationStart_eq hB a hds E Ω).2, (iterationStart_eq hB b hd E Ω).1,
      ← lcg_prec (edge := c.1.id) x1 (hB.base.tasks _ a).ni (hB.base.tasks _ b).ni x4]
    exact fun j hj => H _ ((hmem _).mpr (Or.inr ⟨c, hc, d, hd, j, hj, rfl⟩))
  · intro H c hc
    rcases (hmem c).mp hc with ⟨t, ht, d, hd, j, hj, rfl⟩ | ⟨e, he, d, hd, j, hj, rfl⟩
    · exact (hself t ht d hd).mpr (H.noOverlap t ht) j hj
    · obtain ⟨a, b, x1, x2, x3, x4, x5, x6⟩ := sdf_chan hB he
      obtain ⟨ds, hds, -⟩ := sdf_dur hB a
      have := H.channels e he
      rw [x5, x6, prec_iff x1 x2.le x3 (ends_mono hB.base H a) (starts_mono hB.base H b), (iterationStart_eq hB a hds E Ω).2,
        (iterationStart_eq hB b hd E Ω).1, ← lcg_prec (edge := e.1.id) x1 (hB.base.tasks _ a).ni (hB.base.tasks _ b).ni x4] at this
      exact this j hj

/-! ### The maximum cycle ratio is the best period -/

/-- Weight and duration exchanged. -/
def swapWD (c : EvConstraint) : EvConstraint := { c with w := c.d, d := c.w }

theorem walk_swap {cs : List EvConstraint} {p : List EvConstraint} {u v : Event} :
    IsWalk (cs.map swapWD) u (p.map swapWD) v ↔ IsWalk cs u p v := by
  induction p generalizing u with
  | nil => rfl
  | cons c p ih =>
    simp only [List.map_cons, IsWalk]
    rw [show (swapWD c).dst = c.dst from rfl, show (swapWD c).src = c.src from rfl, ih]
    refine and_congr ⟨fun h => ?_, fun h => List.mem_map.mpr ⟨c, h, rfl⟩⟩ Iff.rfl
    obtain ⟨e, he, h⟩ := List.mem_map.mp h
    have : e = c := by
      cases e; cases c; simp only [swapWD, EvConstraint.mk.injEq] at h ⊢
      obtain ⟨a1, a2, a3, a4, a5⟩ := h
      exact ⟨a1, a2, a4, a3, a5⟩
    rwa [← this]

theorem swap_swap (p : List EvConstraint) : (p.map swapWD).map swapWD = p := by
  rw [List.map_map]; exact List.map_id' p

theorem total_swap (p : List EvConstraint) : totalD (p.map swapWD) = totalW p ∧ totalW (p.map swapWD) = totalD p := by
  unfold totalD totalW
  rw [List.map_map, List.map_map]
  exact ⟨rfl, rfl⟩

/-- The block of executions an event stands for under an arbitrary schedule: completion in iteration `b`. -/
def lcgBlock (B : BaseGraph) (σ : Int → ℕ → ℚ) (e : Event) (b : ℕ) : ℚ :=
  ((B.find e.task).map fun t => σ t.id ((e.iter - 1).toNat + b * t.ni.toNat) + t.dur 0).getD 0

theorem lcgBlock_eq (hB : SdfOK B) (σ : Int → ℕ → ℚ) {t : KTask} (ht : t ∈ B.tasks) (i : Int) (b : ℕ) :
    lcgBlock B σ ⟨t.id, 1, i⟩ b = σ t.id ((i - 1).toNat + b * t.ni.toNat) + t.dur 0 := by
  unfold lcgBlock
  simp only [find_eq hB.base ht, Option.map_some, Option.getD_some]

theorem lcg_shift (hB : SdfOK B) {σ : Int → ℕ → ℚ} {s t : KTask} (hs : s ∈ B.tasks) (ht : t ∈ B.tasks)
    {edge mc nc dc : Int} (hm : 0 < mc) (hb : s.ni * mc = t.ni * nc) {d : ℚ} (hd : t.durations = [d])
    (H : Prec mc nc dc (fun k => σ s.id k + s.dur k) (σ t.id)) {j : ℕ} :
    Shifts (lcgBlock B σ) 1 (swapWD (lcgC s t edge mc nc dc d j)) := by
  have hN := (hB.base.tasks s hs).ni
  have hN' := (hB.base.tasks t ht).ni
  refine ⟨(need mc nc dc (j + 1) - 1) / s.ni, ?_, fun b b' hbb => ?_⟩
  · simp [swapWD, lcgC]
  · set P := need mc nc dc (j + 1) - 1 with hP
    have h1 := Int.emod_add_mul_ediv P s.ni
    have h2 := Int.emod_nonneg P hN.ne'
    have e2 : ((t.ni.toNat : ℕ) : Int) = t.ni := by omega
    have e1 : ((s.ni.toNat : ℕ) : Int) = s.ni := by omega
    have key := H ((P % s.ni + 1 - 1).toNat + b' * s.ni.toNat) (j + b * t.ni.toNat) (by
      push_cast
      rw [e1, e2, show (j : Int) + b * t.ni + 1 = (j + 1) + b * t.ni by ring, need_shift hm hb,
        show P % s.ni + 1 - 1 = P % s.ni by ring, Int.toNat_of_nonneg h2, hbb]
      have : need mc nc dc (j + 1) = P + 1 := by rw [hP]; ring
      rw [this]
      linarith [add_mul (b : Int) (P / s.ni) s.ni, mul_comm s.ni (P / s.ni)])
    show lcgBlock B σ ⟨s.id, 1, P % s.ni + 1⟩ b' + d ≤ lcgBlock B σ ⟨t.id, 1, (j : Int) + 1⟩ b
    rw [lcgBlock_eq hB σ hs, lcgBlock_eq hB σ ht]
    obtain ⟨d1, -, hd1⟩ := sdf_dur hB hs
    obtain ⟨d2, hd2', hd2⟩ := sdf_dur hB ht
    rw [hd] at hd2'; cases hd2'
    dsimp only at key
    rw [hd1] at key ⊢
    rw [hd2, show ((j : Int) + 1 - 1).toNat = j by omega]
    linarith

/-- C48: the maximum cycle ratio of the constraint graph is the least period that any schedule of the graph, periodic or
not, can sustain. The printed throughput is its inverse. -/
theorem C48_optimal (hB : SdfOK B) {cs : List EvConstraint} (hcs : generateLCG B = some cs) {r : ℚ} {p : List EvConstraint}
    (hp : MaxRatio cs r p) : IsLeast (SustainablePeriods B) r := by
  obtain ⟨cs', h, hmem⟩ := lcg_mem hB
  rw [hcs] at h; cases h
  constructor
  · -- attained
    have hev : ∀ c ∈ cs.map swapWD, c.src ∈ lcgEvents B ∧ c.dst ∈ lcgEvents B := by
      have key : ∀ s ∈ B.tasks, ∀ t ∈ B.tasks, ∀ (edge mc nc dc : Int) (d : ℚ), ∀ j < t.ni.toNat,
          (swapWD (lcgC s t edge mc nc dc d j)).src ∈ lcgEvents B ∧ (swapWD (lcgC s t edge mc nc dc d j)).dst ∈ lcgEvents B := by
        intro s hs t ht edge mc nc dc d j hj
        have hN := (hB.base.tasks s hs).ni
        have h2 := Int.emod_nonneg (need mc nc dc (j + 1) - 1) hN.ne'
        have h3 := Int.emod_lt_of_pos (need mc nc dc (j + 1) - 1) hN
        constructor
        · refine List.mem_flatMap.mpr ⟨s, hs, List.mem_map.mpr ⟨((need mc nc dc (j + 1) - 1) % s.ni).toNat, ?_, ?_⟩⟩
          · rw [List.mem_range]; omega
          · show _ = (⟨s.id, 1, (need mc nc dc (j + 1) - 1) % s.ni + 1⟩ : Event)
            rw [Int.toNat_of_nonneg h2]
        · exact List.mem_flatMap.mpr ⟨t, ht, List.mem_map.mpr ⟨j, by simpa using hj, rfl⟩⟩
      intro c' hc'
      obtain ⟨c, hc, rfl⟩ := List.mem_map.mp hc'
      rcases (hmem c).mp hc with ⟨t, ht, d, hd, j, hj, rfl⟩ | ⟨e, he, d, hd, j, hj, rfl⟩
      · exact key t ht t ht _ _ _ _ _ j hj
      · obtain ⟨a, b, -⟩ := sdf_chan hB he
        exact key _ a _ b _ _ _ _ _ j hj
    have hno : NoPositiveCircuit (cs.map swapWD) r := by
      intro u q hq
      rw [← swap_swap q, walk_swap] at hq
      have h1 := hp.best u _ hq
      obtain ⟨e1, e2⟩ := total_swap (q.map swapWD)
      rw [swap_swap] at e1 e2
      have h2 : (q.map fun c => c.d - r * c.w).sum = totalD q - r * totalW q := by
        unfold totalD totalW
        clear h1 hq e1 e2
        induction q with
        | nil => simp
        | cons e p ih => simp only [List.map_cons, List.sum_cons]; rw [ih]; ring
      rw [h2, e1, e2]
      linarith
    obtain ⟨-, a2, a3⟩ := C21_starting_times (lcgEvents B) (cs.map swapWD) r hev
    set E := (computeStartingTime (lcgEvents B) (cs.map swapWD) (some r)).2
    have hfeas := a2.mpr hno
    have hval : ValidStarts B (iterationStart E r) := by
      rw [← C48_valid hB hcs]
      intro c hc
      exact hfeas _ (List.mem_map.mpr ⟨c, hc, rfl⟩)
    have hr : 0 ≤ r := by
      have h1 : 0 ≤ totalW p := by
        obtain ⟨u, hu⟩ := hp.circuit
        unfold totalW
        refine List.sum_nonneg fun x hx => ?_
        obtain ⟨c, hc, rfl⟩ := List.mem_map.mp hx
        obtain ⟨_, _, _, _, hcc, _⟩ := walk_split hu hc
        have dn : ∀ t ∈ B.tasks, ∀ d, t.durations = [d] → 0 ≤ d := fun t ht d hd =>
          (hB.base.tasks t ht).durNonneg d (by rw [hd]; simp)
        rcases (hmem c).mp hcc with ⟨t, ht, d, hd, j, hj, rfl⟩ | ⟨e, he, d, hd, j, hj, rfl⟩
        · exact dn t ht d hd
        · exact dn _ (sdf_chan hB he).2.1 d hd
      rw [hp.ratio] at h1
      by_contra hc
      have := mul_neg_of_neg_of_pos (not_le.mp hc) hp.posD
      linarith
    refine sustainable_of_starts hB.base hval fun t ht => ?_
    have hN := (hB.base.tasks t ht).ni
    have hNq : (0 : ℚ) < t.ni := by exact_mod_cast hN
    have hNN : ((t.ni.toNat : ℕ) : ℚ) = t.ni := by
      rw [← Int.cast_natCast, Int.toNat_of_nonneg hN.le]
    refine ⟨∑ x ∈ range t.ni.toNat, |E ⟨t.id, 1, (x : Int) + 1⟩|, fun k => ?_⟩
    have h1 : |E ⟨t.id, 1, ((k % t.ni.toNat : ℕ) : Int) + 1⟩| ≤ ∑ x ∈ range t.ni.toNat, |E ⟨t.id, 1, (x : Int) + 1⟩| :=
      Finset.single_le_sum (f := fun x : ℕ => |E ⟨t.id, 1, (x : Int) + 1⟩|) (fun _ _ => abs_nonneg _)
        (mem_range.mpr (Nat.mod_lt _ (show 0 < t.ni.toNat by omega)))
    have h2 := le_abs_self (E ⟨t.id, 1, ((k % t.ni.toNat : ℕ) : Int) + 1⟩)
    have h3 := dur_nonneg (hB.base.tasks t ht).phases (hB.base.tasks t ht).durNonneg k
    have h4 : ((k / t.ni.toNat : ℕ) : ℚ) * r ≤ r * k / t.ni := by
      rw [le_div_iff₀ hNq, ← hNN]
      have : ((k / t.ni.toNat : ℕ) : ℚ) * t.ni.toNat ≤ k := by exact_mod_cast Nat.div_mul_le_self k t.ni.toNat
      have := mul_le_mul_of_nonneg_left this hr
      linarith
    unfold iterationStart
    linarith
  · -- no schedule does better
    rintro Ω ⟨σ, hσ, hsus⟩
    obtain ⟨u, hu⟩ := hp.circuit
    have mono : ∀ t ∈ B.tasks, Monotone (σ t.id) ∧ Monotone (fun k => σ t.id k + t.dur k) := by
      intro t ht
      refine ⟨monotone_nat_of_le_succ fun k => ?_, monotone_nat_of_le_succ fun k => ?_⟩
      · have h1 := hσ.noOverlap t ht k
        have h2 := dur_nonneg (hB.base.tasks t ht).phases (hB.base.tasks t ht).durNonneg k
        linarith
      · have h1 := hσ.noOverlap t ht k
        have h2 := dur_nonneg (hB.base.tasks t ht).phases (hB.base.tasks t ht).durNonneg (k + 1)
        linarith
    have hshift : ∀ c ∈ p.map swapWD, Shifts (lcgBlock B σ) 1 c := by
      intro c' hc'
      obtain ⟨c, hc, rfl⟩ := List.mem_map.mp hc'
      obtain ⟨_, _, _, _, hcc, _⟩ := walk_split hu hc
      rcases (hmem c).mp hcc with ⟨t, ht, d, hd, j, hj, rfl⟩ | ⟨e, he, d, hd, j, hj, rfl⟩
      · refine lcg_shift hB ht ht one_pos rfl hd ?_
        intro k l hkl
        rw [need_self] at hkl
        have : l = k + 1 := by omega
        subst this
        exact hσ.noOverlap t ht k
      · obtain ⟨a, b, x1, x2, x3, x4, x5, x6⟩ := sdf_chan hB he
        refine lcg_shift hB a b x1 x4 hd ?_
        rw [← prec_iff x1 x2.le x3 (mono _ a).2 (mono _ b).1, ← x5, ← x6]
        exact hσ.channels e he
    obtain ⟨c0, hc0, hu0⟩ : ∃ c ∈ p, c.src = u := by
      cases p with
      | nil => have := hp.posD; simp [totalD] at this
      | cons c p => exact ⟨c, by simp, hu.2.1⟩
    obtain ⟨t, ht, i, hi, hut⟩ : ∃ t ∈ B.tasks, ∃ i : ℕ, i < t.ni.toNat ∧ u = ⟨t.id, 1, (i : Int) + 1⟩ := by
      obtain ⟨_, _, _, _, hcc, _⟩ := walk_split hu hc0
      have key : ∀ s ∈ B.tasks, ∀ z : Int, ∃ i : ℕ, i < s.ni.toNat ∧ (⟨s.id, 1, z % s.ni + 1⟩ : Event) = ⟨s.id, 1, (i : Int) + 1⟩ := by
        intro s hs z
        have hN := (hB.base.tasks s hs).ni
        have h2 := Int.emod_nonneg z hN.ne'
        have h3 := Int.emod_lt_of_pos z hN
        exact ⟨(z % s.ni).toNat, by omega, by rw [Int.toNat_of_nonneg h2]⟩
      rcases (hmem c0).mp hcc with ⟨t, ht, d, hd, j, hj, rfl⟩ | ⟨e, he, d, hd, j, hj, rfl⟩
      · obtain ⟨i, h1, h2⟩ := key t ht (need 1 1 1 (j + 1) - 1)
        exact ⟨t, ht, i, h1, by rw [← hu0, ← h2]; rfl⟩
      · obtain ⟨i, h1, h2⟩ := key _ (sdf_chan hB he).1 (need e.1.inPhases.sum e.1.outPhases.sum e.1.preload (j + 1) - 1)
        exact ⟨_, (sdf_chan hB he).1, i, h1, by rw [← hu0, ← h2]; rfl⟩
    obtain ⟨C, hC⟩ := hsus t ht
    have hN := (hB.base.tasks t ht).ni
    have hNq : (0 : ℚ) < t.ni := by exact_mod_cast hN
    have hNN : ((t.ni.toNat : ℕ) : ℚ) = t.ni := by
      rw [← Int.cast_natCast, Int.toNat_of_nonneg hN.le]
    have hbound : ∀ b : ℕ, lcgBlock B σ u b ≤ Ω * b / 1 + (Ω * i / t.ni + C + t.dur 0) := by
      intro b
      rw [hut, lcgBlock_eq hB σ ht, show ((i : Int) + 1 - 1).toNat = i by omega]
      have := hC (i + b * t.ni.toNat)
      have e : Ω * ((i + b * t.ni.toNat : ℕ) : ℚ) / t.ni = Ω * b + Ω * i / t.ni := by
        push_cast
        rw [hNN]
        field_simp
        ring
      rw [e] at this
      linarith
    obtain ⟨e1, e2⟩ := total_swap p
    have := circuit_bound (cs := cs.map swapWD) one_pos (walk_swap.mpr hu) hshift (by rw [e2]; exact hp.posD) hbound
    rw [e1, e2, hp.ratio] at this
    exact le_of_mul_le_mul_right this hp.posD

/-- C48: de Groote's method and K-Iter, both with an exact cycle ratio solver, report the same throughput. -/
theorem C48_agrees_with_kiter (hB : SdfOK B) {cs : List EvConstraint} (hcs : generateLCG B = some cs) {r : ℚ}
    {p : List EvConstraint} (hp : MaxRatio cs r p) (solve : List EvConstraint → Option (ℚ × List EvConstraint))
    (hsolve : ∀ cs th p, solve cs = some (th, p) → ExactRatio cs th p) (fuel : ℕ) (k : KIterResult)
    (hk : kiter solve B fuel = some (some k)) : 1 / r = k.throughput := by
  have := (C48_optimal hB hcs hp).unique (C52_kiter_optimal hB.base solve hsolve fuel k hk).1
  rw [this, one_div_one_div]

end

/-! ### A concrete case -/

/-- Completion times that satisfy all constraints for the ratio of a circuit prove that no circuit has a larger one. -/
theorem maxRatio_of_certificate {cs : List EvConstraint} {r : ℚ} {p : List EvConstraint} (E : Event → ℚ)
    (hc : ∃ u, IsWalk cs u p u) (hD : 0 < totalD p) (hr : totalW p = r * totalD p)
    (hE : ∀ c ∈ cs, E c.src + c.w - r * c.d ≤ E c.dst) : MaxRatio cs r p := by
  refine ⟨hc, hD, hr, fun u q hq => ?_⟩
  have : ∀ (q : List EvConstraint) (u v : Event), IsWalk cs u q v → E u + totalW q - r * totalD q ≤ E v := by
    intro q
    induction q with
    | nil => intro u v h; simp only [IsWalk] at h; subst h; simp [totalW, totalD]
    | cons c q ih =>
      rintro u v ⟨h1, rfl, h3⟩
      have a := hE c h1
      have b := ih _ _ h3
      simp only [totalW, totalD, List.map_cons, List.sum_cons] at b ⊢
      linarith
  have := this q u u hq
  linarith

namespace LcgExample
def A : KTask := ⟨0, [1], [], 1, 2⟩
def B : KTask := ⟨1, [2], [], 1, 3⟩
def fwd : KChannel := ⟨1, [3], [2], [], [], 0, 1⟩
def bwd : KChannel := ⟨2, [2], [3], [], [], 4, 1⟩
def G : BaseGraph := ⟨[A, B], [(fwd, A, B), (bwd, B, A)]⟩

theorem G_ok : SdfOK G := by
  have fwd_ok : ChannelOK fwd A B :=
    ⟨rfl, rfl, rfl, rfl, by decide, by decide, by decide, by decide, by decide, by decide, by decide, by decide, by decide⟩
  have bwd_ok : ChannelOK bwd B A :=
    ⟨rfl, rfl, rfl, rfl, by decide, by decide, by decide, by decide, by decide, by decide, by decide, by decide, by decide⟩
  have A_ok : TaskOK A 1 := ⟨by decide, rfl, by decide, by decide, by decide, by decide⟩
  have B_ok : TaskOK B 1 := ⟨by decide, rfl, by decide, by decide, by decide, by decide⟩
  refine ⟨⟨?_, ?_, ?_, ?_, ?_⟩, by simp [G, A, B], by simp [G, A, B]⟩
  · simp [G, A, B]
  · intro t ht; simp only [G, List.mem_cons, List.not_mem_nil, or_false] at ht
    rcases ht with rfl | rfl
    · exact A_ok
    · exact B_ok
  · simp [G, A, B]
  · intro c hc; simp only [G, List.mem_cons, List.not_mem_nil, or_false] at hc
    rcases hc with rfl | rfl
    · exact ⟨by simp [G], by simp [G], fwd_ok⟩
    · exact ⟨by simp [G], by simp [G], bwd_ok⟩
  · simp [G, fwd, bwd]

/-- The five constraints of the channels and the five of the reentrancy loops. -/
def cs : List EvConstraint :=
  [⟨⟨0, 1, 2⟩, ⟨0, 1, 1⟩, 1, 1, 0⟩, ⟨⟨0, 1, 1⟩, ⟨0, 1, 2⟩, 1, 0, 0⟩,
   ⟨⟨1, 1, 3⟩, ⟨1, 1, 1⟩, 2, 1, 0⟩, ⟨⟨1, 1, 1⟩, ⟨1, 1, 2⟩, 2, 0, 0⟩, ⟨⟨1, 1, 2⟩, ⟨1, 1, 3⟩, 2, 0, 0⟩,
   ⟨⟨0, 1, 1⟩, ⟨1, 1, 1⟩, 2, 0, 1⟩, ⟨⟨0, 1, 2⟩, ⟨1, 1, 2⟩, 2, 0, 1⟩, ⟨⟨0, 1, 2⟩, ⟨1, 1, 3⟩, 2, 0, 1⟩,
   ⟨⟨1, 1, 3⟩, ⟨0, 1, 1⟩, 1, 1, 2⟩, ⟨⟨1, 1, 1⟩, ⟨0, 1, 2⟩, 1, 0, 2⟩]

theorem G_lcg : generateLCG G = some cs := by decide +kernel

/-- The critical circuit A1, B1, A2, B2, B3. -/
def crit : List EvConstraint :=
  [⟨⟨0, 1, 1⟩, ⟨1, 1, 1⟩, 2, 0, 1⟩, ⟨⟨1, 1, 1⟩, ⟨0, 1, 2⟩, 1, 0, 2⟩, ⟨⟨0, 1, 2⟩, ⟨1, 1, 2⟩, 2, 0, 1⟩,
   ⟨⟨1, 1, 2⟩, ⟨1, 1, 3⟩, 2, 0, 0⟩, ⟨⟨1, 1, 3⟩, ⟨0, 1, 1⟩, 1, 1, 2⟩]

theorem G_ratio : MaxRatio cs 8 crit := by
  refine maxRatio_of_certificate (fun e => if e.task = 0 then (if e.iter = 1 then 1 else 4)
    else if e.iter = 1 then 3 else if e.iter = 2 then 6 else 8) ⟨⟨0, 1, 1⟩, ?_⟩ (by decide +kernel) (by decide +kernel) (by decide +kernel)
  simp [IsWalk, crit, cs]
end LcgExample

/-- C48 applies to a multirate graph whose best period is 8. -/
example : IsLeast (SustainablePeriods LcgExample.G) 8 :=
  C48_optimal LcgExample.G_ok LcgExample.G_lcg LcgExample.G_ratio

end Kiter
