/-
Property C111: what `kiter -f file.xml -a KPeriodicThroughput` reports about the graph that the file describes.
-/
import Verif.Lemmas.FileThroughput
import Verif.Lemmas.ExactSolver
import Verif.Props.Reentrant
import Verif.Props.SDF3

set_option autoImplicit false

namespace Kiter

open SDF3 FileT

variable {g : SDF3.Graph}

/-- The cycle ratio solver answers correctly, if it answers, on event graphs without circuits of duration 0. -/
def SolverCorrect (solve : List EvConstraint → Option (ℚ × List EvConstraint)) : Prop :=
  ∀ cs th p, (∀ c u, c ≠ [] → IsWalk cs u c u → 0 < totalD c) → solve cs = some (th, p) → CycleAnswer cs th p

theorem exhaustive_correct : SolverCorrect exhaustive := fun _ _ _ h hs => exhaustive_answer h hs

/-- The analysis of a consistent graph whose tasks are not reentrant is K-Iter on a graph of the same schedules. -/
theorem FileT.analysed (hg : Analysable g) (hre : ∀ a ∈ g.actors, 0 < a.reent) (hc : FileConsistent g) :
    ∃ q B, FileSmallest g q ∧ Matches g q B ∧ BaseOK B ∧ ∀ solve fuel, analyse solve fuel g = kiter solve B fuel := by
  obtain ⟨G, hG, -⟩ := repGraph_eq hg
  obtain ⟨-, h2, h3⟩ := vector hg hG
  obtain ⟨N, hN⟩ := h2 hc
  obtain ⟨q, hq, hni⟩ := h3 N hN
  obtain ⟨B, hB, hm, b1, b2, b3, b4⟩ := base hg hc.1 hq.iteration hni
  refine ⟨q, B, hq, hm, ⟨b1, fun t ht => ?_, fun t ht => (b2 t ht).1, b3, b4⟩, fun solve fuel => ?_⟩
  · obtain ⟨-, c2, c3, c4, c5⟩ := b2 t ht
    obtain ⟨i, a, ha, rfl⟩ := hm.tasks t ht
    exact ⟨c3, c4, c5, hre a (List.mem_of_getElem? ha), c2, Nat.one_pos⟩
  · unfold analyse
    rw [hG, Option.bind_some, hN]
    show (baseOf g (niAt N)).bind _ = _
    rw [hB, Option.bind_some]

theorem FileT.inconsistent (hg : Analysable g) (hc : ¬ FileConsistent g) (solve : List EvConstraint → Option (ℚ × List EvConstraint))
    (fuel : ℕ) : analyse solve fuel g = none := by
  obtain ⟨G, hG, -⟩ := repGraph_eq hg
  have h1 := (vector hg hG).1 hc
  unfold analyse
  rw [hG, Option.bind_some]
  split
  · rename_i N hN
    exact absurd hN (h1 N)
  · rfl

theorem FileT.positive {q : ℕ → Int} {B : BaseGraph} (hm : Matches g q B) (hpos : ∀ a ∈ g.actors, ∀ d ∈ a.durs, 0 < d) :
    ∀ t ∈ B.tasks, ∀ d ∈ t.durations, 0 < d := by
  intro t ht d hd
  obtain ⟨i, a, ha, rfl⟩ := hm.tasks t ht
  obtain ⟨x, hx, rfl⟩ := List.mem_map.mp hd
  exact_mod_cast hpos a (List.mem_of_getElem? ha) x hx

/-- **C111** Whatever document is read: if the graph that it describes has no initial phases, positive durations and no
reentrant task, then a reported throughput is right. A positive one is the inverse of the least time per iteration of all
schedules of the graph, where the iteration is the smallest one; otherwise the graph has no schedule. -/
theorem C111_file_throughput (lib : Lib) (doc : Node) (hread : read lib doc = some g) (hg : Analysable g)
    (hpos : ∀ a ∈ g.actors, ∀ d ∈ a.durs, 0 < d) (hre : ∀ a ∈ g.actors, 0 < a.reent)
    (solve : List EvConstraint → Option (ℚ × List EvConstraint)) (hs : SolverCorrect solve) (fuel : ℕ) (r : KIterResult)
    (hr : kiterFile lib solve fuel doc = some (some r)) :
    ∃ q, FileSmallest g q ∧ (0 < r.throughput → IsLeast (FilePeriods g q) (1 / r.throughput)) ∧
      (r.throughput ≤ 0 → ¬ ∃ σ, FileSchedule g σ) := by
  unfold kiterFile at hr
  rw [hread, Option.bind_some] at hr
  by_cases hc : FileConsistent g
  · obtain ⟨q, B, hq, hm, hB, ha⟩ := analysed hg hre hc
    rw [ha] at hr
    have hp := FileT.positive hm hpos
    have v := C52_kiter_verdict hB solve (fun K cs th p hK hcs h => hs cs th p (fun c u hne hw =>
      event_noNull hB hp hK.1 hcs hne fun e he => (Howard.walk_srcs _ _ _ hw e he).1) h) fuel r hr
    refine ⟨q, hq, fun h => ?_, fun h ⟨τ, hτ⟩ => v.2 h ⟨byId τ, (valid_iff hm (byId_succ τ)).mpr hτ⟩⟩
    rw [← periods hm]
    exact (v.1 h).1
  · rw [FileT.inconsistent hg hc] at hr
    cases hr

/-- **C111** An answer always comes for consistent graphs, and only for them, when the solver finds a circuit wherever
there is one. -/
theorem C111_answers (lib : Lib) (doc : Node) (hread : read lib doc = some g) (hg : Analysable g)
    (hpos : ∀ a ∈ g.actors, ∀ d ∈ a.durs, 0 < d) (hre : ∀ a ∈ g.actors, 0 < a.reent)
    (solve : List EvConstraint → Option (ℚ × List EvConstraint))
    (hans : ∀ cs, (∀ c u, c ≠ [] → IsWalk cs u c u → 0 < totalD c) → (∃ c u, c ≠ [] ∧ IsWalk cs u c u) → solve cs ≠ none) :
    (FileConsistent g ↔ ∃ fuel r, kiterFile lib solve fuel doc = some (some r)) ∧
    (FileConsistent g → ∃ enough, ∀ fuel, enough ≤ fuel → ∃ r, kiterFile lib solve fuel doc = some (some r)) := by
  have key : FileConsistent g → ∃ enough, ∀ fuel, enough ≤ fuel → ∃ r, kiterFile lib solve fuel doc = some (some r) := by
    intro hc
    obtain ⟨q, B, hq, hm, hB, ha⟩ := analysed hg hre hc
    have hp := FileT.positive hm hpos
    refine ⟨primeBound B + 1, fun fuel hf => ?_⟩
    obtain ⟨t1, -, t3⟩ := C20_terminates hB solve fuel (by omega)
    have hne : B.tasks ≠ [] := by
      obtain ⟨a, l, hl⟩ := List.exists_cons_of_ne_nil hg.tasks
      exact List.ne_nil_of_mem (hm.task 0 a (by rw [hl]; rfl))
    obtain ⟨t, ht⟩ := List.exists_mem_of_ne_nil _ hne
    have h3 := t3 fun K cs hK hcs => by
      have hn : ∀ c u, c ≠ [] → IsWalk cs u c u → 0 < totalD c := fun c u hne hw =>
        event_noNull hB hp hK.1 hcs hne fun e he => (Howard.walk_srcs _ _ _ hw e he).1
      refine hans cs hn ?_
      obtain ⟨x, hx⟩ := (exhaustive_event_pos hB hp hK.1 hcs).2 hne
      obtain ⟨u, hu⟩ := (exhaustive_answer hn hx).circuit
      refine ⟨x.2, u, fun h => ?_, hu⟩
      have := (exhaustive_answer hn hx).posD
      rw [h] at this
      simp [totalD] at this
    unfold kiterFile
    rw [hread, Option.bind_some, ha]
    cases hk : kiter solve B fuel with
    | none => exact absurd hk h3
    | some o =>
      cases o with
      | none => exact absurd hk t1
      | some r => exact ⟨r, rfl⟩
  refine ⟨⟨fun hc => ?_, fun ⟨fuel, r, hr⟩ => ?_⟩, key⟩
  · obtain ⟨n, h⟩ := key hc
    obtain ⟨r, hr⟩ := h n le_rfl
    exact ⟨n, r, hr⟩
  · by_contra hc
    unfold kiterFile at hr
    rw [hread, Option.bind_some, FileT.inconsistent hg hc] at hr
    cases hr

/-- **C111** With reentrant tasks (the default for a task of a file, SDF3Wrapper.cpp:501) whose phases all last as long, the
report is never pessimistic: no schedule is faster. It can be too optimistic, see `C100_kiter_optimistic`. -/
theorem C111_reentrant_partial (lib : Lib) (doc : Node) (hread : read lib doc = some g) (hg : Analysable g)
    (hcon : ∀ a ∈ g.actors, a.reent ≤ 0 → ∀ d ∈ a.durs, ∀ d' ∈ a.durs, d = d')
    (solve : List EvConstraint → Option (ℚ × List EvConstraint))
    (hs : ∀ cs th p, solve cs = some (th, p) → CycleAnswer cs th p) (fuel : ℕ) (r : KIterResult)
    (hr : kiterFile lib solve fuel doc = some (some r)) :
    ∃ q, FileSmallest g q ∧
      (0 < r.throughput → ∀ σ Ω, FileReentrant g σ → FileSustains g q σ Ω → 1 / r.throughput ≤ Ω) ∧
      (r.throughput ≤ 0 → ¬ ∃ σ, FileReentrant g σ) := by
  unfold kiterFile at hr
  rw [hread, Option.bind_some] at hr
  obtain ⟨G, hG, -⟩ := repGraph_eq hg
  obtain ⟨k1, -, h3⟩ := vector hg hG
  unfold analyse at hr
  rw [hG, Option.bind_some] at hr
  split at hr
  · rename_i N hN
    obtain ⟨q, hq, hni⟩ := h3 N hN
    have hc : FileConsistent g := by
      by_contra h
      exact k1 h N hN
    obtain ⟨B, hB, hm, b1, b2, b3, b4⟩ := base hg hc.1 hq.iteration hni
    rw [hB, Option.bind_some] at hr
    have hR : ReBaseOK B := ⟨b1, fun t ht => by
      obtain ⟨-, c2, c3, c4, c5⟩ := b2 t ht
      obtain ⟨i, a, ha, rfl⟩ := hm.tasks t ht
      refine ⟨c3, c4, c5, fun h d hd d' hd' => ?_, c2⟩
      obtain ⟨x, hx, rfl⟩ := List.mem_map.mp hd
      obtain ⟨y, hy, rfl⟩ := List.mem_map.mp hd'
      rw [hcon a (List.mem_of_getElem? ha) h x hx y hy], fun t ht => (b2 t ht).1, b3, b4⟩
    obtain ⟨v1, v2⟩ := C100_never_pessimistic hR solve (fun _ cs th p _ _ h => hs cs th p h) fuel r hr
    refine ⟨q, hq, fun h σ Ω h1 h2 => v1 h Ω ⟨byId σ, (ordered_iff hm (byId_succ σ)).mpr h1, (sustains_iff hm (byId_succ σ) Ω).mpr h2⟩,
      fun h ⟨σ, h1⟩ => v2 h ⟨byId σ, (ordered_iff hm (byId_succ σ)).mpr h1⟩⟩
  · cases hr

/-- What graphs that differ only in identifiers and ports have in common. -/
theorem FileT.same_chan {g h : SDF3.Graph} (hp : plain h = plain g) : h.actors = g.actors ∧ ∀ e ∈ g.chans, ∃ f ∈ h.chans,
    f.src = e.src ∧ f.tgt = e.tgt ∧ f.ins = e.ins ∧ f.outs = e.outs ∧ f.iins = e.iins ∧ f.iouts = e.iouts ∧ f.preload = e.preload := by
  simp only [plain, Graph.mk.injEq] at hp
  obtain ⟨-, -, -, ha, hc⟩ := hp
  refine ⟨ha, fun e he => ?_⟩
  have : ({ e with id := 0, inPort := [], outPort := [] } : Chan) ∈
      h.chans.map fun e => { e with id := 0, inPort := [], outPort := [] } := by
    rw [hc]; exact List.mem_map_of_mem he
  obtain ⟨f, hf, hfe⟩ := List.mem_map.mp this
  simp only [Chan.mk.injEq] at hfe
  obtain ⟨-, -, h1, h2, h3, h4, h5, h6, h7, -⟩ := hfe
  exact ⟨f, hf, h1, h2, h3, h5, h4, h6, h7⟩

theorem FileT.same_schedule {g h : SDF3.Graph} (hp : plain h = plain g) {σ : ℕ → ℕ → ℚ} (hs : FileSchedule h σ) : FileSchedule g σ := by
  obtain ⟨ha, hc⟩ := same_chan hp
  refine ⟨fun i hi => hs.nonneg i (by rw [ha]; exact hi), fun i a hi => hs.noOverlap i a (by rw [ha]; exact hi), fun e he a hi => ?_⟩
  obtain ⟨f, hf, h1, h2, h3, h4, -, -, h7⟩ := hc e he
  have := hs.tokens f hf a (by rw [ha, h1]; exact hi)
  rwa [h1, h2, h3, h4, h7] at this

theorem FileT.same_sustains {g h : SDF3.Graph} (hp : plain h = plain g) {q : ℕ → Int} {σ : ℕ → ℕ → ℚ} {Ω : ℚ}
    (hs : FileSustains h q σ Ω) : FileSustains g q σ Ω := fun i a hi => hs i a (by rw [(same_chan hp).1]; exact hi)

theorem FileT.same_iteration {g h : SDF3.Graph} (hp : plain h = plain g) {q : ℕ → Int} (hs : FileIteration h q) : FileIteration g q := by
  obtain ⟨ha, hc⟩ := same_chan hp
  refine ⟨fun i hi => hs.pos i (by rw [ha]; exact hi), fun e he => ?_⟩
  obtain ⟨f, hf, h1, h2, h3, h4, -⟩ := hc e he
  have := hs.balanced f hf
  rwa [h1, h2, h3, h4] at this

theorem FileT.same_smallest {g h : SDF3.Graph} (hp : plain h = plain g) {q : ℕ → Int} (hs : FileSmallest h q) : FileSmallest g q := by
  have ha := (same_chan hp).1
  refine ⟨same_iteration hp hs.iteration, fun d hd => hs.coprime d fun i hi => hd i (by rw [← ha]; exact hi), fun hl q' hq' => ?_⟩
  have hc := (same_chan hp.symm).2
  obtain ⟨k, hk, h⟩ := hs.least (fun i hi j hj => by
    rw [ha] at hi hj
    refine (hl i hi j hj).lift id ?_
    rintro x y ⟨e, he, hxy⟩
    obtain ⟨f, hf, h1, h2, -⟩ := (same_chan hp).2 e he
    exact ⟨f, hf, by rw [h1, h2]; exact hxy⟩) q' (same_iteration hp.symm hq')
  exact ⟨k, hk, fun i hi => h i (by rw [ha]; exact hi)⟩

theorem FileT.same_analysable {g h : SDF3.Graph} (hp : plain h = plain g) (hids : (h.chans.map Chan.id).Nodup) (hg : Analysable g) :
    Analysable h := by
  obtain ⟨ha, hc⟩ := same_chan hp.symm
  refine ⟨by rw [← ha]; exact hg.tasks, by rw [← ha]; exact hg.durs, hids, ?_, ?_, ?_, ?_, fun i a hi => ?_⟩
  · intro e he
    obtain ⟨f, hf, h1, h2, h3, h4, h5, h6, h7⟩ := hc e he
    obtain ⟨a, h8, h9⟩ := hg.src f hf
    exact ⟨a, by rw [← ha, ← h1]; exact h8, by rw [← h3]; exact h9⟩
  · intro e he
    obtain ⟨f, hf, h1, h2, h3, h4, h5, h6, h7⟩ := hc e he
    obtain ⟨a, h8, h9⟩ := hg.tgt f hf
    exact ⟨a, by rw [← ha, ← h2]; exact h8, by rw [← h4]; exact h9⟩
  · intro e he
    obtain ⟨f, hf, h1, h2, h3, h4, h5, h6, h7⟩ := hc e he
    rw [← h5, ← h6]
    exact hg.noInit f hf
  · intro e he
    obtain ⟨f, hf, h1, h2, h3, h4, h5, h6, h7⟩ := hc e he
    rw [← h3, ← h4, ← h7]
    exact hg.nonneg f hf
  · rw [← ha] at hi
    rcases hg.attached i a hi with h | ⟨e, he, h⟩
    · exact Or.inl h
    · obtain ⟨f, hf, h1, h2, -⟩ := (same_chan hp).2 e he
      exact Or.inr ⟨f, hf, by rw [h1, h2]; exact h⟩

/-- **C111** The throughput of a graph that was saved with `PrintXML` and analysed from the file is that of the graph
itself. -/
theorem C111_saved_graph (lib : Lib) (hv : Valid g) (hl : Readable lib g) (h1 : ∀ a ∈ g.actors, a.reent = 1)
    (h2 : ∀ e ∈ g.chans, ¬ UnitLoop e) (hg : Analysable g) (hpos : ∀ a ∈ g.actors, ∀ d ∈ a.durs, 0 < d)
    (solve : List EvConstraint → Option (ℚ × List EvConstraint)) (hs : SolverCorrect solve) :
    ∃ doc, write g = some doc ∧ ∀ fuel r, kiterFile lib solve fuel doc = some (some r) →
      ∃ q, FileSmallest g q ∧ (0 < r.throughput → IsLeast (FilePeriods g q) (1 / r.throughput)) ∧
        (r.throughput ≤ 0 → ¬ ∃ σ, FileSchedule g σ) := by
  obtain ⟨doc, h, hw, hr, hp⟩ := C85_round_trip lib g hv hl (fun a ha => Or.inr (h1 a ha)) h2
  obtain ⟨doc', hw', hr'⟩ := C85_reads lib g hv hl
  rw [hw] at hw'
  obtain rfl := Option.some.inj hw'
  rw [hr] at hr'
  obtain rfl := Option.some.inj hr'
  have ha := (same_chan hp).1
  refine ⟨doc, hw, fun fuel r hk => ?_⟩
  obtain ⟨q, q1, q2, q3⟩ := C111_file_throughput lib doc hr (same_analysable hp (C85_valid g hv).ids hg)
    (by rw [ha]; exact hpos) (by rw [ha]; exact fun a ham => by rw [h1 a ham]; exact one_pos) solve hs fuel r hk
  refine ⟨q, same_smallest hp q1, fun h => ?_, fun h ⟨σ, hσ⟩ => q3 h ⟨σ, same_schedule hp.symm hσ⟩⟩
  obtain ⟨⟨σ, s1, s2⟩, hleast⟩ := q2 h
  exact ⟨⟨σ, same_schedule hp s1, same_sustains hp s2⟩, fun Ω ⟨τ, t1, t2⟩ =>
    hleast ⟨τ, same_schedule hp.symm t1, same_sustains hp.symm t2⟩⟩

namespace FileExample

/-- Two tasks of durations 1 and 2 in a circuit with tokens for one execution of each. -/
def file : SDF3.Graph :=
  ⟨"app".toList, "g".toList, "csdf".toList, [⟨"A".toList, "a".toList, 1, 0, [1], [], 1⟩, ⟨"B".toList, "b".toList, 1, 0, [2], [], 1⟩],
   [⟨7, "x".toList, 0, 1, [2], [], [2], [], 0, 0, [], []⟩, ⟨3, "y".toList, 1, 0, [2], [], [2], [], 3, 0, [], []⟩]⟩

theorem valid : Valid file := by
  refine ⟨by decide +kernel, by decide +kernel, by decide +kernel, by decide +kernel, by decide +kernel, by decide +kernel,
    ?_, ?_, by decide +kernel⟩
  · intro e he
    simp only [file, List.mem_cons, List.not_mem_nil, or_false] at he
    rcases he with rfl | rfl
    · exact ⟨_, rfl, rfl, rfl⟩
    · exact ⟨_, rfl, rfl, rfl⟩
  · intro e he
    simp only [file, List.mem_cons, List.not_mem_nil, or_false] at he
    rcases he with rfl | rfl
    · exact ⟨_, rfl, rfl, rfl⟩
    · exact ⟨_, rfl, rfl, rfl⟩

theorem analysable {n : Int} : Analysable { file with actors := [⟨"A".toList, "a".toList, 1, 0, [1], [], n⟩,
    ⟨"B".toList, "b".toList, 1, 0, [2], [], 1⟩] } := by
  refine ⟨by simp, ?_, (by decide +kernel : (file.chans.map Chan.id).Nodup), ?_, ?_,
    (by decide +kernel : ∀ e ∈ file.chans, e.iins = [] ∧ e.iouts = []),
    (by decide +kernel : ∀ e ∈ file.chans, 0 ≤ e.preload ∧ ∀ r ∈ e.ins ++ e.outs, 0 ≤ r), ?_⟩
  · intro a ha
    simp only [List.mem_cons, List.not_mem_nil, or_false] at ha
    rcases ha with rfl | rfl <;> simp
  · intro e he
    simp only [file, List.mem_cons, List.not_mem_nil, or_false] at he
    rcases he with rfl | rfl
    · exact ⟨_, rfl, rfl⟩
    · exact ⟨_, rfl, rfl⟩
  · intro e he
    simp only [file, List.mem_cons, List.not_mem_nil, or_false] at he
    rcases he with rfl | rfl
    · exact ⟨_, rfl, rfl⟩
    · exact ⟨_, rfl, rfl⟩
  · intro i a ha
    have := List.mem_of_getElem? ha
    simp only [List.mem_cons, List.not_mem_nil, or_false] at this
    rcases this with rfl | rfl <;> exact Or.inl rfl

/-- The file of this graph, read and analysed: an iteration takes 3 time units, and no schedule does better. -/
example (lib : Lib) : ∃ doc r, write file = some doc ∧ kiterFile lib exhaustive 10 doc = some (some r) ∧ r.throughput = 1 / 3 ∧
    ∃ q, FileSmallest file q ∧ IsLeast (FilePeriods file q) 3 := by
  have hl : Readable lib file := .inr (by decide +kernel)
  obtain ⟨doc, hw, h⟩ := C111_saved_graph lib valid hl (by decide +kernel) (by decide +kernel) (analysable (n := 1)) (by decide +kernel)
    exhaustive exhaustive_correct
  obtain ⟨doc', hw', hr⟩ := C85_reads lib file valid hl
  obtain rfl := Option.some.inj (hw.symm.trans hw')
  have hk : kiterFile lib exhaustive 10 doc = analyse exhaustive 10 (saved file) := by
    unfold kiterFile; rw [hr, Option.bind_some]
  have he : ((analyse exhaustive 10 (saved file)).map fun o => o.map fun r => r.throughput) = some (some (1 / 3)) := by decide +kernel
  rw [← hk] at he
  obtain ⟨o, ho, he⟩ := Option.map_eq_some_iff.mp he
  obtain ⟨r, rfl, ht⟩ : ∃ r, o = some r ∧ r.throughput = 1 / 3 := by simpa using he
  obtain ⟨q, h1, h2, -⟩ := h 10 r ho
  have h2 := h2 (by rw [ht]; norm_num)
  rw [ht] at h2
  exact ⟨doc, r, hw, ho, ht, q, h1, by norm_num at h2; exact h2⟩

/-- The hypotheses of `C111_answers`, and the graph is consistent. -/
example (lib : Lib) : ∃ doc h, read lib doc = some h ∧ Analysable h ∧ (∀ a ∈ h.actors, ∀ d ∈ a.durs, 0 < d) ∧ (∀ a ∈ h.actors, 0 < a.reent) ∧
    (∀ cs, (∀ c u, c ≠ [] → IsWalk cs u c u → 0 < totalD c) → (∃ c u, c ≠ [] ∧ IsWalk cs u c u) → exhaustive cs ≠ none) ∧
    FileConsistent file := by
  obtain ⟨doc, -, hr⟩ := C85_reads lib file valid (.inr (by decide +kernel))
  refine ⟨doc, _, hr, same_analysable (g := file) ?_ (C85_valid file valid).ids (analysable (n := 1)), by decide +kernel, by decide +kernel, ?_, ?_⟩
  · decide +kernel
  · intro cs h1 h2 hn
    obtain ⟨r, hr⟩ := exhaustive_total h1 h2
    rw [hr] at hn; cases hn
  · exact ⟨by decide +kernel, fun _ => 1, fun _ _ => one_pos, by decide +kernel⟩

/-- The same graph with a reentrant first task. -/
def file0 : SDF3.Graph :=
  { file with actors := [⟨"A".toList, "a".toList, 1, 0, [1], [], 0⟩, ⟨"B".toList, "b".toList, 1, 0, [2], [], 1⟩] }

def circuit : List EvConstraint :=
  [{ src := ⟨2, 1, 1⟩, dst := ⟨1, 1, 1⟩, w := 1, d := 2, channel := 2 }, { src := ⟨1, 1, 1⟩, dst := ⟨2, 1, 1⟩, w := 0, d := 1, channel := 1 }]

def solver0 := certified [(circuit, fun e => if e.task = 2 then 1 else 0)]

/-- The hypotheses of `C111_reentrant_partial`. -/
example : Analysable (saved file0) ∧ (∀ a ∈ (saved file0).actors, a.reent ≤ 0 → ∀ d ∈ a.durs, ∀ d' ∈ a.durs, d = d') ∧
    (∀ cs th p, solver0 cs = some (th, p) → CycleAnswer cs th p) ∧ (∃ a ∈ (saved file0).actors, a.reent = 0) ∧
    ((analyse solver0 10 (saved file0)).map fun o => o.map fun r => r.throughput) = some (some (1 / 3)) := by
  refine ⟨same_analysable (g := file0) (by decide +kernel) (by decide +kernel) (analysable (n := 0)), by decide +kernel,
    fun cs th p h => (certified_exact _ cs th p h).answer, by decide +kernel, by decide +kernel⟩

end FileExample

end Kiter
