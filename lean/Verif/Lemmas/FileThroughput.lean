/-
The graph that the analysis of a file reads: its relation to the graph of the reader.
-/
import Verif.Spec.FileThroughput
import Verif.Model.FileThroughput
import Verif.Props.Repetition
import Verif.Props.RandomLive
import Verif.Spec.Reentrant

set_option autoImplicit false

namespace Kiter.FileT

open SDF3

variable {g : SDF3.Graph}

/-- The graph of the analysis, task by task and channel by channel. -/
structure Matches (g : SDF3.Graph) (q : ℕ → Int) (B : BaseGraph) : Prop where
  task : ∀ (i : ℕ) (a : Actor), g.actors[i]? = some a → taskAt i a (q i * a.phases) ∈ B.tasks
  tasks : ∀ t ∈ B.tasks, ∃ (i : ℕ) (a : Actor), g.actors[i]? = some a ∧ t = taskAt i a (q i * a.phases)
  chan : ∀ e ∈ g.chans, ∃ c ∈ B.channels, ∃ a b, g.actors[e.src]? = some a ∧ g.actors[e.tgt]? = some b ∧
    c.1.id = e.id ∧ c.1.inPhases = e.ins ∧ c.1.outPhases = e.outs ∧ c.1.preload = e.preload ∧
    c.2.1 = taskAt e.src a (q e.src * a.phases) ∧ c.2.2 = taskAt e.tgt b (q e.tgt * b.phases)
  chans : ∀ c ∈ B.channels, ∃ e ∈ g.chans, ∃ a b, g.actors[e.src]? = some a ∧ g.actors[e.tgt]? = some b ∧
    c.1.id = e.id ∧ c.1.inPhases = e.ins ∧ c.1.outPhases = e.outs ∧ c.1.preload = e.preload ∧
    c.2.1 = taskAt e.src a (q e.src * a.phases) ∧ c.2.2 = taskAt e.tgt b (q e.tgt * b.phases)

theorem lasts_eq (i : ℕ) (a : Actor) (n : Int) (k : ℕ) : (taskAt i a n).dur k = a.lasts k := by
  unfold KTask.dur Actor.lasts taskAt
  simp only [List.length_map, List.getD_eq_getElem?_getD, List.getElem?_map]
  cases a.durs[k % a.durs.length]? <;> simp

theorem repGraph_eq (hg : Analysable g) : ∃ G, repGraph g = some G ∧ Rep.OK G ∧ Rep.Attached G ∧
    (∀ k : Fin g.chans.length, (G.src k).1 = g.chans[k].src ∧ (G.tgt k).1 = g.chans[k].tgt ∧ G.prod k = g.chans[k].ins ∧
      G.cons k = g.chans[k].outs) ∧ ∀ i : Fin g.actors.length, G.phases i = g.actors[i].phases := by
  have h : ∀ k : Fin g.chans.length, g.chans[k].src < g.actors.length ∧ g.chans[k].tgt < g.actors.length := by
    intro k
    obtain ⟨a, ha, -⟩ := hg.src g.chans[k] (List.getElem_mem _)
    obtain ⟨b, hb, -⟩ := hg.tgt g.chans[k] (List.getElem_mem _)
    exact ⟨(List.getElem?_eq_some_iff.mp ha).1, (List.getElem?_eq_some_iff.mp hb).1⟩
  refine ⟨_, by unfold repGraph; rw [dif_pos h], ⟨?_, ?_, ?_, ?_, ?_, ?_⟩, ?_, fun k => ⟨rfl, rfl, rfl, rfl⟩, fun i => rfl⟩
  · exact List.length_pos_of_ne_nil hg.tasks
  · exact fun v => (hg.durs _ (List.getElem_mem _)).1
  · intro k
    obtain ⟨a, ha, hl⟩ := hg.src g.chans[k] (List.getElem_mem _)
    rw [← (List.getElem?_eq_some_iff.mp ha).2] at hl
    exact hl
  · intro k
    obtain ⟨a, ha, hl⟩ := hg.tgt g.chans[k] (List.getElem_mem _)
    rw [← (List.getElem?_eq_some_iff.mp ha).2] at hl
    exact hl
  · exact fun k r hr => (hg.nonneg g.chans[k] (List.getElem_mem _)).2 r (List.mem_append_left _ hr)
  · exact fun k r hr => (hg.nonneg g.chans[k] (List.getElem_mem _)).2 r (List.mem_append_right _ hr)
  · intro v
    rcases hg.attached v.1 _ (List.getElem?_eq_getElem v.2) with h1 | ⟨e, he, h1⟩
    · exact Or.inl h1
    · obtain ⟨k, hk, rfl⟩ := List.mem_iff_getElem.mp he
      exact Or.inr ⟨⟨k, hk⟩, h1.imp (fun h => Fin.ext h) fun h => Fin.ext h⟩

/-- An iteration in terms of the graph of the repetition vector. -/
theorem balanced_iff {G : Rep.Graph g.actors.length g.chans.length}
    (hG : ∀ k : Fin g.chans.length, (G.src k).1 = g.chans[k].src ∧ (G.tgt k).1 = g.chans[k].tgt ∧ G.prod k = g.chans[k].ins ∧
      G.cons k = g.chans[k].outs) (q : ℕ → Int) :
    Rep.Balanced G (fun i => q i) ↔ ∀ e ∈ g.chans, e.ins.sum * q e.src = e.outs.sum * q e.tgt := by
  constructor
  · intro h e he
    obtain ⟨k, hk, rfl⟩ := List.mem_iff_getElem.mp he
    have : (G.prod ⟨k, hk⟩).sum * q (G.src ⟨k, hk⟩).1 = (G.cons ⟨k, hk⟩).sum * q (G.tgt ⟨k, hk⟩).1 := h ⟨k, hk⟩
    obtain ⟨h1, h2, h3, h4⟩ := hG ⟨k, hk⟩
    rw [h1, h2, h3, h4] at this
    exact this
  · intro h k
    obtain ⟨h1, h2, h3, h4⟩ := hG k
    show (G.prod k).sum * q (G.src k).1 = (G.cons k).sum * q (G.tgt k).1
    rw [h1, h2, h3, h4]
    exact h _ (List.getElem_mem _)

theorem linked {G : Rep.Graph g.actors.length g.chans.length}
    (hG : ∀ k : Fin g.chans.length, (G.src k).1 = g.chans[k].src ∧ (G.tgt k).1 = g.chans[k].tgt ∧ G.prod k = g.chans[k].ins ∧
      G.cons k = g.chans[k].outs) {i j : ℕ} (hi : i < g.actors.length) (h : Relation.ReflTransGen (FileLinked g) i j) :
    ∀ hj : j < g.actors.length, Relation.ReflTransGen (Rep.Adj G) ⟨i, hi⟩ ⟨j, hj⟩ := by
  induction h with
  | refl => exact fun _ => .refl
  | @tail b c _ hbc ih =>
    intro hj
    obtain ⟨e, he, h⟩ := hbc
    obtain ⟨k, hk, rfl⟩ := List.mem_iff_getElem.mp he
    obtain ⟨h1, h2, -, -⟩ := hG ⟨k, hk⟩
    have h1 : (G.src ⟨k, hk⟩).1 = g.chans[k].src := h1
    have h2 : (G.tgt ⟨k, hk⟩).1 = g.chans[k].tgt := h2
    have hb : b < g.actors.length := by
      rcases h with ⟨h3, -⟩ | ⟨-, h3⟩
      · rw [← h3, ← h1]; exact (G.src _).2
      · rw [← h3, ← h2]; exact (G.tgt _).2
    exact .tail (ih hb) ⟨⟨k, hk⟩, h.imp (fun h => ⟨Fin.ext (h1.trans h.1), Fin.ext (h2.trans h.2)⟩)
      fun h => ⟨Fin.ext (h1.trans h.1), Fin.ext (h2.trans h.2)⟩⟩

/-- The repetition vector exists for consistent graphs only, and its rounds are the smallest iteration. -/
theorem vector (hg : Analysable g) {G : Rep.Graph g.actors.length g.chans.length} (hG : repGraph g = some G) :
    (¬ FileConsistent g → ∀ N, Rep.compute G ≠ some (some N)) ∧ (FileConsistent g → ∃ N, Rep.compute G = some (some N)) ∧
    ∀ N, Rep.compute G = some (some N) → ∃ q, FileSmallest g q ∧ ∀ (i : ℕ) (a : Actor), g.actors[i]? = some a → niAt N i = q i * a.phases := by
  obtain ⟨G', h0, h1, h2, h3, h4⟩ := repGraph_eq hg
  rw [hG] at h0
  obtain rfl := Option.some.inj h0
  have hiff : (∃ N, Rep.compute G = some (some N)) ↔ FileConsistent g := by
    rw [(C14_consistent_iff h1).2]
    refine and_congr ⟨fun h e he => ?_, fun h k => ?_⟩ ⟨fun ⟨q, p, b⟩ => ?_, fun ⟨q, h⟩ => ?_⟩
    · obtain ⟨k, hk, rfl⟩ := List.mem_iff_getElem.mp he
      have := h ⟨k, hk⟩
      rw [(h3 ⟨k, hk⟩).2.2.1, (h3 ⟨k, hk⟩).2.2.2] at this
      exact this
    · rw [(h3 k).2.2.1, (h3 k).2.2.2]
      exact h _ (List.getElem_mem _)
    · have hq : (fun i : Fin g.actors.length => niAt q i) = q := by funext i; unfold niAt; rw [dif_pos i.2]
      exact ⟨niAt q, ⟨fun i hi => by unfold niAt; rw [dif_pos hi]; exact p _, (balanced_iff h3 _).mp (by rw [hq]; exact b)⟩⟩
    · exact ⟨fun i => q i, fun v => h.pos v v.2, (balanced_iff h3 q).mpr h.balanced⟩
  refine ⟨fun hn N hN => hn (hiff.mp ⟨N, hN⟩), fun h => hiff.mpr h, fun N hN => ?_⟩
  obtain ⟨q, p1, p2, p3⟩ := C12_cycles_partial h1 h2 hN
  obtain ⟨p4, p5⟩ := C13_minimal_partial h1 h2 hN p2
  have hq : (fun i : Fin g.actors.length => niAt q i) = q := by funext i; unfold niAt; rw [dif_pos i.2]
  have hqi : ∀ (i : ℕ) (hi : i < g.actors.length), niAt q i = q ⟨i, hi⟩ := fun i hi => by unfold niAt; rw [dif_pos hi]
  refine ⟨niAt q, ⟨⟨fun i hi => by rw [hqi i hi]; exact p1 _, (balanced_iff h3 _).mp (by rw [hq]; exact p3)⟩,
    fun d hd => p4 d fun v => by rw [← hqi v v.2]; exact hd v v.2, fun hc q' hq' => ?_⟩, fun i a ha => ?_⟩
  · obtain ⟨k, hk, h⟩ := p5 (fun a b => linked h3 a.2 (hc a a.2 b b.2) b.2) (fun v => q' v) (fun v => hq'.pos v v.2)
      ((balanced_iff h3 q').mpr hq'.balanced)
    exact ⟨k, hk, fun i hi => by rw [hqi i hi]; exact h ⟨i, hi⟩⟩
  · obtain ⟨hi, rfl⟩ := List.getElem?_eq_some_iff.mp ha
    have h5 : G.phases ⟨i, hi⟩ = g.actors[i].phases := h4 ⟨i, hi⟩
    rw [hqi i hi, ← h5, ← p2]
    unfold niAt
    rw [dif_pos hi]

/-- The graph of the analysis exists and is one of those that the theorems on the analyses cover. -/
theorem base (hg : Analysable g) (hc : ∀ e ∈ g.chans, 0 < e.ins.sum ∧ 0 < e.outs.sum) {q ni : ℕ → Int} (hq : FileIteration g q)
    (hni : ∀ (i : ℕ) (a : Actor), g.actors[i]? = some a → ni i = q i * a.phases) :
    ∃ B, baseOf g ni = some B ∧ Matches g q B ∧ (∀ s ∈ B.tasks, ∀ t ∈ B.tasks, s.id = t.id → s = t) ∧
      (∀ t ∈ B.tasks, (t.durations.length : Int) ∣ t.ni ∧ 0 < t.ni ∧ 0 < t.durations.length ∧ t.initDurations = [] ∧
        ∀ d ∈ t.durations, 0 ≤ d) ∧
      (∀ c ∈ B.channels, c.2.1 ∈ B.tasks ∧ c.2.2 ∈ B.tasks ∧ ChannelOK c.1 c.2.1 c.2.2) ∧
      ∀ c ∈ B.channels, ∀ e ∈ B.channels, c.1.id = e.1.id → c = e := by
  have hlen : ∀ (i : ℕ) (a : Actor) (n : Int), g.actors[i]? = some a → (taskAt i a n).durations.length = a.phases := fun i a n ha => by
    have := (hg.durs a (List.mem_of_getElem? ha)).2.1
    simpa [taskAt] using this
  have hch : ∀ e ∈ g.chans, ∃ c, chanOf g ni e = some c ∧ ChannelOK c.1 c.2.1 c.2.2 ∧
      ∃ a b, g.actors[e.src]? = some a ∧ g.actors[e.tgt]? = some b ∧
        c.1.id = e.id ∧ c.1.inPhases = e.ins ∧ c.1.outPhases = e.outs ∧ c.1.preload = e.preload ∧
        c.2.1 = taskAt e.src a (q e.src * a.phases) ∧ c.2.2 = taskAt e.tgt b (q e.tgt * b.phases) := by
    intro e he
    obtain ⟨a, ha, hla⟩ := hg.src e he
    obtain ⟨b, hb, hlb⟩ := hg.tgt e he
    obtain ⟨n1, n2⟩ := hg.nonneg e he
    obtain ⟨i1, i2⟩ := hg.noInit e he
    obtain ⟨gr, g1, g2⟩ := Gen.fineGCD_pos (e := edgOf e) (fun x hx => n2 x (List.mem_append.mpr hx)) (hc e he).1
    have hdv := (C11_computed g1).1
    refine ⟨(⟨e.id, e.ins, e.outs, e.iins, e.iouts, e.preload, gr⟩, taskAt e.src a (ni e.src), taskAt e.tgt b (ni e.tgt)), ?_,
      ⟨i1, i2, (hlen _ _ _ ha).trans hla.symm, (hlen _ _ _ hb).trans hlb.symm, fun r hr => n2 r (List.mem_append_left _ hr),
      fun r hr => n2 r (List.mem_append_right _ hr), (hc e he).1, (hc e he).2, g2, fun r hr => hdv r (List.mem_append_left _ hr),
      fun r hr => hdv r (List.mem_append_right _ hr), n1, ?_⟩, a, b, ha, hb, rfl, rfl, rfl, rfl, by rw [hni _ _ ha], by rw [hni _ _ hb]⟩
    · unfold chanOf
      rw [ha, Option.bind_some, hb, Option.bind_some, g1]; rfl
    · show e.ins.sum * ni e.src * ((taskAt e.tgt b (ni e.tgt)).durations.length : Int) =
        e.outs.sum * ni e.tgt * ((taskAt e.src a (ni e.src)).durations.length : Int)
      rw [hlen _ _ _ ha, hlen _ _ _ hb, hni _ _ ha, hni _ _ hb, ← mul_assoc, ← mul_assoc, hq.balanced e he]
      ring
  obtain ⟨cs, hcs, -, h1, h2⟩ := mapM_exists (chanOf g ni) g.chans fun e he => ⟨_, (hch e he).choose_spec.1⟩
  have hback : ∀ c ∈ cs, ∃ e ∈ g.chans, ChannelOK c.1 c.2.1 c.2.2 ∧ ∃ a b, g.actors[e.src]? = some a ∧ g.actors[e.tgt]? = some b ∧
      c.1.id = e.id ∧ c.1.inPhases = e.ins ∧ c.1.outPhases = e.outs ∧ c.1.preload = e.preload ∧
      c.2.1 = taskAt e.src a (q e.src * a.phases) ∧ c.2.2 = taskAt e.tgt b (q e.tgt * b.phases) := by
    intro c hcm
    obtain ⟨e, he, hec⟩ := h2 c hcm
    obtain ⟨c', h3, h4⟩ := hch e he
    obtain rfl := Option.some.inj (hec.symm.trans h3)
    exact ⟨e, he, h4⟩
  have htask : ∀ (i : ℕ) (a : Actor), g.actors[i]? = some a →
      taskAt i a (q i * a.phases) ∈ g.actors.mapIdx fun i a => taskAt i a (ni i) := fun i a ha => by
    refine List.mem_of_getElem? (i := i) ?_
    rw [List.getElem?_mapIdx, ha, Option.map_some, hni _ _ ha]
  have htasks : ∀ t ∈ (g.actors.mapIdx fun i a => taskAt i a (ni i)), ∃ (i : ℕ) (a : Actor), g.actors[i]? = some a ∧
      t = taskAt i a (q i * a.phases) := fun t ht => by
    obtain ⟨i, hi⟩ := List.mem_iff_getElem?.mp ht
    rw [List.getElem?_mapIdx] at hi
    obtain ⟨a, ha, rfl⟩ := Option.map_eq_some_iff.mp hi
    exact ⟨i, a, ha, by rw [hni _ _ ha]⟩
  refine ⟨⟨g.actors.mapIdx fun i a => taskAt i a (ni i), cs⟩, by unfold baseOf; rw [hcs]; rfl, ⟨htask, htasks, ?_, ?_⟩, ?_, ?_, ?_, ?_⟩
  · intro e he
    obtain ⟨k, hk⟩ := List.mem_iff_getElem?.mp he
    obtain ⟨c, hc1, hc2⟩ := h1 k e hk
    obtain ⟨c', h3, -, h4⟩ := hch e he
    obtain rfl := Option.some.inj (hc2.symm.trans h3)
    exact ⟨c, List.mem_of_getElem? hc1, h4⟩
  · intro c hcm
    obtain ⟨e, he, -, h⟩ := hback c hcm
    exact ⟨e, he, h⟩
  · intro s hs t ht hst
    obtain ⟨i, a, ha, rfl⟩ := htasks s hs
    obtain ⟨j, b, hb, rfl⟩ := htasks t ht
    have : i = j := by
      have h : ((i : Int) + 1) = j + 1 := hst
      omega
    subst this
    rw [ha] at hb
    obtain rfl := Option.some.inj hb
    rfl
  · intro t ht
    obtain ⟨i, a, ha, rfl⟩ := htasks t ht
    obtain ⟨d1, d2, d3, d4⟩ := hg.durs a (List.mem_of_getElem? ha)
    have hi := (List.getElem?_eq_some_iff.mp ha).1
    refine ⟨?_, ?_, ?_, ?_, ?_⟩
    · rw [hlen _ _ _ ha]; exact Dvd.intro_left _ rfl
    · show 0 < q i * (a.phases : Int)
      have := hq.pos i hi
      have : (0 : Int) < a.phases := by exact_mod_cast d1
      positivity
    · rw [hlen _ _ _ ha]; exact d1
    · simp [taskAt, d3]
    · intro d hd
      obtain ⟨x, hx, rfl⟩ := List.mem_map.mp hd
      exact_mod_cast d4 x hx
  · intro c hcm
    obtain ⟨e, he, h3, a, b, ha, hb, -, -, -, -, h4, h5⟩ := hback c hcm
    exact ⟨by rw [h4]; exact htask _ _ ha, by rw [h5]; exact htask _ _ hb, h3⟩
  · intro c hcm d hd hcd
    obtain ⟨k, hk⟩ := List.mem_iff_getElem?.mp hcm
    obtain ⟨e, he, hec⟩ := h2 c hcm
    obtain ⟨f, hf, hfd⟩ := h2 d hd
    obtain ⟨c', h3, -, _, _, _, _, h4, -⟩ := hch e he
    obtain rfl := Option.some.inj (hec.symm.trans h3)
    obtain ⟨d', h3', -, _, _, _, _, h5, -⟩ := hch f hf
    obtain rfl := Option.some.inj (hfd.symm.trans h3')
    have : e = f := List.inj_on_of_nodup_map hg.ids he hf (by rw [← h4, ← h5]; exact hcd)
    subst this
    rw [hec] at hfd
    exact Option.some.inj hfd

/-- Schedules by position and schedules by identifier. -/
def byId (σ : ℕ → ℕ → ℚ) (i : Int) : ℕ → ℚ := σ (i - 1).toNat

theorem byId_task (σ : ℕ → ℕ → ℚ) (i : ℕ) (a : Actor) (n : Int) : byId σ (taskAt i a n).id = σ i := by
  unfold byId taskAt
  congr 1
  simp

theorem sustains_iff {q : ℕ → Int} {B : BaseGraph} (hm : Matches g q B) {σ : Int → ℕ → ℚ} {τ : ℕ → ℕ → ℚ}
    (h : ∀ i : ℕ, σ (i + 1) = τ i) (Ω : ℚ) : Sustains B σ Ω ↔ FileSustains g q τ Ω := by
  constructor
  · intro hs i a ha
    obtain ⟨C, hC⟩ := hs _ (hm.task i a ha)
    refine ⟨C, fun k => ?_⟩
    have := hC k
    have e : σ (taskAt i a (q i * a.phases)).id k = τ i k := by rw [← h]; rfl
    rw [e] at this
    simpa [taskAt] using this
  · intro hs t ht
    obtain ⟨i, a, ha, rfl⟩ := hm.tasks t ht
    obtain ⟨C, hC⟩ := hs i a ha
    refine ⟨C, fun k => ?_⟩
    have e : σ (taskAt i a (q i * a.phases)).id k = τ i k := by rw [← h]; rfl
    rw [e]
    simpa [taskAt] using hC k

theorem valid_iff {q : ℕ → Int} {B : BaseGraph} (hm : Matches g q B) {σ : Int → ℕ → ℚ} {τ : ℕ → ℕ → ℚ}
    (h : ∀ i : ℕ, σ (i + 1) = τ i) : ValidGen B σ ↔ FileSchedule g τ := by
  have e : ∀ i a n, σ (taskAt i a n).id = τ i := fun i a n => by rw [← h]; rfl
  have f : ∀ i a n k, σ (taskAt i a n).id k + (taskAt i a n).dur k = τ i k + a.lasts k := fun i a n k => by rw [e, lasts_eq]
  constructor
  · intro hv
    refine ⟨fun i hi k => ?_, fun i a ha k => ?_, fun c hc a ha => ?_⟩
    · have := hv.nonneg _ (hm.task i _ (List.getElem?_eq_getElem hi)) k
      rwa [e] at this
    · have := hv.noOverlap _ (hm.task i a ha) k
      rwa [f, e] at this
    · obtain ⟨b, hb, a', b', ha', hb', -, h1, h2, h3, h4, h5⟩ := hm.chan c hc
      rw [ha] at ha'
      obtain rfl := Option.some.inj ha'
      have := hv.channels b hb
      rw [h1, h2, h3, h4, h5] at this
      simp only [e, lasts_eq] at this
      exact this
  · intro hv
    refine ⟨fun t ht k => ?_, fun t ht k => ?_, fun c hc => ?_⟩
    · obtain ⟨i, a, ha, rfl⟩ := hm.tasks t ht
      rw [e]
      exact hv.nonneg i (List.getElem?_eq_some_iff.mp ha).1 k
    · obtain ⟨i, a, ha, rfl⟩ := hm.tasks t ht
      rw [f, e]
      exact hv.noOverlap i a ha k
    · obtain ⟨b, hb, a', b', ha', hb', -, h1, h2, h3, h4, h5⟩ := hm.chans c hc
      rw [h1, h2, h3, h4, h5]
      simp only [e, lasts_eq]
      exact hv.tokens b hb a' ha'

theorem ordered_iff {q : ℕ → Int} {B : BaseGraph} (hm : Matches g q B) {σ : Int → ℕ → ℚ} {τ : ℕ → ℕ → ℚ}
    (h : ∀ i : ℕ, σ (i + 1) = τ i) : OrderedSchedule B σ ↔ FileReentrant g τ := by
  have e : ∀ i a n, σ (taskAt i a n).id = τ i := fun i a n => by rw [← h]; rfl
  have f : ∀ i a n k, σ (taskAt i a n).id k + (taskAt i a n).dur k = τ i k + a.lasts k := fun i a n k => by rw [e, lasts_eq]
  constructor
  · intro hv
    refine ⟨fun i hi k => ?_, fun i hi k => ?_, fun i a ha hr k => ?_, fun c hc a ha => ?_⟩
    · have := hv.nonneg _ (hm.task i _ (List.getElem?_eq_getElem hi)) k
      rwa [e] at this
    · have := hv.ordered _ (hm.task i _ (List.getElem?_eq_getElem hi)) k
      rwa [e] at this
    · have := hv.noOverlap _ (hm.task i a ha) hr k
      rwa [f, e] at this
    · obtain ⟨b, hb, a', b', ha', hb', -, h1, h2, h3, h4, h5⟩ := hm.chan c hc
      rw [ha] at ha'
      obtain rfl := Option.some.inj ha'
      have := hv.channels b hb
      rw [h1, h2, h3, h4, h5] at this
      simp only [e, lasts_eq] at this
      exact this
  · intro hv
    refine ⟨fun t ht k => ?_, fun t ht k => ?_, fun t ht hr k => ?_, fun c hc => ?_⟩
    · obtain ⟨i, a, ha, rfl⟩ := hm.tasks t ht
      rw [e]
      exact hv.nonneg i (List.getElem?_eq_some_iff.mp ha).1 k
    · obtain ⟨i, a, ha, rfl⟩ := hm.tasks t ht
      rw [e]
      exact hv.ordered i (List.getElem?_eq_some_iff.mp ha).1 k
    · obtain ⟨i, a, ha, rfl⟩ := hm.tasks t ht
      rw [f, e]
      exact hv.noOverlap i a ha hr k
    · obtain ⟨b, hb, a', b', ha', hb', -, h1, h2, h3, h4, h5⟩ := hm.chans c hc
      rw [h1, h2, h3, h4, h5]
      simp only [e, lasts_eq]
      exact hv.tokens b hb a' ha'

theorem byId_succ (τ : ℕ → ℕ → ℚ) (i : ℕ) : byId τ (i + 1) = τ i := by
  unfold byId
  congr 1
  omega

theorem periods {q : ℕ → Int} {B : BaseGraph} (hm : Matches g q B) : SustainablePeriods B = FilePeriods g q := by
  ext Ω
  constructor
  · rintro ⟨σ, h1, h2⟩
    exact ⟨fun i => σ (i + 1), (valid_iff hm fun _ => rfl).mp h1, (sustains_iff hm (fun _ => rfl) Ω).mp h2⟩
  · rintro ⟨τ, h1, h2⟩
    exact ⟨byId τ, (valid_iff hm (byId_succ τ)).mpr h1, (sustains_iff hm (byId_succ τ) Ω).mpr h2⟩

end Kiter.FileT
