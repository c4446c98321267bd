/-
C95: the trace of packets printed by the command SymbolicExecutionWP.
-/
import Verif.Lemmas.PacketTrace
import Verif.Props.Untimed

set_option autoImplicit false

namespace Kiter

open Untimed

namespace Untimed
section
variable {B : BaseGraph}

/-- What a line shows besides numbers and dependencies. -/
def key (l : Packet) : Int × Int × ℚ := (l.src, l.dst, l.duration)

/-- The state of the trace after the executions `seq`. -/
structure Traced (B : BaseGraph) (iterations : Int) (seq : List Int) (s : Trace) : Prop where
  exec : After B iterations seq s.exec
  unset : s.psize = 0 → ∀ i ∈ seq, ∀ c ∈ B.channels, c.2.1.id ≠ i
  divides : ∀ c ∈ B.channels, c.2.1.id ∈ seq → 0 < s.psize ∧ s.psize ∣ made c
  shape : s.lines.map key = seq.flatMap (linesOf B s.psize)
  count : s.count = s.lines.length
  numbered : Numbered 0 s.lines
  deps : ∀ l ∈ s.lines, ∀ d ∈ l.deps, d < l.pid
  lastLt : ∀ i p, s.last i = some p → p < s.count
  edgeLt : ∀ i p, s.edge i = some p → p < s.count
  last : ∀ i j, seq[j]? = some i → ∃ p, s.last i = some p ∧ Relation.ReflTransGen (Waits s.lines) (lineOf B s.psize seq j) p
  edge : ∀ c ∈ B.channels, ∀ j, seq[j]? = some c.2.1.id →
    ∃ p, s.edge c.1.id = some p ∧ Relation.ReflTransGen (Waits s.lines) (lineOf B s.psize seq j) p
  again : ∀ i j k, j < k → seq[j]? = some i → seq[k]? = some i →
    WaitsFor s.lines (lineOf B s.psize seq j) (lineOf B s.psize seq k)
  order : ∀ c ∈ B.channels, ∀ j k, j < k → seq[j]? = some c.2.1.id → seq[k]? = some c.2.2.id →
    WaitsFor s.lines (lineOf B s.psize seq j) (lineOf B s.psize seq k)
  sent : ∀ i j, seq[j]? = some i → (∀ j', j < j' → seq[j']? ≠ some i) → ∀ l ∈ s.lines, lineOf B s.psize seq j < l.pid →
    l.pid < lineOf B s.psize seq (j + 1) → ∃ c ∈ B.channels, c.2.1.id = i ∧ c.2.2.id = l.dst ∧ ∃ p, s.edge c.1.id = some p ∧
      Relation.ReflTransGen (Waits s.lines) l.pid p
  delivered : ∀ i j k d, j < k → seq[j]? = some i → seq[k]? = some d → (∀ j', j < j' → j' < k → seq[j']? ≠ some i) →
    ∀ l ∈ s.lines, lineOf B s.psize seq j < l.pid → l.pid < lineOf B s.psize seq (j + 1) → l.dst = d →
      WaitsFor s.lines l.pid (lineOf B s.psize seq k)

theorem linesOf_congr {ps ps' : Int} {i : Int} (h : ps = ps' ∨ ∀ c ∈ B.channels, c.2.1.id ≠ i) : linesOf B ps i = linesOf B ps' i := by
  rcases h with rfl | h
  · rfl
  · unfold linesOf
    have : (B.channels.filter fun c => decide (c.2.1.id = i)) = [] := by
      rw [List.filter_eq_nil_iff]
      intro c hc
      simpa using h c hc
    rw [this]
    rfl

theorem lineOf_mono (ps : Int) (seq : List Int) {j k : ℕ} (h : j ≤ k) : lineOf B ps seq j ≤ lineOf B ps seq k := by
  unfold lineOf
  obtain ⟨d, rfl⟩ := Nat.exists_eq_add_of_le h
  rw [List.take_add, List.flatMap_append, List.length_append]
  omega

theorem getElem?_snoc {seq : List Int} {x i : Int} {j : ℕ} (h : (seq ++ [x])[j]? = some i) :
    seq[j]? = some i ∧ j < seq.length ∨ j = seq.length ∧ x = i := by
  rcases lt_trichotomy j seq.length with hj | hj | hj
  · rw [List.getElem?_append_left hj] at h
    exact .inl ⟨h, hj⟩
  · subst hj
    right
    simpa using h
  · rw [List.getElem?_eq_none (by simp; omega)] at h
    simp at h

theorem traced_step (hB : BaseOK B) (hu : Unique B) {iterations : Int} {seq : List Int} {s s' : Trace} (h : Traced B iterations seq s)
    {t : KTask} (ht : t ∈ B.tasks) (hc : canExecute B s.exec t = true) (hv : visitP B s t = some s') :
    Traced B iterations (seq ++ [t.id]) s' := by
  have hmade : ∀ c ∈ outputs B t, 0 < made c := fun c hc => (hB.channels c (List.mem_filter.1 hc).1).2.2.inPos
  unfold visitP at hv
  rw [if_pos hc] at hv
  dsimp only at hv
  rw [foldlM_outputs t _ _ _ _ _ hmade] at hv
  dsimp only at hv
  obtain ⟨hdiv, hs'⟩ := hv
  set deps := (inputs B t).filterMap fun c => s.edge c.1.id with hdeps
  set line : Packet := ⟨t.id, t.id, t.durations.sum, s.count, deps ++ (s.last t.id).toList⟩ with hline
  set ps := sizeAfter s.psize (outputs B t) with hps
  set out := sendAll t.id ps deps s.count (outputs B t) (s.count + 1) with hout
  have hdepsLt : ∀ d ∈ deps, d < s.count := by
    intro d hd
    obtain ⟨c, -, hcd⟩ := List.mem_filterMap.1 hd
    exact h.edgeLt _ _ hcd
  have psize : s'.psize = ps := by rw [hs']
  have hcount : s'.count = s.count + 1 + out.length := by rw [hs']
  have hlines : s'.lines = s.lines ++ [line] ++ out := by rw [hs']
  have hlast : s'.last = Function.update s.last t.id (some s.count) := by rw [hs']
  have hedge : s'.edge = edgesAfter ps (outputs B t) (s.count + 1) s.edge := by rw [hs']
  have hexec : s'.exec = execute B s.exec t := by rw [hs']
  -- sizes of the executions before do not change
  have hsame : ∀ i ∈ seq, linesOf B ps i = linesOf B s.psize i := by
    intro i hi
    refine linesOf_congr ?_
    by_cases h0 : s.psize = 0
    · exact .inr fun c hc => h.unset h0 i hi c hc
    · left
      rw [hps]
      cases outputs B t with
      | nil => rfl
      | cons c l => simp [sizeAfter, h0]
  have hflat : ∀ l : List Int, (∀ i ∈ l, i ∈ seq) → l.flatMap (linesOf B ps) = l.flatMap (linesOf B s.psize) := by
    intro l hl
    induction l with
    | nil => rfl
    | cons a l ih =>
      rw [List.flatMap_cons, List.flatMap_cons, hsame a (hl a (by simp)), ih fun i hi => hl i (by simp [hi])]
  have hold : ∀ j, j ≤ seq.length → lineOf B ps (seq ++ [t.id]) j = lineOf B s.psize seq j := by
    intro j hj
    unfold lineOf
    rw [List.take_append_of_le_length hj, hflat _ fun i hi => List.mem_of_mem_take hi]
  have hlen : lineOf B s.psize seq seq.length = s.count := by
    unfold lineOf
    rw [List.take_length, ← h.shape, List.length_map, h.count]
  have hnew : lineOf B ps (seq ++ [t.id]) seq.length = s.count := by rw [hold _ le_rfl, hlen]
  have hkeyout : out.map key = (outputs B t).flatMap fun c => List.replicate (c.1.inPhases.sum / ps).toNat (t.id, c.2.2.id, 0) :=
    sendAll_key _ _ _ _ _ _
  have hblock : linesOf B ps t.id = key line :: out.map key := by
    unfold linesOf
    rw [find_id hu.tasks ht, hkeyout]
    rfl
  have hnumout : Numbered (s.count + 1) out := sendAll_numbered _ _ _ _ _ _
  have sub : ∀ l ∈ s.lines, l ∈ s'.lines := fun l hl => by rw [hlines]; simp [hl]
  have subout : ∀ l ∈ out, l ∈ s'.lines := fun l hl => by rw [hlines]; simp [hl]
  have hlinemem : line ∈ s'.lines := by rw [hlines]; simp
  have inputWaits : ∀ c ∈ B.channels, c.2.2.id = t.id → ∀ p, s.edge c.1.id = some p → Waits s'.lines p s.count := by
    intro c hcm hct p hp
    refine ⟨line, hlinemem, rfl, List.mem_append_left _ (List.mem_filterMap.2 ⟨c, List.mem_filter.2 ⟨hcm, by simpa using hct⟩, hp⟩)⟩
  have lastWaits : ∀ p, s.last t.id = some p → Waits s'.lines p s.count := by
    intro p hp
    exact ⟨line, hlinemem, rfl, List.mem_append_right _ (by simp [hp])⟩
  have againNew : ∀ j, seq[j]? = some t.id → WaitsFor s'.lines (lineOf B s.psize seq j) s.count := by
    intro j hj
    obtain ⟨p, p1, p2⟩ := h.last t.id j hj
    exact Relation.TransGen.tail' (reach_mono sub p2) (lastWaits p p1)
  have oldLine : ∀ l ∈ s'.lines, l.pid < s.count → l ∈ s.lines := by
    intro l hl hlt
    rw [hlines] at hl
    rcases List.mem_append.1 hl with hl | hl
    · rcases List.mem_append.1 hl with hl | hl
      · exact hl
      · simp only [List.mem_singleton] at hl
        subst hl
        exact absurd hlt (lt_irrefl _)
    · have := (hnumout.mem hl).1
      omega
  have hnodup : ((outputs B t).map fun c => c.1.id).Nodup := filter_nodup hu.channels _
  have hpsout : ∀ c ∈ outputs B t, 0 < ps := fun c hc => (hdiv c hc).1
  have edgeOld : ∀ c ∈ B.channels, c.2.1.id ≠ t.id → s'.edge c.1.id = s.edge c.1.id := by
    intro c hcm hne
    rw [hedge]
    refine edgesAfter_other ps _ _ _ fun x hx hxc => ?_
    obtain ⟨hx1, hx2⟩ := List.mem_filter.1 hx
    have := hB.channelIds _ hx1 _ hcm hxc
    subst this
    exact hne (by simpa using hx2)
  have edgeNew : ∀ c ∈ B.channels, c.2.1.id = t.id → ∃ p, s'.edge c.1.id = some p ∧ p < s'.count ∧ WaitsFor s'.lines s.count p := by
    intro c hcm he
    have hco : c ∈ outputs B t := List.mem_filter.2 ⟨hcm, by simpa using he⟩
    obtain ⟨p, p1, p2, p3⟩ := (sendAll_edges t.id (hpsout c hco) deps s.count (outputs B t) (s.count + 1) s.edge hnodup
      fun x hx => ⟨hmade x hx, (hdiv x hx).2⟩).1 c hco
    exact ⟨p, by rw [hedge]; exact p1, by rw [hcount]; exact p2, waitsFor_mono subout p3⟩
  refine ⟨?_, ?_, ?_, ?_, ?_, ?_, ?_, ?_, ?_, ?_, ?_, ?_, ?_, ?_, ?_⟩
  · rw [hexec]; exact after_execute hu h.exec ht hc
  · rw [psize]
    intro h0 i hi c hcm hci
    by_cases ho : outputs B t = []
    · rcases List.mem_append.1 hi with hi | hi
      · refine h.unset ?_ i hi c hcm hci
        rw [hps, ho] at h0
        exact h0
      · simp only [List.mem_singleton] at hi
        have : c ∈ outputs B t := List.mem_filter.2 ⟨hcm, by simpa using hci.trans hi⟩
        rw [ho] at this
        simp at this
    · obtain ⟨x, hx⟩ := List.exists_mem_of_ne_nil _ ho
      have := hpsout x hx
      omega
  · rw [psize]
    intro c hcm hci
    rcases List.mem_append.1 hci with hi | hi
    · have h1 := h.divides c hcm hi
      have : ps = s.psize := by
        rw [hps]
        cases outputs B t with
        | nil => rfl
        | cons x l => simp only [sizeAfter]; rw [if_neg h1.1.ne']
      rw [this]
      exact h1
    · simp only [List.mem_singleton] at hi
      exact hdiv c (List.mem_filter.2 ⟨hcm, by simpa using hi⟩)
  · rw [psize, hlines, List.map_append, List.map_append, h.shape, List.flatMap_append, hflat seq fun _ h => h]
    simp [hblock]
  · rw [hcount, hlines, h.count]
    simp only [List.length_append, List.length_singleton]
  · rw [hlines]
    refine (h.numbered.append ?_).append ?_
    · show [s.count] = _
      rw [h.count]
      simp
    · rw [List.length_append, List.length_singleton, Nat.zero_add, ← h.count]
      exact hnumout
  · rw [hlines]
    intro l hl
    rcases List.mem_append.1 hl with hl | hl
    · rcases List.mem_append.1 hl with hl | hl
      · exact h.deps l hl
      · simp only [List.mem_singleton] at hl
        subst hl
        intro d hd
        rcases List.mem_append.1 hd with hd | hd
        · exact hdepsLt d hd
        · exact h.lastLt t.id d (by simpa using hd)
    · exact sendAll_deps _ _ _ _ _ _ (by omega) (fun d hd => (hdepsLt d hd).trans (by omega)) l hl
  · intro i p hp
    rw [hlast] at hp
    rw [hcount]
    by_cases hi : i = t.id
    · subst hi
      rw [Function.update_self] at hp
      have := Option.some.inj hp
      omega
    · rw [Function.update_of_ne hi] at hp
      have := h.lastLt _ _ hp
      omega
  · intro i p hp
    by_cases hi : ∃ c ∈ B.channels, c.1.id = i ∧ c.2.1.id = t.id
    · obtain ⟨c, hcm, rfl, hct⟩ := hi
      obtain ⟨p', p1, p2, -⟩ := edgeNew c hcm hct
      rw [hp] at p1
      rw [Option.some.inj p1]
      exact p2
    · push Not at hi
      rw [hedge, edgesAfter_other ps (outputs B t) _ _ fun x hx hxc => hi x (List.mem_filter.1 hx).1 hxc (by simpa using (List.mem_filter.1 hx).2)] at hp
      have := h.edgeLt _ _ hp
      omega
  · intro i j hj
    rw [psize, hlast]
    rcases getElem?_snoc hj with ⟨hj, hlt⟩ | ⟨rfl, rfl⟩
    · rw [hold j hlt.le]
      by_cases hi : i = t.id
      · subst hi
        exact ⟨s.count, Function.update_self .., (againNew j hj).to_reflTransGen⟩
      · obtain ⟨p, p1, p2⟩ := h.last i j hj
        exact ⟨p, by rw [Function.update_of_ne hi]; exact p1, reach_mono sub p2⟩
    · exact ⟨s.count, Function.update_self .., by rw [hnew]⟩
  · intro c hcm j hj
    rw [psize]
    by_cases hct : c.2.1.id = t.id
    · obtain ⟨p, p1, -, p3⟩ := edgeNew c hcm hct
      refine ⟨p, p1, ?_⟩
      rcases getElem?_snoc hj with ⟨hj, hlt⟩ | ⟨rfl, -⟩
      · rw [hold j hlt.le]
        rw [hct] at hj
        exact ((againNew j hj).trans p3).to_reflTransGen
      · rw [hnew]
        exact p3.to_reflTransGen
    · rcases getElem?_snoc hj with ⟨hj, hlt⟩ | ⟨rfl, he⟩
      · obtain ⟨p, p1, p2⟩ := h.edge c hcm j hj
        exact ⟨p, by rw [edgeOld c hcm hct]; exact p1, by rw [hold j hlt.le]; exact reach_mono sub p2⟩
      · exact absurd he.symm hct
  · intro i j k hjk hj hk
    rw [psize]
    rcases getElem?_snoc hk with ⟨hk, hlt⟩ | ⟨rfl, rfl⟩
    · rcases getElem?_snoc hj with ⟨hj, hlt'⟩ | ⟨rfl, -⟩
      · rw [hold j hlt'.le, hold k hlt.le]
        exact waitsFor_mono sub (h.again i j k hjk hj hk)
      · omega
    · rcases getElem?_snoc hj with ⟨hj, hlt'⟩ | ⟨rfl, -⟩
      · rw [hold j hlt'.le, hnew]
        exact againNew j hj
      · omega
  · intro c hcm j k hjk hj hk
    rw [psize]
    rcases getElem?_snoc hj with ⟨hj, hlt'⟩ | ⟨rfl, -⟩
    · rcases getElem?_snoc hk with ⟨hk, hlt⟩ | ⟨rfl, he⟩
      · rw [hold j hlt'.le, hold k hlt.le]
        exact waitsFor_mono sub (h.order c hcm j k hjk hj hk)
      · rw [hold j hlt'.le, hnew]
        obtain ⟨p, p1, p2⟩ := h.edge c hcm j hj
        exact Relation.TransGen.tail' (reach_mono sub p2) (inputWaits c hcm he.symm p p1)
    · rcases getElem?_snoc hk with ⟨hk, hlt⟩ | ⟨rfl, he⟩ <;> omega
  · intro i j hj hno l hl hl1 hl2
    rw [psize] at hl1 hl2
    rcases getElem?_snoc hj with ⟨hj, hlt⟩ | ⟨rfl, rfl⟩
    · have hne : t.id ≠ i := by
        intro he
        refine hno seq.length hlt ?_
        simp [he]
      rw [hold j hlt.le] at hl1
      rw [hold (j + 1) hlt] at hl2
      have hlo : l ∈ s.lines := oldLine l hl (hl2.trans_le (by rw [← hlen]; exact lineOf_mono _ _ hlt))
      obtain ⟨c, hcm, c1, c2, p, p1, p2⟩ := h.sent i j hj (fun j' hj' he => hno j' hj' (by
        have : j' < seq.length := (List.getElem?_eq_some_iff.1 he).1
        rw [List.getElem?_append_left this]; exact he)) l hlo hl1 hl2
      exact ⟨c, hcm, c1, c2, p, by rw [edgeOld c hcm (by rw [c1]; exact hne.symm)]; exact p1, reach_mono sub p2⟩
    · rw [hnew] at hl1
      have hlo : l ∈ out := by
        rw [hlines] at hl
        rcases List.mem_append.1 hl with hl | hl
        · rcases List.mem_append.1 hl with hl | hl
          · have := (h.numbered.mem hl).2
            rw [Nat.zero_add, ← h.count] at this
            omega
          · simp only [List.mem_singleton] at hl
            subst hl
            exact absurd hl1 (lt_irrefl _)
        · exact hl
      have hone : outputs B t ≠ [] := by
        intro he
        rw [hout, he] at hlo
        simp [sendAll] at hlo
      obtain ⟨x, hx⟩ := List.exists_mem_of_ne_nil _ hone
      obtain ⟨c, hco, c1, p, p1, p2⟩ := (sendAll_edges t.id (hpsout x hx) deps s.count (outputs B t) (s.count + 1) s.edge hnodup
        fun x hx => ⟨hmade x hx, (hdiv x hx).2⟩).2 l hlo
      obtain ⟨c2, c3⟩ := List.mem_filter.1 hco
      exact ⟨c, c2, by simpa using c3, c1, p, by rw [hedge]; exact p1, reach_mono subout p2⟩
  · intro i j k d hjk hj hk hno l hl hl1 hl2 hd
    rw [psize] at hl1 hl2 ⊢
    rcases getElem?_snoc hj with ⟨hj, hlt⟩ | ⟨rfl, rfl⟩
    · rw [hold j hlt.le] at hl1
      rw [hold (j + 1) hlt] at hl2
      have hlo : l ∈ s.lines := oldLine l hl (hl2.trans_le (by rw [← hlen]; exact lineOf_mono _ _ hlt))
      rcases getElem?_snoc hk with ⟨hk, hlt'⟩ | ⟨rfl, he⟩
      · rw [hold k hlt'.le]
        refine waitsFor_mono sub (h.delivered i j k d hjk hj hk (fun j' h1 h2 he => hno j' h1 h2 ?_) l hlo hl1 hl2 hd)
        rw [List.getElem?_append_left (by omega)]; exact he
      · rw [hnew]
        obtain ⟨c, hcm, c1, c2, p, p1, p2⟩ := h.sent i j hj (fun j' hj' he => by
          have : j' < seq.length := (List.getElem?_eq_some_iff.1 he).1
          refine hno j' hj' this ?_
          rw [List.getElem?_append_left this]; exact he) l hlo hl1 hl2
        exact Relation.TransGen.tail' (reach_mono sub p2) (inputWaits c hcm (by rw [c2, hd, he]) p p1)
    · rcases getElem?_snoc hk with ⟨hk, hlt'⟩ | ⟨rfl, he⟩ <;> omega

theorem traced_start (hu : Unique B) (psize : Int) {iterations : Int} (h0 : ∀ t ∈ B.tasks, 0 ≤ t.ni * iterations) :
    Traced B iterations [] ⟨start B iterations, psize, 0, fun _ => none, fun _ => none, []⟩ := by
  refine ⟨after_start hu h0, ?_, ?_, rfl, rfl, rfl, ?_, ?_, ?_, ?_, ?_, ?_, ?_, ?_, ?_⟩ <;> simp

theorem traced_visits (hB : BaseOK B) (hu : Unique B) {iterations : Int} : ∀ (l : List KTask), (∀ t ∈ l, t ∈ B.tasks) →
    ∀ {seq : List Int} {s s' : Trace}, Traced B iterations seq s → l.foldlM (visitP B) s = some s' →
    s'.exec = l.foldl (visit B) s.exec ∧ (s.psize ≠ 0 → s'.psize = s.psize) ∧
      (s.psize = 0 → s'.psize = 0 ∨ ∃ c ∈ B.channels, s'.psize = made c) ∧ ∃ seq', Traced B iterations seq' s' := by
  intro l
  induction l with
  | nil =>
    intro _ seq s s' h hl
    simp only [List.foldlM_nil] at hl
    obtain rfl := Option.some.inj hl
    exact ⟨rfl, fun _ => rfl, fun h => .inl h, seq, h⟩
  | cons t l ih =>
    intro hl seq s s' h hf
    rw [List.foldlM_cons] at hf
    obtain ⟨s1, h1, h2⟩ := Option.bind_eq_some_iff.1 hf
    rw [List.foldl_cons]
    by_cases hc : canExecute B s.exec t = true
    · have ht := hl t (by simp)
      have hmade : ∀ c ∈ outputs B t, 0 < made c := fun c hc => (hB.channels c (List.mem_filter.1 hc).1).2.2.inPos
      have hs1 := traced_step hB hu h ht hc h1
      have hv := h1
      unfold visitP at hv
      rw [if_pos hc] at hv
      dsimp only at hv
      rw [foldlM_outputs t _ _ _ _ _ hmade] at hv
      have e1 : s1.exec = visit B s.exec t := by rw [hv.2]; unfold visit; rw [if_pos hc]
      have e2 : s1.psize = sizeAfter s.psize (outputs B t) := by rw [hv.2]
      obtain ⟨g1, g2, g3, g4⟩ := ih (fun x hx => hl x (by simp [hx])) hs1 h2
      refine ⟨by rw [g1, e1], fun hne => ?_, fun h0 => ?_, g4⟩
      · have : s1.psize = s.psize := by
          rw [e2]
          cases outputs B t with
          | nil => rfl
          | cons c l => simp only [sizeAfter]; rw [if_neg hne]
        rw [← this]
        exact g2 (by rw [this]; exact hne)
      · by_cases h3 : s1.psize = 0
        · exact g3 h3
        · rw [g2 h3, e2]
          cases ho : outputs B t with
          | nil => exact .inl h0
          | cons c l =>
            right
            refine ⟨c, (List.mem_filter.1 (show c ∈ outputs B t by rw [ho]; simp)).1, ?_⟩
            simp only [sizeAfter]
            rw [if_pos h0]
    · unfold visitP at h1
      rw [if_neg hc] at h1
      obtain rfl := Option.some.inj h1
      have : visit B s.exec t = s.exec := by unfold visit; rw [if_neg hc]
      rw [this]
      exact ih (fun x hx => hl x (by simp [hx])) h h2

theorem traced_passes (hB : BaseOK B) (hu : Unique B) (psize : Int) {iterations : Int} (h0 : ∀ t ∈ B.tasks, 0 ≤ t.ni * iterations) :
    ∀ (n : ℕ) (s : Trace), passesP B ⟨start B iterations, psize, 0, fun _ => none, fun _ => none, []⟩ n = some s →
      s.exec = passes B (start B iterations) n ∧ (psize ≠ 0 → s.psize = psize) ∧
        (psize = 0 → s.psize = 0 ∨ ∃ c ∈ B.channels, s.psize = made c) ∧ ∃ seq, Traced B iterations seq s := by
  intro n
  induction n with
  | zero =>
    intro s h
    obtain rfl := Option.some.inj h
    exact ⟨rfl, fun _ => rfl, fun h => .inl h, [], traced_start hu psize h0⟩
  | succ n ih =>
    intro s h
    unfold passesP at h
    obtain ⟨s1, h1, h2⟩ := Option.bind_eq_some_iff.1 h
    obtain ⟨g1, g2, g3, seq, g4⟩ := ih s1 h1
    unfold passes
    rw [← g1]
    by_cases hp : 0 < s1.exec.total
    · rw [if_pos hp] at h2 ⊢
      obtain ⟨k1, k2, k3, k4⟩ := traced_visits hB hu B.tasks (fun _ h => h) g4 h2
      refine ⟨k1, fun hne => ?_, fun he => ?_, k4⟩
      · rw [k2 (by rw [g2 hne]; exact hne), g2 hne]
      · by_cases hz : s1.psize = 0
        · exact k3 hz
        · rw [k2 hz]; exact g3 he
    · rw [if_neg hp] at h2 ⊢
      obtain rfl := Option.some.inj h2
      exact ⟨rfl, g2, g3, seq, g4⟩

/-- The loops over packets end when the size of packets divides what is sent. -/
theorem visits_some (hB : BaseOK B) {r : Int} (hr : 0 < r) (hdiv : ∀ c ∈ B.channels, r ∣ made c) : ∀ (l : List KTask) (s : Trace),
    (s.psize = r ∨ s.psize = 0 ∧ ∀ c ∈ B.channels, made c = r) →
    ∃ s', l.foldlM (visitP B) s = some s' ∧ (s'.psize = r ∨ s'.psize = 0 ∧ ∀ c ∈ B.channels, made c = r) := by
  intro l
  induction l with
  | nil => intro s h; exact ⟨s, rfl, h⟩
  | cons t l ih =>
    intro s h
    rw [List.foldlM_cons]
    have : ∃ s1, visitP B s t = some s1 ∧ (s1.psize = r ∨ s1.psize = 0 ∧ ∀ c ∈ B.channels, made c = r) := by
      unfold visitP
      by_cases hc : canExecute B s.exec t = true
      · rw [if_pos hc]
        have hmade : ∀ c ∈ outputs B t, 0 < made c := fun c hc => (hB.channels c (List.mem_filter.1 hc).1).2.2.inPos
        have hsz : (outputs B t = [] ∧ sizeAfter s.psize (outputs B t) = s.psize) ∨ sizeAfter s.psize (outputs B t) = r := by
          cases ho : outputs B t with
          | nil => exact .inl ⟨rfl, rfl⟩
          | cons c l =>
            right
            simp only [sizeAfter]
            rcases h with h | ⟨h, h'⟩
            · rw [if_neg (by omega), h]
            · rw [if_pos h]
              exact h' c (List.mem_filter.1 (show c ∈ outputs B t by rw [ho]; simp)).1
        refine ⟨_, (foldlM_outputs t _ _ _ _ _ hmade).2 ⟨fun c hc => ?_, rfl⟩, ?_⟩
        · dsimp only
          rcases hsz with ⟨h1, -⟩ | h1
          · rw [h1] at hc; simp at hc
          · rw [h1]
            exact ⟨hr, hdiv c (List.mem_filter.1 hc).1⟩
        · dsimp only
          rcases hsz with ⟨-, h1⟩ | h1
          · rw [h1]; exact h
          · exact .inl h1
      · rw [if_neg hc]
        exact ⟨s, rfl, h⟩
    obtain ⟨s1, h1, h2⟩ := this
    rw [h1]
    exact ih s1 h2

theorem passes_some (hB : BaseOK B) {r : Int} (hr : 0 < r) (hdiv : ∀ c ∈ B.channels, r ∣ made c) {s : Trace}
    (h : s.psize = r ∨ s.psize = 0 ∧ ∀ c ∈ B.channels, made c = r) :
    ∀ n, ∃ s', passesP B s n = some s' ∧ (s'.psize = r ∨ s'.psize = 0 ∧ ∀ c ∈ B.channels, made c = r) := by
  intro n
  induction n with
  | zero => exact ⟨s, rfl, h⟩
  | succ n ih =>
    obtain ⟨s1, h1, h2⟩ := ih
    unfold passesP
    rw [h1]
    show ∃ s', (if 0 < s1.exec.total then B.tasks.foldlM (visitP B) s1 else some s1) = some s' ∧ _
    split
    · exact visits_some hB hr hdiv _ _ h2
    · exact ⟨s1, rfl, h2⟩

end
end Untimed

section
variable {B : BaseGraph}

/-- What the command prints when it ends. The lines are those of complete iterations of the graph, executed one at a time: for each
execution a computation and its packets, all of the same size, the one asked for if any. Lines are numbered from 0, and wait only for
lines printed before. A computation waits for the computations before it of the same task and of the producers of its inputs, and for
the packets that the last execution before it of each producer has sent to it. -/
theorem C95_trace (hB : BaseOK B) (hu : Unique B) {psize iterations : Int} (hit : 0 ≤ iterations) {n : ℕ} {lines : List Packet}
    (h : packetTrace B psize iterations n = some lines) : ∃ size seq, Iterates B iterations seq ∧
      (psize ≠ 0 → size = psize) ∧ (psize = 0 → size = 0 ∨ ∃ c ∈ B.channels, size = c.1.inPhases.sum) ∧
      (1 ≤ iterations → ∀ c ∈ B.channels, 0 < size ∧ size ∣ c.1.inPhases.sum) ∧
      lines.map (fun l => (l.src, l.dst, l.duration)) = seq.flatMap (linesOf B size) ∧
      lines.map (fun l => l.pid) = List.range lines.length ∧
      (∀ l ∈ lines, ∀ d ∈ l.deps, d < l.pid) ∧
      (∀ i j k, j < k → seq[j]? = some i → seq[k]? = some i → WaitsFor lines (lineOf B size seq j) (lineOf B size seq k)) ∧
      (∀ c ∈ B.channels, ∀ j k, j < k → seq[j]? = some c.2.1.id → seq[k]? = some c.2.2.id →
        WaitsFor lines (lineOf B size seq j) (lineOf B size seq k)) ∧
      (∀ i j k d, j < k → seq[j]? = some i → seq[k]? = some d → (∀ j', j < j' → j' < k → seq[j']? ≠ some i) →
        ∀ l ∈ lines, lineOf B size seq j < l.pid → l.pid < lineOf B size seq (j + 1) → l.dst = d →
          WaitsFor lines l.pid (lineOf B size seq k)) := by
  have h0 : ∀ t ∈ B.tasks, 0 ≤ t.ni * iterations := fun t ht => mul_nonneg (hB.tasks t ht).ni.le hit
  unfold packetTrace at h
  split at h
  · obtain ⟨s, h1, h2⟩ := Option.bind_eq_some_iff.1 h
    obtain ⟨g1, g2, g3, seq, g4⟩ := traced_passes hB hu psize h0 n s h1
    split at h2
    · simp at h2
    · rename_i hnp
      obtain rfl := Option.some.inj h2
      have hi := g4.exec.iterates (not_lt.1 hnp)
      refine ⟨s.psize, seq, hi, g2, g3, fun h1 c hc => ?_, g4.shape, ?_, g4.deps, g4.again, g4.order, g4.delivered⟩
      · refine g4.divides c hc ?_
        rw [← List.count_pos_iff]
        have hm := (hB.channels c hc).1
        have := hi.counts _ hm
        have := mul_pos (hB.tasks _ hm).ni (show 0 < iterations by omega)
        omega
      · rw [List.range_eq_range']
        exact g4.numbered
  · simp at h

/-- With a given size of packets, the command ends exactly when the graph can execute the iterations asked for and the size divides
the rates of all the producers. -/
theorem C95_returns (hB : BaseOK B) (hu : Unique B) {psize iterations : Int} (hit : 1 ≤ iterations) (hps : 0 < psize) :
    (∃ n lines, packetTrace B psize iterations n = some lines) ↔
      (∀ t ∈ B.tasks, t.durations.length = 1) ∧ (∃ seq, Iterates B iterations seq) ∧ ∀ c ∈ B.channels, psize ∣ c.1.inPhases.sum := by
  have h0 : ∀ t ∈ B.tasks, 0 ≤ t.ni * iterations := fun t ht => mul_nonneg (hB.tasks t ht).ni.le (by omega)
  constructor
  · rintro ⟨n, lines, h⟩
    obtain ⟨size, seq, h1, h2, -, h3, -⟩ := C95_trace hB hu (by omega) h
    refine ⟨?_, ⟨seq, h1⟩, fun c hc => ?_⟩
    · unfold packetTrace at h
      split at h
      · rename_i h4
        simpa using h4
      · simp at h
    · rw [← h2 (by omega)]
      exact (h3 hit c hc).2
  · rintro ⟨h1, ⟨seq, hs⟩, hd⟩
    have hprog := passes_progress hu h0 (fun e he => made_nonneg hB he) hs (B.tasks.map fun t => t.ni * iterations).sum.toNat
    refine ⟨(B.tasks.map fun t => t.ni * iterations).sum.toNat, ?_⟩
    obtain ⟨s, hs1, -⟩ := passes_some hB hps hd (s := ⟨start B iterations, psize, 0, fun _ => none, fun _ => none, []⟩) (.inl rfl)
      (B.tasks.map fun t => t.ni * iterations).sum.toNat
    obtain ⟨g1, -⟩ := traced_passes hB hu psize h0 _ s hs1
    refine ⟨s.lines, ?_⟩
    unfold packetTrace
    rw [if_pos (by simpa using h1), hs1]
    show (if 0 < s.exec.total then none else some s.lines) = _
    rw [if_neg]
    rw [g1]
    omega

/-- Without a size of packets, it ends when all the rates of producers are the same. -/
theorem C95_returns_default (hB : BaseOK B) (hu : Unique B) {iterations r : Int} (hit : 1 ≤ iterations) (hr : 0 < r)
    (h1 : ∀ t ∈ B.tasks, t.durations.length = 1) {seq : List Int} (hs : Iterates B iterations seq)
    (hd : ∀ c ∈ B.channels, c.1.inPhases.sum = r) : ∃ n lines, packetTrace B 0 iterations n = some lines := by
  have h0 : ∀ t ∈ B.tasks, 0 ≤ t.ni * iterations := fun t ht => mul_nonneg (hB.tasks t ht).ni.le (by omega)
  have hprog := passes_progress hu h0 (fun e he => made_nonneg hB he) hs (B.tasks.map fun t => t.ni * iterations).sum.toNat
  refine ⟨(B.tasks.map fun t => t.ni * iterations).sum.toNat, ?_⟩
  obtain ⟨s, hs1, -⟩ := passes_some hB hr (fun c hc => (hd c hc) ▸ dvd_refl _)
    (s := ⟨start B iterations, 0, 0, fun _ => none, fun _ => none, []⟩) (.inr ⟨rfl, hd⟩) (B.tasks.map fun t => t.ni * iterations).sum.toNat
  obtain ⟨g1, -⟩ := traced_passes hB hu 0 h0 _ s hs1
  refine ⟨s.lines, ?_⟩
  unfold packetTrace
  rw [if_pos (by simpa using h1), hs1]
  show (if 0 < s.exec.total then none else some s.lines) = _
  rw [if_neg]
  rw [g1]
  omega

end

namespace UntimedExample
open BufferExample

/-- Two executions of the first task, each with a packet, then one of the second. -/
def trace2 : List Packet := [⟨0, 0, 2, 0, []⟩, ⟨0, 1, 0, 1, [0]⟩, ⟨0, 0, 2, 2, [0]⟩, ⟨0, 1, 0, 3, [2]⟩, ⟨1, 1, 3, 4, [3]⟩]

theorem trace2_eq : packetTrace G 1 1 2 = some trace2 := by decide +kernel

example : BaseOK G ∧ Unique G ∧ packetTrace G 1 1 2 = some trace2 := ⟨G_ok, G_unique, trace2_eq⟩

/-- The second task takes the two tokens, the one of the first execution and the one of the second. Yet its computation does not wait
for the packet of the first execution, number 1. -/
theorem C95_missing_dependency : ¬ WaitsFor trace2 1 4 := by
  have h : ∀ b, ¬ Waits trace2 1 b := by
    rintro b ⟨l, hl, -, hd⟩
    revert hd
    simp only [trace2, List.mem_cons, List.not_mem_nil, or_false] at hl
    rcases hl with rfl | rfl | rfl | rfl | rfl <;> simp
  intro hw
  obtain ⟨b, hb, -⟩ := Relation.TransGen.head'_iff.1 hw
  exact h b hb

/-- A task that sends 2 tokens to one task and 3 to another: without a size of packets, that of the first channel, which does not
divide the second rate, is taken for both. The command does not end. -/
def U : KTask := ⟨1, [1], [], 1, 1⟩
def V : KTask := ⟨2, [1], [], 1, 1⟩
def fork : BaseGraph := ⟨[U, V], [(⟨1, [2], [2], [], [], 0, 2⟩, U, V), (⟨2, [3], [3], [], [], 0, 3⟩, U, V)]⟩

theorem fork_ok : BaseOK fork := by
  have hX : TaskOK U 1 := ⟨by decide, rfl, by decide, by decide, by decide, by decide⟩
  have hY : TaskOK V 1 := ⟨by decide, rfl, by decide, by decide, by decide, by decide⟩
  constructor
  · simp [fork, U, V]
  · intro t ht; simp only [fork, List.mem_cons, List.not_mem_nil, or_false] at ht
    rcases ht with rfl | rfl
    · exact hX
    · exact hY
  · simp [fork, U, V]
  · intro c hc; simp only [fork, List.mem_cons, List.not_mem_nil, or_false] at hc
    rcases hc with rfl | rfl
    · exact ⟨by simp [fork], by simp [fork],
        rfl, rfl, rfl, rfl, by decide, by decide, by decide, by decide, by decide, by decide, by decide, by decide, by decide⟩
    · exact ⟨by simp [fork], by simp [fork],
        rfl, rfl, rfl, rfl, by decide, by decide, by decide, by decide, by decide, by decide, by decide, by decide, by decide⟩
  · simp [fork]

theorem C95_default_size : symbolicExecution fork 1 = some true ∧ ∀ n, packetTrace fork 0 1 n = none := by
  refine ⟨by decide +kernel, fun n => ?_⟩
  cases h : packetTrace fork 0 1 n with
  | none => rfl
  | some lines =>
    exfalso
    obtain ⟨size, seq, -, -, h1, h2, -⟩ := C95_trace fork_ok ⟨by decide, by decide⟩ (by decide) h
    have a := h2 (by decide) (⟨1, [2], [2], [], [], 0, 2⟩, U, V) (by simp [fork])
    have b := h2 (by decide) (⟨2, [3], [3], [], [], 0, 3⟩, U, V) (by simp [fork])
    rcases h1 rfl with rfl | ⟨c, hc, rfl⟩
    · exact absurd a.1 (by decide)
    · simp only [fork, List.mem_cons, List.not_mem_nil, or_false] at hc
      rcases hc with rfl | rfl
      · exact absurd b.2 (by decide)
      · exact absurd a.2 (by decide)

end UntimedExample

end Kiter
