/-
C85: a graph saved in an SDF3 file and loaded again is the graph that was saved, but for what the format cannot hold.
-/
import Verif.Spec.SDF3
import Verif.Lemmas.SDF3Pass

set_option autoImplicit false

namespace Kiter
open SDF3 Text

theorem content_text {lib : Lib} {s : Str} (h : lib.empty = some [] ∨ s ≠ []) : content lib s = some s := by
  by_cases hs : s = []
  · rcases h with h | h
    · rw [content, if_pos hs, h, hs]
    · exact absurd hs h
  · exact content_ne hs

/-- **C85.** Saving always succeeds on a well-formed graph, and loading the file gives back the same tasks, phases,
durations, channels, rates, initial tokens and sizes, in the same order. Loops of one token over one task become the
reentrancy of that task, reentrancy becomes 0 or 1, and channels get new identifiers. -/
theorem C85_reads (lib : Lib) (g : Graph) (hv : Valid g) (hr : Readable lib g) :
    ∃ d, write g = some d ∧ read lib d = some (saved g) := by
  refine ⟨doc g, write_eq hv, ?_⟩
  have ha : attr lib (.mk "applicationGraph" [("name", g.app)]
      [.mk "csdf" [("name", g.gname), ("type", g.gtype)] (elems g),
       .mk "csdfProperties" [] (g.actors.map pnode ++ g.chans.map chanPropNode)]) "name" [] = some g.app := by
    have := content_text (lib := lib) (s := g.app) (hr.imp id fun h => h.1)
    simp [attr, Node.attrs, this]
  have hn : attr lib (.mk "csdf" [("name", g.gname), ("type", g.gtype)] (elems g)) "name" [] = some g.gname := by
    have := content_text (lib := lib) (s := g.gname) (hr.imp id fun h => h.2.1)
    simp [attr, Node.attrs, this]
  have ht : attr lib (.mk "csdf" [("name", g.gname), ("type", g.gtype)] (elems g)) "type" [] = some g.gtype := by
    have := content_text (lib := lib) (s := g.gtype) (hr.imp id fun h => h.2.2.1)
    simp [attr, Node.attrs, this]
  unfold SDF3.read doc
  rw [if_neg (by simp [Node.name])]
  simp only [Node.children, List.filter, Node.name, decide_true, List.getLast?_singleton, Option.bind_eq_bind, Option.bind_some,
    ha, String.reduceEq, true_or, or_self, decide_false, hn, ht]
  rw [pass_actors hv hr (fun _ => False) (fun _ => False), Option.bind_some, pass_chans hv, Option.bind_some, pass_times hv,
    Option.bind_some, pass_ports hv (fun f hf => (List.mem_filter.1 hf).1) ((hv.ids.of_map _).filter _)]
  simp only [st, saved, Option.some.injEq, Graph.mk.injEq, true_and]
  refine ⟨mapIdx_congr' fun i a hia => ?_, mapIdx_congr' fun i e hie => ?_⟩
  · have hl := (List.getElem?_eq_some_iff.1 hia).1
    have h1 : reentOf g g.chans (g.actors.filter fun a => a.reent ≠ 0) i =
        if a.reent ≠ 0 ∨ ∃ e ∈ g.chans, UnitLoop e ∧ e.src = i then 1 else 0 := by
      have hiff : ReentAt g g.chans (g.actors.filter fun a => a.reent ≠ 0) i ↔
          (a.reent ≠ 0 ∨ ∃ e ∈ g.chans, UnitLoop e ∧ e.src = i) := by
        unfold ReentAt
        rw [or_comm]
        refine or_congr ?_ Iff.rfl
        constructor
        · rintro ⟨b, hb, hib⟩
          obtain rfl := Option.some.inj (hib.symm.trans hia)
          simpa using (List.mem_filter.1 hb).2
        · exact fun h => ⟨a, List.mem_filter.2 ⟨List.mem_of_getElem? hia, by simpa using h⟩, hia⟩
      unfold reentOf
      by_cases h : a.reent ≠ 0 ∨ ∃ e ∈ g.chans, UnitLoop e ∧ e.src = i
      · rw [if_pos (hiff.2 h), if_pos h]
      · rw [if_neg (fun hc => h (hiff.1 hc)), if_neg h]
    simp only [act, hl, if_true, h1]
  · simp [chanSt, savedChan]

/-- A graph with an initial phase, a task that is its own bottleneck, and channels of several rates. -/
def exSDF3 : Graph :=
  ⟨"app".toList, "g".toList, "csdf".toList,
   [⟨"A".toList, "a".toList, 2, 1, [1, 5], [3], 1⟩, ⟨"B".toList, "b".toList, 1, 0, [2], [], 0⟩],
   [⟨7, "x".toList, 0, 1, [2, 0], [1], [3], [], 4, 0, [], []⟩, ⟨3, "y".toList, 1, 0, [1], [], [1, 1], [0], 0, 9, [], []⟩]⟩

theorem exSDF3_valid : Valid exSDF3 := by
  refine ⟨by decide +kernel, by decide +kernel, by decide +kernel, by decide +kernel, by decide +kernel, by decide +kernel, ?_, ?_, by decide +kernel⟩
  · intro e he
    simp only [exSDF3, List.mem_cons, List.not_mem_nil, or_false] at he
    rcases he with rfl | rfl
    · exact ⟨_, rfl, rfl, rfl⟩
    · exact ⟨_, rfl, rfl, rfl⟩
  · intro e he
    simp only [exSDF3, List.mem_cons, List.not_mem_nil, or_false] at he
    rcases he with rfl | rfl
    · exact ⟨_, rfl, rfl, rfl⟩
    · exact ⟨_, rfl, rfl, rfl⟩

/-- The hypotheses of `C85_reads` hold of a graph with phases, initial phases, rates and reentrancy. -/
example : Valid exSDF3 ∧ ∀ lib, Readable lib exSDF3 := ⟨exSDF3_valid, fun _ => .inr (by decide +kernel)⟩

/-- **C85.** When no channel is a unit loop and every reentrancy is 0 or 1, nothing is lost: the loaded graph differs from
the saved one only in the identifiers of the channels and the names of the ports. -/
theorem C85_round_trip (lib : Lib) (g : Graph) (hv : Valid g) (hr : Readable lib g) (h1 : ∀ a ∈ g.actors, a.reent = 0 ∨ a.reent = 1)
    (h2 : ∀ e ∈ g.chans, ¬ UnitLoop e) : ∃ d h, write g = some d ∧ read lib d = some h ∧ plain h = plain g := by
  obtain ⟨d, hd, hrd⟩ := C85_reads lib g hv hr
  refine ⟨d, _, hd, hrd, ?_⟩
  have hf : (g.chans.filter fun e => ¬ UnitLoop e) = g.chans := List.filter_eq_self.2 fun e he => by simpa using h2 e he
  simp only [plain, saved, Graph.mk.injEq, true_and]
  refine ⟨?_, ?_⟩
  · apply List.ext_getElem?
    intro i
    rw [List.getElem?_mapIdx]
    cases ha : g.actors[i]? with
    | none => rfl
    | some a =>
      have h3 : ¬ ∃ e ∈ g.chans, UnitLoop e ∧ e.src = i := fun ⟨e, he, hu, _⟩ => h2 e he hu
      rcases h1 a (List.mem_of_getElem? ha) with h | h
      · simp [h, h3]
        cases a; simp_all
      · simp [h]
        cases a; simp_all
  · rw [hf]
    apply List.ext_getElem?
    intro i
    rw [List.getElem?_map, List.getElem?_map, List.getElem?_mapIdx]
    cases g.chans[i]? with
    | none => rfl
    | some e => rfl

example : (∀ a ∈ exSDF3.actors, a.reent = 0 ∨ a.reent = 1) ∧ ∀ e ∈ exSDF3.chans, ¬ UnitLoop e := by decide +kernel

theorem unitLoop_saved {i : Nat} {e : Chan} : UnitLoop (savedChan i e) ↔ UnitLoop e := Iff.rfl

/-- **C85.** What was loaded can be saved again. -/
theorem C85_valid (g : Graph) (hv : Valid g) : Valid (saved g) := by
  have hget : ∀ e ∈ (saved g).chans, ∃ i f, f ∈ g.chans ∧ e = savedChan i f := by
    intro e he
    obtain ⟨i, hi⟩ := List.getElem?_of_mem he
    simp only [saved] at hi
    rw [List.getElem?_mapIdx] at hi
    cases hb : (g.chans.filter fun e => ¬ UnitLoop e)[i]? with
    | none => rw [hb] at hi; cases hi
    | some f =>
      rw [hb] at hi
      obtain rfl := Option.some.inj hi
      exact ⟨i, f, (List.mem_filter.1 (List.mem_of_getElem? hb)).1, rfl⟩
  have hact : ∀ a ∈ (saved g).actors, ∃ b ∈ g.actors, a.name = b.name ∧ a.phases = b.phases ∧ a.iphases = b.iphases ∧
      a.durs = b.durs ∧ a.idurs = b.idurs := by
    intro a ha
    obtain ⟨i, hi⟩ := List.getElem?_of_mem ha
    simp only [saved] at hi
    rw [List.getElem?_mapIdx] at hi
    cases hb : g.actors[i]? with
    | none => rw [hb] at hi; cases hi
    | some f =>
      rw [hb] at hi
      obtain rfl := Option.some.inj hi
      exact ⟨f, List.mem_of_getElem? hb, rfl, rfl, rfl, rfl, rfl⟩
  have hidx : ∀ (v : Nat) (a : Actor), g.actors[v]? = some a → ∃ b : Actor, (saved g).actors[v]? = some b ∧ b.phases = a.phases ∧ b.iphases = a.iphases := by
    intro v a ha
    simp only [saved]
    rw [List.getElem?_mapIdx, ha]
    exact ⟨_, rfl, rfl, rfl⟩
  have hnames : (saved g).actors.map Actor.name = g.actors.map Actor.name := by
    apply List.ext_getElem?
    intro i
    simp only [saved]
    rw [List.getElem?_map, List.getElem?_map, List.getElem?_mapIdx]
    cases g.actors[i]? <;> rfl
  have hcn : (saved g).chans.map Chan.name = (g.chans.filter fun e => ¬ UnitLoop e).map Chan.name := by
    apply List.ext_getElem?
    intro i
    simp only [saved]
    rw [List.getElem?_map, List.getElem?_map, List.getElem?_mapIdx]
    cases (g.chans.filter fun e => ¬ UnitLoop e)[i]? <;> rfl
  refine ⟨hnames ▸ hv.names, ?_, ?_, ?_, ?_, ?_, ?_, ?_, ?_⟩
  · intro a ha
    obtain ⟨b, hb, h, _⟩ := hact a ha
    exact h ▸ hv.named b hb
  · rw [hcn]
    exact hv.chanNames.sublist (List.filter_sublist.map _)
  · intro e he
    obtain ⟨i, f, hf, rfl⟩ := hget e he
    exact hv.chanNamed f hf
  · have : (saved g).chans.map Chan.id = List.map (fun i : Nat => (i : Int) + 1)
        (List.range (g.chans.filter fun e => ¬ UnitLoop e).length) := by
      apply List.ext_getElem
      · simp [saved]
      · intro i h1 h2
        simp [saved, savedChan]
    rw [this]
    exact List.nodup_range.map fun _ _ h => by simpa using h
  · intro a ha
    obtain ⟨b, hb, h1, h2, h3, h4, h5⟩ := hact a ha
    rw [h2, h3, h4, h5]
    exact hv.durs b hb
  · intro e he
    obtain ⟨i, f, hf, rfl⟩ := hget e he
    obtain ⟨a, ha, h1, h2⟩ := hv.src f hf
    obtain ⟨b, hb, h3, h4⟩ := hidx _ _ ha
    exact ⟨b, hb, h1.trans h3.symm, h2.trans h4.symm⟩
  · intro e he
    obtain ⟨i, f, hf, rfl⟩ := hget e he
    obtain ⟨a, ha, h1, h2⟩ := hv.tgt f hf
    obtain ⟨b, hb, h3, h4⟩ := hidx _ _ ha
    exact ⟨b, hb, h1.trans h3.symm, h2.trans h4.symm⟩
  · intro e he
    obtain ⟨i, f, hf, rfl⟩ := hget e he
    exact hv.long f hf

/-- **C85.** A second trip through a file loses nothing: from the first loaded graph on, saving and loading changes only
identifiers and port names. -/
theorem C85_stable (lib : Lib) (g : Graph) (hv : Valid g) (hr : Readable lib g) :
    ∃ d h d' h', write g = some d ∧ read lib d = some h ∧ write h = some d' ∧ read lib d' = some h' ∧ plain h' = plain h := by
  obtain ⟨d, hd, hrd⟩ := C85_reads lib g hv hr
  have hr' : Readable lib (saved g) := by
    refine hr.imp id fun h => ⟨h.1, h.2.1, h.2.2.1, ?_⟩
    intro a ha
    obtain ⟨i, hi⟩ := List.getElem?_of_mem ha
    simp only [saved] at hi
    rw [List.getElem?_mapIdx] at hi
    cases hb : g.actors[i]? with
    | none => rw [hb] at hi; cases hi
    | some f =>
      rw [hb] at hi
      obtain rfl := Option.some.inj hi
      exact h.2.2.2 f (List.mem_of_getElem? hb)
  obtain ⟨d', h', hd', hrd', hp⟩ := C85_round_trip lib (saved g) (C85_valid g hv) hr'
    (by
      intro a ha
      obtain ⟨i, hi⟩ := List.getElem?_of_mem ha
      simp only [saved] at hi
      rw [List.getElem?_mapIdx] at hi
      cases hb : g.actors[i]? with
      | none => rw [hb] at hi; cases hi
      | some f =>
        rw [hb] at hi
        obtain rfl := Option.some.inj hi
        simp only
        split_ifs
        · exact .inr rfl
        · exact .inl rfl)
    (by
      intro e he hu
      obtain ⟨i, hi⟩ := List.getElem?_of_mem he
      simp only [saved] at hi
      rw [List.getElem?_mapIdx] at hi
      cases hb : (g.chans.filter fun e => ¬ UnitLoop e)[i]? with
      | none => rw [hb] at hi; cases hi
      | some f =>
        rw [hb] at hi
        obtain rfl := Option.some.inj hi
        have := (List.mem_filter.1 (List.mem_of_getElem? hb)).2
        exact absurd (unitLoop_saved.1 hu) (by simpa using this))
  exact ⟨d, saved g, d', h', hd, hrd, hd', hrd', hp⟩

/-! ### What the format cannot hold -/

/-- A reentrancy of 2 is saved as a loop of one token, hence loaded as 1: the loaded task is slower. -/
theorem C85_reentrancy_counterexample :
    ∃ g : Graph, Valid g ∧ (∀ lib, Readable lib g) ∧ ∀ lib d, write g = some d →
      ∃ h a b, read lib d = some h ∧ g.actors[0]? = some a ∧ h.actors[0]? = some b ∧ a.reent = 2 ∧ b.reent = 1 := by
  let g : Graph := ⟨"p".toList, "g".toList, "csdf".toList, [⟨"A".toList, "a".toList, 1, 0, [1], [], 2⟩], []⟩
  have hv : Valid g := by
    refine ⟨by decide +kernel, by decide +kernel, by decide +kernel, by decide +kernel, by decide +kernel, by decide +kernel,
      ?_, ?_, by decide +kernel⟩
    · intro e he; cases he
    · intro e he; cases he
  have hr : ∀ lib, Readable lib g := fun _ => .inr (by decide +kernel)
  refine ⟨g, hv, hr, fun lib d hd => ?_⟩
  obtain ⟨d', hd', h⟩ := C85_reads lib g hv (hr lib)
  obtain rfl := Option.some.inj (hd.symm.trans hd')
  exact ⟨_, _, _, h, rfl, rfl, rfl, rfl⟩

/-- A channel that the user drew from a task to itself, one token and rates 1, is not loaded: the graph has one channel,
the loaded graph has none. -/
theorem C85_loop_counterexample :
    ∃ g : Graph, Valid g ∧ (∀ lib, Readable lib g) ∧ g.chans.length = 1 ∧ ∀ lib d, write g = some d →
      ∃ h, read lib d = some h ∧ h.chans = [] := by
  let g : Graph := ⟨"p".toList, "g".toList, "csdf".toList, [⟨"A".toList, "a".toList, 1, 0, [1], [], 0⟩],
    [⟨1, "x".toList, 0, 0, [1], [], [1], [], 1, 0, [], []⟩]⟩
  have hv : Valid g := by
    refine ⟨by decide +kernel, by decide +kernel, by decide +kernel, by decide +kernel, by decide +kernel, by decide +kernel,
      ?_, ?_, by decide +kernel⟩
    · intro e he
      obtain rfl := List.mem_singleton.1 he
      exact ⟨_, rfl, rfl, rfl⟩
    · intro e he
      obtain rfl := List.mem_singleton.1 he
      exact ⟨_, rfl, rfl, rfl⟩
  have hr : ∀ lib, Readable lib g := fun _ => .inr (by decide +kernel)
  refine ⟨g, hv, hr, rfl, fun lib d hd => ?_⟩
  obtain ⟨d', hd', h⟩ := C85_reads lib g hv (hr lib)
  obtain rfl := Option.some.inj (hd.symm.trans hd')
  exact ⟨_, h, by decide +kernel⟩

/-- A graph whose application has no name is saved, but cannot be loaded with a library that has no node for an empty
attribute. -/
theorem C85_empty_name_counterexample :
    ∃ g : Graph, Valid g ∧ ∃ d, write g = some d ∧ read ⟨none⟩ d = none ∧ read ⟨some []⟩ d = some (saved g) := by
  let g : Graph := ⟨[], "g".toList, "csdf".toList, [⟨"A".toList, "a".toList, 1, 0, [1], [], 1⟩], []⟩
  have hv : Valid g := by
    refine ⟨by decide +kernel, by decide +kernel, by decide +kernel, by decide +kernel, by decide +kernel, by decide +kernel,
      ?_, ?_, by decide +kernel⟩
    · intro e he; cases he
    · intro e he; cases he
  obtain ⟨d, hd, h⟩ := C85_reads ⟨some []⟩ g hv (.inl rfl)
  refine ⟨g, hv, d, hd, ?_, h⟩
  have : d = doc g := Option.some.inj (hd.symm.trans (write_eq hv))
  subst this
  decide +kernel

end Kiter
