/-
C141: what merging tasks does to the channels of the graph.
-/
import Verif.Model.MergeChannels
import Mathlib.Data.List.Nodup
import Mathlib.Data.List.Perm.Basic
import Mathlib.Tactic.Tauto

set_option autoImplicit false

namespace Kiter.MergeChan

theorem removeAll_spec : ∀ (ids : List ℕ) (g : Net), ids.Nodup → g.tasks.Nodup → (∀ v ∈ ids, v ∈ g.tasks) →
    ∃ g', removeAll g ids = some g' ∧ g'.tasks = g.tasks.filter (fun v => decide (v ∉ ids)) ∧
      g'.chans = g.chans.filter (fun c => decide (c.src ∉ ids) && decide (c.dst ∉ ids)) ∧ g'.auto = g.auto
  | [], g, _, _, _ => ⟨g, rfl, by simp, by simp, rfl⟩
  | v :: rest, g, hn, ht, hm => by
    have hv := hm v (by simp)
    obtain ⟨g', h1, h2, h3, h4⟩ := removeAll_spec rest
      ⟨g.tasks.erase v, g.chans.filter fun c => decide (c.src ≠ v) && decide (c.dst ≠ v), g.auto⟩
      hn.of_cons (ht.erase v) (fun w hw => (List.mem_erase_of_ne (by
        rintro rfl; exact (List.nodup_cons.1 hn).1 hw)).2 (hm w (by simp [hw])))
    refine ⟨g', by simp only [removeAll, if_pos hv, h1], ?_, ?_, h4⟩
    · rw [h2, ht.erase_eq_filter, List.filter_filter]
      congr 1; funext w
      by_cases a : w = v <;> by_cases b : w ∈ rest <;> simp [a, b]
    · rw [h3, List.filter_filter]
      congr 1; funext c
      by_cases a : c.src = v <;> by_cases b : c.dst = v <;> by_cases a' : c.src ∈ rest <;> by_cases b' : c.dst ∈ rest <;>
        simp [a, b, a', b']

theorem freshId_spec : ∀ (l : List ℕ) (a : ℕ), a ≤ freshId a l ∧ ∀ v ∈ l, v < freshId a l
  | [], a => ⟨le_refl _, by simp⟩
  | w :: l, a => by
    obtain ⟨h1, h2⟩ := freshId_spec l (if w ≥ a then w + 1 else a)
    have e : freshId a (w :: l) = freshId (if w ≥ a then w + 1 else a) l := rfl
    rw [e]
    have h3 : a ≤ (if w ≥ a then w + 1 else a) ∧ w < (if w ≥ a then w + 1 else a) := by split <;> omega
    refine ⟨h3.1.trans h1, ?_⟩
    intro v hv
    rcases List.mem_cons.1 hv with rfl | hv
    · exact h3.2.trans_le h1
    · exact h2 v hv

theorem stored_perm {fin : Chan → ℕ} {g : Net} {ids : List ℕ} (hi : ids.Nodup) (hc : g.chans.Nodup) :
    (stored fin g ids).Perm (g.chans.filter fun c => decide (fin c ∈ ids)) := by
  refine (List.perm_ext_iff_of_nodup ?_ (hc.filter _)).2 ?_
  · unfold stored
    refine List.nodup_flatMap.2 ⟨fun v _ => hc.filter _, ?_⟩
    refine ((List.perm_insertionSort (· ≤ ·) ids).nodup_iff.2 hi).imp ?_
    intro a b hab c h1 h2
    simp only [List.mem_filter, decide_eq_true_eq] at h1 h2
    exact hab (h1.2.symm.trans h2.2)
  · intro c
    simp only [stored, List.mem_flatMap, List.mem_insertionSort, List.mem_filter, decide_eq_true_eq]
    constructor
    · rintro ⟨v, a, b, rfl⟩; exact ⟨b, a⟩
    · rintro ⟨a, b⟩; exact ⟨_, b, a, rfl⟩

theorem ratesMap_spec {f : Chan → Option (List Int)} {r : Chan → List Int} :
    ∀ (l : List Chan) (m : ℕ → Option (List Int)), (∀ c ∈ l, f c = some (r c)) → (l.map Chan.id).Nodup →
      ∃ m', ratesMap f l m = some m' ∧ (∀ c ∈ l, m' c.id = some (r c)) ∧ ∀ k, k ∉ l.map Chan.id → m' k = m k
  | [], m, _, _ => ⟨m, rfl, by simp, fun _ _ => rfl⟩
  | c :: l, m, hf, hn => by
    rw [List.map_cons, List.nodup_cons] at hn
    obtain ⟨m', h1, h2, h3⟩ := ratesMap_spec l (fun k => if k = c.id then some (r c) else m k)
      (fun d hd => hf d (by simp [hd])) hn.2
    refine ⟨m', by simp only [ratesMap, hf c (by simp), h1], ?_, ?_⟩
    · intro d hd
      rcases List.mem_cons.1 hd with rfl | hd
      · rw [h3 _ hn.1, if_pos rfl]
      · exact h2 d hd
    · intro k hk
      rw [List.map_cons, List.mem_cons, not_or] at hk
      rw [h3 k hk.2, if_neg hk.1]

theorem addSide_spec {ids tasks : List ℕ} {other : Chan → ℕ} {make : Chan → List Int → Chan} {m : ℕ → Option (List Int)}
    {r : Chan → List Int} :
    ∀ (l acc : List Chan), (∀ c ∈ l, ¬ (c.src ∈ ids ∧ c.dst ∈ ids) → other c ∈ tasks) → (∀ c ∈ l, m c.id = some (r c)) →
      addSide ids tasks other make m l acc =
        some (acc ++ (l.filter fun c => decide (¬ (c.src ∈ ids ∧ c.dst ∈ ids))).map fun c => make c (r c))
  | [], acc, _, _ => by simp [addSide]
  | c :: l, acc, ho, hm => by
    have ho' : ∀ d ∈ l, ¬ (d.src ∈ ids ∧ d.dst ∈ ids) → other d ∈ tasks := fun d hd => ho d (by simp [hd])
    have hm' : ∀ d ∈ l, m d.id = some (r d) := fun d hd => hm d (by simp [hd])
    by_cases h : c.src ∈ ids ∧ c.dst ∈ ids
    · rw [addSide, if_pos h, addSide_spec l acc ho' hm', List.filter_cons_of_neg (by simp [h])]
    · rw [addSide, if_neg h, if_pos (ho c (by simp) h), hm c (by simp)]
      simp only
      rw [addSide_spec l _ ho' hm', List.filter_cons, if_pos (by simpa only [decide_eq_true_eq] using h)]
      simp

/-- C141. Tasks of the graph are merged for which the rates along the sequence of executions are defined. Then the new graph has the
other tasks and one more; each channel between other tasks is as before; each channel that enters (leaves) a merged task from
(to) another one enters (leaves) the new one, with its identifier, name, tokens and type, the rates at the other end as before and those
of the sequence at the new task, cut after the initial phases; and there are no other channels. -/
theorem _root_.Kiter.C141_channels {g : Net} {ids : List ℕ} {seq : List Merging.Exec} {e : ℕ}
    (hids : ids.Nodup) (hsub : ∀ v ∈ ids, v ∈ g.tasks) (htasks : g.tasks.Nodup) (hchans : (g.chans.map Chan.id).Nodup)
    (hends : ∀ c ∈ g.chans, c.src ∈ g.tasks ∧ c.dst ∈ g.tasks)
    (hin : ∀ c ∈ g.chans, c.dst ∈ ids → (Merging.mergedRates seq c.dst c.outIni c.outPer).isSome)
    (hout : ∀ c ∈ g.chans, c.src ∈ ids → (Merging.mergedRates seq c.src c.inIni c.inPer).isSome) :
    ∃ (g' : Net) (new : ℕ), mergeChannels g ids seq e = some g' ∧
      g'.tasks = g.tasks.filter (fun v => decide (v ∉ ids)) ++ [new] ∧ g'.tasks.Nodup ∧
      (g'.chans.map Chan.id).Perm ((g.chans.filter fun c => decide (¬ (c.src ∈ ids ∧ c.dst ∈ ids))).map Chan.id) ∧
      ∀ c ∈ g.chans,
        (c.src ∉ ids → c.dst ∉ ids → c ∈ g'.chans) ∧
        (c.src ∉ ids → c.dst ∈ ids → ∃ r, Merging.mergedRates seq c.dst c.outIni c.outPer = some r ∧
          { c with dst := new, outIni := r.take e, outPer := r.drop e } ∈ g'.chans) ∧
        (c.src ∈ ids → c.dst ∉ ids → ∃ r, Merging.mergedRates seq c.src c.inIni c.inPer = some r ∧
          { c with src := new, inIni := r.take e, inPer := r.drop e } ∈ g'.chans) := by
  have hc : g.chans.Nodup := List.Nodup.of_map _ hchans
  obtain ⟨g1, h1, h2, h3, h4⟩ := removeAll_spec ids g hids htasks hsub
  have pi := stored_perm (fin := Chan.dst) (g := g) hids hc
  have po := stored_perm (fin := Chan.src) (g := g) hids hc
  have ni : ((stored Chan.dst g ids).map Chan.id).Nodup :=
    (pi.map _).nodup_iff.2 (hchans.sublist (List.filter_sublist.map _))
  have no : ((stored Chan.src g ids).map Chan.id).Nodup :=
    (po.map _).nodup_iff.2 (hchans.sublist (List.filter_sublist.map _))
  have mi : ∀ c ∈ stored Chan.dst g ids, c ∈ g.chans ∧ c.dst ∈ ids := fun c h => by
    simpa using pi.mem_iff.1 h
  have mo : ∀ c ∈ stored Chan.src g ids, c ∈ g.chans ∧ c.src ∈ ids := fun c h => by
    simpa using po.mem_iff.1 h
  let ri : Chan → List Int := fun c => (Merging.mergedRates seq c.dst c.outIni c.outPer).getD []
  let ro : Chan → List Int := fun c => (Merging.mergedRates seq c.src c.inIni c.inPer).getD []
  have eri : ∀ c ∈ g.chans, c.dst ∈ ids → Merging.mergedRates seq c.dst c.outIni c.outPer = some (ri c) := fun c h h' => by
    obtain ⟨r, hr⟩ := Option.isSome_iff_exists.1 (hin c h h'); simp [ri, hr]
  have ero : ∀ c ∈ g.chans, c.src ∈ ids → Merging.mergedRates seq c.src c.inIni c.inPer = some (ro c) := fun c h h' => by
    obtain ⟨r, hr⟩ := Option.isSome_iff_exists.1 (hout c h h'); simp [ro, hr]
  obtain ⟨fi, a1, a2, -⟩ := ratesMap_spec (r := ri) (stored Chan.dst g ids) (fun _ => none)
    (fun c h => eri c (mi c h).1 (mi c h).2) ni
  obtain ⟨fo, b1, b2, -⟩ := ratesMap_spec (r := ro) (stored Chan.src g ids) (fun _ => none)
    (fun c h => ero c (mo c h).1 (mo c h).2) no
  obtain ⟨new, hnew⟩ : ∃ new, new = freshId g1.auto g1.tasks := ⟨_, rfl⟩
  have ti : ∀ c ∈ stored Chan.dst g ids, ¬ (c.src ∈ ids ∧ c.dst ∈ ids) → c.src ∈ g1.tasks ++ [new] := fun c h h' => by
    rw [h2, List.mem_append, List.mem_filter]
    exact .inl ⟨(hends c (mi c h).1).1, by simpa using fun x => h' ⟨x, (mi c h).2⟩⟩
  have tO : ∀ c ∈ stored Chan.src g ids, ¬ (c.src ∈ ids ∧ c.dst ∈ ids) → c.dst ∈ g1.tasks ++ [new] := fun c h h' => by
    rw [h2, List.mem_append, List.mem_filter]
    exact .inl ⟨(hends c (mo c h).1).2, by simpa using fun x => h' ⟨(mo c h).2, x⟩⟩
  have si := addSide_spec (make := makeInput new e) (stored Chan.dst g ids) g1.chans ti a2
  have so := fun acc => addSide_spec (make := makeOutput new e) (stored Chan.src g ids) acc tO b2
  refine ⟨⟨g1.tasks ++ [new], g1.chans ++
      ((stored Chan.dst g ids).filter fun c => decide (¬ (c.src ∈ ids ∧ c.dst ∈ ids))).map (fun c => makeInput new e c (ri c)) ++
      ((stored Chan.src g ids).filter fun c => decide (¬ (c.src ∈ ids ∧ c.dst ∈ ids))).map (fun c => makeOutput new e c (ro c)),
    new + 1⟩, new, ?_, ?_, ?_, ?_, ?_⟩
  · simp only [mergeChannels, h1, a1, b1, ← hnew, si, so]
  · simp only [h2]
  · simp only
    rw [List.nodup_append]
    refine ⟨h2 ▸ htasks.filter _, by simp, ?_⟩
    intro a ha b hb
    rw [List.mem_singleton] at hb
    rw [hb, hnew]
    exact ((freshId_spec g1.tasks g1.auto).2 a ha).ne
  · simp only [List.map_append, List.map_map, h3]
    have ci : (Chan.id ∘ fun c => makeInput new e c (ri c)) = Chan.id := rfl
    have co : (Chan.id ∘ fun c => makeOutput new e c (ro c)) = Chan.id := rfl
    rw [ci, co, ← List.map_append, ← List.map_append]
    refine List.Perm.map _ ?_
    refine (((pi.filter _).append_left _).append (po.filter _)).trans ?_
    simp only [List.filter_filter]
    refine (List.perm_ext_iff_of_nodup ?_ (hc.filter _)).2 ?_
    · simp only [List.nodup_append, List.mem_append, List.mem_filter, Bool.and_eq_true, decide_eq_true_eq]
      refine ⟨⟨hc.filter _, hc.filter _, ?_⟩, hc.filter _, ?_⟩
      · rintro a ha b hb rfl; tauto
      · rintro a ha b hb rfl; tauto
    · intro c
      simp only [List.mem_append, List.mem_filter, Bool.and_eq_true, decide_eq_true_eq]
      tauto
  · intro c hcm
    simp only [List.mem_append, List.mem_map]
    refine ⟨fun x y => .inl (.inl ?_), fun x y => ⟨ri c, eri c hcm y, .inl (.inr ⟨c, ?_, rfl⟩)⟩,
      fun x y => ⟨ro c, ero c hcm x, .inr ⟨c, ?_, rfl⟩⟩⟩
    · rw [h3, List.mem_filter]; exact ⟨hcm, by simp [x, y]⟩
    · rw [List.mem_filter]; exact ⟨pi.mem_iff.2 (by simp [hcm, y]), by simp [x]⟩
    · rw [List.mem_filter]; exact ⟨po.mem_iff.2 (by simp [hcm, x]), by simp [y]⟩

/-- Tasks 1 and 2 of a chain of four are merged. -/
def chain : Net := ⟨[0, 1, 2, 3],
  [⟨0, "a", 0, 1, [2], [], [1], [], 0, 0⟩, ⟨1, "b", 1, 2, [1], [], [1], [], 5, 0⟩, ⟨2, "c", 2, 3, [3], [], [1], [], 1, 0⟩,
   ⟨3, "d", 3, 0, [1], [], [1], [], 7, 0⟩], 4⟩

/-- Each of the two tasks is executed twice, the first time in an initial phase. -/
def chainSeq : List Merging.Exec := [⟨1, 0, 0⟩, ⟨2, 0, 1⟩, ⟨1, 1, 2⟩, ⟨2, 1, 3⟩]

example : [2, 1].Nodup ∧ (∀ v ∈ [2, 1], v ∈ chain.tasks) ∧ chain.tasks.Nodup ∧ (chain.chans.map Chan.id).Nodup ∧
    (∀ c ∈ chain.chans, c.src ∈ chain.tasks ∧ c.dst ∈ chain.tasks) ∧
    (∀ c ∈ chain.chans, c.dst ∈ [2, 1] → (Merging.mergedRates chainSeq c.dst c.outIni c.outPer).isSome) ∧
    (∀ c ∈ chain.chans, c.src ∈ [2, 1] → (Merging.mergedRates chainSeq c.src c.inIni c.inPer).isSome) := by
  decide +kernel

example : (mergeChannels chain [2, 1] chainSeq 2).map Net.tasks = some [0, 3, 4] := by decide +kernel

example : (mergeChannels chain [2, 1] chainSeq 2).map (fun g => g.chans.map fun c => [c.id, c.src, c.dst]) =
    some [[3, 3, 0], [0, 0, 4], [2, 4, 3]] := by decide +kernel

example : (mergeChannels chain [2, 1] chainSeq 2).map (fun g => g.chans.map fun c => [c.inPer, c.outIni, c.outPer]) =
    some [[[1], [], [1]], [[2], [1, 0], [1, 0]], [[0, 3], [], [1]]] := by decide +kernel

end Kiter.MergeChan
