/-
C143: the channels of merged routers.
-/
import Verif.Model.RouterChannels
import Mathlib.Data.List.Perm.Basic
import Mathlib.Data.List.Nodup

set_option autoImplicit false

namespace Kiter.RouterChan

/-- Specification: a channel with the ends at tasks of `ids` moved to the new task, with the rates of the new task there. -/
def moved (tok : Tokens) (middle : ℕ) (ids : List ℕ) (c : Chan) : Chan where
  src := if c.src ∈ ids then middle else c.src
  dst := if c.dst ∈ ids then middle else c.dst
  inPer := if c.src ∈ ids then tok.per c.src else c.inPer
  inIni := if c.src ∈ ids then tok.ini c.src else c.inIni
  outPer := if c.dst ∈ ids then tok.per c.dst else c.outPer
  outIni := if c.dst ∈ ids then tok.ini c.dst else c.outIni
  preload := c.preload
  type := c.type

theorem find_perm {α : Type} {p : α → Bool} {a : α} : ∀ {l : List α}, l.find? p = some a → l.Perm (a :: l.eraseP p) ∧ p a = true
  | [], h => by simp at h
  | b :: l, h => by
    by_cases hb : p b = true
    · rw [List.find?_cons_of_pos hb] at h
      cases h
      rw [List.eraseP_cons_of_pos hb]
      exact ⟨.refl _, hb⟩
    · rw [List.find?_cons_of_neg hb] at h
      obtain ⟨h1, h2⟩ := find_perm h
      rw [List.eraseP_cons_of_neg hb]
      exact ⟨(h1.cons b).trans (List.Perm.swap a b _), h2⟩

theorem moved_nil (tok : Tokens) (middle : ℕ) (c : Chan) : moved tok middle [] c = c := by
  simp [moved]

/-- One input, one output, and they are two channels. -/
def Through (l : List Chan) (v : ℕ) : Prop :=
  l.countP (fun c => decide (c.dst = v)) = 1 ∧ l.countP (fun c => decide (c.src = v)) = 1 ∧ ∀ c ∈ l, ¬ (c.src = v ∧ c.dst = v)

theorem reattach_spec {tok : Tokens} {init middle v : ℕ} {l : List Chan} (h : Through l v) (ht : (tok.ini v).length = init) :
    ∃ l', reattach tok init middle v l = some l' ∧ l'.Perm (l.map (moved tok middle [v])) := by
  obtain ⟨h1, h2, h3⟩ := h
  obtain ⟨i, hi⟩ : ∃ i, l.find? (fun c => decide (c.dst = v)) = some i := by
    obtain ⟨c, hc, hv⟩ := List.countP_pos_iff.1 (show 0 < l.countP (fun c => decide (c.dst = v)) by omega)
    exact Option.isSome_iff_exists.1 (List.find?_isSome.2 ⟨c, hc, hv⟩)
  obtain ⟨p1, q1⟩ := find_perm hi
  obtain ⟨l1, e1⟩ : ∃ l1, l1 = l.eraseP (fun c => decide (c.dst = v)) := ⟨_, rfl⟩
  rw [← e1] at p1
  have q1' : i.dst = v := by simpa using q1
  have hisrc : i.src ≠ v := fun h => h3 i (p1.mem_iff.2 (by simp)) ⟨h, q1'⟩
  have c1 : l1.countP (fun c => decide (c.src = v)) = 1 := by
    rw [p1.countP_eq, List.countP_cons_of_neg (by simpa using hisrc)] at h2; exact h2
  have d1 : l1.countP (fun c => decide (c.dst = v)) = 0 := by
    rw [p1.countP_eq, List.countP_cons_of_pos (by simpa using q1')] at h1; omega
  obtain ⟨o, ho⟩ : ∃ o, l1.find? (fun c => decide (c.src = v)) = some o := by
    obtain ⟨c, hc, hv⟩ := List.countP_pos_iff.1 (show 0 < l1.countP (fun c => decide (c.src = v)) by omega)
    exact Option.isSome_iff_exists.1 (List.find?_isSome.2 ⟨c, hc, hv⟩)
  obtain ⟨p2, q2⟩ := find_perm ho
  obtain ⟨l2, e2⟩ : ∃ l2, l2 = l1.eraseP (fun c => decide (c.src = v)) := ⟨_, rfl⟩
  rw [← e2] at p2
  have q2' : o.src = v := by simpa using q2
  have c2 : l2.countP (fun c => decide (c.src = v)) = 0 := by
    rw [p2.countP_eq, List.countP_cons_of_pos (by simpa using q2')] at c1; omega
  rw [List.countP_eq_zero] at c2 d1
  have hodst : o.dst ≠ v := by simpa using d1 o (p2.mem_iff.2 (by simp))
  have hl2 : l2.map (moved tok middle [v]) = l2 := by
    refine (List.map_congr_left fun c hc => ?_).trans (List.map_id l2)
    have a : c.src ≠ v := by simpa using c2 c hc
    have b : c.dst ≠ v := by simpa using d1 c (p2.mem_iff.2 (by simp [hc]))
    simp [moved, a, b]
  have mi : moved tok middle [v] i = ⟨i.src, middle, i.inPer, i.inIni, tok.per v, tok.ini v, i.preload, i.type⟩ := by
    simp [moved, hisrc, q1']
  have mo : moved tok middle [v] o = ⟨middle, o.dst, tok.per v, tok.ini v, o.outPer, o.outIni, o.preload, o.type⟩ := by
    simp [moved, hodst, q2']
  refine ⟨_, by simp only [reattach, hi, ← e1, ho, ← e2, if_pos ht]; rfl, ?_⟩
  refine List.Perm.trans ?_ (((p1.trans (p2.cons i)).map (moved tok middle [v])).symm)
  rw [List.map_cons, List.map_cons, hl2, mi, mo]
  exact List.perm_append_comm

theorem moved_moved {tok : Tokens} {middle v : ℕ} {rest : List ℕ} (hv : middle ∉ rest) (c : Chan) :
    moved tok middle rest (moved tok middle [v] c) = moved tok middle (v :: rest) c := by
  by_cases a : c.src = v <;> by_cases b : c.dst = v <;> simp [moved, a, b, hv]

theorem through_moved {tok : Tokens} {middle v w : ℕ} {l l' : List Chan} (hp : l'.Perm (l.map (moved tok middle [v])))
    (hw : w ≠ v) (hm : middle ≠ w) (h : Through l w) : Through l' w := by
  have key : ∀ c : Chan, ((moved tok middle [v] c).dst = w ↔ c.dst = w) ∧ ((moved tok middle [v] c).src = w ↔ c.src = w) := by
    intro c
    constructor
    · by_cases a : c.dst = v
      · simp [moved, a, hm, Ne.symm hw]
      · simp [moved, a]
    · by_cases a : c.src = v
      · simp [moved, a, hm, Ne.symm hw]
      · simp [moved, a]
  obtain ⟨h1, h2, h3⟩ := h
  refine ⟨?_, ?_, ?_⟩
  · rw [hp.countP_eq, List.countP_map, ← h1]
    exact List.countP_congr fun c _ => by simp [(key c).1]
  · rw [hp.countP_eq, List.countP_map, ← h2]
    exact List.countP_congr fun c _ => by simp [(key c).2]
  · intro c hc
    obtain ⟨d, hd, rfl⟩ := List.mem_map.1 (hp.mem_iff.1 hc)
    rw [(key d).1, (key d).2]
    exact h3 d hd

/-- C143, the part that holds: if each merged router has one input and one output channel and the new task is not one of them, the
new channels are the old ones, each with its ends at merged routers moved to the new task, with the rates of its router in the new
task there and all else as before. Missing: routers with several channels, where it is false. -/
theorem _root_.Kiter.C143_channels_partial {tok : Tokens} {init middle : ℕ} : ∀ {ids : List ℕ} {l : List Chan}, ids.Nodup →
    middle ∉ ids → (∀ v ∈ ids, Through l v ∧ (tok.ini v).length = init) →
    ∃ l', reattachAll tok init middle ids l = some l' ∧ l'.Perm (l.map (moved tok middle ids))
  | [], l, _, _, _ => ⟨l, rfl, by
      rw [(List.map_congr_left fun c _ => moved_nil tok middle c).trans (List.map_id' l)]⟩
  | v :: rest, l, hn, hm, h => by
    rw [List.nodup_cons] at hn
    rw [List.mem_cons, not_or] at hm
    obtain ⟨l1, a1, a2⟩ := reattach_spec (middle := middle) (h v (by simp)).1 (h v (by simp)).2
    obtain ⟨l', b1, b2⟩ := C143_channels_partial (ids := rest) (l := l1) hn.2 hm.2 (fun w hw =>
      ⟨through_moved a2 (fun e => hn.1 (e ▸ hw)) (fun e => hm.2 (e ▸ hw)) (h w (by simp [hw])).1, (h w (by simp [hw])).2⟩)
    refine ⟨l', by simp only [reattachAll, a1, b1], b2.trans ((a2.map _).trans ?_)⟩
    rw [List.map_map]
    exact .of_eq (List.map_congr_left fun c _ => moved_moved hm.2 c)

/-- Two routers in a row, 1 and 2, between tasks 0 and 3. -/
def row : List Chan := [⟨0, 1, [1], [], [1], [], 0, 0⟩, ⟨1, 2, [1], [], [1], [], 0, 1⟩, ⟨2, 3, [1], [], [1], [], 2, 0⟩]

def rowTokens : Tokens := ⟨fun v => if v = 1 then [1, 0] else [0, 1], fun _ => []⟩

example : [1, 2].Nodup ∧ 4 ∉ [1, 2] ∧ ∀ v ∈ [1, 2], Through row v ∧ (rowTokens.ini v).length = 0 := by
  unfold Through
  decide +kernel

example : (reattachAll rowTokens 0 4 [1, 2] row).map (fun l => l.map fun c => (c.src, c.dst, c.inPer, c.outPer)) =
    some [(0, 4, [1], [1, 0]), (4, 4, [1, 0], [0, 1]), (4, 3, [0, 1], [1])] := by decide +kernel

/-- C143 fails for a router with two inputs: the second one stays at the old router, which no longer has an output. -/
theorem _root_.Kiter.C143_inputs_counterexample : ∃ l l' : List Chan, reattachAll ⟨fun _ => [1], fun _ => []⟩ 0 4 [1] l = some l' ∧
    (∃ c ∈ l', c.dst = 1) ∧ ∀ c ∈ l', c.src ≠ 1 :=
  ⟨[⟨0, 1, [1], [], [1], [], 0, 0⟩, ⟨2, 1, [1], [], [1], [], 0, 0⟩, ⟨1, 3, [1], [], [1], [], 0, 0⟩],
   [⟨2, 1, [1], [], [1], [], 0, 0⟩, ⟨0, 4, [1], [], [1], [], 0, 0⟩, ⟨4, 3, [1], [], [1], [], 0, 0⟩], rfl, ⟨_, .head _, rfl⟩, by decide⟩

end Kiter.RouterChan
