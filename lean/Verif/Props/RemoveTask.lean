/-
C108: the command `remove` removes the listed tasks with their channels, and nothing else.
-/
import Verif.Model.RemoveTask
import Verif.Lemmas.Dataflow
import Mathlib.Tactic.Linarith

set_option autoImplicit false

namespace Kiter.RT

open DF

/-! ### Specification -/

/-- A channel as the user sees it: its properties, the task that writes and the task that reads. Positions of tasks, which
change when a task is removed, are hidden. -/
structure Chan where
  props : Edg
  source : Option Vtx
  target : Option Vtx
deriving DecidableEq

/-- The channels of a graph. -/
def chansOf (s : State) : List Chan := s.edges.map fun e => ⟨{ e with src := 0, tgt := 0 }, s.verts[e.src]?, s.verts[e.tgt]?⟩

/-- The graph `t` is `s` without the tasks `gone` and without their channels. -/
structure Without (s t : State) (gone : Vtx → Bool) : Prop where
  tasks : t.verts = s.verts.filter fun v => !gone v
  channels : chansOf t = (chansOf s).filter fun c => !(c.source.any gone) && !(c.target.any gone)

/-- Every name of the list belongs to a task, every id of the list belongs to a task, and no task is listed twice. -/
structure Listed (s : State) (names : List String) (ids : List Int) : Prop where
  byName : ∀ n ∈ names, ∃ v ∈ s.verts, v.name = n
  byId : ∀ i ∈ ids, ∃ v ∈ s.verts, v.id = i
  once : names.Nodup ∧ ids.Nodup
  apart : ∀ v ∈ s.verts, v.name ∈ names → v.id ∉ ids

/-! ### Proof -/

theorem without_refl (s : State) : Without s s fun _ => false :=
  ⟨by simp, by simp⟩

theorem without_congr {s t : State} {f g : Vtx → Bool} (h : Without s t f) (hs : Inv s) (hfg : ∀ v ∈ s.verts, f v = g v) :
    Without s t g := by
  refine ⟨?_, ?_⟩
  · rw [h.tasks]
    apply List.filter_congr
    intro v hv
    rw [hfg v hv]
  · rw [h.channels]
    apply List.filter_congr
    intro c hc
    obtain ⟨e, he, rfl⟩ := List.mem_map.mp hc
    obtain ⟨h1, h2⟩ := hs.ends e he
    simp only [List.getElem?_eq_getElem h1, List.getElem?_eq_getElem h2, Option.any_some,
      hfg _ (List.getElem_mem h1), hfg _ (List.getElem_mem h2)]

theorem without_trans {s t u : State} {f g : Vtx → Bool} (h1 : Without s t f) (h2 : Without t u g) :
    Without s u fun v => f v || g v := by
  refine ⟨?_, ?_⟩
  · rw [h2.tasks, h1.tasks, List.filter_filter]
    apply List.filter_congr
    intro v _
    cases f v <;> cases g v <;> rfl
  · rw [h2.channels, h1.channels, List.filter_filter]
    apply List.filter_congr
    intro c _
    have : ∀ o : Option Vtx, o.any (fun v => f v || g v) = (o.any f || o.any g) := by
      intro o; cases o <;> rfl
    rw [this, this]
    cases c.source.any f <;> cases c.source.any g <;> cases c.target.any f <;> cases c.target.any g <;> rfl

theorem filter_erase {l : List Vtx} {v : Nat} {x : Vtx} (hx : l[v]? = some x)
    (hu : ∀ (i : Nat) (a : Vtx), l[i]? = some a → a.id = x.id → i = v) :
    l.eraseIdx v = l.filter fun y => !(y.id == x.id) := by
  induction l generalizing v with
  | nil => simp at hx
  | cons a l ih =>
    cases v with
    | zero =>
      simp only [List.getElem?_cons_zero, Option.some.injEq] at hx
      subst hx
      simp only [List.eraseIdx_zero, List.tail_cons, List.filter_cons, beq_self_eq_true, Bool.not_true]
      rw [if_neg (by simp), List.filter_eq_self.mpr]
      intro y hy
      obtain ⟨i, hi⟩ := List.mem_iff_getElem?.mp hy
      by_contra hc
      simp only [Bool.not_eq_true', beq_eq_false_iff_ne, not_not] at hc
      have := hu (i + 1) y (by simpa using hi) hc
      omega
    | succ v =>
      simp only [List.getElem?_cons_succ] at hx
      rw [List.eraseIdx_cons_succ, List.filter_cons]
      have ha : ¬ a.id = x.id := by
        intro hc
        have := hu 0 a (by simp) hc
        omega
      rw [if_pos (by simpa using ha), ih hx]
      intro i b hb hbx
      have := hu (i + 1) b (by simpa using hb) hbx
      omega

theorem without_remove {s : State} (hi : Inv s) (hw : s.readonly = false) {v : Nat} {x : Vtx} (hx : s.verts[v]? = some x) :
    ∃ t, removeVertex s v = some t ∧ Inv t ∧ t.readonly = false ∧ Without s t fun y => y.id == x.id := by
  have hlt : v < s.verts.length := (List.getElem?_eq_some_iff.mp hx).1
  have hm : removeVertex s v = some { reset s with
      verts := s.verts.eraseIdx v
      edges := (s.edges.filter fun e => e.src ≠ v ∧ e.tgt ≠ v).map fun e =>
        { e with src := if e.src > v then e.src - 1 else e.src, tgt := if e.tgt > v then e.tgt - 1 else e.tgt } } := by
    unfold removeVertex edit
    rw [hw]
    simp only [Bool.false_eq_true, if_false, Option.bind_eq_bind, Option.bind_some]
    rw [if_pos (by exact hlt)]
    rfl
  refine ⟨_, hm, inv_removeVertex hi hm, rfl, ?_, ?_⟩
  · exact filter_erase hx fun i a ha hax => hi.vid i v a x ha hx hax
  · have hany : ∀ k, k < s.verts.length → (s.verts[k]?.any (fun y => y.id == x.id) = true ↔ k = v) := by
      intro k hk
      rw [List.getElem?_eq_getElem hk, Option.any_some, beq_iff_eq]
      constructor
      · intro h; exact hi.vid k v _ x (List.getElem?_eq_getElem hk) hx h
      · rintro rfl
        rw [List.getElem?_eq_getElem hk] at hx
        rw [Option.some.inj hx]
    have hpos : ∀ k, k ≠ v → (s.verts.eraseIdx v)[if k > v then k - 1 else k]? = s.verts[k]? := by
      intro k hk
      rw [List.getElem?_eraseIdx]
      by_cases hkv : k > v
      · rw [if_pos hkv, if_neg (by omega)]
        congr 1; omega
      · rw [if_neg hkv, if_pos (by omega)]
    unfold chansOf
    dsimp only
    rw [List.map_map, List.filter_map]
    rw [show (s.edges.filter fun e => decide (e.src ≠ v ∧ e.tgt ≠ v)) = s.edges.filter
        ((fun c : Chan => !(c.source.any fun y => y.id == x.id) && !(c.target.any fun y => y.id == x.id)) ∘
          fun e : Edg => ⟨{ e with src := 0, tgt := 0 }, s.verts[e.src]?, s.verts[e.tgt]?⟩) from by
      apply List.filter_congr
      intro e he
      obtain ⟨h1, h2⟩ := hi.ends e he
      have a1 := hany _ h1
      have a2 := hany _ h2
      simp only [Function.comp]
      rw [Bool.eq_iff_iff]
      simp only [decide_eq_true_eq, Bool.and_eq_true, Bool.not_eq_true', ← Bool.not_eq_true, a1, a2]
      ]
    apply List.map_congr_left
    intro e he
    rw [List.mem_filter] at he
    obtain ⟨he, hf⟩ := he
    obtain ⟨h1, h2⟩ := hi.ends e he
    have a1 := hany _ h1
    have a2 := hany _ h2
    simp only [Function.comp, Bool.and_eq_true, Bool.not_eq_true', ← Bool.not_eq_true, a1, a2] at hf
    simp only [Function.comp, hpos _ hf.1, hpos _ hf.2]

theorem remove_writable {s t : State} {v : Nat} (h : removeVertex s v = some t) : s.readonly = false := by
  unfold removeVertex at h
  obtain ⟨u, hu, -⟩ := Option.bind_eq_some_iff.mp h
  exact (edit_some hu).1

theorem byName_some {s : State} (hi : Inv s) {n : String} (hn : n ≠ "") {v : Nat} (h : vertexByName s n = some v) :
    ∃ x, s.verts[v]? = some x ∧ x.name = n ∧ ∀ y ∈ s.verts, (y.id == x.id) = (y.name == n) := by
  obtain ⟨⟨x, hx, hp⟩, -⟩ := findIdx_some h
  rw [beq_iff_eq] at hp
  refine ⟨x, hx, hp, ?_⟩
  intro y hy
  obtain ⟨i, hy⟩ := List.mem_iff_getElem?.mp hy
  rw [Bool.eq_iff_iff, beq_iff_eq, beq_iff_eq]
  constructor
  · intro h'
    have := hi.vid i v y x hy hx h'
    subst this
    rw [hy] at hx
    rw [Option.some.inj hx]; exact hp
  · intro h'
    have := hi.vname i v y x hy hx (h'.trans hp.symm) (by rw [h']; exact hn)
    subst this
    rw [hy] at hx
    rw [Option.some.inj hx]

theorem byId_some {s : State} {i : Int} {v : Nat} (h : vertexById s i = some v) :
    ∃ x, s.verts[v]? = some x ∧ x.id = i := by
  obtain ⟨⟨x, hx, hp⟩, -⟩ := findIdx_some h
  exact ⟨x, hx, by simpa using hp⟩

theorem find_some {l : List Vtx} {p : Vtx → Bool} {x : Vtx} (hx : x ∈ l) (hp : p x = true) :
    ∃ v, l.findIdx? p = some v := by
  cases h : l.findIdx? p with
  | some v => exact ⟨v, rfl⟩
  | none => exact absurd (findIdx_none h x hx) (by simp [hp])

theorem byNames_spec (names : List String) : ∀ {s t : State}, Inv s → (∀ n ∈ names, n ≠ "") → byNames s names = some t →
    Inv t ∧ Without s t (fun v => decide (v.name ∈ names)) ∧ (∀ n ∈ names, ∃ v ∈ s.verts, v.name = n) ∧ names.Nodup ∧
      (names ≠ [] → s.readonly = false) ∧ (s.readonly = false → t.readonly = false) := by
  induction names with
  | nil =>
    intro s t hi _ h
    cases h
    exact ⟨hi, ⟨by simp, by simp⟩, by simp, List.nodup_nil, by simp, id⟩
  | cons n ns ih =>
    intro s t hi hne h
    obtain ⟨v, hv, h⟩ := Option.bind_eq_some_iff.mp h
    obtain ⟨u, hu, h⟩ := Option.bind_eq_some_iff.mp h
    have hw := remove_writable hu
    obtain ⟨x, hx, hxn, hxe⟩ := byName_some hi (hne n (by simp)) hv
    obtain ⟨u', hu', hiu, hwu, wu⟩ := without_remove hi hw hx
    rw [hu] at hu'
    cases hu'
    have wn : Without s u (fun v => v.name == n) := without_congr wu hi hxe
    obtain ⟨hit, wt, hin, hnd, -, hrw⟩ := ih hiu (fun m hm => hne m (by simp [hm])) h
    have hsub : ∀ m ∈ ns, ∃ v ∈ s.verts, v.name = m ∧ m ≠ n := by
      intro m hm
      obtain ⟨y, hy, hym⟩ := hin m hm
      rw [wn.tasks, List.mem_filter] at hy
      exact ⟨y, hy.1, hym, by rw [← hym]; simpa using hy.2⟩
    refine ⟨hit, ?_, ?_, ?_, fun _ => hw, fun _ => hrw hwu⟩
    · refine without_congr (without_trans wn wt) hi ?_
      intro y _
      simp only [List.mem_cons]
      by_cases h1 : y.name = n <;> by_cases h2 : y.name ∈ ns <;> simp [h1, h2]
    · intro m hm
      rcases List.mem_cons.mp hm with rfl | hm
      · exact ⟨x, List.mem_of_getElem? hx, hxn⟩
      · obtain ⟨y, hy, hym, -⟩ := hsub m hm
        exact ⟨y, hy, hym⟩
    · refine List.nodup_cons.mpr ⟨fun hc => ?_, hnd⟩
      obtain ⟨-, -, -, hc'⟩ := hsub n hc
      exact hc' rfl

theorem byIds_spec (ids : List Int) : ∀ {s t : State}, Inv s → byIds s ids = some t →
    Inv t ∧ Without s t (fun v => decide (v.id ∈ ids)) ∧ (∀ i ∈ ids, ∃ v ∈ s.verts, v.id = i) ∧ ids.Nodup ∧
      (ids ≠ [] → s.readonly = false) := by
  induction ids with
  | nil =>
    intro s t hi h
    cases h
    exact ⟨hi, ⟨by simp, by simp⟩, by simp, List.nodup_nil, by simp⟩
  | cons n ns ih =>
    intro s t hi h
    obtain ⟨v, hv, h⟩ := Option.bind_eq_some_iff.mp h
    obtain ⟨u, hu, h⟩ := Option.bind_eq_some_iff.mp h
    have hw := remove_writable hu
    obtain ⟨x, hx, hxn⟩ := byId_some hv
    obtain ⟨u', hu', hiu, hwu, wn⟩ := without_remove hi hw hx
    rw [hu] at hu'
    cases hu'
    rw [hxn] at wn
    obtain ⟨hit, wt, hin, hnd, -⟩ := ih hiu h
    have hsub : ∀ m ∈ ns, ∃ v ∈ s.verts, v.id = m ∧ m ≠ n := by
      intro m hm
      obtain ⟨y, hy, hym⟩ := hin m hm
      rw [wn.tasks, List.mem_filter] at hy
      exact ⟨y, hy.1, hym, by rw [← hym]; simpa using hy.2⟩
    refine ⟨hit, ?_, ?_, ?_, fun _ => hw⟩
    · refine without_congr (without_trans wn wt) hi ?_
      intro y _
      simp only [List.mem_cons]
      by_cases h1 : y.id = n <;> by_cases h2 : y.id ∈ ns <;> simp [h1, h2]
    · intro m hm
      rcases List.mem_cons.mp hm with rfl | hm
      · exact ⟨x, List.mem_of_getElem? hx, hxn⟩
      · obtain ⟨y, hy, hym, -⟩ := hsub m hm
        exact ⟨y, hy, hym⟩
    · refine List.nodup_cons.mpr ⟨fun hc => ?_, hnd⟩
      obtain ⟨-, -, -, hc'⟩ := hsub n hc
      exact hc' rfl

theorem byNames_total (names : List String) : ∀ {s : State}, Inv s → s.readonly = false → (∀ n ∈ names, n ≠ "") →
    (∀ n ∈ names, ∃ v ∈ s.verts, v.name = n) → names.Nodup → ∃ t, byNames s names = some t := by
  induction names with
  | nil => intro s _ _ _ _ _; exact ⟨s, rfl⟩
  | cons n ns ih =>
    intro s hi hw hne hin hnd
    obtain ⟨x, hx, hxn⟩ := hin n (by simp)
    obtain ⟨v, hv⟩ := find_some (p := fun v => v.name == n) hx (by simpa using hxn)
    obtain ⟨x', hx', -, hxe⟩ := byName_some hi (hne n (by simp)) hv
    obtain ⟨u, hu, hiu, hwu, wu⟩ := without_remove hi hw hx'
    have wn : Without s u (fun v => v.name == n) := without_congr wu hi hxe
    rw [List.nodup_cons] at hnd
    obtain ⟨t, ht⟩ := ih hiu hwu (fun m hm => hne m (by simp [hm])) (by
      intro m hm
      obtain ⟨y, hy, hym⟩ := hin m (by simp [hm])
      refine ⟨y, ?_, hym⟩
      rw [wn.tasks, List.mem_filter]
      refine ⟨hy, ?_⟩
      have : y.name ≠ n := by rw [hym]; rintro rfl; exact hnd.1 hm
      simpa using this) hnd.2
    refine ⟨t, ?_⟩
    show (vertexByName s n).bind _ = _
    unfold vertexByName
    rw [hv, Option.bind_some, hu]; exact ht

theorem byIds_total (ids : List Int) : ∀ {s : State}, Inv s → s.readonly = false →
    (∀ n ∈ ids, ∃ v ∈ s.verts, v.id = n) → ids.Nodup → ∃ t, byIds s ids = some t := by
  induction ids with
  | nil => intro s _ _ _ _; exact ⟨s, rfl⟩
  | cons n ns ih =>
    intro s hi hw hin hnd
    obtain ⟨x, hx, hxn⟩ := hin n (by simp)
    obtain ⟨v, hv⟩ := find_some (p := fun v => v.id == n) hx (by simpa using hxn)
    obtain ⟨x', hx', hxn'⟩ := byId_some hv
    obtain ⟨u, hu, hiu, hwu, wn⟩ := without_remove hi hw hx'
    rw [hxn'] at wn
    rw [List.nodup_cons] at hnd
    obtain ⟨t, ht⟩ := ih hiu hwu (by
      intro m hm
      obtain ⟨y, hy, hym⟩ := hin m (by simp [hm])
      refine ⟨y, ?_, hym⟩
      rw [wn.tasks, List.mem_filter]
      refine ⟨hy, ?_⟩
      have : y.id ≠ n := by rw [hym]; rintro rfl; exact hnd.1 hm
      simpa using this) hnd.2
    refine ⟨t, ?_⟩
    show (vertexById s n).bind _ = _
    unfold vertexById
    rw [hv, Option.bind_some, hu]; exact ht

/-- C108. On every graph the library can build, the command removes exactly the tasks whose name or id is listed, with
exactly the channels that one of them writes or reads. All other tasks and channels keep their order and every property, and
the channels stay between the same tasks. -/
theorem _root_.Kiter.C108_removed {ops : List Op} {s t : State} (h : calls empty ops = some s) {names : List String}
    {ids : List Int} (hne : ∀ n ∈ names, n ≠ "") (hr : removeTasks s names ids = some t) :
    Without s t fun v => decide (v.name ∈ names ∨ v.id ∈ ids) := by
  have hi := inv_calls inv_empty h
  obtain ⟨u, hu, hr⟩ := Option.bind_eq_some_iff.mp hr
  obtain ⟨hiu, wu, -⟩ := byNames_spec names hi hne hu
  obtain ⟨-, wt, -⟩ := byIds_spec ids hiu hr
  refine without_congr (without_trans wu wt) hi ?_
  intro v _
  by_cases h1 : v.name ∈ names <;> by_cases h2 : v.id ∈ ids <;> simp [h1, h2]

/-- C108. The command succeeds exactly on a graph that may be changed, when each listed name and id belongs to a task and no
task is listed twice; otherwise it stops with a failure. -/
theorem _root_.Kiter.C108_accepts {ops : List Op} {s : State} (h : calls empty ops = some s) {names : List String}
    {ids : List Int} (hne : ∀ n ∈ names, n ≠ "") (hsome : names ≠ [] ∨ ids ≠ []) :
    (∃ t, removeTasks s names ids = some t) ↔ s.readonly = false ∧ Listed s names ids := by
  have hi := inv_calls inv_empty h
  constructor
  · rintro ⟨t, hr⟩
    obtain ⟨u, hu, hr⟩ := Option.bind_eq_some_iff.mp hr
    obtain ⟨hiu, wu, hin, hnd, hw1, -⟩ := byNames_spec names hi hne hu
    obtain ⟨-, wt, hid, hnd2, hw2⟩ := byIds_spec ids hiu hr
    have hmem : ∀ i ∈ ids, ∃ v ∈ s.verts, v.id = i ∧ v.name ∉ names := by
      intro i hii
      obtain ⟨v, hv, hvi⟩ := hid i hii
      rw [wu.tasks, List.mem_filter] at hv
      exact ⟨v, hv.1, hvi, by simpa using hv.2⟩
    refine ⟨?_, hin, fun i hii => ?_, ⟨hnd, hnd2⟩, ?_⟩
    · by_cases hnil : names = []
      · subst hnil
        cases hu
        exact hw2 (by simpa using hsome)
      · exact hw1 hnil
    · obtain ⟨v, hv, hvi, -⟩ := hmem i hii
      exact ⟨v, hv, hvi⟩
    · intro v hv hvn hvi
      obtain ⟨w, hw, hwi, hwn⟩ := hmem _ hvi
      obtain ⟨a, ha⟩ := List.mem_iff_getElem?.mp hv
      obtain ⟨b, hb⟩ := List.mem_iff_getElem?.mp hw
      have := hi.vid a b v w ha hb hwi.symm
      subst this
      rw [ha] at hb
      cases hb
      exact hwn hvn
  · rintro ⟨hw, hl⟩
    obtain ⟨u, hu⟩ := byNames_total names hi hw hne hl.byName hl.once.1
    obtain ⟨hiu, wu, -, -, -, hwu⟩ := byNames_spec names hi hne hu
    obtain ⟨t, ht⟩ := byIds_total ids hiu (hwu hw) (by
      intro i hii
      obtain ⟨v, hv, hvi⟩ := hl.byId i hii
      refine ⟨v, ?_, hvi⟩
      rw [wu.tasks, List.mem_filter]
      refine ⟨hv, ?_⟩
      have : v.name ∉ names := fun hc => hl.apart v hv hc (by rw [hvi]; exact hii)
      simpa using this) hl.once.2
    refine ⟨t, ?_⟩
    unfold removeTasks
    rw [hu, Option.bind_some, ht]

/-- Three tasks in a circuit with a chord; one is removed by name, one by id. -/
def exampleOps : List Op :=
  [.addVertexIdName 3 "a", .addVertexIdName 5 "b", .addVertexIdName 8 "c", .addVertexIdName 9 "d", .addEdgeIdName 0 1 1 "x",
    .addEdgeIdName 1 2 2 "y", .addEdgeIdName 2 3 3 "z", .addEdgeIdName 3 3 4 "w", .addEdgeIdName 1 3 5 "u", .setPreload 3 7]

example : ∃ s t, calls empty exampleOps = some s ∧ (∀ n ∈ ["a"], n ≠ "") ∧ removeTasks s ["a"] [8] = some t ∧
    (t.verts.map fun v => v.name) = ["b", "d"] ∧
    (chansOf t).map (fun c => (c.props.name, c.source.map fun v => v.name, c.target.map fun v => v.name)) =
      [("w", some "d", some "d"), ("u", some "b", some "d")] := by
  refine ⟨(calls empty exampleOps).get (by decide +kernel),
    ((calls empty exampleOps).bind fun s => removeTasks s ["a"] [8]).get (by decide +kernel), by simp, by decide, ?_, ?_, ?_⟩ <;>
    decide +kernel

end Kiter.RT
