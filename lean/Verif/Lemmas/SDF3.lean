/-
Helpers for the round trip of graphs through SDF3 documents (Model/SDF3.lean).
-/
import Verif.Spec.SDF3
import Mathlib.Tactic.SplitIfs
import Mathlib.Tactic.Push

set_option autoImplicit false

namespace Kiter.SDF3
open Kiter.Text

/-! ### Lists -/

theorem foldlM_inv {α σ : Type} {f : σ → α → Option σ} (l : List α) (S : Nat → σ)
    (h : ∀ k, ∀ x, l[k]? = some x → f (S k) x = some (S (k + 1))) : l.foldlM f (S 0) = some (S l.length) := by
  induction l generalizing S with
  | nil => rfl
  | cons a l ih =>
    rw [List.foldlM_cons, h 0 a rfl]
    have := ih (fun k => S (k + 1)) fun k x hx => h (k + 1) x (by simpa using hx)
    simpa using this

theorem each_append (k : String) (f : Graph → Node → Option Graph) (l₁ l₂ : List Node) (g : Graph) :
    each k f (l₁ ++ l₂) g = (each k f l₁ g).bind (each k f l₂) := by
  unfold each
  rw [List.foldlM_append]
  rfl

theorem each_skip {k : String} (f : Graph → Node → Option Graph) {l : List Node} (h : ∀ n ∈ l, n.name ≠ k) (g : Graph) :
    each k f l g = some g := by
  unfold each
  induction l with
  | nil => rfl
  | cons n l ih =>
    rw [List.foldlM_cons, if_neg (h n (List.mem_cons_self))]
    exact ih fun m hm => h m (List.mem_cons_of_mem _ hm)

theorem each_inv {k : String} {f : Graph → Node → Option Graph} (l : List Node) (S : Nat → Graph)
    (hn : ∀ n ∈ l, n.name = k) (h : ∀ j, ∀ n, l[j]? = some n → f (S j) n = some (S (j + 1))) :
    each k f l (S 0) = some (S l.length) := by
  unfold each
  refine foldlM_inv l S fun j n hj => ?_
  rw [if_pos (hn n (List.mem_of_getElem? hj))]
  exact h j n hj

theorem modify_mapIdx {α β : Type} {l : List α} {F G : Nat → α → β} {k : Nat} {f : β → β}
    (h : ∀ i x, l[i]? = some x → G i x = if i = k then f (F i x) else F i x) :
    (l.mapIdx F).modify k f = l.mapIdx G := by
  apply List.ext_getElem?
  intro i
  rw [List.getElem?_modify, List.getElem?_mapIdx, List.getElem?_mapIdx]
  cases hx : l[i]? with
  | none => rfl
  | some x =>
    rw [Option.map_some, Option.map_some, h i x hx]
    by_cases hk : k = i
    · rw [if_pos hk.symm]
      simp [hk]
    · rw [if_neg (Ne.symm hk)]
      simp [hk]

theorem mapIdx_congr' {α β : Type} {l : List α} {F G : Nat → α → β}
    (h : ∀ i x, l[i]? = some x → F i x = G i x) : l.mapIdx F = l.mapIdx G := by
  apply List.ext_getElem?
  intro i
  rw [List.getElem?_mapIdx, List.getElem?_mapIdx]
  cases hx : l[i]? with
  | none => rfl
  | some x => rw [Option.map_some, Option.map_some, h i x hx]

theorem modify_last {α : Type} (l : List α) (x : α) (f : α → α) : (l ++ [x]).modify l.length f = l ++ [f x] := by
  apply List.ext_getElem?
  intro i
  rw [List.getElem?_modify]
  by_cases h : l.length = i
  · subst h
    simp
  · simp only [if_neg h, Option.map_eq_map, Option.map_id']
    rcases Nat.lt_or_gt_of_ne h with h | h
    · rw [List.getElem?_eq_none (by simp; omega), List.getElem?_eq_none (by simp; omega)]
    · rw [List.getElem?_append_left h, List.getElem?_append_left h]

theorem findIdx_key {α β : Type} [DecidableEq β] {l : List α} {key : α → β} {k : Nat} {x : α} (hk : l[k]? = some x)
    (hu : ∀ i y, l[i]? = some y → key y = key x → i = k) : (l.findIdx? fun y => decide (key y = key x)) = some k := by
  rw [List.findIdx?_eq_some_iff_getElem]
  obtain ⟨h1, h2⟩ := List.getElem?_eq_some_iff.1 hk
  refine ⟨h1, by simp [h2], fun j hj => ?_⟩
  simp only [decide_eq_true_eq]
  intro hc
  have := hu j _ (List.getElem?_eq_getElem (by omega)) hc
  omega

theorem mem_take_succ {α : Type} {l : List α} {k : Nat} {x : α} (hx : l[k]? = some x) : l.take (k + 1) = l.take k ++ [x] := by
  rw [List.take_add_one, hx]
  rfl

theorem mapIdx_concat' {α β : Type} (l : List α) (x : α) (F : Nat → α → β) :
    (l ++ [x]).mapIdx F = l.mapIdx F ++ [F l.length x] := by
  rw [List.mapIdx_append]
  simp

/-! ### Attributes -/

theorem content_ne {lib : Lib} {v : Str} (h : v ≠ []) : content lib v = some v := if_neg h

/-! ### Texts -/

theorem showInt_ne (v : Int) : showInt v ≠ [] := (showInt_word v).ne

theorem showInt_inj {v w : Int} (h : showInt v = showInt w) : v = w := by
  rw [← readSigned_showInt v, h, readSigned_showInt]

theorem readLong_show {v : Int} (h : IsLong v) : readLong (showInt v) = v := by
  unfold readLong
  rw [readSigned_showInt, clamp_id h.1 h.2]

theorem outName_inj {v w : Int} (h : outName v = outName w) : v = w := showInt_inj (List.append_cancel_left h)
theorem inName_inj {v w : Int} (h : inName v = inName w) : v = w := showInt_inj (List.append_cancel_left h)

theorem showInt_head (v : Int) (s : Str) : showInt v ≠ 'R' :: s := by
  intro h
  have hm : 'R' ∈ showInt v := by rw [h]; exact List.mem_cons_self
  have hd : ∀ n, 'R' ∉ dec n := by
    intro n hc
    obtain ⟨d, hd, h⟩ := dec_mem hc
    have := (digit_facts d hd).1
    rw [← h] at this
    exact absurd this (by decide)
  unfold showInt at hm
  split at hm
  · rcases List.mem_cons.1 hm with h | h
    · exact absurd h (by decide)
    · exact hd _ h
  · exact hd _ hm

theorem outName_loop (v : Int) (s : Str) : outName v ≠ "out_R".toList ++ s := by
  intro h
  have h2 : "out_R".toList ++ s = "out_".toList ++ ('R' :: s) := rfl
  rw [h2] at h
  exact showInt_head v s (List.append_cancel_left h)

theorem inName_loop (v : Int) (s : Str) : inName v ≠ "in_R".toList ++ s := by
  intro h
  have h2 : "in_R".toList ++ s = "in_".toList ++ ('R' :: s) := rfl
  rw [h2] at h
  exact showInt_head v s (List.append_cancel_left h)

theorem outName_ne (v : Int) : outName v ≠ [] := by
  intro h
  exact showInt_ne v (List.append_eq_nil_iff.1 h).2

theorem inName_ne (v : Int) : inName v ≠ [] := by
  intro h
  exact showInt_ne v (List.append_eq_nil_iff.1 h).2

theorem writeRates_ne {i p : List Int} (h : p ≠ []) : writeRates i p ≠ [] := by
  unfold writeRates
  split_ifs
  · simp
  · exact vec_ne h

/-! ### Ports of an actor -/

/-- A port as the writer describes it. -/
structure Port where
  name : Str
  typ : Str
  init : List Int
  per : List Int

def Port.node (p : Port) : Node := portNode p.name p.typ p.init p.per

structure Port.Good (p : Port) : Prop where
  name : p.name ≠ []
  typ : p.typ ≠ []
  per : p.per ≠ []
  long : ∀ r ∈ p.init ++ p.per, IsLong r

def Port.unit (p : Port) : Bool := p.init.all (· = 1) && p.per.all (· = 1)

theorem Port.Good.attrs {p : Port} (h : p.Good) (lib : Lib) :
    attr lib p.node "type" [] = some p.typ ∧ attr lib p.node "name" [] = some p.name ∧
    attr lib p.node "rate" [] = some (writeRates p.init p.per) := by
  simp [attr, Port.node, portNode, Node.attrs, content_ne h.name, content_ne h.typ, content_ne (writeRates_ne h.per)]

theorem Port.Good.read {p : Port} (h : p.Good) : stringRate2Vectors (writeRates p.init p.per) = some (p.init, p.per) :=
  C46_round_trip _ _ h.per (fun v hv => h.long v (List.mem_append_left _ hv)) fun v hv => h.long v (List.mem_append_right _ hv)

theorem Port.Good.onlyOne {p : Port} (h : p.Good) : onlyOne (writeRates p.init p.per) = some p.unit := by
  unfold SDF3.onlyOne
  rw [h.read]
  rfl

theorem scanPorts_ret (lib : Lib) (t n : Str) (o : Bool) (l : List Node) (b : Bool) :
    scanPorts lib t n o l (.ret b) = some (.ret b) := by
  cases l <;> rfl

theorem scanPorts_cons {p : Port} (h : p.Good) (lib : Lib) (t n : Str) (o : Bool) (l : List Node) (fi fo : Bool) :
    scanPorts lib t n o (p.node :: l) (.go fi fo) =
      if p.typ = t ∧ p.name = n then
        (if p.unit = false then some (.ret false)
        else if (if o then fo else fi) then some (.ret true)
        else scanPorts lib t n o l (if o then .go true fo else .go fi true))
      else scanPorts lib t n o l (.go fi fo) := by
  rw [scanPorts, if_pos (show p.node.name = "port" from rfl), (h.attrs lib).1, (h.attrs lib).2.1, (h.attrs lib).2.2]
  simp only [Option.bind_eq_bind, Option.bind_some, h.onlyOne]

/-- The first loop, when the ports that match all have the status `u`. -/
theorem scan_out {lib : Lib} {t n : Str} {u : Bool} {l : List Port} (hg : ∀ p ∈ l, p.Good)
    (hu : ∀ p ∈ l, p.typ = t → p.name = n → p.unit = u) (fi : Bool) :
    scanPorts lib t n true (l.map Port.node) (.go fi false) =
      some (if ∃ p ∈ l, p.typ = t ∧ p.name = n then (if u then .go true false else .ret false) else .go fi false) := by
  induction l generalizing fi with
  | nil => simp [scanPorts]
  | cons p l ih =>
    rw [List.map_cons, scanPorts_cons (hg p List.mem_cons_self)]
    have ih' := ih (fun q hq => hg q (List.mem_cons_of_mem _ hq)) (fun q hq => hu q (List.mem_cons_of_mem _ hq))
    by_cases hm : p.typ = t ∧ p.name = n
    · rw [if_pos hm, hu p List.mem_cons_self hm.1 hm.2, if_pos (show ∃ q ∈ p :: l, q.typ = t ∧ q.name = n from ⟨p, List.mem_cons_self, hm⟩)]
      cases u with
      | false => simp
      | true => simp [ih' true]
    · rw [if_neg hm, ih' fi]
      congr 1
      have : (∃ q ∈ p :: l, q.typ = t ∧ q.name = n) ↔ ∃ q ∈ l, q.typ = t ∧ q.name = n := by
        simp [hm]
      simp only [this]

/-- The second loop, when the ports that match all have the status `u`. -/
theorem scan_in {lib : Lib} {t n : Str} {u : Bool} {l : List Port} (hg : ∀ p ∈ l, p.Good)
    (hu : ∀ p ∈ l, p.typ = t → p.name = n → p.unit = u) :
    scanPorts lib t n false (l.map Port.node) (.go true false) =
      some (if ∃ p ∈ l, p.typ = t ∧ p.name = n then .ret u else .go true false) := by
  induction l with
  | nil => simp [scanPorts]
  | cons p l ih =>
    rw [List.map_cons, scanPorts_cons (hg p List.mem_cons_self)]
    have ih' := ih (fun q hq => hg q (List.mem_cons_of_mem _ hq)) (fun q hq => hu q (List.mem_cons_of_mem _ hq))
    by_cases hm : p.typ = t ∧ p.name = n
    · rw [if_pos hm, hu p List.mem_cons_self hm.1 hm.2, if_pos (show ∃ q ∈ p :: l, q.typ = t ∧ q.name = n from ⟨p, List.mem_cons_self, hm⟩)]
      cases u <;> simp
    · rw [if_neg hm, ih']
      congr 1
      have : (∃ q ∈ p :: l, q.typ = t ∧ q.name = n) ↔ ∃ q ∈ l, q.typ = t ∧ q.name = n := by
        simp [hm]
      simp only [this]

/-- Elements in which `scanActors` finds nothing: not actors, or actors of another name. -/
def Quiet (s : Str) (n : Node) : Prop :=
  n.name ≠ "actor" ∨ ∃ x t, n.attrs = [("name", x), ("type", t)] ∧ x ≠ [] ∧ x ≠ s

theorem scanActors_quiet {lib : Lib} {s i o : Str} {l : List Node} (h : ∀ n ∈ l, Quiet s n) (st : Scan) :
    scanActors lib s i o l st = some st := by
  induction l with
  | nil => rfl
  | cons n l ih =>
    cases st with
    | ret b => rfl
    | go fi fo =>
      have ih' := ih fun m hm => h m (List.mem_cons_of_mem _ hm)
      rw [scanActors]
      rcases h n List.mem_cons_self with hn | ⟨x, t, ha, hx, hs⟩
      · rw [if_neg hn, ih']
      · split_ifs
        · have : scanActor lib s i o n.children n.attrs (.go fi fo) = some (.go fi fo) := by
            rw [ha]
            simp [scanActor, content_ne hx, hs]
          rw [this]
          exact ih'
        · exact ih'

/-- The scan of a document with exactly one actor of the name `s`. -/
theorem scanActors_one {lib : Lib} {s t i o : Str} {l₁ l₂ : List Node} {ps : List Port} (hs : s ≠ [])
    (h₁ : ∀ n ∈ l₁, Quiet s n) (h₂ : ∀ n ∈ l₂, Quiet s n) (hg : ∀ p ∈ ps, p.Good) {u w : Bool}
    (hu : ∀ p ∈ ps, p.typ = "out".toList → p.name = i → p.unit = u)
    (hw : ∀ p ∈ ps, p.typ = "in".toList → p.name = o → p.unit = w)
    (eu : ∃ p ∈ ps, p.typ = "out".toList ∧ p.name = i) (ew : ∃ p ∈ ps, p.typ = "in".toList ∧ p.name = o) :
    scanActors lib s i o (l₁ ++ .mk "actor" [("name", s), ("type", t)] (ps.map Port.node) :: l₂) (.go false false) =
      some (.ret (u && w)) := by
  have happ : ∀ st, scanActors lib s i o (l₁ ++ .mk "actor" [("name", s), ("type", t)] (ps.map Port.node) :: l₂) st =
      scanActors lib s i o (.mk "actor" [("name", s), ("type", t)] (ps.map Port.node) :: l₂) st := by
    intro st
    clear h₂
    induction l₁ with
    | nil => rfl
    | cons n l ih =>
      have ih' := ih fun m hm => h₁ m (List.mem_cons_of_mem _ hm)
      cases st with
      | ret b => rfl
      | go fi fo =>
        rw [List.cons_append, scanActors]
        rcases h₁ n List.mem_cons_self with hn | ⟨x, t, ha, hx, hs⟩
        · rw [if_neg hn, ih']
        · split_ifs
          · have : scanActor lib s i o n.children n.attrs (.go fi fo) = some (.go fi fo) := by
              rw [ha]
              simp [scanActor, content_ne hx, hs]
            rw [this]
            exact ih'
          · exact ih'
  rw [happ, scanActors, if_pos (show (Node.mk "actor" [("name", s), ("type", t)] (ps.map Port.node)).name = "actor" from rfl)]
  have : scanActor lib s i o (Node.mk "actor" [("name", s), ("type", t)] (ps.map Port.node)).children
      (Node.mk "actor" [("name", s), ("type", t)] (ps.map Port.node)).attrs (.go false false) = some (.ret (u && w)) := by
    show scanActor lib s i o (ps.map Port.node) [("name", s), ("type", t)] (.go false false) = _
    rw [scanActor]
    rw [if_pos rfl, content_ne hs]
    simp only [Option.bind_eq_bind, Option.bind_some, if_true]
    rw [scan_out hg hu, if_pos eu]
    cases u with
    | false =>
      simp only [Bool.false_eq_true, if_false, Option.bind_some, scanPorts_ret, Bool.false_and]
      rfl
    | true =>
      simp only [if_true, Option.bind_some, Bool.true_and]
      rw [scan_in hg hw, if_pos ew]
      rfl
  rw [this]
  exact scanActors_quiet h₂ _

end Kiter.SDF3
