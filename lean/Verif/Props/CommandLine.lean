/-
Properties C07 (registry of algorithms) and C47 (command line parameters).
-/
import Verif.Model.CommandLine

set_option autoImplicit false

namespace Kiter

open Cli

/-! ### C07 -/

namespace Cli

theorem regAll_spec {E : Type} (name : E → Str) (h : List E) : ∀ (m : Registry E),
    (∀ n, (regAll name m h).2 n = (m n).or (h.find? fun t => decide (name t = n))) ∧
    (regAll name m h).1.length = h.length ∧
    (∀ pre t post, h = pre ++ t :: post →
      (regAll name m h).1[pre.length]? =
        some (decide (m (name t) = none ∧ ∀ u ∈ pre, name u ≠ name t))) := by
  induction h with
  | nil =>
    intro m
    refine ⟨fun n => by simp [regAll], rfl, ?_⟩
    intro pre t post he
    cases pre <;> cases he
  | cons t h ih =>
    intro m
    obtain ⟨h1, h2, h3⟩ := ih (regAdd name m t).2
    have hm : ∀ n, (regAdd name m t).2 n = (m n).or (if name t = n then some t else none) := by
      intro n
      unfold regAdd
      by_cases hn : name t = n
      · subst hn
        cases hmt : m (name t) with
        | none => simp
        | some u => simp [hmt]
      · have hn' : n ≠ name t := fun x => hn x.symm
        cases hmt : m (name t) with
        | none => simp [hn, Function.update_of_ne hn']
        | some u => simp [hn]
    refine ⟨?_, ?_, ?_⟩
    · intro n
      show (regAll name (regAdd name m t).2 h).2 n = _
      rw [h1, hm, List.find?_cons]
      by_cases hn : name t = n
      · simp only [hn, if_true, decide_true]
        cases m n <;> simp
      · simp only [hn, if_false, decide_false, Option.or_none]
    · show (_ :: _ : List Bool).length = _
      simp [h2]
    · intro pre u post he
      cases pre with
      | nil =>
        simp only [List.nil_append, List.cons.injEq] at he
        obtain ⟨rfl, rfl⟩ := he
        show some (regAdd name m t).1 = _
        unfold regAdd
        cases hmt : m (name t) <;> simp
      | cons x pre =>
        simp only [List.cons_append, List.cons.injEq] at he
        obtain ⟨rfl, he⟩ := he
        show (_ :: _ : List Bool)[_]? = _
        rw [List.length_cons, List.getElem?_cons_succ, h3 pre u post he, hm]
        congr 1
        refine decide_eq_decide.2 ?_
        by_cases hn : name t = name u
        · simp [hn]
        · simp [hn]

end Cli

/-- C07.  After any sequence of registrations in an empty registry, looking a name up returns the
first entry registered under that name, and nothing if there is none; the registration of an entry
reports success exactly when no earlier one had its name. -/
theorem C07_first_wins {E : Type} (name : E → Str) (h : List E) :
    let r := regAll name (fun _ => none) h
    (∀ n t, regGet r.2 n = some t ↔
      ∃ pre post, h = pre ++ t :: post ∧ name t = n ∧ ∀ u ∈ pre, name u ≠ n) ∧
    (∀ n, regGet r.2 n = none ↔ ∀ t ∈ h, name t ≠ n) ∧
    r.1.length = h.length ∧
    (∀ pre t post, h = pre ++ t :: post →
      r.1[pre.length]? = some (decide (∀ u ∈ pre, name u ≠ name t))) := by
  obtain ⟨h1, h2, h3⟩ := regAll_spec name h (fun _ => none)
  have hget : ∀ n, regGet (regAll name (fun _ => none) h).2 n
      = h.find? fun t => decide (name t = n) := by
    intro n
    unfold regGet
    rw [h1, Option.none_or]
    cases h.find? fun t => decide (name t = n) <;> rfl
  refine ⟨?_, ?_, h2, ?_⟩
  · intro n t
    rw [hget, List.find?_eq_some_iff_append]
    constructor
    · rintro ⟨hn, pre, post, he, hp⟩
      exact ⟨pre, post, he, by simpa using hn, fun u hu => by simpa using hp u hu⟩
    · rintro ⟨pre, post, he, hn, hp⟩
      exact ⟨by simpa using hn, pre, post, he, fun u hu => by simpa using hp u hu⟩
  · intro n
    rw [hget, List.find?_eq_none]
    simp
  · intro pre t post he
    rw [h3 pre t post he]
    simp

/-- A later registration changes nothing: the registry is the same with and without it. -/
theorem C07_later_ignored {E : Type} (name : E → Str) (m : Registry E) (t : E)
    (ht : regGet m (name t) ≠ none) : regAdd name m t = (false, m) := by
  unfold regAdd
  unfold regGet at ht
  cases h : m (name t) with
  | none => simp [h] at ht
  | some u => simp

example : (regAll (fun t : Str × Nat => t.1) (fun _ => none)
    [(['a'], 1), (['b'], 2), (['a'], 3)]).1 = [true, true, false] := by decide
example : regGet (regAll (fun t : Str × Nat => t.1) (fun _ => none)
    [(['a'], 1), (['b'], 2), (['a'], 3)]).2 ['a'] = some (['a'], 1) := by decide

/-! ### C47 -/

namespace Cli

/-- An option `-p key=value`; the key has no `=`. -/
def Sets (o : Opt) (k v : Str) : Prop := '=' ∉ k ∧ o = .p (k ++ '=' :: v)

/-- The last option of a list that sets `k` gives it the value `v`. -/
def LastValue (l : List Opt) (k v : Str) : Prop :=
  ∃ pre o post, l = pre ++ o :: post ∧ Sets o k v ∧ ∀ o' ∈ post, ∀ v', ¬ Sets o' k v'

/-- No option sets `k`. -/
def Unset (l : List Opt) (k : Str) : Prop := ∀ o ∈ l, ∀ v, ¬ Sets o k v

/-- The options that neither choose an algorithm or a generator nor end the program. -/
def Plain : Opt → Prop
  | .a _ => False
  | .g _ => False
  | .h => False
  | _ => True

/-- One algorithm or generator of the command line with the options before it. -/
structure Seg where
  own : List Opt
  alg : Bool
  name : Str

/-- The options of a segment, in order. -/
def Seg.options (s : Seg) : List Opt := s.own ++ [if s.alg then .a s.name else .g s.name]

/-- A command line. -/
def line (segs : List Seg) (tail : List Opt) : List Opt := segs.flatMap Seg.options ++ tail

/-- Every command line without `-h` has this form. -/
theorem line_exists (l : List Opt) (hl : .h ∉ l) :
    ∃ segs tail, l = line segs tail ∧ (∀ s ∈ segs, ∀ o ∈ s.own, Plain o) ∧ ∀ o ∈ tail, Plain o := by
  induction l with
  | nil => exact ⟨[], [], rfl, by simp, by simp⟩
  | cons o l ih =>
    obtain ⟨segs, tail, h1, h2, h3⟩ := ih fun h => hl (List.mem_cons_of_mem _ h)
    have hplain : Plain o → ∃ segs tail, o :: l = line segs tail ∧
        (∀ s ∈ segs, ∀ o ∈ s.own, Plain o) ∧ ∀ o ∈ tail, Plain o := by
      intro ho
      cases segs with
      | nil =>
        refine ⟨[], o :: tail, ?_, by simp, ?_⟩
        · rw [h1]; rfl
        · intro x hx
          rcases List.mem_cons.1 hx with rfl | hx
          · exact ho
          · exact h3 x hx
      | cons s segs =>
        refine ⟨⟨o :: s.own, s.alg, s.name⟩ :: segs, tail, ?_, ?_, h3⟩
        · rw [h1]; rfl
        · intro s' hs' x hx
          rcases List.mem_cons.1 hs' with rfl | hs'
          · rcases List.mem_cons.1 hx with rfl | hx
            · exact ho
            · exact h2 s List.mem_cons_self x hx
          · exact h2 s' (List.mem_cons_of_mem _ hs') x hx
    have hseg : ∀ (b : Bool) (n : Str), o = (if b then Opt.a n else Opt.g n) → ∃ segs tail, o :: l = line segs tail ∧
        (∀ s ∈ segs, ∀ o ∈ s.own, Plain o) ∧ ∀ o ∈ tail, Plain o := by
      intro b n he
      refine ⟨⟨[], b, n⟩ :: segs, tail, ?_, ?_, h3⟩
      · rw [h1, he]; rfl
      · intro s' hs' x hx
        rcases List.mem_cons.1 hs' with rfl | hs'
        · cases hx
        · exact h2 s' hs' x hx
    cases o with
    | f x => exact hplain trivial
    | g x => exact hseg false x rfl
    | a x => exact hseg true x rfl
    | v x => exact hplain trivial
    | p x => exact hplain trivial
    | h => exact absurd List.mem_cons_self hl
    | other => exact hplain trivial

/-- The parameters that a list of options leaves. -/
def paramsOf (m : Params) : List Opt → Params
  | [] => m
  | .p x :: l => paramsOf (setParam m x) l
  | _ :: l => paramsOf m l

/-- The file name that a list of options leaves. -/
def fileOf (f : Str) : List Opt → Str
  | [] => f
  | .f x :: l => fileOf x l
  | _ :: l => fileOf f l

theorem takeWhile_key {k v : Str} (hk : '=' ∉ k) :
    (k ++ '=' :: v).takeWhile (· ≠ '=') = k ∧
    ((k ++ '=' :: v).dropWhile (· ≠ '=')).drop 1 = v := by
  induction k with
  | nil => simp
  | cons c k ih =>
    have hc : c ≠ '=' := by rintro rfl; simp at hk
    have := ih fun h => hk (List.mem_cons_of_mem _ h)
    simp only [List.cons_append, List.takeWhile_cons, List.dropWhile_cons, hc, ne_eq,
      not_false_eq_true, decide_true, if_true]
    exact ⟨by rw [this.1], this.2⟩

theorem split_key {x : Str} (h : '=' ∈ x) : ∃ k v, '=' ∉ k ∧ x = k ++ '=' :: v := by
  induction x with
  | nil => cases h
  | cons c x ih =>
    by_cases hc : c = '='
    · exact ⟨[], x, by simp, by simp [hc]⟩
    · obtain ⟨k, v, h1, h2⟩ := ih (by
        rcases List.mem_cons.1 h with h | h
        · exact absurd h.symm hc
        · exact h)
      refine ⟨c :: k, v, ?_, by rw [h2]; rfl⟩
      intro hm
      rcases List.mem_cons.1 hm with hm | hm
      · exact hc hm.symm
      · exact h1 hm

theorem key_unique {k v k' v' : Str} (hk : '=' ∉ k) (hk' : '=' ∉ k')
    (h : k ++ '=' :: v = k' ++ '=' :: v') : k = k' ∧ v = v' := by
  have h1 := takeWhile_key (v := v) hk
  have h2 := takeWhile_key (v := v') hk'
  rw [h] at h1
  exact ⟨h1.1.symm.trans h2.1, h1.2.symm.trans h2.2⟩

/-- The entry of one option. -/
theorem setParam_apply (m : Params) (x k : Str) :
    (∃ v, Sets (.p x) k v ∧ setParam m x k = some v) ∨
    ((∀ v, ¬ Sets (.p x) k v) ∧ setParam m x k = m k) := by
  unfold setParam
  by_cases hx : '=' ∈ x
  · rw [if_pos hx]
    obtain ⟨k', v, h1, rfl⟩ := split_key hx
    obtain ⟨e1, e2⟩ := takeWhile_key (v := v) h1
    rw [e1, e2]
    by_cases hk : k = k'
    · subst hk
      exact Or.inl ⟨v, ⟨h1, rfl⟩, by simp⟩
    · refine Or.inr ⟨?_, Function.update_of_ne hk _ _⟩
      rintro v' ⟨h2, h3⟩
      injection h3 with h3
      exact hk (key_unique h1 h2 h3).1.symm
  · rw [if_neg hx]
    refine Or.inr ⟨?_, rfl⟩
    rintro v' ⟨h2, h3⟩
    injection h3 with h3
    exact hx (by rw [h3]; simp)

theorem sets_unique {o : Opt} {k v v' : Str} (h : Sets o k v) (h' : Sets o k v') : v = v' := by
  obtain ⟨h1, h2⟩ := h
  obtain ⟨_, h3⟩ := h'
  rw [h2] at h3
  injection h3 with h3
  exact (key_unique h1 h1 h3).2

theorem lastValue_unset {l : List Opt} {k : Str} (h : Unset l k) (v : Str) : ¬ LastValue l k v := by
  rintro ⟨pre, o, post, rfl, hs, _⟩
  exact h o (by simp) v hs

theorem lastValue_cons {o : Opt} {l : List Opt} {k v : Str} :
    LastValue (o :: l) k v ↔ LastValue l k v ∨ (Unset l k ∧ Sets o k v) := by
  constructor
  · rintro ⟨pre, x, post, he, hs, hp⟩
    cases pre with
    | nil =>
      simp only [List.nil_append, List.cons.injEq] at he
      obtain ⟨rfl, rfl⟩ := he
      exact Or.inr ⟨hp, hs⟩
    | cons y pre =>
      simp only [List.cons_append, List.cons.injEq] at he
      obtain ⟨rfl, rfl⟩ := he
      exact Or.inl ⟨pre, x, post, rfl, hs, hp⟩
  · rintro (⟨pre, x, post, rfl, hs, hp⟩ | ⟨hu, hs⟩)
    · exact ⟨o :: pre, x, post, rfl, hs, hp⟩
    · exact ⟨[], o, l, rfl, hs, hu⟩

theorem unset_cons {o : Opt} {l : List Opt} {k : Str} :
    Unset (o :: l) k ↔ (∀ v, ¬ Sets o k v) ∧ Unset l k := by
  unfold Unset
  simp

theorem paramsOf_spec (l : List Opt) : ∀ (m : Params) (k v : Str),
    paramsOf m l k = some v ↔ LastValue l k v ∨ (Unset l k ∧ m k = some v) := by
  induction l with
  | nil =>
    intro m k v
    have h1 : ¬ LastValue [] k v := lastValue_unset (by intro o ho; cases ho) v
    have h2 : Unset [] k := by intro o ho; cases ho
    simp [paramsOf, h1, h2]
  | cons o l ih =>
    intro m k v
    have other : (∀ k v, ¬ Sets o k v) → paramsOf m (o :: l) = paramsOf m l →
        (paramsOf m (o :: l) k = some v ↔
          LastValue (o :: l) k v ∨ (Unset (o :: l) k ∧ m k = some v)) := by
      intro h1 h2
      rw [h2, ih, lastValue_cons, unset_cons]
      have := h1 k
      constructor
      · rintro (h | h)
        · exact Or.inl (Or.inl h)
        · exact Or.inr ⟨⟨this, h.1⟩, h.2⟩
      · rintro ((h | h) | h)
        · exact Or.inl h
        · exact absurd h.2 (this v)
        · exact Or.inr ⟨h.1.2, h.2⟩
    cases o with
    | f x => exact other (by rintro k v ⟨_, h⟩; cases h) rfl
    | g x => exact other (by rintro k v ⟨_, h⟩; cases h) rfl
    | a x => exact other (by rintro k v ⟨_, h⟩; cases h) rfl
    | v x => exact other (by rintro k v ⟨_, h⟩; cases h) rfl
    | h => exact other (by rintro k v ⟨_, h⟩; cases h) rfl
    | other => exact other (by rintro k v ⟨_, h⟩; cases h) rfl
    | p x =>
      show paramsOf (setParam m x) l k = some v ↔ _
      rw [ih, lastValue_cons, unset_cons]
      rcases setParam_apply m x k with ⟨w, h1, h2⟩ | ⟨h1, h2⟩
      · rw [h2]
        constructor
        · rintro (h | ⟨h, h'⟩)
          · exact Or.inl (Or.inl h)
          · injection h' with h'
            subst h'
            exact Or.inl (Or.inr ⟨h, h1⟩)
        · rintro ((h | ⟨h, h'⟩) | ⟨⟨h, _⟩, _⟩)
          · exact Or.inl h
          · exact Or.inr ⟨h, by rw [sets_unique h1 h']⟩
          · exact absurd h1 (h w)
      · rw [h2]
        constructor
        · rintro (h | h)
          · exact Or.inl (Or.inl h)
          · exact Or.inr ⟨⟨h1, h.1⟩, h.2⟩
        · rintro ((h | h) | h)
          · exact Or.inl h
          · exact absurd h.2 (h1 v)
          · exact Or.inr ⟨h.1.2, h.2⟩

theorem parse_plain (l rest : List Opt) : ∀ (s : Args), (∀ o ∈ l, Plain o) →
    parse s (l ++ rest) =
      parse { s with filename := fileOf s.filename l, parameters := paramsOf s.parameters l } rest := by
  induction l with
  | nil => intro s _; rfl
  | cons o l ih =>
    intro s hl
    have hl' : ∀ o ∈ l, Plain o := fun o ho => hl o (List.mem_cons_of_mem _ ho)
    have ho := hl o List.mem_cons_self
    cases o with
    | f x => simp only [List.cons_append, parse, fileOf, paramsOf]; rw [ih _ hl']
    | g x => cases ho
    | a x => cases ho
    | v x => simp only [List.cons_append, parse, fileOf, paramsOf]; rw [ih _ hl']
    | p x => simp only [List.cons_append, parse, fileOf, paramsOf]; rw [ih _ hl']
    | h => cases ho
    | other => simp only [List.cons_append, parse, fileOf, paramsOf]; rw [ih _ hl']

/-- The entry stored for a segment. -/
def entry (s : Seg) : Str × Params := (s.name, paramsOf (fun _ => none) s.own)

theorem fileOf_append (l l' : List Opt) : ∀ f, fileOf f (l ++ l') = fileOf (fileOf f l) l' := by
  induction l with
  | nil => intro f; rfl
  | cons o l ih => intro f; cases o <;> simp only [List.cons_append, fileOf, ih]

theorem parse_line (segs : List Seg) (tail : List Opt)
    (hs : ∀ s ∈ segs, ∀ o ∈ s.own, Plain o) (ht : ∀ o ∈ tail, Plain o) :
    ∀ (s : Args), (segs ≠ [] → s.parameters = fun _ => none) →
      parse s (line segs tail) = some ⟨fileOf s.filename (line segs tail),
        s.algos ++ (segs.filter Seg.alg).map entry,
        s.generators ++ (segs.filter (fun x => !x.alg)).map entry,
        paramsOf s.parameters tail⟩ := by
  induction segs with
  | nil =>
    intro s _
    have := parse_plain tail [] s ht
    rw [List.append_nil] at this
    show parse s tail = _
    rw [this]
    simp [parse, line]
  | cons g segs ih =>
    intro s hp
    have hp := hp (by simp)
    have hl : line (g :: segs) tail
        = g.own ++ ((if g.alg then Opt.a g.name else Opt.g g.name) :: line segs tail) := by
      simp [line, Seg.options]
    have hf : ∀ f, fileOf f (line (g :: segs) tail) = fileOf (fileOf f g.own) (line segs tail) := by
      intro f
      rw [hl, fileOf_append]
      cases g.alg <;> rfl
    rw [hf, hl, parse_plain _ _ _ (hs g List.mem_cons_self)]
    have hs' : ∀ s ∈ segs, ∀ o ∈ s.own, Plain o := fun s h => hs s (List.mem_cons_of_mem _ h)
    cases hg : g.alg with
    | true =>
      simp only [if_true, parse]
      rw [ih hs' _ (fun _ => rfl)]
      simp [hg, entry, hp]
    | false =>
      simp only [Bool.false_eq_true, if_false, parse]
      rw [ih hs' _ (fun _ => rfl)]
      simp [hg, entry, hp]

/-- The file name given by the last `-f`; empty without one. -/
theorem fileOf_spec (l : List Opt) : ∀ f,
    (∃ pre x post, l = pre ++ .f x :: post ∧ (∀ y, .f y ∉ post) ∧ fileOf f l = x) ∨
    ((∀ y, .f y ∉ l) ∧ fileOf f l = f) := by
  induction l with
  | nil => intro f; exact Or.inr ⟨by simp, rfl⟩
  | cons o l ih =>
    intro f
    have other : (∀ y, o ≠ .f y) → fileOf f (o :: l) = fileOf f l →
        (∃ pre x post, o :: l = pre ++ .f x :: post ∧ (∀ y, .f y ∉ post) ∧ fileOf f (o :: l) = x) ∨
        ((∀ y, .f y ∉ o :: l) ∧ fileOf f (o :: l) = f) := by
      intro h1 h2
      rw [h2]
      rcases ih f with ⟨pre, x, post, h3, h4, h5⟩ | ⟨h3, h4⟩
      · exact Or.inl ⟨o :: pre, x, post, by rw [h3]; rfl, h4, h5⟩
      · refine Or.inr ⟨?_, h4⟩
        intro y hy
        rcases List.mem_cons.1 hy with hy | hy
        · exact h1 y hy.symm
        · exact h3 y hy
    cases o with
    | f x =>
      left
      show ∃ pre y post, _ ∧ _ ∧ fileOf x l = y
      rcases ih x with ⟨pre, y, post, h3, h4, h5⟩ | ⟨h3, h4⟩
      · exact ⟨.f x :: pre, y, post, by rw [h3]; rfl, h4, h5⟩
      · exact ⟨[], x, l, rfl, h3, h4⟩
    | g x => exact other (by intro y h; cases h) rfl
    | a x => exact other (by intro y h; cases h) rfl
    | v x => exact other (by intro y h; cases h) rfl
    | p x => exact other (by intro y h; cases h) rfl
    | h => exact other (by intro y h; cases h) rfl
    | other => exact other (by intro y h; cases h) rfl

/-- What a call must look like: its parameters are those of its own segment and, for the keys that
have none there, those of the end of the line. -/
def CallOf (tail : List Opt) (c : Str × Params) (s : Seg) : Prop :=
  c.1 = s.name ∧ ∀ k v, c.2 k = some v ↔ LastValue s.own k v ∨ (Unset s.own k ∧ LastValue tail k v)

/-- The parameters of a generator are those of its own segment. -/
def GenOf (c : Str × Params) (s : Seg) : Prop :=
  c.1 = s.name ∧ ∀ k v, c.2 k = some v ↔ LastValue s.own k v

theorem params_own (l : List Opt) (k v : Str) :
    paramsOf (fun _ => none) l k = some v ↔ LastValue l k v := by
  rw [paramsOf_spec]
  simp

theorem callOf_entry (s : Seg) (tail : List Opt) :
    CallOf tail (s.name, insertAll (entry s).2 (paramsOf (fun _ => none) tail)) s := by
  refine ⟨rfl, ?_⟩
  intro k v
  show insertAll (paramsOf (fun _ => none) s.own) _ k = some v ↔ _
  unfold insertAll
  cases h : paramsOf (fun _ => none) s.own k with
  | none =>
    have hu : Unset s.own k := by
      intro o ho w hw
      have : ∀ l : List Opt, (∃ o ∈ l, ∃ v, Sets o k v) → ∃ v, LastValue l k v := by
        intro l
        induction l with
        | nil => rintro ⟨o, ho, _⟩; cases ho
        | cons x l ih =>
          rintro ⟨o, ho, w, hw⟩
          by_cases hc : Unset l k
          · rcases List.mem_cons.1 ho with rfl | ho
            · exact ⟨w, lastValue_cons.2 (Or.inr ⟨hc, hw⟩)⟩
            · exact absurd hw (hc o ho w)
          · unfold Unset at hc
            push Not at hc
            obtain ⟨o', h1, v', h2⟩ := hc
            obtain ⟨v, hv⟩ := ih ⟨o', h1, v', h2⟩
            exact ⟨v, lastValue_cons.2 (Or.inl hv)⟩
      obtain ⟨v', hv'⟩ := this s.own ⟨o, ho, w, hw⟩
      rw [← params_own, h] at hv'
      cases hv'
    simp only
    rw [params_own]
    constructor
    · exact fun h => Or.inr ⟨hu, h⟩
    · rintro (h' | h')
      · exact absurd h' (lastValue_unset hu v)
      · exact h'.2
  | some w =>
    have hw := (params_own s.own k w).1 h
    simp only [Option.some.injEq]
    constructor
    · rintro rfl
      exact Or.inl hw
    · rintro (h' | h')
      · rw [← params_own, h] at h'
        injection h'
      · exact absurd hw (lastValue_unset h'.1 w)

/-- Applying calls in order. -/
def applyAll {G : Type} (env : Env G) (g : G) (calls : List (Str × Params)) : G :=
  calls.foldl (fun g c => match env.algorithm c.1 with
    | some fn => fn c.2 g
    | none => g) g

theorem runAlgorithms_spec {G : Type} (env : Env G) (tail : List Opt) (segs : List Seg) : ∀ g : G,
    let r := runAlgorithms env (paramsOf (fun _ => none) tail) g (segs.map entry)
    List.Forall₂ (CallOf tail) r.1 (segs.takeWhile fun s => (env.algorithm s.name).isSome) ∧
    r.2.1 = applyAll env g r.1 ∧
    (r.2.2 = true ↔ ∀ s ∈ segs, env.algorithm s.name ≠ none) := by
  induction segs with
  | nil => intro g; exact ⟨List.Forall₂.nil, rfl, by simp [runAlgorithms]⟩
  | cons s segs ih =>
    intro g
    have hr : runAlgorithms env (paramsOf (fun _ => none) tail) g ((s :: segs).map entry)
        = match env.algorithm s.name with
          | none => ([], g, false)
          | some fn =>
            let ps := insertAll (entry s).2 (paramsOf (fun _ => none) tail)
            let r := runAlgorithms env (paramsOf (fun _ => none) tail) (fn ps g) (segs.map entry)
            ((s.name, ps) :: r.1, r.2) := rfl
    cases h : env.algorithm s.name with
    | none =>
      rw [hr, h]
      refine ⟨?_, rfl, ?_⟩
      · simp only [List.takeWhile_cons, h]
        exact List.Forall₂.nil
      · simp [h]
    | some fn =>
      obtain ⟨h1, h2, h3⟩ := ih (fn (insertAll (entry s).2 (paramsOf (fun _ => none) tail)) g)
      rw [hr, h]
      refine ⟨?_, ?_, ?_⟩
      · simp only [List.takeWhile_cons, h, Option.isSome_some, if_true]
        exact List.Forall₂.cons (callOf_entry s tail) h1
      · simp only [applyAll, List.foldl_cons, h]
        exact h2
      · simp only [h3, List.mem_cons, forall_eq_or_imp, h]
        simp

theorem runGenerators_spec {G : Type} (env : Env G) (segs : List Seg) : ∀ g : Option G,
    let r := runGenerators env g (segs.map entry)
    List.Forall₂ GenOf r.1 (segs.takeWhile fun s => (env.generator s.name).isSome) ∧
    (r.2.2 = true ↔ ∀ s ∈ segs, env.generator s.name ≠ none) := by
  induction segs with
  | nil => intro g; exact ⟨List.Forall₂.nil, by simp [runGenerators]⟩
  | cons s segs ih =>
    intro g
    have hr : runGenerators env g ((s :: segs).map entry)
        = match env.generator s.name with
          | none => ([], g, false)
          | some fn =>
            let r := runGenerators env (fn (entry s).2) (segs.map entry)
            ((s.name, (entry s).2) :: r.1, r.2) := rfl
    cases h : env.generator s.name with
    | none =>
      rw [hr, h]
      refine ⟨?_, ?_⟩
      · simp only [List.takeWhile_cons, h]
        exact List.Forall₂.nil
      · simp [h]
    | some fn =>
      obtain ⟨h1, h3⟩ := ih (fn (entry s).2)
      rw [hr, h]
      refine ⟨?_, ?_⟩
      · simp only [List.takeWhile_cons, h, Option.isSome_some, if_true]
        exact List.Forall₂.cons ⟨rfl, fun k v => params_own s.own k v⟩ h1
      · simp only [h3, List.mem_cons, forall_eq_or_imp, h]
        simp

/-- `x` is the argument of the last `-f`. -/
def LastFile (l : List Opt) (x : Str) : Prop :=
  ∃ pre post, l = pre ++ .f x :: post ∧ ∀ y, .f y ∉ post

theorem fileOf_lastFile {l : List Opt} {x f : Str} (h : LastFile l x) : fileOf f l = x := by
  obtain ⟨pre, post, rfl, hp⟩ := h
  rw [fileOf_append]
  show fileOf x post = x
  rcases fileOf_spec post x with ⟨a, y, b, h1, _, _⟩ | ⟨_, h⟩
  · exact absurd (by rw [h1]; simp) (hp y)
  · exact h

end Cli

/-- C47.  For a graph read from a file.  Cut the command line after each `-a` and `-g`.  The tool
calls the algorithms of the line in order, up to the first unknown one, each on the graph that the
previous one left; a call receives the parameters of its own part of the line and, for the keys that
are not set there, those of the end of the line; in each part the last value of a key counts.  The exit
code is 0 exactly when no algorithm is unknown, and otherwise 1.  Generators are not called. -/
theorem C47_parameters {G : Type} (env : Env G) (segs : List Seg) (tail : List Opt)
    (hs : ∀ s ∈ segs, ∀ o ∈ s.own, Plain o) (ht : ∀ o ∈ tail, Plain o)
    (file : Str) (g : G) (hf : LastFile (line segs tail) file) (hne : file ≠ [])
    (hg : env.read file = some g) :
    let r := main env (line segs tail)
    List.Forall₂ (CallOf tail) r.calls
      ((segs.filter Seg.alg).takeWhile fun s => (env.algorithm s.name).isSome) ∧
    r.graph = some (applyAll env g r.calls) ∧
    (r.code = 0 ∨ r.code = 1) ∧
    (r.code = 0 ↔ ∀ s ∈ segs, s.alg = true → env.algorithm s.name ≠ none) ∧
    r.generated = [] := by
  intro r
  have hp := parse_line segs tail hs ht start (fun _ => rfl)
  obtain ⟨h1, h2, h3⟩ := runAlgorithms_spec env tail (segs.filter Seg.alg) g
  have hr : r = execute env ⟨file, (segs.filter Seg.alg).map entry,
      (segs.filter (fun x => !x.alg)).map entry, paramsOf (fun _ => none) tail⟩ := by
    show main env (line segs tail) = _
    unfold main
    rw [hp, fileOf_lastFile hf]
    rfl
  have hr' : r = ⟨[], (runAlgorithms env (paramsOf (fun _ => none) tail) g
        ((segs.filter Seg.alg).map entry)).1,
      some (runAlgorithms env (paramsOf (fun _ => none) tail) g
        ((segs.filter Seg.alg).map entry)).2.1,
      if (runAlgorithms env (paramsOf (fun _ => none) tail) g
        ((segs.filter Seg.alg).map entry)).2.2 then 0 else 1⟩ := by
    rw [hr]
    simp [execute, hne, hg]
  clear_value r
  subst hr'
  refine ⟨h1, by rw [h2], ?_, ?_, rfl⟩
  · simp only
    split
    · exact Or.inl rfl
    · exact Or.inr rfl
  · simp only
    rw [show (∀ s ∈ segs, s.alg = true → env.algorithm s.name ≠ none) ↔
      ∀ s ∈ segs.filter Seg.alg, env.algorithm s.name ≠ none from by simp [List.mem_filter], ← h3]
    split
    · rename_i h; simp [h]
    · rename_i h; simp [h]

/-- C47.  For a graph made by a generator, without `-f`.  The generator receives exactly the
parameters of its own part of the line (the end of the line is not added), the algorithms are called
as before, on the generated graph. -/
theorem C47_generator {G : Type} (env : Env G) (segs : List Seg) (tail : List Opt)
    (hs : ∀ s ∈ segs, ∀ o ∈ s.own, Plain o) (ht : ∀ o ∈ tail, Plain o)
    (hf : ∀ y, .f y ∉ line segs tail) (sg : Seg)
    (h1 : segs.filter (fun s => !s.alg) = [sg]) (fn : Params → Option G)
    (hfn : env.generator sg.name = some fn) :
    let r := main env (line segs tail)
    ∃ ps, r.generated = [(sg.name, ps)] ∧ GenOf (sg.name, ps) sg ∧
      (fn ps = none → r.calls = [] ∧ r.code = 1) ∧
      (∀ g, fn ps = some g →
        List.Forall₂ (CallOf tail) r.calls
          ((segs.filter Seg.alg).takeWhile fun s => (env.algorithm s.name).isSome) ∧
        r.graph = some (applyAll env g r.calls) ∧
        (r.code = 0 ↔ ∀ s ∈ segs, s.alg = true → env.algorithm s.name ≠ none)) := by
  intro r
  have hp := parse_line segs tail hs ht start (fun _ => rfl)
  have hfile : fileOf ([] : Str) (line segs tail) = [] := by
    rcases fileOf_spec (line segs tail) [] with ⟨a, y, b, h, _, _⟩ | ⟨_, h⟩
    · exact absurd (by rw [h]; simp) (hf y)
    · exact h
  have hr : r = execute env ⟨[], (segs.filter Seg.alg).map entry, [entry sg],
      paramsOf (fun _ => none) tail⟩ := by
    show main env (line segs tail) = _
    unfold main
    rw [hp, show fileOf start.filename (line segs tail) = [] from hfile, h1]
    rfl
  refine ⟨(entry sg).2, ?_, ⟨rfl, fun k v => params_own sg.own k v⟩, ?_, ?_⟩
  · rw [hr]
    have : runGenerators env none [entry sg] = ([(sg.name, (entry sg).2)], fn (entry sg).2, true) := by
      simp [runGenerators, entry, hfn]
    simp only [execute, ne_eq, not_true_eq_false, if_false, this, if_true]
    cases fn (entry sg).2 <;> rfl
  · intro hno
    rw [hr]
    have : runGenerators env none [entry sg] = ([(sg.name, (entry sg).2)], none, true) := by
      rw [← hno]
      simp [runGenerators, entry, hfn]
    simp only [execute, ne_eq, not_true_eq_false, if_false, this, if_true]
    exact ⟨trivial, trivial⟩
  · intro g hg
    obtain ⟨h3, h4, h5⟩ := runAlgorithms_spec env tail (segs.filter Seg.alg) g
    have hr' : r = ⟨[(sg.name, (entry sg).2)], (runAlgorithms env (paramsOf (fun _ => none) tail) g
        ((segs.filter Seg.alg).map entry)).1,
      some (runAlgorithms env (paramsOf (fun _ => none) tail) g
        ((segs.filter Seg.alg).map entry)).2.1,
      if (runAlgorithms env (paramsOf (fun _ => none) tail) g
        ((segs.filter Seg.alg).map entry)).2.2 then 0 else 1⟩ := by
      rw [hr]
      have : runGenerators env none [entry sg] = ([(sg.name, (entry sg).2)], some g, true) := by
        rw [← hg]
        simp [runGenerators, entry, hfn]
      simp only [execute, ne_eq, not_true_eq_false, if_false, this, if_true]
    clear_value r
    subst hr'
    refine ⟨h3, by rw [h4], ?_⟩
    simp only
    rw [show (∀ s ∈ segs, s.alg = true → env.algorithm s.name ≠ none) ↔
      ∀ s ∈ segs.filter Seg.alg, env.algorithm s.name ≠ none from by simp [List.mem_filter], ← h5]
    split
    · rename_i h; simp [h]
    · rename_i h; simp [h]

/-- C47.  `-h` anywhere runs nothing and ends with exit code 0. -/
theorem C47_help {G : Type} (env : Env G) (l : List Opt) (h : .h ∈ l) :
    main env l = ⟨[], [], none, 0⟩ := by
  have : ∀ l s, Opt.h ∈ l → parse s l = none := by
    intro l
    induction l with
    | nil => intro s h; cases h
    | cons o l ih =>
      intro s h
      cases o <;> first
        | rfl
        | (simp only [parse]; exact ih _ (by simpa using h))
  unfold main
  rw [this l start h]

/-- A run: two algorithms, the second with its own value of a key that the end of the line also sets. -/
example :
    let env : Env Nat := ⟨fun _ => some 5, fun _ => none,
      fun n => if n = ['X'] then some (fun _ g => g + 1)
        else if n = ['Y'] then some (fun ps g => if ps ['k'] = some ['2'] then 10 * g else 0) else none⟩
    let segs : List Seg := [⟨[.f ['d']], true, ['X']⟩, ⟨[.p ['k', '=', '1'], .p ['k', '=', '2']], true, ['Y']⟩]
    let r := main env (line segs [.p ['k', '=', '7'], .p ['b', '=']])
    r.graph = some 60 ∧ r.code = 0 ∧
      r.calls.map (fun c => (c.1, c.2 ['k'], c.2 ['b'])) =
        [(['X'], some ['7'], some []), (['Y'], some ['2'], some [])] := by decide

end Kiter
