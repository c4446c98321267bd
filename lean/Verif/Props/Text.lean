/-
Properties C06, C46, C60: the text of SDF3 rates and durations.
-/
import Verif.Model.Text
import Mathlib.Tactic.IntervalCases
import Mathlib.Data.List.Basic
import Mathlib.Data.List.Flatten
import Mathlib.Algebra.Order.Ring.Int

set_option autoImplicit false

namespace Kiter

open Text

namespace Text

/-- Pieces of text separated by a character. -/
def join (d : Char) : List Str → Str
  | [] => []
  | [w] => w
  | w :: x :: l => w ++ d :: join d (x :: l)

/-- A word: not empty, no white space and none of the separators. -/
structure Word (s : Str) : Prop where
  ne : s ≠ []
  space : ∀ c ∈ s, isSpace c = false
  sep : ∀ c ∈ s, c ≠ ',' ∧ c ≠ ';' ∧ c ≠ '*'

/-- A list item as SDF3 writes it: a value, or a multiplicity, a star and a value. -/
def renderItem : Option Nat × Str → Str
  | (none, v) => v
  | (some n, v) => dec n ++ '*' :: v

/-- The values an item stands for. -/
def meaning (i : Option Nat × Str) : List Str := List.replicate (i.1.getD 1) i.2

/-! ### Numbers -/

theorem takeWhile_all {p : Char → Bool} {s : Str} (h : ∀ c ∈ s, p c = true) : s.takeWhile p = s := by
  induction s with
  | nil => rfl
  | cons c s ih =>
    rw [List.takeWhile_cons_of_pos (h c List.mem_cons_self), ih fun x hx => h x (List.mem_cons_of_mem _ hx)]

theorem digit_facts : ∀ d : Nat, d < 10 → isDigit (digitChar d) = true ∧ digitVal (digitChar d) = d ∧
    isSpace (digitChar d) = false ∧ digitChar d ≠ ',' ∧ digitChar d ≠ ';' ∧ digitChar d ≠ '*' ∧
    digitChar d ≠ '-' ∧ digitChar d ≠ '+' := by
  decide

theorem decAux_mem (f n : Nat) (c : Char) (h : c ∈ decAux f n) : ∃ d, d < 10 ∧ c = digitChar d := by
  induction f generalizing n with
  | zero => simp [decAux] at h
  | succ f ih =>
    rw [decAux] at h
    split at h
    · rename_i hlt
      exact ⟨n, hlt, by simpa using h⟩
    · rcases List.mem_append.1 h with h | h
      · exact ih _ h
      · exact ⟨n % 10, Nat.mod_lt _ (by omega), by simpa using h⟩

theorem decAux_value (f n : Nat) (h : n < f) :
    (decAux f n).foldl (fun a c => a * 10 + digitVal c) 0 = n ∧ decAux f n ≠ [] := by
  induction f generalizing n with
  | zero => omega
  | succ f ih =>
    rw [decAux]
    split
    · rename_i hlt
      simp [(digit_facts n hlt).2.1]
    · have := (ih (n / 10) (by omega)).1
      refine ⟨?_, by simp⟩
      rw [List.foldl_append, this]
      simp only [List.foldl_cons, List.foldl_nil, (digit_facts (n % 10) (Nat.mod_lt _ (by omega))).2.1]
      omega

theorem dec_ne (n : Nat) : dec n ≠ [] := (decAux_value _ n (by omega)).2

theorem dec_mem {n : Nat} {c : Char} (h : c ∈ dec n) : ∃ d, d < 10 ∧ c = digitChar d :=
  decAux_mem _ _ _ h

theorem readNat_dec (n : Nat) : readNat (dec n) = n := by
  unfold readNat
  rw [takeWhile_all]
  · exact (decAux_value _ n (by omega)).1
  · intro c hc
    obtain ⟨d, hd, rfl⟩ := dec_mem hc
    exact (digit_facts d hd).1

theorem readSigned_dec (n : Nat) : readSigned (dec n) = n := by
  have hv := readNat_dec n
  cases h : dec n with
  | nil => exact absurd h (dec_ne n)
  | cons c s =>
    rw [h] at hv
    obtain ⟨d, hd, rfl⟩ := dec_mem (n := n) (c := c) (by rw [h]; exact List.mem_cons_self)
    rw [readSigned, if_neg (digit_facts d hd).2.2.2.2.2.2.1, if_neg (digit_facts d hd).2.2.2.2.2.2.2, hv]

theorem showInt_mem {v : Int} {c : Char} (h : c ∈ showInt v) :
    isSpace c = false ∧ c ≠ ',' ∧ c ≠ ';' ∧ c ≠ '*' := by
  unfold showInt at h
  have hd : ∀ n, c ∈ dec n → isSpace c = false ∧ c ≠ ',' ∧ c ≠ ';' ∧ c ≠ '*' := by
    intro n hc
    obtain ⟨d, hd, rfl⟩ := dec_mem hc
    have := digit_facts d hd
    exact ⟨this.2.2.1, this.2.2.2.1, this.2.2.2.2.1, this.2.2.2.2.2.1⟩
  split at h
  · rcases List.mem_cons.1 h with rfl | h
    · decide
    · exact hd _ h
  · exact hd _ h

theorem showInt_word (v : Int) : Word (showInt v) where
  ne := by
    unfold showInt
    split
    · simp
    · exact dec_ne _
  space := fun _ hc => (showInt_mem hc).1
  sep := fun _ hc => (showInt_mem hc).2

theorem dec_word (n : Nat) : Word (dec n) := by
  have := showInt_word n
  unfold showInt at this
  rwa [if_neg (by omega), Int.natAbs_natCast] at this

theorem dropSpace {s : Str} (h : ∀ c ∈ s, isSpace c = false) : s.dropWhile isSpace = s := by
  cases s with
  | nil => rfl
  | cons c s =>
    rw [List.dropWhile_cons_of_neg]
    rw [h c List.mem_cons_self]
    exact Bool.false_ne_true

theorem readSigned_showInt (v : Int) : readSigned ((showInt v).dropWhile isSpace) = v := by
  rw [dropSpace (showInt_word v).space]
  unfold showInt
  split
  · rw [readSigned, if_pos rfl, readNat_dec]
    omega
  · rw [readSigned_dec]
    omega

theorem clamp_id {bits : Nat} {v : Int} (h1 : -(2 ^ (bits - 1)) ≤ v) (h2 : v < 2 ^ (bits - 1)) :
    clamp bits v = v := by
  unfold clamp
  rw [if_neg (by omega), if_neg (by omega)]

theorem readInt_dec {n : Nat} (h : n < 2 ^ 31) : readInt (dec n) = n := by
  unfold readInt
  rw [dropSpace (dec_word n).space, readSigned_dec, clamp_id]
  · have : (0 : Int) ≤ 2 ^ (32 - 1) := by positivity
    omega
  · exact_mod_cast h

/-! ### Splitting -/

theorem getlines_word {d : Char} {w : Str} (hw : ∀ c ∈ w, c ≠ d) (rest cur : Str) :
    getlines d (w ++ rest) cur = getlines d rest (cur ++ w) := by
  induction w generalizing cur with
  | nil => simp
  | cons c w ih =>
    rw [List.cons_append, getlines, if_neg (hw c List.mem_cons_self),
      ih (fun x hx => hw x (List.mem_cons_of_mem _ hx))]
    simp

theorem getlines_join {d : Char} {l : List Str} (h1 : ∀ w ∈ l, ∀ c ∈ w, c ≠ d)
    (h2 : ∀ w ∈ l, w ≠ []) : getlines d (join d l) [] = l := by
  induction l with
  | nil => rfl
  | cons w l ih =>
    cases l with
    | nil =>
      have := getlines_word (h1 w List.mem_cons_self) [] []
      simp only [join, List.append_nil, List.nil_append] at this ⊢
      rw [this, getlines, if_neg (h2 w List.mem_cons_self)]
    | cons x l =>
      rw [join, getlines_word (h1 w List.mem_cons_self), getlines, if_pos rfl,
        ih (fun y hy => h1 y (List.mem_cons_of_mem _ hy)) fun y hy => h2 y (List.mem_cons_of_mem _ hy)]
      rfl

theorem readWord_id {s : Str} (h : ∀ c ∈ s, isSpace c = false) : readWord s = s := by
  unfold readWord
  rw [dropSpace h, takeWhile_all]
  intro c hc
  rw [h c hc]
  rfl

theorem split_join {d : Char} {l : List Str} (h1 : ∀ w ∈ l, ∀ c ∈ w, c ≠ d)
    (h2 : ∀ w ∈ l, w ≠ []) (h3 : ∀ w ∈ l, ∀ c ∈ w, isSpace c = false) : split (join d l) d = l := by
  unfold split
  rw [getlines_join h1 h2]
  conv_rhs => rw [← List.map_id l]
  exact List.map_congr_left fun w hw => readWord_id (h3 w hw)

theorem split_one {d : Char} {w : Str} (h1 : ∀ c ∈ w, c ≠ d) (h2 : w ≠ [])
    (h3 : ∀ c ∈ w, isSpace c = false) : split w d = [w] := by
  have := split_join (d := d) (l := [w]) (by simpa using h1) (by simpa using h2) (by simpa using h3)
  exact this

theorem join_mem {d c : Char} {l : List Str} (h : c ∈ join d l) : c = d ∨ ∃ w ∈ l, c ∈ w := by
  induction l with
  | nil => simp [join] at h
  | cons w l ih =>
    cases l with
    | nil => exact Or.inr ⟨w, List.mem_cons_self, h⟩
    | cons x l =>
      rw [join, List.mem_append, List.mem_cons] at h
      rcases h with h | h | h
      · exact Or.inr ⟨w, List.mem_cons_self, h⟩
      · exact Or.inl h
      · rcases ih h with h | ⟨y, hy, h⟩
        · exact Or.inl h
        · exact Or.inr ⟨y, List.mem_cons_of_mem _ hy, h⟩

theorem join_ne {d : Char} {l : List Str} (h : l ≠ []) (h2 : ∀ w ∈ l, w ≠ []) : join d l ≠ [] := by
  cases l with
  | nil => exact absurd rfl h
  | cons w l =>
    cases l with
    | nil => exact h2 w List.mem_cons_self
    | cons x l => rw [join]; simp

theorem vectorAsStr_join (l : List Int) : vectorAsStr l = join ',' (l.map showInt) := by
  induction l with
  | nil => rfl
  | cons v l ih =>
    cases l with
    | nil => rfl
    | cons w l =>
      rw [vectorAsStr, ih]
      rfl

theorem renderItem_chars {i : Option Nat × Str} (h : Word i.2) :
    renderItem i ≠ [] ∧ (∀ c ∈ renderItem i, isSpace c = false) ∧
      ∀ c ∈ renderItem i, c ≠ ',' ∧ c ≠ ';' := by
  obtain ⟨m, v⟩ := i
  cases m with
  | none => exact ⟨h.ne, h.space, fun c hc => ⟨(h.sep c hc).1, (h.sep c hc).2.1⟩⟩
  | some n =>
    have hd := dec_word n
    refine ⟨by simp [renderItem], ?_, ?_⟩
    · intro c hc
      rcases List.mem_append.1 hc with hc | hc
      · exact hd.space c hc
      · rcases List.mem_cons.1 hc with rfl | hc
        · decide
        · exact h.space c hc
    · intro c hc
      rcases List.mem_append.1 hc with hc | hc
      · exact ⟨(hd.sep c hc).1, (hd.sep c hc).2.1⟩
      · rcases List.mem_cons.1 hc with rfl | hc
        · decide
        · exact ⟨(h.sep c hc).1, (h.sep c hc).2.1⟩

theorem split_item {i : Option Nat × Str} (h : Word i.2) :
    split (renderItem i) '*' = match i.1 with | none => [i.2] | some n => [dec n, i.2] := by
  obtain ⟨m, v⟩ := i
  cases m with
  | none => exact split_one (fun c hc => (h.sep c hc).2.2) h.ne h.space
  | some n =>
    have hd := dec_word n
    have := split_join (d := '*') (l := [dec n, v])
      (by
        intro w hw
        simp only [List.mem_cons, List.not_mem_nil, or_false] at hw
        rcases hw with rfl | rfl
        · exact fun c hc => (hd.sep c hc).2.2
        · exact fun c hc => (h.sep c hc).2.2)
      (by
        intro w hw
        simp only [List.mem_cons, List.not_mem_nil, or_false] at hw
        rcases hw with rfl | rfl
        · exact hd.ne
        · exact h.ne)
      (by
        intro w hw
        simp only [List.mem_cons, List.not_mem_nil, or_false] at hw
        rcases hw with rfl | rfl
        · exact hd.space
        · exact h.space)
    exact this

theorem mapM_some {α β : Type} {f : α → Option β} {g : α → β} {l : List α}
    (h : ∀ a ∈ l, f a = some (g a)) : l.mapM f = some (l.map g) := by
  induction l with
  | nil => rfl
  | cons a l ih =>
    rw [List.mapM_cons, h a List.mem_cons_self, ih fun x hx => h x (List.mem_cons_of_mem _ hx)]
    rfl

theorem mapM_none {α β : Type} {f : α → Option β} {l : List α} {a : α} (ha : a ∈ l)
    (h : f a = none) : l.mapM f = none := by
  induction l with
  | nil => cases ha
  | cons b l ih =>
    rw [List.mapM_cons]
    rcases List.mem_cons.1 ha with rfl | ha
    · rw [h]; rfl
    · rw [ih ha]
      cases f b <;> rfl

theorem flatten_single {α β : Type} (f : α → β) (l : List α) :
    (l.map fun v => [f v]).flatten = l.map f := by
  induction l with
  | nil => rfl
  | cons a l ih => rw [List.map_cons, List.flatten_cons, ih]; rfl

theorem split_items {items : List (Option Nat × Str)} (h : ∀ i ∈ items, Word i.2) :
    split (join ',' (items.map renderItem)) ',' = items.map renderItem := by
  refine split_join ?_ ?_ ?_ <;>
  · intro w hw
    obtain ⟨i, hi, rfl⟩ := List.mem_map.1 hw
    obtain ⟨h1, h2, h3⟩ := renderItem_chars (h i hi)
    first
      | exact fun c hc => (h3 c hc).1
      | exact h1
      | exact h2

end Text

/-! ### C06 -/

/-- C06.  The text of any list of items, each a value or `n*value`, expands to the values in order,
each repeated as often as its multiplicity says. -/
theorem C06_expand (items : List (Option Nat × Str)) (hw : ∀ i ∈ items, Word i.2)
    (hn : ∀ i ∈ items, ∀ n, i.1 = some n → n < 2 ^ 31) :
    splitSDF3List (join ',' (items.map renderItem)) = some (items.flatMap meaning) := by
  unfold splitSDF3List
  rw [split_items hw, List.mapM_map,
    mapM_some (f := expandItem ∘ renderItem) (g := meaning), Option.map_some,
    List.flatMap_def]
  intro i hi
  rw [Function.comp]
  unfold expandItem
  rw [split_item (hw i hi)]
  obtain ⟨m, v⟩ := i
  cases m with
  | none => rfl
  | some n =>
    simp only [meaning, Option.getD_some]
    rw [readInt_dec (hn _ hi n rfl)]
    rfl

/-- The characters that separate words. -/
def Blanks (s : Text.Str) : Prop := ∀ c ∈ s, c = ' ' ∨ c = '\t' ∨ c = '\n' ∨ c = '\r'

theorem Text.readWord_blanks {a w b : Str} (ha : Blanks a) (hw : ∀ c ∈ w, isSpace c = false) (hne : w ≠ [])
    (hb : b = [] ∨ ∃ c t, b = c :: t ∧ Blanks [c]) : readWord (a ++ w ++ b) = w := by
  have sp : ∀ c : Char, (c = ' ' ∨ c = '\t' ∨ c = '\n' ∨ c = '\r') → isSpace c = true := by
    rintro c (rfl | rfl | rfl | rfl) <;> decide
  have h1 : (a ++ w ++ b).dropWhile isSpace = w ++ b := by
    induction a with
    | nil =>
      cases w with
      | nil => exact absurd rfl hne
      | cons c w =>
        rw [List.nil_append, List.cons_append, List.dropWhile_cons_of_neg]
        rw [hw c List.mem_cons_self]
        exact Bool.false_ne_true
    | cons c a ih =>
      rw [List.cons_append, List.cons_append, List.dropWhile_cons_of_pos (sp c (ha c List.mem_cons_self))]
      exact ih fun x hx => ha x (List.mem_cons_of_mem _ hx)
  unfold readWord
  rw [h1, List.takeWhile_append_of_pos (fun c hc => by rw [hw c hc]; rfl)]
  rcases hb with rfl | ⟨c, t, rfl, hc⟩
  · simp
  · rw [List.takeWhile_cons_of_neg]
    · simp
    · rw [sp c (hc c List.mem_cons_self)]; decide

/-- C06.  Blanks before and after the items of a list are ignored. -/
theorem C06_blanks (items : List (Str × (Option Nat × Str) × Str)) (hw : ∀ i ∈ items, Word i.2.1.2)
    (hn : ∀ i ∈ items, ∀ n, i.2.1.1 = some n → n < 2 ^ 31) (hb : ∀ i ∈ items, Blanks i.1 ∧ Blanks i.2.2) :
    splitSDF3List (join ',' (items.map fun i => i.1 ++ renderItem i.2.1 ++ i.2.2)) =
      some ((items.map fun i => i.2.1).flatMap meaning) := by
  have hw2 : ∀ j ∈ items.map (fun i => i.2.1), Word j.2 := by
    intro j hj
    obtain ⟨i, hi, rfl⟩ := List.mem_map.1 hj
    exact hw i hi
  rw [← C06_expand (items.map fun i => i.2.1) hw2 (by
    intro j hj
    obtain ⟨i, hi, rfl⟩ := List.mem_map.1 hj
    exact hn i hi)]
  unfold splitSDF3List
  congr 2
  rw [split_items hw2]
  unfold split
  have blank : ∀ (s : Str), Blanks s → ∀ c ∈ s, c ≠ ',' := by
    intro s hs c hc
    rcases hs c hc with rfl | rfl | rfl | rfl <;> decide
  rw [getlines_join, List.map_map, List.map_map]
  · apply List.map_congr_left
    intro i hi
    obtain ⟨h1, h2, -⟩ := renderItem_chars (hw i hi)
    refine readWord_blanks (hb i hi).1 h2 h1 ?_
    cases hc : i.2.2 with
    | nil => exact Or.inl rfl
    | cons c t =>
      refine Or.inr ⟨c, t, rfl, ?_⟩
      intro x hx
      rw [List.mem_singleton] at hx
      subst hx
      exact (hb i hi).2 x (by rw [hc]; exact List.mem_cons_self)
  · intro w hw' c hc
    obtain ⟨i, hi, rfl⟩ := List.mem_map.1 hw'
    rw [List.mem_append, List.mem_append] at hc
    rcases hc with (hc | hc) | hc
    · exact blank _ (hb i hi).1 c hc
    · exact ((renderItem_chars (hw i hi)).2.2 c hc).1
    · exact blank _ (hb i hi).2 c hc
  · intro w hw'
    obtain ⟨i, hi, rfl⟩ := List.mem_map.1 hw'
    have := (renderItem_chars (hw i hi)).1
    simp [this]

example : splitSDF3List " 3*12 ,\t7,\n2*x".toList = some ["12".toList, "12".toList, "12".toList, "7".toList,
    "x".toList, "x".toList] := by decide +kernel

/-- C06.  An item of three or more fields separated by stars makes the whole list rejected,
wherever it stands. -/
theorem C06_reject (before after : List (Option Nat × Str)) (fields : List Str)
    (hb : ∀ i ∈ before, Word i.2) (ha : ∀ i ∈ after, Word i.2) (hf : ∀ w ∈ fields, Word w)
    (h3 : 3 ≤ fields.length) :
    splitSDF3List (join ',' (before.map renderItem ++ [join '*' fields] ++ after.map renderItem))
      = none := by
  have hne : fields ≠ [] := by rintro rfl; simp at h3
  have hsp : split (join '*' fields) '*' = fields :=
    split_join (fun w hw c hc => ((hf w hw).sep c hc).2.2) (fun w hw => (hf w hw).ne)
      fun w hw => (hf w hw).space
  have hmid : ∀ c ∈ join '*' fields, isSpace c = false ∧ c ≠ ',' := by
    intro c hc
    rcases join_mem hc with rfl | ⟨w, hw, hc⟩
    · decide
    · exact ⟨(hf w hw).space c hc, ((hf w hw).sep c hc).1⟩
  have hall : ∀ w ∈ before.map renderItem ++ [join '*' fields] ++ after.map renderItem,
      w ≠ [] ∧ (∀ c ∈ w, isSpace c = false) ∧ ∀ c ∈ w, c ≠ ',' := by
    intro w hw
    simp only [List.mem_append, List.mem_map, List.mem_singleton] at hw
    rcases hw with (⟨i, hi, rfl⟩ | rfl) | ⟨i, hi, rfl⟩
    · obtain ⟨h1, h2, h3⟩ := renderItem_chars (hb i hi)
      exact ⟨h1, h2, fun c hc => (h3 c hc).1⟩
    · exact ⟨join_ne hne fun w hw => (hf w hw).ne, fun c hc => (hmid c hc).1, fun c hc => (hmid c hc).2⟩
    · obtain ⟨h1, h2, h3⟩ := renderItem_chars (ha i hi)
      exact ⟨h1, h2, fun c hc => (h3 c hc).1⟩
  unfold splitSDF3List
  rw [split_join (fun w hw => (hall w hw).2.2) (fun w hw => (hall w hw).1) fun w hw => (hall w hw).2.1,
    mapM_none (a := join '*' fields) (by simp), Option.map_none]
  unfold expandItem
  rw [hsp]
  match fields, h3 with
  | a :: b :: c :: l, _ => rfl

/-- The rule "an item with more than one star is rejected" has an exception: a star at the end of an
item is not seen. -/
theorem C06_trailing_star_counterexample :
    splitSDF3List "2*3*".toList = some ["3".toList, "3".toList] := by decide +kernel

example : splitSDF3List "3*12,7,0*5,1*x".toList =
    some ["12".toList, "12".toList, "12".toList, "7".toList, "x".toList] := by decide +kernel
example : renderItem (some 3, "12".toList) = "3*12".toList ∧ Word "12".toList :=
  ⟨by decide +kernel, ⟨by decide, by decide, by decide⟩⟩

/-! ### C46 -/

namespace Text

/-- Values of a 64 bit `long`. -/
def IsLong (v : Int) : Prop := -(2 ^ 63) ≤ v ∧ v < 2 ^ 63

theorem tokenItem_show {v : Int} (h : IsLong v) : tokenItem (showInt v) = some [v] := by
  have hw := showInt_word v
  unfold tokenItem
  rw [split_one (d := '*') (fun c hc => (hw.sep c hc).2.2) hw.ne hw.space]
  simp only [List.getLast?_singleton, List.length_singleton]
  rw [if_neg (show ¬ (1 = 2) by decide), if_neg (by decide)]
  unfold readLong
  rw [readSigned_showInt, clamp_id h.1 h.2]
  rfl

theorem vec_chars (l : List Int) :
    (∀ c ∈ vectorAsStr l, isSpace c = false) ∧ ∀ c ∈ vectorAsStr l, c ≠ ';' := by
  rw [vectorAsStr_join]
  have : ∀ c ∈ join ',' (l.map showInt), isSpace c = false ∧ c ≠ ';' := by
    intro c hc
    rcases join_mem hc with rfl | ⟨w, hw, hc⟩
    · decide
    · obtain ⟨v, _, rfl⟩ := List.mem_map.1 hw
      exact ⟨(showInt_word v).space c hc, ((showInt_word v).sep c hc).2.1⟩
  exact ⟨fun c hc => (this c hc).1, fun c hc => (this c hc).2⟩

theorem vec_ne {l : List Int} (h : l ≠ []) : vectorAsStr l ≠ [] := by
  rw [vectorAsStr_join]
  refine join_ne (by simpa using h) ?_
  intro w hw
  obtain ⟨v, _, rfl⟩ := List.mem_map.1 hw
  exact (showInt_word v).ne

theorem split_vec (l : List Int) : split (vectorAsStr l) ',' = l.map showInt := by
  rw [vectorAsStr_join]
  refine split_join ?_ ?_ ?_ <;>
  · intro w hw
    obtain ⟨v, _, rfl⟩ := List.mem_map.1 hw
    first
      | exact fun c hc => ((showInt_word v).sep c hc).1
      | exact (showInt_word v).ne
      | exact (showInt_word v).space

theorem split_rates {init per : List Int} (hp : per ≠ []) :
    split (writeRates init per) ';' =
      if init = [] then [vectorAsStr per] else [vectorAsStr init, vectorAsStr per] := by
  unfold writeRates
  by_cases hi : init = []
  · subst hi
    simp only [List.length_nil, ne_eq, not_true_eq_false, if_false, if_true]
    exact split_one (vec_chars per).2 (vec_ne hp) (vec_chars per).1
  · rw [if_pos (by simpa using hi), if_neg hi]
    have := split_join (d := ';') (l := [vectorAsStr init, vectorAsStr per])
      (by
        intro w hw
        simp only [List.mem_cons, List.not_mem_nil, or_false] at hw
        rcases hw with rfl | rfl <;> exact (vec_chars _).2)
      (by
        intro w hw
        simp only [List.mem_cons, List.not_mem_nil, or_false] at hw
        rcases hw with rfl | rfl
        · exact vec_ne hi
        · exact vec_ne hp)
      (by
        intro w hw
        simp only [List.mem_cons, List.not_mem_nil, or_false] at hw
        rcases hw with rfl | rfl <;> exact (vec_chars _).1)
    exact this

theorem tokens_vec {l : List Int} (h : ∀ v ∈ l, IsLong v) :
    stringlist2tokenlist (split (vectorAsStr l) ',') = some l := by
  unfold stringlist2tokenlist
  rw [split_vec, List.mapM_map, mapM_some (f := tokenItem ∘ showInt) (g := fun v => [v])
    fun v hv => tokenItem_show (h v hv)]
  rw [Option.map_some, flatten_single fun v => v]
  simp

end Text

/-- C46.  Writing a pair of initial and periodic rates and reading the text back gives the same
pair, for all vectors of 64 bit numbers with at least one periodic rate. -/
theorem C46_round_trip (init per : List Int) (hp : per ≠ []) (h1 : ∀ v ∈ init, IsLong v)
    (h2 : ∀ v ∈ per, IsLong v) :
    stringRate2Vectors (writeRates init per) = some (init, per) := by
  unfold stringRate2Vectors
  rw [split_rates hp]
  by_cases hi : init = []
  · subst hi
    simp only [if_true, List.length_singleton, List.getElem?_cons_zero]
    rw [if_neg (by decide)]
    have : stringlist2tokenlist [] = some [] := rfl
    rw [this, Option.bind_some, tokens_vec h2]
    rfl
  · simp only [if_neg hi, List.length_cons, List.length_nil, List.headI_cons]
    have : ¬ (0 + 1 + 1 = 1) := by decide
    simp only [if_true, if_neg this, List.getElem?_cons_succ, List.getElem?_cons_zero]
    rw [tokens_vec h1, Option.bind_some, tokens_vec h2]
    rfl

/-- Without periodic rates the initial ones come back as periodic rates. -/
theorem C46_empty_counterexample : stringRate2Vectors (writeRates [1, 2] []) = some ([], [1, 2]) := by
  decide +kernel

/-- C46.  The reader of rates expands multiplicities in the same way as the list reader, on every
list of items. -/
theorem C46_multiplicities (items : List (Option Nat × Int)) (hv : ∀ i ∈ items, IsLong i.2)
    (hn : ∀ i ∈ items, ∀ n, i.1 = some n → n < 2 ^ 31 - 1) (hne : items ≠ []) :
    stringRate2Vectors (join ',' (items.map fun i => renderItem (i.1, showInt i.2))) =
      some ([], items.flatMap fun i => List.replicate (i.1.getD 1) i.2) := by
  have hmap : (items.map fun i => renderItem (i.1, showInt i.2)) =
      (items.map fun i => (i.1, showInt i.2)).map renderItem := by
    rw [List.map_map]; rfl
  have hword : ∀ i ∈ items.map (fun i => (i.1, showInt i.2)), Word i.2 := by
    intro i hi
    obtain ⟨j, _, rfl⟩ := List.mem_map.1 hi
    exact showInt_word _
  have hall : ∀ c ∈ join ',' (items.map fun i => renderItem (i.1, showInt i.2)),
      isSpace c = false ∧ c ≠ ';' := by
    intro c hc
    rcases join_mem hc with rfl | ⟨w, hw, hc⟩
    · decide
    · rw [hmap] at hw
      obtain ⟨i, hi, rfl⟩ := List.mem_map.1 hw
      obtain ⟨_, a, b⟩ := renderItem_chars (hword i hi)
      exact ⟨a c hc, (b c hc).2⟩
  have hne' : join ',' (items.map fun i => renderItem (i.1, showInt i.2)) ≠ [] := by
    refine join_ne (by simpa using hne) ?_
    intro w hw
    rw [hmap] at hw
    obtain ⟨i, hi, rfl⟩ := List.mem_map.1 hw
    exact (renderItem_chars (hword i hi)).1
  unfold stringRate2Vectors
  rw [split_one (fun c hc => (hall c hc).2) hne' (fun c hc => (hall c hc).1)]
  simp only [List.length_singleton, if_true, List.getElem?_cons_zero]
  rw [if_neg (by decide)]
  have : stringlist2tokenlist [] = some [] := rfl
  rw [this, Option.bind_some, hmap, split_items hword]
  unfold stringlist2tokenlist
  rw [List.map_map, List.mapM_map,
    mapM_some (g := fun i : Option Nat × Int => List.replicate (i.1.getD 1) i.2)]
  · simp only [Option.map_some, List.flatMap_def]
  · intro i hi
    obtain ⟨m, v⟩ := i
    have hl := hv _ hi
    unfold tokenItem
    simp only [Function.comp]
    rw [split_item (showInt_word v)]
    have hlast : readLong (showInt v) = v := by
      unfold readLong
      rw [readSigned_showInt, clamp_id hl.1 hl.2]
    cases m with
    | none =>
      simp only [List.getLast?_singleton, List.length_singleton]
      rw [if_neg (show ¬ (1 = 2) by decide), if_neg (by decide), hlast]
      rfl
    | some n =>
      have hlt := hn _ hi n rfl
      have hcount : readLong (dec n) = n := by
        unfold readLong
        rw [dropSpace (dec_word n).space, readSigned_dec, clamp_id]
        · have : (0 : Int) ≤ 2 ^ (64 - 1) := by positivity
          omega
        · have : (n : Int) < 2 ^ 31 - 1 := by
            have : ((n : Nat) : Int) < ((2 ^ 31 - 1 : Nat) : Int) := by exact_mod_cast hlt
            simpa using this
          have h3 : (2 : Int) ^ 31 - 1 ≤ 2 ^ (64 - 1) := by norm_num
          omega
      simp only [List.getLast?_cons_cons, List.getLast?_singleton, List.length_cons, List.length_nil,
        List.headI_cons, if_true]
      rw [hcount, hlast, if_neg (by
        have : ((n : Nat) : Int) < ((2 ^ 31 - 1 : Nat) : Int) := by exact_mod_cast hlt
        norm_num at this ⊢
        exact this)]
      rfl

/-- The two readers disagree on malformed items: in a rate, `2*3*4` is accepted and read as the single
value 4. -/
theorem C46_malformed_counterexample :
    stringRate2Vectors "2*3*4".toList = some ([], [4]) ∧ splitSDF3List "2*3*4".toList = none := by
  decide +kernel

/-- C46.  In rates, unlike in other lists, everything after the first blank is dropped without notice, up to the next
semicolon: the text is cut at semicolons first, and only the first word of each part is kept. -/
theorem C46_blank_drops (w rest : Str) (c : Char) (hc : Blanks [c]) (hw : ∀ x ∈ w, isSpace x = false ∧ x ≠ ';')
    (hne : w ≠ []) (hr : ∀ x ∈ rest, x ≠ ';') :
    stringRate2Vectors (w ++ c :: rest) = stringRate2Vectors w := by
  have hc' : c ≠ ';' := by
    rcases hc c List.mem_cons_self with rfl | rfl | rfl | rfl <;> decide
  have h1 : split (w ++ c :: rest) ';' = [w] := by
    unfold split
    have := getlines_join (d := ';') (l := [w ++ c :: rest]) (by
      intro y hy x hx
      rw [List.mem_singleton] at hy
      subst hy
      rw [List.mem_append, List.mem_cons] at hx
      rcases hx with hx | rfl | hx
      · exact (hw x hx).2
      · exact hc'
      · exact hr x hx) (by simp)
    rw [show join ';' [w ++ c :: rest] = w ++ c :: rest from rfl] at this
    rw [this, List.map_singleton]
    congr 1
    have := readWord_blanks (a := []) (w := w) (b := c :: rest) (by intro x hx; cases hx) (fun x hx => (hw x hx).1) hne
      (Or.inr ⟨c, rest, rfl, hc⟩)
    simpa using this
  have h2 : split w ';' = [w] := split_one (fun x hx => (hw x hx).2) hne fun x hx => (hw x hx).1
  unfold stringRate2Vectors
  rw [h1, h2]

/-- The rates `1, 2, 3` are read as `1`. -/
theorem C46_blank_counterexample : stringRate2Vectors "1, 2, 3".toList = some ([], [1]) ∧
    splitSDF3List "1, 2, 3".toList = some ["1".toList, "2".toList, "3".toList] := by decide +kernel

example : writeRates [3] [1, -2, 10] = "3;1,-2,10".toList ∧
    stringRate2Vectors "3;1,-2,10".toList = some ([3], [1, -2, 10]) := by decide +kernel
example : stringRate2Vectors "2*3,1".toList = some ([], [3, 3, 1]) := by decide +kernel

/-! ### C60 -/

/-- C60.  Integer durations written to a file and read back are unchanged, for all vectors with at
least one periodic phase. -/
theorem C60_integer_durations (init per : List Int) (hp : per ≠ []) :
    readTimes (writeRates init per) = some (init, per) := by
  have hlist : ∀ l : List Int, splitSDF3List (vectorAsStr l) = some (l.map showInt) := by
    intro l
    have := C06_expand (l.map fun v => (none, showInt v))
      (by
        intro i hi
        obtain ⟨v, _, rfl⟩ := List.mem_map.1 hi
        exact showInt_word v)
      (by
        intro i hi n hn
        obtain ⟨v, _, rfl⟩ := List.mem_map.1 hi
        cases hn)
    rw [List.map_map] at this
    rw [vectorAsStr_join]
    have he : (renderItem ∘ fun v : Int => ((none : Option Nat), showInt v)) = showInt := rfl
    rw [he] at this
    rw [this, List.flatMap_map]
    rw [List.flatMap_def]
    exact congrArg some (flatten_single showInt l)
  have hread : ∀ l : List Int,
      (l.map showInt).map (fun t => readSigned (t.dropWhile isSpace)) = l := by
    intro l
    rw [List.map_map]
    conv_rhs => rw [← List.map_id l]
    exact List.map_congr_left fun v _ => readSigned_showInt v
  unfold readTimes
  rw [split_rates hp]
  by_cases hi : init = []
  · subst hi
    simp only [if_true, List.length_singleton, List.getElem?_cons_zero]
    rw [if_neg (by decide)]
    simp only [hlist, Option.map_some, hread, List.map_nil]
  · simp only [if_neg hi, List.length_cons, List.length_nil, List.headI_cons]
    have : ¬ (0 + 1 + 1 = 1) := by decide
    simp only [if_true, if_neg this, List.getElem?_cons_succ, List.getElem?_cons_zero, hlist,
      Option.map_some, hread]

example : readTimes "2;5,3*7".toList = some ([2], [5, 7, 7, 7]) := by decide +kernel

end Kiter
