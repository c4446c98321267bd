/-
C133: the comparison with SDF3.

Specification vocabulary: SDF3 prints `thr(graph) = value`, a newline, a second line with the time of the analysis, a newline
(the format quoted in SDF3Wrapper.cpp:36).
-/
import Verif.Model.Sdf3Run
import Verif.Props.Text

set_option autoImplicit false

namespace Kiter
namespace Sdf3Run

open Text

/-- A text of two lines. -/
def twoLines (a b : Str) : Str := a ++ '\n' :: (b ++ ['\n'])

theorem fgets_append (k : ℕ) (s : Str) : (fgets k s).1 ++ (fgets k s).2 = s := by
  induction k generalizing s with
  | zero => rfl
  | succ k ih =>
    cases s with
    | nil => rfl
    | cons c s =>
      unfold fgets
      split
      · rfl
      · simp [ih s]

theorem fgets_shorter (k : ℕ) {s : Str} (h : s ≠ []) : (fgets (k + 1) s).2.length < s.length := by
  induction k generalizing s with
  | zero =>
    cases s with
    | nil => exact absurd rfl h
    | cons c s => unfold fgets; split <;> simp [fgets]
  | succ k ih =>
    cases s with
    | nil => exact absurd rfl h
    | cons c s =>
      rw [fgets]
      split
      · simp
      · cases s with
        | nil => simp [fgets]
        | cons d s => have := ih (s := d :: s) (by simp); simp only [List.length_cons] at this ⊢; omega

theorem drain_eq : ∀ (f : ℕ) (s r : Str), s.length < f → (∀ c ∈ s, c ≠ Char.ofNat 0) → drain f s r = some (r ++ s) := by
  intro f
  induction f with
  | zero => intro s r h; exact absurd h (Nat.not_lt_zero _)
  | succ f ih =>
    intro s r h hc
    unfold drain
    split
    · rename_i h0; rw [h0, List.append_nil]
    · rename_i h0
      have e := fgets_append 127 s
      have h1 : ∀ c ∈ (fgets 127 s).1, c ≠ Char.ofNat 0 := fun c hx => hc c (by rw [← e]; exact List.mem_append_left _ hx)
      have h2 : ∀ c ∈ (fgets 127 s).2, c ≠ Char.ofNat 0 := fun c hx => hc c (by rw [← e]; exact List.mem_append_right _ hx)
      rw [ih _ _ (by have : (fgets 127 s).2.length < s.length := fgets_shorter 126 h0; omega) h2, takeWhile_all fun c hx => by simpa using h1 c hx, List.append_assoc, e]

theorem split_two {a b : Str} (ha : '\n' ∉ a) (hb : '\n' ∉ b) : split (twoLines a b) '\n' = [readWord a, readWord b] := by
  unfold split twoLines
  have ha : ∀ c ∈ a, c ≠ '\n' := fun c hc h => ha (h ▸ hc)
  have hb : ∀ c ∈ b, c ≠ '\n' := fun c hc h => hb (h ▸ hc)
  rw [getlines_word ha, getlines, if_pos rfl, getlines_word hb, getlines, if_pos rfl, getlines, if_pos rfl]
  simp

theorem parse_two (readT : Str → ℚ) {a b : Str} (ha : '\n' ∉ a) (hb : '\n' ∉ b) : parse readT (twoLines a b) =
    match split (readWord a) '=' with
    | [_, v] => readT v
    | _ => 0 := by
  unfold parse
  rw [split_two ha hb]
  rfl

/-- Text that is not interrupted by a zero. -/
abbrev NoZero (s : Str) : Prop := ∀ c ∈ s, c ≠ Char.ofNat 0

/-- **C133 (what is missing: blanks).** If the first of the two lines SDF3 prints is `name=value` *without blanks*, the throughput
taken is the number that `value` stands for, and the comparison says whether it is within `eps` of Kiter's. Missing for the full
statement: the blanks around `=` that SDF3 does print, see `C133_blank_counterexample`. -/
theorem _root_.Kiter.C133_no_blank_partial (readT : Str → ℚ) (eps kiter : ℚ) {name value time : Str}
    (hn : ∀ c ∈ name, isSpace c = false ∧ c ≠ '=') (hv : ∀ c ∈ value, isSpace c = false ∧ c ≠ '=') (hne : value ≠ [])
    (ht : '\n' ∉ time) (h0 : NoZero (twoLines (name ++ '=' :: value) time)) :
    compare readT eps kiter (twoLines (name ++ '=' :: value) time) = some (readT value, decide (|readT value - kiter| ≤ eps)) := by
  have hs : ∀ c ∈ name ++ '=' :: value, isSpace c = false := by
    intro c hc
    rcases List.mem_append.mp hc with hc | hc
    · exact (hn c hc).1
    · rcases List.mem_cons.mp hc with rfl | hc
      · decide
      · exact (hv c hc).1
  have hl : '\n' ∉ name ++ '=' :: value := fun h => absurd (hs _ h) (by decide)
  have hsp : split (name ++ '=' :: value) '=' = [name, value] := by
    unfold split
    rw [getlines_word (fun c hc => (hn c hc).2), getlines, if_pos rfl]
    have := getlines_word (fun c hc => (hv c hc).2) [] []
    rw [List.append_nil] at this
    rw [this, getlines, List.nil_append, List.nil_append, if_neg hne]
    simp [readWord_id fun c hc => (hn c hc).1, readWord_id fun c hc => (hv c hc).1]
  unfold compare runSDF3
  rw [drain_eq _ _ _ (Nat.lt_succ_self _) h0, List.nil_append]
  simp only [Option.map_some, Option.bind_eq_bind, Option.bind_some]
  rw [parse_two readT hl ht, readWord_id hs, hsp]
  simp only [Option.some.injEq, Prod.mk.injEq, true_and]
  rw [← decide_not]
  simp

theorem readWord_first {w r : Str} (hw : ∀ c ∈ w, isSpace c = false) (hne : w ≠ []) : readWord (w ++ ' ' :: r) = w := by
  unfold readWord
  have h1 : (w ++ ' ' :: r).dropWhile isSpace = w ++ ' ' :: r := by
    cases w with
    | nil => exact absurd rfl hne
    | cons c w =>
      rw [List.cons_append, List.dropWhile_cons_of_neg]
      rw [hw c List.mem_cons_self]; exact Bool.false_ne_true
  rw [h1, List.takeWhile_append_of_pos fun c hc => by simp [hw c hc], List.takeWhile_cons_of_neg (by decide), List.append_nil]

/-- **C133 (blanks).** With the lines SDF3 does print, `thr(graph) = value` and the time, the throughput taken is 0 whatever the value
is: lines are cut to their first word before the `=` is looked for. So the comparison does not depend on SDF3's answer: it says
whether Kiter's throughput is itself at most `eps`. -/
theorem _root_.Kiter.C133_blank_counterexample (readT : Str → ℚ) (eps kiter : ℚ) {name value time : Str}
    (hn : ∀ c ∈ name, isSpace c = false ∧ c ≠ '=') (hne : name ≠ []) (hv : '\n' ∉ value)
    (ht : '\n' ∉ time) (h0 : NoZero (twoLines (name ++ " = ".toList ++ value) time)) :
    compare readT eps kiter (twoLines (name ++ " = ".toList ++ value) time) = some (0, decide (|kiter| ≤ eps)) := by
  have e : name ++ " = ".toList ++ value = name ++ ' ' :: ('=' :: ' ' :: value) := by simp
  have hl : '\n' ∉ name ++ " = ".toList ++ value := by
    rw [e]
    intro h
    rcases List.mem_append.mp h with h | h
    · exact absurd (hn _ h).1 (by decide)
    · rcases List.mem_cons.mp h with h | h
      · exact absurd h (by decide)
      · rcases List.mem_cons.mp h with h | h
        · exact absurd h (by decide)
        · rcases List.mem_cons.mp h with h | h
          · exact absurd h (by decide)
          · exact hv h
  have hsp : split name '=' = [name] := by
    unfold split
    have := getlines_word (fun c hc => (hn c hc).2) [] []
    rw [List.append_nil] at this
    rw [this, getlines, List.nil_append, if_neg hne]
    simp [readWord_id fun c hc => (hn c hc).1]
  unfold compare runSDF3
  rw [drain_eq _ _ _ (Nat.lt_succ_self _) h0, List.nil_append]
  simp only [Option.map_some, Option.bind_eq_bind, Option.bind_some]
  rw [parse_two readT hl ht, e, readWord_first (fun c hc => (hn c hc).1) hne, hsp]
  simp only [Option.some.injEq, Prod.mk.injEq, true_and, zero_sub, abs_neg]
  rw [← decide_not]
  simp

/-- **C133 (other texts).** The comparison is always defined, and an output that is not two lines (no output, an error message,
a warning before the answer) is taken for the throughput 0. -/
theorem _root_.Kiter.C133_other_lines (readT : Str → ℚ) (eps kiter : ℚ) {out : Str} (h0 : NoZero out)
    (h : (split out '\n').length ≠ 2) : compare readT eps kiter out = some (0, decide (|kiter| ≤ eps)) := by
  have hp : parse readT out = 0 := by
    unfold parse
    split
    · rename_i heq; rw [heq] at h; exact absurd rfl h
    · rfl
  unfold compare runSDF3
  rw [drain_eq _ _ _ (Nat.lt_succ_self _) h0, List.nil_append]
  simp only [Option.map_some, Option.bind_eq_bind, Option.bind_some, hp, Option.some.injEq, Prod.mk.injEq, true_and, zero_sub, abs_neg]
  rw [← decide_not]
  simp

/-! ### Concrete cases -/

/-- A reader of whole numbers. -/
def whole (s : Str) : ℚ := (readSigned s : ℚ)

example : compare whole (1 / 1000) 3 (twoLines ("thr(autogen)".toList ++ '=' :: "3".toList) "analysis time: 0ms".toList) =
    some (3, true) := by
  rw [C133_no_blank_partial] <;> decide +kernel

/-- SDF3 and Kiter agree, and the command says that they do not. -/
example : compare whole (1 / 1000) 3 (twoLines ("thr(autogen)".toList ++ " = ".toList ++ "3".toList) "analysis time: 0ms".toList) =
    some (0, false) := by
  rw [C133_blank_counterexample] <;> decide +kernel

/-- SDF3 and Kiter do not agree, and the command says that they do. -/
example : compare whole (1 / 1000) 0 (twoLines ("thr(autogen)".toList ++ " = ".toList ++ "3".toList) "analysis time: 0ms".toList) =
    some (0, true) := by
  rw [C133_blank_counterexample] <;> decide +kernel

example : compare whole (1 / 1000) 3 "warning\nthr(autogen)=3\nanalysis time: 0ms\n".toList = some (0, false) := by
  rw [C133_other_lines] <;> decide +kernel

end Sdf3Run
end Kiter
