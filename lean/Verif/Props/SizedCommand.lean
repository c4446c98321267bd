/-
Property C125: the analysis of a graph with the channel sizes given on the command line.
-/
import Verif.Model.SizedCommand
import Verif.Props.SymbolicExploration
import Verif.Props.Text

set_option autoImplicit false

namespace Kiter.SizedCmd
open Kiter.Sim Kiter.Text

variable {nV nE : Nat}

/-- Specification: the value fits in a `long`. -/
def Fits (v : Int) : Prop := -(2 ^ 63) ≤ v ∧ v < 2 ^ 63

/-- Specification: a size as a user may write it: blanks, the number, and text that does not go on with a digit. -/
structure Entry where
  blanks : Str
  value : Int
  rest : Str

/-- Specification: the text of an entry. -/
def Entry.text (e : Entry) : Str := e.blanks ++ showInt e.value ++ e.rest

/-- Specification: the entry is a number, alone but for blanks before it, that fits. -/
def Entry.Plain (e : Entry) : Prop := (∀ c ∈ e.blanks, isSpace c = true) ∧ e.rest = [] ∧ Fits e.value

/-- Specification: the entry begins with a number that fits. -/
structure Entry.Leading (e : Entry) : Prop where
  blanks : ∀ c ∈ e.blanks, isSpace c = true
  rest : ∀ c ∈ e.rest.head?, isDigit c = false
  comma : ∀ c ∈ e.rest, c ≠ ','

/-- Specification: the text does not begin with a number: blanks, possibly a sign, and then something that is not a
digit, or nothing. -/
def NoNumber (s : Str) : Prop :=
  ∃ blanks sign rest, s = blanks ++ sign ++ rest ∧ (∀ c ∈ blanks, isSpace c = true) ∧
    (sign = ['-'] ∨ sign = ['+'] ∨ sign = [] ∧ ∀ c ∈ rest.head?, isSpace c = false ∧ c ≠ '-' ∧ c ≠ '+') ∧
    ∀ c ∈ rest.head?, isDigit c = false

theorem takeWhile_append_stop {p : Char → Bool} {s t : Str} (hs : ∀ c ∈ s, p c = true) (ht : ∀ c ∈ t.head?, p c = false) :
    (s ++ t).takeWhile p = s := by
  induction s with
  | nil =>
    cases t with
    | nil => rfl
    | cons c t =>
      have : p c = false := ht c (by simp)
      simp [this]
  | cons c s ih =>
    rw [List.cons_append, List.takeWhile_cons_of_pos (hs c List.mem_cons_self),
      ih fun x hx => hs x (List.mem_cons_of_mem _ hx)]

theorem dropWhile_blanks {b t : Str} (hb : ∀ c ∈ b, isSpace c = true) (ht : ∀ c ∈ t.head?, isSpace c = false) :
    (b ++ t).dropWhile isSpace = t := by
  induction b with
  | nil =>
    cases t with
    | nil => rfl
    | cons c t =>
      have : isSpace c = false := ht c (by simp)
      simp [this]
  | cons c b ih =>
    rw [List.cons_append, List.dropWhile_cons_of_pos (hb c List.mem_cons_self)]
    exact ih fun x hx => hb x (List.mem_cons_of_mem _ hx)

theorem dec_digits (n : Nat) : ∀ c ∈ dec n, isDigit c = true := by
  intro c hc
  obtain ⟨d, hd, rfl⟩ := dec_mem hc
  exact (digit_facts d hd).1

theorem readNat_dec_append (n : Nat) {r : Str} (hr : ∀ c ∈ r.head?, isDigit c = false) : readNat (dec n ++ r) = n := by
  have h := readNat_dec n
  unfold readNat at h ⊢
  rw [takeWhile_append_stop (dec_digits n) hr]
  rwa [takeWhile_all (dec_digits n)] at h

theorem dec_cons (n : Nat) : ∃ c s, dec n = c :: s ∧ c ≠ '-' ∧ c ≠ '+' := by
  obtain ⟨c, s, h⟩ := List.exists_cons_of_ne_nil (dec_ne n)
  obtain ⟨d, hd, e⟩ := dec_mem (n := n) (c := c) (by rw [h]; simp)
  have := digit_facts d hd
  rw [← e] at this
  exact ⟨c, s, h, this.2.2.2.2.2.2.1, this.2.2.2.2.2.2.2⟩

/-- A leading number is read, whatever follows it. -/
theorem stol_entry {e : Entry} (he : e.Leading) :
    stol e.text = if e.value < -(2 ^ 63) ∨ 2 ^ 63 ≤ e.value then .range else .value e.value := by
  have hdrop : e.text.dropWhile isSpace = showInt e.value ++ e.rest := by
    unfold Entry.text
    rw [List.append_assoc]
    refine dropWhile_blanks he.blanks ?_
    obtain ⟨c, s, h⟩ := List.exists_cons_of_ne_nil (showInt_word e.value).ne
    rw [h]
    intro x hx
    have hx' : c = x := by simpa using hx
    rw [← hx']
    exact (showInt_word e.value).space c (by rw [h]; simp)
  have hread : readSigned (showInt e.value ++ e.rest) = e.value ∧
      ((unsigned (showInt e.value ++ e.rest)).takeWhile isDigit) ≠ [] := by
    unfold showInt
    split
    · rename_i hneg
      rw [List.cons_append, readSigned, if_pos rfl, readNat_dec_append _ he.rest, unsigned, if_pos (Or.inl rfl),
        takeWhile_append_stop (dec_digits _) he.rest]
      exact ⟨by omega, dec_ne _⟩
    · rename_i hpos
      obtain ⟨c, s, h, h1, h2⟩ := dec_cons e.value.natAbs
      have hr := readNat_dec_append e.value.natAbs he.rest
      have ht := takeWhile_append_stop (dec_digits e.value.natAbs) he.rest
      have hne := dec_ne e.value.natAbs
      rw [h] at hr ht hne ⊢
      rw [List.cons_append] at hr ht ⊢
      rw [readSigned, if_neg h1, if_neg h2, hr, unsigned, if_neg (by simp [h1, h2]), ht]
      exact ⟨by omega, hne⟩
  unfold stol
  simp only [hdrop]
  rw [if_neg hread.2, hread.1]

/-- Without a number `std::stol` throws. -/
theorem stol_noNumber {s : Str} (h : NoNumber s) : stol s = .invalid := by
  obtain ⟨b, sg, r, rfl, hb, hs, hr⟩ := h
  have hstop : r.takeWhile isDigit = [] := takeWhile_append_stop (s := []) (by simp) hr
  have hd : (b ++ sg ++ r).dropWhile isSpace = sg ++ r := by
    rw [List.append_assoc]
    apply dropWhile_blanks hb
    rcases hs with rfl | rfl | ⟨rfl, h⟩
    · intro c hc
      have : '-' = c := by simpa using hc
      rw [← this]; decide
    · intro c hc
      have : '+' = c := by simpa using hc
      rw [← this]; decide
    · intro c hc; exact (h c hc).1
  unfold stol
  simp only [hd]
  rw [if_pos]
  rcases hs with rfl | rfl | ⟨rfl, h⟩
  · simpa [unsigned] using hstop
  · simpa [unsigned] using hstop
  · cases r with
    | nil => rfl
    | cons c r =>
      have := h c (by simp)
      rw [List.nil_append, unsigned, if_neg (by simp [this.2.1, this.2.2])]
      exact hstop

theorem readCaps_values {l : List Entry} (h : ∀ e ∈ l, e.Leading ∧ Fits e.value) (acc : List Int) (more : List Str) :
    readCaps (l.map Entry.text ++ more) acc = readCaps more (acc ++ l.map Entry.value) := by
  induction l generalizing acc with
  | nil => simp
  | cons e l ih =>
    obtain ⟨h1, h2, h3⟩ := h e List.mem_cons_self
    rw [List.map_cons, List.cons_append, readCaps, stol_entry h1, if_neg (by omega)]
    dsimp only
    rw [ih fun x hx => h x (List.mem_cons_of_mem _ hx)]
    simp

theorem entry_text {e : Entry} (h : e.Leading) : (∀ c ∈ e.text, c ≠ ',') ∧ e.text ≠ [] := by
  unfold Entry.text
  constructor
  · intro c hc
    rcases List.mem_append.mp hc with hc | hc
    · rcases List.mem_append.mp hc with hc | hc
      · intro e'
        have := h.blanks c hc
        rw [e'] at this
        exact absurd this (by decide)
      · exact ((showInt_word e.value).sep c hc).1
    · exact h.comma c hc
  · have := (showInt_word e.value).ne
    simp [this]

theorem plain_leading {e : Entry} (h : e.Plain) : e.Leading := by
  obtain ⟨h1, h2, -⟩ := h
  exact ⟨h1, by rw [h2]; simp, by rw [h2]; simp⟩

theorem read_text {l : List Entry} (h : ∀ e ∈ l, e.Leading ∧ Fits e.value) :
    readCaps (getlines ',' (join ',' (l.map Entry.text)) []) [] = .caps (l.map Entry.value) := by
  rw [getlines_join]
  · have := readCaps_values h [] []
    simpa [readCaps] using this
  · intro w hw c hc
    obtain ⟨e, he, rfl⟩ := List.mem_map.mp hw
    exact (entry_text (h e he).1).1 c hc
  · intro w hw
    obtain ⟨e, he, rfl⟩ := List.mem_map.mp hw
    exact (entry_text (h e he).1).2

variable {g : Graph nV nE} {N : Fin nV → Int} {vid : Fin nV → Int} {eid : Fin nE → Int}

/-- **C125** On every covered graph whose channels have the ids `1, ..., nE`, given the sizes as numbers separated by
commas, one per channel and none below the initial tokens of its channel, with `SYMB_EXEC_CORRECTED` the command ends
and prints the best throughput that any schedule reaches with these sizes (the `i`-th number for the channel of id `i`),
and channels such that no sizes equal to the given ones on them allow a better throughput. -/
theorem _root_.Kiter.C125_given_sizes (hx : Explorable g N) (hv : Function.Injective vid)
    (hids : ∀ e, 1 ≤ eid e ∧ eid e ≤ nE) {l : List Entry} (hl : ∀ x ∈ l, x.Plain) (hlen : l.length = nE)
    {w : Fin nE → Int} (hw : ∀ e i, eid e = (i : ℕ) + 1 → (l.map Entry.value)[i]? = some (w e))
    (hq : ∀ e, g.preload e ≤ w e) :
    (∃ n k out, command g vid eid true n k (some (join ',' (l.map Entry.text))) = some out) ∧
    ∀ n k out, command g vid eid true n k (some (join ',' (l.map Entry.text))) = some out →
      ∃ thr critical, out = .printed thr critical ∧ Sim.HasThroughput g N w thr ∧
        ∀ w' thr', (∀ e, eid e ∈ critical → w' e = w e) → Sim.HasThroughput g N w' thr' → thr' ≤ thr := by
  have hcap : capOf eid (l.map Entry.value) = w := by
    funext e
    obtain ⟨h1, h2⟩ := hids e
    unfold capOf
    rw [if_pos h1, hw e (eid e - 1).toNat (by omega)]
    rfl
  have hc : ∀ n k, command g vid eid true n k (some (join ',' (l.map Entry.text))) =
      (analyseSized g vid true n k w).map fun r => .printed r.1 (r.2.map eid) := by
    intro n k
    unfold command
    dsimp only
    rw [read_text fun x hx => ⟨plain_leading (hl x hx), (hl x hx).2.2⟩]
    dsimp only
    rw [if_neg (by rw [List.length_map]; exact fun h => h hlen), hcap]
  constructor
  · obtain ⟨n, k, r, hr⟩ := C87_returns hx hv hq
    exact ⟨n, k, _, by rw [hc, hr]; rfl⟩
  · intro n k out ho
    rw [hc, Option.map_eq_some_iff] at ho
    obtain ⟨r, hr, rfl⟩ := ho
    obtain ⟨h1, h2⟩ := hx.analysed hv hq hr
    refine ⟨r.1, r.2.map eid, rfl, h1, ?_⟩
    intro w' thr' hw' ht'
    exact h2 w' thr' (fun e he => hw' e (List.mem_map_of_mem he)) ht'

/-- **C125** Without sizes, with a number of sizes that is not the number of channels, or with an entry that does not
begin with a number (after entries that do), the command refuses with the corresponding message and analyses nothing. -/
theorem _root_.Kiter.C125_refusals (g : Graph nV nE) (vid : Fin nV → Int) (eid : Fin nE → Int) (corrected : Bool)
    (n k : ℕ) {l : List Entry} (hl : ∀ x ∈ l, x.Plain) :
    command g vid eid corrected n k none = some .missing ∧
    (l.length ≠ nE → command g vid eid corrected n k (some (join ',' (l.map Entry.text))) = some .mismatch) ∧
    ∀ (bad : Str) (more : List Str), NoNumber bad → (∀ s ∈ bad :: more, s ≠ [] ∧ ∀ c ∈ s, c ≠ ',') →
      command g vid eid corrected n k (some (join ',' (l.map Entry.text ++ bad :: more))) = some .invalid := by
  have hl' : ∀ x ∈ l, x.Leading ∧ Fits x.value := fun x hx => ⟨plain_leading (hl x hx), (hl x hx).2.2⟩
  refine ⟨rfl, ?_, ?_⟩
  · intro h
    unfold command
    dsimp only
    rw [read_text hl']
    dsimp only
    rw [if_pos (by rw [List.length_map]; exact h)]
  · intro bad more hbad hmore
    unfold command
    dsimp only
    rw [getlines_join, readCaps_values hl']
    · rw [readCaps, stol_noNumber hbad]
    · intro w hw c hc
      rcases List.mem_append.mp hw with hw | hw
      · obtain ⟨e, he, rfl⟩ := List.mem_map.mp hw
        exact (entry_text (hl' e he).1).1 c hc
      · exact (hmore w hw).2 c hc
    · intro w hw
      rcases List.mem_append.mp hw with hw | hw
      · obtain ⟨e, he, rfl⟩ := List.mem_map.mp hw
        exact (entry_text (hl' e he).1).2
      · exact (hmore w hw).1

/-- **C125, what follows a number** An entry that begins with a number is taken for that number, whatever follows it: for
every graph, sizes followed by any text without a comma that does not begin with a digit are analysed as the sizes alone. -/
theorem _root_.Kiter.C125_garbage_counterexample (g : Graph nV nE) (vid : Fin nV → Int) (eid : Fin nE → Int)
    (corrected : Bool) (n k : ℕ) {l : List Entry} (hl : ∀ x ∈ l, x.Leading ∧ Fits x.value) :
    command g vid eid corrected n k (some (join ',' (l.map Entry.text))) =
      command g vid eid corrected n k (some (join ',' (l.map fun x => showInt x.value))) := by
  have h2 := read_text (l := l.map fun x => (⟨[], x.value, []⟩ : Entry)) (by
    intro x hx
    obtain ⟨y, hy, rfl⟩ := List.mem_map.mp hx
    exact ⟨⟨by simp, by simp, by simp⟩, (hl y hy).2⟩)
  have e1 : ((l.map fun x => (⟨[], x.value, []⟩ : Entry)).map Entry.text) = l.map fun x => showInt x.value := by
    rw [List.map_map]
    apply List.map_congr_left
    intro x _
    simp [Entry.text]
  have e2 : ((l.map fun x => (⟨[], x.value, []⟩ : Entry)).map Entry.value) = l.map Entry.value := by
    rw [List.map_map]; rfl
  rw [e1, e2] at h2
  unfold command
  dsimp only
  rw [read_text hl, h2]

/-- **C125, a number that does not fit** makes the program end with an exception that nobody catches. -/
theorem _root_.Kiter.C125_overflow_counterexample (g : Graph nV nE) (vid : Fin nV → Int) (eid : Fin nE → Int)
    (corrected : Bool) (n k : ℕ) {l : List Entry} (hl : ∀ x ∈ l, x.Plain) {v : Int} (hv : ¬ Fits v) :
    command g vid eid corrected n k (some (join ',' (l.map Entry.text ++ [showInt v]))) = none := by
  have hl' : ∀ x ∈ l, x.Leading ∧ Fits x.value := fun x hx => ⟨plain_leading (hl x hx), (hl x hx).2.2⟩
  have hlead : (⟨[], v, []⟩ : Entry).Leading := ⟨by simp, by simp, by simp⟩
  have ht : (⟨[], v, []⟩ : Entry).text = showInt v := by simp [Entry.text]
  have hs := stol_entry hlead
  rw [ht, if_pos (by unfold Fits at hv; dsimp only; omega)] at hs
  unfold command
  dsimp only
  rw [getlines_join, readCaps_values hl']
  · rw [readCaps, hs]
  · intro w hw c hc
    rcases List.mem_append.mp hw with hw | hw
    · obtain ⟨e, he, rfl⟩ := List.mem_map.mp hw
      exact (entry_text (hl' e he).1).1 c hc
    · have : w = showInt v := by simpa using hw
      rw [this] at hc
      exact ((showInt_word v).sep c hc).1
  · intro w hw
    rcases List.mem_append.mp hw with hw | hw
    · obtain ⟨e, he, rfl⟩ := List.mem_map.mp hw
      exact (entry_text (hl' e he).1).2
    · have : w = showInt v := by simpa using hw
      rw [this]
      exact (showInt_word v).ne

/-- **C125, other ids** A channel whose id is larger than the number of channels gets the size 0, and the number given for
it is not used. -/
theorem _root_.Kiter.C125_ids_counterexample (eid : Fin nE → Int) {l : List Int} (hlen : l.length = nE) {e : Fin nE}
    (he : (nE : Int) < eid e) : capOf eid l e = 0 := by
  unfold capOf
  split
  · rw [List.getElem?_eq_none (by omega)]; rfl
  · rfl

/-- The graph of the examples of C87, three tasks and three channels. -/
def exCommand (eid : Fin 3 → Int) (s : String) : Option Out :=
  command exFront (fun a => (a : Int)) eid true 200 200 (some s.toList)

/-- Given in the order of the ids the sizes 2, 2, 3 allow the throughput 1/5; the same numbers for channels with the ids
2, 3, 4 are announced to deadlock. -/
theorem _root_.Kiter.C125_ids_counterexample_command :
    exCommand ![1, 2, 3] "2,2,3" = some (.printed (1 / 5) [1, 3]) ∧
    exCommand ![2, 3, 4] "2,2,3" = some (.printed 0 [4]) := by
  constructor <;> decide +kernel

/-- The hypotheses of C125 are met: the sizes 2, 2, 3 in the order of the ids, for channels with the ids 3, 2, 1. -/
def exEntries : List Entry := [⟨[], 3, []⟩, ⟨[' '], 2, []⟩, ⟨[], 2, []⟩]

theorem exEntries_plain : ∀ x ∈ exEntries, x.Plain := by
  intro x hx
  simp only [exEntries, List.mem_cons, List.not_mem_nil, or_false] at hx
  rcases hx with rfl | rfl | rfl <;> exact ⟨by decide, rfl, by unfold Fits; decide⟩

example : Explorable exFront ![2, 2, 1] ∧ Function.Injective (fun a : Fin 3 => (a : Int)) ∧
    (∀ e, 1 ≤ (![3, 2, 1] : Fin 3 → Int) e ∧ (![3, 2, 1] : Fin 3 → Int) e ≤ 3) ∧ exEntries.length = 3 ∧
    (∀ e (i : ℕ), (![3, 2, 1] : Fin 3 → Int) e = (i : ℕ) + 1 →
      (exEntries.map Entry.value)[i]? = some ((![2, 2, 3] : Fin 3 → Int) e)) ∧
    (∀ e, exFront.preload e ≤ (![2, 2, 3] : Fin 3 → Int) e) ∧
    join ',' (exEntries.map Entry.text) = "3, 2,2".toList ∧
    exCommand ![3, 2, 1] "3, 2,2" = some (.printed (1 / 5) [3, 1]) := by
  refine ⟨exFront_explorable, ?_, by decide, rfl, ?_, by decide, by decide, by decide +kernel⟩
  · intro a b h
    exact Fin.ext (by simpa using h)
  · intro e i h
    match e with
    | 0 => obtain rfl : i = 2 := by have h' : (3 : Int) = i + 1 := by exact h
                                    omega
           rfl
    | 1 => obtain rfl : i = 1 := by have h' : (2 : Int) = i + 1 := by exact h
                                    omega
           rfl
    | 2 => obtain rfl : i = 0 := by have h' : (1 : Int) = i + 1 := by exact h
                                    omega
           rfl

example : exCommand ![1, 2, 3] "2,2," = some .mismatch ∧ exCommand ![1, 2, 3] "2,,3" = some .invalid ∧
    NoNumber "x".toList ∧ exCommand ![1, 2, 3] " 2,+2x,3.7" = exCommand ![1, 2, 3] "2,2,3" ∧
    exCommand ![1, 2, 3] "2,2,99999999999999999999" = none ∧ ¬ Fits 99999999999999999999 := by
  refine ⟨by decide +kernel, by decide +kernel, ⟨[], [], "x".toList, rfl, by simp, ?_, ?_⟩, by decide +kernel,
    by decide +kernel, by unfold Fits; decide⟩
  · exact Or.inr (Or.inr ⟨rfl, by decide⟩)
  · decide

end Kiter.SizedCmd
