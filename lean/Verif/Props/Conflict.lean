/-
C115: the search for conflicting transfers.
-/
import Verif.Model.Conflict
import Verif.Spec.Conflict
import Verif.Props.Expansion

set_option autoImplicit false

namespace Kiter

open SNoC

/-- **C115** The extended Euclid algorithm of the command ends, and returns the greatest common divisor with two
coefficients of Bezout. -/
theorem C115_gcd (fuel x y : ℕ) (hf : x < fuel) :
    ∃ a b : Int, gcdExtended fuel x y = some (Nat.gcd x y, a, b) ∧ a * x + b * y = Nat.gcd x y := by
  induction fuel generalizing x y with
  | zero => omega
  | succ n ih =>
    unfold gcdExtended
    by_cases hx : x = 0
    · subst hx
      exact ⟨0, 1, by simp, by simp⟩
    · rw [if_neg hx]
      have hlt : y % x < x := Nat.mod_lt _ (by omega)
      obtain ⟨a, b, h1, h2⟩ := ih (y % x) x (by omega)
      refine ⟨b - ((y / x : ℕ) : Int) * a, a, ?_, ?_⟩
      · rw [h1, Nat.gcd_rec x y]
        rfl
      · rw [Nat.gcd_rec x y, ← h2]
        have := Nat.mod_add_div y x
        have : ((y % x : ℕ) : Int) + x * ((y / x : ℕ) : Int) = y := by exact_mod_cast this
        rw [← this]
        ring

namespace SNoC

theorem trunc_int {q : ℚ} {z : Int} (h : q = z) : trunc q = z := by
  subst h
  unfold trunc
  simp

/-- Two activities meet exactly when the product is a multiple. -/
theorem together_iff {HP ni nj z : Int} (hHP : 0 < HP) (hi : 0 < ni) (hj : 0 < nj) {si sj : ℚ} (hz : si - sj = z) :
    StartTogether si (HP / ni) sj (HP / nj) ↔ HP * Int.gcd ni nj ∣ z * ni * nj := by
  have hiq : (ni : ℚ) ≠ 0 := by exact_mod_cast hi.ne'
  have hjq : (nj : ℚ) ≠ 0 := by exact_mod_cast hj.ne'
  have key : ∀ a b : ℕ, si + a * ((HP : ℚ) / ni) = sj + b * ((HP : ℚ) / nj) ↔ z * ni * nj = HP * (b * ni - a * nj) := by
    intro a b
    have : (si + a * ((HP : ℚ) / ni) = sj + b * ((HP : ℚ) / nj)) ↔ (si - sj) * ni * nj = HP * (b * ni - a * nj) := by
      constructor
      · intro h
        have e : si - sj = b * ((HP : ℚ) / nj) - a * ((HP : ℚ) / ni) := by linarith
        rw [e]
        field_simp
      · intro h
        have e : (si - sj) = HP * (b * ni - a * nj) / (ni * nj) := by
          rw [eq_div_iff (mul_ne_zero hiq hjq), ← h]
          ring
        have e2 : (HP : ℚ) * (b * ni - a * nj) / (ni * nj) = b * ((HP : ℚ) / nj) - a * ((HP : ℚ) / ni) := by
          field_simp
        linarith
    rw [this, hz]
    exact_mod_cast Iff.rfl
  constructor
  · rintro ⟨a, b, h⟩
    rw [(key a b).1 h]
    refine mul_dvd_mul_left _ (dvd_sub ?_ ?_)
    · exact Dvd.dvd.mul_left (Int.gcd_dvd_left _ _) _
    · exact Dvd.dvd.mul_left (Int.gcd_dvd_right _ _) _
  · rintro ⟨k, hk⟩
    obtain ⟨b, a, e⟩ := Expand.multiples hi hj k
    refine ⟨a, b, (key a b).2 ?_⟩
    rw [hk, e]
    ring

end SNoC

/-- **C115** When the dates are whole, the test answers, and it answers yes exactly when the two activities start
together at some date: `ni` and `nj` executions per period `HP`, the first ones at `si` and `sj`. Missing: other dates, where the test is wrong both ways
(`C115_missed`, `C115_false_alarm`). -/
theorem C115_conflict_partial {HP ni nj : Int} (hHP : 0 < HP) (hi : 0 < ni) (hj : 0 < nj) {si sj : ℚ} (hs : WholeTime (si - sj)) :
    ∃ b, isConflictPresent HP si ni sj nj = some b ∧ (b = true ↔ StartTogether si (HP / ni) sj (HP / nj)) := by
  obtain ⟨z, hz⟩ := hs
  obtain ⟨a, b, hg, -⟩ := C115_gcd (ni.natAbs + 1) ni.natAbs nj.natAbs (Nat.lt_succ_self _)
  rw [together_iff hHP hi hj hz]
  unfold isConflictPresent
  rw [hg, Option.bind_some]
  simp only
  have hG : 0 < HP * (Nat.gcd ni.natAbs nj.natAbs : Int) := by
    have : 0 < Nat.gcd ni.natAbs nj.natAbs := Nat.gcd_pos_of_pos_left _ (by omega)
    exact mul_pos hHP (by exact_mod_cast this)
  by_cases hss : si = sj
  · rw [if_pos hss]
    refine ⟨true, rfl, ?_⟩
    have : z = 0 := by
      rw [hss, sub_self] at hz
      exact_mod_cast hz.symm
    simp [this]
  · rw [if_neg hss, if_neg hG.ne', trunc_int hz]
    have : ((z * ni * nj).natAbs : Int).tmod (HP * (Nat.gcd ni.natAbs nj.natAbs : Int)) = 0 ↔
        HP * (Int.gcd ni nj : Int) ∣ z * ni * nj := by
      rw [← Int.dvd_iff_tmod_eq_zero, Int.dvd_natAbs]
      rfl
    by_cases hd : ((z * ni * nj).natAbs : Int).tmod (HP * (Nat.gcd ni.natAbs nj.natAbs : Int)) = 0
    · rw [if_neg (not_not.2 hd)]
      exact ⟨true, rfl, by simpa using this.1 hd⟩
    · rw [if_pos hd]
      exact ⟨false, rfl, by simpa using fun h => hd (this.2 h)⟩

namespace SNoC

theorem search_none {α β : Type} {f : α → Option (Option β)} : ∀ {l : List α}, search f l = some none →
    ∀ x ∈ l, f x = some none := by
  intro l
  induction l with
  | nil => intro _ x hx; cases hx
  | cons y l ih =>
    intro h x hx
    unfold search at h
    cases hy : f y with
    | none => rw [hy] at h; cases h
    | some r =>
      cases r with
      | some b => rw [hy] at h; cases h
      | none =>
        rw [hy] at h
        rcases List.mem_cons.1 hx with rfl | hx
        · exact hy
        · exact ih h x hx

theorem search_some {α β : Type} {f : α → Option (Option β)} {b : β} : ∀ {l : List α}, search f l = some (some b) →
    ∃ x ∈ l, f x = some (some b) := by
  intro l
  induction l with
  | nil => intro h; cases h
  | cons y l ih =>
    intro h
    unfold search at h
    cases hy : f y with
    | none => rw [hy] at h; cases h
    | some r =>
      cases r with
      | some b' =>
        rw [hy] at h
        cases h
        exact ⟨y, List.mem_cons_self, hy⟩
      | none =>
        rw [hy] at h
        obtain ⟨x, hx, e⟩ := ih h
        exact ⟨x, List.mem_cons_of_mem _ hx, e⟩

theorem search_defined {α β : Type} {f : α → Option (Option β)} : ∀ {l : List α}, (∀ x ∈ l, f x ≠ none) → search f l ≠ none := by
  intro l
  induction l with
  | nil => intro _ h; cases h
  | cons y l ih =>
    intro hd h
    unfold search at h
    cases hy : f y with
    | none => exact hd y List.mem_cons_self hy
    | some r =>
      cases r with
      | some b => rw [hy] at h; cases h
      | none =>
        rw [hy] at h
        exact ih (fun x hx => hd x (List.mem_cons_of_mem _ hx)) h

/-- The numbers the search reads: a whole positive period, whole start dates, positive repetition numbers. -/
structure WholeNet (N : Net) (HP : ℚ) (links : List (List ℕ)) : Prop where
  period : WholeTime HP ∧ 0 < HP
  ni : ∀ l ∈ links, ∀ t ∈ l, 0 < N.ni t
  starts : ∀ l ∈ links, ∀ t ∈ l, ∀ s ∈ N.starts t, WholeTime s

theorem startsCheck_cases {N : Net} {HP : ℚ} {links : List (List ℕ)} (h : WholeNet N HP links) {l : List ℕ} (hl : l ∈ links)
    {ti tj : ℕ} (hi : ti ∈ l) (hj : tj ∈ l) {si sj : ℚ} (hsi : si ∈ N.starts ti) (hsj : sj ∈ N.starts tj) :
    (¬StartTogether si (HP / N.ni ti) sj (HP / N.ni tj) ∧ startsCheck N HP ti tj si sj = some none) ∨
    (StartTogether si (HP / N.ni ti) sj (HP / N.ni tj) ∧ startsCheck N HP ti tj si sj =
      (N.prev ti).bind fun p => (N.prev tj).bind fun q => if q = p then some none else some (some [ti, tj])) := by
  obtain ⟨⟨z, hz⟩, hpos⟩ := h.period
  have hzp : 0 < z := by rw [hz] at hpos; exact_mod_cast hpos
  obtain ⟨x, hx⟩ := h.starts l hl ti hi si hsi
  obtain ⟨y, hy⟩ := h.starts l hl tj hj sj hsj
  obtain ⟨b, hb, hiff⟩ := C115_conflict_partial hzp (h.ni l hl ti hi) (h.ni l hl tj hj) (si := si) (sj := sj)
    ⟨x - y, by rw [hx, hy]; push_cast; ring⟩
  unfold startsCheck
  rw [trunc_int hz, hb, Option.bind_some, hz]
  cases b with
  | true => exact Or.inr ⟨hiff.1 rfl, by simp⟩
  | false => exact Or.inl ⟨fun hh => by simpa using hiff.2 hh, by simp⟩

end SNoC

namespace SNoC

theorem pairCheck_none {N : Net} {HP : ℚ} {l : List ℕ} {i j ti tj : ℕ} (hij : j < i) (hi : l[i]? = some ti)
    (hj : l[j]? = some tj) (h : pairCheck N HP l i j = some none) :
    ∀ si ∈ N.starts ti, ∀ sj ∈ N.starts tj, startsCheck N HP ti tj si sj = some none := by
  unfold pairCheck at h
  rw [if_neg (by omega), hi, hj] at h
  intro si hsi sj hsj
  exact search_none (search_none h si hsi) sj hsj

/-- A found conflict comes from two tasks of a link. -/
theorem check_some {N : Net} {HP : ℚ} {links : List (List ℕ)} {r : List ℕ}
    (h : search (fun l => if l.length ≤ 1 then some none else
      search (fun i => search (fun j => pairCheck N HP l i j) (List.range l.length)) (List.range l.length)) links =
      some (some r)) :
    ∃ l ∈ links, ∃ i j ti tj : ℕ, j < i ∧ l[i]? = some ti ∧ l[j]? = some tj ∧ ∃ si ∈ N.starts ti, ∃ sj ∈ N.starts tj,
      startsCheck N HP ti tj si sj = some (some r) := by
  obtain ⟨l, hl, h⟩ := search_some h
  refine ⟨l, hl, ?_⟩
  split at h
  · cases h
  · obtain ⟨i, -, h⟩ := search_some h
    obtain ⟨j, -, h⟩ := search_some h
    unfold pairCheck at h
    split at h
    · cases h
    · rename_i hij
      split at h
      · rename_i ti tj hi hj
        obtain ⟨si, hsi, h⟩ := search_some h
        obtain ⟨sj, hsj, h⟩ := search_some h
        exact ⟨i, j, ti, tj, by omega, hi, hj, si, hsi, sj, hsj, h⟩
      · cases h

theorem startsCheck_list {N : Net} {HP : ℚ} {ti tj : ℕ} {si sj : ℚ} {r : List ℕ}
    (h : startsCheck N HP ti tj si sj = some (some r)) :
    r = [ti, tj] ∧ ∃ p q, N.prev ti = some p ∧ N.prev tj = some q ∧ q ≠ p := by
  unfold startsCheck at h
  obtain ⟨c, -, h⟩ := Option.bind_eq_some_iff.1 h
  split at h
  · obtain ⟨p, hp, h⟩ := Option.bind_eq_some_iff.1 h
    obtain ⟨q, hq, h⟩ := Option.bind_eq_some_iff.1 h
    split at h
    · cases h
    · cases h
      exact ⟨rfl, p, q, hp, hq, by assumption⟩
  · cases h

theorem together_multiples {s P s' P' : ℚ} {m m' : ℕ} (h : StartTogether s (m * P) s' (m' * P')) : StartTogether s P s' P' := by
  obtain ⟨a, b, e⟩ := h
  refine ⟨a * m, b * m', ?_⟩
  push_cast
  linarith

end SNoC

/-- **C115** When nothing is returned, two tasks that share a link and do not come from the same task never start
together, whatever the number of executions (`m`, `m'`) after which each schedule repeats its starts. Missing: dates or a period
that are not whole (`C115_missed`, `C115_division_by_zero`). -/
theorem C115_free_partial {N : Net} {HP : ℚ} {links : List (List ℕ)} (h : WholeNet N HP links)
    (hc : checkForConflicts N HP links = some []) {l : List ℕ} (hl : l ∈ links) {i j ti tj : ℕ} (hij : i ≠ j)
    (hi : l[i]? = some ti) (hj : l[j]? = some tj) (hp : ¬∃ p, N.prev ti = some p ∧ N.prev tj = some p) {si sj : ℚ}
    (hsi : si ∈ N.starts ti) (hsj : sj ∈ N.starts tj) (m m' : ℕ) :
    ¬StartTogether si (m * (HP / N.ni ti)) sj (m' * (HP / N.ni tj)) := by
  intro ht
  have ht := together_multiples ht
  have hnone : search (fun l => if l.length ≤ 1 then some none else
      search (fun i => search (fun j => pairCheck N HP l i j) (List.range l.length)) (List.range l.length)) links =
      some none := by
    unfold checkForConflicts at hc
    obtain ⟨r, hr, e⟩ := Option.map_eq_some_iff.1 hc
    cases r with
    | none => exact hr
    | some r =>
      obtain ⟨l, -, i, j, ti, tj, -, -, -, si, -, sj, -, hs⟩ := check_some hr
      obtain ⟨e1, -⟩ := startsCheck_list hs
      simp only [Option.getD_some] at e
      rw [e] at e1
      cases e1
  obtain ⟨hli, -⟩ := List.getElem?_eq_some_iff.1 hi
  obtain ⟨hlj, -⟩ := List.getElem?_eq_some_iff.1 hj
  have hl1 := search_none hnone l hl
  rw [if_neg (by omega)] at hl1
  -- the pair is looked at with the larger position first
  have go : ∀ {i j ti tj : ℕ} {si sj : ℚ}, j < i → l[i]? = some ti → l[j]? = some tj →
      (¬∃ p, N.prev ti = some p ∧ N.prev tj = some p) → si ∈ N.starts ti → sj ∈ N.starts tj →
      ¬StartTogether si (HP / N.ni ti) sj (HP / N.ni tj) := by
    intro i j ti tj si sj hlt hi hj hp hsi hsj ht
    obtain ⟨hli, -⟩ := List.getElem?_eq_some_iff.1 hi
    have h2 := search_none (search_none hl1 i (List.mem_range.2 hli)) j (List.mem_range.2 (by omega))
    have h3 := pairCheck_none hlt hi hj h2 si hsi sj hsj
    rcases startsCheck_cases h hl (List.mem_of_getElem? hi) (List.mem_of_getElem? hj) hsi hsj with ⟨hn, -⟩ | ⟨-, e⟩
    · exact hn ht
    · rw [e] at h3
      obtain ⟨p, h4, h3⟩ := Option.bind_eq_some_iff.1 h3
      obtain ⟨q, h5, h3⟩ := Option.bind_eq_some_iff.1 h3
      split at h3
      · rename_i hqp
        exact hp ⟨p, h4, by rw [h5, hqp]⟩
      · cases h3
  rcases Nat.lt_or_gt_of_ne hij with hlt | hlt
  · refine go hlt hj hi ?_ hsj hsi ?_
    · rintro ⟨p, a, b⟩
      exact hp ⟨p, b, a⟩
    · obtain ⟨a, b, e⟩ := ht
      exact ⟨b, a, e.symm⟩
  · exact go hlt hi hj hp hsi hsj ht

/-- **C115** What is returned otherwise: two tasks that share a link, come from different tasks, and start together if
each of them starts again after each of its executions. -/
theorem C115_found {N : Net} {HP : ℚ} {links : List (List ℕ)} (h : WholeNet N HP links) {r : List ℕ}
    (hc : checkForConflicts N HP links = some r) (hr : r ≠ []) :
    ∃ l ∈ links, ∃ i j ti tj : ℕ, i ≠ j ∧ l[i]? = some ti ∧ l[j]? = some tj ∧ r = [ti, tj] ∧
      (∃ p q, N.prev ti = some p ∧ N.prev tj = some q ∧ q ≠ p) ∧
      ∃ si ∈ N.starts ti, ∃ sj ∈ N.starts tj, StartTogether si (HP / N.ni ti) sj (HP / N.ni tj) := by
  unfold checkForConflicts at hc
  obtain ⟨o, ho, e⟩ := Option.map_eq_some_iff.1 hc
  cases o with
  | none => exact absurd e.symm hr
  | some r' =>
    simp only [Option.getD_some] at e
    subst e
    obtain ⟨l, hl, i, j, ti, tj, hij, hi, hj, si, hsi, sj, hsj, hs⟩ := check_some ho
    obtain ⟨e1, hpq⟩ := startsCheck_list hs
    refine ⟨l, hl, i, j, ti, tj, by omega, hi, hj, e1, hpq, si, hsi, sj, hsj, ?_⟩
    rcases startsCheck_cases h hl (List.mem_of_getElem? hi) (List.mem_of_getElem? hj) hsi hsj with ⟨-, e2⟩ | ⟨ht, -⟩
    · rw [e2] at hs
      cases hs
    · exact ht

/-- **C115** The search is defined when every task of a link has one predecessor. -/
theorem C115_defined {N : Net} {HP : ℚ} {links : List (List ℕ)} (h : WholeNet N HP links)
    (hp : ∀ l ∈ links, ∀ t ∈ l, ∃ p, N.prev t = some p) : ∃ r, checkForConflicts N HP links = some r := by
  unfold checkForConflicts
  refine Option.isSome_iff_exists.1 ?_
  rw [Option.isSome_map, Option.isSome_iff_ne_none]
  apply search_defined
  intro l hl
  split
  · exact Option.some_ne_none _
  · apply search_defined
    intro i hi
    apply search_defined
    intro j hj
    unfold pairCheck
    split
    · exact Option.some_ne_none _
    · obtain ⟨ti, hti⟩ : ∃ t, l[i]? = some t := ⟨_, List.getElem?_eq_getElem (List.mem_range.1 hi)⟩
      obtain ⟨tj, htj⟩ : ∃ t, l[j]? = some t := ⟨_, List.getElem?_eq_getElem (List.mem_range.1 hj)⟩
      rw [hti, htj]
      apply search_defined
      intro si hsi
      apply search_defined
      intro sj hsj
      rcases startsCheck_cases h hl (List.mem_of_getElem? hti) (List.mem_of_getElem? htj) hsi hsj with ⟨-, e⟩ | ⟨-, e⟩
      · rw [e]; exact Option.some_ne_none _
      · rw [e]
        obtain ⟨p, ep⟩ := hp l hl ti (List.mem_of_getElem? hti)
        obtain ⟨q, eq⟩ := hp l hl tj (List.mem_of_getElem? htj)
        rw [ep, eq]
        simp only [Option.bind_some]
        split <;> exact Option.some_ne_none _

namespace ConflictExample

/-- **C115** (negation) A period of 3 with two executions of each task: the second task starts 3/2 later, at the second
start of the first task, and the test sees no conflict, because 3/2 is rounded to 1. -/
theorem C115_missed : isConflictPresent 3 (3 / 2) 2 0 2 = some false ∧ StartTogether (3 / 2) (3 / 2) 0 (3 / 2) :=
  ⟨by decide +kernel, 0, 1, by norm_num⟩

/-- **C115** (negation) Two tasks that run once per time unit, half a unit apart, never start together, but the test
sees a conflict, because 1/2 is rounded to 0. -/
theorem C115_false_alarm : isConflictPresent 1 (1 / 2) 1 0 1 = some true ∧ ¬StartTogether (1 / 2) 1 0 1 := by
  refine ⟨by decide +kernel, ?_⟩
  rintro ⟨a, b, e⟩
  have : (1 : ℚ) + 2 * a = 2 * b := by linarith
  have : 1 + 2 * a = 2 * b := by exact_mod_cast this
  omega

/-- **C115** (negation) A period below one time unit is rounded to 0, and the test divides by 0. -/
theorem C115_division_by_zero {HP si sj : ℚ} (h0 : 0 ≤ HP) (h1 : HP < 1) (hs : si ≠ sj) (ni nj : Int) :
    isConflictPresent (trunc HP) si ni sj nj = none := by
  have ht : trunc HP = 0 := by
    unfold trunc
    have hn : 0 ≤ HP.num := Rat.num_nonneg.2 h0
    have hd : HP.num < HP.den := by
      rw [← Rat.num_div_den HP] at h1
      have hp : (0 : ℚ) < HP.den := by exact_mod_cast HP.den_pos
      rw [div_lt_one hp] at h1
      exact_mod_cast h1
    exact Int.tdiv_eq_zero_of_lt hn hd
  obtain ⟨a, b, hg, -⟩ := C115_gcd (ni.natAbs + 1) ni.natAbs nj.natAbs (Nat.lt_succ_self _)
  unfold isConflictPresent
  rw [ht, hg, Option.bind_some, if_neg hs, zero_mul, if_pos rfl]

/-- Two links: the first is shared by the tasks 5 and 6, the second by 5, 7 and 8; 7 and 8 come from the same task. -/
def net : Net := ⟨fun t => if t = 5 then [0] else if t = 6 then [1] else [2, 3], fun t => if t = 6 then 2 else 1,
  fun t => if t = 5 then some 1 else if t = 6 then some 2 else some 3⟩

theorem net_whole : WholeNet net 4 [[5, 6], [5, 7, 8]] := by
  refine ⟨⟨⟨4, by norm_num⟩, by norm_num⟩, by decide, ?_⟩
  intro l hl t ht s hs
  have hs : s = 0 ∨ s = 1 ∨ s = 2 ∨ s = 3 := by
    unfold net at hs
    simp only at hs
    split at hs
    · exact Or.inl (by simpa using hs)
    · split at hs
      · exact Or.inr (Or.inl (by simpa using hs))
      · rcases List.mem_cons.1 hs with e | hs
        · exact Or.inr (Or.inr (Or.inl e))
        · exact Or.inr (Or.inr (Or.inr (by simpa using hs)))
  rcases hs with e | e | e | e
  · exact ⟨0, by simp [e]⟩
  · exact ⟨1, by simp [e]⟩
  · exact ⟨2, by simp [e]⟩
  · exact ⟨3, by simp [e]⟩

/-- The search finds no conflict although 7 and 8 start together: they come from the same task. -/
example : checkForConflicts net 4 [[5, 6], [5, 7, 8]] = some [] := by decide +kernel

/-- With a period of 1 the tasks 6 and 5 meet. -/
example : checkForConflicts net 1 [[5, 6], [5, 7, 8]] = some [6, 5] := by decide +kernel

/-- **C115** (negation) Task 1 starts at 0 and 1 in a period of 4, task 2 at 2 in the same period: they never start
together, but a conflict is reported, because each start of task 1 is taken to be repeated at each of its executions. -/
theorem C115_several_starts :
    checkForConflicts ⟨fun t => if t = 1 then [0, 1] else [2], fun t => if t = 1 then 2 else 1, fun t => some t⟩ 4 [[2, 1]] =
      some [1, 2] ∧ ¬StartTogether 0 4 2 4 ∧ ¬StartTogether 1 4 2 4 := by
  refine ⟨by decide +kernel, ?_, ?_⟩
  · rintro ⟨a, b, e⟩
    have : 4 * (a : ℚ) = 2 + 4 * b := by linarith
    have : 4 * a = 2 + 4 * b := by exact_mod_cast this
    omega
  · rintro ⟨a, b, e⟩
    have : 1 + 4 * (a : ℚ) = 2 + 4 * b := by linarith
    have : 1 + 4 * a = 2 + 4 * b := by exact_mod_cast this
    omega

end ConflictExample

end Kiter
