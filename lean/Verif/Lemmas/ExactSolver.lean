/-
A cycle ratio solver by exhaustive search. It is not in the code; it shows that correct solvers, which several theorems
assume, exist and always answer.
-/
import Verif.Props.KIterHoward

set_option autoImplicit false

namespace Kiter
open Howard

/-- All sequences of at most `n` constraints. -/
def allLists (cs : List EvConstraint) : ℕ → List (List EvConstraint)
  | 0 => [[]]
  | n + 1 => [] :: (allLists cs n).flatMap fun p => cs.map (· :: p)

/-- The sequence is a closed walk. -/
def closes (p : List EvConstraint) : Bool := decide (p.map (fun e => e.dst) = (p.map fun e => e.src).rotate 1)

/-- Keep the better of two circuits. -/
def better (a p : List EvConstraint) : List EvConstraint := if totalW p * totalD a < totalW a * totalD p then p else a

/-- The circuit with the smallest ratio among those with at most as many constraints as there are in total. -/
def exhaustive (cs : List EvConstraint) : Option (ℚ × List EvConstraint) :=
  match (allLists cs cs.length).filter fun p => closes p && decide (0 < totalD p) with
  | [] => none
  | p :: l => let b := l.foldl better p; some (totalW b / totalD b, b)

theorem mem_allLists {cs : List EvConstraint} {n : ℕ} {p : List EvConstraint} :
    p ∈ allLists cs n ↔ p.length ≤ n ∧ ∀ e ∈ p, e ∈ cs := by
  induction n generalizing p with
  | zero =>
    simp only [allLists, List.mem_singleton, Nat.le_zero, List.length_eq_zero_iff]
    constructor
    · rintro rfl; simp
    · exact fun h => h.1
  | succ n ih =>
    simp only [allLists, List.mem_cons, List.mem_flatMap, List.mem_map]
    constructor
    · rintro (rfl | ⟨q, hq, e, he, rfl⟩)
      · simp
      · obtain ⟨h1, h2⟩ := ih.1 hq
        refine ⟨by simpa using h1, fun x hx => ?_⟩
        rcases List.mem_cons.mp hx with rfl | hx
        · exact he
        · exact h2 x hx
    · rintro ⟨h1, h2⟩
      cases p with
      | nil => exact .inl rfl
      | cons e p =>
        exact .inr ⟨p, ih.2 ⟨by simpa using h1, fun x hx => h2 x (by simp [hx])⟩, e, h2 e (by simp), rfl⟩

theorem chain_of_isWalk {cs : List EvConstraint} (p : List EvConstraint) : ∀ u v, IsWalk cs u p v →
    p.map (fun e => e.src) ++ [v] = u :: p.map (fun e => e.dst) := by
  induction p with
  | nil => intro u v h; simp [show u = v from h]
  | cons e p ih =>
    rintro u v ⟨-, rfl, h⟩
    simp only [List.map_cons, List.cons_append, ih _ _ h]

theorem closes_iff {cs p : List EvConstraint} (hne : p ≠ []) (hp : ∀ e ∈ p, e ∈ cs) :
    closes p = true ↔ ∃ u, IsWalk cs u p u := by
  unfold closes
  rw [decide_eq_true_eq]
  cases p with
  | nil => exact absurd rfl hne
  | cons e q =>
    constructor
    · intro h
      refine ⟨e.src, isWalk_of_chain _ hp _ _ ?_⟩
      rw [h]
      simp [List.rotate_cons_succ]
    · rintro ⟨u, hu⟩
      have h := chain_of_isWalk _ _ _ hu
      obtain ⟨-, rfl, -⟩ := hu
      simp only [List.map_cons, List.cons_append, List.cons.injEq, true_and] at h
      simp only [List.map_cons, List.rotate_cons_succ, List.rotate_zero]
      exact h.symm

theorem foldl_better (l : List (List EvConstraint)) : ∀ a, 0 < totalD a → (∀ p ∈ l, 0 < totalD p) →
    (l.foldl better a = a ∨ l.foldl better a ∈ l) ∧ ∀ p ∈ a :: l, totalW (l.foldl better a) * totalD p ≤ totalW p * totalD (l.foldl better a) := by
  induction l with
  | nil => intro a _ _; simp
  | cons p l ih =>
    intro a ha hl
    have hp := hl p (by simp)
    have hb : 0 < totalD (better a p) ∧ (better a p = a ∨ better a p = p) ∧
        totalW (better a p) * totalD a ≤ totalW a * totalD (better a p) ∧
        totalW (better a p) * totalD p ≤ totalW p * totalD (better a p) := by
      unfold better
      split
      · rename_i h; exact ⟨hp, .inr rfl, h.le, le_rfl⟩
      · rename_i h; exact ⟨ha, .inl rfl, le_rfl, by linarith⟩
    obtain ⟨b0, b1, b2, b3⟩ := hb
    obtain ⟨h1, h2⟩ := ih (better a p) b0 fun q hq => hl q (by simp [hq])
    rw [List.foldl_cons]
    set b := better a p with hbdef
    set z := l.foldl better b with hz
    have hz0 : 0 < totalD z := by
      rcases h1 with h | h
      · rw [h]; exact b0
      · exact hl z (by simp [h])
    have hzb := h2 b (by simp)
    have tr : ∀ x, 0 < totalD x → totalW b * totalD x ≤ totalW x * totalD b → totalW z * totalD x ≤ totalW x * totalD z := by
      intro x hx h
      have e1 : totalW z / totalD z ≤ totalW b / totalD b := by rw [div_le_div_iff₀ hz0 b0]; exact hzb
      have e2 : totalW b / totalD b ≤ totalW x / totalD x := by rw [div_le_div_iff₀ b0 hx]; exact h
      have := e1.trans e2
      rwa [div_le_div_iff₀ hz0 hx] at this
    refine ⟨?_, fun q hq => ?_⟩
    · rcases h1 with h | h
      · rcases b1 with h' | h'
        · left; rw [h, h']
        · right; rw [h, h']; simp
      · right; simp [h]
    · rcases List.mem_cons.mp hq with rfl | hq
      · exact tr _ ha b2
      · rcases List.mem_cons.mp hq with rfl | hq
        · exact tr _ hp b3
        · exact h2 q (by simp [hq])

/-- A property of sums that holds for circuits with at most as many constraints as there are holds for all circuits. -/
theorem short_suffices {cs : List EvConstraint} (f : EvConstraint → ℚ)
    (h : ∀ p u, p ≠ [] → IsWalk cs u p u → p.length ≤ cs.length → 0 ≤ (p.map f).sum) {p : List EvConstraint} {u : Event}
    (hp : IsWalk cs u p u) : 0 ≤ (p.map f).sum := by
  by_cases hne : p = []
  · rw [hne]; simp
  -- circuits without repeated source have distinct constraints
  have key : ∀ n (p : List EvConstraint) (u : Event), p.length ≤ n → p ≠ [] → IsWalk cs u p u → 0 ≤ (p.map f).sum := by
    intro n
    induction n with
    | zero => intro p u hp hne; exact absurd (List.length_eq_zero_iff.1 (by omega)) hne
    | succ n ih =>
      intro p u hlen hne hu
      rcases repeated_src p with hnd | ⟨a, e, b, g, c, rfl, hsrc⟩
      · refine h p u hne hu ?_
        have hnd' : p.Nodup := List.Nodup.of_map _ hnd
        exact (List.subperm_of_subset hnd' fun x hx => (walk_srcs _ _ _ hu x hx).1).length_le
      · obtain ⟨m, h1, h2⟩ := (walk_append _ _ _ _).mp hu
        obtain ⟨k, h3, h4⟩ := (walk_append _ _ _ _).mp h1
        have hk : e.src = k := h4.2.1
        have hm : g.src = m := h2.2.1
        have hkm : k = m := by rw [← hk, ← hm, hsrc]
        subst hkm
        have i1 := ih (e :: b) k (by simp at hlen ⊢; omega) (by simp) h4
        have i2 := ih (a ++ g :: c) u (by simp at hlen ⊢; omega) (by simp) ((walk_append _ _ _ _).mpr ⟨k, h3, h2⟩)
        simp only [List.map_append, List.sum_append] at i1 i2 ⊢
        linarith
  exact key _ p u le_rfl hne hp

theorem sum_sub_mul (r : ℚ) (p : List EvConstraint) : (p.map fun e => e.w - r * e.d).sum = totalW p - r * totalD p := by
  unfold totalD totalW
  induction p with
  | nil => simp
  | cons a q ih => simp only [List.map_cons, List.sum_cons]; rw [ih]; ring

theorem exhaustive_answer {cs : List EvConstraint} (hpos : ∀ p u, p ≠ [] → IsWalk cs u p u → 0 < totalD p) {th : ℚ}
    {p : List EvConstraint} (h : exhaustive cs = some (th, p)) : CycleAnswer cs th p := by
  unfold exhaustive at h
  split at h
  · simp at h
  · rename_i x l hl
    simp only [Option.some.injEq, Prod.mk.injEq] at h
    obtain ⟨h1, h2⟩ := h
    have hmem : ∀ q, q ∈ x :: l ↔ (q.length ≤ cs.length ∧ ∀ e ∈ q, e ∈ cs) ∧ closes q = true ∧ 0 < totalD q := by
      intro q; rw [← hl, List.mem_filter, mem_allLists]; simp
    obtain ⟨hb1, hb2⟩ := foldl_better l x ((hmem x).1 (by simp)).2.2 fun q hq => ((hmem q).1 (by simp [hq])).2.2
    have hin : l.foldl better x ∈ x :: l := by
      rcases hb1 with h | h
      · rw [h]; simp
      · simp [h]
    rw [h2] at h1 hb2 hin
    obtain ⟨⟨-, m2⟩, m3, m4⟩ := (hmem p).1 hin
    have hne : p ≠ [] := by rintro rfl; simp [totalD] at m4
    subst h1
    refine ⟨(closes_iff hne m2).1 m3, m4, by field_simp, fun u q hq => ?_⟩
    have := short_suffices (cs := cs) (fun e => e.w - totalW p / totalD p * e.d) (fun q u hqne hq hqlen => ?_) hq
    · rw [sum_sub_mul] at this; linarith
    · have hq' : ∀ e ∈ q, e ∈ cs := fun e he => (walk_srcs _ _ _ hq e he).1
      have := hb2 q ((hmem q).2 ⟨⟨hqlen, hq'⟩, (closes_iff hqne hq').2 ⟨u, hq⟩, hpos q u hqne hq⟩)
      rw [sum_sub_mul, sub_nonneg, div_mul_eq_mul_div, div_le_iff₀ m4]
      exact this

theorem exhaustive_total {cs : List EvConstraint} (hpos : ∀ p u, p ≠ [] → IsWalk cs u p u → 0 < totalD p)
    (hex : ∃ p u, p ≠ [] ∧ IsWalk cs u p u) : ∃ r, exhaustive cs = some r := by
  obtain ⟨p, u, hne, hp⟩ := hex
  unfold exhaustive
  split
  · rename_i hl
    exfalso
    have hnone : ∀ q u, q ≠ [] → IsWalk cs u q u → q.length ≤ cs.length → 0 ≤ (q.map fun e => - e.d).sum := by
      intro q u hq hw hlen
      have hq' : ∀ e ∈ q, e ∈ cs := fun e he => (walk_srcs _ _ _ hw e he).1
      have : q ∈ (allLists cs cs.length).filter fun p => closes p && decide (0 < totalD p) := by
        rw [List.mem_filter, mem_allLists]
        refine ⟨⟨hlen, hq'⟩, ?_⟩
        simp [(closes_iff hq hq').2 ⟨u, hw⟩, hpos q u hq hw]
      rw [hl] at this
      simp at this
    have h1 := short_suffices _ hnone hp
    have h2 := hpos p u hne hp
    have h3 : (p.map fun e => - e.d).sum = - totalD p := by
      unfold totalD
      clear hp hne h1 h2
      induction p with
      | nil => simp
      | cons a q ih => simp only [List.map_cons, List.sum_cons, ih]; ring
    linarith
  · exact ⟨_, rfl⟩

/-- On the event graphs of dataflow graphs with positive durations the exhaustive solver answers, and correctly. -/
theorem exhaustive_event_pos {B : BaseGraph} (hB : BaseOK B) (hpos : ∀ t ∈ B.tasks, ∀ d ∈ t.durations, 0 < d) {K : Int → ℕ}
    (hK : ∀ i, 0 < K i) {cs : List EvConstraint} (hcs : GraphFor B K cs) :
    (∀ th p, exhaustive cs = some (th, p) → CycleAnswer cs th p) ∧ (B.tasks ≠ [] → ∃ r, exhaustive cs = some r) := by
  have h1 : ∀ p u, p ≠ [] → IsWalk cs u p u → 0 < totalD p := fun p u hne hp =>
    event_noNull hB hpos hK hcs hne fun e he => (walk_srcs _ _ _ hp e he).1
  refine ⟨fun th p h => exhaustive_answer h1 h, fun hne => exhaustive_total h1 ?_⟩
  obtain ⟨t, ht⟩ := List.exists_mem_of_ne_nil _ hne
  obtain ⟨b1, l1⟩ := task_edges hB hK hcs ht
  have hn0 : 0 < K t.id * t.durations.length := Nat.mul_pos (hK _) (hB.tasks _ ht).phases
  set n := K t.id * t.durations.length with hn
  refine ⟨links t 0 (n - 1) ++ [back t (K t.id)], evAt t 0, by simp, ?_⟩
  refine (walk_append _ _ _ _).mpr ⟨evAt t (0 + (n - 1)), links_walk _ _ fun x _ hx => l1 x (by omega), b1, ?_, rfl⟩
  rw [Nat.zero_add]; rfl

theorem exhaustive_event {B : BaseGraph} (hB : BaseOK B) (hpos : ∀ t ∈ B.tasks, ∀ d ∈ t.durations, 0 < d) {K : Int → ℕ}
    (hK : KOk B K) {cs : List EvConstraint} (hcs : GraphFor B K cs) :
    (∀ th p, exhaustive cs = some (th, p) → CycleAnswer cs th p) ∧ (B.tasks ≠ [] → ∃ r, exhaustive cs = some r) :=
  exhaustive_event_pos hB hpos hK.1 hcs

end Kiter
