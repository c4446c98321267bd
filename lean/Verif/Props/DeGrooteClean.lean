/-
C98: removing the events that are on no circuit (command `deGrooteCleanThroughput`) ends, and does not change the
throughput found by de Groote's method.
-/
import Verif.Props.DeGroote

set_option autoImplicit false

namespace Kiter

/-- One event keeps the circuits, never adds a constraint, and counts a deletion only if a constraint goes. -/
structure Kept (cs cs' : List EvConstraint) (n n' : ℕ) : Prop where
  sub : cs'.Sublist cs
  circuits : ∀ u p, IsWalk cs u p u → IsWalk cs' u p u
  count : n' + cs'.length ≤ n + cs.length
  same : n' = n → cs' = cs
  mono : n ≤ n'

theorem Kept.refl (cs : List EvConstraint) (n : ℕ) : Kept cs cs n n :=
  ⟨List.Sublist.refl _, fun _ _ h => h, le_refl _, fun _ => rfl, le_refl _⟩

theorem Kept.trans {a b c : List EvConstraint} {i j k : ℕ} (h : Kept a b i j) (h' : Kept b c j k) : Kept a c i k :=
  ⟨h'.sub.trans h.sub, fun u p w => h'.circuits u p (h.circuits u p w), h'.count.trans h.count,
    fun e => by
      have := h.mono; have := h'.mono
      rw [h'.same (by omega), h.same (by omega)], h.mono.trans h'.mono⟩

/-- Every constraint of a circuit is followed, and preceded, by one of the circuit. -/
theorem circuit_next {cs : List EvConstraint} : ∀ {p : List EvConstraint} {u v : Event}, IsWalk cs u p v →
    ∀ c ∈ p, c ∈ cs ∧ (c.dst = v ∨ ∃ c' ∈ p, c'.src = c.dst) ∧ (c.src = u ∨ ∃ c' ∈ p, c'.dst = c.src)
  | [], _, _, _, _, hc => absurd hc List.not_mem_nil
  | a :: p, u, v, h, c, hc => by
    obtain ⟨ha, hs, hw⟩ := h
    rcases List.mem_cons.mp hc with rfl | hc
    · refine ⟨ha, ?_, Or.inl hs⟩
      cases p with
      | nil => exact Or.inl hw
      | cons b q => exact Or.inr ⟨b, by simp, hw.2.1⟩
    · obtain ⟨h1, h2, h3⟩ := circuit_next hw c hc
      refine ⟨h1, h2.imp id fun ⟨c', hc', e⟩ => ⟨c', List.mem_cons_of_mem _ hc', e⟩, Or.inr ?_⟩
      rcases h3 with h3 | ⟨c', hc', e⟩
      · exact ⟨a, by simp, h3.symm⟩
      · exact ⟨c', List.mem_cons_of_mem _ hc', e⟩

theorem walk_first {cs : List EvConstraint} {p : List EvConstraint} {u v : Event} (h : IsWalk cs u p v) (hp : p ≠ []) :
    (∃ c ∈ p, c.src = u) ∧ ∃ c ∈ p, c.dst = v := by
  induction p generalizing u with
  | nil => exact absurd rfl hp
  | cons a p ih =>
    obtain ⟨ha, hs, hw⟩ := h
    refine ⟨⟨a, by simp, hs⟩, ?_⟩
    cases p with
    | nil => exact ⟨a, by simp, hw⟩
    | cons b q =>
      obtain ⟨-, c, hc, e⟩ := ih hw (by simp)
      exact ⟨c, List.mem_cons_of_mem _ hc, e⟩

theorem walk_of_subset {cs cs' : List EvConstraint} {p : List EvConstraint} {u v : Event} (h : IsWalk cs u p v)
    (hp : ∀ c ∈ p, c ∈ cs') : IsWalk cs' u p v := by
  induction p generalizing u with
  | nil => exact h
  | cons a p ih => exact ⟨hp a (by simp), h.2.1, ih h.2.2 fun c hc => hp c (List.mem_cons_of_mem _ hc)⟩

/-- An event without a constraint on one side is on no circuit. -/
theorem drop_circuit {cs : List EvConstraint} {e : Event} (h : (∀ c ∈ cs, c.src ≠ e) ∨ ∀ c ∈ cs, c.dst ≠ e) {u : Event}
    {p : List EvConstraint} (hw : IsWalk cs u p u) : IsWalk (dropEvent e cs) u p u := by
  refine walk_of_subset hw fun c hc => ?_
  obtain ⟨hm, h1, h2⟩ := circuit_next hw c hc
  have hp : p ≠ [] := by rintro rfl; simp at hc
  obtain ⟨⟨a, ha, hau⟩, b, hb, hbu⟩ := walk_first hw hp
  have hin : ∀ x ∈ p, x ∈ cs := fun x hx => (circuit_next hw x hx).1
  have hs : ∃ x ∈ p, x.src = c.dst := by
    rcases h1 with h1 | h1
    · exact ⟨a, ha, hau.trans h1.symm⟩
    · exact h1
  have hd : ∃ x ∈ p, x.dst = c.src := by
    rcases h2 with h2 | h2
    · exact ⟨b, hb, hbu.trans h2.symm⟩
    · exact h2
  obtain ⟨x, hx, hxs⟩ := hs
  obtain ⟨y, hy, hyd⟩ := hd
  unfold dropEvent
  refine List.mem_filter.mpr ⟨hm, ?_⟩
  simp only [decide_eq_true_eq]
  rcases h with h | h
  · exact ⟨h c hm, fun he => h x (hin x hx) (hxs.trans he)⟩
  · exact ⟨fun he => h y (hin y hy) (hyd.trans he), h c hm⟩

theorem drop_kept {cs : List EvConstraint} {e : Event} (n : ℕ) (h : (∀ c ∈ cs, c.src ≠ e) ∨ ∀ c ∈ cs, c.dst ≠ e)
    (hne : ∃ c ∈ cs, c.src = e ∨ c.dst = e) : Kept cs (dropEvent e cs) n (n + 1) := by
  refine ⟨List.filter_sublist, fun u p hw => drop_circuit h hw, ?_, fun hh => by omega, by omega⟩
  have : (dropEvent e cs).length < cs.length := by
    unfold dropEvent
    obtain ⟨c, hc, hce⟩ := hne
    refine List.length_filter_lt_length_iff_exists.mpr ⟨c, hc, ?_⟩
    simp only [decide_eq_true_eq, not_and_or, not_not]
    exact hce
  omega

theorem cleanEvent_kept (s : List EvConstraint × ℕ) (e : Event) :
    Kept s.1 (cleanEvent s e).1 s.2 (cleanEvent s e).2 := by
  obtain ⟨cs, n⟩ := s
  unfold cleanEvent
  dsimp only
  by_cases ho : cs.countP (fun c => c.src = e) = 0
  · by_cases hi : cs.countP (fun c => c.dst = e) = 0
    · rw [if_neg (by tauto), if_neg (by tauto)]; exact Kept.refl _ _
    · rw [if_neg fun h => hi h.1, if_pos ⟨ho, hi⟩]
      refine drop_kept n (Or.inl fun c hc => ?_) ?_
      · simpa using (List.countP_eq_zero.mp ho) c hc
      · obtain ⟨c, hc, h⟩ := List.countP_pos_iff.mp (Nat.pos_of_ne_zero hi)
        exact ⟨c, hc, Or.inr (by simpa using h)⟩
  · by_cases hi : cs.countP (fun c => c.dst = e) = 0
    · rw [if_pos ⟨hi, ho⟩, if_neg fun h => ho h.1]
      refine drop_kept n (Or.inr fun c hc => ?_) ?_
      · simpa using (List.countP_eq_zero.mp hi) c hc
      · obtain ⟨c, hc, h⟩ := List.countP_pos_iff.mp (Nat.pos_of_ne_zero ho)
        exact ⟨c, hc, Or.inl (by simpa using h)⟩
    · rw [if_neg fun h => hi h.1, if_neg fun h => ho h.1]; exact Kept.refl _ _

theorem pass_kept (es : List Event) : ∀ s : List EvConstraint × ℕ,
    Kept s.1 (es.foldl cleanEvent s).1 s.2 (es.foldl cleanEvent s).2 := by
  induction es with
  | nil => exact fun s => Kept.refl _ _
  | cons e es ih => exact fun s => (cleanEvent_kept s e).trans (ih _)

/-- A pass that changes nothing leaves no event with constraints on one side only. -/
theorem pass_settled {es : List Event} : ∀ {s : List EvConstraint × ℕ}, (es.foldl cleanEvent s).2 = s.2 → ∀ e ∈ es,
    (∃ c ∈ s.1, c.src = e) ↔ ∃ c ∈ s.1, c.dst = e := by
  induction es with
  | nil => intro s _ e he; simp at he
  | cons a es ih =>
    intro s h e he
    have k1 := cleanEvent_kept s a
    have k2 := pass_kept es (cleanEvent s a)
    rw [List.foldl_cons] at h
    have e1 : (cleanEvent s a).2 = s.2 := by have := k1.mono; have := k2.mono; omega
    have e2 : cleanEvent s a = s := Prod.ext (k1.same e1) e1
    rcases List.mem_cons.mp he with rfl | he
    · obtain ⟨cs, n⟩ := s
      unfold cleanEvent at e1
      dsimp only at e1
      by_cases ho : cs.countP (fun c => c.src = e) = 0
      · by_cases hi : cs.countP (fun c => c.dst = e) = 0
        · constructor
          · rintro ⟨c, hc, h⟩; exact absurd h (by simpa using (List.countP_eq_zero.mp ho) c hc)
          · rintro ⟨c, hc, h⟩; exact absurd h (by simpa using (List.countP_eq_zero.mp hi) c hc)
        · rw [if_neg fun h => hi h.1, if_pos ⟨ho, hi⟩] at e1; simp at e1
      · by_cases hi : cs.countP (fun c => c.dst = e) = 0
        · rw [if_pos ⟨hi, ho⟩, if_neg fun h => ho h.1] at e1; simp at e1
        · obtain ⟨c, hc, h⟩ := List.countP_pos_iff.mp (Nat.pos_of_ne_zero ho)
          obtain ⟨c', hc', h'⟩ := List.countP_pos_iff.mp (Nat.pos_of_ne_zero hi)
          exact ⟨fun _ => ⟨c', hc', by simpa using h'⟩, fun _ => ⟨c, hc, by simpa using h⟩⟩
    · rw [e2] at h
      exact ih h e he

/-- C98: the cleaning ends after at most one pass more than there are constraints. It only removes constraints, it
keeps every circuit, and afterwards every event with a constraint on one side has one on the other. -/
theorem C98_cleaning (events : List Event) : ∀ (cs : List EvConstraint) (fuel : ℕ), cs.length < fuel →
    ∃ cs', fullConnected events fuel cs = some cs' ∧ cs'.Sublist cs ∧
      (∀ u p, IsWalk cs' u p u ↔ IsWalk cs u p u) ∧
      ∀ e ∈ events, (∃ c ∈ cs', c.src = e) ↔ ∃ c ∈ cs', c.dst = e := by
  intro cs fuel
  induction fuel generalizing cs with
  | zero => intro h; omega
  | succ fuel ih =>
    intro h
    have k := pass_kept events (cs, 0)
    simp only [fullConnected]
    have back : ∀ u p, IsWalk (events.foldl cleanEvent (cs, 0)).1 u p u ↔ IsWalk cs u p u := fun u p =>
      ⟨fun w => walk_of_subset w fun c hc => k.sub.subset (circuit_next w c hc).1, k.circuits u p⟩
    split_ifs with h0
    · have hs : (events.foldl cleanEvent (cs, 0)).1 = cs := k.same h0
      exact ⟨_, rfl, k.sub, back, by rw [hs]; exact pass_settled (s := (cs, 0)) h0⟩
    · have := k.count
      simp only at this
      obtain ⟨cs', h1, h2, h3, h4⟩ := ih (events.foldl cleanEvent (cs, 0)).1 (by omega)
      exact ⟨cs', h1, h2.trans k.sub, fun u p => (h3 u p).trans (back u p), h4⟩

/-- C98: `deGrooteCleanThroughput` ends on every graph `deGrooteThroughput` accepts, its cycle ratio problem has the same
answers, and the throughput printed is the inverse of the least period that any schedule sustains. -/
theorem C98_same_throughput {B : BaseGraph} (hB : SdfOK B) {cs : List EvConstraint} (hcs : generateLCG B = some cs)
    {fuel : ℕ} (hf : cs.length < fuel) : ∃ cs', cleanLCG B fuel = some cs' ∧
      (∀ r p, MaxRatio cs' r p ↔ MaxRatio cs r p) ∧ ∀ r p, MaxRatio cs' r p → IsLeast (SustainablePeriods B) r := by
  obtain ⟨cs', h1, -, h3, -⟩ := C98_cleaning (lcgEvents B) cs fuel hf
  have key : ∀ r p, MaxRatio cs' r p ↔ MaxRatio cs r p := by
    intro r p
    constructor
    · rintro ⟨⟨u, hu⟩, a, b, c⟩
      exact ⟨⟨u, (h3 u p).mp hu⟩, a, b, fun v q hq => c v q ((h3 v q).mpr hq)⟩
    · rintro ⟨⟨u, hu⟩, a, b, c⟩
      exact ⟨⟨u, (h3 u p).mpr hu⟩, a, b, fun v q hq => c v q ((h3 v q).mp hq)⟩
  refine ⟨cs', ?_, key, fun r p hp => C48_optimal hB hcs ((key r p).mp hp)⟩
  unfold cleanLCG
  rw [hcs]
  exact h1

/-- The example of C48: every event is on a circuit, nothing goes. -/
example : cleanLCG LcgExample.G 11 = some LcgExample.cs := by decide +kernel

example : ∃ cs', cleanLCG LcgExample.G 11 = some cs' ∧ MaxRatio cs' 8 LcgExample.crit ∧
    IsLeast (SustainablePeriods LcgExample.G) 8 := by
  obtain ⟨cs', h1, h2, h3⟩ := C98_same_throughput LcgExample.G_ok LcgExample.G_lcg (fuel := 11) (by decide)
  exact ⟨cs', h1, (h2 _ _).mpr LcgExample.G_ratio, h3 _ _ ((h2 _ _).mpr LcgExample.G_ratio)⟩

/-- A chain of four events into a circuit of two, and one event after it: two passes and a last one that changes
nothing leave the circuit. Events are numbered against the direction of the chain, so that a pass removes one at a
time. -/
example :
    let ev (i : Int) : Event := ⟨i, 1, 1⟩
    let arc (i j : Int) : EvConstraint := ⟨ev i, ev j, 1, 1, 0⟩
    let events := [ev 0, ev 1, ev 2, ev 3, ev 4]
    let cs := [arc 0 1, arc 1 0, arc 2 0, arc 3 2, arc 1 4]
    (fullConnected events 2 cs, fullConnected events 3 cs) = (none, some [arc 0 1, arc 1 0]) := by decide +kernel

end Kiter
