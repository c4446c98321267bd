import Verif.Model.StartTimes
import Verif.Spec.KPeriodic
import Mathlib.Data.Finset.Card
import Mathlib.Combinatorics.Pigeonhole
import Mathlib.Tactic.Linarith

set_option autoImplicit false

namespace Kiter

/-! ### Walks -/

def walkFlow (ω : ℚ) (p : List EvConstraint) : ℚ := (p.map (flow ω)).sum

theorem walkFlow_append (ω : ℚ) (p q : List EvConstraint) : walkFlow ω (p ++ q) = walkFlow ω p + walkFlow ω q := by
  simp [walkFlow]

theorem IsWalk.append {cs : List EvConstraint} {u m v : Event} {p q : List EvConstraint}
    (h1 : IsWalk cs u p m) (h2 : IsWalk cs m q v) : IsWalk cs u (p ++ q) v := by
  induction p generalizing u with
  | nil => simp only [IsWalk] at h1; subst h1; exact h2
  | cons e p ih => exact ⟨h1.1, h1.2.1, ih h1.2.2⟩

def vertexAt (u : Event) (p : List EvConstraint) (i : ℕ) : Event :=
  match i with
  | 0 => u
  | i + 1 => match p with
    | [] => u
    | e :: p => vertexAt e.dst p i

theorem IsWalk.splitAt {cs : List EvConstraint} {u v : Event} {p : List EvConstraint} (h : IsWalk cs u p v) (i : ℕ) :
    IsWalk cs u (p.take i) (vertexAt u p i) ∧ IsWalk cs (vertexAt u p i) (p.drop i) v := by
  induction i generalizing u p with
  | zero => exact ⟨by simp [IsWalk, vertexAt], by simpa [vertexAt] using h⟩
  | succ i ih =>
    cases p with
    | nil => exact ⟨by simp [IsWalk, vertexAt], by simpa [vertexAt] using h⟩
    | cons e p =>
      obtain ⟨a, b, c⟩ := h
      obtain ⟨h1, h2⟩ := ih c
      exact ⟨⟨a, b, by simpa [vertexAt] using h1⟩, by simpa [vertexAt] using h2⟩

theorem vertexAt_mem {cs : List EvConstraint} {events : List Event} {u v : Event} {p : List EvConstraint}
    (hcs : ∀ c ∈ cs, c.src ∈ events ∧ c.dst ∈ events) (hu : u ∈ events) (h : IsWalk cs u p v) (i : ℕ) :
    vertexAt u p i ∈ events := by
  induction i generalizing u p with
  | zero => simpa [vertexAt] using hu
  | succ i ih =>
    cases p with
    | nil => simpa [vertexAt] using hu
    | cons e p => simpa [vertexAt] using ih (hcs e h.1).2 h.2.2

theorem walk_le_potential {cs : List EvConstraint} {ω : ℚ} {X : Event → ℚ}
    (hX : ∀ c ∈ cs, X c.src + flow ω c ≤ X c.dst) {u v : Event} {p : List EvConstraint} (h : IsWalk cs u p v) :
    X u + walkFlow ω p ≤ X v := by
  induction p generalizing u with
  | nil => simp only [IsWalk] at h; subst h; simp [walkFlow]
  | cons e p ih =>
    obtain ⟨a, b, c⟩ := h
    have h1 := ih c
    have h2 := hX e a
    rw [b] at h2
    have : walkFlow ω (e :: p) = flow ω e + walkFlow ω p := by simp [walkFlow]
    rw [this]; linarith

/-- Without positive circuits every walk can be replaced by one with fewer than `n` edges. -/
theorem exists_short_walk {cs : List EvConstraint} {ω : ℚ} {events : List Event}
    (hcyc : ∀ u p, IsWalk cs u p u → walkFlow ω p ≤ 0)
    (hcs : ∀ c ∈ cs, c.src ∈ events ∧ c.dst ∈ events) (v : Event) :
    ∀ (k : ℕ) (u : Event) (p : List EvConstraint), p.length = k → u ∈ events → IsWalk cs u p v →
      ∃ q, IsWalk cs u q v ∧ q.length < events.length ∧ walkFlow ω p ≤ walkFlow ω q := by
  intro k
  induction k using Nat.strong_induction_on with
  | _ k ih =>
    intro u p hk hu hp
    by_cases hlt : p.length < events.length
    · exact ⟨p, hp, hlt, le_refl _⟩
    · have hmaps : ∀ i ∈ Finset.range (p.length + 1), vertexAt u p i ∈ events.toFinset := by
        intro i _; rw [List.mem_toFinset]; exact vertexAt_mem hcs hu hp i
      have hcard : events.toFinset.card < (Finset.range (p.length + 1)).card := by
        have := List.toFinset_card_le events
        rw [Finset.card_range]; omega
      obtain ⟨i, hi, j, hj, hij, heq⟩ := Finset.exists_ne_map_eq_of_card_lt_of_maps_to hcard hmaps
      wlog hlt' : i < j generalizing i j
      · exact this j hj i hi hij.symm heq.symm (by omega)
      have hj' : j ≤ p.length := by simp at hj; omega
      obtain ⟨a1, a2⟩ := hp.splitAt i
      obtain ⟨b1, b2⟩ := hp.splitAt j
      -- the closed part
      have hmid : IsWalk cs (vertexAt u p i) ((p.take j).drop i) (vertexAt u p i) := by
        obtain ⟨c1, c2⟩ := b1.splitAt i
        have e1 : vertexAt u (p.take j) i = vertexAt u p i := by
          have : ∀ (p : List EvConstraint) (u : Event) (i j : ℕ), i ≤ j → vertexAt u (p.take j) i = vertexAt u p i := by
            intro p
            induction p with
            | nil => intro u i j _; simp
            | cons e p ih =>
              intro u i j hij
              cases i with
              | zero => simp [vertexAt]
              | succ i =>
                cases j with
                | zero => omega
                | succ j => simp only [List.take_succ_cons, vertexAt]; exact ih _ _ _ (by omega)
          exact this p u i j (by omega)
        rw [e1] at c2
        rw [heq] at c2 ⊢
        exact c2
      have hcut : IsWalk cs u (p.take i ++ p.drop j) v := by
        apply a1.append; rw [heq]; exact b2
      have hflow : walkFlow ω p = walkFlow ω (p.take i ++ p.drop j) + walkFlow ω ((p.take j).drop i) := by
        have e : p = (p.take i ++ (p.take j).drop i) ++ p.drop j := by
          have h1 : p.take i = (p.take j).take i := by rw [List.take_take, min_eq_left hlt'.le]
          rw [h1, List.take_append_drop, List.take_append_drop]
        conv_lhs => rw [e]
        simp only [walkFlow_append]; ring
      have hneg := hcyc _ _ hmid
      have hlen : (p.take i ++ p.drop j).length < k := by
        rw [List.length_append, List.length_take, List.length_drop]; omega
      obtain ⟨q, q1, q2, q3⟩ := ih _ hlen u _ rfl hu hcut
      exact ⟨q, q1, q2, by linarith⟩

/-! ### Relaxation -/

section
variable {ω : ℚ}

theorem relax_ge (st : (Event → ℚ) × Bool) (c : EvConstraint) (e : Event) : st.1 e ≤ (relax ω st c).1 e := by
  unfold relax
  split
  · rename_i h
    by_cases he : e = c.dst
    · subst he; simp only [Function.update_self]; linarith
    · simp only [Function.update_of_ne he]; exact le_refl _
  · exact le_refl _

theorem relax_dst (st : (Event → ℚ) × Bool) (c : EvConstraint) : st.1 c.src + flow ω c ≤ (relax ω st c).1 c.dst := by
  unfold relax
  split
  · simp only [Function.update_self]; linarith
  · rename_i h; rw [not_lt] at h; linarith

theorem foldl_relax_ge (l : List EvConstraint) (st : (Event → ℚ) × Bool) (e : Event) :
    st.1 e ≤ (l.foldl (relax ω) st).1 e := by
  induction l generalizing st with
  | nil => exact le_refl _
  | cons c l ih => exact le_trans (relax_ge st c e) (ih _)

theorem foldl_relax_edge (l : List EvConstraint) (st : (Event → ℚ) × Bool) (c : EvConstraint) (hc : c ∈ l) :
    st.1 c.src + flow ω c ≤ (l.foldl (relax ω) st).1 c.dst := by
  induction l generalizing st with
  | nil => simp at hc
  | cons b l ih =>
    rcases List.mem_cons.mp hc with rfl | h
    · exact le_trans (relax_dst st c) (foldl_relax_ge l _ _)
    · have := ih (relax ω st b) h
      have := relax_ge (ω := ω) st b c.src
      simp only [List.foldl_cons]
      linarith

theorem foldl_relax_flag (l : List EvConstraint) (st : (Event → ℚ) × Bool) :
    (l.foldl (relax ω) st).2 = false → st.2 = false ∧ (l.foldl (relax ω) st).1 = st.1 := by
  induction l generalizing st with
  | nil => intro h; exact ⟨h, rfl⟩
  | cons c l ih =>
    intro h
    obtain ⟨h1, h2⟩ := ih _ h
    simp only [List.foldl_cons]
    unfold relax at h1 h2 ⊢
    split at h1
    · simp at h1
    · rename_i hc
      rw [if_neg hc] at h2 ⊢
      exact ⟨h1, h2⟩

/-- Every value is 0 or the flow of a walk from a visited event. -/
def FromWalk (ω : ℚ) (cs : List EvConstraint) (events : List Event) (S : Event → ℚ) : Prop :=
  ∀ v ∈ events, ∃ u ∈ events, ∃ p, IsWalk cs u p v ∧ S v = walkFlow ω p

theorem relax_fromWalk {cs : List EvConstraint} {events : List Event} {st : (Event → ℚ) × Bool} {c : EvConstraint}
    (hcs : ∀ c ∈ cs, c.src ∈ events ∧ c.dst ∈ events) (hc : c ∈ cs)
    (h : FromWalk ω cs events st.1) : FromWalk ω cs events (relax ω st c).1 := by
  intro v hv
  unfold relax
  split
  · by_cases he : v = c.dst
    · subst he
      simp only [Function.update_self]
      obtain ⟨u, hu, p, hp, hf⟩ := h c.src (hcs c hc).1
      refine ⟨u, hu, p ++ [c], hp.append ⟨hc, rfl, rfl⟩, ?_⟩
      rw [walkFlow_append, ← hf]
      simp [walkFlow]; ring
    · simp only [Function.update_of_ne he]; exact h v hv
  · exact h v hv

theorem foldl_relax_fromWalk {cs : List EvConstraint} {events : List Event} (l : List EvConstraint)
    (hcs : ∀ c ∈ cs, c.src ∈ events ∧ c.dst ∈ events) (hl : ∀ c ∈ l, c ∈ cs) (st : (Event → ℚ) × Bool)
    (h : FromWalk ω cs events st.1) : FromWalk ω cs events (l.foldl (relax ω) st).1 := by
  induction l generalizing st with
  | nil => exact h
  | cons c l ih =>
    exact ih (fun b hb => hl b (by simp [hb])) _ (relax_fromWalk hcs (hl c (by simp)) h)

/-- After the rounds: the values dominate all walks with at most `n` edges from the initial values, or all
constraints hold already. -/
theorem relaxRounds_spec {cs : List EvConstraint} {events : List Event} (order : List EvConstraint)
    (hcs : ∀ c ∈ cs, c.src ∈ events ∧ c.dst ∈ events) (ho : ∀ c, c ∈ order ↔ c ∈ cs) (n : ℕ) (S : Event → ℚ)
    (h : FromWalk ω cs events S) :
    FromWalk ω cs events (relaxRounds ω order n S) ∧
    (∀ e, S e ≤ relaxRounds ω order n S e) ∧
    ((∀ c ∈ cs, relaxRounds ω order n S c.src + flow ω c ≤ relaxRounds ω order n S c.dst) ∨
      ∀ (u v : Event) (p : List EvConstraint), IsWalk cs u p v → p.length ≤ n →
        S u + walkFlow ω p ≤ relaxRounds ω order n S v) := by
  induction n generalizing S with
  | zero =>
    refine ⟨h, fun _ => le_refl _, Or.inr fun u v p hp hl => ?_⟩
    have : p = [] := List.length_eq_zero_iff.mp (by omega)
    subst this
    simp only [IsWalk] at hp
    subst hp
    simp [walkFlow, relaxRounds]
  | succ n ih =>
    unfold relaxRounds
    simp only
    have hw := foldl_relax_fromWalk order hcs (fun c hc => (ho c).mp hc) (S, false) h
    have hge : ∀ e, S e ≤ (relaxRound ω order S).1 e := fun e => foldl_relax_ge order (S, false) e
    split
    · obtain ⟨i1, i2, i3⟩ := ih (relaxRound ω order S).1 hw
      refine ⟨i1, fun e => le_trans (hge e) (i2 e), ?_⟩
      rcases i3 with i3 | i3
      · exact Or.inl i3
      · right
        intro u v p hp hl
        cases p with
        | nil =>
          have := i3 u v [] hp (by simp)
          have := hge u
          linarith
        | cons c p =>
          obtain ⟨a, b, hp⟩ := hp
          have h1 := i3 c.dst v p hp (by simpa using hl)
          have h2 := foldl_relax_edge (ω := ω) order (S, false) c ((ho c).mpr a)
          have : walkFlow ω (c :: p) = flow ω c + walkFlow ω p := by simp [walkFlow]
          rw [this, ← b]
          have h3 : (relaxRound ω order S).1 = (order.foldl (relax ω) (S, false)).1 := rfl
          rw [h3] at h1 ⊢
          simp only at h2
          linarith
    · rename_i hflag
      have hflag : (relaxRound ω order S).2 = false := by simpa using hflag
      obtain ⟨-, he⟩ := foldl_relax_flag order (S, false) hflag
      have he' : (relaxRound ω order S).1 = S := he
      refine ⟨hw, hge, Or.inl fun c hc => ?_⟩
      have := foldl_relax_edge (ω := ω) order (S, false) c ((ho c).mpr hc)
      rw [he] at this
      rw [he']
      exact this

end

theorem mem_relaxOrder {cs : List EvConstraint} {events : List Event}
    (hcs : ∀ c ∈ cs, c.src ∈ events ∧ c.dst ∈ events) (c : EvConstraint) : c ∈ relaxOrder events cs ↔ c ∈ cs := by
  unfold relaxOrder
  simp only [List.mem_flatMap, List.mem_filter, decide_eq_true_eq]
  constructor
  · rintro ⟨_, _, h, _⟩; exact h
  · intro h; exact ⟨c.src, (hcs c h).1, h, rfl⟩

theorem foldl_min_spec (S : Event → ℚ) (es : List Event) (a : ℚ) :
    (∀ x ∈ es, es.foldl (fun acc x => min acc (S x)) a ≤ S x) ∧ es.foldl (fun acc x => min acc (S x)) a ≤ a ∧
    (es.foldl (fun acc x => min acc (S x)) a = a ∨ ∃ x ∈ es, es.foldl (fun acc x => min acc (S x)) a = S x) := by
  induction es generalizing a with
  | nil => simp
  | cons y es ih =>
    obtain ⟨h1, h2, h3⟩ := ih (min a (S y))
    simp only [List.foldl_cons]
    refine ⟨?_, le_trans h2 (min_le_left _ _), ?_⟩
    · intro x hx
      rcases List.mem_cons.mp hx with rfl | hx
      · exact le_trans h2 (min_le_right _ _)
      · exact h1 x hx
    · rcases h3 with h3 | ⟨x, hx, h3⟩
      · rcases min_choice a (S y) with h | h
        · left; rw [h3, h]
        · right; exact ⟨y, by simp, by rw [h3, h]⟩
      · right; exact ⟨x, by simp [hx], h3⟩

theorem relaxRounds_sat {cs : List EvConstraint} {events : List Event} {ω : ℚ}
    (hcs : ∀ c ∈ cs, c.src ∈ events ∧ c.dst ∈ events) (hcyc : ∀ u p, IsWalk cs u p u → walkFlow ω p ≤ 0) :
    let R := relaxRounds ω (relaxOrder events cs) events.length (fun _ => 0)
    (∀ c ∈ cs, R c.src + flow ω c ≤ R c.dst) ∧ (∀ e, 0 ≤ R e) ∧ FromWalk ω cs events R := by
  intro R
  have h0 : FromWalk ω cs events (fun _ => 0) := fun v hv => ⟨v, hv, [], rfl, by simp [walkFlow]⟩
  obtain ⟨h1, h2, h3⟩ := relaxRounds_spec (ω := ω) (relaxOrder events cs) hcs (mem_relaxOrder hcs) events.length (fun _ => 0) h0
  refine ⟨?_, h2, h1⟩
  rcases h3 with h3 | h3
  · exact h3
  · intro c hc
    obtain ⟨u, hu, p, hp, hf⟩ := h1 c.src (hcs c hc).1
    have hp' : IsWalk cs u (p ++ [c]) c.dst := hp.append ⟨hc, rfl, rfl⟩
    obtain ⟨q, q1, q2, q3⟩ := exists_short_walk hcyc hcs c.dst _ u _ rfl hu hp'
    have := h3 u c.dst q q1 (by omega)
    rw [walkFlow_append] at q3
    have e : walkFlow ω [c] = flow ω c := by simp [walkFlow]
    show R c.src + flow ω c ≤ R c.dst
    have hf' : R c.src = walkFlow ω p := hf
    rw [hf']
    simp only [zero_add] at this
    linarith [this]

end Kiter
