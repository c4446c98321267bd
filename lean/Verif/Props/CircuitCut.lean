/-
C113: the channels the bufferless mapping ignores to order the tasks leave no circuit.
-/
import Verif.Lemmas.CircuitList

set_option autoImplicit false

namespace Kiter

open BMap Cut

/-- C113: in a graph without self-loop, the lengths kept for a vertex are those of the circuits that can be reached from
it, each set of vertices counted once, in increasing order. -/
theorem C113_circuits {vs : List ℕ} {cs : List Chan} {start : ℕ}
    (hvs : ∀ e ∈ cs, e.src ∈ vs ++ [start] ∧ e.dst ∈ vs ++ [start]) (hself : ∀ e ∈ cs, e.src ≠ e.dst) :
    ∃ f, circuitLengths vs cs start = some f ∧ ∀ v, (f v).Pairwise (· ≤ ·) ∧
      ∃ C : Finset (Finset ℕ), (∀ c, c ∈ C ↔ CircuitFrom (ends cs) v c) ∧ (f v : Multiset ℕ) = C.val.map Finset.card :=
  lengths_ok hvs hself

namespace Cut

theorem withStart_ok {vs : List ℕ} {cs : List Chan} {start : ℕ} (hvs : ∀ e ∈ cs, e.src ∈ vs ∧ e.dst ∈ vs)
    (hself : ∀ e ∈ cs, e.src ≠ e.dst) (hs : start ∉ vs) (hne : vs ≠ []) :
    ∃ g, withStart vs cs start = some g ∧ (∀ e ∈ g, e.src ∈ vs ++ [start] ∧ e.dst ∈ vs ++ [start]) ∧
      (∀ e ∈ g, e.src ≠ e.dst) ∧ (∀ e ∈ cs, e ∈ g) ∧ (∀ e ∈ g, e ∈ cs ∨ (e.src = start ∧ e.dst ∈ vs)) := by
  cases vs with
  | nil => exact absurd rfl hne
  | cons a l =>
    set vs := a :: l with hvsd
    refine ⟨_, rfl, ?_⟩
    have hnew : ∀ e ∈ (if (vs.filter fun v => ins cs v = []) = [] then [a] else vs.filter fun v => ins cs v = []).map
        fun v => (⟨0, start, v⟩ : Chan), e.src = start ∧ e.dst ∈ vs := by
      intro e he
      obtain ⟨v, hv, rfl⟩ := List.mem_map.mp he
      refine ⟨rfl, ?_⟩
      split at hv
      · rw [List.mem_singleton.mp hv]
        exact List.mem_cons_self
      · exact List.mem_of_mem_filter hv
    refine ⟨fun e he => ?_, fun e he => ?_, fun e he => List.mem_append_left _ he, fun e he => ?_⟩
    · rcases List.mem_append.mp he with h | h
      · exact ⟨List.mem_append_left _ (hvs e h).1, List.mem_append_left _ (hvs e h).2⟩
      · obtain ⟨h1, h2⟩ := hnew e h
        exact ⟨by rw [h1]; simp, List.mem_append_left _ h2⟩
    · rcases List.mem_append.mp he with h | h
      · exact hself e h
      · obtain ⟨h1, h2⟩ := hnew e h
        intro hc
        exact hs (h1 ▸ hc ▸ h2)
    · rcases List.mem_append.mp he with h | h
      · exact Or.inl h
      · exact Or.inr (hnew e h)

theorem fold_removed (cyclen : ℕ → List ℕ) (T : List Event) (l : List ℕ) (i : ℕ) :
    i ∈ T.foldl (act (fun _ l => l) (fun e l => if (cyclen e.dst).length > 0 then l ++ [e.id] else l) (fun _ l => l)) l ↔
      i ∈ l ∨ ∃ e, Event.seen e ∈ T ∧ cyclen e.dst ≠ [] ∧ e.id = i := by
  induction T generalizing l with
  | nil => simp
  | cons x T ih =>
    rw [List.foldl_cons, ih]
    cases x with
    | enter v => simp [act]
    | leave v => simp [act]
    | seen e =>
      simp only [act, List.mem_cons, Event.seen.injEq]
      by_cases h : (cyclen e.dst).length > 0
      · have h' : cyclen e.dst ≠ [] := List.ne_nil_of_length_pos h
        rw [if_pos h, List.mem_append, List.mem_singleton]
        constructor
        · rintro ((h1 | h1) | ⟨e', h1, h2⟩)
          · exact Or.inl h1
          · exact Or.inr ⟨e, Or.inl rfl, h', h1.symm⟩
          · exact Or.inr ⟨e', Or.inr h1, h2⟩
        · rintro (h1 | ⟨e', h1 | h1, h2, h3⟩)
          · exact Or.inl (Or.inl h1)
          · subst h1
            exact Or.inl (Or.inr h3.symm)
          · exact Or.inr ⟨e', h1, h2, h3⟩
      · have h' : cyclen e.dst = [] := List.eq_nil_of_length_eq_zero (by omega)
        rw [if_neg h]
        constructor
        · rintro (h1 | ⟨e', h1, h2⟩)
          · exact Or.inl h1
          · exact Or.inr ⟨e', Or.inr h1, h2⟩
        · rintro (h1 | ⟨e', h1 | h1, h2, h3⟩)
          · exact Or.inl h1
          · subst h1
            exact absurd h' h2
          · exact Or.inr ⟨e', h1, h2, h3⟩

theorem before_index {a b : ℕ} {L : List ℕ} (hn : L.Nodup) (h : Before a b L) : L.idxOf a < L.idxOf b ∧ L.idxOf b < L.length := by
  obtain ⟨l₁, l₂, rfl, ha⟩ := h
  have hb : b ∉ l₁ := fun hb => (List.nodup_append.mp hn).2.2 b hb b List.mem_cons_self rfl
  rw [List.idxOf_append_of_mem ha, List.idxOf_append_of_notMem hb, List.idxOf_cons_self]
  have := List.idxOf_lt_length_of_mem ha
  simp only [List.length_append, List.length_cons]
  omega

end Cut

/-- A graph the order of the tasks is made for: distinct ids, channels between different tasks, and a `start` that is new. -/
structure Cut.Input (vs : List ℕ) (cs : List Chan) (prog : List ℕ) (start : ℕ) : Prop where
  ids : (cs.map fun e => e.id).Nodup
  inside : ∀ e ∈ cs, e.src ∈ vs ∧ e.dst ∈ vs
  self : ∀ e ∈ cs, e.src ≠ e.dst
  tasks : vs ≠ []
  new : start ∉ vs
  prog : ∀ v, v ∈ prog ↔ v ∈ vs

/-- C113: the channels that are kept make no circuit and `start` is joined to the tasks that none enters, so the tasks can be
taken one after the other; every channel is one of the graph or comes from `start`, and a channel is left out only if its
target leads to a circuit of the graph. -/
theorem C113_order {size : ℕ} {vs : List ℕ} {cs : List Chan} {prog : List ℕ} {start : ℕ} (h : Input vs cs prog start)
    (hsize : ∀ v ∈ vs, v < size) :
    ∃ dag, orderGraphWith size vs cs prog start = some dag ∧ TakesAll vs (ends dag) start ∧
      (∀ e ∈ dag, e ∈ cs ∨ e.src = start) ∧ (∀ e ∈ cs, e ∉ dag → ∃ c, CircuitFrom (ends cs) e.dst c) ∧
      (vs.Nodup → (ends cs).Nodup → (ends dag).Nodup) := by
  obtain ⟨g, g1, g2, g3, g4, g5⟩ := withStart_ok h.inside h.self h.new h.tasks
  obtain ⟨f, f1, f2⟩ := lengths_ok (start := start) g2 g3
  unfold orderGraphWith removeCycleEdges
  rw [g1, Option.bind_some, f1, Option.bind_some, if_neg (by
    simp only [List.any_eq_true, decide_eq_true_eq, not_exists, not_and, not_le]
    exact hsize)]
  obtain ⟨r, L, T, d1, d2, d3, d4⟩ := dfsAll_visits (next := outs cs) (far := Chan.dst) (enter := fun _ (l : List ℕ) => l)
    (seen := fun e l => if (f e.dst).length > 0 then l ++ [e.id] else l) (leave := fun _ l => l) (vs := vs)
    (fun v _ e he => (h.inside e (List.mem_of_mem_filter he)).2) (vs.length + 1) (Nat.le_succ _) prog
    (fun v hv => (h.prog v).mp hv) (fun _ => false, [])
  rw [d1, Option.map_some]
  have hrem : ∀ i, i ∈ r.2 ↔ ∃ e, Event.seen e ∈ T ∧ f e.dst ≠ [] ∧ e.id = i := by
    intro i
    rw [d2.state, fold_removed]
    simp
  have hL : ∀ v ∈ vs, v ∈ L := by
    intro v hv
    rcases (d2.mark v).mp (d3 v ((h.prog v).mpr hv)) with h' | h'
    · cases h'
    · exact h'
  have hsub : ∀ a b, (a, b) ∈ ends cs → (a, b) ∈ ends g := by
    intro a b hab
    obtain ⟨e, he, h'⟩ := List.mem_map.mp hab
    exact List.mem_map.mpr ⟨e, g4 e he, h'⟩
  have hkeep : ∀ e ∈ cs, e.id ∉ r.2 → Before e.dst e.src L := by
    intro e he hid
    rcases d2.back e.src (hL _ (h.inside e he).1) e (by unfold BMap.outs; simp [he]) with h1 | ⟨h1, h2⟩
    · exact h1
    · exfalso
      have hreach : Reaches (ends g) e.dst e.src := by
        rcases h2 with h2 | h2
        · cases h2
        · exact (leads_outs.mp h2).lift id hsub
      obtain ⟨q, q1, q2⟩ := circuit_of_back hreach (List.mem_map.mpr ⟨e, g4 e he, rfl⟩)
      obtain ⟨_, C, hC, hf⟩ := f2 e.dst
      refine hid ((hrem _).mpr ⟨e, h1, fun hnil => ?_, rfl⟩)
      have hmem := (hC q.toFinset).mpr ⟨q, q1, rfl, e.dst, List.mem_of_mem_head? q2, Relation.ReflTransGen.refl⟩
      rw [hnil] at hf
      have h0 : C.val = 0 := Multiset.map_eq_zero.mp hf.symm
      rw [Finset.val_eq_zero.mp h0] at hmem
      simp at hmem
  set kept := cs.filter fun e => e.id ∉ r.2 with hkd
  have hk : ∀ e, e ∈ kept ↔ e ∈ cs ∧ e.id ∉ r.2 := fun e => by rw [hkd, List.mem_filter]; simp
  refine ⟨_, rfl, ⟨⟨fun v => if v = start then 0 else L.length - L.idxOf v, ?_⟩, ?_, ?_, ?_, h.new⟩, ?_, ?_, ?_⟩
  · intro x hx
    obtain ⟨e, he, rfl⟩ := List.mem_map.mp hx
    rcases List.mem_append.mp he with he | he
    · obtain ⟨e1, e2⟩ := (hk e).mp he
      obtain ⟨b1, b2⟩ := before_index d2.nodup (hkeep e e1 e2)
      obtain ⟨i1, i2⟩ := h.inside e e1
      have n1 : e.src ≠ start := fun hc => h.new (hc ▸ i1)
      have n2 : e.dst ≠ start := fun hc => h.new (hc ▸ i2)
      simp only [if_neg n1, if_neg n2]
      omega
    · obtain ⟨v, hv, rfl⟩ := List.mem_map.mp he
      have hv' := List.mem_of_mem_filter hv
      have n2 : v ≠ start := fun hc => h.new (hc ▸ hv')
      simp only [if_neg n2, if_true]
      have := List.idxOf_lt_length_of_mem (hL v hv')
      omega
  · intro x hx
    obtain ⟨e, he, rfl⟩ := List.mem_map.mp hx
    rcases List.mem_append.mp he with he | he
    · exact Or.inl (h.inside e ((hk e).mp he).1).1
    · obtain ⟨v, hv, rfl⟩ := List.mem_map.mp he
      exact Or.inr rfl
  · intro x hx
    obtain ⟨e, he, rfl⟩ := List.mem_map.mp hx
    rcases List.mem_append.mp he with he | he
    · exact (h.inside e ((hk e).mp he).1).2
    · obtain ⟨v, hv, rfl⟩ := List.mem_map.mp he
      exact List.mem_of_mem_filter hv
  · intro v hv
    by_cases hin : BMap.ins kept v = []
    · refine ⟨start, List.mem_map.mpr ⟨⟨0, start, v⟩, List.mem_append_right _ (List.mem_map.mpr ⟨v, ?_, rfl⟩), rfl⟩⟩
      rw [List.mem_filter]
      exact ⟨hv, by simpa using hin⟩
    · obtain ⟨e, he⟩ := List.exists_mem_of_ne_nil _ hin
      unfold BMap.ins at he
      rw [List.mem_filter, decide_eq_true_eq] at he
      exact ⟨e.src, List.mem_map.mpr ⟨e, List.mem_append_left _ he.1, by rw [he.2]⟩⟩
  · intro e he
    rcases List.mem_append.mp he with he | he
    · exact Or.inl ((hk e).mp he).1
    · obtain ⟨v, hv, rfl⟩ := List.mem_map.mp he
      exact Or.inr rfl
  · intro e e1 e3
    have hid : e.id ∈ r.2 := by
      by_contra hc
      exact e3 (List.mem_append_left _ ((hk e).mpr ⟨e1, hc⟩))
    obtain ⟨e', s1, s2, s3⟩ := (hrem _).mp hid
    rcases d2.seens e' s1 with h1 | ⟨y, h1, h2⟩
    · cases h1
    · have he' : e' ∈ cs := List.mem_of_mem_filter h2
      have hee : e' = e := List.inj_on_of_nodup_map h.ids he' e1 s3
      subst hee
      obtain ⟨_, C, hC, hf⟩ := f2 e'.dst
      have hne : C.Nonempty := by
        rw [Finset.nonempty_iff_ne_empty]
        rintro rfl
        apply s2
        simpa using hf
      obtain ⟨c, hc⟩ := hne
      obtain ⟨q, q1, q2, w, q3, q4⟩ := (hC c).mp hc
      have hedge : ∀ a b, a ∈ vs → (a, b) ∈ ends g → (a, b) ∈ ends cs := by
        intro a b ha hab
        obtain ⟨e, he, h'⟩ := List.mem_map.mp hab
        simp only [Prod.mk.injEq] at h'
        rcases g5 e he with h3 | h3
        · exact List.mem_map.mpr ⟨e, h3, by rw [h'.1, h'.2]⟩
        · exact absurd (h3.1 ▸ h'.1 ▸ ha) h.new
      have hstay : ∀ a b, a ∈ vs → Reaches (ends g) a b → b ∈ vs ∧ Reaches (ends cs) a b := by
        intro a b ha hab
        induction hab with
        | refl => exact ⟨ha, Relation.ReflTransGen.refl⟩
        | tail _ h4 ih =>
          have h5 := hedge _ _ ih.1 h4
          obtain ⟨e, he, h'⟩ := List.mem_map.mp h5
          simp only [Prod.mk.injEq] at h'
          exact ⟨h'.2 ▸ (h.inside e he).2, ih.2.tail h5⟩
      obtain ⟨v, hv, _⟩ := q1.2
      obtain ⟨y, _, y2, y3⟩ := circuit_back g3 q1 hv
      obtain ⟨v1, v2⟩ := hstay _ _ (h.inside e' he').2 (q4.trans (reaches_inside q1 hv q3))
      obtain ⟨w1, w2⟩ := hstay _ _ v1 y3
      obtain ⟨q', p1, p2⟩ := circuit_of_back w2 (hedge _ _ w1 y2)
      exact ⟨q'.toFinset, q', p1, rfl, v, List.mem_of_mem_head? p2, v2⟩
  · intro hn he
    unfold ends
    rw [List.map_append]
    refine List.Nodup.append (he.sublist (List.filter_sublist.map _)) ?_ fun x h1 h2 => ?_
    · rw [List.map_map]
      exact (hn.filter _).map_on fun a _ b _ hab => by simpa using hab
    · obtain ⟨e, e1, rfl⟩ := List.mem_map.mp h1
      obtain ⟨e', e2, e3⟩ := List.mem_map.mp h2
      obtain ⟨v, hv, rfl⟩ := List.mem_map.mp e2
      simp only [Prod.mk.injEq] at e3
      exact h.new (e3.1 ▸ (h.inside e ((hk e).mp e1).1).1)

end Kiter
