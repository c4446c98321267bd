/-
The search of the simple cycles through a task: what is blocked, and what is found.
-/
import Verif.Spec.CycleCount
import Mathlib.Data.List.Sort
import Mathlib.Tactic.Push
import Mathlib.Tactic.Ring

set_option autoImplicit false

namespace Kiter.CycleCount

/-- What `unblock` does: tasks are removed, with all those that wait for them; their entries are emptied. -/
structure Unblocks (s s' : State) : Prop where
  sub : List.Sublist s'.blocked s.blocked
  cycles : s'.cycles = s.cycles
  removed : ∀ y ∈ s.blocked, y ∉ s'.blocked → (∀ x ∈ s.waiting y, x ∉ s'.blocked) ∧ s'.waiting y = []
  kept : ∀ y, (y ∈ s.blocked → y ∈ s'.blocked) → s'.waiting y = s.waiting y

theorem Unblocks.refl (s : State) : Unblocks s s := ⟨List.Sublist.refl _, rfl, fun _ h h' => absurd h h', fun _ _ => rfl⟩

theorem Unblocks.trans {a b c : State} (h : Unblocks a b) (k : Unblocks b c) : Unblocks a c where
  sub := k.sub.trans h.sub
  cycles := k.cycles.trans h.cycles
  removed := by
    intro y hy hc
    by_cases hb : y ∈ b.blocked
    · have e := h.kept y fun _ => hb
      have := k.removed y hb hc
      rwa [e] at this
    · have h1 := h.removed y hy hb
      refine ⟨fun x hx hxc => h1.1 x hx (k.sub.subset hxc), ?_⟩
      rw [k.kept y fun h => absurd h hb, h1.2]
  kept := by
    intro y hy
    have hb : y ∈ a.blocked → y ∈ b.blocked := fun h => k.sub.subset (hy h)
    rw [k.kept y fun hb => ?_, h.kept y hb]
    exact hy (h.sub.subset hb)

/-- A set that nothing outside of it blocks. -/
def Protected (s : State) (D : Int → Prop) : Prop := ∀ x, D x → ∀ y, x ∈ s.waiting y → D y

theorem Protected.sub {s s' : State} (h : Unblocks s s') {D : Int → Prop} (hD : Protected s D) : Protected s' D := by
  intro x hx y hy
  by_cases hc : y ∈ s.blocked → y ∈ s'.blocked
  · exact hD x hx y (by rwa [h.kept y hc] at hy)
  · push Not at hc
    rw [(h.removed y hc.1 hc.2).2] at hy
    simp at hy

theorem unblock_spec (n : ℕ) : ∀ (s : State) (i : Int), i ∈ s.blocked → s.blocked.length ≤ n →
    ∃ s', unblock n s i = some s' ∧ Unblocks s s' ∧ i ∉ s'.blocked ∧
      ∀ D, Protected s D → ¬ D i → ∀ x ∈ s.blocked, D x → x ∈ s'.blocked := by
  induction n with
  | zero =>
    intro s i hi hn
    have : s.blocked = [] := List.length_eq_zero_iff.1 (Nat.le_zero.1 hn)
    rw [this] at hi
    simp at hi
  | succ n ih =>
    intro s i hi hn
    -- the loop
    have loop : ∀ (l : List Int) (t : State), t.blocked.length ≤ n → ∃ t',
        l.foldlM (fun (s : State) a => if a ∈ s.blocked then unblock n s a else some s) t = some t' ∧ Unblocks t t' ∧
          (∀ x ∈ l, x ∉ t'.blocked) ∧ ∀ D, Protected t D → (∀ x ∈ l, ¬ D x) → ∀ x ∈ t.blocked, D x → x ∈ t'.blocked := by
      intro l
      induction l with
      | nil => exact fun t _ => ⟨t, rfl, Unblocks.refl t, by simp, fun _ _ _ _ h _ => h⟩
      | cons a l ihl =>
        intro t ht
        by_cases ha : a ∈ t.blocked
        · obtain ⟨t1, e1, u1, na, p1⟩ := ih t a ha ht
          obtain ⟨t2, e2, u2, nl, p2⟩ := ihl t1 (u1.sub.length_le.trans ht)
          refine ⟨t2, ?_, u1.trans u2, ?_, ?_⟩
          · rw [List.foldlM_cons, if_pos ha, e1]; exact e2
          · intro x hx
            rcases List.mem_cons.1 hx with rfl | hx
            · exact fun h => na (u2.sub.subset h)
            · exact nl x hx
          · intro D hD hl x hx hDx
            exact p2 D (hD.sub u1) (fun y hy => hl y (by simp [hy])) x (p1 D hD (hl a (by simp)) x hx hDx) hDx
        · obtain ⟨t2, e2, u2, nl, p2⟩ := ihl t ht
          refine ⟨t2, ?_, u2, ?_, ?_⟩
          · rw [List.foldlM_cons, if_neg ha]; exact e2
          · intro x hx
            rcases List.mem_cons.1 hx with rfl | hx
            · exact fun h => ha (u2.sub.subset h)
            · exact nl x hx
          · exact fun D hD hl => p2 D hD fun y hy => hl y (by simp [hy])
    set s1 : State := ⟨s.blocked.filter fun j => decide (j ≠ i), s.waiting, s.cycles⟩ with hs1
    have m1 : ∀ x, x ∈ s1.blocked ↔ x ∈ s.blocked ∧ x ≠ i := by intro x; simp [hs1]
    have l1 : s1.blocked.length ≤ n := by
      have : s1.blocked.length < s.blocked.length := by
        rw [hs1]
        refine List.length_filter_lt_length_iff_exists.2 ⟨i, hi, by simp⟩
      omega
    obtain ⟨t, e, u, nl, p⟩ := loop (s.waiting i) s1 l1
    have it : i ∉ t.blocked := fun h => ((m1 i).1 (u.sub.subset h)).2 rfl
    refine ⟨⟨t.blocked, fun j => if j = i then [] else t.waiting j, t.cycles⟩, ?_, ?_, it, ?_⟩
    · rw [unblock, if_pos hi, e]; rfl
    · refine ⟨u.sub.trans List.filter_sublist, u.cycles, ?_, ?_⟩
      · intro y hy hyt
        by_cases hyi : y = i
        · subst hyi
          exact ⟨nl, if_pos rfl⟩
        · have := u.removed y ((m1 y).2 ⟨hy, hyi⟩) hyt
          exact ⟨this.1, by simp only [if_neg hyi]; exact this.2⟩
      · intro y hy
        by_cases hyi : y = i
        · subst hyi
          exact absurd (hy hi) it
        · simp only [if_neg hyi]
          exact u.kept y fun h => hy ((m1 y).1 h).1
    · intro D hD hDi x hx hDx
      have hxi : x ≠ i := fun h => hDi (h ▸ hDx)
      exact p D hD (fun y hy hDy => hDi (hD y hDy i hy)) x ((m1 x).2 ⟨hx, hxi⟩) hDx

theorem mem_wait (s : State) (i a j x : Int) : x ∈ (s.wait i a).waiting j ↔ x ∈ s.waiting j ∨ (j = i ∧ x = a) := by
  simp only [State.wait]
  by_cases hj : j = i
  · subst hj
    by_cases ha : a ∈ s.waiting j
    · rw [if_pos rfl, if_pos ha]
      simp only [true_and]
      exact ⟨Or.inl, fun h => h.elim id fun h => h ▸ ha⟩
    · rw [if_pos rfl, if_neg ha, List.mem_orderedInsert]
      simp only [true_and]
      exact or_comm
  · simp [hj]

theorem waits_spec (cur : Int) (l : List Channel) : ∀ s : State,
    (l.foldl (fun s c => s.wait c.dst cur) s).blocked = s.blocked ∧ (l.foldl (fun s c => s.wait c.dst cur) s).cycles = s.cycles ∧
      ∀ y x, x ∈ (l.foldl (fun s c => s.wait c.dst cur) s).waiting y ↔ x ∈ s.waiting y ∨ (x = cur ∧ ∃ c ∈ l, c.dst = y) := by
  induction l with
  | nil => intro s; simp
  | cons a l ih =>
    intro s
    obtain ⟨h1, h2, h3⟩ := ih (s.wait a.dst cur)
    refine ⟨h1, h2, fun y x => ?_⟩
    rw [List.foldl_cons, h3, mem_wait]
    simp only [List.mem_cons, exists_eq_or_imp]
    constructor
    · rintro ((h | ⟨rfl, rfl⟩) | ⟨rfl, h⟩)
      · exact .inl h
      · exact .inr ⟨rfl, .inl rfl⟩
      · exact .inr ⟨rfl, .inr h⟩
    · rintro (h | ⟨rfl, rfl | h⟩)
      · exact .inl (.inl h)
      · exact .inl (.inr ⟨rfl, rfl⟩)
      · exact .inr ⟨rfl, h⟩

/-- The channels complete the path of the stack, which ends in `v`, to a simple cycle. -/
structure Completes (g : Graph) (start : Int) (stack : List Int) (v : Int) (p : List Channel) : Prop where
  nonempty : p ≠ []
  chans : ∀ c ∈ p, c ∈ g.channels
  trail : Trail v p start
  simple : (p.tail.map fun c => c.src).Nodup
  fresh : ∀ c ∈ p.tail, c.src ∉ stack

theorem completes_one {g : Graph} {start : Int} {stack : List Int} {v : Int} {c : Channel} :
    Completes g start stack v [c] ↔ c ∈ g.channels ∧ c.src = v ∧ c.dst = start := by
  constructor
  · intro h
    exact ⟨h.chans c (by simp), h.trail.1, h.trail.2⟩
  · rintro ⟨h1, h2, h3⟩
    exact ⟨by simp, by simpa using h1, ⟨h2, h3⟩, by simp, by simp⟩

theorem completes_cons {g : Graph} {start : Int} {stack : List Int} {v : Int} {c : Channel} {p : List Channel} (hp : p ≠ []) :
    Completes g start stack v (c :: p) ↔ c ∈ g.channels ∧ c.src = v ∧ c.dst ∉ stack ∧
      Completes g start (stack ++ [c.dst]) c.dst p := by
  obtain ⟨d, q, rfl⟩ : ∃ d q, p = d :: q := by
    cases p with
    | nil => exact absurd rfl hp
    | cons d q => exact ⟨d, q, rfl⟩
  constructor
  · intro h
    have hd : d.src = c.dst := h.trail.2.1
    have hn : d.src ∉ q.map (fun c => c.src) ∧ (q.map fun c => c.src).Nodup := by simpa using h.simple
    refine ⟨h.chans c (by simp), h.trail.1, hd ▸ h.fresh d (by simp), by simp, fun e he => h.chans e (by simp [List.mem_cons.1 he]),
      h.trail.2, hn.2, fun e he => ?_⟩
    simp only [List.tail_cons] at he
    rw [List.mem_append, not_or]
    refine ⟨h.fresh e (by simp [he]), fun h1 => hn.1 ?_⟩
    rw [hd, ← List.mem_singleton.1 h1]
    exact List.mem_map.2 ⟨e, he, rfl⟩
  · rintro ⟨h1, h2, h3, h⟩
    have hd : d.src = c.dst := h.trail.1
    refine ⟨by simp, ?_, ⟨h2, h.trail⟩, ?_, ?_⟩
    · intro e he
      rcases List.mem_cons.1 he with rfl | he
      · exact h1
      · exact h.chans e he
    · simp only [List.tail_cons, List.map_cons, List.nodup_cons]
      refine ⟨fun hm => ?_, h.simple⟩
      obtain ⟨e, he, e1⟩ := List.mem_map.1 hm
      exact h.fresh e he (by simp [e1, hd])
    · intro e he
      rcases List.mem_cons.1 he with rfl | he
      · rw [hd]; exact h3
      · exact fun hm => h.fresh e he (by simp [hm])

/-- The state of the search: tasks on the stack are blocked; the others that are blocked lead only to blocked tasks, for which they
wait. -/
structure Inv (g : Graph) (start : Int) (stack : List Int) (s : State) : Prop where
  onStack : ∀ x ∈ stack, x ∈ s.blocked
  closed : ∀ x ∈ s.blocked, x ∉ stack → ∀ c ∈ g.channels, c.src = x → c.dst ≠ start ∧ c.dst ∈ s.blocked ∧ x ∈ s.waiting c.dst
  waits : ∀ y x, x ∈ s.waiting y → y ∈ s.blocked

/-- What was blocked stays blocked, and waits for nothing new. -/
structure Grows (s s' : State) : Prop where
  blocked : ∀ x ∈ s.blocked, x ∈ s'.blocked
  waiting : ∀ x ∈ s.blocked, ∀ y, x ∈ s'.waiting y → x ∈ s.waiting y

theorem Grows.trans {a b c : State} (h : Grows a b) (k : Grows b c) : Grows a c :=
  ⟨fun x hx => k.blocked x (h.blocked x hx), fun x hx y hy => h.waiting x hx y (k.waiting x (h.blocked x hx) y hy)⟩

/-- From a blocked task outside of the stack, no path that avoids the stack leads to the start. -/
theorem Inv.no_path {g : Graph} {start : Int} {stack : List Int} {s : State} (h : Inv g start stack s) :
    ∀ (p : List Channel) {v : Int} (st : List Int), (∀ x ∈ stack, x ∈ st) → v ∈ s.blocked → v ∉ stack →
      ¬ Completes g start st v p := by
  intro p
  induction p with
  | nil => exact fun _ _ _ _ hp => hp.nonempty rfl
  | cons c p ih =>
    intro v st hst hv hvs hp
    have hc := h.closed v hv hvs c (hp.chans c (by simp)) hp.trail.1
    by_cases hp0 : p = []
    · subst hp0
      exact hc.1 hp.trail.2
    · have := (completes_cons hp0).1 hp
      exact ih (st ++ [c.dst]) (fun x hx => by simp [hst x hx]) hc.2.1 (fun hx => this.2.2.1 (hst _ hx)) this.2.2.2

theorem visit_spec {g : Graph} (hg : Valid g) (start : Int) (n : ℕ) : ∀ (stack : List Int) (cur : Int) (s : State),
    (stack ++ [cur]).Nodup → (∀ x ∈ stack ++ [cur], x ∈ g.ids) → g.ids.length < n + (stack ++ [cur]).length →
    start ∈ stack ++ [cur] → cur ∉ s.blocked → Inv g start stack s →
    ∃ found s', visit g start n stack cur s = some (found, s') ∧ Inv g start stack s' ∧ Grows s s' ∧
      (found = false → cur ∈ s'.blocked) ∧
      ∃ L : List (List Channel), L.Nodup ∧ (∀ p, p ∈ L ↔ Completes g start (stack ++ [cur]) cur p) ∧
        s'.cycles = s.cycles ++ L.map fun p => stack ++ p.map (fun c => c.src) ++ [start] := by
  induction n with
  | zero =>
    intro stack cur s hnd hids hlen
    have : (stack ++ [cur]).length ≤ g.ids.length := by
      have := List.subperm_of_subset hnd hids
      exact this.length_le
    omega
  | succ n ih =>
    intro stack cur s hnd hids hlen hst hcur hinv
    -- the loop over the output channels
    have loop : ∀ (l : List Channel), (l.map fun c => c.id).Nodup → (∀ c ∈ l, c ∈ g.channels ∧ c.src = cur) →
        ∀ (b : Bool) (t : State), Inv g start (stack ++ [cur]) t → ∃ b' t', l.foldlM (fun (r : Bool × State) c =>
          if c.dst = start then some (true, (⟨r.2.blocked, r.2.waiting, r.2.cycles ++ [stack ++ [cur] ++ [start]]⟩ : State))
          else if c.dst ∉ r.2.blocked then
            (visit g start n (stack ++ [cur]) c.dst r.2).map fun q => (r.1 || q.1, q.2)
          else some r) (b, t) = some (b', t') ∧ Inv g start (stack ++ [cur]) t' ∧ Grows t t' ∧
          (b' = false → b = false ∧ ∀ c ∈ l, c.dst ≠ start ∧ c.dst ∈ t'.blocked) ∧
          ∃ L : List (List Channel), L.Nodup ∧ (∀ p, p ∈ L ↔ Completes g start (stack ++ [cur]) cur p ∧ ∃ c ∈ l, p.head? = some c) ∧
            t'.cycles = t.cycles ++ L.map fun p => stack ++ p.map (fun c => c.src) ++ [start] := by
      intro l
      induction l with
      | nil =>
        intro _ _ b t ht
        refine ⟨b, t, rfl, ht, ⟨fun _ h => h, fun _ _ _ h => h⟩, fun h => ⟨h, by simp⟩, [], by simp, by simp, by simp⟩
      | cons e l ihl =>
        intro hl hmem b t ht
        obtain ⟨he1, he2⟩ := hmem e (by simp)
        rw [List.map_cons, List.nodup_cons] at hl
        have hel : e ∉ l := fun h => hl.1 (List.mem_map.2 ⟨e, h, rfl⟩)
        have ihl := ihl hl.2 fun c hc => hmem c (by simp [hc])
        rw [List.foldlM_cons]
        by_cases h1 : e.dst = start
        · -- a cycle
          obtain ⟨b', t', f1, f2, f3, f4, L, f5, f6, f7⟩ := ihl true
            ⟨t.blocked, t.waiting, t.cycles ++ [stack ++ [cur] ++ [start]]⟩ ⟨ht.onStack, ht.closed, ht.waits⟩
          refine ⟨b', t', ?_, f2, ⟨f3.blocked, f3.waiting⟩, fun h => absurd (f4 h).1 (by simp), [e] :: L, ?_, ?_, ?_⟩
          · rw [if_pos h1]; exact f1
          · rw [List.nodup_cons]
            refine ⟨fun h => ?_, f5⟩
            obtain ⟨-, c, hc, hc'⟩ := (f6 _).1 h
            simp only [List.head?_cons, Option.some.injEq] at hc'
            exact hel (hc' ▸ hc)
          · intro p
            rw [List.mem_cons, f6]
            constructor
            · rintro (rfl | ⟨hp, c, hc, hc'⟩)
              · exact ⟨completes_one.2 ⟨he1, he2, h1⟩, e, by simp, rfl⟩
              · exact ⟨hp, c, by simp [hc], hc'⟩
            · rintro ⟨hp, c, hc, hc'⟩
              rcases List.mem_cons.1 hc with rfl | hc
              · left
                cases p with
                | nil => simp at hc'
                | cons d q =>
                  obtain rfl : d = c := by simpa using hc'
                  by_cases hq : q = []
                  · rw [hq]
                  · exact absurd (by rw [h1]; exact hst) ((completes_cons hq).1 hp).2.2.1
              · exact .inr ⟨hp, c, hc, hc'⟩
          · rw [f7]
            simp [he2]
        · by_cases h2 : e.dst ∈ t.blocked
          · -- nothing there
            obtain ⟨b', t', f1, f2, f3, f4, L, f5, f6, f7⟩ := ihl b t ht
            refine ⟨b', t', ?_, f2, f3, fun h => ⟨(f4 h).1, ?_⟩, L, f5, ?_, f7⟩
            · rw [if_neg h1, if_neg (not_not.2 h2)]; exact f1
            · intro c hc
              rcases List.mem_cons.1 hc with rfl | hc
              · exact ⟨h1, f3.blocked _ h2⟩
              · exact (f4 h).2 c hc
            · intro p
              rw [f6]
              constructor
              · rintro ⟨hp, c, hc, hc'⟩
                exact ⟨hp, c, by simp [hc], hc'⟩
              · rintro ⟨hp, c, hc, hc'⟩
                rcases List.mem_cons.1 hc with rfl | hc
                · exfalso
                  cases p with
                  | nil => simp at hc'
                  | cons d q =>
                    obtain rfl : d = c := by simpa using hc'
                    by_cases hq : q = []
                    · subst hq
                      exact h1 (completes_one.1 hp).2.2
                    · have := (completes_cons hq).1 hp
                      exact ht.no_path q _ (fun x hx => List.mem_append_left _ hx) h2 this.2.2.1 this.2.2.2
                · exact ⟨hp, c, hc, hc'⟩
          · -- search from the target
            have hns : e.dst ∉ stack ++ [cur] := fun h => h2 (ht.onStack _ h)
            obtain ⟨fd, t1, g1, g2, g3, g4, M, g5, g6, g7⟩ := ih (stack ++ [cur]) e.dst t
              (by rw [List.nodup_append]; exact ⟨hnd, by simp, fun x hx y hy => by
                rw [List.mem_singleton.1 hy]; exact fun h => hns (h ▸ hx)⟩)
              (fun x hx => by
                rcases List.mem_append.1 hx with h | h
                · exact hids x h
                · rw [List.mem_singleton.1 h]; exact (hg.ends e he1).2)
              (by rw [List.length_append (bs := [e.dst])]; simp only [List.length_singleton]; omega)
              (List.mem_append_left _ hst) h2 ht
            obtain ⟨b', t', f1, f2, f3, f4, L, f5, f6, f7⟩ := ihl (b || fd) t1 g2
            refine ⟨b', t', ?_, f2, g3.trans f3, fun h => ?_, M.map (e :: ·) ++ L, ?_, ?_, ?_⟩
            · rw [if_neg h1, if_pos h2, g1]; exact f1
            · have h3 := f4 h
              rw [Bool.or_eq_false_iff] at h3
              refine ⟨h3.1.1, fun c hc => ?_⟩
              rcases List.mem_cons.1 hc with rfl | hc
              · exact ⟨h1, f3.blocked _ (g4 h3.1.2)⟩
              · exact h3.2 c hc
            · rw [List.nodup_append]
              refine ⟨g5.map fun a b h => by simpa using h, f5, fun p hp q hq hpq => ?_⟩
              subst hpq
              obtain ⟨q, -, rfl⟩ := List.mem_map.1 hp
              obtain ⟨-, c, hc, hc'⟩ := (f6 _).1 hq
              simp only [List.head?_cons, Option.some.injEq] at hc'
              exact hel (hc' ▸ hc)
            · intro p
              rw [List.mem_append, f6, List.mem_map]
              constructor
              · rintro (⟨q, hq, rfl⟩ | ⟨hp, c, hc, hc'⟩)
                · have hq := (g6 q).1 hq
                  exact ⟨(completes_cons hq.nonempty).2 ⟨he1, he2, hns, hq⟩, e, by simp, rfl⟩
                · exact ⟨hp, c, by simp [hc], hc'⟩
              · rintro ⟨hp, c, hc, hc'⟩
                rcases List.mem_cons.1 hc with rfl | hc
                · left
                  cases p with
                  | nil => simp at hc'
                  | cons d q =>
                    obtain rfl : d = c := by simpa using hc'
                    by_cases hq : q = []
                    · subst hq
                      exact absurd (completes_one.1 hp).2.2 h1
                    · exact ⟨q, (g6 q).2 ((completes_cons hq).1 hp).2.2.2, rfl⟩
                · exact .inr ⟨hp, c, hc, hc'⟩
            · rw [f7, g7]
              simp [he2]
    -- the first state
    set s1 : State := ⟨if cur ∈ s.blocked then s.blocked else cur :: s.blocked, s.waiting, s.cycles⟩ with hs1
    have b1 : s1.blocked = cur :: s.blocked := if_neg hcur
    have i1 : Inv g start (stack ++ [cur]) s1 := by
      refine ⟨fun x hx => ?_, fun x hx hxs c hc hcx => ?_, fun y x hx => ?_⟩
      · rw [b1]
        rcases List.mem_append.1 hx with h | h
        · exact List.mem_cons_of_mem _ (hinv.onStack x h)
        · simp at h; simp [h]
      · rw [b1] at hx ⊢
        rw [List.mem_append, not_or, List.mem_singleton] at hxs
        have hx := (List.mem_cons.1 hx).resolve_left hxs.2
        have := hinv.closed x hx hxs.1 c hc hcx
        exact ⟨this.1, List.mem_cons_of_mem _ this.2.1, this.2.2⟩
      · rw [b1]
        exact List.mem_cons_of_mem _ (hinv.waits y x hx)
    obtain ⟨b', t, f1, f2, f3, f4, L, f5, f6, f7⟩ := loop (g.channels.filter fun c => decide (c.src = cur))
      (hg.chans.sublist (List.filter_sublist.map _)) (fun c hc => by simpa using hc) false s1 i1
    have f6' : ∀ p, p ∈ L ↔ Completes g start (stack ++ [cur]) cur p := by
      intro p
      rw [f6]
      refine ⟨fun h => h.1, fun h => ⟨h, ?_⟩⟩
      cases p with
      | nil => exact absurd rfl h.nonempty
      | cons c q => exact ⟨c, by simpa using ⟨h.chans c (by simp), h.trail.1⟩, rfl⟩
    have grow1 : Grows s s1 := ⟨fun x hx => by rw [b1]; exact List.mem_cons_of_mem _ hx, fun _ _ _ h => h⟩
    have grow := grow1.trans f3
    have curt : cur ∈ t.blocked := f2.onStack cur (by simp)
    cases b' with
    | false =>
      obtain ⟨w1, w2, w3⟩ := waits_spec cur (g.channels.filter fun c => decide (c.src = cur)) t
      refine ⟨false, (g.channels.filter fun c => decide (c.src = cur)).foldl (fun s c => s.wait c.dst cur) t, ?_, ⟨fun x hx => ?_, fun x hx hxs c hc hcx => ?_, fun y x hx => ?_⟩, ⟨fun x hx => ?_, fun x hx y hy => ?_⟩,
        fun _ => ?_, L, f5, f6', ?_⟩
      · rw [visit, f1]; exact rfl
      · rw [w1]; exact f2.onStack x (by simp [hx])
      · rw [w1] at hx ⊢
        rw [w3]
        by_cases hxc : x = cur
        · have := (f4 rfl).2 c (by simp [hc, hcx, hxc])
          exact ⟨this.1, this.2, .inr ⟨hxc, c, by simp [hc, hcx, hxc], rfl⟩⟩
        · have := f2.closed x hx (by simp [hxs, hxc]) c hc hcx
          exact ⟨this.1, this.2.1, .inl this.2.2⟩
      · rw [w1]
        rcases (w3 y x).1 hx with h | ⟨-, c, hc, rfl⟩
        · exact f2.waits y x h
        · exact ((f4 rfl).2 c hc).2
      · rw [w1]; exact grow.blocked x hx
      · rcases (w3 y x).1 hy with h | ⟨rfl, -⟩
        · exact grow.waiting x hx y h
        · exact absurd hx hcur
      · rw [w1]; exact curt
      · rw [w2, f7]
    | true =>
      obtain ⟨u, e, hu, nc, hp⟩ := unblock_spec t.blocked.length t cur curt le_rfl
      have keep : ∀ x ∈ s.blocked, x ∈ u.blocked := fun x hx => hp (fun x => x ∈ s.blocked)
        (fun x hx y hy => hinv.waits y x (grow.waiting x hx y hy)) hcur x (grow.blocked x hx) hx
      have back : ∀ y x, x ∈ u.waiting y → x ∈ t.waiting y ∧ (y ∈ t.blocked → y ∈ u.blocked) := by
        intro y x hx
        by_cases h : y ∈ t.blocked → y ∈ u.blocked
        · rw [hu.kept y h] at hx
          exact ⟨hx, h⟩
        · push Not at h
          rw [(hu.removed y h.1 h.2).2] at hx
          simp at hx
      refine ⟨true, u, ?_, ⟨fun x hx => keep x (hinv.onStack x hx), fun x hx hxs c hc hcx => ?_, fun y x hx => ?_⟩,
        ⟨keep, fun x hx y hy => grow.waiting x hx y (back y x hy).1⟩, fun h => by simp at h, L, f5, f6', ?_⟩
      · rw [visit, f1, Option.bind_some, finish, if_pos rfl, e]; rfl
      · have hxc : x ≠ cur := fun h => nc (h ▸ hx)
        have := f2.closed x (hu.sub.subset hx) (by simp [hxs, hxc]) c hc hcx
        have hk : c.dst ∈ u.blocked := by
          by_contra hn
          exact (hu.removed _ this.2.1 hn).1 x this.2.2 hx
        exact ⟨this.1, hk, by rw [hu.kept _ fun _ => hk]; exact this.2.2⟩
      · have := back y x hx
        exact this.2 (f2.waits y x this.1)
      · rw [hu.cycles, f7]

end Kiter.CycleCount
