/-
C135: the rows of the report of K-Iter (parameter DETAILS).
-/
import Verif.Model.KIterReport
import Verif.Spec.KIterReport
import Verif.Props.KIterHoward

set_option autoImplicit false

namespace Kiter.KRep

/-! ### The vertices -/

theorem mem_addEventGroup {task pc : Int} {a b : ℕ} {e : Event} :
    e ∈ addEventGroup task pc a b ↔ e.task = task ∧ (1 ≤ e.phase ∧ e.phase ≤ pc) ∧ (a : Int) ≤ e.iter ∧ e.iter ≤ b := by
  obtain ⟨t, p, k⟩ := e
  simp only [addEventGroup, List.mem_flatMap, List.mem_range, List.mem_map, Event.mk.injEq]
  constructor
  · rintro ⟨i, hi, j, hj, rfl, rfl, rfl⟩
    refine ⟨rfl, ⟨by omega, by omega⟩, by omega, by omega⟩
  · rintro ⟨rfl, ⟨h1, h2⟩, h3, h4⟩
    exact ⟨(p - 1).toNat, by omega, (k - a).toNat, by omega, rfl, by omega, by omega⟩

theorem mem_newEvents {t : KTask} (hi : t.initDurations = []) {a b : ℕ} {e : Event} :
    e ∈ newEvents t a b ↔ e.task = t.id ∧ (1 ≤ e.phase ∧ e.phase ≤ t.durations.length) ∧ (a : Int) < e.iter ∧ e.iter ≤ b := by
  simp only [newEvents, List.mem_flatMap, List.mem_range, mem_addEventGroup, hi, List.length_nil]
  constructor
  · rintro ⟨p, hp, h1, ⟨h2, h3⟩, h4, h5⟩
    refine ⟨h1, ⟨h2, by push_cast at *; omega⟩, by push_cast at *; omega, h5⟩
  · rintro ⟨h1, ⟨h2, h3⟩, h4, h5⟩
    exact ⟨(e.phase - 1).toNat, by omega, h1, ⟨h2, by push_cast; omega⟩, by push_cast; omega, h5⟩

theorem mem_initialEvents {B : BaseGraph} (hi : ∀ t ∈ B.tasks, t.initDurations = []) {K : Int → ℕ} {e : Event} :
    e ∈ initialEvents B K ↔ InPattern B K e := by
  obtain ⟨i, p, k⟩ := e
  simp only [initialEvents, InPattern, List.mem_flatMap, List.mem_append, List.mem_map, List.mem_range, Event.mk.injEq]
  constructor
  · rintro ⟨t, ht, ⟨x, hx, -⟩ | ⟨j, hj, x, hx, rfl, rfl, rfl⟩⟩
    · rw [hi t ht] at hx; simp at hx
    · exact ⟨t, ht, rfl, ⟨by omega, by omega⟩, by omega, by omega⟩
  · rintro ⟨t, ht, rfl, ⟨h1, h2⟩, h3, h4⟩
    exact ⟨t, ht, .inr ⟨(k - 1).toNat, by omega, (p - 1).toNat, by omega, rfl, by omega, by omega⟩⟩

theorem length_initialEvents {B : BaseGraph} (hi : ∀ t ∈ B.tasks, t.initDurations = []) (K : Int → ℕ) :
    (initialEvents B K).length = patternSize B K := by
  unfold initialEvents patternSize
  rw [List.length_flatMap]
  congr 1
  apply List.map_congr_left
  intro t ht
  simp [hi t ht]

theorem nodup_initialEvents {B : BaseGraph} (hn : (B.tasks.map fun t => t.id).Nodup)
    (hi : ∀ t ∈ B.tasks, t.initDurations = []) (K : Int → ℕ) : (initialEvents B K).Nodup := by
  unfold initialEvents
  rw [List.nodup_flatMap]
  refine ⟨fun t ht => ?_, ?_⟩
  · rw [hi t ht]
    simp only [List.length_nil, List.range_zero, List.map_nil, List.nil_append]
    rw [List.nodup_flatMap]
    refine ⟨fun j _ => ?_, ?_⟩
    · refine List.Nodup.map (fun a b h => ?_) List.nodup_range
      simpa using h
    · refine List.Pairwise.imp ?_ (List.nodup_iff_pairwise_ne.mp List.nodup_range)
      intro a b hab e h1 h2
      simp only [List.mem_map] at h1 h2
      obtain ⟨_, _, rfl⟩ := h1
      obtain ⟨_, _, h⟩ := h2
      simp at h
      omega
  · have hp : B.tasks.Pairwise fun s t => s.id ≠ t.id := by
      have := List.nodup_iff_pairwise_ne.mp hn
      exact List.pairwise_map.mp this
    refine List.Pairwise.imp ?_ hp
    intro s t hst e h1 h2
    apply hst
    simp only [List.mem_append, List.mem_map, List.mem_flatMap] at h1 h2
    have a1 : e.task = s.id := by
      rcases h1 with ⟨_, _, rfl⟩ | ⟨_, _, _, _, rfl⟩ <;> rfl
    have a2 : e.task = t.id := by
      rcases h2 with ⟨_, _, rfl⟩ | ⟨_, _, _, _, rfl⟩ <;> rfl
    exact a1.symm.trans a2

theorem mem_updateEvents {K K' : Int → ℕ} {cc : List BChannel} {vs : List Event} {x : Event} :
    x ∈ updateEvents K K' cc vs ↔
      x ∈ vs ∨ ∃ e ∈ cc, K e.2.1.id < K' e.2.1.id ∧ x ∈ newEvents e.2.1 (K e.2.1.id) (K' e.2.1.id) := by
  induction cc generalizing vs with
  | nil => simp [updateEvents]
  | cons e l ih =>
    unfold updateEvents
    rw [ih]
    by_cases h : K e.2.1.id < K' e.2.1.id
    · rw [if_pos h]
      simp only [List.mem_append, List.mem_cons, exists_eq_or_imp, h, true_and, or_assoc]
    · simp [h]

theorem updateEvents_sublist {K K' : Int → ℕ} {cc : List BChannel} {vs : List Event} :
    vs.Sublist (updateEvents K K' cc vs) := by
  induction cc generalizing vs with
  | nil => exact List.Sublist.refl _
  | cons e l ih =>
    unfold updateEvents
    refine List.Sublist.trans ?_ ih
    by_cases h : K e.2.1.id < K' e.2.1.id
    · simp only [if_pos h]; exact List.sublist_append_left _ _
    · simp only [if_neg h]; exact List.Sublist.refl _

theorem newEvents_sublist {K K' : Int → ℕ} {cc : List BChannel} {vs : List Event} {e : BChannel} (he : e ∈ cc)
    (h : K e.2.1.id < K' e.2.1.id) :
    (newEvents e.2.1 (K e.2.1.id) (K' e.2.1.id)).Sublist (updateEvents K K' cc vs) := by
  induction cc generalizing vs with
  | nil => simp at he
  | cons a l ih =>
    unfold updateEvents
    rcases List.mem_cons.mp he with rfl | he
    · rw [if_pos h]
      exact (List.sublist_append_right _ _).trans updateEvents_sublist
    · exact ih he

/-- With two phases, the group of the second phase adds the first one again. -/
theorem newEvents_dup {t : KTask} (hi : t.initDurations = []) (hP : 2 ≤ t.durations.length) {a b : ℕ} (h : a < b) :
    ¬ (newEvents t a b).Nodup := by
  intro hn
  unfold newEvents at hn
  rw [List.nodup_flatMap] at hn
  have hp := hn.2
  rw [hi, List.length_nil, Nat.zero_add] at hp
  rw [List.pairwise_iff_getElem] at hp
  have := hp 0 1 (by simp; omega) (by simp; omega) (by omega)
  simp only [List.getElem_range] at this
  have h1 : (⟨t.id, 1, (a : Int) + 1⟩ : Event) ∈ addEventGroup t.id (((0 : ℕ) : Int) + 1 - ((0 : ℕ) : Int)) (a + 1) b :=
    mem_addEventGroup.mpr ⟨rfl, ⟨by simp, by simp⟩, by simp, by simp; omega⟩
  have h2 : (⟨t.id, 1, (a : Int) + 1⟩ : Event) ∈ addEventGroup t.id (((1 : ℕ) : Int) + 1 - ((0 : ℕ) : Int)) (a + 1) b :=
    mem_addEventGroup.mpr ⟨rfl, ⟨by simp, by simp⟩, by simp, by simp; omega⟩
  exact this h1 h2

theorem newEvents_nodup {t : KTask} (hi : t.initDurations = []) (hP : t.durations.length = 1) {a b : ℕ} :
    (newEvents t a b).Nodup := by
  unfold newEvents addEventGroup
  rw [hi, hP]
  simp only [List.length_nil, Nat.zero_add, List.range_one, List.flatMap_cons, List.flatMap_nil, List.append_nil]
  simp only [Nat.cast_zero, zero_add, sub_zero, Int.toNat_one, List.range_one, List.flatMap_cons, List.flatMap_nil,
    List.append_nil]
  refine List.Nodup.map (fun x y h => ?_) List.nodup_range
  simpa using h

theorem updateEvents_nodup {K K' : Int → ℕ} {cc : List BChannel} {vs : List Event} (hvs : vs.Nodup)
    (hi : ∀ e ∈ cc, e.2.1.initDurations = [] ∧ e.2.1.durations.length = 1)
    (hsrc : (cc.map fun e => e.2.1.id).Nodup)
    (hold : ∀ x ∈ vs, ∀ e ∈ cc, x.task = e.2.1.id → x.iter ≤ K e.2.1.id) :
    (updateEvents K K' cc vs).Nodup := by
  induction cc generalizing vs with
  | nil => exact hvs
  | cons e l ih =>
    rw [List.map_cons, List.nodup_cons] at hsrc
    unfold updateEvents
    by_cases h : K e.2.1.id < K' e.2.1.id
    · rw [if_pos h]
      refine ih ?_ (fun x hx => hi x (List.mem_cons_of_mem _ hx)) hsrc.2 ?_
      · rw [List.nodup_append']
        refine ⟨hvs, newEvents_nodup (hi e (by simp)).1 (hi e (by simp)).2, ?_⟩
        intro x hx hx'
        obtain ⟨h1, -, h2, -⟩ := (mem_newEvents (hi e (by simp)).1).mp hx'
        have := hold x hx e (by simp) h1
        omega
      · intro x hx a ha hxa
        rcases List.mem_append.mp hx with hx | hx
        · exact hold x hx a (List.mem_cons_of_mem _ ha) hxa
        · obtain ⟨h1, -⟩ := (mem_newEvents (hi e (by simp)).1).mp hx
          exact absurd (List.mem_map.mpr ⟨a, ha, (hxa.symm.trans h1)⟩) hsrc.1
    · rw [if_neg h]
      exact ih hvs (fun x hx => hi x (List.mem_cons_of_mem _ hx)) hsrc.2
        (fun x hx a ha => hold x hx a (List.mem_cons_of_mem _ ha))

/-! ### The run -/

/-- What holds at each report. -/
structure Inv (B : BaseGraph) (s : Step) : Prop where
  k : KOk B s.K
  graph : GraphFor B s.K s.cs
  events : ∀ e, e ∈ s.events ↔ InPattern B s.K e
  dup : (∃ t ∈ B.tasks, 2 ≤ t.durations.length ∧ 1 < s.K t.id) → ¬ s.events.Nodup

theorem noInit {B : BaseGraph} (hB : BaseOK B) : ∀ t ∈ B.tasks, t.initDurations = [] := fun t ht => (hB.tasks t ht).noInit

theorem inv_step {B : BaseGraph} (hB : BaseOK B) {s : Step} (hs : Inv B s) {cc : List BChannel}
    (hcc : ∀ e ∈ cc, e ∈ B.channels) {K' : Int → ℕ} {cs' : List EvConstraint}
    (h : updateEventGraph B s.K cc s.cs = some (some (K', cs'))) (th : ℚ) :
    Inv B ⟨K', updateEvents s.K K' cc s.events, cs', th⟩ := by
  obtain ⟨K1, ch, h1, h2⟩ := updateEventGraph_spec hB hs.k hcc hs.graph
  obtain ⟨g, K2, ch2, u1, -, -, -, u4, u5, -, u7, u8, -⟩ := updateVector_spec hB cc hcc s.K hs.k
  rw [h1] at u1; cases u1
  rcases h2 with ⟨rfl, h'⟩ | ⟨rfl, cs1, h', hg⟩
  · rw [h'] at h; simp at h
  · rw [h'] at h
    simp only [Option.some.injEq, Prod.mk.injEq] at h
    obtain ⟨rfl, rfl⟩ := h
    have hle : ∀ i, s.K i ≤ K1 i := fun i => Nat.le_of_dvd (u4.1 i) (u5 i)
    refine ⟨u4, hg, fun e => ?_, ?_⟩
    · rw [mem_updateEvents, hs.events]
      constructor
      · rintro (⟨t, ht, h1, h2, h3, h4⟩ | ⟨c, hc, hlt, hx⟩)
        · exact ⟨t, ht, h1, h2, h3, h4.trans (by exact_mod_cast hle _)⟩
        · have hct := (hB.channels c (hcc c hc)).1
          obtain ⟨a1, a2, a3, a4⟩ := (mem_newEvents (noInit hB _ hct)).mp hx
          exact ⟨c.2.1, hct, a1, a2, by omega, a4⟩
      · rintro ⟨t, ht, h1, h2, h3, h4⟩
        by_cases hk : e.iter ≤ s.K t.id
        · exact .inl ⟨t, ht, h1, h2, h3, hk⟩
        · right
          have hne : K1 t.id ≠ s.K t.id := by
            intro he
            have h4' : e.iter ≤ (K1 t.id : Int) := h4
            rw [he] at h4'
            exact hk h4'
          obtain ⟨c, hc, hid⟩ := u8 t.id hne
          have hct := (hB.channels c (hcc c hc)).1
          have := hB.ids _ hct _ ht hid
          refine ⟨c, hc, ?_, ?_⟩
          · rw [hid]; exact lt_of_le_of_ne (hle _) (Ne.symm hne)
          · rw [this]
            exact (mem_newEvents (noInit hB _ ht)).mpr ⟨h1, h2, by omega, h4⟩
    · rintro ⟨t, ht, hP, hK⟩
      by_cases hk : 1 < s.K t.id
      · exact fun hn => hs.dup ⟨t, ht, hP, hk⟩ (hn.sublist updateEvents_sublist)
      · have hK' : 1 < K1 t.id := hK
        obtain ⟨c, hc, hid⟩ := u8 t.id (by omega)
        have hct := (hB.channels c (hcc c hc)).1
        have := hB.ids _ hct _ ht hid
        intro hn
        have hlt : s.K c.2.1.id < K1 c.2.1.id := by rw [hid]; omega
        refine newEvents_dup (noInit hB _ hct) (by rw [this]; exact hP) hlt (hn.sublist (newEvents_sublist hc hlt))

theorem inv_first {B : BaseGraph} (hB : BaseOK B) {cs : List EvConstraint}
    (hcs : eventGraph (B.withK fun _ => 1) = some cs) (th : ℚ) :
    Inv B ⟨fun _ => 1, initialEvents B fun _ => 1, cs, th⟩ :=
  ⟨kOk_one, ⟨cs, hcs, fun _ => Iff.rfl⟩, fun _ => mem_initialEvents (K := fun _ => 1) (noInit hB), by
    rintro ⟨t, -, -, h⟩
    exact absurd h (by simp)⟩

/-- A property of the reports, kept by the updates along circuits that the solver answers with, holds at all of them. -/
theorem loop_all {B : BaseGraph} {solve : List EvConstraint → Option (ℚ × List EvConstraint)} {P : Step → Prop}
    (hstep : ∀ s p K' cs' th, P s → (∃ cs th, solve cs = some (th, p)) →
      updateEventGraph B s.K (criticalEdges B p) s.cs = some (some (K', cs')) →
      P ⟨K', updateEvents s.K K' (criticalEdges B p) s.events, cs', th⟩)
    (fuel it : ℕ) (s : Step) (p : List EvConstraint) (hs : P s) (hp : ∃ cs th, solve cs = some (th, p))
    (r : List Step × Option KIterResult)
    (hr : stepsLoop solve B fuel it s.K s.events s.cs (criticalEdges B p) s.th = some r) : ∀ x ∈ r.1, P x := by
  induction fuel generalizing it s p r with
  | zero => simp only [stepsLoop, Option.some.injEq] at hr; subst hr; simp
  | succ fuel ih =>
    unfold stepsLoop at hr
    cases hu : updateEventGraph B s.K (criticalEdges B p) s.cs with
    | none => rw [hu] at hr; simp at hr
    | some u =>
      rw [hu] at hr
      simp only [Option.bind_eq_bind, Option.bind_some] at hr
      cases u with
      | none => simp only [Option.pure_def, Option.some.injEq] at hr; subst hr; simp
      | some u =>
        obtain ⟨K', cs'⟩ := u
        simp only at hr
        cases hq : solve cs' with
        | none => rw [hq] at hr; simp at hr
        | some q =>
          rw [hq] at hr
          simp only [Option.bind_some] at hr
          have hP := hstep s p K' cs' q.1 hs hp hu
          split_ifs at hr with hc
          · simp only [Option.pure_def, Option.some.injEq] at hr; subst hr
            simpa using hP
          · obtain ⟨rest, h1, h2⟩ := Option.bind_eq_some_iff.mp hr
            simp only [Option.pure_def, Option.some.injEq] at h2; subst h2
            intro x hx
            rcases List.mem_cons.mp hx with rfl | hx
            · exact hP
            · exact ih (it + 1) ⟨K', updateEvents s.K K' (criticalEdges B p) s.events, cs', q.1⟩ q.2 hP
                ⟨cs', q.1, hq⟩ rest h1 x hx

theorem steps_all {B : BaseGraph} {solve : List EvConstraint → Option (ℚ × List EvConstraint)} {P : Step → Prop}
    (hfirst : ∀ cs th, eventGraph (B.withK fun _ => 1) = some cs → P ⟨fun _ => 1, initialEvents B fun _ => 1, cs, th⟩)
    (hstep : ∀ s p K' cs' th, P s → (∃ cs th, solve cs = some (th, p)) →
      updateEventGraph B s.K (criticalEdges B p) s.cs = some (some (K', cs')) →
      P ⟨K', updateEvents s.K K' (criticalEdges B p) s.events, cs', th⟩)
    (fuel : ℕ) (r : List Step × Option KIterResult) (hr : steps solve B fuel = some r) : ∀ x ∈ r.1, P x := by
  unfold steps at hr
  obtain ⟨cs, h1, hr⟩ := Option.bind_eq_some_iff.mp hr
  obtain ⟨q, h2, hr⟩ := Option.bind_eq_some_iff.mp hr
  have hP := hfirst cs q.1 h1
  simp only at hr
  split_ifs at hr with hc
  · simp only [Option.pure_def, Option.some.injEq] at hr; subst hr
    simpa using hP
  · obtain ⟨rest, h3, h4⟩ := Option.bind_eq_some_iff.mp hr
    simp only [Option.pure_def, Option.some.injEq] at h4; subst h4
    intro x hx
    rcases List.mem_cons.mp hx with rfl | hx
    · exact hP
    · exact loop_all hstep fuel 0 ⟨fun _ => 1, initialEvents B fun _ => 1, cs, q.1⟩ q.2 hP ⟨cs, q.1, h2⟩ rest h3 x hx

theorem loop_result (solve : List EvConstraint → Option (ℚ × List EvConstraint)) (B : BaseGraph) (fuel it : ℕ)
    (K : Int → ℕ) (vs : List Event) (cs : List EvConstraint) (cc : List BChannel) (th : ℚ) :
    (stepsLoop solve B fuel it K vs cs cc th).map (fun r => r.2) = kiterLoop solve B fuel it K cs cc th := by
  induction fuel generalizing it K vs cs cc th with
  | zero => rfl
  | succ fuel ih =>
    unfold stepsLoop kiterLoop
    cases updateEventGraph B K cc cs with
    | none => rfl
    | some u =>
      simp only [Option.bind_eq_bind, Option.bind_some]
      cases u with
      | none => rfl
      | some u =>
        obtain ⟨K', cs'⟩ := u
        simp only
        cases solve cs' with
        | none => rfl
        | some q =>
          simp only [Option.bind_some]
          split_ifs with hc
          · rfl
          · rw [← ih (it + 1) K' (updateEvents K K' cc vs) cs' (criticalEdges B q.2) q.1]
            cases stepsLoop solve B fuel (it + 1) K' (updateEvents K K' cc vs) cs' (criticalEdges B q.2) q.1 <;> rfl

/-- **C135** (the run) Reporting does not change the computation: the result is the one of K-Iter (C20, C52). -/
theorem _root_.Kiter.C135_result (solve : List EvConstraint → Option (ℚ × List EvConstraint)) (B : BaseGraph) (fuel : ℕ) :
    (steps solve B fuel).map (fun r => r.2) = kiter solve B fuel := by
  unfold steps kiter
  cases eventGraph (B.withK fun _ => 1) with
  | none => rfl
  | some cs =>
    simp only [Option.bind_eq_bind, Option.bind_some]
    cases solve cs with
    | none => rfl
    | some q =>
      simp only [Option.bind_some]
      split_ifs with hc
      · rfl
      · rw [← loop_result solve B fuel 0 (fun _ => 1) (initialEvents B fun _ => 1) cs (criticalEdges B q.2) q.1]
        cases stepsLoop solve B fuel 0 (fun _ => 1) (initialEvents B fun _ => 1) cs (criticalEdges B q.2) q.1 <;> rfl

/-- **C135** (the events) For every graph, solver and run, the vertices of the event graph of each report are the
executions of the pattern of its vector, no other and none missing, its edges are the constraints of that pattern, and
`sum_Ki` is at least the number of these executions. -/
theorem _root_.Kiter.C135_events {B : BaseGraph} (hB : BaseOK B) (hn : (B.tasks.map fun t => t.id).Nodup)
    (solve : List EvConstraint → Option (ℚ × List EvConstraint)) (fuel : ℕ) (r : List Step × Option KIterResult)
    (hr : steps solve B fuel = some r) (x : Step) (hx : x ∈ r.1) (it : ℕ) :
    (∀ e, e ∈ x.events ↔ InPattern B x.K e) ∧
    (∃ cs, eventGraph (B.withK x.K) = some cs ∧ ∀ c, c ∈ x.cs ↔ c ∈ cs) ∧
    patternSize B x.K ≤ (row B it x).sumKi := by
  have h : Inv B x := steps_all (P := Inv B) (fun cs th hcs => inv_first hB hcs th)
    (fun s p K' cs' th hs _ hu => inv_step hB hs (criticalEdges_sub B p) hu th) fuel r hr x hx
  refine ⟨h.events, h.graph, ?_⟩
  rw [← length_initialEvents (noInit hB) x.K]
  exact ((nodup_initialEvents hn (noInit hB) x.K).subperm fun e he =>
    (h.events e).mpr ((mem_initialEvents (noInit hB)).mp he)).length_le

theorem patternSize_le {B : BaseGraph} (hB : BaseOK B) {K : Int → ℕ} (hK : KOk B K) : (patternSize B K : Int) ≤ sumNi B := by
  have key : ∀ l : List KTask, (∀ t ∈ l, t ∈ B.tasks) →
      (((l.map fun t => K t.id * t.durations.length).sum : ℕ) : Int) ≤ (l.map fun t => t.ni).sum := by
    intro l hl
    induction l with
    | nil => simp
    | cons t l ih =>
      have ht := hl t (by simp)
      have := ih fun s hs => hl s (List.mem_cons_of_mem _ hs)
      have hr := reps_spec hB ht
      have hle := Nat.le_of_dvd hr.1 (hK.2 t ht)
      have h2 : ((K t.id * t.durations.length : ℕ) : Int) ≤ t.ni := by
        rw [hr.2]
        have : K t.id * t.durations.length ≤ t.durations.length * reps t := by
          rw [Nat.mul_comm]; exact Nat.mul_le_mul_left _ hle
        exact_mod_cast this
      simp only [List.map_cons, List.sum_cons, Nat.cast_add]
      linarith
  exact key B.tasks fun _ h => h

/-- **C135** (partial: tasks with one phase, circuits that leave each task by one channel) In every row of every run,
`sum_Ki` is the number of executions of the pattern, and is at most `sum_Ni`, the number of executions of a graph
iteration. Missing: tasks with several phases, for which it is false (below). -/
theorem _root_.Kiter.C135_count_partial {B : BaseGraph} (hB : BaseOK B) (hn : (B.tasks.map fun t => t.id).Nodup)
    (hone : ∀ t ∈ B.tasks, t.durations.length = 1)
    (solve : List EvConstraint → Option (ℚ × List EvConstraint))
    (hsolve : ∀ cs th p, solve cs = some (th, p) → ((criticalEdges B p).map fun e => e.2.1.id).Nodup)
    (fuel : ℕ) (r : List Step × Option KIterResult)
    (hr : steps solve B fuel = some r) (x : Step) (hx : x ∈ r.1) (it : ℕ) :
    (row B it x).sumKi = patternSize B x.K ∧ ((row B it x).sumKi : Int) ≤ (row B it x).sumNi := by
  have h : Inv B x ∧ x.events.Nodup := by
    refine steps_all (P := fun s => Inv B s ∧ s.events.Nodup)
      (fun cs th hcs => ⟨inv_first hB hcs th, nodup_initialEvents hn (noInit hB) fun _ => 1⟩) ?_ fuel r hr x hx
    rintro s p K' cs' th ⟨hs, hnd⟩ ⟨cs, th', hsol⟩ hu
    refine ⟨inv_step hB hs (criticalEdges_sub B p) hu th, updateEvents_nodup hnd ?_ (hsolve cs th' p hsol) ?_⟩
    · intro e he
      have ht := (hB.channels e (criticalEdges_sub B p e he)).1
      exact ⟨noInit hB _ ht, hone _ ht⟩
    · intro y hy e he hid
      obtain ⟨t, ht, h1, -, -, h4⟩ := (hs.events y).mp hy
      have := hB.ids _ ht _ (hB.channels e (criticalEdges_sub B p e he)).1 (h1.symm.trans hid)
      rw [← this]; exact h4
  have he : x.events.length = patternSize B x.K := by
    rw [← length_initialEvents (noInit hB) x.K]
    refine List.Perm.length_eq ((List.perm_ext_iff_of_nodup h.2 (nodup_initialEvents hn (noInit hB) x.K)).mpr fun e => ?_)
    rw [h.1.events, mem_initialEvents (noInit hB)]
  refine ⟨he, ?_⟩
  show (x.events.length : Int) ≤ sumNi B
  rw [he]
  exact patternSize_le hB h.1.k

/-- **C135** (refuted for tasks with several phases) In every row of every run where the entry of a task with at least
two phases was raised, `sum_Ki` is larger than the number of executions of the pattern. -/
theorem _root_.Kiter.C135_phases_counterexample {B : BaseGraph} (hB : BaseOK B) (hn : (B.tasks.map fun t => t.id).Nodup)
    (solve : List EvConstraint → Option (ℚ × List EvConstraint)) (fuel : ℕ) (r : List Step × Option KIterResult)
    (hr : steps solve B fuel = some r) (x : Step) (hx : x ∈ r.1) (it : ℕ)
    (hraised : ∃ t ∈ B.tasks, 2 ≤ t.durations.length ∧ 1 < x.K t.id) :
    patternSize B x.K < (row B it x).sumKi := by
  have h : Inv B x := steps_all (P := Inv B) (fun cs th hcs => inv_first hB hcs th)
    (fun s p K' cs' th hs _ hu => inv_step hB hs (criticalEdges_sub B p) hu th) fuel r hr x hx
  have hle := (C135_events hB hn solve fuel r hr x hx it).2.2
  refine lt_of_le_of_ne hle fun heq => h.dup hraised ?_
  have hsub := (nodup_initialEvents hn (noInit hB) x.K).subperm (l₂ := x.events) fun e he =>
    (h.events e).mpr ((mem_initialEvents (noInit hB)).mp he)
  have hp := hsub.perm_of_length_le (by rw [length_initialEvents (noInit hB)]; exact heq.ge)
  exact hp.nodup_iff.mp (nodup_initialEvents hn (noInit hB) x.K)

/-! ### Examples -/

namespace Ex
/-- A task of two phases that has three periods in a graph iteration. -/
def A : KTask := ⟨0, [1, 3], [], 1, 6⟩
def D : KTask := ⟨1, [2], [], 1, 2⟩
def fwd : KChannel := ⟨1, [1, 1], [3], [], [], 0, 1⟩
def bwd : KChannel := ⟨2, [3], [1, 1], [], [], 6, 1⟩
def G : BaseGraph := ⟨[A, D], [(fwd, A, D), (bwd, D, A)]⟩

/-- The same with one phase. -/
def A1 : KTask := ⟨0, [4], [], 1, 3⟩
def fwd1 : KChannel := ⟨1, [2], [3], [], [], 0, 1⟩
def bwd1 : KChannel := ⟨2, [3], [2], [], [], 6, 1⟩
def G1 : BaseGraph := ⟨[A1, D], [(fwd1, A1, D), (bwd1, D, A1)]⟩

theorem G_ok : BaseOK G := by
  have fwd_ok : ChannelOK fwd A D :=
    ⟨rfl, rfl, rfl, rfl, by decide, by decide, by decide, by decide, by decide, by decide, by decide, by decide, by decide⟩
  have bwd_ok : ChannelOK bwd D A :=
    ⟨rfl, rfl, rfl, rfl, by decide, by decide, by decide, by decide, by decide, by decide, by decide, by decide, by decide⟩
  have A_ok : TaskOK A 1 := ⟨by decide, rfl, by decide, by decide, by decide, by decide⟩
  have D_ok : TaskOK D 1 := ⟨by decide, rfl, by decide, by decide, by decide, by decide⟩
  constructor
  · simp [G, A, D]
  · intro t ht; simp only [G, List.mem_cons, List.not_mem_nil, or_false] at ht
    rcases ht with rfl | rfl
    · exact A_ok
    · exact D_ok
  · intro t ht; simp only [G, List.mem_cons, List.not_mem_nil, or_false] at ht
    rcases ht with rfl | rfl <;> decide
  · intro c hc; simp only [G, List.mem_cons, List.not_mem_nil, or_false] at hc
    rcases hc with rfl | rfl
    · exact ⟨by simp [G], by simp [G], fwd_ok⟩
    · exact ⟨by simp [G], by simp [G], bwd_ok⟩
  · simp [G, fwd, bwd]

theorem G1_ok : BaseOK G1 := by
  have fwd_ok : ChannelOK fwd1 A1 D :=
    ⟨rfl, rfl, rfl, rfl, by decide, by decide, by decide, by decide, by decide, by decide, by decide, by decide, by decide⟩
  have bwd_ok : ChannelOK bwd1 D A1 :=
    ⟨rfl, rfl, rfl, rfl, by decide, by decide, by decide, by decide, by decide, by decide, by decide, by decide, by decide⟩
  have A_ok : TaskOK A1 1 := ⟨by decide, rfl, by decide, by decide, by decide, by decide⟩
  have D_ok : TaskOK D 1 := ⟨by decide, rfl, by decide, by decide, by decide, by decide⟩
  constructor
  · simp [G1, A1, D]
  · intro t ht; simp only [G1, List.mem_cons, List.not_mem_nil, or_false] at ht
    rcases ht with rfl | rfl
    · exact A_ok
    · exact D_ok
  · intro t ht; simp only [G1, List.mem_cons, List.not_mem_nil, or_false] at ht
    rcases ht with rfl | rfl <;> decide
  · intro c hc; simp only [G1, List.mem_cons, List.not_mem_nil, or_false] at hc
    rcases hc with rfl | rfl
    · exact ⟨by simp [G1], by simp [G1], fwd_ok⟩
    · exact ⟨by simp [G1], by simp [G1], bwd_ok⟩
  · simp [G1, fwd1, bwd1]

/-- A solver that finds every circuit critical. -/
def all (cs : List EvConstraint) : Option (ℚ × List EvConstraint) := some (1, cs)

/-- Whatever the solver answers, the critical circuits of `G1` leave each task by one channel. -/
theorem G1_sources (p : List EvConstraint) : ((criticalEdges G1 p).map fun e => e.2.1.id).Nodup :=
  List.Nodup.sublist (List.Sublist.map _ List.filter_sublist) (by decide)
end Ex

/-- The run on the graph with two phases: the second row says 10 events, the pattern has 8, as many as `sum_Ni`. -/
example : (steps Ex.all Ex.G 10).map (fun s => s.1.map fun x => ((row Ex.G 0 x).sumKi, patternSize Ex.G x.K, (row Ex.G 0 x).sumNi)) =
    some [(3, 3, 8), (10, 8, 8)] := by decide +kernel

/-- The run on the graph with one phase: both rows are right. -/
example : (steps Ex.all Ex.G1 10).map (fun s => s.1.map fun x => ((row Ex.G1 0 x).sumKi, patternSize Ex.G1 x.K, (row Ex.G1 0 x).sumNi)) =
    some [(2, 2, 5), (5, 5, 5)] := by decide +kernel

/-- `C135_count_partial` applies to that run. -/
example : ∃ r, steps Ex.all Ex.G1 10 = some r ∧ r.1.length = 2 ∧
    ∀ x ∈ r.1, (row Ex.G1 0 x).sumKi = patternSize Ex.G1 x.K := by
  have h : (steps Ex.all Ex.G1 10).map (fun s => s.1.length) = some 2 := by decide +kernel
  obtain ⟨r, hr, hl⟩ := Option.map_eq_some_iff.mp h
  exact ⟨r, hr, hl, fun x hx => (C135_count_partial Ex.G1_ok (by decide) (by decide) Ex.all
    (fun _ _ p _ => Ex.G1_sources p) 10 r hr x hx 0).1⟩

/-- `C135_events` and `C135_phases_counterexample` apply to the run with two phases. -/
example : ∃ r, steps Ex.all Ex.G 10 = some r ∧ ∃ x ∈ r.1, patternSize Ex.G x.K < (row Ex.G 1 x).sumKi := by
  have h : (steps Ex.all Ex.G 10).map (fun s => s.1.map fun x => x.K 0) = some [1, 3] := by decide +kernel
  obtain ⟨r, hr, hl⟩ := Option.map_eq_some_iff.mp h
  have h3 : 3 ∈ r.1.map fun x => x.K 0 := by rw [hl]; simp
  obtain ⟨x, hx, hK⟩ := List.mem_map.mp h3
  exact ⟨r, hr, x, hx, C135_phases_counterexample Ex.G_ok (by decide) Ex.all 10 r hr x hx 1
    ⟨Ex.A, by simp [Ex.G], by decide, by show 1 < x.K 0; omega⟩⟩

/-- **C135** (`sum_NiNj` is no bound) The last column is the sum of `max(Ni,Nj)`, not of the products: on the graph of
the K-Iter example, the event graph of the first row, with the vector 1, has more constraints (7) than `sum_NiNj` (6). -/
theorem _root_.Kiter.C135_ninj_counterexample :
    BaseOK KIterExample.G ∧
    (report (certified KIterExample.cands) KIterExample.G 10).map (fun l => l.map fun r => (r.iteration, r.sumKiKj, r.sumNiNj, r.th)) =
      some [(0, 7, 6, 2/15), (1, 9, 6, 1/7)] :=
  ⟨KIterExample.G_ok, by decide +kernel⟩

namespace Ex
/-- The graph with two phases and fewer tokens on the way back. -/
def G4 : BaseGraph := ⟨[A, D], [(fwd, A, D), ({ bwd with preload := 4 }, D, A)]⟩

theorem G4_ok : BaseOK G4 := by
  have hb := (G_ok.channels (bwd, D, A) (by simp [G])).2.2
  constructor
  · exact G_ok.ids
  · exact G_ok.tasks
  · exact G_ok.multiple
  · intro c hc; simp only [G4, List.mem_cons, List.not_mem_nil, or_false] at hc
    rcases hc with rfl | rfl
    · exact G_ok.channels (fwd, A, D) (by simp [G])
    · exact ⟨by simp [G4], by simp [G4], ⟨hb.noInInit, hb.noOutInit, hb.srcPhases, hb.dstPhases, hb.inNonneg, hb.outNonneg,
        hb.inPos, hb.outPos, hb.gcdPos, hb.gcdIn, hb.gcdOut, by decide, hb.balance⟩⟩
  · simp [G4, fwd, bwd]

/-- The graph with one phase, fewer tokens on the way back, and a second channel from `A1` to `D` that is never critical. -/
def fwd2 : KChannel := ⟨3, [2], [3], [], [], 60, 1⟩
def G2 : BaseGraph := ⟨[A1, D], [(fwd1, A1, D), ({ bwd1 with preload := 4 }, D, A1), (fwd2, A1, D)]⟩

theorem G2_ok : BaseOK G2 := by
  have hb := (G1_ok.channels (bwd1, D, A1) (by simp [G1])).2.2
  have fwd_ok : ChannelOK fwd2 A1 D :=
    ⟨rfl, rfl, rfl, rfl, by decide, by decide, by decide, by decide, by decide, by decide, by decide, by decide, by decide⟩
  constructor
  · exact G1_ok.ids
  · exact G1_ok.tasks
  · exact G1_ok.multiple
  · intro c hc; simp only [G2, List.mem_cons, List.not_mem_nil, or_false] at hc
    rcases hc with rfl | rfl | rfl
    · exact G1_ok.channels (fwd1, A1, D) (by simp [G1])
    · exact ⟨by simp [G2], by simp [G2], ⟨hb.noInInit, hb.noOutInit, hb.srcPhases, hb.dstPhases, hb.inNonneg, hb.outNonneg,
        hb.inPos, hb.outPos, hb.gcdPos, hb.gcdIn, hb.gcdOut, by decide, hb.balance⟩⟩
    · exact ⟨by simp [G2], by simp [G2], fwd_ok⟩
  · simp [G2, fwd1, bwd1, fwd2]
end Ex

/-- **C135** (`sum_Ni` is no bound) With Kiter's own solver, on a graph of two tasks, the second row has
`sum_Ki = 10` and `sum_Ni = 8`. -/
theorem _root_.Kiter.C135_exceeds_counterexample :
    BaseOK Ex.G4 ∧
    (report (Howard.solver (1 / 10 ^ 19) (10 ^ 300) endpoints) Ex.G4 10).map
      (fun l => l.map fun r => (r.iteration, r.sumKi, r.sumNi, r.th)) = some [(0, 3, 8, 1/15), (1, 10, 8, 1/13)] :=
  ⟨Ex.G4_ok, by decide +kernel⟩

/-- **C135** (`sum_KiKj` counts constraints twice) With Kiter's own solver, a channel outside the critical circuit between
two tasks of the circuit is regenerated once for each: the second row has `sum_KiKj = 13`, the event graph generated from
scratch for the same vector has 11 constraints. -/
theorem _root_.Kiter.C135_constraints_counterexample :
    BaseOK Ex.G2 ∧
    (steps (Howard.solver (1 / 10 ^ 19) (10 ^ 300) endpoints) Ex.G2 10).map
      (fun s => s.1.map fun x => ((row Ex.G2 0 x).sumKiKj, (eventGraph (Ex.G2.withK x.K)).map List.length)) =
      some [(5, some 5), (13, some 11)] :=
  ⟨Ex.G2_ok, by decide +kernel⟩

end Kiter.KRep
