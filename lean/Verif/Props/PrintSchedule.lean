/-
Property C124: the drawing of a K-periodic schedule.
-/
import Verif.Lemmas.PrintSchedule

set_option autoImplicit false

namespace Kiter.Tikz

theorem pattern_pos {t : KTask} {K : ℕ} (ht : Kiter.TaskOK t K) {Ω : ℚ} (hΩ : 0 < Ω) : 0 < pattern Ω t K := by
  unfold pattern
  have h1 : (0 : ℚ) < t.ni := by exact_mod_cast ht.ni
  have h2 : (0 : ℚ) < t.durations.length := by exact_mod_cast ht.phases
  have h3 : (0 : ℚ) < K := by exact_mod_cast ht.k
  positivity

/-- The printed drawing, in terms of the records. -/
theorem printSchedule_eq {g : KGraph} (hg : GraphOK g) (hn : (g.tasks.map fun tk => tk.1.id).Nodup) {th : ℚ}
    (hth : 0 < th) {cs : List EvConstraint} (hcs : eventGraph g = some cs) :
    let S := (computeStartingTime (graphEvents g) cs (some (1 / th))).2
    let recs := allRecs g (1 / th) S
    printSchedule g th = some ⟨g.tasks.length, 0, maxTime recs / 7, maxTime recs, nameCalls g (rowsOf recs),
      recs.flatMap (eventCalls (rowsOf recs) (maxTime recs))⟩ := by
  intro S recs
  have hΩ : (0 : ℚ) < 1 / th := by positivity
  unfold printSchedule
  rw [if_neg hth.ne', hcs]
  simp only [Option.bind_eq_bind, Option.bind_some]
  rw [records hg hn hΩ]
  rfl

theorem lookup_task {g : KGraph} (hg : GraphOK g) (Ω : ℚ) (S : Event → ℚ) {tk : KTask × ℕ} (h : tk ∈ g.tasks) :
    ∃ r, (rowsOf (allRecs g Ω S)).lookup tk.1.id = some r := by
  have inv := rowsInv (allRecs g Ω S)
  have ht := hg.tasks tk h
  have : tk.1.id ∈ (rowsOf (allRecs g Ω S)).map Prod.fst := by
    rw [inv.seen]
    refine ⟨S (evAt tk.1 0), mem_ordered.mpr ⟨recAt Ω S tk 0, mem_allRecs.mpr ⟨tk, h, 0, ?_, rfl⟩, rfl, rfl⟩⟩
    exact Nat.mul_pos ht.k ht.phases
  obtain ⟨⟨i, r⟩, hm, e⟩ := List.mem_map.mp this
  dsimp only at e
  subst e
  exact ⟨r, (lookup_mem inv.keys).mpr hm⟩

/-- **C124** For every covered graph with distinct task ids and every positive throughput, a drawing is printed.
With `S` the starting times and `Ω = 1 / throughput`, whose schedule is valid if any K-periodic schedule of this
period is:
* the blocks drawn are exactly the executions of the schedule whose pattern ends by the latest date (written as the
  last argument of the header), each in the row named after its task, at its start, with its duration as width;
* for every task, the first `2 * ni` repetitions of its pattern are among them, and the latest date is the end of the
  last of these for some task. -/
theorem _root_.Kiter.C124_blocks {g : KGraph} (hg : GraphOK g) (hn : (g.tasks.map fun tk => tk.1.id).Nodup) {th : ℚ}
    (hth : 0 < th) : ∃ cs d, eventGraph g = some cs ∧ printSchedule g th = some d ∧
      let Ω := 1 / th
      let S := (computeStartingTime (graphEvents g) cs (some Ω)).2
      (∀ b : Block, b ∈ d.blocks ↔ ∃ tk ∈ g.tasks, ∃ r k, (r, tk.1.id) ∈ d.names ∧
        b = ⟨r, execStart S Ω tk.1 tk.2 k, tk.1.dur k⟩ ∧
        execStart S Ω tk.1 tk.2 k + pattern Ω tk.1 tk.2 ≤ d.tick) ∧
      (∀ tk ∈ g.tasks, ∀ k : ℕ, (k : Int) < 2 * tk.1.ni * (tk.2 * tk.1.durations.length : ℕ) →
        execStart S Ω tk.1 tk.2 k + pattern Ω tk.1 tk.2 ≤ d.tick) ∧
      (g.tasks ≠ [] → ∃ tk ∈ g.tasks, ∃ k : ℕ, (k : Int) < 2 * tk.1.ni * (tk.2 * tk.1.durations.length : ℕ) ∧
        d.tick = execStart S Ω tk.1 tk.2 k + pattern Ω tk.1 tk.2) ∧
      ((∃ X, ValidSchedule g X Ω) → ValidSchedule g S Ω) := by
  have hΩ : (0 : ℚ) < 1 / th := by positivity
  obtain ⟨cs, hcs, hiff⟩ := C21_schedule_valid_iff hg hΩ.le
  refine ⟨cs, _, hcs, printSchedule_eq hg hn hth hcs, ?_⟩
  intro Ω S
  set recs := allRecs g (1 / th) S with hrecs
  have inv := rowsInv recs
  have hge : ∀ tk ∈ g.tasks, ∀ x < tk.2 * tk.1.durations.length,
      S (evAt tk.1 x) + pattern Ω tk.1 tk.2 * ((tk.1.ni * 2 : Int) : ℚ) ≤ maxTime recs := by
    intro tk htk x hx
    exact maxTime_ge recs (recAt Ω S tk x) (mem_allRecs.mpr ⟨tk, htk, x, hx, rfl⟩)
  refine ⟨?_, ?_, ?_, hiff.mpr⟩
  · intro b
    have hev : ∀ tk ∈ g.tasks, ∀ x < tk.2 * tk.1.durations.length, ∀ row,
        (rowsOf recs).lookup tk.1.id = some row →
        (b ∈ (eventCalls (rowsOf recs) (maxTime recs) (recAt Ω S tk x)).flatMap Cmd.blocks ↔
          ∃ q : ℕ, b = ⟨row, S (evAt tk.1 x) + q * pattern Ω tk.1 tk.2, tk.1.dur x⟩ ∧
            S (evAt tk.1 x) + q * pattern Ω tk.1 tk.2 + pattern Ω tk.1 tk.2 ≤ maxTime recs) := by
      intro tk htk x hx row hrow
      have ht := hg.tasks tk htk
      have hp := pattern_pos ht hΩ
      refine mem_eventBlocks (r := recAt Ω S tk x) hrow hp ?_
      refine le_trans ?_ (hge tk htk x hx)
      show S (evAt tk.1 x) + 2 * pattern Ω tk.1 tk.2 ≤ _
      have : (1 : ℚ) ≤ tk.1.ni := by exact_mod_cast ht.ni
      push_cast
      nlinarith
    show b ∈ (recs.flatMap (eventCalls (rowsOf recs) (maxTime recs))).flatMap Cmd.blocks ↔ _
    rw [List.flatMap_assoc, List.mem_flatMap]
    constructor
    · rintro ⟨r, hr, hb⟩
      obtain ⟨tk, htk, x, hx, rfl⟩ := mem_allRecs.mp hr
      have ht := hg.tasks tk htk
      obtain ⟨row, hrow⟩ := lookup_task hg Ω S htk
      obtain ⟨q, rfl, hq⟩ := (hev tk htk x hx row hrow).mp hb
      have hM : 0 < tk.2 * tk.1.durations.length := Nat.mul_pos ht.k ht.phases
      have e1 : (x + q * (tk.2 * tk.1.durations.length)) % (tk.2 * tk.1.durations.length) = x := by
        rw [Nat.add_mul_mod_self_right, Nat.mod_eq_of_lt hx]
      have e2 : (x + q * (tk.2 * tk.1.durations.length)) / (tk.2 * tk.1.durations.length) = q := by
        rw [Nat.add_mul_div_right _ _ hM, Nat.div_eq_of_lt hx, Nat.zero_add]
      have e3 : execStart S Ω tk.1 tk.2 (x + q * (tk.2 * tk.1.durations.length)) =
          S (evAt tk.1 x) + q * pattern Ω tk.1 tk.2 := by rw [execStart_split, e1, e2]
      refine ⟨tk, htk, row, x + q * (tk.2 * tk.1.durations.length), ?_, ?_, ?_⟩
      · exact (mem_nameCalls inv.keys).mpr ⟨⟨tk, htk, rfl⟩, (lookup_mem inv.keys).mp hrow⟩
      · rw [e3, ← dur_mod tk.1 tk.2 (x + _), e1]
      · rw [e3]; exact hq
    · rintro ⟨tk, htk, row, k, hname, rfl, hk⟩
      have ht := hg.tasks tk htk
      have hM : 0 < tk.2 * tk.1.durations.length := Nat.mul_pos ht.k ht.phases
      have hx := Nat.mod_lt k hM
      have hrow := (lookup_mem inv.keys).mpr ((mem_nameCalls inv.keys).mp hname).2
      refine ⟨recAt Ω S tk (k % (tk.2 * tk.1.durations.length)), mem_allRecs.mpr ⟨tk, htk, _, hx, rfl⟩, ?_⟩
      refine (hev tk htk _ hx row hrow).mpr ⟨k / (tk.2 * tk.1.durations.length), ?_, ?_⟩
      · rw [execStart_split, dur_mod]
      · rw [execStart_split] at hk; exact hk
  · intro tk htk k hk
    have ht := hg.tasks tk htk
    have hM : 0 < tk.2 * tk.1.durations.length := Nat.mul_pos ht.k ht.phases
    have hx := Nat.mod_lt k hM
    have hp := pattern_pos ht hΩ
    refine le_trans ?_ (hge tk htk _ hx)
    rw [execStart_split]
    have hq : k / (tk.2 * tk.1.durations.length) < 2 * tk.1.ni.toNat := by
      rw [Nat.div_lt_iff_lt_mul hM]
      have h0 : ((tk.1.ni.toNat : ℕ) : Int) = tk.1.ni := Int.toNat_of_nonneg ht.ni.le
      have : (k : Int) < ((2 * tk.1.ni.toNat * (tk.2 * tk.1.durations.length) : ℕ) : Int) := by
        push_cast [h0]; push_cast at hk; exact hk
      exact_mod_cast this
    have hq' : ((k / (tk.2 * tk.1.durations.length) : ℕ) : ℚ) + 1 ≤ 2 * (tk.1.ni : ℚ) := by
      have h0 : ((tk.1.ni.toNat : ℕ) : ℚ) = tk.1.ni := by exact_mod_cast Int.toNat_of_nonneg ht.ni.le
      have : ((k / (tk.2 * tk.1.durations.length) : ℕ) : ℚ) + 1 ≤ 2 * (tk.1.ni.toNat : ℚ) := by exact_mod_cast hq
      rw [h0] at this; exact this
    have hm := mul_le_mul_of_nonneg_right hq' hp.le
    show S _ + _ * pattern Ω tk.1 tk.2 + pattern Ω tk.1 tk.2 ≤ _
    have hm' : (((k / (tk.2 * tk.1.durations.length) : ℕ) : ℚ) + 1) * pattern Ω tk.1 tk.2 ≤
      2 * (tk.1.ni : ℚ) * pattern Ω tk.1 tk.2 := hm
    push_cast
    linarith
  · intro hne
    show ∃ tk ∈ g.tasks, ∃ k : ℕ, _ ∧ maxTime recs = _
    have hpos : maxTime recs ≠ 0 := by
      obtain ⟨tk, htk⟩ := List.exists_mem_of_ne_nil _ hne
      have ht := hg.tasks tk htk
      have hM : 0 < tk.2 * tk.1.durations.length := Nat.mul_pos ht.k ht.phases
      have h1 := hge tk htk 0 hM
      have h2 : 0 ≤ S (evAt tk.1 0) := start_nonneg _ _ _ (evAt_mem htk ht.phases hM)
      have h3 : 0 < pattern Ω tk.1 tk.2 := pattern_pos ht hΩ
      have h4 : (0 : ℚ) < ((tk.1.ni * 2 : Int) : ℚ) := by exact_mod_cast (by have := ht.ni; omega)
      have h5 := mul_pos h3 h4
      intro h0
      rw [h0] at h1
      linarith
    rcases maxTime_attained recs with h | ⟨r, hr, h⟩
    · exact absurd h hpos
    · obtain ⟨tk, htk, x, hx, rfl⟩ := mem_allRecs.mp hr
      have ht := hg.tasks tk htk
      have hM : 0 < tk.2 * tk.1.durations.length := Nat.mul_pos ht.k ht.phases
      have h0 : ((tk.1.ni.toNat : ℕ) : Int) = tk.1.ni := Int.toNat_of_nonneg ht.ni.le
      have h0' : ((tk.1.ni.toNat : ℕ) : ℚ) = tk.1.ni := by exact_mod_cast h0
      have hni : 1 ≤ tk.1.ni.toNat := by have := ht.ni; omega
      refine ⟨tk, htk, x + (2 * tk.1.ni.toNat - 1) * (tk.2 * tk.1.durations.length), ?_, ?_⟩
      · have : x + (2 * tk.1.ni.toNat - 1) * (tk.2 * tk.1.durations.length) <
            2 * tk.1.ni.toNat * (tk.2 * tk.1.durations.length) := by
          have e : 2 * tk.1.ni.toNat * (tk.2 * tk.1.durations.length) =
            (2 * tk.1.ni.toNat - 1) * (tk.2 * tk.1.durations.length) + tk.2 * tk.1.durations.length := by
            conv_lhs => rw [show 2 * tk.1.ni.toNat = (2 * tk.1.ni.toNat - 1) + 1 by omega]
            rw [Nat.add_mul, Nat.one_mul]
          omega
        have h' : ((x + (2 * tk.1.ni.toNat - 1) * (tk.2 * tk.1.durations.length) : ℕ) : Int) <
            ((2 * tk.1.ni.toNat * (tk.2 * tk.1.durations.length) : ℕ) : Int) := by exact_mod_cast this
        rw [show 2 * tk.1.ni * ((tk.2 * tk.1.durations.length : ℕ) : Int) =
          ((2 * tk.1.ni.toNat * (tk.2 * tk.1.durations.length) : ℕ) : Int) by push_cast [h0]; rfl]
        exact h'
      · rw [h, execStart_split, Nat.add_mul_mod_self_right, Nat.mod_eq_of_lt hx, Nat.add_mul_div_right _ _ hM,
          Nat.div_eq_of_lt hx, Nat.zero_add]
        have e : ((2 * tk.1.ni.toNat - 1 : ℕ) : ℚ) = 2 * (tk.1.ni : ℚ) - 1 := by
          rw [Nat.cast_sub (by omega)]; push_cast [h0']; ring
        rw [e]
        show S (evAt tk.1 x) + pattern Ω tk.1 tk.2 * ((tk.1.ni * 2 : Int) : ℚ) = _
        push_cast
        ring

/-- **C124, rows** One row per task, all different, numbered from 0; of two tasks the one with the earlier first start
(the smaller id if they are equal) has the smaller row. -/
theorem _root_.Kiter.C124_rows {g : KGraph} (hg : GraphOK g) (hn : (g.tasks.map fun tk => tk.1.id).Nodup) {th : ℚ}
    (hth : 0 < th) : ∃ cs d, eventGraph g = some cs ∧ printSchedule g th = some d ∧
      let Ω := 1 / th
      let S := (computeStartingTime (graphEvents g) cs (some Ω)).2
      d.names.map Prod.snd = (g.tasks.map fun tk => tk.1.id) ∧
      (d.names.map Prod.fst).Perm (List.range g.tasks.length) ∧
      ∀ tk ∈ g.tasks, ∀ tk' ∈ g.tasks, ∀ r r', (r, tk.1.id) ∈ d.names → (r', tk'.1.id) ∈ d.names → r < r' →
        ∃ k, ∀ k', execStart S Ω tk.1 tk.2 k < execStart S Ω tk'.1 tk'.2 k' ∨
          (execStart S Ω tk.1 tk.2 k = execStart S Ω tk'.1 tk'.2 k' ∧ tk.1.id < tk'.1.id) := by
  have hΩ : (0 : ℚ) < 1 / th := by positivity
  obtain ⟨cs, hcs⟩ := eventGraph_total hg
  refine ⟨cs, _, hcs, printSchedule_eq hg hn hth hcs, ?_⟩
  intro Ω S
  set recs := allRecs g (1 / th) S with hrecs
  have inv := rowsInv recs
  have hids : (nameCalls g (rowsOf recs)).map Prod.snd = g.tasks.map fun tk => tk.1.id :=
    nameCalls_ids fun tk htk => by
      obtain ⟨r, hr⟩ := lookup_task hg Ω S htk
      rw [hr]; rfl
  have hid_of : ∀ i s, (i, s) ∈ ordered recs → ∃ tk ∈ g.tasks, tk.1.id = i ∧
      ∃ x < tk.2 * tk.1.durations.length, S (evAt tk.1 x) = s := by
    intro i s h
    obtain ⟨r, hr, h1, h2⟩ := mem_ordered.mp h
    obtain ⟨tk, htk, x, hx, rfl⟩ := mem_allRecs.mp hr
    exact ⟨tk, htk, h1, x, hx, h2⟩
  have htask : ∀ tk ∈ g.tasks, ∀ tk' ∈ g.tasks, tk.1.id = tk'.1.id → tk = tk' := fun tk h tk' h' e =>
    List.inj_on_of_nodup_map hn h h' e
  have hlen : (rowsOf recs).length = g.tasks.length := by
    have hp : ((rowsOf recs).map Prod.fst).Perm (g.tasks.map fun tk => tk.1.id) := by
      rw [List.perm_ext_iff_of_nodup inv.keys hn]
      intro i
      constructor
      · intro h
        obtain ⟨s, hs⟩ := (inv.seen i).mp h
        obtain ⟨tk, htk, e, _⟩ := hid_of i s hs
        exact List.mem_map.mpr ⟨tk, htk, e⟩
      · intro h
        obtain ⟨tk, htk, rfl⟩ := List.mem_map.mp h
        obtain ⟨r, hr⟩ := lookup_task hg Ω S htk
        exact List.mem_map.mpr ⟨_, (lookup_mem inv.keys).mp hr, rfl⟩
    have := hp.length_eq
    simpa using this
  have hrow : ∀ p ∈ nameCalls g (rowsOf recs), (p.2, p.1) ∈ rowsOf recs := fun p hp =>
    ((mem_nameCalls (i := p.2) (r := p.1) inv.keys).mp hp).2
  have hvals : ((rowsOf recs).map Prod.snd).Nodup := by rw [inv.vals]; exact List.nodup_range
  refine ⟨hids, ?_, ?_⟩
  · have hnd : ((nameCalls g (rowsOf recs)).map Prod.fst).Nodup := by
      have h2 : ((nameCalls g (rowsOf recs)).map Prod.snd).Nodup := by rw [hids]; exact hn
      refine List.Nodup.map_on ?_ (List.Nodup.of_map _ h2)
      intro p hp q hq e
      have := List.inj_on_of_nodup_map hvals (hrow p hp) (hrow q hq) e
      rw [Prod.mk.injEq] at this
      exact Prod.ext e this.1
    refine (List.subperm_of_subset hnd ?_).perm_of_length_le ?_
    · intro r hr
      obtain ⟨p, hp, rfl⟩ := List.mem_map.mp hr
      have : p.1 ∈ (rowsOf recs).map Prod.snd := List.mem_map.mpr ⟨_, hrow p hp, rfl⟩
      rw [inv.vals, hlen] at this
      exact this
    · have := congrArg List.length hids
      simp only [List.length_map] at this
      rw [List.length_range, List.length_map]
      exact this.ge
  · intro tk htk tk' htk' r r' hr hr' hlt
    obtain ⟨s, hs, hall⟩ := inv.order _ (hrow _ hr) _ (hrow _ hr') hlt
    obtain ⟨tk0, htk0, e0, x, hx, rfl⟩ := hid_of _ _ hs
    have := htask tk0 htk0 tk htk e0
    subst this
    refine ⟨x, ?_⟩
    intro k'
    have ht := hg.tasks tk0 htk
    have ht' := hg.tasks tk' htk'
    have hM' : 0 < tk'.2 * tk'.1.durations.length := Nat.mul_pos ht'.k ht'.phases
    have e1 : execStart S Ω tk0.1 tk0.2 x = S (evAt tk0.1 x) := execStart_first hx
    have hb := hall (S (evAt tk'.1 (k' % (tk'.2 * tk'.1.durations.length)))) (mem_ordered.mpr
      ⟨recAt Ω S tk' _, mem_allRecs.mpr ⟨tk', htk', _, Nat.mod_lt k' hM', rfl⟩, rfl, rfl⟩)
    have hge : S (evAt tk'.1 (k' % (tk'.2 * tk'.1.durations.length))) ≤ execStart S Ω tk'.1 tk'.2 k' := by
      rw [execStart_split]
      have := pattern_pos ht' hΩ
      have h0 : (0 : ℚ) ≤ ((k' / (tk'.2 * tk'.1.durations.length) : ℕ) : ℚ) := by positivity
      have := mul_nonneg h0 this.le
      show _ ≤ _ + _ * pattern (1 / th) tk'.1 tk'.2
      linarith
    rw [e1]
    rcases hb with hb | ⟨hb, hi⟩
    · exact Or.inl (lt_of_lt_of_le hb hge)
    · dsimp only at hb hi
      rcases lt_or_eq_of_le hge with h | h
      · left; rw [hb]; exact h
      · right; exact ⟨by rw [hb]; exact h, hi⟩

/-- **C124, the grid** For every covered graph with at least one task the drawing does not fit its grid: the task that
starts first is drawn above it, its last row stays empty, and its width is zero (the date that should be the width is
written as the distance between ticks).  All other tasks lie in rows of the grid. -/
theorem _root_.Kiter.C124_grid_counterexample {g : KGraph} (hg : GraphOK g)
    (hn : (g.tasks.map fun tk => tk.1.id).Nodup) {th : ℚ} (hth : 0 < th) (hne : g.tasks ≠ []) :
    ∃ d, printSchedule g th = some d ∧ d.count = g.tasks.length ∧ d.range = 0 ∧ 0 < d.tick ∧
      (∃ tk ∈ g.tasks, (0, tk.1.id) ∈ d.names) ∧ ¬ d.RowInGrid 0 ∧
      (∀ r i, (r, i) ∈ d.names → r ≠ 0 → d.RowInGrid r) ∧
      d.RowInGrid d.count ∧ ∀ r i, (r, i) ∈ d.names → r ≠ d.count := by
  obtain ⟨cs, d, hcs, hd, hids, hperm, _⟩ := C124_rows hg hn hth
  obtain ⟨cs', d', hcs', hd', _, hle, _⟩ := C124_blocks hg hn hth
  rw [hcs] at hcs'; cases hcs'
  rw [hd] at hd'; cases hd'
  have heq := printSchedule_eq hg hn hth hcs
  dsimp only at heq
  rw [hd] at heq
  have hcount : d.count = g.tasks.length := by injection heq with heq; rw [heq]
  have hrange : d.range = 0 := by injection heq with heq; rw [heq]
  have hlt : ∀ r i, (r, i) ∈ d.names → r < g.tasks.length := by
    intro r i h
    have := hperm.mem_iff.mp (List.mem_map_of_mem (f := Prod.fst) h)
    exact List.mem_range.mp this
  have hpos : 0 < g.tasks.length := List.length_pos_iff.mpr hne
  refine ⟨d, hd, hcount, hrange, ?_, ?_, ?_, ?_, ?_, ?_⟩
  · obtain ⟨tk, htk⟩ := List.exists_mem_of_ne_nil _ hne
    have ht := hg.tasks tk htk
    have hM : 0 < tk.2 * tk.1.durations.length := Nat.mul_pos ht.k ht.phases
    have hΩ : (0 : ℚ) < 1 / th := by positivity
    have h1 := hle tk htk 0 (by
      have := ht.ni
      have h2 : (0 : Int) < ((tk.2 * tk.1.durations.length : ℕ) : Int) := by exact_mod_cast hM
      have := mul_pos (mul_pos (show (0 : Int) < 2 by norm_num) this) h2
      simpa using this)
    rw [execStart_first hM] at h1
    have h2 := start_nonneg (graphEvents g) cs (1 / th) (evAt_mem htk ht.phases hM)
    have h3 := pattern_pos ht hΩ
    linarith
  · have : 0 ∈ d.names.map Prod.fst := hperm.mem_iff.mpr (List.mem_range.mpr hpos)
    obtain ⟨⟨r, i⟩, hm, e⟩ := List.mem_map.mp this
    dsimp only at e
    subst e
    have hi : i ∈ d.names.map Prod.snd := List.mem_map_of_mem (f := Prod.snd) hm
    rw [hids] at hi
    obtain ⟨tk, htk, rfl⟩ := List.mem_map.mp hi
    exact ⟨tk, htk, hm⟩
  · unfold Drawing.RowInGrid Drawing.height
    rintro ⟨_, h⟩
    push_cast at h
    linarith
  · intro r i h h0
    have h1 := hlt r i h
    unfold Drawing.RowInGrid Drawing.height
    rw [hcount]
    have h2 : (r : ℚ) ≤ g.tasks.length := by exact_mod_cast h1.le
    have h3 : (1 : ℚ) ≤ r := by exact_mod_cast Nat.one_le_iff_ne_zero.mpr h0
    constructor <;> linarith
  · unfold Drawing.RowInGrid Drawing.height
    rw [hcount]
    have h3 : (1 : ℚ) ≤ g.tasks.length := by exact_mod_cast hpos
    constructor <;> linarith
  · intro r i h
    have := hlt r i h
    rw [hcount]; omega

/-- The hypotheses are met by the example graph (two tasks, the second with `K = 3`) with the throughput `1/7`, for
which a valid schedule exists, and the drawing printed for it has 30 blocks. -/
example : GraphOK Example.G ∧ (Example.G.tasks.map fun tk => tk.1.id).Nodup ∧ Example.G.tasks ≠ [] ∧
    (∃ X, ValidSchedule Example.G X (1 / (1 / 7 : ℚ))) ∧
    (printSchedule Example.G (1 / 7)).map (fun d => (d.names, d.tick, d.blocks.length)) =
      some ([(0, 0), (1, 1)], 47, 30) := by
  refine ⟨Example.G_ok, by decide, by decide, ⟨Example.S, ?_⟩, by decide +kernel⟩
  have : (1 / (1 / 7 : ℚ)) = 7 := by norm_num
  rw [this]; exact Example.valid

end Kiter.Tikz
