/-
The critical channels of a graph without throughput hold few initial tokens: what the initial marking of the random
generator needs (C64).
-/
import Verif.Props.KSchedule
import Verif.Lemmas.Buffers
import Verif.Lemmas.ExactSolver

set_option autoImplicit false

namespace Kiter
open Howard

/-! ### Short critical circuits -/

theorem totals_append (p q : List EvConstraint) : totalD (p ++ q) = totalD p + totalD q ∧ totalW (p ++ q) = totalW p + totalW q := by
  simp [totalD, totalW]

theorem repeated_split {α β : Type} [DecidableEq β] (f : α → β) (l : List α) (h : ¬ (l.map f).Nodup) :
    ∃ l1 x l2 y l3, l = l1 ++ x :: (l2 ++ y :: l3) ∧ f x = f y := by
  induction l with
  | nil => simp at h
  | cons a l ih =>
    rw [List.map_cons, List.nodup_cons, not_and_or, not_not] at h
    rcases h with h | h
    · obtain ⟨y, hy, hf⟩ := List.mem_map.mp h
      obtain ⟨l2, l3, rfl⟩ := List.append_of_mem hy
      exact ⟨[], a, l2, y, l3, rfl, hf.symm⟩
    · obtain ⟨l1, x, l2, y, l3, rfl, hf⟩ := ih h
      exact ⟨a :: l1, x, l2, y, l3, rfl, hf⟩

theorem IsWalk.split {cs : List EvConstraint} {u v : Event} {p : List EvConstraint} {x : EvConstraint} {q : List EvConstraint}
    (h : IsWalk cs u (p ++ x :: q) v) : IsWalk cs u p x.src ∧ IsWalk cs x.src (x :: q) v := by
  induction p generalizing u with
  | nil => exact ⟨h.2.1.symm, h.1, rfl, h.2.2⟩
  | cons a p ih =>
    obtain ⟨h1, h2, h3⟩ := h
    exact ⟨⟨h1, h2, (ih h3).1⟩, (ih h3).2⟩

/-- A constraint on a circuit of least ratio is on such a circuit that visits no event twice. -/
theorem simple_critical {cs : List EvConstraint} {th : ℚ} (hbest : ∀ u q, IsWalk cs u q u → totalD q * th ≤ totalW q)
    {e : EvConstraint} (n : ℕ) : ∀ b : List EvConstraint, b.length ≤ n → IsWalk cs e.src (e :: b) e.src →
    totalD (e :: b) * th = totalW (e :: b) →
    ∃ q, IsWalk cs e.src (e :: q) e.src ∧ totalD (e :: q) * th = totalW (e :: q) ∧ ((e :: q).map fun x => x.src).Nodup := by
  induction n with
  | zero =>
    intro b hb hw hr
    obtain rfl := List.length_eq_zero_iff.mp (Nat.le_zero.mp hb)
    exact ⟨[], hw, hr, by simp⟩
  | succ n ih =>
    intro b hb hw hr
    by_cases hn : ((e :: b).map fun x => x.src).Nodup
    · exact ⟨b, hw, hr, hn⟩
    obtain ⟨l1, x, l2, y, l3, hl, hxy⟩ := repeated_split (fun x : EvConstraint => x.src) _ hn
    have hlen : b.length + 1 = l1.length + (l2.length + (l3.length + 1) + 1) := by
      have := congrArg List.length hl
      simpa using this
    rw [hl] at hw hr
    obtain ⟨w1, w2⟩ := hw.split
    obtain ⟨w3, w4⟩ := IsWalk.split (p := x :: l2) (x := y) (q := l3) w2
    rw [← hxy] at w3
    have hb1 := hbest _ _ w3
    cases l1 with
    | nil =>
      simp only [List.nil_append, List.cons.injEq] at hl
      obtain ⟨rfl, hl⟩ := hl
      rw [← hxy] at w4
      have hb2 := hbest _ _ w4
      have ht := totals_append (e :: l2) (y :: l3)
      rw [List.nil_append, ← List.cons_append, ht.1, ht.2] at hr
      exact ih l2 (by simp at hlen; omega) w3 (by linarith)
    | cons a l1 =>
      simp only [List.cons_append, List.cons.injEq] at hl
      obtain ⟨rfl, hl⟩ := hl
      have w5 : IsWalk cs e.src ((e :: l1) ++ (y :: l3)) e.src := by
        refine IsWalk.append w1 ?_
        show IsWalk cs x.src (y :: l3) e.src
        have hxy : x.src = y.src := hxy
        rw [hxy]; exact w4
      have hb2 := hbest _ _ w5
      have ht := totals_append (e :: l1) (x :: (l2 ++ y :: l3))
      have ht2 := totals_append (x :: l2) (y :: l3)
      have ht3 := totals_append (e :: l1) (y :: l3)
      rw [ht.1, ht.2, ← List.cons_append, ht2.1, ht2.2] at hr
      rw [ht3.1, ht3.2] at hb2
      refine ih (l1 ++ y :: l3) (by simp at hlen ⊢; omega) w5 ?_
      show totalD ((e :: l1) ++ (y :: l3)) * th = totalW ((e :: l1) ++ (y :: l3))
      rw [ht3.1, ht3.2]
      linarith

/-! ### The weights of the constraints -/

theorem weight_ge {B : BaseGraph} (hB : BaseOK B) {K : Int → ℕ} (hK : KOk B K) {cs : List EvConstraint}
    (hcs : GraphFor B K cs) {c : EvConstraint} (hc : c ∈ cs) :
    (c.channel = 0 ∧ 0 ≤ c.w) ∨ ∃ e ∈ B.channels, c.channel = e.1.id ∧ -1 ≤ c.w ∧
      (e.1.preload : ℚ) ≤ (c.w + 1) * (e.1.inPhases.sum * e.2.1.ni) := by
  obtain ⟨cs0, hcs0, hmem⟩ := hcs
  rcases (eventGraph_mem hcs0 c).mp ((hmem c).mp hc) with ⟨t, ht, x, hx, hcx⟩ | ⟨e, he, x, hx, hcx⟩
  · left
    have hok := hB.tasks t ht
    obtain ⟨r, hr, hm⟩ := selfLoop_spec t (K t.id) hok.phases (hK.1 _) hok.noInit hok.ni.ne'
    rw [hx] at hr; cases hr
    have hn : (0 : ℚ) < t.ni := by exact_mod_cast hok.ni
    rcases (hm c).mp hcx with ⟨y, _, rfl⟩ | ⟨_, rfl⟩
    · exact ⟨rfl, le_refl _⟩
    · exact ⟨rfl, by positivity⟩
  · right
    obtain ⟨s1, s2, h3⟩ := hB.channels e he
    have t1 := hB.tasks _ s1
    have t2 := hB.tasks _ s2
    have hP : 0 < e.1.inPhases.length := by rw [← h3.srcPhases]; exact t1.phases
    have hQ : 0 < e.1.outPhases.length := by rw [← h3.dstPhases]; exact t2.phases
    obtain ⟨mop, m1, m2, m3, r, hr, hm⟩ := channel_spec e.2.1 e.2.2 e.1 (K e.2.1.id) (K e.2.2.id) h3.noInInit h3.noOutInit hP hQ
      h3.srcPhases (hK.1 _) h3.inPos t1.ni.ne' h3.gcdPos h3.preload
    rw [hx] at hr; cases hr
    obtain ⟨m, _, n, hn, α, hα, rfl⟩ := (hm c).mp hcx
    have hKi : (0 : Int) < K e.2.1.id := by exact_mod_cast hK.1 _
    have hg : (0 : Int) < (Int.gcd (e.1.inPhases.sum * K e.2.1.id) (e.1.outPhases.sum * K e.2.2.id) : ℕ) := by
      exact_mod_cast Int.gcd_pos_of_ne_zero_left _ (mul_pos h3.inPos hKi).ne'
    have hle : α ≤ e.1.outPhases.sum * K e.2.2.id - e.1.preload := by
      unfold boundsDefault at hα
      split at hα
      · cases hα
        refine le_trans (floorMult_spec _ _ hg).2.1 ?_
        have c1 : 0 ≤ cum (rate e.1.inPhases) m := cum_nonneg (fun k => (rate_le_sum h3.inNonneg k).1) m
        have c2 : cum (rate e.1.outPhases) (n + 1) ≤ e.1.outPhases.sum * K e.2.2.id := by
          rw [← cum_rate]
          exact cum_mono (fun k => (rate_le_sum h3.outNonneg k).1) (by omega)
        omega
      · cases hα
    have hns := t1.ni
    have hrep : (K e.2.2.id : Int) ≤ reps e.2.2 := by exact_mod_cast Nat.le_of_dvd (reps_spec hB s2).1 (hK.2 _ s2)
    have hnd := (reps_spec hB s2).2
    have hPi : (0 : Int) < e.1.inPhases.length := by exact_mod_cast hP
    have hQi : (0 : Int) < e.1.outPhases.length := by exact_mod_cast hQ
    -- one iteration's worth of tokens
    have hbal : e.1.inPhases.sum * e.2.1.ni = e.1.outPhases.sum * reps e.2.2 * e.1.inPhases.length := by
      have := h3.balance
      rw [hnd, h3.dstPhases, h3.srcPhases] at this
      apply mul_right_cancel₀ hQi.ne'
      linarith
    have hA : (0 : Int) < e.1.inPhases.sum * e.2.1.ni := mul_pos h3.inPos hns
    have hkey : (e.1.preload - e.1.inPhases.sum * e.2.1.ni : Int) ≤ -α * e.1.inPhases.length := by
      have a1 : e.1.outPhases.sum * K e.2.2.id * e.1.inPhases.length ≤ e.1.inPhases.sum * e.2.1.ni := by
        rw [hbal]
        exact mul_le_mul_of_nonneg_right (mul_le_mul_of_nonneg_left hrep h3.outPos.le) hPi.le
      have a2 : e.1.preload ≤ e.1.preload * e.1.inPhases.length := by
        have := mul_le_mul_of_nonneg_left (show (1 : Int) ≤ e.1.inPhases.length by omega) h3.preload
        linarith
      have a3 : (e.1.preload - e.1.outPhases.sum * K e.2.2.id) * e.1.inPhases.length ≤ -α * e.1.inPhases.length :=
        mul_le_mul_of_nonneg_right (by linarith) hPi.le
      linarith
    have hAq : (0 : ℚ) < (e.1.inPhases.sum : ℚ) * e.2.1.ni := by exact_mod_cast hA
    have hKq : (0 : ℚ) < K e.2.1.id := by exact_mod_cast hK.1 e.2.1.id
    have hin : (0 : ℚ) < (e.1.inPhases.sum : ℚ) := by exact_mod_cast h3.inPos
    have hnq : (0 : ℚ) < (e.2.1.ni : ℚ) := by exact_mod_cast hns
    have hw : -(((α : ℚ) * ((e.1.inPhases.length : ℚ) * K e.2.1.id)) / (((e.1.inPhases.sum * K e.2.1.id : Int) : ℚ) * e.2.1.ni)) =
        (-α * e.1.inPhases.length : ℚ) / ((e.1.inPhases.sum : ℚ) * e.2.1.ni) := by
      push_cast
      field_simp
    have hkq : (e.1.preload : ℚ) - e.1.inPhases.sum * e.2.1.ni ≤ -α * e.1.inPhases.length := by exact_mod_cast hkey
    have hpq : (0 : ℚ) ≤ e.1.preload := by exact_mod_cast h3.preload
    refine ⟨e, he, rfl, ?_, ?_⟩
    · show -1 ≤ -(((α : ℚ) * ((e.1.inPhases.length : ℚ) * K e.2.1.id)) / (((e.1.inPhases.sum * K e.2.1.id : Int) : ℚ) * e.2.1.ni))
      rw [hw, le_div_iff₀ hAq]
      linarith
    · show (e.1.preload : ℚ) ≤ (-(((α : ℚ) * ((e.1.inPhases.length : ℚ) * K e.2.1.id)) / (((e.1.inPhases.sum * K e.2.1.id : Int) : ℚ) * e.2.1.ni)) + 1) * _
      rw [hw, add_mul, div_mul_cancel₀ _ hAq.ne']
      linarith

/-! ### The critical channels -/

/-- A graph with a circuit whose ratio is not positive: some channel is critical. -/
theorem critical_nonempty {B : BaseGraph} (hB : BaseOK B) {K : Int → ℕ} (hK : KOk B K) {cs : List EvConstraint}
    (hcs : GraphFor B K cs) {th : ℚ} {p : List EvConstraint} (hp : CycleAnswer cs th p) (hth : th ≤ 0) :
    criticalEdges B p ≠ [] := by
  intro hnil
  have hB' : BaseOK ⟨B.tasks, []⟩ := ⟨hB.ids, hB.tasks, hB.multiple, by simp, by simp⟩
  have hK' : KOk ⟨B.tasks, []⟩ K := hK
  obtain ⟨cs', hcs'⟩ := eventGraph_total (withK_ok hB' (K := K) fun t _ => hK.1 _)
  have hsub : ∀ c ∈ cs', c ∈ cs := by
    intro c hc
    obtain ⟨cs0, hcs0, hmem⟩ := hcs
    rcases (eventGraph_mem hcs' c).mp hc with ⟨t, ht, x⟩ | ⟨e, he, -⟩
    · exact (hmem c).mpr ((eventGraph_mem hcs0 c).mpr (Or.inl ⟨t, ht, x⟩))
    · simp at he
  have hin : ∀ c ∈ p, c ∈ cs' := by
    intro c hc
    obtain ⟨u, hu⟩ := hp.circuit
    have hcm := (walk_srcs _ _ _ hu c hc).1
    obtain ⟨cs0, hcs0, hmem⟩ := hcs
    rcases (eventGraph_mem hcs0 c).mp ((hmem c).mp hcm) with ⟨t, ht, x⟩ | ⟨e, he, x, hx, hcx⟩
    · exact (eventGraph_mem hcs' c).mpr (Or.inl ⟨t, ht, x⟩)
    · exfalso
      have : e ∈ criticalEdges B p := by
        unfold criticalEdges
        rw [List.mem_filter]
        refine ⟨he, List.any_eq_true.mpr ⟨c, hc, ?_⟩⟩
        obtain ⟨y, hy, hend⟩ := channel_ends hB he (Ki := K e.2.1.id) (Kj := K e.2.2.id) (hK.1 _)
        rw [hx] at hy; cases hy
        simpa using (hend c hcx).2.2
      rw [hnil] at this
      simp at this
  have hmono : ∀ (l : List EvConstraint) u v, IsWalk cs' u l v → IsWalk cs u l v := by
    intro l
    induction l with
    | nil => intro u v h; exact h
    | cons a l ih => intro u v h; exact ⟨hsub _ h.1, h.2.1, ih _ _ h.2.2⟩
  have hback : ∀ (l : List EvConstraint) u v, (∀ c ∈ l, c ∈ cs') → IsWalk cs u l v → IsWalk cs' u l v := by
    intro l
    induction l with
    | nil => intro u v _ h; exact h
    | cons a l ih => intro u v hl h; exact ⟨hl a (by simp), h.2.1, ih _ _ (fun c hc => hl c (by simp [hc])) h.2.2⟩
  have hp' : CycleAnswer cs' th p := by
    obtain ⟨u, hu⟩ := hp.circuit
    exact ⟨⟨u, hback _ _ _ hin hu⟩, hp.posD, hp.ratio, fun u q hq => hp.best u q (hmono _ _ _ hq)⟩
  refine (verdict hB' hK.1 ⟨cs', hcs', fun _ => Iff.rfl⟩ hp' (G := 1) (fun _ => Nat.one_pos) (by simp [criticalEdges])).2 hth
    ⟨fun _ k => k * gridD B, ?_, ?_, by simp⟩
  · intro t _ k
    exact mul_nonneg (Nat.cast_nonneg _) (gridD_nonneg hB)
  · intro t ht k
    have : t.dur k ≤ gridD B := by
      unfold gridD
      apply List.single_le_sum
      · intro x hx
        obtain ⟨t, ht, hx⟩ := List.mem_flatMap.mp hx
        exact (hB.tasks t ht).durNonneg x hx
      · exact List.mem_flatMap.mpr ⟨t, ht, dur_mem (hB.tasks t ht).phases k⟩
    push_cast
    linarith

/-- A channel that is critical although the ratio is not positive holds less than a number of initial tokens that depends
only on the tasks and the production rates. -/
theorem critical_bound {B : BaseGraph} (hB : BaseOK B) (hid : ∀ e ∈ B.channels, e.1.id ≠ 0) {K : Int → ℕ} (hK : KOk B K)
    {cs : List EvConstraint} (hcs : GraphFor B K cs) {th : ℚ} {p : List EvConstraint} (hp : CycleAnswer cs th p)
    (hth : th ≤ 0) {e : BChannel} (he : e ∈ criticalEdges B p) :
    e.1.preload ≤ (allEvents B).length * (e.1.inPhases.sum * e.2.1.ni) := by
  unfold criticalEdges at he
  obtain ⟨hem, hany⟩ := List.mem_filter.mp he
  obtain ⟨c, hc, hch⟩ := List.any_eq_true.mp hany
  have hch : c.channel = e.1.id := by simpa using hch
  obtain ⟨u, hu⟩ := hp.circuit
  -- turn the circuit so that it starts with this constraint
  obtain ⟨l1, l2, rfl⟩ := List.append_of_mem hc
  obtain ⟨w1, w2⟩ := hu.split
  have w3 : IsWalk cs c.src (c :: (l2 ++ l1)) c.src := IsWalk.append (p := c :: l2) w2 w1
  have hr : totalD (c :: (l2 ++ l1)) * th = totalW (c :: (l2 ++ l1)) := by
    have h1 := totals_append l1 (c :: l2)
    have h2 := totals_append (c :: l2) l1
    have h3 := hp.ratio
    rw [h1.1, h1.2] at h3
    rw [← List.cons_append, h2.1, h2.2]
    linarith
  obtain ⟨q, q1, q2, q3⟩ := simple_critical hp.best _ _ le_rfl w3 hr
  have hmem : ∀ x ∈ c :: q, x ∈ cs := fun x hx => (walk_srcs _ _ _ q1 x hx).1
  have hlen : (c :: q).length ≤ (allEvents B).length := by
    obtain ⟨hw, hl⟩ := endpoints_ok hB hK hcs
    refine le_trans ?_ hl
    rw [← List.length_map (f := fun x : EvConstraint => x.src)]
    refine nodup_length_le q3 fun v hv => ?_
    obtain ⟨x, hx, rfl⟩ := List.mem_map.mp hv
    exact (hw.2 x (hmem x hx)).1
  have hD : 0 ≤ totalD (c :: q) := by
    unfold totalD
    apply List.sum_nonneg
    intro y hy
    obtain ⟨x, hx, rfl⟩ := List.mem_map.mp hy
    obtain ⟨⟨t, ht, hd⟩, -⟩ := constraint_numbers hB hK.1 hcs (hmem x hx)
    exact (hB.tasks t ht).durNonneg _ hd
  have hW : totalW (c :: q) ≤ 0 := by
    rw [← q2]
    exact mul_nonpos_of_nonneg_of_nonpos hD hth
  have hge : ∀ x ∈ cs, 0 ≤ x.w + 1 := by
    intro x hx
    rcases weight_ge hB hK hcs hx with ⟨-, h⟩ | ⟨-, -, -, h, -⟩ <;> linarith
  have hsum : ∀ l : List EvConstraint, (∀ x ∈ l, x ∈ cs) → -(l.length : ℚ) ≤ totalW l := by
    intro l
    induction l with
    | nil => intro _; simp [totalW]
    | cons a l ih =>
      intro h
      have h1 := ih fun x hx => h x (by simp [hx])
      have h2 := hge a (h a (by simp))
      simp only [totalW, List.map_cons, List.sum_cons, List.length_cons, Nat.cast_succ] at h1 ⊢
      linarith
  have hq := hsum q fun x hx => hmem x (by simp [hx])
  have hwc : c.w ≤ q.length := by
    have : totalW (c :: q) = c.w + totalW q := by simp [totalW]
    linarith
  rcases weight_ge hB hK hcs (hmem c (by simp)) with ⟨h0, -⟩ | ⟨e', he', hc', -, hle⟩
  · exact absurd (hch.symm.trans h0) (hid e hem)
  · have := hB.channelIds e hem e' he' (by rw [← hch, hc'])
    subst this
    obtain ⟨s1, -, h3⟩ := hB.channels e hem
    have hA : (0 : Int) < e.1.inPhases.sum * e.2.1.ni := mul_pos h3.inPos (hB.tasks _ s1).ni
    have hAq : (0 : ℚ) < (e.1.inPhases.sum : ℚ) * e.2.1.ni := by exact_mod_cast hA
    have hL : c.w + 1 ≤ (allEvents B).length := by
      have : ((q.length + 1 : ℕ) : ℚ) ≤ (allEvents B).length := by exact_mod_cast hlen
      push_cast at this
      linarith
    have : (e.1.preload : ℚ) ≤ (allEvents B).length * (e.1.inPhases.sum * e.2.1.ni) :=
      hle.trans (mul_le_mul_of_nonneg_right hL hAq.le)
    exact_mod_cast this

/-! ### The analysis -/

theorem kschedLoop_critical {B : BaseGraph} (hB : BaseOK B) (solve : List EvConstraint → Option (ℚ × List EvConstraint))
    (hsolve : ∀ K cs th p, KOk B K → GraphFor B K cs → solve cs = some (th, p) → CycleAnswer cs th p)
    (fuel it : ℕ) (K : Int → ℕ) (hK : KOk B K) (cs : List EvConstraint) (hcs : GraphFor B K cs)
    (th : ℚ) (p : List EvConstraint) (hp : CycleAnswer cs th p) (k : KIterResult) (cc : List BChannel)
    (hr : kschedLoop solve B fuel it K cs (criticalEdges B p) th = some (some (k, cc))) :
    ∃ K cs p, KOk B K ∧ GraphFor B K cs ∧ CycleAnswer cs k.throughput p ∧ cc = criticalEdges B p := by
  induction fuel generalizing it K cs th p with
  | zero => simp [kschedLoop] at hr
  | succ fuel ih =>
    obtain ⟨K', ch, h1, h2⟩ := updateEventGraph_spec hB hK (criticalEdges_sub B p) hcs
    obtain ⟨g, K1, ch1, u1, u2, u3, -, u4, -⟩ := updateVector_spec hB (criticalEdges B p) (criticalEdges_sub B p) K hK
    rw [h1] at u1; cases u1
    rcases h2 with ⟨rfl, h⟩ | ⟨rfl, cs', h, hcs'⟩
    · have e : kschedLoop solve B (fuel + 1) it K cs (criticalEdges B p) th = some (some (⟨K, th, it + 1⟩, criticalEdges B p)) := by
        unfold kschedLoop; rw [h]; rfl
      rw [e] at hr; cases hr
      exact ⟨K, cs, p, hK, hcs, hp, rfl⟩
    · cases hs : solve cs' with
      | none =>
        have e : kschedLoop solve B (fuel + 1) it K cs (criticalEdges B p) th = none := by
          unfold kschedLoop; rw [h]; simp [hs]
        rw [e] at hr; simp at hr
      | some q =>
        have hq : CycleAnswer cs' q.1 q.2 := hsolve K' cs' q.1 q.2 u4 hcs' hs
        by_cases hsame : sameset (criticalEdges B q.2) (criticalEdges B p) = true
        · have e : kschedLoop solve B (fuel + 1) it K cs (criticalEdges B p) th =
              some (some (⟨K', q.1, it + 1⟩, criticalEdges B q.2)) := by
            unfold kschedLoop; rw [h]; simp [hs, hsame]
          rw [e] at hr; cases hr
          exact ⟨K', cs', q.2, u4, hcs', hq, rfl⟩
        · have e : kschedLoop solve B (fuel + 1) it K cs (criticalEdges B p) th =
              kschedLoop solve B fuel (it + 1) K' cs' (criticalEdges B q.2) q.1 := by
            conv_lhs => unfold kschedLoop
            rw [h]; simp [hs, hsame]
          rw [e] at hr
          exact ih (it + 1) K' u4 cs' hcs' q.1 q.2 hq hr

theorem ksched_critical {B : BaseGraph} (hB : BaseOK B) (solve : List EvConstraint → Option (ℚ × List EvConstraint))
    (hsolve : ∀ K cs th p, KOk B K → GraphFor B K cs → solve cs = some (th, p) → CycleAnswer cs th p)
    {fuel : ℕ} {k : KIterResult} {cc : List BChannel} (hr : ksched solve B fuel = some (some (k, cc))) :
    ∃ K cs p, KOk B K ∧ GraphFor B K cs ∧ CycleAnswer cs k.throughput p ∧ cc = criticalEdges B p := by
  obtain ⟨cs, hcs⟩ := eventGraph_total (withK_ok hB (K := fun _ => 1) (fun _ _ => Nat.one_pos))
  have hgf : GraphFor B (fun _ => 1) cs := ⟨cs, hcs, fun _ => Iff.rfl⟩
  unfold ksched at hr
  rw [hcs, Option.bind_some] at hr
  obtain ⟨q, hs, hr⟩ := Option.bind_eq_some_iff.mp hr
  have hq : CycleAnswer cs q.1 q.2 := hsolve _ cs q.1 q.2 kOk_one hgf hs
  split at hr
  · cases hr
    exact ⟨_, cs, q.2, kOk_one, hgf, hq, rfl⟩
  · exact kschedLoop_critical hB solve hsolve fuel 0 _ kOk_one cs hgf q.1 q.2 hq k cc hr

theorem ksched_total {B : BaseGraph} (hB : BaseOK B) (solve : List EvConstraint → Option (ℚ × List EvConstraint))
    (hsolve : ∀ K cs, KOk B K → GraphFor B K cs → ∃ r, solve cs = some r) {fuel : ℕ} (hfuel : primeBound B < fuel) :
    ∃ k cc, ksched solve B fuel = some (some (k, cc)) := by
  have hloop : ∀ (fuel it : ℕ) (K : Int → ℕ), KOk B K → ∀ cs : List EvConstraint, GraphFor B K cs → ∀ cc : List BChannel,
      (∀ e ∈ cc, e ∈ B.channels) → ∀ th : ℚ, primeBound B < fuel + primeRank B K →
      ∃ k c, kschedLoop solve B fuel it K cs cc th = some (some (k, c)) := by
    intro fuel
    induction fuel with
    | zero => intro it K hK cs _ cc _ th h; have := rank_le_bound hB hK; omega
    | succ fuel ih =>
      intro it K hK cs hcs cc hcc th hf
      obtain ⟨K', ch, h1, h2⟩ := updateEventGraph_spec hB hK hcc hcs
      rcases h2 with ⟨rfl, h⟩ | ⟨rfl, cs', h, hcs'⟩
      · exact ⟨⟨K, th, it + 1⟩, cc, by unfold kschedLoop; rw [h]; rfl⟩
      · obtain ⟨hK', hlt⟩ := rank_lt hB hK hcc h1
        have hb' := rank_le_bound hB hK'
        obtain ⟨r, hs⟩ := hsolve K' cs' hK' hcs'
        by_cases hsame : sameset (criticalEdges B r.2) cc = true
        · exact ⟨⟨K', r.1, it + 1⟩, criticalEdges B r.2, by unfold kschedLoop; rw [h]; simp [hs, hsame]⟩
        · have e : kschedLoop solve B (fuel + 1) it K cs cc th =
              kschedLoop solve B fuel (it + 1) K' cs' (criticalEdges B r.2) r.1 := by
            conv_lhs => unfold kschedLoop
            rw [h]; simp [hs, hsame]
          rw [e]
          exact ih (it + 1) K' hK' cs' hcs' _ (criticalEdges_sub B r.2) r.1 (by omega)
  obtain ⟨cs, hcs⟩ := eventGraph_total (withK_ok hB (K := fun _ => 1) (fun _ _ => Nat.one_pos))
  obtain ⟨r, hs⟩ := hsolve _ cs kOk_one ⟨cs, hcs, fun _ => Iff.rfl⟩
  unfold ksched
  rw [hcs, Option.bind_some, hs, Option.bind_some]
  split
  · exact ⟨_, _, rfl⟩
  · exact hloop fuel 0 _ kOk_one cs ⟨cs, hcs, fun _ => Iff.rfl⟩ _ (criticalEdges_sub B r.2) r.1 (by omega)

end Kiter
