/-
C88: the search by knee points (parameter B_M_OPT) and the exploration that starts from its result; and the end of the
exploration.
-/
import Verif.Lemmas.KneeSearch
import Verif.Props.BufferExploration

set_option autoImplicit false

namespace Kiter

open Finset

variable {n : ℕ}

/-- From the state in which the loop stops to the end. -/
theorem DSE.front_end (D : DSE n) (init : SD n) (hinit : init.Consistent) (h0 : ∀ e, 0 ≤ init.quantity e) (heps : 0 < D.eps)
    (htarget : D.eps ≤ D.target) (hstep : ∀ e, D.modelled e = true → 0 < D.step e)
    (hbound : ∀ q, D.Lattice init.quantity q → D.thrOf q ≤ D.target) {P : (Fin n → Int) → Prop}
    (hP : ∀ q, D.Lattice init.quantity q → P q) {C R : SDSet n} {E : Set (Fin n → Int)} (h : D.Inv init.quantity P C R E)
    (hs : R.isSearchComplete D.eps C D.target = true) : ∃ R', R.finish = some R' ∧ D.IsFront init.quantity R'.members := by
  obtain ⟨c1, c2, c3⟩ := DSE.complete_spec D init.quantity heps htarget hbound h hs
  have hlat : D.Lattice init.quantity init.quantity := fun e => Or.inl rfl
  obtain ⟨r0, hr0, hs0, -⟩ := c1 _ hlat (hP _ hlat)
  obtain ⟨R', f1, f2, f3, f4⟩ := DSE.finish_front D heps hstep hinit h0 h.wfR ⟨r0, hr0, by rw [hinit]; exact hs0⟩ c2 c3
  refine ⟨R', f1, fun q hq => ?_, f3, f4⟩
  obtain ⟨r, hr, h1, h2⟩ := c1 q hq (hP q hq)
  obtain ⟨r', hr', g1, g2⟩ := f2 r hr
  exact ⟨r', hr', g1.trans h1, by rw [g2]; exact h2⟩

/-- **C54 (to the end).** The exploration including its last step, which replaces a first distribution without throughput by
the empty one, is defined whenever its loop stops, and returns the Pareto front. -/
theorem C54_front_to_the_end (D : DSE n) (init : SD n) (hinit : init.size = ∑ e, init.quantity e)
    (h0 : ∀ e, 0 ≤ init.quantity e) (heps : 0 < D.eps) (htarget : D.eps ≤ D.target)
    (hstep : ∀ e, D.modelled e = true → 0 < D.step e) (hbound : ∀ q, D.Lattice init.quantity q → D.thrOf q ≤ D.target)
    (hcrit : D.CriticalComplete init.quantity) (fuel : ℕ) :
    D.exploreAll init fuel ≠ none ∧
      ∀ R, D.exploreAll init fuel = some (some R) → D.IsFront init.quantity R.members := by
  obtain ⟨l1, l2⟩ := DSE.loop_spec D init.quantity heps hstep hcrit fuel (DSE.inv_init D init hinit hstep)
  unfold DSE.exploreAll
  cases hx : D.explore init fuel with
  | none => exact absurd hx l1
  | some o =>
    cases o with
    | none => exact ⟨fun h => Option.some_ne_none _ h, fun R h => absurd (Option.some.inj h).symm (Option.some_ne_none _)⟩
    | some R =>
      obtain ⟨C, E, h, hs⟩ := l2 R hx
      obtain ⟨R', f1, f2⟩ := DSE.front_end D init hinit h0 heps htarget hstep hbound (fun _ _ => trivial) h hs
      simp only [f1, Option.map_some]
      refine ⟨fun h => Option.some_ne_none _ h, fun R'' h => ?_⟩
      cases Option.some.inj (Option.some.inj h)
      exact f2

/-- The checklist in the mode with edges that are not considered: only the initial quantities. -/
theorem DSE.Found.only_start {D : DSE n} {init : SD n} {l : SDSet n} {t : Closing n} {b : SD n} (h : D.Found init l t b)
    (hi : D.Starts init) (hoff : ∃ e, D.modelled e = false) (hmax : ∀ e, init.quantity e ≤ SDSet.intMax) :
    ∀ c ∈ l.members, c.quantity = init.quantity := by
  intro c hc
  obtain ⟨-, h2, k, hk, hfit, hq⟩ := h.raised c hc
  have hb := DSE.knee_base hi hoff hmax h.sets hk hfit
  funext e
  by_cases he : D.modelled e = true
  · rw [hq e he, hb e, if_pos he]; ring
  · exact h2.2 e (by simpa using he)

/-- **C88** The search by knee points, when some edges are not considered (this is the default: the search considers the
feedback edges only). Suppose the analysis is monotone and its critical channels complete, initial quantities are positive on
the edges considered and zero on the others, and the first point the search finds fits in an `int`. Whenever the exploration
from its checklist returns, the initial distribution misses the target throughput, and what is returned is the Pareto front
over all distributions above the initial one, as without the search. -/
theorem C88_front (D : DSE n) (init : SD n) (hi : D.Starts init) (hon : ∃ e, D.modelled e = true)
    (hoff : ∃ e, D.modelled e = false) (hmax : ∀ e, init.quantity e ≤ SDSet.intMax) (hA : D.Analysed init.quantity)
    (heps : 0 < D.eps) (htarget : D.eps ≤ D.target) (hstep : ∀ e, D.modelled e = true → 0 < D.step e)
    (hbound : ∀ q, D.Lattice init.quantity q → D.thrOf q ≤ D.target) (hcrit : D.CriticalComplete init.quantity)
    (fuel : ℕ) (hfit : ∀ s, D.grow fuel (D.growStart init) = some s → s.dist.size ≤ SDSet.intMax) (R : SDSet n)
    (hR : D.exploreKnees D init fuel = some (some R)) :
    D.thrOf init.quantity < D.target ∧ D.IsFront init.quantity R.members := by
  have ht : 0 < D.target := lt_of_lt_of_le heps htarget
  have h0 : ∀ e, 0 ≤ init.quantity e := by
    intro e
    by_cases he : D.modelled e = true
    · have := hi.2.1 e he; omega
    · rw [hi.2.2 e (by simpa using he)]
  obtain ⟨k1, k2⟩ := DSE.kneeSearch_spec hi hon hA ht fuel hfit
  unfold DSE.exploreKnees at hR
  cases hk : D.kneeSearch init fuel with
  | none => exact absurd hk k1
  | some o =>
    cases o with
    | none => rw [hk] at hR; exact absurd (Option.some.inj hR).symm (Option.some_ne_none _)
    | some lt =>
      obtain ⟨l, t⟩ := lt
      obtain ⟨b, hF⟩ := k2 l t hk
      rw [hk] at hR
      simp only at hR
      have honly := hF.only_start hi hoff hmax
      have hlat : ∀ c ∈ l.members, D.Lattice init.quantity c.quantity := fun c hc e => Or.inl (by rw [honly c hc])
      obtain ⟨l1, l2⟩ := DSE.loop_spec D init.quantity heps hstep hcrit fuel (DSE.inv_from D init.quantity hF.wf hlat)
      cases hx : D.loop fuel l SDSet.empty with
      | none => exact absurd hx l1
      | some o =>
        cases o with
        | none => rw [hx] at hR; exact absurd (Option.some.inj hR).symm (Option.some_ne_none _)
        | some R0 =>
          rw [hx] at hR
          simp only at hR
          obtain ⟨C, E, h, hs⟩ := l2 R0 hx
          -- the checklist is not empty
          have hne : l.members ≠ [] := by
            intro hl
            have hcomp : (SDSet.empty : SDSet n).isSearchComplete D.eps l D.target = true := by
              unfold SDSet.isSearchComplete
              rw [Bool.or_eq_true, SDSet.getSize_eq, hl]
              right; rfl
            rw [DSE.loop_done D fuel l SDSet.empty hcomp] at hx
            cases Option.some.inj (Option.some.inj hx)
            rw [SDSet.finish_none SDSet.members_empty SDSet.wf_empty] at hR
            exact absurd hR.symm (Option.some_ne_none _)
          obtain ⟨c, hc⟩ := List.exists_mem_of_ne_nil _ hne
          have hmiss : D.thrOf init.quantity < D.target := by
            by_contra hcon
            have h1 := hF.first (not_lt.mp hcon)
            have h2 := (hF.raised c hc).1
            have h3 := hF.wf.consistent hc
            have h4 := hi.1
            have : c.size = init.size := by rw [h3, h4, honly c hc]
            omega
          refine ⟨hmiss, ?_⟩
          obtain ⟨R', f1, f2⟩ := DSE.front_end D init hi.1 h0 heps htarget hstep hbound
            (fun q hq => ⟨c, hc, by rw [honly c hc]; exact DSE.lattice_ge hstep hq⟩) h hs
          rw [f1, Option.map_some] at hR
          cases Option.some.inj (Option.some.inj hR)
          exact f2

/-- **C88 (undefined).** If the initial distribution already reaches the target, the checklist of the search is empty and the
program reads the first element of an empty set: for every large enough number of rounds the result is undefined. -/
theorem C88_undefined_at_the_target (D : DSE n) (init : SD n) (hi : D.Starts init) (hon : ∃ e, D.modelled e = true)
    (hA : D.Analysed init.quantity) (ht : 0 < D.target) (hfit : init.size ≤ SDSet.intMax)
    (hreach : D.target ≤ D.thrOf init.quantity) : ∃ N, ∀ fuel, N ≤ fuel → D.exploreKnees D init fuel = none := by
  have hfit' : ∀ fuel s, D.grow fuel (D.growStart init) = some s → s.dist.size ≤ SDSet.intMax := by
    intro fuel s hs
    rw [DSE.grow_reached ht hreach fuel] at hs
    cases Option.some.inj hs
    exact hfit
  obtain ⟨N, l, t, hN⟩ := DSE.kneeSearch_ends hi hon hA ht hfit' ⟨le_refl _, fun _ _ => rfl⟩ hreach
  refine ⟨N, fun fuel hle => ?_⟩
  obtain ⟨b, hF⟩ := (DSE.kneeSearch_spec hi hon hA ht fuel (hfit' fuel)).2 l t (hN fuel hle)
  have hl : l.members = [] := by
    rw [List.eq_nil_iff_forall_not_mem]
    intro c hc
    obtain ⟨h1, h2, -⟩ := hF.raised c hc
    have h3 := hF.first hreach
    have h4 : init.size ≤ c.size := by
      have e1 := hi.1
      have e2 := hF.wf.consistent hc
      rw [e1, e2]
      exact Finset.sum_le_sum fun e _ => h2.1 e
    omega
  unfold DSE.exploreKnees
  rw [hN fuel hle]
  have hcomp : (SDSet.empty : SDSet n).isSearchComplete D.eps l D.target = true := by
    unfold SDSet.isSearchComplete
    rw [Bool.or_eq_true, SDSet.getSize_eq, hl]
    right; rfl
  simp only
  rw [DSE.loop_done D fuel l SDSet.empty hcomp]
  simp only
  rw [SDSet.finish_none SDSet.members_empty SDSet.wf_empty]
  rfl

/-- **C88 (all edges considered).** When the search considers every edge and steps are 1, it ends with some distribution `b`
that reaches the target; every distribution that reaches the target and is smaller than `b` is matched by a returned one that
is no larger and reaches the target up to `2 * eps`. What is missing for "a smallest distribution that reaches the target is
returned": nothing is returned for `b` itself, see `C88_smallest_lost`. -/
theorem C88_smaller_partial (D : DSE n) (init : SD n) (hi : D.Starts init) (hn : 0 < n) (hall : ∀ e, D.modelled e = true)
    (hone : ∀ e, D.step e = 1) (hA : D.Analysed init.quantity) (heps : 0 < D.eps) (htarget : 2 * D.eps ≤ D.target)
    (hbound : ∀ q, D.Lattice init.quantity q → D.thrOf q ≤ D.target) (fuel : ℕ)
    (hfit : ∀ s, D.grow fuel (D.growStart init) = some s → s.dist.size ≤ SDSet.intMax) (R : SDSet n)
    (hR : D.exploreKnees D init fuel = some (some R)) :
    ∃ b, init.quantity ≤ b ∧ D.target ≤ D.thrOf b ∧
      ∀ x, init.quantity ≤ x → D.target ≤ D.thrOf x → ∑ e, x e < ∑ e, b e →
        ∃ r ∈ R.members, r.size ≤ ∑ e, x e ∧ D.target - 2 * D.eps < r.thr := by
  have ht : 0 < D.target := by linarith
  have hon : ∃ e, D.modelled e = true := ⟨⟨0, hn⟩, hall _⟩
  have hstep : ∀ e, D.modelled e = true → 0 < D.step e := fun e _ => by rw [hone]; norm_num
  have hlatof : ∀ q, init.quantity ≤ q → D.Lattice init.quantity q := by
    intro q hq e
    right
    refine ⟨hall e, (q e - init.quantity e).toNat, ?_⟩
    have : init.quantity e ≤ q e := hq e
    rw [hone, Int.toNat_of_nonneg (by omega)]; ring
  have habove : ∀ q, init.quantity ≤ q → D.Above init.quantity q := fun q hq =>
    ⟨hq, fun e he => by rw [hall e] at he; simp at he⟩
  have hcrit : D.CriticalComplete init.quantity := by
    intro q q' hq hq' hle hlt
    obtain ⟨e, h1, h2, h3⟩ := hA.complete q q' (habove q (DSE.lattice_ge hstep hq)) (habove q' (DSE.lattice_ge hstep hq')) hle hlt
    exact ⟨e, h1, h2, by rw [hone]; omega⟩
  obtain ⟨k1, k2⟩ := DSE.kneeSearch_spec hi hon hA ht fuel hfit
  unfold DSE.exploreKnees at hR
  cases hk : D.kneeSearch init fuel with
  | none => exact absurd hk k1
  | some o =>
    cases o with
    | none => rw [hk] at hR; exact absurd (Option.some.inj hR).symm (Option.some_ne_none _)
    | some lt =>
      obtain ⟨l, t⟩ := lt
      obtain ⟨b, hF⟩ := k2 l t hk
      rw [hk] at hR
      simp only at hR
      have hlat : ∀ c ∈ l.members, D.Lattice init.quantity c.quantity := fun c hc => hlatof _ (hF.raised c hc).2.1.1
      obtain ⟨l1, l2⟩ := DSE.loop_spec D init.quantity heps hstep hcrit fuel (DSE.inv_from D init.quantity hF.wf hlat)
      cases hx : D.loop fuel l SDSet.empty with
      | none => exact absurd hx l1
      | some o =>
        cases o with
        | none => rw [hx] at hR; exact absurd (Option.some.inj hR).symm (Option.some_ne_none _)
        | some R0 =>
          rw [hx] at hR
          simp only at hR
          obtain ⟨C, E, h, hs⟩ := l2 R0 hx
          obtain ⟨c1, -, -⟩ := DSE.complete_spec D init.quantity heps (by linarith) hbound h hs
          refine ⟨b.quantity, hF.ba.1, hF.bt, fun x hx1 hx2 hx3 => ?_⟩
          obtain ⟨k, hk', hkx⟩ := DSE.knee_below hi hA hF.sets (habove x hx1) hx2
          have hxfit : ∀ e, x e < SDSet.intMax := by
            intro e
            have h0 : ∀ f, 0 ≤ x f := fun f => by
              have := hi.2.1 f (hall f); have : init.quantity f ≤ x f := hx1 f; omega
            have h1 : x e ≤ ∑ f, x f := Finset.single_le_sum (fun f _ => h0 f) (Finset.mem_univ e)
            have h2 := hF.bfit
            have h3 := hF.bc
            rw [h3] at h2
            omega
          obtain ⟨c, hc, hcq⟩ := hF.all k hk' (fun e => (hkx.1 e (hall e)).trans (hxfit e)) (by
            rw [hF.bc]
            refine lt_of_le_of_lt (Finset.sum_le_sum fun e _ => ?_) hx3
            rw [if_pos (hall e)]
            exact hkx.1 e (hall e))
          obtain ⟨r, hr, r1, r2⟩ := c1 x (hlatof x hx1) ⟨c, hc, fun e => by
            rw [hcq e, if_pos (hall e)]; exact hkx.1 e (hall e)⟩
          have r2 : D.target - 2 * D.eps < r.thr := by linarith
          refine ⟨r, ?_, r1, r2⟩
          obtain ⟨R', d, f1, dm, -, -, f3, f4⟩ := SDSet.finish_spec h.wfR (List.ne_nil_of_mem hr)
          rw [f1, Option.map_some] at hR
          cases Option.some.inj (Option.some.inj hR)
          by_cases hd : d.thr = 0
          · refine (f4 hd).2.1 r hr fun hq => ?_
            rw [h.wfR.unique hr dm hq] at r2
            linarith
          · rw [f3 hd]; exact hr

/-! ### The exploration with the K-periodic analysis -/

section KPeriodic

variable {B : BaseGraph} {solve : List EvConstraint → Option (ℚ × List EvConstraint)} {fuel : ℕ} {D : DSE (B.m + B.m)}
  {init : SD (B.m + B.m)}

/-- The K-periodic analysis is monotone and complete. -/
theorem Explores.analysed (hB : BaseOK B) (hids : ∀ c ∈ B.channels, c.1.id ≤ B.m) (hE : Explores solve B fuel D init)
    (hsolve : SolverOK B solve) (hmax : ∀ i, init.quantity (Fin.natAdd B.m i) < 2147483647) : D.Analysed init.quantity :=
  ⟨fun _ _ hq hq' hle => C71_monotone (fun i => hle (Fin.natAdd B.m i)) (hE.throughput hB hids hsolve hmax hq.1)
    (hE.throughput hB hids hsolve hmax hq'.1), fun _ _ hq _ hle hlt => hE.complete hB hids hsolve hmax hq.1 hle hlt⟩

theorem Explores.starts (hids : ∀ c ∈ B.channels, c.1.id ≤ B.m) (hE : Explores solve B fuel D init)
    (hpos : ∀ i, 1 ≤ init.quantity (Fin.natAdd B.m i)) : D.Starts init := by
  refine ⟨?_, fun e he => ?_, fun e he => ?_⟩
  · show init.size = _
    rw [hE.size, foldl_add_eq, Fin.sum_univ_def]; simp
  · induction e using Fin.addCases with
    | left i => rw [hE.not_modelled hids] at he; simp at he
    | right i => exact hpos i
  · induction e using Fin.addCases with
    | left i => exact hE.original i
    | right i => rw [hE.modelled_feedback] at he; simp at he

/-- **C88 (K-periodic analysis).** For every consistent graph with a channel and positive initial capacities, and a correct
cycle ratio solver. Whenever the exploration from the knee points returns:
* the initial capacities miss the maximal throughput of the graph;
* for all capacities not below the initial ones, some returned distribution is no larger and reaches the throughput of these
  capacities (over all schedules) up to twice the tolerance;
* every returned distribution carries the throughput of the graph with its capacities, or is the empty one;
* none dominates another. -/
theorem C88_kperiodic_front (hB : BaseOK B) (hids : ∀ c ∈ B.channels, c.1.id ≤ B.m) (hE : Explores solve B fuel D init)
    (hsolve : SolverOK B solve) (hmax : ∀ i, init.quantity (Fin.natAdd B.m i) < 2147483647) (heps : 0 < D.eps)
    (htarget : D.eps ≤ D.target) (hm : 0 < B.m) (hpos : ∀ i, 1 ≤ init.quantity (Fin.natAdd B.m i)) (rounds : ℕ)
    (hfit : ∀ s, D.grow rounds (D.growStart init) = some s → s.dist.size ≤ SDSet.intMax) (R : SDSet (B.m + B.m))
    (hR : D.exploreKnees D init rounds = some (some R)) :
    (∀ thr, HasThroughput B (fun i => init.quantity (Fin.natAdd B.m i)) thr → thr < D.target) ∧
    (∀ (w : Fin B.m → Int) (thr : ℚ), (∀ i, init.quantity (Fin.natAdd B.m i) ≤ w i) → HasThroughput B w thr →
      ∃ r ∈ R.members, r.size ≤ ∑ i, w i ∧ thr - 2 * D.eps < r.thr) ∧
    (∀ r ∈ R.members, (HasThroughput B (fun i => r.quantity (Fin.natAdd B.m i)) r.thr ∧
      r.size = ∑ i, r.quantity (Fin.natAdd B.m i)) ∨ ((∀ e, r.quantity e = 0) ∧ r.size = 0 ∧ r.thr = 0)) ∧
    (∀ x ∈ R.members, ∀ y ∈ R.members, x ≠ y → ¬ Dominates D.eps x y) := by
  have hT : 0 < D.target := by linarith
  have hstep := hE.step_pos hB hids
  have hthr0 := hE.throughput hB hids hsolve hmax (q := init.quantity) (fun _ => le_rfl)
  obtain ⟨k1, c1, c2, c3⟩ := C88_front D init (hE.starts hids hpos) ⟨Fin.natAdd B.m ⟨0, hm⟩, hE.modelled_feedback _⟩
    ⟨Fin.castAdd B.m ⟨0, hm⟩, hE.not_modelled hids _⟩ (fun e => by
      induction e using Fin.addCases with
      | left i => rw [hE.original]; decide
      | right i => exact (hmax i).le) (hE.analysed hB hids hsolve hmax) heps htarget hstep
    (fun q hq => hE.bounded_by_target hB hids hsolve hmax hT (DSE.lattice_ge hstep hq))
    (hE.criticalComplete hB hids hsolve hmax) rounds hfit R hR
  refine ⟨fun thr h => by rw [h.unique hthr0]; exact k1, fun w thr hw hthr => ?_, fun r hr => ?_, c3⟩
  · obtain ⟨k, hk1, hk2⟩ := round_schedules hB hE hmax w hw
    set w' : Fin B.m → Int := fun i => init.quantity (Fin.natAdd B.m i) + k i * D.step (Fin.natAdd B.m i) with hw'
    have hlat : D.Lattice init.quantity (ofCaps w') := by
      rw [hE.lattice_iff hids]
      exact ⟨fun i => by simp [ofCaps], fun i => ⟨k i, by rw [caps_ofCaps]⟩⟩
    have h1 := hE.throughput hB hids hsolve hmax (DSE.lattice_ge hstep hlat)
    rw [caps_ofCaps] at h1
    have h2 := (hthr.congr hk2).unique h1
    obtain ⟨r, hr, h3, h4⟩ := c1 _ hlat
    refine ⟨r, hr, ?_, by rw [h2]; exact h4⟩
    rw [sum_caps (((hE.lattice_iff hids).1 hlat).1), caps_ofCaps] at h3
    exact h3.trans (sum_le_sum fun i _ => hk1 i)
  · rcases c2 r hr with ⟨h1, h2, h3⟩ | h
    · refine Or.inl ⟨?_, ?_⟩
      · rw [h3]; exact hE.throughput hB hids hsolve hmax (DSE.lattice_ge hstep h1)
      · rw [h2, sum_caps (((hE.lattice_iff hids).1 h1).1)]; rfl
    · exact Or.inr h

/-- **C88 (K-periodic analysis, undefined).** If the initial capacities allow the maximal throughput, the program reads the
first element of an empty set. -/
theorem C88_kperiodic_undefined (hB : BaseOK B) (hids : ∀ c ∈ B.channels, c.1.id ≤ B.m) (hE : Explores solve B fuel D init)
    (hsolve : SolverOK B solve) (hmax : ∀ i, init.quantity (Fin.natAdd B.m i) < 2147483647) (ht : 0 < D.target)
    (hm : 0 < B.m) (hpos : ∀ i, 1 ≤ init.quantity (Fin.natAdd B.m i)) (hfit : init.size ≤ SDSet.intMax)
    (hreach : HasThroughput B (fun i => init.quantity (Fin.natAdd B.m i)) D.target) :
    ∃ N, ∀ rounds, N ≤ rounds → D.exploreKnees D init rounds = none :=
  C88_undefined_at_the_target D init (hE.starts hids hpos) ⟨Fin.natAdd B.m ⟨0, hm⟩, hE.modelled_feedback _⟩
    (hE.analysed hB hids hsolve hmax) ht hfit
    (hreach.unique (hE.throughput hB hids hsolve hmax (q := init.quantity) (fun _ => le_rfl))).le

end KPeriodic

/-! ### Examples -/

namespace KneeExample
open BufferExample

/-- With the graph of two tasks above, the exploration from the knee points returns the whole front. -/
theorem run : (((exploration exhaustive G 5 (1 / 1000)).exploreKnees (exploration exhaustive G 5 (1 / 1000)) (initialSD G) 20).map
    fun o => o.map fun r => r.members.map fun x => (x.size, x.thr)) = some (some [(2, 1 / 7), (3, 1 / 5), (4, 1 / 4)]) := by
  decide +kernel

example : ∃ R, (exploration exhaustive G 5 (1 / 1000)).exploreKnees (exploration exhaustive G 5 (1 / 1000)) (initialSD G) 20 =
      some (some R) ∧
    ∀ (w : Fin G.m → Int) (thr : ℚ), (∀ i, (initialSD G).quantity (Fin.natAdd G.m i) ≤ w i) → HasThroughput G w thr →
      ∃ r ∈ R.members, r.size ≤ ∑ i, w i ∧ thr - 2 * (1 / 1000) < r.thr := by
  have h := run
  cases hR : (exploration exhaustive G 5 (1 / 1000)).exploreKnees (exploration exhaustive G 5 (1 / 1000)) (initialSD G) 20 with
  | none => rw [hR] at h; simp at h
  | some o =>
    cases o with
    | none => rw [hR] at h; simp at h
    | some R =>
      obtain ⟨s1, s2⟩ := exhaustive_ok (B := G) (by decide +kernel) (by decide)
      have hmax : ∀ i, (initialSD G).quantity (Fin.natAdd G.m i) < 2147483647 := by decide +kernel
      have hids : ∀ c ∈ G.channels, c.1.id ≤ G.m := by decide +kernel
      have hE := C70_defined G_ok hids s2 (fuel := 5) (by decide +kernel) (1 / 1000) hmax
      have ht : (exploration exhaustive G 5 (1 / 1000)).target = 1 / 4 := by decide +kernel
      have he : (exploration exhaustive G 5 (1 / 1000)).eps = 1 / 1000 := rfl
      have hg : ((exploration exhaustive G 5 (1 / 1000)).grow 20 ((exploration exhaustive G 5 (1 / 1000)).growStart
          (initialSD G))).all (fun s => decide (s.dist.size ≤ SDSet.intMax)) = true := by decide +kernel
      refine ⟨R, rfl, (C88_kperiodic_front G_ok hids hE s1 hmax (by norm_num [he]) (by norm_num [he, ht]) (by decide)
        (by decide +kernel) 20 (fun s hs => ?_) R hR).2.1⟩
      rw [hs] at hg
      simpa using hg

/-- Two tasks and a channel that holds two tokens: the smallest capacity already allows its throughput. -/
def A2 : KTask := ⟨0, [2], [], 1, 1⟩
def C2 : KTask := ⟨1, [3], [], 1, 1⟩
def ch2 : KChannel := ⟨1, [1], [1], [], [], 2, 1⟩
def G2 : BaseGraph := ⟨[A2, C2], [(ch2, A2, C2)]⟩

theorem G2_ok : BaseOK G2 := by
  have ch2_ok : ChannelOK ch2 A2 C2 :=
    ⟨rfl, rfl, rfl, rfl, by decide, by decide, by decide, by decide, by decide, by decide, by decide, by decide, by decide⟩
  have A_ok : TaskOK A2 1 := ⟨by decide, rfl, by decide, by decide, by decide, by decide⟩
  have C_ok : TaskOK C2 1 := ⟨by decide, rfl, by decide, by decide, by decide, by decide⟩
  constructor
  · simp [G2, A2, C2]
  · intro t ht; simp only [G2, List.mem_cons, List.not_mem_nil, or_false] at ht
    rcases ht with rfl | rfl
    · exact A_ok
    · exact C_ok
  · simp [G2, A2, C2]
  · intro c hc; simp only [G2, List.mem_cons, List.not_mem_nil, or_false] at hc
    rcases hc with rfl
    exact ⟨by simp [G2], by simp [G2], ch2_ok⟩
  · simp [G2]

/-- **C88 (finding).** On this graph the exploration returns one distribution; from the knee points it is undefined. -/
theorem C88_undefined_example :
    (((exploration exhaustive G2 5 (1 / 1000)).exploreAll (initialSD G2) 20).map fun o => o.map fun r =>
      r.members.map fun x => (x.size, x.thr)) = some (some [(2, 1 / 3)]) ∧
    ∃ N, ∀ rounds, N ≤ rounds →
      (exploration exhaustive G2 5 (1 / 1000)).exploreKnees (exploration exhaustive G2 5 (1 / 1000)) (initialSD G2) rounds = none := by
  refine ⟨by decide +kernel, ?_⟩
  obtain ⟨s1, s2⟩ := exhaustive_ok (B := G2) (by decide +kernel) (by decide)
  have hmax : ∀ i, (initialSD G2).quantity (Fin.natAdd G2.m i) < 2147483647 := by decide +kernel
  have hids : ∀ c ∈ G2.channels, c.1.id ≤ G2.m := by decide +kernel
  have hE := C70_defined G2_ok hids s2 (fuel := 5) (by decide +kernel) (1 / 1000) hmax
  have ht : (exploration exhaustive G2 5 (1 / 1000)).target = 1 / 3 := by decide +kernel
  refine C88_kperiodic_undefined G2_ok hids hE s1 hmax (by rw [ht]; norm_num) (by decide) (by decide +kernel) (by decide +kernel) ?_
  have h := hE.throughput G2_ok hids s1 hmax (q := (initialSD G2).quantity) (fun _ => le_rfl)
  have h2 : (exploration exhaustive G2 5 (1 / 1000)).thrOf (initialSD G2).quantity = 1 / 3 := by decide +kernel
  rw [ht, ← h2]
  exact h

/-- Two channels, all considered, throughput `min q₀ q₁ 5 / 5`, critical channels those of minimal quantity. -/
def D1 : DSE 2 where
  eps := 1/1000
  modelled := fun _ => true
  step := fun _ => 1
  target := 1
  analyse := fun q => (((min (min (q 0) (q 1)) 5 : Int) : ℚ) / 5,
    (if q 0 ≤ q 1 then [0] else []) ++ (if q 1 ≤ q 0 then [1] else []))

/-- The same with channels that change by two tokens. -/
def D2 : DSE 2 where
  eps := 1/1000
  modelled := fun _ => true
  step := fun _ => 2
  target := 1
  analyse := fun q => (((min (min (q 0 / 2) (q 1 / 2)) 5 : Int) : ℚ) / 5,
    (if q 0 / 2 ≤ q 1 / 2 then [0] else []) ++ (if q 1 / 2 ≤ q 0 / 2 then [1] else []))

theorem D1_thr (q : Fin 2 → Int) : D1.thrOf q = ((max 0 (min (min (q 0) (q 1)) 5) : Int) : ℚ) / 5 := by
  unfold DSE.thrOf D1
  simp only
  split
  · rename_i h
    have : ((min (min (q 0) (q 1)) 5 : Int) : ℚ) < 0 := by linarith
    have : min (min (q 0) (q 1)) 5 < 0 := by exact_mod_cast this
    rw [max_eq_left this.le]; simp
  · rename_i h
    have : (0 : ℚ) ≤ ((min (min (q 0) (q 1)) 5 : Int) : ℚ) := by linarith
    have : 0 ≤ min (min (q 0) (q 1)) 5 := by exact_mod_cast this
    rw [max_eq_right this]

theorem D1_analysed (init : Fin 2 → Int) : D1.Analysed init := by
  constructor
  · intro q q' _ _ hle
    have h0 : q 0 ≤ q' 0 := hle 0
    have h1 : q 1 ≤ q' 1 := hle 1
    rw [D1_thr, D1_thr]
    have : max 0 (min (min (q 0) (q 1)) 5) ≤ max 0 (min (min (q' 0) (q' 1)) 5) := by omega
    have : ((max 0 (min (min (q 0) (q 1)) 5) : Int) : ℚ) ≤ ((max 0 (min (min (q' 0) (q' 1)) 5) : Int) : ℚ) := by exact_mod_cast this
    linarith
  · intro q q' _ _ hle hlt
    have h0 : q 0 ≤ q' 0 := hle 0
    have h1 : q 1 ≤ q' 1 := hle 1
    rw [D1_thr, D1_thr] at hlt
    have hlt : ((max 0 (min (min (q 0) (q 1)) 5) : Int) : ℚ) < ((max 0 (min (min (q' 0) (q' 1)) 5) : Int) : ℚ) := by linarith
    have hlt : max 0 (min (min (q 0) (q 1)) 5) < max 0 (min (min (q' 0) (q' 1)) 5) := by exact_mod_cast hlt
    by_cases h : q 0 ≤ q 1
    · exact ⟨0, by simp [D1, h], rfl, by omega⟩
    · exact ⟨1, by simp [D1, (not_le.mp h).le], rfl, by omega⟩

theorem D1_bound (q : Fin 2 → Int) : D1.thrOf q ≤ D1.target := by
  rw [D1_thr]
  have : max 0 (min (min (q 0) (q 1)) 5) ≤ 5 := by omega
  have : ((max 0 (min (min (q 0) (q 1)) 5) : Int) : ℚ) ≤ 5 := by exact_mod_cast this
  show _ ≤ (1 : ℚ)
  linarith

/-- Initial quantities of the examples. -/
def start (x y : Int) : SD 2 := ⟨![x, y], ![0, 0], 0, x + y⟩

theorem start_ok (x y : Int) (hx : 1 ≤ x) (hy : 1 ≤ y) : D1.Starts (start x y) := by
  refine ⟨?_, fun e _ => ?_, fun e he => absurd he (by simp [D1])⟩
  · show x + y = _
    simp [start]
  · match e with
    | 0 => exact hx
    | 1 => exact hy

/-- C88_smaller_partial applies to `D1` from one token each. -/
example : ∃ R, D1.exploreKnees D1 (start 1 1) 50 = some (some R) ∧
    ∃ b, (start 1 1).quantity ≤ b ∧ D1.target ≤ D1.thrOf b ∧
      ∀ x, (start 1 1).quantity ≤ x → D1.target ≤ D1.thrOf x → ∑ e, x e < ∑ e, b e →
        ∃ r ∈ R.members, r.size ≤ ∑ e, x e ∧ D1.target - 2 * D1.eps < r.thr := by
  have h : (D1.exploreKnees D1 (start 1 1) 50).isSome = true ∧ ((D1.exploreKnees D1 (start 1 1) 50).bind _root_.id).isSome = true := by
    decide +kernel
  cases hR : D1.exploreKnees D1 (start 1 1) 50 with
  | none => rw [hR] at h; simp at h
  | some o =>
    cases o with
    | none => rw [hR] at h; simp at h
    | some R =>
      have hg : (D1.grow 50 (D1.growStart (start 1 1))).all (fun s => decide (s.dist.size ≤ SDSet.intMax)) = true := by decide +kernel
      exact ⟨R, rfl, C88_smaller_partial D1 (start 1 1) (start_ok 1 1 le_rfl le_rfl) (by decide) (fun _ => rfl) (fun _ => rfl)
        (D1_analysed _) (by norm_num [D1]) (by norm_num [D1]) (fun q _ => D1_bound q) 50
        (fun s hs => by rw [hs] at hg; simpa using hg) R hR⟩

/-- **C88 (finding).** The search considers all edges, steps are 1, the analysis is monotone and complete, and five tokens on
each channel reach the target; but the search finds this smallest distribution itself, nothing smaller remains, and the
result is undefined. -/
theorem C88_smallest_lost : D1.Starts (start 3 3) ∧ D1.Analysed (start 3 3).quantity ∧ D1.thrOf ![5, 5] = D1.target ∧
    ((D1.exploreAll (start 3 3) 50).map fun o => o.map fun R => R.members.map fun r => (r.size, r.thr)) =
      some (some [(6, 3 / 5), (8, 4 / 5), (10, 1)]) ∧
    D1.exploreKnees D1 (start 3 3) 50 = none :=
  ⟨start_ok 3 3 (by norm_num) (by norm_num), D1_analysed _, by decide +kernel, by decide +kernel, by decide +kernel⟩

/-- **C88 (finding).** When the search considers all edges, the exploration from its checklist does not return the front below
the target: two tokens have throughput 1/5, but the smallest distribution returned has five; and some returned are
dominated by distributions that are not. -/
theorem C88_front_lost :
    ((D1.exploreAll (start 1 1) 50).map fun o => o.map fun R => R.members.map fun r => (r.size, r.thr)) =
      some (some [(2, 1 / 5), (4, 2 / 5), (6, 3 / 5), (8, 4 / 5), (10, 1)]) ∧
    ((D1.exploreKnees D1 (start 1 1) 50).map fun o => o.map fun R => R.members.map fun r => (r.size, r.thr)) =
      some (some [(5, 1 / 5), (5, 1 / 5), (6, 2 / 5), (6, 2 / 5), (7, 3 / 5), (7, 3 / 5), (8, 4 / 5), (10, 1)]) :=
  ⟨by decide +kernel, by decide +kernel⟩

/-- **C88 (finding).** With steps of two the checklist leaves the step lattice, and the smallest distribution that reaches the
target is missed: 21 tokens instead of 20. -/
theorem C88_larger_steps :
    ((D2.exploreAll (start 2 2) 50).map fun o => o.map fun R => (R.members.filter fun r => r.thr = 1).map fun r => r.size) =
      some (some [20]) ∧
    ((D2.exploreKnees D2 (start 2 2) 50).map fun o => o.map fun R => (R.members.filter fun r => r.thr = 1).map fun r => r.size) =
      some (some [21, 21]) :=
  ⟨by decide +kernel, by decide +kernel⟩

end KneeExample

end Kiter
