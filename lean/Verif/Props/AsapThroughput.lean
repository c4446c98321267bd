/-
C69: the throughput computed component by component by `compute_asap_throughput` is the best of the whole graph.
-/
import Verif.Lemmas.Compose
import Verif.Props.SelfTimedHalt
import Verif.Props.Repetition
import Verif.Props.SCC
import Mathlib.Algebra.BigOperators.Fin
import Mathlib.Algebra.Order.Archimedean.Basic

set_option autoImplicit false

namespace Kiter
open Kiter.Sim Finset

variable {nV nE : Nat} {g : Graph nV nE}

/-! ### Durations -/

theorem Sim.sum_execDur (h : OK g) (a : Fin nV) : ∑ j ∈ range (g.phases a), g.execDur a j = (g.dur a).sum := by
  rw [← h.durLen a, Finset.sum_range, ← Fin.sum_univ_getElem]
  refine Finset.sum_congr rfl fun i _ => ?_
  unfold Graph.execDur
  rw [Nat.mod_eq_of_lt i.2, List.getD_eq_getElem?_getD, List.getElem?_eq_getElem i.2]; rfl

theorem Sim.dsum_bounded (h : OK g) (a : Fin nV) :
    ∃ B, ∀ k : ℕ, |∑ j ∈ range k, g.execDur a j - k * ((g.dur a).sum / g.phases a)| ≤ B := by
  have hP : (0 : ℚ) < g.phases a := by exact_mod_cast h.phases a
  have hper : ∀ k, g.execDur a (k + g.phases a) = g.execDur a k := by
    intro k; unfold Graph.execDur; rw [h.durLen, Nat.add_mod_right]
  have hsum : ∀ k, ∑ j ∈ range (k + g.phases a), g.execDur a j = ∑ j ∈ range k, g.execDur a j + (g.dur a).sum := by
    intro k
    induction k with
    | zero => rw [Nat.zero_add, sum_execDur h]; simp
    | succ k ih =>
      rw [show k + 1 + g.phases a = (k + g.phases a) + 1 by omega, sum_range_succ, ih, sum_range_succ, hper]; ring
  refine periodic_bounded _ 0 (g.phases a) (h.phases a) fun n _ => ?_
  rw [hsum n]; push_cast; field_simp; ring

/-- An actor whose executions do not overlap needs the total duration of its phases for one pass over them. -/
theorem Sim.pace_bound (h : OK g) (a : Fin nV) {n : ℤ} (hn : 0 < n) {τ : ℕ → ℚ} (h0 : 0 ≤ τ 0)
    (ht : ∀ k, τ k + g.execDur a k ≤ τ (k + 1)) {Ω C : ℚ} (hC : ∀ k : ℕ, τ k ≤ Ω * k / n + C) :
    (g.dur a).sum / g.phases a * n ≤ Ω := by
  obtain ⟨B, hB⟩ := dsum_bounded h a
  have hnq : (0 : ℚ) < n := by exact_mod_cast hn
  have hlow : ∀ k, ∑ j ∈ range k, g.execDur a j ≤ τ k := by
    intro k
    induction k with
    | zero => simpa using h0
    | succ k ih => rw [sum_range_succ]; linarith [ht k]
  by_contra hlt
  push Not at hlt
  rw [← div_lt_iff₀ hnq] at hlt
  obtain ⟨k, hk⟩ := exists_nat_gt ((B + C) / ((g.dur a).sum / g.phases a - Ω / n))
  rw [div_lt_iff₀ (by linarith)] at hk
  have h1 := hlow k
  have h2 := (abs_le.1 (hB k)).1
  have h3 := hC k
  have h4 : Ω * k / n = k * (Ω / n) := by ring
  rw [h4] at h3
  nlinarith

/-! ### Strongly connected graphs -/

/-- A channel leads from `a` to `b`. -/
def Sim.Arc (g : Graph nV nE) (a b : Fin nV) : Prop := ∃ e, g.src e = a ∧ g.tgt e = b

theorem Sim.selectMin_some {g : Graph nV nE} {a : Fin nV} (ha : g.ni a < intMax) : ∃ t, selectMin g = some t := by
  have key : ∀ (l : List (Fin nV)) (b : Option (Fin nV) × Int), (∃ t, b.1 = some t) ∨ (b.2 = intMax ∧ a ∈ l) →
      ∃ t, (l.foldl (fun (b : Option (Fin nV) × Int) t => if g.ni t < b.2 then (some t, g.ni t) else b) b).1 = some t := by
    intro l
    induction l with
    | nil => rintro b (h | ⟨-, h⟩); exacts [h, by simp at h]
    | cons x l ih =>
      intro b hb
      rw [List.foldl_cons]
      apply ih
      split
      · exact .inl ⟨x, rfl⟩
      · rename_i hx
        rcases hb with hb | ⟨hb, hm⟩
        · exact .inl hb
        · rcases List.mem_cons.1 hm with rfl | hm
          · rw [hb] at hx; exact absurd ha hx
          · exact .inr ⟨hb, hm⟩
  exact key _ _ (.inr ⟨rfl, List.mem_finRange a⟩)

theorem Sim.OK.rep (h : OK g) (hv : 0 < nV) : Rep.OK g.toRep :=
  ⟨hv, h.phases, h.prodLen, h.consLen, h.prodNonneg, h.consNonneg⟩

theorem Sim.result_stays {c : Cfg nV nE} {m : Machine nV nE} {n n' : ℕ} {r : Option ℚ} (hle : n ≤ n')
    (h : result (run c m n) = some r) : result (run c m n') = some r := by
  have : run c m n' = run c m n := by
    induction n', hle using Nat.le_induction with
    | base => rfl
    | succ k _ ih =>
      show step c (run c m k) = _
      rw [ih]
      unfold result at h
      unfold step
      split at h <;> rename_i hp
      · rw [hp]
      · rw [hp]
      · simp at h
  rw [this, h]

theorem Sim.guarded_of_strong (he : 0 < nE) (hs : ∀ a b, Relation.ReflTransGen (Arc g) a b) (cap : Option (Fin nE → Int)) :
    Guarded g cap := by
  intro a
  rcases Relation.ReflTransGen.cases_tail (hs (g.tgt ⟨0, he⟩) a) with h | ⟨b, -, e, -, h⟩
  · exact ⟨⟨0, he⟩, .inl h.symm⟩
  · exact ⟨e, .inl h⟩

/-- What one strongly connected graph with a channel gives: the reference actor and a throughput, which is attained within a
constant and optimal, or zero without any schedule. -/
theorem Sim.strong_component (h : OK g) (hpos : ∀ a, ∀ d ∈ g.dur a, 0 < d) {N : Fin nV → Int}
    (hN : Rep.compute g.toRep = some (some N)) (hint : ∃ a, N a < intMax) (hs : ∀ a b, Relation.ReflTransGen (Arc g) a b)
    (he : 0 < nE) : ∃ n0 a thr, (∀ n, n0 ≤ n → componentThroughput (g.withNi N) n = some (a, thr)) ∧
      (0 < thr ∧ (∃ σ, Valid g none σ ∧ ∀ a, ∃ C, ∀ k : ℕ, |σ a k - 1 / thr * k / N a| ≤ C) ∧
          IsLeast {Ω | ∃ σ, Valid g none σ ∧ Sustained (g.withNi N) σ Ω} (1 / thr) ∨
        thr = 0 ∧ ¬ ∃ σ, Valid g none σ) := by
  obtain ⟨a0, ha0⟩ := hint
  have hv : 0 < nV := Nat.lt_of_le_of_lt (Nat.zero_le _) a0.2
  obtain ⟨hN1, hN2, -⟩ := C12_balance_partial (h.rep hv) hN
  obtain ⟨hsum, -⟩ := (C14_consistent_iff (h.rep hv)).2.1 ⟨N, hN⟩
  have h' := h.withNi N
  have hg : Guarded (g.withNi N) none := guarded_of_strong (g := g.withNi N) he hs none
  have hb : Sim.Balanced (g.withNi N) :=
    ⟨hN1, hN2, fun e => (hsum e).1, fun e => (hsum e).2, fun a b =>
      (hs a b).lift id fun x y ⟨e, h1, h2⟩ => ⟨e, .inl ⟨h1, h2⟩⟩⟩
  obtain ⟨t, ht⟩ := selectMin_some (g := g.withNi N) ha0
  obtain ⟨c, m, hst⟩ : ∃ c m, start (g.withNi N) none true = some (c, m) := by
    unfold start
    rw [if_pos ⟨fun e => ⟨(h'.prodLen e).ge, (h'.consLen e).ge⟩, fun a => ⟨(h'.phases a).ne', fun h0 => by
      have := h'.durLen a; rw [h0] at this; exact (h'.phases a).ne this⟩⟩, ht]
    exact ⟨_, _, rfl⟩
  have hstrong : ∀ a b, Relation.ReflTransGen (Follows (g.withNi N) none) a b := fun a b =>
    (hs a b).lift id fun x y ⟨e, h1, h2⟩ => ⟨e, .inl ⟨h1, h2⟩⟩
  obtain ⟨n0, thr, hr, hcase⟩ := C68_decides h' hg hb hpos (by simp) hstrong hst
  refine ⟨n0, c.minActor, thr, fun n hn => ?_, ?_⟩
  · unfold componentThroughput
    rw [hst]
    simp only [result_stays hn hr]
  · rcases hcase with ⟨h1, h2⟩ | ⟨h1, h2⟩
    · left
      have hres : (run c m n0).pc = .recurrent (some thr) := by
        unfold result at hr
        split at hr
        · simp at hr; exact absurd hr.symm h1.ne'
        · rename_i t hp; simp at hr; rw [hp, hr]
        · simp at hr
      obtain ⟨σ, k1, -, k3⟩ := attained h' hg hb (by simp) hst hres
      refine ⟨h1, ⟨σ, valid_withNi.1 k1, k3⟩, ?_⟩
      have : {Ω | ∃ σ, Valid g none σ ∧ Sustained (g.withNi N) σ Ω} =
          {Ω | ∃ σ, Valid (g.withNi N) none σ ∧ Sustained (g.withNi N) σ Ω} := by
        ext Ω; simp only [valid_withNi]
      rw [this]; exact h2
    · exact .inr ⟨h1, fun ⟨σ, hσ⟩ => h2 ⟨σ, valid_withNi.2 hσ⟩⟩

/-! ### Components -/

/-- The tasks that can be reached from `a` and that reach `a`. -/
noncomputable def Sim.cls (g : Graph nV nE) (a : Fin nV) : List (Fin nV) := by
  classical
  exact (List.finRange nV).filter fun b => Relation.ReflTransGen (Arc g) a b ∧ Relation.ReflTransGen (Arc g) b a

theorem Sim.mem_cls {a b : Fin nV} : b ∈ cls g a ↔ Relation.ReflTransGen (Arc g) a b ∧ Relation.ReflTransGen (Arc g) b a := by
  unfold cls; simp

theorem Sim.cls_nodup (a : Fin nV) : (cls g a).Nodup := by
  unfold cls; exact (List.nodup_finRange nV).filter _

theorem Sim.cls_eq {a b : Fin nV} (h : b ∈ cls g a) : cls g b = cls g a := by
  obtain ⟨h1, h2⟩ := mem_cls.1 h
  unfold cls
  refine List.filter_congr fun x _ => ?_
  simp only [decide_eq_decide]
  exact ⟨fun ⟨p, q⟩ => ⟨h1.trans p, q.trans h2⟩, fun ⟨p, q⟩ => ⟨h2.trans p, q.trans h1⟩⟩

theorem Sim.sub_arc {K : List (Fin nV)} (hK : K.Nodup) {i j : Fin K.length} (h : Arc g K[i] K[j]) : Arc (g.sub K) i j := by
  obtain ⟨e, h1, h2⟩ := h
  obtain ⟨l, hl, hle⟩ := List.mem_iff_getElem.1 (mem_inner.2 ⟨h1 ▸ List.getElem_mem _, h2 ▸ List.getElem_mem _⟩ : e ∈ g.inner K)
  have inj : ∀ x y : Fin K.length, K[x] = K[y] → x = y := fun x y hxy => Fin.ext ((hK.getElem_inj_iff).1 hxy)
  refine ⟨⟨l, hl⟩, inj _ _ ?_, inj _ _ ?_⟩
  · rw [sub_src, ← h1]; exact congrArg g.src hle
  · rw [sub_tgt, ← h2]; exact congrArg g.tgt hle

theorem Sim.cls_strong (a : Fin nV) (i j : Fin (cls g a).length) : Relation.ReflTransGen (Arc (g.sub (cls g a))) i j := by
  have key : ∀ x y, Relation.ReflTransGen (Arc g) x y → ∀ i j : Fin (cls g a).length, (cls g a)[i] = x → (cls g a)[j] = y →
      Relation.ReflTransGen (Arc (g.sub (cls g a))) i j := by
    intro x y hxy
    induction hxy with
    | refl =>
      intro i j hi hj
      have : i = j := Fin.ext ((cls_nodup a).getElem_inj_iff.1 (hi.trans hj.symm))
      rw [this]
    | @tail y z hxy hyz ih =>
      intro i j hi hj
      have m1 : x ∈ cls g a := hi ▸ List.getElem_mem _
      have m2 : z ∈ cls g a := hj ▸ List.getElem_mem _
      have my : y ∈ cls g a := mem_cls.2 ⟨(mem_cls.1 m1).1.trans hxy, (Relation.ReflTransGen.single hyz).trans (mem_cls.1 m2).2⟩
      obtain ⟨l, hl, hly⟩ := List.mem_iff_getElem.1 my
      refine (ih i ⟨l, hl⟩ hi hly).tail (sub_arc (cls_nodup a) ?_)
      rw [hj]
      show Arc g (cls g a)[l] z
      rw [hly]; exact hyz
  exact key _ _ ((mem_cls.1 (List.getElem_mem i.2)).2.trans (mem_cls.1 (List.getElem_mem j.2)).1) i j rfl rfl

theorem Sim.self_mem_cls (a : Fin nV) : a ∈ cls g a := mem_cls.2 ⟨.refl, .refl⟩

/-- A component without channel is a single task. -/
theorem Sim.cls_single {a : Fin nV} (h : (g.inner (cls g a)).length = 0) : cls g a = [a] := by
  have hall : ∀ i j : Fin (cls g a).length, i = j := by
    intro i j
    rcases Relation.ReflTransGen.cases_tail (cls_strong (g := g) a i j) with h1 | ⟨b, -, e, -⟩
    · exact h1.symm
    · have := e.2; omega
  have hm := self_mem_cls (g := g) a
  have hl : (cls g a).length = 1 := by
    have h0 : 0 < (cls g a).length := List.length_pos_of_mem hm
    by_contra hne
    have := hall ⟨0, h0⟩ ⟨1, by omega⟩
    simp at this
  obtain ⟨x, hx⟩ := List.length_eq_one_iff.1 hl
  rw [hx] at hm ⊢
  simp at hm
  rw [hm]

/-- The repetition vector of a component is that of the graph divided by a common factor. -/
theorem Sim.sub_rep (h : OK g) {N : Fin nV → Int} (hN : Rep.compute g.toRep = some (some N)) (a : Fin nV)
    (he : 0 < (g.inner (cls g a)).length) : ∃ N' : Fin (cls g a).length → Int, ∃ q : Int, 0 < q ∧
      Rep.compute (g.sub (cls g a)).toRep = some (some N') ∧ ∀ i, N (cls g a)[i] = q * N' i := by
  set K := cls g a with hKdef
  have hv : 0 < nV := Nat.lt_of_le_of_lt (Nat.zero_le _) a.2
  have hvK : 0 < K.length := List.length_pos_of_mem (self_mem_cls (g := g) a)
  have hR := h.rep hv
  have hRK := (h.sub K).rep hvK
  obtain ⟨hsum, q0, hq0, hbal0⟩ := (C14_consistent_iff hR).2.1 ⟨N, hN⟩
  obtain ⟨N', hN'⟩ := (C14_consistent_iff hRK).2.2 ⟨fun e => hsum _, fun i => q0 K[i], fun i => hq0 _, fun e => by
    have := hbal0 (g.inner K)[e]
    simp only [Graph.toRep] at this ⊢
    rw [sub_src, sub_tgt]; exact this⟩
  have hstrong := cls_strong (g := g) a
  have hatt : ∀ i : Fin K.length, ∃ e, (g.sub K).tgt e = i := by
    intro i
    obtain ⟨e, he1 | ⟨he1, -⟩⟩ := guarded_of_strong (g := g.sub K) he hstrong none i
    · exact ⟨e, he1⟩
    · simp at he1
  have hA : Rep.Attached (g.sub K).toRep := fun i => by
    obtain ⟨e, he⟩ := hatt i
    exact .inr ⟨e, .inr he⟩
  obtain ⟨q2, hq2, hN2, hb2⟩ := C12_cycles_partial hRK hA hN'
  obtain ⟨k1, k2, k3⟩ := C12_balance_partial hR hN
  have hph : ∀ v, (0 : Int) < g.phases v := fun v => by exact_mod_cast h.phases v
  have hdvd : ∀ i : Fin K.length, (g.phases K[i] : Int) ∣ N K[i] := by
    intro i
    obtain ⟨e, he⟩ := hatt i
    refine k3 _ (.inr ⟨(g.inner K)[e], .inr ?_⟩)
    show g.tgt _ = _
    rw [← sub_tgt]
    exact congrArg (fun i : Fin K.length => K[i]) he
  choose r hr using hdvd
  have hrpos : ∀ i, 0 < r i := fun i => by
    have := k1 K[i]
    rw [hr i] at this
    exact pos_of_mul_pos_right this (hph _).le
  obtain ⟨-, hmin⟩ := C13_minimal_partial hRK hA hN' hN2
  obtain ⟨q, hq, hqr⟩ := hmin (fun x y => (hstrong x y).lift id fun x y ⟨e, h1, h2⟩ => ⟨e, .inl ⟨h1, h2⟩⟩) r hrpos (by
    intro e
    have hb := k2 (g.inner K)[e]
    simp only [Graph.toRep] at hb ⊢
    rw [← sub_src, ← sub_tgt, hr, hr] at hb
    have p1 := hph K[(g.sub K).src e]
    have p2 := hph K[(g.sub K).tgt e]
    show (g.prod (g.inner K)[e]).sum * _ = (g.cons (g.inner K)[e]).sum * _
    apply mul_right_cancel₀ (mul_pos p1 p2).ne'
    linear_combination hb)
  refine ⟨N', q, hq, hN', fun i => ?_⟩
  rw [hr i, hqr i, hN2 i]
  show _ = _ * (_ * (g.phases K[i] : Int))
  ring

/-! ### Standalone tasks -/

theorem Sim.toInt_int {z : Int} (h0 : 0 ≤ z) (h1 : z ≤ intMax) : toInt (z : ℚ) = some z := by
  unfold toInt
  simp only [Rat.num_intCast, Rat.den_intCast, Nat.cast_one, Int.tdiv_one]
  rw [if_pos ⟨by unfold intMax; omega, h1⟩]

theorem Sim.totalDuration_exact {l : List ℚ} (hl : ∀ d ∈ l, ∃ z : ℕ, d = z) (hs : l.sum ≤ (intMax : ℚ)) :
    ∃ S : Int, totalDuration l = some S ∧ (S : ℚ) = l.sum := by
  have key : ∀ (l : List ℚ) (s : Int), (∀ d ∈ l, ∃ z : ℕ, d = z) → 0 ≤ s → (s : ℚ) + l.sum ≤ (intMax : ℚ) →
      ∃ S : Int, l.foldlM (fun (s : Int) d => toInt (s + d)) s = some S ∧ (S : ℚ) = s + l.sum := by
    intro l
    induction l with
    | nil => intro s _ _ _; exact ⟨s, rfl, by simp⟩
    | cons d l ih =>
      intro s hl h0 hs
      obtain ⟨z, rfl⟩ := hl d List.mem_cons_self
      have hnn : 0 ≤ l.sum := List.sum_nonneg fun d hd => by
        obtain ⟨z, rfl⟩ := hl d (List.mem_cons_of_mem _ hd); positivity
      rw [List.sum_cons] at hs
      have e : (s : ℚ) + (z : ℚ) = ((s + z : Int) : ℚ) := by push_cast; ring
      have hle : s + z ≤ intMax := by
        have : ((s + z : Int) : ℚ) ≤ (intMax : ℚ) := by rw [← e]; linarith
        exact_mod_cast this
      obtain ⟨S, h1, h2⟩ := ih (s + z) (fun d hd => hl d (List.mem_cons_of_mem _ hd)) (by positivity) (by rw [← e]; linarith)
      refine ⟨S, ?_, by rw [h2, List.sum_cons, ← e]; ring⟩
      rw [List.foldlM_cons, e, toInt_int (by positivity) hle]
      exact h1
  obtain ⟨S, h1, h2⟩ := key l 0 hl le_rfl (by simpa using hs)
  exact ⟨S, h1, by simpa using h2⟩

/-- Durations are positive integers and their sum over the phases of a task fits in an `int`. -/
structure Sim.IntDurations (g : Graph nV nE) : Prop where
  int : ∀ a, ∀ d ∈ g.dur a, ∃ z : ℕ, 0 < z ∧ d = z
  fits : ∀ a, (g.dur a).sum ≤ (intMax : ℚ)

theorem Sim.IntDurations.pos (h : IntDurations g) : ∀ a, ∀ d ∈ g.dur a, 0 < d := by
  intro a d hd
  obtain ⟨z, h0, rfl⟩ := h.int a d hd
  exact_mod_cast h0

theorem Sim.IntDurations.phases_le (h : IntDurations g) (hok : OK g) (a : Fin nV) : (g.phases a : ℚ) ≤ (g.dur a).sum := by
  rw [← hok.durLen a]
  have hi := h.int a
  generalize g.dur a = l at hi
  induction l with
  | nil => simp
  | cons d l ih =>
    obtain ⟨z, h0, rfl⟩ := hi d List.mem_cons_self
    have := ih fun d hd => hi d (List.mem_cons_of_mem _ hd)
    have h1 : (1 : ℚ) ≤ z := by exact_mod_cast h0
    rw [List.sum_cons, List.length_cons]; push_cast; linarith

theorem Sim.repeated_eq {N : Fin nV → Int} (hN : Rep.compute g.toRep = some (some N)) : g.repeated = some (g.withNi N) := by
  unfold Graph.repeated; rw [hN]

theorem Sim.scaled_eq {G : Graph nV nE} {K : List (Fin nV)} (he : 0 < (G.inner K).length) {s : Graph K.length (G.inner K).length}
    (h1 : (G.sub K).repeated = some s) {n : ℕ} {r : Fin K.length × ℚ} (h2 : componentThroughput s n = some r) :
    scaledThroughput G n K = some (some (r.2 * s.ni r.1 / G.ni K[r.1])) := by
  unfold scaledThroughput
  rw [if_pos he, h1]
  simp only [Option.bind_eq_bind, Option.bind_some, h2]

/-- What the analysis of the component of `a` gives, in iterations of the whole graph. -/
theorem Sim.component_outcome (h : OK g) (hd : IntDurations g) {N : Fin nV → Int}
    (hN : Rep.compute g.toRep = some (some N)) (hint : ∀ a, N a < intMax) (a : Fin nV) :
    ∃ n0 t, (∀ n, n0 ≤ n → scaledThroughput (g.withNi N) n (cls g a) = some (some t)) ∧
      (0 < t ∧ Paced (g.withNi N) (cls g a) (1 / t) ∧
          (∀ Ω σ, Valid g none σ → Sustained (g.withNi N) σ Ω → 1 / t ≤ Ω) ∨
        t = 0 ∧ ¬ ∃ σ, Valid g none σ) := by
  have hv : 0 < nV := Nat.lt_of_le_of_lt (Nat.zero_le _) a.2
  obtain ⟨hNpos, -⟩ := C12_balance_partial (h.rep hv) hN
  have hNq : ∀ b, (0 : ℚ) < N b := fun b => by exact_mod_cast hNpos b
  by_cases he : 0 < (g.inner (cls g a)).length
  · obtain ⟨N', q, hq, hN', hNN⟩ := sub_rep h hN a he
    have hqq : (0 : ℚ) < q := by exact_mod_cast hq
    have hNNq : ∀ i, (N (cls g a)[i] : ℚ) = q * N' i := fun i => by rw [hNN i]; push_cast; ring
    have hvK : 0 < (cls g a).length := List.length_pos_of_mem (self_mem_cls (g := g) a)
    obtain ⟨hN'pos, -⟩ := C12_balance_partial ((h.sub (cls g a)).rep hvK) hN'
    have hN'q : ∀ i, (0 : ℚ) < N' i := fun i => by exact_mod_cast hN'pos i
    have hle : N' ⟨0, hvK⟩ < intMax := by
      have h1 := hint (cls g a)[(⟨0, hvK⟩ : Fin _)]
      rw [hNN] at h1
      have := hN'pos ⟨0, hvK⟩
      nlinarith
    obtain ⟨n0, i, thr, hrun, hcase⟩ := strong_component (h.sub (cls g a)) (fun i => hd.pos _) hN' ⟨_, hle⟩
      (cls_strong (g := g) a) he
    refine ⟨n0, thr / q, fun n hn => ?_, ?_⟩
    · have e1 : ((g.withNi N).sub (cls g a)).repeated = some ((g.sub (cls g a)).withNi N') :=
        repeated_eq (g := g.sub (cls g a)) hN'
      refine (scaled_eq (G := g.withNi N) he e1 (hrun n hn)).trans ?_
      congr 2
      show thr * (N' i : ℚ) / (N (cls g a)[i] : ℚ) = _
      rw [hNNq i]
      have := (hN'q i).ne'
      field_simp
    · rcases hcase with ⟨h1, ⟨σ, hσ, hc⟩, hleast⟩ | ⟨h1, h2⟩
      · left
        refine ⟨div_pos h1 hqq, ⟨σ, hσ, fun i => ?_⟩, fun Ω τ hτ hsus => ?_⟩
        · obtain ⟨C, hC⟩ := hc i
          refine ⟨C, fun k => ?_⟩
          have e : 1 / (thr / q) * k / ((g.withNi N).ni (cls g a)[i] : ℚ) = 1 / thr * k / N' i := by
            show 1 / (thr / q) * k / (N (cls g a)[i] : ℚ) = _
            rw [hNNq i]
            have := (hN'q i).ne'
            field_simp
          rw [e]; exact hC k
        · have := hleast.2 ⟨_, hτ.sub (cls g a), fun i => by
            obtain ⟨C, hC⟩ := hsus (cls g a)[i]
            refine ⟨C, fun k => (hC k).trans (le_of_eq ?_)⟩
            show Ω * k / (N (cls g a)[i] : ℚ) + C = Ω / q * k / (N' i : ℚ) + C
            rw [hNNq i]
            have := (hN'q i).ne'
            field_simp⟩
          rw [le_div_iff₀ hqq] at this
          rw [one_div_div]
          calc (q : ℚ) / thr = 1 / thr * q := by ring
            _ ≤ Ω := this
      · right
        exact ⟨by rw [h1]; simp, fun ⟨τ, hτ⟩ => h2 ⟨_, hτ.sub (cls g a)⟩⟩
  · have he0 : (g.inner (cls g a)).length = 0 := by omega
    have hK := cls_single he0
    obtain ⟨S, hS1, hS2⟩ := totalDuration_exact (fun d hdm => (hd.int a d hdm).imp fun z hz => hz.2) (hd.fits a)
    have hP : (0 : ℚ) < g.phases a := by exact_mod_cast h.phases a
    have hSpos : (0 : ℚ) < S := by rw [hS2]; linarith [hd.phases_le h a]
    have hS0 : S ≠ 0 := fun h0 => by rw [h0] at hSpos; simp at hSpos
    refine ⟨0, (g.phases a : ℚ) / S / N a, fun n _ => ?_, .inl ⟨by have := hNq a; positivity, ?_, fun Ω τ hτ hsus => ?_⟩⟩
    · unfold scaledThroughput
      rw [if_neg (show ¬ 0 < ((g.withNi N).inner (cls g a)).length from he), hK]
      simp only
      rw [show totalDuration ((g.withNi N).dur a) = some S from hS1]
      simp only [Option.bind_eq_bind, Option.bind_some, if_neg hS0]
      rfl
    · obtain ⟨B, hB⟩ := dsum_bounded h a
      have hi : ∀ i : Fin (cls g a).length, (cls g a)[i] = a := by
        intro i
        have : (cls g a)[i] ∈ cls g a := List.getElem_mem _
        generalize (cls g a)[i] = x at this ⊢
        rw [hK] at this
        simpa using this
      refine ⟨fun _ k => ∑ j ∈ range k, g.execDur a j, ⟨fun i k => ?_, fun i k => ?_, fun e => ?_, fun w hw => by simp at hw⟩,
        fun i => ⟨B, fun k => ?_⟩⟩
      · exact sum_nonneg fun j _ => execDur_nonneg h a j
      · have e : ((g.withNi N).sub (cls g a)).execDur i k = g.execDur a k := by
          show g.execDur (cls g a)[i] k = _
          rw [hi]
        rw [e, sum_range_succ]
      · exact absurd e.2 (by simp only [show ((g.withNi N).inner (cls g a)).length = 0 from he0]; omega)
      · have e : 1 / ((g.phases a : ℚ) / S / N a) * k / ((g.withNi N).ni (cls g a)[i] : ℚ) =
            k * ((g.dur a).sum / g.phases a) := by
          show _ / (N (cls g a)[i] : ℚ) = _
          rw [hi, ← hS2]
          have := (hNq a).ne'
          field_simp
        rw [e]; exact hB k
    · obtain ⟨C, hC⟩ := hsus a
      have := pace_bound h a (hNpos a) (hτ.nonneg a 0) (hτ.noOverlap a) hC
      rw [← hS2] at this
      have hne := (hNq a).ne'
      have e : 1 / ((g.phases a : ℚ) / S / N a) = S / g.phases a * N a := by field_simp
      rw [e]; exact this

/-- Every reported value is at most one iteration per time unit. -/
theorem Sim.paced_le_one (h : OK g) (hd : IntDurations g) (hNpos : ∀ b, 0 < g.ni b) {a : Fin nV} {t : ℚ} (ht : 0 < t)
    (hp : Paced g (cls g a) (1 / t)) : t ≤ 1 := by
  obtain ⟨σ, hv, hc⟩ := hp
  obtain ⟨i, hi, hia⟩ := List.mem_iff_getElem.1 (self_mem_cls (g := g) a)
  obtain ⟨C, hC⟩ := hc ⟨i, hi⟩
  have hb := pace_bound h a (hNpos a) (hv.nonneg ⟨i, hi⟩ 0) (fun k => by
    have := hv.noOverlap ⟨i, hi⟩ k
    rw [show (g.sub (cls g a)).execDur ⟨i, hi⟩ k = g.execDur (cls g a)[i] k from rfl, hia] at this
    exact this) (C := C) (Ω := 1 / t) (fun k => by
      have := (abs_le.1 (hC k)).2
      rw [show (cls g a)[(⟨i, hi⟩ : Fin _)] = a from hia] at this
      linarith)
  have h1 := hd.phases_le h a
  have hP : (0 : ℚ) < g.phases a := by exact_mod_cast h.phases a
  have h2 : 1 ≤ (g.dur a).sum / g.phases a := by rw [le_div_iff₀ hP]; linarith
  have h3 : (1 : ℚ) ≤ g.ni a := by exact_mod_cast hNpos a
  have h4 : 1 ≤ 1 / t := by nlinarith
  rw [le_div_iff₀ ht] at h4
  linarith

/-! ### C69 -/

theorem Sim.reach_id {id : Fin nV → Int} (hid : Function.Injective id) {a b : Fin nV} :
    SCC.Reach (g.toSCC id) (id a) (id b) ↔ Relation.ReflTransGen (Arc g) a b := by
  constructor
  · have key : ∀ y, SCC.Reach (g.toSCC id) (id a) y → ∃ b, id b = y ∧ Relation.ReflTransGen (Arc g) a b := by
      intro y hy
      induction hy with
      | refl => exact ⟨a, rfl, .refl⟩
      | @tail y z _ hyz ih =>
        obtain ⟨b, rfl, hb⟩ := ih
        simp only [Graph.toSCC, List.mem_map, List.mem_finRange, true_and, Prod.mk.injEq] at hyz
        obtain ⟨e, h1, h2⟩ := hyz
        exact ⟨_, h2, hb.tail ⟨e, hid h1, rfl⟩⟩
    intro h
    obtain ⟨b', h1, h2⟩ := key _ h
    rwa [← hid h1]
  · intro h
    exact h.lift id fun x y ⟨e, h1, h2⟩ => by
      simp only [Graph.toSCC, List.mem_map, List.mem_finRange, true_and]
      exact ⟨e, by rw [h1, h2]⟩

theorem Sim.foldMin (cs : List (List Int)) (t : List Int → ℚ) (m0 : ℚ) :
    let r := (cs.map fun c => some (t c)).foldl (fun m t => match t with | some t => if t < m then t else m | none => m) m0
    r ≤ m0 ∧ (∀ c ∈ cs, r ≤ t c) ∧ (r = m0 ∨ ∃ c ∈ cs, r = t c) := by
  induction cs generalizing m0 with
  | nil => simp
  | cons c cs ih =>
    simp only [List.map_cons, List.foldl_cons]
    obtain ⟨h1, h2, h3⟩ := ih (if t c < m0 then t c else m0)
    have hle : (if t c < m0 then t c else m0) ≤ m0 ∧ (if t c < m0 then t c else m0) ≤ t c := by
      split <;> rename_i hlt
      · exact ⟨hlt.le, le_rfl⟩
      · exact ⟨le_rfl, not_lt.1 hlt⟩
    refine ⟨h1.trans hle.1, ?_, ?_⟩
    · intro x hx
      rcases List.mem_cons.1 hx with rfl | hx
      · exact h1.trans hle.2
      · exact h2 x hx
    · rcases h3 with h3 | ⟨x, hx, h3⟩
      · by_cases hlt : t c < m0
        · right; refine ⟨c, List.mem_cons_self, ?_⟩; rw [h3, if_pos hlt]
        · left; rw [h3, if_neg hlt]
      · exact .inr ⟨x, List.mem_cons_of_mem _ hx, h3⟩

theorem Sim.mapM_eq_map {α β : Type} {f : α → Option β} {t : α → β} (l : List α) (h : ∀ x ∈ l, f x = some (t x)) :
    l.mapM f = some (l.map t) := by
  induction l with
  | nil => rfl
  | cons x l ih =>
    rw [List.mapM_cons, h x List.mem_cons_self, ih fun y hy => h y (List.mem_cons_of_mem _ hy)]; rfl

/-- `compute_asap_throughput`, with a schedule that keeps the pace of the result. -/
theorem Sim.asap_paced (h : OK g) (hd : IntDurations g) {N : Fin nV → Int} (hN : Rep.compute g.toRep = some (some N))
    (hint : ∀ a, N a < intMax) {id : Fin nV → Int} (hid : Function.Injective id) (hv : 0 < nV) (hone : nV = 1 → 0 < nE) :
    ∃ n0 thr, (∀ n, n0 ≤ n → asapThroughput g id n = some thr) ∧
      (0 < thr ∧ (∃ σ, Valid g none σ ∧ ∀ a, ∃ C, ∀ k : ℕ, |σ a k - 1 / thr * k / N a| ≤ C) ∧
          (∀ Ω σ, Valid g none σ → Sustained (g.withNi N) σ Ω → 1 / thr ≤ Ω) ∨
        thr = 0 ∧ ¬ ∃ σ, Valid g none σ) := by
  have hrep := repeated_eq hN
  have hsv : SCC.Valid (g.toSCC id) := by
    refine ⟨(List.nodup_finRange nV).map hid, fun e he => ?_⟩
    simp only [Graph.toSCC, List.mem_map, List.mem_finRange, true_and] at he ⊢
    obtain ⟨x, rfl⟩ := he
    exact ⟨⟨_, rfl⟩, ⟨_, rfl⟩⟩
  obtain ⟨cs, hcs, hperm, hne, hwhole⟩ := C43_exact _ hsv
  obtain ⟨hNpos, hNbal, -⟩ := C12_balance_partial (h.rep hv) hN
  obtain ⟨hsum, -⟩ := (C14_consistent_iff (h.rep hv)).2.1 ⟨N, hN⟩
  have hcs' : SCC.kosaraju ((g.withNi N).toSCC id) = some cs := hcs
  -- the component of each task
  have hin : ∀ a, ∃ c ∈ cs, id a ∈ c := by
    intro a
    have : id a ∈ cs.flatten := hperm.mem_iff.2 (by simp [Graph.toSCC])
    simpa using this
  have hkeep : ∀ c ∈ cs, ∀ a, id a ∈ c → keep id c = cls g a := by
    intro c hc a ha
    unfold keep cls
    refine List.filter_congr fun b _ => ?_
    simp only [decide_eq_decide]
    rw [hwhole c hc (id a) ha (id b), reach_id hid, reach_id hid]
  have hex : ∀ c ∈ cs, ∃ a, id a ∈ c := by
    intro c hc
    obtain ⟨x, hx⟩ := List.exists_mem_of_ne_nil c (hne c hc)
    have : x ∈ (g.toSCC id).ids := hperm.mem_iff.1 (List.mem_flatten.2 ⟨c, hc, hx⟩)
    simp only [Graph.toSCC, List.mem_map, List.mem_finRange, true_and] at this
    obtain ⟨a, rfl⟩ := this
    exact ⟨a, hx⟩
  by_cases hlen : cs.length > 1
  · -- several components
    have hout : ∀ c, c ∈ cs → ∃ n0 t, (∀ n, n0 ≤ n → scaledThroughput (g.withNi N) n (keep id c) = some (some t)) ∧
        ((0 < t ∧ ∃ a, id a ∈ c ∧ Paced (g.withNi N) (cls g a) (1 / t) ∧
            (∀ Ω σ, Valid g none σ → Sustained (g.withNi N) σ Ω → 1 / t ≤ Ω)) ∨
          t = 0 ∧ ¬ ∃ σ, Valid g none σ) := by
      intro c hc
      obtain ⟨a, ha⟩ := hex c hc
      obtain ⟨n0, t, h1, h2⟩ := component_outcome h hd hN hint a
      rw [← hkeep c hc a ha] at h1
      exact ⟨n0, t, h1, h2.imp (fun ⟨p, q, r⟩ => ⟨p, a, ha, q, r⟩) fun x => x⟩
    choose! n0 t ht hcase using hout
    obtain ⟨M, hM⟩ : ∃ M, ∀ c ∈ cs, n0 c ≤ M := by
      refine ⟨(cs.map n0).sum, fun c hc => List.single_le_sum (fun _ _ => Nat.zero_le _) _ (List.mem_map_of_mem hc)⟩
    obtain ⟨f1, f2, f3⟩ := foldMin cs t longMax
    set thr := (cs.map fun c => some (t c)).foldl (fun m t => match t with | some t => if t < m then t else m | none => m)
      longMax with hthr
    have hle1 : ∀ c ∈ cs, t c ≤ 1 := by
      intro c hc
      rcases hcase c hc with ⟨h1, a, ha, h2, -⟩ | ⟨h1, -⟩
      · exact paced_le_one (g := g.withNi N) (h.withNi N) ⟨hd.int, hd.fits⟩ hNpos h1 h2
      · rw [h1]; norm_num
    have hatt : ∃ c ∈ cs, thr = t c := by
      rcases f3 with f3 | f3
      · obtain ⟨c, hc⟩ := List.exists_mem_of_length_pos (show 0 < cs.length by omega)
        have := f2 c hc
        have := hle1 c hc
        have hlm : (1 : ℚ) < longMax := by unfold longMax; norm_num
        rw [f3] at *; linarith
      · exact f3
    refine ⟨M, thr, fun n hn => ?_, ?_⟩
    · unfold asapThroughput
      simp only [hrep, hcs', Option.bind_eq_bind, Option.bind_some, if_pos hlen]
      rw [mapM_eq_map (t := fun c => some (t c)) cs fun c hc => ht c hc n ((hM c hc).trans hn)]
      simp only [Option.bind_some]
      rfl
    · by_cases hz : ∃ c ∈ cs, t c = 0
      · obtain ⟨c, hc, hc0⟩ := hz
        right
        refine ⟨le_antisymm (hc0 ▸ f2 c hc) ?_, ?_⟩
        · obtain ⟨c', hc', e⟩ := hatt
          rw [e]
          rcases hcase c' hc' with ⟨h1, -⟩ | ⟨h1, -⟩
          · exact h1.le
          · exact h1.ge
        · rcases hcase c hc with ⟨h1, -⟩ | ⟨-, h1⟩
          · exact absurd hc0 h1.ne'
          · exact h1
      · push Not at hz
        have hpos : ∀ c ∈ cs, 0 < t c ∧ ∃ a, id a ∈ c ∧ Paced (g.withNi N) (cls g a) (1 / t c) ∧
            (∀ Ω σ, Valid g none σ → Sustained (g.withNi N) σ Ω → 1 / t c ≤ Ω) := fun c hc =>
          (hcase c hc).resolve_right fun ⟨h0, _⟩ => hz c hc h0
        obtain ⟨c0, hc0, hthr0⟩ := hatt
        obtain ⟨ht0, a0, -, -, hlow⟩ := hpos c0 hc0
        left
        rw [← hthr0] at ht0 hlow
        refine ⟨ht0, ?_, hlow⟩
        classical
        have hcls : ∀ a b : Fin nV, b ∈ cls (g.withNi N) a ↔ b ∈ cls g a := fun a b => Iff.rfl
        obtain ⟨σ, h1, h2⟩ := compose (g := g.withNi N) (h.withNi N) hNpos hNbal (fun e => (hsum e).1) (cls g)
          (fun a => cls_nodup a) self_mem_cls (fun a b hb => cls_eq hb)
          (fun a => (univ.filter fun b => Relation.ReflTransGen (Arc g) b a).card)
          (fun a b hb => by
            obtain ⟨p, q⟩ := mem_cls.1 hb
            congr 1
            ext x
            simp only [mem_filter, mem_univ, true_and]
            exact ⟨fun r => r.trans q, fun r => r.trans p⟩)
          (fun e => by
            have harc : Relation.ReflTransGen (Arc g) (g.src e) (g.tgt e) := .single ⟨e, rfl, rfl⟩
            by_cases hback : Relation.ReflTransGen (Arc g) (g.tgt e) (g.src e)
            · exact .inl (mem_cls.2 ⟨harc, hback⟩)
            · right
              apply card_lt_card
              rw [ssubset_iff_of_subset (fun x hx => by
                simp only [mem_filter, mem_univ, true_and] at hx ⊢
                exact hx.trans harc)]
              exact ⟨g.tgt e, mem_filter.2 ⟨mem_univ _, .refl⟩, fun hm => hback (mem_filter.1 hm).2⟩)
          (Ω := 1 / thr) (by positivity)
          (fun a => by
            obtain ⟨c, hc, ha⟩ := hin a
            obtain ⟨k1, b, hb, k2, -⟩ := hpos c hc
            have : cls g b = cls g a := by rw [← hkeep c hc b hb, hkeep c hc a ha]
            rw [this] at k2
            exact k2.slower (h.withNi N) (by positivity) (one_div_le_one_div_of_le ht0 (f2 c hc)))
        exact ⟨σ, valid_withNi.1 h1, h2⟩
  · -- one component
    have hall : ∀ a b, Relation.ReflTransGen (Arc g) a b := by
      intro a b
      obtain ⟨c, hc, ha⟩ := hin a
      obtain ⟨c', hc', hb⟩ := hin b
      have : c = c' := by
        match cs, hlen, hc, hc' with
        | [x], _, hc, hc' => simp at hc hc'; rw [hc, hc']
        | _ :: _ :: _, hlen, _, _ => simp at hlen
      subst this
      exact (reach_id hid).1 ((hwhole c hc _ ha _).1 hb).1
    have hE : 0 < nE := by
      by_cases h1 : nV = 1
      · exact hone h1
      · rcases Relation.ReflTransGen.cases_tail (hall ⟨0, hv⟩ ⟨1, by omega⟩) with h2 | ⟨b, -, e, -⟩
        · simp at h2
        · exact Nat.lt_of_le_of_lt (Nat.zero_le _) e.2
    obtain ⟨n0, a, thr, h1, h2⟩ := strong_component h hd.pos hN ⟨⟨0, hv⟩, hint _⟩ hall hE
    refine ⟨n0, thr, fun n hn => ?_, h2.imp (fun ⟨p, q, r⟩ => ⟨p, q, fun Ω σ h1 h2 => r.2 ⟨σ, h1, h2⟩⟩) fun x => x⟩
    unfold asapThroughput
    simp only [hrep, hcs', Option.bind_eq_bind, Option.bind_some, if_neg hlen, h1 n hn, Option.map_some]

/-- **C69** On every consistent graph with positive integer durations, `compute_asap_throughput` returns (given enough loop
tests), and the result is the throughput of the whole graph: if positive, its inverse is the smallest time per graph iteration
that any valid schedule sustains; if zero, the graph has no valid schedule. The graph may have any number of strongly
connected components; a graph with a single task needs a channel. -/
theorem C69_whole_graph (h : OK g) (hd : IntDurations g) {N : Fin nV → Int} (hN : Rep.compute g.toRep = some (some N))
    (hint : ∀ a, N a < intMax) {id : Fin nV → Int} (hid : Function.Injective id) (hv : 0 < nV) (hone : nV = 1 → 0 < nE) :
    ∃ n0 thr, (∀ n, n0 ≤ n → asapThroughput g id n = some thr) ∧
      (0 < thr ∧ IsLeast {Ω | ∃ σ, Valid g none σ ∧ Sustained (g.withNi N) σ Ω} (1 / thr) ∨
        thr = 0 ∧ ¬ ∃ σ, Valid g none σ) := by
  obtain ⟨n0, thr, h1, h2⟩ := asap_paced h hd hN hint hid hv hone
  refine ⟨n0, thr, h1, h2.imp (fun ⟨p, ⟨σ, q, hC⟩, r⟩ => ⟨p, ⟨σ, q, fun a => ?_⟩, fun Ω ⟨σ, h1, h2⟩ => r Ω σ h1 h2⟩) fun x => x⟩
  obtain ⟨C, hC⟩ := hC a
  exact ⟨C, fun k => by have := (abs_le.1 (hC k)).2; show σ a k ≤ 1 / thr * k / N a + C; linarith⟩

/-- **C69** With fractional durations the result can be wrong: a task of duration 3/2 that is a component on its own is
counted as one of duration 1 (its total duration is accumulated in an `int`), and the reported throughput 1 is more than any
schedule achieves. -/
theorem C69_fractional_counterexample :
    let g : Graph 2 1 := ⟨![0], ![1], ![[1]], ![[1]], ![0], ![1, 1], ![[3/2], [1]], ![0, 0]⟩
    OK g ∧ Rep.compute g.toRep = some (some ![1, 1]) ∧ (∀ n, asapThroughput g (fun v => v.1) n = some 1) ∧
      ∀ Ω ∈ {Ω | ∃ σ, Valid g none σ ∧ Sustained (g.withNi ![1, 1]) σ Ω}, 3 / 2 ≤ Ω := by
  intro g
  have hok : OK g := by constructor <;> decide +kernel
  have hrep : Rep.compute g.toRep = some (some ![1, 1]) := by
    have : ∃ N, Rep.compute (Graph.toRep ⟨![0], ![1], ![[1]], ![[1]], ![0], ![1, 1], ![[3/2], [1]], ![0, 0]⟩) = some (some N) ∧
        N 0 = 1 ∧ N 1 = 1 := ⟨_, rfl, by decide +kernel, by decide +kernel⟩
    obtain ⟨N, h1, h2, h3⟩ := this
    rw [show Rep.compute g.toRep = _ from h1]
    congr 2
    funext i
    rcases Fin.exists_fin_two.1 ⟨i, rfl⟩ with rfl | rfl
    · exact h2
    · exact h3
  refine ⟨hok, hrep, fun n => ?_, ?_⟩
  · have e : ∀ n, asapThroughput g (fun v => v.1) n = asapThroughput g (fun v => v.1) 0 := by
      intro n
      unfold asapThroughput
      rw [repeated_eq hrep]
      simp only [Option.bind_eq_bind, Option.bind_some]
      have hk : SCC.kosaraju ((g.withNi ![1, 1]).toSCC fun v => v.1) = some [[0], [1]] := by decide +kernel
      rw [hk]
      simp only [Option.bind_some]
      have h0 : (g.withNi ![1, 1]).inner (keep (fun v : Fin 2 => (v.1 : Int)) [0]) = [] := by decide +kernel
      have h1 : (g.withNi ![1, 1]).inner (keep (fun v : Fin 2 => (v.1 : Int)) [1]) = [] := by decide +kernel
      simp only [List.mapM_cons, List.mapM_nil, scaledThroughput, h0, h1, List.length_nil, lt_irrefl, if_false]
      rfl
    rw [e]; decide +kernel
  · rintro Ω ⟨σ, hσ, hs⟩
    obtain ⟨C, hC⟩ := hs 0
    have := pace_bound hok 0 (n := 1) one_pos (hσ.nonneg 0 0) (hσ.noOverlap 0) hC
    have e : (g.dur 0).sum / g.phases 0 * ((1 : ℤ) : ℚ) = 3 / 2 := by decide +kernel
    rw [e] at this
    exact this

/-- **C69** On a graph made of one task without channel the computation never returns. -/
theorem C69_single_task_diverges (d : ℚ) (n : ℕ) :
    asapThroughput (nV := 1) (nE := 0) ⟨Fin.elim0, Fin.elim0, Fin.elim0, Fin.elim0, Fin.elim0, ![1], ![[d]], ![0]⟩
      (fun v => v.1) n = none := by
  set g : Graph 1 0 := ⟨Fin.elim0, Fin.elim0, Fin.elim0, Fin.elim0, Fin.elim0, ![1], ![[d]], ![0]⟩ with hg
  obtain ⟨N, hN', hN0⟩ : ∃ N, Rep.compute (⟨Fin.elim0, Fin.elim0, Fin.elim0, Fin.elim0, ![1]⟩ : Rep.Graph 1 0) = some (some N) ∧
      N 0 = 1 := ⟨_, rfl, by decide +kernel⟩
  have hN : Rep.compute g.toRep = some (some N) := hN'
  have hk : SCC.kosaraju ((g.withNi N).toSCC fun v => v.1) = some [[0]] := by
    show SCC.kosaraju ⟨(List.finRange 1).map fun v => (v.1 : Int), []⟩ = _
    decide +kernel
  have hst : ∃ c m, start (g.withNi N) none true = some (c, m) ∧ (run c m 2).pc = .starts (0 :: []) ∧ c.g = g.withNi N ∧
      c.cap = none ∧ ∀ k < 2, result (run c m k) = none := by
    obtain ⟨t, ht⟩ := selectMin_some (g := g.withNi N) (a := 0) (by show N 0 < intMax; rw [hN0]; decide)
    obtain rfl : t = 0 := Subsingleton.elim _ _
    have hc : start (g.withNi N) none true = some (⟨g.withNi N, none, 0, true⟩,
        { pc := .ends (List.finRange 1), acts := fun _ => ⟨0, false⟩,
          st := { queue := fun _ => [], phase := phaseOf (g.withNi N) fun _ => ⟨0, false⟩, tokens := (g.withNi N).preload,
                  space := fun e => ((none : Option (Fin 0 → Int)).elim 0 fun k => k e) - (g.withNi N).preload e, elapsed := 0 },
          count := 0, visited := [], clock := 0, completed := fun _ => 0 }) := by
      unfold start
      rw [if_pos ⟨fun e => e.elim0, fun a => by
        obtain rfl : a = 0 := Subsingleton.elim _ _
        exact ⟨one_ne_zero, List.cons_ne_nil d []⟩⟩, ht]
    refine ⟨_, _, hc, rfl, rfl, rfl, ?_⟩
    intro k hk
    match k, hk with
    | 0, _ => rfl
    | 1, _ => rfl
  obtain ⟨c, m, hs, hpc, hcg, hcc, hr⟩ := hst
  have hnone : ∀ k, result (run c m k) = none := by
    intro k
    by_cases h2 : k < 2
    · exact hr k h2
    · have hrun : ∀ j, run c m (2 + j) = run c (run c m 2) j := by
        intro j
        induction j with
        | zero => rfl
        | succ j ih => show step c (run c m (2 + j)) = step c _; rw [ih]
      have := (C25_unguarded_diverges (c := c) (a := 0) (fun e => e.elim0) (run c m 2) hpc (k - 2)).1
      rw [← hrun, show 2 + (k - 2) = k by omega] at this
      unfold result; rw [this]
  unfold asapThroughput
  rw [repeated_eq hN]
  simp only [Option.bind_eq_bind, Option.bind_some, hk, List.length_singleton, gt_iff_lt, lt_irrefl, if_false]
  unfold componentThroughput
  rw [hs]
  simp only [hnone, Option.map_none]

/-! ### Non-vacuity -/

/-- The two tasks of `exGraph` in a cycle, with a third one that reads from the second and takes five time units. -/
def Sim.exChain : Graph 3 3 :=
  ⟨![0, 1, 1], ![1, 0, 2], ![[2], [0, 2], [1, 1]], ![[1, 1], [2], [1]], ![0, 2, 0], ![1, 2, 1], ![[2], [1, 3], [5]], ![0, 0, 0]⟩

/-- The hypotheses of `C69_whole_graph` hold for it; it has two components. -/
example : OK exChain ∧ IntDurations exChain ∧ (∃ N, Rep.compute exChain.toRep = some (some N) ∧ ∀ a, N a < intMax) ∧
    Function.Injective (fun v : Fin 3 => (v.1 : Int)) ∧ SCC.kosaraju (exChain.toSCC fun v => v.1) = some [[0, 1], [2]] := by
  refine ⟨by constructor <;> decide +kernel, ⟨?_, by decide +kernel⟩, ⟨_, rfl, by decide +kernel⟩,
    fun a b h => Fin.ext (by simpa using h), by decide +kernel⟩
  intro a d hd
  have : a = 0 ∨ a = 1 ∨ a = 2 := by omega
  rcases this with rfl | rfl | rfl <;> simp [exChain] at hd
  · exact ⟨2, by norm_num, by rw [hd]; norm_num⟩
  · rcases hd with rfl | rfl
    · exact ⟨1, by norm_num, by norm_num⟩
    · exact ⟨3, by norm_num, by norm_num⟩
  · exact ⟨5, by norm_num, by rw [hd]; norm_num⟩

/-- The third task is the slowest: two executions of five time units per iteration. -/
example : asapThroughput exChain (fun v => v.1) 70 = some (1 / 10) := by decide +kernel

end Kiter
