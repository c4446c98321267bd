/-
Properties C12, C13 and C14: the repetition vector.
-/
import Verif.Lemmas.Repetition
import Mathlib.Data.Fin.VecNotation
import Mathlib.Tactic.Ring

set_option autoImplicit false

namespace Kiter
open Rep

variable {nV nE : Nat} {g : Rep.Graph nV nE}

/-- Graphs covered: one non-negative rate per phase on each end of a channel, at least one phase per task, at least
one task. -/
structure Rep.OK (g : Graph nV nE) : Prop where
  vertices : 0 < nV
  phases : ∀ v, 0 < g.phases v
  prodLen : ∀ e, (g.prod e).length = g.phases (g.src e)
  consLen : ∀ e, (g.cons e).length = g.phases (g.tgt e)
  prodNonneg : ∀ e, ∀ r ∈ g.prod e, 0 ≤ r
  consNonneg : ∀ e, ∀ r ∈ g.cons e, 0 ≤ r

/-- Specification: `q v` complete cycles of phases of each task `v` leave every channel as it was. -/
def Rep.Balanced (g : Graph nV nE) (q : Fin nV → Int) : Prop :=
  ∀ e, (g.prod e).sum * q (g.src e) = (g.cons e).sum * q (g.tgt e)

/-- Every task with several phases has a channel. -/
def Rep.Attached (g : Graph nV nE) : Prop := ∀ v, g.phases v = 1 ∨ ∃ e, g.src e = v ∨ g.tgt e = v

theorem Rep.rp_facts (h : Rep.OK g) : 0 < ratePeriod g ∧
    ∀ e, g.phases (g.src e) ∣ ratePeriod g ∧ g.phases (g.tgt e) ∣ ratePeriod g := by
  obtain ⟨-, h2, h3⟩ := foldl_natlcm (fun e => (g.prod e).length) (fun e => (g.cons e).length) (List.finRange nE) 1
  constructor
  · exact h3 (by norm_num) fun e _ => ⟨by rw [h.prodLen]; exact h.phases _, by rw [h.consLen]; exact h.phases _⟩
  · intro e
    have := h2 e (List.mem_finRange e)
    rw [h.prodLen, h.consLen] at this
    exact this

theorem Rep.rates_nonneg (h : Rep.OK g) (rp : Nat) : (∀ e, 0 ≤ inRate g rp e) ∧ ∀ e, 0 ≤ outRate g rp e :=
  ⟨fun e => mul_nonneg (List.sum_nonneg (h.prodNonneg e)) (by positivity),
   fun e => mul_nonneg (List.sum_nonneg (h.consNonneg e)) (by positivity)⟩

/-- The rate used by the program, times the number of phases. -/
theorem Rep.rate_scale (h : Rep.OK g) (e : Fin nE) :
    (inRate g (ratePeriod g) e : ℚ) * g.phases (g.src e) = (g.prod e).sum * ratePeriod g ∧
    (outRate g (ratePeriod g) e : ℚ) * g.phases (g.tgt e) = (g.cons e).sum * ratePeriod g := by
  obtain ⟨h1, h2⟩ := (rp_facts h).2 e
  unfold inRate outRate
  rw [h.prodLen, h.consLen]
  constructor
  · have : ((ratePeriod g / g.phases (g.src e) : ℕ) : ℚ) * g.phases (g.src e) = ratePeriod g := by
      exact_mod_cast Nat.div_mul_cancel h1
    rw [Int.cast_mul, Int.cast_natCast, mul_assoc, this]
  · have : ((ratePeriod g / g.phases (g.tgt e) : ℕ) : ℚ) * g.phases (g.tgt e) = ratePeriod g := by
      exact_mod_cast Nat.div_mul_cancel h2
    rw [Int.cast_mul, Int.cast_natCast, mul_assoc, this]

theorem Rep.edge_scale (h : Rep.OK g) (e : Fin nE) (a b : ℚ) :
    (inRate g (ratePeriod g) e : ℚ) * a = outRate g (ratePeriod g) e * b ↔
      ((g.prod e).sum : ℚ) * a * g.phases (g.tgt e) = (g.cons e).sum * b * g.phases (g.src e) := by
  obtain ⟨h1, h2⟩ := rate_scale h e
  have p1 : (0 : ℚ) < g.phases (g.src e) := by exact_mod_cast h.phases _
  have p2 : (0 : ℚ) < g.phases (g.tgt e) := by exact_mod_cast h.phases _
  have p3 : (0 : ℚ) < ratePeriod g := by exact_mod_cast (rp_facts h).1
  constructor
  · intro he
    apply mul_left_cancel₀ p3.ne'
    linear_combination (g.phases (g.src e) : ℚ) * g.phases (g.tgt e) * he - a * g.phases (g.tgt e) * h1 + b * g.phases (g.src e) * h2
  · intro he
    apply mul_left_cancel₀ p1.ne'
    apply mul_left_cancel₀ p2.ne'
    linear_combination (ratePeriod g : ℚ) * he + a * g.phases (g.tgt e) * h1 - b * g.phases (g.src e) * h2

theorem Rep.rate_pos (h : Rep.OK g) (e : Fin nE) :
    (0 < inRate g (ratePeriod g) e ↔ 0 < (g.prod e).sum) ∧ (0 < outRate g (ratePeriod g) e ↔ 0 < (g.cons e).sum) := by
  obtain ⟨h1, h2⟩ := rate_scale h e
  have p1 : (0 : ℚ) < g.phases (g.src e) := by exact_mod_cast h.phases _
  have p2 : (0 : ℚ) < g.phases (g.tgt e) := by exact_mod_cast h.phases _
  have p3 : (0 : ℚ) < ratePeriod g := by exact_mod_cast (rp_facts h).1
  constructor
  · constructor
    · intro hp
      have hq : (0 : ℚ) < inRate g (ratePeriod g) e := by exact_mod_cast hp
      have : (0 : ℚ) < (g.prod e).sum * ratePeriod g := by rw [← h1]; positivity
      exact_mod_cast pos_of_mul_pos_left this p3.le
    · intro hp
      have hq : (0 : ℚ) < (g.prod e).sum := by exact_mod_cast hp
      have : (0 : ℚ) < inRate g (ratePeriod g) e * g.phases (g.src e) := by rw [h1]; positivity
      exact_mod_cast pos_of_mul_pos_left this p1.le
  · constructor
    · intro hp
      have hq : (0 : ℚ) < outRate g (ratePeriod g) e := by exact_mod_cast hp
      have : (0 : ℚ) < (g.cons e).sum * ratePeriod g := by rw [← h2]; positivity
      exact_mod_cast pos_of_mul_pos_left this p3.le
    · intro hp
      have hq : (0 : ℚ) < (g.cons e).sum := by exact_mod_cast hp
      have : (0 : ℚ) < outRate g (ratePeriod g) e * g.phases (g.tgt e) := by rw [h2]; positivity
      exact_mod_cast pos_of_mul_pos_left this p2.le

/-- What the program returns. -/
theorem Rep.compute_cases (h : Rep.OK g) :
    (compute g = some none ∧ ¬ ∃ x, Sol g (ratePeriod g) x) ∨
    ∃ fr N, compute g = some (some N) ∧ Norm fr ∧ (∀ v, fr v ≠ zero) ∧ (∀ e, EdgeOK g (ratePeriod g) fr e) ∧
      calcRepetitionVector g fr (ratePeriod g) = some (some N) := by
  obtain ⟨i1, i2⟩ := rates_nonneg h (ratePeriod g)
  have hrp := (rp_facts h).1
  obtain ⟨b, fr, h1, h2, h3⟩ := roots_spec (g := g) (rp := ratePeriod g) i1 i2 (List.finRange nV) (fun _ => zero)
    (fun v => ⟨zero_lowest, by unfold zero; norm_num⟩) (fun v hv => absurd rfl hv)
  unfold compute
  simp only
  rw [if_neg hrp.ne', h1]
  cases b with
  | false =>
    left
    refine ⟨rfl, ?_⟩
    rintro ⟨x, hx⟩
    exact absurd (h3 x hx ⟨fun _ => 0, fun _ => rfl, fun v hv => absurd rfl hv⟩) (by simp)
  | true =>
    right
    obtain ⟨j1, -, j3, j4⟩ := h2 rfl
    have hz : ∀ v, fr v ≠ zero := fun v => j4 v (List.mem_finRange v)
    obtain ⟨N, hN, -⟩ := calc_spec (g := g) h.vertices hrp h.phases j1 hz
    exact ⟨fr, N, hN, j1, hz, fun e => j3 _ (hz _) e (.inl rfl), hN⟩

/-- **C12** When the program returns a vector, every entry is positive and every channel is balanced: production per
execution of the source times the number of executions equals the same product at the target (both sides multiplied by
the two numbers of phases). The number of executions of a task with a channel is a multiple of its number of phases. -/
theorem C12_balance_partial (h : Rep.OK g) {N : Fin nV → Int} (hN : compute g = some (some N)) :
    (∀ v, 0 < N v) ∧
    (∀ e, (g.prod e).sum * N (g.src e) * g.phases (g.tgt e) = (g.cons e).sum * N (g.tgt e) * g.phases (g.src e)) ∧
    ∀ v, (g.phases v = 1 ∨ ∃ e, g.src e = v ∨ g.tgt e = v) → (g.phases v : Int) ∣ N v := by
  rcases compute_cases h with ⟨hc, -⟩ | ⟨fr, N', hc, hn, hz, he, hcalc⟩
  · rw [hc] at hN; simp at hN
  rw [hN] at hc
  obtain rfl : N = N' := by simpa using hc
  obtain ⟨N', hN', r, sub, kap, k1, k2, k3, k4, k5, k6, k7, k8, k9⟩ := calc_spec (g := g) h.vertices (rp_facts h).1 h.phases hn hz
  rw [hN'] at hcalc
  obtain rfl : N' = N := by simpa using hcalc
  have hrp := (rp_facts h).1
  have hrpi : (0 : Int) < ratePeriod g := by exact_mod_cast hrp
  have hrpq : (0 : ℚ) < ratePeriod g := by exact_mod_cast hrp
  have hsq : (0 : ℚ) < sub := by exact_mod_cast k2
  refine ⟨?_, ?_, ?_⟩
  · intro v
    have : 0 < N' v * sub := by rw [k8]; exact mul_pos (k3 v) hrpi
    exact pos_of_mul_pos_left this k2.le
  · intro e
    have hq : ∀ v, (N' v : ℚ) = kap * Frac.val (fr v) * ratePeriod g / sub := by
      intro v
      rw [eq_div_iff hsq.ne', ← k9]
      exact_mod_cast k8 v
    have h1 := (edge_scale h e _ _).mp (he e).2.2.2.2
    have : ((g.prod e).sum : ℚ) * N' (g.src e) * g.phases (g.tgt e) = (g.cons e).sum * N' (g.tgt e) * g.phases (g.src e) := by
      rw [hq, hq]; field_simp; linear_combination h1
    exact_mod_cast this
  · intro v hv
    rcases hv with hv | ⟨e, hv⟩
    · rw [hv]; simp
    have hdvd : g.phases v ∣ ratePeriod g := by
      rcases hv with rfl | rfl
      · exact ((rp_facts h).2 e).1
      · exact ((rp_facts h).2 e).2
    have hd : (g.phases v : Int) ∣ r v * ratePeriod g := (Int.natCast_dvd_natCast.mpr hdvd).trans (dvd_mul_left _ _)
    have hs := k6 v
    obtain ⟨c, hc'⟩ := hd
    have hp : (g.phases v : Int) ≠ 0 := by exact_mod_cast (h.phases v).ne'
    rw [Int.tdiv_eq_of_eq_mul_right hp hc'] at hs
    obtain ⟨d, rfl⟩ := hs
    refine ⟨d, ?_⟩
    apply mul_right_cancel₀ k2.ne'
    rw [k8, hc']; ring

/-- **C12** in numbers of phase cycles, for graphs without isolated multi-phase task. -/
theorem C12_cycles_partial (h : Rep.OK g) (ha : Attached g) {N : Fin nV → Int} (hN : compute g = some (some N)) :
    ∃ q : Fin nV → Int, (∀ v, 0 < q v) ∧ (∀ v, N v = q v * g.phases v) ∧ Balanced g q := by
  obtain ⟨h1, h2, h3⟩ := C12_balance_partial h hN
  have hp : ∀ v, (0 : Int) < g.phases v := fun v => by exact_mod_cast h.phases v
  choose q hq using fun v => h3 v (ha v)
  refine ⟨q, ?_, fun v => by rw [hq]; ring, ?_⟩
  · intro v
    have := h1 v
    rw [hq v] at this
    exact pos_of_mul_pos_right this (hp v).le
  · intro e
    have := h2 e
    rw [hq, hq] at this
    apply mul_right_cancel₀ (mul_pos (hp (g.src e)) (hp (g.tgt e))).ne'
    linear_combination this

/-- A task with three phases and no channel is executed once per iteration, not a multiple of 3. -/
theorem C12_isolated_counterexample :
    let g : Rep.Graph 1 0 := ⟨Fin.elim0, Fin.elim0, Fin.elim0, Fin.elim0, ![3]⟩
    Rep.OK g ∧ ∃ N, compute g = some (some N) ∧ N 0 = 1 ∧ ¬ (3 : Int) ∣ N 0 := by
  refine ⟨by constructor <;> decide +kernel, _, rfl, by decide +kernel, by decide +kernel⟩

/-- **C13** The numbers of phase cycles returned have no common divisor, and on a connected graph every other positive
solution of the balance equations is a multiple of them. -/
theorem C13_minimal_partial (h : Rep.OK g) (ha : Attached g) {N : Fin nV → Int} (hN : compute g = some (some N))
    {q : Fin nV → Int} (hq : ∀ v, N v = q v * g.phases v) :
    (∀ d : Int, (∀ v, d ∣ q v) → d ∣ 1) ∧
    ((∀ a b, Relation.ReflTransGen (Rep.Adj g) a b) → ∀ q' : Fin nV → Int, (∀ v, 0 < q' v) → Balanced g q' →
      ∃ k : Int, 0 < k ∧ ∀ v, q' v = k * q v) := by
  obtain ⟨q2, hp, hq2, hbal⟩ := C12_cycles_partial h ha hN
  have hph : ∀ v, (0 : Int) < g.phases v := fun v => by exact_mod_cast h.phases v
  obtain rfl : q = q2 := by
    funext v
    apply mul_right_cancel₀ (hph v).ne'
    rw [← hq, ← hq2]
  have hcop : ∀ d : Int, (∀ v, d ∣ q v) → d ∣ 1 := by
    rcases compute_cases h with ⟨hc, -⟩ | ⟨fr, N', hc, hn, hz, he, hcalc⟩
    · rw [hc] at hN; simp at hN
    rw [hN] at hc
    obtain rfl : N = N' := by simpa using hc
    obtain ⟨N', hN', r, sub, kap, k1, k2, k3, k4, k5, k6, k7, k8, k9⟩ := calc_spec (g := g) h.vertices (rp_facts h).1 h.phases hn hz
    rw [hN'] at hcalc
    obtain rfl : N' = N := by simpa using hcalc
    intro d hd
    have e1 : ∀ v, r v * ratePeriod g = g.phases v * (q v * sub) := by
      intro v; rw [← k8, hq]; ring
    have hrd : ∀ v, d * sub ∣ r v * (ratePeriod g : Int) := by
      intro v
      rw [e1]
      exact (mul_dvd_mul_right (hd v) sub).trans (dvd_mul_left _ _)
    have hrp : d * sub ∣ (ratePeriod g : Int) := by
      have hrpi : (0 : Int) < ratePeriod g := by exact_mod_cast (rp_facts h).1
      obtain ⟨gd, hgd⟩ : ∃ x, x = (List.finRange nV).foldl (fun x v => (Int.gcd x (r v) : Int)) 0 := ⟨_, rfl⟩
      obtain ⟨g1, g2, g3, g4⟩ := foldl_gcd (fun v => r v * (ratePeriod g : Int)) (List.finRange nV) 0
      obtain ⟨t1, t2, t3, t4⟩ := foldl_gcd r (List.finRange nV) 0
      -- gcd of the products divides the rate period
      obtain ⟨G, hG⟩ : ∃ x, x = (List.finRange nV).foldl (fun x v => (Int.gcd x (r v * (ratePeriod g : Int)) : Int)) 0 := ⟨_, rfl⟩
      rw [← hG] at g2 g3
      have hdG := g3 (d * sub) (dvd_zero _) fun v _ => hrd v
      have hrpG := g3 (ratePeriod g) (dvd_zero _) fun v _ => dvd_mul_left _ _
      obtain ⟨m, hm⟩ := hrpG
      have : m ∣ 1 := by
        apply k4
        intro v
        have := g2 v (List.mem_finRange v)
        rw [hm, mul_comm (r v)] at this
        exact (mul_dvd_mul_iff_left hrpi.ne').mp this
      have hG' : G ∣ (ratePeriod g : Int) := by
        rw [hm]
        calc (ratePeriod g : Int) * m ∣ ratePeriod g * 1 := mul_dvd_mul_left _ this
          _ = ratePeriod g := mul_one _
      exact hdG.trans hG'
    have := k7 (d * sub) hrp (by
      intro v
      rw [Int.tdiv_eq_of_eq_mul_right (hph v).ne' (e1 v)]
      exact mul_dvd_mul_right (hd v) sub)
    have h2 : d * sub ∣ 1 * sub := by rw [one_mul]; exact this
    exact (mul_dvd_mul_iff_right k2.ne').mp h2
  refine ⟨hcop, ?_⟩
  intro hcon q' hp' hbal'
  have hpos : ∀ e, 0 < (g.prod e).sum ∧ 0 < (g.cons e).sum := by
    rcases compute_cases h with ⟨hc, -⟩ | ⟨fr, N', hc, hn, hz, he, hcalc⟩
    · rw [hc] at hN; simp at hN
    · exact fun e => ⟨(rate_pos h e).1.mp (he e).2.2.1, (rate_pos h e).2.mp (he e).2.2.2.1⟩
  -- the ratio q'/q is the same for all vertices
  have hedge : ∀ e, q' (g.src e) * q (g.tgt e) = q' (g.tgt e) * q (g.src e) := by
    intro e
    have h1 := hbal e
    have h2 := hbal' e
    apply mul_left_cancel₀ (hpos e).1.ne'
    apply mul_left_cancel₀ (hpos e).2.ne'
    linear_combination (g.cons e).sum * q (g.tgt e) * h2 - (g.cons e).sum * q' (g.tgt e) * h1
  have hratio : ∀ a b, q' a * q b = q' b * q a := by
    intro a b
    have := hcon a b
    induction this with
    | refl => ring
    | tail _ hbc ih =>
      rename_i b c _
      obtain ⟨e, ⟨h1, h2⟩ | ⟨h1, h2⟩⟩ := hbc
      · have := hedge e
        rw [h1, h2] at this
        apply mul_right_cancel₀ (hp b).ne'
        linear_combination q c * ih + q a * this
      · have := hedge e
        rw [h1, h2] at this
        apply mul_right_cancel₀ (hp b).ne'
        linear_combination q c * ih - q a * this
  obtain ⟨v0⟩ : Nonempty (Fin nV) := ⟨⟨0, h.vertices⟩⟩
  have hdvd : q v0 ∣ q' v0 := by
    obtain ⟨t1, t2, t3, t4⟩ := foldl_gcd (fun v => q' v0 * q v) (List.finRange nV) 0
    obtain ⟨G, hG⟩ : ∃ x, x = (List.finRange nV).foldl (fun x v => (Int.gcd x (q' v0 * q v) : Int)) 0 := ⟨_, rfl⟩
    rw [← hG] at t2 t3
    have h1 := t3 (q v0) (dvd_zero _) fun v _ => by rw [hratio v0 v]; exact dvd_mul_left _ _
    have h2 := t3 (q' v0) (dvd_zero _) fun v _ => dvd_mul_right _ _
    obtain ⟨m, hm⟩ := h2
    have : m ∣ 1 := by
      apply hcop
      intro v
      have := t2 v (List.mem_finRange v)
      rw [hm] at this
      exact (mul_dvd_mul_iff_left (hp' v0).ne').mp this
    refine h1.trans ?_
    rw [hm]
    calc q' v0 * m ∣ q' v0 * 1 := mul_dvd_mul_left _ this
      _ = q' v0 := mul_one _
  obtain ⟨k, hk⟩ := hdvd
  refine ⟨k, ?_, ?_⟩
  · have := hp' v0
    rw [hk] at this
    exact pos_of_mul_pos_right this (hp v0).le
  · intro v
    have := hratio v v0
    rw [hk] at this
    apply mul_right_cancel₀ (hp v0).ne'
    linear_combination this

/-- With an isolated task of five phases the rest of the graph gets twice the smallest vector. -/
theorem C13_isolated_counterexample :
    let g : Rep.Graph 3 1 := ⟨![0], ![1], ![[1, 2]], ![[2]], ![2, 1, 5]⟩
    Rep.OK g ∧ ∃ N, compute g = some (some N) ∧ N 0 = 8 ∧ N 1 = 6 ∧ Balanced g ![2, 3, 1] := by
  refine ⟨by constructor <;> decide +kernel, _, rfl, by decide +kernel, by decide +kernel, ?_⟩
  unfold Balanced; decide +kernel

/-- **C14** The computation always ends without failure, and it returns true exactly when all channels carry tokens in
both directions of the balance and the balance equations have a positive solution. -/
theorem C14_consistent_iff (h : Rep.OK g) :
    (∃ r, compute g = some r) ∧
    ((∃ N, compute g = some (some N)) ↔
      (∀ e, 0 < (g.prod e).sum ∧ 0 < (g.cons e).sum) ∧ ∃ q : Fin nV → Int, (∀ v, 0 < q v) ∧ Balanced g q) := by
  have hph : ∀ v, (0 : Int) < g.phases v := fun v => by exact_mod_cast h.phases v
  have hphq : ∀ v, (0 : ℚ) < g.phases v := fun v => by exact_mod_cast h.phases v
  rcases compute_cases h with ⟨hc, hno⟩ | ⟨fr, N, hc, hn, hz, he, hcalc⟩
  · refine ⟨⟨_, hc⟩, ?_⟩
    constructor
    · rintro ⟨N, hN⟩; rw [hc] at hN; simp at hN
    · rintro ⟨hp, q, hq, hb⟩
      exfalso
      apply hno
      refine ⟨fun v => q v * g.phases v, ?_, ?_⟩
      · intro v; exact mul_pos (by exact_mod_cast hq v) (hphq v)
      · intro e
        refine ⟨(rate_pos h e).1.mpr (hp e).1, (rate_pos h e).2.mpr (hp e).2, (edge_scale h e _ _).mpr ?_⟩
        have : ((g.prod e).sum : ℚ) * q (g.src e) = (g.cons e).sum * q (g.tgt e) := by exact_mod_cast hb e
        linear_combination (g.phases (g.src e) : ℚ) * g.phases (g.tgt e) * this
  · refine ⟨⟨_, hc⟩, ⟨fun _ => ?_, fun _ => ⟨N, hc⟩⟩⟩
    refine ⟨fun e => ⟨(rate_pos h e).1.mp (he e).2.2.1, (rate_pos h e).2.mp (he e).2.2.2.1⟩, ?_⟩
    obtain ⟨h1, h2, -⟩ := C12_balance_partial h hc
    -- scale by the product of all numbers of phases
    obtain ⟨M, hM⟩ : ∃ M : Int, M = (List.finRange nV).foldl (fun x v => (Int.lcm x (g.phases v : Int) : Int)) 1 := ⟨_, rfl⟩
    obtain ⟨l1, l2, l3, l4⟩ := foldl_lcm (fun v => (g.phases v : Int)) (List.finRange nV) 1
    rw [← hM] at l1 l2 l3 l4
    have hMpos : 0 < M := by
      have a := l3 (by norm_num) fun v _ => (hph v).ne'
      have b := l4 (by norm_num)
      omega
    choose c hc' using fun v => l2 v (List.mem_finRange v)
    have hcp : ∀ v, 0 < c v := by
      intro v
      have := hMpos
      rw [hc' v] at this
      exact pos_of_mul_pos_right this (hph v).le
    refine ⟨fun v => N v * c v, fun v => mul_pos (h1 v) (hcp v), ?_⟩
    intro e
    have := h2 e
    apply mul_right_cancel₀ (mul_pos (hph (g.src e)) (hph (g.tgt e))).ne'
    have e1 := hc' (g.src e)
    have e2 := hc' (g.tgt e)
    linear_combination M * this - (g.prod e).sum * N (g.src e) * g.phases (g.tgt e) * e1 + (g.cons e).sum * N (g.tgt e) * g.phases (g.src e) * e2

/-- A graph meeting all hypotheses: three tasks in a cycle, one with two phases. -/
def Rep.exGraph : Rep.Graph 3 4 :=
  ⟨![0, 1, 2, 0], ![1, 2, 0, 0], ![[1, 2], [4], [2], [1, 1]], ![[2], [3], [2, 2], [0, 2]], ![2, 1, 1]⟩

example : Rep.OK exGraph := by constructor <;> decide +kernel
example : Attached exGraph := by unfold Attached; decide +kernel
example : ∃ N, compute exGraph = some (some N) ∧ N = ![4, 3, 4] ∧ Balanced exGraph ![2, 3, 4] := by
  refine ⟨_, rfl, ?_⟩
  unfold Balanced
  decide +kernel
example : ∀ a b, Relation.ReflTransGen (Rep.Adj exGraph) a b := by
  have h01 : Rep.Adj exGraph 0 1 := ⟨0, .inl ⟨rfl, rfl⟩⟩
  have h12 : Rep.Adj exGraph 1 2 := ⟨1, .inl ⟨rfl, rfl⟩⟩
  have h20 : Rep.Adj exGraph 2 0 := ⟨2, .inl ⟨rfl, rfl⟩⟩
  have a0 : ∀ b, Relation.ReflTransGen (Rep.Adj exGraph) 0 b := by
    intro b
    match b with
    | 0 => exact .refl
    | 1 => exact .single h01
    | 2 => exact (Relation.ReflTransGen.single h01).tail h12
  intro a b
  match a with
  | 0 => exact a0 b
  | 1 => exact ((Relation.ReflTransGen.single h12).tail h20).trans (a0 b)
  | 2 => exact (Relation.ReflTransGen.single h20).trans (a0 b)
/-- An inconsistent graph is rejected. -/
example : compute (⟨![0, 1], ![1, 0], ![[1], [1]], ![[1], [2]], ![1, 1]⟩ : Rep.Graph 2 2) = some none := by rfl

end Kiter
