/-
C96: the sizes given by the command BackPressureSizing.
-/
import Verif.Model.BackPressure
import Verif.Spec.Buffers
import Verif.Props.Untimed
import Verif.Lemmas.PeriodicCapacity
import Verif.Lemmas.Optimality
import Mathlib.Tactic.FieldSimp

set_option autoImplicit false

namespace Kiter
namespace BackPressure

/-- Strictly periodic executions: the consumer that starts late enough never lacks tokens. -/
theorem strict_neverShort {p c M : Int} (hp : 0 < p) (hc : 0 < c) (hM : 0 ≤ M) {E T m n : ℚ} (hm : 0 < m)
    (hmn : n * p = m * c) (h : p * E + (c - 1 - M) * m ≤ p * T) :
    NeverShort (fun _ => p) (fun _ => c) M (fun k => E + k * m) (fun k => T + k * n) := by
  intro x C hC
  simp only [Finset.sum_const, nsmul_eq_mul]
  rcases C.eq_empty_or_nonempty with rfl | hne
  · exact ⟨∅, by simp, by simpa using hM⟩
  · have hL := hC _ (C.max'_mem hne)
    have hcard : (C.card : Int) ≤ C.max' hne + 1 := by
      have : C ⊆ Finset.range (C.max' hne + 1) := fun l hl => Finset.mem_range.2 (Nat.lt_succ_of_le (C.le_max' l hl))
      have := Finset.card_le_card this
      rw [Finset.card_range] at this
      exact_mod_cast this
    generalize C.max' hne = L at hL hcard
    set D : Int := (L + 1) * c - M with hD
    -- the executions needed
    have h1 := Int.mul_ediv_add_emod (D + p - 1) p
    have h2 := Int.emod_nonneg (D + p - 1) hp.ne'
    have h3 := Int.emod_lt_of_pos (D + p - 1) hp
    refine ⟨Finset.range ((D + p - 1) / p).toNat, fun k hk => ?_, ?_⟩
    · have hk' : (k : Int) + 1 ≤ (D + p - 1) / p := by have := Finset.mem_range.1 hk; omega
      have h4 : p * ((k : Int) + 1) ≤ p * ((D + p - 1) / p) := mul_le_mul_of_nonneg_left hk' hp.le
      have h5 : p * (k : Int) ≤ D - 1 := by linarith
      have h6 : (p : ℚ) * k ≤ (L + 1) * c - M - 1 := by rw [hD] at h5; exact_mod_cast h5
      have h7 := mul_le_mul_of_nonneg_right h6 hm.le
      have hpq : (0 : ℚ) < p := by exact_mod_cast hp
      have h8 : (p : ℚ) * (E + k * m) ≤ p * (T + L * n) := by
        have : (L : ℚ) * (n * p) = L * (m * c) := by rw [hmn]
        linarith
      exact (le_of_mul_le_mul_left h8 hpq).trans hL
    · rw [Finset.card_range]
      have h4 : (C.card : Int) * c ≤ (L + 1) * c := mul_le_mul_of_nonneg_right hcard hc.le
      have h5 : D ≤ p * (((D + p - 1) / p).toNat : Int) := by
        have : (D + p - 1) / p ≤ (((D + p - 1) / p).toNat : Int) := Int.self_le_toNat _
        have := mul_le_mul_of_nonneg_left this hp.le
        linarith
      linarith

theorem le_ceilTo (v : ℚ) {c : Int} (hc : 0 < c) : v ≤ ceilTo v c := by
  unfold ceilTo
  have hc' : (0 : ℚ) < c := by exact_mod_cast hc
  push_cast
  have := Int.le_ceil (v / c)
  calc v = v / c * c := by field_simp
    _ ≤ _ := mul_le_mul_of_nonneg_right this hc'.le

theorem floorTo_le (v : Int) {c : Int} (hc : 0 < c) : floorTo v c ≤ v := by
  unfold floorTo
  have hc' : (0 : ℚ) < c := by exact_mod_cast hc
  have h1 := Int.floor_le ((v : ℚ) / c)
  have h2 := mul_le_mul_of_nonneg_right h1 hc'.le
  rw [div_mul_cancel₀ _ hc'.ne'] at h2
  exact_mod_cast h2

section
variable {B : BaseGraph} (hB : BaseOK B) (h1 : ∀ t ∈ B.tasks, t.durations.length = 1) {period : ℚ}
include hB h1

theorem single_rates {c : BChannel} (hc : c ∈ B.channels) : ∃ p q : Int, c.1.inPhases = [p] ∧ c.1.outPhases = [q] ∧ 0 < p ∧ 0 < q := by
  obtain ⟨m1, m2, hok⟩ := hB.channels c hc
  obtain ⟨p, hp⟩ := List.length_eq_one_iff.1 (show c.1.inPhases.length = 1 by rw [← hok.srcPhases, h1 _ m1])
  obtain ⟨q, hq⟩ := List.length_eq_one_iff.1 (show c.1.outPhases.length = 1 by rw [← hok.dstPhases, h1 _ m2])
  have := hok.inPos
  have := hok.outPos
  exact ⟨p, q, hp, hq, by simpa [hp] using hok.inPos, by simpa [hq] using hok.outPos⟩

/-- What the steps compute for tasks with one phase. -/
theorem single_steps {c : BChannel} (hc : c ∈ B.channels) {s : Int → ℚ} {p q : Int} (hp : c.1.inPhases = [p]) (hq : c.1.outPhases = [q])
    (hp0 : 0 < p) (hq0 : 0 < q) :
    betaIJ B period c = some ((q - (1 - alpha period c * c.2.1.dur 0)) / alpha period c - floorTo c.1.preload c.1.fineGCD) ∧
    size B period s c = some (ceilTo (-(1 - alpha period c * (s c.2.2.id + c.2.2.dur 0) - (p - alpha period c * s c.2.1.id)))
      c.1.fineGCD) := by
  obtain ⟨m1, m2, hok⟩ := hB.channels c hc
  have gp : ((Int.gcd p q : ℕ) : Int) ≤ p := Int.le_of_dvd hp0 (Int.gcd_dvd_left ..)
  have gq : ((Int.gcd q p : ℕ) : Int) ≤ q := Int.le_of_dvd hq0 (Int.gcd_dvd_left ..)
  obtain ⟨d1, e1⟩ := List.length_eq_one_iff.1 (h1 _ m1)
  obtain ⟨d2, e2⟩ := List.length_eq_one_iff.1 (h1 _ m2)
  have a1 : c.2.1.dur 0 = d1 := by simp [KTask.dur, e1]
  have a2 : c.2.2.dur 0 = d2 := by simp [KTask.dur, e2]
  have b1 : betaProd period c = some (1 - alpha period c * d1) := by
    simp [betaProd, hp, hq, cumul, lambdaProd, gp, burst, dur, e1, ceilTo]
  have b2 : betaCons B period c = some (q : ℚ) := by
    simp [betaCons, best, hp, hq, cumul, lambdaCons, gq, phaseStart, e2]
  have b3 : feedbackProd B period s c = some (1 - alpha period c * (s c.2.2.id + d2)) := by
    simp [feedbackProd, best, hp, hq, cumul, lambdaCons, gq, phaseEnd, dur, e2]
  have b4 : feedbackCons B period s c = some (p - alpha period c * s c.2.1.id) := by
    simp [feedbackCons, best, hp, hq, cumul, lambdaProd, gp, phaseStart, e1]
  constructor
  · unfold betaIJ
    rw [b1, b2, a1]
    rfl
  · unfold size
    rw [b3, b4, a2]
    rfl

end
end BackPressure

open BackPressure

section
variable {B : BaseGraph}

/-- Tasks with one phase, no slower than the period asks for: from a solution of the linear program, the sizes computed, increased
by the initial tokens, suffice for a schedule of the period asked for. Initial tokens are counted as units of time: channels that
hold some must not carry more than a token per unit of time. -/
theorem C96_sizes_partial (hB : BaseOK B) (h1 : ∀ t ∈ B.tasks, t.durations.length = 1) {period : ℚ} (h0 : 0 < period)
    (hslow : ∀ t ∈ B.tasks, t.ni * t.dur 0 ≤ period) (htok : ∀ c ∈ B.channels, c.1.preload = 0 ∨ c.1.inPhases.sum * c.2.1.ni ≤ period)
    {s : Int → ℚ} (hs : Solution B period s) : ∃ w : Fin B.channels.length → Int,
      (∀ i, size B period s B.channels[i] = some (w i)) ∧ ∃ σ, Sustains B σ period ∧
        BoundedSchedule B (fun i => max (w i) 0 + B.channels[i].1.preload) σ := by
  have key : ∀ c ∈ B.channels, ∃ w, size B period s c = some w ∧
      NeverShort (rate c.1.inPhases) (rate c.1.outPhases) c.1.preload
        (fun k => (s c.2.1.id + c.2.1.dur 0) + k * (period / c.2.1.ni)) (fun k => s c.2.2.id + k * (period / c.2.2.ni)) ∧
      NeverShort (rate c.1.outPhases) (rate c.1.inPhases) (max w 0)
        (fun k => (s c.2.2.id + c.2.2.dur 0) + k * (period / c.2.2.ni)) (fun k => s c.2.1.id + k * (period / c.2.1.ni)) := by
    intro c hc
    obtain ⟨m1, m2, hok⟩ := hB.channels c hc
    obtain ⟨p, q, hp, hq, hp0, hq0⟩ := single_rates hB h1 hc
    obtain ⟨k1, k2⟩ := single_steps hB h1 (period := period) hc (s := s) hp hq hp0 hq0
    have n1 : (0 : ℚ) < c.2.1.ni := by exact_mod_cast (hB.tasks _ m1).ni
    have n2 : (0 : ℚ) < c.2.2.ni := by exact_mod_cast (hB.tasks _ m2).ni
    have p0 : (0 : ℚ) < p := by exact_mod_cast hp0
    have q0 : (0 : ℚ) < q := by exact_mod_cast hq0
    have hb := hok.balance
    rw [h1 _ m1, h1 _ m2, hp, hq] at hb
    have hbq : (p : ℚ) * c.2.1.ni = q * c.2.2.ni := by
      have : p * c.2.1.ni = q * c.2.2.ni := by simpa using hb
      exact_mod_cast this
    have halpha : alpha period c = p * c.2.1.ni / period := by
      unfold alpha mu
      rw [hp, h1 _ m1]
      simp only [List.sum_cons, List.sum_nil, add_zero, Nat.cast_one, mul_one]
      field_simp
    have ha0 : 0 < alpha period c := by rw [halpha]; positivity
    have r1 : rate c.1.inPhases = fun _ => p := by funext k; rw [hp]; simp [rate, Nat.mod_one]
    have r2 : rate c.1.outPhases = fun _ => q := by funext k; rw [hq]; simp [rate, Nat.mod_one]
    have hmn : period / c.2.2.ni * p = period / c.2.1.ni * q := by
      field_simp
      linear_combination hbq
    have ham : alpha period c * (period / c.2.1.ni) = p := by rw [halpha]; field_simp
    have ham2 : alpha period c * (period / c.2.2.ni) = q := by
      rw [halpha]
      field_simp
      linear_combination hbq
    refine ⟨_, k2, ?_, ?_⟩
    · rw [r1, r2]
      refine strict_neverShort hp0 hq0 hok.preload (by positivity) hmn ?_
      obtain ⟨b, hb1, hb2⟩ := hs.2 c hc
      rw [k1] at hb1
      obtain rfl := Option.some.inj hb1
      have hself : (if c.2.1.id = c.2.2.id then (0 : ℚ) else s c.2.1.id - s c.2.2.id) = s c.2.1.id - s c.2.2.id := by
        split
        · rename_i h; rw [h]; ring
        · rfl
      rw [hself] at hb2
      have hfl : (floorTo c.1.preload c.1.fineGCD : ℚ) * alpha period c ≤ c.1.preload := by
        have f1 := floorTo_le c.1.preload hok.gcdPos
        have f2 : (floorTo c.1.preload c.1.fineGCD : ℚ) ≤ c.1.preload := by exact_mod_cast f1
        rcases htok c hc with h | h
        · rw [h] at f2 ⊢
          have : (floorTo 0 c.1.fineGCD : ℚ) = 0 := by simp [floorTo]
          rw [this]
          simp
        · have ha1 : alpha period c ≤ 1 := by
            rw [halpha, div_le_one h0]
            rw [hp] at h
            simpa using h
          have f3 : (floorTo c.1.preload c.1.fineGCD : ℚ) * alpha period c ≤ c.1.preload * alpha period c :=
            mul_le_mul_of_nonneg_right f2 ha0.le
          have f4 : (c.1.preload : ℚ) * alpha period c ≤ c.1.preload * 1 :=
            mul_le_mul_of_nonneg_left ha1 (by exact_mod_cast hok.preload)
          linarith
      -- multiply the row by `alpha`
      have h5 : alpha period c * (s c.2.1.id - s c.2.2.id) ≤ -(q - (1 - alpha period c * c.2.1.dur 0)) + c.1.preload := by
        have := mul_le_mul_of_nonneg_left hb2 ha0.le
        have e : alpha period c * -((q - (1 - alpha period c * c.2.1.dur 0)) / alpha period c - floorTo c.1.preload c.1.fineGCD) =
            -(q - (1 - alpha period c * c.2.1.dur 0)) + floorTo c.1.preload c.1.fineGCD * alpha period c := by
          field_simp
          ring
        rw [e] at this
        linarith
      have h6 := mul_le_mul_of_nonneg_right h5 (show (0 : ℚ) ≤ period / c.2.1.ni by positivity)
      have e7 : ∀ x : ℚ, alpha period c * x * (period / c.2.1.ni) = p * x := by intro x; rw [mul_right_comm, ham]
      rw [e7] at h6
      have e8 : (-((q : ℚ) - (1 - alpha period c * c.2.1.dur 0)) + c.1.preload) * (period / c.2.1.ni) =
          -((q - 1 - c.1.preload) * (period / c.2.1.ni)) - p * c.2.1.dur 0 := by
        rw [← e7 (c.2.1.dur 0)]; ring
      rw [e8] at h6
      linarith
    · rw [r1, r2]
      set w := ceilTo (-(1 - alpha period c * (s c.2.2.id + c.2.2.dur 0) - (p - alpha period c * s c.2.1.id))) c.1.fineGCD with hw
      refine strict_neverShort hq0 hp0 (le_max_right _ _) (by positivity) hmn.symm ?_
      have h5 := le_ceilTo (-(1 - alpha period c * (s c.2.2.id + c.2.2.dur 0) - (p - alpha period c * s c.2.1.id))) hok.gcdPos
      rw [← hw] at h5
      have h6 : (w : ℚ) ≤ (max w 0 : Int) := by exact_mod_cast le_max_left w 0
      have h7 := mul_le_mul_of_nonneg_right (h5.trans h6) (show (0 : ℚ) ≤ period / c.2.2.ni by positivity)
      have e7 : ∀ x : ℚ, alpha period c * x * (period / c.2.2.ni) = q * x := by intro x; rw [mul_right_comm, ham2]
      have e8 : -(1 - alpha period c * (s c.2.2.id + c.2.2.dur 0) - ((p : ℚ) - alpha period c * s c.2.1.id)) * (period / c.2.2.ni) =
          (p - 1) * (period / c.2.2.ni) + q * (s c.2.2.id + c.2.2.dur 0) - q * s c.2.1.id := by
        rw [← e7 (s c.2.2.id + c.2.2.dur 0), ← e7 (s c.2.1.id)]; ring
      rw [e8] at h7
      linarith
  choose! w hw hsup hroom using key
  have hfind : ∀ t ∈ B.tasks, (B.tasks.find? fun u => u.id = t.id) = some t := by
    intro t ht
    cases hf : B.tasks.find? fun u => decide (u.id = t.id) with
    | none => exact absurd (List.find?_eq_none.1 hf t ht) (by simp)
    | some u => rw [hB.ids u (List.mem_of_find?_eq_some hf) t ht (by simpa using List.find?_some hf)]
  have hsig : ∀ t ∈ B.tasks, (((B.tasks.find? fun u => u.id = t.id).map fun u => period / u.ni).getD 0) = period / t.ni := by
    intro t ht
    rw [hfind t ht]
    rfl
  have hdur : ∀ t ∈ B.tasks, ∀ k, t.dur k = t.dur 0 := by
    intro t ht k
    simp [KTask.dur, h1 t ht, Nat.mod_one]
  refine ⟨fun i => w B.channels[i], fun i => hw _ (List.getElem_mem _), fun i k => s i +
    k * (((B.tasks.find? fun t => t.id = i).map fun t => period / t.ni).getD 0), fun t ht => ⟨s t.id, fun k => ?_⟩, ⟨⟨?_, ?_, ?_⟩, ?_⟩⟩
  · dsimp only
    rw [hsig t ht]
    exact le_of_eq (by ring)
  · intro t ht k
    rw [hsig t ht]
    have := hs.1 t ht
    have : (0 : ℚ) < t.ni := by exact_mod_cast (hB.tasks t ht).ni
    positivity
  · intro t ht k
    rw [hsig t ht, hdur t ht]
    have hn : (0 : ℚ) < t.ni := by exact_mod_cast (hB.tasks t ht).ni
    have : t.dur 0 ≤ period / t.ni := by
      rw [le_div_iff₀ hn]
      linarith [hslow t ht]
    push_cast
    linarith
  · intro c hc
    obtain ⟨m1, m2, -⟩ := hB.channels c hc
    have := hsup c hc
    convert this using 2
    · rename_i k
      rw [hsig _ m1, hdur _ m1]
      ring
    · rw [hsig _ m2]
  · intro i
    have hc : B.channels[i] ∈ B.channels := List.getElem_mem _
    obtain ⟨m1, m2, -⟩ := hB.channels _ hc
    have := hroom _ hc
    convert this using 2
    · dsimp only
      ring
    · rename_i k
      rw [hsig _ m2, hdur _ m2]
      ring
    · rw [hsig _ m1]

/-- Without initial tokens: the sizes suffice, and the total printed is their sum, with 2 for each task. -/
theorem C96_no_tokens (hB : BaseOK B) (h1 : ∀ t ∈ B.tasks, t.durations.length = 1) {period : ℚ} (h0 : 0 < period)
    (hslow : ∀ t ∈ B.tasks, t.ni * t.dur 0 ≤ period) (htok : ∀ c ∈ B.channels, c.1.preload = 0)
    {s : Int → ℚ} (hs : Solution B period s) : ∃ w : Fin B.channels.length → Int,
      (∀ i, size B period s B.channels[i] = some (w i)) ∧ total B period s = some (∑ i, w i + 2 * B.tasks.length) ∧
      ∃ σ, Sustains B σ period ∧ BoundedSchedule B w σ := by
  obtain ⟨w, hw, σ, h2, h3⟩ := C96_sizes_partial hB h1 h0 hslow (fun c hc => Or.inl (htok c hc)) hs
  have hpos : ∀ i, 0 ≤ w i := by
    intro i
    have hc : B.channels[i] ∈ B.channels := List.getElem_mem _
    obtain ⟨m1, m2, hok⟩ := hB.channels _ hc
    obtain ⟨p, q, hp, hq, hp0, hq0⟩ := single_rates hB h1 hc
    obtain ⟨k1, k2⟩ := single_steps hB h1 (period := period) hc (s := s) hp hq hp0 hq0
    have e := hw i
    rw [k2] at e
    obtain ⟨b, hb1, hb2⟩ := hs.2 _ hc
    rw [k1] at hb1
    have n1 : (0 : ℚ) < B.channels[i].2.1.ni := by exact_mod_cast (hB.tasks _ m1).ni
    have p1 : (1 : ℚ) ≤ p := by exact_mod_cast hp0
    have q1 : (1 : ℚ) ≤ q := by exact_mod_cast hq0
    have ha0 : 0 < alpha period B.channels[i] := by
      unfold alpha mu
      rw [hp, h1 _ m1]
      simp only [List.sum_cons, List.sum_nil, add_zero, Nat.cast_one, mul_one]
      positivity
    have hd : ∀ t ∈ B.tasks, 0 ≤ t.dur 0 := by
      intro t ht
      unfold KTask.dur
      obtain ⟨d, e⟩ := List.length_eq_one_iff.1 (h1 t ht)
      rw [e]
      exact (hB.tasks t ht).durNonneg d (by rw [e]; simp)
    have hself : (if B.channels[i].2.1.id = B.channels[i].2.2.id then (0 : ℚ) else
        s B.channels[i].2.1.id - s B.channels[i].2.2.id) = s B.channels[i].2.1.id - s B.channels[i].2.2.id := by
      split
      · rename_i h; rw [h]; ring
      · rfl
    rw [hself, ← Option.some.inj hb1, htok _ hc] at hb2
    have hfl : (floorTo 0 B.channels[i].1.fineGCD : ℚ) = 0 := by simp [floorTo]
    rw [hfl] at hb2
    have h5 := mul_le_mul_of_nonneg_left hb2 ha0.le
    rw [sub_zero, mul_neg, mul_div_cancel₀ _ ha0.ne'] at h5
    have h6 := mul_nonneg ha0.le (hd _ m1)
    have h7 := mul_nonneg ha0.le (hd _ m2)
    have h8 : 0 ≤ -(1 - alpha period B.channels[i] * (s B.channels[i].2.2.id + B.channels[i].2.2.dur 0) -
        (p - alpha period B.channels[i] * s B.channels[i].2.1.id)) := by
      linarith
    rw [← Option.some.inj e]
    unfold ceilTo
    have g0 : (0 : ℚ) < B.channels[i].1.fineGCD := by exact_mod_cast hok.gcdPos
    exact mul_nonneg (Int.ceil_nonneg (by positivity)) hok.gcdPos.le
  refine ⟨w, hw, ?_, σ, h2, ?_⟩
  · unfold total
    have : B.channels.mapM (size B period s) = some (List.ofFn w) := by
      have key : ∀ (l : List BChannel) (v : Fin l.length → Int), (∀ i, size B period s l[i] = some (v i)) →
          l.mapM (size B period s) = some (List.ofFn v) := by
        intro l
        induction l with
        | nil => intro v _; simp
        | cons a l ih =>
          intro v hv
          rw [List.mapM_cons, ih (fun i => v i.succ) fun i => hv i.succ, show size B period s a = some (v 0) from hv 0]
          simp [List.ofFn_succ]
      exact key _ _ hw
    rw [this, Option.map_some, List.sum_ofFn]
  · have : (fun i => max (w i) 0 + B.channels[i].1.preload) = w := by
      funext i
      have := htok B.channels[i] (List.getElem_mem _)
      rw [this, max_eq_left (hpos i), add_zero]
    rwa [this] at h3

/-- A graph without circuits: the linear program has a solution, whatever the period and the tokens. -/
theorem C96_feasible (hB : BaseOK B) (h1 : ∀ t ∈ B.tasks, t.durations.length = 1) (period : ℚ)
    {r : Int → ℕ} (hr : ∀ c ∈ B.channels, r c.2.1.id < r c.2.2.id) : ∃ s, Solution B period s := by
  have hb : ∀ c ∈ B.channels, ∃ b, betaIJ B period c = some b := by
    intro c hc
    obtain ⟨p, q, hp, hq, hp0, hq0⟩ := single_rates hB h1 hc
    exact ⟨_, (single_steps hB h1 (period := period) hc (s := fun _ => 0) hp hq hp0 hq0).1⟩
  choose! b hb using hb
  obtain ⟨M, hM0, hM⟩ : ∃ M : ℚ, 0 ≤ M ∧ ∀ c ∈ B.channels, b c ≤ M := by
    generalize B.channels = l
    induction l with
    | nil => exact ⟨0, le_refl _, by simp⟩
    | cons a l ih =>
      obtain ⟨M, h0, h⟩ := ih
      refine ⟨max (b a) M, h0.trans (le_max_right ..), fun c hc => ?_⟩
      rcases List.mem_cons.1 hc with rfl | hc
      · exact le_max_left ..
      · exact (h c hc).trans (le_max_right ..)
  refine ⟨fun i => r i * M, fun t _ => by positivity, fun c hc => ⟨b c, hb c hc, ?_⟩⟩
  have h2 := hr c hc
  rw [if_neg fun h => by rw [h] at h2; exact lt_irrefl _ h2]
  have h3 : ((r c.2.1.id : ℚ) + 1) * M ≤ r c.2.2.id * M := mul_le_mul_of_nonneg_right (by exact_mod_cast h2) hM0
  have := hM c hc
  dsimp only
  linarith

end

namespace BackPressureExample

theorem pair_ok {X Y : KTask} {c : KChannel} (hX : TaskOK X 1) (hY : TaskOK Y 1) (mX : (X.durations.length : Int) ∣ X.ni)
    (mY : (Y.durations.length : Int) ∣ Y.ni) (hid : X.id ≠ Y.id) (hc : ChannelOK c X Y) : BaseOK ⟨[X, Y], [(c, X, Y)]⟩ := by
  constructor
  · simp [hid, hid.symm]
  · intro t ht; simp only [List.mem_cons, List.not_mem_nil, or_false] at ht
    rcases ht with rfl | rfl
    · exact hX
    · exact hY
  · simp [mX, mY]
  · intro c hc; simp only [List.mem_cons, List.not_mem_nil, or_false] at hc
    rcases hc with rfl
    exact ⟨by simp, by simp, hc⟩
  · simp

/-- The first task produces 2 tokens in 1 unit of time, the second takes 3 in 2. -/
def X : KTask := ⟨1, [1], [], 1, 3⟩
def Y : KTask := ⟨2, [2], [], 1, 2⟩
def G : BaseGraph := ⟨[X, Y], [(⟨1, [2], [3], [], [], 0, 1⟩, X, Y)]⟩
theorem G_ok : BaseOK G :=
  pair_ok ⟨by decide, rfl, by decide, by decide, by decide, by decide⟩ ⟨by decide, rfl, by decide, by decide, by decide, by decide⟩
    (by decide) (by decide) (by decide)
    ⟨rfl, rfl, rfl, rfl, by decide, by decide, by decide, by decide, by decide, by decide, by decide, by decide, by decide⟩

def sG (i : Int) : ℚ := if i = 2 then 3 else 0

/-- The hypotheses of the theorems hold of a period of 6: the size is 6. -/
example : BaseOK G ∧ (∀ t ∈ G.tasks, t.durations.length = 1) ∧ (∀ t ∈ G.tasks, t.ni * t.dur 0 ≤ (6 : ℚ)) ∧
    (∀ c ∈ G.channels, c.1.preload = 0) ∧ (∀ c ∈ G.channels, (fun i => if i = 2 then 1 else 0 : Int → ℕ) c.2.1.id <
      (fun i => if i = 2 then 1 else 0 : Int → ℕ) c.2.2.id) ∧ Solution G 6 sG ∧ total G 6 sG = some 10 := by
  refine ⟨G_ok, by decide, by decide +kernel, by decide, by decide, ⟨?_, ?_⟩, by decide +kernel⟩
  · intro t ht
    unfold sG
    split <;> norm_num
  · intro c hc
    have hc' : c = (⟨1, [2], [3], [], [], 0, 1⟩, X, Y) := by simpa [G] using hc
    subst hc'
    exact ⟨3, by decide +kernel, by decide +kernel⟩

/-- Ten tokens in a channel: the size computed is 1, no schedule respects it. -/
def U : KTask := ⟨1, [1], [], 1, 1⟩
def V : KTask := ⟨2, [1], [], 1, 1⟩
def full : KChannel := ⟨1, [1], [1], [], [], 10, 1⟩
def F : BaseGraph := ⟨[U, V], [(full, U, V)]⟩
theorem F_ok : BaseOK F :=
  pair_ok ⟨by decide, rfl, by decide, by decide, by decide, by decide⟩ ⟨by decide, rfl, by decide, by decide, by decide, by decide⟩
    (by decide) (by decide) (by decide)
    ⟨rfl, rfl, rfl, rfl, by decide, by decide, by decide, by decide, by decide, by decide, by decide, by decide, by decide⟩

theorem C96_tokens_ignored : Solution F 1 (fun _ => 0) ∧ size F 1 (fun _ => 0) (full, U, V) = some 1 ∧
    ¬ ∃ σ, BoundedSchedule F (fun _ => 1) σ := by
  refine ⟨⟨fun _ _ => le_refl _, ?_⟩, by decide +kernel, ?_⟩
  · intro c hc
    have hc' : c = (full, U, V) := by simpa [F] using hc
    subst hc'
    exact ⟨-9, by decide +kernel, by decide +kernel⟩
  · rintro ⟨σ, hv, hr⟩
    obtain ⟨P, hP, h⟩ := hr ⟨0, by decide⟩ (-1) ∅ (by simp)
    have h0 : P = ∅ := by
      rw [Finset.eq_empty_iff_forall_notMem]
      intro k hk
      have h1 : σ 2 k + V.dur k ≤ -1 := hP k hk
      have h2 := hv.nonneg V (by simp [F]) k
      have h3 : V.dur k = 1 := by simp [KTask.dur, V, Nat.mod_one]
      rw [h3] at h1
      have h4 : (0 : ℚ) ≤ σ 2 k := h2
      linarith
    subst h0
    simp at h
    exact absurd h (by decide)

/-- A channel of ten tokens per unit of time that holds ten: the size computed for the least solution is 0; with room for the tokens,
the period is not sustained. -/
def Z : KTask := ⟨3, [1], [], 1, 1⟩
def feed : KChannel := ⟨1, [10], [10], [], [], 0, 10⟩
def held : KChannel := ⟨2, [10], [10], [], [], 10, 10⟩
def H : BaseGraph := ⟨[Z, U, V], [(feed, Z, U), (held, U, V)]⟩
def second : Fin H.channels.length := ⟨1, by decide⟩
def sH (i : Int) : ℚ := if i = 1 then 19 / 10 else 0

theorem H_ok : BaseOK H := by
  have hU : TaskOK U 1 := ⟨by decide, rfl, by decide, by decide, by decide, by decide⟩
  have hV : TaskOK V 1 := ⟨by decide, rfl, by decide, by decide, by decide, by decide⟩
  have hZ : TaskOK Z 1 := ⟨by decide, rfl, by decide, by decide, by decide, by decide⟩
  constructor
  · simp [H, U, V, Z]
  · intro t ht; simp only [H, List.mem_cons, List.not_mem_nil, or_false] at ht
    rcases ht with rfl | rfl | rfl
    · exact hZ
    · exact hU
    · exact hV
  · simp [H, U, V, Z]
  · intro c hc; simp only [H, List.mem_cons, List.not_mem_nil, or_false] at hc
    rcases hc with rfl | rfl
    · exact ⟨by simp [H], by simp [H],
        rfl, rfl, rfl, rfl, by decide, by decide, by decide, by decide, by decide, by decide, by decide, by decide, by decide⟩
    · exact ⟨by simp [H], by simp [H],
        rfl, rfl, rfl, rfl, by decide, by decide, by decide, by decide, by decide, by decide, by decide, by decide, by decide⟩
  · simp [H, feed, held]

theorem dur_one (k : ℕ) : U.dur k = 1 ∧ V.dur k = 1 := by constructor <;> simp [KTask.dur, U, V, Nat.mod_one]

theorem cum_const (r : Int) (k : ℕ) : cum (rate [r]) k = k * r := by
  unfold cum
  rw [Finset.sum_congr rfl fun i _ => show rate [r] i = r by simp [rate, Nat.mod_one]]
  simp

theorem C96_units : Solution H 1 sH ∧ (∀ s, Solution H 1 s → ∀ t ∈ H.tasks, sH t.id ≤ s t.id) ∧
    size H 1 sH (held, U, V) = some 0 ∧
    ¬ ∃ (w : Fin H.channels.length → Int) (σ : _), w second = max 0 0 + held.preload ∧ BoundedSchedule H w σ ∧ Sustains H σ 1 := by
  refine ⟨⟨?_, ?_⟩, ?_, by decide +kernel, ?_⟩
  · intro t ht
    unfold sH
    split <;> norm_num
  · intro c hc
    simp only [H, List.mem_cons, List.not_mem_nil, or_false] at hc
    rcases hc with rfl | rfl
    · exact ⟨19 / 10, by decide +kernel, by decide +kernel⟩
    · exact ⟨-81 / 10, by decide +kernel, by decide +kernel⟩
  · intro s hs t ht
    simp only [H, List.mem_cons, List.not_mem_nil, or_false] at ht
    rcases ht with rfl | rfl | rfl
    · exact hs.1 Z (by simp [H])
    · obtain ⟨b, hb, h⟩ := hs.2 (feed, Z, U) (by simp [H])
      have hb' : betaIJ H 1 (feed, Z, U) = some (19 / 10) := by decide +kernel
      rw [hb'] at hb
      rw [← Option.some.inj hb] at h
      have h0 : 0 ≤ s 3 := hs.1 Z (by simp [H])
      have h1 : s 3 - s 1 ≤ -(19 / 10) := by simpa [Z, U] using h
      show sH 1 ≤ s 1
      have : sH 1 = 19 / 10 := rfl
      linarith
    · exact hs.1 V (by simp [H])
  · rintro ⟨w, σ, hw, ⟨hv, hr⟩, hsus⟩
    have mU := gen_mono H_ok hv (show U ∈ H.tasks by simp [H])
    have mV := gen_mono H_ok hv (show V ∈ H.tasks by simp [H])
    have eU : Monotone fun k => σ 1 k + U.dur k := gen_end_mono H_ok hv (show U ∈ H.tasks by simp [H])
    have eV : Monotone fun k => σ 2 k + V.dur k := gen_end_mono H_ok hv (show V ∈ H.tasks by simp [H])
    have n10 : ∀ k, 0 ≤ rate [(10 : Int)] k := fun k => by simp [rate, Nat.mod_one]
    have h1 : ∀ k, σ 2 k + 1 ≤ σ 1 k := by
      intro k
      have h := hr second
      have h := NeverShort.requires (p := w second - 10) h n10 eV mU (k := k) (l := k) (by
        show w second - 10 + cum (rate [10]) k < cum (rate [10]) (k + 1)
        rw [cum_const, cum_const, hw]
        push_cast
        simp [held])
      have h : σ 2 k + V.dur k ≤ σ 1 k := h
      rwa [(dur_one k).2] at h
    have h2 : ∀ k, σ 1 k + 1 ≤ σ 2 (k + 1) := by
      intro k
      have h := hv.channels (held, U, V) (by simp [H])
      have h := NeverShort.requires (p := 10) h n10 eU mV (k := k) (l := k + 1) (by
        show 10 + cum (rate [10]) k < cum (rate [10]) (k + 1 + 1)
        rw [cum_const, cum_const]
        push_cast
        linarith)
      rwa [(dur_one k).1] at h
    have h3 : ∀ k : ℕ, 2 * (k : ℚ) ≤ σ 2 k := by
      intro k
      induction k with
      | zero =>
        have h : 0 ≤ σ 2 0 := hv.nonneg V (by simp [H]) 0
        simpa using h
      | succ k ih =>
        have := h1 k
        have := h2 k
        push_cast
        linarith
    obtain ⟨C, hC⟩ := hsus V (by simp [H])
    obtain ⟨n, hn⟩ := exists_nat_gt C
    have h4 : σ 2 n ≤ 1 * n / (1 : Int) + C := hC n
    have := h3 n
    norm_num at h4
    linarith

/-- Two phases, of durations 4 and 2, that give 2 tokens and 1; then a task of duration 2 that takes 3. The size computed for a period
of 6 is 4; with 4, the first task starts its first phase 8 units of time apart at least. -/
def P : KTask := ⟨1, [4, 2], [], 1, 2⟩
def Q : KTask := ⟨2, [2], [], 1, 1⟩
def burstCh : KChannel := ⟨1, [2, 1], [3], [], [], 0, 1⟩
def K : BaseGraph := ⟨[P, Q], [(burstCh, P, Q)]⟩
def sK (i : Int) : ℚ := if i = 2 then 4 else 0
theorem K_ok : BaseOK K :=
  pair_ok ⟨by decide, rfl, by decide, by decide, by decide, by decide⟩ ⟨by decide, rfl, by decide, by decide, by decide, by decide⟩
    (by decide) (by decide) (by decide)
    ⟨rfl, rfl, rfl, rfl, by decide, by decide, by decide, by decide, by decide, by decide, by decide, by decide, by decide⟩

theorem C96_csdf_counterexample : Solution K 6 sK ∧ (∀ s, Solution K 6 s → ∀ t ∈ K.tasks, sK t.id ≤ s t.id) ∧
    size K 6 sK (burstCh, P, Q) = some 4 ∧ ¬ ∃ σ, BoundedSchedule K (fun _ => 4) σ ∧ Sustains K σ 6 := by
  have hb : betaIJ K 6 (burstCh, P, Q) = some 4 := by decide +kernel
  refine ⟨⟨?_, ?_⟩, ?_, by decide +kernel, ?_⟩
  · intro t ht
    unfold sK
    split <;> norm_num
  · intro c hc
    have hc' : c = (burstCh, P, Q) := by simpa [K] using hc
    subst hc'
    exact ⟨4, hb, by decide +kernel⟩
  · intro s hs t ht
    simp only [K, List.mem_cons, List.not_mem_nil, or_false] at ht
    rcases ht with rfl | rfl
    · exact hs.1 P (by simp [K])
    · obtain ⟨b, hb', h⟩ := hs.2 (burstCh, P, Q) (by simp [K])
      rw [hb] at hb'
      rw [← Option.some.inj hb'] at h
      have h0 : 0 ≤ s 1 := hs.1 P (by simp [K])
      have h1 : s 1 - s 2 ≤ -4 := by simpa [P, Q] using h
      show sK 2 ≤ s 2
      have : sK 2 = 4 := rfl
      linarith
  · rintro ⟨σ, ⟨hv, hr⟩, hsus⟩
    have mP : Monotone (σ 1) := gen_mono K_ok hv (show P ∈ K.tasks by simp [K])
    have mQ : Monotone (σ 2) := gen_mono K_ok hv (show Q ∈ K.tasks by simp [K])
    have eP : Monotone fun k => σ 1 k + P.dur k := gen_end_mono K_ok hv (show P ∈ K.tasks by simp [K])
    have eQ : Monotone fun k => σ 2 k + Q.dur k := gen_end_mono K_ok hv (show Q ∈ K.tasks by simp [K])
    have d0 : ∀ k, P.dur (2 * k) = 4 := fun k => by simp [KTask.dur, P]
    have d1 : ∀ k, P.dur (2 * k + 1) = 2 := fun k => by
      simp [KTask.dur, P, show (2 * k + 1) % 2 = 1 by omega]
    have dQ : ∀ k, Q.dur k = 2 := fun k => by simp [KTask.dur, Q, Nat.mod_one]
    have c0 : ∀ k, cum (rate [(2 : Int), 1]) (2 * k) = 3 * k := by
      intro k
      induction k with
      | zero => rfl
      | succ k ih =>
        rw [show 2 * (k + 1) = 2 * k + 1 + 1 by ring]
        unfold cum at ih ⊢
        rw [Finset.sum_range_succ, Finset.sum_range_succ, ih]
        have e1 : rate [(2 : Int), 1] (2 * k) = 2 := by simp [rate]
        have e2 : rate [(2 : Int), 1] (2 * k + 1) = 1 := by simp [rate, show (2 * k + 1) % 2 = 1 by omega]
        rw [e1, e2]
        push_cast
        ring
    have c1 : ∀ k, cum (rate [(2 : Int), 1]) (2 * k + 1) = 3 * k + 2 := by
      intro k
      have h := c0 k
      unfold cum at h ⊢
      rw [Finset.sum_range_succ, h]
      simp [rate]
    have n1 : ∀ k, 0 ≤ rate [(2 : Int), 1] k := fun k => (rate_le_sum (by decide) k).1
    have n2 : ∀ k, 0 ≤ rate [(3 : Int)] k := fun k => (rate_le_sum (by decide) k).1
    have h1 : ∀ k, σ 2 k + 2 ≤ σ 1 (2 * (k + 1)) := by
      intro k
      have h := hr ⟨0, by decide⟩
      have h := NeverShort.requires (p := 4 - 0) h n2 eQ mP (k := k) (l := 2 * (k + 1)) (by
        show 4 - 0 + cum (rate [3]) k < cum (rate [2, 1]) (2 * (k + 1) + 1)
        rw [cum_const, c1]
        push_cast
        linarith)
      have h : σ 2 k + Q.dur k ≤ σ 1 (2 * (k + 1)) := h
      rwa [dQ k] at h
    have h2 : ∀ k, σ 1 (2 * k + 1) + 2 ≤ σ 2 k := by
      intro k
      have h := hv.channels (burstCh, P, Q) (by simp [K])
      have h := NeverShort.requires (p := 0) h n1 eP mQ (k := 2 * k + 1) (l := k) (by
        show 0 + cum (rate [2, 1]) (2 * k + 1) < cum (rate [3]) (k + 1)
        rw [cum_const, c1]
        push_cast
        linarith)
      rwa [d1 k] at h
    have h3 : ∀ k : ℕ, 8 * (k : ℚ) ≤ σ 1 (2 * k) := by
      intro k
      induction k with
      | zero =>
        have h : 0 ≤ σ 1 0 := hv.nonneg P (by simp [K]) 0
        simpa using h
      | succ k ih =>
        have a1 := h1 k
        have a2 := h2 k
        have a3 : σ 1 (2 * k) + P.dur (2 * k) ≤ σ 1 (2 * k + 1) := hv.noOverlap P (by simp [K]) (2 * k)
        rw [d0 k] at a3
        push_cast
        linarith
    obtain ⟨C, hC⟩ := hsus P (by simp [K])
    obtain ⟨n, hn⟩ := exists_nat_gt C
    have h4 : σ 1 (2 * n) ≤ 6 * ((2 * n : ℕ) : ℚ) / (2 : Int) + C := hC (2 * n)
    have := h3 n
    push_cast at h4
    linarith

/-- The steps for tasks with several phases: ends of the phases of a task in the middle, starts, sizes. -/
def P2 : KTask := ⟨1, [4, 2], [], 1, 8⟩
def R2 : KTask := ⟨3, [3, 1, 2], [], 1, 6⟩
def Q2 : KTask := ⟨2, [2], [], 1, 4⟩
def ch1 : KChannel := ⟨1, [2, 1], [1, 2, 3], [], [], 0, 1⟩
def ch2 : KChannel := ⟨2, [1, 4, 1], [3], [], [], 0, 1⟩
def W : BaseGraph := ⟨[P2, R2, Q2], [(ch1, P2, R2), (ch2, R2, Q2)]⟩
def sW (i : Int) : ℚ := if i = 1 then 0 else if i = 3 then 8 else 16
example : (List.range 3).map (phaseEnd W 24 R2) = [some 1, some 2, some 8] ∧ (List.range 2).map (phaseEnd W 24 P2) = [some 4, some 6] ∧
    betaIJ W 24 (ch1, P2, R2) = some 8 ∧ betaIJ W 24 (ch2, R2, Q2) = some 2 ∧ feedbackProd W 24 sW (ch1, P2, R2) = some (-4) ∧
    size W 24 sW (ch1, P2, R2) = some 6 ∧ size W 24 sW (ch2, R2, Q2) = some 9 := by decide +kernel

end BackPressureExample

end Kiter
