/-
Closed form of the constraints produced by the generator loops.
-/
import Verif.Lemmas.KPeriodicCore
import Mathlib.Tactic.FieldSimp
import Mathlib.Data.List.GetD

set_option autoImplicit false

namespace Kiter
open Finset

theorem cum_succ' (f : ℕ → Int) (k : ℕ) : cum f (k + 1) = f 0 + cum (fun i => f (i + 1)) k := by
  unfold cum; rw [sum_range_succ']; ring

/-- Shape of the constraint produced for one pair of executions. -/
def mkConstraint (x : KCtx) (ki pi : Int) (d : ℚ) (q : Int × Int) (α : Int) : EvConstraint :=
  { src := ⟨x.src.id, pi, ki⟩, dst := ⟨x.dst.id, q.2, q.1⟩, w := -(((α : ℚ) * x.kiPhases) / x.den), d := d,
    channel := x.ch.id }

theorem innerLoop_spec (x : KCtx) (ki pi wak dapkm1 dapk : Int) (d : ℚ) (l : List (Int × Int)) (v : ℕ → Int)
    (acc : Int) (h : ∀ n (hn : n < l.length), phaseRate x.ch.outInit x.ch.outPhases (l[n]).2 = some (v n)) :
    ∃ res, innerLoop x ki pi wak dapkm1 dapk d l acc = some res ∧
      ∀ c, c ∈ res ↔ ∃ n, ∃ hn : n < l.length, ∃ α,
        boundsDefault (max 0 (wak - v n) - x.mop - dapk + (acc + cum v (n + 1)))
          (-x.mop - dapkm1 + (acc + cum v (n + 1)) - x.ch.fineGCD) x.gcdz = some α ∧
        c = mkConstraint x ki pi d l[n] α := by
  induction l generalizing v acc with
  | nil => exact ⟨[], rfl, by simp⟩
  | cons q l ih =>
    obtain ⟨kj, pj⟩ := q
    have h0 := h 0 (by simp)
    simp only [List.getElem_cons_zero] at h0
    obtain ⟨res, hres, hmem⟩ := ih (fun n => v (n + 1)) (acc + v 0) (fun n hn => by
      have := h (n + 1) (by simpa using hn)
      simpa using this)
    have key : ∀ c, (∃ n, ∃ hn : n < l.length, ∃ α,
        boundsDefault (max 0 (wak - v (n + 1)) - x.mop - dapk + (acc + v 0 + cum (fun n => v (n + 1)) (n + 1)))
          (-x.mop - dapkm1 + (acc + v 0 + cum (fun n => v (n + 1)) (n + 1)) - x.ch.fineGCD) x.gcdz = some α ∧
        c = mkConstraint x ki pi d l[n] α) ↔
        ∃ n, ∃ hn : n + 1 < ((kj, pj) :: l).length, ∃ α,
        boundsDefault (max 0 (wak - v (n + 1)) - x.mop - dapk + (acc + cum v (n + 1 + 1)))
          (-x.mop - dapkm1 + (acc + cum v (n + 1 + 1)) - x.ch.fineGCD) x.gcdz = some α ∧
        c = mkConstraint x ki pi d ((kj, pj) :: l)[n + 1] α := by
      intro c
      constructor
      · rintro ⟨n, hn, α, h1, h2⟩
        refine ⟨n, by simpa using hn, α, ?_, by simpa using h2⟩
        rw [cum_succ' v (n + 1), ← add_assoc acc]; exact h1
      · rintro ⟨n, hn, α, h1, h2⟩
        refine ⟨n, by simpa using hn, α, ?_, by simpa using h2⟩
        rw [cum_succ' v (n + 1), ← add_assoc acc] at h1; exact h1
    have e1 : cum v 1 = v 0 := by simp [cum]
    unfold innerLoop
    rw [h0]
    simp only [Option.bind_eq_bind, Option.bind_some]
    rw [hres]
    simp only [Option.bind_some]
    cases hb : boundsDefault (max 0 (wak - v 0) - x.mop - dapk + (acc + v 0))
        (-x.mop - dapkm1 + (acc + v 0) - x.ch.fineGCD) x.gcdz with
    | none =>
      refine ⟨res, rfl, fun c => ?_⟩
      rw [hmem, key]
      constructor
      · rintro ⟨n, hn, α, h1, h2⟩; exact ⟨n + 1, hn, α, h1, h2⟩
      · rintro ⟨n, hn, α, h1, h2⟩
        cases n with
        | zero => rw [zero_add, e1, hb] at h1; simp at h1
        | succ n => exact ⟨n, hn, α, h1, h2⟩
    | some α0 =>
      refine ⟨_, rfl, fun c => ?_⟩
      rw [List.mem_cons, hmem, key]
      constructor
      · rintro (rfl | ⟨n, hn, α, h1, h2⟩)
        · exact ⟨0, by simp, α0, by rw [zero_add, e1, hb], rfl⟩
        · exact ⟨n + 1, hn, α, h1, h2⟩
      · rintro ⟨n, hn, α, h1, h2⟩
        cases n with
        | zero =>
          rw [zero_add, e1, hb] at h1
          cases h1
          exact Or.inl h2
        | succ n => exact Or.inr ⟨n, hn, α, h1, h2⟩

theorem outerLoop_spec (x : KCtx) (targets : List (Int × Int)) (l : List (Int × Int)) (f v : ℕ → Int) (d : ℕ → ℚ)
    (acc : Int)
    (hv : ∀ n (hn : n < targets.length), phaseRate x.ch.outInit x.ch.outPhases (targets[n]).2 = some (v n))
    (hf : ∀ n (hn : n < l.length), phaseRate x.ch.inInit x.ch.inPhases (l[n]).2 = some (f n))
    (hd : ∀ n (hn : n < l.length), phaseDuration x.src (l[n]).2 = some (d n)) :
    ∃ res, outerLoop x targets l acc acc = some res ∧
      ∀ c, c ∈ res ↔ ∃ m, ∃ hm : m < l.length, ∃ n, ∃ hn : n < targets.length, ∃ α,
        boundsDefault (max 0 (f m - v n) - x.mop - (acc + cum f (m + 1)) + cum v (n + 1))
          (-x.mop - (acc + cum f m) + cum v (n + 1) - x.ch.fineGCD) x.gcdz = some α ∧
        c = mkConstraint x (l[m]).1 (l[m]).2 (d m) targets[n] α := by
  induction l generalizing f d acc with
  | nil => exact ⟨[], rfl, by simp⟩
  | cons q l ih =>
    obtain ⟨ki, pi⟩ := q
    have hf0 := hf 0 (by simp)
    have hd0 := hd 0 (by simp)
    simp only [List.getElem_cons_zero] at hf0 hd0
    obtain ⟨res, hres, hmem⟩ := ih (fun n => f (n + 1)) (fun n => d (n + 1)) (acc + f 0)
      (fun n hn => by have := hf (n + 1) (by simpa using hn); simpa only [List.getElem_cons_succ] using this)
      (fun n hn => by have := hd (n + 1) (by simpa using hn); simpa only [List.getElem_cons_succ] using this)
    obtain ⟨here, hhere, hmem1⟩ := innerLoop_spec x ki pi (f 0) acc (acc + f 0) (d 0) targets v 0 hv
    unfold outerLoop
    rw [hd0, hf0]
    simp only [Option.bind_eq_bind, Option.bind_some, hhere, hres]
    refine ⟨_, rfl, fun c => ?_⟩
    rw [List.mem_append, hmem, hmem1]
    have e1 : cum f 1 = f 0 := by simp [cum]
    constructor
    · rintro (⟨n, hn, α, h1, h2⟩ | ⟨m, hm, n, hn, α, h1, h2⟩)
      · refine ⟨0, by simp, n, hn, α, ?_, h2⟩
        simpa [e1] using h1
      · refine ⟨m + 1, by simpa using hm, n, hn, α, ?_, by simpa using h2⟩
        rw [cum_succ' f (m + 1), cum_succ' f m, ← add_assoc acc, ← add_assoc acc]; exact h1
    · rintro ⟨m, hm, n, hn, α, h1, h2⟩
      cases m with
      | zero =>
        refine Or.inl ⟨n, hn, α, ?_, h2⟩
        simpa [e1] using h1
      | succ m =>
        refine Or.inr ⟨m, by simpa using hm, n, hn, α, ?_, by simpa using h2⟩
        rw [cum_succ' f (m + 1), cum_succ' f m, ← add_assoc acc, ← add_assoc acc] at h1; exact h1

/-! ### The execution order of the loops (no initial phases) -/

theorem loopPairs_eq (P K : ℕ) (hP : 0 < P) :
    loopPairs 0 P K = (List.range (K * P)).map fun (x : ℕ) => (((x / P : ℕ) : Int) + 1, ((x % P : ℕ) : Int) + 1) := by
  induction K with
  | zero => simp [loopPairs]
  | succ K ih =>
    unfold loopPairs at ih ⊢
    rw [List.range_succ, List.flatMap_append, ih, Nat.add_mul, one_mul, List.range_add, List.map_append]
    congr 1
    simp only [List.flatMap_cons, List.flatMap_nil, List.append_nil, ite_self, Nat.zero_add, List.map_map]
    apply List.map_congr_left
    intro p hp
    have hp' : p < P := by simpa using hp
    simp only [Function.comp]
    have e1 : (K * P + p) / P = K := by
      rw [Nat.add_comm, Nat.add_mul_div_right _ _ hP, Nat.div_eq_of_lt hp', Nat.zero_add]
    have e2 : (K * P + p) % P = p := by
      rw [Nat.add_comm, Nat.add_mul_mod_self_right, Nat.mod_eq_of_lt hp']
    rw [e1, e2]; simp

theorem rate_periodic (l : List Int) (K k : ℕ) : rate l (k + K * l.length) = rate l k := by
  unfold rate; rw [Nat.add_mul_mod_self_right]

theorem cum_rate_len (l : List Int) : cum (rate l) l.length = l.sum := by
  have : ∀ n ≤ l.length, cum (rate l) n = (l.take n).sum := by
    intro n hn
    induction n with
    | zero => simp
    | succ n ih =>
      rw [cum_succ, ih (by omega), List.take_add_one, List.sum_append]
      congr 1
      unfold rate
      rw [Nat.mod_eq_of_lt (by omega)]
      have : l[n]? = some l[n] := List.getElem?_eq_getElem (by omega)
      simp [this, List.getD]
  rw [this _ le_rfl, List.take_length]

theorem cum_rate (l : List Int) (K : ℕ) : cum (rate l) (K * l.length) = l.sum * K := by
  have := cum_add_mul (rate l) l.length (fun k => by simpa using rate_periodic l 1 k) 0 K
  rw [Nat.zero_add] at this
  rw [this, cum_rate_len]; simp; ring

theorem rate_mem (l : List Int) (h : 0 < l.length) (k : ℕ) : rate l k ∈ l := by
  unfold rate
  have : k % l.length < l.length := Nat.mod_lt _ h
  rw [List.getD_eq_getElem _ _ this]
  exact List.getElem_mem _

theorem phaseRate_eq (l : List Int) (h : 0 < l.length) (x : ℕ) :
    phaseRate [] l (((x % l.length : ℕ) : Int) + 1) = some (rate l x) := by
  have hx : x % l.length < l.length := Nat.mod_lt _ h
  unfold phaseRate at1 rate
  rw [if_neg (by omega), if_pos (by omega)]
  have : (((x % l.length : ℕ) : Int) + 1 - 1).toNat = x % l.length := by omega
  rw [this, List.getElem?_eq_getElem hx, List.getD_eq_getElem _ _ hx]

theorem phaseDuration_eq (t : KTask) (h : 0 < t.durations.length) (x : ℕ) :
    phaseDuration t (((x % t.durations.length : ℕ) : Int) + 1) = some (t.dur x) := by
  have hx : x % t.durations.length < t.durations.length := Nat.mod_lt _ h
  unfold phaseDuration KTask.dur
  rw [if_neg (by omega), if_neg (by omega)]
  have : (((x % t.durations.length : ℕ) : Int) + 1 - 1).toNat = x % t.durations.length := by omega
  rw [this, Nat.mod_mod, List.getElem?_eq_getElem hx, List.getD_eq_getElem _ _ hx]

/-! ### Rounding of the initial tokens -/

theorem cFloor_spec (a g : Int) (hg : 0 < g) (_ : 0 ≤ a) :
    ∃ m, cFloor a g = some m ∧ g ∣ m ∧ m ≤ a ∧ a < m + g := by
  unfold cFloor
  rw [if_neg hg.ne']
  have e : ⌊(a : ℚ) / (g : ℚ)⌋ = a / g := by
    have := Rat.floor_intCast_div_natCast a g.toNat
    have hg' : ((g.toNat : ℕ) : Int) = g := Int.toNat_of_nonneg hg.le
    have hq : ((g.toNat : ℕ) : ℚ) = (g : ℚ) := by
      exact_mod_cast congrArg (Int.cast (R := ℚ)) hg'
    rw [hq] at this
    rw [this, hg']
  refine ⟨_, rfl, ?_, ?_, ?_⟩
  · exact Dvd.intro_left _ rfl
  · rw [e]; exact Int.ediv_mul_le a hg.ne'
  · rw [e]; have := Int.lt_ediv_add_one_mul_self a hg; linarith [this]

end Kiter

namespace Kiter

def evOf (t : KTask) (q : Int × Int) : Event := ⟨t.id, q.2, q.1⟩

theorem chainLoop_spec (t : KTask) (tf : ℚ) (l : List (Int × Int)) (q : Int × Int) (D : ℕ → ℚ)
    (h : ∀ n (hn : n < l.length), phaseDuration t (l[n]).2 = some (D (n + 1))) :
    ∃ res, chainLoop t tf l (evOf t q) (tf * D 0) = some res ∧
      ∀ c, c ∈ res ↔ ∃ n, ∃ hn : n + 1 < (q :: l).length,
        c = { src := evOf t (q :: l)[n], dst := evOf t (q :: l)[n + 1], w := 0, d := tf * D n, channel := 0 } := by
  induction l generalizing q D with
  | nil => exact ⟨[], rfl, by simp⟩
  | cons r l ih =>
    obtain ⟨i, p⟩ := r
    have h0 := h 0 (by simp)
    simp only [List.getElem_cons_zero] at h0
    obtain ⟨res, hres, hmem⟩ := ih (i, p) (fun n => D (n + 1)) (fun n hn => by
      have := h (n + 1) (by simpa using hn); simpa only [List.getElem_cons_succ] using this)
    unfold chainLoop
    rw [h0]
    simp only [Option.bind_eq_bind, Option.bind_some]
    have e : (⟨t.id, p, i⟩ : Event) = evOf t (i, p) := rfl
    rw [e]
    simp only [Nat.zero_add] at hres ⊢
    rw [hres]
    refine ⟨_, rfl, fun c => ?_⟩
    rw [List.mem_cons, hmem]
    constructor
    · rintro (rfl | ⟨n, hn, rfl⟩)
      · exact ⟨0, by simp, by simp⟩
      · exact ⟨n + 1, by simpa using hn, by simp⟩
    · rintro ⟨n, hn, rfl⟩
      cases n with
      | zero => left; simp
      | succ n => right; exact ⟨n, by simpa using hn, by simp⟩

/-- Event of the `x`-th execution in the list of events of a task with `P` phases. -/
def evAt (t : KTask) (x : ℕ) : Event := ⟨t.id, ((x % t.durations.length : ℕ) : Int) + 1, ((x / t.durations.length : ℕ) : Int) + 1⟩

theorem selfLoop_spec (t : KTask) (K : ℕ) (hP : 0 < t.durations.length) (hK : 0 < K)
    (hinit : t.initDurations = []) (hni : t.ni ≠ 0) :
    ∃ res, selfLoopConstraints t K = some res ∧
      ∀ c, c ∈ res ↔
        (∃ x, x + 1 < K * t.durations.length ∧
          c = { src := evAt t x, dst := evAt t (x + 1), w := 0,
                d := (if t.reentrancy ≤ 0 then 0 else 1) * t.dur x, channel := 0 })
        ∨ (0 < t.reentrancy ∧
          c = { src := evAt t (K * t.durations.length - 1), dst := evAt t 0,
                w := ((t.durations.length : ℚ) * K) / t.ni, d := t.dur (K * t.durations.length - 1),
                channel := 0 }) := by
  set P := t.durations.length with hPdef
  have hKP : 0 < K * P := Nat.mul_pos hK hP
  have hl := loopPairs_eq P K hP
  obtain ⟨M, hM⟩ : ∃ M, K * P = M + 1 := ⟨K * P - 1, by omega⟩
  set F : ℕ → Int × Int := fun (x : ℕ) => (((x / P : ℕ) : Int) + 1, ((x % P : ℕ) : Int) + 1) with hF
  have hcons : loopPairs 0 P K = F 0 :: (List.range M).map (fun x => F (x + 1)) := by
    rw [hl, hM, List.range_succ_eq_map, List.map_cons, List.map_map]; rfl
  have hev : ∀ x, evOf t (F x) = evAt t x := fun x => rfl
  have hget : ∀ n (hn : n < (F 0 :: (List.range M).map (fun x => F (x + 1))).length),
      (F 0 :: (List.range M).map (fun x => F (x + 1)))[n] = F n := by
    intro n hn
    cases n with
    | zero => rfl
    | succ n => simp
  have hd1 : phaseDuration t 1 = some (t.dur 0) := by
    have := phaseDuration_eq t hP 0
    simpa using this
  have hdP : phaseDuration t (P : Int) = some (t.dur (K * P - 1)) := by
    have := phaseDuration_eq t hP (K * P - 1)
    have e : (K * P - 1) % P = P - 1 := by
      obtain ⟨K', rfl⟩ : ∃ K', K = K' + 1 := ⟨K - 1, by omega⟩
      rw [show (K' + 1) * P - 1 = P - 1 + K' * P by rw [Nat.add_mul]; omega,
        Nat.add_mul_mod_self_right, Nat.mod_eq_of_lt (by omega)]
    rw [← hPdef, e] at this
    rw [← this]; congr 1; omega
  obtain ⟨res, hres, hmem⟩ := chainLoop_spec t (if t.reentrancy ≤ 0 then 0 else 1)
    ((List.range M).map (fun x => F (x + 1))) (F 0) t.dur (fun n hn => by
      simp only [List.getElem_map, List.getElem_range]
      exact phaseDuration_eq t hP (n + 1))
  have hmem' : ∀ c, c ∈ res ↔ ∃ x, x + 1 < K * P ∧
          c = { src := evAt t x, dst := evAt t (x + 1), w := 0,
                d := (if t.reentrancy ≤ 0 then 0 else 1) * t.dur x, channel := 0 } := by
    intro c
    rw [hmem]
    constructor
    · rintro ⟨n, hn, rfl⟩
      refine ⟨n, by simp at hn; omega, ?_⟩
      rw [hget, hget, hev, hev]
    · rintro ⟨n, hn, rfl⟩
      have hn' : n + 1 < (F 0 :: (List.range M).map (fun x => F (x + 1))).length := by simp; omega
      refine ⟨n, hn', ?_⟩
      rw [hget, hget, hev, hev]
  unfold selfLoopConstraints
  rw [hd1, hinit]
  simp only [Option.bind_eq_bind, Option.bind_some, List.length_nil, ← hPdef, hcons]
  have e0 : (⟨t.id, (F 0).2, (F 0).1⟩ : Event) = evOf t (F 0) := rfl
  rw [e0, hres]
  simp only [Option.bind_some]
  by_cases hr : t.reentrancy > 0
  · rw [if_pos hr, if_neg hni, hdP]
    refine ⟨_, rfl, fun c => ?_⟩
    rw [List.mem_append, hmem']
    have hr' : ¬ t.reentrancy ≤ 0 := by omega
    have e1 : (K * P - 1) % P = P - 1 := by
      obtain ⟨K', rfl⟩ : ∃ K', K = K' + 1 := ⟨K - 1, by omega⟩
      rw [show (K' + 1) * P - 1 = P - 1 + K' * P by rw [Nat.add_mul]; omega,
        Nat.add_mul_mod_self_right, Nat.mod_eq_of_lt (by omega)]
    have e2 : (K * P - 1) / P = K - 1 := by
      obtain ⟨K', rfl⟩ : ∃ K', K = K' + 1 := ⟨K - 1, by omega⟩
      rw [show (K' + 1) * P - 1 = P - 1 + K' * P by rw [Nat.add_mul]; omega,
        Nat.add_mul_div_right _ _ hP, Nat.div_eq_of_lt (by omega)]; omega
    have ea : evAt t (K * P - 1) = ⟨t.id, P, K⟩ := by
      unfold evAt; rw [← hPdef, e1, e2]; congr 1 <;> omega
    have eb : evAt t 0 = ⟨t.id, 1, 1⟩ := by unfold evAt; simp
    rw [ea, eb]
    simp [hr, hr']
  · rw [if_neg hr]
    refine ⟨_, rfl, fun c => ?_⟩
    rw [hmem']
    simp [hr]

theorem channel_spec (src dst : KTask) (c : KChannel) (Ki Kj : ℕ)
    (hii : c.inInit = []) (hoi : c.outInit = [])
    (hP : 0 < c.inPhases.length) (hQ : 0 < c.outPhases.length)
    (hdur : src.durations.length = c.inPhases.length)
    (hKi : 0 < Ki) (hin : 0 < c.inPhases.sum) (hni : src.ni ≠ 0)
    (hgcd : 0 < c.fineGCD) (hpre : 0 ≤ c.preload) :
    ∃ mop, c.fineGCD ∣ mop ∧ mop ≤ c.preload ∧ c.preload < mop + c.fineGCD ∧
    ∃ res, channelConstraints src dst c Ki Kj = some res ∧
      ∀ e, e ∈ res ↔ ∃ m, m < Ki * c.inPhases.length ∧ ∃ n, n < Kj * c.outPhases.length ∧ ∃ α,
        boundsDefault (max 0 (rate c.inPhases m - rate c.outPhases n) - mop - cum (rate c.inPhases) (m + 1)
            + cum (rate c.outPhases) (n + 1))
          (-mop - cum (rate c.inPhases) m + cum (rate c.outPhases) (n + 1) - c.fineGCD)
          (Int.gcd (c.inPhases.sum * Ki) (c.outPhases.sum * Kj)) = some α ∧
        e = { src := evAt src m,
              dst := ⟨dst.id, ((n % c.outPhases.length : ℕ) : Int) + 1, ((n / c.outPhases.length : ℕ) : Int) + 1⟩,
              w := -(((α : ℚ) * ((c.inPhases.length : ℚ) * Ki)) / (((c.inPhases.sum * Ki : Int) : ℚ) * src.ni)),
              d := src.dur m, channel := c.id } := by
  obtain ⟨mop, hm, h1, h2, h3⟩ := cFloor_spec c.preload c.fineGCD hgcd hpre
  refine ⟨mop, h1, h2, h3, ?_⟩
  have hwc : c.inPhases.sum * (Ki : Int) ≠ 0 := by
    have : (Ki : Int) ≠ 0 := by exact_mod_cast hKi.ne'
    exact mul_ne_zero hin.ne' this
  have hg : ((Int.gcd (c.inPhases.sum * Ki) (c.outPhases.sum * Kj) : ℕ) : Int) ≠ 0 := by
    exact_mod_cast (Int.gcd_pos_of_ne_zero_left _ hwc).ne'
  unfold channelConstraints
  rw [hm]
  simp only [Option.bind_eq_bind, Option.bind_some]
  have hcond : ¬ (((Int.gcd (c.inPhases.sum * Ki) (c.outPhases.sum * Kj) : ℕ) : Int) = 0 ∨
      c.inPhases.sum * (Ki : Int) * src.ni = 0) := by
    rintro (h | h)
    · exact hg h
    · exact mul_ne_zero hwc hni h
  rw [if_neg hcond]
  set x : KCtx :=
      { src := src, dst := dst, ch := c, mop := mop, wc := c.inPhases.sum * Ki,
        gcdz := ((Int.gcd (c.inPhases.sum * Ki) (c.outPhases.sum * Kj) : ℕ) : Int),
        kiPhases := (c.inPhases.length : ℚ) * Ki, den := ((c.inPhases.sum * Ki : Int) : ℚ) * src.ni }
  have htl : ∀ n (hn : n < (loopPairs 0 c.outPhases.length Kj).length),
      (loopPairs 0 c.outPhases.length Kj)[n] =
        (((n / c.outPhases.length : ℕ) : Int) + 1, ((n % c.outPhases.length : ℕ) : Int) + 1) := by
    intro n hn
    simp only [loopPairs_eq _ _ hQ] at hn ⊢
    simp
  have hsl : ∀ n (hn : n < (loopPairs 0 c.inPhases.length Ki).length),
      (loopPairs 0 c.inPhases.length Ki)[n] =
        (((n / c.inPhases.length : ℕ) : Int) + 1, ((n % c.inPhases.length : ℕ) : Int) + 1) := by
    intro n hn
    simp only [loopPairs_eq _ _ hP] at hn ⊢
    simp
  obtain ⟨res, hres, hmem⟩ := outerLoop_spec x (loopPairs 0 c.outPhases.length Kj)
    (loopPairs 0 c.inPhases.length Ki) (rate c.inPhases) (rate c.outPhases) src.dur 0
    (fun n hn => by
      rw [htl n hn]
      show phaseRate c.outInit c.outPhases _ = _
      rw [hoi]; exact phaseRate_eq _ hQ n)
    (fun n hn => by
      rw [hsl n hn]
      show phaseRate c.inInit c.inPhases _ = _
      rw [hii]; exact phaseRate_eq _ hP n)
    (fun n hn => by
      rw [hsl n hn]
      show phaseDuration src _ = _
      have := phaseDuration_eq src (by omega) n
      rw [hdur] at this; exact this)
  rw [hii, hoi]
  refine ⟨res, hres, fun e => ?_⟩
  rw [hmem]
  have ls : (loopPairs 0 c.inPhases.length Ki).length = Ki * c.inPhases.length := by rw [loopPairs_eq _ _ hP]; simp
  have lt : (loopPairs 0 c.outPhases.length Kj).length = Kj * c.outPhases.length := by rw [loopPairs_eq _ _ hQ]; simp
  have hes : ∀ m, evAt src m = ⟨src.id, ((m % c.inPhases.length : ℕ) : Int) + 1, ((m / c.inPhases.length : ℕ) : Int) + 1⟩ := by
    intro m; unfold evAt; rw [hdur]
  constructor
  · rintro ⟨m, hm, n, hn, α, hb, rfl⟩
    refine ⟨m, by omega, n, by omega, α, ?_, ?_⟩
    · simpa only [zero_add] using hb
    · rw [hsl, htl, hes]; rfl
  · rintro ⟨m, hm, n, hn, α, hb, rfl⟩
    refine ⟨m, by omega, n, by omega, α, ?_, ?_⟩
    · simpa only [zero_add] using hb
    · rw [hsl, htl, hes]; rfl

end Kiter
