import Verif.Model.PeriodicLP
import Verif.Spec.PeriodicLP
import Verif.Props.StrictlyPeriodic
import Verif.Lemmas.PeriodicSizing

set_option autoImplicit false

namespace Kiter

/-! ### Rows -/

theorem srows_append {v : SVar → ℚ} {a b : List SRow} : SHolds v (a ++ b) ↔ SHolds v a ∧ SHolds v b := by
  unfold SHolds
  simp only [List.mem_append]
  constructor
  · intro H; exact ⟨fun c hc => H c (Or.inl hc), fun c hc => H c (Or.inr hc)⟩
  · rintro ⟨h1, h2⟩ c (hc | hc)
    · exact h1 c hc
    · exact h2 c hc

theorem gather_spec {α : Type} (f : α → Option (List SRow)) (q : (SVar → ℚ) → α → Prop)
    (l : List α) (h : ∀ a ∈ l, ∃ rs, f a = some rs ∧ ∀ v, SHolds v rs ↔ q v a) :
    ∃ rs, gather f l = some rs ∧ ∀ v, SHolds v rs ↔ ∀ a ∈ l, q v a := by
  induction l with
  | nil => exact ⟨[], rfl, fun v => by simp [SHolds]⟩
  | cons a l ih =>
    obtain ⟨x, hx, ex⟩ := h a (by simp)
    obtain ⟨y, hy, ey⟩ := ih (fun b hb => h b (by simp [hb]))
    refine ⟨x ++ y, by simp [gather, hx, hy], fun v => ?_⟩
    rw [srows_append, List.forall_mem_cons, ex, ey]

/-! ### Precedence rows -/

theorem prefixSum_eq {l : List Int} {n : ℕ} (h : n ≤ l.length) : prefixSum l n = some (cum (rate l) n) := by
  unfold prefixSum
  rw [if_pos h]
  congr 1
  induction n with
  | zero => simp
  | succ n ih =>
    rw [cum_succ, ← ih (by omega), List.take_add_one, List.sum_append]
    unfold rate
    rw [Nat.mod_eq_of_lt (by omega), List.getElem?_eq_getElem (by omega), List.getD_eq_getElem _ _ (by omega)]
    simp

theorem cum_rate_split (l : List Int) (n : ℕ) : cum (rate l) n = cum (rate l) (n % l.length) + ((n / l.length : ℕ) : Int) * l.sum := by
  have := cum_add_mul (rate l) l.length (fun k => by simpa using rate_periodic l 1 k) (n % l.length) (n / l.length)
  rw [Nat.mod_add_div', cum_rate_len] at this
  exact this

theorem rate_mod (l : List Int) (n : ℕ) : rate l (n % l.length) = rate l n := by
  unfold rate; rw [Nat.mod_mod]

theorem lpPair_spec {src dst : KTask} {c : KChannel} {Ki Kj : ℕ} (hc : ChannelOK c src dst) (hP : 0 < src.durations.length)
    (hQ : 0 < dst.durations.length) (hKi : 0 < Ki) (hni : 0 < src.ni) (hmul : (src.durations.length : Int) ∣ src.ni) {mop : Int}
    (hmop : c.fineGCD ∣ mop) {a k b l : ℕ} (ha : a < src.durations.length) (hb : b < dst.durations.length) :
    ∃ rs, lpPair src dst c mop (Int.gcd (c.inPhases.sum * Ki) (c.outPhases.sum * Kj)) (src.ni.tdiv src.durations.length)
        (a + 1) (k + 1) (b + 1) (l + 1) = some rs ∧
      ∀ v, SHolds v rs ↔ ∀ α,
        boundsDefault (max 0 (rate c.inPhases (k * src.durations.length + a) - rate c.outPhases (l * dst.durations.length + b)) - mop
            - cum (rate c.inPhases) (k * src.durations.length + a + 1) + cum (rate c.outPhases) (l * dst.durations.length + b + 1))
          (-mop - cum (rate c.inPhases) (k * src.durations.length + a) + cum (rate c.outPhases) (l * dst.durations.length + b + 1) - c.fineGCD)
          (Int.gcd (c.inPhases.sum * Ki) (c.outPhases.sum * Kj)) = some α →
        Satisfies (fun e => v (.start e)) (v .omega)
          { src := ⟨src.id, (a : Int) + 1, (k : Int) + 1⟩, dst := ⟨dst.id, (b : Int) + 1, (l : Int) + 1⟩,
            w := -(((α : ℚ) * ((c.inPhases.length : ℚ) * Ki)) / (((c.inPhases.sum * Ki : Int) : ℚ) * src.ni)),
            d := src.dur a, channel := c.id } := by
  have hP' : a < c.inPhases.length := by rw [← hc.srcPhases]; exact ha
  have hQ' : b < c.outPhases.length := by rw [← hc.dstPhases]; exact hb
  have hpos : 0 < c.inPhases.sum * (Ki : Int) := mul_pos hc.inPos (by exact_mod_cast hKi)
  set g : Int := ((Int.gcd (c.inPhases.sum * Ki) (c.outPhases.sum * Kj) : ℕ) : Int) with hgdef
  have hg : 0 < g := by
    rw [hgdef]; exact_mod_cast Int.gcd_pos_of_ne_zero_left _ hpos.ne'
  have hsumI : c.fineGCD ∣ c.inPhases.sum := List.dvd_sum hc.gcdIn
  have hsumO : c.fineGCD ∣ c.outPhases.sum := List.dvd_sum hc.gcdOut
  have hsg : c.fineGCD ∣ g := Int.dvd_coe_gcd (hsumI.mul_right _) (hsumO.mul_right _)
  have hf : rate c.inPhases (k * src.durations.length + a) = rate c.inPhases a := by
    rw [hc.srcPhases, Nat.add_comm, rate_periodic]
  have hv : rate c.outPhases (l * dst.durations.length + b) = rate c.outPhases b := by
    rw [hc.dstPhases, Nat.add_comm, rate_periodic]
  have hcI : ∀ n, cum (rate c.inPhases) (k * src.durations.length + n) = cum (rate c.inPhases) n + k * c.inPhases.sum := fun n => by
    rw [hc.srcPhases, Nat.add_comm, cum_add_mul _ _ (fun k => by simpa using rate_periodic c.inPhases 1 k), cum_rate_len]
  have hcO : ∀ n, cum (rate c.outPhases) (l * dst.durations.length + n) = cum (rate c.outPhases) n + l * c.outPhases.sum := fun n => by
    rw [hc.dstPhases, Nat.add_comm, cum_add_mul _ _ (fun k => by simpa using rate_periodic c.outPhases 1 k), cum_rate_len]
  have hprev : ∃ x, phaseRate [] c.outPhases (if b + 1 - 1 > 0 then ((b + 1 - 1 : ℕ) : Int) else dst.durations.length) = some x := by
    by_cases h0 : b = 0
    · subst h0
      obtain ⟨q, hq⟩ : ∃ q, dst.durations.length = q + 1 := ⟨dst.durations.length - 1, by omega⟩
      refine ⟨rate c.outPhases q, ?_⟩
      rw [if_neg (by omega), hq]
      exact phaseRate_lt (by rw [← hc.dstPhases]; omega)
    · obtain ⟨q, rfl⟩ : ∃ q, b = q + 1 := ⟨b - 1, by omega⟩
      refine ⟨rate c.outPhases q, ?_⟩
      rw [if_pos (by omega)]
      exact phaseRate_lt (by omega)
  obtain ⟨x, hx⟩ := hprev
  obtain ⟨r, hr⟩ := hmul
  have hPz : (0 : Int) < src.durations.length := by exact_mod_cast hP
  have hrpos : 0 < r := by
    rw [hr] at hni
    exact (mul_pos_iff_of_pos_left hPz).mp hni
  have hnt : src.ni.tdiv src.durations.length = r := by
    rw [hr, Int.mul_tdiv_cancel_left _ hPz.ne']
  rw [hnt]
  have hA := floorMult_step (x := cum (rate c.outPhases) (b + 1) + l * c.outPhases.sum - (cum (rate c.inPhases) a + k * c.inPhases.sum) - mop)
    hg hc.gcdPos
    (dvd_sub (dvd_sub (dvd_add (cum_dvd (fun k => hc.gcdOut _ (rate_mem _ (by omega) k)) _) (hsumO.mul_left _))
      (dvd_add (cum_dvd (fun k => hc.gcdIn _ (rate_mem _ (by omega) k)) _) (hsumI.mul_left _))) hmop) hsg
  unfold lpPair
  rw [phaseDuration_lt ha, hc.noInInit, hc.noOutInit, phaseRate_lt hP', phaseRate_lt hQ', prefixSum_eq (by omega : b + 1 ≤ c.outPhases.length),
    prefixSum_eq (by omega : a + 1 ≤ c.inPhases.length), hx]
  simp only [Option.bind_eq_bind, Option.bind_some]
  rw [cCeil_eq hg, cFloor_eq hg]
  simp only [Option.bind_some]
  rw [hf, hv, show k * src.durations.length + a + 1 = k * src.durations.length + (a + 1) by ring,
    show l * dst.durations.length + b + 1 = l * dst.durations.length + (b + 1) by ring, hcI, hcI, hcO]
  have e1 : max 0 (0 + rate c.inPhases a - rate c.outPhases b) + (cum (rate c.outPhases) (b + 1) + (((b + 1 : ℕ) : Int) - b) * 0 + ((((l + 1 : ℕ) : Int)) - 1) * c.outPhases.sum) -
      (cum (rate c.inPhases) (a + 1) + (((k + 1 : ℕ) : Int) - 1) * c.inPhases.sum) - mop =
      max 0 (rate c.inPhases a - rate c.outPhases b) - mop - (cum (rate c.inPhases) (a + 1) + k * c.inPhases.sum) + (cum (rate c.outPhases) (b + 1) + l * c.outPhases.sum) := by
    push_cast; rw [zero_add]; ring
  have e1' : max 0 (0 + rate c.inPhases a - rate c.outPhases b) + (cum (rate c.outPhases) (b + 1) + ((((l + 1 : ℕ) : Int)) - 1) * c.outPhases.sum) -
      (cum (rate c.inPhases) (a + 1) + (((k + 1 : ℕ) : Int) - 1) * c.inPhases.sum) - mop =
      max 0 (rate c.inPhases a - rate c.outPhases b) - mop - (cum (rate c.inPhases) (a + 1) + k * c.inPhases.sum) + (cum (rate c.outPhases) (b + 1) + l * c.outPhases.sum) := by
    rw [← e1]; ring
  have e2 : 0 + (cum (rate c.outPhases) (b + 1) + ((((l + 1 : ℕ) : Int)) - 1) * c.outPhases.sum) -
      (cum (rate c.inPhases) (a + 1) + (((k + 1 : ℕ) : Int) - 1) * c.inPhases.sum - rate c.inPhases a) - mop - 1 =
      cum (rate c.outPhases) (b + 1) + l * c.outPhases.sum - (cum (rate c.inPhases) a + k * c.inPhases.sum) - mop - 1 := by
    rw [cum_succ (rate c.inPhases) a]; push_cast; ring
  have e3 : cum (rate c.outPhases) (b + 1) + l * c.outPhases.sum - (cum (rate c.inPhases) a + k * c.inPhases.sum) - mop - c.fineGCD =
      -mop - (cum (rate c.inPhases) a + k * c.inPhases.sum) + (cum (rate c.outPhases) (b + 1) + l * c.outPhases.sum) - c.fineGCD := by ring
  rw [e1', e2, hA, e3]
  unfold boundsDefault
  have hden : ¬ r * c.inPhases.sum = 0 := mul_ne_zero hrpos.ne' hc.inPos.ne'
  by_cases hle : ceilMult (max 0 (rate c.inPhases a - rate c.outPhases b) - mop - (cum (rate c.inPhases) (a + 1) + k * c.inPhases.sum) +
      (cum (rate c.outPhases) (b + 1) + l * c.outPhases.sum)) g ≤
      floorMult (-mop - (cum (rate c.inPhases) a + k * c.inPhases.sum) + (cum (rate c.outPhases) (b + 1) + l * c.outPhases.sum) - c.fineGCD) g
  · rw [if_pos hle, if_neg hden]
    refine ⟨_, rfl, fun v => ?_⟩
    simp only [hle, if_true, Option.some.injEq, forall_eq']
    set α := floorMult (-mop - (cum (rate c.inPhases) a + k * c.inPhases.sum) + (cum (rate c.outPhases) (b + 1) + l * c.outPhases.sum) - c.fineGCD) g
    have hw : -(((α : ℚ) * ((c.inPhases.length : ℚ) * Ki)) / (((c.inPhases.sum * Ki : Int) : ℚ) * src.ni)) =
        -((α : ℚ) / ((r : ℚ) * c.inPhases.sum)) := by
      have k1 : (Ki : ℚ) ≠ 0 := by exact_mod_cast hKi.ne'
      have k2 : (c.inPhases.length : ℚ) ≠ 0 := by rw [← hc.srcPhases]; exact_mod_cast hP.ne'
      have k3 : ((c.inPhases.sum : Int) : ℚ) ≠ 0 := by exact_mod_cast hc.inPos.ne'
      have k4 : (r : ℚ) ≠ 0 := by exact_mod_cast hrpos.ne'
      have k5 : (src.ni : ℚ) = (c.inPhases.length : ℚ) * r := by rw [hr, hc.srcPhases]; push_cast; ring
      rw [k5, Int.cast_mul, Int.cast_natCast]
      field_simp
    rw [hw]
    unfold SHolds SRow.Ok Satisfies
    simp only [List.mem_singleton, forall_eq, Bool.false_eq_true, if_false]
    unfold SRow.value
    simp only [Nat.cast_add, Nat.cast_one]
    by_cases hs : (SVar.start ⟨dst.id, (b : Int) + 1, (l : Int) + 1⟩) ≠ (SVar.start ⟨src.id, (a : Int) + 1, (k : Int) + 1⟩)
    · rw [if_pos hs]
      simp only [List.map_cons, List.map_nil, List.sum_cons, List.sum_nil]
      constructor <;> intro h <;> linarith
    · rw [if_neg hs]
      push Not at hs
      rw [hs]
      simp only [List.map_cons, List.map_nil, List.sum_cons, List.sum_nil]
      constructor <;> intro h <;> linarith
  · rw [if_neg hle]
    refine ⟨_, rfl, fun v => ?_⟩
    simp [hle, SHolds]

theorem mem_lpIndices {p ki q kj : ℕ} {x : ℕ × ℕ × ℕ × ℕ} : x ∈ lpIndices p ki q kj ↔
    ∃ a < p, ∃ k < ki, ∃ b < q, ∃ l < kj, x = (a + 1, k + 1, b + 1, l + 1) := by
  unfold lpIndices
  simp only [List.mem_flatMap, List.mem_map, List.mem_range'_1]
  constructor
  · rintro ⟨a, ha, k, hk, b, hb, l, hl, rfl⟩
    exact ⟨a - 1, by omega, k - 1, by omega, b - 1, by omega, l - 1, by omega, by
      rw [Nat.sub_add_cancel (by omega), Nat.sub_add_cancel (by omega), Nat.sub_add_cancel (by omega), Nat.sub_add_cancel (by omega)]⟩
  · rintro ⟨a, ha, k, hk, b, hb, l, hl, rfl⟩
    exact ⟨a + 1, by omega, k + 1, by omega, b + 1, by omega, l + 1, by omega, rfl⟩

/-- The rows of a channel hold exactly when the event constraints of the channel do. -/
theorem lpChannel_spec {src dst : KTask} {c : KChannel} {Ki Kj : ℕ} (hc : ChannelOK c src dst) (hs : TaskOK src 1) (hd : TaskOK dst 1)
    (hKi : 0 < Ki) (hmul : (src.durations.length : Int) ∣ src.ni) :
    ∃ rs cs, lpChannel src dst c Ki Kj = some rs ∧ channelConstraints src dst c Ki Kj = some cs ∧
      ∀ v, SHolds v rs ↔ ∀ e ∈ cs, Satisfies (fun e => v (.start e)) (v .omega) e := by
  have hP : 0 < c.inPhases.length := by rw [← hc.srcPhases]; exact hs.phases
  have hQ : 0 < c.outPhases.length := by rw [← hc.dstPhases]; exact hd.phases
  obtain ⟨mop, hm1, hm2, hm3, cs, hcs, hmem⟩ := channel_spec src dst c Ki Kj hc.noInInit hc.noOutInit hP hQ
    hc.srcPhases hKi hc.inPos hs.ni.ne' hc.gcdPos hc.preload
  have hmoa : cFloor c.preload c.fineGCD = some mop := by
    obtain ⟨a, ha, b1, b2, b3⟩ := cFloor_spec c.preload c.fineGCD hc.gcdPos hc.preload
    rw [ha]
    exact congrArg some (le_antisymm (dvd_lt_add hc.gcdPos b1 hm1 (by omega)) (dvd_lt_add hc.gcdPos hm1 b1 (by omega)))
  obtain ⟨rs, hrs, hiff⟩ := gather_spec (fun x => lpPair src dst c mop (Int.gcd (c.inPhases.sum * Ki) (c.outPhases.sum * Kj))
      (src.ni.tdiv src.durations.length) x.1 x.2.1 x.2.2.1 x.2.2.2)
    (fun v x => ∀ α,
        boundsDefault (max 0 (rate c.inPhases ((x.2.1 - 1) * src.durations.length + (x.1 - 1)) -
            rate c.outPhases ((x.2.2.2 - 1) * dst.durations.length + (x.2.2.1 - 1))) - mop
            - cum (rate c.inPhases) ((x.2.1 - 1) * src.durations.length + (x.1 - 1) + 1) +
            cum (rate c.outPhases) ((x.2.2.2 - 1) * dst.durations.length + (x.2.2.1 - 1) + 1))
          (-mop - cum (rate c.inPhases) ((x.2.1 - 1) * src.durations.length + (x.1 - 1)) +
            cum (rate c.outPhases) ((x.2.2.2 - 1) * dst.durations.length + (x.2.2.1 - 1) + 1) - c.fineGCD)
          (Int.gcd (c.inPhases.sum * Ki) (c.outPhases.sum * Kj)) = some α →
        Satisfies (fun e => v (.start e)) (v .omega)
          { src := ⟨src.id, ((x.1 - 1 : ℕ) : Int) + 1, ((x.2.1 - 1 : ℕ) : Int) + 1⟩,
            dst := ⟨dst.id, ((x.2.2.1 - 1 : ℕ) : Int) + 1, ((x.2.2.2 - 1 : ℕ) : Int) + 1⟩,
            w := -(((α : ℚ) * ((c.inPhases.length : ℚ) * Ki)) / (((c.inPhases.sum * Ki : Int) : ℚ) * src.ni)),
            d := src.dur (x.1 - 1), channel := c.id })
    (lpIndices src.durations.length Ki dst.durations.length Kj)
    (fun x hx => by
      obtain ⟨a, ha, k, hk, b, hb, l, hl, rfl⟩ := mem_lpIndices.mp hx
      simp only [Nat.add_sub_cancel]
      exact lpPair_spec hc hs.phases hd.phases hKi hs.ni hmul hm1 ha hb)
  refine ⟨rs, cs, ?_, hcs, fun v => ?_⟩
  · unfold lpChannel
    rw [hmoa]
    simp only [Option.bind_eq_bind, Option.bind_some]
    rw [if_neg (by have := hs.phases; have := hd.phases; omega), if_neg (by rw [hs.noInit, hd.noInit]; simp),
      Int.mul_comm (Ki : Int), Int.mul_comm (Kj : Int)]
    exact hrs
  · rw [hiff]
    constructor
    · intro H e he
      obtain ⟨m, hm, n, hn, α, hα, rfl⟩ := (hmem e).mp he
      have h1 : m / src.durations.length < Ki := Nat.div_lt_of_lt_mul (by rw [Nat.mul_comm, hc.srcPhases]; exact hm)
      have h2 : n / dst.durations.length < Kj := Nat.div_lt_of_lt_mul (by rw [Nat.mul_comm, hc.dstPhases]; exact hn)
      have := H (m % src.durations.length + 1, m / src.durations.length + 1, n % dst.durations.length + 1, n / dst.durations.length + 1)
        (mem_lpIndices.mpr ⟨_, Nat.mod_lt _ hs.phases, _, h1, _, Nat.mod_lt _ hd.phases, _, h2, rfl⟩) α
      simp only [Nat.add_sub_cancel, Nat.div_add_mod'] at this
      have h3 := this hα
      unfold evAt
      rw [← hc.dstPhases]
      have h4 : src.dur (m % src.durations.length) = src.dur m := by unfold KTask.dur; rw [Nat.mod_mod]
      rw [h4] at h3
      exact h3
    · intro H x hx α hα
      obtain ⟨a, ha, k, hk, b, hb, l, hl, rfl⟩ := mem_lpIndices.mp hx
      simp only [Nat.add_sub_cancel] at hα ⊢
      have b1 : k * src.durations.length + a < Ki * c.inPhases.length := by
        rw [← hc.srcPhases]
        calc k * src.durations.length + a < k * src.durations.length + src.durations.length := by omega
          _ = (k + 1) * src.durations.length := by ring
          _ ≤ Ki * src.durations.length := Nat.mul_le_mul_right _ hk
      have b2 : l * dst.durations.length + b < Kj * c.outPhases.length := by
        rw [← hc.dstPhases]
        calc l * dst.durations.length + b < l * dst.durations.length + dst.durations.length := by omega
          _ = (l + 1) * dst.durations.length := by ring
          _ ≤ Kj * dst.durations.length := Nat.mul_le_mul_right _ hl
      have h3 := H _ ((hmem _).mpr ⟨_, b1, _, b2, α, hα, rfl⟩)
      unfold evAt at h3
      rw [← hc.dstPhases, Nat.add_comm (k * _), Nat.add_comm (l * _), Nat.add_mul_mod_self_right, Nat.add_mul_mod_self_right,
        Nat.mod_eq_of_lt ha, Nat.mod_eq_of_lt hb, Nat.add_mul_div_right _ _ hs.phases, Nat.add_mul_div_right _ _ hd.phases, Nat.div_eq_of_lt ha, Nat.div_eq_of_lt hb] at h3
      have h4 : src.dur (a + k * src.durations.length) = src.dur a := dur_period a
      rw [h4] at h3
      simpa using h3

/-! ### Task rows -/

theorem lpChain_spec (v : SVar → ℚ) (l : List (SVar × ℚ)) : SHolds v (lpChain l none) ↔
    ∀ n (h : n + 1 < l.length), v l[n].1 + l[n].2 ≤ v (l[n + 1]).1 := by
  have key : ∀ (l : List (SVar × ℚ)) (y : SVar × ℚ), SHolds v (lpChain l (some y)) ↔
      ∀ n (h : n + 1 < (y :: l).length), v (y :: l)[n].1 + (y :: l)[n].2 ≤ v ((y :: l)[n + 1]).1 := by
    intro l
    induction l with
    | nil => intro y; simp [lpChain, SHolds]
    | cons x l ih =>
      intro y
      unfold lpChain
      rw [← List.singleton_append, srows_append, ih]
      unfold SHolds SRow.Ok SRow.value
      simp only [List.mem_singleton, forall_eq, Bool.false_eq_true, if_false, List.map_cons, List.map_nil, List.sum_cons, List.sum_nil]
      constructor
      · rintro ⟨h1, h2⟩ n hn
        cases n with
        | zero => simp only [List.getElem_cons_zero, List.getElem_cons_succ]; linarith
        | succ n => exact h2 n (by simpa using hn)
      · intro H
        refine ⟨?_, fun n hn => ?_⟩
        · have := H 0 (by simp)
          simp only [List.getElem_cons_zero, List.getElem_cons_succ] at this
          linarith
        · exact H (n + 1) (by simpa using hn)
  cases l with
  | nil => simp [lpChain, SHolds]
  | cons x l => unfold lpChain; exact key l x

theorem lpExecutions_eq {t : KTask} {K : ℕ} (ht : TaskOK t K) :
    lpExecutions t K = some ((List.range (K * t.durations.length)).map fun x => (SVar.start (evAt t x), t.dur x)) := by
  unfold lpExecutions
  rw [ht.noInit]
  have h1 := loopPairs_eq t.durations.length K ht.phases
  unfold loopPairs at h1
  simp only [ite_self, Nat.zero_add] at h1
  have e : ((List.range' 1 K).flatMap fun (k : ℕ) => (List.range' 1 t.durations.length).map fun (a : ℕ) => (k, a)) =
      (List.range (K * t.durations.length)).map fun x => (x / t.durations.length + 1, x % t.durations.length + 1) := by
    have h2 : ((List.range' 1 K).flatMap fun (k : ℕ) => (List.range' 1 t.durations.length).map fun (a : ℕ) => (k, a)).map
        (fun q : ℕ × ℕ => ((q.1 : Int), (q.2 : Int))) =
        ((List.range (K * t.durations.length)).map fun x => (x / t.durations.length + 1, x % t.durations.length + 1)).map
        (fun q : ℕ × ℕ => ((q.1 : Int), (q.2 : Int))) := by
      rw [List.map_map, List.range'_eq_map_range, List.range'_eq_map_range, List.flatMap_map, List.map_flatMap]
      simp only [List.map_map]
      have : (List.range (K * t.durations.length)).map ((fun q : ℕ × ℕ => ((q.1 : Int), (q.2 : Int))) ∘
          fun x => (x / t.durations.length + 1, x % t.durations.length + 1)) =
          (List.range (K * t.durations.length)).map fun (x : ℕ) =>
            (((x / t.durations.length : ℕ) : Int) + 1, ((x % t.durations.length : ℕ) : Int) + 1) := by
        apply List.map_congr_left; intro x _; simp
      rw [this, ← h1]
      apply List.flatMap_congr
      intro k _
      apply List.map_congr_left
      intro a _
      simp [Nat.add_comm]
    refine List.map_injective_iff.mpr ?_ h2
    rintro ⟨a, b⟩ ⟨c, d⟩ h
    simpa using h
  rw [e]
  simp only [List.length_nil, List.range'_zero, List.mapM_nil, Option.bind_eq_bind, Option.pure_def, Option.bind_some, List.nil_append]
  rw [mapM_some _ (fun x : ℕ × ℕ => (SVar.start ⟨t.id, x.2, x.1⟩, t.dur (x.2 - 1)))]
  · simp only [Option.bind_some, List.map_map, Option.some.injEq]
    apply List.map_congr_left
    intro x _
    simp only [Function.comp, Nat.add_sub_cancel]
    unfold evAt KTask.dur
    simp
  · intro x hx
    obtain ⟨y, hy, rfl⟩ := List.mem_map.mp hx
    simp only [Nat.add_sub_cancel]
    rw [phaseDuration_lt (Nat.mod_lt _ ht.phases)]
    rfl

/-- The rows of a task hold exactly when its event constraints do. -/
theorem lpTask_spec {t : KTask} {K : ℕ} (ht : TaskOK t K) :
    ∃ rs cs, lpTask t K = some rs ∧ selfLoopConstraints t K = some cs ∧
      ∀ v, SHolds v rs ↔ ∀ e ∈ cs, Satisfies (fun e => v (.start e)) (v .omega) e := by
  obtain ⟨cs, hcs, hmem⟩ := selfLoop_spec t K ht.phases ht.k ht.noInit ht.ni.ne'
  obtain ⟨P, hP⟩ : ∃ P, t.durations.length = P + 1 := ⟨t.durations.length - 1, by have := ht.phases; omega⟩
  obtain ⟨k, hk⟩ : ∃ k, K = k + 1 := ⟨K - 1, by have := ht.k; omega⟩
  have hr : ¬ t.reentrancy ≤ 0 := by have := ht.reentrancy; omega
  have ea : evAt t (K * t.durations.length - 1) = ⟨t.id, t.durations.length, K⟩ := by
    unfold evAt
    rw [hP, hk, show (k + 1) * (P + 1) - 1 = P + k * (P + 1) by rw [Nat.add_mul]; omega, Nat.add_mul_mod_self_right,
      Nat.add_mul_div_right _ _ (by omega), Nat.mod_eq_of_lt (by omega), Nat.div_eq_of_lt (by omega)]
    simp
  have eb : evAt t 0 = ⟨t.id, 1, 1⟩ := by unfold evAt; simp
  have ed : t.dur (K * t.durations.length - 1) = t.dur P := by
    unfold KTask.dur
    rw [hP, hk, show (k + 1) * (P + 1) - 1 = P + k * (P + 1) by rw [Nat.add_mul]; omega, Nat.add_mul_mod_self_right]
  have hdP : phaseDuration t (t.durations.length : Int) = some (t.dur P) := by
    rw [hP]; exact phaseDuration_lt (by omega)
  unfold lpTask
  rw [lpExecutions_eq ht]
  simp only [Option.bind_eq_bind, Option.bind_some]
  rw [if_pos (by omega), if_neg ht.ni.ne', hdP]
  refine ⟨_, cs, rfl, hcs, fun v => ?_⟩
  have hlast : SHolds v [⟨(if SVar.start ⟨t.id, 1, 1⟩ ≠ SVar.start ⟨t.id, t.durations.length, K⟩ then
        [(SVar.start ⟨t.id, t.durations.length, K⟩, -1), (SVar.start ⟨t.id, 1, 1⟩, 1)] else []) ++
        [(.omega, - -(((t.durations.length * K : ℕ) : ℚ) / t.ni))], t.dur P, false⟩] ↔
      Satisfies (fun e => v (.start e)) (v .omega) ⟨evAt t (K * t.durations.length - 1), evAt t 0,
        ((t.durations.length : ℚ) * K) / t.ni, t.dur (K * t.durations.length - 1), 0⟩ := by
    rw [ea, eb, ed]
    unfold SHolds SRow.Ok Satisfies
    simp only [List.mem_singleton, forall_eq, Bool.false_eq_true, if_false, neg_neg]
    unfold SRow.value
    push_cast
    split_ifs with hs
    · simp only [List.map_append, List.sum_append, List.map_cons, List.map_nil, List.sum_cons, List.sum_nil]
      constructor <;> intro h <;> linarith
    · push Not at hs
      rw [hs]
      simp only [List.map_append, List.sum_append, List.map_cons, List.map_nil, List.sum_cons, List.sum_nil]
      constructor <;> intro h <;> linarith
  rw [srows_append, lpChain_spec, hlast]
  simp only [List.length_map, List.length_range, List.getElem_map, List.getElem_range]
  constructor
  · rintro ⟨h1, h2⟩ e he
    rcases (hmem e).mp he with ⟨x, hx, rfl⟩ | ⟨_, rfl⟩
    · have := h1 x hx
      unfold Satisfies
      simp only [hr, if_false]
      linarith
    · exact h2
  · intro H
    refine ⟨fun n hn => ?_, H _ ((hmem _).mpr (Or.inr ⟨ht.reentrancy, rfl⟩))⟩
    have := H _ ((hmem _).mpr (Or.inl ⟨n, hn, rfl⟩))
    unfold Satisfies at this
    simp only [hr, if_false] at this
    linarith

end Kiter
