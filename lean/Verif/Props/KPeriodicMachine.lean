/-
Property C119: the K-periodic event graph on 64-bit integers.
-/
import Verif.Model.KPeriodicMachine
import Verif.Lemmas.RepetitionMachine
import Verif.Lemmas.KPeriodicGen
import Mathlib.Tactic.Linarith
import Mathlib.Tactic.FieldSimp
import Mathlib.Tactic.NormNum

set_option autoImplicit false

namespace Kiter
open RepM

/-- A rounding to `p` significant bits, as far as it is used here: integers of at most `p` bits are kept, and the
relative error is at most `2 ^ -p` (half a unit in the last place). -/
structure Rounding (p : Nat) (rnd : ℚ → ℚ) : Prop where
  int : ∀ z : Int, |z| < 2 ^ p → rnd z = z
  err : ∀ x : ℚ, |rnd x - x| ≤ |x| / 2 ^ p

/-- The values of a channel are those of a valid graph and fit in a `long` together: the initial tokens, the step, and
twice what either end moves in its initial phases and in `K` periods. The totals of a period fit in an `int`. -/
structure FitsLong (c : KChannel) (ki kj : Nat) : Prop where
  rates : (∀ r ∈ c.inPhases, 0 ≤ r) ∧ (∀ r ∈ c.outPhases, 0 ≤ r) ∧ (∀ r ∈ c.inInit, 0 ≤ r) ∧ ∀ r ∈ c.outInit, 0 ≤ r
  preload : 0 ≤ c.preload
  step : 0 < c.fineGCD
  totals : c.inPhases.sum ≤ 2 ^ 31 - 1 ∧ c.outPhases.sum ≤ 2 ^ 31 - 1
  fits : c.preload + c.fineGCD + 2 * (c.inInit.sum + c.inPhases.sum * ki) + 2 * (c.outInit.sum + c.outPhases.sum * kj) ≤ 2 ^ 63 - 1

namespace KM

theorem nearest_rounding (p : Nat) (hp : 0 < p) : Rounding p (nearest p) := by
  have two : ∀ e : Int, (0 : ℚ) < 2 ^ e := fun e => zpow_pos (by norm_num) e
  refine ⟨fun z hz => ?_, fun x => ?_⟩
  · unfold nearest
    split
    · rename_i h; rw [h]
    · rename_i h
      have h0 : (z : ℚ) ≠ 0 := h
      have hzp : (0 : ℚ) < |(z : ℚ)| := abs_pos.2 h0
      have hlog : Int.log 2 |(z : ℚ)| ≤ (p : Int) - 1 := by
        have h1 : (2 : ℚ) ^ Int.log 2 |(z : ℚ)| ≤ |(z : ℚ)| := by
          have := Int.zpow_log_le_self (b := 2) (by norm_num) hzp
          exact_mod_cast this
        have h2 : |(z : ℚ)| < (2 : ℚ) ^ (p : Int) := by
          rw [zpow_natCast]; exact_mod_cast hz
        have h3 : (2 : ℚ) ^ Int.log 2 |(z : ℚ)| < (2 : ℚ) ^ (p : Int) := lt_of_le_of_lt h1 h2
        have := (zpow_lt_zpow_iff_right₀ (by norm_num : (1 : ℚ) < 2)).1 h3
        omega
      obtain ⟨n, hn⟩ : ∃ n : ℕ, (p : Int) - 1 - Int.log 2 |(z : ℚ)| = n := ⟨_, (Int.toNat_of_nonneg (by omega)).symm⟩
      rw [hn, zpow_natCast]
      have : (z : ℚ) * 2 ^ n = ((z * 2 ^ n : Int) : ℚ) := by push_cast; rfl
      rw [this, round_intCast]
      push_cast
      field_simp
  · unfold nearest
    split
    · rename_i h; rw [h]; simp
    · rename_i h0
      have hxp : (0 : ℚ) < |x| := abs_pos.2 h0
      set e := Int.log 2 |x| with he
      set s : ℚ := 2 ^ ((p : Int) - 1 - e) with hs
      have hs0 : 0 < s := two _
      have h1 : (2 : ℚ) ^ e ≤ |x| := by
        have := Int.zpow_log_le_self (b := 2) (by norm_num) hxp
        exact_mod_cast this
      have h2 : |x * s - (round (x * s) : ℚ)| ≤ 1 / 2 := abs_sub_round _
      have h3 : (round (x * s) : ℚ) / s - x = -(x * s - round (x * s)) / s := by field_simp; ring
      rw [h3, abs_div, abs_neg, abs_of_pos hs0, div_le_div_iff₀ hs0 (by positivity)]
      have h4 : (2 : ℚ) ^ p = 2 * (2 ^ e * s) := by
        rw [hs, ← zpow_add₀ (by norm_num)]
        have : (e + ((p : Int) - 1 - e)) = ((p - 1 : ℕ) : Int) := by omega
        rw [this, zpow_natCast, ← pow_succ']
        congr 1; omega
      rw [h4]
      calc |x * s - (round (x * s) : ℚ)| * (2 * (2 ^ e * s)) ≤ 1 / 2 * (2 * (2 ^ e * s)) := by
            apply mul_le_mul_of_nonneg_right h2
            have := two e
            positivity
        _ = 2 ^ e * s := by ring
        _ ≤ |x| * s := mul_le_mul_of_nonneg_right h1 hs0.le

theorem long_ok {x : Int} (h : -longMax ≤ x) (h' : x ≤ longMax) : long x = some x := by
  unfold long; rw [if_pos]; constructor <;> omega

end KM

/-- **C119** `commons::floor` on 64-bit integers is exact although it goes through a rounded quotient, if the format has
64 significant bits: for every divisor and every dividend the result is the greatest multiple below. -/
theorem C119_floor_exact {rnd : ℚ → ℚ} (h : Rounding 64 rnd) {v c : Int} (hv : |v| ≤ 2 ^ 63) (hc : 0 < c) :
    ⌊rnd ((v : ℚ) / c)⌋ = ⌊(v : ℚ) / c⌋ := by
  have hcq : (0 : ℚ) < c := by exact_mod_cast hc
  have hvq : |(v : ℚ)| ≤ 2 ^ 63 := by exact_mod_cast hv
  set n := ⌊(v : ℚ) / c⌋ with hn
  by_cases hd : (v : ℚ) / c = n
  · have hn64 : |n| < 2 ^ 64 := by
      have : |(n : ℚ)| < 2 ^ 64 := by
        rw [← hd, abs_div, abs_of_pos hcq, div_lt_iff₀ hcq]
        have : (1 : ℚ) ≤ c := by exact_mod_cast hc
        nlinarith
      exact_mod_cast this
    rw [hd, h.int n hn64, Int.floor_intCast]
  · have h1 : (n : ℚ) ≤ v / c := Int.floor_le _
    have h2 : (v : ℚ) / c < n + 1 := Int.lt_floor_add_one _
    -- the quotient is at least `1 / c` away from both integers
    have h3 : (n : ℚ) + 1 / c ≤ v / c := by
      have a : (n : ℚ) < v / c := lt_of_le_of_ne h1 (Ne.symm hd)
      rw [lt_div_iff₀ hcq] at a
      have b : n * c < v := by exact_mod_cast a
      have b' : ((n * c + 1 : Int) : ℚ) ≤ v := by exact_mod_cast b
      push_cast at b'
      rw [le_div_iff₀ hcq]
      field_simp
      linarith
    have h4 : (v : ℚ) / c + 1 / c ≤ n + 1 := by
      rw [div_lt_iff₀ hcq] at h2
      have b : v < (n + 1) * c := by exact_mod_cast h2
      have b' : ((v + 1 : Int) : ℚ) ≤ ((n + 1) * c : Int) := by exact_mod_cast b
      push_cast at b'
      rw [← add_div, div_le_iff₀ hcq]
      linarith
    have h5 := h.err ((v : ℚ) / c)
    have h6 : |(v : ℚ) / c| / 2 ^ 64 ≤ 1 / c / 2 := by
      rw [abs_div, abs_of_pos hcq, div_div, div_div, div_le_div_iff₀ (by positivity) (by positivity)]
      nlinarith
    have h7 : (0 : ℚ) < 1 / c := by positivity
    have h8 := abs_le.1 (h5.trans h6)
    rw [Int.floor_eq_iff]
    constructor <;> linarith [h8.1, h8.2]

/-- **C119** With 53 significant bits (`long double` is `double` on some platforms) it is not: half of an odd number of
62 bits is rounded up, and the result is larger than the argument. -/
theorem C119_floor_double :
    KM.floor (KM.nearest 53) (2 ^ 62 - 1) 2 = some (2 ^ 62) ∧ cFloor (2 ^ 62 - 1) 2 = some (2 ^ 62 - 2) := by
  constructor <;> decide +kernel

namespace KM

theorem floor_eq {rnd : ℚ → ℚ} (h : Rounding 64 rnd) {v c : Int} (h0 : 0 ≤ v) (hv : v ≤ longMax) (hc : 0 < c) :
    ∃ m, floor rnd v c = some m ∧ cFloor v c = some m ∧ 0 ≤ m ∧ m ≤ v := by
  have hcq : (0 : ℚ) < c := by exact_mod_cast hc
  have hL : longMax = 2 ^ 63 - 1 := rfl
  have e := C119_floor_exact h (v := v) (c := c) (by rw [abs_of_nonneg h0]; omega) hc
  have a0 : 0 ≤ ⌊(v : ℚ) / c⌋ := Int.floor_nonneg.2 (by have : (0 : ℚ) ≤ v := by exact_mod_cast h0
                                                        positivity)
  have a1 : ⌊(v : ℚ) / c⌋ * c ≤ v := by
    have := Int.floor_le ((v : ℚ) / c)
    rw [le_div_iff₀ hcq] at this
    exact_mod_cast this
  have a2 : ⌊(v : ℚ) / c⌋ ≤ v := by nlinarith
  have a3 : 0 ≤ ⌊(v : ℚ) / c⌋ * c := mul_nonneg a0 hc.le
  refine ⟨⌊(v : ℚ) / c⌋ * c, ?_, by unfold cFloor; rw [if_neg hc.ne'], a3, a1⟩
  unfold floor
  rw [if_neg hc.ne', e, long_ok (by omega) (by omega), Option.bind_some, long_ok (by omega) (by omega)]

/-- What the visited executions still move. -/
def moved (init per : List Int) (l : List (Int × Int)) : Int := (l.map fun x => (phaseRate init per x.2).getD 0).sum

theorem getD_nonneg {init per : List Int} (h1 : ∀ r ∈ init, 0 ≤ r) (h2 : ∀ r ∈ per, 0 ≤ r) (k : Int) :
    0 ≤ (phaseRate init per k).getD 0 := by
  have aux : ∀ (l : List Int) (k : Int), (∀ r ∈ l, 0 ≤ r) → 0 ≤ (at1 l k).getD 0 := by
    intro l k hl
    unfold at1
    split
    · rcases h : l[(k - 1).toNat]? with _ | x
      · simp
      · exact hl x (List.mem_of_getElem? h)
    · simp
  unfold phaseRate
  split
  · exact aux _ _ h1
  · exact aux _ _ h2

theorem moved_nonneg {init per : List Int} (h1 : ∀ r ∈ init, 0 ≤ r) (h2 : ∀ r ∈ per, 0 ≤ r) (l : List (Int × Int)) :
    0 ≤ moved init per l := by
  apply List.sum_nonneg
  intro x hx
  obtain ⟨y, -, rfl⟩ := List.mem_map.1 hx
  exact getD_nonneg h1 h2 _

theorem moved_pairs (init per : List Int) (K : Nat) (hi : ∀ r ∈ init, 0 ≤ r) :
    moved init per (loopPairs init.length per.length K) ≤ init.sum + per.sum * K := by
  have hper : ((List.range per.length).map fun (p : Nat) => (phaseRate init per ((p : Int) + 1)).getD 0) = per := by
    apply List.ext_getElem (by simp)
    intro n h1 h2
    simp only [List.getElem_map, List.getElem_range]
    unfold phaseRate at1
    rw [if_neg (by omega), if_pos (by omega)]
    have : ((n : Int) + 1 - 1).toNat = n := by omega
    rw [this, List.getElem?_eq_getElem h2, Option.getD_some]
  have hin : ((List.range init.length).map fun (p : Nat) => (phaseRate init per ((p : Int) + 1 - init.length)).getD 0) = init := by
    apply List.ext_getElem (by simp)
    intro n h1 h2
    simp only [List.getElem_map, List.getElem_range]
    unfold phaseRate at1
    rw [if_pos (by omega), if_pos (by omega)]
    have : ((n : Int) + 1 - init.length + init.length - 1).toNat = n := by omega
    rw [this, List.getElem?_eq_getElem h2, Option.getD_some]
  have hpos : 0 ≤ init.sum := List.sum_nonneg hi
  induction K with
  | zero => simpa [loopPairs, moved] using hpos
  | succ K ih =>
    have hl : loopPairs init.length per.length (K + 1) = loopPairs init.length per.length K ++
        (let i := if K = 0 then init.length else 0
         (List.range (i + per.length)).map fun (p : Nat) => ((K : Int) + 1, (p : Int) + 1 - i)) := by
      unfold loopPairs
      rw [List.range_succ, List.flatMap_append]
      simp
    unfold moved at ih ⊢
    rw [hl, List.map_append, List.sum_append]
    by_cases hK : K = 0
    · subst hK
      simp only [if_true, List.map_map, loopPairs, List.range_zero, List.flatMap_nil, List.map_nil, List.sum_nil]
      rw [List.range_add, List.map_append, List.sum_append, List.map_map]
      have e1 : (List.range init.length).map ((fun x : Int × Int => (phaseRate init per x.2).getD 0) ∘
          fun (p : Nat) => (((0 : Nat) : Int) + 1, (p : Int) + 1 - init.length)) = init := hin
      have e2 : (List.range per.length).map (((fun x : Int × Int => (phaseRate init per x.2).getD 0) ∘
          fun (p : Nat) => (((0 : Nat) : Int) + 1, (p : Int) + 1 - init.length)) ∘ fun x => init.length + x) = per := by
        conv_rhs => rw [← hper]
        apply List.map_congr_left
        intro p _
        simp only [Function.comp]
        congr 2
        push_cast; omega
      rw [e1, e2]
      simp
    · simp only [if_neg hK, List.map_map, Nat.zero_add]
      have e2 : (List.range per.length).map ((fun x : Int × Int => (phaseRate init per x.2).getD 0) ∘
          fun (p : Nat) => ((K : Int) + 1, (p : Int) + 1 - ((0 : Nat) : Int))) = per := by
        conv_rhs => rw [← hper]
        apply List.map_congr_left
        intro p _
        simp only [Function.comp]
        congr 2
      rw [e2]
      push_cast
      linarith

theorem tmod_bounds (l : Int) {g : Int} (hg : 0 < g) : -g < l.tmod g ∧ l.tmod g < g := by
  constructor
  · have := Int.lt_tmod_of_pos l hg; omega
  · exact Int.tmod_lt_of_pos l hg

theorem floorMult_eq {l g : Int} (hg : 0 < g) (h1 : -longMax ≤ l - g) (h2 : l + g ≤ longMax) :
    floorMult l g = some (Kiter.floorMult l g) := by
  have := tmod_bounds l hg
  unfold floorMult Kiter.floorMult
  rw [long_ok (by omega) (by omega), Option.bind_some]
  simp only
  split
  · rfl
  · rw [long_ok (by omega) (by omega)]

theorem ceilMult_eq {l g : Int} (hg : 0 < g) (h1 : -longMax ≤ l - g) (h2 : l + g ≤ longMax) :
    ceilMult l g = some (Kiter.ceilMult l g) := by
  have := tmod_bounds l hg
  unfold ceilMult Kiter.ceilMult
  rw [long_ok (by omega) (by omega), Option.bind_some]
  simp only
  split
  · rfl
  · rw [long_ok (by omega) (by omega)]

theorem inner_eq (x : KCtx) (ki pi wak dapkm1 dapk : Int) (d : ℚ) {I O : Int} (hg : 0 < x.gcdz)
    (hr : (∀ r ∈ x.ch.outInit, 0 ≤ r) ∧ ∀ r ∈ x.ch.outPhases, 0 ≤ r) (hm : 0 ≤ x.mop) (hs : 0 < x.ch.fineGCD)
    (h1 : 0 ≤ wak ∧ wak ≤ I) (h2 : 0 ≤ dapkm1 ∧ dapkm1 ≤ I) (h3 : 0 ≤ dapk ∧ dapk ≤ I)
    (hb : x.mop + x.ch.fineGCD + I + O + x.gcdz ≤ longMax) : ∀ (l : List (Int × Int)) (damkp : Int), 0 ≤ damkp →
      damkp + moved x.ch.outInit x.ch.outPhases l ≤ O →
      innerLoop x ki pi wak dapkm1 dapk d l damkp = Kiter.innerLoop x ki pi wak dapkm1 dapk d l damkp := by
  intro l
  induction l with
  | nil => intro _ _ _; rfl
  | cons a l ih =>
    obtain ⟨kj, pj⟩ := a
    intro damkp h0 hO
    unfold innerLoop Kiter.innerLoop
    rcases hv : phaseRate x.ch.outInit x.ch.outPhases pj with _ | v
    · rfl
    have hv0 : 0 ≤ v := by have := getD_nonneg hr.1 hr.2 pj; rw [hv] at this; exact this
    have hO' : damkp + (v + moved x.ch.outInit x.ch.outPhases l) ≤ O := by
      unfold moved at hO ⊢
      rw [List.map_cons, List.sum_cons] at hO
      simp only [hv, Option.getD_some] at hO
      exact hO
    have hl0 := moved_nonneg hr.1 hr.2 l
    simp only [Option.bind_some, Option.bind_eq_bind]
    rw [long_ok (by omega) (by omega), Option.bind_some]
    have hlmax : lpimax x.mop dapkm1 (damkp + v) x.ch.fineGCD = some (-x.mop - dapkm1 + (damkp + v) - x.ch.fineGCD) := by
      unfold lpimax
      rw [long_ok (by omega) (by omega), Option.bind_some, long_ok (by omega) (by omega), Option.bind_some,
        long_ok (by omega) (by omega), Option.bind_some, long_ok (by omega) (by omega)]
    have hlmin : lpimin wak v x.mop dapk (damkp + v) = some (max 0 (wak - v) - x.mop - dapk + (damkp + v)) := by
      unfold lpimin
      rw [long_ok (by omega) (by omega), Option.bind_some, long_ok (by omega) (by omega), Option.bind_some,
        long_ok (by omega) (by omega), Option.bind_some, long_ok (by omega) (by omega)]
    have hpair : pair x ki pi kj pj wak v dapkm1 dapk (damkp + v) d =
        some (match boundsDefault (max 0 (wak - v) - x.mop - dapk + (damkp + v)) (-x.mop - dapkm1 + (damkp + v) - x.ch.fineGCD) x.gcdz with
          | none => []
          | some amax => [⟨⟨x.src.id, pi, ki⟩, ⟨x.dst.id, pj, kj⟩, -(((amax : ℚ) * x.kiPhases) / x.den), d, x.ch.id⟩]) := by
      unfold pair
      rw [hlmax, Option.bind_some, floorMult_eq hg (by omega) (by omega), Option.bind_some, hlmin, Option.bind_some,
        ceilMult_eq hg (by omega) (by omega), Option.bind_some]
      unfold boundsDefault
      split <;> simp_all
    rw [hpair, Option.bind_some, ih (damkp + v) (by omega) (by omega)]
    rcases Kiter.innerLoop x ki pi wak dapkm1 dapk d l (damkp + v) with _ | tail
    · rfl
    · simp only [Option.bind_some]
      split <;> simp_all

theorem outer_eq (x : KCtx) (targets : List (Int × Int)) {I O : Int} (hg : 0 < x.gcdz)
    (hr : (∀ r ∈ x.ch.inInit, 0 ≤ r) ∧ ∀ r ∈ x.ch.inPhases, 0 ≤ r)
    (hr' : (∀ r ∈ x.ch.outInit, 0 ≤ r) ∧ ∀ r ∈ x.ch.outPhases, 0 ≤ r) (hm : 0 ≤ x.mop) (hs : 0 < x.ch.fineGCD)
    (ht : moved x.ch.outInit x.ch.outPhases targets ≤ O)
    (hb : x.mop + x.ch.fineGCD + I + O + x.gcdz ≤ longMax) : ∀ (l : List (Int × Int)) (a b : Int), 0 ≤ a → a ≤ I → 0 ≤ b →
      b + moved x.ch.inInit x.ch.inPhases l ≤ I →
      outerLoop x targets l a b = Kiter.outerLoop x targets l a b := by
  intro l
  induction l with
  | nil => intros; rfl
  | cons e l ih =>
    obtain ⟨ki, pi⟩ := e
    intro a b ha haI hb0 hbI
    have hO0 := moved_nonneg hr'.1 hr'.2 targets
    unfold outerLoop Kiter.outerLoop
    rcases phaseDuration x.src pi with _ | d
    · rfl
    simp only [Option.bind_some, Option.bind_eq_bind]
    rcases hv : phaseRate x.ch.inInit x.ch.inPhases pi with _ | v
    · rfl
    have hv0 : 0 ≤ v := by have := getD_nonneg hr.1 hr.2 pi; rw [hv] at this; exact this
    have hI' : b + (v + moved x.ch.inInit x.ch.inPhases l) ≤ I := by
      unfold moved at hbI ⊢
      rw [List.map_cons, List.sum_cons] at hbI
      simp only [hv, Option.getD_some] at hbI
      exact hbI
    have hl0 := moved_nonneg hr.1 hr.2 l
    simp only [Option.bind_some]
    rw [long_ok (by omega) (by omega), Option.bind_some,
      inner_eq x ki pi v a (b + v) d (I := I) (O := O) hg hr' hm hs ⟨hv0, by omega⟩ ⟨ha, haI⟩ ⟨by omega, by omega⟩ hb targets 0 le_rfl
        (by omega), ih (b + v) (b + v) (by omega) (by omega) (by omega) (by omega)]
    rfl

end KM

/-- **C119** On a channel whose values fit, no operation of the generation of its constraints overflows, and the
constraints are those of exact arithmetic. -/
theorem C119_channel {rnd : ℚ → ℚ} (hrnd : Rounding 64 rnd) {c : KChannel} {ki kj : Nat} (h : FitsLong c ki kj)
    (src dst : KTask) : KM.channelConstraints rnd src dst c ki kj = channelConstraints src dst c ki kj := by
  obtain ⟨⟨r1, r2, r3, r4⟩, hp, hs, ⟨t1, t2⟩, hf⟩ := h
  have hL : longMax = 2 ^ 63 - 1 := rfl
  have hI : intMax = 2 ^ 31 - 1 := rfl
  rw [← hL] at hf
  rw [← hI] at t1 t2
  have s1 : 0 ≤ c.inPhases.sum := List.sum_nonneg r1
  have s2 : 0 ≤ c.outPhases.sum := List.sum_nonneg r2
  have s3 : 0 ≤ c.inInit.sum := List.sum_nonneg r3
  have s4 : 0 ≤ c.outInit.sum := List.sum_nonneg r4
  have w0 : 0 ≤ c.inPhases.sum * (ki : Int) := mul_nonneg s1 (by omega)
  have w1 : 0 ≤ c.outPhases.sum * (kj : Int) := mul_nonneg s2 (by omega)
  have m1 := KM.moved_pairs c.inInit c.inPhases ki r3
  have m2 := KM.moved_pairs c.outInit c.outPhases kj r4
  obtain ⟨mop, f1, f2, f3, f4⟩ := KM.floor_eq hrnd hp (by omega) hs
  unfold KM.channelConstraints channelConstraints
  rw [f1, f2, total_eq _ 0 le_rfl r1 (by omega), total_eq _ 0 le_rfl r2 (by omega)]
  simp only [Option.bind_some, Option.bind_eq_bind, zero_add]
  set wc := c.inPhases.sum * (ki : Int) with hwc
  set rc := c.outPhases.sum * (kj : Int) with hrc
  have hgb : (Int.gcd wc rc : Int) ≤ wc + rc := by
    rcases eq_or_lt_of_le w0 with e | e
    · rw [← e, Int.gcd_zero_left]; omega
    · have := Int.le_of_dvd e (Int.gcd_dvd_left wc rc); omega
  rw [KM.long_ok (by omega) (by omega), Option.bind_some, KM.long_ok (by omega) (by omega), Option.bind_some,
    KM.long_ok (by omega) (by omega), Option.bind_some]
  split
  · rfl
  · rename_i hne
    push Not at hne
    have hg : 0 < (Int.gcd wc rc : Int) := by
      have := hne.1; omega
    have hb : mop + c.fineGCD + (c.inInit.sum + wc) + (c.outInit.sum + rc) + (Int.gcd wc rc : Int) ≤ longMax := by omega
    have m1' : 0 + KM.moved c.inInit c.inPhases (loopPairs c.inInit.length c.inPhases.length ki) ≤ c.inInit.sum + wc := by omega
    exact KM.outer_eq ⟨src, dst, c, mop, wc, Int.gcd wc rc, (c.inPhases.length : ℚ) * ki, (wc : ℚ) * src.ni⟩ _
      (I := c.inInit.sum + wc) (O := c.outInit.sum + rc) hg ⟨r3, r1⟩ ⟨r4, r2⟩ f3 hs m2 hb _ 0 0 le_rfl (by omega) le_rfl m1'

theorem KM.collect_congr {α : Type} {f f' : α → Option (List EvConstraint)} : ∀ {l : List α}, (∀ a ∈ l, f a = f' a) →
    collect f l = collect f' l
  | [], _ => rfl
  | a :: l, h => by
    unfold collect
    rw [h a (by simp), KM.collect_congr fun b hb => h b (by simp [hb])]

/-- **C119** If the values of every channel fit, for the periodicities in use, and phases times periodicity fit for every
task, then the whole event graph is built without overflow and is the one of exact arithmetic. -/
theorem C119_event_graph {rnd : ℚ → ℚ} (hrnd : Rounding 64 rnd) {g : KGraph}
    (ht : ∀ t ∈ g.tasks, (t.1.durations.length : Int) * t.2 ≤ 2 ^ 63 - 1)
    (hc : ∀ c ∈ g.channels, FitsLong c.1 c.2.1.2 c.2.2.2) : KM.eventGraph rnd g = eventGraph g := by
  have hL : longMax = 2 ^ 63 - 1 := rfl
  unfold KM.eventGraph eventGraph
  rw [KM.collect_congr (f' := fun tk => selfLoopConstraints tk.1 tk.2), KM.collect_congr fun c hc' => C119_channel hrnd (hc c hc') _ _]
  · rfl
  · intro t htm
    unfold KM.selfLoopConstraints
    rw [if_neg]
    rw [KM.long_ok (by have : (0 : Int) ≤ (t.1.durations.length : Int) * t.2 := by positivity
                       omega) (by rw [hL]; exact ht t htm)]
    simp

/-- **C119** What fits for a periodicity fits for every smaller one: it is enough to look at the largest vector an
exploration may reach. -/
theorem C119_smaller {c : KChannel} {ki kj ki' kj' : Nat} (h : FitsLong c ki kj) (hi : ki' ≤ ki) (hj : kj' ≤ kj) :
    FitsLong c ki' kj' := by
  refine ⟨h.rates, h.preload, h.step, h.totals, le_trans ?_ h.fits⟩
  have s1 : 0 ≤ c.inPhases.sum := List.sum_nonneg h.rates.1
  have s2 : 0 ≤ c.outPhases.sum := List.sum_nonneg h.rates.2.1
  have a := mul_le_mul_of_nonneg_left (show (ki' : Int) ≤ ki by exact_mod_cast hi) s1
  have b := mul_le_mul_of_nonneg_left (show (kj' : Int) ≤ kj by exact_mod_cast hj) s2
  linarith

namespace KMExample

/-- Two tasks of one phase. -/
def a : KTask := ⟨1, [1], [], 0, 1⟩
/-- The target. -/
def b : KTask := ⟨2, [2], [], 0, 1⟩

end KMExample
open KMExample

/-- **C119** The bound on the initial tokens is needed: with as many as a `long` can hold and rates of five, a difference
overflows. -/
theorem C119_overflow_counterexample :
    let c : KChannel := ⟨1, [5], [5], [], [], 2 ^ 63 - 1, 5⟩
    KM.channelConstraints (KM.nearest 64) a b c 1 1 = none ∧ (channelConstraints a b c 1 1).isSome := by
  constructor <;> decide +kernel

/-- **C119** The bound on the totals is needed: rates of `2 ^ 31` are added up in an `int` and become negative, and the
constraint comes with the opposite weight. With one token the target may start one period before the end of the source;
the machine asks for one period after it. -/
theorem C119_rate_counterexample :
    let c : KChannel := ⟨1, [2 ^ 31], [2 ^ 31], [], [], 2 ^ 31, 2 ^ 31⟩
    KM.channelConstraints (KM.nearest 64) a b c 1 1 = some [⟨⟨1, 1, 1⟩, ⟨2, 1, 1⟩, -1, 1, 1⟩] ∧
      channelConstraints a b c 1 1 = some [⟨⟨1, 1, 1⟩, ⟨2, 1, 1⟩, 1, 1, 1⟩] := by
  constructor <;> decide +kernel

/-- A channel meeting the bounds for periodicities up to a million. -/
example : FitsLong ⟨1, [3, 0, 1], [2], [7], [], 1000, 1⟩ 1000000 2000000 := by
  refine ⟨by simp, by norm_num, by norm_num, by norm_num, by norm_num⟩

/-- The rounding of x86 meets the hypothesis. -/
example : Rounding 64 (KM.nearest 64) := KM.nearest_rounding 64 (by norm_num)

example : KM.eventGraph (KM.nearest 64) ⟨[(a, 2), (b, 2)], [(⟨1, [1], [1], [], [], 0, 1⟩, (a, 2), (b, 2))]⟩ =
    eventGraph ⟨[(a, 2), (b, 2)], [(⟨1, [1], [1], [], [], 0, 1⟩, (a, 2), (b, 2))]⟩ :=
  C119_event_graph (KM.nearest_rounding 64 (by norm_num)) (by decide) (by
    intro c hc
    rw [List.mem_singleton.1 hc]
    refine ⟨by simp, by norm_num, by norm_num, by norm_num, by norm_num⟩)

end Kiter
