/-
C114: what the constraints printed by `PartialExpansion` mean.
-/
import Verif.Model.Expansion
import Verif.Spec.Expansion
import Verif.Props.Normalization
import Mathlib.Tactic.Ring
import Mathlib.Tactic.Linarith
import Mathlib.Tactic.FieldSimp
import Mathlib.Tactic.Push
import Mathlib.Tactic.NormNum
import Mathlib.Data.Int.GCD

set_option autoImplicit false

namespace Kiter

namespace Expand

variable {nV nE : Nat}

/-- The starts `s` of the first executions, with `Ω` time units per token, meet a constraint. -/
def Sat (s : Fin nV → ℕ → ℚ) (Ω : ℚ) (c : Con nV) : Prop := s c.src c.i + c.d - c.w * Ω ≤ s c.tgt c.j

/-- Every multiple of the common divisor is a difference of non-negative multiples. -/
theorem multiples {p q : Int} (hp : 0 < p) (hq : 0 < q) (t : Int) :
    ∃ a b : ℕ, (a : Int) * p - b * q = t * Int.gcd p q := by
  have e : (Int.gcd p q : Int) = p * Int.gcdA p q + q * Int.gcdB p q := Int.gcd_eq_gcd_ab p q
  -- shift both coefficients by a large multiple
  set u := t * Int.gcdA p q with hu
  set v := -(t * Int.gcdB p q) with hv
  have e2 : u * p - v * q = t * Int.gcd p q := by rw [e]; simp only [hu, hv]; ring
  have h1 : 0 ≤ u + (|u| + |v|) * q := by
    have := neg_abs_le u
    nlinarith [abs_nonneg u, abs_nonneg v]
  have h2 : 0 ≤ v + (|u| + |v|) * p := by
    have := neg_abs_le v
    nlinarith [abs_nonneg u, abs_nonneg v]
  refine ⟨(u + (|u| + |v|) * q).toNat, (v + (|u| + |v|) * p).toNat, ?_⟩
  rw [Int.toNat_of_nonneg h1, Int.toNat_of_nonneg h2, ← e2]
  ring

theorem mod_small {α K r : ℕ} (h : r < K) : (α * K + r) % K = r := by
  rw [Nat.mul_add_mod_self_right, Nat.mod_eq_of_lt h]

end Expand

open Expand

variable {nV nE : Nat}

theorem order_step {s : ℕ → ℚ} {K : ℕ} (hK : 1 ≤ K) {z : Int} {Ω : ℚ} (h1 : ∀ a, 1 ≤ a → a < K → s a ≤ s (a + 1))
    (h2 : s K ≤ s 1 + K * z * Ω) (n : ℕ) : RepeatedStart s K z Ω n ≤ RepeatedStart s K z Ω (n + 1) := by
  unfold RepeatedStart
  have hlt := Nat.mod_lt n (show 0 < K by omega)
  by_cases hl : n % K + 1 < K
  · have e1 : (n + 1) % K = n % K + 1 := by rw [Nat.add_mod_eq_ite, Nat.mod_eq_of_lt (show 1 < K by omega), if_neg (by omega)]
    have e2 : (n + 1) / K = n / K := by
      have a := Nat.div_add_mod n K
      have b := Nat.div_add_mod (n + 1) K
      rw [e1] at b
      exact Nat.eq_of_mul_eq_mul_left (show 0 < K by omega) (by omega)
    rw [e1, e2]
    have := h1 (n % K + 1) (by omega) hl
    linarith
  · have e0 : n % K + 1 = K := by omega
    have b := Nat.div_add_mod n K
    have e3 : n + 1 = K * (n / K + 1) := by rw [Nat.mul_add]; omega
    have e1 : (n + 1) % K = 0 := by rw [e3]; exact Nat.mul_mod_right _ _
    have e2 : (n + 1) / K = n / K + 1 := by rw [e3]; exact Nat.mul_div_cancel_left _ (by omega)
    rw [e1, e2, e0]
    push_cast
    nlinarith

/-- **C114** The constraints between the executions of one task say exactly that its executions start in order, for ever. -/
theorem C114_order (t : Fin nV) {K : ℕ} (hK : 1 ≤ K) (z : Int) (s : Fin nV → ℕ → ℚ) (Ω : ℚ) :
    (∀ c ∈ e1 t K ++ e2 t K z, Sat s Ω c) ↔
      ∀ n m, n ≤ m → RepeatedStart (s t) K z Ω n ≤ RepeatedStart (s t) K z Ω m := by
  constructor
  · intro h n m hnm
    have h1 : ∀ a, 1 ≤ a → a < K → s t a ≤ s t (a + 1) := by
      intro a ha hb
      have := h ⟨t, a - 1 + 1, t, a - 1 + 2, 0, 0⟩
        (List.mem_append_left _ (List.mem_map.2 ⟨a - 1, List.mem_range.2 (by omega), rfl⟩))
      unfold Sat at this
      rw [show a - 1 + 1 = a by omega, show a - 1 + 2 = a + 1 by omega] at this
      simpa using this
    have h2 : s t K ≤ s t 1 + K * z * Ω := by
      have := h ⟨t, K, t, 1, (z * K : Int), 0⟩ (List.mem_append_right _ (List.mem_singleton.2 rfl))
      unfold Sat at this
      push_cast at this
      linarith
    induction m, hnm using Nat.le_induction with
    | base => exact le_refl _
    | succ m _ ih => exact le_trans ih (order_step hK h1 h2 m)
  · intro h c hc
    rcases List.mem_append.1 hc with hc | hc
    · obtain ⟨a, ha, rfl⟩ := List.mem_map.1 hc
      have := List.mem_range.1 ha
      have := h a (a + 1) (Nat.le_succ a)
      unfold RepeatedStart at this
      rw [Nat.mod_eq_of_lt (by omega), Nat.mod_eq_of_lt (by omega), Nat.div_eq_of_lt (by omega),
        Nat.div_eq_of_lt (by omega)] at this
      unfold Sat
      simpa using this
    · obtain rfl := List.mem_singleton.1 hc
      have := h (K - 1) K (by omega)
      unfold RepeatedStart at this
      rw [Nat.mod_eq_of_lt (by omega), Nat.mod_self, Nat.div_eq_of_lt (by omega), Nat.div_self (by omega),
        show K - 1 + 1 = K by omega] at this
      unfold Sat
      push_cast at this ⊢
      linarith

/-- A channel with its normalized quantities: `z` values proportional to the rates, and `mop` the initial tokens, rounded
down to a multiple of the common divisor of the rates, in the same unit. -/
structure NormChannel (prod cons preload Zi Zj mop : Int) : Prop where
  prodPos : 0 < prod
  consPos : 0 < cons
  zPos : 0 < Zi
  rates : Zi * cons = Zj * prod
  tokens : mop * prod = preload / (Int.gcd prod cons : Int) * Int.gcd prod cons * Zi

namespace Expand

theorem NormChannel_pos {prod cons preload Zi Zj mop : Int} (h : NormChannel prod cons preload Zi Zj mop) : 0 < Zj := by
  by_contra hn
  have := h.rates
  nlinarith [mul_pos h.zPos h.consPos, h.prodPos]

/-- The need for tokens in normalized quantities. -/
theorem needs_norm {prod cons preload Zi Zj mop : Int} (h : NormChannel prod cons preload Zi Zj mop) (n n' : ℕ) :
    NeedsTokens prod cons preload n n' ↔ mop + Zi * n + Int.gcd Zi Zj ≤ Zj * (n' + 1) := by
  unfold NeedsTokens
  have hp := h.prodPos
  have hc := h.consPos
  have hz := h.zPos
  have hzj := NormChannel_pos h
  obtain ⟨a, ha⟩ := Int.gcd_dvd_left (a := prod) (b := cons)
  obtain ⟨b, hb⟩ := Int.gcd_dvd_right (a := prod) (b := cons)
  set γ : Int := (Int.gcd prod cons : Int) with hγ
  have hγ0 : 0 < γ := by
    have := Int.gcd_pos_of_ne_zero_left cons (show prod ≠ 0 by omega)
    omega
  set g : Int := (Int.gcd Zi Zj : Int) with hg
  have hg0 : 0 < g := by
    have := Int.gcd_pos_of_ne_zero_left Zj (show Zi ≠ 0 by omega)
    omega
  -- `Zi * γ = prod * g`
  have e1 : Zi * γ = prod * g := by
    have x1 : (Int.gcd (Zi * prod) (Zi * cons) : Int) = Zi * γ := by
      rw [Int.gcd_mul_left]; push_cast; rw [abs_of_pos hz]
    have x2 : (Int.gcd (prod * Zi) (prod * Zj) : Int) = prod * g := by
      rw [Int.gcd_mul_left]; push_cast; rw [abs_of_pos hp]
    rw [← x1, ← x2, h.rates, mul_comm Zi prod, mul_comm Zj prod]
  have e2 : Zj * γ = cons * g := by
    have : prod * (Zj * γ) = prod * (cons * g) := by
      calc prod * (Zj * γ) = (Zj * prod) * γ := by ring
        _ = (Zi * cons) * γ := by rw [h.rates]
        _ = (Zi * γ) * cons := by ring
        _ = prod * (cons * g) := by rw [e1]; ring
    exact mul_left_cancel₀ hp.ne' this
  have e3 : Zi = a * g := by
    have : γ * Zi = γ * (a * g) := by rw [mul_comm γ Zi, e1]; nth_rewrite 1 [ha]; ring
    exact mul_left_cancel₀ hγ0.ne' this
  have e4 : Zj = b * g := by
    have : γ * Zj = γ * (b * g) := by rw [mul_comm γ Zj, e2]; nth_rewrite 1 [hb]; ring
    exact mul_left_cancel₀ hγ0.ne' this
  have e5 : mop = preload / γ * g := by
    have t := h.tokens
    rw [← hγ] at t
    have : prod * mop = prod * (preload / γ * g) := by
      calc prod * mop = preload / γ * (Zi * γ) := by rw [mul_comm, t]; ring
        _ = prod * (preload / γ * g) := by rw [e1]; ring
    exact mul_left_cancel₀ hp.ne' this
  -- both sides say `preload / γ + a * n < b * (n' + 1)`
  have l1 : preload + prod * n < cons * (n' + 1) ↔ preload / γ + a * n < b * (n' + 1) := by
    have hd := Int.mul_ediv_add_emod preload γ
    have hm0 := Int.emod_nonneg preload hγ0.ne'
    have hm1 := Int.emod_lt_of_pos preload hγ0
    have r1 : prod * (n : Int) = γ * (a * n) := by nth_rewrite 1 [ha]; ring
    have r2 : cons * ((n' : Int) + 1) = γ * (b * (n' + 1)) := by nth_rewrite 1 [hb]; ring
    rw [r1, r2]
    constructor
    · intro hh
      by_contra hx
      push Not at hx
      have := mul_le_mul_of_nonneg_left hx hγ0.le
      rw [show γ * (preload / γ + a * n) = γ * (preload / γ) + γ * (a * n) by ring] at this
      omega
    · intro hh
      have : preload / γ + a * n + 1 ≤ b * (n' + 1) := hh
      have := mul_le_mul_of_nonneg_left this hγ0.le
      rw [show γ * (preload / γ + a * n + 1) = γ * (preload / γ) + γ * (a * n) + γ by ring] at this
      omega
  rw [l1, e5, show preload / γ * g + Zi * (n : Int) + g = (preload / γ + a * n + 1) * g by rw [e3]; ring,
    show Zj * ((n' : Int) + 1) = (b * (n' + 1)) * g by rw [e4]; ring]
  constructor
  · intro hh
    exact mul_le_mul_of_nonneg_right hh hg0.le
  · intro hh
    exact le_of_mul_le_mul_right hh hg0

end Expand

/-- The executions of the writer with number `ai` in their repetition and of the reader with number `aj` in theirs keep
the precedences of the channel, `d` being the duration of the writer. -/
def PairKept (prod cons preload : Int) (Zi Zj : Int) (Ki Kj ai aj : ℕ) (si sj : ℕ → ℚ) (d Ω : ℚ) : Prop :=
  ∀ n n', n % Ki + 1 = ai → n' % Kj + 1 = aj → NeedsTokens prod cons preload n n' →
    RepeatedStart si Ki Zi Ω n + d ≤ RepeatedStart sj Kj Zj Ω n'

/-- **C114** The precedences of one pair of executions are one inequality, with an offset in which the distance between
the two executions is *subtracted*. -/
theorem C114_pair_offset {prod cons preload Zi Zj mop : Int} (h : NormChannel prod cons preload Zi Zj mop) {Ki Kj ai aj : ℕ}
    (hi : 1 ≤ ai ∧ ai ≤ Ki) (hj : 1 ≤ aj ∧ aj ≤ Kj) (si sj : ℕ → ℚ) (d : ℚ) {Ω : ℚ} (hΩ : 0 ≤ Ω) :
    PairKept prod cons preload Zi Zj Ki Kj ai aj si sj d Ω ↔
      si ai + d + ((⌊g0 Zi Zj Ki Kj mop - shift Zi Zj Ki Kj ai aj⌋ * gcdk Zi Zj Ki Kj : Int) : ℚ) * Ω ≤ sj aj := by
  have hz := h.zPos
  have hzj := NormChannel_pos h
  have hp : 0 < (Ki : Int) * Zi := mul_pos (by omega) hz
  have hq : 0 < (Kj : Int) * Zj := mul_pos (by omega) hzj
  have hG : 0 < gcdk Zi Zj Ki Kj := by
    unfold gcdk
    have := Int.gcd_pos_of_ne_zero_left (Kj * Zj) hp.ne'
    omega
  have hGq : (0 : ℚ) < gcdk Zi Zj Ki Kj := by exact_mod_cast hG
  set G := gcdk Zi Zj Ki Kj with hGdef
  set B : Int := Zi - Int.gcd Zi Zj - mop - (Zi * ai - Zj * aj) with hB
  have eB : g0 Zi Zj Ki Kj mop - shift Zi Zj Ki Kj ai aj = (B : ℚ) / G := by
    unfold g0 shift
    rw [← hGdef, ← sub_div, hB]
    push_cast
    ring
  set M := ⌊g0 Zi Zj Ki Kj mop - shift Zi Zj Ki Kj ai aj⌋ with hM
  have hle : ∀ t : Int, t * G ≤ B ↔ t ≤ M := by
    intro t
    rw [hM, Int.le_floor, eB, le_div_iff₀ hGq]
    exact_mod_cast Iff.rfl
  -- the executions of the pair
  have form : ∀ α β : ℕ, NeedsTokens prod cons preload (α * Ki + (ai - 1)) (β * Kj + (aj - 1)) ↔
      (α : Int) * (Ki * Zi) - β * (Kj * Zj) ≤ B := by
    intro α β
    rw [needs_norm h, hB]
    have c1 : ((α * Ki + (ai - 1) : ℕ) : Int) = α * Ki + (ai - 1) := by push_cast [hi.1]; ring
    have c2 : ((β * Kj + (aj - 1) : ℕ) : Int) = β * Kj + (aj - 1) := by push_cast [hj.1]; ring
    rw [c1, c2, show Zi * ((α : Int) * Ki + (ai - 1)) = α * (Ki * Zi) + Zi * ai - Zi by ring,
      show Zj * ((β : Int) * Kj + ((aj : Int) - 1) + 1) = β * (Kj * Zj) + Zj * aj by ring]
    constructor <;> intro _ <;> linarith
  have starts : ∀ α β : ℕ, RepeatedStart si Ki Zi Ω (α * Ki + (ai - 1)) + d ≤ RepeatedStart sj Kj Zj Ω (β * Kj + (aj - 1)) ↔
      si ai + d + (((α : Int) * (Ki * Zi) - β * (Kj * Zj) : Int) : ℚ) * Ω ≤ sj aj := by
    intro α β
    unfold RepeatedStart
    rw [mod_small (show ai - 1 < Ki by omega), mod_small (show aj - 1 < Kj by omega),
      show (α * Ki + (ai - 1)) / Ki = α by
        rw [mul_comm, Nat.mul_add_div (by omega), Nat.div_eq_of_lt (by omega), add_zero],
      show (β * Kj + (aj - 1)) / Kj = β by
        rw [mul_comm, Nat.mul_add_div (by omega), Nat.div_eq_of_lt (by omega), add_zero],
      show ai - 1 + 1 = ai by omega, show aj - 1 + 1 = aj by omega]
    push_cast
    constructor <;> intro _ <;> linarith
  constructor
  · intro hk
    obtain ⟨α, β, e⟩ := multiples hp hq M
    have nd : (α : Int) * (Ki * Zi) - β * (Kj * Zj) ≤ B := by
      rw [e]; exact (hle M).2 (le_refl _)
    have := hk (α * Ki + (ai - 1)) (β * Kj + (aj - 1)) (by rw [mod_small (by omega)]; omega)
      (by rw [mod_small (by omega)]; omega) ((form α β).2 nd)
    rw [starts, e] at this
    exact this
  · intro hs n n' hn hn' hneed
    have c1 : n = n / Ki * Ki + (ai - 1) := by
      have := Nat.div_add_mod' n Ki
      omega
    have c2 : n' = n' / Kj * Kj + (aj - 1) := by
      have := Nat.div_add_mod' n' Kj
      omega
    rw [c1, c2] at hneed ⊢
    rw [form] at hneed
    rw [starts]
    -- the difference is a multiple of `G`
    obtain ⟨u, hu⟩ : G ∣ (n / Ki : ℕ) * ((Ki : Int) * Zi) - (n' / Kj : ℕ) * ((Kj : Int) * Zj) :=
      dvd_sub (Dvd.dvd.mul_left (Int.gcd_dvd_left _ _) _) (Dvd.dvd.mul_left (Int.gcd_dvd_right _ _) _)
    rw [hu] at hneed ⊢
    have hum : u ≤ M := (hle u).1 (by rw [mul_comm]; exact hneed)
    have : ((G * u : Int) : ℚ) * Ω ≤ ((M * G : Int) : ℚ) * Ω := by
      apply mul_le_mul_of_nonneg_right _ hΩ
      rw [mul_comm M G]
      exact_mod_cast mul_le_mul_of_nonneg_left hum hG.le
    linarith

theorem Expand.pair_exact {prod cons preload Zi Zj mop : Int} (h : NormChannel prod cons preload Zi Zj mop) {Ki Kj ai aj : ℕ}
    (hi : 1 ≤ ai ∧ ai ≤ Ki) (hj : 1 ≤ aj ∧ aj ≤ Kj) {s t : Fin nV} {d Ω : ℚ} (hΩ : 0 ≤ Ω) {c : Con nV}
    (hc : pair s t Zi Zj Ki Kj mop d ai aj = some c)
    (he : ⌊g0 Zi Zj Ki Kj mop + shift Zi Zj Ki Kj ai aj⌋ = ⌊g0 Zi Zj Ki Kj mop - shift Zi Zj Ki Kj ai aj⌋)
    (σ : Fin nV → ℕ → ℚ) : Sat σ Ω c ↔ PairKept prod cons preload Zi Zj Ki Kj ai aj (σ s) (σ t) d Ω := by
  rw [C114_pair_offset h hi hj _ _ d hΩ, ← he]
  unfold pair at hc
  split at hc
  · cases hc
    unfold Sat
    push_cast
    constructor <;> intro _ <;> linarith
  · cases hc

/-- **C114** The constraint generated for a pair of executions says exactly that the precedences of the pair are kept if
and only if adding the distance of the two executions (as the program does) and subtracting it give the same offset. -/
theorem C114_pair_iff {prod cons preload Zi Zj mop : Int} (h : NormChannel prod cons preload Zi Zj mop) {Ki Kj ai aj : ℕ}
    (hi : 1 ≤ ai ∧ ai ≤ Ki) (hj : 1 ≤ aj ∧ aj ≤ Kj) {s t : Fin nV} (hst : s ≠ t) {d Ω : ℚ} (hΩ : 0 < Ω) {c : Con nV}
    (hc : pair s t Zi Zj Ki Kj mop d ai aj = some c) :
    (∀ σ : Fin nV → ℕ → ℚ, Sat σ Ω c ↔ PairKept prod cons preload Zi Zj Ki Kj ai aj (σ s) (σ t) d Ω) ↔
      ⌊g0 Zi Zj Ki Kj mop + shift Zi Zj Ki Kj ai aj⌋ = ⌊g0 Zi Zj Ki Kj mop - shift Zi Zj Ki Kj ai aj⌋ := by
  have hz := h.zPos
  have hG : 0 < gcdk Zi Zj Ki Kj := by
    unfold gcdk
    have := Int.gcd_pos_of_ne_zero_left (Kj * Zj) (show (Ki : Int) * Zi ≠ 0 from (mul_pos (by omega) hz).ne')
    omega
  have hGq : (0 : ℚ) < gcdk Zi Zj Ki Kj := by exact_mod_cast hG
  unfold pair at hc
  split at hc
  · cases hc
    have key : ∀ σ : Fin nV → ℕ → ℚ, Sat σ Ω (⟨s, ai, t, aj, (-⌊g0 Zi Zj Ki Kj mop + shift Zi Zj Ki Kj ai aj⌋ *
        gcdk Zi Zj Ki Kj : Int), d⟩ : Con nV) ↔ σ s ai + d + ((⌊g0 Zi Zj Ki Kj mop + shift Zi Zj Ki Kj ai aj⌋ *
        gcdk Zi Zj Ki Kj : Int) : ℚ) * Ω ≤ σ t aj := by
      intro σ
      unfold Sat
      push_cast
      constructor <;> intro _ <;> linarith
    constructor
    · intro hall
      have both : ∀ x : ℚ, d + ((⌊g0 Zi Zj Ki Kj mop + shift Zi Zj Ki Kj ai aj⌋ * gcdk Zi Zj Ki Kj : Int) : ℚ) * Ω ≤ x ↔
          d + ((⌊g0 Zi Zj Ki Kj mop - shift Zi Zj Ki Kj ai aj⌋ * gcdk Zi Zj Ki Kj : Int) : ℚ) * Ω ≤ x := by
        intro x
        have := hall (fun v _ => if v = s then 0 else x)
        rw [key, C114_pair_offset h hi hj _ _ d hΩ.le] at this
        simpa [hst.symm] using this
      have e := le_antisymm ((both _).2 (le_refl _)) ((both _).1 (le_refl _))
      have e2 : ((⌊g0 Zi Zj Ki Kj mop + shift Zi Zj Ki Kj ai aj⌋ * gcdk Zi Zj Ki Kj : Int) : ℚ) =
          ((⌊g0 Zi Zj Ki Kj mop - shift Zi Zj Ki Kj ai aj⌋ * gcdk Zi Zj Ki Kj : Int) : ℚ) :=
        mul_right_cancel₀ hΩ.ne' (by linarith)
      exact mul_right_cancel₀ hG.ne' (by exact_mod_cast e2)
    · intro e σ
      rw [key, C114_pair_offset h hi hj _ _ d hΩ.le, e]
  · cases hc

namespace Expand

theorem one_numbers {Zi Zj mop : Int} (hz : 0 < Zi) (hm : (Int.gcd Zi Zj : Int) ∣ mop) :
    gcdk Zi Zj 1 1 = Int.gcd Zi Zj ∧ (∃ a b m : Int, Zi = Int.gcd Zi Zj * a ∧ Zj = Int.gcd Zi Zj * b ∧ mop = Int.gcd Zi Zj * m ∧
      f0 Zi Zj 1 1 mop = ((max (a - b) 0 - m : Int) : ℚ) ∧ g0 Zi Zj 1 1 mop = ((a - 1 - m : Int) : ℚ) ∧
      shift Zi Zj 1 1 1 1 = ((a - b : Int) : ℚ)) := by
  have hG : gcdk Zi Zj 1 1 = Int.gcd Zi Zj := by unfold gcdk; simp
  refine ⟨hG, ?_⟩
  have hg0 : 0 < (Int.gcd Zi Zj : Int) := by
    have := Int.gcd_pos_of_ne_zero_left Zj (show Zi ≠ 0 by omega)
    omega
  obtain ⟨a, ha⟩ := Int.gcd_dvd_left Zi Zj
  obtain ⟨b, hb⟩ := Int.gcd_dvd_right Zi Zj
  obtain ⟨m, hm⟩ := hm
  set g : Int := (Int.gcd Zi Zj : Int) with hg
  have hgq : (g : ℚ) ≠ 0 := by exact_mod_cast hg0.ne'
  refine ⟨a, b, m, ha, hb, hm, ?_, ?_, ?_⟩
  · unfold f0
    rw [hG, div_eq_iff hgq, ← Int.cast_mul]
    congr 1
    rw [sub_mul, max_mul_of_nonneg _ _ hg0.le, ha, hb, hm]
    rw [zero_mul, sub_mul, mul_comm a g, mul_comm b g, mul_comm m g]
  · unfold g0
    rw [hG, div_eq_iff hgq, ← Int.cast_mul]
    congr 1
    rw [← hg]
    conv_lhs => rw [ha, hm]
    ring
  · unfold shift
    rw [hG, div_eq_iff hgq, ← Int.cast_mul]
    congr 1
    conv_lhs => rw [ha, hb]
    push_cast
    ring

theorem NormChannel_dvd {prod cons preload Zi Zj mop : Int} (h : NormChannel prod cons preload Zi Zj mop) :
    (Int.gcd Zi Zj : Int) ∣ mop := by
  have hp := h.prodPos
  have hz := h.zPos
  have x1 : (Int.gcd (Zi * prod) (Zi * cons) : Int) = Zi * Int.gcd prod cons := by
    rw [Int.gcd_mul_left]; push_cast; rw [abs_of_pos hz]
  have x2 : (Int.gcd (prod * Zi) (prod * Zj) : Int) = prod * Int.gcd Zi Zj := by
    rw [Int.gcd_mul_left]; push_cast; rw [abs_of_pos hp]
  have e1 : Zi * Int.gcd prod cons = prod * Int.gcd Zi Zj := by
    rw [← x1, ← x2, h.rates, mul_comm Zi prod, mul_comm Zj prod]
  refine ⟨preload / (Int.gcd prod cons : Int), mul_left_cancel₀ hp.ne' ?_⟩
  rw [mul_comm prod mop, h.tokens, mul_assoc, mul_comm _ Zi, e1]
  ring

end Expand

namespace Expand

/-- The one constraint of a channel with one execution per task. -/
theorem one_pair {prod cons preload Zi Zj mop : Int} (h : NormChannel prod cons preload Zi Zj mop) (s t : Fin nV) (d : ℚ) :
    ∃ c, e3 s t Zi Zj 1 1 mop d = some [c] ∧ pair s t Zi Zj 1 1 mop d 1 1 = some c ∧
      (⌊g0 Zi Zj 1 1 mop + shift Zi Zj 1 1 1 1⌋ = ⌊g0 Zi Zj 1 1 mop - shift Zi Zj 1 1 1 1⌋ ↔ prod = cons) := by
  obtain ⟨hG, a, b, m, ha, hb, hm, e1, e2, e3'⟩ := one_numbers (Zj := Zj) h.zPos (NormChannel_dvd h)
  have hz := h.zPos
  have hzj := NormChannel_pos h
  have hg0 : 0 < (Int.gcd Zi Zj : Int) := by
    have := Int.gcd_pos_of_ne_zero_left Zj (show Zi ≠ 0 by omega)
    omega
  have ha1 : 1 ≤ a := by
    by_contra hn
    have : Int.gcd Zi Zj * a ≤ 0 := mul_nonpos_of_nonneg_of_nonpos hg0.le (by omega)
    omega
  have hb1 : 1 ≤ b := by
    by_contra hn
    have : Int.gcd Zi Zj * b ≤ 0 := mul_nonpos_of_nonneg_of_nonpos hg0.le (by omega)
    omega
  have hcond : ⌈f0 Zi Zj 1 1 mop + shift Zi Zj 1 1 1 1⌉ ≤ ⌊g0 Zi Zj 1 1 mop + shift Zi Zj 1 1 1 1⌋ := by
    rw [e1, e2, e3', ← Int.cast_add, ← Int.cast_add, Int.ceil_intCast, Int.floor_intCast]
    omega
  have hpair : pair s t Zi Zj 1 1 mop d 1 1 = some ⟨s, 1, t, 1, (-⌊g0 Zi Zj 1 1 mop + shift Zi Zj 1 1 1 1⌋ *
      gcdk Zi Zj 1 1 : Int), d⟩ := by
    unfold pair
    rw [if_pos hcond]
  refine ⟨⟨s, 1, t, 1, (-⌊g0 Zi Zj 1 1 mop + shift Zi Zj 1 1 1 1⌋ * gcdk Zi Zj 1 1 : Int), d⟩, ?_, hpair, ?_⟩
  · unfold e3
    rw [if_neg (by rw [hG]; omega), if_pos (by
      rw [e1, e2]
      exact_mod_cast (show max (a - b) 0 - m ≤ a - 1 - m by omega))]
    simp [hpair]
  · rw [e2, e3', ← Int.cast_add, ← Int.cast_sub, Int.floor_intCast, Int.floor_intCast]
    have hr := h.rates
    constructor
    · intro hab
      have : Zi = Zj := by
        have hab' : a = b := by omega
        have hb' := hb
        rw [← hab'] at hb'
        exact ha.trans hb'.symm
      rw [this] at hr
      exact (mul_left_cancel₀ hzj.ne' hr).symm
    · intro hpc
      rw [hpc] at hr
      have : Zi = Zj := mul_right_cancel₀ h.consPos.ne' hr
      have : Int.gcd Zi Zj * a = Int.gcd Zi Zj * b := by rw [← ha, ← hb]; exact this
      have : a = b := mul_left_cancel₀ hg0.ne' this
      omega

theorem one_kept {prod cons preload Zi Zj : Int} (si sj : ℕ → ℚ) (d Ω : ℚ) :
    PairKept prod cons preload Zi Zj 1 1 1 1 si sj d Ω ↔
      ∀ n n', NeedsTokens prod cons preload n n' → RepeatedStart si 1 Zi Ω n + d ≤ RepeatedStart sj 1 Zj Ω n' := by
  unfold PairKept
  constructor
  · intro hk n n' hn
    exact hk n n' (by omega) (by omega) hn
  · intro hk n n' _ _ hn
    exact hk n n' hn

end Expand

/-- **C114** With one execution per task, one constraint is generated for each channel, and it says exactly that the
precedences of the channel are kept if and only if the channel is read at the rate at which it is written. -/
theorem C114_one_execution {prod cons preload Zi Zj mop : Int} (h : NormChannel prod cons preload Zi Zj mop) {s t : Fin nV}
    (hst : s ≠ t) (d : ℚ) {Ω : ℚ} (hΩ : 0 < Ω) :
    ∃ c, e3 s t Zi Zj 1 1 mop d = some [c] ∧
      ((∀ σ : Fin nV → ℕ → ℚ, Sat σ Ω c ↔ ∀ n n', NeedsTokens prod cons preload n n' →
        RepeatedStart (σ s) 1 Zi Ω n + d ≤ RepeatedStart (σ t) 1 Zj Ω n') ↔ prod = cons) := by
  obtain ⟨c, hc, hp, hiff⟩ := one_pair h s t d
  refine ⟨c, hc, ?_⟩
  have := C114_pair_iff h (Ki := 1) (Kj := 1) (ai := 1) (aj := 1) ⟨le_refl _, le_refl _⟩ ⟨le_refl _, le_refl _⟩ hst hΩ hp
  simp only [one_kept] at this
  exact this.trans hiff

namespace Expand

/-- The normalized quantities of the channels of a normalized graph with one phase per task. -/
theorem normChannel_of {g : Norm.Graph nV nE} (h : Norm.OK g) (h1 : ∀ t, g.phases t = 1) {z : Fin nV → Int} {α : Fin nE → ℚ}
    (hn : Norm.normalize g = some (some (z, α))) (e : Fin nE) :
    ∃ mop, ((Norm.normMop g α e).bind fun m => cFloor m 1) = some mop ∧
      NormChannel (g.prod e).sum (g.cons e).sum (g.preload e) (z (g.src e)) (z (g.tgt e)) mop := by
  obtain ⟨hz, hE⟩ := C84_sound h hn
  obtain ⟨ha, hp, hc, -, -, hu⟩ := hE e
  obtain ⟨m, k, hm, hk, hlo, hhi⟩ := hu (g.preload e)
  have hpl : (g.prod e).length = 1 := by rw [h.rep.prodLen, h1]
  have hcl : (g.cons e).length = 1 := by rw [h.rep.consLen, h1]
  obtain ⟨p, hp'⟩ := List.length_eq_one_iff.1 hpl
  obtain ⟨c, hc'⟩ := List.length_eq_one_iff.1 hcl
  have hpp := h.inPos e
  have hcp := h.outPos e
  have hf : Norm.fineGCD g e = Int.gcd (g.prod e).sum (g.cons e).sum := by
    unfold Norm.fineGCD
    rw [hp', hc']
    have hp0 : 0 < p := by rw [hp'] at hpp; simpa using hpp
    simp [abs_of_pos hp0]
  refine ⟨m, ?_, hpp, hcp, hz _, ?_, ?_⟩
  · unfold Norm.normMop
    rw [hm]
    unfold cFloor
    simp
  · have : ((z (g.src e) * (g.cons e).sum : Int) : ℚ) = ((z (g.tgt e) * (g.prod e).sum : Int) : ℚ) := by
      rw [Int.cast_mul, Int.cast_mul, ← hp, ← hc]
      ring
    exact_mod_cast this
  · rw [hf] at hk hlo hhi
    have hg0 : 0 < (Int.gcd (g.prod e).sum (g.cons e).sum : Int) := by
      have := Int.gcd_pos_of_ne_zero_left (g.cons e).sum hpp.ne'
      omega
    have hkk : g.preload e / (Int.gcd (g.prod e).sum (g.cons e).sum : Int) = k :=
      le_antisymm (Int.lt_add_one_iff.1 (Int.ediv_lt_of_lt_mul hg0 hhi)) (Int.le_ediv_of_mul_le hg0 hlo)
    rw [hkk]
    have : ((m * (g.prod e).sum : Int) : ℚ) = ((k * Int.gcd (g.prod e).sum (g.cons e).sum * z (g.src e) : Int) : ℚ) := by
      rw [Int.cast_mul, Int.cast_mul, ← hp, hk]
      ring
    exact_mod_cast this

end Expand

/-- **C114** (part that holds) On a graph with one phase per task whose channels are all read at the rate at which they
are written, with one execution per task: the command succeeds when the graph can be normalized, and starts meet the
generated constraints exactly when every task starts its executions in order and every channel is respected, for ever.
Missing: other rates, and more than one execution per task, where the constraints are not the precedences of the graph
(`C114_pair_iff`, `C114_one_execution`, `ExpansionExample.C114_too_loose`, `ExpansionExample.C114_too_strict`). -/
theorem C114_graph_partial {g : Norm.Graph nV nE} (h : Norm.OK g) (h1 : ∀ t, g.phases t = 1)
    (hr : ∀ e, (g.prod e).sum = (g.cons e).sum) {z : Fin nV → Int} {α : Fin nE → ℚ}
    (hn : Norm.normalize g = some (some (z, α))) (dur : Fin nV → ℚ) (name : Fin nV → String) (params : String → Option Int)
    (hp : ∀ t, params (name t) = none ∨ params (name t) = some 1) :
    ∃ cs, command g dur name params = some cs ∧ ∀ (σ : Fin nV → ℕ → ℚ) (Ω : ℚ), 0 ≤ Ω →
      ((∀ c ∈ cs, Sat σ Ω c) ↔
        (∀ t n m, n ≤ m → RepeatedStart (σ t) 1 (z t) Ω n ≤ RepeatedStart (σ t) 1 (z t) Ω m) ∧
        ∀ e n n', NeedsTokens (g.prod e).sum (g.cons e).sum (g.preload e) n n' →
          RepeatedStart (σ (g.src e)) 1 (z (g.src e)) Ω n + dur (g.src e) ≤
            RepeatedStart (σ (g.tgt e)) 1 (z (g.tgt e)) Ω n') := by
  have hch : ∀ e, ∃ c, (do
        let m ← Norm.normMop g α e
        let mop ← cFloor m 1
        e3 (g.src e) (g.tgt e) (z (g.src e)) (z (g.tgt e)) (1 : Int).toNat (1 : Int).toNat mop (dur (g.src e))) = some [c] ∧
      ∀ (σ : Fin nV → ℕ → ℚ) (Ω : ℚ), 0 ≤ Ω → (Sat σ Ω c ↔
        ∀ n n', NeedsTokens (g.prod e).sum (g.cons e).sum (g.preload e) n n' →
          RepeatedStart (σ (g.src e)) 1 (z (g.src e)) Ω n + dur (g.src e) ≤
            RepeatedStart (σ (g.tgt e)) 1 (z (g.tgt e)) Ω n') := by
    intro e
    obtain ⟨mop, hm, hc⟩ := normChannel_of h h1 hn e
    obtain ⟨c, hc1, hc2, hc3⟩ := one_pair hc (g.src e) (g.tgt e) (dur (g.src e))
    refine ⟨c, ?_, fun σ Ω hΩ => ?_⟩
    · obtain ⟨m, hm1, hm2⟩ := Option.bind_eq_some_iff.1 hm
      simp only [Option.bind_eq_bind, hm1, hm2, Option.bind_some]
      exact hc1
    · rw [← one_kept]
      exact pair_exact hc ⟨le_refl _, le_refl _⟩ ⟨le_refl _, le_refl _⟩ hΩ hc2 (hc3.2 (hr e)) σ
  choose c hc hsat using hch
  refine ⟨(List.finRange nV).flatMap (fun t => e1 t 1 ++ e2 t 1 (z t)) ++ ((List.finRange nE).map fun e => [c e]).flatten, ?_, ?_⟩
  · have hK : periodicity name params = fun _ => 1 := by
      funext t
      unfold periodicity
      rcases hp t with e | e <;> rw [e] <;> rfl
    unfold command generate
    rw [hn, hK]
    simp only
    rw [if_pos ⟨h1, fun _ => le_refl _⟩, Norm.range_mapM (t := fun e => [c e]) _ (fun e _ => hc e)]
    rfl
  · intro σ Ω hΩ
    constructor
    · intro hall
      constructor
      · intro t
        refine (C114_order t (le_refl 1) (z t) σ Ω).1 fun x hx => hall x (List.mem_append_left _ ?_)
        exact List.mem_flatMap.2 ⟨t, List.mem_finRange t, hx⟩
      · intro e
        exact (hsat e σ Ω hΩ).1 (hall (c e) (List.mem_append_right _
          (List.mem_flatten.2 ⟨[c e], List.mem_map.2 ⟨e, List.mem_finRange e, rfl⟩, List.mem_singleton.2 rfl⟩)))
    · rintro ⟨ho, hk⟩ x hx
      rcases List.mem_append.1 hx with hx | hx
      · obtain ⟨t, -, hx⟩ := List.mem_flatMap.1 hx
        exact (C114_order t (le_refl 1) (z t) σ Ω).2 (ho t) x hx
      · obtain ⟨l, hl, hx⟩ := List.mem_flatten.1 hx
        obtain ⟨e, -, rfl⟩ := List.mem_map.1 hl
        obtain rfl := List.mem_singleton.1 hx
        exact (hsat e σ Ω hΩ).2 (hk e)

namespace ExpansionExample

/-- A task that writes 1 token per execution for a task that reads 2. -/
def g12 : Norm.Graph 2 1 := ⟨⟨![0], ![1], ![[1]], ![[2]], ![1, 1]⟩, ![0]⟩
/-- A task that writes 1 token per execution for a task that reads 1, with one initial token. -/
def g11 : Norm.Graph 2 1 := ⟨⟨![0], ![1], ![[1]], ![[1]], ![1, 1]⟩, ![1]⟩

theorem g12_ok : Norm.OK g12 := ⟨⟨by decide, by decide, by decide, by decide, by decide, by decide⟩, by decide, by decide⟩
theorem g11_ok : Norm.OK g11 := ⟨⟨by decide, by decide, by decide, by decide, by decide, by decide⟩, by decide, by decide⟩

/-- **C114** (negation) The reader consumes 2 tokens, the writer produces 1 in 1 time unit. With one execution per task,
starting both tasks at date 0 meets all constraints, although the reader then starts without any token. -/
theorem C114_too_loose : ∃ cs, command g12 (fun _ => 1) !["a", "b"] (fun _ => none) = some cs ∧
    (∀ c ∈ cs, Sat (fun _ _ => 0) 1 c) ∧ NeedsTokens 1 2 0 0 0 ∧
      ¬RepeatedStart (fun _ => 0) 1 1 1 0 + 1 ≤ RepeatedStart (fun _ => 0) 1 2 1 0 := by
  refine ⟨[⟨0, 1, 0, 1, 1, 0⟩, ⟨1, 1, 1, 1, 2, 0⟩, ⟨0, 1, 1, 1, 1, 1⟩], by decide +kernel, ?_, by unfold NeedsTokens; decide, by unfold RepeatedStart; norm_num⟩
  unfold Sat
  decide +kernel

/-- **C114** (negation) Both rates are 1 and there is one initial token. With two executions per task, the schedule in
which both tasks run once per time unit respects the channel for ever, but it does not meet the constraints. -/
theorem C114_too_strict : ∃ cs, command g11 (fun _ => 1) !["a", "b"] (fun _ => some 2) = some cs ∧
    (∃ c ∈ cs, ¬Sat (fun _ a => (a : ℚ) - 1) 1 c) ∧
    (∀ n m, n ≤ m → RepeatedStart (fun a => (a : ℚ) - 1) 2 1 1 n ≤ RepeatedStart (fun a => (a : ℚ) - 1) 2 1 1 m) ∧
    ∀ n n', NeedsTokens 1 1 1 n n' →
      RepeatedStart (fun a => (a : ℚ) - 1) 2 1 1 n + 1 ≤ RepeatedStart (fun a => (a : ℚ) - 1) 2 1 1 n' := by
  have e : ∀ n, RepeatedStart (fun a => (a : ℚ) - 1) 2 1 1 n = n := by
    intro n
    unfold RepeatedStart
    have := Nat.mod_add_div n 2
    have : ((n % 2 + 2 * (n / 2) : ℕ) : ℚ) = n := by rw [this]
    push_cast at this ⊢
    linarith
  refine ⟨[⟨0, 1, 0, 2, 0, 0⟩, ⟨0, 2, 0, 1, 2, 0⟩, ⟨1, 1, 1, 2, 0, 0⟩, ⟨1, 2, 1, 1, 2, 0⟩, ⟨0, 1, 1, 2, 2, 1⟩, ⟨0, 2, 1, 1, 0, 1⟩],
    by decide +kernel, ?_, fun n m hnm => by rw [e, e]; exact_mod_cast hnm, fun n n' hn => ?_⟩
  · unfold Sat
    decide +kernel
  · unfold NeedsTokens at hn
    rw [e, e]
    have : n + 1 ≤ n' := by omega
    exact_mod_cast this

/-- The hypotheses of `C114_graph_partial` hold for the same graph. -/
example : ∃ z α, Norm.normalize g11 = some (some (z, α)) ∧ (∀ t, g11.phases t = 1) ∧ ∀ e, (g11.prod e).sum = (g11.cons e).sum := by
  have : ((Norm.normalize g11).map fun r => r.map fun p => List.ofFn p.1) = some (some [1, 1]) := by decide +kernel
  cases hn : Norm.normalize g11 with
  | none => rw [hn] at this; cases this
  | some r =>
    cases r with
    | none => rw [hn] at this; cases this
    | some p => exact ⟨p.1, p.2, rfl, by decide, by decide⟩

/-- The channel of the first graph meets the hypotheses of the theorems on channels, with different rates, … -/
example : NormChannel 1 2 0 1 2 0 := ⟨by decide, by decide, by decide, by decide, by decide⟩

/-- … and with larger rates and tokens: 6 written, 4 read, 5 initial tokens, of which 4 count. -/
example : NormChannel 6 4 5 3 2 2 := ⟨by decide, by decide, by decide, by decide, by decide⟩

/-- A pair of executions for which a constraint is generated. -/
example : ∃ c : Con 2, pair 0 1 3 2 2 3 2 1 1 1 = some c := ⟨_, by unfold pair; rw [if_pos (by decide +kernel)]⟩

end ExpansionExample

end Kiter
