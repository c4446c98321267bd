/-
C142: the pair of channels that makes two tasks exclude each other.
-/
import Verif.Model.Dependency
import Mathlib.Data.Nat.GCD.Basic
import Mathlib.Tactic.Ring
import Mathlib.Tactic.Linarith

set_option autoImplicit false

namespace Kiter.Depend

/-- Specification: tokens on the two channels, running executions of the two tasks. -/
structure St where
  t1 : ℕ
  t2 : ℕ
  x : ℕ
  y : ℕ

/-- Specification: an execution takes its tokens when it starts and gives its tokens when it ends. -/
inductive Step (e1 e2 : Chan) : St → St → Prop
  | startI (t1 t2 x y : ℕ) : Step e1 e2 ⟨t1, t2 + e2.consumed, x, y⟩ ⟨t1, t2, x + 1, y⟩
  | endI (t1 t2 x y : ℕ) : Step e1 e2 ⟨t1, t2, x + 1, y⟩ ⟨t1 + e1.produced, t2, x, y⟩
  | startJ (t1 t2 x y : ℕ) : Step e1 e2 ⟨t1 + e1.consumed, t2, x, y⟩ ⟨t1, t2, x, y + 1⟩
  | endJ (t1 t2 x y : ℕ) : Step e1 e2 ⟨t1, t2, x, y + 1⟩ ⟨t1, t2 + e2.produced, x, y⟩

/-- Specification: the states reached from the initial tokens. -/
inductive Reach (e1 e2 : Chan) : St → Prop
  | init : Reach e1 e2 ⟨e1.preload, e2.preload, 0, 0⟩
  | step {s s' : St} : Reach e1 e2 s → Step e1 e2 s s' → Reach e1 e2 s'

theorem gcd_value : ∀ (fuel x y : ℕ), x < fuel → ∃ r, SNoC.gcdExtended fuel x y = some r ∧ r.1 = Nat.gcd x y
  | 0, x, y, h => absurd h (by omega)
  | fuel + 1, x, y, h => by
    by_cases hx : x = 0
    · exact ⟨(y, 0, 1), by simp [SNoC.gcdExtended, hx], by simp [hx]⟩
    · obtain ⟨r, h1, h2⟩ := gcd_value fuel (y % x) x (by have := Nat.mod_lt y (Nat.pos_of_ne_zero hx); omega)
      refine ⟨_, by simp only [SNoC.gcdExtended, if_neg hx, h1, Option.map_some]; rfl, ?_⟩
      simp only [h2]
      exact (Nat.gcd_rec x y).symm

theorem reach_total {a b M : ℕ} {s : St} (h : Reach ⟨b, a, M⟩ ⟨a, b, 0⟩ s) : s.t1 + s.t2 + s.x * b + s.y * a = M := by
  induction h with
  | init => simp
  | step _ hs ih =>
    cases hs <;> simp only [Nat.add_mul, Nat.one_mul] at ih ⊢ <;> omega

/-- C142. For positive repetition counts the two channels are added; they keep the graph consistent with the same counts; from their
initial tokens the two tasks never execute at the same time; and they never block: in each state reached one of them is
executing or can start. One initial token less and they can block. -/
theorem _root_.Kiter.C142_exclusion {ni nj : ℕ} (hi : 0 < ni) (hj : 0 < nj) :
    ∃ e1 e2, addDependency ni nj = some (e1, e2) ∧
      ni * e1.produced = nj * e1.consumed ∧ nj * e2.produced = ni * e2.consumed ∧
      (0 < e1.produced ∧ 0 < e1.consumed ∧ 0 < e2.produced ∧ 0 < e2.consumed) ∧
      (∀ s, Reach e1 e2 s → ¬ (0 < s.x ∧ 0 < s.y)) ∧
      (∀ s, Reach e1 e2 s → ∃ s', Step e1 e2 s s') ∧
      ∃ s : St, s.t1 + s.t2 + 1 = e1.preload + e2.preload ∧ s.x = 0 ∧ s.y = 0 ∧ ∀ s', ¬ Step e1 e2 s s' := by
  obtain ⟨r, h1, h2⟩ := gcd_value (ni + 1) ni nj (by omega)
  have hg : 0 < Nat.gcd ni nj := Nat.gcd_pos_of_pos_left _ hi
  obtain ⟨a, ha⟩ : ∃ a, a = ni / Nat.gcd ni nj := ⟨_, rfl⟩
  obtain ⟨b, hb⟩ : ∃ b, b = nj / Nat.gcd ni nj := ⟨_, rfl⟩
  obtain ⟨r', k1, k2⟩ := gcd_value (a + 1) a b (by omega)
  have hab : Nat.gcd a b = 1 := by rw [ha, hb]; exact Nat.coprime_div_gcd_div_gcd hg
  have ea : ni = Nat.gcd ni nj * a := by rw [ha]; exact (Nat.mul_div_cancel' (Nat.gcd_dvd_left _ _)).symm
  have eb : nj = Nat.gcd ni nj * b := by rw [hb]; exact (Nat.mul_div_cancel' (Nat.gcd_dvd_right _ _)).symm
  have pa : 0 < a := Nat.pos_of_ne_zero fun h => by rw [h, Nat.mul_zero] at ea; omega
  have pb : 0 < b := Nat.pos_of_ne_zero fun h => by rw [h, Nat.mul_zero] at eb; omega
  have bal : ni * b = nj * a := by
    generalize Nat.gcd ni nj = g at ea eb
    rw [ea, eb]; ring
  refine ⟨⟨b, a, a + b - 1⟩, ⟨a, b, 0⟩, ?_, bal, bal.symm, ⟨pb, pa, pa, pb⟩, ?_, ?_, ⟨a - 1, b - 1, 0, 0⟩, ?_, rfl, rfl, ?_⟩
  · simp only [addDependency, h1, Option.bind_some, h2, if_neg hg.ne', ← ha, ← hb, k1, Option.map_some, k2, hab]
  · rintro s hs ⟨hx, hy⟩
    have := reach_total hs
    have u := Nat.mul_le_mul_right b hx
    have v := Nat.mul_le_mul_right a hy
    omega
  · rintro ⟨t1, t2, x, y⟩ hs
    have ht := reach_total hs
    simp only at ht
    rcases x with _ | x
    · rcases y with _ | y
      · simp only [Nat.zero_mul, Nat.add_zero] at ht
        rcases Nat.lt_or_ge t1 a with h | h
        · obtain ⟨k, rfl⟩ := Nat.exists_eq_add_of_le' (show b ≤ t2 by omega)
          exact ⟨_, .startI t1 k 0 0⟩
        · obtain ⟨k, rfl⟩ := Nat.exists_eq_add_of_le' h
          exact ⟨_, .startJ k t2 0 0⟩
      · exact ⟨_, .endJ _ _ _ _⟩
    · exact ⟨_, .endI _ _ _ _⟩
  · simp only; omega
  · intro s' h
    generalize hs : (⟨a - 1, b - 1, 0, 0⟩ : St) = s at h
    cases h <;> simp only [St.mk.injEq] at hs <;> omega

example : (0 < 4 ∧ 0 < 6) ∧ (addDependency 4 6).map (fun p => ((p.1.produced, p.1.consumed, p.1.preload), p.2.produced, p.2.consumed, p.2.preload)) =
    some ((3, 2, 4), 2, 3, 0) := by decide +kernel

/-- Both tasks get their turn. -/
example : Reach ⟨3, 2, 4⟩ ⟨2, 3, 0⟩ ⟨0, 1, 1, 0⟩ :=
  .step (.step (.step (.step (.step .init (.startJ 2 0 0 0)) (.endJ 2 0 0 0)) (.startJ 0 2 0 0)) (.endJ 0 2 0 0)) (.startI 0 1 0 0)

end Kiter.Depend
