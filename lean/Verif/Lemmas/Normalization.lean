/-
Lemmas for C84: one round of the search for normalization coefficients and the invariants it keeps.
-/
import Verif.Model.Normalization
import Verif.Props.Repetition
import Mathlib.Tactic.FieldSimp
import Mathlib.Tactic.Linarith
import Mathlib.Data.Rat.Lemmas
import Mathlib.Algebra.Order.Field.Basic
import Mathlib.Data.Fintype.Card

set_option autoImplicit false

namespace Kiter.Norm

variable {nV nE : Nat} {g : Graph nV nE}

/-- Graphs covered: those of C12 whose channels have positive rate totals. -/
structure OK (g : Graph nV nE) : Prop where
  rep : Rep.OK g.toGraph
  inPos : ∀ e, 0 < (g.prod e).sum
  outPos : ∀ e, 0 < (g.cons e).sum

theorem conn_iff {t : Fin nV} {e : Fin nE} : conn g t e = true ↔ g.src e = t ∨ g.tgt e = t := by simp [conn]

theorem rateAt_pos (h : OK g) (t : Fin nV) (e : Fin nE) : (0 : ℚ) < rateAt g t e := by
  unfold rateAt inT outT
  split_ifs
  · exact_mod_cast h.inPos e
  · exact_mod_cast h.outPos e

theorem den_dvd_of_mul {x : ℚ} {r m : ℤ} (h : (r : ℚ) * x = m) : (x.den : ℤ) ∣ r := by
  have h1 : (r : ℚ) * x.num = m * x.den := by
    have := Rat.num_div_den x
    have hd : (x.den : ℚ) ≠ 0 := by exact_mod_cast x.den_ne_zero
    rw [← this] at h
    field_simp at h
    linarith
  have h2 : r * x.num = m * x.den := by exact_mod_cast h1
  have h3 : (x.den : ℤ) ∣ r * x.num := ⟨m, by rw [h2]; ring⟩
  have hc : IsCoprime (x.den : ℤ) x.num := by
    rw [Int.isCoprime_iff_gcd_eq_one, Int.gcd_comm]
    exact x.reduced
  exact hc.dvd_of_dvd_mul_right h3

theorem den_one_iff {x : ℚ} : x.den = 1 ↔ ∃ m : ℤ, x = m := by
  constructor
  · intro h; exact ⟨x.num, (Rat.den_eq_one_iff x).mp h |>.symm⟩
  · rintro ⟨m, rfl⟩; exact Rat.den_intCast m

/-- What the computation of `ZI_REF` returns. -/
theorem zRef_some {α : Fin nE → Option ℚ} {t : Fin nV} (hp : ∀ e a, α e = some a → a * rateAt g t e ≠ 0) :
    ∀ (es : List (Fin nE)) (z z' : ℚ), zRef g α t es z = some z' →
      (z ≠ 0 → z' = z) ∧ (∀ e ∈ es, conn g t e = true → ∀ a, α e = some a → a * rateAt g t e = z')
  | [], z, z', h => by simp only [zRef, Option.some.injEq] at h; subst h; simp
  | e :: es, z, z', h => by
    unfold zRef at h
    by_cases hc : conn g t e = true
    · rw [if_pos hc] at h
      cases ha : α e with
      | none =>
        rw [ha] at h
        obtain ⟨h1, h2⟩ := zRef_some hp es z z' h
        refine ⟨h1, fun c hm hcc a hca => ?_⟩
        rcases List.mem_cons.mp hm with rfl | hm
        · rw [ha] at hca; cases hca
        · exact h2 c hm hcc a hca
      | some a =>
        rw [ha] at h
        dsimp only at h
        by_cases hz : z = 0
        · rw [if_pos hz, if_pos rfl] at h
          obtain ⟨h1, h2⟩ := zRef_some hp es _ z' h
          have h3 := h1 (hp e a ha)
          refine ⟨fun hh => absurd hz hh, fun c hm hcc b hcb => ?_⟩
          rcases List.mem_cons.mp hm with rfl | hm
          · rw [ha] at hcb; cases hcb; exact h3.symm
          · exact h2 c hm hcc b hcb
        · rw [if_neg hz] at h
          split_ifs at h with hq
          obtain ⟨h1, h2⟩ := zRef_some hp es _ z' h
          have h3 := h1 hz
          refine ⟨fun _ => h3, fun c hm hcc b hcb => ?_⟩
          rcases List.mem_cons.mp hm with rfl | hm
          · rw [ha] at hcb; cases hcb; rw [h3, hq]
          · exact h2 c hm hcc b hcb
    · rw [if_neg hc] at h
      obtain ⟨h1, h2⟩ := zRef_some hp es z z' h
      refine ⟨h1, fun c hm hcc a hca => ?_⟩
      rcases List.mem_cons.mp hm with rfl | hm
      · exact absurd hcc hc
      · exact h2 c hm hcc a hca

/-- When all the values seen agree, the computation of `ZI_REF` succeeds. -/
theorem zRef_agree {α : Fin nE → Option ℚ} {t : Fin nV} {c : ℚ} :
    ∀ (es : List (Fin nE)) (z : ℚ), (z = 0 ∨ z = c) →
      (∀ e ∈ es, conn g t e = true → ∀ a, α e = some a → a * rateAt g t e = c) → ∃ z', zRef g α t es z = some z'
  | [], z, _, _ => ⟨z, rfl⟩
  | e :: es, z, hz, h => by
    unfold zRef
    have hrest := fun (c' : Fin nE) (hm : c' ∈ es) => h c' (List.mem_cons_of_mem _ hm)
    by_cases hc : conn g t e = true
    · rw [if_pos hc]
      cases ha : α e with
      | none => exact zRef_agree es z hz hrest
      | some a =>
        have hv := h e List.mem_cons_self hc a ha
        dsimp only
        rw [hv]
        have : (if z = 0 then c else z) = c := by
          rcases hz with h0 | h0
          · rw [if_pos h0]
          · split_ifs <;> [rfl; exact h0]
        rw [this, if_pos rfl]
        exact zRef_agree es c (Or.inr rfl) hrest
    · rw [if_neg hc]; exact zRef_agree es z hz hrest

/-- What the multiplication by `K` does. -/
theorem integrity_spec {t : Fin nV} :
    ∀ (es : List (Fin nE)) (α : Fin nE → Option ℚ) (z : ℚ), 0 < z → ∃ K : ℕ, 0 < K ∧
      integrity g t es α z = some (fun c => (α c).map (· * (K : ℚ))) ∧
      (∀ e ∈ es, conn g t e = true → ((α e).getD 0 * K * fineGCD g e).den = 1) ∧
      ∀ r : ℤ, (∀ e ∈ es, conn g t e = true → ∃ m : ℤ, (r : ℚ) * ((α e).getD 0 * fineGCD g e) = m) → (K : ℤ) ∣ r
  | [], α, z, _ => ⟨1, one_pos, by simp [integrity], by simp, by simp⟩
  | e :: es, α, z, hz => by
    unfold integrity
    by_cases hc : conn g t e = true
    · rw [if_pos hc]
      by_cases hd : ((α e).getD 0 * fineGCD g e).den = 1
      · rw [if_neg (by simpa using hd)]
        obtain ⟨K, h1, h2, h3, h4⟩ := integrity_spec es α z hz
        refine ⟨K, h1, h2, fun c hm hcc => ?_, fun r hr => h4 r fun c hm => hr c (List.mem_cons_of_mem _ hm)⟩
        rcases List.mem_cons.mp hm with rfl | hm
        · obtain ⟨m, hm⟩ := den_one_iff.mp hd
          exact den_one_iff.mpr ⟨m * K, by rw [mul_right_comm, hm]; push_cast; ring⟩
        · exact h3 c hm hcc
      · rw [if_pos hd]
        set D := ((α e).getD 0 * fineGCD g e).den with hD
        have hDp : (0 : ℚ) < D := by exact_mod_cast Rat.den_pos _
        rw [if_neg (by have := mul_pos hz hDp; linarith)]
        obtain ⟨K, h1, h2, h3, h4⟩ := integrity_spec es (fun c => (α c).map (· * (D : ℚ))) (z * D) (mul_pos hz hDp)
        have hg : ∀ c, (((α c).map (· * (D : ℚ))).getD 0 : ℚ) = (α c).getD 0 * D := by
          intro c; cases α c <;> simp
        refine ⟨D * K, Nat.mul_pos (by exact_mod_cast hDp) h1, ?_, ?_, ?_⟩
        · rw [h2]; congr 1; funext c; cases α c
          · rfl
          · simp [mul_assoc]
        · intro c hm hcc
          rcases List.mem_cons.mp hm with rfl | hm
          · refine den_one_iff.mpr ⟨((α c).getD 0 * fineGCD g c).num * K, ?_⟩
            have := Rat.mul_den_eq_num ((α c).getD 0 * fineGCD g c)
            push_cast
            rw [← this, ← hD]; ring
          · have := h3 c hm hcc
            rw [hg] at this
            rw [show (α c).getD 0 * ((D * K : ℕ) : ℚ) * fineGCD g c = (α c).getD 0 * D * K * fineGCD g c by push_cast; ring]
            exact this
        · intro r hr
          obtain ⟨m, hm⟩ := hr e List.mem_cons_self hc
          obtain ⟨r1, rfl⟩ := den_dvd_of_mul hm
          have : (K : ℤ) ∣ r1 := h4 r1 fun c hmc hcc => by
            obtain ⟨m', hm'⟩ := hr c (List.mem_cons_of_mem _ hmc) hcc
            refine ⟨m', ?_⟩
            rw [hg, ← hm']; push_cast; ring
          push_cast
          exact mul_dvd_mul_left _ this
    · rw [if_neg hc]
      obtain ⟨K, h1, h2, h3, h4⟩ := integrity_spec es α z hz
      refine ⟨K, h1, h2, fun c hm hcc => ?_, fun r hr => h4 r fun c hm => hr c (List.mem_cons_of_mem _ hm)⟩
      rcases List.mem_cons.mp hm with rfl | hm
      · exact absurd hcc hc
      · exact h3 c hm hcc

/-- What holds at any point between two rounds. -/
structure Core (g : Graph nV nE) (s : State nV nE) : Prop where
  nextSeen : ∀ v, s.next v = true → s.unseen v = false
  pos : ∀ e a, s.alpha e = some a → 0 < a ∧ s.unseen (g.src e) = false ∧ s.unseen (g.tgt e) = false
  done : ∀ v, s.unseen v = false → s.next v = false → ∀ e, conn g v e = true →
    ∃ a, s.alpha e = some a ∧ (a * fineGCD g e).den = 1
  agree : ∀ v, s.unseen v = false → s.next v = false → ∀ e e' a a', conn g v e = true → conn g v e' = true →
    s.alpha e = some a → s.alpha e' = some a' → a * rateAt g v e = a' * rateAt g v e'
  seen : ∀ v, s.unseen v = false → ∃ e a, conn g v e = true ∧ s.alpha e = some a

/-- What holds before each round. -/
structure Inv (g : Graph nV nE) (s : State nV nE) : Prop extends Core g s where
  fresh : (∀ v, s.next v = false) → ∀ e, s.unseen (g.src e) = false ∧ s.unseen (g.tgt e) = false

theorem touches_iff {t v : Fin nV} : touches g t v = true ↔ ∃ e, conn g t e = true ∧ conn g v e = true := by
  simp [touches, conn]

theorem nextTask_none {s : State nV nE} : nextTask s = none ↔ ∀ v, s.next v = false := by
  simp [nextTask]

theorem nextTask_some {s : State nV nE} {t : Fin nV} (h : nextTask s = some t) : s.next t = true :=
  List.find?_some h

/-- The coefficients after a round, before a new component is started. -/
def newAlpha (g : Graph nV nE) (α : Fin nE → Option ℚ) (t : Fin nV) (z : ℚ) (K : ℕ) (e : Fin nE) : Option ℚ :=
  (if conn g t e = true ∧ α e = none then some (z / rateAt g t e) else α e).map (· * (K : ℚ))

/-- The state after a round, before a new component is started. -/
def midState (g : Graph nV nE) (s : State nV nE) (t : Fin nV) (z : ℚ) (K : ℕ) : State nV nE :=
  addNext g ⟨newAlpha g s.alpha t z K, s.unseen, Function.update s.next t false⟩ t

/-- When a new component is started with the channel `e`. -/
def Reseeds (g : Graph nV nE) (m : State nV nE) (e : Fin nE) : Prop :=
  (∀ v, m.next v = false) ∧ m.unseen (g.src e) = true ∧ m.unseen (g.tgt e) = true

/-- One round, unfolded. -/
theorem step_cases (h : OK g) {s : State nV nE} (hi : Inv g s) {t : Fin nV} (ht : s.next t = true) :
    (zRef g s.alpha t (List.finRange nE) 0 = none ∧ step g s t = some none) ∨
    ∃ (z : ℚ) (K : ℕ) (s' : State nV nE), 0 < z ∧ 0 < K ∧
      (∀ e a, conn g t e = true → s.alpha e = some a → a * rateAt g t e = z) ∧
      (∀ e, conn g t e = true → ∃ a, newAlpha g s.alpha t z K e = some a ∧ (a * fineGCD g e).den = 1) ∧
      (∀ r : ℤ, (∀ e a, conn g t e = true → newAlpha g s.alpha t z 1 e = some a →
        ∃ m : ℤ, (r : ℚ) * (a * fineGCD g e) = m) → (K : ℤ) ∣ r) ∧
      step g s t = some (some s') ∧
      ((s' = midState g s t z K ∧ ((∀ v, s'.next v = false) → ∀ e, ¬ Reseeds g s' e)) ∨
        ∃ e, Reseeds g (midState g s t z K) e ∧ s' = seed g (midState g s t z K) e) := by
  cases hz : zRef g s.alpha t (List.finRange nE) 0 with
  | none => left; exact ⟨rfl, by unfold step; rw [hz]⟩
  | some z =>
    right
    have hne : ∀ e a, s.alpha e = some a → a * rateAt g t e ≠ 0 := fun e a ha =>
      (mul_pos (hi.pos e a ha).1 (rateAt_pos h t e)).ne'
    obtain ⟨-, hall⟩ := zRef_some hne _ _ _ hz
    have hzp : 0 < z := by
      obtain ⟨e, a, hc, ha⟩ := hi.seen t (hi.nextSeen t ht)
      rw [← hall e (List.mem_finRange e) hc a ha]
      exact mul_pos (hi.pos e a ha).1 (rateAt_pos h t e)
    have hpr : propagate g s.alpha t z =
        some fun e => if conn g t e = true ∧ s.alpha e = none then some (z / rateAt g t e) else s.alpha e := by
      unfold propagate
      rw [if_neg]
      rintro ⟨e, -, -, h0⟩
      have := rateAt_pos h t e
      rw [h0] at this
      simp at this
    obtain ⟨K, k1, k2, k3, k4⟩ := integrity_spec (g := g) (t := t) (List.finRange nE)
      (fun e => if conn g t e = true ∧ s.alpha e = none then some (z / rateAt g t e) else s.alpha e) z hzp
    have hset : ∀ e, conn g t e = true → ∃ a,
        (if conn g t e = true ∧ s.alpha e = none then some ((z : ℚ) / rateAt g t e) else s.alpha e) = some a := by
      intro e hc
      cases ha : s.alpha e with
      | none => exact ⟨z / rateAt g t e, by simp [hc]⟩
      | some a => exact ⟨a, by simp⟩
    have hstep : step g s t = (reseed g (midState g s t z K)).map some := by
      unfold step
      rw [hz]
      dsimp only
      rw [hpr]
      dsimp only
      rw [k2]
      rfl
    have hK : ∀ e, conn g t e = true → ∃ a, newAlpha g s.alpha t z K e = some a ∧ (a * fineGCD g e).den = 1 := by
      intro e hc
      obtain ⟨a, ha⟩ := hset e hc
      refine ⟨a * K, ?_, ?_⟩
      · unfold newAlpha; rw [ha]; rfl
      · have := k3 e (List.mem_finRange e) hc
        rw [ha] at this
        simpa using this
    have hM : ∀ r : ℤ, (∀ e a, conn g t e = true → newAlpha g s.alpha t z 1 e = some a →
        ∃ m : ℤ, (r : ℚ) * (a * fineGCD g e) = m) → (K : ℤ) ∣ r := by
      intro r hr
      refine k4 r fun e _ hc => ?_
      obtain ⟨a, ha⟩ := hset e hc
      rw [ha]
      exact hr e a hc (by unfold newAlpha; rw [ha]; simp)
    by_cases hr : (nextTask (midState g s t z K)).isNone ∧ ∃ v, (midState g s t z K).unseen v = true
    · cases hf : (List.finRange nE).find? fun e => (midState g s t z K).unseen (g.src e) && (midState g s t z K).unseen (g.tgt e) with
      | none =>
        refine ⟨z, K, midState g s t z K, hzp, k1, fun e a hc ha => hall e (List.mem_finRange e) hc a ha, hK, hM, ?_, ?_⟩
        · rw [hstep]; unfold reseed; rw [if_pos hr, hf]; rfl
        · left
          refine ⟨rfl, fun _ e he => ?_⟩
          rw [List.find?_eq_none] at hf
          have := hf e (List.mem_finRange e)
          rw [he.2.1, he.2.2] at this
          simp at this
      | some e =>
        refine ⟨z, K, seed g (midState g s t z K) e, hzp, k1, fun e a hc ha => hall e (List.mem_finRange e) hc a ha, hK, hM, ?_, ?_⟩
        · rw [hstep]; unfold reseed; rw [if_pos hr, hf]; dsimp only
          rw [if_neg]
          · rfl
          · intro h0
            rw [Int.gcd_eq_zero_iff] at h0
            have := h.inPos e
            unfold inT at h0
            omega
        · right
          have := List.find?_some hf
          rw [Bool.and_eq_true] at this
          exact ⟨e, ⟨nextTask_none.mp (Option.isNone_iff_eq_none.mp hr.1), this.1, this.2⟩, rfl⟩
    · refine ⟨z, K, midState g s t z K, hzp, k1, fun e a hc ha => hall e (List.mem_finRange e) hc a ha, hK, hM, ?_, ?_⟩
      · rw [hstep]; unfold reseed; rw [if_neg hr]; rfl
      · left
        refine ⟨rfl, fun hn e he => hr ⟨?_, g.src e, he.2.1⟩⟩
        rw [Option.isNone_iff_eq_none]
        exact nextTask_none.mpr hn

theorem newAlpha_some {α : Fin nE → Option ℚ} {t : Fin nV} {z b : ℚ} {K : ℕ} {e : Fin nE} :
    newAlpha g α t z K e = some b ↔ (∃ a, α e = some a ∧ b = a * K) ∨
      (α e = none ∧ conn g t e = true ∧ b = z / rateAt g t e * K) := by
  unfold newAlpha
  cases ha : α e with
  | some a => simp only [reduceCtorEq, and_false, if_false, Option.map_some, Option.some.injEq, false_and, or_false, exists_eq_left']; exact eq_comm
  | none =>
    by_cases hc : conn g t e = true
    · simp [hc, eq_comm]
    · simp [hc]

theorem mid_unseen {s : State nV nE} {t v : Fin nV} {z : ℚ} {K : ℕ} :
    (midState g s t z K).unseen v = false ↔ s.unseen v = false ∨ touches g t v = true := by
  simp only [midState, addNext]
  cases s.unseen v <;> cases touches g t v <;> simp

theorem mid_next {s : State nV nE} {t v : Fin nV} {z : ℚ} {K : ℕ} :
    (midState g s t z K).next v = true ↔ (v ≠ t ∧ s.next v = true) ∨ (s.unseen v = true ∧ touches g t v = true) := by
  simp only [midState, addNext, Function.update_apply]
  by_cases h : v = t <;> simp [h]

/-- A task that is finished after the round was finished before, or is the task of the round. -/
theorem mid_done {s : State nV nE} {t v : Fin nV} {z : ℚ} {K : ℕ} (hu : (midState g s t z K).unseen v = false)
    (hn : (midState g s t z K).next v = false) : v = t ∨ (s.unseen v = false ∧ s.next v = false) := by
  by_cases hv : v = t
  · exact Or.inl hv
  right
  have hn' := fun h => (Bool.eq_false_iff.mp hn) (mid_next.mpr h)
  have h1 : s.next v = false := by
    by_contra h
    exact hn' (Or.inl ⟨hv, by simpa using h⟩)
  refine ⟨?_, h1⟩
  rcases mid_unseen.mp hu with h | h
  · exact h
  · by_contra h'
    exact hn' (Or.inr ⟨by simpa using h', h⟩)

/-- The round keeps the invariant. -/
theorem mid_core (h : OK g) {s : State nV nE} (hi : Inv g s) {t : Fin nV} (ht : s.next t = true) {z : ℚ} {K : ℕ}
    (hz : 0 < z) (hK : 0 < K) (hall : ∀ e a, conn g t e = true → s.alpha e = some a → a * rateAt g t e = z)
    (hint : ∀ e, conn g t e = true → ∃ a, newAlpha g s.alpha t z K e = some a ∧ (a * fineGCD g e).den = 1) :
    Core g (midState g s t z K) := by
  have hKq : (0 : ℚ) < K := by exact_mod_cast hK
  constructor
  · intro v hv
    rcases mid_next.mp hv with ⟨-, h1⟩ | ⟨-, h1⟩
    · exact mid_unseen.mpr (Or.inl (hi.nextSeen v h1))
    · exact mid_unseen.mpr (Or.inr h1)
  · intro e b hb
    rcases newAlpha_some.mp hb with ⟨a, ha, rfl⟩ | ⟨ha, hc, rfl⟩
    · obtain ⟨h1, h2, h3⟩ := hi.pos e a ha
      exact ⟨mul_pos h1 hKq, mid_unseen.mpr (Or.inl h2), mid_unseen.mpr (Or.inl h3)⟩
    · exact ⟨mul_pos (div_pos hz (rateAt_pos h t e)) hKq,
        mid_unseen.mpr (Or.inr (touches_iff.mpr ⟨e, hc, conn_iff.mpr (Or.inl rfl)⟩)),
        mid_unseen.mpr (Or.inr (touches_iff.mpr ⟨e, hc, conn_iff.mpr (Or.inr rfl)⟩))⟩
  · intro v hu hn e hc
    rcases mid_done hu hn with rfl | ⟨h1, h2⟩
    · exact hint e hc
    · obtain ⟨a, ha, hd⟩ := hi.done v h1 h2 e hc
      refine ⟨a * K, newAlpha_some.mpr (Or.inl ⟨a, ha, rfl⟩), ?_⟩
      obtain ⟨m, hm⟩ := den_one_iff.mp hd
      exact den_one_iff.mpr ⟨m * K, by rw [mul_right_comm, hm]; push_cast; ring⟩
  · intro v hu hn e e' b b' hc hc' hb hb'
    rcases mid_done hu hn with rfl | ⟨h1, h2⟩
    · have key : ∀ c x, conn g v c = true → newAlpha g s.alpha v z K c = some x → x * rateAt g v c = z * K := by
        intro c x hcc hx
        rcases newAlpha_some.mp hx with ⟨a, ha, rfl⟩ | ⟨ha, -, rfl⟩
        · rw [← hall c a hcc ha]; ring
        · have := (rateAt_pos h v c).ne'
          field_simp
      rw [key e b hc hb, key e' b' hc' hb']
    · obtain ⟨a, ha, -⟩ := hi.done v h1 h2 e hc
      obtain ⟨a', ha', -⟩ := hi.done v h1 h2 e' hc'
      have h3 := hi.agree v h1 h2 e e' a a' hc hc' ha ha'
      have : b = a * K := by
        have := (newAlpha_some (g := g) (t := t) (z := z) (K := K)).mpr (Or.inl ⟨a, ha, rfl⟩)
        exact Option.some.inj (hb.symm.trans this)
      have : b' = a' * K := by
        have := (newAlpha_some (g := g) (t := t) (z := z) (K := K)).mpr (Or.inl ⟨a', ha', rfl⟩)
        exact Option.some.inj (hb'.symm.trans this)
      subst b b'
      linear_combination (K : ℚ) * h3
  · intro v hu
    rcases mid_unseen.mp hu with h1 | h1
    · obtain ⟨e, a, hc, ha⟩ := hi.seen v h1
      exact ⟨e, a * K, hc, newAlpha_some.mpr (Or.inl ⟨a, ha, rfl⟩)⟩
    · obtain ⟨e, hc, hc'⟩ := touches_iff.mp h1
      obtain ⟨a, ha, -⟩ := hint e hc
      exact ⟨e, a, hc', ha⟩

theorem gcd_pos (h : OK g) (e : Fin nE) : (0 : ℚ) < (Int.gcd (inT g e) (outT g e) : ℚ) := by
  have : 0 < Int.gcd (inT g e) (outT g e) := Int.gcd_pos_of_ne_zero_left _ (h.inPos e).ne'
  exact_mod_cast this

theorem seed_unseen {m : State nV nE} {e : Fin nE} {v : Fin nV} :
    (seed g m e).unseen v = false ↔ m.unseen v = false ∨ conn g v e = true := by
  simp only [seed, conn]
  cases m.unseen v
  · simp
  · simp; tauto

theorem seed_next {m : State nV nE} {e : Fin nE} {v : Fin nV} :
    (seed g m e).next v = true ↔ m.next v = true ∨ conn g v e = true := by
  simp [seed, conn]

theorem seed_alpha {m : State nV nE} {e c : Fin nE} {b : ℚ} (hn : m.alpha e = none) :
    (seed g m e).alpha c = some b ↔ (c = e ∧ b = 1 / (Int.gcd (inT g e) (outT g e) : ℚ)) ∨ m.alpha c = some b := by
  simp only [seed, Function.update_apply]
  by_cases hc : c = e
  · subst hc; simp [hn, eq_comm]
  · simp [hc]

/-- The channel that starts a component has no coefficient yet. -/
theorem reseeds_none {m : State nV nE} (hm : Core g m) {e : Fin nE} (hu : m.unseen (g.src e) = true) : m.alpha e = none := by
  cases ha : m.alpha e with
  | none => rfl
  | some a => have := (hm.pos e a ha).2.1; rw [hu] at this; cases this

theorem seed_core (h : OK g) {m : State nV nE} (hm : Core g m) {e : Fin nE} (hu : m.unseen (g.src e) = true) :
    Core g (seed g m e) := by
  have hn := reseeds_none hm hu
  have hnc : ∀ {v}, (seed g m e).next v = false → m.next v = false ∧ ¬ conn g v e = true := by
    intro v hv
    have := fun h' => (Bool.eq_false_iff.mp hv) (seed_next.mpr h')
    exact ⟨by by_contra h'; exact this (Or.inl (by simpa using h')), fun h' => this (Or.inr h')⟩
  have hseen : ∀ {v}, (seed g m e).unseen v = false → (seed g m e).next v = false → m.unseen v = false := by
    intro v hv hv'
    rcases seed_unseen.mp hv with h1 | h1
    · exact h1
    · exact absurd h1 (hnc hv').2
  constructor
  · intro v hv
    rcases seed_next.mp hv with h1 | h1
    · exact seed_unseen.mpr (Or.inl (hm.nextSeen v h1))
    · exact seed_unseen.mpr (Or.inr h1)
  · intro c b hb
    rcases (seed_alpha hn).mp hb with ⟨rfl, rfl⟩ | hb
    · exact ⟨one_div_pos.mpr (gcd_pos h c), seed_unseen.mpr (Or.inr (conn_iff.mpr (Or.inl rfl))),
        seed_unseen.mpr (Or.inr (conn_iff.mpr (Or.inr rfl)))⟩
    · obtain ⟨h1, h2, h3⟩ := hm.pos c b hb
      exact ⟨h1, seed_unseen.mpr (Or.inl h2), seed_unseen.mpr (Or.inl h3)⟩
  · intro v hv hv' c hc
    obtain ⟨a, ha, hd⟩ := hm.done v (hseen hv hv') (hnc hv').1 c hc
    exact ⟨a, (seed_alpha hn).mpr (Or.inr ha), hd⟩
  · intro v hv hv' c c' b b' hc hc' hb hb'
    have key : ∀ d x, conn g v d = true → (seed g m e).alpha d = some x → m.alpha d = some x := by
      intro d x hd hx
      rcases (seed_alpha hn).mp hx with ⟨rfl, -⟩ | hx
      · exact absurd hd (hnc hv').2
      · exact hx
    exact hm.agree v (hseen hv hv') (hnc hv').1 c c' b b' hc hc' (key c b hc hb) (key c' b' hc' hb')
  · intro v hv
    rcases seed_unseen.mp hv with h1 | h1
    · obtain ⟨c, a, hc, ha⟩ := hm.seen v h1
      exact ⟨c, a, hc, (seed_alpha hn).mpr (Or.inr ha)⟩
    · exact ⟨e, _, h1, (seed_alpha hn).mpr (Or.inl ⟨rfl, rfl⟩)⟩

/-- With nothing left to treat, a channel is seen on both sides or on none. -/
theorem core_closed {m : State nV nE} (hm : Core g m) (hn : ∀ v, m.next v = false) {v : Fin nV} (hv : m.unseen v = false)
    {e : Fin nE} (hc : conn g v e = true) : m.unseen (g.src e) = false ∧ m.unseen (g.tgt e) = false := by
  obtain ⟨a, ha, -⟩ := hm.done v hv (hn v) e hc
  exact (hm.pos e a ha).2

theorem inv_of_mid {m : State nV nE} (hm : Core g m) (hr : (∀ v, m.next v = false) → ∀ e, ¬ Reseeds g m e) : Inv g m := by
  refine ⟨hm, fun hn e => ?_⟩
  by_cases h1 : m.unseen (g.src e) = false
  · exact core_closed hm hn h1 (conn_iff.mpr (Or.inl rfl))
  · by_cases h2 : m.unseen (g.tgt e) = false
    · exact core_closed hm hn h2 (conn_iff.mpr (Or.inr rfl))
    · exact absurd ⟨hn, by simpa using h1, by simpa using h2⟩ (hr hn e)

theorem inv_of_seed (h : OK g) {m : State nV nE} (hm : Core g m) {e : Fin nE} (hu : m.unseen (g.src e) = true) :
    Inv g (seed g m e) := by
  refine ⟨seed_core h hm hu, fun hn => ?_⟩
  have := hn (g.src e)
  rw [seed_next.mpr (Or.inr (conn_iff.mpr (Or.inl rfl)))] at this
  cases this

theorem start_inv (h : OK g) (e : Fin nE) : Inv g (start g e) := by
  refine inv_of_seed h ?_ rfl
  constructor <;> simp

/-- The tasks that are still to be treated. -/
def pending (s : State nV nE) : Finset (Fin nV) := Finset.univ.filter fun v => s.unseen v = true ∨ s.next v = true

theorem mid_pending {s : State nV nE} (hi : Core g s) {t : Fin nV} (ht : s.next t = true) {z : ℚ} {K : ℕ} :
    pending (midState g s t z K) ⊂ pending s := by
  rw [Finset.ssubset_iff_of_subset]
  · refine ⟨t, by simp [pending, ht], ?_⟩
    simp only [pending, Finset.mem_filter, Finset.mem_univ, true_and, not_or, Bool.not_eq_true]
    have hs := hi.nextSeen t ht
    refine ⟨mid_unseen.mpr (Or.inl hs), Bool.eq_false_iff.mpr fun hh => ?_⟩
    rcases mid_next.mp hh with ⟨h1, -⟩ | ⟨h1, -⟩
    · exact h1 rfl
    · rw [hs] at h1; cases h1
  · intro v
    simp only [pending, Finset.mem_filter, Finset.mem_univ, true_and]
    rintro (h1 | h1)
    · left
      by_contra hc
      have := (mid_unseen (g := g) (s := s) (t := t) (v := v) (z := z) (K := K)).mpr (Or.inl (by simpa using hc))
      rw [h1] at this; cases this
    · rcases mid_next.mp h1 with ⟨-, h2⟩ | ⟨h2, -⟩
      · exact Or.inr h2
      · exact Or.inl h2

theorem seed_pending {m : State nV nE} {e : Fin nE} (hr : Reseeds g m e) : pending (seed g m e) ⊆ pending m := by
  intro v
  simp only [pending, Finset.mem_filter, Finset.mem_univ, true_and]
  rintro (h1 | h1)
  · left
    by_contra hc
    have := (seed_unseen (g := g) (m := m) (v := v) (e := e)).mpr (Or.inl (by simpa using hc))
    rw [h1] at this; cases this
  · rcases seed_next.mp h1 with h2 | h2
    · exact Or.inr h2
    · left
      rcases conn_iff.mp h2 with rfl | rfl
      · exact hr.2.1
      · exact hr.2.2

/-- A round: the graph is rejected, or the invariant is kept and a task is treated. -/
theorem step_spec (h : OK g) {s : State nV nE} (hi : Inv g s) {t : Fin nV} (ht : s.next t = true) :
    step g s t = some none ∨ ∃ s', step g s t = some (some s') ∧ Inv g s' ∧ (pending s').card < (pending s).card := by
  rcases step_cases h hi ht with ⟨-, h1⟩ | ⟨z, K, s', h1, h2, h3, h4, -, h6, h7⟩
  · exact Or.inl h1
  · right
    have hm := mid_core h hi ht h1 h2 h3 h4
    have hp := Finset.card_lt_card (mid_pending hi.toCore ht (z := z) (K := K))
    rcases h7 with ⟨rfl, h8⟩ | ⟨e, h8, rfl⟩
    · exact ⟨_, h6, inv_of_mid hm h8, hp⟩
    · exact ⟨_, h6, inv_of_seed h hm h8.2.1, lt_of_le_of_lt (Finset.card_le_card (seed_pending h8)) hp⟩

/-- The loop ends, and keeps what every round keeps. -/
theorem loop_spec (h : OK g) (P : State nV nE → Prop)
    (hP : ∀ s t s', Inv g s → P s → s.next t = true → step g s t = some (some s') → P s') :
    ∀ (fuel : Nat) (s : State nV nE), Inv g s → P s → (pending s).card < fuel →
      (loop g fuel s = some none ∧ ∃ s t, Inv g s ∧ P s ∧ s.next t = true ∧ step g s t = some none) ∨
      ∃ s', loop g fuel s = some (some s'.alpha) ∧ Inv g s' ∧ P s' ∧ ∀ v, s'.next v = false
  | 0, _, _, _, hc => by omega
  | fuel + 1, s, hi, hp, hc => by
    unfold loop
    cases hn : nextTask s with
    | none => right; exact ⟨s, rfl, hi, hp, nextTask_none.mp hn⟩
    | some t =>
      dsimp only
      have ht := nextTask_some hn
      rcases step_spec h hi ht with h1 | ⟨s', h1, h2, h3⟩
      · left; rw [h1]; exact ⟨rfl, s, t, hi, hp, ht, h1⟩
      · rw [h1]
        exact loop_spec h P hP fuel s' h2 (hP s t s' hi hp ht h1) (by omega)

/-- What the rate totals say about a rational solution of the balance equations. -/
theorem rateAt_sol {N : Fin nV → ℚ} (hN : ∀ e, ((g.prod e).sum : ℚ) * N (g.src e) = (g.cons e).sum * N (g.tgt e)) {v : Fin nV}
    {e : Fin nE} (hc : conn g v e = true) : rateAt g v e * N v = ((g.prod e).sum : ℚ) * N (g.src e) := by
  unfold rateAt inT outT
  rcases conn_iff.mp hc with rfl | rfl
  · rw [if_pos rfl]
  · split_ifs with h1
    · rw [← h1]
    · exact (hN e).symm

/-- On a consistent graph, the coefficients on the border of the search agree. -/
def Border (g : Graph nV nE) (N : Fin nV → ℚ) (s : State nV nE) : Prop :=
  ∃ l : ℚ, ∀ v e a, s.next v = true → conn g v e = true → s.alpha e = some a → a * rateAt g v e * N v = l

theorem seed_border {N : Fin nV → ℚ} (hN : ∀ e, ((g.prod e).sum : ℚ) * N (g.src e) = (g.cons e).sum * N (g.tgt e))
    {m : State nV nE} (hm : Core g m) {e : Fin nE} (hr : Reseeds g m e) : Border g N (seed g m e) := by
  refine ⟨1 / (Int.gcd (inT g e) (outT g e) : ℚ) * (((g.prod e).sum : ℚ) * N (g.src e)), fun v c a hv hc ha => ?_⟩
  have hve : conn g v e = true := by
    rcases seed_next.mp hv with h1 | h1
    · rw [hr.1 v] at h1; cases h1
    · exact h1
  have huv : m.unseen v = true := by
    rcases conn_iff.mp hve with rfl | rfl
    · exact hr.2.1
    · exact hr.2.2
  rcases (seed_alpha (reseeds_none hm hr.2.1)).mp ha with ⟨rfl, rfl⟩ | h1
  · rw [mul_assoc, rateAt_sol hN hc]
  · exfalso
    have h2 := (hm.pos c a h1).2
    rcases conn_iff.mp hc with rfl | rfl
    · rw [h2.1] at huv; cases huv
    · rw [h2.2] at huv; cases huv

theorem border_step (h : OK g) {N : Fin nV → ℚ} (hpos : ∀ v, 0 < N v)
    (hN : ∀ e, ((g.prod e).sum : ℚ) * N (g.src e) = (g.cons e).sum * N (g.tgt e)) {s : State nV nE} (hi : Inv g s)
    (hb : Border g N s) {t : Fin nV} (ht : s.next t = true) :
    ∃ s', step g s t = some (some s') ∧ Border g N s' := by
  obtain ⟨l, hl⟩ := hb
  rcases step_cases h hi ht with ⟨h1, -⟩ | ⟨z, K, s', h1, h2, h3, h4, -, h6, h7⟩
  · obtain ⟨z, hz⟩ := zRef_agree (g := g) (α := s.alpha) (t := t) (c := l / N t) (List.finRange nE) 0 (Or.inl rfl)
      fun e _ hc a ha => by
        rw [eq_div_iff (hpos t).ne']
        exact hl t e a ht hc ha
    rw [hz] at h1; cases h1
  · refine ⟨s', h6, ?_⟩
    have hzl : z * N t = l := by
      obtain ⟨e, a, hc, ha⟩ := hi.seen t (hi.nextSeen t ht)
      rw [← hl t e a ht hc ha, h3 e a hc ha]
    have hmid : Border g N (midState g s t z K) := by
      refine ⟨l * K, fun v c b hv hc hb => ?_⟩
      rcases newAlpha_some.mp hb with ⟨a, ha, rfl⟩ | ⟨ha, hct, rfl⟩
      · have hsv : s.next v = true := by
          rcases mid_next.mp hv with ⟨-, h8⟩ | ⟨h8, -⟩
          · exact h8
          · exfalso
            have h9 := (hi.pos c a ha).2
            rcases conn_iff.mp hc with rfl | rfl
            · rw [h9.1] at h8; cases h8
            · rw [h9.2] at h8; cases h8
        rw [← hl v c a hsv hc ha]; ring
      · have e1 := rateAt_sol hN hc
        have e2 := rateAt_sol hN hct
        have hr := (rateAt_pos h t c).ne'
        rw [mul_assoc, e1, ← e2, ← hzl]
        field_simp
    rcases h7 with ⟨rfl, -⟩ | ⟨e, h8, rfl⟩
    · exact hmid
    · exact seed_border hN (mid_core h hi ht h1 h2 h3 h4) h8

/-- `fineGCD` divides every rate. -/
theorem fineGCD_dvd (e : Fin nE) : ∀ w ∈ g.prod e ++ g.cons e, fineGCD g e ∣ w := by
  obtain ⟨-, a2, -, -⟩ := Rep.foldl_gcd (fun x : Int => x) (g.prod e) ((g.prod e).headD 0)
  obtain ⟨b1, b2, -, -⟩ := Rep.foldl_gcd (fun x : Int => x) (g.cons e)
    ((g.prod e).foldl (fun x r => (Int.gcd x r : Int)) ((g.prod e).headD 0))
  intro w hw
  rcases List.mem_append.mp hw with h1 | h1
  · exact dvd_trans b1 (a2 w h1)
  · exact b2 w h1

/-- `fineGCD` is the greatest number that divides every rate. -/
theorem dvd_fineGCD {e : Fin nE} (hne : g.prod e ≠ []) {d : ℤ} (hd : ∀ w ∈ g.prod e ++ g.cons e, d ∣ w) : d ∣ fineGCD g e := by
  obtain ⟨-, -, a3, -⟩ := Rep.foldl_gcd (fun x : Int => x) (g.prod e) ((g.prod e).headD 0)
  obtain ⟨-, -, b3, -⟩ := Rep.foldl_gcd (fun x : Int => x) (g.cons e)
    ((g.prod e).foldl (fun x r => (Int.gcd x r : Int)) ((g.prod e).headD 0))
  refine b3 d (a3 d ?_ fun w hw => hd w (List.mem_append_left _ hw)) fun w hw => hd w (List.mem_append_right _ hw)
  cases hp : g.prod e with
  | nil => exact absurd hp hne
  | cons x l => exact hd x (by rw [hp]; simp)

theorem sums_dvd (e : Fin nE) : fineGCD g e ∣ (g.prod e).sum ∧ fineGCD g e ∣ (g.cons e).sum :=
  ⟨List.dvd_sum fun w hw => fineGCD_dvd e w (List.mem_append_left _ hw),
   List.dvd_sum fun w hw => fineGCD_dvd e w (List.mem_append_right _ hw)⟩

theorem fineGCD_ne (h : OK g) (e : Fin nE) : fineGCD g e ≠ 0 := by
  intro h0
  have h1 := (sums_dvd (g := g) e).1
  rw [h0, zero_dvd_iff] at h1
  have h2 := h.inPos e
  omega

/-- A coefficient that keeps the greatest common divisor integer keeps every multiple integer. -/
theorem scaled_int {a : ℚ} {f w : ℤ} (ha : (a * f).den = 1) (hw : f ∣ w) : ∃ m : ℤ, a * w = m := by
  obtain ⟨m, hm⟩ := den_one_iff.mp ha
  obtain ⟨k, rfl⟩ := hw
  exact ⟨m * k, by push_cast; rw [← hm]; ring⟩

/-- Coefficients of another normalization, and the numbers it gives to the tasks. -/
structure Rival (g : Graph nV nE) (A : Fin nE → ℚ) (Z : Fin nV → ℚ) : Prop where
  pos : ∀ e, 0 < A e
  src : ∀ e, A e * (g.prod e).sum = Z (g.src e)
  tgt : ∀ e, A e * (g.cons e).sum = Z (g.tgt e)
  int : ∀ e, ∃ m : ℤ, A e * fineGCD g e = m

theorem Rival.rate {A : Fin nE → ℚ} {Z : Fin nV → ℚ} (hA : Rival g A Z) {v : Fin nV} {e : Fin nE} (hc : conn g v e = true) :
    A e * rateAt g v e = Z v := by
  unfold rateAt inT outT
  rcases conn_iff.mp hc with rfl | rfl
  · rw [if_pos rfl]; exact hA.src e
  · split_ifs with h1
    · rw [hA.src e, h1]
    · exact hA.tgt e

/-- The other coefficients are a multiple of those found so far. -/
def Multiple (A : Fin nE → ℚ) (s : State nV nE) : Prop :=
  ∃ r : ℤ, 0 < r ∧ ∀ e a, s.alpha e = some a → A e = r * a

theorem start_multiple (h : OK g) {A : Fin nE → ℚ} {Z : Fin nV → ℚ} (hA : Rival g A Z) (e : Fin nE) : Multiple A (start g e) := by
  obtain ⟨m1, h1⟩ := hA.int e
  obtain ⟨i, hi⟩ := scaled_int (den_one_iff.mpr ⟨m1, h1⟩) (sums_dvd (g := g) e).1
  obtain ⟨o, ho⟩ := scaled_int (den_one_iff.mpr ⟨m1, h1⟩) (sums_dvd (g := g) e).2
  have hg := gcd_pos h e
  have hb := Int.gcd_eq_gcd_ab (inT g e) (outT g e)
  set x := Int.gcdA (inT g e) (outT g e)
  set y := Int.gcdB (inT g e) (outT g e)
  have key : A e * (Int.gcd (inT g e) (outT g e) : ℚ) = ((i * x + o * y : ℤ) : ℚ) := by
    have : ((Int.gcd (inT g e) (outT g e) : ℤ) : ℚ) = ((inT g e * x + outT g e * y : ℤ) : ℚ) := by exact_mod_cast hb
    have h3 : (Int.gcd (inT g e) (outT g e) : ℚ) = ((Int.gcd (inT g e) (outT g e) : ℤ) : ℚ) := by push_cast; rfl
    rw [h3, this]
    push_cast
    rw [← hi, ← ho]
    unfold inT outT
    ring
  refine ⟨i * x + o * y, ?_, fun c a ha => ?_⟩
  · have : (0 : ℚ) < ((i * x + o * y : ℤ) : ℚ) := by rw [← key]; exact mul_pos (hA.pos e) hg
    exact_mod_cast this
  · rcases (seed_alpha (m := ⟨fun _ => none, fun _ => true, fun _ => false⟩) rfl).mp ha with ⟨rfl, rfl⟩ | h1
    · rw [← key]; field_simp
    · cases h1

theorem multiple_step (h : OK g) (hcon : ∀ a b, Relation.ReflTransGen (Rep.Adj g.toGraph) a b) {A : Fin nE → ℚ}
    {Z : Fin nV → ℚ} (hA : Rival g A Z) {s s' : State nV nE} (hi : Inv g s) (hm : Multiple A s) {t : Fin nV}
    (ht : s.next t = true) (hs : step g s t = some (some s')) : Multiple A s' := by
  obtain ⟨r, hr, hal⟩ := hm
  rcases step_cases h hi ht with ⟨-, h1⟩ | ⟨z, K, s2, h1, h2, h3, h4, h5, h6, h7⟩
  · rw [hs] at h1; cases h1
  rw [hs] at h6
  obtain rfl : s' = s2 := by simpa using h6
  have hzZ : Z t = r * z := by
    obtain ⟨e, a, hc, ha⟩ := hi.seen t (hi.nextSeen t ht)
    rw [← hA.rate hc, hal e a ha, ← h3 e a hc ha]; ring
  have hone : ∀ e a, newAlpha g s.alpha t z 1 e = some a → A e = r * a := by
    intro e a ha
    rcases newAlpha_some.mp ha with ⟨b, hb, rfl⟩ | ⟨-, hc, rfl⟩
    · rw [hal e b hb]; simp
    · have h8 := hA.rate hc
      rw [hzZ] at h8
      have := (rateAt_pos h t e).ne'
      push_cast
      field_simp
      linarith
  obtain ⟨r', rfl⟩ := h5 r fun e a hc ha => by
    obtain ⟨m, hm⟩ := hA.int e
    exact ⟨m, by rw [← hm, hone e a ha]; ring⟩
  have hmid : Multiple A (midState g s t z K) := by
    refine ⟨r', by by_contra hneg; push Not at hneg; have : (K : ℤ) * r' ≤ 0 := mul_nonpos_of_nonneg_of_nonpos (by positivity) hneg; omega, ?_⟩
    intro e b hb
    have : ∃ a, newAlpha g s.alpha t z 1 e = some a ∧ b = a * K := by
      rcases newAlpha_some.mp hb with ⟨a, ha, rfl⟩ | ⟨ha, hc, rfl⟩
      · exact ⟨a, newAlpha_some.mpr (Or.inl ⟨a, ha, by simp⟩), rfl⟩
      · exact ⟨z / rateAt g t e, newAlpha_some.mpr (Or.inr ⟨ha, hc, by simp⟩), rfl⟩
    obtain ⟨a, ha, rfl⟩ := this
    rw [hone e a ha]; push_cast; ring
  rcases h7 with ⟨rfl, -⟩ | ⟨e, h8, rfl⟩
  · exact hmid
  · exfalso
    have hcore := mid_core h hi ht h1 h2 h3 h4
    have hreach : ∀ b, Relation.ReflTransGen (Rep.Adj g.toGraph) t b → (midState g s t z K).unseen b = false := by
      intro b hb
      induction hb with
      | refl => exact mid_unseen.mpr (Or.inl (hi.nextSeen t ht))
      | tail _ hab ih =>
        obtain ⟨c, ⟨rfl, rfl⟩ | ⟨rfl, rfl⟩⟩ := hab
        · exact (core_closed hcore h8.1 ih (conn_iff.mpr (Or.inl rfl))).2
        · exact (core_closed hcore h8.1 ih (conn_iff.mpr (Or.inr rfl))).1
    have := hreach (g.src e) (hcon t _)
    rw [h8.2.1] at this
    cases this

/-- Inserting the numbers of the two ends of a channel. -/
theorem insert_two (res : Fin nV → Option Int) (e : Fin nE) (x y : Int) (v : Fin nV) :
    insertZ (insertZ res (g.src e) x) (g.tgt e) y v =
      match res v with
      | some r => some r
      | none => if g.src e = v then some x else if g.tgt e = v then some y else none := by
  have one : ∀ (r : Fin nV → Option Int) (a : Fin nV) (i : Int) (u : Fin nV), insertZ r a i u =
      match r u with
      | some k => some k
      | none => if a = u then some i else none := by
    intro r a i u
    unfold insertZ
    by_cases hau : a = u
    · subst hau
      cases hr : r a with
      | some k => simp [hr]
      | none => simp
    · cases hr : r a with
      | some k => cases hu : r u <;> simp [hu, hau]
      | none => cases hu : r u <;> simp [hu, hau, Ne.symm hau]
  rw [one, one]
  cases hr : res v with
  | some k => simp
  | none => by_cases hs : g.src e = v <;> simp [hs]

/-- The loop that fills the result. -/
theorem collect_spec (h : OK g) {α : Fin nE → Option ℚ} (hα : ∀ e, ∃ a, α e = some a ∧ 0 < a ∧ (a * fineGCD g e).den = 1) :
    ∀ (es : List (Fin nE)) (res : Fin nV → Option Int), ∃ res', collect g α es res = some (some res') ∧
      ∀ v, (∀ x, res v = some x → res' v = some x) ∧
        (res v = none → res' v = none ∧ (∀ e ∈ es, conn g v e = false) ∨
          ∃ e ∈ es, conn g v e = true ∧ res' v = some ((α e).getD 0 * rateAt g v e).num)
  | [], res => ⟨res, rfl, fun v => ⟨fun _ hx => hx, fun hn => Or.inl ⟨hn, by simp⟩⟩⟩
  | e :: es, res => by
    obtain ⟨a, ha, hap, had⟩ := hα e
    unfold collect
    rw [if_neg (by have := h.inPos e; have := h.outPos e; unfold inT outT; omega)]
    have hg : (α e).getD 0 = a := by rw [ha]; rfl
    obtain ⟨i, hi⟩ := scaled_int had (sums_dvd (g := g) e).1
    obtain ⟨o, ho⟩ := scaled_int had (sums_dvd (g := g) e).2
    rw [hg, if_neg (not_le.mpr hap), if_neg (by
      unfold inT outT; rw [hi, ho]; simp)]
    obtain ⟨res', h1, h2⟩ := collect_spec h hα es
      (insertZ (insertZ res (g.src e) (a * inT g e).num) (g.tgt e) (a * outT g e).num)
    refine ⟨res', h1, fun v => ⟨fun x hx => (h2 v).1 x ?_, fun hn => ?_⟩⟩
    · rw [insert_two, hx]
    · have h3 := insert_two (g := g) res e (a * inT g e).num (a * outT g e).num v
      rw [hn] at h3
      dsimp only at h3
      by_cases hc : conn g v e = true
      · right
        refine ⟨e, List.mem_cons_self, hc, (h2 v).1 _ ?_⟩
        rw [h3, hg]
        unfold rateAt
        rcases conn_iff.mp hc with hs | ht
        · rw [if_pos hs, if_pos hs]
        · by_cases hs : g.src e = v
          · rw [if_pos hs, if_pos hs]
          · rw [if_neg hs, if_neg hs, if_pos ht]
      · have hc' : ¬ (g.src e = v ∨ g.tgt e = v) := fun hh => hc (conn_iff.mpr hh)
        push Not at hc'
        rw [if_neg hc'.1, if_neg hc'.2] at h3
        rcases (h2 v).2 h3 with ⟨h4, h5⟩ | ⟨c, hm, h4⟩
        · left
          refine ⟨h4, fun c hm => ?_⟩
          rcases List.mem_cons.mp hm with rfl | hm
          · simpa using hc
          · exact h5 c hm
        · exact Or.inr ⟨c, List.mem_cons_of_mem _ hm, h4⟩

end Kiter.Norm
