import Verif.Model.PeriodicSizing
import Verif.Lemmas.StrictlyPeriodic
import Verif.Lemmas.Buffers

set_option autoImplicit false

namespace Kiter
open Finset

/-! ### The rows of an edge -/

/-- All rows hold. -/
def Holds (v : LPVar → ℚ) (rs : List LPRow) : Prop := ∀ r ∈ rs, r.lo ≤ r.value v

theorem holds_nil (v : LPVar → ℚ) : Holds v [] := by simp [Holds]

theorem holds_append {v : LPVar → ℚ} {a b : List LPRow} : Holds v (a ++ b) ↔ Holds v a ∧ Holds v b := by
  simp only [Holds, List.mem_append, or_imp, forall_and]

theorem value_startCoefs (p m : LPVar) (lo : ℚ) (v : LPVar → ℚ) : (LPRow.mk (startCoefs p m) lo).value v = v p - v m := by
  unfold LPRow.value startCoefs
  by_cases h : p = m
  · simp [h]
  · simp only [h, if_false, List.map_cons, List.map_nil, List.sum_cons, List.sum_nil]; ring

theorem value_cons (c : LPVar × ℚ) (l : List (LPVar × ℚ)) (lo : ℚ) (v : LPVar → ℚ) :
    (LPRow.mk (c :: l) lo).value v = c.2 * v c.1 + (LPRow.mk l lo).value v := by
  simp [LPRow.value]

/-- Start of phase `a` (from 0) of a task in an assignment. -/
def startOf (st : Starts) (v : LPVar → ℚ) (t : Int) (a : ℕ) : ℚ := v (st.var t (a + 1)) + (st.off t (a + 1)).getD 0

/-- What the rows of one pair of phases (from 0) say. -/
def SizePair (x : SizingCtx) (v : LPVar → ℚ) (m n : ℕ) : Prop :=
  let W := rate x.ch.1.inPhases
  let R := rate x.ch.1.outPhases
  (ceilMult (max 0 (W m - R n) + cum R (n + 1) - cum W (m + 1) - x.mop) x.gcdz ≤
      floorMult (cum R (n + 1) - cum W m - x.mop - 1) x.gcdz →
    startOf x.st v x.ch.2.1.id m + x.ch.2.1.dur m +
      (floorMult (cum R (n + 1) - cum W m - x.mop - 1) x.gcdz : ℚ) * (x.mu x.ch.2.1 / x.ch.1.inPhases.sum) ≤
      startOf x.st v x.ch.2.2.id n) ∧
  (0 < min (W m) (R n) →
    startOf x.st v x.ch.2.2.id n + x.ch.2.2.dur n +
        x.gcdz * v (.loc x.edge (m + 1) (n + 1)) * (x.mu x.ch.2.2 / x.ch.1.outPhases.sum) ≤ startOf x.st v x.ch.2.1.id m ∧
    ((cum W (m + 1) - cum R n - x.gcdz : Int) : ℚ) ≤ x.gcdz * v (.loc x.edge (m + 1) (n + 1)) + v (.mo x.edge))

variable {x : SizingCtx}

theorem pairRows_spec (hc : ChannelOK x.ch.1 x.ch.2.1 x.ch.2.2) (hni : 0 < x.ch.2.1.ni) (hnj : 0 < x.ch.2.2.ni)
    (hg : 0 < x.gcdz) {m n : ℕ} {offi offj : ℚ} (hoi : x.st.off x.ch.2.1.id (m + 1) = some offi)
    (hoj : x.st.off x.ch.2.2.id (n + 1) = some offj) :
    ∃ rs, pairRows x (m + 1) (n + 1) offi offj (x.ch.2.1.dur m) (x.ch.2.2.dur n) (rate x.ch.1.inPhases m)
        (cum (rate x.ch.1.inPhases) (m + 1)) (cum (rate x.ch.1.inPhases) m) (rate x.ch.1.outPhases n)
        (cum (rate x.ch.1.outPhases) (n + 1)) (cum (rate x.ch.1.outPhases) n) = some rs ∧
      ∀ v, Holds v rs ↔ SizePair x v m n := by
  unfold pairRows
  dsimp only
  rw [cCeil_eq hg, cFloor_eq hg]
  simp only [Option.bind_eq_bind, Option.bind_some]
  rw [if_neg (by have := hc.inPos; have := hc.outPos; omega)]
  refine ⟨_, rfl, fun v => ?_⟩
  rw [holds_append]
  unfold SizePair startOf
  rw [hoi, hoj]
  simp only [Option.getD_some]
  refine and_congr ?_ ?_
  · split_ifs with h
    · simp only [Holds, List.mem_singleton, forall_eq, value_startCoefs, h, true_imp_iff]
      constructor <;> intro h' <;> linarith
    · simp only [h, false_imp_iff, iff_true]; exact holds_nil v
  · by_cases h : min (rate x.ch.1.inPhases m) (rate x.ch.1.outPhases n) > 0
    · have h' : 0 < min (rate x.ch.1.inPhases m) (rate x.ch.1.outPhases n) := h
      rw [if_pos h]
      simp only [h', true_imp_iff, Holds, List.mem_cons, List.not_mem_nil, or_false, forall_eq_or_imp, forall_eq, value_cons,
        value_startCoefs]
      refine and_congr ?_ ?_
      · constructor <;> intro h'' <;> linarith
      · have e : (LPRow.mk [] (((-cum (rate x.ch.1.outPhases) n + cum (rate x.ch.1.inPhases) (m + 1) - x.gcdz : Int)) : ℚ)).value v = 0 := by
          simp [LPRow.value]
        rw [e]
        push_cast
        constructor <;> intro h'' <;> linarith
    · have h' : ¬ 0 < min (rate x.ch.1.inPhases m) (rate x.ch.1.outPhases n) := h
      rw [if_neg h]
      simp only [h', false_imp_iff, iff_true]; exact holds_nil v

theorem phaseRate_lt {l : List Int} {a : ℕ} (h : a < l.length) : phaseRate [] l ((a + 1 : ℕ) : Int) = some (rate l a) := by
  have := phaseRate_eq l (by omega) a
  rw [Nat.mod_eq_of_lt h] at this
  push_cast; exact this

theorem phaseDuration_lt {t : KTask} {a : ℕ} (h : a < t.durations.length) : phaseDuration t ((a + 1 : ℕ) : Int) = some (t.dur a) := by
  have := phaseDuration_eq t (by omega) a
  rw [Nat.mod_eq_of_lt h] at this
  push_cast; exact this

theorem targetRows_spec (hc : ChannelOK x.ch.1 x.ch.2.1 x.ch.2.2) (hni : 0 < x.ch.2.1.ni) (hnj : 0 < x.ch.2.2.ni)
    (hg : 0 < x.gcdz) {m : ℕ} {offi : ℚ} (hoi : x.st.off x.ch.2.1.id (m + 1) = some offi)
    (hoj : ∀ n < x.ch.2.2.durations.length, ∃ o, x.st.off x.ch.2.2.id (n + 1) = some o) :
    ∀ (k n : ℕ), n + k = x.ch.2.2.durations.length →
      ∃ rs, targetRows x (m + 1) offi (x.ch.2.1.dur m) (rate x.ch.1.inPhases m) (cum (rate x.ch.1.inPhases) (m + 1))
          (cum (rate x.ch.1.inPhases) m) k (n + 1) (cum (rate x.ch.1.outPhases) n) (cum (rate x.ch.1.outPhases) n) = some rs ∧
        ∀ v, Holds v rs ↔ ∀ b, n ≤ b → b < x.ch.2.2.durations.length → SizePair x v m b := by
  intro k
  induction k with
  | zero =>
    intro n hn
    refine ⟨[], rfl, fun v => ?_⟩
    constructor
    · intro _ b h1 h2; omega
    · intro _; exact holds_nil v
  | succ k ih =>
    intro n hn
    have hlt : n < x.ch.2.2.durations.length := by omega
    obtain ⟨oj, hj⟩ := hoj n hlt
    obtain ⟨rs1, e1, s1⟩ := pairRows_spec hc hni hnj hg hoi hj
    obtain ⟨rs2, e2, s2⟩ := ih (n + 1) (by omega)
    refine ⟨rs1 ++ rs2, ?_, fun v => ?_⟩
    · unfold targetRows
      rw [phaseDuration_lt hlt, hj, hc.noOutInit, phaseRate_lt (by rw [← hc.dstPhases]; exact hlt)]
      simp only [Option.bind_eq_bind, Option.bind_some]
      rw [← cum_succ, e1]
      simp only [Option.bind_some]
      rw [e2]; rfl
    · rw [holds_append, s1, s2]
      constructor
      · rintro ⟨h1, h2⟩ b hb hb2
        rcases Nat.eq_or_lt_of_le hb with h | h
        · rw [← h]; exact h1
        · exact h2 b h hb2
      · intro h
        exact ⟨h n le_rfl hlt, fun b hb hb2 => h b (by omega) hb2⟩

theorem sourceRows_spec (hc : ChannelOK x.ch.1 x.ch.2.1 x.ch.2.2) (hni : 0 < x.ch.2.1.ni) (hnj : 0 < x.ch.2.2.ni)
    (hg : 0 < x.gcdz) (hoi : ∀ m < x.ch.2.1.durations.length, ∃ o, x.st.off x.ch.2.1.id (m + 1) = some o)
    (hoj : ∀ n < x.ch.2.2.durations.length, ∃ o, x.st.off x.ch.2.2.id (n + 1) = some o) :
    ∀ (k m : ℕ), m + k = x.ch.2.1.durations.length →
      ∃ rs, sourceRows x k (m + 1) (cum (rate x.ch.1.inPhases) m) (cum (rate x.ch.1.inPhases) m) = some rs ∧
        ∀ v, Holds v rs ↔ ∀ a, m ≤ a → a < x.ch.2.1.durations.length →
          ∀ b < x.ch.2.2.durations.length, SizePair x v a b := by
  intro k
  induction k with
  | zero =>
    intro m hm
    refine ⟨[], rfl, fun v => ?_⟩
    constructor
    · intro _ b h1 h2; omega
    · intro _; exact holds_nil v
  | succ k ih =>
    intro m hm
    have hlt : m < x.ch.2.1.durations.length := by omega
    obtain ⟨oi, hi⟩ := hoi m hlt
    obtain ⟨rs1, e1, s1⟩ := targetRows_spec hc hni hnj hg hi hoj x.ch.2.2.durations.length 0 (by omega)
    obtain ⟨rs2, e2, s2⟩ := ih (m + 1) (by omega)
    rw [cum_zero] at e1
    refine ⟨rs1 ++ rs2, ?_, fun v => ?_⟩
    · unfold sourceRows
      rw [phaseDuration_lt hlt, hi, hc.noInInit, phaseRate_lt (by rw [← hc.srcPhases]; exact hlt)]
      simp only [Option.bind_eq_bind, Option.bind_some]
      rw [← cum_succ, e1]
      simp only [Option.bind_some]
      rw [e2]; rfl
    · rw [holds_append, s1, s2]
      constructor
      · rintro ⟨h1, h2⟩ a ha ha2
        rcases Nat.eq_or_lt_of_le ha with h | h
        · rw [← h]; exact fun b hb => h1 b (Nat.zero_le _) hb
        · exact h2 a h ha2
      · intro h
        exact ⟨fun b _ hb => h m le_rfl hlt b hb, fun a ha ha2 => h a (by omega) ha2⟩

/-- The step of the constraints of a channel. -/
abbrev stepOf (c : KChannel) : Int := Int.gcd c.inPhases.sum c.outPhases.sum

theorem stepOf_pos {c : KChannel} {src dst : KTask} (hc : ChannelOK c src dst) : 0 < stepOf c := by
  have := Int.gcd_pos_of_ne_zero_left c.outPhases.sum hc.inPos.ne'
  unfold stepOf; exact_mod_cast this

theorem edgeRows_spec {st : Starts} {Ω : ℚ} {i : ℕ} {e : BChannel} (hc : ChannelOK e.1 e.2.1 e.2.2) (hni : 0 < e.2.1.ni)
    (hnj : 0 < e.2.2.ni) (hoi : ∀ m < e.2.1.durations.length, ∃ o, st.off e.2.1.id (m + 1) = some o)
    (hoj : ∀ n < e.2.2.durations.length, ∃ o, st.off e.2.2.id (n + 1) = some o) :
    ∃ mop, cFloor e.1.preload e.1.fineGCD = some mop ∧ ∃ rs, edgeRows st Ω i e = some rs ∧
      ∀ v, Holds v rs ↔ ∀ a < e.2.1.durations.length, ∀ b < e.2.2.durations.length,
        SizePair ⟨st, i, e, Ω, mop, stepOf e.1⟩ v a b := by
  obtain ⟨mop, hm, -⟩ := cFloor_spec e.1.preload e.1.fineGCD hc.gcdPos hc.preload
  obtain ⟨rs, h1, h2⟩ := sourceRows_spec (x := ⟨st, i, e, Ω, mop, stepOf e.1⟩) hc hni hnj (stepOf_pos hc) hoi hoj
    e.2.1.durations.length 0 (by simp)
  rw [cum_zero] at h1
  refine ⟨mop, hm, rs, ?_, fun v => ?_⟩
  · unfold edgeRows; rw [hm]; exact h1
  · rw [h2]; exact ⟨fun h a ha b hb => h a (Nat.zero_le _) ha b hb, fun h a _ ha b hb => h a ha b hb⟩

/-! ### The rows of a task -/

theorem chainRows_spec {t : KTask} (tf : ℚ) : ∀ (k m : ℕ), m + k + 1 ≤ t.durations.length →
    ∃ rs, chainRows t tf k (m + 1) = some rs ∧ ∀ v, Holds v rs ↔ ∀ a, m ≤ a → a < m + k →
      v (.start t.id (a + 1)) + t.dur a * tf ≤ v (.start t.id (a + 2)) := by
  intro k
  induction k with
  | zero =>
    intro m hm
    refine ⟨[], rfl, fun v => ?_⟩
    constructor
    · intro _ b h1 h2; omega
    · intro _; exact holds_nil v
  | succ k ih =>
    intro m hm
    obtain ⟨rs, e, s⟩ := ih (m + 1) (by omega)
    refine ⟨⟨[(.start t.id (m + 1 + 1), 1), (.start t.id (m + 1), -1)], t.dur m * tf⟩ :: rs, ?_, fun v => ?_⟩
    · unfold chainRows
      rw [phaseDuration_lt (by omega), e]; rfl
    · unfold Holds at s ⊢
      rw [List.forall_mem_cons, s]
      have h0 : (LPRow.mk [(.start t.id (m + 1 + 1), 1), (.start t.id (m + 1), -1)] (t.dur m * tf)).value v =
          v (.start t.id (m + 2)) - v (.start t.id (m + 1)) := by
        simp only [LPRow.value, List.map_cons, List.map_nil, List.sum_cons, List.sum_nil]; ring
      rw [h0]
      dsimp only
      constructor
      · rintro ⟨h1, h2⟩ a ha ha2
        rcases Nat.eq_or_lt_of_le ha with h | h
        · rw [← h]; linarith
        · exact h2 a h (by omega)
      · intro h
        exact ⟨by have := h m le_rfl (by omega); linarith, fun a ha ha2 => h a (by omega) (by omega)⟩

theorem taskRows_spec {t : KTask} (Ω : ℚ) (ht : TaskOK t 1) :
    ∃ rs, taskRows Ω t = some rs ∧ ∀ v, Holds v rs ↔
      (∀ a, a + 1 < t.durations.length → v (.start t.id (a + 1)) + t.dur a ≤ v (.start t.id (a + 2))) ∧
      v (.start t.id t.durations.length) + t.dur (t.durations.length - 1) ≤
        v (.start t.id 1) + Ω * t.durations.length / t.ni := by
  have hr : ¬ t.reentrancy ≤ 0 := by have := ht.reentrancy; omega
  obtain ⟨rs, e, s⟩ := chainRows_spec (t := t) 1 (t.durations.length - 1) 0 (by have := ht.phases; omega)
  obtain ⟨P, hP⟩ : ∃ P, t.durations.length = P + 1 := ⟨t.durations.length - 1, by have := ht.phases; omega⟩
  unfold taskRows
  have hd : phaseDuration t ((t.durations.length : ℕ) : Int) = some (t.dur (t.durations.length - 1)) := by
    have := phaseDuration_lt (t := t) (a := t.durations.length - 1) (by omega)
    rwa [Nat.sub_add_cancel ht.phases] at this
  rw [zero_add] at e
  dsimp only
  rw [if_neg hr, e, hd]
  simp only [Option.bind_eq_bind, Option.bind_some]
  rw [if_neg ht.ni.ne']
  refine ⟨_, rfl, fun v => ?_⟩
  rw [holds_append, s]
  refine and_congr ?_ ?_
  · simp only [mul_one]
    constructor
    · intro h a ha; exact h a (Nat.zero_le _) (by omega)
    · intro h a _ ha; exact h a (by omega)
  · simp only [Holds, List.mem_singleton, forall_eq]
    have h0 : (LPRow.mk (if t.durations.length > 1 then [(LPVar.start t.id 1, (1 : ℚ)), (.start t.id t.durations.length, -1)] else [])
        (t.dur (t.durations.length - 1) * 1 - Ω * t.durations.length / t.ni)).value v =
        v (.start t.id 1) - v (.start t.id t.durations.length) := by
      split_ifs with h
      · simp only [LPRow.value, List.map_cons, List.map_nil, List.sum_cons, List.sum_nil]; ring
      · have : t.durations.length = 1 := by have := ht.phases; omega
        rw [this]; simp [LPRow.value]
    rw [h0]
    constructor <;> intro h <;> linarith

/-! ### The whole program -/

theorem allEdgeRows_spec {st : Starts} {Ω : ℚ} : ∀ (l : List BChannel) (i : ℕ),
    (∀ e ∈ l, ChannelOK e.1 e.2.1 e.2.2 ∧ 0 < e.2.1.ni ∧ 0 < e.2.2.ni ∧
      (∀ m < e.2.1.durations.length, ∃ o, st.off e.2.1.id (m + 1) = some o) ∧
      ∀ n < e.2.2.durations.length, ∃ o, st.off e.2.2.id (n + 1) = some o) →
    ∃ rs, allEdgeRows st Ω i l = some rs ∧ ∀ v, Holds v rs ↔ ∀ k (hk : k < l.length), ∃ mop,
      cFloor l[k].1.preload l[k].1.fineGCD = some mop ∧ ∀ a < l[k].2.1.durations.length, ∀ b < l[k].2.2.durations.length,
        SizePair ⟨st, i + k, l[k], Ω, mop, stepOf l[k].1⟩ v a b := by
  intro l
  induction l with
  | nil => intro i _; exact ⟨[], rfl, fun v => ⟨fun _ k hk => by simp at hk, fun _ => holds_nil v⟩⟩
  | cons e l ih =>
    intro i h
    obtain ⟨h1, h2, h3, h4, h5⟩ := h e (by simp)
    obtain ⟨mop, hm, rs1, e1, s1⟩ := edgeRows_spec (Ω := Ω) (i := i) h1 h2 h3 h4 h5
    obtain ⟨rs2, e2, s2⟩ := ih (i + 1) (fun e he => h e (by simp [he]))
    refine ⟨rs1 ++ rs2, by unfold allEdgeRows; rw [e1, e2]; rfl, fun v => ?_⟩
    rw [holds_append, s1, s2]
    constructor
    · rintro ⟨g1, g2⟩ k hk
      cases k with
      | zero => exact ⟨mop, hm, g1⟩
      | succ k =>
        have := g2 k (by simpa using hk)
        rw [show i + 1 + k = i + (k + 1) by ring] at this
        simpa using this
    · intro g
      refine ⟨?_, fun k hk => ?_⟩
      · obtain ⟨mop', hm', g1⟩ := g 0 (by simp)
        rw [List.getElem_cons_zero] at hm' g1
        rw [hm] at hm'; cases hm'
        simpa using g1
      · have := g (k + 1) (by simpa using hk)
        rw [show i + (k + 1) = i + 1 + k by ring] at this
        simpa using this

theorem allTaskRows_spec {Ω : ℚ} : ∀ (l : List KTask), (∀ t ∈ l, TaskOK t 1) →
    ∃ rs, allTaskRows Ω l = some rs ∧ ∀ v, Holds v rs ↔ ∀ t ∈ l,
      (∀ a, a + 1 < t.durations.length → v (.start t.id (a + 1)) + t.dur a ≤ v (.start t.id (a + 2))) ∧
      v (.start t.id t.durations.length) + t.dur (t.durations.length - 1) ≤
        v (.start t.id 1) + Ω * t.durations.length / t.ni := by
  intro l
  induction l with
  | nil => intro _; exact ⟨[], rfl, fun v => ⟨fun _ t ht => by simp at ht, fun _ => holds_nil v⟩⟩
  | cons t l ih =>
    intro h
    obtain ⟨rs1, e1, s1⟩ := taskRows_spec Ω (h t (by simp))
    obtain ⟨rs2, e2, s2⟩ := ih (fun t ht => h t (by simp [ht]))
    refine ⟨rs1 ++ rs2, by unfold allTaskRows; rw [e1, e2]; rfl, fun v => ?_⟩
    rw [holds_append, s1, s2, List.forall_mem_cons]

/-! ### The sizes -/

theorem gatherTarget_spec {ilp : Bool} {v : LPVar → ℚ} {i : ℕ} {e : BChannel} (hc : ChannelOK e.1 e.2.1 e.2.2) {g : Int} {m : ℕ}
    {cw : Int} : ∀ (k n : ℕ) (crm best : Int), n + k = e.2.2.durations.length →
    (0 < rate e.1.inPhases m → crm = cum (rate e.1.outPhases) n) →
    ∃ F, gatherTarget ilp v i e g (m + 1) (rate e.1.inPhases m) cw k (n + 1) (cum (rate e.1.outPhases) n) crm best = some F ∧
      best ≤ F ∧
      (∀ b, n ≤ b → b < e.2.2.durations.length → 0 < min (rate e.1.inPhases m) (rate e.1.outPhases b) →
        -(readLoc ilp (v (.loc i (m + 1) (b + 1)))) * g - cum (rate e.1.outPhases) b + cw - g ≤ F) ∧
      (F = best ∨ ∃ b, n ≤ b ∧ b < e.2.2.durations.length ∧ 0 < min (rate e.1.inPhases m) (rate e.1.outPhases b) ∧
        F = -(readLoc ilp (v (.loc i (m + 1) (b + 1)))) * g - cum (rate e.1.outPhases) b + cw - g) := by
  intro k
  induction k with
  | zero =>
    intro n crm best hn _
    exact ⟨best, rfl, le_rfl, fun b h1 h2 => by omega, .inl rfl⟩
  | succ k ih =>
    intro n crm best hn hcrm
    have hlt : n < e.2.2.durations.length := by omega
    have hrate : phaseRate e.1.outInit e.1.outPhases ((n + 1 : ℕ) : Int) = some (rate e.1.outPhases n) := by
      rw [hc.noOutInit]; exact phaseRate_lt (by rw [← hc.dstPhases]; exact hlt)
    by_cases hpos : min (rate e.1.inPhases m) (rate e.1.outPhases n) > 0
    · have hw : 0 < rate e.1.inPhases m := lt_of_lt_of_le hpos (min_le_left _ _)
      have hcrm' := hcrm hw
      set bound := -(readLoc ilp (v (.loc i (m + 1) (n + 1)))) * g - crm + cw - g with hb
      obtain ⟨F, e1, f1, f2, f3⟩ := ih (n + 1) (cum (rate e.1.outPhases) (n + 1)) (if bound > best then bound else best) (by omega) (fun _ => rfl)
      have hbb : best ≤ (if bound > best then bound else best) ∧ bound ≤ (if bound > best then bound else best) := by
        split_ifs <;> omega
      refine ⟨F, ?_, by omega, fun b h1 h2 h3 => ?_, ?_⟩
      · unfold gatherTarget
        rw [hrate]
        simp only [Option.bind_eq_bind, Option.bind_some]
        rw [if_pos hpos, ← cum_succ]; exact e1
      · rcases Nat.eq_or_lt_of_le h1 with h | h
        · rw [← h, ← hcrm']; omega
        · exact f2 b h h2 h3
      · rcases f3 with f3 | ⟨b, h1, h2, h3, h4⟩
        · by_cases hlt2 : bound > best
          · rw [if_pos hlt2] at f3
            exact .inr ⟨n, le_rfl, hlt, hpos, by rw [f3, hb, hcrm']⟩
          · rw [if_neg hlt2] at f3; exact .inl f3
        · exact .inr ⟨b, by omega, h2, h3, h4⟩
    · have hcrm' : 0 < rate e.1.inPhases m → crm = cum (rate e.1.outPhases) (n + 1) := by
        intro hw
        have hr : rate e.1.outPhases n ≤ 0 := by
          by_contra hr
          exact hpos (lt_min hw (not_le.1 hr))
        have hr2 : 0 ≤ rate e.1.outPhases n := by
          have hn' : n < e.1.outPhases.length := by rw [← hc.dstPhases]; exact hlt
          unfold rate
          rw [Nat.mod_eq_of_lt hn', List.getD_eq_getElem _ _ hn']
          exact hc.outNonneg _ (List.getElem_mem hn')
        rw [cum_succ, hcrm hw]; omega
      obtain ⟨F, e1, f1, f2, f3⟩ := ih (n + 1) crm best (by omega) hcrm'
      refine ⟨F, ?_, f1, fun b h1 h2 h3 => ?_, ?_⟩
      · unfold gatherTarget
        rw [hrate]
        simp only [Option.bind_eq_bind, Option.bind_some]
        rw [if_neg hpos, ← cum_succ]; exact e1
      · rcases Nat.eq_or_lt_of_le h1 with h | h
        · exact absurd (by rw [h]; exact h3) hpos
        · exact f2 b h h2 h3
      · rcases f3 with f3 | ⟨b, h1, h2, h3, h4⟩
        · exact .inl f3
        · exact .inr ⟨b, by omega, h2, h3, h4⟩

/-- The lower bound on the free space given by the column of a pair of phases. -/
def locBound (ilp : Bool) (v : LPVar → ℚ) (i : ℕ) (e : BChannel) (m n : ℕ) : Int :=
  -(readLoc ilp (v (.loc i (m + 1) (n + 1)))) * stepOf e.1 - cum (rate e.1.outPhases) n + cum (rate e.1.inPhases) (m + 1) - stepOf e.1

theorem gatherSource_spec {ilp : Bool} {v : LPVar → ℚ} {i : ℕ} {e : BChannel} (hc : ChannelOK e.1 e.2.1 e.2.2) :
    ∀ (k m : ℕ) (best : Int), m + k = e.2.1.durations.length →
    ∃ F, gatherSource ilp v i e (stepOf e.1) k (m + 1) (cum (rate e.1.inPhases) m) best = some F ∧ best ≤ F ∧
      (∀ a, m ≤ a → a < e.2.1.durations.length → ∀ b < e.2.2.durations.length,
        0 < min (rate e.1.inPhases a) (rate e.1.outPhases b) → locBound ilp v i e a b ≤ F) ∧
      (F = best ∨ ∃ a b, a < e.2.1.durations.length ∧ b < e.2.2.durations.length ∧
        0 < min (rate e.1.inPhases a) (rate e.1.outPhases b) ∧ F = locBound ilp v i e a b) := by
  intro k
  induction k with
  | zero =>
    intro m best hm
    exact ⟨best, rfl, le_rfl, fun b h1 h2 => by omega, .inl rfl⟩
  | succ k ih =>
    intro m best hm
    have hlt : m < e.2.1.durations.length := by omega
    obtain ⟨F1, e1, f1, f2, f3⟩ := gatherTarget_spec (ilp := ilp) (v := v) (i := i) hc (g := stepOf e.1) (m := m)
      (cw := cum (rate e.1.inPhases) (m + 1)) e.2.2.durations.length 0 0 best (by simp) (fun _ => by simp)
    obtain ⟨F, e2, g1, g2, g3⟩ := ih (m + 1) F1 (by omega)
    rw [cum_zero, zero_add] at e1
    refine ⟨F, ?_, by omega, fun a h1 h2 b hb h3 => ?_, ?_⟩
    · unfold gatherSource
      rw [hc.noInInit, phaseRate_lt (by rw [← hc.srcPhases]; exact hlt)]
      simp only [Option.bind_eq_bind, Option.bind_some]
      rw [← cum_succ, e1]; exact e2
    · rcases Nat.eq_or_lt_of_le h1 with h | h
      · subst h
        exact le_trans (f2 b (Nat.zero_le _) hb h3) g1
      · exact g2 a h h2 b hb h3
    · rcases g3 with g3 | ⟨a, b, h1, h2, h3, h4⟩
      · rcases f3 with f3 | ⟨b, -, h2, h3, h4⟩
        · exact .inl (g3.trans f3)
        · exact .inr ⟨m, b, hlt, h2, h3, g3.trans h4⟩
      · exact .inr ⟨a, b, h1, h2, h3, h4⟩

theorem bufferSize_spec (ilp : Bool) (v : LPVar → ℚ) (i : ℕ) {e : BChannel} (hc : ChannelOK e.1 e.2.1 e.2.2) :
    ∃ F, bufferSize ilp v i e = some (F + e.1.preload) ∧ readMo ilp (v (.mo i)) ≤ F ∧
      (∀ a < e.2.1.durations.length, ∀ b < e.2.2.durations.length,
        0 < min (rate e.1.inPhases a) (rate e.1.outPhases b) → locBound ilp v i e a b ≤ F) ∧
      (F = readMo ilp (v (.mo i)) ∨ ∃ a b, a < e.2.1.durations.length ∧ b < e.2.2.durations.length ∧
        0 < min (rate e.1.inPhases a) (rate e.1.outPhases b) ∧ F = locBound ilp v i e a b) := by
  obtain ⟨F, e1, f1, f2, f3⟩ := gatherSource_spec (ilp := ilp) (v := v) (i := i) hc e.2.1.durations.length 0
    (readMo ilp (v (.mo i))) (by simp)
  rw [cum_zero, zero_add] at e1
  refine ⟨F, ?_, f1, fun a ha b hb h => f2 a (Nat.zero_le _) ha b hb h, f3⟩
  unfold bufferSize
  simp only [Option.bind_eq_bind]
  rw [e1]; rfl

theorem bufferSizes_spec (ilp : Bool) (v : LPVar → ℚ) : ∀ (l : List BChannel) (i : ℕ),
    (∀ e ∈ l, ChannelOK e.1 e.2.1 e.2.2) →
    ∃ sizes, bufferSizes ilp v i l = some sizes ∧ sizes.length = l.length ∧
      ∀ k (hk : k < l.length) (hk' : k < sizes.length), bufferSize ilp v (i + k) l[k] = some sizes[k] := by
  intro l
  induction l with
  | nil => intro i _; exact ⟨[], rfl, rfl, fun k hk => by simp at hk⟩
  | cons e l ih =>
    intro i h
    obtain ⟨F, e1, -⟩ := bufferSize_spec ilp v i (h e (by simp))
    obtain ⟨ss, e2, s1, s2⟩ := ih (i + 1) (fun e he => h e (by simp [he]))
    refine ⟨(F + e.1.preload) :: ss, by unfold bufferSizes; rw [e1, e2]; rfl, by simp [s1], fun k hk hk' => ?_⟩
    cases k with
    | zero => simpa using e1
    | succ k =>
      have := s2 k (by simpa using hk) (by simpa using hk')
      rw [show i + 1 + k = i + (k + 1) by ring] at this
      simpa using this

end Kiter
