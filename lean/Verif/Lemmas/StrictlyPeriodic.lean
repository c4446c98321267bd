import Verif.Model.StrictlyPeriodic
import Verif.Lemmas.Periodic

set_option autoImplicit false

namespace Kiter
open Finset

/-! ### The two roundings -/

theorem cFloor_eq {l g : Int} (hg : 0 < g) : cFloor l g = some (floorMult l g) := by
  obtain ⟨a, ha, sa⟩ := cFloor_is l g hg
  have f1 := floorMult_is l g hg
  rw [ha, le_antisymm (f1.2.2 _ sa.1 sa.2.1) (sa.2.2 _ f1.1 f1.2.1)]

theorem cCeil_eq {l g : Int} (hg : 0 < g) : cCeil l g = some (ceilMult l g) := by
  obtain ⟨b, hb, sb⟩ := cCeil_is l g hg
  have c1 := ceilMult_is l g hg
  rw [hb, le_antisymm (sb.2.2 _ c1.1 c1.2.1) (c1.2.2 _ sb.1 sb.2.1)]

/-- Subtracting 1 or the step rounds to the same multiple. -/
theorem floorMult_step {x g step : Int} (hg : 0 < g) (hs : 0 < step) (hx : step ∣ x) (hsg : step ∣ g) :
    floorMult (x - 1) g = floorMult (x - step) g := by
  obtain ⟨a1, a2, a3⟩ := floorMult_spec (x - 1) g hg
  obtain ⟨b1, b2, b3⟩ := floorMult_spec (x - step) g hg
  refine le_antisymm ?_ ?_
  · refine dvd_lt_add hg a1 b1 ?_
    have := dvd_lt_add (g := step) (a := x) (b := floorMult (x - step) g + g) hs hx (dvd_add (hsg.trans b1) hsg) (by omega)
    omega
  · exact dvd_lt_add hg b1 a1 (by omega)

/-! ### The candidates -/

theorem spPrefix_eq (l : List Int) (n : ℕ) (h : n ≤ l.length) : spPrefix [] l n = some (cum (rate l) n) := by
  induction n with
  | zero => simp [spPrefix]
  | succ n ih =>
    unfold spPrefix
    rw [ih (by omega)]
    have := phaseRate_eq l (by omega) n
    rw [Nat.mod_eq_of_lt (by omega)] at this
    rw [this, cum_succ]
    rfl

/-- Value of a candidate. -/
def spVal (ia oa ni : Int) (M N m n : ℕ) (α : Int) : ℚ :=
  ((α : ℚ) - ((n : ℚ) * oa) / (N : ℚ) + ((m : ℚ) * ia) / (M : ℚ)) / ((ia : ℚ) * ni)

/-- Interval of the pair `m`, `n`. -/
def spBound (f v : ℕ → Int) (mop step g : Int) (m n : ℕ) : Option Int :=
  boundsDefault (max 0 (f m - v n) - mop - cum f (m + 1) + cum v (n + 1)) (-mop - cum f m + cum v (n + 1) - step) g

theorem spCandidate_eq {c : KChannel} (h1 : c.inInit = []) (h2 : c.outInit = []) {step mop g ni : Int}
    (hs : 0 < step) (hf : ∀ r ∈ c.inPhases, step ∣ r) (hv : ∀ r ∈ c.outPhases, step ∣ r) (hmop : step ∣ mop) (hg : 0 < g)
    (hsg : step ∣ g) (hn : c.inPhases.sum * ni ≠ 0) (M N : ℕ) {m n : ℕ} (hm : m < c.inPhases.length) (hnn : n < c.outPhases.length) :
    spCandidate c c.inPhases.sum c.outPhases.sum g mop ni M N m n =
      some ((spBound (rate c.inPhases) (rate c.outPhases) mop step g m n).map (spVal c.inPhases.sum c.outPhases.sum ni M N m n)) := by
  unfold spCandidate
  rw [h1, h2, spPrefix_eq _ _ hm.le, spPrefix_eq _ _ hnn]
  have e1 := phaseRate_eq c.inPhases (by omega) m
  have e2 := phaseRate_eq c.outPhases (by omega) n
  rw [Nat.mod_eq_of_lt hm] at e1
  rw [Nat.mod_eq_of_lt hnn] at e2
  rw [e1, e2]
  simp only [Option.bind_eq_bind, Option.bind_some]
  rw [cCeil_eq hg, cFloor_eq hg]
  simp only [Option.bind_some]
  rw [if_neg hn, floorMult_step hg hs ?_ hsg]
  swap
  · exact dvd_sub (dvd_sub (cum_dvd (fun k => hv _ (rate_mem _ (by omega) k)) _) (cum_dvd (fun k => hf _ (rate_mem _ (by omega) k)) _)) hmop
  unfold spBound boundsDefault
  rw [cum_succ (rate c.inPhases) m]
  rw [show max 0 (rate c.inPhases m - rate c.outPhases n) + cum (rate c.outPhases) (n + 1) -
      (cum (rate c.inPhases) m + rate c.inPhases m) - mop = max 0 (rate c.inPhases m - rate c.outPhases n) - mop -
      (cum (rate c.inPhases) m + rate c.inPhases m) + cum (rate c.outPhases) (n + 1) by ring,
    show cum (rate c.outPhases) (n + 1) - cum (rate c.inPhases) m - mop - step =
      -mop - cum (rate c.inPhases) m + cum (rate c.outPhases) (n + 1) - step by ring]
  split <;> rfl

theorem spMax_spec (cand : ℕ × ℕ → Option (Option ℚ)) (x : ℕ × ℕ → Option ℚ) (P : ℚ → Prop) (hP : ∀ a b, P (max a b) ↔ P a ∧ P b)
    (l : List (ℕ × ℕ)) (h : ∀ q ∈ l, cand q = some (x q)) (w : Option ℚ) :
    ∃ r, spMax cand l w = some r ∧
      ((∀ z, r = some z → P z) ↔ (∀ z, w = some z → P z) ∧ ∀ q ∈ l, ∀ z, x q = some z → P z) := by
  induction l generalizing w with
  | nil => exact ⟨w, rfl, by simp⟩
  | cons q l ih =>
    unfold spMax
    rw [h q (by simp)]
    simp only [Option.bind_eq_bind, Option.bind_some]
    obtain ⟨r, hr, e⟩ := ih (fun a ha => h a (by simp [ha])) _
    refine ⟨r, hr, e.trans ?_⟩
    rw [List.forall_mem_cons]
    cases hx : x q with
    | none => simp
    | some nw =>
      cases w with
      | none => simp
      | some w => simp only [Option.some.injEq, forall_eq', hP]; tauto

theorem spConstraint_spec (S : Event → ℚ) {Ω : ℚ} (hΩ : 0 ≤ Ω) {c : KChannel} {src dst : KTask} (hc : ChannelOK c src dst)
    (hni : 0 < src.ni) (hm1 : (src.durations.length : Int) ∣ src.ni) (hm2 : (dst.durations.length : Int) ∣ dst.ni)
    (hP1 : 0 < src.durations.length) (hP2 : 0 < dst.durations.length)
    {mop : Int} (hmop : cFloor c.preload c.fineGCD = some mop) (hmd : c.fineGCD ∣ mop)
    (d : ℚ) {ks : List ℕ} (hks : ks ≠ []) (hk : ∀ k ∈ ks, k < src.durations.length) :
    ∃ cs, spConstraint d ks (c, src, dst) = some cs ∧
      (∀ e ∈ cs, e.src = ⟨src.id, 1, 1⟩ ∧ e.dst = ⟨dst.id, 1, 1⟩) ∧
      ((∀ e ∈ cs, Satisfies S Ω e) ↔ ∀ m ∈ ks, ∀ n < dst.durations.length, ∀ α,
        spBound (rate c.inPhases) (rate c.outPhases) mop c.fineGCD (Int.gcd c.inPhases.sum c.outPhases.sum) m n = some α →
        S ⟨src.id, 1, 1⟩ + d + Ω * spVal c.inPhases.sum c.outPhases.sum (src.ni / src.durations.length)
          src.durations.length dst.durations.length m n α ≤ S ⟨dst.id, 1, 1⟩) := by
  obtain ⟨qi, hqi⟩ := hm1
  obtain ⟨qj, hqj⟩ := hm2
  have hM : (0 : Int) < src.durations.length := by exact_mod_cast hP1
  have hN : (0 : Int) < dst.durations.length := by exact_mod_cast hP2
  have t1 : src.ni.tdiv src.durations.length = qi := by rw [hqi]; exact Int.mul_tdiv_cancel_left _ hM.ne'
  have t2 : dst.ni.tdiv dst.durations.length = qj := by rw [hqj]; exact Int.mul_tdiv_cancel_left _ hN.ne'
  have t3 : src.ni / src.durations.length = qi := by rw [hqi]; exact Int.mul_ediv_cancel_left _ hM.ne'
  have hbal : c.inPhases.sum * qi = c.outPhases.sum * qj := by
    have := hc.balance
    rw [hqi, hqj] at this
    have e : (src.durations.length : Int) * dst.durations.length * (c.inPhases.sum * qi) =
        src.durations.length * dst.durations.length * (c.outPhases.sum * qj) := by linarith
    exact mul_left_cancel₀ (mul_pos hM hN).ne' e
  have hqi0 : 0 < qi := by
    rw [hqi] at hni
    by_contra hcc
    have := mul_nonpos_of_nonneg_of_nonpos hM.le (not_lt.mp hcc)
    omega
  have hg : (0 : Int) < ((Int.gcd c.inPhases.sum c.outPhases.sum : ℕ) : Int) := by
    exact_mod_cast Int.gcd_pos_of_ne_zero_left _ hc.inPos.ne'
  have hsg : c.fineGCD ∣ ((Int.gcd c.inPhases.sum c.outPhases.sum : ℕ) : Int) :=
    Int.dvd_coe_gcd (List.dvd_sum hc.gcdIn) (List.dvd_sum hc.gcdOut)
  rw [t3]
  set x : ℕ × ℕ → Option ℚ := fun q => (spBound (rate c.inPhases) (rate c.outPhases) mop c.fineGCD
    (Int.gcd c.inPhases.sum c.outPhases.sum) q.1 q.2).map
      (spVal c.inPhases.sum c.outPhases.sum qi src.durations.length dst.durations.length q.1 q.2) with hx
  obtain ⟨r, hr, e⟩ := spMax_spec (fun q => spCandidate c c.inPhases.sum c.outPhases.sum (Int.gcd c.inPhases.sum c.outPhases.sum)
      mop qi src.durations.length dst.durations.length q.1 q.2) x
    (fun z => S ⟨src.id, 1, 1⟩ + d + Ω * z ≤ S ⟨dst.id, 1, 1⟩)
    (fun a b => by
      rw [mul_max_of_nonneg _ _ hΩ]
      constructor
      · intro h
        exact ⟨le_trans (by have := le_max_left (Ω * a) (Ω * b); linarith) h, le_trans (by have := le_max_right (Ω * a) (Ω * b); linarith) h⟩
      · rintro ⟨h1, h2⟩
        rcases max_choice (Ω * a) (Ω * b) with h | h <;> rw [h] <;> assumption)
    (ks.flatMap fun k => (List.range dst.durations.length).map fun kp => (k, kp))
    (by
      intro q hq
      obtain ⟨k, hk', hq⟩ := List.mem_flatMap.mp hq
      obtain ⟨kp, hkp, rfl⟩ := List.mem_map.mp hq
      rw [List.mem_range] at hkp
      have := hk k hk'
      exact spCandidate_eq hc.noInInit hc.noOutInit hc.gcdPos hc.gcdIn hc.gcdOut hmd hg hsg
        (mul_pos hc.inPos hqi0).ne' _ _ (by rw [← hc.srcPhases]; exact this) (by rw [← hc.dstPhases]; exact hkp))
    none
  have hcs : spConstraint d ks (c, src, dst) = some (r.toList.map fun w => ⟨⟨src.id, 1, 1⟩, ⟨dst.id, 1, 1⟩, -w, d, c.id⟩) := by
    unfold spConstraint
    simp only [hmop, Option.bind_eq_bind, Option.bind_some]
    rw [if_neg, t1, t2, if_pos hbal, hr]
    · cases r <;> rfl
    · have : ks.length ≠ 0 := fun h => hks (List.length_eq_zero_iff.mp h)
      omega
  refine ⟨_, hcs, ?_, ?_⟩
  · cases r <;> simp
  · have e1 : (∀ e ∈ (r.toList.map fun w => (⟨⟨src.id, 1, 1⟩, ⟨dst.id, 1, 1⟩, -w, d, c.id⟩ : EvConstraint)), Satisfies S Ω e) ↔
        ∀ z, r = some z → S ⟨src.id, 1, 1⟩ + d + Ω * z ≤ S ⟨dst.id, 1, 1⟩ := by
      cases r with
      | none => simp
      | some w => simp [Satisfies]
    rw [e1, e]
    constructor
    · rintro ⟨-, H⟩ m hm n hn α hα
      exact H (m, n) (List.mem_flatMap.mpr ⟨m, hm, List.mem_map.mpr ⟨n, by simpa using hn, rfl⟩⟩) _ (by rw [hx]; simp [hα])
    · intro H
      refine ⟨by simp, fun q hq z hz => ?_⟩
      obtain ⟨k, hk', hq⟩ := List.mem_flatMap.mp hq
      obtain ⟨kp, hkp, rfl⟩ := List.mem_map.mp hq
      obtain ⟨α, hα, rfl⟩ := Option.map_eq_some_iff.mp hz
      exact H k hk' kp (by simpa using hkp) α hα

/-! ### The groups of phases -/

theorem max?_spec {l : List ℚ} (h : l ≠ []) : ∃ m, l.max? = some m ∧ m ∈ l ∧ ∀ x ∈ l, x ≤ m := by
  cases hm : l.max? with
  | none => rw [List.max?_eq_none_iff] at hm; exact absurd hm h
  | some m =>
    obtain ⟨a, b⟩ := List.max?_eq_some_iff.mp hm
    exact ⟨m, rfl, a, fun x hx => b x hx⟩

theorem spGroups_spec {t : KTask} (h : 0 < t.durations.length) (useMax : Bool) :
    ∃ (gs : List (ℚ × List ℕ)) (key : ℕ → ℚ), spGroups useMax t = some gs ∧
      (∀ k < t.durations.length, t.dur k ≤ key k ∧ (useMax = false → key k = t.dur k)) ∧
      (∀ g ∈ gs, g.2 ≠ [] ∧ ∀ k ∈ g.2, k < t.durations.length ∧ key k = g.1) ∧
      ∀ k < t.durations.length, ∃ g ∈ gs, k ∈ g.2 ∧ g.1 = key k := by
  obtain ⟨maxd, hm, hm1, hm2⟩ := max?_spec (l := t.durations) (by intro h0; simp [h0] at h)
  have hdurs : (List.range t.durations.length).mapM (fun k : ℕ => phaseDuration t ((k : Int) + 1)) =
      some ((List.range t.durations.length).map t.dur) := by
    have : ∀ l : List ℕ, (∀ k ∈ l, k < t.durations.length) → l.mapM (fun k : ℕ => phaseDuration t ((k : Int) + 1)) = some (l.map t.dur) := by
      intro l
      induction l with
      | nil => intro _; rfl
      | cons a l ih =>
        intro hl
        have e := phaseDuration_eq t h a
        rw [Nat.mod_eq_of_lt (hl a (by simp))] at e
        rw [List.mapM_cons, e, ih (fun b hb => hl b (by simp [hb]))]
        rfl
    exact this _ (fun k hk => by simpa using hk)
  set key : ℕ → ℚ := fun k => if useMax = true then maxd else ((List.range t.durations.length).map t.dur).getD k 0 with hkey
  have hd : ∀ k < t.durations.length, ((List.range t.durations.length).map t.dur).getD k 0 = t.dur k := by
    intro k hk
    rw [List.getD_eq_getElem _ _ (by simpa using hk)]
    simp
  have hmem : ∀ k < t.durations.length, t.dur k ∈ t.durations := by
    intro k hk
    unfold KTask.dur
    rw [Nat.mod_eq_of_lt hk, List.getD_eq_getElem _ _ hk]
    exact List.getElem_mem _
  refine ⟨_, key, by
    unfold spGroups
    simp only [hm, hdurs, Option.bind_eq_bind, Option.bind_some]
    rfl, ?_, ?_, ?_⟩
  · intro k hk
    rw [hkey]
    dsimp only
    split
    · rename_i hu
      exact ⟨hm2 _ (hmem k hk), by simp [hu]⟩
    · rw [hd k hk]; exact ⟨le_rfl, fun _ => rfl⟩
  · intro g hg
    obtain ⟨d, hdd, rfl⟩ := List.mem_map.mp hg
    rw [List.mem_insertionSort, List.mem_dedup] at hdd
    obtain ⟨k, hk, hkd⟩ := List.mem_map.mp hdd
    constructor
    · exact List.ne_nil_of_mem (List.mem_filter.mpr ⟨hk, by simpa using hkd⟩)
    · intro k hk
      obtain ⟨a, b⟩ := List.mem_filter.mp hk
      exact ⟨by simpa using a, of_decide_eq_true b⟩
  · intro k hk
    refine ⟨_, List.mem_map.mpr ⟨key k, ?_, rfl⟩, List.mem_filter.mpr ⟨by simpa using hk, by simp [hkey]⟩, rfl⟩
    rw [List.mem_insertionSort, List.mem_dedup]
    exact List.mem_map.mpr ⟨k, by simpa using hk, rfl⟩

end Kiter
