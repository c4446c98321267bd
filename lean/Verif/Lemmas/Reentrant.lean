/-
The lemmas of `Verif.Lemmas.Optimality`, `Verif.Lemmas.KIter` and `Verif.Lemmas.KIterOpt` for graphs whose tasks may be
reentrant.
-/
import Verif.Props.KIter
import Verif.Spec.Reentrant

set_option autoImplicit false

namespace Kiter.Re
open Finset

theorem reps_spec {B : BaseGraph} (hB : ReBaseOK B) {t : KTask} (ht : t ∈ B.tasks) :
    0 < reps t ∧ t.ni = t.durations.length * reps t := by
  have h1 := (hB.tasks t ht).ni
  have h2 := (hB.tasks t ht).phases
  obtain ⟨q, hq⟩ := hB.multiple t ht
  have h3 : (0 : Int) < t.durations.length := by exact_mod_cast h2
  have h4 : 0 < q := by
    by_contra hc
    have := Int.mul_nonpos_of_nonneg_of_nonpos h3.le (not_lt.mp hc)
    omega
  unfold reps
  rw [hq, Int.mul_ediv_cancel_left _ h3.ne']
  refine ⟨by omega, ?_⟩
  rw [Int.toNat_of_nonneg h4.le]

/-- The phases of a reentrant task last as long. -/
theorem dur_const {t : KTask} (hok : ReTaskOK t) (hr : t.reentrancy ≤ 0) (k l : ℕ) : t.dur k = t.dur l := by
  have mem : ∀ k, t.dur k ∈ t.durations := by
    intro k
    unfold KTask.dur
    have hx : k % t.durations.length < t.durations.length := Nat.mod_lt _ hok.phases
    rw [List.getD_eq_getElem _ _ hx]
    exact List.getElem_mem _
  exact hok.constant hr _ (mem k) _ (mem l)

section
variable {B : BaseGraph} (hB : ReBaseOK B) {σ : Int → ℕ → ℚ} (hσ : OrderedSchedule B σ)
include hB hσ

theorem gen_mono {t : KTask} (ht : t ∈ B.tasks) : Monotone (σ t.id) := monotone_nat_of_le_succ (hσ.ordered t ht)

theorem gen_end_mono {t : KTask} (ht : t ∈ B.tasks) : Monotone (fun k => σ t.id k + t.dur k) := by
  have hok := hB.tasks t ht
  refine monotone_nat_of_le_succ fun k => ?_
  by_cases hr : 0 < t.reentrancy
  · have := hσ.noOverlap t ht hr k
    have := dur_nonneg hok.phases hok.durNonneg (k + 1)
    linarith
  · have := hσ.ordered t ht k
    rw [dur_const hok (by omega) k (k + 1)]
    linarith

/-- Precedences of a block of `n` periods, for a self-loop constraint. -/
theorem selfLoop_shift {t : KTask} (ht : t ∈ B.tasks) {K n G : ℕ} (hn : 0 < n) (hG : 0 < G) (hr : reps t = G * n)
    (hK : 0 < K) (hnK : n ∣ K) {x : List EvConstraint} (hx : selfLoopConstraints t K = some x) {c : EvConstraint} (hc : c ∈ x) :
    ∃ m m' : ℕ, c.src = evAt t m ∧ c.dst = evAt t m' ∧ ∃ h : ℤ, c.w = -(h : ℚ) / G ∧
      ∀ b b' : ℕ, (b' : ℤ) = b + h → σ t.id (m + b' * (n * t.durations.length)) + c.d ≤ σ t.id (m' + b * (n * t.durations.length)) := by
  have hok := hB.tasks t ht
  obtain ⟨res, hres, hmem⟩ := selfLoop_spec t K hok.phases hK hok.noInit hok.ni.ne'
  rw [hx] at hres; cases hres
  obtain ⟨_, hni⟩ := reps_spec hB ht
  have hdur : ∀ m b, t.dur (m + b * (n * t.durations.length)) = t.dur m := by
    intro m b
    rw [show b * (n * t.durations.length) = (b * n) * t.durations.length by ring]; exact dur_period m
  rcases (hmem c).mp hc with ⟨y, hy, rfl⟩ | ⟨hre, rfl⟩
  · refine ⟨y, y + 1, rfl, rfl, 0, by simp, fun b b' e => ?_⟩
    have : b' = b := by omega
    subst this
    rw [show y + 1 + b' * (n * t.durations.length) = y + b' * (n * t.durations.length) + 1 by ring]
    by_cases hre : t.reentrancy ≤ 0
    · have := hσ.ordered t ht (y + b' * (n * t.durations.length))
      simp only [hre, if_true, zero_mul, add_zero]
      exact this
    · have := hσ.noOverlap t ht (not_le.mp hre) (y + b' * (n * t.durations.length))
      rw [hdur] at this
      simp only [hre, if_false, one_mul]
      exact this
  · obtain ⟨a, rfl⟩ := hnK
    refine ⟨n * a * t.durations.length - 1, 0, rfl, rfl, -(a : ℤ), ?_, fun b b' e => ?_⟩
    · simp only
      rw [hni, hr]
      have h1 : (t.durations.length : ℚ) ≠ 0 := by exact_mod_cast hok.phases.ne'
      have h2 : (n : ℚ) ≠ 0 := by exact_mod_cast hn.ne'
      have h3 : (G : ℚ) ≠ 0 := by exact_mod_cast hG.ne'
      push_cast
      field_simp
    · have hb : b = b' + a := by omega
      subst hb
      have hpos : 0 < n * a * t.durations.length := Nat.mul_pos hK hok.phases
      have := hσ.noOverlap t ht hre (n * a * t.durations.length - 1 + b' * (n * t.durations.length))
      rw [hdur] at this
      have e2 : n * a * t.durations.length - 1 + b' * (n * t.durations.length) + 1 = 0 + (b' + a) * (n * t.durations.length) := by
        have : (b' + a) * (n * t.durations.length) = n * a * t.durations.length + b' * (n * t.durations.length) := by ring
        omega
      rw [e2] at this
      exact this

/-- Precedences of blocks, for a channel constraint. -/
theorem channel_shift {e : BChannel} (he : e ∈ B.channels) {Ki Kj ni nj G : ℕ} (hni : 0 < ni) (hG : 0 < G)
    (hri : reps e.2.1 = G * ni) (hrj : reps e.2.2 = G * nj) (hKi : 0 < Ki) (hi : ni ∣ Ki) (hj : nj ∣ Kj)
    {x : List EvConstraint} (hx : channelConstraints e.2.1 e.2.2 e.1 Ki Kj = some x) {c : EvConstraint} (hc : c ∈ x) :
    ∃ m m' : ℕ, c.src = evAt e.2.1 m ∧ c.dst = evAt e.2.2 m' ∧ ∃ h : ℤ, c.w = -(h : ℚ) / G ∧
      ∀ b b' : ℕ, (b' : ℤ) = b + h → σ e.2.1.id (m + b' * (ni * e.2.1.durations.length)) + c.d
        ≤ σ e.2.2.id (m' + b * (nj * e.2.2.durations.length)) := by
  obtain ⟨hs, ht, hch⟩ := hB.channels e he
  have oks := hB.tasks _ hs
  have okt := hB.tasks _ ht
  have hP : 0 < e.1.inPhases.length := by rw [← hch.srcPhases]; exact oks.phases
  have hQ : 0 < e.1.outPhases.length := by rw [← hch.dstPhases]; exact okt.phases
  obtain ⟨mop, hm1, hm2, hm3, res, hres, hmem⟩ := channel_spec e.2.1 e.2.2 e.1 Ki Kj hch.noInInit hch.noOutInit hP hQ
    hch.srcPhases hKi hch.inPos oks.ni.ne' hch.gcdPos hch.preload
  rw [hx] at hres; cases hres
  obtain ⟨m, hm, n, hn, α, hα, rfl⟩ := (hmem c).mp hc
  obtain ⟨_, hnis⟩ := reps_spec hB hs
  obtain ⟨_, hnit⟩ := reps_spec hB ht
  -- tokens per block
  have hbal : e.1.inPhases.sum * ni = e.1.outPhases.sum * nj := by
    have hb := hch.balance
    rw [hnis, hnit, hri, hrj] at hb
    have h1 : (0 : Int) < e.2.1.durations.length * e.2.2.durations.length * G := by
      have a1 : (0 : Int) < e.2.1.durations.length := by exact_mod_cast oks.phases
      have a2 : (0 : Int) < e.2.2.durations.length := by exact_mod_cast okt.phases
      have a3 : (0 : Int) < G := by exact_mod_cast hG
      positivity
    push_cast at hb
    have : (e.2.1.durations.length * e.2.2.durations.length * G : Int) * (e.1.inPhases.sum * ni)
        = (e.2.1.durations.length * e.2.2.durations.length * G : Int) * (e.1.outPhases.sum * nj) := by linarith
    exact mul_left_cancel₀ h1.ne' this
  set f := rate e.1.inPhases
  set v := rate e.1.outPhases
  have hU : cum f (ni * e.1.inPhases.length) = e.1.inPhases.sum * ni := cum_rate _ _
  have hV : cum v (nj * e.1.outPhases.length) = e.1.inPhases.sum * ni := by rw [hbal]; exact cum_rate _ _
  have hpos : 0 < e.1.inPhases.sum * (Ki : Int) := mul_pos hch.inPos (by exact_mod_cast hKi)
  have hg : (0 : Int) < ((Int.gcd (e.1.inPhases.sum * Ki) (e.1.outPhases.sum * Kj) : ℕ) : Int) := by
    exact_mod_cast Int.gcd_pos_of_ne_zero_left _ hpos.ne'
  have hb : max 0 (f m - v n) - mop - cum f (m + 1) + cum v (n + 1) ≤ α ∧ α ≤ -mop - cum f m + cum v (n + 1) - e.1.fineGCD
      ∧ ((Int.gcd (e.1.inPhases.sum * Ki) (e.1.outPhases.sum * Kj) : ℕ) : Int) ∣ α := by
    unfold boundsDefault at hα
    split at hα
    · rename_i hle
      cases hα
      obtain ⟨d1, d2, -⟩ := floorMult_spec (-mop - cum f m + cum v (n + 1) - e.1.fineGCD) _ hg
      obtain ⟨e1, e2, -⟩ := ceilMult_spec (max 0 (f m - v n) - mop - cum f (m + 1) + cum v (n + 1)) _ hg
      exact ⟨le_trans e2 hle, d2, d1⟩
    · simp at hα
  have hUα : e.1.inPhases.sum * ni ∣ α := by
    refine dvd_trans (Int.dvd_coe_gcd ?_ ?_) hb.2.2
    · exact mul_dvd_mul_left _ (by exact_mod_cast hi)
    · rw [hbal]; exact mul_dvd_mul_left _ (by exact_mod_cast hj)
  obtain ⟨h, rfl⟩ := hUα
  have edst : evAt e.2.2 n = ⟨e.2.2.id, ((n % e.1.outPhases.length : ℕ) : Int) + 1, ((n / e.1.outPhases.length : ℕ) : Int) + 1⟩ := by
    unfold evAt; rw [hch.dstPhases]
  refine ⟨m, n, rfl, edst.symm, h, ?_, fun b b' eb => ?_⟩
  · simp only
    rw [hnis, hri, hch.srcPhases]
    have h1 : (e.1.inPhases.length : ℚ) ≠ 0 := by exact_mod_cast hP.ne'
    have h2 : (ni : ℚ) ≠ 0 := by exact_mod_cast hni.ne'
    have h3 : (G : ℚ) ≠ 0 := by exact_mod_cast hG.ne'
    have h4 : (e.1.inPhases.sum : ℚ) ≠ 0 := by exact_mod_cast hch.inPos.ne'
    have h5 : (Ki : ℚ) ≠ 0 := by exact_mod_cast hKi.ne'
    rw [Int.cast_mul, Int.cast_mul, Int.cast_mul, Int.cast_mul]
    simp only [Int.cast_natCast, Nat.cast_mul]
    field_simp
    push_cast; ring
  · have hE : Enables f v mop (m + b' * (ni * e.1.inPhases.length)) (n + b * (nj * e.1.outPhases.length)) := by
      rw [enables_shift (step := e.1.fineGCD) (fun k => rate_periodic _ _ _) (fun k => rate_periodic _ _ _)
        (fun k => hch.gcdIn _ (rate_mem _ hP k)) (fun k => hch.gcdOut _ (rate_mem _ hQ k)) hm1 hch.gcdPos, hU, hV]
      have : (b' : ℤ) * (e.1.inPhases.sum * ni) - b * (e.1.inPhases.sum * ni) = e.1.inPhases.sum * ni * h := by
        rw [eb]; ring
      rw [this]
      exact ⟨hb.1, hb.2.1⟩
    have hmop0 : 0 ≤ mop := by
      have h0 : (e.1.fineGCD : Int) ∣ 0 := dvd_zero _
      have := hch.preload
      exact dvd_lt_add hch.gcdPos h0 hm1 (by omega)
    have hW : 0 < cum f (ni * e.1.inPhases.length) := by
      rw [hU]; exact mul_pos hch.inPos (by exact_mod_cast hni)
    have e2 := neverShort_iff (f := f) (v := v) (t := σ e.2.2.id) (e := fun k => σ e.2.1.id k + e.2.1.dur k)
      (mop := mop) (step := e.1.fineGCD) (preload := e.1.preload)
      (fun k => hch.inNonneg _ (rate_mem _ hP k)) (fun k => hch.outNonneg _ (rate_mem _ hQ k))
      (M := ni * e.1.inPhases.length) (fun k => rate_periodic _ _ _) hW
      (fun k => hch.gcdIn _ (rate_mem _ hP k)) (fun k => hch.gcdOut _ (rate_mem _ hQ k)) hm1 hch.gcdPos hmop0 hm2 hm3
      (gen_end_mono hB hσ hs) (gen_mono hB hσ ht)
    have := e2.mp (hσ.channels e he) _ _ hE
    have hd : e.2.1.dur (m + b' * (ni * e.1.inPhases.length)) = e.2.1.dur m := by
      rw [show b' * (ni * e.1.inPhases.length) = (b' * ni) * e.2.1.durations.length by rw [hch.srcPhases]; ring]
      exact dur_period m
    rw [hd] at this
    rw [hch.srcPhases, hch.dstPhases]
    exact this

end

/-- Generation never fails. -/
theorem graph_total {B : BaseGraph} (hB : ReBaseOK B) {K : Int → ℕ} (hK : ∀ i, 0 < K i) :
    ∃ cs, eventGraph (B.withK K) = some cs := by
  obtain ⟨a, ha⟩ := collect_isSome (fun tk : KTask × ℕ => selfLoopConstraints tk.1 tk.2) (B.withK K).tasks (fun tk htk => by
    obtain ⟨t, ht, rfl⟩ := List.mem_map.mp htk
    have hok := hB.tasks t ht
    obtain ⟨cs, h, -⟩ := selfLoop_spec t (K t.id) hok.phases (hK _) hok.noInit hok.ni.ne'
    exact ⟨cs, h⟩)
  obtain ⟨b, hb⟩ := collect_isSome (fun c : KChannel × (KTask × ℕ) × (KTask × ℕ) =>
    channelConstraints c.2.1.1 c.2.2.1 c.1 c.2.1.2 c.2.2.2) (B.withK K).channels (fun c hc => by
      obtain ⟨e, he, rfl⟩ := List.mem_map.mp hc
      obtain ⟨h1, h2, h3⟩ := hB.channels e he
      have hP : 0 < e.1.inPhases.length := by rw [← h3.srcPhases]; exact (hB.tasks _ h1).phases
      have hQ : 0 < e.1.outPhases.length := by rw [← h3.dstPhases]; exact (hB.tasks _ h2).phases
      obtain ⟨_, _, _, _, cs, hcs, -⟩ := channel_spec e.2.1 e.2.2 e.1 (K e.2.1.id) (K e.2.2.id) h3.noInInit h3.noOutInit
        hP hQ h3.srcPhases (hK _) h3.inPos (hB.tasks _ h1).ni.ne' h3.gcdPos h3.preload
      exact ⟨cs, hcs⟩)
  refine ⟨a ++ b, ?_⟩
  unfold eventGraph
  simp only [ha, hb, Option.bind_eq_bind, Option.bind_some]; rfl

/-! ### Periodicity vector update -/

theorem iterCount_eq {B : BaseGraph} (hB : ReBaseOK B) {t : KTask} (ht : t ∈ B.tasks) :
    iterCount t = some (reps t : Int) := by
  obtain ⟨_, h⟩ := reps_spec hB ht
  have hP := (hB.tasks t ht).phases
  unfold iterCount
  rw [if_neg hP.ne', h, Int.mul_tdiv_cancel_left]
  exact_mod_cast hP.ne'

/-- Gcd of the iteration counts of the sources. -/
theorem localGcd_spec {B : BaseGraph} (hB : ReBaseOK B) (cc : List BChannel) (hcc : ∀ e ∈ cc, e.2.1 ∈ B.tasks) (g : ℕ) :
    ∃ g' : ℕ, localGcd cc g = some (g' : Int) ∧ g' ∣ g ∧ (∀ e ∈ cc, g' ∣ reps e.2.1) ∧
      ∀ d : ℕ, d ∣ g → (∀ e ∈ cc, d ∣ reps e.2.1) → d ∣ g' := by
  induction cc generalizing g with
  | nil => exact ⟨g, rfl, dvd_refl _, by simp, fun d h _ => h⟩
  | cons e l ih =>
    obtain ⟨g', h1, h2, h3, h4⟩ := ih (fun x hx => hcc x (by simp [hx])) (Nat.gcd g (reps e.2.1))
    refine ⟨g', ?_, dvd_trans h2 (Nat.gcd_dvd_left _ _), ?_, ?_⟩
    · simp only [localGcd, iterCount_eq hB (hcc e (by simp)), Option.bind_eq_bind, Option.bind_some]
      rw [Int.gcd_natCast_natCast]; exact h1
    · intro x hx
      rcases List.mem_cons.mp hx with rfl | hx
      · exact dvd_trans h2 (Nat.gcd_dvd_right _ _)
      · exact h3 x hx
    · intro d hd hd'
      exact h4 d (Nat.dvd_gcd hd (hd' e (by simp))) (fun x hx => hd' x (by simp [hx]))

theorem localUpdate_spec {B : BaseGraph} (hB : ReBaseOK B) (g : ℕ) (hg : 0 < g) (cc : List BChannel)
    (hcc : ∀ e ∈ cc, e.2.1 ∈ B.tasks ∧ e.2.2 ∈ B.tasks ∧ g ∣ reps e.2.1) (K : Int → ℕ) (hK : KOk B K) (ch : Bool) :
    ∃ K' ch', localUpdate g cc K ch = some (K', ch') ∧ KOk B K' ∧ (∀ i, K i ∣ K' i) ∧
      (∀ e ∈ cc, reps e.2.1 / g ∣ K' e.2.1.id) ∧ (ch' = true ↔ ch = true ∨ ∃ i, K' i ≠ K i) ∧
      (∀ i, K' i ≠ K i → ∃ e ∈ cc, e.2.1.id = i) ∧
      ∀ M : Int → ℕ, (∀ i, K i ∣ M i) → (∀ e ∈ cc, reps e.2.1 / g ∣ M e.2.1.id) → ∀ i, K' i ∣ M i := by
  induction cc generalizing K ch with
  | nil => exact ⟨K, ch, rfl, hK, fun i => dvd_refl _, by simp, by simp, by simp, fun M h _ => h⟩
  | cons e l ih =>
    obtain ⟨hs, ht, hd⟩ := hcc e (by simp)
    set q := reps e.2.1 / g with hq
    have hr := (reps_spec hB hs).1
    have hqd : q ∣ reps e.2.1 := Nat.div_dvd_of_dvd hd
    have hqpos : 0 < q := Nat.div_pos (Nat.le_of_dvd hr hd) hg
    set newki := Nat.lcm (K e.2.1.id) q with hnew
    set K1 := Function.update K e.2.1.id newki with hK1
    have hnewd : newki ∣ reps e.2.1 := Nat.lcm_dvd (hK.2 _ hs) hqd
    have hnewpos : 0 < newki := Nat.lcm_pos (hK.1 _) hqpos
    have hK1ok : KOk B K1 := by
      refine ⟨fun i => ?_, fun t ht' => ?_⟩
      · rw [hK1]
        by_cases h : i = e.2.1.id
        · subst h; rw [Function.update_self]; exact hnewpos
        · rw [Function.update_of_ne h]; exact hK.1 i
      · rw [hK1]
        by_cases h : t.id = e.2.1.id
        · have := hB.ids _ ht' _ hs h
          subst this; rw [Function.update_self]; exact hnewd
        · rw [Function.update_of_ne h]; exact hK.2 t ht'
    have hdiv : ∀ i, K i ∣ K1 i := by
      intro i
      rw [hK1]
      by_cases h : i = e.2.1.id
      · subst h; rw [Function.update_self]; exact Nat.dvd_lcm_left _ _
      · rw [Function.update_of_ne h]
    obtain ⟨K', ch', h1, h2, h3, h4, h5, h6, h7⟩ := ih (fun x hx => hcc x (by simp [hx])) K1 hK1ok (ch || (newki != K e.2.1.id))
    have hle1 : ((K1 e.2.1.id : ℕ) : Int) ≤ reps e.2.1 := by exact_mod_cast Nat.le_of_dvd hr (hK1ok.2 _ hs)
    have hle2 : ((K1 e.2.2.id : ℕ) : Int) ≤ reps e.2.2 := by
      exact_mod_cast Nat.le_of_dvd (reps_spec hB ht).1 (hK1ok.2 _ ht)
    refine ⟨K', ch', ?_, h2, fun i => dvd_trans (hdiv i) (h3 i), ?_, ?_, ?_, ?_⟩
    · simp only [localUpdate, iterCount_eq hB hs, iterCount_eq hB ht, Option.bind_eq_bind, Option.bind_some]
      have hg' : ¬ ((g : Int) = 0) := by exact_mod_cast hg.ne'
      rw [if_neg hg']
      have hl : Int.lcm (K e.2.1.id : Int) (Int.tdiv (reps e.2.1 : Int) (g : Int)) = newki := by
        rw [hnew, hq]; rfl
      rw [hl, if_pos ⟨hle1, hle2⟩]
      exact h1
    · intro x hx
      rcases List.mem_cons.mp hx with rfl | hx
      · refine dvd_trans ?_ (h3 _)
        rw [hK1, Function.update_self]; exact Nat.dvd_lcm_right _ _
      · exact h4 x hx
    · rw [h5]
      constructor
      · rintro (h | ⟨i, hi⟩)
        · rcases Bool.or_eq_true_iff.mp h with h | h
          · exact Or.inl h
          · right
            refine ⟨e.2.1.id, ?_⟩
            intro hc
            have a1 : newki ∣ K e.2.1.id := by
              have := h3 e.2.1.id
              rw [hK1, Function.update_self, hc] at this; exact this
            have a2 : K e.2.1.id ∣ newki := Nat.dvd_lcm_left _ _
            have := Nat.dvd_antisymm a1 a2
            simp [this] at h
        · right
          refine ⟨i, fun hc => hi ?_⟩
          have a1 := h3 i
          have a2 := hdiv i
          rw [hc] at a1
          rw [hc]; exact Nat.dvd_antisymm a2 a1
      · rintro (h | ⟨i, hi⟩)
        · left; simp [h]
        · by_cases hc : newki = K e.2.1.id
          · right
            refine ⟨i, ?_⟩
            have : K1 i = K i := by
              rw [hK1]
              by_cases hh : i = e.2.1.id
              · subst hh; rw [Function.update_self]; exact hc
              · rw [Function.update_of_ne hh]
            rw [this]; exact hi
          · left; simp [hc]
    · intro i hi
      by_cases hc : i = e.2.1.id
      · exact ⟨e, by simp, hc.symm⟩
      · have : K1 i = K i := by rw [hK1, Function.update_of_ne hc]
        obtain ⟨x, hx, e'⟩ := h6 i (by rw [this]; exact hi)
        exact ⟨x, by simp [hx], e'⟩
    · intro M hM hM' i
      refine h7 M (fun j => ?_) (fun x hx => hM' x (by simp [hx])) i
      rw [hK1]
      by_cases hc : j = e.2.1.id
      · subst hc; rw [Function.update_self]; exact Nat.lcm_dvd (hM _) (hM' e (by simp))
      · rw [Function.update_of_ne hc]; exact hM j

/-- Everything about `updateVectorWithLocalNi` on a non-empty list of channels of the graph. -/
theorem updateVector_spec {B : BaseGraph} (hB : ReBaseOK B) (cc : List BChannel) (hcc : ∀ e ∈ cc, e ∈ B.channels)
    (K : Int → ℕ) (hK : KOk B K) :
    ∃ (g : ℕ) (K' : Int → ℕ) (ch' : Bool), updateVectorWithLocalNi K cc = some (K', ch') ∧
      (cc ≠ [] → 0 < g) ∧ (∀ e ∈ cc, g ∣ reps e.2.1) ∧ (∀ d : ℕ, (∀ e ∈ cc, d ∣ reps e.2.1) → d ∣ g) ∧
      KOk B K' ∧ (∀ i, K i ∣ K' i) ∧
      (∀ e ∈ cc, reps e.2.1 / g ∣ K' e.2.1.id) ∧ (ch' = true ↔ ∃ i, K' i ≠ K i) ∧
      (∀ i, K' i ≠ K i → ∃ e ∈ cc, e.2.1.id = i) ∧
      ∀ M : Int → ℕ, (∀ i, K i ∣ M i) → (∀ e ∈ cc, reps e.2.1 / g ∣ M e.2.1.id) → ∀ i, K' i ∣ M i := by
  obtain ⟨g, h1, h2, h3, h4⟩ := localGcd_spec hB cc (fun e he => (hB.channels e (hcc e he)).1) 0
  cases cc with
  | nil =>
    refine ⟨g, K, false, ?_, by simp, h3, fun d hd => h4 d (dvd_zero _) hd, hK, fun i => dvd_refl _, by simp, by simp,
      by simp, fun M h _ => h⟩
    unfold updateVectorWithLocalNi
    have h1' : localGcd [] 0 = some (g : Int) := h1
    rw [h1']; rfl
  | cons e l =>
    have hg : 0 < g := by
      have hr := (reps_spec hB (hB.channels e (hcc e (by simp))).1).1
      exact Nat.pos_of_dvd_of_pos (h3 e (by simp)) hr
    obtain ⟨K', ch', a1, a2, a3, a4, a5, a6, a7⟩ := localUpdate_spec hB g hg (e :: l)
      (fun x hx => ⟨(hB.channels x (hcc x hx)).1, (hB.channels x (hcc x hx)).2.1, h3 x hx⟩) K hK false
    refine ⟨g, K', ch', ?_, fun _ => hg, h3, fun d hd => h4 d (dvd_zero _) hd, a2, a3, a4, by simpa using a5, a6, a7⟩
    unfold updateVectorWithLocalNi
    have h1' : localGcd (e :: l) 0 = some (g : Int) := h1
    rw [h1']; exact a1

/-! ### Incremental update of the event graph -/

theorem selfLoop_ends {t : KTask} (ht : ReTaskOK t) {K : ℕ} (hK : 0 < K) :
    ∃ x, selfLoopConstraints t K = some x ∧ ∀ c ∈ x, c.src ∈ oldEvents t K ∧ c.dst ∈ oldEvents t K ∧ c.channel = 0 := by
  obtain ⟨r, hr, hmem⟩ := selfLoop_spec t K ht.phases hK ht.noInit ht.ni.ne'
  have hpos : 0 < K * t.durations.length := Nat.mul_pos hK ht.phases
  refine ⟨r, hr, fun c hc => ?_⟩
  rcases (hmem c).mp hc with ⟨x, hx, rfl⟩ | ⟨_, rfl⟩
  · exact ⟨evAt_mem_oldEvents ht.noInit ht.phases (by omega), evAt_mem_oldEvents ht.noInit ht.phases hx, rfl⟩
  · exact ⟨evAt_mem_oldEvents ht.noInit ht.phases (by omega), evAt_mem_oldEvents ht.noInit ht.phases hpos, rfl⟩

theorem channel_ends {B : BaseGraph} (hB : ReBaseOK B) {e : BChannel} (he : e ∈ B.channels) {Ki Kj : ℕ} (hKi : 0 < Ki) :
    ∃ x, channelConstraints e.2.1 e.2.2 e.1 Ki Kj = some x ∧
      ∀ c ∈ x, c.src ∈ oldEvents e.2.1 Ki ∧ c.dst ∈ oldEvents e.2.2 Kj ∧ c.channel = e.1.id := by
  obtain ⟨h1, h2, h3⟩ := hB.channels e he
  have t1 := hB.tasks _ h1
  have t2 := hB.tasks _ h2
  have hP : 0 < e.1.inPhases.length := by rw [← h3.srcPhases]; exact t1.phases
  have hQ : 0 < e.1.outPhases.length := by rw [← h3.dstPhases]; exact t2.phases
  obtain ⟨_, _, _, _, r, hr, hmem⟩ := channel_spec e.2.1 e.2.2 e.1 Ki Kj h3.noInInit h3.noOutInit
      hP hQ h3.srcPhases hKi h3.inPos t1.ni.ne' h3.gcdPos h3.preload
  refine ⟨r, hr, fun c hc => ?_⟩
  obtain ⟨m, hm, n, hn, α, _, rfl⟩ := (hmem c).mp hc
  refine ⟨evAt_mem_oldEvents t1.noInit t1.phases (by rw [h3.srcPhases]; exact hm), ?_, rfl⟩
  have := evAt_mem_oldEvents t2.noInit t2.phases (K := Kj) (x := n) (by rw [h3.dstPhases]; exact hn)
  unfold evAt at this
  rw [h3.dstPhases] at this
  exact this

theorem removeStep_spec {B : BaseGraph} (hB : ReBaseOK B) (K K' : Int → ℕ) (hK' : KOk B K') (cc : List BChannel)
    (hcc : ∀ e ∈ cc, e ∈ B.channels) (cs : List EvConstraint) :
    ∃ kept, removeStep K K' cc cs = some kept ∧ ∀ c, c ∈ kept ↔ c ∈ cs ∧ ∀ e ∈ cc, K e.2.1.id < K' e.2.1.id →
      c.src ∉ oldEvents e.2.1 (K e.2.1.id) ∧ c.dst ∉ oldEvents e.2.1 (K e.2.1.id) := by
  induction cc generalizing cs with
  | nil => exact ⟨cs, rfl, by simp⟩
  | cons e l ih =>
    have hs := (hB.channels e (hcc e (by simp))).1
    by_cases hlt : K e.2.1.id < K' e.2.1.id
    · obtain ⟨kept, h1, h2⟩ := ih (fun x hx => hcc x (by simp [hx])) (cs.filter fun c =>
        !(decide (c.src ∈ oldEvents e.2.1 (K e.2.1.id)) || decide (c.dst ∈ oldEvents e.2.1 (K e.2.1.id))))
      refine ⟨kept, ?_, fun c => ?_⟩
      · simp only [removeStep]
        rw [if_pos hlt, if_pos, h1]
        obtain ⟨hr, hni⟩ := reps_spec hB hs
        have h3 := Nat.le_of_dvd hr (hK'.2 _ hs)
        have h4 : (1 : Int) ≤ e.2.1.durations.length := by exact_mod_cast (hB.tasks _ hs).phases
        have h5 : (K' e.2.1.id : Int) ≤ reps e.2.1 := by exact_mod_cast h3
        rw [hni]
        have : (1 : Int) * reps e.2.1 ≤ e.2.1.durations.length * reps e.2.1 := mul_le_mul_of_nonneg_right h4 (by omega)
        omega
      · rw [h2, List.mem_filter]
        simp only [Bool.not_eq_true', Bool.or_eq_false_iff, decide_eq_false_iff_not, List.forall_mem_cons, hlt, true_imp_iff]
        tauto
    · obtain ⟨kept, h1, h2⟩ := ih (fun x hx => hcc x (by simp [hx])) cs
      refine ⟨kept, ?_, fun c => ?_⟩
      · simp only [removeStep]
        rw [if_neg hlt, h1]
      · rw [h2]
        simp only [List.forall_mem_cons, hlt, false_imp_iff, true_and]

theorem updateEventGraph_spec {B : BaseGraph} (hB : ReBaseOK B) {K : Int → ℕ} (hK : KOk B K) {cc : List BChannel}
    (hcc : ∀ e ∈ cc, e ∈ B.channels) {cs : List EvConstraint} (hcs : GraphFor B K cs) :
    ∃ (K' : Int → ℕ) (ch : Bool), updateVectorWithLocalNi K cc = some (K', ch) ∧
      ((ch = false ∧ updateEventGraph B K cc cs = some none) ∨
       (ch = true ∧ ∃ cs', updateEventGraph B K cc cs = some (some (K', cs')) ∧ GraphFor B K' cs')) := by
  obtain ⟨g, K', ch, h1, h2, h3, h3', h4, h5, h6, h7, h8, -⟩ := updateVector_spec hB cc hcc K hK
  refine ⟨K', ch, h1, ?_⟩
  cases hch : ch with
  | false =>
    left
    refine ⟨rfl, ?_⟩
    unfold updateEventGraph
    rw [h1, hch]; rfl
  | true =>
    right
    refine ⟨rfl, ?_⟩
    obtain ⟨cs0, hcs0, hmem0⟩ := hcs
    obtain ⟨kept, hk1, hk2⟩ := removeStep_spec hB K K' h4 cc hcc cs
    have hself : ∀ (L : Int → ℕ), (∀ i, 0 < L i) → ∀ t ∈ B.tasks, ∃ x, selfLoopConstraints t (L t.id) = some x ∧
        ∀ c ∈ x, c.src ∈ oldEvents t (L t.id) ∧ c.dst ∈ oldEvents t (L t.id) ∧ c.channel = 0 :=
      fun L hL t ht => selfLoop_ends (hB.tasks t ht) (hL _)
    have hchan : ∀ (L : Int → ℕ), (∀ i, 0 < L i) → ∀ e ∈ B.channels, ∃ x,
        channelConstraints e.2.1 e.2.2 e.1 (L e.2.1.id) (L e.2.2.id) = some x ∧
        ∀ c ∈ x, c.src ∈ oldEvents e.2.1 (L e.2.1.id) ∧ c.dst ∈ oldEvents e.2.2 (L e.2.2.id) ∧ c.channel = e.1.id :=
      fun L hL e he => channel_ends hB he (hL _)
    obtain ⟨loops, hl⟩ := collect_isSome (fun e : BChannel => if K e.2.1.id = K' e.2.1.id then some [] else
        selfLoopConstraints e.2.1 (K' e.2.1.id)) cc (fun e he => by
      by_cases h : K e.2.1.id = K' e.2.1.id
      · exact ⟨[], by rw [if_pos h]⟩
      · obtain ⟨x, hx, -⟩ := hself K' h4.1 _ (hB.channels e (hcc e he)).1
        exact ⟨x, by rw [if_neg h, hx]⟩)
    have hreg : ∀ e ∈ cc.flatMap (regenerated B K K'), e ∈ B.channels := by
      intro e he
      obtain ⟨e', _, h⟩ := List.mem_flatMap.mp he
      unfold regenerated at h
      split at h
      · simp at h
      · rcases List.mem_append.mp h with h | h <;> exact (List.mem_filter.mp h).1
    obtain ⟨chans, hc⟩ := collect_isSome (fun c : BChannel => channelConstraints c.2.1 c.2.2 c.1 (K' c.2.1.id) (K' c.2.2.id))
      (cc.flatMap (regenerated B K K')) (fun e he => by
        obtain ⟨x, hx, -⟩ := hchan K' h4.1 e (hreg e he)
        exact ⟨x, hx⟩)
    obtain ⟨cs1, hcs1⟩ := graph_total hB h4.1
    refine ⟨kept ++ loops ++ chans, ?_, cs1, hcs1, fun c => ?_⟩
    · unfold updateEventGraph
      rw [h1, hch]
      simp only [Option.bind_eq_bind, Option.bind_some, hk1, hl, hc]
      rfl
    -- tasks whose periodicity changed are sources of the circuit
    have hlt : ∀ i, K i ≠ K' i → K i < K' i := fun i hi => lt_of_le_of_ne (Nat.le_of_dvd (h4.1 i) (h5 i)) hi
    have hsrc : ∀ t ∈ B.tasks, K t.id ≠ K' t.id → ∃ e ∈ cc, e.2.1 = t := by
      intro t ht hne
      obtain ⟨e, he, hid⟩ := h8 t.id (Ne.symm hne)
      exact ⟨e, he, hB.ids _ (hB.channels e (hcc e he)).1 _ ht hid⟩
    have hkeep : ∀ s ∈ B.tasks, ∀ t ∈ B.tasks, c.src ∈ oldEvents s (K s.id) → c.dst ∈ oldEvents t (K t.id) →
        (c ∈ kept ↔ c ∈ cs ∧ K s.id = K' s.id ∧ K t.id = K' t.id) := by
      intro s hs t ht hcs' hct
      rw [hk2]
      refine and_congr_right fun _ => ?_
      constructor
      · intro H
        constructor
        · by_contra hne
          obtain ⟨e, he, rfl⟩ := hsrc s hs hne
          exact (H e he (hlt _ hne)).1 hcs'
        · by_contra hne
          obtain ⟨e, he, rfl⟩ := hsrc t ht hne
          exact (H e he (hlt _ hne)).2 hct
      · rintro ⟨a, b⟩ e he hlt'
        have hes := (hB.channels e (hcc e he)).1
        constructor
        · intro h
          have i1 := ((mem_oldEvents (hB.tasks _ hes).noInit).mp h).1
          have i2 := ((mem_oldEvents (hB.tasks _ hs).noInit).mp hcs').1
          rw [i1] at i2; rw [i2] at hlt'; omega
        · intro h
          have i1 := ((mem_oldEvents (hB.tasks _ hes).noInit).mp h).1
          have i2 := ((mem_oldEvents (hB.tasks _ ht).noInit).mp hct).1
          rw [i1] at i2; rw [i2] at hlt'; omega
    rw [List.mem_append, List.mem_append, collect_mem _ _ _ hl, collect_mem _ _ _ hc, eventGraph_mem hcs1]
    constructor
    · rintro ((h | ⟨e, he, x, hx, hcx⟩) | ⟨e, he, x, hx, hcx⟩)
      · have hc0 : c ∈ cs := ((hk2 c).mp h).1
        rcases (eventGraph_mem hcs0 c).mp ((hmem0 c).mp hc0) with ⟨t, ht, x, hx, hcx⟩ | ⟨e, he, x, hx, hcx⟩
        · obtain ⟨x', hx', he⟩ := hself K hK.1 t ht
          rw [hx] at hx'; cases hx'
          obtain ⟨a, b, -⟩ := he c hcx
          obtain ⟨-, hk, -⟩ := (hkeep t ht t ht a b).mp h
          exact Or.inl ⟨t, ht, x, by rw [← hk]; exact hx, hcx⟩
        · obtain ⟨x', hx', he'⟩ := hchan K hK.1 e he
          rw [hx] at hx'; cases hx'
          obtain ⟨a, b, -⟩ := he' c hcx
          obtain ⟨-, hk, hk'⟩ := (hkeep _ (hB.channels e he).1 _ (hB.channels e he).2.1 a b).mp h
          exact Or.inr ⟨e, he, x, by rw [← hk, ← hk']; exact hx, hcx⟩
      · by_cases h : K e.2.1.id = K' e.2.1.id
        · rw [if_pos h] at hx; cases hx; simp at hcx
        · rw [if_neg h] at hx
          exact Or.inl ⟨e.2.1, (hB.channels e (hcc e he)).1, x, hx, hcx⟩
      · exact Or.inr ⟨e, hreg e he, x, hx, hcx⟩
    · rintro (⟨t, ht, x, hx, hcx⟩ | ⟨e, he, x, hx, hcx⟩)
      · by_cases h : K t.id = K' t.id
        · left; left
          rw [← h] at hx
          obtain ⟨x', hx', he⟩ := hself K hK.1 t ht
          rw [hx] at hx'; cases hx'
          obtain ⟨a, b, -⟩ := he c hcx
          exact (hkeep t ht t ht a b).mpr ⟨(hmem0 c).mpr ((eventGraph_mem hcs0 c).mpr (Or.inl ⟨t, ht, x, hx, hcx⟩)), h, h⟩
        · left; right
          obtain ⟨e, he, rfl⟩ := hsrc t ht h
          exact ⟨e, he, x, by rw [if_neg h]; exact hx, hcx⟩
      · obtain ⟨hs, ht, -⟩ := hB.channels e he
        by_cases hj : K e.2.2.id = K' e.2.2.id
        · by_cases hi : K e.2.1.id = K' e.2.1.id
          · left; left
            rw [← hi, ← hj] at hx
            obtain ⟨x', hx', he'⟩ := hchan K hK.1 e he
            rw [hx] at hx'; cases hx'
            obtain ⟨a, b, -⟩ := he' c hcx
            exact (hkeep _ hs _ ht a b).mpr ⟨(hmem0 c).mpr ((eventGraph_mem hcs0 c).mpr (Or.inr ⟨e, he, x, hx, hcx⟩)), hi, hj⟩
          · right
            obtain ⟨e', he', hes⟩ := hsrc _ hs hi
            refine ⟨e, List.mem_flatMap.mpr ⟨e', he', ?_⟩, x, hx, hcx⟩
            unfold regenerated
            rw [hes, if_neg hi, List.mem_append]
            left
            rw [List.mem_filter]
            refine ⟨he, ?_⟩
            by_cases hid : e.1.id = e'.1.id
            · have := hB.channelIds e he e' (hcc e' he') hid
              subst this
              simp [hj]
            · simp [hid]
        · right
          obtain ⟨e', he', hes⟩ := hsrc _ ht hj
          refine ⟨e, List.mem_flatMap.mpr ⟨e', he', ?_⟩, x, hx, hcx⟩
          unfold regenerated
          rw [hes, if_neg hj, List.mem_append]
          right
          rw [List.mem_filter]
          exact ⟨he, by simp⟩


theorem find_eq {B : BaseGraph} (hB : ReBaseOK B) {t : KTask} (ht : t ∈ B.tasks) : B.find t.id = some t := by
  unfold BaseGraph.find
  cases h : B.tasks.find? (fun s => decide (s.id = t.id)) with
  | none =>
    rw [List.find?_eq_none] at h
    have := h t ht
    simp at this
  | some s =>
    have h1 := List.mem_of_find?_eq_some h
    have h2 := List.find?_some h
    rw [decide_eq_true_eq] at h2
    rw [hB.ids s h1 t ht h2]

theorem phOf_eq {B : BaseGraph} (hB : ReBaseOK B) {t : KTask} (ht : t ∈ B.tasks) : phOf B t.id = t.durations.length := by
  unfold phOf; rw [find_eq hB ht]; rfl

theorem idx_evAt {B : BaseGraph} (hB : ReBaseOK B) {t : KTask} (ht : t ∈ B.tasks) (x : ℕ) : idx B (evAt t x) = x := by
  unfold idx evAt
  simp only [phOf_eq hB ht, add_sub_cancel_right, Int.toNat_natCast]
  exact Nat.div_add_mod' x _

theorem blockStart_evAt {B : BaseGraph} (hB : ReBaseOK B) {t : KTask} (ht : t ∈ B.tasks) (σ : Int → ℕ → ℚ) (n : Int → ℕ) (x b : ℕ) :
    blockStart B σ n (evAt t x) b = σ t.id (x + b * (n t.id * t.durations.length)) := by
  unfold blockStart
  rw [idx_evAt hB ht]
  show σ t.id (x + b * (n t.id * phOf B t.id)) = _
  rw [phOf_eq hB ht]

/-- A constraint whose tasks `K` treats in whole blocks shifts blocks. -/
theorem constraint_shift {B : BaseGraph} (hB : ReBaseOK B) {σ : Int → ℕ → ℚ} (hσ : OrderedSchedule B σ) {K : Int → ℕ}
    (hK : ∀ i, 0 < K i) {cs : List EvConstraint} (hcs : eventGraph (B.withK K) = some cs) {n : Int → ℕ} {G : ℕ} (hG : 0 < G)
    {c : EvConstraint} (hc : c ∈ cs)
    (hn : ∀ t ∈ B.tasks, t.id = c.src.task ∨ t.id = c.dst.task → reps t = G * n t.id ∧ n t.id ∣ K t.id) :
    Shifts (blockStart B σ n) G c := by
  have npos : ∀ t ∈ B.tasks, reps t = G * n t.id → 0 < n t.id := by
    intro t ht h
    have := (reps_spec hB ht).1
    rw [h] at this
    exact Nat.pos_of_mul_pos_left this
  rcases (eventGraph_mem hcs c).mp hc with ⟨t, ht, x, hx, hcx⟩ | ⟨e, he, x, hx, hcx⟩
  · have hsrc : c.src.task = t.id := by
      obtain ⟨x', hx', h⟩ := selfLoop_ends (hB.tasks t ht) (hK t.id)
      rw [hx] at hx'; cases hx'
      exact ((mem_oldEvents (hB.tasks t ht).noInit).mp (h c hcx).1).1
    obtain ⟨hr, hd⟩ := hn t ht (Or.inl hsrc.symm)
    obtain ⟨m, m', e1, e2, h, hw, hb⟩ := selfLoop_shift hB hσ ht (npos t ht hr) hG hr (hK _) hd hx hcx
    refine ⟨h, hw, fun b b' hbb => ?_⟩
    rw [e1, e2, blockStart_evAt hB ht, blockStart_evAt hB ht]
    exact hb b b' hbb
  · obtain ⟨hs, ht, hch⟩ := hB.channels e he
    obtain ⟨x', hx', h⟩ := channel_ends hB he (Ki := K e.2.1.id) (Kj := K e.2.2.id) (hK _)
    rw [hx] at hx'; cases hx'
    have hsrc : c.src.task = e.2.1.id := ((mem_oldEvents (hB.tasks _ hs).noInit).mp (h c hcx).1).1
    have hdst : c.dst.task = e.2.2.id := ((mem_oldEvents (hB.tasks _ ht).noInit).mp (h c hcx).2.1).1
    obtain ⟨hr, hd⟩ := hn _ hs (Or.inl hsrc.symm)
    obtain ⟨hr', hd'⟩ := hn _ ht (Or.inr hdst.symm)
    obtain ⟨m, m', e1, e2, h, hw, hb⟩ := channel_shift hB hσ he (npos _ hs hr) hG hr hr' (hK _) hd hd' hx hcx
    refine ⟨h, hw, fun b b' hbb => ?_⟩
    rw [e1, e2, blockStart_evAt hB hs, blockStart_evAt hB ht]
    exact hb b b' hbb

theorem constraint_tasks {B : BaseGraph} (hB : ReBaseOK B) {K : Int → ℕ} (hK : ∀ i, 0 < K i) {cs : List EvConstraint}
    (hcs : eventGraph (B.withK K) = some cs) {c : EvConstraint} (hc : c ∈ cs) :
    (c.src.task = c.dst.task ∨ ∃ e ∈ B.channels, c.channel = e.1.id ∧ c.src.task = e.2.1.id) ∧
    (∃ s ∈ B.tasks, c.src.task = s.id) ∧ ∃ t ∈ B.tasks, c.dst.task = t.id := by
  rcases (eventGraph_mem hcs c).mp hc with ⟨t, ht, x, hx, hcx⟩ | ⟨e, he, x, hx, hcx⟩
  · obtain ⟨x', hx', h⟩ := selfLoop_ends (hB.tasks t ht) (hK t.id)
    rw [hx] at hx'; cases hx'
    have h1 := ((mem_oldEvents (hB.tasks t ht).noInit).mp (h c hcx).1).1
    have h2 := ((mem_oldEvents (hB.tasks t ht).noInit).mp (h c hcx).2.1).1
    exact ⟨Or.inl (by rw [h1, h2]), ⟨t, ht, h1⟩, t, ht, h2⟩
  · obtain ⟨hs, ht, hch⟩ := hB.channels e he
    obtain ⟨x', hx', h⟩ := channel_ends hB he (Ki := K e.2.1.id) (Kj := K e.2.2.id) (hK _)
    rw [hx] at hx'; cases hx'
    have h1 := ((mem_oldEvents (hB.tasks _ hs).noInit).mp (h c hcx).1).1
    have h2 := ((mem_oldEvents (hB.tasks _ ht).noInit).mp (h c hcx).2.1).1
    exact ⟨Or.inr ⟨e, he, (h c hcx).2.2, h1⟩, ⟨_, hs, h1⟩, _, ht, h2⟩

/-- If the tasks of the critical circuit run in whole blocks, every constraint of the circuit shifts blocks of every
valid schedule. -/
theorem blocks {B : BaseGraph} (hB : ReBaseOK B) {K : Int → ℕ} (hK : ∀ i, 0 < K i) {cs : List EvConstraint}
    (hcs : GraphFor B K cs) {u : Event} {p : List EvConstraint} (hu : IsWalk cs u p u) (hne : p ≠ []) {G : ℕ}
    (hG0 : criticalEdges B p ≠ [] → 0 < G) (hG : ∀ e ∈ criticalEdges B p, G ∣ reps e.2.1 ∧ reps e.2.1 / G ∣ K e.2.1.id) :
    ∃ (G' : ℕ) (n : Int → ℕ), 0 < G' ∧ ∃ tu ∈ B.tasks, u.task = tu.id ∧ reps tu = G' * n tu.id ∧
      ∀ σ, OrderedSchedule B σ → ∀ c ∈ p, Shifts (blockStart B σ n) (G' : ℚ) c := by
  obtain ⟨cs0, hcs0, hmem⟩ := hcs
  have hin : ∀ c ∈ p, c ∈ cs0 := fun c hc => by
    obtain ⟨_, _, _, _, h, _⟩ := walk_split hu hc
    exact (hmem c).mp h
  have htasks : ∀ c ∈ p, c.src.task = c.dst.task ∨ ∃ e ∈ criticalEdges B p, e.2.1.id = c.src.task := by
    intro c hc
    rcases (constraint_tasks hB hK hcs0 (hin c hc)).1 with h | ⟨e, he, h1, h2⟩
    · exact Or.inl h
    · refine Or.inr ⟨e, ?_, h2.symm⟩
      unfold criticalEdges
      rw [List.mem_filter]
      refine ⟨he, ?_⟩
      rw [List.any_eq_true]
      exact ⟨c, hc, by simp [h1]⟩
  -- the circuit is not empty
  obtain ⟨c0, hc0, hu0⟩ : ∃ c ∈ p, c.src = u := by
    cases p with
    | nil => exact absurd rfl hne
    | cons c p => exact ⟨c, by simp, hu.2.1⟩
  obtain ⟨⟨tu, htu, hidu⟩, -⟩ := (constraint_tasks hB hK hcs0 (hin c0 hc0)).2
  rw [hu0] at hidu
  -- choose the block sizes
  obtain ⟨G', n, hG', hn⟩ : ∃ (G' : ℕ) (n : Int → ℕ), 0 < G' ∧ ∀ t ∈ B.tasks,
      (t.id = u.task ∨ ∃ c ∈ p, t.id = c.src.task ∨ t.id = c.dst.task) → reps t = G' * n t.id ∧ n t.id ∣ K t.id := by
    rcases circuit_tasks (Src := fun i => ∃ e ∈ criticalEdges B p, e.2.1.id = i) hu htasks with ⟨h1, h2⟩ | h2
    · have hGpos : 0 < G := by
        obtain ⟨e, he, _⟩ := h1
        exact hG0 (List.ne_nil_of_mem he)
      refine ⟨G, fun i => ((B.find i).map fun t => reps t / G).getD 0, hGpos, ?_⟩
      intro t ht hor
      have hsrc : ∃ e ∈ criticalEdges B p, e.2.1.id = t.id := by
        rcases hor with h | ⟨c, hc, h | h⟩
        · rw [h]; exact h1
        · rw [h]; exact (h2 c hc).1
        · rw [h]; exact (h2 c hc).2
      obtain ⟨e, he, hid⟩ := hsrc
      have heB : e ∈ B.channels := (List.mem_filter.mp he).1
      have := hB.ids _ (hB.channels e heB).1 _ ht hid
      obtain ⟨a, b⟩ := hG e he
      rw [this] at a b
      simp only [find_eq hB ht, Option.map_some, Option.getD_some]
      exact ⟨(Nat.mul_div_cancel' a).symm, b⟩
    · refine ⟨reps tu, fun _ => 1, (reps_spec hB htu).1, ?_⟩
      intro t ht hor
      have : t.id = tu.id := by
        rcases hor with h | ⟨c, hc, h | h⟩
        · rw [h, hidu]
        · rw [h, (h2 c hc).1, hidu]
        · rw [h, (h2 c hc).2, hidu]
      rw [hB.ids t ht tu htu this]
      simp
  exact ⟨G', n, hG', tu, htu, hidu, (hn tu htu (Or.inl hidu.symm)).1, fun σ hσ c hc =>
    constraint_shift hB hσ hK hcs0 hG' (hin c hc) (fun t ht hor => hn t ht (Or.inr ⟨c, hc, hor⟩))⟩

/-- Lower bound: if the tasks of the critical circuit run in whole blocks, no schedule beats the circuit. -/
theorem lower_bound {B : BaseGraph} (hB : ReBaseOK B) {K : Int → ℕ} (hK : ∀ i, 0 < K i) {cs : List EvConstraint}
    (hcs : GraphFor B K cs) {th : ℚ} {p : List EvConstraint} (hp : CircuitRatio cs th p) (hth : 0 < th) {G : ℕ}
    (hG0 : criticalEdges B p ≠ [] → 0 < G)
    (hG : ∀ e ∈ criticalEdges B p, G ∣ reps e.2.1 ∧ reps e.2.1 / G ∣ K e.2.1.id)
    {Ω : ℚ} (hΩ : Ω ∈ OrderedPeriods B) : 1 / th ≤ Ω := by
  obtain ⟨σ, hσ, hsus⟩ := hΩ
  obtain ⟨u, hu⟩ := hp.circuit
  have hne : p ≠ [] := by rintro rfl; have := hp.posD; simp [totalD] at this
  have hW : 0 < totalW p := by rw [← hp.ratio]; exact mul_pos hp.posD hth
  obtain ⟨G', n, hG', tu, htu, hidu, hrep, hsh⟩ := blocks hB hK hcs hu hne hG0 hG
  have hshift := hsh σ hσ
  obtain ⟨C, hC⟩ := hsus tu htu
  have hGq : (0 : ℚ) < G' := by exact_mod_cast hG'
  have hbound : ∀ b : ℕ, blockStart B σ n u b ≤ Ω * b / G' + (Ω * idx B u / tu.ni + C) := by
    intro b
    unfold blockStart
    rw [hidu, phOf_eq hB htu]
    have := hC (idx B u + b * (n tu.id * tu.durations.length))
    obtain ⟨hr, hni⟩ := reps_spec hB htu
    have h1 : (tu.durations.length : ℚ) ≠ 0 := by exact_mod_cast (hB.tasks tu htu).phases.ne'
    have h2 : (n tu.id : ℚ) ≠ 0 := by
      have : n tu.id ≠ 0 := by
        intro h0; rw [h0] at hrep; omega
      exact_mod_cast this
    have h3 : (G' : ℚ) ≠ 0 := hGq.ne'
    have hniq : (tu.ni : ℚ) = tu.durations.length * (G' * n tu.id) := by rw [hni, hrep]; push_cast; ring
    have e : Ω * ((idx B u + b * (n tu.id * tu.durations.length) : ℕ) : ℚ) / tu.ni = Ω * idx B u / tu.ni + Ω * b / G' := by
      rw [hniq]; push_cast; field_simp
    rw [e] at this
    linarith
  have hfin := circuit_bound hGq hu hshift hW hbound
  rw [div_le_iff₀ hth]
  have := hp.ratio
  have hD := hp.posD
  rw [← this] at hfin
  have : totalD p * 1 ≤ totalD p * (Ω * th) := by linarith
  have := le_of_mul_le_mul_left this hD
  linarith

/-- A circuit of non-positive ratio whose tasks run in whole blocks excludes every schedule. -/
theorem no_schedule {B : BaseGraph} (hB : ReBaseOK B) {K : Int → ℕ} (hK : ∀ i, 0 < K i) {cs : List EvConstraint}
    (hcs : GraphFor B K cs) {th : ℚ} {p : List EvConstraint} (hp : CircuitRatio cs th p) (hth : th ≤ 0) {G : ℕ}
    (hG0 : criticalEdges B p ≠ [] → 0 < G)
    (hG : ∀ e ∈ criticalEdges B p, G ∣ reps e.2.1 ∧ reps e.2.1 / G ∣ K e.2.1.id) : ¬ ∃ σ, OrderedSchedule B σ := by
  rintro ⟨σ, hσ⟩
  obtain ⟨u, hu⟩ := hp.circuit
  have hne : p ≠ [] := by rintro rfl; have := hp.posD; simp [totalD] at this
  have hW : totalW p ≤ 0 := by rw [← hp.ratio]; exact mul_nonpos_of_nonneg_of_nonpos hp.posD.le hth
  obtain ⟨G', n, hG', tu, htu, hidu, hrep, hsh⟩ := blocks hB hK hcs hu hne hG0 hG
  have hmono : Monotone (blockStart B σ n u) := by
    have hm : Monotone (σ u.task) := by rw [hidu]; exact gen_mono hB hσ htu
    intro a b hab
    exact hm (by have := Nat.mul_le_mul_right (n u.task * phOf B u.task) hab; omega)
  have := circuit_deadlock (by exact_mod_cast hG' : (0 : ℚ) < G') hu (hsh σ hσ) hW hmono
  linarith [hp.posD]

theorem rank_le_bound {B : BaseGraph} (hB : ReBaseOK B) {K : Int → ℕ} (hK : KOk B K) : primeRank B K ≤ primeBound B :=
  sum_le_sum' _ _ _ fun t ht => pfl_le (reps_spec hB ht).1 (hK.2 t ht)

theorem rank_lt {B : BaseGraph} (hB : ReBaseOK B) {K : Int → ℕ} (hK : KOk B K) {cc : List BChannel}
    (hcc : ∀ e ∈ cc, e ∈ B.channels) {K' : Int → ℕ} (h : updateVectorWithLocalNi K cc = some (K', true)) :
    KOk B K' ∧ primeRank B K < primeRank B K' := by
  obtain ⟨g, K1, ch, h1, -, -, -, h4, h5, -, h7, h8, -⟩ := updateVector_spec hB cc hcc K hK
  rw [h] at h1; cases h1
  refine ⟨h4, ?_⟩
  obtain ⟨i, hi⟩ := h7.mp rfl
  obtain ⟨e, he, rfl⟩ := h8 i hi
  exact sum_lt_sum' _ _ _ (fun t _ => pfl_le (h4.1 _) (h5 _)) (hB.channels e (hcc e he)).1 (pfl_lt (h4.1 _) (h5 _) hi)

theorem criticalEdges_sub (B : BaseGraph) (p : List EvConstraint) : ∀ e ∈ criticalEdges B p, e ∈ B.channels :=
  fun _ he => (List.mem_filter.mp he).1

theorem kiterLoop_terminates {B : BaseGraph} (hB : ReBaseOK B) (solve : List EvConstraint → Option (ℚ × List EvConstraint))
    (fuel it : ℕ) (K : Int → ℕ) (hK : KOk B K) (cs : List EvConstraint) (hcs : GraphFor B K cs) (cc : List BChannel)
    (hcc : ∀ e ∈ cc, e ∈ B.channels) (th : ℚ) (hfuel : primeBound B < fuel + primeRank B K) :
    kiterLoop solve B fuel it K cs cc th ≠ some none ∧
    (∀ r, kiterLoop solve B fuel it K cs cc th = some (some r) → KOk B r.K ∧ r.iterations ≤ it + 1 + (primeBound B - primeRank B K)) ∧
    ((∀ K cs, KOk B K → GraphFor B K cs → solve cs ≠ none) → kiterLoop solve B fuel it K cs cc th ≠ none) := by
  induction fuel generalizing it K cs cc th with
  | zero => have := rank_le_bound hB hK; omega
  | succ fuel ih =>
    obtain ⟨K', ch, h1, h2⟩ := updateEventGraph_spec hB hK hcc hcs
    rcases h2 with ⟨rfl, h⟩ | ⟨rfl, cs', h, hcs'⟩
    · have e : kiterLoop solve B (fuel + 1) it K cs cc th = some (some ⟨K, th, it + 1⟩) := by
        unfold kiterLoop; rw [h]; rfl
      rw [e]
      refine ⟨by simp, fun r hr => ?_, by simp⟩
      cases hr; exact ⟨hK, by simp⟩
    · obtain ⟨hK', hlt⟩ := rank_lt hB hK hcc h1
      have hb' := rank_le_bound hB hK'
      cases hs : solve cs' with
      | none =>
        have e : kiterLoop solve B (fuel + 1) it K cs cc th = none := by
          unfold kiterLoop; rw [h]; simp [hs]
        rw [e]
        exact ⟨by simp, by simp, fun hall => absurd hs (hall K' cs' hK' hcs')⟩
      | some r =>
        by_cases hsame : sameset (criticalEdges B r.2) cc = true
        · have e : kiterLoop solve B (fuel + 1) it K cs cc th = some (some ⟨K', r.1, it + 1⟩) := by
            unfold kiterLoop; rw [h]; simp [hs, hsame]
          rw [e]
          refine ⟨by simp, fun r' hr => ?_, by simp⟩
          cases hr; exact ⟨hK', by simp⟩
        · have e : kiterLoop solve B (fuel + 1) it K cs cc th =
              kiterLoop solve B fuel (it + 1) K' cs' (criticalEdges B r.2) r.1 := by
            conv_lhs => unfold kiterLoop
            rw [h]; simp [hs, hsame]
          rw [e]
          obtain ⟨a1, a2, a3⟩ := ih (it + 1) K' hK' cs' hcs' (criticalEdges B r.2) (criticalEdges_sub B r.2) r.1 (by omega)
          refine ⟨a1, fun r' hr => ?_, a3⟩
          obtain ⟨b1, b2⟩ := a2 r' hr
          exact ⟨b1, by omega⟩

theorem kOk_one {B : BaseGraph} : KOk B (fun _ => 1) := ⟨fun _ => Nat.one_pos, fun _ _ => one_dvd _⟩

/-- Whatever circuits the cycle ratio solver returns, the K-Iter loop stops: with more fuel than the total number
of prime factors of the iteration counts it never runs out, no assertion fails, the number of loop iterations is at most
one more than this total, and every entry of the final vector divides the iteration count of its task. -/
theorem terminates {B : BaseGraph} (hB : ReBaseOK B) (solve : List EvConstraint → Option (ℚ × List EvConstraint))
    (fuel : ℕ) (hfuel : primeBound B < fuel) :
    kiter solve B fuel ≠ some none ∧
    (∀ r, kiter solve B fuel = some (some r) →
      (∀ t ∈ B.tasks, r.K t.id ∣ reps t) ∧ r.iterations ≤ primeBound B + 1) ∧
    ((∀ K cs, KOk B K → GraphFor B K cs → solve cs ≠ none) → kiter solve B fuel ≠ none) := by
  obtain ⟨cs, hcs⟩ := graph_total hB (K := fun _ => 1) (fun _ => Nat.one_pos)
  cases hs : solve cs with
  | none =>
    have e : kiter solve B fuel = none := by unfold kiter; simp [hcs, hs]
    rw [e]
    exact ⟨by simp, by simp, fun hall => absurd hs (hall _ cs kOk_one ⟨cs, hcs, fun _ => Iff.rfl⟩)⟩
  | some r =>
    by_cases hc : (criticalEdges B r.2).isEmpty = true
    · have e : kiter solve B fuel = some (some ⟨fun _ => 1, r.1, 0⟩) := by
        unfold kiter; simp only [hcs, hs, Option.bind_eq_bind, Option.bind_some, hc, if_true]; rfl
      rw [e]
      refine ⟨by simp, fun r' hr => ?_, by simp⟩
      cases hr; exact ⟨fun t _ => one_dvd _, by simp⟩
    · have e : kiter solve B fuel = kiterLoop solve B fuel 0 (fun _ => 1) cs (criticalEdges B r.2) r.1 := by
        unfold kiter; simp only [hcs, hs, Option.bind_eq_bind, Option.bind_some]; rw [if_neg hc]
      rw [e]
      obtain ⟨a1, a2, a3⟩ := kiterLoop_terminates hB solve fuel 0 (fun _ => 1) kOk_one cs ⟨cs, hcs, fun _ => Iff.rfl⟩
        (criticalEdges B r.2) (criticalEdges_sub B r.2) r.1 (by omega)
      refine ⟨a1, fun r' hr => ?_, a3⟩
      obtain ⟨b1, b2⟩ := a2 r' hr
      exact ⟨b1.2, by omega⟩


/-! ### What the computation returns -/

/-- What is known when the computation ends: the answer for the last event graph, and why the vector is not changed. -/
def Final (B : BaseGraph) (K : Int → ℕ) (th : ℚ) : Prop :=
  KOk B K ∧ ∃ cs p, GraphFor B K cs ∧ CycleAnswer cs th p ∧ ∃ G : ℕ, (criticalEdges B p ≠ [] → 0 < G) ∧
    ∀ e ∈ criticalEdges B p, G ∣ reps e.2.1 ∧ reps e.2.1 / G ∣ K e.2.1.id

theorem sameset_sub {B : BaseGraph} (hB : ReBaseOK B) {a b : List BChannel} (ha : ∀ e ∈ a, e ∈ B.channels)
    (hb : ∀ e ∈ b, e ∈ B.channels) (h : sameset a b = true) : ∀ e ∈ a, e ∈ b := by
  unfold sameset at h
  rw [Bool.and_eq_true, List.all_eq_true] at h
  intro e he
  have := h.2 e he
  rw [List.any_eq_true] at this
  obtain ⟨y, hy, hid⟩ := this
  rw [hB.channelIds e (ha e he) y (hb y hy) (by simpa using hid)]
  exact hy

theorem kiterLoop_final {B : BaseGraph} (hB : ReBaseOK B) (solve : List EvConstraint → Option (ℚ × List EvConstraint))
    (hsolve : ∀ K cs th p, KOk B K → GraphFor B K cs → solve cs = some (th, p) → CycleAnswer cs th p)
    (fuel it : ℕ) (K : Int → ℕ) (hK : KOk B K) (cs : List EvConstraint) (hcs : GraphFor B K cs)
    (th : ℚ) (p : List EvConstraint) (hp : CycleAnswer cs th p) (r : KIterResult)
    (hr : kiterLoop solve B fuel it K cs (criticalEdges B p) th = some (some r)) : Final B r.K r.throughput := by
  induction fuel generalizing it K cs th p with
  | zero => simp [kiterLoop] at hr
  | succ fuel ih =>
    obtain ⟨K', ch, h1, h2⟩ := updateEventGraph_spec hB hK (criticalEdges_sub B p) hcs
    obtain ⟨g, K1, ch1, u1, u2, u3, -, u4, u5, u6, u7, -, -⟩ := updateVector_spec hB (criticalEdges B p) (criticalEdges_sub B p) K hK
    rw [h1] at u1; cases u1
    rcases h2 with ⟨rfl, h⟩ | ⟨rfl, cs', h, hcs'⟩
    · have e : kiterLoop solve B (fuel + 1) it K cs (criticalEdges B p) th = some (some ⟨K, th, it + 1⟩) := by
        unfold kiterLoop; rw [h]; rfl
      rw [e] at hr; cases hr
      have hsame : ∀ i, K' i = K i := by
        intro i
        by_contra hne
        have := u7.mpr ⟨i, hne⟩
        simp at this
      refine ⟨hK, cs, p, hcs, hp, g, u2, fun e he => ⟨u3 e he, ?_⟩⟩
      show _ ∣ K e.2.1.id
      rw [← hsame]; exact u6 e he
    · cases hs : solve cs' with
      | none =>
        have e : kiterLoop solve B (fuel + 1) it K cs (criticalEdges B p) th = none := by
          unfold kiterLoop; rw [h]; simp [hs]
        rw [e] at hr; simp at hr
      | some q =>
        have hq : CycleAnswer cs' q.1 q.2 := hsolve K' cs' q.1 q.2 u4 hcs' hs
        by_cases hsame : sameset (criticalEdges B q.2) (criticalEdges B p) = true
        · have e : kiterLoop solve B (fuel + 1) it K cs (criticalEdges B p) th = some (some ⟨K', q.1, it + 1⟩) := by
            unfold kiterLoop; rw [h]; simp [hs, hsame]
          rw [e] at hr; cases hr
          have hsub := sameset_sub hB (criticalEdges_sub B q.2) (criticalEdges_sub B p) hsame
          refine ⟨u4, cs', q.2, hcs', hq, g, fun hne => u2 ?_, fun e he => ⟨u3 e (hsub e he), u6 e (hsub e he)⟩⟩
          obtain ⟨e, he⟩ := List.exists_mem_of_ne_nil _ hne
          exact List.ne_nil_of_mem (hsub e he)
        · have e : kiterLoop solve B (fuel + 1) it K cs (criticalEdges B p) th =
              kiterLoop solve B fuel (it + 1) K' cs' (criticalEdges B q.2) q.1 := by
            conv_lhs => unfold kiterLoop
            rw [h]; simp [hs, hsame]
          rw [e] at hr
          exact ih (it + 1) K' u4 cs' hcs' q.1 q.2 hq hr

theorem kiter_final {B : BaseGraph} (hB : ReBaseOK B) (solve : List EvConstraint → Option (ℚ × List EvConstraint))
    (hsolve : ∀ K cs th p, KOk B K → GraphFor B K cs → solve cs = some (th, p) → CycleAnswer cs th p)
    (fuel : ℕ) (r : KIterResult) (hr : kiter solve B fuel = some (some r)) : Final B r.K r.throughput := by
  obtain ⟨cs, hcs⟩ := graph_total hB (K := fun _ => 1) (fun _ => Nat.one_pos)
  cases hs : solve cs with
  | none =>
    have e : kiter solve B fuel = none := by unfold kiter; simp [hcs, hs]
    rw [e] at hr; simp at hr
  | some q =>
    have hgf : GraphFor B (fun _ => 1) cs := ⟨cs, hcs, fun _ => Iff.rfl⟩
    have hq : CycleAnswer cs q.1 q.2 := hsolve _ cs q.1 q.2 kOk_one hgf hs
    by_cases hc : (criticalEdges B q.2).isEmpty = true
    · have e : kiter solve B fuel = some (some ⟨fun _ => 1, q.1, 0⟩) := by
        unfold kiter; simp only [hcs, hs, Option.bind_eq_bind, Option.bind_some, hc, if_true]; rfl
      rw [e] at hr; cases hr
      have hnil := List.isEmpty_iff.mp hc
      exact ⟨kOk_one, cs, q.2, hgf, hq, 0, fun h => absurd hnil h, by rw [hnil]; simp⟩
    · have e : kiter solve B fuel = kiterLoop solve B fuel 0 (fun _ => 1) cs (criticalEdges B q.2) q.1 := by
        unfold kiter; simp only [hcs, hs, Option.bind_eq_bind, Option.bind_some]; rw [if_neg hc]
      rw [e] at hr
      exact kiterLoop_final hB solve hsolve fuel 0 _ kOk_one cs hgf q.1 q.2 hq r hr

end Kiter.Re
