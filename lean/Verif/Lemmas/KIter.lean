import Verif.Lemmas.Optimality
import Mathlib.Data.Nat.Factors
import Mathlib.Algebra.GCDMonoid.Nat

set_option autoImplicit false

namespace Kiter
open Finset

/-! ### Periodicity vector update -/

theorem iterCount_eq {B : BaseGraph} (hB : BaseOK B) {t : KTask} (ht : t ∈ B.tasks) :
    iterCount t = some (reps t : Int) := by
  obtain ⟨_, h⟩ := reps_spec hB ht
  have hP := (hB.tasks t ht).phases
  unfold iterCount
  rw [if_neg hP.ne', h, Int.mul_tdiv_cancel_left]
  exact_mod_cast hP.ne'

/-- Gcd of the iteration counts of the sources. -/
theorem localGcd_spec {B : BaseGraph} (hB : BaseOK B) (cc : List BChannel) (hcc : ∀ e ∈ cc, e.2.1 ∈ B.tasks) (g : ℕ) :
    ∃ g' : ℕ, localGcd cc g = some (g' : Int) ∧ g' ∣ g ∧ (∀ e ∈ cc, g' ∣ reps e.2.1) ∧
      ∀ d : ℕ, d ∣ g → (∀ e ∈ cc, d ∣ reps e.2.1) → d ∣ g' := by
  induction cc generalizing g with
  | nil => exact ⟨g, rfl, dvd_refl _, by simp, fun d h _ => h⟩
  | cons e l ih =>
    obtain ⟨g', h1, h2, h3, h4⟩ := ih (fun x hx => hcc x (by simp [hx])) (Nat.gcd g (reps e.2.1))
    refine ⟨g', ?_, dvd_trans h2 (Nat.gcd_dvd_left _ _), ?_, ?_⟩
    · simp only [localGcd, iterCount_eq hB (hcc e (by simp)), Option.bind_eq_bind, Option.bind_some]
      rw [Int.gcd_natCast_natCast]; exact h1
    · intro x hx
      rcases List.mem_cons.mp hx with rfl | hx
      · exact dvd_trans h2 (Nat.gcd_dvd_right _ _)
      · exact h3 x hx
    · intro d hd hd'
      exact h4 d (Nat.dvd_gcd hd (hd' e (by simp))) (fun x hx => hd' x (by simp [hx]))

/-- `K` is positive and divides the iteration counts. -/
def KOk (B : BaseGraph) (K : Int → ℕ) : Prop := (∀ i, 0 < K i) ∧ ∀ t ∈ B.tasks, K t.id ∣ reps t

theorem localUpdate_spec {B : BaseGraph} (hB : BaseOK B) (g : ℕ) (hg : 0 < g) (cc : List BChannel)
    (hcc : ∀ e ∈ cc, e.2.1 ∈ B.tasks ∧ e.2.2 ∈ B.tasks ∧ g ∣ reps e.2.1) (K : Int → ℕ) (hK : KOk B K) (ch : Bool) :
    ∃ K' ch', localUpdate g cc K ch = some (K', ch') ∧ KOk B K' ∧ (∀ i, K i ∣ K' i) ∧
      (∀ e ∈ cc, reps e.2.1 / g ∣ K' e.2.1.id) ∧ (ch' = true ↔ ch = true ∨ ∃ i, K' i ≠ K i) ∧
      (∀ i, K' i ≠ K i → ∃ e ∈ cc, e.2.1.id = i) ∧
      ∀ M : Int → ℕ, (∀ i, K i ∣ M i) → (∀ e ∈ cc, reps e.2.1 / g ∣ M e.2.1.id) → ∀ i, K' i ∣ M i := by
  induction cc generalizing K ch with
  | nil => exact ⟨K, ch, rfl, hK, fun i => dvd_refl _, by simp, by simp, by simp, fun M h _ => h⟩
  | cons e l ih =>
    obtain ⟨hs, ht, hd⟩ := hcc e (by simp)
    set q := reps e.2.1 / g with hq
    have hr := (reps_spec hB hs).1
    have hqd : q ∣ reps e.2.1 := Nat.div_dvd_of_dvd hd
    have hqpos : 0 < q := Nat.div_pos (Nat.le_of_dvd hr hd) hg
    set newki := Nat.lcm (K e.2.1.id) q with hnew
    set K1 := Function.update K e.2.1.id newki with hK1
    have hnewd : newki ∣ reps e.2.1 := Nat.lcm_dvd (hK.2 _ hs) hqd
    have hnewpos : 0 < newki := Nat.lcm_pos (hK.1 _) hqpos
    have hK1ok : KOk B K1 := by
      refine ⟨fun i => ?_, fun t ht' => ?_⟩
      · rw [hK1]
        by_cases h : i = e.2.1.id
        · subst h; rw [Function.update_self]; exact hnewpos
        · rw [Function.update_of_ne h]; exact hK.1 i
      · rw [hK1]
        by_cases h : t.id = e.2.1.id
        · have := hB.ids _ ht' _ hs h
          subst this; rw [Function.update_self]; exact hnewd
        · rw [Function.update_of_ne h]; exact hK.2 t ht'
    have hdiv : ∀ i, K i ∣ K1 i := by
      intro i
      rw [hK1]
      by_cases h : i = e.2.1.id
      · subst h; rw [Function.update_self]; exact Nat.dvd_lcm_left _ _
      · rw [Function.update_of_ne h]
    obtain ⟨K', ch', h1, h2, h3, h4, h5, h6, h7⟩ := ih (fun x hx => hcc x (by simp [hx])) K1 hK1ok (ch || (newki != K e.2.1.id))
    have hle1 : ((K1 e.2.1.id : ℕ) : Int) ≤ reps e.2.1 := by exact_mod_cast Nat.le_of_dvd hr (hK1ok.2 _ hs)
    have hle2 : ((K1 e.2.2.id : ℕ) : Int) ≤ reps e.2.2 := by
      exact_mod_cast Nat.le_of_dvd (reps_spec hB ht).1 (hK1ok.2 _ ht)
    refine ⟨K', ch', ?_, h2, fun i => dvd_trans (hdiv i) (h3 i), ?_, ?_, ?_, ?_⟩
    · simp only [localUpdate, iterCount_eq hB hs, iterCount_eq hB ht, Option.bind_eq_bind, Option.bind_some]
      have hg' : ¬ ((g : Int) = 0) := by exact_mod_cast hg.ne'
      rw [if_neg hg']
      have hl : Int.lcm (K e.2.1.id : Int) (Int.tdiv (reps e.2.1 : Int) (g : Int)) = newki := by
        rw [hnew, hq]; rfl
      rw [hl, if_pos ⟨hle1, hle2⟩]
      exact h1
    · intro x hx
      rcases List.mem_cons.mp hx with rfl | hx
      · refine dvd_trans ?_ (h3 _)
        rw [hK1, Function.update_self]; exact Nat.dvd_lcm_right _ _
      · exact h4 x hx
    · rw [h5]
      constructor
      · rintro (h | ⟨i, hi⟩)
        · rcases Bool.or_eq_true_iff.mp h with h | h
          · exact Or.inl h
          · right
            refine ⟨e.2.1.id, ?_⟩
            intro hc
            have a1 : newki ∣ K e.2.1.id := by
              have := h3 e.2.1.id
              rw [hK1, Function.update_self, hc] at this; exact this
            have a2 : K e.2.1.id ∣ newki := Nat.dvd_lcm_left _ _
            have := Nat.dvd_antisymm a1 a2
            simp [this] at h
        · right
          refine ⟨i, fun hc => hi ?_⟩
          have a1 := h3 i
          have a2 := hdiv i
          rw [hc] at a1
          rw [hc]; exact Nat.dvd_antisymm a2 a1
      · rintro (h | ⟨i, hi⟩)
        · left; simp [h]
        · by_cases hc : newki = K e.2.1.id
          · right
            refine ⟨i, ?_⟩
            have : K1 i = K i := by
              rw [hK1]
              by_cases hh : i = e.2.1.id
              · subst hh; rw [Function.update_self]; exact hc
              · rw [Function.update_of_ne hh]
            rw [this]; exact hi
          · left; simp [hc]
    · intro i hi
      by_cases hc : i = e.2.1.id
      · exact ⟨e, by simp, hc.symm⟩
      · have : K1 i = K i := by rw [hK1, Function.update_of_ne hc]
        obtain ⟨x, hx, e'⟩ := h6 i (by rw [this]; exact hi)
        exact ⟨x, by simp [hx], e'⟩
    · intro M hM hM' i
      refine h7 M (fun j => ?_) (fun x hx => hM' x (by simp [hx])) i
      rw [hK1]
      by_cases hc : j = e.2.1.id
      · subst hc; rw [Function.update_self]; exact Nat.lcm_dvd (hM _) (hM' e (by simp))
      · rw [Function.update_of_ne hc]; exact hM j

/-- Everything about `updateVectorWithLocalNi` on a non-empty list of channels of the graph. -/
theorem updateVector_spec {B : BaseGraph} (hB : BaseOK B) (cc : List BChannel) (hcc : ∀ e ∈ cc, e ∈ B.channels)
    (K : Int → ℕ) (hK : KOk B K) :
    ∃ (g : ℕ) (K' : Int → ℕ) (ch' : Bool), updateVectorWithLocalNi K cc = some (K', ch') ∧
      (cc ≠ [] → 0 < g) ∧ (∀ e ∈ cc, g ∣ reps e.2.1) ∧ (∀ d : ℕ, (∀ e ∈ cc, d ∣ reps e.2.1) → d ∣ g) ∧
      KOk B K' ∧ (∀ i, K i ∣ K' i) ∧
      (∀ e ∈ cc, reps e.2.1 / g ∣ K' e.2.1.id) ∧ (ch' = true ↔ ∃ i, K' i ≠ K i) ∧
      (∀ i, K' i ≠ K i → ∃ e ∈ cc, e.2.1.id = i) ∧
      ∀ M : Int → ℕ, (∀ i, K i ∣ M i) → (∀ e ∈ cc, reps e.2.1 / g ∣ M e.2.1.id) → ∀ i, K' i ∣ M i := by
  obtain ⟨g, h1, h2, h3, h4⟩ := localGcd_spec hB cc (fun e he => (hB.channels e (hcc e he)).1) 0
  cases cc with
  | nil =>
    refine ⟨g, K, false, ?_, by simp, h3, fun d hd => h4 d (dvd_zero _) hd, hK, fun i => dvd_refl _, by simp, by simp,
      by simp, fun M h _ => h⟩
    unfold updateVectorWithLocalNi
    have h1' : localGcd [] 0 = some (g : Int) := h1
    rw [h1']; rfl
  | cons e l =>
    have hg : 0 < g := by
      have hr := (reps_spec hB (hB.channels e (hcc e (by simp))).1).1
      exact Nat.pos_of_dvd_of_pos (h3 e (by simp)) hr
    obtain ⟨K', ch', a1, a2, a3, a4, a5, a6, a7⟩ := localUpdate_spec hB g hg (e :: l)
      (fun x hx => ⟨(hB.channels x (hcc x hx)).1, (hB.channels x (hcc x hx)).2.1, h3 x hx⟩) K hK false
    refine ⟨g, K', ch', ?_, fun _ => hg, h3, fun d hd => h4 d (dvd_zero _) hd, a2, a3, a4, by simpa using a5, a6, a7⟩
    unfold updateVectorWithLocalNi
    have h1' : localGcd (e :: l) 0 = some (g : Int) := h1
    rw [h1']; exact a1

/-! ### Incremental update of the event graph -/

theorem mem_oldEvents {t : KTask} (hinit : t.initDurations = []) {ki : ℕ} {e : Event} :
    e ∈ oldEvents t ki ↔ e.task = t.id ∧ (1 ≤ e.phase ∧ e.phase ≤ t.durations.length) ∧ (1 ≤ e.iter ∧ e.iter ≤ ki) := by
  unfold oldEvents
  rw [List.mem_flatMap]
  constructor
  · rintro ⟨p, hp, h⟩
    obtain ⟨k, hk, rfl⟩ := List.mem_map.mp h
    rw [hinit] at hp ⊢
    simp only [List.length_nil, List.mem_range] at hp hk ⊢
    refine ⟨trivial, ⟨?_, ?_⟩, ?_, ?_⟩ <;> omega
  · rintro ⟨h1, ⟨h2, h3⟩, h4, h5⟩
    refine ⟨(e.phase - 1).toNat, by simp [hinit]; omega, List.mem_map.mpr ⟨(e.iter - 1).toNat, by simp; omega, ?_⟩⟩
    cases e
    simp only [hinit, List.length_nil] at *
    simp only [Event.mk.injEq]
    refine ⟨h1.symm, by omega, by omega⟩

theorem evAt_mem_oldEvents {t : KTask} (hinit : t.initDurations = []) (hP : 0 < t.durations.length) {K x : ℕ}
    (hx : x < K * t.durations.length) : evAt t x ∈ oldEvents t K := by
  rw [mem_oldEvents hinit]
  have h1 : x % t.durations.length < t.durations.length := Nat.mod_lt _ hP
  have h2 : x / t.durations.length < K := Nat.div_lt_of_lt_mul (by rwa [Nat.mul_comm] at hx)
  unfold evAt
  generalize x / t.durations.length = a at *
  generalize x % t.durations.length = b at *
  refine ⟨rfl, ⟨?_, ?_⟩, ?_, ?_⟩ <;> dsimp only <;> omega

theorem selfLoop_ends {t : KTask} (ht : TaskOK t 1) {K : ℕ} (hK : 0 < K) :
    ∃ x, selfLoopConstraints t K = some x ∧ ∀ c ∈ x, c.src ∈ oldEvents t K ∧ c.dst ∈ oldEvents t K ∧ c.channel = 0 := by
  obtain ⟨r, hr, hmem⟩ := selfLoop_spec t K ht.phases hK ht.noInit ht.ni.ne'
  have hpos : 0 < K * t.durations.length := Nat.mul_pos hK ht.phases
  refine ⟨r, hr, fun c hc => ?_⟩
  rcases (hmem c).mp hc with ⟨x, hx, rfl⟩ | ⟨_, rfl⟩
  · exact ⟨evAt_mem_oldEvents ht.noInit ht.phases (by omega), evAt_mem_oldEvents ht.noInit ht.phases hx, rfl⟩
  · exact ⟨evAt_mem_oldEvents ht.noInit ht.phases (by omega), evAt_mem_oldEvents ht.noInit ht.phases hpos, rfl⟩

theorem channel_ends {B : BaseGraph} (hB : BaseOK B) {e : BChannel} (he : e ∈ B.channels) {Ki Kj : ℕ} (hKi : 0 < Ki) :
    ∃ x, channelConstraints e.2.1 e.2.2 e.1 Ki Kj = some x ∧
      ∀ c ∈ x, c.src ∈ oldEvents e.2.1 Ki ∧ c.dst ∈ oldEvents e.2.2 Kj ∧ c.channel = e.1.id := by
  obtain ⟨h1, h2, h3⟩ := hB.channels e he
  have t1 := hB.tasks _ h1
  have t2 := hB.tasks _ h2
  have hP : 0 < e.1.inPhases.length := by rw [← h3.srcPhases]; exact t1.phases
  have hQ : 0 < e.1.outPhases.length := by rw [← h3.dstPhases]; exact t2.phases
  obtain ⟨_, _, _, _, r, hr, hmem⟩ := channel_spec e.2.1 e.2.2 e.1 Ki Kj h3.noInInit h3.noOutInit
      hP hQ h3.srcPhases hKi h3.inPos t1.ni.ne' h3.gcdPos h3.preload
  refine ⟨r, hr, fun c hc => ?_⟩
  obtain ⟨m, hm, n, hn, α, _, rfl⟩ := (hmem c).mp hc
  refine ⟨evAt_mem_oldEvents t1.noInit t1.phases (by rw [h3.srcPhases]; exact hm), ?_, rfl⟩
  have := evAt_mem_oldEvents t2.noInit t2.phases (K := Kj) (x := n) (by rw [h3.dstPhases]; exact hn)
  unfold evAt at this
  rw [h3.dstPhases] at this
  exact this

theorem removeStep_spec {B : BaseGraph} (hB : BaseOK B) (K K' : Int → ℕ) (hK' : KOk B K') (cc : List BChannel)
    (hcc : ∀ e ∈ cc, e ∈ B.channels) (cs : List EvConstraint) :
    ∃ kept, removeStep K K' cc cs = some kept ∧ ∀ c, c ∈ kept ↔ c ∈ cs ∧ ∀ e ∈ cc, K e.2.1.id < K' e.2.1.id →
      c.src ∉ oldEvents e.2.1 (K e.2.1.id) ∧ c.dst ∉ oldEvents e.2.1 (K e.2.1.id) := by
  induction cc generalizing cs with
  | nil => exact ⟨cs, rfl, by simp⟩
  | cons e l ih =>
    have hs := (hB.channels e (hcc e (by simp))).1
    by_cases hlt : K e.2.1.id < K' e.2.1.id
    · obtain ⟨kept, h1, h2⟩ := ih (fun x hx => hcc x (by simp [hx])) (cs.filter fun c =>
        !(decide (c.src ∈ oldEvents e.2.1 (K e.2.1.id)) || decide (c.dst ∈ oldEvents e.2.1 (K e.2.1.id))))
      refine ⟨kept, ?_, fun c => ?_⟩
      · simp only [removeStep]
        rw [if_pos hlt, if_pos, h1]
        obtain ⟨hr, hni⟩ := reps_spec hB hs
        have h3 := Nat.le_of_dvd hr (hK'.2 _ hs)
        have h4 : (1 : Int) ≤ e.2.1.durations.length := by exact_mod_cast (hB.tasks _ hs).phases
        have h5 : (K' e.2.1.id : Int) ≤ reps e.2.1 := by exact_mod_cast h3
        rw [hni]
        have : (1 : Int) * reps e.2.1 ≤ e.2.1.durations.length * reps e.2.1 := mul_le_mul_of_nonneg_right h4 (by omega)
        omega
      · rw [h2, List.mem_filter]
        simp only [Bool.not_eq_true', Bool.or_eq_false_iff, decide_eq_false_iff_not, List.forall_mem_cons, hlt, true_imp_iff]
        tauto
    · obtain ⟨kept, h1, h2⟩ := ih (fun x hx => hcc x (by simp [hx])) cs
      refine ⟨kept, ?_, fun c => ?_⟩
      · simp only [removeStep]
        rw [if_neg hlt, h1]
      · rw [h2]
        simp only [List.forall_mem_cons, hlt, false_imp_iff, true_and]

/-- The list `cs` holds exactly the constraints generated for the vector `K`. -/
def GraphFor (B : BaseGraph) (K : Int → ℕ) (cs : List EvConstraint) : Prop :=
  ∃ cs0, eventGraph (B.withK K) = some cs0 ∧ ∀ c, c ∈ cs ↔ c ∈ cs0

theorem updateEventGraph_spec {B : BaseGraph} (hB : BaseOK B) {K : Int → ℕ} (hK : KOk B K) {cc : List BChannel}
    (hcc : ∀ e ∈ cc, e ∈ B.channels) {cs : List EvConstraint} (hcs : GraphFor B K cs) :
    ∃ (K' : Int → ℕ) (ch : Bool), updateVectorWithLocalNi K cc = some (K', ch) ∧
      ((ch = false ∧ updateEventGraph B K cc cs = some none) ∨
       (ch = true ∧ ∃ cs', updateEventGraph B K cc cs = some (some (K', cs')) ∧ GraphFor B K' cs')) := by
  obtain ⟨g, K', ch, h1, h2, h3, h3', h4, h5, h6, h7, h8, -⟩ := updateVector_spec hB cc hcc K hK
  refine ⟨K', ch, h1, ?_⟩
  cases hch : ch with
  | false =>
    left
    refine ⟨rfl, ?_⟩
    unfold updateEventGraph
    rw [h1, hch]; rfl
  | true =>
    right
    refine ⟨rfl, ?_⟩
    obtain ⟨cs0, hcs0, hmem0⟩ := hcs
    obtain ⟨kept, hk1, hk2⟩ := removeStep_spec hB K K' h4 cc hcc cs
    have hself : ∀ (L : Int → ℕ), (∀ i, 0 < L i) → ∀ t ∈ B.tasks, ∃ x, selfLoopConstraints t (L t.id) = some x ∧
        ∀ c ∈ x, c.src ∈ oldEvents t (L t.id) ∧ c.dst ∈ oldEvents t (L t.id) ∧ c.channel = 0 :=
      fun L hL t ht => selfLoop_ends (hB.tasks t ht) (hL _)
    have hchan : ∀ (L : Int → ℕ), (∀ i, 0 < L i) → ∀ e ∈ B.channels, ∃ x,
        channelConstraints e.2.1 e.2.2 e.1 (L e.2.1.id) (L e.2.2.id) = some x ∧
        ∀ c ∈ x, c.src ∈ oldEvents e.2.1 (L e.2.1.id) ∧ c.dst ∈ oldEvents e.2.2 (L e.2.2.id) ∧ c.channel = e.1.id :=
      fun L hL e he => channel_ends hB he (hL _)
    obtain ⟨loops, hl⟩ := collect_isSome (fun e : BChannel => if K e.2.1.id = K' e.2.1.id then some [] else
        selfLoopConstraints e.2.1 (K' e.2.1.id)) cc (fun e he => by
      by_cases h : K e.2.1.id = K' e.2.1.id
      · exact ⟨[], by rw [if_pos h]⟩
      · obtain ⟨x, hx, -⟩ := hself K' h4.1 _ (hB.channels e (hcc e he)).1
        exact ⟨x, by rw [if_neg h, hx]⟩)
    have hreg : ∀ e ∈ cc.flatMap (regenerated B K K'), e ∈ B.channels := by
      intro e he
      obtain ⟨e', _, h⟩ := List.mem_flatMap.mp he
      unfold regenerated at h
      split at h
      · simp at h
      · rcases List.mem_append.mp h with h | h <;> exact (List.mem_filter.mp h).1
    obtain ⟨chans, hc⟩ := collect_isSome (fun c : BChannel => channelConstraints c.2.1 c.2.2 c.1 (K' c.2.1.id) (K' c.2.2.id))
      (cc.flatMap (regenerated B K K')) (fun e he => by
        obtain ⟨x, hx, -⟩ := hchan K' h4.1 e (hreg e he)
        exact ⟨x, hx⟩)
    obtain ⟨cs1, hcs1⟩ := eventGraph_total (withK_ok hB (K := K') (fun t _ => h4.1 _))
    refine ⟨kept ++ loops ++ chans, ?_, cs1, hcs1, fun c => ?_⟩
    · unfold updateEventGraph
      rw [h1, hch]
      simp only [Option.bind_eq_bind, Option.bind_some, hk1, hl, hc]
      rfl
    -- tasks whose periodicity changed are sources of the circuit
    have hlt : ∀ i, K i ≠ K' i → K i < K' i := fun i hi => lt_of_le_of_ne (Nat.le_of_dvd (h4.1 i) (h5 i)) hi
    have hsrc : ∀ t ∈ B.tasks, K t.id ≠ K' t.id → ∃ e ∈ cc, e.2.1 = t := by
      intro t ht hne
      obtain ⟨e, he, hid⟩ := h8 t.id (Ne.symm hne)
      exact ⟨e, he, hB.ids _ (hB.channels e (hcc e he)).1 _ ht hid⟩
    have hkeep : ∀ s ∈ B.tasks, ∀ t ∈ B.tasks, c.src ∈ oldEvents s (K s.id) → c.dst ∈ oldEvents t (K t.id) →
        (c ∈ kept ↔ c ∈ cs ∧ K s.id = K' s.id ∧ K t.id = K' t.id) := by
      intro s hs t ht hcs' hct
      rw [hk2]
      refine and_congr_right fun _ => ?_
      constructor
      · intro H
        constructor
        · by_contra hne
          obtain ⟨e, he, rfl⟩ := hsrc s hs hne
          exact (H e he (hlt _ hne)).1 hcs'
        · by_contra hne
          obtain ⟨e, he, rfl⟩ := hsrc t ht hne
          exact (H e he (hlt _ hne)).2 hct
      · rintro ⟨a, b⟩ e he hlt'
        have hes := (hB.channels e (hcc e he)).1
        constructor
        · intro h
          have i1 := ((mem_oldEvents (hB.tasks _ hes).noInit).mp h).1
          have i2 := ((mem_oldEvents (hB.tasks _ hs).noInit).mp hcs').1
          rw [i1] at i2; rw [i2] at hlt'; omega
        · intro h
          have i1 := ((mem_oldEvents (hB.tasks _ hes).noInit).mp h).1
          have i2 := ((mem_oldEvents (hB.tasks _ ht).noInit).mp hct).1
          rw [i1] at i2; rw [i2] at hlt'; omega
    rw [List.mem_append, List.mem_append, collect_mem _ _ _ hl, collect_mem _ _ _ hc, eventGraph_mem hcs1]
    constructor
    · rintro ((h | ⟨e, he, x, hx, hcx⟩) | ⟨e, he, x, hx, hcx⟩)
      · have hc0 : c ∈ cs := ((hk2 c).mp h).1
        rcases (eventGraph_mem hcs0 c).mp ((hmem0 c).mp hc0) with ⟨t, ht, x, hx, hcx⟩ | ⟨e, he, x, hx, hcx⟩
        · obtain ⟨x', hx', he⟩ := hself K hK.1 t ht
          rw [hx] at hx'; cases hx'
          obtain ⟨a, b, -⟩ := he c hcx
          obtain ⟨-, hk, -⟩ := (hkeep t ht t ht a b).mp h
          exact Or.inl ⟨t, ht, x, by rw [← hk]; exact hx, hcx⟩
        · obtain ⟨x', hx', he'⟩ := hchan K hK.1 e he
          rw [hx] at hx'; cases hx'
          obtain ⟨a, b, -⟩ := he' c hcx
          obtain ⟨-, hk, hk'⟩ := (hkeep _ (hB.channels e he).1 _ (hB.channels e he).2.1 a b).mp h
          exact Or.inr ⟨e, he, x, by rw [← hk, ← hk']; exact hx, hcx⟩
      · by_cases h : K e.2.1.id = K' e.2.1.id
        · rw [if_pos h] at hx; cases hx; simp at hcx
        · rw [if_neg h] at hx
          exact Or.inl ⟨e.2.1, (hB.channels e (hcc e he)).1, x, hx, hcx⟩
      · exact Or.inr ⟨e, hreg e he, x, hx, hcx⟩
    · rintro (⟨t, ht, x, hx, hcx⟩ | ⟨e, he, x, hx, hcx⟩)
      · by_cases h : K t.id = K' t.id
        · left; left
          rw [← h] at hx
          obtain ⟨x', hx', he⟩ := hself K hK.1 t ht
          rw [hx] at hx'; cases hx'
          obtain ⟨a, b, -⟩ := he c hcx
          exact (hkeep t ht t ht a b).mpr ⟨(hmem0 c).mpr ((eventGraph_mem hcs0 c).mpr (Or.inl ⟨t, ht, x, hx, hcx⟩)), h, h⟩
        · left; right
          obtain ⟨e, he, rfl⟩ := hsrc t ht h
          exact ⟨e, he, x, by rw [if_neg h]; exact hx, hcx⟩
      · obtain ⟨hs, ht, -⟩ := hB.channels e he
        by_cases hj : K e.2.2.id = K' e.2.2.id
        · by_cases hi : K e.2.1.id = K' e.2.1.id
          · left; left
            rw [← hi, ← hj] at hx
            obtain ⟨x', hx', he'⟩ := hchan K hK.1 e he
            rw [hx] at hx'; cases hx'
            obtain ⟨a, b, -⟩ := he' c hcx
            exact (hkeep _ hs _ ht a b).mpr ⟨(hmem0 c).mpr ((eventGraph_mem hcs0 c).mpr (Or.inr ⟨e, he, x, hx, hcx⟩)), hi, hj⟩
          · right
            obtain ⟨e', he', hes⟩ := hsrc _ hs hi
            refine ⟨e, List.mem_flatMap.mpr ⟨e', he', ?_⟩, x, hx, hcx⟩
            unfold regenerated
            rw [hes, if_neg hi, List.mem_append]
            left
            rw [List.mem_filter]
            refine ⟨he, ?_⟩
            by_cases hid : e.1.id = e'.1.id
            · have := hB.channelIds e he e' (hcc e' he') hid
              subst this
              simp [hj]
            · simp [hid]
        · right
          obtain ⟨e', he', hes⟩ := hsrc _ ht hj
          refine ⟨e, List.mem_flatMap.mpr ⟨e', he', ?_⟩, x, hx, hcx⟩
          unfold regenerated
          rw [hes, if_neg hj, List.mem_append]
          right
          rw [List.mem_filter]
          exact ⟨he, by simp⟩

end Kiter
