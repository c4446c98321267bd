/-
What the offset generators compute.
-/
import Verif.Model.FixedOffsets
import Verif.Spec.Offsets
import Verif.Lemmas.PeriodicSizing

set_option autoImplicit false

namespace Kiter
open Finset

variable {t : KTask} {Ω : ℚ}

theorem workBefore_succ (t : KTask) (a : ℕ) : workBefore t (a + 1) = workBefore t a + t.dur a := sum_range_succ _ _
theorem workBefore_zero (t : KTask) : workBefore t 0 = 0 := rfl

theorem dur_nn (h : TaskOK t 1) (k : ℕ) : 0 ≤ t.dur k := by
  unfold KTask.dur
  have hlt : k % t.durations.length < t.durations.length := Nat.mod_lt _ h.phases
  rw [List.getD_eq_getElem _ _ hlt]
  exact h.durNonneg _ (List.getElem_mem hlt)

theorem workBefore_nonneg (h : TaskOK t 1) (a : ℕ) : 0 ≤ workBefore t a := sum_nonneg fun i _ => dur_nn h i

theorem prevDuration_spec (t : KTask) {m : ℕ} (hm : m < t.durations.length) :
    ∃ d, prevDuration t (m + 1) = some d ∧ workBefore t (m - 1) + d = workBefore t m := by
  cases m with
  | zero => exact ⟨0, rfl, by simp⟩
  | succ m =>
    refine ⟨t.dur m, ?_, by rw [Nat.add_sub_cancel, workBefore_succ]⟩
    unfold prevDuration
    rw [if_pos (by omega)]
    have : ((m + 1 + 1 : ℕ) : Int) - 1 = ((m + 1 : ℕ) : Int) := by push_cast; ring
    rw [this, phaseDuration_lt (by omega)]

theorem burstPhases_spec (t : KTask) : ∀ (n m : ℕ), m + n = t.durations.length →
    burstPhases t n (m + 1) (workBefore t (m - 1)) = some ((List.range n).map fun j => workBefore t (m + j)) := by
  intro n
  induction n with
  | zero => intro m _; rfl
  | succ n ih =>
    intro m hm
    obtain ⟨d, h1, h1'⟩ := prevDuration_spec t (m := m) (by omega)
    have h2 := ih (m + 1) (by omega)
    rw [Nat.add_sub_cancel] at h2
    unfold burstPhases
    rw [h1]
    simp only [Option.bind_eq_bind, Option.bind_some]
    rw [h1', h2]
    simp only [Option.bind_some, Option.pure_def, List.range_succ_eq_map, List.map_cons, List.map_map, Nat.add_zero]
    congr 2
    refine List.map_congr_left fun j _ => ?_
    show workBefore t (m + 1 + j) = workBefore t (m + (j + 1))
    congr 1; omega

/-- The burst starts. -/
def burst (t : KTask) : List ℚ := (List.range t.durations.length).map fun j => workBefore t j

theorem burst_eq (t : KTask) : burstPhases t t.durations.length 1 0 = some (burst t) := by
  have := burstPhases_spec t t.durations.length 0 (by simp)
  simpa [burst, workBefore_zero] using this

theorem burst_getD {a : ℕ} (h : a < t.durations.length) : (burst t).getD a 0 = workBefore t a := by
  unfold burst
  rw [List.getD_eq_getElem _ _ (by simpa using h)]
  simp

theorem totalDuration_spec (t : KTask) : ∀ (n m : ℕ), m + n = t.durations.length →
    totalDuration t n (m + 1) = some (workBefore t t.durations.length - workBefore t m) := by
  intro n
  induction n with
  | zero => intro m hm; rw [← hm, add_zero, sub_self]; rfl
  | succ n ih =>
    intro m hm
    unfold totalDuration
    rw [phaseDuration_lt (by omega), ih (m + 1) (by omega)]
    simp only [Option.bind_eq_bind, Option.bind_some, Option.pure_def]
    rw [workBefore_succ]
    congr 1; ring

theorem averagePhases_spec (t : KTask) (mu lti : ℚ) : ∀ (n m : ℕ), m + n = t.durations.length →
    averagePhases t mu lti n (m + 1) (workBefore t (m - 1)) =
      some ((List.range n).map fun j => if lti = 0 then 0 else workBefore t (m + j) * (mu / lti)) := by
  intro n
  induction n with
  | zero => intro m _; rfl
  | succ n ih =>
    intro m hm
    obtain ⟨d, h1, h1'⟩ := prevDuration_spec t (m := m) (by omega)
    have h2 := ih (m + 1) (by omega)
    rw [Nat.add_sub_cancel] at h2
    unfold averagePhases
    rw [h1]
    simp only [Option.bind_eq_bind, Option.bind_some]
    rw [h1', h2]
    simp only [Option.bind_some, Option.pure_def, List.range_succ_eq_map, List.map_cons, List.map_map, Nat.add_zero]
    congr 2
    refine List.map_congr_left fun j _ => ?_
    show (if lti = 0 then 0 else workBefore t (m + 1 + j) * (mu / lti)) = if lti = 0 then 0 else workBefore t (m + (j + 1)) * (mu / lti)
    rw [show m + 1 + j = m + (j + 1) by omega]

theorem strictPhases_spec (t : KTask) (shift : ℚ) : ∀ (n m : ℕ), m + n = t.durations.length →
    ∃ r, strictPhases t shift n (m + 1) = some r ∧
      (r.1 = true ↔ ∀ a, m ≤ a → a < t.durations.length → t.dur a ≤ shift) ∧
      (r.1 = true → r.2 = (List.range n).map fun j => ((m + j : ℕ) : ℚ) * shift) := by
  intro n
  induction n with
  | zero => intro m hm; exact ⟨(true, []), rfl, ⟨fun _ a h1 h2 => by omega, fun _ => rfl⟩, fun _ => rfl⟩
  | succ n ih =>
    intro m hm
    obtain ⟨r, e1, e2, e3⟩ := ih (m + 1) (by omega)
    have hd := phaseDuration_lt (t := t) (a := m) (by omega)
    by_cases h : t.dur m > shift
    · refine ⟨(false, []), ?_, ⟨fun h => by simp at h, fun h' => absurd (h' m le_rfl (by omega)) (not_le.2 h)⟩, fun h => by simp at h⟩
      unfold strictPhases
      rw [hd]
      simp only [Option.bind_eq_bind, Option.bind_some]
      rw [if_pos h]; rfl
    · refine ⟨(r.1, ((m + 1 : ℕ) - 1 : ℚ) * shift :: r.2), ?_, ?_, ?_⟩
      · unfold strictPhases
        rw [hd]
        simp only [Option.bind_eq_bind, Option.bind_some]
        rw [if_neg h, e1]; rfl
      · rw [e2]
        constructor
        · intro h1 a ha hb
          rcases Nat.eq_or_lt_of_le ha with rfl | ha
          · exact not_lt.1 h
          · exact h1 a ha hb
        · intro h1 a ha hb; exact h1 a (by omega) hb
      · intro hr
        rw [e3 hr]
        simp only [List.range_succ_eq_map, List.map_cons, List.map_map]
        congr 1
        · push_cast; ring
        · refine List.map_congr_left fun j _ => ?_
          show ((m + 1 + j : ℕ) : ℚ) * shift = ((m + (j + 1) : ℕ) : ℚ) * shift
          rw [show m + 1 + j = m + (j + 1) by omega]

/-! ### Wiggers -/

theorem lambdaProd_spec {c : KChannel} (h : 0 < c.inPhases.sum) : 0 < lambdaProd c ∧ lambdaProd c ≤ c.inPhases.sum := by
  have hp : ∀ (l : List Int) (x : Int), 0 < x → 0 < l.foldl (fun g y => (Int.gcd g y : Int)) x := by
    intro l
    induction l with
    | nil => intro x hx; exact hx
    | cons y l ih => intro x hx; exact ih _ (Int.natCast_pos.2 (Int.gcd_pos_of_ne_zero_left _ hx.ne'))
  exact ⟨hp _ _ h, Int.le_of_dvd h (foldl_gcd_spec c.outPhases c.inPhases.sum).1.1⟩

theorem wiggersBeta_total {c : KChannel} {src dst : KTask} (hc : ChannelOK c src dst) (alpha : ℚ) {lambda : Int} (h0 : 0 < lambda)
    (h1 : lambda ≤ c.inPhases.sum) : ∀ (n m : ℕ), m + n = src.durations.length → cum (rate c.inPhases) m < lambda →
    ∃ b, wiggersBeta c src (burst src) alpha lambda n (m + 1) (cum (rate c.inPhases) m) = some b := by
  intro n
  induction n with
  | zero =>
    intro m hm hlt
    rw [Nat.add_zero, hc.srcPhases] at hm
    rw [hm, cum_rate_len] at hlt
    omega
  | succ n ih =>
    intro m hm hlt
    have hm' : m < src.durations.length := by omega
    have hr : phaseRate c.inInit c.inPhases ((m + 1 : ℕ) : Int) = some (rate c.inPhases m) := by
      rw [hc.noInInit]; exact phaseRate_lt (by rw [← hc.srcPhases]; exact hm')
    have hcc : ∃ l, cCeil (cum (rate c.inPhases) m + rate c.inPhases m - rate c.inPhases m) lambda = some l := by
      unfold cCeil; rw [if_neg h0.ne']; exact ⟨_, rfl⟩
    obtain ⟨l, hl⟩ := hcc
    unfold wiggersBeta
    rw [hr]
    simp only [Option.bind_eq_bind, Option.bind_some]
    rw [hl]
    simp only [Option.bind_some]
    by_cases h : cum (rate c.inPhases) m + rate c.inPhases m ≥ lambda
    · rw [if_pos h]
      have : (burst src)[m + 1 - 1]? = some (workBefore src m) := by
        rw [Nat.add_sub_cancel, List.getElem?_eq_getElem (by unfold burst; simpa using hm')]
        simp [burst]
      rw [this, phaseDuration_lt hm']
      exact ⟨_, rfl⟩
    · rw [if_neg h, ← cum_succ]
      exact ih (m + 1) (by omega) (by rw [cum_succ]; omega)

theorem wiggersEdge_total {e : BChannel} (hc : ChannelOK e.1 e.2.1 e.2.2) (hs : TaskOK e.2.1 1) (hΩ : 0 < Ω) :
    ∃ w, wiggersEdge Ω e = some w ∧ w.ch = e.1 ∧ 0 < w.lambda ∧ 0 < w.alpha := by
  obtain ⟨l0, l1⟩ := lambdaProd_spec hc.inPos
  have hmu : (0 : ℚ) < Ω / e.2.1.ni * e.2.1.durations.length := by
    have : (0 : ℚ) < e.2.1.ni := by exact_mod_cast hs.ni
    have : (0 : ℚ) < e.2.1.durations.length := by exact_mod_cast hs.phases
    positivity
  have ha : (0 : ℚ) < e.1.inPhases.sum / (Ω / e.2.1.ni * e.2.1.durations.length) := by
    have : (0 : ℚ) < e.1.inPhases.sum := by exact_mod_cast hc.inPos
    positivity
  obtain ⟨b, hb⟩ := wiggersBeta_total hc (e.1.inPhases.sum / (Ω / e.2.1.ni * e.2.1.durations.length)) l0 l1 e.2.1.durations.length 0
    (by simp) (by rw [cum_zero]; exact l0)
  rw [cum_zero, zero_add] at hb
  refine ⟨⟨e.1, lambdaProd e.1, b, _⟩, ?_, rfl, l0, ha⟩
  unfold wiggersEdge
  dsimp only
  rw [if_neg hs.ni.ne', if_neg hmu.ne', burst_eq, ← hc.srcPhases]
  simp only [Option.bind_eq_bind, Option.bind_some]
  rw [hb]; rfl

/-- An output edge of a task, as the retiming sees it. -/
structure WEdgeOK (t : KTask) (w : WiggersEdge) : Prop where
  noInit : w.ch.inInit = []
  phases : t.durations.length = w.ch.inPhases.length
  lambda : 0 < w.lambda
  alpha : 0 < w.alpha

theorem producedBefore_total {w : WiggersEdge} (hw : WEdgeOK t w) : ∀ k ≤ t.durations.length, ∃ c, producedBefore w.ch k = some c := by
  intro k
  induction k with
  | zero => intro _; exact ⟨0, rfl⟩
  | succ k ih =>
    intro hk
    obtain ⟨c, hc⟩ := ih (by omega)
    have hr := phaseRate_lt (l := w.ch.inPhases) (a := k) (by rw [← hw.phases]; omega)
    unfold producedBefore
    rw [hc, hw.noInit]
    push_cast at hr
    simp only [Option.bind_eq_bind, Option.bind_some]
    rw [hr]; exact ⟨_, rfl⟩

theorem wiggersEnd_spec {k : ℕ} (hk : k ≤ t.durations.length) {s d : ℚ} : ∀ (l : List WiggersEdge), (∀ w ∈ l, WEdgeOK t w) → ∀ h, s + d ≤ h →
    ∃ h', wiggersEnd k s d l h = some h' ∧ s + d ≤ h' ∧ h' ≤ h := by
  intro l
  induction l with
  | nil => intro _ h hh; exact ⟨h, rfl, hh, le_rfl⟩
  | cons w l ih =>
    intro hl h hh
    have hw := hl w (by simp)
    obtain ⟨c, hc⟩ := producedBefore_total hw (k - 1) (by omega)
    unfold wiggersEnd
    rw [hc]
    simp only [Option.bind_eq_bind, Option.bind_some]
    have : ∃ m, cCeil (c + 1) w.lambda = some m := by unfold cCeil; rw [if_neg hw.lambda.ne']; exact ⟨_, rfl⟩
    obtain ⟨m, hm⟩ := this
    rw [hm]
    simp only [Option.bind_some]
    rw [if_neg hw.alpha.ne']
    generalize ((m : ℚ) - w.beta) / w.alpha = b
    obtain ⟨h', e1, e2, e3⟩ := ih (fun w hw => hl w (by simp [hw])) (if b - d < s then max (min h b) (s + d) else min h b) (by
      split
      · exact le_max_right _ _
      · rename_i hb; exact le_min hh (by linarith))
    refine ⟨h', e1, e2, e3.trans ?_⟩
    split
    · exact max_le (min_le_left _ _) hh
    · exact min_le_left _ _

theorem wiggersPhases_spec {edges : List WiggersEdge} (he : ∀ w ∈ edges, WEdgeOK t w) : ∀ (k : ℕ) (g : ℚ) (acc : List ℚ),
    k < t.durations.length → workBefore t k ≤ g →
    ∃ pre, wiggersPhases t (burst t) edges k g acc = some (pre ++ acc) ∧ pre.length = k ∧
      ∀ a < k, workBefore t a ≤ pre.getD a 0 ∧ pre.getD a 0 + t.dur a ≤ if a + 1 < k then pre.getD (a + 1) 0 else g := by
  intro k
  induction k with
  | zero => intro g acc _ _; exact ⟨[], rfl, rfl, fun a h => by omega⟩
  | succ k ih =>
    intro g acc hk hg
    rw [workBefore_succ] at hg
    have hs : (burst t)[k]? = some (workBefore t k) := by
      rw [List.getElem?_eq_getElem (by unfold burst; simp; omega)]; simp [burst]
    have hd := phaseDuration_lt (t := t) (a := k) (by omega)
    push_cast at hd
    obtain ⟨h', e1, e2, e3⟩ := wiggersEnd_spec (t := t) (k := k + 1) (by omega) (s := workBefore t k) (d := t.dur k) edges he g hg
    obtain ⟨pre, p1, p2, p3⟩ := ih (h' - t.dur k) ((h' - t.dur k) :: acc) (by omega) (by linarith)
    refine ⟨pre ++ [h' - t.dur k], ?_, by simp [p2], ?_⟩
    · unfold wiggersPhases
      rw [hd, hs]
      simp only [Option.bind_eq_bind, Option.bind_some]
      rw [if_neg (by linarith), e1]
      simp only [Option.bind_some]
      rw [p1]; simp
    · intro a ha
      rcases Nat.lt_succ_iff_lt_or_eq.1 ha with ha | rfl
      · have h1 := p3 a ha
        rw [List.getD_append _ _ _ _ (by omega), if_pos (by omega)]
        refine ⟨h1.1, ?_⟩
        by_cases h2 : a + 1 < k
        · rw [if_pos h2] at h1
          rw [List.getD_append _ _ _ _ (by omega)]; exact h1.2
        · rw [if_neg h2] at h1
          have : a + 1 = pre.length := by omega
          rw [List.getD_append_right _ _ _ _ (by omega), this, Nat.sub_self]
          exact h1.2
      · rw [List.getD_append_right _ _ _ _ (by omega), p2, Nat.sub_self, if_neg (by omega)]
        show workBefore t a ≤ h' - t.dur a ∧ h' - t.dur a + t.dur a ≤ g
        exact ⟨by linarith, by linarith⟩

/-- It fails when the phases do not fit. -/
theorem wiggersPhases_none {edges : List WiggersEdge} {k : ℕ} {g : ℚ} {acc : List ℚ} (hk : k + 1 < t.durations.length)
    (hg : g < workBefore t (k + 1)) : wiggersPhases t (burst t) edges (k + 1) g acc = none := by
  rw [workBefore_succ] at hg
  have hs : (burst t)[k]? = some (workBefore t k) := by
    rw [List.getElem?_eq_getElem (by unfold burst; simp; omega)]; simp [burst]
  have hd := phaseDuration_lt (t := t) (a := k) (by omega)
  push_cast at hd
  unfold wiggersPhases
  rw [hd, hs]
  simp only [Option.bind_eq_bind, Option.bind_some]
  rw [if_pos (by linarith)]

/-! ### Min-max -/

def MMHolds (v : MMVar → ℚ) (rs : List MMRow) : Prop := ∀ r ∈ rs, r.value v ≤ r.up

theorem mm_append {v : MMVar → ℚ} {a b : List MMRow} : MMHolds v (a ++ b) ↔ MMHolds v a ∧ MMHolds v b := by
  unfold MMHolds; simp only [List.mem_append, or_imp, forall_and]

theorem mm_cons {v : MMVar → ℚ} {r : MMRow} {b : List MMRow} : MMHolds v (r :: b) ↔ r.value v ≤ r.up ∧ MMHolds v b := by
  unfold MMHolds; simp only [List.mem_cons, or_imp, forall_and, forall_eq]

theorem minmaxChain_spec (t : KTask) : ∀ (n m : ℕ), m + 1 + n = t.durations.length →
    ∃ rs, minmaxChain t n (m + 2) = some rs ∧ ∀ v, MMHolds v rs ↔
      ∀ a, m ≤ a → a + 1 < t.durations.length → v (.ct (a + 1)) + t.dur a ≤ v (.ct (a + 2)) := by
  intro n
  induction n with
  | zero => intro m hm; exact ⟨[], rfl, fun v => ⟨fun _ a h1 h2 => by omega, fun _ r hr => by simp at hr⟩⟩
  | succ n ih =>
    intro m hm
    obtain ⟨rs, e1, e2⟩ := ih (m + 1) (by omega)
    have hd := phaseDuration_lt (t := t) (a := m) (by omega)
    refine ⟨⟨[(.ct (m + 2), -1), (.ct (m + 2 - 1), 1)], -t.dur m⟩ :: rs, ?_, fun v => ?_⟩
    · unfold minmaxChain
      have : ((m + 2 : ℕ) : Int) - 1 = ((m + 1 : ℕ) : Int) := by push_cast; ring
      rw [this, hd, show m + 2 + 1 = m + 1 + 2 by omega, e1]; rfl
    · rw [mm_cons, e2]
      have h0 : (MMRow.value ⟨[(.ct (m + 2), -1), (.ct (m + 2 - 1), 1)], -t.dur m⟩ v ≤ -t.dur m) ↔
          v (.ct (m + 1)) + t.dur m ≤ v (.ct (m + 2)) := by
        simp only [MMRow.value, List.map_cons, List.map_nil, List.sum_cons, List.sum_nil, show m + 2 - 1 = m + 1 by omega]
        constructor <;> intro h <;> linarith
      dsimp only
      rw [h0]
      constructor
      · rintro ⟨h1, h2⟩ a ha hb
        rcases Nat.eq_or_lt_of_le ha with rfl | ha
        · exact h1
        · exact h2 a ha hb
      · intro h; exact ⟨h m le_rfl (by omega), fun a ha hb => h a (by omega) hb⟩

/-- Rows that hold for any starts as soon as the `D` and `E` columns are large enough. -/
def Slack (rs : List MMRow) : Prop := ∀ x : ℕ → ℚ, ∃ M, ∀ v : MMVar → ℚ, (∀ k, v (.ct k) = x k) →
  (∀ i, M ≤ v (.delta i)) → (∀ i, M ≤ v (.epsilon i)) → MMHolds v rs

theorem slack_nil : Slack [] := fun _ => ⟨0, fun _ _ _ _ r hr => by simp at hr⟩

theorem slack_append {a b : List MMRow} (ha : Slack a) (hb : Slack b) : Slack (a ++ b) := by
  intro x
  obtain ⟨M, hM⟩ := ha x
  obtain ⟨N, hN⟩ := hb x
  exact ⟨max M N, fun v h1 h2 h3 => mm_append.2 ⟨hM v h1 (fun i => (le_max_left _ _).trans (h2 i)) fun i => (le_max_left _ _).trans (h3 i),
    hN v h1 (fun i => (le_max_right _ _).trans (h2 i)) fun i => (le_max_right _ _).trans (h3 i)⟩⟩

theorem slack_pair (edge k : ℕ) (ltk mutwa : ℚ) (a b : Int) : Slack (minmaxPair edge k ltk mutwa a b) := by
  intro x
  refine ⟨max (x k + ltk + mutwa * a) (-x k + mutwa * b), fun v h1 h2 h3 => ?_⟩
  unfold minmaxPair
  rw [mm_cons, mm_cons]
  have e1 := (le_max_left _ _).trans (h2 edge)
  have e2 := (le_max_right _ _).trans (h3 edge)
  refine ⟨?_, ?_, fun r hr => by simp at hr⟩
  · simp only [MMRow.value, List.map_cons, List.map_nil, List.sum_cons, List.sum_nil, h1]; linarith
  · simp only [MMRow.value, List.map_cons, List.map_nil, List.sum_cons, List.sum_nil, h1]; linarith

theorem cFloor_total {v c : Int} (h : 0 < c) : ∃ x, cFloor v c = some x := by unfold cFloor; rw [if_neg h.ne']; exact ⟨_, rfl⟩

theorem minmaxOut_spec {c : KChannel} (edge : ℕ) (mutwa : ℚ) {ga gb : Int} (hga : 0 < ga) (hi : c.inInit = [])
    (hp : t.durations.length = c.inPhases.length) : ∀ (n m : ℕ) (pred : Int), m + n = t.durations.length →
    ∃ rs, minmaxOut edge c t mutwa ga gb n (m + 1) pred = some rs ∧ Slack rs := by
  intro n
  induction n with
  | zero => intro m pred _; exact ⟨[], rfl, slack_nil⟩
  | succ n ih =>
    intro m pred hm
    have hr : phaseRate c.inInit c.inPhases ((m + 1 : ℕ) : Int) = some (rate c.inPhases m) := by
      rw [hi]; exact phaseRate_lt (by omega)
    obtain ⟨q1, hq1⟩ := cFloor_total (v := -pred - 1) hga
    obtain ⟨q2, hq2⟩ := cFloor_total (v := pred + rate c.inPhases m - 1) hga
    obtain ⟨rs, e1, e2⟩ := ih (m + 1) (pred + rate c.inPhases m) (by omega)
    unfold minmaxOut
    rw [hr, phaseDuration_lt (by omega : m < t.durations.length), hq1]
    simp only [Option.bind_eq_bind, Option.bind_some]
    rw [hq2, e1]
    exact ⟨_, rfl, slack_append (slack_pair _ _ _ _ _ _) e2⟩

theorem minmaxIn_spec {c : KChannel} (edge : ℕ) (mutwa : ℚ) {ga gb : Int} (hgb : 0 < gb) (hi : c.outInit = [])
    (hp : t.durations.length = c.outPhases.length) : ∀ (n m : ℕ) (pred : Int), m + n = t.durations.length →
    ∃ rs, minmaxIn edge c t mutwa ga gb n (m + 1) pred = some rs ∧ Slack rs := by
  intro n
  induction n with
  | zero => intro m pred _; exact ⟨[], rfl, slack_nil⟩
  | succ n ih =>
    intro m pred hm
    have hr : phaseRate c.outInit c.outPhases ((m + 1 : ℕ) : Int) = some (rate c.outPhases m) := by
      rw [hi]; exact phaseRate_lt (by omega)
    obtain ⟨q1, hq1⟩ := cFloor_total (v := -pred) hgb
    obtain ⟨q2, hq2⟩ := cFloor_total (v := pred + rate c.outPhases m) hgb
    obtain ⟨rs, e1, e2⟩ := ih (m + 1) (pred + rate c.outPhases m) (by omega)
    unfold minmaxIn
    rw [hr, phaseDuration_lt (by omega : m < t.durations.length), hq1]
    simp only [Option.bind_eq_bind, Option.bind_some]
    rw [hq2, e1]
    exact ⟨_, rfl, slack_append (slack_pair _ _ _ _ _ _) e2⟩

theorem minmaxEdges_spec (mu : ℚ) (out : Bool) : ∀ (l : List (BChannel × ℕ)),
    (∀ e ∈ l, ChannelOK e.1.1 e.1.2.1 e.1.2.2 ∧ (e.1.2.1.id = t.id → e.1.2.1 = t) ∧ (e.1.2.2.id = t.id → e.1.2.2 = t)) →
    ∃ rs, minmaxEdges t mu out l = some rs ∧ Slack rs := by
  intro l
  induction l with
  | nil => intro _; exact ⟨[], rfl, slack_nil⟩
  | cons e l ih =>
    intro h
    obtain ⟨e, i⟩ := e
    obtain ⟨hc, hs, ht⟩ := h (e, i) (by simp)
    dsimp only at hc hs ht
    obtain ⟨tail, e1, e2⟩ := ih fun x hx => h x (by simp [hx])
    cases out with
    | true =>
      by_cases hid : e.2.1.id = t.id
      · obtain ⟨rs, f1, f2⟩ := minmaxOut_spec (t := t) i (mu / (e.1.inPhases.sum : Int)) (ga := lambdaProd e.1) (gb := lambdaCons e.1)
          (lambdaProd_spec hc.inPos).1 hc.noInInit (by rw [← hs hid]; exact hc.srcPhases) t.durations.length 0 0 (by simp)
        refine ⟨rs ++ tail, ?_, slack_append f2 e2⟩
        unfold minmaxEdges
        rw [e1]
        simp only [Option.bind_eq_bind, Option.bind_some, if_true]
        rw [if_pos hid, if_neg hc.inPos.ne']
        rw [zero_add] at f1
        rw [f1]; rfl
      · refine ⟨tail, ?_, e2⟩
        unfold minmaxEdges
        rw [e1]
        simp only [Option.bind_eq_bind, Option.bind_some, if_true]
        rw [if_neg hid]; rfl
    | false =>
      by_cases hid : e.2.2.id = t.id
      · obtain ⟨rs, f1, f2⟩ := minmaxIn_spec (t := t) i (mu / (e.1.outPhases.sum : Int)) (ga := lambdaCons e.1) (gb := lambdaProd e.1)
          (lambdaProd_spec hc.inPos).1 hc.noOutInit (by rw [← ht hid]; exact hc.dstPhases) t.durations.length 0 0 (by simp)
        refine ⟨rs ++ tail, ?_, slack_append f2 e2⟩
        unfold minmaxEdges
        rw [e1]
        simp only [Option.bind_eq_bind, Option.bind_some, if_false, Bool.false_eq_true]
        rw [if_pos hid, if_neg hc.outPos.ne']
        rw [zero_add] at f1
        rw [f1]; rfl
      · refine ⟨tail, ?_, e2⟩
        unfold minmaxEdges
        rw [e1]
        simp only [Option.bind_eq_bind, Option.bind_some, if_false, Bool.false_eq_true]
        rw [if_neg hid]; rfl

/-- The rows of the min-max program: they are defined, a solution gives offsets without overlap, and there is a solution when
the phases fit in the period of the task. -/
theorem minmaxRows_spec {B : BaseGraph} (hB : BaseOK B) (ht : t ∈ B.tasks) :
    ∃ rows, minmaxRows B Ω t = some rows ∧
      (∀ v, MMFeasible rows v → (∀ a, a + 1 < t.durations.length → v (.ct (a + 1)) + t.dur a ≤ v (.ct (a + 2))) ∧
        v (.ct t.durations.length) + t.dur (t.durations.length - 1) ≤ taskPeriod Ω t) ∧
      (workBefore t t.durations.length ≤ taskPeriod Ω t → ∃ v, MMFeasible rows v) := by
  have hok := hB.tasks t ht
  obtain ⟨c, c1, c2⟩ := minmaxChain_spec t (t.durations.length - 1) 0 (by have := hok.phases; omega)
  have hedge : ∀ e ∈ B.channels.zipIdx, ChannelOK e.1.1 e.1.2.1 e.1.2.2 ∧ (e.1.2.1.id = t.id → e.1.2.1 = t) ∧ (e.1.2.2.id = t.id → e.1.2.2 = t) := by
    intro e he
    have hm : e.1 ∈ B.channels := by
      obtain ⟨h1, h2⟩ := List.mem_zipIdx' (x := e.1) (i := e.2) he
      rw [h2]; exact List.getElem_mem h1
    obtain ⟨hs, ht', hc⟩ := hB.channels _ hm
    exact ⟨hc, hB.ids _ hs _ ht, hB.ids _ ht' _ ht⟩
  obtain ⟨o, o1, o2⟩ := minmaxEdges_spec (t := t) (taskPeriod Ω t) true _ hedge
  obtain ⟨i, i1, i2⟩ := minmaxEdges_spec (t := t) (taskPeriod Ω t) false _ hedge
  have hd : phaseDuration t (t.durations.length : Int) = some (t.dur (t.durations.length - 1)) := by
    have := phaseDuration_lt (t := t) (a := t.durations.length - 1) (by have := hok.phases; omega)
    rwa [Nat.sub_add_cancel hok.phases] at this
  refine ⟨c ++ ⟨[(.ct t.durations.length, 1)], taskPeriod Ω t - t.dur (t.durations.length - 1)⟩ :: (o ++ i), ?_, ?_, ?_⟩
  · unfold minmaxRows
    dsimp only
    rw [if_neg hok.ni.ne', hd, show (2 : ℕ) = 0 + 2 from rfl, c1, o1, i1]; rfl
  · rintro v ⟨h, -⟩
    obtain ⟨h1, h2⟩ := mm_append.1 h
    obtain ⟨h2, -⟩ := mm_cons.1 h2
    refine ⟨fun a ha => (c2 v).1 h1 a (by omega) ha, ?_⟩
    simp only [MMRow.value, List.map_cons, List.map_nil, List.sum_cons, List.sum_nil] at h2
    linarith
  · intro hfit
    obtain ⟨M, hM⟩ := slack_append o2 i2 fun k => workBefore t (k - 1)
    refine ⟨fun x => match x with | .ct k => workBefore t (k - 1) | .delta _ => M | .epsilon _ => M, ?_, rfl⟩
    refine mm_append.2 ⟨(c2 _).2 fun a _ _ => ?_, mm_cons.2 ⟨?_, hM _ (fun _ => rfl) (fun _ => le_rfl) fun _ => le_rfl⟩⟩
    · show workBefore t (a + 1 - 1) + t.dur a ≤ workBefore t (a + 2 - 1)
      rw [Nat.add_sub_cancel, show a + 2 - 1 = a + 1 by omega, workBefore_succ]
    · simp only [MMRow.value, List.map_cons, List.map_nil, List.sum_cons, List.sum_nil]
      have := workBefore_succ t (t.durations.length - 1)
      rw [Nat.sub_add_cancel hok.phases] at this
      linarith

end Kiter
