/-
C123: the check of a schedule. Right for the schedules of a restricted form; wrong answers and undefined behaviour outside of it.
-/
import Verif.Lemmas.ScheduleCheck
import Verif.Props.Chart
import Mathlib.Algebra.Order.Archimedean.Basic
import Mathlib.Data.Fin.VecNotation
import Mathlib.Tactic.FinCases
import Mathlib.Tactic.IntervalCases

set_option autoImplicit false

namespace Kiter.Check
open Kiter.Sim

/-! ### The dates -/

section
variable {f : ℕ → ℚ} {p : ℚ} {w : ℕ}

theorem pop_range (hw : 0 < w) {i : ℕ} (hf : f (i + w) = f i + p) :
    pop p ((List.range' i w).map f) = some (f i, (List.range' (i + 1) w).map f) := by
  obtain ⟨v, rfl⟩ : ∃ v, w = v + 1 := ⟨w - 1, by omega⟩
  rw [List.range'_succ, List.map_cons]
  show some (f i, (List.range' (i + 1) v).map f ++ [f i + p]) = _
  rw [← hf, List.range'_concat, List.map_append]
  simp [Nat.add_comm, Nat.add_left_comm]

theorem dates_range (hw : 0 < w) : ∀ (n : ℕ) {i : ℕ}, (∀ k, i ≤ k → f (k + w) = f k + p) →
    dates p n ((List.range' i w).map f) = some ((List.range' i n).map f, (List.range' (i + n) w).map f)
  | 0, i, _ => by simp [dates]
  | n + 1, i, hf => by
    unfold dates
    rw [pop_range hw (hf i le_rfl)]
    have ih := dates_range hw n (i := i + 1) (fun k hk => hf k (by omega))
    simp only [Option.bind_eq_bind, Option.bind_some]
    rw [ih]
    simp [List.range'_succ, Nat.add_comm, Nat.add_left_comm]

theorem fillUp_range (hw : 0 < w) {top : ℚ} : ∀ (n : ℕ) {i : ℕ} {r : List ℚ}, (∀ k, i ≤ k → f (k + 1 + w) = f (k + 1) + p) →
    fillUp p top n (f i) ((List.range' (i + 1) w).map f) = some r →
    r = (List.range' (i + 1) r.length).map f ∧ top ≤ f (i + r.length)
  | 0, i, r, _, hr => by simp [fillUp] at hr
  | n + 1, i, r, hf, hr => by
    unfold fillUp at hr
    split at hr
    · rw [pop_range hw (by rw [hf i le_rfl])] at hr
      simp only [Option.bind_eq_bind, Option.bind_some] at hr
      obtain ⟨r', h1, h2⟩ := Option.bind_eq_some_iff.1 hr
      simp only [Option.some.injEq] at h2
      obtain ⟨h3, h4⟩ := fillUp_range hw n (fun k hk => hf k (by omega)) h1
      subst h2
      refine ⟨?_, ?_⟩
      · rw [List.length_cons, List.range'_succ, List.map_cons, ← h3]
      · rw [List.length_cons, show i + (r'.length + 1) = i + 1 + r'.length by omega]; exact h4
    · simp only [Option.some.injEq] at hr
      subst hr
      rename_i hlt
      exact ⟨by simp, by simpa using hlt⟩

theorem fillUp_total (hw : 0 < w) {top : ℚ} {M : ℕ} (hM : ∀ k, M ≤ k → top ≤ f k) : ∀ (n : ℕ) {i : ℕ}, M - i < n →
    (∀ k, i ≤ k → f (k + 1 + w) = f (k + 1) + p) →
    ∃ r, fillUp p top n (f i) ((List.range' (i + 1) w).map f) = some r ∧ r.length ≤ M - i
  | 0, i, hn, _ => by omega
  | n + 1, i, hn, hf => by
    unfold fillUp
    split
    · rename_i hlt
      have hi : i < M := by
        by_contra hcon
        have := hM i (by omega)
        linarith
      obtain ⟨r, h1, h2⟩ := fillUp_total hw hM n (i := i + 1) (by omega) (fun k hk => hf k (by omega))
      rw [pop_range hw (hf i le_rfl)]
      simp only [Option.bind_eq_bind, Option.bind_some]
      rw [h1]
      exact ⟨_, rfl, by rw [List.length_cons]; omega⟩
    · exact ⟨[], rfl, by simp⟩

end

variable {nV nE : Nat} {g : Graph nV nE} {en : Fin nV → Chart.Entry}

/-- The executions to be seen: the initial ones and one iteration. -/
def goalOf (g : Graph nV nE) (en : Fin nV → Chart.Entry) (a : Fin nV) : ℕ := (en a).init.length + (g.ni a).toNat

theorem base_eq (hN : ∀ a, 0 ≤ g.ni a) (hs : ∀ a, (en a).starts ≠ []) (a : Fin nV) :
    base g (fun a => some (en a)) a = some ((List.range (goalOf g en a + 1)).map (en a).start,
      (List.range' (goalOf g en a + 1) (en a).starts.length).map (en a).start) := by
  have hw : 0 < (en a).starts.length := List.length_pos_iff.2 (hs a)
  unfold base
  simp only [Option.bind_eq_bind, Option.bind_some]
  have hd := dates_range (f := (en a).start) (p := (en a).period) hw (g.ni a + 1).toNat (i := (en a).init.length)
    (fun k hk => Chart.entry_period (en a) (hs a) hk)
  rw [← Chart.entry_starts] at hd
  rw [hd]
  simp only [Option.bind_some]
  have hcat : (en a).init ++ (List.range' (en a).init.length (g.ni a + 1).toNat).map (en a).start =
      (List.range (goalOf g en a + 1)).map (en a).start := by
    conv_lhs => rw [Chart.entry_init (en a)]
    rw [← List.map_append, List.range_eq_range']
    congr 1
    have : (g.ni a + 1).toNat = (g.ni a).toNat + 1 := by have := hN a; omega
    rw [this]
    unfold goalOf
    simp only [List.length_map, List.length_range']
    have := List.range'_append (s := 0) (m := (en a).init.length) (n := (g.ni a).toNat + 1) (step := 1)
    simp only [Nat.one_mul, Nat.zero_add] at this
    rw [this]
    rfl
  rw [hcat, if_neg (by simp)]
  have : (g.ni a + 1).toNat = (g.ni a).toNat + 1 := by have := hN a; omega
  rw [this]
  rfl

theorem maxTime_le (L : Fin nV → List ℚ) (a : Fin nV) : (L a).getLastD 0 ≤ maxTime L := by
  unfold maxTime
  have key : ∀ (l : List (Fin nV)) (m : ℚ), let r := l.foldl (fun m a => if m < (L a).getLastD 0 then (L a).getLastD 0 else m) m
      m ≤ r ∧ ∀ a ∈ l, (L a).getLastD 0 ≤ r := by
    intro l
    induction l with
    | nil => intro m; simp
    | cons b l ih =>
      intro m
      obtain ⟨h1, h2⟩ := ih (if m < (L b).getLastD 0 then (L b).getLastD 0 else m)
      simp only [List.foldl_cons] at h1 h2 ⊢
      have h3 : m ≤ (if m < (L b).getLastD 0 then (L b).getLastD 0 else m) ∧ (L b).getLastD 0 ≤ (if m < (L b).getLastD 0 then (L b).getLastD 0 else m) := by
        split
        · rename_i h; exact ⟨h.le, le_rfl⟩
        · rename_i h; exact ⟨le_rfl, not_lt.1 h⟩
      refine ⟨h3.1.trans h1, fun c hc => ?_⟩
      rcases List.mem_cons.1 hc with rfl | hc
      · exact h3.2.trans h1
      · exact h2 c hc
  exact (key _ 0).2 a (List.mem_finRange a)

/-- `max_time` for the entries. -/
def topOf (g : Graph nV nE) (en : Fin nV → Chart.Entry) : ℚ := maxTime fun a => (List.range (goalOf g en a + 1)).map (en a).start

theorem top_ge (a : Fin nV) : (en a).start (goalOf g en a) ≤ topOf g en := by
  have := maxTime_le (fun a => (List.range (goalOf g en a + 1)).map (en a).start) a
  rw [List.range_succ, List.map_append] at this
  simpa [topOf] using this

theorem lists_eq (hN : ∀ a, 0 ≤ g.ni a) (hs : ∀ a, (en a).starts ≠ []) (n : ℕ) (a : Fin nV) :
    lists g (fun a => some (en a)) n a = (fillUp (en a).period (topOf g en) n ((en a).start (goalOf g en a))
      ((List.range' (goalOf g en a + 1) (en a).starts.length).map (en a).start)).map
        fun more => (List.range (goalOf g en a + 1)).map (en a).start ++ more := by
  unfold lists
  rw [if_pos (fun b => by rw [base_eq hN hs]; rfl)]
  have htop : (maxTime fun b => ((base g (fun a => some (en a)) b).getD ([], [])).1) = topOf g en := by
    unfold topOf
    congr 1
    funext b
    rw [base_eq hN hs]
    rfl
  rw [htop, base_eq hN hs]
  simp only [Option.bind_eq_bind, Option.bind_some]
  have hl : ((List.range (goalOf g en a + 1)).map (en a).start).getLastD 0 = (en a).start (goalOf g en a) := by
    rw [List.range_succ, List.map_append]; simp
  rw [hl]
  cases fillUp (en a).period (topOf g en) n ((en a).start (goalOf g en a)) ((List.range' (goalOf g en a + 1) (en a).starts.length).map (en a).start) <;> rfl

theorem start_period (hs : ∀ a, (en a).starts ≠ []) (a : Fin nV) (k : ℕ) (hk : goalOf g en a ≤ k) :
    (en a).start (k + 1 + (en a).starts.length) = (en a).start (k + 1) + (en a).period :=
  Chart.entry_period (en a) (hs a) (by unfold goalOf at hk; omega)

/-- The dates of a task are its first starts, up to one that is not before `max_time`. -/
theorem lists_range (hN : ∀ a, 0 ≤ g.ni a) (hs : ∀ a, (en a).starts ≠ []) {n : ℕ} {a : Fin nV} {l : List ℚ}
    (hl : lists g (fun a => some (en a)) n a = some l) :
    l = (List.range l.length).map (en a).start ∧ goalOf g en a < l.length ∧ topOf g en ≤ (en a).start (l.length - 1) := by
  rw [lists_eq hN hs, Option.map_eq_some_iff] at hl
  obtain ⟨r, h1, h2⟩ := hl
  obtain ⟨h3, h4⟩ := fillUp_range (List.length_pos_iff.2 (hs a)) n (start_period hs a) h1
  have hlen : l.length = goalOf g en a + 1 + r.length := by rw [← h2]; simp
  refine ⟨?_, by omega, ?_⟩
  · rw [hlen, ← h2]
    conv_lhs => rw [h3]
    rw [← List.map_append, List.range_eq_range', List.range_eq_range']
    congr 1
    have := List.range'_append (s := 0) (m := goalOf g en a + 1) (n := r.length) (step := 1)
    simp only [Nat.one_mul, Nat.zero_add] at this
    exact this
  · rw [hlen, show goalOf g en a + 1 + r.length - 1 = goalOf g en a + r.length by omega]
    exact h4

theorem Plain.unbounded {σ : Fin nV → ℕ → ℚ} (h : Sim.OK g) (H : Plain g σ) (a : Fin nV) (t : ℚ) : ∃ M, ∀ k, M ≤ k → t ≤ σ a k := by
  have hd := (H.dur h a).2.1
  have key : ∀ k : ℕ, (k : ℚ) * g.execDur a 0 ≤ σ a k := by
    intro k
    induction k with
    | zero => simpa using H.nonneg h a 0
    | succ k ih =>
      have := H.lt h a (Nat.lt_succ_self k)
      push_cast
      simp only [Nat.succ_eq_add_one] at this
      linarith
  obtain ⟨M, hM⟩ := exists_nat_ge (t / g.execDur a 0)
  refine ⟨M, fun k hk => ?_⟩
  have h1 : t ≤ M * g.execDur a 0 := (div_le_iff₀ hd).1 hM
  exact (h1.trans (key M)).trans (H.mono h a hk)

theorem lists_total (h : Sim.OK g) (hN : ∀ a, 0 ≤ g.ni a) (hs : ∀ a, (en a).starts ≠ []) (H : Plain g fun a => (en a).start) (a : Fin nV) :
    ∃ M, ∀ n, M ≤ n → ∃ l, lists g (fun a => some (en a)) n a = some l ∧ l.length ≤ M := by
  obtain ⟨M, hM⟩ := H.unbounded h a (topOf g en)
  refine ⟨M + goalOf g en a + 1, fun n hn => ?_⟩
  obtain ⟨r, h1, h2⟩ := fillUp_total (List.length_pos_iff.2 (hs a)) hM n (i := goalOf g en a) (by omega) (start_period hs a)
  rw [lists_eq hN hs, h1]
  refine ⟨_, rfl, ?_⟩
  simp only [List.length_append, List.length_map, List.length_range]
  omega

theorem first_eq {L : Fin nV → List ℚ} {b : Fin nV} (hb : (L b).headD 1 = 0) (ho : ∀ a, a ≠ b → (L a).headD 1 ≠ 0) : first L = some b := by
  have key : ∀ (l : List (Fin nV)) (r : Option (Fin nV)), l.foldl (fun r a => if (L a).headD 1 = 0 then some a else r) r = if b ∈ l then some b else r := by
    intro l
    induction l with
    | nil => intro r; simp
    | cons a l ih =>
      intro r
      rw [List.foldl_cons, ih]
      by_cases hab : a = b
      · subst hab; rw [if_pos hb]; simp
      · rw [if_neg (ho a hab)]
        simp [Ne.symm hab]
  unfold first
  rw [key, if_pos (List.mem_finRange b)]

/-- The state before the loop. -/
theorem inv_start (h : Sim.OK g) (hN : ∀ a, 0 ≤ g.ni a) (H : Plain g fun a => (en a).start) {len : Fin nV → ℕ} (hlen : ∀ a, goalOf g en a < len a) :
    ∃ b, first (fun a => (List.range (len a)).map (en a).start) = some b ∧
      Inv g (fun a => (en a).start) len (goalOf g en)
        ⟨fun _ => 0, fun a => (List.range (len a)).map (en a).start, fun a => ((en a).init.length : Int) + g.ni a, g.preload, fun _ => 0, (b, 0)⟩
        (fun _ => 0) (fun _ => 0) := by
  obtain ⟨b, hb, ho⟩ := H.zero
  have hhead : ∀ a, ((List.range (len a)).map (en a).start).headD 1 = (en a).start 0 := by
    intro a
    obtain ⟨v, hv⟩ : ∃ v, len a = v + 1 := ⟨len a - 1, by have := hlen a; omega⟩
    rw [hv, List.range_succ_eq_map]
    rfl
  refine ⟨b, first_eq (by rw [hhead]; exact hb) (fun a ha => by rw [hhead]; exact (ho a ha).ne'), ?_⟩
  constructor
  · intro a; rfl
  · intro a; rfl
  · intro a; unfold goalOf; have := hN a; simp only; omega
  · intro e; simp [Sim.cum]
  · intro a; rfl
  · exact lt_of_le_of_lt (Nat.zero_le _) (hlen b)
  · exact hb.symm
  · intro a k hk
    simp only [Nat.not_lt_zero, false_iff, not_or, not_lt, not_and]
    refine ⟨H.nonneg h a k, fun hz => ?_⟩
    by_contra hcon
    rw [not_le] at hcon
    have h1 := ho a hcon.ne'
    have h2 := H.mono h a (Nat.zero_le k)
    have h3 : (en a).start k = 0 := hz
    linarith
  · intro a; exact Nat.zero_le _
  · intro a k hk; exact absurd hk (Nat.not_lt_zero k)
  · intro a _ b' k hk; exact absurd hk (Nat.not_lt_zero k)
  · intro a; exact Nat.zero_le _
  · intro e k hk; exact absurd hk (Nat.not_lt_zero k)

/-- The check, once the dates are known. -/
theorem check_eq (hv : nV ≤ nE) (reent : Fin nV → Int) {n : ℕ} {len : Fin nV → ℕ}
    (hl : ∀ a, lists g (fun a => some (en a)) n a = some ((List.range (len a)).map (en a).start)) :
    check g reent (fun a => some (en a)) n = (first fun a => (List.range (len a)).map (en a).start).bind fun b =>
      loop g reent n ⟨fun _ => 0, fun a => (List.range (len a)).map (en a).start, fun a => ((en a).init.length : Int) + g.ni a, g.preload, fun _ => 0, (b, 0)⟩ := by
  unfold check
  rw [if_neg (by omega), if_pos (fun a => by rw [hl]; rfl)]
  simp only [hl, Option.getD_some, Option.map_some]

theorem rate_nonneg {l : List Int} (hl : ∀ r ∈ l, 0 ≤ r) (k : ℕ) : 0 ≤ rate l k := by
  unfold rate
  rw [List.getD_eq_getElem?_getD]
  cases hk : l[k % l.length]? with
  | none => simp
  | some r => simpa using hl r (List.mem_of_getElem? hk)

/-- A valid schedule gives every execution its tokens, and conversely. -/
theorem valid_iff_fed {σ : Fin nV → ℕ → ℚ} (h : Sim.OK g) (H : Plain g σ) : Valid g none σ ↔ ∀ e k, Fed g σ e k := by
  constructor
  · intro hv e k
    obtain ⟨P, hP, hsum⟩ := hv.tokens e (σ (g.tgt e) k) (Finset.range (k + 1)) (fun l hl => H.mono h _ (by simp at hl; omega))
    rcases P.eq_empty_or_nonempty with rfl | hne
    · exact ⟨0, fun j hj => absurd hj (Nat.not_lt_zero j), by simpa [Sim.cum] using hsum⟩
    · refine ⟨P.max' hne + 1, fun j hj => ?_, hsum.trans ?_⟩
      · have h1 := hP _ (P.max'_mem hne)
        have h2 := H.mono h (g.src e) (show j ≤ P.max' hne by omega)
        dsimp only at h1
        rw [(H.dur h _).2.2] at h1 ⊢
        linarith
      · have : ∑ i ∈ P, rate (g.prod e) i ≤ Sim.cum (g.prod e) (P.max' hne + 1) := by
          unfold Sim.cum
          refine Finset.sum_le_sum_of_subset_of_nonneg (fun i hi => ?_) (fun i _ _ => rate_nonneg (h.prodNonneg e) i)
          have := P.le_max' i hi
          simp only [Finset.mem_range]; omega
        omega
  · intro hf
    refine ⟨H.nonneg h, H.seq, fun e x C hC => ?_, fun w hw => by simp at hw⟩
    rcases C.eq_empty_or_nonempty with rfl | hne
    · exact ⟨∅, by simp, by simpa using h.preload e⟩
    · obtain ⟨c, h1, h2⟩ := hf e (C.max' hne)
      refine ⟨Finset.range c, fun j hj => (h1 j (by simpa using hj)).trans (hC _ (C.max'_mem hne)), ?_⟩
      have : ∑ i ∈ C, rate (g.cons e) i ≤ Sim.cum (g.cons e) (C.max' hne + 1) := by
        unfold Sim.cum
        refine Finset.sum_le_sum_of_subset_of_nonneg (fun i hi => ?_) (fun i _ _ => rate_nonneg (h.consNonneg e) i)
        have := C.le_max' i hi
        simp only [Finset.mem_range]; omega
      exact this.trans h2

/-- What an accepted schedule satisfies. -/
theorem check_sound (h : Sim.OK g) (hN : ∀ a, 0 ≤ g.ni a) (hs : ∀ a, (en a).starts ≠ []) (H : Plain g fun a => (en a).start)
    {reent : Fin nV → Int} {n : ℕ} (hc : check g reent (fun a => some (en a)) n = some true) :
    ∃ T, (∀ a, ∀ k < goalOf g en a, (en a).start k + g.execDur a k ≤ T) ∧
      ∀ e k, (en (g.tgt e)).start k < T → (en (g.tgt e)).start k ≤ topOf g en → Fed g (fun a => (en a).start) e k := by
  have hv : nV ≤ nE := by
    by_contra hcon
    unfold check at hc
    rw [if_pos (by omega)] at hc
    simp at hc
  have hl : ∀ a, ∃ l, lists g (fun a => some (en a)) n a = some l := by
    unfold check at hc
    rw [if_neg (by omega)] at hc
    split at hc
    · rename_i hall
      exact fun a => Option.isSome_iff_exists.1 (hall a)
    · simp at hc
  choose l hl using hl
  have hr := fun a => lists_range hN hs (hl a)
  have hlen : ∀ a, goalOf g en a < (l a).length := fun a => (hr a).2.1
  rw [check_eq hv reent (len := fun a => (l a).length) (fun a => by rw [hl]; exact congrArg some (hr a).1)] at hc
  obtain ⟨b, hb, I⟩ := inv_start h hN H hlen
  rw [hb] at hc
  obtain ⟨T, h1, h2⟩ := I.sound h H reent n hc
  refine ⟨T, h1, fun e k hk htop => ?_⟩
  by_cases hkl : k < (l (g.tgt e)).length
  · exact h2 e k hkl hk
  · exfalso
    have hpos := hlen (g.tgt e)
    have h3 := H.lt h (g.tgt e) (show (l (g.tgt e)).length - 1 < k by omega)
    have h4 := (hr (g.tgt e)).2.2
    have h5 := (H.dur h (g.tgt e)).2.1
    linarith

/-- The check returns. -/
theorem check_total (h : Sim.OK g) (hN : ∀ a, 0 ≤ g.ni a) (hs : ∀ a, (en a).starts ≠ []) (H : Plain g fun a => (en a).start)
    {reent : Fin nV → Int} (hr : ∀ a, reent a ≠ 0) (hv : nV ≤ nE) (hab : ∃ a b, ∀ i j, (en a).start i ≠ (en b).start j) :
    ∃ n₀, ∀ n ≥ n₀, ∃ r, check g reent (fun a => some (en a)) n = some r ∧ ((∀ e k, Fed g (fun a => (en a).start) e k) → r = true) := by
  choose M hM using lists_total h hN hs H
  refine ⟨(∑ a, M a) + 1, fun n hn => ?_⟩
  have hMn : ∀ a, M a ≤ n := fun a => by
    have := Finset.single_le_sum (f := M) (fun i _ => Nat.zero_le _) (Finset.mem_univ a)
    omega
  choose l hl hlM using fun a => hM a n (hMn a)
  have hrange := fun a => lists_range hN hs (hl a)
  have hlen : ∀ a, goalOf g en a < (l a).length := fun a => (hrange a).2.1
  rw [check_eq hv reent (len := fun a => (l a).length) (fun a => by rw [hl]; exact congrArg some (hrange a).1)]
  obtain ⟨b, hb, I⟩ := inv_start h hN H hlen
  rw [hb]
  have hh : Horizon (fun a => (en a).start) (fun a => (l a).length) (goalOf g en) (topOf g en) := by
    refine ⟨hlen, top_ge, fun a => (hrange a).2.2, ?_⟩
    by_contra hcon
    push Not at hcon
    obtain ⟨a, b, hne⟩ := hab
    refine hne ((l a).length - 1) ((l b).length - 1) ?_
    have h1 := hcon a
    have h2 := hcon b
    have h3 := (hrange a).2.2
    have h4 := (hrange b).2.2
    linarith
  refine I.complete h H hr hh n (fun _ => ?_) ?_
  · exact (H.nonneg h b (goalOf g en b)).trans (top_ge b)
  · have := Finset.sum_le_sum fun a (_ : a ∈ Finset.univ) => hlM a
    simp only [Finset.sum_const_zero]
    omega

/-- Executions that have their tokens up to the date at which the check stops have them for ever, when a period is an iteration. -/
theorem fed_forever {σ : Fin nV → ℕ → ℚ} (h : Sim.OK g) (H : Plain g σ) {I N : Fin nV → ℕ} {Ω T : ℚ} (hN : ∀ a, 0 < N a)
    (hper : ∀ a k, I a ≤ k → σ a (k + N a) = σ a k + Ω)
    (hbal : ∀ e, Sim.cum (g.prod e) (N (g.src e)) = Sim.cum (g.cons e) (N (g.tgt e)))
    (hend : ∀ a, ∀ k < I a + N a, σ a k + g.execDur a k ≤ T) (hfed : ∀ e k, σ (g.tgt e) k < T → Fed g σ e k) : ∀ e k, Fed g σ e k := by
  intro e k
  induction k using Nat.strong_induction_on with
  | _ k ih =>
    by_cases hT : σ (g.tgt e) k < T
    · exact hfed e k hT
    rw [not_lt] at hT
    have hd := fun a => H.dur h a
    have hkl : I (g.tgt e) + N (g.tgt e) ≤ k := by
      by_contra hcon
      have h1 := hend (g.tgt e) k (by omega)
      rw [(hd _).2.2] at h1
      have := (hd (g.tgt e)).2.1
      linarith
    obtain ⟨k, rfl⟩ : ∃ m, k = m + N (g.tgt e) := ⟨k - N (g.tgt e), by omega⟩
    have hNt := hN (g.tgt e)
    obtain ⟨c, h1, h2⟩ := ih k (by omega)
    have hcum : ∀ (l : List Int), l.length = 1 → ∀ i j : ℕ, Sim.cum l (i + j) = Sim.cum l i + Sim.cum l j := by
      intro l hl i j
      unfold Sim.cum
      rw [Finset.sum_range_add]
      congr 1
      exact Finset.sum_congr rfl fun x _ => by rw [rate_one hl, rate_one hl]
    have lp := (h.prodLen e).trans (H.one _)
    have lc := (h.consLen e).trans (H.one _)
    refine ⟨c + N (g.src e), fun j hj => ?_, ?_⟩
    · by_cases hj' : j < I (g.src e) + N (g.src e)
      · exact (hend _ j hj').trans hT
      · obtain ⟨j, rfl⟩ : ∃ m, j = m + N (g.src e) := ⟨j - N (g.src e), by omega⟩
        have h3 := h1 j (by omega)
        rw [(hd _).2.2] at h3 ⊢
        rw [hper _ j (by omega), hper _ k (by omega)]
        linarith
    · rw [show k + N (g.tgt e) + 1 = (k + 1) + N (g.tgt e) by omega, hcum _ lc, hcum _ lp, hbal]
      omega

/-- **C123, part.** Every graph and schedule with one phase per task, executions that last and do not overlap, and exactly one task that starts at date 0: when the check accepts
the schedule, every execution of the initial part and of the first iteration of every task finds its tokens on every channel. -/
theorem _root_.Kiter.C123_accepted_partial (h : Sim.OK g) (hN : ∀ a, 0 ≤ g.ni a) (hs : ∀ a, (en a).starts ≠ []) (H : Plain g fun a => (en a).start)
    {reent : Fin nV → Int} {n : ℕ} (hc : check g reent (fun a => some (en a)) n = some true) (e : Fin nE) (k : ℕ)
    (hk : k < (en (g.tgt e)).init.length + (g.ni (g.tgt e)).toNat) : Fed g (fun a => (en a).start) e k := by
  obtain ⟨T, h1, h2⟩ := check_sound h hN hs H hc
  have h3 := h1 (g.tgt e) k hk
  have h4 := (H.dur h (g.tgt e)).2.1
  rw [(H.dur h _).2.2] at h3
  exact h2 e k (by linarith) ((H.mono h _ hk.le).trans (top_ge _))

/-- **C123, part.** With as many channels as tasks, no reentrancy factor 0 and two tasks that never start together, a schedule whose period is one iteration: the check
returns, and it accepts exactly the valid schedules. -/
theorem _root_.Kiter.C123_exact_partial (h : Sim.OK g) (hN : ∀ a, 0 < g.ni a) (hs : ∀ a, (en a).starts ≠ []) (H : Plain g fun a => (en a).start)
    {reent : Fin nV → Int} (hr : ∀ a, reent a ≠ 0) (hv : nV ≤ nE) (hab : ∃ a b, ∀ i j, (en a).start i ≠ (en b).start j)
    {Ω : ℚ} (hper : ∀ a k, (en a).init.length ≤ k → (en a).start (k + (g.ni a).toNat) = (en a).start k + Ω)
    (hbal : ∀ e, (g.prod e).sum * g.ni (g.src e) = (g.cons e).sum * g.ni (g.tgt e)) :
    ∃ n₀, ∀ n ≥ n₀, ∃ r, check g reent (fun a => some (en a)) n = some r ∧ (r = true ↔ Valid g none fun a => (en a).start) := by
  have hN0 : ∀ a, 0 ≤ g.ni a := fun a => (hN a).le
  obtain ⟨n₀, hn⟩ := check_total h hN0 hs H hr hv hab
  refine ⟨n₀, fun n hge => ?_⟩
  obtain ⟨r, h1, h2⟩ := hn n hge
  refine ⟨r, h1, fun hr => ?_, fun hval => h2 ((valid_iff_fed h H).1 hval)⟩
  subst hr
  obtain ⟨T, h3, h4⟩ := check_sound h hN0 hs H h1
  rw [valid_iff_fed h H]
  have hone : ∀ (l : List Int), l.length = 1 → ∀ m : ℕ, Sim.cum l m = l.sum * m := by
    intro l hl m
    obtain ⟨d, rfl⟩ := List.length_eq_one_iff.1 hl
    unfold Sim.cum
    simp [rate, Nat.mod_one, mul_comm]
  -- the date at which the check stops, cut at the dates that it knows
  refine fed_forever h H (I := fun a => (en a).init.length) (N := fun a => (g.ni a).toNat) (Ω := Ω) (T := min T (topOf g en))
    (fun a => by have := hN a; omega) hper (fun e => ?_) (fun a k hk => le_min (h3 a k hk) ?_)
    (fun e k hk => h4 e k (hk.trans_le (min_le_left _ _)) ((hk.trans_le (min_le_right _ _)).le))
  · rw [hone _ ((h.prodLen e).trans (H.one _)), hone _ ((h.consLen e).trans (H.one _))]
    have h5 := hN0 (g.src e)
    have h6 := hN0 (g.tgt e)
    have h7 := hbal e
    rwa [Int.toNat_of_nonneg h5, Int.toNat_of_nonneg h6]
  · have := H.lt h a (i := k) (j := goalOf g en a) hk
    rw [(H.dur h a).2.2]
    exact this.trans (top_ge a)

/-! ### An example, and what the check gets wrong -/

/-- A task executed twice per iteration sends its tokens to another and gets them back. -/
def exGraph : Graph 2 2 := ⟨![0, 1], ![1, 0], ![[1], [2]], ![[2], [1]], ![0, 4], ![1, 1], ![[1], [1]], ![2, 1]⟩

/-- Starts 0, 1, 3, 4, 6, … and `s`, `s + 3`, … -/
def exEntry (s : ℚ) : Fin 2 → Chart.Entry := ![⟨[], 3, [0, 1]⟩, ⟨[], 3, [s]⟩]

theorem exGraph_ok : Sim.OK exGraph := by
  constructor <;> decide +kernel

theorem exEntry_start0 (s : ℚ) (k : ℕ) : (exEntry s 0).start k = ((k % 2 : ℕ) : ℚ) + ((k / 2 : ℕ) : ℚ) * 3 := by
  have : k % 2 < 2 := Nat.mod_lt _ (by omega)
  simp only [exEntry, Matrix.cons_val_zero, Chart.Entry.start, List.length_nil, Nat.not_lt_zero, if_false, Nat.sub_zero, List.length_cons, Nat.zero_add]
  congr 1
  interval_cases h : k % 2 <;> simp

theorem exEntry_start1 (s : ℚ) (k : ℕ) : (exEntry s 1).start k = s + k * 3 := Chart.strict_entry_start s 3 k

theorem exEntry_plain {s : ℚ} (h0 : 0 < s) : Plain exGraph fun a => (exEntry s a).start := by
  have hd : ∀ a k, exGraph.execDur a k = 1 := by
    intro a k
    fin_cases a <;> simp [Graph.execDur, exGraph, Nat.mod_one]
  refine ⟨by decide, by decide +kernel, fun a k => ?_, 0, by rw [exEntry_start0]; simp, fun a ha => ?_⟩
  · rw [hd]
    fin_cases a
    · show (exEntry s 0).start k + 1 ≤ (exEntry s 0).start (k + 1)
      rw [exEntry_start0, exEntry_start0]
      rcases Nat.mod_two_eq_zero_or_one k with h | h
      · rw [show (k + 1) % 2 = 1 by omega, show (k + 1) / 2 = k / 2 by omega, h]; push_cast; linarith
      · rw [show (k + 1) % 2 = 0 by omega, show (k + 1) / 2 = k / 2 + 1 by omega, h]; push_cast; linarith
    · show (exEntry s 1).start k + 1 ≤ (exEntry s 1).start (k + 1)
      rw [exEntry_start1, exEntry_start1]; push_cast; linarith
  · fin_cases a
    · exact absurd rfl ha
    · show 0 < (exEntry s 1).start 0
      rw [exEntry_start1]; simpa using h0

theorem exEntry_apart {s : ℚ} {m : ℤ} (hs : 2 * s = 2 * m + 1) (i j : ℕ) : (exEntry s 0).start i ≠ (exEntry s 1).start j := by
  rw [exEntry_start0, exEntry_start1]
  intro h
  have h2 : (2 * ((i % 2 : ℕ) + (i / 2 : ℕ) * 3 - j * 3) : ℤ) = 2 * m + 1 := by
    have : (2 * ((i % 2 : ℕ) + (i / 2 : ℕ) * 3 - j * 3) : ℚ) = 2 * m + 1 := by rw [← hs]; linarith
    exact_mod_cast this
  omega

/-- Non-vacuity of `C123_exact_partial`: the second task after the first has ended twice, at 5/2, and before that, at 3/2. -/
example : ∃ n₀, ∀ n ≥ n₀, ∃ r, check exGraph ![1, 1] (fun a => some (exEntry (5 / 2) a)) n = some r ∧ (r = true ↔ Valid exGraph none fun a => (exEntry (5 / 2) a).start) := by
  refine C123_exact_partial exGraph_ok (by decide) (by decide) (exEntry_plain (by norm_num)) (by decide) le_rfl
    ⟨0, 1, exEntry_apart (m := 2) (by norm_num)⟩ (Ω := 3) (fun a k _ => ?_) (by decide)
  fin_cases a
  · show (exEntry _ 0).start (k + 2) = (exEntry _ 0).start k + 3
    rw [exEntry_start0, exEntry_start0, show (k + 2) % 2 = k % 2 by omega, show (k + 2) / 2 = k / 2 + 1 by omega]; push_cast; ring
  · show (exEntry _ 1).start (k + 1) = (exEntry _ 1).start k + 3
    rw [exEntry_start1, exEntry_start1]; push_cast; ring

/-- Non-vacuity of `C123_accepted_partial`. -/
example : check exGraph ![1, 1] (fun a => some (exEntry (5 / 2) a)) 9 = some true ∧ check exGraph ![1, 1] (fun a => some (exEntry (3 / 2) a)) 9 = some false := by
  decide +kernel

/-- A channel whose consumer starts before any of its producer ends, with more to take than there is, is short of tokens. -/
theorem short {f v : ℕ → Int} {p : Int} {e t : ℕ → ℚ} (k : ℕ) (ht : ∀ i ≤ k, t i ≤ t k) (he : ∀ j, t k < e j) (hp : p < ∑ i ∈ Finset.range (k + 1), v i) :
    ¬ NeverShort f v p e t := by
  intro h
  obtain ⟨P, h1, h2⟩ := h (t k) (Finset.range (k + 1)) (fun i hi => ht i (by simp at hi; omega))
  have : P = ∅ := by
    by_contra hne
    obtain ⟨j, hj⟩ := Finset.nonempty_iff_ne_empty.2 hne
    exact absurd (h1 j hj) (not_le.2 (he j))
  subst this
  simp at h2
  omega

/-- Two tasks that start at date 0. -/
def zeroGraph : Graph 2 2 := ⟨![0, 1], ![1, 0], ![[1], [1]], ![[1], [1]], ![2, 0], ![1, 1], ![[1], [1]], ![1, 1]⟩

def zeroEntry : Fin 2 → Chart.Entry := ![⟨[], 2, [0]⟩, ⟨[0], 2, [3/2]⟩]

/-- **C123.** Of the tasks that start at date 0 only the last takes its tokens: the check accepts a schedule in which the first task starts with an empty input. -/
theorem _root_.Kiter.C123_zero_counterexample :
    Sim.OK zeroGraph ∧ (∀ a k, (zeroEntry a).start k + zeroGraph.execDur a k ≤ (zeroEntry a).start (k + 1)) ∧
      check zeroGraph ![1, 1] (fun a => some (zeroEntry a)) 9 = some true ∧ ¬ Valid zeroGraph none fun a => (zeroEntry a).start := by
  have h0 : ∀ k, (zeroEntry 0).start k = 0 + k * 2 := Chart.strict_entry_start 0 2
  have h1 : ∀ k, (zeroEntry 1).start k = if k = 0 then 0 else 3/2 + ((k - 1 : ℕ) : ℚ) * 2 := by
    intro k
    show (⟨[0], 2, [3/2]⟩ : Chart.Entry).start k = _
    unfold Chart.Entry.start
    by_cases hk : k = 0
    · subst hk; simp
    · rw [if_neg (by simpa using hk), if_neg hk]; simp [Nat.mod_one]
  have hd : ∀ a k, zeroGraph.execDur a k = 1 := by
    intro a k
    fin_cases a <;> simp [Graph.execDur, zeroGraph, Nat.mod_one]
  refine ⟨by constructor <;> decide +kernel, fun a k => ?_, by decide +kernel, fun hv => ?_⟩
  · rw [hd]
    fin_cases a
    · show (zeroEntry 0).start k + 1 ≤ (zeroEntry 0).start (k + 1)
      rw [h0, h0]; push_cast; linarith
    · show (zeroEntry 1).start k + 1 ≤ (zeroEntry 1).start (k + 1)
      rw [h1, h1, if_neg (Nat.succ_ne_zero k), Nat.add_sub_cancel]
      by_cases hk : k = 0
      · subst hk; norm_num
      · obtain ⟨k, rfl⟩ := Nat.exists_eq_succ_of_ne_zero hk
        rw [if_neg hk]; simp only [Nat.succ_eq_add_one, Nat.add_sub_cancel]; push_cast; linarith
  · refine short 0 (fun i hi => ?_) (fun j => ?_) ?_ (hv.tokens 1)
    · rw [Nat.le_zero.1 hi]
    · show (zeroEntry 0).start 0 < (zeroEntry 1).start j + zeroGraph.execDur 1 j
      rw [hd, h0, h1]
      split
      · norm_num
      · have : (0 : ℚ) ≤ ((j - 1 : ℕ) : ℚ) := Nat.cast_nonneg _
        push_cast; linarith
    · decide +kernel

/-- A task of duration 2 that starts at every date. -/
def overlapGraph : Graph 2 2 := ⟨![0, 1], ![1, 0], ![[1], [1]], ![[1], [1]], ![0, 4], ![1, 1], ![[2], [1]], ![1, 1]⟩

def overlapEntry : Fin 2 → Chart.Entry := ![⟨[], 1, [0]⟩, ⟨[], 1, [5/2]⟩]

/-- **C123.** The executions of a task are compared only when its reentrancy factor is 0: with a factor 1 the check accepts executions that overlap. -/
theorem _root_.Kiter.C123_overlap_counterexample :
    Sim.OK overlapGraph ∧ check overlapGraph ![1, 1] (fun a => some (overlapEntry a)) 20 = some true ∧
      (overlapEntry 0).start 1 < (overlapEntry 0).start 0 + overlapGraph.execDur 0 0 := by
  refine ⟨by constructor <;> decide +kernel, by decide +kernel, by decide +kernel⟩

/-- A task with two phases: the second one takes a token. -/
def phaseGraph : Graph 2 2 := ⟨![0, 1], ![1, 0], ![[1], [1, 0]], ![[0, 1], [1]], ![0, 1], ![1, 2], ![[2], [1, 1]], ![1, 2]⟩

def phaseEntry : Fin 2 → Chart.Entry := ![⟨[], 4, [0]⟩, ⟨[], 4, [1/4, 5/4]⟩]

/-- **C123.** An execution that starts when the one before ends takes the tokens of the phase before: the check accepts a schedule in which the second phase starts before its token is there. -/
theorem _root_.Kiter.C123_phases_counterexample :
    Sim.OK phaseGraph ∧ check phaseGraph ![1, 1] (fun a => some (phaseEntry a)) 20 = some true ∧ ¬ Valid phaseGraph none fun a => (phaseEntry a).start := by
  refine ⟨by constructor <;> decide +kernel, by decide +kernel, fun hv => ?_⟩
  refine short 1 (fun i hi => ?_) (fun j => ?_) ?_ (hv.tokens 0)
  · show (phaseEntry 1).start i ≤ (phaseEntry 1).start 1
    interval_cases i <;> decide +kernel
  · show (phaseEntry 1).start 1 < (phaseEntry 0).start j + phaseGraph.execDur 0 j
    have h1 : (phaseEntry 0).start j = 0 + j * 4 := Chart.strict_entry_start 0 4 j
    have h2 : phaseGraph.execDur 0 j = 2 := by simp [Graph.execDur, phaseGraph, Nat.mod_one]
    have h3 : (phaseEntry 1).start 1 = 5/4 := by decide +kernel
    rw [h1, h2, h3]
    have : (0 : ℚ) ≤ j := Nat.cast_nonneg _
    linarith
  · decide +kernel

/-- Two tasks one after the other, the second of duration 3. -/
def turnGraph : Graph 2 2 := ⟨![0, 1], ![1, 0], ![[1], [1]], ![[1], [1]], ![0, 1], ![1, 1], ![[1], [3]], ![1, 1]⟩

def turnEntry : Fin 2 → Chart.Entry := ![⟨[], 4, [0]⟩, ⟨[], 4, [1]⟩]

theorem turn_plain : Sim.OK turnGraph ∧ (Plain turnGraph fun a => (turnEntry a).start) ∧ Valid turnGraph none fun a => (turnEntry a).start := by
  have h0 : ∀ k, (turnEntry 0).start k = 0 + k * 4 := Chart.strict_entry_start 0 4
  have h1 : ∀ k, (turnEntry 1).start k = 1 + k * 4 := Chart.strict_entry_start 1 4
  have d0 : ∀ k, turnGraph.execDur 0 k = 1 := by intro k; simp [Graph.execDur, turnGraph, Nat.mod_one]
  have d1 : ∀ k, turnGraph.execDur 1 k = 3 := by intro k; simp [Graph.execDur, turnGraph, Nat.mod_one]
  have hok : Sim.OK turnGraph := by constructor <;> decide +kernel
  have hp : Plain turnGraph fun a => (turnEntry a).start := by
    refine ⟨by decide, by decide +kernel, fun a k => ?_, 0, by decide +kernel, fun a ha => ?_⟩
    · fin_cases a
      · show (turnEntry 0).start k + turnGraph.execDur 0 k ≤ (turnEntry 0).start (k + 1)
        rw [h0, h0, d0]; push_cast; linarith
      · show (turnEntry 1).start k + turnGraph.execDur 1 k ≤ (turnEntry 1).start (k + 1)
        rw [h1, h1, d1]; push_cast; linarith
    · fin_cases a
      · exact absurd rfl ha
      · show 0 < (turnEntry 1).start 0
        rw [h1]; norm_num
  refine ⟨hok, hp, (valid_iff_fed hok hp).2 fun e k => ?_⟩
  have hone : ∀ m : ℕ, Sim.cum [1] m = m := by intro m; simp [Sim.cum, rate, Nat.mod_one]
  fin_cases e
  · refine ⟨k + 1, fun j hj => ?_, ?_⟩
    · show (turnEntry 0).start j + turnGraph.execDur 0 j ≤ (turnEntry 1).start k
      rw [h0, h1, d0]
      have : (j : ℚ) ≤ k := by exact_mod_cast Nat.lt_succ_iff.1 hj
      linarith
    · show Sim.cum [1] (k + 1) ≤ 0 + Sim.cum [1] (k + 1)
      omega
  · refine ⟨k, fun j hj => ?_, ?_⟩
    · show (turnEntry 1).start j + turnGraph.execDur 1 j ≤ (turnEntry 0).start k
      rw [h0, h1, d1]
      have : (j : ℚ) + 1 ≤ k := by exact_mod_cast hj
      linarith
    · show Sim.cum [1] (k + 1) ≤ 1 + Sim.cum [1] k
      rw [hone, hone]; push_cast; omega

/-- **C123.** A task with reentrancy factor 0 may not start before its own duration: a valid schedule is refused. -/
theorem _root_.Kiter.C123_reentrancy_counterexample :
    Sim.OK turnGraph ∧ (Plain turnGraph fun a => (turnEntry a).start) ∧ (Valid turnGraph none fun a => (turnEntry a).start) ∧
      check turnGraph ![0, 0] (fun a => some (turnEntry a)) 9 = some false ∧ check turnGraph ![1, 1] (fun a => some (turnEntry a)) 9 = some true :=
  ⟨turn_plain.1, turn_plain.2.1, turn_plain.2.2, by decide +kernel, by decide +kernel⟩

/-- The pass reached after `k` passes. -/
def after (g : Graph nV nE) (reent : Fin nV → Int) : Nat → State nV nE → Option (Pass nV nE)
  | 0, s => some (.go s)
  | k + 1, s =>
    match pass g reent s with
    | none => none
    | some (.stop r) => some (.stop r)
    | some (.go s) => after g reent k s

theorem loop_none {reent : Fin nV → Int} : ∀ (k : ℕ) {s : State nV nE}, after g reent k s = none → ∀ n, loop g reent n s = none
  | 0, s, h, _ => by simp [after] at h
  | _ + 1, s, _, 0 => rfl
  | k + 1, s, h, n + 1 => by
    unfold after at h
    unfold loop
    cases hp : pass g reent s with
    | none => rfl
    | some p =>
      rw [hp] at h
      cases p with
      | stop r => simp at h
      | go s' => exact loop_none k h n

/-- One task, which sends a token to itself. -/
def aloneGraph : Graph 1 1 := ⟨![0], ![0], ![[1]], ![[1]], ![1], ![1], ![[1]], ![1]⟩

def aloneEntry : Fin 1 → Chart.Entry := ![⟨[], 1, [0]⟩]

/-- **C123.** A graph with one task: there is no date left when the execution that closes the iteration is reached, and the first element of an empty `std::map` is read, however long the loops may be. -/
theorem _root_.Kiter.C123_alone_counterexample :
    Sim.OK aloneGraph ∧ (Plain aloneGraph fun a => (aloneEntry a).start) ∧ ∀ n, check aloneGraph ![1] (fun a => some (aloneEntry a)) n = none := by
  have h0 : ∀ k, (aloneEntry 0).start k = 0 + k * 1 := Chart.strict_entry_start 0 1
  refine ⟨by constructor <;> decide +kernel, ⟨by decide, by decide +kernel, fun a k => ?_, 0, by decide +kernel, fun a ha => absurd (Subsingleton.elim a 0) ha⟩, fun n => ?_⟩
  · fin_cases a
    show (aloneEntry 0).start k + aloneGraph.execDur 0 k ≤ (aloneEntry 0).start (k + 1)
    have : aloneGraph.execDur 0 k = 1 := by simp [Graph.execDur, aloneGraph, Nat.mod_one]
    rw [h0, h0, this]; push_cast; linarith
  · cases n with
    | zero => decide +kernel
    | succ n =>
      have hl : ∀ a, lists aloneGraph (fun a => some (aloneEntry a)) (n + 1) a = some ((List.range 2).map (aloneEntry a).start) := by
        intro a
        obtain rfl : a = 0 := Subsingleton.elim a 0
        rw [lists_eq (by decide) (by decide)]
        unfold fillUp
        rw [if_neg (by decide +kernel)]
        decide +kernel
      rw [check_eq le_rfl _ (len := fun _ => 2) hl]
      have hf : (first fun a => (List.range 2).map (aloneEntry a).start) = some 0 := by decide +kernel
      rw [hf]
      have ha : (after aloneGraph ![1] 2 ⟨fun _ => 0, fun a => (List.range 2).map (aloneEntry a).start, fun a => ((aloneEntry a).init.length : Int) + aloneGraph.ni a,
          aloneGraph.preload, fun _ => 0, (0, 0)⟩).isNone = true := by decide +kernel
      exact loop_none 2 (Option.isNone_iff_eq_none.1 ha) _

end Kiter.Check
