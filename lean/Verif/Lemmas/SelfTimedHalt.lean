/-
Lemmas for the termination of the self-timed execution: executions keep ending unless there is a deadlock, actors stay
within a bounded distance of each other, and only finitely many states are met.
-/
import Verif.Props.SelfTimed
import Mathlib.Data.Set.Finite.Basic
import Mathlib.Data.Finite.Prod
import Mathlib.Data.Set.Finite.Lattice
import Mathlib.Data.Set.Finite.Lemmas
import Mathlib.Data.Int.Interval
import Mathlib.Order.Interval.Finset.Nat
import Mathlib.Data.Fintype.Pi
import Mathlib.Algebra.BigOperators.Fin

set_option autoImplicit false

namespace Kiter.Sim
open Finset

variable {nV nE : Nat} {g : Graph nV nE} {cap : Option (Fin nE → Int)}

/-- Executions completed so far. -/
def total (m : Machine nV nE) : ℕ := ∑ a, m.completed a

theorem completed_step (c : Cfg nV nE) (m : Machine nV nE) (a : Fin nV) : m.completed a ≤ (step c m).completed a := by
  rcases step_kind c m with ⟨-, -, h, -⟩ | ⟨b, -, -, -, h, -⟩ | ⟨b, _, _, -, -, -, -, h, -⟩ | ⟨-, -, h, -⟩ <;> rw [h]
  by_cases hb : a = b
  · subst hb; simp
  · simp [hb]

theorem total_mono (c : Cfg nV nE) (m : Machine nV nE) {i j : ℕ} (h : i ≤ j) : total (run c m i) ≤ total (run c m j) := by
  refine monotone_nat_of_le_succ (f := fun n => total (run c m n)) (fun n => ?_) h
  exact sum_le_sum fun a _ => completed_step c (run c m n) a

theorem run_succ' (c : Cfg nV nE) (m : Machine nV nE) (n k : ℕ) : run c m (n + (k + 1)) = run c m (n + 1 + k) := by
  congr 1; omega

theorem total_endOne (c : Cfg nV nE) (m : Machine nV nE) (t : Fin nV) : total (endOne c m t) = total m + 1 := by
  unfold total endOne
  simp only
  have : ∀ a, Function.update m.completed t (m.completed t + 1) a = m.completed a + if a = t then 1 else 0 := by
    intro a
    by_cases h : a = t
    · subst h; simp
    · simp [h]
  simp only [this]
  rw [sum_add_distrib]; simp

/-- The loop that starts executions comes to its end. -/
theorem starts_end (hg : Guarded g cap) {c : Cfg nV nE} (h1 : c.g = g) (h2 : c.cap = cap) (m : Machine nV nE)
    (l : List (Fin nV)) : ∀ n, (run c m n).pc = .starts l → ∃ k, (run c m (n + k)).pc = .advance := by
  induction l with
  | nil => intro n hpc; exact ⟨1, by simp only [run]; unfold step; rw [hpc]⟩
  | cons t rest ih =>
    intro n hpc
    have hno : ∀ n, (run c m n).pc = .starts (t :: rest) → ready c.g c.cap (run c m n).acts (run c m n).st t = false →
        ∃ k, (run c m (n + k)).pc = .advance := by
      intro n hpc hr
      have : (run c m (n + 1)).pc = .starts rest := by
        simp only [run]; unfold step; rw [hpc]; simp [hr]
      obtain ⟨k, hk⟩ := ih (n + 1) this
      exact ⟨k + 1, by rw [run_succ']; exact hk⟩
    by_cases hr : ready c.g c.cap (run c m n).acts (run c m n).st t = true
    · have e1 : (run c m (n + 1)).pc = .starts (t :: rest) := by
        simp only [run]; unfold step; rw [hpc]; simp only [hr, if_true]
      have e2 : ((run c m (n + 1)).acts t).isExecuting = true := by
        simp only [run]; unfold step; rw [hpc]; simp only [hr, if_true]; simp [execStart]
      obtain ⟨k, hk⟩ := hno (n + 1) e1 (by
        by_contra hc
        rw [Bool.not_eq_false, h1, h2] at hc
        have := ready_idle hg hc
        rw [e2] at this; simp at this)
      exact ⟨k + 1, by rw [run_succ']; exact hk⟩
    · exact hno n hpc (by simpa using hr)

/-- The loop that ends executions comes to its end, or ends one. -/
theorem ends_end {c : Cfg nV nE} (hd : c.detect = false) (m : Machine nV nE) (l : List (Fin nV)) :
    ∀ n, (run c m n).pc = .ends l → ∃ k, total (run c m n) < total (run c m (n + k)) ∨
      ((run c m (n + k)).pc = .starts (List.finRange nV) ∧ ∀ a ∈ l, readyToEnd (run c m n).st a = false) := by
  induction l with
  | nil => intro n hpc; exact ⟨1, .inr ⟨by simp only [run]; unfold step; rw [hpc], by simp⟩⟩
  | cons t rest ih =>
    intro n hpc
    by_cases hr : readyToEnd (run c m n).st t = true
    · refine ⟨1, .inl ?_⟩
      show _ < total (step c (run c m n))
      unfold step; rw [hpc]
      simp only [hr, if_true, hd, Bool.false_eq_true, if_false]
      split
      · split
        · rw [total_endOne]; exact Nat.lt_succ_self _
        · rw [total_endOne]; exact Nat.lt_succ_self _
      · rw [total_endOne]; exact Nat.lt_succ_self _
    · have hstep : run c m (n + 1) = { run c m n with pc := .ends rest } := by
        show step c (run c m n) = _
        unfold step; rw [hpc]; simp only [hr]; rfl
      obtain ⟨k, hk⟩ := ih (n + 1) (by rw [hstep])
      refine ⟨k + 1, ?_⟩
      rw [run_succ']
      rcases hk with hk | ⟨hk1, hk2⟩
      · left; exact lt_of_le_of_lt (total_mono c m (Nat.le_succ n)) hk
      · right
        refine ⟨hk1, fun a ha => ?_⟩
        rcases List.mem_cons.1 ha with rfl | ha
        · simpa using hr
        · have := hk2 a ha; rw [hstep] at this; exact this

theorem advance_next {c : Cfg nV nE} {m : Machine nV nE} (hpc : m.pc = .advance) :
    (step c m).pc = .deadlock ∨ ((step c m).pc = .ends (List.finRange nV) ∧ ∃ a, readyToEnd (step c m).st a = true) := by
  by_cases hl : nextEvent m.st = longMax
  · left; unfold step; rw [hpc]; simp [advance_snd, hl]
  · right
    have hst : (step c m).st = (advanceTime m.st).1 ∧ (step c m).pc = .ends (List.finRange nV) := by
      unfold step; rw [hpc]; simp only; rw [advance_snd, if_neg hl]; exact ⟨rfl, rfl⟩
    refine ⟨hst.2, ?_⟩
    rcases nextEvent_cases m.st with h0 | ⟨a, x, rest, hq, hx⟩
    · exact absurd h0 hl
    · refine ⟨a, ?_⟩
      rw [hst.1]
      have hq' : ∃ y l, (advanceTime m.st).1.queue a = y :: l ∧ y.1 = 0 := by
        unfold advanceTime
        simp only
        split
        · rename_i h0; exact ⟨x, rest, hq, by rw [← hx, h0]⟩
        · exact ⟨_, _, by simp only [hq, List.map_cons]; exact rfl, by simp [hx]⟩
      obtain ⟨y, l, h1, h2⟩ := hq'
      unfold readyToEnd; rw [h1]; simp [h2]

/-- The execution carried on forever never stops at a recurrent state. -/
theorem free_pc {c : Cfg nV nE} (hd : c.detect = false) {m : Machine nV nE} (h0 : ∀ t, m.pc ≠ .recurrent t) (n : ℕ) (t : Option ℚ) :
    (run c m n).pc ≠ .recurrent t := by
  intro h
  obtain ⟨k, -, hk, hs⟩ := recurrent_first h0 n h
  have := (step_recurrent hk hs).1
  rw [hd] at this; simp at this

/-- From any point, an execution ends later, or the program stops with a deadlock. -/
theorem progress (hg : Guarded g cap) {c : Cfg nV nE} {m : Machine nV nE} (hs : start g cap false = some (c, m)) (n : ℕ) :
    ∃ k, (run c m (n + k)).pc = .deadlock ∨ total (run c m n) < total (run c m (n + k)) := by
  obtain ⟨h1, h2, h3, -, -, h6, -⟩ := start_spec hs
  have trans : ∀ n k, (∃ j, (run c m (n + k + j)).pc = .deadlock ∨ total (run c m (n + k)) < total (run c m (n + k + j))) →
      ∃ j, (run c m (n + j)).pc = .deadlock ∨ total (run c m n) < total (run c m (n + j)) := by
    rintro n k ⟨j, hj⟩
    refine ⟨k + j, ?_⟩
    rw [← Nat.add_assoc]
    rcases hj with hj | hj
    · exact .inl hj
    · exact .inr (lt_of_le_of_lt (total_mono c m (Nat.le_add_right n k)) hj)
  have hadv : ∀ n, (run c m n).pc = .advance →
      ∃ k, (run c m (n + k)).pc = .deadlock ∨ total (run c m n) < total (run c m (n + k)) := by
    intro n hpc
    rcases advance_next (c := c) hpc with hd | ⟨hd, a, ha⟩
    · exact ⟨1, .inl hd⟩
    · refine trans n 1 ?_
      obtain ⟨k, hk | ⟨-, hk⟩⟩ := ends_end h3 m _ (n + 1) hd
      · exact ⟨k, .inr hk⟩
      · have := hk a (List.mem_finRange a)
        have ha' : readyToEnd (run c m (n + 1)).st a = true := ha
        rw [ha'] at this; simp at this
  have hstarts : ∀ n l, (run c m n).pc = .starts l →
      ∃ k, (run c m (n + k)).pc = .deadlock ∨ total (run c m n) < total (run c m (n + k)) := by
    intro n l hpc
    obtain ⟨k, hk⟩ := starts_end hg h1 h2 m l n hpc
    exact trans n k (hadv _ hk)
  cases hpc : (run c m n).pc with
  | ends l =>
    obtain ⟨k, hk | ⟨hk, -⟩⟩ := ends_end h3 m l n hpc
    · exact ⟨k, .inr hk⟩
    · exact trans n k (hstarts _ _ hk)
  | starts l => exact hstarts n l hpc
  | advance => exact hadv n hpc
  | deadlock => exact ⟨0, .inl hpc⟩
  | recurrent t => exact absurd hpc (free_pc h3 (by simp [h6]) n t)

theorem total_unbounded (hg : Guarded g cap) {c : Cfg nV nE} {m : Machine nV nE} (hs : start g cap false = some (c, m))
    (hnd : ∀ n, (run c m n).pc ≠ .deadlock) (B : ℕ) : ∃ n, B ≤ total (run c m n) := by
  induction B with
  | zero => exact ⟨0, Nat.zero_le _⟩
  | succ B ih =>
    obtain ⟨n, hn⟩ := ih
    obtain ⟨k, hk | hk⟩ := progress hg hs n
    · exact absurd hk (hnd _)
    · exact ⟨n + k, by omega⟩

/-! ### Actors stay close to each other -/

theorem cum_bounds {l : List Int} (hl : ∀ r ∈ l, 0 ≤ r) (hne : 0 < l.length) (n : ℕ) :
    ((n : ℚ) / l.length - 1) * ((l.sum : ℤ) : ℚ) ≤ cum l n ∧ (cum l n : ℚ) ≤ ((n : ℚ) / l.length + 1) * ((l.sum : ℤ) : ℚ) := by
  have hs0 : 0 ≤ l.sum := List.sum_nonneg hl
  have c0 : ∀ q, cum l (q * l.length) = q * l.sum := by
    intro q
    have := cum_add_mul l 0 q
    simpa using this
  generalize l.sum = S at *
  have hs : (0 : ℚ) ≤ S := by exact_mod_cast hs0
  have hL : (0 : ℚ) < l.length := by exact_mod_cast hne
  have hdm := Nat.div_add_mod n l.length
  have hmod := Nat.mod_lt n hne
  have hlo : (n / l.length : ℕ) * S ≤ cum l n := by
    rw [← c0]; exact cum_mono hl (Nat.div_mul_le_self _ _)
  have hhi : cum l n ≤ ((n / l.length + 1 : ℕ) : ℤ) * S := by
    rw [← c0]; exact cum_mono hl (by rw [Nat.add_mul, Nat.mul_comm]; omega)
  have f1 : (n : ℚ) / l.length - 1 ≤ (n / l.length : ℕ) := by
    rw [sub_le_iff_le_add, div_le_iff₀ hL]
    have : n ≤ (n / l.length + 1) * l.length := by rw [Nat.add_mul, Nat.mul_comm]; omega
    exact_mod_cast this
  have f2 : ((n / l.length : ℕ) : ℚ) ≤ (n : ℚ) / l.length := by
    rw [le_div_iff₀ hL]
    exact_mod_cast Nat.div_mul_le_self _ _
  constructor
  · calc _ ≤ ((n / l.length : ℕ) : ℚ) * S := mul_le_mul_of_nonneg_right f1 hs
      _ ≤ _ := by have := (Int.cast_le (R := ℚ)).2 hlo; rwa [Int.cast_mul, Int.cast_natCast] at this
  · calc (cum l n : ℚ) ≤ (((n / l.length : ℕ) : ℚ) + 1) * S := by
          have := (Int.cast_le (R := ℚ)).2 hhi; rwa [Int.cast_mul, Int.cast_natCast, Nat.cast_add, Nat.cast_one] at this
      _ ≤ _ := mul_le_mul_of_nonneg_right (by linarith) hs

/-- If `k` executions consumed no more than `p` plus what `x` executions produced, then `k` is not far above `x`, both
counted in graph iterations. -/
theorem close_of_cum {v f : List Int} (hv : ∀ r ∈ v, 0 ≤ r) (hf : ∀ r ∈ f, 0 ≤ r) (hvl : 0 < v.length) (hfl : 0 < f.length)
    (hvs : 0 < v.sum) {ni nj : ℤ} (hni : 0 < ni) (hnj : 0 < nj)
    (hbal : f.sum * ni * v.length = v.sum * nj * f.length) (p : ℤ) :
    ∃ D : ℚ, ∀ k x : ℕ, cum v k ≤ p + cum f x → (k : ℚ) / nj ≤ x / ni + D := by
  have hi : (0 : ℚ) < ni := by exact_mod_cast hni
  have hj : (0 : ℚ) < nj := by exact_mod_cast hnj
  have hb1 := cum_bounds hv hvl
  have hb2 := cum_bounds hf hfl
  generalize hSv : v.sum = Sv at *
  generalize hSf : f.sum = Sf at *
  have hLv : (0 : ℚ) < v.length := by exact_mod_cast hvl
  have hLf : (0 : ℚ) < f.length := by exact_mod_cast hfl
  have hS : (0 : ℚ) < Sv := by exact_mod_cast hvs
  have hbal' : (Sf : ℚ) * ni * v.length = Sv * nj * f.length := by exact_mod_cast hbal
  generalize (v.length : ℚ) = Lv at *
  generalize (f.length : ℚ) = Lf at *
  -- tokens per graph iteration
  set V : ℚ := Sv * nj / Lv with hV
  have hVpos : 0 < V := by positivity
  have e1 : ∀ k : ℚ, k / Lv * Sv = V * (k / nj) := by intro k; rw [hV]; field_simp
  have e2 : ∀ x : ℚ, x / Lf * Sf = V * (x / ni) := by
    intro x
    have : V = Sf * ni / Lf := by rw [hV, div_eq_div_iff hLv.ne' hLf.ne']; linarith
    rw [this]; field_simp
  refine ⟨(p + Sf + Sv) / V, fun k x hle => ?_⟩
  have h1 := (hb1 k).1
  have h2 := (hb2 x).2
  have h3 : (cum v k : ℚ) ≤ p + cum f x := by exact_mod_cast hle
  rw [sub_mul, e1, one_mul] at h1
  rw [add_mul, e2, one_mul] at h2
  have h4 : V * ((k : ℚ) / nj) ≤ V * ((x : ℚ) / ni) + (p + Sf + Sv) := by linarith
  have h5 : V * ((k : ℚ) / nj) ≤ V * ((x : ℚ) / ni + (p + Sf + Sv) / V) := by
    rw [mul_add, mul_div_cancel₀ _ hVpos.ne']; exact h4
  exact le_of_mul_le_mul_left h5 hVpos

/-- `b` can only run ahead of `a` by a bounded amount: it reads what `a` writes or, with bounded buffers, writes what `a`
reads. -/
def Follows (g : Graph nV nE) (cap : Option (Fin nE → Int)) (a b : Fin nV) : Prop :=
  ∃ e, g.src e = a ∧ g.tgt e = b ∨ cap.isSome ∧ g.src e = b ∧ g.tgt e = a

theorem ahead (h : OK g) (hb : Balanced g) {a b : Fin nV} (hab : Relation.ReflTransGen (Follows g cap) a b) :
    ∃ D : ℚ, ∀ x : Core nV nE, Inv g cap x → (∀ a, (x.acts a).numExecs ≤ x.completed a + 1) → (∀ e, cap.isSome → 0 ≤ x.st.space e) →
      ((x.acts b).numExecs : ℚ) / g.ni b ≤ x.completed a / g.ni a + D := by
  have hni : ∀ a, (0 : ℚ) < g.ni a := fun a => by exact_mod_cast hb.ni a
  induction hab with
  | refl =>
    refine ⟨1 / g.ni a, fun x hx h1 _ => ?_⟩
    rw [← add_div]
    exact div_le_div_of_nonneg_right (by exact_mod_cast h1 a) (hni a).le
  | @tail b' b'' _ hstep ih =>
    obtain ⟨D, hD⟩ := ih
    have hstep' : ∃ D : ℚ, ∀ x : Core nV nE, Inv g cap x → (∀ e, cap.isSome → 0 ≤ x.st.space e) →
        ((x.acts b'').numExecs : ℚ) / g.ni b'' ≤ x.completed b' / g.ni b' + D := by
      obtain ⟨e, ⟨rfl, rfl⟩ | ⟨hc, rfl, rfl⟩⟩ := hstep
      · obtain ⟨D, hD⟩ := close_of_cum (h.consNonneg e) (h.prodNonneg e) (by rw [h.consLen]; exact h.phases _)
          (by rw [h.prodLen]; exact h.phases _) (hb.cons e) (hb.ni (g.src e)) (hb.ni (g.tgt e))
          (by rw [h.consLen, h.prodLen]; exact hb.bal e) (g.preload e)
        exact ⟨D, fun x hx _ => hD _ _ (by have := hx.tok e; have := hx.tokNonneg e; linarith)⟩
      · obtain ⟨w, hw⟩ := Option.isSome_iff_exists.1 hc
        obtain ⟨D, hD⟩ := close_of_cum (h.prodNonneg e) (h.consNonneg e) (by rw [h.prodLen]; exact h.phases _)
          (by rw [h.consLen]; exact h.phases _) (hb.prod e) (hb.ni (g.tgt e)) (hb.ni (g.src e))
          (by rw [h.consLen, h.prodLen]; linarith [hb.bal e]) (w e - g.preload e)
        exact ⟨D, fun x hx hsp => hD _ _ (by have := hx.space w hw e; have := hsp e hc; linarith)⟩
    obtain ⟨D', hD'⟩ := hstep'
    refine ⟨D + D', fun x hx h1 h2 => ?_⟩
    have e1 := hD x hx h1 h2
    have e2 := hD' x hx h2
    have e3 : (x.completed b' : ℚ) / g.ni b' ≤ (x.acts b').numExecs / g.ni b' := by
      refine div_le_div_of_nonneg_right ?_ (hni b').le
      have := hx.len b'
      exact_mod_cast (by omega : x.completed b' ≤ (x.acts b').numExecs)
    linarith

/-- Conversely, production that is not far ahead leaves a bounded number of tokens. -/
theorem tokens_of_close {v f : List Int} (hv : ∀ r ∈ v, 0 ≤ r) (hf : ∀ r ∈ f, 0 ≤ r) (hvl : 0 < v.length) (hfl : 0 < f.length)
    (hvs : 0 < v.sum) {ni nj : ℤ} (hni : 0 < ni) (hnj : 0 < nj)
    (hbal : f.sum * ni * v.length = v.sum * nj * f.length) (D : ℚ) :
    ∃ T : ℤ, ∀ k x : ℕ, (x : ℚ) / ni ≤ k / nj + D → cum f x - cum v k ≤ T := by
  have hi : (0 : ℚ) < ni := by exact_mod_cast hni
  have hj : (0 : ℚ) < nj := by exact_mod_cast hnj
  have hb1 := cum_bounds hv hvl
  have hb2 := cum_bounds hf hfl
  generalize hSv : v.sum = Sv at *
  generalize hSf : f.sum = Sf at *
  have hLv : (0 : ℚ) < v.length := by exact_mod_cast hvl
  have hLf : (0 : ℚ) < f.length := by exact_mod_cast hfl
  have hS : (0 : ℚ) < Sv := by exact_mod_cast hvs
  have hbal' : (Sf : ℚ) * ni * v.length = Sv * nj * f.length := by exact_mod_cast hbal
  generalize (v.length : ℚ) = Lv at *
  generalize (f.length : ℚ) = Lf at *
  set V : ℚ := Sv * nj / Lv with hV
  have hVpos : 0 < V := by positivity
  have e1 : ∀ k : ℚ, k / Lv * Sv = V * (k / nj) := by intro k; rw [hV]; field_simp
  have e2 : ∀ x : ℚ, x / Lf * Sf = V * (x / ni) := by
    intro x
    have : V = Sf * ni / Lf := by rw [hV, div_eq_div_iff hLv.ne' hLf.ne']; linarith
    rw [this]; field_simp
  refine ⟨⌈V * D + Sf + Sv⌉, fun k x hle => ?_⟩
  have h1 := (hb1 k).1
  have h2 := (hb2 x).2
  rw [sub_mul, e1, one_mul] at h1
  rw [add_mul, e2, one_mul] at h2
  have h3 := mul_le_mul_of_nonneg_left hle hVpos.le
  rw [mul_add] at h3
  have h4 : ((cum f x - cum v k : ℤ) : ℚ) ≤ V * D + Sf + Sv := by push_cast; linarith
  have h5 := h4.trans (Int.le_ceil _)
  exact_mod_cast h5

theorem num_le (h : OK g) (hg : Guarded g cap) {x : Core nV nE} (hr : Reachable g cap x) (a : Fin nV) :
    (x.acts a).numExecs ≤ x.completed a + 1 := by
  have hl := (inv_reachable h hr).len a
  rcases (ginv_reachable h hg hr).one a with ⟨-, h0⟩ | ⟨-, y, h0, -⟩ <;> rw [h0] at hl <;> simp at hl <;> omega

/-! ### Finitely many states -/

theorem exists_grid (g : Graph nV nE) : ∃ M : ℕ, 0 < M ∧ ∀ a, ∀ d ∈ g.dur a, ∃ z : ℤ, d * M = z := by
  have key : ∀ l : List ℚ, ∃ M : ℕ, 0 < M ∧ ∀ d ∈ l, ∃ z : ℤ, d * M = z := by
    intro l
    induction l with
    | nil => exact ⟨1, Nat.one_pos, by simp⟩
    | cons x l ih =>
      obtain ⟨M, hM, h⟩ := ih
      refine ⟨x.den * M, Nat.mul_pos x.den_pos hM, fun d hd => ?_⟩
      rcases List.mem_cons.1 hd with rfl | hd
      · refine ⟨d.num * M, ?_⟩
        push_cast
        rw [← mul_assoc, Rat.mul_den_eq_num]
      · obtain ⟨z, hz⟩ := h d hd
        refine ⟨x.den * z, ?_⟩
        push_cast
        rw [← hz]; ring
  obtain ⟨M, hM, h⟩ := key ((List.finRange nV).flatMap g.dur)
  exact ⟨M, hM, fun a d hd => h d (List.mem_flatMap.2 ⟨a, List.mem_finRange a, hd⟩)⟩

theorem execDur_mem (h : OK g) (a : Fin nV) (k : ℕ) : g.execDur a k ∈ g.dur a := by
  unfold Graph.execDur
  have hlen : 0 < (g.dur a).length := by rw [h.durLen]; exact h.phases a
  have := Nat.mod_lt k hlen
  rw [List.getD_eq_getElem?_getD, List.getElem?_eq_getElem this]
  exact List.getElem_mem _

theorem grid_run (h : OK g) (hg : Guarded g cap) {detect : Bool} {c : Cfg nV nE} {m : Machine nV nE}
    (hs : start g cap detect = some (c, m)) {M : ℕ} (hM : ∀ a, ∀ d ∈ g.dur a, ∃ z : ℤ, d * M = z) (n : ℕ) :
    ∀ a y, (run c m n).st.queue a = [y] → ∃ z : ℤ, y.1 * M = z := by
  obtain ⟨h1, h2, -, -, h5, -⟩ := start_spec hs
  induction n with
  | zero =>
    intro a y hy
    have hq : m.st.queue a = [] := by rw [show m.st = m.core.st from rfl, h5]; rfl
    simp [run, hq] at hy
  | succ n ih =>
    intro a y hy
    have hginv := ginv_reachable h hg (run_reachable hs n)
    have hrun : run c m (n + 1) = step c (run c m n) := rfl
    rcases step_kind c (run c m n) with ⟨e1, e2, e3, e4⟩ | ⟨b, hr, e1, e2, e3, e4⟩ | ⟨b, z, rest, hq, hz, e1, e2, e3, e4⟩ |
      ⟨-, e1, e3, hne, e4, e2⟩ <;> rw [← hrun] at e2 <;> rw [e2] at hy
    · exact ih a y hy
    · by_cases hab : a = b
      · subst hab
        have hidle := ready_idle (g := g) (cap := cap) hg (by rw [← h1, ← h2]; exact hr)
        have hq0 : (run c m n).st.queue a = [] := by
          rcases hginv.one a with ⟨-, h0⟩ | ⟨h0, -⟩
          · exact h0
          · simp only [Machine.core] at h0; rw [hidle] at h0; simp at h0
        rw [hq0] at hy
        simp only [Function.update_self, List.nil_append, List.cons.injEq, and_true] at hy
        rw [← hy]
        show ∃ z : ℤ, duration c.g a (phaseOf c.g _ a) * M = z
        unfold phaseOf
        rw [h1, duration_eq h]
        exact hM a _ (execDur_mem h a _)
      · rw [Function.update_of_ne hab] at hy; exact ih a y hy
    · by_cases hab : a = b
      · subst hab
        rw [Function.update_self] at hy
        rcases hginv.one a with ⟨-, h0⟩ | ⟨-, w, h0, -⟩
        · simp only [Machine.core] at h0; rw [hq] at h0; simp at h0
        · simp only [Machine.core] at h0; rw [hq, hy] at h0; simp at h0
      · rw [Function.update_of_ne hab] at hy; exact ih a y hy
    · simp only at hy
      cases hq : (run c m n).st.queue a with
      | nil => rw [hq] at hy; simp at hy
      | cons z l =>
        rw [hq] at hy
        simp only [List.map_cons, List.cons.injEq, List.map_eq_nil_iff] at hy
        obtain ⟨hy1, rfl⟩ := hy
        obtain ⟨z1, hz1⟩ := ih a z hq
        rcases nextEvent_cases (run c m n).st with h0 | ⟨b, x, rest, hb, hx⟩
        · exact absurd h0 hne
        · have hb1 : (run c m n).st.queue b = [x] := by
            rcases hginv.one b with ⟨-, h0⟩ | ⟨-, w, h0, -⟩
            · simp only [Machine.core] at h0; rw [hb] at h0; simp at h0
            · simp only [Machine.core] at h0; rw [hb] at h0 ⊢
              obtain ⟨rfl, rfl⟩ := List.cons.inj h0; rfl
          obtain ⟨z2, hz2⟩ := ih b x hb1
          refine ⟨z1 - z2, ?_⟩
          rw [← hy1, hx]
          push_cast
          rw [sub_mul, hz1, hz2]

/-- The part of a state that decides the future, but for the elapsed time. -/
def key (s : St nV nE) : (Fin nV → List (ℚ × ℕ)) × (Fin nV → ℕ) × (Fin nE → ℤ) := (s.queue, s.phase, s.tokens)

theorem finite_keys (h : OK g) (hg : Guarded g cap) (hb : Balanced g) (hcap : ∀ w, cap = some w → ∀ e, g.preload e ≤ w e)
    (hstrong : ∀ a b, Relation.ReflTransGen (Follows g cap) a b) {detect : Bool} {c : Cfg nV nE} {m : Machine nV nE}
    (hs : start g cap detect = some (c, m)) : {k | ∃ n, k = key (run c m n).st}.Finite := by
  obtain ⟨M, hM, hgrid⟩ := exists_grid g
  have hMq : (0 : ℚ) < M := by exact_mod_cast hM
  -- remaining times
  obtain ⟨Dm, hDm⟩ : ∃ Dm : ℚ, ∀ a, ∀ d ∈ g.dur a, d ≤ Dm := ⟨longMax, fun a d hd => (h.durMax a d hd).le⟩
  let G : Set ℚ := (fun z : ℤ => (z : ℚ) / M) '' Set.Icc 0 ⌈Dm * M⌉
  have hG : G.Finite := (Set.finite_Icc _ _).image _
  have hP : ∃ P : ℕ, ∀ a, g.phases a ≤ P := ⟨∑ a, g.phases a, fun a => single_le_sum (fun _ _ => Nat.zero_le _) (mem_univ a)⟩
  obtain ⟨P, hP⟩ := hP
  let Q : Set (List (ℚ × ℕ)) := {[]} ∪ (fun y => [y]) '' (G ×ˢ Set.Iic P)
  have hQ : Q.Finite := (Set.finite_singleton _).union ((hG.prod (Set.finite_Iic P)).image _)
  -- tokens
  have hT : ∀ e, ∃ T : ℤ, ∀ n, (run c m n).st.tokens e ≤ T := by
    intro e
    obtain ⟨D, hD⟩ := ahead h hb (hstrong (g.tgt e) (g.src e))
    obtain ⟨T, hT⟩ := tokens_of_close (h.consNonneg e) (h.prodNonneg e) (by rw [h.consLen]; exact h.phases _)
      (by rw [h.prodLen]; exact h.phases _) (hb.cons e) (hb.ni (g.src e)) (hb.ni (g.tgt e))
      (by rw [h.consLen, h.prodLen]; exact hb.bal e) D
    refine ⟨g.preload e + T, fun n => ?_⟩
    have hr := run_reachable hs n
    have hi := inv_reachable h hr
    have e1 := hD _ hi (num_le h hg hr) (fun e hc => by
      obtain ⟨w, hw⟩ := Option.isSome_iff_exists.1 hc
      exact hi.spaceNonneg w hw (hcap w hw) e)
    have hni : ∀ a, (0 : ℚ) < g.ni a := fun a => by exact_mod_cast hb.ni a
    have l1 := hi.len (g.src e)
    have l2 := hi.len (g.tgt e)
    have e2 := hT ((run c m n).core.acts (g.tgt e)).numExecs ((run c m n).core.completed (g.src e)) (by
      have a1 : ((run c m n).core.completed (g.src e) : ℚ) / g.ni (g.src e) ≤
          ((run c m n).core.acts (g.src e)).numExecs / g.ni (g.src e) :=
        div_le_div_of_nonneg_right (by exact_mod_cast (by omega)) (hni _).le
      have a2 : ((run c m n).core.completed (g.tgt e) : ℚ) / g.ni (g.tgt e) ≤
          ((run c m n).core.acts (g.tgt e)).numExecs / g.ni (g.tgt e) :=
        div_le_div_of_nonneg_right (by exact_mod_cast (by omega)) (hni _).le
      linarith)
    have e3 := hi.tok e
    have e4 : (run c m n).core.st.tokens e = (run c m n).st.tokens e := rfl
    rw [← e4, e3]; linarith
  choose T hT using hT
  have hfin : ((Set.univ.pi fun _ : Fin nV => Q) ×ˢ (Set.univ.pi fun _ : Fin nV => Set.Iic P) ×ˢ
      (Set.univ.pi fun e : Fin nE => Set.Icc 0 (T e))).Finite :=
    (Set.Finite.pi' fun _ => hQ).prod ((Set.Finite.pi' fun _ => Set.finite_Iic P).prod (Set.Finite.pi' fun e => Set.finite_Icc _ _)) |>.subset (by
      rintro ⟨x, y, z⟩ ⟨h1, h2, h3⟩
      exact ⟨fun a => h1 a trivial, fun a => h2 a trivial, fun a => h3 a trivial⟩)
  refine hfin.subset ?_
  rintro _ ⟨n, rfl⟩
  have hr := run_reachable hs n
  have hi := inv_reachable h hr
  have hgi := ginv_reachable h hg hr
  refine ⟨fun a _ => ?_, fun a _ => ?_, fun e _ => ⟨hi.tokNonneg e, hT e n⟩⟩
  · rcases hgi.one a with ⟨-, h0⟩ | ⟨-, y, h0, hy0, -⟩
    · left; exact h0
    · right
      refine ⟨y, ⟨?_, ?_⟩, h0.symm⟩
      · obtain ⟨z, hz⟩ := grid_run h hg hs hgrid n a y h0
        obtain ⟨i, t, a1, a2, a3, a4⟩ := (timed_run h hg hs n).running a y h0
        have a5 := clock_mono h hg hs a1.le
        rw [a3.2.2] at a5
        have a6 := hDm a _ (execDur_mem h a (((run c m n).acts a).numExecs - 1))
        have hle : y.1 ≤ Dm := by linarith
        refine ⟨z, ⟨?_, ?_⟩, ?_⟩
        · have : (0 : ℚ) ≤ z := by rw [← hz]; positivity
          exact_mod_cast this
        · have : (z : ℚ) ≤ Dm * M := by rw [← hz]; exact mul_le_mul_of_nonneg_right hle hMq.le
          exact_mod_cast this.trans (Int.le_ceil _)
        · simp only; rw [← hz]; field_simp
      · have := hi.phs a 0 y (by rw [h0]; rfl)
        have h1 := Nat.mod_lt ((run c m n).core.completed a + 0) (h.phases a)
        have h2 := hP a
        show y.2 ≤ P
        omega
  · have := hi.phase a
    have h1 := Nat.mod_lt ((run c m n).core.acts a).numExecs (h.phases a)
    have h2 := hP a
    show (run c m n).core.st.phase a ≤ P
    omega

end Kiter.Sim
