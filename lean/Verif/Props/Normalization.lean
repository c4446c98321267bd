/-
Property C84: the normalization of a graph.
-/
import Verif.Lemmas.Normalization
import Mathlib.Algebra.BigOperators.Fin
import Mathlib.Algebra.Order.BigOperators.Ring.Finset
import Mathlib.Tactic.NormNum
import Mathlib.Tactic.FinCases

set_option autoImplicit false

namespace Kiter
open Norm

variable {nV nE : Nat} {g : Norm.Graph nV nE}

/-- Specification: some positive numbers of complete phase cycles of the tasks leave every channel as it was. -/
def Norm.Consistent (g : Norm.Graph nV nE) : Prop :=
  ∃ q : Fin nV → Int, (∀ v, 0 < q v) ∧ ∀ e, (g.prod e).sum * q (g.src e) = (g.cons e).sum * q (g.tgt e)

/-- Specification: the numbers `z` normalize the graph. Multiplying the rates of a channel by one positive coefficient
makes its totals the numbers of its two tasks, and keeps the rate of every phase integer. -/
def Norm.Normalizes (g : Norm.Graph nV nE) (z : Fin nV → Int) : Prop :=
  (∀ v, 0 < z v) ∧ ∀ e, ∃ a : ℚ, a * (g.prod e).sum = z (g.src e) ∧ a * (g.cons e).sum = z (g.tgt e) ∧
    ∀ w ∈ g.prod e ++ g.cons e, ∃ m : ℤ, a * w = m

/-- Specification: every task is the end of some channel. -/
def Norm.NoIsolated (g : Norm.Graph nV nE) : Prop := ∀ v, ∃ e, g.src e = v ∨ g.tgt e = v

namespace Norm

/-- What the search returns: nothing, or a positive number for every task that has a channel. -/
theorem search_cases (h : OK g) (hE : 0 < nE) (P : State nV nE → Prop)
    (hP : ∀ s t s', Inv g s → P s → s.next t = true → step g s t = some (some s') → P s') (h0 : P (start g ⟨0, hE⟩)) :
    (rationalNormalize g = some none ∧ ∃ s t, Inv g s ∧ P s ∧ s.next t = true ∧ step g s t = some none) ∨
    ∃ (s' : State nV nE) (a : Fin nE → ℚ) (res : Fin nV → Option Int), P s' ∧ (∀ e, s'.alpha e = some (a e)) ∧
      (∀ e, 0 < a e ∧ (a e * fineGCD g e).den = 1) ∧
      (∀ v, (res v = none ∧ ∀ e, conn g v e = false) ∨ ∃ z : Int, res v = some z ∧ 0 < z ∧ (∃ e, conn g v e = true) ∧
        ∀ e, conn g v e = true → a e * rateAt g v e = z) ∧
      rationalNormalize g = if ∃ v, res v = none then none else some (some fun v => (res v).getD 0) := by
  have hhead : (List.finRange nE).head? = some ⟨0, hE⟩ := by
    obtain ⟨n, rfl⟩ : ∃ n, nE = n + 1 := ⟨nE - 1, by omega⟩
    rw [List.finRange_succ]; rfl
  have hgz : ¬ Int.gcd (inT g ⟨0, hE⟩) (outT g ⟨0, hE⟩) = 0 := by
    intro h1
    have := gcd_pos h ⟨0, hE⟩
    rw [h1] at this
    simp at this
  have hcard : (pending (start g ⟨0, hE⟩)).card < nV + 1 := by
    have := Finset.card_le_univ (pending (start g (⟨0, hE⟩ : Fin nE)))
    rw [Fintype.card_fin] at this
    omega
  rcases loop_spec h P hP (nV + 1) (start g ⟨0, hE⟩) (start_inv h _) h0 hcard with ⟨h1, h2⟩ | ⟨s', h1, hi, hp, hn⟩
  · left
    refine ⟨?_, h2⟩
    unfold rationalNormalize
    rw [hhead]; dsimp only
    rw [if_neg hgz, h1]
  · right
    have hset : ∀ e, ∃ a, s'.alpha e = some a ∧ 0 < a ∧ (a * fineGCD g e).den = 1 := by
      intro e
      obtain ⟨a, ha, hd⟩ := hi.done (g.src e) (hi.fresh hn e).1 (hn _) e (conn_iff.mpr (Or.inl rfl))
      exact ⟨a, ha, (hi.pos e a ha).1, hd⟩
    obtain ⟨res, hr, hres⟩ := collect_spec h hset (List.finRange nE) (fun _ => none)
    choose a ha hap had using hset
    refine ⟨s', a, res, hp, ha, fun e => ⟨hap e, had e⟩, fun v => ?_, ?_⟩
    · rcases (hres v).2 rfl with ⟨h3, h4⟩ | ⟨e, -, hc, h3⟩
      · exact Or.inl ⟨h3, fun e => h4 e (List.mem_finRange e)⟩
      · right
        rw [ha e] at h3
        have hint : ∃ m : ℤ, a e * rateAt g v e = m := by
          unfold rateAt
          split_ifs
          · exact scaled_int (had e) (sums_dvd e).1
          · exact scaled_int (had e) (sums_dvd e).2
        obtain ⟨m, hm⟩ := hint
        have hmp : (0 : ℚ) < m := by rw [← hm]; exact mul_pos (hap e) (rateAt_pos h v e)
        refine ⟨m, ?_, by exact_mod_cast hmp, ⟨e, hc⟩, fun c hcc => ?_⟩
        · rw [h3]; simp [hm]
        · have hv : s'.unseen v = false := by
            rcases conn_iff.mp hc with rfl | rfl
            · exact (hi.fresh hn e).1
            · exact (hi.fresh hn e).2
          rw [← hm]
          exact hi.agree v hv (hn v) c e _ _ hcc hc (ha c) (ha e)
    · unfold rationalNormalize
      rw [hhead]; dsimp only
      rw [if_neg hgz, h1]
      dsimp only
      rw [hr]

theorem range_mapM {α β : Type} {f : α → Option β} {t : α → β} (l : List α) (h : ∀ x ∈ l, f x = some (t x)) :
    l.mapM f = some (l.map t) := by
  induction l with
  | nil => rfl
  | cons x l ih =>
    rw [List.mapM_cons, h x List.mem_cons_self, ih fun y hy => h y (List.mem_cons_of_mem _ hy)]
    rfl

theorem checkedValues_spec (h : OK g) (e : Fin nE) :
    ∃ vs, checkedValues g e = some vs ∧ (∀ v ∈ vs, fineGCD g e ∣ v) ∧ ∀ w ∈ g.prod e ++ g.cons e, w ∈ vs := by
  have hm : ∀ (l : List Int) (n : Nat), l.length = n → (List.range n).mapM (fun k => l[k]?) = some l := by
    intro l n hl
    rw [range_mapM (f := fun k => l[k]?) (t := fun k => l.getD k 0) _ fun k hk => by
      simp [List.getElem?_eq_getElem (show k < l.length by have := List.mem_range.mp hk; omega)]]
    congr 1
    refine List.ext_getElem (by simp [hl]) fun i h1 h2 => ?_
    simp [List.getElem?_eq_getElem h2]
  refine ⟨⌊(g.preload e : ℚ) / fineGCD g e⌋ * fineGCD g e :: (g.prod e ++ g.cons e), ?_, ?_, ?_⟩
  · unfold checkedValues
    rw [hm _ _ (h.rep.prodLen e), hm _ _ (h.rep.consLen e)]
    unfold cFloor
    rw [if_neg (fineGCD_ne h e)]
    rfl
  · intro v hv
    rcases List.mem_cons.mp hv with rfl | hv
    · exact Dvd.intro_left _ rfl
    · exact fineGCD_dvd e v hv
  · intro w hw
    exact List.mem_cons_of_mem _ hw

theorem checkValue_true {zi zj ui uj old : Int} {a : ℚ} (hui : (0 : ℚ) < ui) (huj : (0 : ℚ) < uj) (h1 : a * ui = zi)
    (h2 : a * uj = zj) {m : ℤ} (hm : a * old = m) : checkValue zi zj ui uj old = true := by
  have e1 : (old : ℚ) * (zi / ui) = m := by rw [← h1, ← hm]; field_simp
  have e2 : (old : ℚ) * (zj / uj) = m := by rw [← h2, ← hm]; field_simp
  have d1 : (old * zi).tdiv ui = m := by
    have : old * zi = m * ui := by
      have : ((old * zi : ℤ) : ℚ) = ((m * ui : ℤ) : ℚ) := by push_cast; rw [← h1, ← hm]; ring
      exact_mod_cast this
    rw [this]
    exact Int.mul_tdiv_cancel _ (by intro h; rw [h] at hui; simp at hui)
  have d2 : (old * zj).tdiv uj = m := by
    have : old * zj = m * uj := by
      have : ((old * zj : ℤ) : ℚ) = ((m * uj : ℤ) : ℚ) := by push_cast; rw [← h2, ← hm]; ring
      exact_mod_cast this
    rw [this]
    exact Int.mul_tdiv_cancel _ (by intro h; rw [h] at huj; simp at huj)
  unfold checkValue
  rw [e1, e2, d1, d2]
  simp

theorem checkValue_eq {zi zj ui uj old : Int} (h0 : old ≠ 0) (h : checkValue zi zj ui uj old = true) :
    (zi : ℚ) / ui = zj / uj := by
  unfold checkValue at h
  simp only [Bool.and_eq_true, decide_eq_true_eq] at h
  obtain ⟨⟨⟨⟨⟨-, -⟩, h3⟩, h4⟩, h5⟩, -⟩ := h
  have : (old : ℚ) * (zi / ui) = old * (zj / uj) := by rw [← h3, ← h4, h5]
  exact mul_left_cancel₀ (by exact_mod_cast h0) this

/-- `check_validity` compares the coefficients that the two ends of each channel give. -/
theorem checkValidity_spec (h : OK g) {z : Fin nV → Int} {a : Fin nE → ℚ} (hd : ∀ e, (a e * fineGCD g e).den = 1)
    (hs : ∀ e, a e * (g.prod e).sum = z (g.src e)) : ∀ es : List (Fin nE),
    checkValidity g z es = some true ∧ (∀ e ∈ es, a e * (g.cons e).sum = z (g.tgt e)) ∨
    checkValidity g z es = some false ∧ ¬ ∀ e ∈ es, a e * (g.cons e).sum = z (g.tgt e)
  | [] => Or.inl ⟨rfl, by simp⟩
  | e :: es => by
    obtain ⟨vs, h1, h2, h3⟩ := checkedValues_spec h e
    have p1 : (0 : ℚ) < inT g e := by exact_mod_cast h.inPos e
    have p2 : (0 : ℚ) < outT g e := by exact_mod_cast h.outPos e
    unfold checkValidity
    rw [h1]
    dsimp only
    rw [if_neg (by have := h.inPos e; have := h.outPos e; unfold inT outT; omega)]
    by_cases ht : a e * (g.cons e).sum = z (g.tgt e)
    · rw [if_pos]
      · rcases checkValidity_spec h hd hs es with ⟨h4, h5⟩ | ⟨h4, h5⟩
        · left
          refine ⟨h4, fun c hc => ?_⟩
          rcases List.mem_cons.mp hc with rfl | hc
          · exact ht
          · exact h5 c hc
        · exact Or.inr ⟨h4, fun hh => h5 fun c hc => hh c (List.mem_cons_of_mem _ hc)⟩
      · rw [List.all_eq_true]
        intro v hv
        obtain ⟨m, hm⟩ := scaled_int (hd e) (h2 v hv)
        exact checkValue_true p1 p2 (hs e) ht hm
    · right
      rw [if_neg]
      · exact ⟨rfl, fun hh => ht (hh e List.mem_cons_self)⟩
      · intro hall
        rw [List.all_eq_true] at hall
        obtain ⟨w, hw, hw0⟩ : ∃ w ∈ g.prod e, w ≠ 0 := by
          by_contra hno
          push Not at hno
          have := h.inPos e
          rw [List.sum_eq_zero hno] at this
          omega
        have := checkValue_eq hw0 (hall w (h3 w (List.mem_append_left _ hw)))
        have hs' := hs e
        unfold inT outT at *
        rw [← hs'] at this
        apply ht
        field_simp at this
        linarith

/-- A normalization gives a solution of the balance equations. -/
theorem consistent_of {z : Fin nV → Int} (hz : ∀ v, 0 < z v) {a : Fin nE → ℚ} (ha : ∀ e, 0 < a e)
    (hs : ∀ e, a e * (g.prod e).sum = z (g.src e)) (ht : ∀ e, a e * (g.cons e).sum = z (g.tgt e)) : Consistent g := by
  refine ⟨fun v => ∏ w ∈ Finset.univ.erase v, z w, fun v => Finset.prod_pos fun w _ => hz w, fun e => ?_⟩
  have key : ∀ v, ((∏ w ∈ Finset.univ.erase v, z w : ℤ) : ℚ) = (∏ w, z w : ℤ) / z v := by
    intro v
    have := Finset.mul_prod_erase Finset.univ z (Finset.mem_univ v)
    have hv : (z v : ℚ) ≠ 0 := by exact_mod_cast (hz v).ne'
    rw [eq_div_iff hv, ← this]
    push_cast
    ring
  have p1 : (z (g.src e) : ℚ) ≠ 0 := by exact_mod_cast (hz _).ne'
  have p2 : (z (g.tgt e) : ℚ) ≠ 0 := by exact_mod_cast (hz _).ne'
  have : ((g.prod e).sum : ℚ) * ((∏ w ∈ Finset.univ.erase (g.src e), z w : ℤ) : ℚ) =
      (g.cons e).sum * ((∏ w ∈ Finset.univ.erase (g.tgt e), z w : ℤ) : ℚ) := by
    rw [key, key, ← hs, ← ht]
    rw [← hs] at p1
    rw [← ht] at p2
    have := (ha e).ne'
    have q1 : ((g.prod e).sum : ℚ) ≠ 0 := right_ne_zero_of_mul p1
    have q2 : ((g.cons e).sum : ℚ) ≠ 0 := right_ne_zero_of_mul p2
    field_simp
  exact_mod_cast this

/-- What follows from the numbers found by the search. -/
theorem normalize_found (h : OK g) {z : Fin nV → Int} {a : Fin nE → ℚ} (hr : rationalNormalize g = some (some z))
    (hz : ∀ v, 0 < z v) (hd : ∀ e, (a e * fineGCD g e).den = 1)
    (hs : ∀ e, a e * (g.prod e).sum = z (g.src e)) :
    (normalize g = some (some (z, a)) ∧ ∀ e, a e * (g.cons e).sum = z (g.tgt e)) ∨
    (normalize g = some none ∧ ¬ ∀ e, a e * (g.cons e).sum = z (g.tgt e)) := by
  have q1 : ∀ e, ((g.prod e).sum : ℚ) ≠ 0 := fun e => by exact_mod_cast (h.inPos e).ne'
  have q2 : ∀ e, ((g.cons e).sum : ℚ) ≠ 0 := fun e => by exact_mod_cast (h.outPos e).ne'
  rcases checkValidity_spec h hd hs (List.finRange nE) with ⟨h1, h2⟩ | ⟨h1, h2⟩
  · left
    have h3 : ∀ e, a e * (g.cons e).sum = z (g.tgt e) := fun e => h2 e (List.mem_finRange e)
    have e1 : ∀ e, (z (g.src e) : ℚ) / inT g e = a e := fun e => by
      unfold inT; rw [← hs e, mul_div_assoc, div_self (q1 e), mul_one]
    have e2 : ∀ e, (z (g.tgt e) : ℚ) / outT g e = a e := fun e => by
      unfold outT; rw [← h3 e, mul_div_assoc, div_self (q2 e), mul_one]
    refine ⟨?_, h3⟩
    unfold normalize
    rw [hr]; dsimp only
    rw [h1]; dsimp only
    unfold setNormalization
    rw [if_pos ⟨hz, fun e => ⟨h.inPos e, h.outPos e, by rw [e1, e2]⟩⟩]
    simp only [Option.map_some, Option.some.injEq, Prod.mk.injEq, true_and]
    funext e
    exact e1 e
  · right
    refine ⟨?_, fun hh => h2 fun e _ => hh e⟩
    unfold normalize
    rw [hr]; dsimp only
    rw [h1]

/-- The search on a graph without isolated task. -/
theorem search_noIsolated (h : OK g) (hE : 0 < nE) (hno : NoIsolated g) (P : State nV nE → Prop)
    (hP : ∀ s t s', Inv g s → P s → s.next t = true → step g s t = some (some s') → P s') (h0 : P (start g ⟨0, hE⟩)) :
    (rationalNormalize g = some none ∧ ∃ s t, Inv g s ∧ P s ∧ s.next t = true ∧ step g s t = some none) ∨
    ∃ (s' : State nV nE) (a : Fin nE → ℚ) (z : Fin nV → Int), P s' ∧ (∀ e, s'.alpha e = some (a e)) ∧
      (∀ e, 0 < a e ∧ (a e * fineGCD g e).den = 1) ∧
      (∀ v, 0 < z v ∧ ∀ e, conn g v e = true → a e * rateAt g v e = z v) ∧ rationalNormalize g = some (some z) := by
  rcases search_cases h hE P hP h0 with h1 | ⟨s', a, res, hp, ha, had, hres, hr⟩
  · exact Or.inl h1
  · right
    have hres' : ∀ v, ∃ z : Int, res v = some z ∧ 0 < z ∧ ∀ e, conn g v e = true → a e * rateAt g v e = z := by
      intro v
      rcases hres v with ⟨-, h2⟩ | h2
      · obtain ⟨e, he⟩ := hno v
        have := h2 e
        rw [conn_iff.mpr he] at this
        cases this
      · obtain ⟨z, h3, h4, -, h5⟩ := h2; exact ⟨z, h3, h4, h5⟩
    choose z hz hzp hza using hres'
    refine ⟨s', a, z, hp, ha, had, fun v => ⟨hzp v, hza v⟩, ?_⟩
    rw [hr, if_neg]
    · congr 2; funext v; rw [hz v]; rfl
    · rintro ⟨v, hv⟩; rw [hz v] at hv; cases hv

theorem rate_src (a : Fin nE → ℚ) {z : Fin nV → Int} (h : ∀ v, 0 < z v ∧ ∀ e, conn g v e = true → a e * rateAt g v e = z v)
    (e : Fin nE) : a e * (g.prod e).sum = z (g.src e) := by
  have := (h (g.src e)).2 e (conn_iff.mpr (Or.inl rfl))
  unfold rateAt inT at this
  rwa [if_pos rfl] at this

theorem normalize_noEdge (g : Norm.Graph nV 0) : normalize g = some (some (fun _ => 1, fun e => e.elim0)) := by
  have hr : rationalNormalize g = some (some fun _ => 1) := rfl
  unfold normalize
  rw [hr]; dsimp only
  have : checkValidity g (fun _ => 1) (List.finRange 0) = some true := rfl
  rw [this]; dsimp only
  unfold setNormalization
  rw [if_pos ⟨fun _ => one_pos, fun e => e.elim0⟩]
  simp only [Option.map_some, Option.some.injEq, Prod.mk.injEq, true_and]
  funext e
  exact e.elim0

/-- Whatever `normalize` accepts comes from the search. -/
theorem normalize_some (h : OK g) {z : Fin nV → Int} {α : Fin nE → ℚ} (hn : normalize g = some (some (z, α))) :
    (∀ v, 0 < z v) ∧ (∀ e, 0 < α e) ∧ (∀ e, α e * (g.prod e).sum = z (g.src e)) ∧
    (∀ e, α e * (g.cons e).sum = z (g.tgt e)) ∧ ∀ e, (α e * fineGCD g e).den = 1 := by
  rcases Nat.eq_zero_or_pos nE with rfl | hE
  · rw [normalize_noEdge] at hn
    simp only [Option.some.injEq, Prod.mk.injEq] at hn
    obtain ⟨rfl, rfl⟩ := hn
    exact ⟨fun _ => one_pos, fun e => e.elim0, fun e => e.elim0, fun e => e.elim0, fun e => e.elim0⟩
  · rcases search_cases h hE (fun _ => True) (fun _ _ _ _ _ _ _ => trivial) trivial with
      ⟨h1, -⟩ | ⟨s', a, res, -, ha, had, hres, hr⟩
    · unfold normalize at hn; rw [h1] at hn; cases hn
    · by_cases hv : ∃ v, res v = none
      · rw [if_pos hv] at hr; unfold normalize at hn; rw [hr] at hn; cases hn
      · rw [if_neg hv] at hr
        push Not at hv
        have hz : ∀ v, 0 < (res v).getD 0 ∧ ∀ e, conn g v e = true → a e * rateAt g v e = ((res v).getD 0 : Int) := by
          intro v
          rcases hres v with ⟨h2, -⟩ | ⟨x, h2, h3, -, h4⟩
          · exact absurd h2 (hv v)
          · rw [h2]; exact ⟨h3, h4⟩
        have hs := rate_src a hz
        rcases normalize_found h hr (fun v => (hz v).1) (fun e => (had e).2) hs with ⟨h5, h6⟩ | ⟨h5, -⟩
        · rw [hn] at h5
          simp only [Option.some.injEq, Prod.mk.injEq] at h5
          obtain ⟨rfl, rfl⟩ := h5
          exact ⟨fun v => (hz v).1, fun e => (had e).1, hs, h6, fun e => (had e).2⟩
        · rw [hn] at h5; cases h5

end Norm

/-- **C84** When `normalize` succeeds, the numbers of the tasks are positive, every channel has one positive coefficient
that turns its two rate totals into the numbers of its two tasks, the normalized rate of every phase is defined and is
exactly the rate times the coefficient, and every amount of tokens has a normalized value: its largest part that is a
multiple of the common divisor of the rates, times the coefficient. -/
theorem C84_sound (h : Norm.OK g) {z : Fin nV → Int} {α : Fin nE → ℚ} (hn : normalize g = some (some (z, α))) :
    (∀ v, 0 < z v) ∧ ∀ e, 0 < α e ∧ α e * (g.prod e).sum = z (g.src e) ∧ α e * (g.cons e).sum = z (g.tgt e) ∧
      (∀ k (hk : k < (g.prod e).length), ∃ m, normIn g α e (k + 1) = some m ∧ (m : ℚ) = α e * (g.prod e)[k]) ∧
      (∀ k (hk : k < (g.cons e).length), ∃ m, normOut g α e (k + 1) = some m ∧ (m : ℚ) = α e * (g.cons e)[k]) ∧
      ∀ v, ∃ m k : ℤ, normalizeUnknown g α e v = some m ∧ (m : ℚ) = α e * (k * fineGCD g e : ℤ) ∧
        k * fineGCD g e ≤ v ∧ v < (k + 1) * fineGCD g e := by
  obtain ⟨h1, h2, h3, h4, h5⟩ := normalize_some h hn
  refine ⟨h1, fun e => ⟨h2 e, h3 e, h4 e, ?_, ?_, ?_⟩⟩
  · intro k hk
    obtain ⟨m, hm⟩ := scaled_int (h5 e) (fineGCD_dvd e _ (List.mem_append_left _ (List.getElem_mem hk)))
    refine ⟨m, ?_, hm.symm⟩
    unfold normIn normalizeValue
    simp [List.getElem?_eq_getElem hk, mul_comm _ (α e), hm]
  · intro k hk
    obtain ⟨m, hm⟩ := scaled_int (h5 e) (fineGCD_dvd e _ (List.mem_append_right _ (List.getElem_mem hk)))
    refine ⟨m, ?_, hm.symm⟩
    unfold normOut normalizeValue
    simp [List.getElem?_eq_getElem hk, mul_comm _ (α e), hm]
  · intro v
    have hf : 0 < fineGCD g e := by
      have hne := fineGCD_ne h e
      have : 0 ≤ fineGCD g e := by
        obtain ⟨-, -, -, b4⟩ := Rep.foldl_gcd (fun x : Int => x) (g.cons e)
          ((g.prod e).foldl (fun x r => (Int.gcd x r : Int)) ((g.prod e).headD 0))
        refine b4 ((Rep.foldl_gcd (fun x : Int => x) (g.prod e) _).2.2.2 ?_)
        cases hp : g.prod e with
        | nil => simp
        | cons x l => exact h.rep.prodNonneg e x (by rw [hp]; simp)
      omega
    have hfq : (0 : ℚ) < fineGCD g e := by exact_mod_cast hf
    obtain ⟨m, hm⟩ := scaled_int (w := ⌊(v : ℚ) / fineGCD g e⌋ * fineGCD g e) (h5 e) (Dvd.intro_left _ rfl)
    refine ⟨m, ⌊(v : ℚ) / fineGCD g e⌋, ?_, hm.symm, ?_, ?_⟩
    · unfold normalizeUnknown cFloor normalizeValue
      rw [if_neg hf.ne']
      simp only [Option.bind_eq_bind, Option.bind_some]
      rw [mul_comm, hm]
      simp
    · have := Int.floor_le ((v : ℚ) / fineGCD g e)
      rw [le_div_iff₀ hfq] at this
      exact_mod_cast this
    · have := Int.lt_floor_add_one ((v : ℚ) / fineGCD g e)
      rw [div_lt_iff₀ hfq] at this
      exact_mod_cast this

/-- **C84** On a graph in which every task has a channel, `normalize` succeeds exactly on consistent graphs, and returns
`false` on the others. -/
theorem C84_decides (h : Norm.OK g) (hno : NoIsolated g) :
    (Consistent g → ∃ r, normalize g = some (some r)) ∧ (¬ Consistent g → normalize g = some none) := by
  have hE : 0 < nE := by
    obtain ⟨e, -⟩ := hno ⟨0, h.rep.vertices⟩
    exact e.pos
  constructor
  · rintro ⟨q, hq, hb⟩
    have hqp : ∀ v, (0 : ℚ) < q v := fun v => by exact_mod_cast hq v
    have hbq : ∀ e, ((g.prod e).sum : ℚ) * q (g.src e) = (g.cons e).sum * q (g.tgt e) := fun e => by exact_mod_cast hb e
    have h0 : Border g (fun v => (q v : ℚ)) (start g ⟨0, hE⟩) := by
      refine seed_border hbq ?_ ⟨fun _ => rfl, rfl, rfl⟩
      constructor <;> simp
    rcases search_noIsolated h hE hno (Border g fun v => (q v : ℚ)) (fun s t s' hi hb ht hs => by
        obtain ⟨s2, h1, h2⟩ := border_step h hqp hbq hi hb ht
        rw [hs] at h1
        obtain rfl : s' = s2 := by simpa using h1
        exact h2) h0 with ⟨-, s, t, hi, hb', ht, hs⟩ | ⟨s', a, z, -, ha, had, hz, hr⟩
    · obtain ⟨s2, h1, -⟩ := border_step h hqp hbq hi hb' ht
      rw [hs] at h1; cases h1
    · rcases normalize_found h hr (fun v => (hz v).1) (fun e => (had e).2) (rate_src a hz) with ⟨h5, -⟩ | ⟨-, h6⟩
      · exact ⟨_, h5⟩
      · exfalso
        refine h6 fun e => ?_
        have := (hz (g.tgt e)).2 e (conn_iff.mpr (Or.inr rfl))
        unfold rateAt inT outT at this
        split_ifs at this with hse
        · have h7 := hb e
          rw [hse] at h7
          have := mul_right_cancel₀ (hq _).ne' h7
          rw [← this]
          assumption
        · exact this
  · intro hcons
    rcases search_noIsolated h hE hno (fun _ => True) (fun _ _ _ _ _ _ _ => trivial) trivial with
      ⟨h1, -⟩ | ⟨s', a, z, -, ha, had, hz, hr⟩
    · unfold normalize; rw [h1]
    · rcases normalize_found h hr (fun v => (hz v).1) (fun e => (had e).2) (rate_src a hz) with ⟨-, h6⟩ | ⟨h5, -⟩
      · exact absurd (consistent_of (fun v => (hz v).1) (fun e => (had e).1) (rate_src a hz) h6) hcons
      · exact h5

/-- **C84** A graph without channel is normalized with 1 everywhere. -/
theorem C84_no_channel (g : Norm.Graph nV 0) : ∃ α, normalize g = some (some (fun _ => 1, α)) :=
  ⟨_, normalize_noEdge g⟩

/-- **C84** An isolated task in a consistent graph that has channels makes `normalize` fail its final assertion. -/
theorem C84_isolated_fails (h : Norm.OK g) (hE : 0 < nE) (hc : Consistent g) {v : Fin nV}
    (hv : ∀ e, g.src e ≠ v ∧ g.tgt e ≠ v) : normalize g = none := by
  obtain ⟨q, hq, hb⟩ := hc
  have hqp : ∀ v, (0 : ℚ) < q v := fun v => by exact_mod_cast hq v
  have hbq : ∀ e, ((g.prod e).sum : ℚ) * q (g.src e) = (g.cons e).sum * q (g.tgt e) := fun e => by exact_mod_cast hb e
  have h0 : Border g (fun v => (q v : ℚ)) (start g ⟨0, hE⟩) := by
    refine seed_border hbq ?_ ⟨fun _ => rfl, rfl, rfl⟩
    constructor <;> simp
  rcases search_cases h hE (Border g fun v => (q v : ℚ)) (fun s t s' hi hb ht hs => by
      obtain ⟨s2, h1, h2⟩ := border_step h hqp hbq hi hb ht
      rw [hs] at h1
      obtain rfl : s' = s2 := by simpa using h1
      exact h2) h0 with ⟨-, s, t, hi, hb', ht, hs⟩ | ⟨s', a, res, -, ha, had, hres, hr⟩
  · obtain ⟨s2, h1, -⟩ := border_step h hqp hbq hi hb' ht
    rw [hs] at h1; cases h1
  · rcases hres v with ⟨h2, -⟩ | ⟨x, h2, h3, ⟨e, he⟩, h4⟩
    · rw [if_pos ⟨v, h2⟩] at hr
      unfold normalize; rw [hr]
    · exfalso
      rcases conn_iff.mp he with h5 | h5
      · exact (hv e).1 h5
      · exact (hv e).2 h5

/-- **C84** On a connected graph the numbers found are the least ones: those of any other normalization are a multiple. -/
theorem C84_minimal (h : Norm.OK g) (hno : NoIsolated g) (hcon : ∀ a b, Relation.ReflTransGen (Rep.Adj g.toGraph) a b)
    {z : Fin nV → Int} {α : Fin nE → ℚ} (hn : normalize g = some (some (z, α))) {z' : Fin nV → Int} (hz' : Normalizes g z') :
    ∃ k : ℤ, 0 < k ∧ ∀ v, z' v = k * z v := by
  have hE : 0 < nE := by
    obtain ⟨e, -⟩ := hno ⟨0, h.rep.vertices⟩
    exact e.pos
  obtain ⟨hp, hz'⟩ := hz'
  choose A hA1 hA2 hA3 using hz'
  have hA : Rival g A fun v => (z' v : ℚ) := by
    refine ⟨fun e => ?_, hA1, hA2, fun e => ?_⟩
    · have h1 : (0 : ℚ) < z' (g.src e) := by exact_mod_cast hp _
      have h2 : (0 : ℚ) < (g.prod e).sum := by exact_mod_cast h.inPos e
      rw [← hA1] at h1
      exact (mul_pos_iff_of_pos_right h2).mp h1
    · have hne : g.prod e ≠ [] := by
        intro h0
        have := h.inPos e
        rw [h0] at this
        simp at this
      have hd : ((A e).den : ℤ) ∣ fineGCD g e := dvd_fineGCD hne fun w hw => by
        obtain ⟨m, hm⟩ := hA3 e w hw
        exact den_dvd_of_mul (m := m) (by rw [mul_comm]; exact hm)
      obtain ⟨k, hk⟩ := hd
      refine ⟨(A e).num * k, ?_⟩
      have := Rat.mul_den_eq_num (A e)
      rw [hk]; push_cast; rw [← this]; ring
  rcases search_noIsolated h hE hno (Multiple A) (fun s t s' hi hm ht hs => multiple_step h hcon hA hi hm ht hs)
      (start_multiple h hA _) with ⟨h1, -⟩ | ⟨s', a, z2, ⟨r, hr, hm⟩, ha, had, hz, hr2⟩
  · unfold normalize at hn; rw [h1] at hn; cases hn
  · rcases normalize_found h hr2 (fun v => (hz v).1) (fun e => (had e).2) (rate_src a hz) with ⟨h5, -⟩ | ⟨h5, -⟩
    · rw [hn] at h5
      simp only [Option.some.injEq, Prod.mk.injEq] at h5
      obtain ⟨rfl, rfl⟩ := h5
      refine ⟨r, hr, fun v => ?_⟩
      obtain ⟨e, he⟩ := hno v
      have h6 := hA.rate (conn_iff.mpr he)
      have h7 := (hz v).2 e (conn_iff.mpr he)
      rw [hm e _ (ha e), mul_assoc, h7] at h6
      exact_mod_cast h6.symm
    · rw [hn] at h5; cases h5

/-- **C84** The number of a task times its number of phase cycles in any solution of the balance equations is the same
for all the tasks of a connected graph. -/
theorem C84_repetition (h : Norm.OK g) {z : Fin nV → Int} {α : Fin nE → ℚ} (hn : normalize g = some (some (z, α)))
    {q : Fin nV → Int} (hq : ∀ e, (g.prod e).sum * q (g.src e) = (g.cons e).sum * q (g.tgt e)) {a b : Fin nV}
    (hab : Relation.ReflTransGen (Rep.Adj g.toGraph) a b) : z a * q a = z b * q b := by
  obtain ⟨-, h2, h3, h4, -⟩ := normalize_some h hn
  have edge : ∀ e, z (g.src e) * q (g.src e) = z (g.tgt e) * q (g.tgt e) := by
    intro e
    have e1 : ((g.prod e).sum : ℚ) * q (g.src e) = (g.cons e).sum * q (g.tgt e) := by exact_mod_cast hq e
    have : (z (g.src e) : ℚ) * q (g.src e) = z (g.tgt e) * q (g.tgt e) := by
      rw [← h3 e, ← h4 e, mul_assoc, e1]; ring
    exact_mod_cast this
  induction hab with
  | refl => rfl
  | tail _ hst ih =>
    obtain ⟨e, ⟨rfl, rfl⟩ | ⟨rfl, rfl⟩⟩ := hst
    · rw [ih, edge e]
    · rw [ih, ← edge e]

namespace NormExample

/-- Three tasks in a row; the second has two phases. -/
def G : Norm.Graph 3 2 := ⟨⟨![0, 1], ![1, 2], ![[4], [1, 2]], ![[2, 4], [5]], ![1, 2, 1]⟩, ![3, 7]⟩

example : Norm.OK G := ⟨⟨by decide, by decide, by decide, by decide, by decide, by decide⟩, by decide, by decide⟩
example : NoIsolated G := by unfold NoIsolated; decide
example : Consistent G := ⟨![15, 10, 6], by decide, by decide⟩
example : ∃ α, normalize G = some (some (![2, 3, 5], α)) := by
  have : (normalize G).map (fun r => r.map fun p => List.ofFn p.1) = some (some [2, 3, 5]) := by decide +kernel
  cases hn : normalize G with
  | none => rw [hn] at this; cases this
  | some r =>
    cases r with
    | none => rw [hn] at this; cases this
    | some p =>
      rw [hn] at this
      simp only [Option.map_some, Option.some.injEq] at this
      refine ⟨p.2, ?_⟩
      have h1 : p.1 = ![2, 3, 5] := List.ofFn_injective (by rw [this]; rfl)
      rw [← h1]

/-- The same graph with a channel back whose rates contradict the others. -/
def Bad : Norm.Graph 3 3 := ⟨⟨![0, 1, 2], ![1, 2, 0], ![[4], [1, 2], [1]], ![[2, 4], [5], [1]], ![1, 2, 1]⟩, ![3, 7, 0]⟩

example : ¬ Consistent Bad := by
  rintro ⟨q, hq, hb⟩
  have h0 := hb 0
  have h1 := hb 1
  have h2 := hb 2
  simp [Bad] at h0 h1 h2
  have := hq 0
  omega
example : normalize Bad = some none := by
  have : (normalize Bad).map (fun r => r.isNone) = some true := by decide +kernel
  cases hn : normalize Bad with
  | none => rw [hn] at this; cases this
  | some r => cases r with
    | none => rfl
    | some p => rw [hn] at this; cases this

end NormExample

/-- **C84** On a graph with several components the numbers need not be the least ones: the coefficient that makes a later
component integer also multiplies the components that were complete. -/
theorem C84_components_counterexample :
    let g : Norm.Graph 4 2 := ⟨⟨![0, 2], ![1, 3], ![[1], [1, 1]], ![[1], [2]], ![1, 1, 2, 1]⟩, ![0, 0]⟩
    Norm.OK g ∧ NoIsolated g ∧ (∃ z α, normalize g = some (some (z, α)) ∧ z 0 = 2 ∧ z 1 = 2) ∧ Normalizes g ![1, 1, 2, 2] := by
  intro g
  refine ⟨⟨⟨by decide, by decide, by decide, by decide, by decide, by decide⟩, by decide, by decide⟩, by unfold NoIsolated; decide, ?_, ?_⟩
  · have : (normalize g).map (fun r => r.map fun p => List.ofFn p.1) = some (some [2, 2, 2, 2]) := by decide +kernel
    cases hn : normalize g with
    | none => rw [hn] at this; cases this
    | some r =>
      cases r with
      | none => rw [hn] at this; cases this
      | some p =>
        rw [hn] at this
        simp only [Option.map_some, Option.some.injEq] at this
        have h1 : p.1 = ![2, 2, 2, 2] := List.ofFn_injective (by rw [this]; rfl)
        exact ⟨p.1, p.2, rfl, by rw [h1]; rfl, by rw [h1]; rfl⟩
  · refine ⟨by decide, fun e => ⟨1, ?_⟩⟩
    fin_cases e
    · refine ⟨by simp [g], by simp [g], fun w _ => ⟨w, by simp⟩⟩
    · refine ⟨by simp [g], by simp [g], fun w _ => ⟨w, by simp⟩⟩

end Kiter
