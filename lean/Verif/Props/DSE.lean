/-
Properties C54, C55: the buffer/throughput exploration (dse.cpp:320-460) finds the whole Pareto front and stops.

The throughput analysis itself is a parameter here: what the exploration needs from it is stated as hypotheses on
`DSE.thrOf` and on the critical channels.
-/
import Verif.Props.Storage
import Mathlib.Data.Int.Interval
import Mathlib.Order.Interval.Finset.Nat

set_option autoImplicit false

namespace Kiter

open Finset

variable {n : ℕ}

/-- Specification: throughput of given channel quantities, as recorded by the exploration (negative analysis results
count as 0). -/
def DSE.thrOf (D : DSE n) (q : Fin n → Int) : ℚ := if (D.analyse q).1 < 0 then 0 else (D.analyse q).1

/-- Specification: the quantities the exploration ranges over: the initial ones plus a number of steps on each modelled
channel. -/
def DSE.Lattice (D : DSE n) (init q : Fin n → Int) : Prop :=
  ∀ e, q e = init e ∨ (D.modelled e = true ∧ ∃ k : ℕ, q e = init e + k * D.step e)

/-- Specification: enlarging any channel that is not critical does not help: to do better than `q` from above `q`, some
critical modelled channel must grow by at least its step. -/
def DSE.CriticalComplete (D : DSE n) (init : Fin n → Int) : Prop :=
  ∀ q q', D.Lattice init q → D.Lattice init q' → q ≤ q' → D.thrOf q < D.thrOf q' →
    ∃ e ∈ (D.analyse q).2, D.modelled e = true ∧ q e + D.step e ≤ q' e

theorem DSE.lattice_ge {D : DSE n} {init q : Fin n → Int} (hstep : ∀ e, D.modelled e = true → 0 < D.step e)
    (h : D.Lattice init q) : init ≤ q := by
  intro e
  rcases h e with h | ⟨hm, k, h⟩
  · exact h.ge
  · have := mul_nonneg (Int.natCast_nonneg k) (hstep e hm).le
    show init e ≤ q e
    linarith

theorem DSE.lattice_step {D : DSE n} {init q : Fin n → Int} (h : D.Lattice init q) {e : Fin n} (he : D.modelled e = true) :
    D.Lattice init (Function.update q e (q e + D.step e)) := by
  intro f
  by_cases hf : f = e
  · subst hf
    rw [Function.update_self]
    right
    refine ⟨he, ?_⟩
    rcases h f with h | ⟨-, k, h⟩
    · exact ⟨1, by rw [h]; push_cast; ring⟩
    · exact ⟨k + 1, by rw [h]; push_cast; ring⟩
  · rw [Function.update_of_ne hf]; exact h f

theorem sum_update_step (q : Fin n → Int) (e : Fin n) (s : Int) :
    ∑ f, Function.update q e (q e + s) f = ∑ f, q f + s := by
  rw [← Finset.add_sum_erase _ _ (Finset.mem_univ e), ← Finset.add_sum_erase (a := e) _ q (Finset.mem_univ e),
    Function.update_self, Finset.sum_congr rfl (g := q)]
  · ring
  · intro f hf
    rw [Function.update_of_ne (Finset.ne_of_mem_erase hf)]

theorem minimizeLoop_pmax (eps : ℚ) (new : SD n) (l : List (SD n)) (s : SDSet n) :
    (SDSet.minimizeLoop eps new l s).pmax = s.pmax := by
  induction l generalizing s with
  | nil => rfl
  | cons d l ih =>
    unfold SDSet.minimizeLoop
    split
    · rfl
    · split
      · rw [ih]; rfl
      · rw [ih]

/-- Invariant of the exploration loop; `E` are the quantities explored so far, `P` the quantities above the initial
checklist. -/
structure DSE.Inv (D : DSE n) (init : Fin n → Int) (P : (Fin n → Int) → Prop) (C R : SDSet n) (E : Set (Fin n → Int)) :
    Prop where
  wfC : C.WF
  wfR : R.WF
  latC : ∀ c ∈ C.members, D.Lattice init c.quantity
  latE : ∀ q ∈ E, D.Lattice init q
  fresh : ∀ c ∈ C.members, c.quantity ∉ E
  order : ∀ q ∈ E, ∀ c ∈ C.members, ∑ e, q e ≤ c.size
  resE : ∀ r ∈ R.members, r.quantity ∈ E ∧ r.thr = D.thrOf r.quantity
  cover : ∀ q ∈ E, ∃ r ∈ R.members, r.size ≤ ∑ e, q e ∧ D.thrOf q - D.eps < r.thr
  front : ∀ q, D.Lattice init q → P q → (∃ p ∈ E, p ≤ q ∧ D.thrOf q ≤ D.thrOf p) ∨ ∃ c ∈ C.members, c.quantity ≤ q
  pareto : ∀ x ∈ R.members, ∀ y ∈ R.members, x ≠ y → ¬ Dominates D.eps x y
  best : ∀ q ∈ E, D.thrOf q ≤ R.pmax.2
  pmax : R.pmax = (0, 0) ∨ ∃ p ∈ E, R.pmax = (∑ e, p e, D.thrOf p)
  first : ∀ q ∈ E, 0 < R.pmax.2 → D.thrOf q = R.pmax.2 → R.pmax.1 ≤ ∑ e, q e

theorem DSE.inv_init (D : DSE n) (init : SD n) (h : init.Consistent)
    (hstep : ∀ e, D.modelled e = true → 0 < D.step e) :
    D.Inv init.quantity (fun _ => True) (SDSet.single init.size init) SDSet.empty ∅ := by
  have hm : ∀ c, c ∈ (SDSet.single init.size init).members ↔ c = init := by
    intro c; simp [SDSet.single, SDSet.members]
  constructor
  case wfC => exact SDSet.wf_single h
  case wfR => exact SDSet.wf_empty
  case latC => intro c hc; rw [hm] at hc; subst hc; exact fun e => Or.inl rfl
  case front =>
    intro q hq _
    right
    exact ⟨init, (hm _).mpr rfl, DSE.lattice_ge hstep hq⟩
  case pmax => left; rfl
  all_goals simp [SDSet.members_empty]

/-- Adding a new distribution to the result: the recorded best. -/
theorem add_pmax {t : SDSet n} {d : SD n} (hno : ∀ x ∈ t.members, x.quantity ≠ d.quantity) :
    (t.add d).pmax = if d.thr > t.pmax.2 then (d.size, d.thr) else t.pmax := by
  unfold SDSet.add
  rw [if_neg]
  intro hd
  unfold SDSet.duplicate at hd
  split at hd
  · simp at hd
  · rename_i l hl
    obtain ⟨x, hx, hxd⟩ := List.any_eq_true.mp hd
    exact hno x (SDSet.mem_members.mpr ⟨_, SDSet.bucket_some hl, hx⟩) ((SD.eqv_iff _ _).mp hxd).symm

theorem DSE.inv_round (D : DSE n) (init : Fin n → Int) (heps : 0 < D.eps)
    (hstep : ∀ e, D.modelled e = true → 0 < D.step e) (hcrit : D.CriticalComplete init) {C R : SDSet n}
    {P : (Fin n → Int) → Prop} {E : Set (Fin n → Int)} (h : D.Inv init P C R E) {r : SDSet n × SDSet n} (hr : D.round C R = some r) :
    ∃ c, C.next = some c ∧ c ∈ C.members ∧ (∀ x ∈ C.members, c.size ≤ x.size) ∧
      D.Inv init P r.1 r.2 (insert c.quantity E) := by
  unfold DSE.round at hr
  cases hc : C.next with
  | none => rw [hc] at hr; simp at hr
  | some c =>
    obtain ⟨hcm, hcmin⟩ := (SDSet.next_spec h.wfC).2 c hc
    refine ⟨c, rfl, hcm, hcmin, ?_⟩
    rw [hc] at hr
    simp only [Option.bind_eq_bind, Option.bind_some, Option.pure_def, Option.some.injEq] at hr
    have hcc := h.wfC.consistent hcm
    obtain ⟨w1, m1⟩ := SDSet.remove_spec h.wfC hcc
    have hthr : (if (D.analyse c.quantity).1 < 0 then 0 else (D.analyse c.quantity).1) = D.thrOf c.quantity := rfl
    rw [hthr] at hr
    set c' := c.setThr (D.thrOf c.quantity) with hc'
    have q' : c'.quantity = c.quantity := rfl
    have s' : c'.size = c.size := rfl
    have t' : c'.thr = D.thrOf c.quantity := rfl
    have cc' : c'.Consistent := hcc
    have hsz : c.size = ∑ e, c.quantity e := hcc
    clear_value c'
    -- the checklist
    set succs := ((D.analyse c.quantity).2.filter D.modelled).map fun e => c'.setQuantity e (c'.quantity e + D.step e)
      with hsuccs
    have hfold : ((D.analyse c.quantity).2.filter D.modelled).foldl
        (fun l e => l.add (c'.setQuantity e (c'.quantity e + D.step e))) (C.remove c) = succs.foldl SDSet.add (C.remove c) := by
      rw [hsuccs, List.foldl_map]
    rw [hfold] at hr
    obtain ⟨w2, f1, f2, f3⟩ := SDSet.foldl_add_spec w1 succs (fun x hx => by
      obtain ⟨e, -, rfl⟩ := List.mem_map.mp hx
      exact (c'.setQuantity_spec e _).1)
    have hsucc : ∀ x ∈ succs, ∃ e ∈ (D.analyse c.quantity).2, D.modelled e = true ∧ x.Consistent ∧
        x.quantity = Function.update c.quantity e (c.quantity e + D.step e) ∧ x.size = c.size + D.step e := by
      intro x hx
      obtain ⟨e, he, rfl⟩ := List.mem_map.mp hx
      obtain ⟨he, hem⟩ := List.mem_filter.mp he
      obtain ⟨a, b, -, -⟩ := c'.setQuantity_spec e (c'.quantity e + D.step e)
      refine ⟨e, he, hem, a, by rw [b, q'], ?_⟩
      rw [a, b, q', sum_update_step, hsz]
    -- the result
    have hnoR : ∀ x ∈ R.members, x.quantity ≠ c'.quantity := fun x hx hq =>
      h.fresh c hcm (by rw [← q', ← hq]; exact (h.resE x hx).1)
    obtain ⟨w3, m3⟩ := SDSet.add_spec h.wfR cc'
    have hin : c' ∈ (R.add c').members := (m3 c').mpr (Or.inr ⟨rfl, hnoR⟩)
    have hmem3 : ∀ x, x ∈ (R.add c').members ↔ x ∈ R.members ∨ x = c' := by
      intro x
      rw [m3]
      constructor
      · rintro (h | ⟨h, -⟩)
        · exact Or.inl h
        · exact Or.inr h
      · rintro (h | rfl)
        · exact Or.inl h
        · exact Or.inr ⟨rfl, hnoR⟩
    have hold : ∀ x ∈ R.members, x ≠ c' := fun x hx he => hnoR x hx (by rw [he])
    have hRsz : ∀ x ∈ R.members, x.size ≤ c.size := by
      intro x hx
      rw [h.wfR.consistent hx]
      exact h.order _ (h.resE x hx).1 c hcm
    obtain ⟨z1, z2, z3, z4, z5⟩ := minimize_spec D.eps w3 hin
    have hpm : ((R.add c').minimize D.eps c').pmax = (R.add c').pmax := minimizeLoop_pmax _ _ _ _
    have hp := add_pmax hnoR
    rw [t', s'] at hp
    subst hr
    have hthr0 : 0 ≤ D.thrOf c.quantity := by
      unfold DSE.thrOf; split
      · exact le_refl _
      · rename_i h; exact not_lt.mp h
    have hpm0 : 0 ≤ R.pmax.2 := by
      rcases h.pmax with h' | ⟨p, hp, h'⟩
      · rw [h']
      · rw [h']; unfold DSE.thrOf; simp only; split
        · exact le_refl _
        · rename_i h; exact not_lt.mp h
    constructor
    case wfC => exact w2
    case wfR => exact z1
    case latC =>
      intro x hx
      rcases f1 x hx with hx | hx
      · exact h.latC x ((m1 x).mp hx).1
      · obtain ⟨e, -, hem, -, hq, -⟩ := hsucc x hx
        rw [hq]; exact DSE.lattice_step (h.latC c hcm) hem
    case latE =>
      rintro q (rfl | hq)
      · exact h.latC c hcm
      · exact h.latE q hq
    case fresh =>
      intro x hx hq
      rcases f1 x hx with hx | hx
      · obtain ⟨hx, hne⟩ := (m1 x).mp hx
        rcases hq with hq | hq
        · exact hne hq
        · exact h.fresh x hx hq
      · obtain ⟨e, -, hem, hxc, -, hxs⟩ := hsucc x hx
        have hpos := hstep e hem
        have hxs' : ∑ e, x.quantity e = c.size + D.step e := by rw [← hxc]; exact hxs
        rcases hq with hq | hq
        · rw [hq] at hxs'; omega
        · have := h.order _ hq c hcm
          omega
    case order =>
      intro q hq x hx
      have hxc : c.size ≤ x.size := by
        rcases f1 x hx with hx | hx
        · exact hcmin x ((m1 x).mp hx).1
        · obtain ⟨e, -, hem, -, -, hxs⟩ := hsucc x hx
          have := hstep e hem; omega
      rcases hq with rfl | hq
      · omega
      · exact (h.order q hq c hcm).trans hxc
    case resE =>
      intro x hx
      rcases (hmem3 x).mp (z2 x hx) with hx | rfl
      · exact ⟨Or.inr (h.resE x hx).1, (h.resE x hx).2⟩
      · exact ⟨Or.inl q', by rw [t', q']⟩
    case cover =>
      -- everything covered by a member `x` of the result before is still covered
      have keep : ∀ x ∈ R.members, ∃ r ∈ ((R.add c').minimize D.eps c').members, r.size ≤ x.size ∧ x.thr ≤ r.thr := by
        intro x hx
        by_cases hxs : x.size = c'.size ∧ x.thr < c'.thr
        · by_cases hdom : ∃ d ∈ (R.add c').members, Dominates D.eps d c'
          · obtain ⟨d, hd, hdn⟩ := hdom
            have hdne : d ≠ c' := by
              rintro rfl
              rcases hdn with ⟨h, -⟩ | ⟨-, h⟩
              · omega
              · exact absurd h (lt_irrefl _)
            have hdR : d ∈ R.members := by
              rcases (hmem3 d).mp hd with h | h
              · exact h
              · exact absurd h hdne
            have hnd := h.pareto d hdR x hx (by
              rintro rfl
              rcases hdn with ⟨h, -⟩ | ⟨-, h⟩
              · omega
              · linarith [hxs.2])
            exfalso
            apply hnd
            rcases hdn with ⟨h1, h2 | h2⟩ | ⟨h1, h2⟩
            · right; exact ⟨by omega, by linarith [hxs.2]⟩
            · left
              refine ⟨by omega, ?_⟩
              by_cases hlt : x.thr < d.thr
              · exact Or.inl hlt
              · right
                rw [abs_lt] at h2 ⊢
                push Not at hlt
                constructor <;> linarith [hxs.2, h2.1, h2.2]
            · right; exact ⟨by omega, by linarith [hxs.2]⟩
          · refine ⟨c', (z5 hdom c').mpr ⟨hin, fun h => absurd h.2 (lt_irrefl _)⟩, by omega, hxs.2.le⟩
        · exact ⟨x, z3 x ((hmem3 x).mpr (Or.inl hx)) (hold x hx) hxs, le_refl _, le_refl _⟩
      rintro q (rfl | hq)
      · obtain ⟨r, hr1, hr2, hr3⟩ := (C29_no_loss D.eps heps (R.add c') w3 c' hin).2 c' hin
        exact ⟨r, hr1, by rw [← hsz, ← s']; exact hr2, by rw [← t']; exact hr3⟩
      · obtain ⟨x, hx, hx1, hx2⟩ := h.cover q hq
        obtain ⟨r, hr1, hr2, hr3⟩ := keep x hx
        exact ⟨r, hr1, hr2.trans hx1, hx2.trans_le hr3⟩
    case front =>
      intro q hq hP
      rcases h.front q hq hP with ⟨p, hp, h1⟩ | ⟨x, hx, hxq⟩
      · exact Or.inl ⟨p, Or.inr hp, h1⟩
      · by_cases hxc : x.quantity = c.quantity
        · rw [hxc] at hxq
          by_cases hlt : D.thrOf c.quantity < D.thrOf q
          · right
            obtain ⟨e, he, hem, hle⟩ := hcrit c.quantity q (h.latC c hcm) hq hxq hlt
            obtain ⟨y, hy, hyq⟩ := f3 (c'.setQuantity e (c'.quantity e + D.step e))
              (List.mem_map.mpr ⟨e, List.mem_filter.mpr ⟨he, hem⟩, rfl⟩)
            refine ⟨y, hy, ?_⟩
            rw [hyq, (c'.setQuantity_spec e _).2.1, q']
            intro f
            by_cases hf : f = e
            · subst hf; rw [Function.update_self]; exact hle
            · rw [Function.update_of_ne hf]; exact hxq f
          · left; exact ⟨c.quantity, Or.inl rfl, hxq, not_lt.mp hlt⟩
        · right; exact ⟨x, f2 x ((m1 x).mpr ⟨hx, hxc⟩), hxq⟩
    case pareto =>
      apply C29_nondominated_partial D.eps (R.add c') w3 c' hin
      · intro x hx
        rcases (hmem3 x).mp hx with hx | rfl
        · rw [s']; exact hRsz x hx
        · exact le_refl _
      · intro x hx y hy hxn hyn
        have hx' : x ∈ R.members := by
          rcases (hmem3 x).mp hx with h | h
          · exact h
          · exact absurd h hxn
        have hy' : y ∈ R.members := by
          rcases (hmem3 y).mp hy with h | h
          · exact h
          · exact absurd h hyn
        by_cases hxy : x = y
        · subst hxy
          rintro (⟨h, -⟩ | ⟨-, h⟩)
          · omega
          · exact absurd h (lt_irrefl _)
        · exact h.pareto x hx' y hy' hxy
    case best =>
      show ∀ q ∈ insert c.quantity E, D.thrOf q ≤ ((R.add c').minimize D.eps c').pmax.2
      rw [hpm, hp]
      rintro q (rfl | hq)
      · split
        · exact le_refl _
        · rename_i h; exact not_lt.mp h
      · have := h.best q hq
        split
        · rename_i h'; exact this.trans h'.le
        · exact this
    case pmax =>
      show ((R.add c').minimize D.eps c').pmax = (0, 0) ∨ _
      rw [hpm, hp]
      split
      · right; exact ⟨c.quantity, Or.inl rfl, by rw [hsz]⟩
      · rcases h.pmax with h' | ⟨p, hp, h'⟩
        · exact Or.inl h'
        · exact Or.inr ⟨p, Or.inr hp, h'⟩
    case first =>
      show ∀ q ∈ insert c.quantity E, 0 < ((R.add c').minimize D.eps c').pmax.2 →
        D.thrOf q = ((R.add c').minimize D.eps c').pmax.2 → ((R.add c').minimize D.eps c').pmax.1 ≤ _
      rw [hpm, hp]
      intro q hq
      split
      · rename_i hgt
        intro _ heq
        rcases hq with rfl | hq
        · exact hsz.le
        · have := h.best q hq
          simp only at heq
          linarith
      · rename_i hgt
        intro hpos heq
        rcases hq with rfl | hq
        · rcases h.pmax with h' | ⟨p, hp, h'⟩
          · rw [h'] at hpos; exact absurd hpos (lt_irrefl _)
          · rw [h']; rw [← hsz]; exact h.order p hp c hcm
        · exact h.first q hq hpos heq

theorem DSE.loop_done (D : DSE n) (fuel : ℕ) (C R : SDSet n) (h : R.isSearchComplete D.eps C D.target = true) :
    D.loop fuel C R = some (some R) := by
  cases fuel <;> rw [DSE.loop, if_pos h]

theorem DSE.loop_zero (D : DSE n) (C R : SDSet n) (h : ¬ R.isSearchComplete D.eps C D.target = true) :
    D.loop 0 C R = some none := by
  rw [DSE.loop, if_neg h]

theorem DSE.loop_succ (D : DSE n) (fuel : ℕ) (C R : SDSet n) (h : ¬ R.isSearchComplete D.eps C D.target = true) :
    D.loop (fuel + 1) C R = match D.round C R with
      | none => none
      | some r => D.loop fuel r.1 r.2 := by
  rw [DSE.loop, if_neg h]
  rfl

/-- The loop preserves the invariant and stops in a complete state. -/
theorem DSE.loop_spec (D : DSE n) (init : Fin n → Int) (heps : 0 < D.eps)
    (hstep : ∀ e, D.modelled e = true → 0 < D.step e) (hcrit : D.CriticalComplete init) (fuel : ℕ) {C R : SDSet n}
    {P : (Fin n → Int) → Prop} {E : Set (Fin n → Int)} (h : D.Inv init P C R E) :
    D.loop fuel C R ≠ none ∧
    ∀ R', D.loop fuel C R = some (some R') →
      ∃ C' E', D.Inv init P C' R' E' ∧ R'.isSearchComplete D.eps C' D.target = true := by
  induction fuel generalizing C R E with
  | zero =>
    by_cases hs : R.isSearchComplete D.eps C D.target = true
    · rw [DSE.loop_done D _ C R hs]
      exact ⟨by simp, fun R' hR => by cases hR; exact ⟨C, E, h, hs⟩⟩
    · rw [DSE.loop_zero D C R hs]; simp
  | succ fuel ih =>
    by_cases hs : R.isSearchComplete D.eps C D.target = true
    · rw [DSE.loop_done D _ C R hs]
      exact ⟨by simp, fun R' hR => by cases hR; exact ⟨C, E, h, hs⟩⟩
    · rw [DSE.loop_succ D fuel C R hs]
      cases hr : D.round C R with
      | none =>
        exfalso
        unfold DSE.round at hr
        cases hc : C.next with
        | none =>
          have := (SDSet.next_spec h.wfC).1.mp hc
          apply hs
          unfold SDSet.isSearchComplete
          rw [SDSet.getSize_eq, this]
          simp
        | some c => rw [hc] at hr; simp at hr
      | some r =>
        obtain ⟨c, -, -, -, hinv⟩ := DSE.inv_round D init heps hstep hcrit h hr
        exact ih hinv

/-- What a complete state of the exploration gives. -/
theorem DSE.complete_spec (D : DSE n) (init : Fin n → Int) (heps : 0 < D.eps) (htarget : D.eps ≤ D.target)
    (hbound : ∀ q, D.Lattice init q → D.thrOf q ≤ D.target) {P : (Fin n → Int) → Prop} {C R : SDSet n}
    {E : Set (Fin n → Int)} (h : D.Inv init P C R E) (hs : R.isSearchComplete D.eps C D.target = true) :
    (∀ q, D.Lattice init q → P q → ∃ r ∈ R.members, r.size ≤ ∑ e, q e ∧ D.thrOf q - 2 * D.eps < r.thr) ∧
    (∀ r ∈ R.members, D.Lattice init r.quantity ∧ r.size = ∑ e, r.quantity e ∧ r.thr = D.thrOf r.quantity) ∧
    (∀ x ∈ R.members, ∀ y ∈ R.members, x ≠ y → ¬ Dominates D.eps x y) := by
  refine ⟨fun q hq hP => ?_, fun r hr => ?_, h.pareto⟩
  · rcases h.front q hq hP with ⟨p, hp, hpq, hth⟩ | ⟨c, hc, hcq⟩
    · obtain ⟨r, hr, h1, h2⟩ := h.cover p hp
      exact ⟨r, hr, h1.trans (Finset.sum_le_sum fun e _ => hpq e), by linarith⟩
    · unfold SDSet.isSearchComplete at hs
      rw [Bool.or_eq_true, Bool.and_eq_true, SDSet.getSize_eq] at hs
      rcases hs with ⟨hs, hno⟩ | hs
      · have hs' : |R.pmax.2 - D.target| < D.eps := by simpa [SDSet.areSame] using hs
        rcases h.pmax with h' | ⟨p, hp, h'⟩
        · rw [h', zero_sub, abs_neg, abs_of_nonneg (by linarith)] at hs'
          linarith
        · have hcs := h.order p hp c hc
          have hne : ∑ e, p e ≠ c.size := by
            intro he
            have hd := (SDSet.hasDistribution_spec h.wfC R.pmax.1).mpr ⟨c, hc, by rw [h', he]⟩
            rw [hd] at hno; simp at hno
          have hcsz : c.size ≤ ∑ e, q e := by
            rw [h.wfC.consistent hc]; exact Finset.sum_le_sum fun e _ => hcq e
          obtain ⟨r, hr, h1, h2⟩ := h.cover p hp
          refine ⟨r, hr, by omega, ?_⟩
          rw [h', abs_lt] at hs'
          have := hbound q hq
          linarith [hs'.1]
      · simp only [nonpos_iff_eq_zero, List.length_eq_zero_iff, decide_eq_true_eq] at hs
        rw [hs] at hc; simp at hc
  · exact ⟨h.latE _ (h.resE r hr).1, h.wfR.consistent hr, (h.resE r hr).2⟩

/-- **C54.** Suppose steps are positive, no distribution exceeds the target throughput (which is at least the comparison
tolerance `eps`), and the critical channels reported by the analysis are complete. When the exploration stops with result
`R`, then for every distribution on the step lattice above the initial one there is a retained distribution that is no
larger and reaches its throughput up to `2 * eps`; every retained distribution is on the lattice with its size and
analysed throughput; and none dominates another. So `R` is the Pareto front. -/
theorem C54_pareto_complete (D : DSE n) (init : SD n) (hinit : init.size = ∑ e, init.quantity e) (heps : 0 < D.eps)
    (htarget : D.eps ≤ D.target) (hstep : ∀ e, D.modelled e = true → 0 < D.step e)
    (hbound : ∀ q, D.Lattice init.quantity q → D.thrOf q ≤ D.target)
    (hcrit : D.CriticalComplete init.quantity) (fuel : ℕ) (R : SDSet n) (hR : D.explore init fuel = some (some R)) :
    (∀ q, D.Lattice init.quantity q → ∃ r ∈ R.members, r.size ≤ ∑ e, q e ∧ D.thrOf q - 2 * D.eps < r.thr) ∧
    (∀ r ∈ R.members, D.Lattice init.quantity r.quantity ∧ r.size = ∑ e, r.quantity e ∧ r.thr = D.thrOf r.quantity) ∧
    (∀ x ∈ R.members, ∀ y ∈ R.members, x ≠ y → ¬ Dominates D.eps x y) := by
  obtain ⟨C, E, h, hs⟩ := (DSE.loop_spec D init.quantity heps hstep hcrit fuel
    (DSE.inv_init D init hinit hstep)).2 R hR
  obtain ⟨h1, h2⟩ := DSE.complete_spec D init.quantity heps htarget hbound h hs
  exact ⟨fun q hq => h1 q hq trivial, h2⟩

/-- While the search is not complete, the checklist holds a distribution no larger than one reaching the target. -/
theorem dse_next_small (D : DSE n) (init : Fin n → Int) (heps : 0 < D.eps) (htarget : D.eps ≤ D.target)
    (hbound : ∀ q, D.Lattice init q → D.thrOf q ≤ D.target) (top : Fin n → Int)
    (htop : D.Lattice init top) (hreach : D.thrOf top = D.target) {P : (Fin n → Int) → Prop} (hP : P top)
    {C R : SDSet n} {E : Set (Fin n → Int)} (h : D.Inv init P C R E) (hs : ¬ R.isSearchComplete D.eps C D.target = true) :
    ∃ c ∈ C.members, c.size ≤ ∑ e, top e := by
  rcases h.front top htop hP with ⟨p, hp, hpt, hth⟩ | ⟨c, hc, hct⟩
  · have hpT : D.thrOf p = D.target := le_antisymm (hbound p (h.latE p hp)) (by rw [← hreach]; exact hth)
    have hbest := h.best p hp
    have hpmax : R.pmax.2 = D.target := by
      apply le_antisymm _ (by rw [← hpT]; exact hbest)
      rcases h.pmax with h' | ⟨p', hp', h'⟩
      · rw [h']; exact heps.le.trans htarget
      · rw [h']; exact hbound p' (h.latE p' hp')
    have hfirst := h.first p hp (by rw [hpmax]; linarith) (by rw [hpT, hpmax])
    unfold SDSet.isSearchComplete at hs
    rw [Bool.or_eq_true, Bool.and_eq_true, not_or, not_and] at hs
    have hd := hs.1 (by simp [SDSet.areSame, hpmax, heps])
    have hd' : C.hasDistribution R.pmax.1 = true := by simpa using hd
    obtain ⟨c, hc, hcs⟩ := (SDSet.hasDistribution_spec h.wfC _).mp hd'
    exact ⟨c, hc, by rw [hcs]; exact hfirst.trans (Finset.sum_le_sum fun e _ => hpt e)⟩
  · exact ⟨c, hc, by rw [h.wfC.consistent hc]; exact Finset.sum_le_sum fun e _ => hct e⟩

/-- From a state of the exploration below a distribution that reaches the target, the loop stops. -/
theorem DSE.stops_from (D : DSE n) (init : Fin n → Int) (heps : 0 < D.eps)
    (htarget : D.eps ≤ D.target) (hstep : ∀ e, D.modelled e = true → 0 < D.step e)
    (hbound : ∀ q, D.Lattice init q → D.thrOf q ≤ D.target)
    (hcrit : D.CriticalComplete init) (top : Fin n → Int) (htop : D.Lattice init top)
    (hreach : D.thrOf top = D.target) {P : (Fin n → Int) → Prop} (hP : P top) {C R : SDSet n}
    {E : Finset (Fin n → Int)} (h : D.Inv init P C R E) : ∃ fuel R', D.loop fuel C R = some (some R') := by
  classical
  -- explored points all lie in a box
  let box : Finset (Fin n → Int) := Fintype.piFinset fun e =>
    Finset.Icc (init e) (init e + (∑ f, top f - ∑ f, init f))
  have hbox : ∀ q, D.Lattice init q → ∑ e, q e ≤ ∑ e, top e → q ∈ box := by
    intro q hq hle
    have hge := DSE.lattice_ge hstep hq
    rw [Fintype.mem_piFinset]
    intro e
    rw [Finset.mem_Icc]
    refine ⟨hge e, ?_⟩
    have h1 : ∑ f, (q f - init f) ≥ q e - init e :=
      Finset.single_le_sum (f := fun f => q f - init f) (fun f _ => sub_nonneg.mpr (hge f)) (Finset.mem_univ e)
    rw [Finset.sum_sub_distrib] at h1
    linarith
  suffices H : ∀ (m : ℕ) (C R : SDSet n) (E : Finset (Fin n → Int)), D.Inv init P C R E →
      (box \ E).card ≤ m → ∃ fuel R', D.loop fuel C R = some (some R') from H _ C R E h le_rfl
  clear h C R E
  intro m
  induction m with
  | zero =>
    intro C R E h hm
    by_cases hs : R.isSearchComplete D.eps C D.target = true
    · exact ⟨0, R, DSE.loop_done D 0 C R hs⟩
    · exfalso
      obtain ⟨c, hc, hcs⟩ := dse_next_small D init heps htarget hbound top htop hreach hP h hs
      have hin := hbox c.quantity (h.latC c hc) (by rw [← h.wfC.consistent hc]; exact hcs)
      have : c.quantity ∈ box \ E := Finset.mem_sdiff.mpr ⟨hin, fun hE => h.fresh c hc hE⟩
      rw [Finset.card_eq_zero.mp (Nat.le_zero.mp hm)] at this
      simp at this
  | succ m ih =>
    intro C R E h hm
    by_cases hs : R.isSearchComplete D.eps C D.target = true
    · exact ⟨0, R, DSE.loop_done D 0 C R hs⟩
    · obtain ⟨c, hc, hcs⟩ := dse_next_small D init heps htarget hbound top htop hreach hP h hs
      cases hr : D.round C R with
      | none =>
        exfalso
        unfold DSE.round at hr
        cases hcn : C.next with
        | none =>
          have := (SDSet.next_spec h.wfC).1.mp hcn
          rw [this] at hc; simp at hc
        | some c => rw [hcn] at hr; simp at hr
      | some r =>
        obtain ⟨c0, -, hc0, hmin, hinv⟩ := DSE.inv_round D init heps hstep hcrit h hr
        have hin := hbox c0.quantity (h.latC c0 hc0) (by rw [← h.wfC.consistent hc0]; exact (hmin c hc).trans hcs)
        have hinv' : D.Inv init P r.1 r.2 ((insert c0.quantity E : Finset (Fin n → Int)) : Set (Fin n → Int)) := by
          simpa using hinv
        obtain ⟨fuel, R', hR⟩ := ih r.1 r.2 (insert c0.quantity E) hinv' (by
          have hlt : (box \ insert c0.quantity E).card < (box \ E).card := by
            apply Finset.card_lt_card
            rw [Finset.ssubset_iff_of_subset (Finset.sdiff_subset_sdiff (le_refl _) (Finset.subset_insert _ _))]
            exact ⟨c0.quantity, Finset.mem_sdiff.mpr ⟨hin, fun hE => h.fresh c0 hc0 hE⟩, by simp⟩
          omega)
        refine ⟨fuel + 1, R', ?_⟩
        rw [DSE.loop_succ D fuel C R hs, hr]
        exact hR

/-- **C55.** If moreover some distribution of the lattice reaches the target, the exploration stops (and is never
undefined): there is a number of rounds after which it returns a result. -/
theorem C55_terminates (D : DSE n) (init : SD n) (hinit : init.size = ∑ e, init.quantity e) (heps : 0 < D.eps)
    (htarget : D.eps ≤ D.target) (hstep : ∀ e, D.modelled e = true → 0 < D.step e)
    (hbound : ∀ q, D.Lattice init.quantity q → D.thrOf q ≤ D.target)
    (hcrit : D.CriticalComplete init.quantity) (top : Fin n → Int) (htop : D.Lattice init.quantity top)
    (hreach : D.thrOf top = D.target) : ∃ fuel R, D.explore init fuel = some (some R) := by
  exact DSE.stops_from D init.quantity heps htarget hstep hbound hcrit top htop hreach (P := fun _ => True) trivial
    (E := ∅) (by simpa using DSE.inv_init D init hinit hstep)

/-- The quantities analysed by the loop, in order (specification: follows the rounds of `DSE.loop`). -/
def DSE.trace (D : DSE n) : ℕ → SDSet n → SDSet n → List (Fin n → Int)
  | 0, _, _ => []
  | fuel + 1, checklist, result =>
    if result.isSearchComplete D.eps checklist D.target then []
    else match checklist.next, D.round checklist result with
      | some c, some r => c.quantity :: D.trace fuel r.1 r.2
      | _, _ => []

/-- **C55 (order).** The exploration is defined for every number of rounds, it analyses distributions in order of size,
and never the same one twice. -/
theorem C55_explores_once_in_order (D : DSE n) (init : SD n) (hinit : init.size = ∑ e, init.quantity e) (heps : 0 < D.eps)
    (hstep : ∀ e, D.modelled e = true → 0 < D.step e) (hcrit : D.CriticalComplete init.quantity) (fuel : ℕ) :
    D.explore init fuel ≠ none ∧
    (D.trace fuel (SDSet.single init.size init) SDSet.empty).Nodup ∧
    (D.trace fuel (SDSet.single init.size init) SDSet.empty).Pairwise fun q q' => ∑ e, q e ≤ ∑ e, q' e := by
  refine ⟨(DSE.loop_spec D init.quantity heps hstep hcrit fuel (DSE.inv_init D init hinit hstep)).1, ?_⟩
  suffices H : ∀ (fuel : ℕ) (C R : SDSet n) (E : Set (Fin n → Int)), D.Inv init.quantity (fun _ => True) C R E →
      (∀ q ∈ D.trace fuel C R, q ∉ E ∧ ∀ p ∈ E, ∑ e, p e ≤ ∑ e, q e) ∧ (D.trace fuel C R).Nodup ∧
      (D.trace fuel C R).Pairwise fun q q' => ∑ e, q e ≤ ∑ e, q' e from
    (H fuel _ _ ∅ (DSE.inv_init D init hinit hstep)).2
  intro fuel
  induction fuel with
  | zero => intro C R E _; simp [DSE.trace]
  | succ fuel ih =>
    intro C R E h
    rw [DSE.trace]
    by_cases hs : R.isSearchComplete D.eps C D.target = true
    · rw [if_pos hs]; simp
    · rw [if_neg hs]
      cases hc : C.next with
      | none => simp
      | some c =>
        cases hr : D.round C R with
        | none => simp
        | some r =>
          obtain ⟨hcm, -⟩ := (SDSet.next_spec h.wfC).2 c hc
          have hinv : D.Inv init.quantity (fun _ => True) r.1 r.2 (insert c.quantity E) := by
            obtain ⟨c', hc', h1⟩ := DSE.inv_round D init.quantity heps hstep hcrit h hr
            rw [hc] at hc'; cases hc'; exact h1.2.2
          obtain ⟨i1, i2, i3⟩ := ih r.1 r.2 _ hinv
          have hcs := h.wfC.consistent hcm
          refine ⟨fun q hq => ?_, ?_, ?_⟩
          · rcases List.mem_cons.mp hq with rfl | hq
            · exact ⟨h.fresh c hcm, fun p hp => by rw [← hcs]; exact h.order p hp c hcm⟩
            · obtain ⟨j1, j2⟩ := i1 q hq
              exact ⟨fun hE => j1 (Or.inr hE), fun p hp => j2 p (Or.inr hp)⟩
          · exact List.nodup_cons.mpr ⟨fun hq => (i1 _ hq).1 (Or.inl rfl), i2⟩
          · exact List.pairwise_cons.mpr ⟨fun q hq => (i1 q hq).2 _ (Or.inl rfl), i3⟩

/-! A concrete exploration: two channels, throughput `min q₀ q₁ 3 / 3`, critical channels those of minimal quantity. -/

namespace DSEExample

/-- Throughput of the example. -/
def D : DSE 2 where
  eps := 1/1000
  modelled := fun _ => true
  step := fun _ => 1
  target := 1
  analyse := fun q => (((min (min (q 0) (q 1)) 3 : Int) : ℚ) / 3,
    (if q 0 ≤ q 1 then [0] else []) ++ (if q 1 ≤ q 0 then [1] else []))

/-- Start of the example. -/
def init : SD 2 := ⟨![0, 1], ![0, 0], 0, 1⟩

theorem crit : D.CriticalComplete init.quantity := by
  intro q q' _ _ hle hlt
  have h0 := hle 0
  have h1 := hle 1
  have key : ¬ (min (min (q' 0) (q' 1)) 3 ≤ min (min (q 0) (q 1)) 3) := by
    intro hcon
    apply absurd hlt
    rw [not_lt]
    have hcon' : ((min (min (q' 0) (q' 1)) 3 : Int) : ℚ) ≤ ((min (min (q 0) (q 1)) 3 : Int) : ℚ) := by exact_mod_cast hcon
    unfold DSE.thrOf D
    simp only
    split <;> split <;> linarith
  by_cases h : q 0 ≤ q 1
  · exact ⟨0, by simp [D, h], rfl, by show q 0 + 1 ≤ q' 0; omega⟩
  · exact ⟨1, by simp [D, (not_le.mp h).le], rfl, by show q 1 + 1 ≤ q' 1; omega⟩

theorem bound (q : Fin 2 → Int) : D.thrOf q ≤ D.target := by
  have : ((min (min (q 0) (q 1)) 3 : Int) : ℚ) ≤ 3 := by exact_mod_cast min_le_right _ _
  unfold DSE.thrOf D
  simp only
  split <;> linarith

/-- The exploration of the example returns the four Pareto points. -/
theorem run : ((D.explore init 20).bind id).map (fun R => R.members.map fun r => (r.size, r.thr)) =
    some [(1, 0), (2, 1/3), (4, 2/3), (6, 1)] := by decide +kernel

example : ∃ fuel R, D.explore init fuel = some (some R) :=
  C55_terminates D init (by decide +kernel) (by norm_num [D]) (by norm_num [D]) (fun _ _ => by norm_num [D])
    (fun q _ => bound q) crit ![3, 3] (fun e => Or.inr ⟨rfl, by
      rcases Fin.exists_fin_two.mp ⟨e, rfl⟩ with rfl | rfl
      · exact ⟨3, rfl⟩
      · exact ⟨2, rfl⟩⟩) (by decide +kernel)

end DSEExample

end Kiter
