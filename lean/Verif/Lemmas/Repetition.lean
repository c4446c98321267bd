/-
The depth-first propagation of `calcFractionsConnectedActors`: on success every visited channel is balanced, on a graph
with a solution it never fails, and the recursion depth never exceeds the number of vertices.
-/
import Verif.Model.Repetition
import Verif.Props.Fraction
import Mathlib.Data.Fintype.Card
import Mathlib.Tactic.LinearCombination
import Mathlib.Tactic.Positivity
import Mathlib.Tactic.FieldSimp
import Mathlib.Logic.Relation

set_option autoImplicit false

namespace Kiter.Rep
open Frac

variable {nV nE : Nat} {g : Graph nV nE} {rp : Nat}

/-- All entries are normalised and not negative. -/
def Norm (fr : Fracs nV) : Prop := ∀ v, LowestTerms (fr v) ∧ 0 ≤ (fr v).n

def Ext (fr fr' : Fracs nV) : Prop := ∀ v, fr v ≠ zero → fr' v = fr v

/-- The channel is balanced by the known fractions of its two ends. -/
def EdgeOK (g : Graph nV nE) (rp : Nat) (fr : Fracs nV) (e : Fin nE) : Prop :=
  fr (g.src e) ≠ zero ∧ fr (g.tgt e) ≠ zero ∧ 0 < inRate g rp e ∧ 0 < outRate g rp e ∧
    (inRate g rp e : ℚ) * val (fr (g.src e)) = outRate g rp e * val (fr (g.tgt e))

/-- A positive solution of the balance equations, in executions per rate period. -/
def Sol (g : Graph nV nE) (rp : Nat) (x : Fin nV → ℚ) : Prop :=
  (∀ v, 0 < x v) ∧ ∀ e, 0 < inRate g rp e ∧ 0 < outRate g rp e ∧
    (inRate g rp e : ℚ) * x (g.src e) = outRate g rp e * x (g.tgt e)

/-- Known fractions are the solution scaled by a factor per component. -/
def Follows (fr : Fracs nV) (x lam : Fin nV → ℚ) : Prop := ∀ v, fr v ≠ zero → val (fr v) = lam v * x v

def zeros (fr : Fracs nV) : ℕ := (Finset.univ.filter fun v => fr v = zero).card

theorem Ext.refl (fr : Fracs nV) : Ext fr fr := fun _ _ => rfl

theorem Ext.trans {a b c : Fracs nV} (h : Ext a b) (h' : Ext b c) : Ext a c := by
  intro v hv
  rw [h' v (by rw [h v hv]; exact hv), h v hv]

theorem EdgeOK.ext {fr fr' : Fracs nV} {e : Fin nE} (h : EdgeOK g rp fr e) (he : Ext fr fr') : EdgeOK g rp fr' e := by
  obtain ⟨h1, h2, h3⟩ := h
  unfold EdgeOK
  rw [he _ h1, he _ h2]
  exact ⟨h1, h2, h3⟩

theorem zeros_ext {fr fr' : Fracs nV} (he : Ext fr fr') : zeros fr' ≤ zeros fr := by
  apply Finset.card_le_card
  intro v
  simp only [Finset.mem_filter, Finset.mem_univ, true_and]
  intro h
  by_contra hc
  exact hc (by rw [← he v hc, h])

theorem zeros_update {fr : Fracs nV} {b : Fin nV} {f : Frac} (hb : fr b = zero) (hf : f ≠ zero) :
    zeros (Function.update fr b f) < zeros fr := by
  apply Finset.card_lt_card
  rw [Finset.ssubset_iff_of_subset]
  · refine ⟨b, by simp [hb], by simp [hf]⟩
  · intro v
    simp only [Finset.mem_filter, Finset.mem_univ, true_and]
    intro h
    by_cases hv : v = b
    · subst hv; exact hb
    · rwa [Function.update_of_ne hv] at h

theorem ext_update {fr : Fracs nV} {b : Fin nV} {f : Frac} (hb : fr b = zero) : Ext fr (Function.update fr b f) := by
  intro v hv
  rw [Function.update_of_ne]
  rintro rfl; exact hv hb

theorem eqv_zero (f : Frac) : Frac.eqv f zero = true ↔ f = zero := by
  unfold Frac.eqv zero
  cases f; simp

theorem ne_iff (f h : Frac) : Frac.ne f h = true ↔ f ≠ h := by
  unfold Frac.ne
  cases f; cases h; simp [imp_iff_not_or]

theorem zero_lowest : LowestTerms zero := by unfold zero LowestTerms; decide

theorem val_zero : val zero = 0 := by unfold val zero; simp

theorem pos_of_ne_zero {f : Frac} (h : LowestTerms f) (hn : 0 ≤ f.n) (hz : f ≠ zero) : 0 < f.n ∧ 0 < val f := by
  have h0 : f.n ≠ 0 := by
    intro h0
    apply hz
    rw [← val_eq_iff h zero_lowest, val_zero]
    unfold val; rw [h0]; simp
  have h1 : 0 < f.n := by omega
  refine ⟨h1, ?_⟩
  unfold val
  have := h.1
  positivity

/-- What one call of the recursive function guarantees. -/
def VisitSpec (g : Graph nV nE) (rp : Nat) (f : Fracs nV → Fin nV → Option (Bool × Fracs nV)) (bound : ℕ) : Prop :=
  ∀ fr a, Norm fr → fr a ≠ zero → zeros fr < bound → ∃ b fr', f fr a = some (b, fr') ∧
    (b = true → Norm fr' ∧ Ext fr fr' ∧ ∀ v, (v = a ∨ (fr v = zero ∧ fr' v ≠ zero)) →
      ∀ e, g.src e = v ∨ g.tgt e = v → EdgeOK g rp fr' e) ∧
    (b = false → fr' = fun _ => zero) ∧
    ∀ x lam, Sol g rp x → (∀ e, lam (g.src e) = lam (g.tgt e)) → Follows fr x lam → b = true ∧ Follows fr' x lam

theorem edgeLoop_spec (hin : ∀ e, 0 ≤ inRate g rp e) (hout : ∀ e, 0 ≤ outRate g rp e)
    {f : Fracs nV → Fin nV → Option (Bool × Fracs nV)} {bound : ℕ} (hf : VisitSpec g rp f bound)
    (a : Fin nV) (fa : Frac) : ∀ (cs : List (Fin nE)) (fr : Fracs nV), Norm fr → fr a = fa → fa ≠ zero →
      zeros fr ≤ bound → ∃ b fr', edgeLoop g rp f a fa cs fr = some (b, fr') ∧
    (b = true → Norm fr' ∧ Ext fr fr' ∧ (∀ e ∈ cs, g.src e = a ∨ g.tgt e = a → EdgeOK g rp fr' e) ∧
      ∀ v, (fr v = zero ∧ fr' v ≠ zero) → ∀ e, g.src e = v ∨ g.tgt e = v → EdgeOK g rp fr' e) ∧
    (b = false → fr' = fun _ => zero) ∧
    ∀ x lam, Sol g rp x → (∀ e, lam (g.src e) = lam (g.tgt e)) → Follows fr x lam → b = true ∧ Follows fr' x lam := by
  intro cs
  induction cs with
  | nil =>
    intro fr hn _ _ _
    refine ⟨true, fr, rfl, fun _ => ⟨hn, Ext.refl _, by simp, fun v h => absurd h.1 h.2⟩, by simp, fun x lam _ _ h => ⟨rfl, h⟩⟩
  | cons c cs ih =>
    intro fr hn hfa hfz hz
    unfold edgeLoop
    by_cases hc : g.src c = a ∨ g.tgt c = a
    swap
    · rw [if_neg hc]
      obtain ⟨b, fr', h1, h2, h3, h4⟩ := ih fr hn hfa hfz hz
      refine ⟨b, fr', h1, fun hb => ?_, h3, h4⟩
      obtain ⟨i1, i2, i3, i4⟩ := h2 hb
      refine ⟨i1, i2, ?_, i4⟩
      intro e he
      rcases List.mem_cons.mp he with rfl | he
      · intro h; exact absurd h hc
      · exact i3 e he
    rw [if_pos hc]
    -- the other end
    obtain ⟨b, hb⟩ : ∃ b, b = if g.src c = a then g.tgt c else g.src c := ⟨_, rfl⟩
    obtain ⟨ra, hra⟩ : ∃ r, r = if g.tgt c = a then outRate g rp c else inRate g rp c := ⟨_, rfl⟩
    obtain ⟨rb, hrb⟩ : ∃ r, r = if g.tgt c = a then inRate g rp c else outRate g rp c := ⟨_, rfl⟩
    simp only [← hb, ← hra, ← hrb]
    -- balance of the channel in terms of a, b
    have edge_iff : ∀ y : Fin nV → ℚ, (inRate g rp c : ℚ) * y (g.src c) = outRate g rp c * y (g.tgt c) ↔
        (ra : ℚ) * y a = rb * y b := by
      intro y
      by_cases ht : g.tgt c = a
      · have hb' : b = g.src c := by
          rw [hb]; split
          · rename_i h; rw [ht, h]
          · rfl
        rw [hra, hrb, if_pos ht, if_pos ht, hb', ht]
        exact ⟨fun h => h.symm, fun h => h.symm⟩
      · have hs : g.src c = a := hc.resolve_right ht
        rw [hra, hrb, if_neg ht, if_neg ht, hb, if_pos hs, hs]
    have ends : (g.src c = a ∧ g.tgt c = b) ∨ (g.src c = b ∧ g.tgt c = a) := by
      by_cases ht : g.tgt c = a
      · right
        refine ⟨?_, ht⟩
        rw [hb]; split
        · rename_i h; rw [ht, h]
        · rfl
      · left
        have hs : g.src c = a := hc.resolve_right ht
        exact ⟨hs, by rw [hb, if_pos hs]⟩
    have rpos : (0 < ra ∧ 0 < rb) ↔ (0 < inRate g rp c ∧ 0 < outRate g rp c) := by
      rw [hra, hrb]; split
      · exact and_comm
      · rfl
    have ra0 : 0 ≤ ra := by rw [hra]; split; exact hout c; exact hin c
    have rb0 : 0 ≤ rb := by rw [hrb]; split; exact hin c; exact hout c
    by_cases hr : ra = 0 ∨ rb = 0
    · rw [if_pos hr]
      refine ⟨false, _, rfl, by simp, fun _ => rfl, ?_⟩
      intro x lam hx _ _
      have := rpos.mpr ⟨(hx.2 c).1, (hx.2 c).2.1⟩
      omega
    rw [if_neg hr]
    have hra' : 0 < ra := by omega
    have hrb' : 0 < rb := by omega
    obtain ⟨ratio, hr1, hr2, hr3⟩ := make_pos (n := ra) hrb'
    have hrbq : (0 : ℚ) < rb := by exact_mod_cast hrb'
    have hraq : (0 : ℚ) < ra := by exact_mod_cast hra'
    have hfaN := hn a
    rw [hfa] at hfaN
    obtain ⟨fb, hm1, hm2, hm3⟩ := C04_mul fa ratio hfaN.1 hr2
    simp only [hr1, hm1]
    have hfapos := (pos_of_ne_zero hfaN.1 hfaN.2 hfz).2
    have hfbval : (rb : ℚ) * val fb = ra * val fa := by
      rw [hm3, hr3]; field_simp
    have hfbpos : 0 < val fb := by
      rw [hm3, hr3]; positivity
    have hfbz : fb ≠ zero := by
      intro h; rw [h, val_zero] at hfbpos; exact lt_irrefl _ hfbpos
    have hfbn : 0 ≤ fb.n := by
      by_contra hcn
      have : val fb ≤ 0 := by
        unfold val
        apply div_nonpos_of_nonpos_of_nonneg
        · exact_mod_cast (by omega : fb.n ≤ 0)
        · exact_mod_cast hm2.1.le
      linarith
    -- value predicted by a solution
    have pred : ∀ x lam, Sol g rp x → (∀ e, lam (g.src e) = lam (g.tgt e)) → Follows fr x lam → val fb = lam b * x b := by
      intro x lam hx hl hfol
      have e1 := (edge_iff x).mp (hx.2 c).2.2
      have e2 : lam a = lam b := by
        rcases ends with ⟨h1, h2⟩ | ⟨h1, h2⟩
        · rw [← h1, ← h2]; exact hl c
        · rw [← h1, ← h2]; exact (hl c).symm
      have e3 := hfol a (by rw [hfa]; exact hfz)
      rw [hfa] at e3
      have : (rb : ℚ) * val fb = rb * (lam b * x b) := by
        rw [hfbval, e3, e2]; linear_combination lam b * e1
      exact mul_left_cancel₀ hrbq.ne' this
    by_cases hknown : fr b = zero
    · -- b is discovered
      have c1 : ¬ (Frac.ne (fr b) zero && Frac.ne fb (fr b)) = true := by
        rw [Bool.and_eq_true, ne_iff]; exact fun h => h.1 hknown
      rw [if_neg c1, if_pos ((eqv_zero _).mpr hknown)]
      have hn1 : Norm (Function.update fr b fb) := by
        intro v
        by_cases hv : v = b
        · subst hv; rw [Function.update_self]; exact ⟨hm2, hfbn⟩
        · rw [Function.update_of_ne hv]; exact hn v
      have hz1 := zeros_update hknown hfbz
      obtain ⟨r, fr1, v1, v2, v3, v4⟩ := hf (Function.update fr b fb) b hn1 (by rw [Function.update_self]; exact hfbz)
        (by omega)
      rw [v1]
      simp only
      cases r with
      | false =>
        have hcl := v3 rfl
        rw [if_pos ((eqv_zero _).mpr (by rw [hcl]))]
        refine ⟨false, _, rfl, by simp, fun _ => hcl, ?_⟩
        intro x lam hx hl hfol
        have := v4 x lam hx hl (by
          intro v hv
          by_cases hvb : v = b
          · subst hvb; rw [Function.update_self]; exact pred x lam hx hl hfol
          · rw [Function.update_of_ne hvb] at hv ⊢; exact hfol v hv)
        exact absurd this.1 (by simp)
      | true =>
        obtain ⟨w1, w2, w3⟩ := v2 rfl
        have hb1 : fr1 b = fb := by
          rw [w2 b (by rw [Function.update_self]; exact hfbz), Function.update_self]
        rw [if_neg (by rw [eqv_zero, hb1]; exact hfbz)]
        have hext : Ext fr fr1 := (ext_update hknown).trans w2
        have hfa1 : fr1 a = fa := by rw [hext a (by rw [hfa]; exact hfz), hfa]
        obtain ⟨b', fr', h1, h2, h3, h4⟩ := ih fr1 w1 hfa1 hfz ((zeros_ext hext).trans hz)
        refine ⟨b', fr', h1, fun hbt => ?_, h3, ?_⟩
        · obtain ⟨i1, i2, i3, i4⟩ := h2 hbt
          refine ⟨i1, hext.trans i2, ?_, ?_⟩
          · intro e he
            rcases List.mem_cons.mp he with rfl | he
            · intro _
              refine EdgeOK.ext ?_ i2
              apply w3 b (.inl rfl)
              rcases ends with ⟨q1, q2⟩ | ⟨q1, q2⟩
              · exact .inr q2
              · exact .inl q1
            · exact i3 e he
          · intro v hv e he
            by_cases hv1 : fr1 v = zero
            · exact i4 v ⟨hv1, hv.2⟩ e he
            · refine EdgeOK.ext ?_ i2
              by_cases hvb : v = b
              · exact w3 v (.inl hvb) e he
              · apply w3 v _ e he
                right
                rw [Function.update_of_ne hvb]
                exact ⟨hv.1, hv1⟩
        · intro x lam hx hl hfol
          apply h4 x lam hx hl
          refine (v4 x lam hx hl ?_).2
          intro v hv
          by_cases hvb : v = b
          · subst hvb; rw [Function.update_self]; exact pred x lam hx hl hfol
          · rw [Function.update_of_ne hvb] at hv ⊢; exact hfol v hv
    · by_cases hmis : fb = fr b
      · have c1 : ¬ (Frac.ne (fr b) zero && Frac.ne fb (fr b)) = true := by
          rw [Bool.and_eq_true, ne_iff, ne_iff]; exact fun h => h.2 hmis
        rw [if_neg c1, if_neg (by rw [eqv_zero]; exact hknown)]
        obtain ⟨b', fr', h1, h2, h3, h4⟩ := ih fr hn hfa hfz hz
        refine ⟨b', fr', h1, fun hbt => ?_, h3, h4⟩
        obtain ⟨i1, i2, i3, i4⟩ := h2 hbt
        refine ⟨i1, i2, ?_, i4⟩
        intro e he
        rcases List.mem_cons.mp he with rfl | he
        · intro _
          refine EdgeOK.ext ?_ i2
          have hpos := rpos.mp ⟨hra', hrb'⟩
          have hbal := (edge_iff fun v => val (fr v)).mpr (by
            show (ra : ℚ) * val (fr a) = rb * val (fr b)
            rw [hfa, ← hmis, hfbval])
          refine ⟨?_, ?_, hpos.1, hpos.2, hbal⟩
          · rcases ends with ⟨q1, q2⟩ | ⟨q1, q2⟩
            · rw [q1, hfa]; exact hfz
            · rw [q1]; exact hknown
          · rcases ends with ⟨q1, q2⟩ | ⟨q1, q2⟩
            · rw [q2]; exact hknown
            · rw [q2, hfa]; exact hfz
        · exact i3 e he
      · have c1 : (Frac.ne (fr b) zero && Frac.ne fb (fr b)) = true := by
          rw [Bool.and_eq_true, ne_iff, ne_iff]; exact ⟨hknown, hmis⟩
        rw [if_pos c1]
        refine ⟨false, _, rfl, by simp, fun _ => rfl, ?_⟩
        intro x lam hx hl hfol
        exfalso
        apply hmis
        rw [← val_eq_iff hm2 (hn b).1, pred x lam hx hl hfol, hfol b hknown]

theorem visit_spec (hin : ∀ e, 0 ≤ inRate g rp e) (hout : ∀ e, 0 ≤ outRate g rp e) (fuel : ℕ) :
    VisitSpec g rp (visit g rp fuel) fuel := by
  induction fuel with
  | zero =>
    intro fr a hn ha hz
    omega
  | succ fuel ih =>
    intro fr a hn ha hz
    unfold visit
    rw [if_neg (by rw [eqv_zero]; exact ha)]
    obtain ⟨b, fr', h1, h2, h3, h4⟩ := edgeLoop_spec hin hout ih a (fr a) (List.finRange nE) fr hn rfl ha (by omega)
    refine ⟨b, fr', h1, fun hb => ?_, h3, h4⟩
    obtain ⟨i1, i2, i3, i4⟩ := h2 hb
    refine ⟨i1, i2, ?_⟩
    intro v hv e he
    rcases hv with rfl | hv
    · exact i3 e (List.mem_finRange e) he
    · exact i4 v hv e he

/-! ### All components -/

/-- The channels of every vertex with a known fraction are balanced. -/
def Closed (g : Graph nV nE) (rp : Nat) (fr : Fracs nV) : Prop :=
  ∀ v, fr v ≠ zero → ∀ e, g.src e = v ∨ g.tgt e = v → EdgeOK g rp fr e

/-- Two vertices share a channel. -/
def Adj (g : Graph nV nE) (a b : Fin nV) : Prop := ∃ e, g.src e = a ∧ g.tgt e = b ∨ g.src e = b ∧ g.tgt e = a

theorem Closed.conn {fr : Fracs nV} (h : Closed g rp fr) {a b : Fin nV} (hab : Relation.ReflTransGen (Adj g) a b)
    (hb : fr b ≠ zero) : fr a ≠ zero := by
  induction hab using Relation.ReflTransGen.head_induction_on with
  | refl => exact hb
  | head hab _ ih =>
    obtain ⟨e, ⟨h1, h2⟩ | ⟨h1, h2⟩⟩ := hab
    · have := h _ ih e (.inr h2); rw [← h1]; exact this.1
    · have := h _ ih e (.inl h1); rw [← h2]; exact this.2.1

theorem roots_spec (hin : ∀ e, 0 ≤ inRate g rp e) (hout : ∀ e, 0 ≤ outRate g rp e) :
    ∀ (vs : List (Fin nV)) (fr : Fracs nV), Norm fr → Closed g rp fr →
      ∃ b fr', roots g rp (nV + 1) vs fr = some (b, fr') ∧
      (b = true → Norm fr' ∧ Ext fr fr' ∧ Closed g rp fr' ∧ ∀ v ∈ vs, fr' v ≠ zero) ∧
      ∀ x, Sol g rp x → (∃ lam : Fin nV → ℚ, (∀ e, lam (g.src e) = lam (g.tgt e)) ∧ Follows fr x lam) → b = true := by
  intro vs
  induction vs with
  | nil =>
    intro fr hn hc
    exact ⟨true, fr, rfl, fun _ => ⟨hn, Ext.refl _, hc, by simp⟩, fun _ _ _ => rfl⟩
  | cons v vs ih =>
    intro fr hn hc
    unfold roots
    by_cases hv : fr v = zero
    swap
    · rw [if_neg (by rw [eqv_zero]; exact hv)]
      obtain ⟨b, fr', h1, h2, h3⟩ := ih fr hn hc
      refine ⟨b, fr', h1, fun hb => ?_, h3⟩
      obtain ⟨i1, i2, i3, i4⟩ := h2 hb
      refine ⟨i1, i2, i3, ?_⟩
      intro u hu
      rcases List.mem_cons.mp hu with rfl | hu
      · rw [i2 _ hv]; exact hv
      · exact i4 u hu
    rw [if_pos ((eqv_zero _).mpr hv)]
    have one : (⟨1, 1⟩ : Frac) ≠ zero := by unfold zero; decide
    have hn1 : Norm (Function.update fr v ⟨1, 1⟩) := by
      intro u
      by_cases hu : u = v
      · subst hu; rw [Function.update_self]; unfold LowestTerms; decide
      · rw [Function.update_of_ne hu]; exact hn u
    have hzb : zeros (Function.update fr v ⟨1, 1⟩) < nV + 1 := by
      have : zeros (Function.update fr v ⟨1, 1⟩) ≤ nV := by
        unfold zeros
        calc _ ≤ (Finset.univ : Finset (Fin nV)).card := Finset.card_filter_le _ _
          _ = nV := by simp
      omega
    obtain ⟨r, fr1, v1, v2, v3, v4⟩ := visit_spec (g := g) (rp := rp) hin hout (nV + 1) (Function.update fr v ⟨1, 1⟩) v hn1
      (by rw [Function.update_self]; exact one) hzb
    rw [v1]
    have follow : ∀ x, Sol g rp x → (∃ lam : Fin nV → ℚ, (∀ e, lam (g.src e) = lam (g.tgt e)) ∧ Follows fr x lam) →
        r = true ∧ ∃ lam : Fin nV → ℚ, (∀ e, lam (g.src e) = lam (g.tgt e)) ∧ Follows fr1 x lam := by
      rintro x hx ⟨lam, hl, hfol⟩
      classical
      have hl' : ∀ e, (if Relation.ReflTransGen (Adj g) v (g.src e) then 1 / x v else lam (g.src e)) =
          (if Relation.ReflTransGen (Adj g) v (g.tgt e) then 1 / x v else lam (g.tgt e)) := by
        intro e
        have : Relation.ReflTransGen (Adj g) v (g.src e) ↔ Relation.ReflTransGen (Adj g) v (g.tgt e) :=
          ⟨fun h => h.tail ⟨e, .inl ⟨rfl, rfl⟩⟩, fun h => h.tail ⟨e, .inr ⟨rfl, rfl⟩⟩⟩
        by_cases h : Relation.ReflTransGen (Adj g) v (g.src e)
        · rw [if_pos h, if_pos (this.mp h)]
        · rw [if_neg h, if_neg (fun h' => h (this.mpr h')), hl e]
      have hf' : Follows (Function.update fr v ⟨1, 1⟩) x
          (fun u => if Relation.ReflTransGen (Adj g) v u then 1 / x v else lam u) := by
        intro u hu
        by_cases huv : u = v
        · subst huv
          have := (hx.1 u).ne'
          simp only [Function.update_self]
          rw [if_pos Relation.ReflTransGen.refl]
          unfold val; field_simp
        · rw [Function.update_of_ne huv] at hu ⊢
          simp only
          rw [if_neg]
          · exact hfol u hu
          · intro hcon
            exact hc.conn hcon hu hv
      obtain ⟨w1, w2⟩ := v4 x _ hx hl' hf'
      exact ⟨w1, _, hl', w2⟩
    cases r with
    | false =>
      refine ⟨false, fr1, rfl, by simp, ?_⟩
      intro x hx hlam
      exact absurd (follow x hx hlam).1 (by simp)
    | true =>
      obtain ⟨w1, w2, w3⟩ := v2 rfl
      have hext : Ext fr fr1 := (ext_update hv).trans w2
      have hc1 : Closed g rp fr1 := by
        intro u hu e he
        by_cases huv : u = v
        · exact w3 u (.inl huv) e he
        · by_cases hu0 : fr u = zero
          · exact w3 u (.inr ⟨by rw [Function.update_of_ne huv]; exact hu0, hu⟩) e he
          · exact (hc u hu0 e he).ext hext
      obtain ⟨b, fr', h1, h2, h3⟩ := ih fr1 w1 hc1
      refine ⟨b, fr', h1, fun hb => ?_, fun x hx hlam => h3 x hx (follow x hx hlam).2⟩
      obtain ⟨i1, i2, i3, i4⟩ := h2 hb
      refine ⟨i1, hext.trans i2, i3, ?_⟩
      intro u hu
      rcases List.mem_cons.mp hu with rfl | hu
      · have : fr1 u ≠ zero := by
          rw [w2 u (by rw [Function.update_self]; exact one), Function.update_self]; exact one
        rw [i2 u this]; exact this
      · exact i4 u hu

/-! ### Scaling to integers -/

theorem foldl_lcm {α : Type} (f : α → Int) (l : List α) : ∀ init : Int, init ∣ l.foldl (fun x v => (Int.lcm x (f v) : Int)) init ∧
    (∀ v ∈ l, f v ∣ l.foldl (fun x v => (Int.lcm x (f v) : Int)) init) ∧
    (init ≠ 0 → (∀ v ∈ l, f v ≠ 0) → l.foldl (fun x v => (Int.lcm x (f v) : Int)) init ≠ 0) ∧
    (0 ≤ init → 0 ≤ l.foldl (fun x v => (Int.lcm x (f v) : Int)) init) := by
  induction l with
  | nil => intro init; simp
  | cons a l ih =>
    intro init
    obtain ⟨h1, h2, h3, h4⟩ := ih (Int.lcm init (f a) : Int)
    simp only [List.foldl_cons]
    refine ⟨(Int.dvd_lcm_left ..).trans h1, ?_, ?_, fun _ => h4 (by positivity)⟩
    · intro v hv
      rcases List.mem_cons.mp hv with rfl | hv
      · exact (Int.dvd_lcm_right ..).trans h1
      · exact h2 v hv
    · intro hi hf
      apply h3
      · have := Int.lcm_ne_zero hi (hf a (by simp))
        exact_mod_cast this
      · intro v hv; exact hf v (by simp [hv])

theorem foldl_gcd {α : Type} (f : α → Int) (l : List α) : ∀ init : Int, l.foldl (fun x v => (Int.gcd x (f v) : Int)) init ∣ init ∧
    (∀ v ∈ l, l.foldl (fun x v => (Int.gcd x (f v) : Int)) init ∣ f v) ∧
    (∀ d, d ∣ init → (∀ v ∈ l, d ∣ f v) → d ∣ l.foldl (fun x v => (Int.gcd x (f v) : Int)) init) ∧
    (0 ≤ init → 0 ≤ l.foldl (fun x v => (Int.gcd x (f v) : Int)) init) := by
  induction l with
  | nil => intro init; simp
  | cons a l ih =>
    intro init
    obtain ⟨h1, h2, h3, h4⟩ := ih (Int.gcd init (f a) : Int)
    simp only [List.foldl_cons]
    refine ⟨h1.trans (Int.gcd_dvd_left ..), ?_, ?_, fun _ => h4 (by positivity)⟩
    · intro v hv
      rcases List.mem_cons.mp hv with rfl | hv
      · exact h1.trans (Int.gcd_dvd_right ..)
      · exact h2 v hv
    · intro d hd hf
      exact h3 d (Int.dvd_coe_gcd hd (hf a (by simp))) fun v hv => hf v (by simp [hv])

/-- The scaling: the result is a positive multiple of the fractions, obtained from coprime integers `r`. -/
theorem calc_spec (hV : 0 < nV) (hrp : 0 < rp) (hph : ∀ v, 0 < g.phases v) {fr : Fracs nV} (hn : Norm fr)
    (hz : ∀ v, fr v ≠ zero) : ∃ N, calcRepetitionVector g fr rp = some (some N) ∧
      ∃ (r : Fin nV → Int) (sub : Int) (kap : ℚ), 0 < kap ∧ 0 < sub ∧ (∀ v, 0 < r v) ∧ (∀ d, (∀ v, d ∣ r v) → d ∣ 1) ∧
        sub ∣ (rp : Int) ∧ (∀ v, sub ∣ (r v * rp).tdiv (g.phases v)) ∧
        (∀ d, d ∣ (rp : Int) → (∀ v, d ∣ (r v * rp).tdiv (g.phases v)) → d ∣ sub) ∧
        (∀ v, N v * sub = r v * rp) ∧ ∀ v, (r v : ℚ) = kap * val (fr v) := by
  have hd : ∀ v, 0 < (fr v).d := fun v => (hn v).1.1
  have hnum : ∀ v, 0 < (fr v).n := fun v => (pos_of_ne_zero (hn v).1 (hn v).2 (hz v)).1
  obtain ⟨l, hl⟩ : ∃ l, l = denLcm fr := ⟨_, rfl⟩
  obtain ⟨l1, l2, l3, l4⟩ := foldl_lcm (fun v => (fr v).d) (List.finRange nV) 1
  have hlpos : 0 < l := by
    have a1 := l3 (by norm_num) fun v _ => (hd v).ne'
    have a2 := l4 (by norm_num)
    rw [hl]; unfold denLcm; omega
  have hldvd : ∀ v, (fr v).d ∣ l := by
    intro v; rw [hl]; exact l2 v (List.mem_finRange v)
  unfold calcRepetitionVector
  simp only [← hl]
  rw [if_neg hlpos.ne', if_neg (by rintro ⟨v, hv⟩; have := hd v; omega)]
  obtain ⟨v0, hv0⟩ : ∃ v0, (List.finRange nV).head? = some v0 := by
    cases h : (List.finRange nV).head? with
    | none =>
      rw [List.head?_eq_none_iff] at h
      have := congrArg List.length h
      simp at this; omega
    | some v => exact ⟨v, rfl⟩
  rw [hv0]
  simp only
  have htd : ∀ v, (((fr v).n * l).tdiv (fr v).d : ℚ) = val (fr v) * l ∧ 0 < ((fr v).n * l).tdiv (fr v).d := by
    intro v
    obtain ⟨k, hk⟩ := hldvd v
    have e : ((fr v).n * l).tdiv (fr v).d = (fr v).n * k :=
      Int.tdiv_eq_of_eq_mul_right (hd v).ne' (by rw [hk]; ring)
    have hkpos : 0 < k := by
      by_contra hc
      have : (fr v).d * k ≤ 0 := mul_nonpos_of_nonneg_of_nonpos (hd v).le (by omega)
      omega
    rw [e]
    refine ⟨?_, mul_pos (hnum v) hkpos⟩
    have hdq : ((fr v).d : ℚ) ≠ 0 := by exact_mod_cast (hd v).ne'
    unfold val
    rw [hk]; push_cast; field_simp
  obtain ⟨r0, hr0⟩ : ∃ r0 : Fin nV → Int, r0 = fun v => ((fr v).n * l).tdiv (fr v).d := ⟨_, rfl⟩
  have htd' : ∀ v, (r0 v : ℚ) = val (fr v) * l ∧ 0 < r0 v := by intro v; rw [hr0]; exact htd v
  have er : ∀ v, ((fr v).n * l).tdiv (fr v).d = r0 v := by intro v; rw [hr0]
  simp only [er]
  obtain ⟨g1, g2, g3, g4⟩ := foldl_gcd r0 (List.finRange nV) (r0 v0)
  obtain ⟨gc, hgc⟩ : ∃ x, x = (List.finRange nV).foldl (fun x v => (Int.gcd x (r0 v) : Int)) (r0 v0) := ⟨_, rfl⟩
  rw [← hgc] at g1 g2 g3 g4
  simp only [← hgc]
  have hgcpos : 0 < gc := by
    have a1 := g4 (htd' v0).2.le
    have : gc ≠ 0 := by
      rintro h
      rw [h] at g1
      have := Int.zero_dvd.mp g1
      have := (htd' v0).2
      omega
    omega
  rw [if_neg (by omega)]
  rw [if_neg (by rintro ⟨v, hv⟩; have := hph v; omega)]
  obtain ⟨r, hr⟩ : ∃ r : Fin nV → Int, r = fun v => (r0 v).tdiv gc := ⟨_, rfl⟩
  have er' : ∀ v, (r0 v).tdiv gc = r v := by intro v; rw [hr]
  simp only [er']
  have hrv : ∀ v, r0 v = gc * r v := by
    intro v
    rw [← er' v, Int.mul_tdiv_cancel' (g2 v (List.mem_finRange v))]
  have hrpos : ∀ v, 0 < r v := by
    intro v
    have a1 := (htd' v).2
    rw [hrv v] at a1
    exact pos_of_mul_pos_right a1 hgcpos.le
  obtain ⟨s1, s2, s3, s4⟩ := foldl_gcd (fun v => (r v * (rp : Int)).tdiv (g.phases v)) (List.finRange nV) (rp : Int)
  obtain ⟨sub, hsub⟩ : ∃ x, x = (List.finRange nV).foldl (fun x v => (Int.gcd x ((r v * (rp : Int)).tdiv (g.phases v)) : Int)) (rp : Int) := ⟨_, rfl⟩
  rw [← hsub] at s1 s2 s3 s4
  simp only [← hsub]
  have hrpi : (0 : Int) < rp := by exact_mod_cast hrp
  have hsubpos : 0 < sub := by
    have a1 := s4 hrpi.le
    have : sub ≠ 0 := by
      rintro h
      rw [h] at s1
      have := Int.zero_dvd.mp s1
      omega
    omega
  rw [if_neg hsubpos.ne']
  have hlq : (0 : ℚ) < l := by exact_mod_cast hlpos
  have hgq : (0 : ℚ) < gc := by exact_mod_cast hgcpos
  refine ⟨_, rfl, r, sub, l / gc, by positivity, hsubpos, hrpos, ?_, s1, fun v => s2 v (List.mem_finRange v),
    fun d h1 h2 => s3 d h1 fun v _ => h2 v, ?_, ?_⟩
  · intro d hd
    have : gc * d ∣ gc * 1 := by
      rw [mul_one]
      exact g3 _ (by rw [hrv]; exact mul_dvd_mul_left _ (hd v0)) fun v _ => by rw [hrv]; exact mul_dvd_mul_left _ (hd v)
    exact (mul_dvd_mul_iff_left hgcpos.ne').mp this
  · intro v
    have : sub ∣ r v * rp := s1.trans (dvd_mul_left _ _)
    exact Int.tdiv_mul_cancel this
  · intro v
    have h1 := (htd' v).1
    rw [hrv v] at h1
    push_cast at h1
    rw [div_mul_eq_mul_div, eq_div_iff hgq.ne']
    linarith

theorem foldl_natlcm {α : Type} (f h : α → Nat) (l : List α) : ∀ init : Nat,
    init ∣ l.foldl (fun x v => Nat.lcm (Nat.lcm x (f v)) (h v)) init ∧
    (∀ v ∈ l, f v ∣ l.foldl (fun x v => Nat.lcm (Nat.lcm x (f v)) (h v)) init ∧
      h v ∣ l.foldl (fun x v => Nat.lcm (Nat.lcm x (f v)) (h v)) init) ∧
    (0 < init → (∀ v ∈ l, 0 < f v ∧ 0 < h v) → 0 < l.foldl (fun x v => Nat.lcm (Nat.lcm x (f v)) (h v)) init) := by
  induction l with
  | nil => intro init; simp
  | cons a l ih =>
    intro init
    obtain ⟨h1, h2, h3⟩ := ih (Nat.lcm (Nat.lcm init (f a)) (h a))
    simp only [List.foldl_cons]
    refine ⟨((Nat.dvd_lcm_left _ _).trans (Nat.dvd_lcm_left _ _)).trans h1, ?_, ?_⟩
    · intro v hv
      rcases List.mem_cons.mp hv with rfl | hv
      · exact ⟨((Nat.dvd_lcm_right _ _).trans (Nat.dvd_lcm_left _ _)).trans h1, (Nat.dvd_lcm_right _ _).trans h1⟩
      · exact h2 v hv
    · intro hi hf
      apply h3
      · have := hf a (by simp)
        exact Nat.lcm_pos (Nat.lcm_pos hi this.1) this.2
      · intro v hv; exact hf v (by simp [hv])

end Kiter.Rep
