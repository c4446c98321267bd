/-
The repetition vector on machine integers: agreement with the unbounded program.
-/
import Verif.Model.RepetitionMachine
import Verif.Props.Repetition

set_option autoImplicit false

namespace Kiter.RepM

open Rep Frac

variable {nV nE : Nat} {g : Graph nV nE}

theorem long_eq {x : Int} (h0 : 0 ≤ x) (h1 : x ≤ longMax) : long x = some x := by
  unfold long
  rw [if_pos]
  refine ⟨?_, h1⟩
  have : -longMax - 1 ≤ 0 := by unfold longMax; norm_num
  omega

theorem long_some {x y : Int} (h : long x = some y) : y = x := by
  unfold long at h
  split at h <;> simp_all

theorem toInt_eq {x : Int} (h0 : 0 ≤ x) (h1 : x ≤ intMax) : toInt x = x := by
  unfold toInt
  have hm : intMax = 2147483647 := by unfold intMax; norm_num
  rw [hm] at h1 ⊢
  omega

theorem total_eq : ∀ (l : List Int) (acc : Int), 0 ≤ acc → (∀ r ∈ l, 0 ≤ r) → acc + l.sum ≤ intMax →
    total acc l = some (acc + l.sum)
  | [], acc, _, _, _ => by simp [total]
  | x :: xs, acc, ha, hl, hs => by
    have hx := hl x (by simp)
    have hxs : ∀ r ∈ xs, 0 ≤ r := fun r hr => hl r (by simp [hr])
    have hsum := List.sum_nonneg hxs
    rw [List.sum_cons] at hs ⊢
    have hm : intMax ≤ longMax := by unfold intMax longMax; norm_num
    unfold total
    rw [long_eq (by omega) (by omega), Option.bind_some, toInt_eq (by omega) (by omega),
      total_eq xs (acc + x) (by omega) hxs (by omega)]
    congr 1; omega

theorem lcm_eq {a b : ℕ} (h : ((Nat.lcm a b : ℕ) : Int) ≤ longMax) : lcm (a : Int) b = some ((Nat.lcm a b : ℕ) : Int) := by
  unfold lcm
  have : (Int.lcm (a : Int) b : Int) = ((Nat.lcm a b : ℕ) : Int) := by simp [Int.lcm]
  rw [this]
  exact long_eq (by positivity) h

theorem ratePeriod_fold (l : List (Fin nE)) : ∀ init : ℕ,
    let f := l.foldl (fun r c => Nat.lcm (Nat.lcm r (g.prod c).length) (g.cons c).length) init
    0 < f → (f : Int) ≤ longMax →
    l.foldlM (fun (r : Int) c => (lcm r (g.prod c).length).bind fun r' => lcm r' (g.cons c).length) (init : Int) = some (f : Int) := by
  induction l with
  | nil => intro init; simp
  | cons c cs ih =>
    intro init f hf0 hf
    have hdvd := (foldl_natlcm (fun e => (g.prod e).length) (fun e => (g.cons e).length) cs
      (Nat.lcm (Nat.lcm init (g.prod c).length) (g.cons c).length)).1
    have ef : f = cs.foldl (fun r c => Nat.lcm (Nat.lcm r (g.prod c).length) (g.cons c).length)
      (Nat.lcm (Nat.lcm init (g.prod c).length) (g.cons c).length) := rfl
    rw [← ef] at hdvd
    have b2 : Nat.lcm (Nat.lcm init (g.prod c).length) (g.cons c).length ≤ f := Nat.le_of_dvd hf0 hdvd
    have b1 : Nat.lcm init (g.prod c).length ≤ f := Nat.le_of_dvd hf0 ((Nat.dvd_lcm_left _ _).trans hdvd)
    rw [List.foldlM_cons, lcm_eq (by omega), Option.bind_some, lcm_eq (by omega)]
    exact ih _ hf0 hf

theorem ratePeriod_eq (h0 : 0 < Rep.ratePeriod g) (h1 : (Rep.ratePeriod g : Int) ≤ longMax) :
    ratePeriod g = some (Rep.ratePeriod g : Int) :=
  ratePeriod_fold (g := g) (List.finRange nE) 1 h0 h1

theorem rate_eq (l : List Int) (rp : ℕ) {R : Int} (hl : ∀ r ∈ l, 0 ≤ r) (hR : l.sum ≤ R) (hm : R ≤ intMax)
    (hb : R * rp ≤ longMax) :
    ((total 0 l).bind fun t => long (t * (rp : Int).tdiv l.length)) = some (l.sum * ((rp / l.length : ℕ) : Int)) ∧
    0 ≤ l.sum * ((rp / l.length : ℕ) : Int) ∧ l.sum * ((rp / l.length : ℕ) : Int) ≤ R * rp := by
  have h0 := List.sum_nonneg hl
  have hle : ((rp / l.length : ℕ) : Int) ≤ rp := by exact_mod_cast Nat.div_le_self rp l.length
  have hb2 : l.sum * ((rp / l.length : ℕ) : Int) ≤ R * rp :=
    mul_le_mul hR hle (by positivity) (h0.trans hR)
  have hb0 : 0 ≤ l.sum * ((rp / l.length : ℕ) : Int) := by positivity
  refine ⟨?_, hb0, hb2⟩
  rw [total_eq l 0 le_rfl hl (by omega), Option.bind_some, zero_add, ← Int.ofNat_tdiv]
  exact long_eq hb0 (hb2.trans hb)

theorem mul_eq {a b : Frac} (h1 : 0 ≤ a.n * b.n) (h2 : a.n * b.n ≤ longMax) (h3 : 0 ≤ a.d * b.d) (h4 : a.d * b.d ≤ longMax) :
    mul a b = Frac.mul a b := by
  unfold mul Frac.mul
  rw [long_eq h1 h2, long_eq h3 h4]; rfl

theorem mul_some {a b f : Frac} (h : mul a b = some f) : Frac.mul a b = some f := by
  unfold mul at h
  simp only [Option.bind_eq_some_iff] at h
  obtain ⟨n, hn, d, hd, h⟩ := h
  rw [long_some hn, long_some hd] at h
  exact h

/-- A normalised fraction is not larger than another way to write it. -/
theorem lowest_le {f : Frac} (hf : LowestTerms f) {a b : Int} (ha : 0 < a) (hb : 0 < b)
    (h : val f = (a : ℚ) / b) : f.n ≤ a ∧ f.d ≤ b := by
  have hd := hf.1
  have e : f.n * b = a * f.d := by
    unfold val at h
    have h1 : (f.d : ℚ) ≠ 0 := by exact_mod_cast hd.ne'
    have h2 : (b : ℚ) ≠ 0 := by exact_mod_cast hb.ne'
    rw [div_eq_div_iff h1 h2] at h
    exact_mod_cast h
  have hc : IsCoprime f.n f.d := Int.isCoprime_iff_gcd_eq_one.mpr hf.2
  have d1 : f.n ∣ a := hc.dvd_of_dvd_mul_right ⟨b, e.symm⟩
  have d2 : f.d ∣ b := hc.symm.dvd_of_dvd_mul_left ⟨a, by rw [e]; ring⟩
  exact ⟨Int.le_of_dvd ha d1, Int.le_of_dvd hb d2⟩

/-- Every known fraction is the ratio between two entries of the solution `y`, the second being that of a task whose
fraction is 1. -/
def Inv (y : Fin nV → Int) (fr : Fracs nV) : Prop :=
  Norm fr ∧ ∀ v, fr v ≠ zero → ∃ t, fr t = ⟨1, 1⟩ ∧ val (fr v) = (y v : ℚ) / y t

theorem one_ne : (⟨1, 1⟩ : Frac) ≠ zero := by unfold zero; decide

theorem inv_zero (y : Fin nV → Int) : Inv y (fun _ => zero) :=
  ⟨fun _ => ⟨zero_lowest, by unfold zero; norm_num⟩, fun _ h => absurd rfl h⟩

/-- What is kept by one call of the recursive function. -/
def Keeps (y : Fin nV → Int) (fM f : Fracs nV → Fin nV → Option (Bool × Fracs nV)) : Prop :=
  ∀ fr a, Inv y fr → fM fr a = f fr a ∧
    ∀ r, f fr a = some r → Inv y r.2 ∧ (Ext fr r.2 ∨ r.2 = fun _ => zero)

/-- The solution and the bounds under which no operation overflows. -/
structure Bounded (g : Graph nV nE) (rp : ℕ) (y : Fin nV → Int) (Q P : Int) : Prop where
  pos : ∀ v, 0 < y v
  le : ∀ v, y v ≤ Q
  bal : ∀ e, Rep.inRate g rp e * y (g.src e) = Rep.outRate g rp e * y (g.tgt e)
  inM : ∀ e, inRate g rp e = some (Rep.inRate g rp e)
  outM : ∀ e, outRate g rp e = some (Rep.outRate g rp e)
  inB : ∀ e, 0 ≤ Rep.inRate g rp e ∧ Rep.inRate g rp e ≤ P
  outB : ∀ e, 0 ≤ Rep.outRate g rp e ∧ Rep.outRate g rp e ≤ P
  fits : Q * P ≤ longMax

theorem edgeLoop_eq {rp : ℕ} {y : Fin nV → Int} {Q P : Int} (hB : Bounded g rp y Q P)
    {fM f : Fracs nV → Fin nV → Option (Bool × Fracs nV)} (hf : Keeps y fM f) (a : Fin nV) (fa : Frac)
    (hl : LowestTerms fa) (hn : 0 < fa.n) :
    ∀ (cs : List (Fin nE)) (fr : Fracs nV), Inv y fr → (∃ t, fr t = ⟨1, 1⟩ ∧ val fa = (y a : ℚ) / y t) →
      edgeLoop g rp fM a fa cs fr = Rep.edgeLoop g rp f a fa cs fr ∧
      ∀ r, Rep.edgeLoop g rp f a fa cs fr = some r → Inv y r.2 ∧ (Ext fr r.2 ∨ r.2 = fun _ => zero) := by
  intro cs
  induction cs with
  | nil =>
    intro fr hi _
    refine ⟨rfl, ?_⟩
    intro r hr
    simp only [Rep.edgeLoop, Option.some.injEq] at hr
    subst hr
    exact ⟨hi, .inl (Ext.refl _)⟩
  | cons c cs ih =>
    intro fr hi ht
    unfold edgeLoop Rep.edgeLoop
    by_cases hc : g.src c = a ∨ g.tgt c = a
    swap
    · rw [if_neg hc, if_neg hc]; exact ih fr hi ht
    rw [if_pos hc, if_pos hc, hB.inM, hB.outM]
    simp only [Option.bind_some]
    obtain ⟨b, hb⟩ : ∃ b, b = if g.src c = a then g.tgt c else g.src c := ⟨_, rfl⟩
    obtain ⟨rA, hrA⟩ : ∃ x, x = if g.tgt c = a then Rep.outRate g rp c else Rep.inRate g rp c := ⟨_, rfl⟩
    obtain ⟨rB, hrB⟩ : ∃ x, x = if g.tgt c = a then Rep.inRate g rp c else Rep.outRate g rp c := ⟨_, rfl⟩
    simp only [← hb, ← hrA, ← hrB]
    have hbal : rA * y a = rB * y b := by
      have e := hB.bal c
      by_cases h1 : g.tgt c = a
      · rw [if_pos h1] at hrA hrB
        by_cases h2 : g.src c = a
        · rw [if_pos h2] at hb
          rw [hrA, hrB, hb, h1]; rw [h1, h2] at e; exact e.symm
        · rw [if_neg h2] at hb
          rw [hrA, hrB, hb]; rw [h1] at e; exact e.symm
      · have h2 : g.src c = a := hc.resolve_right h1
        rw [if_neg h1] at hrA hrB
        rw [if_pos h2] at hb
        rw [hrA, hrB, hb]; rw [h2] at e; exact e
    have bA : 0 ≤ rA ∧ rA ≤ P := by rw [hrA]; split; exacts [hB.outB c, hB.inB c]
    have bB : 0 ≤ rB ∧ rB ≤ P := by rw [hrB]; split; exacts [hB.inB c, hB.outB c]
    by_cases hz : rA = 0 ∨ rB = 0
    · rw [if_pos hz, if_pos hz]
      refine ⟨rfl, ?_⟩
      intro r hr
      obtain rfl := Option.some.inj hr
      exact ⟨inv_zero y, .inr rfl⟩
    rw [if_neg hz, if_neg hz]
    push Not at hz
    have pA : 0 < rA := lt_of_le_of_ne bA.1 (Ne.symm hz.1)
    have pB : 0 < rB := lt_of_le_of_ne bB.1 (Ne.symm hz.2)
    obtain ⟨ratio, hr1, hr2, hr3⟩ := make_pos (n := rA) pB
    rw [hr1]
    simp only [Option.bind_some]
    obtain ⟨t, ht1, ht2⟩ := ht
    have hfa := lowest_le hl (hB.pos a) (hB.pos t) ht2
    have rn : 0 < ratio.n := by
      have : (0 : ℚ) < val ratio := by
        rw [hr3]
        have q1 : (0 : ℚ) < rA := by exact_mod_cast pA
        have q2 : (0 : ℚ) < rB := by exact_mod_cast pB
        positivity
      unfold val at this
      have q3 : (0 : ℚ) < ratio.d := by exact_mod_cast hr2.1
      have := (div_pos_iff_of_pos_right q3).mp this
      exact_mod_cast this
    have hra := lowest_le hr2 pA pB hr3
    have hQ0 : 0 < Q := (hB.pos a).trans_le (hB.le a)
    have m1 : fa.n * ratio.n ≤ longMax :=
      (mul_le_mul (hfa.1.trans (hB.le a)) (hra.1.trans bA.2) rn.le hQ0.le).trans hB.fits
    have m2 : fa.d * ratio.d ≤ longMax :=
      (mul_le_mul (hfa.2.trans (hB.le t)) (hra.2.trans bB.2) hr2.1.le hQ0.le).trans hB.fits
    rw [mul_eq (mul_pos hn rn).le m1 (mul_pos hl.1 hr2.1).le m2]
    obtain ⟨fb, hm1, hm2, hm3⟩ := C04_mul fa ratio hl hr2
    rw [hm1]
    simp only [Option.bind_some]
    have ya : (0 : ℚ) < y a := by exact_mod_cast hB.pos a
    have yt : (0 : ℚ) < y t := by exact_mod_cast hB.pos t
    have qB : (0 : ℚ) < rB := by exact_mod_cast pB
    have yb : (0 : ℚ) < y b := by exact_mod_cast hB.pos b
    have vb : val fb = (y b : ℚ) / y t := by
      rw [hm3, ht2, hr3]
      have e : (rA : ℚ) * y a = rB * y b := by exact_mod_cast hbal
      rw [div_mul_div_comm, div_eq_div_iff (by positivity) (by positivity)]
      linear_combination (y t : ℚ) * e
    have fbn : 0 ≤ fb.n := by
      have h1 : (0 : ℚ) < val fb := by rw [vb]; positivity
      unfold val at h1
      have q3 : (0 : ℚ) < fb.d := by exact_mod_cast hm2.1
      have := (div_pos_iff_of_pos_right q3).mp h1
      have : 0 < fb.n := by exact_mod_cast this
      exact this.le
    by_cases c1 : (Frac.ne (fr b) zero && Frac.ne fb (fr b)) = true
    · rw [if_pos c1, if_pos c1]
      refine ⟨rfl, ?_⟩
      intro r hr
      obtain rfl := Option.some.inj hr
      exact ⟨inv_zero y, .inr rfl⟩
    rw [if_neg c1, if_neg c1]
    by_cases c2 : Frac.eqv (fr b) zero = true
    swap
    · rw [if_neg c2, if_neg c2]; exact ih fr hi ⟨t, ht1, ht2⟩
    rw [if_pos c2, if_pos c2]
    have hbz : fr b = zero := (eqv_zero _).mp c2
    have htb : t ≠ b := by rintro rfl; rw [ht1] at hbz; exact one_ne hbz
    have hext : Ext fr (Function.update fr b fb) := ext_update hbz
    have hi' : Inv y (Function.update fr b fb) := by
      constructor
      · intro v
        by_cases hv : v = b
        · subst hv; rw [Function.update_self]; exact ⟨hm2, fbn⟩
        · rw [Function.update_of_ne hv]; exact hi.1 v
      · intro v hv
        by_cases hvb : v = b
        · subst hvb
          refine ⟨t, ?_, ?_⟩
          · rw [Function.update_of_ne htb]; exact ht1
          · rw [Function.update_self]; exact vb
        · rw [Function.update_of_ne hvb] at hv ⊢
          obtain ⟨s, hs1, hs2⟩ := hi.2 v hv
          refine ⟨s, ?_, hs2⟩
          rw [hext s (by rw [hs1]; exact one_ne), hs1]
    obtain ⟨k1, k2⟩ := hf (Function.update fr b fb) b hi'
    rw [k1]
    cases hres : f (Function.update fr b fb) b with
    | none => simp
    | some r =>
      obtain ⟨k3, k4⟩ := k2 r hres
      obtain ⟨b', fr'⟩ := r
      simp only [Option.bind_some]
      by_cases c3 : Frac.eqv (fr' b) zero = true
      · rw [if_pos c3, if_pos c3]
        refine ⟨rfl, ?_⟩
        intro r hr
        obtain rfl := Option.some.inj hr
        refine ⟨k3, ?_⟩
        rcases k4 with k4 | k4
        · exact .inl (hext.trans k4)
        · exact .inr k4
      rw [if_neg c3, if_neg c3]
      have hExt : Ext fr fr' := by
        rcases k4 with k4 | k4
        · exact hext.trans k4
        · exfalso; apply c3; rw [eqv_zero]; simp only at k4; rw [k4]
      obtain ⟨i1, i2⟩ := ih fr' k3 ⟨t, by rw [hExt t (by rw [ht1]; exact one_ne), ht1], ht2⟩
      refine ⟨i1, ?_⟩
      intro r hr
      obtain ⟨i3, i4⟩ := i2 r hr
      refine ⟨i3, ?_⟩
      rcases i4 with i4 | i4
      · exact .inl (hExt.trans i4)
      · exact .inr i4

theorem visit_eq {rp : ℕ} {y : Fin nV → Int} {Q P : Int} (hB : Bounded g rp y Q P) (fuel : ℕ) :
    Keeps y (visit g rp fuel) (Rep.visit g rp fuel) := by
  induction fuel with
  | zero => intro fr a _; exact ⟨rfl, by simp [Rep.visit]⟩
  | succ fuel ih =>
    intro fr a hi
    unfold visit Rep.visit
    by_cases ha : Frac.eqv (fr a) zero = true
    · rw [if_pos ha, if_pos ha]
      refine ⟨rfl, ?_⟩
      intro r hr
      obtain rfl := Option.some.inj hr
      exact ⟨hi, .inl (Ext.refl _)⟩
    rw [if_neg ha, if_neg ha]
    rw [eqv_zero] at ha
    exact edgeLoop_eq hB ih a (fr a) (hi.1 a).1 (pos_of_ne_zero (hi.1 a).1 (hi.1 a).2 ha).1 _ fr hi (hi.2 a ha)

theorem roots_eq {rp : ℕ} {y : Fin nV → Int} {Q P : Int} (hB : Bounded g rp y Q P) (fuel : ℕ) :
    ∀ (vs : List (Fin nV)) (fr : Fracs nV), Inv y fr → roots g rp fuel vs fr = Rep.roots g rp fuel vs fr ∧
      ∀ r, Rep.roots g rp fuel vs fr = some r → Inv y r.2 := by
  intro vs
  induction vs with
  | nil =>
    intro fr hi
    refine ⟨rfl, ?_⟩
    intro r hr
    obtain rfl := Option.some.inj hr
    exact hi
  | cons v vs ih =>
    intro fr hi
    unfold roots Rep.roots
    by_cases hv : Frac.eqv (fr v) zero = true
    swap
    · rw [if_neg hv, if_neg hv]; exact ih fr hi
    rw [if_pos hv, if_pos hv]
    rw [eqv_zero] at hv
    have hext : Ext fr (Function.update fr v ⟨1, 1⟩) := ext_update hv
    have yv : (y v : ℚ) ≠ 0 := by exact_mod_cast (hB.pos v).ne'
    have hi' : Inv y (Function.update fr v ⟨1, 1⟩) := by
      constructor
      · intro u
        by_cases hu : u = v
        · subst hu; rw [Function.update_self]; unfold LowestTerms; decide
        · rw [Function.update_of_ne hu]; exact hi.1 u
      · intro u hu
        by_cases huv : u = v
        · subst huv
          refine ⟨u, Function.update_self .., ?_⟩
          rw [Function.update_self, div_self yv]; unfold val; norm_num
        · rw [Function.update_of_ne huv] at hu ⊢
          obtain ⟨s, hs1, hs2⟩ := hi.2 u hu
          refine ⟨s, ?_, hs2⟩
          rw [hext s (by rw [hs1]; exact one_ne), hs1]
    obtain ⟨k1, k2⟩ := visit_eq hB fuel (Function.update fr v ⟨1, 1⟩) v hi'
    rw [k1]
    cases hres : Rep.visit g rp fuel (Function.update fr v ⟨1, 1⟩) v with
    | none => simp
    | some r =>
      obtain ⟨k3, -⟩ := k2 r hres
      obtain ⟨b, fr'⟩ := r
      cases b with
      | false =>
        refine ⟨rfl, ?_⟩
        intro r hr
        obtain rfl := Option.some.inj hr
        exact k3
      | true => exact ih fr' k3

theorem denLcm_fold (fr : Fracs nV) (l : List (Fin nV)) : ∀ init : Int,
    let f := l.foldl (fun l v => (Int.lcm l (fr v).d : Int)) init
    0 < f → f ≤ longMax → l.foldlM (fun l v => lcm l (fr v).d) init = some f := by
  induction l with
  | nil => intro init; simp
  | cons c cs ih =>
    intro init f hf0 hf
    have hdvd := (foldl_lcm (fun v => (fr v).d) cs (Int.lcm init (fr c).d : Int)).1
    have ef : f = cs.foldl (fun l v => (Int.lcm l (fr v).d : Int)) (Int.lcm init (fr c).d : Int) := rfl
    rw [← ef] at hdvd
    have b : (Int.lcm init (fr c).d : Int) ≤ f := Int.le_of_dvd hf0 hdvd
    rw [List.foldlM_cons]
    have : lcm init (fr c).d = some (Int.lcm init (fr c).d : Int) := long_eq (by positivity) (b.trans hf)
    rw [this]
    exact ih _ hf0 hf

/-! ### A bound that does not need a solution -/

/-- Known fractions are bounded by a power of the rate bound `P`; the exponent is the number of known fractions minus
one. -/
def Small (P : Int) (fr : Fracs nV) : Prop :=
  Norm fr ∧ ∀ v, fr v ≠ zero → (fr v).n ≤ P ^ (nV - 1 - zeros fr) ∧ (fr v).d ≤ P ^ (nV - 1 - zeros fr)

def KeepsSmall (P : Int) (fM f : Fracs nV → Fin nV → Option (Bool × Fracs nV)) : Prop :=
  ∀ fr a, Small P fr → fr a ≠ zero → fM fr a = f fr a ∧
    ∀ r, f fr a = some r → Small P r.2 ∧ (Ext fr r.2 ∨ r.2 = fun _ => zero)

theorem small_zero (P : Int) : Small (nV := nV) P (fun _ => zero) :=
  ⟨fun _ => ⟨zero_lowest, by unfold zero; norm_num⟩, fun _ h => absurd rfl h⟩

theorem zeros_lt {fr : Fracs nV} {a : Fin nV} (h : fr a ≠ zero) : zeros fr < nV := by
  unfold zeros
  calc _ < (Finset.univ : Finset (Fin nV)).card := by
        apply Finset.card_lt_card
        rw [Finset.filter_ssubset]
        exact ⟨a, Finset.mem_univ a, h⟩
    _ = nV := by simp

theorem zeros_le {fr : Fracs nV} : zeros fr ≤ nV := by
  unfold zeros
  exact (Finset.card_le_univ _).trans (by simp)

theorem small_update {P : Int} (hP : 1 ≤ P) {fr : Fracs nV} (hs : Small P fr) {b : Fin nV} {fb : Frac} (hb : fr b = zero)
    (hl : LowestTerms fb) (hn : 0 < fb.n) {k : ℕ} (hk : k ≤ nV - zeros fr) (h1 : fb.n ≤ P ^ k) (h2 : fb.d ≤ P ^ k) :
    Small P (Function.update fr b fb) := by
  have hne : fb ≠ zero := by rintro rfl; simp [zero] at hn
  have hz := zeros_update (f := fb) hb hne
  have hle := zeros_le (fr := fr)
  constructor
  · intro v
    by_cases hv : v = b
    · subst hv; rw [Function.update_self]; exact ⟨hl, hn.le⟩
    · rw [Function.update_of_ne hv]; exact hs.1 v
  · intro v hv
    by_cases hvb : v = b
    · subst hvb
      rw [Function.update_self]
      have : P ^ k ≤ P ^ (nV - 1 - zeros (Function.update fr v fb)) := pow_le_pow_right₀ hP (by omega)
      exact ⟨h1.trans this, h2.trans this⟩
    · rw [Function.update_of_ne hvb] at hv ⊢
      have : P ^ (nV - 1 - zeros fr) ≤ P ^ (nV - 1 - zeros (Function.update fr b fb)) := pow_le_pow_right₀ hP (by omega)
      have := hs.2 v hv
      omega

/-- The rates are read without overflow and bounded. -/
structure RatesOK (g : Graph nV nE) (rp : ℕ) (P : Int) : Prop where
  inM : ∀ e, inRate g rp e = some (Rep.inRate g rp e)
  outM : ∀ e, outRate g rp e = some (Rep.outRate g rp e)
  inB : ∀ e, 0 ≤ Rep.inRate g rp e ∧ Rep.inRate g rp e ≤ P
  outB : ∀ e, 0 ≤ Rep.outRate g rp e ∧ Rep.outRate g rp e ≤ P
  one : 1 ≤ P
  fits : P ^ nV ≤ longMax

theorem edgeLoop_small {rp : ℕ} {P : Int} (hB : RatesOK g rp P)
    {fM f : Fracs nV → Fin nV → Option (Bool × Fracs nV)} (hf : KeepsSmall P fM f) (a : Fin nV) (fa : Frac)
    (hl : LowestTerms fa) (hn : 0 < fa.n) :
    ∀ (cs : List (Fin nE)) (fr : Fracs nV), Small P fr → fr a = fa →
      edgeLoop g rp fM a fa cs fr = Rep.edgeLoop g rp f a fa cs fr ∧
      ∀ r, Rep.edgeLoop g rp f a fa cs fr = some r → Small P r.2 ∧ (Ext fr r.2 ∨ r.2 = fun _ => zero) := by
  have hfz : fa ≠ zero := by rintro rfl; simp [zero] at hn
  intro cs
  induction cs with
  | nil =>
    intro fr hi _
    refine ⟨rfl, ?_⟩
    intro r hr
    simp only [Rep.edgeLoop, Option.some.injEq] at hr
    subst hr
    exact ⟨hi, .inl (Ext.refl _)⟩
  | cons c cs ih =>
    intro fr hi ht
    unfold edgeLoop Rep.edgeLoop
    by_cases hc : g.src c = a ∨ g.tgt c = a
    swap
    · rw [if_neg hc, if_neg hc]; exact ih fr hi ht
    rw [if_pos hc, if_pos hc, hB.inM, hB.outM]
    simp only [Option.bind_some]
    obtain ⟨b, hb⟩ : ∃ b, b = if g.src c = a then g.tgt c else g.src c := ⟨_, rfl⟩
    obtain ⟨rA, hrA⟩ : ∃ x, x = if g.tgt c = a then Rep.outRate g rp c else Rep.inRate g rp c := ⟨_, rfl⟩
    obtain ⟨rB, hrB⟩ : ∃ x, x = if g.tgt c = a then Rep.inRate g rp c else Rep.outRate g rp c := ⟨_, rfl⟩
    simp only [← hb, ← hrA, ← hrB]
    have bA : 0 ≤ rA ∧ rA ≤ P := by rw [hrA]; split; exacts [hB.outB c, hB.inB c]
    have bB : 0 ≤ rB ∧ rB ≤ P := by rw [hrB]; split; exacts [hB.inB c, hB.outB c]
    by_cases hz : rA = 0 ∨ rB = 0
    · rw [if_pos hz, if_pos hz]
      refine ⟨rfl, ?_⟩
      intro r hr
      obtain rfl := Option.some.inj hr
      exact ⟨small_zero P, .inr rfl⟩
    rw [if_neg hz, if_neg hz]
    push Not at hz
    have pA : 0 < rA := lt_of_le_of_ne bA.1 (Ne.symm hz.1)
    have pB : 0 < rB := lt_of_le_of_ne bB.1 (Ne.symm hz.2)
    obtain ⟨ratio, hr1, hr2, hr3⟩ := make_pos (n := rA) pB
    rw [hr1]
    simp only [Option.bind_some]
    have rn : 0 < ratio.n := by
      have : (0 : ℚ) < val ratio := by
        rw [hr3]
        have q1 : (0 : ℚ) < rA := by exact_mod_cast pA
        have q2 : (0 : ℚ) < rB := by exact_mod_cast pB
        positivity
      unfold val at this
      have q3 : (0 : ℚ) < ratio.d := by exact_mod_cast hr2.1
      have := (div_pos_iff_of_pos_right q3).mp this
      exact_mod_cast this
    have hra := lowest_le hr2 pA pB hr3
    have hfa := hi.2 a (by rw [ht]; exact hfz)
    rw [ht] at hfa
    have hzl : zeros fr < nV := zeros_lt (a := a) (by rw [ht]; exact hfz)
    obtain ⟨e, he⟩ : ∃ e, e = nV - 1 - zeros fr := ⟨_, rfl⟩
    rw [← he] at hfa
    have pw : (0 : Int) ≤ P ^ e := pow_nonneg (by have := hB.one; omega) _
    have m1 : fa.n * ratio.n ≤ P ^ (e + 1) := by
      rw [pow_succ]; exact mul_le_mul hfa.1 (hra.1.trans bA.2) rn.le pw
    have m2 : fa.d * ratio.d ≤ P ^ (e + 1) := by
      rw [pow_succ]; exact mul_le_mul hfa.2 (hra.2.trans bB.2) hr2.1.le pw
    have m3 : P ^ (e + 1) ≤ longMax := (pow_le_pow_right₀ hB.one (by omega)).trans hB.fits
    rw [mul_eq (mul_pos hn rn).le (m1.trans m3) (mul_pos hl.1 hr2.1).le (m2.trans m3)]
    obtain ⟨fb, hm1, hm2, hm3⟩ := C04_mul fa ratio hl hr2
    rw [hm1]
    simp only [Option.bind_some]
    have vb : val fb = ((fa.n * ratio.n : Int) : ℚ) / ((fa.d * ratio.d : Int) : ℚ) := by
      rw [hm3]; unfold val; push_cast; rw [div_mul_div_comm]
    have hfb := lowest_le hm2 (mul_pos hn rn) (mul_pos hl.1 hr2.1) vb
    have fbn : 0 < fb.n := by
      have h1 : (0 : ℚ) < val fb := by
        rw [vb]
        have q1 : (0 : ℚ) < ((fa.n * ratio.n : Int) : ℚ) := by exact_mod_cast mul_pos hn rn
        have q2 : (0 : ℚ) < ((fa.d * ratio.d : Int) : ℚ) := by exact_mod_cast mul_pos hl.1 hr2.1
        positivity
      unfold val at h1
      have q3 : (0 : ℚ) < fb.d := by exact_mod_cast hm2.1
      have := (div_pos_iff_of_pos_right q3).mp h1
      exact_mod_cast this
    by_cases c1 : (Frac.ne (fr b) zero && Frac.ne fb (fr b)) = true
    · rw [if_pos c1, if_pos c1]
      refine ⟨rfl, ?_⟩
      intro r hr
      obtain rfl := Option.some.inj hr
      exact ⟨small_zero P, .inr rfl⟩
    rw [if_neg c1, if_neg c1]
    by_cases c2 : Frac.eqv (fr b) zero = true
    swap
    · rw [if_neg c2, if_neg c2]; exact ih fr hi ht
    rw [if_pos c2, if_pos c2]
    have hbz : fr b = zero := (eqv_zero _).mp c2
    have hext : Ext fr (Function.update fr b fb) := ext_update hbz
    have hi' : Small P (Function.update fr b fb) :=
      small_update hB.one hi hbz hm2 fbn (k := e + 1) (by omega) (hfb.1.trans m1) (hfb.2.trans m2)
    have fbz : fb ≠ zero := by rintro rfl; simp [zero] at fbn
    obtain ⟨k1, k2⟩ := hf (Function.update fr b fb) b hi' (by rw [Function.update_self]; exact fbz)
    rw [k1]
    cases hres : f (Function.update fr b fb) b with
    | none => simp
    | some r =>
      obtain ⟨k3, k4⟩ := k2 r hres
      obtain ⟨b', fr'⟩ := r
      simp only [Option.bind_some]
      by_cases c3 : Frac.eqv (fr' b) zero = true
      · rw [if_pos c3, if_pos c3]
        refine ⟨rfl, ?_⟩
        intro r hr
        obtain rfl := Option.some.inj hr
        refine ⟨k3, ?_⟩
        rcases k4 with k4 | k4
        · exact .inl (hext.trans k4)
        · exact .inr k4
      rw [if_neg c3, if_neg c3]
      have hExt : Ext fr fr' := by
        rcases k4 with k4 | k4
        · exact hext.trans k4
        · exfalso; apply c3; rw [eqv_zero]; simp only at k4; rw [k4]
      obtain ⟨i1, i2⟩ := ih fr' k3 (by rw [hExt a (by rw [ht]; exact hfz), ht])
      refine ⟨i1, ?_⟩
      intro r hr
      obtain ⟨i3, i4⟩ := i2 r hr
      refine ⟨i3, ?_⟩
      rcases i4 with i4 | i4
      · exact .inl (hExt.trans i4)
      · exact .inr i4

theorem visit_small {rp : ℕ} {P : Int} (hB : RatesOK g rp P) (fuel : ℕ) :
    KeepsSmall P (visit g rp fuel) (Rep.visit g rp fuel) := by
  induction fuel with
  | zero => intro fr a _ _; exact ⟨rfl, by simp [Rep.visit]⟩
  | succ fuel ih =>
    intro fr a hi ha
    unfold visit Rep.visit
    have ha' : ¬ Frac.eqv (fr a) zero = true := by rw [eqv_zero]; exact ha
    rw [if_neg ha', if_neg ha']
    exact edgeLoop_small hB ih a (fr a) (hi.1 a).1 (pos_of_ne_zero (hi.1 a).1 (hi.1 a).2 ha).1 _ fr hi rfl

theorem roots_small {rp : ℕ} {P : Int} (hB : RatesOK g rp P) (fuel : ℕ) :
    ∀ (vs : List (Fin nV)) (fr : Fracs nV), Small P fr → roots g rp fuel vs fr = Rep.roots g rp fuel vs fr := by
  intro vs
  induction vs with
  | nil => intro fr _; rfl
  | cons v vs ih =>
    intro fr hi
    unfold roots Rep.roots
    by_cases hv : Frac.eqv (fr v) zero = true
    swap
    · rw [if_neg hv, if_neg hv]; exact ih fr hi
    rw [if_pos hv, if_pos hv]
    rw [eqv_zero] at hv
    have hi' : Small P (Function.update fr v ⟨1, 1⟩) :=
      small_update hB.one hi hv (by unfold LowestTerms; decide) (by norm_num) (k := 0) (by omega) (by simp) (by simp)
    obtain ⟨k1, k2⟩ := visit_small hB fuel (Function.update fr v ⟨1, 1⟩) v hi' (by rw [Function.update_self]; exact one_ne)
    rw [k1]
    cases hres : Rep.visit g rp fuel (Function.update fr v ⟨1, 1⟩) v with
    | none => simp
    | some r =>
      obtain ⟨k3, -⟩ := k2 r hres
      obtain ⟨b, fr'⟩ := r
      cases b with
      | false => rfl
      | true => exact ih fr' k3

/-! ### Without overflow the two programs agree -/

theorem edgeLoop_some {rp : ℕ} (hi : ∀ e x, inRate g rp e = some x → x = Rep.inRate g rp e)
    (ho : ∀ e x, outRate g rp e = some x → x = Rep.outRate g rp e)
    {fM f : Fracs nV → Fin nV → Option (Bool × Fracs nV)} (hf : ∀ fr a r, fM fr a = some r → f fr a = some r)
    (a : Fin nV) (fa : Frac) : ∀ (cs : List (Fin nE)) (fr : Fracs nV) (r : Bool × Fracs nV),
      edgeLoop g rp fM a fa cs fr = some r → Rep.edgeLoop g rp f a fa cs fr = some r := by
  intro cs
  induction cs with
  | nil => intro fr r h; exact h
  | cons c cs ih =>
    intro fr r h
    unfold edgeLoop at h
    unfold Rep.edgeLoop
    by_cases hc : g.src c = a ∨ g.tgt c = a
    swap
    · rw [if_neg hc] at h ⊢; exact ih fr r h
    rw [if_pos hc] at h ⊢
    simp only [Option.bind_eq_some_iff] at h
    obtain ⟨rin, h1, rout, h2, h⟩ := h
    obtain rfl := hi c rin h1
    obtain rfl := ho c rout h2
    obtain ⟨b, hb⟩ : ∃ b, b = if g.src c = a then g.tgt c else g.src c := ⟨_, rfl⟩
    obtain ⟨rA, hrA⟩ : ∃ x, x = if g.tgt c = a then Rep.outRate g rp c else Rep.inRate g rp c := ⟨_, rfl⟩
    obtain ⟨rB, hrB⟩ : ∃ x, x = if g.tgt c = a then Rep.inRate g rp c else Rep.outRate g rp c := ⟨_, rfl⟩
    simp only [← hb, ← hrA, ← hrB] at h ⊢
    split at h
    · rename_i hz
      rw [if_pos hz]; exact h
    rename_i hz
    rw [if_neg hz]
    simp only [Option.bind_eq_some_iff] at h
    obtain ⟨ratio, h3, fb, h4, h⟩ := h
    rw [h3]; simp only
    rw [mul_some h4]; simp only
    split at h
    · rename_i hz; rw [if_pos hz]; exact h
    rename_i hz
    rw [if_neg hz]
    split at h
    swap
    · rename_i hz; rw [if_neg hz]; exact ih fr r h
    rename_i hz
    rw [if_pos hz]
    simp only [Option.bind_eq_some_iff] at h
    obtain ⟨r', h5, h⟩ := h
    rw [hf _ _ _ h5]
    simp only
    split at h
    · rename_i hz; rw [if_pos hz]; exact h
    · rename_i hz; rw [if_neg hz]; exact ih _ r h

theorem visit_some {rp : ℕ} (hi : ∀ e x, inRate g rp e = some x → x = Rep.inRate g rp e)
    (ho : ∀ e x, outRate g rp e = some x → x = Rep.outRate g rp e) (fuel : ℕ) :
    ∀ fr a r, visit g rp fuel fr a = some r → Rep.visit g rp fuel fr a = some r := by
  induction fuel with
  | zero => intro fr a r h; simp [visit] at h
  | succ fuel ih =>
    intro fr a r h
    unfold visit at h
    unfold Rep.visit
    split at h
    · rename_i hz; rw [if_pos hz]; exact h
    · rename_i hz; rw [if_neg hz]; exact edgeLoop_some hi ho ih a _ _ fr r h

theorem roots_some {rp : ℕ} (hi : ∀ e x, inRate g rp e = some x → x = Rep.inRate g rp e)
    (ho : ∀ e x, outRate g rp e = some x → x = Rep.outRate g rp e) (fuel : ℕ) :
    ∀ vs fr r, roots g rp fuel vs fr = some r → Rep.roots g rp fuel vs fr = some r := by
  intro vs
  induction vs with
  | nil => intro fr r h; exact h
  | cons v vs ih =>
    intro fr r h
    unfold roots at h
    unfold Rep.roots
    split at h
    swap
    · rename_i hz; rw [if_neg hz]; exact ih fr r h
    rename_i hz
    rw [if_pos hz]
    cases hres : visit g rp fuel (Function.update fr v ⟨1, 1⟩) v with
    | none => rw [hres] at h; simp at h
    | some x =>
      rw [hres] at h
      rw [visit_some hi ho fuel _ _ _ hres]
      obtain ⟨b, fr'⟩ := x
      cases b with
      | false => exact h
      | true => exact ih fr' r h

theorem denLcm_some (fr : Fracs nV) (l : List (Fin nV)) : ∀ (init x : Int),
    l.foldlM (fun l v => lcm l (fr v).d) init = some x → l.foldl (fun l v => (Int.lcm l (fr v).d : Int)) init = x := by
  induction l with
  | nil => intro init x h; simpa using h
  | cons c cs ih =>
    intro init x h
    rw [List.foldlM_cons] at h
    obtain ⟨z, h1, h2⟩ := Option.bind_eq_some_iff.mp h
    obtain rfl := long_some h1
    exact ih _ _ h2

theorem ratePeriod_some (l : List (Fin nE)) : ∀ (init : ℕ) (x : Int),
    l.foldlM (fun (r : Int) c => (lcm r (g.prod c).length).bind fun r' => lcm r' (g.cons c).length) (init : Int) = some x →
    x = (l.foldl (fun r c => Nat.lcm (Nat.lcm r (g.prod c).length) (g.cons c).length) init : ℕ) := by
  induction l with
  | nil => intro init x h; simpa [eq_comm] using h
  | cons c cs ih =>
    intro init x h
    rw [List.foldlM_cons] at h
    obtain ⟨z, h1, h2⟩ := Option.bind_eq_some_iff.mp h
    obtain ⟨z', h3, h4⟩ := Option.bind_eq_some_iff.mp h1
    have e1 : z' = ((Nat.lcm init (g.prod c).length : ℕ) : Int) := by rw [long_some h3]; simp [Int.lcm]
    subst e1
    have e2 : z = ((Nat.lcm (Nat.lcm init (g.prod c).length) (g.cons c).length : ℕ) : Int) := by
      rw [long_some h4]; simp [Int.lcm]
    subst e2
    exact ih _ _ h2

end Kiter.RepM
