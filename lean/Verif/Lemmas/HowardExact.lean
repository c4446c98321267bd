/-
From the tolerance of the solver to exact answers: circuits split into short ones, and on a grid of weights and durations a
ratio that is nearly as good is as good.
-/
import Verif.Lemmas.Howard
import Mathlib.Tactic.Positivity
import Mathlib.Tactic.FieldSimp

set_option autoImplicit false

namespace Kiter
namespace Howard

theorem walk_append {cs : List EvConstraint} (a b : List EvConstraint) : ∀ u v : Event,
    IsWalk cs u (a ++ b) v ↔ ∃ m, IsWalk cs u a m ∧ IsWalk cs m b v := by
  induction a with
  | nil => intro u v; simp [IsWalk]
  | cons e a ih =>
    intro u v
    simp only [List.cons_append, IsWalk, ih]
    constructor
    · rintro ⟨h1, h2, m, h3, h4⟩; exact ⟨m, ⟨h1, h2, h3⟩, h4⟩
    · rintro ⟨m, ⟨h1, h2, h3⟩, h4⟩; exact ⟨h1, h2, m, h3, h4⟩

theorem repeated_src (p : List EvConstraint) : (p.map fun e : EvConstraint => e.src).Nodup ∨
    ∃ a e b f c, p = a ++ (e :: b) ++ (f :: c) ∧ e.src = f.src := by
  induction p with
  | nil => left; simp
  | cons x p ih =>
    rcases ih with h | ⟨a, e, b, f, c, h1, h2⟩
    · by_cases hx : x.src ∈ p.map fun e : EvConstraint => e.src
      · right
        obtain ⟨f, hf, hfx⟩ := List.mem_map.mp hx
        obtain ⟨s, t, rfl⟩ := List.append_of_mem hf
        exact ⟨[], x, s, f, t, by simp, hfx.symm⟩
      · left; rw [List.map_cons, List.nodup_cons]; exact ⟨hx, h⟩
    · right; exact ⟨x :: a, e, b, f, c, by rw [h1]; simp, h2⟩

/-- A quantity that is non-negative on short circuits is non-negative on all. -/
theorem short_enough {G : EGraph} (hG : WF G) (f : EvConstraint → ℚ)
    (h : ∀ p, Circuit G p → p.length ≤ G.vs.length → 0 ≤ (p.map f).sum) (n : ℕ) :
    ∀ p, p.length ≤ n → Circuit G p → 0 ≤ (p.map f).sum := by
  induction n with
  | zero => intro p hp hc; exact h p hc (by omega)
  | succ n ih =>
    intro p hp hc
    obtain ⟨hne, u, hu⟩ := hc
    rcases repeated_src p with hnd | ⟨a, e, b, g, c, rfl, hsrc⟩
    · refine h p ⟨hne, u, hu⟩ ?_
      have hle := nodup_length_le hnd (m := G.vs) (fun x hx => by
        obtain ⟨e, he, rfl⟩ := List.mem_map.mp hx
        exact (hG.ends e (walk_srcs _ _ _ hu e he).1).1)
      simpa using hle
    · obtain ⟨m, h1, h2⟩ := (walk_append _ _ _ _).mp hu
      obtain ⟨k, h3, h4⟩ := (walk_append _ _ _ _).mp h1
      have hk : e.src = k := h4.2.1
      have hm : g.src = m := h2.2.1
      have hkm : k = m := by rw [← hk, ← hm, hsrc]
      subst hkm
      have i1 := ih (e :: b) (by simp at hp ⊢; omega) ⟨by simp, k, h4⟩
      have i2 := ih (a ++ g :: c) (by simp at hp ⊢; omega) ⟨by simp, u, (walk_append _ _ _ _).mpr ⟨k, h3, h2⟩⟩
      simp only [List.map_append, List.sum_append] at i1 i2 ⊢
      linarith

theorem grid_sum {N : ℕ} {f : EvConstraint → ℚ} (p : List EvConstraint) (h : ∀ e ∈ p, ∃ z : ℤ, f e * N = z) :
    ∃ z : ℤ, (p.map f).sum * N = z := by
  induction p with
  | nil => exact ⟨0, by simp⟩
  | cons e p ih =>
    obtain ⟨a, ha⟩ := h e (by simp)
    obtain ⟨b, hb⟩ := ih (fun x hx => h x (by simp [hx]))
    exact ⟨a + b, by rw [List.map_cons, List.sum_cons, add_mul, ha, hb]; push_cast; ring⟩

theorem totalD_le {D : ℚ} (p : List EvConstraint) (h : ∀ e ∈ p, e.d ≤ D) : totalD p ≤ p.length * D := by
  induction p with
  | nil => simp [totalD]
  | cons e p ih =>
    have h1 := ih (fun x hx => h x (by simp [hx]))
    have h2 := h e (by simp)
    simp only [totalD, List.map_cons, List.sum_cons, List.length_cons] at h1 ⊢
    push_cast; linarith

theorem totalD_nonneg (p : List EvConstraint) (h : ∀ e ∈ p, 0 ≤ e.d) : 0 ≤ totalD p := by
  unfold totalD
  apply List.sum_nonneg
  intro x hx
  obtain ⟨e, he, rfl⟩ := List.mem_map.mp hx
  exact h e he

theorem circuit_mem {G : EGraph} {p : List EvConstraint} (h : Circuit G p) : ∀ e ∈ p, e ∈ G.cs := by
  obtain ⟨_, u, hu⟩ := h
  exact fun e he => (walk_srcs _ _ _ hu e he).1

/-- On a grid, the certificate with tolerance is exact when the value is the ratio of a circuit. -/
theorem certified_exact_grid (c : Cfg) {G : EGraph} (hG : WF G) {N M : ℕ} {D : ℚ} (hg : OnGrid G N M D)
    (hf : Fine c.eps G N M D) {cc : List EvConstraint} (hcc : Circuit G cc) (hD : totalD cc ≠ 0)
    (hlen : cc.length ≤ G.vs.length + 1) (hcert : Certified c G (totalW cc / totalD cc)) :
    ∀ p, Circuit G p → 0 ≤ c.mult * (totalW p - totalW cc / totalD cc * totalD p) := by
  have hmem := circuit_mem hcc
  have hDpos : 0 < totalD cc := lt_of_le_of_ne (totalD_nonneg cc fun e he => hg.nonneg e (hmem e he)) (Ne.symm hD)
  have hDle : totalD cc ≤ (G.vs.length + 1) * D := by
    have h1 := totalD_le cc (D := D) fun e he => hg.le e (hmem e he)
    have hD0 : 0 ≤ D := by
      obtain ⟨hne, -⟩ := hcc
      obtain ⟨e, he⟩ := List.exists_mem_of_ne_nil _ hne
      exact le_trans (hg.nonneg e (hmem e he)) (hg.le e (hmem e he))
    have h2 : (cc.length : ℚ) ≤ G.vs.length + 1 := by exact_mod_cast hlen
    nlinarith
  set v := totalW cc / totalD cc with hv
  have hsum : ∀ p : List EvConstraint, c.mult * (totalW p - v * totalD p) =
      (p.map fun e => c.mult * (e.w - v * e.d)).sum := by
    intro p
    induction p with
    | nil => simp [totalW, totalD]
    | cons e p ih => simp only [totalW, totalD, List.map_cons, List.sum_cons] at ih ⊢; rw [← ih]; ring
  intro p hp
  rw [hsum]
  refine short_enough hG _ ?_ p.length p le_rfl hp
  intro q hq hql
  rw [← hsum]
  have hqm := circuit_mem hq
  obtain ⟨_, u, hu⟩ := hq
  have hc := hcert u q hu
  by_contra hneg
  push Not at hneg
  obtain ⟨a, ha⟩ := grid_sum (N := N) (f := fun e => e.w) q fun e he => hg.weight e (hqm e he)
  obtain ⟨b, hb⟩ := grid_sum (N := M) (f := fun e => e.d) q fun e he => hg.duration e (hqm e he)
  obtain ⟨a', ha'⟩ := grid_sum (N := N) (f := fun e => e.w) cc fun e he => hg.weight e (hmem e he)
  obtain ⟨b', hb'⟩ := grid_sum (N := M) (f := fun e => e.d) cc fun e he => hg.duration e (hmem e he)
  change totalW q * N = a at ha
  change totalD q * M = b at hb
  change totalW cc * N = a' at ha'
  change totalD cc * M = b' at hb'
  have hN : (0 : ℚ) < N := by exact_mod_cast hg.posN
  have hM : (0 : ℚ) < M := by exact_mod_cast hg.posM
  have hvD : v * totalD cc = totalW cc := by rw [hv]; field_simp
  set X := c.mult * (totalW q - v * totalD q) with hX
  have hm : ∃ m : ℤ, c.mult = m := by
    unfold Cfg.mult; split
    · exact ⟨1, by simp⟩
    · exact ⟨-1, by simp⟩
  obtain ⟨m, hm⟩ := hm
  have hXi : X * totalD cc * N * M = ((m * (a * b' - a' * b) : ℤ) : ℚ) := by
    push_cast
    rw [← ha, ← hb, ← ha', ← hb', ← hm, hX]
    have : (totalW q - v * totalD q) * totalD cc = totalW q * totalD cc - totalW cc * totalD q := by
      rw [← hvD]; ring
    calc c.mult * (totalW q - v * totalD q) * totalD cc * N * M
        = c.mult * ((totalW q - v * totalD q) * totalD cc) * N * M := by ring
      _ = _ := by rw [this]; ring
  have hXneg : X * totalD cc * N * M < 0 := by
    have : 0 < totalD cc * N * M := by positivity
    nlinarith
  have hle : X * totalD cc * N * M ≤ -1 := by
    rw [hXi] at hXneg ⊢
    have : m * (a * b' - a' * b) < 0 := by exact_mod_cast hXneg
    have : m * (a * b' - a' * b) ≤ -1 := by omega
    exact_mod_cast this
  obtain ⟨he0, hef⟩ := hf
  unfold improveRatio at hc
  have hql' : (q.length : ℚ) ≤ G.vs.length := by exact_mod_cast hql
  have h1 : -X ≤ 100 * c.eps * G.vs.length := by nlinarith
  have h2 : -X * totalD cc * N * M ≤ 100 * c.eps * G.vs.length * ((G.vs.length + 1) * D) * N * M := by
    have h0 : 0 ≤ -X := by linarith
    have hl0 : (0 : ℚ) ≤ 100 * c.eps * G.vs.length := by positivity
    have : -X * totalD cc ≤ 100 * c.eps * G.vs.length * ((G.vs.length + 1) * D) :=
      mul_le_mul h1 hDle hDpos.le hl0
    exact mul_le_mul_of_nonneg_right (mul_le_mul_of_nonneg_right this hN.le) hM.le
  linarith

/-- What a call of the solver returns. -/
theorem ocr_spec (c : Cfg) {G : EGraph} (hG : WF G) (hz : NoNullCircuit G) (b : ℚ) :
    ∃ r v, ocr c G b = some r ∧ Explains G b v r.circuit ∧ c.mult * v ≤ c.mult * b ∧
      (r.limited = false → Certified c G v) ∧
      r.value = if c.cmp v (mcrBound c G - c.eps * c.mult) then none else some v := by
  obtain ⟨hi, hb, hcc⟩ := construct_inv c hG b
  obtain ⟨r, h1, h2, h3, h4⟩ := loop_spec c hG hz b (maxIteration - 1) (construct c G b) hi
    (by rw [hb, hcc]; exact Or.inl ⟨rfl, rfl⟩) (by rw [hb])
  refine ⟨⟨if c.cmp r.2.1 (mcrBound c G - c.eps * c.mult) then none else some r.2.1, r.1.cc, r.2.2⟩, r.2.1, ?_, h2, h3, h4, rfl⟩
  unfold ocr
  rw [show maxIteration = (maxIteration - 1) + 1 from rfl, h1]
  rfl

end Howard
end Kiter
