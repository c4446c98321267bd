/-
Schedules of a graph put together from schedules of its strongly connected components.
-/
import Verif.Lemmas.SelfTimedHalt
import Verif.Model.AsapThroughput

set_option autoImplicit false

namespace Kiter.Sim
open Finset

variable {nV nE : Nat} {g : Graph nV nE}

/-! ### Subgraphs -/

theorem sub_src (g : Graph nV nE) (K : List (Fin nV)) (e : Fin (g.inner K).length) :
    K[(g.sub K).src e] = g.src (g.inner K)[e] := by
  simp only [Graph.sub, Fin.getElem_fin]; exact List.getElem_idxOf _

theorem sub_tgt (g : Graph nV nE) (K : List (Fin nV)) (e : Fin (g.inner K).length) :
    K[(g.sub K).tgt e] = g.tgt (g.inner K)[e] := by
  simp only [Graph.sub, Fin.getElem_fin]; exact List.getElem_idxOf _

theorem mem_inner {K : List (Fin nV)} {e : Fin nE} : e ∈ g.inner K ↔ g.src e ∈ K ∧ g.tgt e ∈ K := by
  unfold Graph.inner; simp

theorem OK.sub (h : OK g) (K : List (Fin nV)) : OK (g.sub K) where
  prodLen e := by
    show (g.prod (g.inner K)[e]).length = g.phases K[(g.sub K).src e]
    rw [sub_src]; exact h.prodLen _
  consLen e := by
    show (g.cons (g.inner K)[e]).length = g.phases K[(g.sub K).tgt e]
    rw [sub_tgt]; exact h.consLen _
  phases i := h.phases _
  durLen i := h.durLen _
  durNonneg i := h.durNonneg _
  durMax i := h.durMax _
  prodNonneg e := h.prodNonneg _
  consNonneg e := h.consNonneg _
  preload e := h.preload _
  selfEdge e he := h.selfEdge _ (by rw [← sub_src, ← sub_tgt]; exact congrArg (fun i : Fin K.length => K[i]) he)

theorem OK.withNi (h : OK g) (N : Fin nV → Int) : OK (g.withNi N) :=
  ⟨h.1, h.2, h.3, h.4, h.5, h.6, h.7, h.8, h.9, h.10⟩

theorem valid_withNi {N : Fin nV → Int} {cap : Option (Fin nE → Int)} {σ : Fin nV → ℕ → ℚ} :
    Valid (g.withNi N) cap σ ↔ Valid g cap σ :=
  ⟨fun h => ⟨h.1, h.2, h.3, h.4⟩, fun h => ⟨h.1, h.2, h.3, h.4⟩⟩

theorem Valid.sub {σ : Fin nV → ℕ → ℚ} (h : Valid g none σ) (K : List (Fin nV)) :
    Valid (g.sub K) none fun i => σ K[i] where
  nonneg i := h.nonneg _
  noOverlap i := h.noOverlap _
  tokens e := by
    have := h.tokens (g.inner K)[e]
    rw [← sub_src, ← sub_tgt] at this
    exact this
  room w hw := by simp at hw

/-! ### Slower schedules -/

theorem Valid.stretch (h : OK g) {σ : Fin nV → ℕ → ℚ} (hv : Valid g none σ) {l : ℚ} (hl : 1 ≤ l) :
    Valid g none fun a k => l * σ a k := by
  have hl0 : 0 < l := by linarith
  have hd := execDur_nonneg h
  refine ⟨fun a k => mul_nonneg hl0.le (hv.nonneg a k), fun a k => ?_, fun e x C hC => ?_, fun w hw => by simp at hw⟩
  · have h1 := mul_le_mul_of_nonneg_left (hv.noOverlap a k) hl0.le
    nlinarith [hd a k]
  · obtain ⟨P, hP1, hP2⟩ := hv.tokens e (x / l) C fun i hi => by
      rw [le_div_iff₀ hl0, mul_comm]; exact hC i hi
    refine ⟨P, fun k hk => ?_, hP2⟩
    have h1 := hP1 k hk
    rw [le_div_iff₀ hl0] at h1
    nlinarith [hd (g.src e) k]

/-- The vertices of `K` can run on their own, one iteration of the whole graph every `Ω` time units, within a constant. -/
def Paced (g : Graph nV nE) (K : List (Fin nV)) (Ω : ℚ) : Prop :=
  ∃ σ, Valid (g.sub K) none σ ∧ ∀ i, ∃ C, ∀ k : ℕ, |σ i k - Ω * k / g.ni K[i]| ≤ C

theorem Paced.slower (h : OK g) {K : List (Fin nV)} {Ω Ω' : ℚ} (hΩ : 0 < Ω) (hle : Ω ≤ Ω') (hp : Paced g K Ω) :
    Paced g K Ω' := by
  obtain ⟨σ, hv, hc⟩ := hp
  have hl : 1 ≤ Ω' / Ω := by rw [le_div_iff₀ hΩ]; linarith
  refine ⟨_, hv.stretch (h.sub K) hl, fun i => ?_⟩
  obtain ⟨C, hC⟩ := hc i
  refine ⟨Ω' / Ω * C, fun k => ?_⟩
  have e : Ω' / Ω * σ i k - Ω' * k / g.ni K[i] = Ω' / Ω * (σ i k - Ω * k / g.ni K[i]) := by field_simp
  rw [e, abs_mul, abs_of_pos (by linarith)]
  exact mul_le_mul_of_nonneg_left (hC k) (by linarith)

/-! ### Delays between components -/

/-- Executions of the producer that provide what the first `m` executions of the consumer take. -/
theorem enough_produced {f v : List Int} (hf : ∀ r ∈ f, 0 ≤ r) (hv : ∀ r ∈ v, 0 ≤ r) (hfl : 0 < f.length) (hvl : 0 < v.length)
    (hfs : 0 < f.sum) {ni nj : ℤ} (hni : 0 < ni) (hnj : 0 < nj)
    (hbal : f.sum * ni * v.length = v.sum * nj * f.length) :
    ∃ D : ℚ, ∀ m : ℕ, ∃ n : ℕ, (n : ℚ) / ni ≤ m / nj + D ∧ cum v m ≤ cum f n := by
  have hi : (0 : ℚ) < ni := by exact_mod_cast hni
  have hj : (0 : ℚ) < nj := by exact_mod_cast hnj
  have hb1 := fun n => (cum_bounds hf hfl n).1
  have hb2 := fun n => (cum_bounds hv hvl n).2
  have hvs : 0 ≤ v.sum := List.sum_nonneg hv
  generalize hSv : v.sum = Sv at *
  generalize hSf : f.sum = Sf at *
  have hSfq : (0 : ℚ) < Sf := by exact_mod_cast hfs
  have hSvq : (0 : ℚ) ≤ Sv := by exact_mod_cast hvs
  have hfq : (0 : ℚ) < f.length := by exact_mod_cast hfl
  have hvq : (0 : ℚ) < v.length := by exact_mod_cast hvl
  have hbq : (Sf : ℚ) * ni * v.length = Sv * nj * f.length := by exact_mod_cast hbal
  have hE : 0 ≤ (Sv + Sf) * f.length / (Sf * ni : ℚ) := by positivity
  refine ⟨(Sv + Sf) * f.length / (Sf * ni) + 1 / ni, fun m => ⟨⌈((m : ℚ) / nj + (Sv + Sf) * f.length / (Sf * ni)) * ni⌉₊, ?_, ?_⟩⟩
  · have h0 : 0 ≤ ((m : ℚ) / nj + (Sv + Sf) * f.length / (Sf * ni)) * ni := by positivity
    have := (Nat.ceil_lt_add_one h0).le
    rw [div_le_iff₀ hi]
    have e : ((m : ℚ) / nj + ((Sv + Sf) * f.length / (Sf * ni) + 1 / ni)) * ni =
        ((m : ℚ) / nj + (Sv + Sf) * f.length / (Sf * ni)) * ni + 1 := by field_simp; ring
    rw [e]; exact this
  · set n := ⌈((m : ℚ) / nj + (Sv + Sf) * f.length / (Sf * ni)) * ni⌉₊
    have hn : ((m : ℚ) / nj + (Sv + Sf) * f.length / (Sf * ni)) * ni ≤ n := Nat.le_ceil _
    have e1 := hb1 n
    have e2 := hb2 m
    have e3 : ((m : ℚ) / v.length + 1) * Sv ≤ ((n : ℚ) / f.length - 1) * Sf := by
      have h1 : ((m : ℚ) / nj * ni / f.length + (Sv + Sf) / Sf) ≤ n / f.length := by
        rw [le_div_iff₀ hfq]
        refine le_trans (le_of_eq ?_) hn
        field_simp
      have h2 := mul_le_mul_of_nonneg_right h1 hSfq.le
      have h3 : (m : ℚ) / nj * ni / f.length * Sf = m / v.length * Sv := by
        rw [div_mul_eq_mul_div, div_mul_eq_mul_div, div_mul_eq_mul_div, div_mul_eq_mul_div, div_div,
          div_eq_div_iff (by positivity) hvq.ne']
        linear_combination (m : ℚ) * hbq
      rw [add_mul, h3, div_mul_cancel₀ _ hSfq.ne'] at h2
      linarith
    have e4 : (cum v m : ℚ) ≤ cum f n := by linarith
    exact_mod_cast e4

theorem sum_le_cum {v : List Int} (hv : ∀ r ∈ v, 0 ≤ r) {C : Finset ℕ} {m : ℕ} (hC : ∀ l ∈ C, l < m) :
    ∑ l ∈ C, rate v l ≤ cum v m := by
  unfold cum
  refine sum_le_sum_of_subset_of_nonneg (fun l hl => mem_range.2 (hC l hl)) fun l _ _ => ?_
  unfold rate
  rw [List.getD_eq_getElem?_getD]
  cases hx : v[l % v.length]? with
  | none => simp
  | some r => exact hv r (List.mem_of_getElem? hx)

/-- Two tasks that keep their pace: if the consumer is delayed enough, it is never short of tokens. -/
theorem delay_suffices (h : OK g) {Ω : ℚ} (hΩ : 0 ≤ Ω) (e : Fin nE) (hns : 0 < g.ni (g.src e)) (hnt : 0 < g.ni (g.tgt e))
    (hbal : (g.prod e).sum * g.ni (g.src e) * g.phases (g.tgt e) = (g.cons e).sum * g.ni (g.tgt e) * g.phases (g.src e))
    (hp : 0 < (g.prod e).sum) {s t : ℕ → ℚ} {A B : ℚ} (hs : ∀ k : ℕ, s k ≤ Ω * k / g.ni (g.src e) + A)
    (ht : ∀ k : ℕ, Ω * k / g.ni (g.tgt e) - B ≤ t k) :
    ∃ L : ℚ, ∀ x y : ℚ, L ≤ y - x → NeverShort (rate (g.prod e)) (rate (g.cons e)) (g.preload e)
      (fun k => s k + x + g.execDur (g.src e) k) (fun k => t k + y) := by
  obtain ⟨D, hD⟩ := enough_produced (h.prodNonneg e) (h.consNonneg e) (by rw [h.prodLen]; exact h.phases _)
    (by rw [h.consLen]; exact h.phases _) hp hns hnt (by rw [h.prodLen, h.consLen]; exact hbal)
  have hi : (0 : ℚ) < g.ni (g.src e) := by exact_mod_cast hns
  have hj : (0 : ℚ) < g.ni (g.tgt e) := by exact_mod_cast hnt
  refine ⟨Ω * (D + 1 / g.ni (g.tgt e)) + A + B + longMax, fun x y hxy z C hC => ?_⟩
  rcases C.eq_empty_or_nonempty with rfl | hne
  · exact ⟨∅, by simp, by simpa using h.preload e⟩
  set m := C.max' hne with hm
  have hmC : m ∈ C := C.max'_mem hne
  have hlt : ∀ l ∈ C, l < m + 1 := fun l hl => Nat.lt_succ_of_le (C.le_max' l hl)
  obtain ⟨n, hn1, hn2⟩ := hD (m + 1)
  refine ⟨range n, fun k hk => ?_, ?_⟩
  · have hkn : (k : ℚ) ≤ n := by exact_mod_cast (mem_range.1 hk).le
    have h1 := hs k
    have h2 := ht m
    have h3 := hC m hmC
    have h4 : Ω * k / g.ni (g.src e) ≤ Ω * (n / g.ni (g.src e)) := by
      rw [mul_div_assoc]
      exact mul_le_mul_of_nonneg_left (div_le_div_of_nonneg_right hkn hi.le) hΩ
    have h5 := mul_le_mul_of_nonneg_left hn1 hΩ
    have h6 := (h.durMax _ _ (execDur_mem h (g.src e) k)).le
    have h7 : Ω * ((((m + 1 : ℕ) : ℚ)) / g.ni (g.tgt e) + D) = Ω * m / g.ni (g.tgt e) + Ω * (D + 1 / g.ni (g.tgt e)) := by
      push_cast; ring
    simp only at h3 ⊢
    linarith
  · have h1 := sum_le_cum (h.consNonneg e) hlt
    have h2 := h.preload e
    have h3 : ∑ k ∈ range n, rate (g.prod e) k = cum (g.prod e) n := rfl
    rw [h3]; linarith

theorem neverShort_shift {f v : ℕ → Int} {p : Int} {e t : ℕ → ℚ} (hn : NeverShort f v p e t) (x : ℚ) :
    NeverShort f v p (fun k => e k + x) (fun k => t k + x) := by
  intro z C hC
  obtain ⟨P, h1, h2⟩ := hn (z - x) C fun l hl => by linarith [hC l hl]
  exact ⟨P, fun k hk => by linarith [h1 k hk], h2⟩

/-- Schedules of the classes of a partition, all at the same pace, give a schedule of the whole graph at this pace when the
channels between different classes go up in some ranking of the classes. -/
theorem compose (h : OK g) (hni : ∀ a, 0 < g.ni a)
    (hbal : ∀ e, (g.prod e).sum * g.ni (g.src e) * g.phases (g.tgt e) = (g.cons e).sum * g.ni (g.tgt e) * g.phases (g.src e))
    (hp : ∀ e, 0 < (g.prod e).sum) (cls : Fin nV → List (Fin nV)) (hnd : ∀ a, (cls a).Nodup) (hself : ∀ a, a ∈ cls a)
    (hcls : ∀ a b, b ∈ cls a → cls b = cls a) (rank : Fin nV → ℕ) (hrank : ∀ a b, b ∈ cls a → rank b = rank a)
    (hup : ∀ e, g.tgt e ∈ cls (g.src e) ∨ rank (g.src e) < rank (g.tgt e)) {Ω : ℚ} (hΩ : 0 ≤ Ω)
    (hpace : ∀ a, Paced g (cls a) Ω) : ∃ σ, Valid g none σ ∧ ∀ a, ∃ C, ∀ k : ℕ, |σ a k - Ω * k / g.ni a| ≤ C := by
  classical
  choose σ hv hc using hpace
  -- one schedule per class
  have hone : ∀ K, (∃ a, cls a = K) → ∃ f : Fin nV → ℕ → ℚ, (Valid (g.sub K) none fun i => f K[i]) ∧
      ∀ b ∈ K, ∃ C, ∀ k : ℕ, |f b k - Ω * k / g.ni b| ≤ C := by
    rintro K ⟨a, rfl⟩
    refine ⟨fun b k => if hb : b ∈ cls a then σ a ⟨(cls a).idxOf b, List.idxOf_lt_length_iff.2 hb⟩ k else 0, ?_, ?_⟩
    · convert hv a using 1
      funext i k
      show dite _ _ _ = _
      have hmem : (cls a)[i] ∈ cls a := List.getElem_mem _
      rw [dif_pos hmem]
      congr 1
      ext
      exact (hnd a).idxOf_getElem i.1 i.2
    · intro b hb
      obtain ⟨C, hC⟩ := hc a ⟨(cls a).idxOf b, List.idxOf_lt_length_iff.2 hb⟩
      refine ⟨C, fun k => ?_⟩
      simp only [dif_pos hb]
      have := hC k
      simp only [Fin.getElem_fin, List.getElem_idxOf] at this
      exact this
  choose! F hFv hFc using hone
  have hval := fun a => hFv (cls a) ⟨a, rfl⟩
  have hcon := fun a => hFc (cls a) ⟨a, rfl⟩ a (hself a)
  choose C hC using hcon
  let τ : Fin nV → ℕ → ℚ := fun a => F (cls a) a
  have hidx : ∀ a b, b ∈ cls a → ∃ i : Fin (cls a).length, (cls a)[i] = b := fun a b hb =>
    ⟨⟨(cls a).idxOf b, List.idxOf_lt_length_iff.2 hb⟩, List.getElem_idxOf _⟩
  have hnn : ∀ a k, 0 ≤ τ a k := by
    intro a k
    obtain ⟨i, hi⟩ := hidx a a (hself a)
    have := (hval a).nonneg i k
    rw [hi] at this; exact this
  have hno : ∀ a k, τ a k + g.execDur a k ≤ τ a (k + 1) := by
    intro a k
    obtain ⟨i, hi⟩ := hidx a a (hself a)
    have := (hval a).noOverlap i k
    have e : (g.sub (cls a)).execDur i k = g.execDur (cls a)[i] k := rfl
    rw [e, hi] at this; exact this
  have hin : ∀ e, g.tgt e ∈ cls (g.src e) → NeverShort (rate (g.prod e)) (rate (g.cons e)) (g.preload e)
      (fun k => τ (g.src e) k + g.execDur (g.src e) k) (τ (g.tgt e)) := by
    intro e he
    obtain ⟨j, hj, hje⟩ := List.mem_iff_getElem.1 (mem_inner.2 ⟨hself (g.src e), he⟩ : e ∈ g.inner (cls (g.src e)))
    have := (hval (g.src e)).tokens ⟨j, hj⟩
    have e1 := sub_src g (cls (g.src e)) ⟨j, hj⟩
    have e2 := sub_tgt g (cls (g.src e)) ⟨j, hj⟩
    have e3 : (g.inner (cls (g.src e)))[(⟨j, hj⟩ : Fin _)] = e := hje
    rw [e3] at e1 e2
    have e4 : ∀ k, (g.sub (cls (g.src e))).execDur ((g.sub (cls (g.src e))).src ⟨j, hj⟩) k = g.execDur (g.src e) k := by
      intro k
      show g.execDur (cls (g.src e))[(g.sub (cls (g.src e))).src ⟨j, hj⟩] k = _
      rw [e1]
    simp only [e4, e1, e2] at this
    simp only [Graph.sub, e3] at this
    show NeverShort _ _ _ _ (F (cls (g.tgt e)) (g.tgt e))
    rw [hcls _ _ he]
    exact this
  have hdel : ∀ e, ∃ L : ℚ, ∀ x y : ℚ, L ≤ y - x → NeverShort (rate (g.prod e)) (rate (g.cons e)) (g.preload e)
      (fun k => τ (g.src e) k + x + g.execDur (g.src e) k) (fun k => τ (g.tgt e) k + y) := fun e =>
    delay_suffices h hΩ e (hni _) (hni _) (hbal e) (hp e) (A := C (g.src e)) (B := C (g.tgt e))
      (fun k => by linarith [(abs_le.1 (hC (g.src e) k)).2]) fun k => by linarith [(abs_le.1 (hC (g.tgt e) k)).1]
  choose L hL using hdel
  obtain ⟨M, hM0, hM⟩ : ∃ M : ℚ, 0 ≤ M ∧ ∀ e, L e ≤ M :=
    ⟨∑ e, |L e|, sum_nonneg fun _ _ => abs_nonneg _, fun e => (le_abs_self _).trans
      (single_le_sum (f := fun e => |L e|) (fun _ _ => abs_nonneg _) (mem_univ e))⟩
  refine ⟨fun a k => τ a k + M * rank a, ⟨fun a k => ?_, fun a k => ?_, fun e => ?_, fun w hw => by simp at hw⟩, fun a => ?_⟩
  · have := hnn a k; positivity
  · have := hno a k; linarith
  · rcases hup e with he | he
    · have := neverShort_shift (hin e he) (M * rank (g.src e))
      have e1 : (fun k => τ (g.src e) k + g.execDur (g.src e) k + M * rank (g.src e)) =
          fun k => τ (g.src e) k + M * rank (g.src e) + g.execDur (g.src e) k := by funext k; ring
      rw [e1] at this
      rw [hrank _ _ he]
      exact this
    · refine hL e _ _ ((hM e).trans ?_)
      have : (rank (g.src e) : ℚ) + 1 ≤ rank (g.tgt e) := by exact_mod_cast he
      nlinarith
  · refine ⟨C a + M * rank a, fun k => ?_⟩
    have h0 : 0 ≤ M * rank a := by positivity
    have := abs_le.1 (hC a k)
    exact abs_le.2 ⟨by linarith [this.1], by linarith [this.2]⟩

end Kiter.Sim
