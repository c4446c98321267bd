import Verif.Model.DeGroote
import Verif.Spec.Periodic
import Verif.Lemmas.KIterOpt

set_option autoImplicit false

namespace Kiter
open Finset

/-- The producer execution (from 1) needed by consumer execution `j` (from 1). -/
def need (mc nc dc j : Int) : Int := ⌈((j * nc - dc : Int) : ℚ) / (mc : ℚ)⌉

theorem need_le {mc nc dc j p : Int} (h : 0 < mc) : need mc nc dc j ≤ p ↔ j * nc ≤ dc + p * mc := by
  unfold need
  have hq : (0 : ℚ) < mc := by exact_mod_cast h
  rw [Int.ceil_le, div_le_iff₀ hq]
  constructor
  · intro h
    have h' : j * nc - dc ≤ p * mc := by exact_mod_cast h
    linarith
  · intro h
    have h' : j * nc - dc ≤ p * mc := by linarith
    exact_mod_cast h'

theorem need_shift {mc nc dc : Int} (h : 0 < mc) {Ni Nj : Int} (hb : Ni * mc = Nj * nc) (j b : Int) :
    need mc nc dc (j + b * Nj) = need mc nc dc j + b * Ni := by
  refine le_antisymm ?_ ?_
  · rw [need_le h]
    have := (need_le (dc := dc) (nc := nc) (j := j) h).mp le_rfl
    have e : b * Ni * mc = b * Nj * nc := by rw [mul_assoc, hb, mul_assoc]
    linarith [add_mul j (b * Nj) nc, add_mul (need mc nc dc j) (b * Ni) mc]
  · have : need mc nc dc j ≤ need mc nc dc (j + b * Nj) - b * Ni := by
      rw [need_le h]
      have := (need_le (dc := dc) (nc := nc) (j := j + b * Nj) h).mp le_rfl
      have e : b * Ni * mc = b * Nj * nc := by rw [mul_assoc, hb, mul_assoc]
      linarith [add_mul j (b * Nj) nc, sub_mul (need mc nc dc (j + b * Nj)) (b * Ni) mc]
    linarith

/-- Every consumer execution starts after the completion of the producer execution it needs. -/
def Prec (mc nc dc : Int) (e t : ℕ → ℚ) : Prop := ∀ k l : ℕ, (k : Int) + 1 = need mc nc dc (l + 1) → e k ≤ t l

theorem prec_iff {mc nc dc : Int} (hm : 0 < mc) (hn : 0 ≤ nc) (hd : 0 ≤ dc) {e t : ℕ → ℚ} (he : Monotone e)
    (ht : Monotone t) : NeverShort (fun _ => mc) (fun _ => nc) dc e t ↔ Prec mc nc dc e t := by
  constructor
  · intro H k l hkl
    obtain ⟨P, hP, hs⟩ := H (t l) (range (l + 1)) (fun i hi => ht (by simp at hi; omega))
    by_contra hc
    rw [not_le] at hc
    have hsub : P ⊆ range k := by
      intro i hi
      by_contra hn
      have : k ≤ i := by simpa using hn
      have := he this
      have := hP i hi
      linarith
    have hcard := card_le_card hsub
    simp only [sum_const, card_range, nsmul_eq_mul] at hs hcard
    have : need mc nc dc (l + 1) ≤ k := by
      rw [need_le hm]
      have : (P.card : Int) * mc ≤ k * mc := mul_le_mul_of_nonneg_right (by exact_mod_cast hcard) hm.le
      push_cast at hs
      linarith
    omega
  · intro H x C hC
    rcases C.eq_empty_or_nonempty with rfl | hne
    · exact ⟨∅, by simp, by simpa using hd⟩
    · set L := C.max' hne with hLd
      have hL : L ∈ C := C.max'_mem hne
      have hsum : ∑ l ∈ C, nc ≤ ((L : Int) + 1) * nc := by
        have hsub : C ⊆ range (L + 1) := fun i hi => by
          have := C.le_max' i hi
          simp; omega
        have := card_le_card hsub
        rw [card_range] at this
        simp only [sum_const, nsmul_eq_mul]
        exact mul_le_mul_of_nonneg_right (by exact_mod_cast this) hn
      have hneed := (need_le (dc := dc) (nc := nc) (j := (L : Int) + 1) hm).mp le_rfl
      by_cases hpos : need mc nc dc ((L : Int) + 1) ≤ 0
      · refine ⟨∅, by simp, ?_⟩
        have := (need_le (dc := dc) (nc := nc) (j := (L : Int) + 1) hm).mp hpos
        simp only [sum_empty]
        linarith
      · obtain ⟨k, hk⟩ : ∃ k : ℕ, (k : Int) + 1 = need mc nc dc ((L : Int) + 1) :=
          ⟨(need mc nc dc ((L : Int) + 1) - 1).toNat, by omega⟩
        refine ⟨range (k + 1), fun i hi => ?_, ?_⟩
        · have h1 : i ≤ k := by simp at hi; omega
          have := he h1
          have := H k L hk
          have := hC L hL
          linarith
        · simp only [sum_const, card_range, nsmul_eq_mul] at hsum ⊢
          push_cast
          rw [hk]
          linarith

/-! ### The generated constraints -/

theorem cModulo_eq {a b : Int} (hb : 0 < b) : cModulo a b = some (a % b) := by
  unfold cModulo
  rw [if_neg hb.ne']
  have h1 := Int.tmod_add_mul_tdiv a b
  have h2 := Int.emod_add_mul_ediv a b
  split
  · rename_i h
    congr 1
    have hlt : a.tmod b < b := Int.tmod_lt_of_pos _ hb
    have : a.tmod b % b = a % b := by
      conv_rhs => rw [← h1]
      simp
    rw [← this, Int.emod_eq_of_lt h hlt]
  · rename_i h
    congr 1
    have hlt : -b < a.tmod b := by
      have := Int.natAbs_tmod a b
      have h3 : a.natAbs % b.natAbs < b.natAbs := Nat.mod_lt _ (by omega)
      omega
    have : (a.tmod b + b) % b = a % b := by
      conv_rhs => rw [← h1]
      simp
    rw [← this, Int.emod_eq_of_lt (by omega) (by omega)]

theorem lcgStep_eq {src dst : KTask} {edge mc nc dc : Int} {tj : ℚ} {j : Int} (hm : 0 < mc) (hN : 0 < src.ni) :
    lcgStep src dst edge mc nc dc tj j =
      some ⟨⟨src.id, 1, (need mc nc dc j - 1) % src.ni + 1⟩, ⟨dst.id, 1, j⟩, tj,
        -(((need mc nc dc j - 1) / src.ni : Int) : ℚ), edge⟩ := by
  unfold lcgStep lcgIndex
  rw [if_neg hm.ne']
  simp only [Option.bind_eq_bind, Option.bind_some]
  rw [cModulo_eq hN]
  simp only [Option.bind_some, Option.pure_def]
  congr 2
  have : ⌊((need mc nc dc j - 1 : Int) : ℚ) / (src.ni : ℚ)⌋ = (need mc nc dc j - 1) / src.ni := by
    have h := Rat.floor_intCast_div_natCast (need mc nc dc j - 1) src.ni.toNat
    have e0 : ((src.ni.toNat : ℕ) : Int) = src.ni := by omega
    have e : ((src.ni.toNat : ℕ) : ℚ) = (src.ni : ℚ) := by
      rw [← Int.cast_natCast, e0]
    rwa [e, e0] at h
  rw [← this]
  rfl

theorem lcg_mapM {α β : Type} (f : α → Option β) (g : α → β) (l : List α) (h : ∀ a ∈ l, f a = some (g a)) :
    l.mapM f = some (l.map g) := by
  induction l with
  | nil => rfl
  | cons a l ih =>
    rw [List.mapM_cons, h a (by simp), ih (fun b hb => h b (by simp [hb]))]
    rfl

/-- The constraint the generator adds for execution `j` (from 0) of the target. -/
def lcgC (src dst : KTask) (edge mc nc dc : Int) (tj : ℚ) (j : ℕ) : EvConstraint :=
  ⟨⟨src.id, 1, (need mc nc dc (j + 1) - 1) % src.ni + 1⟩, ⟨dst.id, 1, (j : Int) + 1⟩, tj,
    -(((need mc nc dc (j + 1) - 1) / src.ni : Int) : ℚ), edge⟩

theorem lcgChannel_eq {src dst : KTask} {edge mc nc dc : Int} {tj : ℚ} (hm : 0 < mc) (hN : 0 < src.ni)
    (hd : dst.durations = [tj]) :
    lcgChannel src dst edge mc nc dc = some ((List.range dst.ni.toNat).map (lcgC src dst edge mc nc dc tj)) := by
  unfold lcgChannel
  rw [hd]
  exact lcg_mapM _ _ _ fun j _ => lcgStep_eq hm hN

/-- Completion of the `k`-th execution. -/
def lcgEnd (E : Event → ℚ) (Ω : ℚ) (i : Int) (N k : ℕ) : ℚ := E ⟨i, 1, (k % N : ℕ) + 1⟩ + ((k / N : ℕ) : ℚ) * Ω

theorem emod_toNat {a N : Int} (hN : 0 < N) (k b : ℕ) (h : (k : Int) = a + b * N) :
    ((k % N.toNat : ℕ) : Int) = a % N ∧ ((k / N.toNat : ℕ) : Int) = a / N + b ∧
      ((k / N.toNat : ℕ) : ℚ) = ((a / N : Int) : ℚ) + b := by
  have e : ((N.toNat : ℕ) : Int) = N := by omega
  have h2 : ((k / N.toNat : ℕ) : Int) = a / N + b := by
    rw [Int.natCast_div, e, h, Int.add_mul_ediv_right _ _ hN.ne']
  refine ⟨by rw [Int.natCast_mod, e, h, Int.add_mul_emod_self_right], h2, ?_⟩
  rw [← Int.cast_natCast (R := ℚ), h2, Int.cast_add, Int.cast_natCast]

/-- All generated inequalities hold for `E` and `Ω` exactly when the repeated schedule respects the precedences. -/
theorem lcg_prec {src dst : KTask} {edge mc nc dc : Int} {tj : ℚ} (hm : 0 < mc) (hN : 0 < src.ni) (hN' : 0 < dst.ni)
    (hb : src.ni * mc = dst.ni * nc) (E : Event → ℚ) (Ω : ℚ) :
    (∀ j < dst.ni.toNat, E (lcgC src dst edge mc nc dc tj j).src + (lcgC src dst edge mc nc dc tj j).w
        - Ω * (lcgC src dst edge mc nc dc tj j).d ≤ E (lcgC src dst edge mc nc dc tj j).dst) ↔
      Prec mc nc dc (lcgEnd E Ω src.id src.ni.toNat) (fun k => lcgEnd E Ω dst.id dst.ni.toNat k - tj) := by
  unfold lcgC
  dsimp only
  constructor
  · intro H k l hkl
    have hj := Nat.mod_lt l (show 0 < dst.ni.toNat by omega)
    have := H _ hj
    set j := l % dst.ni.toNat with hjd
    set b := l / dst.ni.toNat with hbd
    have hl : (l : Int) = j + b * dst.ni := by
      have e := Nat.mod_add_div' l dst.ni.toNat
      rw [← hjd, ← hbd] at e
      have e2 : ((dst.ni.toNat : ℕ) : Int) = dst.ni := by omega
      rw [← e]; push_cast; rw [e2]
    have hk : (k : Int) = (need mc nc dc (j + 1) - 1) + b * src.ni := by
      have := need_shift (dc := dc) hm hb ((j : Int) + 1) b
      rw [hl, show (j : Int) + b * dst.ni + 1 = (j + 1) + b * dst.ni by ring, this] at hkl
      linarith
    obtain ⟨a1, -, a3⟩ := emod_toNat hN k b hk
    unfold lcgEnd
    dsimp only
    rw [← hjd, ← hbd, a1]
    rw [a3]
    linarith
  · intro H j hj
    set q := (need mc nc dc (j + 1) - 1) / src.ni with hq
    obtain ⟨k, hk⟩ : ∃ k : ℕ, (k : Int) = (need mc nc dc (j + 1) - 1) + (q.natAbs : ℕ) * src.ni := by
      refine ⟨((need mc nc dc (j + 1) - 1) + (q.natAbs : ℕ) * src.ni).toNat, Int.toNat_of_nonneg ?_⟩
      have h1 := Int.emod_add_mul_ediv (need mc nc dc (j + 1) - 1) src.ni
      have h2 := Int.emod_nonneg (need mc nc dc (j + 1) - 1) hN.ne'
      rw [← hq] at h1
      have h3 : 0 ≤ (q + q.natAbs) * src.ni := mul_nonneg (by omega) hN.le
      have h4 : (q + q.natAbs) * src.ni = src.ni * q + q.natAbs * src.ni := by ring
      linarith
    have := H k (j + q.natAbs * dst.ni.toNat) (by
      have e2 : ((dst.ni.toNat : ℕ) : Int) = dst.ni := by omega
      push_cast
      rw [e2, show (j : Int) + |q| * dst.ni + 1 = (j + 1) + (q.natAbs : ℕ) * dst.ni by push_cast; ring,
        need_shift hm hb, hk]
      ring)
    obtain ⟨a1, -, a3⟩ := emod_toNat hN k q.natAbs hk
    have b1 : (j + q.natAbs * dst.ni.toNat) % dst.ni.toNat = j := by
      rw [Nat.add_mul_mod_self_right, Nat.mod_eq_of_lt hj]
    have b2 : (j + q.natAbs * dst.ni.toNat) / dst.ni.toNat = q.natAbs := by
      rw [Nat.add_mul_div_right _ _ (by omega), Nat.div_eq_of_lt hj, zero_add]
    unfold lcgEnd at this
    dsimp only at this
    rw [a1, b1, b2] at this
    rw [a3] at this
    linarith

end Kiter
