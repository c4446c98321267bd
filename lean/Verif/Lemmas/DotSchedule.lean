/-
The blocks of a drawing for Graphviz, in closed form.
-/
import Verif.Spec.DotSchedule
import Verif.Props.Text
import Mathlib.Algebra.Order.Archimedean.Basic
import Mathlib.Algebra.Order.Floor.Ring
import Mathlib.Tactic.Ring
import Mathlib.Tactic.Linarith
import Mathlib.Tactic.FieldSimp

set_option autoImplicit false

namespace Kiter.DotSched
open Kiter.Text

/-- The block of the execution of rank `m`. -/
def specBlock (xscale height y : ℚ) (t : Task) (m : ℕ) : Node :=
  block (t.name ++ dec m) (xscale * startOf t m) (xscale * durationOf t m) height y (m / t.starts.length == 0)

theorem patternBlock_eq {xs h y : ℚ} {t : Task} (hd : Drawable t) (iter : ℕ) {i : ℕ} (hi : i < t.starts.length) :
    patternBlock xs h y t iter (iter * t.starts.length) i = some (specBlock xs h y t (iter * t.starts.length + i)) := by
  obtain ⟨c, hc⟩ := hd.cycles
  have hD : 0 < t.durations.length := List.length_pos_of_ne_nil hd.phases
  have h1 : (iter * t.starts.length + i) % t.starts.length = i := by
    rw [Nat.add_comm, Nat.add_mul_mod_self_right, Nat.mod_eq_of_lt hi]
  have h2 : (iter * t.starts.length + i) / t.starts.length = iter := by
    rw [Nat.add_comm, Nat.add_mul_div_right _ _ (by omega), Nat.div_eq_of_lt hi, Nat.zero_add]
  have h3 : (iter * t.starts.length + i) % t.durations.length = i % t.durations.length := by
    rw [hc, Nat.add_comm, show iter * (t.durations.length * c) = t.durations.length * (iter * c) by ring,
      Nat.add_mul_mod_self_left]
  have hm : i % t.durations.length < t.durations.length := Nat.mod_lt _ hD
  unfold patternBlock specBlock startOf durationOf
  rw [h1, h2, h3, hd.init]
  simp only [List.length_nil, Nat.zero_add]
  rw [List.getElem?_eq_getElem hm, List.getElem?_eq_getElem hi]
  simp [List.getD, List.getElem?_eq_getElem hm, List.getElem?_eq_getElem hi]

theorem patternBlocks_eq {xs h y : ℚ} {t : Task} (hd : Drawable t) (iter : ℕ) :
    patternBlocks xs h y t iter (iter * t.starts.length) =
      some ((List.range' (iter * t.starts.length) t.starts.length).map (specBlock xs h y t)) := by
  unfold patternBlocks
  rw [hd.init, List.length_nil, Nat.sub_zero,
    mapM_some (g := fun i => specBlock xs h y t (iter * t.starts.length + i))
      (fun i hi => patternBlock_eq hd iter (List.mem_range.mp hi)), List.range'_eq_map_range, List.map_map]
  rfl

theorem loop_eq {xs h y last : ℚ} {t : Task} (hd : Drawable t) (k : ℕ) : ∀ (n iter : ℕ),
    (∀ j, iter ≤ j → j < iter + k → t.starts.getD 0 0 + t.period * (j : ℚ) < last) →
    ¬ t.starts.getD 0 0 + t.period * ((iter + k : ℕ) : ℚ) < last →
    loop xs h y last t n iter (iter * t.starts.length) =
      if k < n then some ((List.range' (iter * t.starts.length) (k * t.starts.length)).map (specBlock xs h y t)) else none := by
  have hpos : 0 < t.starts.length := List.length_pos_of_ne_nil hd.starts
  have hget : t.starts[t.initDurations.length]? = some (t.starts.getD 0 0) := by
    rw [hd.init]
    simp [List.getD, List.getElem?_eq_getElem hpos]
  induction k with
  | zero =>
    intro n iter _ hstop
    cases n with
    | zero => rw [if_neg (by omega)]; rfl
    | succ n =>
      rw [loop, hget]
      dsimp only [Option.bind_eq_bind, Option.bind_some]
      rw [if_neg (by simpa using hstop), if_pos (by omega)]
      simp
  | succ k ih =>
    intro n iter hgo hstop
    cases n with
    | zero => rw [if_neg (by omega)]; rfl
    | succ n =>
      rw [loop, hget]
      dsimp only [Option.bind_eq_bind, Option.bind_some]
      rw [if_pos (hgo iter le_rfl (by omega)), patternBlocks_eq hd]
      dsimp only [Option.bind_some]
      have e : iter * t.starts.length + ((List.range' (iter * t.starts.length) t.starts.length).map
          (specBlock xs h y t)).length = (iter + 1) * t.starts.length := by
        rw [List.length_map, List.length_range']; ring
      rw [e, ih n (iter + 1) (fun j h1 h2 => hgo j (by omega) (by omega)) (by
        rw [show iter + 1 + k = iter + (k + 1) by omega]; exact hstop)]
      by_cases hk : k < n
      · rw [if_pos hk, if_pos (by omega)]
        dsimp only [Option.bind_some]
        rw [← List.map_append, show (iter + 1) * t.starts.length = iter * t.starts.length + 1 * t.starts.length by ring,
          Nat.one_mul, List.range'_append_1, show t.starts.length + k * t.starts.length = (k + 1) * t.starts.length by ring]
      · rw [if_neg hk, if_neg (by omega)]
        rfl

/-- The number of patterns drawn. -/
theorem exists_count {t : Task} (hd : Drawable t) (last : ℚ) :
    ∃ R : ℕ, ∀ j : ℕ, t.starts.getD 0 0 + t.period * (j : ℚ) < last ↔ j < R := by
  have hp := hd.period
  have hex : ∃ j : ℕ, ¬ t.starts.getD 0 0 + t.period * (j : ℚ) < last := by
    obtain ⟨j, hj⟩ := exists_nat_ge ((last - t.starts.getD 0 0) / t.period)
    refine ⟨j, ?_⟩
    rw [div_le_iff₀ hp] at hj
    linarith
  classical
  refine ⟨Nat.find hex, fun j => ⟨fun h => ?_, fun h => ?_⟩⟩
  · by_contra hlt
    have h1 := Nat.find_spec hex
    have h2 : ((Nat.find hex : ℕ) : ℚ) ≤ j := by exact_mod_cast (by omega : Nat.find hex ≤ j)
    have := mul_le_mul_of_nonneg_left h2 hp.le
    exact h1 (by linarith)
  · exact not_not.mp (Nat.find_min hex h)

/-- A row in closed form. -/
def specRow (xs ys height : ℚ) (t : Task) (idx R : ℕ) : Row :=
  ⟨t.name, ys * -(4 + 1) * (idx : ℚ),
    (List.range (R * t.starts.length)).map (specBlock xs height (ys * -(4 + 1) * (idx : ℚ)) t)⟩

theorem row_eq {xs ys height last : ℚ} {t : Task} (hd : Drawable t) (idx : ℕ) {R : ℕ}
    (hR : ∀ j : ℕ, t.starts.getD 0 0 + t.period * (j : ℚ) < last ↔ j < R) (n : ℕ) :
    row xs ys height last n t idx = if R < n then some (specRow xs ys height t idx R) else none := by
  unfold row initBlocks
  rw [hd.init]
  have h := loop_eq (xs := xs) (h := height) (y := ys * -(4 + 1) * (idx : ℚ)) (last := last) hd R n 0
    (fun j _ h => (hR j).mpr (by omega)) (by rw [hR]; omega)
  rw [Nat.zero_mul] at h
  simp only [List.length_nil, List.range_zero, List.mapM_nil, Option.pure_def, Option.bind_eq_bind, Option.bind_some]
  rw [h]
  split
  · simp [specRow, List.range_eq_range']
  · rfl

/-- The number of patterns of each task, chosen. -/
noncomputable def count (last : ℚ) (t : Task) : ℕ :=
  open Classical in if h : Drawable t then (exists_count h last).choose else 0

theorem count_spec {t : Task} (hd : Drawable t) (last : ℚ) (j : ℕ) :
    t.starts.getD 0 0 + t.period * (j : ℚ) < last ↔ j < count last t := by
  unfold count
  rw [dif_pos hd]
  exact (exists_count hd last).choose_spec j

/-- The whole drawing in closed form, for a bound. -/
noncomputable def specRows (xs ys height last : ℚ) (tasks : List Task) : List Row :=
  tasks.zipIdx.map fun p => specRow xs ys height p.1 p.2 (count last p.1)

theorem rows_eq {xs ys height last : ℚ} {tasks : List Task} (hd : ∀ t ∈ tasks, Drawable t) (n : ℕ) :
    (tasks.zipIdx.mapM fun (p : Task × ℕ) => row xs ys height last n p.1 p.2) =
      if ∀ t ∈ tasks, count last t < n then some (specRows xs ys height last tasks) else none := by
  have hmem : ∀ p ∈ tasks.zipIdx, p.1 ∈ tasks := fun p hp => (List.mem_zipIdx' (x := p.1) (i := p.2) hp).2 ▸ List.getElem_mem _
  split
  · rename_i h
    rw [mapM_some (g := fun p => specRow xs ys height p.1 p.2 (count last p.1))]
    · rfl
    · intro p hp
      rw [row_eq (hd _ (hmem p hp)) p.2 (count_spec (hd _ (hmem p hp)) last), if_pos (h _ (hmem p hp))]
  · rename_i h
    push Not at h
    obtain ⟨t, ht, hn⟩ := h
    obtain ⟨i, hi, rfl⟩ := List.getElem_of_mem ht
    have hp : (tasks[i], i) ∈ tasks.zipIdx := by
      rw [List.mem_zipIdx_iff_getElem?]
      exact List.getElem?_eq_getElem hi
    refine mapM_none hp ?_
    rw [row_eq (hd _ ht) i (count_spec (hd _ ht) last), if_neg (by omega)]

end Kiter.DotSched
