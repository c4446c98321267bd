/-
Lemmas on the ASAP schedule: the start times written down are those of the self-timed execution.
-/
import Verif.Model.AsapSchedule
import Verif.Props.SelfTimed

set_option autoImplicit false

namespace Kiter.Sim
open Finset

variable {nV nE : Nat} {g : Graph nV nE} {cap : Option (Fin nE → Int)}

theorem noStop_eq (c : Cfg nV nE) : c.noStop = c.free := rfl

/-! ### Steps -/

theorem endOne_num (c : Cfg nV nE) (x : Machine nV nE) (t a : Fin nV) :
    ((endOne c x t).acts a).numExecs = (x.acts a).numExecs := by
  simp only [endOne, execEnd]
  split
  · rfl
  · by_cases h : a = t
    · subst h; simp
    · simp [h]

theorem step_record {c : Cfg nV nE} {x : Machine nV nE} (h : Recording c.free x) :
    step c.free x = endOne c.free { x with visited := x.visited ++ [x.st], st := { x.st with elapsed := 0 }, count := 0 }
      c.minActor := by
  obtain ⟨⟨rest, hpc⟩, he, hc⟩ := h
  unfold step
  have he' : readyToEnd x.st c.minActor = true := he
  have hc' : x.count + 1 = c.g.ni c.minActor := hc
  rw [hpc]
  simp [Cfg.free, he', hc']

theorem step_swap {c : Cfg nV nE} {x : Machine nV nE} (h : ¬ Recording c.free x) (v : List (St nV nE)) :
    step c.free { x with visited := v } = { step c.free x with visited := v } ∧ (step c.free x).visited = x.visited := by
  refine ⟨?_, (step_visited c.free x).resolve_right fun h' => h h'.1⟩
  unfold step
  simp only
  split
  · rfl
  · rename_i t rest hpc
    split
    · rename_i hr
      split
      · rename_i ht
        split
        · rename_i hcn
          subst ht
          exact absurd ⟨⟨rest, hpc⟩, hr, hcn⟩ h
        · rfl
      · rfl
    · rfl
  · rfl
  · split <;> rfl
  · split <;> rfl
  · rfl
  · rfl

theorem step_num {c : Cfg nV nE} {x : Machine nV nE}
    (h : ¬ ∃ t rest, x.pc = .starts (t :: rest) ∧ ready c.g c.cap x.acts x.st t = true) (a : Fin nV) :
    ((step c x).acts a).numExecs = (x.acts a).numExecs := by
  unfold step
  split
  · rfl
  · split
    · split
      · split
        · split
          · rfl
          · rw [endOne_num]
        · rw [endOne_num]
      · rw [endOne_num]
    · rfl
  · rfl
  · rename_i t rest hpc
    split
    · rename_i hr; exact absurd ⟨t, rest, hpc, hr⟩ h
    · rfl
  · dsimp only; split <;> rfl
  · rfl
  · rfl

theorem step_start {c : Cfg nV nE} {x : Machine nV nE} {t : Fin nV} {rest : List (Fin nV)} (hpc : x.pc = .starts (t :: rest))
    (hr : ready c.g c.cap x.acts x.st t = true) (a : Fin nV) :
    ((step c x).acts a).numExecs = (x.acts a).numExecs + if a = t then 1 else 0 := by
  unfold step
  rw [hpc]
  simp only [hr, if_true, execStart]
  by_cases h : a = t
  · subst h; simp
  · simp [h]

theorem not_recording {c : Cfg nV nE} {x : Machine nV nE} {l : List (Fin nV)} (hpc : x.pc = .starts l) :
    ¬ Recording c x := by
  rintro ⟨⟨rest, h⟩, -⟩
  rw [hpc] at h; simp at h

theorem visited_le (c : Cfg nV nE) (m : Machine nV nE) {i j : ℕ} (h : i ≤ j) :
    (run c m i).visited.length ≤ (run c m j).visited.length := by
  obtain ⟨l, hl⟩ := visited_prefix c m i (j - i)
  rw [show i + (j - i) = j by omega] at hl
  rw [hl]; simp

theorem visited_lt (c : Cfg nV nE) (m : Machine nV nE) {i j : ℕ} (h : i < j) (hr : Recording c.free (run c.free m i)) :
    (run c.free m i).visited.length < (run c.free m j).visited.length := by
  have h1 : (run c.free m (i + 1)).visited.length = (run c.free m i).visited.length + 1 := by
    show (step c.free (run c.free m i)).visited.length = _
    rw [step_record hr]; simp [endOne]
  have := visited_le c.free m (show i + 1 ≤ j from h)
  omega

/-! ### Vectors of starts -/

theorem pushLast_spec (l : List (List ℚ)) (x : ℚ) (h : l ≠ []) :
    ∃ pre z, l = pre ++ [z] ∧ pushLast l x = some (pre ++ [z ++ [x]]) := by
  induction l with
  | nil => exact absurd rfl h
  | cons a r ih =>
    cases r with
    | nil => exact ⟨[], a, rfl, rfl⟩
    | cons b r =>
      obtain ⟨pre, z, e1, e2⟩ := ih (by simp)
      refine ⟨a :: pre, z, by rw [e1]; rfl, ?_⟩
      unfold pushLast
      rw [e2]; rfl

theorem periodicPart_spec (pre : List (List ℚ)) (l : List ℚ) (t : ℚ) :
    periodicPart (pre ++ [l ++ [t]]) = some (pre.flatten ++ l) := by
  induction pre with
  | nil => simp [periodicPart]
  | cons a pre ih =>
    cases pre with
    | nil => simp [periodicPart]
    | cons b pre =>
      show (periodicPart (b :: pre ++ [l ++ [t]])).map (a ++ ·) = _
      rw [ih]; simp

/-- The starts of `a` written down until step `j`, cut at the records; `s = 0` when `a` had not started at the first record. -/
structure Seg (c : Cfg nV nE) (m : Machine nV nE) (j : ℕ) (a : Fin nV) (segs : List (List ℚ)) (check : Option ℚ) (s : ℕ) :
    Prop where
  s1 : s ≤ 1
  len : segs.length = (run c.free m j).visited.length + s
  flat : ∃ L, segs.flatten = L ++ check.toList ∧ L.length = ((run c.free m j).acts a).numExecs ∧
    ∀ i t, L[i]? = some t → ∃ n < j, StartsAt c.free m n a i t
  marks : ∀ i < j, Recording c.free (run c.free m i) →
    (segs.take ((run c.free m i).visited.length + s)).flatten.length = ((run c.free m i).acts a).numExecs
  late : s = 0 → (run c.free m j).visited.length = 0 → ((run c.free m j).acts a).numExecs = 0
  head : s = 1 → ∃ x xs rest, segs = (x :: xs) :: rest

/-- What the variables of the loop are after `k` tests, the last start before the recurrent state being before step `j`. -/
structure Logged (c : Cfg nV nE) (m : Machine nV nE) (k j : ℕ) (r : Logger nV nE) : Prop where
  le : j ≤ k
  mach : r.m = { run c.free m k with visited := (run c.free m j).visited }
  unfound : r.found = none → j = k ∧ ∀ a, r.check a = none
  first : ∀ j' < j, Recording c.free (run c.free m j') →
    findState (run c.free m j').visited (run c.free m j').st = none
  found : ∀ x, r.found = some x → Recording c.free (run c.free m j) ∧ j < k ∧
    findState (run c.free m j).visited (run c.free m j).st = some x.2 ∧ x.1 = throughput (run c.free m j).visited x.2
  seg : ∀ a, ∃ s, Seg c m j a (r.starts a) (r.check a) s
  check : ∀ a t, r.check a = some t → (∃ n, StartsAt c.free m n a ((run c.free m j).acts a).numExecs t) ∧
    ∃ pre l, r.starts a = pre ++ [l ++ [t]]
  nocheck : ∀ a, r.check a = none → ((run c.free m k).acts a).numExecs = ((run c.free m j).acts a).numExecs
  left : r.left = (univ.filter fun a => r.check a = none).card
  done : r.done = true → r.found ≠ none ∧ r.left = 0
  live : r.done = false → r.left ≠ 0

theorem Seg.keep {c : Cfg nV nE} {m : Machine nV nE} {k : ℕ} {a : Fin nV} {segs : List (List ℚ)} {s : ℕ}
    (h : Seg c m k a segs none s) (hn : ((run c.free m (k + 1)).acts a).numExecs = ((run c.free m k).acts a).numExecs)
    (hr : ¬ Recording c.free (run c.free m k)) : Seg c m (k + 1) a segs none s := by
  have hv : (run c.free m (k + 1)).visited = (run c.free m k).visited := (step_swap hr []).2
  obtain ⟨L, e1, e2, e3⟩ := h.flat
  refine ⟨h.s1, by rw [hv]; exact h.len, ⟨L, e1, by rw [hn]; exact e2, fun i t ht => ?_⟩, fun i hi hri => ?_,
    by rw [hv, hn]; exact h.late, h.head⟩
  · obtain ⟨n, h1, h2⟩ := e3 i t ht
    exact ⟨n, by omega, h2⟩
  · have : i ≠ k := fun e => hr (e ▸ hri)
    exact h.marks i (by omega) hri

/-- A start is added to the last vector, or to a first one. -/
theorem Seg.start {c : Cfg nV nE} {m : Machine nV nE} {k : ℕ} {a : Fin nV} {segs : List (List ℚ)} {s : ℕ}
    (h : Seg c m k a segs none s) (hn : ((run c.free m (k + 1)).acts a).numExecs = ((run c.free m k).acts a).numExecs + 1)
    (hr : ¬ Recording c.free (run c.free m k)) :
    (segs.length = 0 → ∃ s', Seg c m (k + 1) a [[(run c.free m k).clock]] none s') ∧
    (segs.length ≠ 0 → ∃ l, pushLast segs (run c.free m k).clock = some l ∧ ∃ s', Seg c m (k + 1) a l none s') := by
  have hv : (run c.free m (k + 1)).visited = (run c.free m k).visited := (step_swap hr []).2
  have hst : StartsAt c.free m k a ((run c.free m k).acts a).numExecs (run c.free m k).clock := ⟨rfl, hn, rfl⟩
  obtain ⟨L, e1, e2, e3⟩ := h.flat
  have hold : ∀ x, x = (run c.free m k).clock → ∀ i t, (L ++ [x])[i]? = some t → ∃ n < k + 1, StartsAt c.free m n a i t := by
    intro x hx i t ht
    rw [List.getElem?_append] at ht
    split at ht
    · obtain ⟨n, h1, h2⟩ := e3 i t ht
      exact ⟨n, by omega, h2⟩
    · rename_i hi
      have : i = L.length := by
        by_contra hne
        rw [List.getElem?_eq_none (by simp; omega)] at ht; simp at ht
      subst this
      simp at ht
      refine ⟨k, by omega, ?_⟩
      rw [e2, ← ht, hx]; exact hst
  constructor
  · intro h0
    have hV : (run c.free m k).visited.length = 0 := by have := h.len; omega
    have hs : s = 0 := by have := h.len; omega
    have hN := h.late hs hV
    have hL : L = [] := List.length_eq_zero_iff.1 (by rw [e2, hN])
    refine ⟨1, le_rfl, by rw [hv, hV]; rfl, ⟨[(run c.free m k).clock], by simp, by rw [hn, hN]; rfl, ?_⟩, fun i hi hri => ?_,
      by simp, fun _ => ⟨_, [], [], rfl⟩⟩
    · have := hold _ rfl
      rw [hL] at this; exact this
    · have hik : i ≠ k := fun e => hr (e ▸ hri)
      have := visited_lt c m (show i < k by omega) hri
      omega
  · intro h0
    obtain ⟨pre, z, p1, p2⟩ := pushLast_spec segs (run c.free m k).clock (by rintro rfl; simp at h0)
    have hpl : pre.length + 1 = (run c.free m k).visited.length + s := by rw [← h.len, p1]; simp
    refine ⟨_, p2, s, h.s1, by rw [hv, ← h.len, p1]; simp, ⟨L ++ [(run c.free m k).clock], ?_, by simp [e2, hn], hold _ rfl⟩,
      fun i hi hri => ?_, ?_, ?_⟩
    · rw [p1] at e1
      simp only [List.flatten_append, List.flatten_cons, List.flatten_nil, List.append_nil, Option.toList_none] at e1 ⊢
      rw [← e1]; simp
    · have hik : i ≠ k := fun e => hr (e ▸ hri)
      have h1 := visited_lt c m (show i < k by omega) hri
      have h2 := h.marks i (by omega) hri
      rw [p1, List.take_append_of_le_length (by omega)] at h2
      rw [List.take_append_of_le_length (by omega)]
      exact h2
    · intro h1 h2
      rw [hv] at h2
      omega
    · intro h1
      obtain ⟨x, xs, rest, h2⟩ := h.head h1
      rw [p1] at h2
      cases pre with
      | nil =>
        simp at h2
        exact ⟨x, xs ++ [(run c.free m k).clock], [], by rw [h2.1]; simp⟩
      | cons b pre =>
        simp at h2
        exact ⟨x, xs, pre ++ [z ++ [(run c.free m k).clock]], by rw [h2.1]; simp⟩

/-- A record opens a new vector. -/
theorem Seg.record {c : Cfg nV nE} {m : Machine nV nE} {k : ℕ} {a : Fin nV} {segs : List (List ℚ)} {s : ℕ}
    (h : Seg c m k a segs none s) (hr : Recording c.free (run c.free m k)) : Seg c m (k + 1) a (segs ++ [[]]) none s := by
  have hrun : run c.free m (k + 1) = step c.free (run c.free m k) := rfl
  have hv : (run c.free m (k + 1)).visited.length = (run c.free m k).visited.length + 1 := by
    rw [hrun, step_record hr]; simp [endOne]
  have hn : ((run c.free m (k + 1)).acts a).numExecs = ((run c.free m k).acts a).numExecs := by
    rw [hrun, step_record hr, endOne_num]
  obtain ⟨L, e1, e2, e3⟩ := h.flat
  refine ⟨h.s1, by rw [hv]; simp [h.len]; omega, ⟨L, by simpa using e1, by rw [hn]; exact e2, fun i t ht => ?_⟩, fun i hi hri => ?_,
    fun _ h2 => by omega, fun h1 => ?_⟩
  · obtain ⟨n, h1, h2⟩ := e3 i t ht
    exact ⟨n, by omega, h2⟩
  · have hle := visited_le c.free m (show i ≤ k by omega)
    rw [List.take_append_of_le_length (by have := h.len; omega)]
    by_cases hik : i = k
    · subst hik
      rw [← h.len, List.take_length, e1]
      simpa using e2
    · exact h.marks i (by omega) hri
  · obtain ⟨x, xs, rest, h2⟩ := h.head h1
    exact ⟨x, xs, rest ++ [[]], by rw [h2]; rfl⟩

/-- The start after the recurrent state is added to the last vector. -/
theorem Seg.extra {c : Cfg nV nE} {m : Machine nV nE} {j : ℕ} {a : Fin nV} {segs : List (List ℚ)} {s : ℕ}
    (h : Seg c m j a segs none s) (hV : 0 < (run c.free m j).visited.length) (t : ℚ) :
    ∃ l, pushLast segs t = some l ∧ Seg c m j a l (some t) s ∧ ∃ pre z, l = pre ++ [z ++ [t]] := by
  obtain ⟨L, e1, e2, e3⟩ := h.flat
  obtain ⟨pre, z, p1, p2⟩ := pushLast_spec segs t (by rintro rfl; have := h.len; simp at this; omega)
  have hpl : pre.length + 1 = (run c.free m j).visited.length + s := by rw [← h.len, p1]; simp
  refine ⟨_, p2, ⟨h.s1, by rw [← h.len, p1]; simp, ⟨L, ?_, e2, e3⟩, fun i hi hri => ?_, h.late, fun h1 => ?_⟩, pre, z, rfl⟩
  · rw [p1] at e1
    simp only [List.flatten_append, List.flatten_cons, List.flatten_nil, List.append_nil, Option.toList_none,
      Option.toList_some] at e1 ⊢
    rw [← e1]; simp
  · have h1 := visited_lt c m hi hri
    have h2 := h.marks i hi hri
    rw [p1, List.take_append_of_le_length (by omega)] at h2
    rw [List.take_append_of_le_length (by omega)]
    exact h2
  · obtain ⟨x, xs, rest, h2⟩ := h.head h1
    rw [p1] at h2
    cases pre with
    | nil =>
      simp at h2
      exact ⟨x, xs ++ [t], [], by rw [h2.1]; simp⟩
    | cons b pre =>
      simp at h2
      exact ⟨x, xs, pre ++ [z ++ [t]], by rw [h2.1]; simp⟩

/-- A step that starts nothing and records nothing. -/
theorem Logged.idle {c : Cfg nV nE} {m : Machine nV nE} {k j : ℕ} {r : Logger nV nE} (h : Logged c m k j r)
    (hd : r.done = false) (hr : ¬ Recording c.free (run c.free m k))
    (hn : ∀ a, ((run c.free m (k + 1)).acts a).numExecs = ((run c.free m k).acts a).numExecs) :
    ∃ j', Logged c m (k + 1) j' { r with m := step c.noStop r.m } := by
  have hm : ∀ v, v = (run c.free m j).visited → step c.noStop r.m = { run c.free m (k + 1) with visited := v } := by
    intro v hv
    rw [noStop_eq, h.mach, hv]; exact (step_swap hr _).1
  have hv : (run c.free m (k + 1)).visited = (run c.free m k).visited := (step_swap hr []).2
  cases hf : r.found with
  | none =>
    obtain ⟨rfl, hc⟩ := h.unfound hf
    refine ⟨j + 1, le_rfl, hm _ hv, fun _ => ⟨rfl, hc⟩, fun j' hj' hrj => ?_, fun x hx => ?_, fun a => ?_, fun a t ht => ?_,
      fun a _ => rfl, h.left, fun hd' => ?_, h.live⟩
    · have : j' ≠ j := fun e => hr (e ▸ hrj)
      exact h.first j' (by omega) hrj
    · simp at hx
    · obtain ⟨s, hs⟩ := h.seg a
      rw [hc a] at hs
      exact ⟨s, by simp only [hc a]; exact hs.keep (hn a) hr⟩
    · simp [hc a] at ht
    · simp [hd] at hd'
  | some x =>
    obtain ⟨f1, f2, f3, f4⟩ := h.found x hf
    refine ⟨j, by omega, hm _ rfl, fun h0 => ?_, h.first, fun y hy => ?_, h.seg, h.check, fun a ha => ?_, h.left, fun hd' => ?_,
      h.live⟩
    · simp at h0
    · simp only [Option.some.injEq] at hy
      subst hy
      exact ⟨f1, by omega, f3, f4⟩
    · rw [hn a]; exact h.nocheck a ha
    · simp [hd] at hd'

theorem record_mach {c : Cfg nV nE} {m : Machine nV nE} {k : ℕ} (hr : Recording c.free (run c.free m k)) (v : List (St nV nE)) :
    endOne c { run c.free m k with visited := v, st := { (run c.free m k).st with elapsed := 0 }, count := 0 } c.minActor =
      { run c.free m (k + 1) with visited := v } := by
  show _ = { step c.free (run c.free m k) with visited := v }
  rw [step_record hr]
  rfl

theorem Logged.step {c : Cfg nV nE} {m : Machine nV nE} {k j : ℕ} {r : Logger nV nE} (h : Logged c m k j r)
    (hd : r.done = false) : ∃ r', logStep c r = some r' ∧ ∃ j', Logged c m (k + 1) j' r' := by
  have hpc : r.m.pc = (run c.free m k).pc := by rw [h.mach]
  have hst : r.m.st = (run c.free m k).st := by rw [h.mach]
  have hct : r.m.count = (run c.free m k).count := by rw [h.mach]
  have hac : r.m.acts = (run c.free m k).acts := by rw [h.mach]
  have hcl : r.m.clock = (run c.free m k).clock := by rw [h.mach]
  have hidle : ¬ Recording c.free (run c.free m k) →
      (¬ ∃ t rest, (run c.free m k).pc = .starts (t :: rest) ∧
        ready c.g c.cap (run c.free m k).acts (run c.free m k).st t = true) →
      ∃ r', some { r with m := Sim.step c.noStop r.m } = some r' ∧ ∃ j', Logged c m (k + 1) j' r' := fun h1 h2 =>
    ⟨_, rfl, h.idle hd h1 (fun a => step_num (c := c.free) h2 a)⟩
  unfold logStep
  rw [if_neg (by simp [hd])]
  split
  · rename_i t rest hp
    rw [hpc] at hp
    split
    · rename_i hc
      obtain ⟨hc1, rfl, hc3⟩ := hc
      rw [hst] at hc1
      rw [hct] at hc3
      have hr : Recording c.free (run c.free m k) := ⟨⟨rest, hp⟩, hc1, hc3⟩
      have hn : ∀ a, ((run c.free m (k + 1)).acts a).numExecs = ((run c.free m k).acts a).numExecs := fun a => by
        show ((Sim.step c.free (run c.free m k)).acts a).numExecs = _
        rw [step_record hr, endOne_num]
      refine ⟨_, rfl, ?_⟩
      unfold Sim.record
      cases hf : r.found with
      | some x =>
        obtain ⟨f1, f2, f3, f4⟩ := h.found x hf
        refine ⟨j, by omega, ?_, fun h0 => ?_, h.first, fun y hy => ?_, h.seg, h.check, fun a ha => ?_, h.left, fun hd' => ?_,
          h.live⟩
        · have := record_mach hr (run c.free m j).visited
          dsimp only
          rw [← this, h.mach]
        · simp at h0
        · simp only [Option.some.injEq] at hy
          subst hy
          exact ⟨f1, by omega, f3, f4⟩
        · rw [hn a]; exact h.nocheck a ha
        · simp [hd] at hd'
      | none =>
        obtain ⟨rfl, hch⟩ := h.unfound hf
        have hvis : r.m.visited = (run c.free m j).visited := by rw [h.mach]
        cases hfs : findState r.m.visited r.m.st with
        | some i =>
          refine ⟨j, by omega, ?_, fun h0 => ?_, h.first, fun y hy => ?_, h.seg, h.check, fun a ha => ?_, h.left, fun hd' => ?_,
            h.live⟩
          · have := record_mach hr (run c.free m j).visited
            dsimp only
            rw [← this, h.mach]
          · simp at h0
          · simp only [Option.some.injEq] at hy
            subst hy
            rw [hvis, hst] at hfs
            exact ⟨hr, by omega, hfs, by rw [hvis]⟩
          · rw [hn a]
          · simp [hd] at hd'
        | none =>
          have hv : (run c.free m (j + 1)).visited = (run c.free m j).visited ++ [(run c.free m j).st] := by
            show (Sim.step c.free (run c.free m j)).visited = _
            rw [step_record hr]; rfl
          refine ⟨j + 1, le_rfl, ?_, fun h0 => ⟨rfl, hch⟩, fun j' hj' hrj => ?_, fun y hy => ?_, fun a => ?_, fun a t ht => ?_,
            fun a _ => rfl, h.left, fun hd' => ?_, h.live⟩
          · have := record_mach hr ((run c.free m j).visited ++ [(run c.free m j).st])
            dsimp only
            rw [hv, ← this, h.mach]
          · by_cases e : j' = j
            · subst e; rw [← hvis, ← hst]; exact hfs
            · exact h.first j' (by omega) hrj
          · simp at hy
          · obtain ⟨s, hs⟩ := h.seg a
            rw [hch a] at hs
            exact ⟨s, by simp only [hch a]; exact hs.record hr⟩
          · simp [hch a] at ht
          · simp [hd] at hd'
    · rename_i hc
      refine hidle (fun hr => hc ?_) ?_
      · obtain ⟨⟨rest', hp'⟩, h2, h3⟩ := hr
        rw [hp] at hp'
        simp only [Pc.ends.injEq, List.cons.injEq] at hp'
        obtain ⟨rfl, -⟩ := hp'
        exact ⟨by rw [hst]; exact h2, rfl, by rw [hct]; exact h3⟩
      · rintro ⟨_, _, h', -⟩; rw [hp] at h'; simp at h'
  · rename_i t rest hp
    rw [hpc] at hp
    have hnr : ¬ Recording c.free (run c.free m k) := not_recording hp
    split
    · rename_i hrd
      rw [hac, hst] at hrd
      have hn := fun a => step_start (c := c.free) hp hrd a
      have hv : (run c.free m (k + 1)).visited = (run c.free m k).visited := (step_swap hnr []).2
      have hnt : ((run c.free m (k + 1)).acts t).numExecs = ((run c.free m k).acts t).numExecs + 1 := by
        have := hn t; simp only [if_true] at this; exact this
      have hno : ∀ a, a ≠ t → ((run c.free m (k + 1)).acts a).numExecs = ((run c.free m k).acts a).numExecs := fun a ha => by
        have := hn a; simp only [ha, if_false, add_zero] at this; exact this
      unfold logStart
      cases hf : r.found with
      | some x =>
        obtain ⟨f1, f2, f3, f4⟩ := h.found x hf
        have hV : 0 < (run c.free m j).visited.length := by
          obtain ⟨v, hv, -⟩ := findState_spec f3
          have := (List.getElem?_eq_some_iff.1 hv).1; omega
        have hm : Sim.step c.noStop r.m = { run c.free m (k + 1) with visited := (run c.free m j).visited } := by
          rw [noStop_eq, h.mach]; exact (step_swap hnr _).1
        simp only [Option.isSome_some, if_true]
        cases hc : r.check t with
        | none =>
          simp only [Option.isNone_none, if_true]
          obtain ⟨s, hs⟩ := h.seg t
          rw [hc] at hs
          obtain ⟨l, p1, p2, p3⟩ := hs.extra hV r.m.clock
          rw [p1]
          have hleft : r.left - 1 = (univ.filter fun a => Function.update r.check t (some r.m.clock) a = none).card := by
            have e : (univ.filter fun a => Function.update r.check t (some r.m.clock) a = none) =
                (univ.filter fun a => r.check a = none).erase t := by
              ext a
              by_cases ha : a = t
              · subst ha; simp
              · simp [ha]
            rw [e, card_erase_of_mem (by simp [hc]), h.left]
          refine ⟨_, rfl, j, by omega, hm, fun h0 => ?_, h.first, fun y hy => ?_, fun a => ?_, fun a u hu => ?_, fun a ha => ?_,
            hleft, fun hd' => ?_, fun hd' => ?_⟩
          · simp at h0
          · simp only [Option.some.injEq] at hy
            subst hy
            exact ⟨f1, by omega, f3, f4⟩
          · by_cases ha : a = t
            · subst ha; simp only [Function.update_self]; exact ⟨s, p2⟩
            · simp only [ne_eq, ha, not_false_eq_true, Function.update_of_ne]; exact h.seg a
          · by_cases ha : a = t
            · subst ha
              simp only [Function.update_self, Option.some.injEq] at hu ⊢
              subst hu
              refine ⟨⟨k, h.nocheck a hc, ?_, hcl.symm⟩, p3⟩
              rw [hnt, h.nocheck a hc]
            · simp only [ne_eq, ha, not_false_eq_true, Function.update_of_ne] at hu ⊢; exact h.check a u hu
          · by_cases hat : a = t
            · subst hat; simp at ha
            · simp only [ne_eq, hat, not_false_eq_true, Function.update_of_ne] at ha
              rw [hno a hat]; exact h.nocheck a ha
          · simp only [decide_eq_true_eq] at hd'
            exact ⟨by simp, hd'⟩
          · simpa using hd'
        | some u =>
          simp only [Option.isNone_some, Bool.false_eq_true, if_false]
          refine ⟨_, rfl, j, by omega, hm, fun h0 => ?_, h.first, fun y hy => ?_, h.seg, h.check, fun a ha => ?_,
            h.left, fun hd' => ?_, fun hd' => ?_⟩
          · simp at h0
          · simp only [Option.some.injEq] at hy
            subst hy
            exact ⟨f1, by omega, f3, f4⟩
          · have hat : a ≠ t := by rintro rfl; simp [hc] at ha
            rw [hno a hat]; exact h.nocheck a ha
          · simp only [decide_eq_true_eq] at hd'
            exact ⟨by simp, hd'⟩
          · simpa using hd'
      | none =>
        obtain ⟨rfl, hch⟩ := h.unfound hf
        have hm : Sim.step c.noStop r.m = { run c.free m (j + 1) with visited := (run c.free m (j + 1)).visited } := by
          rw [noStop_eq, h.mach, hv]; exact (step_swap hnr _).1
        obtain ⟨s, hs⟩ := h.seg t
        rw [hch t] at hs
        obtain ⟨q1, q2⟩ := hs.start hnt hnr
        have hfin : ∀ l, (∃ s', Seg c m (j + 1) t l none s') →
            Logged c m (j + 1) (j + 1) { r with m := Sim.step c.noStop r.m, starts := Function.update r.starts t l } := by
          intro l hl
          refine ⟨le_rfl, hm, fun _ => ⟨rfl, hch⟩, fun j' hj' hrj => ?_, fun x hx => ?_, fun a => ?_, fun a t ht => ?_,
            fun a _ => rfl, h.left, fun hd' => ?_, h.live⟩
          · have : j' ≠ j := fun e => hnr (e ▸ hrj)
            exact h.first j' (by omega) hrj
          · simp [hf] at hx
          · simp only [hch a]
            by_cases ha : a = t
            · subst ha; simp only [Function.update_self]; exact hl
            · simp only [ne_eq, ha, not_false_eq_true, Function.update_of_ne]
              obtain ⟨s', hs'⟩ := h.seg a
              rw [hch a] at hs'
              exact ⟨s', hs'.keep (hno a ha) hnr⟩
          · simp [hch a] at ht
          · simp [hd] at hd'
        simp only [Option.isSome_none, Bool.false_eq_true, if_false]
        by_cases h0 : (r.starts t).length = 0
        · simp only [h0, if_true]
          have := hfin _ (q1 h0)
          rw [← hcl] at this
          simp only [hf] at this
          exact ⟨_, rfl, j + 1, this⟩
        · simp only [h0, if_false]
          obtain ⟨l, p1, p2⟩ := q2 h0
          rw [hcl, p1]
          have := hfin _ p2
          simp only [hf] at this
          exact ⟨_, rfl, j + 1, this⟩
    · rename_i hrd
      rw [hac, hst] at hrd
      refine hidle hnr ?_
      rintro ⟨t', rest', h', h2⟩
      rw [hp] at h'
      simp only [Pc.starts.injEq, List.cons.injEq] at h'
      obtain ⟨rfl, -⟩ := h'
      exact hrd h2
  · rename_i x1 x2
    refine hidle (fun hr => ?_) ?_
    · obtain ⟨⟨rest', hp'⟩, -⟩ := hr
      exact x1 _ _ (hpc.trans hp')
    · rintro ⟨t', rest', h', -⟩
      exact x2 _ _ (hpc.trans h')

theorem logged_init {c : Cfg nV nE} {m : Machine nV nE} (hs : start g cap true = some (c, m)) :
    Logged c m 0 0 (logInit m) := by
  obtain ⟨-, -, -, -, h5, h6, -, h8, -⟩ := start_spec hs
  have hn : ∀ a, (m.acts a).numExecs = 0 := fun a => by rw [show m.acts = m.core.acts from rfl, h5]; rfl
  refine ⟨le_rfl, rfl, fun _ => ⟨rfl, fun _ => rfl⟩, by simp, by simp [logInit], fun a => ⟨0, by omega, ?_, ⟨[], ?_, ?_, ?_⟩,
    by simp, fun _ _ => hn a, by simp⟩, by simp [logInit], fun _ _ => rfl, by simp [logInit], by simp [logInit], fun _ => ?_⟩
  · simp [logInit, run, h8]
  · simp [logInit]
  · simp [run, hn]
  · simp
  · have := c.minActor.2
    simp only [logInit]; omega

/-- After any number of loop tests the program is defined and its variables are as described, at the test at which it
returned if it has. -/
theorem logged_run {c : Cfg nV nE} {m : Machine nV nE} (hs : start g cap true = some (c, m)) (n : ℕ) :
    ∃ r, logRun c (logInit m) n = some r ∧ ∃ k j, k ≤ n ∧ (r.done = false → k = n) ∧ Logged c m k j r := by
  induction n with
  | zero => exact ⟨_, rfl, 0, 0, le_rfl, fun _ => rfl, logged_init hs⟩
  | succ n ih =>
    obtain ⟨r, h1, k, j, h2, h3, h4⟩ := ih
    unfold logRun
    rw [h1]
    cases hd : r.done with
    | true =>
      refine ⟨r, by simp [logStep, hd], k, j, by omega, by simp [hd], h4⟩
    | false =>
      obtain ⟨r', e1, j', e2⟩ := h4.step hd
      have := h3 hd
      subst this
      exact ⟨r', e1, k + 1, j', le_rfl, fun _ => rfl, e2⟩

end Kiter.Sim
