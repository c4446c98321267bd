/-
**C120** for the whole command: graphs that are not strongly connected are cut into components, each executed on its own over the network.
-/
import Verif.Props.So4
import Verif.Props.AsapSchedule

set_option autoImplicit false

namespace Kiter.So4
open Kiter.Sim

variable {nV nE : Nat} {g : Graph nV nE} {T : Table nE}

theorem Table.OK.sub (hT : T.OK) (g : Graph nV nE) (K : List (Fin nV)) : (T.sub g K).OK := ⟨hT.1, fun _ he => hT.2 _ he⟩

theorem component_some {n : ℕ} {r} (hc : component T g n = some r) : ∃ f, r.2.2 = some f := by
  unfold component at hc
  simp only [Option.bind_eq_bind, Option.bind_eq_some_iff, Option.map_eq_some_iff] at hc
  obtain ⟨s, -, x, -, o, ho, rfl⟩ := hc
  split at ho
  swap
  · simp at ho
  rename_i hdone
  unfold outcome at ho
  rw [if_pos hdone] at ho
  simp only [Option.bind_eq_bind, Option.bind_eq_some_iff] at ho
  obtain ⟨f, -, t, -, l, -, ho⟩ := ho
  split at ho
  swap
  · simp at ho
  simp only [Option.pure_def, Option.some.injEq] at ho
  exact ⟨_, by rw [← ho]⟩

/-- What one component adds to the schedule. -/
structure Part (g : Graph nV nE) (T : Table nE) (K : List (Fin nV)) (es : List (Fin nV × Chart.Entry)) (st : Fin nV → List ℚ) : Prop where
  tokens : ∀ e, g.src e ∈ K → g.tgt e ∈ K → ∀ k, k < (st (g.tgt e)).length →
    ∃ d ≤ (st (g.src e)).length,
      (∀ j < d, ∃ arr, Crosses T e (endOf g st (g.src e) j) arr ∧ arr ≤ (st (g.tgt e)).getD k 0) ∧
      Sim.cum (g.cons e) (k + 1) ≤ g.preload e + Sim.cum (g.prod e) d
  noOverlap : ∀ a ∈ K, ∀ k, k + 1 < (st a).length → endOf g st a k ≤ (st a).getD (k + 1) 0
  names : es.map Prod.fst = if 0 < (g.inner K).length then K else []
  pre : ∀ p ∈ es, p.2.init ++ p.2.starts <+: st p.1

/-- Starts of the tasks of the list `K`, given by position; nothing for the others. -/
def spread {K : List (Fin nV)} (s : Fin K.length → List ℚ) (a : Fin nV) : List ℚ :=
  if h : K.idxOf a < K.length then s ⟨K.idxOf a, h⟩ else []

theorem spread_get {K : List (Fin nV)} (hK : K.Nodup) (s : Fin K.length → List ℚ) (i : Fin K.length) : spread s K[i] = s i := by
  unfold spread
  have h : K.idxOf K[i] = i := by simp [hK.idxOf_getElem]
  rw [dif_pos (by omega)]
  congr 1
  exact Fin.ext h

theorem inner_get {K : List (Fin nV)} {e : Fin nE} (h1 : g.src e ∈ K) (h2 : g.tgt e ∈ K) : ∃ e' : Fin (g.inner K).length, (g.inner K)[e'] = e := by
  obtain ⟨i, hi, he⟩ := List.getElem_of_mem (Sim.mem_inner.2 ⟨h1, h2⟩)
  exact ⟨⟨i, hi⟩, he⟩

theorem part_of_component (h : Sim.OK g) (hT : T.OK) (hi : ∀ a, ∀ d ∈ g.dur a, ∃ n : ℕ, d = n) (a : Fin nV) {N : Fin nV → Int} {n : ℕ}
    {r} (hr : componentResult T (g.withNi N) n (cls g a) = some r) : ∃ st, Part g T (cls g a) r.2 st := by
  have hin : (g.withNi N).inner (cls g a) = g.inner (cls g a) := rfl
  unfold componentResult at hr
  split at hr
  · rename_i hpos
    simp only [Option.bind_eq_bind, Option.bind_eq_some_iff, Option.some.injEq] at hr
    obtain ⟨s, hs, r', hr', rfl⟩ := hr
    obtain ⟨N', rfl⟩ : ∃ N', s = (g.sub (cls g a)).withNi N' := by
      unfold Graph.repeated at hs
      split at hs
      · simp only [Option.some.injEq] at hs
        exact ⟨_, hs.symm⟩
      · simp at hs
    obtain ⟨f, hf⟩ := component_some hr'
    obtain ⟨t, thr, o⟩ := r'
    dsimp only at hf
    subst hf
    have hstrong := cls_strong (g := g) a
    obtain ⟨st, h1, h2⟩ := C120_printed ((h.sub (cls g a)).withNi N') (fun i => by
      rcases Relation.ReflTransGen.cases_tail (hstrong ((g.sub (cls g a)).tgt ⟨0, hpos⟩) i) with h | ⟨b, -, e, -, h⟩
      · exact ⟨⟨0, hpos⟩, h.symm⟩
      · exact ⟨e, h⟩) (hT.sub _ _) (fun i d hd => hi _ d hd) hr'
    have hK := cls_nodup (g := g) a
    refine ⟨spread st, ?_, ?_, ?_, ?_⟩
    · intro e hes het k hk
      obtain ⟨e', rfl⟩ := inner_get hes het
      have hS := sub_src g (cls g a) e'
      have hE := sub_tgt g (cls g a) e'
      have hS' : spread st (g.src (g.inner (cls g a))[e']) = st ((g.sub (cls g a)).src e') := by rw [← hS, spread_get hK]
      have hE' : spread st (g.tgt (g.inner (cls g a))[e']) = st ((g.sub (cls g a)).tgt e') := by rw [← hE, spread_get hK]
      rw [hE'] at hk ⊢
      obtain ⟨d, d1, d2, d3⟩ := h1.tokens e' k hk
      refine ⟨d, by rw [hS']; exact d1, fun j hj => ?_, d3⟩
      obtain ⟨arr, p1, p2⟩ := d2 j hj
      refine ⟨arr, ?_, p2⟩
      have : endOf g (spread st) (g.src (g.inner (cls g a))[e']) j =
          endOf ((g.sub (cls g a)).withNi N') st ((g.sub (cls g a)).src e') j := by
        unfold endOf
        rw [hS']
        rw [← hS]; rfl
      rw [this]
      exact p1
    · intro b hb k hk
      obtain ⟨i, hi', rfl⟩ := List.getElem_of_mem hb
      have := spread_get hK st ⟨i, hi'⟩
      simp only [Fin.getElem_fin] at this
      unfold endOf
      rw [this] at hk ⊢
      exact h1.noOverlap ⟨i, hi'⟩ k hk
    · have hpos' : 0 < (g.inner (cls g a)).length := hpos
      rw [if_pos hpos']
      show ((List.finRange (cls g a).length).map fun i => ((cls g a)[i], f i)).map Prod.fst = _
      rw [List.map_map]
      exact List.ext_getElem (by simp) (by simp)
    · intro p hp
      replace hp : p ∈ (List.finRange (cls g a).length).map fun i => ((cls g a)[i], f i) := hp
      rw [List.mem_map] at hp
      obtain ⟨i, -, rfl⟩ := hp
      dsimp only
      rw [spread_get hK]
      exact h2 i
  · rename_i hz
    rw [hin] at hz
    have h0 : (g.inner (cls g a)).length = 0 := by omega
    refine ⟨fun _ => [], ?_, fun b _ k hk => by simp at hk, ?_, ?_⟩
    · intro e hes het
      obtain ⟨e', -⟩ := inner_get hes het
      exact absurd e'.2 (by omega)
    all_goals
      rw [cls_single h0] at hr
      dsimp only at hr
      simp only [Option.bind_eq_bind, Option.bind_eq_some_iff] at hr
      obtain ⟨d, -, hr⟩ := hr
      split at hr
      · simp at hr
      simp only [Option.some.injEq] at hr
      subst hr
    · rw [if_neg (by omega)]; rfl
    · intro p hp; simp at hp

theorem scc_classes {id : Fin nV → Int} (hid : Function.Injective id) :
    ∃ cs, SCC.kosaraju (g.toSCC id) = some cs ∧ (∀ a, ∃ c ∈ cs, keep id c = cls g a) ∧ (∀ c ∈ cs, ∃ a, keep id c = cls g a) ∧
      cs.flatten.Nodup ∧ ∀ c ∈ cs, c ≠ [] := by
  have hsv : SCC.Valid (g.toSCC id) := by
    refine ⟨(List.nodup_finRange nV).map hid, fun e he => ?_⟩
    simp only [Graph.toSCC, List.mem_map, List.mem_finRange, true_and] at he ⊢
    obtain ⟨x, rfl⟩ := he
    exact ⟨⟨_, rfl⟩, ⟨_, rfl⟩⟩
  obtain ⟨cs, hcs, hperm, hne, hwhole⟩ := C43_exact _ hsv
  have hkeep : ∀ c ∈ cs, ∀ a, id a ∈ c → keep id c = cls g a := by
    intro c hc a ha
    unfold keep cls
    refine List.filter_congr fun b _ => ?_
    simp only [decide_eq_decide]
    rw [hwhole c hc (id a) ha (id b), reach_id hid, reach_id hid]
  refine ⟨cs, hcs, fun a => ?_, fun c hc => ?_, hperm.nodup_iff.2 hsv.1, hne⟩
  · have : id a ∈ cs.flatten := hperm.mem_iff.2 (by simp [Graph.toSCC])
    obtain ⟨c, hc, ha⟩ := List.mem_flatten.1 this
    exact ⟨c, hc, hkeep c hc a ha⟩
  · obtain ⟨x, hx⟩ := List.exists_mem_of_ne_nil c (hne c hc)
    have : x ∈ (g.toSCC id).ids := hperm.mem_iff.1 (List.mem_flatten.2 ⟨c, hc, hx⟩)
    simp only [Graph.toSCC, List.mem_map, List.mem_finRange, true_and] at this
    obtain ⟨a, rfl⟩ := this
    exact ⟨a, hkeep c hc a hx⟩

/-- **C120, the command**: whatever the graph, the schedule printed has one entry for each task that is on a circuit and none for the others, and the starts listed are
the first ones of executions in which every channel inside a strongly connected component respects the network and the executions of a task do not overlap. -/
theorem _root_.Kiter.C120_command (h : Sim.OK g) (hT : T.OK) (hi : ∀ a, ∀ d ∈ g.dur a, ∃ n : ℕ, d = n) {id : Fin nV → Int}
    (hid : Function.Injective id) (hone : nV = 1 → 0 < nE) {n : ℕ} {thr : ℚ} {es : List (Fin nV × Chart.Entry)}
    (hc : command T g id n = some (thr, es)) :
    (es.map Prod.fst).Nodup ∧
    (∀ a, a ∈ es.map Prod.fst ↔ Relation.TransGen (fun a b => ∃ e, g.src e = a ∧ g.tgt e = b) a a) ∧
    ∃ starts : Fin nV → List ℚ, RespectsInside g T starts ∧ ∀ p ∈ es, p.2.init ++ p.2.starts <+: starts p.1 := by
  unfold command at hc
  simp only [Option.bind_eq_bind, Option.bind_eq_some_iff] at hc
  obtain ⟨g', hg', cs, hcs, hc⟩ := hc
  obtain ⟨N, rfl⟩ : ∃ N, g' = g.withNi N := by
    unfold Graph.repeated at hg'
    split at hg'
    · simp only [Option.some.injEq] at hg'
      exact ⟨_, hg'.symm⟩
    · simp at hg'
  obtain ⟨cs', hcs', hall, hex, hnd, hne⟩ := scc_classes (g := g) hid
  obtain rfl : cs' = cs := Option.some.inj (hcs'.symm.trans hcs)
  -- tasks on a circuit
  have hcirc : ∀ a, 0 < (g.inner (cls g a)).length ↔ Relation.TransGen (Arc g) a a := by
    intro a
    constructor
    · intro hpos
      obtain ⟨e, he⟩ := List.exists_mem_of_length_pos hpos
      obtain ⟨h1, h2⟩ := Sim.mem_inner.1 he
      exact (Relation.TransGen.tail' (mem_cls.1 h1).1 ⟨e, rfl, rfl⟩).trans_left (mem_cls.1 h2).2
    · intro hT
      obtain ⟨b, ⟨e, h1, h2⟩, hb⟩ := Relation.TransGen.head'_iff.1 hT
      refine List.length_pos_of_mem (a := e) (Sim.mem_inner.2 ⟨?_, ?_⟩)
      · rw [h1]; exact self_mem_cls a
      · rw [h2]; exact mem_cls.2 ⟨.single ⟨e, h1, h2⟩, hb⟩
  split at hc
  · simp only [Option.bind_eq_some_iff, Option.some.injEq, Prod.mk.injEq] at hc
    obtain ⟨rs, hrs, -, hes⟩ := hc
    obtain ⟨hlen, hget⟩ := Sim.mapM_get hrs
    have hK : ∀ K, (∃ c ∈ cs', keep id c = K) → ∃ r st, componentResult T (g.withNi N) n K = some r ∧ Part g T K r.2 st := by
      rintro K ⟨c, hc, rfl⟩
      obtain ⟨i, hi', rfl⟩ := List.getElem_of_mem hc
      have hi2 : i < rs.length := by omega
      have hr := hget i cs'[i] rs[i] (by simp) (by simp)
      obtain ⟨a, ha⟩ := hex _ hc
      obtain ⟨st, hst⟩ := part_of_component h hT hi a (ha ▸ hr)
      exact ⟨rs[i], st, hr, ha ▸ hst⟩
    choose! r st hr hP using hK
    have hrs' : rs = cs'.map fun c => r (keep id c) := by
      refine List.ext_getElem (by simp [hlen]) fun i h1 h2 => ?_
      have h3 : i < cs'.length := by simpa using h2
      have e1 := hget i cs'[i] rs[i] (by simp) (by simp)
      have e2 := hr (keep id cs'[i]) ⟨cs'[i], List.getElem_mem _, rfl⟩
      rw [e1] at e2
      simpa using e2
    have hfst : es.map Prod.fst = (cs'.map fun c => if 0 < (g.inner (keep id c)).length then keep id c else []).flatten := by
      rw [← hes, hrs', List.map_flatten, List.map_map, List.map_map]
      congr 1
      refine List.map_congr_left fun c hc => ?_
      exact (hP _ ⟨c, hc, rfl⟩).names
    have hmem : ∀ a b, b ∈ cls g a → cls g b = cls g a := fun a b => cls_eq
    refine ⟨?_, fun a => ?_, fun a => st (cls g a) a, ⟨fun e hb => ?_, fun a => ?_⟩, fun p hp => ?_⟩
    · rw [hfst, List.nodup_flatten]
      refine ⟨fun l hl => ?_, ?_⟩
      · obtain ⟨c, hc, rfl⟩ := List.mem_map.1 hl
        split
        · unfold keep; exact (List.nodup_finRange nV).filter _
        · simp
      · rw [List.pairwise_map]
        refine (List.nodup_flatten.1 hnd).2.imp ?_
        intro c c' hcc x hx hx'
        have k : ∀ d : List Int, x ∈ (if 0 < (g.inner (keep id d)).length then keep id d else []) → id x ∈ d := by
          intro d hd
          split at hd
          · unfold keep at hd; simpa using hd
          · simp at hd
        exact hcc (k _ hx) (k _ hx')
    · rw [hfst]
      simp only [List.mem_flatten, List.mem_map]
      constructor
      · rintro ⟨l, ⟨c, hc, rfl⟩, ha⟩
        split at ha
        · rename_i hp
          obtain ⟨b, hb⟩ := hex c hc
          rw [hb] at ha hp
          rw [← cls_eq ha] at hp
          exact (hcirc a).1 hp
        · simp at ha
      · intro ha
        obtain ⟨c, hc, he⟩ := hall a
        refine ⟨_, ⟨c, hc, rfl⟩, ?_⟩
        rw [he, if_pos ((hcirc a).2 ha)]
        exact self_mem_cls a
    · have h1 : g.src e ∈ cls g (g.tgt e) := mem_cls.2 ⟨hb, .single ⟨e, rfl, rfl⟩⟩
      have := (hP _ (hall (g.tgt e))).tokens e h1 (self_mem_cls _)
      simpa only [endOf, cls_eq h1] using this
    · have := (hP _ (hall a)).noOverlap a (self_mem_cls a)
      simpa only [endOf] using this
    · rw [← hes, hrs'] at hp
      simp only [List.mem_flatten, List.mem_map] at hp
      obtain ⟨l, ⟨q, ⟨c, hc, rfl⟩, rfl⟩, hp⟩ := hp
      have hPc := hP _ ⟨c, hc, rfl⟩
      have h1 : p.1 ∈ keep id c := by
        have : p.1 ∈ (r (keep id c)).2.map Prod.fst := List.mem_map_of_mem hp
        rw [hPc.names] at this
        split at this
        · exact this
        · simp at this
      obtain ⟨b, hb⟩ := hex c hc
      have h2 : cls g p.1 = keep id c := by rw [hb] at h1 ⊢; exact cls_eq h1
      show _ <+: st (cls g p.1) p.1
      rw [h2]
      exact hPc.pre p hp
  · rename_i hle
    simp only [Option.bind_eq_some_iff, Option.some.injEq, Prod.mk.injEq] at hc
    obtain ⟨r, hr, -, hes⟩ := hc
    obtain ⟨f, hf⟩ := component_some hr
    rw [hf] at hes
    dsimp only at hes
    have hstrong : ∀ a b, Relation.ReflTransGen (Arc g) a b := by
      intro a b
      obtain ⟨c, hc, h1⟩ := hall a
      obtain ⟨c', hc', h2⟩ := hall b
      obtain ⟨i, hi1, rfl⟩ := List.getElem_of_mem hc
      obtain ⟨j, hj1, rfl⟩ := List.getElem_of_mem hc'
      obtain rfl : i = j := by omega
      have : b ∈ cls g a := by rw [← h1, h2]; exact self_mem_cls b
      exact (mem_cls.1 this).1
    have hE : 0 < nE := by
      by_cases h1 : nV = 1
      · exact hone h1
      · have hv : 0 < nV := Nat.lt_of_le_of_lt (Nat.zero_le _) r.1.2
        rcases Relation.ReflTransGen.cases_tail (hstrong ⟨0, by omega⟩ ⟨1, by omega⟩) with h2 | ⟨b, -, e, -⟩
        · simp at h2
        · exact Nat.lt_of_le_of_lt (Nat.zero_le _) e.2
    have hin : ∀ a, ∃ e, g.tgt e = a := by
      intro a
      rcases Relation.ReflTransGen.cases_tail (hstrong (g.tgt ⟨0, hE⟩) a) with h | ⟨b, -, e, -, h⟩
      · exact ⟨⟨0, hE⟩, h.symm⟩
      · exact ⟨e, h⟩
    have hfst : es.map Prod.fst = List.finRange nV := by
      rw [← hes, List.map_map]; exact List.map_id' _
    obtain ⟨st, h1, h2⟩ := C120_printed (h.withNi N) hin hT hi (a := r.1) (thr := r.2.1) (es := f) (by rw [← hf]; exact hr)
    refine ⟨hfst ▸ List.nodup_finRange nV, fun a => ?_, st, ⟨fun e _ => h1.tokens e, h1.noOverlap⟩, fun p hp => ?_⟩
    · rw [hfst]
      refine ⟨fun _ => ?_, fun _ => List.mem_finRange a⟩
      obtain ⟨e, he⟩ := hin a
      exact Relation.TransGen.tail' (hstrong a (g.src e)) ⟨e, rfl, he⟩
    · rw [← hes] at hp
      obtain ⟨i, -, rfl⟩ := List.mem_map.1 hp
      exact h2 i

/-! ### Tasks fed from another component -/

/-- Two tasks with a channel to themselves; the first, which takes 5 time units, feeds the second over one link, in a frame of one slot. -/
def chainTable : Table 3 := ⟨![true, false, true], ![-1, 0, -1], ![0, 1, 0], 1⟩

theorem chain_result : command chainTable AsapExample.two (fun v => v) 20 = some (1 / 5, [(0, ⟨[], 10, [0, 5]⟩), (1, ⟨[], 2, [0, 1]⟩)]) := by
  decide +kernel

theorem two_ok : Sim.OK AsapExample.two := by constructor <;> decide +kernel

/-- **C120, tasks fed from another component**: channels between components are ignored. The second task takes what the first produces after 5 time units; it is
printed with a start at date 0, which no execution that respects the network has. -/
theorem _root_.Kiter.C120_components_counterexample :
    Sim.OK AsapExample.two ∧ chainTable.OK ∧ ∃ n thr es, command chainTable AsapExample.two (fun v => v) n = some (thr, es) ∧
      ¬ ∃ starts : Fin 2 → List ℚ, Respects AsapExample.two chainTable starts ∧ ∀ p ∈ es, p.2.init ++ p.2.starts <+: starts p.1 := by
  refine ⟨two_ok, ⟨by decide, fun e he => ?_⟩, 20, _, _, chain_result, ?_⟩
  · revert e; decide
  rintro ⟨starts, hR, hp⟩
  have h0 := hp (0, ⟨[], 10, [0, 5]⟩) (by simp)
  have h1 := hp (1, ⟨[], 2, [0, 1]⟩) (by simp)
  simp only [List.nil_append] at h0 h1
  obtain ⟨l0, h0⟩ := h0
  obtain ⟨l1, h1⟩ := h1
  have hl : 0 < (starts (AsapExample.two.tgt 1)).length := by
    show 0 < (starts 1).length
    rw [← h1]; simp
  obtain ⟨d, -, h2, h3⟩ := hR.tokens 1 0 hl
  rcases Nat.eq_zero_or_pos d with rfl | hd
  · exact absurd h3 (by decide +kernel)
  · obtain ⟨arr, h4, h5⟩ := h2 0 hd
    have he : endOf AsapExample.two starts (AsapExample.two.src 1) 0 = 5 := by
      show (starts 0).getD 0 0 + AsapExample.two.execDur 0 0 = 5
      rw [← h0]
      have : AsapExample.two.execDur 0 0 = 5 := by decide +kernel
      rw [this]; simp
    have hs : (starts (AsapExample.two.tgt 1)).getD 0 0 = 0 := by
      show (starts 1).getD 0 0 = 0
      rw [← h1]; rfl
    rw [hs] at h5
    rw [he] at h4
    rcases h4 with ⟨h, -⟩ | ⟨-, d, hd, rfl⟩
    · exact absurd h (by decide)
    · have := hd.1.1
      have hh : chainTable.hops 1 = 1 := rfl
      rw [hh] at h5
      push_cast at h5
      linarith

/-- The hypotheses of `C120_command` hold for the two tasks; both have an entry. -/
example : ∃ n thr es, command chainTable AsapExample.two (fun v => v) n = some (thr, es) ∧ es.map Prod.fst = [0, 1] ∧ Sim.OK AsapExample.two ∧
    chainTable.OK ∧ ∀ a, ∀ d ∈ AsapExample.two.dur a, ∃ n : ℕ, d = n := by
  refine ⟨20, _, _, chain_result, rfl, two_ok, ⟨by decide, fun e he => ?_⟩, fun a d hd => ?_⟩
  · revert e; decide
  · fin_cases a
    · exact ⟨5, by simpa [AsapExample.two] using hd⟩
    · exact ⟨1, by simpa [AsapExample.two] using hd⟩

end Kiter.So4
