/-
C68: the self-timed execution always stops, and decides the throughput.
-/
import Verif.Lemmas.SelfTimedHalt
import Verif.Props.EnginesAgree
import Mathlib.Data.Set.Finite.Basic

set_option autoImplicit false

namespace Kiter
open Kiter.Sim Finset

variable {nV nE : Nat} {g : Graph nV nE} {cap : Option (Fin nE → Int)}

theorem Sim.findState_none {l : List (St nV nE)} {s : St nV nE} (h : findState l s = none) : ∀ v ∈ l, ¬ same v s := by
  induction l with
  | nil => simp
  | cons v l ih =>
    unfold findState at h
    split at h
    · simp at h
    · rename_i hs
      rw [Option.map_eq_none_iff] at h
      intro w hw
      rcases List.mem_cons.1 hw with rfl | hw
      · exact hs
      · exact ih h w hw

theorem Sim.Equiv.symm' {c : Cfg nV nE} {m m' : Machine nV nE} (h : Equiv c m m') : Equiv c m' m :=
  ⟨h.pc.symm, h.st.symm, h.count.symm, fun a => (h.exec a).symm, fun a => (h.num a).symm⟩

theorem Sim.Equiv.trans' {c : Cfg nV nE} {m m' m'' : Machine nV nE} (h : Equiv c m m') (h' : Equiv c m' m'') : Equiv c m m'' :=
  ⟨h.pc.trans h'.pc, h.st.trans h'.st, h.count.trans h'.count, fun a => (h.exec a).trans (h'.exec a),
    fun a => (h.num a).trans (h'.num a)⟩

/-- The machine as if it had just been recorded: no elapsed time. -/
def Sim.fresh (m : Machine nV nE) : Machine nV nE :=
  { m with st := { m.st with elapsed := 0 }, clock := m.clock - m.st.elapsed }

theorem Sim.fresh_step {c : Cfg nV nE} (hd : c.detect = false) {m : Machine nV nE} (hr : Recording c m) :
    Equiv c (step c m) (step c (fresh m)) := by
  obtain ⟨rest, hpc⟩ := hr.pc
  have hr2 : readyToEnd (fresh m).st c.minActor = true := hr.ends
  have hc2 : (fresh m).count + 1 = c.g.ni c.minActor := hr.count
  have e1 : step c m = endOne c { m with visited := m.visited ++ [m.st], st := { m.st with elapsed := 0 }, count := 0 } c.minActor := by
    unfold step; rw [hpc]; simp only [hr.ends, hr.count, hd, if_true, Bool.false_eq_true, if_false]
  have e2 : step c (fresh m) = endOne c { fresh m with visited := (fresh m).visited ++ [(fresh m).st], st := { (fresh m).st with elapsed := 0 }, count := 0 }
      c.minActor := by
    unfold step; rw [show (fresh m).pc = .ends (c.minActor :: rest) from hpc]
    simp only [hr2, hc2, hd, if_true, Bool.false_eq_true, if_false]
    rw [show (fresh m).pc = .ends (c.minActor :: rest) from hpc]
  rw [e1, e2]
  apply endOne_equiv
  exact ⟨rfl, rfl, rfl, fun _ => rfl, fun _ => rfl⟩

theorem Sim.exists_recording (h : OK g) (hg : Guarded g cap) (hb : Balanced g)
    (hcap : ∀ w, cap = some w → ∀ e, g.preload e ≤ w e) (hstrong : ∀ a b, Relation.ReflTransGen (Follows g cap) a b)
    {c : Cfg nV nE} {m : Machine nV nE} (hs : start g cap false = some (c, m)) (hnd : ∀ n, (run c m n).pc ≠ .deadlock) (k : ℕ) :
    ∃ n, Recording c (run c m n) ∧ (run c m n).visited.length = k ∧
      (run c m (n + 1)).visited = (run c m n).visited ++ [(run c m n).st] := by
  obtain ⟨h1, -, h3, -, -, h6, -, h8, -⟩ := start_spec hs
  have hni : ∀ a, (0 : ℚ) < g.ni a := fun a => by exact_mod_cast hb.ni a
  choose D hD using fun b => ahead (cap := cap) h hb (hstrong c.minActor b)
  -- the reference actor executes without bound
  have hmin : ∃ n, (k + 1 : ℚ) * g.ni c.minActor ≤ (run c m n).completed c.minActor := by
    by_contra hcon
    push Not at hcon
    obtain ⟨n, hn⟩ := total_unbounded hg hs hnd (⌈∑ b, (g.ni b : ℚ) * (k + 1 + D b)⌉₊ + 1)
    have hr := run_reachable hs n
    have hi := inv_reachable h hr
    have hle : ∀ b, ((run c m n).completed b : ℚ) ≤ g.ni b * (k + 1 + D b) := by
      intro b
      have e1 := hD b _ hi (num_le h hg hr) (fun e hc => by
        obtain ⟨w, hw⟩ := Option.isSome_iff_exists.1 hc
        exact hi.spaceNonneg w hw (hcap w hw) e)
      have l1 := hi.len b
      have e2 : ((run c m n).completed b : ℚ) ≤ ((run c m n).acts b).numExecs := by
        simp only [Machine.core] at l1; exact_mod_cast (by omega)
      have e3 : ((run c m n).completed c.minActor : ℚ) / g.ni c.minActor ≤ k + 1 := by
        rw [div_le_iff₀ (hni _)]; exact (hcon n).le
      have e4 : (((run c m n).acts b).numExecs : ℚ) / g.ni b ≤ k + 1 + D b := by
        simp only [Machine.core] at e1; linarith
      rw [div_le_iff₀ (hni b)] at e4
      linarith
    have hsum : (total (run c m n) : ℚ) ≤ ∑ b, (g.ni b : ℚ) * (k + 1 + D b) := by
      unfold total
      rw [Nat.cast_sum]
      exact sum_le_sum fun b _ => hle b
    have h9 := hsum.trans (Nat.le_ceil _)
    have h10 : total (run c m n) ≤ ⌈∑ b, (g.ni b : ℚ) * (k + 1 + D b)⌉₊ := by exact_mod_cast h9
    omega
  obtain ⟨n, hn⟩ := hmin
  have hlen : k < (run c m n).visited.length := by
    obtain ⟨a1, a2, a3⟩ := (minv_run hs h hg (hb.ni _) n).acc (free_pc h3 (by simp [h6]) n)
    rw [h1] at a1 a3
    have hn' : ((k : ℤ) + 1) * g.ni c.minActor ≤ ((run c m n).completed c.minActor : ℤ) := by exact_mod_cast hn
    rw [a1] at hn'
    have hpos := hb.ni c.minActor
    by_contra hcon
    have : ((run c m n).visited.length : ℤ) ≤ k := by exact_mod_cast Nat.not_lt.1 hcon
    nlinarith
  obtain ⟨i, hi, hrec, hl, hst⟩ := record_origin c m h8 n k (List.getElem?_eq_getElem hlen)
  refine ⟨i, hrec, hl, ?_⟩
  obtain ⟨rest, hpc⟩ := hrec.pc
  show (step c (run c m i)).visited = _
  unfold step; rw [hpc]; simp only [hrec.ends, hrec.count, h3, if_true, Bool.false_eq_true, if_false, endOne]

/-- **C68** The program stops on every graph in which each actor can only run ahead of each other one by a bounded amount:
strongly connected graphs, and connected graphs with bounded buffers. -/
theorem C68_terminates (h : OK g) (hg : Guarded g cap) (hb : Balanced g)
    (hcap : ∀ w, cap = some w → ∀ e, g.preload e ≤ w e) (hstrong : ∀ a b, Relation.ReflTransGen (Follows g cap) a b)
    {c : Cfg nV nE} {m : Machine nV nE} (hs : start g cap true = some (c, m)) :
    ∃ n r, result (run c m n) = some r := by
  by_contra hcon
  push Not at hcon
  have hnr : ∀ n t, (run c m n).pc ≠ .recurrent t := fun n t ht => hcon n t (by unfold result; rw [ht])
  have hnd : ∀ n, (run c m n).pc ≠ .deadlock := fun n ht => hcon n (some 0) (by unfold result; rw [ht])
  have heq : ∀ n, run c.free m n = run c m n := fun n => run_free m n (hnr n)
  have hsf := start_free hs
  obtain ⟨h1, h2, h3, -⟩ := start_spec hs
  choose N hN1 hN2 hN3 using exists_recording h hg hb hcap hstrong hsf (fun n => by rw [heq]; exact hnd n)
  have hvmono : ∀ i j, i ≤ j → (run c.free m i).visited.length ≤ (run c.free m j).visited.length := by
    intro i j hij
    obtain ⟨l, hl⟩ := visited_prefix c.free m i (j - i)
    rw [show i + (j - i) = j by omega] at hl
    rw [hl, List.length_append]; omega
  have hNlt : ∀ k k', k < k' → N k < N k' := by
    intro k k' hk
    by_contra hc
    have := hvmono _ _ (Nat.not_lt.1 hc)
    rw [hN2, hN2] at this; omega
  -- two records with the same key
  obtain ⟨k, -, k', -, hne, hkey⟩ := Set.infinite_univ.exists_ne_map_eq_of_mapsTo
    (f := fun k : ℕ => key (run c.free m (N k)).st) (t := {k | ∃ n, k = key (run c.free m n).st})
    (fun k _ => ⟨N k, rfl⟩) (finite_keys h hg hb hcap hstrong hsf)
  wlog hlt : k < k' generalizing k k'
  · exact this k' k hne.symm hkey.symm (by omega)
  have hfg : c.free.g = g := h1
  have hfc : c.free.cap = cap := h2
  have hkey' : key (run c.free m (N k)).st = key (run c.free m (N k')).st := hkey
  simp only [key, Prod.mk.injEq] at hkey'
  obtain ⟨q1, q2, q3⟩ := hkey'
  have hfresh : Equiv c.free (fresh (run c.free m (N k))) (fresh (run c.free m (N k'))) := by
    have mk : ∀ n, MInv c.free (fresh (run c.free m n)) := by
      intro n
      have hm := minv_run hsf h hg (hb.ni _) n
      exact ⟨hm.endsSuffix, hm.startsSuffix, hm.startsDone, hm.advanceDone, hm.deadDone, hm.acc, by
        have := hm.clock
        simp only [fresh]; linarith⟩
    have inv : ∀ n, Inv c.free.g c.free.cap (fresh (run c.free m n)).core := by
      intro n
      have hi := inv_reachable h (run_reachable hsf n)
      rw [hfg, hfc]
      exact ⟨hi.len, hi.phs, hi.phase, hi.tok, hi.tokNonneg, hi.space, hi.spaceNonneg⟩
    have ginv : ∀ n, GInv (fresh (run c.free m n)).core := fun n => ⟨(ginv_reachable h hg (run_reachable hsf n)).one⟩
    have recf : ∀ k, Recording c.free (fresh (run c.free m (N k))) := fun k => ⟨(hN1 k).pc, (hN1 k).ends, (hN1 k).count⟩
    refine recording_equiv (by rw [hfg]; exact h) (inv _) (inv _) (ginv _) (ginv _) (mk _) (mk _) (recf k) (recf k') (fun hc => ?_)
      ⟨rfl, fun a => congrFun q2 a, fun e => congrFun q3 e, fun a => congrFun q1 a⟩
    rw [hfc] at hc
    have a := space_const hc (run_reachable hsf (N k))
    have b := space_const hc (run_reachable hsf (N k'))
    simp only [Machine.core] at a b
    simp only [fresh]
    rw [a, b]
  have hok : OK c.free.g := by rw [hfg]; exact h
  have hnext : Equiv c.free (run c.free m (N k + 1)) (run c.free m (N k' + 1)) :=
    ((fresh_step rfl (hN1 k)).trans' (step_equiv hok rfl hfresh).1).trans' (fresh_step rfl (hN1 k')).symm'
  -- the record that follows
  set d := N (k + 1) - (N k + 1) with hd
  have hd1 : N k + 1 + d = N (k + 1) := by have := hNlt k (k + 1) (by omega); omega
  have hlast := (run_equiv hok rfl m hnext d).1
  rw [hd1] at hlast
  set q := N k' + 1 + d with hq
  have hqlt : N (k + 1) < q := by have := hNlt k k' hlt; omega
  have hmem : (run c.free m (N (k + 1))).st ∈ (run c.free m q).visited := by
    obtain ⟨l, hl⟩ := visited_prefix c.free m (N (k + 1) + 1) (q - (N (k + 1) + 1))
    rw [show N (k + 1) + 1 + (q - (N (k + 1) + 1)) = q by omega, hN3] at hl
    rw [hl]; simp
  have hrecq : Recording c.free (run c.free m q) := by
    have hr := hN1 (k + 1)
    obtain ⟨rest, hpc⟩ := hr.pc
    exact ⟨⟨rest, by rw [← hlast.pc]; exact hpc⟩, by rw [← hlast.st]; exact hr.ends, by rw [← hlast.count]; exact hr.count⟩
  obtain ⟨rest, hpc⟩ := hrecq.pc
  have hr2 := hrecq.ends
  have hr3 := hrecq.count
  rw [heq] at hpc hr2 hr3 hmem
  have hst : (run c.free m (N (k + 1))).st = (run c m q).st := by rw [hlast.st, heq]
  rw [hst] at hmem
  cases hfs : findState (run c m q).visited (run c m q).st with
  | none => exact findState_none hfs _ hmem ⟨rfl, fun _ => rfl, fun _ => rfl, fun _ => rfl⟩
  | some i =>
    apply hnr (q + 1) (throughput (run c m q).visited i)
    show (step c (run c m q)).pc = _
    have hmin : c.free.minActor = c.minActor := rfl
    have hgg : c.free.g = c.g := rfl
    rw [hmin] at hpc hr2
    rw [hmin, hgg] at hr3
    unfold step; rw [hpc]; simp only [hr2, hr3, h3, if_true, hfs]

/-- At a recurrent state some time has passed since the equal state, if the executions of the reference actor take time: the
division of `computeThroughput` is defined. -/
theorem C68_time_passes (h : OK g) (hg : Guarded g cap) {c : Cfg nV nE} {m : Machine nV nE}
    (hs : start g cap true = some (c, m)) (hni : 0 < g.ni c.minActor) (hpos : ∀ d ∈ g.dur c.minActor, 0 < d) (n : ℕ) :
    (run c m n).pc ≠ .recurrent none := by
  intro hres
  obtain ⟨h1, h2, -, -, h5, h6, -, h8, -⟩ := start_spec hs
  obtain ⟨j, hj, hnr, hstep⟩ := recurrent_first (by simp [h6]) n hres
  obtain ⟨-, hrec, i, hfind, hthr⟩ := step_recurrent hnr hstep
  obtain ⟨v, hv, hsame⟩ := findState_spec hfind
  obtain ⟨k, hk, hrk, hlen, hst⟩ := record_origin c m h8 j i hv
  have mk := minv_run hs h hg hni k
  have mj := minv_run hs h hg hni j
  have hnrk : ∀ t, (run c m k).pc ≠ .recurrent t := by
    intro t ht
    obtain ⟨rest, hp⟩ := hrk.pc
    rw [hp] at ht; simp at ht
  -- the running execution of the reference actor started after the first record
  obtain ⟨y, rest, hq, hy⟩ := readyToEnd_cons hrec.ends
  have hone : (run c m j).st.queue c.minActor = [y] := by
    rcases (ginv_reachable h hg (run_reachable hs j)).one c.minActor with ⟨-, h0⟩ | ⟨-, w, h0, -⟩
    · simp only [Machine.core] at h0; rw [hq] at h0; simp at h0
    · simp only [Machine.core] at h0; rw [hq] at h0 ⊢
      obtain ⟨rfl, rfl⟩ := List.cons.inj h0; rfl
  obtain ⟨i', t, a1, a2, a3, a4⟩ := (timed_run h hg hs j).running c.minActor y hone
  have hd := hpos _ (execDur_mem h c.minActor (((run c m j).acts c.minActor).numExecs - 1))
  have hlj := (inv_reachable h (run_reachable hs j)).len c.minActor
  have hnk := num_le h hg (run_reachable hs k) c.minActor
  simp only [Machine.core] at hlj hnk
  rw [hone] at hlj
  simp only [List.length_cons, List.length_nil] at hlj
  have hvl := (List.getElem?_eq_some_iff.1 hv).1
  obtain ⟨b1, b2, b3⟩ := mk.acc hnrk
  obtain ⟨b4, b5, b6⟩ := mj.acc hnr
  have c1 := hrk.count
  have c2 := hrec.count
  have hcompl : (run c m k).completed c.minActor + 1 ≤ (run c m j).completed c.minActor := by
    rw [h1] at b1 b4
    have hle : ((run c m k).visited.length : ℤ) + 1 ≤ (run c m j).visited.length := by exact_mod_cast (by omega)
    have := hni
    have : ((run c m k).completed c.minActor : ℤ) + 1 ≤ (run c m j).completed c.minActor := by
      rw [b1, b4]
      have : (run c m k).count = (run c m j).count := by omega
      rw [this]; nlinarith
    exact_mod_cast this
  have hki : k ≤ i' := by
    by_contra hcon
    have e1 := numExecs_mono c m c.minActor (show i' + 1 ≤ k by omega)
    rw [a3.2.1] at e1
    omega
  have hclock := clock_mono h hg hs hki
  rw [a3.2.2] at hclock
  have hlt : (run c m k).clock < (run c m j).clock := by rw [hy] at a4; linarith
  -- but the recorded times say otherwise
  obtain ⟨l, hl⟩ := visited_prefix c m k (j - k)
  rw [show k + (j - k) = j by omega] at hl
  have ck := mk.clock
  have cj := mj.clock
  have hel : (run c m k).st.elapsed = (run c m j).st.elapsed := by rw [hst]; exact hsame.1
  have hdrop : (run c m j).visited.drop i = l := by rw [hl, ← hlen]; simp
  have hT : (run c m j).clock - (run c m k).clock = (l.map fun s => s.elapsed).sum := by
    rw [ck, cj, hl, List.map_append, List.sum_append, hel]; ring
  unfold throughput at hthr
  rw [hdrop] at hthr
  simp only at hthr
  split at hthr
  · rename_i h0; rw [h0] at hT; linarith
  · simp at hthr

/-- **C68** On a strongly connected graph, or a connected one with bounded buffers, with positive durations, the program returns
a throughput, and it is the right one: either positive, and its inverse is the smallest period that any valid schedule
sustains, or zero, and the graph has no valid schedule. -/
theorem C68_decides (h : OK g) (hg : Guarded g cap) (hb : Balanced g) (hpos : ∀ a, ∀ d ∈ g.dur a, 0 < d)
    (hcap : ∀ w, cap = some w → ∀ e, g.preload e ≤ w e) (hstrong : ∀ a b, Relation.ReflTransGen (Follows g cap) a b)
    {c : Cfg nV nE} {m : Machine nV nE} (hs : start g cap true = some (c, m)) :
    ∃ n thr, result (run c m n) = some (some thr) ∧
      (0 < thr ∧ IsLeast {Ω | ∃ σ, Valid g cap σ ∧ Sustained g σ Ω} (1 / thr) ∨ thr = 0 ∧ ¬ ∃ σ, Valid g cap σ) := by
  obtain ⟨n, r, hr⟩ := C68_terminates h hg hb hcap hstrong hs
  have hset : {Ω | ∃ σ, Valid g cap σ ∧ Sustained g σ Ω} = Sustainable g cap := by
    ext Ω
    exact ⟨fun ⟨σ, h1, h2⟩ => ⟨σ, h1, h1.causal h hpos, h2⟩, fun ⟨σ, h1, _, h2⟩ => ⟨σ, h1, h2⟩⟩
  unfold result at hr
  split at hr
  · rename_i hpc
    refine ⟨n, 0, by unfold result; rw [hpc], .inr ⟨rfl, fun ⟨σ, hσ⟩ => ?_⟩⟩
    exact C67_deadlock h hg hs (hb.ni _) hpc ⟨σ, hσ, hσ.causal h hpos⟩
  · rename_i t hpc
    cases t with
    | none => exact absurd hpc (C68_time_passes h hg hs (hb.ni _) (hpos _) n)
    | some thr =>
      refine ⟨n, thr, by unfold result; rw [hpc], .inl ?_⟩
      rw [hset]
      exact C67_optimal h hg hb hcap hs hpc
  · simp at hr

/-! ### Non-vacuity -/

theorem Sim.exGraph_strong (cap : Option (Fin 2 → Int)) (a b : Fin 2) : Relation.ReflTransGen (Follows exGraph cap) a b := by
  have h01 : Follows exGraph cap 0 1 := ⟨0, .inl ⟨rfl, rfl⟩⟩
  have h10 : Follows exGraph cap 1 0 := ⟨1, .inl ⟨rfl, rfl⟩⟩
  rcases Fin.exists_fin_two.1 ⟨a, rfl⟩ with rfl | rfl <;> rcases Fin.exists_fin_two.1 ⟨b, rfl⟩ with rfl | rfl
  · exact .refl
  · exact .single h01
  · exact .single h10
  · exact .refl

/-- The hypotheses of `C68_decides` hold for the example, without and with bounded buffers. -/
example : OK exGraph ∧ (∀ cap, Guarded exGraph cap) ∧ Balanced exGraph ∧ (∀ a, ∀ d ∈ exGraph.dur a, 0 < d) ∧
    (∀ w, some (![2, 3] : Fin 2 → Int) = some w → ∀ e, exGraph.preload e ≤ w e) ∧
    (∀ cap a b, Relation.ReflTransGen (Follows exGraph cap) a b) ∧ (start exGraph none true).isSome = true ∧
    (start exGraph (some ![2, 3]) true).isSome = true :=
  ⟨exGraph_ok, exGraph_guarded, exGraph_balanced, by decide +kernel, by
    intro w hw; obtain rfl := Option.some.inj hw; decide +kernel, exGraph_strong, rfl, rfl⟩

/-- A graph that is not strongly connected: a fast task (duration 1, one token on its own loop) writes to a slow one
(duration 2). The hypothesis of `C68_terminates` fails; `compute_asap_throughput` splits such a graph first. -/
def Sim.chainGraph : Graph 2 3 :=
  ⟨![0, 0, 1], ![0, 1, 1], ![[1], [1], [1]], ![[1], [1], [1]], ![1, 0, 1], ![1, 1], ![[1], [2]], ![1, 1]⟩

example : OK chainGraph ∧ Guarded chainGraph none ∧ ¬ ∃ a b, Follows chainGraph none a b ∧ a = 1 ∧ b = 0 := by
  refine ⟨by constructor <;> decide +kernel, fun a => ?_, ?_⟩
  · rcases Fin.exists_fin_two.1 ⟨a, rfl⟩ with rfl | rfl
    · exact ⟨0, .inl rfl⟩
    · exact ⟨1, .inl rfl⟩
  · rintro ⟨a, b, ⟨e, h1 | h1⟩, rfl, rfl⟩
    · revert e; decide +kernel
    · simp at h1

end Kiter
