/-
C106: the generated LTE graphs are consistent and live, and their throughput is that of the slowest kind of task.
-/
import Verif.Props.Components
import Verif.Props.Repetition
import Verif.Props.RandomLive
import Verif.Model.LTE

set_option autoImplicit false

namespace Kiter
open LTE

theorem lte_edges_mem {ls : List Layer} : ∀ {n : ℕ} {e : ℕ × ℕ × Int}, e ∈ edges n ls →
    n ≤ e.1 ∧ e.1 < e.2.1 ∧ e.2.1 < n + (ls.map Layer.width).sum ∧ ∃ L ∈ ls, e.2.2 = L.pkts := by
  induction ls with
  | nil => intro n e h; simp [edges] at h
  | cons L ls ih =>
    cases ls with
    | nil => intro n e h; simp [edges] at h
    | cons L' ls =>
      intro n e h
      rw [edges] at h
      rcases List.mem_append.mp h with h | h
      · obtain ⟨j, hj, h⟩ := List.mem_flatMap.mp h
        obtain ⟨k, hk, rfl⟩ := List.mem_map.mp h
        rw [List.mem_range] at hj hk
        simp only [List.map_cons, List.sum_cons]
        exact ⟨by omega, by omega, by omega, L, by simp, rfl⟩
      · obtain ⟨h1, h2, h3, M, hM, h4⟩ := ih h
        simp only [List.map_cons, List.sum_cons] at h3 ⊢
        exact ⟨by omega, h2, by omega, M, List.mem_cons_of_mem _ hM, h4⟩

theorem lte_vertices_length (ls : List Layer) : (vertices ls).length = (ls.map Layer.width).sum := by
  unfold vertices
  rw [List.length_flatMap]
  simp

/-- The repetition vector: every task once. -/
theorem lte_compute {n : ℕ} (hn : 0 < n) {es : List (ℕ × ℕ × Int)} (hb : ∀ e ∈ es, e.1 < n ∧ e.2.1 < n) (hp : ∀ e ∈ es, 0 < e.2.2)
    (hcon : ∀ a b : ℕ, a < n → b < n → Relation.ReflTransGen (fun a b => ∃ p, (a, b, p) ∈ es ∨ (b, a, p) ∈ es) a b) :
    ∃ g, repOf n es = some g ∧ Rep.compute g = some (some fun _ => 1) := by
  have hb' : ∀ i : Fin es.length, es[i].1 < n ∧ es[i].2.1 < n := fun i => hb _ (List.getElem_mem _)
  unfold repOf
  rw [dif_pos hb']
  refine ⟨_, rfl, ?_⟩
  set g : Rep.Graph n es.length := ⟨fun i => ⟨es[i].1, (hb' i).1⟩, fun i => ⟨es[i].2.1, (hb' i).2⟩, fun i => [es[i].2.2], fun i => [es[i].2.2], fun _ => 1⟩ with hg
  have hp' : ∀ i : Fin es.length, 0 < es[i].2.2 := fun i => hp _ (List.getElem_mem _)
  have hok : Rep.OK g := by
    refine ⟨hn, fun _ => Nat.one_pos, fun _ => rfl, fun _ => rfl, fun e r hr => ?_, fun e r hr => ?_⟩
    · simp only [hg, List.mem_singleton] at hr; rw [hr]; exact (hp' e).le
    · simp only [hg, List.mem_singleton] at hr; rw [hr]; exact (hp' e).le
  have hat : Rep.Attached g := fun v => Or.inl rfl
  have hbal : Rep.Balanced g fun _ => 1 := fun e => rfl
  obtain ⟨N, hN⟩ := (C14_consistent_iff hok).2.mpr ⟨fun e => ⟨by simpa [hg] using hp' e, by simpa [hg] using hp' e⟩, fun _ => 1, fun _ => one_pos, hbal⟩
  obtain ⟨q, hq0, hq, -⟩ := C12_cycles_partial hok hat hN
  have hadj : ∀ a b : Fin n, Relation.ReflTransGen (Rep.Adj g) a b := by
    intro a b
    have : ∀ x y : ℕ, Relation.ReflTransGen (fun a b => ∃ p, (a, b, p) ∈ es ∨ (b, a, p) ∈ es) x y → ∀ (hx : x < n),
        ∃ hy : y < n, Relation.ReflTransGen (Rep.Adj g) ⟨x, hx⟩ ⟨y, hy⟩ := by
      intro x y h hx
      induction h with
      | refl => exact ⟨hx, .refl⟩
      | tail _ h ih =>
        obtain ⟨hy, ih⟩ := ih
        obtain ⟨p, h | h⟩ := h
        · obtain ⟨i, hi, e⟩ := List.getElem_of_mem h
          exact ⟨(hb _ h).2, ih.tail ⟨⟨i, hi⟩, Or.inl ⟨by simp [hg, e], by simp [hg, e]⟩⟩⟩
        · obtain ⟨i, hi, e⟩ := List.getElem_of_mem h
          exact ⟨(hb _ h).1, ih.tail ⟨⟨i, hi⟩, Or.inr ⟨by simp [hg, e], by simp [hg, e]⟩⟩⟩
    exact (this a b (hcon a b a.2 b.2) a.2).2
  obtain ⟨k, hk, h⟩ := (C13_minimal_partial hok hat hN hq).2 hadj (fun _ => 1) (fun _ => one_pos) hbal
  rw [hN]
  congr 2
  funext v
  rw [hq v]
  have h1 := h v
  have h2 : q v = 1 := by
    rcases Int.eq_one_or_neg_one_of_mul_eq_one' h1.symm with ⟨-, h⟩ | ⟨h, -⟩
    · exact h
    · omega
  rw [h2]; rfl

/-- All vertices hang together when the two middle layers are not empty. -/
theorem lte_connected {L0 L1 L2 L3 : Layer} (h1 : 0 < L1.width) (h2 : 0 < L2.width) {a b : ℕ}
    (ha : a < ([L0, L1, L2, L3].map Layer.width).sum) (hb : b < ([L0, L1, L2, L3].map Layer.width).sum) :
    Relation.ReflTransGen (fun a b => ∃ p, (a, b, p) ∈ edges 0 [L0, L1, L2, L3] ∨ (b, a, p) ∈ edges 0 [L0, L1, L2, L3]) a b := by
  set R : ℕ → ℕ → Prop := fun a b => ∃ p, (a, b, p) ∈ edges 0 [L0, L1, L2, L3] ∨ (b, a, p) ∈ edges 0 [L0, L1, L2, L3] with hR
  have hsymm : ∀ {a b}, R a b → R b a := fun ⟨p, h⟩ => ⟨p, h.symm⟩
  have e01 : ∀ j k, j < L0.width → k < L1.width → R j (L0.width + k) := fun j k hj hk => ⟨L0.pkts, Or.inl (by
    simp only [edges, List.mem_append, List.mem_flatMap, List.mem_map, List.mem_range]
    exact Or.inl ⟨j, hj, k, hk, by simp⟩)⟩
  have e12 : ∀ j k, j < L1.width → k < L2.width → R (L0.width + j) (L0.width + L1.width + k) := fun j k hj hk => ⟨L1.pkts, Or.inl (by
    simp only [edges, List.mem_append, List.mem_flatMap, List.mem_map, List.mem_range]
    exact Or.inr (Or.inl ⟨j, hj, k, hk, by simp⟩))⟩
  have e23 : ∀ j k, j < L2.width → k < L3.width → R (L0.width + L1.width + j) (L0.width + L1.width + L2.width + k) := fun j k hj hk => ⟨L2.pkts, Or.inl (by
    simp only [edges, List.mem_append, List.mem_flatMap, List.mem_map, List.mem_range]
    exact Or.inr (Or.inr (Or.inl ⟨j, hj, k, hk, by simp⟩)))⟩
  -- everything is linked to the first task of the third layer
  have hub : ∀ a, a < ([L0, L1, L2, L3].map Layer.width).sum → Relation.ReflTransGen R a (L0.width + L1.width) := by
    intro a ha
    simp only [List.map_cons, List.map_nil, List.sum_cons, List.sum_nil] at ha
    by_cases c0 : a < L0.width
    · exact (Relation.ReflTransGen.single (e01 a 0 c0 h1)).tail (e12 0 0 h1 h2)
    by_cases c1 : a < L0.width + L1.width
    · have := e12 (a - L0.width) 0 (by omega) h2
      rw [Nat.add_sub_cancel' (by omega)] at this
      exact .single this
    by_cases c2 : a < L0.width + L1.width + L2.width
    · have := e12 0 (a - (L0.width + L1.width)) h1 (by omega)
      rw [Nat.add_sub_cancel' (by omega)] at this
      exact (Relation.ReflTransGen.single (hsymm this)).tail (e12 0 0 h1 h2)
    · have := e23 0 (a - (L0.width + L1.width + L2.width)) h2 (by omega)
      rw [Nat.add_sub_cancel' (by omega)] at this
      exact .single (hsymm this)
  have : Std.Symm R := ⟨fun _ _ => hsymm⟩
  exact (hub a ha).trans (Relation.ReflTransGen.stdSymm.symm _ _ (hub b hb))

theorem lte_tasks_get {vs : List (String × ℚ)} {N : Fin vs.length → Int} {v : ℕ} (hv : v < vs.length) :
    (tasks vs N)[v]? = some ⟨(v : Int) + 1, [vs[v].2], [], 1, N ⟨v, hv⟩⟩ := by
  unfold tasks
  rw [List.getElem?_map, List.getElem?_eq_getElem (by simpa using hv)]
  simp

theorem lte_channels {vs : List (String × ℚ)} {N : Fin vs.length → Int} {es : List (ℕ × ℕ × Int)} (hb : ∀ e ∈ es, e.1 < vs.length ∧ e.2.1 < vs.length) :
    ∃ cs, channels (tasks vs N) es = some cs ∧ cs.length = es.length ∧ ∀ (i : ℕ) (c : BChannel), cs[i]? = some c →
      ∃ e, es[i]? = some e ∧ c.1 = ⟨(i : Int) + 1, [e.2.2], [e.2.2], [], [], 0, e.2.2⟩ ∧ (tasks vs N)[e.1]? = some c.2.1 ∧ (tasks vs N)[e.2.1]? = some c.2.2 := by
  have hall : ∀ x ∈ es.zipIdx, ∃ c, (((tasks vs N)[x.1.1]?).bind fun s => ((tasks vs N)[x.1.2.1]?).map fun t =>
      ((⟨(x.2 : Int) + 1, [x.1.2.2], [x.1.2.2], [], [], 0, x.1.2.2⟩, s, t) : BChannel)) = some c := by
    rintro ⟨x, i⟩ hx
    obtain ⟨h1, h2⟩ := hb x (List.fst_mem_of_mem_zipIdx hx)
    dsimp only
    rw [lte_tasks_get h1, lte_tasks_get h2]
    exact ⟨_, rfl⟩
  obtain ⟨cs, hcs, hlen, hget, -⟩ := mapM_exists _ _ hall
  have hlen' : cs.length = es.length := by rw [hlen, List.length_zipIdx]
  refine ⟨cs, hcs, hlen', fun i c hc => ?_⟩
  have hi : i < es.length := by rw [← hlen']; exact (List.getElem?_eq_some_iff.mp hc).1
  obtain ⟨y, hy, hf⟩ := hget i (es[i], i) (by rw [List.getElem?_zipIdx, List.getElem?_eq_getElem hi]; simp)
  rw [hc] at hy; cases hy
  obtain ⟨s, hs, hf⟩ := Option.bind_eq_some_iff.mp hf
  obtain ⟨t, ht, rfl⟩ := Option.map_eq_some_iff.mp hf
  exact ⟨es[i], List.getElem?_eq_getElem hi, rfl, hs, ht⟩

/-- **C106** With at least one task of the two middle kinds, the generator makes a graph in which every task is executed once per
iteration, whatever the parameters: one task per thread, a channel between any two tasks of neighbouring layers. -/
theorem C106_graph {param : String → Option Int} (h1 : 0 < (param "cwac").getD 75) (h2 : 0 < (param "ifft").getD 24) :
    ∃ B, generate param = some B ∧ BaseOK B ∧ (B.tasks.map KTask.id).Nodup ∧ (∀ t ∈ B.tasks, 0 < t.id ∧ t.ni = 1) ∧
      B.tasks.map KTask.durations = List.replicate ((param "miwf").getD 64).toNat [392504] ++ List.replicate ((param "cwac").getD 75).toNat [230635] ++
        List.replicate ((param "ifft").getD 24).toNat [353448] ++ List.replicate ((param "dd").getD 75).toNat [267559] ∧
      (∀ c ∈ B.channels, c.2.1.id < c.2.2.id ∧ c.1.preload = 0 ∧ c.1.inPhases = c.1.outPhases) ∧
      B.channels.length = ((param "miwf").getD 64).toNat * ((param "cwac").getD 75).toNat +
        ((param "cwac").getD 75).toNat * ((param "ifft").getD 24).toNat + ((param "ifft").getD 24).toNat * ((param "dd").getD 75).toNat := by
  set ls := layers param with hls
  set vs := vertices ls with hvs
  set es := edges 0 ls with hes
  have hw1 : 0 < Layer.width ⟨(param "cwac").getD 75, 230635, 32, "cwac"⟩ := by unfold Layer.width; dsimp only; omega
  have hw2 : 0 < Layer.width ⟨(param "ifft").getD 24, 353448, 32, "ifft"⟩ := by unfold Layer.width; dsimp only; omega
  have hn : vs.length = (ls.map Layer.width).sum := lte_vertices_length ls
  have hn0 : 0 < vs.length := by
    rw [hn, hls]
    simp only [layers, List.map_cons, List.sum_cons]
    omega
  have hmem : ∀ e ∈ es, e.1 < e.2.1 ∧ e.2.1 < vs.length ∧ 0 < e.2.2 := fun e he => by
    obtain ⟨-, a, b, L, hL, h⟩ := lte_edges_mem he
    refine ⟨a, by rw [hn]; omega, ?_⟩
    rw [h]
    simp only [hls, layers, List.mem_cons, List.not_mem_nil, or_false] at hL
    rcases hL with rfl | rfl | rfl | rfl <;> norm_num
  have hb : ∀ e ∈ es, e.1 < vs.length ∧ e.2.1 < vs.length := fun e he => ⟨by have := hmem e he; omega, (hmem e he).2.1⟩
  obtain ⟨g, hg, hc⟩ := lte_compute hn0 hb (fun e he => (hmem e he).2.2) fun a b ha hb => by
    rw [hn] at ha hb
    exact lte_connected hw1 hw2 ha hb
  obtain ⟨cs, hcs, hlen, hcget⟩ := lte_channels (N := fun _ => 1) hb
  have hget := fun {v : ℕ} (hv : v < vs.length) => lte_tasks_get (N := fun _ => 1) hv
  have htask : ∀ t ∈ tasks vs (fun _ => 1), ∃ (v : ℕ) (hv : v < vs.length), t = ⟨(v : Int) + 1, [vs[v].2], [], 1, 1⟩ := by
    intro t ht
    obtain ⟨v, -, rfl⟩ := List.mem_map.mp ht
    exact ⟨v, v.2, rfl⟩
  have htime : ∀ v ∈ vs, 0 ≤ v.2 := by
    intro v hv
    obtain ⟨L, hL, hv⟩ := List.mem_flatMap.mp hv
    obtain ⟨j, -, rfl⟩ := List.mem_map.mp hv
    simp only [hls, layers, List.mem_cons, List.not_mem_nil, or_false] at hL
    rcases hL with rfl | rfl | rfl | rfl <;> norm_num
  have hchan : ∀ c ∈ cs, ∃ (i : ℕ) (e : ℕ × ℕ × Int), cs[i]? = some c ∧ e ∈ es ∧ c.1 = ⟨(i : Int) + 1, [e.2.2], [e.2.2], [], [], 0, e.2.2⟩ ∧
      (tasks vs fun _ => 1)[e.1]? = some c.2.1 ∧ (tasks vs fun _ => 1)[e.2.1]? = some c.2.2 := by
    intro c hc
    obtain ⟨i, hi, e⟩ := List.getElem_of_mem hc
    obtain ⟨x, h1, h2, h3, h4⟩ := hcget i c (by rw [List.getElem?_eq_getElem hi, e])
    exact ⟨i, x, by rw [List.getElem?_eq_getElem hi, e], List.mem_of_getElem? h1, h2, h3, h4⟩
  refine ⟨⟨tasks vs fun _ => 1, cs⟩, ?_, ⟨?_, ?_, ?_, ?_, ?_⟩, ?_, ?_, ?_, ?_, ?_⟩
  · have e : generate param = (repOf vs.length es).bind fun g => (Rep.compute g).bind fun o => o.bind fun N =>
      (channels (tasks vs N) es).map fun cs => ⟨tasks vs N, cs⟩ := rfl
    rw [e, hg, Option.bind_some, hc, Option.bind_some, Option.bind_some, hcs, Option.map_some]
  · intro s hs t ht h
    obtain ⟨v, hv, rfl⟩ := htask s hs
    obtain ⟨u, hu, rfl⟩ := htask t ht
    have : v = u := by simpa using h
    subst this; rfl
  · intro t ht
    obtain ⟨v, hv, rfl⟩ := htask t ht
    exact ⟨by simp, rfl, by simpa using htime _ (List.getElem_mem hv), by simp, by simp, by simp⟩
  · intro t ht
    obtain ⟨v, hv, rfl⟩ := htask t ht
    simp
  · intro c hc
    obtain ⟨i, e, -, he, h1, h2, h3⟩ := hchan c hc
    obtain ⟨m1, m2, m3⟩ := hmem e he
    refine ⟨List.mem_of_getElem? h2, List.mem_of_getElem? h3, ?_⟩
    rw [hget (by omega)] at h2
    rw [hget m2] at h3
    rw [h1, ← Option.some.inj h2, ← Option.some.inj h3]
    exact ⟨rfl, rfl, rfl, rfl, by simpa using m3.le, by simpa using m3.le, by simpa using m3, by simpa using m3, m3, by simp, by simp, le_rfl, by simp⟩
  · intro c hc d hd h
    obtain ⟨i, e, hi, -, h1, -⟩ := hchan c hc
    obtain ⟨j, f, hj, -, h2, -⟩ := hchan d hd
    rw [h1, h2] at h
    have : i = j := by simpa using h
    subst this
    rw [hi] at hj
    exact Option.some.inj hj
  · dsimp only [tasks]
    rw [List.map_map]
    refine List.Nodup.map ?_ (List.nodup_finRange _)
    intro a b h
    have h : ((a : ℕ) : Int) + 1 = ((b : ℕ) : Int) + 1 := h
    exact Fin.ext (by omega)
  · intro t ht
    obtain ⟨v, hv, rfl⟩ := htask t ht
    exact ⟨by dsimp only; omega, rfl⟩
  · have e1 : (tasks vs fun _ => 1).map KTask.durations = vs.map fun v => [v.2] := by
      unfold tasks
      rw [List.map_map]
      refine List.ext_getElem (by simp) fun i h1 h2 => by simp
    dsimp only
    rw [e1, hvs, hls]
    simp [vertices, layers, Layer.width, Function.comp_def, List.map_const']
  · intro c hc
    obtain ⟨i, e, -, he, h1, h2, h3⟩ := hchan c hc
    obtain ⟨m1, m2, m3⟩ := hmem e he
    rw [hget (by omega)] at h2
    rw [hget m2] at h3
    rw [← Option.some.inj h2, ← Option.some.inj h3, h1]
    exact ⟨by simpa using m1, rfl, rfl⟩
  · dsimp only
    rw [hlen, hes, hls]
    simp [edges, layers, Layer.width, List.length_flatMap]
    ring

/-- **C106** Every exact command, every command with a fixed vector and the linear program report the throughput of the slowest kind of
task: 1/392504 when there is a `miwf` task, whatever the numbers of threads, and 1/353448 otherwise. The graph never deadlocks. -/
theorem C106_throughput {param : String → Option Int} (h1 : 0 < (param "cwac").getD 75) (h2 : 0 < (param "ifft").getD 24) {B : BaseGraph}
    (hB : generate param = some B) {mcrp : List EvConstraint → Option (ℚ × List EvConstraint)} {lp : List SVar → List SRow → Option (SVar → ℚ)}
    (hs : Solvers B mcrp lp) {a : ℚ}
    (ha : ExactAnswer B mcrp lp a ∨ ∃ K : Int → ℕ, (∀ i, 0 < K i) ∧
      ((∃ cc, kSchedule mcrp B K = some (a, cc)) ∨ ∃ s, lpSchedule lp B K = some s ∧ 1 / s.period = a)) :
    a = if 0 < (param "miwf").getD 64 then 1 / 392504 else 1 / 353448 := by
  obtain ⟨B', hB', hok, hids, hni, hdur, hch, -⟩ := C106_graph h1 h2
  rw [hB] at hB'; cases hB'
  have hd : ∀ x, (∃ t ∈ B.tasks, t.durations = x) ↔ (0 < (param "miwf").getD 64 ∧ x = [392504]) ∨ x = [230635] ∨ x = [353448] ∨
      (0 < (param "dd").getD 75 ∧ x = [267559]) := by
    intro x
    have : (∃ t ∈ B.tasks, t.durations = x) ↔ x ∈ B.tasks.map KTask.durations := by simp
    rw [this, hdur]
    simp only [List.mem_append, List.mem_replicate, ne_eq]
    have : ∀ z : Int, z.toNat ≠ 0 ↔ 0 < z := fun z => by omega
    simp only [this, h1, h2, true_and, or_assoc]
  have hload : ∀ t ∈ B.tasks, load t = t.durations.sum := fun t ht => by
    have hl : t.durations.length = 1 := by
      rcases (hd _).mp ⟨t, ht, rfl⟩ with ⟨-, h⟩ | h | h | ⟨-, h⟩ <;> rw [h] <;> rfl
    unfold load reps
    rw [(hni t ht).2, hl]
    simp
  have hpos : ∀ t ∈ B.tasks, ∀ d ∈ t.durations, 0 < d := by
    intro t ht d
    rcases (hd _).mp ⟨t, ht, rfl⟩ with ⟨-, h⟩ | h | h | ⟨-, h⟩ <;> rw [h] <;> simp <;> rintro rfl <;> norm_num
  obtain ⟨t2, ht2, e2⟩ := (hd _).mpr (Or.inr (Or.inr (Or.inl rfl)))
  have hT : B.tasks ≠ [] := List.ne_nil_of_mem ht2
  obtain ⟨-, ⟨t, ht, hat⟩, hall⟩ := C105_feed_forward_answers hok hpos hT hids hs (rank := Int.toNat) (fun c hc => by
    have h3 := (hch c hc).1
    have h4 := (hni _ (hok.channels c hc).1).1
    omega) ha
  rw [hload t ht] at hat
  have hle2 := hall t2 ht2
  rw [hload t2 ht2, e2] at hle2
  by_cases h0 : 0 < (param "miwf").getD 64
  · rw [if_pos h0]
    obtain ⟨t0, ht0, e0⟩ := (hd _).mpr (Or.inl ⟨h0, rfl⟩)
    have hle0 := hall t0 ht0
    rw [hload t0 ht0, e0] at hle0
    rcases (hd _).mp ⟨t, ht, rfl⟩ with ⟨-, h⟩ | h | h | ⟨-, h⟩ <;> rw [h] at hat <;> simp only [List.sum_singleton] at hat hle0 <;> subst hat <;> first | rfl | norm_num at hle0
  · rw [if_neg h0]
    rcases (hd _).mp ⟨t, ht, rfl⟩ with ⟨h, -⟩ | h | h | ⟨-, h⟩
    · exact absurd h h0
    all_goals rw [h] at hat; simp only [List.sum_singleton] at hat hle2; subst hat; first | rfl | norm_num at hle2

/-- The hypotheses hold with the parameters left out, and answers exist: the default graph of 238 tasks has throughput 1/392504. -/
example : ∃ B, generate (fun _ => none) = some B ∧ B.tasks.length = 238 ∧ B.channels.length = 8400 ∧ Solvers B exhaustive bestSolution ∧
    (∃ a, ExactAnswer B exhaustive bestSolution a) ∧ ∀ a, ExactAnswer B exhaustive bestSolution a → a = 1 / 392504 := by
  obtain ⟨B, hB, hok, -, -, hdur, -, hlen⟩ := C106_graph (param := fun _ => none) (by simp) (by simp)
  have hpos : ∀ t ∈ B.tasks, ∀ d ∈ t.durations, 0 < d := by
    intro t ht d
    have : t.durations ∈ B.tasks.map KTask.durations := List.mem_map.mpr ⟨t, ht, rfl⟩
    rw [hdur] at this
    simp only [List.mem_append, List.mem_replicate] at this
    rcases this with ((⟨-, h⟩ | ⟨-, h⟩) | ⟨-, h⟩) | ⟨-, h⟩ <;> rw [h] <;> simp <;> rintro rfl <;> norm_num
  have hcount : B.tasks.length = 238 := by
    have := congrArg List.length hdur
    rw [List.length_map] at this
    rw [this]
    simp only [List.length_append, List.length_replicate, Option.getD_none]
    decide
  have hT : B.tasks ≠ [] := by intro h; rw [h] at hcount; simp at hcount
  have hs := C104_solvers_exist hok hpos hT
  refine ⟨B, hB, hcount, by rw [hlen]; simp only [Option.getD_none]; decide, hs, ?_, fun a ha => by simpa using C106_throughput (by simp) (by simp) hB hs (Or.inl ha)⟩
  obtain ⟨cs, hcs⟩ := eventGraph_total (withK_ok hok (K := nVector B) (fun t _ => nVector_pos hok _))
  obtain ⟨q, hq⟩ := (exhaustive_event_pos hok hpos (nVector_pos hok) ⟨cs, hcs, fun _ => Iff.rfl⟩).2 hT
  exact ⟨q.1, .nPeriodic _ (criticalEdges B q.2) (by unfold kSchedule; rw [hcs]; simp [hq])⟩

end Kiter
