/-
Property C129: the report of `PrintInfos`.
-/
import Verif.Model.Infos
import Verif.Props.Dataflow
import Verif.Props.Repetition
import Verif.Props.Text
import Verif.Props.Transform
import Mathlib.Algebra.BigOperators.Intervals
import Mathlib.Algebra.BigOperators.Group.List.Basic

set_option autoImplicit false

namespace Kiter.Infos

open Kiter.DF

/-- Graphs covered: at least one task, at least one phase per task, one non-negative rate per phase at each end of a
channel with totals that fit (C10), a channel for every task of several phases, and durations whose total can be
computed. -/
structure Plain (s : State) : Prop where
  some_task : s.verts ≠ []
  phases : ∀ x ∈ s.verts, 0 < x.phases
  channel : ∀ e ∈ s.edges, ∃ a b, s.verts[e.src]? = some a ∧ s.verts[e.tgt]? = some b ∧
    (e.ins.length : Int) = a.phases ∧ (e.outs.length : Int) = b.phases ∧ e.totIn = e.ins.sum ∧ e.totOut = e.outs.sum ∧
    (∀ r ∈ e.ins, 0 ≤ r) ∧ ∀ r ∈ e.outs, 0 ≤ r
  attached : ∀ (v : Nat) (x : Vtx), s.verts[v]? = some x → x.phases = 1 ∨ ∃ e ∈ s.edges, e.src = v ∨ e.tgt = v
  durations : ∀ x ∈ s.verts, (totalDur x).isSome = true

instance : Inhabited TaskRow := ⟨⟨"", 0, 0, 0, 0, none, 0⟩⟩
instance : Inhabited ChannelRow := ⟨⟨"", 0, 0, 0, 0, 0, 0⟩⟩

theorem addUp_eq {f : Nat → Option Int} {F : Nat → Int} : ∀ (n : Nat), (∀ v < n, f v = some (F v)) →
    addUp f n = some (∑ v ∈ Finset.range n, F v) := by
  intro n
  induction n with
  | zero => intro _; rfl
  | succ n ih =>
    intro h
    have := ih (fun v hv => h v (by omega))
    unfold addUp at this ⊢
    rw [List.range_succ, List.foldlM_append, this, Finset.sum_range_succ]
    simp [h n (by omega)]

/-- The graph the repetition vector is computed on. -/
theorem plain_rep {s : State} (h : Plain s) :
    ∃ g : Rep.Graph (s.verts.map fun v : Vtx => v.phases).length s.edges.length,
      repOf (s.verts.map fun v : Vtx => v.phases) s.edges = some g ∧ Rep.OK g ∧ Rep.Attached g ∧
      (∀ i, (g.src i).1 = s.edges[i].src ∧ (g.tgt i).1 = s.edges[i].tgt ∧ g.prod i = s.edges[i].ins ∧
        g.cons i = s.edges[i].outs) ∧
      ∀ (v : Fin _) (x : Vtx), s.verts[v.1]? = some x → (g.phases v : Int) = x.phases := by
  have hc : ∀ i : Fin s.edges.length, (s.edges[i].src < (s.verts.map fun v : Vtx => v.phases).length ∧
      s.edges[i].tgt < (s.verts.map fun v : Vtx => v.phases).length) ∧
      s.edges[i].totIn = s.edges[i].ins.sum ∧ s.edges[i].totOut = s.edges[i].outs.sum := by
    intro i
    obtain ⟨a, b, h1, h2, -, -, h3, h4, -⟩ := h.channel s.edges[i] (List.getElem_mem _)
    obtain ⟨k1, -⟩ := List.getElem?_eq_some_iff.mp h1
    obtain ⟨k2, -⟩ := List.getElem?_eq_some_iff.mp h2
    refine ⟨⟨?_, ?_⟩, h3, h4⟩ <;> simpa using by assumption
  have hph : ∀ (v : Nat) (hv : v < (s.verts.map fun v : Vtx => v.phases).length) (x : Vtx), s.verts[v]? = some x →
      ((s.verts.map fun v : Vtx => v.phases)[v].toNat : Int) = x.phases ∧ 0 < x.phases := by
    intro v hv x hx
    obtain ⟨k, rfl⟩ := List.getElem?_eq_some_iff.mp hx
    have := h.phases _ (List.getElem_mem k)
    simp only [List.getElem_map]
    exact ⟨by omega, this⟩
  refine ⟨_, dif_pos hc, ⟨?_, ?_, ?_, ?_, ?_, ?_⟩, ?_, ?_, ?_⟩
  · rw [List.length_map]; exact List.length_pos_iff.mpr h.some_task
  · intro v
    have hv : v.1 < s.verts.length := by simpa using v.2
    have := hph v.1 v.2 s.verts[v.1] (by simp [hv])
    have h2 : (0 : Int) < ((s.verts.map fun v : Vtx => v.phases)[v.1].toNat : Int) := by rw [this.1]; exact this.2
    exact_mod_cast h2
  · intro i
    obtain ⟨a, b, h1, h2, h3, h4, -⟩ := h.channel s.edges[i] (List.getElem_mem _)
    have := (hph _ (hc i).1.1 a h1).1
    have e : ((s.edges[i].ins.length : Nat) : Int) = ((s.verts.map fun v : Vtx => v.phases)[s.edges[i].src]'(hc i).1.1).toNat := by
      rw [h3, this]
    exact_mod_cast e
  · intro i
    obtain ⟨a, b, h1, h2, h3, h4, -⟩ := h.channel s.edges[i] (List.getElem_mem _)
    have := (hph _ (hc i).1.2 b h2).1
    have e : ((s.edges[i].outs.length : Nat) : Int) = ((s.verts.map fun v : Vtx => v.phases)[s.edges[i].tgt]'(hc i).1.2).toNat := by
      rw [h4, this]
    exact_mod_cast e
  · intro i
    obtain ⟨a, b, -, -, -, -, -, -, h5, -⟩ := h.channel s.edges[i] (List.getElem_mem _)
    exact h5
  · intro i
    obtain ⟨a, b, -, -, -, -, -, -, -, h5⟩ := h.channel s.edges[i] (List.getElem_mem _)
    exact h5
  · intro v
    have hv : v.1 < s.verts.length := by simpa using v.2
    have hx : s.verts[v.1]? = some s.verts[v.1] := by simp [hv]
    rcases h.attached v.1 _ hx with h1 | ⟨e, he, h1⟩
    · left
      have := (hph v.1 v.2 _ hx).1
      have e : (((s.verts.map fun v : Vtx => v.phases)[v.1].toNat : Nat) : Int) = (1 : Nat) := by rw [this, h1]; rfl
      exact_mod_cast e
    · right
      obtain ⟨i, hi, rfl⟩ := List.mem_iff_getElem.mp he
      refine ⟨⟨i, hi⟩, ?_⟩
      rcases h1 with h1 | h1
      · exact Or.inl (Fin.ext h1)
      · exact Or.inr (Fin.ext h1)
  · intro i
    exact ⟨rfl, rfl, rfl, rfl⟩
  · intro v x hx
    exact (hph v.1 v.2 x hx).1

/-- The three sums when every value is there. -/
theorem sums_eq {t : State} (hd : t.repDone = true) {q p : Nat → Int} (hp : ∀ v < t.verts.length, phit t v = some (p v) ∧ 0 < p v)
    (hn : ∀ v < t.verts.length, getNi t v = some (q v * p v)) :
    sums t = some (∑ v ∈ Finset.range t.verts.length, q v, ∑ v ∈ Finset.range t.verts.length, p v,
      ∑ v ∈ Finset.range t.verts.length, q v * p v) := by
  have h1 : addUp (qt t) t.verts.length = some (∑ v ∈ Finset.range t.verts.length, q v) := by
    refine addUp_eq _ ?_
    intro v hv
    have h0 : p v ≠ 0 := by have := (hp v hv).2; omega
    simp [qt, hn v hv, (hp v hv).1, h0, Int.mul_tdiv_cancel]
  have h2 : addUp (phit t) t.verts.length = some (∑ v ∈ Finset.range t.verts.length, p v) :=
    addUp_eq _ fun v hv => (hp v hv).1
  have h3 : addUp (nt t) t.verts.length = some (∑ v ∈ Finset.range t.verts.length, q v * p v) :=
    addUp_eq _ fun v hv => hn v hv
  simp [sums, sumOver, isConsistent, hd, h1, h2, h3]

/-- The graph without the values computed on it. -/
def bare (s : State) : List Vtx × List Edg := (s.verts.map fun x => { x with ni := 0 }, s.edges)

/-- What is proved of a report `r` of the graph `s`, when it is printed in the state `u`. -/
theorem rows_eq {s u : State} (h : Plain s) (c : Bool) (hb : bare u = bare s)
    (hn : c = true → ∀ v < s.verts.length, (getNi u v).isSome = true) :
    ∃ rows chans, (List.range u.verts.length).mapM (taskRow u c) = some rows ∧ u.edges.mapM (channelRow u) = some chans ∧
      rows.length = s.verts.length ∧ chans.length = s.edges.length ∧
      (∀ (v : Nat) (x : Vtx), s.verts[v]? = some x → ∃ row, rows[v]? = some row ∧ row.name = x.name ∧ row.id = x.id ∧
        row.phases = x.phases ∧ totalDur x = some row.duration ∧ row.inEdges = s.edges.countP (fun e => e.tgt = v) ∧
        row.outEdges = s.edges.countP (fun e => e.src = v) ∧ repetition u c v = some row.repetition) ∧
      ∀ (k : Nat) (e : Edg), s.edges[k]? = some e → ∃ row a b, chans[k]? = some row ∧ s.verts[e.src]? = some a ∧
        s.verts[e.tgt]? = some b ∧ row = ⟨e.name, e.id, a.id, b.id, e.ins.sum, e.outs.sum, e.preload⟩ := by
  have hv : (u.verts.map fun x => { x with ni := 0 }) = (s.verts.map fun x => { x with ni := 0 }) := congrArg Prod.fst hb
  have he : u.edges = s.edges := congrArg Prod.snd hb
  have hlen : u.verts.length = s.verts.length := by simpa using congrArg List.length hv
  have hat : ∀ (v : Nat) (x : Vtx), s.verts[v]? = some x → ∃ y, u.verts[v]? = some y ∧ y.name = x.name ∧ y.id = x.id ∧
      y.phases = x.phases ∧ totalDur y = totalDur x := by
    intro v x hx
    have h1 : (u.verts.map fun x => ({ x with ni := 0 } : Vtx))[v]? = (s.verts.map fun x => ({ x with ni := 0 } : Vtx))[v]? := by
      rw [hv]
    rw [List.getElem?_map, List.getElem?_map, hx] at h1
    obtain ⟨y, h2, h3⟩ := Option.map_eq_some_iff.mp h1
    simp only [Vtx.mk.injEq] at h3
    refine ⟨y, h2, h3.2.1, h3.1, h3.2.2.1, ?_⟩
    unfold totalDur
    rw [h3.2.2.2.2.1]
  have hrow : ∀ v, v < s.verts.length → ∃ row, taskRow u c v = some row ∧ ∀ x, s.verts[v]? = some x →
      row.name = x.name ∧ row.id = x.id ∧
        row.phases = x.phases ∧ totalDur x = some row.duration ∧ row.inEdges = s.edges.countP (fun e => e.tgt = v) ∧
        row.outEdges = s.edges.countP (fun e => e.src = v) ∧ repetition u c v = some row.repetition := by
    intro v hvl
    have hx : s.verts[v]? = some s.verts[v] := by simp [hvl]
    obtain ⟨y, h1, h2, h3, h4, h5⟩ := hat v _ hx
    obtain ⟨d, hd⟩ := Option.isSome_iff_exists.mp (h.durations s.verts[v] (List.getElem_mem _))
    have hrep : ∃ r, repetition u c v = some r := by
      unfold repetition
      cases c with
      | false => exact ⟨none, rfl⟩
      | true =>
        obtain ⟨z, hz⟩ := Option.isSome_iff_exists.mp (hn rfl v hvl)
        exact ⟨some z, by simp [hz]⟩
    obtain ⟨r, hr⟩ := hrep
    refine ⟨⟨y.name, y.id, u.edges.countP fun e => e.tgt = v, u.edges.countP fun e => e.src = v, d, r, y.phases⟩, ?_, ?_⟩
    · unfold taskRow
      simp only [h1, h5, hd, hr, bind, Option.bind]
    · intro x hx'
      rw [hx] at hx'
      obtain rfl := Option.some.inj hx'
      exact ⟨h2, h3, h4, hd, by rw [he], by rw [he], hr⟩
  have hchan : ∀ e ∈ s.edges, ∃ row, channelRow u e = some row ∧ ∃ a b, s.verts[e.src]? = some a ∧
        s.verts[e.tgt]? = some b ∧ row = ⟨e.name, e.id, a.id, b.id, e.ins.sum, e.outs.sum, e.preload⟩ := by
    intro e hmem
    obtain ⟨a, b, h1, h2, -, -, h3, h4, -⟩ := h.channel e hmem
    obtain ⟨a', k1, -, k2, -⟩ := hat _ _ h1
    obtain ⟨b', k3, -, k4, -⟩ := hat _ _ h2
    refine ⟨_, ?_, a, b, h1, h2, rfl⟩
    simp [channelRow, k1, k2, k3, k4, h3, h4]
  choose! R hR1 hR2 using hrow
  choose! C hC1 hC2 using hchan
  refine ⟨(List.range u.verts.length).map R, u.edges.map C, ?_, ?_, by simp [hlen], by simp [he], ?_, ?_⟩
  · exact Text.mapM_some fun v hv => hR1 v (by rw [← hlen]; simpa using hv)
  · exact Text.mapM_some fun e hmem => hC1 e (by rw [← he]; exact hmem)
  · intro v x hx
    have hvl := (List.getElem?_eq_some_iff.mp hx).1
    exact ⟨R v, by simp [hlen, hvl], hR2 v hvl x hx⟩
  · intro k e hk
    obtain ⟨a, b, h1⟩ := hC2 e (List.mem_of_getElem? hk)
    exact ⟨C e, a, b, by simp [he, hk], h1⟩

theorem bare_putNi (s : State) (N) (r d : Bool) : bare { s with readonly := r, repDone := d, verts := putNi s.verts N } = bare s := by
  unfold bare
  simp only [Prod.mk.injEq, and_true]
  refine List.ext_getElem? fun i => ?_
  rw [List.getElem?_map, List.getElem?_map]
  cases hi : (putNi s.verts N)[i]? with
  | none =>
    have : s.verts.length ≤ i := by rw [← putNi_length s.verts N]; exact List.getElem?_eq_none_iff.mp hi
    rw [List.getElem?_eq_none this]
  | some a =>
    obtain ⟨a', n, h1, rfl⟩ := putNi_getElem hi
    rw [h1]
    rfl

/-- **C129** The report of a graph whose repetition vector is not computed yet.
* It is always printed, and the graph after it is the one before, and can be edited.
* It has the counts, one line for each task with its id, its phases, the number of channels that enter and leave it, and one
  line for each channel with the ids of its ends, the sums of its rates and its initial tokens.
* It says "not consistent" exactly when some channel carries no token or the balance equations have no positive solution; no
  task then has a repetition factor.
* Otherwise there is a positive solution `q` of the balance equations without common divisor, `Sum(qt)` is the sum of `q`,
  `Sum(phit)` the number of phases of all tasks, `Sum(Nt)` the sum of the products, which are the repetition factors of the
  tasks. -/
theorem _root_.Kiter.C129_infos {s : State} (h : Plain s) (hd : s.repDone = false) :
    ∃ r t, printInfos s = some (r, t) ∧
      (t.readonly = false ∧ t.repDone = false ∧ bare t = bare s) ∧
      (r.taskCount = s.verts.length ∧ r.channelCount = s.edges.length ∧ r.tasks.length = s.verts.length ∧
        r.channels.length = s.edges.length) ∧
      (∀ (v : Nat) (x : Vtx), s.verts[v]? = some x → ∃ row, r.tasks[v]? = some row ∧ row.name = x.name ∧ row.id = x.id ∧
        row.phases = x.phases ∧ totalDur x = some row.duration ∧ row.inEdges = s.edges.countP (fun e => e.tgt = v) ∧
        row.outEdges = s.edges.countP (fun e => e.src = v)) ∧
      (∀ (k : Nat) (e : Edg), s.edges[k]? = some e → ∃ row a b, r.channels[k]? = some row ∧ s.verts[e.src]? = some a ∧
        s.verts[e.tgt]? = some b ∧ row = ⟨e.name, e.id, a.id, b.id, e.ins.sum, e.outs.sum, e.preload⟩) ∧
      (r.sums = none → (∀ row ∈ r.tasks, row.repetition = none) ∧
        ¬ ((∀ e ∈ s.edges, 0 < e.ins.sum ∧ 0 < e.outs.sum) ∧
          ∃ q : Nat → Int, (∀ v < s.verts.length, 0 < q v) ∧ DF.Balanced s.edges q)) ∧
      ∀ a b c, r.sums = some (a, b, c) → (∀ e ∈ s.edges, 0 < e.ins.sum ∧ 0 < e.outs.sum) ∧
        ∃ q : Nat → Int, (∀ v < s.verts.length, 0 < q v) ∧ DF.Balanced s.edges q ∧
          (∀ d : Int, (∀ v < s.verts.length, d ∣ q v) → d ∣ 1) ∧
          a = ∑ v ∈ Finset.range s.verts.length, q v ∧ b = (s.verts.map fun x => x.phases).sum ∧
          c = ∑ v ∈ Finset.range s.verts.length, q v * ((s.verts[v]?).map fun x => x.phases).getD 0 ∧
          ∀ (v : Nat) (row : TaskRow), r.tasks[v]? = some row → row.repetition = some (q v * row.phases) := by
  obtain ⟨g, hg, hok, hatt, hends, hphases⟩ := plain_rep h
  obtain ⟨⟨res, hres⟩, hiff⟩ := C14_consistent_iff hok
  have hlen : (s.verts.map fun v : Vtx => v.phases).length = s.verts.length := List.length_map _
  -- solutions of one form are solutions of the other
  have hbal : ∀ q : Nat → Int, Rep.Balanced g (fun v => q v.1) ↔ DF.Balanced s.edges q := by
    intro q
    constructor
    · intro hq e he
      obtain ⟨i, hi, rfl⟩ := List.mem_iff_getElem.mp he
      have h1 := hq ⟨i, hi⟩
      obtain ⟨e1, e2, e3, e4⟩ := hends ⟨i, hi⟩
      simp only [e1, e2, e3, e4] at h1
      rw [mul_comm, mul_comm (q _)]
      exact h1
    · intro hq i
      have h1 := hq s.edges[i] (List.getElem_mem _)
      obtain ⟨e1, e2, e3, e4⟩ := hends i
      simp only [e1, e2, e3, e4]
      rw [mul_comm, mul_comm _ (q _)]
      exact h1
  have hpos : (∀ e, 0 < (g.prod e).sum ∧ 0 < (g.cons e).sum) ↔ ∀ e ∈ s.edges, 0 < e.ins.sum ∧ 0 < e.outs.sum := by
    constructor
    · intro hq e he
      obtain ⟨i, hi, rfl⟩ := List.mem_iff_getElem.mp he
      obtain ⟨-, -, e3, e4⟩ := hends ⟨i, hi⟩
      have := hq ⟨i, hi⟩
      rw [e3, e4] at this
      exact this
    · intro hq i
      obtain ⟨-, -, e3, e4⟩ := hends i
      rw [e3, e4]
      exact hq _ (List.getElem_mem _)
  have hext : ∀ q : Fin (s.verts.map fun v : Vtx => v.phases).length → Int, ∃ q' : Nat → Int, ∀ v, q' v.1 = q v := by
    intro q
    exact ⟨fun v => if hv : v < (s.verts.map fun v : Vtx => v.phases).length then q ⟨v, hv⟩ else 0, fun v => dif_pos v.2⟩
  cases res with
  | none =>
    have hno : ¬ ∃ N, Rep.compute g = some (some N) := by
      rintro ⟨N, hN⟩
      rw [hres] at hN
      simp at hN
    have hcon : isConsistent s = some (false, { s with readonly := true }) := by
      simp [isConsistent, computeRV, hd, hg, hres]
    obtain ⟨rows, chans, h1, h2, h3, h4, h5, h6⟩ := rows_eq (u := { s with readonly := true }) h false rfl (by simp)
    refine ⟨⟨s.verts.length, s.edges.length, none, rows, chans⟩, reset { s with readonly := true }, ?_, ⟨rfl, rfl, rfl⟩,
      ⟨rfl, rfl, h3, h4⟩, ?_, h6, ?_, ?_⟩
    · unfold printInfos
      simp only [hcon, summary, bind, Option.bind, Bool.false_eq_true, if_false]
      dsimp only at h1 h2
      simp only [h1, h2]
    · intro v x hx
      obtain ⟨row, k1, k2, k3, k4, k5, k6, k7, -⟩ := h5 v x hx
      exact ⟨row, k1, k2, k3, k4, k5, k6, k7⟩
    · intro _
      refine ⟨?_, ?_⟩
      · intro row hrow
        obtain ⟨v, hv, rfl⟩ := List.mem_iff_getElem.mp hrow
        dsimp only at hv
        obtain ⟨row, k1, -, -, -, -, -, -, k8⟩ := h5 v s.verts[v] (by simp [← h3, hv])
        have : rows[v] = row := by simpa [hv] using k1
        dsimp only
        rw [this]
        simpa [repetition] using k8.symm
      · rintro ⟨e1, q, e2, e3⟩
        refine hno (hiff.mpr ⟨hpos.mpr e1, fun v => q v.1, fun v => e2 v.1 (by simpa using v.2), (hbal q).mpr e3⟩)
    · intro a b c hx
      simp at hx
  | some N =>
    have hN : Rep.compute g = some (some N) := hres
    obtain ⟨qf, hq1, hq2, hq3⟩ := C12_cycles_partial hok hatt hN
    obtain ⟨hmin, -⟩ := C13_minimal_partial hok hatt hN hq2
    obtain ⟨q, hqe⟩ := hext qf
    let u : State := { s with readonly := true, repDone := true, verts := putNi s.verts N }
    have hcon : isConsistent s = some (true, u) := by
      simp [isConsistent, computeRV, hd, hg, hres, u]
    have hbu : bare u = bare s := bare_putNi s N true true
    have hul : u.verts.length = s.verts.length := putNi_length _ _
    have hni : ∀ v (hv : v < s.verts.length), getNi u v = some (N ⟨v, by rw [hlen]; exact hv⟩) := by
      intro v hv
      simp only [getNi, u, if_true, putNi]
      rw [List.getElem?_ofFn, dif_pos hv]
      rfl
    let p : Nat → Int := fun v => ((s.verts[v]?).map fun x => x.phases).getD 0
    have hp : ∀ v < s.verts.length, phit u v = some (p v) ∧ 0 < p v ∧ getNi u v = some (q v * p v) := by
      intro v hv
      have hx : s.verts[v]? = some s.verts[v] := by simp [hv]
      have hvv : (u.verts.map fun x => ({ x with ni := 0 } : Vtx))[v]? = (s.verts.map fun x => ({ x with ni := 0 } : Vtx))[v]? := by
        rw [show (u.verts.map fun x => ({ x with ni := 0 } : Vtx)) = _ from congrArg Prod.fst hbu]
        rfl
      rw [List.getElem?_map, List.getElem?_map, hx] at hvv
      obtain ⟨y, h2, h3⟩ := Option.map_eq_some_iff.mp hvv
      simp only [Vtx.mk.injEq] at h3
      have hpv : p v = s.verts[v].phases := by simp [p, hv]
      refine ⟨?_, ?_, ?_⟩
      · rw [phit, h2, hpv]; simp [h3.2.2.1]
      · rw [hpv]; exact h.phases _ (List.getElem_mem _)
      · rw [hni v hv, hq2, ← hqe, hphases _ _ hx, hpv]
    have hsum := sums_eq (t := u) rfl (q := q) (p := p) (fun v hv => by
      rw [hul] at hv; exact ⟨(hp v hv).1, (hp v hv).2.1⟩) (fun v hv => by rw [hul] at hv; exact (hp v hv).2.2)
    rw [hul] at hsum
    obtain ⟨rows, chans, h1, h2, h3, h4, h5, h6⟩ := rows_eq (u := u) h true hbu (fun _ v hv => by rw [hni v hv]; rfl)
    refine ⟨⟨u.verts.length, u.edges.length, some (∑ v ∈ Finset.range s.verts.length, q v,
      ∑ v ∈ Finset.range s.verts.length, p v, ∑ v ∈ Finset.range s.verts.length, q v * p v), rows, chans⟩, reset u, ?_,
      ⟨rfl, rfl, hbu⟩,
      ⟨hul, rfl, h3, h4⟩, ?_, h6, ?_, ?_⟩
    · unfold printInfos
      simp only [hcon, summary, bind, Option.bind, if_true, hsum, Option.map_some, h1, h2]
    · intro v x hx
      obtain ⟨row, k1, k2, k3, k4, k5, k6, k7, -⟩ := h5 v x hx
      exact ⟨row, k1, k2, k3, k4, k5, k6, k7⟩
    · intro hx
      simp at hx
    · intro a b c hx
      simp only [Option.some.injEq, Prod.mk.injEq] at hx
      obtain ⟨rfl, rfl, rfl⟩ := hx
      refine ⟨hpos.mp (hiff.mp ⟨N, hN⟩).1, q, ?_, ?_, ?_, rfl, ?_, rfl, ?_⟩
      · intro v hv
        have := hq1 ⟨v, by rw [hlen]; exact hv⟩
        rw [← hqe] at this
        exact this
      · rw [← hbal]
        have : (fun v : Fin _ => q v.1) = qf := funext hqe
        rw [this]
        exact hq3
      · intro d hdv
        refine hmin d ?_
        intro v
        rw [← hqe]
        exact hdv v.1 (by simpa using v.2)
      · have : ∀ (l : List Vtx), ∑ v ∈ Finset.range l.length, ((l[v]?).map fun x => x.phases).getD 0 =
            (l.map fun x => x.phases).sum := by
          intro l
          induction l with
          | nil => rfl
          | cons a l ih =>
            rw [List.length_cons, Finset.sum_range_succ']
            simp only [List.getElem?_cons_succ, List.getElem?_cons_zero, Option.map_some, Option.getD_some, List.map_cons,
              List.sum_cons]
            rw [ih]; ring
        exact this s.verts
      · intro v row hrow
        dsimp only at hrow
        have hv : v < s.verts.length := by rw [← h3]; exact (List.getElem?_eq_some_iff.mp hrow).1
        obtain ⟨row', k1, -, -, k4, -, -, -, k8⟩ := h5 v s.verts[v] (by simp [hv])
        rw [hrow] at k1
        obtain rfl := Option.some.inj k1
        rw [repetition, if_pos rfl, (hp v hv).2.2] at k8
        simp only [Option.map_some, Option.some.injEq] at k8
        rw [← k8, k4]
        simp [p, hv]

/-- C129, a task of several phases without channel: its repetition factor is 1, `Sum(qt)` counts 0 for it, and `Sum(Nt)` is
not what its name `Nt=qt*phit` says. -/
theorem _root_.Kiter.C129_isolated_counterexample : ∃ s : State, s.repDone = false ∧
    ((printInfos s).map fun r => (r.1.sums, r.1.tasks.map fun row => (row.repetition, row.phases))) =
      some (some (0, 3, 1), [(some 1, 3)]) :=
  ⟨⟨false, false, false, [⟨1, "a", 3, 0, [1, 1, 1], 0, []⟩], [], 2, 1, [], 0⟩, rfl, by decide +kernel⟩

/-- C129, the column TotalDuration: two phases of 1/2 are printed as 0. -/
theorem _root_.Kiter.C129_duration_counterexample : ∃ s : State, Plain s ∧
    ((printInfos s).map fun r => r.1.tasks.map fun row => row.duration) = some [0, 1] ∧
    (s.verts.map fun x => x.durs.sum) = [1, 1] :=
  ⟨⟨false, false, false, [⟨1, "a", 2, 0, [1/2, 1/2], 0, []⟩, ⟨2, "b", 1, 0, [1], 0, []⟩],
    [⟨0, 0, 1, 1, "c", [1, 0], [1], 1, 1, 0, [], []⟩], 3, 2, [], 1⟩, by
    refine ⟨by decide, by decide +kernel, ?_, ?_, by decide +kernel⟩
    · intro e he
      simp only [List.mem_singleton] at he
      subst he
      exact ⟨_, _, rfl, rfl, by decide +kernel⟩
    · intro v x hx
      match v, hx with
      | 0, _ => right; exact ⟨_, List.mem_singleton.mpr rfl, Or.inl rfl⟩
      | 1, hx => left; cases hx; rfl
      | v + 2, hx => simp at hx, by decide +kernel, by decide +kernel⟩

/-- C129, a graph without task: the command does not come to the text NO TASKS that it has for it, the computation of the
repetition vector reads an element that does not exist. -/
theorem _root_.Kiter.C129_empty_counterexample : printInfos empty = none := by decide +kernel

end Kiter.Infos

namespace Kiter.InfosExample
open Kiter.DF Kiter.Infos

/-- Two tasks, the first of two phases, and a channel with rates 1, 2 and 2. -/
def s : State := ⟨false, false, false, [⟨1, "a", 2, 0, [1, 1], 0, []⟩, ⟨2, "b", 1, 0, [5], 0, []⟩],
    [⟨0, 0, 1, 1, "c", [1, 2], [2], 3, 2, 4, [], []⟩], 3, 2, [], 1⟩

/-- The hypotheses of C129 hold for it. -/
example : Plain s ∧ s.repDone = false := by
  refine ⟨⟨by decide, by decide +kernel, ?_, ?_, by decide +kernel⟩, rfl⟩
  · intro e he
    simp only [s, List.mem_singleton] at he
    subst he
    exact ⟨_, _, rfl, rfl, by decide +kernel⟩
  · intro v x hx
    match v, hx with
    | 0, _ => right; exact ⟨_, List.mem_singleton.mpr rfl, Or.inl rfl⟩
    | 1, hx => left; cases hx; rfl
    | v + 2, hx => simp [s] at hx

/-- The cycles are 2 and 3, the repetition factors 4 and 3. -/
example : (printInfos s).map (fun r => r.1) = some ⟨2, 1, some (5, 3, 7),
    [⟨"a", 1, 0, 1, 2, some 4, 2⟩, ⟨"b", 2, 1, 0, 5, some 3, 1⟩], [⟨"c", 1, 1, 2, 3, 2, 4⟩]⟩ := by decide +kernel

/-- The same graph with a second channel that makes it inconsistent. -/
example : ((printInfos { s with edges := s.edges ++ [⟨1, 0, 1, 2, "d", [1, 1], [2], 2, 2, 0, [], []⟩] }).map fun r =>
    (r.1.sums, r.1.tasks.map fun row => row.repetition)) = some (none, [none, none]) := by decide +kernel

end Kiter.InfosExample
