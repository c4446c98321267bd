/-
The replay of a period by `computePeriodicStorageDeps` follows the execution carried on forever, so that every start of
the periodic part has its dependencies recorded.
-/
import Verif.Lemmas.StorageCause

set_option autoImplicit false

namespace Kiter.Sim
open Finset

variable {nV nE : Nat} {g : Graph nV nE} {cap : Option (Fin nE → Int)}

theorem Equiv.symm {c : Cfg nV nE} {m m' : Machine nV nE} (h : Equiv c m m') : Equiv c m' m :=
  ⟨h.pc.symm, h.st.symm, h.count.symm, fun a => (h.exec a).symm, fun a => (h.num a).symm⟩

theorem Equiv.trans {c : Cfg nV nE} {m m' m'' : Machine nV nE} (h : Equiv c m m') (h' : Equiv c m' m'') : Equiv c m m'' :=
  ⟨h.pc.trans h'.pc, h.st.trans h'.st, h.count.trans h'.count, fun a => (h.exec a).trans (h'.exec a),
    fun a => (h.num a).trans (h'.num a)⟩

/-- Dependencies of the start at step `n`, if there is one: `a` starts and tokens from `b`, or room given by `b`, were
missing in `prevState`. -/
def NeedsAt (c : Cfg nV nE) (m : Machine nV nE) (n : ℕ) (a b : Fin nV) : Prop :=
  (∃ rest, (run c m n).pc = .starts (a :: rest)) ∧ ready c.g c.cap (run c m n).acts (run c m n).st a = true ∧
    ∃ e, (c.g.tgt e = a ∧ c.g.src e = b ∧ (mainPrev c m n).1 e < execRate c.g (run c m n).acts a e) ∨
      (c.g.src e = a ∧ c.g.tgt e = b ∧ (mainPrev c m n).2 e < execRate c.g (run c m n).acts a e)

/-- The replay has followed the execution up to step `n`. -/
structure RFollows (c : Cfg nV nE) (m : Machine nV nE) (n : ℕ) (r : Replay nV nE) : Prop where
  equiv : Equiv c.free r.m (run c.free m n)
  prev : r.prev = mainPrev c.free m n
  live : r.done = false
  first : r.first = false ∨ ∃ l, (run c.free m n).pc = .ends l

theorem replayStep_done {c : Cfg nV nE} {s : St nV nE} {r : Replay nV nE} (h : r.done = true) : replayStep c s r = r := by
  unfold replayStep; simp [h]

theorem mainPrev_succ {c : Cfg nV nE} {m : Machine nV nE} {n : ℕ} (h : (run c m n).pc ≠ .advance) :
    mainPrev c m (n + 1) = mainPrev c m n := by
  show (if (run c m n).pc = .advance then _ else _) = _
  rw [if_neg h]

theorem step_ends_pc {c : Cfg nV nE} (hd : c.detect = false) {m : Machine nV nE} {t : Fin nV} {rest : List (Fin nV)}
    (h : m.pc = .ends (t :: rest)) : ∃ l, (step c m).pc = .ends l := by
  unfold step
  rw [h]
  simp only [hd, Bool.false_eq_true, if_false]
  split
  · split
    · split <;> exact ⟨t :: rest, rfl⟩
    · exact ⟨_, by simp only [endOne]; exact h⟩
  · exact ⟨_, rfl⟩

theorem step_recording {c : Cfg nV nE} (hd : c.detect = false) {m : Machine nV nE} (h : Recording c m) :
    step c m = endOne c { m with visited := m.visited ++ [m.st], st := { m.st with elapsed := 0 }, count := 0 } c.minActor := by
  obtain ⟨rest, hpc⟩ := h.pc
  unfold step
  simp only [hpc, h.ends, h.count, hd, Bool.false_eq_true, if_false, if_true]

/-- One step of a replay that follows: it stops at the recurrent state, or follows one step more, records the
dependencies of that step and keeps the others. -/
theorem rfollow_step {c : Cfg nV nE} (h : OK c.g) {m : Machine nV nE} {n : ℕ} {s : St nV nE} {r : Replay nV nE}
    (hf : RFollows c m n r) (hlive : (run c.free m n).pc ≠ .deadlock ∧ ∀ t, (run c.free m n).pc ≠ .recurrent t) :
    ((replayStep c s r).done = true ∧ (replayStep c s r).dep = r.dep ∧ Recording c.free (run c.free m n) ∧
      same (run c.free m n).st s) ∨
    (RFollows c m (n + 1) (replayStep c s r) ∧ (∀ a b, r.dep a b = true → (replayStep c s r).dep a b = true) ∧
      (∀ a b, NeedsAt c.free m n a b → (replayStep c s r).dep a b = true) ∧
      (r.first = false → (replayStep c s r).first = false)) := by
  obtain ⟨heq, hprev, hl, hfi⟩ := hf
  have hst := (step_equiv (c := c.free) h rfl heq).1
  have hrun : run c.free m (n + 1) = step c.free (run c.free m n) := rfl
  have hm' : step ⟨c.g, c.cap, c.minActor, false⟩ r.m = step c.free r.m := rfl
  unfold replayStep
  simp only [hl, Bool.false_eq_true, if_false, hm']
  have hpc := heq.pc
  split
  · -- end of the loop that ends executions
    rename_i hp
    rw [hp] at hpc
    right
    refine ⟨⟨hst, ?_, rfl, .inl rfl⟩, fun a b hd => hd, ?_, fun _ => rfl⟩
    · show r.prev = _
      rw [hprev, mainPrev_succ (by rw [← hpc]; simp)]
    · rintro a b ⟨⟨rest, hr⟩, -⟩; rw [← hpc] at hr; simp at hr
  · rename_i t rest hp
    rw [hp] at hpc
    split
    · rename_i hc
      left
      obtain ⟨-, c2, rfl, c4, c5⟩ := hc
      refine ⟨rfl, rfl, ⟨⟨rest, hpc.symm⟩, ?_, ?_⟩, ?_⟩
      · rw [← heq.st]; exact c2
      · rw [← heq.count]; exact c4
      · rw [← heq.st]; exact c5
    · right
      refine ⟨⟨hst, ?_, rfl, ?_⟩, fun a b hd => hd, ?_, fun hd => hd⟩
      · show r.prev = _
        rw [hprev, mainPrev_succ (by rw [← hpc]; simp)]
      · right
        rw [hrun]
        exact step_ends_pc rfl hpc.symm
      · rintro a b ⟨⟨rest, hr⟩, -⟩; rw [← hpc] at hr; simp at hr
  · rename_i t rest hp
    rw [hp] at hpc
    have hfi' : r.first = false := by
      rcases hfi with h1 | ⟨l, h1⟩
      · exact h1
      · rw [← hpc] at h1; simp at h1
    have hpr : r.prev = mainPrev c.free m (n + 1) := by
      rw [hprev, mainPrev_succ (by rw [← hpc]; simp)]
    have hrd : ready c.g c.cap r.m.acts r.m.st t = ready c.g c.cap (run c.free m n).acts (run c.free m n).st t := by
      rw [heq.st]; exact ready_congr h _ (heq.num t) (heq.exec t)
    split
    · rename_i hr
      right
      refine ⟨⟨hst, hpr, rfl, .inl hfi'⟩, fun a b hd => ?_, ?_, fun hd => hd⟩
      · show causalDeps _ _ _ _ _ a b = true
        rw [causalDeps_iff]; exact .inl hd
      · rintro a b ⟨⟨rest', hr'⟩, -, e, he⟩
        rw [← hpc] at hr'
        simp only [Pc.starts.injEq, List.cons.injEq] at hr'
        obtain ⟨rfl, -⟩ := hr'
        show causalDeps _ _ _ _ _ t b = true
        rw [causalDeps_iff]
        refine .inr ⟨rfl, e, ?_⟩
        rw [hprev]
        rcases he with ⟨h1, h2, h3⟩ | ⟨h1, h2, h3⟩
        · refine .inl ⟨h1, h2, ?_⟩
          rw [execRate_congr h (.inr h1) (heq.num t)]; exact h3
        · refine .inr ⟨h1, h2, ?_⟩
          rw [execRate_congr h (.inl h1) (heq.num t)]; exact h3
    · rename_i hr
      right
      refine ⟨⟨hst, hpr, rfl, .inl hfi'⟩, fun a b hd => hd, ?_, fun hd => hd⟩
      rintro a b ⟨⟨rest', hr'⟩, hr2, -⟩
      rw [← hpc] at hr'
      simp only [Pc.starts.injEq, List.cons.injEq] at hr'
      obtain ⟨rfl, -⟩ := hr'
      exact absurd (hrd.trans hr2) hr
  · rename_i hp
    rw [hp] at hpc
    have hfi' : r.first = false := by
      rcases hfi with h1 | ⟨l, h1⟩
      · exact h1
      · rw [← hpc] at h1; simp at h1
    right
    refine ⟨⟨hst, ?_, rfl, .inl hfi'⟩, fun a b hd => hd, ?_, fun hd => hd⟩
    · show ((step c.free r.m).st.tokens, (step c.free r.m).st.space) = if (run c.free m n).pc = .advance then _ else _
      rw [if_pos hpc.symm, hst.st]; rfl
    · rintro a b ⟨⟨rest, hr⟩, -⟩; rw [← hpc] at hr; simp at hr
  · rename_i hp
    rw [hp] at hpc
    have hfi' : r.first = false := by
      rcases hfi with h1 | ⟨l, h1⟩
      · exact h1
      · rw [← hpc] at h1; simp at h1
    right
    refine ⟨⟨hst, ?_, rfl, .inl hfi'⟩, fun a b hd => hd, ?_, fun hd => hd⟩
    · show r.prev = _
      rw [hprev, mainPrev_succ (by rw [← hpc]; simp)]
    · rintro a b ⟨⟨rest, hr⟩, -⟩; rw [← hpc] at hr; simp at hr
  · rename_i hp; rw [hp] at hpc; exact absurd hpc.symm hlive.1
  · rename_i t hp; rw [hp] at hpc; exact absurd hpc.symm (hlive.2 t)

/-- The first loop of the replay: it goes over the actors before the reference actor, which have nothing to end, and ends
the execution of the reference actor. -/
theorem replay_enter {c : Cfg nV nE} {m M : Machine nV nE} {j : ℕ} (hni : 0 < c.g.ni c.minActor)
    (hst : M.st = (run c.free m j).st) (hacts : M.acts = (run c.free m j).acts) (hed : EndsDone (run c.free m j))
    (hsuf : ∀ l, (run c.free m j).pc = .ends l → ∃ pre, pre ++ l = List.finRange nV)
    (hrec : Recording c.free (run c.free m j)) :
    ∃ s, RFollows c m (j + 1) (replay c M (mainPrev c.free m j) s) ∧
      ∀ s' ≤ s, (replay c M (mainPrev c.free m j) s').done = false := by
  obtain ⟨rest, hpc⟩ := hrec.pc
  have hmin : c.free.minActor = c.minActor := rfl
  rw [hmin] at hpc
  obtain ⟨pre, hpre⟩ := hsuf _ hpc
  have hnr : ∀ a ∈ pre, readyToEnd M.st a = false := by
    intro a ha
    rw [hst]
    refine hed _ hpc a fun hmem => ?_
    have := List.nodup_finRange nV
    rw [← hpre, List.nodup_append] at this
    exact this.2.2 a ha a hmem rfl
  -- the actors before the reference actor
  have skip : ∀ (q p : List (Fin nV)), q ++ p = pre →
      replay c M (mainPrev c.free m j) q.length =
        { replayStart M (mainPrev c.free m j) with
          m := { (replayStart M (mainPrev c.free m j)).m with pc := .ends (p ++ c.minActor :: rest) } } := by
    intro q
    induction q using List.reverseRecOn with
    | nil =>
      intro p hp
      simp only [List.nil_append] at hp
      subst hp
      simp only [List.length_nil, replay, replayStart, hpre]
    | append_singleton q t ih =>
      intro p hp
      rw [List.append_assoc] at hp
      have h1 := ih _ hp
      rw [List.length_append, List.length_singleton]
      show replayStep c M.st (replay c M (mainPrev c.free m j) q.length) = _
      rw [h1]
      have ht : readyToEnd M.st t = false := hnr t (by rw [← hp]; simp)
      have ht' : readyToEnd { M.st with elapsed := 0 } t = false := ht
      unfold replayStep step
      simp [replayStart, ht']
  have hlast := skip pre [] (by simp)
  refine ⟨pre.length + 1, ?_, ?_⟩
  · have hnot : (-1 : Int) + 1 ≠ c.g.ni c.minActor := by omega
    have hre : readyToEnd { M.st with elapsed := 0 } c.minActor = true := by
      have := hrec.ends
      rw [← hst] at this
      exact this
    have hstep : replay c M (mainPrev c.free m j) (pre.length + 1) =
        { replayStart M (mainPrev c.free m j) with
          m := endOne c.free { (replayStart M (mainPrev c.free m j)).m with pc := .ends (c.minActor :: rest), count := 0 } c.minActor } := by
      show replayStep c M.st (replay c M (mainPrev c.free m j) pre.length) = _
      rw [hlast]
      unfold replayStep step
      have h0 : ¬ (0 = c.g.ni c.minActor) := by omega
      simp [replayStart, hre, h0, Cfg.free]
    rw [hstep]
    refine ⟨?_, ?_, rfl, ?_⟩
    · have hr : run c.free m (j + 1) = endOne c.free { (run c.free m j) with
          visited := (run c.free m j).visited ++ [(run c.free m j).st]
          st := { (run c.free m j).st with elapsed := 0 }, count := 0 } c.minActor := by
        exact step_recording rfl hrec
      rw [hr]
      apply endOne_equiv
      refine ⟨hpc.symm, ?_, rfl, ?_, ?_⟩
      · simp [replayStart, hst]
      · intro a; simp [replayStart, hacts]
      · intro a; simp [replayStart, hacts]
    · show mainPrev c.free m j = _
      rw [mainPrev_succ (by rw [hpc]; simp)]
    · right
      show ∃ l, (step c.free (run c.free m j)).pc = .ends l
      exact step_ends_pc rfl hpc
  · intro s' hs'
    rcases Nat.lt_or_ge s' (pre.length + 1) with hlt | hge
    · have : s' ≤ pre.length := by omega
      have h1 := skip (pre.take s') (pre.drop s') (List.take_append_drop _ _)
      rw [List.length_take, min_eq_left this] at h1
      rw [h1]; rfl
    · have : s' = pre.length + 1 := by omega
      subst this
      show (replayStep c M.st (replay c M (mainPrev c.free m j) pre.length)).done = false
      rw [hlast]
      unfold replayStep
      simp [replayStart]

/-! ### Coverage -/

/-- The program stops at step `j` of the execution carried on forever, where the situation is that of step `i`. -/
structure Stops (c : Cfg nV nE) (m : Machine nV nE) (n i j : ℕ) : Prop where
  lt : i < j
  equiv : Equiv c.free (run c.free m i) (run c.free m j)
  recording : Recording c.free (run c.free m j)
  clock : (run c.free m j).clock ≠ (run c.free m i).clock
  st : (run c m n).st = (run c.free m j).st
  acts : (run c m n).acts = (run c.free m j).acts
  prev : mainPrev c m n = mainPrev c.free m j

theorem run_recurrent {c : Cfg nV nE} {m : Machine nV nE} {n : ℕ} {t : Option ℚ} (h : (run c m n).pc = .recurrent t) (d : ℕ) :
    run c m (n + d) = run c m n := by
  induction d with
  | zero => rfl
  | succ d ih =>
    show step c (run c m (n + d)) = _
    rw [ih]; unfold step; rw [h]

theorem exists_stops (h : OK g) (hg : Guarded g cap) {c : Cfg nV nE} {m : Machine nV nE}
    (hs : start g cap true = some (c, m)) (hni : 0 < g.ni c.minActor) {n : ℕ} {thr : ℚ}
    (hres : (run c m n).pc = .recurrent (some thr)) : ∃ i j, Stops c m n i j := by
  obtain ⟨i, j, hij, hjn, hnr, hstep, heq, -, hrj, -, hne, -⟩ := recurrence_at h hg hs hni hres
  have ej : run c.free m j = run c m j := run_free m j hnr
  have hn : run c m n = step c (run c m j) := by
    have := run_recurrent (c := c) (m := m) (n := j + 1) hstep (n - (j + 1))
    rw [show j + 1 + (n - (j + 1)) = n by omega] at this
    exact this
  obtain ⟨-, hrec, x, hx, hthr⟩ := step_recurrent hnr hstep
  have hst : step c (run c m j) = { (run c m j) with
      pc := .recurrent (some thr), count := (run c m j).count + 1 } := by
    obtain ⟨rest, hpc⟩ := hrec.pc
    have hd : c.detect = true := (start_spec hs).2.2.1
    unfold step
    simp only [hpc, hrec.ends, hrec.count, hd, if_true, hx, hthr]
  have hmp : ∀ k, k ≤ j → mainPrev c m k = mainPrev c.free m k := by
    intro k
    induction k with
    | zero => intro _; rfl
    | succ k ih =>
      intro hk
      have e1 : run c.free m k = run c m k := by
        apply run_free
        intro t ht
        refine hnr t ?_
        have := run_recurrent ht (j - k)
        rw [show k + (j - k) = j by omega] at this
        rw [this]; exact ht
      have e2 : run c.free m (k + 1) = run c m (k + 1) := by
        apply run_free
        intro t ht
        refine hnr t ?_
        have := run_recurrent ht (j - (k + 1))
        rw [show k + 1 + (j - (k + 1)) = j by omega] at this
        rw [this]; exact ht
      simp only [mainPrev]
      rw [e1, e2, ih (by omega)]
  have hmp2 : ∀ d, mainPrev c m (j + 1 + d) = mainPrev c m j := by
    intro d
    induction d with
    | zero =>
      refine mainPrev_succ ?_
      obtain ⟨rest, hpc⟩ := hrec.pc
      rw [hpc]; simp
    | succ d ih =>
      rw [← ih]
      refine mainPrev_succ ?_
      have := run_recurrent (c := c) (m := m) (n := j + 1) hstep d
      show (run c m (j + 1 + d)).pc ≠ _
      rw [this]
      show (step c (run c m j)).pc ≠ _
      rw [hstep]; simp
  refine ⟨i, j, hij, heq, hrj, hne, ?_, ?_, ?_⟩
  · rw [hn, hst, ej]
  · rw [hn, hst, ej]
  · have := hmp2 (n - (j + 1))
    rw [show j + 1 + (n - (j + 1)) = n by omega] at this
    rw [this, hmp j le_rfl]

/-- From the first of the two situations on, every situation comes back after `P` steps. -/
theorem Stops.periodic {c : Cfg nV nE} (h : OK c.g) {m : Machine nV nE} {n i j : ℕ} (hst : Stops c m n i j) {P : ℕ}
    (hP : Equiv c.free (run c.free m j) (run c.free m (j + P))) {x : ℕ} (hx : i ≤ x) :
    Equiv c.free (run c.free m x) (run c.free m (x + P)) := by
  obtain ⟨d, rfl⟩ : ∃ d, x = i + d := ⟨x - i, by omega⟩
  have h1 := (run_equiv (c := c.free) h rfl m hst.equiv d).1
  have h2 := (run_equiv (c := c.free) h rfl m hP d).1
  have h3 := (run_equiv (c := c.free) h rfl m hst.equiv (P + d)).1
  rw [show i + (P + d) = i + d + P by ring, show j + (P + d) = j + P + d by ring] at h3
  exact (h1.trans h2).trans h3.symm

/-- Time advances between the two situations. -/
theorem Stops.advance {c : Cfg nV nE} {m : Machine nV nE} {n i j : ℕ} (hst : Stops c m n i j) :
    ∃ x, i ≤ x ∧ x < j ∧ (run c.free m x).pc = .advance := by
  by_contra hcon
  push Not at hcon
  apply hst.clock
  have key : ∀ d, i + d ≤ j → (run c.free m (i + d)).clock = (run c.free m i).clock := by
    intro d
    induction d with
    | zero => intro _; rfl
    | succ d ih =>
      intro hd
      rw [← ih (by omega)]
      have hne := hcon (i + d) (by omega) (by omega)
      show (step c.free (run c.free m (i + d))).clock = _
      rcases step_kind c.free (run c.free m (i + d)) with ⟨-, -, -, e⟩ | ⟨b, -, -, -, -, e⟩ | ⟨b, _, _, -, -, -, -, -, e⟩ | ⟨hp, -⟩
      · exact e
      · exact e
      · exact e
      · exact absurd hp hne
  have := key (j - i) (by have := hst.lt; omega)
  rwa [show i + (j - i) = j by have := hst.lt; omega] at this

theorem Stops.prev_periodic {c : Cfg nV nE} (h : OK c.g) {m : Machine nV nE} {n i j : ℕ} (hst : Stops c m n i j) {P : ℕ}
    (hP : Equiv c.free (run c.free m j) (run c.free m (j + P))) {x : ℕ} (hx : j ≤ x) :
    mainPrev c.free m (x + P) = mainPrev c.free m x := by
  obtain ⟨y, hy1, hy2, hy3⟩ := hst.advance
  obtain ⟨z, hz⟩ := exists_since (c := c.free) (m := m) (n := x) ⟨y, by omega, hy3⟩
  have hyz : y ≤ z := by
    by_contra hlt
    exact hz.none y (by omega) (by omega) hy3
  have hz' : Since c.free m (z + P) (x + P) := by
    refine ⟨by have := hz.lt; omega, ?_, fun w h1 h2 => ?_⟩
    · rw [← (hst.periodic h hP (x := z) (by omega)).pc]; exact hz.adv
    · have := hst.periodic h hP (x := w - P) (by omega)
      rw [show w - P + P = w by omega] at this
      rw [← this.pc]
      exact hz.none (w - P) (by omega) (by omega)
  rw [mainPrev_since hz, mainPrev_since hz', (hst.periodic h hP (x := z) (by omega)).st]

theorem Stops.needs_periodic {c : Cfg nV nE} (h : OK c.g) {m : Machine nV nE} {n i j : ℕ} (hst : Stops c m n i j) {P : ℕ}
    (hP : Equiv c.free (run c.free m j) (run c.free m (j + P))) {x : ℕ} (hx : j ≤ x) {a b : Fin nV}
    (hn : NeedsAt c.free m (x + P) a b) : NeedsAt c.free m x a b := by
  have he := hst.periodic h hP (x := x) (by have := hst.lt; omega)
  obtain ⟨⟨rest, hp⟩, hr, e, hd⟩ := hn
  rw [hst.prev_periodic h hP hx] at hd
  refine ⟨⟨rest, he.pc.trans hp⟩, ?_, e, ?_⟩
  · rw [← hr, he.st]
    exact ready_congr (cap := c.free.cap) h _ (he.num a) (he.exec a)
  · rcases hd with ⟨h1, h2, h3⟩ | ⟨h1, h2, h3⟩
    · refine .inl ⟨h1, h2, ?_⟩
      rw [execRate_congr (g := c.free.g) h (.inr h1) (he.num a)]; exact h3
    · refine .inr ⟨h1, h2, ?_⟩
      rw [execRate_congr (g := c.free.g) h (.inl h1) (he.num a)]; exact h3

/-- The execution carried on forever never stops after a recurrent situation. -/
theorem Stops.live {c : Cfg nV nE} (h : OK c.g) {m : Machine nV nE} {n i j : ℕ} (hst : Stops c m n i j)
    (hnr : ∀ x t, (run c.free m x).pc ≠ .recurrent t) (x : ℕ) :
    (run c.free m x).pc ≠ .deadlock ∧ ∀ t, (run c.free m x).pc ≠ .recurrent t := by
  refine ⟨fun hd => ?_, hnr x⟩
  have key : ∀ d, (run c.free m (x + d)).pc = .deadlock := by
    intro d
    induction d with
    | zero => exact hd
    | succ d ih =>
      show (step c.free (run c.free m (x + d))).pc = _
      unfold step; rw [ih]; exact ih
  have hrep : ∀ k, Equiv c.free (run c.free m i) (run c.free m (i + k * (j - i))) := by
    intro k
    induction k with
    | zero => rw [Nat.zero_mul, Nat.add_zero]; exact ⟨rfl, rfl, rfl, fun _ => rfl, fun _ => rfl⟩
    | succ k ih =>
      have h1 := (run_equiv (c := c.free) h rfl m hst.equiv (k * (j - i))).1
      rw [show j + k * (j - i) = i + (k + 1) * (j - i) by
        have := hst.lt
        rw [Nat.add_mul, Nat.one_mul]; omega] at h1
      exact ih.trans h1
  have h2 := (hrep x).pc
  have hji : 1 ≤ j - i := by have := hst.lt; omega
  have hle : x ≤ i + x * (j - i) := by nlinarith
  have h3 := key (i + x * (j - i) - x)
  rw [show x + (i + x * (j - i) - x) = i + x * (j - i) by omega] at h3
  rw [h3] at h2
  obtain ⟨rest, hp⟩ := hst.recording.pc
  have := hst.equiv.pc
  rw [h2, hp] at this
  simp at this

theorem free_not_recurrent {c : Cfg nV nE} {m : Machine nV nE} (hm : ∀ t, m.pc ≠ .recurrent t) (x : ℕ) (t : Option ℚ) :
    (run c.free m x).pc ≠ .recurrent t := by
  induction x generalizing t with
  | zero => exact hm t
  | succ x ih =>
    intro hc
    have := step_recurrent (c := c.free) ih hc
    simp [Cfg.free] at this

/-- **The replay returns**, and what it has recorded covers every start from the stop on. -/
theorem replay_spec (h : OK g) (hg : Guarded g cap) {c : Cfg nV nE} {m : Machine nV nE}
    (hs : start g cap true = some (c, m)) (hni : 0 < g.ni c.minActor) {n : ℕ} {thr : ℚ}
    (hres : (run c m n).pc = .recurrent (some thr)) :
    (∃ k, (replay c (run c m n) (mainPrev c m n) k).done = true) ∧
    ∀ k, (replay c (run c m n) (mainPrev c m n) k).done = true →
      ∃ i j, Stops c m n i j ∧ ∀ x, j ≤ x → ∀ a b, NeedsAt c.free m x a b →
        (replay c (run c m n) (mainPrev c m n) k).dep a b = true := by
  obtain ⟨i, j, hst⟩ := exists_stops h hg hs hni hres
  have hsf := start_free hs
  obtain ⟨h1, h2, -, -, -, h6, -⟩ := start_spec hs
  have hok : OK c.g := by rw [h1]; exact h
  have hlive := hst.live hok (free_not_recurrent (by rw [h6]; simp))
  obtain ⟨s, hfo, hnd⟩ := replay_enter (c := c) (m := m) (M := run c m n) (j := j) (by rw [h1]; exact hni) hst.st hst.acts
    (endsDone_run h6 j) (minv_run hsf h hg hni j).endsSuffix hst.recording
  rw [← hst.prev] at hfo hnd
  set R := replay c (run c m n) (mainPrev c m n) with hR
  have hRs : ∀ k, R (k + 1) = replayStep c (run c m n).st (R k) := fun k => rfl
  -- as long as it has not stopped, the replay follows the execution
  have hfol : ∀ d, (R (s + d)).done = false → RFollows c m (j + 1 + d) (R (s + d)) ∧
      ∀ x, j ≤ x → x < j + 1 + d → ∀ a b, NeedsAt c.free m x a b → (R (s + d)).dep a b = true := by
    intro d
    induction d with
    | zero =>
      intro _
      refine ⟨hfo, fun x hx1 hx2 a b hn => ?_⟩
      have : x = j := by omega
      subst this
      obtain ⟨⟨rest, hp⟩, -⟩ := hn
      obtain ⟨rest', hp'⟩ := hst.recording.pc
      rw [hp'] at hp; simp at hp
    | succ d ih =>
      intro hd
      have hd' : (R (s + d)).done = false := by
        by_contra hc
        have := replayStep_done (c := c) (s := (run c m n).st) (r := R (s + d)) (by simpa using hc)
        rw [show s + (d + 1) = s + d + 1 from rfl, hRs, this] at hd
        exact hc hd
      obtain ⟨hf, hcov⟩ := ih hd'
      have hd2 : (replayStep c (run c m n).st (R (s + d))).done = false := hd
      rcases rfollow_step hok (s := (run c m n).st) hf (hlive _) with ⟨h1, -⟩ | ⟨h1, h2, h3, -⟩
      · rw [h1] at hd2; simp at hd2
      · refine ⟨h1, fun x hx1 hx2 a b hn => ?_⟩
        by_cases hx : x = j + 1 + d
        · subst hx; exact h3 a b hn
        · exact h2 a b (hcov x hx1 (by omega) a b hn)
  refine ⟨?_, fun k hk => ⟨i, j, hst, ?_⟩⟩
  · -- it stops at the latest after the period found by the main loop
    by_contra hcon
    push Not at hcon
    have hcon' : ∀ k, (R k).done = false := fun k => by simpa using hcon k
    obtain ⟨y, hy1, hy2, hy3⟩ := hst.advance
    have hper : Equiv c.free (run c.free m j) (run c.free m (j + (j - i))) := by
      have := (run_equiv (c := c.free) hok rfl m hst.equiv (j - i)).1
      rwa [show i + (j - i) = j by have := hst.lt; omega] at this
    have hfirst : ∀ d, y + (j - i) ≤ j + 1 + d → (R (s + d)).first = false := by
      intro d
      induction d with
      | zero =>
        intro hd
        have hyj : y + (j - i) = j + 1 ∨ y + (j - i) = j := by omega
        rcases hyj with hyj | hyj
        · rcases (hfol 0 (hcon' _)).1.first with h1 | ⟨l, h1⟩
          · exact h1
          · have := (hst.periodic hok hper (x := y) hy1).pc
            rw [hy3, hyj] at this
            rw [show j + 1 + 0 = j + 1 from rfl, ← this] at h1; simp at h1
        · have := (hst.periodic hok hper (x := y) hy1).pc
          rw [hy3, hyj] at this
          obtain ⟨rest, hp⟩ := hst.recording.pc
          rw [hp] at this; simp at this
      | succ d ih =>
        intro hd
        by_cases hyd : y + (j - i) ≤ j + 1 + d
        · have hf := (hfol d (hcon' _)).1
          rcases rfollow_step hok (s := (run c m n).st) hf (hlive _) with ⟨h1, -⟩ | ⟨-, -, -, h4⟩
          · have := hcon' (s + d + 1); rw [hRs, h1] at this; simp at this
          · exact h4 (ih hyd)
        · rcases (hfol (d + 1) (hcon' _)).1.first with h1 | ⟨l, h1⟩
          · exact h1
          · have := (hst.periodic hok hper (x := y) hy1).pc
            rw [hy3, show y + (j - i) = j + 1 + (d + 1) by omega] at this
            rw [← this] at h1; simp at h1
    have hij := hst.lt
    obtain ⟨d, hd⟩ : ∃ d, j + 1 + d = j + (j - i) := ⟨j - i - 1, by omega⟩
    have hf := (hfol d (hcon' _)).1
    have hfi := hfirst d (by omega)
    have he := hf.equiv
    rw [hd] at he
    have he2 := he.trans hper.symm
    obtain ⟨rest, hp⟩ := hst.recording.pc
    have hdone : (replayStep c (run c m n).st (R (s + d))).done = true := by
      unfold replayStep
      rw [if_neg (by rw [hcon' (s + d)]; simp), he2.pc.trans hp]
      simp only
      rw [if_pos]
      refine ⟨hfi, ?_, rfl, ?_, ?_⟩
      · rw [he2.st]; exact hst.recording.ends
      · rw [he2.count]; exact hst.recording.count
      · rw [he2.st, hst.st]; exact ⟨rfl, fun _ => rfl, fun _ => rfl, fun _ => rfl⟩
    have := hcon' (s + d + 1)
    rw [hRs, hdone] at this; simp at this
  · -- the step at which it stops
    have hsk : s < k := by
      by_contra hc
      have := hnd k (by omega)
      rw [hk] at this; simp at this
    have hex : ∃ d, (R (s + d)).done = false ∧ (R (s + d + 1)).done = true ∧ R k = R (s + d + 1) := by
      have key : ∀ q, (R (s + q)).done = true → ∃ d, (R (s + d)).done = false ∧ (R (s + d + 1)).done = true ∧
          R (s + q) = R (s + d + 1) := by
        intro q
        induction q with
        | zero => intro hq; have := hnd s le_rfl; rw [Nat.add_zero] at hq; rw [hq] at this; simp at this
        | succ q ih =>
          intro hq
          cases hdq : (R (s + q)).done with
          | false => exact ⟨q, hdq, hq, rfl⟩
          | true =>
            obtain ⟨d, a1, a2, a3⟩ := ih hdq
            refine ⟨d, a1, a2, ?_⟩
            rw [← a3]
            exact replayStep_done hdq
      have := key (k - s)
      rw [show s + (k - s) = k by omega] at this
      exact this hk
    obtain ⟨d, hd0, hd1, hkd⟩ := hex
    obtain ⟨hf, hcov⟩ := hfol d hd0
    have hd1' : (replayStep c (run c m n).st (R (s + d))).done = true := hd1
    rcases rfollow_step hok (s := (run c m n).st) hf (hlive _) with ⟨-, h2', h3, h4⟩ | ⟨hff, -⟩
    swap
    · have := hff.live; rw [hd1'] at this; simp at this
    have hdep : (R k).dep = (R (s + d)).dep := by rw [hkd]; exact h2'
    rw [hdep]
    -- the situation is that of the stop
    have rj := run_reachable hsf j
    have rk := run_reachable hsf (j + 1 + d)
    have hP : Equiv c.free (run c.free m j) (run c.free m (j + (1 + d))) := by
      rw [show j + (1 + d) = j + 1 + d by ring]
      refine (recording_equiv (c := c.free) hok ?_ ?_ (ginv_reachable h hg rk) (ginv_reachable h hg rj)
        (minv_run hsf h hg hni _) (minv_run hsf h hg hni _) h3 hst.recording (fun hc => ?_) ?_).symm
      · show Inv c.g c.cap _
        rw [h1, h2]; exact inv_reachable h rk
      · show Inv c.g c.cap _
        rw [h1, h2]; exact inv_reachable h rj
      · have hc' : cap = none := by rw [← h2]; exact hc
        have a := space_const hc' rk
        have b := space_const hc' rj
        simp only [Machine.core] at a b
        rw [a, b]
      · rw [← hst.st]; exact h4
    intro x hx
    induction x using Nat.strong_induction_on with
    | _ x ih =>
      intro a b hn
      rcases Nat.lt_or_ge x (j + 1 + d) with hlt | hge
      · exact hcov x hx hlt a b hn
      · obtain ⟨y, rfl⟩ : ∃ y, x = y + (1 + d) := ⟨x - (1 + d), by omega⟩
        exact ih y (by omega) (by omega) a b (hst.needs_periodic hok hP (by omega) hn)

end Kiter.Sim
