/-
Lemmas for C95: the trace in terms of the executions made.
-/
import Verif.Lemmas.Untimed
import Verif.Spec.PacketTrace
import Mathlib.Data.List.Range

set_option autoImplicit false

namespace Kiter.Untimed

section
variable {B : BaseGraph}

/-- Lines numbered from `a`. -/
def Numbered (a : ℕ) (L : List Packet) : Prop := L.map (fun l => l.pid) = List.range' a L.length

theorem Numbered.append {a : ℕ} {L M : List Packet} (h1 : Numbered a L) (h2 : Numbered (a + L.length) M) : Numbered a (L ++ M) := by
  unfold Numbered at *
  rw [List.map_append, h1, h2, List.length_append, List.range'_append_1]

theorem Numbered.mem {a : ℕ} {L : List Packet} (h : Numbered a L) {l : Packet} (hl : l ∈ L) : a ≤ l.pid ∧ l.pid < a + L.length := by
  have : l.pid ∈ L.map fun l => l.pid := List.mem_map_of_mem hl
  rw [h, List.mem_range'_1] at this
  exact this

theorem sendPackets_length (src dst : Int) (deps : List ℕ) : ∀ n previous count, (sendPackets src dst deps n previous count).length = n := by
  intro n
  induction n with
  | zero => intros; rfl
  | succ n ih => intro p c; rw [sendPackets, List.length_cons, ih]

theorem sendPackets_numbered (src dst : Int) (deps : List ℕ) : ∀ n previous count,
    Numbered count (sendPackets src dst deps n previous count) := by
  intro n
  induction n with
  | zero => intros; rfl
  | succ n ih =>
    intro p c
    have := ih c (c + 1)
    unfold Numbered at *
    rw [sendPackets, List.map_cons, this, List.length_cons, List.range'_succ]

theorem sendPackets_key (src dst : Int) (deps : List ℕ) : ∀ n previous count,
    (sendPackets src dst deps n previous count).map (fun l => (l.src, l.dst, l.duration)) = List.replicate n (src, dst, 0) := by
  intro n
  induction n with
  | zero => intros; rfl
  | succ n ih => intro p c; rw [sendPackets, List.map_cons, ih, List.replicate_succ]

theorem sendPackets_deps (src dst : Int) (deps : List ℕ) : ∀ n previous count, previous < count → (∀ d ∈ deps, d < count) →
    ∀ l ∈ sendPackets src dst deps n previous count, ∀ d ∈ l.deps, d < l.pid := by
  intro n
  induction n with
  | zero => intro p c _ _ l hl; simp [sendPackets] at hl
  | succ n ih =>
    intro p c hp hd l hl d hdl
    rw [sendPackets] at hl
    rcases List.mem_cons.1 hl with rfl | hl
    · rcases List.mem_append.1 hdl with h | h
      · exact hd d h
      · simp only [List.mem_singleton] at h
        subst h
        exact hp
    · exact ih c (c + 1) (by omega) (fun d h => (hd d h).trans (by omega)) l hl d hdl

theorem waits_mono {L M : List Packet} (h : ∀ l ∈ L, l ∈ M) {a b : ℕ} (hw : Waits L a b) : Waits M a b := by
  obtain ⟨l, hl, h1, h2⟩ := hw
  exact ⟨l, h l hl, h1, h2⟩

theorem waitsFor_mono {L M : List Packet} (h : ∀ l ∈ L, l ∈ M) {a b : ℕ} (hw : WaitsFor L a b) : WaitsFor M a b :=
  Relation.TransGen.lift id (fun _ _ => waits_mono h) _ _ hw

theorem reach_mono {L M : List Packet} (h : ∀ l ∈ L, l ∈ M) {a b : ℕ} (hw : Relation.ReflTransGen (Waits L) a b) :
    Relation.ReflTransGen (Waits M) a b := Relation.ReflTransGen.lift id (fun _ _ => waits_mono h) _ _ hw

/-- Each packet waits for the previous one: all lead to the last. -/
theorem sendPackets_chain (src dst : Int) (deps : List ℕ) : ∀ n previous count,
    (∀ l ∈ sendPackets src dst deps (n + 1) previous count,
      Relation.ReflTransGen (Waits (sendPackets src dst deps (n + 1) previous count)) l.pid (count + n)) ∧
    WaitsFor (sendPackets src dst deps (n + 1) previous count) previous (count + n) := by
  intro n
  induction n with
  | zero =>
    intro p c
    refine ⟨fun l hl => ?_, ?_⟩
    · simp only [sendPackets, List.mem_singleton] at hl
      subst hl
      exact .refl
    · refine .single ⟨_, List.mem_singleton.2 rfl, rfl, by simp⟩
  | succ n ih =>
    intro p c
    obtain ⟨h1, h2⟩ := ih c (c + 1)
    rw [show c + 1 + n = c + (n + 1) by omega] at h1 h2
    have hm : ∀ l ∈ sendPackets src dst deps (n + 1) c (c + 1), l ∈ sendPackets src dst deps (n + 1 + 1) p c := by
      intro l hl
      rw [sendPackets]
      exact List.mem_cons_of_mem _ hl
    have h3 : WaitsFor (sendPackets src dst deps (n + 1 + 1) p c) c (c + (n + 1)) := waitsFor_mono hm h2
    refine ⟨fun l hl => ?_, ?_⟩
    · rw [sendPackets] at hl
      rcases List.mem_cons.1 hl with rfl | hl
      · exact h3.to_reflTransGen
      · exact reach_mono hm (h1 l hl)
    · refine .head ⟨⟨src, dst, 0, c, deps ++ [p]⟩, by rw [sendPackets]; simp, rfl, by simp⟩ h3

/-- All the packets of an execution. -/
def sendAll (src : Int) (ps : Int) (deps : List ℕ) (compute : ℕ) : List BChannel → ℕ → List Packet
  | [], _ => []
  | c :: l, count => sendPackets src c.2.2.id deps (made c / ps).toNat compute count ++
      sendAll src ps deps compute l (count + (made c / ps).toNat)

/-- The last packets of the channels after these. -/
def edgesAfter (ps : Int) : List BChannel → ℕ → (Int → Option ℕ) → Int → Option ℕ
  | [], _, e => e
  | c :: l, count, e => edgesAfter ps l (count + (made c / ps).toNat)
      (Function.update e c.1.id (some (count + (made c / ps).toNat - 1)))

theorem foldlM_send (t : KTask) (deps : List ℕ) (compute : ℕ) {ps : Int} (hps : ps ≠ 0) : ∀ (l : List BChannel) (s s' : Trace),
    (∀ c ∈ l, 0 < made c) → s.psize = ps →
    (l.foldlM (send t deps compute) s = some s' ↔ (∀ c ∈ l, 0 < ps ∧ ps ∣ made c) ∧
      s' = { s with count := s.count + (sendAll t.id ps deps compute l s.count).length,
                    edge := edgesAfter ps l s.count s.edge,
                    lines := s.lines ++ sendAll t.id ps deps compute l s.count }) := by
  intro l
  induction l with
  | nil =>
    intro s s' _ _
    simp only [List.foldlM_nil, sendAll, edgesAfter, List.length_nil, add_zero, List.append_nil, List.not_mem_nil, false_imp_iff,
      implies_true, true_and]
    exact ⟨fun h => (Option.some.inj h).symm, fun h => congrArg some h.symm⟩
  | cons c l ih =>
    intro s s' hm hp
    have h0 := hm c (by simp)
    rw [List.foldlM_cons]
    unfold send
    simp only [hp, if_neg hps, if_neg h0.ne']
    by_cases hd : 0 < ps ∧ ps ∣ made c
    · rw [if_pos ⟨hd.1, h0.le, hd.2⟩]
      change List.foldlM (send t deps compute) _ l = some s' ↔ _
      rw [ih _ s' (fun c hc => hm c (by simp [hc])) rfl]
      have hlen : (sendAll t.id ps deps compute (c :: l) s.count).length = (made c / ps).toNat +
          (sendAll t.id ps deps compute l (s.count + (made c / ps).toNat)).length := by
        rw [sendAll, List.length_append, sendPackets_length]
      constructor
      · rintro ⟨h1, h2⟩
        refine ⟨fun x hx => ?_, ?_⟩
        · rcases List.mem_cons.1 hx with rfl | hx
          · exact hd
          · exact h1 x hx
        · rw [h2, hlen]
          simp only [sendAll, edgesAfter, List.append_assoc, Nat.add_assoc]
      · rintro ⟨h1, h2⟩
        refine ⟨fun x hx => h1 x (by simp [hx]), ?_⟩
        rw [h2, hlen]
        simp only [sendAll, edgesAfter, List.append_assoc, Nat.add_assoc]
    · rw [if_neg (by rintro ⟨h1, -, h2⟩; exact hd ⟨h1, h2⟩)]
      constructor
      · intro h; exact absurd h (by simp [bind, Option.bind])
      · rintro ⟨h1, -⟩
        exact absurd (h1 c (by simp)) hd

/-- The size of packets after an execution. -/
def sizeAfter (psize : Int) : List BChannel → Int
  | [] => psize
  | c :: _ => if psize = 0 then made c else psize

theorem foldlM_norm (t : KTask) (deps : List ℕ) (compute : ℕ) (l : List BChannel) (s : Trace) (hm : ∀ c ∈ l, 0 < made c) :
    l.foldlM (send t deps compute) s = l.foldlM (send t deps compute) { s with psize := sizeAfter s.psize l } := by
  cases l with
  | nil => rfl
  | cons c l =>
    rw [List.foldlM_cons, List.foldlM_cons]
    have : send t deps compute s c = send t deps compute { s with psize := sizeAfter s.psize (c :: l) } c := by
      unfold send sizeAfter
      have := hm c (by simp)
      by_cases h : s.psize = 0
      · simp [h]
      · simp [h]
    rw [this]

/-- What the outputs of an execution do. -/
theorem foldlM_outputs (t : KTask) (deps : List ℕ) (compute : ℕ) (l : List BChannel) (s s' : Trace) (hm : ∀ c ∈ l, 0 < made c) :
    l.foldlM (send t deps compute) s = some s' ↔
      (∀ c ∈ l, 0 < sizeAfter s.psize l ∧ sizeAfter s.psize l ∣ made c) ∧
      s' = { s with psize := sizeAfter s.psize l,
                    count := s.count + (sendAll t.id (sizeAfter s.psize l) deps compute l s.count).length,
                    edge := edgesAfter (sizeAfter s.psize l) l s.count s.edge,
                    lines := s.lines ++ sendAll t.id (sizeAfter s.psize l) deps compute l s.count } := by
  rw [foldlM_norm t deps compute l s hm]
  by_cases h : sizeAfter s.psize l = 0
  · cases l with
    | nil =>
      simp only [List.foldlM_nil, sendAll, edgesAfter, sizeAfter, List.length_nil, add_zero, List.append_nil, List.not_mem_nil,
        false_imp_iff, implies_true, true_and]
      exact ⟨fun h => (Option.some.inj h).symm, fun h => congrArg some h.symm⟩
    | cons c l =>
      exfalso
      simp only [sizeAfter] at h
      have := hm c (by simp)
      split at h <;> omega
  · rw [foldlM_send t deps compute h l _ s' hm rfl]

theorem sendAll_numbered (src ps : Int) (deps : List ℕ) (compute : ℕ) : ∀ (l : List BChannel) (count : ℕ),
    Numbered count (sendAll src ps deps compute l count) := by
  intro l
  induction l with
  | nil => intro _; rfl
  | cons c l ih =>
    intro count
    rw [sendAll]
    refine (sendPackets_numbered _ _ _ _ _ _).append ?_
    rw [sendPackets_length]
    exact ih _

theorem sendAll_key (src ps : Int) (deps : List ℕ) (compute : ℕ) : ∀ (l : List BChannel) (count : ℕ),
    (sendAll src ps deps compute l count).map (fun l => (l.src, l.dst, l.duration)) =
      l.flatMap fun c => List.replicate (c.1.inPhases.sum / ps).toNat (src, c.2.2.id, 0) := by
  intro l
  induction l with
  | nil => intro _; rfl
  | cons c l ih =>
    intro count
    rw [sendAll, List.map_append, sendPackets_key, ih, List.flatMap_cons]
    rfl

theorem sendAll_deps (src ps : Int) (deps : List ℕ) (compute : ℕ) : ∀ (l : List BChannel) (count : ℕ), compute < count →
    (∀ d ∈ deps, d < count) → ∀ x ∈ sendAll src ps deps compute l count, ∀ d ∈ x.deps, d < x.pid := by
  intro l
  induction l with
  | nil => intro _ _ _ x hx; simp [sendAll] at hx
  | cons c l ih =>
    intro count hc hd x hx
    rw [sendAll] at hx
    rcases List.mem_append.1 hx with hx | hx
    · exact sendPackets_deps _ _ _ _ _ _ hc hd x hx
    · exact ih _ (by omega) (fun d h => (hd d h).trans_le (by omega)) x hx

theorem edgesAfter_other (ps : Int) {i : Int} : ∀ (l : List BChannel) (count : ℕ) (e : Int → Option ℕ), (∀ c ∈ l, c.1.id ≠ i) →
    edgesAfter ps l count e i = e i := by
  intro l
  induction l with
  | nil => intros; rfl
  | cons c l ih =>
    intro count e h
    rw [edgesAfter, ih _ _ fun c hc => h c (by simp [hc]), Function.update_of_ne (h c (by simp)).symm]

/-- The last packet on each channel comes after the computation and the packets before it. -/
theorem sendAll_edges (src : Int) {ps : Int} (hps : 0 < ps) (deps : List ℕ) (compute : ℕ) : ∀ (l : List BChannel) (count : ℕ)
    (e : Int → Option ℕ), (l.map fun c => c.1.id).Nodup → (∀ c ∈ l, 0 < made c ∧ ps ∣ made c) →
    (∀ c ∈ l, ∃ p, edgesAfter ps l count e c.1.id = some p ∧ p < count + (sendAll src ps deps compute l count).length ∧
      WaitsFor (sendAll src ps deps compute l count) compute p) ∧
    ∀ x ∈ sendAll src ps deps compute l count, ∃ c ∈ l, c.2.2.id = x.dst ∧ ∃ p, edgesAfter ps l count e c.1.id = some p ∧
      Relation.ReflTransGen (Waits (sendAll src ps deps compute l count)) x.pid p := by
  intro l
  induction l with
  | nil => intro _ _ _ _; simp [sendAll]
  | cons c l ih =>
    intro count e hn hm
    rw [List.map_cons, List.nodup_cons] at hn
    obtain ⟨h1, h2⟩ := ih (count + (made c / ps).toNat) (Function.update e c.1.id (some (count + (made c / ps).toNat - 1))) hn.2
      fun x hx => hm x (by simp [hx])
    obtain ⟨hc0, q, hq⟩ := hm c (by simp)
    have hq0 : 0 < q := by
      rw [hq] at hc0
      exact pos_of_mul_pos_right hc0 hps.le
    have hdiv : made c / ps = q := by rw [hq, Int.mul_ediv_cancel_left _ hps.ne']
    obtain ⟨n, hnn⟩ : ∃ n : ℕ, (made c / ps).toNat = n + 1 := ⟨(made c / ps).toNat - 1, by rw [hdiv]; omega⟩
    have own : edgesAfter ps (c :: l) count e c.1.id = some (count + n) := by
      rw [edgesAfter, edgesAfter_other ps l _ _ fun x hx hc => hn.1 (by rw [← hc]; exact List.mem_map_of_mem (f := fun c : BChannel => c.1.id) hx),
        Function.update_self, hnn]
      rfl
    have hlen : (sendAll src ps deps compute (c :: l) count).length = n + 1 +
        (sendAll src ps deps compute l (count + (made c / ps).toNat)).length := by
      rw [sendAll, List.length_append, sendPackets_length, hnn]
    obtain ⟨k1, k2⟩ := sendPackets_chain src c.2.2.id deps n compute count
    have mA : ∀ x ∈ sendPackets src c.2.2.id deps (n + 1) compute count, x ∈ sendAll src ps deps compute (c :: l) count := by
      intro x hx; rw [sendAll, hnn]; exact List.mem_append_left _ hx
    have mB : ∀ x ∈ sendAll src ps deps compute l (count + (made c / ps).toNat), x ∈ sendAll src ps deps compute (c :: l) count := by
      intro x hx; rw [sendAll]; exact List.mem_append_right _ hx
    constructor
    · intro x hx
      rcases List.mem_cons.1 hx with rfl | hx
      · exact ⟨_, own, by omega, waitsFor_mono mA k2⟩
      · obtain ⟨p, p1, p2, p3⟩ := h1 x hx
        exact ⟨p, p1, by omega, waitsFor_mono mB p3⟩
    · intro x hx
      rw [sendAll] at hx
      rcases List.mem_append.1 hx with hx | hx
      · rw [hnn] at hx
        refine ⟨c, by simp, ?_, _, own, reach_mono mA (k1 x hx)⟩
        have := List.mem_map_of_mem (f := fun l : Packet => (l.src, l.dst, l.duration)) hx
        rw [sendPackets_key] at this
        have := List.eq_of_mem_replicate this
        simp only [Prod.mk.injEq] at this
        exact this.2.1.symm
      · obtain ⟨c', hc', e1, p, p1, p2⟩ := h2 x hx
        exact ⟨c', by simp [hc'], e1, p, p1, reach_mono mB p2⟩

end

end Kiter.Untimed
