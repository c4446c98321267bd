import Verif.Model.SCC
import Mathlib.Logic.Relation
import Mathlib.Tactic.Linarith

set_option autoImplicit false

namespace Kiter.SCC

/-- One step of a relation that avoids a list of vertices. -/
def Av (R : Int → Int → Prop) (vis : List Int) (a b : Int) : Prop := R a b ∧ a ∉ vis ∧ b ∉ vis

abbrev Path (R : Int → Int → Prop) (vis : List Int) : Int → Int → Prop := Relation.ReflTransGen (Av R vis)

theorem rtg_mono {r p : Int → Int → Prop} (h : ∀ a b, r a b → p a b) {a b : Int} (q : Relation.ReflTransGen r a b) :
    Relation.ReflTransGen p a b := by
  induction q with
  | refl => exact .refl
  | tail _ h1 ih => exact ih.tail (h _ _ h1)

theorem Path.mono {R : Int → Int → Prop} {v w : List Int} (h : ∀ x ∈ w, x ∈ v) {a b : Int} (p : Path R v a b) :
    Path R w a b :=
  rtg_mono (fun _ _ h1 => ⟨h1.1, fun h2 => h1.2.1 (h _ h2), fun h2 => h1.2.2 (h _ h2)⟩) p

/-- A path avoiding `vis` either avoids a further vertex `v` too or passes through it. -/
theorem path_split {R : Int → Int → Prop} {vis : List Int} (v : Int) {a b : Int} (p : Path R vis a b) :
    (Path R (v :: vis) a b) ∨ (Path R vis a v ∧ Path R vis v b) := by
  induction p with
  | refl => exact .inl .refl
  | @tail b c p1 h1 ih =>
    by_cases hv : b = v
    · exact .inr ⟨hv ▸ p1, hv ▸ .single h1⟩
    · by_cases hc : c = v
      · subst hc; exact .inr ⟨p1.tail h1, .refl⟩
      · rcases ih with ih | ih
        · exact .inl (ih.tail ⟨h1.1, by simp [hv, h1.2.1], by simp [hc, h1.2.2]⟩)
        · exact .inr ⟨ih.1, ih.2.tail h1⟩

/-- A set closed under the steps that avoid `vis` is not left by a path that avoids `vis`. -/
theorem path_closed {R : Int → Int → Prop} {vis N : List Int} (hN : ∀ x ∈ N, ∀ y, R x y → y ∈ vis ∨ y ∈ N) {a b : Int}
    (p : Path R vis a b) (ha : a ∈ N) : b ∈ N := by
  induction p with
  | refl => exact ha
  | tail p1 h1 ih => exact (hN _ ih _ h1.1).resolve_left h1.2.2

theorem path_avoid {R : Int → Int → Prop} {vis N : List Int} (hN : ∀ x ∈ N, ∀ y, R x y → y ∈ vis ∨ y ∈ N) {a b : Int}
    (p : Path R vis a b) (hb : b ∉ N) : Path R (N ++ vis) a b := by
  induction p using Relation.ReflTransGen.head_induction_on with
  | refl => exact .refl
  | @head a c h1 p1 ih =>
    refine .head ⟨h1.1, ?_, ?_⟩ ih
    · simp only [List.mem_append, not_or]
      exact ⟨fun ha => hb (path_closed hN (.head h1 p1) ha), h1.2.1⟩
    · simp only [List.mem_append, not_or]
      exact ⟨fun ha => hb (path_closed hN p1 ha), h1.2.2⟩

/-- What a search that starts with visited list `vis` from the vertices `ns` adds: `N`, the last finished first. -/
structure Post (R : Int → Int → Prop) (vis ns N : List Int) : Prop where
  nodup : N.Nodup
  fresh : ∀ x ∈ N, x ∉ vis
  reach : ∀ x ∈ N, ∃ n ∈ ns, n ∉ vis ∧ Path R vis n x
  cover : ∀ n ∈ ns, n ∈ vis ∨ n ∈ N
  closed : ∀ x ∈ N, ∀ y, R x y → y ∈ vis ∨ y ∈ N
  order : ∀ A z B, N = A ++ z :: B → ∀ u ∈ B, Path R vis u z →
    ∃ w, w ∈ A ++ [z] ∧ Path R vis w u ∧ Path R vis u w

theorem Post.nil {R : Int → Int → Prop} {vis ns : List Int} (h : ∀ n ∈ ns, n ∈ vis) : Post R vis ns [] :=
  ⟨by simp, by simp, by simp, fun n hn => .inl (h n hn), by simp, fun A z B h => by simp at h⟩

theorem Post.visit {R : Int → Int → Prop} {vis ns N : List Int} {v : Int} (hv : v ∉ vis) (hns : ∀ n, n ∈ ns ↔ R v n)
    (h : Post R (v :: vis) ns N) : Post R vis [v] (v :: N) := by
  have down : ∀ x ∈ N, Path R vis v x := fun x hx => by
    obtain ⟨n, hn, hn2, p⟩ := h.reach x hx
    refine .head ⟨(hns n).mp hn, hv, fun h2 => hn2 (List.mem_cons_of_mem _ h2)⟩ (p.mono fun y hy => List.mem_cons_of_mem _ hy)
  constructor
  · exact List.nodup_cons.mpr ⟨fun hm => h.fresh v hm List.mem_cons_self, h.nodup⟩
  · intro x hx
    rcases List.mem_cons.mp hx with rfl | hx
    · exact hv
    · exact fun h2 => h.fresh x hx (List.mem_cons_of_mem _ h2)
  · intro x hx
    refine ⟨v, by simp, hv, ?_⟩
    rcases List.mem_cons.mp hx with rfl | hx
    · exact .refl
    · exact down x hx
  · intro n hn; simp only [List.mem_singleton] at hn; subst hn; exact .inr List.mem_cons_self
  · intro x hx y hy
    rcases List.mem_cons.mp hx with rfl | hx
    · rcases h.cover y ((hns y).mpr hy) with h1 | h1
      · rcases List.mem_cons.mp h1 with rfl | h1
        · exact .inr List.mem_cons_self
        · exact .inl h1
      · exact .inr (List.mem_cons_of_mem _ h1)
    · rcases h.closed x hx y hy with h1 | h1
      · rcases List.mem_cons.mp h1 with rfl | h1
        · exact .inr List.mem_cons_self
        · exact .inl h1
      · exact .inr (List.mem_cons_of_mem _ h1)
  · intro A z B hd u hu p
    cases A with
    | nil =>
      simp only [List.nil_append, List.cons.injEq] at hd
      obtain ⟨rfl, rfl⟩ := hd
      exact ⟨v, by simp, down u hu, p⟩
    | cons a A =>
      simp only [List.cons_append, List.cons.injEq] at hd
      obtain ⟨rfl, rfl⟩ := hd
      have huN : u ∈ A ++ z :: B := by simp [hu]
      rcases path_split v p with p1 | p1
      · obtain ⟨w, hw, q1, q2⟩ := h.order A z B rfl u hu p1
        exact ⟨w, List.mem_cons_of_mem _ hw, q1.mono fun y hy => List.mem_cons_of_mem _ hy,
          q2.mono fun y hy => List.mem_cons_of_mem _ hy⟩
      · exact ⟨v, by simp, down u huN, p1.1⟩

theorem Post.append {R : Int → Int → Prop} {vis ns ms N M : List Int} (h : Post R vis ns N) (g : Post R (N ++ vis) ms M) :
    Post R vis (ns ++ ms) (M ++ N) := by
  constructor
  · refine List.nodup_append.mpr ⟨g.nodup, h.nodup, fun x hx y hy hxy => ?_⟩
    subst hxy; exact g.fresh x hx (List.mem_append_left _ hy)
  · intro x hx
    rcases List.mem_append.mp hx with hx | hx
    · exact fun h2 => g.fresh x hx (List.mem_append_right _ h2)
    · exact h.fresh x hx
  · intro x hx
    rcases List.mem_append.mp hx with hx | hx
    · obtain ⟨n, hn, hn2, p⟩ := g.reach x hx
      exact ⟨n, List.mem_append_right _ hn, fun h2 => hn2 (List.mem_append_right _ h2),
        p.mono fun y hy => List.mem_append_right _ hy⟩
    · obtain ⟨n, hn, hn2, p⟩ := h.reach x hx
      exact ⟨n, List.mem_append_left _ hn, hn2, p⟩
  · intro n hn
    simp only [List.mem_append]
    rcases List.mem_append.mp hn with hn | hn
    · rcases h.cover n hn with h1 | h1 <;> simp [h1]
    · rcases g.cover n hn with h1 | h1
      · rcases List.mem_append.mp h1 with h1 | h1 <;> simp [h1]
      · simp [h1]
  · intro x hx y hy
    simp only [List.mem_append]
    rcases List.mem_append.mp hx with hx | hx
    · rcases g.closed x hx y hy with h1 | h1
      · rcases List.mem_append.mp h1 with h1 | h1 <;> simp [h1]
      · simp [h1]
    · rcases h.closed x hx y hy with h1 | h1 <;> simp [h1]
  · intro A z B hd u hu p
    have hzu : z ∈ M ++ N := by rw [hd]; simp
    rw [List.append_eq_append_iff] at hd
    rcases hd with ⟨C, hA, hN⟩ | ⟨C, hM, hB⟩
    · -- z in N
      obtain ⟨w, hw, q⟩ := h.order C z B hN u hu p
      refine ⟨w, ?_, q⟩
      rw [hA]
      simp only [List.mem_append] at hw ⊢
      rcases hw with hw | hw
      · exact .inl (.inr hw)
      · exact .inr hw
    · cases C with
      | nil =>
        simp only [List.nil_append] at hB
        simp only [List.append_nil] at hM
        obtain ⟨w, hw, q⟩ := h.order [] z B (by simpa using hB.symm) u hu p
        refine ⟨w, ?_, q⟩
        simp only [List.nil_append] at hw
        exact List.mem_append_right _ hw
      | cons c C =>
        simp only [List.cons_append, List.cons.injEq] at hB
        obtain ⟨rfl, rfl⟩ := hB
        have hzM : z ∈ M := by rw [hM]; simp
        have hzN : z ∉ N := fun h2 => g.fresh z hzM (List.mem_append_left _ h2)
        have p1 := path_avoid h.closed p hzN
        rcases List.mem_append.mp hu with hu | hu
        · obtain ⟨w, hw, q1, q2⟩ := g.order A z C hM u hu p1
          exact ⟨w, hw, q1.mono fun y hy => List.mem_append_right _ hy, q2.mono fun y hy => List.mem_append_right _ hy⟩
        · exact absurd (path_closed h.closed p hu) hzN

/-- The relation of a channel from `a` to `b`. -/
def Graph.Edge (g : Graph) (a b : Int) : Prop := (a, b) ∈ g.edges

theorem mem_succ {g : Graph} {v n : Int} : n ∈ g.succ v ↔ g.Edge v n := by
  unfold Graph.succ Graph.Edge
  simp only [List.mem_map, List.mem_filter, decide_eq_true_eq]
  constructor
  · rintro ⟨⟨a, b⟩, ⟨h, rfl⟩, rfl⟩; exact h
  · intro h; exact ⟨(v, n), ⟨h, rfl⟩, rfl⟩

theorem mem_pred {g : Graph} {v n : Int} : n ∈ g.pred v ↔ g.Edge n v := by
  unfold Graph.pred Graph.Edge
  simp only [List.mem_map, List.mem_filter, decide_eq_true_eq]
  constructor
  · rintro ⟨⟨a, b⟩, ⟨h, rfl⟩, rfl⟩; exact h
  · intro h; exact ⟨(n, v), ⟨h, rfl⟩, rfl⟩

/-- Number of tasks not visited yet. -/
def left (g : Graph) (vis : List Int) : Nat := (g.ids.filter fun x => x ∉ vis).length

theorem left_mono {g : Graph} {v w : List Int} (h : ∀ x ∈ v, x ∈ w) : left g w ≤ left g v := by
  unfold left
  rw [← List.countP_eq_length_filter, ← List.countP_eq_length_filter]
  apply List.countP_mono_left
  intro x _ hx
  simp only [decide_eq_true_eq] at hx ⊢
  exact fun h2 => hx (h x h2)

theorem left_cons {g : Graph} {vis : List Int} {v : Int} (hv : v ∈ g.ids) (hn : v ∉ vis) :
    left g (v :: vis) < left g vis := by
  unfold left
  have : g.ids.filter (fun x => x ∉ v :: vis) = (g.ids.filter fun x => x ∉ vis).filter fun x => x ≠ v := by
    rw [List.filter_filter]
    apply List.filter_congr
    intro x _
    simp only [List.mem_cons, not_or, ne_eq, decide_not, Bool.decide_and]
  rw [this]
  apply List.length_filter_lt_length_iff_exists.mpr
  exact ⟨v, by simp [hv, hn], by simp⟩

/-- The two searches run to the end when enough calls may nest, and add what `Post` says. -/
theorem fold_post {g : Graph} {R : Int → Int → Prop} {F : Int → List Int × List Int → Option (List Int × List Int)}
    {k : Nat} (hF : ∀ v ∈ g.ids, ∀ s : List Int × List Int, left g s.1 < k →
      ∃ N t, F v s = some t ∧ Post R s.1 [v] N ∧ (∀ x, x ∈ t.1 ↔ x ∈ N ++ s.1) ∧ t.2 = N ++ s.2)
    (ns : List Int) (hns : ∀ n ∈ ns, n ∈ g.ids) (s : List Int × List Int) (hs : left g s.1 < k) :
    ∃ N t, ns.foldlM (fun s n => F n s) s = some t ∧ Post R s.1 ns N ∧ (∀ x, x ∈ t.1 ↔ x ∈ N ++ s.1) ∧ t.2 = N ++ s.2 := by
  induction ns generalizing s with
  | nil => exact ⟨[], s, by simp, Post.nil (by simp), by simp, by simp⟩
  | cons n ns ih =>
    obtain ⟨N, t, h1, h2, h3, h4⟩ := hF n (hns n List.mem_cons_self) s hs
    obtain ⟨M, u, k1, k2, k3, k4⟩ := ih (fun m hm => hns m (List.mem_cons_of_mem _ hm)) t
      (lt_of_le_of_lt (left_mono fun x hx => (h3 x).mpr (List.mem_append_right _ hx)) hs)
    refine ⟨M ++ N, u, ?_, ?_, ?_, ?_⟩
    · rw [List.foldlM_cons, h1]; exact k1
    · have : Post R (N ++ s.1) ns M := by
        have e : ∀ x, x ∈ t.1 ↔ x ∈ N ++ s.1 := h3
        have pe : ∀ a b, Path R t.1 a b ↔ Path R (N ++ s.1) a b := fun a b =>
          ⟨fun p => p.mono fun x hx => (e x).mpr hx, fun p => p.mono fun x hx => (e x).mp hx⟩
        exact ⟨k2.nodup, fun x hx h => k2.fresh x hx ((e x).mpr h),
          fun x hx => by
            obtain ⟨n, a, b, c⟩ := k2.reach x hx
            exact ⟨n, a, fun h => b ((e n).mpr h), (pe _ _).mp c⟩,
          fun n hn => (k2.cover n hn).imp_left (e n).mp, fun x hx y hy => (k2.closed x hx y hy).imp_left (e y).mp,
          fun A z B hd u hu p => by
            obtain ⟨w, a, b, c⟩ := k2.order A z B hd u hu ((pe _ _).mpr p)
            exact ⟨w, a, (pe _ _).mp b, (pe _ _).mp c⟩⟩
      exact h2.append this
    · intro x; rw [k3]; simp only [List.mem_append, h3]; tauto
    · rw [k4, h4, List.append_assoc]

theorem dfsStack_post {g : Graph} (hg : ∀ e ∈ g.edges, e.1 ∈ g.ids ∧ e.2 ∈ g.ids) (f : Nat) (v : Int) (hv : v ∈ g.ids)
    (s : List Int × List Int) (hs : left g s.1 < f) :
    ∃ N t, dfsStack g f v s = some t ∧ Post g.Edge s.1 [v] N ∧ (∀ x, x ∈ t.1 ↔ x ∈ N ++ s.1) ∧ t.2 = N ++ s.2 := by
  induction f generalizing v s with
  | zero => omega
  | succ f ih =>
    by_cases hm : v ∈ s.1
    · exact ⟨[], s, by simp [dfsStack, hm], Post.nil (by simpa using hm), by simp, by simp⟩
    · obtain ⟨N, t, h1, h2, h3, h4⟩ := fold_post (g := g) (F := dfsStack g f) (k := f) (R := g.Edge)
        (fun v hv s hs => ih v hv s hs) (g.succ v) (fun n hn => (hg _ (mem_succ.mp hn)).2) (v :: s.1, s.2)
        (by have := left_cons hv hm; simp only; omega)
      refine ⟨v :: N, (t.1, v :: t.2), ?_, h2.visit hm (fun n => mem_succ), ?_, ?_⟩
      · simp only [dfsStack, hm, if_false]
        rw [h1]; rfl
      · intro x; simp only [h3, List.mem_append, List.mem_cons]; tauto
      · simp [h4]

/-- What a search adds, as a set. -/
structure Seen (R : Int → Int → Prop) (vis ns N : List Int) : Prop where
  nodup : N.Nodup
  fresh : ∀ x ∈ N, x ∉ vis
  reach : ∀ x ∈ N, ∃ n ∈ ns, n ∉ vis ∧ Path R vis n x
  cover : ∀ n ∈ ns, n ∈ vis ∨ n ∈ N
  closed : ∀ x ∈ N, ∀ y, R x y → y ∈ vis ∨ y ∈ N

theorem Seen.visit {R : Int → Int → Prop} {vis ns N : List Int} {v : Int} (hv : v ∉ vis) (hns : ∀ n, n ∈ ns ↔ R v n)
    (h : Seen R (v :: vis) ns N) : Seen R vis [v] (v :: N) := by
  have down : ∀ x ∈ N, Path R vis v x := fun x hx => by
    obtain ⟨n, hn, hn2, p⟩ := h.reach x hx
    refine .head ⟨(hns n).mp hn, hv, fun h2 => hn2 (List.mem_cons_of_mem _ h2)⟩ (p.mono fun y hy => List.mem_cons_of_mem _ hy)
  constructor
  · exact List.nodup_cons.mpr ⟨fun hm => h.fresh v hm List.mem_cons_self, h.nodup⟩
  · intro x hx
    rcases List.mem_cons.mp hx with rfl | hx
    · exact hv
    · exact fun h2 => h.fresh x hx (List.mem_cons_of_mem _ h2)
  · intro x hx
    refine ⟨v, by simp, hv, ?_⟩
    rcases List.mem_cons.mp hx with rfl | hx
    · exact .refl
    · exact down x hx
  · intro n hn; simp only [List.mem_singleton] at hn; subst hn; exact .inr List.mem_cons_self
  · intro x hx y hy
    have key : y ∈ v :: vis ∨ y ∈ N → y ∈ vis ∨ y ∈ v :: N := by
      simp only [List.mem_cons]; tauto
    rcases List.mem_cons.mp hx with rfl | hx
    · exact key (h.cover y ((hns y).mpr hy))
    · exact key (h.closed x hx y hy)

theorem Seen.append {R : Int → Int → Prop} {vis ns ms N M V : List Int} (h : Seen R vis ns N)
    (hV : ∀ x, x ∈ V ↔ x ∈ vis ∨ x ∈ N) (g : Seen R V ms M) : Seen R vis (ns ++ ms) (N ++ M) := by
  constructor
  · refine List.nodup_append.mpr ⟨h.nodup, g.nodup, fun x hx y hy hxy => ?_⟩
    subst hxy; exact g.fresh x hy ((hV x).mpr (.inr hx))
  · intro x hx
    rcases List.mem_append.mp hx with hx | hx
    · exact h.fresh x hx
    · exact fun h2 => g.fresh x hx ((hV x).mpr (.inl h2))
  · intro x hx
    rcases List.mem_append.mp hx with hx | hx
    · obtain ⟨n, hn, hn2, p⟩ := h.reach x hx
      exact ⟨n, List.mem_append_left _ hn, hn2, p⟩
    · obtain ⟨n, hn, hn2, p⟩ := g.reach x hx
      exact ⟨n, List.mem_append_right _ hn, fun h2 => hn2 ((hV n).mpr (.inl h2)),
        p.mono fun y hy => (hV y).mpr (.inl hy)⟩
  · intro n hn
    simp only [List.mem_append]
    rcases List.mem_append.mp hn with hn | hn
    · have := h.cover n hn; tauto
    · have := g.cover n hn; rw [hV] at this; tauto
  · intro x hx y hy
    simp only [List.mem_append]
    rcases List.mem_append.mp hx with hx | hx
    · have := h.closed x hx y hy; tauto
    · have := g.closed x hx y hy; rw [hV] at this; tauto

theorem dfsTranspose_seen {g : Graph} (hg : ∀ e ∈ g.edges, e.1 ∈ g.ids ∧ e.2 ∈ g.ids) (f : Nat) (v : Int) (hv : v ∈ g.ids)
    (s : List Int × List Int) (hs : left g s.1 < f) :
    ∃ N t, dfsTranspose g f v s = some t ∧ Seen (fun a b => g.Edge b a) s.1 [v] N ∧
      (∀ x, x ∈ t.1 ↔ x ∈ s.1 ∨ x ∈ N) ∧ t.2 = s.2 ++ N := by
  induction f generalizing v s with
  | zero => omega
  | succ f ih =>
    by_cases hm : v ∈ s.1
    · refine ⟨[], s, by simp [dfsTranspose, hm], ⟨by simp, by simp, by simp, ?_, by simp⟩, by simp, by simp⟩
      intro n hn; simp only [List.mem_singleton] at hn; subst hn; exact .inl hm
    · have main : ∀ ns : List Int, (∀ n ∈ ns, n ∈ g.ids) → ∀ s : List Int × List Int, left g s.1 < f →
          ∃ N t, ns.foldlM (fun s n => dfsTranspose g f n s) s = some t ∧ Seen (fun a b => g.Edge b a) s.1 ns N ∧
            (∀ x, x ∈ t.1 ↔ x ∈ s.1 ∨ x ∈ N) ∧ t.2 = s.2 ++ N := by
        intro ns
        induction ns with
        | nil => intro _ s _; exact ⟨[], s, by simp, ⟨by simp, by simp, by simp, by simp, by simp⟩, by simp, by simp⟩
        | cons n ns ih2 =>
          intro hns s hs
          obtain ⟨N, t, h1, h2, h3, h4⟩ := ih n (hns n List.mem_cons_self) s hs
          obtain ⟨M, u, k1, k2, k3, k4⟩ := ih2 (fun m hm => hns m (List.mem_cons_of_mem _ hm)) t
            (lt_of_le_of_lt (left_mono fun x hx => (h3 x).mpr (.inl hx)) hs)
          refine ⟨N ++ M, u, by rw [List.foldlM_cons, h1]; exact k1, h2.append h3 k2, ?_, ?_⟩
          · intro x; rw [k3, h3]; simp only [List.mem_append]; tauto
          · rw [k4, h4, List.append_assoc]
      obtain ⟨N, t, h1, h2, h3, h4⟩ := main (g.pred v) (fun n hn => (hg _ (mem_pred.mp hn)).1) (v :: s.1, s.2 ++ [v])
        (by have := left_cons hv hm; simp only; omega)
      refine ⟨v :: N, t, ?_, h2.visit hm (fun n => mem_pred), ?_, ?_⟩
      · simp only [dfsTranspose, hm, if_false]; exact h1
      · intro x; simp only [h3, List.mem_cons]; tauto
      · simp [h4]

end Kiter.SCC
