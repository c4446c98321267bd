/-
Lemmas on the routing of models/NoCGraph.cpp: invariant of the exploration and the loop over the predecessors.
-/
import Verif.Model.NoCGraph
import Verif.Spec.NoCGraph
import Mathlib.Data.List.Induction
import Mathlib.Data.List.Chain
import Mathlib.Data.List.Range
import Mathlib.Tactic.Push
import Mathlib.Data.List.Perm.Subperm
import Mathlib.Data.List.Nodup

set_option autoImplicit false

namespace Kiter.NoC

theorem below_some {x : ℕ} {b : Option ℕ} : below (some x) b = true ↔ ∀ y, b = some y → x < y := by
  cases b <;> simp [below]

theorem below_none (b : Option ℕ) : below none b = false := rfl

/-- What `choose` returns. -/
theorem choose_fold (s : Tables) (l : List ℕ) :
    let r := l.foldl (fun (acc : Option ℕ × Option ℕ) j =>
      if s.visited j then acc else if below (s.cost j) acc.2 then (some j, s.cost j) else acc) (none, none)
    (r = (none, none) ∧ ∀ j ∈ l, s.visited j = false → s.cost j = none) ∨
      ∃ v c, r = (some v, some c) ∧ v ∈ l ∧ s.visited v = false ∧ s.cost v = some c ∧
        ∀ j ∈ l, s.visited j = false → ∀ c', s.cost j = some c' → c ≤ c' := by
  induction l using List.reverseRecOn with
  | nil => left; simp
  | append_singleton l j ih =>
    dsimp only at ih ⊢
    rw [List.foldl_append, List.foldl_cons, List.foldl_nil]
    rcases ih with ⟨h, hl⟩ | ⟨v, c, h, hv, hn, hc, hl⟩
    · rw [h]
      by_cases hj : s.visited j = true
      · left
        rw [if_pos hj]
        refine ⟨rfl, fun i hi => ?_⟩
        rcases List.mem_append.mp hi with hi | hi
        · exact hl i hi
        · rw [List.mem_singleton.mp hi]; intro h; rw [h] at hj; cases hj
      · rw [if_neg hj]
        cases hcj : s.cost j with
        | none =>
          left
          refine ⟨by simp [below], fun i hi => ?_⟩
          rcases List.mem_append.mp hi with hi | hi
          · exact hl i hi
          · rw [List.mem_singleton.mp hi]; exact fun _ => hcj
        | some c =>
          right
          refine ⟨j, c, by simp [below], by simp, by simpa using hj, hcj, fun i hi hvi c' hc' => ?_⟩
          rcases List.mem_append.mp hi with hi | hi
          · rw [hl i hi hvi] at hc'; cases hc'
          · rw [List.mem_singleton.mp hi, hcj] at hc'; cases hc'; exact le_refl _
    · rw [h]
      by_cases hj : s.visited j = true
      · right
        rw [if_pos hj]
        refine ⟨v, c, rfl, by simp [hv], hn, hc, fun i hi => ?_⟩
        rcases List.mem_append.mp hi with hi | hi
        · exact hl i hi
        · rw [List.mem_singleton.mp hi]; intro h; rw [h] at hj; cases hj
      · rw [if_neg hj]
        right
        by_cases hb : below (s.cost j) (some c) = true
        · rw [if_pos hb]
          cases hcj : s.cost j with
          | none => rw [hcj] at hb; cases hb
          | some x =>
            rw [hcj] at hb
            have hx : x < c := below_some.mp hb c rfl
            refine ⟨j, x, rfl, by simp, by simpa using hj, hcj, fun i hi hvi c' hc' => ?_⟩
            rcases List.mem_append.mp hi with hi | hi
            · exact hx.le.trans (hl i hi hvi c' hc')
            · rw [List.mem_singleton.mp hi, hcj] at hc'; cases hc'; exact le_refl _
        · rw [if_neg hb]
          refine ⟨v, c, rfl, by simp [hv], hn, hc, fun i hi hvi c' hc' => ?_⟩
          rcases List.mem_append.mp hi with hi | hi
          · exact hl i hi hvi c' hc'
          · rw [List.mem_singleton.mp hi] at hc'
            rw [hc', below_some] at hb
            push Not at hb
            obtain ⟨y, hy, h⟩ := hb
            cases hy; exact h

theorem choose_some {V : ℕ} {s : Tables} {v : ℕ} (h : choose V s = some v) : v < V ∧ s.visited v = false ∧
    ∃ c, s.cost v = some c ∧ ∀ j < V, s.visited j = false → ∀ c', s.cost j = some c' → c ≤ c' := by
  have := choose_fold s (List.range V)
  dsimp only at this
  unfold choose at h
  rcases this with ⟨e, -⟩ | ⟨v', c, e, hv, hn, hc, hl⟩
  · rw [e] at h; cases h
  · rw [e] at h; cases h
    exact ⟨List.mem_range.mp hv, hn, c, hc, fun j hj => hl j (List.mem_range.mpr hj)⟩

theorem choose_none {V : ℕ} {s : Tables} (h : choose V s = none) : ∀ j < V, s.visited j = false → s.cost j = none := by
  have := choose_fold s (List.range V)
  dsimp only at this
  unfold choose at h
  rcases this with ⟨e, hl⟩ | ⟨v', c, e, -⟩
  · exact fun j hj => hl j (List.mem_range.mpr hj)
  · rw [e] at h; cases h

/-- Invariant of the tables: `R` are the usable links, `Rc` those already examined, `w` their utilisations. -/
structure Inv (R Rc : ℕ → ℕ → Prop) (w : ℕ → ℕ → Int) (V u : ℕ) (s : Tables) : Prop where
  src : s.cost u = some 0
  back : ∀ b c, s.cost b = some c → b ≠ u → ∃ a c', s.prev b = some a ∧ s.visited a = true ∧ R a b ∧
    s.cost a = some c' ∧ c = c' + 1 ∧ s.util b = some (w a b)
  unknown : ∀ b, s.cost b = none → s.prev b = none
  vis : ∀ a, s.visited a = true → ∃ c, s.cost a = some c
  bound : ∀ b c, s.cost b = some c → b < V
  close : ∀ a b ca, s.visited a = true → Rc a b → s.cost a = some ca → ∃ cb, s.cost b = some cb ∧ cb ≤ ca + 1 ∧
    (cb = ca + 1 → ∃ x, s.util b = some x ∧ x ≤ w a b)
  order : ∀ a b ca cb, s.visited a = true → s.visited b = false → s.cost a = some ca → s.cost b = some cb → ca ≤ cb

/-- While the links of `vid` are examined, `vid` is a visited node with the largest cost. -/
structure Mid (R Rc : ℕ → ℕ → Prop) (w : ℕ → ℕ → Int) (V u vid c : ℕ) (s : Tables) : Prop where
  inv : Inv R Rc w V u s
  visited : s.visited vid = true
  cost : s.cost vid = some c
  top : ∀ a ca, s.visited a = true → s.cost a = some ca → ca ≤ c

section
variable {R Rc : ℕ → ℕ → Prop} {w : ℕ → ℕ → Int} {V u vid c : ℕ} {s : Tables}

theorem Mid.skip (h : Mid R Rc w V u vid c s) {dst : ℕ} (hd : s.visited dst = true) :
    Mid R (fun a b => Rc a b ∨ (a = vid ∧ b = dst)) w V u vid c s := by
  refine ⟨⟨h.inv.src, h.inv.back, h.inv.unknown, h.inv.vis, h.inv.bound, ?_, h.inv.order⟩, h.visited, h.cost, h.top⟩
  rintro a b ca ha (hr | ⟨rfl, rfl⟩) hca
  · exact h.inv.close a b ca ha hr hca
  · rw [h.cost] at hca; cases hca
    obtain ⟨cb, hcb⟩ := h.inv.vis b hd
    have := h.top b cb hd hcb
    exact ⟨cb, hcb, by omega, by omega⟩

theorem improve_visited (vid alt : ℕ) (x : Int) (s : Tables) (dst : ℕ) : (improve vid alt x s dst).visited = s.visited := by
  unfold improve; split_ifs <;> rfl

theorem Mid.step (h : Mid R Rc w V u vid c s) {dst : ℕ} (hR : R vid dst) (hV : dst < V) (hd : s.visited dst = false) :
    Mid R (fun a b => Rc a b ∨ (a = vid ∧ b = dst)) w V u vid c (improve vid (c + 1) (w vid dst) s dst) := by
  have hv : ∀ a, s.visited a = true → a ≠ dst := by rintro a ha rfl; rw [hd] at ha; cases ha
  unfold improve
  split_ifs with hif
  · have hu : dst ≠ u := by
      rintro rfl
      rcases hif with ⟨h1, -⟩ | h1
      · rw [h.inv.src] at h1; cases h1
      · have := below_some.mp h1 0 h.inv.src; omega
    have hle : ∀ x, s.cost dst = some x → c + 1 ≤ x := by
      intro x hx
      rcases hif with ⟨h1, -⟩ | h1
      · rw [hx] at h1; cases h1; exact le_refl _
      · exact (below_some.mp h1 x hx).le
    refine ⟨⟨?_, ?_, ?_, ?_, ?_, ?_, ?_⟩, h.visited, ?_, ?_⟩
    · simp only [Function.update_of_ne hu.symm]; exact h.inv.src
    · intro b cb hcb hbu
      by_cases hb : b = dst
      · subst hb
        simp only [Function.update_self, Option.some.injEq] at hcb
        refine ⟨vid, c, by simp, h.visited, hR, ?_, hcb.symm, by simp⟩
        simp only [Function.update_of_ne (hv _ h.visited)]; exact h.cost
      · simp only [Function.update_of_ne hb] at hcb
        obtain ⟨a, c', h1, h2, h3, h4, h5, h6⟩ := h.inv.back b cb hcb hbu
        refine ⟨a, c', ?_, h2, h3, ?_, h5, ?_⟩
        · simp only [Function.update_of_ne hb]; exact h1
        · simp only [Function.update_of_ne (hv a h2)]; exact h4
        · simp only [Function.update_of_ne hb]; exact h6
    · intro b hb
      by_cases hb' : b = dst
      · subst hb'; simp at hb
      · simp only [Function.update_of_ne hb'] at hb ⊢; exact h.inv.unknown b hb
    · intro a ha
      simp only [Function.update_of_ne (hv a ha)]; exact h.inv.vis a ha
    · intro b cb hcb
      by_cases hb : b = dst
      · rw [hb]; exact hV
      · simp only [Function.update_of_ne hb] at hcb; exact h.inv.bound b cb hcb
    · intro a b ca ha hr hca
      simp only [Function.update_of_ne (hv a ha)] at hca
      by_cases hb : b = dst
      · subst hb
        refine ⟨c + 1, by simp, ?_⟩
        rcases hr with hr | ⟨rfl, -⟩
        · obtain ⟨cb, h1, h2, h3⟩ := h.inv.close a b ca ha hr hca
          have h4 := hle cb h1
          refine ⟨by omega, fun he => ⟨w vid b, by simp, ?_⟩⟩
          obtain ⟨x, hx, hxw⟩ := h3 (by omega)
          have hcb : cb = c + 1 := by omega
          rcases hif with ⟨-, h5⟩ | h5
          · rw [hx] at h5
            have : w vid b < x := by simpa using h5
            omega
          · have := below_some.mp h5 cb h1; omega
        · rw [h.cost] at hca; cases hca
          exact ⟨le_refl _, fun _ => ⟨w a b, by simp, le_refl _⟩⟩
      · simp only [Function.update_of_ne hb]
        rcases hr with hr | ⟨-, rfl⟩
        · exact h.inv.close a b ca ha hr hca
        · exact absurd rfl hb
    · intro a b ca cb ha hb hca hcb
      simp only [Function.update_of_ne (hv a ha)] at hca
      by_cases hb' : b = dst
      · subst hb'
        simp only [Function.update_self, Option.some.injEq] at hcb
        have := h.top a ca ha hca
        omega
      · simp only [Function.update_of_ne hb'] at hcb
        exact h.inv.order a b ca cb ha hb hca hcb
    · simp only [Function.update_of_ne (hv _ h.visited)]; exact h.cost
    · intro a ca ha hca
      simp only [Function.update_of_ne (hv a ha)] at hca
      exact h.top a ca ha hca
  · refine ⟨⟨h.inv.src, h.inv.back, h.inv.unknown, h.inv.vis, h.inv.bound, ?_, h.inv.order⟩, h.visited, h.cost, h.top⟩
    rintro a b ca ha (hr | ⟨rfl, rfl⟩) hca
    · exact h.inv.close a b ca ha hr hca
    · rw [h.cost] at hca; cases hca
      push Not at hif
      obtain ⟨h1, h2⟩ := hif
      rw [ne_eq, below_some] at h2
      push Not at h2
      obtain ⟨cb, hcb, hle⟩ := h2
      refine ⟨cb, hcb, hle, fun he => ?_⟩
      rw [he] at hcb
      have := h1 hcb
      cases hu : s.util b with
      | none => rw [hu] at this; simp at this
      | some x => rw [hu] at this; exact ⟨x, rfl, by simpa using this⟩

/-- What a way to examine a link must do. -/
def LinkOK (link : ℕ → ℕ → Tables → ℕ → Option Tables) (adj : ℕ → List ℕ) (R : ℕ → ℕ → Prop) (w : ℕ → ℕ → Int)
    (V u : ℕ) : Prop :=
  ∀ (Rc : ℕ → ℕ → Prop) (vid c : ℕ) (s : Tables) (dst : ℕ), vid < V → dst ∈ adj vid → Mid R Rc w V u vid c s →
    ∃ s', link vid (c + 1) s dst = some s' ∧ s'.visited = s.visited ∧
      Mid R (fun a b => Rc a b ∨ (a = vid ∧ b = dst ∧ R a b)) w V u vid c s'

theorem Mid.mono {Rc' : ℕ → ℕ → Prop} (h : Mid R Rc w V u vid c s) (hm : ∀ a b, Rc' a b → Rc a b) :
    Mid R Rc' w V u vid c s :=
  ⟨⟨h.inv.src, h.inv.back, h.inv.unknown, h.inv.vis, h.inv.bound, fun a b ca ha hr => h.inv.close a b ca ha (hm a b hr),
    h.inv.order⟩, h.visited, h.cost, h.top⟩

theorem links_fold {link : ℕ → ℕ → Tables → ℕ → Option Tables} {adj : ℕ → List ℕ} (hl : LinkOK link adj R w V u)
    (hv : vid < V) : ∀ (l : List ℕ), (∀ b ∈ l, b ∈ adj vid) → ∀ (Rc : ℕ → ℕ → Prop) (s : Tables), Mid R Rc w V u vid c s →
    ∃ s', l.foldlM (link vid (c + 1)) s = some s' ∧ s'.visited = s.visited ∧
      Mid R (fun a b => Rc a b ∨ (a = vid ∧ b ∈ l ∧ R a b)) w V u vid c s' := by
  intro l
  induction l with
  | nil => intro _ Rc s h; exact ⟨s, rfl, rfl, h.mono fun a b hr => by simpa using hr⟩
  | cons b l ih =>
    intro hb Rc s h
    obtain ⟨s1, e1, v1, m1⟩ := hl Rc vid c s b hv (hb b (by simp)) h
    obtain ⟨s2, e2, v2, m2⟩ := ih (fun x hx => hb x (List.mem_cons_of_mem _ hx)) _ s1 m1
    refine ⟨s2, ?_, v2.trans v1, m2.mono ?_⟩
    · rw [List.foldlM_cons, e1]; exact e2
    · rintro a x (hr | ⟨rfl, hx, hr⟩)
      · exact Or.inl (Or.inl hr)
      · rcases List.mem_cons.mp hx with rfl | hx
        · exact Or.inl (Or.inr ⟨rfl, rfl, hr⟩)
        · exact Or.inr ⟨rfl, hx, hr⟩

/-- Number of visited nodes. -/
def seen (V : ℕ) (s : Tables) : ℕ := (List.range V).countP fun j => s.visited j

/-- One turn of the loop keeps the invariant; it visits one node more, or nothing is left to visit. -/
theorem visit_inv {link : ℕ → ℕ → Tables → ℕ → Option Tables} {adj : ℕ → List ℕ} (hl : LinkOK link adj R w V u)
    (hR : ∀ a b, R a b → b ∈ adj a) (h : Inv R R w V u s) :
    ∃ s', visit link adj V s = some s' ∧ Inv R R w V u s' ∧
      ((choose V s = none ∧ s' = s) ∨ seen V s' = seen V s + 1) := by
  unfold visit
  cases hc : choose V s with
  | none => exact ⟨s, rfl, h, Or.inl ⟨rfl, rfl⟩⟩
  | some vid =>
    obtain ⟨hv, hn, c, hcost, hleast⟩ := choose_some hc
    simp only [hcost, Option.getD_some]
    have hold : ∀ a, Function.update s.visited vid true a = true → a = vid ∨ s.visited a = true := by
      intro a ha
      by_cases e : a = vid
      · exact Or.inl e
      · rw [Function.update_of_ne e] at ha; exact Or.inr ha
    have hnew : ∀ a, Function.update s.visited vid true a = false → a ≠ vid ∧ s.visited a = false := by
      intro a ha
      by_cases e : a = vid
      · subst e; simp at ha
      · rw [Function.update_of_ne e] at ha; exact ⟨e, ha⟩
    have m0 : Mid R (fun a b => R a b ∧ a ≠ vid) w V u vid c { s with visited := Function.update s.visited vid true } := by
      refine ⟨⟨h.src, ?_, h.unknown, ?_, h.bound, ?_, ?_⟩, by simp, hcost, ?_⟩
      · intro b cb hcb hbu
        obtain ⟨a, c', h1, h2, h3⟩ := h.back b cb hcb hbu
        refine ⟨a, c', h1, ?_, h3⟩
        show Function.update s.visited vid true a = true
        by_cases e : a = vid
        · subst e; simp
        · rw [Function.update_of_ne e]; exact h2
      · intro a ha
        rcases hold a ha with rfl | ha
        · exact ⟨c, hcost⟩
        · exact h.vis a ha
      · intro a b ca ha hr hca
        exact h.close a b ca ((hold a ha).resolve_left hr.2) hr.1 hca
      · intro a b ca cb ha hb hca hcb
        obtain ⟨hb1, hb2⟩ := hnew b hb
        rcases hold a ha with rfl | ha
        · rw [hcost] at hca; cases hca
          exact hleast b (h.bound b cb hcb) hb2 cb hcb
        · exact h.order a b ca cb ha hb2 hca hcb
      · intro a ca ha hca
        rcases hold a ha with rfl | ha
        · have hca : s.cost a = some ca := hca
          rw [hcost] at hca; cases hca; exact le_refl _
        · exact h.order a vid ca c ha hn hca hcost
    obtain ⟨s', e, v, m⟩ := links_fold hl hv (adj vid) (fun b hb => hb) _ _ m0
    refine ⟨s', e, (m.mono ?_).inv, Or.inr ?_⟩
    · intro a b hr
      by_cases ha : a = vid
      · subst ha; exact Or.inr ⟨rfl, hR a b hr, hr⟩
      · exact Or.inl ⟨hr, ha⟩
    · unfold seen
      rw [v]
      have key : ∀ l : List ℕ, l.Nodup → (l.countP fun j => Function.update s.visited vid true j) =
          (l.countP fun j => s.visited j) + if vid ∈ l then 1 else 0 := by
        intro l
        induction l with
        | nil => simp
        | cons x l ih =>
          intro hnd
          obtain ⟨hx, hnd⟩ := List.nodup_cons.mp hnd
          rw [List.countP_cons, List.countP_cons, ih hnd]
          by_cases e : x = vid
          · subst e
            simp [hx, hn]
          · have e' : ¬ vid = x := fun h => e h.symm
            simp only [Function.update_of_ne e, List.mem_cons, e', false_or]
            omega
      rw [key _ List.nodup_range, if_pos (List.mem_range.mpr hv)]

theorem tables0_inv (hu : u < V) : Inv R R w V u (tables0 u) := by
  have hc : ∀ b c, (tables0 u).cost b = some c → b = u ∧ c = 0 := by
    intro b c h
    by_cases e : b = u
    · subst e; simp [tables0] at h; exact ⟨rfl, h.symm⟩
    · simp [tables0, Function.update_of_ne e] at h
  refine ⟨by simp [tables0], ?_, fun _ _ => rfl, ?_, ?_, ?_, ?_⟩
  · intro b c h hb; exact absurd (hc b c h).1 hb
  · intro a ha; simp [tables0] at ha
  · intro b c h; rw [(hc b c h).1]; exact hu
  · intro a b ca ha; simp [tables0] at ha
  · intro a b ca cb ha; simp [tables0] at ha

/-- The exploration ends with every node of finite cost visited. -/
theorem explore_inv {link : ℕ → ℕ → Tables → ℕ → Option Tables} {adj : ℕ → List ℕ} (hl : LinkOK link adj R w V u)
    (hR : ∀ a b, R a b → b ∈ adj a) (hu : u < V) :
    ∃ s, explore link adj V u = some s ∧ Inv R R w V u s ∧ ∀ b c, s.cost b = some c → s.visited b = true := by
  have key : ∀ n, ∃ s, (List.range n).foldlM (fun s _ => visit link adj V s) (tables0 u) = some s ∧ Inv R R w V u s ∧
      (choose V s = none ∨ n ≤ seen V s) := by
    intro n
    induction n with
    | zero => exact ⟨tables0 u, rfl, tables0_inv hu, Or.inr (Nat.zero_le _)⟩
    | succ n ih =>
      obtain ⟨s, e, hi, hs⟩ := ih
      obtain ⟨s', e', hi', hs'⟩ := visit_inv hl hR hi
      refine ⟨s', ?_, hi', ?_⟩
      · rw [List.range_succ, List.foldlM_append, e]
        simp [e']
      · rcases hs' with ⟨h1, rfl⟩ | h1
        · exact Or.inl h1
        · rcases hs with h2 | h2
          · unfold visit at e'
            rw [h2] at e'
            cases e'
            exact Or.inl h2
          · exact Or.inr (by omega)
  obtain ⟨s, e, hi, hs⟩ := key V
  refine ⟨s, e, hi, fun b c hb => ?_⟩
  have hbV := hi.bound b c hb
  by_contra hn
  have hn : s.visited b = false := by simpa using hn
  rcases hs with h | h
  · rw [choose_none h b hbV hn] at hb; cases hb
  · have h1 : seen V s = (List.range V).length :=
      le_antisymm List.countP_le_length (by simpa using h)
    have := List.countP_eq_length.mp h1 b (List.mem_range.mpr hbV)
    rw [hn] at this; cases this

end

/-! ### Paths -/

section
variable {R : ℕ → ℕ → Prop} {w : ℕ → ℕ → Int} {V u : ℕ} {s : Tables}

theorem IsPath.snoc {p : List ℕ} {u a b : ℕ} (h : IsPath R p u a) (hr : R a b) : IsPath R (p ++ [b]) u b := by
  obtain ⟨h1, h2, h3⟩ := h
  have hp : p ≠ [] := by rintro rfl; simp at h1
  refine ⟨by rw [List.head?_append_of_ne_nil _ hp]; exact h1, by simp, ?_⟩
  refine List.isChain_append.mpr ⟨h3, List.isChain_singleton _, fun x hx y hy => ?_⟩
  rw [h2] at hx
  simp only [Option.mem_def, Option.some.injEq, List.head?_cons] at hx hy
  rw [← hx, ← hy]; exact hr

/-- Costs are at most the length of any path. -/
theorem cost_le (h : Inv R R w V u s) (hall : ∀ b c, s.cost b = some c → s.visited b = true) :
    ∀ (p : List ℕ) (d : ℕ), IsPath R p u d → ∃ c, s.cost d = some c ∧ c + 1 ≤ p.length := by
  intro p
  induction p using List.reverseRecOn with
  | nil => intro d hp; simpa using hp.first
  | append_singleton p b ih =>
    intro d hp
    have hd : b = d := by simpa using hp.last
    subst hd
    by_cases hnil : p = []
    · subst hnil
      have : b = u := by simpa using hp.first
      subst this
      exact ⟨0, h.src, by simp⟩
    · obtain ⟨a, ha⟩ : ∃ a, p.getLast? = some a := ⟨p.getLast hnil, List.getLast?_eq_getLast_of_ne_nil hnil⟩
      have hch := List.isChain_append.mp hp.chain
      have hr : R a b := hch.2.2 a (by rw [ha]; rfl) b rfl
      obtain ⟨c, hc, hle⟩ := ih a ⟨by rw [← hp.first, List.head?_append_of_ne_nil _ hnil], ha, hch.1⟩
      obtain ⟨cb, hcb, h1, -⟩ := h.close a b c (hall a c hc) hr hc
      exact ⟨cb, hcb, by simp only [List.length_append, List.length_singleton]; omega⟩

/-- The loop over the predecessors finds a path whose length is the cost. -/
theorem trail_path (h : Inv R R w V u s) : ∀ (c d : ℕ), s.cost d = some c → d ≠ u → ∀ fuel, c ≤ fuel →
    ∃ l, trail s.prev u fuel (s.prev d) = some (.source l) ∧ IsPath R (d :: (l ++ [u])).reverse u d ∧
      ((d :: (l ++ [u])).reverse).map s.cost = (List.range (c + 1)).map some ∧
      ((d :: (l ++ [u])).reverse).IsChain (fun a b => s.prev b = some a ∧ b ≠ u) := by
  intro c
  induction c with
  | zero =>
    intro d hd hdu
    obtain ⟨a, c', -, -, -, -, h5, -⟩ := h.back d 0 hd hdu
    omega
  | succ c ih =>
    intro d hd hdu fuel hf
    obtain ⟨a, c', h1, h2, h3, h4, h5, h6⟩ := h.back d (c + 1) hd hdu
    have hc' : c' = c := by omega
    subst hc'
    cases fuel with
    | zero => omega
    | succ fuel =>
      rw [h1]
      by_cases hau : a = u
      · subst hau
        rw [h.src] at h4; cases h4
        refine ⟨[], by simp [trail], ⟨by simp, by simp, by simpa using h3⟩, by simp [h.src, hd, List.range_succ], ?_⟩
        simpa using ⟨h1, hdu⟩
      · obtain ⟨l, e1, e2, e3, e4⟩ := ih a h4 hau fuel (by omega)
        refine ⟨a :: l, ?_, ?_, ?_, ?_⟩
        · rw [trail, if_neg (by simpa using hau)]
          simp only [e1, Option.map_some]
        · have := e2.snoc h3
          simpa using this
        · have : (d :: (a :: l ++ [u])).reverse = (a :: (l ++ [u])).reverse ++ [d] := by simp
          rw [this, List.map_append, e3, List.range_succ (n := c' + 1), List.map_append]
          simp [hd]
        · have : (d :: (a :: l ++ [u])).reverse = (a :: (l ++ [u])).reverse ++ [d] := by simp
          rw [this]
          refine List.isChain_append.mpr ⟨e4, List.isChain_singleton _, fun x hx y hy => ?_⟩
          rw [e2.last] at hx
          simp only [Option.mem_def, Option.some.injEq, List.head?_cons] at hx hy
          rw [← hx, ← hy]; exact ⟨h1, hdu⟩

/-- Costs are less than the number of nodes. -/
theorem cost_lt (h : Inv R R w V u s) (hu : u < V) {d c : ℕ} (hd : s.cost d = some c) : c < V := by
  by_cases hdu : d = u
  · subst hdu
    rw [h.src] at hd; cases hd; omega
  obtain ⟨l, -, -, e3, -⟩ := trail_path h c d hd hdu c (le_refl _)
  set p := (d :: (l ++ [u])).reverse with hp
  have hnd : p.Nodup := by
    refine List.Nodup.of_map s.cost ?_
    rw [e3]
    exact List.nodup_range.map (Option.some_injective _)
  have hlt : ∀ x ∈ p, x < V := by
    intro x hx
    have : s.cost x ∈ p.map s.cost := List.mem_map_of_mem hx
    rw [e3] at this
    obtain ⟨k, -, hk⟩ := List.mem_map.mp this
    exact h.bound x k hk.symm
  have hlen : p.length = c + 1 := by
    have := congrArg List.length e3
    simpa using this
  have := (List.Nodup.subperm hnd (fun x hx => List.mem_range.mpr (hlt x hx))).length_le
  rw [List.length_range] at this
  omega

end

end Kiter.NoC
