/-
C99: the routes of the bufferless mapping are shortest.
-/
import Verif.Lemmas.NoCGraph
import Verif.Props.NoC

set_option autoImplicit false

namespace Kiter

open NoC

namespace NoC

section
variable {adj : ℕ → List ℕ} {V u : ℕ} {table : List Int}

/-- The utilisation of a link, 0 outside the table. -/
def utilOf (table : List Int) (V a b : ℕ) : Int := (readUtil table V a b).getD 0

/-- The utilisations can be read: they are in the table, or the link goes back to the only node before. -/
def Readable (table : List Int) (adj : ℕ → List ℕ) (V u : ℕ) : Prop :=
  ∀ a b, a < V → b ∈ adj a → (∃ x, readUtil table V a b = some x) ∨ (a ≠ u ∧ ∀ x, a ∈ adj x → x = b)

theorem relax_ok (hV : ∀ a b, a < V → b ∈ adj a → b < V) (hr : Readable table adj V u) :
    LinkOK (relax table V) adj (fun a b => b ∈ adj a) (utilOf table V) V u := by
  intro Rc vid c s dst hvid hdst hm
  have hd := hV vid dst hvid hdst
  unfold relax
  rw [if_neg (by omega)]
  by_cases hv : s.visited dst = true
  · rw [if_pos hv]
    exact ⟨s, rfl, rfl, (hm.skip hv).mono fun a b h => h.imp id fun h => ⟨h.1, h.2.1⟩⟩
  · rw [if_neg hv]
    have hx : ∃ x, readUtil table V vid dst = some x := by
      rcases hr vid dst hvid hdst with h | ⟨h1, h2⟩
      · exact h
      · obtain ⟨a, c', -, ha, hR, -⟩ := hm.inv.back vid c hm.cost h1
        rw [h2 a hR] at ha
        exact absurd ha hv
    obtain ⟨x, hx⟩ := hx
    rw [hx, Option.map_some]
    have hw : utilOf table V vid dst = x := by unfold utilOf; rw [hx]; rfl
    refine ⟨_, rfl, improve_visited .., ?_⟩
    rw [← hw]
    exact (hm.step hdst hd (by simpa using hv)).mono fun a b h => h.imp id fun h => ⟨h.1, h.2.1⟩

theorem relaxLimit_ok (limit : Int) (hV : ∀ a b, a < V → b ∈ adj a → b < V)
    (hr : ∀ a b, a < V → b ∈ adj a → ∃ x, readUtil table V a b = some x) :
    LinkOK (relaxLimit limit table V) adj (fun a b => b ∈ adj a ∧ utilOf table V a b ≤ limit) (utilOf table V) V u := by
  intro Rc vid c s dst hvid hdst hm
  have hd := hV vid dst hvid hdst
  obtain ⟨x, hx⟩ := hr vid dst hvid hdst
  have hw : utilOf table V vid dst = x := by unfold utilOf; rw [hx]; rfl
  unfold relaxLimit
  rw [hx, Option.bind_some]
  by_cases hl : x > limit
  · rw [if_pos hl]
    refine ⟨s, rfl, rfl, hm.mono ?_⟩
    rintro a b (h | ⟨rfl, rfl, -, h⟩)
    · exact h
    · rw [hw] at h; omega
  · rw [if_neg hl, if_neg (by omega)]
    by_cases hv : s.visited dst = true
    · rw [if_pos hv]
      exact ⟨s, rfl, rfl, (hm.skip hv).mono fun a b h => h.imp id fun h => ⟨h.1, h.2.1⟩⟩
    · rw [if_neg hv]
      refine ⟨_, rfl, improve_visited .., ?_⟩
      rw [← hw]
      exact (hm.step ⟨hdst, by rw [hw]; omega⟩ hd (by simpa using hv)).mono fun a b h => h.imp id fun h => ⟨h.1, h.2.1⟩

/-- The path found from the tables is a shortest one, by least used links. -/
theorem found {R : ℕ → ℕ → Prop} {w : ℕ → ℕ → Int} {s : Tables} (h : Inv R R w V u s)
    (hall : ∀ b c, s.cost b = some c → s.visited b = true) (hu : u < V) {d c : ℕ} (hd : s.cost d = some c) (hdu : d ≠ u)
    {fuel : ℕ} (hf : V ≤ fuel) :
    ∃ l, trail s.prev u fuel (s.prev d) = some (.source l) ∧ IsShortest R (d :: (l ++ [u])).reverse u d ∧
      LeastUsedLinks R w (d :: (l ++ [u])).reverse u := by
  obtain ⟨l, e1, e2, e3, e4⟩ := trail_path h c d hd hdu fuel (by have := cost_lt h hu hd; omega)
  have hlen := congrArg List.length e3
  simp only [List.length_map, List.length_range] at hlen
  refine ⟨l, e1, ⟨e2, fun q hq => ?_⟩, ?_⟩
  · obtain ⟨c', h1, h2⟩ := cost_le h hall q d hq
    rw [hd] at h1; cases h1
    omega
  · intro pre a b post hp q a' hq hql
    rw [hp] at e3 e4
    obtain ⟨hba, hbu⟩ := (List.isChain_cons_cons.mp (List.isChain_append.mp e4).2.1).1
    have hb : s.cost b = some (pre.length + 1) := by
      have := congrArg (fun l : List (Option ℕ) => l[pre.length + 1]?) e3
      simp only [List.map_append, List.map_cons] at this
      rw [List.getElem?_append_right (by simp)] at this
      simp only [List.length_map, Nat.add_sub_cancel_left, List.getElem?_cons_succ, List.getElem?_cons_zero,
        List.getElem?_map] at this
      rw [List.getElem?_range (by rw [← hlen, hp]; simp only [List.length_append, List.length_cons]; omega)] at this
      simpa using this
    obtain ⟨a1, c1, h1, -, -, -, -, h6⟩ := h.back b _ hb hbu
    rw [hba] at h1; cases h1
    have hqq : q ++ [a', b] = (q ++ [a']) ++ [b] := by simp
    have hch := List.isChain_append.mp (hqq ▸ hq.chain)
    have hr : R a' b := hch.2.2 a' (by simp) b rfl
    obtain ⟨ca, h7, h8⟩ := cost_le h hall (q ++ [a']) a' ⟨by
      have := hq.first
      rw [hqq, List.head?_append_of_ne_nil _ (by simp)] at this
      exact this, by simp, hch.1⟩
    simp only [List.length_append, List.length_singleton] at h8
    obtain ⟨cb, h9, h10, h11⟩ := h.close a' b ca (hall a' ca h7) hr h7
    rw [hb] at h9; cases h9
    obtain ⟨x, hx, hxw⟩ := h11 (by omega)
    rw [h6] at hx; cases hx
    exact hxw

end

end NoC

/-- C99: `findPathDijkstra` on any network. If there is a path at all from `u` to `d`, a different node, the result is a
shortest path, and each of its links is the least used among those that end a path as short to the same node. -/
theorem C99_dijkstra {adj : ℕ → List ℕ} {V u d fuel : ℕ} {table : List Int} (hV : ∀ a b, a < V → b ∈ adj a → b < V)
    (hr : Readable table adj V u) (hu : u < V) (hd : u ≠ d) (hp : ∃ q, IsPath (fun a b => b ∈ adj a) q u d)
    (hf : V ≤ fuel) : ∃ p, findPathDijkstra table adj V fuel u d = some p ∧ IsShortest (fun a b => b ∈ adj a) p u d ∧
      LeastUsedLinks (fun a b => b ∈ adj a) (utilOf table V) p u := by
  obtain ⟨s, e, hi, hall⟩ := explore_inv (relax_ok hV hr) (fun _ _ h => h) hu
  obtain ⟨q, hq⟩ := hp
  obtain ⟨c, hc, -⟩ := cost_le hi hall q d hq
  obtain ⟨l, h1, h2, h3⟩ := found hi hall hu hc hd.symm hf
  refine ⟨_, ?_, h2, h3⟩
  unfold findPathDijkstra
  rw [if_neg hd, e, Option.bind_some, h1]
  rfl

/-- C99: without a path, `findPathDijkstra` reads the predecessor of node -1. -/
theorem C99_no_path {adj : ℕ → List ℕ} {V u d fuel : ℕ} {table : List Int} (hV : ∀ a b, a < V → b ∈ adj a → b < V)
    (hr : Readable table adj V u) (hu : u < V) (hd : u ≠ d) (hp : ¬ ∃ q, IsPath (fun a b => b ∈ adj a) q u d) :
    findPathDijkstra table adj V fuel u d = none := by
  obtain ⟨s, e, hi, hall⟩ := explore_inv (relax_ok hV hr) (fun _ _ h => h) hu
  have hc : s.cost d = none := by
    cases h : s.cost d with
    | none => rfl
    | some c =>
      obtain ⟨l, -, h2, -⟩ := found hi hall hu h hd.symm (le_refl V)
      exact absurd ⟨_, h2.1⟩ hp
  unfold findPathDijkstra
  rw [if_neg hd, e, Option.bind_some, hi.unknown d hc]
  cases fuel <;> simp [trail]

/-- C99: `findLowContentionPath` where all the utilisations can be read. The result is a shortest path among those whose
links are all used at most `limit` times, or the empty list if there is none. -/
theorem C99_limit {adj : ℕ → List ℕ} {V u d fuel : ℕ} {table : List Int} (limit : Int)
    (hV : ∀ a b, a < V → b ∈ adj a → b < V) (hr : ∀ a b, a < V → b ∈ adj a → ∃ x, readUtil table V a b = some x)
    (hu : u < V) (hd : u ≠ d) (hf : V ≤ fuel) :
    let R : ℕ → ℕ → Prop := fun a b => b ∈ adj a ∧ utilOf table V a b ≤ limit
    ∃ p, findLowContentionPath limit table adj V fuel u d = some p ∧
      (IsShortest R p u d ∧ LeastUsedLinks R (utilOf table V) p u ∨ p = [] ∧ ¬ ∃ q, IsPath R q u d) := by
  intro R
  obtain ⟨s, e, hi, hall⟩ := explore_inv (relaxLimit_ok limit hV hr) (fun _ _ h => h.1) hu
  unfold findLowContentionPath
  rw [if_neg hd, e, Option.bind_some]
  cases h : s.cost d with
  | none =>
    rw [hi.unknown d h]
    refine ⟨[], ?_, Or.inr ⟨rfl, ?_⟩⟩
    · cases fuel with
      | zero => omega
      | succ f => simp [trail]
    · rintro ⟨q, hq⟩
      obtain ⟨c, hc, -⟩ := cost_le hi hall q d hq
      rw [h] at hc; cases hc
  | some c =>
    obtain ⟨l, h1, h2, h3⟩ := found hi hall hu h hd.symm hf
    exact ⟨_, by rw [h1]; rfl, Or.inl ⟨h2, h3⟩⟩

/-! ### Meshes -/

namespace NoC

theorem mem_adjacency {xs ys a b : ℕ} : b ∈ adjacency (generate xs ys) a ↔
    ∃ p q : P, p.ok xs ys ∧ q.ok xs ys ∧ p.adj q ∧ (a : Int) = enc xs ys p ∧ (b : Int) = enc xs ys q := by
  unfold adjacency
  simp only [List.mem_map, List.mem_filter, decide_eq_true_eq]
  constructor
  · rintro ⟨l, ⟨hl, hs⟩, rfl⟩
    obtain ⟨p, q, h1, h2, h3, rfl⟩ := mem_links.mp hl
    refine ⟨p, q, h1, h2, h3, hs.symm, ?_⟩
    exact Int.toNat_of_nonneg (enc_bounds h2).1
  · rintro ⟨p, q, h1, h2, h3, h4, h5⟩
    refine ⟨toLink xs ys (p, q), ⟨mem_links.mpr ⟨p, q, h1, h2, h3, rfl⟩, h4.symm⟩, ?_⟩
    show (enc xs ys q).toNat = b
    omega

/-- Number of nodes of a mesh. -/
def meshNodes (xs ys : ℕ) : ℕ := xs * ys * 2

theorem enc_lt {xs ys : ℕ} {p : P} (h : p.ok xs ys) : enc xs ys p < (meshNodes xs ys : ℕ) := by
  have := (enc_bounds h).2.1
  unfold meshNodes
  push_cast
  exact this

theorem adj_lt {xs ys : ℕ} (a b : ℕ) (h : b ∈ adjacency (generate xs ys) a) : a < meshNodes xs ys ∧ b < meshNodes xs ys := by
  obtain ⟨p, q, h1, h2, -, h4, h5⟩ := mem_adjacency.mp h
  have e1 := enc_lt h1
  have e2 := enc_lt h2
  omega

theorem route_of_path {xs ys : ℕ} : ∀ {p : List ℕ} {a b : ℕ}, IsPath (fun a b => b ∈ adjacency (generate xs ys) a) p a b →
    IsRoute (generate xs ys) (routeOf (meshNodes xs ys) p) a b ∧ (routeOf (meshNodes xs ys) p).length + 1 = p.length := by
  intro p
  induction p with
  | nil => intro a b h; have := h.first; simp at this
  | cons x p ih =>
    intro a b h
    have hx : x = a := by simpa using h.first
    subst hx
    cases p with
    | nil =>
      have : x = b := by simpa using h.last
      subst this
      simp [routeOf, IsRoute]
    | cons y p =>
      obtain ⟨h1, h2⟩ := List.isChain_cons_cons.mp h.chain
      obtain ⟨i1, i2⟩ := ih (a := y) (b := b) ⟨rfl, by have := h.last; rwa [List.getLast?_cons_cons] at this, h2⟩
      have e : routeOf (meshNodes xs ys) (x :: y :: p) =
          mapIndex (meshNodes xs ys) x y :: routeOf (meshNodes xs ys) (y :: p) := rfl
      rw [e]
      obtain ⟨P, Q, k1, k2, k3, k4, k5⟩ := mem_adjacency.mp h1
      refine ⟨⟨toLink xs ys (P, Q), mem_links.mpr ⟨P, Q, k1, k2, k3, rfl⟩, ?_, k4.symm, ?_⟩, ?_⟩
      · unfold mapIndex toLink meshNodes
        simp only [k4, k5]
        push_cast
        ring
      · have : (toLink xs ys (P, Q)).dst = y := k5.symm
        rw [this]; exact i1
      · simp only [List.length_cons] at i2 ⊢; omega

theorem path_of_route {xs ys : ℕ} : ∀ {r : List Int} {a b : ℕ}, IsRoute (generate xs ys) r a b →
    ∃ p, IsPath (fun a b => b ∈ adjacency (generate xs ys) a) p a b ∧ p.length = r.length + 1 := by
  intro r
  induction r with
  | nil =>
    intro a b h
    have h' : (a : Int) = b := h
    have : a = b := by exact_mod_cast h'
    subst this
    exact ⟨[a], ⟨rfl, rfl, List.isChain_singleton _⟩, rfl⟩
  | cons i r ih =>
    intro a b h
    obtain ⟨l, hl, -, hs, hr⟩ := h
    obtain ⟨P, Q, k1, k2, k3, rfl⟩ := mem_links.mp hl
    have hq : ((enc xs ys Q).toNat : Int) = enc xs ys Q := Int.toNat_of_nonneg (enc_bounds k2).1
    have hr' : IsRoute (generate xs ys) r ((enc xs ys Q).toNat : ℕ) b := by rw [hq]; exact hr
    obtain ⟨p, hp, hlen⟩ := ih hr'
    refine ⟨a :: p, ⟨rfl, ?_, ?_⟩, by simp [hlen]⟩
    · cases p with
      | nil => have := hp.first; simp at this
      | cons y p => rw [List.getLast?_cons_cons]; exact hp.last
    · cases p with
      | nil => have := hp.first; simp at this
      | cons y p =>
        have : y = (enc xs ys Q).toNat := by simpa using hp.first
        subst this
        exact List.isChain_cons_cons.mpr ⟨mem_adjacency.mpr ⟨P, Q, k1, k2, k3, hs.symm, hq⟩, hp.chain⟩

theorem readUtil_some {V a b : ℕ} {table : List Int} (ht : V * V ≤ table.length) (ha : a + 1 < V) (hb : b < V) :
    ∃ x, readUtil table V a b = some x := by
  unfold readUtil
  have : V + (a * V + b) < V * V := by nlinarith
  exact ⟨table[V + (a * V + b)]'(by omega), List.getElem?_eq_getElem _⟩

theorem readUtil_none {V b : ℕ} {table : List Int} (ht : table.length ≤ V * V) (hV : 0 < V) :
    readUtil table V (V - 1) b = none := by
  unfold readUtil
  apply List.getElem?_eq_none
  have : V + (V - 1) * V = V * V := by
    obtain ⟨k, rfl⟩ : ∃ k, V = k + 1 := ⟨V - 1, by omega⟩
    simp; ring
  omega

/-- Number of the node of a core. -/
def coreNode (xs ys X Y : ℕ) : ℕ := X + Y * xs + xs * ys

theorem coreNode_cast (xs ys X Y : ℕ) : (coreNode xs ys X Y : Int) = coreId xs ys X Y := by
  unfold coreNode coreId; push_cast; ring

theorem last_core {xs ys : ℕ} (hx : 0 < xs) (hy : 0 < ys) {p : P} (hp : p.ok xs ys)
    (h : enc xs ys p = (meshNodes xs ys : ℕ) - 1) : p = ⟨true, xs - 1, ys - 1⟩ := by
  refine enc_inj hp ⟨by show xs - 1 < xs; omega, by show ys - 1 < ys; omega⟩ (h.trans ?_)
  unfold meshNodes enc
  obtain ⟨a, rfl⟩ : ∃ a, xs = a + 1 := ⟨xs - 1, by omega⟩
  obtain ⟨b, rfl⟩ : ∃ b, ys = b + 1 := ⟨ys - 1, by omega⟩
  simp
  ring

theorem mesh_readable {xs ys u : ℕ} {table : List Int} (hx : 0 < xs) (hy : 0 < ys)
    (ht : meshNodes xs ys * meshNodes xs ys ≤ table.length) (hu : u ≠ coreNode xs ys (xs - 1) (ys - 1)) :
    Readable table (adjacency (generate xs ys)) (meshNodes xs ys) u := by
  intro a b ha hb
  by_cases hl : a + 1 < meshNodes xs ys
  · exact Or.inl (readUtil_some ht hl (adj_lt a b hb).2)
  · right
    obtain ⟨p, q, h1, h2, h3, h4, h5⟩ := mem_adjacency.mp hb
    have hp : p = ⟨true, xs - 1, ys - 1⟩ := last_core hx hy h1 (by omega)
    subst hp
    have hau : (a : Int) = coreId xs ys (xs - 1) (ys - 1) := by rw [h4, enc_core]
    have uniq : ∀ r : P, (⟨true, xs - 1, ys - 1⟩ : P).adj r → r = ⟨false, xs - 1, ys - 1⟩ := by
      rintro ⟨c, X, Y⟩ h
      simp only [P.adj] at h
      rcases h with ⟨hc, h1, h2⟩ | ⟨h, -⟩
      · subst h1; subst h2; cases c
        · rfl
        · simp at hc
      · cases h
    refine ⟨?_, fun x hxa => ?_⟩
    · rintro rfl
      rw [← coreNode_cast] at hau
      exact hu (by exact_mod_cast hau)
    · obtain ⟨p', q', g1, g2, g3, g4, g5⟩ := mem_adjacency.mp hxa
      have : q' = ⟨true, xs - 1, ys - 1⟩ := enc_inj g2 h1 (g5.symm.trans h4)
      subst this
      have hsym : (⟨true, xs - 1, ys - 1⟩ : P).adj p' := by
        obtain ⟨c, X, Y⟩ := p'
        simp only [P.adj] at g3 ⊢
        rcases g3 with ⟨hc, h1, h2⟩ | ⟨h1, h, h2⟩
        · exact Or.inl ⟨fun h => hc h.symm, h1.symm, h2.symm⟩
        · exact absurd h (by simp)
      have e1 := uniq p' hsym
      have e2 := uniq q h3
      rw [e1] at g4
      rw [e2] at h5
      omega

end NoC

/-- C99, meshes: between two different cores of any mesh, whatever the utilisations, the route returned leads from the
first core to the second with as many links as the Manhattan distance plus two, which is the least possible (C39), provided
that the first core is not the last one of the mesh. The table of utilisations has the size the code gives it. -/
theorem C99_mesh {xs ys X1 Y1 X2 Y2 : ℕ} (h1 : X1 < xs) (h2 : Y1 < ys) (h3 : X2 < xs) (h4 : Y2 < ys)
    (hne : (X1, Y1) ≠ (X2, Y2)) (hlast : (X1, Y1) ≠ (xs - 1, ys - 1)) {table : List Int}
    (ht : table.length = meshNodes xs ys * meshNodes xs ys) {fuel : ℕ} (hf : meshNodes xs ys ≤ fuel) :
    ∃ p, findPathDijkstra table (adjacency (generate xs ys)) (meshNodes xs ys) fuel (coreNode xs ys X1 Y1)
        (coreNode xs ys X2 Y2) = some p ∧
      IsRoute (generate xs ys) (routeOf (meshNodes xs ys) p) (coreId xs ys X1 Y1) (coreId xs ys X2 Y2) ∧
      (routeOf (meshNodes xs ys) p).length = ((X1 : Int) - X2).natAbs + ((Y1 : Int) - Y2).natAbs + 2 ∧
      LeastUsedLinks (fun a b => b ∈ adjacency (generate xs ys) a) (utilOf table (meshNodes xs ys)) p
        (coreNode xs ys X1 Y1) := by
  obtain ⟨_, _, _, _, r, -, -, hr, -, -, -, -, hlen⟩ := C39_route h1 h2 h3 h4 (max xs ys) (le_refl _)
  rw [← coreNode_cast, ← coreNode_cast] at hr
  obtain ⟨q, hq, hql⟩ := path_of_route hr
  have inj : ∀ {X Y X' Y' : ℕ}, X < xs → Y < ys → X' < xs → Y' < ys → coreNode xs ys X Y = coreNode xs ys X' Y' →
      (X, Y) = (X', Y') := by
    intro X Y X' Y' a b c d e
    have e' : coreId xs ys X Y = coreId xs ys X' Y' := by rw [← coreNode_cast, ← coreNode_cast, e]
    rw [← enc_core, ← enc_core] at e'
    have := enc_inj (show P.ok xs ys ⟨true, X, Y⟩ from ⟨a, b⟩) (show P.ok xs ys ⟨true, X', Y'⟩ from ⟨c, d⟩) e'
    simpa using this
  have hu : coreNode xs ys X1 Y1 < meshNodes xs ys := by
    have := enc_lt (show P.ok xs ys ⟨true, X1, Y1⟩ from ⟨h1, h2⟩)
    rw [enc_core, ← coreNode_cast] at this
    exact_mod_cast this
  obtain ⟨p, e, ⟨hp, hmin⟩, hleast⟩ := C99_dijkstra (table := table) (fun a b _ hb => (adj_lt a b hb).2)
    (mesh_readable (u := coreNode xs ys X1 Y1) (by omega) (by omega) ht.ge
      fun he => hlast (inj h1 h2 (by omega) (by omega) he)) hu
    (fun he => hne (inj h1 h2 h3 h4 he)) ⟨q, hq⟩ hf
  obtain ⟨g1, g2⟩ := route_of_path hp
  rw [coreNode_cast, coreNode_cast] at g1
  have g3 := hmin q hq
  have g4 := C39_shortest h1 h2 h3 h4 hne g1
  exact ⟨p, e, g1, by omega, hleast⟩

/-- C99: from the last core of a mesh with two cores or more, the table of utilisations is read beyond its end. -/
theorem C99_last_core {xs ys d fuel : ℕ} (h : 0 < xs * ys) (hd : coreNode xs ys (xs - 1) (ys - 1) ≠ d) {table : List Int}
    (ht : table.length = meshNodes xs ys * meshNodes xs ys) :
    findPathDijkstra table (adjacency (generate xs ys)) (meshNodes xs ys) fuel (coreNode xs ys (xs - 1) (ys - 1)) d = none := by
  have hx : 0 < xs := Nat.pos_of_ne_zero (by rintro rfl; simp at h)
  have hy : 0 < ys := Nat.pos_of_ne_zero (by rintro rfl; simp at h)
  have hV : 0 < meshNodes xs ys := by unfold meshNodes; omega
  have hu : coreNode xs ys (xs - 1) (ys - 1) = meshNodes xs ys - 1 := by
    unfold coreNode meshNodes
    obtain ⟨a, rfl⟩ : ∃ a, xs = a + 1 := ⟨xs - 1, by omega⟩
    obtain ⟨b, rfl⟩ : ∃ b, ys = b + 1 := ⟨ys - 1, by omega⟩
    simp only [Nat.add_sub_cancel]
    ring_nf
    omega
  rw [hu] at hd ⊢
  set V := meshNodes xs ys with hVdef
  unfold findPathDijkstra
  rw [if_neg hd]
  have hch : choose V (tables0 (V - 1)) = some (V - 1) := by
    cases hc : choose V (tables0 (V - 1)) with
    | none =>
      have := choose_none hc (V - 1) (by omega) rfl
      simp [tables0] at this
    | some v =>
      obtain ⟨-, -, c, hc', -⟩ := choose_some hc
      by_cases e : v = V - 1
      · rw [e]
      · simp [tables0, Function.update_of_ne e] at hc'
  have hadj : ∃ b l, adjacency (generate xs ys) (V - 1) = b :: l := by
    have : xs - 1 + (ys - 1) * xs ∈ adjacency (generate xs ys) (V - 1) := by
      refine mem_adjacency.mpr ⟨⟨true, xs - 1, ys - 1⟩, ⟨false, xs - 1, ys - 1⟩, ⟨by show xs - 1 < xs; omega, by show ys - 1 < ys; omega⟩,
        ⟨by show xs - 1 < xs; omega, by show ys - 1 < ys; omega⟩, by simp [P.adj], ?_, ?_⟩
      · rw [enc_core, ← coreNode_cast, hu]
      · unfold enc; push_cast; simp
    cases h : adjacency (generate xs ys) (V - 1) with
    | nil => rw [h] at this; simp at this
    | cons b l => exact ⟨b, l, rfl⟩
  obtain ⟨b, l, hadj⟩ := hadj
  have hb : b < V ∧ b ≠ V - 1 := by
    have hm : b ∈ adjacency (generate xs ys) (V - 1) := by rw [hadj]; simp
    refine ⟨(adj_lt _ b hm).2, fun e => ?_⟩
    obtain ⟨p, q, k1, k2, k3, k4, k5⟩ := mem_adjacency.mp hm
    have : p = q := enc_inj k1 k2 (by rw [← k4, ← k5, e])
    subst this
    simp [P.adj] at k3
  have : visit (relax table V) (adjacency (generate xs ys)) V (tables0 (V - 1)) = none := by
    unfold visit
    rw [hch]
    simp only [hadj, List.foldlM_cons]
    have hr : relax table V (V - 1) (((tables0 (V - 1)).cost (V - 1)).getD 0 + 1)
        { tables0 (V - 1) with visited := Function.update (tables0 (V - 1)).visited (V - 1) true } b = none := by
      unfold relax
      rw [if_neg (by omega), if_neg (by simp [Function.update_of_ne hb.2, tables0]), readUtil_none ht.le hV]
      rfl
    rw [hr]
    rfl
  unfold explore
  obtain ⟨k, hk⟩ : ∃ k, V = k + 1 := ⟨V - 1, by omega⟩
  have : (List.range V).foldlM (fun s _ => visit (relax table V) (adjacency (generate xs ys)) V s) (tables0 (V - 1)) = none := by
    conv_lhs => rw [show List.range V = 0 :: (List.range k).map (· + 1) by rw [hk, List.range_succ_eq_map]]
    rw [List.foldlM_cons, this]
    rfl
  rw [this]
  rfl

/-! ### The search for the least contended path -/

namespace NoC

/-- The paths `findLeastCostPath` meets, in order. -/
def pathsFrom (adj : ℕ → List ℕ) (d : ℕ) : ℕ → List ℕ → List (List ℕ)
  | _, [] => []
  | len, u :: stack =>
    if u = d then [(u :: stack).reverse]
    else match len with
      | 0 => []
      | len + 1 => (adj u).flatMap fun i => if i ∈ u :: stack then [] else pathsFrom adj d len (i :: u :: stack)

/-- The comparison with the best path so far. -/
def better (table : List Int) (V : ℕ) (best p : List ℕ) : Option (List ℕ) :=
  (pathCost table V p).bind fun new => (pathCost table V best).map fun curr =>
    if best = [] then p else if new < curr then p else best

theorem leastCost_eq {table : List Int} {adj : ℕ → List ℕ} {V d : ℕ} (hV : ∀ a b, a < V → b ∈ adj a → b < V) :
    ∀ (len : ℕ) (u : ℕ) (stack best : List ℕ), u < V → (u :: stack).getLast? ≠ some d →
      leastCost table adj V d len (u :: stack) best = (pathsFrom adj d len (u :: stack)).foldlM (better table V) best := by
  intro len
  induction len with
  | zero =>
    intro u stack best hu hl
    unfold leastCost pathsFrom
    by_cases h : u = d
    · rw [if_pos h, if_pos h, if_neg hl]
      simp only [List.foldlM_cons, List.foldlM_nil, better]
      cases pathCost table V (u :: stack).reverse <;> cases pathCost table V best <;> rfl
    · rw [if_neg h, if_neg h]; rfl
  | succ len ih =>
    intro u stack best hu hl
    unfold leastCost pathsFrom
    by_cases h : u = d
    · rw [if_pos h, if_pos h, if_neg hl]
      simp only [List.foldlM_cons, List.foldlM_nil, better]
      cases pathCost table V (u :: stack).reverse <;> cases pathCost table V best <;> rfl
    · rw [if_neg h, if_neg h]
      simp only
      have : ∀ (l : List ℕ), (∀ b ∈ l, b < V) → ∀ best,
          l.foldlM (fun best i => if V ≤ i then none else if i ∈ u :: stack then some best
            else leastCost table adj V d len (i :: u :: stack) best) best =
          (l.flatMap fun i => if i ∈ u :: stack then [] else pathsFrom adj d len (i :: u :: stack)).foldlM
            (better table V) best := by
        intro l
        induction l with
        | nil => intro _ best; rfl
        | cons i l ihl =>
          intro hb best
          rw [List.foldlM_cons, List.flatMap_cons, List.foldlM_append, if_neg (by have := hb i (by simp); omega)]
          by_cases hi : i ∈ u :: stack
          · rw [if_pos hi, if_pos hi]
            exact ihl (fun b hb' => hb b (List.mem_cons_of_mem _ hb')) best
          · rw [if_neg hi, if_neg hi, ih i (u :: stack) best (hb i (by simp)) (by rw [List.getLast?_cons_cons]; exact hl)]
            congr 1
            funext best
            exact ihl (fun b hb' => hb b (List.mem_cons_of_mem _ hb')) best
      exact this (adj u) (fun b hb => hV u b hu hb) best

theorem mem_pathsFrom {adj : ℕ → List ℕ} {d : ℕ} : ∀ (len u : ℕ) (stack p : List ℕ),
    p ∈ pathsFrom adj d len (u :: stack) ↔ ∃ q, p = stack.reverse ++ q ∧ IsPath (fun a b => b ∈ adj a) q u d ∧
      q.Nodup ∧ (∀ x ∈ q.tail, x ∉ u :: stack) ∧ q.length ≤ len + 1 := by
  intro len
  induction len with
  | zero =>
    intro u stack p
    unfold pathsFrom
    by_cases h : u = d
    · subst h
      rw [if_pos rfl]
      constructor
      · intro hp
        exact ⟨[u], by simpa using hp, ⟨rfl, rfl, List.isChain_singleton _⟩, by simp, by simp, by simp⟩
      · rintro ⟨q, rfl, hq, -, -, hlen⟩
        match q, hq, hlen with
        | [], hq, _ => have := hq.first; simp at this
        | [x], hq, _ => have : x = u := by simpa using hq.first
                        subst this; simp
    · rw [if_neg h]
      simp only [List.not_mem_nil, false_iff]
      rintro ⟨q, -, hq, -, -, hlen⟩
      match q, hq, hlen with
      | [], hq, _ => have := hq.first; simp at this
      | [x], hq, _ =>
        have h1 : x = u := by simpa using hq.first
        have h2 : x = d := by simpa using hq.last
        exact h (h1.symm.trans h2)
  | succ len ih =>
    intro u stack p
    unfold pathsFrom
    by_cases h : u = d
    · subst h
      rw [if_pos rfl]
      constructor
      · intro hp
        exact ⟨[u], by simpa using hp, ⟨rfl, rfl, List.isChain_singleton _⟩, by simp, by simp, by simp⟩
      · rintro ⟨q, rfl, hq, hnd, -, -⟩
        match q, hq, hnd with
        | [], hq, _ => have := hq.first; simp at this
        | [x], hq, _ => have : x = u := by simpa using hq.first
                        subst this; simp
        | x :: y :: r, hq, hnd =>
          have : x = u := by simpa using hq.first
          subst this
          have hl := hq.last
          rw [List.getLast?_cons_cons] at hl
          have := List.mem_of_getLast? hl
          exact absurd this (List.nodup_cons.mp hnd).1
    · rw [if_neg h]
      simp only [List.mem_flatMap]
      constructor
      · rintro ⟨i, hi, hp⟩
        by_cases hv : i ∈ u :: stack
        · rw [if_pos hv] at hp; simp at hp
        · rw [if_neg hv] at hp
          obtain ⟨q, rfl, hq, hnd, hx, hlen⟩ := (ih i (u :: stack) p).mp hp
          cases q with
          | nil => have := hq.first; simp at this
          | cons y r =>
            have : y = i := by simpa using hq.first
            subst this
            refine ⟨u :: y :: r, by simp, ⟨rfl, by rw [List.getLast?_cons_cons]; exact hq.last,
              List.isChain_cons_cons.mpr ⟨hi, hq.chain⟩⟩, List.nodup_cons.mpr ⟨?_, hnd⟩, ?_, by simpa using hlen⟩
            · intro hm
              rcases List.mem_cons.mp hm with rfl | hm
              · exact hv (by simp)
              · exact hx u hm (by simp)
            · intro x hxm
              simp only [List.tail_cons] at hxm hx
              rcases List.mem_cons.mp hxm with rfl | hxm
              · exact hv
              · exact fun hc => hx x hxm (List.mem_cons_of_mem _ hc)
      · rintro ⟨q, rfl, hq, hnd, hx, hlen⟩
        match q, hq, hnd, hx, hlen with
        | [], hq, _, _, _ => have := hq.first; simp at this
        | [x], hq, _, _, _ =>
          have h1 : x = u := by simpa using hq.first
          have h2 : x = d := by simpa using hq.last
          exact absurd (h1.symm.trans h2) h
        | x :: y :: r, hq, hnd, hx, hlen =>
          have : x = u := by simpa using hq.first
          subst this
          obtain ⟨c1, c2⟩ := List.isChain_cons_cons.mp hq.chain
          obtain ⟨n1, n2⟩ := List.nodup_cons.mp hnd
          have hy : y ∉ x :: stack := hx y (by simp)
          refine ⟨y, c1, ?_⟩
          rw [if_neg hy]
          refine (ih y (x :: stack) _).mpr ⟨y :: r, by simp, ⟨rfl, by
            have := hq.last; rwa [List.getLast?_cons_cons] at this, c2⟩, n2, ?_, by simpa using hlen⟩
          intro z hz hm
          simp only [List.tail_cons] at hz
          rcases List.mem_cons.mp hm with rfl | hm
          · exact (List.nodup_cons.mp n2).1 hz
          · exact hx z (by simp [hz]) hm

/-- The fold keeps a cheapest path. -/
theorem better_fold {table : List Int} {V : ℕ} (l : List (List ℕ)) (hl : ∀ p ∈ l, p ≠ [] ∧ ∃ x, pathCost table V p = some x) :
    ∃ r, l.foldlM (better table V) [] = some r ∧ ((r = [] ∧ l = []) ∨
      (r ∈ l ∧ ∀ q ∈ l, ∀ x y, pathCost table V r = some x → pathCost table V q = some y → x ≤ y)) := by
  induction l using List.reverseRecOn with
  | nil => exact ⟨[], rfl, Or.inl ⟨rfl, rfl⟩⟩
  | append_singleton l p ih =>
    obtain ⟨r, e, h⟩ := ih fun q hq => hl q (by simp [hq])
    obtain ⟨hp, x, hx⟩ := hl p (by simp)
    rw [List.foldlM_append, e]
    simp only [Option.bind_eq_bind, Option.bind_some, List.foldlM_cons, List.foldlM_nil]
    rcases h with ⟨rfl, rfl⟩ | ⟨hr, hmin⟩
    · refine ⟨p, ?_, Or.inr ⟨by simp, ?_⟩⟩
      · simp [better, hx, pathCost]
      · intro q hq a b ha hb
        have : q = p := by simpa using hq
        subst this; rw [ha] at hb; cases hb; exact le_refl _
    · obtain ⟨hr0, y, hy⟩ := hl r (by simp [hr])
      by_cases hlt : x < y
      · refine ⟨p, by simp [better, hx, hy, hr0, hlt], Or.inr ⟨by simp, fun q hq a b ha hb => ?_⟩⟩
        rw [hx] at ha; cases ha
        rcases List.mem_append.mp hq with hq | hq
        · exact hlt.le.trans (hmin q hq y b hy hb)
        · rw [List.mem_singleton.mp hq, hx] at hb; cases hb; exact le_refl _
      · refine ⟨r, by simp [better, hx, hy, hr0, hlt], Or.inr ⟨by simp [hr], fun q hq a b ha hb => ?_⟩⟩
        rcases List.mem_append.mp hq with hq | hq
        · exact hmin q hq a b ha hb
        · rw [hy] at ha; cases ha
          rw [List.mem_singleton.mp hq, hx] at hb; cases hb; omega

end NoC

/-- A path that meets no node twice and has at most `len` links. -/
def NoC.Candidate (adj : ℕ → List ℕ) (len s d : ℕ) (p : List ℕ) : Prop :=
  IsPath (fun a b => b ∈ adj a) p s d ∧ p.Nodup ∧ p.length ≤ len + 1

/-- C99: `getPath` returns, among the paths of at most `len` links that meet no node twice, one whose most used link is
used the least; the empty list if there is no such path. -/
theorem C99_least_contended {adj : ℕ → List ℕ} {V len s d : ℕ} {table : List Int} (hV : ∀ a b, a < V → b ∈ adj a → b < V)
    (hs : s < V) (hd : s ≠ d) (hr : ∀ p, Candidate adj len s d p → ∃ x, pathCost table V p = some x) :
    ∃ r, getPath table adj V len s d = some r ∧ ((r = [] ∧ ¬ ∃ p, Candidate adj len s d p) ∨
      (Candidate adj len s d r ∧ ∀ q, Candidate adj len s d q → ∀ x y, pathCost table V r = some x →
        pathCost table V q = some y → x ≤ y)) := by
  have hmem : ∀ p, p ∈ pathsFrom adj d len [s] ↔ Candidate adj len s d p := by
    intro p
    rw [mem_pathsFrom]
    constructor
    · rintro ⟨q, rfl, h1, h2, -, h4⟩; simpa using ⟨h1, h2, h4⟩
    · rintro ⟨h1, h2, h4⟩
      refine ⟨p, by simp, h1, h2, fun x hx hm => ?_, h4⟩
      cases p with
      | nil => simp at hx
      | cons y p =>
        have : y = s := by simpa using h1.first
        subst this
        rw [List.mem_singleton.mp hm] at hx
        exact (List.nodup_cons.mp h2).1 hx
  unfold getPath
  rw [if_neg hd, leastCost_eq hV len s [] [] hs (by simpa using hd)]
  obtain ⟨r, e, h⟩ := better_fold (table := table) (V := V) (pathsFrom adj d len [s]) fun p hp =>
    ⟨by rintro rfl; have := ((hmem []).mp hp).1.first; simp at this, hr p ((hmem p).mp hp)⟩
  refine ⟨r, e, ?_⟩
  rcases h with ⟨h1, h2⟩ | ⟨h1, h2⟩
  · exact Or.inl ⟨h1, fun ⟨p, hp⟩ => by have := (hmem p).mpr hp; rw [h2] at this; simp at this⟩
  · exact Or.inr ⟨(hmem r).mp h1, fun q hq => h2 q ((hmem q).mpr hq)⟩

namespace NoC

/-- A shortest path meets no node twice. -/
theorem IsShortest.nodup {R : ℕ → ℕ → Prop} {p : List ℕ} {u d : ℕ} (h : IsShortest R p u d) : p.Nodup := by
  by_contra hn
  obtain ⟨l1, x, l3, l4, rfl⟩ : ∃ l1 x l3 l4, p = l1 ++ x :: (l3 ++ x :: l4) := by
    clear h
    induction p with
    | nil => simp at hn
    | cons a p ih =>
      rw [List.nodup_cons, not_and_or, not_not] at hn
      by_cases ha : a ∈ p
      · obtain ⟨l3, l4, rfl⟩ := List.append_of_mem ha
        exact ⟨[], a, l3, l4, rfl⟩
      · obtain ⟨l1, x, l3, l4, rfl⟩ := ih (hn.resolve_left ha)
        exact ⟨a :: l1, x, l3, l4, rfl⟩
  have hch := List.isChain_append.mp h.1.chain
  have hch2 : (x :: (l3 ++ x :: l4)).IsChain R := hch.2.1
  have hch3 : (x :: l4).IsChain R := by
    have : x :: (l3 ++ x :: l4) = (x :: l3) ++ x :: l4 := rfl
    rw [this] at hch2
    exact (List.isChain_append.mp hch2).2.1
  have := h.2 (l1 ++ x :: l4) ⟨?_, ?_, ?_⟩
  · simp only [List.length_append, List.length_cons] at this; omega
  · have := h.1.first
    cases l1 <;> simpa using this
  · have := h.1.last
    simpa [List.getLast?_append, List.getLast?_cons] using this
  · refine List.isChain_append.mpr ⟨hch.1, hch3, fun a ha b hb => hch.2.2 a ha b ?_⟩
    simpa using hb

theorem cost_readable {xs ys : ℕ} {table : List Int} (hx : 0 < xs) (hy : 0 < ys)
    (ht : meshNodes xs ys * meshNodes xs ys ≤ table.length) : ∀ (p : List ℕ),
    p.IsChain (fun a b => b ∈ adjacency (generate xs ys) a) → p.Nodup →
    p.head? ≠ some (meshNodes xs ys - 1) → ∃ x, pathCost table (meshNodes xs ys) p = some x := by
  intro p
  induction p with
  | nil => exact fun _ _ _ => ⟨0, rfl⟩
  | cons a p ih =>
    intro hc hnd hh
    cases p with
    | nil => exact ⟨0, rfl⟩
    | cons b p =>
      obtain ⟨c1, c2⟩ := List.isChain_cons_cons.mp hc
      obtain ⟨ha, hb⟩ := adj_lt a b c1
      have ha' : a ≠ meshNodes xs ys - 1 := by simpa using hh
      obtain ⟨x, hx'⟩ := readUtil_some (table := table) ht (a := a) (by omega) hb
      have : ∃ y, pathCost table (meshNodes xs ys) (b :: p) = some y := by
        by_cases hbl : b = meshNodes xs ys - 1
        · cases p with
          | nil => exact ⟨0, rfl⟩
          | cons c p =>
            exfalso
            have c3 := (List.isChain_cons_cons.mp c2).1
            have hlast := fun u hu => mesh_readable (u := u) hx hy ht hu b c hb c3
            have hb' : b = coreNode xs ys (xs - 1) (ys - 1) := by
              obtain ⟨P, Q, k1, -, -, k4, -⟩ := mem_adjacency.mp c3
              have : P = ⟨true, xs - 1, ys - 1⟩ := last_core hx hy k1 (by omega)
              rw [this, enc_core, ← coreNode_cast] at k4
              exact_mod_cast k4
            have hac : a = c := by
              obtain ⟨P, Q, k1, k2, k3, k4, k5⟩ := mem_adjacency.mp c3
              obtain ⟨P', Q', j1, j2, j3, j4, j5⟩ := mem_adjacency.mp c1
              have e1 : P = ⟨true, xs - 1, ys - 1⟩ := last_core hx hy k1 (by omega)
              have e2 : Q' = ⟨true, xs - 1, ys - 1⟩ := enc_inj j2 (e1 ▸ k1) (by rw [← j5, k4, e1])
              subst e1; subst e2
              have f1 : Q = ⟨false, xs - 1, ys - 1⟩ := by
                obtain ⟨c, X, Y⟩ := Q
                simp only [P.adj] at k3
                rcases k3 with ⟨hc, h1, h2⟩ | ⟨h, -⟩
                · subst h1; subst h2; cases c
                  · rfl
                  · simp at hc
                · cases h
              have f2 : P' = ⟨false, xs - 1, ys - 1⟩ := by
                obtain ⟨c, X, Y⟩ := P'
                simp only [P.adj] at j3
                rcases j3 with ⟨hc, h1, h2⟩ | ⟨-, h, -⟩
                · subst h1; subst h2; cases c
                  · rfl
                  · simp at hc
                · cases h
              rw [f1] at k5; rw [f2] at j4
              omega
            subst hac
            simp at hnd
        · exact ih c2 (List.nodup_cons.mp hnd).2 (by simpa using hbl)
      obtain ⟨y, hy'⟩ := this
      exact ⟨max x y, by simp [pathCost, hx', hy']⟩

end NoC

/-- C99: on a square mesh `getPathLength` is the number of links of the shortest routes. -/
theorem C99_length {n X1 Y1 X2 Y2 : ℕ} (h1 : X1 < n) (h3 : X2 < n) (hne : (X1, Y1) ≠ (X2, Y2)) :
    pathLength (meshNodes n n) (X1 + Y1 * n) (X2 + Y2 * n) =
      some (((X1 : Int) - X2).natAbs + ((Y1 : Int) - Y2).natAbs + 2) := by
  have hn : 0 < n := by omega
  have m : ∀ {X : ℕ} (Y : ℕ), X < n → (X + Y * n) % n = X ∧ (X + Y * n) / n = Y := by
    intro X Y hX
    rw [Nat.mul_comm Y n]
    exact ⟨by rw [Nat.add_mul_mod_self_left, Nat.mod_eq_of_lt hX],
      by rw [Nat.add_mul_div_left _ _ hn, Nat.div_eq_of_lt hX, Nat.zero_add]⟩
  unfold pathLength
  have hsq : Nat.sqrt (meshNodes n n / 2) = n := by
    unfold meshNodes
    rw [Nat.mul_div_cancel _ (by omega), Nat.sqrt_eq]
  rw [if_neg, hsq]
  · simp only
    rw [if_neg (by omega), (m Y1 h1).1, (m Y1 h1).2, (m Y2 h3).1, (m Y2 h3).2]
  · intro e
    have a := m Y1 h1
    have b := m Y2 h3
    rw [e] at a
    exact hne (Prod.ext (a.1.symm.trans b.1) (a.2.symm.trans b.2))

/-- C99, square meshes: between two different cores, the first not the last one of the mesh, `getPath` returns a shortest
path, and among all the shortest paths none has a less used most used link. -/
theorem C99_least_contended_mesh {n X1 Y1 X2 Y2 len : ℕ} (h1 : X1 < n) (h2 : Y1 < n) (h3 : X2 < n) (h4 : Y2 < n)
    (hne : (X1, Y1) ≠ (X2, Y2)) (hlast : (X1, Y1) ≠ (n - 1, n - 1)) {table : List Int}
    (ht : table.length = meshNodes n n * meshNodes n n)
    (hlen : pathLength (meshNodes n n) (X1 + Y1 * n) (X2 + Y2 * n) = some len) :
    let R : ℕ → ℕ → Prop := fun a b => b ∈ adjacency (generate n n) a
    ∃ r x, getPath table (adjacency (generate n n)) (meshNodes n n) len (coreNode n n X1 Y1) (coreNode n n X2 Y2) = some r ∧
      IsShortest R r (coreNode n n X1 Y1) (coreNode n n X2 Y2) ∧ pathCost table (meshNodes n n) r = some x ∧
      ∀ q, IsShortest R q (coreNode n n X1 Y1) (coreNode n n X2 Y2) → ∀ y, pathCost table (meshNodes n n) q = some y →
        x ≤ y := by
  intro R
  rw [C99_length h1 h3 hne] at hlen
  cases hlen
  have hn : 0 < n := by omega
  have inj : ∀ {X Y X' Y' : ℕ}, X < n → Y < n → X' < n → Y' < n → coreNode n n X Y = coreNode n n X' Y' →
      (X, Y) = (X', Y') := by
    intro X Y X' Y' a b c d e
    have e' : coreId n n X Y = coreId n n X' Y' := by rw [← coreNode_cast, ← coreNode_cast, e]
    rw [← enc_core, ← enc_core] at e'
    have := enc_inj (show P.ok n n ⟨true, X, Y⟩ from ⟨a, b⟩) (show P.ok n n ⟨true, X', Y'⟩ from ⟨c, d⟩) e'
    simpa using this
  have hu : coreNode n n X1 Y1 < meshNodes n n := by
    have := enc_lt (show P.ok n n ⟨true, X1, Y1⟩ from ⟨h1, h2⟩)
    rw [enc_core, ← coreNode_cast] at this
    exact_mod_cast this
  have hul : coreNode n n X1 Y1 ≠ meshNodes n n - 1 := by
    intro e
    have hok : (⟨true, X1, Y1⟩ : P).ok n n := ⟨h1, h2⟩
    have : (⟨true, X1, Y1⟩ : P) = ⟨true, n - 1, n - 1⟩ := by
      refine last_core hn hn hok ?_
      rw [enc_core, ← coreNode_cast, e]
      have : 0 < meshNodes n n := by omega
      omega
    simp only [P.mk.injEq, true_and] at this
    exact hlast (Prod.ext this.1 this.2)
  have hcost : ∀ p, IsPath R p (coreNode n n X1 Y1) (coreNode n n X2 Y2) → p.Nodup →
      ∃ x, pathCost table (meshNodes n n) p = some x := fun p hp hnd =>
    cost_readable hn hn ht.ge p hp.chain hnd (by rw [hp.first]; simpa using hul)
  -- a shortest path
  obtain ⟨p, e, g1, g2, -⟩ := C99_mesh h1 h2 h3 h4 hne hlast ht (le_refl _)
  have hmin : ∀ q, IsPath R q (coreNode n n X1 Y1) (coreNode n n X2 Y2) →
      ((X1 : Int) - X2).natAbs + ((Y1 : Int) - Y2).natAbs + 3 ≤ q.length := by
    intro q hq
    obtain ⟨a, b⟩ := route_of_path hq
    rw [coreNode_cast, coreNode_cast] at a
    have := C39_shortest h1 h2 h3 h4 hne a
    omega
  obtain ⟨_, _, _, _, r0, -, -, hr0, -, -, -, -, hl0⟩ := C39_route h1 h2 h3 h4 (max n n) (le_refl _)
  rw [← coreNode_cast, ← coreNode_cast] at hr0
  obtain ⟨q0, hq0, hql0⟩ := path_of_route hr0
  have hs0 : IsShortest R q0 (coreNode n n X1 Y1) (coreNode n n X2 Y2) := ⟨hq0, fun q hq => by have := hmin q hq; omega⟩
  have hcand : ∀ q, IsShortest R q (coreNode n n X1 Y1) (coreNode n n X2 Y2) →
      Candidate (adjacency (generate n n)) (((X1 : Int) - X2).natAbs + ((Y1 : Int) - Y2).natAbs + 2)
        (coreNode n n X1 Y1) (coreNode n n X2 Y2) q := fun q hq =>
    ⟨hq.1, hq.nodup, by have := hq.2 q0 hq0; omega⟩
  obtain ⟨r, er, h⟩ := C99_least_contended (table := table) (fun a b _ hb => (adj_lt a b hb).2) hu
    (fun he => hne (inj h1 h2 h3 h4 he))
    (fun p hp => hcost p hp.1 hp.2.1)
  rcases h with ⟨-, h⟩ | ⟨hr, hbest⟩
  · exact absurd ⟨q0, hcand q0 hs0⟩ h
  · obtain ⟨x, hx⟩ := hcost r hr.1 hr.2.1
    refine ⟨r, x, er, ⟨hr.1, fun q hq => ?_⟩, hx, fun q hq y hy => hbest q (hcand q hq) x y hx hy⟩
    have := hmin q hq
    have := hr.2.2
    omega

namespace NoCGraphExample

/-- The mesh of four cores: routers 0 to 3, cores 4 to 7. -/
def adj : ℕ → List ℕ := adjacency (generate 2 2)

/-- The link from router 0 to router 1 is used three times, those from 0 to 2 and from 2 to 3 once. -/
def table : List Int := (((List.replicate 64 0).set (8 + (0 * 8 + 1)) 3).set (8 + (0 * 8 + 2)) 1).set (8 + (2 * 8 + 3)) 1

/-- C99 does not say more of `findPathDijkstra` than it should: it looks at the last link only. From core 4 to core 7 it
takes the link used three times, and `getPath` avoids it. -/
theorem C99_not_least_contended : findPathDijkstra table adj 8 8 4 7 = some [4, 0, 1, 3, 7] ∧
    pathCost table 8 [4, 0, 1, 3, 7] = some 3 ∧ pathLength 8 0 3 = some 4 ∧
    getPath table adj 8 4 4 7 = some [4, 0, 2, 3, 7] ∧ pathCost table 8 [4, 0, 2, 3, 7] = some 1 := by
  refine ⟨by decide +kernel, by decide +kernel, by decide +kernel, by decide +kernel, by decide +kernel⟩

/-- C99: with the table of the size the code gives it, `findLowContentionPath` reads beyond its end on this mesh, for
another pair of cores too. -/
theorem C99_limit_out_of_bounds : findLowContentionPath 4 table adj 8 8 4 7 = none ∧
    findLowContentionPath 4 table adj 8 8 5 6 = none := by
  refine ⟨by decide +kernel, by decide +kernel⟩

/-- With a larger table it avoids the links used more than `limit` times, and returns the empty list if there is no other
way. -/
example : findLowContentionPath 2 (table ++ List.replicate 8 0) adj 8 8 4 7 = some [4, 0, 2, 3, 7] ∧
    findLowContentionPath 0 (table ++ List.replicate 8 0) adj 8 8 4 7 = some [] := by
  refine ⟨by decide +kernel, by decide +kernel⟩

/-- C99: on a mesh of one row and four columns the width is taken to be 2, the length allowed is too small by one, and
`getPath` finds nothing. -/
theorem C99_not_square : pathLength (meshNodes 4 1) 0 3 = some 4 ∧
    getPath (List.replicate 64 0) (adjacency (generate 4 1)) 8 4 4 7 = some [] ∧
    findPathDijkstra (List.replicate 64 0) (adjacency (generate 4 1)) 8 8 4 7 = some [4, 0, 1, 2, 3, 7] := by
  refine ⟨by decide +kernel, by decide +kernel, by decide +kernel⟩

/-- C99 applies to this mesh. -/
example : ∃ p, findPathDijkstra table adj (meshNodes 2 2) 8 (coreNode 2 2 0 0) (coreNode 2 2 1 1) = some p ∧
    IsRoute (generate 2 2) (routeOf (meshNodes 2 2) p) (coreId 2 2 0 0) (coreId 2 2 1 1) ∧
    (routeOf (meshNodes 2 2) p).length = 4 := by
  obtain ⟨p, h1, h2, h3, -⟩ := C99_mesh (xs := 2) (ys := 2) (X1 := 0) (Y1 := 0) (X2 := 1) (Y2 := 1) (by decide) (by decide)
    (by decide) (by decide) (by decide) (by decide) (table := table) (by decide) (fuel := 8) (by decide)
  exact ⟨p, h1, h2, h3⟩

/-- The hypotheses of `C99_dijkstra` and `C99_no_path` on a network that is not a mesh: 0 to 1 to 2, nothing to 3. -/
example : (∃ p, findPathDijkstra (List.replicate 20 0) (fun a => if a < 2 then [a + 1] else []) 4 4 0 2 = some p ∧
      p.length = 3) ∧
    findPathDijkstra (List.replicate 20 0) (fun a => if a < 2 then [a + 1] else []) 4 4 0 3 = none :=
  ⟨⟨[0, 1, 2], by decide +kernel, rfl⟩, by decide +kernel⟩

end NoCGraphExample

end Kiter
