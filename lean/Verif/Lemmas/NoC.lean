import Verif.Model.NoC
import Mathlib.Tactic.Linarith
import Mathlib.Tactic.Ring
import Mathlib.Tactic.NormNum
import Mathlib.Data.List.Nodup

set_option autoImplicit false

namespace Kiter.NoC

/-- A node by kind and position. -/
structure P where
  core : Bool
  X : Nat
  Y : Nat
deriving DecidableEq

def P.ok (xs ys : Nat) (p : P) : Prop := p.X < xs ∧ p.Y < ys

def enc (xs ys : Nat) (p : P) : Int := p.X + p.Y * xs + if p.core then (xs : Int) * ys else 0

theorem enc_bounds {xs ys : Nat} {p : P} (h : p.ok xs ys) :
    0 ≤ enc xs ys p ∧ enc xs ys p < xs * ys * 2 ∧ (p.core = false → enc xs ys p < xs * ys) ∧
      (p.core = true → (xs : Int) * ys ≤ enc xs ys p) := by
  obtain ⟨h1, h2⟩ := h
  have h3 : (p.X : Int) + 1 ≤ xs := by exact_mod_cast h1
  have h4 : (p.Y : Int) + 1 ≤ ys := by exact_mod_cast h2
  have h0 : (0 : Int) ≤ p.X := by positivity
  have h5 : (0 : Int) ≤ p.Y * xs := by positivity
  have h6 : ((p.Y : Int) + 1) * xs ≤ ys * xs := mul_le_mul_of_nonneg_right h4 (by positivity)
  have h7 : (0 : Int) ≤ xs * ys := by positivity
  unfold enc
  rcases Bool.eq_false_or_eq_true p.core with hc | hc
  · simp only [hc, if_true]
    refine ⟨by linarith, by nlinarith, by simp, fun _ => by nlinarith⟩
  · simp only [hc, Bool.false_eq_true, if_false]
    refine ⟨by linarith, by nlinarith, fun _ => by nlinarith, by simp⟩

theorem pos_inj {xs : Nat} {X Y X' Y' : Nat} (h : X < xs) (h' : X' < xs) (e : (X : Int) + Y * xs = X' + Y' * xs) :
    X = X' ∧ Y = Y' := by
  have e' : X + xs * Y = X' + xs * Y' := by
    have : ((X + xs * Y : Nat) : Int) = ((X' + xs * Y' : Nat) : Int) := by push_cast; linarith
    exact_mod_cast this
  have hx : 0 < xs := by omega
  have m1 : (X + xs * Y) % xs = X := by rw [Nat.add_mul_mod_self_left, Nat.mod_eq_of_lt h]
  have m2 : (X' + xs * Y') % xs = X' := by rw [Nat.add_mul_mod_self_left, Nat.mod_eq_of_lt h']
  have d1 : (X + xs * Y) / xs = Y := by rw [Nat.add_mul_div_left _ _ hx, Nat.div_eq_of_lt h, Nat.zero_add]
  have d2 : (X' + xs * Y') / xs = Y' := by rw [Nat.add_mul_div_left _ _ hx, Nat.div_eq_of_lt h', Nat.zero_add]
  rw [e'] at m1 d1
  exact ⟨m1.symm.trans m2, d1.symm.trans d2⟩

theorem enc_inj {xs ys : Nat} {p q : P} (hp : p.ok xs ys) (hq : q.ok xs ys) (e : enc xs ys p = enc xs ys q) : p = q := by
  have bp := enc_bounds hp
  have bq := enc_bounds hq
  obtain ⟨pc, pX, pY⟩ := p
  obtain ⟨qc, qX, qY⟩ := q
  simp only [P.ok] at hp hq
  have hc : pc = qc := by
    cases pc <;> cases qc <;> simp_all <;> omega
  subst hc
  have : (pX : Int) + pY * xs = qX + qY * xs := by
    simp only [enc] at e
    linarith
  obtain ⟨rfl, rfl⟩ := pos_inj hp.1 hq.1 this
  rfl

def absCell (xs ys X Y : Nat) : List (P × P) :=
  [(⟨false, X, Y⟩, ⟨true, X, Y⟩), (⟨true, X, Y⟩, ⟨false, X, Y⟩)] ++
    (if X + 1 < xs then [(⟨false, X, Y⟩, ⟨false, X + 1, Y⟩), (⟨false, X + 1, Y⟩, ⟨false, X, Y⟩)] else []) ++
    (if Y + 1 < ys then [(⟨false, X, Y⟩, ⟨false, X, Y + 1⟩), (⟨false, X, Y + 1⟩, ⟨false, X, Y⟩)] else [])

def cells (xs ys : Nat) : List (Nat × Nat) := (List.range xs).flatMap fun X => (List.range ys).map fun Y => (X, Y)

theorem mem_cells {xs ys X Y : Nat} : (X, Y) ∈ cells xs ys ↔ X < xs ∧ Y < ys := by simp [cells]

theorem cells_nodup (xs ys : Nat) : (cells xs ys).Nodup := by
  unfold cells
  rw [List.nodup_flatMap]
  refine ⟨fun X _ => (List.nodup_range).map fun a b h => (Prod.mk.inj h).2, ?_⟩
  refine List.Pairwise.imp ?_ List.nodup_range
  intro a b hab
  simp only [Function.onFun, List.disjoint_left, List.mem_map, not_exists, not_and]
  rintro _ ⟨y, -, rfl⟩ z _ h
  exact hab (Prod.mk.inj h).1.symm

def absLinks (xs ys : Nat) : List (P × P) := (cells xs ys).flatMap fun c => absCell xs ys c.1 c.2

def toLink (xs ys : Nat) (e : P × P) : Link :=
  ⟨(xs * ys * 2 : Int) + enc xs ys e.1 * (xs * ys * 2) + enc xs ys e.2, enc xs ys e.1, enc xs ys e.2⟩

def toNode (xs ys : Nat) (p : P) : Node :=
  ⟨enc xs ys p, !p.core, p.X + if p.core then 0 else 1/2, p.Y + if p.core then 0 else 1/2⟩

def absNodes (xs ys : Nat) : List P := (cells xs ys).flatMap fun c => [⟨false, c.1, c.2⟩, ⟨true, c.1, c.2⟩]

theorem flat_cells {α : Type} (xs ys : Nat) (f : Nat → Nat → List α) :
    ((List.range xs).flatMap fun X => (List.range ys).flatMap fun Y => f X Y) = (cells xs ys).flatMap fun c => f c.1 c.2 := by
  unfold cells
  rw [List.flatMap_assoc]
  congr 1
  funext X
  rw [List.flatMap_map]

theorem nodes_eq (xs ys : Nat) : (generate xs ys).nodes = (absNodes xs ys).map (toNode xs ys) := by
  simp only [generate, flat_cells, absNodes, List.map_flatMap]
  congr 1
  funext c
  simp [cellNodes, toNode, enc]

theorem links_eq (xs ys : Nat) : (generate xs ys).links = (absLinks xs ys).map (toLink xs ys) := by
  simp only [generate, flat_cells, absLinks, List.map_flatMap]
  congr 1
  funext c
  obtain ⟨X, Y⟩ := c
  have e1 : ((X : Int) < xs - 1) ↔ X + 1 < xs := by omega
  have e2 : ((Y : Int) < ys - 1) ↔ Y + 1 < ys := by omega
  unfold cellLinks absCell
  simp only [e1, e2, List.map_append]
  refine congrArg₂ _ (congrArg₂ _ ?_ ?_) ?_
  · simp [toLink, enc]
  · split_ifs <;> simp [toLink, enc]
  · split_ifs <;> simp [toLink, enc]

theorem mem_absNodes {xs ys : Nat} {p : P} : p ∈ absNodes xs ys ↔ p.ok xs ys := by
  obtain ⟨c, X, Y⟩ := p
  unfold absNodes P.ok
  simp only [List.mem_flatMap, List.mem_cons, List.not_mem_nil, or_false]
  constructor
  · rintro ⟨⟨a, b⟩, hab, h | h⟩ <;> obtain ⟨-, rfl, rfl⟩ := P.mk.inj h <;> exact mem_cells.mp hab
  · intro h
    refine ⟨(X, Y), mem_cells.mpr h, ?_⟩
    cases c <;> simp

/-- Two nodes of the mesh are linked: a router and its core, or routers at distance one. -/
def P.adj (p q : P) : Prop :=
  (p.core ≠ q.core ∧ p.X = q.X ∧ p.Y = q.Y) ∨
    (p.core = false ∧ q.core = false ∧
      ((p.Y = q.Y ∧ (p.X + 1 = q.X ∨ q.X + 1 = p.X)) ∨ (p.X = q.X ∧ (p.Y + 1 = q.Y ∨ q.Y + 1 = p.Y))))

theorem mem_absCell {xs ys X Y : Nat} {p q : P} : (p, q) ∈ absCell xs ys X Y ↔
    (p = ⟨false, X, Y⟩ ∧ q = ⟨true, X, Y⟩) ∨ (p = ⟨true, X, Y⟩ ∧ q = ⟨false, X, Y⟩) ∨
    (X + 1 < xs ∧ ((p = ⟨false, X, Y⟩ ∧ q = ⟨false, X + 1, Y⟩) ∨ (p = ⟨false, X + 1, Y⟩ ∧ q = ⟨false, X, Y⟩))) ∨
    (Y + 1 < ys ∧ ((p = ⟨false, X, Y⟩ ∧ q = ⟨false, X, Y + 1⟩) ∨ (p = ⟨false, X, Y + 1⟩ ∧ q = ⟨false, X, Y⟩))) := by
  unfold absCell
  by_cases h1 : X + 1 < xs <;> by_cases h2 : Y + 1 < ys <;> simp [h1, h2, or_assoc]

theorem mem_absLinks {xs ys : Nat} {p q : P} : (p, q) ∈ absLinks xs ys ↔ p.ok xs ys ∧ q.ok xs ys ∧ p.adj q := by
  unfold absLinks
  simp only [List.mem_flatMap, Prod.exists]
  constructor
  · rintro ⟨X, Y, hc, h⟩
    rw [mem_cells] at hc
    rw [mem_absCell] at h
    rcases h with ⟨rfl, rfl⟩ | ⟨rfl, rfl⟩ | ⟨h, ⟨rfl, rfl⟩ | ⟨rfl, rfl⟩⟩ | ⟨h, ⟨rfl, rfl⟩ | ⟨rfl, rfl⟩⟩ <;>
      simp [P.ok, P.adj] <;> omega
  · rintro ⟨hp, hq, h⟩
    obtain ⟨pc, pX, pY⟩ := p
    obtain ⟨qc, qX, qY⟩ := q
    simp only [P.ok, P.adj] at hp hq h
    simp only [mem_absCell, mem_cells]
    rcases h with ⟨h1, rfl, rfl⟩ | ⟨rfl, rfl, ⟨rfl, rfl | rfl⟩ | ⟨rfl, rfl | rfl⟩⟩
    · refine ⟨pX, pY, hp, ?_⟩
      cases pc <;> cases qc <;> simp_all
    · exact ⟨pX, pY, hp, by simp; omega⟩
    · exact ⟨qX, pY, hq, by simp; omega⟩
    · exact ⟨pX, pY, hp, by simp; omega⟩
    · exact ⟨pX, qY, hq, by simp; omega⟩

theorem absLinks_nodup (xs ys : Nat) : (absLinks xs ys).Nodup := by
  unfold absLinks
  rw [List.nodup_flatMap]
  constructor
  · rintro ⟨X, Y⟩ -
    unfold absCell
    by_cases h1 : X + 1 < xs <;> by_cases h2 : Y + 1 < ys <;> simp [h1, h2]
  · refine List.Pairwise.imp ?_ (cells_nodup xs ys)
    rintro ⟨X, Y⟩ ⟨X', Y'⟩ hne
    simp only [Function.onFun, List.disjoint_left]
    rintro ⟨p, q⟩ h h'
    rw [mem_absCell] at h h'
    apply hne
    rcases h with ⟨rfl, rfl⟩ | ⟨rfl, rfl⟩ | ⟨-, ⟨rfl, rfl⟩ | ⟨rfl, rfl⟩⟩ | ⟨-, ⟨rfl, rfl⟩ | ⟨rfl, rfl⟩⟩ <;>
      simp only [P.mk.injEq, true_and, Bool.false_eq_true, Bool.true_eq_false, false_and, and_false, or_false, false_or] at h' <;>
      simp only [Prod.mk.injEq] <;> omega

theorem absNodes_nodup (xs ys : Nat) : (absNodes xs ys).Nodup := by
  unfold absNodes
  rw [List.nodup_flatMap]
  constructor
  · rintro ⟨X, Y⟩ -; simp
  · refine List.Pairwise.imp ?_ (cells_nodup xs ys)
    rintro ⟨X, Y⟩ ⟨X', Y'⟩ hne
    simp only [Function.onFun, List.disjoint_left]
    intro p h h'
    apply hne
    simp only [List.mem_cons, List.not_mem_nil, or_false] at h h'
    rcases h with rfl | rfl <;> simp at h' <;> simp [h']

/-- `find?` when exactly one element qualifies. -/
theorem find_unique {α : Type} {p : α → Bool} {l : List α} {b : α} (hb : b ∈ l) (hp : p b = true)
    (hu : ∀ a ∈ l, p a = true → a = b) : l.find? p = some b := by
  cases h : l.find? p with
  | none => rw [List.find?_eq_none] at h; exact absurd hp (h b hb)
  | some a => rw [hu a (List.mem_of_find?_eq_some h) (List.find?_some h)]

theorem getNode_enc {xs ys : Nat} {p : P} (h : p.ok xs ys) :
    getNode (generate xs ys) (enc xs ys p) = some (toNode xs ys p) := by
  unfold getNode
  rw [nodes_eq]
  apply find_unique
  · exact List.mem_map_of_mem (mem_absNodes.mpr h)
  · simp [toNode]
  · intro a ha he
    obtain ⟨q, hq, rfl⟩ := List.mem_map.mp ha
    simp only [toNode, beq_iff_eq] at he
    rw [enc_inj (mem_absNodes.mp hq) h he]

theorem mem_links {xs ys : Nat} {l : Link} : l ∈ (generate xs ys).links ↔
    ∃ p q : P, p.ok xs ys ∧ q.ok xs ys ∧ p.adj q ∧ l = toLink xs ys (p, q) := by
  rw [links_eq, List.mem_map]
  constructor
  · rintro ⟨⟨p, q⟩, h, rfl⟩
    obtain ⟨h1, h2, h3⟩ := mem_absLinks.mp h
    exact ⟨p, q, h1, h2, h3, rfl⟩
  · rintro ⟨p, q, h1, h2, h3, rfl⟩
    exact ⟨(p, q), mem_absLinks.mpr ⟨h1, h2, h3⟩, rfl⟩

theorem neighbour_unique {n : Net} {ok : Node → Node → Bool} {src : Int} {b : Link} :
    ∀ ls : List Link, (∀ l ∈ ls, ∃ x y, getNode n l.src = some x ∧ getNode n l.dst = some y ∧
      (l.src = src → ok x y = true → l = b) ∧ (l = b → src = b.src ∧ ok x y = true)) → b ∈ ls →
    neighbour n ok src ls = some b := by
  intro ls
  induction ls with
  | nil => intro _ h; simp at h
  | cons l ls ih =>
    intro h hb
    obtain ⟨x, y, h1, h2, h3, h4⟩ := h l List.mem_cons_self
    unfold neighbour
    by_cases hs : l.src = src
    · by_cases ho : ok x y = true
      · rw [if_pos hs, h1, h2]
        simp only [Option.bind_eq_bind, Option.bind_some, ho, if_true, h3 hs ho]
      · have hne : b ≠ l := fun e => ho (h4 e.symm).2
        have := ih (fun l hl => h l (List.mem_cons_of_mem _ hl)) ((List.mem_cons.mp hb).resolve_left hne)
        rw [if_pos hs, h1, h2]
        simpa only [Option.bind_eq_bind, Option.bind_some, if_neg ho] using this
    · have hne : b ≠ l := fun e => hs (by rw [← e, ← (h4 e.symm).1])
      simp only [hs, if_false]
      exact ih (fun l hl => h l (List.mem_cons_of_mem _ hl)) ((List.mem_cons.mp hb).resolve_left hne)

theorem toLink_inj {xs ys : Nat} {p q p' q' : P} (hp : p.ok xs ys) (hq : q.ok xs ys) (hp' : p'.ok xs ys) (hq' : q'.ok xs ys)
    (e : toLink xs ys (p, q) = toLink xs ys (p', q')) : p = p' ∧ q = q' := by
  simp only [toLink, Link.mk.injEq] at e
  exact ⟨enc_inj hp hp' e.2.1, enc_inj hq hq' e.2.2⟩

/-- A neighbour lookup among the links of a mesh. -/
theorem neighbour_mesh {xs ys : Nat} {ok : Node → Node → Bool} {p q : P} (hp : p.ok xs ys) (hq : q.ok xs ys) (ha : p.adj q)
    (hok : ok (toNode xs ys p) (toNode xs ys q) = true)
    (hu : ∀ r : P, r.ok xs ys → p.adj r → ok (toNode xs ys p) (toNode xs ys r) = true → r = q) :
    neighbour (generate xs ys) ok (enc xs ys p) (generate xs ys).links = some (toLink xs ys (p, q)) := by
  apply neighbour_unique
  · intro l hl
    obtain ⟨a, b, h1, h2, h3, rfl⟩ := mem_links.mp hl
    refine ⟨_, _, getNode_enc h1, getNode_enc h2, ?_, ?_⟩
    · intro he ho
      obtain rfl := enc_inj h1 hp he
      rw [hu b h2 h3 ho]
    · intro he
      obtain ⟨rfl, rfl⟩ := toLink_inj h1 h2 hp hq he
      exact ⟨rfl, hok⟩
  · exact mem_links.mpr ⟨p, q, hp, hq, ha, rfl⟩

section
variable {xs ys X Y : Nat}

theorem right_mesh (h : X + 1 < xs) (hy : Y < ys) : right (generate xs ys) (enc xs ys ⟨false, X, Y⟩) =
    some (toLink xs ys (⟨false, X, Y⟩, ⟨false, X + 1, Y⟩)) := by
  apply neighbour_mesh
  · exact ⟨by simp only; omega, hy⟩
  · exact ⟨h, hy⟩
  · simp [P.adj]
  · simp [toNode]
  · rintro ⟨c, a, b⟩ h1 h2 h3
    simp only [P.adj, ne_eq, true_and] at h2
    rcases h2 with ⟨hc, rfl, rfl⟩ | ⟨rfl, ⟨rfl, rfl | rfl⟩ | ⟨rfl, rfl | rfl⟩⟩
    · cases c <;> simp [toNode] at hc h3
    · rfl
    · simp [toNode] at h3; exfalso; linarith [h3]
    · simp [toNode] at h3
    · simp [toNode] at h3

theorem left_mesh (h : X + 1 < xs) (hy : Y < ys) : left (generate xs ys) (enc xs ys ⟨false, X + 1, Y⟩) =
    some (toLink xs ys (⟨false, X + 1, Y⟩, ⟨false, X, Y⟩)) := by
  apply neighbour_mesh
  · exact ⟨h, hy⟩
  · exact ⟨by simp only; omega, hy⟩
  · simp [P.adj]
  · simp [toNode]
  · rintro ⟨c, a, b⟩ h1 h2 h3
    simp only [P.adj, ne_eq, true_and] at h2
    rcases h2 with ⟨hc, rfl, rfl⟩ | ⟨rfl, ⟨rfl, h2 | h2⟩ | ⟨rfl, rfl | rfl⟩⟩
    · cases c <;> simp [toNode] at hc h3
    · subst h2; simp [toNode] at h3; exfalso; linarith [h3]
    · obtain rfl : a = X := by omega
      rfl
    · simp [toNode] at h3
    · simp [toNode] at h3

theorem top_mesh (h : X < xs) (hy : Y + 1 < ys) : top (generate xs ys) (enc xs ys ⟨false, X, Y⟩) =
    some (toLink xs ys (⟨false, X, Y⟩, ⟨false, X, Y + 1⟩)) := by
  apply neighbour_mesh
  · exact ⟨h, by simp only; omega⟩
  · exact ⟨h, hy⟩
  · simp [P.adj]
  · simp [toNode]
  · rintro ⟨c, a, b⟩ h1 h2 h3
    simp only [P.adj, ne_eq, true_and] at h2
    rcases h2 with ⟨hc, rfl, rfl⟩ | ⟨rfl, ⟨rfl, rfl | rfl⟩ | ⟨rfl, rfl | rfl⟩⟩
    · cases c <;> simp [toNode] at hc h3
    · simp [toNode] at h3
    · simp [toNode] at h3
    · rfl
    · simp [toNode] at h3; exfalso; linarith [h3]

theorem bottom_mesh (h : X < xs) (hy : Y + 1 < ys) : bottom (generate xs ys) (enc xs ys ⟨false, X, Y + 1⟩) =
    some (toLink xs ys (⟨false, X, Y + 1⟩, ⟨false, X, Y⟩)) := by
  apply neighbour_mesh
  · exact ⟨h, hy⟩
  · exact ⟨h, by simp only; omega⟩
  · simp [P.adj]
  · simp [toNode]
  · rintro ⟨c, a, b⟩ h1 h2 h3
    simp only [P.adj, ne_eq, true_and] at h2
    rcases h2 with ⟨hc, rfl, rfl⟩ | ⟨rfl, ⟨rfl, rfl | rfl⟩ | ⟨rfl, h2 | h2⟩⟩
    · cases c <;> simp [toNode] at hc h3
    · simp [toNode] at h3
    · simp [toNode] at h3
    · subst h2; simp [toNode] at h3; exfalso; linarith [h3]
    · obtain rfl : b = Y := by omega
      rfl

theorem srcLink_core (h : X < xs) (hy : Y < ys) : srcLink (generate xs ys) (enc xs ys ⟨true, X, Y⟩) =
    some (toLink xs ys (⟨true, X, Y⟩, ⟨false, X, Y⟩)) := by
  unfold srcLink
  apply find_unique
  · exact mem_links.mpr ⟨_, _, ⟨h, hy⟩, ⟨h, hy⟩, by simp [P.adj], rfl⟩
  · simp [toLink]
  · intro a ha he
    obtain ⟨p, q, h1, h2, h3, rfl⟩ := mem_links.mp ha
    simp only [toLink, beq_iff_eq] at he
    obtain rfl := enc_inj h1 ⟨h, hy⟩ he
    obtain ⟨c, a, b⟩ := q
    simp only [P.adj] at h3
    rcases h3 with ⟨hc, rfl, rfl⟩ | ⟨hc, -⟩
    · cases c
      · rfl
      · simp at hc
    · simp at hc

theorem dstLink_core (h : X < xs) (hy : Y < ys) : dstLink (generate xs ys) (enc xs ys ⟨true, X, Y⟩) =
    some (toLink xs ys (⟨false, X, Y⟩, ⟨true, X, Y⟩)) := by
  unfold dstLink
  apply find_unique
  · exact mem_links.mpr ⟨_, _, ⟨h, hy⟩, ⟨h, hy⟩, by simp [P.adj], rfl⟩
  · simp [toLink]
  · intro a ha he
    obtain ⟨p, q, h1, h2, h3, rfl⟩ := mem_links.mp ha
    simp only [toLink, beq_iff_eq] at he
    obtain rfl := enc_inj h2 ⟨h, hy⟩ he
    obtain ⟨c, a, b⟩ := p
    simp only [P.adj] at h3
    rcases h3 with ⟨hc, rfl, rfl⟩ | ⟨-, hc, -⟩
    · cases c
      · rfl
      · simp at hc
    · simp at hc

end

end Kiter.NoC
