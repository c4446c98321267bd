/-
Mesh network and routing: C38, C39, C40, C57.
-/
import Verif.Lemmas.NoC

set_option autoImplicit false

namespace Kiter

open NoC

/-! Specification -/

/-- Id of the router at column `X`, row `Y` of a mesh with `xs` columns: rows are numbered one after the other. -/
def NoC.routerId (xs X Y : Nat) : Int := X + Y * xs
/-- Id of the core at column `X`, row `Y`: the cores come after the `xs * ys` routers. -/
def NoC.coreId (xs ys X Y : Nat) : Int := X + Y * xs + xs * ys

/-- The links a mesh must have: between each router and its core, and between routers one step apart, in both directions. -/
inductive NoC.Joined (xs ys : Nat) : Int → Int → Prop
  | down (X Y : Nat) : X < xs → Y < ys → Joined xs ys (routerId xs X Y) (coreId xs ys X Y)
  | up (X Y : Nat) : X < xs → Y < ys → Joined xs ys (coreId xs ys X Y) (routerId xs X Y)
  | mesh (X Y X' Y' : Nat) : X < xs → Y < ys → X' < xs → Y' < ys →
      ((X : Int) - X').natAbs + ((Y : Int) - Y').natAbs = 1 → Joined xs ys (routerId xs X Y) (routerId xs X' Y')

/-- `path` lists the ids of links that lead from node `a` to node `b`. -/
def NoC.IsRoute (n : Net) : List Int → Int → Int → Prop
  | [], a, b => a = b
  | i :: is, a, b => ∃ l ∈ n.links, l.id = i ∧ l.src = a ∧ IsRoute n is l.dst b

/-! ### C38 -/

theorem NoC.enc_router (xs ys X Y : Nat) : enc xs ys ⟨false, X, Y⟩ = routerId xs X Y := by simp [enc, routerId]
theorem NoC.enc_core (xs ys X Y : Nat) : enc xs ys ⟨true, X, Y⟩ = coreId xs ys X Y := by simp [enc, coreId]

theorem NoC.joined_iff {xs ys : Nat} {a b : Int} : Joined xs ys a b ↔
    ∃ p q : P, p.ok xs ys ∧ q.ok xs ys ∧ p.adj q ∧ a = enc xs ys p ∧ b = enc xs ys q := by
  constructor
  · intro h
    cases h with
    | down X Y h1 h2 =>
      exact ⟨⟨false, X, Y⟩, ⟨true, X, Y⟩, ⟨h1, h2⟩, ⟨h1, h2⟩, by simp [P.adj], (enc_router ..).symm, (enc_core ..).symm⟩
    | up X Y h1 h2 =>
      exact ⟨⟨true, X, Y⟩, ⟨false, X, Y⟩, ⟨h1, h2⟩, ⟨h1, h2⟩, by simp [P.adj], (enc_core ..).symm, (enc_router ..).symm⟩
    | mesh X Y X' Y' h1 h2 h3 h4 h =>
      exact ⟨⟨false, X, Y⟩, ⟨false, X', Y'⟩, ⟨h1, h2⟩, ⟨h3, h4⟩, by simp only [P.adj]; right; simp; omega,
        (enc_router ..).symm, (enc_router ..).symm⟩
  · rintro ⟨⟨c, X, Y⟩, ⟨c', X', Y'⟩, hp, hq, h, rfl, rfl⟩
    simp only [P.ok, P.adj] at hp hq h
    rcases h with ⟨h, rfl, rfl⟩ | ⟨rfl, rfl, h⟩
    · cases c <;> cases c'
      · simp at h
      · rw [enc_router, enc_core]; exact .down X Y hp.1 hp.2
      · rw [enc_router, enc_core]; exact .up X Y hp.1 hp.2
      · simp at h
    · rw [enc_router, enc_router]; exact .mesh X Y X' Y' hp.1 hp.2 hq.1 hq.2 (by omega)

/-- C38, nodes: in every mesh the nodes are exactly one router and one core per position, at the expected coordinates, and
their ids are 0, 1, ..., 2*xs*ys-1, each used once. -/
theorem C38_nodes (xs ys : Nat) :
    ((generate xs ys).nodes.map fun v => v.id).Perm ((List.range (xs * ys * 2)).map fun i : Nat => (i : Int)) ∧
    (∀ X Y, X < xs → Y < ys →
      getNode (generate xs ys) (routerId xs X Y) = some ⟨routerId xs X Y, true, X + 1/2, Y + 1/2⟩ ∧
      getNode (generate xs ys) (coreId xs ys X Y) = some ⟨coreId xs ys X Y, false, X, Y⟩) := by
  constructor
  · have hnd : ((generate xs ys).nodes.map fun v => v.id).Nodup := by
      rw [nodes_eq, List.map_map]
      refine List.Nodup.map_on ?_ (absNodes_nodup xs ys)
      intro p hp q hq h
      exact enc_inj (mem_absNodes.mp hp) (mem_absNodes.mp hq) h
    rw [List.perm_ext_iff_of_nodup hnd (List.nodup_range.map (f := fun i : Nat => (i : Int)) fun a b h => by simpa using h)]
    intro i
    rw [nodes_eq, List.map_map]
    simp only [List.mem_map, List.mem_range, Function.comp, mem_absNodes]
    constructor
    · rintro ⟨p, hp, rfl⟩
      have b := enc_bounds hp
      have e : (toNode xs ys p).id = enc xs ys p := rfl
      rw [e]
      refine ⟨(enc xs ys p).toNat, ?_, by omega⟩
      have : ((enc xs ys p).toNat : Int) < ((xs * ys * 2 : Nat) : Int) := by push_cast; omega
      exact_mod_cast this
    · rintro ⟨k, hk, rfl⟩
      have hm : ∀ m, m < xs * ys → ∃ X Y, X < xs ∧ Y < ys ∧ m = X + Y * xs := fun m hm => by
        have hx : 0 < xs := Nat.pos_of_ne_zero fun h => by simp [h] at hm
        refine ⟨m % xs, m / xs, Nat.mod_lt _ hx, Nat.div_lt_of_lt_mul hm, ?_⟩
        rw [Nat.mul_comm]; exact (Nat.mod_add_div m xs).symm
      rcases Nat.lt_or_ge k (xs * ys) with h | h
      · obtain ⟨X, Y, h1, h2, rfl⟩ := hm k h
        exact ⟨⟨false, X, Y⟩, ⟨h1, h2⟩, by simp [toNode, enc]⟩
      · obtain ⟨X, Y, h1, h2, h3⟩ := hm (k - xs * ys) (by omega)
        refine ⟨⟨true, X, Y⟩, ⟨h1, h2⟩, ?_⟩
        obtain rfl : k = X + Y * xs + xs * ys := by omega
        simp [toNode, enc]
  · intro X Y h1 h2
    have a := getNode_enc (xs := xs) (ys := ys) (p := ⟨false, X, Y⟩) ⟨h1, h2⟩
    have b := getNode_enc (xs := xs) (ys := ys) (p := ⟨true, X, Y⟩) ⟨h1, h2⟩
    rw [enc_router] at a
    rw [enc_core] at b
    refine ⟨?_, ?_⟩
    · rw [a]; simp [toNode, enc, routerId]
    · rw [b]; simp [toNode, enc, coreId]

/-- C38, links: two nodes are linked exactly when the mesh asks for it, by one link only, and the link found between them
has the id computed by `getMapIndex`. -/
theorem C38_links (xs ys : Nat) :
    (∀ a b, (∃ l ∈ (generate xs ys).links, l.src = a ∧ l.dst = b) ↔ Joined xs ys a b) ∧
    ((generate xs ys).links.map fun l => (l.src, l.dst)).Nodup ∧
    (∀ a b, Joined xs ys a b →
      getLink (generate xs ys) a b = some ⟨mapIndex (xs * ys * 2) a b, a, b⟩) := by
  refine ⟨?_, ?_, ?_⟩
  · intro a b
    rw [joined_iff]
    constructor
    · rintro ⟨l, hl, rfl, rfl⟩
      obtain ⟨p, q, h1, h2, h3, rfl⟩ := mem_links.mp hl
      exact ⟨p, q, h1, h2, h3, rfl, rfl⟩
    · rintro ⟨p, q, h1, h2, h3, rfl, rfl⟩
      exact ⟨_, mem_links.mpr ⟨p, q, h1, h2, h3, rfl⟩, rfl, rfl⟩
  · rw [links_eq, List.map_map]
    refine List.Nodup.map_on ?_ (absLinks_nodup xs ys)
    rintro ⟨p, q⟩ hp ⟨p', q'⟩ hp' h
    obtain ⟨a1, a2, -⟩ := mem_absLinks.mp hp
    obtain ⟨b1, b2, -⟩ := mem_absLinks.mp hp'
    simp only [Function.comp, toLink, Prod.mk.injEq] at h
    rw [enc_inj a1 b1 h.1, enc_inj a2 b2 h.2]
  · intro a b h
    obtain ⟨p, q, h1, h2, h3, rfl, rfl⟩ := joined_iff.mp h
    have e : (⟨mapIndex (xs * ys * 2) (enc xs ys p) (enc xs ys q), enc xs ys p, enc xs ys q⟩ : Link) = toLink xs ys (p, q) := by
      simp only [toLink, mapIndex, Link.mk.injEq, and_true]; ring
    rw [e]
    apply find_unique
    · exact mem_links.mpr ⟨p, q, h1, h2, h3, rfl⟩
    · simp [toLink]
    · intro l hl hc
      obtain ⟨p', q', g1, g2, g3, rfl⟩ := mem_links.mp hl
      simp only [toLink, Bool.and_eq_true, beq_iff_eq] at hc
      rw [enc_inj g1 h1 hc.1, enc_inj g2 h2 hc.2]

theorem NoC.insert_nodup (l acc : List Int) (h : (l ++ acc).Nodup) : l.foldlM checkInsert acc = some (l.reverse ++ acc) := by
  induction l generalizing acc with
  | nil => simp
  | cons a l ih =>
    rw [List.cons_append, List.nodup_cons] at h
    have h1 : checkInsert acc a = some (a :: acc) := by
      unfold checkInsert
      rw [if_neg fun hm => h.1 (List.mem_append_right _ hm)]
    rw [List.foldlM_cons, h1]
    simp only [Option.bind_eq_bind, Option.bind_some]
    rw [ih (a :: acc) (by
      have : (l ++ a :: acc).Perm (a :: (l ++ acc)) := List.perm_middle
      exact this.nodup_iff.mpr (List.nodup_cons.mpr h))]
    simp

/-- C38, ids: no two elements of a mesh (links and nodes together) share an id, so the constructor's own check succeeds. -/
theorem C38_unique (xs ys : Nat) :
    (((generate xs ys).links.map fun l => l.id) ++ ((generate xs ys).nodes.map fun v => v.id)).Nodup ∧
      checkIds (generate xs ys) = some true := by
  have hnd : (((generate xs ys).links.map fun l => l.id) ++ ((generate xs ys).nodes.map fun v => v.id)).Nodup := by
    refine List.nodup_append.mpr ⟨?_, ?_, ?_⟩
    · rw [links_eq, List.map_map]
      refine List.Nodup.map_on ?_ (absLinks_nodup xs ys)
      rintro ⟨p, q⟩ hp ⟨p', q'⟩ hp' h
      obtain ⟨a1, a2, -⟩ := mem_absLinks.mp hp
      obtain ⟨b1, b2, -⟩ := mem_absLinks.mp hp'
      simp only [Function.comp, toLink] at h
      have c1 := enc_bounds a2
      have c2 := enc_bounds b2
      have hN : (0 : Int) < xs * ys * 2 := by omega
      have h' : enc xs ys p * (xs * ys * 2) + enc xs ys q = enc xs ys p' * (xs * ys * 2) + enc xs ys q' := by linarith
      have d1 : (enc xs ys p * (xs * ys * 2) + enc xs ys q) / (xs * ys * 2) = enc xs ys p := by
        rw [Int.add_comm, Int.add_mul_ediv_right _ _ (by omega), Int.ediv_eq_zero_of_lt c1.1 c1.2.1]; ring
      have d2 : (enc xs ys p' * (xs * ys * 2) + enc xs ys q') / (xs * ys * 2) = enc xs ys p' := by
        rw [Int.add_comm, Int.add_mul_ediv_right _ _ (by omega), Int.ediv_eq_zero_of_lt c2.1 c2.2.1]; ring
      have e1 : enc xs ys p = enc xs ys p' := by rw [← d1, ← d2, h']
      rw [e1] at h'
      rw [enc_inj a1 b1 e1, enc_inj a2 b2 (by linarith)]
    · rw [nodes_eq, List.map_map]
      refine List.Nodup.map_on ?_ (absNodes_nodup xs ys)
      intro p hp q hq h
      exact enc_inj (mem_absNodes.mp hp) (mem_absNodes.mp hq) h
    · intro a ha b hb hab
      obtain ⟨l, hl, rfl⟩ := List.mem_map.mp ha
      obtain ⟨v, hv, rfl⟩ := List.mem_map.mp hb
      obtain ⟨p, q, h1, h2, -, rfl⟩ := mem_links.mp hl
      rw [nodes_eq] at hv
      obtain ⟨r, hr, rfl⟩ := List.mem_map.mp hv
      have b1 := enc_bounds h1
      have b2 := enc_bounds h2
      have b3 := enc_bounds (mem_absNodes.mp hr)
      simp only [toLink, toNode] at hab
      have : 0 ≤ enc xs ys p * (xs * ys * 2) := mul_nonneg b1.1 (by omega)
      omega
  refine ⟨hnd, ?_⟩
  unfold checkIds
  rw [insert_nodup _ [] (by simpa using (List.nodup_append.mp hnd).1)]
  simp only [List.append_nil, Option.bind_eq_bind, Option.bind_some]
  rw [insert_nodup _ _ (by
    refine (List.Perm.nodup_iff ?_).mpr hnd
    exact List.perm_append_comm.trans (List.Perm.append_right _ (List.reverse_perm _)))]
  simp [Nat.add_comm]

/-! ### C40 -/

/-- C40: the index of a link gives back its end points, so distinct links have distinct indices; and no index is a node id. -/
theorem C40_index (V x y : Int) (hx : 0 ≤ x) (hy : 0 ≤ y) (hyV : y < V) :
    mapIndexPair V (mapIndex V x y) = some (x, y) ∧ V ≤ mapIndex V x y := by
  unfold mapIndexPair mapIndex
  have hV : V ≠ 0 := by omega
  have h0 : 0 ≤ x * V := mul_nonneg hx (by omega)
  rw [if_neg hV]
  refine ⟨?_, by omega⟩
  have e : V + (x * V + y) - V = y + x * V := by ring
  rw [e, Int.tdiv_eq_ediv_of_nonneg (by omega), Int.tmod_eq_emod_of_nonneg (by omega), Int.add_mul_ediv_right _ _ hV,
    Int.ediv_eq_zero_of_lt hy hyV, Int.add_mul_emod_self_right, Int.emod_eq_of_lt hy hyV]
  simp

/-- The utilisation table has `V*V` entries, but the indices of the links that leave the last node are beyond its end. -/
theorem C40_table_counterexample (V y : Int) (hy : 0 ≤ y) : V * V ≤ mapIndex V (V - 1) y := by
  unfold mapIndex; nlinarith

/-! ### C39 -/

theorem NoC.route_append {n : Net} {p q : List Int} {a b c : Int} (h1 : IsRoute n p a b) (h2 : IsRoute n q b c) :
    IsRoute n (p ++ q) a c := by
  induction p generalizing a with
  | nil => simp only [IsRoute] at h1; subst h1; exact h2
  | cons i p ih =>
    obtain ⟨l, hl, hi, hs, hr⟩ := h1
    exact ⟨l, hl, hi, hs, ih hr⟩

theorem NoC.route_link {xs ys : Nat} {p q : P} (hp : p.ok xs ys) (hq : q.ok xs ys) (h : p.adj q) :
    IsRoute (generate xs ys) [(toLink xs ys (p, q)).id] (enc xs ys p) (enc xs ys q) :=
  ⟨_, mem_links.mpr ⟨p, q, hp, hq, h, rfl⟩, rfl, rfl, rfl⟩

/-- A loop of the routing that moves along `pt 0, pt 1, ...`. -/
theorem NoC.walk_line {xs ys : Nat} {nb : Int → Option Link} {stop : Node → Bool} (k : Nat) (pt : Nat → P)
    (hnb : ∀ i < k, nb (enc xs ys (pt i)) = some (toLink xs ys (pt i, pt (i + 1))))
    (hok : ∀ i ≤ k, (pt i).ok xs ys) (hadj : ∀ i < k, (pt i).adj (pt (i + 1)))
    (hstop : ∀ i < k, stop (toNode xs ys (pt i)) = false) (hend : stop (toNode xs ys (pt k)) = true)
    (f : Nat) (hf : k ≤ f) (pre : List Int) :
    ∃ ids, walk (generate xs ys) nb stop f (pre, toNode xs ys (pt 0)) = some (pre ++ ids, toNode xs ys (pt k)) ∧
      ids.length = k ∧ IsRoute (generate xs ys) ids (enc xs ys (pt 0)) (enc xs ys (pt k)) := by
  induction k generalizing pt f pre with
  | zero =>
    refine ⟨[], ?_, rfl, rfl⟩
    cases f <;> simp [walk, hend]
  | succ k ih =>
    obtain ⟨f, rfl⟩ : ∃ g, f = g + 1 := ⟨f - 1, by omega⟩
    have h0 := hstop 0 (by omega)
    have hn := hnb 0 (by omega)
    obtain ⟨ids, h1, h2, h3⟩ := ih (fun i => pt (i + 1)) (fun i hi => hnb (i + 1) (by omega))
      (fun i hi => hok (i + 1) (by omega)) (fun i hi => hadj (i + 1) (by omega)) (fun i hi => hstop (i + 1) (by omega)) hend f
      (by omega) (pre ++ [(toLink xs ys (pt 0, pt 1)).id])
    refine ⟨(toLink xs ys (pt 0, pt 1)).id :: ids, ?_, by simp [h2], ?_⟩
    · have e1 : (toNode xs ys (pt 0)).id = enc xs ys (pt 0) := rfl
      have e2 : getNode (generate xs ys) (toLink xs ys (pt 0, pt 1)).dst = some (toNode xs ys (pt 1)) :=
        getNode_enc (hok 1 (by omega))
      simp only [walk, h0, Bool.false_eq_true, if_false, e1, hn, Option.bind_eq_bind, Option.bind_some, e2]
      simpa using h1
    · exact route_append (route_link (hok 0 (by omega)) (hok 1 (by omega)) (hadj 0 (by omega))) h3

theorem NoC.walk_x {xs ys X X2 Y : Nat} (hX : X < xs) (hX2 : X2 < xs) (hY : Y < ys) (f : Nat) (hf : xs ≤ f) (pre : List Int)
    (d : ℚ) (hd : d = X2 + 1/2) :
    ∃ ids, walk (generate xs ys) (if (toNode xs ys ⟨false, X, Y⟩).x < d then right (generate xs ys) else left (generate xs ys))
        (fun v => v.x = d) f (pre, toNode xs ys ⟨false, X, Y⟩) = some (pre ++ ids, toNode xs ys ⟨false, X2, Y⟩) ∧
      ids.length = ((X : Int) - X2).natAbs ∧
      IsRoute (generate xs ys) ids (enc xs ys ⟨false, X, Y⟩) (enc xs ys ⟨false, X2, Y⟩) := by
  subst hd
  have hx : ∀ a b : Nat, (toNode xs ys ⟨false, a, b⟩).x = a + 1/2 := fun a b => by simp [toNode]
  rcases Nat.lt_or_ge X X2 with h | h
  · rw [if_pos (by rw [hx]; have : (X : ℚ) < X2 := by exact_mod_cast h
                   linarith)]
    have := walk_line (xs := xs) (ys := ys) (nb := right (generate xs ys)) (stop := fun v => v.x = (X2 : ℚ) + 1/2) (X2 - X)
      (fun i => ⟨false, X + i, Y⟩) (fun i hi => right_mesh (X := X + i) (by omega) hY)
      (fun i hi => ⟨by simp only; omega, hY⟩) (fun i hi => by simp [P.adj]; omega)
      (fun i hi => by
        simp only [hx, decide_eq_false_iff_not]
        intro h2
        have h3 : ((X + i : Nat) : ℚ) = X2 := by linarith
        have : X + i = X2 := by exact_mod_cast h3
        omega)
      (by simp only [hx, decide_eq_true_eq]; rw [show X + (X2 - X) = X2 by omega]) f (by omega) pre
    simp only [Nat.add_zero, show X + (X2 - X) = X2 by omega] at this
    obtain ⟨ids, h1, h2, h3⟩ := this
    exact ⟨ids, h1, by omega, h3⟩
  · rw [if_neg (by rw [hx]; have : (X2 : ℚ) ≤ X := by exact_mod_cast h
                   linarith)]
    have := walk_line (xs := xs) (ys := ys) (nb := left (generate xs ys)) (stop := fun v => v.x = (X2 : ℚ) + 1/2) (X - X2)
      (fun i => ⟨false, X - i, Y⟩)
      (fun i hi => by
        have := left_mesh (xs := xs) (ys := ys) (X := X - (i + 1)) (Y := Y) (by omega) hY
        rw [show X - (i + 1) + 1 = X - i by omega] at this
        exact this)
      (fun i hi => ⟨by simp only; omega, hY⟩) (fun i hi => by simp only [P.adj]; right; simp; omega)
      (fun i hi => by
        simp only [hx, decide_eq_false_iff_not]
        intro h2
        have h3 : ((X - i : Nat) : ℚ) = X2 := by linarith
        have : X - i = X2 := by exact_mod_cast h3
        omega)
      (by simp only [hx, decide_eq_true_eq]; rw [show X - (X - X2) = X2 by omega]) f (by omega) pre
    simp only [Nat.sub_zero, show X - (X - X2) = X2 by omega] at this
    obtain ⟨ids, h1, h2, h3⟩ := this
    exact ⟨ids, h1, by omega, h3⟩

theorem NoC.walk_y {xs ys X Y Y2 : Nat} (hX : X < xs) (hY : Y < ys) (hY2 : Y2 < ys) (f : Nat) (hf : ys ≤ f) (pre : List Int)
    (d : ℚ) (hd : d = Y2 + 1/2) :
    ∃ ids, walk (generate xs ys) (if (toNode xs ys ⟨false, X, Y⟩).y < d then top (generate xs ys) else bottom (generate xs ys))
        (fun v => v.y = d) f (pre, toNode xs ys ⟨false, X, Y⟩) = some (pre ++ ids, toNode xs ys ⟨false, X, Y2⟩) ∧
      ids.length = ((Y : Int) - Y2).natAbs ∧
      IsRoute (generate xs ys) ids (enc xs ys ⟨false, X, Y⟩) (enc xs ys ⟨false, X, Y2⟩) := by
  subst hd
  have hx : ∀ a b : Nat, (toNode xs ys ⟨false, a, b⟩).y = b + 1/2 := fun a b => by simp [toNode]
  rcases Nat.lt_or_ge Y Y2 with h | h
  · rw [if_pos (by rw [hx]; have : (Y : ℚ) < Y2 := by exact_mod_cast h
                   linarith)]
    have := walk_line (xs := xs) (ys := ys) (nb := top (generate xs ys)) (stop := fun v => v.y = (Y2 : ℚ) + 1/2) (Y2 - Y)
      (fun i => ⟨false, X, Y + i⟩) (fun i hi => top_mesh (Y := Y + i) hX (by omega))
      (fun i hi => ⟨hX, by simp only; omega⟩) (fun i hi => by simp [P.adj]; omega)
      (fun i hi => by
        simp only [hx, decide_eq_false_iff_not]
        intro h2
        have h3 : ((Y + i : Nat) : ℚ) = Y2 := by linarith
        have : Y + i = Y2 := by exact_mod_cast h3
        omega)
      (by simp only [hx, decide_eq_true_eq]; rw [show Y + (Y2 - Y) = Y2 by omega]) f (by omega) pre
    simp only [Nat.add_zero, show Y + (Y2 - Y) = Y2 by omega] at this
    obtain ⟨ids, h1, h2, h3⟩ := this
    exact ⟨ids, h1, by omega, h3⟩
  · rw [if_neg (by rw [hx]; have : (Y2 : ℚ) ≤ Y := by exact_mod_cast h
                   linarith)]
    have := walk_line (xs := xs) (ys := ys) (nb := bottom (generate xs ys)) (stop := fun v => v.y = (Y2 : ℚ) + 1/2) (Y - Y2)
      (fun i => ⟨false, X, Y - i⟩)
      (fun i hi => by
        have := bottom_mesh (xs := xs) (ys := ys) (X := X) (Y := Y - (i + 1)) hX (by omega)
        rw [show Y - (i + 1) + 1 = Y - i by omega] at this
        exact this)
      (fun i hi => ⟨hX, by simp only; omega⟩) (fun i hi => by simp only [P.adj]; right; simp; omega)
      (fun i hi => by
        simp only [hx, decide_eq_false_iff_not]
        intro h2
        have h3 : ((Y - i : Nat) : ℚ) = Y2 := by linarith
        have : Y - i = Y2 := by exact_mod_cast h3
        omega)
      (by simp only [hx, decide_eq_true_eq]; rw [show Y - (Y - Y2) = Y2 by omega]) f (by omega) pre
    simp only [Nat.sub_zero, show Y - (Y - Y2) = Y2 by omega] at this
    obtain ⟨ids, h1, h2, h3⟩ := this
    exact ⟨ids, h1, by omega, h3⟩

/-- C39: between any two cores of any mesh the routing loops end, and the route goes from the source core to its router,
along the row to the column of the destination, along that column to the row of the destination, and to the destination
core, with exactly the Manhattan distance plus two links. -/
theorem C39_route {xs ys X1 Y1 X2 Y2 : Nat} (h1 : X1 < xs) (h2 : Y1 < ys) (h3 : X2 < xs) (h4 : Y2 < ys) (f : Nat)
    (hf : max xs ys ≤ f) :
    ∃ up hs vs down path, xyRoute (generate xs ys) f (coreId xs ys X1 Y1) (coreId xs ys X2 Y2) = some path ∧
      path = [up] ++ hs ++ vs ++ [down] ∧
      IsRoute (generate xs ys) path (coreId xs ys X1 Y1) (coreId xs ys X2 Y2) ∧
      IsRoute (generate xs ys) hs (routerId xs X1 Y1) (routerId xs X2 Y1) ∧ hs.length = ((X1 : Int) - X2).natAbs ∧
      IsRoute (generate xs ys) vs (routerId xs X2 Y1) (routerId xs X2 Y2) ∧ vs.length = ((Y1 : Int) - Y2).natAbs ∧
      path.length = ((X1 : Int) - X2).natAbs + ((Y1 : Int) - Y2).natAbs + 2 := by
  obtain ⟨hs, a1, a2, a3⟩ := walk_x (xs := xs) (ys := ys) (X := X1) (X2 := X2) (Y := Y1) h1 h3 h2 f (by omega)
    [(toLink xs ys (⟨true, X1, Y1⟩, ⟨false, X1, Y1⟩)).id] _ rfl
  obtain ⟨vs, b1, b2, b3⟩ := walk_y (xs := xs) (ys := ys) (X := X2) (Y := Y1) (Y2 := Y2) h3 h2 h4 f (by omega)
    ([(toLink xs ys (⟨true, X1, Y1⟩, ⟨false, X1, Y1⟩)).id] ++ hs) _ rfl
  refine ⟨(toLink xs ys (⟨true, X1, Y1⟩, ⟨false, X1, Y1⟩)).id, hs, vs,
    (toLink xs ys (⟨false, X2, Y2⟩, ⟨true, X2, Y2⟩)).id, _, ?_, rfl, ?_, ?_, a2, ?_, b2, ?_⟩
  · unfold xyRoute
    rw [← enc_core, ← enc_core, srcLink_core h1 h2, dstLink_core h3 h4]
    have e1 : getNode (generate xs ys) (toLink xs ys (⟨true, X1, Y1⟩, ⟨false, X1, Y1⟩)).dst = some (toNode xs ys ⟨false, X1, Y1⟩) :=
      getNode_enc ⟨h1, h2⟩
    have e2 : getNode (generate xs ys) (toLink xs ys (⟨false, X2, Y2⟩, ⟨true, X2, Y2⟩)).src = some (toNode xs ys ⟨false, X2, Y2⟩) :=
      getNode_enc ⟨h3, h4⟩
    have e3 : (toNode xs ys ⟨false, X2, Y2⟩).x = X2 + 1/2 := by simp [toNode]
    have e4 : (toNode xs ys ⟨false, X2, Y2⟩).y = Y2 + 1/2 := by simp [toNode]
    simp only [Option.bind_eq_bind, Option.bind_some, e1, e2, e3, e4, a1, b1]
  · rw [← enc_core, ← enc_core]
    refine route_append (route_append (route_append (route_link ⟨h1, h2⟩ ⟨h1, h2⟩ (by simp [P.adj])) a3) b3)
      (route_link ⟨h3, h4⟩ ⟨h3, h4⟩ (by simp [P.adj]))
  · rw [← enc_router xs ys, ← enc_router xs ys]; exact a3
  · rw [← enc_router xs ys, ← enc_router xs ys]; exact b3
  · simp [a2, b2]; omega

/-- Steps still needed to the core at (X2, Y2). -/
def NoC.pot (X2 Y2 : Nat) (p : P) : Nat :=
  if p = ⟨true, X2, Y2⟩ then 0
  else ((p.X : Int) - X2).natAbs + ((p.Y : Int) - Y2).natAbs + 1 + if p.core then 1 else 0

/-- C39, optimality: no route between two different cores is shorter. -/
theorem C39_shortest {xs ys X1 Y1 X2 Y2 : Nat} (h1 : X1 < xs) (h2 : Y1 < ys) (h3 : X2 < xs) (h4 : Y2 < ys)
    (hne : (X1, Y1) ≠ (X2, Y2)) {path : List Int}
    (hr : IsRoute (generate xs ys) path (coreId xs ys X1 Y1) (coreId xs ys X2 Y2)) :
    ((X1 : Int) - X2).natAbs + ((Y1 : Int) - Y2).natAbs + 2 ≤ path.length := by
  have key : ∀ (path : List Int) (p : P), p.ok xs ys → IsRoute (generate xs ys) path (enc xs ys p) (coreId xs ys X2 Y2) →
      pot X2 Y2 p ≤ path.length := by
    intro path
    induction path with
    | nil =>
      intro p hp hr
      rw [IsRoute, ← enc_core] at hr
      obtain rfl := enc_inj hp (show P.ok xs ys ⟨true, X2, Y2⟩ from ⟨h3, h4⟩) hr
      simp [pot]
    | cons i path ih =>
      intro p hp hr
      obtain ⟨l, hl, -, hs, hr⟩ := hr
      obtain ⟨a, b, g1, g2, g3, rfl⟩ := mem_links.mp hl
      obtain rfl := enc_inj g1 hp hs
      have := ih b g2 hr
      have step : pot X2 Y2 a ≤ pot X2 Y2 b + 1 := by
        obtain ⟨ac, aX, aY⟩ := a
        obtain ⟨bc, bX, bY⟩ := b
        simp only [P.adj] at g3
        unfold pot
        rcases g3 with ⟨hc, rfl, rfl⟩ | ⟨rfl, rfl, h⟩
        · cases ac <;> cases bc
          · simp at hc
          · by_cases he : aX = X2 ∧ aY = Y2
            · obtain ⟨rfl, rfl⟩ := he; simp
            · simp [he]
          · by_cases he : aX = X2 ∧ aY = Y2 <;> simp [he]
          · simp at hc
        · simp
          omega
      simp only [List.length_cons]; omega
  have := key path ⟨true, X1, Y1⟩ ⟨h1, h2⟩ (by rw [enc_core]; exact hr)
  unfold pot at this
  rw [if_neg (by simp only [P.mk.injEq, true_and]; rintro ⟨rfl, rfl⟩; exact hne rfl)] at this
  simpa [Nat.add_assoc] using this

/-- The routing passes expect tasks on cores; `moduloMapping` puts every task on a router: on the 2 by 2 mesh, tasks 1 and 2
land on routers 0 and 1, and the route between them is undefined. -/
theorem C39_modulo_counterexample : moduloMap 2 2 1 = some (routerId 2 0 0) ∧ moduloMap 2 2 2 = some (routerId 2 1 0) ∧
    ∀ f, xyRoute (generate 2 2) f 0 1 = none := by
  refine ⟨by decide, by decide, fun f => ?_⟩
  have h : ∀ (f : Nat) (pre : List Int),
      walk (generate 2 2) (right (generate 2 2)) (fun v => v.x = 1/2) f (pre, ⟨4, false, 0, 0⟩) = none := by
    intro f pre
    cases f with
    | zero => simp [walk]
    | succ f =>
      have : right (generate 2 2) 4 = none := by decide +kernel
      simp [walk, this]
  unfold xyRoute
  have e1 : srcLink (generate 2 2) 0 = some ⟨12, 0, 4⟩ := by decide +kernel
  have e2 : getNode (generate 2 2) 4 = some ⟨4, false, 0, 0⟩ := by decide +kernel
  have e3 : dstLink (generate 2 2) 1 = some ⟨9, 0, 1⟩ := by decide +kernel
  have e4 : getNode (generate 2 2) 0 = some ⟨0, true, 1/2, 1/2⟩ := by decide +kernel
  simp only [e1, e2, e3, e4, Option.bind_eq_bind, Option.bind_some]
  rw [if_pos (by norm_num), h]
  rfl

/-- `randomMapping` puts every task on a core, whatever the draw. -/
theorem C39_random_mapping {xs ys : Nat} (h : 0 < xs * ys) (r : Nat) :
    ∃ X Y, X < xs ∧ Y < ys ∧ randomMap xs ys r = some (coreId xs ys X Y) := by
  have hx : 0 < xs := Nat.pos_of_ne_zero fun h2 => by simp [h2] at h
  have hm : r % (xs * ys) < xs * ys := Nat.mod_lt _ h
  refine ⟨r % (xs * ys) % xs, r % (xs * ys) / xs, Nat.mod_lt _ hx, Nat.div_lt_of_lt_mul hm, ?_⟩
  unfold randomMap coreId
  rw [if_neg (by omega)]
  have e := Nat.mod_add_div (r % (xs * ys)) xs
  congr 1
  generalize r % (xs * ys) = m at *
  have e' : ((m % xs : Nat) : Int) + xs * ((m / xs : Nat) : Int) = (m : Int) := by exact_mod_cast e
  push_cast at e' ⊢
  linarith

/-! ### C57 -/

theorem NoC.step_mesh {xs ys : Nat} {nb : Int → Option Link} {p q : P} (hq : q.ok xs ys)
    (h : nb (enc xs ys p) = some (toLink xs ys (p, q))) (pre : List Int) :
    step (generate xs ys) nb (pre, toNode xs ys p) = some (pre ++ [(toLink xs ys (p, q)).id], toNode xs ys q) := by
  have e1 : (toNode xs ys p).id = enc xs ys p := rfl
  have e2 : getNode (generate xs ys) (toLink xs ys (p, q)).dst = some (toNode xs ys q) := getNode_enc hq
  simp only [step, e1, h, Option.bind_eq_bind, Option.bind_some, e2]

/-- One draw on the x axis moves one step towards the destination column, if not there yet. -/
theorem NoC.draw_x {xs ys X Y X2 Y2 : Nat} (hX : X < xs) (hY : Y < ys) (hX2 : X2 < xs) (pre : List Int) :
    ∃ X' ids, (drawX (generate xs ys) (toNode xs ys ⟨false, X2, Y2⟩) (pre, toNode xs ys ⟨false, X, Y⟩) =
        some (pre ++ ids, toNode xs ys ⟨false, X', Y⟩)) ∧ X' < xs ∧
      IsRoute (generate xs ys) ids (enc xs ys ⟨false, X, Y⟩) (enc xs ys ⟨false, X', Y⟩) ∧
      ((X' : Int) - X2).natAbs + ids.length = ((X : Int) - X2).natAbs ∧ ((X' : Int) - X2).natAbs = ((X : Int) - X2).natAbs - 1 := by
  have hx : ∀ a b : Nat, (toNode xs ys ⟨false, a, b⟩).x = a + 1/2 := fun a b => by simp [toNode]
  rcases lt_trichotomy X X2 with h | h | h
  · have c1 : (X : ℚ) + 1/2 < X2 + 1/2 := by have : (X : ℚ) < X2 := by exact_mod_cast h
                                             linarith
    have c2 : ¬ ((X + 1 : Nat) : ℚ) + 1/2 > X2 + 1/2 := by
      have : ((X + 1 : Nat) : ℚ) ≤ X2 := by exact_mod_cast h
      linarith
    refine ⟨X + 1, [(toLink xs ys (⟨false, X, Y⟩, ⟨false, X + 1, Y⟩)).id], ?_, by omega,
      route_link ⟨hX, hY⟩ ⟨by simp only; omega, hY⟩ (by simp [P.adj]), by simp; omega, by omega⟩
    simp only [drawX, hx]
    rw [if_pos c1, step_mesh ⟨by simp only; omega, hY⟩ (right_mesh (by omega) hY)]
    simp only [Option.bind_some, hx]
    rw [if_neg c2]
  · subst h
    refine ⟨X, [], ?_, hX, rfl, by simp, by simp⟩
    simp only [drawX, hx, lt_irrefl, if_false, Option.bind_some, gt_iff_lt, List.append_nil]
  · have c1 : ¬ (X : ℚ) + 1/2 < X2 + 1/2 := by have : (X2 : ℚ) < X := by exact_mod_cast h
                                               linarith
    have c2 : (X : ℚ) + 1/2 > X2 + 1/2 := by
      have : (X2 : ℚ) < X := by exact_mod_cast h
      linarith
    obtain ⟨X, rfl⟩ : ∃ Z, X = Z + 1 := ⟨X - 1, by omega⟩
    refine ⟨X, [(toLink xs ys (⟨false, X + 1, Y⟩, ⟨false, X, Y⟩)).id], ?_, by omega,
      route_link ⟨hX, hY⟩ ⟨by simp only; omega, hY⟩ (by simp [P.adj]), by simp; omega, by omega⟩
    simp only [drawX, hx]
    rw [if_neg c1]
    simp only [Option.bind_some, hx]
    rw [if_pos c2, step_mesh ⟨by simp only; omega, hY⟩ (left_mesh (by omega) hY)]

theorem NoC.draw_y {xs ys X Y X2 Y2 : Nat} (hX : X < xs) (hY : Y < ys) (hY2 : Y2 < ys) (pre : List Int) :
    ∃ Y' ids, (drawY (generate xs ys) (toNode xs ys ⟨false, X2, Y2⟩) (pre, toNode xs ys ⟨false, X, Y⟩) =
        some (pre ++ ids, toNode xs ys ⟨false, X, Y'⟩)) ∧ Y' < ys ∧
      IsRoute (generate xs ys) ids (enc xs ys ⟨false, X, Y⟩) (enc xs ys ⟨false, X, Y'⟩) ∧
      ((Y' : Int) - Y2).natAbs + ids.length = ((Y : Int) - Y2).natAbs ∧ ((Y' : Int) - Y2).natAbs = ((Y : Int) - Y2).natAbs - 1 := by
  have hx : ∀ a b : Nat, (toNode xs ys ⟨false, a, b⟩).y = b + 1/2 := fun a b => by simp [toNode]
  rcases lt_trichotomy Y Y2 with h | h | h
  · have c1 : (Y : ℚ) + 1/2 < Y2 + 1/2 := by have : (Y : ℚ) < Y2 := by exact_mod_cast h
                                             linarith
    have c2 : ¬ ((Y + 1 : Nat) : ℚ) + 1/2 > Y2 + 1/2 := by
      have : ((Y + 1 : Nat) : ℚ) ≤ Y2 := by exact_mod_cast h
      linarith
    refine ⟨Y + 1, [(toLink xs ys (⟨false, X, Y⟩, ⟨false, X, Y + 1⟩)).id], ?_, by omega,
      route_link ⟨hX, hY⟩ ⟨hX, by simp only; omega⟩ (by simp [P.adj]), by simp; omega, by omega⟩
    simp only [drawY, hx]
    rw [if_pos c1, step_mesh ⟨hX, by simp only; omega⟩ (top_mesh hX (by omega))]
    simp only [Option.bind_some, hx]
    rw [if_neg c2]
  · subst h
    refine ⟨Y, [], ?_, hY, rfl, by simp, by simp⟩
    simp only [drawY, hx, lt_irrefl, if_false, Option.bind_some, gt_iff_lt, List.append_nil]
  · have c1 : ¬ (Y : ℚ) + 1/2 < Y2 + 1/2 := by have : (Y2 : ℚ) < Y := by exact_mod_cast h
                                               linarith
    have c2 : (Y : ℚ) + 1/2 > Y2 + 1/2 := by
      have : (Y2 : ℚ) < Y := by exact_mod_cast h
      linarith
    obtain ⟨Y, rfl⟩ : ∃ Z, Y = Z + 1 := ⟨Y - 1, by omega⟩
    refine ⟨Y, [(toLink xs ys (⟨false, X, Y + 1⟩, ⟨false, X, Y⟩)).id], ?_, by omega,
      route_link ⟨hX, hY⟩ ⟨hX, by simp only; omega⟩ (by simp [P.adj]), by simp; omega, by omega⟩
    simp only [drawY, hx]
    rw [if_neg c1]
    simp only [Option.bind_some, hx]
    rw [if_pos c2, step_mesh ⟨hX, by simp only; omega⟩ (bottom_mesh hX (by omega))]

theorem NoC.random_walk {xs ys X2 Y2 : Nat} (h3 : X2 < xs) (h4 : Y2 < ys) (ds : List Bool) :
    ∀ (X Y : Nat), X < xs → Y < ys → ∀ pre : List Int,
      (∀ s, randomWalk (generate xs ys) (toNode xs ys ⟨false, X2, Y2⟩) ds (pre, toNode xs ys ⟨false, X, Y⟩) = some s →
        ∃ ids, s.1 = pre ++ ids ∧ IsRoute (generate xs ys) ids (enc xs ys ⟨false, X, Y⟩) (enc xs ys ⟨false, X2, Y2⟩) ∧
          ids.length = ((X : Int) - X2).natAbs + ((Y : Int) - Y2).natAbs) ∧
      (((X : Int) - X2).natAbs ≤ ds.count true → ((Y : Int) - Y2).natAbs ≤ ds.count false →
        (randomWalk (generate xs ys) (toNode xs ys ⟨false, X2, Y2⟩) ds (pre, toNode xs ys ⟨false, X, Y⟩)).isSome) := by
  have hx : ∀ a b : Nat, (toNode xs ys ⟨false, a, b⟩).x = a + 1/2 := fun a b => by simp [toNode]
  have hy : ∀ a b : Nat, (toNode xs ys ⟨false, a, b⟩).y = b + 1/2 := fun a b => by simp [toNode]
  have stop : ∀ X Y : Nat, ((toNode xs ys ⟨false, X, Y⟩).x ≠ (toNode xs ys ⟨false, X2, Y2⟩).x ∨
      (toNode xs ys ⟨false, X, Y⟩).y ≠ (toNode xs ys ⟨false, X2, Y2⟩).y) ↔ ¬ (X = X2 ∧ Y = Y2) := by
    intro X Y
    rw [hx, hx, hy, hy]
    have a1 : ((X : ℚ) + 1/2 = X2 + 1/2) ↔ X = X2 := by rw [add_left_inj]; exact Nat.cast_inj
    have a2 : ((Y : ℚ) + 1/2 = Y2 + 1/2) ↔ Y = Y2 := by rw [add_left_inj]; exact Nat.cast_inj
    rw [ne_eq, ne_eq, a1, a2]; tauto
  induction ds with
  | nil =>
    intro X Y hX hY pre
    unfold randomWalk
    simp only [stop]
    by_cases he : X = X2 ∧ Y = Y2
    · obtain ⟨rfl, rfl⟩ := he
      simp [IsRoute]
    · refine ⟨by simp [he], ?_⟩
      intro a b; simp at a b; omega
  | cons d ds ih =>
    intro X Y hX hY pre
    by_cases he : X = X2 ∧ Y = Y2
    · obtain ⟨rfl, rfl⟩ := he
      have e : ∀ s, s = (pre, toNode xs ys ⟨false, X, Y⟩) →
          randomWalk (generate xs ys) (toNode xs ys ⟨false, X, Y⟩) (d :: ds) s = some s := by
        rintro s rfl; simp [randomWalk]
      rw [e _ rfl]
      simp [IsRoute]
    · cases d with
      | true =>
        obtain ⟨X', ids, g1, g2, g3, g4, g5⟩ := draw_x (X := X) (Y := Y) (X2 := X2) (Y2 := Y2) hX hY h3 pre
        have e : randomWalk (generate xs ys) (toNode xs ys ⟨false, X2, Y2⟩) (true :: ds) (pre, toNode xs ys ⟨false, X, Y⟩) =
            randomWalk (generate xs ys) (toNode xs ys ⟨false, X2, Y2⟩) ds (pre ++ ids, toNode xs ys ⟨false, X', Y⟩) := by
          rw [randomWalk, if_pos ((stop X Y).mpr he), if_pos rfl, g1]
          rfl
        rw [e]
        obtain ⟨i1, i2⟩ := ih X' Y g2 hY (pre ++ ids)
        refine ⟨?_, ?_⟩
        · intro s hs
          obtain ⟨ids2, j1, j2, j3⟩ := i1 s hs
          exact ⟨ids ++ ids2, by rw [j1, List.append_assoc], route_append g3 j2, by rw [List.length_append, j3]; omega⟩
        · intro a b
          simp at a b
          exact i2 (by omega) b
      | false =>
        obtain ⟨Y', ids, g1, g2, g3, g4, g5⟩ := draw_y (X := X) (Y := Y) (X2 := X2) (Y2 := Y2) hX hY h4 pre
        have e : randomWalk (generate xs ys) (toNode xs ys ⟨false, X2, Y2⟩) (false :: ds) (pre, toNode xs ys ⟨false, X, Y⟩) =
            randomWalk (generate xs ys) (toNode xs ys ⟨false, X2, Y2⟩) ds (pre ++ ids, toNode xs ys ⟨false, X, Y'⟩) := by
          rw [randomWalk, if_pos ((stop X Y).mpr he), if_neg (by simp), g1]
          rfl
        rw [e]
        obtain ⟨i1, i2⟩ := ih X Y' hX g2 (pre ++ ids)
        refine ⟨?_, ?_⟩
        · intro s hs
          obtain ⟨ids2, j1, j2, j3⟩ := i1 s hs
          exact ⟨ids ++ ids2, by rw [j1, List.append_assoc], route_append g3 j2, by rw [List.length_append, j3]; omega⟩
        · intro a b
          simp at a b
          exact i2 a (by omega)

/-- C57: whatever the draws, a route returned by the random routing leads from the source core to the destination core with
Manhattan distance plus two links; and it is returned as soon as the draws contain enough steps on each axis. -/
theorem C57_random_route {xs ys X1 Y1 X2 Y2 : Nat} (h1 : X1 < xs) (h2 : Y1 < ys) (h3 : X2 < xs) (h4 : Y2 < ys) (ds : List Bool) :
    (∀ path, randomRoute (generate xs ys) ds (coreId xs ys X1 Y1) (coreId xs ys X2 Y2) = some path →
      IsRoute (generate xs ys) path (coreId xs ys X1 Y1) (coreId xs ys X2 Y2) ∧
        path.length = ((X1 : Int) - X2).natAbs + ((Y1 : Int) - Y2).natAbs + 2) ∧
    (((X1 : Int) - X2).natAbs ≤ ds.count true → ((Y1 : Int) - Y2).natAbs ≤ ds.count false →
      (randomRoute (generate xs ys) ds (coreId xs ys X1 Y1) (coreId xs ys X2 Y2)).isSome) := by
  obtain ⟨g1, g2⟩ := random_walk h3 h4 ds X1 Y1 h1 h2 [(toLink xs ys (⟨true, X1, Y1⟩, ⟨false, X1, Y1⟩)).id]
  have e1 : getNode (generate xs ys) (toLink xs ys (⟨true, X1, Y1⟩, ⟨false, X1, Y1⟩)).dst = some (toNode xs ys ⟨false, X1, Y1⟩) :=
    getNode_enc ⟨h1, h2⟩
  have e2 : getNode (generate xs ys) (toLink xs ys (⟨false, X2, Y2⟩, ⟨true, X2, Y2⟩)).src = some (toNode xs ys ⟨false, X2, Y2⟩) :=
    getNode_enc ⟨h3, h4⟩
  unfold randomRoute
  rw [← enc_core, ← enc_core, srcLink_core h1 h2, dstLink_core h3 h4]
  simp only [Option.bind_eq_bind, Option.bind_some, e1, e2]
  constructor
  · intro path hp
    obtain ⟨s, hs, hp⟩ := Option.bind_eq_some_iff.mp hp
    obtain ⟨ids, j1, j2, j3⟩ := g1 s hs
    obtain rfl := Option.some.inj hp
    refine ⟨?_, by rw [j1]; simp [j3]⟩
    rw [j1]
    exact route_append (route_append (route_link ⟨h1, h2⟩ ⟨h1, h2⟩ (by simp [P.adj])) j2)
      (route_link ⟨h3, h4⟩ ⟨h3, h4⟩ (by simp [P.adj]))
  · intro a b
    obtain ⟨s, hs⟩ := Option.isSome_iff_exists.mp (g2 a b)
    rw [hs]; rfl

/-! ### Concrete cases -/

example : xyRoute (generate 3 2) 3 (coreId 3 2 2 0) (coreId 3 2 0 1) = some [110, 37, 24, 15, 57] := by decide +kernel
example : randomRoute (generate 3 2) [false, true, false, true] (coreId 3 2 2 0) (coreId 3 2 0 1) =
    some [110, 41, 76, 63, 57] := by decide +kernel
example : Joined 3 2 (routerId 3 1 0) (routerId 3 1 1) := .mesh 1 0 1 1 (by decide) (by decide) (by decide) (by decide) (by decide)
example : checkIds (generate 3 2) = some true := by decide +kernel
example : mapIndexPair 18 (mapIndex 18 4 7) = some (4, 7) := by decide +kernel

end Kiter
