/-
Lemmas on the model of the placement of the tasks (Verif/Model/Placement.lean).
-/
import Verif.Model.Placement
import Verif.Spec.Placement
import Verif.Props.NoCGraph

set_option autoImplicit false

namespace Kiter.BMap

open NoC

/-! ### the map of the routes -/

/-- The keys are in increasing order. -/
def Sorted (l : Routes) : Prop := l.Pairwise fun x y => x.1 < y.1

theorem mem_store_imp {k : ℕ} {r : List Int} : ∀ {l : Routes} {x}, x ∈ store k r l → x = (k, r) ∨ x ∈ l
  | [], x, h => by simpa [store] using h
  | y :: l, x, h => by
    unfold store at h
    split at h
    · simpa using h
    split at h
    · rcases List.mem_cons.mp h with h | h
      · exact Or.inl h
      · exact Or.inr (List.mem_cons_of_mem _ h)
    · rcases List.mem_cons.mp h with h | h
      · exact Or.inr (h ▸ List.mem_cons_self ..)
      · exact (mem_store_imp h).imp id (List.mem_cons_of_mem _)

theorem store_sorted {k : ℕ} {r : List Int} : ∀ {l : Routes}, Sorted l → Sorted (store k r l)
  | [], _ => by simp [store, Sorted]
  | y :: l, h => by
    obtain ⟨h1, h2⟩ := List.pairwise_cons.mp h
    unfold store
    split
    · next hk =>
      refine List.pairwise_cons.mpr ⟨fun z hz => ?_, h⟩
      rcases List.mem_cons.mp hz with rfl | hz
      · exact hk
      · exact hk.trans (h1 z hz)
    split
    · next hk => exact List.pairwise_cons.mpr ⟨fun z hz => by have := h1 z hz; simp only; omega, h2⟩
    · next hk hk' =>
      refine List.pairwise_cons.mpr ⟨fun z hz => ?_, store_sorted h2⟩
      rcases mem_store_imp hz with rfl | hz
      · simp only; omega
      · exact h1 z hz

theorem mem_store {k : ℕ} {r : List Int} : ∀ {l : Routes}, Sorted l → ∀ {x},
    x ∈ store k r l ↔ x = (k, r) ∨ (x ∈ l ∧ x.1 ≠ k)
  | [], _, x => by simp [store]
  | y :: l, h, x => by
    obtain ⟨h1, h2⟩ := List.pairwise_cons.mp h
    unfold store
    split
    · next hk =>
      simp only [List.mem_cons]
      constructor
      · rintro (h | rfl | h)
        · exact Or.inl h
        · exact Or.inr ⟨Or.inl rfl, by omega⟩
        · exact Or.inr ⟨Or.inr h, by have := h1 x h; omega⟩
      · rintro (h | ⟨h | h, -⟩)
        · exact Or.inl h
        · exact Or.inr (Or.inl h)
        · exact Or.inr (Or.inr h)
    split
    · next hk =>
      simp only [List.mem_cons]
      constructor
      · rintro (h | h)
        · exact Or.inl h
        · exact Or.inr ⟨Or.inr h, by have := h1 x h; omega⟩
      · rintro (h | ⟨rfl | h, hx⟩)
        · exact Or.inl h
        · exact absurd hk.symm hx
        · exact Or.inr h
    · next hk hk' =>
      rw [List.mem_cons, mem_store h2, List.mem_cons]
      constructor
      · rintro (rfl | h | h)
        · exact Or.inr ⟨Or.inl rfl, fun e => hk' e.symm⟩
        · exact Or.inl h
        · exact Or.inr ⟨Or.inr h.1, h.2⟩
      · rintro (h | ⟨h | h, hx⟩)
        · exact Or.inr (Or.inl h)
        · exact Or.inl h
        · exact Or.inr (Or.inr ⟨h, hx⟩)

theorem merge_sorted {l : Routes} : ∀ {base : Routes}, Sorted base → Sorted (l.foldl (fun r x => store x.1 x.2 r) base) := by
  induction l with
  | nil => exact fun h => h
  | cons y l ih => exact fun h => ih (store_sorted h)

theorem mem_merge {l : Routes} : ∀ {base : Routes}, Sorted base → l.Pairwise (fun x y => x.1 ≠ y.1) → ∀ {x},
    x ∈ l.foldl (fun r x => store x.1 x.2 r) base ↔ x ∈ l ∨ (x ∈ base ∧ ∀ y ∈ l, x.1 ≠ y.1) := by
  induction l with
  | nil => intro base _ _ x; simp
  | cons y l ih =>
    intro base hb hl x
    obtain ⟨h1, h2⟩ := List.pairwise_cons.mp hl
    rw [List.foldl_cons, ih (store_sorted hb) h2, mem_store hb]
    constructor
    · rintro (h | ⟨rfl | ⟨h, h'⟩, h''⟩)
      · exact Or.inl (List.mem_cons_of_mem _ h)
      · exact Or.inl (List.mem_cons_self ..)
      · exact Or.inr ⟨h, fun z hz => by rcases List.mem_cons.mp hz with rfl | hz; exacts [h', h'' z hz]⟩
    · rintro (h | ⟨h, h'⟩)
      · rcases List.mem_cons.mp h with rfl | h
        · exact Or.inr ⟨Or.inl rfl, h1⟩
        · exact Or.inl h
      · exact Or.inr ⟨Or.inr ⟨h, h' y (List.mem_cons_self ..)⟩, fun z hz => h' z (List.mem_cons_of_mem _ hz)⟩

/-! ### one route -/

section
variable {r : ℕ}

/-- Whether the table of utilisations has the size of the code, or is large enough for all the links. -/
def Table (V : ℕ) (u : List Int) : Prop := u.length = V * V ∨ V * V + V ≤ u.length

/-- The route between two cores, by their numbers. -/
def Good (r : ℕ) (a b : ℕ) (p : List Int) : Prop :=
  ShortestRoute (generate r r) p ((a + r * r : ℕ) : Int) ((b + r * r : ℕ) : Int)

theorem half (r : ℕ) : r * r * 2 / 2 = r * r := by omega

theorem readable_big {u : ℕ} {table : List Int} (ht : r * r * 2 * (r * r * 2) + r * r * 2 ≤ table.length) :
    Readable table (adjacency (generate r r)) (r * r * 2) u := by
  intro a b ha hb
  have hb' := (adj_lt a b hb).2
  unfold meshNodes at hb'
  left
  unfold readUtil
  have : r * r * 2 + (a * (r * r * 2) + b) < r * r * 2 * (r * r * 2) + r * r * 2 := by nlinarith
  exact ⟨_, List.getElem?_eq_getElem (by omega)⟩

theorem dijkstra_readable {table : List Int} (ht : Table (r * r * 2) table) {a b : ℕ} {p : List ℕ} (hab : a ≠ b)
    (hr : 0 < r) (h : findPathDijkstra table (adjacency (generate r r)) (r * r * 2) (r * r * 2) a b = some p) :
    Readable table (adjacency (generate r r)) (r * r * 2) a := by
  rcases ht with ht | ht
  · by_cases hu : a = coreNode r r (r - 1) (r - 1)
    · exfalso
      subst hu
      rw [show r * r * 2 = meshNodes r r from rfl,
        C99_last_core (Nat.mul_pos hr hr) hab (by rw [ht]; rfl)] at h
      cases h
    · exact mesh_readable hr hr ht.ge hu
  · exact readable_big ht

theorem dijkstra_good {table : List Int} (ht : Table (r * r * 2) table) {a b : ℕ} {p : List ℕ} (ha : a < r * r)
    (hp : p ≠ [])
    (h : findPathDijkstra table (adjacency (generate r r)) (r * r * 2) (r * r * 2) (a + r * r) (b + r * r) = some p) :
    Good r a b (routeOf (r * r * 2) p) ∧ IsPath (fun a b => b ∈ adjacency (generate r r) a) p (a + r * r) (b + r * r) := by
  have hr : 0 < r := Nat.pos_of_ne_zero (by rintro rfl; simp at ha)
  have hab : a + r * r ≠ b + r * r := by
    intro e
    unfold findPathDijkstra at h
    rw [if_pos e] at h
    cases h
    exact hp rfl
  have hread := dijkstra_readable ht hab hr h
  have hV : ∀ a b, a < r * r * 2 → b ∈ adjacency (generate r r) a → b < r * r * 2 := fun a b _ hb => (adj_lt a b hb).2
  by_cases hq : ∃ q, IsPath (fun a b => b ∈ adjacency (generate r r) a) q (a + r * r) (b + r * r)
  · obtain ⟨p', e, ⟨hp', hmin⟩, -⟩ := C99_dijkstra hV hread (by omega) hab hq (le_refl _)
    rw [h] at e
    cases e
    obtain ⟨g1, g2⟩ := route_of_path hp'
    refine ⟨⟨g1, fun q hq => ?_⟩, hp'⟩
    obtain ⟨q', h1, h2⟩ := path_of_route hq
    have := hmin q' h1
    unfold meshNodes at g2
    omega
  · rw [C99_no_path hV hread (by omega) hab hq] at h
    cases h

theorem bump_length {u u' : List Int} {i : ℕ} (h : bump u i = some u') : u'.length = u.length := by
  unfold bump at h
  cases hu : u[i]? with
  | none => rw [hu] at h; cases h
  | some x => rw [hu] at h; cases h; simp

theorem setmap_length {V : ℕ} {p : List ℕ} {u u' : List Int} (h : setmap V p u = some u') : u'.length = u.length := by
  unfold setmap at h
  generalize (p.tail.zip p.tail.tail).dropLast = l at h
  induction l generalizing u with
  | nil => cases h; rfl
  | cons x l ih =>
    rw [List.foldlM_cons] at h
    cases hb : bump u (key V x.1 x.2) with
    | none => rw [hb] at h; cases h
    | some u1 =>
      rw [hb] at h
      rw [ih h, bump_length hb]

/-- What the loops over the channels of a task keep. -/
structure TrialOK (r : ℕ) (ws : List Want) (util : List Int) (t : Trial) : Prop where
  length : t.util.length = util.length
  sorted : Sorted t.routes
  sound : ∀ x ∈ t.routes, ∃ w ∈ ws, x.1 = w.key ∧ Good r w.src w.dst x.2
  complete : ∀ w ∈ ws, ∃ p, (w.key, p) ∈ t.routes

theorem findPaths_ok {util : List Int} (ht : Table (r * r * 2) util) {ws : List Want} {w : Want} (hw : w.src < r * r)
    {t t' : Trial} (h : TrialOK r ws util t)
    (e : findPaths (r * r * 2) (adjacency (generate r r)) util t w = some t') : TrialOK r (ws ++ [w]) util t' := by
  unfold findPaths at e
  rw [half] at e
  cases hd : findPathDijkstra util (adjacency (generate r r)) (r * r * 2) (r * r * 2) (w.src + r * r) (w.dst + r * r) with
  | none => rw [hd] at e; cases e
  | some p =>
    rw [hd, Option.bind_some] at e
    split at e
    · cases e
    next hp =>
    obtain ⟨hg, -⟩ := dijkstra_good ht hw hp hd
    cases hc : pathCost util (r * r * 2) p with
    | none => rw [hc] at e; cases e
    | some c =>
      rw [hc, Option.bind_some] at e
      cases hs : setmap (r * r * 2) p t.util with
      | none => rw [hs] at e; cases e
      | some u =>
        rw [hs] at e
        cases e
        refine ⟨(setmap_length hs).trans h.length, store_sorted h.sorted, fun x hx => ?_, fun w' hw' => ?_⟩
        · rcases mem_store_imp hx with rfl | hx
          · exact ⟨w, by simp, rfl, hg⟩
          · obtain ⟨w', h1, h2⟩ := h.sound x hx
            exact ⟨w', by simp [h1], h2⟩
        · by_cases hk : w'.key = w.key
          · exact ⟨routeOf (r * r * 2) p, (mem_store h.sorted).mpr (Or.inl (by rw [hk]))⟩
          · rcases List.mem_append.mp hw' with hw' | hw'
            · obtain ⟨q, hq⟩ := h.complete w' hw'
              exact ⟨q, (mem_store h.sorted).mpr (Or.inr ⟨hq, hk⟩)⟩
            · obtain rfl : w' = w := by simpa using hw'
              exact absurd rfl hk

theorem findPaths_fold {util : List Int} (ht : Table (r * r * 2) util) : ∀ {ws ws0 : List Want}
    (_ : ∀ w ∈ ws, w.src < r * r) {t t' : Trial} (_ : TrialOK r ws0 util t)
    (_ : ws.foldlM (findPaths (r * r * 2) (adjacency (generate r r)) util) t = some t'), TrialOK r (ws0 ++ ws) util t'
  | [], ws0, _, t, t', h, e => by cases e; simpa using h
  | w :: ws, ws0, hw, t, t', h, e => by
    rw [List.foldlM_cons] at e
    cases h1 : findPaths (r * r * 2) (adjacency (generate r r)) util t w with
    | none => rw [h1] at e; cases e
    | some t1 =>
      rw [h1] at e
      have := findPaths_fold ht (fun w' hw' => hw w' (by simp [hw'])) (findPaths_ok ht (hw w (by simp)) h h1) e
      simpa using this

theorem evaluate_ok {cs : List Chan} {s : Placed} {v c : ℕ} {x : ℚ × Trial} (ht : Table (r * r * 2) s.util)
    (hw : ∀ w ∈ wanted (r * r * 2) cs s.cores v c, w.src < r * r)
    (h : evaluate (r * r * 2) (adjacency (generate r r)) cs s v c = some x) :
    TrialOK r (wanted (r * r * 2) cs s.cores v c) s.util x.2 := by
  unfold evaluate at h
  simp only at h
  cases hl : lengths (r * r * 2) (wanted (r * r * 2) cs s.cores v c) with
  | none => rw [hl] at h; cases h
  | some len =>
    rw [hl, Option.bind_some] at h
    cases hf : (wanted (r * r * 2) cs s.cores v c).foldlM (findPaths (r * r * 2) (adjacency (generate r r)) s.util)
        ⟨-1, s.util, []⟩ with
    | none => rw [hf] at h; cases h
    | some t =>
      rw [hf] at h
      cases h
      have := findPaths_fold ht hw (ws0 := []) (t := ⟨-1, s.util, []⟩)
        ⟨rfl, List.Pairwise.nil, fun _ hx => absurd hx List.not_mem_nil, fun _ hx => absurd hx List.not_mem_nil⟩ hf
      simpa using this

end

/-! ### one task -/

theorem search_fold {V : ℕ} {adj : ℕ → List ℕ} {cs : List Chan} {s : Placed} {v : ℕ} : ∀ {l : List ℕ}
    {b b' : ℚ × Option (ℕ × Trial)}
    (_ : l.foldlM (fun (best : ℚ × Option (ℕ × Trial)) c => (evaluate V adj cs s v c).map fun r =>
      if best.1 = -1 ∨ r.1 < best.1 then (r.1, some (c, r.2)) else best) b = some b') {c : ℕ} {t : Trial}
    (_ : b'.2 = some (c, t)), b.2 = some (c, t) ∨ (c ∈ l ∧ ∃ cost, evaluate V adj cs s v c = some (cost, t))
  | [], b, b', h, c, t, hb => by cases h; exact Or.inl hb
  | c0 :: l, b, b', h, c, t, hb => by
    rw [List.foldlM_cons] at h
    cases he : evaluate V adj cs s v c0 with
    | none => rw [he] at h; cases h
    | some x =>
      rw [he] at h
      rcases search_fold h hb with h1 | ⟨h1, h2⟩
      · simp only at h1
        split at h1
        · simp only [Option.some.injEq, Prod.mk.injEq] at h1
          obtain ⟨rfl, rfl⟩ := h1
          exact Or.inr ⟨by simp, x.1, he⟩
        · exact Or.inl h1
      · exact Or.inr ⟨by simp [h1], h2⟩

theorem search_ok {V : ℕ} {adj : ℕ → List ℕ} {cs : List Chan} {s : Placed} {v : ℕ} {b : ℚ × Option (ℕ × Trial)}
    (h : search V adj cs s v = some b) {c : ℕ} {t : Trial} (hb : b.2 = some (c, t)) :
    c ∈ s.avail ∧ ∃ cost, evaluate V adj cs s v c = some (cost, t) := by
  rcases search_fold h hb with h | h
  · cases h
  · exact h

theorem key_inj {V a b a' b' : ℕ} (hb : b < V) (hb' : b' < V) (h : key V a b = key V a' b') : a = a' ∧ b = b' := by
  unfold key at h
  have h1 : a * V + b = a' * V + b' := by omega
  have h2 : (a * V + b) / V = a := by
    rw [Nat.mul_comm, Nat.mul_add_div (by omega), Nat.div_eq_of_lt hb, Nat.add_zero]
  have h3 : (a' * V + b') / V = a' := by
    rw [Nat.mul_comm, Nat.mul_add_div (by omega), Nat.div_eq_of_lt hb', Nat.add_zero]
  have : a = a' := by rw [← h2, ← h3, h1]
  subst this
  omega

/-- What the placement keeps. -/
structure Inv (r L : ℕ) (cs : List Chan) (s : Placed) : Prop where
  nodup : s.avail.Nodup
  range : ∀ c ∈ s.avail, c < r * r
  taken : ∀ v c, s.cores v = some c → c < r * r ∧ c ∉ s.avail
  inj : ∀ v w c, s.cores v = some c → s.cores w = some c → v = w
  length : s.util.length = L
  sorted : Sorted s.routes
  routed : ∀ e ∈ cs, e.src ≠ e.dst → ∀ a b, s.cores e.src = some a → s.cores e.dst = some b →
    ∃ p, (key (r * r * 2) e.src e.dst, p) ∈ s.routes
  sound : ∀ x ∈ s.routes, ∃ e ∈ cs, x.1 = key (r * r * 2) e.src e.dst ∧ (e.src ≠ e.dst → ∃ a b, s.cores e.src = some a ∧
    s.cores e.dst = some b ∧ Good r a b x.2)

theorem full_empty {r L : ℕ} {cs : List Chan} {s : Placed} (h : Inv r L cs s) (hf : s.avail.length = r * r) (v : ℕ) :
    s.cores v = none := by
  cases hv : s.cores v with
  | none => rfl
  | some c =>
    exfalso
    obtain ⟨h1, h2⟩ := h.taken v c hv
    have hn : (c :: s.avail).Nodup := List.nodup_cons.mpr ⟨h2, h.nodup⟩
    have := (hn.subperm (l₂ := List.range (r * r)) fun x hx => by
      rcases List.mem_cons.mp hx with rfl | hx
      · exact List.mem_range.mpr h1
      · exact List.mem_range.mpr (h.range x hx)).length_le
    simp only [List.length_cons, List.length_range] at this
    omega

theorem mem_wanted {V : ℕ} {cs : List Chan} {cores : ℕ → Option ℕ} {v c : ℕ} {w : Want} :
    w ∈ wanted V cs cores v c ↔
      (∃ e ∈ cs, e.dst = v ∧ ∃ s, cores e.src = some s ∧ w = ⟨s, c, key V e.src v⟩) ∨
      (∃ e ∈ cs, e.src = v ∧ ∃ t, cores e.dst = some t ∧ w = ⟨c, t, key V v e.dst⟩) := by
  unfold wanted ins outs
  simp only [List.mem_append, List.mem_filterMap, List.mem_filter, decide_eq_true_eq, Option.map_eq_some_iff]
  constructor
  · rintro (⟨e, ⟨h1, h2⟩, s, h3, rfl⟩ | ⟨e, ⟨h1, h2⟩, s, h3, rfl⟩)
    · exact Or.inl ⟨e, h1, h2, s, h3, rfl⟩
    · exact Or.inr ⟨e, h1, h2, s, h3, rfl⟩
  · rintro (⟨e, h1, h2, s, h3, rfl⟩ | ⟨e, h1, h2, s, h3, rfl⟩)
    · exact Or.inl ⟨e, ⟨h1, h2⟩, s, h3, rfl⟩
    · exact Or.inr ⟨e, ⟨h1, h2⟩, s, h3, rfl⟩

theorem mapTask_ok {r L : ℕ} {cs : List Chan} (hL : L = r * r * 2 * (r * r * 2) ∨ r * r * 2 * (r * r * 2) + r * r * 2 ≤ L)
    {s s' : Placed} {v : ℕ} (h : Inv r L cs s)
    (e : mapTask (r * r * 2) (adjacency (generate r r)) cs s v = some s') :
    Inv r L cs s' ∧ (∃ c ∈ s.avail, s'.cores = Function.update s.cores v (some c) ∧ s'.avail = s.avail.erase c) := by
  unfold mapTask at e
  cases ha : s.avail with
  | nil => rw [ha] at e; cases e
  | cons first rest =>
    rw [ha] at e
    simp only at e
    rw [half] at e
    split at e
    · next hfull =>
      cases e
      have hnone := full_empty h (by rw [ha]; exact hfull)
      have hnd := h.nodup
      rw [ha] at hnd
      obtain ⟨hf, hrest⟩ := List.nodup_cons.mp hnd
      have one : ∀ {w c}, Function.update s.cores v (some first) w = some c → w = v ∧ c = first := by
        intro w c hw
        by_cases hwv : w = v
        · subst hwv; rw [Function.update_self] at hw; cases hw; exact ⟨rfl, rfl⟩
        · rw [Function.update_of_ne hwv, hnone w] at hw; cases hw
      refine ⟨⟨hrest, fun c hc => h.range c (by rw [ha]; simp [hc]), fun w c hw => ?_, fun w w' c h1 h2 => ?_, h.length,
        h.sorted, fun e he hne a b h1 h2 => ?_, fun x hx => ?_⟩, first, by simp, rfl, by simp⟩
      · obtain ⟨rfl, rfl⟩ := one hw
        exact ⟨h.range c (by rw [ha]; simp), hf⟩
      · exact (one h1).1.trans (one h2).1.symm
      · exact absurd ((one h1).1.trans (one h2).1.symm) hne
      · obtain ⟨e, h1, h2, h3⟩ := h.sound x hx
        refine ⟨e, h1, h2, fun hne => ?_⟩
        obtain ⟨a, b, h4, -⟩ := h3 hne
        rw [hnone] at h4
        cases h4
    · cases hs : search (r * r * 2) (adjacency (generate r r)) cs s v with
      | none => rw [hs] at e; cases e
      | some best =>
        rw [hs, Option.bind_some] at e
        cases hb : best.2 with
        | none => rw [hb] at e; cases e
        | some b =>
          obtain ⟨c, t⟩ := b
          rw [hb] at e
          simp only [Option.map_some, Option.some.injEq] at e
          subst e
          obtain ⟨hc, cost, hev⟩ := search_ok hs hb
          rw [← ha]
          have hsrc : ∀ w ∈ wanted (r * r * 2) cs s.cores v c, w.src < r * r := by
            intro w hw
            rcases mem_wanted.mp hw with ⟨e, -, -, a, h1, rfl⟩ | ⟨e, -, -, a, -, rfl⟩
            · exact (h.taken _ _ h1).1
            · exact h.range c hc
          have hT := evaluate_ok (by unfold Table; rw [h.length]; exact hL) hsrc hev
          have hdist : t.routes.Pairwise fun x y => x.1 ≠ y.1 := hT.sorted.imp fun h => Nat.ne_of_lt h
          simp only at hT
          have hcores : ∀ {w d}, Function.update s.cores v (some c) w = some d → (w = v ∧ d = c) ∨ (w ≠ v ∧ s.cores w = some d) := by
            intro w d hw
            by_cases hwv : w = v
            · subst hwv; rw [Function.update_self] at hw; cases hw; exact Or.inl ⟨rfl, rfl⟩
            · rw [Function.update_of_ne hwv] at hw; exact Or.inr ⟨hwv, hw⟩
          refine ⟨⟨h.nodup.erase c, fun d hd => h.range d (List.mem_of_mem_erase hd), fun w d hw => ?_,
            fun w w' d h1 h2 => ?_, hT.length.trans h.length, merge_sorted h.sorted, fun e he hne a b h1 h2 => ?_,
            fun x hx => ?_⟩, c, hc, rfl, rfl⟩
          · rcases hcores hw with ⟨rfl, rfl⟩ | ⟨-, h1⟩
            · exact ⟨h.range _ hc, fun hm => ((h.nodup.mem_erase_iff).mp hm).1 rfl⟩
            · exact ⟨(h.taken _ _ h1).1, fun hm => (h.taken _ _ h1).2 (List.mem_of_mem_erase hm)⟩
          · rcases hcores h1 with ⟨rfl, rfl⟩ | ⟨-, g1⟩ <;> rcases hcores h2 with ⟨rfl, h4⟩ | ⟨-, g2⟩
            · rfl
            · exact absurd hc (h.taken _ _ g2).2
            · subst h4; exact absurd hc (h.taken _ _ g1).2
            · exact h.inj _ _ _ g1 g2
          · -- a channel whose two ends have cores
            by_cases hw : ∃ w ∈ wanted (r * r * 2) cs s.cores v c, w.key = key (r * r * 2) e.src e.dst
            · obtain ⟨w, hw, hk⟩ := hw
              obtain ⟨p, hp⟩ := hT.complete w hw
              exact ⟨p, (mem_merge h.sorted hdist).mpr (Or.inl (hk ▸ hp))⟩
            · have old : e.src ≠ v ∧ e.dst ≠ v := by
                constructor
                · rintro rfl
                  rcases hcores h2 with ⟨h5, -⟩ | ⟨-, h5⟩
                  · exact hne h5.symm
                  · exact hw ⟨_, mem_wanted.mpr (Or.inr ⟨e, he, rfl, b, h5, rfl⟩), rfl⟩
                · rintro rfl
                  rcases hcores h1 with ⟨h5, -⟩ | ⟨-, h5⟩
                  · exact hne h5
                  · exact hw ⟨_, mem_wanted.mpr (Or.inl ⟨e, he, rfl, a, h5, rfl⟩), rfl⟩
              replace h1 : Function.update s.cores v (some c) e.src = some a := h1
              replace h2 : Function.update s.cores v (some c) e.dst = some b := h2
              rw [Function.update_of_ne old.1] at h1
              rw [Function.update_of_ne old.2] at h2
              obtain ⟨p, hp⟩ := h.routed e he hne a b h1 h2
              refine ⟨p, (mem_merge h.sorted hdist).mpr (Or.inr ⟨hp, fun y hy hk => ?_⟩)⟩
              obtain ⟨w, hw', hk', -⟩ := hT.sound y hy
              exact hw ⟨w, hw', hk'.symm.trans hk.symm⟩
          · rcases (mem_merge h.sorted hdist).mp hx with hx | ⟨hx, hk⟩
            · obtain ⟨w, hw, hk, hg⟩ := hT.sound x hx
              rcases mem_wanted.mp hw with ⟨e, he, rfl, a, h1, rfl⟩ | ⟨e, he, rfl, a, h1, rfl⟩
              · refine ⟨e, he, hk, fun hne => ⟨a, c, ?_, ?_, hg⟩⟩
                · exact (Function.update_of_ne hne _ _).trans h1
                · exact Function.update_self ..
              · refine ⟨e, he, hk, fun hne => ⟨c, a, ?_, ?_, hg⟩⟩
                · exact Function.update_self ..
                · exact (Function.update_of_ne (Ne.symm hne) _ _).trans h1
            · obtain ⟨e, he, hke, h3⟩ := h.sound x hx
              refine ⟨e, he, hke, fun hne => ?_⟩
              obtain ⟨a, b, h4, h5, hg⟩ := h3 hne
              have old : e.src ≠ v ∧ e.dst ≠ v := by
                constructor
                · rintro rfl
                  obtain ⟨p, hp⟩ := hT.complete _ (mem_wanted.mpr (Or.inr ⟨e, he, rfl, b, h5, rfl⟩))
                  exact hk _ hp hke
                · rintro rfl
                  obtain ⟨p, hp⟩ := hT.complete _ (mem_wanted.mpr (Or.inl ⟨e, he, rfl, a, h4, rfl⟩))
                  exact hk _ hp hke
              exact ⟨a, b, (Function.update_of_ne old.1 _ _).trans h4, (Function.update_of_ne old.2 _ _).trans h5, hg⟩

/-! ### the loop -/

theorem turn_ok {r L : ℕ} {cs dag : List Chan} {start : ℕ}
    (hL : L = r * r * 2 * (r * r * 2) ∨ r * r * 2 * (r * r * 2) + r * r * 2 ≤ L)
    {s s' : Loop} {v : ℕ} (h : Inv r L cs s.placed)
    (e : turn (r * r * 2) (adjacency (generate r r)) cs dag start s v = some s') : Inv r L cs s'.placed := by
  unfold turn at e
  split at e
  · cases e; exact h
  · cases hm : mapTask (r * r * 2) (adjacency (generate r r)) cs s.placed v with
    | none => rw [hm] at e; cases e
    | some p => rw [hm] at e; cases e; exact (mapTask_ok hL h hm).1

theorem loop_ok {r L : ℕ} {cs dag : List Chan} {start : ℕ} {pick : ℕ → List ℕ → ℕ}
    (hL : L = r * r * 2 * (r * r * 2) ∨ r * r * 2 * (r * r * 2) + r * r * 2 ≤ L) :
    ∀ {fuel i : ℕ} {s : Loop} {p : Placed}
    (_ : Inv r L cs s.placed) (_ : loop (r * r * 2) (adjacency (generate r r)) cs dag start pick fuel i s = some p),
    Inv r L cs p
  | 0, _, _, _, _, e => by cases e
  | fuel + 1, i, s, p, h, e => by
    unfold loop at e
    split at e
    · cases e; exact h
    · cases ht : turn (r * r * 2) (adjacency (generate r r)) cs dag start s (pick i s.queue) with
      | none => rw [ht] at e; cases e
      | some s' => rw [ht] at e; exact loop_ok hL (turn_ok hL h ht) e

theorem placement_ok {r : ℕ} {cs dag : List Chan} {start : ℕ} {pick : ℕ → List ℕ → ℕ} {table : List Int}
    (ht : Table (r * r * 2) table) {p : Placed}
    (e : placement (r * r * 2) (adjacency (generate r r)) table cs dag start pick = some p) :
    Inv r table.length cs p := by
  refine loop_ok ht ?_ e
  refine ⟨List.nodup_range, fun c hc => ?_, fun _ _ h => (by cases h), fun _ _ _ h => (by cases h), rfl, List.Pairwise.nil,
    fun _ _ _ _ _ h => (by cases h), fun x hx => (by cases hx)⟩
  have := List.mem_range.mp hc
  rw [half] at this
  exact this

/-! ### recording the result -/

theorem link_id {r : ℕ} {l : Link} (h : l ∈ (generate r r).links) :
    mapIndexPair (r * r * 2 : ℕ) l.id = some (l.src, l.dst) ∧ getLink (generate r r) l.src l.dst = some l := by
  obtain ⟨c1, -, c3⟩ := C38_links r r
  have hj := (c1 l.src l.dst).mp ⟨l, h, rfl, rfl⟩
  have hg := c3 _ _ hj
  obtain ⟨P, Q, k1, k2, k3, rfl⟩ := mem_links.mp h
  have e : (toLink r r (P, Q)).id = mapIndex (r * r * 2) (enc r r P) (enc r r Q) := by
    unfold mapIndex toLink
    simp only
    ring
  have b1 := enc_bounds k1
  have b2 := enc_bounds k2
  constructor
  · rw [e]
    have := (C40_index (r * r * 2) (enc r r P) (enc r r Q) b1.1 b2.1 b2.2.1).1
    push_cast
    exact this
  · rw [hg]
    congr 1
    show Link.mk _ _ _ = Link.mk (toLink r r (P, Q)).id _ _
    rw [e]
    rfl

theorem check_route {r : ℕ} : ∀ {p : List Int} {a b : Int}, IsRoute (generate r r) p a b →
    checkLinks (generate r r) (r * r * 2) p = true
  | [], _, _, _ => rfl
  | i :: p, a, b, h => by
    obtain ⟨l, hl, rfl, -, h⟩ := h
    obtain ⟨h1, h2⟩ := link_id hl
    have ih := check_route h
    unfold checkLinks at ih ⊢
    rw [List.all_cons, ih, h1]
    simp only
    rw [h2]
    simp

theorem route_ends {r : ℕ} : ∀ {p : List Int} {a b : Int}, IsRoute (generate r r) p a b → p ≠ [] →
    ∃ i j x y, p.head? = some i ∧ p.getLast? = some j ∧ mapIndexPair (r * r * 2 : ℕ) i = some (a, x) ∧
      mapIndexPair (r * r * 2 : ℕ) j = some (y, b)
  | [], _, _, _, h => absurd rfl h
  | [i], a, b, h, _ => by
    obtain ⟨l, hl, rfl, rfl, h⟩ := h
    have h' : l.dst = b := h
    subst h'
    exact ⟨_, _, _, _, rfl, rfl, (link_id hl).1, (link_id hl).1⟩
  | i :: i' :: p, a, b, h, _ => by
    obtain ⟨l, hl, rfl, rfl, h⟩ := h
    obtain ⟨_, j, _, y, -, h2, -, h4⟩ := route_ends h (by simp)
    exact ⟨_, j, _, y, rfl, by rw [List.getLast?_cons_cons]; exact h2, (link_id hl).1, h4⟩

/-- What is recorded agrees with the placement. -/
structure RecOK (r : ℕ) (cs : List Chan) (P : Placed) (m : Recorded) : Prop where
  node : ∀ v n, m.node v = some n → ∃ c, P.cores v = some c ∧ n = ((c + r * r : ℕ) : Int)
  route : ∀ i p, m.route i = some p → ∃ e ∈ cs, e.id = i ∧ (key (r * r * 2) e.src e.dst, p) ∈ P.routes

/-- What is recorded stays. -/
def Mono (m m' : Recorded) : Prop :=
  (∀ v, (m.node v).isSome → (m'.node v).isSome) ∧ ∀ i, (m.route i).isSome → (m'.route i).isSome

theorem Mono.trans {a b c : Recorded} (h1 : Mono a b) (h2 : Mono b c) : Mono a c :=
  ⟨fun v h => h2.1 v (h1.1 v h), fun v h => h2.2 v (h1.2 v h)⟩

theorem setNode_ok {r : ℕ} {cs : List Chan} {P : Placed} {m : Recorded} (h : RecOK r cs P m) {v c : ℕ}
    (hc : P.cores v = some c) :
    ∃ m', setNode m v ((c + r * r : ℕ) : Int) = some m' ∧ RecOK r cs P m' ∧ Mono m m' ∧ (m'.node v).isSome := by
  unfold setNode
  cases hm : m.node v with
  | some n =>
    obtain ⟨c', h1, h2⟩ := h.node v n hm
    rw [hc] at h1
    cases h1
    simp only
    rw [if_pos h2]
    exact ⟨m, rfl, h, ⟨fun _ h => h, fun _ h => h⟩, by rw [hm]; rfl⟩
  | none =>
    refine ⟨_, rfl, ⟨fun w n hw => ?_, h.route⟩, ⟨fun w hw => ?_, fun _ h => h⟩, ?_⟩
    · replace hw : Function.update m.node v (some ((c + r * r : ℕ) : Int)) w = some n := hw
      by_cases hwv : w = v
      · subst hwv
        rw [Function.update_self] at hw
        cases hw
        exact ⟨c, hc, rfl⟩
      · rw [Function.update_of_ne hwv] at hw
        exact h.node w n hw
    · show (Function.update m.node v _ w).isSome
      by_cases hwv : w = v
      · subst hwv; rw [Function.update_self]; rfl
      · rw [Function.update_of_ne hwv]; exact hw
    · show (Function.update m.node v _ v).isSome
      rw [Function.update_self]; rfl

/-- The channel has its route and its two ends their nodes. -/
def Done (e : Chan) (m : Recorded) : Prop := (m.route e.id).isSome ∧ (m.node e.src).isSome ∧ (m.node e.dst).isSome

theorem Done.mono {e : Chan} {m m' : Recorded} (h : Mono m m') (hd : Done e m) : Done e m' :=
  ⟨h.2 _ hd.1, h.1 _ hd.2.1, h.1 _ hd.2.2⟩

section
variable {r L : ℕ} {cs : List Chan} {P : Placed}

theorem good_of_mem (hP : Inv r L cs P) (hid : ∀ e ∈ cs, e.src < r * r * 2 ∧ e.dst < r * r * 2)
    (hself : ∀ e ∈ cs, e.src ≠ e.dst) {e : Chan} (he : e ∈ cs) {p : List Int}
    (hp : (key (r * r * 2) e.src e.dst, p) ∈ P.routes) :
    ∃ a b, P.cores e.src = some a ∧ P.cores e.dst = some b ∧ Good r a b p := by
  obtain ⟨e', he', hk, h⟩ := hP.sound _ hp
  obtain ⟨h1, h2⟩ := key_inj (hid e he).2 (hid e' he').2 hk
  rw [h1, h2]
  exact h (hself e' he')

theorem record_ok (hP : Inv r L cs P) (hid : ∀ e ∈ cs, e.src < r * r * 2 ∧ e.dst < r * r * 2)
    (hself : ∀ e ∈ cs, e.src ≠ e.dst) {m : Recorded} (hm : RecOK r cs P m) {e : Chan} (he : e ∈ cs) {p : List Int}
    (hp : (key (r * r * 2) e.src e.dst, p) ∈ P.routes) :
    ∃ m', record (generate r r) (r * r * 2) m e p = some m' ∧ RecOK r cs P m' ∧ Mono m m' ∧ Done e m' := by
  obtain ⟨a, b, ha, hb, hg, -⟩ := good_of_mem hP hid hself he hp
  have hne : p ≠ [] := by
    rintro rfl
    have h' : ((a + r * r : ℕ) : Int) = ((b + r * r : ℕ) : Int) := hg
    have : a = b := by omega
    subst this
    exact hself e he (hP.inj _ _ _ ha hb)
  obtain ⟨i, j, x, y, h1, h2, h3, h4⟩ := route_ends hg hne
  obtain ⟨m1, g1, g2, g3, g4⟩ := setNode_ok hm ha
  obtain ⟨m2, k1, k2, k3, k4⟩ := setNode_ok g2 hb
  unfold record
  rw [if_pos (check_route hg), h1, Option.bind_some, h2, Option.bind_some, h3, Option.bind_some, h4, Option.bind_some]
  simp only
  rw [g1, Option.bind_some, k1]
  refine ⟨_, rfl, ⟨k2.node, fun i q hq => ?_⟩, g3.trans (k3.trans ⟨fun _ h => h, fun i hi => ?_⟩), ?_, k3.1 _ g4, k4⟩
  · replace hq : Function.update m2.route e.id (some p) i = some q := hq
    by_cases hi : i = e.id
    · subst hi
      rw [Function.update_self] at hq
      cases hq
      exact ⟨e, he, rfl, hp⟩
    · rw [Function.update_of_ne hi] at hq
      exact k2.route i q hq
  · show (Function.update m2.route e.id (some p) i).isSome
    by_cases hi' : i = e.id
    · subst hi'; rw [Function.update_self]; rfl
    · rw [Function.update_of_ne hi']; exact hi
  · show (Function.update m2.route e.id (some p) e.id).isSome
    rw [Function.update_self]; rfl

theorem fold_record {α : Type} {step : Recorded → α → Option Recorded} {Q : α → Recorded → Prop}
    (hmono : ∀ x m m', Mono m m' → Q x m → Q x m') : ∀ {l : List α}
    (_ : ∀ m, ∀ x ∈ l, RecOK r cs P m → ∃ m', step m x = some m' ∧ RecOK r cs P m' ∧ Mono m m' ∧ Q x m') {m : Recorded}
    (_ : RecOK r cs P m), ∃ m', l.foldlM step m = some m' ∧ RecOK r cs P m' ∧ Mono m m' ∧ ∀ x ∈ l, Q x m'
  | [], _, m, hm => ⟨m, rfl, hm, ⟨fun _ h => h, fun _ h => h⟩, fun _ hx => absurd hx List.not_mem_nil⟩
  | y :: l, hstep, m, hm => by
    obtain ⟨m1, h1, h2, h3, h4⟩ := hstep m y (by simp) hm
    obtain ⟨m2, k1, k2, k3, k4⟩ := fold_record hmono (l := l) (fun m x hx => hstep m x (by simp [hx])) h2
    refine ⟨m2, ?_, k2, h3.trans k3, fun x hx => ?_⟩
    · rw [List.foldlM_cons, h1]
      exact k1
    · rcases List.mem_cons.mp hx with rfl | hx
      · exact hmono _ _ _ k3 h4
      · exact k4 x hx

theorem mem_withKey {V k : ℕ} {e : Chan} : e ∈ withKey V cs k ↔ e ∈ cs ∧ key V e.src e.dst = k := by
  unfold withKey; simp

theorem recordAll_ok (hP : Inv r L cs P) (hid : ∀ e ∈ cs, e.src < r * r * 2 ∧ e.dst < r * r * 2)
    (hself : ∀ e ∈ cs, e.src ≠ e.dst) :
    ∃ m, recordAll (generate r r) (r * r * 2) cs P.routes = some m ∧ RecOK r cs P m ∧
      ∀ x ∈ P.routes, ∀ e ∈ cs, key (r * r * 2) e.src e.dst = x.1 → Done e m := by
  unfold recordAll
  obtain ⟨m, h1, h2, -, h4⟩ := fold_record (r := r) (cs := cs) (P := P) (l := P.routes)
    (step := fun m x => (withKey (r * r * 2) cs x.1).foldlM (fun m e => record (generate r r) (r * r * 2) m e x.2) m)
    (Q := fun (x : ℕ × List Int) m => ∀ e ∈ withKey (r * r * 2) cs x.1, Done e m)
    (fun x m m' h hq e he => (hq e he).mono h)
    (fun m x hx hm => fold_record (step := fun m e => record (generate r r) (r * r * 2) m e x.2) (Q := Done)
      (fun e m m' h hq => Done.mono h hq)
      (fun m e he hm => by
        obtain ⟨he1, he2⟩ := mem_withKey.mp he
        exact record_ok hP hid hself hm he1 (by rw [he2]; exact hx)) hm)
    (m := ⟨fun _ => none, fun _ => none⟩) ⟨fun _ _ h => (by cases h), fun _ _ h => (by cases h)⟩
  exact ⟨m, h1, h2, fun x hx e he hk => h4 x hx e (mem_withKey.mpr ⟨he, hk⟩)⟩

end

/-! ### every task is placed -/

theorem mem_pushed {dag : List Chan} {vis : ℕ → Bool} {v w : ℕ} : w ∈ pushed dag vis v ↔
    ∃ e ∈ dag, e.src = v ∧ e.dst = w ∧ vis w = false ∧ ∀ e2 ∈ dag, e2.dst = w → vis e2.src = true := by
  unfold pushed outs ins
  simp only [List.mem_map, List.mem_filter, decide_eq_true_eq, Bool.and_eq_true, Bool.not_eq_true', List.all_eq_true]
  constructor
  · rintro ⟨e, ⟨⟨h1, h2⟩, h3, h4⟩, rfl⟩
    exact ⟨e, h1, h2, rfl, h3, fun e2 h5 h6 => h4 e2 ⟨h5, h6⟩⟩
  · rintro ⟨e, h1, h2, rfl, h3, h4⟩
    exact ⟨e, ⟨⟨h1, h2⟩, h3, fun e2 h5 => h4 e2 h5.1 h5.2⟩, rfl⟩

/-- What the loop keeps: a task that waits has a task before it that is not treated yet; those treated have a core. -/
structure Reach (dag : List Chan) (start : ℕ) (s : Loop) : Prop where
  begun : s.visited start = true
  wait : ∀ w, s.visited w = false → w ∉ s.queue → (∃ e ∈ dag, e.dst = w) →
    ∃ e ∈ dag, e.dst = w ∧ (s.visited e.src = false ∨ e.src ∈ s.queue)
  placed : ∀ v, s.visited v = true → v ≠ start → (s.placed.cores v).isSome

section
variable {r L : ℕ} {cs dag : List Chan} {start : ℕ}

theorem turn_reach (hL : L = r * r * 2 * (r * r * 2) ∨ r * r * 2 * (r * r * 2) + r * r * 2 ≤ L)
    {s s' : Loop} {v : ℕ} (h : Inv r L cs s.placed) (hR : Reach dag start s)
    (e : turn (r * r * 2) (adjacency (generate r r)) cs dag start s v = some s') : Reach dag start s' := by
  unfold turn at e
  have key : ∃ p, (if v = start then some s.placed else mapTask (r * r * 2) (adjacency (generate r r)) cs s.placed v) =
      some p ∧ (∀ w, (s.placed.cores w).isSome → (p.cores w).isSome) ∧ (v ≠ start → (p.cores v).isSome) := by
    by_cases hv : v = start
    · rw [if_pos hv]
      exact ⟨_, rfl, fun _ h => h, fun h => absurd hv h⟩
    · rw [if_neg hv] at e ⊢
      cases hm : mapTask (r * r * 2) (adjacency (generate r r)) cs s.placed v with
      | none => rw [hm] at e; cases e
      | some p =>
        obtain ⟨-, c, -, hc, -⟩ := mapTask_ok hL h hm
        refine ⟨p, rfl, fun w hw => ?_, fun _ => ?_⟩
        · rw [hc]
          by_cases hwv : w = v
          · subst hwv; rw [Function.update_self]; rfl
          · rw [Function.update_of_ne hwv]; exact hw
        · rw [hc, Function.update_self]; rfl
  obtain ⟨p, hp, hold, hnew⟩ := key
  rw [hp] at e
  simp only [Option.map_some, Option.some.injEq] at e
  subst e
  refine ⟨?_, fun w hw hq hin => ?_, fun w hw hs => ?_⟩
  · show Function.update s.visited v true start = true
    by_cases hv : start = v
    · subst hv; rw [Function.update_self]
    · rw [Function.update_of_ne hv]; exact hR.begun
  · simp only at hw hq ⊢
    have hwv : w ≠ v := by rintro rfl; rw [Function.update_self] at hw; cases hw
    have hw' := hw
    rw [Function.update_of_ne hwv] at hw'
    have hq1 : w ∉ s.queue := fun h => hq (List.mem_append_left _ ((List.mem_erase_of_ne hwv).mpr h))
    obtain ⟨e, he, hed, h1⟩ := hR.wait w hw' hq1 hin
    by_contra hno
    push Not at hno
    have hall : ∀ e ∈ dag, e.dst = w → Function.update s.visited v true e.src = true := fun e he hd => by
      have := (hno e he hd).1
      simpa using this
    have hev : e.src = v := by
      by_contra hne
      obtain ⟨n1, n2⟩ := hno e he hed
      rw [Function.update_of_ne hne] at n1
      rcases h1 with h1 | h1
      · exact n1 h1
      · exact n2 (List.mem_append_left _ ((List.mem_erase_of_ne hne).mpr h1))
    exact hq (List.mem_append_right _ (mem_pushed.mpr ⟨e, he, hev, hed, hw, hall⟩))
  · replace hw : Function.update s.visited v true w = true := hw
    show (p.cores w).isSome
    by_cases hwv : w = v
    · subst hwv; exact hnew hs
    · rw [Function.update_of_ne hwv] at hw
      exact hold w (hR.placed w hw hs)

theorem loop_reach (hL : L = r * r * 2 * (r * r * 2) ∨ r * r * 2 * (r * r * 2) + r * r * 2 ≤ L) {pick : ℕ → List ℕ → ℕ} :
    ∀ {fuel i : ℕ} {s : Loop} {p : Placed} (_ : Inv r L cs s.placed) (_ : Reach dag start s)
    (_ : loop (r * r * 2) (adjacency (generate r r)) cs dag start pick fuel i s = some p),
    ∃ s', Reach dag start s' ∧ s'.queue = [] ∧ s'.placed = p
  | 0, _, _, _, _, _, e => by cases e
  | fuel + 1, i, s, p, h, hR, e => by
    unfold loop at e
    split at e
    · next hq => cases e; exact ⟨s, hR, hq, rfl⟩
    · cases ht : turn (r * r * 2) (adjacency (generate r r)) cs dag start s (pick i s.queue) with
      | none => rw [ht] at e; cases e
      | some s' => rw [ht] at e; exact loop_reach hL (turn_ok hL h ht) (turn_reach hL h hR ht) e

theorem start_inv {table : List Int} : Inv r table.length cs ⟨fun _ => none, List.range (r * r * 2 / 2), table, []⟩ := by
  refine ⟨List.nodup_range, fun c hc => ?_, fun _ _ h => (by cases h), fun _ _ _ h => (by cases h), rfl, List.Pairwise.nil,
    fun _ _ _ _ _ h => (by cases h), fun x hx => (by cases hx)⟩
  have := List.mem_range.mp hc
  rw [half] at this
  exact this

theorem start_reach {table : List Int} : Reach dag start
    ⟨Function.update (fun _ => false) start true, [start], ⟨fun _ => none, List.range (r * r * 2 / 2), table, []⟩⟩ := by
  have hv : ∀ w, Function.update (fun _ => false) start true w = true → w = start := by
    intro w hw
    by_contra hne
    rw [Function.update_of_ne hne] at hw
    cases hw
  refine ⟨Function.update_self start true (fun _ : ℕ => false), fun w _ _ hin => ?_, fun v h1 h2 => absurd (hv v h1) h2⟩
  obtain ⟨e, he, hd⟩ := hin
  refine ⟨e, he, hd, ?_⟩
  by_cases hes : e.src = start
  · exact Or.inr (by rw [hes]; simp)
  · exact Or.inl (Function.update_of_ne hes true (fun _ : ℕ => false))

/-- The graph that decides the order has no circuit, and every task has a task before it, or `start`. -/
structure Ordered (tasks : List ℕ) (dag : List Chan) (start : ℕ) : Prop where
  rank : ∃ rank : ℕ → ℕ, ∀ e ∈ dag, rank e.src < rank e.dst
  source : ∀ e ∈ dag, e.src ∈ tasks ∨ e.src = start
  target : ∀ e ∈ dag, e.dst ∈ tasks
  entered : ∀ v ∈ tasks, ∃ e ∈ dag, e.dst = v
  new : start ∉ tasks

theorem placement_complete {tasks : List ℕ} {table : List Int} {pick : ℕ → List ℕ → ℕ} (ht : Table (r * r * 2) table)
    (hd : Ordered tasks dag start) {p : Placed}
    (e : placement (r * r * 2) (adjacency (generate r r)) table cs dag start pick = some p) :
    ∀ v ∈ tasks, (p.cores v).isSome := by
  obtain ⟨s, hR, hq, rfl⟩ := loop_reach ht start_inv start_reach e
  obtain ⟨rank, hrank⟩ := hd.rank
  have all : ∀ n, ∀ v ∈ tasks, rank v < n → s.visited v = true := by
    intro n
    induction n with
    | zero => intro v _ h; omega
    | succ n ih =>
      intro v hv hn
      by_contra hno
      obtain ⟨e, he, hed, h⟩ := hR.wait v (by simpa using hno) (by rw [hq]; simp) (hd.entered v hv)
      rcases h with h | h
      · have hlt := hrank e he
        rw [hed] at hlt
        rcases hd.source e he with h1 | h1
        · rw [ih e.src h1 (by omega)] at h; cases h
        · rw [h1, hR.begun] at h; cases h
      · rw [hq] at h; simp at h
  intro v hv
  exact hR.placed v (all _ v hv (Nat.lt_succ_self _)) fun h => hd.new (h ▸ hv)

end

/-! ### with a larger table nothing is read outside -/

section
variable {r : ℕ}

/-- Size of a table of utilisations with an entry for every link. -/
def big (r : ℕ) : ℕ := r * r * 2 * (r * r * 2) + r * r * 2

theorem key_lt {a b : ℕ} (ha : a < r * r * 2) (hb : b < r * r * 2) : key (r * r * 2) a b < big r := by
  unfold key big
  nlinarith

theorem pathCost_some {table : List Int} (ht : big r ≤ table.length) : ∀ {p : List ℕ} (_ : ∀ x ∈ p, x < r * r * 2),
    ∃ c, pathCost table (r * r * 2) p = some c
  | [], _ => ⟨0, rfl⟩
  | [_], _ => ⟨0, rfl⟩
  | a :: b :: p, h => by
    obtain ⟨c, hc⟩ := pathCost_some ht (p := b :: p) fun x hx => h x (List.mem_cons_of_mem _ hx)
    have hk := key_lt (h a (by simp)) (h b (by simp))
    have hr : readUtil table (r * r * 2) a b = some (table[key (r * r * 2) a b]'(by omega)) :=
      List.getElem?_eq_getElem (by unfold key at hk; omega)
    refine ⟨max (table[key (r * r * 2) a b]'(by omega)) c, ?_⟩
    unfold pathCost
    rw [hr, Option.bind_some, hc]
    rfl

theorem bumps_some : ∀ {l : List (ℕ × ℕ)} {u : List Int} (_ : big r ≤ u.length)
    (_ : ∀ x ∈ l, x.1 < r * r * 2 ∧ x.2 < r * r * 2),
    ∃ u', l.foldlM (fun u x => bump u (key (r * r * 2) x.1 x.2)) u = some u'
  | [], u, _, _ => ⟨u, rfl⟩
  | x :: l, u, hu, h => by
    obtain ⟨h1, h2⟩ := h x (by simp)
    have hk := key_lt h1 h2
    have hb : bump u (key (r * r * 2) x.1 x.2) =
        some (u.set (key (r * r * 2) x.1 x.2) ((u[key (r * r * 2) x.1 x.2]'(by omega)) + 1)) := by
      unfold bump
      rw [List.getElem?_eq_getElem (by omega)]
      rfl
    rw [List.foldlM_cons, hb]
    exact bumps_some (by rw [List.length_set]; exact hu) fun y hy => h y (by simp [hy])

theorem setmap_some {u : List Int} (hu : big r ≤ u.length) {p : List ℕ} (hp : ∀ x ∈ p, x < r * r * 2) :
    ∃ u', setmap (r * r * 2) p u = some u' := by
  unfold setmap
  refine bumps_some hu fun x hx => ?_
  have hz := List.dropLast_subset _ hx
  obtain ⟨x1, x2⟩ := x
  obtain ⟨h1, h2⟩ := List.of_mem_zip hz
  exact ⟨hp _ (List.mem_of_mem_tail h1), hp _ (List.mem_of_mem_tail (List.mem_of_mem_tail h2))⟩

theorem core_coords {a : ℕ} (ha : a < r * r) : ∃ X Y, X < r ∧ Y < r ∧ ((a + r * r : ℕ) : Int) = coreId r r X Y := by
  have hr : 0 < r := Nat.pos_of_ne_zero (by rintro rfl; simp at ha)
  refine ⟨a % r, a / r, Nat.mod_lt _ hr, Nat.div_lt_of_lt_mul ha, ?_⟩
  unfold coreId
  have : a % r + a / r * r = a := by rw [Nat.mul_comm]; exact Nat.mod_add_div a r
  rw [← Nat.cast_mul, ← Nat.cast_add, this]
  push_cast
  ring

theorem path_exists {a b : ℕ} (ha : a < r * r) (hb : b < r * r) :
    ∃ q, IsPath (fun a b => b ∈ adjacency (generate r r) a) q (a + r * r) (b + r * r) := by
  obtain ⟨X1, Y1, h1, h2, e1⟩ := core_coords ha
  obtain ⟨X2, Y2, h3, h4, e2⟩ := core_coords hb
  obtain ⟨_, _, _, _, p, -, -, hr, -⟩ := C39_route h1 h2 h3 h4 (max r r) (le_refl _)
  rw [← e1, ← e2] at hr
  obtain ⟨q, hq, -⟩ := path_of_route hr
  exact ⟨q, hq⟩

theorem path_nodes {p : List ℕ} : ∀ {a b : ℕ}, IsPath (fun a b => b ∈ adjacency (generate r r) a) p a b → a < r * r * 2 →
    ∀ x ∈ p, x < r * r * 2 := by
  induction p with
  | nil => intro _ _ _ _ x hx; cases hx
  | cons y p ih =>
    intro a b h ha x hx
    have hy : y = a := by simpa using h.first
    subst hy
    rcases List.mem_cons.mp hx with rfl | hx
    · exact ha
    · cases p with
      | nil => cases hx
      | cons z p =>
        obtain ⟨h1, h2⟩ := List.isChain_cons_cons.mp h.chain
        exact ih (a := z) (b := b) ⟨rfl, by have := h.last; rwa [List.getLast?_cons_cons] at this, h2⟩ (adj_lt _ _ h1).2 x hx

theorem findPaths_some {util : List Int} (ht : big r ≤ util.length) {t : Trial} (hu : big r ≤ t.util.length) {w : Want}
    (h1 : w.src < r * r) (h2 : w.dst < r * r) (h3 : w.src ≠ w.dst) :
    ∃ t', findPaths (r * r * 2) (adjacency (generate r r)) util t w = some t' ∧ big r ≤ t'.util.length := by
  unfold findPaths
  rw [half]
  have hV : ∀ a b, a < r * r * 2 → b ∈ adjacency (generate r r) a → b < r * r * 2 := fun a b _ hb => (adj_lt a b hb).2
  obtain ⟨p, e, ⟨hp, -⟩, -⟩ := C99_dijkstra (fuel := r * r * 2) hV (readable_big ht) (by omega)
    (show w.src + r * r ≠ w.dst + r * r by omega) (path_exists h1 h2) (le_refl _)
  rw [e, Option.bind_some]
  have hne : p ≠ [] := by rintro rfl; have := hp.first; simp at this
  rw [if_neg hne]
  have hn := path_nodes hp (by omega)
  obtain ⟨c, hc⟩ := pathCost_some ht hn
  obtain ⟨u, hu'⟩ := setmap_some hu hn
  rw [hc, Option.bind_some, hu']
  exact ⟨_, rfl, by show big r ≤ u.length; rw [setmap_length hu']; exact hu⟩

theorem findPathsAll_some {util : List Int} (ht : big r ≤ util.length) : ∀ {ws : List Want} {t : Trial}
    (_ : big r ≤ t.util.length) (_ : ∀ w ∈ ws, w.src < r * r ∧ w.dst < r * r ∧ w.src ≠ w.dst),
    ∃ t', ws.foldlM (findPaths (r * r * 2) (adjacency (generate r r)) util) t = some t'
  | [], t, _, _ => ⟨t, rfl⟩
  | w :: ws, t, hu, h => by
    obtain ⟨h1, h2, h3⟩ := h w (by simp)
    obtain ⟨t1, e, hu1⟩ := findPaths_some ht hu h1 h2 h3
    rw [List.foldlM_cons, e]
    exact findPathsAll_some ht hu1 fun w' hw' => h w' (by simp [hw'])

theorem lengths_some (hr : 0 < r) : ∀ {ws : List Want} {n : ℕ},
    ∃ k, ws.foldlM (fun n w => (pathLength (r * r * 2) w.src w.dst).map fun k => n + k) n = some k
  | [], n => ⟨n, rfl⟩
  | w :: ws, n => by
    have : ∃ k, pathLength (r * r * 2) w.src w.dst = some k := by
      unfold pathLength
      rw [half, Nat.sqrt_eq]
      split
      · exact ⟨_, rfl⟩
      · simp only
        rw [if_neg (by omega)]
        exact ⟨_, rfl⟩
    obtain ⟨k, hk⟩ := this
    rw [List.foldlM_cons, hk]
    exact lengths_some hr

theorem search_some {V : ℕ} {adj : ℕ → List ℕ} {cs : List Chan} {s : Placed} {v : ℕ} : ∀ {l : List ℕ}
    (_ : ∀ c ∈ l, ∃ x, evaluate V adj cs s v c = some x) {b : ℚ × Option (ℕ × Trial)}
    (_ : b.2.isSome ∨ (b.1 = -1 ∧ l ≠ [])),
    ∃ b', l.foldlM (fun (best : ℚ × Option (ℕ × Trial)) c => (evaluate V adj cs s v c).map fun r =>
      if best.1 = -1 ∨ r.1 < best.1 then (r.1, some (c, r.2)) else best) b = some b' ∧ b'.2.isSome
  | [], _, b, hb => by
    rcases hb with hb | ⟨-, hb⟩
    · exact ⟨b, rfl, hb⟩
    · exact absurd rfl hb
  | c :: l, h, b, hb => by
    obtain ⟨x, hx⟩ := h c (by simp)
    rw [List.foldlM_cons, hx]
    refine search_some (fun c' hc' => h c' (by simp [hc'])) (Or.inl ?_)
    simp only
    split
    · rfl
    · next hno =>
      rcases hb with hb | ⟨hb, -⟩
      · exact hb
      · exact absurd (Or.inl hb) hno

theorem mapTask_some {L : ℕ} {cs : List Chan} {s : Placed} {v : ℕ} (hL : big r ≤ L) (h : Inv r L cs s) (ha : s.avail ≠ []) :
    ∃ s', mapTask (r * r * 2) (adjacency (generate r r)) cs s v = some s' := by
  unfold mapTask
  cases hav : s.avail with
  | nil => exact absurd hav ha
  | cons first rest =>
    simp only
    split
    · exact ⟨_, rfl⟩
    · have hr : 0 < r := Nat.pos_of_ne_zero (by
        rintro rfl
        have := h.range first (by rw [hav]; simp)
        simp at this)
      have hut : big r ≤ s.util.length := by rw [h.length]; exact hL
      obtain ⟨b, e, hb⟩ := search_some (V := r * r * 2) (adj := adjacency (generate r r)) (cs := cs) (s := s) (v := v)
        (l := s.avail) (fun c hc => by
          unfold evaluate
          simp only
          obtain ⟨k, hk⟩ := lengths_some hr (ws := wanted (r * r * 2) cs s.cores v c) (n := 0)
          obtain ⟨t, ht⟩ := findPathsAll_some hut (ws := wanted (r * r * 2) cs s.cores v c) (t := ⟨-1, s.util, []⟩) hut
            (fun w hw => by
              rcases mem_wanted.mp hw with ⟨e, -, -, a, h1, rfl⟩ | ⟨e, -, -, a, h1, rfl⟩
              · refine ⟨(h.taken _ _ h1).1, h.range c hc, fun h' => (h.taken _ _ h1).2 ?_⟩
                have h'' : a = c := h'
                rw [h'']; exact hc
              · refine ⟨h.range c hc, (h.taken _ _ h1).1, fun h' => (h.taken _ _ h1).2 ?_⟩
                have h'' : c = a := h'
                rw [← h'']; exact hc)
          unfold lengths
          rw [hk, Option.bind_some, ht]
          exact ⟨_, rfl⟩) (b := (-1, none)) (Or.inr ⟨rfl, ha⟩)
      unfold search
      rw [e, Option.bind_some]
      obtain ⟨x, hx⟩ := Option.isSome_iff_exists.mp hb
      rw [hx]
      exact ⟨_, rfl⟩

/-- Each task is taken once: what the loop keeps when no two channels have the same ends. -/
structure Once (tasks : List ℕ) (dag : List Chan) (start : ℕ) (s : Loop) : Prop where
  nodup : s.queue.Nodup
  started : s.visited start = true
  ready : ∀ w ∈ s.queue, s.visited w = false ∧ w ∈ tasks ∧ ∀ e ∈ dag, e.dst = w → s.visited e.src = true
  room : (tasks.filter fun v => !s.visited v).length ≤ s.placed.avail.length
  fresh : ∀ v, (s.placed.cores v).isSome → s.visited v = true

theorem pushed_nodup {dag : List Chan} (hs : (dag.map fun e => (e.src, e.dst)).Nodup) (vis : ℕ → Bool) (v : ℕ) :
    (pushed dag vis v).Nodup := by
  unfold pushed outs
  rw [List.nodup_map_iff_inj_on ((hs.of_map).filter _ |>.filter _)]
  intro x hx y hy hxy
  simp only [List.mem_filter, decide_eq_true_eq] at hx hy
  exact List.inj_on_of_nodup_map hs hx.1.1 hy.1.1 (by rw [hx.1.2, hy.1.2, hxy])

theorem filter_less {tasks : List ℕ} {vis : ℕ → Bool} {v : ℕ} (hv : v ∈ tasks) (h : vis v = false) :
    (tasks.filter fun w => !(Function.update vis v true w)).length + 1 ≤ (tasks.filter fun w => !vis w).length := by
  have e : (tasks.filter fun w => !(Function.update vis v true w)) = (tasks.filter fun w => !vis w).filter fun w => w ≠ v := by
    rw [List.filter_filter]
    apply List.filter_congr
    intro w _
    by_cases hw : w = v
    · subst hw; rw [Function.update_self]; simp
    · rw [Function.update_of_ne hw]; simp [hw]
  rw [e]
  have hm : v ∈ tasks.filter fun w => !vis w := List.mem_filter.mpr ⟨hv, by rw [h]; rfl⟩
  have := List.length_filter_lt_length_iff_exists (p := fun w => decide (w ≠ v)) (l := tasks.filter fun w => !vis w) |>.mpr
    ⟨v, hm, by simp⟩
  omega

theorem turn_once {L : ℕ} {cs dag : List Chan} {tasks : List ℕ} {start : ℕ} (hL : big r ≤ L)
    (hs : (dag.map fun e => (e.src, e.dst)).Nodup) (ht : ∀ e ∈ dag, e.dst ∈ tasks) {s : Loop} {v : ℕ} (hv : v ∈ s.queue)
    (h : Inv r L cs s.placed) (hO : Once tasks dag start s) :
    ∃ s', turn (r * r * 2) (adjacency (generate r r)) cs dag start s v = some s' ∧ Once tasks dag start s' ∧
      (tasks.filter fun w => !s'.visited w).length + 1 ≤ (tasks.filter fun w => !s.visited w).length := by
  obtain ⟨v1, v2, v3⟩ := hO.ready v hv
  have hvs : v ≠ start := by rintro rfl; rw [hO.started] at v1; cases v1
  have hless := filter_less v2 v1
  have hroom := hO.room
  obtain ⟨p, hp⟩ := mapTask_some hL h (by intro h0; rw [h0] at hroom; simp only [List.length_nil] at hroom; omega)
  obtain ⟨-, c, hc, hcores, havail⟩ := mapTask_ok (Or.inr hL) h hp
  unfold turn
  rw [if_neg hvs, hp]
  refine ⟨_, rfl, ⟨?_, ?_, ?_, ?_, ?_⟩, hless⟩
  · simp only
    refine List.nodup_append.mpr ⟨hO.nodup.erase v, pushed_nodup hs _ v, fun a ha b hb hab => ?_⟩
    subst hab
    obtain ⟨e, he, hes, hed, -⟩ := mem_pushed.mp hb
    have := (hO.ready a (List.mem_of_mem_erase ha)).2.2 e he hed
    rw [hes, v1] at this
    cases this
  · show Function.update s.visited v true start = true
    rw [Function.update_of_ne (Ne.symm hvs)]; exact hO.started
  · intro w hw
    simp only at hw ⊢
    rcases List.mem_append.mp hw with hw | hw
    · obtain ⟨hne, hw⟩ := (hO.nodup.mem_erase_iff).mp hw
      obtain ⟨w1, w2, w3⟩ := hO.ready w hw
      refine ⟨by rw [Function.update_of_ne hne]; exact w1, w2, fun e he hd => ?_⟩
      by_cases hev : e.src = v
      · rw [hev, Function.update_self]
      · rw [Function.update_of_ne hev]; exact w3 e he hd
    · obtain ⟨e, he, -, hed, h1, h2⟩ := mem_pushed.mp hw
      exact ⟨h1, hed ▸ ht e he, h2⟩
  · show (tasks.filter fun w => !(Function.update s.visited v true w)).length ≤ p.avail.length
    rw [havail, List.length_erase_of_mem hc]
    omega
  · intro w hw
    replace hw : (p.cores w).isSome := hw
    show Function.update s.visited v true w = true
    by_cases hwv : w = v
    · subst hwv; rw [Function.update_self]
    · rw [hcores, Function.update_of_ne hwv] at hw
      rw [Function.update_of_ne hwv]
      exact hO.fresh w hw

theorem loop_once {L : ℕ} {cs dag : List Chan} {tasks : List ℕ} {start : ℕ} {pick : ℕ → List ℕ → ℕ} (hL : big r ≤ L)
    (hs : (dag.map fun e => (e.src, e.dst)).Nodup) (ht : ∀ e ∈ dag, e.dst ∈ tasks)
    (hpick : ∀ i q, q ≠ [] → pick i q ∈ q) : ∀ {fuel i : ℕ} {s : Loop} (_ : Inv r L cs s.placed)
    (_ : Once tasks dag start s) (_ : (tasks.filter fun w => !s.visited w).length < fuel),
    ∃ p, loop (r * r * 2) (adjacency (generate r r)) cs dag start pick fuel i s = some p
  | 0, _, _, _, _, hf => absurd hf (by omega)
  | fuel + 1, i, s, h, hO, hf => by
    unfold loop
    split
    · exact ⟨_, rfl⟩
    · next hq =>
      obtain ⟨s', e, hO', hless⟩ := turn_once hL hs ht (hpick i _ hq) h hO
      rw [e, Option.bind_some]
      exact loop_once hL hs ht hpick (turn_ok (Or.inr hL) h e) hO' (by omega)

theorem placement_returns {cs dag : List Chan} {tasks : List ℕ} {start : ℕ} {pick : ℕ → List ℕ → ℕ} {table : List Int}
    (hL : big r ≤ table.length) (hs : (dag.map fun e => (e.src, e.dst)).Nodup) (hd : Ordered tasks dag start)
    (hpick : ∀ i q, q ≠ [] → pick i q ∈ q) (hn : tasks.length ≤ r * r) :
    ∃ p, placement (r * r * 2) (adjacency (generate r r)) table cs dag start pick = some p := by
  unfold placement loop
  rw [if_neg (by simp)]
  have hp : pick 0 [start] = start := by simpa using hpick 0 [start] (by simp)
  simp only
  rw [hp]
  unfold turn
  rw [if_pos rfl]
  simp only [Option.map_some, Option.bind_some]
  have hvis : Function.update (Function.update (fun _ : ℕ => false) start true) start true =
      Function.update (fun _ : ℕ => false) start true := by rw [Function.update_idem]
  rw [hvis]
  have hf : (tasks.filter fun w => !(Function.update (fun _ : ℕ => false) start true w)).length ≤ tasks.length :=
    List.length_filter_le _ _
  refine loop_once (tasks := tasks) hL hs hd.target hpick start_inv ⟨?_, ?_, ?_, ?_, ?_⟩ ?_
  · simp only [List.erase_cons_head, List.nil_append]
    exact pushed_nodup hs _ _
  · exact Function.update_self start true (fun _ : ℕ => false)
  · intro w hw
    simp only [List.erase_cons_head, List.nil_append] at hw
    obtain ⟨e, he, -, hed, h1, h2⟩ := mem_pushed.mp hw
    exact ⟨h1, hed ▸ hd.target e he, h2⟩
  · simp only [List.length_range]
    rw [half]
    omega
  · intro v hv
    cases hv
  · simp only
    omega

end

end Kiter.BMap
