/-
Property C131: the enumeration of the shortest paths of a mesh.
-/
import Verif.Model.AllPaths
import Verif.Props.NoCGraph
import Mathlib.Data.List.Nodup
import Mathlib.Data.List.ProdSigma

set_option autoImplicit false

namespace Kiter.NoC

/-- The search appends the paths it meets to the entry of the pair. -/
theorem allPaths_eq {adj : ℕ → List ℕ} {V M d : ℕ} (hV : ∀ a b, a < V → b ∈ adj a → b < V) (s : ℕ) (hs : s ≠ d) :
    ∀ (len u : ℕ) (stack : List ℕ) (t : PathTable), u < V → (u :: stack).getLast? = some s →
      allPaths adj V M d len (u :: stack) t = some (Function.update t (pathIndex V (s - M) (d - M))
        (t (pathIndex V (s - M) (d - M)) ++ pathsFrom adj d len (u :: stack))) := by
  intro len
  induction len with
  | zero =>
    intro u stack t hu hl
    unfold allPaths pathsFrom
    by_cases h : u = d
    · rw [if_pos h, if_pos h, hl]
      simp only [if_neg hs]
    · rw [if_neg h, if_neg h]
      simp
  | succ len ih =>
    intro u stack t hu hl
    unfold allPaths pathsFrom
    by_cases h : u = d
    · rw [if_pos h, if_pos h, hl]
      simp only [if_neg hs]
    · rw [if_neg h, if_neg h]
      simp only
      have : ∀ (l : List ℕ), (∀ b ∈ l, b < V) → ∀ t : PathTable,
          l.foldlM (fun t i => if V ≤ i then none else if i ∈ u :: stack then some t
            else allPaths adj V M d len (i :: u :: stack) t) t =
          some (Function.update t (pathIndex V (s - M) (d - M)) (t (pathIndex V (s - M) (d - M)) ++
            l.flatMap fun i => if i ∈ u :: stack then [] else pathsFrom adj d len (i :: u :: stack))) := by
        intro l
        induction l with
        | nil => intro _ t; simp
        | cons i l ihl =>
          intro hb t
          rw [List.foldlM_cons, List.flatMap_cons, if_neg (by have := hb i (by simp); omega)]
          by_cases hi : i ∈ u :: stack
          · rw [if_pos hi, if_pos hi]
            exact ihl (fun b hb' => hb b (List.mem_cons_of_mem _ hb')) t
          · rw [if_neg hi, if_neg hi, ih i (u :: stack) t (hb i (by simp)) (by rw [List.getLast?_cons_cons]; exact hl)]
            simp only [Option.bind_eq_bind, Option.bind_some]
            rw [ihl (fun b hb' => hb b (List.mem_cons_of_mem _ hb'))]
            simp
      exact this (adj u) (fun b hb => hV u b hu hb) t

/-- No path is met twice. -/
theorem pathsFrom_nodup {adj : ℕ → List ℕ} {d : ℕ} (hadj : ∀ a, (adj a).Nodup) : ∀ (len u : ℕ) (stack : List ℕ),
    (pathsFrom adj d len (u :: stack)).Nodup := by
  intro len
  induction len with
  | zero =>
    intro u stack
    unfold pathsFrom
    split <;> simp
  | succ len ih =>
    intro u stack
    unfold pathsFrom
    split
    · simp
    · refine List.nodup_flatMap.mpr ⟨?_, ?_⟩
      · intro i _
        split
        · simp
        · exact ih _ _
      · refine (hadj u).imp ?_
        intro i j hij p hp hq
        dsimp only at hp hq
        split at hp
        · simp at hp
        · split at hq
          · simp at hq
          · obtain ⟨q, rfl, hq1, -⟩ := (mem_pathsFrom len i _ _).mp hp
            obtain ⟨q', hq', hq2, -⟩ := (mem_pathsFrom len j _ _).mp hq
            have : q = q' := List.append_cancel_left hq'
            subst this
            have := hq1.first.symm.trans hq2.first
            exact hij (Option.some.inj this)

theorem adjacency_nodup (xs ys a : ℕ) : (adjacency (generate xs ys) a).Nodup := by
  unfold adjacency
  have h := (C38_links xs ys).2.1
  have h1 := List.Nodup.of_map _ h
  refine List.Nodup.map_on ?_ (h1.filter _)
  intro l hl l' hl' he
  simp only [List.mem_filter, decide_eq_true_eq] at hl hl'
  obtain ⟨p, q, a1, a2, -, rfl⟩ := mem_links.mp hl.1
  obtain ⟨p', q', b1, b2, -, rfl⟩ := mem_links.mp hl'.1
  have c1 := (enc_bounds a2).1
  have c2 := (enc_bounds b2).1
  simp only [toLink] at he hl hl'
  rw [enc_inj a1 b1 (hl.2.trans hl'.2.symm), enc_inj a2 b2 (by omega)]

/-- Successive updates of different entries. -/
theorem fold_update {α : Type} (key : α → ℕ) (val : α → List (List ℕ) → List (List ℕ)) (step : PathTable → α → Option PathTable) :
    ∀ (l : List α), (∀ a ∈ l, ∀ t, step t a = some (Function.update t (key a) (val a (t (key a))))) → l.Nodup →
    (∀ a ∈ l, ∀ b ∈ l, key a = key b → a = b) → ∀ t, ∃ t', l.foldlM step t = some t' ∧
      (∀ a ∈ l, t' (key a) = val a (t (key a))) ∧ ∀ k, (∀ a ∈ l, key a ≠ k) → t' k = t k := by
  intro l
  induction l with
  | nil => exact fun _ _ _ t => ⟨t, rfl, by simp, fun _ _ => rfl⟩
  | cons a l ih =>
    intro h1 h2 h3 t
    obtain ⟨n1, n2⟩ := List.nodup_cons.mp h2
    obtain ⟨t', e, g1, g2⟩ := ih (fun b hb => h1 b (List.mem_cons_of_mem _ hb)) n2
      (fun b hb c hc => h3 b (List.mem_cons_of_mem _ hb) c (List.mem_cons_of_mem _ hc))
      (Function.update t (key a) (val a (t (key a))))
    have hne : ∀ b ∈ l, key b ≠ key a := fun b hb he =>
      n1 (h3 b (List.mem_cons_of_mem _ hb) a List.mem_cons_self he ▸ hb)
    refine ⟨t', by rw [List.foldlM_cons, h1 a List.mem_cons_self]; exact e, ?_, ?_⟩
    · intro b hb
      rcases List.mem_cons.mp hb with rfl | hb
      · rw [g2 _ hne, Function.update_self]
      · rw [g1 b hb, Function.update_of_ne (hne b hb)]
    · intro k hk
      rw [g2 k fun b hb => hk b (List.mem_cons_of_mem _ hb), Function.update_of_ne (hk a List.mem_cons_self).symm]

theorem pathIndex_inj {V x y x' y' : ℕ} (hy : y < V) (hy' : y' < V) (h : pathIndex V x y = pathIndex V x' y') :
    x = x' ∧ y = y' := by
  unfold pathIndex at h
  have h' : y + V * x = y' + V * x' := by rw [Nat.mul_comm V, Nat.mul_comm V]; omega
  have a := congrArg (· % V) h'
  simp only [Nat.add_mul_mod_self_left, Nat.mod_eq_of_lt hy, Nat.mod_eq_of_lt hy'] at a
  subst a
  have : V * x = V * x' := by omega
  exact ⟨Nat.eq_of_mul_eq_mul_left (by omega) this, rfl⟩

/-- What one call does to the table of a square mesh. -/
theorem generateAll_eq (n : ℕ) (t : PathTable) : ∃ t', generateAll (adjacency (generate n n)) (meshNodes n n) t = some t' ∧
    ∀ s d, s < n * n → d < n * n → ∃ len, pathLength (meshNodes n n) s d = some len ∧
      getShortestPaths (meshNodes n n) t' s d = if s = d then [] else
        getShortestPaths (meshNodes n n) t s d ++ pathsFrom (adjacency (generate n n)) (d + n * n) len [s + n * n] := by
  have hM : meshNodes n n / 2 = n * n := by unfold meshNodes; omega
  have hlen : ∀ s d, s < n * n → ∃ len, pathLength (meshNodes n n) s d = some len := by
    intro s d hs
    unfold pathLength
    split
    · exact ⟨_, rfl⟩
    · rw [hM, Nat.sqrt_eq]
      dsimp only
      rw [if_neg (by rintro rfl; simp at hs)]
      exact ⟨_, rfl⟩
  obtain ⟨t', e, h1, -⟩ := fold_update (fun p : ℕ × ℕ => pathIndex (meshNodes n n) p.1 p.2)
    (fun p old => if p.1 = p.2 then [] else old ++ pathsFrom (adjacency (generate n n)) (p.2 + n * n)
      ((pathLength (meshNodes n n) p.1 p.2).getD 0) [p.1 + n * n])
    (allPathsFor (adjacency (generate n n)) (meshNodes n n))
    (List.product (List.range (n * n)) (List.range (n * n))) (by
      rintro ⟨s, d⟩ hp u
      simp only [List.pair_mem_product, List.mem_range] at hp
      obtain ⟨len, hl⟩ := hlen s d hp.1
      unfold allPathsFor
      simp only [hl, Option.bind_some, Option.getD_some, hM]
      split
      · rfl
      · rename_i hne
        rw [allPaths_eq (fun a b _ hb => (adj_lt a b hb).2) (s + n * n) (by omega) len (s + n * n) [] u
          (by unfold meshNodes; omega) rfl]
        simp) (List.Nodup.product List.nodup_range List.nodup_range) (by
      rintro ⟨s, d⟩ hp ⟨s', d'⟩ hp' he
      simp only [List.pair_mem_product, List.mem_range] at hp hp'
      obtain ⟨a, b⟩ := pathIndex_inj (by unfold meshNodes; omega) (by unfold meshNodes; omega) he
      exact Prod.ext a b) t
  refine ⟨t', by unfold generateAll; rw [hM]; exact e, ?_⟩
  intro s d hs hd
  obtain ⟨len, hl⟩ := hlen s d hs
  refine ⟨len, hl, ?_⟩
  have := h1 (s, d) (by simp [hs, hd])
  simp only [hl, Option.getD_some] at this
  exact this

/-- C131. On a square mesh of any size, after `generateAllShortestPaths` on a new network, `getShortestPaths` gives, for every
two different cores, exactly the shortest paths from one to the other, each of them once, and at least one; from a core to
itself it gives none. -/
theorem _root_.Kiter.C131_all (n : ℕ) : ∃ t, generateAll (adjacency (generate n n)) (meshNodes n n) noPaths = some t ∧
    ∀ X1 Y1 X2 Y2, X1 < n → Y1 < n → X2 < n → Y2 < n →
      let l := getShortestPaths (meshNodes n n) t (X1 + Y1 * n) (X2 + Y2 * n)
      ((X1, Y1) = (X2, Y2) → l = []) ∧ l.Nodup ∧
      ((X1, Y1) ≠ (X2, Y2) → l ≠ [] ∧ ∀ p, p ∈ l ↔
        IsShortest (fun a b => b ∈ adjacency (generate n n) a) p (coreNode n n X1 Y1) (coreNode n n X2 Y2)) := by
  obtain ⟨t, e, h⟩ := generateAll_eq n noPaths
  refine ⟨t, e, ?_⟩
  intro X1 Y1 X2 Y2 h1 h2 h3 h4 l
  have lt : ∀ {X Y : ℕ}, X < n → Y < n → X + Y * n < n * n := by
    intro X Y hX hY
    calc X + Y * n < n + Y * n := by omega
      _ = (Y + 1) * n := by ring
      _ ≤ n * n := Nat.mul_le_mul_right _ hY
  obtain ⟨len, hlen, hl⟩ := h _ _ (lt h1 h2) (lt h3 h4)
  have hinj : X1 + Y1 * n = X2 + Y2 * n ↔ (X1, Y1) = (X2, Y2) := by
    constructor
    · intro he
      have a := congrArg (· % n) he
      simp only [Nat.add_mul_mod_self_right, Nat.mod_eq_of_lt h1, Nat.mod_eq_of_lt h3] at a
      subst a
      have : Y1 * n = Y2 * n := by omega
      rw [Nat.eq_of_mul_eq_mul_right (by omega) this]
    · intro he
      rw [Prod.mk.injEq] at he
      rw [he.1, he.2]
  refine ⟨fun he => ?_, ?_, fun hne => ?_⟩
  · show getShortestPaths _ _ _ _ = _
    rw [hl, if_pos (hinj.mpr he)]
  · show (getShortestPaths _ _ _ _).Nodup
    rw [hl]
    split
    · exact List.nodup_nil
    · exact pathsFrom_nodup (adjacency_nodup n n) _ _ _
  · have hmem : ∀ p, p ∈ l ↔ Candidate (adjacency (generate n n)) len (coreNode n n X1 Y1) (coreNode n n X2 Y2) p := by
      intro p
      show p ∈ getShortestPaths _ _ _ _ ↔ _
      rw [hl, if_neg fun he => hne (hinj.mp he)]
      show p ∈ [] ++ _ ↔ _
      rw [List.nil_append, mem_pathsFrom]
      constructor
      · rintro ⟨q, rfl, g1, g2, -, g4⟩
        exact ⟨g1, g2, g4⟩
      · rintro ⟨g1, g2, g4⟩
        refine ⟨p, by simp, g1, g2, fun x hx hm => ?_, g4⟩
        cases p with
        | nil => simp at hx
        | cons y p =>
          have : y = X1 + Y1 * n + n * n := by simpa [coreNode] using g1.first
          rw [List.mem_singleton.mp hm, ← this] at hx
          exact (List.nodup_cons.mp g2).1 hx
    rw [C99_length h1 h3 hne] at hlen
    cases hlen
    have hmin : ∀ q, IsPath (fun a b => b ∈ adjacency (generate n n) a) q (coreNode n n X1 Y1) (coreNode n n X2 Y2) →
        ((X1 : Int) - X2).natAbs + ((Y1 : Int) - Y2).natAbs + 3 ≤ q.length := by
      intro q hq
      obtain ⟨a, b⟩ := route_of_path hq
      rw [coreNode_cast, coreNode_cast] at a
      have := C39_shortest h1 h2 h3 h4 hne a
      omega
    obtain ⟨_, _, _, _, r0, -, -, hr0, -, -, -, -, hl0⟩ := C39_route h1 h2 h3 h4 (max n n) (le_refl _)
    rw [← coreNode_cast, ← coreNode_cast] at hr0
    obtain ⟨q0, hq0, hql0⟩ := path_of_route hr0
    have hs0 : IsShortest (fun a b => b ∈ adjacency (generate n n) a) q0 (coreNode n n X1 Y1) (coreNode n n X2 Y2) :=
      ⟨hq0, fun q hq => by have := hmin q hq; omega⟩
    have hiff : ∀ p, p ∈ l ↔
        IsShortest (fun a b => b ∈ adjacency (generate n n) a) p (coreNode n n X1 Y1) (coreNode n n X2 Y2) := by
      intro p
      rw [hmem]
      constructor
      · rintro ⟨g1, g2, g3⟩
        exact ⟨g1, fun q hq => by have := hmin q hq; omega⟩
      · intro hp
        exact ⟨hp.1, hp.nodup, by have := hp.2 q0 hq0; omega⟩
    exact ⟨List.ne_nil_of_mem ((hiff q0).mpr hs0), hiff⟩

/-- C131, a second call: on a square mesh of any size, every path is then given twice. -/
theorem _root_.Kiter.C131_twice_counterexample (n : ℕ) : ∃ t t',
    generateAll (adjacency (generate n n)) (meshNodes n n) noPaths = some t ∧
    generateAll (adjacency (generate n n)) (meshNodes n n) t = some t' ∧
    ∀ s d, s < n * n → d < n * n → s ≠ d → getShortestPaths (meshNodes n n) t' s d =
      getShortestPaths (meshNodes n n) t s d ++ getShortestPaths (meshNodes n n) t s d := by
  obtain ⟨t, e, h⟩ := generateAll_eq n noPaths
  obtain ⟨t', e', h'⟩ := generateAll_eq n t
  refine ⟨t, t', e, e', fun s d hs hd hne => ?_⟩
  obtain ⟨len, hl, g⟩ := h s d hs hd
  obtain ⟨len', hl', g'⟩ := h' s d hs hd
  rw [hl, Option.some.injEq] at hl'
  subst hl'
  rw [if_neg hne] at g g'
  have : getShortestPaths (meshNodes n n) noPaths s d = [] := rfl
  rw [this, List.nil_append] at g
  rw [g', ← g]

/-- C131, a mesh of 3 columns and 2 rows: none of the paths from the first core of the first row to the last is found. -/
theorem _root_.Kiter.C131_rectangular_counterexample :
    ((generateAll (adjacency (generate 3 2)) (meshNodes 3 2) noPaths).map fun t => getShortestPaths (meshNodes 3 2) t 0 2) =
      some [] ∧
    IsPath (fun a b => b ∈ adjacency (generate 3 2) a) [6, 0, 1, 2, 8] (coreNode 3 2 0 0) (coreNode 3 2 2 0) := by
  refine ⟨by decide +kernel, by decide +kernel, by decide +kernel, by decide +kernel⟩

/-- The paths between opposite corners of the mesh of four cores. -/
example : ((generateAll (adjacency (generate 2 2)) (meshNodes 2 2) noPaths).map fun t => getShortestPaths (meshNodes 2 2) t 0 3) =
    some [[4, 0, 1, 3, 7], [4, 0, 2, 3, 7]] := by decide +kernel

end Kiter.NoC
