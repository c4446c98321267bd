/-
C109: the commands that put a graph on a network work together.
-/
import Verif.Model.NoCFlow
import Verif.Props.NoC
import Mathlib.Tactic.Linarith

set_option autoImplicit false

namespace Kiter

open NoC

/-- C109. `createNoC` makes the smallest square mesh, at least 2 by 2, with a core for every task. -/
theorem C109_side (n : Nat) : createNoC n = generate (meshSide n) (meshSide n) ∧ 2 ≤ meshSide n ∧
    n ≤ meshSide n * meshSide n ∧ ∀ m, 2 ≤ m → n ≤ m * m → meshSide n ≤ m := by
  have h1 := Nat.sqrt_le n
  have h2 := Nat.lt_succ_sqrt n
  simp only [Nat.succ_eq_add_one] at h2
  generalize hr : Nat.sqrt n = r at *
  have hside : meshSide n = max 2 (if r * r = n then r else r + 1) := by
    unfold meshSide
    simp only [hr]
    split <;> split <;> omega
  refine ⟨rfl, by omega, ?_, ?_⟩
  · rw [hside]
    split_ifs with h
    · calc n = r * r := h.symm
        _ ≤ _ := Nat.mul_le_mul (le_max_right _ _) (le_max_right _ _)
    · calc n ≤ (r + 1) * (r + 1) := h2.le
        _ ≤ _ := Nat.mul_le_mul (le_max_right _ _) (le_max_right _ _)
  · intro m hm hn
    rw [hside]
    refine max_le hm ?_
    split_ifs with h
    · by_contra hc
      push Not at hc
      have := Nat.mul_lt_mul'' hc hc
      omega
    · by_contra hc
      have hc' : m ≤ r := by omega
      have := Nat.mul_le_mul hc' hc'
      have h3 : r * r = n := le_antisymm h1 (hn.trans this)
      exact h h3

theorem NoC.random_ok {xs ys : Nat} (h : 0 < xs * ys) (params : List (String × Int)) (tasks : List (String × Int)) :
    ∀ (draws : List Nat), tasks.length ≤ draws.length →
    ∃ m, randomMapping xs ys params tasks draws = some m ∧ m.length = tasks.length ∧
      ∀ (i : Nat) (t : String × Int), tasks[i]? = some t → ∃ v, m[i]? = some v ∧
        (∀ w, params.lookup t.1 = some w → v = w) ∧
        (params.lookup t.1 = none → ∃ X Y, X < xs ∧ Y < ys ∧ v = coreId xs ys X Y) := by
  induction tasks with
  | nil => intro draws _; exact ⟨[], rfl, rfl, by simp⟩
  | cons t ts ih =>
    intro draws hd
    cases hl : params.lookup t.1 with
    | some w =>
      obtain ⟨m, hm, hlen, hall⟩ := ih draws (by simp at hd; omega)
      refine ⟨w :: m, by simp [randomMapping, hl, hm], by simp [hlen], ?_⟩
      intro i t' ht
      cases i with
      | zero =>
        simp only [List.getElem?_cons_zero, Option.some.injEq] at ht
        subst ht
        exact ⟨w, by simp, fun w' hw' => by rw [hl] at hw'; exact Option.some.inj hw', fun hn => by rw [hl] at hn; cases hn⟩
      | succ i => simpa using hall i t' (by simpa using ht)
    | none =>
      cases draws with
      | nil => simp at hd
      | cons d ds =>
        obtain ⟨X, Y, hX, hY, hr⟩ := C39_random_mapping h d
        obtain ⟨m, hm, hlen, hall⟩ := ih ds (by simp at hd; omega)
        refine ⟨coreId xs ys X Y :: m, by simp [randomMapping, hl, hr, hm], by simp [hlen], ?_⟩
        intro i t' ht
        cases i with
        | zero =>
          simp only [List.getElem?_cons_zero, Option.some.injEq] at ht
          subst ht
          exact ⟨coreId xs ys X Y, by simp, fun w' hw' => (by rw [hl] at hw'; cases hw'), fun _ => ⟨X, Y, hX, hY, rfl⟩⟩
        | succ i => simpa using hall i t' (by simpa using ht)

theorem NoC.mapM_index {α β : Type} (f : α → Option β) (l : List α) (h : ∀ a ∈ l, ∃ b, f a = some b) :
    ∃ r, l.mapM f = some r ∧ r.length = l.length ∧ ∀ (i : Nat) (a : α), l[i]? = some a → ∃ b, r[i]? = some b ∧ f a = some b := by
  induction l with
  | nil => exact ⟨[], rfl, rfl, by simp⟩
  | cons a l ih =>
    obtain ⟨b, hb⟩ := h a (by simp)
    obtain ⟨r, hr, hlen, hall⟩ := ih fun x hx => h x (by simp [hx])
    refine ⟨b :: r, by rw [List.mapM_cons, hb, hr]; rfl, by simp [hlen], ?_⟩
    intro i x hx
    cases i with
    | zero =>
      simp only [List.getElem?_cons_zero, Option.some.injEq] at hx
      subst hx
      exact ⟨b, by simp, hb⟩
    | succ i => simpa using hall i x (by simpa using hx)

/-- C109. Run `createNoC`, `randomMapping` and `xyRouting` on any graph, with any random values, and with parameters that put
tasks on cores. Every task ends up on a core of the mesh, the one given by its parameter if it has one, and every channel
gets a route from the core of its source to the core of its target, with as few links as possible when the cores differ. -/
theorem C109_flow (tasks : List (String × Int)) (channels : List (Nat × Nat))
    (hends : ∀ c ∈ channels, c.1 < tasks.length ∧ c.2 < tasks.length) (params : List (String × Int))
    (hparams : ∀ (n : String) (v : Int), params.lookup n = some v → ∃ X Y, X < meshSide tasks.length ∧
      Y < meshSide tasks.length ∧ v = coreId (meshSide tasks.length) (meshSide tasks.length) X Y)
    (draws : List Nat) (hdraws : tasks.length ≤ draws.length) (f : Nat) (hf : meshSide tasks.length ≤ f) :
    ∃ mapping routes, randomMapping (meshSide tasks.length) (meshSide tasks.length) params tasks draws = some mapping ∧
      xyRouting (createNoC tasks.length) f mapping channels = some routes ∧
      mapping.length = tasks.length ∧ routes.length = channels.length ∧
      (∀ (i : Nat) (t : String × Int), tasks[i]? = some t → ∃ v, mapping[i]? = some v ∧
        (∀ w, params.lookup t.1 = some w → v = w) ∧ ∃ X Y, X < meshSide tasks.length ∧ Y < meshSide tasks.length ∧
          v = coreId (meshSide tasks.length) (meshSide tasks.length) X Y) ∧
      ∀ (i : Nat) (c : Nat × Nat), channels[i]? = some c → ∃ route a b, routes[i]? = some route ∧ mapping[c.1]? = some a ∧
        mapping[c.2]? = some b ∧ IsRoute (createNoC tasks.length) route a b ∧
        (a ≠ b → ∀ other, IsRoute (createNoC tasks.length) other a b → route.length ≤ other.length) := by
  obtain ⟨-, h2, -, -⟩ := C109_side tasks.length
  obtain ⟨mapping, hm, hlen, hall⟩ := NoC.random_ok (xs := meshSide tasks.length) (ys := meshSide tasks.length)
    (by positivity) params tasks draws hdraws
  have hcore : ∀ i, i < tasks.length → ∃ X Y, X < meshSide tasks.length ∧ Y < meshSide tasks.length ∧
      mapping[i]? = some (coreId (meshSide tasks.length) (meshSide tasks.length) X Y) := by
    intro i hi
    obtain ⟨v, hv, hw, hn⟩ := hall i _ (List.getElem?_eq_getElem hi)
    cases hl : params.lookup tasks[i].1 with
    | some w =>
      obtain ⟨X, Y, hX, hY, hwv⟩ := hparams _ w hl
      exact ⟨X, Y, hX, hY, by rw [hv, hw w hl, hwv]⟩
    | none =>
      obtain ⟨X, Y, hX, hY, hvv⟩ := hn hl
      exact ⟨X, Y, hX, hY, by rw [hv, hvv]⟩
  obtain ⟨routes, hr, hrl, hra⟩ := NoC.mapM_index (fun c : Nat × Nat => (mapping[c.1]?).bind fun a =>
      (mapping[c.2]?).bind fun b => xyRoute (createNoC tasks.length) f a b) channels (by
    intro c hc
    obtain ⟨h3, h4⟩ := hends c hc
    obtain ⟨X1, Y1, hX1, hY1, e1⟩ := hcore _ h3
    obtain ⟨X2, Y2, hX2, hY2, e2⟩ := hcore _ h4
    obtain ⟨-, -, -, -, path, hp, -⟩ := C39_route hX1 hY1 hX2 hY2 f (by simpa using hf)
    exact ⟨path, by simp only [e1, e2, Option.bind_some]; exact hp⟩)
  refine ⟨mapping, routes, hm, hr, hlen, hrl, ?_, ?_⟩
  · intro i t ht
    obtain ⟨v, hv, hw, -⟩ := hall i t ht
    obtain ⟨X, Y, hX, hY, e⟩ := hcore i (List.getElem?_eq_some_iff.mp ht).1
    rw [hv] at e
    exact ⟨v, hv, hw, X, Y, hX, hY, Option.some.inj e⟩
  · intro i c hc
    obtain ⟨h3, h4⟩ := hends c (List.mem_of_getElem? hc)
    obtain ⟨X1, Y1, hX1, hY1, e1⟩ := hcore _ h3
    obtain ⟨X2, Y2, hX2, hY2, e2⟩ := hcore _ h4
    obtain ⟨route, hroute, hf'⟩ := hra i c hc
    obtain ⟨-, -, -, -, path, hp, -, hp2, -, -, -, -, hp3⟩ := C39_route hX1 hY1 hX2 hY2 f (by simpa using hf)
    simp only [e1, e2, Option.bind_some] at hf'
    have hf' : xyRoute (generate (meshSide tasks.length) (meshSide tasks.length)) f _ _ = some route := hf'
    rw [hp] at hf'
    obtain rfl := Option.some.inj hf'
    refine ⟨path, _, _, hroute, e1, e2, hp2, ?_⟩
    intro hne other ho
    rw [hp3]
    refine C39_shortest hX1 hY1 hX2 hY2 ?_ ho
    rintro h
    simp only [Prod.mk.injEq] at h
    obtain ⟨rfl, rfl⟩ := h
    exact hne rfl

/-- C109. After `createNoC`, `moduloMapping` without parameters gives every task of a graph with ids 1, 2, ..., n a node of
its own. These nodes are routers, not cores, so that routing then fails (C39_modulo_counterexample). -/
theorem C109_modulo (n : Nat) (tasks : List (String × Int)) (hids : tasks.map (fun t => t.2) = (List.range n).map fun (i : Nat) => (i : Int) + 1) :
    ∃ mapping, moduloMapping (meshSide n) (meshSide n) [] tasks = some mapping ∧ mapping.length = tasks.length ∧ mapping.Nodup ∧
      ∀ v ∈ mapping, ∃ X Y, X < meshSide n ∧ Y < meshSide n ∧ v = routerId (meshSide n) X Y := by
  obtain ⟨-, h2, h3, -⟩ := C109_side n
  have hpos : 0 < meshSide n * meshSide n := by positivity
  have key : moduloMapping (meshSide n) (meshSide n) [] tasks = some ((List.range n).map fun (i : Nat) => (i : Int)) := by
    have e : moduloMapping (meshSide n) (meshSide n) [] tasks =
        (tasks.map fun t => t.2).mapM fun i => moduloMap (meshSide n) (meshSide n) i := by
      unfold moduloMapping
      rw [List.mapM_map]
      rfl
    rw [e, hids]
    have : ∀ k, k ≤ n → ((List.range k).map fun (i : Nat) => (i : Int) + 1).mapM (fun i => moduloMap (meshSide n) (meshSide n) i) =
        some ((List.range k).map fun (i : Nat) => (i : Int)) := by
      intro k
      induction k with
      | zero => intro _; rfl
      | succ k ih =>
        intro hk
        rw [List.range_succ, List.map_append, List.map_append, List.mapM_append, ih (by omega)]
        have : moduloMap (meshSide n) (meshSide n) ((k : Int) + 1) = some (k : Int) := by
          unfold moduloMap
          rw [if_neg (by omega)]
          congr 1
          rw [show (k : Int) + 1 - 1 = (k : Int) by ring, ← Int.ofNat_tmod, Nat.mod_eq_of_lt (by omega)]
        simp [this]
    exact this n (le_refl _)
  refine ⟨_, key, ?_, ?_, ?_⟩
  · have := congrArg List.length hids
    simpa using this.symm
  · exact List.Nodup.map (fun a b h => by simpa using h) List.nodup_range
  · intro v hv
    obtain ⟨i, hi, rfl⟩ := List.mem_map.mp hv
    rw [List.mem_range] at hi
    refine ⟨i % meshSide n, i / meshSide n, Nat.mod_lt _ (by omega), Nat.div_lt_of_lt_mul (by omega), ?_⟩
    unfold routerId
    have := Nat.mod_add_div i (meshSide n)
    have h' : ((i % meshSide n : Nat) : Int) + (meshSide n : Int) * ((i / meshSide n : Nat) : Int) = (i : Int) := by exact_mod_cast this
    rw [← h']; ring

/-- Five tasks on a 3 by 3 mesh; the second is put on the core in the corner. -/
example : ∃ mapping routes,
    randomMapping 3 3 [("b", 17)] [("a", 1), ("b", 2), ("c", 3), ("d", 4), ("e", 5)] [7, 20, 4, 4, 1] = some mapping ∧
    mapping = [16, 17, 11, 13, 13] ∧ meshSide 5 = 3 ∧
    xyRouting (createNoC 5) 3 mapping [(0, 1), (1, 2), (3, 4)] = some routes ∧ routes.map List.length = [3, 4, 2] ∧
    (17 : Int) = coreId 3 3 2 2 :=
  ⟨[16, 17, 11, 13, 13], ((xyRouting (createNoC 5) 3 [16, 17, 11, 13, 13] [(0, 1), (1, 2), (3, 4)]).get (by decide +kernel)),
    by decide +kernel, rfl, by decide +kernel, by simp, by decide +kernel, by decide⟩

end Kiter
