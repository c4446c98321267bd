/-
Lemmas on the interface to the linear programming solver (C103).
-/
import Verif.Spec.LpBuilder
import Mathlib.Data.List.Nodup
import Mathlib.Data.List.Induction
import Mathlib.Data.List.Forall2
import Mathlib.Tactic.Linarith

set_option autoImplicit false

namespace Kiter.LpB

/-! ### Looking up names -/

theorem getRow_iff {g : GLPSol} (hn : (g.rows.map Row.name).Nodup) {s : String} {i : ℕ} :
    g.getRow s = some i ↔ ∃ r ∈ g.rows, r.name = s ∧ r.indice = i := by
  unfold GLPSol.getRow
  rw [Option.map_eq_some_iff]
  constructor
  · rintro ⟨r, hr, rfl⟩
    exact ⟨r, List.mem_of_find?_eq_some hr, by simpa using List.find?_some hr, rfl⟩
  · rintro ⟨r, hr, rfl, rfl⟩
    obtain ⟨q, hq⟩ : ∃ q, g.rows.find? (fun q => decide (q.name = r.name)) = some q := by
      rw [← Option.isSome_iff_exists, List.find?_isSome]
      exact ⟨r, hr, by simp⟩
    refine ⟨q, hq, ?_⟩
    have : q = r := List.inj_on_of_nodup_map hn (List.mem_of_find?_eq_some hq) hr (by simpa using List.find?_some hq)
    rw [this]

theorem findColumn {g : GLPSol} (hn : (g.columns.map Column.name).Nodup) {s : String} {c : Column} :
    g.columns.find? (fun q => decide (q.name = s)) = some c ↔ c ∈ g.columns ∧ c.name = s := by
  constructor
  · intro hr
    exact ⟨List.mem_of_find?_eq_some hr, by simpa using List.find?_some hr⟩
  · rintro ⟨hr, rfl⟩
    obtain ⟨q, hq⟩ : ∃ q, g.columns.find? (fun q => decide (q.name = c.name)) = some q := by
      rw [← Option.isSome_iff_exists, List.find?_isSome]
      exact ⟨c, hr, by simp⟩
    have : q = c := List.inj_on_of_nodup_map hn (List.mem_of_find?_eq_some hq) hr (by simpa using List.find?_some hq)
    rw [hq, this]

theorem getColumn_iff {g : GLPSol} (hn : (g.columns.map Column.name).Nodup) {s : String} {i : ℕ} :
    g.getColumn s = some i ↔ ∃ c ∈ g.columns, c.name = s ∧ c.indice = i := by
  unfold GLPSol.getColumn
  rw [Option.map_eq_some_iff]
  constructor
  · rintro ⟨r, hr, rfl⟩
    exact ⟨r, ((findColumn hn).mp hr).1, ((findColumn hn).mp hr).2, rfl⟩
  · rintro ⟨r, hr, rfl, rfl⟩
    exact ⟨r, (findColumn hn).mpr ⟨hr, rfl⟩, rfl⟩

theorem getRow_none {g : GLPSol} {s : String} : g.getRow s = none ↔ s ∉ g.rows.map Row.name := by
  unfold GLPSol.getRow
  rw [Option.map_eq_none_iff, List.find?_eq_none]
  simp only [decide_eq_true_eq, List.mem_map, not_exists, not_and]

theorem getColumn_none {g : GLPSol} {s : String} : g.getColumn s = none ↔ s ∉ g.columns.map Column.name := by
  unfold GLPSol.getColumn
  rw [Option.map_eq_none_iff, List.find?_eq_none]
  simp only [decide_eq_true_eq, List.mem_map, not_exists, not_and]

/-! ### The invariant of the calls -/

/-- Rows and columns declared by the calls. -/
def rowCalls (calls : List Call) : List (String × Bound) := calls.filterMap fun
  | .row s b => some (s, b)
  | _ => none

def columnCalls (calls : List Call) : List (String × Kind × Bound × ℚ) := calls.filterMap fun
  | .column s k b o => some (s, k, b, o)
  | _ => none

theorem rowCalls_names (calls : List Call) : (rowCalls calls).map Prod.fst = rowNames calls := by
  unfold rowCalls rowNames
  rw [List.map_filterMap]
  congr 1
  funext c
  cases c <;> rfl

theorem columnCalls_names (calls : List Call) : (columnCalls calls).map Prod.fst = columnNames calls := by
  unfold columnCalls columnNames
  rw [List.map_filterMap]
  congr 1
  funext c
  cases c <;> rfl

theorem mem_rowCalls {calls : List Call} {s : String} {b : Bound} : (s, b) ∈ rowCalls calls ↔ Call.row s b ∈ calls := by
  unfold rowCalls
  rw [List.mem_filterMap]
  constructor
  · rintro ⟨c, hc, h⟩
    cases c <;> simp at h
    obtain ⟨rfl, rfl⟩ := h
    exact hc
  · intro h
    exact ⟨_, h, rfl⟩

theorem mem_columnCalls {calls : List Call} {s : String} {k : Kind} {b : Bound} {o : ℚ} :
    (s, k, b, o) ∈ columnCalls calls ↔ Call.column s k b o ∈ calls := by
  unfold columnCalls
  rw [List.mem_filterMap]
  constructor
  · rintro ⟨c, hc, h⟩
    cases c <;> simp at h
    obtain ⟨rfl, rfl, rfl, rfl⟩ := h
    exact hc
  · intro h
    exact ⟨_, h, rfl⟩

/-- The entry kept for a coefficient. -/
def EntryFor (g : GLPSol) (a : String × String × ℚ) (e : ℕ × ℕ × ℚ) : Prop :=
  g.getRow a.1 = some e.1 ∧ g.getColumn a.2.1 = some e.2.1 ∧ a.2.2 = e.2.2

structure Inv (eps : ℚ) (calls : List Call) (g : GLPSol) : Prop where
  rows : g.rows.map (fun r => (r.name, r.bound)) = rowCalls calls
  rowIdx : ∀ (k : ℕ) (r : Row), g.rows[k]? = some r → r.indice = k + 1
  rowNodup : (g.rows.map Row.name).Nodup
  columns : g.columns.map (fun c => (c.name, c.kind, c.bound, c.coef)) = columnCalls calls
  columnIdx : ∀ (k : ℕ) (c : Column), g.columns[k]? = some c → c.indice = k + 1
  columnNodup : (g.columns.map Column.name).Nodup
  size : g.size = (coefficients eps calls).length
  le : g.coefs.length ≤ g.size
  entries : g.coefs.length = g.size → List.Forall₂ (EntryFor g) (coefficients eps calls) g.coefs
  pairs : (g.coefs.map fun e => (e.1, e.2.1)).Nodup
  distinct : g.coefs.length = g.size ↔ ((coefficients eps calls).map fun e => (e.1, e.2.1)).Nodup
  kept : ∀ e, e ∈ g.coefs.map (fun e => (e.1, e.2.1)) ↔ ∃ a ∈ coefficients eps calls, g.getRow a.1 = some e.1 ∧ g.getColumn a.2.1 = some e.2
  uses : ∀ r c v, Call.coef r c v ∈ calls → (g.getRow r).isSome ∧ (g.getColumn c).isSome
  flags : g.integer = false ∧ g.bounded = false ∧ ∀ r ∈ g.rows, r.critical = false

theorem inv_new (eps : ℚ) : Inv eps [] new :=
  ⟨rfl, by simp [new], by simp [new], rfl, by simp [new], by simp [new], rfl, by simp [new], fun _ => List.Forall₂.nil,
    by simp [new], by simp [new, coefficients], by simp [new, coefficients], by simp, by simp [new]⟩

section
variable {eps : ℚ} {calls : List Call} {g : GLPSol}

theorem coefs_append (a b : List Call) : coefficients eps (a ++ b) = coefficients eps a ++ coefficients eps b := by
  unfold coefficients; rw [List.filterMap_append]

theorem rowCalls_append (a b : List Call) : rowCalls (a ++ b) = rowCalls a ++ rowCalls b := by
  unfold rowCalls; rw [List.filterMap_append]

theorem columnCalls_append (a b : List Call) : columnCalls (a ++ b) = columnCalls a ++ columnCalls b := by
  unfold columnCalls; rw [List.filterMap_append]

theorem coefs_mem {a : String × String × ℚ} : a ∈ coefficients eps calls ↔ Call.coef a.1 a.2.1 a.2.2 ∈ calls ∧ eps ≤ |a.2.2| := by
  unfold coefficients
  rw [List.mem_filterMap]
  constructor
  · rintro ⟨c, hc, h⟩
    cases c with
    | row => simp at h
    | column => simp at h
    | coef r c v =>
      dsimp only at h
      split at h
      · simp at h
      · rename_i hv
        cases h
        exact ⟨hc, not_lt.mp hv⟩
  · rintro ⟨h1, h2⟩
    exact ⟨_, h1, by simp [not_lt.mpr h2]⟩

theorem mem_get {α : Type} {l : List α} {a : α} (h : a ∈ l) : ∃ k : ℕ, l[k]? = some a := List.mem_iff_getElem?.mp h

theorem append_one {α : Type} {l : List α} {a : α} {idx : α → ℕ} (h : ∀ (k : ℕ) (r : α), l[k]? = some r → idx r = k + 1)
    (ha : idx a = l.length + 1) : ∀ (k : ℕ) (r : α), (l ++ [a])[k]? = some r → idx r = k + 1 := by
  intro k r hr
  rw [List.getElem?_append] at hr
  split at hr
  · exact h k r hr
  · rename_i hk
    have : k = l.length := by
      by_contra hne
      have : (1 : ℕ) ≤ k - l.length := by omega
      rw [List.getElem?_eq_none (by simpa using this)] at hr
      simp at hr
    subst this
    simp at hr
    rw [← hr, ha]

/-- A name found before is found with the same number after more rows. -/
theorem getRow_append {l : List Row} {s : String} {i : ℕ} (h : g.getRow s = some i) :
    ({ g with rows := g.rows ++ l } : GLPSol).getRow s = some i := by
  unfold GLPSol.getRow at h ⊢
  obtain ⟨r, hr, rfl⟩ := Option.map_eq_some_iff.mp h
  simp only [List.find?_append, hr, Option.some_or, Option.map_some]

theorem getColumn_append {l : List Column} {s : String} {i : ℕ} (h : g.getColumn s = some i) :
    ({ g with columns := g.columns ++ l } : GLPSol).getColumn s = some i := by
  unfold GLPSol.getColumn at h ⊢
  obtain ⟨r, hr, rfl⟩ := Option.map_eq_some_iff.mp h
  simp only [List.find?_append, hr, Option.some_or, Option.map_some]

/-- What a call changes, when the invariant allows it. -/
theorem inv_row (hi : Inv eps calls g) {s : String} {b : Bound} {g' : GLPSol} (h : g.call eps (.row s b) = some g') :
    Inv eps (calls ++ [.row s b]) g' := by
  have h : (g.addRow s b).map Prod.fst = some g' := h
  unfold GLPSol.addRow at h
  split at h
  · simp at h
  · rename_i hs
    simp only [Option.map_some, Option.some.injEq] at h
    subst h
    have hs : g.getRow s = none := by simpa using hs
    have hnew := getRow_none.mp hs
    have hc : coefficients eps (calls ++ [.row s b]) = coefficients eps calls := by
      rw [coefs_append]; simp [coefficients]
    have hget : ∀ {t : String} {i : ℕ}, g.getRow t = some i →
        ({ g with rows := g.rows ++ [⟨s, g.rows.length + 1, b, false⟩] } : GLPSol).getRow t = some i := getRow_append
    refine ⟨?_, append_one hi.rowIdx rfl, ?_, ?_, hi.columnIdx, hi.columnNodup, by rw [hc]; exact hi.size, hi.le, fun h => ?_, hi.pairs, by rw [hc]; exact hi.distinct,
      fun e => ?_, fun r c v hm => ?_, hi.flags.1, hi.flags.2.1, ?_⟩
    · rw [rowCalls_append, ← hi.rows, List.map_append]; rfl
    · dsimp only
      rw [List.map_append, List.nodup_append]
      refine ⟨hi.rowNodup, by simp, ?_⟩
      intro a ha b' hb' e
      simp only [List.map_cons, List.map_nil, List.mem_singleton] at hb'
      subst hb' e
      exact hnew ha
    · rw [columnCalls_append, ← hi.columns]; simp [columnCalls]
    · rw [hc]
      exact (hi.entries h).imp fun a e he => ⟨hget he.1, he.2⟩
    · rw [hi.kept e, hc]
      constructor
      · rintro ⟨a, ha, h1, h2⟩
        exact ⟨a, ha, hget h1, h2⟩
      · rintro ⟨a, ha, h1, h2⟩
        refine ⟨a, ha, ?_, h2⟩
        obtain ⟨j, hj⟩ := Option.isSome_iff_exists.mp (hi.uses _ _ _ (coefs_mem.mp ha).1).1
        rw [hj, ← h1, hget hj]
    · have hm : Call.coef r c v ∈ calls := by simpa using hm
      obtain ⟨h1, h2⟩ := hi.uses r c v hm
      obtain ⟨j, hj⟩ := Option.isSome_iff_exists.mp h1
      exact ⟨by rw [hget hj]; rfl, h2⟩
    · intro r hr
      rcases List.mem_append.mp hr with hr | hr
      · exact hi.flags.2.2 r hr
      · simp only [List.mem_singleton] at hr; rw [hr]

theorem inv_column (hi : Inv eps calls g) {s : String} {k : Kind} {b : Bound} {o : ℚ} {g' : GLPSol}
    (hnew : s ∉ columnNames calls) (h : g.call eps (.column s k b o) = some g') : Inv eps (calls ++ [.column s k b o]) g' := by
  have hnames : g.columns.map Column.name = columnNames calls := by
    rw [← columnCalls_names, ← hi.columns, List.map_map]; rfl
  have hs : g.getColumn s = none := getColumn_none.mpr (by rw [hnames]; exact hnew)
  have h : some (g.addColumn s k b o).1 = some g' := h
  unfold GLPSol.addColumn at h
  simp only [hs, Option.isSome_none, Bool.false_eq_true, if_false, Option.some.injEq] at h
  subst h
  have hc : coefficients eps (calls ++ [.column s k b o]) = coefficients eps calls := by
    rw [coefs_append]; simp [coefficients]
  have hget : ∀ {t : String} {i : ℕ}, g.getColumn t = some i →
      ({ g with columns := g.columns ++ [⟨s, g.columns.length + 1, k, b, 0, 0, o⟩] } : GLPSol).getColumn t = some i := getColumn_append
  refine ⟨?_, hi.rowIdx, hi.rowNodup, ?_, append_one hi.columnIdx rfl, ?_, by rw [hc]; exact hi.size, hi.le, fun h => ?_, hi.pairs, by rw [hc]; exact hi.distinct,
    fun e => ?_, fun r c v hm => ?_, hi.flags⟩
  · rw [rowCalls_append, ← hi.rows]; simp [rowCalls]
  · rw [columnCalls_append, ← hi.columns, List.map_append]; rfl
  · dsimp only
    rw [List.map_append, List.nodup_append]
    refine ⟨hi.columnNodup, by simp, ?_⟩
    intro a ha b' hb' e
    simp only [List.map_cons, List.map_nil, List.mem_singleton] at hb'
    subst hb' e
    rw [hnames] at ha
    exact hnew ha
  · rw [hc]
    exact (hi.entries h).imp fun a e he => ⟨he.1, hget he.2.1, he.2.2⟩
  · rw [hi.kept e, hc]
    constructor
    · rintro ⟨a, ha, h1, h2⟩
      exact ⟨a, ha, h1, hget h2⟩
    · rintro ⟨a, ha, h1, h2⟩
      refine ⟨a, ha, h1, ?_⟩
      obtain ⟨j, hj⟩ := Option.isSome_iff_exists.mp (hi.uses _ _ _ (coefs_mem.mp ha).1).2
      rw [hj, ← h2, hget hj]
  · have hm : Call.coef r c v ∈ calls := by simpa using hm
    obtain ⟨h1, h2⟩ := hi.uses r c v hm
    obtain ⟨j, hj⟩ := Option.isSome_iff_exists.mp h2
    exact ⟨h1, by rw [hget hj]; rfl⟩

theorem setCoef_keys (l : List (ℕ × ℕ × ℚ)) (r c : ℕ) (v : ℚ) :
    (setCoef l r c v).map (fun e => (e.1, e.2.1)) =
      if (r, c) ∈ l.map (fun e => (e.1, e.2.1)) then l.map (fun e => (e.1, e.2.1)) else l.map (fun e => (e.1, e.2.1)) ++ [(r, c)] := by
  have hany : (l.any fun e => decide (e.1 = r ∧ e.2.1 = c)) = true ↔ (r, c) ∈ l.map (fun e => (e.1, e.2.1)) := by
    rw [List.any_eq_true, List.mem_map]
    constructor
    · rintro ⟨e, he, h⟩
      simp only [decide_eq_true_eq] at h
      exact ⟨e, he, by rw [h.1, h.2]⟩
    · rintro ⟨e, he, h⟩
      simp only [Prod.mk.injEq] at h
      exact ⟨e, he, by simpa using h⟩
  unfold setCoef
  split
  · rename_i h
    rw [if_pos (hany.mp h), List.map_map]
    apply List.map_congr_left
    intro e _
    dsimp only [Function.comp]
    split
    · rename_i h; rw [h.1, h.2]
    · rfl
  · rename_i h
    rw [if_neg fun h' => h (hany.mpr h'), List.map_append]
    rfl

/-- Names and numbers of rows and columns correspond one to one. -/
theorem row_inj (hi : Inv eps calls g) {a b : String} {i : ℕ} (ha : g.getRow a = some i) (hb : g.getRow b = some i) : a = b := by
  obtain ⟨r, hr, rfl, h1⟩ := (getRow_iff hi.rowNodup).mp ha
  obtain ⟨q, hq, rfl, h2⟩ := (getRow_iff hi.rowNodup).mp hb
  obtain ⟨k, hk⟩ := mem_get hr
  obtain ⟨m, hm⟩ := mem_get hq
  have e1 := hi.rowIdx k r hk
  have e2 := hi.rowIdx m q hm
  have : k = m := by omega
  subst this
  rw [hk] at hm; cases hm; rfl

theorem column_inj (hi : Inv eps calls g) {a b : String} {i : ℕ} (ha : g.getColumn a = some i) (hb : g.getColumn b = some i) : a = b := by
  obtain ⟨r, hr, rfl, h1⟩ := (getColumn_iff hi.columnNodup).mp ha
  obtain ⟨q, hq, rfl, h2⟩ := (getColumn_iff hi.columnNodup).mp hb
  obtain ⟨k, hk⟩ := mem_get hr
  obtain ⟨m, hm⟩ := mem_get hq
  have e1 := hi.columnIdx k r hk
  have e2 := hi.columnIdx m q hm
  have : k = m := by omega
  subst this
  rw [hk] at hm; cases hm; rfl

theorem inv_coef (hi : Inv eps calls g) {r c : String} {v : ℚ} {g' : GLPSol} (h : g.call eps (.coef r c v) = some g') :
    Inv eps (calls ++ [.coef r c v]) g' := by
  have h : g.addCoef eps r c v = some g' := h
  unfold GLPSol.addCoef at h
  obtain ⟨i, h1, h⟩ := Option.bind_eq_some_iff.mp h
  obtain ⟨j, h2, h⟩ := Option.map_eq_some_iff.mp h
  subst h
  have hrc : rowCalls (calls ++ [.coef r c v]) = rowCalls calls := by rw [rowCalls_append]; simp [rowCalls]
  have hcc : columnCalls (calls ++ [.coef r c v]) = columnCalls calls := by rw [columnCalls_append]; simp [columnCalls]
  have huses : ∀ r' c' v', Call.coef r' c' v' ∈ calls ++ [.coef r c v] → (g.getRow r').isSome ∧ (g.getColumn c').isSome := by
    intro r' c' v' hm
    rcases List.mem_append.mp hm with hm | hm
    · exact hi.uses r' c' v' hm
    · simp only [List.mem_singleton, Call.coef.injEq] at hm
      obtain ⟨rfl, rfl, rfl⟩ := hm
      rw [h1, h2]; exact ⟨rfl, rfl⟩
  unfold GLPSol.fastAddCoef
  rw [sub_zero]
  split
  · rename_i hv
    have hc : coefficients eps (calls ++ [.coef r c v]) = coefficients eps calls := by
      rw [coefs_append]; simp [coefficients, hv]
    exact ⟨by rw [hrc]; exact hi.rows, hi.rowIdx, hi.rowNodup, by rw [hcc]; exact hi.columns, hi.columnIdx, hi.columnNodup,
      by rw [hc]; exact hi.size, hi.le, by rw [hc]; exact hi.entries, hi.pairs, by rw [hc]; exact hi.distinct, by rw [hc]; exact hi.kept, huses, hi.flags⟩
  · rename_i hv
    have hc : coefficients eps (calls ++ [.coef r c v]) = coefficients eps calls ++ [(r, c, v)] := by
      rw [coefs_append]; simp [coefficients, hv]
    have hkeys := setCoef_keys g.coefs i j v
    have hlen : (setCoef g.coefs i j v).length = if (i, j) ∈ g.coefs.map (fun e => (e.1, e.2.1)) then g.coefs.length else g.coefs.length + 1 := by
      have := congrArg List.length hkeys
      rw [List.length_map] at this
      rw [this]
      split <;> simp
    have hold : (i, j) ∈ g.coefs.map (fun e => (e.1, e.2.1)) ↔ (r, c) ∈ (coefficients eps calls).map fun e => (e.1, e.2.1) := by
      rw [hi.kept, List.mem_map]
      constructor
      · rintro ⟨a, ha, b1, b2⟩
        exact ⟨a, ha, by rw [row_inj hi b1 h1, column_inj hi b2 h2]⟩
      · rintro ⟨a, ha, e⟩
        simp only [Prod.mk.injEq] at e
        exact ⟨a, ha, by rw [e.1]; exact h1, by rw [e.2]; exact h2⟩
    have hle := hi.le
    refine ⟨by rw [hrc]; exact hi.rows, hi.rowIdx, hi.rowNodup, by rw [hcc]; exact hi.columns, hi.columnIdx, hi.columnNodup,
      ?_, ?_, fun h => ?_, ?_, ?_, fun e => ?_, huses, hi.flags⟩
    · rw [hc, List.length_append, ← hi.size]; rfl
    · dsimp only
      rw [hlen]; split <;> omega
    · dsimp only at h ⊢
      rw [hlen] at h
      split at h
      · omega
      · rename_i hn
        rw [hc]
        have hne : setCoef g.coefs i j v = g.coefs ++ [(i, j, v)] := by
          unfold setCoef
          rw [if_neg]
          intro hany
          rw [List.any_eq_true] at hany
          obtain ⟨e, he, h⟩ := hany
          simp only [decide_eq_true_eq] at h
          exact hn (List.mem_map.mpr ⟨e, he, by rw [h.1, h.2]⟩)
        rw [hne]
        refine List.rel_append (R := EntryFor _) ((hi.entries (by omega)).imp fun a e he => he) ?_
        exact List.Forall₂.cons ⟨h1, h2, rfl⟩ List.Forall₂.nil
    · dsimp only
      rw [hkeys]
      split
      · exact hi.pairs
      · rename_i hn
        rw [List.nodup_append]
        refine ⟨hi.pairs, by simp, ?_⟩
        intro a ha b hb e
        simp only [List.mem_singleton] at hb
        subst hb e
        exact hn ha
    · dsimp only
      rw [hlen, hc, List.map_append, List.nodup_append]
      split
      · rename_i hin
        constructor
        · intro h; omega
        · rintro ⟨-, -, h⟩
          exact absurd rfl (h _ (hold.mp hin) _ (by simp))
      · rename_i hn
        rw [show g.coefs.length + 1 = g.size + 1 ↔ g.coefs.length = g.size by omega, hi.distinct]
        constructor
        · intro h
          refine ⟨h, by simp, ?_⟩
          intro a ha b hb e
          simp only [List.map_cons, List.map_nil, List.mem_singleton] at hb
          subst hb e
          exact hn (hold.mpr ha)
        · exact fun h => h.1
    · dsimp only
      rw [hkeys, hc]
      have key : e ∈ (if (i, j) ∈ g.coefs.map (fun e => (e.1, e.2.1)) then g.coefs.map (fun e => (e.1, e.2.1))
          else g.coefs.map (fun e => (e.1, e.2.1)) ++ [(i, j)]) ↔ e ∈ g.coefs.map (fun e => (e.1, e.2.1)) ∨ e = (i, j) := by
        split
        · rename_i hin
          exact ⟨Or.inl, fun h => h.elim id fun h => h ▸ hin⟩
        · simp only [List.mem_append, List.mem_singleton]
      rw [key, hi.kept e]
      show (_ ∨ _) ↔ ∃ a ∈ coefficients eps calls ++ [(r, c, v)], g.getRow a.1 = some e.1 ∧ g.getColumn a.2.1 = some e.2
      constructor
      · rintro (⟨a, ha, b⟩ | rfl)
        · exact ⟨a, List.mem_append_left _ ha, b⟩
        · exact ⟨(r, c, v), by simp, h1, h2⟩
      · rintro ⟨a, ha, b1, b2⟩
        rcases List.mem_append.mp ha with ha | ha
        · exact Or.inl ⟨a, ha, b1, b2⟩
        · simp only [List.mem_singleton] at ha
          subst ha
          rw [h1] at b1; rw [h2] at b2
          cases b1; cases b2
          exact Or.inr rfl

theorem build_snoc (l : List Call) (c : Call) : build eps (l ++ [c]) = (build eps l).bind fun g => g.call eps c := by
  unfold build
  rw [List.foldlM_append]
  simp

theorem build_inv (calls : List Call) : ∀ g : GLPSol, (columnNames calls).Nodup → build eps calls = some g → Inv eps calls g := by
  induction calls using List.reverseRecOn with
  | nil =>
    intro g _ h
    have h : some new = some g := h
    cases h
    exact inv_new eps
  | append_singleton l c ih =>
    intro g hn h
    rw [build_snoc] at h
    obtain ⟨g0, h0, h⟩ := Option.bind_eq_some_iff.mp h
    have hsplit : columnNames (l ++ [c]) = columnNames l ++ columnNames [c] := by unfold columnNames; rw [List.filterMap_append]
    rw [hsplit, List.nodup_append] at hn
    have hi := ih g0 hn.1 h0
    cases c with
    | row s b => exact inv_row hi h
    | column s k b o =>
      refine inv_column hi (fun hm => ?_) h
      exact hn.2.2 s hm s (by simp [columnNames]) rfl
    | coef r c v => exact inv_coef hi h

end

end Kiter.LpB
