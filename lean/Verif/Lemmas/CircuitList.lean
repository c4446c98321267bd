/-
The circuits found by the bufferless mapping: all the circuits, each vertex with those it leads to.
-/
import Verif.Lemmas.CircuitCut
import Verif.Spec.CircuitCut
import Verif.Props.Placement
import Mathlib.Data.Finset.Card
import Mathlib.Data.List.Infix

set_option autoImplicit false

namespace Kiter.Cut

open BMap

/-- The increasing list of the vertices of a path. -/
def sorted (q : List ℕ) : List ℕ := q.insertionSort (· ≤ ·)

/-- The paths `circuits` finds. -/
def paths (cs : List Chan) (start : ℕ) : ℕ → ℕ → List ℕ → List (List ℕ)
  | 0, _, _ => []
  | fuel + 1, node, path =>
    if node ∈ path then (if node = start then [path] else [])
    else (outs cs node).flatMap fun e => paths cs start fuel e.dst (path ++ [node])

theorem foldlM_some {α β : Type} (f : β → α → Option β) (g : β → α → β) (l : List α) (h : ∀ b, ∀ a ∈ l, f b a = some (g b a))
    (b : β) : l.foldlM f b = some (l.foldl g b) := by
  induction l generalizing b with
  | nil => rfl
  | cons a l ih =>
    rw [List.foldlM_cons, h b a List.mem_cons_self]
    exact ih (fun b a ha => h b a (List.mem_cons_of_mem _ ha)) _

theorem foldl_flatMap' {α β γ : Type} (f : γ → β → γ) (g : α → List β) (l : List α) (s : γ) :
    (l.flatMap g).foldl f s = l.foldl (fun s a => (g a).foldl f s) s := by
  induction l generalizing s with
  | nil => rfl
  | cons a l ih => rw [List.flatMap_cons, List.foldl_append, List.foldl_cons, ih]

theorem nodup_short {p vs : List ℕ} (hp : p.Nodup) (h : ∀ v ∈ p, v ∈ vs) : p.length ≤ vs.length := by
  have h1 : p.toFinset ⊆ vs.toFinset := fun v hv => by simpa using h v (by simpa using hv)
  have h2 := Finset.card_le_card h1
  rw [List.toFinset_card_of_nodup hp] at h2
  exact le_trans h2 (List.toFinset_card_le _)

theorem circuits_eq {cs : List Chan} {vs : List ℕ} (hvs : ∀ e ∈ cs, e.dst ∈ vs) (start fuel node : ℕ) (path : List ℕ) (s : Found)
    (hn : node ∈ vs) (hp : path.Nodup) (hpv : ∀ v ∈ path, v ∈ vs) (hf : vs.length < path.length + fuel) :
    circuits cs start fuel node path s = some ((paths cs start fuel node path).foldl (fun s q => found q s) s) := by
  induction fuel generalizing node path s with
  | zero =>
    have := nodup_short hp hpv
    omega
  | succ fuel ih =>
    unfold circuits paths
    by_cases h : node ∈ path
    · rw [if_pos h, if_pos h]
      split <;> rfl
    · rw [if_neg h, if_neg h, foldl_flatMap']
      refine foldlM_some _ _ _ (fun s e he => ?_) s
      refine ih _ _ _ (hvs e (List.mem_of_mem_filter he)) ?_ ?_ ?_
      · exact List.Nodup.append hp (List.nodup_singleton _) (by simpa using h)
      · intro v hv
        rcases List.mem_append.mp hv with hv | hv
        · exact hpv v hv
        · rw [List.mem_singleton.mp hv]
          exact hn
      · rw [List.length_append, List.length_singleton]
        omega

theorem step_outs {cs : List Chan} {a b : ℕ} : Step (outs cs) Chan.dst a b ↔ (a, b) ∈ ends cs := by
  unfold Step outs ends
  simp only [List.mem_filter, decide_eq_true_eq, List.mem_map, Prod.mk.injEq]
  constructor
  · rintro ⟨e, ⟨h1, h2⟩, h3⟩
    exact ⟨e, h1, h2, h3⟩
  · rintro ⟨e, h1, h2, h3⟩
    exact ⟨e, ⟨h1, h2⟩, h3⟩

theorem step_ins {cs : List Chan} {a b : ℕ} : Step (ins cs) Chan.src a b ↔ (b, a) ∈ ends cs := by
  unfold Step ins ends
  simp only [List.mem_filter, decide_eq_true_eq, List.mem_map, Prod.mk.injEq]
  constructor
  · rintro ⟨e, ⟨h1, h2⟩, h3⟩
    exact ⟨e, h1, h3, h2⟩
  · rintro ⟨e, h1, h2, h3⟩
    exact ⟨e, ⟨h1, h3⟩, h2⟩

theorem step_transpose {cs : List Chan} {vs : List ℕ} {a b : ℕ} :
    Step (outs (transpose vs cs)) Chan.dst a b ↔ (b, a) ∈ ends cs ∧ b ∈ vs := by
  unfold Step transpose outs ends
  simp only [List.mem_filter, decide_eq_true_eq, List.mem_map, Prod.mk.injEq, List.mem_flatMap]
  constructor
  · rintro ⟨e, ⟨⟨v, hv, e', ⟨h1, h2⟩, rfl⟩, h3⟩, h4⟩
    simp only at h3 h4
    subst h4
    exact ⟨⟨e', h1, rfl, h3⟩, h2 ▸ hv⟩
  · rintro ⟨⟨e, h1, rfl, rfl⟩, h4⟩
    exact ⟨⟨e.id, e.dst, e.src⟩, ⟨⟨e.src, h4, e, ⟨h1, rfl⟩, rfl⟩, rfl⟩, rfl⟩

theorem leads_outs {cs : List Chan} {a b : ℕ} : Leads (outs cs) Chan.dst a b ↔ Reaches (ends cs) a b := by
  unfold Leads Reaches
  rw [show Step (outs cs) Chan.dst = fun a b => (a, b) ∈ ends cs from funext fun a => funext fun b => propext step_outs]

theorem leads_ins {cs : List Chan} {a b : ℕ} : Leads (ins cs) Chan.src a b ↔ Reaches (ends cs) b a := by
  unfold Leads Reaches
  rw [show Step (ins cs) Chan.src = Function.swap fun a b => (a, b) ∈ ends cs from
    funext fun a => funext fun b => propext step_ins, Relation.reflTransGen_swap]

theorem mem_paths {cs : List Chan} {vs : List ℕ} (hvs : ∀ e ∈ cs, e.dst ∈ vs) {start : ℕ} (fuel node : ℕ) (p q : List ℕ)
    (hn : node ∈ vs) (hp : p.Nodup) (hpv : ∀ v ∈ p, v ∈ vs) (hf : vs.length < p.length + fuel)
    (hs : (p = [] ∧ node = start) ∨ start ∈ p) :
    q ∈ paths cs start fuel node p ↔ ∃ m, q = p ++ m ∧ q.Nodup ∧ (m ++ [start]).IsChain (fun a b => (a, b) ∈ ends cs) ∧
      (m ++ [start]).head? = some node ∧ start ∈ q := by
  induction fuel generalizing node p with
  | zero =>
    have := nodup_short hp hpv
    omega
  | succ fuel ih =>
    unfold paths
    by_cases h : node ∈ p
    · rw [if_pos h]
      constructor
      · intro hq
        split at hq
        · next he =>
          rw [List.mem_singleton] at hq
          subst hq
          exact ⟨[], by simp, hp, by simp, by simp [he], he ▸ h⟩
        · cases hq
      · rintro ⟨m, rfl, h1, h2, h3, h4⟩
        cases m with
        | nil =>
          simp only [List.nil_append, List.head?_cons, Option.some.injEq] at h3
          rw [if_pos h3.symm]
          simp
        | cons x m =>
          simp only [List.cons_append, List.head?_cons, Option.some.injEq] at h3
          subst h3
          exact absurd (List.mem_cons_self) ((List.nodup_append.mp h1).2.2 x h x · rfl)
    · rw [if_neg h, List.mem_flatMap]
      have hp' : (p ++ [node]).Nodup := List.Nodup.append hp (List.nodup_singleton _) (by simpa using h)
      have hpv' : ∀ v ∈ p ++ [node], v ∈ vs := by
        intro v hv
        rcases List.mem_append.mp hv with hv | hv
        · exact hpv v hv
        · rw [List.mem_singleton.mp hv]
          exact hn
      have hf' : vs.length < (p ++ [node]).length + fuel := by
        rw [List.length_append, List.length_singleton]
        omega
      have hs' : start ∈ p ++ [node] := by
        rcases hs with ⟨_, h'⟩ | h'
        · simp [h']
        · simp [h']
      constructor
      · rintro ⟨e, he, hq⟩
        obtain ⟨m, rfl, h1, h2, h3, h4⟩ := (ih e.dst (p ++ [node]) (hvs e (List.mem_of_mem_filter he)) hp' hpv' hf' (Or.inr hs')).mp hq
        refine ⟨node :: m, by simp, h1, ?_, by simp, h4⟩
        rw [List.cons_append, List.isChain_cons]
        refine ⟨fun y hy => ?_, h2⟩
        rw [h3] at hy
        cases hy
        exact step_outs.mp ⟨e, he, rfl⟩
      · rintro ⟨m, rfl, h1, h2, h3, h4⟩
        cases m with
        | nil =>
          simp only [List.nil_append, List.head?_cons, Option.some.injEq] at h3
          subst h3
          rw [List.append_nil] at h4
          exact absurd h4 h
        | cons x m =>
          simp only [List.cons_append, List.head?_cons, Option.some.injEq] at h3
          subst h3
          rw [List.cons_append, List.isChain_cons] at h2
          cases hh : (m ++ [start]).head? with
          | none =>
            rw [List.head?_eq_none_iff] at hh
            simp at hh
          | some y =>
            obtain ⟨e, he, rfl⟩ := step_outs.mpr (h2.1 y hh)
            exact ⟨e, he, (ih e.dst (p ++ [x]) (hvs e (List.mem_of_mem_filter he)) hp' hpv' hf' (Or.inr hs')).mpr
              ⟨m, by simp, h1, h2.2, hh, h4⟩⟩

/-- The paths found from a vertex are the circuits listed from it. -/
theorem mem_paths_start {cs : List Chan} {vs : List ℕ} (hvs : ∀ e ∈ cs, e.dst ∈ vs) {v fuel : ℕ} (hv : v ∈ vs)
    (hf : vs.length < fuel) (q : List ℕ) :
    q ∈ paths cs v fuel v [] ↔ SimpleCircuit (ends cs) q ∧ q.head? = some v := by
  rw [mem_paths hvs fuel v [] q hv List.nodup_nil (by simp) (by simpa using hf) (Or.inl ⟨rfl, rfl⟩)]
  constructor
  · rintro ⟨m, hqm, h1, h2, h3, h4⟩
    rw [List.nil_append] at hqm
    subst hqm
    have hh : q.head? = some v := by
      cases q with
      | nil => cases h4
      | cons x m => simpa using h3
    exact ⟨⟨h1, v, hh, h2⟩, hh⟩
  · rintro ⟨⟨h1, w, h2, h3⟩, h4⟩
    rw [h2] at h4
    cases h4
    refine ⟨q, rfl, h1, h3, ?_, List.mem_of_mem_head? h2⟩
    cases q with
    | nil => cases h2
    | cons x q => simpa using h2

theorem sorted_eq_iff {p q : List ℕ} : sorted p = sorted q ↔ p.Perm q := by
  unfold sorted
  constructor
  · intro h
    have h1 := List.perm_insertionSort (· ≤ ·) p
    rw [h] at h1
    exact h1.symm.trans (List.perm_insertionSort _ q)
  · intro h
    exact List.Perm.eq_of_pairwise (fun a b _ _ h1 h2 => le_antisymm h1 h2) (List.pairwise_insertionSort _ p)
      (List.pairwise_insertionSort _ q)
      (((List.perm_insertionSort _ p).trans h).trans (List.perm_insertionSort _ q).symm)

theorem getElem?_prefix {α : Type} {l m : List α} (h : l <+: m) {i : ℕ} {a : α} (hi : l[i]? = some a) : m[i]? = some a := by
  obtain ⟨k, rfl⟩ := h
  rw [List.getElem?_append_left (List.getElem?_eq_some_iff.mp hi).1]
  exact hi

theorem nodup_index {α : Type} {l : List α} (h : l.Nodup) {i j : ℕ} {a : α} (hi : l[i]? = some a) (hj : l[j]? = some a) : i = j := by
  obtain ⟨h1, h2⟩ := List.getElem?_eq_some_iff.mp hi
  obtain ⟨h3, h4⟩ := List.getElem?_eq_some_iff.mp hj
  exact (List.Nodup.getElem_inj_iff h).mp (h2.trans h4.symm)

/-- One circuit found. -/
theorem found_spec (q : List ℕ) (s : Found) (hn : s.cycles.Nodup) :
    s.cycles <+: (found q s).cycles ∧ (found q s).cycles.Nodup ∧
      (∀ c, c ∈ (found q s).cycles ↔ c ∈ s.cycles ∨ c = sorted q) ∧
      (∀ i, i ∈ (found q s).ids ↔ i ∈ s.ids ∨ (found q s).cycles[i]? = some (sorted q)) := by
  unfold found
  simp only
  cases h : s.cycles.findIdx? fun c => decide (c = q.insertionSort (· ≤ ·)) with
  | some k =>
    rw [List.findIdx?_eq_some_iff_getElem] at h
    obtain ⟨hk, h1, h2⟩ := h
    rw [decide_eq_true_eq] at h1
    have hget : s.cycles[k]? = some (sorted q) := List.getElem?_eq_some_iff.mpr ⟨hk, h1⟩
    refine ⟨List.prefix_refl _, hn, fun c => ⟨Or.inl, ?_⟩, fun i => ?_⟩
    · rintro (h | rfl)
      · exact h
      · exact List.mem_of_getElem? hget
    · have hi : s.cycles[i]? = some (sorted q) ↔ i = k :=
        ⟨fun h => nodup_index hn h hget, fun h => h ▸ hget⟩
      rw [hi]
      show i ∈ (if k ∈ s.ids then s.ids else s.ids ++ [k]) ↔ _
      by_cases hm : k ∈ s.ids
      · rw [if_pos hm]
        constructor
        · exact Or.inl
        · rintro (h | rfl)
          · exact h
          · exact hm
      · rw [if_neg hm]
        simp
  | none =>
    rw [List.findIdx?_eq_none_iff] at h
    have hnew : sorted q ∉ s.cycles := fun hc => by
      have := h _ hc
      simp [sorted] at this
    refine ⟨List.prefix_append _ _, ?_, fun c => ?_, fun i => ?_⟩
    · exact List.Nodup.append hn (List.nodup_singleton _) (by simpa [sorted] using hnew)
    · simp [sorted]
    · rw [List.mem_append, List.mem_singleton]
      have hi : (s.cycles ++ [q.insertionSort (· ≤ ·)])[i]? = some (sorted q) ↔ i = s.cycles.length := by
        constructor
        · intro hg
          by_contra hne
          by_cases hlt : i < s.cycles.length
          · rw [List.getElem?_append_left hlt] at hg
            exact hnew (List.mem_of_getElem? hg)
          · have := (List.getElem?_eq_some_iff.mp hg).1
            rw [List.length_append, List.length_singleton] at this
            omega
        · rintro rfl
          rw [List.getElem?_append_right le_rfl]
          simp [sorted]
      rw [hi]

/-- The circuits of a list, found one after the other. -/
theorem found_all (Q : List (List ℕ)) (s : Found) (hn : s.cycles.Nodup) :
    s.cycles <+: (Q.foldl (fun s q => found q s) s).cycles ∧ (Q.foldl (fun s q => found q s) s).cycles.Nodup ∧
      (∀ c, c ∈ (Q.foldl (fun s q => found q s) s).cycles ↔ c ∈ s.cycles ∨ ∃ q ∈ Q, c = sorted q) ∧
      (∀ i, i ∈ (Q.foldl (fun s q => found q s) s).ids ↔
        i ∈ s.ids ∨ ∃ q ∈ Q, (Q.foldl (fun s q => found q s) s).cycles[i]? = some (sorted q)) := by
  induction Q generalizing s with
  | nil => exact ⟨List.prefix_refl _, hn, by simp, by simp⟩
  | cons q Q ih =>
    rw [List.foldl_cons]
    obtain ⟨a1, a2, a3, a4⟩ := found_spec q s hn
    obtain ⟨b1, b2, b3, b4⟩ := ih (found q s) a2
    refine ⟨a1.trans b1, b2, fun c => ?_, fun i => ?_⟩
    · rw [b3, a3]
      simp only [List.mem_cons, exists_eq_or_imp]
      tauto
    · rw [b4, a4]
      have hin : sorted q ∈ (found q s).cycles := (a3 _).mpr (Or.inr rfl)
      obtain ⟨j, hj⟩ := List.mem_iff_getElem?.mp hin
      have hj' := getElem?_prefix b1 hj
      have : (found q s).cycles[i]? = some (sorted q) ↔ (Q.foldl (fun s q => found q s) (found q s)).cycles[i]? = some (sorted q) := by
        constructor
        · exact fun h => getElem?_prefix b1 h
        · intro h
          rw [nodup_index b2 h hj']
          exact hj
      rw [this]
      simp only [List.mem_cons, exists_eq_or_imp]
      tauto

theorem mem_insertAll (l new : List ℕ) (i : ℕ) : i ∈ insertAll l new ↔ i ∈ l ∨ i ∈ new := by
  unfold insertAll
  induction new generalizing l with
  | nil => simp
  | cons a new ih =>
    rw [List.foldl_cons, ih]
    split
    · next h =>
      constructor
      · rintro (h' | h')
        · exact Or.inl h'
        · exact Or.inr (List.mem_cons_of_mem _ h')
      · rintro (h' | h')
        · exact Or.inl h'
        · rcases List.mem_cons.mp h' with rfl | h'
          · exact Or.inl h
          · exact Or.inr h'
    · simp only [List.mem_append, List.mem_cons]
      tauto

theorem nodup_insertAll (l new : List ℕ) (h : l.Nodup) : (insertAll l new).Nodup := by
  unfold insertAll
  induction new generalizing l with
  | nil => exact h
  | cons a new ih =>
    rw [List.foldl_cons]
    refine ih _ ?_
    split
    · exact h
    · next hn => exact List.Nodup.append h (List.nodup_singleton _) (by simpa using hn)

/-- What is written for the vertices entered. -/
theorem fold_enter (ids : List ℕ) (T : List Event) (c : ℕ → List ℕ) (hn : (entered T).Nodup) (w : ℕ) :
    T.foldl (act (fun w (c : ℕ → List ℕ) => Function.update c w (insertAll (c w) ids)) (fun _ c => c) (fun _ c => c)) c w =
      if w ∈ entered T then insertAll (c w) ids else c w := by
  induction T generalizing c with
  | nil => simp [entered]
  | cons x T ih =>
    rw [List.foldl_cons]
    cases x with
    | enter v =>
      have he : entered (Event.enter v :: T) = v :: entered T := by simp [entered]
      rw [he] at hn ⊢
      rw [List.nodup_cons] at hn
      rw [ih _ hn.2]
      simp only [act, List.mem_cons]
      by_cases hw : w = v
      · subst hw
        rw [if_neg hn.1, if_pos (Or.inl rfl), Function.update_self]
      · rw [Function.update_of_ne hw]
        simp [hw]
    | seen e =>
      have he : entered (Event.seen e :: T) = entered T := by simp [entered]
      rw [he] at hn ⊢
      exact ih _ hn
    | leave v =>
      have he : entered (Event.leave v :: T) = entered T := by simp [entered]
      rw [he] at hn ⊢
      exact ih _ hn

/-- A search from nothing marked marks what can be reached. -/
theorem visits_all {σ : Type} {next : ℕ → List Chan} {far : Chan → ℕ} {enter : ℕ → σ → σ} {seen : Chan → σ → σ}
    {leave : ℕ → σ → σ} {X : List Chan} {s r : (ℕ → Bool) × σ} {L : List ℕ} {T : List Event}
    (h : Visits next far enter seen leave X s r L T) (hs : ∀ y z, s.1 y = true → Step next far y z → s.1 z = true) {v w : ℕ}
    (hv : r.1 v = true) (hw : Leads next far v w) : r.1 w = true := by
  induction hw with
  | refl => exact hv
  | tail _ h2 ih =>
    rcases (h.mark _).mp ih with h3 | h3
    · exact (h.mark _).mpr (Or.inl (hs _ _ h3 h2))
    · obtain ⟨e, he, rfl⟩ := h2
      exact h.closed _ h3 e he

/-- What is known after the vertices `P` have been treated. -/
structure Known (cs : List Chan) (P : ℕ → Prop) (c : Circuits) : Prop where
  nodup : c.cycles.Nodup
  real : ∀ t ∈ c.cycles, ∃ q, SimpleCircuit (ends cs) q ∧ t = sorted q
  all : ∀ q v, SimpleCircuit (ends cs) q → q.head? = some v → P v → sorted q ∈ c.cycles
  once : ∀ w, (c.of w).Nodup
  of : ∀ w i, i ∈ c.of w ↔ ∃ v q, P v ∧ Reaches (ends cs) w v ∧ SimpleCircuit (ends cs) q ∧ q.head? = some v ∧
    c.cycles[i]? = some (sorted q)

theorem treat_known {cs : List Chan} {vs : List ℕ} (hvs : ∀ e ∈ cs, e.src ∈ vs ∧ e.dst ∈ vs) {fuel v : ℕ} (hv : v ∈ vs)
    (hf : vs.length < fuel) {P : ℕ → Prop} {c : Circuits} (h : Known cs P c) :
    ∃ c', treat cs fuel c v = some c' ∧ Known cs (fun w => P w ∨ w = v) c' := by
  unfold treat
  rw [circuits_eq (fun e he => (hvs e he).2) v fuel v [] ⟨c.cycles, []⟩ hv List.nodup_nil (by simp) (by simpa using hf)]
  obtain ⟨f1, f2, f3, f4⟩ := found_all (paths cs v fuel v []) ⟨c.cycles, []⟩ h.nodup
  set f := (paths cs v fuel v []).foldl (fun s q => found q s) ⟨c.cycles, []⟩ with hfd
  have hp := mem_paths_start (fun e he => (hvs e he).2) hv hf
  rw [Option.bind_some]
  obtain ⟨r, L, T, g1, g2, g3, g4⟩ := dfs_visits (next := ins cs) (far := Chan.src)
    (enter := fun w (c : ℕ → List ℕ) => Function.update c w (insertAll (c w) f.ids)) (seen := fun _ c => c) (leave := fun _ c => c)
    (vs := vs) (fun v _ e he => (hvs e (List.mem_of_mem_filter he)).1) fuel v (fun _ => false, c.of) hv rfl
    (le_trans (unmarked_le _ _) hf.le)
  rw [g1]
  refine ⟨⟨f.cycles, r.2⟩, rfl, ?_⟩
  have hL : ∀ w, w ∈ entered T ↔ Reaches (ends cs) w v := by
    intro w
    rw [g2.ins.mem_iff]
    constructor
    · exact fun hw => leads_ins.mp (g4 w hw)
    · intro hw
      have := visits_all g2 (fun y z hy => by cases hy) ((g2.mark v).mpr (Or.inr g3)) (leads_ins.mpr hw)
      rcases (g2.mark w).mp this with h' | h'
      · cases h'
      · exact h'
  have hof : ∀ w, r.2 w = if w ∈ entered T then insertAll (c.of w) f.ids else c.of w := by
    intro w
    rw [g2.state]
    exact fold_enter f.ids T c.of (g2.ins.nodup_iff.mpr g2.nodup) w
  refine ⟨f2, fun t ht => ?_, fun q u hq hu hP => ?_, fun w => ?_, fun w i => ?_⟩
  · rcases (f3 t).mp ht with h1 | ⟨q, h1, h2⟩
    · exact h.real t h1
    · exact ⟨q, ((hp q).mp h1).1, h2⟩
  · rcases hP with hP | rfl
    · exact (f3 _).mpr (Or.inl (h.all q u hq hu hP))
    · exact (f3 _).mpr (Or.inr ⟨q, (hp q).mpr ⟨hq, hu⟩, rfl⟩)
  · show (r.2 w).Nodup
    rw [hof]
    split
    · exact nodup_insertAll _ _ (h.once w)
    · exact h.once w
  · show i ∈ r.2 w ↔ ∃ u q, (P u ∨ u = v) ∧ Reaches (ends cs) w u ∧ SimpleCircuit (ends cs) q ∧ q.head? = some u ∧
      f.cycles[i]? = some (sorted q)
    have old : i ∈ c.of w ↔ ∃ u q, P u ∧ Reaches (ends cs) w u ∧ SimpleCircuit (ends cs) q ∧ q.head? = some u ∧
        f.cycles[i]? = some (sorted q) := by
      rw [h.of]
      constructor
      · rintro ⟨u, q, a1, a2, a3, a4, a5⟩
        exact ⟨u, q, a1, a2, a3, a4, getElem?_prefix f1 a5⟩
      · rintro ⟨u, q, a1, a2, a3, a4, a5⟩
        obtain ⟨j, hj⟩ := List.mem_iff_getElem?.mp (h.all q u a3 a4 a1)
        have := nodup_index f2 a5 (getElem?_prefix f1 hj)
        subst this
        exact ⟨u, q, a1, a2, a3, a4, hj⟩
    have new : i ∈ f.ids ↔ ∃ q, SimpleCircuit (ends cs) q ∧ q.head? = some v ∧ f.cycles[i]? = some (sorted q) := by
      rw [f4]
      constructor
      · rintro (h' | ⟨q, h1, h2⟩)
        · cases h'
        · exact ⟨q, ((hp q).mp h1).1, ((hp q).mp h1).2, h2⟩
      · rintro ⟨q, h1, h2, h3⟩
        exact Or.inr ⟨q, (hp q).mpr ⟨h1, h2⟩, h3⟩
    rw [hof]
    by_cases hw : w ∈ entered T
    · rw [if_pos hw, mem_insertAll, old, new]
      constructor
      · rintro (⟨u, q, a1, a2⟩ | ⟨q, a1, a2, a3⟩)
        · exact ⟨u, q, Or.inl a1, a2⟩
        · exact ⟨v, q, Or.inr rfl, (hL w).mp hw, a1, a2, a3⟩
      · rintro ⟨u, q, a1 | rfl, a2, a3, a4, a5⟩
        · exact Or.inl ⟨u, q, a1, a2, a3, a4, a5⟩
        · exact Or.inr ⟨q, a3, a4, a5⟩
    · rw [if_neg hw, old]
      constructor
      · rintro ⟨u, q, a1, a2⟩
        exact ⟨u, q, Or.inl a1, a2⟩
      · rintro ⟨u, q, a1 | rfl, a2, a3⟩
        · exact ⟨u, q, a1, a2, a3⟩
        · exact absurd ((hL w).mpr a2) hw

theorem treat_all {cs : List Chan} {vs : List ℕ} (hvs : ∀ e ∈ cs, e.src ∈ vs ∧ e.dst ∈ vs) {fuel : ℕ} (hf : vs.length < fuel)
    (l : List ℕ) (hl : ∀ v ∈ l, v ∈ vs) {P : ℕ → Prop} {c : Circuits} (h : Known cs P c) :
    ∃ c', l.foldlM (treat cs fuel) c = some c' ∧ Known cs (fun w => P w ∨ w ∈ l) c' := by
  induction l generalizing c P with
  | nil => exact ⟨c, rfl, by simpa using h⟩
  | cons v l ih =>
    obtain ⟨c1, h1, h2⟩ := treat_known hvs (hl v List.mem_cons_self) hf h
    obtain ⟨c2, h3, h4⟩ := ih (fun w hw => hl w (List.mem_cons_of_mem _ hw)) h2
    rw [List.foldlM_cons, h1]
    refine ⟨c2, h3, ?_⟩
    have : (fun w => (P w ∨ w = v) ∨ w ∈ l) = fun w => P w ∨ w ∈ v :: l := by
      funext w
      rw [List.mem_cons, or_assoc]
    rwa [this] at h4

theorem fold_traversal (T : List Event) (l : List ℕ) :
    T.foldl (act (fun v (l : List ℕ) => l ++ [v]) (fun _ l => l) (fun _ l => l)) l = l ++ entered T := by
  induction T generalizing l with
  | nil => simp [entered]
  | cons x T ih =>
    rw [List.foldl_cons, ih]
    cases x <;> simp [entered, act]

/-- Between two vertices of the stack: the marked vertices are closed under predecessors, and those with a predecessor
that comes back to them have been treated. -/
structure Scanned (cs : List Chan) (s : (ℕ → Bool) × Circuits) : Prop where
  known : ∃ P, Known cs P s.2 ∧ ∀ x, s.1 x = true → (∃ y, y ≠ x ∧ (y, x) ∈ ends cs ∧ Reaches (ends cs) x y) → P x
  closed : ∀ y z, s.1 y = true → (z, y) ∈ ends cs → s.1 z = true

theorem closed_reaches {cs : List Chan} {m : ℕ → Bool} (h : ∀ y z, m y = true → (z, y) ∈ ends cs → m z = true) {a b : ℕ}
    (hb : m b = true) (hr : Reaches (ends cs) a b) : m a = true := by
  induction hr using Relation.ReflTransGen.head_induction_on with
  | refl => exact hb
  | head h1 _ ih => exact h _ _ ih h1

theorem component_scanned {cs : List Chan} {vs : List ℕ} (hvs : ∀ e ∈ cs, e.src ∈ vs ∧ e.dst ∈ vs) {fuel v : ℕ} (hv : v ∈ vs)
    (hf : vs.length < fuel) {s : (ℕ → Bool) × Circuits} (h : Scanned cs s) :
    ∃ s', component vs cs fuel s v = some s' ∧ Scanned cs s' ∧ s'.1 v = true ∧ ∀ y, s.1 y = true → s'.1 y = true := by
  unfold component
  by_cases hm : s.1 v = true
  · rw [if_pos hm]
    exact ⟨s, rfl, h, hm, fun _ h => h⟩
  rw [if_neg hm]
  have hend : ∀ {a b}, (a, b) ∈ ends cs → a ∈ vs ∧ b ∈ vs := by
    intro a b hab
    obtain ⟨e, he, h'⟩ := List.mem_map.mp hab
    simp only [Prod.mk.injEq] at h'
    exact ⟨h'.1 ▸ (hvs e he).1, h'.2 ▸ (hvs e he).2⟩
  obtain ⟨r, L, T, g1, g2, g3, g4⟩ := dfs_visits (next := outs (transpose vs cs)) (far := Chan.dst)
    (enter := fun v (l : List ℕ) => l ++ [v]) (seen := fun _ l => l) (leave := fun _ l => l)
    (vs := vs) (fun v _ e he => (step_transpose.mp ⟨e, he, rfl⟩).2) fuel v (s.1, ([] : List ℕ)) hv (by simpa using hm)
    (le_trans (unmarked_le _ _) hf.le)
  rw [g1, Option.bind_some]
  have htrav : r.2 = entered T := by
    rw [g2.state]
    exact fold_traversal T []
  have hperm : (r.2).Perm L := htrav ▸ g2.ins
  have hclosed : ∀ y z, r.1 y = true → (z, y) ∈ ends cs → r.1 z = true := by
    intro y z hy hz
    rcases (g2.mark y).mp hy with h1 | h1
    · exact (g2.mark z).mpr (Or.inl (h.closed y z h1 hz))
    · obtain ⟨e, he, rfl⟩ := step_transpose.mpr ⟨hz, (hend hz).1⟩
      exact g2.closed y h1 e he
  have hLvs : ∀ y ∈ r.2, y ∈ vs := by
    intro y hy
    have := g4 y (hperm.mem_iff.mp hy)
    rcases Relation.ReflTransGen.cases_tail this with h1 | ⟨z, _, h1⟩
    · exact h1 ▸ hv
    · exact (step_transpose.mp h1).2
  have hbig : ∀ x ∈ L, (∃ y, y ≠ x ∧ (y, x) ∈ ends cs ∧ Reaches (ends cs) x y) → r.2.length > 1 := by
    rintro x hx ⟨y, hne, hyx, hxy⟩
    have hy : y ∈ L := by
      rcases (g2.mark y).mp (hclosed x y ((g2.mark x).mpr (Or.inr hx)) hyx) with h1 | h1
      · have h2 := closed_reaches h.closed h1 hxy
        have h3 : s.1 x = false := g2.fresh x hx
        rw [h2] at h3
        cases h3
      · exact h1
    rw [hperm.length_eq]
    have : [x, y].length ≤ L.length := nodup_short (by simpa using Ne.symm hne) (by
      intro z hz
      rcases List.mem_cons.mp hz with rfl | hz
      · exact hx
      · rw [List.mem_singleton.mp hz]
        exact hy)
    exact this
  obtain ⟨P, hP, hPx⟩ := h.known
  by_cases hlen : r.2.length > 1
  · rw [if_pos hlen]
    obtain ⟨c', h1, h2⟩ := treat_all hvs hf r.2 hLvs hP
    rw [h1]
    refine ⟨(r.1, c'), rfl, ⟨⟨_, h2, fun x hx hb => ?_⟩, hclosed⟩, (g2.mark v).mpr (Or.inr g3),
      fun y hy => (g2.mark y).mpr (Or.inl hy)⟩
    rcases (g2.mark x).mp hx with h3 | h3
    · exact Or.inl (hPx x h3 hb)
    · exact Or.inr (hperm.mem_iff.mpr h3)
  · rw [if_neg hlen]
    refine ⟨(r.1, s.2), rfl, ⟨⟨P, hP, fun x hx hb => ?_⟩, hclosed⟩, (g2.mark v).mpr (Or.inr g3),
      fun y hy => (g2.mark y).mpr (Or.inl hy)⟩
    rcases (g2.mark x).mp hx with h3 | h3
    · exact hPx x h3 hb
    · exact absurd (hbig x h3 hb) hlen

theorem components_scanned {cs : List Chan} {vs : List ℕ} (hvs : ∀ e ∈ cs, e.src ∈ vs ∧ e.dst ∈ vs) {fuel : ℕ}
    (hf : vs.length < fuel) (l : List ℕ) (hl : ∀ v ∈ l, v ∈ vs) {s : (ℕ → Bool) × Circuits} (h : Scanned cs s) :
    ∃ s', l.foldlM (component vs cs fuel) s = some s' ∧ Scanned cs s' ∧ (∀ v ∈ l, s'.1 v = true) ∧
      ∀ y, s.1 y = true → s'.1 y = true := by
  induction l generalizing s with
  | nil => exact ⟨s, rfl, h, by simp, fun _ h => h⟩
  | cons v l ih =>
    obtain ⟨s1, h1, h2, h3, h4⟩ := component_scanned hvs (hl v List.mem_cons_self) hf h
    obtain ⟨s2, h5, h6, h7, h8⟩ := ih (fun w hw => hl w (List.mem_cons_of_mem _ hw)) h2
    rw [List.foldlM_cons, h1]
    refine ⟨s2, h5, h6, fun w hw => ?_, fun y hy => h8 y (h4 y hy)⟩
    rcases List.mem_cons.mp hw with rfl | hw
    · exact h8 _ h3
    · exact h7 w hw

theorem fold_stack (T : List Event) (l : List ℕ) :
    T.foldl (act (fun _ l => l) (fun _ l => l) (fun v (l : List ℕ) => v :: l)) l = (left T).reverse ++ l := by
  induction T generalizing l with
  | nil => simp [left]
  | cons x T ih =>
    rw [List.foldl_cons, ih]
    cases x <;> simp [left, act]

/-- A vertex of a circuit that is not a self-loop has a predecessor, not itself, which it leads to. -/
theorem circuit_back {cs : List Chan} (hself : ∀ e ∈ cs, e.src ≠ e.dst) {q : List ℕ} {v : ℕ} (hq : SimpleCircuit (ends cs) q)
    (hv : q.head? = some v) : ∃ y, y ≠ v ∧ (y, v) ∈ ends cs ∧ Reaches (ends cs) v y := by
  obtain ⟨hn, w, hw, hc⟩ := hq
  rw [hv] at hw
  cases hw
  have hne : q ≠ [] := by
    rintro rfl
    cases hv
  rw [List.isChain_append] at hc
  obtain ⟨h1, _, h2⟩ := hc
  have hlast : (q.getLast hne, v) ∈ ends cs := h2 _ (List.getLast?_eq_some_getLast hne) v rfl
  refine ⟨q.getLast hne, fun h => ?_, hlast, ?_⟩
  · obtain ⟨e, he, h'⟩ := List.mem_map.mp hlast
    simp only [Prod.mk.injEq] at h'
    exact hself e he (h'.1.trans (h.trans h'.2.symm))
  · cases q with
    | nil => cases hv
    | cons x q =>
      simp only [List.head?_cons, Option.some.injEq] at hv
      subst hv
      exact List.relationReflTransGen_of_exists_isChain_cons q h1 rfl

/-- `v` leads to `u` by distinct vertices. -/
theorem simple_path {edges : List (ℕ × ℕ)} {a b : ℕ} (h : Reaches edges a b) :
    ∃ q : List ℕ, q.Nodup ∧ q.head? = some a ∧ q.getLast? = some b ∧ q.IsChain fun a b => (a, b) ∈ edges := by
  induction h using Relation.ReflTransGen.head_induction_on with
  | refl => exact ⟨[b], List.nodup_singleton b, rfl, rfl, List.isChain_singleton b⟩
  | @head a c h1 _ ih =>
    obtain ⟨q, h2, h3, h4, h5⟩ := ih
    by_cases ha : a ∈ q
    · obtain ⟨l₁, l₂, rfl⟩ := List.append_of_mem ha
      refine ⟨a :: l₂, (List.nodup_append.mp h2).2.1, rfl, ?_, (List.isChain_append.mp h5).2.1⟩
      rw [List.getLast?_append_of_ne_nil _ (by simp)] at h4
      exact h4
    · have hne : q ≠ [] := by
        rintro rfl
        cases h3
      refine ⟨a :: q, List.nodup_cons.mpr ⟨ha, h2⟩, rfl, ?_, ?_⟩
      · rw [List.getLast?_cons, h4]
        rfl
      · rw [List.isChain_cons]
        refine ⟨fun y hy => ?_, h5⟩
        rw [h3] at hy
        cases hy
        exact h1

/-- A way back makes a circuit. -/
theorem circuit_of_back {edges : List (ℕ × ℕ)} {a b : ℕ} (h : Reaches edges a b) (hb : (b, a) ∈ edges) :
    ∃ q, SimpleCircuit edges q ∧ q.head? = some a := by
  obtain ⟨q, h1, h2, h3, h4⟩ := simple_path h
  refine ⟨q, ⟨h1, a, h2, ?_⟩, h2⟩
  rw [List.isChain_append]
  refine ⟨h4, List.isChain_singleton a, fun x hx y hy => ?_⟩
  rw [h3] at hx
  cases hx
  simp only [List.head?_cons, Option.mem_def, Option.some.injEq] at hy
  subst hy
  exact hb

theorem reaches_inside {cs : List Chan} {q : List ℕ} {v w : ℕ} (hq : SimpleCircuit (ends cs) q) (hv : q.head? = some v)
    (hw : w ∈ q) : Reaches (ends cs) w v := by
  obtain ⟨_, u, hu, hc⟩ := hq
  rw [hv] at hu
  cases hu
  obtain ⟨l₁, l₂, rfl⟩ := List.append_of_mem hw
  rw [List.append_assoc, List.isChain_append] at hc
  have := hc.2.1
  rw [List.cons_append] at this
  exact List.relationReflTransGen_of_exists_isChain_cons _ this (by simp)

theorem toFinset_sorted {p q : List ℕ} (hp : p.Nodup) (hq : q.Nodup) : p.toFinset = q.toFinset ↔ sorted p = sorted q := by
  rw [sorted_eq_iff]
  exact ⟨fun h => (List.perm_ext_iff_of_nodup hp hq).mpr fun a => by rw [← List.mem_toFinset, h, List.mem_toFinset],
    List.toFinset_eq_of_perm _ _⟩

theorem lengths_ok {vs : List ℕ} {cs : List Chan} {start : ℕ} (hvs : ∀ e ∈ cs, e.src ∈ vs ++ [start] ∧ e.dst ∈ vs ++ [start])
    (hself : ∀ e ∈ cs, e.src ≠ e.dst) :
    ∃ f, circuitLengths vs cs start = some f ∧ ∀ v, (f v).Pairwise (· ≤ ·) ∧
      ∃ C : Finset (Finset ℕ), (∀ c, c ∈ C ↔ CircuitFrom (ends cs) v c) ∧ (f v : Multiset ℕ) = C.val.map Finset.card := by
  have hlen : (vs ++ [start]).length < vs.length + 3 := by simp
  unfold circuitLengths fillOrder
  obtain ⟨r, L, T, g1, g2, g3, g5⟩ := dfsAll_visits (next := outs cs) (far := Chan.dst) (enter := fun _ (s : List ℕ) => s)
    (seen := fun _ s => s) (leave := fun v s => v :: s) (vs := vs ++ [start])
    (fun v _ e he => (hvs e (List.mem_of_mem_filter he)).2) (vs.length + 3) hlen.le (start :: vs) (by
      intro v hv
      rcases List.mem_cons.mp hv with rfl | hv
      · simp
      · simp [hv]) (fun _ => false, [])
  simp only
  rw [g1]
  have hstack : r.2 = L.reverse := by
    rw [g2.state, fold_stack, g2.outs]
    simp
  have hmem : ∀ v ∈ vs ++ [start], v ∈ r.2 := by
    intro v hv
    have : r.1 v = true := g3 v (by
      rcases List.mem_append.mp hv with hv | hv
      · exact List.mem_cons_of_mem _ hv
      · rw [List.mem_singleton.mp hv]
        exact List.mem_cons_self)
    rcases (g2.mark v).mp this with h | h
    · cases h
    · rw [hstack]
      exact List.mem_reverse.mpr h
  obtain ⟨s, k1, k2, k3, _⟩ := components_scanned (vs := vs ++ [start]) hvs hlen r.2 (fun v hv => g5 v (by
    rw [hstack] at hv
    exact List.mem_reverse.mp hv)) (s := (fun _ => false, ⟨[], fun _ => []⟩)) ⟨⟨fun _ => False, ⟨List.nodup_nil, (fun t ht => by cases ht),
      (fun q v _ _ h => h.elim), fun w => List.nodup_nil, fun w i => ⟨(fun h => by cases h), fun ⟨_, _, h, _⟩ => h.elim⟩⟩,
      fun x hx => by cases hx⟩, fun y z hy => by cases hy⟩
  rw [Option.map_some, Option.bind_some, k1, Option.map_some]
  refine ⟨_, rfl, fun v => ⟨List.pairwise_insertionSort _ _, ?_⟩⟩
  obtain ⟨P, hP, hPx⟩ := k2.known
  have hhead : ∀ q u, SimpleCircuit (ends cs) q → q.head? = some u → P u := by
    intro q u hq hu
    obtain ⟨y, y1, y2, y3⟩ := circuit_back hself hq hu
    refine hPx u (k3 u (hmem u ?_)) ⟨y, y1, y2, y3⟩
    obtain ⟨e, he, h'⟩ := List.mem_map.mp y2
    simp only [Prod.mk.injEq] at h'
    exact h'.2 ▸ (hvs e he).2
  have hof : ∀ i, i ∈ s.2.of v ↔ ∃ q u, SimpleCircuit (ends cs) q ∧ q.head? = some u ∧ Reaches (ends cs) v u ∧
      s.2.cycles[i]? = some (sorted q) := by
    intro i
    rw [hP.of]
    constructor
    · rintro ⟨u, q, _, a2, a3, a4, a5⟩
      exact ⟨q, u, a3, a4, a2, a5⟩
    · rintro ⟨q, u, a1, a2, a3, a4⟩
      exact ⟨u, q, hhead q u a1 a2, a3, a1, a2, a4⟩
  let D := (s.2.of v).map fun i => (s.2.cycles.getD i []).toFinset
  have hget : ∀ i q, s.2.cycles[i]? = some (sorted q) → s.2.cycles.getD i [] = sorted q := by
    intro i q h
    rw [List.getD_eq_getElem?_getD, h]
    rfl
  have hsn : ∀ q : List ℕ, q.Nodup → (sorted q).Nodup := fun q h => (List.perm_insertionSort _ q).nodup_iff.mpr h
  have hsf : ∀ q : List ℕ, (sorted q).toFinset = q.toFinset := fun q => List.toFinset_eq_of_perm _ _ (List.perm_insertionSort _ q)
  have hD : D.Nodup := by
    refine List.Nodup.map_on (fun i hi j hj hij => ?_) (hP.once v)
    obtain ⟨q, _, a1, _, _, a4⟩ := (hof i).mp hi
    obtain ⟨q', _, b1, _, _, b4⟩ := (hof j).mp hj
    rw [hget i q a4, hget j q' b4, hsf, hsf, toFinset_sorted a1.1 b1.1] at hij
    rw [hij] at a4
    exact nodup_index hP.nodup a4 b4
  refine ⟨D.toFinset, fun c => ?_, ?_⟩
  · rw [List.mem_toFinset, List.mem_map]
    constructor
    · rintro ⟨i, hi, rfl⟩
      obtain ⟨q, u, a1, a2, a3, a4⟩ := (hof i).mp hi
      rw [hget i q a4, hsf]
      exact ⟨q, a1, rfl, u, List.mem_of_mem_head? a2, a3⟩
    · rintro ⟨q, a1, rfl, w, hw, hr⟩
      obtain ⟨u, hu, _⟩ := a1.2
      obtain ⟨i, hi⟩ := List.mem_iff_getElem?.mp (hP.all q u a1 hu (hhead q u a1 hu))
      refine ⟨i, (hof i).mpr ⟨q, u, a1, hu, hr.trans (reaches_inside a1 hu hw), hi⟩, ?_⟩
      rw [hget i q hi, hsf]
  · rw [List.toFinset_val, hD.dedup, Multiset.map_coe, Multiset.coe_eq_coe]
    refine (List.perm_insertionSort _ _).trans ?_
    rw [List.map_map]
    refine List.Perm.of_eq (List.map_congr_left fun i hi => ?_)
    obtain ⟨q, _, a1, _, _, a4⟩ := (hof i).mp hi
    rw [Function.comp, hget i q a4, List.toFinset_card_of_nodup (hsn q a1.1)]

end Kiter.Cut
