/-
Property C127: the drawing of a mapped graph on its network.
-/
import Verif.Model.NoCDraw
import Verif.Props.NoC
import Verif.Props.Text
import Mathlib.Data.List.Nodup
import Mathlib.Data.List.Perm.Subperm
import Mathlib.Algebra.Order.Floor.Ring
import Mathlib.Tactic.Linarith
import Mathlib.Tactic.FieldSimp
import Mathlib.Tactic.Ring
import Mathlib.Tactic.IntervalCases

set_option autoImplicit false

namespace Kiter.NoCDraw
open Kiter.NoC Kiter.Text

/-! ### The links -/

/-- Specification: the colours of a link when channel `c` has colour `colourOf c`: for the channels in order, the colour of
the channel as many times as its route passes the link. -/
def coloursOn (chans : List Chan) (colourOf : ℕ → String) (id : Int) : List String :=
  chans.zipIdx.flatMap fun p => List.replicate (p.1.route.count id) (colourOf p.2)

theorem usage_colours (chans : List Chan) (f : ℕ → String) (id : Int) :
    (usage chans id).map f = coloursOn chans f id := by
  unfold usage coloursOn
  rw [List.map_flatMap]
  congr 1
  funext p
  rw [List.map_map]
  have h : (f ∘ fun _ : Int => p.2) = fun _ => f p.2 := rfl
  rw [h, List.map_const', List.count_eq_length_filter]
  congr 2

/-- The colours given are the first of the palette, to different channels with a route. -/
structure Inv (used : List ℕ) (s : Colours) : Prop where
  keys : (s.map Prod.fst).Nodup
  sub : ∀ c ∈ s.map Prod.fst, c ∈ used
  cols : s.map Prod.snd = ((List.range s.length).map fun j => palette.getD (j % palette.length) "").reverse

/-- No colour is changed. -/
def Ext (s s' : Colours) : Prop := ∀ c k, s.lookup c = some k → s'.lookup c = some k

theorem lookup_none {s : Colours} {c : ℕ} (h : s.lookup c = none) : c ∉ s.map Prod.fst := by
  intro hc
  obtain ⟨p, hp, rfl⟩ := List.mem_map.mp hc
  rw [List.lookup_eq_none_iff] at h
  have := h p hp
  simp at this

theorem lookup_mem {s : Colours} {c : ℕ} {k : String} (h : s.lookup c = some k) : (c, k) ∈ s := by
  induction s with
  | nil => cases h
  | cons p s ih =>
    obtain ⟨a, b⟩ := p
    rw [List.lookup_cons] at h
    by_cases hc : c = a
    · subst hc
      simp only [beq_self_eq_true] at h
      obtain rfl := Option.some.inj h
      exact List.mem_cons_self
    · have : (c == a) = false := by simpa using hc
      rw [this] at h
      exact List.mem_cons_of_mem _ (ih h)

theorem colourStep_spec {used : List ℕ} {s : Colours × List String} (hs : Inv used s.1) {c : ℕ} (hc : c ∈ used) :
    Inv used (colourStep s c).1 ∧ Ext s.1 (colourStep s c).1 ∧
    ∃ k, (colourStep s c).1.lookup c = some k ∧ (colourStep s c).2 = s.2 ++ [k] := by
  unfold colourStep
  split
  · rename_i k h
    exact ⟨hs, fun _ _ h => h, k, h, rfl⟩
  · rename_i h
    refine ⟨⟨?_, ?_, ?_⟩, ?_, _, ?_, rfl⟩
    · exact List.nodup_cons.mpr ⟨lookup_none h, hs.keys⟩
    · intro x hx
      rcases List.mem_cons.mp hx with rfl | hx
      · exact hc
      · exact hs.sub x hx
    · rw [List.map_cons, hs.cols, List.length_cons, List.range_succ, List.map_append, List.reverse_append]
      rfl
    · intro x k hx
      have hne : x ≠ c := by
        rintro rfl
        rw [h] at hx
        cases hx
      rw [List.lookup_cons]
      have : (x == c) = false := by simpa using hne
      rw [this]
      exact hx
    · simp

theorem colours_fold {used : List ℕ} : ∀ (l : List ℕ) (s : Colours × List String), Inv used s.1 → (∀ c ∈ l, c ∈ used) →
    Inv used (l.foldl colourStep s).1 ∧ Ext s.1 (l.foldl colourStep s).1 ∧
    (∀ c ∈ l, ∃ k, (l.foldl colourStep s).1.lookup c = some k) ∧
    ∀ fin, Ext (l.foldl colourStep s).1 fin → (l.foldl colourStep s).2 = s.2 ++ l.map fun c => (fin.lookup c).getD ""
  | [], s, hs, _ => ⟨hs, fun _ _ h => h, by simp, fun _ _ => by simp⟩
  | c :: l, s, hs, hl => by
    obtain ⟨h1, h2, k, h3, h4⟩ := colourStep_spec hs (hl c List.mem_cons_self)
    obtain ⟨g1, g2, g4, g3⟩ := colours_fold l (colourStep s c) h1 fun x hx => hl x (List.mem_cons_of_mem _ hx)
    rw [List.foldl_cons]
    refine ⟨g1, fun x k hx => g2 x k (h2 x k hx), ?_, ?_⟩
    · intro x hx
      rcases List.mem_cons.mp hx with rfl | hx
      · exact ⟨k, g2 _ k h3⟩
      · exact g4 x hx
    intro fin hfin
    rw [g3 fin hfin, h4, List.map_cons, hfin c k (g2 c k h3)]
    simp

theorem mem_usage {chans : List Chan} {id : Int} {c : ℕ} (h : c ∈ usage chans id) :
    c ∈ (chans.zipIdx.filter fun p => p.1.route ≠ []).map Prod.snd := by
  unfold usage at h
  obtain ⟨p, hp, h⟩ := List.mem_flatMap.mp h
  obtain ⟨e, he, rfl⟩ := List.mem_map.mp h
  refine List.mem_map.mpr ⟨p, List.mem_filter.mpr ⟨hp, ?_⟩, rfl⟩
  have := (List.mem_filter.mp he).1
  simp only [ne_eq, decide_not, Bool.not_eq_eq_eq_not, Bool.not_true, decide_eq_false_iff_not]
  intro h0
  rw [h0] at this
  simp at this

theorem links_fold {chans : List Chan} {used : List ℕ}
    (hu : used = (chans.zipIdx.filter fun p => p.1.route ≠ []).map Prod.snd) : ∀ (l : List Link) (s : Colours × List Line),
    Inv used s.1 →
    Inv used (l.foldl (linkStep chans true) s).1 ∧ Ext s.1 (l.foldl (linkStep chans true) s).1 ∧
    (∀ x ∈ l, ∀ c ∈ usage chans x.id, ∃ k, (l.foldl (linkStep chans true) s).1.lookup c = some k) ∧
    ∀ fin, Ext (l.foldl (linkStep chans true) s).1 fin → (l.foldl (linkStep chans true) s).2 =
      s.2 ++ l.map fun x => ⟨x.src, x.dst, coloursOn chans (fun c => (fin.lookup c).getD "") x.id⟩
  | [], s, hs => ⟨hs, fun _ _ h => h, by simp, fun _ _ => by simp⟩
  | x :: l, s, hs => by
    have hstep : Inv used (linkStep chans true s x).1 ∧ Ext s.1 (linkStep chans true s x).1 ∧
        (∀ c ∈ usage chans x.id, ∃ k, (linkStep chans true s x).1.lookup c = some k) ∧
        ∀ fin, Ext (linkStep chans true s x).1 fin → (linkStep chans true s x).2 =
          s.2 ++ [⟨x.src, x.dst, coloursOn chans (fun c => (fin.lookup c).getD "") x.id⟩] := by
      unfold linkStep
      split
      · rename_i h
        have h0 : usage chans x.id = [] := by
          rcases h with h | h
          · exact List.length_eq_zero_iff.mp h
          · cases h
        refine ⟨hs, fun _ _ h => h, by rw [h0]; simp, ?_⟩
        intro fin _
        rw [← usage_colours, h0]
        rfl
      · obtain ⟨h1, h2, h4, h3⟩ := colours_fold (used := used) (usage chans x.id) (s.1, []) hs
          (fun c hc => by rw [hu]; exact mem_usage hc)
        refine ⟨h1, h2, h4, ?_⟩
        intro fin hfin
        dsimp only
        rw [h3 fin hfin, ← usage_colours]
        rfl
    obtain ⟨h1, h2, h4, h3⟩ := hstep
    obtain ⟨g1, g2, g4, g3⟩ := links_fold hu l (linkStep chans true s x) h1
    rw [List.foldl_cons]
    refine ⟨g1, fun c k h => g2 c k (h2 c k h), ?_, ?_⟩
    · intro y hy c hc
      rcases List.mem_cons.mp hy with rfl | hy
      · obtain ⟨k, hk⟩ := h4 c hc
        exact ⟨k, g2 c k hk⟩
      · exact g4 y hy c hc
    intro fin hfin
    rw [g3 fin hfin, h3 fin fun c k h => hfin c k (g2 c k h)]
    simp

theorem zipIdx_snd_nodup {α : Type} (l : List α) : (l.zipIdx.map Prod.snd).Nodup := by
  rw [List.zipIdx_map_snd]
  exact List.nodup_range' ..

theorem few_nodup : ∀ n, n ≤ 4 → ((List.range n).map fun j => palette.getD (j % palette.length) "").reverse.Nodup := by
  intro n hn
  interval_cases n <;> decide

/-- **C127, links** For every network and graph whose routes have links of the network, drawn in colours, every link is
drawn between its ends, in the colours of the channels that pass it, each as many times as it passes; a channel has the
same colour on all its links, and when at most four channels have a route, no two of these have the same colour. -/
theorem _root_.Kiter.C127_links (n : Net) (chans : List Chan) :
    ((∃ lines, drawLinks n chans true = some lines) ↔ ∀ c ∈ chans, ∀ e ∈ c.route, ∃ l ∈ n.links, l.id = e) ∧
    ∀ lines, drawLinks n chans true = some lines → ∃ colourOf : ℕ → String,
      lines = n.links.map (fun l => ⟨l.src, l.dst, coloursOn chans colourOf l.id⟩) ∧
      ((chans.zipIdx.filter fun p => p.1.route ≠ []).length ≤ 4 →
        ∀ (c c' : ℕ) (x x' : Chan), chans[c]? = some x → chans[c']? = some x' → x.route ≠ [] → x'.route ≠ [] → c ≠ c' →
          colourOf c ≠ colourOf c') := by
  constructor
  · unfold drawLinks
    constructor
    · rintro ⟨lines, h⟩
      split at h
      · rename_i hr
        intro c hc e he
        obtain ⟨l, hl, h⟩ := List.mem_map.mp (hr c hc e he)
        exact ⟨l, hl, h⟩
      · cases h
    · intro hr
      rw [if_pos]
      · exact ⟨_, rfl⟩
      · intro c hc e he
        obtain ⟨l, hl, h⟩ := hr c hc e he
        exact List.mem_map.mpr ⟨l, hl, h⟩
  · intro lines h
    unfold drawLinks at h
    split at h
    case isFalse => cases h
    case isTrue hr =>
      obtain rfl := Option.some.inj h
      obtain ⟨h1, -, h4, h3⟩ := links_fold (chans := chans) rfl n.links ([], []) ⟨by simp, by simp, by simp⟩
      set fin := (n.links.foldl (linkStep chans true) ([], [])).1
      have h3 := h3 fin fun _ _ h => h
      refine ⟨fun c => (fin.lookup c).getD "", by simpa using h3, ?_⟩
      intro hfew c c' x x' hx hx' hxr hxr' hne heq
      have hlen : fin.length ≤ 4 := by
        refine le_trans ?_ hfew
        have hsub := (List.subperm_of_subset h1.keys h1.sub).length_le
        simpa using hsub
      have hnd : (fin.map Prod.snd).Nodup := by
        rw [h1.cols]
        exact few_nodup _ hlen
      -- both channels have a colour: their first link gave it to them
      have hcol : ∀ (c : ℕ) (x : Chan), chans[c]? = some x → x.route ≠ [] → ∃ k, fin.lookup c = some k := by
        intro c x hx hxr
        obtain ⟨e, r, hr'⟩ := List.exists_cons_of_ne_nil hxr
        obtain ⟨l, hl, hle⟩ := List.mem_map.mp (hr x (List.mem_of_getElem? hx) e (by rw [hr']; simp))
        refine h4 l hl c ?_
        unfold usage
        refine List.mem_flatMap.mpr ⟨(x, c), ?_, ?_⟩
        · rw [List.mem_zipIdx_iff_getElem?]; exact hx
        · exact List.mem_map.mpr ⟨e, List.mem_filter.mpr ⟨by rw [hr']; simp, by simp [hle]⟩, rfl⟩
      obtain ⟨k, hk⟩ := hcol c x hx hxr
      obtain ⟨k', hk'⟩ := hcol c' x' hx' hxr'
      have e : k = k' := by
        have := heq
        dsimp only at this
        rw [hk, hk'] at this
        simpa using this
      subst e
      have hm := lookup_mem hk
      have hm' := lookup_mem hk'
      have := List.inj_on_of_nodup_map hnd hm hm' rfl
      exact hne (congrArg Prod.fst this)

/-! ### The sprites -/

theorem offset_small (n i : ℕ) (hi : i < n) : |(offset n i).1| ≤ 8 / 100 ∧ |(offset n i).2| ≤ 8 / 100 := by
  by_cases h4 : n ≤ 4
  · interval_cases n <;> interval_cases i <;> decide +kernel
  · unfold offset
    rw [if_neg (by omega), if_neg (by omega), if_neg (by omega), if_neg (by omega)]
    have hn : (0 : ℚ) < n := by exact_mod_cast (by omega : 0 < n)
    have h1 : (i : ℚ) / n ≤ 1 := by
      rw [div_le_one hn]; exact_mod_cast hi.le
    have h0 : (0 : ℚ) ≤ (i : ℚ) / n := by positivity
    dsimp only
    rw [abs_le]
    refine ⟨⟨by linarith, by linarith⟩, ⟨by linarith, by linarith⟩⟩

theorem offset_inj (n i j : ℕ) (hi : i < n) (hj : j < n) (h : offset n i = offset n j) : i = j := by
  by_cases h4 : n ≤ 4
  · revert h
    interval_cases n <;> interval_cases i <;> interval_cases j <;> decide +kernel
  · unfold offset at h
    rw [if_neg (by omega), if_neg (by omega), if_neg (by omega), if_neg (by omega),
      if_neg (by omega), if_neg (by omega), if_neg (by omega), if_neg (by omega)] at h
    have hn : (n : ℚ) ≠ 0 := by
      have : n ≠ 0 := by omega
      exact_mod_cast this
    have h1 := congrArg Prod.fst h
    dsimp only at h1
    have h2 : (i : ℚ) / n = (j : ℚ) / n := by linarith
    rw [div_left_inj' hn] at h2
    exact_mod_cast h2

theorem round_close (q : ℚ) : |(round q : ℚ) - q| ≤ 1 / 2 := by
  unfold round
  split
  · have h1 := Int.floor_le (q + 1 / 2)
    have h2 := Int.lt_floor_add_one (q + 1 / 2)
    rw [abs_le]
    constructor <;> linarith
  · have h1 := Int.le_ceil (q - 1 / 2)
    have h2 := Int.ceil_lt_add_one (q - 1 / 2)
    rw [abs_le]
    constructor <;> linarith

/-- Specification: two positions are the same or at least half a unit apart in a direction. -/
def Spaced (a b : ℚ × ℚ) : Prop := a = b ∨ 1 / 2 ≤ |a.1 - b.1| ∨ 1 / 2 ≤ |a.2 - b.2|

def Sprite.pos (s : Sprite) : ℚ × ℚ := (s.x, s.y)

theorem round_far {a b : ℚ} (h : 1 / 2 ≤ |a - b|) : round (a * 100) ≠ round (b * 100) := by
  intro e
  have h1 := abs_le.mp (round_close (a * 100))
  have h2 := abs_le.mp (round_close (b * 100))
  rw [e] at h1
  have : |a - b| ≤ 1 / 100 := by
    rw [abs_le]; constructor <;> linarith [h1.1, h1.2, h2.1, h2.2]
  linarith

/-- Sprites of the same group are at the same position. -/
theorem key_pos {a b : Sprite} (h : Spaced a.pos b.pos) (hk : key a = key b) : a.pos = b.pos := by
  rcases h with h | h | h
  · exact h
  · exact absurd (congrArg Prod.fst hk) (round_far h)
  · exact absurd (congrArg Prod.snd hk) (round_far h)

theorem mem_spread {l : List Sprite} {s : Sprite} (h : s ∈ spread l) :
    ∃ i a, l[i]? = some a ∧ s = ⟨a.id, a.x + (offset l.length i).1, a.y + (offset l.length i).2, a.small⟩ := by
  unfold spread at h
  obtain ⟨p, hp, rfl⟩ := List.mem_map.mp h
  exact ⟨p.2, p.1, List.mem_zipIdx_iff_getElem?.mp hp, rfl⟩

theorem spread_ids (l : List Sprite) : (spread l).map Sprite.id = l.map Sprite.id := by
  unfold spread
  rw [List.map_map]
  have : (Sprite.id ∘ fun p : Sprite × ℕ => (⟨p.1.id, p.1.x + (offset l.length p.2).1, p.1.y + (offset l.length p.2).2,
      p.1.small⟩ : Sprite)) = Sprite.id ∘ Prod.fst := rfl
  rw [this, ← List.map_map, List.zipIdx_map_fst]

/-- A group of sprites at the same position is moved to different positions. -/
theorem spread_apart {l : List Sprite} (h : ∀ a ∈ l, ∀ b ∈ l, a.pos = b.pos) :
    (spread l).Pairwise fun a b => a.pos ≠ b.pos := by
  unfold spread
  rw [List.pairwise_map, List.pairwise_iff_getElem]
  intro i j hi hj hij e
  rw [List.getElem_zipIdx, List.getElem_zipIdx] at e
  have hi' : i < l.length := by simpa using hi
  have hj' : j < l.length := by simpa using hj
  have hp := h l[i] (List.getElem_mem _) l[j] (List.getElem_mem _)
  unfold Sprite.pos at e hp
  simp only [Prod.mk.injEq, Nat.zero_add] at e hp
  rw [hp.1, hp.2] at e
  have := offset_inj l.length i j hi' hj' (Prod.ext (by linarith [e.1]) (by linarith [e.2]))
  omega

/-- **C127, sprites** Whatever the tasks, if their places are equal or at least half a unit apart, every task has exactly
one sprite, at most 8/100 from its place in each direction, and no two sprites are at the same position. -/
theorem _root_.Kiter.C127_spread {l : List Sprite} (hid : (l.map Sprite.id).Nodup)
    (h : ∀ a ∈ l, ∀ b ∈ l, Spaced a.pos b.pos) :
    ((spreadAll l).map Sprite.id).Perm (l.map Sprite.id) ∧
    (∀ s ∈ spreadAll l, ∃ a ∈ l, a.id = s.id ∧ a.small = s.small ∧ |s.x - a.x| ≤ 8 / 100 ∧ |s.y - a.y| ≤ 8 / 100) ∧
    (spreadAll l).Pairwise fun a b => a.pos ≠ b.pos := by
  have hgroup : ∀ k, ∀ s ∈ spread (l.filter fun s => key s = k), ∃ a ∈ l, key a = k ∧ a.id = s.id ∧ a.small = s.small ∧
      |s.x - a.x| ≤ 8 / 100 ∧ |s.y - a.y| ≤ 8 / 100 := by
    intro k s hs
    obtain ⟨i, a, ha, rfl⟩ := mem_spread hs
    obtain ⟨ha1, ha2⟩ := List.mem_filter.mp (List.mem_of_getElem? ha)
    have hlt := (List.getElem?_eq_some_iff.mp ha).1
    obtain ⟨h1, h2⟩ := offset_small _ i hlt
    refine ⟨a, ha1, by simpa using ha2, rfl, rfl, ?_, ?_⟩
    · simpa using h1
    · simpa using h2
  refine ⟨?_, ?_, ?_⟩
  · have hids : (spreadAll l).map Sprite.id =
        ((l.map key).dedup).flatMap fun k => (l.filter fun s => key s = k).map Sprite.id := by
      unfold spreadAll
      rw [List.map_flatMap]
      congr 1
      funext k
      exact spread_ids _
    rw [hids, List.perm_ext_iff_of_nodup _ hid]
    · intro x
      constructor
      · intro hx
        obtain ⟨k, -, hx⟩ := List.mem_flatMap.mp hx
        obtain ⟨a, ha, rfl⟩ := List.mem_map.mp hx
        exact List.mem_map.mpr ⟨a, (List.mem_filter.mp ha).1, rfl⟩
      · intro hx
        obtain ⟨a, ha, rfl⟩ := List.mem_map.mp hx
        refine List.mem_flatMap.mpr ⟨key a, List.mem_dedup.mpr (List.mem_map_of_mem ha), ?_⟩
        exact List.mem_map.mpr ⟨a, List.mem_filter.mpr ⟨ha, by simp⟩, rfl⟩
    · rw [List.nodup_flatMap]
      constructor
      · intro k _
        exact hid.sublist ((List.filter_sublist).map _)
      · refine (List.nodup_dedup _).imp ?_
        intro k k' hne x hx hx'
        obtain ⟨a, ha, rfl⟩ := List.mem_map.mp hx
        obtain ⟨b, hb, hab⟩ := List.mem_map.mp hx'
        obtain ⟨ha1, ha2⟩ := List.mem_filter.mp ha
        obtain ⟨hb1, hb2⟩ := List.mem_filter.mp hb
        have := List.inj_on_of_nodup_map hid hb1 ha1 hab
        subst this
        simp only [decide_eq_true_eq] at ha2 hb2
        exact hne (ha2.symm.trans hb2)
  · intro s hs
    obtain ⟨k, -, hs⟩ := List.mem_flatMap.mp hs
    obtain ⟨a, h1, -, h2⟩ := hgroup k s hs
    exact ⟨a, h1, h2⟩
  · unfold spreadAll
    rw [List.pairwise_flatMap]
    constructor
    · intro k _
      apply spread_apart
      intro a ha b hb
      obtain ⟨ha1, ha2⟩ := List.mem_filter.mp ha
      obtain ⟨hb1, hb2⟩ := List.mem_filter.mp hb
      simp only [decide_eq_true_eq] at ha2 hb2
      exact key_pos (h a ha1 b hb1) (ha2.trans hb2.symm)
    · refine (List.nodup_dedup _).imp ?_
      intro k k' hne s hs s' hs' e
      obtain ⟨a, ha, hak, -, -, hx, hy⟩ := hgroup k s hs
      obtain ⟨b, hb, hbk, -, -, hx', hy'⟩ := hgroup k' s' hs'
      unfold Sprite.pos at e
      simp only [Prod.mk.injEq] at e
      rw [e.1] at hx
      rw [e.2] at hy
      rw [abs_le] at hx hy hx' hy'
      rcases h a ha b hb with h | h | h
      · refine hne ?_
        rw [← hak, ← hbk]
        unfold Sprite.pos at h
        simp only [Prod.mk.injEq] at h
        unfold key
        rw [h.1, h.2]
      · have : |a.x - b.x| ≤ 16 / 100 := by rw [abs_le]; constructor <;> linarith [hx.1, hx.2, hx'.1, hx'.2]
        unfold Sprite.pos at h
        dsimp only at h
        linarith
      · have : |a.y - b.y| ≤ 16 / 100 := by rw [abs_le]; constructor <;> linarith [hy.1, hy.2, hy'.1, hy'.2]
        unfold Sprite.pos at h
        dsimp only at h
        linarith

theorem mesh_half {xs ys : ℕ} {v : Node} (h : v ∈ (generate xs ys).nodes) : ∃ a b : Int, 2 * v.x = a ∧ 2 * v.y = b := by
  rw [nodes_eq] at h
  obtain ⟨p, -, rfl⟩ := List.mem_map.mp h
  unfold toNode
  dsimp only
  split
  · exact ⟨2 * p.X, 2 * p.Y, by push_cast; ring, by push_cast; ring⟩
  · exact ⟨2 * p.X + 1, 2 * p.Y + 1, by push_cast; ring, by push_cast; ring⟩

theorem half_far {x y : ℚ} {a b : Int} (hx : 2 * x = a) (hy : 2 * y = b) (h : x ≠ y) : 1 / 2 ≤ |y - x| := by
  have hne : a ≠ b := by
    rintro rfl
    exact h (by linarith)
  have h1 : (1 : ℚ) ≤ |(b - a : Int)| := by exact_mod_cast Int.one_le_abs (by omega)
  have h2 : ((b - a : Int) : ℚ) = 2 * (y - x) := by push_cast; linarith
  rw [Int.cast_abs, h2, abs_mul] at h1
  rw [abs_of_pos (by norm_num : (0 : ℚ) < 2)] at h1
  linarith

theorem mesh_spaced {xs ys : ℕ} {v w : Node} (hv : v ∈ (generate xs ys).nodes) (hw : w ∈ (generate xs ys).nodes) :
    Spaced (place xs ys v) (place xs ys w) := by
  obtain ⟨a, b, h1, h2⟩ := mesh_half hv
  obtain ⟨c, d, h3, h4⟩ := mesh_half hw
  unfold Spaced place
  dsimp only
  by_cases hx : v.x = w.x
  · by_cases hy : v.y = w.y
    · left; rw [hx, hy]
    · right; right
      have := half_far h2 h4 hy
      rwa [show (ys : ℚ) - v.y - (ys - w.y) = w.y - v.y by ring]
  · right; left
    have := half_far h1 h3 hx
    rwa [show (xs : ℚ) - v.x - (xs - w.x) = w.x - v.x by ring]

theorem mesh_node {xs ys : ℕ} {m : Int} (h0 : 0 ≤ m) (h1 : m < xs * ys * 2) :
    ∃ v ∈ (generate xs ys).nodes, getNode (generate xs ys) m = some v := by
  have hp := (C38_nodes xs ys).1
  have hm : m ∈ (generate xs ys).nodes.map fun v => v.id := by
    rw [hp.mem_iff]
    refine List.mem_map.mpr ⟨m.toNat, List.mem_range.mpr ?_, by omega⟩
    have : ((m.toNat : ℕ) : Int) < ((xs * ys * 2 : ℕ) : Int) := by push_cast; omega
    exact_mod_cast this
  obtain ⟨v, hv, rfl⟩ := List.mem_map.mp hm
  unfold getNode
  cases hf : (generate xs ys).nodes.find? (fun w => w.id == v.id) with
  | none =>
    rw [List.find?_eq_none] at hf
    have := hf v hv
    simp at this
  | some w => exact ⟨w, List.mem_of_find?_eq_some hf, rfl⟩

/-- **C127** On every mesh, for every graph whose tasks have different ids and are all mapped to nodes, whose channels are
between its tasks and whose routes are made of links, the drawing exists; it has exactly one sprite per task, close to the
node it is mapped to, small iff this is a router, no two sprites are at the same position, and, if asked for, one arc per
channel between the sprites of its ends. -/
theorem _root_.Kiter.C127_mesh (xs ys : ℕ) {g : Mapped} (hid : (g.tasks.map Task.id).Nodup)
    (hmap : ∀ t ∈ g.tasks, 0 ≤ t.mapping ∧ t.mapping < xs * ys * 2)
    (hends : ∀ c ∈ g.chans, c.src < g.tasks.length ∧ c.dst < g.tasks.length)
    (hroute : ∀ c ∈ g.chans, ∀ e ∈ c.route, ∃ l ∈ (generate xs ys).links, l.id = e) (connect colour : Bool) :
    ∃ d, draw (generate xs ys) xs ys g connect colour = some d ∧
      drawLinks (generate xs ys) g.chans colour = some d.links ∧
      (d.sprites.map Sprite.id).Perm (g.tasks.map Task.id) ∧
      (∀ s ∈ d.sprites, ∃ t ∈ g.tasks, t.id = s.id ∧ ∃ v, getNode (generate xs ys) t.mapping = some v ∧
        s.small = v.router ∧ |s.x - (xs - v.x)| ≤ 8 / 100 ∧ |s.y - (ys - v.y)| ≤ 8 / 100) ∧
      (d.sprites.Pairwise fun a b => a.pos ≠ b.pos) ∧
      (connect = true → ∀ (i : ℕ) (c : Chan), g.chans[i]? = some c → ∃ a b, g.tasks[c.src]? = some a ∧
        g.tasks[c.dst]? = some b ∧ d.arcs[i]? = some (a.id, b.id)) ∧
      (connect = false → d.arcs = []) := by
  have hnode : ∀ t : Task, t ∈ g.tasks → ∃ v, v ∈ (generate xs ys).nodes ∧ getNode (generate xs ys) t.mapping = some v := by
    intro t ht
    exact mesh_node (hmap t ht).1 (hmap t ht).2
  obtain ⟨f, hf⟩ : ∃ f : Task → Node, ∀ t ∈ g.tasks, f t ∈ (generate xs ys).nodes ∧
      getNode (generate xs ys) t.mapping = some (f t) := by
    classical
    refine ⟨fun t => if h : t ∈ g.tasks then (hnode t h).choose else ⟨0, true, 0, 0⟩, ?_⟩
    intro t ht
    dsimp only
    rw [dif_pos ht]
    exact (hnode t ht).choose_spec
  let S : Task → Sprite := fun t => ⟨t.id, (place xs ys (f t)).1, (place xs ys (f t)).2, (f t).router⟩
  have hsprites : (g.tasks.zipIdx.mapM fun p => sprite (generate xs ys) xs ys g p.2 p.1) = some (g.tasks.map S) := by
    rw [mapM_some (g := fun p => S p.1)]
    · rw [show (fun p : Task × ℕ => S p.1) = S ∘ Prod.fst from rfl, ← List.map_map, List.zipIdx_map_fst]
    · intro p hp
      have ht : p.1 ∈ g.tasks := List.mem_of_getElem? (List.mem_zipIdx_iff_getElem?.mp hp)
      unfold sprite
      rw [if_pos (hmap _ ht).1, (hf _ ht).2]
  have hlinks : ∃ lines, drawLinks (generate xs ys) g.chans colour = some lines := by
    unfold drawLinks
    rw [if_pos]
    · exact ⟨_, rfl⟩
    · intro c hc e he
      obtain ⟨l, hl, h⟩ := hroute c hc e he
      exact List.mem_map.mpr ⟨l, hl, h⟩
  obtain ⟨lines, hlinks⟩ := hlinks
  let A : Chan → Int × Int := fun c => ((g.tasks[c.src]?).elim 0 Task.id, (g.tasks[c.dst]?).elim 0 Task.id)
  have harc : g.chans.mapM (arc g) = some (g.chans.map A) := by
    apply mapM_some
    intro c hc
    obtain ⟨h1, h2⟩ := hends c hc
    unfold arc
    simp only [A]
    rw [List.getElem?_eq_getElem h1, List.getElem?_eq_getElem h2]
    rfl
  have hS : ((g.tasks.map S).map Sprite.id) = g.tasks.map Task.id := by rw [List.map_map]; rfl
  obtain ⟨s1, s2, s3⟩ := C127_spread (l := g.tasks.map S) (by rw [hS]; exact hid) (by
    intro a ha b hb
    obtain ⟨t, ht, rfl⟩ := List.mem_map.mp ha
    obtain ⟨u, hu, rfl⟩ := List.mem_map.mp hb
    exact mesh_spaced (hf t ht).1 (hf u hu).1)
  refine ⟨⟨(generate xs ys).nodes.map (drawNode (generate xs ys) xs ys), lines, spreadAll (g.tasks.map S),
    if connect then g.chans.map A else []⟩, ?_, hlinks, by rw [← hS]; exact s1, ?_, s3, ?_, ?_⟩
  · unfold draw
    rw [hlinks, hsprites]
    cases connect
    · rfl
    · simp only [Option.bind_eq_bind, Option.bind_some, if_true, harc]
  · intro s hs
    obtain ⟨a, ha, h1, h2, h3, h4⟩ := s2 s hs
    obtain ⟨t, ht, rfl⟩ := List.mem_map.mp ha
    exact ⟨t, ht, h1, f t, (hf t ht).2, h2.symm, h3, h4⟩
  · rintro rfl i c hc
    obtain ⟨h1, h2⟩ := hends c (List.mem_of_getElem? hc)
    refine ⟨_, _, List.getElem?_eq_getElem h1, List.getElem?_eq_getElem h2, ?_⟩
    simp only [if_true, List.getElem?_map, hc, Option.map_some, A]
    rw [List.getElem?_eq_getElem h1, List.getElem?_eq_getElem h2]
    rfl
  · rintro rfl
    rfl

/-- **C127, nodes** On every mesh a router is labelled with its id and a core with the id of the router of its position, each
drawn at its own place, mirrored in both directions. -/
theorem _root_.Kiter.C127_nodes (xs ys : ℕ) {X Y : ℕ} (hX : X < xs) (hY : Y < ys) :
    (∃ v, getNode (generate xs ys) (routerId xs X Y) = some v ∧ drawNode (generate xs ys) xs ys v =
      (routerId xs X Y, routerId xs X Y, (xs : ℚ) - ((X : ℚ) + 1 / 2), (ys : ℚ) - ((Y : ℚ) + 1 / 2))) ∧
    ∃ v, getNode (generate xs ys) (coreId xs ys X Y) = some v ∧ drawNode (generate xs ys) xs ys v =
      (coreId xs ys X Y, routerId xs X Y, (xs : ℚ) - X, (ys : ℚ) - Y) := by
  obtain ⟨h1, h2⟩ := C38_nodes xs ys
  have hlen : (generate xs ys).nodes.length = xs * ys * 2 := by
    have := h1.length_eq
    simpa using this
  obtain ⟨h3, h4⟩ := h2 X Y hX hY
  refine ⟨⟨_, h3, rfl⟩, ⟨_, h4, ?_⟩⟩
  unfold drawNode place
  rw [hlen]
  have e : coreId xs ys X Y - ((xs * ys * 2 / 2 : ℕ) : Int) = routerId xs X Y := by
    rw [Nat.mul_div_cancel _ (by norm_num : 0 < 2)]
    unfold coreId routerId
    push_cast
    ring
  simp only [Bool.false_eq_true, if_false, e]

/-- **C127, colours** The fourth and the fifth channel to get a colour get the same one: the palette has it twice. -/
theorem _root_.Kiter.C127_colours_counterexample :
    ∃ colours, drawLinks ⟨[], [⟨7, 0, 1⟩]⟩ (List.replicate 5 ⟨0, 1, [7]⟩) true = some [⟨0, 1, colours⟩] ∧
      colours.length = 5 ∧ colours[3]? = colours[4]? :=
  ⟨["#ACFF54", "#41E869", "#53FFEE", "#4191E8", "#4191E8"], by decide +kernel, rfl, rfl⟩

/-- **C127, tasks that are not mapped** A task that is not mapped is drawn at the mean place of its neighbours when they
are all mapped to nodes. -/
theorem _root_.Kiter.C127_free (n : Net) (xs ys : ℕ) (g : Mapped) (v : ℕ) (t : Task) (ht : t.mapping < 0)
    (hne : neighbours g v ≠ []) {f : Int → Node}
    (hf : ∀ m ∈ neighbours g v, 0 ≤ m ∧ getNode n m = some (f m)) :
    ∃ s, sprite n xs ys g v t = some s ∧ s.id = t.id ∧
      s.x = ((neighbours g v).map fun m => (xs : ℚ) - (f m).x).sum / (neighbours g v).length ∧
      s.y = ((neighbours g v).map fun m => (ys : ℚ) - (f m).y).sum / (neighbours g v).length := by
  have hps : (neighbours g v).mapM (neighbourPlace n xs ys) = some ((neighbours g v).map fun m => place xs ys (f m)) := by
    apply mapM_some
    intro m hm
    unfold neighbourPlace
    rw [if_pos (hf m hm).1, (hf m hm).2]
    rfl
  unfold sprite freeSprite
  rw [if_neg (by omega), hps]
  dsimp only [Option.bind_eq_bind, Option.bind_some]
  rw [if_neg (by simpa using hne)]
  refine ⟨_, rfl, rfl, ?_, ?_⟩
  · dsimp only
    rw [List.map_map, List.length_map]; rfl
  · dsimp only
    rw [List.map_map, List.length_map]; rfl

/-- When one of two neighbours is not mapped either, it counts as one at place (0, 0): next to a task on the core at place
(2, 2), the task is drawn at (1, 1), the place of another core. -/
theorem _root_.Kiter.C127_free_counterexample :
    sprite (generate 2 2) 2 2 ⟨[⟨1, 4⟩, ⟨2, -1⟩, ⟨3, -1⟩], [⟨0, 1, []⟩, ⟨1, 2, []⟩]⟩ 1 ⟨2, -1⟩ = some ⟨2, 1, 1, true⟩ ∧
    (getNode (generate 2 2) 4).map (place 2 2) = some (2, 2) ∧
    (getNode (generate 2 2) 7).map (place 2 2) = some (1, 1) := by
  decide +kernel

/-- **C127, isolated tasks** With a task that is neither mapped nor connected the drawing is undefined. -/
theorem _root_.Kiter.C127_isolated_counterexample (n : Net) (xs ys : ℕ) (g : Mapped) (connect colour : Bool) {v : ℕ} {t : Task}
    (ht : g.tasks[v]? = some t) (hm : t.mapping < 0) (hc : ∀ c ∈ g.chans, c.src ≠ v ∧ c.dst ≠ v) :
    draw n xs ys g connect colour = none := by
  have hnb : neighbours g v = [] := by
    unfold neighbours
    rw [List.filter_eq_nil_iff.mpr (by intro c h; simpa using (hc c h).2),
      List.filter_eq_nil_iff.mpr (by intro c h; simpa using (hc c h).1)]
    rfl
  have hs : sprite n xs ys g v t = none := by
    unfold sprite freeSprite
    rw [if_neg (by omega), hnb]
    rfl
  unfold draw
  cases drawLinks n g.chans colour with
  | none => rfl
  | some l =>
    dsimp only [Option.bind_eq_bind, Option.bind_some]
    rw [mapM_none (a := (t, v)) (List.mem_zipIdx_iff_getElem?.mpr ht) hs]
    rfl

/-- Three tasks on a core and one on a router of the mesh of two by two, with two routed channels. -/
def exMapped : Mapped :=
  ⟨[⟨1, 4⟩, ⟨2, 4⟩, ⟨3, 4⟩, ⟨4, 0⟩], [⟨0, 3, [8 + 4 * 8 + 0]⟩, ⟨3, 1, [8 + 0 * 8 + 4]⟩, ⟨1, 2, []⟩]⟩

/-- The hypotheses of C127 are met. -/
example : (exMapped.tasks.map Task.id).Nodup ∧ (∀ t ∈ exMapped.tasks, 0 ≤ t.mapping ∧ t.mapping < 2 * 2 * 2) ∧
    (∀ c ∈ exMapped.chans, c.src < exMapped.tasks.length ∧ c.dst < exMapped.tasks.length) ∧
    (∀ c ∈ exMapped.chans, ∀ e ∈ c.route, ∃ l ∈ (generate 2 2).links, l.id = e) ∧
    ((exMapped.chans.zipIdx.filter fun p => p.1.route ≠ []).length ≤ 4) ∧
    ((draw (generate 2 2) 2 2 exMapped true true).map fun d => d.sprites.map fun s => (s.id, s.x, s.y)) =
      some [(1, 2, 192 / 100), (2, 192 / 100, 202 / 100), (3, 2045 / 1000, 2045 / 1000), (4, 3 / 2, 3 / 2)] ∧
    ((draw (generate 2 2) 2 2 exMapped true true).map fun d => (d.links.filter fun l => l.colours ≠ []).map fun l =>
      (l.src, l.dst, l.colours)) = some [(0, 4, ["#ACFF54"]), (4, 0, ["#41E869"])] := by
  decide +kernel

end Kiter.NoCDraw
