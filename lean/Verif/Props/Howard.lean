/-
C65: the cycle ratio solver behind every periodic analysis.
-/
import Verif.Lemmas.HowardExact

set_option autoImplicit false

namespace Kiter
namespace Howard

theorem sum_ite_eq {vs : List Event} (hnd : vs.Nodup) {a : Event} (ha : a ∈ vs) (x : ℚ) :
    (vs.map fun v => if a = v then x else 0).sum = x := by
  induction vs with
  | nil => simp at ha
  | cons y l ih =>
    rw [List.nodup_cons] at hnd
    rw [List.map_cons, List.sum_cons]
    rcases List.mem_cons.mp ha with rfl | h
    · have : (l.map fun v => if a = v then x else 0) = l.map fun _ => (0 : ℚ) :=
        List.map_congr_left fun v hv => by rw [if_neg]; rintro rfl; exact hnd.1 hv
      rw [this]; simp
    · rw [ih hnd.2 h, if_neg (by rintro rfl; exact hnd.1 h), zero_add]

theorem sum_out (vs : List Event) (hnd : vs.Nodup) (g : EvConstraint → ℚ) (cs : List EvConstraint)
    (h : ∀ e ∈ cs, e.src ∈ vs) : ((vs.flatMap (EGraph.out ⟨vs, cs⟩)).map g).sum = (cs.map g).sum := by
  have key : ∀ l : List Event, ((l.flatMap (EGraph.out ⟨vs, cs⟩)).map g).sum =
      (l.map fun v => ((cs.filter fun e => e.src = v).map g).sum).sum := by
    intro l
    induction l with
    | nil => rfl
    | cons v l ih =>
      rw [List.flatMap_cons, List.map_append, List.sum_append, ih, List.map_cons, List.sum_cons]; rfl
  rw [key]
  clear key
  induction cs with
  | nil => simp
  | cons e cs ih =>
    rw [List.map_cons, List.sum_cons, ← ih fun x hx => h x (by simp [hx]), ← sum_ite_eq hnd (h e (by simp)) (g e),
      ← List.sum_map_add]
    congr 1
    apply List.map_congr_left
    intro v _
    by_cases hv : e.src = v
    · simp [hv]
    · simp [hv]

theorem mcrBound_ge {eps huge : ℚ} (heps : 0 ≤ eps) (hhuge : 0 < huge) {G : EGraph} (hG : WF G) {f : EvConstraint}
    (hf : f ∈ G.cs) (hd : eps < f.d) :
    (G.cs.map fun e => |e.w|).sum / f.d ≤ mcrBound ⟨true, eps, huge⟩ G := by
  have hs : ((G.vs.flatMap G.out).map fun e => |e.w|).sum = (G.cs.map fun e => |e.w|).sum :=
    sum_out G.vs hG.nodup _ G.cs fun e he => (hG.ends e he).1
  have hfm : f ∈ G.vs.flatMap G.out := List.mem_flatMap.mpr ⟨f.src, (hG.ends f hf).1, mem_out.mpr ⟨hf, rfl⟩⟩
  have hd0 : 0 < f.d := lt_of_le_of_lt heps hd
  have hfold : ∀ (l : List EvConstraint) (cz : ℚ), 0 < cz →
      0 < l.foldl (fun cz e => if eps < |e.d| ∧ |e.d| < cz then |e.d| else cz) cz ∧
      l.foldl (fun cz e => if eps < |e.d| ∧ |e.d| < cz then |e.d| else cz) cz ≤ cz ∧
      (f ∈ l → l.foldl (fun cz e => if eps < |e.d| ∧ |e.d| < cz then |e.d| else cz) cz ≤ f.d) := by
    intro l
    induction l with
    | nil => intro cz h; exact ⟨h, le_rfl, by simp⟩
    | cons e l ih =>
      intro cz h
      rw [List.foldl_cons]
      have hpos : 0 < (if eps < |e.d| ∧ |e.d| < cz then |e.d| else cz) := by
        split
        · rename_i hc; exact lt_of_le_of_lt heps hc.1
        · exact h
      have hle : (if eps < |e.d| ∧ |e.d| < cz then |e.d| else cz) ≤ cz := by
        split
        · rename_i hc; exact hc.2.le
        · exact le_rfl
      obtain ⟨i1, i2, i3⟩ := ih _ hpos
      refine ⟨i1, i2.trans hle, fun hm => ?_⟩
      rcases List.mem_cons.mp hm with rfl | hm
      · refine i2.trans ?_
        rw [abs_of_pos hd0]
        split
        · exact le_rfl
        · rename_i hc; push Not at hc; exact hc hd
      · exact i3 hm
  obtain ⟨h1, -, h3⟩ := hfold (G.vs.flatMap G.out) huge hhuge
  unfold mcrBound
  simp only [Cfg.mult, if_true, one_mul]
  rw [hs]
  apply div_le_div_of_nonneg_left _ h1 (h3 hfm)
  apply List.sum_nonneg
  intro x hx
  obtain ⟨e, _, rfl⟩ := List.mem_map.mp hx
  exact abs_nonneg _

/-- **C65** Every call of the solver terminates without error on a well-formed event graph whose circuits take time: for
the minimum, the maximum and the minimum with a given initial bound. -/
theorem C65_terminates {G : EGraph} (hG : WF G) (hz : NoNullCircuit G) (eps huge bound : ℚ) :
    (∃ r, minCycleRatio eps huge G = some r) ∧ (∃ r, maxCycleRatio eps huge G = some r) ∧
      ∃ r, minCycleRatioBound eps huge G bound = some r := by
  refine ⟨?_, ?_, ?_⟩
  · obtain ⟨r, v, h, -⟩ := ocr_spec ⟨true, eps, huge⟩ hG hz (mcrBound ⟨true, eps, huge⟩ G); exact ⟨r, h⟩
  · obtain ⟨r, v, h, -⟩ := ocr_spec ⟨false, eps, huge⟩ hG hz (mcrBound ⟨false, eps, huge⟩ G); exact ⟨r, h⟩
  · obtain ⟨r, v, h, -⟩ := ocr_spec ⟨true, eps, huge⟩ hG hz bound; exact ⟨r, h⟩

/-- **C65** A finite answer is the ratio of the returned circuit, which is a circuit of the graph. With a given initial
bound the answer may also be that bound, without circuit. -/
theorem C65_circuit {G : EGraph} (hG : WF G) (hz : NoNullCircuit G) {eps huge bound v : ℚ} (heps : 0 < eps) {r : Result}
    (hv : r.value = some v) :
    (minCycleRatio eps huge G = some r ∨ maxCycleRatio eps huge G = some r →
      Circuit G r.circuit ∧ totalD r.circuit ≠ 0 ∧ v = totalW r.circuit / totalD r.circuit) ∧
    (minCycleRatioBound eps huge G bound = some r →
      (r.circuit = [] ∧ v = bound) ∨
      (Circuit G r.circuit ∧ totalD r.circuit ≠ 0 ∧ v = totalW r.circuit / totalD r.circuit)) := by
  constructor
  · rintro (h | h)
    · obtain ⟨r', x, h1, h2, h3, h4, h5⟩ := ocr_spec ⟨true, eps, huge⟩ hG hz (mcrBound ⟨true, eps, huge⟩ G)
      have : r' = r := by unfold minCycleRatio at h; rw [h1] at h; exact Option.some.inj h
      subst this
      rw [hv] at h5
      split at h5
      · simp at h5
      · rename_i hc
        cases h5
        rw [cmp_iff] at hc
        simp only [Cfg.mult, if_true, one_mul, mul_one, not_lt] at hc
        rcases h2 with ⟨_, h2⟩ | ⟨h2, h6, h7, h8, _⟩
        · linarith
        · exact ⟨⟨h2, h8⟩, h6, h7⟩
    · obtain ⟨r', x, h1, h2, h3, h4, h5⟩ := ocr_spec ⟨false, eps, huge⟩ hG hz (mcrBound ⟨false, eps, huge⟩ G)
      have : r' = r := by unfold maxCycleRatio at h; rw [h1] at h; exact Option.some.inj h
      subst this
      rw [hv] at h5
      split at h5
      · simp at h5
      · rename_i hc
        cases h5
        rw [cmp_iff] at hc
        simp [Cfg.mult] at hc
        rcases h2 with ⟨_, h2⟩ | ⟨h2, h6, h7, h8, _⟩
        · linarith
        · exact ⟨⟨h2, h8⟩, h6, h7⟩
  · intro h
    obtain ⟨r', x, h1, h2, h3, h4, h5⟩ := ocr_spec ⟨true, eps, huge⟩ hG hz bound
    have : r' = r := by unfold minCycleRatioBound at h; rw [h1] at h; exact Option.some.inj h
    subst this
    rw [hv] at h5
    split at h5
    · simp at h5
    · cases h5
      rcases h2 with ⟨h2, h6⟩ | ⟨h2, h6, h7, h8, _⟩
      · exact Or.inl ⟨h2, h6⟩
      · exact Or.inr ⟨⟨h2, h8⟩, h6, h7⟩

/-- **C65** When the iteration limit did not stop the search, no circuit is better than the answer by more than the
tolerance `100 * eps` per edge. -/
theorem C65_tolerance {G : EGraph} (hG : WF G) (hz : NoNullCircuit G) {eps huge bound v : ℚ} {r : Result}
    (hl : r.limited = false) (hv : r.value = some v) :
    (minCycleRatio eps huge G = some r ∨ minCycleRatioBound eps huge G bound = some r →
      ∀ p, Circuit G p → v * totalD p ≤ totalW p + 100 * eps * p.length) ∧
    (maxCycleRatio eps huge G = some r → ∀ p, Circuit G p → totalW p ≤ v * totalD p + 100 * eps * p.length) := by
  have gen : ∀ (m : Bool) (b : ℚ), ocr ⟨m, eps, huge⟩ G b = some r → Certified ⟨m, eps, huge⟩ G v := by
    intro m b h
    obtain ⟨r', x, h1, h2, h3, h4, h5⟩ := ocr_spec ⟨m, eps, huge⟩ hG hz b
    rw [h1] at h; cases h
    rw [hv] at h5
    split at h5
    · simp at h5
    · cases h5; exact h4 hl
  constructor
  · intro h p ⟨_, u, hp⟩
    have hc : Certified ⟨true, eps, huge⟩ G v := by
      rcases h with h | h
      · exact gen true _ h
      · exact gen true _ h
    have := hc u p hp
    simp only [Cfg.mult, improveRatio, if_true, one_mul] at this
    linarith
  · intro h p ⟨_, u, hp⟩
    have := gen false _ h u p hp
    simp [Cfg.mult, improveRatio] at this
    linarith

/-- **C65** When weights and durations are multiples of given units and the machine precision is fine enough for the size
of the graph, the answer is exact: the returned circuit has the smallest (largest) ratio of all circuits. -/
theorem C65_exact {G : EGraph} (hG : WF G) (hz : NoNullCircuit G) {eps huge D v : ℚ} {N M : ℕ} (hg : OnGrid G N M D)
    (hf : Fine eps G N M D) {r : Result} (hl : r.limited = false) (hv : r.value = some v) :
    (minCycleRatio eps huge G = some r → CycleAnswer G.cs v r.circuit) ∧
    (maxCycleRatio eps huge G = some r →
      Circuit G r.circuit ∧ v = totalW r.circuit / totalD r.circuit ∧ ∀ p, Circuit G p → totalW p ≤ v * totalD p) := by
  have gen : ∀ (m : Bool), ocr ⟨m, eps, huge⟩ G (mcrBound ⟨m, eps, huge⟩ G) = some r →
      (Circuit G r.circuit ∧ totalD r.circuit ≠ 0 ∧ v = totalW r.circuit / totalD r.circuit) →
      ∀ p, Circuit G p → 0 ≤ (⟨m, eps, huge⟩ : Cfg).mult * (totalW p - v * totalD p) := by
    rintro m h ⟨c1, c2, c3⟩
    obtain ⟨r', x, h1, h2, h3, h4, h5⟩ := ocr_spec ⟨m, eps, huge⟩ hG hz (mcrBound ⟨m, eps, huge⟩ G)
    rw [h1] at h; cases h
    rw [hv] at h5
    split at h5
    · simp at h5
    · cases h5
      rcases h2 with ⟨h2, _⟩ | ⟨_, _, _, _, h2⟩
      · exact absurd h2 c1.1
      · rw [c3]
        exact certified_exact_grid _ hG hg hf c1 c2 h2 (by rw [← c3]; exact h4 hl)
  constructor
  · intro h
    obtain ⟨c1, c2, c3⟩ := (C65_circuit hG hz (bound := 0) hf.1 hv).1 (Or.inl h)
    have hpos : 0 < totalD r.circuit :=
      lt_of_le_of_ne (totalD_nonneg _ fun e he => hg.nonneg e (circuit_mem c1 e he)) (Ne.symm c2)
    refine ⟨c1.2, hpos, by rw [c3]; field_simp, fun u q hq => ?_⟩
    by_cases hne : q = []
    · subst hne; simp [totalD, totalW]
    · have := gen true h ⟨c1, c2, c3⟩ q ⟨hne, u, hq⟩
      simp only [Cfg.mult, if_true, one_mul] at this
      linarith
  · intro h
    have c := (C65_circuit hG hz (bound := 0) hf.1 hv).1 (Or.inr h)
    refine ⟨c.1, c.2.2, fun p hp => ?_⟩
    have := gen false h c p hp
    simp [Cfg.mult] at this
    linarith

/-- **C65** Infinity is the answer for graphs without circuit. Conversely a graph with a circuit whose ratio stays, up to the
tolerance, below `(total |w|) / d - eps` for some edge duration `d`, gets a finite answer. -/
theorem C65_infinity {G : EGraph} (hG : WF G) (hz : NoNullCircuit G) {eps huge : ℚ} {r : Result} (heps : 0 < eps)
    (hr : minCycleRatio eps huge G = some r) :
    ((¬ ∃ p, Circuit G p) → r.value = none ∧ r.circuit = []) ∧
    (∀ (p : List EvConstraint) (f : EvConstraint), 0 < huge → r.limited = false → Circuit G p → 0 < totalD p →
      f ∈ G.cs → eps < f.d →
      totalW p + 100 * eps * p.length ≤ ((G.cs.map fun e => |e.w|).sum / f.d - eps) * totalD p → ∃ v, r.value = some v) := by
  obtain ⟨r', x, h1, h2, h3, h4, h5⟩ := ocr_spec ⟨true, eps, huge⟩ hG hz (mcrBound ⟨true, eps, huge⟩ G)
  have : r' = r := by unfold minCycleRatio at hr; rw [h1] at hr; exact Option.some.inj hr
  subst this
  constructor
  · intro hno
    rcases h2 with ⟨h2, h6⟩ | ⟨h2, _, _, h8, _⟩
    · refine ⟨?_, h2⟩
      rw [h5, if_pos]
      rw [cmp_iff]
      simp only [Cfg.mult, if_true, one_mul, mul_one]
      rw [h6]; linarith
    · exact absurd ⟨_, h2, h8⟩ hno
  · intro p f hh hl hp hpos hfm hfd hw
    have hb := mcrBound_ge heps.le hh hG hfm hfd
    have hx : x * totalD p ≤ totalW p + 100 * eps * p.length := by
      obtain ⟨_, u, hu⟩ := hp
      have := h4 hl u p hu
      simp only [Cfg.mult, improveRatio, if_true, one_mul] at this
      linarith
    have hxle : x ≤ mcrBound ⟨true, eps, huge⟩ G - eps := by
      have h7 : x * totalD p ≤ ((G.cs.map fun e => |e.w|).sum / f.d - eps) * totalD p := hx.trans hw
      have := le_of_mul_le_mul_right h7 hpos
      linarith
    refine ⟨x, ?_⟩
    rw [h5, if_neg]
    rw [cmp_iff]
    simp only [Cfg.mult, if_true, one_mul, mul_one, not_lt]
    exact hxle

/-! ### Concrete cases -/

namespace Example

def a : Event := ⟨1, 1, 1⟩
def b : Event := ⟨2, 1, 1⟩
def e1 : EvConstraint := ⟨a, b, 0, 2, 1⟩
def e2 : EvConstraint := ⟨b, a, 1, 3, 2⟩
def e3 : EvConstraint := ⟨a, a, 1, 2, 0⟩
def e4 : EvConstraint := ⟨b, b, 1, 3, 0⟩
def G : EGraph := ⟨[a, b], [e3, e4, e1, e2]⟩

theorem wf : WF G := ⟨by decide +kernel, by decide +kernel⟩

theorem grid : OnGrid G 1 1 3 := by
  have h1 : ∀ e ∈ G.cs, e.w * (1 : ℕ) = e.w.num := by decide +kernel
  have h2 : ∀ e ∈ G.cs, e.d * (1 : ℕ) = e.d.num := by decide +kernel
  exact ⟨by norm_num, by norm_num, fun e he => ⟨_, h1 e he⟩, fun e he => ⟨_, h2 e he⟩, by decide +kernel, by decide +kernel⟩

theorem noNull : NoNullCircuit G := by
  intro p hp h
  have hm := circuit_mem hp
  have hpos : ∀ q : List EvConstraint, q ≠ [] → (∀ e ∈ q, e ∈ G.cs) → 0 < totalD q := by
    intro q
    induction q with
    | nil => intro h; exact absurd rfl h
    | cons x q ih =>
      intro _ hq
      have hx : 0 < x.d := by
        have := hq x (by simp)
        simp only [G, List.mem_cons, List.not_mem_nil, or_false] at this
        rcases this with rfl | rfl | rfl | rfl <;> norm_num [e1, e2, e3, e4]
      have hq0 : 0 ≤ totalD q := totalD_nonneg q fun e he => grid.nonneg e (hq e (by simp [he]))
      simp only [totalD, List.map_cons, List.sum_cons] at hq0 ⊢
      linarith
  exact absurd h (hpos p hp.1 hm).ne'

theorem fine : Fine (1 / 10 ^ 19) G 1 1 3 := by unfold Fine G; norm_num

def summary (r : Option Result) : Option (Option ℚ × List EvConstraint × Bool) :=
  r.map fun r => (r.value, r.circuit, r.limited)

/-- The circuit `a → b → a` has ratio 1/5, below the ratios 1/2 and 1/3 of the loops. -/
example : summary (minCycleRatio (1 / 10 ^ 19) (10 ^ 300) G) = some (some (1 / 5), [e1, e2], false) := by decide +kernel
example : summary (maxCycleRatio (1 / 10 ^ 19) (10 ^ 300) G) = some (some (1 / 2), [e3], false) := by decide +kernel

/-- A single loop: its ratio equals the initial bound, so that the answer is infinity although the graph has a circuit.
The condition of `C65_infinity` cannot be dropped. -/
def single : EGraph := ⟨[a], [e3]⟩

theorem C65_single_loop : Circuit single [e3] ∧ totalW [e3] / totalD [e3] = 1 / 2 ∧
    summary (minCycleRatio (1 / 10 ^ 19) (10 ^ 300) single) = some (none, [], false) := by
  refine ⟨⟨by simp, a, ?_⟩, ?_, by decide +kernel⟩
  · exact ⟨by simp [single], rfl, rfl⟩
  · norm_num [totalW, totalD, e3]

/-- With an initial bound below the smallest ratio, the answer is the bound and no circuit. -/
theorem C65_low_bound : summary (minCycleRatioBound (1 / 10 ^ 19) (10 ^ 300) G (1 / 10)) = some (some (1 / 10), [], false) := by
  decide +kernel

end Example

end Howard
end Kiter
