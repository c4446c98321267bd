/-
C132: the file of Pareto points.
-/
import Verif.Model.FrontFile
import Verif.Spec.FrontFile
import Verif.Props.Text
import Verif.Props.GraphDraw
import Verif.Props.KneeSearch
import Verif.Props.BufferExploration
import Mathlib.Data.Set.Finite.Basic
import Mathlib.Data.Fintype.EquivFin
import Mathlib.Algebra.CharZero.Infinite

set_option autoImplicit false

namespace Kiter
namespace FrontFile

open Text

variable {n : ℕ}

theorem cut_append {c : Char} {a : Str} (r : Str) (h : ∀ x ∈ a, x ≠ c) : cut c (a ++ c :: r) = some (a, r) := by
  have h1 : (a ++ c :: r).dropWhile (fun x => decide (x ≠ c)) = c :: r := by
    rw [List.dropWhile_append_of_pos (fun x hx => by simpa using h x hx), List.dropWhile_cons_of_neg (by simp)]
  have h2 : (a ++ c :: r).takeWhile (fun x => decide (x ≠ c)) = a := by
    rw [List.takeWhile_append_of_pos (fun x hx => by simpa using h x hx), List.takeWhile_cons_of_neg (by simp), List.append_nil]
  unfold cut
  rw [h1, h2]

/-- After the first quantity, each further one comes with a comma. -/
theorem loop_rest (limit : ℕ) (d : SD n) : ∀ (l : List (Fin n)) (out : Str) (count : ℕ), limit ≤ count →
    quantitiesLoop limit d l out [','] count = out ++ (l.flatMap fun e => ',' :: showInt (d.quantity e)) := by
  intro l
  induction l with
  | nil => intro out count _; simp [quantitiesLoop]
  | cons e l ih =>
    intro out count h
    rw [quantitiesLoop, if_pos h, ih _ _ (by omega)]
    simp

theorem vec_cons (v : Int) (l : List Int) : vectorAsStr (v :: l) = showInt v ++ l.flatMap fun x => ',' :: showInt x := by
  induction l generalizing v with
  | nil => simp [vectorAsStr]
  | cons w l ih =>
    rw [vectorAsStr, ih w]
    simp

theorem loop_start (limit : ℕ) (d : SD n) : ∀ (l : List (Fin n)) (out : Str) (count : ℕ),
    quantitiesLoop limit d l out [] count = out ++ vectorAsStr ((l.drop (limit - count)).map d.quantity) := by
  intro l
  induction l with
  | nil => intro out count; simp [quantitiesLoop, vectorAsStr]
  | cons e l ih =>
    intro out count
    by_cases h : count ≥ limit
    · rw [quantitiesLoop, if_pos h, loop_rest _ _ _ _ _ (by omega), show limit - count = 0 by omega, List.drop_zero, List.map_cons,
        vec_cons]
      simp [List.flatMap_map]
    · rw [quantitiesLoop, if_neg h, ih, show limit - count = (limit - (count + 1)) + 1 by omega, List.drop_succ_cons]

/-- The quantities that are written. -/
def shown (bounded : Bool) (d : SD n) : List Int := ((List.finRange n).drop (if bounded then n / 2 else 0)).map d.quantity

theorem quantitiesCsv_eq (bounded : Bool) (d : SD n) : quantitiesCsv bounded d = '"' :: (vectorAsStr (shown bounded d) ++ ['"']) := by
  unfold quantitiesCsv shown
  rw [loop_start]
  simp

theorem vec_chars {l : List Int} {c : Char} (h : c ∈ vectorAsStr l) : c ≠ '"' ∧ c ≠ ';' ∧ c ≠ '\n' := by
  rcases GraphDraw.vec_mem h with h | rfl
  · refine ⟨?_, ?_, ?_⟩ <;> rintro rfl <;> revert h <;> decide
  · decide

theorem show_chars {v : Int} {c : Char} (h : c ∈ showInt v) : c ≠ '"' ∧ c ≠ ';' ∧ c ≠ '\n' := by
  have h := GraphDraw.showInt_num h
  refine ⟨?_, ?_, ?_⟩ <;> rintro rfl <;> revert h <;> decide

/-- A line without its end. -/
def body (fmt : ℚ → Str) (bounded : Bool) (key : Int) (d : SD n) : Str :=
  showInt key ++ ';' :: (fmt d.thr ++ ';' :: '"' :: (vectorAsStr (shown bounded d) ++ ['"']))

theorem line_eq (fmt : ℚ → Str) (bounded : Bool) (key : Int) (d : SD n) : line fmt bounded key d = body fmt bounded key d ++ ['\n'] := by
  unfold line body
  rw [quantitiesCsv_eq]
  simp

theorem body_chars {fmt : ℚ → Str} (hf : PlainFormat fmt) {bounded : Bool} {key : Int} {d : SD n} {c : Char}
    (h : c ∈ body fmt bounded key d) : c ≠ '\n' := by
  unfold body at h
  simp only [List.mem_append, List.mem_cons, List.not_mem_nil, or_false] at h
  rcases h with h | rfl | h | rfl | rfl | h | rfl
  · exact (show_chars h).2.2
  · decide
  · exact (hf _ _ h).2
  · decide
  · decide
  · exact (vec_chars h).2.2
  · decide

theorem readLine_body {fmt : ℚ → Str} (hf : PlainFormat fmt) (bounded : Bool) (key : Int) (d : SD n) :
    readLine (body fmt bounded key d) = some ⟨key, fmt d.thr, shown bounded d⟩ := by
  unfold readLine body
  rw [cut_append _ (fun x hx => (show_chars hx).2.1)]
  simp only [Option.bind_eq_bind, Option.bind_some]
  rw [cut_append _ (fun x hx => (hf _ x hx).1)]
  simp only [Option.bind_some]
  rw [show cut '"' ('"' :: (vectorAsStr (shown bounded d) ++ ['"'])) = some ([], vectorAsStr (shown bounded d) ++ ['"']) from
    cut_append (a := []) _ (by simp)]
  simp only [Option.bind_some]
  rw [cut_append [] (fun x hx => (vec_chars hx).1)]
  simp only [Option.bind_some, and_self, if_true]
  rw [GraphDraw.readSigned_show, split_vec, List.map_map]
  congr 2
  conv_rhs => rw [← List.map_id (shown bounded d)]
  exact List.map_congr_left fun v _ => GraphDraw.readSigned_show v

theorem linesOf_flatMap : ∀ (l : List Str) (k : ℕ), l.length < k → (∀ a ∈ l, ∀ c ∈ a, c ≠ '\n') →
    linesOf k (l.flatMap fun a => a ++ ['\n']) = some l := by
  intro l
  induction l with
  | nil => intro k hk _; obtain ⟨k, rfl⟩ : ∃ j, k = j + 1 := ⟨k - 1, by simp at hk; omega⟩; simp [linesOf]
  | cons a l ih =>
    intro k hk h
    obtain ⟨k, rfl⟩ : ∃ j, k = j + 1 := ⟨k - 1, by simp at hk; omega⟩
    rw [List.flatMap_cons, List.append_assoc, List.singleton_append, linesOf, if_neg (by simp),
      cut_append _ (h a List.mem_cons_self)]
    simp only [Option.bind_eq_bind, Option.bind_some]
    rw [ih k (by simpa using hk) fun b hb => h b (List.mem_cons_of_mem _ hb)]
    rfl

theorem length_lines (l : List Str) : l.length ≤ (l.flatMap fun a => a ++ ['\n']).length := by
  induction l with
  | nil => simp
  | cons a l ih => rw [List.flatMap_cons, List.length_append, List.length_append]; simp only [List.length_cons, List.length_nil]; omega

theorem headers_chars : ∀ c ∈ headers, c ≠ '\n' := by decide

/-- The file, line by line. -/
theorem writeCSV_lines (fmt : ℚ → Str) (bounded : Bool) (s : SDSet n) :
    writeCSV fmt bounded s = (headers :: s.buckets.flatMap fun b => b.2.map fun d => body fmt bounded b.1 d).flatMap fun a => a ++ ['\n'] := by
  unfold writeCSV
  rw [List.flatMap_cons, List.flatMap_assoc]
  congr 1
  refine congrArg (fun f => List.flatMap f s.buckets) (funext fun b => ?_)
  rw [List.flatMap_map]
  exact congrArg (fun f => List.flatMap f b.2) (funext fun d => line_eq fmt bounded b.1 d)

theorem read_write {fmt : ℚ → Str} (hf : PlainFormat fmt) (bounded : Bool) {s : SDSet n} (hs : s.WF) :
    read (writeCSV fmt bounded s) = some (s.members.map fun d => ⟨d.size, fmt d.thr, shown bounded d⟩) := by
  unfold read
  rw [writeCSV_lines, linesOf_flatMap _ _ (Nat.lt_succ_of_le (length_lines _))]
  · simp only [Option.bind_eq_bind, Option.bind_some]
    rw [if_pos (show headers = "storage distribution size;throughput;channel quantities".toList from rfl)]
    have e : (s.buckets.flatMap fun b => b.2.map fun d => body fmt bounded b.1 d) = s.members.map fun d => body fmt bounded d.size d := by
      unfold SDSet.members
      rw [List.map_flatMap, List.flatMap_def, List.flatMap_def]
      congr 1
      refine List.map_congr_left fun b hb => List.map_congr_left fun d hd => ?_
      rw [(hs.filed b hb d hd).1]
    rw [e, List.mapM_map]
    exact Text.mapM_some (fun d _ => readLine_body hf bounded d.size d)
  · intro a ha
    rcases List.mem_cons.mp ha with rfl | ha
    · exact headers_chars
    · obtain ⟨b, -, hb⟩ := List.mem_flatMap.mp ha
      obtain ⟨d, -, rfl⟩ := List.mem_map.mp hb
      exact fun c hc => body_chars hf hc

theorem sizes_sorted {s : SDSet n} (hs : s.WF) : s.members.Pairwise fun x y => x.size ≤ y.size := by
  unfold SDSet.members
  rw [List.pairwise_flatMap]
  refine ⟨fun b hb => ?_, ?_⟩
  · refine List.Pairwise.imp_of_mem (R := fun _ _ => True) (fun hx hy _ => ?_) (List.pairwise_of_forall fun _ _ => trivial)
    rw [(hs.filed b hb _ hx).1, (hs.filed b hb _ hy).1]
  · refine hs.sorted.imp_of_mem fun ha hb h x hx y hy => ?_
    rw [(hs.filed _ ha x hx).1, (hs.filed _ hb y hy).1]
    exact h.le

theorem shown_ofFn (bounded : Bool) (d : SD n) : shown bounded d = (List.ofFn d.quantity).drop (if bounded then n / 2 else 0) := by
  unfold shown
  rw [List.ofFn_eq_map, List.map_drop]

/-- The second half of the edges are the feedback edges. -/
theorem shown_feedback {m : ℕ} (d : SD (m + m)) : shown true d = List.ofFn fun i : Fin m => d.quantity (Fin.natAdd m i) := by
  rw [shown_ofFn]
  refine List.ext_getElem (by simp; omega) fun i h1 h2 => ?_
  simp only [List.length_ofFn] at h2
  simp only [if_true, List.getElem_drop, List.getElem_ofFn]
  congr 1
  apply Fin.ext
  simp only [Fin.natAdd_mk]
  omega

/-- **C132 (the file).** Whatever distributions were added to and removed from a set, a reader of the file written for it gets
one row per distribution of the set, in order of size: the sum of all quantities, the throughput as formatted, and the
quantities of the edges in order; of the second half of the edges only, when the first half are the original channels of a
graph extended by feedback channels. -/
theorem _root_.Kiter.C132_file {fmt : ℚ → Str} (hf : PlainFormat fmt) (bounded : Bool) (ops : List (SetOp n))
    (h : ∀ op ∈ ops, op.arg.size = ∑ e, op.arg.quantity e) :
    let s := ops.foldl SetOp.run SDSet.empty
    ∃ rows, read (writeCSV fmt bounded s) = some rows ∧ (rows.Pairwise fun x y => x.size ≤ y.size) ∧
      rows = s.members.map fun d =>
        ⟨∑ e, d.quantity e, fmt d.thr, (List.ofFn d.quantity).drop (if bounded then n / 2 else 0)⟩ := by
  intro s
  obtain ⟨w, -⟩ := setHistory ops SDSet.empty SDSet.wf_empty ∅ (by simp [SDSet.members_empty]) h
  refine ⟨_, read_write hf bounded w, ?_, ?_⟩
  · rw [List.pairwise_map]; exact sizes_sorted w
  · refine List.map_congr_left fun d hd => ?_
    rw [shown_ofFn]
    have : d.size = ∑ e, d.quantity e := w.consistent hd
    rw [this]

/-- **C132 (faithful).** Without feedback channels, the file determines the quantities of all the distributions of the set. -/
theorem _root_.Kiter.C132_faithful {fmt : ℚ → Str} (hf : PlainFormat fmt) (ops ops' : List (SetOp n))
    (h : ∀ op ∈ ops, op.arg.size = ∑ e, op.arg.quantity e) (h' : ∀ op ∈ ops', op.arg.size = ∑ e, op.arg.quantity e)
    (ht : writeCSV fmt false (ops.foldl SetOp.run SDSet.empty) = writeCSV fmt false (ops'.foldl SetOp.run SDSet.empty)) :
    (ops.foldl SetOp.run SDSet.empty).members.map SD.quantity = (ops'.foldl SetOp.run SDSet.empty).members.map SD.quantity := by
  obtain ⟨r, h1, -, h2⟩ := C132_file hf false ops h
  obtain ⟨r', h3, -, h4⟩ := C132_file hf false ops' h'
  rw [ht, h3] at h1
  cases Option.some.inj h1
  rw [h4] at h2
  have key : ∀ l : List (SD n), ((l.map fun d => (⟨∑ e, d.quantity e, fmt d.thr, (List.ofFn d.quantity).drop
      (if false = true then n / 2 else 0)⟩ : Row)).map fun r => (r.quantities)) = (l.map SD.quantity).map List.ofFn := by
    intro l; simp [Function.comp_def]
  have := congrArg (List.map Row.quantities) h2
  rw [key, key] at this
  exact (List.map_injective_iff.mpr List.ofFn_injective this).symm

/-- **C132 (the front).** The file written at the end of the buffer exploration of a graph with the K-periodic analysis (under
the hypotheses of C70) gives, to a reader that knows nothing but the graph, its Pareto front:
* in every row, the size is the sum of the quantities, there is one quantity per channel of the graph, and the throughput is
  the one of the graph with these capacities, over all schedules, or 0 in a row of zeros;
* for all capacities not below the initial ones, some row is no larger and has their throughput up to twice the tolerance;
* the rows come in order of size. -/
theorem _root_.Kiter.C132_front {B : BaseGraph} {solve : List EvConstraint → Option (ℚ × List EvConstraint)} {fuel : ℕ}
    {D : DSE (B.m + B.m)} {init : SD (B.m + B.m)} {fmt : ℚ → Str} (hf : PlainFormat fmt)
    (hB : BaseOK B) (hids : ∀ c ∈ B.channels, c.1.id ≤ B.m) (hE : Explores solve B fuel D init)
    (hsolve : SolverOK B solve) (hmax : ∀ i, init.quantity (Fin.natAdd B.m i) < 2147483647) (heps : 0 < D.eps)
    (htarget : D.eps ≤ D.target) (rounds : ℕ) (R : SDSet (B.m + B.m)) (hR : D.exploreAll init rounds = some (some R)) :
    ∃ rows, read (writeCSV fmt true R) = some rows ∧ (rows.Pairwise fun x y => x.size ≤ y.size) ∧
      (∀ r ∈ rows, r.size = r.quantities.sum ∧ ∃ (w : Fin B.m → Int) (thr : ℚ), r.quantities = List.ofFn w ∧
        r.throughput = fmt thr ∧ (HasThroughput B w thr ∨ (w = 0 ∧ thr = 0))) ∧
      (∀ (w : Fin B.m → Int) (thr : ℚ), (∀ i, init.quantity (Fin.natAdd B.m i) ≤ w i) → HasThroughput B w thr →
        ∃ r ∈ rows, r.size ≤ ∑ i, w i ∧ ∃ t, r.throughput = fmt t ∧ thr - 2 * D.eps < t) := by
  have hpos : 0 < D.target := by linarith
  have hinit : init.size = ∑ e, init.quantity e := by
    rw [hE.size, foldl_add_eq, Fin.sum_univ_def]; simp
  have hstep := hE.step_pos hB hids
  have hbound : ∀ q, D.Lattice init.quantity q → D.thrOf q ≤ D.target := fun q hq =>
    hE.bounded_by_target hB hids hsolve hmax hpos (DSE.lattice_ge hstep hq)
  have hcrit := hE.criticalComplete hB hids hsolve hmax
  have h0 : ∀ e, 0 ≤ init.quantity e := by
    intro e
    induction e using Fin.addCases with
    | left i => rw [hE.original]
    | right i => exact le_trans (channel_ok hB i).preload (hE.start_spec hB hmax i).1
  obtain ⟨c1, c2, -⟩ := (C54_front_to_the_end D init hinit h0 heps htarget hstep hbound hcrit rounds).2 R hR
  have hw : R.WF := by
    obtain ⟨-, l2⟩ := DSE.loop_spec D init.quantity heps hstep hcrit rounds (DSE.inv_init D init hinit hstep)
    unfold DSE.exploreAll at hR
    cases hx : D.explore init rounds with
    | none => rw [hx] at hR; simp at hR
    | some o =>
      cases o with
      | none => rw [hx] at hR; simp at hR
      | some R0 =>
        obtain ⟨C, E, h, -⟩ := l2 R0 hx
        rw [hx] at hR
        simp only at hR
        by_cases hne : R0.members = []
        · rw [SDSet.finish_none hne h.wfR] at hR; simp at hR
        · obtain ⟨R', d, f1, -, -, f2, -⟩ := SDSet.finish_spec h.wfR hne
          rw [f1] at hR
          cases Option.some.inj (Option.some.inj hR)
          exact f2
  refine ⟨_, read_write hf true hw, ?_, ?_, ?_⟩
  · rw [List.pairwise_map]; exact sizes_sorted hw
  · intro r hr
    obtain ⟨d, hd, rfl⟩ := List.mem_map.mp hr
    simp only
    rw [shown_feedback, List.sum_ofFn]
    rcases c2 d hd with ⟨h1, h2, h3⟩ | ⟨h1, h2, h3⟩
    · refine ⟨by rw [h2, sum_caps (((hE.lattice_iff hids).1 h1).1)]; rfl, _, d.thr, rfl, rfl, Or.inl ?_⟩
      rw [h3]; exact hE.throughput hB hids hsolve hmax (DSE.lattice_ge hstep h1)
    · refine ⟨by rw [h2]; simp [h1], _, d.thr, rfl, rfl, Or.inr ⟨funext fun i => h1 _, h3⟩⟩
  · intro w thr hwi hthr
    obtain ⟨k, hk1, hk2⟩ := round_schedules hB hE hmax w hwi
    set w' : Fin B.m → Int := fun i => init.quantity (Fin.natAdd B.m i) + k i * D.step (Fin.natAdd B.m i) with hw'
    have hlat : D.Lattice init.quantity (ofCaps w') := by
      rw [hE.lattice_iff hids]
      exact ⟨fun i => by simp [ofCaps], fun i => ⟨k i, by rw [caps_ofCaps]⟩⟩
    have h1 := hE.throughput hB hids hsolve hmax (DSE.lattice_ge hstep hlat)
    rw [caps_ofCaps] at h1
    have h2 := (hthr.congr hk2).unique h1
    obtain ⟨r, hr, h3, h4⟩ := c1 _ hlat
    refine ⟨_, List.mem_map.mpr ⟨r, hr, rfl⟩, ?_, r.thr, rfl, by rw [h2]; exact h4⟩
    rw [sum_caps (((hE.lattice_iff hids).1 hlat).1), caps_ofCaps] at h3
    exact h3.trans (Finset.sum_le_sum fun i _ => hk1 i)

/-- **C132 (rounding).** The throughputs themselves cannot be read back: a stream with a fixed precision has finitely many texts for
floating point numbers, and then two sets whose only distribution has the same quantities and a different throughput give the
same file. -/
theorem _root_.Kiter.C132_rounding_counterexample {fmt : ℚ → Str} (hf : (Set.range fmt).Finite) :
    ∃ a b : ℚ, a ≠ b ∧ ∀ (bounded : Bool) (q i : Fin n → Int) (z : Int),
      writeCSV fmt bounded (SDSet.single z ⟨q, i, a, z⟩) = writeCSV fmt bounded (SDSet.single z ⟨q, i, b, z⟩) := by
  have := hf.to_subtype
  obtain ⟨a, b, hab, h⟩ := Finite.exists_ne_map_eq_of_infinite (Set.rangeFactorization fmt)
  have h : fmt a = fmt b := congrArg Subtype.val h
  refine ⟨a, b, hab, fun bounded q i z => ?_⟩
  simp only [writeCSV, SDSet.single, List.flatMap_cons, List.flatMap_nil, line, h, quantitiesCsv_eq, shown]

/-! ### Concrete cases -/

/-- Throughputs as fractions. -/
def fracText (x : ℚ) : Str := showInt x.num ++ '/' :: dec x.den

theorem fracText_plain : PlainFormat fracText := by
  intro x c hc
  unfold fracText at hc
  rcases List.mem_append.mp hc with hc | hc
  · exact ⟨(show_chars hc).2.1, (show_chars hc).2.2⟩
  · rcases List.mem_cons.mp hc with rfl | hc
    · decide
    · have : c ∈ showInt (x.den : Int) := by
        unfold showInt; rw [if_neg (by omega)]; simpa using hc
      exact ⟨(show_chars this).2.1, (show_chars this).2.2⟩

/-- The file of a set of two distributions of a graph with one channel and its feedback channel. -/
example : writeCSV fracText true (([.add ⟨![0, 3], ![0, 0], 1 / 5, 3⟩, .add ⟨![0, 2], ![0, 0], 1 / 7, 2⟩] : List (SetOp 2)).foldl
    SetOp.run SDSet.empty) =
    "storage distribution size;throughput;channel quantities\n2;1/7;\"2\"\n3;1/5;\"3\"\n".toList := by decide +kernel

/-- And without feedback channels. -/
example : read (writeCSV fracText false (([.add ⟨![4, 3], ![0, 0], 1 / 5, 7⟩, .add ⟨![1, 2], ![0, 0], 1 / 7, 3⟩] : List (SetOp 2)).foldl
    SetOp.run SDSet.empty)) = some [⟨3, "1/7".toList, [1, 2]⟩, ⟨7, "1/5".toList, [4, 3]⟩] := by decide +kernel

open BufferExample in
/-- The file of the exploration of the example of C70. -/
example : (((exploration exhaustive G 5 (1 / 1000)).exploreAll (initialSD G) 20).map fun o => o.map fun r =>
    writeCSV fracText true r) = some (some
    "storage distribution size;throughput;channel quantities\n2;1/7;\"2\"\n3;1/5;\"3\"\n4;1/4;\"4\"\n".toList) := by
  decide +kernel

end FrontFile
end Kiter
