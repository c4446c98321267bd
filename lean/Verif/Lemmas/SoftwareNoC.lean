/-
The effect of the modelling of transfers in the command SoftwareControlledNoCBufferless on the lists of tasks and channels.
-/
import Verif.Model.SoftwareNoC
import Verif.Lemmas.Transform

set_option autoImplicit false

namespace Kiter.DF

theorem eff_swEdge {s t : State} (hi : Inv s) {a b : Nat} {r : Int} (hm : swEdge s a b r = some t) :
    a < s.verts.length ∧ b < s.verts.length ∧ Single s.verts a ∧ Single s.verts b ∧ Keep s.verts t.verts ∧
      ∃ (id : Int) (nm : String), Eff s t t.verts (s.edges ++ [one s.nextKey a b id nm r 1 0]) (s.nextKey + 1) := by
  unfold swEdge at hm
  obtain ⟨s1, h1, hm⟩ := Option.bind_eq_some_iff.mp hm
  obtain ⟨s3, h3, hm⟩ := Option.bind_eq_some_iff.mp hm
  obtain ⟨s4, h4, h5⟩ := Option.bind_eq_some_iff.mp hm
  obtain ⟨ha, hb, id, e1⟩ := eff_addEdge hi h1
  obtain ⟨p3, e3⟩ := eff_setEdgeIn e1.inv e1.edges rfl h3
  obtain ⟨p4, e4⟩ := eff_setEdgeOut e3.inv e3.edges rfl h4
  have e5 := eff_setPreload e4.inv e4.edges rfl h5
  rw [e1.verts] at p3
  have k1 : Keep s.verts s3.verts := by
    rw [e3.verts, e1.verts]
    exact Keep.modify p3
  have k2 : Keep s3.verts t.verts := by
    rw [e5.verts, e4.verts]
    exact Keep.modify p4
  refine ⟨ha, hb, p3, Single.of_keep k1 p4 hb, k1.trans k2, id, "", e5.inv, rfl, ?_, ?_,
    e5.writable⟩
  · rw [e5.edges]; rfl
  · rw [e5.next, e4.next, e3.next, e1.next]

theorem eff_swLink {s1 s2 s3 : State} {nm : String} {r : Int} {a : Nat} {d : ℚ} (hi : Inv s1)
    (h1 : pathTask s1 nm d = some s2) (h2 : swEdge s2 a s1.verts.length r = some s3) (ha : a < s1.verts.length) :
    ∃ (x : Vtx) (f : Edg), x.phases = 1 ∧ x.durs = [d] ∧ Keep (s1.verts ++ [x]) s3.verts ∧
      (f.src = a ∧ f.tgt = s1.verts.length ∧ f.ins = [r] ∧ f.outs = [1] ∧ f.preload = 0 ∧ f.iins = [] ∧ f.iouts = []) ∧
      Single s1.verts a ∧ s3.verts.length = s1.verts.length + 1 ∧ Eff s1 s3 s3.verts (s1.edges ++ [f]) s3.nextKey := by
  obtain ⟨id, e2, -⟩ := eff_pathTask hi h1
  obtain ⟨-, -, p1, -, k, id3, nm3, e3⟩ := eff_swEdge e2.inv h2
  rw [e2.verts] at k p1
  refine ⟨⟨id, nm, 1, 0, [d], 0, []⟩, one s2.nextKey a s1.verts.length id3 nm3 r 1 0, rfl, rfl, k,
    ⟨rfl, rfl, rfl, rfl, rfl, rfl, rfl⟩, ?_, ?_, e3.inv, rfl, ?_, rfl, e3.writable⟩
  · obtain ⟨x, hx, hp⟩ := p1
    rw [List.getElem?_append_left ha] at hx
    exact ⟨x, hx, hp⟩
  · rw [k.1]; simp
  · rw [e3.edges, e2.edges]

theorem swLoop_spec (a b : Int) : ∀ (route : List Int) (s : State) (src : Nat)
    (rate : Int) (s' : State) (last : Nat), Inv s → s.readonly = false → src < s.verts.length →
    swLoop a b s src rate route = some (s', last) →
    ∃ L : List Edg, L.length = hops true route ∧ ChainEdges s.verts.length src rate L ∧
      last = (if hops true route = 0 then src else s.verts.length + hops true route - 1) ∧
      s'.verts.length = s.verts.length + hops true route ∧ Grown true s.verts s'.verts ∧
      (route ≠ [] → Single s.verts src) ∧
      Eff s s' s'.verts (s.edges ++ L) s'.nextKey := by
  intro route
  induction route with
  | nil =>
    intro s src rate s' last hi hw hs hm
    rw [swLoop] at hm
    have := Option.some.inj hm
    cases this
    refine ⟨[], rfl, ?_, rfl, rfl, Grown.refl _ _, fun h => absurd rfl h, hi, rfl, by simp, rfl, hw⟩
    intro i e he
    simp at he
  | cons e rest ih =>
    intro s src rate s' last hi hw hs hm
    rw [swLoop] at hm
    obtain ⟨s2, h2, hm⟩ := Option.bind_eq_some_iff.mp hm
    obtain ⟨s3, h3, hm⟩ := Option.bind_eq_some_iff.mp hm
    obtain ⟨x, f, hx1, hx2, hk, hf, hsg, hl3, e3⟩ := eff_swLink hi h2 h3 hs
    -- the turn without a router
    have plain : swLoop a b s3 s.verts.length 1 rest = some (s', last) →
        rest = [] →
        ∃ L : List Edg, L.length = hops true (e :: rest) ∧ ChainEdges s.verts.length src rate L ∧
        last = (if hops true (e :: rest) = 0 then src else s.verts.length + hops true (e :: rest) - 1) ∧
        s'.verts.length = s.verts.length + hops true (e :: rest) ∧ Grown true s.verts s'.verts ∧
        (e :: rest ≠ [] → Single s.verts src) ∧ Eff s s' s'.verts (s.edges ++ L) s'.nextKey := by
      intro hm hr
      obtain ⟨L, g1, g2, g3, g4, g5, -, g7⟩ := ih s3 s.verts.length 1 s' last e3.inv e3.writable (by omega) hm
      have hh : hops true (e :: rest) = 1 + hops true rest := by
        subst hr; rfl
      have hpos := hops_cons_pos true e rest
      refine ⟨f :: L, by simp [g1, hh]; omega, ?_, ?_, by omega, ?_, fun _ => hsg, g7.inv, rfl, ?_, rfl, g7.writable⟩
      · rw [hl3] at g2
        exact chain_cons g2 hf
      · rw [if_neg (by omega), g3, hh]
        split <;> omega
      · refine Grown.step hk hx1 hx2 g5 ?_
        intro _
        subst hr
        rw [g4]; rfl
      · rw [g7.edges, e3.edges]; simp
    cases rest with
    | nil => exact plain hm rfl
    | cons e2 rest =>
      simp only at hm
      obtain ⟨s4, h4, hm⟩ := Option.bind_eq_some_iff.mp hm
      obtain ⟨s5, h5, hm⟩ := Option.bind_eq_some_iff.mp hm
      have h5' : swEdge s4 s.verts.length s3.verts.length 1 = some s5 := h5
      obtain ⟨y, f2, hy1, hy2, hk2, hf2, -, hl5, e5⟩ := eff_swLink e3.inv h4 h5' (by omega)
      obtain ⟨L, g1, g2, g3, g4, g5, -, g7⟩ := ih s5 s3.verts.length 1 s' last e5.inv e5.writable (by omega) hm
      have hh : hops true (e :: e2 :: rest) = 2 + hops true (e2 :: rest) := by rw [hops]; simp
      have hpos := hops_cons_pos true e2 rest
      refine ⟨f :: f2 :: L, by simp [g1, hh]; omega, ?_, ?_, by omega, ?_, fun _ => hsg, g7.inv, rfl, ?_, rfl,
        g7.writable⟩
      · rw [hl5, hl3] at g2
        rw [hl3] at hf2
        exact chain_cons (chain_cons g2 hf2) hf
      · rw [if_neg (by omega), g3, if_neg (by omega), hh]
        omega
      · exact Grown.step2 hk hx1 hx2 hk2 hy1 hy2 g5
      · rw [g7.edges, e5.edges, e3.edges]; simp

end Kiter.DF
