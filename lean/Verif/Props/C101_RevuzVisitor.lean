import Verif.Proofs.RevuzVisitor

/-!
# C101: the visitor of `revuz_minimize`
-/

namespace PyBGL
open Automaton RevuzG
variable {A L : Type} [DecidableEq A] [DecidableEq L]

namespace RevuzG

theorem autLawsV (vl : Nat → L) : LawsV (autOpsV (A := A) vl) IAutomaton.WF where
  toLaws := autLaws vl
  erase := fun g q r a => by
    show Except.map _ (Except.map _ (g.addEdge q r a)) = Except.map _ (g.addEdge q r a)
    cases g.addEdge q r a <;> rfl
  newEdge := by
    intro g ga g' q1 e e' hw h1 _ he hr ha
    obtain ⟨ga', i1, i2, i3⟩ := IAutomaton.removeEdge_WF hw ((mem_edges hw.out).2 he)
    have : ga' = ga := by
      have hr : g.removeEdge e = .ok ga := hr
      rw [i1] at hr; exact Except.ok.inj hr
    subst this
    obtain ⟨_, j2, _, _, _, j6⟩ := Automaton.removeEdge_spec hw.out e
    rw [← i3] at j2 j6
    have hd : ga'.a.delta e.source e.distinguisher = none := by rw [j6]; simp
    have hs : e.source ∈ ga'.a.vertices := by rw [j2]; exact delta_mem_vertices he
    have ha : (ga'.addEdge e.source q1 e.distinguisher).map (fun x => (x.1, x.2.2)) = .ok (e', g') := ha
    unfold IAutomaton.addEdge at ha
    rw [addEdge_of_free (.inl hd) hs] at ha
    simp only [bind, Except.bind, if_true] at ha
    cases hin : ga'.inAdj.getE q1 with
    | error _ => rw [hin] at ha; cases ha
    | ok ins =>
      rw [hin] at ha
      simp only at ha
      split at ha <;> cases ha <;> rfl

theorem nodeLawsV : LawsV (nodeOpsV (A := A)) INodeAutomaton.WF where
  toLaws := nodeLaws
  erase := fun g q r a => by
    show Except.map _ (Except.map _ (g.addEdge q r)) = Except.map _ (g.addEdge q r)
    cases g.addEdge q r <;> rfl
  newEdge := by
    intro g ga g' q1 e e' hw h1 hlab he hr ha
    obtain ⟨ga', i1, i2, i3, i4, i5, i6, i7⟩ := node_removeEdge hw he
    have : ga' = ga := by
      have hr : g.removeEdge e = .ok ga := hr
      rw [i1] at hr; exact Except.ok.inj hr
    subst this
    have hsym : ∀ v, ga'.n.symbol v = g.n.symbol v := fun v => by unfold NodeAutomaton.symbol; rw [i3]
    have hq : ga'.n.symbol q1 = e.distinguisher := by
      rw [hsym]; exact hlab.trans (hw.n.label _ _ _ he).symm
    have hs : e.source ∈ ga'.n.vertices := by
      show _ ∈ ga'.n.a.vertices
      rw [i4]; exact delta_mem_vertices he
    have ha : (ga'.addEdge e.source q1).map (fun x => (x.1, x.2.2)) = .ok (e', g') := ha
    unfold INodeAutomaton.addEdge at ha
    rw [(NodeAutomaton.addEdge_spec q1 hs).2 (by rw [i7, hq]; simp), hq] at ha
    cases ha
    rfl

end RevuzG

/-- **C101, `IncidenceAutomaton`**, with labels on the states or none (take for `vlabel` a constant function): a visitor changes nothing to the result. Each
state that is removed is handed once to `states_merged`, as second argument, with a state that remains to the end, has a smaller identifier and cannot be
distinguished from it. The calls come as `Merges` says. -/
theorem C101_automaton {g : IAutomaton A} (h : IAutomaton.SafeHistory g) (hac : ¬ HasCycle g.toI) (vlabel : Nat → L)
    {ord ordH : SetOracle Nat} (hord : ord.Valid) (hordH : ordH.Valid) {ordE : Nat → SetOracle (EdgeDesc A)} (hE : ∀ t, (ordE t).Valid)
    {leaves : List Nat} (hL : leaves = [] ∨ (leaves.Nodup ∧ ∀ v, v ∈ leaves ↔ v ∈ sinks g.toI)) :
    ∃ g' hmax log, Returns (minimizeV (autOpsV vlabel) ord ordH ordE g leaves) (.ok (g', hmax, log)) ∧
      Returns (g.revuzMinimize vlabel ord ordH ordE leaves) (.ok (g', hmax)) ∧
      (∀ v, v ∈ g.a.vertices ∧ v ∉ g'.a.vertices ↔ ∃ u, (u, v) ∈ mergedPairs log) ∧
      ((mergedPairs log).map Prod.snd).Nodup ∧
      (∀ u v, (u, v) ∈ mergedPairs log → u ∈ g'.a.vertices ∧ u < v ∧ g.a.LabelIndist vlabel u v) ∧
      Merges IAutomaton.a g log g' := by
  obtain ⟨g', hmax, log, h1, h2, h3, h4, h5, h6⟩ := minimizeV_spec (autLawsV vlabel) h.wf hac hord hordH hE hL
  refine ⟨g', hmax, log, h1, h2, fun v => ?_, h5, fun u v huv => ?_, h3⟩
  · have hv : v ∈ g'.a.vertices ↔ v ∈ g.a.vertices ∧ v ∉ (mergedPairs log).map Prod.snd := h4 v
    rw [hv]
    constructor
    · rintro ⟨a, b⟩
      have : v ∈ (mergedPairs log).map Prod.snd := by
        by_contra hn; exact b ⟨a, hn⟩
      obtain ⟨p, hp, rfl⟩ := List.mem_map.mp this
      exact ⟨p.1, hp⟩
    · rintro ⟨u, hu⟩
      exact ⟨(h6 _ hu).2.1, fun hn => hn.2 (List.mem_map.mpr ⟨_, hu, rfl⟩)⟩
  · obtain ⟨a, _, c, d⟩ := h6 _ huv
    exact ⟨a, c, (out_labelIndist (o := autOps vlabel) h.wf.out u v).mp d⟩

/-- **C101, `IncidenceNodeAutomaton`.** -/
theorem C101_node {g : INodeAutomaton A} (h : g.SafeHistory) (hac : ¬ HasCycle g.toI) {ord ordH : SetOracle Nat} (hord : ord.Valid)
    (hordH : ordH.Valid) {ordE : Nat → SetOracle (EdgeDesc (Option A))} (hE : ∀ t, (ordE t).Valid) {leaves : List Nat}
    (hL : leaves = [] ∨ (leaves.Nodup ∧ ∀ v, v ∈ leaves ↔ v ∈ sinks g.toI)) :
    ∃ g' hmax log, Returns (minimizeV nodeOpsV ord ordH ordE g leaves) (.ok (g', hmax, log)) ∧
      Returns (g.revuzMinimize ord ordH ordE leaves) (.ok (g', hmax)) ∧
      (∀ v, v ∈ g.n.vertices ∧ v ∉ g'.n.vertices ↔ ∃ u, (u, v) ∈ mergedPairs log) ∧
      ((mergedPairs log).map Prod.snd).Nodup ∧
      (∀ u v, (u, v) ∈ mergedPairs log → u ∈ g'.n.vertices ∧ u < v ∧ g.n.symbol u = g.n.symbol v ∧ g.n.a.Indist u v) ∧
      Merges (fun g => g.n.a) g log g' := by
  obtain ⟨g', hmax, log, h1, h2, h3, h4, h5, h6⟩ := minimizeV_spec nodeLawsV h.wf hac hord hordH hE hL
  refine ⟨g', hmax, log, h1, h2, fun v => ?_, h5, fun u v huv => ?_, h3⟩
  · have hv : v ∈ g'.n.vertices ↔ v ∈ g.n.vertices ∧ v ∉ (mergedPairs log).map Prod.snd := h4 v
    rw [hv]
    constructor
    · rintro ⟨a, b⟩
      have : v ∈ (mergedPairs log).map Prod.snd := by
        by_contra hn; exact b ⟨a, hn⟩
      obtain ⟨p, hp, rfl⟩ := List.mem_map.mp this
      exact ⟨p.1, hp⟩
    · rintro ⟨u, hu⟩
      exact ⟨(h6 _ hu).2.1, fun hn => hn.2 (List.mem_map.mpr ⟨_, hu, rfl⟩)⟩
  · obtain ⟨a, _, c, d⟩ := h6 _ huv
    obtain ⟨e, f⟩ := (node_out h.wf u v).mp d
    exact ⟨a, c, e, f⟩

/-- The two pairs of equivalent states of `nodes` are merged, whatever the enumerations of the sets. -/
example {ord ordH : SetOracle Nat} (hord : ord.Valid) (hordH : ordH.Valid) {ordE : Nat → SetOracle (EdgeDesc (Option Char))}
    (hE : ∀ t, (ordE t).Valid) : ∃ g' hmax log, Returns (minimizeV nodeOpsV ord ordH ordE (Examples.nodes 0) []) (.ok (g', hmax, log)) ∧
      ∃ u, (u, 1) ∈ mergedPairs log := by
  obtain ⟨g', hmax, log, h1, h2, h3, _⟩ := C101_node (Examples.nodes_safe 0) (Examples.nodes_acyclic 0) hord hordH hE (leaves := []) (.inl rfl)
  refine ⟨g', hmax, log, h1, (h3 1).mp ⟨by decide, fun h => ?_⟩⟩
  obtain ⟨g'', hmax', h4, _, h5, _⟩ := C92_node_minimal (Examples.nodes_safe 0) (Examples.nodes_acyclic 0) hord hordH hE (leaves := []) (.inl rfl)
  have := returns_unique h2 h4
  simp only [Except.ok.injEq, Prod.mk.injEq] at this
  obtain ⟨rfl, rfl⟩ := this
  have := ((h5 1).mp h).2 0 (by decide) (Examples.nodes_indist 0).1 (Examples.nodes_indist 0).2
  omega

end PyBGL
