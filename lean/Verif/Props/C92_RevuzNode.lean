import Verif.Proofs.RevuzNode
import Verif.Props.C21_C22_NodeAutomaton
import Verif.Props.C42_Revuz
import Verif.Props.C88_C89_NodeAutomaton

/-!
# C92: `revuz_minimize` on node automata, and with labelled states
-/

namespace PyBGL
open Automaton
variable {A L : Type} [DecidableEq A] [DecidableEq L]

namespace RevuzG

/-! ## `IncidenceAutomaton` -/

theorem autLaws (vl : Nat → L) : Laws (autOps (A := A) vl) IAutomaton.WF where
  out := fun hw => hw.out
  target := fun hw h => Revuz.target_mem hw h
  inEdges := fun hw r e => IAutomaton.mem_inEdges hw r e
  nodupIn := fun hw r => IAutomaton.nodup_inEdges hw r
  elabel := fun _ _ => rfl
  move := by
    intro g q1 e hw h1 _ he
    obtain ⟨ga, i1, i2, i3⟩ := IAutomaton.removeEdge_WF hw ((mem_edges hw.out).2 he)
    obtain ⟨_, j2, _, j4, j5, j6⟩ := Automaton.removeEdge_spec hw.out e
    rw [← i3] at j2 j4 j5 j6
    have hs : e.source ∈ g.a.vertices := delta_mem_vertices he
    obtain ⟨e', b, g', k1, k2, k3⟩ := Revuz.addEdge_ok i2 (q := e.source) (r := q1) (a := e.distinguisher)
      (by rw [j2]; exact hs) (by rw [j2]; exact h1) (by rw [j6]; simp)
    refine ⟨g', ?_, k2, ?_, ?_, ?_, rfl, ?_⟩
    · unfold moveEdge
      simp only [autOps, i1, k1]
      rfl
    · show g'.a.vertices = _
      rw [k3, vertices_setDelta _ _ (by rw [j2]; exact hs), j2]; rfl
    · show g'.a.q0 = _
      rw [k3]; exact j4
    · show g'.a.final = _
      rw [k3]; exact j5
    · intro p a
      show g'.a.delta p a = _
      rw [k3, delta_setDelta, j6]
      show _ = if _ then _ else g.a.delta p a
      by_cases h : e.source = p ∧ e.distinguisher = a
      · simp [h]
      · simp [h]
  remove := by
    intro g u hw hu
    obtain ⟨g', h1, h2, h3, _, h5, h6, h7⟩ := IAutomaton.removeVertex_WF hw hu
    exact ⟨g', h1, h2, h3, h5, h6, rfl, h7⟩

/-! ## `IncidenceNodeAutomaton` -/

theorem node_removeVertex {g g' : INodeAutomaton A} {u : Nat} (h : g.removeVertex u = .ok g') :
    g'.n.a.q0 = g.n.a.q0 ∧ g'.n.a.final = g.n.a.final := by
  unfold INodeAutomaton.removeVertex at h
  cases h1 : g.dropIn u with
  | error e => rw [h1] at h; cases h
  | ok x =>
    obtain ⟨adj, pred⟩ := x
    rw [h1] at h
    simp only [bind, Except.bind] at h
    split at h
    · cases h2 : (⟨{ g.n.a with adj }, g.n.symbols⟩ : NodeAutomaton A).outEdges u with
      | error e => rw [h2] at h; cases h
      | ok es =>
        rw [h2] at h
        simp only at h
        cases h3 : adj.delE u with
        | error e => rw [h3] at h; cases h
        | ok adj' => rw [h3] at h; cases h; exact ⟨rfl, rfl⟩
    · cases h; exact ⟨rfl, rfl⟩

theorem node_removeEdge {g : INodeAutomaton A} (hw : INodeAutomaton.WF g) {e : EdgeDesc (Option A)}
    (he : g.n.a.delta e.source e.distinguisher = some e.target) :
    ∃ g', g.removeEdge e = .ok g' ∧ INodeAutomaton.WF g' ∧ g'.n.symbols = g.n.symbols ∧ g'.n.a.vertices = g.n.a.vertices ∧
      g'.n.a.q0 = g.n.a.q0 ∧ g'.n.a.final = g.n.a.final ∧
      ∀ p a, g'.n.a.delta p a = if e.source = p ∧ e.distinguisher = a then none else g.n.a.delta p a := by
  have hl := hw.n.label _ _ _ he
  have hm : e.source ∈ g.pred.getD e.target [] := (hw.mirror _ _).2 (by rw [← hl]; exact he)
  obtain ⟨s, hs⟩ : ∃ s, setRemoveE (g.pred.getD e.target []) e.source = .ok s :=
    ⟨_, (setRemoveE_ok_iff _ _ _).2 ⟨hm, rfl⟩⟩
  have hr : g.removeEdge e = .ok ⟨g.n.removeEdge e, g.pred.set e.target s⟩ := by
    unfold INodeAutomaton.removeEdge
    rw [hs]; rfl
  obtain ⟨_, j2, _, j4, j5, j6⟩ := Automaton.removeEdge_spec hw.n.out ⟨e.source, e.target, g.n.symbol e.target⟩
  refine ⟨_, hr, INodeAutomaton.exec_WF (op := .removeEdge e) hw trivial hr, ?_, ?_, ?_, ?_, ?_⟩ <;> simp only [NodeAutomaton.removeEdge_eq]
  · exact j2
  · exact j4
  · exact j5
  · intro p a
    rw [j6, hl]

theorem node_addEdge {g : INodeAutomaton A} (hw : INodeAutomaton.WF g) {q r : Nat} (hq : q ∈ g.n.a.vertices) (hr : r ∈ g.n.a.vertices)
    (h0 : g.n.a.delta q (g.n.symbol r) = none) :
    ∃ e b g', g.addEdge q r = .ok (e, b, g') ∧ INodeAutomaton.WF g' ∧ g'.n.symbols = g.n.symbols ∧
      g'.n.a = g.n.a.setDelta q r (g.n.symbol r) := by
  have h : g.addEdge q r = .ok (some ⟨q, r, g.n.symbol r⟩, true,
      ⟨⟨g.n.a.setDelta q r (g.n.symbol r), g.n.symbols⟩, g.pred.set r (setAdd (g.pred.getD r []) q)⟩) := by
    unfold INodeAutomaton.addEdge
    rw [(NodeAutomaton.addEdge_spec r hq).2 h0]
    rfl
  refine ⟨_, _, _, h, INodeAutomaton.exec_WF (op := .addEdge q r) hw hr ?_, rfl, rfl⟩
  show (g.addEdge q r).map (·.2.2) = _
  rw [h]; rfl

theorem nodeLaws : Laws (nodeOps (A := A)) INodeAutomaton.WF where
  out := fun hw => hw.n.out
  target := fun hw h => hw.n.closed _ _ _ h
  inEdges := fun hw r e => by
    show e ∈ INodeAutomaton.inEdges _ r ↔ _
    rw [INodeAutomaton.mem_inEdges hw]
    unfold NodeAutomaton.edges
    rw [mem_edges hw.n.out]; rfl
  nodupIn := fun hw r => INodeAutomaton.nodup_inEdges hw r
  elabel := fun hw h => (hw.n.label _ _ _ h).symm
  move := by
    intro g q1 e hw h1 hlab he
    obtain ⟨ga, i1, i2, i3, i4, i5, i6, i7⟩ := node_removeEdge hw he
    have hs : e.source ∈ g.n.a.vertices := delta_mem_vertices he
    have hsym : ∀ v, ga.n.symbol v = g.n.symbol v := fun v => by unfold NodeAutomaton.symbol; rw [i3]
    have hq : ga.n.symbol q1 = e.distinguisher := by
      rw [hsym]; exact hlab.trans (hw.n.label _ _ _ he).symm
    obtain ⟨e', b, g', k1, k2, k3, k4⟩ := node_addEdge i2 (q := e.source) (r := q1) (by rw [i4]; exact hs) (by rw [i4]; exact h1)
      (by rw [i7, hq]; simp)
    rw [hq] at k4
    refine ⟨g', ?_, k2, ?_, ?_, ?_, ?_, ?_⟩
    · unfold moveEdge
      simp only [nodeOps, i1, k1]
      rfl
    · show g'.n.a.vertices = _
      rw [k4, vertices_setDelta _ _ (by rw [i4]; exact hs), i4]; rfl
    · show g'.n.a.q0 = _
      rw [k4]; exact i5
    · show g'.n.a.final = _
      rw [k4]; exact i6
    · funext v
      show g'.n.symbol v = g.n.symbol v
      unfold NodeAutomaton.symbol
      rw [k3, i3]
    · intro p a
      show g'.n.a.delta p a = if _ then _ else g.n.a.delta p a
      rw [k4, delta_setDelta, i7]
      by_cases h : e.source = p ∧ e.distinguisher = a
      · simp [h]
      · simp [h]
  remove := by
    intro g u hw hu
    obtain ⟨g', h1, h2, h3, h4, h5⟩ := INodeAutomaton.removeVertex_spec hw u
    obtain ⟨h6, h7⟩ := node_removeVertex h1
    refine ⟨g', h1, h2, h4, h6, h7, ?_, h5⟩
    funext v
    show g'.n.symbol v = g.n.symbol v
    unfold NodeAutomaton.symbol
    rw [h3]

/-! ## What `out` says -/

variable {G B : Type} [DecidableEq B] {o : Ops G B L} {W : G → Prop}

omit [DecidableEq L] in
theorem out_labelIndist {g : G} (hg : AWF (o.aut g)) (p q : Nat) :
    (∀ w, out o g p w = out o g q w) ↔ (o.aut g).LabelIndist (o.vlabel g) p q := by
  unfold Automaton.LabelIndist out
  refine forall_congr' fun w => ?_
  simp only [← deltaWord_iff hg]
  cases h1 : (o.aut g).deltaWord (some p) w with
  | none =>
    cases h2 : (o.aut g).deltaWord (some q) w with
    | none => simp
    | some s => simp
  | some r =>
    cases h2 : (o.aut g).deltaWord (some q) w with
    | none => simp
    | some s =>
      simp only [Option.map_some, Option.some.injEq, col, Prod.mk.injEq]
      constructor
      · intro h
        exact ⟨fun r' e => ⟨s, rfl, by rw [← e]; exact h⟩, fun s' e => ⟨r, rfl, by rw [← e]; exact h⟩⟩
      · rintro ⟨h, _⟩
        obtain ⟨s', e, h⟩ := h r rfl
        rw [← e] at h; exact h

omit [DecidableEq L] in
theorem out_right' {g : G} (hg : AWF (o.aut g)) (v : Nat) (w : List B) : (∃ l, out o g v w = some (true, l)) ↔ (o.aut g).Right v w := by
  unfold out Automaton.Right
  simp only [Option.map_eq_some_iff, deltaWord_iff hg, col, Prod.mk.injEq]
  constructor
  · rintro ⟨l, f, h1, h2, _⟩; exact ⟨f, h1, h2⟩
  · rintro ⟨f, h1, h2⟩; exact ⟨_, f, h1, h2, rfl⟩

omit [DecidableEq L] in
theorem out_read' {g : G} (hg : AWF (o.aut g)) (v : Nat) (w : List B) : (out o g v w).isSome ↔ ∃ r, LPath (o.aut g).Trans v w r := by
  unfold out
  rw [Option.isSome_map, Option.isSome_iff_exists]
  simp only [deltaWord_iff hg]

/-- On a node automaton, only the symbol of the first state is not seen by the words. -/
theorem node_out {g : INodeAutomaton A} (hw : INodeAutomaton.WF g) (p q : Nat) :
    (∀ w, out nodeOps g p w = out nodeOps g q w) ↔ g.n.symbol p = g.n.symbol q ∧ g.n.a.Indist p q := by
  have hlast : ∀ (w : List (Option A)) (a : Option A) (p r : Nat), LPath g.n.a.Trans p (w ++ [a]) r → g.n.symbol r = a := by
    intro w a
    induction w with
    | nil =>
      intro p r h
      obtain ⟨s, h1, h2⟩ := (LPath.cons_iff).mp h
      rw [LPath.nil_iff] at h2
      subst h2
      exact (hw.n.label _ _ _ ((mem_edges hw.n.out).mp h1)).symm
    | cons b w ih =>
      intro p r h
      obtain ⟨s, _, h2⟩ := (LPath.cons_iff).mp h
      exact ih s r h2
  rw [out_labelIndist hw.n.out]
  show g.n.a.LabelIndist g.n.symbol p q ↔ _
  constructor
  · intro h
    refine ⟨?_, fun w => ?_⟩
    · obtain ⟨s, h1, _, h2⟩ := (h []).1 p (.nil _)
      rw [LPath.nil_iff] at h1
      rw [h2, h1]
    · refine ⟨⟨?_, ?_⟩, ?_, ?_⟩
      · rintro ⟨r, hr⟩
        obtain ⟨s, hs, _⟩ := (h w).1 r hr
        exact ⟨s, hs⟩
      · rintro ⟨s, hs⟩
        obtain ⟨r, hr, _⟩ := (h w).2 s hs
        exact ⟨r, hr⟩
      · rintro ⟨r, hr, hf⟩
        obtain ⟨s, hs, e, _⟩ := (h w).1 r hr
        exact ⟨s, hs, e ▸ hf⟩
      · rintro ⟨s, hs, hf⟩
        obtain ⟨r, hr, e, _⟩ := (h w).2 s hs
        exact ⟨r, hr, e.trans hf⟩
  · rintro ⟨hsym, hi⟩ w
    have hdet : ∀ {v r s : Nat}, LPath g.n.a.Trans v w r → LPath g.n.a.Trans v w s → r = s := by
      intro v r s h1 h2
      rw [← deltaWord_iff hw.n.out] at h1 h2
      exact Option.some.inj (h1.symm.trans h2)
    have hcol : ∀ r s, LPath g.n.a.Trans p w r → LPath g.n.a.Trans q w s → g.n.a.isFinal r = g.n.a.isFinal s ∧ g.n.symbol r = g.n.symbol s := by
      intro r s hr hs
      constructor
      · rw [Bool.eq_iff_iff]
        constructor
        · intro hf
          obtain ⟨f, h1, h2⟩ := (hi w).2.mp ⟨r, hr, hf⟩
          rw [hdet hs h1]; exact h2
        · intro hf
          obtain ⟨f, h1, h2⟩ := (hi w).2.mpr ⟨s, hs, hf⟩
          rw [hdet hr h1]; exact h2
      · rcases List.eq_nil_or_concat w with rfl | ⟨w', a, rfl⟩
        · rw [LPath.nil_iff] at hr hs
          rw [← hr, ← hs]; exact hsym
        · rw [List.concat_eq_append] at hr hs
          rw [hlast _ _ _ _ hr, hlast _ _ _ _ hs]
    refine ⟨fun r hr => ?_, fun s hs => ?_⟩
    · obtain ⟨s, hs⟩ := (hi w).1.mp ⟨r, hr⟩
      exact ⟨s, hs, hcol r s hr hs⟩
    · obtain ⟨r, hr⟩ := (hi w).1.mpr ⟨s, hs⟩
      exact ⟨r, hr, hcol r s hr hs⟩

/-- States that no word tells apart do not reach each other. -/
theorem same_not_reach (H : Laws o W) {g : G} (hw : W g) {ht : Nat → Nat} (hh : Heights o g ht) {u v : Nat} (hu : u ∈ (o.aut g).vertices)
    (hi : ∀ w, out o g u w = out o g v w) {w : List B} (hp : LPath (o.aut g).Trans v w u) : v = u := by
  have key : ∀ {v w u}, LPath (o.aut g).Trans v w u → v = u ∨ (v ∈ (o.aut g).vertices ∧ ht u < ht v) := by
    intro v w u hp
    induction hp with
    | nil => exact .inl rfl
    | @cons q r s a w ht' _ ih =>
      have hd := (mem_edges (H.out hw)).mp ht'
      have := hh.lt _ _ _ hd
      right
      refine ⟨delta_mem_vertices hd, ?_⟩
      simp only at this
      rcases ih with rfl | ⟨_, ih⟩ <;> omega
  rcases key hp with e | ⟨hv, hlt⟩
  · exact e
  · have := height_eq_of_out H hw hh hu hv hi
    omega

/-- The states that remain, and what is read from them. -/
theorem minimize_classes (H : Laws o W) {g : G} (hw : W g) (hac : ¬ HasCycle (o.toI g)) {ord ordH : SetOracle Nat} (hord : ord.Valid)
    (hordH : ordH.Valid) {ordE : Nat → SetOracle (EdgeDesc B)} (hE : ∀ t, (ordE t).Valid) {leaves : List Nat}
    (hL : leaves = [] ∨ (leaves.Nodup ∧ ∀ v, v ∈ leaves ↔ v ∈ sinks (o.toI g))) :
    ∃ g' hmax, Returns (minimize o ord ordH ordE g leaves) (.ok (g', hmax)) ∧ W g' ∧ o.vlabel g' = o.vlabel g ∧
      (o.aut g').q0 = (o.aut g).q0 ∧ (o.aut g').final = (o.aut g).final ∧
      (∀ v, v ∈ (o.aut g').vertices ↔
        v ∈ (o.aut g).vertices ∧ ∀ u ∈ (o.aut g).vertices, (∀ w, out o g u w = out o g v w) → v ≤ u) ∧
      (∀ v ∈ (o.aut g').vertices, ∀ w, out o g' v w = out o g v w) ∧
      (∀ u ∈ (o.aut g').vertices, ∀ v ∈ (o.aut g').vertices, (∀ w, out o g' u w = out o g' v w) → u = v) ∧
      (∀ v ∈ (o.aut g).vertices, ∀ m : Nat, IsLongest (o.toI g) v m → (m : Int) ≤ hmax) ∧
      (((o.aut g).vertices = [] ∧ hmax = -1) ∨ ∃ v ∈ (o.aut g).vertices, ∃ m : Nat, IsLongest (o.toI g) v m ∧ hmax = m) ∧
      (∀ u ∈ (o.aut g).vertices, ∀ v w, (∀ w, out o g u w = out o g v w) → LPath (o.aut g).Trans v w u → v = u) := by
  obtain ⟨g', hmax, ht, ρ, k, hr, hlong, hh, q, hap, hmx, hmx'⟩ := minimize_spec H hw hac hord hordH hE hL
  have happ : ∀ u ∈ (o.aut g').vertices, ∀ v ∈ (o.aut g').vertices, (∀ w, out o g' u w = out o g' v w) → u = v := fun u hu v hv ho =>
    quot_apart H hw hh q hap _ u hu v hv rfl ho
  refine ⟨g', hmax, hr, q.wf, q.label, q.q0, q.final, fun v => ?_, fun v hv w => q.out_eq H hw w v hv, happ, fun v hv m hm => ?_, ?_,
    fun u hu v w ho hp => same_not_reach H hw hh hu ho hp⟩
  · constructor
    · intro hv
      refine ⟨q.sub v hv, fun u hu hi => ?_⟩
      have : ρ u = v := happ _ (q.mem u hu) v hv fun w => by
        rw [q.out_eq H hw w _ (q.mem u hu), q.out_eq H hw w v hv, q.same u hu]; exact hi w
      rw [← this]; exact q.le u hu
    · rintro ⟨hv, hmin⟩
      have h1 := hmin (ρ v) (q.sub _ (q.mem v hv)) (fun w => q.same v hv w)
      have h2 := q.le v hv
      have : ρ v = v := by omega
      rw [← this]; exact q.mem v hv
  · have h1 := hlong v hv
    obtain ⟨es, w, hp, hl⟩ := hm.1
    have := h1.2 es w hp
    have := hmx v hv
    omega
  · rcases hmx' with ⟨a, b⟩ | ⟨v, hv, e⟩
    · exact .inl ⟨a, b⟩
    · exact .inr ⟨v, hv, ht v, hlong v hv, e⟩

theorem read_right_of_out {G' : Type} {o' : Ops G' B L} {g : G} {g' : G'} (hg : AWF (o.aut g)) (hg' : AWF (o'.aut g')) {v : Nat} {w : List B}
    (h : out o' g' v w = out o g v w) :
    ((∃ r, LPath (o'.aut g').Trans v w r) ↔ ∃ r, LPath (o.aut g).Trans v w r) ∧ ((o'.aut g').Right v w ↔ (o.aut g).Right v w) := by
  rw [← out_read' hg, ← out_read' hg', ← out_right' hg, ← out_right' hg', h]
  exact ⟨Iff.rfl, Iff.rfl⟩

end RevuzG

/-! ## The claims -/

open RevuzG

/-- **C92, `IncidenceNodeAutomaton`, the part that always holds**: on an acyclic node automaton `revuz_minimize` returns, whatever the order in which
sets are enumerated. The states that remain keep their symbols; they are, among the states that carry the same symbol and cannot be
distinguished, the ones with the smallest identifier; the words (of symbols of states) read from them and accepted from them are those of before; distinct remaining
states carry different symbols or are told apart by a word; the value returned is the length of the longest path. -/
theorem C92_node_minimal {g : INodeAutomaton A} (h : g.SafeHistory) (hac : ¬ HasCycle g.toI) {ord ordH : SetOracle Nat} (hord : ord.Valid)
    (hordH : ordH.Valid) {ordE : Nat → SetOracle (EdgeDesc (Option A))} (hE : ∀ t, (ordE t).Valid) {leaves : List Nat}
    (hL : leaves = [] ∨ (leaves.Nodup ∧ ∀ v, v ∈ leaves ↔ v ∈ sinks g.toI)) :
    ∃ g' hmax, Returns (g.revuzMinimize ord ordH ordE leaves) (.ok (g', hmax)) ∧ (∀ v, g'.n.symbol v = g.n.symbol v) ∧
      (∀ v, v ∈ g'.n.vertices ↔
        v ∈ g.n.vertices ∧ ∀ u ∈ g.n.vertices, g.n.symbol u = g.n.symbol v → g.n.a.Indist u v → v ≤ u) ∧
      (∀ v ∈ g'.n.vertices, ∀ w, ((∃ r, LPath g'.n.a.Trans v w r) ↔ ∃ r, LPath g.n.a.Trans v w r) ∧ (g'.n.a.Right v w ↔ g.n.a.Right v w)) ∧
      (∀ u ∈ g'.n.vertices, ∀ v ∈ g'.n.vertices, g'.n.symbol u = g'.n.symbol v → g'.n.a.Indist u v → u = v) ∧
      (∀ q a r, g'.n.a.Trans q a r → a = g'.n.symbol r ∧ r ∈ g'.n.vertices) ∧
      (∀ r e, e ∈ g'.inEdges r ↔ e ∈ g'.n.edges ∧ e.target = r) ∧
      (∀ v ∈ g.n.vertices, ∀ m : Nat, IsLongest g.toI v m → (m : Int) ≤ hmax) ∧
      ((g.n.vertices = [] ∧ hmax = -1) ∨ ∃ v ∈ g.n.vertices, ∃ m : Nat, IsLongest g.toI v m ∧ hmax = m) := by
  have hw := h.wf
  obtain ⟨g', hmax, hr, hw', hl, _, _, hv, ho, hap, hm1, hm2, _⟩ := minimize_classes nodeLaws hw hac hord hordH hE hL
  refine ⟨g', hmax, hr, fun v => congrFun hl v, fun v => (hv v).trans (and_congr Iff.rfl ?_), fun v hv w => ?_, fun u hu v hv hs hi => ?_,
    fun q a r ht => ?_, fun r e => ?_, hm1, hm2⟩
  · refine forall_congr' fun u => forall_congr' fun _ => ?_
    rw [node_out hw]
    tauto
  · exact read_right_of_out (o := nodeOps) (o' := nodeOps) hw.n.out hw'.n.out (ho v hv w)
  · exact hap u hu v hv ((node_out hw' u v).mpr ⟨hs, hi⟩)
  · have hd := (mem_edges hw'.n.out).mp ht
    exact ⟨hw'.n.label _ _ _ hd, hw'.n.closed _ _ _ hd⟩
  · rw [INodeAutomaton.mem_inEdges hw', and_comm]

/-- **C92, full statement** (language): the answers of `accepts` are unchanged. -/
def C92_statement : Prop :=
  ∀ (g g' : INodeAutomaton Char) (hmax : Int), g.SafeHistory → ¬ HasCycle g.toI →
    Returns (g.revuzMinimize (fun _ s => s) (fun _ s => s) (fun _ _ s => s) []) (.ok (g', hmax)) →
    ∀ w, g'.n.accepts w = g.n.accepts w

theorem NodeAutomaton.accepts_of_out {g : INodeAutomaton A} (hw : INodeAutomaton.WF g) {q : Nat} (hi : g.n.a.initial = some q)
    (h0 : q ∈ g.n.vertices) (w : List A) :
    g.n.accepts w = .ok (((out nodeOps g q (w.map some)).map (·.1)).getD false) := by
  simp only [NodeAutomaton.accepts, hi, NodeAutomaton.deltaWord_spec hw.n.closed w q h0, bind, Except.bind, out, nodeOps]
  cases hd : g.n.a.deltaWord (some q) (w.map some) with
  | none => rfl
  | some r => rfl

/-- **C92, partial** (missing: an initial state that cannot be distinguished from a state with a smaller identifier and the same symbol, for which the
claim is false): the answers of `accepts` are unchanged. -/
theorem C92_node_language_partial {g : INodeAutomaton A} (h : g.SafeHistory) (hac : ¬ HasCycle g.toI) {ord ordH : SetOracle Nat}
    (hord : ord.Valid) (hordH : ordH.Valid) {ordE : Nat → SetOracle (EdgeDesc (Option A))} (hE : ∀ t, (ordE t).Valid) {leaves : List Nat}
    (hL : leaves = [] ∨ (leaves.Nodup ∧ ∀ v, v ∈ leaves ↔ v ∈ sinks g.toI)) {q : Nat} (h0 : g.n.a.initial = some q) (hq : q ∈ g.n.vertices)
    (hmin : ∀ u ∈ g.n.vertices, g.n.symbol u = g.n.symbol q → g.n.a.Indist u q → q ≤ u) :
    ∃ g' hmax, Returns (g.revuzMinimize ord ordH ordE leaves) (.ok (g', hmax)) ∧ g'.n.a.initial = some q ∧ q ∈ g'.n.vertices ∧
      ∀ w, g'.n.accepts w = g.n.accepts w := by
  have hw := h.wf
  obtain ⟨g', hmax, hr, hw', hl, hq0, _, hv, ho, _⟩ := minimize_classes nodeLaws hw hac hord hordH hE hL
  have hq' : q ∈ g'.n.vertices := (hv q).mpr ⟨hq, fun u hu hi => by
    obtain ⟨h1, h2⟩ := (node_out hw u q).mp hi
    exact hmin u hu h1 h2⟩
  have hi' : g'.n.a.initial = some q := hq0.trans h0
  refine ⟨g', hmax, hr, hi', hq', fun w => ?_⟩
  rw [NodeAutomaton.accepts_of_out hw' hi' hq', NodeAutomaton.accepts_of_out hw h0 hq, ho q hq']

/-- **C92, partial**: the answers of `accepts` are unchanged when the initial state is the state 0, or is the only one to carry its
symbol (for instance to carry none), or reaches every state. -/
theorem C92_node_usual_partial {g : INodeAutomaton A} (h : g.SafeHistory) (hac : ¬ HasCycle g.toI) {ord ordH : SetOracle Nat}
    (hord : ord.Valid) (hordH : ordH.Valid) {ordE : Nat → SetOracle (EdgeDesc (Option A))} (hE : ∀ t, (ordE t).Valid) {q : Nat}
    (h0 : g.n.a.initial = some q) (hq : q ∈ g.n.vertices)
    (hu : q = 0 ∨ (∀ v ∈ g.n.vertices, v ≠ q → g.n.symbol v ≠ g.n.symbol q) ∨ ∀ v ∈ g.n.vertices, ∃ w, LPath g.n.a.Trans q w v) :
    ∃ g' hmax, Returns (g.revuzMinimize ord ordH ordE []) (.ok (g', hmax)) ∧ ∀ w, g'.n.accepts w = g.n.accepts w := by
  have hw := h.wf
  obtain ⟨_, _, _, _, _, _, _, _, _, _, _, _, hreach⟩ := minimize_classes nodeLaws hw hac hord hordH hE (leaves := []) (.inl rfl)
  obtain ⟨g', hmax, h1, _, _, h3⟩ := C92_node_language_partial h hac hord hordH hE (.inl rfl) h0 hq (fun u huv hs hi => by
    rcases hu with rfl | hu | hu
    · exact Nat.zero_le _
    · by_contra hlt
      exact hu u huv (by omega) hs
    · obtain ⟨w, hp⟩ := hu u huv
      exact Nat.le_of_eq (hreach u huv q w ((node_out hw u q).mpr ⟨hs, hi⟩) hp))
  exact ⟨g', hmax, h1, h3⟩

/-- **C92, what happens otherwise**: when a state with a smaller identifier and the same symbol cannot be distinguished from the initial
state, the initial state is removed, `initial()` still returns it, and `accepts` raises `KeyError` on every non-empty word. -/
theorem C92_node_initial_lost {g : INodeAutomaton A} (h : g.SafeHistory) (hac : ¬ HasCycle g.toI) {ord ordH : SetOracle Nat}
    (hord : ord.Valid) (hordH : ordH.Valid) {ordE : Nat → SetOracle (EdgeDesc (Option A))} (hE : ∀ t, (ordE t).Valid) {q u : Nat}
    (h0 : g.n.a.initial = some q) (hu : u ∈ g.n.vertices) (hs : g.n.symbol u = g.n.symbol q) (hi : g.n.a.Indist u q) (hlt : u < q) :
    ∃ g' hmax, Returns (g.revuzMinimize ord ordH ordE []) (.ok (g', hmax)) ∧ g'.n.a.initial = some q ∧ q ∉ g'.n.vertices ∧
      ∀ a w, g'.n.accepts (a :: w) = .error .keyError := by
  have hw := h.wf
  obtain ⟨g', hmax, hr, hw', hl, hq0, _, hv, _⟩ := minimize_classes nodeLaws hw hac hord hordH hE (leaves := []) (.inl rfl)
  have hn : q ∉ g'.n.vertices := fun hq => by
    have := ((hv q).mp hq).2 u hu ((node_out hw u q).mpr ⟨hs, hi⟩)
    omega
  have hi' : g'.n.a.initial = some q := hq0.trans h0
  exact ⟨g', hmax, hr, hi', hn, fun a w => C89_accepts_unknown_initial g'.n hi' hn a w⟩

/-- **C92, `IncidenceAutomaton` with labels on the states** (`pmap_vlabel`), the part that always holds: the states that remain are, in each class
of states that no word distinguishes (by what is read, by finality or by the label of the state reached), the one with the smallest
identifier; the words read and accepted from them are those of before, and lead to states with the same labels; distinct remaining
states are told apart. -/
theorem C92_labelled_minimal {g : IAutomaton A} (h : IAutomaton.SafeHistory g) (hac : ¬ HasCycle g.toI) (vlabel : Nat → L)
    {ord ordH : SetOracle Nat} (hord : ord.Valid) (hordH : ordH.Valid) {ordE : Nat → SetOracle (EdgeDesc A)} (hE : ∀ t, (ordE t).Valid)
    {leaves : List Nat} (hL : leaves = [] ∨ (leaves.Nodup ∧ ∀ v, v ∈ leaves ↔ v ∈ sinks g.toI)) :
    ∃ g' hmax, Returns (g.revuzMinimize vlabel ord ordH ordE leaves) (.ok (g', hmax)) ∧
      (∀ v, v ∈ g'.a.vertices ↔ v ∈ g.a.vertices ∧ ∀ u ∈ g.a.vertices, g.a.LabelIndist vlabel u v → v ≤ u) ∧
      (∀ v ∈ g'.a.vertices, ∀ w, ((∃ r, LPath g'.a.Trans v w r) ↔ ∃ r, LPath g.a.Trans v w r) ∧ (g'.a.Right v w ↔ g.a.Right v w) ∧
        ∀ r r', LPath g.a.Trans v w r → LPath g'.a.Trans v w r' → vlabel r' = vlabel r) ∧
      (∀ u ∈ g'.a.vertices, ∀ v ∈ g'.a.vertices, g'.a.LabelIndist vlabel u v → u = v) ∧
      (∀ v ∈ g.a.vertices, ∀ m : Nat, IsLongest g.toI v m → (m : Int) ≤ hmax) ∧
      ((g.a.vertices = [] ∧ hmax = -1) ∨ ∃ v ∈ g.a.vertices, ∃ m : Nat, IsLongest g.toI v m ∧ hmax = m) := by
  have hw := h.wf
  obtain ⟨g', hmax, hr, hw', _, _, _, hv, ho, hap, hm1, hm2, _⟩ := minimize_classes (autLaws vlabel) hw hac hord hordH hE hL
  refine ⟨g', hmax, hr, fun v => (hv v).trans (and_congr Iff.rfl ?_), fun v hv w => ?_, fun u hu v hv hi => ?_, hm1, hm2⟩
  · refine forall_congr' fun u => forall_congr' fun _ => ?_
    exact imp_congr (out_labelIndist (o := autOps vlabel) hw.out u v) Iff.rfl
  · obtain ⟨h1, h2⟩ := read_right_of_out (o := autOps vlabel) (o' := autOps vlabel) hw.out hw'.out (ho v hv w)
    refine ⟨h1, h2, fun r r' h3 h4 => ?_⟩
    have := ho v hv w
    unfold out at this
    rw [← deltaWord_iff hw.out] at h3
    rw [← deltaWord_iff hw'.out] at h4
    simp only [autOps, h3, h4, Option.map_some, Option.some.injEq, col, Prod.mk.injEq] at this
    exact this.2
  · exact hap u hu v hv ((out_labelIndist (o := autOps vlabel) hw'.out u v).mpr hi)

/-- **C92, labels, partial** (missing: an initial state not distinguished from a state with a smaller identifier): the language is unchanged. -/
theorem C92_labelled_language_partial {g : IAutomaton A} (h : IAutomaton.SafeHistory g) (hac : ¬ HasCycle g.toI) (vlabel : Nat → L)
    {ord ordH : SetOracle Nat} (hord : ord.Valid) (hordH : ordH.Valid) {ordE : Nat → SetOracle (EdgeDesc A)} (hE : ∀ t, (ordE t).Valid)
    {leaves : List Nat} (hL : leaves = [] ∨ (leaves.Nodup ∧ ∀ v, v ∈ leaves ↔ v ∈ sinks g.toI)) {q : Nat} (h0 : g.a.q0 = some q)
    (hq : q ∈ g.a.vertices) (hmin : ∀ u ∈ g.a.vertices, g.a.LabelIndist vlabel u q → q ≤ u) :
    ∃ g' hmax, Returns (g.revuzMinimize vlabel ord ordH ordE leaves) (.ok (g', hmax)) ∧ g'.a.q0 = some q ∧ ∀ w, g'.a.Lang w ↔ g.a.Lang w := by
  have hw := h.wf
  obtain ⟨g', hmax, hr, hw', _, hq0, _, hv, ho, _⟩ := minimize_classes (autLaws vlabel) hw hac hord hordH hE hL
  have hq' : q ∈ g'.a.vertices := (hv q).mpr ⟨hq, fun u hu hi => hmin u hu ((out_labelIndist (o := autOps vlabel) hw.out u q).mp hi)⟩
  have hi' : g'.a.q0 = some q := hq0.trans h0
  refine ⟨g', hmax, hr, hi', fun w => ?_⟩
  have := (read_right_of_out (o := autOps vlabel) (o' := autOps vlabel) hw.out hw'.out (ho q hq' w)).2
  have e1 : g'.a.Lang w ↔ g'.a.Right q w := by
    unfold Lang Right
    rw [hi']
    constructor
    · rintro ⟨q', f, e, h⟩; cases e; exact ⟨f, h⟩
    · rintro ⟨f, h⟩; exact ⟨q, f, rfl, h⟩
  have e2 : g.a.Lang w ↔ g.a.Right q w := by
    unfold Lang Right
    rw [h0]
    constructor
    · rintro ⟨q', f, e, h⟩; cases e; exact ⟨f, h⟩
    · rintro ⟨f, h⟩; exact ⟨q, f, rfl, h⟩
  rw [e1, e2]; exact this

/-! ## Non-vacuity and counterexample -/

namespace Examples

/-- Four states: 0 and 1 carry no symbol, 2 and 3 carry `a`; edges from 0 to 2 and from 1 to 3; 2 and 3 are final. -/
def nodes (q0 : Nat) : INodeAutomaton Char :=
  ⟨⟨⟨4, [(0, [(some 'a', 2)]), (1, [(some 'a', 3)]), (2, []), (3, [])], some q0, [(2, true), (3, true)]⟩, [(2, 'a'), (3, 'a')]⟩, [(2, [0]), (3, [1])]⟩

theorem nodes_safe (q0 : Nat) : (nodes q0).SafeHistory := by
  refine .step (op := .setInitial q0 true) (.step (op := .setFinal 3 true) (.step (op := .setFinal 2 true) (.step (op := .addEdge 1 3) (.step (op := .addEdge 0 2)
    (.step (op := .addVertex (some 'a')) (.step (op := .addVertex (some 'a')) (.step (op := .addVertex none) (.step (op := .addVertex none) .new trivial rfl)
      trivial rfl) trivial rfl) trivial rfl) ?_ rfl) ?_ rfl) trivial rfl) trivial rfl) trivial rfl
  · show (2 : Nat) ∈ _; decide
  · show (3 : Nat) ∈ _; decide

theorem nodes_acyclic (q0 : Nat) : ¬ HasCycle (nodes q0).toI := by
  have key : ∀ u es v, IsPath (nodes q0).toI u es v → u + es.length ≤ v := by
    intro u es v hp
    induction hp with
    | nil => simp
    | @cons u v e es he hp ih =>
      obtain ⟨h1, h2⟩ := (mem_outEdges (nodes_safe q0).wf.n.out).mp he
      have h3 := (mem_edges (nodes_safe q0).wf.n.out).mpr h2
      have : ∀ e ∈ (nodes 0).n.a.edges, e.source < e.target := by decide
      have := this e h3
      have : (nodes q0).toI.target e = e.target := rfl
      simp only [List.length_cons]
      omega
  rintro ⟨u, _, es, hne, hp⟩
  have := key _ _ _ hp
  have := List.length_pos_iff.mpr hne
  omega

theorem nodes_indist (q0 : Nat) : (nodes q0).n.symbol 0 = (nodes q0).n.symbol 1 ∧ (nodes q0).n.a.Indist 0 1 := by
  rw [← node_out (nodes_safe q0).wf]
  intro w
  cases w with
  | nil => rfl
  | cons a w =>
    rw [out_cons, out_cons]
    by_cases ha : a = some 'a'
    · subst ha
      show out nodeOps (nodes q0) 2 w = out nodeOps (nodes q0) 3 w
      cases w with
      | nil => rfl
      | cons b w => rw [out_cons, out_cons]; rfl
    · have h : ∀ v, v = 0 ∨ v = 1 → (nodeOps.aut (nodes q0)).delta v a = none := by
        intro v hv
        rcases hv with rfl | rfl <;>
        · simp [nodes, nodeOps, Automaton.delta, Dict.getD, Dict.get?, Ne.symm ha]
      rw [h 0 (.inl rfl), h 1 (.inr rfl)]

end Examples

/-- **C92, counterexample**: `accepts` can change. -/
theorem C92_language_counterexample : ¬ C92_statement := by
  intro h
  obtain ⟨h1, h2⟩ := Examples.nodes_indist 1
  obtain ⟨g', hmax, hr, _, _, hl⟩ := C92_node_initial_lost (Examples.nodes_safe 1) (Examples.nodes_acyclic 1) (ord := fun _ s => s)
    (ordH := fun _ s => s) (ordE := fun _ _ s => s) (fun _ _ => .refl _) (fun _ _ => .refl _) (fun _ _ _ => .refl _) (q := 1) (u := 0) rfl
    (by decide) h1 h2 (by omega)
  have := h _ g' hmax (Examples.nodes_safe 1) (Examples.nodes_acyclic 1) hr ['a']
  rw [hl] at this
  have e : (Examples.nodes 1).n.accepts ['a'] = .ok true := by rfl
  rw [e] at this
  cases this

namespace Examples

example : ∃ g' hmax, Returns ((nodes 0).revuzMinimize (fun _ s => s) (fun _ s => s) (fun _ _ s => s) []) (.ok (g', hmax)) ∧
    ∀ w, g'.n.accepts w = (nodes 0).n.accepts w :=
  C92_node_usual_partial (nodes_safe 0) (nodes_acyclic 0) (fun _ _ => .refl _) (fun _ _ => .refl _) (fun _ _ _ => .refl _) rfl (by decide)
    (.inl rfl)
example : (nodes 0).n.accepts ['a'] = .ok true := by rfl

/-- With distinct labels on the states 0 and 1 of `merged`, they are distinguished. -/
example : ¬ merged.a.LabelIndist (fun v => v) 0 1 := by
  intro h
  obtain ⟨s, h1, _, h2⟩ := (h []).1 0 (.nil _)
  rw [LPath.nil_iff] at h1
  have h2 : 0 = s := h2
  omega
example : ∀ u ∈ merged.a.vertices, merged.a.LabelIndist (fun v => v) u 0 → 0 ≤ u := fun _ _ _ => Nat.zero_le _

end Examples
end PyBGL
