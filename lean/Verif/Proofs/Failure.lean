import Verif.Spec.FailureHistory
import Verif.Proofs.PyM
import Verif.Proofs.IncidenceGraph

namespace PyBGL
open PyM

/-! ## Both models agree when nothing is raised -/

namespace Graph

theorem result_addEdgeM (u v : Nat) (g : Graph) : (addEdgeM u v).result g = g.addEdge u v := result_atomic _ _

theorem result_removeEdgeM (e : EdgeDesc Nat) (g : Graph) : (removeEdgeM e).result g = (g.removeEdge e).map fun g' => ((), g') := result_atomic _ _

theorem result_removeVertexWithM {eds : Graph → List (EdgeDesc Nat)} {outs : Graph → Nat → List (EdgeDesc Nat)} {rm : EdgeDesc Nat → PyM Graph Unit}
    {rm' : Graph → EdgeDesc Nat → Except PyErr Graph} (h : ∀ e g, (rm e).result g = (rm' g e).map fun g' => ((), g')) (u : Nat) (g : Graph) :
    (removeVertexWithM eds outs rm u).result g = (removeVertexWith eds outs rm' g u).map fun g' => ((), g') := by
  unfold removeVertexWithM removeVertexWith
  rw [result_get_bind, result_bind, result_each rm rm' h]
  cases ((eds g).filter fun e => u = e.target).foldlM rm' g with
  | error e => rfl
  | ok g1 =>
    simp only [emap_ok, ebind_ok]
    rw [result_get_bind, result_bind, result_each rm rm' h]
    cases (outs g1 u).foldlM rm' g1 with
    | error e => rfl
    | ok g2 =>
      simp only [emap_ok, ebind_ok]
      rw [result_get_bind, result_lift_bind]
      cases g2.adj.delE u <;> rfl

theorem result_removeVertexM (u : Nat) (g : Graph) : (removeVertexM u).result g = (g.removeVertex u).map fun g' => ((), g') :=
  result_removeVertexWithM (fun e g => result_removeEdgeM e g) u g

theorem result_clearWithM {rv : Nat → PyM Graph Unit} {rv' : Graph → Nat → Except PyErr Graph} (h : ∀ u g, (rv u).result g = (rv' g u).map fun g' => ((), g')) (g : Graph) :
    (clearWithM rv).result g = (clearWith rv' g).map fun g' => ((), g') := result_each rv rv' h _ _

theorem result_clearM (g : Graph) : clearM.result g = g.clear.map fun g' => ((), g') := result_clearWithM (fun u g => result_removeVertexM u g) g

theorem result_execM (op : GOp) (g : Graph) : (execM op).result g = g.exec op := by
  cases op with
  | addVertex => rfl
  | addEdge u v => show (_ <$> _ : PyM Graph GOut).result g = _; rw [result_map, result_addEdgeM]; rfl
  | removeEdge e => show (_ >>= _ : PyM Graph GOut).result g = _; rw [result_bind, result_removeEdgeM, exec]; cases g.removeEdge e <;> rfl
  | removeVertex u => show (_ >>= _ : PyM Graph GOut).result g = _; rw [result_bind, result_removeVertexM, exec]; cases g.removeVertex u <;> rfl
  | clear => show (_ >>= _ : PyM Graph GOut).result g = _; rw [result_bind, result_clearM, exec]; cases g.clear <;> rfl

end Graph

namespace UGraph
open Graph

theorem result_addEdgeM (u v : Nat) (g : Graph) : (addEdgeM u v).result g = addEdge g u v := by
  unfold addEdgeM addEdge
  simp only
  rw [result_bind, Graph.result_addEdgeM]
  cases g.addEdge (min u v) (max u v) with
  | error e => rfl
  | ok p =>
    obtain ⟨e, g1⟩ := p
    simp only [ebind_ok, result_get_bind, result_lift_bind, result_put_bind, result_pure]

theorem result_removeEdgeM (e : EdgeDesc Nat) (g : Graph) : (removeEdgeM e).result g = (removeEdge g e).map fun g' => ((), g') := by
  unfold removeEdgeM removeEdge
  simp only
  rw [result_bind, Graph.result_removeEdgeM]
  cases g.removeEdge e with
  | error e => rfl
  | ok g1 =>
    simp only [ebind_ok, emap_ok]
    by_cases h : e.source ≠ e.target
    · rw [if_pos h, if_pos h]
      simp only [ebind_ok, result_get_bind, result_lift_bind, result_put]
      cases g1.adj.getE e.target with
      | error e => rfl
      | ok adjV =>
        simp only [ebind_ok]
        cases adjV.getE e.source with
        | error e => rfl
        | ok s =>
          simp only [ebind_ok]
          cases setRemoveE s e.distinguisher <;> rfl
    · rw [if_neg h, if_neg h]; rfl

theorem result_removeVertexM (u : Nat) (g : Graph) : (removeVertexM u).result g = (removeVertex g u).map fun g' => ((), g') :=
  result_removeVertexWithM (fun e g => result_removeEdgeM e g) u g

theorem result_clearM (g : Graph) : clearM.result g = (clear g).map fun g' => ((), g') := result_clearWithM (fun u g => result_removeVertexM u g) g

theorem result_execM (op : GOp) (g : Graph) : (execM op).result g = exec g op := by
  cases op with
  | addVertex => rfl
  | addEdge u v => show (_ <$> _ : PyM Graph GOut).result g = _; rw [result_map, result_addEdgeM]; rfl
  | removeEdge e => show (_ >>= _ : PyM Graph GOut).result g = _; rw [result_bind, result_removeEdgeM, exec]; cases removeEdge g e <;> rfl
  | removeVertex u => show (_ >>= _ : PyM Graph GOut).result g = _; rw [result_bind, result_removeVertexM, exec]; cases removeVertex g u <;> rfl
  | clear => show (_ >>= _ : PyM Graph GOut).result g = _; rw [result_bind, result_clearM, exec]; cases clear g <;> rfl

end UGraph

namespace IGraph

theorem result_addEdgeM (u v : Nat) (g : IGraph) : (addEdgeM u v).result g = g.addEdge u v := by
  unfold addEdgeM addEdge super
  rw [result_bind, result_on, Graph.result_addEdgeM]
  cases g.g.addEdge u v with
  | error e => rfl
  | ok p =>
    obtain ⟨e, g1⟩ := p
    simp only [ebind_ok, emap_ok, result_get_bind, result_lift_bind]
    cases g.inAdj.getE v with
    | error e => rfl
    | ok adjV =>
      simp only [ebind_ok]
      cases adjV.get? u <;> rfl

theorem result_removeEdgeM (e : EdgeDesc Nat) (g : IGraph) : (removeEdgeM e).result g = (g.removeEdge e).map fun g' => ((), g') := by
  unfold removeEdgeM removeEdge super
  rw [result_bind, result_on, Graph.result_removeEdgeM]
  cases g.g.removeEdge e with
  | error e => rfl
  | ok g1 =>
    simp only [ebind_ok, emap_ok, result_get_bind, result_lift_bind]
    cases g.inAdj.getE e.target with
    | error e => rfl
    | ok adjV =>
      simp only [ebind_ok]
      cases adjV.getE e.source with
      | error e => rfl
      | ok s =>
        simp only [ebind_ok]
        by_cases h : e.distinguisher ∈ s
        · rw [if_pos h, if_pos h]
          by_cases h' : setDiscard s e.distinguisher = []
          · rw [if_pos h', if_pos h']; rfl
          · rw [if_neg h', if_neg h']; rfl
        · rw [if_neg h, if_neg h]; rfl

theorem result_removeVertexM (u : Nat) (g : IGraph) : (removeVertexM u).result g = (g.removeVertex u).map fun g' => ((), g') := by
  have hr : ∀ e g, (removeEdgeM e).result g = (removeEdge g e).map fun g' => ((), g') := fun e g => result_removeEdgeM e g
  unfold removeVertexM removeVertex
  rw [result_get_bind, result_bind, result_each removeEdgeM removeEdge hr]
  cases (g.inEdges u).foldlM removeEdge g with
  | error e => rfl
  | ok g1 =>
    simp only [emap_ok, ebind_ok]
    rw [result_get_bind, result_bind, result_each removeEdgeM removeEdge hr]
    cases (g1.outEdges u).foldlM removeEdge g1 with
    | error e => rfl
    | ok g2 =>
      simp only [emap_ok, ebind_ok, result_get_bind, result_lift_bind, result_put_bind, result_put]
      cases g2.g.adj.delE u with
      | error e => rfl
      | ok adj =>
        simp only [ebind_ok]
        cases g2.inAdj.delE u <;> rfl

theorem result_clearM (g : IGraph) : clearM.result g = g.clear.map fun g' => ((), g') :=
  result_each removeVertexM removeVertex (fun u g => result_removeVertexM u g) _ _

theorem result_execM (op : GOp) (g : IGraph) : (execM op).result g = g.exec op := by
  cases op with
  | addVertex => rfl
  | addEdge u v => show (_ <$> _ : PyM IGraph GOut).result g = _; rw [result_map, result_addEdgeM]; rfl
  | removeEdge e => show (_ >>= _ : PyM IGraph GOut).result g = _; rw [result_bind, result_removeEdgeM, exec]; cases g.removeEdge e <;> rfl
  | removeVertex u => show (_ >>= _ : PyM IGraph GOut).result g = _; rw [result_bind, result_removeVertexM, exec]; cases g.removeVertex u <;> rfl
  | clear => show (_ >>= _ : PyM IGraph GOut).result g = _; rw [result_bind, result_clearM, exec]; cases g.clear <;> rfl

end IGraph

/-! ## The states left behind by exceptions -/

theorem each_of_foldlM {S X : Type} {body : X → PyM S Unit} {f : S → X → Except PyErr S} (hf : ∀ x s, (body x).result s = (f s x).map fun s => ((), s))
    {l : List X} {s s' : S} (h : l.foldlM f s = .ok s') : each body l s = (.ok (), s') := by
  apply of_result_ok
  rw [result_each body f hf, h]; rfl

namespace Graph

theorem outEdges_of_not_mem {g : Graph} {u : Nat} (hu : u ∉ g.vertices) : g.outEdges u = [] := by
  have : g.adj.get? u = none := (Dict.get?_eq_none_iff _ _).mpr hu
  simp [outEdges, Dict.getD, this]

theorem delE_error {K V : Type} [DecidableEq K] {d : Dict K V} {k : K} (h : k ∉ Dict.keys d) : d.delE k = .error .keyError := by
  have hc : d.contains k = false := by
    cases hb : d.contains k with
    | false => rfl
    | true => exact absurd ((Dict.contains_iff_mem _ _).mp hb) h
  simp [Dict.delE, hc]

/-- `remove_vertex` of a missing vertex: the edges towards it are gone when `KeyError` is raised. -/
theorem removeVertexM_absent {g : Graph} (hw : AdjWF g.adj) {u : Nat} (hu : u ∉ g.vertices) :
    ∃ g', removeVertexM u g = (.error .keyError, g') ∧ AdjWF g'.adj ∧ g'.lastVertexId = g.lastVertexId ∧ g'.vertices = g.vertices ∧
      ∀ e : EdgeDesc Nat, e.distinguisher ∈ lk g'.adj e.source e.target ↔
        e.distinguisher ∈ lk g.adj e.source e.target ∧ e.source ≠ u ∧ e.target ≠ u := by
  obtain ⟨g1, h1, w1, l1, v1, e1⟩ := removeEdges_spec hw (g.edges.filter fun e => u = e.target) ((nodup_edges hw).filter _)
    (fun e he => (mem_edges hw e).mp (List.mem_filter.mp he).1)
  refine ⟨g1, ?_, w1, l1, v1, fun e => ?_⟩
  · have a1 : each removeEdgeM (g.edges.filter fun e => u = e.target) g = (.ok (), g1) := each_of_foldlM (fun e g => result_removeEdgeM e g) h1
    have a2 : g1.outEdges u = [] := outEdges_of_not_mem (by rw [v1]; exact hu)
    have a3 : g1.adj.delE u = .error .keyError := delE_error (by have := v1; unfold vertices at this; rw [this]; exact hu)
    show (_ >>= _ : PyM Graph Unit) g = _
    rw [get_bind, bind_ok a1, get_bind, a2, nil_bind, get_bind]
    exact lift_bind_error a3 _ _
  · rw [e1]
    constructor
    · rintro ⟨ha, hb⟩
      refine ⟨ha, ?_, fun ht => hb (List.mem_filter.mpr ⟨(mem_edges hw e).mpr ha, by simp [ht]⟩)⟩
      rintro rfl
      obtain ⟨vs, s, hg, -⟩ := get?_some_of_lk ha
      exact hu ((Dict.mem_keys_iff _ _).mpr ⟨vs, hg⟩)
    · rintro ⟨ha, -, hc⟩
      refine ⟨ha, fun hm => hc ?_⟩
      have := (List.mem_filter.mp hm).2
      simp at this; exact this.symm

theorem execM_ok {g g' : Graph} {op : GOp} {out : GOut} (h : execM op g = (.ok out, g')) : g.exec op = .ok (out, g') := by
  rw [← result_execM]; exact result_ok.mpr h

/-- What a call that raises does to the graph. -/
theorem execM_error {g : Graph} (hw : AdjWF g.adj) {op : GOp} {err : PyErr} (h : (execM op g).1 = .error err) :
    err = .keyError ∧ ((execM op g).2 = g ∨ ∃ u, op = .removeVertex u ∧ u ∉ g.vertices) := by
  cases op with
  | addVertex => simp [execM] at h
  | addEdge u v =>
    by_cases hu : u ∈ g.vertices
    · obtain ⟨n, g', h1, -⟩ := addEdge_spec hw u v hu
      have : execM (.addEdge u v) g = (.ok (.edge ⟨u, v, n⟩), g') := by
        apply of_result_ok; rw [result_execM, exec, h1]; rfl
      rw [this] at h; cases h
    · have : execM (.addEdge u v) g = (.error .keyError, g) := map_error (atomic_error (addEdge_error u v hu))
      rw [this] at h ⊢; cases h; exact ⟨rfl, .inl rfl⟩
  | removeEdge e =>
    have key : ∀ er, g.removeEdge e = .error er → execM (.removeEdge e) g = (.error er, g) := fun er he =>
      bind_error (atomic_error (by rw [he]; rfl))
    by_cases he : e.distinguisher ∈ lk g.adj e.source e.target
    · obtain ⟨g', h1, -⟩ := removeEdge_spec hw e he
      have : execM (.removeEdge e) g = (.ok .unit, g') := by
        apply of_result_ok; rw [result_execM, exec, h1]; rfl
      rw [this] at h; cases h
    · rcases removeEdge_absent e he with h1 | h1
      · rw [key _ h1] at h ⊢; cases h; exact ⟨rfl, .inl rfl⟩
      · have : execM (.removeEdge e) g = (.ok .unit, g) := by
          apply of_result_ok; rw [result_execM, exec, h1]; rfl
        rw [this] at h; cases h
  | removeVertex u =>
    by_cases hu : u ∈ g.vertices
    · obtain ⟨g', h1, -⟩ := removeVertex_spec hw u hu
      have : execM (.removeVertex u) g = (.ok .unit, g') := by
        apply of_result_ok; rw [result_execM, exec, h1]; rfl
      rw [this] at h; cases h
    · obtain ⟨g', h1, -⟩ := removeVertexM_absent hw hu
      have : execM (.removeVertex u) g = (.error .keyError, g') := bind_error h1
      rw [this] at h; cases h
      exact ⟨rfl, .inr ⟨u, rfl, hu⟩⟩
  | clear =>
    have : execM .clear g = (.ok .unit, ⟨0, []⟩) := by
      apply of_result_ok; rw [result_execM, exec, clear_spec hw]; rfl
    rw [this] at h; cases h

theorem effects_error {op : GOp} {err : PyErr} {l : CLog} (h : ∀ u, op ≠ .removeVertex u) : effects ((op, .error err) :: l) = effects l := by
  cases op <;> first | rfl | exact absurd rfl (h _)

theorem caught_inv {g : Graph} {l : CLog} (h : Caught execM .empty g l) : HInv g (effects l) := by
  induction h with
  | start => exact history_inv .start
  | @call g l op hc ih =>
    obtain ⟨o, ho⟩ : ∃ o, (execM op g).1 = o := ⟨_, rfl⟩
    cases o with
    | ok out =>
      rw [ho]
      exact exec_inv ih (execM_ok (Prod.ext ho rfl))
    | error err =>
      rw [ho]
      obtain ⟨-, h1 | ⟨u, rfl, hu⟩⟩ := execM_error ih.wf ho
      · by_cases hop : ∃ u, op = .removeVertex u
        · obtain ⟨u, rfl⟩ := hop
          have hu : u ∉ g.vertices := by
            intro hu
            obtain ⟨g', h1, -⟩ := removeVertex_spec ih.wf u hu
            have : execM (.removeVertex u) g = (.ok .unit, g') := by
              apply of_result_ok; rw [result_execM, exec, h1]; rfl
            rw [this] at ho; cases ho
          exact removeVertex_inv ih hu
        · rw [effects_error (fun u hu => hop ⟨u, hu⟩), h1]; exact ih
      · exact removeVertex_inv ih hu
where
  removeVertex_inv {g : Graph} {l : CLog} {err : PyErr} {u : Nat} (ih : HInv g (effects l)) (hu : u ∉ g.vertices) :
      HInv (execM (.removeVertex u) g).2 (effects ((.removeVertex u, .error err) :: l)) := by
    obtain ⟨g', h1, w1, l1, v1, e1⟩ := removeVertexM_absent ih.wf hu
    have : execM (.removeVertex u) g = (.error .keyError, g') := bind_error h1
    rw [this]
    refine ⟨w1, fun x hx => ?_, fun x hx => ?_, fun x => ?_, fun e => ?_, fun e he => ?_⟩
    · rw [l1]; exact ih.issued x hx
    · rw [l1]; rw [v1] at hx; exact ih.bound x hx
    · rw [v1, ih.verts]
      simp only [effects, liveVertices, List.mem_filter, decide_eq_true_eq]
      refine ⟨fun hx => ⟨hx, ?_⟩, fun hx => hx.1⟩
      rintro rfl; exact hu ((ih.verts _).mpr hx)
    · rw [e1, ih.eds]
      simp only [effects, liveEdges, List.mem_filter, decide_eq_true_eq]
    · simp only [effects, liveEdges, List.mem_filter] at he
      rw [v1]; exact ih.src e he.1

end Graph

namespace UGraph
open Graph

theorem execM_ok {g g' : Graph} {op : GOp} {out : GOut} (h : execM op g = (.ok out, g')) : exec g op = .ok (out, g') := by
  rw [← result_execM]; exact result_ok.mpr h

/-- `add_edge` between an existing vertex and a larger missing one leaves a half-edge behind. -/
theorem addEdgeM_half {g : Graph} (hw : AdjWF g.adj) {u v : Nat} (hu : min u v ∈ g.vertices) (hv : max u v ∉ g.vertices) :
    ∃ n g', addEdgeM u v g = (.error .keyError, g') ∧ AdjWF g'.adj ∧ g'.lastVertexId = g.lastVertexId ∧ g'.vertices = g.vertices ∧ n ∉ lk g.adj (min u v) (max u v) ∧
      ∀ x y m, m ∈ lk g'.adj x y ↔ m ∈ lk g.adj x y ∨ (x = min u v ∧ y = max u v ∧ m = n) := by
  obtain ⟨n, g', h1, w1, n1, l1, v1, e1⟩ := Graph.addEdge_spec hw (min u v) (max u v) hu
  refine ⟨n, g', ?_, w1, l1, v1, n1, e1⟩
  have a1 : Graph.addEdgeM (min u v) (max u v) g = (.ok ⟨min u v, max u v, n⟩, g') := atomic_ok h1
  have a2 : g'.adj.getE (max u v) = .error .keyError := by
    have : g'.adj.get? (max u v) = none := (Dict.get?_eq_none_iff _ _).mpr (by have := v1; unfold vertices at this; rw [this]; exact hv)
    simp [Dict.getE, this]
  show (_ >>= _ : PyM Graph (EdgeDesc Nat)) g = _
  rw [bind_ok a1, get_bind]
  exact lift_bind_error a2 _ _

theorem addEdgeM_first {g : Graph} {u v : Nat} (hu : min u v ∉ g.vertices) : addEdgeM u v g = (.error .keyError, g) :=
  bind_error (atomic_error (Graph.addEdge_error _ _ hu))

/-- A failing `remove_edge` changes nothing. -/
theorem removeEdgeM_error {g : Graph} (hw : AdjWF g.adj) (hsym : Sym g) {e : EdgeDesc Nat} {err : PyErr} (h : (removeEdgeM e g).1 = .error err) :
    removeEdgeM e g = (.error .keyError, g) := by
  by_cases he : e.distinguisher ∈ lk g.adj e.source e.target
  · obtain ⟨g', h1, -⟩ := removeEdge_spec hw hsym e he
    have : removeEdgeM e g = (.ok (), g') := by apply of_result_ok; rw [result_removeEdgeM, h1]; rfl
    rw [this] at h; cases h
  · have hk : err = .keyError := by
      have h' := result_error.mpr h
      rw [result_removeEdgeM] at h'
      rcases removeEdge_absent hsym e he with h1 | h1
      · rw [h1] at h'; cases h'; rfl
      · rw [h1] at h'; cases h'
    subst hk
    have h2 : (removeEdgeM e g).2 = g := by
      rcases Graph.removeEdge_absent e he with h1 | h1
      · have : removeEdgeM e g = (.error .keyError, g) := bind_error (atomic_error (by rw [h1]; rfl))
        rw [this]
      · have a1 : Graph.removeEdgeM e g = (.ok (), g) := atomic_ok (by rw [h1]; rfl)
        have hrw : removeEdgeM e g = (if e.source ≠ e.target then (do
              let g ← PyM.get
              let adjV ← PyM.lift (g.adj.getE e.target)
              let s ← PyM.lift (adjV.getE e.source)
              let s' ← PyM.lift (setRemoveE s e.distinguisher)
              PyM.put { g with adj := g.adj.set e.target (adjV.set e.source s') } : PyM Graph Unit) else pure ()) g := bind_ok a1
        rw [hrw] at h ⊢
        by_cases hne : e.source ≠ e.target
        · rw [if_pos hne] at h ⊢
          rw [get_bind] at h ⊢
          cases hg1 : g.adj.getE e.target with
          | error er => rw [lift_bind_error rfl]
          | ok adjV =>
            rw [lift_bind_ok hg1] at h; rw [lift_bind_ok rfl]
            cases hg2 : adjV.getE e.source with
            | error er => rw [lift_bind_error rfl]
            | ok s =>
              rw [lift_bind_ok hg2] at h; rw [lift_bind_ok rfl]
              cases hg3 : setRemoveE s e.distinguisher with
              | error er => rw [lift_bind_error rfl]
              | ok s' =>
                rw [lift_bind_ok hg3] at h
                cases h
        · rw [if_neg hne] at h ⊢
          rfl
    exact Prod.ext h h2

/-- A failing `remove_vertex` changes nothing: the vertex does not exist, hence no edge reaches it. -/
theorem removeVertexM_absent {g : Graph} (hw : AdjWF g.adj) (hsym : Sym g) {u : Nat} (hu : u ∉ g.vertices) : removeVertexM u g = (.error .keyError, g) := by
  have he : ∀ v n, n ∉ lk g.adj v u := by
    intro v n hn
    rw [hsym] at hn
    obtain ⟨vs, s, hg, -⟩ := get?_some_of_lk hn
    exact hu ((Dict.mem_keys_iff _ _).mpr ⟨vs, hg⟩)
  have h0 : ((edges g).filter fun e => u = e.target) = [] := by
    rw [List.filter_eq_nil_iff]
    intro e hm hc
    have := (mem_edges hw e).mp hm
    simp at hc
    exact he e.source e.distinguisher (hc ▸ this.1)
  have h1 : outEdges g u = [] := Graph.outEdges_of_not_mem hu
  have a3 : g.adj.delE u = .error .keyError := Graph.delE_error hu
  show (_ >>= _ : PyM Graph Unit) g = _
  rw [get_bind, h0, nil_bind, get_bind, h1, nil_bind,
    get_bind]
  exact lift_bind_error a3 _ _

/-- What a call that raises does to the graph. -/
theorem execM_error {g : Graph} (hw : AdjWF g.adj) (hsym : Sym g) {op : GOp} {err : PyErr} (h : (execM op g).1 = .error err) :
    err = .keyError ∧ ((execM op g).2 = g ∨ ∃ u v, op = .addEdge u v ∧ min u v ∈ g.vertices ∧ max u v ∉ g.vertices) := by
  cases op with
  | addVertex => simp [execM] at h
  | addEdge u v =>
    by_cases hu : min u v ∈ g.vertices
    · by_cases hv : max u v ∈ g.vertices
      · have huv : u ∈ g.vertices ∧ v ∈ g.vertices := by
          rcases Nat.le_total u v with hle | hle
          · rw [Nat.min_eq_left hle] at hu; rw [Nat.max_eq_right hle] at hv; exact ⟨hu, hv⟩
          · rw [Nat.min_eq_right hle] at hu; rw [Nat.max_eq_left hle] at hv; exact ⟨hv, hu⟩
        obtain ⟨n, g', h1, -⟩ := addEdge_spec hw hsym u v huv.1 huv.2
        have : execM (.addEdge u v) g = (.ok (.edge ⟨min u v, max u v, n⟩), g') := by
          apply of_result_ok; rw [result_execM, exec, h1]; rfl
        rw [this] at h; cases h
      · obtain ⟨n, g', h1, -⟩ := addEdgeM_half hw hu hv
        have : execM (.addEdge u v) g = (.error .keyError, g') := map_error h1
        rw [this] at h; cases h
        exact ⟨rfl, .inr ⟨u, v, rfl, hu, hv⟩⟩
    · have : execM (.addEdge u v) g = (.error .keyError, g) := map_error (addEdgeM_first hu)
      rw [this] at h ⊢; cases h; exact ⟨rfl, .inl rfl⟩
  | removeEdge e =>
    cases hr : (removeEdgeM e g).1 with
    | ok r =>
      have : execM (.removeEdge e) g = (.ok .unit, (removeEdgeM e g).2) := bind_ok (Prod.ext hr rfl)
      rw [this] at h; cases h
    | error er =>
      have : execM (.removeEdge e) g = (.error .keyError, g) := bind_error (removeEdgeM_error hw hsym hr)
      rw [this] at h ⊢; cases h; exact ⟨rfl, .inl rfl⟩
  | removeVertex u =>
    by_cases hu : u ∈ g.vertices
    · obtain ⟨g', h1, -⟩ := removeVertex_spec hw hsym u hu
      have : execM (.removeVertex u) g = (.ok .unit, g') := by
        apply of_result_ok; rw [result_execM, exec, h1]; rfl
      rw [this] at h; cases h
    · have : execM (.removeVertex u) g = (.error .keyError, g) := bind_error (removeVertexM_absent hw hsym hu)
      rw [this] at h ⊢; cases h; exact ⟨rfl, .inl rfl⟩
  | clear =>
    have : execM .clear g = (.ok .unit, ⟨0, []⟩) := by
      apply of_result_ok; rw [result_execM, exec, clear_spec hw hsym]; rfl
    rw [this] at h; cases h

theorem caught_history {g : Graph} {l : CLog} (h : Caught execM .empty g l) (hn : NoHalfUEdge l) : History exec .empty g (successes l) := by
  induction h with
  | start => exact .start
  | @call g l op hc ih =>
    obtain ⟨o, ho⟩ : ∃ o, (execM op g).1 = o := ⟨_, rfl⟩
    cases o with
    | ok out =>
      rw [ho] at hn ⊢
      exact .call (ih (by cases op <;> exact hn)) (execM_ok (Prod.ext ho rfl))
    | error err =>
      rw [ho] at hn ⊢
      have hl : NoHalfUEdge l := by
        cases op with
        | addEdge u v => exact hn.2
        | _ => exact hn
      have hi := history_inv (ih hl)
      obtain ⟨-, h1 | ⟨u, v, rfl, hu, -⟩⟩ := execM_error hi.wf hi.sym ho
      · rw [h1]; exact ih hl
      · exact absurd ((hi.verts _).mp hu) hn.1

end UGraph

namespace IGraph
open Graph

theorem execM_ok {g g' : IGraph} {op : GOp} {out : GOut} (h : execM op g = (.ok out, g')) : g.exec op = .ok (out, g') := by
  rw [← result_execM]; exact result_ok.mpr h

theorem super_ok {R : Type} {m : PyM Graph R} {g : IGraph} {g' : Graph} {r : R} (h : m g.g = (.ok r, g')) : super m g = (.ok r, ⟨g', g.inAdj⟩) := by
  unfold super PyM.on; rw [h]

theorem super_error {R : Type} {m : PyM Graph R} {g : IGraph} {g' : Graph} {e : PyErr} (h : m g.g = (.error e, g')) : super m g = (.error e, ⟨g', g.inAdj⟩) := by
  unfold super PyM.on; rw [h]

/-- `add_edge` from an existing vertex to a missing one leaves a half-edge behind. -/
theorem addEdgeM_half {g : IGraph} (hw : WF g) {u v : Nat} (hu : u ∈ g.vertices) (hv : v ∉ g.vertices) :
    ∃ n g', addEdgeM u v g = (.error .keyError, g') ∧ AdjWF g'.g.adj ∧ g'.inAdj = g.inAdj ∧ g'.g.lastVertexId = g.g.lastVertexId ∧ g'.vertices = g.vertices ∧
      n ∉ lk g.g.adj u v ∧ ∀ x y m, m ∈ lk g'.g.adj x y ↔ m ∈ lk g.g.adj x y ∨ (x = u ∧ y = v ∧ m = n) := by
  obtain ⟨n, g', h1, w1, n1, l1, v1, e1⟩ := Graph.addEdge_spec hw.out u v hu
  refine ⟨n, ⟨g', g.inAdj⟩, ?_, w1, rfl, l1, v1, n1, e1⟩
  have a1 : super (Graph.addEdgeM u v) g = (.ok ⟨u, v, n⟩, ⟨g', g.inAdj⟩) := super_ok (atomic_ok h1)
  have a2 : g.inAdj.getE v = .error .keyError := by
    have : g.inAdj.get? v = none := (Dict.get?_eq_none_iff _ _).mpr (fun h => hv ((hw.keys v).mp h))
    simp [Dict.getE, this]
  show (_ >>= _ : PyM IGraph (EdgeDesc Nat)) g = _
  rw [bind_ok a1, get_bind]
  exact lift_bind_error a2 _ _

theorem addEdgeM_first {g : IGraph} {u v : Nat} (hu : u ∉ g.vertices) : addEdgeM u v g = (.error .keyError, g) :=
  bind_error (super_error (atomic_error (Graph.addEdge_error _ _ hu)))

/-- A failing `remove_edge` changes nothing. -/
theorem removeEdgeM_error {g : IGraph} (hw : WF g) {e : EdgeDesc Nat} {err : PyErr} (h : (removeEdgeM e g).1 = .error err) :
    removeEdgeM e g = (.error .keyError, g) := by
  by_cases he : e.distinguisher ∈ lk g.g.adj e.source e.target
  · obtain ⟨g', h1, -⟩ := removeEdge_spec hw e he
    have : removeEdgeM e g = (.ok (), g') := by apply of_result_ok; rw [result_removeEdgeM, h1]; rfl
    rw [this] at h; cases h
  · have hk : err = .keyError := by
      have h' := result_error.mpr h
      rw [result_removeEdgeM] at h'
      rcases removeEdge_absent hw e he with h1 | h1
      · rw [h1] at h'; cases h'; rfl
      · rw [h1] at h'; cases h'
    subst hk
    have h2 : (removeEdgeM e g).2 = g := by
      rcases Graph.removeEdge_absent e he with h1 | h1
      · have : removeEdgeM e g = (.error .keyError, g) := bind_error (super_error (atomic_error (by rw [h1]; rfl)))
        rw [this]
      · have a1 : super (Graph.removeEdgeM e) g = (.ok (), g) := super_ok (atomic_ok (by rw [h1]; rfl))
        have hrw : removeEdgeM e g = (do
            let g ← PyM.get
            let inAdjsV ← PyM.lift (g.inAdj.getE e.target)
            let s ← PyM.lift (inAdjsV.getE e.source)
            if e.distinguisher ∈ s then
              let s' := setDiscard s e.distinguisher
              if s' = [] then PyM.put ⟨g.g, g.inAdj.set e.target (inAdjsV.erase e.source)⟩
              else PyM.put ⟨g.g, g.inAdj.set e.target (inAdjsV.set e.source s')⟩
            else pure () : PyM IGraph Unit) g := bind_ok a1
        rw [hrw] at h ⊢
        rw [get_bind] at h ⊢
        cases hg1 : g.inAdj.getE e.target with
        | error er => rw [lift_bind_error rfl]
        | ok adjV =>
          rw [lift_bind_ok hg1] at h; rw [lift_bind_ok rfl]
          cases hg2 : adjV.getE e.source with
          | error er => rw [lift_bind_error rfl]
          | ok s =>
            rw [lift_bind_ok hg2] at h
            by_cases hd : e.distinguisher ∈ s
            · rw [if_pos hd] at h
              by_cases hs : setDiscard s e.distinguisher = []
              · rw [if_pos hs] at h; cases h
              · rw [if_neg hs] at h; cases h
            · rw [if_neg hd] at h; cases h
    exact Prod.ext h h2

/-- A failing `remove_vertex` changes nothing. -/
theorem removeVertexM_absent {g : IGraph} (hw : WF g) {u : Nat} (hu : u ∉ g.vertices) : removeVertexM u g = (.error .keyError, g) := by
  have hk : u ∉ Dict.keys g.inAdj := fun h => hu ((hw.keys u).mp h)
  have h0 : g.inEdges u = [] := by
    have : g.inAdj.get? u = none := (Dict.get?_eq_none_iff _ _).mpr hk
    simp [inEdges, Dict.getD, this]
  have h1 : g.outEdges u = [] := Graph.outEdges_of_not_mem hu
  have a3 : g.g.adj.delE u = .error .keyError := Graph.delE_error hu
  show (_ >>= _ : PyM IGraph Unit) g = _
  rw [get_bind, h0, nil_bind, get_bind, h1, nil_bind,
    get_bind]
  exact lift_bind_error a3 _ _

/-- What a call that raises does to the graph. -/
theorem execM_error {g : IGraph} (hw : WF g) {op : GOp} {err : PyErr} (h : (execM op g).1 = .error err) :
    err = .keyError ∧ ((execM op g).2 = g ∨ ∃ u v, op = .addEdge u v ∧ u ∈ g.vertices ∧ v ∉ g.vertices) := by
  cases op with
  | addVertex => simp [execM] at h
  | addEdge u v =>
    by_cases hu : u ∈ g.vertices
    · by_cases hv : v ∈ g.vertices
      · obtain ⟨n, g', h1, -⟩ := addEdge_spec hw u v hu hv
        have : execM (.addEdge u v) g = (.ok (.edge ⟨u, v, n⟩), g') := by
          apply of_result_ok; rw [result_execM, exec, h1]; rfl
        rw [this] at h; cases h
      · obtain ⟨n, g', h1, -⟩ := addEdgeM_half hw hu hv
        have : execM (.addEdge u v) g = (.error .keyError, g') := map_error h1
        rw [this] at h; cases h
        exact ⟨rfl, .inr ⟨u, v, rfl, hu, hv⟩⟩
    · have : execM (.addEdge u v) g = (.error .keyError, g) := map_error (addEdgeM_first hu)
      rw [this] at h ⊢; cases h; exact ⟨rfl, .inl rfl⟩
  | removeEdge e =>
    cases hr : (removeEdgeM e g).1 with
    | ok r =>
      have : execM (.removeEdge e) g = (.ok .unit, (removeEdgeM e g).2) := bind_ok (Prod.ext hr rfl)
      rw [this] at h; cases h
    | error er =>
      have : execM (.removeEdge e) g = (.error .keyError, g) := bind_error (removeEdgeM_error hw hr)
      rw [this] at h ⊢; cases h; exact ⟨rfl, .inl rfl⟩
  | removeVertex u =>
    by_cases hu : u ∈ g.vertices
    · obtain ⟨g', h1, -⟩ := removeVertex_spec hw u hu
      have : execM (.removeVertex u) g = (.ok .unit, g') := by
        apply of_result_ok; rw [result_execM, exec, h1]; rfl
      rw [this] at h; cases h
    · have : execM (.removeVertex u) g = (.error .keyError, g) := bind_error (removeVertexM_absent hw hu)
      rw [this] at h ⊢; cases h; exact ⟨rfl, .inl rfl⟩
  | clear =>
    have : execM .clear g = (.ok .unit, ⟨⟨0, []⟩, []⟩) := by
      apply of_result_ok; rw [result_execM, exec, clear_spec hw]; rfl
    rw [this] at h; cases h

theorem caught_history {g : IGraph} {l : CLog} (h : Caught execM .empty g l) (hn : NoHalfEdge l) : History exec .empty g (successes l) := by
  induction h with
  | start => exact .start
  | @call g l op hc ih =>
    obtain ⟨o, ho⟩ : ∃ o, (execM op g).1 = o := ⟨_, rfl⟩
    cases o with
    | ok out =>
      rw [ho] at hn ⊢
      exact .call (ih (by cases op <;> exact hn)) (execM_ok (Prod.ext ho rfl))
    | error err =>
      rw [ho] at hn ⊢
      have hl : NoHalfEdge l := by
        cases op with
        | addEdge u v => exact hn.2
        | _ => exact hn
      have hi := history_inv (ih hl)
      obtain ⟨-, h1 | ⟨u, v, rfl, hu, -⟩⟩ := execM_error hi.wf ho
      · rw [h1]; exact ih hl
      · exact absurd ((hi.verts _).mp hu) hn.1

end IGraph
end PyBGL
