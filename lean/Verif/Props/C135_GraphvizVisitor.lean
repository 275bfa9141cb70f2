import Verif.Model.GraphvizVisitor
import Verif.Proofs.AutomatonLemmas
import Verif.Props.C90_Graphviz

/-!
# C135: attributes read by `read_graphviz`
-/

namespace PyBGL
open Graphviz Graph

/-- The methods that write down the calls they receive. -/
def record (s : List Install) (i : Install) : Except PyErr (List Install) := .ok (s ++ [i])

/-- The attributes of a text: the last value given to each name, the names being in the order of their first occurrence. -/
def LastValues (l : List (Text × Option Text)) (d : List (Text × Option Text)) : Prop :=
  d.map (·.1) = l.foldl (fun ks p => if p.1 ∈ ks then ks else ks ++ [p.1]) [] ∧
  ∀ k v, (k, v) ∈ d ↔ ∃ pre post, l = pre ++ (k, v) :: post ∧ ∀ v', (k, v') ∉ post

/-! ## Proofs -/

theorem foldl_set_keys : ∀ (l : List (Text × Option Text)) (d : Dict Text (Option Text)),
    Dict.keys (l.foldl (fun d p => d.set p.1 p.2) d) = l.foldl (fun ks p => if p.1 ∈ ks then ks else ks ++ [p.1]) d.keys
  | [], _ => rfl
  | p :: l, d => by
    rw [List.foldl_cons, List.foldl_cons, foldl_set_keys l]
    congr 1
    by_cases h : p.1 ∈ d.keys
    · rw [Dict.keys_set_of_mem _ _ _ h, if_pos h]
    · rw [Dict.keys_set_of_not_mem _ _ _ h, if_neg h]

theorem foldl_set_get? (k : Text) (v : Option Text) : ∀ (l : List (Text × Option Text)) (d : Dict Text (Option Text)),
    (l.foldl (fun d p => d.set p.1 p.2) d).get? k = some v ↔
      (∃ pre post, l = pre ++ (k, v) :: post ∧ ∀ v', (k, v') ∉ post) ∨ (d.get? k = some v ∧ ∀ v', (k, v') ∉ l)
  | [], d => by simp
  | (k', v') :: l, d => by
    rw [List.foldl_cons, foldl_set_get? k v l, Dict.get?_set]
    simp only
    constructor
    · rintro (⟨pre, post, rfl, h⟩ | ⟨h1, h2⟩)
      · exact .inl ⟨(k', v') :: pre, post, rfl, h⟩
      · by_cases hk : k' = k
        · subst hk
          rw [if_pos rfl] at h1
          cases h1
          exact .inl ⟨[], l, rfl, h2⟩
        · rw [if_neg hk] at h1
          refine .inr ⟨h1, fun w hw => ?_⟩
          rcases List.mem_cons.1 hw with hw | hw
          · cases hw; exact hk rfl
          · exact h2 w hw
    · rintro (⟨pre, post, h, h1⟩ | ⟨h1, h2⟩)
      · cases pre with
        | nil =>
          cases h
          exact .inr ⟨if_pos rfl, h1⟩
        | cons p pre =>
          cases h
          exact .inl ⟨pre, post, rfl, h1⟩
      · refine .inr ⟨?_, fun w hw => h2 w (by simp [hw])⟩
        rw [if_neg]
        · exact h1
        · rintro rfl
          exact h2 v' (by simp)

theorem foldl_set_nodup : ∀ (l : List (Text × Option Text)) (d : Dict Text (Option Text)), Dict.NodupKeys d →
    Dict.NodupKeys (l.foldl (fun d p => d.set p.1 p.2) d)
  | [], _, h => h
  | p :: l, d, h => foldl_set_nodup l _ (Dict.nodupKeys_set h _ _)

theorem foldlM_record (f : Text × Option Text → Install) : ∀ (ps : List (Text × Option Text)) (s : List Install),
    ps.foldlM (fun s p => record s (f p)) s = .ok (s ++ ps.map f)
  | [], s => by simp [pure, Except.pure]
  | p :: ps, s => by
    rw [List.foldlM_cons]
    show ps.foldlM _ (s ++ [f p]) = _
    rw [foldlM_record f ps]
    simp

theorem foldlM_mapped {σ : Type} (hook : σ → Install → Except PyErr σ) (f : Text × Option Text → Install) : ∀ (ps : List (Text × Option Text)) (s : σ),
    ps.foldlM (fun s p => hook s (f p)) s = (ps.map f).foldlM hook s
  | [], s => rfl
  | p :: ps, s => by
    rw [List.foldlM_cons, List.map_cons, List.foldlM_cons]
    congr 1
    funext s'
    exact foldlM_mapped hook f ps s'

section
variable {σ : Type} {html : Text → List (Text × Option Text)} {addEdge : Graph → Nat → Nat → Except PyErr (EdgeDesc Nat × Graph)}

/-- What one line adds to the record, and the graph and the aliases after it. -/
theorem on_spec (hook : σ → Install → Except PyErr σ) (al : Dict Text Nat) (g : Graph) (s : σ) (ev : Event) :
    (∃ err, Reader.on addEdge ⟨al, g⟩ ev = .error err ∧ HookReader.on html hook addEdge ⟨al, g, s⟩ ev = .error err) ∨
    ∃ al' g' is, Reader.on addEdge ⟨al, g⟩ ev = .ok ⟨al', g'⟩ ∧
      HookReader.on html hook addEdge ⟨al, g, s⟩ ev = (is.foldlM hook s).map (fun s' => ⟨al', g', s'⟩) ∧
      ∀ log, HookReader.on html record addEdge ⟨al, g, log⟩ ev = .ok ⟨al', g', log ++ is⟩ := by
  cases ev with
  | other l => exact .inr ⟨al, g, [], rfl, rfl, fun log => by simp [HookReader.on]⟩
  | vertex l ua opts =>
    refine .inr ⟨al.set ua g.addVertex.1, g.addVertex.2, (parseOpts html opts).map fun p => .vertex g.addVertex.1 p.1 p.2, rfl, ?_, fun log => ?_⟩
    · simp only [HookReader.on]
      rw [foldlM_mapped hook (fun p => .vertex g.addVertex.1 p.1 p.2)]
      cases ((parseOpts html opts).map fun p => Install.vertex g.addVertex.1 p.1 p.2).foldlM hook s <;> rfl
    · simp only [HookReader.on]
      rw [foldlM_record (fun p => .vertex g.addVertex.1 p.1 p.2)]
      rfl
  | edge l ua va opts =>
    simp only [HookReader.on, Reader.on]
    cases h1 : al.getE ua with
    | error err => exact .inl ⟨err, by simp [bind, Except.bind], by simp [bind, Except.bind]⟩
    | ok u =>
      cases h2 : al.getE va with
      | error err => exact .inl ⟨err, by simp [bind, Except.bind], by simp [bind, Except.bind]⟩
      | ok v =>
        cases h3 : addEdge g u v with
        | error err => exact .inl ⟨err, by simp [bind, Except.bind, h3], by simp [bind, Except.bind, h3]⟩
        | ok x =>
          obtain ⟨e, g'⟩ := x
          refine .inr ⟨al, g', (parseOpts html opts).map fun p => .edge e p.1 p.2, by simp [bind, Except.bind, h3], ?_, fun log => ?_⟩
          · simp only [bind, Except.bind, h3]
            rw [foldlM_mapped hook (fun p => .edge e p.1 p.2)]
            cases ((parseOpts html opts).map fun p => Install.edge e p.1 p.2).foldlM hook s <;> rfl
          · simp only [bind, Except.bind, h3]
            rw [foldlM_record (fun p => .edge e p.1 p.2)]

theorem foldlM_on (hook : σ → Install → Except PyErr σ) : ∀ (evs : List Event) (al : Dict Text Nat) (g : Graph) (s : σ) (log : List Install),
    (∃ err, evs.foldlM (Reader.on addEdge) ⟨al, g⟩ = .error err ∧
      evs.foldlM (HookReader.on html record addEdge) ⟨al, g, log⟩ = .error err ∧
      ∃ err', evs.foldlM (HookReader.on html hook addEdge) ⟨al, g, s⟩ = .error err') ∨
    ∃ al' g' is, evs.foldlM (Reader.on addEdge) ⟨al, g⟩ = .ok ⟨al', g'⟩ ∧
      evs.foldlM (HookReader.on html record addEdge) ⟨al, g, log⟩ = .ok ⟨al', g', log ++ is⟩ ∧
      evs.foldlM (HookReader.on html hook addEdge) ⟨al, g, s⟩ = (is.foldlM hook s).map (fun s' => ⟨al', g', s'⟩)
  | [], al, g, s, log => .inr ⟨al, g, [], rfl, by simp [pure, Except.pure], rfl⟩
  | ev :: evs, al, g, s, log => by
    simp only [List.foldlM_cons]
    rcases on_spec (html := html) (addEdge := addEdge) hook al g s ev with ⟨err, h1, h2⟩ | ⟨al1, g1, is1, h1, h2, h3⟩
    · have h3 : HookReader.on html record addEdge ⟨al, g, log⟩ ev = .error err := by
        rcases on_spec (html := html) (addEdge := addEdge) record al g log ev with ⟨err', k1, k2⟩ | ⟨al1, g1, is1, k1, _⟩
        · rw [h1] at k1; cases k1; exact k2
        · rw [h1] at k1; cases k1
      exact .inl ⟨err, by rw [h1]; rfl, by rw [h3]; rfl, err, by rw [h2]; rfl⟩
    · rw [h1, h3, h2]
      cases h4 : is1.foldlM hook s with
      | error err =>
        rcases foldlM_on hook evs al1 g1 s (log ++ is1) with ⟨err', k1, k2, k3⟩ | ⟨al2, g2, is2, k1, k2, k3⟩
        · exact .inl ⟨err', k1, k2, err, rfl⟩
        · refine .inr ⟨al2, g2, is1 ++ is2, k1, by rw [← List.append_assoc]; exact k2, ?_⟩
          rw [List.foldlM_append, h4]
          rfl
      | ok s1 =>
        rcases foldlM_on hook evs al1 g1 s1 (log ++ is1) with ⟨err', k1, k2, k3⟩ | ⟨al2, g2, is2, k1, k2, k3⟩
        · exact .inl ⟨err', k1, k2, k3⟩
        · refine .inr ⟨al2, g2, is1 ++ is2, k1, by rw [← List.append_assoc]; exact k2, ?_⟩
          rw [List.foldlM_append, h4]
          exact k3

end

theorem record_vertices (html : Text → List (Text × Option Text)) (addEdge : Graph → Nat → Nat → Except PyErr (EdgeDesc Nat × Graph)) (f : Nat → Text × Option Text) :
    ∀ (todo : List Nat) (al al' : Dict Text Nat) (g g' : Graph) (log : List Install),
      (todo.map fun u => Event.vertex (f u).1 (strNat u) (f u).2).foldlM (Reader.on addEdge) ⟨al, g⟩ = .ok ⟨al', g'⟩ →
      (todo.map fun u => Event.vertex (f u).1 (strNat u) (f u).2).foldlM (HookReader.on html record addEdge) ⟨al, g, log⟩ =
        .ok ⟨al', g', log ++ (todo.zipIdx g.lastVertexId).flatMap fun x => (parseOpts html (f x.1).2).map fun p => .vertex x.2 p.1 p.2⟩
  | [], al, al', g, g', log, h => by cases h; simp [pure, Except.pure]
  | u :: todo, al, al', g, g', log, h => by
    rw [List.map_cons, List.foldlM_cons] at h ⊢
    have h1 : HookReader.on html record addEdge ⟨al, g, log⟩ (.vertex (f u).1 (strNat u) (f u).2) =
        .ok ⟨al.set (strNat u) g.lastVertexId, g.addVertex.2, log ++ (parseOpts html (f u).2).map fun p => .vertex g.lastVertexId p.1 p.2⟩ := by
      simp only [HookReader.on]
      rw [foldlM_record (fun p => .vertex g.addVertex.1 p.1 p.2)]
      rfl
    rw [h1]
    have h2 := record_vertices html addEdge f todo (al.set (strNat u) g.lastVertexId) al' g.addVertex.2 g'
      (log ++ (parseOpts html (f u).2).map fun p => .vertex g.lastVertexId p.1 p.2) h
    rw [List.zipIdx_cons, List.flatMap_cons, ← List.append_assoc]
    exact h2

theorem record_edges {L : Type} (html : Text → List (Text × Option Text)) (vs : List Nat) (f : EdgeDesc L → Text × Option Text) :
    ∀ (es : List (EdgeDesc L)) (al : Dict Text Nat) (g : Graph) (log : List Install) (l : GLog), History exec .empty g l →
      (∀ e ∈ es, e.source ∈ vs ∧ e.target ∈ vs) → g.vertices = List.range vs.length →
      (∀ u ∈ vs, al.get? (strNat u) = some (vs.idxOf u)) →
      ∃ g' es', (es.map fun e => Event.edge (f e).1 (strNat e.source) (strNat e.target) (f e).2).foldlM
          (HookReader.on html record Graph.addEdge) ⟨al, g, log⟩ =
            .ok ⟨al, g', log ++ (es.zip es').flatMap fun x => (parseOpts html (f x.1).2).map fun p => .edge x.2 p.1 p.2⟩ ∧
        g'.vertices = List.range vs.length ∧ g'.edges.Perm (es' ++ g.edges) ∧
        List.Forall₂ (fun e e' => e'.source = vs.idxOf e.source ∧ e'.target = vs.idxOf e.target) es es'
  | [], al, g, log, l, _, _, hv, _ => ⟨g, [], by simp [pure, Except.pure], hv, .refl _, .nil⟩
  | e :: es, al, g, log, l, hl, hin, hv, ha => by
    obtain ⟨h1, h2⟩ := hin e (by simp)
    have hu : vs.idxOf e.source ∈ g.vertices := by
      rw [hv, List.mem_range]; exact List.idxOf_lt_length_of_mem h1
    obtain ⟨e2, g2, k1, -⟩ := (C02_add_edge_fresh hl (vs.idxOf e.source) (vs.idxOf e.target)).2 hu
    obtain ⟨p1, p2, p3, p4⟩ := perm_addEdge hl k1
    obtain ⟨g', es', i1, i2, i3, i4⟩ := record_edges html vs f es al g2 (log ++ (parseOpts html (f e).2).map fun p => .edge e2 p.1 p.2) _
      (hl.call (op := .addEdge (vs.idxOf e.source) (vs.idxOf e.target)) (out := .edge e2) (s' := g2)
        (by simp [exec, k1, Except.map]))
      (fun x hx => hin x (by simp [hx])) (p4.trans hv) ha
    refine ⟨g', e2 :: es', ?_, i2, ?_, .cons ⟨p2, p3⟩ i4⟩
    · rw [List.map_cons, List.foldlM_cons]
      have hstep : HookReader.on html record Graph.addEdge ⟨al, g, log⟩ (.edge (f e).1 (strNat e.source) (strNat e.target) (f e).2) =
          .ok ⟨al, g2, log ++ (parseOpts html (f e).2).map fun p => .edge e2 p.1 p.2⟩ := by
        simp only [HookReader.on, Dict.getE_of_get? (ha _ h1), Dict.getE_of_get? (ha _ h2), bind, Except.bind, k1]
        rw [foldlM_record (fun p => .edge e2 p.1 p.2)]
      rw [hstep, List.zip_cons_cons, List.flatMap_cons, ← List.append_assoc]
      exact i1
    · exact i3.trans ((p1.append_left _).trans List.perm_middle)

theorem foldlM_hook_items {σ : Type} (html : Text → List (Text × Option Text)) (hook : σ → Install → Except PyErr σ)
    (addEdge : Graph → Nat → Nat → Except PyErr (EdgeDesc Nat × Graph)) :
    ∀ (evs : List Event) (r : HookReader σ), evs.foldlM (HookReader.on html hook addEdge) r =
      (evs.filter Event.isItem).foldlM (HookReader.on html hook addEdge) r
  | [], r => rfl
  | ev :: evs, r => by
    cases ev with
    | other l =>
      rw [List.filter_cons_of_neg (by simp [Event.isItem]), List.foldlM_cons]
      exact foldlM_hook_items html hook addEdge evs r
    | vertex l u o =>
      rw [List.filter_cons_of_pos (by simp [Event.isItem]), List.foldlM_cons, List.foldlM_cons]
      congr 1
      funext r'
      exact foldlM_hook_items html hook addEdge evs r'
    | edge l u v o =>
      rw [List.filter_cons_of_pos (by simp [Event.isItem]), List.foldlM_cons, List.foldlM_cons]
      congr 1
      funext r'
      exact foldlM_hook_items html hook addEdge evs r'

/-! ## Theorems -/

/-- **C135** (attributes of a line): a line without attributes gives none; otherwise the parser is given the text between the brackets, and `items()` lists the last value of each name once. -/
theorem C135_attributes (html : Text → List (Text × Option Text)) :
    parseOpts html none = [] ∧
    ∀ t, LastValues (html (['<', 'f', 'a', 'k', 'e', '_', 't', 'a', 'g', ' '] ++ t ++ ['>'])) (parseOpts html (some ('[' :: (t ++ [']'])))) := by
  refine ⟨rfl, fun t => ?_⟩
  have h : parseOpts html (some ('[' :: (t ++ [']']))) = (html (['<', 'f', 'a', 'k', 'e', '_', 't', 'a', 'g', ' '] ++ t ++ ['>'])).foldl (fun d p => Dict.set d p.1 p.2) [] := by
    simp [parseOpts, fakeTag]
  rw [h]
  refine ⟨foldl_set_keys _ [], fun k v => ?_⟩
  have hn := foldl_set_nodup (html (['<', 'f', 'a', 'k', 'e', '_', 't', 'a', 'g', ' '] ++ t ++ ['>'])) [] Dict.nodupKeys_nil
  have h1 := foldl_set_get? k v (html (['<', 'f', 'a', 'k', 'e', '_', 't', 'a', 'g', ' '] ++ t ++ ['>'])) []
  simp only [Dict.get?, reduceCtorEq, false_and, or_false] at h1
  rw [← h1]
  exact ⟨fun h => Dict.get?_of_mem hn h, fun h => Dict.mem_of_get? h⟩

/-- **C135** (the methods of the visitor): the graph read does not depend on the methods; and there is one list of calls, which depends on the text only, such that reading with any methods
is making these calls, in this order. -/
theorem C135_visitor (html : Text → List (Text × Option Text)) (addEdge : Graph → Nat → Nat → Except PyErr (EdgeDesc Nat × Graph)) (t : Text) (g : Graph) :
    (∀ g', readGraphviz addEdge t g = .ok g' → ∃ calls, readGraphvizWith html record addEdge t g [] = .ok (g', calls) ∧
      ∀ (σ : Type) (hook : σ → Install → Except PyErr σ) (s : σ),
        readGraphvizWith html hook addEdge t g s = (calls.foldlM hook s).map fun s' => (g', s')) ∧
    (∀ err, readGraphviz addEdge t g = .error err →
      ∀ (σ : Type) (hook : σ → Install → Except PyErr σ) (s : σ), ∃ err', readGraphvizWith html hook addEdge t g s = .error err') := by
  constructor
  · intro g' h
    unfold readGraphviz at h
    rw [except_bind_ok] at h
    obtain ⟨r, h1, h2⟩ := h
    cases h2
    rcases foldlM_on (html := html) (addEdge := addEdge) record (readEvents t) [] g [] [] with ⟨err, k1, _⟩ | ⟨al, g2, is, k1, k2, _⟩
    · rw [k1] at h1; cases h1
    rw [k1] at h1; cases h1
    refine ⟨is, ?_, fun σ hook s => ?_⟩
    · unfold readGraphvizWith
      rw [k2]; rfl
    · rcases foldlM_on (html := html) (addEdge := addEdge) hook (readEvents t) [] g s [] with ⟨err, j1, _⟩ | ⟨al', g3, is', j1, j2, j3⟩
      · rw [k1] at j1; cases j1
      · rw [k1] at j1; cases j1
        rw [k2] at j2
        simp only [List.nil_append, Except.ok.injEq, HookReader.mk.injEq, true_and] at j2
        subst j2
        unfold readGraphvizWith
        rw [j3]
        cases is.foldlM hook s <;> rfl
  · intro err h σ hook s
    rcases foldlM_on (html := html) (addEdge := addEdge) hook (readEvents t) [] g s [] with ⟨err', j1, _, err2, j3⟩ | ⟨al', g3, is', j1, _⟩
    · exact ⟨err2, by unfold readGraphvizWith; rw [j3]; rfl⟩
    · unfold readGraphviz at h
      rw [j1] at h
      cases h

/-- The attributes written for an item: the text between the brackets, if any. -/
def writtenOpts (t : Text) : Option Text := if t = [] then none else some t

/-- **C135, partial** (drawings; missing: `read_graphviz_dp`, see the counterexample): reading the text written by `to_dot` for a `DirectedGraph`, the visitor receives the attributes written for each vertex, with the vertex it became, in the order of `vertices()`, then those written
for each edge, with the edge it became, in the order of `edges()`, and nothing else. -/
theorem C135_drawing_partial {g : Graph} {l : GLog} (hg : History exec .empty g l) (hclosed : ∀ e ∈ g.edges, e.target ∈ g.vertices)
    (html : Text → List (Text × Option Text)) (tags : Text → List (Nat × Nat)) (s : Style) (o : Opts)
    (dpv : List (Prop' Nat)) (dpe : List (Prop' (EdgeDesc Nat))) (hh : ∀ i ∈ headers s o, Header i)
    (hv : ∀ u ∈ g.vertices, OneLine (propertiesToStr tags u dpv))
    (he : ∀ e ∈ g.edges, OneLine (propertiesToStr tags e dpe)) :
    ∃ g' es', g'.vertices = List.range g.vertices.length ∧ g'.edges.Perm es' ∧
      List.Forall₂ (fun e e' => e'.source = g.vertices.idxOf e.source ∧ e'.target = g.vertices.idxOf e.target) g.edges es' ∧
      readGraphvizWith html record Graph.addEdge (toDot true tags s o dpv dpe g.vertices g.edges) .empty [] = .ok (g',
        (g.vertices.zipIdx.flatMap fun x => (parseOpts html (writtenOpts (propertiesToStr tags x.1 dpv))).map fun p => .vertex x.2 p.1 p.2) ++
        ((g.edges.zip es').flatMap fun x => (parseOpts html (writtenOpts (propertiesToStr tags x.1 dpe))).map fun p => .edge x.2 p.1 p.2)) := by
  have hi := history_inv hg
  have hsrc : ∀ e ∈ g.edges, e.source ∈ g.vertices ∧ e.target ∈ g.vertices := fun e hee =>
    ⟨hi.src e ((C02_multigraph hg).2.2.1 e |>.1 hee), hclosed e hee⟩
  obtain ⟨r1, l1, a1, a2, a3, a4, a5⟩ := foldlM_vertices Graph.addEdge
    (fun u => (vertexToGraphviz tags dpv u ++ [';'], optsOf (propertiesToStr tags u dpv))) exec (fun _ => rfl)
    g.vertices [] (by rw [List.nil_append]; exact hi.wf.outer) ⟨[], .empty⟩ [] .start rfl rfl rfl (by simp)
  simp only [List.nil_append] at a1 a3 a5
  have b := record_vertices html Graph.addEdge (fun u => (vertexToGraphviz tags dpv u ++ [';'], optsOf (propertiesToStr tags u dpv)))
    g.vertices [] r1.aliases .empty r1.g [] a1
  obtain ⟨g', es', c1, c2, c3, c4⟩ := record_edges html g.vertices
    (fun e => (edgeToGraphviz true tags dpe e ++ [';'], optsOf (propertiesToStr tags e dpe))) g.edges r1.aliases r1.g
    ([] ++ (g.vertices.zipIdx 0).flatMap fun x => (parseOpts html (optsOf (propertiesToStr tags x.1 dpv))).map fun p => .vertex x.2 p.1 p.2) l1 a2 hsrc a3 a5
  have ho : optsOf = writtenOpts := rfl
  refine ⟨g', es', c2, by simpa [a4] using c3, c4, ?_⟩
  unfold readGraphvizWith
  rw [foldlM_hook_items, C90_events tags s o dpv dpe _ _ hh hv he, List.foldlM_append, b]
  simp only [bind, Except.bind] at c1 ⊢
  rw [show (Graph.empty : Graph).lastVertexId = 0 from rfl, c1, ho]
  rfl

/-- "`read_graphviz_dp(text, g, dpv, dpe)` reads every text that `read_graphviz` reads." -/
def C135_dp_statement : Prop :=
  ∀ (t : Text) (g g' : Graph) (dpv dpe : Option (Dict Text (Dict Nat Text))), readGraphviz Graph.addEdge t g = .ok g' →
    ∃ g'', readGraphvizDp Graph.addEdge t g dpv dpe = .ok g''

/-- **C135 is false of `read_graphviz_dp`**: it raises `TypeError` whatever it is given, as its visitor cannot be created. -/
theorem C135_dp_counterexample : ¬ C135_dp_statement ∧
    ∀ addEdge t g dpv dpe, readGraphvizDp addEdge t g dpv dpe = .error .typeError :=
  ⟨(fun h => by obtain ⟨g, h⟩ := h [] .empty .empty none none rfl; cases h), fun _ _ _ _ _ => rfl⟩

-- Two attributes of a vertex, one of them given twice.
example : parseOpts (fun _ => [(['a'], some ['1']), (['b'], none), (['a'], some ['2'])]) (some ['[', 'x', ']']) = [(['a'], some ['2']), (['b'], none)] := by decide

-- A text with two vertices, an edge and their attributes.
example : (readGraphvizWith (fun t => if t = fakeTag ++ ['x', '>'] then [(['k'], some ['v'])] else []) record Graph.addEdge
    ['5', ' ', '[', 'x', ']', ';', '\n', '7', ';', '\n', '5', '-', '>', '7', ' ', '[', 'x', ']', ';'] .empty []).map (·.2) =
    .ok [.vertex 0 ['k'] (some ['v']), .edge ⟨0, 1, 0⟩ ['k'] (some ['v'])] := by rfl

end PyBGL
