import Verif.Proofs.Graphviz
import Verif.Props.C01_C05_DirectedGraph
import Verif.Props.C06_C07_UndirectedGraph
import Verif.Props.C74_C77_Misc
import Verif.Spec.Graphviz

/-!
# C90, C91: writing a graph in the Graphviz format and reading it back
-/

namespace PyBGL
open Graphviz Graph

/-! ## C90 -/

/-- The text of an instruction of the preamble: a single line, which does not begin with a digit. -/
def Header (i : Text) : Prop := OneLine i ∧ ∀ c, (i.dropWhile isSpace).head? = some c → isDig c = false

/-- Is it the notification of a vertex or of an edge? -/
def Graphviz.Event.isItem : Event → Bool
  | .other _ => false
  | _ => true

/-- `g'` is the graph with the vertices `vs` and the edges `es`, the vertices being numbered in the order of `vs`. -/
def Renumbered {L : Type} (vs : List Nat) (es : List (EdgeDesc L)) (vs' : List Nat) (es' : List (EdgeDesc Nat)) : Prop :=
  vs' = List.range vs.length ∧
    (es'.map fun e => (e.source, e.target)).Perm (es.map fun e => (vs.idxOf e.source, vs.idxOf e.target))

/-- **C90** (the visitor). Reading the text written by `to_dot` for a directed graph notifies the vertices, then the edges, in
the order in which they were written, with their attributes; nothing else is taken for a vertex or an edge. -/
theorem C90_events {L : Type} (tags : Text → List (Nat × Nat)) (s : Style) (o : Opts) (dpv : List (Prop' Nat))
    (dpe : List (Prop' (EdgeDesc L))) (vs : List Nat) (es : List (EdgeDesc L)) (hh : ∀ i ∈ headers s o, Header i)
    (hv : ∀ u ∈ vs, OneLine (propertiesToStr tags u dpv)) (he : ∀ e ∈ es, OneLine (propertiesToStr tags e dpe)) :
    (readEvents (toDot true tags s o dpv dpe vs es)).filter Event.isItem =
      (vs.map fun u => .vertex (vertexToGraphviz tags dpv u ++ [';']) (strNat u) (optsOf (propertiesToStr tags u dpv))) ++
      (es.map fun e => .edge (edgeToGraphviz true tags dpe e ++ [';']) (strNat e.source) (strNat e.target)
        (optsOf (propertiesToStr tags e dpe))) := by
  have hstr : ∀ u, OneLine (strNat u) := fun u c hc => isBreak_of_isDig (isDig_strNat hc)
  generalize his : headers s o ++ vs.map (vertexToGraphviz tags dpv) ++ es.map (edgeToGraphviz true tags dpe) = is
  by_cases hne : is = []
  · subst hne
    have h1 : headers s o = [] ∧ vs = [] ∧ es = [] := by simpa [and_assoc] using his
    obtain ⟨h1, rfl, rfl⟩ := h1
    unfold toDot
    simp only [h1, List.map_nil, List.append_nil]
    decide
  · have h1 : ∀ i ∈ is, OneLine i := by
      intro i hi
      rw [← his] at hi
      simp only [List.mem_append, List.mem_map] at hi
      rcases hi with (hi | ⟨u, hu, rfl⟩) | ⟨e, hee, rfl⟩
      · exact (hh i hi).1
      · have : vertexToGraphviz tags dpv u = strNat u ++ [' '] ++ propertiesToStr tags u dpv := by
          simp [vertexToGraphviz, join]
        rw [this]
        exact ((hstr u).append (by decide)).append (hv u hu)
      · have : edgeToGraphviz true tags dpe e = strNat e.source ++ [' ', '-', '>', ' '] ++ strNat e.target ++ [' '] ++
            propertiesToStr tags e dpe := by
          simp [edgeToGraphviz, join, arc]
        rw [this]
        exact ((((hstr _).append (by decide)).append (hstr _)).append (by decide)).append (he e hee)
    unfold readEvents
    rw [splitlines_toDot true tags s o dpv dpe vs es is his h1 hne, ← his]
    simp only [List.map_append, List.map_cons, List.map_nil, List.cons_append, List.map_map, List.filter_append]
    have e1 : ∀ d : Bool, (readLine (gtype d ++ [' ', 'G', ' ', '{'])).isItem = false := by decide
    have e2 : (readLine ['}']).isItem = false := by decide
    rw [List.filter_cons_of_neg (by simp [e1 true])]
    have e3 : ((headers s o).map (readLine ∘ line)).filter Event.isItem = [] := by
      rw [List.filter_eq_nil_iff]
      intro ev hev
      obtain ⟨i, hi, rfl⟩ := List.mem_map.1 hev
      rw [Function.comp_apply, readLine_other (hh i hi).2]
      exact Bool.false_ne_true
    have e4 : (vs.map (readLine ∘ line ∘ vertexToGraphviz tags dpv)) = vs.map fun u =>
        Event.vertex (vertexToGraphviz tags dpv u ++ [';']) (strNat u) (optsOf (propertiesToStr tags u dpv)) := by
      apply List.map_congr_left
      intro u hu
      exact readLine_vertex tags dpv u (hv u hu)
    have e5 : (es.map (readLine ∘ line ∘ edgeToGraphviz true tags dpe)) = es.map fun e =>
        Event.edge (edgeToGraphviz true tags dpe e ++ [';']) (strNat e.source) (strNat e.target)
          (optsOf (propertiesToStr tags e dpe)) := by
      apply List.map_congr_left
      intro e hee
      exact readLine_edge tags dpe e (he e hee)
    simp only [List.filter_append, e3, List.nil_append, e4, e5]
    rw [List.filter_cons_of_neg (by simp [e2]), List.filter_nil, List.append_nil, List.filter_eq_self.2,
      List.filter_eq_self.2]
    · intro ev hev; obtain ⟨e, _, rfl⟩ := List.mem_map.1 hev; rfl
    · intro ev hev; obtain ⟨e, _, rfl⟩ := List.mem_map.1 hev; rfl

theorem foldlM_items (addEdge : Graph → Nat → Nat → Except PyErr (EdgeDesc Nat × Graph)) :
    ∀ (evs : List Event) (r : Reader), evs.foldlM (Reader.on addEdge) r = (evs.filter Event.isItem).foldlM (Reader.on addEdge) r
  | [], r => rfl
  | ev :: evs, r => by
    cases ev with
    | other l =>
      rw [List.filter_cons_of_neg (by simp [Event.isItem]), List.foldlM_cons]
      exact foldlM_items addEdge evs r
    | vertex l u o =>
      rw [List.filter_cons_of_pos (by simp [Event.isItem]), List.foldlM_cons, List.foldlM_cons]
      congr 1
      funext r'
      exact foldlM_items addEdge evs r'
    | edge l u v o =>
      rw [List.filter_cons_of_pos (by simp [Event.isItem]), List.foldlM_cons, List.foldlM_cons]
      congr 1
      funext r'
      exact foldlM_items addEdge evs r'

theorem foldlM_vertices (addEdge : Graph → Nat → Nat → Except PyErr (EdgeDesc Nat × Graph)) (f : Nat → Text × Option Text)
    (exec : Graph → GOp → Except PyErr (GOut × Graph)) (hex : ∀ g, exec g .addVertex = .ok (.vertex g.addVertex.1, g.addVertex.2)) :
    ∀ (todo dne : List Nat), (dne ++ todo).Nodup → ∀ (r : Reader) (l : GLog), History exec .empty r.g l →
      r.g.lastVertexId = dne.length → r.g.vertices = List.range dne.length → r.g.edges = [] →
      (∀ u ∈ dne, r.aliases.get? (strNat u) = some (dne.idxOf u)) →
      ∃ r' l', (todo.map fun u => Event.vertex (f u).1 (strNat u) (f u).2).foldlM (Reader.on addEdge) r = .ok r' ∧
        History exec .empty r'.g l' ∧ r'.g.vertices = List.range (dne ++ todo).length ∧ r'.g.edges = [] ∧
        ∀ u ∈ dne ++ todo, r'.aliases.get? (strNat u) = some ((dne ++ todo).idxOf u)
  | [], dne, _, r, l, hl, _, hv, he, ha => ⟨r, l, rfl, hl, by simpa using hv, he, by simpa using ha⟩
  | u :: todo, dne, hnd, r, l, hl, hid, hv, he, ha => by
    have hu : u ∉ dne := by
      intro h
      rw [List.nodup_append] at hnd
      exact hnd.2.2 u h u (by simp) rfl
    have hnew : r.g.lastVertexId ∉ r.g.vertices := by rw [hv, hid]; simp
    obtain ⟨r', l', h1, h2, h3, h4, h5⟩ := foldlM_vertices addEdge f exec hex todo (dne ++ [u]) (by simpa using hnd)
      ⟨r.aliases.set (strNat u) r.g.lastVertexId, r.g.addVertex.2⟩ _ (hl.call (hex r.g))
      (by simp [addVertex, hid])
      (by
        show Dict.keys (r.g.adj.set _ _) = _
        rw [Dict.keys_set_of_not_mem _ _ _ hnew]
        show r.g.vertices ++ _ = _
        rw [hv, hid]; simp [List.range_succ])
      (by
        show Graph.edges ⟨_, r.g.adj.set r.g.lastVertexId []⟩ = []
        have hset : r.g.adj.set r.g.lastVertexId [] = r.g.adj ++ [(r.g.lastVertexId, [])] := by
          have : ∀ (d : Dict Nat (Dict Nat (List Nat))) (k : Nat), k ∉ Dict.keys d → d.set k [] = d ++ [(k, [])] := by
            intro d k
            induction d with
            | nil => intro _; rfl
            | cons p d ih =>
              intro h
              simp only [Dict.keys, List.map_cons, List.mem_cons, not_or] at h
              simp only [Dict.set]
              rw [if_neg (fun h' => h.1 h'.symm), ih h.2]; rfl
          exact this _ _ hnew
        unfold Graph.edges at he ⊢
        rw [hset, List.flatMap_append, he]; rfl)
      (by
        intro v hvm
        simp only
        rw [Dict.get?_set]
        rcases List.mem_append.1 hvm with h | h
        · have hvu : v ≠ u := fun h' => hu (h' ▸ h)
          rw [if_neg (fun h' => hvu (strNat_inj h').symm), ha v h, List.idxOf_append_of_mem h]
        · rw [List.mem_singleton.1 h, if_pos rfl, hid, List.idxOf_append_of_notMem hu]
          simp)
    refine ⟨r', l', ?_, h2, by simpa using h3, h4, by simpa using h5⟩
    rw [List.map_cons, List.foldlM_cons]
    exact h1

theorem keys_aliases (addEdge : Graph → Nat → Nat → Except PyErr (EdgeDesc Nat × Graph)) (f : Nat → Text × Option Text) :
    ∀ (todo : List Nat) (r r' : Reader),
      (todo.map fun u => Event.vertex (f u).1 (strNat u) (f u).2).foldlM (Reader.on addEdge) r = .ok r' →
      ∀ k ∈ r'.aliases.keys, k ∈ r.aliases.keys ∨ ∃ u ∈ todo, k = strNat u
  | [], r, r', h, k, hk => by cases h; exact .inl hk
  | u :: todo, r, r', h, k, hk => by
    rw [List.map_cons, List.foldlM_cons] at h
    rcases keys_aliases addEdge f todo ⟨r.aliases.set (strNat u) r.g.lastVertexId, r.g.addVertex.2⟩ r' h k hk with h1 | ⟨v, hv, h1⟩
    · rw [Dict.mem_keys_set] at h1
      rcases h1 with h1 | h1
      · exact .inr ⟨u, by simp, h1⟩
      · exact .inl h1
    · exact .inr ⟨v, by simp [hv], h1⟩

theorem perm_addEdge {g g' : Graph} {l : GLog} {u v : Nat} {e : EdgeDesc Nat} (hl : History exec .empty g l)
    (h : g.addEdge u v = .ok (e, g')) : g'.edges.Perm (e :: g.edges) ∧ e.source = u ∧ e.target = v ∧ g'.vertices = g.vertices := by
  have hu : u ∈ g.vertices := by
    by_contra hu
    rw [(C02_add_edge_fresh hl u v).1 hu] at h; cases h
  obtain ⟨e2, g2, h1, h2, h3, h4, h5, h6⟩ := (C02_add_edge_fresh hl u v).2 hu
  rw [h1] at h; cases h
  have hl' : History exec .empty g' ((.addEdge u v, .edge e) :: l) := hl.call (by simp [exec, h1, Except.map])
  refine ⟨?_, h2, h3, h6⟩
  rw [List.perm_ext_iff_of_nodup (C02_multigraph hl').2.2.2 (List.nodup_cons.2 ⟨h4, (C02_multigraph hl).2.2.2⟩)]
  intro x
  rw [h5, List.mem_cons, or_comm]

theorem foldlM_edges {L : Type} (vs : List Nat) (f : EdgeDesc L → Text × Option Text) :
    ∀ (es : List (EdgeDesc L)) (r : Reader) (l : GLog), History exec .empty r.g l →
      (∀ e ∈ es, e.source ∈ vs ∧ e.target ∈ vs) → r.g.vertices = List.range vs.length →
      (∀ u ∈ vs, r.aliases.get? (strNat u) = some (vs.idxOf u)) →
      ∃ r', (es.map fun e => Event.edge (f e).1 (strNat e.source) (strNat e.target) (f e).2).foldlM
          (Reader.on Graph.addEdge) r = .ok r' ∧ r'.g.vertices = List.range vs.length ∧
        (r'.g.edges.map fun e => (e.source, e.target)).Perm
          ((r.g.edges.map fun e => (e.source, e.target)) ++ es.map fun e => (vs.idxOf e.source, vs.idxOf e.target))
  | [], r, l, _, _, hv, _ => ⟨r, rfl, hv, by simp⟩
  | e :: es, r, l, hl, hin, hv, ha => by
    obtain ⟨h1, h2⟩ := hin e (by simp)
    have hu : vs.idxOf e.source ∈ r.g.vertices := by
      rw [hv, List.mem_range]; exact List.idxOf_lt_length_of_mem h1
    obtain ⟨e2, g2, k1, -⟩ := (C02_add_edge_fresh hl (vs.idxOf e.source) (vs.idxOf e.target)).2 hu
    obtain ⟨p1, p2, p3, p4⟩ := perm_addEdge hl k1
    obtain ⟨r', i1, i2, i3⟩ := foldlM_edges vs f es ⟨r.aliases, g2⟩ _
      (hl.call (op := .addEdge (vs.idxOf e.source) (vs.idxOf e.target)) (out := .edge e2) (s' := g2)
        (by simp [exec, k1, Except.map]))
      (fun x hx => hin x (by simp [hx])) (p4.trans hv) ha
    refine ⟨r', ?_, i2, ?_⟩
    · rw [List.map_cons, List.foldlM_cons]
      simp only [Reader.on, Dict.getE_of_get? (ha _ h1), Dict.getE_of_get? (ha _ h2), bind, Except.bind, k1]
      exact i1
    · refine i3.trans ?_
      have := p1.map fun e => (e.source, e.target)
      refine (this.append_right _).trans ?_
      simp only [List.map_cons, List.cons_append, p2, p3]
      exact List.perm_middle.symm

/-- **C90, partial** (missing: undirected graphs, edges whose endpoints are not vertices, attributes containing line
boundaries). Reading with `read_graphviz` the text written by `to_dot` for a `DirectedGraph` rebuilds the graph, with its
parallel edges, its vertices being numbered in order. -/
theorem C90_roundtrip_partial {g : Graph} {l : GLog} (hg : History exec .empty g l)
    (hclosed : ∀ e ∈ g.edges, e.target ∈ g.vertices) (tags : Text → List (Nat × Nat)) (s : Style) (o : Opts)
    (dpv : List (Prop' Nat)) (dpe : List (Prop' (EdgeDesc Nat))) (hh : ∀ i ∈ headers s o, Header i)
    (hv : ∀ u ∈ g.vertices, OneLine (propertiesToStr tags u dpv))
    (he : ∀ e ∈ g.edges, OneLine (propertiesToStr tags e dpe)) :
    ∃ g', readGraphviz Graph.addEdge (toDot true tags s o dpv dpe g.vertices g.edges) .empty = .ok g' ∧
      Renumbered g.vertices g.edges g'.vertices g'.edges := by
  have hi := history_inv hg
  have hsrc : ∀ e ∈ g.edges, e.source ∈ g.vertices ∧ e.target ∈ g.vertices := fun e hee =>
    ⟨hi.src e ((C02_multigraph hg).2.2.1 e |>.1 hee), hclosed e hee⟩
  obtain ⟨r1, l1, a1, a2, a3, a4, a5⟩ := foldlM_vertices Graph.addEdge
    (fun u => (vertexToGraphviz tags dpv u ++ [';'], optsOf (propertiesToStr tags u dpv))) exec (fun _ => rfl)
    g.vertices [] (by rw [List.nil_append]; exact hi.wf.outer) ⟨[], .empty⟩ [] .start rfl rfl rfl (by simp)
  simp only [List.nil_append] at a1 a3 a5
  obtain ⟨r2, b1, b2, b3⟩ := foldlM_edges g.vertices
    (fun e => (edgeToGraphviz true tags dpe e ++ [';'], optsOf (propertiesToStr tags e dpe))) g.edges r1 l1 a2 hsrc a3 a5
  refine ⟨r2.g, ?_, b2, by simpa [a4] using b3⟩
  unfold readGraphviz
  rw [foldlM_items, C90_events tags s o dpv dpe _ _ hh hv he, List.foldlM_append, a1]
  simp only [bind, Except.bind] at b1 ⊢
  rw [b1]

/-- **C90** (undirected graphs): the edges, written `u -- v`, are not recognised; the graph read has the vertices of the
original and no edge, whatever the class of graph it is read into. -/
theorem C90_undirected_edges_lost {L : Type} (addEdge : Graph → Nat → Nat → Except PyErr (EdgeDesc Nat × Graph)) {vs : List Nat}
    (hnd : vs.Nodup) (es : List (EdgeDesc L)) (tags : Text → List (Nat × Nat)) (s : Style) (o : Opts)
    (dpv : List (Prop' Nat)) (dpe : List (Prop' (EdgeDesc L))) (hh : ∀ i ∈ headers s o, Header i)
    (hv : ∀ u ∈ vs, OneLine (propertiesToStr tags u dpv))
    (he : ∀ e ∈ es, OneLine (propertiesToStr tags e dpe)) :
    ∃ g', readGraphviz addEdge (toDot false tags s o dpv dpe vs es) .empty = .ok g' ∧
      g'.vertices = List.range vs.length ∧ g'.edges = [] := by
  have hstr : ∀ u, OneLine (strNat u) := fun u c hc => isBreak_of_isDig (isDig_strNat hc)
  have hev : (readEvents (toDot false tags s o dpv dpe vs es)).filter Event.isItem =
      (vs.map fun u => .vertex (vertexToGraphviz tags dpv u ++ [';']) (strNat u) (optsOf (propertiesToStr tags u dpv))) := by
    generalize his : headers s o ++ vs.map (vertexToGraphviz tags dpv) ++ es.map (edgeToGraphviz false tags dpe) = is
    by_cases hne : is = []
    · subst hne
      have h1 : headers s o = [] ∧ vs = [] ∧ es = [] := by simpa [and_assoc] using his
      obtain ⟨h1, rfl, rfl⟩ := h1
      unfold toDot
      simp only [h1, List.map_nil, List.append_nil]
      decide
    · have h1 : ∀ i ∈ is, OneLine i := by
        intro i hi
        rw [← his] at hi
        simp only [List.mem_append, List.mem_map] at hi
        rcases hi with (hi | ⟨u, hu, rfl⟩) | ⟨e, hee, rfl⟩
        · exact (hh i hi).1
        · have : vertexToGraphviz tags dpv u = strNat u ++ [' '] ++ propertiesToStr tags u dpv := by
            simp [vertexToGraphviz, join]
          rw [this]
          exact ((hstr u).append (by decide)).append (hv u hu)
        · have : edgeToGraphviz false tags dpe e = strNat e.source ++ [' ', '-', '-', ' '] ++ strNat e.target ++ [' '] ++
              propertiesToStr tags e dpe := by
            simp [edgeToGraphviz, join, arc]
          rw [this]
          exact ((((hstr _).append (by decide)).append (hstr _)).append (by decide)).append (he e hee)
      unfold readEvents
      rw [splitlines_toDot false tags s o dpv dpe vs es is his h1 hne, ← his]
      simp only [List.map_append, List.map_cons, List.map_nil, List.cons_append, List.map_map, List.filter_append]
      have e1 : ∀ d : Bool, (readLine (gtype d ++ [' ', 'G', ' ', '{'])).isItem = false := by decide
      have e2 : (readLine ['}']).isItem = false := by decide
      rw [List.filter_cons_of_neg (by simp [e1 false])]
      have e3 : ((headers s o).map (readLine ∘ line)).filter Event.isItem = [] := by
        rw [List.filter_eq_nil_iff]
        intro ev hev
        obtain ⟨i, hi, rfl⟩ := List.mem_map.1 hev
        rw [Function.comp_apply, readLine_other (hh i hi).2]
        exact Bool.false_ne_true
      have e4 : (vs.map (readLine ∘ line ∘ vertexToGraphviz tags dpv)) = vs.map fun u =>
          Event.vertex (vertexToGraphviz tags dpv u ++ [';']) (strNat u) (optsOf (propertiesToStr tags u dpv)) := by
        apply List.map_congr_left
        intro u hu
        exact readLine_vertex tags dpv u (hv u hu)
      have e5 : (es.map (readLine ∘ line ∘ edgeToGraphviz false tags dpe)).filter Event.isItem = [] := by
        rw [List.filter_eq_nil_iff]
        intro ev hev
        obtain ⟨i, hi, rfl⟩ := List.mem_map.1 hev
        rw [Function.comp_apply, Function.comp_apply, readLine_undirected]
        exact Bool.false_ne_true
      simp only [List.filter_append, e3, List.nil_append, e4, e5]
      rw [List.filter_cons_of_neg (by simp [e2]), List.filter_nil, List.append_nil, List.append_nil, List.filter_eq_self.2]
      intro ev hev; obtain ⟨e, _, rfl⟩ := List.mem_map.1 hev; rfl
  obtain ⟨r1, l1, a1, a2, a3, a4, a5⟩ := foldlM_vertices addEdge
    (fun u => (vertexToGraphviz tags dpv u ++ [';'], optsOf (propertiesToStr tags u dpv))) exec (fun _ => rfl)
    vs [] (by simpa using hnd) ⟨[], .empty⟩ [] .start rfl rfl rfl (by simp)
  simp only [List.nil_append] at a1 a3
  refine ⟨r1.g, ?_, a3, a4⟩
  unfold readGraphviz
  rw [foldlM_items, hev, a1]
  rfl

/-- **C90, full statement**: directed and undirected graphs alike, here without attributes and with the style `s`. -/
def C90_statement : Prop :=
  ∀ s : Style, (∀ i ∈ headers s {}, Header i) →
    (∀ g l, History Graph.exec .empty g l → (∀ e ∈ g.edges, e.target ∈ g.vertices) → ∃ g',
      readGraphviz Graph.addEdge (toDot true (fun _ => []) s {} [] ([] : List (Prop' (EdgeDesc Nat))) g.vertices g.edges) .empty =
        .ok g' ∧ Renumbered g.vertices g.edges g'.vertices g'.edges) ∧
    (∀ g l, History UGraph.exec .empty g l → ∃ g',
      readGraphviz UGraph.addEdge (toDot false (fun _ => []) s {} [] ([] : List (Prop' (EdgeDesc Nat))) g.vertices (UGraph.edges g))
        .empty = .ok g' ∧ (UGraph.edges g').length = (UGraph.edges g).length)

/-- The style without any attribute. -/
def plainStyle : Style := ⟨[], [], [], []⟩

theorem plainStyle_headers : ∀ i ∈ headers plainStyle {}, Header i := by
  intro i hi
  have : i = [';', ' ', ';', ' '] := by
    have : headers plainStyle {} = [[';', ' ', ';', ' ']] := by decide
    rw [this] at hi
    exact List.mem_singleton.1 hi
  subst this
  refine ⟨by decide, ?_⟩
  intro c hc
  have : c = ';' := by
    have h : ([';', ' ', ';', ' '].dropWhile isSpace).head? = some ';' := by decide
    rw [h] at hc; injection hc with hc; exact hc.symm
  subst this
  decide

/-- **C90 is false of the code** for undirected graphs. -/
theorem C90_roundtrip_counterexample : ¬ C90_statement := by
  intro h
  obtain ⟨_, h2⟩ := h plainStyle plainStyle_headers
  have hg : History UGraph.exec .empty ⟨2, [(0, [(1, [0])]), (1, [(0, [0])])]⟩ _ :=
    runCalls_history [.addVertex, .addVertex, .addEdge 0 1] .start rfl
  obtain ⟨g', h3, h4⟩ := h2 _ _ hg
  obtain ⟨g2, k1, k2, k3⟩ := C90_undirected_edges_lost UGraph.addEdge (vs := [0, 1]) (by decide)
    ([⟨0, 1, 0⟩] : List (EdgeDesc Nat)) (fun _ => []) plainStyle {} [] [] plainStyle_headers (by simp [propertiesToStr, OneLine])
    (by simp [propertiesToStr, OneLine])
  have e : readGraphviz UGraph.addEdge (toDot false (fun _ => []) plainStyle {} [] ([] : List (Prop' (EdgeDesc Nat))) [0, 1]
      [⟨0, 1, 0⟩]) .empty = .ok g' := h3
  rw [k1] at e
  cases e
  have h5 : (UGraph.edges g').length = 1 := h4
  have h6 : UGraph.edges g' = [] := by
    rw [List.eq_nil_iff_forall_not_mem]
    intro e hee
    have : e ∈ g'.edges := by
      unfold UGraph.edges at hee
      unfold Graph.edges
      simp only [List.mem_flatMap] at hee ⊢
      obtain ⟨p, hp, q, hq, hm⟩ := hee
      refine ⟨p, hp, q, hq, ?_⟩
      split at hm
      · exact hm
      · cases hm
    rw [k3] at this; cases this
  rw [h6] at h5
  cases h5

/-- **C90** (the preamble): a style all of whose texts are on one line, with the default or further attributes of the graph,
the vertices and the edges on one line, yields instructions that are not taken for vertices. -/
theorem C90_headers (s : Style) (o : Opts)
    (hs : ∀ d ∈ [s.graph, s.node, s.edge, o.dg, o.dv, o.de], ∀ p ∈ d, OneLine p.1 ∧ OneLine p.2)
    (hx : ∀ t ∈ s.extra, OneLine t) (hst : o.style = none) (hex : o.extra ≠ [] → Header o.extra) :
    ∀ i ∈ headers s o, Header i := by
  have hjoin : ∀ (sep : Text) (ts : List Text), OneLine sep → (∀ t ∈ ts, OneLine t) → OneLine (join sep ts) := by
    intro sep ts hsep
    induction ts with
    | nil => intro _; exact fun c hc => by cases hc
    | cons t ts ih =>
      intro h
      cases ts with
      | nil => exact h t (by simp)
      | cons t' ts =>
        rw [join]
        · exact ((h t (by simp)).append hsep).append (ih fun x hx => h x (by simp [hx]))
        · simp
  have hdx : ∀ (pre : Text) (d : List (Text × Text)), OneLine pre → (∀ p ∈ d, OneLine p.1 ∧ OneLine p.2) →
      OneLine (dxToDot pre d) := by
    intro pre d hp hd
    unfold dxToDot
    split
    · exact fun c hc => by cases hc
    · refine ((hp.append (by decide)).append (hjoin _ _ (by decide) ?_)).append (by decide)
      intro t ht
      obtain ⟨p, hpm, rfl⟩ := List.mem_map.1 ht
      exact (((hd p hpm).1.append (by decide)).append (hd p hpm).2).append (by decide)
  have hhead : ∀ (c : Char) (t rest : Text) (d : List (Text × Text)), isSpace c = false → isDig c = false →
      dxToDot (c :: t) d ≠ [] → ∀ x, ((dxToDot (c :: t) d).dropWhile isSpace).head? = some x → isDig x = false := by
    intro c t rest d h1 h2 hne x hx
    unfold dxToDot at hne hx
    split at hx
    · cases hx
    · rw [List.append_assoc, List.append_assoc, List.cons_append, List.dropWhile_cons_of_neg (by simp [h1])] at hx
      simp only [List.head?_cons, Option.some.injEq] at hx
      subst hx; exact h2
  have hsty : Header (styleStr s) := by
    constructor
    · unfold styleStr
      apply hjoin _ _ (by decide)
      intro t ht
      simp only [List.cons_append, List.nil_append, List.mem_cons] at ht
      rcases ht with rfl | rfl | rfl | ht
      · exact hdx _ _ (by decide) (hs _ (by simp))
      · exact hdx _ _ (by decide) (hs _ (by simp))
      · exact hdx _ _ (by decide) (hs _ (by simp))
      · exact hx t ht
    · intro c hc
      have hform : ∃ r, styleStr s = dxToDot kwGraph s.graph ++ sepSemi ++ r := by
        unfold styleStr
        simp only [List.cons_append, List.nil_append]
        rw [join]
        · exact ⟨_, rfl⟩
        · simp
      obtain ⟨r, hr⟩ := hform
      rw [hr] at hc
      unfold dxToDot kwGraph sepSemi at hc
      split at hc
      · rw [List.nil_append, List.cons_append, List.dropWhile_cons_of_neg (by decide)] at hc
        simp at hc; subst hc; decide
      · simp only [List.append_assoc, List.cons_append] at hc
        rw [List.dropWhile_cons_of_neg (by decide)] at hc
        simp at hc; subst hc; decide
  intro i hi
  unfold headers at hi
  rw [List.mem_filter] at hi
  obtain ⟨hi, hne⟩ := hi
  simp only [hst, Option.getD_none, List.mem_cons, List.not_mem_nil, or_false] at hi
  have hne' : i ≠ [] := by simpa using hne
  rcases hi with rfl | rfl | rfl | rfl | rfl
  · exact hsty
  · exact ⟨hdx _ _ (by decide) (hs _ (by simp)), hhead _ _ [] _ (by decide) (by decide) hne'⟩
  · exact ⟨hdx _ _ (by decide) (hs _ (by simp)), hhead _ _ [] _ (by decide) (by decide) hne'⟩
  · exact ⟨hdx _ _ (by decide) (hs _ (by simp)), hhead _ _ [] _ (by decide) (by decide) hne'⟩
  · exact hex hne'

/-- **C90** (the attributes): keys and values on one line — for a label without HTML tag, only the three line boundaries that
are not control characters matter — are written on one line. -/
theorem C90_attributes {X : Type} (tags : Text → List (Nat × Nat)) (x : X) (dpx : List (Prop' X))
    (hk : ∀ p ∈ dpx, OneLine p.key)
    (hv : ∀ p ∈ dpx, ∀ v, p.val x = some v →
      (p.key ≠ labelKey ∧ OneLine v) ∨ (p.key = labelKey ∧ tags v = [] ∧ ∀ c ∈ v, c.toNat ∉ [133, 8232, 8233])) :
    OneLine (propertiesToStr tags x dpx) := by
  have hjoin : ∀ (sep : Text) (ts : List Text), OneLine sep → (∀ t ∈ ts, OneLine t) → OneLine (join sep ts) := by
    intro sep ts hsep
    induction ts with
    | nil => intro _; exact fun c hc => by cases hc
    | cons t ts ih =>
      intro h
      cases ts with
      | nil => exact h t (by simp)
      | cons t' ts =>
        rw [join]
        · exact ((h t (by simp)).append hsep).append (ih fun x hx => h x (by simp [hx]))
        · simp
  have hesc : ∀ v : Text, (∀ c ∈ v, c.toNat ∉ [133, 8232, 8233]) → OneLine (graphvizEscapeHtml v []) := by
    intro v hv c hc
    obtain ⟨ev, hev, hce⟩ := List.mem_flatMap.mp hc
    have hev' : ev = .unmatched v 0 none := by
      unfold tokenize tokenizeFrom at hev
      simp only [List.drop_zero] at hev
      split at hev
      · cases hev
      · exact List.mem_singleton.1 hev
    subst hev'
    obtain ⟨a, ha, hca⟩ := List.mem_flatMap.mp hce
    by_cases he : a ∈ escapedChars
    · have : ∀ c ∈ escapedChars, ∀ x ∈ graphvizEscapeChar c, isBreak x = false := by decide
      exact this a he c hca
    · rw [escapeChar_of_not_mem he, List.mem_singleton] at hca
      subst hca
      have h1 := hv c ha
      have h2 : ¬ c.toNat < 32 := fun h => he (mem_escapedChars_of_lt h)
      unfold isBreak
      simp only [List.mem_cons, List.not_mem_nil, or_false, not_or, decide_eq_false_iff_not] at h1 ⊢
      generalize c.toNat = n at *
      omega
  unfold propertiesToStr
  split
  · exact fun c hc => by cases hc
  · have : ∀ t ∈ dpx.filterMap (fun p => (p.val x).map fun v =>
      if p.key ≠ labelKey then attr p.key v
      else p.key ++ ['=', '<'] ++ graphvizEscapeHtml v (tags v) ++ ['>']), OneLine t := by
      intro t ht
      obtain ⟨p, hp, hpt⟩ := List.mem_filterMap.1 ht
      obtain ⟨v, hpv, rfl⟩ := Option.map_eq_some_iff.1 hpt
      rcases hv p hp v hpv with ⟨h1, h2⟩ | ⟨h1, h2, h3⟩
      · rw [if_pos h1]
        exact (((hk p hp).append (by decide)).append h2).append (by decide)
      · rw [if_neg (by simpa using h1), h2]
        exact (((hk p hp).append (by decide)).append (hesc v h3)).append (by decide)
    have hb : OneLine ['['] := by decide
    exact (hb.append (hjoin _ _ (by decide) this)).append (by decide)

theorem foldlM_dangling {L : Type} (vs : List Nat) (f : EdgeDesc L → Text × Option Text) :
    ∀ (es : List (EdgeDesc L)) (r : Reader) (l : GLog), History exec .empty r.g l →
      (∀ e ∈ es, e.source ∈ vs) → (∃ e ∈ es, e.target ∉ vs) → r.g.vertices = List.range vs.length →
      (∀ u, r.aliases.get? (strNat u) = if u ∈ vs then some (vs.idxOf u) else none) →
      (es.map fun e => Event.edge (f e).1 (strNat e.source) (strNat e.target) (f e).2).foldlM
          (Reader.on Graph.addEdge) r = .error .keyError
  | [], _, _, _, _, ⟨_, h, _⟩, _, _ => by cases h
  | e :: es, r, l, hl, hin, hd, hv, ha => by
    have h1 := hin e (by simp)
    have hu : vs.idxOf e.source ∈ r.g.vertices := by
      rw [hv, List.mem_range]; exact List.idxOf_lt_length_of_mem h1
    rw [List.map_cons, List.foldlM_cons]
    by_cases h2 : e.target ∈ vs
    · obtain ⟨e2, g2, k1, -⟩ := (C02_add_edge_fresh hl (vs.idxOf e.source) (vs.idxOf e.target)).2 hu
      obtain ⟨p1, p2, p3, p4⟩ := perm_addEdge hl k1
      have hd' : ∃ e ∈ es, e.target ∉ vs := by
        obtain ⟨x, hx, hxd⟩ := hd
        rcases List.mem_cons.1 hx with rfl | hx
        · exact absurd h2 hxd
        · exact ⟨x, hx, hxd⟩
      have i1 := foldlM_dangling vs f es ⟨r.aliases, g2⟩ _
        (hl.call (op := .addEdge (vs.idxOf e.source) (vs.idxOf e.target)) (out := .edge e2) (s' := g2)
          (by simp [exec, k1, Except.map]))
        (fun x hx => hin x (by simp [hx])) hd' (p4.trans hv) ha
      simp only [Reader.on, Dict.getE_of_get? ((ha e.source).trans (if_pos h1)),
        Dict.getE_of_get? ((ha e.target).trans (if_pos h2)), bind, Except.bind, k1]
      exact i1
    · have : r.aliases.getE (strNat e.target) = .error .keyError := by simp [Dict.getE, ha, h2]
      simp only [Reader.on, Dict.getE_of_get? ((ha e.source).trans (if_pos h1)), this, bind, Except.bind]

/-- **C90** (dangling edges): when the target of some edge is not a vertex — `add_edge` does not check it — the text written by
`to_dot` cannot be read back: `read_graphviz` raises `KeyError`. -/
theorem C90_dangling {g : Graph} {l : GLog} (hg : History exec .empty g l) (hd : ∃ e ∈ g.edges, e.target ∉ g.vertices)
    (tags : Text → List (Nat × Nat)) (s : Style) (o : Opts)
    (dpv : List (Prop' Nat)) (dpe : List (Prop' (EdgeDesc Nat))) (hh : ∀ i ∈ headers s o, Header i)
    (hv : ∀ u ∈ g.vertices, OneLine (propertiesToStr tags u dpv))
    (he : ∀ e ∈ g.edges, OneLine (propertiesToStr tags e dpe)) :
    readGraphviz Graph.addEdge (toDot true tags s o dpv dpe g.vertices g.edges) .empty = .error .keyError := by
  have hi := history_inv hg
  have hsrc : ∀ e ∈ g.edges, e.source ∈ g.vertices := fun e he => hi.src e ((C02_multigraph hg).2.2.1 e |>.1 he)
  obtain ⟨r1, l1, a1, a2, a3, a4, a5⟩ := foldlM_vertices Graph.addEdge
    (fun u => (vertexToGraphviz tags dpv u ++ [';'], optsOf (propertiesToStr tags u dpv))) exec (fun _ => rfl)
    g.vertices [] (by rw [List.nil_append]; exact hi.wf.outer) ⟨[], .empty⟩ [] .start rfl rfl rfl (by simp)
  simp only [List.nil_append] at a1 a3 a5
  have hkeys := keys_aliases Graph.addEdge
    (fun u => (vertexToGraphviz tags dpv u ++ [';'], optsOf (propertiesToStr tags u dpv))) g.vertices ⟨[], .empty⟩ r1 a1
  have ha : ∀ u, r1.aliases.get? (strNat u) = if u ∈ g.vertices then some (g.vertices.idxOf u) else none := by
    intro u
    split
    · rename_i h; exact a5 u h
    · rename_i h
      rw [Dict.get?_eq_none_iff]
      intro hm
      rcases hkeys _ hm with h' | ⟨v, hv, h'⟩
      · cases h'
      · exact h (strNat_inj h' ▸ hv)
  unfold readGraphviz
  rw [foldlM_items, C90_events tags s o dpv dpe _ _ hh hv he, List.foldlM_append, a1]
  have := foldlM_dangling g.vertices
    (fun e => (edgeToGraphviz true tags dpe e ++ [';'], optsOf (propertiesToStr tags e dpe))) g.edges r1 l1 a2 hsrc hd a3 ha
  simp only [bind, Except.bind] at this ⊢
  rw [this]

/-- A graph with two parallel edges and a vertex removed, with a label on the vertices and a style: it is read back. -/
example : ∃ g', readGraphviz Graph.addEdge (toDot true (fun _ => []) ⟨[(['k'], ['v'])], [], [], []⟩ {}
      [⟨labelKey, fun u => some (strNat u ++ ['\n'])⟩] ([] : List (Prop' (EdgeDesc Nat))) [0, 2, 3] [⟨2, 3, 0⟩, ⟨2, 3, 1⟩, ⟨3, 2, 0⟩])
      .empty = .ok g' ∧ g'.vertices = [0, 1, 2] ∧
      (g'.edges.map fun e => (e.source, e.target)).Perm [(1, 2), (1, 2), (2, 1)] := by
  have hg : History Graph.exec .empty ⟨4, [(0, []), (2, [(3, [0, 1])]), (3, [(2, [0])])]⟩ _ :=
    runCalls_history [.addVertex, .addVertex, .addVertex, .addVertex, .addEdge 2 3, .addEdge 2 3, .addEdge 3 2, .removeVertex 1]
      .start rfl
  have := C90_roundtrip_partial hg (by decide) (fun _ => []) ⟨[(['k'], ['v'])], [], [], []⟩ {}
    [⟨labelKey, fun u => some (strNat u ++ ['\n'])⟩] ([] : List (Prop' (EdgeDesc Nat)))
    (C90_headers _ _ (by decide) (by decide) rfl (fun h => absurd rfl h))
    (fun u _ => C90_attributes _ _ _ (by decide) (by
      intro p hp v hv
      rw [List.mem_singleton] at hp
      subst hp
      refine .inr ⟨rfl, rfl, ?_⟩
      simp only [Option.some.injEq] at hv
      subst hv
      intro c hc
      rcases List.mem_append.1 hc with h | h
      · have := isBreak_of_isDig (isDig_strNat h)
        unfold isBreak at this
        simp only [decide_eq_false_iff_not, List.mem_cons, List.not_mem_nil, or_false, not_or] at this ⊢
        tauto
      · rw [List.mem_singleton] at h; subst h; decide))
    (fun e _ => by simp [propertiesToStr, OneLine])
  obtain ⟨g', h1, h2, h3⟩ := this
  exact ⟨g', h1, h2, h3⟩

/-- A dangling edge. -/
example : ∃ g l, History Graph.exec .empty g l ∧ g.edges = [⟨0, 5, 0⟩] ∧ 5 ∉ g.vertices :=
  ⟨_, _, runCalls_history [.addVertex, .addEdge 0 5] .start rfl, by decide, by decide⟩

/-! ## The texts -/

theorem DotAttrs.join_spec : ∀ (l : List ((Text × DotValue) × Text)), (∀ p ∈ l, DotAttr p.1.1 p.1.2 p.2) →
    DotAttrs (l.map Prod.fst) (join sepSemi (l.map Prod.snd))
  | [], _ => .nil
  | [p], h => .one (h p (by simp))
  | p :: q :: l, h => by
    have ih := DotAttrs.join_spec (q :: l) (fun x hx => h x (by simp [hx]))
    have := DotAttrs.cons (h p (by simp)) (by simp) ih
    simpa [join, sepSemi] using this

/-- **C90** (the attributes of a vertex or of an edge): they are written in the order of the dictionary, those whose value is
`None` being left out; a label is an HTML string, with its special characters escaped; the other values are quoted. Without any
property map nothing is written. Keys without `=`, values without quote, labels without tag. -/
theorem C90_attributes_text {X : Type} (tags : Text → List (Nat × Nat)) (x : X) (dpx : List (Prop' X))
    (hk : ∀ p ∈ dpx, '=' ∉ p.key)
    (hv : ∀ p ∈ dpx, ∀ v, p.val x = some v → if p.key = ['l', 'a', 'b', 'e', 'l'] then tags v = [] else '"' ∉ v) :
    (dpx = [] → propertiesToStr tags x dpx = []) ∧
    (dpx ≠ [] → ∃ t, propertiesToStr tags x dpx = '[' :: (t ++ [']']) ∧
      DotAttrs (dpx.filterMap fun p => (p.val x).map fun v => (p.key,
        if p.key = ['l', 'a', 'b', 'e', 'l'] then DotValue.html (v.flatMap graphvizEscapeChar) else .quoted v)) t) := by
  refine ⟨fun h => by simp [propertiesToStr, h], fun h => ?_⟩
  refine ⟨_, by rw [propertiesToStr, if_neg h]; rfl, ?_⟩
  have := DotAttrs.join_spec (dpx.filterMap fun p => (p.val x).map fun v => ((p.key,
        if p.key = ['l', 'a', 'b', 'e', 'l'] then DotValue.html (v.flatMap graphvizEscapeChar) else .quoted v),
      if p.key ≠ labelKey then attr p.key v
      else p.key ++ ['=', '<'] ++ graphvizEscapeHtml v (tags v) ++ ['>'])) (by
    intro q hq
    obtain ⟨p, hp, hpt⟩ := List.mem_filterMap.1 hq
    obtain ⟨v, hpv, rfl⟩ := Option.map_eq_some_iff.1 hpt
    have hv' := hv p hp v hpv
    by_cases hl : p.key = ['l', 'a', 'b', 'e', 'l']
    · rw [if_pos hl] at hv'
      have hne : ¬ p.key ≠ labelKey := by simpa [labelKey] using hl
      simp only [if_pos hl, if_neg hne, hv']
      have he : graphvizEscapeHtml v [] = v.flatMap graphvizEscapeChar := by
        unfold graphvizEscapeHtml tokenize tokenizeFrom
        simp only [List.drop_zero]
        split
        · rename_i h; rw [List.isEmpty_iff] at h; subst h; rfl
        · simp [escapeChunk]
      rw [he]
      have hr : ∀ c ∈ v.flatMap graphvizEscapeChar, ¬ Reserved c := by
        intro c hc
        obtain ⟨a, _, ha⟩ := List.mem_flatMap.1 hc
        exact escapeChar_safe a c ha
      have := DotAttr.html (k := p.key) (v := v.flatMap graphvizEscapeChar) (hk p hp)
        (fun h => hr _ h (by decide)) (fun h => hr _ h (by decide))
      simpa using this
    · rw [if_neg hl] at hv'
      have hne : p.key ≠ labelKey := by simpa [labelKey] using hl
      simp only [if_neg hl, if_pos hne]
      have := DotAttr.quoted (k := p.key) (v := v) (hk p hp) hv'
      simpa [attr] using this)
  rw [List.map_filterMap, List.map_filterMap] at this
  simpa [Option.map_map, Function.comp_def] using this

theorem dxToDot_spec (kw : Text) (d : List (Text × Text)) (h : ∀ p ∈ d, '=' ∉ p.1 ∧ '"' ∉ p.2) : DotStmt kw d (dxToDot kw d) := by
  unfold dxToDot
  by_cases hd : d = []
  · exact .inl ⟨hd, by simp [hd]⟩
  · rw [if_neg hd]
    refine .inr ⟨hd, join sepSemi (d.map fun p => attr p.1 p.2), ?_, by simp⟩
    have := DotAttrs.join_spec (d.map fun p => ((p.1, DotValue.quoted p.2), attr p.1 p.2)) (by
      intro q hq
      obtain ⟨p, hp, rfl⟩ := List.mem_map.1 hq
      have := DotAttr.quoted (h p hp).1 (h p hp).2
      simpa [attr] using this)
    simpa [Function.comp_def] using this

/-- **C90** (the text): `to_dot` writes the style, the default attributes of the graph, of the vertices and of the edges, the extra
style, then one line for each vertex and one line for each edge. -/
theorem C90_text {L : Type} (directed : Bool) (tags : Text → List (Nat × Nat)) (s : Style) (o : Opts) (dpv : List (Prop' Nat))
    (dpe : List (Prop' (EdgeDesc L))) (vs : List Nat) (es : List (EdgeDesc L))
    (h : ∀ d ∈ [s.graph, s.node, s.edge, o.dg, o.dv, o.de], ∀ p ∈ d, '=' ∉ p.1 ∧ '"' ∉ p.2)
    (hne : vs ≠ []) : ∃ sg sn se dg dv de : Text,
      DotStmt ['g', 'r', 'a', 'p', 'h'] s.graph sg ∧ DotStmt ['n', 'o', 'd', 'e'] s.node sn ∧
      DotStmt ['e', 'd', 'g', 'e'] s.edge se ∧ DotStmt ['g', 'r', 'a', 'p', 'h'] o.dg dg ∧
      DotStmt ['n', 'o', 'd', 'e'] o.dv dv ∧ DotStmt ['e', 'd', 'g', 'e'] o.de de ∧
      toDot directed tags s o dpv dpe vs es =
        (if directed then ['d', 'i'] else []) ++ ['g', 'r', 'a', 'p', 'h', ' ', 'G', ' ', '{', '\n'] ++
        (([o.style.getD (sg ++ [';', ' '] ++ sn ++ [';', ' '] ++ se ++ s.extra.flatMap ([';', ' '] ++ ·)), dg, dv, de, o.extra].filter
            (· ≠ [])) ++
          (vs.map fun u => strNat u ++ ' ' :: propertiesToStr tags u dpv) ++
          (es.map fun e => strNat e.source ++ (if directed then [' ', '-', '>', ' '] else [' ', '-', '-', ' ']) ++
            strNat e.target ++ ' ' :: propertiesToStr tags e dpe)).flatMap (fun i => [' ', ' '] ++ i ++ [';', '\n']) ++ ['}'] := by
  refine ⟨_, _, _, _, _, _, dxToDot_spec _ _ (h _ (by simp)), dxToDot_spec _ _ (h _ (by simp)), dxToDot_spec _ _ (h _ (by simp)),
    dxToDot_spec _ _ (h _ (by simp)), dxToDot_spec _ _ (h _ (by simp)), dxToDot_spec _ _ (h _ (by simp)), ?_⟩
  have hj : ∀ (sep t : Text) (ts : List Text), join sep (t :: ts) = t ++ ts.flatMap (sep ++ ·) := by
    intro sep t ts
    induction ts generalizing t with
    | nil => simp [join]
    | cons t' ts ih => rw [join, ih] <;> simp
  have hs : styleStr s = dxToDot kwGraph s.graph ++ [';', ' '] ++ dxToDot kwNode s.node ++ [';', ' '] ++ dxToDot kwEdge s.edge ++
      s.extra.flatMap ([';', ' '] ++ ·) := by
    unfold styleStr
    simp only [List.cons_append, List.nil_append]
    rw [hj]
    simp [sepSemi]
  have hl : ∀ is : List Text, is ≠ [] → ['\n', ' ', ' '] ++ join [';', '\n', ' ', ' '] is ++ [';', '\n'] =
      '\n' :: is.flatMap (fun i => [' ', ' '] ++ i ++ [';', '\n']) := by
    intro is hne
    cases is with
    | nil => exact absurd rfl hne
    | cons t ts =>
      rw [hj]
      clear hne hs
      induction ts generalizing t with
      | nil => simp
      | cons t' ts ih =>
        have := ih t'
        simp only [List.flatMap_cons, List.cons_append, List.nil_append, List.append_assoc, List.cons.injEq, true_and] at this ⊢
        rw [this]
  unfold toDot
  simp only
  rw [if_neg (by simp [hne]), hl _ (by simp [hne])]
  have e1 : vs.map (vertexToGraphviz tags dpv) = vs.map fun u => strNat u ++ ' ' :: propertiesToStr tags u dpv := by
    apply List.map_congr_left; intro u _; simp [vertexToGraphviz, join]
  have e2 : es.map (edgeToGraphviz directed tags dpe) = es.map fun e => strNat e.source ++
      (if directed then [' ', '-', '>', ' '] else [' ', '-', '-', ' ']) ++ strNat e.target ++ ' ' :: propertiesToStr tags e dpe := by
    apply List.map_congr_left; intro e _; cases directed <;> simp [edgeToGraphviz, join, arc]
  rw [e1, e2]
  unfold headers
  rw [hs]
  cases directed <;> simp [gtype, kwGraph, kwNode, kwEdge]

example : propertiesToStr (fun _ => []) 0 [⟨labelKey, fun _ => some ['a', '<']⟩, ⟨['x'], fun _ => none⟩, ⟨['c'], fun _ => some ['r']⟩] =
    "[label=<a&#60;>; c=\"r\"]".toList := by decide

/-! ## C91 -/

theorem get?_enrich {K W : Type} [DecidableEq K] : ∀ (default d : Dict K W) (k : K),
    (enrich default d).get? k = (d.get? k).or (default.get? k)
  | [], d, k => by simp [enrich, Dict.get?]
  | (k', w) :: default, d, k => by
    have ih := get?_enrich default (if d.contains k' then d else d.set k' w) k
    have e : enrich ((k', w) :: default) d = enrich default (if d.contains k' then d else d.set k' w) := rfl
    rw [e, ih]
    by_cases hc : d.contains k'
    · rw [if_pos hc]
      by_cases hk : k' = k
      · subst hk
        obtain ⟨x, hx⟩ := (Dict.contains_iff _ _).1 hc
        rw [hx]; rfl
      · simp [Dict.get?, hk]
    · rw [if_neg hc, Dict.get?_set]
      by_cases hk : k' = k
      · subst hk
        have : d.get? k' = none := by
          cases h : d.get? k' with
          | none => rfl
          | some x => exact absurd ((Dict.contains_iff _ _).2 ⟨x, h⟩) hc
        simp [Dict.get?, this]
      · simp [Dict.get?, hk]

/-- **C91, partial** (missing: the dictionary of the caller is left as it was). The attributes given by the caller win, and
those of the class fill the gaps; every entry comes from one or the other. -/
theorem C91_enrich_partial {K W : Type} [DecidableEq K] (default d : Dict K W) (k : K) :
    (enrich default d).get? k = (d.get? k).or (default.get? k) := get?_enrich default d k

/-- **C91, full statement**: a dictionary of attributes may be given to several calls of `to_dot`, each of which fills the
gaps with the defaults of its own automaton. `enrich` updates the dictionary of the caller, hence the argument of the second
call. -/
def C91_statement : Prop :=
  ∀ (default₁ default₂ d : Dict Nat Nat) (k : Nat),
    (enrich default₂ (enrich default₁ d)).get? k = (d.get? k).or (default₂.get? k)

/-- **C91 is false of the code**: the second call takes the property map of the first one. -/
theorem C91_enrich_counterexample : ¬ C91_statement := fun h => absurd (h [(0, 1)] [(0, 2)] [] 0) (by decide)

example : (enrich [(0, 1), (2, 3)] [(0, 7)] : Dict Nat Nat) = [(0, 7), (2, 3)] := by decide

end PyBGL
