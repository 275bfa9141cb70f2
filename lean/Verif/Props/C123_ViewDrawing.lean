import Verif.Model.ViewDrawing
import Verif.Props.C90_Graphviz

/-!
# C123: the drawing of a `GraphView`
-/

namespace PyBGL
open Graphviz Graph

theorem mem_keepGiven {X : Type} [DecidableEq X] (xs : List X) (given : Option (List X)) (x : X) :
    x ∈ keepGiven xs given ↔ x ∈ xs ∧ ∀ l, given = some l → x ∈ l := by
  cases given <;> simp [keepGiven]

theorem nodup_keepGiven {X : Type} [DecidableEq X] {xs : List X} (h : xs.Nodup) (given : Option (List X)) : (keepGiven xs given).Nodup := by
  cases given with
  | none => exact h
  | some l => exact h.filter _

/-- The vertices drawn: those notified to a visitor that reads the text, in order. -/
def Graphviz.drawnVertices (t : Text) : List Text := (readEvents t).filterMap fun
  | .vertex _ u _ => some u
  | _ => none

/-- The edges drawn: the ends notified to a visitor that reads the text, in order. -/
def Graphviz.drawnEdges (t : Text) : List (Text × Text) := (readEvents t).filterMap fun
  | .edge _ u v _ => some (u, v)
  | _ => none

theorem filterMap_isItem {B : Type} (f : Event → Option B) (h : ∀ l, f (.other l) = none) (evs : List Event) :
    evs.filterMap f = (evs.filter Event.isItem).filterMap f := by
  induction evs with
  | nil => rfl
  | cons ev evs ih => cases ev <;> simp [List.filter_cons, Event.isItem, h, ih, List.filterMap_cons]

/-- What is required of the texts given by the caller: they are on one line, and those of the preamble do not begin with a digit. -/
structure PlainOptions {L : Type} (tags : Text → List (Nat × Nat)) (s : Style) (o : Opts) (dpv : List (Prop' Nat)) (dpe : List (Prop' (EdgeDesc L))) : Prop where
  header : ∀ i ∈ headers s o, Header i
  vertex : ∀ u, OneLine (propertiesToStr tags u dpv)
  edge : ∀ e, OneLine (propertiesToStr tags e dpe)

/-- The vertices and the edges drawn by `to_dot`. -/
theorem drawn_toDot {L : Type} {tags : Text → List (Nat × Nat)} {s : Style} {o : Opts} {dpv : List (Prop' Nat)} {dpe : List (Prop' (EdgeDesc L))}
    (hp : PlainOptions tags s o dpv dpe) (vs : List Nat) (es : List (EdgeDesc L)) :
    drawnVertices (toDot true tags s o dpv dpe vs es) = vs.map strNat ∧
    drawnEdges (toDot true tags s o dpv dpe vs es) = es.map fun e => (strNat e.source, strNat e.target) := by
  have h := C90_events tags s o dpv dpe vs es hp.header (fun u _ => hp.vertex u) (fun e _ => hp.edge e)
  unfold drawnVertices drawnEdges
  constructor
  · rw [filterMap_isItem _ (fun _ => rfl), h]
    simp [List.filterMap_append, List.filterMap_map]
  · rw [filterMap_isItem _ (fun _ => rfl), h]
    simp [List.filterMap_append, List.filterMap_map]

/-- **C123**. The drawing of a view shows exactly its vertices, each of them once, and exactly its edges, each of them once; if the caller gives vertices (resp. edges),
those that are among them. -/
theorem C123_drawn {L : Type} [DecidableEq L] {ordV : SetOracle Nat} {ordE : SetOracle (EdgeDesc L)} (hV : ordV.Valid) (hE : ordE.Valid)
    {tags : Text → List (Nat × Nat)} {s : Style} {o : Opts} {dpv : List (Prop' Nat)} {dpe : List (Prop' (EdgeDesc L))}
    (hp : PlainOptions tags s o dpv dpe) (gv : GraphView Nat (EdgeDesc L)) (vs : Option (List Nat)) (es : Option (List (EdgeDesc L))) :
    ∃ (us : List Nat) (fs : List (EdgeDesc L)), us.Nodup ∧ fs.Nodup ∧
      (∀ u, u ∈ us ↔ (u ∈ gv.g.vertices ∧ gv.vrelevant u = true) ∧ ∀ l, vs = some l → u ∈ l) ∧
      (∀ e, e ∈ fs ↔ (e ∈ gv.g.edges ∧ gv.erelevant e = true ∧ gv.vrelevant (gv.g.source e) = true ∧ gv.vrelevant (gv.g.target e) = true) ∧
        ∀ l, es = some l → e ∈ l) ∧
      drawnVertices (gv.toDot ordV ordE (gv.g.toDot true tags s o dpv dpe) vs es) = us.map strNat ∧
      drawnEdges (gv.toDot ordV ordE (gv.g.toDot true tags s o dpv dpe) vs es) = fs.map fun e => (strNat e.source, strNat e.target) := by
  refine ⟨_, _, (hV 0 (keepGiven gv.vertices.dedup vs)).nodup_iff.2 (nodup_keepGiven (List.nodup_dedup _) _),
    (hE 1 (keepGiven gv.edges.dedup es)).nodup_iff.2 (nodup_keepGiven (List.nodup_dedup _) _), ?_, ?_, drawn_toDot hp _ _⟩
  · intro u
    rw [(hV 0 _).mem_iff, mem_keepGiven, List.mem_dedup]
    simp [GraphView.vertices]
  · intro e
    rw [(hE 1 _).mem_iff, mem_keepGiven, List.mem_dedup]
    simp [GraphView.edges, GraphView.shows, and_assoc]

/-- **C123** (views of views). The drawing of a view of a view shows the vertices and edges that both show. -/
theorem C123_nested {L : Type} [DecidableEq L] {ordV ordV' : SetOracle Nat} {ordE ordE' : SetOracle (EdgeDesc L)} (hV : ordV.Valid) (hE : ordE.Valid)
    (hV' : ordV'.Valid) (hE' : ordE'.Valid) {tags : Text → List (Nat × Nat)} {s : Style} {o : Opts} {dpv : List (Prop' Nat)} {dpe : List (Prop' (EdgeDesc L))}
    (hp : PlainOptions tags s o dpv dpe) (gv : GraphView Nat (EdgeDesc L)) (vrel : Nat → Bool) (erel : EdgeDesc L → Bool) :
    ∃ (us : List Nat) (fs : List (EdgeDesc L)), us.Nodup ∧ fs.Nodup ∧
      (∀ u, u ∈ us ↔ u ∈ gv.vertices ∧ vrel u = true) ∧
      (∀ e, e ∈ fs ↔ e ∈ gv.edges ∧ erel e = true ∧ vrel (gv.g.source e) = true ∧ vrel (gv.g.target e) = true) ∧
      drawnVertices (GraphView.toDot ordV' ordE' (gv.toDot ordV ordE (gv.g.toDot true tags s o dpv dpe)) ⟨gv.toI, vrel, erel⟩ none none) = us.map strNat ∧
      drawnEdges (GraphView.toDot ordV' ordE' (gv.toDot ordV ordE (gv.g.toDot true tags s o dpv dpe)) ⟨gv.toI, vrel, erel⟩ none none) =
        fs.map fun e => (strNat e.source, strNat e.target) := by
  refine ⟨_, _, (hV 0 (keepGiven gv.vertices.dedup _)).nodup_iff.2 (nodup_keepGiven (List.nodup_dedup _) _),
    (hE 1 (keepGiven gv.edges.dedup _)).nodup_iff.2 (nodup_keepGiven (List.nodup_dedup _) _), ?_, ?_, drawn_toDot hp _ _⟩
  · intro u
    rw [(hV 0 _).mem_iff, mem_keepGiven, List.mem_dedup]
    simp only [Option.some.injEq, forall_eq']
    rw [(hV' 0 _).mem_iff, mem_keepGiven, List.mem_dedup]
    simp [GraphView.vertices, GraphView.toI]
    tauto
  · intro e
    rw [(hE 1 _).mem_iff, mem_keepGiven, List.mem_dedup]
    simp only [Option.some.injEq, forall_eq']
    rw [(hE' 1 _).mem_iff, mem_keepGiven, List.mem_dedup]
    simp [GraphView.edges, GraphView.toI, GraphView.shows]
    tauto

/-- **C123**, the last part of the statement: an edge that is drawn links two vertices that are drawn. -/
def C123_statement : Prop :=
  ∀ (ordV : SetOracle Nat) (ordE : SetOracle (EdgeDesc Nat)), ordV.Valid → ordE.Valid →
    ∀ (tags : Text → List (Nat × Nat)) (s : Style) (o : Opts) (dpv : List (Prop' Nat)) (dpe : List (Prop' (EdgeDesc Nat))), PlainOptions tags s o dpv dpe →
    ∀ (g : Graph) (l : GLog), History exec .empty g l → (∀ e ∈ g.edges, e.target ∈ g.vertices) →
    ∀ (vrel : Nat → Bool) (erel : EdgeDesc Nat → Bool) (vs : Option (List Nat)) (es : Option (List (EdgeDesc Nat))),
    let t := GraphView.toDot ordV ordE (g.toI.toDot true tags s o dpv dpe) ⟨g.toI, vrel, erel⟩ vs es
    ∀ p ∈ drawnEdges t, p.1 ∈ drawnVertices t ∧ p.2 ∈ drawnVertices t

/-- **C123**, the last part, proved when the caller does not give vertices. Missing: with `vs`, the edges towards the other vertices of the view are still drawn. -/
theorem C123_ends_partial {ordV : SetOracle Nat} {ordE : SetOracle (EdgeDesc Nat)} (hV : ordV.Valid) (hE : ordE.Valid)
    {tags : Text → List (Nat × Nat)} {s : Style} {o : Opts} {dpv : List (Prop' Nat)} {dpe : List (Prop' (EdgeDesc Nat))}
    (hp : PlainOptions tags s o dpv dpe) {g : Graph} {l : GLog} (hg : History exec .empty g l) (hc : ∀ e ∈ g.edges, e.target ∈ g.vertices)
    (vrel : Nat → Bool) (erel : EdgeDesc Nat → Bool) (es : Option (List (EdgeDesc Nat))) :
    let t := GraphView.toDot ordV ordE (g.toI.toDot true tags s o dpv dpe) ⟨g.toI, vrel, erel⟩ none es
    ∀ p ∈ drawnEdges t, p.1 ∈ drawnVertices t ∧ p.2 ∈ drawnVertices t := by
  obtain ⟨us, fs, _, _, h1, h2, h3, h4⟩ := C123_drawn hV hE hp ⟨g.toI, vrel, erel⟩ none es
  intro t p hpt
  simp only at h3 h4
  rw [h4] at hpt
  rw [h3]
  obtain ⟨e, he, rfl⟩ := List.mem_map.1 hpt
  obtain ⟨⟨a, b, c, d⟩, _⟩ := (h2 e).1 he
  have hs : e.source ∈ g.vertices := (history_inv hg).src e ((C02_multigraph hg).2.2.1 e |>.1 a)
  exact ⟨List.mem_map.2 ⟨_, (h1 _).2 ⟨⟨hs, c⟩, by simp⟩, rfl⟩, List.mem_map.2 ⟨_, (h1 _).2 ⟨⟨hc e a, d⟩, by simp⟩, rfl⟩⟩

/-- Reading back the drawing of vertices and of edges between them. -/
theorem read_toDot {tags : Text → List (Nat × Nat)} {s : Style} {o : Opts} {dpv : List (Prop' Nat)} {dpe : List (Prop' (EdgeDesc Nat))}
    (hp : PlainOptions tags s o dpv dpe) {us : List Nat} {fs : List (EdgeDesc Nat)} (hu : us.Nodup) (hin : ∀ e ∈ fs, e.source ∈ us ∧ e.target ∈ us) :
    ∃ g', readGraphviz Graph.addEdge (toDot true tags s o dpv dpe us fs) .empty = .ok g' ∧ Renumbered us fs g'.vertices g'.edges := by
  obtain ⟨r1, l1, a1, a2, a3, a4, a5⟩ := foldlM_vertices Graph.addEdge
    (fun u => (vertexToGraphviz tags dpv u ++ [';'], optsOf (propertiesToStr tags u dpv))) exec (fun _ => rfl)
    us [] (by rw [List.nil_append]; exact hu) ⟨[], .empty⟩ [] .start rfl rfl rfl (by simp)
  simp only [List.nil_append] at a1 a3 a5
  obtain ⟨r2, b1, b2, b3⟩ := foldlM_edges us
    (fun e => (edgeToGraphviz true tags dpe e ++ [';'], optsOf (propertiesToStr tags e dpe))) fs r1 l1 a2 hin a3 a5
  refine ⟨r2.g, ?_, b2, by simpa [a4] using b3⟩
  unfold readGraphviz
  rw [foldlM_items, C90_events tags s o dpv dpe _ _ hp.header (fun u _ => hp.vertex u) (fun e _ => hp.edge e), List.foldlM_append, a1]
  simp only [bind, Except.bind] at b1 ⊢
  rw [b1]

/-- **C123** (reading back). Reading the drawing of a view of a directed graph gives the graph that the view shows, renumbered. -/
theorem C123_roundtrip {ordV : SetOracle Nat} {ordE : SetOracle (EdgeDesc Nat)} (hV : ordV.Valid) (hE : ordE.Valid)
    {tags : Text → List (Nat × Nat)} {s : Style} {o : Opts} {dpv : List (Prop' Nat)} {dpe : List (Prop' (EdgeDesc Nat))}
    (hp : PlainOptions tags s o dpv dpe) {g : Graph} {l : GLog} (hg : History exec .empty g l) (hc : ∀ e ∈ g.edges, e.target ∈ g.vertices)
    (vrel : Nat → Bool) (erel : EdgeDesc Nat → Bool) :
    ∃ us fs g', us.Perm (GraphView.mk g.toI vrel erel).vertices ∧ fs.Perm (GraphView.mk g.toI vrel erel).edges ∧
      readGraphviz Graph.addEdge (GraphView.toDot ordV ordE (g.toI.toDot true tags s o dpv dpe) ⟨g.toI, vrel, erel⟩ none none) .empty = .ok g' ∧
      Renumbered us fs g'.vertices g'.edges := by
  have hi := history_inv hg
  have hvn : (GraphView.mk g.toI vrel erel).vertices.Nodup := hi.wf.outer.filter _
  have hen : (GraphView.mk g.toI vrel erel).edges.Nodup := (C02_multigraph hg).2.2.2.filter _
  have hpv : (ordV 0 (keepGiven (GraphView.mk g.toI vrel erel).vertices.dedup none)).Perm (GraphView.mk g.toI vrel erel).vertices :=
    (hV 0 _).trans (by simp [keepGiven, hvn.dedup])
  have hpe : (ordE 1 (keepGiven (GraphView.mk g.toI vrel erel).edges.dedup none)).Perm (GraphView.mk g.toI vrel erel).edges :=
    (hE 1 _).trans (by simp [keepGiven, hen.dedup])
  have hin : ∀ e ∈ (ordE 1 (keepGiven (GraphView.mk g.toI vrel erel).edges.dedup none)),
      e.source ∈ (ordV 0 (keepGiven (GraphView.mk g.toI vrel erel).vertices.dedup none)) ∧
      e.target ∈ (ordV 0 (keepGiven (GraphView.mk g.toI vrel erel).vertices.dedup none)) := by
    intro e he
    rw [hpe.mem_iff] at he
    rw [hpv.mem_iff, hpv.mem_iff]
    obtain ⟨a, b⟩ := List.mem_filter.1 he
    simp only [GraphView.shows, Bool.and_eq_true] at b
    exact ⟨List.mem_filter.2 ⟨hi.src e ((C02_multigraph hg).2.2.1 e |>.1 a), b.1.2⟩, List.mem_filter.2 ⟨hc e a, b.2⟩⟩
  obtain ⟨g', h1, h2⟩ := read_toDot hp (hpv.nodup_iff.2 hvn) hin
  exact ⟨_, _, g', hpv, hpe, h1, h2⟩

/-- The enumeration of a set in the order in which it was built. -/
def sameOrder (X : Type) : SetOracle X := fun _ s => s

theorem sameOrder_valid (X : Type) : (sameOrder X).Valid := fun _ _ => List.Perm.refl _

theorem plain_plainStyle : PlainOptions (L := Nat) (fun _ => []) plainStyle {} [] [] where
  header := plainStyle_headers
  vertex _ := by simp [propertiesToStr, OneLine]
  edge _ := by simp [propertiesToStr, OneLine]

/-- The graph with the edges `0 → 1` and `1 → 2`. -/
def threePath : Graph := ⟨3, [(0, [(1, [0])]), (1, [(2, [0])]), (2, [])]⟩

theorem threePath_history : ∃ l, History exec .empty threePath l :=
  ⟨_, runCalls_history [.addVertex, .addVertex, .addVertex, .addEdge 0 1, .addEdge 1 2] .start rfl⟩

/-- **C123** (counterexample). Drawing the view with `vs={0}` shows the edges `0 → 1` and `1 → 2`, hence Graphviz will show the three vertices. -/
theorem C123_ends_counterexample : ¬ C123_statement := by
  intro h
  obtain ⟨l, hl⟩ := threePath_history
  have := h (sameOrder _) (sameOrder _) (sameOrder_valid _) (sameOrder_valid _) _ _ _ _ _ plain_plainStyle threePath l hl (by decide)
    (fun _ => true) (fun _ => true) (some [0]) none
  have h0 := drawn_toDot plain_plainStyle [0] ([⟨0, 1, 0⟩, ⟨1, 2, 0⟩] : List (EdgeDesc Nat))
  simp only at this
  have e : GraphView.toDot (sameOrder _) (sameOrder _) (threePath.toI.toDot true (fun _ => []) plainStyle {} [] []) ⟨threePath.toI, fun _ => true, fun _ => true⟩ (some [0]) none =
      toDot true (fun _ => []) plainStyle {} [] [] [0] ([⟨0, 1, 0⟩, ⟨1, 2, 0⟩] : List (EdgeDesc Nat)) := rfl
  rw [e, h0.1, h0.2] at this
  exact absurd ((this (strNat 0, strNat 1) (by simp)).2) (by decide)

/-- The view of the same graph without vertex `2`: its drawing shows `0`, `1` and the edge between them. -/
example : drawnVertices (GraphView.toDot (sameOrder _) (sameOrder _) (threePath.toI.toDot true (fun _ => []) plainStyle {} [] [])
      ⟨threePath.toI, fun u => u ≠ 2, fun _ => true⟩ none none) = [['0'], ['1']] ∧
    drawnEdges (GraphView.toDot (sameOrder _) (sameOrder _) (threePath.toI.toDot true (fun _ => []) plainStyle {} [] [])
      ⟨threePath.toI, fun u => u ≠ 2, fun _ => true⟩ none none) = [(['0'], ['1'])] :=
  drawn_toDot plain_plainStyle [0, 1] ([⟨0, 1, 0⟩] : List (EdgeDesc Nat))

end PyBGL
