import Verif.Props.C90_Graphviz
import Verif.Props.C108_Drawing

/-!
# C129: `read_graphviz` on the drawing of an automaton
-/

namespace PyBGL
open Graphviz Graph

/-- The characters, other than those escaped by `to_dot`, at which `str.splitlines` ends a line: U+0085, U+2028 and U+2029. -/
def LineSeparator (c : Char) : Prop := c.toNat ∈ [133, 8232, 8233]

/-- The graph read from the text `t`, in a `DirectedGraph`, is the graph with the vertices `vs` and the edges `es`, its vertices being numbered in order. -/
def ReadsAs {L : Type} (t : Text) (vs : List Nat) (es : List (EdgeDesc L)) : Prop :=
  ∃ g', readGraphviz Graph.addEdge t .empty = .ok g' ∧ Renumbered vs es g'.vertices g'.edges

namespace Graphviz

theorem readsAs_toDot {L : Type} {vs : List Nat} {es : List (EdgeDesc L)} (hnd : vs.Nodup) (hes : ∀ e ∈ es, e.source ∈ vs ∧ e.target ∈ vs)
    (tags : Text → List (Nat × Nat)) (s : Style) (o : Opts) (dpv : List (Prop' Nat)) (dpe : List (Prop' (EdgeDesc L)))
    (hh : ∀ i ∈ headers s o, Header i) (hv : ∀ u ∈ vs, OneLine (propertiesToStr tags u dpv)) (he : ∀ e ∈ es, OneLine (propertiesToStr tags e dpe)) :
    ReadsAs (toDot true tags s o dpv dpe vs es) vs es := by
  obtain ⟨r1, l1, a1, a2, a3, a4, a5⟩ := foldlM_vertices Graph.addEdge
    (fun u => (vertexToGraphviz tags dpv u ++ [';'], optsOf (propertiesToStr tags u dpv))) exec (fun _ => rfl)
    vs [] (by rw [List.nil_append]; exact hnd) ⟨[], .empty⟩ [] .start rfl rfl rfl (by simp)
  simp only [List.nil_append] at a1 a3 a5
  obtain ⟨r2, b1, b2, b3⟩ := foldlM_edges vs
    (fun e => (edgeToGraphviz true tags dpe e ++ [';'], optsOf (propertiesToStr tags e dpe))) es r1 l1 a2 hes a3 a5
  refine ⟨r2.g, ?_, b2, by simpa [a4] using b3⟩
  unfold readGraphviz
  rw [foldlM_items, C90_events tags s o dpv dpe _ _ hh hv he, List.foldlM_append, a1]
  simp only [bind, Except.bind] at b1 ⊢
  rw [b1]

theorem oneLine_shape (tags : Text → List (Nat × Nat)) (f : Nat → Bool) (u : Nat) :
    OneLine (propertiesToStr tags u (toProps (enrich [(shapeKey, shapeOf f)] []))) := by
  rw [props_shape]
  cases f u <;> decide

theorem oneLine_escapeChar {c : Char} (h : ¬ LineSeparator c) : OneLine (graphvizEscapeChar c) := by
  by_cases he : c ∈ escapedChars
  · have : ∀ c ∈ escapedChars, ∀ x ∈ graphvizEscapeChar c, isBreak x = false := by decide
    exact this c he
  · rw [escapeChar_of_not_mem he]
    intro x hx
    rw [List.mem_singleton] at hx
    subst hx
    have h2 : ¬ x.toNat < 32 := fun h => he (mem_escapedChars_of_lt h)
    unfold LineSeparator at h
    unfold isBreak
    simp only [List.mem_cons, List.not_mem_nil, or_false, not_or, decide_eq_false_iff_not] at h ⊢
    generalize x.toNat = n at *
    omega

theorem oneLine_label {X : Type} {tags : Text → List (Nat × Nat)} (ht : TagsOk tags) (lab : X → Option Char) (x : X) (h : ∀ c, lab x = some c → ¬ LineSeparator c) :
    OneLine (propertiesToStr tags x (toProps (enrich [(labelKey, fun x => (lab x).map fun c => [c])] []))) := by
  rw [props_label]
  cases hl : lab x with
  | none => show OneLine ['[', ']']; decide
  | some c =>
    simp only [Option.map_some, ht.char, escapeHtml_char, htmlLabel]
    have h1 : OneLine ('[' :: (labelKey ++ ['=', '<'])) := by decide
    have h2 : OneLine ['>', ']'] := by decide
    have := (h1.append (oneLine_escapeChar (h c hl))).append h2
    simpa using this

end Graphviz

theorem Automaton.edge_source {A : Type} [DecidableEq A] {g : Automaton A} {e : EdgeDesc A} (h : e ∈ g.edges) : e.source ∈ g.vertices := by
  obtain ⟨p, hp, he⟩ := List.mem_flatMap.mp h
  obtain ⟨t, _, rfl⟩ := List.mem_map.mp he
  exact List.mem_map.mpr ⟨p, hp, rfl⟩

theorem Nfa.edge_source {A : Type} [DecidableEq A] {g : Nfa A} {e : EdgeDesc (A × List Nat)} (h : e ∈ g.edges) : e.source ∈ g.vertices := by
  obtain ⟨p, hp, he⟩ := List.mem_flatMap.mp h
  obtain ⟨t, _, he⟩ := List.mem_flatMap.mp he
  obtain ⟨t, _, rfl⟩ := List.mem_map.mp he
  exact List.mem_map.mpr ⟨p, hp, rfl⟩

/-- **C129, full statement** (automata). -/
def C129_statement : Prop :=
  ∀ (tags : Text → List (Nat × Nat)) (s : Style) (o : Opts) (g : Automaton Char), TagsOk tags → (∀ i ∈ headers s o, Header i) → g.Reachable →
    (∀ e ∈ g.edges, e.target ∈ g.vertices) → ReadsAs (g.toDot tags s o [] []) g.vertices g.edges

/-- **C129, partial** (missing: symbols that end a line). `read_graphviz` reads from the drawing of an `Automaton` a directed graph with its states and its transitions, each of them once. -/
theorem C129_automaton_partial {tags : Text → List (Nat × Nat)} (ht : TagsOk tags) {s : Style} {o : Opts} (hh : ∀ i ∈ headers s o, Header i) {g : Automaton Char}
    (hg : g.Reachable) (hc : ∀ e ∈ g.edges, e.target ∈ g.vertices) (hl : ∀ e ∈ g.edges, ¬ LineSeparator e.distinguisher) :
    ReadsAs (g.toDot tags s o [] []) g.vertices g.edges :=
  readsAs_toDot hg.awf.outer (fun e he => ⟨Automaton.edge_source he, hc e he⟩) tags s o _ _ hh (fun u _ => oneLine_shape tags _ u)
    (fun e he => oneLine_label ht (fun e : EdgeDesc Char => some e.distinguisher) e fun c hcc => by cases hcc; exact hl e he)

/-- **C129, partial**, for an `Nfa`. -/
theorem C129_nfa_partial {tags : Text → List (Nat × Nat)} (ht : TagsOk tags) {s : Style} {o : Opts} (hh : ∀ i ∈ headers s o, Header i) {g : Nfa Char}
    (hg : g.Reachable) (hc : ∀ e ∈ g.edges, e.target ∈ g.vertices) (hl : ∀ e ∈ g.edges, e.distinguisher.1 ≠ g.eps → ¬ LineSeparator e.distinguisher.1) :
    ReadsAs (g.toDot tags s o [] []) g.vertices g.edges := by
  refine readsAs_toDot hg.wf.outer (fun e he => ⟨Nfa.edge_source he, hc e he⟩) tags s o _ _ hh (fun u _ => oneLine_shape tags _ u) ?_
  intro e he
  by_cases heps : e.distinguisher.1 = g.eps
  · rw [props_label]
    simp only [if_pos heps, ht.eps, escape_eps]
    decide
  · have := oneLine_label ht (fun e : EdgeDesc (Char × List Nat) => some e.distinguisher.1) e fun c hcc => by cases hcc; exact hl e he heps
    rw [props_label] at this ⊢
    simp only [if_neg heps]
    exact this

/-- **C129, partial**, for a `NodeAutomaton` whose edges were added between existing states. -/
theorem C129_node_partial {tags : Text → List (Nat × Nat)} (ht : TagsOk tags) {s : Style} {o : Opts} (hh : ∀ i ∈ headers s o, Header i) {g : NodeAutomaton Char}
    (hg : g.SafeHistory) (hl : ∀ q c, g.symbol q = some c → ¬ LineSeparator c) :
    ReadsAs (g.toDot tags s o [] []) g.vertices g.edges := by
  have hw := hg.wf
  refine readsAs_toDot hw.out.outer (fun e he => ⟨Automaton.edge_source he, ?_⟩) tags s o _ _ hh ?_ ?_
  · exact hw.closed _ _ _ ((Automaton.mem_edges hw.out (e := e)).mp he)
  · intro u _
    refine C90_attributes tags u _ ?_ ?_
    · intro p hp
      have : p ∈ [(⟨shapeKey, shapeOf g.a.isFinal⟩ : Prop' Nat), ⟨labelKey, fun u => (g.drawn u).map fun c => [c]⟩] := hp
      rcases List.mem_cons.mp this with rfl | this
      · show OneLine shapeKey; decide
      · cases List.mem_singleton.mp this; show OneLine labelKey; decide
    · intro p hp v hv
      have : p ∈ [(⟨shapeKey, shapeOf g.a.isFinal⟩ : Prop' Nat), ⟨labelKey, fun u => (g.drawn u).map fun c => [c]⟩] := hp
      rcases List.mem_cons.mp this with rfl | this
      · refine .inl ⟨show shapeKey ≠ labelKey by decide, ?_⟩
        cases hv
        split <;> decide
      · cases List.mem_singleton.mp this
        refine .inr ⟨rfl, ?_⟩
        obtain ⟨c, hc, rfl⟩ := Option.map_eq_some_iff.mp hv
        refine ⟨ht.char c, fun d hd => ?_⟩
        rw [List.mem_singleton.mp hd]
        unfold NodeAutomaton.drawn at hc
        split at hc
        · cases hc; decide
        · exact hl u c hc
  · intro e he
    refine oneLine_label ht (fun e => g.label e) e fun c hc => ?_
    exact hl e.target c hc

/-- The automaton `0 → 1` whose transition is labelled by the line separator U+2028. -/
def separatorAutomaton : Automaton Char := ⟨2, [(0, [(Char.ofNat 8232, 1)]), (1, [])], some 0, [(1, true)]⟩

theorem separatorAutomaton_reachable : separatorAutomaton.Reachable :=
  ⟨[.addVertex, .addVertex, .addEdge 0 1 (Char.ofNat 8232), .setFinal 1 true], rfl⟩

/-- Tags that meet `TagsOk`. -/
def epsTags (t : Text) : List (Nat × Nat) := if t = epsLabel then [(0, 3), (4, 8)] else []

theorem epsTags_ok : TagsOk epsTags where
  lt t h := if_neg fun e => h (by rw [e]; decide)
  char c := if_neg fun e => by have := congrArg List.length e; revert this; simp [epsLabel]
  eps := if_pos rfl

set_option maxRecDepth 20000 in
/-- **C129 is false of the code**: a symbol that ends a line cuts the line of its transition, which is dropped without any error. -/
theorem C129_counterexample : ¬ C129_statement := by
  intro h
  obtain ⟨g', h1, _, h2⟩ := h epsTags plainStyle {} separatorAutomaton epsTags_ok plainStyle_headers separatorAutomaton_reachable (by decide)
  have : (readGraphviz Graph.addEdge (separatorAutomaton.toDot epsTags plainStyle {} [] []) .empty).toOption.map (fun g => g.edges.length) = some 0 := by decide
  rw [h1] at this
  have h3 := h2.length_eq
  simp only [Except.toOption, Option.map_some, Option.some.injEq] at this
  rw [List.length_map, this] at h3
  revert h3
  decide

/-- An automaton with a transition labelled by a newline, which is escaped. -/
example : ∃ g : Automaton Char, g.Reachable ∧ ReadsAs (g.toDot epsTags plainStyle {} [] []) g.vertices g.edges ∧ g.edges.length = 2 := by
  have hg : (⟨2, [(0, [('a', 1), ('\n', 0)]), (1, [])], some 0, [(1, true)]⟩ : Automaton Char).Reachable :=
    ⟨[.addVertex, .addVertex, .addEdge 0 1 'a', .addEdge 0 0 '\n', .setFinal 1 true], rfl⟩
  exact ⟨_, hg, C129_automaton_partial epsTags_ok plainStyle_headers hg (by decide) (by unfold LineSeparator; decide), by decide⟩

/-- An `Nfa` with an ε-transition and a transition labelled by the character `ε`. -/
def drawnNfa : Nfa Char := (((Nfa.init '0' [] 2).addEdge 0 1 '0').2.addEdge 0 1 'ε').2

example : ReadsAs (drawnNfa.toDot epsTags plainStyle {} [] []) drawnNfa.vertices drawnNfa.edges ∧ drawnNfa.edges.length = 2 :=
  ⟨C129_nfa_partial epsTags_ok plainStyle_headers ⟨'0', [], [.addVertex, .addVertex, .addEdge 0 1 '0', .addEdge 0 1 'ε'], rfl⟩ (by decide)
    (by unfold LineSeparator; decide), by decide⟩

/-- A node automaton with a state that has no symbol. -/
example : ∃ g : NodeAutomaton Char, g.SafeHistory ∧ ReadsAs (g.toDot epsTags plainStyle {} [] []) g.vertices g.edges ∧ g.edges.length = 1 := by
  have hg : NodeAutomaton.SafeHistory (⟨⟨2, [(0, [(some 'b', 1)]), (1, [])], some 0, []⟩, [(1, 'b')]⟩ : NodeAutomaton Char) :=
    .step (op := .addEdge 0 1) (.step (op := .addVertex (some 'b')) (.step (op := .addVertex none) .new trivial rfl) trivial rfl) (by unfold NodeAutomaton.Safe; decide) rfl
  refine ⟨_, hg, C129_node_partial epsTags_ok plainStyle_headers hg ?_, by decide⟩
  intro q c hc
  have : c = 'b' := by
    simp only [NodeAutomaton.symbol, Dict.get?] at hc
    revert hc
    split <;> simp <;> exact Eq.symm
  subst this
  unfold LineSeparator; decide

end PyBGL
