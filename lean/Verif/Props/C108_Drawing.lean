import Verif.Proofs.Drawing
import Verif.Proofs.AutomatonLemmas
import Verif.Props.C25_C28_Nfa
import Verif.Props.C21_C22_NodeAutomaton

/-!
# C108: what the drawing of an automaton shows
-/

namespace PyBGL
open Graphviz

namespace Graphviz

/-- The text of a label without tag. -/
def htmlLabel (t : Text) : Text := labelKey ++ ['=', '<'] ++ t ++ ['>']

theorem props_shape (tags : Text → List (Nat × Nat)) (fin : Nat → Bool) (u : Nat) :
    propertiesToStr tags u (toProps (enrich [(shapeKey, shapeOf fin)] [])) =
      '[' :: attr shapeKey (if fin u then ['d', 'o', 'u', 'b', 'l', 'e', 'c', 'i', 'r', 'c', 'l', 'e'] else ['c', 'i', 'r', 'c', 'l', 'e']) ++ [']'] := by
  rfl

theorem props_label {X : Type} (tags : Text → List (Nat × Nat)) (lab : X → Option Text) (x : X) :
    propertiesToStr tags x (toProps (enrich [(labelKey, lab)] [])) =
      match lab x with
      | none => ['[', ']']
      | some v => '[' :: htmlLabel (graphvizEscapeHtml v (tags v)) ++ [']'] := by
  have : propertiesToStr tags x (toProps (enrich [(labelKey, lab)] [])) =
      '[' :: join sepSemi ([(⟨labelKey, lab⟩ : Prop' X)].filterMap fun p => (p.val x).map fun v =>
      if p.key ≠ labelKey then attr p.key v
      else p.key ++ ['=', '<'] ++ graphvizEscapeHtml v (tags v) ++ ['>']) ++ [']'] := rfl
  rw [this]
  cases h : lab x <;> simp [h, join, htmlLabel]

/-- What is assumed of `GRAPHVIZ_HTML_TOKENIZER.finditer` (graphviz_impl.py:126-135): a tag begins with `<` and has at least three characters, and the
tags of `<i>ε</i>` are found. -/
structure TagsOk (tags : Text → List (Nat × Nat)) : Prop where
  lt : ∀ t, '<' ∉ t → tags t = []
  char : ∀ c, tags [c] = []
  eps : tags epsLabel = [(0, 3), (4, 8)]

theorem props_shape_inj {tags : Text → List (Nat × Nat)} {f f' : Nat → Bool} {u u' : Nat}
    (h : propertiesToStr tags u (toProps (enrich [(shapeKey, shapeOf f)] [])) =
      propertiesToStr tags u' (toProps (enrich [(shapeKey, shapeOf f')] []))) : f u = f' u' := by
  rw [props_shape, props_shape] at h
  cases h1 : f u <;> cases h2 : f' u' <;> rw [h1, h2] at h
  · exact absurd h (by decide)
  · exact absurd h (by decide)

theorem props_shape_newline (tags : Text → List (Nat × Nat)) (f : Nat → Bool) (u : Nat) :
    '\n' ∉ propertiesToStr tags u (toProps (enrich [(shapeKey, shapeOf f)] [])) := by
  rw [props_shape]
  cases f u <;> decide

theorem newline_escape (t : Text) : '\n' ∉ t.flatMap graphvizEscapeChar := fun h => escape_safe h (by decide)

theorem gt_escape (t : Text) : '>' ∉ t.flatMap graphvizEscapeChar := fun h => escape_safe h (by decide)

theorem lt_escape (t : Text) : '<' ∉ t.flatMap graphvizEscapeChar := fun h => escape_safe h (by decide)

theorem escape_eps : graphvizEscapeHtml epsLabel [(0, 3), (4, 8)] = epsLabel := by decide

theorem htmlLabel_newline {t : Text} (h : '\n' ∉ t) : '\n' ∉ '[' :: htmlLabel t ++ [']'] := by
  simp [htmlLabel, labelKey, h]

end Graphviz

/-- Equal lists of pairs whose first components are the elements. -/
theorem map_pair_inj {X Y : Type} {f f' : X → Y} : ∀ {l l' : List X}, (l.map fun x => (x, f x)) = (l'.map fun x => (x, f' x)) →
    l = l' ∧ ∀ x ∈ l, f x = f' x
  | [], [], _ => ⟨rfl, by simp⟩
  | [], _ :: _, h => by cases h
  | _ :: _, [], h => by cases h
  | x :: l, y :: l', h => by
    simp only [List.map_cons, List.cons.injEq, Prod.mk.injEq] at h
    obtain ⟨h1, h2⟩ := map_pair_inj h.2
    obtain ⟨⟨rfl, h3⟩, _⟩ := h
    refine ⟨by rw [h1], ?_⟩
    intro z hz
    rcases List.mem_cons.mp hz with rfl | hz
    · exact h3
    · exact h2 z hz

/-- Equal images, for functions that tell elements apart. -/
theorem map_of_map {X Y Z W : Type} {f : X → W} {f' : Y → W} {k : X → Z} {k' : Y → Z} :
    ∀ {l : List X} {l' : List Y}, (∀ x ∈ l, ∀ y ∈ l', f x = f' y → k x = k' y) → l.map f = l'.map f' → l.map k = l'.map k'
  | [], [], _, _ => rfl
  | [], _ :: _, _, h => by cases h
  | _ :: _, [], _, h => by cases h
  | x :: l, y :: l', hk, h => by
    simp only [List.map_cons, List.cons.injEq] at h ⊢
    exact ⟨hk x (by simp) y (by simp) h.1, map_of_map (fun x hx y hy => hk x (by simp [hx]) y (by simp [hy])) h.2⟩

/-- **C108** (automata). Two automata drawn by the same text, with the same options, have the same states, the same transitions, enumerated in the same order,
and the same final states. -/
theorem C108_automaton {tags : Text → List (Nat × Nat)} (ht : TagsOk tags) {s : Style} {o : Opts} {g g' : Automaton Char}
    (h : g.toDot tags s o [] [] = g'.toDot tags s o [] []) :
    g.vertices = g'.vertices ∧ g.edges = g'.edges ∧ ∀ q ∈ g.vertices, g.isFinal q = g'.isFinal q := by
  have hl : ∀ e : EdgeDesc Char, propertiesToStr tags e (toProps (enrich [(labelKey, fun e => some [e.distinguisher])] [])) =
      '[' :: htmlLabel (graphvizEscapeChar e.distinguisher) ++ [']'] := by
    intro e
    rw [props_label]
    simp only [ht.char, escapeHtml_char]
  have hn : ∀ e : EdgeDesc Char, '\n' ∉ '[' :: htmlLabel (graphvizEscapeChar e.distinguisher) ++ [']'] := by
    intro e
    apply htmlLabel_newline
    rw [← escapeHtml_char, escapeHtml_nil]
    exact newline_escape _
  obtain ⟨h1, h2⟩ := toDot_inj (fun u _ => props_shape_newline tags _ u) (fun e _ => by rw [hl]; exact hn e)
    (fun u _ => props_shape_newline tags _ u) (fun e _ => by rw [hl]; exact hn e) h
  obtain ⟨h3, h4⟩ := map_pair_inj (f := fun u => propertiesToStr tags u (toProps (enrich [(shapeKey, shapeOf g.isFinal)] [])))
    (f' := fun u => propertiesToStr tags u (toProps (enrich [(shapeKey, shapeOf g'.isFinal)] []))) h1
  refine ⟨h3, ?_, fun q hq => props_shape_inj (h4 q hq)⟩
  have := map_of_map (k := id) (k' := id) (fun e _ e' _ he => ?_) h2
  · simpa using this
  · simp only [Prod.mk.injEq, hl] at he
    obtain ⟨a, b, c⟩ := he
    have hc : graphvizEscapeChar e.distinguisher = graphvizEscapeChar e'.distinguisher := by simpa [htmlLabel] using c
    obtain ⟨x, y, z⟩ := e
    obtain ⟨x', y', z'⟩ := e'
    simp only at a b hc
    rw [a, b, C75_injective hc]

theorem LPath.target_mem {Q A : Type} {T : Q → A → Q → Prop} {P : Q → Prop} (hT : ∀ q a r, T q a r → P r) {q : Q} {w : List A} {r : Q}
    (h : LPath T q w r) (hq : P q) : P r := by
  induction h with
  | nil => exact hq
  | cons h _ ih => exact ih (hT _ _ _ h)

/-- **C108** (languages). Two automata drawn by the same text and with the same initial state accept the same words, provided that this state is in the
drawing and that transitions lead to states that are. -/
theorem C108_language {tags : Text → List (Nat × Nat)} (ht : TagsOk tags) {s : Style} {o : Opts} {g g' : Automaton Char}
    (h : g.toDot tags s o [] [] = g'.toDot tags s o [] []) (h0 : g.initial = g'.initial) (hi : ∀ q, g.initial = some q → q ∈ g.vertices)
    (hc : ∀ e ∈ g.edges, e.target ∈ g.vertices) (w : List Char) : g.Lang w ↔ g'.Lang w := by
  obtain ⟨_, h2, h3⟩ := C108_automaton ht h
  have hT : g.Trans = g'.Trans := by funext q a r; unfold Automaton.Trans; rw [h2]
  unfold Automaton.Lang
  have h0' : g.q0 = g'.q0 := h0
  rw [hT, h0']
  refine exists_congr fun q => exists_congr fun f => ?_
  constructor
  · rintro ⟨a, b, c⟩
    refine ⟨a, b, ?_⟩
    rw [← h3 f (LPath.target_mem (P := (· ∈ g.vertices)) (fun q a r hr => hc _ (hT ▸ hr)) b (hi q (h0'.trans a)))]
    exact c
  · rintro ⟨a, b, c⟩
    refine ⟨a, b, ?_⟩
    rw [h3 f (LPath.target_mem (P := (· ∈ g.vertices)) (fun q a r hr => hc _ (hT ▸ hr)) b (hi q (h0'.trans a)))]
    exact c

/-- The label shown for a transition of an NFA: `none` for an ε-transition. -/
def Nfa.shown {A : Type} [DecidableEq A] (g : Nfa A) (a : A) : Option A := if a = g.eps then none else some a

/-- **C108** (NFAs). Two NFAs drawn by the same text have the same states, the same transitions, with the same symbols or both without, and the same final states. -/
theorem C108_nfa {tags : Text → List (Nat × Nat)} (ht : TagsOk tags) {s : Style} {o : Opts} {g g' : Nfa Char}
    (h : g.toDot tags s o [] [] = g'.toDot tags s o [] []) :
    g.vertices = g'.vertices ∧
    (g.edges.map fun e => (e.source, g.shown e.distinguisher.1, e.target)) = (g'.edges.map fun e => (e.source, g'.shown e.distinguisher.1, e.target)) ∧
    ∀ q ∈ g.vertices, g.isFinal q = g'.isFinal q := by
  have hl : ∀ (g : Nfa Char) (e : EdgeDesc (Char × List Nat)), propertiesToStr tags e
      (toProps (enrich [(labelKey, fun e => some (if e.distinguisher.1 = g.eps then epsLabel else [e.distinguisher.1]))] [])) =
      '[' :: htmlLabel (match g.shown e.distinguisher.1 with | none => epsLabel | some a => graphvizEscapeChar a) ++ [']'] := by
    intro g e
    rw [props_label]
    unfold Nfa.shown
    by_cases he : e.distinguisher.1 = g.eps
    · simp only [if_pos he, ht.eps, escape_eps]
    · simp only [if_neg he, ht.char, escapeHtml_char]
  have hn : ∀ x : Option Char, '\n' ∉ '[' :: htmlLabel (match x with | none => epsLabel | some a => graphvizEscapeChar a) ++ [']'] := by
    intro x
    apply htmlLabel_newline
    cases x with
    | none => decide
    | some a => simp only; rw [← escapeHtml_char, escapeHtml_nil]; exact newline_escape _
  obtain ⟨h1, h2⟩ := toDot_inj (fun u _ => props_shape_newline tags _ u) (fun e _ => by rw [hl]; exact hn _)
    (fun u _ => props_shape_newline tags _ u) (fun e _ => by rw [hl]; exact hn _) h
  obtain ⟨h3, h4⟩ := map_pair_inj (f := fun u => propertiesToStr tags u (toProps (enrich [(shapeKey, shapeOf g.isFinal)] [])))
    (f' := fun u => propertiesToStr tags u (toProps (enrich [(shapeKey, shapeOf g'.isFinal)] []))) h1
  refine ⟨h3, ?_, fun q hq => props_shape_inj (h4 q hq)⟩
  refine map_of_map (fun e _ e' _ he => ?_) h2
  simp only [Prod.mk.injEq, hl] at he
  obtain ⟨a, b, c⟩ := he
  have hinj : ∀ x y : Option Char, (match x with | none => epsLabel | some a => graphvizEscapeChar a) =
      (match y with | none => epsLabel | some a => graphvizEscapeChar a) → x = y := by
    have hlt : ∀ a, graphvizEscapeChar a ≠ epsLabel := by
      intro a e
      have := lt_escape [a]
      simp only [List.flatMap_cons, List.flatMap_nil, List.append_nil] at this
      rw [e] at this
      exact this (by decide)
    intro x y hxy
    cases x <;> cases y
    · rfl
    · exact absurd hxy.symm (hlt _)
    · exact absurd hxy (hlt _)
    · rw [C75_injective hxy]
  have hc := hinj (g.shown e.distinguisher.1) (g'.shown e'.distinguisher.1) (by simpa [htmlLabel] using c)
  rw [a, b, hc]

/-- **C108** (languages of NFAs). Two NFAs drawn by the same text and with the same initial states accept the same words, provided that these states are in the drawing and that transitions lead to states that are; the symbols that stand for ε may differ. -/
theorem C108_nfa_language {tags : Text → List (Nat × Nat)} (ht : TagsOk tags) {s : Style} {o : Opts} {g g' : Nfa Char}
    (h : g.toDot tags s o [] [] = g'.toDot tags s o [] []) (h0 : ∀ q, q ∈ g.initials ↔ q ∈ g'.initials) (hi : ∀ q ∈ g.initials, q ∈ g.vertices)
    (hc : ∀ e ∈ g.edges, e.target ∈ g.vertices) (w : List Char) : g.Lang w ↔ g'.Lang w := by
  obtain ⟨h1, h2, h3⟩ := C108_nfa ht h
  have tr : ∀ {g g' : Nfa Char}, (g.edges.map fun e => (e.source, g.shown e.distinguisher.1, e.target)) =
      (g'.edges.map fun e => (e.source, g'.shown e.distinguisher.1, e.target)) → ∀ q u r, LPath g.Trans q u r →
        ∃ u', LPath g'.Trans q u' r ∧ u'.filter (· ≠ g'.eps) = u.filter (· ≠ g.eps) := by
    intro g g' he q u r hp
    induction hp with
    | nil q => exact ⟨[], .nil q, rfl⟩
    | @cons q r t a w hT _ ih =>
      obtain ⟨u', hu, hf⟩ := ih
      obtain ⟨n, hn⟩ := hT
      have hm : (q, g.shown a, r) ∈ g.edges.map fun e => (e.source, g.shown e.distinguisher.1, e.target) := List.mem_map.mpr ⟨_, hn, rfl⟩
      rw [he] at hm
      obtain ⟨⟨q', r', b, n'⟩, hn', hq⟩ := List.mem_map.mp hm
      simp only [Prod.mk.injEq] at hq
      obtain ⟨rfl, hs, rfl⟩ := hq
      refine ⟨b :: u', .cons ⟨n', hn'⟩ hu, ?_⟩
      unfold Nfa.shown at hs
      by_cases h1 : a = g.eps
      · rw [if_pos h1] at hs
        by_cases h2 : b = g'.eps
        · simp only [List.filter_cons, h1, h2, ne_eq, not_true, decide_false]; exact hf
        · rw [if_neg h2] at hs; cases hs
      · rw [if_neg h1] at hs
        by_cases h2 : b = g'.eps
        · rw [if_pos h2] at hs; cases hs
        · rw [if_neg h2] at hs
          cases hs
          simp only [List.filter_cons, ne_eq, h1, h2, not_false_eq_true, decide_true, if_true]
          rw [← hf]
  have mem : ∀ {q u r}, LPath g.Trans q u r → q ∈ g.vertices → r ∈ g.vertices := by
    intro q u r hp hq
    exact LPath.target_mem (P := (· ∈ g.vertices)) (fun q a r ⟨n, hr⟩ => hc _ hr) hp hq
  constructor
  · rintro ⟨q, hq, f, hf, u, hu, rfl⟩
    obtain ⟨u', hu', e⟩ := tr h2 q u f hu
    exact ⟨q, (h0 q).mp hq, f, (h3 f (mem hu (hi q hq))) ▸ hf, u', hu', e⟩
  · rintro ⟨q, hq, f, hf, u, hu, rfl⟩
    obtain ⟨u', hu', e⟩ := tr h2.symm q u f hu
    have hq' := (h0 q).mpr hq
    exact ⟨q, hq', f, (h3 f (mem hu' (hi q hq'))).symm ▸ hf, u', hu', e⟩

/-- The attributes of a state of a node automaton. -/
theorem props_node {tags : Text → List (Nat × Nat)} (ht : TagsOk tags) (g : NodeAutomaton Char) (u : Nat) :
    propertiesToStr tags u (toProps (enrich [(shapeKey, shapeOf g.a.isFinal)]
        (enrich [(shapeKey, shapeOf g.a.isFinal), (labelKey, fun u => (g.drawn u).map fun c => [c])] []))) =
      '[' :: attr shapeKey (if g.a.isFinal u then ['d', 'o', 'u', 'b', 'l', 'e', 'c', 'i', 'r', 'c', 'l', 'e'] else ['c', 'i', 'r', 'c', 'l', 'e']) ++
        (match g.drawn u with | none => [] | some c => sepSemi ++ htmlLabel (graphvizEscapeChar c)) ++ [']'] := by
  have : propertiesToStr tags u (toProps (enrich [(shapeKey, shapeOf g.a.isFinal)]
        (enrich [(shapeKey, shapeOf g.a.isFinal), (labelKey, fun u => (g.drawn u).map fun c => [c])] []))) =
      '[' :: join sepSemi ([(⟨shapeKey, shapeOf g.a.isFinal⟩ : Prop' Nat), ⟨labelKey, fun u => (g.drawn u).map fun c => [c]⟩].filterMap
        fun p => (p.val u).map fun v => if p.key ≠ labelKey then attr p.key v
      else p.key ++ ['=', '<'] ++ graphvizEscapeHtml v (tags v) ++ ['>']) ++ [']'] := rfl
  rw [this]
  have hne : shapeKey ≠ labelKey := by decide
  cases h : g.drawn u <;> simp [h, join, htmlLabel, shapeOf, hne, ht.char, escapeHtml_char]

/-- **C108** (node automata). Two node automata drawn by the same text have the same states, transitions and final states; a state is shown with the same
symbol, `^` being shown for the initial state. -/
theorem C108_node {tags : Text → List (Nat × Nat)} (ht : TagsOk tags) {s : Style} {o : Opts} {g g' : NodeAutomaton Char}
    (h : g.toDot tags s o [] [] = g'.toDot tags s o [] []) :
    g.vertices = g'.vertices ∧
    (g.edges.map fun e => (e.source, g.label e, e.target)) = (g'.edges.map fun e => (e.source, g'.label e, e.target)) ∧
    ∀ q ∈ g.vertices, g.a.isFinal q = g'.a.isFinal q ∧ g.drawn q = g'.drawn q := by
  have hesc : ∀ c, '\n' ∉ graphvizEscapeChar c := by
    intro c
    rw [← escapeHtml_char, escapeHtml_nil]
    exact newline_escape _
  have hl : ∀ (g : NodeAutomaton Char) (e : EdgeDesc (Option Char)), propertiesToStr tags e
      (toProps (enrich [(labelKey, fun e => (g.label e).map fun c => [c])] [])) =
      match g.label e with | none => ['[', ']'] | some c => '[' :: htmlLabel (graphvizEscapeChar c) ++ [']'] := by
    intro g e
    rw [props_label]
    cases g.label e with
    | none => rfl
    | some c => simp only [Option.map_some, ht.char, escapeHtml_char]
  have hn : ∀ x : Option Char, '\n' ∉ (match x with | none => ['[', ']'] | some c => '[' :: htmlLabel (graphvizEscapeChar c) ++ [']']) := by
    intro x
    cases x with
    | none => decide
    | some c => exact htmlLabel_newline (hesc c)
  have hv : ∀ (g : NodeAutomaton Char) (u : Nat), '\n' ∉ propertiesToStr tags u (toProps (enrich [(shapeKey, shapeOf g.a.isFinal)]
        (enrich [(shapeKey, shapeOf g.a.isFinal), (labelKey, fun u => (g.drawn u).map fun c => [c])] []))) := by
    intro g u
    rw [props_node ht]
    cases g.a.isFinal u <;> cases g.drawn u with
    | none => decide
    | some c => simp [attr, shapeKey, sepSemi, htmlLabel, labelKey, hesc c]
  obtain ⟨h1, h2⟩ := toDot_inj (fun u _ => hv g u) (fun e _ => by rw [hl]; exact hn _) (fun u _ => hv g' u) (fun e _ => by rw [hl]; exact hn _) h
  obtain ⟨h3, h4⟩ := map_pair_inj (f := fun u => propertiesToStr tags u (toProps (enrich [(shapeKey, shapeOf g.a.isFinal)]
        (enrich [(shapeKey, shapeOf g.a.isFinal), (labelKey, fun u => (g.drawn u).map fun c => [c])] []))))
    (f' := fun u => propertiesToStr tags u (toProps (enrich [(shapeKey, shapeOf g'.a.isFinal)]
        (enrich [(shapeKey, shapeOf g'.a.isFinal), (labelKey, fun u => (g'.drawn u).map fun c => [c])] [])))) h1
  refine ⟨h3, ?_, fun q hq => ?_⟩
  · refine map_of_map (fun e _ e' _ he => ?_) h2
    simp only [Prod.mk.injEq, hl] at he
    obtain ⟨a, b, c⟩ := he
    have hc : g.label e = g'.label e' := by
      cases h1 : g.label e <;> cases h2 : g'.label e' <;> rw [h1, h2] at c
      · simp [htmlLabel, labelKey] at c
      · simp [htmlLabel, labelKey] at c
      · exact congrArg some (C75_injective (by simpa [htmlLabel] using c))
    rw [a, b, hc]
  · have := h4 q hq
    simp only [props_node ht] at this
    cases f1 : g.a.isFinal q <;> cases f2 : g'.a.isFinal q <;> rw [f1, f2] at this <;> simp [attr, shapeKey] at this
    all_goals
      refine ⟨rfl, ?_⟩
      cases d1 : g.drawn q <;> cases d2 : g'.drawn q <;> rw [d1, d2] at this
      · simp [sepSemi] at this
      · simp [sepSemi] at this
      · exact congrArg some (C75_injective (by simpa [htmlLabel] using this))

/-- **C108** (languages of node automata). Two node automata drawn by the same text and with the same initial state carry the same symbols, except perhaps on that
state, and accept the same words, provided that edges were added towards existing states, and that the initial state is in the drawing. -/
theorem C108_node_language {tags : Text → List (Nat × Nat)} (ht : TagsOk tags) {s : Style} {o : Opts} {g g' : NodeAutomaton Char}
    (hs : g.SafeHistory) (hs' : g'.SafeHistory) (h : g.toDot tags s o [] [] = g'.toDot tags s o [] []) (h0 : g.a.initial = g'.a.initial)
    (hi : ∀ q, g.a.initial = some q → q ∈ g.vertices) :
    (∀ q ∈ g.vertices, g.a.initial ≠ some q → g.symbol q = g'.symbol q) ∧ ∀ w, g.accepts w = g'.accepts w := by
  obtain ⟨h1, h2, h3⟩ := C108_node ht h
  have hw := hs.wf
  have hw' := hs'.wf
  have he : g.edges = g'.edges := by
    have e1 : ∀ {g : NodeAutomaton Char}, NodeAutomaton.WF g → ∀ e ∈ g.edges, g.label e = e.distinguisher := by
      intro g hw e he
      exact (hw.label _ _ _ ((Automaton.mem_edges hw.out).mp he)).symm
    have := map_of_map (k := id) (k' := id) (fun e hm e' hm' heq => ?_) h2
    · simpa using this
    · rw [e1 hw e hm, e1 hw' e' hm'] at heq
      simp only [Prod.mk.injEq] at heq
      obtain ⟨x, y, z⟩ := e
      obtain ⟨x', y', z'⟩ := e'
      simp only [id] at heq ⊢
      rw [heq.1, heq.2.1, heq.2.2]
  have hd : ∀ q a, g.a.delta q a = g'.a.delta q a := by
    intro q a
    have h4 : ∀ r, g.a.delta q a = some r ↔ g'.a.delta q a = some r := by
      intro r
      have m1 := Automaton.mem_edges hw.out (e := ⟨q, r, a⟩)
      have m2 := Automaton.mem_edges hw'.out (e := ⟨q, r, a⟩)
      have he' : g.a.edges = g'.a.edges := he
      rw [he'] at m1
      exact m1.symm.trans m2
    exact Option.ext h4
  have hk : ∀ (g : NodeAutomaton Char) q a, q ∈ g.vertices → g.delta q a = .ok (g.a.delta q a) := by
    intro g q a hq
    obtain ⟨d, hd⟩ := (Dict.mem_keys_iff _ _).mp hq
    unfold NodeAutomaton.delta
    rw [Dict.getE_of_get? hd, Automaton.delta_eq, hd]
    rfl
  refine ⟨?_, ?_⟩
  · intro q hq hne
    have := (h3 q hq).2
    unfold NodeAutomaton.drawn Automaton.isInitial at this
    have hne1 : g.a.q0 ≠ some q := hne
    have hne2 : g'.a.q0 ≠ some q := fun e => hne (h0.trans e)
    simpa [hne1, hne2] using this
  · have key : ∀ w (q : Option Nat), (∀ x, q = some x → x ∈ g.vertices) → g.deltaWord q w = g'.deltaWord q w ∧
        ∀ r, g.deltaWord q w = .ok (some r) → r ∈ g.vertices := by
      intro w
      induction w with
      | nil =>
        intro q hq
        cases q with
        | none => exact ⟨rfl, fun r hr => by cases hr⟩
        | some q => exact ⟨rfl, fun r hr => by cases hr; exact hq q rfl⟩
      | cons a w ih =>
        intro q hq
        cases q with
        | none => exact ⟨rfl, fun r hr => by cases hr⟩
        | some q =>
          have hq' := hq q rfl
          have hx : ∀ x, g.a.delta q (some a) = some x → x ∈ g.vertices := fun x hx => hw.closed _ _ _ hx
          have := ih (g.a.delta q (some a)) hx
          have u1 : g.deltaWord (some q) (a :: w) = g.deltaWord (g.a.delta q (some a)) w := by
            rw [NodeAutomaton.deltaWord, hk g q _ hq']; rfl
          have u2 : g'.deltaWord (some q) (a :: w) = g'.deltaWord (g.a.delta q (some a)) w := by
            rw [NodeAutomaton.deltaWord, hk g' q _ (h1 ▸ hq'), hd]; rfl
          rw [u1, u2]
          exact this
    intro w
    obtain ⟨k1, k2⟩ := key w g.a.initial hi
    unfold NodeAutomaton.accepts
    rw [← h0, ← k1]
    cases hw : g.deltaWord g.a.initial w with
    | error e => rfl
    | ok r =>
      cases r with
      | none => rfl
      | some r => simp only [bind, Except.bind]; rw [(h3 r (k2 r hw)).1]

/-- **C108** (BK-trees). Two BK-trees drawn by the same text hold the same elements at the same vertices, and their edges carry the same distances, provided that
elements contain neither `<` nor a backslash. -/
theorem C108_bk_tree {tags : Text → List (Nat × Nat)} (ht : TagsOk tags) {s : Style} {o : Opts} {t t' : BKTree Text}
    (he : ∀ u ∈ t.a.vertices, ∃ x, t.elements.get? u = some x ∧ '<' ∉ x ∧ '\\' ∉ x)
    (he' : ∀ u ∈ t'.a.vertices, ∃ x, t'.elements.get? u = some x ∧ '<' ∉ x ∧ '\\' ∉ x)
    (h : t.toDot tags s o [] [] = t'.toDot tags s o [] []) :
    t.a.vertices = t'.a.vertices ∧ t.a.edges = t'.a.edges ∧
    ∀ u ∈ t.a.vertices, t.elements.get? u = t'.elements.get? u ∧ t.a.isFinal u = t'.a.isFinal u := by
  have hdig : ∀ n : Nat, '<' ∉ strNat n := fun n h => by have := isDig_strNat h; revert this; decide
  have hbs : ∀ n : Nat, '\\' ∉ strNat n := fun n h => by have := isDig_strNat h; revert this; decide
  have hl : ∀ e : EdgeDesc Nat, propertiesToStr tags e (toProps (enrich [(labelKey, fun e => some (strNat e.distinguisher))] [])) =
      '[' :: htmlLabel ((strNat e.distinguisher).flatMap graphvizEscapeChar) ++ [']'] := by
    intro e
    rw [props_label]
    simp only [ht.lt _ (hdig _), escapeHtml_nil]
  have hv : ∀ (t : BKTree Text), (∀ u ∈ t.a.vertices, ∃ x, t.elements.get? u = some x ∧ '<' ∉ x ∧ '\\' ∉ x) → ∀ u ∈ t.a.vertices,
      ∃ x, t.elements.get? u = some x ∧ '\\' ∉ x ∧ propertiesToStr tags u (toProps (enrich [(shapeKey, shapeOf t.a.isFinal)] (enrich [(labelKey, fun u => t.elements.get? u)] []))) =
        '[' :: labelKey ++ ['=', '<'] ++ x.flatMap graphvizEscapeChar ++ '>' :: (sepSemi ++
          attr shapeKey (if t.a.isFinal u then ['d', 'o', 'u', 'b', 'l', 'e', 'c', 'i', 'r', 'c', 'l', 'e'] else ['c', 'i', 'r', 'c', 'l', 'e']) ++ [']']) := by
    intro t he u hu
    obtain ⟨x, hx, h1, h2⟩ := he u hu
    refine ⟨x, hx, h2, ?_⟩
    have : propertiesToStr tags u (toProps (enrich [(shapeKey, shapeOf t.a.isFinal)] (enrich [(labelKey, fun u => t.elements.get? u)] []))) =
      '[' :: join sepSemi ([(⟨labelKey, fun u => t.elements.get? u⟩ : Prop' Nat), ⟨shapeKey, shapeOf t.a.isFinal⟩].filterMap
        fun p => (p.val u).map fun v => if p.key ≠ labelKey then attr p.key v
      else p.key ++ ['=', '<'] ++ graphvizEscapeHtml v (tags v) ++ ['>']) ++ [']'] := rfl
    rw [this]
    have hne : shapeKey ≠ labelKey := by decide
    simp [hx, join, shapeOf, hne, ht.lt x h1, escapeHtml_nil]
  have hvn : ∀ (t : BKTree Text), (∀ u ∈ t.a.vertices, ∃ x, t.elements.get? u = some x ∧ '<' ∉ x ∧ '\\' ∉ x) → ∀ u ∈ t.a.vertices,
      '\n' ∉ propertiesToStr tags u (toProps (enrich [(shapeKey, shapeOf t.a.isFinal)] (enrich [(labelKey, fun u => t.elements.get? u)] []))) := by
    intro t he u hu
    obtain ⟨x, _, _, hx⟩ := hv t he u hu
    rw [hx]
    have := newline_escape x
    cases t.a.isFinal u <;> simp only [List.mem_append, List.mem_cons, not_or, this] <;> decide
  have hen : ∀ e : EdgeDesc Nat, '\n' ∉ propertiesToStr tags e (toProps (enrich [(labelKey, fun e => some (strNat e.distinguisher))] [])) := by
    intro e
    rw [hl]
    exact htmlLabel_newline (newline_escape _)
  obtain ⟨h1, h2⟩ := toDot_inj (hvn t he) (fun e _ => hen e) (hvn t' he') (fun e _ => hen e) h
  obtain ⟨h3, h4⟩ := map_pair_inj
    (f := fun u => propertiesToStr tags u (toProps (enrich [(shapeKey, shapeOf t.a.isFinal)] (enrich [(labelKey, fun u => t.elements.get? u)] []))))
    (f' := fun u => propertiesToStr tags u (toProps (enrich [(shapeKey, shapeOf t'.a.isFinal)] (enrich [(labelKey, fun u => t'.elements.get? u)] [])))) h1
  refine ⟨h3, ?_, fun u hu => ?_⟩
  · have := map_of_map (k := id) (k' := id) (fun e _ e' _ heq => ?_) h2
    · simpa using this
    · simp only [Prod.mk.injEq, hl] at heq
      obtain ⟨a, b, c⟩ := heq
      have hc := strNat_inj (escape_inj (hbs _) (hbs _) (by simpa [htmlLabel] using c))
      obtain ⟨x, y, z⟩ := e
      obtain ⟨x', y', z'⟩ := e'
      simp only at a b hc
      rw [a, b, hc]
  · obtain ⟨x, hx, hxb, ex⟩ := hv t he u hu
    obtain ⟨y, hy, hyb, ey⟩ := hv t' he' u (h3 ▸ hu)
    have := h4 u hu
    simp only [ex, ey] at this
    simp only [List.append_assoc, List.cons_append, List.append_cancel_left_eq, List.cons.injEq, true_and, List.nil_append] at this
    obtain ⟨k1, k2⟩ := split_first (gt_escape x) (gt_escape y) this
    rw [hx, hy, escape_inj hxb hyb k1]
    refine ⟨rfl, ?_⟩
    cases f1 : t.a.isFinal u <;> cases f2 : t'.a.isFinal u <;> rw [f1, f2] at k2
    · exact absurd k2 (by decide)
    · exact absurd k2 (by decide)

/-- **C108** (syntax trees). Two syntax trees drawn by the same text have the same vertices and edges, and tokens written in the same way, provided that these
contain neither `<` nor a backslash. -/
theorem C108_ast {T : Type} [DecidableEq T] {tags : Text → List (Nat × Nat)} (ht : TagsOk tags) {s : Style} {o : Opts} {str : T → Text} {t t' : Ast T}
    (he : ∀ u ∈ t.g.vertices, ∃ a, t.sym.get? u = some a ∧ '<' ∉ str a ∧ '\\' ∉ str a)
    (he' : ∀ u ∈ t'.g.vertices, ∃ a, t'.sym.get? u = some a ∧ '<' ∉ str a ∧ '\\' ∉ str a)
    (h : t.toDot str tags s o [] [] = t'.toDot str tags s o [] []) :
    t.g.vertices = t'.g.vertices ∧
    (t.g.edges.map fun e => (e.source, e.target)) = (t'.g.edges.map fun e => (e.source, e.target)) ∧
    ∀ u ∈ t.g.vertices, (t.sym.get? u).map str = (t'.sym.get? u).map str := by
  have hdig : ∀ n : Nat, '<' ∉ strNat n := fun n h => by have := isDig_strNat h; revert this; decide
  have hbs : ∀ n : Nat, '\\' ∉ strNat n := fun n h => by have := isDig_strNat h; revert this; decide
  have hv : ∀ (t : Ast T), (∀ u ∈ t.g.vertices, ∃ a, t.sym.get? u = some a ∧ '<' ∉ str a ∧ '\\' ∉ str a) → ∀ u ∈ t.g.vertices,
      ∃ a, t.sym.get? u = some a ∧ '\\' ∉ str a ∧
        propertiesToStr tags u (toProps (enrich [(labelKey, fun u => (t.sym.get? u).map fun a => strNat u ++ [' '] ++ str a)] [])) =
        '[' :: htmlLabel ((strNat u ++ [' '] ++ str a).flatMap graphvizEscapeChar) ++ [']'] := by
    intro t he u hu
    obtain ⟨a, ha, h1, h2⟩ := he u hu
    refine ⟨a, ha, h2, ?_⟩
    rw [props_label]
    have : '<' ∉ strNat u ++ [' '] ++ str a := by simp [hdig u, h1]
    simp only [ha, Option.map_some, ht.lt _ this, escapeHtml_nil]
  have hvn : ∀ (t : Ast T), (∀ u ∈ t.g.vertices, ∃ a, t.sym.get? u = some a ∧ '<' ∉ str a ∧ '\\' ∉ str a) → ∀ u ∈ t.g.vertices,
      '\n' ∉ propertiesToStr tags u (toProps (enrich [(labelKey, fun u => (t.sym.get? u).map fun a => strNat u ++ [' '] ++ str a)] [])) := by
    intro t he u hu
    obtain ⟨a, _, _, hx⟩ := hv t he u hu
    rw [hx]
    exact htmlLabel_newline (newline_escape _)
  have hen : ∀ e : EdgeDesc Nat, '\n' ∉ propertiesToStr tags e (toProps ([] : PMaps (EdgeDesc Nat))) := by
    intro e; simp [propertiesToStr, toProps]
  obtain ⟨h1, h2⟩ := toDot_inj (hvn t he) (fun e _ => hen e) (hvn t' he') (fun e _ => hen e) h
  obtain ⟨h3, h4⟩ := map_pair_inj
    (f := fun u => propertiesToStr tags u (toProps (enrich [(labelKey, fun u => (t.sym.get? u).map fun a => strNat u ++ [' '] ++ str a)] [])))
    (f' := fun u => propertiesToStr tags u (toProps (enrich [(labelKey, fun u => (t'.sym.get? u).map fun a => strNat u ++ [' '] ++ str a)] []))) h1
  refine ⟨h3, map_of_map (fun e _ e' _ heq => ?_) h2, fun u hu => ?_⟩
  · simp only [Prod.mk.injEq] at heq
    rw [heq.1, heq.2.1]
  · obtain ⟨a, ha, hab, ea⟩ := hv t he u hu
    obtain ⟨b, hb, hbb, eb⟩ := hv t' he' u (h3 ▸ hu)
    have := h4 u hu
    simp only [ea, eb] at this
    have k : strNat u ++ [' '] ++ str a = strNat u ++ [' '] ++ str b :=
      escape_inj (by simp [hbs u, hab]) (by simp [hbs u, hbb]) (by simpa [htmlLabel] using this)
    rw [ha, hb]
    simpa using k

/-! ## What is not drawn -/

/-- A search of tags good enough for the examples. -/
def someTags (t : Text) : List (Nat × Nat) := if t = epsLabel then [(0, 3), (4, 8)] else []

theorem someTags_ok : TagsOk someTags where
  lt t h := by
    unfold someTags
    rw [if_neg]
    rintro rfl
    exact h (by decide)
  char c := by
    unfold someTags
    rw [if_neg]
    intro h
    cases h
  eps := by decide

/-- **C108**: the initial state is not drawn. Two automata that differ only by their initial states are drawn by the same text, although they do not
accept the same words. -/
theorem C108_initial_not_drawn : ∃ g g' : Automaton Char, g.Reachable ∧ g'.Reachable ∧
    (∀ tags s o, g.toDot tags s o [] [] = g'.toDot tags s o [] []) ∧ g.accepts ['a'] = true ∧ g'.accepts ['a'] = false :=
  ⟨_, _, ⟨[.addVertex, .addVertex, .addEdge 0 1 'a', .setInitial 0 true, .setFinal 1 true], rfl⟩,
    ⟨[.addVertex, .addVertex, .addEdge 0 1 'a', .setInitial 1 true, .setFinal 1 true], rfl⟩, fun _ _ _ => rfl, by decide, by decide⟩

/-- **C108**: the drawing of a node automaton may be ambiguous. A state with the symbol `^` looks like an initial state. -/
theorem C108_node_ambiguous : ∃ g g' : NodeAutomaton Char, g.SafeHistory ∧ g'.SafeHistory ∧
    (∀ tags s o, g.toDot tags s o [] [] = g'.toDot tags s o [] []) ∧ g.accepts [] = .ok true ∧ g'.accepts [] = .ok false := by
  refine ⟨_, _,
    .step (op := .setFinal 0 true) (.step (op := .setInitial 0 true) (.step (op := .addVertex (some '^')) (.step (op := .addVertex (some '^')) .new trivial rfl) trivial rfl) trivial rfl) trivial rfl,
    .step (op := .setFinal 0 true) (.step (op := .setInitial 1 true) (.step (op := .addVertex (some '^')) (.step (op := .addVertex (some '^')) .new trivial rfl) trivial rfl) trivial rfl) trivial rfl,
    fun _ _ _ => rfl, by decide, by decide⟩

/-- The drawings of two automata with the same states: the final states and the symbols make the difference. -/
example : ∃ g g' g'' : Automaton Char, Runs Automaton.exec Automaton.empty [.addVertex, .addVertex, .addEdge 0 1 'a'] g ∧
    Runs Automaton.exec Automaton.empty [.addVertex, .addVertex, .addEdge 0 1 '<'] g' ∧
    Runs Automaton.exec Automaton.empty [.addVertex, .addVertex, .addEdge 0 1 'a', .setFinal 0 true] g'' ∧
    (∀ e ∈ g.edges, e.target ∈ g.vertices) ∧
    g.toDot someTags ⟨[], [], [], []⟩ {} [] [] =
      "digraph G {\n  ; ; ;\n  0 [shape=\"circle\"];\n  1 [shape=\"circle\"];\n  0 -> 1 [label=<a>];\n}".toList ∧
    g.toDot someTags ⟨[], [], [], []⟩ {} [] [] ≠ g'.toDot someTags ⟨[], [], [], []⟩ {} [] [] ∧
    g.toDot someTags ⟨[], [], [], []⟩ {} [] [] ≠ g''.toDot someTags ⟨[], [], [], []⟩ {} [] [] :=
  ⟨_, _, _, rfl, rfl, rfl, by decide, by decide, by decide, by decide⟩

set_option maxRecDepth 20000 in
/-- An NFA with an ε-transition and a transition labelled by the character `ε`. -/
example : ∃ g : Nfa Char, Runs Nfa.exec (Nfa.init '0' [] 0) [.addVertex, .addVertex, .addEdge 0 1 '0', .addEdge 0 1 'ε', .setFinal 1 true] g ∧
    (∀ q ∈ g.initials, q ∈ g.vertices) ∧ (∀ e ∈ g.edges, e.target ∈ g.vertices) ∧
    g.toDot someTags ⟨[], [], [], []⟩ {} [] [] =
      "digraph G {\n  ; ; ;\n  0 [shape=\"circle\"];\n  1 [shape=\"doublecircle\"];\n  0 -> 1 [label=<<i>ε</i>>];\n  0 -> 1 [label=<ε>];\n}".toList :=
  ⟨_, rfl, by decide, by decide, by decide⟩

set_option maxRecDepth 20000 in
/-- A BK-tree of two words and a syntax tree: the hypotheses on labels are met. -/
example : ∃ t : BKTree Text, (BKTree.make (fun x y => x.length - y.length + (y.length - x.length)) [['a'], ['b', 'c']] 5) = some (.ok t) ∧
    (∀ u ∈ t.a.vertices, ∃ x, t.elements.get? u = some x ∧ '<' ∉ x ∧ '\\' ∉ x) ∧
    t.toDot someTags ⟨[], [], [], []⟩ {} [] [] =
      "digraph G {\n  ; ; ;\n  0 [label=<a>; shape=\"circle\"];\n  1 [label=<bc>; shape=\"circle\"];\n  0 -> 1 [label=<1>];\n}".toList := by
  refine ⟨_, rfl, ?_, by decide⟩
  intro u hu
  have : u = 0 ∨ u = 1 := by revert hu; show u ∈ [0, 1] → _; simp
  rcases this with rfl | rfl
  · exact ⟨_, rfl, by decide, by decide⟩
  · exact ⟨_, rfl, by decide, by decide⟩

example : ((⟨⟨1, [(0, [])]⟩, [(0, '+')]⟩ : Ast Char).toDot (fun c => [c]) someTags ⟨[], [], [], []⟩ {} [] []) =
    "digraph G {\n  ; ; ;\n  0 [label=<0 +>];\n}".toList := by decide

end PyBGL
