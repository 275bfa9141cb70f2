import Verif.Model.GraphDp
import Verif.Proofs.Json

/-!
# C95: `GraphDp.to_json` writes a JSON document that describes the graph
-/

namespace PyBGL
open Graphviz Json

/-- Specification: the JSON value that describes a graph. Each vertex is an object made of its identifier and its properties, each edge an object
made of its ends and its properties. -/
def jsonOfGraph {L : Type} (directed : Bool) (dpv : List (StyleField Nat)) (dpe : List (StyleField (EdgeDesc L))) (vs : List Nat) (es : List (EdgeDesc L)) : JVal :=
  .obj [("graph_type".toList, .str (if directed then "digraph".toList else "graph".toList)),
    ("vertices".toList, .arr (vs.map fun u => .obj (("id".toList, .num u) :: dpv.map fun p => (p.key, .str (p.val u))))),
    ("edges".toList, .arr (es.map fun e =>
      .obj (("source".toList, .num e.source) :: ("target".toList, .num e.target) :: dpe.map fun p => (p.key, .str (p.val e)))))]

namespace Graphviz

theorem wsIndent : Ws jsonIndent := by unfold Ws; decide
theorem wsOutdent : Ws jsonOutdent := by unfold Ws; decide
theorem wsTop : Ws jsonTop := by unfold Ws; decide
theorem wsNil : Ws [] := by unfold Ws; decide
theorem wsSpace : Ws [' '] := by unfold Ws; decide

/-- The members written for the properties, each followed by white space. -/
theorem attrs_gram {X : Type} (x : X) {w : List Char} (hw : Ws w) (p : StyleField X) (dp : List (StyleField X)) (h : ∀ q ∈ p :: dp, Plain q.key ∧ Plain (q.val x))
    {i : List Char} (hi : Ws i) :
    Gram (.members ((p :: dp).map fun q => (q.key, .str (q.val x)))) (i ++ (join jsonSep ((p :: dp).map (jsonAttr x)) ++ w)) := by
  induction dp generalizing p i with
  | nil =>
    have := Gram.member (w := i) (w1 := []) (w2 := [' ']) (w' := w) hi (h p (by simp)).1 wsNil wsSpace (.str (h p (by simp)).2) hw
    simpa [join, jsonAttr, quote] using this
  | cons q dp ih =>
    have h1 := ih q (fun r hr => h r (by simp only [List.mem_cons] at hr ⊢; tauto)) wsIndent
    have := Gram.members (w := i) (w1 := []) (w2 := [' ']) (w' := []) hi (h p (by simp)).1 wsNil wsSpace (.str (h p (by simp)).2) wsNil h1
    simpa [join, jsonAttr, quote, jsonSep, jsonIndent] using this

/-- A member followed by the properties. -/
theorem member_attrs {X : Type} (x : X) (dp : List (StyleField X)) (h : ∀ q ∈ dp, Plain q.key ∧ Plain (q.val x)) {k : List Char} {v : JVal} {t : List Char}
    (hk : Plain k) (hv : Gram (.value v) t) :
    Gram (.members ((k, v) :: dp.map fun q => (q.key, .str (q.val x)))) (jsonIndent ++ (quote k ++ ([':', ' '] ++ (t ++ (jsonAttrs dp x ++ jsonOutdent))))) := by
  cases dp with
  | nil =>
    have hw : Ws (jsonIndent ++ jsonOutdent) := by unfold Ws; decide
    have := Gram.member (w := jsonIndent) (w1 := []) (w2 := [' ']) wsIndent hk wsNil wsSpace hv hw
    simpa [jsonAttrs, join] using this
  | cons p dp =>
    have := Gram.members (w := jsonIndent) (w1 := []) (w2 := [' ']) (w' := []) wsIndent hk wsNil wsSpace hv wsNil
      (attrs_gram x wsOutdent p dp h wsIndent)
    simpa [jsonAttrs] using this

theorem node_gram (dpv : List (StyleField Nat)) (u : Nat) (h : ∀ q ∈ dpv, Plain q.key ∧ Plain (q.val u)) :
    Gram (.value (.obj (("id".toList, .num u) :: dpv.map fun p => (p.key, .str (p.val u))))) (jsonNode dpv u) := by
  have := Gram.obj (member_attrs u dpv h (k := "id".toList) (by unfold Plain; decide) (Gram.num u))
  simpa [jsonNode, quote, strNat] using this

theorem edge_gram {L : Type} (dpe : List (StyleField (EdgeDesc L))) (e : EdgeDesc L) (h : ∀ q ∈ dpe, Plain q.key ∧ Plain (q.val e)) :
    Gram (.value (.obj (("source".toList, .num e.source) :: ("target".toList, .num e.target) :: dpe.map fun p => (p.key, .str (p.val e)))))
      (jsonEdge dpe e) := by
  have := Gram.obj (Gram.members (w := jsonIndent) (w1 := []) (w2 := [' ']) (w' := []) (k := "source".toList) wsIndent (by unfold Plain; decide)
    wsNil wsSpace (Gram.num e.source) wsNil (member_attrs e dpe h (k := "target".toList) (by unfold Plain; decide) (Gram.num e.target)))
  simpa [jsonEdge, quote, strNat] using this

/-- The elements of a list. -/
theorem items_gram {X : Type} (f : X → JVal) (t : X → List Char) (x : X) (l : List X) (h : ∀ y ∈ x :: l, Gram (.value (f y)) (t y))
    {i w : List Char} (hi : Ws i) (hw : Ws w) :
    Gram (.items ((x :: l).map f)) (i ++ (join [',', ' '] ((x :: l).map t) ++ w)) := by
  induction l generalizing x i with
  | nil =>
    have := Gram.item hi (h x (by simp)) hw
    simpa [join] using this
  | cons y l ih =>
    have h1 := ih y (fun z hz => h z (by simp only [List.mem_cons] at hz ⊢; tauto)) wsSpace
    have := Gram.items hi (h x (by simp)) wsNil h1
    simpa [join] using this

theorem list_gram {X : Type} (f : X → JVal) (t : X → List Char) (l : List X) (h : ∀ y ∈ l, Gram (.value (f y)) (t y)) :
    Gram (.value (.arr (l.map f))) (jsonList (l.map t)) := by
  cases l with
  | nil =>
    have hw : Ws (jsonOutdent ++ jsonTop) := by unfold Ws; decide
    have := Gram.arrNil hw
    simpa [jsonList, join] using this
  | cons x l =>
    have := Gram.arr (items_gram f t x l h wsOutdent wsTop)
    simpa [jsonList] using this

end Graphviz

/-- **C95**: for all vertices, edges and properties whose names and values contain neither a quotation mark, nor a backslash, nor a control
character, the text written by `to_json` is a JSON document that describes the graph. -/
theorem C95_json_partial {L : Type} (directed : Bool) (dpv : List (StyleField Nat)) (dpe : List (StyleField (EdgeDesc L))) (vs : List Nat) (es : List (EdgeDesc L))
    (hv : ∀ u ∈ vs, ∀ p ∈ dpv, Plain p.key ∧ Plain (p.val u)) (he : ∀ e ∈ es, ∀ p ∈ dpe, Plain p.key ∧ Plain (p.val e)) :
    Doc (jsonOfGraph directed dpv dpe vs es) (toJson directed dpv dpe vs es) := by
  refine ⟨[], toJson directed dpv dpe vs es, [], wsNil, ?_, wsNil, by simp⟩
  have ht : Gram (.value (.str (gtype directed))) (quote (gtype directed)) := .str (by cases directed <;> (unfold Plain; decide))
  have hV := list_gram (fun u => JVal.obj (("id".toList, .num u) :: dpv.map fun p => (p.key, .str (p.val u)))) (jsonNode dpv) vs
    (fun u hu => node_gram dpv u (hv u hu))
  have hE := list_gram (fun e : EdgeDesc L => JVal.obj (("source".toList, .num e.source) :: ("target".toList, .num e.target) ::
    dpe.map fun p => (p.key, .str (p.val e)))) (jsonEdge dpe) es (fun e h => edge_gram dpe e (he e h))
  have hn : Ws ['\n'] := by unfold Ws; decide
  have := Gram.obj (Gram.members (w := jsonTop) (w1 := []) (w2 := [' ']) (w' := []) (k := "graph_type".toList) wsTop (by unfold Plain; decide) wsNil wsSpace ht
    wsNil (Gram.members (w := jsonTop) (w1 := []) (w2 := [' ']) (w' := []) (k := "vertices".toList) wsTop (by unfold Plain; decide) wsNil wsSpace hV wsNil
      (Gram.member (w := jsonTop) (w1 := []) (w2 := [' ']) (k := "edges".toList) wsTop (by unfold Plain; decide) wsNil wsSpace hE hn)))
  have e : gtype directed = if directed then "digraph".toList else "graph".toList := by cases directed <;> rfl
  unfold jsonOfGraph
  rw [← e]
  simpa [toJson, quote] using this

/-- The property for all properties whatever their values. -/
def C95_statement : Prop :=
  ∀ (directed : Bool) (dpv : List (StyleField Nat)) (dpe : List (StyleField (EdgeDesc Nat))) (vs : List Nat) (es : List (EdgeDesc Nat)),
    Doc (jsonOfGraph directed dpv dpe vs es) (toJson directed dpv dpe vs es)

/-- One property `a` whose value contains the text that separates two properties. -/
def exQuote : List (StyleField Nat) := [⟨['a'], fun _ => ['x', '"'] ++ jsonSep ++ ['"', 'b', '"', ':', ' ', '"', 'y']⟩]

/-- Two properties `a` and `b`. -/
def exTwo : List (StyleField Nat) := [⟨['a'], fun _ => ['x']⟩, ⟨['b'], fun _ => ['y']⟩]

/-- **C95**, counterexample: the values are not escaped, so a vertex with one property whose value contains quotation marks is written like a vertex
with two properties. -/
theorem C95_counterexample : ¬ C95_statement := by
  intro h
  have h1 := h true exQuote [] [0] []
  have h2 := C95_json_partial (L := Nat) true exTwo [] [0] [] (by unfold Plain; decide) (by simp)
  have e : toJson true exQuote ([] : List (StyleField (EdgeDesc Nat))) [0] ([] : List (EdgeDesc Nat)) = toJson (L := Nat) true exTwo [] [0] [] := by rfl
  rw [e] at h1
  have := h1.unique h2
  simp [jsonOfGraph, exQuote, exTwo] at this

/-- **C95**: the text determines the type of the graph, its vertices, its edges and their properties. -/
theorem C95_injective_partial {L : Type} {directed directed' : Bool} {dpv dpv' : List (StyleField Nat)} {dpe dpe' : List (StyleField (EdgeDesc L))}
    {vs vs' : List Nat} {es es' : List (EdgeDesc L)}
    (hv : ∀ u ∈ vs, ∀ p ∈ dpv, Plain p.key ∧ Plain (p.val u)) (he : ∀ e ∈ es, ∀ p ∈ dpe, Plain p.key ∧ Plain (p.val e))
    (hv' : ∀ u ∈ vs', ∀ p ∈ dpv', Plain p.key ∧ Plain (p.val u)) (he' : ∀ e ∈ es', ∀ p ∈ dpe', Plain p.key ∧ Plain (p.val e))
    (h : toJson directed dpv dpe vs es = toJson directed' dpv' dpe' vs' es') :
    directed = directed' ∧
      vs.map (fun u => (u, dpv.map fun p => (p.key, p.val u))) = vs'.map (fun u => (u, dpv'.map fun p => (p.key, p.val u))) ∧
      es.map (fun e => (e.source, e.target, dpe.map fun p => (p.key, p.val e))) =
        es'.map (fun e => (e.source, e.target, dpe'.map fun p => (p.key, p.val e))) := by
  have h1 := C95_json_partial directed dpv dpe vs es hv he
  have h2 := C95_json_partial directed' dpv' dpe' vs' es' hv' he'
  rw [h] at h1
  have h3 := h1.unique h2
  unfold jsonOfGraph at h3
  simp only [JVal.obj.injEq, List.cons.injEq, Prod.mk.injEq, JVal.str.injEq, JVal.arr.injEq, true_and, and_true] at h3
  obtain ⟨h4, h5, h6⟩ := h3
  have key : ∀ {X : Type} (l l' : List (StyleField X)) (x y : X), (l.map fun p => (p.key, JVal.str (p.val x))) = (l'.map fun p => (p.key, JVal.str (p.val y))) →
      (l.map fun p => (p.key, p.val x)) = l'.map fun p => (p.key, p.val y) := by
    intro X l
    induction l with
    | nil => intro l' x y h; cases l' with
      | nil => rfl
      | cons _ _ => cases h
    | cons p l ih => intro l' x y h; cases l' with
      | nil => cases h
      | cons q l' =>
        simp only [List.map_cons, List.cons.injEq, Prod.mk.injEq, JVal.str.injEq] at h ⊢
        exact ⟨h.1, ih _ _ _ h.2⟩
  refine ⟨?_, ?_, ?_⟩
  · cases directed <;> cases directed' <;> first | rfl | (exact absurd h4 (by decide))
  · clear h h1 h2 h4 h6 hv hv'
    induction vs generalizing vs' with
    | nil => cases vs' with
      | nil => rfl
      | cons _ _ => cases h5
    | cons u vs ih => cases vs' with
      | nil => cases h5
      | cons u' vs' =>
        simp only [List.map_cons, List.cons.injEq, JVal.obj.injEq, Prod.mk.injEq, JVal.num.injEq, true_and] at h5 ⊢
        exact ⟨⟨h5.1.1, key _ _ _ _ h5.1.2⟩, ih h5.2⟩
  · clear h h1 h2 h4 h5 he he'
    induction es generalizing es' with
    | nil => cases es' with
      | nil => rfl
      | cons _ _ => cases h6
    | cons u es ih => cases es' with
      | nil => cases h6
      | cons u' es' =>
        simp only [List.map_cons, List.cons.injEq, JVal.obj.injEq, Prod.mk.injEq, JVal.num.injEq, true_and] at h6 ⊢
        exact ⟨⟨h6.1.1, h6.1.2.1, key _ _ _ _ h6.1.2.2⟩, ih h6.2⟩

/-- Non-vacuity: two vertices with two properties, an edge with one. -/
example : (∀ u ∈ [0, 1], ∀ p ∈ exTwo, Plain p.key ∧ Plain (p.val u)) ∧
    (∀ e ∈ [(⟨0, 1, 1⟩ : EdgeDesc Nat)], ∀ p ∈ [(⟨['w'], fun _ => ['7']⟩ : StyleField (EdgeDesc Nat))], Plain p.key ∧ Plain (p.val e)) := by
  unfold Plain; decide

end PyBGL
