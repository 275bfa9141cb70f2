import Verif.Model.Graphviz

/-!
# Attributes read by `read_graphviz`: `graphviz.py`
-/

namespace PyBGL
namespace Graphviz

/-- `"<fake_tag "`, graphviz.py:37. -/
def fakeTag : Text := ['<', 'f', 'a', 'k', 'e', '_', 't', 'a', 'g', ' ']

/-- `GraphvizOptsParser`, graphviz.py:19-41: `feed` followed by `items`. `html` stands for `HTMLParser.feed` of the standard library: it gives
the attributes of the start tags of a text, in the order in which `handle_starttag` receives them; an attribute without value has the value `None`. -/
def parseOpts (html : Text → List (Text × Option Text)) : Option Text → Dict Text (Option Text)
  | none => []
  | some opts =>
    if opts = [] then [] else
      (html (fakeTag ++ (opts.drop 1).dropLast ++ ['>'])).foldl (fun d p => d.set p.1 p.2) []

/-- A call to `on_install_vertex_property` or `on_install_edge_property`, graphviz.py:73-77. -/
inductive Install where
  | vertex (u : Nat) (key : Text) (value : Option Text)
  | edge (e : EdgeDesc Nat) (key : Text) (value : Option Text)
  deriving DecidableEq, Repr

/-- State of a subclass of `ReadGraphvizVisitor` that redefines `on_install_vertex_property` and `on_install_edge_property`, and of the graph being read;
`s` is what the redefined methods work on. -/
structure HookReader (σ : Type) where
  aliases : Dict Text Nat
  g : Graph
  s : σ

/-- `ReadGraphvizVisitor.on_vertex` and `on_edge`, graphviz.py:79-104, in a subclass whose redefined methods are `hook`. The methods do not modify the graph. -/
def HookReader.on {σ : Type} (html : Text → List (Text × Option Text)) (hook : σ → Install → Except PyErr σ)
    (addEdge : Graph → Nat → Nat → Except PyErr (EdgeDesc Nat × Graph)) (r : HookReader σ) : Event → Except PyErr (HookReader σ)
  | .vertex _ ua opts => do
    let (u, g) := r.g.addVertex
    let s ← (parseOpts html opts).foldlM (fun s p => hook s (.vertex u p.1 p.2)) r.s
    .ok ⟨r.aliases.set ua u, g, s⟩
  | .edge _ ua va opts => do
    let u ← r.aliases.getE ua
    let v ← r.aliases.getE va
    let (e, g) ← addEdge r.g u v
    let s ← (parseOpts html opts).foldlM (fun s p => hook s (.edge e p.1 p.2)) r.s
    .ok ⟨r.aliases, g, s⟩
  | .other _ => .ok r

/-- `read_graphviz`, graphviz.py:124-164, with such a visitor: the graph read, and what the methods have left. -/
def readGraphvizWith {σ : Type} (html : Text → List (Text × Option Text)) (hook : σ → Install → Except PyErr σ)
    (addEdge : Graph → Nat → Nat → Except PyErr (EdgeDesc Nat × Graph)) (t : Text) (g : Graph) (s : σ) : Except PyErr (Graph × σ) := do
  let r ← (readEvents t).foldlM (HookReader.on html hook addEdge) ⟨[], g, s⟩
  .ok (r.g, r.s)

/-- `ReadGraphvizDpVisitor.__init__`, graphviz.py:178-181: `ReadGraphvizVisitor.__init__` (graphviz.py:66) takes no argument, and is given the graph. -/
def readGraphvizDpVisitorInit {σ : Type} (_g : Graph) (_dpv _dpe : Option (Dict Text (Dict Nat Text))) : Except PyErr σ := .error .typeError

/-- `read_graphviz_dp`, graphviz.py:194-215; the property maps are dictionaries. -/
def readGraphvizDp (addEdge : Graph → Nat → Nat → Except PyErr (EdgeDesc Nat × Graph)) (t : Text) (g : Graph)
    (dpv dpe : Option (Dict Text (Dict Nat Text))) : Except PyErr Graph := do
  let (_ : Unit) ← readGraphvizDpVisitorInit g dpv dpe
  readGraphviz addEdge t g

end Graphviz
end PyBGL
