import Verif.Model.Graph
import Verif.Model.Misc

/-!
# Writing and reading Graphviz: `graphviz_impl.py`, `graphviz.py`

Texts are lists of characters.
-/

namespace PyBGL
namespace Graphviz

/-- A Python string. -/
abbrev Text := List Char

/-- `sep.join(ts)`. -/
def join (sep : Text) : List Text → Text
  | [] => []
  | [t] => t
  | t :: ts => t ++ sep ++ join sep ts

/-- The separator `"; "`. -/
def sepSemi : Text := [';', ' ']

/-- `f'{k}="{v}"'`, graphviz_impl.py:95, 223 and 299. -/
def attr (k v : Text) : Text := k ++ ['=', '"'] ++ v ++ ['"']

/-- The key of the attribute written in HTML, graphviz_impl.py:223. -/
def labelKey : Text := ['l', 'a', 'b', 'e', 'l']

/-- An entry of `dpv` or `dpe`: the name of the attribute, and `str(pmap[x])`, or `none` when `pmap[x]` is `None`. -/
structure Prop' (X : Type) where
  key : Text
  val : X → Option Text

/-- `graphviz_properties_to_str`, graphviz_impl.py:207-227. `None` and the empty dictionary behave the same. `tags` gives the HTML
tags found by `re` in a label. -/
def propertiesToStr {X : Type} (tags : Text → List (Nat × Nat)) (x : X) (dpx : List (Prop' X)) : Text :=
  if dpx = [] then [] else
    '[' :: join sepSemi (dpx.filterMap fun p => (p.val x).map fun v =>
      if p.key ≠ labelKey then attr p.key v
      else p.key ++ ['=', '<'] ++ graphvizEscapeHtml v (tags v) ++ ['>']) ++ [']']

/-- `str(u)` on a vertex. -/
def strNat (u : Nat) : Text := Nat.toDigits 10 u

/-- `vertex_to_graphviz`, graphviz_impl.py:241-265, with the default `vertex_to_str`. -/
def vertexToGraphviz (tags : Text → List (Nat × Nat)) (dpv : List (Prop' Nat)) (u : Nat) : Text :=
  join [' '] [strNat u, propertiesToStr tags u dpv]

/-- `graphviz_arc`, graphviz_impl.py:268-278. -/
def arc (directed : Bool) : Text := if directed then ['-', '>'] else ['-', '-']

/-- `graphviz_type`, graphviz_impl.py:281-291. -/
def gtype (directed : Bool) : Text :=
  if directed then ['d', 'i', 'g', 'r', 'a', 'p', 'h'] else ['g', 'r', 'a', 'p', 'h']

/-- `edge_to_graphviz`, graphviz_impl.py:305-334, with the default `vertex_to_str`. -/
def edgeToGraphviz {L : Type} (directed : Bool) (tags : Text → List (Nat × Nat)) (dpe : List (Prop' (EdgeDesc L)))
    (e : EdgeDesc L) : Text :=
  join [' '] [strNat e.source, arc directed, strNat e.target, propertiesToStr tags e dpe]

/-- `graphviz_dx_to_dot`, graphviz_impl.py:294-302, and `GraphvizStyle.attributes_to_dot`, graphviz_impl.py:80-97: the same text. -/
def dxToDot (pre : Text) (dx : List (Text × Text)) : Text :=
  if dx = [] then [] else pre ++ [' ', '['] ++ join sepSemi (dx.map fun p => attr p.1 p.2) ++ [']']

/-- The current `GraphvizStyle`, graphviz_impl.py:17-51: its class attributes. -/
structure Style where
  graph : List (Text × Text)
  node : List (Text × Text)
  edge : List (Text × Text)
  extra : List Text

/-- `"graph"`, graphviz_impl.py:108 and 417. -/
def kwGraph : Text := ['g', 'r', 'a', 'p', 'h']
/-- `"node"`, graphviz_impl.py:109 and 418. -/
def kwNode : Text := ['n', 'o', 'd', 'e']
/-- `"edge"`, graphviz_impl.py:110 and 419. -/
def kwEdge : Text := ['e', 'd', 'g', 'e']

/-- `GraphvizStyle.__str__`, graphviz_impl.py:99-112, and `default_graphviz_style`, graphviz_impl.py:230-238. -/
def styleStr (s : Style) : Text :=
  join sepSemi ([dxToDot kwGraph s.graph, dxToDot kwNode s.node, dxToDot kwEdge s.edge] ++ s.extra)

/-- The optional arguments of `to_dot`: `graphviz_style`, `dg`, `dv`, `de`, `extra_style`. -/
structure Opts where
  style : Option Text := none
  dg : List (Text × Text) := []
  dv : List (Text × Text) := []
  de : List (Text × Text) := []
  extra : Text := []

/-- The instructions that precede the vertices, graphviz_impl.py:412-425. Empty texts are left out. -/
def headers (s : Style) (o : Opts) : List Text :=
  [o.style.getD (styleStr s), dxToDot kwGraph o.dg, dxToDot kwNode o.dv, dxToDot kwEdge o.de, o.extra].filter (· ≠ [])

/-- `to_dot`, graphviz_impl.py:363-439, of the vertices `vs` and the edges `es`. -/
def toDot {L : Type} (directed : Bool) (tags : Text → List (Nat × Nat)) (s : Style) (o : Opts)
    (dpv : List (Prop' Nat)) (dpe : List (Prop' (EdgeDesc L))) (vs : List Nat) (es : List (EdgeDesc L)) : Text :=
  let instructions := headers s o ++ vs.map (vertexToGraphviz tags dpv) ++ es.map (edgeToGraphviz directed tags dpe)
  gtype directed ++ [' ', 'G', ' ', '{'] ++
    (if instructions = [] then []
     else ['\n', ' ', ' '] ++ join [';', '\n', ' ', ' '] instructions ++ [';', '\n']) ++ ['}']

/-! ## Reading -/

/-- The line boundaries of `str.splitlines`. -/
def isBreak (c : Char) : Bool :=
  c.toNat ∈ [10, 11, 12, 13, 28, 29, 30, 133, 8232, 8233]

/-- The white space of `str.strip` and of `\s`. -/
def isSpace (c : Char) : Bool :=
  c.toNat ∈ [9, 10, 11, 12, 13, 28, 29, 30, 31, 32, 133, 160, 5760, 8232, 8233, 8239, 8287, 12288] ||
    (8192 ≤ c.toNat && c.toNat ≤ 8202)

/-- `str.splitlines`; `cur` is the current line, reversed. -/
def splitlinesAux : Text → Text → List Text
  | cur, [] => if cur = [] then [] else [cur.reverse]
  | cur, c :: t =>
    if isBreak c then
      match c, t with
      | '\r', '\n' :: t => cur.reverse :: splitlinesAux [] t
      | _, t => cur.reverse :: splitlinesAux [] t
    else splitlinesAux (c :: cur) t

/-- `str.splitlines()`. -/
def splitlines (t : Text) : List Text := splitlinesAux [] t

/-- `str.strip()`. -/
def strip (t : Text) : Text := ((t.dropWhile isSpace).reverse.dropWhile isSpace).reverse

/-- `[0-9]`. -/
def isDig (c : Char) : Bool := decide ('0' ≤ c) && decide (c ≤ '9')

/-- `\s*;` matches a prefix. -/
def semi (t : Text) : Bool := (t.dropWhile isSpace).head? = some ';'

/-- `(.*)\]\s*;` on what follows an opening bracket: the text of the group. `.` is any character but a newline; the longest
match is taken first. -/
def closeOpts : Text → Option Text
  | [] => none
  | c :: t =>
    match if c = '\n' then none else closeOpts t with
    | some p => some (c :: p)
    | none => if c = ']' && semi t then some [] else none

/-- `\s*(\[(.*)\])?\s*;`, graphviz.py:107-117: the outermost group if the pattern matches. -/
def scanOpts (t : Text) : Option (Option Text) :=
  match t.dropWhile isSpace with
  | '[' :: t => (closeOpts t).map fun p => some ('[' :: p ++ [']'])
  | t => if semi t then some none else none

/-- `([0-9]+)`: the digits and what follows. Fewer digits would leave a digit, which nothing that follows the group in
the patterns below matches. -/
def scanId (t : Text) : Option (Text × Text) :=
  if t.takeWhile isDig = [] then none else some (t.takeWhile isDig, t.dropWhile isDig)

/-- `RE_LINE_VERTEX.match`, graphviz.py:111-113 and 120. -/
def matchVertex (t : Text) : Option (Text × Option Text) := do
  let (u, t) ← scanId t
  let opts ← scanOpts t
  some (u, opts)

/-- `RE_LINE_EDGE.match`, graphviz.py:114-117 and 121. -/
def matchEdge (t : Text) : Option (Text × Text × Option Text) := do
  let (u, t) ← scanId t
  match t.dropWhile isSpace with
  | '-' :: '>' :: t =>
    let (v, t) ← scanId (t.dropWhile isSpace)
    let opts ← scanOpts t
    some (u, v, opts)
  | _ => none

/-- A notification of the visitor of `read_graphviz`, graphviz.py:44-56. -/
inductive Event where
  | vertex (line : Text) (u : Text) (opts : Option Text)
  | edge (line : Text) (u v : Text) (opts : Option Text)
  | other (line : Text)
  deriving DecidableEq, Repr

/-- Body of the loop of `read_graphviz`, graphviz.py:150-164. -/
def readLine (line : Text) : Event :=
  let line := strip line
  match matchVertex line with
  | some (u, opts) => .vertex line u opts
  | none =>
    match matchEdge line with
    | some (u, v, opts) => .edge line u v opts
    | none => .other line

/-- The notifications sent by `read_graphviz` on a string, graphviz.py:146-164. -/
def readEvents (t : Text) : List Event := (splitlines t).map readLine

/-- State of `ReadGraphvizVisitor` (graphviz.py:59-71) and of the graph being read. -/
structure Reader where
  aliases : Dict Text Nat
  g : Graph

/-- `ReadGraphvizVisitor.on_vertex` and `on_edge`, graphviz.py:79-104. `add_edge` is dynamically dispatched; the flag it returns
is always `True` (graph.py:241, 539), hence the `assert` holds. The attributes are handed over to hooks that do nothing; their parsing by
`HTMLParser` is not modelled. -/
def Reader.on (addEdge : Graph → Nat → Nat → Except PyErr (EdgeDesc Nat × Graph)) (r : Reader) :
    Event → Except PyErr Reader
  | .vertex _ ua _ =>
    let (u, g) := r.g.addVertex
    .ok ⟨r.aliases.set ua u, g⟩
  | .edge _ ua va _ => do
    let u ← r.aliases.getE ua
    let v ← r.aliases.getE va
    let (_, g) ← addEdge r.g u v
    .ok ⟨r.aliases, g⟩
  | .other _ => .ok r

/-- `read_graphviz`, graphviz.py:124-164, with the default visitor. -/
def readGraphviz (addEdge : Graph → Nat → Nat → Except PyErr (EdgeDesc Nat × Graph)) (t : Text) (g : Graph) :
    Except PyErr Graph := do
  let r ← (readEvents t).foldlM (Reader.on addEdge) ⟨[], g⟩
  .ok r.g

/-! ## `enrich_kwargs` -/

/-- The loop of `enrich_kwargs`, graphviz_impl.py:356-358, on the dictionary `kwargs[key]`: it is updated in place, hence
this is also what the dictionary of the caller has become. -/
def enrich {K W : Type} [DecidableEq K] (default : Dict K W) (d : Dict K W) : Dict K W :=
  default.foldl (fun d p => if d.contains p.1 then d else d.set p.1 p.2) d

end Graphviz
end PyBGL
