import Verif.Model.Graphviz

/-!
# Calls to Graphviz, styles and displays: `graphviz.py`, `graphviz_impl.py`, `graph_dp.py`, `ipynb.py`
-/

namespace PyBGL
namespace Graphviz

/-! ## Running `dot` -/

/-- A `bytes` object. -/
abbrev Bytes := List UInt8

/-- What `run_graphviz` returns: a `str` or a `bytes`. -/
inductive Image where
  | str (t : Text)
  | bytes (b : Bytes)

/-- The outside world: the process `dot` (its status, its output and its error output, for a format, an engine and an input) and
`bytes.decode("utf-8")`, which may raise `UnicodeDecodeError`, a `ValueError`. -/
structure World where
  dot : Text → Text → Text → Int × Bytes × Bytes
  decode : Bytes → Except PyErr Text

/-- `"svg"`, graphviz.py:229 and 252. -/
def kwSvg : Text := ['s', 'v', 'g']
/-- `"dot"`, graphviz.py:246. -/
def kwDot : Text := ['d', 'o', 't']

/-- `run_graphviz`, graphviz.py:229-264. The messages printed on the error output are left out; building them decodes the error output of `dot`. -/
def runGraphviz (W : World) (s_dot : Text) (engine : Option Text) (format : Text) : Except PyErr Image :=
  let engine := engine.getD kwDot
  let (status, out, err) := W.dot format engine s_dot
  if status = 0 then
    if format = kwSvg then do
      let t ← W.decode out
      .ok (.str t)
    else .ok (.bytes out)
  else do
    let _ ← W.decode err
    .error .runtimeError

/-- `s.find("<svg")`: the position of the first occurrence, if any. -/
def findSvg : Text → Option Nat
  | [] => none
  | c :: t =>
    if ['<', 's', 'v', 'g'].isPrefixOf (c :: t) then some 0 else (findSvg t).map (· + 1)

/-- `s[i:]` where `i = s.find("<svg")`, graphviz.py:287-288; `find` returns `-1` if there is no occurrence, and `s[-1:]` is the last character. -/
def fromSvg (t : Text) : Text :=
  match findSvg t with
  | some i => t.drop i
  | none => t.drop (t.length - 1)

/-- `dot_to_svg`, graphviz.py:267-289. -/
def dotToSvg (W : World) (s_dot : Text) (engine : Option Text) (format : Text) : Except PyErr Text := do
  match ← runGraphviz W s_dot engine format with
  | .bytes b => W.decode b
  | .str t => .ok (fromSvg t)

/-- The files: their contents, if they exist. -/
abbrev Files := Dict Text Text

/-- `write_graphviz_impl`, graphviz.py:314-325, `f` being the name of the open file. `str` has no method `decode`; an empty image is false. -/
def writeImpl (W : World) (fs : Files) (f : Text) (s_dot : Text) (engine : Option Text) (format : Text) : Except PyErr Bool × Files :=
  match runGraphviz W s_dot engine format with
  | .error e => (.error e, fs)
  | .ok (.str []) => (.ok false, fs)
  | .ok (.str (_ :: _)) => (.error .attributeError, fs)
  | .ok (.bytes []) => (.ok false, fs)
  | .ok (.bytes (b :: bs)) =>
    match W.decode (b :: bs) with
    | .error e => (.error e, fs)
    | .ok t => (.ok true, fs.set f (fs.getD f [] ++ t ++ ['\n']))

/-- The argument `filename` of `write_graphviz`: a path, or a file which is already open for writing, at its end. -/
inductive Target where
  | path (f : Text)
  | file (f : Text)

/-- The name of the file. -/
def Target.name : Target → Text
  | .path f => f
  | .file f => f

/-- `write_graphviz`, graphviz.py:292-331: `open(filename, "w")` empties the file. -/
def writeGraphviz (W : World) (fs : Files) (target : Target) (s_dot : Text) (engine : Option Text) (format : Text) : Except PyErr Bool × Files :=
  match target with
  | .path f => writeImpl W (fs.set f []) f s_dot engine format
  | .file f => writeImpl W fs f s_dot engine format

/-- `dotstr_to_html`, graphviz.py:334-348: `str` of a `str`. (The format is `svg`, hence the `bytes` case does not occur: `str(b)` would
be its representation.) -/
def dotstrToHtml (W : World) (s_dot : Text) (engine : Option Text) : Except PyErr Text := do
  match ← runGraphviz W s_dot engine kwSvg with
  | .str t => .ok t
  | .bytes _ => .error .typeError

/-! ## Styles -/

/-- `"fontcolor"`, graphviz_impl.py:37. -/
def kFontcolor : Text := ['f', 'o', 'n', 't', 'c', 'o', 'l', 'o', 'r']
/-- `"color"`, graphviz_impl.py:42. -/
def kColor : Text := ['c', 'o', 'l', 'o', 'r']
/-- `"bgcolor"`, graphviz_impl.py:38. -/
def kBgcolor : Text := ['b', 'g', 'c', 'o', 'l', 'o', 'r']

/-- `d[k] = v`. -/
def setAttr (d : List (Text × Text)) (k v : Text) : List (Text × Text) := Dict.set d k v

/-- `GraphvizStyle.set_fg_color`, graphviz_impl.py:53-66. -/
def Style.setFg (s : Style) (c : Text) : Style :=
  let s := { s with graph := setAttr s.graph kFontcolor c }
  let s := { s with node := setAttr s.node kColor c }
  let s := { s with node := setAttr s.node kFontcolor c }
  let s := { s with edge := setAttr s.edge kColor c }
  { s with edge := setAttr s.edge kFontcolor c }

/-- `GraphvizStyle.set_bg_color`, graphviz_impl.py:68-77. -/
def Style.setBg (s : Style) (c : Text) : Style := { s with graph := setAttr s.graph kBgcolor c }

/-- The initial `GraphvizStyle`, graphviz_impl.py:36-51. -/
def Style.default : Style where
  graph := [(kFontcolor, ['b', 'l', 'a', 'c', 'k']), (kBgcolor, ['t', 'r', 'a', 'n', 's', 'p', 'a', 'r', 'e', 'n', 't']),
    (['r', 'a', 'n', 'k', 'd', 'i', 'r'], ['L', 'R'])]
  node := [(kColor, ['b', 'l', 'a', 'c', 'k']), (kFontcolor, ['b', 'l', 'a', 'c', 'k']),
    (['f', 'i', 'l', 'l', 'c', 'o', 'l', 'o', 'r'], ['t', 'r', 'a', 'n', 's', 'p', 'a', 'r', 'e', 'n', 't']),
    (['s', 'h', 'a', 'p', 'e'], ['c', 'i', 'r', 'c', 'l', 'e'])]
  edge := [(kColor, ['b', 'l', 'a', 'c', 'k']), (kFontcolor, ['b', 'l', 'a', 'c', 'k'])]
  extra := []

/-- A call that changes the style. -/
inductive StyleOp where
  | fg (c : Text)
  | bg (c : Text)

/-- Its effect. -/
def Style.exec (s : Style) : StyleOp → Style
  | .fg c => s.setFg c
  | .bg c => s.setBg c

/-- A dictionary of attributes referred to by a `GraphDp`: a dictionary of its own, or one of those of `GraphvizStyle`, which follows its changes. -/
inductive AttrRef where
  | own (d : List (Text × Text))
  | shared (get : Style → List (Text × Text))

/-- The current contents of the dictionary. -/
def AttrRef.read (s : Style) : AttrRef → List (Text × Text)
  | .own d => d
  | .shared get => get s

/-- `copy.copy` of a dictionary. -/
def AttrRef.copy (s : Style) (r : AttrRef) : AttrRef := .own (r.read s)

/-- `GraphDp`, graph_dp.py:30-70. -/
structure GraphDp (L : Type) where
  dpv : List (Prop' Nat)
  dpe : List (Prop' (EdgeDesc L))
  dg : AttrRef
  dv : AttrRef
  de : AttrRef
  extra : List Text

/-- `d if d else copy(...)`, graph_dp.py:67-69; `none` and the empty dictionary are false. -/
def orCopy (s : Style) (d : List (Text × Text)) (get : Style → List (Text × Text)) : AttrRef :=
  if d = [] then (AttrRef.shared get).copy s else .own d

/-- `GraphDp.__init__`, graph_dp.py:35-70, `s` being the style at that time. -/
def GraphDp.new {L : Type} (s : Style) (dpv : List (Prop' Nat)) (dpe : List (Prop' (EdgeDesc L))) (dg dv de : List (Text × Text))
    (extra : List Text) : GraphDp L :=
  ⟨dpv, dpe, orCopy s dg Style.graph, orCopy s dv Style.node, orCopy s de Style.edge, if extra = [] then s.extra else extra⟩

/-- `enrich_kwargs`, graphviz_impl.py:337-359, on attributes given as lists of pairs. -/
def enrichAttrs (default d : List (Text × Text)) : List (Text × Text) := enrich (default : Dict Text Text) (d : Dict Text Text)

/-- `enrich_kwargs`, graphviz_impl.py:337-359, on property maps. -/
def enrichProps {X : Type} (default d : List (Prop' X)) : List (Prop' X) :=
  (enrich (default.map fun p => (p.key, p.val)) (d.map fun p => (p.key, p.val)) : Dict Text (X → Option Text)).map fun p => ⟨p.1, p.2⟩

/-- `GraphDp.to_dot`, graph_dp.py:87-101, `s` being the style at the time of the call. `extra_style` is a list: if it is not empty, `enrich_kwargs` calls its
method `items`, which does not exist. -/
def GraphDp.toDot {L : Type} (s : Style) (G : GraphDp L) (directed : Bool) (tags : Text → List (Nat × Nat)) (o : Opts)
    (dpv : List (Prop' Nat)) (dpe : List (Prop' (EdgeDesc L))) (vs : List Nat) (es : List (EdgeDesc L)) : Except PyErr Text :=
  let dpv := enrichProps G.dpv dpv
  let dpe := enrichProps G.dpe dpe
  let o := { o with dg := enrichAttrs (G.dg.read s) o.dg }
  let o := { o with dv := enrichAttrs (G.dv.read s) o.dv }
  let o := { o with de := enrichAttrs (G.de.read s) o.de }
  if G.extra ≠ [] then .error .attributeError
  else .ok (Graphviz.toDot directed tags s o dpv dpe vs es)

/-! ## Displays -/

/-- `fmt % args`, for a tuple of strings: `%s` is replaced by the next argument, `%%` by `%`. Other conversions, which the library does not use, raise `ValueError`
in the model (those that exist in Python expect numbers, or repeat `%s` with flags). -/
def pyFormat : Text → List Text → Except PyErr Text
  | [], [] => .ok []
  | [], _ :: _ => .error .typeError
  | '%' :: '%' :: f, args => do .ok ('%' :: (← pyFormat f args))
  | '%' :: 's' :: f, a :: args => do .ok (a ++ (← pyFormat f args))
  | '%' :: 's' :: _, [] => .error .typeError
  | '%' :: _, _ => .error .valueError
  | c :: f, args => do .ok (c :: (← pyFormat f args))

/-- `"<div style='background-color:%s'>%%s</div>"`, ipynb.py:49. -/
def divTemplate : Text :=
  ['<', 'd', 'i', 'v', ' ', 's', 't', 'y', 'l', 'e', '=', '\'', 'b', 'a', 'c', 'k', 'g', 'r', 'o', 'u', 'n', 'd', '-', 'c', 'o', 'l', 'o', 'r', ':', '%', 's', '\'', '>',
    '%', '%', 's', '<', '/', 'd', 'i', 'v', '>']

/-- `background_template_html`, ipynb.py:30-50. `None` and the empty string are false. -/
def backgroundTemplate (color : Text) : Except PyErr Text :=
  if color = [] then .ok ['%', 's'] else pyFormat divTemplate [color]

/-- What `ipynb_display_graph` (ipynb.py:53-70) and `display_svg` (ipynb.py:97-98) hand to `html`, for a body `svg`. -/
def displayed (color svg : Text) : Except PyErr Text := do
  let t ← backgroundTemplate color
  pyFormat t [svg]

/-- `display_svg`, ipynb.py:73-98: the file is written, then a link and the body are displayed; the texts handed to `html` so far are kept if an exception is raised. -/
def displaySvg (fs : Files) (svg filename color : Text) : Except PyErr Unit × Files × List Text :=
  let fs := fs.set filename (svg ++ ['\n'])
  let link := ['<', 'a', ' ', 'h', 'r', 'e', 'f', '=', '\''] ++ filename ++
    ['\'', ' ', 't', 'a', 'r', 'g', 'e', 't', '=', '\'', '_', 'b', 'l', 'a', 'n', 'k', '\'', '>', 'V', 'i', 'e', 'w', '<', '/', 'a', '>']
  match displayed color svg with
  | .error e => (.error e, fs, [link])
  | .ok t => (.ok (), fs, [link, t])

/-- The page of `display_body`, ipynb.py:101-124. -/
def pageTemplate : Text :=
  ['<', 'h', 't', 'm', 'l', '>', ' ', '<', 'h', 'e', 'a', 'd', '>', ' ', ' ', '<', 'm', 'e', 't', 'a', ' ', 'c', 'h', 'a', 'r', 's', 'e', 't', '=', '\'', 'U', 'T', 'F', '-', '8', '\'', '>',
    ' ', '<', '/', 'h', 'e', 'a', 'd', '>', ' ', '<', 'b', 'o', 'd', 'y', '>', '%', 's', '<', '/', 'b', 'o', 'd', 'y', '>', '<', '/', 'h', 't', 'm', 'l', '>']

/-- `display_body`, ipynb.py:101-124. -/
def displayBody (fs : Files) (body filename color : Text) : Except PyErr Unit × Files × List Text :=
  match pyFormat pageTemplate [body] with
  | .error e => (.error e, fs, [])
  | .ok page => displaySvg fs page filename color

end Graphviz
end PyBGL
