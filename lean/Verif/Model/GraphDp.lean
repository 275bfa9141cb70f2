import Verif.Model.Graphviz

/-!
# Model of `graph_dp.py`
-/

namespace PyBGL
namespace Graphviz

/-- A property of the vertices or of the edges handed to `GraphDp`: its name and `str(pmap[x])`. -/
structure StyleField (X : Type) where
  key : Text
  val : X → Text

/-- `"\"%s\": \"%s\"" % (k, pmap[x])`, graph_dp.py:129 and 140. -/
def jsonAttr {X : Type} (x : X) (p : StyleField X) : Text := ['"'] ++ p.key ++ ['"', ':', ' ', '"'] ++ p.val x ++ ['"']

/-- `",\n            "`, graph_dp.py:128 and 139. -/
def jsonSep : Text := [',', '\n', ' ', ' ', ' ', ' ', ' ', ' ', ' ', ' ', ' ', ' ', ' ', ' ']

/-- `"\n            "`, graph_dp.py:19-20 and 24-26. -/
def jsonIndent : Text := ['\n', ' ', ' ', ' ', ' ', ' ', ' ', ' ', ' ', ' ', ' ', ' ', ' ']

/-- `"\n        "`, graph_dp.py:21, 27, 125 and 135. -/
def jsonOutdent : Text := ['\n', ' ', ' ', ' ', ' ', ' ', ' ', ' ', ' ']

/-- `"\n    "`, graph_dp.py:13-15, 125 and 135. -/
def jsonTop : Text := ['\n', ' ', ' ', ' ', ' ']

/-- `%(sep)s` followed by the attributes, graph_dp.py:19-20, 25-26, 128-132 and 139-143. -/
def jsonAttrs {X : Type} (dp : List (StyleField X)) (x : X) : Text :=
  (if dp = [] then [] else [',']) ++ jsonIndent ++ join jsonSep (dp.map (jsonAttr x))

/-- `JSON_NODE_FORMAT % {...}`, graph_dp.py:18-21 and 126-133. -/
def jsonNode (dpv : List (StyleField Nat)) (u : Nat) : Text :=
  ['{'] ++ jsonIndent ++ ['"', 'i', 'd', '"', ':', ' '] ++ strNat u ++ jsonAttrs dpv u ++ jsonOutdent ++ ['}']

/-- `JSON_EDGE_FORMAT % {...}`, graph_dp.py:23-27 and 136-144. -/
def jsonEdge {L : Type} (dpe : List (StyleField (EdgeDesc L))) (e : EdgeDesc L) : Text :=
  ['{'] ++ jsonIndent ++ ['"', 's', 'o', 'u', 'r', 'c', 'e', '"', ':', ' '] ++ strNat e.source ++ [','] ++ jsonIndent ++
    ['"', 't', 'a', 'r', 'g', 'e', 't', '"', ':', ' '] ++ strNat e.target ++ jsonAttrs dpe e ++ jsonOutdent ++ ['}']

/-- `"[\n        %s\n    ]" % ", ".join(ts)`, graph_dp.py:125 and 135. -/
def jsonList (ts : List Text) : Text := ['['] ++ jsonOutdent ++ join [',', ' '] ts ++ jsonTop ++ [']']

/-- `GraphDp.to_json`, graph_dp.py:104-147, of the vertices `vs` and the edges `es`. -/
def toJson {L : Type} (directed : Bool) (dpv : List (StyleField Nat)) (dpe : List (StyleField (EdgeDesc L))) (vs : List Nat) (es : List (EdgeDesc L)) : Text :=
  ['{'] ++ jsonTop ++ ['"', 'g', 'r', 'a', 'p', 'h', '_', 't', 'y', 'p', 'e', '"', ':', ' ', '"'] ++ gtype directed ++ ['"', ','] ++ jsonTop ++
    ['"', 'v', 'e', 'r', 't', 'i', 'c', 'e', 's', '"', ':', ' '] ++ jsonList (vs.map (jsonNode dpv)) ++ [','] ++ jsonTop ++
    ['"', 'e', 'd', 'g', 'e', 's', '"', ':', ' '] ++ jsonList (es.map (jsonEdge dpe)) ++ ['\n', '}']

end Graphviz
end PyBGL
