import Verif.Model.Graphviz
import Verif.Model.Nfa
import Verif.Model.NodeAutomaton
import Verif.Model.BKTree
import Verif.Model.ShuntingYard

/-!
# The methods `to_dot` of automata, BK-trees and syntax trees
-/

namespace PyBGL
namespace Graphviz

/-- The dictionaries `dpv` and `dpe`: for each attribute, a property map read as a function; `none` is `None`. -/
abbrev PMaps (X : Type) := Dict Text (X → Option Text)

/-- The same dictionary, as expected by `to_dot`. -/
def toProps {X : Type} (d : PMaps X) : List (Prop' X) := d.map fun p => ⟨p.1, p.2⟩

/-- `"shape"`, automaton.py:317. -/
def shapeKey : Text := ['s', 'h', 'a', 'p', 'e']

/-- `"doublecircle" if self.is_final(u) else "circle"`, automaton.py:318, nfa.py:327, node_automaton.py:236. -/
def shapeOf (isFinal : Nat → Bool) (u : Nat) : Option Text :=
  some (if isFinal u then ['d', 'o', 'u', 'b', 'l', 'e', 'c', 'i', 'r', 'c', 'l', 'e'] else ['c', 'i', 'r', 'c', 'l', 'e'])

/-- `"<i>ε</i>"`, nfa.py:333. -/
def epsLabel : Text := ['<', 'i', '>', 'ε', '<', '/', 'i', '>']

end Graphviz

open Graphviz

/-- `Automaton.to_dot`, automaton.py:308-326, followed by `Graph.to_dot`, graph.py:375-383. `lab` is `str(self.label(e))`, or `none` if it is `None`;
`dpv` and `dpe` are the attributes given by the caller. -/
def Automaton.toDotWith {A : Type} (tags : Text → List (Nat × Nat)) (s : Style) (o : Opts) (lab : EdgeDesc A → Option Text)
    (dpv : PMaps Nat) (dpe : PMaps (EdgeDesc A)) (g : Automaton A) : Text :=
  Graphviz.toDot true tags s o (toProps (enrich [(shapeKey, shapeOf g.isFinal)] dpv)) (toProps (enrich [(labelKey, lab)] dpe)) g.vertices g.edges

/-- `Automaton.to_dot`, automaton.py:308-326: the symbols are strings of one character, and `label(e)` is `e.distinguisher` (automaton.py:253-265). -/
def Automaton.toDot (tags : Text → List (Nat × Nat)) (s : Style) (o : Opts) (dpv : PMaps Nat) (dpe : PMaps (EdgeDesc Char)) (g : Automaton Char) : Text :=
  g.toDotWith tags s o (fun e => some [e.distinguisher]) dpv dpe

/-- `Nfa.to_dot`, nfa.py:317-340; `label` is nfa.py:275-288. -/
def Nfa.toDot (tags : Text → List (Nat × Nat)) (s : Style) (o : Opts) (dpv : PMaps Nat) (dpe : PMaps (EdgeDesc (Char × List Nat)))
    (g : Nfa Char) : Text :=
  Graphviz.toDot true tags s o (toProps (enrich [(shapeKey, shapeOf g.isFinal)] dpv))
    (toProps (enrich [(labelKey, fun e => some (if e.distinguisher.1 = g.eps then epsLabel else [e.distinguisher.1]))] dpe)) g.vertices g.edges

/-- `"^" if self.is_initial(u) else self.symbol(u)`, node_automaton.py:239. -/
def NodeAutomaton.drawn (g : NodeAutomaton Char) (u : Nat) : Option Char := if g.a.isInitial u then some '^' else g.symbol u

/-- `NodeAutomaton.to_dot`, node_automaton.py:226-243, which calls the method of `Automaton`. -/
def NodeAutomaton.toDot (tags : Text → List (Nat × Nat)) (s : Style) (o : Opts) (dpv : PMaps Nat) (dpe : PMaps (EdgeDesc (Option Char)))
    (g : NodeAutomaton Char) : Text :=
  g.a.toDotWith tags s o (fun e => (g.label e).map fun c => [c])
    (enrich [(shapeKey, shapeOf g.a.isFinal), (labelKey, fun u => (g.drawn u).map fun c => [c])] dpv) dpe

/-- `BKTree.to_dot`, bk_tree.py:136-146, for elements that are strings. Every vertex has an element (bk_tree.py:50); the model leaves out the label of a
vertex without. -/
def BKTree.toDot (tags : Text → List (Nat × Nat)) (s : Style) (o : Opts) (dpv : PMaps Nat) (dpe : PMaps (EdgeDesc Nat)) (t : BKTree Text) : Text :=
  t.a.toDotWith tags s o (fun e => some (strNat e.distinguisher)) (enrich [(labelKey, fun u => t.elements.get? u)] dpv) dpe

/-- `Ast.to_dot`, shunting_yard_postfix.py:535-543; `str` is Python's `str` on tokens. Every vertex has a token (shunting_yard_postfix.py:532); the
model leaves out the label of a vertex without. -/
def Ast.toDot {T : Type} (str : T → Text) (tags : Text → List (Nat × Nat)) (s : Style) (o : Opts) (dpv : PMaps Nat) (dpe : PMaps (EdgeDesc Nat))
    (t : Ast T) : Text :=
  Graphviz.toDot true tags s o (toProps (enrich [(labelKey, fun u => (t.sym.get? u).map fun a => strNat u ++ [' '] ++ str a)] dpv)) (toProps dpe)
    t.g.vertices t.g.edges

end PyBGL
