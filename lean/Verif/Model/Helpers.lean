import Verif.Prelude.Py
import Verif.Model.Misc
import Verif.Model.ShuntingYard

/-!
# Small classes and functions: `Comparable`, property maps, `reverse_dict`, `Singleton`, `AggregatedVisitor.get`, visitors of `shunting_yard_postfix`
-/

namespace PyBGL

/-! ## `Comparable` (heap.py) -/

/-- A `Comparable`, heap.py:10-33: an object and the function used to compare it. -/
structure Comparable (α : Type) where
  obj : α
  preorder : α → α → Bool

namespace Comparable
variable {α : Type}

/-- `Comparable(obj, preorder)`, heap.py:20-33: `preorder` may be missing. -/
def make (obj : α) (preorder : Option (α → α → Bool)) : Except PyErr (Comparable α) :=
  match preorder with
  | none => .error .assertionError
  | some p => .ok ⟨obj, p⟩

/-- `compare_to_key(preorder)(x)`, heap.py:129-141. -/
def key (preorder : α → α → Bool) (x : α) : Comparable α := ⟨x, preorder⟩

/-- `__lt__`, heap.py:35-45. -/
def lt (x y : Comparable α) : Bool := !x.preorder y.obj x.obj

/-- `__le__`, heap.py:47-57. -/
def le (x y : Comparable α) : Bool := x.preorder x.obj y.obj

/-- `__eq__`, heap.py:59-72. -/
def eq (x y : Comparable α) : Bool := x.preorder x.obj y.obj && x.preorder y.obj x.obj

/-- `__ne__`, heap.py:74-84. -/
def ne (x y : Comparable α) : Bool := !x.eq y

/-- `__gt__`, heap.py:86-96. -/
def gt (x y : Comparable α) : Bool := !x.preorder x.obj y.obj

/-- `__ge__`, heap.py:98-108. -/
def ge (x y : Comparable α) : Bool := x.preorder y.obj x.obj

end Comparable

/-! ## Property maps (property_map.py) -/

/-- The concrete property maps. -/
inductive PMap (K W : Type) where
  /-- `FuncPropertyMap(f)`, property_map.py:116-132; `f` may raise -/
  | func (f : K → Except PyErr W)
  /-- `ConstantPropertyMap(value)`, property_map.py:188-203 -/
  | const (value : W)
  /-- `AssocPropertyMap(d)`, property_map.py:249-265 -/
  | assoc (m : AssocMap K W)

namespace PMap
variable {K W : Type} [DecidableEq K]

/-- `make_func_property_map`, property_map.py:139-155. -/
def ofFunc (f : K → Except PyErr W) : PMap K W := .func f

/-- `identity_property_map`, property_map.py:158-185: `IdentityPropertyMap.__getitem__` returns the key. -/
def identity : PMap K K := .func .ok

/-- `make_assoc_property_map`, property_map.py:276-298, 263-265: `d` must be a `defaultdict`. `none` stands for anything else. -/
def ofDict (d : Option (AssocMap K W)) : Except PyErr (PMap K W) :=
  match d with
  | none => .error .typeError
  | some m => .ok (.assoc m)

/-- `pmap[k]`, property_map.py:134-136, 171-173, 205-207, 267-269, and `get(pmap, k)`, 301-313. -/
def getItem (m : PMap K W) (k : K) : Except PyErr W × PMap K W :=
  match m with
  | .func f => (f k, m)
  | .const x => (.ok x, m)
  | .assoc d =>
    match d.getItem k with
    | .error e => (.error e, m)
    | .ok (x, d) => (.ok x, .assoc d)

/-- `pmap[k] = v`, property_map.py:99-113, 271-273, and `put(pmap, k, v)`, 316-325. -/
def setItem (m : PMap K W) (k : K) (x : W) : Except PyErr Unit × PMap K W :=
  match m with
  | .func _ => (.error .runtimeError, m)
  | .const _ => (.error .runtimeError, m)
  | .assoc d => (.ok (), .assoc (d.setItem k x))

/-- `del pmap[k]`, property_map.py:59-65. -/
def delItem (m : PMap K W) (_ : K) : Except PyErr Unit × PMap K W := (.error .runtimeError, m)

/-- What can be done with a property map. -/
inductive Op (K W : Type) where
  | get (k : K)
  | put (k : K) (x : W)
  | del (k : K)

/-- The property map after an operation, which may have raised. -/
def exec (m : PMap K W) : Op K W → PMap K W
  | .get k => (m.getItem k).2
  | .put k x => (m.setItem k x).2
  | .del k => (m.delItem k).2

end PMap

/-! ## `reverse_dict` (reverse.py) -/

/-- `reverse_dict`, reverse.py:30-42: `{v: k for (k, v) in d.items()}`. -/
def reverseDict {K V : Type} [DecidableEq V] (d : Dict K V) : Dict V K := d.foldl (fun r p => r.set p.2 p.1) []

/-! ## `Singleton` (singleton.py) -/

/-- The dictionary `s_instances`, singleton.py:22, keyed by the classes `C`, and the number of objects created so far: an object is identified by the
rank of its creation. -/
structure Singletons (C : Type) where
  instances : Dict C Nat
  created : Nat

/-- `cls(*args)`, singleton.py:24-41; `init` tells whether `__init__` returns or raises. -/
def Singletons.call {C : Type} [DecidableEq C] (s : Singletons C) (cls : C) (init : Except PyErr Unit) : Except PyErr Nat × Singletons C :=
  match s.instances.get? cls with
  | some x => (.ok x, s)
  | none =>
    match init with
    | .error e => (.error e, { s with created := s.created + 1 })
    | .ok _ => (.ok s.created, ⟨s.instances.set cls s.created, s.created + 1⟩)

/-! ## `AggregatedVisitor` (aggregated_visitor.py) -/

/-- `s.split("'")`. -/
def splitQuote : List Char → List (List Char)
  | [] => [[]]
  | c :: s =>
    match splitQuote s with
    | [] => [[]]
    | x :: xs => if c = '\'' then [] :: x :: xs else (c :: x) :: xs

/-- `type_to_key(vis)`, aggregated_visitor.py:35-46, for an object whose class is called `name` (with its module): `str(type(vis))` is
`<class 'name'>`. -/
def typeToKey (name : List Char) : Except PyErr (List Char) :=
  match splitQuote (['<', 'c', 'l', 'a', 's', 's', ' ', '\''] ++ name ++ ['\'', '>']) with
  | _ :: x :: _ => .ok x
  | _ => .error .indexError

/-- `AggregatedVisitor.get(key, ret_if_not_found)`, aggregated_visitor.py:61-85, on visitors given by their classes and themselves. -/
def aggregatedGet {V : Type} (key : List Char) (notFound : V) : List (List Char × V) → Except PyErr V
  | [] => .ok notFound
  | (name, v) :: vs =>
    match typeToKey name with
    | .error e => .error e
    | .ok k => if k = key then .ok v else aggregatedGet key notFound vs

/-! ## The visitor of `shunting_yard_postfix` (shunting_yard_postfix.py) -/

/-- The methods of `DefaultShuntingYardVisitor`, shunting_yard_postfix.py:253-283. -/
inductive YardEvent (T : Type) where
  | popOperator (o : T)
  | pushOperator (o : T)
  | pushOutput (a : T)
  deriving DecidableEq, Repr

namespace ShuntingYard
variable {T O : Type} [DecidableEq T]

/-- The branch `a == ")"` (shunting_yard_postfix.py:383-387), with the calls to the visitor. -/
def closeParenV (P : OpTable T) (sink : O → T → Except PyErr O) : List T → O → List (YardEvent T) →
    Except PyErr (List T × O × List (YardEvent T))
  | [], _, _ => .error .indexError
  | o :: ops, out, log =>
    if o = P.lpar then .ok (ops, out, log ++ [.popOperator o])
    else do
      let out ← sink out o
      closeParenV P sink ops out (log ++ [.popOperator o, .pushOutput o])

/-- The loop popping the operators that precede `a` (shunting_yard_postfix.py:389-395), with the calls to the visitor. -/
def popPrecedingV (P : OpTable T) (sink : O → T → Except PyErr O) (a : T) : List T → O → List (YardEvent T) →
    Except PyErr (List T × O × List (YardEvent T))
  | [], out, log => .ok ([], out, log)
  | o :: ops, out, log =>
    if preceeds P o a then do
      let out ← sink out o
      popPrecedingV P sink a ops out (log ++ [.popOperator o, .pushOutput o])
    else .ok (o :: ops, out, log)

/-- One iteration of the main loop (shunting_yard_postfix.py:380-398), with the calls to the visitor. -/
def stepV (P : OpTable T) (sink : O → T → Except PyErr O) (s : List T × O × List (YardEvent T)) (a : T) :
    Except PyErr (List T × O × List (YardEvent T)) :=
  if a = P.lpar then .ok (a :: s.1, s.2.1, s.2.2 ++ [.pushOperator a])
  else if a = P.rpar then closeParenV P sink s.1 s.2.1 s.2.2
  else if P.ops.contains a then do
    let s ← popPrecedingV P sink a s.1 s.2.1 s.2.2
    .ok (a :: s.1, s.2.1, s.2.2 ++ [.pushOperator a])
  else do
    let out ← sink s.2.1 a
    .ok (s.1, out, s.2.2 ++ [.pushOutput a])

/-- `push_output(pop_operator())` (shunting_yard_postfix.py:400-401). -/
def flushV (sink : O → T → Except PyErr O) (s : O × List (YardEvent T)) (o : T) : Except PyErr (O × List (YardEvent T)) := do
  let out ← sink s.1 o
  .ok (out, s.2 ++ [.popOperator o, .pushOutput o])

/-- `shunting_yard_postfix(expression, map_operators, output, vis)` (shunting_yard_postfix.py:290-402): the output and the calls to the visitor. The
visitor is assumed not to raise. -/
def runV (P : OpTable T) (sink : O → T → Except PyErr O) (expression : List T) (out : O) : Except PyErr (O × List (YardEvent T)) := do
  let s ← expression.foldlM (stepV P sink) ([], out, [])
  s.1.foldlM (flushV sink) (s.2.1, s.2.2)

end ShuntingYard

end PyBGL
