# Formal model of nokia/PyBGL in Lean 4

## Layout

| path | content |
|---|---|
| `properties.jsonl` | the English properties C01.. (generated by `tools/gen_properties.py`) |
| `lean/Verif/Prelude/` | Python runtime vocabulary: dict, set, exceptions, while loops |
| `lean/Verif/Model/` | the model, one file per Python module; every definition cites file and lines of `/repo` |
| `lean/Verif/Spec/` | small specifications that do not mention the model (paths, languages, edit scripts, ...) |
| `lean/Verif/Proofs/` | helper lemmas and invariants |
| `lean/Verif/Props/` | the property theorems `Cxx_...`, each with a non-vacuity `example` |
| `MANIFEST.json` | property -> theorem names and status |
| `seeded/LOG.jsonl` | mutation log: wrong programs against which the theorems were tested |

## Modelling conventions

* **Dict**: an insertion-ordered association list with unique keys (`PyDict`). Assigning an existing
  key keeps its position, as in CPython. A missing key raises `KeyError` (a value of `Except PyErr`).
* **Set / frozenset**: a duplicate-free list. Whenever the Python result could depend on the order in
  which a set is iterated or popped, that order is a *parameter* (an oracle or an arbitrary
  permutation) and the theorem quantifies over it. Statements are about membership, never about the order.
* **Exceptions** are values of `Except PyErr`. No operation is totalised silently: error branches are
  kept in the model. What an exception leaves in the object is described only in `Model/Failure.lean`
  (type `PyM`: outcome and state), which C112 relates to the other description.
* **while loops** are iterated with fuel; running out of fuel is a distinct outcome. Theorems state
  *total* correctness: some amount of fuel suffices, and the result satisfies the specification.
* **Graphs seen by algorithms** are given through the interface the Python code uses (`vertices`,
  `out_edges`, `source`, `target`), so the theorems hold for every class implementing it and for every
  iteration order of the underlying sets. Instances for the concrete container models are provided.
* **Visitors** are state transformers `Event -> sigma -> Except err sigma`; user visitors that mutate the
  traversed graph are excluded, except where the library itself does so (trie fusion).
* **Numbers**: Python `int` is `Int`/`Nat`. Weights live in an arbitrary ordered structure, colours in
  an arbitrary linearly ordered field. Floating point is modelled for the weights of Dijkstra's search only (C152, C153): a format is a set of rational numbers
  with rounding to the nearest.
* A property that is false of the code is refuted by a theorem `Cxx_counterexample...`, evaluated on
  the model by kernel reduction, and a `Cxx_..._partial` theorem proves what remains true, with the
  hypothesis the code really needs.

## Plan per property

| id | what is modelled, how it is proved |
|---|---|
| C01-C05 | `DirectedGraph` state machine (`graph.py`), invariant by induction over operation lists, refinement to abstract vertex/edge sets |
| C06-C07 | `UndirectedGraph` state machine, same technique with the symmetry invariant |
| C08 | `IncidenceGraph`: the in-adjacency dictionary is the transpose of the out-adjacency dictionary, invariant over operation lists |
| C09 | `reverse_graph` as exchange of the four methods of the interface |
| C10 | `GraphView` filters and combinators; the `-` operator has an operator-precedence bug: counterexample and partial theorem |
| C11-C13 | `Automaton`, `IncidenceAutomaton`. Truthiness of state 0 in `add_edge`: counterexample and partial theorem |
| C14-C15 | `automaton_insert_string` + `Trie`, trie invariant (unique in-edge, words <-> states) |
| C16, C20 | parallel BFS with the fusion / matching visitors on tries |
| C17-C18 | `make_suffix_trie`, `slices`, `factors` |
| C19 | `DigitalSequence` |
| C21-C22 | `NodeAutomaton`, `IncidenceNodeAutomaton` state machines; the histories that break the properties are covered by an exact specification of each call (Spec/NodeHistory.lean) and a simulation |
| C23-C24 | `make_automaton`, `make_incidence_automaton`, `is_complete`, `sigma`, `alphabet` |
| C25-C26 | `Nfa`: closure loop with arbitrary pop order; accepts vs. path semantics |
| C27-C28 | `moore_determination` work-list with arbitrary pop order and symbol order |
| C29-C34 | Thompson constructions over the NFA model, languages as sets of words; counterexamples for `?`, `{0,n}`, `{0}` |
| C35-C36 | shunting-yard automaton and RPN evaluation, by induction on expression trees |
| C37 | `tokenize` over an arbitrary match list |
| C38-C40 | Hopcroft refinement loop with arbitrary pop orders; stability invariant |
| C41-C42 | Revuz height loop and merge loop on acyclic automata |
| C43 | prune = DFS forward + DFS backward + removal |
| C44-C47 | parallel BFS machine; inclusion, intersection, union visitors |
| C48-C50 | BFS machine |
| C51-C53 | DFS machine (explicit stack of `(u, i, n)` frames, exactly as coded) |
| C54-C58 | visitors over the DFS machine: topological sort, Tarjan SCC, cut, extract, copy |
| C59 | tree traversals |
| C60-C64 | Dijkstra loop over an abstract algebra and an abstract priority queue, refined to the heap model |
| C65 | `Heap` over the sift-up/sift-down algorithms of `heapq`, heap invariant, refinement to a stable priority queue |
| C66 | closed operators over `Int` |
| C67-C71 | memoised distance recursions vs. edit scripts |
| C72-C73 | `BKTree` insertion and search loop |
| C74 | colour conversions over a linearly ordered field |
| C75 | escaping functions over lists of characters |
| C76-C77 | property maps and visitor aggregation |
| C78 | removals on `Automaton`, from the invariant of C11 |
| C79 | counters and constructor of `DirectedGraph`, from the invariant of C01 |
| C80 | parallel transitions of `Nfa`, refinement to a multiset of transitions over all histories |
| C88, C89 | `make_node_automaton` on names of an arbitrary totally ordered type (the position of a name used as a key is a parameter `ofInt`); `delta`, `delta_word`, `accepts`, `edge`, `sigma`, `alphabet` of `NodeAutomaton`, by the invariant of C21 |
| C81, C87 | `tokenizer_alg`; an independent grammar of arithmetic expressions for precedences and associativities |
| C82 | `parse_bracket`, `parse_escaped`: loop invariant over the items of the class |
| C83 | `parse_repetition` over lists of digits |
| C84 | `tokenizer_re` as a scanner for its one pattern and the catifying visitor |
| C85 | text -> tokens -> postfix -> NFA, composition of C84, C35 and C34 |
| C86 | counting invariant of the shunting yard |
| C90 | `to_dot` and `read_graphviz` on lists of characters (`str.splitlines`, `strip`, the two patterns of `read_graphviz`); induction over the lines, then over the vertices and edges |
| C91 | `enrich_kwargs` as an in-place update |
| C92 | `revuz_minimize` over a record of operations (`Model/RevuzNode.lean`), with one instance per class; the laws of the operations are proved for each class, the algorithm once |
| C93 | `automaton_insert_string` step by step; the language after the insertion by an invariant on the chain of added states |
| C94 | `automaton_copy` as `depth_first_search_graph` with the model of `AutomatonCopyVisitor`; an isomorphism invariant over the events |
| C95 | `GraphDp.to_json` on lists of characters, against a grammar of JSON (`Spec`); induction over vertices, edges and properties |
| C96 | corollaries of C48, C51, C54 and C55 through the equivalence of reachability and connectedness in an `UndirectedGraph` |
| C97 | C60 through the correspondence of directed and undirected paths |
| C98 | `graph_copy` over the method `add_edge` of the class of the copy; the invariant of C58 for any such method |
| C99 | Matrix of the four languages read between the initial and the final state, computed compositionally for every construction; induction on expressions. For e{0,n} on automata not starting at vertex 0, invariant of the loop after the first copy, whose entry is the vertex before the initial state. |
| C100 | `Ast.toExpr` as a mutual recursion with fuel on the tree; induction on expressions; refuted as stated, partial for trees rooted at vertex 0 |
| C101 | `RevuzG.minimizeV` = the minimisation with a log of the calls; erasure of the log, then an invariant of the levels (`LogInv`): removed states are exactly the second arguments |
| C102 | case analysis on the values of the preorder |
| C103 | induction on histories; reduces to C76 for `AssocPropertyMap` |
| C104 | induction on the items of the dictionary |
| C105 | invariant of the table of instances over all sequences of calls |
| C106 | `str(type)` is split at quotes; induction on the list of visitors |
| C107 | `ShuntingYard.runV` = the conversion with a log; stack discipline as an inductive relation `YardRun`; invariant of the main loop |
| C108 | to_dot of automata, NFAs, node automata, BK-trees and syntax trees on top of the model of graphviz_impl; injectivity of the escaped text |
| C109 | the process dot and the decoder as arbitrary functions, files as a dictionary; case analysis |
| C110 | sequences of style calls by induction; GraphDp with copied dictionaries |
| C111 | the operator % on strings, the templates of ipynb.py |
| C112 | The mutators written again statement by statement in `PyM` (state and exception; `Model/Failure.lean`), proved equal to the first model when they return; the state left by each exception; induction on logs in which calls may fail |
| C113 | clear() is modelled for the five classes (graph.py:199-206 with the inherited or overridden remove_vertex). The counter does not influence remove_vertex, so the invariant of the former state applies; behaviours are compared by a simulation over the sequences of calls. |
| C114 | Each mutator is written in a state-and-exception monad, statement by statement, so that the state at the point of the exception is visible; histories contain failing calls (Spec/Tried.lean). |
| C115 | The program is modelled with the methods of its parameter as operations (Model/MooreInto.lean) and shown, by a simulation that renumbers states, to do to that object what the default program does to a new one. |
| C116 | compile_dfa is the composition of the models of thompson_compile_nfa and moore_determination; the DFA is shown to be built by API calls, so that C45 applies to it. |
| C117 | From C39_quotient: states of the two results reached by the same word are related, and this relation is a bijection since it identifies indistinguishable states only. C28 and C115 give the hypotheses for the DFAs of NFAs. |
| C118 | Rewrite the parallel search and its applications over the five methods they call, two of which may raise; prove that objects that agree with an automaton on a closed set of states give the very same run; prove that a sequence agrees with the trie in which its word is inserted; conclude from C16, C20, C45, C46, C47. |
| C119 | Specify the reading as an operand with at most one waiting * or + and at most one waiting ?; prove by induction on the expression that the stack of the shunting yard holds exactly the waiting operators and that the output is the postfix form of what has been applied; conclude with C85 and C99. |
| C120 | All laws are transported along alignments (Spec/Edit) and concluded from the optimality of the three memoized recursions (C67, C69, C70). |
| C121 | Paths of a view are the paths of the graph with relevant edges and ends; paths of a reversed graph are the reversed paths (C09); instantiate C48, C51, C54, C55, C60, which hold for every object with the methods of a graph. |
| C122 | Follow one stored element through the search loop: it stays below a queued node until the best distance is at most the error of the cut-off criterion for that element. One edit operation changes the cost of a Damerau alignment by at most 2. |
| C123 | `GraphView.to_dot` with sets enumerated in any order; the lines of the text are read by the model of `read_graphviz` (C90) |
| C124 | same loop bodies on the two classes; simulation, then C22 |
| C125 | `IAutomaton.insertString` simulates the insertion in a trie (C15); Revuz's result is trim, accessible and reduced (C48..C51); two reduced automata of one language are isomorphic and injective towards any other |
| C126 | the theorems of each algorithm (C54, C55, C58 ...) composed on one graph |
| C127 | `find`, `rfind`, `split`, `int` on lists of characters; the colour is compared through its largest and smallest RGB components |
| C128 | a store of sets with addresses, variables of the caller and Nfa objects that hold an address, against a store of values; simulation relation, then the shared case |
| C129 | the drawings of C108 are texts of C90; each instruction is one line unless a symbol ends a line |
| C130 | induction on the history from its end; every other call keeps the initial and final states |
| C131 | the shunting yard sends a permutation of the tokens; each token adds -1, 0 or 1 automaton to the stack, so that the sum over the tokens is 1; by induction on the text, the sum never exceeds that of a beginning of a regular expression, and reaches it only for one |
| C132 | Every list of tokens is the postfix text of a sequence of trees or lacks an operand (induction from the right); the deques hold one item per tree. The output of the shunting yard does not depend on the sink, which transfers the result to shunting_yard_ast and shunting_yard_compute. |
| C133 | Model of alphabet and sigma; a specification recording the symbols used from each state along a history; induction on the history, ε-closure from C25. |
| C134 | Model of the query methods (Model/NfaQueries.lean); induction on the history for the states; counts by a bijection with the transitions. |
| C135 | Model GraphvizOptsParser over an arbitrary HTML parser and the visitor over arbitrary methods; induction on the lines relates any visitor to the one that records its calls; C90_events gives the lines of a drawing. |
| C136 | Lockstep simulation of two searches (big-step derivations for depth-first search, loop states for the others); the facts on the search with a new map (C48, C51, C64) are transferred. |
| C137 | Instance of the simulation where nothing is hidden; lockstep of make_shortest_path on the two maps of predecessors. |
| C138 | invariant: the vertices of each fragment are 0..n-1 and its ends are among them; counting lemma on the maps from states to subsets, words and pairs |
| C139 | invariant of the subset construction (C28) with the sets sigma of C133 |
| C140 | lemmas on the elements of a heap that hold for every order, invariant of the loop without algebraic hypothesis, measure 2 * white vertices + size of the heap |
| C141 | Model/ProductInto.lean: the same search with a visitor whose automaton is given. Simulation (Into) between the construction into g12 and the default one, states being shifted by the next number of g12. |
| C142 | a notebook of distances, predecessor arcs and vertices not met, updated arc by arc (inductive relation in Spec/DijkstraCalls); the loop of the search keeps it equal to the property maps; arcs not relaxed by the invariant of C60 |
| C143 | Model/Reversed.lean models the methods with the four attributes exchanged; the invariant of C08 is kept by every call, whatever the number of reversals, because the adjacencies never move. |
| C144 | The views are lists filtered by predicates; equality of lists by pointwise equality of the predicates, history of the graph by C08. |
| C145 | The escaped text is the text of a concatenation of literals and escape sequences, to which C85 applies; a lone backslash reaches parse_escaped after a prefix that compiles. |
| C146 | The copy visitor is modelled for any class of target, any content of the maps and callbacks with a state that may raise. An invariant on the visitor with callbacks that record their calls, then a simulation of any callbacks by the recorded calls. |
| C147 | Deleting a symbol commutes with concatenation, union and iteration, so that the induction of C34 goes through with the literals ε as epsilon transitions. |
| C148 | Each operation on fragments is shown to perform the corresponding operation on pictures, the renaming chosen by insert_automaton being a shift; then induction on the expression. |
| C149 | dijkstraV is a model in which each call to the visitor may fail. It is shown equal to telling the visitor a list of snapshots built from the steps of the model without failures; the loop invariant of C60 holds at each snapshot, up to the update in progress. |
| C150 | dfsV and bfsV are models in which each call receives the colours and may fail, the failure carrying the colours. They are run in lockstep with the models of C48 and C51 under a visitor that paints the colours and remembers the first failure; the facts known at each call of these models give the guarantees. |
| C151 | `compute` with a limit on the number of nested calls, which keeps `self.memoize` when RecursionError is raised, and a counter of the calls (Model/DistanceLimit). Induction on the limit; the calls are charged to the entries written, the entry of a call in progress being still absent when its inner calls return. |
| C152 | A format is a set of rational numbers with rounding to the nearest of them, ties being broken in any way; such a rounding is monotone, whence the selective algebra of C64. The distances are the least rounded sums; a path is shortened to one without repetition, the sum of which is exact up to k roundings (Model/FloatWeights, Proofs/FloatDijkstra). Double precision is constructed as the multiples of 2^-1074 with 53 significant bits. |
| C153 | If no sum loses its weight, distances increase strictly along predecessor arcs, hence there is no cycle of them (C62_ends_exact). The counterexample runs the invariant of the search on a graph of four vertices. |
| C154 | A generator expression over nested containers, consumed by a for statement, is modelled as nested loops that compare the size of each container before each item (Model/LazyIter). Additions keep the containers as prefixes of the new ones, removals as sublists; so equal sizes mean equal contents, and the position of the iterator stays right (Proofs/LazyIter, LazyOps, LazyWalk). |
| C155 | The functions given by the caller are methods of an abstract world (Model/HeapCalls, Model/BKTreeCalls). Bounds by induction on the position in the heap; for the constructor, the sum of the heights; for BK-trees, the nodes visited are distinct since each has one parent, less than itself. |
| C156 | Each step of the algorithms of heapq is a swap, so the entries are permuted; counterexamples by computation. A BK-tree is changed only after the last call to the distance. |
| C157 | Model/ThompsonStore: the functions on addresses in a store of Nfa objects. Simulation: distinct references on the stack, each holding the value of the construction on values; frame: objects outside the stack are unchanged. Same object twice: first turn of the loop computed, then the size check fails. |
| C158 | Model/DynSearch: the searches with the graph read in the state of the visitor. Lockstep simulation by the searches on a fixed graph, under an invariant kept by the visitor; the visitor of graph_copy keeps the out-edges of the old vertices, then C146 applies. |
| C159 | In-place products: lockstep simulation with the product into another automaton, under an invariant that separates old and new states. |
| C160 | Lockstep with the fusion of two tries, with the invariant that the trie is unchanged and the queue holds pairs of equal states. |
| C161 | The loops of C154 over the dictionaries of an Automaton, with the orders 'states and labels were added, targets other than 0 are unchanged' and 'states and transitions were removed'. |
| C162 | As C161, for the dictionary held by the iterator, which is adjacencies[q] until remove_vertex(q) deletes it. |
| C163 | The search with a visitor whose effects are kept is compared with the search of C51 and a visitor that remembers the first exception; the calls before the first back edge. |
| C164 | Lockstep between the loop over the view and the loop over the graph whose body makes no call for the hidden items; C154 for the latter. |
| C165 | remove_vertex statement by statement in the monad that keeps the state left behind by an exception; numbers of the transitions after a sequence of remove_edge (C80). |
| C166 | Three nested loops over the keys of dictionaries, through the layout (keys at each level) of the automaton, which grows or shrinks; generic lemmas of C154 for loops over containers. |
| C167 | A model of Nfa in which the sets of numbers are objects in a heap; a simulation of the model with values, and an invariant: no two transitions refer to the same set, references are never reused. |
| C168 | Minimality stated against all automata with the same language; from the quotient computed by hopcroft_minimize (C39) and a counting argument. |
| C169 | Visitors as objects (`PyM`); the calls as a list, from the big-step description of breadth-first search (C48); tree edges precede the discovery of their target, and those of a shortest path to t precede the discovery of t. |
| C170 | The visitors and their lists as numbered objects; what each visitor received by induction on the calls; searches from C163 and C169. |
| C171 | The two visitors called in turn; by induction on the calls, from C142 and C149. Counterexample by evaluation on a graph with positive weights. |
| C172 | Model/PbfsObjects: the calls as methods that read the colours, exceptions carrying the visitor and the colours. The calls of a run determine the colours (paint); simulation of the loop by induction on the run, for any initial colours. |
| C173 | The pairs examined, each with the length of the word by which it was reached: lengths never decrease along the queue, by induction on the runs of C172; every word that leads to a pair bounds the length of an occurrence of it. The bound on the length: a longer word goes twice through the same pair, states that are not vertices counting as undefined, and can be cut. |

## Trusted base

* Lean 4.33.0 kernel; Mathlib definitions used in statements (lists, finite sets, orders).
* Axioms: at most `propext`, `Classical.choice`, `Quot.sound`. No axioms are added, there is no `sorry`,
  `admit`, `native_decide` or `bv_decide`.
* The reading of the Python source: nothing is executed here, so the correspondence between
  `/repo` and `Verif/Model` rests on the citations and on review.
* CPython semantics of `dict`, `set`, `deque`, `heapq`, generators, as described above.

* Regular expressions of the `re` module are not modelled in general. `matchAt` in `Model/RegexText.lean` is a direct
  scanner for the single pattern used by `tokenizer_re`; the character classes `\d` and `\s` of `re` are a parameter
  (`ReClasses`) with stated laws. The other tokenizers (`tokenizer_alg`, HTML tags) enter as the list of match spans.
* CPython's limit on the length of `int()` arguments, surrogate characters, and one-shot iterators passed as
  `whole_alphabet` are not modelled.

## Where the code departs from what its users expect

Each item is proved on the model (a `..._counterexample` theorem, or a theorem describing the actual behaviour) unless it is
marked (read), in which case it was only seen while reading the source.

* `Automaton.add_edge` tests states by truthiness: state 0 is mistaken for "no state" (C11).
* `IncidenceAutomaton` keeps a stale in-adjacency after such an overwrite (C13).
* `hopcroft_minimize` raises `TypeError` or adds a state in corner cases (C40).
* `revuz_height` does not end on cyclic graphs (C41); `revuz_minimize` may merge the initial state away (C42, C92).
* `deterministic_intersection` and `deterministic_union` are wrong on some inputs (C46, C47).
* `make_shortest_path` may turn for ever around a cycle of weight 0 (C62).
* `prune_incidence_automaton` keeps useless states when there is no final state (C43).
* `NodeAutomaton` and `IncidenceNodeAutomaton` labels and predecessors (C21, C22).
* `make_node_automaton` looks final names up by their position (C88); `NodeAutomaton.accepts` raises `KeyError` when the
  initial state does not exist, and `alphabet` leaves out the symbol of the initial state (C89).
* `breadth_first_search(vis=None)` raises `AttributeError` (C50).
* Thompson's `?`, `{0}` and `{0,n}` change the language when the final state has outgoing arcs (C32-C34).
* `a*{2}` is read as `(a{2})*` (C85); `a(|b` is accepted (C86); `[\D]` ignores the alphabet (C82).
* `+3` raises `ValueError` (C36); `2 ^ -3` raises `IndexError` (C87).
* `GraphView.__sub__` (C10), `ClosedPlus`/`ClosedTime` associativity (C66), the triangle inequality of
  `damerau_levenshtein_distance` (C71).
* `read_graphviz` does not read the edges of undirected graphs, and fails on edges towards missing vertices (C90);
  `enrich_kwargs` changes the dictionary of its caller (C91).
* `automaton_insert_string` on an automaton without state turns the first symbol into a loop (C93); `automaton_copy` with its
  default arguments always raises `TypeError`, and does not copy the final states by itself (C94).
* `GraphDp.to_json` does not escape quotation marks (C95).
* In an `UndirectedGraph`, `out_edges` yields other descriptors than `edges()`: weights given to the latter are not found by
  Dijkstra's algorithm (C97), and `graph_copy` copies each edge twice (C98).
* `Ast.to_expr` (shunting_yard_postfix.py:572-596) tests `if self.root` the wrong way round and indexes a generator: on the trees of `shunting_yard_ast` it raises `KeyError` when `root` is unset and `RuntimeError` when it is set and the expression has an operator; with unary operators it raises `TypeError` (C100)
* write_graphviz with its default format svg never succeeds: run_graphviz returns a str, str has no method decode, and AttributeError is raised after open(filename, "w") has emptied the file (C109).
* dot_to_svg returns the last character of the output when it does not contain <svg (C109).
* GraphDp.to_dot raises AttributeError when an extra style is given or found in the global style: a list has no method items (C110).
* A background colour containing % breaks the displays in notebooks (C111).
* to_dot of an automaton does not show the initial state, and to_dot of a node automaton shows a state of symbol '^' like the initial state (C108).
* `Trie.num_edges()` is computed as `num_vertices() - 1`: it is wrong after `remove_edge`, `add_vertex` or `add_edge` (C15, example).
* `UndirectedGraph.add_edge(u, v)` and `IncidenceGraph.add_edge(u, v)` raise `KeyError` after having added the edge to the adjacency of the first end when the other end does not exist: `num_edges()` counts it and `clear()` raises from then on. `DirectedGraph.remove_vertex` of a missing vertex removes the edges towards it before raising (C112, proved).
* `clear()` on an automaton keeps its initial state, final flags and node symbols: states created afterwards inherit them (C113).
* On an IncidenceAutomaton, `add_edge` towards a missing state raises KeyError but adds the transition, after which neither `remove_vertex` nor `clear` works; `remove_edge` of an absent edge raises KeyError but removes another transition (C114).
* moore_determination(nfa, dfa) into an automaton emptied by remove_vertex or clear() may give a wrong automaton: the initial state is not set, and final flags are not reset (C115).
* DigitalSequence.set_initial and set_final are declared without the state argument, so the documented call raises TypeError instead of the intended RuntimeError("A string is immutable") (C118).
* a*{2} is read as (a{2})*, a?{2} as (a{2})?, since {m,n} is not in the table of operators and is sent to the output at once (C119, counterexample in C85).
* With damerau_levenshtein_distance, which is accepted as a BKTree distance, search can return None although an element is within d_max: make_bk_tree(["aab", "bbca"], damerau_levenshtein_distance).search("bba", 1) is None and the distance of "bbca" is 1 (C122).
* GraphView.to_dot(vs=...) still draws the edges towards vertices that are not in vs, so that Graphviz shows these vertices (C123).
* make_shortest_paths_dag can return a cyclic set of arcs when some weights are 0, although its name promises a DAG (C126).
* html_color_to_graphviz drops the last character of an hsl text that has no closing parenthesis, and raises ValueError on the other notations of CSS such as hsl(173.5, 71%, 56%) or hsla(...) with a fractional alpha (C127).
* Nfa(n, initials=s) keeps the set s without copying it: set_initial on the Nfa changes the set of the caller and every other Nfa built from it (C128).
* A transition labelled by U+0085, U+2028 or U+2029 is drawn by to_dot on a line that read_graphviz cuts in two; the transition is silently dropped (C129).
* An unescaped dot in a regular expression always raises an IndexError: it is taken for the concatenation operator that the tokenizer itself inserts (C131).
* shunting_yard_compute("(1)(2)+") returns 3.0 and shunting_yard_compute("(") returns the string "(": operands may follow each other, and an unclosed parenthesis is an operand (C132).
* shunting_yard_compute(..., tokenize=False) always raises UnboundLocalError: `output` is only assigned if tokenize is true. Not modelled.
* `Nfa.remove_edge` leaves the symbol of the removed transition in `alphabet()` and `sigma(q)`: `moore_determination(complete=False)` then creates a useless sink state for it (C133).
* `Nfa.add_edge` from an unknown state does not move the counter of `add_vertex`, which later returns this state again and erases its transitions (C134).
* `Nfa.edge(q, r)` raises `TypeError: unhashable type` whenever a transition from `q` to `r` exists (C134); the method `Nfa.initials()` is hidden by the attribute of the same name.
* `read_graphviz_dp` always raises `TypeError`: `ReadGraphvizDpVisitor.__init__` calls `super().__init__(g)`, but `ReadGraphvizVisitor.__init__` takes no argument (C135).
* The colours left by `dijkstra_shortest_paths` must not be given to another call: only the colour of the source is reset (line 126), so the second search stops at the first arcs and leaves wrong distances without an error (C136, example). The maps of distances and predecessors may be reused, except that old predecessors of the source are kept (C137).
* With a negative cycle, dijkstra_shortest_path does not end, although dijkstra_shortest_paths does (C140_negative_cycle).
* deterministic_union(g1, g2, g12) returns g12 with its old language when no transition leaves the initial states of g1 and g2 (C141_reused). (read) When vis is given without g12, both functions return a new empty automaton: the result is only in vis.g12.
* After reverse_graph, IncidenceGraph.add_edge(u, v) adds an edge from v to u (C143).
* After reverse_graph, IncidenceAutomaton.remove_edge(e) raises KeyError or removes a transition of the target of e, never e itself unless it is a loop; remove_vertex(q) raises KeyError or RuntimeError, or leaves the transitions to q (C143).
* After reverse_graph, UndirectedGraph.out_edges and in_edges call each other for ever, and remove_edge raises KeyError (C143).
* gv.has_vertex(), gv.has_edge() and gv.edge(u, v) of a GraphView ignore the relevance maps (C144).
* thompson_compile_nfa(re_escape(s)) raises IndexError when s holds ^, $ or a backslash: re_escape escapes these characters, but the tokenizer of regular expressions does not know the sequences (C145).
* `levenshtein_distance`, `lcs_distance` and `damerau_levenshtein_distance` raise `RecursionError` on two words that are both longer than what is left of Python's limit of recursion (C151).
* With positive floats, `make_shortest_path` may not end: if the weight of a cycle is lost when it is added to the distance of its vertices, as for `2.0 ** 54 + 1.0`, the cycle is made of predecessor arcs (C153).
* `vertices()`, `edges()`, `out_edges()` and `in_edges()` are lazy: a loop that removes the edges it iterates on raises `RuntimeError` after the first one; but a loop that adds edges elsewhere is not detected, and delivers the new edges or not, depending on their source (C154).
* If a comparison raises during `Heap.push`, the element stays in the heap (maybe out of order) and `index` is not incremented, so that a later element gets the same index and equal keys lead to comparing the elements themselves; if it raises during `Heap.pop`, the least element is lost (C156).
* concatenation(nfa, q0, f, nfa, q0, f) and alternation of an automaton with itself raise RuntimeError (dictionary changed size during iteration) and leave the automaton with a stray state (C157).
* Visitors that remove edges of the graph being searched make depth_first_search raise IndexError and breadth_first_search raise RuntimeError (C158).
* `deterministic_union(g1, g2, g1)` can differ from `deterministic_union(g1, g2, g12)` with `g12` a copy of `g1`: the first reads the initial state of `g1` after having moved it (C159_union_counterexample).
* A loop over out_edges(q) of an IncidenceAutomaton whose body removes q does not raise: it goes on and delivers transitions that are no longer in the automaton (C162).
* topological_sort(g, stack) ignores an empty deque: stack stays empty and a new deque is returned, although the documentation says that stack is updated in place (C163).
* `Nfa.remove_vertex(u)` where `u` is not a state but the target of transitions raises `KeyError` after having removed these transitions (C165).
* The descriptors yielded by `Nfa.edges()` and `Nfa.out_edges()` hold the set of numbers of the automaton itself: a later `add_edge` changes descriptors obtained before (C167).
* `is_minimal(g)` returns `NotImplementedError()` instead of raising it: `if is_minimal(g)` is always taken (C168).
* (read) `automaton_insert_string` returns `None`, although the reached state is documented (method and function).
* `breadth_first_search_graph(g)`, with the default `sources=None`, raises `TypeError` (C169); `depth_first_search_graph(g)` starts from every vertex instead.
* `AggregatedVisitor(l)` follows later changes of `l` if `l` is not empty, and ignores them if it is empty (C170).
* (read) `AggregatedVisitor` drops keyword arguments and what the methods return.
* `dijkstra_shortest_path` with a visitor that raises `DijkstraStopException` itself, e.g. `DijkstraTowardsVisitor(u)`, returns a path that is not shortest, or raises `IndexError` (C171).
* (read) `dijkstra_shortest_path` ignores a visitor that is false as a Boolean, e.g. one with `__len__` 0 (`if vis`).
* `parallel_breadth_first_search` does not colour its sources: a pair of sources is white when it is examined, and if it lies on a cycle of length one it is discovered and examined again (C172).
* (read) line boundaries U+0085, U+2028 and U+2029 are not escaped in labels; attributes other than labels are not escaped;
  `to_dot(dpv=None)` on an `Automaton` and `GraphDp.to_dot` with a non-empty list
  `extra_style` raise `AttributeError`.
* (read) `Ast.to_expr`, `ReadGraphvizDpVisitor` and `GraphDp.get_dpe` use names that do not exist;
  `Graph.in_edges` returns `NotImplementedError` instead of raising it;
  `parallel_breadth_first_search` passes the second graph twice to `finish_vertex`.

### Not modelled

`ipynb.py`, `html.py` (rendering), the subprocess call to `dot`, floating point (except for the weights of Dijkstra's search, C152 and C153, where overflow, infinities and NaN are left out), docstrings, `singleton.py`
(metaclass), CPython recursion limits (except for the edit distances, C151) and memory limits, performance (except for the number of calls in C151).
