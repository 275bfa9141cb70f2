#!/usr/bin/env python3
"""Generates /verif/properties.jsonl (one JSON object per line)."""
import json, os
P = []
def p(title, statement, quantifier, why, anchors):
    P.append(dict(id="C%02d" % (len(P) + 1), title=title, statement=statement,
                  quantifier=quantifier, why_tests_cant=why, anchors=anchors))
S = "src/pybgl/"
HIST = "Depends on the whole history of mutations; tests exercise a handful of fixed histories."
ALLG = "Ranges over every finite graph (all sizes, cycles, parallel edges, self loops) and every out-edge order; tests run a few fixed graphs."
ALLW = "Ranges over infinitely many words and automata; tests try a few literals."

# --- graph containers -------------------------------------------------------
p("Vertex descriptors are fresh",
  "add_vertex() returns a descriptor that is not currently in vertices() and that was never returned before by the same graph since its creation (or its last clear()), whatever mix of add/remove operations happened in between.",
  "all histories of add_vertex/remove_vertex/add_edge/remove_edge calls on a DirectedGraph", HIST,
  [S+"graph.py:Graph.add_vertex", S+"graph.py:Graph.remove_vertex"])
p("DirectedGraph is a multigraph with distinguishable parallel edges",
  "After any history of successful calls, edges() yields exactly the descriptors returned by add_edge and not removed since (by remove_edge or by removal of an endpoint), each exactly once; vertices() yields exactly the vertices added and not removed; a descriptor returned by add_edge is never already in the graph.",
  "all histories of operations on a DirectedGraph", HIST,
  [S+"graph.py:Graph.add_edge", S+"graph.py:Graph.remove_edge", S+"graph.py:Graph.edges"])
p("remove_vertex removes exactly the incident edges",
  "remove_vertex(u) on an existing vertex removes u and every edge whose source or target is u, and leaves every other vertex and edge untouched; on an absent vertex it raises KeyError.",
  "all reachable directed graphs and all vertices", HIST,
  [S+"graph.py:Graph.remove_vertex"])
p("out_edges, edges and degrees agree",
  "In every reachable directed graph, out_edges(u) yields exactly the edges of edges() whose source is u, without repetition, and num_edges() is the sum of out_degree(u) over the vertices.",
  "all reachable directed graphs, all u", HIST,
  [S+"graph.py:Graph.out_edges", S+"graph.py:Graph.out_degree", S+"graph.py:Graph.num_edges"])
p("edge(u, v) finds the edge iff it is unique",
  "edge(u, v) returns (e, True) with e an edge from u to v iff exactly one edge links u to v; otherwise it returns (None, False).",
  "all reachable directed graphs, all u and v", HIST,
  [S+"graph.py:Graph.edge"])
p("UndirectedGraph is symmetric",
  "In every reachable undirected graph, (u, v, n) is in out_edges(u) iff (v, u, n) is in out_edges(v); in_edges(u) = out_edges(u); and edges() lists each undirected edge exactly once, with source <= target.",
  "all histories of successful operations on an UndirectedGraph", HIST,
  [S+"graph.py:UndirectedGraph.add_edge", S+"graph.py:UndirectedGraph.remove_edge", S+"graph.py:UndirectedGraph.edges"])
p("UndirectedGraph mutations are exact",
  "add_edge(u, v) adds exactly one new undirected edge; remove_edge(e), called with the descriptor seen from either endpoint, removes exactly that edge; remove_vertex(u) removes exactly the edges incident to u; none of them raises on existing arguments.",
  "all reachable undirected graphs, all existing vertices and edges", HIST,
  [S+"graph.py:UndirectedGraph.add_edge", S+"graph.py:UndirectedGraph.remove_edge", S+"graph.py:Graph.remove_vertex"])
p("IncidenceGraph in-edges mirror out-edges",
  "In every reachable IncidenceGraph, in_edges(v) yields exactly the edges of edges() whose target is v, without repetition, and the sums of in-degrees and of out-degrees both equal num_edges().",
  "all histories of successful operations on an IncidenceGraph", HIST,
  [S+"incidence_graph.py:IncidenceGraph"])
p("reverse_graph is an involution that transposes the graph",
  "After reverse_graph(g), for every vertex u the out-edges of u are the former in-edges of u and source/target are exchanged; calling it twice restores the graph.",
  "all incidence graphs and vertices", "Universally quantified over graphs and vertices.",
  [S+"reverse.py:reverse_graph"])
p("GraphView shows exactly the induced relevant subgraph",
  "A GraphView lists exactly the relevant vertices, and exactly the relevant edges both of whose endpoints are relevant, consistently across vertices(), edges(), out_edges(), in_edges() and the degree/count methods; | and & are union and intersection of the relevance predicates; an edge shown by gv1 - gv2 is always shown by gv1.",
  "all graphs, all relevance predicates, all edges", "Universally quantified over predicates; the shipped test uses one graph and a few thresholds.",
  [S+"graph_view.py:GraphView"])
# --- automata ----------------------------------------------------------------
p("Automaton.add_edge never overwrites a transition",
  "If a transition labelled a already leaves q, add_edge(q, r, a) returns (None, False) and leaves the automaton unchanged; otherwise it adds exactly that transition and returns (e, True).",
  "all automata, states and symbols", "Must hold for every state numbering, including target state 0.",
  [S+"automaton.py:Automaton.add_edge", S+"automaton.py:Automaton.delta"])
p("accepts(w) means: the w-labelled path from the initial state ends in a final state",
  "Automaton.accepts(w) is True iff some sequence of transitions labelled by the symbols of w leads from the initial state to a final state; delta_word(q, uv) = delta_word(delta_word(q, u), v); at most one such path exists.",
  "all automata and words", ALLW,
  [S+"automaton.py:Automaton.accepts", S+"automaton.py:Automaton.delta_word"])
p("IncidenceAutomaton in-edges mirror out-edges",
  "After any history of operations, in_edges(r) of an IncidenceAutomaton yields exactly the transitions of edges() whose target is r.",
  "all histories of operations on an IncidenceAutomaton", HIST,
  [S+"incidence_automaton.py:IncidenceAutomaton"])
p("Inserting a word into a trie adds exactly that word",
  "On a trie, insert(w) terminates and afterwards the trie accepts a word x iff it accepted x before or x = w; inserting again changes nothing.",
  "all tries reachable by insertions, all words", ALLW,
  [S+"trie.py:Trie.insert", S+"automaton.py:Automaton.automaton_insert_string"])
p("A trie accepts exactly the inserted words, with one state per prefix",
  "After inserting any list of words into a new Trie, the trie accepts exactly those words; distinct states are reached by distinct words, the reachable states are exactly the prefixes of inserted words, and num_edges() = num_vertices() - 1 is the true number of edges.",
  "all finite lists of words", ALLW,
  [S+"trie.py:Trie", S+"automaton.py:Automaton.automaton_insert_string"])
p("trie_deterministic_fusion computes the union",
  "After fusing a trie g2 into a trie g1, g1 accepts exactly the words accepted by g1 or by g2 before the fusion, and g2 is unchanged.",
  "all pairs of tries, all symbol iteration orders", ALLW,
  [S+"trie.py:trie_deterministic_fusion", S+"trie.py:TrieDeterministicFusion"])
p("make_suffix_trie recognises exactly the bounded factors",
  "make_suffix_trie(w, max_len) accepts x iff x is a contiguous factor of w and (when max_len is truthy) len(x) <= max_len.",
  "all words w, all bounds, all x", ALLW,
  [S+"suffix_trie.py:make_suffix_trie"])
p("factors enumerates exactly the bounded factors",
  "x occurs in factors(s, max_len) iff x is empty or x is a non-empty contiguous factor of s of length at most max_len (when max_len is truthy); slices(n) yields each pair (i, j) with 0 <= i < j <= n exactly once plus (0, 0).",
  "all words, lengths and bounds", ALLW,
  [S+"suffix_trie.py:slices", S+"suffix_trie.py:factors"])
p("DigitalSequence(w) accepts exactly w",
  "DigitalSequence(w).accepts(x) iff x = w; its states are 0..len(w), its edges spell w, and out_edges/in_edges agree with edges().",
  "all words w and x", ALLW, [S+"digital_sequence.py:DigitalSequence"])
p("trie_matching counts prefixes exactly",
  "trie_matching(g1, g2) returns counters c with c[3] = number of words accepted by both tries, c[1] = accepted only by g1, c[2] = accepted only by g2, and c[0] = number of prefixes known to g1 or g2 but accepted by neither.",
  "all pairs of tries, all symbol iteration orders", ALLW,
  [S+"trie_matching.py:trie_matching"])
p("NodeAutomaton is deterministic and label-consistent",
  "In every reachable NodeAutomaton, two distinct successors of a state never carry the same symbol, every transition is labelled by the symbol of its target, and add_edge(q, r) fails (returning (None, False), changing nothing) iff q already has a successor carrying the symbol of r.",
  "all histories of operations on a NodeAutomaton", HIST,
  [S+"node_automaton.py:NodeAutomaton"])
p("IncidenceNodeAutomaton predecessors mirror the transitions",
  "After any history of successful operations, in_edges(r) yields exactly the transitions of edges() whose target is r; remove_vertex leaves no transition from or to the removed state.",
  "all histories of operations on an IncidenceNodeAutomaton", HIST,
  [S+"incidence_node_automaton.py:IncidenceNodeAutomaton"])
p("make_automaton builds the automaton it is given",
  "make_automaton(transitions, q0, pmap_vfinal) yields an automaton accepting w iff there is a path labelled w in the transition list from q0 to a final name, provided no two listed transitions share source and symbol; the automaton has one state per name and one transition per listed transition. make_incidence_automaton yields the same automaton, with in_edges mirroring the transitions.",
  "all deterministic transition lists, all words", ALLW,
  [S+"automaton.py:make_automaton", S+"incidence_automaton.py:make_incidence_automaton"])
p("is_complete and alphabet are exact",
  "alphabet() is the set of symbols labelling some transition, sigma(q) the set of symbols labelling a transition leaving q, edge(q, r, a) returns that transition and True iff the automaton has it, and is_complete() is True iff delta(q, a) is defined for every state q and every symbol a of the alphabet.",
  "all automata", ALLW, [S+"automaton.py:Automaton.is_complete", S+"automaton.py:Automaton.sigma", S+"automaton.py:Automaton.alphabet", S+"automaton.py:Automaton.edge"])
# --- nfa ---------------------------------------------------------------------
p("delta_epsilon computes the epsilon closure and terminates",
  "Nfa.delta_epsilon(qs) terminates on every NFA (including epsilon cycles) and returns exactly the states reachable from qs through epsilon transitions.",
  "all NFAs and state sets", ALLG, [S+"nfa.py:Nfa.delta_epsilon", S+"nfa.py:Nfa.delta_one_step"])
p("Nfa.accepts(w) iff an accepting run exists",
  "For every word w not containing the epsilon symbol, Nfa.accepts(w) is True iff there is a path from an initial state to a final state whose labels, epsilons erased, spell w.",
  "all NFAs and all words", ALLW, [S+"nfa.py:Nfa.accepts", S+"nfa.py:Nfa.delta_word", S+"nfa.py:Nfa.delta"])
p("moore_determination preserves the language",
  "moore_determination(nfa, complete=c) terminates and returns a DFA that accepts w iff nfa accepts w, for c True or False, whatever the order in which Python sets are iterated and popped.",
  "all NFAs, all words, all set iteration orders", ALLW, [S+"moore_determination.py:moore_determination"])
p("moore_determination builds one state per reachable subset, and a complete DFA on demand",
  "The states of the resulting DFA correspond one-to-one with the subsets of NFA states reachable in the subset construction; with complete=True every state has a transition for every symbol of the NFA's alphabet.",
  "all NFAs, all set iteration orders", ALLW, [S+"moore_determination.py:moore_determination"])
p("Thompson literal and bracket automata",
  "literal(a) accepts exactly the one-symbol word a; bracket(chars) accepts exactly the one-symbol words drawn from chars.",
  "all symbols and character sets, all words", ALLW, [S+"thompson_compile_nfa.py:literal", S+"thompson_compile_nfa.py:bracket"])
p("Thompson concatenation and alternation",
  "concatenation(nfa1, ..., nfa2, ...) recognises the concatenation and alternation(...) the union of the two languages, the result again having one initial and one final state.",
  "all single-initial single-final NFAs, all words", ALLW, [S+"thompson_compile_nfa.py:concatenation", S+"thompson_compile_nfa.py:alternation", S+"thompson_compile_nfa.py:insert_automaton"])
p("Thompson star and plus",
  "zero_or_more(nfa) recognises the Kleene star, one_or_more(nfa) the Kleene plus of the language.",
  "all single-initial single-final NFAs, all words", ALLW, [S+"thompson_compile_nfa.py:zero_or_more", S+"thompson_compile_nfa.py:one_or_more"])
p("Thompson zero_or_one",
  "zero_or_one(nfa) recognises exactly the language of nfa plus the empty word.",
  "all single-initial single-final NFAs produced by the library, all words", ALLW, [S+"thompson_compile_nfa.py:zero_or_one"])
p("Thompson bounded repetitions",
  "repetition(nfa, m) recognises L^m and repetition_range(nfa, m, n) recognises the union of L^k for m <= k <= n (k >= m when n is None).",
  "all single-initial single-final NFAs produced by the library, all bounds, all words", ALLW, [S+"thompson_compile_nfa.py:repetition", S+"thompson_compile_nfa.py:repetition_range"])
p("Regular expressions compile to their language",
  "Evaluating a postfix regular expression made of literals, character sets, concatenation, alternation, star, plus, optional and repetition operators yields an NFA (and, through moore_determination, a DFA) accepting exactly the language of the expression.",
  "all regular expressions and all words", ALLW, [S+"thompson_compile_nfa.py:thompson_compile_nfa", S+"regexp.py:compile_nfa", S+"regexp.py:compile_dfa"])
p("shunting_yard_postfix inverts infix printing",
  "For every expression tree over binary operators with arbitrary precedences and associativities, printing it in infix form with parentheses (all of them, or only where precedence and associativity require) and running shunting_yard_postfix returns the postfix form of the tree.",
  "all expression trees, all operator tables", "Unbounded nesting of precedences, associativities and parentheses.",
  [S+"shunting_yard_postfix.py:shunting_yard_postfix"])
p("RPN evaluation rebuilds the tree",
  "Feeding the postfix form of an expression tree to the RPN deque computes the value of the tree (shunting_yard_compute) and builds the AST of the tree (shunting_yard_ast), leaving exactly one item on the deque.",
  "all expression trees", "Unbounded tree depth.", [S+"shunting_yard_postfix.py:RpnDequeOperation", S+"shunting_yard_postfix.py:RpnDequeAlg", S+"shunting_yard_postfix.py:RpnDequeAst"])
p("tokenize is lossless",
  "The chunks passed to on_matched and on_unmatched, in order, concatenate to the input string, are non-empty, and carry their true position; matched chunks are the non-empty matches of the tokenizer.",
  "all strings and all match sequences of the tokenizer", "Ranges over all strings and all regular-expression match sequences.", [S+"tokenize.py:tokenize"])
# --- minimisation ------------------------------------------------------------
p("hopcroft_minimize preserves the language",
  "When it returns, hopcroft_minimize(g) returns a deterministic automaton accepting exactly the words accepted by g, whatever the set iteration order; it terminates for every automaton having at least one final and one non-final state.",
  "all incidence automata whose in-edges mirror their transitions (C13), all words, all set iteration orders", ALLW, [S+"hopcroft_minimize.py:hopcroft_minimize", S+"hopcroft_minimize.py:hopcroft_agglomerate_states"])
p("hopcroft_minimize merges exactly the equivalent states",
  "Two states of g end in the same aggregate iff no word distinguishes them (same definedness and finality of delta_word along every word); on a complete automaton this is equality of right languages, so the result has the minimum number of states among reachable-equivalent automata.",
  "all incidence automata with consistent in-edges (C13), an initial state, a final and a non-final state; all set iteration orders", ALLW, [S+"hopcroft_minimize.py:hopcroft_agglomerate_states"])
p("hopcroft_minimize succeeds on every non-empty automaton",
  "hopcroft_minimize(g) returns normally, without an extra isolated state, for every non-empty automaton, including those whose states are all final or all non-final.",
  "all incidence automata", ALLW, [S+"hopcroft_minimize.py:hopcroft_agglomerate_states"])
p("revuz_height is the longest distance to a leaf",
  "On an acyclic automaton revuz_height terminates, maps every state to the length of the longest path from it to a leaf, and returns the maximum of these heights.",
  "all acyclic automata", ALLG, [S+"revuz_minimize.py:revuz_height"])
p("revuz_minimize preserves the language and merges all equivalent states",
  "On an acyclic deterministic automaton, revuz_minimize terminates, leaves the accepted language unchanged, and afterwards no two distinct remaining states have the same finality and the same labelled successors.",
  "all acyclic incidence automata, all words, all set iteration orders", ALLW, [S+"revuz_minimize.py:revuz_minimize"])
p("prune_incidence_automaton keeps exactly the useful states",
  "prune_incidence_automaton(g) preserves the language and keeps exactly the states that are reachable from the initial state and from which a final state is reachable.",
  "all incidence automata, all words", ALLW, [S+"prune_incidence_automaton.py:prune_incidence_automaton", S+"prune_incidence_automaton.py:find_reachable_vertices"])
# --- products ----------------------------------------------------------------
p("parallel_breadth_first_search visits exactly the jointly reachable pairs",
  "Without if_push, parallel_breadth_first_search terminates and examines exactly the pairs (delta*(q01, w), delta*(q02, w)) for the words w along which at least one side stays defined.",
  "all pairs of automata, all symbol iteration orders", ALLW, [S+"parallel_breadth_first_search.py:parallel_breadth_first_search"])
p("deterministic_inclusion decides language inclusion",
  "deterministic_inclusion(g1, g2) terminates and returns 0 iff L(g1) = L(g2), 1 iff L(g1) is strictly included in L(g2), -1 iff L(g2) is strictly included in L(g1), None iff the languages are incomparable.",
  "all pairs of automata, all symbol iteration orders", ALLW, [S+"deterministic_inclusion.py:deterministic_inclusion"])
p("deterministic_intersection recognises the intersection",
  "deterministic_intersection(g1, g2) returns an automaton accepting w iff both g1 and g2 accept w.",
  "all pairs of automata, all words", ALLW, [S+"deterministic_intersection.py:deterministic_intersection", S+"product_mixin.py:ProductMixin"])
p("deterministic_union recognises the union",
  "deterministic_union(g1, g2) returns an automaton accepting w iff g1 or g2 accepts w.",
  "all pairs of automata, all words", ALLW, [S+"deterministic_union.py:deterministic_union", S+"product_mixin.py:ProductMixin"])
# --- traversals --------------------------------------------------------------
p("breadth_first_search visits each reachable vertex exactly once",
  "BFS from s terminates, discovers, examines and finishes each vertex reachable from s exactly once (discovery before examination before finish), and touches no other vertex; every out-edge of a reachable vertex is examined exactly once.",
  "all finite graphs, sources and out-edge orders", ALLG, [S+"breadth_first_search.py:breadth_first_search_graph"])
p("breadth_first_search discovers vertices by increasing distance",
  "Vertices are discovered in order of non-decreasing number of hops from the sources, and the tree edges give each vertex a shortest (fewest hops) path.",
  "all finite graphs, sources and out-edge orders", ALLG, [S+"breadth_first_search.py:breadth_first_search_graph"])
p("breadth_first_search works without a visitor",
  "breadth_first_search(s, g) may be called with the default vis=None, as its signature advertises, on any graph.",
  "all graphs", "Universally quantified; the test-suite always passes a visitor.", [S+"breadth_first_search.py:breadth_first_search"])
p("depth_first_search visits each reachable vertex exactly once",
  "DFS from s terminates, discovers and finishes each vertex reachable from s (through pushed edges) exactly once, touches no other vertex, and examines every pushed out-edge of every reachable vertex exactly once.",
  "all finite graphs, sources, filters and out-edge orders", ALLG, [S+"depth_first_search.py:depth_first_search"])
p("depth_first_search nests discover/finish intervals",
  "Between discover(u) and finish(u) the events form a balanced nesting: discovery/finish intervals of any two vertices are disjoint or nested, and a vertex is discovered inside u's interval only if it is reachable from u.",
  "all finite graphs, sources and out-edge orders", ALLG, [S+"depth_first_search.py:depth_first_search"])
p("depth_first_search classifies edges soundly",
  "back_edge(e) is reported iff the target of e is an ancestor still being explored (so e closes a cycle); on normal termination every examined edge was reported exactly once as tree, back or forward/cross edge.",
  "all finite graphs, sources and out-edge orders", ALLG, [S+"depth_first_search.py:depth_first_search"])
p("topological_sort sorts every DAG and rejects every cyclic graph",
  "topological_sort(g) terminates; it returns a permutation of the vertices in which the source of each edge precedes its target if g is acyclic, and raises RuntimeError iff g has a cycle.",
  "all finite directed graphs", ALLG, [S+"topological_sort.py:topological_sort"])
p("strong_components partitions the graph into its strongly connected components",
  "strong_components(g, pmap) terminates, gives two vertices the same component id iff each is reachable from the other, uses exactly the ids 0..total-1, and for every edge (u, v) id(u) >= id(v).",
  "all finite directed graphs and out-edge orders", ALLG, [S+"strong_components.py:strong_components", S+"strong_components.py:TarjanVisitor"])
p("cut returns a vertex cut",
  "cut(s, g, in_cut) returns exactly the targets of the in_cut edges leaving a vertex reachable from s without crossing the edge cut, plus the leaves so reachable; consequently every path from s to a leaf meets the returned set.",
  "all finite graphs, all edge predicates", ALLG, [S+"cut.py:cut"])
p("graph_extract reports exactly the relevant reachable subgraph",
  "graph_extract calls the vertex callback exactly once per vertex reachable from s through relevant edges to relevant targets, and the edge callback exactly once per relevant edge leaving such a vertex.",
  "all finite graphs, relevance predicates", ALLG, [S+"graph_extract.py:graph_extract"])
p("graph_copy produces an isomorphic copy of the reachable relevant subgraph",
  "After graph_copy(s, g, g_dup) into an empty directed graph, pmap_vertices is a bijection between the relevant vertices reachable from s and the vertices of g_dup, and the edges of g_dup are exactly the images of the relevant edges leaving those vertices, with multiplicity.",
  "all finite directed graphs, relevance predicates", ALLG, [S+"graph_copy.py:graph_copy", S+"graph_copy.py:DepthFirstSearchCopyVisitor"])
p("dfs_tree and bfs_tree visit every node of a tree once",
  "On a finite tree both traversals terminate and discover and finish each node exactly once; dfs_tree discovers nodes in a preorder and bfs_tree by non-decreasing depth.",
  "all finite trees and child orders", ALLG, [S+"graph_traversal.py:dfs_tree", S+"graph_traversal.py:bfs_tree"])
# --- shortest paths ----------------------------------------------------------
p("dijkstra_shortest_paths computes exact distances",
  "With non-negative weights (and path weights below infty), dijkstra_shortest_paths terminates with pmap_vdist[v] equal to the minimum weight of a path from s to v, and to infty iff v is unreachable.",
  "all finite graphs, weights, sources, heap tie-breaking orders", ALLG, [S+"dijkstra_shortest_paths.py:dijkstra_shortest_paths"])
p("dijkstra_shortest_paths records all optimal predecessor arcs",
  "Under the same hypotheses, for every reachable v other than s, pmap_vpreds[v] is exactly the set of arcs (u, v) that end some shortest path from s to v.",
  "all finite graphs, weights, sources", ALLG, [S+"dijkstra_shortest_paths.py:dijkstra_shortest_paths_iteration"])
p("dijkstra_shortest_path returns a shortest path",
  "dijkstra_shortest_path(g, s, t, ...) terminates, returns a list of consecutive arcs from s to t of minimum total weight if t is reachable, and None otherwise.",
  "all finite graphs with non-negative weights, all s and t", ALLG, [S+"dijkstra_shortest_paths.py:dijkstra_shortest_path", S+"dijkstra_shortest_paths.py:make_shortest_path"])
p("make_shortest_paths_dag returns the arcs of all shortest paths",
  "make_shortest_paths_dag(g, s, t, pmap_vpreds) terminates and returns exactly the arcs lying on some chain of predecessor arcs ending in t, i.e. the arcs of the shortest paths from s to t; with single_path=True it returns the arcs of one chain.",
  "all predecessor maps over finite graphs", ALLG, [S+"dijkstra_shortest_paths.py:make_shortest_paths_dag"])
p("Dijkstra is correct for any monotone selective algebra",
  "With compare a strict total order and combine monotone and non-improving (e.g. GreaterThan with ClosedMin for widest paths), the computed distance of each reachable vertex is the best combined weight over all paths.",
  "all finite graphs, all such algebras", ALLG, [S+"dijkstra_shortest_paths.py:dijkstra_shortest_paths", S+"algebra.py"])
p("Heap pops elements in order and stably",
  "For any sequence of push and pop, pop returns an element minimal for the key order among those present, ties being broken by insertion order; popping everything yields a stable sort of the contents; len and iteration agree with the contents.",
  "all operation histories, all total preorders", HIST, [S+"heap.py:Heap", S+"heap.py:Comparable"])
p("Closed operators form commutative monoids with an absorbing element",
  "ClosedPlus, ClosedTime, ClosedMax and ClosedMin are commutative, have their absorbing element absorb on both sides, and are associative.",
  "all numbers", "Universally quantified over unbounded integers, including results that hit the absorbing value.", [S+"algebra.py:ClosedOperator", S+"algebra.py:ClosedPlus"])
# --- distances ---------------------------------------------------------------
p("levenshtein_distance is the edit distance",
  "levenshtein_distance(x, y) is the least number of single-character insertions, deletions and substitutions turning x into y; memoization does not change the result and levenshtein_distance_naive agrees.",
  "all pairs of words", ALLW, [S+"levenshtein_distance.py:levenshtein_distance", S+"levenshtein_distance.py:LevenshteinDistance.compute"])
p("levenshtein_distance is a metric",
  "It is 0 iff the words are equal, symmetric, and satisfies the triangle inequality.",
  "all triples of words", ALLW, [S+"levenshtein_distance.py:levenshtein_distance"])
p("lcs_distance is |x| + |y| - 2 |LCS| and is a metric",
  "lcs_distance(x, y) equals len(x) + len(y) minus twice the length of a longest common subsequence, and is a metric.",
  "all pairs and triples of words", ALLW, [S+"lcs_distance.py:lcs_distance"])
p("damerau_levenshtein_distance is the restricted (optimal string alignment) distance",
  "damerau_levenshtein_distance(x, y) is the least cost of an alignment with insertions, deletions, substitutions and transpositions of adjacent characters edited once, it is symmetric, 0 iff x = y, and at most the Levenshtein distance.",
  "all pairs of words", ALLW, [S+"damerau_levenshtein_distance.py:damerau_levenshtein_distance"])
p("damerau_levenshtein_distance satisfies the triangle inequality",
  "d(x, z) <= d(x, y) + d(y, z), as required to use it as a BKTree metric.",
  "all triples of words", ALLW, [S+"damerau_levenshtein_distance.py:damerau_levenshtein_distance", S+"bk_tree.py:BKTree"])
p("BKTree.search returns a nearest element",
  "For a tree built by insertions with a metric distance, search(w, d_max) returns (x, d) with x a stored element at minimum distance d = distance(w, x) from w if that minimum is <= d_max, and None otherwise.",
  "all metrics, all lists of inserted elements, all queries and radii", ALLW, [S+"bk_tree.py:BKTree.search", S+"bk_tree.py:BKTree.insert"])
p("BKTree stores exactly the inserted elements",
  "After inserting a list of elements, the stored elements are exactly the inserted ones, without duplicates, and inserting an element already present returns its node and changes nothing.",
  "all metrics and lists of elements", ALLW, [S+"bk_tree.py:BKTree.insert", S+"bk_tree.py:make_bk_tree"])
# --- misc --------------------------------------------------------------------
p("HSV/HSL conversions are mutually inverse",
  "In exact arithmetic hsl_to_hsv(hsv_to_hsl(h, s, v)) = (h, s, v) for 0 < v <= 1, 0 <= s <= 1, and hsv_to_hsl(hsl_to_hsv(h, s, l)) = (h, s, l) for 0 < l < 1, 0 <= s <= 1.",
  "all colours in the unit cube", "Continuum of inputs.", [S+"color.py:hsv_to_hsl", S+"color.py:hsl_to_hsv"])
p("graphviz_escape_html neutralises reserved characters",
  "Outside the recognised HTML tags, the escaped label contains none of the characters < > [ ] { } nor any control character (code below 32), and distinct characters keep distinct escapes.",
  "all strings and tokenizations", ALLW, [S+"graphviz_impl.py:graphviz_escape_html", S+"graphviz_impl.py:graphviz_escape_char"])
p("AssocPropertyMap behaves as a total map",
  "Reading a key of an AssocPropertyMap returns the last value written at that key, or the default when it was never written, whatever other keys were read or written in between.",
  "all histories of get/put", HIST, [S+"property_map.py:AssocPropertyMap"])
p("AggregatedVisitor forwards every event to every visitor in order",
  "Running a traversal with AggregatedVisitor([v1, ..., vn]) leaves each vi in the state it would have after receiving the whole event sequence alone.",
  "all visitors, all event sequences", HIST, [S+"aggregated_visitor.py:AggregatedVisitor"])
# --- appended while the model grew --------------------------------------------
p("Automaton.remove_vertex and remove_edge remove exactly what they name",
  "On an Automaton, remove_vertex(q) removes q and exactly the transitions from or to q (KeyError if q is unknown) and keeps initial and final states; remove_edge(e) removes exactly the transition leaving e.source labelled like e.",
  "all histories of operations on an Automaton", HIST, [S+"automaton.py:Automaton.remove_edge", S+"graph.py:Graph.remove_vertex"])
p("Counts, emptiness tests and the constructor of DirectedGraph agree with its content",
  "num_vertices(), num_edges() and out_degree(u) are the numbers of live vertices, live edges and live edges leaving u; has_vertex() and has_edge() tell whether there is one; DirectedGraph(n) has exactly the vertices 0..n-1 and no edge.",
  "all histories of operations on a DirectedGraph, all n", "Depends on the whole history of mutations; tests exercise a handful of fixed histories.",
  ["src/pybgl/graph.py:Graph.num_vertices", "src/pybgl/graph.py:Graph.num_edges", "src/pybgl/graph.py:Graph.out_degree", "src/pybgl/graph.py:Graph.has_vertex", "src/pybgl/graph.py:Graph.has_edge", "src/pybgl/graph.py:Graph.__init__"])

p("Parallel transitions of an Nfa are numbered and removed together",
  "Whatever the history of calls, edges() of an Nfa yields exactly one descriptor per transition (q, a, r) added and not removed since, carrying the numbers 1..k of its k parallel copies; add_edge(q, r, a) returns the descriptor numbered k+1; remove_edge removes all the parallel copies; remove_vertex(u) those from or to u.",
  "all histories of operations on an Nfa", HIST, [S+"nfa.py:Nfa.add_edge", S+"nfa.py:Nfa.remove_edge", S+"nfa.py:Nfa.edges", S+"nfa.py:Nfa.out_edges"])
p("tokenizer_alg tells unary operators from binary ones",
  "The tokens found by tokenizer_alg in the written form of an infix expression (unary operators written like binary ones) are the numbers, the unary operators u+ and u-, the binary operators and the parentheses of the expression, in order; shunting_yard_compute then returns the value of the expression.",
  "all infix expressions", "Unbounded nesting of unary and binary operators and parentheses.", [S+"shunting_yard_postfix.py:AlgTokenizeVisitor", S+"shunting_yard_postfix.py:tokenizer_alg"])

p("Character classes and escape sequences of regular expressions denote the expected characters",
  "parse_bracket on a well-formed class [...] or [^...] (characters, ranges, escape sequences) yields exactly the characters of the class, the complement being taken in the given alphabet; parse_escaped yields the characters of \\d, \\D, \\s, \\S, \\w, \\W, \\t, \\n, ... and of an escaped punctuation; a range with its bounds in the wrong order raises ValueError.",
  "all well-formed classes and escapes, all alphabets", ALLW, [S+"thompson_compile_nfa.py:parse_bracket", S+"thompson_compile_nfa.py:parse_escaped"])
p("Repetitions of regular expressions are read as the integers they denote",
  "parse_repetition on {m}, {m,}, {,n} and {m,n}, with optional spaces, returns the bounds (None for a missing upper bound), raises ValueError if n < m, and never returns an upper bound below the lower one.",
  "all digit strings of any length", ALLW, [S+"thompson_compile_nfa.py:parse_repetition"])
p("tokenizer_re loses no character and makes concatenation explicit",
  "The tokens of tokenizer_re(s) without the inserted concatenation operators concatenate to s; on the text of a regular expression they are its characters, classes, escapes, repetitions, operators and parentheses, with one concatenation operator wherever two factors are juxtaposed and nowhere else.",
  "all strings; all regular expressions", ALLW, [S+"shunting_yard_postfix.py:tokenizer_re", S+"shunting_yard_postfix.py:CatifyTokenizeVisitor"])
p("thompson_compile_nfa compiles the text of a regular expression to its language",
  "For every regular expression written with at least the parentheses required by the usual precedences, thompson_compile_nfa returns an NFA (and moore_determination of it a DFA) which accept exactly the words of its language.",
  "all regular expressions, all words, all iteration orders", ALLW, [S+"thompson_compile_nfa.py:thompson_compile_nfa", S+"shunting_yard_postfix.py:tokenizer_re", S+"shunting_yard_postfix.py:shunting_yard_postfix"])
p("Unbalanced parentheses are rejected",
  "thompson_compile_nfa and shunting_yard_postfix raise an exception on every expression whose parentheses are not balanced.",
  "all strings", ALLW, [S+"shunting_yard_postfix.py:shunting_yard_postfix", S+"thompson_compile_nfa.py:thompson_compile_nfa"])
p("shunting_yard_compute follows the usual conventions of arithmetic",
  "On the text of any arithmetic expression over numbers, parentheses, unary minus, + - * / and ^, shunting_yard_compute returns the value of the expression: sums and products group from the left, powers from the right, powers bind tighter than the unary minus, which binds tighter than sums.",
  "all arithmetic expressions, all arithmetics", "Unbounded nesting; precedence and associativity interact.", [S+"shunting_yard_postfix.py:shunting_yard_compute", S+"shunting_yard_postfix.py:MAP_OPERATORS_ALG", S+"shunting_yard_postfix.py:tokenizer_alg"])

p("make_node_automaton builds the automaton described by the named transitions",
  "For every list of transitions (source name, target name) in which the transitions leaving a name are told apart by the labels of their targets, and every initial name occurring in it, make_node_automaton returns a node automaton with one state per name that accepts exactly the words spelled by the labels along a path of the list from the initial name to a name declared final by pmap_vfinal; an unknown initial name raises KeyError.",
  "all transition lists, labellings, sets of final names, and words", ALLW, [S+"node_automaton.py:make_node_automaton"])
p("A node automaton accepts the words spelled by the states along its paths",
  "For every history of calls, accepts(w) of a NodeAutomaton tells whether some path of edges from the initial state to a final state goes through states carrying the letters of w; edge(q, r) finds the edge from q to r if there is one; sigma(q) is the set of the symbols that can be read in q; alphabet() is the set of the labels of the edges.",
  "all histories of a NodeAutomaton, all words", HIST, [S+"node_automaton.py:NodeAutomaton.delta", S+"node_automaton.py:NodeAutomaton.edge", S+"node_automaton.py:NodeAutomaton.sigma", S+"node_automaton.py:NodeAutomaton.alphabet", S+"automaton.py:Automaton.accepts"])

p("A graph written with to_dot is read back by read_graphviz",
  "For every graph, reading with read_graphviz the text written by to_dot notifies the vertices then the edges in the order in which they were written, with their attributes, and rebuilds the graph (parallel edges and loops included) with its vertices numbered in order, whatever the style, the attributes and the class of the graph.",
  "all histories of a graph, all styles and property maps with values on one line", HIST, [S+"graphviz_impl.py:to_dot", S+"graphviz_impl.py:graphviz_properties_to_str", S+"graphviz_impl.py:GraphvizStyle", S+"graphviz.py:read_graphviz", S+"graphviz.py:ReadGraphvizVisitor"])
p("Graphviz attributes given by the caller win over those of the class",
  "enrich_kwargs (hence to_dot of Automaton, Nfa, GraphDp, ...) uses the attributes given by the caller, and fills the gaps with the defaults of the object; the dictionary of the caller may be given again to another call.",
  "all dictionaries of defaults and of attributes", ALLW, [S+"graphviz_impl.py:enrich_kwargs", S+"automaton.py:Automaton.to_dot"])

p("revuz_minimize merges the equivalent states of an acyclic node automaton, and respects the labels of the states",
  "On an acyclic IncidenceNodeAutomaton, or an acyclic IncidenceAutomaton with a map pmap_vlabel, revuz_minimize returns the length of a longest path and merges exactly the states that carry the same label and that no word distinguishes (by being readable, by finality or by the labels met); the symbols of the remaining states do not change, and accepts() answers as before.",
  "all acyclic automata (all histories), all labellings, all words, all iteration orders of the sets", ALLW, [S+"revuz_minimize.py:revuz_minimize", S+"incidence_node_automaton.py:IncidenceNodeAutomaton"])

p("automaton_insert_string adds a word to the language of an automaton",
  "Whatever the automaton, after g.automaton_insert_string(w) the automaton accepts w and the words it accepted, and no other word; delta_best_effort(w) returns the state reached by the longest readable prefix of w and its length; accepts_debug answers like accepts.",
  "all histories of an Automaton, all words", HIST, [S+"automaton.py:Automaton.automaton_insert_string", S+"automaton.py:Automaton.delta_best_effort", S+"automaton.py:Automaton.accepts_debug"])
p("automaton_copy copies exactly the relevant part of an automaton reachable from a state",
  "automaton_copy(s, g, dup, ...) fills an empty automaton with one state per state of g that can be reached from s along relevant transitions, and one transition per relevant transition leaving these states, with the same symbols; the copy of s is initial; the two maps are one-to-one. With a callback that copies finality, the copy accepts the words read along relevant transitions from s to a final state.",
  "all histories of an Automaton, all relevance predicates, all arguments", HIST, [S+"automaton_copy.py:automaton_copy", S+"automaton_copy.py:AutomatonCopyVisitor", S+"graph_copy.py:DepthFirstSearchCopyVisitor"])

p("GraphDp.to_json writes a JSON document that describes the graph",
  "For every graph and all properties attached to its vertices and edges, GraphDp.to_json() is a JSON document whose value lists the type of the graph, its vertices and its edges with all their properties; hence two graphs with the same text have the same content.",
  "all graphs, all properties and values", ALLW, [S+"graph_dp.py:GraphDp.to_json"])

p("Traversals of an UndirectedGraph follow its edges in both directions",
  "On every UndirectedGraph, breadth_first_search and depth_first_search from s visit exactly the vertices connected to s, once each; strong_components computes the connected components; topological_sort raises RuntimeError iff there is an edge.",
  "all histories of an UndirectedGraph, all sources", HIST, [S+"graph.py:UndirectedGraph", S+"breadth_first_search.py:breadth_first_search", S+"depth_first_search.py:depth_first_search", S+"strong_components.py:strong_components", S+"topological_sort.py:topological_sort"])
p("Dijkstra's algorithm on an UndirectedGraph computes undirected distances",
  "With non-negative weights given to the edges returned by add_edge (those of edges()), dijkstra_shortest_paths on an UndirectedGraph computes the least weight of a chain of edges, each followed in either direction; distances are symmetric.",
  "all histories of an UndirectedGraph, all weights and sources", HIST, [S+"graph.py:UndirectedGraph.out_edges", S+"graph.py:EdgeDescriptor", S+"dijkstra_shortest_paths.py:dijkstra_shortest_paths"])
p("graph_copy of an UndirectedGraph is isomorphic to the component copied",
  "graph_copy(s, g, g_dup) from an UndirectedGraph into an empty one makes the vertices of g_dup in bijection with the vertices connected to s, and the edges of g_dup in bijection with the edges between them, with the same ends.",
  "all histories of an UndirectedGraph, all sources", HIST, [S+"graph_copy.py:graph_copy", S+"graph.py:UndirectedGraph.add_edge"])

p("Exact languages of optional and bounded operators",
  "Whatever the automaton, zero_or_one(nfa) accepts exactly the words of nfa and the words u x1 ... xk v where u leads from the initial state to itself, each xi from the final state to the initial one and v from the final state to itself; repetition_range(nfa, 0, n) with n >= 2 and initial state 0 accepts exactly the words of L^k, k <= n, and those leading from the final state to itself; with initial state q >= 1 (and vertices 0..N-1) it accepts exactly the words u v where u leads from the vertex q - 1 to the final state and v is in L^k, k <= n - 1, so that (a|b){0,n} accepts exactly the words of length at most n - 1 on a and b. Compiling an expression yields an automaton whose language is given by these rules applied bottom-up; in particular no word of the language of the expression is ever rejected.",
  "every NFA with one initial and one final state; every regular expression in which e{0,n}, n != 1, is only applied to sub-expressions whose automaton starts at vertex 0; every word; every order of iteration of sets", ALLW, [S+"thompson_compile_nfa.py:zero_or_one", S+"thompson_compile_nfa.py:repetition_range", S+"thompson_compile_nfa.py:thompson_compile_nfa", S+"regexp.py:compile_dfa"])

p("Ast.to_expr",
  "Ast.to_expr writes an abstract syntax tree built by shunting_yard_ast back as the expression it stands for, whatever the root attribute (the root, or unset).",
  "all expressions, operator tables, values of root", ALLW, [S+"shunting_yard_postfix.py:Ast.to_expr", S+"shunting_yard_postfix.py:shunting_yard_ast"])
p("Visitors of revuz_minimize",
  "A visitor changes nothing to the result of revuz_minimize. Each removed state is passed exactly once as second argument of states_merged, together with a smaller state that remains to the end and from which the same words are accepted; and for each merge the calls merging_states, move_transition (once per transition entering the removed state), remove_vertex, states_merged come in this order, with the automaton in the expected state at each call.",
  "all acyclic automata (label-on-edge and label-on-node), all orders of iteration of sets", ALLW, [S+"revuz_minimize.py:RevuzMinimizeVisitor", S+"revuz_minimize.py:revuz_minimize"])
p("Comparable",
  "With a total preorder, the objects made by compare_to_key are totally preordered by Python's operators: <= is the preorder, exactly one of <, ==, > holds, <= is < or ==, >= is > or ==, != negates ==, < and > (and <= and >=) are converse of each other, == is an equivalence, < is transitive, also across ==. Without totality some objects are smaller than each other. A preorder must be given.",
  "all types, preorders and triples of objects", ALLW, [S+"heap.py:Comparable", S+"heap.py:compare_to_key"])
p("Property maps",
  "Whatever is done with a property map made from a function, the identity or a constant, reading a key returns the value of the function at that key, and every write or deletion raises RuntimeError. A property map made from a defaultdict returns the last value written at the key, else its initial value, else the default; deletions raise RuntimeError and remove nothing.",
  "all property maps and all histories of reads, writes and deletions, including those that raise", HIST, [S+"property_map.py:FuncPropertyMap", S+"property_map.py:IdentityPropertyMap", S+"property_map.py:ConstantPropertyMap", S+"property_map.py:AssocPropertyMap"])
p("reverse_dict",
  "reverse_dict(d) has exactly the values of d as keys, each mapped to the last key having it; when no two keys of d have the same value it is the inverse of d and reversing it again gives d.",
  "all dictionaries", ALLW, [S+"reverse.py:reverse_dict"])
p("Singleton",
  "Two calls to classes whose metaclass is Singleton return the same object exactly when they are calls to the same class; once a call has returned, all later calls to that class return that object whatever their arguments.",
  "all sequences of calls, including calls whose constructor raises", HIST, [S+"singleton.py:Singleton"])
p("AggregatedVisitor.get",
  "AggregatedVisitor.get(key) returns the first of the aggregated visitors whose class is named key, and ret_if_not_found when there is none.",
  "all lists of visitors and keys", ALLW, [S+"aggregated_visitor.py:AggregatedVisitor.get", S+"aggregated_visitor.py:AggregatedVisitor.type_to_key"])
p("Visitors of shunting_yard_postfix",
  "A visitor changes nothing to the result of shunting_yard_postfix. Its calls drive a stack, empty at the beginning and at the end: what is passed to on_pop_operator is the last thing passed to on_push_operator and not popped yet, and goes to the output right after unless it is an opening parenthesis. on_push_operator is called once per operator and opening parenthesis of the expression, in order; on_push_output once per token of the output, in order, in particular once per operand, in order.",
  "all operator tables, outputs and sequences of tokens on which the function returns", ALLW, [S+"shunting_yard_postfix.py:DefaultShuntingYardVisitor", S+"shunting_yard_postfix.py:shunting_yard_postfix"])

p("Drawings determine the automaton",
  "The text written by to_dot for an automaton, an NFA or a node automaton shows every state, every transition with its symbol, and which states are final: two automata with the same drawing have the same states, the same transitions and the same final states, hence, from the same initial states, the same language. The same holds of BK-trees (the tree and its distances) and of abstract syntax trees. What is not shown is the initial state, and the symbol '^' of a node automaton is shown like the absence of symbol.",
  "all pairs of automata, NFAs, node automata, BK-trees and syntax trees, whatever symbols they use (including characters that are special in HTML or in Graphviz)", ALLW, [S+"automaton.py:Automaton.to_dot", S+"nfa.py:Nfa.to_dot", S+"node_automaton.py:NodeAutomaton.to_dot", S+"bk_tree.py:BKTree.to_dot", S+"shunting_yard_postfix.py:Ast.to_dot"])
p("Images written through Graphviz",
  "If dot succeeds and produces an image, write_graphviz returns True and the file contains the image; otherwise it returns False or raises an exception and the file is as it was; no other file is touched. dot_to_svg returns what dot wrote, from the first occurrence of <svg.",
  "all behaviours of the external process (any status, output and error output) and of the decoder, all file contents, names and formats", "The outcome depends on an external process, which may fail in any way, and on the contents of the file before the call.", [S+"graphviz.py:run_graphviz", S+"graphviz.py:dot_to_svg", S+"graphviz.py:write_graphviz", S+"graphviz.py:dotstr_to_html"])
p("Styles of drawings",
  "After any sequence of calls to set_fg_color and set_bg_color, the default colours of graphs, vertices and edges are those of the last calls and the other attributes are unchanged. A GraphDp keeps the attributes it was given, or those of the style in force when it was made; its drawings use them, except those given in the call, which win.",
  "all sequences of style calls, all attribute dictionaries, all graphs", HIST, [S+"graphviz_impl.py:GraphvizStyle", S+"graph_dp.py:GraphDp", S+"graphviz_impl.py:enrich_kwargs"])
p("Displays in notebooks",
  "What is displayed in a notebook is the body itself, in a block with the background colour if one is given; display_svg and display_body write the body in the file named.",
  "all bodies, colours, file names and file contents", ALLW, [S+"ipynb.py:background_template_html", S+"ipynb.py:ipynb_display_graph", S+"ipynb.py:display_svg", S+"ipynb.py:display_body"])

p("Graphs whose caller catches exceptions",
  "A mutator of DirectedGraph, UndirectedGraph or IncidenceGraph that raises leaves the graph unchanged, so that after any history of calls in which the caller catches exceptions and goes on, the graph contains exactly what the calls that returned put in it and did not remove.",
  "every sequence of calls to add_vertex, add_edge, remove_edge, remove_vertex and clear with any arguments, each of which may return or raise", HIST, [S+"graph.py:Graph.add_edge", S+"graph.py:Graph.remove_edge", S+"graph.py:Graph.remove_vertex", S+"graph.py:Graph.clear", S+"graph.py:UndirectedGraph.add_edge", S+"graph.py:UndirectedGraph.remove_edge", S+"incidence_graph.py:IncidenceGraph.add_edge", S+"incidence_graph.py:IncidenceGraph.remove_vertex", S+"incidence_graph.py:IncidenceGraph.remove_edge"])

p("clear() on automata",
  "After clear(), an automaton (Automaton, IncidenceAutomaton, Nfa, NodeAutomaton, IncidenceNodeAutomaton) has neither states nor transitions, numbers its states again from 0, and behaves like a newly created automaton whatever is called next.",
  "all automata built by the public API, and all sequences of later calls", HIST, [S+"graph.py:Graph.clear", S+"automaton.py:Automaton", S+"incidence_automaton.py:IncidenceAutomaton", S+"nfa.py:Nfa", S+"node_automaton.py:NodeAutomaton", S+"incidence_node_automaton.py:IncidenceNodeAutomaton"])

p("Exceptions in the mutators of automata",
  "A mutator of Automaton, IncidenceAutomaton, NodeAutomaton or IncidenceNodeAutomaton that raises leaves the automaton unchanged, so that a caller may catch the exception and go on.",
  "all histories of mutator calls, any of which may have raised and been caught, and all next calls", HIST, [S+"automaton.py:Automaton", S+"incidence_automaton.py:IncidenceAutomaton", S+"node_automaton.py:NodeAutomaton", S+"incidence_node_automaton.py:IncidenceNodeAutomaton", S+"graph.py:DirectedGraph.clear"])

p("moore_determination into a given automaton",
  "Given an empty Automaton or IncidenceAutomaton as its parameter dfa, moore_determination fills it with a DFA that recognises the language of the NFA, as it does when the parameter is omitted.",
  "all NFAs, all histories of the given automaton that leave it without state, both values of complete, all enumeration orders of the sets", HIST, [S+"moore_determination.py:moore_determination", S+"automaton.py:Automaton", S+"incidence_automaton.py:IncidenceAutomaton"])
p("Comparing regular expressions",
  "compile_dfa(r) recognises exactly the language of the regular expression r, and deterministic_inclusion(compile_dfa(r1), compile_dfa(r2)) returns 0 when r1 and r2 have the same language, 1 (resp. -1) when the first (resp. second) language is strictly included in the other, and None otherwise.",
  "all pairs of well-written regular expressions, both values of complete, all enumeration orders of the sets", ALLW, [S+"regexp.py:compile_dfa", S+"regexp.py:compile_nfa", S+"deterministic_inclusion.py:deterministic_inclusion", S+"thompson_compile_nfa.py:thompson_compile_nfa", S+"moore_determination.py:moore_determination"])

p("Minimal automata are canonical",
  "hopcroft_minimize gives a canonical form: minimizing two automata that accept the same words (all of whose states are useful, or which are complete over the same alphabet with all states accessible) gives the same automaton up to the numbers of the states, whatever the enumeration orders; hence moore_determination with complete=True into an IncidenceAutomaton followed by hopcroft_minimize gives the same automaton for any two NFAs over the same alphabet that have the same language.",
  "all pairs of automata with final and non-final states, all pairs of NFAs with the same language and alphabet, all enumeration orders of the sets in each run", ALLW, [S+"hopcroft_minimize.py:hopcroft_minimize", S+"moore_determination.py:moore_determination", S+"incidence_automaton.py:IncidenceAutomaton"])

p("A DigitalSequence stands in for a trie",
  "DigitalSequence(w) can be handed to any function that takes a Trie or an Automaton and behaves as the trie of the single word w: its methods (vertices, edges, out_edges, sigma, delta, alphabet, initial, is_initial, is_final, counts) answer what those of a trie in which w was inserted answer; deterministic_inclusion, deterministic_intersection, deterministic_union and trie_matching give the result for the language {w}, inserting it in a trie adds exactly w, and none of them raises. A DigitalSequence cannot be modified: every modifying call raises.",
  "every word, every automaton or trie or sequence as the other operand, every order of enumeration of sets of symbols, every modifying call", ALLW, [S+"digital_sequence.py:DigitalSequence", S+"parallel_breadth_first_search.py:parallel_breadth_first_search", S+"trie.py:trie_deterministic_fusion", S+"trie_matching.py:trie_matching", S+"deterministic_inclusion.py:deterministic_inclusion", S+"deterministic_intersection.py:deterministic_intersection", S+"deterministic_union.py:deterministic_union"])

p("Stacked suffix operators are read in one definite way",
  "In a regular expression given to thompson_compile_nfa or compile_dfa, several suffix operators written in a row are read as follows, whatever the operand and their number: {m,n} applies to the operand before any *, + or ? written earlier; * and + apply before a ? written earlier; a ? applies to all that precedes. The text is compiled to the very same automaton as the text with the corresponding parentheses. In particular the reading is the expected one (same language) unless a {m,n} directly follows a *, a + or a ?.",
  "every regular expression written with the usual precedences, with any nesting and any number of suffix operators in a row, every alphabet and order of enumeration of character sets", ALLW, [S+"shunting_yard_postfix.py:MAP_OPERATORS_RE", S+"shunting_yard_postfix.py:shunting_yard_postfix", S+"thompson_compile_nfa.py:thompson_compile_nfa"])

p("Laws of the edit distances",
  "For all words: damerau_levenshtein_distance \u2264 levenshtein_distance \u2264 lcs_distance \u2264 2 levenshtein_distance, and levenshtein_distance \u2264 2 damerau_levenshtein_distance; each is at least the difference of the lengths, the first two are at most the greatest length and the third at most the sum of the lengths. Each is unchanged if both words are reversed, if a common prefix or suffix is added or removed, or if symbols are renamed one-to-one, and the distance of two concatenations is at most the sum of the distances of the parts.",
  "all words over any alphabet, all common prefixes and suffixes, all one-to-one renamings", ALLW, [S+"levenshtein_distance.py:levenshtein_distance", S+"lcs_distance.py:lcs_distance", S+"damerau_levenshtein_distance.py:damerau_levenshtein_distance"])

p("Algorithms on a GraphView and after reverse_graph",
  "A GraphView can be given to the algorithms in place of a graph, and they see its relevant part only: breadth_first_search and depth_first_search visit exactly the vertices reached by paths of relevant edges between relevant vertices, topological_sort sorts the relevant part or raises iff the relevant part has a cycle, strong_components gives the strongly connected components of the relevant part, dijkstra_shortest_paths its distances. After reverse_graph(g), breadth_first_search from s visits exactly the vertices from which s could be reached, dijkstra_shortest_paths gives the distances towards s, and strong_components finds as many components, with the same vertices.",
  "every graph, every pair of relevance maps, every source, every assignment of non-negative weights, every history of an IncidenceGraph", ALLW, [S+"graph_view.py:GraphView", S+"reverse.py:reverse_graph", S+"breadth_first_search.py:breadth_first_search", S+"depth_first_search.py:depth_first_search", S+"topological_sort.py:topological_sort", S+"strong_components.py:strong_components", S+"dijkstra_shortest_paths.py:dijkstra_shortest_paths"])

p("BKTree with a distance that is not a metric",
  "Whatever the distance given to BKTree, provided that distance(x, y) == 0 exactly when x == y, search terminates, an element that was inserted is always found with distance 0 whatever d_max, and what search returns is an inserted element within d_max, at its true distance, no farther than the first element inserted. If the distance is symmetric and satisfies d(x, z) <= c d(x, y) + d(y, z), the element returned is at most c times as far as the nearest one, and None is returned only if no element is within d_max / c. With damerau_levenshtein_distance c is 2, and it cannot be 1: an element within d_max may be missed.",
  "every distance, every list of inserted elements, every query and radius", ALLW, [S+"bk_tree.py:BKTree.search", S+"bk_tree.py:BKTree.insert", S+"bk_tree.py:make_bk_tree", S+"damerau_levenshtein_distance.py:damerau_levenshtein_distance"])

p("Drawing of a GraphView",
  "The drawing of a GraphView shows exactly its relevant vertices, each of them once, and exactly its relevant edges between relevant vertices, each of them once; if vs (resp. es) is given, those that are also in vs (resp. es). A view of a view shows what both show. The ends of an edge that is drawn are drawn. Reading the drawing with read_graphviz gives the graph that the view shows, renumbered.",
  "all graphs, all relevance predicates, all sets vs and es, all orders of enumeration of sets, all options on one line", ALLW, [S+"graph_view.py:GraphView.to_dot", S+"graph.py:Graph.to_dot", S+"graphviz_impl.py:to_dot", S+"graphviz.py:read_graphviz"])
p("make_incidence_node_automaton",
  "make_incidence_node_automaton builds the automaton that make_node_automaton builds from the same arguments, and raises the same errors; whatever the transitions, in_edges(r) then gives exactly the edges to r, once each.",
  "all lists of transitions, names, labels and final names", ALLW, [S+"incidence_node_automaton.py:make_incidence_node_automaton", S+"incidence_node_automaton.py:IncidenceNodeAutomaton", S+"node_automaton.py:make_node_automaton"])

p("The minimal acyclic automaton of a list of words",
  "Inserting words one by one in IncidenceAutomaton(1) with automaton_insert_string, then calling revuz_minimize, returns normally. The automaton obtained accepts exactly the words inserted, the value returned is the length of the longest one, and no automaton that accepts exactly these words has fewer states. The result depends, up to the numbers of the states, only on the set of words: not on the order of the insertions, nor on repetitions, nor on the order in which Python enumerates its sets.",
  "all lists of words, all orders of enumeration of sets, all other automata for the minimality", ALLW, [S+"automaton.py:Automaton.automaton_insert_string", S+"incidence_automaton.py:IncidenceAutomaton", S+"revuz_minimize.py:revuz_minimize"])
p("The algorithms agree with each other",
  "topological_sort raises RuntimeError iff strong_components puts two different vertices in one component or some edge is a loop. With unit weights, Dijkstra's distances are the numbers of edges of the shortest paths (below INFINITY), and breadth_first_search discovers the vertices by increasing distances. The arcs returned by make_shortest_paths_dag form a graph without cycle, which topological_sort sorts.",
  "all graphs, all weights", ALLW, [S+"topological_sort.py:topological_sort", S+"strong_components.py:strong_components", S+"dijkstra_shortest_paths.py:dijkstra_shortest_paths", S+"dijkstra_shortest_paths.py:make_shortest_paths_dag", S+"breadth_first_search.py:breadth_first_search"])

p("html_color_to_graphviz converts hsl colours",
  "A colour that does not start with hsl is returned unchanged. For hsl(h, s%, l%) with three integers, the text returned has the three components, between 0 and 1, of the HSV colour that is the same as the HSL colour (h/360, s/100, l/100): same hue, same largest and same smallest of the red, green and blue components. If the text between the parentheses is not made of three integers separated by commas, ValueError is raised, and no other exception ever is.",
  "all texts, all integers (saturation and lightness between 0 and 100 for the values)", ALLW, [S+"color.py:html_color_to_graphviz", S+"color.py:normalize_color_tuple", S+"color.py:hsl_to_hsv"])

p("Nfa objects built from the same set of initial states are independent",
  "An Nfa built with Nfa(n, initials=s) takes the contents of s when it is built: later changes of s by the caller, and the calls of set_initial or set_initials on another Nfa built from s, leave the states, the transitions, the initial and final states of the Nfa unchanged; every Nfa is at any time what the calls made on it alone give.",
  "all histories of creations of sets, changes of these sets, creations of Nfa objects with or without one of these sets, and calls of their methods", HIST, [S+"nfa.py:Nfa.__init__", S+"nfa.py:Nfa.set_initial", S+"nfa.py:Nfa.set_initials", S+"nfa.py:Nfa.is_initial"])

p("Drawings of automata are read back by read_graphviz",
  "The text drawn by to_dot for an Automaton, an Nfa or a NodeAutomaton, whatever its symbols and its final states, is read by read_graphviz, into an empty DirectedGraph, without error, and gives the vertices and the transitions of the automaton, each transition once, the vertices being numbered in the order in which they are drawn.",
  "all automata reachable by histories of calls, all symbols, all Graphviz styles and options whose instructions are not vertices or edges", ALLW, [S+"graphviz.py:read_graphviz", S+"graphviz.py:ReadGraphvizVisitor", S+"automaton.py:Automaton.to_dot", S+"nfa.py:Nfa.to_dot", S+"node_automaton.py:NodeAutomaton.to_dot"])
p("initial() and is_final() are what the calls of the history say",
  "After any history of calls on an Automaton, IncidenceAutomaton, NodeAutomaton or IncidenceNodeAutomaton, initial() is q iff q is the state given to the last set_initial(q), or 0 if there was none, and no later set_initial(q, False) has withdrawn it; is_final(q) holds iff some set_final(q) was not followed by set_final(q, False). In an Nfa, q is initial iff a set_initial(q), a set_initials containing q, or the constructor made it initial, and neither set_initial(q, False) nor a set_initials without q came later. No other call, including remove_vertex and clear, matters.",
  "all histories of calls on the five classes of automata", HIST, [S+"automaton.py:Automaton.set_initial", S+"automaton.py:Automaton.set_final", S+"automaton.py:Automaton.initial", S+"automaton.py:Automaton.is_final", S+"nfa.py:Nfa.set_initial", S+"nfa.py:Nfa.set_initials", S+"nfa.py:Nfa.set_final", S+"graph.py:Graph.clear", S+"graph.py:Graph.remove_vertex"])

p("compile_nfa accepts only regular expressions",
  "A text whose parentheses are balanced is accepted by thompson_compile_nfa (and compile_nfa) only if it is empty or a regular expression: characters that are not special, escape sequences, non-empty classes and expressions in parentheses, each followed by any number of suffix operators, concatenated, and separated by bars. Made of characters, operators and parentheses only, it is accepted exactly if it is one; otherwise an IndexError is raised (or an AssertionError, if it is made of parentheses only).",
  "all texts, whatever the alphabet and the order in which sets are iterated", ALLW, [S+"thompson_compile_nfa.py:thompson_compile_nfa", S+"thompson_compile_nfa.py:ThompsonShuntingYardVisitor", S+"shunting_yard_postfix.py:shunting_yard_postfix", S+"shunting_yard_postfix.py:catify", S+"regexp.py:compile_nfa"])

p("Ill-formed expressions are rejected",
  "shunting_yard_ast and shunting_yard_compute return a result only for well-formed infix expressions, and raise an exception for any other list of tokens.",
  "all lists of tokens, all operator tables with unary and binary operators", "The malformed expressions are infinitely many; tests try a few well-formed ones.", [S+"shunting_yard_postfix.py:shunting_yard_ast", S+"shunting_yard_postfix.py:shunting_yard_compute", S+"shunting_yard_postfix.py:RpnDequeOperation"])

p("alphabet() and sigma(q) of an Nfa are exact",
  "For every history of calls on an Nfa, alphabet() is the set of the symbols other than epsilon that label a transition, and sigma(q) is the set of the symbols a other than epsilon for which delta(q, a) is not empty.",
  "all histories of calls on an Nfa, all states and symbols", HIST, [S+"nfa.py:Nfa.alphabet", S+"nfa.py:Nfa.sigma", S+"nfa.py:Nfa.remove_edge"])
p("What an Nfa reports of its states and transitions agrees with its history",
  "For every history of calls on an Nfa, add_vertex() returns a state that the automaton does not have and changes no other state nor transition; vertices() yields the states added and not removed, finals() the final ones among them; num_edges() and out_degree(q) count the distinct transitions; edge(q, r) finds the transition from q to r; label(e) and is_epsilon_transition(e) report the symbol given to add_edge.",
  "all histories of calls on an Nfa, all states and symbols", HIST, [S+"nfa.py:Nfa", S+"graph.py:Graph.add_vertex", S+"graph.py:Graph.edge", S+"graph.py:Graph.num_edges"])

p("Attributes read by read_graphviz",
  "read_graphviz with a subclass of ReadGraphvizVisitor calls on_install_vertex_property and on_install_edge_property, for each line that describes a vertex or an edge and in the order of the lines, once for each name of attribute of the line, with its last value and with the vertex or the edge that the line has created; the graph read does not depend on these methods; for a drawing written by to_dot these are the attributes written for each vertex and each edge. read_graphviz_dp reads the same graphs and stores these attributes.",
  "all texts, all visitors, all drawings of directed graphs, all results of the HTML parser of the standard library", ALLW, [S+"graphviz.py:GraphvizOptsParser", S+"graphviz.py:ReadGraphvizVisitor", S+"graphviz.py:read_graphviz", S+"graphviz.py:read_graphviz_dp"])

p("Searches given a map of colours that is not new",
  "depth_first_search, breadth_first_search_graph and dijkstra_shortest_paths, given a map of colours with arbitrary contents, never enter a vertex (other than the starting ones) that is not white: a traversal discovers exactly the vertices reachable without entering such a vertex, examines all the edges that leave them, reports the edges towards hidden vertices according to their colour, and makes besides exactly the calls of the search of the graph without the edges towards hidden vertices; Dijkstra's search computes the best weights of the paths whose intermediate vertices are not hidden. After any history of traversals sharing a map, a new one discovers its starting vertices and the vertices reachable from them and not discovered before.",
  "all graphs, all maps of colours, all visitors, all histories of depth-first and breadth-first searches sharing a map", HIST, [S+"depth_first_search.py:depth_first_search", S+"breadth_first_search.py:breadth_first_search_graph", S+"dijkstra_shortest_paths.py:dijkstra_shortest_paths"])
p("Dijkstra's search with maps that are not new",
  "Whatever pmap_vdist and pmap_vpreds contain before the call (the documentation asks for empty sets and zeros), dijkstra_shortest_paths computes the best weights, and for every reached vertex other than the source exactly the last arcs of the best paths; what pmap_vpreds contained stays at the source and at the vertices that are not reached, and dijkstra_shortest_path returns the same result as with new maps.",
  "all graphs, all selective algebras, all contents of the maps, all enumeration orders of the sets", HIST, [S+"dijkstra_shortest_paths.py:dijkstra_shortest_paths_initialization", S+"dijkstra_shortest_paths.py:dijkstra_shortest_paths_iteration", S+"dijkstra_shortest_paths.py:dijkstra_shortest_path"])

p("Sizes of the automata computed",
  "compile_nfa of an expression returns an automaton whose states are exactly 0, ..., n-1, where n is computed from the expression (2 per symbol or set, +2 per alternation, star and plus, copies for {m,n}); without {m,n} it is at most twice the number of tokens. moore_determination returns at most 2^n states for an automaton with n states. A trie has exactly one state per distinct prefix of the words inserted (at most 1 + their total length), a suffix trie one per distinct factor (at most 1 + n(n+1)/2). deterministic_intersection returns at most n1*n2 states and deterministic_union fewer than (n1+1)(n2+1).",
  "every expression, every automaton, every list of words, every order of sets", ALLW, [S+"thompson_compile_nfa.py: concatenation, alternation, zero_or_more, one_or_more, repetition, repetition_range, thompson_compile_nfa", S+"moore_determination.py: moore_determination", S+"trie.py: Trie.insert", S+"suffix_trie.py: make_suffix_trie", S+"deterministic_intersection.py: deterministic_intersection", S+"deterministic_union.py: deterministic_union"])

p("Determinisation without sink",
  "With complete=False (the default), every state of moore_determination stands for a non-empty set of states of the original automaton: a word reaches a state of the result if and only if it can be read in the original automaton, and there are fewer than 2^n states.",
  "all Nfa built by any history of calls, all orders of sets", HIST, [S+"moore_determination.py: moore_determination", S+"nfa.py: Nfa.sigma, Nfa.remove_edge"])

p("Dijkstra's search whatever the weights",
  "Whatever the weights (even negative), compare, combine, the property maps given and the visitor, dijkstra_shortest_paths ends without error on a finite graph; each vertex is discovered at most once, a vertex other than the source is examined at most once and the source at most twice; each distance is infty or the combined weight of a path from the source, each predecessor arc is left from before or ends a path having the weight recorded for the vertex. If no path is as bad as infty, exactly the reachable vertices get a distance.",
  "all finite graphs, weights, compare and combine functions, contents of the maps, visitors that stop the search", ALLW, [S+"dijkstra_shortest_paths.py: dijkstra_shortest_paths, dijkstra_shortest_paths_iteration, make_shortest_path", S+"heap.py: Heap"])

p("Unions and intersections put into a given automaton",
  "deterministic_union(g1, g2, g12) and deterministic_intersection(g1, g2, g12) leave the states and transitions of g12 as they are and append a copy of the automaton they build by default. The initial state becomes the one of the copy, so that the language becomes the one computed by default; except when no transition leaves the initial states (for the intersection: no symbol labels transitions leaving both), in which case g12 is returned as it was, with the language it had.",
  "all automata g1, g2 and g12 built by the API (g12 empty or not) and all orders of iteration over sets", ALLW, [S+"deterministic_union.py:deterministic_union", S+"deterministic_intersection.py:deterministic_intersection", S+"product_mixin.py:ProductMixin"])

p("The whole sequence of calls received by a DijkstraVisitor",
  "Whatever the weights, compare, combine and the maps given, dijkstra_shortest_paths ends without error and its visitor receives exactly: initialize_vertex for each vertex of the graph; then, for each vertex examined, examine_vertex, and for each arc that leaves it, in the order of out_edges, examine_edge followed by edge_relaxed if the arc improves the current distance of its target or equals it, by edge_not_relaxed otherwise, with discover_vertex before edge_relaxed the first time that a vertex not met yet is improved; then finish_vertex. The distances and predecessor arcs at the end are those that result from these reports. Each predecessor arc that was not there before has been reported by edge_relaxed; if combining a distance with a weight never improves it, no shortest path ends with an arc reported by edge_not_relaxed.",
  "every graph, source, weights, compare, combine, zero, infty, property maps given, and every visitor that may stop the search in examine_vertex", ALLW, [S+"dijkstra_shortest_paths.py: dijkstra_shortest_paths, dijkstra_shortest_paths_iteration, DijkstraVisitor"])

p("Mutators after reverse_graph",
  "After any history that mixes add_vertex, add_edge, remove_edge, remove_vertex, clear and reverse_graph on an IncidenceGraph, vertices and edges are those issued and not removed since, out_edges(u) and in_edges(u) list the edges of source and target u, source and target are the original ones exchanged iff the number of reversals is odd, edge(u, v) finds the edge from u to v iff it is unique, add_vertex returns a new vertex, remove_edge(e) removes exactly e, remove_vertex(u) exactly u and the edges that touch it, and add_edge(u, v) adds exactly one edge, from u to v. The same holds of remove_edge and remove_vertex of an IncidenceAutomaton, and of out_edges and remove_edge of an UndirectedGraph, after reverse_graph.",
  "every history of calls of the mutators and of reverse_graph, every vertex and edge", HIST, [S+"reverse.py: reverse_graph", S+"incidence_graph.py: IncidenceGraph", S+"incidence_automaton.py: IncidenceAutomaton.remove_edge, remove_vertex", S+"graph.py: Graph.edge, UndirectedGraph.out_edges, UndirectedGraph.remove_edge"])

p("Views of a changing graph, nested views, laws of the operators, methods forwarded by a view",
  "A GraphView follows its graph: after any history of calls on the graph it shows exactly the relevant vertices and edges that are in it now. A view of a view shows what the intersection of the two views shows. The operators | and & on views of a graph are commutative, associative, idempotent, and distribute over each other; g - g shows nothing. has_vertex(), has_edge() and edge(u, v) called on a view answer about the vertices and edges that the view shows.",
  "every graph and history of calls on it, every pair of relevance maps, every combination of views", HIST, [S+"graph_view.py: GraphView.__getattr__, __or__, __and__, __sub__, vertices, edges, out_edges, in_edges", S+"graph.py: Graph.edge, Graph.has_vertex, Graph.has_edge"])

p("re_escape turns a text into a regular expression for this text",
  "Whatever the text s (without the symbol of epsilon transitions), compile_nfa(re_escape(s)) and compile_dfa(re_escape(s)) return automata that accept s and nothing else. Different texts have different escaped texts, a text without metacharacter is left as it is, and the escaped text of a concatenation is the concatenation of the escaped texts.",
  "every text, every alphabet given, every order of iteration of the sets", ALLW, [S+"shunting_yard_postfix.py: re_escape, RE_OPERATORS_RE, tokenizer_re", S+"thompson_compile_nfa.py: thompson_compile_nfa, parse_escaped", S+"regexp.py: compile_nfa, compile_dfa"])

p("Copies into a graph that is not empty, callbacks of graph_copy and automaton_copy",
  "graph_copy(s, g, g_dup) into a DirectedGraph, UndirectedGraph or IncidenceGraph that already has vertices and edges adds to it one new vertex per vertex reached from s along relevant edges and one new edge per relevant edge leaving them, and keeps everything else, as automaton_copy does for an Automaton, whose initial state, final states and (if its transitions stay inside) language do not change. Entries of pmap_vertices and pmap_edges about what is not copied are kept. callback_dup_vertex and callback_dup_edge are called exactly once per vertex and edge copied, with its copy, an edge after both its ends; g_dup then contains exactly what was copied so far. The calls do not depend on the callbacks; an exception raised by a callback is raised by the copy.",
  "every graph whose part reached from s is finite, every source, every relevance map, every history of the target, every content of the maps, every callback that does not change g_dup and the maps", ALLW, [S+"graph_copy.py: DepthFirstSearchCopyVisitor, graph_copy", S+"automaton_copy.py: AutomatonCopyVisitor, automaton_copy"])

p("The symbol \u03b5 written in a regular expression stands for the empty word",
  "Whatever the symbols of a regular expression, including \u03b5 among literals and character classes, compile_nfa and compile_dfa return automata that accept the words of its language from which the occurrences of \u03b5 are deleted. In particular (e|\u03b5) accepts the empty word and the words of e, and nothing else, also in the cases where e? accepts more.",
  "every regular expression (abstract, or written with the parentheses required by the precedences of the library) that satisfies the condition of C34 on optional parts, every alphabet given, every order of iteration of the sets", ALLW, [S+"thompson_compile_nfa.py: literal, bracket, thompson_compile_nfa", S+"nfa.py: Nfa.add_edge, Nfa.delta_epsilon, Nfa.accepts", S+"regexp.py: compile_nfa, compile_dfa"])

p("The automaton compiled from a regular expression, arc by arc",
  "Compiling a regular expression returns an NFA whose states are 0, \u2026, n-1, whose only final state is n-1, and whose arcs and initial state are those of the picture of Thompson's construction as the library draws it: concatenations and repetitions put copies one after the other, alternations, stars and pluses add two states, {m,n} adds arcs from the end of the copies m, \u2026, n-1 to the last state, and starts at the state that bears the number of the initial state of the repeated expression. The words accepted by compile_nfa and compile_dfa are those read along the arcs of this picture, also for the expressions for which they are not the language of the expression.",
  "every regular expression (abstract, or written with the parentheses required by the precedences of the library) whose repetitions {m,n} have m \u2264 n and in which {0} is only applied to parts whose automaton starts at the state 0; every alphabet, symbols \u03b5 included", ALLW, [S+"thompson_compile_nfa.py: literal, bracket, concatenation, alternation, zero_or_one, zero_or_more, one_or_more, repetition, repetition_range, thompson_compile_nfa", S+"regexp.py: compile_nfa, compile_dfa"])

p("dijkstra_shortest_paths interrupted by its visitor",
  "dijkstra_shortest_paths calls the methods of the visitor in an order, and with contents of the maps at each call, that do not depend on the visitor; an exception raised by any method, at any call, is that of dijkstra_shortest_paths, and the maps stay as they were at that call. Once the initialization is over, whatever the call at which this happens: every distance is infty or the weight of an existing path, the distances of the vertices for which examine_vertex was called are the best ones, every arc leaving a finished vertex has been taken into account in distances and predecessors, every predecessor of v ends a path of weight pmap_vdist[v], and every vertex reached other than s has one. During the initialization, the predecessors are untouched and the distances of the vertices seen so far are zero or infty.",
  "every finite graph, source, weights and semi-ring as in C64 (in particular sums of non-negative weights); every visitor that does not modify the graph nor the maps, which may read the maps, keep a state and raise any exception at any call", "The visitor may raise at any of the calls of any run: this is a statement on all the crash points of all the runs.", [S+"dijkstra_shortest_paths.py: DijkstraVisitor, dijkstra_shortest_paths_initialization, dijkstra_shortest_paths_iteration, dijkstra_shortest_paths, DijkstraTowardsVisitor"])

p("The colours seen by a visitor of a search, and those left when it interrupts the search",
  "depth_first_search, breadth_first_search_graph and breadth_first_search make the same calls, with the same pmap_vcolor at each of them, whatever the visitor; an exception raised by any method (or by if_push) at any call is that of the search, and the colours stay as they were at that call. At every call a vertex is BLACK iff its finish_vertex has been called (this call included), GRAY iff its discover_vertex has been and not its finish_vertex, WHITE iff neither has; the vertices that are not WHITE are reachable from the sources, no relevant edge leads from a BLACK vertex to a WHITE one, and every WHITE vertex still to be reached is reachable from a GRAY one through WHITE ones. In a depth-first search a GRAY vertex reaches all those discovered after it; in a breadth-first search a WHITE vertex is at least as far from the sources as the other ones. breadth_first_search makes a vertex WHITE right after its initialize_vertex.",
  "every graph and edge filter such that finitely many vertices are reachable from the sources; every visitor that does not modify the graph nor the colours, which may read the colours, keep a state and raise any exception at any call; breadth-first search: distinct sources, colours that are all WHITE when the search starts", "The visitor may raise at any of the calls of any run: this is a statement on all the crash points of all the runs.", [S+"depth_first_search.py: DefaultDepthFirstSearchVisitor, depth_first_search", S+"breadth_first_search.py: DefaultBreadthFirstSearchVisitor, breadth_first_search_graph, breadth_first_search"])

p("The edit distances return the distance of any two words, within Python's limit of recursion",
  "levenshtein_distance, lcs_distance and damerau_levenshtein_distance return the distance of any two words. (False of long words: compute is recursive. Whatever the limit L of nested calls, the outcome is the right distance or RecursionError, and the entries of self.memoize are right in both cases, so that the object can be used again; the distance is returned when |x| + |y| <= L; RecursionError is raised when L <= min(|x|, |y|); equal words need |x| + 1 nested calls exactly, words that are not empty and have no common character |x| + |y| exactly. A distance returned took at most 1 + 4(|x|+1)(|y|+1) calls.)",
  "every pair of words over every alphabet, every limit of nested calls, every right content of self.memoize when compute is called again", "Tests run words shorter than the default limit; the limit left depends on the depth at which the caller is.", [S+"levenshtein_distance.py: LevenshteinDistance.compute, levenshtein_distance", S+"lcs_distance.py: LcsDistance.compute, lcs_distance", S+"damerau_levenshtein_distance.py: DamerauLevenshteinDistance.compute, damerau_levenshtein_distance"])

p("With floating-point weights, Dijkstra's distances are close to the exact ones",
  "With non-negative floats as weights, dijkstra_shortest_paths ends; the distance of every vertex is the least sum along the paths from s, each sum being rounded after each arc from s on (INFINITY if there is none below it). If one addition has a relative error of at most e, 2^-53 for Python's floats, and if the graph has k+1 vertices, then every distance below INFINITY is, up to the factor 1 - k e, at least the exact total weight of some path and at most that of every path. A path returned by dijkstra_shortest_path has the least rounded sum.",
  "every floating-point format and every way to break ties, every graph, source and non-negative weights of the format, with or without compare", "The addition of floats is not associative, and the errors depend on the weights; tests compare with sums of integers.", [S+"dijkstra_shortest_paths.py: dijkstra_shortest_paths, dijkstra_shortest_path", S+"algebra.py: ClosedPlus, Less"])
p("With positive floating-point weights, dijkstra_shortest_path returns a path",
  "With positive floats as weights, dijkstra_shortest_path returns a path from s to t if some path weighs less than INFINITY. (False of weights that are very different from each other: a small weight is lost when it is added to a large distance, so that a cycle may be made of predecessor arcs, and make_shortest_path may turn around it for ever. If the weights are between x and y, where y / x is less than 1/e divided by the number of vertices, a path without repetition is returned, the exact weight of which is the least one up to the factor (1 - k e)^2; with Python's floats, it is enough that there are at most 2^20 vertices and that no weight is more than 2^30 times another one.)",
  "every floating-point format and every way to break ties, every graph, source, target and positive weights of the format, every order of the sets", "Losing a weight needs weights that tests do not use, and which arc is popped from a set depends on the hashes.", [S+"dijkstra_shortest_paths.py: dijkstra_shortest_path, make_shortest_path", S+"algebra.py: ClosedPlus, Less"])

p("Loops that change the graph they iterate on",
  "In a loop over vertices(), edges(), out_edges(u) or in_edges(v) whose body calls add_vertex and add_edge, or calls remove_edge, remove_vertex and clear (exceptions being caught), no item is delivered twice, each item is in the graph when it is delivered, and the loop ends. It ends normally exactly if no turn for an edge from u to v changes the set of vertices (for edges()), the set of successors of u, or the set of edges from u to v; else it raises RuntimeError. If it ends normally, no item that is in the graph from the beginning to the end is missed. In particular, `for e in g.edges(): g.remove_edge(e)` removes one edge and raises RuntimeError, and so does `for u in g.vertices(): g.remove_vertex(u)` with a vertex.",
  "every graph reached by any history of calls, directed, undirected or incidence graph; every body that adds or that removes, depending in any way on the items delivered so far", HIST, [S+"graph.py: DirectedGraph.vertices, DirectedGraph.edges, DirectedGraph.out_edges, UndirectedGraph.edges, UndirectedGraph.out_edges", S+"incidence_graph.py: IncidenceGraph.in_edges"])

p("Number of calls to the functions given by the caller",
  "Whatever the preorder does (it need not be an order, its answers may change, it may raise), Heap.push on n elements calls to_comparable once and the preorder at most 3*floor(log2(n+1)) times, Heap.pop calls the preorder at most 6*floor(log2(n-1)) times, and Heap(elements) calls to_comparable at most n times and the preorder at most 6n times. Whatever the distance does, BKTree.insert and BKTree.search end and call the distance at most once for each stored element.",
  "every state of a heap, every BK-tree made by any insertions with any distances, every function given by the caller, with side effects and exceptions", ALLW, [S+"heap.py: Comparable, Heap.push, Heap.pop, Heap.__init__", S+"bk_tree.py: BKTree.insert, BKTree.search"])
p("Exceptions raised by the functions given by the caller",
  "If to_comparable, the preorder or the distance raises, the heap or the BK-tree is as it was before the call.",
  "every state of a heap, every BK-tree made by any insertions with any distances, every function given by the caller, raising at any call", ALLW, [S+"heap.py: Heap.push, Heap.pop", S+"bk_tree.py: BKTree.insert, BKTree.search"])

p("Automata of the Thompson construction are objects modified in place",
  "Let concatenation or alternation be given two different Nfa objects, each with one initial and one final state. The first object, which is returned, becomes an automaton of the concatenation or of the union; the second one, and any other, is left as it is, so it may be used again. repetition and repetition_range work on copies of their automaton: the result is the one computed for the automaton they are given, and other objects are left as they are. thompson_compile_nfa always returns a new object: any number of calls, whether they return or raise, leave the automata returned before as they were. Given the same object twice, concatenation and alternation raise RuntimeError and leave it with exactly one more state, isolated, final if the first state is.",
  "all collections of Nfa objects, all pairs of them, same or different, all numbers of repetitions, all token lists, all sequences of calls to the compiler", "Sharing bugs appear only for some combinations of objects and operators, and the automata to compare have any size: no finite set of expressions shows that an operand is never modified behind the caller's back.", [S+"thompson_compile_nfa.py: insert_automaton", S+"thompson_compile_nfa.py: concatenation", S+"thompson_compile_nfa.py: alternation", S+"thompson_compile_nfa.py: repetition", S+"thompson_compile_nfa.py: repetition_range", S+"thompson_compile_nfa.py: thompson_compile_nfa"])

p("Searches whose visitor modifies the graph, and graphs copied into themselves",
  "A visitor may modify the graph during depth_first_search, breadth_first_search_graph or breadth_first_search. If no call changes the out-edges of the vertices of a set that contains the source and that edges do not leave (and, for breadth_first_search, the list of the vertices), the search makes the same calls in the same order and ends with the same colors or exception as on the graph as it was before the call, whatever happens to the other vertices and edges. So graph_copy(s, g, g) and automaton_copy(s, g, g), where the graph receives its own copy, add to g a copy, made of new vertices and edges, of what was reached from s before the call, with one callback per vertex and edge, and leave the rest as it was. Without this condition the searches may raise: removing the edge received by back_edge leads to an IndexError, removing the one received by non_tree_edge to a RuntimeError.",
  "all graphs, all visitors and callbacks, stateful or not, that raise or not, all sources, all filters of edges, all graphs built by the API copied into themselves", ALLW, [S+"depth_first_search.py: depth_first_search", S+"breadth_first_search.py: breadth_first_search_graph", S+"breadth_first_search.py: breadth_first_search", S+"graph_copy.py: graph_copy", S+"automaton_copy.py: automaton_copy"])

p("Products computed in place",
  "deterministic_intersection(g1, g2, g12) where g12 is the object g1, the object g2 or both does to g12 exactly what it does when g12 is another automaton with the same content: it appends the intersection of what g1 and g2 were before the call. The same holds for deterministic_union provided that no pair of states other than the first one contains an initial state; so deterministic_union(g, g, g) leaves the language of g unchanged, and so does deterministic_intersection(g, g, g) when the initial state is 0. Without this proviso a union in place may differ from the other one.",
  "all automata built through the API whose initial state and targets are states, all ways in which g12 is shared with the operands, all set iteration orders", ALLW, [S+"deterministic_intersection.py: deterministic_intersection", S+"deterministic_union.py: deterministic_union", S+"product_mixin.py: ProductMixin.add_product_vertex", S+"parallel_breadth_first_search.py: parallel_breadth_first_search"])

p("A trie inserted in itself",
  "trie.insert(trie) terminates without raising and leaves the trie exactly as it was, whatever the order in which the symbols are enumerated, although the trie that is read is the one that is modified.",
  "all tries built by insertions of words and tries, all set iteration orders", ALLW, [S+"trie.py: Trie.insert", S+"trie.py: trie_deterministic_fusion", S+"trie.py: TrieDeterministicFusion"])

p("Loops that change the automaton they iterate on",
  "A for loop over vertices(), edges() or out_edges(q) of an Automaton may call methods of this automaton in its body, the exceptions being caught. If the calls only add states and transitions (or set initial and final states), or only remove some: every item delivered is in the automaton at that time; no item is delivered twice; if the loop ends normally, every item that is there at the beginning and at the end has been delivered; the loop ends normally or raises RuntimeError, and it ends normally exactly if no turn changes the containers being iterated: the states (for vertices() and edges()) and the labels of the transitions from the current source (for edges() and out_edges(q)). In particular a loop over out_edges(q) that adds states and transitions from other states ends normally and delivers exactly the transitions from q.",
  "all automata reached by any calls, all bodies that choose their calls from the items seen so far", HIST, [S+"automaton.py: Automaton.out_edges", S+"automaton.py: Automaton.edges", S+"graph.py: Graph.vertices", S+"automaton.py: Automaton.add_edge", S+"automaton.py: Automaton.remove_edge"])

p("Loops over out_edges(q) that change an incidence automaton",
  "A for loop over out_edges(q) of an IncidenceAutomaton may call methods of this automaton in its body, the exceptions being caught. If the calls only add states and transitions, or only remove some (or set initial and final states): every transition delivered is in the automaton at that time; none is delivered twice; if the loop ends normally, every transition from q that is there at the beginning and at the end has been delivered; the loop ends normally or raises RuntimeError, and it ends normally exactly if no turn changes the labels of the transitions from q.",
  "all incidence automata reached by any calls but clear(), exceptions being caught; all bodies that choose their calls from the items seen so far", HIST, [S+"automaton.py: Automaton.out_edges", S+"incidence_automaton.py: IncidenceAutomaton.remove_vertex", S+"incidence_automaton.py: IncidenceAutomaton.remove_edge", S+"incidence_automaton.py: IncidenceAutomaton.add_edge"])

p("The deque handed over to topological_sort",
  "topological_sort(g, stack) updates stack in place. If g has no cycle, stack afterwards holds the vertices, the source of each edge before its target, followed by what it held before, and this is what is returned. If g has a cycle, RuntimeError is raised, and what was put in front of stack is a set of vertices, without repetition, every edge from which leads to one that comes later. More generally, when a method of a visitor raises, depth_first_search_graph has made the same calls as without the exception, up to this one, and the visitor keeps what it did.",
  "all finite graphs, all deques, all visitors", ALLW, [S+"topological_sort.py: topological_sort", S+"topological_sort.py: TopologicalSortVisitor", S+"depth_first_search.py: depth_first_search_graph"])

p("Loops over a GraphView that change the graph",
  "A for loop over vertices(), edges(), out_edges(u) or in_edges(u) of a GraphView may call methods of the graph in its body, the exceptions being caught. If the calls only add vertices and edges, or only remove some: every item delivered is relevant and in the graph at that time; none is delivered twice; if the loop ends normally, every relevant item that is there at the beginning and at the end has been delivered; the loop ends normally or raises RuntimeError, and it ends normally exactly if no turn changes the containers being iterated.",
  "all directed, undirected and incidence graphs reached by any history; all relevance maps that do not change during the loop; all bodies that choose their calls from the items seen so far", HIST, [S+"graph_view.py: GraphView.vertices", S+"graph_view.py: GraphView.edges", S+"graph_view.py: GraphView.out_edges", S+"graph_view.py: GraphView.in_edges"])

p("Calls on an Nfa that raise",
  "Whatever the history of calls on an Nfa, exceptions being caught, a call raises exactly if it is remove_vertex(u) and u is not a state; the exception is KeyError. Such a call leaves the states, the initial and final states and the next state number as they are, and it should change nothing else either; in fact it removes the transitions to u, which add_edge does not forbid, and so may change the language. If all targets are states, it changes neither the transitions nor the language. accepts(w) is true exactly for the words of the language after any such history.",
  "all alphabets, all histories of calls on an Nfa some of which raised, all calls, all words without the epsilon symbol", HIST, [S+"nfa.py: Nfa.add_edge", S+"nfa.py: Nfa.remove_edge", S+"graph.py: Graph.remove_vertex", S+"graph.py: Graph.clear", S+"nfa.py: Nfa.accepts"])
p("Loops over an Nfa that change it",
  "A for loop over vertices(), edges() or out_edges(q) of an Nfa may call methods of the Nfa in its body, the exceptions being caught. If the calls only add transitions, or only remove states and transitions (initial and final states may be set in both cases): every item delivered is in the automaton at that time; none is delivered twice; if the loop ends normally, every item that is there at the beginning and at the end has been delivered; the loop ends normally or raises RuntimeError, and it ends normally exactly if no turn changes the containers being iterated. The same holds if states are added too, provided the sources of all transitions are states. A loop over edges() that removes the transitions it receives raises RuntimeError after the first one. A loop that only repeats transitions that are there, or sets initial and final states, ends normally and delivers all transitions.",
  "all alphabets; all automata reached by any history; all bodies that choose their calls from the items seen so far", HIST, [S+"nfa.py: Nfa.edges", S+"nfa.py: Nfa.out_edges", S+"nfa.py: Nfa.add_edge", S+"nfa.py: Nfa.remove_edge", S+"graph.py: Graph.vertices"])

p("Descriptors of an Nfa kept in variables",
  "An edge descriptor obtained from edges() or out_edges() of an Nfa and kept in a variable should keep showing what it showed. In fact its distinguisher holds the set of numbers of the automaton itself: add_edge of the same transition changes it. Exactly: a call changes what a listed descriptor shows if and only if it is add_edge of the same source, target and label, and then one number is added; as long as the transition is listed after every call, the old descriptor shows it as it is now; once it is removed, the descriptor is never listed again and shows the same numbers for ever, even if the same transition is added again, whose new descriptor has another set. A descriptor always shows the numbers from 1 to some k that never decreases, and no two listed descriptors share a set. Who never keeps a descriptor cannot notice the sharing: all calls have the outcomes and effects they would have if the sets were values.",
  "all alphabets, all histories of calls on an Nfa some of which raised, all descriptors obtained at any time, all further calls", HIST, [S+"nfa.py: Nfa.add_edge", S+"nfa.py: Nfa.remove_edge", S+"nfa.py: Nfa.edges", S+"nfa.py: Nfa.out_edges", S+"graph.py: EdgeDescriptor"])

p("is_deterministic and is_minimal",
  "is_deterministic(g) is true, and indeed no two transitions from a state have the same label, whatever the history. is_minimal(g) should be true exactly if no automaton with the same language has fewer states; in fact it returns an exception object, which counts as true in a test, for every g, minimal or not. A test that works: if every state of an incidence automaton lies on an accepting path and there are both final and non-final states, it has the fewest possible states exactly if hopcroft_minimize returns an automaton with as many states, and exactly if no two states are indistinguishable; the automaton returned by hopcroft_minimize has the fewest possible states.",
  "all alphabets, all automata produced by any history of calls, all orders in which sets are enumerated, all rival automata", ALLW, [S+"automaton.py: is_minimal", S+"automaton.py: is_deterministic", S+"automaton.py: Automaton.is_deterministic", S+"hopcroft_minimize.py: hopcroft_minimize"])

p("Breadth-first search stopped by its visitor",
  "breadth_first_search_graph and breadth_first_search make the same calls to every visitor; the first exception raised by the visitor is the outcome, and the visitor has then received the calls that precede it and no other. In particular a visitor that records the tree edge leading to each vertex, and raises once a vertex t is discovered, stops breadth_first_search(s, g) exactly if there is a path from s to t; it then holds such a path with the fewest edges, and nothing about vertices farther than t. If there is no such path the search ends, and the visitor holds a path with the fewest edges to every vertex reachable from s. breadth_first_search_graph(g) without sources raises TypeError, and the visitor is not called.",
  "all graphs with finitely many reachable vertices, all if_push predicates, all lists of distinct sources, all visitors (with any state, raising at any call), all vertices searched for", ALLW, [S+"breadth_first_search.py: breadth_first_search_graph", S+"breadth_first_search.py: breadth_first_search", S+"breadth_first_search.py: DefaultBreadthFirstSearchVisitor"])

p("Aggregated visitors when one of them raises, is listed twice, or is added later",
  "The distinct visitors aggregated in an AggregatedVisitor receive the same calls in the same order. If none of them raises, each has received all of them. If one of them raises, the search ends with its exception, the visitors that precede it in the list have received the calls up to that one included, those that follow have received the calls before it, and no other object changes. A search with the visitors aggregated ends without an exception exactly if it does with each of them alone, and it then leaves each of them as it would be alone. A visitor listed n times receives each call n times. An AggregatedVisitor made from a list that is not empty uses this list itself, so that visitors appended to the list later are called; made from an empty list or none, it has a list of its own, and visitors appended later to the list given are never called.",
  "all lists of visitors, all visitors (any state, raising at any call), all sequences of calls, all graphs with finitely many reachable vertices, breadth-first and depth-first searches, all later additions", HIST, [S+"aggregated_visitor.py: AggregatedVisitor.__init__", S+"aggregated_visitor.py: AggregatedVisitor.__getattr__", S+"breadth_first_search.py: breadth_first_search_graph", S+"depth_first_search.py: depth_first_search_graph"])

p("dijkstra_shortest_path called with a visitor",
  "Called with a visitor that never raises, dijkstra_shortest_path has the outcome and leaves the maps that it has and leaves without visitor, and the last call is examine_vertex(t) if t is reached. If the visitor raises an exception other than DijkstraStopException before examine_vertex(t) or at that call, this exception is the outcome and the maps stay as they were at that call. With non-negative weights and no cycle of weight zero, a least-weight path is returned if there is one, and None otherwise. A visitor that stops the search itself, such as DijkstraTowardsVisitor, does not make it return a path that is not shortest.",
  "all graphs, sources, targets and weights in a selective algebra, all visitors (any state, reading the maps, raising at any call), all initial distances, all orders of the sets of predecessors", ALLW, [S+"dijkstra_shortest_paths.py: dijkstra_shortest_path", S+"dijkstra_shortest_paths.py: DijkstraTowardsVisitor", S+"dijkstra_shortest_paths.py: DijkstraStopException", S+"dijkstra_shortest_paths.py: make_shortest_path", S+"aggregated_visitor.py: AggregatedVisitor"])

p("Parallel search: what the visitor received and the colours when an exception leaves it; colour maps that are not empty",
  "Whatever the pairs of sources and the content of the colour map given, parallel_breadth_first_search makes the same calls to every visitor. If the visitor raises, its exception is the outcome, the visitor has received the calls up to that one and no other, and the colours are as they were at that call. A pair is gray when discover_vertex is called and black when finish_vertex is called, and colours do not change otherwise (a source keeps its colour until then). tree_edge is called if the target is white, and the target is then discovered; gray_target if it is gray, black_target if it is black. With an if_push that depends on the targets only, the pairs examined are the sources and then the pairs discovered that if_push accepts, in order of discovery; each is finished; a pair is discovered at most once, only if it is white at the start; once the search has ended, the pairs examined are black, the other pairs discovered are gray, and the others have kept their colours. The distinct visitors of an AggregatedVisitor receive these calls in their order until one of them raises, and the search ends without an exception exactly if it does with each of them alone.",
  "all automata built by the API, all lists of pairs of sources or none, all if_push, all contents of the colour map, all visitors (any state, reading the colours, raising at any call), all orders in which the sets of symbols are enumerated", HIST, [S+"parallel_breadth_first_search.py: parallel_breadth_first_search", S+"parallel_breadth_first_search.py: ParallelBreadthFirstSearchVisitor"])

p("A parallel search stopped at the first pair of a given kind finds a shortest word",
  "Let P be a property of pairs of states that the pair of two undefined states does not have. parallel_breadth_first_search, called with a visitor that raises when the first pair with this property is examined, raises exactly if some word leads the two automata to such a pair; the pair at which it raises is then reached by a word which is a shortest one among those that lead to such a pair. In particular, with the property that exactly one of the two states is final, it raises exactly if the languages differ, at a pair reached by a word that belongs to one language only, and no shorter word does. With the property that both states are final, it raises exactly if the languages have a common word, at a pair reached by a shortest common word. With the property that the first state is final and the second is not, it raises exactly if the first language is not included in the second, at a pair reached by a shortest word of the first language that is not in the second. The word is always shorter than (n1 + 1) * (n2 + 1), where n1 and n2 are the numbers of states; two automata that accept the same words of length less than this bound accept the same words.",
  "all automata built by the API, all properties of pairs, all words, all orders in which the sets of symbols are enumerated", ALLW, [S+"parallel_breadth_first_search.py: parallel_breadth_first_search", S+"parallel_breadth_first_search.py: ParallelBreadthFirstSearchVisitor", S+"automaton.py: Automaton.delta", S+"automaton.py: Automaton.sigma"])

with open(os.path.join(os.path.dirname(__file__), "..", "properties.jsonl"), "w") as f:
    for x in P:
        f.write(json.dumps(x) + "\n")
print(len(P))
