{"id": "C01", "title": "Vertex descriptors are fresh", "statement": "add_vertex() returns a descriptor that is not currently in vertices() and that was never returned before by the same graph since its creation (or its last clear()), whatever mix of add/remove operations happened in between.", "quantifier": "all histories of add_vertex/remove_vertex/add_edge/remove_edge calls on a DirectedGraph", "why_tests_cant": "Depends on the whole history of mutations; tests exercise a handful of fixed histories.", "anchors": ["src/pybgl/graph.py:Graph.add_vertex", "src/pybgl/graph.py:Graph.remove_vertex"]}
{"id": "C02", "title": "DirectedGraph is a multigraph with distinguishable parallel edges", "statement": "After any history of successful calls, edges() yields exactly the descriptors returned by add_edge and not removed since (by remove_edge or by removal of an endpoint), each exactly once; vertices() yields exactly the vertices added and not removed; a descriptor returned by add_edge is never already in the graph.", "quantifier": "all histories of operations on a DirectedGraph", "why_tests_cant": "Depends on the whole history of mutations; tests exercise a handful of fixed histories.", "anchors": ["src/pybgl/graph.py:Graph.add_edge", "src/pybgl/graph.py:Graph.remove_edge", "src/pybgl/graph.py:Graph.edges"]}
{"id": "C03", "title": "remove_vertex removes exactly the incident edges", "statement": "remove_vertex(u) on an existing vertex removes u and every edge whose source or target is u, and leaves every other vertex and edge untouched; on an absent vertex it raises KeyError.", "quantifier": "all reachable directed graphs and all vertices", "why_tests_cant": "Depends on the whole history of mutations; tests exercise a handful of fixed histories.", "anchors": ["src/pybgl/graph.py:Graph.remove_vertex"]}
{"id": "C04", "title": "out_edges, edges and degrees agree", "statement": "In every reachable directed graph, out_edges(u) yields exactly the edges of edges() whose source is u, without repetition, and num_edges() is the sum of out_degree(u) over the vertices.", "quantifier": "all reachable directed graphs, all u", "why_tests_cant": "Depends on the whole history of mutations; tests exercise a handful of fixed histories.", "anchors": ["src/pybgl/graph.py:Graph.out_edges", "src/pybgl/graph.py:Graph.out_degree", "src/pybgl/graph.py:Graph.num_edges"]}
{"id": "C05", "title": "edge(u, v) finds the edge iff it is unique", "statement": "edge(u, v) returns (e, True) with e an edge from u to v iff exactly one edge links u to v; otherwise it returns (None, False).", "quantifier": "all reachable directed graphs, all u and v", "why_tests_cant": "Depends on the whole history of mutations; tests exercise a handful of fixed histories.", "anchors": ["src/pybgl/graph.py:Graph.edge"]}
{"id": "C06", "title": "UndirectedGraph is symmetric", "statement": "In every reachable undirected graph, (u, v, n) is in out_edges(u) iff (v, u, n) is in out_edges(v); in_edges(u) = out_edges(u); and edges() lists each undirected edge exactly once, with source <= target.", "quantifier": "all histories of successful operations on an UndirectedGraph", "why_tests_cant": "Depends on the whole history of mutations; tests exercise a handful of fixed histories.", "anchors": ["src/pybgl/graph.py:UndirectedGraph.add_edge", "src/pybgl/graph.py:UndirectedGraph.remove_edge", "src/pybgl/graph.py:UndirectedGraph.edges"]}
{"id": "C07", "title": "UndirectedGraph mutations are exact", "statement": "add_edge(u, v) adds exactly one new undirected edge; remove_edge(e), called with the descriptor seen from either endpoint, removes exactly that edge; remove_vertex(u) removes exactly the edges incident to u; none of them raises on existing arguments.", "quantifier": "all reachable undirected graphs, all existing vertices and edges", "why_tests_cant": "Depends on the whole history of mutations; tests exercise a handful of fixed histories.", "anchors": ["src/pybgl/graph.py:UndirectedGraph.add_edge", "src/pybgl/graph.py:UndirectedGraph.remove_edge", "src/pybgl/graph.py:Graph.remove_vertex"]}
{"id": "C08", "title": "IncidenceGraph in-edges mirror out-edges", "statement": "In every reachable IncidenceGraph, in_edges(v) yields exactly the edges of edges() whose target is v, without repetition, and the sums of in-degrees and of out-degrees both equal num_edges().", "quantifier": "all histories of successful operations on an IncidenceGraph", "why_tests_cant": "Depends on the whole history of mutations; tests exercise a handful of fixed histories.", "anchors": ["src/pybgl/incidence_graph.py:IncidenceGraph"]}
{"id": "C09", "title": "reverse_graph is an involution that transposes the graph", "statement": "After reverse_graph(g), for every vertex u the out-edges of u are the former in-edges of u and source/target are exchanged; calling it twice restores the graph.", "quantifier": "all incidence graphs and vertices", "why_tests_cant": "Universally quantified over graphs and vertices.", "anchors": ["src/pybgl/reverse.py:reverse_graph"]}
{"id": "C10", "title": "GraphView shows exactly the induced relevant subgraph", "statement": "A GraphView lists exactly the relevant vertices, and exactly the relevant edges both of whose endpoints are relevant, consistently across vertices(), edges(), out_edges(), in_edges() and the degree/count methods; | and & are union and intersection of the relevance predicates; an edge shown by gv1 - gv2 is always shown by gv1.", "quantifier": "all graphs, all relevance predicates, all edges", "why_tests_cant": "Universally quantified over predicates; the shipped test uses one graph and a few thresholds.", "anchors": ["src/pybgl/graph_view.py:GraphView"]}
{"id": "C11", "title": "Automaton.add_edge never overwrites a transition", "statement": "If a transition labelled a already leaves q, add_edge(q, r, a) returns (None, False) and leaves the automaton unchanged; otherwise it adds exactly that transition and returns (e, True).", "quantifier": "all automata, states and symbols", "why_tests_cant": "Must hold for every state numbering, including target state 0.", "anchors": ["src/pybgl/automaton.py:Automaton.add_edge", "src/pybgl/automaton.py:Automaton.delta"]}
{"id": "C12", "title": "accepts(w) means: the w-labelled path from the initial state ends in a final state", "statement": "Automaton.accepts(w) is True iff some sequence of transitions labelled by the symbols of w leads from the initial state to a final state; delta_word(q, uv) = delta_word(delta_word(q, u), v); at most one such path exists.", "quantifier": "all automata and words", "why_tests_cant": "Ranges over infinitely many words and automata; tests try a few literals.", "anchors": ["src/pybgl/automaton.py:Automaton.accepts", "src/pybgl/automaton.py:Automaton.delta_word"]}
{"id": "C13", "title": "IncidenceAutomaton in-edges mirror out-edges", "statement": "After any history of operations, in_edges(r) of an IncidenceAutomaton yields exactly the transitions of edges() whose target is r.", "quantifier": "all histories of operations on an IncidenceAutomaton", "why_tests_cant": "Depends on the whole history of mutations; tests exercise a handful of fixed histories.", "anchors": ["src/pybgl/incidence_automaton.py:IncidenceAutomaton"]}
{"id": "C14", "title": "Inserting a word into a trie adds exactly that word", "statement": "On a trie, insert(w) terminates and afterwards the trie accepts a word x iff it accepted x before or x = w; inserting again changes nothing.", "quantifier": "all tries reachable by insertions, all words", "why_tests_cant": "Ranges over infinitely many words and automata; tests try a few literals.", "anchors": ["src/pybgl/trie.py:Trie.insert", "src/pybgl/automaton.py:Automaton.automaton_insert_string"]}
{"id": "C15", "title": "A trie accepts exactly the inserted words, with one state per prefix", "statement": "After inserting any list of words into a new Trie, the trie accepts exactly those words; distinct states are reached by distinct words, the reachable states are exactly the prefixes of inserted words, and num_edges() = num_vertices() - 1 is the true number of edges.", "quantifier": "all finite lists of words", "why_tests_cant": "Ranges over infinitely many words and automata; tests try a few literals.", "anchors": ["src/pybgl/trie.py:Trie", "src/pybgl/automaton.py:Automaton.automaton_insert_string"]}
{"id": "C16", "title": "trie_deterministic_fusion computes the union", "statement": "After fusing a trie g2 into a trie g1, g1 accepts exactly the words accepted by g1 or by g2 before the fusion, and g2 is unchanged.", "quantifier": "all pairs of tries, all symbol iteration orders", "why_tests_cant": "Ranges over infinitely many words and automata; tests try a few literals.", "anchors": ["src/pybgl/trie.py:trie_deterministic_fusion", "src/pybgl/trie.py:TrieDeterministicFusion"]}
{"id": "C17", "title": "make_suffix_trie recognises exactly the bounded factors", "statement": "make_suffix_trie(w, max_len) accepts x iff x is a contiguous factor of w and (when max_len is truthy) len(x) <= max_len.", "quantifier": "all words w, all bounds, all x", "why_tests_cant": "Ranges over infinitely many words and automata; tests try a few literals.", "anchors": ["src/pybgl/suffix_trie.py:make_suffix_trie"]}
{"id": "C18", "title": "factors enumerates exactly the bounded factors", "statement": "x occurs in factors(s, max_len) iff x is empty or x is a non-empty contiguous factor of s of length at most max_len (when max_len is truthy); slices(n) yields each pair (i, j) with 0 <= i < j <= n exactly once plus (0, 0).", "quantifier": "all words, lengths and bounds", "why_tests_cant": "Ranges over infinitely many words and automata; tests try a few literals.", "anchors": ["src/pybgl/suffix_trie.py:slices", "src/pybgl/suffix_trie.py:factors"]}
{"id": "C19", "title": "DigitalSequence(w) accepts exactly w", "statement": "DigitalSequence(w).accepts(x) iff x = w; its states are 0..len(w), its edges spell w, and out_edges/in_edges agree with edges().", "quantifier": "all words w and x", "why_tests_cant": "Ranges over infinitely many words and automata; tests try a few literals.", "anchors": ["src/pybgl/digital_sequence.py:DigitalSequence"]}
{"id": "C20", "title": "trie_matching counts prefixes exactly", "statement": "trie_matching(g1, g2) returns counters c with c[3] = number of words accepted by both tries, c[1] = accepted only by g1, c[2] = accepted only by g2, and c[0] = number of prefixes known to g1 or g2 but accepted by neither.", "quantifier": "all pairs of tries, all symbol iteration orders", "why_tests_cant": "Ranges over infinitely many words and automata; tests try a few literals.", "anchors": ["src/pybgl/trie_matching.py:trie_matching"]}
{"id": "C21", "title": "NodeAutomaton is deterministic and label-consistent", "statement": "In every reachable NodeAutomaton, two distinct successors of a state never carry the same symbol, every transition is labelled by the symbol of its target, and add_edge(q, r) fails (returning (None, False), changing nothing) iff q already has a successor carrying the symbol of r.", "quantifier": "all histories of operations on a NodeAutomaton", "why_tests_cant": "Depends on the whole history of mutations; tests exercise a handful of fixed histories.", "anchors": ["src/pybgl/node_automaton.py:NodeAutomaton"]}
{"id": "C22", "title": "IncidenceNodeAutomaton predecessors mirror the transitions", "statement": "After any history of successful operations, in_edges(r) yields exactly the transitions of edges() whose target is r; remove_vertex leaves no transition from or to the removed state.", "quantifier": "all histories of operations on an IncidenceNodeAutomaton", "why_tests_cant": "Depends on the whole history of mutations; tests exercise a handful of fixed histories.", "anchors": ["src/pybgl/incidence_node_automaton.py:IncidenceNodeAutomaton"]}
{"id": "C23", "title": "make_automaton builds the automaton it is given", "statement": "make_automaton(transitions, q0, pmap_vfinal) yields an automaton accepting w iff there is a path labelled w in the transition list from q0 to a final name, provided no two listed transitions share source and symbol; the automaton has one state per name and one transition per listed transition. make_incidence_automaton yields the same automaton, with in_edges mirroring the transitions.", "quantifier": "all deterministic transition lists, all words", "why_tests_cant": "Ranges over infinitely many words and automata; tests try a few literals.", "anchors": ["src/pybgl/automaton.py:make_automaton", "src/pybgl/incidence_automaton.py:make_incidence_automaton"]}
{"id": "C24", "title": "is_complete and alphabet are exact", "statement": "alphabet() is the set of symbols labelling some transition, sigma(q) the set of symbols labelling a transition leaving q, edge(q, r, a) returns that transition and True iff the automaton has it, and is_complete() is True iff delta(q, a) is defined for every state q and every symbol a of the alphabet.", "quantifier": "all automata", "why_tests_cant": "Ranges over infinitely many words and automata; tests try a few literals.", "anchors": ["src/pybgl/automaton.py:Automaton.is_complete", "src/pybgl/automaton.py:Automaton.sigma", "src/pybgl/automaton.py:Automaton.alphabet", "src/pybgl/automaton.py:Automaton.edge"]}
{"id": "C25", "title": "delta_epsilon computes the epsilon closure and terminates", "statement": "Nfa.delta_epsilon(qs) terminates on every NFA (including epsilon cycles) and returns exactly the states reachable from qs through epsilon transitions.", "quantifier": "all NFAs and state sets", "why_tests_cant": "Ranges over every finite graph (all sizes, cycles, parallel edges, self loops) and every out-edge order; tests run a few fixed graphs.", "anchors": ["src/pybgl/nfa.py:Nfa.delta_epsilon", "src/pybgl/nfa.py:Nfa.delta_one_step"]}
{"id": "C26", "title": "Nfa.accepts(w) iff an accepting run exists", "statement": "For every word w not containing the epsilon symbol, Nfa.accepts(w) is True iff there is a path from an initial state to a final state whose labels, epsilons erased, spell w.", "quantifier": "all NFAs and all words", "why_tests_cant": "Ranges over infinitely many words and automata; tests try a few literals.", "anchors": ["src/pybgl/nfa.py:Nfa.accepts", "src/pybgl/nfa.py:Nfa.delta_word", "src/pybgl/nfa.py:Nfa.delta"]}
{"id": "C27", "title": "moore_determination preserves the language", "statement": "moore_determination(nfa, complete=c) terminates and returns a DFA that accepts w iff nfa accepts w, for c True or False, whatever the order in which Python sets are iterated and popped.", "quantifier": "all NFAs, all words, all set iteration orders", "why_tests_cant": "Ranges over infinitely many words and automata; tests try a few literals.", "anchors": ["src/pybgl/moore_determination.py:moore_determination"]}
{"id": "C28", "title": "moore_determination builds one state per reachable subset, and a complete DFA on demand", "statement": "The states of the resulting DFA correspond one-to-one with the subsets of NFA states reachable in the subset construction; with complete=True every state has a transition for every symbol of the NFA's alphabet.", "quantifier": "all NFAs, all set iteration orders", "why_tests_cant": "Ranges over infinitely many words and automata; tests try a few literals.", "anchors": ["src/pybgl/moore_determination.py:moore_determination"]}
{"id": "C29", "title": "Thompson literal and bracket automata", "statement": "literal(a) accepts exactly the one-symbol word a; bracket(chars) accepts exactly the one-symbol words drawn from chars.", "quantifier": "all symbols and character sets, all words", "why_tests_cant": "Ranges over infinitely many words and automata; tests try a few literals.", "anchors": ["src/pybgl/thompson_compile_nfa.py:literal", "src/pybgl/thompson_compile_nfa.py:bracket"]}
{"id": "C30", "title": "Thompson concatenation and alternation", "statement": "concatenation(nfa1, ..., nfa2, ...) recognises the concatenation and alternation(...) the union of the two languages, the result again having one initial and one final state.", "quantifier": "all single-initial single-final NFAs, all words", "why_tests_cant": "Ranges over infinitely many words and automata; tests try a few literals.", "anchors": ["src/pybgl/thompson_compile_nfa.py:concatenation", "src/pybgl/thompson_compile_nfa.py:alternation", "src/pybgl/thompson_compile_nfa.py:insert_automaton"]}
{"id": "C31", "title": "Thompson star and plus", "statement": "zero_or_more(nfa) recognises the Kleene star, one_or_more(nfa) the Kleene plus of the language.", "quantifier": "all single-initial single-final NFAs, all words", "why_tests_cant": "Ranges over infinitely many words and automata; tests try a few literals.", "anchors": ["src/pybgl/thompson_compile_nfa.py:zero_or_more", "src/pybgl/thompson_compile_nfa.py:one_or_more"]}
{"id": "C32", "title": "Thompson zero_or_one", "statement": "zero_or_one(nfa) recognises exactly the language of nfa plus the empty word.", "quantifier": "all single-initial single-final NFAs produced by the library, all words", "why_tests_cant": "Ranges over infinitely many words and automata; tests try a few literals.", "anchors": ["src/pybgl/thompson_compile_nfa.py:zero_or_one"]}
{"id": "C33", "title": "Thompson bounded repetitions", "statement": "repetition(nfa, m) recognises L^m and repetition_range(nfa, m, n) recognises the union of L^k for m <= k <= n (k >= m when n is None).", "quantifier": "all single-initial single-final NFAs produced by the library, all bounds, all words", "why_tests_cant": "Ranges over infinitely many words and automata; tests try a few literals.", "anchors": ["src/pybgl/thompson_compile_nfa.py:repetition", "src/pybgl/thompson_compile_nfa.py:repetition_range"]}
{"id": "C34", "title": "Regular expressions compile to their language", "statement": "Evaluating a postfix regular expression made of literals, character sets, concatenation, alternation, star, plus, optional and repetition operators yields an NFA (and, through moore_determination, a DFA) accepting exactly the language of the expression.", "quantifier": "all regular expressions and all words", "why_tests_cant": "Ranges over infinitely many words and automata; tests try a few literals.", "anchors": ["src/pybgl/thompson_compile_nfa.py:thompson_compile_nfa", "src/pybgl/regexp.py:compile_nfa", "src/pybgl/regexp.py:compile_dfa"]}
{"id": "C35", "title": "shunting_yard_postfix inverts infix printing", "statement": "For every expression tree over binary operators with arbitrary precedences and associativities, printing it in infix form with parentheses (all of them, or only where precedence and associativity require) and running shunting_yard_postfix returns the postfix form of the tree.", "quantifier": "all expression trees, all operator tables", "why_tests_cant": "Unbounded nesting of precedences, associativities and parentheses.", "anchors": ["src/pybgl/shunting_yard_postfix.py:shunting_yard_postfix"]}
{"id": "C36", "title": "RPN evaluation rebuilds the tree", "statement": "Feeding the postfix form of an expression tree to the RPN deque computes the value of the tree (shunting_yard_compute) and builds the AST of the tree (shunting_yard_ast), leaving exactly one item on the deque.", "quantifier": "all expression trees", "why_tests_cant": "Unbounded tree depth.", "anchors": ["src/pybgl/shunting_yard_postfix.py:RpnDequeOperation", "src/pybgl/shunting_yard_postfix.py:RpnDequeAlg", "src/pybgl/shunting_yard_postfix.py:RpnDequeAst"]}
{"id": "C37", "title": "tokenize is lossless", "statement": "The chunks passed to on_matched and on_unmatched, in order, concatenate to the input string, are non-empty, and carry their true position; matched chunks are the non-empty matches of the tokenizer.", "quantifier": "all strings and all match sequences of the tokenizer", "why_tests_cant": "Ranges over all strings and all regular-expression match sequences.", "anchors": ["src/pybgl/tokenize.py:tokenize"]}
{"id": "C38", "title": "hopcroft_minimize preserves the language", "statement": "When it returns, hopcroft_minimize(g) returns a deterministic automaton accepting exactly the words accepted by g, whatever the set iteration order; it terminates for every automaton having at least one final and one non-final state.", "quantifier": "all incidence automata whose in-edges mirror their transitions (C13), all words, all set iteration orders", "why_tests_cant": "Ranges over infinitely many words and automata; tests try a few literals.", "anchors": ["src/pybgl/hopcroft_minimize.py:hopcroft_minimize", "src/pybgl/hopcroft_minimize.py:hopcroft_agglomerate_states"]}
{"id": "C39", "title": "hopcroft_minimize merges exactly the equivalent states", "statement": "Two states of g end in the same aggregate iff no word distinguishes them (same definedness and finality of delta_word along every word); on a complete automaton this is equality of right languages, so the result has the minimum number of states among reachable-equivalent automata.", "quantifier": "all incidence automata with consistent in-edges (C13), an initial state, a final and a non-final state; all set iteration orders", "why_tests_cant": "Ranges over infinitely many words and automata; tests try a few literals.", "anchors": ["src/pybgl/hopcroft_minimize.py:hopcroft_agglomerate_states"]}
{"id": "C40", "title": "hopcroft_minimize succeeds on every non-empty automaton", "statement": "hopcroft_minimize(g) returns normally, without an extra isolated state, for every non-empty automaton, including those whose states are all final or all non-final.", "quantifier": "all incidence automata", "why_tests_cant": "Ranges over infinitely many words and automata; tests try a few literals.", "anchors": ["src/pybgl/hopcroft_minimize.py:hopcroft_agglomerate_states"]}
{"id": "C41", "title": "revuz_height is the longest distance to a leaf", "statement": "On an acyclic automaton revuz_height terminates, maps every state to the length of the longest path from it to a leaf, and returns the maximum of these heights.", "quantifier": "all acyclic automata", "why_tests_cant": "Ranges over every finite graph (all sizes, cycles, parallel edges, self loops) and every out-edge order; tests run a few fixed graphs.", "anchors": ["src/pybgl/revuz_minimize.py:revuz_height"]}
{"id": "C42", "title": "revuz_minimize preserves the language and merges all equivalent states", "statement": "On an acyclic deterministic automaton, revuz_minimize terminates, leaves the accepted language unchanged, and afterwards no two distinct remaining states have the same finality and the same labelled successors.", "quantifier": "all acyclic incidence automata, all words, all set iteration orders", "why_tests_cant": "Ranges over infinitely many words and automata; tests try a few literals.", "anchors": ["src/pybgl/revuz_minimize.py:revuz_minimize"]}
{"id": "C43", "title": "prune_incidence_automaton keeps exactly the useful states", "statement": "prune_incidence_automaton(g) preserves the language and keeps exactly the states that are reachable from the initial state and from which a final state is reachable.", "quantifier": "all incidence automata, all words", "why_tests_cant": "Ranges over infinitely many words and automata; tests try a few literals.", "anchors": ["src/pybgl/prune_incidence_automaton.py:prune_incidence_automaton", "src/pybgl/prune_incidence_automaton.py:find_reachable_vertices"]}
{"id": "C44", "title": "parallel_breadth_first_search visits exactly the jointly reachable pairs", "statement": "Without if_push, parallel_breadth_first_search terminates and examines exactly the pairs (delta*(q01, w), delta*(q02, w)) for the words w along which at least one side stays defined.", "quantifier": "all pairs of automata, all symbol iteration orders", "why_tests_cant": "Ranges over infinitely many words and automata; tests try a few literals.", "anchors": ["src/pybgl/parallel_breadth_first_search.py:parallel_breadth_first_search"]}
{"id": "C45", "title": "deterministic_inclusion decides language inclusion", "statement": "deterministic_inclusion(g1, g2) terminates and returns 0 iff L(g1) = L(g2), 1 iff L(g1) is strictly included in L(g2), -1 iff L(g2) is strictly included in L(g1), None iff the languages are incomparable.", "quantifier": "all pairs of automata, all symbol iteration orders", "why_tests_cant": "Ranges over infinitely many words and automata; tests try a few literals.", "anchors": ["src/pybgl/deterministic_inclusion.py:deterministic_inclusion"]}
{"id": "C46", "title": "deterministic_intersection recognises the intersection", "statement": "deterministic_intersection(g1, g2) returns an automaton accepting w iff both g1 and g2 accept w.", "quantifier": "all pairs of automata, all words", "why_tests_cant": "Ranges over infinitely many words and automata; tests try a few literals.", "anchors": ["src/pybgl/deterministic_intersection.py:deterministic_intersection", "src/pybgl/product_mixin.py:ProductMixin"]}
{"id": "C47", "title": "deterministic_union recognises the union", "statement": "deterministic_union(g1, g2) returns an automaton accepting w iff g1 or g2 accepts w.", "quantifier": "all pairs of automata, all words", "why_tests_cant": "Ranges over infinitely many words and automata; tests try a few literals.", "anchors": ["src/pybgl/deterministic_union.py:deterministic_union", "src/pybgl/product_mixin.py:ProductMixin"]}
{"id": "C48", "title": "breadth_first_search visits each reachable vertex exactly once", "statement": "BFS from s terminates, discovers, examines and finishes each vertex reachable from s exactly once (discovery before examination before finish), and touches no other vertex; every out-edge of a reachable vertex is examined exactly once.", "quantifier": "all finite graphs, sources and out-edge orders", "why_tests_cant": "Ranges over every finite graph (all sizes, cycles, parallel edges, self loops) and every out-edge order; tests run a few fixed graphs.", "anchors": ["src/pybgl/breadth_first_search.py:breadth_first_search_graph"]}
{"id": "C49", "title": "breadth_first_search discovers vertices by increasing distance", "statement": "Vertices are discovered in order of non-decreasing number of hops from the sources, and the tree edges give each vertex a shortest (fewest hops) path.", "quantifier": "all finite graphs, sources and out-edge orders", "why_tests_cant": "Ranges over every finite graph (all sizes, cycles, parallel edges, self loops) and every out-edge order; tests run a few fixed graphs.", "anchors": ["src/pybgl/breadth_first_search.py:breadth_first_search_graph"]}
{"id": "C50", "title": "breadth_first_search works without a visitor", "statement": "breadth_first_search(s, g) may be called with the default vis=None, as its signature advertises, on any graph.", "quantifier": "all graphs", "why_tests_cant": "Universally quantified; the test-suite always passes a visitor.", "anchors": ["src/pybgl/breadth_first_search.py:breadth_first_search"]}
{"id": "C51", "title": "depth_first_search visits each reachable vertex exactly once", "statement": "DFS from s terminates, discovers and finishes each vertex reachable from s (through pushed edges) exactly once, touches no other vertex, and examines every pushed out-edge of every reachable vertex exactly once.", "quantifier": "all finite graphs, sources, filters and out-edge orders", "why_tests_cant": "Ranges over every finite graph (all sizes, cycles, parallel edges, self loops) and every out-edge order; tests run a few fixed graphs.", "anchors": ["src/pybgl/depth_first_search.py:depth_first_search"]}
{"id": "C52", "title": "depth_first_search nests discover/finish intervals", "statement": "Between discover(u) and finish(u) the events form a balanced nesting: discovery/finish intervals of any two vertices are disjoint or nested, and a vertex is discovered inside u's interval only if it is reachable from u.", "quantifier": "all finite graphs, sources and out-edge orders", "why_tests_cant": "Ranges over every finite graph (all sizes, cycles, parallel edges, self loops) and every out-edge order; tests run a few fixed graphs.", "anchors": ["src/pybgl/depth_first_search.py:depth_first_search"]}
{"id": "C53", "title": "depth_first_search classifies edges soundly", "statement": "back_edge(e) is reported iff the target of e is an ancestor still being explored (so e closes a cycle); on normal termination every examined edge was reported exactly once as tree, back or forward/cross edge.", "quantifier": "all finite graphs, sources and out-edge orders", "why_tests_cant": "Ranges over every finite graph (all sizes, cycles, parallel edges, self loops) and every out-edge order; tests run a few fixed graphs.", "anchors": ["src/pybgl/depth_first_search.py:depth_first_search"]}
{"id": "C54", "title": "topological_sort sorts every DAG and rejects every cyclic graph", "statement": "topological_sort(g) terminates; it returns a permutation of the vertices in which the source of each edge precedes its target if g is acyclic, and raises RuntimeError iff g has a cycle.", "quantifier": "all finite directed graphs", "why_tests_cant": "Ranges over every finite graph (all sizes, cycles, parallel edges, self loops) and every out-edge order; tests run a few fixed graphs.", "anchors": ["src/pybgl/topological_sort.py:topological_sort"]}
{"id": "C55", "title": "strong_components partitions the graph into its strongly connected components", "statement": "strong_components(g, pmap) terminates, gives two vertices the same component id iff each is reachable from the other, uses exactly the ids 0..total-1, and for every edge (u, v) id(u) >= id(v).", "quantifier": "all finite directed graphs and out-edge orders", "why_tests_cant": "Ranges over every finite graph (all sizes, cycles, parallel edges, self loops) and every out-edge order; tests run a few fixed graphs.", "anchors": ["src/pybgl/strong_components.py:strong_components", "src/pybgl/strong_components.py:TarjanVisitor"]}
{"id": "C56", "title": "cut returns a vertex cut", "statement": "cut(s, g, in_cut) returns exactly the targets of the in_cut edges leaving a vertex reachable from s without crossing the edge cut, plus the leaves so reachable; consequently every path from s to a leaf meets the returned set.", "quantifier": "all finite graphs, all edge predicates", "why_tests_cant": "Ranges over every finite graph (all sizes, cycles, parallel edges, self loops) and every out-edge order; tests run a few fixed graphs.", "anchors": ["src/pybgl/cut.py:cut"]}
{"id": "C57", "title": "graph_extract reports exactly the relevant reachable subgraph", "statement": "graph_extract calls the vertex callback exactly once per vertex reachable from s through relevant edges to relevant targets, and the edge callback exactly once per relevant edge leaving such a vertex.", "quantifier": "all finite graphs, relevance predicates", "why_tests_cant": "Ranges over every finite graph (all sizes, cycles, parallel edges, self loops) and every out-edge order; tests run a few fixed graphs.", "anchors": ["src/pybgl/graph_extract.py:graph_extract"]}
{"id": "C58", "title": "graph_copy produces an isomorphic copy of the reachable relevant subgraph", "statement": "After graph_copy(s, g, g_dup) into an empty directed graph, pmap_vertices is a bijection between the relevant vertices reachable from s and the vertices of g_dup, and the edges of g_dup are exactly the images of the relevant edges leaving those vertices, with multiplicity.", "quantifier": "all finite directed graphs, relevance predicates", "why_tests_cant": "Ranges over every finite graph (all sizes, cycles, parallel edges, self loops) and every out-edge order; tests run a few fixed graphs.", "anchors": ["src/pybgl/graph_copy.py:graph_copy", "src/pybgl/graph_copy.py:DepthFirstSearchCopyVisitor"]}
{"id": "C59", "title": "dfs_tree and bfs_tree visit every node of a tree once", "statement": "On a finite tree both traversals terminate and discover and finish each node exactly once; dfs_tree discovers nodes in a preorder and bfs_tree by non-decreasing depth.", "quantifier": "all finite trees and child orders", "why_tests_cant": "Ranges over every finite graph (all sizes, cycles, parallel edges, self loops) and every out-edge order; tests run a few fixed graphs.", "anchors": ["src/pybgl/graph_traversal.py:dfs_tree", "src/pybgl/graph_traversal.py:bfs_tree"]}
{"id": "C60", "title": "dijkstra_shortest_paths computes exact distances", "statement": "With non-negative weights (and path weights below infty), dijkstra_shortest_paths terminates with pmap_vdist[v] equal to the minimum weight of a path from s to v, and to infty iff v is unreachable.", "quantifier": "all finite graphs, weights, sources, heap tie-breaking orders", "why_tests_cant": "Ranges over every finite graph (all sizes, cycles, parallel edges, self loops) and every out-edge order; tests run a few fixed graphs.", "anchors": ["src/pybgl/dijkstra_shortest_paths.py:dijkstra_shortest_paths"]}
{"id": "C61", "title": "dijkstra_shortest_paths records all optimal predecessor arcs", "statement": "Under the same hypotheses, for every reachable v other than s, pmap_vpreds[v] is exactly the set of arcs (u, v) that end some shortest path from s to v.", "quantifier": "all finite graphs, weights, sources", "why_tests_cant": "Ranges over every finite graph (all sizes, cycles, parallel edges, self loops) and every out-edge order; tests run a few fixed graphs.", "anchors": ["src/pybgl/dijkstra_shortest_paths.py:dijkstra_shortest_paths_iteration"]}
{"id": "C62", "title": "dijkstra_shortest_path returns a shortest path", "statement": "dijkstra_shortest_path(g, s, t, ...) terminates, returns a list of consecutive arcs from s to t of minimum total weight if t is reachable, and None otherwise.", "quantifier": "all finite graphs with non-negative weights, all s and t", "why_tests_cant": "Ranges over every finite graph (all sizes, cycles, parallel edges, self loops) and every out-edge order; tests run a few fixed graphs.", "anchors": ["src/pybgl/dijkstra_shortest_paths.py:dijkstra_shortest_path", "src/pybgl/dijkstra_shortest_paths.py:make_shortest_path"]}
{"id": "C63", "title": "make_shortest_paths_dag returns the arcs of all shortest paths", "statement": "make_shortest_paths_dag(g, s, t, pmap_vpreds) terminates and returns exactly the arcs lying on some chain of predecessor arcs ending in t, i.e. the arcs of the shortest paths from s to t; with single_path=True it returns the arcs of one chain.", "quantifier": "all predecessor maps over finite graphs", "why_tests_cant": "Ranges over every finite graph (all sizes, cycles, parallel edges, self loops) and every out-edge order; tests run a few fixed graphs.", "anchors": ["src/pybgl/dijkstra_shortest_paths.py:make_shortest_paths_dag"]}
{"id": "C64", "title": "Dijkstra is correct for any monotone selective algebra", "statement": "With compare a strict total order and combine monotone and non-improving (e.g. GreaterThan with ClosedMin for widest paths), the computed distance of each reachable vertex is the best combined weight over all paths.", "quantifier": "all finite graphs, all such algebras", "why_tests_cant": "Ranges over every finite graph (all sizes, cycles, parallel edges, self loops) and every out-edge order; tests run a few fixed graphs.", "anchors": ["src/pybgl/dijkstra_shortest_paths.py:dijkstra_shortest_paths", "src/pybgl/algebra.py"]}
{"id": "C65", "title": "Heap pops elements in order and stably", "statement": "For any sequence of push and pop, pop returns an element minimal for the key order among those present, ties being broken by insertion order; popping everything yields a stable sort of the contents; len and iteration agree with the contents.", "quantifier": "all operation histories, all total preorders", "why_tests_cant": "Depends on the whole history of mutations; tests exercise a handful of fixed histories.", "anchors": ["src/pybgl/heap.py:Heap", "src/pybgl/heap.py:Comparable"]}
{"id": "C66", "title": "Closed operators form commutative monoids with an absorbing element", "statement": "ClosedPlus, ClosedTime, ClosedMax and ClosedMin are commutative, have their absorbing element absorb on both sides, and are associative.", "quantifier": "all numbers", "why_tests_cant": "Universally quantified over unbounded integers, including results that hit the absorbing value.", "anchors": ["src/pybgl/algebra.py:ClosedOperator", "src/pybgl/algebra.py:ClosedPlus"]}
{"id": "C67", "title": "levenshtein_distance is the edit distance", "statement": "levenshtein_distance(x, y) is the least number of single-character insertions, deletions and substitutions turning x into y; memoization does not change the result and levenshtein_distance_naive agrees.", "quantifier": "all pairs of words", "why_tests_cant": "Ranges over infinitely many words and automata; tests try a few literals.", "anchors": ["src/pybgl/levenshtein_distance.py:levenshtein_distance", "src/pybgl/levenshtein_distance.py:LevenshteinDistance.compute"]}
{"id": "C68", "title": "levenshtein_distance is a metric", "statement": "It is 0 iff the words are equal, symmetric, and satisfies the triangle inequality.", "quantifier": "all triples of words", "why_tests_cant": "Ranges over infinitely many words and automata; tests try a few literals.", "anchors": ["src/pybgl/levenshtein_distance.py:levenshtein_distance"]}
{"id": "C69", "title": "lcs_distance is |x| + |y| - 2 |LCS| and is a metric", "statement": "lcs_distance(x, y) equals len(x) + len(y) minus twice the length of a longest common subsequence, and is a metric.", "quantifier": "all pairs and triples of words", "why_tests_cant": "Ranges over infinitely many words and automata; tests try a few literals.", "anchors": ["src/pybgl/lcs_distance.py:lcs_distance"]}
{"id": "C70", "title": "damerau_levenshtein_distance is the restricted (optimal string alignment) distance", "statement": "damerau_levenshtein_distance(x, y) is the least cost of an alignment with insertions, deletions, substitutions and transpositions of adjacent characters edited once, it is symmetric, 0 iff x = y, and at most the Levenshtein distance.", "quantifier": "all pairs of words", "why_tests_cant": "Ranges over infinitely many words and automata; tests try a few literals.", "anchors": ["src/pybgl/damerau_levenshtein_distance.py:damerau_levenshtein_distance"]}
{"id": "C71", "title": "damerau_levenshtein_distance satisfies the triangle inequality", "statement": "d(x, z) <= d(x, y) + d(y, z), as required to use it as a BKTree metric.", "quantifier": "all triples of words", "why_tests_cant": "Ranges over infinitely many words and automata; tests try a few literals.", "anchors": ["src/pybgl/damerau_levenshtein_distance.py:damerau_levenshtein_distance", "src/pybgl/bk_tree.py:BKTree"]}
{"id": "C72", "title": "BKTree.search returns a nearest element", "statement": "For a tree built by insertions with a metric distance, search(w, d_max) returns (x, d) with x a stored element at minimum distance d = distance(w, x) from w if that minimum is <= d_max, and None otherwise.", "quantifier": "all metrics, all lists of inserted elements, all queries and radii", "why_tests_cant": "Ranges over infinitely many words and automata; tests try a few literals.", "anchors": ["src/pybgl/bk_tree.py:BKTree.search", "src/pybgl/bk_tree.py:BKTree.insert"]}
{"id": "C73", "title": "BKTree stores exactly the inserted elements", "statement": "After inserting a list of elements, the stored elements are exactly the inserted ones, without duplicates, and inserting an element already present returns its node and changes nothing.", "quantifier": "all metrics and lists of elements", "why_tests_cant": "Ranges over infinitely many words and automata; tests try a few literals.", "anchors": ["src/pybgl/bk_tree.py:BKTree.insert", "src/pybgl/bk_tree.py:make_bk_tree"]}
{"id": "C74", "title": "HSV/HSL conversions are mutually inverse", "statement": "In exact arithmetic hsl_to_hsv(hsv_to_hsl(h, s, v)) = (h, s, v) for 0 < v <= 1, 0 <= s <= 1, and hsv_to_hsl(hsl_to_hsv(h, s, l)) = (h, s, l) for 0 < l < 1, 0 <= s <= 1.", "quantifier": "all colours in the unit cube", "why_tests_cant": "Continuum of inputs.", "anchors": ["src/pybgl/color.py:hsv_to_hsl", "src/pybgl/color.py:hsl_to_hsv"]}
{"id": "C75", "title": "graphviz_escape_html neutralises reserved characters", "statement": "Outside the recognised HTML tags, the escaped label contains none of the characters < > [ ] { } nor any control character (code below 32), and distinct characters keep distinct escapes.", "quantifier": "all strings and tokenizations", "why_tests_cant": "Ranges over infinitely many words and automata; tests try a few literals.", "anchors": ["src/pybgl/graphviz_impl.py:graphviz_escape_html", "src/pybgl/graphviz_impl.py:graphviz_escape_char"]}
{"id": "C76", "title": "AssocPropertyMap behaves as a total map", "statement": "Reading a key of an AssocPropertyMap returns the last value written at that key, or the default when it was never written, whatever other keys were read or written in between.", "quantifier": "all histories of get/put", "why_tests_cant": "Depends on the whole history of mutations; tests exercise a handful of fixed histories.", "anchors": ["src/pybgl/property_map.py:AssocPropertyMap"]}
{"id": "C77", "title": "AggregatedVisitor forwards every event to every visitor in order", "statement": "Running a traversal with AggregatedVisitor([v1, ..., vn]) leaves each vi in the state it would have after receiving the whole event sequence alone.", "quantifier": "all visitors, all event sequences", "why_tests_cant": "Depends on the whole history of mutations; tests exercise a handful of fixed histories.", "anchors": ["src/pybgl/aggregated_visitor.py:AggregatedVisitor"]}
{"id": "C78", "title": "Automaton.remove_vertex and remove_edge remove exactly what they name", "statement": "On an Automaton, remove_vertex(q) removes q and exactly the transitions from or to q (KeyError if q is unknown) and keeps initial and final states; remove_edge(e) removes exactly the transition leaving e.source labelled like e.", "quantifier": "all histories of operations on an Automaton", "why_tests_cant": "Depends on the whole history of mutations; tests exercise a handful of fixed histories.", "anchors": ["src/pybgl/automaton.py:Automaton.remove_edge", "src/pybgl/graph.py:Graph.remove_vertex"]}
{"id": "C79", "title": "Counts, emptiness tests and the constructor of DirectedGraph agree with its content", "statement": "num_vertices(), num_edges() and out_degree(u) are the numbers of live vertices, live edges and live edges leaving u; has_vertex() and has_edge() tell whether there is one; DirectedGraph(n) has exactly the vertices 0..n-1 and no edge.", "quantifier": "all histories of operations on a DirectedGraph, all n", "why_tests_cant": "Depends on the whole history of mutations; tests exercise a handful of fixed histories.", "anchors": ["src/pybgl/graph.py:Graph.num_vertices", "src/pybgl/graph.py:Graph.num_edges", "src/pybgl/graph.py:Graph.out_degree", "src/pybgl/graph.py:Graph.has_vertex", "src/pybgl/graph.py:Graph.has_edge", "src/pybgl/graph.py:Graph.__init__"]}
{"id": "C80", "title": "Parallel transitions of an Nfa are numbered and removed together", "statement": "Whatever the history of calls, edges() of an Nfa yields exactly one descriptor per transition (q, a, r) added and not removed since, carrying the numbers 1..k of its k parallel copies; add_edge(q, r, a) returns the descriptor numbered k+1; remove_edge removes all the parallel copies; remove_vertex(u) those from or to u.", "quantifier": "all histories of operations on an Nfa", "why_tests_cant": "Depends on the whole history of mutations; tests exercise a handful of fixed histories.", "anchors": ["src/pybgl/nfa.py:Nfa.add_edge", "src/pybgl/nfa.py:Nfa.remove_edge", "src/pybgl/nfa.py:Nfa.edges", "src/pybgl/nfa.py:Nfa.out_edges"]}
{"id": "C81", "title": "tokenizer_alg tells unary operators from binary ones", "statement": "The tokens found by tokenizer_alg in the written form of an infix expression (unary operators written like binary ones) are the numbers, the unary operators u+ and u-, the binary operators and the parentheses of the expression, in order; shunting_yard_compute then returns the value of the expression.", "quantifier": "all infix expressions", "why_tests_cant": "Unbounded nesting of unary and binary operators and parentheses.", "anchors": ["src/pybgl/shunting_yard_postfix.py:AlgTokenizeVisitor", "src/pybgl/shunting_yard_postfix.py:tokenizer_alg"]}
{"id": "C82", "title": "Character classes and escape sequences of regular expressions denote the expected characters", "statement": "parse_bracket on a well-formed class [...] or [^...] (characters, ranges, escape sequences) yields exactly the characters of the class, the complement being taken in the given alphabet; parse_escaped yields the characters of \\d, \\D, \\s, \\S, \\w, \\W, \\t, \\n, ... and of an escaped punctuation; a range with its bounds in the wrong order raises ValueError.", "quantifier": "all well-formed classes and escapes, all alphabets", "why_tests_cant": "Ranges over infinitely many words and automata; tests try a few literals.", "anchors": ["src/pybgl/thompson_compile_nfa.py:parse_bracket", "src/pybgl/thompson_compile_nfa.py:parse_escaped"]}
{"id": "C83", "title": "Repetitions of regular expressions are read as the integers they denote", "statement": "parse_repetition on {m}, {m,}, {,n} and {m,n}, with optional spaces, returns the bounds (None for a missing upper bound), raises ValueError if n < m, and never returns an upper bound below the lower one.", "quantifier": "all digit strings of any length", "why_tests_cant": "Ranges over infinitely many words and automata; tests try a few literals.", "anchors": ["src/pybgl/thompson_compile_nfa.py:parse_repetition"]}
{"id": "C84", "title": "tokenizer_re loses no character and makes concatenation explicit", "statement": "The tokens of tokenizer_re(s) without the inserted concatenation operators concatenate to s; on the text of a regular expression they are its characters, classes, escapes, repetitions, operators and parentheses, with one concatenation operator wherever two factors are juxtaposed and nowhere else.", "quantifier": "all strings; all regular expressions", "why_tests_cant": "Ranges over infinitely many words and automata; tests try a few literals.", "anchors": ["src/pybgl/shunting_yard_postfix.py:tokenizer_re", "src/pybgl/shunting_yard_postfix.py:CatifyTokenizeVisitor"]}
{"id": "C85", "title": "thompson_compile_nfa compiles the text of a regular expression to its language", "statement": "For every regular expression written with at least the parentheses required by the usual precedences, thompson_compile_nfa returns an NFA (and moore_determination of it a DFA) which accept exactly the words of its language.", "quantifier": "all regular expressions, all words, all iteration orders", "why_tests_cant": "Ranges over infinitely many words and automata; tests try a few literals.", "anchors": ["src/pybgl/thompson_compile_nfa.py:thompson_compile_nfa", "src/pybgl/shunting_yard_postfix.py:tokenizer_re", "src/pybgl/shunting_yard_postfix.py:shunting_yard_postfix"]}
{"id": "C86", "title": "Unbalanced parentheses are rejected", "statement": "thompson_compile_nfa and shunting_yard_postfix raise an exception on every expression whose parentheses are not balanced.", "quantifier": "all strings", "why_tests_cant": "Ranges over infinitely many words and automata; tests try a few literals.", "anchors": ["src/pybgl/shunting_yard_postfix.py:shunting_yard_postfix", "src/pybgl/thompson_compile_nfa.py:thompson_compile_nfa"]}
{"id": "C87", "title": "shunting_yard_compute follows the usual conventions of arithmetic", "statement": "On the text of any arithmetic expression over numbers, parentheses, unary minus, + - * / and ^, shunting_yard_compute returns the value of the expression: sums and products group from the left, powers from the right, powers bind tighter than the unary minus, which binds tighter than sums.", "quantifier": "all arithmetic expressions, all arithmetics", "why_tests_cant": "Unbounded nesting; precedence and associativity interact.", "anchors": ["src/pybgl/shunting_yard_postfix.py:shunting_yard_compute", "src/pybgl/shunting_yard_postfix.py:MAP_OPERATORS_ALG", "src/pybgl/shunting_yard_postfix.py:tokenizer_alg"]}
{"id": "C88", "title": "make_node_automaton builds the automaton described by the named transitions", "statement": "For every list of transitions (source name, target name) in which the transitions leaving a name are told apart by the labels of their targets, and every initial name occurring in it, make_node_automaton returns a node automaton with one state per name that accepts exactly the words spelled by the labels along a path of the list from the initial name to a name declared final by pmap_vfinal; an unknown initial name raises KeyError.", "quantifier": "all transition lists, labellings, sets of final names, and words", "why_tests_cant": "Ranges over infinitely many words and automata; tests try a few literals.", "anchors": ["src/pybgl/node_automaton.py:make_node_automaton"]}
{"id": "C89", "title": "A node automaton accepts the words spelled by the states along its paths", "statement": "For every history of calls, accepts(w) of a NodeAutomaton tells whether some path of edges from the initial state to a final state goes through states carrying the letters of w; edge(q, r) finds the edge from q to r if there is one; sigma(q) is the set of the symbols that can be read in q; alphabet() is the set of the labels of the edges.", "quantifier": "all histories of a NodeAutomaton, all words", "why_tests_cant": "Depends on the whole history of mutations; tests exercise a handful of fixed histories.", "anchors": ["src/pybgl/node_automaton.py:NodeAutomaton.delta", "src/pybgl/node_automaton.py:NodeAutomaton.edge", "src/pybgl/node_automaton.py:NodeAutomaton.sigma", "src/pybgl/node_automaton.py:NodeAutomaton.alphabet", "src/pybgl/automaton.py:Automaton.accepts"]}
{"id": "C90", "title": "A graph written with to_dot is read back by read_graphviz", "statement": "For every graph, reading with read_graphviz the text written by to_dot notifies the vertices then the edges in the order in which they were written, with their attributes, and rebuilds the graph (parallel edges and loops included) with its vertices numbered in order, whatever the style, the attributes and the class of the graph.", "quantifier": "all histories of a graph, all styles and property maps with values on one line", "why_tests_cant": "Depends on the whole history of mutations; tests exercise a handful of fixed histories.", "anchors": ["src/pybgl/graphviz_impl.py:to_dot", "src/pybgl/graphviz_impl.py:graphviz_properties_to_str", "src/pybgl/graphviz_impl.py:GraphvizStyle", "src/pybgl/graphviz.py:read_graphviz", "src/pybgl/graphviz.py:ReadGraphvizVisitor"]}
{"id": "C91", "title": "Graphviz attributes given by the caller win over those of the class", "statement": "enrich_kwargs (hence to_dot of Automaton, Nfa, GraphDp, ...) uses the attributes given by the caller, and fills the gaps with the defaults of the object; the dictionary of the caller may be given again to another call.", "quantifier": "all dictionaries of defaults and of attributes", "why_tests_cant": "Ranges over infinitely many words and automata; tests try a few literals.", "anchors": ["src/pybgl/graphviz_impl.py:enrich_kwargs", "src/pybgl/automaton.py:Automaton.to_dot"]}
{"id": "C92", "title": "revuz_minimize merges the equivalent states of an acyclic node automaton, and respects the labels of the states", "statement": "On an acyclic IncidenceNodeAutomaton, or an acyclic IncidenceAutomaton with a map pmap_vlabel, revuz_minimize returns the length of a longest path and merges exactly the states that carry the same label and that no word distinguishes (by being readable, by finality or by the labels met); the symbols of the remaining states do not change, and accepts() answers as before.", "quantifier": "all acyclic automata (all histories), all labellings, all words, all iteration orders of the sets", "why_tests_cant": "Ranges over infinitely many words and automata; tests try a few literals.", "anchors": ["src/pybgl/revuz_minimize.py:revuz_minimize", "src/pybgl/incidence_node_automaton.py:IncidenceNodeAutomaton"]}
{"id": "C93", "title": "automaton_insert_string adds a word to the language of an automaton", "statement": "Whatever the automaton, after g.automaton_insert_string(w) the automaton accepts w and the words it accepted, and no other word; delta_best_effort(w) returns the state reached by the longest readable prefix of w and its length; accepts_debug answers like accepts.", "quantifier": "all histories of an Automaton, all words", "why_tests_cant": "Depends on the whole history of mutations; tests exercise a handful of fixed histories.", "anchors": ["src/pybgl/automaton.py:Automaton.automaton_insert_string", "src/pybgl/automaton.py:Automaton.delta_best_effort", "src/pybgl/automaton.py:Automaton.accepts_debug"]}
{"id": "C94", "title": "automaton_copy copies exactly the relevant part of an automaton reachable from a state", "statement": "automaton_copy(s, g, dup, ...) fills an empty automaton with one state per state of g that can be reached from s along relevant transitions, and one transition per relevant transition leaving these states, with the same symbols; the copy of s is initial; the two maps are one-to-one. With a callback that copies finality, the copy accepts the words read along relevant transitions from s to a final state.", "quantifier": "all histories of an Automaton, all relevance predicates, all arguments", "why_tests_cant": "Depends on the whole history of mutations; tests exercise a handful of fixed histories.", "anchors": ["src/pybgl/automaton_copy.py:automaton_copy", "src/pybgl/automaton_copy.py:AutomatonCopyVisitor", "src/pybgl/graph_copy.py:DepthFirstSearchCopyVisitor"]}
{"id": "C95", "title": "GraphDp.to_json writes a JSON document that describes the graph", "statement": "For every graph and all properties attached to its vertices and edges, GraphDp.to_json() is a JSON document whose value lists the type of the graph, its vertices and its edges with all their properties; hence two graphs with the same text have the same content.", "quantifier": "all graphs, all properties and values", "why_tests_cant": "Ranges over infinitely many words and automata; tests try a few literals.", "anchors": ["src/pybgl/graph_dp.py:GraphDp.to_json"]}
{"id": "C96", "title": "Traversals of an UndirectedGraph follow its edges in both directions", "statement": "On every UndirectedGraph, breadth_first_search and depth_first_search from s visit exactly the vertices connected to s, once each; strong_components computes the connected components; topological_sort raises RuntimeError iff there is an edge.", "quantifier": "all histories of an UndirectedGraph, all sources", "why_tests_cant": "Depends on the whole history of mutations; tests exercise a handful of fixed histories.", "anchors": ["src/pybgl/graph.py:UndirectedGraph", "src/pybgl/breadth_first_search.py:breadth_first_search", "src/pybgl/depth_first_search.py:depth_first_search", "src/pybgl/strong_components.py:strong_components", "src/pybgl/topological_sort.py:topological_sort"]}
{"id": "C97", "title": "Dijkstra's algorithm on an UndirectedGraph computes undirected distances", "statement": "With non-negative weights given to the edges returned by add_edge (those of edges()), dijkstra_shortest_paths on an UndirectedGraph computes the least weight of a chain of edges, each followed in either direction; distances are symmetric.", "quantifier": "all histories of an UndirectedGraph, all weights and sources", "why_tests_cant": "Depends on the whole history of mutations; tests exercise a handful of fixed histories.", "anchors": ["src/pybgl/graph.py:UndirectedGraph.out_edges", "src/pybgl/graph.py:EdgeDescriptor", "src/pybgl/dijkstra_shortest_paths.py:dijkstra_shortest_paths"]}
{"id": "C98", "title": "graph_copy of an UndirectedGraph is isomorphic to the component copied", "statement": "graph_copy(s, g, g_dup) from an UndirectedGraph into an empty one makes the vertices of g_dup in bijection with the vertices connected to s, and the edges of g_dup in bijection with the edges between them, with the same ends.", "quantifier": "all histories of an UndirectedGraph, all sources", "why_tests_cant": "Depends on the whole history of mutations; tests exercise a handful of fixed histories.", "anchors": ["src/pybgl/graph_copy.py:graph_copy", "src/pybgl/graph.py:UndirectedGraph.add_edge"]}
{"id": "C99", "title": "Exact languages of optional and bounded operators", "statement": "Whatever the automaton, zero_or_one(nfa) accepts exactly the words of nfa and the words u x1 ... xk v where u leads from the initial state to itself, each xi from the final state to the initial one and v from the final state to itself; repetition_range(nfa, 0, n) with n >= 2 and initial state 0 accepts exactly the words of L^k, k <= n, and those leading from the final state to itself; with initial state q >= 1 (and vertices 0..N-1) it accepts exactly the words u v where u leads from the vertex q - 1 to the final state and v is in L^k, k <= n - 1, so that (a|b){0,n} accepts exactly the words of length at most n - 1 on a and b. Compiling an expression yields an automaton whose language is given by these rules applied bottom-up; in particular no word of the language of the expression is ever rejected.", "quantifier": "every NFA with one initial and one final state; every regular expression in which e{0,n}, n != 1, is only applied to sub-expressions whose automaton starts at vertex 0; every word; every order of iteration of sets", "why_tests_cant": "Ranges over infinitely many words and automata; tests try a few literals.", "anchors": ["src/pybgl/thompson_compile_nfa.py:zero_or_one", "src/pybgl/thompson_compile_nfa.py:repetition_range", "src/pybgl/thompson_compile_nfa.py:thompson_compile_nfa", "src/pybgl/regexp.py:compile_dfa"]}
{"id": "C100", "title": "Ast.to_expr", "statement": "Ast.to_expr writes an abstract syntax tree built by shunting_yard_ast back as the expression it stands for, whatever the root attribute (the root, or unset).", "quantifier": "all expressions, operator tables, values of root", "why_tests_cant": "Ranges over infinitely many words and automata; tests try a few literals.", "anchors": ["src/pybgl/shunting_yard_postfix.py:Ast.to_expr", "src/pybgl/shunting_yard_postfix.py:shunting_yard_ast"]}
{"id": "C101", "title": "Visitors of revuz_minimize", "statement": "A visitor changes nothing to the result of revuz_minimize. Each removed state is passed exactly once as second argument of states_merged, together with a smaller state that remains to the end and from which the same words are accepted; and for each merge the calls merging_states, move_transition (once per transition entering the removed state), remove_vertex, states_merged come in this order, with the automaton in the expected state at each call.", "quantifier": "all acyclic automata (label-on-edge and label-on-node), all orders of iteration of sets", "why_tests_cant": "Ranges over infinitely many words and automata; tests try a few literals.", "anchors": ["src/pybgl/revuz_minimize.py:RevuzMinimizeVisitor", "src/pybgl/revuz_minimize.py:revuz_minimize"]}
{"id": "C102", "title": "Comparable", "statement": "With a total preorder, the objects made by compare_to_key are totally preordered by Python's operators: <= is the preorder, exactly one of <, ==, > holds, <= is < or ==, >= is > or ==, != negates ==, < and > (and <= and >=) are converse of each other, == is an equivalence, < is transitive, also across ==. Without totality some objects are smaller than each other. A preorder must be given.", "quantifier": "all types, preorders and triples of objects", "why_tests_cant": "Ranges over infinitely many words and automata; tests try a few literals.", "anchors": ["src/pybgl/heap.py:Comparable", "src/pybgl/heap.py:compare_to_key"]}
{"id": "C103", "title": "Property maps", "statement": "Whatever is done with a property map made from a function, the identity or a constant, reading a key returns the value of the function at that key, and every write or deletion raises RuntimeError. A property map made from a defaultdict returns the last value written at the key, else its initial value, else the default; deletions raise RuntimeError and remove nothing.", "quantifier": "all property maps and all histories of reads, writes and deletions, including those that raise", "why_tests_cant": "Depends on the whole history of mutations; tests exercise a handful of fixed histories.", "anchors": ["src/pybgl/property_map.py:FuncPropertyMap", "src/pybgl/property_map.py:IdentityPropertyMap", "src/pybgl/property_map.py:ConstantPropertyMap", "src/pybgl/property_map.py:AssocPropertyMap"]}
{"id": "C104", "title": "reverse_dict", "statement": "reverse_dict(d) has exactly the values of d as keys, each mapped to the last key having it; when no two keys of d have the same value it is the inverse of d and reversing it again gives d.", "quantifier": "all dictionaries", "why_tests_cant": "Ranges over infinitely many words and automata; tests try a few literals.", "anchors": ["src/pybgl/reverse.py:reverse_dict"]}
{"id": "C105", "title": "Singleton", "statement": "Two calls to classes whose metaclass is Singleton return the same object exactly when they are calls to the same class; once a call has returned, all later calls to that class return that object whatever their arguments.", "quantifier": "all sequences of calls, including calls whose constructor raises", "why_tests_cant": "Depends on the whole history of mutations; tests exercise a handful of fixed histories.", "anchors": ["src/pybgl/singleton.py:Singleton"]}
{"id": "C106", "title": "AggregatedVisitor.get", "statement": "AggregatedVisitor.get(key) returns the first of the aggregated visitors whose class is named key, and ret_if_not_found when there is none.", "quantifier": "all lists of visitors and keys", "why_tests_cant": "Ranges over infinitely many words and automata; tests try a few literals.", "anchors": ["src/pybgl/aggregated_visitor.py:AggregatedVisitor.get", "src/pybgl/aggregated_visitor.py:AggregatedVisitor.type_to_key"]}
{"id": "C107", "title": "Visitors of shunting_yard_postfix", "statement": "A visitor changes nothing to the result of shunting_yard_postfix. Its calls drive a stack, empty at the beginning and at the end: what is passed to on_pop_operator is the last thing passed to on_push_operator and not popped yet, and goes to the output right after unless it is an opening parenthesis. on_push_operator is called once per operator and opening parenthesis of the expression, in order; on_push_output once per token of the output, in order, in particular once per operand, in order.", "quantifier": "all operator tables, outputs and sequences of tokens on which the function returns", "why_tests_cant": "Ranges over infinitely many words and automata; tests try a few literals.", "anchors": ["src/pybgl/shunting_yard_postfix.py:DefaultShuntingYardVisitor", "src/pybgl/shunting_yard_postfix.py:shunting_yard_postfix"]}
{"id": "C108", "title": "Drawings determine the automaton", "statement": "The text written by to_dot for an automaton, an NFA or a node automaton shows every state, every transition with its symbol, and which states are final: two automata with the same drawing have the same states, the same transitions and the same final states, hence, from the same initial states, the same language. The same holds of BK-trees (the tree and its distances) and of abstract syntax trees. What is not shown is the initial state, and the symbol '^' of a node automaton is shown like the absence of symbol.", "quantifier": "all pairs of automata, NFAs, node automata, BK-trees and syntax trees, whatever symbols they use (including characters that are special in HTML or in Graphviz)", "why_tests_cant": "Ranges over infinitely many words and automata; tests try a few literals.", "anchors": ["src/pybgl/automaton.py:Automaton.to_dot", "src/pybgl/nfa.py:Nfa.to_dot", "src/pybgl/node_automaton.py:NodeAutomaton.to_dot", "src/pybgl/bk_tree.py:BKTree.to_dot", "src/pybgl/shunting_yard_postfix.py:Ast.to_dot"]}
{"id": "C109", "title": "Images written through Graphviz", "statement": "If dot succeeds and produces an image, write_graphviz returns True and the file contains the image; otherwise it returns False or raises an exception and the file is as it was; no other file is touched. dot_to_svg returns what dot wrote, from the first occurrence of <svg.", "quantifier": "all behaviours of the external process (any status, output and error output) and of the decoder, all file contents, names and formats", "why_tests_cant": "The outcome depends on an external process, which may fail in any way, and on the contents of the file before the call.", "anchors": ["src/pybgl/graphviz.py:run_graphviz", "src/pybgl/graphviz.py:dot_to_svg", "src/pybgl/graphviz.py:write_graphviz", "src/pybgl/graphviz.py:dotstr_to_html"]}
{"id": "C110", "title": "Styles of drawings", "statement": "After any sequence of calls to set_fg_color and set_bg_color, the default colours of graphs, vertices and edges are those of the last calls and the other attributes are unchanged. A GraphDp keeps the attributes it was given, or those of the style in force when it was made; its drawings use them, except those given in the call, which win.", "quantifier": "all sequences of style calls, all attribute dictionaries, all graphs", "why_tests_cant": "Depends on the whole history of mutations; tests exercise a handful of fixed histories.", "anchors": ["src/pybgl/graphviz_impl.py:GraphvizStyle", "src/pybgl/graph_dp.py:GraphDp", "src/pybgl/graphviz_impl.py:enrich_kwargs"]}
{"id": "C111", "title": "Displays in notebooks", "statement": "What is displayed in a notebook is the body itself, in a block with the background colour if one is given; display_svg and display_body write the body in the file named.", "quantifier": "all bodies, colours, file names and file contents", "why_tests_cant": "Ranges over infinitely many words and automata; tests try a few literals.", "anchors": ["src/pybgl/ipynb.py:background_template_html", "src/pybgl/ipynb.py:ipynb_display_graph", "src/pybgl/ipynb.py:display_svg", "src/pybgl/ipynb.py:display_body"]}
{"id": "C112", "title": "Graphs whose caller catches exceptions", "statement": "A mutator of DirectedGraph, UndirectedGraph or IncidenceGraph that raises leaves the graph unchanged, so that after any history of calls in which the caller catches exceptions and goes on, the graph contains exactly what the calls that returned put in it and did not remove.", "quantifier": "every sequence of calls to add_vertex, add_edge, remove_edge, remove_vertex and clear with any arguments, each of which may return or raise", "why_tests_cant": "Depends on the whole history of mutations; tests exercise a handful of fixed histories.", "anchors": ["src/pybgl/graph.py:Graph.add_edge", "src/pybgl/graph.py:Graph.remove_edge", "src/pybgl/graph.py:Graph.remove_vertex", "src/pybgl/graph.py:Graph.clear", "src/pybgl/graph.py:UndirectedGraph.add_edge", "src/pybgl/graph.py:UndirectedGraph.remove_edge", "src/pybgl/incidence_graph.py:IncidenceGraph.add_edge", "src/pybgl/incidence_graph.py:IncidenceGraph.remove_vertex", "src/pybgl/incidence_graph.py:IncidenceGraph.remove_edge"]}
{"id": "C113", "title": "clear() on automata", "statement": "After clear(), an automaton (Automaton, IncidenceAutomaton, Nfa, NodeAutomaton, IncidenceNodeAutomaton) has neither states nor transitions, numbers its states again from 0, and behaves like a newly created automaton whatever is called next.", "quantifier": "all automata built by the public API, and all sequences of later calls", "why_tests_cant": "Depends on the whole history of mutations; tests exercise a handful of fixed histories.", "anchors": ["src/pybgl/graph.py:Graph.clear", "src/pybgl/automaton.py:Automaton", "src/pybgl/incidence_automaton.py:IncidenceAutomaton", "src/pybgl/nfa.py:Nfa", "src/pybgl/node_automaton.py:NodeAutomaton", "src/pybgl/incidence_node_automaton.py:IncidenceNodeAutomaton"]}
{"id": "C114", "title": "Exceptions in the mutators of automata", "statement": "A mutator of Automaton, IncidenceAutomaton, NodeAutomaton or IncidenceNodeAutomaton that raises leaves the automaton unchanged, so that a caller may catch the exception and go on.", "quantifier": "all histories of mutator calls, any of which may have raised and been caught, and all next calls", "why_tests_cant": "Depends on the whole history of mutations; tests exercise a handful of fixed histories.", "anchors": ["src/pybgl/automaton.py:Automaton", "src/pybgl/incidence_automaton.py:IncidenceAutomaton", "src/pybgl/node_automaton.py:NodeAutomaton", "src/pybgl/incidence_node_automaton.py:IncidenceNodeAutomaton", "src/pybgl/graph.py:DirectedGraph.clear"]}
{"id": "C115", "title": "moore_determination into a given automaton", "statement": "Given an empty Automaton or IncidenceAutomaton as its parameter dfa, moore_determination fills it with a DFA that recognises the language of the NFA, as it does when the parameter is omitted.", "quantifier": "all NFAs, all histories of the given automaton that leave it without state, both values of complete, all enumeration orders of the sets", "why_tests_cant": "Depends on the whole history of mutations; tests exercise a handful of fixed histories.", "anchors": ["src/pybgl/moore_determination.py:moore_determination", "src/pybgl/automaton.py:Automaton", "src/pybgl/incidence_automaton.py:IncidenceAutomaton"]}
{"id": "C116", "title": "Comparing regular expressions", "statement": "compile_dfa(r) recognises exactly the language of the regular expression r, and deterministic_inclusion(compile_dfa(r1), compile_dfa(r2)) returns 0 when r1 and r2 have the same language, 1 (resp. -1) when the first (resp. second) language is strictly included in the other, and None otherwise.", "quantifier": "all pairs of well-written regular expressions, both values of complete, all enumeration orders of the sets", "why_tests_cant": "Ranges over infinitely many words and automata; tests try a few literals.", "anchors": ["src/pybgl/regexp.py:compile_dfa", "src/pybgl/regexp.py:compile_nfa", "src/pybgl/deterministic_inclusion.py:deterministic_inclusion", "src/pybgl/thompson_compile_nfa.py:thompson_compile_nfa", "src/pybgl/moore_determination.py:moore_determination"]}
{"id": "C117", "title": "Minimal automata are canonical", "statement": "hopcroft_minimize gives a canonical form: minimizing two automata that accept the same words (all of whose states are useful, or which are complete over the same alphabet with all states accessible) gives the same automaton up to the numbers of the states, whatever the enumeration orders; hence moore_determination with complete=True into an IncidenceAutomaton followed by hopcroft_minimize gives the same automaton for any two NFAs over the same alphabet that have the same language.", "quantifier": "all pairs of automata with final and non-final states, all pairs of NFAs with the same language and alphabet, all enumeration orders of the sets in each run", "why_tests_cant": "Ranges over infinitely many words and automata; tests try a few literals.", "anchors": ["src/pybgl/hopcroft_minimize.py:hopcroft_minimize", "src/pybgl/moore_determination.py:moore_determination", "src/pybgl/incidence_automaton.py:IncidenceAutomaton"]}
{"id": "C118", "title": "A DigitalSequence stands in for a trie", "statement": "DigitalSequence(w) can be handed to any function that takes a Trie or an Automaton and behaves as the trie of the single word w: its methods (vertices, edges, out_edges, sigma, delta, alphabet, initial, is_initial, is_final, counts) answer what those of a trie in which w was inserted answer; deterministic_inclusion, deterministic_intersection, deterministic_union and trie_matching give the result for the language {w}, inserting it in a trie adds exactly w, and none of them raises. A DigitalSequence cannot be modified: every modifying call raises.", "quantifier": "every word, every automaton or trie or sequence as the other operand, every order of enumeration of sets of symbols, every modifying call", "why_tests_cant": "Ranges over infinitely many words and automata; tests try a few literals.", "anchors": ["src/pybgl/digital_sequence.py:DigitalSequence", "src/pybgl/parallel_breadth_first_search.py:parallel_breadth_first_search", "src/pybgl/trie.py:trie_deterministic_fusion", "src/pybgl/trie_matching.py:trie_matching", "src/pybgl/deterministic_inclusion.py:deterministic_inclusion", "src/pybgl/deterministic_intersection.py:deterministic_intersection", "src/pybgl/deterministic_union.py:deterministic_union"]}
{"id": "C119", "title": "Stacked suffix operators are read in one definite way", "statement": "In a regular expression given to thompson_compile_nfa or compile_dfa, several suffix operators written in a row are read as follows, whatever the operand and their number: {m,n} applies to the operand before any *, + or ? written earlier; * and + apply before a ? written earlier; a ? applies to all that precedes. The text is compiled to the very same automaton as the text with the corresponding parentheses. In particular the reading is the expected one (same language) unless a {m,n} directly follows a *, a + or a ?.", "quantifier": "every regular expression written with the usual precedences, with any nesting and any number of suffix operators in a row, every alphabet and order of enumeration of character sets", "why_tests_cant": "Ranges over infinitely many words and automata; tests try a few literals.", "anchors": ["src/pybgl/shunting_yard_postfix.py:MAP_OPERATORS_RE", "src/pybgl/shunting_yard_postfix.py:shunting_yard_postfix", "src/pybgl/thompson_compile_nfa.py:thompson_compile_nfa"]}
{"id": "C120", "title": "Laws of the edit distances", "statement": "For all words: damerau_levenshtein_distance \u2264 levenshtein_distance \u2264 lcs_distance \u2264 2 levenshtein_distance, and levenshtein_distance \u2264 2 damerau_levenshtein_distance; each is at least the difference of the lengths, the first two are at most the greatest length and the third at most the sum of the lengths. Each is unchanged if both words are reversed, if a common prefix or suffix is added or removed, or if symbols are renamed one-to-one, and the distance of two concatenations is at most the sum of the distances of the parts.", "quantifier": "all words over any alphabet, all common prefixes and suffixes, all one-to-one renamings", "why_tests_cant": "Ranges over infinitely many words and automata; tests try a few literals.", "anchors": ["src/pybgl/levenshtein_distance.py:levenshtein_distance", "src/pybgl/lcs_distance.py:lcs_distance", "src/pybgl/damerau_levenshtein_distance.py:damerau_levenshtein_distance"]}
{"id": "C121", "title": "Algorithms on a GraphView and after reverse_graph", "statement": "A GraphView can be given to the algorithms in place of a graph, and they see its relevant part only: breadth_first_search and depth_first_search visit exactly the vertices reached by paths of relevant edges between relevant vertices, topological_sort sorts the relevant part or raises iff the relevant part has a cycle, strong_components gives the strongly connected components of the relevant part, dijkstra_shortest_paths its distances. After reverse_graph(g), breadth_first_search from s visits exactly the vertices from which s could be reached, dijkstra_shortest_paths gives the distances towards s, and strong_components finds as many components, with the same vertices.", "quantifier": "every graph, every pair of relevance maps, every source, every assignment of non-negative weights, every history of an IncidenceGraph", "why_tests_cant": "Ranges over infinitely many words and automata; tests try a few literals.", "anchors": ["src/pybgl/graph_view.py:GraphView", "src/pybgl/reverse.py:reverse_graph", "src/pybgl/breadth_first_search.py:breadth_first_search", "src/pybgl/depth_first_search.py:depth_first_search", "src/pybgl/topological_sort.py:topological_sort", "src/pybgl/strong_components.py:strong_components", "src/pybgl/dijkstra_shortest_paths.py:dijkstra_shortest_paths"]}
{"id": "C122", "title": "BKTree with a distance that is not a metric", "statement": "Whatever the distance given to BKTree, provided that distance(x, y) == 0 exactly when x == y, search terminates, an element that was inserted is always found with distance 0 whatever d_max, and what search returns is an inserted element within d_max, at its true distance, no farther than the first element inserted. If the distance is symmetric and satisfies d(x, z) <= c d(x, y) + d(y, z), the element returned is at most c times as far as the nearest one, and None is returned only if no element is within d_max / c. With damerau_levenshtein_distance c is 2, and it cannot be 1: an element within d_max may be missed.", "quantifier": "every distance, every list of inserted elements, every query and radius", "why_tests_cant": "Ranges over infinitely many words and automata; tests try a few literals.", "anchors": ["src/pybgl/bk_tree.py:BKTree.search", "src/pybgl/bk_tree.py:BKTree.insert", "src/pybgl/bk_tree.py:make_bk_tree", "src/pybgl/damerau_levenshtein_distance.py:damerau_levenshtein_distance"]}
{"id": "C123", "title": "Drawing of a GraphView", "statement": "The drawing of a GraphView shows exactly its relevant vertices, each of them once, and exactly its relevant edges between relevant vertices, each of them once; if vs (resp. es) is given, those that are also in vs (resp. es). A view of a view shows what both show. The ends of an edge that is drawn are drawn. Reading the drawing with read_graphviz gives the graph that the view shows, renumbered.", "quantifier": "all graphs, all relevance predicates, all sets vs and es, all orders of enumeration of sets, all options on one line", "why_tests_cant": "Ranges over infinitely many words and automata; tests try a few literals.", "anchors": ["src/pybgl/graph_view.py:GraphView.to_dot", "src/pybgl/graph.py:Graph.to_dot", "src/pybgl/graphviz_impl.py:to_dot", "src/pybgl/graphviz.py:read_graphviz"]}
{"id": "C124", "title": "make_incidence_node_automaton", "statement": "make_incidence_node_automaton builds the automaton that make_node_automaton builds from the same arguments, and raises the same errors; whatever the transitions, in_edges(r) then gives exactly the edges to r, once each.", "quantifier": "all lists of transitions, names, labels and final names", "why_tests_cant": "Ranges over infinitely many words and automata; tests try a few literals.", "anchors": ["src/pybgl/incidence_node_automaton.py:make_incidence_node_automaton", "src/pybgl/incidence_node_automaton.py:IncidenceNodeAutomaton", "src/pybgl/node_automaton.py:make_node_automaton"]}
{"id": "C125", "title": "The minimal acyclic automaton of a list of words", "statement": "Inserting words one by one in IncidenceAutomaton(1) with automaton_insert_string, then calling revuz_minimize, returns normally. The automaton obtained accepts exactly the words inserted, the value returned is the length of the longest one, and no automaton that accepts exactly these words has fewer states. The result depends, up to the numbers of the states, only on the set of words: not on the order of the insertions, nor on repetitions, nor on the order in which Python enumerates its sets.", "quantifier": "all lists of words, all orders of enumeration of sets, all other automata for the minimality", "why_tests_cant": "Ranges over infinitely many words and automata; tests try a few literals.", "anchors": ["src/pybgl/automaton.py:Automaton.automaton_insert_string", "src/pybgl/incidence_automaton.py:IncidenceAutomaton", "src/pybgl/revuz_minimize.py:revuz_minimize"]}
{"id": "C126", "title": "The algorithms agree with each other", "statement": "topological_sort raises RuntimeError iff strong_components puts two different vertices in one component or some edge is a loop. With unit weights, Dijkstra's distances are the numbers of edges of the shortest paths (below INFINITY), and breadth_first_search discovers the vertices by increasing distances. The arcs returned by make_shortest_paths_dag form a graph without cycle, which topological_sort sorts.", "quantifier": "all graphs, all weights", "why_tests_cant": "Ranges over infinitely many words and automata; tests try a few literals.", "anchors": ["src/pybgl/topological_sort.py:topological_sort", "src/pybgl/strong_components.py:strong_components", "src/pybgl/dijkstra_shortest_paths.py:dijkstra_shortest_paths", "src/pybgl/dijkstra_shortest_paths.py:make_shortest_paths_dag", "src/pybgl/breadth_first_search.py:breadth_first_search"]}
{"id": "C127", "title": "html_color_to_graphviz converts hsl colours", "statement": "A colour that does not start with hsl is returned unchanged. For hsl(h, s%, l%) with three integers, the text returned has the three components, between 0 and 1, of the HSV colour that is the same as the HSL colour (h/360, s/100, l/100): same hue, same largest and same smallest of the red, green and blue components. If the text between the parentheses is not made of three integers separated by commas, ValueError is raised, and no other exception ever is.", "quantifier": "all texts, all integers (saturation and lightness between 0 and 100 for the values)", "why_tests_cant": "Ranges over infinitely many words and automata; tests try a few literals.", "anchors": ["src/pybgl/color.py:html_color_to_graphviz", "src/pybgl/color.py:normalize_color_tuple", "src/pybgl/color.py:hsl_to_hsv"]}
{"id": "C128", "title": "Nfa objects built from the same set of initial states are independent", "statement": "An Nfa built with Nfa(n, initials=s) takes the contents of s when it is built: later changes of s by the caller, and the calls of set_initial or set_initials on another Nfa built from s, leave the states, the transitions, the initial and final states of the Nfa unchanged; every Nfa is at any time what the calls made on it alone give.", "quantifier": "all histories of creations of sets, changes of these sets, creations of Nfa objects with or without one of these sets, and calls of their methods", "why_tests_cant": "Depends on the whole history of mutations; tests exercise a handful of fixed histories.", "anchors": ["src/pybgl/nfa.py:Nfa.__init__", "src/pybgl/nfa.py:Nfa.set_initial", "src/pybgl/nfa.py:Nfa.set_initials", "src/pybgl/nfa.py:Nfa.is_initial"]}
{"id": "C129", "title": "Drawings of automata are read back by read_graphviz", "statement": "The text drawn by to_dot for an Automaton, an Nfa or a NodeAutomaton, whatever its symbols and its final states, is read by read_graphviz, into an empty DirectedGraph, without error, and gives the vertices and the transitions of the automaton, each transition once, the vertices being numbered in the order in which they are drawn.", "quantifier": "all automata reachable by histories of calls, all symbols, all Graphviz styles and options whose instructions are not vertices or edges", "why_tests_cant": "Ranges over infinitely many words and automata; tests try a few literals.", "anchors": ["src/pybgl/graphviz.py:read_graphviz", "src/pybgl/graphviz.py:ReadGraphvizVisitor", "src/pybgl/automaton.py:Automaton.to_dot", "src/pybgl/nfa.py:Nfa.to_dot", "src/pybgl/node_automaton.py:NodeAutomaton.to_dot"]}
{"id": "C130", "title": "initial() and is_final() are what the calls of the history say", "statement": "After any history of calls on an Automaton, IncidenceAutomaton, NodeAutomaton or IncidenceNodeAutomaton, initial() is q iff q is the state given to the last set_initial(q), or 0 if there was none, and no later set_initial(q, False) has withdrawn it; is_final(q) holds iff some set_final(q) was not followed by set_final(q, False). In an Nfa, q is initial iff a set_initial(q), a set_initials containing q, or the constructor made it initial, and neither set_initial(q, False) nor a set_initials without q came later. No other call, including remove_vertex and clear, matters.", "quantifier": "all histories of calls on the five classes of automata", "why_tests_cant": "Depends on the whole history of mutations; tests exercise a handful of fixed histories.", "anchors": ["src/pybgl/automaton.py:Automaton.set_initial", "src/pybgl/automaton.py:Automaton.set_final", "src/pybgl/automaton.py:Automaton.initial", "src/pybgl/automaton.py:Automaton.is_final", "src/pybgl/nfa.py:Nfa.set_initial", "src/pybgl/nfa.py:Nfa.set_initials", "src/pybgl/nfa.py:Nfa.set_final", "src/pybgl/graph.py:Graph.clear", "src/pybgl/graph.py:Graph.remove_vertex"]}
{"id": "C131", "title": "compile_nfa accepts only regular expressions", "statement": "A text whose parentheses are balanced is accepted by thompson_compile_nfa (and compile_nfa) only if it is empty or a regular expression: characters that are not special, escape sequences, non-empty classes and expressions in parentheses, each followed by any number of suffix operators, concatenated, and separated by bars. Made of characters, operators and parentheses only, it is accepted exactly if it is one; otherwise an IndexError is raised (or an AssertionError, if it is made of parentheses only).", "quantifier": "all texts, whatever the alphabet and the order in which sets are iterated", "why_tests_cant": "Ranges over infinitely many words and automata; tests try a few literals.", "anchors": ["src/pybgl/thompson_compile_nfa.py:thompson_compile_nfa", "src/pybgl/thompson_compile_nfa.py:ThompsonShuntingYardVisitor", "src/pybgl/shunting_yard_postfix.py:shunting_yard_postfix", "src/pybgl/shunting_yard_postfix.py:catify", "src/pybgl/regexp.py:compile_nfa"]}
{"id": "C132", "title": "Ill-formed expressions are rejected", "statement": "shunting_yard_ast and shunting_yard_compute return a result only for well-formed infix expressions, and raise an exception for any other list of tokens.", "quantifier": "all lists of tokens, all operator tables with unary and binary operators", "why_tests_cant": "The malformed expressions are infinitely many; tests try a few well-formed ones.", "anchors": ["src/pybgl/shunting_yard_postfix.py:shunting_yard_ast", "src/pybgl/shunting_yard_postfix.py:shunting_yard_compute", "src/pybgl/shunting_yard_postfix.py:RpnDequeOperation"]}
{"id": "C133", "title": "alphabet() and sigma(q) of an Nfa are exact", "statement": "For every history of calls on an Nfa, alphabet() is the set of the symbols other than epsilon that label a transition, and sigma(q) is the set of the symbols a other than epsilon for which delta(q, a) is not empty.", "quantifier": "all histories of calls on an Nfa, all states and symbols", "why_tests_cant": "Depends on the whole history of mutations; tests exercise a handful of fixed histories.", "anchors": ["src/pybgl/nfa.py:Nfa.alphabet", "src/pybgl/nfa.py:Nfa.sigma", "src/pybgl/nfa.py:Nfa.remove_edge"]}
{"id": "C134", "title": "What an Nfa reports of its states and transitions agrees with its history", "statement": "For every history of calls on an Nfa, add_vertex() returns a state that the automaton does not have and changes no other state nor transition; vertices() yields the states added and not removed, finals() the final ones among them; num_edges() and out_degree(q) count the distinct transitions; edge(q, r) finds the transition from q to r; label(e) and is_epsilon_transition(e) report the symbol given to add_edge.", "quantifier": "all histories of calls on an Nfa, all states and symbols", "why_tests_cant": "Depends on the whole history of mutations; tests exercise a handful of fixed histories.", "anchors": ["src/pybgl/nfa.py:Nfa", "src/pybgl/graph.py:Graph.add_vertex", "src/pybgl/graph.py:Graph.edge", "src/pybgl/graph.py:Graph.num_edges"]}
{"id": "C135", "title": "Attributes read by read_graphviz", "statement": "read_graphviz with a subclass of ReadGraphvizVisitor calls on_install_vertex_property and on_install_edge_property, for each line that describes a vertex or an edge and in the order of the lines, once for each name of attribute of the line, with its last value and with the vertex or the edge that the line has created; the graph read does not depend on these methods; for a drawing written by to_dot these are the attributes written for each vertex and each edge. read_graphviz_dp reads the same graphs and stores these attributes.", "quantifier": "all texts, all visitors, all drawings of directed graphs, all results of the HTML parser of the standard library", "why_tests_cant": "Ranges over infinitely many words and automata; tests try a few literals.", "anchors": ["src/pybgl/graphviz.py:GraphvizOptsParser", "src/pybgl/graphviz.py:ReadGraphvizVisitor", "src/pybgl/graphviz.py:read_graphviz", "src/pybgl/graphviz.py:read_graphviz_dp"]}
{"id": "C136", "title": "Searches given a map of colours that is not new", "statement": "depth_first_search, breadth_first_search_graph and dijkstra_shortest_paths, given a map of colours with arbitrary contents, never enter a vertex (other than the starting ones) that is not white: a traversal discovers exactly the vertices reachable without entering such a vertex, examines all the edges that leave them, reports the edges towards hidden vertices according to their colour, and makes besides exactly the calls of the search of the graph without the edges towards hidden vertices; Dijkstra's search computes the best weights of the paths whose intermediate vertices are not hidden. After any history of traversals sharing a map, a new one discovers its starting vertices and the vertices reachable from them and not discovered before.", "quantifier": "all graphs, all maps of colours, all visitors, all histories of depth-first and breadth-first searches sharing a map", "why_tests_cant": "Depends on the whole history of mutations; tests exercise a handful of fixed histories.", "anchors": ["src/pybgl/depth_first_search.py:depth_first_search", "src/pybgl/breadth_first_search.py:breadth_first_search_graph", "src/pybgl/dijkstra_shortest_paths.py:dijkstra_shortest_paths"]}
{"id": "C137", "title": "Dijkstra's search with maps that are not new", "statement": "Whatever pmap_vdist and pmap_vpreds contain before the call (the documentation asks for empty sets and zeros), dijkstra_shortest_paths computes the best weights, and for every reached vertex other than the source exactly the last arcs of the best paths; what pmap_vpreds contained stays at the source and at the vertices that are not reached, and dijkstra_shortest_path returns the same result as with new maps.", "quantifier": "all graphs, all selective algebras, all contents of the maps, all enumeration orders of the sets", "why_tests_cant": "Depends on the whole history of mutations; tests exercise a handful of fixed histories.", "anchors": ["src/pybgl/dijkstra_shortest_paths.py:dijkstra_shortest_paths_initialization", "src/pybgl/dijkstra_shortest_paths.py:dijkstra_shortest_paths_iteration", "src/pybgl/dijkstra_shortest_paths.py:dijkstra_shortest_path"]}
{"id": "C138", "title": "Sizes of the automata computed", "statement": "compile_nfa of an expression returns an automaton whose states are exactly 0, ..., n-1, where n is computed from the expression (2 per symbol or set, +2 per alternation, star and plus, copies for {m,n}); without {m,n} it is at most twice the number of tokens. moore_determination returns at most 2^n states for an automaton with n states. A trie has exactly one state per distinct prefix of the words inserted (at most 1 + their total length), a suffix trie one per distinct factor (at most 1 + n(n+1)/2). deterministic_intersection returns at most n1*n2 states and deterministic_union fewer than (n1+1)(n2+1).", "quantifier": "every expression, every automaton, every list of words, every order of sets", "why_tests_cant": "Ranges over infinitely many words and automata; tests try a few literals.", "anchors": ["src/pybgl/thompson_compile_nfa.py: concatenation, alternation, zero_or_more, one_or_more, repetition, repetition_range, thompson_compile_nfa", "src/pybgl/moore_determination.py: moore_determination", "src/pybgl/trie.py: Trie.insert", "src/pybgl/suffix_trie.py: make_suffix_trie", "src/pybgl/deterministic_intersection.py: deterministic_intersection", "src/pybgl/deterministic_union.py: deterministic_union"]}
{"id": "C139", "title": "Determinisation without sink", "statement": "With complete=False (the default), every state of moore_determination stands for a non-empty set of states of the original automaton: a word reaches a state of the result if and only if it can be read in the original automaton, and there are fewer than 2^n states.", "quantifier": "all Nfa built by any history of calls, all orders of sets", "why_tests_cant": "Depends on the whole history of mutations; tests exercise a handful of fixed histories.", "anchors": ["src/pybgl/moore_determination.py: moore_determination", "src/pybgl/nfa.py: Nfa.sigma, Nfa.remove_edge"]}
{"id": "C140", "title": "Dijkstra's search whatever the weights", "statement": "Whatever the weights (even negative), compare, combine, the property maps given and the visitor, dijkstra_shortest_paths ends without error on a finite graph; each vertex is discovered at most once, a vertex other than the source is examined at most once and the source at most twice; each distance is infty or the combined weight of a path from the source, each predecessor arc is left from before or ends a path having the weight recorded for the vertex. If no path is as bad as infty, exactly the reachable vertices get a distance.", "quantifier": "all finite graphs, weights, compare and combine functions, contents of the maps, visitors that stop the search", "why_tests_cant": "Ranges over infinitely many words and automata; tests try a few literals.", "anchors": ["src/pybgl/dijkstra_shortest_paths.py: dijkstra_shortest_paths, dijkstra_shortest_paths_iteration, make_shortest_path", "src/pybgl/heap.py: Heap"]}
{"id": "C141", "title": "Unions and intersections put into a given automaton", "statement": "deterministic_union(g1, g2, g12) and deterministic_intersection(g1, g2, g12) leave the states and transitions of g12 as they are and append a copy of the automaton they build by default. The initial state becomes the one of the copy, so that the language becomes the one computed by default; except when no transition leaves the initial states (for the intersection: no symbol labels transitions leaving both), in which case g12 is returned as it was, with the language it had.", "quantifier": "all automata g1, g2 and g12 built by the API (g12 empty or not) and all orders of iteration over sets", "why_tests_cant": "Ranges over infinitely many words and automata; tests try a few literals.", "anchors": ["src/pybgl/deterministic_union.py:deterministic_union", "src/pybgl/deterministic_intersection.py:deterministic_intersection", "src/pybgl/product_mixin.py:ProductMixin"]}
{"id": "C142", "title": "The whole sequence of calls received by a DijkstraVisitor", "statement": "Whatever the weights, compare, combine and the maps given, dijkstra_shortest_paths ends without error and its visitor receives exactly: initialize_vertex for each vertex of the graph; then, for each vertex examined, examine_vertex, and for each arc that leaves it, in the order of out_edges, examine_edge followed by edge_relaxed if the arc improves the current distance of its target or equals it, by edge_not_relaxed otherwise, with discover_vertex before edge_relaxed the first time that a vertex not met yet is improved; then finish_vertex. The distances and predecessor arcs at the end are those that result from these reports. Each predecessor arc that was not there before has been reported by edge_relaxed; if combining a distance with a weight never improves it, no shortest path ends with an arc reported by edge_not_relaxed.", "quantifier": "every graph, source, weights, compare, combine, zero, infty, property maps given, and every visitor that may stop the search in examine_vertex", "why_tests_cant": "Ranges over infinitely many words and automata; tests try a few literals.", "anchors": ["src/pybgl/dijkstra_shortest_paths.py: dijkstra_shortest_paths, dijkstra_shortest_paths_iteration, DijkstraVisitor"]}
{"id": "C143", "title": "Mutators after reverse_graph", "statement": "After any history that mixes add_vertex, add_edge, remove_edge, remove_vertex, clear and reverse_graph on an IncidenceGraph, vertices and edges are those issued and not removed since, out_edges(u) and in_edges(u) list the edges of source and target u, source and target are the original ones exchanged iff the number of reversals is odd, edge(u, v) finds the edge from u to v iff it is unique, add_vertex returns a new vertex, remove_edge(e) removes exactly e, remove_vertex(u) exactly u and the edges that touch it, and add_edge(u, v) adds exactly one edge, from u to v. The same holds of remove_edge and remove_vertex of an IncidenceAutomaton, and of out_edges and remove_edge of an UndirectedGraph, after reverse_graph.", "quantifier": "every history of calls of the mutators and of reverse_graph, every vertex and edge", "why_tests_cant": "Depends on the whole history of mutations; tests exercise a handful of fixed histories.", "anchors": ["src/pybgl/reverse.py: reverse_graph", "src/pybgl/incidence_graph.py: IncidenceGraph", "src/pybgl/incidence_automaton.py: IncidenceAutomaton.remove_edge, remove_vertex", "src/pybgl/graph.py: Graph.edge, UndirectedGraph.out_edges, UndirectedGraph.remove_edge"]}
{"id": "C144", "title": "Views of a changing graph, nested views, laws of the operators, methods forwarded by a view", "statement": "A GraphView follows its graph: after any history of calls on the graph it shows exactly the relevant vertices and edges that are in it now. A view of a view shows what the intersection of the two views shows. The operators | and & on views of a graph are commutative, associative, idempotent, and distribute over each other; g - g shows nothing. has_vertex(), has_edge() and edge(u, v) called on a view answer about the vertices and edges that the view shows.", "quantifier": "every graph and history of calls on it, every pair of relevance maps, every combination of views", "why_tests_cant": "Depends on the whole history of mutations; tests exercise a handful of fixed histories.", "anchors": ["src/pybgl/graph_view.py: GraphView.__getattr__, __or__, __and__, __sub__, vertices, edges, out_edges, in_edges", "src/pybgl/graph.py: Graph.edge, Graph.has_vertex, Graph.has_edge"]}
{"id": "C145", "title": "re_escape turns a text into a regular expression for this text", "statement": "Whatever the text s (without the symbol of epsilon transitions), compile_nfa(re_escape(s)) and compile_dfa(re_escape(s)) return automata that accept s and nothing else. Different texts have different escaped texts, a text without metacharacter is left as it is, and the escaped text of a concatenation is the concatenation of the escaped texts.", "quantifier": "every text, every alphabet given, every order of iteration of the sets", "why_tests_cant": "Ranges over infinitely many words and automata; tests try a few literals.", "anchors": ["src/pybgl/shunting_yard_postfix.py: re_escape, RE_OPERATORS_RE, tokenizer_re", "src/pybgl/thompson_compile_nfa.py: thompson_compile_nfa, parse_escaped", "src/pybgl/regexp.py: compile_nfa, compile_dfa"]}
{"id": "C146", "title": "Copies into a graph that is not empty, callbacks of graph_copy and automaton_copy", "statement": "graph_copy(s, g, g_dup) into a DirectedGraph, UndirectedGraph or IncidenceGraph that already has vertices and edges adds to it one new vertex per vertex reached from s along relevant edges and one new edge per relevant edge leaving them, and keeps everything else, as automaton_copy does for an Automaton, whose initial state, final states and (if its transitions stay inside) language do not change. Entries of pmap_vertices and pmap_edges about what is not copied are kept. callback_dup_vertex and callback_dup_edge are called exactly once per vertex and edge copied, with its copy, an edge after both its ends; g_dup then contains exactly what was copied so far. The calls do not depend on the callbacks; an exception raised by a callback is raised by the copy.", "quantifier": "every graph whose part reached from s is finite, every source, every relevance map, every history of the target, every content of the maps, every callback that does not change g_dup and the maps", "why_tests_cant": "Ranges over infinitely many words and automata; tests try a few literals.", "anchors": ["src/pybgl/graph_copy.py: DepthFirstSearchCopyVisitor, graph_copy", "src/pybgl/automaton_copy.py: AutomatonCopyVisitor, automaton_copy"]}
{"id": "C147", "title": "The symbol \u03b5 written in a regular expression stands for the empty word", "statement": "Whatever the symbols of a regular expression, including \u03b5 among literals and character classes, compile_nfa and compile_dfa return automata that accept the words of its language from which the occurrences of \u03b5 are deleted. In particular (e|\u03b5) accepts the empty word and the words of e, and nothing else, also in the cases where e? accepts more.", "quantifier": "every regular expression (abstract, or written with the parentheses required by the precedences of the library) that satisfies the condition of C34 on optional parts, every alphabet given, every order of iteration of the sets", "why_tests_cant": "Ranges over infinitely many words and automata; tests try a few literals.", "anchors": ["src/pybgl/thompson_compile_nfa.py: literal, bracket, thompson_compile_nfa", "src/pybgl/nfa.py: Nfa.add_edge, Nfa.delta_epsilon, Nfa.accepts", "src/pybgl/regexp.py: compile_nfa, compile_dfa"]}
{"id": "C148", "title": "The automaton compiled from a regular expression, arc by arc", "statement": "Compiling a regular expression returns an NFA whose states are 0, \u2026, n-1, whose only final state is n-1, and whose arcs and initial state are those of the picture of Thompson's construction as the library draws it: concatenations and repetitions put copies one after the other, alternations, stars and pluses add two states, {m,n} adds arcs from the end of the copies m, \u2026, n-1 to the last state, and starts at the state that bears the number of the initial state of the repeated expression. The words accepted by compile_nfa and compile_dfa are those read along the arcs of this picture, also for the expressions for which they are not the language of the expression.", "quantifier": "every regular expression (abstract, or written with the parentheses required by the precedences of the library) whose repetitions {m,n} have m \u2264 n and in which {0} is only applied to parts whose automaton starts at the state 0; every alphabet, symbols \u03b5 included", "why_tests_cant": "Ranges over infinitely many words and automata; tests try a few literals.", "anchors": ["src/pybgl/thompson_compile_nfa.py: literal, bracket, concatenation, alternation, zero_or_one, zero_or_more, one_or_more, repetition, repetition_range, thompson_compile_nfa", "src/pybgl/regexp.py: compile_nfa, compile_dfa"]}
{"id": "C149", "title": "dijkstra_shortest_paths interrupted by its visitor", "statement": "dijkstra_shortest_paths calls the methods of the visitor in an order, and with contents of the maps at each call, that do not depend on the visitor; an exception raised by any method, at any call, is that of dijkstra_shortest_paths, and the maps stay as they were at that call. Once the initialization is over, whatever the call at which this happens: every distance is infty or the weight of an existing path, the distances of the vertices for which examine_vertex was called are the best ones, every arc leaving a finished vertex has been taken into account in distances and predecessors, every predecessor of v ends a path of weight pmap_vdist[v], and every vertex reached other than s has one. During the initialization, the predecessors are untouched and the distances of the vertices seen so far are zero or infty.", "quantifier": "every finite graph, source, weights and semi-ring as in C64 (in particular sums of non-negative weights); every visitor that does not modify the graph nor the maps, which may read the maps, keep a state and raise any exception at any call", "why_tests_cant": "The visitor may raise at any of the calls of any run: this is a statement on all the crash points of all the runs.", "anchors": ["src/pybgl/dijkstra_shortest_paths.py: DijkstraVisitor, dijkstra_shortest_paths_initialization, dijkstra_shortest_paths_iteration, dijkstra_shortest_paths, DijkstraTowardsVisitor"]}
{"id": "C150", "title": "The colours seen by a visitor of a search, and those left when it interrupts the search", "statement": "depth_first_search, breadth_first_search_graph and breadth_first_search make the same calls, with the same pmap_vcolor at each of them, whatever the visitor; an exception raised by any method (or by if_push) at any call is that of the search, and the colours stay as they were at that call. At every call a vertex is BLACK iff its finish_vertex has been called (this call included), GRAY iff its discover_vertex has been and not its finish_vertex, WHITE iff neither has; the vertices that are not WHITE are reachable from the sources, no relevant edge leads from a BLACK vertex to a WHITE one, and every WHITE vertex still to be reached is reachable from a GRAY one through WHITE ones. In a depth-first search a GRAY vertex reaches all those discovered after it; in a breadth-first search a WHITE vertex is at least as far from the sources as the other ones. breadth_first_search makes a vertex WHITE right after its initialize_vertex.", "quantifier": "every graph and edge filter such that finitely many vertices are reachable from the sources; every visitor that does not modify the graph nor the colours, which may read the colours, keep a state and raise any exception at any call; breadth-first search: distinct sources, colours that are all WHITE when the search starts", "why_tests_cant": "The visitor may raise at any of the calls of any run: this is a statement on all the crash points of all the runs.", "anchors": ["src/pybgl/depth_first_search.py: DefaultDepthFirstSearchVisitor, depth_first_search", "src/pybgl/breadth_first_search.py: DefaultBreadthFirstSearchVisitor, breadth_first_search_graph, breadth_first_search"]}
{"id": "C151", "title": "The edit distances return the distance of any two words, within Python's limit of recursion", "statement": "levenshtein_distance, lcs_distance and damerau_levenshtein_distance return the distance of any two words. (False of long words: compute is recursive. Whatever the limit L of nested calls, the outcome is the right distance or RecursionError, and the entries of self.memoize are right in both cases, so that the object can be used again; the distance is returned when |x| + |y| <= L; RecursionError is raised when L <= min(|x|, |y|); equal words need |x| + 1 nested calls exactly, words that are not empty and have no common character |x| + |y| exactly. A distance returned took at most 1 + 4(|x|+1)(|y|+1) calls.)", "quantifier": "every pair of words over every alphabet, every limit of nested calls, every right content of self.memoize when compute is called again", "why_tests_cant": "Tests run words shorter than the default limit; the limit left depends on the depth at which the caller is.", "anchors": ["src/pybgl/levenshtein_distance.py: LevenshteinDistance.compute, levenshtein_distance", "src/pybgl/lcs_distance.py: LcsDistance.compute, lcs_distance", "src/pybgl/damerau_levenshtein_distance.py: DamerauLevenshteinDistance.compute, damerau_levenshtein_distance"]}
{"id": "C152", "title": "With floating-point weights, Dijkstra's distances are close to the exact ones", "statement": "With non-negative floats as weights, dijkstra_shortest_paths ends; the distance of every vertex is the least sum along the paths from s, each sum being rounded after each arc from s on (INFINITY if there is none below it). If one addition has a relative error of at most e, 2^-53 for Python's floats, and if the graph has k+1 vertices, then every distance below INFINITY is, up to the factor 1 - k e, at least the exact total weight of some path and at most that of every path. A path returned by dijkstra_shortest_path has the least rounded sum.", "quantifier": "every floating-point format and every way to break ties, every graph, source and non-negative weights of the format, with or without compare", "why_tests_cant": "The addition of floats is not associative, and the errors depend on the weights; tests compare with sums of integers.", "anchors": ["src/pybgl/dijkstra_shortest_paths.py: dijkstra_shortest_paths, dijkstra_shortest_path", "src/pybgl/algebra.py: ClosedPlus, Less"]}
{"id": "C153", "title": "With positive floating-point weights, dijkstra_shortest_path returns a path", "statement": "With positive floats as weights, dijkstra_shortest_path returns a path from s to t if some path weighs less than INFINITY. (False of weights that are very different from each other: a small weight is lost when it is added to a large distance, so that a cycle may be made of predecessor arcs, and make_shortest_path may turn around it for ever. If the weights are between x and y, where y / x is less than 1/e divided by the number of vertices, a path without repetition is returned, the exact weight of which is the least one up to the factor (1 - k e)^2; with Python's floats, it is enough that there are at most 2^20 vertices and that no weight is more than 2^30 times another one.)", "quantifier": "every floating-point format and every way to break ties, every graph, source, target and positive weights of the format, every order of the sets", "why_tests_cant": "Losing a weight needs weights that tests do not use, and which arc is popped from a set depends on the hashes.", "anchors": ["src/pybgl/dijkstra_shortest_paths.py: dijkstra_shortest_path, make_shortest_path", "src/pybgl/algebra.py: ClosedPlus, Less"]}
{"id": "C154", "title": "Loops that change the graph they iterate on", "statement": "In a loop over vertices(), edges(), out_edges(u) or in_edges(v) whose body calls add_vertex and add_edge, or calls remove_edge, remove_vertex and clear (exceptions being caught), no item is delivered twice, each item is in the graph when it is delivered, and the loop ends. It ends normally exactly if no turn for an edge from u to v changes the set of vertices (for edges()), the set of successors of u, or the set of edges from u to v; else it raises RuntimeError. If it ends normally, no item that is in the graph from the beginning to the end is missed. In particular, `for e in g.edges(): g.remove_edge(e)` removes one edge and raises RuntimeError, and so does `for u in g.vertices(): g.remove_vertex(u)` with a vertex.", "quantifier": "every graph reached by any history of calls, directed, undirected or incidence graph; every body that adds or that removes, depending in any way on the items delivered so far", "why_tests_cant": "Depends on the whole history of mutations; tests exercise a handful of fixed histories.", "anchors": ["src/pybgl/graph.py: DirectedGraph.vertices, DirectedGraph.edges, DirectedGraph.out_edges, UndirectedGraph.edges, UndirectedGraph.out_edges", "src/pybgl/incidence_graph.py: IncidenceGraph.in_edges"]}
{"id": "C155", "title": "Number of calls to the functions given by the caller", "statement": "Whatever the preorder does (it need not be an order, its answers may change, it may raise), Heap.push on n elements calls to_comparable once and the preorder at most 3*floor(log2(n+1)) times, Heap.pop calls the preorder at most 6*floor(log2(n-1)) times, and Heap(elements) calls to_comparable at most n times and the preorder at most 6n times. Whatever the distance does, BKTree.insert and BKTree.search end and call the distance at most once for each stored element.", "quantifier": "every state of a heap, every BK-tree made by any insertions with any distances, every function given by the caller, with side effects and exceptions", "why_tests_cant": "Ranges over infinitely many words and automata; tests try a few literals.", "anchors": ["src/pybgl/heap.py: Comparable, Heap.push, Heap.pop, Heap.__init__", "src/pybgl/bk_tree.py: BKTree.insert, BKTree.search"]}
{"id": "C156", "title": "Exceptions raised by the functions given by the caller", "statement": "If to_comparable, the preorder or the distance raises, the heap or the BK-tree is as it was before the call.", "quantifier": "every state of a heap, every BK-tree made by any insertions with any distances, every function given by the caller, raising at any call", "why_tests_cant": "Ranges over infinitely many words and automata; tests try a few literals.", "anchors": ["src/pybgl/heap.py: Heap.push, Heap.pop", "src/pybgl/bk_tree.py: BKTree.insert, BKTree.search"]}
{"id": "C157", "title": "Automata of the Thompson construction are objects modified in place", "statement": "Let concatenation or alternation be given two different Nfa objects, each with one initial and one final state. The first object, which is returned, becomes an automaton of the concatenation or of the union; the second one, and any other, is left as it is, so it may be used again. repetition and repetition_range work on copies of their automaton: the result is the one computed for the automaton they are given, and other objects are left as they are. thompson_compile_nfa always returns a new object: any number of calls, whether they return or raise, leave the automata returned before as they were. Given the same object twice, concatenation and alternation raise RuntimeError and leave it with exactly one more state, isolated, final if the first state is.", "quantifier": "all collections of Nfa objects, all pairs of them, same or different, all numbers of repetitions, all token lists, all sequences of calls to the compiler", "why_tests_cant": "Sharing bugs appear only for some combinations of objects and operators, and the automata to compare have any size: no finite set of expressions shows that an operand is never modified behind the caller's back.", "anchors": ["src/pybgl/thompson_compile_nfa.py: insert_automaton", "src/pybgl/thompson_compile_nfa.py: concatenation", "src/pybgl/thompson_compile_nfa.py: alternation", "src/pybgl/thompson_compile_nfa.py: repetition", "src/pybgl/thompson_compile_nfa.py: repetition_range", "src/pybgl/thompson_compile_nfa.py: thompson_compile_nfa"]}
{"id": "C158", "title": "Searches whose visitor modifies the graph, and graphs copied into themselves", "statement": "A visitor may modify the graph during depth_first_search, breadth_first_search_graph or breadth_first_search. If no call changes the out-edges of the vertices of a set that contains the source and that edges do not leave (and, for breadth_first_search, the list of the vertices), the search makes the same calls in the same order and ends with the same colors or exception as on the graph as it was before the call, whatever happens to the other vertices and edges. So graph_copy(s, g, g) and automaton_copy(s, g, g), where the graph receives its own copy, add to g a copy, made of new vertices and edges, of what was reached from s before the call, with one callback per vertex and edge, and leave the rest as it was. Without this condition the searches may raise: removing the edge received by back_edge leads to an IndexError, removing the one received by non_tree_edge to a RuntimeError.", "quantifier": "all graphs, all visitors and callbacks, stateful or not, that raise or not, all sources, all filters of edges, all graphs built by the API copied into themselves", "why_tests_cant": "Ranges over infinitely many words and automata; tests try a few literals.", "anchors": ["src/pybgl/depth_first_search.py: depth_first_search", "src/pybgl/breadth_first_search.py: breadth_first_search_graph", "src/pybgl/breadth_first_search.py: breadth_first_search", "src/pybgl/graph_copy.py: graph_copy", "src/pybgl/automaton_copy.py: automaton_copy"]}
{"id": "C159", "title": "Products computed in place", "statement": "deterministic_intersection(g1, g2, g12) where g12 is the object g1, the object g2 or both does to g12 exactly what it does when g12 is another automaton with the same content: it appends the intersection of what g1 and g2 were before the call. The same holds for deterministic_union provided that no pair of states other than the first one contains an initial state; so deterministic_union(g, g, g) leaves the language of g unchanged, and so does deterministic_intersection(g, g, g) when the initial state is 0. Without this proviso a union in place may differ from the other one.", "quantifier": "all automata built through the API whose initial state and targets are states, all ways in which g12 is shared with the operands, all set iteration orders", "why_tests_cant": "Ranges over infinitely many words and automata; tests try a few literals.", "anchors": ["src/pybgl/deterministic_intersection.py: deterministic_intersection", "src/pybgl/deterministic_union.py: deterministic_union", "src/pybgl/product_mixin.py: ProductMixin.add_product_vertex", "src/pybgl/parallel_breadth_first_search.py: parallel_breadth_first_search"]}
{"id": "C160", "title": "A trie inserted in itself", "statement": "trie.insert(trie) terminates without raising and leaves the trie exactly as it was, whatever the order in which the symbols are enumerated, although the trie that is read is the one that is modified.", "quantifier": "all tries built by insertions of words and tries, all set iteration orders", "why_tests_cant": "Ranges over infinitely many words and automata; tests try a few literals.", "anchors": ["src/pybgl/trie.py: Trie.insert", "src/pybgl/trie.py: trie_deterministic_fusion", "src/pybgl/trie.py: TrieDeterministicFusion"]}
{"id": "C161", "title": "Loops that change the automaton they iterate on", "statement": "A for loop over vertices(), edges() or out_edges(q) of an Automaton may call methods of this automaton in its body, the exceptions being caught. If the calls only add states and transitions (or set initial and final states), or only remove some: every item delivered is in the automaton at that time; no item is delivered twice; if the loop ends normally, every item that is there at the beginning and at the end has been delivered; the loop ends normally or raises RuntimeError, and it ends normally exactly if no turn changes the containers being iterated: the states (for vertices() and edges()) and the labels of the transitions from the current source (for edges() and out_edges(q)). In particular a loop over out_edges(q) that adds states and transitions from other states ends normally and delivers exactly the transitions from q.", "quantifier": "all automata reached by any calls, all bodies that choose their calls from the items seen so far", "why_tests_cant": "Depends on the whole history of mutations; tests exercise a handful of fixed histories.", "anchors": ["src/pybgl/automaton.py: Automaton.out_edges", "src/pybgl/automaton.py: Automaton.edges", "src/pybgl/graph.py: Graph.vertices", "src/pybgl/automaton.py: Automaton.add_edge", "src/pybgl/automaton.py: Automaton.remove_edge"]}
{"id": "C162", "title": "Loops over out_edges(q) that change an incidence automaton", "statement": "A for loop over out_edges(q) of an IncidenceAutomaton may call methods of this automaton in its body, the exceptions being caught. If the calls only add states and transitions, or only remove some (or set initial and final states): every transition delivered is in the automaton at that time; none is delivered twice; if the loop ends normally, every transition from q that is there at the beginning and at the end has been delivered; the loop ends normally or raises RuntimeError, and it ends normally exactly if no turn changes the labels of the transitions from q.", "quantifier": "all incidence automata reached by any calls but clear(), exceptions being caught; all bodies that choose their calls from the items seen so far", "why_tests_cant": "Depends on the whole history of mutations; tests exercise a handful of fixed histories.", "anchors": ["src/pybgl/automaton.py: Automaton.out_edges", "src/pybgl/incidence_automaton.py: IncidenceAutomaton.remove_vertex", "src/pybgl/incidence_automaton.py: IncidenceAutomaton.remove_edge", "src/pybgl/incidence_automaton.py: IncidenceAutomaton.add_edge"]}
{"id": "C163", "title": "The deque handed over to topological_sort", "statement": "topological_sort(g, stack) updates stack in place. If g has no cycle, stack afterwards holds the vertices, the source of each edge before its target, followed by what it held before, and this is what is returned. If g has a cycle, RuntimeError is raised, and what was put in front of stack is a set of vertices, without repetition, every edge from which leads to one that comes later. More generally, when a method of a visitor raises, depth_first_search_graph has made the same calls as without the exception, up to this one, and the visitor keeps what it did.", "quantifier": "all finite graphs, all deques, all visitors", "why_tests_cant": "Ranges over infinitely many words and automata; tests try a few literals.", "anchors": ["src/pybgl/topological_sort.py: topological_sort", "src/pybgl/topological_sort.py: TopologicalSortVisitor", "src/pybgl/depth_first_search.py: depth_first_search_graph"]}
{"id": "C164", "title": "Loops over a GraphView that change the graph", "statement": "A for loop over vertices(), edges(), out_edges(u) or in_edges(u) of a GraphView may call methods of the graph in its body, the exceptions being caught. If the calls only add vertices and edges, or only remove some: every item delivered is relevant and in the graph at that time; none is delivered twice; if the loop ends normally, every relevant item that is there at the beginning and at the end has been delivered; the loop ends normally or raises RuntimeError, and it ends normally exactly if no turn changes the containers being iterated.", "quantifier": "all directed, undirected and incidence graphs reached by any history; all relevance maps that do not change during the loop; all bodies that choose their calls from the items seen so far", "why_tests_cant": "Depends on the whole history of mutations; tests exercise a handful of fixed histories.", "anchors": ["src/pybgl/graph_view.py: GraphView.vertices", "src/pybgl/graph_view.py: GraphView.edges", "src/pybgl/graph_view.py: GraphView.out_edges", "src/pybgl/graph_view.py: GraphView.in_edges"]}
{"id": "C165", "title": "Calls on an Nfa that raise", "statement": "Whatever the history of calls on an Nfa, exceptions being caught, a call raises exactly if it is remove_vertex(u) and u is not a state; the exception is KeyError. Such a call leaves the states, the initial and final states and the next state number as they are, and it should change nothing else either; in fact it removes the transitions to u, which add_edge does not forbid, and so may change the language. If all targets are states, it changes neither the transitions nor the language. accepts(w) is true exactly for the words of the language after any such history.", "quantifier": "all alphabets, all histories of calls on an Nfa some of which raised, all calls, all words without the epsilon symbol", "why_tests_cant": "Depends on the whole history of mutations; tests exercise a handful of fixed histories.", "anchors": ["src/pybgl/nfa.py: Nfa.add_edge", "src/pybgl/nfa.py: Nfa.remove_edge", "src/pybgl/graph.py: Graph.remove_vertex", "src/pybgl/graph.py: Graph.clear", "src/pybgl/nfa.py: Nfa.accepts"]}
{"id": "C166", "title": "Loops over an Nfa that change it", "statement": "A for loop over vertices(), edges() or out_edges(q) of an Nfa may call methods of the Nfa in its body, the exceptions being caught. If the calls only add transitions, or only remove states and transitions (initial and final states may be set in both cases): every item delivered is in the automaton at that time; none is delivered twice; if the loop ends normally, every item that is there at the beginning and at the end has been delivered; the loop ends normally or raises RuntimeError, and it ends normally exactly if no turn changes the containers being iterated. The same holds if states are added too, provided the sources of all transitions are states. A loop over edges() that removes the transitions it receives raises RuntimeError after the first one. A loop that only repeats transitions that are there, or sets initial and final states, ends normally and delivers all transitions.", "quantifier": "all alphabets; all automata reached by any history; all bodies that choose their calls from the items seen so far", "why_tests_cant": "Depends on the whole history of mutations; tests exercise a handful of fixed histories.", "anchors": ["src/pybgl/nfa.py: Nfa.edges", "src/pybgl/nfa.py: Nfa.out_edges", "src/pybgl/nfa.py: Nfa.add_edge", "src/pybgl/nfa.py: Nfa.remove_edge", "src/pybgl/graph.py: Graph.vertices"]}
{"id": "C167", "title": "Descriptors of an Nfa kept in variables", "statement": "An edge descriptor obtained from edges() or out_edges() of an Nfa and kept in a variable should keep showing what it showed. In fact its distinguisher holds the set of numbers of the automaton itself: add_edge of the same transition changes it. Exactly: a call changes what a listed descriptor shows if and only if it is add_edge of the same source, target and label, and then one number is added; as long as the transition is listed after every call, the old descriptor shows it as it is now; once it is removed, the descriptor is never listed again and shows the same numbers for ever, even if the same transition is added again, whose new descriptor has another set. A descriptor always shows the numbers from 1 to some k that never decreases, and no two listed descriptors share a set. Who never keeps a descriptor cannot notice the sharing: all calls have the outcomes and effects they would have if the sets were values.", "quantifier": "all alphabets, all histories of calls on an Nfa some of which raised, all descriptors obtained at any time, all further calls", "why_tests_cant": "Depends on the whole history of mutations; tests exercise a handful of fixed histories.", "anchors": ["src/pybgl/nfa.py: Nfa.add_edge", "src/pybgl/nfa.py: Nfa.remove_edge", "src/pybgl/nfa.py: Nfa.edges", "src/pybgl/nfa.py: Nfa.out_edges", "src/pybgl/graph.py: EdgeDescriptor"]}
{"id": "C168", "title": "is_deterministic and is_minimal", "statement": "is_deterministic(g) is true, and indeed no two transitions from a state have the same label, whatever the history. is_minimal(g) should be true exactly if no automaton with the same language has fewer states; in fact it returns an exception object, which counts as true in a test, for every g, minimal or not. A test that works: if every state of an incidence automaton lies on an accepting path and there are both final and non-final states, it has the fewest possible states exactly if hopcroft_minimize returns an automaton with as many states, and exactly if no two states are indistinguishable; the automaton returned by hopcroft_minimize has the fewest possible states.", "quantifier": "all alphabets, all automata produced by any history of calls, all orders in which sets are enumerated, all rival automata", "why_tests_cant": "Ranges over infinitely many words and automata; tests try a few literals.", "anchors": ["src/pybgl/automaton.py: is_minimal", "src/pybgl/automaton.py: is_deterministic", "src/pybgl/automaton.py: Automaton.is_deterministic", "src/pybgl/hopcroft_minimize.py: hopcroft_minimize"]}
{"id": "C169", "title": "Breadth-first search stopped by its visitor", "statement": "breadth_first_search_graph and breadth_first_search make the same calls to every visitor; the first exception raised by the visitor is the outcome, and the visitor has then received the calls that precede it and no other. In particular a visitor that records the tree edge leading to each vertex, and raises once a vertex t is discovered, stops breadth_first_search(s, g) exactly if there is a path from s to t; it then holds such a path with the fewest edges, and nothing about vertices farther than t. If there is no such path the search ends, and the visitor holds a path with the fewest edges to every vertex reachable from s. breadth_first_search_graph(g) without sources raises TypeError, and the visitor is not called.", "quantifier": "all graphs with finitely many reachable vertices, all if_push predicates, all lists of distinct sources, all visitors (with any state, raising at any call), all vertices searched for", "why_tests_cant": "Ranges over infinitely many words and automata; tests try a few literals.", "anchors": ["src/pybgl/breadth_first_search.py: breadth_first_search_graph", "src/pybgl/breadth_first_search.py: breadth_first_search", "src/pybgl/breadth_first_search.py: DefaultBreadthFirstSearchVisitor"]}
{"id": "C170", "title": "Aggregated visitors when one of them raises, is listed twice, or is added later", "statement": "The distinct visitors aggregated in an AggregatedVisitor receive the same calls in the same order. If none of them raises, each has received all of them. If one of them raises, the search ends with its exception, the visitors that precede it in the list have received the calls up to that one included, those that follow have received the calls before it, and no other object changes. A search with the visitors aggregated ends without an exception exactly if it does with each of them alone, and it then leaves each of them as it would be alone. A visitor listed n times receives each call n times. An AggregatedVisitor made from a list that is not empty uses this list itself, so that visitors appended to the list later are called; made from an empty list or none, it has a list of its own, and visitors appended later to the list given are never called.", "quantifier": "all lists of visitors, all visitors (any state, raising at any call), all sequences of calls, all graphs with finitely many reachable vertices, breadth-first and depth-first searches, all later additions", "why_tests_cant": "Depends on the whole history of mutations; tests exercise a handful of fixed histories.", "anchors": ["src/pybgl/aggregated_visitor.py: AggregatedVisitor.__init__", "src/pybgl/aggregated_visitor.py: AggregatedVisitor.__getattr__", "src/pybgl/breadth_first_search.py: breadth_first_search_graph", "src/pybgl/depth_first_search.py: depth_first_search_graph"]}
{"id": "C171", "title": "dijkstra_shortest_path called with a visitor", "statement": "Called with a visitor that never raises, dijkstra_shortest_path has the outcome and leaves the maps that it has and leaves without visitor, and the last call is examine_vertex(t) if t is reached. If the visitor raises an exception other than DijkstraStopException before examine_vertex(t) or at that call, this exception is the outcome and the maps stay as they were at that call. With non-negative weights and no cycle of weight zero, a least-weight path is returned if there is one, and None otherwise. A visitor that stops the search itself, such as DijkstraTowardsVisitor, does not make it return a path that is not shortest.", "quantifier": "all graphs, sources, targets and weights in a selective algebra, all visitors (any state, reading the maps, raising at any call), all initial distances, all orders of the sets of predecessors", "why_tests_cant": "Ranges over infinitely many words and automata; tests try a few literals.", "anchors": ["src/pybgl/dijkstra_shortest_paths.py: dijkstra_shortest_path", "src/pybgl/dijkstra_shortest_paths.py: DijkstraTowardsVisitor", "src/pybgl/dijkstra_shortest_paths.py: DijkstraStopException", "src/pybgl/dijkstra_shortest_paths.py: make_shortest_path", "src/pybgl/aggregated_visitor.py: AggregatedVisitor"]}
{"id": "C172", "title": "Parallel search: what the visitor received and the colours when an exception leaves it; colour maps that are not empty", "statement": "Whatever the pairs of sources and the content of the colour map given, parallel_breadth_first_search makes the same calls to every visitor. If the visitor raises, its exception is the outcome, the visitor has received the calls up to that one and no other, and the colours are as they were at that call. A pair is gray when discover_vertex is called and black when finish_vertex is called, and colours do not change otherwise (a source keeps its colour until then). tree_edge is called if the target is white, and the target is then discovered; gray_target if it is gray, black_target if it is black. With an if_push that depends on the targets only, the pairs examined are the sources and then the pairs discovered that if_push accepts, in order of discovery; each is finished; a pair is discovered at most once, only if it is white at the start; once the search has ended, the pairs examined are black, the other pairs discovered are gray, and the others have kept their colours. The distinct visitors of an AggregatedVisitor receive these calls in their order until one of them raises, and the search ends without an exception exactly if it does with each of them alone.", "quantifier": "all automata built by the API, all lists of pairs of sources or none, all if_push, all contents of the colour map, all visitors (any state, reading the colours, raising at any call), all orders in which the sets of symbols are enumerated", "why_tests_cant": "Depends on the whole history of mutations; tests exercise a handful of fixed histories.", "anchors": ["src/pybgl/parallel_breadth_first_search.py: parallel_breadth_first_search", "src/pybgl/parallel_breadth_first_search.py: ParallelBreadthFirstSearchVisitor"]}
{"id": "C173", "title": "A parallel search stopped at the first pair of a given kind finds a shortest word", "statement": "Let P be a property of pairs of states that the pair of two undefined states does not have. parallel_breadth_first_search, called with a visitor that raises when the first pair with this property is examined, raises exactly if some word leads the two automata to such a pair; the pair at which it raises is then reached by a word which is a shortest one among those that lead to such a pair. In particular, with the property that exactly one of the two states is final, it raises exactly if the languages differ, at a pair reached by a word that belongs to one language only, and no shorter word does. With the property that both states are final, it raises exactly if the languages have a common word, at a pair reached by a shortest common word. With the property that the first state is final and the second is not, it raises exactly if the first language is not included in the second, at a pair reached by a shortest word of the first language that is not in the second. The word is always shorter than (n1 + 1) * (n2 + 1), where n1 and n2 are the numbers of states; two automata that accept the same words of length less than this bound accept the same words.", "quantifier": "all automata built by the API, all properties of pairs, all words, all orders in which the sets of symbols are enumerated", "why_tests_cant": "Ranges over infinitely many words and automata; tests try a few literals.", "anchors": ["src/pybgl/parallel_breadth_first_search.py: parallel_breadth_first_search", "src/pybgl/parallel_breadth_first_search.py: ParallelBreadthFirstSearchVisitor", "src/pybgl/automaton.py: Automaton.delta", "src/pybgl/automaton.py: Automaton.sigma"]}
