{
 "C10": "The - operator lets edges irrelevant in the left view appear (operator precedence, graph_view.py:117-121): refuted by C10_sub_counterexample; C10_sub_exact_partial gives exactly the edges it shows; everything else is proved.",
 "C11": "A transition towards state 0 is silently overwritten by a second add_edge (truthiness test, automaton.py:92): refuted by C11_add_edge_counterexample; the other cases are proved.",
 "C13": "Refuted for histories that overwrite a transition towards state 0 (stale in-edge); proved for the histories that neither do that nor pass remove_edge a descriptor that is not an edge. For every history of calls that returned: no in-edge is ever missing (C13_no_edge_missing), the exact in-edges (C13_history_partial) and exactly when remove_vertex raises (C13_remove_vertex_outcome_partial).",
 "C21": "Refuted for histories that add an edge towards a state that does not exist yet; proved for all the others. What the code does after every history, clear included, is stated exactly by the theorems named every_history (specification in Spec/NodeHistory.lean): a label is the symbol its target had when the edge was added.",
 "C22": "Refuted for histories that add an edge towards a state that does not exist yet; proved for all the others. What the code does after every history, clear included, is stated exactly by the theorems named every_history (specification in Spec/NodeHistory.lean): a label is the symbol its target had when the edge was added. They also say exactly which calls raise.",
 "C71": "The triangle inequality is refuted (CA, AC, ABC): the library computes the optimal string alignment distance. The metric axioms other than the triangle inequality and the inequality d(x, z) <= d(x, y) + d(y, z) + min(d(x, y), d(y, z)), which this example reaches, are proved.",
 "C32": "False in general: (a*b)? accepts a (C32_zero_or_one_counterexample). Proved when no transition enters the initial state or leaves the final state; the inclusion of L and of the empty word holds always. The exact language, whatever the automaton, is C99.",
 "C33": "Proved for repetition(m), for n = None and for 1 <= m <= n. False in general for m = 0 (C33_range_counterexample); proved there when the automaton starts at vertex 0 with clean endpoints. The exact language for m = 0, whatever the initial state, is C99.",
 "C34": "False in general (C34_compile_counterexample). Proved for every expression satisfying Regex.Safe, which includes all expressions without ? and without repetitions starting at 0.",
 "C50": "The documented default vis=None raises AttributeError as soon as the graph has a vertex (C50_default_visitor_counterexample). Proved for every graph without vertices and, with an explicit visitor, by C48 and C49.",
 "C43": "Language preservation is proved for every safely built automaton. The claim about states is false when there is no final state (C43_states_counterexample: nothing is pruned backwards); proved when a final state exists, and the exact result without final states is C43_no_finals_partial.",
 "C46": "The result accepts only words of both languages (C46_sound). Completeness is false (C46_counterexample): a pair containing state 0 is not explored and an intersection without common first symbol rejects the empty word; C46_partial gives the exact language when no such pair is reached. C46_exact gives the exact language for any two automata with initial states; C46_no_initial settles the case without (AttributeError, or an empty result).",
 "C47": "False in general (C47_counterexample): a pair with one initial component replaces the initial pair. C47_partial gives the exact language when no automaton returns to its initial state; C47_total gives termination in all cases. C47_exact gives the language in all cases, up to the word that leads to the pair which ends up initial.",
 "C38": "For automata built through the API without the overwriting defect of C13 (SafeHistory). The result is equal for every enumeration of the sets (HopcroftOrd.Valid).",
 "C39": "Classes, quotient, and minimality both for trim automata (against any automaton) and for complete accessible automata (against complete automata). Indist compares definedness as well as finality, as the property says.",
 "C40": "False of the code: TypeError (reduce of an empty sequence) when all states or none are final and there is a transition; an extra state without transitions. C40_outcome_partial proves exactly this outcome, C40_partial the remaining cases.",
 "C60": "Weights are integers. C60_visits adds the order in which the visitor is called. Visitors are observers (they neither raise nor modify the maps).",
 "C61": "For every v whose distance is below infty, s included (arcs of cycles of weight 0).",
 "C62": "False of the code when some cycle weighs 0 (C62_counterexample: make_shortest_path may turn for ever). C62_partial proves it for non-negative weights when no cycle reached from s weighs 0, C62_algebra_partial for any order and combination under which following a cycle changes every distance; C62_sound_partial proves, without the hypothesis on cycles, that every result returned is right. C62_ends_exact says exactly when make_shortest_path ends for any predecessor map, C62_results what it then gives; C62_no_zero_cycle_partial weakens the hypothesis of C62_partial to the cycles attached to a shortest path to t, C62_zero_cycle_diverges shows that for such a cycle followed by a positive last arc some order of the sets makes dijkstra_shortest_path turn for ever.",
 "C63": "The part about shortest paths needs a strictly monotone combine (e.g. ClosedPlus); for single_path, strictly worsening weights.",
 "C65": "Includes a model of heapify, heappush, heappop of CPython's Lib/heapq.py.",
 "C66": "Associativity is false for ClosedPlus and ClosedTime when an intermediate result equals the absorbing bound (C66_associative_counterexample); the rest is proved. C66_associative_exact says exactly when both sides agree.",
 "C35": "C35_full and C35_minimal cover both printings for every operator table; C35_enough any text with at least the required parentheses, with prefix and postfix unary operators; C35_sink any output sink.",
 "C36": "False for the unary plus (C36_compute_counterexample: +3 raises ValueError). C36_compute_partial proves the rest; C36_ast and C36_rpn hold for every expression. The arithmetic of numbers is a parameter.",
 "C37": "The spans returned by finditer are a parameter, assumed ordered, disjoint and within the string.",
 "C80": "Includes the histories in which add_edge creates a source that add_vertex later resets.",
 "C81": "Numbers are abstract: float(...) is a parameter of the model.",
 "C41": "Height computation on acyclic automata, and on cyclic ones the loop does not end (C41_cyclic).",
 "C82": "False in brackets for \\D, \\S, \\W with a custom alphabet (C82_bracket_counterexample): they use the default alphabet. C82_bracket_partial covers everything else. Character classes of the re module are a parameter (ReClasses). C82_default_alphabet says what the default alphabet is.",
 "C83": "The digits and spaces recognised by re are a parameter with the laws ReClasses.Sound/Decimal. CPython's limit on the digits of int() is not modelled.",
 "C84": "Lossless for every string; exact tokens for every well-formed regular expression text.",
 "C85": "False for a repetition applied to another suffix operator (C85_compile_counterexample: a*{2} is read as (a{2})*). C85_compile_partial needs parentheses there, no epsilon symbol, and the Safe hypothesis of C34 (optional parts whose final state has outgoing arcs).",
 "C86": "False for unclosed opening parentheses (C86_unbalanced_counterexample: a(|b is accepted). The partial theorems prove that a closing parenthesis that closes nothing is rejected, whatever the operator table and the sink, with IndexError for a plain deque (C86_postfix_partial), and that a parenthesis left open is output as an operand.",
 "C87": "False for a signed exponent (C87_compute_counterexample: 2 ^ -3 raises IndexError). C87_compute_partial covers the other expressions without unary plus. C87_tokens_exact gives the outcome of tokenizer_alg on every sequence of numbers and operators.",
 "C42": "False when a state with a smaller identifier cannot be told apart from the initial state (C42_language_counterexample, C42_initial_lost). The partial theorems prove the language is preserved otherwise; C42_minimal (states kept, merging exactly the indistinguishable ones) holds on every acyclic automaton.",
 "C74": "Over an arbitrary linearly ordered field; floating point rounding is not modelled.",
 "C75": "Character level. The HTML tags are given as the spans found by the regular expression, a parameter.",
 "C88": "False: the final names are looked up by the position of the name in the sorted list (C88_make_node_automaton_counterexample, names 10 and 20). C88_make_node_automaton_partial describes what is computed; C88_make_node_automaton_range proves the documented behaviour when the names are 0..n-1.",
 "C89": "False when the initial state does not exist: accepts raises KeyError (C89_accepts_counterexample), and for alphabet() when an edge enters the initial state (C89_alphabet_counterexample). The partial theorems cover the other histories in which edges are added towards existing states. C89_every_history_accepts says exactly, after every history, which words raise KeyError and which are accepted.",
 "C90": "False for undirected graphs, whose edges are written u -- v and not recognised (C90_roundtrip_counterexample, C90_undirected_edges_lost), and when an edge leads to a vertex that does not exist (C90_dangling: KeyError). C90_roundtrip_partial covers directed graphs; C90_headers and C90_attributes show that its hypotheses hold for texts without line boundaries. The HTML tags of labels are a parameter. C90_lines characterises the lines taken for statements, whatever the text. C90_lines_exact says what the lines of a text are; C90_line_ends: a text saved with other ends of lines is read as the original one.",
 "C91": "The defaults are written into the dictionary of the caller, so a second call sees those of the first (C91_enrich_counterexample). C91_enrich_partial gives the result of one call.",
 "C92": "False when a state with a smaller identifier and the same symbol cannot be told apart from the initial state (C92_language_counterexample, C92_node_initial_lost). C92_node_minimal and C92_labelled_minimal hold on every acyclic automaton; the partial theorems prove that accepts() is unchanged otherwise, in particular when the initial state is 0, is the only one with its symbol, or reaches every state.",
 "C93": "C93_insert gives the exact language after the insertion on every automaton with an initial state and no dangling transition. The property read literally is false: in an automaton without state the first symbol becomes a loop (C93_counterexample), and in a cyclic automaton other words are accepted (C93_loop_counterexample). C93_exact_partial covers the tries: automata in which no two words lead to the same state.",
 "C94": "With the default pmap_vertices or pmap_edges automaton_copy always raises TypeError (C94_counterexample, C94_default_raises); final states are copied only by the callback. The partial theorems cover the calls where both maps are given.",
 "C95": "The values are written without escaping, so a value containing a quotation mark can make two different graphs have the same text (C95_counterexample). C95_json_partial covers all names and values without quotation mark, backslash or control character. The JSON grammar is specified independently in Spec, and a document denotes at most one value (Json.Doc.unique).",
 "C97": "An edge is listed by out_edges of its greater end as a descriptor with the ends swapped, which is another key of the weight map: a map filled through add_edge or edges() does not give its weight (C97_counterexample). The partial theorems assume that both descriptors have the same weight. C97_distances_exact gives the distances for every non-negative weights of the descriptors.",
 "C98": "Each edge other than a loop is examined from both its ends, hence copied twice (C98_counterexample). C98_copy_partial describes exactly the copy obtained.",
 "C99": "Gives the exact behaviour in the cases where C32, C33, C34 and C85 are false: Spec/RegexPaths.lean is the compositional description of the words read between both ends of each automaton. C99_range_zero_shifted, C99_range_alternation, C99_range_star and C99_range_two_symbols give the language of e{0,n} when the automaton of e does not start at vertex 0 (alternations, stars, plusses).",
 "C100": "The statement is refuted (C100_to_expr_counterexample). Proved: with root unset it raises KeyError (C100_root_unset), with root set it raises on every expression with an operator (C100_root_set), unary operators raise TypeError (C100_unary), and when the vertex 0 is the root and all operators are binary the text is the expression, fully parenthesised (C100_to_expr_partial).",
 "C105": "An object is identified by the rank of its creation.",
 "C109": "False of the code for the default format: run_graphviz returns a str for svg, and write_graphviz calls its (non-existent) method decode, after having emptied the file (C109_svg, C109_failure, C109_counterexample). For other formats the property is proved (C109_write_partial, C109_true), except that the former contents of the file are lost on failure. C109_dot_to_svg is exact.",
 "C111": "False of the code when the colour contains the character %, as in hsl(0, 50%, 50%): it is taken for a conversion (C111_counterexample). Proved for all other colours and all bodies (C111_display_partial, C111_file, C111_body).",
 "C112": "False as stated: DirectedGraph.remove_vertex of a missing vertex removes the edges towards it before raising; UndirectedGraph.add_edge and IncidenceGraph.add_edge leave half an edge behind when only the end looked up first exists, and clear() then raises (counterexamples). Proved without restriction for directed graphs: the content after any history with caught exceptions, counting the edges removed by a failing remove_vertex. Proved for the two other classes: a failing call changes nothing except in that case, described exactly; without it the state is that of the returning calls alone.",
 "C113": "The statement is false: clear() is inherited from Graph and keeps the initial state(s), the final flags and the symbols, which the new states inherit (counterexamples). Proved: the exact state left by clear() for the five classes, the exact language, and, for Automaton, the equivalence 'behaves like a new one iff the initial state is still 0 and no final flag is set' over all sequences of later calls.",
 "C114": "The statement is false of the four classes (counterexamples). Proved: the statement-by-statement model with exceptions agrees with the one used elsewhere; an Automaton whose caller catches exceptions is always one that calls without exceptions can build; the exact list of failing calls and the exact state each leaves, for the four classes; for careful callers (edges towards existing states, removal of existing edges) the statement holds.",
 "C115": "The statement is false of an automaton emptied with remove_vertex (its initial state is no longer a state) and of one emptied with clear() on which a final flag is left (counterexamples). Proved: the exact result for every automaton without state (the default DFA renumbered, initial state kept, leftover flags added), for both classes; the statement when the next number is the initial state and no flag is left, which holds of new automata; and that the default DFA is built by calls to the API and has exactly the language of the NFA.",
 "C116": "False because of C85 (a*{2} and a* compare as different). Proved for the regular expressions of C85_compile_partial, for compile_dfa alone and for the comparison of two of them. For every text, valid or not, compile_dfa raises exactly when thompson_compile_nfa does, and otherwise returns a DFA with the language of that NFA (C116_any_text, C116_compare_any).",
 "C117": "As in C39, automata whose states are all final or all non-final are excluded (C40).",
 "C118": "Proved for methods, inclusion, matching, insertion and immutability. Intersection and union: proved for non-empty words; the empty word is lost when the operands have no common first symbol (intersection) or no transition at all (union), which is the behaviour of the code on tries as well (C46, C47); counterexample: the intersection of DigitalSequence('') with itself.",
 "C119": "The language is proved under the conditions of C85 (what may be skipped) and C99 (no {0,n} on expressions which do not start at vertex 0) applied to the reading; the equality of the automata needs no condition.",
 "C120": "",
 "C121": "Weights are integers (C60); the source is a vertex of the view.",
 "C122": "C122_damerau_factor is the example where the nearest element within the radius is missed.",
 "C123": "C123_drawn, C123_nested and C123_roundtrip are the whole statement but for the ends of edges, which fails when vs is given: the edges towards the other vertices are still drawn (C123_ends_counterexample); C123_ends_partial is without vs. Python's set enumeration is an arbitrary permutation.",
 "C124": "Whole statement, by simulation.",
 "C125": "Whole statement. The competitors are automata with an initial state and no transition towards a missing state. The set enumerations of revuz_minimize are arbitrary permutations.",
 "C126": "C126_topological_components and C126_unit_weights are the first two sentences. The last sentence fails when a cycle weighs 0: two vertices at the same distance can be each other's predecessor (C126_dag_counterexample); C126_dag_partial is the last sentence for non-negative weights when no cycle reached from s weighs 0. C126_dag_exact: whatever the weights, the arcs returned are those of the shortest paths, and topological_sort raises exactly if a cycle of weight 0 is attached to one of them.",
 "C127": "Whole statement. Floats are elements of an ordered field (no rounding) and str on floats is a parameter; int() is modelled on ASCII digits with sign, underscores and white space. A text such as hsl(1, 2, 34 without its last parenthesis is read without its last character (color[j+1:-1]).",
 "C128": "False of the code: the constructor keeps the set of the caller (C128_counterexample). Proved: true as long as no set given to a constructor is given again or changed by the caller (C128_own_sets_partial), and exactly which objects are changed by set_initial otherwise (C128_shared_partial).",
 "C129": "False of the code: a symbol at which str.splitlines ends a line (U+0085, U+2028, U+2029) cuts the line of its transition, which read_graphviz silently drops (C129_counterexample). Proved for all other symbols and for the three classes.",
 "C130": "The five classes, for every history; in particular a removed state stays initial or final.",
 "C131": "For all texts with balanced parentheses; C86 has a counterexample for unclosed parentheses (C131_balance_needed). An unescaped dot is always rejected: it is read as an explicit concatenation, in addition to those the tokenizer inserts.",
 "C132": "False: the tokens 1 2 + (and the text (1)(2)+) are accepted (C132_infix_counterexample). The partial theorems give the exact outcome for every list of tokens: the result of the tree whose postfix form shunting_yard_postfix outputs, AssertionError if it outputs several trees or none, IndexError otherwise. C132_compute_exact gives the outcome of shunting_yard_compute for every list of tokens, exceptions included; parentheses left open are strings, which + concatenates: ()+(( returns the string '(('.",
 "C133": "False after remove_edge or remove_vertex: the symbol of a removed transition stays (C133_alphabet_counterexample). The partial theorems give both sets exactly for every history, prove that no symbol is ever missing, and prove the property as stated when neither remove_edge nor remove_vertex was called.",
 "C134": "add_vertex() is not fresh after add_edge from a state that was not added (C134_fresh_counterexample); the partial theorem proves it fresh, and without effect on the rest, for every history in which add_edge starts from a state of the automaton. edge(q, r) raises TypeError whenever there is a transition (C134_edge). The other parts are proved for every history.",
 "C135": "read_graphviz_dp raises TypeError whatever it is given (C135_dp_counterexample: its visitor passes the graph to a constructor without argument). The rest is proved for every text and every visitor whose methods do not modify the graph. HTMLParser of the standard library is a parameter.",
 "C136": "Full statement, by a simulation between the search with the given map and the search with a new map of the graph without the edges towards hidden vertices. Finitely many vertices must be reachable.",
 "C137": "Full statement, through the simulation of C136 with no hidden vertex. The map of colours must be new: C136 describes the other case.",
 "C138": "The exact size of the automaton of an expression holds when {0} is only applied to expressions whose automaton starts at state 0 (an example shows (a|b){0}? has a state too many). The bounds on minimised automata are C40_partial and C42_minimal.",
 "C139": "False after remove_edge: the symbol of the removed transition stays in sigma (C133), so a state standing for the empty set is created (C139_counterexample). C139_words gives exactly the words that reach a state, for every history; C139_sink_partial: the extra state is unique, not final and without transition; C139_no_removal_partial and C139_size_partial prove the statement without removals.",
 "C140": "C140_any is the general statement, C140_reach the last sentence. C140_not_shortest and C140_negative_cycle show what is lost with negative weights: the distances are not the smallest ones, and dijkstra_shortest_path may not end although dijkstra_shortest_paths does.",
 "C141": "g12 is assumed not to be the object g1 or g2. Also shows that the results are automata built by the API, so that the other theorems apply to them.",
 "C142": "C142_calls_exact: the calls and the maps are those of a notebook kept without heap for the vertices examined, which C142_determined shows to be determined by these vertices (C140 and C60 tell which they are). C142_predecessors_reported, C142_not_relaxed (algebra of C64) and C142_not_relaxed_default tell what the reports mean.",
 "C143": "Partial because the statement is false. IncidenceGraph: C143_history_partial, C143_calls, C143_edge give everything but the direction of add_edge, for every history; C143_add_edge_exact says what add_edge does (the edge goes from v to u after an odd number of reversals), C143_add_edge_counterexample refutes the statement. IncidenceAutomaton: C143_automaton_remove_edge and C143_automaton_remove_vertex say exactly what is removed and when an exception is raised, C143_automaton_remove_edge_keeps that a transition between different states is never removed, C143_automaton_counterexample refutes the statement. UndirectedGraph: C143_undirected (out_edges recurses for ever, remove_edge raises KeyError).",
 "C144": "Partial because the last sentence is false: C144_forwarded_exact says that the three methods answer about the graph viewed, C144_forwarded_counterexample refutes the statement. Everything else is proved: C144_live_partial (for an IncidenceGraph), C144_nested, C144_laws, C144_or_exact, C144_sub_exact (the latter also gives the edges of (a - b) | c, where the relevance map of edges of a - b shows).",
 "C145": "Partial because the statement is false: C145_exact shows that the compilation raises IndexError if and only if the text holds ^, $ or a backslash (re_escape escapes them, but thompson_compile_nfa does not know these escape sequences), and that the automaton accepts exactly the text otherwise; C145_literal_partial adds the language and the DFA; C145_counterexample is the text ^. C145_injective is the second sentence.",
 "C146": "IsCopy (Spec/CopyInto.lean) describes the copy by the sequence of the calls received by the callbacks. One theorem per class of g_dup; automaton_copy is considered with its two maps given, since it raises otherwise (C94).",
 "C147": "C147_compile is the statement on abstract expressions, C147_text on texts, C147_optional the last sentence (it needs neither condition on the ends of e, as opposed to C32). The condition Safe is that of C34.",
 "C148": "C148_compile_exact is the statement on abstract expressions, C148_text_exact on texts, C148_states links the number of states to C138. It needs none of the conditions of C34 and C99 on the ends of the parts; the pictures are in Spec/ThompsonNet.lean.",
 "C149": "C149_visitor is the whole statement; C149_interrupted spells it out for sums of non-negative weights; C149_towards links it to the visitor of dijkstra_shortest_path (C62). A visitor that modifies the maps or the graph is not modelled.",
 "C150": "C150_dfs, C150_bfs and C150_bfs_single describe all the runs; C150_dfs_colors and C150_bfs_colors the colours at each call; C150_dfs_interrupted and C150_bfs_interrupted the interrupted runs. A visitor that modifies the colours or the graph is not modelled.",
 "C151": "False of the code for long words, whatever the limit of recursion (C151_always_counterexample). Proved: what is returned is right (C151_right), also by an object used after RecursionError (C151_reuse*), enough and short limits (C151_enough_partial, C151_short), the exact number of nested calls for equal words and for words without a common character, and the number of calls.",
 "C152": "Every format with rounding to the nearest (C152_distances, C152_errors, C152_paths), and double precision, the existence of which is proved (C152_double). Overflow, infinite values and NaN are not modelled.",
 "C153": "False of the code when a weight is lost in a sum (C153_counterexample: weights 2^54 and 1). Proved when the weights are not too different (C153_ratio_partial, C153_double_partial).",
 "C154": "The size check of CPython's iterators over dictionaries and sets is modelled. Loops the body of which both adds and removes are not covered: what they deliver depends on the memory layout of the containers.",
 "C155": "A cost is any quantity of the rest of the world that each call increases by a bounded amount: the number of calls, or the time. The algorithms are those of the C module of CPython; cache_friendly_heapify, used above 2500 elements, is not modelled.",
 "C156": "True of BKTree, and of Heap when to_comparable raises. False of Heap when the preorder raises: push leaves the element in the heap, without incrementing the index, and pop loses the least element; the heap may then be out of order, and elements may be compared with each other. Proved instead: exactly which entries are left. The functions are supposed not to touch the heap or the tree themselves.",
 "C157": "Refinement of the construction on values (Model/Thompson, C29-C34) by one on a store of objects (Model/ThompsonStore) in which loops over the second automaton are over views of its containers, so that aliasing shows. The loop over the transitions of the second automaton checks their number instead of the sizes of nested dictionaries.",
 "C158": "Model/DynSearch reads the graph in the state of the visitor at each access. Copies into themselves: DirectedGraph and Automaton whose edges lead to existing vertices, UndirectedGraph, IncidenceGraph; a vertex map given by the caller must not already map vertices to vertices of g. The generator of out-edges checks the number of out-edges instead of the sizes of the nested containers.",
 "C159": "Model/ProductAlias.lean reads an operand that is g12 from the state of the product at each step. Equality, for every fuel, with Model/ProductInto.lean by lockstep (Proofs/ProductAlias.lean): the old states keep their transitions and flags, the new ones have larger numbers, and the initial state of g12 moves once, to the first pair. For the union the claim is false without StartsOnce, see C159_union_counterexample (there the union in place is right and the other one, C47_counterexample, is wrong). deterministic_union(g, g, g) always satisfies it.",
 "C160": "Model/FusionSelf.lean reads both tries from the state of the visitor. Lockstep with the fusion of Model/Product.lean (the state never changes), whose termination is C16.",
 "C161": "Model/LazyAutomaton.lean. A transition to state 0 can be overwritten by add_edge during the loop without being noticed: the target delivered is the one at that time. For IncidenceAutomaton see C162.",
 "C162": "False of the code when the body removes q (C162_out_edges_counterexample): remove_vertex drops the dictionary of q without emptying it, and the loop goes on with the removed transitions (C162_remove_source: it delivers all of them). C162_out_edges_partial: the property for the bodies that do not remove q; C162_held: for all bodies, about the transitions of the dictionary held by the iterator. Model/LazyIncidenceAutomaton.lean adds this dictionary to the state; C162_calls says that the calls do not depend on it.",
 "C163": "False of an empty deque, which is left empty because line 53 tests its truth value (C163_empty_counterexample); C163_in_place_partial: the property for the other deques. C163_new_deque: what happens with None or an empty deque. C163_same_result: same results as the model of C54.",
 "C164": "The items and containers are those of C154. C164_nested: loops over views of views.",
 "C165": "C165_failure_counterexample: remove_vertex of a state that is not there raises KeyError after having removed the transitions to it. C165_failure says exactly what such a call does.",
 "C166": "Promise `Delivers` of C154. The descriptor delivered is represented by its source, target and label; the set of numbers it carries is the one of the automaton, shared. C166_*_states: bodies that add states too, whose calls to add_edge are guarded by a test of the source.",
 "C167": "C167_value_counterexample: the descriptor of a transition is changed by add_edge of this transition. The other theorems are the full description of what an old descriptor shows, in a model with a heap of sets which is shown to behave as the model with values (C167_same).",
 "C168": "C168_minimal_counterexample: is_minimal(g) counts as true for an automaton with two equivalent states (C168_minimal_always: for every automaton).",
 "C169": "The visitor is an object with any state and methods that may raise; C169_find is about the concrete visitor `finder` (Verif/Spec/BfsObjects.lean).",
 "C170": "Methods of a visitor only change this visitor; visitors that change the list during a call are not modelled.",
 "C171": "False of a visitor that raises DijkstraStopException itself: the exception is caught as if t had been examined (counterexample: a path of weight 10 is returned instead of 6, or IndexError is raised). Any member of PyErr may stand for DijkstraStopException. Visitors may read the maps but not write them.",
 "C172": "Visitors may read the colour map but not write it, and do not modify the automata; if_push does not raise.",
 "C173": "The visitor is a user's (Spec/PairFinder). Default sources, if_push and colour map."
}