{
 "claims": [
  {
   "property": "C01",
   "status": "proved",
   "theorems": [
    "PyBGL.C01_add_vertex_fresh",
    "PyBGL.C01_add_vertex_effect"
   ],
   "note": ""
  },
  {
   "property": "C02",
   "status": "proved",
   "theorems": [
    "PyBGL.C02_multigraph",
    "PyBGL.C02_add_edge_fresh",
    "PyBGL.C02_distinguisher_exact"
   ],
   "note": ""
  },
  {
   "property": "C03",
   "status": "proved",
   "theorems": [
    "PyBGL.C03_remove_vertex",
    "PyBGL.C03_remove_edge"
   ],
   "note": ""
  },
  {
   "property": "C04",
   "status": "proved",
   "theorems": [
    "PyBGL.C04_out_edges",
    "PyBGL.C04_degree_sum"
   ],
   "note": ""
  },
  {
   "property": "C05",
   "status": "proved",
   "theorems": [
    "PyBGL.C05_edge"
   ],
   "note": ""
  },
  {
   "property": "C06",
   "status": "proved",
   "theorems": [
    "PyBGL.C06_symmetric",
    "PyBGL.C06_edges_once"
   ],
   "note": ""
  },
  {
   "property": "C07",
   "status": "proved",
   "theorems": [
    "PyBGL.C07_distinguisher_exact",
    "PyBGL.C07_add_edge",
    "PyBGL.C07_remove_edge",
    "PyBGL.C07_remove_vertex"
   ],
   "note": ""
  },
  {
   "property": "C08",
   "status": "proved",
   "theorems": [
    "PyBGL.C08_distinguisher_exact",
    "PyBGL.C08_in_edges",
    "PyBGL.C08_degree_sums"
   ],
   "note": ""
  },
  {
   "property": "C09",
   "status": "proved",
   "theorems": [
    "PyBGL.C09_involution",
    "PyBGL.C09_transpose",
    "PyBGL.C09_paths",
    "PyBGL.C09_applies"
   ],
   "note": ""
  },
  {
   "property": "C10",
   "status": "partial",
   "theorems": [
    "PyBGL.C10_view",
    "PyBGL.C10_view_nodup",
    "PyBGL.C10_or_and",
    "PyBGL.C10_and_shown",
    "PyBGL.C10_sub_counterexample",
    "PyBGL.C10_sub_partial",
    "PyBGL.C10_sub_exact_partial"
   ],
   "note": "The - operator lets edges irrelevant in the left view appear (operator precedence, graph_view.py:117-121): refuted by C10_sub_counterexample; C10_sub_exact_partial gives exactly the edges it shows; everything else is proved."
  },
  {
   "property": "C11",
   "status": "partial",
   "theorems": [
    "PyBGL.C11_add_edge_counterexample",
    "PyBGL.C11_add_edge_partial",
    "PyBGL.C11_add_edge_overwrites_partial"
   ],
   "note": "A transition towards state 0 is silently overwritten by a second add_edge (truthiness test, automaton.py:92): refuted by C11_add_edge_counterexample; the other cases are proved."
  },
  {
   "property": "C12",
   "status": "proved",
   "theorems": [
    "PyBGL.C12_accepts",
    "PyBGL.C12_delta_word"
   ],
   "note": ""
  },
  {
   "property": "C13",
   "status": "partial",
   "theorems": [
    "PyBGL.C13_in_edges_counterexample",
    "PyBGL.C13_remove_vertex_counterexample",
    "PyBGL.C13_in_edges_partial",
    "PyBGL.C13_remove_vertex_partial",
    "PyBGL.C13_history_partial",
    "PyBGL.C13_no_edge_missing",
    "PyBGL.C13_remove_vertex_outcome_partial"
   ],
   "note": "Refuted for histories that overwrite a transition towards state 0 (stale in-edge); proved for the histories that neither do that nor pass remove_edge a descriptor that is not an edge. For every history of calls that returned: no in-edge is ever missing (C13_no_edge_missing), the exact in-edges (C13_history_partial) and exactly when remove_vertex raises (C13_remove_vertex_outcome_partial)."
  },
  {
   "property": "C14",
   "status": "proved",
   "theorems": [
    "PyBGL.C14_insert"
   ],
   "note": ""
  },
  {
   "property": "C15",
   "status": "proved",
   "theorems": [
    "PyBGL.C15_total",
    "PyBGL.C15_language",
    "PyBGL.C15_prefixes",
    "PyBGL.C15_states",
    "PyBGL.C15_no_state"
   ],
   "note": ""
  },
  {
   "property": "C16",
   "status": "proved",
   "theorems": [
    "PyBGL.C16_language",
    "PyBGL.C16_trie"
   ],
   "note": ""
  },
  {
   "property": "C17",
   "status": "proved",
   "theorems": [
    "PyBGL.C17_make_suffix_trie",
    "PyBGL.C17_states"
   ],
   "note": ""
  },
  {
   "property": "C18",
   "status": "proved",
   "theorems": [
    "PyBGL.C18_slices",
    "PyBGL.C18_factors"
   ],
   "note": ""
  },
  {
   "property": "C19",
   "status": "proved",
   "theorems": [
    "PyBGL.C19_accepts",
    "PyBGL.C19_structure",
    "PyBGL.C19_out_of_range"
   ],
   "note": ""
  },
  {
   "property": "C20",
   "status": "proved",
   "theorems": [
    "PyBGL.C20_matching"
   ],
   "note": ""
  },
  {
   "property": "C21",
   "status": "partial",
   "theorems": [
    "PyBGL.C21_label_counterexample",
    "PyBGL.C21_label_partial",
    "PyBGL.C21_add_edge_partial",
    "PyBGL.C21_vertices_partial",
    "PyBGL.C21_every_history",
    "PyBGL.C21_every_history_raises",
    "PyBGL.C21_every_history_add_edge"
   ],
   "note": "Refuted for histories that add an edge towards a state that does not exist yet; proved for all the others. What the code does after every history, clear included, is stated exactly by the theorems named every_history (specification in Spec/NodeHistory.lean): a label is the symbol its target had when the edge was added."
  },
  {
   "property": "C22",
   "status": "partial",
   "theorems": [
    "PyBGL.C22_in_edges_counterexample",
    "PyBGL.C22_in_edges_partial",
    "PyBGL.C22_remove_vertex_partial",
    "PyBGL.C22_every_history",
    "PyBGL.C22_every_history_raises"
   ],
   "note": "Refuted for histories that add an edge towards a state that does not exist yet; proved for all the others. What the code does after every history, clear included, is stated exactly by the theorems named every_history (specification in Spec/NodeHistory.lean): a label is the symbol its target had when the edge was added. They also say exactly which calls raise."
  },
  {
   "property": "C23",
   "status": "proved",
   "theorems": [
    "PyBGL.C23_make_automaton",
    "PyBGL.C23_make_automaton_degenerate",
    "PyBGL.C23_structure",
    "PyBGL.C23_numbers"
   ],
   "note": ""
  },
  {
   "property": "C24",
   "status": "proved",
   "theorems": [
    "PyBGL.C24_sigma_alphabet",
    "PyBGL.C24_edge",
    "PyBGL.C24_is_complete"
   ],
   "note": ""
  },
  {
   "property": "C25",
   "status": "proved",
   "theorems": [
    "PyBGL.C25_delta_epsilon",
    "PyBGL.C25_delta_epsilon_total"
   ],
   "note": ""
  },
  {
   "property": "C26",
   "status": "proved",
   "theorems": [
    "PyBGL.C26_accepts",
    "PyBGL.C26_delta"
   ],
   "note": ""
  },
  {
   "property": "C27",
   "status": "proved",
   "theorems": [
    "PyBGL.C27_moore"
   ],
   "note": ""
  },
  {
   "property": "C28",
   "status": "proved",
   "theorems": [
    "PyBGL.C28_subsets"
   ],
   "note": ""
  },
  {
   "property": "C29",
   "status": "proved",
   "theorems": [
    "PyBGL.C29_literal",
    "PyBGL.C29_bracket"
   ],
   "note": ""
  },
  {
   "property": "C30",
   "status": "proved",
   "theorems": [
    "PyBGL.C30_concatenation",
    "PyBGL.C30_alternation"
   ],
   "note": ""
  },
  {
   "property": "C31",
   "status": "proved",
   "theorems": [
    "PyBGL.C31_zero_or_more",
    "PyBGL.C31_one_or_more"
   ],
   "note": ""
  },
  {
   "property": "C32",
   "status": "partial",
   "theorems": [
    "PyBGL.C32_zero_or_one_counterexample",
    "PyBGL.C32_zero_or_one_partial",
    "PyBGL.C32_zero_or_one_lower_partial"
   ],
   "note": "False in general: (a*b)? accepts a (C32_zero_or_one_counterexample). Proved when no transition enters the initial state or leaves the final state; the inclusion of L and of the empty word holds always. The exact language, whatever the automaton, is C99."
  },
  {
   "property": "C33",
   "status": "partial",
   "theorems": [
    "PyBGL.C33_repetition",
    "PyBGL.C33_range_none",
    "PyBGL.C33_range_some",
    "PyBGL.C33_range_counterexample",
    "PyBGL.C33_range_zero_partial"
   ],
   "note": "Proved for repetition(m), for n = None and for 1 <= m <= n. False in general for m = 0 (C33_range_counterexample); proved there when the automaton starts at vertex 0 with clean endpoints. The exact language for m = 0, whatever the initial state, is C99."
  },
  {
   "property": "C34",
   "status": "partial",
   "theorems": [
    "PyBGL.C34_compile_counterexample",
    "PyBGL.C34_compile_partial",
    "PyBGL.C34_empty_partial"
   ],
   "note": "False in general (C34_compile_counterexample). Proved for every expression satisfying Regex.Safe, which includes all expressions without ? and without repetitions starting at 0."
  },
  {
   "property": "C35",
   "status": "proved",
   "theorems": [
    "PyBGL.C35_full",
    "PyBGL.C35_minimal",
    "PyBGL.C35_enough",
    "PyBGL.C35_sink",
    "PyBGL.C35_rpn_injective"
   ],
   "note": "C35_full and C35_minimal cover both printings for every operator table; C35_enough any text with at least the required parentheses, with prefix and postfix unary operators; C35_sink any output sink."
  },
  {
   "property": "C36",
   "status": "partial",
   "theorems": [
    "PyBGL.C36_rpn",
    "PyBGL.C36_ast",
    "PyBGL.C36_compute_counterexample",
    "PyBGL.C36_compute_partial"
   ],
   "note": "False for the unary plus (C36_compute_counterexample: +3 raises ValueError). C36_compute_partial proves the rest; C36_ast and C36_rpn hold for every expression. The arithmetic of numbers is a parameter."
  },
  {
   "property": "C37",
   "status": "proved",
   "theorems": [
    "PyBGL.C37_concat",
    "PyBGL.C37_chunks",
    "PyBGL.C37_matched"
   ],
   "note": "The spans returned by finditer are a parameter, assumed ordered, disjoint and within the string."
  },
  {
   "property": "C38",
   "status": "proved",
   "theorems": [
    "PyBGL.C38_language"
   ],
   "note": "For automata built through the API without the overwriting defect of C13 (SafeHistory). The result is equal for every enumeration of the sets (HopcroftOrd.Valid)."
  },
  {
   "property": "C39",
   "status": "proved",
   "theorems": [
    "PyBGL.C39_classes",
    "PyBGL.C39_quotient",
    "PyBGL.C39_minimum_trim",
    "PyBGL.C39_minimum_complete"
   ],
   "note": "Classes, quotient, and minimality both for trim automata (against any automaton) and for complete accessible automata (against complete automata). Indist compares definedness as well as finality, as the property says."
  },
  {
   "property": "C40",
   "status": "partial",
   "theorems": [
    "PyBGL.C40_outcome_partial",
    "PyBGL.C40_partial",
    "PyBGL.C40_counterexample"
   ],
   "note": "False of the code: TypeError (reduce of an empty sequence) when all states or none are final and there is a transition; an extra state without transitions. C40_outcome_partial proves exactly this outcome, C40_partial the remaining cases."
  },
  {
   "property": "C41",
   "status": "proved",
   "theorems": [
    "PyBGL.C41_heights",
    "PyBGL.C41_given_leaves",
    "PyBGL.C41_cyclic"
   ],
   "note": "Height computation on acyclic automata, and on cyclic ones the loop does not end (C41_cyclic)."
  },
  {
   "property": "C42",
   "status": "partial",
   "theorems": [
    "PyBGL.C42_minimal",
    "PyBGL.C42_language_partial",
    "PyBGL.C42_usual_partial",
    "PyBGL.C42_initial_lost",
    "PyBGL.C42_language_counterexample"
   ],
   "note": "False when a state with a smaller identifier cannot be told apart from the initial state (C42_language_counterexample, C42_initial_lost). The partial theorems prove the language is preserved otherwise; C42_minimal (states kept, merging exactly the indistinguishable ones) holds on every acyclic automaton."
  },
  {
   "property": "C43",
   "status": "partial",
   "theorems": [
    "PyBGL.C43_language",
    "PyBGL.C43_states_counterexample",
    "PyBGL.C43_states_partial",
    "PyBGL.C43_no_finals_partial"
   ],
   "note": "Language preservation is proved for every safely built automaton. The claim about states is false when there is no final state (C43_states_counterexample: nothing is pruned backwards); proved when a final state exists, and the exact result without final states is C43_no_finals_partial."
  },
  {
   "property": "C44",
   "status": "proved",
   "theorems": [
    "PyBGL.C44_pairs",
    "PyBGL.C44_edges",
    "PyBGL.C44_any_visitor"
   ],
   "note": ""
  },
  {
   "property": "C45",
   "status": "proved",
   "theorems": [
    "PyBGL.C45_inclusion"
   ],
   "note": ""
  },
  {
   "property": "C46",
   "status": "partial",
   "theorems": [
    "PyBGL.C46_exact",
    "PyBGL.C46_no_initial",
    "PyBGL.C46_sound",
    "PyBGL.C46_partial",
    "PyBGL.C46_case",
    "PyBGL.C46_counterexample"
   ],
   "note": "The result accepts only words of both languages (C46_sound). Completeness is false (C46_counterexample): a pair containing state 0 is not explored and an intersection without common first symbol rejects the empty word; C46_partial gives the exact language when no such pair is reached. C46_exact gives the exact language for any two automata with initial states; C46_no_initial settles the case without (AttributeError, or an empty result)."
  },
  {
   "property": "C47",
   "status": "partial",
   "theorems": [
    "PyBGL.C47_exact",
    "PyBGL.C47_total",
    "PyBGL.C47_partial",
    "PyBGL.C47_case",
    "PyBGL.C47_counterexample"
   ],
   "note": "False in general (C47_counterexample): a pair with one initial component replaces the initial pair. C47_partial gives the exact language when no automaton returns to its initial state; C47_total gives termination in all cases. C47_exact gives the language in all cases, up to the word that leads to the pair which ends up initial."
  },
  {
   "property": "C48",
   "status": "proved",
   "theorems": [
    "PyBGL.C48_graph",
    "PyBGL.C48_single",
    "PyBGL.C48_any_visitor"
   ],
   "note": ""
  },
  {
   "property": "C49",
   "status": "proved",
   "theorems": [
    "PyBGL.C49_distance"
   ],
   "note": ""
  },
  {
   "property": "C50",
   "status": "partial",
   "theorems": [
    "PyBGL.C50_default_visitor_counterexample",
    "PyBGL.C50_default_visitor_partial"
   ],
   "note": "The documented default vis=None raises AttributeError as soon as the graph has a vertex (C50_default_visitor_counterexample). Proved for every graph without vertices and, with an explicit visitor, by C48 and C49."
  },
  {
   "property": "C51",
   "status": "proved",
   "theorems": [
    "PyBGL.C51_visits",
    "PyBGL.C51_any_visitor",
    "PyBGL.C51_graph"
   ],
   "note": ""
  },
  {
   "property": "C52",
   "status": "proved",
   "theorems": [
    "PyBGL.C52_nesting",
    "PyBGL.C52_order"
   ],
   "note": ""
  },
  {
   "property": "C53",
   "status": "proved",
   "theorems": [
    "PyBGL.C53_edges"
   ],
   "note": ""
  },
  {
   "property": "C54",
   "status": "proved",
   "theorems": [
    "PyBGL.C54_acyclic",
    "PyBGL.C54_cyclic"
   ],
   "note": ""
  },
  {
   "property": "C55",
   "status": "proved",
   "theorems": [
    "PyBGL.C55_components"
   ],
   "note": ""
  },
  {
   "property": "C56",
   "status": "proved",
   "theorems": [
    "PyBGL.C56_cut",
    "PyBGL.C56_separates"
   ],
   "note": ""
  },
  {
   "property": "C57",
   "status": "proved",
   "theorems": [
    "PyBGL.C57_extract"
   ],
   "note": ""
  },
  {
   "property": "C58",
   "status": "proved",
   "theorems": [
    "PyBGL.C58_copy"
   ],
   "note": ""
  },
  {
   "property": "C59",
   "status": "proved",
   "theorems": [
    "PyBGL.C59_dfs_tree",
    "PyBGL.C59_bfs_tree",
    "PyBGL.C59_any_visitor"
   ],
   "note": ""
  },
  {
   "property": "C60",
   "status": "proved",
   "theorems": [
    "PyBGL.C60_distances",
    "PyBGL.C60_distances_less",
    "PyBGL.C60_visits"
   ],
   "note": "Weights are integers. C60_visits adds the order in which the visitor is called. Visitors are observers (they neither raise nor modify the maps)."
  },
  {
   "property": "C61",
   "status": "proved",
   "theorems": [
    "PyBGL.C61_predecessors",
    "PyBGL.C61_shortest"
   ],
   "note": "For every v whose distance is below infty, s included (arcs of cycles of weight 0)."
  },
  {
   "property": "C62",
   "status": "partial",
   "theorems": [
    "PyBGL.C62_counterexample",
    "PyBGL.C62_algebra_partial",
    "PyBGL.C62_partial",
    "PyBGL.C62_sound_partial",
    "PyBGL.C62_source",
    "PyBGL.C62_make_shortest_path_partial",
    "PyBGL.C62_ends_exact",
    "PyBGL.C62_results",
    "PyBGL.C62_no_zero_cycle_partial",
    "PyBGL.C62_zero_cycle_diverges"
   ],
   "note": "False of the code when some cycle weighs 0 (C62_counterexample: make_shortest_path may turn for ever). C62_partial proves it for non-negative weights when no cycle reached from s weighs 0, C62_algebra_partial for any order and combination under which following a cycle changes every distance; C62_sound_partial proves, without the hypothesis on cycles, that every result returned is right. C62_ends_exact says exactly when make_shortest_path ends for any predecessor map, C62_results what it then gives; C62_no_zero_cycle_partial weakens the hypothesis of C62_partial to the cycles attached to a shortest path to t, C62_zero_cycle_diverges shows that for such a cycle followed by a positive last arc some order of the sets makes dijkstra_shortest_path turn for ever."
  },
  {
   "property": "C63",
   "status": "proved",
   "theorems": [
    "PyBGL.C63_dag",
    "PyBGL.C63_single",
    "PyBGL.C63_shortest",
    "PyBGL.C63_single_shortest"
   ],
   "note": "The part about shortest paths needs a strictly monotone combine (e.g. ClosedPlus); for single_path, strictly worsening weights."
  },
  {
   "property": "C64",
   "status": "proved",
   "theorems": [
    "PyBGL.C64_algebra",
    "PyBGL.C64_widest"
   ],
   "note": ""
  },
  {
   "property": "C65",
   "status": "proved",
   "theorems": [
    "PyBGL.C65_history",
    "PyBGL.C65_drain",
    "PyBGL.C65_comparable",
    "PyBGL.C65_decrease_key",
    "PyBGL.C65_strict_keys"
   ],
   "note": "Includes a model of heapify, heappush, heappop of CPython's Lib/heapq.py."
  },
  {
   "property": "C66",
   "status": "partial",
   "theorems": [
    "PyBGL.C66_commutative",
    "PyBGL.C66_absorbing",
    "PyBGL.C66_max_min_associative",
    "PyBGL.C66_ordinary",
    "PyBGL.C66_associative_counterexample",
    "PyBGL.C66_associative_partial",
    "PyBGL.C66_associative_exact"
   ],
   "note": "Associativity is false for ClosedPlus and ClosedTime when an intermediate result equals the absorbing bound (C66_associative_counterexample); the rest is proved. C66_associative_exact says exactly when both sides agree."
  },
  {
   "property": "C67",
   "status": "proved",
   "theorems": [
    "PyBGL.C67_levenshtein",
    "PyBGL.C67_naive",
    "PyBGL.C67_memo"
   ],
   "note": ""
  },
  {
   "property": "C68",
   "status": "proved",
   "theorems": [
    "PyBGL.C68_metric"
   ],
   "note": ""
  },
  {
   "property": "C69",
   "status": "proved",
   "theorems": [
    "PyBGL.C69_lcs",
    "PyBGL.C69_indel",
    "PyBGL.C69_metric",
    "PyBGL.C69_naive"
   ],
   "note": ""
  },
  {
   "property": "C70",
   "status": "proved",
   "theorems": [
    "PyBGL.C70_damerau",
    "PyBGL.C70_properties",
    "PyBGL.C70_naive"
   ],
   "note": ""
  },
  {
   "property": "C71",
   "status": "partial",
   "theorems": [
    "PyBGL.C71_triangle_counterexample",
    "PyBGL.C71_weak_triangle_partial"
   ],
   "note": "The triangle inequality is refuted (CA, AC, ABC): the library computes the optimal string alignment distance. The metric axioms other than the triangle inequality and the inequality d(x, z) <= d(x, y) + d(y, z) + min(d(x, y), d(y, z)), which this example reaches, are proved."
  },
  {
   "property": "C72",
   "status": "proved",
   "theorems": [
    "PyBGL.C72_search",
    "PyBGL.C72_search_levenshtein"
   ],
   "note": ""
  },
  {
   "property": "C73",
   "status": "proved",
   "theorems": [
    "PyBGL.C73_make",
    "PyBGL.C73_insert"
   ],
   "note": ""
  },
  {
   "property": "C74",
   "status": "proved",
   "theorems": [
    "PyBGL.C74_hsv_hsl_hsv",
    "PyBGL.C74_hsl_hsv_hsl",
    "PyBGL.C74_hsl_range",
    "PyBGL.C74_hsv_range"
   ],
   "note": "Over an arbitrary linearly ordered field; floating point rounding is not modelled."
  },
  {
   "property": "C75",
   "status": "proved",
   "theorems": [
    "PyBGL.C75_injective",
    "PyBGL.C75_escape",
    "PyBGL.C75_reserved_only_in_tags",
    "PyBGL.C75_no_tag",
    "PyBGL.C75_tags_kept",
    "PyBGL.C75_harmless",
    "PyBGL.C75_strings_ambiguous"
   ],
   "note": "Character level. The HTML tags are given as the spans found by the regular expression, a parameter."
  },
  {
   "property": "C76",
   "status": "proved",
   "theorems": [
    "PyBGL.C76_read",
    "PyBGL.C76_total",
    "PyBGL.C76_last_write"
   ],
   "note": ""
  },
  {
   "property": "C77",
   "status": "proved",
   "theorems": [
    "PyBGL.C77_order",
    "PyBGL.C77_events",
    "PyBGL.C77_dfs",
    "PyBGL.C77_bfs"
   ],
   "note": ""
  },
  {
   "property": "C78",
   "status": "proved",
   "theorems": [
    "PyBGL.C78_remove_vertex",
    "PyBGL.C78_remove_edge"
   ],
   "note": ""
  },
  {
   "property": "C79",
   "status": "proved",
   "theorems": [
    "PyBGL.C79_counts",
    "PyBGL.C79_init"
   ],
   "note": ""
  },
  {
   "property": "C80",
   "status": "proved",
   "theorems": [
    "PyBGL.C80_edges",
    "PyBGL.C80_out_edges",
    "PyBGL.C80_add_edge",
    "PyBGL.C80_history"
   ],
   "note": "Includes the histories in which add_edge creates a source that add_vertex later resets."
  },
  {
   "property": "C81",
   "status": "proved",
   "theorems": [
    "PyBGL.C81_tokenizer",
    "PyBGL.C81_compute"
   ],
   "note": "Numbers are abstract: float(...) is a parameter of the model."
  },
  {
   "property": "C82",
   "status": "partial",
   "theorems": [
    "PyBGL.C82_escape_total",
    "PyBGL.C82_bracket_empty",
    "PyBGL.C82_bracket_total",
    "PyBGL.C82_default_alphabet",
    "PyBGL.C82_bracket_counterexample",
    "PyBGL.C82_bracket_partial",
    "PyBGL.C82_escaped",
    "PyBGL.C82_not_bracket",
    "PyBGL.C82_reversed"
   ],
   "note": "False in brackets for \\D, \\S, \\W with a custom alphabet (C82_bracket_counterexample): they use the default alphabet. C82_bracket_partial covers everything else. Character classes of the re module are a parameter (ReClasses). C82_default_alphabet says what the default alphabet is."
  },
  {
   "property": "C83",
   "status": "proved",
   "theorems": [
    "PyBGL.C83_total",
    "PyBGL.C83_repetition",
    "PyBGL.C83_decimal",
    "PyBGL.C83_ordered"
   ],
   "note": "The digits and spaces recognised by re are a parameter with the laws ReClasses.Sound/Decimal. CPython's limit on the digits of int() is not modelled."
  },
  {
   "property": "C84",
   "status": "proved",
   "theorems": [
    "PyBGL.C84_lossless",
    "PyBGL.C84_token_kinds",
    "PyBGL.C84_tokens"
   ],
   "note": "Lossless for every string; exact tokens for every well-formed regular expression text."
  },
  {
   "property": "C85",
   "status": "partial",
   "theorems": [
    "PyBGL.C85_compile_counterexample",
    "PyBGL.C85_compile_partial",
    "PyBGL.C85_empty"
   ],
   "note": "False for a repetition applied to another suffix operator (C85_compile_counterexample: a*{2} is read as (a{2})*). C85_compile_partial needs parentheses there, no epsilon symbol, and the Safe hypothesis of C34 (optional parts whose final state has outgoing arcs)."
  },
  {
   "property": "C86",
   "status": "partial",
   "theorems": [
    "PyBGL.C86_postfix_partial",
    "PyBGL.C86_unbalanced_counterexample",
    "PyBGL.C86_shunting_yard_partial",
    "PyBGL.C86_unbalanced_partial"
   ],
   "note": "False for unclosed opening parentheses (C86_unbalanced_counterexample: a(|b is accepted). The partial theorems prove that a closing parenthesis that closes nothing is rejected, whatever the operator table and the sink, with IndexError for a plain deque (C86_postfix_partial), and that a parenthesis left open is output as an operand."
  },
  {
   "property": "C87",
   "status": "partial",
   "theorems": [
    "PyBGL.C87_compute_counterexample",
    "PyBGL.C87_compute_partial",
    "PyBGL.C87_postfix_partial",
    "PyBGL.C87_tokens_exact"
   ],
   "note": "False for a signed exponent (C87_compute_counterexample: 2 ^ -3 raises IndexError). C87_compute_partial covers the other expressions without unary plus. C87_tokens_exact gives the outcome of tokenizer_alg on every sequence of numbers and operators."
  },
  {
   "property": "C88",
   "status": "partial",
   "theorems": [
    "PyBGL.C88_make_node_automaton_partial",
    "PyBGL.C88_make_node_automaton_counterexample",
    "PyBGL.C88_make_node_automaton_range",
    "PyBGL.C88_make_node_automaton_degenerate"
   ],
   "note": "False: the final names are looked up by the position of the name in the sorted list (C88_make_node_automaton_counterexample, names 10 and 20). C88_make_node_automaton_partial describes what is computed; C88_make_node_automaton_range proves the documented behaviour when the names are 0..n-1."
  },
  {
   "property": "C89",
   "status": "partial",
   "theorems": [
    "PyBGL.C89_every_history_accepts",
    "PyBGL.C89_accepts_counterexample",
    "PyBGL.C89_accepts_partial",
    "PyBGL.C89_accepts_unknown_initial",
    "PyBGL.C89_edge_partial",
    "PyBGL.C89_sigma_partial",
    "PyBGL.C89_alphabet_counterexample",
    "PyBGL.C89_alphabet_partial"
   ],
   "note": "False when the initial state does not exist: accepts raises KeyError (C89_accepts_counterexample), and for alphabet() when an edge enters the initial state (C89_alphabet_counterexample). The partial theorems cover the other histories in which edges are added towards existing states. C89_every_history_accepts says exactly, after every history, which words raise KeyError and which are accepted."
  },
  {
   "property": "C90",
   "status": "partial",
   "theorems": [
    "PyBGL.C90_events",
    "PyBGL.C90_roundtrip_partial",
    "PyBGL.C90_undirected_edges_lost",
    "PyBGL.C90_roundtrip_counterexample",
    "PyBGL.C90_headers",
    "PyBGL.C90_attributes",
    "PyBGL.C90_dangling",
    "PyBGL.C90_attributes_text",
    "PyBGL.C90_text",
    "PyBGL.C90_lines",
    "PyBGL.C90_white",
    "PyBGL.C90_lines_exact",
    "PyBGL.C90_line_ends"
   ],
   "note": "False for undirected graphs, whose edges are written u -- v and not recognised (C90_roundtrip_counterexample, C90_undirected_edges_lost), and when an edge leads to a vertex that does not exist (C90_dangling: KeyError). C90_roundtrip_partial covers directed graphs; C90_headers and C90_attributes show that its hypotheses hold for texts without line boundaries. The HTML tags of labels are a parameter. C90_lines characterises the lines taken for statements, whatever the text. C90_lines_exact says what the lines of a text are; C90_line_ends: a text saved with other ends of lines is read as the original one."
  },
  {
   "property": "C91",
   "status": "partial",
   "theorems": [
    "PyBGL.C91_enrich_partial",
    "PyBGL.C91_enrich_counterexample"
   ],
   "note": "The defaults are written into the dictionary of the caller, so a second call sees those of the first (C91_enrich_counterexample). C91_enrich_partial gives the result of one call."
  },
  {
   "property": "C92",
   "status": "partial",
   "theorems": [
    "PyBGL.C92_node_minimal",
    "PyBGL.C92_node_language_partial",
    "PyBGL.C92_node_usual_partial",
    "PyBGL.C92_node_initial_lost",
    "PyBGL.C92_labelled_minimal",
    "PyBGL.C92_labelled_language_partial",
    "PyBGL.C92_language_counterexample"
   ],
   "note": "False when a state with a smaller identifier and the same symbol cannot be told apart from the initial state (C92_language_counterexample, C92_node_initial_lost). C92_node_minimal and C92_labelled_minimal hold on every acyclic automaton; the partial theorems prove that accepts() is unchanged otherwise, in particular when the initial state is 0, is the only one with its symbol, or reaches every state."
  },
  {
   "property": "C93",
   "status": "partial",
   "theorems": [
    "PyBGL.C93_best_effort",
    "PyBGL.C93_insert",
    "PyBGL.C93_accepts",
    "PyBGL.C93_exact_partial",
    "PyBGL.C93_counterexample",
    "PyBGL.C93_loop_counterexample",
    "PyBGL.C93_no_initial",
    "PyBGL.C93_accepts_debug"
   ],
   "note": "C93_insert gives the exact language after the insertion on every automaton with an initial state and no dangling transition. The property read literally is false: in an automaton without state the first symbol becomes a loop (C93_counterexample), and in a cyclic automaton other words are accepted (C93_loop_counterexample). C93_exact_partial covers the tries: automata in which no two words lead to the same state."
  },
  {
   "property": "C94",
   "status": "partial",
   "theorems": [
    "PyBGL.C94_copy_partial",
    "PyBGL.C94_language_partial",
    "PyBGL.C94_counterexample",
    "PyBGL.C94_default_raises"
   ],
   "note": "With the default pmap_vertices or pmap_edges automaton_copy always raises TypeError (C94_counterexample, C94_default_raises); final states are copied only by the callback. The partial theorems cover the calls where both maps are given."
  },
  {
   "property": "C95",
   "status": "partial",
   "theorems": [
    "PyBGL.C95_json_partial",
    "PyBGL.C95_counterexample",
    "PyBGL.C95_injective_partial"
   ],
   "note": "The values are written without escaping, so a value containing a quotation mark can make two different graphs have the same text (C95_counterexample). C95_json_partial covers all names and values without quotation mark, backslash or control character. The JSON grammar is specified independently in Spec, and a document denotes at most one value (Json.Doc.unique)."
  },
  {
   "property": "C96",
   "status": "proved",
   "theorems": [
    "PyBGL.C96_bfs",
    "PyBGL.C96_dfs",
    "PyBGL.C96_components",
    "PyBGL.C96_topological_sort"
   ],
   "note": ""
  },
  {
   "property": "C97",
   "status": "partial",
   "theorems": [
    "PyBGL.C97_distances_partial",
    "PyBGL.C97_symmetric_partial",
    "PyBGL.C97_distances_exact",
    "PyBGL.C97_counterexample"
   ],
   "note": "An edge is listed by out_edges of its greater end as a descriptor with the ends swapped, which is another key of the weight map: a map filled through add_edge or edges() does not give its weight (C97_counterexample). The partial theorems assume that both descriptors have the same weight. C97_distances_exact gives the distances for every non-negative weights of the descriptors."
  },
  {
   "property": "C98",
   "status": "partial",
   "theorems": [
    "PyBGL.C98_copy_partial",
    "PyBGL.C98_counterexample"
   ],
   "note": "Each edge other than a loop is examined from both its ends, hence copied twice (C98_counterexample). C98_copy_partial describes exactly the copy obtained."
  },
  {
   "property": "C99",
   "status": "proved",
   "theorems": [
    "PyBGL.C99_range_zero_shifted",
    "PyBGL.C99_range_alternation",
    "PyBGL.C99_range_star",
    "PyBGL.C99_range_two_symbols",
    "PyBGL.C99_zero_or_one",
    "PyBGL.C99_range_zero",
    "PyBGL.C99_compile",
    "PyBGL.C99_text_complete"
   ],
   "note": "Gives the exact behaviour in the cases where C32, C33, C34 and C85 are false: Spec/RegexPaths.lean is the compositional description of the words read between both ends of each automaton. C99_range_zero_shifted, C99_range_alternation, C99_range_star and C99_range_two_symbols give the language of e{0,n} when the automaton of e does not start at vertex 0 (alternations, stars, plusses)."
  },
  {
   "property": "C100",
   "status": "partial",
   "theorems": [
    "PyBGL.C100_root_unset",
    "PyBGL.C100_no_symbol",
    "PyBGL.C100_root_set",
    "PyBGL.C100_to_expr_partial",
    "PyBGL.C100_unary",
    "PyBGL.C100_to_expr_counterexample"
   ],
   "note": "The statement is refuted (C100_to_expr_counterexample). Proved: with root unset it raises KeyError (C100_root_unset), with root set it raises on every expression with an operator (C100_root_set), unary operators raise TypeError (C100_unary), and when the vertex 0 is the root and all operators are binary the text is the expression, fully parenthesised (C100_to_expr_partial)."
  },
  {
   "property": "C101",
   "status": "proved",
   "theorems": [
    "PyBGL.C101_automaton",
    "PyBGL.C101_node"
   ],
   "note": ""
  },
  {
   "property": "C102",
   "status": "proved",
   "theorems": [
    "PyBGL.C102_total",
    "PyBGL.C102_total_iff",
    "PyBGL.C102_make"
   ],
   "note": ""
  },
  {
   "property": "C103",
   "status": "proved",
   "theorems": [
    "PyBGL.C103_func",
    "PyBGL.C103_identity",
    "PyBGL.C103_constant",
    "PyBGL.C103_assoc"
   ],
   "note": ""
  },
  {
   "property": "C104",
   "status": "proved",
   "theorems": [
    "PyBGL.C104_last",
    "PyBGL.C104_inverse"
   ],
   "note": ""
  },
  {
   "property": "C105",
   "status": "proved",
   "theorems": [
    "PyBGL.C105_singleton"
   ],
   "note": "An object is identified by the rank of its creation."
  },
  {
   "property": "C106",
   "status": "proved",
   "theorems": [
    "PyBGL.C106_key",
    "PyBGL.C106_get"
   ],
   "note": ""
  },
  {
   "property": "C107",
   "status": "proved",
   "theorems": [
    "PyBGL.C107_visitor",
    "PyBGL.C107_same"
   ],
   "note": ""
  },
  {
   "property": "C108",
   "status": "proved",
   "theorems": [
    "PyBGL.C108_automaton",
    "PyBGL.C108_language",
    "PyBGL.C108_nfa",
    "PyBGL.C108_nfa_language",
    "PyBGL.C108_node",
    "PyBGL.C108_node_language",
    "PyBGL.C108_bk_tree",
    "PyBGL.C108_ast",
    "PyBGL.C108_initial_not_drawn",
    "PyBGL.C108_node_ambiguous"
   ],
   "note": ""
  },
  {
   "property": "C109",
   "status": "partial",
   "theorems": [
    "PyBGL.C109_true",
    "PyBGL.C109_write_partial",
    "PyBGL.C109_svg",
    "PyBGL.C109_failure",
    "PyBGL.C109_others",
    "PyBGL.C109_counterexample",
    "PyBGL.C109_dot_to_svg",
    "PyBGL.C109_dotstr"
   ],
   "note": "False of the code for the default format: run_graphviz returns a str for svg, and write_graphviz calls its (non-existent) method decode, after having emptied the file (C109_svg, C109_failure, C109_counterexample). For other formats the property is proved (C109_write_partial, C109_true), except that the former contents of the file are lost on failure. C109_dot_to_svg is exact."
  },
  {
   "property": "C110",
   "status": "proved",
   "theorems": [
    "PyBGL.C110_style",
    "PyBGL.C110_snapshot",
    "PyBGL.C110_to_dot"
   ],
   "note": ""
  },
  {
   "property": "C111",
   "status": "partial",
   "theorems": [
    "PyBGL.C111_display_partial",
    "PyBGL.C111_counterexample",
    "PyBGL.C111_percent_partial",
    "PyBGL.C111_file",
    "PyBGL.C111_texts",
    "PyBGL.C111_body"
   ],
   "note": "False of the code when the colour contains the character %, as in hsl(0, 50%, 50%): it is taken for a conversion (C111_counterexample). Proved for all other colours and all bodies (C111_display_partial, C111_file, C111_body)."
  },
  {
   "property": "C112",
   "status": "partial",
   "theorems": [
    "PyBGL.C112_agree",
    "PyBGL.C112_directed",
    "PyBGL.C112_directed_failures_partial",
    "PyBGL.C112_directed_counterexample",
    "PyBGL.C112_undirected_partial",
    "PyBGL.C112_undirected_failures_partial",
    "PyBGL.C112_undirected_counterexample",
    "PyBGL.C112_undirected_stuck_counterexample",
    "PyBGL.C112_incidence_partial",
    "PyBGL.C112_incidence_failures_partial",
    "PyBGL.C112_incidence_counterexample",
    "PyBGL.C112_incidence_stuck_counterexample"
   ],
   "note": "False as stated: DirectedGraph.remove_vertex of a missing vertex removes the edges towards it before raising; UndirectedGraph.add_edge and IncidenceGraph.add_edge leave half an edge behind when only the end looked up first exists, and clear() then raises (counterexamples). Proved without restriction for directed graphs: the content after any history with caught exceptions, counting the edges removed by a failing remove_vertex. Proved for the two other classes: a failing call changes nothing except in that case, described exactly; without it the state is that of the returning calls alone."
  },
  {
   "property": "C113",
   "status": "partial",
   "theorems": [
    "PyBGL.C113_counterexample",
    "PyBGL.C113_initial_counterexample",
    "PyBGL.C113_automaton_partial",
    "PyBGL.C113_automaton_new_iff",
    "PyBGL.C113_language",
    "PyBGL.C113_incidence_automaton_partial",
    "PyBGL.C113_nfa_partial",
    "PyBGL.C113_nfa_counterexample",
    "PyBGL.C113_node_partial",
    "PyBGL.C113_node_counterexample",
    "PyBGL.C113_incidence_node_partial"
   ],
   "note": "The statement is false: clear() is inherited from Graph and keeps the initial state(s), the final flags and the symbols, which the new states inherit (counterexamples). Proved: the exact state left by clear() for the five classes, the exact language, and, for Automaton, the equivalence 'behaves like a new one iff the initial state is still 0 and no final flag is set' over all sequences of later calls."
  },
  {
   "property": "C114",
   "status": "partial",
   "theorems": [
    "PyBGL.C114_agree",
    "PyBGL.C114_automaton",
    "PyBGL.C114_automaton_failures_partial",
    "PyBGL.C114_automaton_counterexample",
    "PyBGL.C114_node_partial",
    "PyBGL.C114_node_counterexample",
    "PyBGL.C114_incidence_partial",
    "PyBGL.C114_incidence_failures_partial",
    "PyBGL.C114_incidence_counterexample",
    "PyBGL.C114_incidence_stuck_counterexample",
    "PyBGL.C114_incidence_remove_edge_counterexample",
    "PyBGL.C114_incidence_node_partial",
    "PyBGL.C114_incidence_node_failures_partial",
    "PyBGL.C114_incidence_node_counterexample"
   ],
   "note": "The statement is false of the four classes (counterexamples). Proved: the statement-by-statement model with exceptions agrees with the one used elsewhere; an Automaton whose caller catches exceptions is always one that calls without exceptions can build; the exact list of failing calls and the exact state each leaves, for the four classes; for careful callers (edges towards existing states, removal of existing edges) the statement holds."
  },
  {
   "property": "C115",
   "status": "partial",
   "theorems": [
    "PyBGL.C115_default",
    "PyBGL.C115_exact",
    "PyBGL.C115_exact_incidence",
    "PyBGL.C115_automaton_partial",
    "PyBGL.C115_incidence_partial",
    "PyBGL.C115_removed_counterexample",
    "PyBGL.C115_flag_counterexample"
   ],
   "note": "The statement is false of an automaton emptied with remove_vertex (its initial state is no longer a state) and of one emptied with clear() on which a final flag is left (counterexamples). Proved: the exact result for every automaton without state (the default DFA renumbered, initial state kept, leftover flags added), for both classes; the statement when the next number is the initial state and no flag is left, which holds of new automata; and that the default DFA is built by calls to the API and has exactly the language of the NFA."
  },
  {
   "property": "C116",
   "status": "partial",
   "theorems": [
    "PyBGL.C116_compile_dfa_partial",
    "PyBGL.C116_compare_partial",
    "PyBGL.C116_any_text",
    "PyBGL.C116_compare_any",
    "PyBGL.C116_compare_counterexample"
   ],
   "note": "False because of C85 (a*{2} and a* compare as different). Proved for the regular expressions of C85_compile_partial, for compile_dfa alone and for the comparison of two of them. For every text, valid or not, compile_dfa raises exactly when thompson_compile_nfa does, and otherwise returns a DFA with the language of that NFA (C116_any_text, C116_compare_any)."
  },
  {
   "property": "C117",
   "status": "proved",
   "theorems": [
    "PyBGL.C117_canonical",
    "PyBGL.C117_canonical_trim",
    "PyBGL.C117_nfa"
   ],
   "note": "As in C39, automata whose states are all final or all non-final are excluded (C40)."
  },
  {
   "property": "C118",
   "status": "partial",
   "theorems": [
    "PyBGL.C118_methods",
    "PyBGL.C118_inclusion",
    "PyBGL.C118_member",
    "PyBGL.C118_matching",
    "PyBGL.C118_insert",
    "PyBGL.C118_intersection_partial",
    "PyBGL.C118_union_partial",
    "PyBGL.C118_immutable",
    "PyBGL.C118_intersection_counterexample"
   ],
   "note": "Proved for methods, inclusion, matching, insertion and immutability. Intersection and union: proved for non-empty words; the empty word is lost when the operands have no common first symbol (intersection) or no transition at all (union), which is the behaviour of the code on tries as well (C46, C47); counterexample: the intersection of DigitalSequence('') with itself."
  },
  {
   "property": "C119",
   "status": "proved",
   "theorems": [
    "PyBGL.C119_reading",
    "PyBGL.C119_same_language",
    "PyBGL.C119_parens",
    "PyBGL.C119_compile",
    "PyBGL.C119_complete",
    "PyBGL.C119_rep_first",
    "PyBGL.C119_opt_last"
   ],
   "note": "The language is proved under the conditions of C85 (what may be skipped) and C99 (no {0,n} on expressions which do not start at vertex 0) applied to the reading; the equality of the automata needs no condition."
  },
  {
   "property": "C120",
   "status": "proved",
   "theorems": [
    "PyBGL.C120_compare",
    "PyBGL.C120_bounds",
    "PyBGL.C120_levenshtein",
    "PyBGL.C120_lcs",
    "PyBGL.C120_damerau"
   ],
   "note": ""
  },
  {
   "property": "C121",
   "status": "proved",
   "theorems": [
    "PyBGL.C121_view_bfs",
    "PyBGL.C121_view_dfs",
    "PyBGL.C121_view_topological_sort",
    "PyBGL.C121_view_strong_components",
    "PyBGL.C121_view_dijkstra",
    "PyBGL.C121_reverse_bfs",
    "PyBGL.C121_reverse_components",
    "PyBGL.C121_reverse_dijkstra",
    "PyBGL.C121_applies"
   ],
   "note": "Weights are integers (C60); the source is a vertex of the view."
  },
  {
   "property": "C122",
   "status": "proved",
   "theorems": [
    "PyBGL.C122_any",
    "PyBGL.C122_relaxed",
    "PyBGL.C122_damerau",
    "PyBGL.C122_damerau_factor"
   ],
   "note": "C122_damerau_factor is the example where the nearest element within the radius is missed."
  },
  {
   "property": "C123",
   "status": "partial",
   "theorems": [
    "PyBGL.C123_drawn",
    "PyBGL.C123_nested",
    "PyBGL.C123_ends_partial",
    "PyBGL.C123_roundtrip",
    "PyBGL.C123_ends_counterexample"
   ],
   "note": "C123_drawn, C123_nested and C123_roundtrip are the whole statement but for the ends of edges, which fails when vs is given: the edges towards the other vertices are still drawn (C123_ends_counterexample); C123_ends_partial is without vs. Python's set enumeration is an arbitrary permutation."
  },
  {
   "property": "C124",
   "status": "proved",
   "theorems": [
    "PyBGL.C124_same",
    "PyBGL.C124_in_edges",
    "PyBGL.C124_language"
   ],
   "note": "Whole statement, by simulation."
  },
  {
   "property": "C125",
   "status": "proved",
   "theorems": [
    "PyBGL.C125_minimal",
    "PyBGL.C125_canonical"
   ],
   "note": "Whole statement. The competitors are automata with an initial state and no transition towards a missing state. The set enumerations of revuz_minimize are arbitrary permutations."
  },
  {
   "property": "C126",
   "status": "partial",
   "theorems": [
    "PyBGL.C126_topological_components",
    "PyBGL.C126_unit_weights",
    "PyBGL.C126_dag_partial",
    "PyBGL.C126_dag_counterexample",
    "PyBGL.C126_dag_exact"
   ],
   "note": "C126_topological_components and C126_unit_weights are the first two sentences. The last sentence fails when a cycle weighs 0: two vertices at the same distance can be each other's predecessor (C126_dag_counterexample); C126_dag_partial is the last sentence for non-negative weights when no cycle reached from s weighs 0. C126_dag_exact: whatever the weights, the arcs returned are those of the shortest paths, and topological_sort raises exactly if a cycle of weight 0 is attached to one of them."
  },
  {
   "property": "C127",
   "status": "proved",
   "theorems": [
    "PyBGL.C127_int",
    "PyBGL.C127_other",
    "PyBGL.C127_hsl",
    "PyBGL.C127_value_error",
    "PyBGL.C127_unclosed",
    "PyBGL.C127_unopened",
    "PyBGL.C127_only_value_error"
   ],
   "note": "Whole statement. Floats are elements of an ordered field (no rounding) and str on floats is a parameter; int() is modelled on ASCII digits with sign, underscores and white space. A text such as hsl(1, 2, 34 without its last parenthesis is read without its last character (color[j+1:-1])."
  },
  {
   "property": "C128",
   "status": "partial",
   "theorems": [
    "PyBGL.C128_own_sets_partial",
    "PyBGL.C128_counterexample",
    "PyBGL.C128_shared_partial"
   ],
   "note": "False of the code: the constructor keeps the set of the caller (C128_counterexample). Proved: true as long as no set given to a constructor is given again or changed by the caller (C128_own_sets_partial), and exactly which objects are changed by set_initial otherwise (C128_shared_partial)."
  },
  {
   "property": "C129",
   "status": "partial",
   "theorems": [
    "PyBGL.C129_automaton_partial",
    "PyBGL.C129_nfa_partial",
    "PyBGL.C129_node_partial",
    "PyBGL.C129_counterexample"
   ],
   "note": "False of the code: a symbol at which str.splitlines ends a line (U+0085, U+2028, U+2029) cuts the line of its transition, which read_graphviz silently drops (C129_counterexample). Proved for all other symbols and for the three classes."
  },
  {
   "property": "C130",
   "status": "proved",
   "theorems": [
    "PyBGL.C130_automaton",
    "PyBGL.C130_incidence",
    "PyBGL.C130_node",
    "PyBGL.C130_incidence_node",
    "PyBGL.C130_nfa"
   ],
   "note": "The five classes, for every history; in particular a removed state stays initial or final."
  },
  {
   "property": "C131",
   "status": "proved",
   "theorems": [
    "PyBGL.C131_balance_needed",
    "PyBGL.C131_accepted",
    "PyBGL.C131_missing_operand",
    "PyBGL.C131_plain",
    "PyBGL.C131_texts"
   ],
   "note": "For all texts with balanced parentheses; C86 has a counterexample for unclosed parentheses (C131_balance_needed). An unescaped dot is always rejected: it is read as an explicit concatenation, in addition to those the tokenizer inserts."
  },
  {
   "property": "C132",
   "status": "partial",
   "theorems": [
    "PyBGL.C132_infix_counterexample",
    "PyBGL.C132_ast_partial",
    "PyBGL.C132_compute_partial",
    "PyBGL.C132_compute_exact"
   ],
   "note": "False: the tokens 1 2 + (and the text (1)(2)+) are accepted (C132_infix_counterexample). The partial theorems give the exact outcome for every list of tokens: the result of the tree whose postfix form shunting_yard_postfix outputs, AssertionError if it outputs several trees or none, IndexError otherwise. C132_compute_exact gives the outcome of shunting_yard_compute for every list of tokens, exceptions included; parentheses left open are strings, which + concatenates: ()+(( returns the string '(('."
  },
  {
   "property": "C133",
   "status": "partial",
   "theorems": [
    "PyBGL.C133_alphabet_counterexample",
    "PyBGL.C133_alphabet_partial",
    "PyBGL.C133_sigma_partial",
    "PyBGL.C133_no_symbol_missing",
    "PyBGL.C133_no_removal_partial",
    "PyBGL.C133_history"
   ],
   "note": "False after remove_edge or remove_vertex: the symbol of a removed transition stays (C133_alphabet_counterexample). The partial theorems give both sets exactly for every history, prove that no symbol is ever missing, and prove the property as stated when neither remove_edge nor remove_vertex was called."
  },
  {
   "property": "C134",
   "status": "partial",
   "theorems": [
    "PyBGL.C134_fresh_counterexample",
    "PyBGL.C134_fresh_partial",
    "PyBGL.C134_states",
    "PyBGL.C134_counts",
    "PyBGL.C134_edge",
    "PyBGL.C134_label"
   ],
   "note": "add_vertex() is not fresh after add_edge from a state that was not added (C134_fresh_counterexample); the partial theorem proves it fresh, and without effect on the rest, for every history in which add_edge starts from a state of the automaton. edge(q, r) raises TypeError whenever there is a transition (C134_edge). The other parts are proved for every history."
  },
  {
   "property": "C135",
   "status": "partial",
   "theorems": [
    "PyBGL.C135_attributes",
    "PyBGL.C135_visitor",
    "PyBGL.C135_drawing_partial",
    "PyBGL.C135_dp_counterexample"
   ],
   "note": "read_graphviz_dp raises TypeError whatever it is given (C135_dp_counterexample: its visitor passes the graph to a constructor without argument). The rest is proved for every text and every visitor whose methods do not modify the graph. HTMLParser of the standard library is a parameter."
  },
  {
   "property": "C136",
   "status": "proved",
   "theorems": [
    "PyBGL.C136_dfs",
    "PyBGL.C136_dfs_any_visitor",
    "PyBGL.C136_bfs",
    "PyBGL.C136_bfs_any_visitor",
    "PyBGL.C136_history",
    "PyBGL.C136_dijkstra"
   ],
   "note": "Full statement, by a simulation between the search with the given map and the search with a new map of the graph without the edges towards hidden vertices. Finitely many vertices must be reachable."
  },
  {
   "property": "C137",
   "status": "proved",
   "theorems": [
    "PyBGL.C137_maps",
    "PyBGL.C137_distances",
    "PyBGL.C137_path"
   ],
   "note": "Full statement, through the simulation of C136 with no hidden vertex. The map of colours must be new: C136 describes the other case."
  },
  {
   "property": "C138",
   "status": "proved",
   "theorems": [
    "PyBGL.C138_thompson",
    "PyBGL.C138_thompson_linear",
    "PyBGL.C138_moore",
    "PyBGL.C138_regex_dfa",
    "PyBGL.C138_trie",
    "PyBGL.C138_trie_bound",
    "PyBGL.C138_suffix_trie",
    "PyBGL.C138_suffix_trie_bound",
    "PyBGL.C138_intersection",
    "PyBGL.C138_union"
   ],
   "note": "The exact size of the automaton of an expression holds when {0} is only applied to expressions whose automaton starts at state 0 (an example shows (a|b){0}? has a state too many). The bounds on minimised automata are C40_partial and C42_minimal."
  },
  {
   "property": "C139",
   "status": "partial",
   "theorems": [
    "PyBGL.C139_words",
    "PyBGL.C139_counterexample",
    "PyBGL.C139_no_removal_partial",
    "PyBGL.C139_sink_partial",
    "PyBGL.C139_size_partial"
   ],
   "note": "False after remove_edge: the symbol of the removed transition stays in sigma (C133), so a state standing for the empty set is created (C139_counterexample). C139_words gives exactly the words that reach a state, for every history; C139_sink_partial: the extra state is unique, not final and without transition; C139_no_removal_partial and C139_size_partial prove the statement without removals."
  },
  {
   "property": "C140",
   "status": "proved",
   "theorems": [
    "PyBGL.C140_any",
    "PyBGL.C140_reach",
    "PyBGL.C140_not_shortest",
    "PyBGL.C140_negative_cycle"
   ],
   "note": "C140_any is the general statement, C140_reach the last sentence. C140_not_shortest and C140_negative_cycle show what is lost with negative weights: the distances are not the smallest ones, and dijkstra_shortest_path may not end although dijkstra_shortest_paths does."
  },
  {
   "property": "C141",
   "status": "proved",
   "theorems": [
    "PyBGL.C141_union",
    "PyBGL.C141_intersection",
    "PyBGL.C141_lang",
    "PyBGL.C141_reused"
   ],
   "note": "g12 is assumed not to be the object g1 or g2. Also shows that the results are automata built by the API, so that the other theorems apply to them."
  },
  {
   "property": "C142",
   "status": "proved",
   "theorems": [
    "PyBGL.C142_calls_exact",
    "PyBGL.C142_determined",
    "PyBGL.C142_predecessors_reported",
    "PyBGL.C142_not_relaxed",
    "PyBGL.C142_not_relaxed_default"
   ],
   "note": "C142_calls_exact: the calls and the maps are those of a notebook kept without heap for the vertices examined, which C142_determined shows to be determined by these vertices (C140 and C60 tell which they are). C142_predecessors_reported, C142_not_relaxed (algebra of C64) and C142_not_relaxed_default tell what the reports mean."
  },
  {
   "property": "C143",
   "status": "partial",
   "theorems": [
    "PyBGL.C143_history_partial",
    "PyBGL.C143_calls",
    "PyBGL.C143_edge",
    "PyBGL.C143_add_edge_exact",
    "PyBGL.C143_add_edge_counterexample",
    "PyBGL.C143_automaton_remove_edge",
    "PyBGL.C143_automaton_remove_edge_keeps",
    "PyBGL.C143_automaton_remove_vertex",
    "PyBGL.C143_automaton_counterexample",
    "PyBGL.C143_undirected",
    "PyBGL.C143_twice",
    "PyBGL.C143_undirected_loop"
   ],
   "note": "Partial because the statement is false. IncidenceGraph: C143_history_partial, C143_calls, C143_edge give everything but the direction of add_edge, for every history; C143_add_edge_exact says what add_edge does (the edge goes from v to u after an odd number of reversals), C143_add_edge_counterexample refutes the statement. IncidenceAutomaton: C143_automaton_remove_edge and C143_automaton_remove_vertex say exactly what is removed and when an exception is raised, C143_automaton_remove_edge_keeps that a transition between different states is never removed, C143_automaton_counterexample refutes the statement. UndirectedGraph: C143_undirected (out_edges recurses for ever, remove_edge raises KeyError)."
  },
  {
   "property": "C144",
   "status": "partial",
   "theorems": [
    "PyBGL.C144_live_partial",
    "PyBGL.C144_nested",
    "PyBGL.C144_laws",
    "PyBGL.C144_or_exact",
    "PyBGL.C144_sub_exact",
    "PyBGL.C144_forwarded_exact",
    "PyBGL.C144_forwarded_counterexample"
   ],
   "note": "Partial because the last sentence is false: C144_forwarded_exact says that the three methods answer about the graph viewed, C144_forwarded_counterexample refutes the statement. Everything else is proved: C144_live_partial (for an IncidenceGraph), C144_nested, C144_laws, C144_or_exact, C144_sub_exact (the latter also gives the edges of (a - b) | c, where the relevance map of edges of a - b shows)."
  },
  {
   "property": "C145",
   "status": "partial",
   "theorems": [
    "PyBGL.C145_literal_partial",
    "PyBGL.C145_exact",
    "PyBGL.C145_counterexample",
    "PyBGL.C145_injective"
   ],
   "note": "Partial because the statement is false: C145_exact shows that the compilation raises IndexError if and only if the text holds ^, $ or a backslash (re_escape escapes them, but thompson_compile_nfa does not know these escape sequences), and that the automaton accepts exactly the text otherwise; C145_literal_partial adds the language and the DFA; C145_counterexample is the text ^. C145_injective is the second sentence."
  },
  {
   "property": "C146",
   "status": "proved",
   "theorems": [
    "PyBGL.C146_directed",
    "PyBGL.C146_undirected",
    "PyBGL.C146_incidence",
    "PyBGL.C146_automaton",
    "PyBGL.C146_language"
   ],
   "note": "IsCopy (Spec/CopyInto.lean) describes the copy by the sequence of the calls received by the callbacks. One theorem per class of g_dup; automaton_copy is considered with its two maps given, since it raises otherwise (C94)."
  },
  {
   "property": "C147",
   "status": "proved",
   "theorems": [
    "PyBGL.C147_compile",
    "PyBGL.C147_text",
    "PyBGL.C147_optional"
   ],
   "note": "C147_compile is the statement on abstract expressions, C147_text on texts, C147_optional the last sentence (it needs neither condition on the ends of e, as opposed to C32). The condition Safe is that of C34."
  },
  {
   "property": "C148",
   "status": "proved",
   "theorems": [
    "PyBGL.C148_compile_exact",
    "PyBGL.C148_states",
    "PyBGL.C148_text_exact"
   ],
   "note": "C148_compile_exact is the statement on abstract expressions, C148_text_exact on texts, C148_states links the number of states to C138. It needs none of the conditions of C34 and C99 on the ends of the parts; the pictures are in Spec/ThompsonNet.lean."
  },
  {
   "property": "C149",
   "status": "proved",
   "theorems": [
    "PyBGL.C149_visitor",
    "PyBGL.C149_interrupted",
    "PyBGL.C149_towards"
   ],
   "note": "C149_visitor is the whole statement; C149_interrupted spells it out for sums of non-negative weights; C149_towards links it to the visitor of dijkstra_shortest_path (C62). A visitor that modifies the maps or the graph is not modelled."
  },
  {
   "property": "C150",
   "status": "proved",
   "theorems": [
    "PyBGL.C150_dfs",
    "PyBGL.C150_dfs_colors",
    "PyBGL.C150_dfs_interrupted",
    "PyBGL.C150_bfs",
    "PyBGL.C150_bfs_colors",
    "PyBGL.C150_bfs_interrupted",
    "PyBGL.C150_bfs_single"
   ],
   "note": "C150_dfs, C150_bfs and C150_bfs_single describe all the runs; C150_dfs_colors and C150_bfs_colors the colours at each call; C150_dfs_interrupted and C150_bfs_interrupted the interrupted runs. A visitor that modifies the colours or the graph is not modelled."
  },
  {
   "property": "C151",
   "status": "partial",
   "theorems": [
    "PyBGL.C151_right",
    "PyBGL.C151_reuse",
    "PyBGL.C151_reuse_lcs",
    "PyBGL.C151_reuse_damerau",
    "PyBGL.C151_enough_partial",
    "PyBGL.C151_short",
    "PyBGL.C151_always_counterexample",
    "PyBGL.C151_equal_exact",
    "PyBGL.C151_disjoint_exact",
    "PyBGL.C151_calls"
   ],
   "note": "False of the code for long words, whatever the limit of recursion (C151_always_counterexample). Proved: what is returned is right (C151_right), also by an object used after RecursionError (C151_reuse*), enough and short limits (C151_enough_partial, C151_short), the exact number of nested calls for equal words and for words without a common character, and the number of calls."
  },
  {
   "property": "C152",
   "status": "proved",
   "theorems": [
    "PyBGL.C152_distances",
    "PyBGL.C152_errors",
    "PyBGL.C152_double",
    "PyBGL.C152_paths"
   ],
   "note": "Every format with rounding to the nearest (C152_distances, C152_errors, C152_paths), and double precision, the existence of which is proved (C152_double). Overflow, infinite values and NaN are not modelled."
  },
  {
   "property": "C153",
   "status": "partial",
   "theorems": [
    "PyBGL.C153_ratio_partial",
    "PyBGL.C153_double_partial",
    "PyBGL.C153_counterexample"
   ],
   "note": "False of the code when a weight is lost in a sum (C153_counterexample: weights 2^54 and 1). Proved when the weights are not too different (C153_ratio_partial, C153_double_partial)."
  },
  {
   "property": "C154",
   "status": "proved",
   "theorems": [
    "PyBGL.C154_edges",
    "PyBGL.C154_undirected_edges",
    "PyBGL.C154_incidence_edges",
    "PyBGL.C154_out_edges",
    "PyBGL.C154_undirected_out_edges",
    "PyBGL.C154_incidence_out_edges",
    "PyBGL.C154_incidence_in_edges",
    "PyBGL.C154_vertices",
    "PyBGL.C154_undirected_vertices",
    "PyBGL.C154_incidence_vertices",
    "PyBGL.C154_additions",
    "PyBGL.C154_removals",
    "PyBGL.C154_at_once",
    "PyBGL.C154_remove_each",
    "PyBGL.C154_remove_each_vertex"
   ],
   "note": "The size check of CPython's iterators over dictionaries and sets is modelled. Loops the body of which both adds and removes are not covered: what they deliver depends on the memory layout of the containers."
  },
  {
   "property": "C155",
   "status": "proved",
   "theorems": [
    "PyBGL.C155_push",
    "PyBGL.C155_pop",
    "PyBGL.C155_make",
    "PyBGL.C155_insert",
    "PyBGL.C155_search"
   ],
   "note": "A cost is any quantity of the rest of the world that each call increases by a bounded amount: the number of calls, or the time. The algorithms are those of the C module of CPython; cache_friendly_heapify, used above 2500 elements, is not modelled."
  },
  {
   "property": "C156",
   "status": "partial",
   "theorems": [
    "PyBGL.C156_insert",
    "PyBGL.C156_bktree_no_exception",
    "PyBGL.C156_key",
    "PyBGL.C156_push_partial",
    "PyBGL.C156_pop_partial",
    "PyBGL.C156_no_exception",
    "PyBGL.C156_push_counterexample",
    "PyBGL.C156_pop_counterexample",
    "PyBGL.C156_order_counterexample",
    "PyBGL.C156_index_counterexample"
   ],
   "note": "True of BKTree, and of Heap when to_comparable raises. False of Heap when the preorder raises: push leaves the element in the heap, without incrementing the index, and pop loses the least element; the heap may then be out of order, and elements may be compared with each other. Proved instead: exactly which entries are left. The functions are supposed not to touch the heap or the tree themselves."
  },
  {
   "property": "C157",
   "status": "proved",
   "theorems": [
    "PyBGL.C157_concatenation",
    "PyBGL.C157_alternation",
    "PyBGL.C157_repetition",
    "PyBGL.C157_repetition_range",
    "PyBGL.C157_compile",
    "PyBGL.C157_compile_calls",
    "PyBGL.C157_same_concatenation",
    "PyBGL.C157_same_alternation"
   ],
   "note": "Refinement of the construction on values (Model/Thompson, C29-C34) by one on a store of objects (Model/ThompsonStore) in which loops over the second automaton are over views of its containers, so that aliasing shows. The loop over the transitions of the second automaton checks their number instead of the sizes of nested dictionaries."
  },
  {
   "property": "C158",
   "status": "proved",
   "theorems": [
    "PyBGL.C158_dfs",
    "PyBGL.C158_bfs_graph",
    "PyBGL.C158_bfs",
    "PyBGL.C158_copy_directed",
    "PyBGL.C158_copy_undirected",
    "PyBGL.C158_copy_incidence",
    "PyBGL.C158_copy_automaton",
    "PyBGL.C158_dfs_removal_raises",
    "PyBGL.C158_bfs_removal_raises"
   ],
   "note": "Model/DynSearch reads the graph in the state of the visitor at each access. Copies into themselves: DirectedGraph and Automaton whose edges lead to existing vertices, UndirectedGraph, IncidenceGraph; a vertex map given by the caller must not already map vertices to vertices of g. The generator of out-edges checks the number of out-edges instead of the sizes of the nested containers."
  },
  {
   "property": "C159",
   "status": "partial",
   "theorems": [
    "PyBGL.C159_intersection",
    "PyBGL.C159_union_partial",
    "PyBGL.C159_union_lang_partial",
    "PyBGL.C159_union_same",
    "PyBGL.C159_intersection_same",
    "PyBGL.C159_union_counterexample"
   ],
   "note": "Model/ProductAlias.lean reads an operand that is g12 from the state of the product at each step. Equality, for every fuel, with Model/ProductInto.lean by lockstep (Proofs/ProductAlias.lean): the old states keep their transitions and flags, the new ones have larger numbers, and the initial state of g12 moves once, to the first pair. For the union the claim is false without StartsOnce, see C159_union_counterexample (there the union in place is right and the other one, C47_counterexample, is wrong). deterministic_union(g, g, g) always satisfies it."
  },
  {
   "property": "C160",
   "status": "proved",
   "theorems": [
    "PyBGL.C160_insert_self"
   ],
   "note": "Model/FusionSelf.lean reads both tries from the state of the visitor. Lockstep with the fusion of Model/Product.lean (the state never changes), whose termination is C16."
  },
  {
   "property": "C161",
   "status": "proved",
   "theorems": [
    "PyBGL.C161_edges",
    "PyBGL.C161_out_edges",
    "PyBGL.C161_vertices",
    "PyBGL.C161_other_states",
    "PyBGL.C161_flags"
   ],
   "note": "Model/LazyAutomaton.lean. A transition to state 0 can be overwritten by add_edge during the loop without being noticed: the target delivered is the one at that time. For IncidenceAutomaton see C162."
  },
  {
   "property": "C162",
   "status": "partial",
   "theorems": [
    "PyBGL.C162_calls",
    "PyBGL.C162_attached",
    "PyBGL.C162_held",
    "PyBGL.C162_out_edges_partial",
    "PyBGL.C162_remove_source",
    "PyBGL.C162_out_edges_counterexample"
   ],
   "note": "False of the code when the body removes q (C162_out_edges_counterexample): remove_vertex drops the dictionary of q without emptying it, and the loop goes on with the removed transitions (C162_remove_source: it delivers all of them). C162_out_edges_partial: the property for the bodies that do not remove q; C162_held: for all bodies, about the transitions of the dictionary held by the iterator. Model/LazyIncidenceAutomaton.lean adds this dictionary to the state; C162_calls says that the calls do not depend on it."
  },
  {
   "property": "C163",
   "status": "partial",
   "theorems": [
    "PyBGL.C163_visitor",
    "PyBGL.C163_in_place_partial",
    "PyBGL.C163_new_deque",
    "PyBGL.C163_empty_counterexample",
    "PyBGL.C163_same_result"
   ],
   "note": "False of an empty deque, which is left empty because line 53 tests its truth value (C163_empty_counterexample); C163_in_place_partial: the property for the other deques. C163_new_deque: what happens with None or an empty deque. C163_same_result: same results as the model of C54."
  },
  {
   "property": "C164",
   "status": "proved",
   "theorems": [
    "PyBGL.C164_edges",
    "PyBGL.C164_out_edges",
    "PyBGL.C164_vertices",
    "PyBGL.C164_undirected_edges",
    "PyBGL.C164_undirected_out_edges",
    "PyBGL.C164_undirected_vertices",
    "PyBGL.C164_incidence_edges",
    "PyBGL.C164_incidence_out_edges",
    "PyBGL.C164_incidence_in_edges",
    "PyBGL.C164_incidence_vertices",
    "PyBGL.C164_nested"
   ],
   "note": "The items and containers are those of C154. C164_nested: loops over views of views."
  },
  {
   "property": "C165",
   "status": "partial",
   "theorems": [
    "PyBGL.C165_raises",
    "PyBGL.C165_success",
    "PyBGL.C165_failure",
    "PyBGL.C165_harmless",
    "PyBGL.C165_accepts",
    "PyBGL.C165_failure_counterexample"
   ],
   "note": "C165_failure_counterexample: remove_vertex of a state that is not there raises KeyError after having removed the transitions to it. C165_failure says exactly what such a call does."
  },
  {
   "property": "C166",
   "status": "proved",
   "theorems": [
    "PyBGL.C166_edges",
    "PyBGL.C166_out_edges",
    "PyBGL.C166_vertices",
    "PyBGL.C166_edges_states",
    "PyBGL.C166_out_edges_states",
    "PyBGL.C166_vertices_states",
    "PyBGL.C166_prompt",
    "PyBGL.C166_remove_loop",
    "PyBGL.C166_repeat"
   ],
   "note": "Promise `Delivers` of C154. The descriptor delivered is represented by its source, target and label; the set of numbers it carries is the one of the automaton, shared. C166_*_states: bodies that add states too, whose calls to add_edge are guarded by a test of the source."
  },
  {
   "property": "C167",
   "status": "partial",
   "theorems": [
    "PyBGL.C167_same",
    "PyBGL.C167_edges",
    "PyBGL.C167_distinct",
    "PyBGL.C167_live",
    "PyBGL.C167_frozen",
    "PyBGL.C167_grows",
    "PyBGL.C167_step",
    "PyBGL.C167_readded",
    "PyBGL.C167_value_counterexample"
   ],
   "note": "C167_value_counterexample: the descriptor of a transition is changed by add_edge of this transition. The other theorems are the full description of what an old descriptor shows, in a model with a heap of sets which is shown to behave as the model with values (C167_same)."
  },
  {
   "property": "C168",
   "status": "partial",
   "theorems": [
    "PyBGL.C168_deterministic",
    "PyBGL.C168_minimal_always",
    "PyBGL.C168_test",
    "PyBGL.C168_states",
    "PyBGL.C168_minimized",
    "PyBGL.C168_minimal_counterexample"
   ],
   "note": "C168_minimal_counterexample: is_minimal(g) counts as true for an automaton with two equivalent states (C168_minimal_always: for every automaton)."
  },
  {
   "property": "C169",
   "status": "proved",
   "theorems": [
    "PyBGL.C169_visitor",
    "PyBGL.C169_single",
    "PyBGL.C169_no_sources",
    "PyBGL.C169_find"
   ],
   "note": "The visitor is an object with any state and methods that may raise; C169_find is about the concrete visitor `finder` (Verif/Spec/BfsObjects.lean)."
  },
  {
   "property": "C170",
   "status": "proved",
   "theorems": [
    "PyBGL.C170_received",
    "PyBGL.C170_repeated",
    "PyBGL.C170_bfs",
    "PyBGL.C170_dfs",
    "PyBGL.C170_alone_bfs",
    "PyBGL.C170_alone_dfs",
    "PyBGL.C170_list",
    "PyBGL.C170_own_list"
   ],
   "note": "Methods of a visitor only change this visitor; visitors that change the list during a call are not modelled."
  },
  {
   "property": "C171",
   "status": "partial",
   "theorems": [
    "PyBGL.C171_quiet",
    "PyBGL.C171_raises",
    "PyBGL.C171_path_partial",
    "PyBGL.C171_stop_counterexample"
   ],
   "note": "False of a visitor that raises DijkstraStopException itself: the exception is caught as if t had been examined (counterexample: a path of weight 10 is returned instead of 6, or IndexError is raised). Any member of PyErr may stand for DijkstraStopException. Visitors may read the maps but not write them."
  },
  {
   "property": "C172",
   "status": "proved",
   "theorems": [
    "PyBGL.C172_visitor",
    "PyBGL.C172_raises",
    "PyBGL.C172_calls",
    "PyBGL.C172_same",
    "PyBGL.C172_aggregated"
   ],
   "note": "Visitors may read the colour map but not write it, and do not modify the automata; if_push does not raise."
  },
  {
   "property": "C173",
   "status": "proved",
   "theorems": [
    "PyBGL.C173_first",
    "PyBGL.C173_length",
    "PyBGL.C173_apart",
    "PyBGL.C173_try",
    "PyBGL.C173_common",
    "PyBGL.C173_excess"
   ],
   "note": "The visitor is a user's (Spec/PairFinder). Default sources, if_push and colour map."
  }
 ]
}