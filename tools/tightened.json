{
"M007": {
"tightened": [
"C79_counts"
],
"note": "survived; property C79 and theorem C79_counts were added, see M085"
},
"M014": {
"note": "the edited model did not compile; replaced by M081"
},
"M020": {
"note": "the edit hit Automaton.isFinalO, then used by no theorem; the theorems of C20 and C45 now depend on it, see M086"
},
"M034": {
"note": "the edited model did not compile; replaced by M082"
},
"M045": {
"tightened": [
"C80_edges",
"C80_add_edge"
],
"note": "survived at first: the multiplicity of parallel transitions was not observed by any theorem; property C80 was added and now detects it"
},
"M072": {
"note": "the edited model did not compile; replaced by M083"
},
"M078": {
"note": "the edited model did not compile; replaced by M084"
},
"M175": {
"tightened": [
"C87_compute_partial",
"C87_postfix_partial"
],
"note": "survived: C36 and C81 take precedence and associativity from the table of the model; property C87 gives them independently, see M211"
},
"M148": {
"note": "equivalent edit: the key of the element is the key of the equal element it replaces"
},
"M217": {
"tightened": [
"C84_token_kinds"
],
"note": "survived: C84 did not say which texts are repetition tokens; theorem C84_token_kinds added, see M254"
},
"M292": {
"tightened": [
"C90_lines"
],
"note": "survived: the edit changes nothing on the texts written by to_dot; C90_lines, added afterwards, says which lines are statements whatever the text, see M301"
},
"M263": {
"note": "this edit is the fix of the defect: it is the counterexample that fails, as it should"
},
"M278": {
"note": "this edit is the fix of the defect: it is the counterexample that fails, as it should"
},
"M420": {
"tightened": [
"C111_texts"
],
"note": "survived at first; theorem C111_texts was added, which fails on this edit"
},
"M421": {
"tightened": [
"C111_texts"
],
"note": "survived at first; theorem C111_texts was added, which fails on this edit"
},
"M422": {
"tightened": [
"C109_dotstr"
],
"note": "survived at first; theorem C109_dotstr was added, which fails on this edit"
},
"M405": {
"note": "this edit is the fix of a defect: the theorems describing the defect fail, as they should"
},
"M407": {
"note": "this edit is the fix of a defect: the theorems describing the defect fail, as they should"
},
"M424": {
"note": "this edit is the fix of a defect: the theorems describing the defect fail, as they should"
},
"M426": {
"note": "this edit is the fix of a defect: the theorems describing the defect fail, as they should"
},
"M428": {
"note": "this edit is the fix of a defect: the theorems describing the defect fail, as they should"
},
"M432": {
"note": "this edit is the fix of a defect: the theorems describing the defect fail, as they should"
},
"M435": {
"note": "this edit is the fix of a defect: the theorems describing the defect fail, as they should"
},
"M436": {
"note": "this edit is the fix of a defect: the theorems describing the defect fail, as they should"
},
"M441": {
"note": "this edit is the fix of a defect: the theorems describing the defect fail, as they should"
},
"M442": {
"note": "this edit is the fix of a defect: the theorems describing the defect fail, as they should"
},
"M448": {
"note": "this edit is the fix of a defect: the theorems describing the defect fail, as they should"
},
"M451": {
"note": "this edit is the fix of a defect: the theorems describing the defect fail, as they should"
},
"M429": {
"note": "no claim is false of this edit: in every reachable state both dictionaries have the same keys, so the exception between the two assignments cannot occur"
},
"M463": {
"tightened": [
"C116_any_text",
"C116_compare_any"
],
"note": "survived the first run: no theorem said what compile_dfa does with a text that does not compile; C116_any_text was added and the edit is now detected"
},
"M504": {
"tightened": [
"C13_remove_vertex_counterexample"
],
"note": "survived the first run: no theorem exhibited the KeyError of remove_vertex on a stale in-edge; C13_remove_vertex_counterexample was added and the edit is now detected"
},
"M549": {
"tightened": [
"C75_escape"
],
"note": "survived the first run; C75_escape was tightened and the edit is now detected"
},
"M555": {
"tightened": [
"C19_out_of_range"
],
"note": "survived the first run: no theorem gave the exception out of range; C19_out_of_range was added"
},
"A0032": {
"tightened": [
"C24_edge"
],
"note": "survived the first run: no theorem spoke of Automaton.edge; C24_edge was added and the edit is now detected"
},
"A0033": {
"tightened": [
"C24_edge"
],
"note": "survived the first run: no theorem spoke of Automaton.edge; C24_edge was added and the edit is now detected"
},
"A0034": {
"tightened": [
"C24_edge"
],
"note": "survived the first run: no theorem spoke of Automaton.edge; C24_edge was added and the edit is now detected"
},
"A0035": {
"tightened": [
"C24_edge"
],
"note": "survived the first run: no theorem spoke of Automaton.edge; C24_edge was added and the edit is now detected"
},
"A0056": {
"tightened": [],
"note": "no claim is false of this edit: the branch is not reachable from the modelled callers"
},
"A0063": {
"tightened": [
"C111_percent_partial"
],
"note": "survived the first run: no theorem gave the exception of a format with a missing argument; C111_percent_partial was added"
},
"A0081": {
"tightened": [],
"note": "no claim is false of this edit: the branch is not reachable from the modelled callers"
},
"A0167": {
"tightened": [
"C19_out_of_range"
],
"note": "survived the first run: no theorem gave the exception out of range; C19_out_of_range was added"
},
"A0254": {
"tightened": [
"C62_make_shortest_path_partial"
],
"note": "survived the first run: no theorem gave the exception without predecessor; C62_make_shortest_path_partial was added"
},
"A0306": {
"tightened": [],
"note": "equivalent edit: equality is symmetric"
},
"A0327": {
"tightened": [
"C90_lines",
"C90_white"
],
"note": "survived the first run: the set of white characters was not specified; C90_lines now uses an independent list and C90_white was added"
},
"A0353": {
"tightened": [],
"note": "equivalent edit: only the order of the precedences matters"
},
"A0384": {
"tightened": [
"C82_not_bracket"
],
"note": "survived the first run: no theorem gave the exception of malformed brackets; C82_not_bracket was added"
},
"A0403": {
"tightened": [],
"note": "no claim is false of this edit: the branch is not reachable from the modelled callers"
},
"A0454": {
"tightened": [
"C131_missing_operand"
],
"note": "survived the first run: no theorem gave the exception of a missing operand; C131_missing_operand was added"
},
"A0467": {
"tightened": [
"C86_postfix_partial",
"C132_ast_partial"
],
"note": "survived the first run: no theorem gave the exception of a stray closing parenthesis; C86_postfix_partial was added"
},
"A0469": {
"tightened": [
"C130"
],
"note": "survived the first run: no theorem spoke of set_initial after a history; the theorems of C130 were added"
},
"A0476": {
"tightened": [],
"note": "equivalent edit: the case of zero operands comes first"
},
"A0502": {
"tightened": [],
"note": "equivalent edit: the default is never read at a discovered vertex"
},
"A0583": {
"tightened": [
"C15_no_state"
],
"note": "survived the first run: no theorem spoke of an empty trie; C15_no_state was added"
},
"A0628": {
"tightened": [
"C127_unclosed"
],
"note": "survived the first run: no theorem spoke of a missing closing parenthesis; C127_unclosed was added"
},
"A0630": {
"tightened": [
"C127_unopened"
],
"note": "no claim is false of this edit: without an opening parenthesis ValueError is raised in both cases; C127_unopened now says so"
},
"A0637": {
"tightened": [
"C107_same"
],
"note": "survived the first run: C107_visitor spoke only of the runs that return; C107_same was added and the edit is now detected"
},
"A0656": {
"tightened": [],
"note": "no claim is false of this edit: the library uses no other conversion; the comment of pyFormat says that the model is a simplification there"
},
"A0802": {
"tightened": [],
"note": "equivalent edit: the measure of termination is symmetric"
},
"A0885": {
"tightened": [
"C83_total"
],
"note": "survived the first run: no theorem gave the exception of a text that is not a repetition; C83_total was added and the edit is now detected"
},
"A0902": {
"tightened": [
"C82_bracket_empty"
],
"note": "survived the first run: no theorem spoke of the empty text; C82_bracket_empty was added"
},
"A0905": {
"tightened": [
"C82_escape_total"
],
"note": "survived the first run: no theorem spoke of a lone backslash; C82_escape_total was added"
},
"A0906": {
"tightened": [
"C82_escape_total"
],
"note": "survived the first run: no theorem gave the exception of an unsupported escape sequence; C82_escape_total was added"
},
"B0039": {
"tightened": [
"C100_no_symbol"
],
"note": "survived the first run: no theorem gave the exception of a vertex without symbol; C100_no_symbol was added"
},
"B0064": {
"tightened": [],
"note": "no claim is false of this edit: no caller passes more arguments than its format has conversions"
},
"B0206": {
"tightened": [],
"note": "equivalent edit: insertions into a tree grown from the empty one never raise, so that this branch is not reached"
},
"A0975": {
"tightened": [
"C130"
],
"note": "survived the first run: no theorem spoke of set_initial after a history; the theorems of C130 were added"
},
"B0230": {
"tightened": [],
"note": "equivalent edit: revuz_height never raises, so that this branch is not reached"
},
"A0984": {
"tightened": [],
"note": "equivalent edit: the case of zero operands comes first"
},
"A0990": {
"tightened": [],
"note": "equivalent edit: the operators have one or two operands and as many are popped, so that this branch is not reached"
},
"B0259": {
"tightened": [
"C142_calls_exact"
],
"note": "survived the first run: no theorem spoke of edge_not_relaxed; C142 was added"
},
"A0991": {
"tightened": [
"C132_compute_exact"
],
"note": "survived the first run: no theorem spoke of the exceptions of ill-typed operations; the exact outcome of C132 was added"
},
"A0993": {
"tightened": [
"C87_tokens_exact"
],
"note": "survived the first run: no theorem spoke of misplaced operators; C87_tokens_exact was added"
},
"A1001": {
"tightened": [],
"note": "equivalent edit: discover_min compares vertices already discovered, whose times are equal only if they are the same vertex"
},
"B0293": {
"tightened": [
"C90_lines_exact",
"C90_line_ends"
],
"note": "survived the first run: no theorem spoke of carriage returns; C90_lines_exact and C90_line_ends were added"
},
"B0295": {
"tightened": [
"C90_lines_exact",
"C90_line_ends"
],
"note": "survived the first run: no theorem spoke of carriage returns; C90_lines_exact and C90_line_ends were added"
},
"A1003": {
"tightened": [],
"note": "equivalent edit: in this branch u and v are equal"
},
"A1004": {
"tightened": [],
"note": "no claim is false of this edit: u is always on the stack when its loop starts (C25 proves that strong_components never raises), the branch is not reached"
},
"A1026": {
"tightened": [],
"note": "no claim is false of this edit: the position i never exceeds the number n of arcs (the searches are proved to return), the branch is not reached"
},
"A1031": {
"tightened": [
"C144_sub_exact"
],
"note": "The relevance of the ends of an edge is tested again when edges are listed, so that a - b alone shows the same edges; (a - b) | c does not: C144_sub_exact now says which edges it shows."
},
"A1032": {
"tightened": [
"C144_sub_exact"
],
"note": "The relevance of the ends of an edge is tested again when edges are listed, so that a - b alone shows the same edges; (a - b) | c does not: C144_sub_exact now says which edges it shows."
},
"A1050": {
"tightened": [],
"note": "No behaviour changes: every state created by make_automaton is the index of a name, the branch is never taken."
},
"A1060": {
"tightened": [],
"note": "No behaviour changes: every state created by make_automaton is the index of a name, the branch is never taken."
},
"B0361": {
"tightened": [
"C82_default_alphabet"
],
"note": "The theorems on regular expressions are stated for the default alphabet without saying what it is: C82_default_alphabet now says it."
},
"A1065": {
"tightened": [
"C02_distinguisher_exact",
"C07_distinguisher_exact",
"C08_distinguisher_exact"
],
"note": "The theorems only said that the number of a new edge is not in use: they now say which number it is (the branch is reached in an UndirectedGraph after the removal of an edge from its greatest end)."
},
"B0476": {
"tightened": [],
"note": "equivalent edit: the search with the default visitor raises no exception, whatever its sources, so that this branch is not reached"
},
"B0492": {
"tightened": [
"C132_compute_exact"
],
"note": "survived on an earlier version of the model; since the exact outcome of every computation is stated, the same edit of the unary operators fails in eval_outcome"
},
"B0493": {
"tightened": [
"C132_compute_exact"
],
"note": "survived on an earlier version of the model; since the exact outcome of every computation is stated, the same edit fails in eval_outcome"
},
"D0064": {
"tightened": [],
"note": "unreachable: once the attributes are exchanged, in_adjacencies[q] was deleted by the first part of remove_vertex, so that the second loop runs over no edge (every state of an automaton has an entry in in_adjacencies)"
},
"D0065": {
"tightened": [],
"note": "unreachable: once the attributes are exchanged, in_adjacencies[q] was deleted by the first part of remove_vertex, so that the second loop runs over no edge (every state of an automaton has an entry in in_adjacencies)"
},
"D0066": {
"tightened": [],
"note": "unreachable: once the attributes are exchanged, in_adjacencies[q] was deleted by the first part of remove_vertex, so that the second loop runs over no edge (every state of an automaton has an entry in in_adjacencies)"
},
"D0067": {
"tightened": [],
"note": "unreachable: once the attributes are exchanged, in_adjacencies[q] was deleted by the first part of remove_vertex, so that the second loop runs over no edge (every state of an automaton has an entry in in_adjacencies)"
},
"D0068": {
"tightened": [],
"note": "unreachable: once the attributes are exchanged, in_adjacencies[q] was deleted by the first part of remove_vertex, so that the second loop runs over no edge (every state of an automaton has an entry in in_adjacencies)"
},
"D0069": {
"tightened": [],
"note": "unreachable: once the attributes are exchanged, in_adjacencies[q] was deleted by the first part of remove_vertex, so that the second loop runs over no edge (every state of an automaton has an entry in in_adjacencies)"
},
"D0070": {
"tightened": [],
"note": "unreachable: once the attributes are exchanged, in_adjacencies[q] was deleted by the first part of remove_vertex, so that the second loop runs over no edge (every state of an automaton has an entry in in_adjacencies)"
},
"D0076": {
"tightened": [
"C143_twice"
],
"note": "the theorems only spoke of an UndirectedGraph reversed once; C143_twice was added and fails on this edit"
},
"D0077": {
"tightened": [
"C143_twice"
],
"note": "the theorems only spoke of an UndirectedGraph reversed once; C143_twice was added and fails on this edit"
},
"D0131": {
"tightened": [],
"note": "unreachable: with MAP_OPERATORS_ALG an operator of two operands is one of + - / * ^, each of which has its own case before"
},
"D0132": {
"tightened": [],
"note": "unreachable: with MAP_OPERATORS_ALG u- has one operand, and this case is that of two operands"
},
"D0180": {
"tightened": [
"PyBGL.C150_bfs_single"
],
"note": "an exception raised by initialize_vertex is lost; the theorem now says what breadth_first_search does with any visitor, exceptions included"
},
"D0206": {
"tightened": [
"C15_no_state"
],
"note": "survived the first run: no theorem spoke of an empty trie; C15_no_state was added"
},
"E0011": {
"tightened": [],
"note": "unreachable: minOf is only applied to lists that are not empty"
},
"E0068": {
"tightened": [],
"note": "unreachable: the visitors of the products do not raise on the initial pair"
},
"E0095": {
"tightened": [],
"note": "the exception for a reference to an object that does not exist, which no program of the theorems holds: no claim changes"
},
"E0096": {
"tightened": [],
"note": "the exception for a reference to an object that does not exist, which no program of the theorems holds: no claim changes"
},
"E0098": {
"tightened": [],
"note": "the exception for a reference to an object that does not exist, which no program of the theorems holds: no claim changes"
},
"E0110": {
"tightened": [],
"note": "the exception for a reference to an object that does not exist, which no program of the theorems holds: no claim changes"
},
"F0066": {
"tightened": [],
"note": "The case does not occur: both positions are below the length of the list. No claim changes."
},
"F0099": {
"tightened": [],
"note": "The case does not occur: the index is below the number of edges pushed. No claim changes."
},
"F0138": {
"tightened": [],
"note": "The case does not occur: the references of both automata are those of objects that exist. No claim changes."
},
"G0004": {
"tightened": [],
"note": "The case does not occur: no round of the search ends with Step.fail, every exception is carried by .done (.error _). No claim changes."
},
"G0019": {
"tightened": [],
"note": "Equivalent edit: the counter of rounds is not read by the rounds of this search. No claim changes."
}
}