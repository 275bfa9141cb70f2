import Verif.Model.MakeINode
import Verif.Props.C88_C89_NodeAutomaton

/-!
# C124: `make_incidence_node_automaton`
-/

namespace PyBGL
open Automaton

variable {A N : Type} [DecidableEq A] [DecidableEq N]

omit [DecidableEq N] in
theorem makeINodes_n (ofInt : Nat → N) (vlabel : N → Option A) (vfinal : N → Bool) : ∀ (names : List N) (g : INodeAutomaton A), g.SafeHistory →
    (names.foldl (makeINode ofInt vlabel vfinal) g).SafeHistory ∧
    (names.foldl (makeINode ofInt vlabel vfinal) g).n = names.foldl (makeNode ofInt vlabel vfinal) g.n
  | [], g, h => ⟨h, rfl⟩
  | n :: names, g, h => by
    simp only [List.foldl_cons]
    have h1 : (g.addVertex (vlabel n)).2.SafeHistory := .step h (op := .addVertex (vlabel n)) trivial rfl
    have h2 : (makeINode ofInt vlabel vfinal g n).SafeHistory := by
      unfold makeINode
      simp only
      split
      · exact .step h1 (op := .setFinal (g.addVertex (vlabel n)).1 true) trivial rfl
      · exact h1
    have h3 : (makeINode ofInt vlabel vfinal g n).n = makeNode ofInt vlabel vfinal g.n n := by
      unfold makeINode makeNode INodeAutomaton.addVertex
      simp only
      split <;> rfl
    rw [← h3]
    exact makeINodes_n ofInt vlabel vfinal names _ h2

theorem INodeAutomaton.addEdge_n (g : INodeAutomaton A) (q r : Nat) :
    (g.addEdge q r).map (fun x => (x.1, x.2.1, x.2.2.n)) = g.n.addEdge q r := by
  unfold INodeAutomaton.addEdge
  cases h : g.n.addEdge q r with
  | error e => rfl
  | ok x =>
    obtain ⟨e, b, n⟩ := x
    simp only [bind, Except.bind]
    cases b <;> rfl

theorem NodeAutomaton.vertices_addEdge {g g' : NodeAutomaton A} {q r : Nat} {e : Option (EdgeDesc (Option A))} {b : Bool}
    (h : g.addEdge q r = .ok (e, b, g')) : g'.vertices = g.vertices := by
  unfold NodeAutomaton.addEdge at h
  cases hq : g.a.adj.get? q with
  | none => simp [Dict.getE, hq, bind, Except.bind] at h
  | some d =>
    simp only [Dict.getE, hq, bind, Except.bind] at h
    split at h
    · cases h; rfl
    · cases h
      exact Dict.keys_set_of_mem _ _ _ ((Dict.mem_keys_iff _ _).mpr ⟨_, hq⟩)

theorem makeINodeEdges_n (names : List N) : ∀ (ts : List (N × N)) (g : INodeAutomaton A), g.SafeHistory →
    (∀ i < names.length, i ∈ g.n.vertices) →
    (ts.foldlM (makeINodeEdge names) g).map (·.n) = ts.foldlM (makeNodeEdge names) g.n ∧
    ∀ g', ts.foldlM (makeINodeEdge names) g = .ok g' → g'.SafeHistory
  | [], g, h, hv => ⟨rfl, fun g' e => by cases e; exact h⟩
  | t :: ts, g, h, hv => by
    simp only [List.foldlM_cons]
    unfold makeINodeEdge makeNodeEdge nameIndex
    by_cases h1 : t.1 ∈ names
    · by_cases h2 : t.2 ∈ names
      · simp only [if_pos h1, if_pos h2, bind, Except.bind]
        have hn := INodeAutomaton.addEdge_n g (names.idxOf t.1) (names.idxOf t.2)
        rw [← hn]
        cases hx : g.addEdge (names.idxOf t.1) (names.idxOf t.2) with
        | error e => exact ⟨rfl, fun g' e => by cases e⟩
        | ok x =>
          obtain ⟨e, b, g1⟩ := x
          rw [hx] at hn
          refine makeINodeEdges_n names ts g1 ?_ ?_
          · refine .step h (op := .addEdge (names.idxOf t.1) (names.idxOf t.2)) (hv _ (List.idxOf_lt_length_of_mem h2)) ?_
            simp [INodeAutomaton.exec, hx, Except.map]
          · rw [NodeAutomaton.vertices_addEdge hn.symm]
            exact hv
      · simp only [if_pos h1, if_neg h2, bind, Except.bind]
        exact ⟨rfl, fun g' e => by cases e⟩
    · simp only [if_neg h1, bind, Except.bind]
      exact ⟨rfl, fun g' e => by cases e⟩

theorem makeINode_spec (le : N → N → Bool) (ofInt : Nat → N) (ts : List (N × N)) (vlabel : Option (N → Option A)) (q0n : N) (vfinal : N → Bool) :
    (makeINodeAutomaton le ofInt ts vlabel q0n vfinal).map (·.n) = makeNodeAutomaton le ofInt ts vlabel q0n vfinal ∧
    ∀ g, makeINodeAutomaton le ofInt ts vlabel q0n vfinal = .ok g → g.SafeHistory := by
  have key : ∀ (g : INodeAutomaton A) (g0 : NodeAutomaton A), g.n = g0 → g.SafeHistory → (∀ i < (nodeNames le ts).length, i ∈ g.n.vertices) →
      ∀ R : Except PyErr (INodeAutomaton A), R = (ts.foldlM (makeINodeEdge (nodeNames le ts)) g >>= fun g =>
        if g.n.vertices = [] then .ok g else do
          let q0 ← nameIndex (nodeNames le ts) q0n
          .ok ⟨⟨g.n.a.setInitial q0, g.n.symbols⟩, g.pred⟩) →
      R.map (·.n) = (ts.foldlM (makeNodeEdge (nodeNames le ts)) g0 >>= fun g =>
        if g.vertices = [] then .ok g else do
          let q0 ← nameIndex (nodeNames le ts) q0n
          .ok ⟨g.a.setInitial q0, g.symbols⟩) ∧ ∀ g', R = .ok g' → g'.SafeHistory := by
    rintro g _ rfl hg hv R rfl
    obtain ⟨h1, h2⟩ := makeINodeEdges_n (nodeNames le ts) ts g hg hv
    rw [← h1]
    cases hx : ts.foldlM (makeINodeEdge (nodeNames le ts)) g with
    | error e => exact ⟨rfl, fun g' e => by cases e⟩
    | ok g1 =>
      have hs := h2 _ hx
      simp only [bind, Except.bind, Except.map]
      by_cases hn : g1.n.vertices = []
      · simp only [if_pos hn]
        exact ⟨trivial, fun g' e => by cases e; exact hs⟩
      · simp only [if_neg hn]
        cases hi : nameIndex (nodeNames le ts) q0n with
        | error e => exact ⟨rfl, fun g' e => by cases e⟩
        | ok q0 => exact ⟨rfl, fun g' e => by cases e; exact .step hs (op := .setInitial q0 true) trivial rfl⟩
  cases vlabel with
  | none =>
    by_cases hn : nodeNames le ts = []
    · refine key .empty .empty rfl .new (by simp [hn]) _ ?_ |>.imp (fun h => ?_) id
      · unfold makeINodeAutomaton; simp only [hn, if_true]; rfl
      · rw [h]; unfold makeNodeAutomaton; simp only [hn, if_true]; rfl
    · unfold makeINodeAutomaton makeNodeAutomaton
      simp only [if_neg hn]
      exact ⟨rfl, fun g' e => by cases e⟩
  | some vlabel =>
    obtain ⟨h1, h2⟩ := makeINodes_n ofInt vlabel vfinal (nodeNames le ts) .empty .new
    refine key _ ((nodeNames le ts).foldl (makeNode ofInt vlabel vfinal) .empty) h2 h1 ?_ _ rfl
    rw [h2]
    show ∀ i < _, i ∈ NodeAutomaton.vertices (List.foldl (makeNode ofInt vlabel vfinal) NodeAutomaton.empty _)
    rw [(makeNodes_spec ofInt vlabel vfinal (nodeNames le ts)).2.1]
    simp

/-- **C124** (same automaton). `make_incidence_node_automaton` builds the automaton that `make_node_automaton` builds, and raises the same errors. -/
theorem C124_same (le : N → N → Bool) (ofInt : Nat → N) (ts : List (N × N)) (vlabel : Option (N → Option A)) (q0n : N) (vfinal : N → Bool) :
    (∀ n, makeNodeAutomaton le ofInt ts vlabel q0n vfinal = .ok n ↔ ∃ g, makeINodeAutomaton le ofInt ts vlabel q0n vfinal = .ok g ∧ g.n = n) ∧
    ∀ e, makeNodeAutomaton le ofInt ts vlabel q0n vfinal = .error e ↔ makeINodeAutomaton le ofInt ts vlabel q0n vfinal = .error e := by
  rw [← (makeINode_spec le ofInt ts vlabel q0n vfinal).1]
  cases makeINodeAutomaton le ofInt ts vlabel q0n vfinal with
  | error e => simp [Except.map]
  | ok g => simp [Except.map]

/-- **C124** (incoming edges). In the automaton made by `make_incidence_node_automaton`, whatever the transitions, `in_edges(r)` gives exactly the edges to `r`, once each. -/
theorem C124_in_edges {le : N → N → Bool} {ofInt : Nat → N} {ts : List (N × N)} {vlabel : Option (N → Option A)} {q0n : N} {vfinal : N → Bool}
    {g : INodeAutomaton A} (h : makeINodeAutomaton le ofInt ts vlabel q0n vfinal = .ok g) (r : Nat) :
    (g.inEdges r).Nodup ∧ ∀ e, e ∈ g.inEdges r ↔ e ∈ g.n.edges ∧ e.target = r :=
  C22_in_edges_partial ((makeINode_spec le ofInt ts vlabel q0n vfinal).2 g h) r

/-- **C124** (the words accepted), for integer names from `0`: the words spelled along a path from the initial name to a final name. -/
theorem C124_language (n : Nat) (ts : List (Nat × Nat)) (vlabel : Nat → Option A) (q0n : Nat)
    (vfinal : Nat → Bool) (hdet : ∀ t ∈ ts, ∀ t' ∈ ts, t.1 = t'.1 → vlabel t.2 = vlabel t'.2 → t.2 = t'.2)
    (h0 : q0n < n) (hn : ∀ m, m < n ↔ ∃ t ∈ ts, t.1 = m ∨ t.2 = m) :
    ∃ g, makeINodeAutomaton (fun a b => decide (a ≤ b)) id ts (some vlabel) q0n vfinal = .ok g ∧
      g.n.vertices = List.range n ∧
      ∀ w, ∃ b, g.n.accepts w = .ok b ∧ (b = true ↔ ∃ f, LPath (NamedStep ts vlabel) q0n w f ∧ vfinal f = true) := by
  obtain ⟨m, h1, h2⟩ := C88_make_node_automaton_range n ts vlabel q0n vfinal hdet h0 hn
  obtain ⟨g, h3, rfl⟩ := ((C124_same _ _ ts _ q0n vfinal).1 m).1 h1
  exact ⟨g, h3, h2⟩

/-- Three names, two edges to `1` from different names, and one given twice. -/
example : ∃ g, makeINodeAutomaton (fun a b => decide (a ≤ b)) id exNamed (some fun n => ['a', 'b', 'c'][n]?) 0 (fun n => n = 1) = .ok g ∧
    g.inEdges 1 = [⟨0, 1, some 'b'⟩, ⟨2, 1, some 'b'⟩] ∧ g.n.accepts ['b', 'c', 'b'] = .ok true := by
  have hn : nodeNames (fun a b => decide (a ≤ b)) exNamed = [0, 1, 2] := by
    apply nodeNames_unique
    · intro a b; simp; omega
    · intro a b c; simp; omega
    · intro a b; simp; omega
    · decide
    · intro m
      constructor
      · intro h
        have : m = 0 ∨ m = 1 ∨ m = 2 := by simpa using h
        rcases this with rfl | rfl | rfl <;> decide
      · rintro ⟨t, ht, h⟩
        simp only [exNamed, List.mem_cons, List.not_mem_nil, or_false] at ht
        rcases ht with rfl | rfl | rfl | rfl <;> simp at h <;> simp <;> omega
  unfold makeINodeAutomaton
  simp only [hn]
  refine ⟨_, rfl, ?_, ?_⟩ <;> decide

end PyBGL
