import Verif.Proofs.MakeNodeAutomaton
import Verif.Props.C21_C22_NodeAutomaton

/-!
# C88, C89: `make_node_automaton`, words accepted by a node automaton
-/

namespace PyBGL
open Automaton
variable {A N : Type} [DecidableEq A] [DecidableEq N]

/-! ## C89: what a node automaton accepts -/

/-- The transitions of a node automaton as a user sees them: an edge from `q` to `r`, where `r` carries `a`. -/
def NodeAutomaton.Step (g : NodeAutomaton A) (q : Nat) (a : A) (r : Nat) : Prop :=
  (∃ e ∈ g.edges, e.source = q ∧ e.target = r) ∧ g.symbol r = some a

theorem NodeAutomaton.step_iff {g : NodeAutomaton A} (hw : NodeAutomaton.WF g) (q : Nat) (a : A) (r : Nat) :
    g.Step q a r ↔ g.a.Trans q (some a) r := by
  rw [trans_iff hw.out]
  constructor
  · rintro ⟨⟨e, he, rfl, rfl⟩, hs⟩
    have := (trans_iff hw.out (q := e.source) (a := e.distinguisher) (r := e.target)).1 he
    rw [hw.label _ _ _ this, hs] at this
    exact this
  · intro h
    exact ⟨⟨⟨q, r, some a⟩, (trans_iff hw.out).2 h, rfl, rfl⟩, (hw.label _ _ _ h).symm⟩

theorem NodeAutomaton.accepts_spec {g : NodeAutomaton A} (hw : NodeAutomaton.WF g) {q0 : Nat} (hi : g.a.initial = some q0)
    (h0 : q0 ∈ g.vertices) (w : List A) :
    ∃ b, g.accepts w = .ok b ∧ (b = true ↔ ∃ f, LPath g.Step q0 w f ∧ g.a.isFinal f = true) := by
  have hp : ∀ (w : List A) (q f : Nat), LPath g.Step q w f ↔ LPath g.a.Trans q (w.map some) f := by
    intro w
    induction w with
    | nil => intro q f; simp [LPath.nil_iff]
    | cons a w ih =>
      intro q f
      rw [List.map_cons, LPath.cons_iff, LPath.cons_iff]
      simp only [NodeAutomaton.step_iff hw, ih]
  simp only [NodeAutomaton.accepts, hi, NodeAutomaton.deltaWord_spec hw.closed w q0 h0, bind, Except.bind, hp]
  cases hd : g.a.deltaWord (some q0) (w.map some) with
  | none =>
    refine ⟨false, rfl, by simp, ?_⟩
    rintro ⟨f, hf, _⟩
    rw [← deltaWord_iff hw.out, hd] at hf
    cases hf
  | some r =>
    refine ⟨g.a.isFinal r, rfl, fun h => ⟨r, (deltaWord_iff hw.out).1 hd, h⟩, ?_⟩
    rintro ⟨f, hf, h⟩
    rw [← deltaWord_iff hw.out, hd] at hf
    injection hf with hf
    rw [hf]; exact h

/-- **C89, full statement**: `accepts` answers on every automaton and every word, and says whether a path of edges
leads from the initial state to a final state through states carrying the letters of the word. -/
def C89_statement (A : Type) [DecidableEq A] : Prop :=
  ∀ g : NodeAutomaton A, g.Reachable → ∀ w, ∃ b, g.accepts w = .ok b ∧
    (b = true ↔ ∃ q0 f, g.a.initial = some q0 ∧ LPath g.Step q0 w f ∧ g.a.isFinal f = true)

/-- **C89 is false of the code**: `NodeAutomaton().accepts("a")` raises `KeyError`. -/
theorem C89_accepts_counterexample : ¬ C89_statement Char := by
  intro h
  obtain ⟨b, hb, _⟩ := h .empty ⟨[], rfl⟩ ['a']
  cases hb

/-- **C89, partial** (missing: automata whose initial state is not one of their states, and histories that add an edge
towards a state that does not exist yet): `accepts` answers, and accepts exactly the words spelled by the
symbols of the states met along a path of edges from the initial state to a final state. -/
theorem C89_accepts_partial {g : NodeAutomaton A} (h : g.SafeHistory) {q0 : Nat} (hi : g.a.initial = some q0)
    (h0 : q0 ∈ g.vertices) (w : List A) :
    ∃ b, g.accepts w = .ok b ∧ (b = true ↔ ∃ f, LPath g.Step q0 w f ∧ g.a.isFinal f = true) :=
  NodeAutomaton.accepts_spec h.wf hi h0 w

/-- **C89**: when the initial state is not a state of the automaton, every non-empty word raises `KeyError`. -/
theorem C89_accepts_unknown_initial (g : NodeAutomaton A) {q0 : Nat} (hi : g.a.initial = some q0) (h0 : q0 ∉ g.vertices)
    (a : A) (w : List A) : g.accepts (a :: w) = .error .keyError := by
  simp [NodeAutomaton.accepts, hi, NodeAutomaton.deltaWord, NodeAutomaton.delta_of_not_mem h0, bind, Except.bind]

/-- **C89** (`edge`), partial for the same reason: `edge(q, r)` finds the edge from `q` to `r` if there is one. -/
theorem C89_edge_partial {g : NodeAutomaton A} (h : g.SafeHistory) (q r : Nat) :
    (∀ e ∈ g.edges, e.source = q → e.target = r → g.edge q r = (some e, true)) ∧
    ((¬ ∃ e ∈ g.edges, e.source = q ∧ e.target = r) → g.edge q r = (none, false)) := by
  have hw := h.wf
  have hmem : ∀ a s, (a, s) ∈ g.a.adj.getD q [] ↔ g.a.delta q a = some s := by
    intro a s
    have := mem_outEdges hw.out (q := q) (e := ⟨q, s, a⟩)
    simp only [true_and] at this
    rw [← this]
    unfold Automaton.outEdges
    simp
  unfold NodeAutomaton.edge
  constructor
  · rintro ⟨q', r', a⟩ he rfl rfl
    have hd : g.a.delta q' a = some r' := (trans_iff hw.out).1 he
    cases hf : (g.a.adj.getD q' []).find? (fun p => decide (p.2 = r')) with
    | none =>
      have := List.find?_eq_none.1 hf _ ((hmem a r').2 hd)
      simp at this
    | some p =>
      obtain ⟨a', s⟩ := p
      have hp := List.find?_some hf
      have hm := (hmem _ _).1 (List.mem_of_find?_eq_some hf)
      simp only [decide_eq_true_eq] at hp
      subst hp
      rw [hw.label _ _ _ hm, hw.label _ _ _ hd]
  · intro hno
    cases hf : (g.a.adj.getD q []).find? (fun p => decide (p.2 = r)) with
    | none => rfl
    | some p =>
      obtain ⟨a', s⟩ := p
      have hp := List.find?_some hf
      have hm := (hmem _ _).1 (List.mem_of_find?_eq_some hf)
      simp only [decide_eq_true_eq] at hp
      subst hp
      exact absurd ⟨⟨q, s, a'⟩, (trans_iff hw.out).2 hm, rfl, rfl⟩ hno

/-- **C89** (`sigma`), partial for the same reason: `sigma(q)` is the set of the symbols that can be read in `q`. -/
theorem C89_sigma_partial {g : NodeAutomaton A} (h : g.SafeHistory) (q : Nat) :
    (g.sigma q).Nodup ∧ ∀ a, a ∈ g.sigma q ↔ ∃ e ∈ g.edges, e.source = q ∧ g.symbol e.target = a := by
  have hw := h.wf
  refine ⟨nodup_mkSet _, fun a => ?_⟩
  unfold NodeAutomaton.sigma
  rw [mem_mkSet]
  have hmem : ∀ a s, (a, s) ∈ g.a.adj.getD q [] ↔ g.a.delta q a = some s := by
    intro a s
    have := mem_outEdges hw.out (q := q) (e := ⟨q, s, a⟩)
    simp only [true_and] at this
    rw [← this]
    unfold Automaton.outEdges
    simp
  unfold Dict.keys
  rw [List.mem_map]
  constructor
  · rintro ⟨⟨a', s⟩, hm, rfl⟩
    have hd := (hmem _ _).1 hm
    exact ⟨⟨q, s, a'⟩, (trans_iff hw.out).2 hd, rfl, (hw.label _ _ _ hd).symm⟩
  · rintro ⟨e, he, rfl, rfl⟩
    have hd : g.a.delta e.source e.distinguisher = some e.target := (trans_iff hw.out).1 he
    exact ⟨(e.distinguisher, e.target), (hmem _ _).2 hd, hw.label _ _ _ hd⟩

theorem NodeAutomaton.SafeHistory.addEdge {g g' : NodeAutomaton A} (h : g.SafeHistory) (q r : Nat)
    (hr : decide (r ∈ g.vertices) = true) (he : g.exec (.addEdge q r) = .ok g') : g'.SafeHistory :=
  .step h (op := .addEdge q r) (show r ∈ g.vertices from of_decide_eq_true hr) he

/-- **C89, full statement** (`alphabet`): the alphabet is the set of the labels of the edges. -/
def C89_alphabet_statement (A : Type) [DecidableEq A] : Prop :=
  ∀ g : NodeAutomaton A, g.SafeHistory → ∀ a, a ∈ g.alphabet ↔ ∃ e ∈ g.edges, g.label e = a

/-- **C89 is false of the code** for `alphabet`: the symbol of the initial state is left out even if an edge enters it. -/
theorem C89_alphabet_counterexample : ¬ C89_alphabet_statement Char := by
  intro h
  have h1 : NodeAutomaton.SafeHistory (A := Char) ⟨⟨1, [(0, [(some 'a', 0)])], some 0, []⟩, [(0, 'a')]⟩ :=
    .addEdge (.step (op := .addVertex (some 'a')) .new trivial rfl) 0 0 rfl rfl
  have := (h _ h1 (some 'a')).2 ⟨⟨0, 0, some 'a'⟩, by decide, by decide⟩
  exact absurd this (by decide)

/-- **C89** (`alphabet`), partial: when no edge enters the initial state and some edge enters every other state, the
alphabet is the set of the labels of the edges. -/
theorem C89_alphabet_partial {g : NodeAutomaton A} (h : g.SafeHistory)
    (hi : ∀ e ∈ g.edges, g.a.isInitial e.target = false)
    (hin : ∀ q ∈ g.vertices, g.a.isInitial q = false → ∃ e ∈ g.edges, e.target = q) :
    g.alphabet.Nodup ∧ ∀ a, a ∈ g.alphabet ↔ ∃ e ∈ g.edges, g.label e = a := by
  have hw := h.wf
  refine ⟨nodup_mkSet _, fun a => ?_⟩
  unfold NodeAutomaton.alphabet
  rw [mem_mkSet, List.mem_map]
  simp only [List.mem_filter, Bool.not_eq_true']
  constructor
  · rintro ⟨q, ⟨hq, hqi⟩, rfl⟩
    obtain ⟨e, he, rfl⟩ := hin q hq hqi
    exact ⟨e, he, rfl⟩
  · rintro ⟨e, he, rfl⟩
    refine ⟨e.target, ⟨?_, hi e he⟩, rfl⟩
    exact hw.closed _ _ _ ((trans_iff hw.out (q := e.source) (a := e.distinguisher)).1 he)

/-- Witness of C89: `^ → a → b`, with a loop on `b`. -/
def exNode : NodeAutomaton Char :=
  ⟨⟨3, [(0, [(some 'a', 1)]), (1, [(some 'b', 2)]), (2, [(some 'b', 2)])], some 0, [(2, true)]⟩, [(1, 'a'), (2, 'b')]⟩

theorem exNode_safe : exNode.SafeHistory :=
  .step (op := .setFinal 2 true) (.addEdge (.addEdge (.addEdge
    (.step (op := .addVertex (some 'b')) (.step (op := .addVertex (some 'a')) (.step (op := .addVertex none) .new
      trivial rfl) trivial rfl) trivial rfl) 0 1 rfl rfl) 1 2 rfl rfl) 2 2 rfl rfl) trivial rfl

example : exNode.a.initial = some 0 ∧ 0 ∈ exNode.vertices ∧ exNode.accepts ['a', 'b', 'b'] = .ok true ∧
    exNode.accepts ['a'] = .ok false ∧ exNode.edge 1 2 = (some ⟨1, 2, some 'b'⟩, true) ∧
    (∀ e ∈ exNode.edges, exNode.a.isInitial e.target = false) ∧
    (∀ q ∈ exNode.vertices, exNode.a.isInitial q = false → ∃ e ∈ exNode.edges, e.target = q) := by
  refine ⟨rfl, by decide, rfl, rfl, by decide, by decide, by decide⟩

/-! ## C88: `make_node_automaton` -/

/-- The transitions given to `make_node_automaton`: `r` is reached from `q` by reading the label of `r`. -/
def NamedStep (ts : List (N × N)) (vlabel : N → Option A) (q : N) (a : A) (r : N) : Prop :=
  (q, r) ∈ ts ∧ vlabel r = some a

/-- **C88, full statement**, for integer names: `make_node_automaton` returns an automaton accepting the words spelled
along a path from the initial name to a final name. -/
def C88_statement : Prop :=
  ∀ (ts : List (Nat × Nat)) (vlabel : Nat → Option Char) (q0n : Nat) (vfinal : Nat → Bool),
    (∀ t ∈ ts, ∀ t' ∈ ts, t.1 = t'.1 → vlabel t.2 = vlabel t'.2 → t.2 = t'.2) →
    (∃ t ∈ ts, t.1 = q0n ∨ t.2 = q0n) →
    ∃ g, makeNodeAutomaton (fun a b => decide (a ≤ b)) id ts (some vlabel) q0n vfinal = .ok g ∧
      ∀ w, g.accepts w = .ok true ↔ ∃ f, LPath (NamedStep ts vlabel) q0n w f ∧ vfinal f = true

/-- **C88, partial** (the final names are read at the position of the name, see the counterexample): for every
transition list mentioning `q0n` in which the transitions leaving a name are told apart by the labels of their
targets, `make_node_automaton` returns an automaton on which `accepts` always answers, and which accepts the words
spelled along a path from `q0n` to the name whose *position in the sorted list of names* is declared final. -/
theorem C88_make_node_automaton_partial {le : N → N → Bool} (htot : ∀ a b, le a b || le b a)
    (htr : ∀ a b c, le a b → le b c → le a c) (has : ∀ a b, le a b → le b a → a = b) (ofInt : Nat → N)
    (ts : List (N × N)) (vlabel : N → Option A) (q0n : N) (vfinal : N → Bool)
    (hdet : ∀ t ∈ ts, ∀ t' ∈ ts, t.1 = t'.1 → vlabel t.2 = vlabel t'.2 → t.2 = t'.2)
    (h0 : ∃ t ∈ ts, t.1 = q0n ∨ t.2 = q0n)
    {names : List N} (hs : names.Pairwise fun a b => le a b ∧ a ≠ b)
    (hm : ∀ n, n ∈ names ↔ ∃ t ∈ ts, t.1 = n ∨ t.2 = n) :
    ∃ g, makeNodeAutomaton le ofInt ts (some vlabel) q0n vfinal = .ok g ∧
      g.vertices = List.range names.length ∧
      ∀ w, ∃ b, g.accepts w = .ok b ∧ (b = true ↔
        ∃ f i, LPath (NamedStep ts vlabel) q0n w f ∧ names[i]? = some f ∧ vfinal (ofInt i) = true) := by
  have hN := nodeNames_unique htot htr has hs hm
  have hnd : names.Nodup := hs.imp fun h => h.2
  have hin : ∀ t ∈ ts, t.1 ∈ names ∧ t.2 ∈ names := fun t ht =>
    ⟨(hm _).2 ⟨t, ht, .inl rfl⟩, (hm _).2 ⟨t, ht, .inr rfl⟩⟩
  have hq0 : q0n ∈ names := (hm _).2 h0
  obtain ⟨h1, h2, h3, h4, h5, h6⟩ := makeNodes_spec ofInt vlabel vfinal names
  obtain ⟨g1, k1, k2, k3, k4, k5, k6⟩ := makeNodeEdges_spec (vlabel := vlabel) hnd ts [] (by simpa using hin)
    (by simpa using hdet) _ h1 h2 h5 (by simp [h4])
  simp only [List.nil_append] at k6
  have hlt0 := List.idxOf_lt_length_of_mem hq0
  have hne : g1.vertices ≠ [] := by
    rw [k3]; intro h; rw [List.range_eq_nil] at h; omega
  have hsym : ∀ n ∈ names, g1.symbol (names.idxOf n) = vlabel n := by
    intro n hn
    rw [NodeAutomaton.symbol, k4]
    apply h5
    rw [List.getElem?_eq_getElem (List.idxOf_lt_length_of_mem hn), List.getElem_idxOf]
  refine ⟨⟨g1.a.setInitial (names.idxOf q0n), g1.symbols⟩, ?_, k3, fun w => ?_⟩
  · unfold makeNodeAutomaton
    simp only [hN, k1, bind, Except.bind, if_neg hne, nameIndex_mem hq0]
  · have hw : NodeAutomaton.WF ⟨g1.a.setInitial (names.idxOf q0n), g1.symbols⟩ :=
      ⟨⟨k2.out.outer, k2.out.inner, k2.out.lt⟩, k2.label, k2.closed, k2.symLt⟩
    obtain ⟨b, hb, hb'⟩ := NodeAutomaton.accepts_spec (q0 := names.idxOf q0n) hw rfl
      (by show _ ∈ g1.vertices; rw [k3, List.mem_range]; exact hlt0) w
    refine ⟨b, hb, hb'.trans ?_⟩
    have hfin : ∀ i, g1.a.isFinal i = true ↔ i < names.length ∧ vfinal (ofInt i) = true := by
      intro i
      rw [← h6]; unfold isFinal; rw [k5]
    have hstep : ∀ q a r, NodeAutomaton.Step ⟨g1.a.setInitial (names.idxOf q0n), g1.symbols⟩ q a r ↔
        ∃ t ∈ ts, names.idxOf t.1 = q ∧ vlabel t.2 = some a ∧ names.idxOf t.2 = r := by
      intro q a r
      rw [NodeAutomaton.step_iff hw, trans_iff hw.out, ← k6]
      rfl
    have hpath : ∀ (w : List A) (n : N) (r : Nat), n ∈ names →
        (LPath (NodeAutomaton.Step ⟨g1.a.setInitial (names.idxOf q0n), g1.symbols⟩) (names.idxOf n) w r ↔
        ∃ f ∈ names, r = names.idxOf f ∧ LPath (NamedStep ts vlabel) n w f) := by
      intro w
      induction w with
      | nil =>
        intro n r hn
        rw [LPath.nil_iff]
        constructor
        · rintro rfl; exact ⟨n, hn, rfl, .nil _⟩
        · rintro ⟨f, hf, rfl, hp⟩; cases hp; rfl
      | cons a w ih =>
        intro n r hn
        rw [LPath.cons_iff]
        constructor
        · rintro ⟨s, hs, hp⟩
          obtain ⟨t, ht, e1, e2, e3⟩ := (hstep _ _ _).1 hs
          subst e3
          obtain ⟨f, hf, hr, hp'⟩ := (ih _ _ (hin t ht).2).1 hp
          refine ⟨f, hf, hr, .cons ?_ hp'⟩
          have := (List.idxOf_inj (hin t ht).1).1 e1
          subst this
          exact ⟨ht, e2⟩
        · rintro ⟨f, hf, hr, hp⟩
          cases hp with
          | cons ht hp' =>
            rename_i m
            refine ⟨names.idxOf m, (hstep _ _ _).2 ⟨_, ht.1, rfl, ht.2, rfl⟩, ?_⟩
            exact (ih _ _ (hin _ ht.1).2).2 ⟨f, hf, hr, hp'⟩
    constructor
    · rintro ⟨i, hp, hf⟩
      obtain ⟨f, hf', rfl, hp'⟩ := (hpath w q0n i hq0).1 hp
      refine ⟨f, _, hp', ?_, ((hfin _).1 hf).2⟩
      rw [List.getElem?_eq_getElem (List.idxOf_lt_length_of_mem hf'), List.getElem_idxOf]
    · rintro ⟨f, i, hp, hi, hv⟩
      have hf : f ∈ names := List.mem_of_getElem? hi
      have hil : i < names.length := (List.getElem?_eq_some_iff.1 hi).1
      have hii : names.idxOf f = i := by
        have := (List.getElem?_eq_some_iff.1 hi).2
        rw [← this]
        exact hnd.idxOf_getElem i hil
      exact ⟨i, (hpath w q0n i hq0).2 ⟨f, hf, hii.symm, hp⟩, (hfin i).2 ⟨hil, hv⟩⟩

/-- **C88 is false of the code**: with the names 10 and 20, the name 20 being final, `pmap_vfinal` is read at 0 and 1,
and the automaton rejects the label of 20. -/
theorem C88_make_node_automaton_counterexample : ¬ C88_statement := by
  intro h
  have hdet : ∀ t ∈ [(10, 20)], ∀ t' ∈ [(10, 20)], t.1 = t'.1 → some 'a' = some 'a' → t.2 = t'.2 := by decide
  have h0 : ∃ t ∈ [(10, 20)], t.1 = 10 ∨ t.2 = 10 := by decide
  obtain ⟨g, h1, h2⟩ := h [(10, 20)] (fun _ => some 'a') 10 (fun n => n == 20) hdet h0
  obtain ⟨g', h3, _, h4⟩ := C88_make_node_automaton_partial (le := fun a b : Nat => decide (a ≤ b)) (A := Char)
    (by intro a b; simp; omega) (by intro a b c; simp; omega) (by intro a b; simp; omega) id
    [(10, 20)] (fun _ => some 'a') 10 (fun n => n == 20) hdet h0
    (names := [10, 20]) (by decide) (by
      intro n
      simp only [List.mem_cons, List.not_mem_nil, or_false]
      constructor
      · rintro (rfl | rfl)
        · exact ⟨_, rfl, .inl rfl⟩
        · exact ⟨_, rfl, .inr rfl⟩
      · rintro ⟨t, rfl, rfl | rfl⟩ <;> simp)
  rw [h1] at h3; cases h3
  obtain ⟨b, hb, hb'⟩ := h4 ['a']
  have hy := (h2 ['a']).2 ⟨20, .cons ⟨by decide, rfl⟩ (.nil _), rfl⟩
  rw [hb] at hy
  injection hy with hy
  obtain ⟨f, i, _, hi, hv⟩ := hb'.1 hy
  simp only [id, beq_iff_eq] at hv
  subst hv
  simp at hi

/-- **C88**: the documented behaviour, when the names are the integers `0, …, n - 1`. -/
theorem C88_make_node_automaton_range (n : Nat) (ts : List (Nat × Nat)) (vlabel : Nat → Option A) (q0n : Nat)
    (vfinal : Nat → Bool) (hdet : ∀ t ∈ ts, ∀ t' ∈ ts, t.1 = t'.1 → vlabel t.2 = vlabel t'.2 → t.2 = t'.2)
    (h0 : q0n < n) (hn : ∀ m, m < n ↔ ∃ t ∈ ts, t.1 = m ∨ t.2 = m) :
    ∃ g, makeNodeAutomaton (fun a b => decide (a ≤ b)) id ts (some vlabel) q0n vfinal = .ok g ∧
      g.vertices = List.range n ∧
      ∀ w, ∃ b, g.accepts w = .ok b ∧
        (b = true ↔ ∃ f, LPath (NamedStep ts vlabel) q0n w f ∧ vfinal f = true) := by
  obtain ⟨g, h1, h2, h3⟩ := C88_make_node_automaton_partial (le := fun a b : Nat => decide (a ≤ b))
    (by intro a b; simp; omega) (by intro a b c; simp; omega) (by intro a b; simp; omega) id ts vlabel q0n vfinal
    hdet ((hn _).1 h0) (names := List.range n)
    (List.pairwise_lt_range.imp fun h => ⟨by simp; omega, by omega⟩) (by intro m; rw [List.mem_range, hn])
  refine ⟨g, h1, by simpa using h2, fun w => ?_⟩
  obtain ⟨b, hb, hb'⟩ := h3 w
  refine ⟨b, hb, hb'.trans ?_⟩
  constructor
  · rintro ⟨f, i, hp, hi, hv⟩
    obtain ⟨hil, rfl⟩ := List.getElem?_eq_some_iff.1 hi
    simp only [List.getElem_range] at hp
    exact ⟨i, hp, hv⟩
  · rintro ⟨f, hp, hv⟩
    have hfn : f < n := by
      have : ∀ {q f : Nat} {w : List A}, q < n → LPath (NamedStep ts vlabel) q w f → f < n := by
        intro q f w hq hp
        induction hp with
        | nil => exact hq
        | cons h _ ih => exact ih ((hn _).2 ⟨_, h.1, .inr rfl⟩)
      exact this h0 hp
    exact ⟨f, f, hp, by simp [hfn], hv⟩

/-- **C88**: an unknown initial name raises `KeyError`; leaving out the labels raises `TypeError` (if there is a
transition); without transitions the automaton has no state. -/
theorem C88_make_node_automaton_degenerate {le : N → N → Bool} (ofInt : Nat → N) (ts : List (N × N)) (vlabel : N → Option A)
    (q0n : N) (vfinal : N → Bool)
    (hdet : ∀ t ∈ ts, ∀ t' ∈ ts, t.1 = t'.1 → vlabel t.2 = vlabel t'.2 → t.2 = t'.2) :
    (ts ≠ [] → makeNodeAutomaton (A := A) le ofInt ts none q0n vfinal = .error .typeError) ∧
    (ts ≠ [] → (¬ ∃ t ∈ ts, t.1 = q0n ∨ t.2 = q0n) →
      makeNodeAutomaton le ofInt ts (some vlabel) q0n vfinal = .error .keyError) ∧
    (ts = [] → ∃ g, makeNodeAutomaton le ofInt ts (some vlabel) q0n vfinal = .ok g ∧ g.vertices = []) := by
  have hm := mem_nodeNames le ts
  have hne : ts ≠ [] → nodeNames le ts ≠ [] := by
    intro h he
    obtain ⟨t, ht⟩ := List.exists_mem_of_ne_nil _ h
    have := (hm t.1).2 ⟨t, ht, .inl rfl⟩
    rw [he] at this; cases this
  refine ⟨fun h => ?_, fun h h0 => ?_, ?_⟩
  · unfold makeNodeAutomaton
    simp [hne h, bind, Except.bind]
  · obtain ⟨h1, h2, h3, h4, h5, h6⟩ := makeNodes_spec ofInt vlabel vfinal (nodeNames le ts)
    obtain ⟨g1, k1, k2, k3, k4, k5, k6⟩ := makeNodeEdges_spec (vlabel := vlabel) (nodup_nodeNames le ts) ts []
      (by intro t ht; simp only [List.nil_append] at ht
          exact ⟨(hm _).2 ⟨t, ht, .inl rfl⟩, (hm _).2 ⟨t, ht, .inr rfl⟩⟩)
      (by simpa using hdet) _ h1 h2 h5 (by simp [h4])
    have hq : q0n ∉ nodeNames le ts := fun hq => h0 ((hm _).1 hq)
    have hidx : nameIndex (nodeNames le ts) q0n = .error .keyError := by
      unfold nameIndex; rw [if_neg hq]
    have hv : g1.vertices ≠ [] := by
      rw [k3]; intro he; rw [List.range_eq_nil] at he
      exact hne h (List.eq_nil_of_length_eq_zero he)
    unfold makeNodeAutomaton
    simp only [k1, bind, Except.bind, if_neg hv, hidx]
  · rintro rfl
    have e : nodeNames le ([] : List (N × N)) = [] := by
      apply List.eq_nil_iff_forall_not_mem.2
      intro n; rw [mem_nodeNames]; simp
    refine ⟨.empty, ?_, rfl⟩
    unfold makeNodeAutomaton
    simp only [e]
    rfl

/-- Witness of C88: three names, a cycle, two of them with the same label. -/
def exNamed : List (Nat × Nat) := [(0, 1), (1, 2), (2, 1), (0, 1)]

example : (∀ t ∈ exNamed, ∀ t' ∈ exNamed, t.1 = t'.1 → (some 'a' : Option Char) = some 'a' → t.2 = t'.2) ∧
    (∀ m, m < 3 ↔ ∃ t ∈ exNamed, t.1 = m ∨ t.2 = m) ∧
    LPath (NamedStep exNamed fun _ => some 'a') 0 ['a', 'a', 'a'] 1 := by
  refine ⟨by decide, ?_, ?_⟩
  · intro m
    constructor
    · intro h
      have : m = 0 ∨ m = 1 ∨ m = 2 := by omega
      rcases this with rfl | rfl | rfl <;> decide
    · rintro ⟨t, ht, h⟩
      simp only [exNamed, List.mem_cons, List.not_mem_nil, or_false] at ht
      rcases ht with rfl | rfl | rfl | rfl <;> simp at h <;> omega
  · exact .cons (r := 1) ⟨by decide, rfl⟩ (.cons (r := 2) ⟨by decide, rfl⟩ (.cons (r := 1) ⟨by decide, rfl⟩ (.nil _)))

end PyBGL
