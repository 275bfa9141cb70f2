import Verif.Model.InsertIncidence
import Verif.Proofs.MinimalIso
import Verif.Props.C14_C18_Trie
import Verif.Props.C42_Revuz

/-!
# C125: the minimal acyclic automaton of a list of words
-/

namespace PyBGL
open Automaton IAutomaton Revuz
variable {A : Type} [DecidableEq A]

/-- The `IncidenceAutomaton` obtained by inserting the words `ws` one after the other with `automaton_insert_string` in
`IncidenceAutomaton(1)`. -/
def WordsInserted (ws : List (List A)) (g : IAutomaton A) : Prop := ws.foldlM IAutomaton.insertString (IAutomaton.init 1) = .ok g

/-! ## Insertion in an `IncidenceAutomaton` -/

theorem insertChain_incidence {g : IAutomaton A} (h : IAutomaton.SafeHistory g) (hT : TrieInv g.a) {q : Nat} {u : List A}
    (hu : g.a.deltaWord (some 0) u = some q) (w : List A) (hd : ∀ a, w.head? = some a → g.a.delta q a = none) :
    ∃ q' g', g.insertChain (some q) w = .ok (some q', g') ∧ IAutomaton.SafeHistory g' ∧
      Automaton.insertChain g.a (some q) w = .ok (some q', g'.a) := by
  induction w generalizing g q u with
  | nil => exact ⟨q, g, rfl, h, rfl⟩
  | cons a w ih =>
    have hda := hd a rfl
    have hE := Extends.addLeaf hT hu hda
    have hnone : ∀ b, (addLeaf g.a q a).delta g.a.lastVertexId b = none := by
      intro b
      have hqr : q ≠ g.a.lastVertexId := by have := hT.mem_vertices.1 (hT.reached hu); omega
      rw [delta_addLeaf hT.wf, if_neg (fun h => hqr h.1), delta_not_mem b (fresh hT.wf)]
    have e1 := addLeaf_eq hT.wf (hT.reached hu) hda
    have hs1 : IAutomaton.SafeHistory g.addVertex.2 := .step h (op := .addVertex) trivial rfl
    have e2 : g.addVertex.2.addEdge q g.a.lastVertexId a = .ok (some ⟨q, g.a.lastVertexId, a⟩, true,
        ⟨addLeaf g.a q a, (g.inAdj.set g.a.lastVertexId []).set g.a.lastVertexId (Dict.set [] q [a])⟩) := by
      unfold IAutomaton.addEdge
      show (do
        let (e, added, g') ← g.a.addVertex.2.addEdge q g.a.lastVertexId a
        _) = _
      rw [e1]
      show (do
        let rInAdjs ← (g.inAdj.set g.a.lastVertexId []).getE g.a.lastVertexId
        _) = _
      rw [Dict.getE_of_get? (v := []) (by rw [Dict.get?_set, if_pos rfl])]
      rfl
    have hs2 : IAutomaton.SafeHistory ⟨addLeaf g.a q a, (g.inAdj.set g.a.lastVertexId []).set g.a.lastVertexId (Dict.set [] q [a])⟩ := by
      refine .step hs1 (op := .addEdge q g.a.lastVertexId a) ?_ (by show Except.map _ _ = _; rw [e2]; rfl)
      show g.a.addVertex.2.delta q a ≠ some 0
      rw [delta_addVertex hT.wf, hda]; simp
    obtain ⟨q', g', k1, k2, k3⟩ := ih hs2 hE.inv hE.goal (fun b _ => hnone b)
    refine ⟨q', g', ?_, k2, ?_⟩
    · show (do
        let (_, _, g) ← g.addVertex.2.addEdge q g.a.lastVertexId a
        IAutomaton.insertChain g (some _) w) = _
      rw [e2]; exact k1
    · show (do
        let (_, _, g) ← g.a.addVertex.2.addEdge q g.a.lastVertexId a
        Automaton.insertChain g (some _) w) = _
      rw [e1]; exact k3

/-- Inserting a word in an `IncidenceAutomaton` and in an `Automaton` does the same. -/
theorem insertString_incidence {g : IAutomaton A} (h : IAutomaton.SafeHistory g) (hT : TrieInv g.a) (w : List A) :
    ∃ g', g.insertString w = .ok g' ∧ IAutomaton.SafeHistory g' ∧ Trie.insert g.a w = .ok g'.a := by
  obtain ⟨r, k, h1, h2, h3, h4⟩ := deltaBestEffortFrom_spec g.a w 0 0
  obtain ⟨q, g', h5, h6, h7⟩ := insertChain_incidence h hT h3 (w.drop k) h4
  refine ⟨⟨g'.a.setFinal q, g'.inAdj⟩, ?_, .step h6 (op := .setFinal q true) trivial rfl, ?_⟩
  · unfold IAutomaton.insertString deltaBestEffort initial
    rw [hT.init, h1]
    simp only [Nat.zero_add, h5, bind, Except.bind]
  · unfold Trie.insert Automaton.insertString deltaBestEffort initial
    rw [hT.init, h1]
    simp only [Nat.zero_add, h7, bind, Except.bind]

theorem wordsInserted_spec (ws : List (List A)) : ∃ g, WordsInserted ws g ∧ IAutomaton.SafeHistory g ∧ Trie.Built ws g.a := by
  induction ws using List.reverseRecOn with
  | nil => exact ⟨_, rfl, .step .new (op := .addVertex) trivial rfl, rfl⟩
  | append_singleton ws w ih =>
    obtain ⟨g, h1, h2, h3⟩ := ih
    obtain ⟨g', k1, k2, k3⟩ := insertString_incidence h2 h3.inv w
    refine ⟨g', ?_, k2, ?_⟩
    · unfold WordsInserted at h1 ⊢
      rw [foldlM_snoc, h1]; exact k1
    · unfold Trie.Built at h3 ⊢
      rw [foldlM_snoc, h3]; exact k3

/-! ## Tries have no cycle -/

theorem lpath_of_isPath {g : IAutomaton A} (hw : IAutomaton.WF g) {u v : Nat} {es : List (EdgeDesc A)} (h : IsPath g.toI u es v) :
    LPath g.a.Trans u (es.map (·.distinguisher)) v := by
  induction h with
  | nil => exact .nil _
  | @cons u v e es he _ ih =>
    obtain ⟨h1, h2⟩ := (mem_outEdges hw.out).mp he
    rw [h1] at h2
    exact .cons ((trans_iff hw.out).mpr h2) ih

theorem isPath_of_lpath {g : IAutomaton A} (hw : IAutomaton.WF g) {u v : Nat} {w : List A} (h : LPath g.a.Trans u w v) :
    ∃ es, IsPath g.toI u es v ∧ es.length = w.length := by
  induction h with
  | nil => exact ⟨[], .nil _, rfl⟩
  | @cons q r s a w ht _ ih =>
    obtain ⟨es, h1, h2⟩ := ih
    exact ⟨⟨q, r, a⟩ :: es, .cons (mem_out hw ((trans_iff hw.out).mp ht)) h1, by simp [h2]⟩

theorem trie_acyclic {g : IAutomaton A} (hw : IAutomaton.WF g) (hT : TrieInv g.a) : ¬ HasCycle g.toI := by
  rintro ⟨v, hv, es, hne, hp⟩
  have hp := lpath_of_isPath hw hp
  obtain ⟨u, hu⟩ := hT.surj v hv
  have : g.a.deltaWord (some 0) (u ++ es.map (·.distinguisher)) = some v := by
    rw [deltaWord_append, hu, deltaWord_iff hw.out]; exact hp
  have := hT.inj _ _ _ this hu
  simp at this
  exact hne this

/-! ## The minimal automaton of a trie -/

/-- The result of `revuz_minimize` on a trie is reduced, and reads and accepts the same words. -/
theorem dawg_spec {g : IAutomaton A} (h : IAutomaton.SafeHistory g) (hT : TrieInv g.a) {ord ordH : SetOracle Nat} (hord : ord.Valid)
    (hordH : ordH.Valid) {ordE : Nat → SetOracle (EdgeDesc A)} (hE : ∀ t, (ordE t).Valid) :
    ∃ g' hmax, Returns (minimize ord ordH ordE g []) (.ok (g', hmax)) ∧ Reduced g'.a 0 ∧ (∀ w, g'.a.Lang w ↔ g.a.Lang w) ∧
      (∀ w, g'.a.Reads w ↔ g.a.Reads w) ∧ (∀ w, g.a.Reads w → (w.length : Int) ≤ hmax) ∧ ∃ w, g.a.Reads w ∧ hmax = w.length := by
  have hw := h.wf
  have hac := trie_acyclic hw hT
  obtain ⟨g', hmax, hr, h1, h2, h3, _, h5, h6⟩ := C42_minimal h hac hord hordH hE (leaves := []) (.inl rfl)
  obtain ⟨g'', hmax', ht, ρ, k, hr', hlong, hh, qq, hap, _⟩ := minimize_spec hw hac hord hordH hE (leaves := []) (.inl rfl)
  obtain ⟨rfl, rfl⟩ : g' = g'' ∧ hmax = hmax' := by simpa using returns_unique hr hr'
  have hv0 : 0 ∈ g.a.vertices := hT.mem_vertices.mpr hT.pos
  have h0 : 0 ∈ g'.a.vertices := (h1 0).mpr ⟨hv0, fun _ _ _ => Nat.zero_le _⟩
  have hq0 : g'.a.q0 = some 0 := qq.q0.trans hT.init
  have hlang : ∀ w, g'.a.Lang w ↔ g.a.Lang w := by
    intro w
    have := (h2 0 h0 w).2
    unfold Lang
    rw [hq0, hT.init]
    unfold Right at this
    constructor
    · rintro ⟨q, f, e, x, y⟩; cases e
      obtain ⟨f, x, y⟩ := this.mp ⟨f, x, y⟩; exact ⟨0, f, rfl, x, y⟩
    · rintro ⟨q, f, e, x, y⟩; cases e
      obtain ⟨f, x, y⟩ := this.mpr ⟨f, x, y⟩; exact ⟨0, f, rfl, x, y⟩
  have hread : ∀ w, g'.a.Reads w ↔ g.a.Reads w := by
    intro w
    have := (h2 0 h0 w).1
    unfold Reads
    rw [hq0, hT.init]
    constructor
    · rintro ⟨q, r, e, x⟩; cases e
      obtain ⟨r, x⟩ := this.mp ⟨r, x⟩; exact ⟨0, r, rfl, x⟩
    · rintro ⟨q, r, e, x⟩; cases e
      obtain ⟨r, x⟩ := this.mpr ⟨r, x⟩; exact ⟨0, r, rfl, x⟩
  have hclosed : ∀ q a r, g'.a.delta q a = some r → r ∈ g'.a.vertices := fun q a r hd => target_mem qq.wf hd
  refine ⟨g', hmax, hr, ⟨qq.wf.out, hq0, h0, hclosed, ?_, h3⟩, hlang, hread, ?_, ?_⟩
  · intro v hv
    obtain ⟨u, hu⟩ := hT.surj v ((h1 v).mp hv).1
    have hu := (deltaWord_iff hw.out).mp hu
    obtain ⟨q0, v', e, hv'⟩ := (hread u).mpr ⟨0, v, hT.init, hu⟩
    rw [hq0] at e; cases e
    have hmem := closed_path qq.wf.out hclosed h0 hv'
    have : v' = v := h3 v' hmem v hv fun w => by
      have x := canonical_transfer qq.wf.out hw.out hq0 hT.init hlang hread hv' hu w
      have y := h2 v hv w
      exact ⟨x.1.trans y.1.symm, x.2.trans y.2.symm⟩
    exact ⟨u, this ▸ hv'⟩
  · rintro w ⟨q0, r, e, hp⟩
    rw [hT.init] at e; cases e
    obtain ⟨es, hes, hl⟩ := isPath_of_lpath hw hp
    have hl0 := hlong 0 hv0
    have := hl0.2 es r hes
    have := h5 0 hv0 _ hl0
    omega
  · rcases h6 with ⟨e, _⟩ | ⟨v, hv, m, hm, e⟩
    · rw [e] at hv0; cases hv0
    · obtain ⟨u, hu⟩ := hT.surj v hv
      have hu := (deltaWord_iff hw.out).mp hu
      obtain ⟨es, w, hes, hl⟩ := hm.1
      have hp := hu.append (lpath_of_isPath hw hes)
      have hl0 := hlong 0 hv0
      obtain ⟨es', hes', hl'⟩ := isPath_of_lpath hw hp
      have k1 := hl0.2 es' w hes'
      have k2 := h5 0 hv0 _ hl0
      have hu0 : u = [] := by
        cases u with
        | nil => rfl
        | cons a u => simp at hl'; omega
      subst hu0
      exact ⟨_, ⟨0, w, hT.init, hp⟩, by simp [hl, e]⟩

/-- **C125**: inserting any words in `IncidenceAutomaton(1)` with `automaton_insert_string`, then calling `revuz_minimize`, returns normally whatever
the enumeration of the sets. The automaton obtained accepts exactly the words inserted; the value returned is the length of the longest of
them (0 if there is none); and no automaton (with an initial state and no transition towards a missing state) which accepts exactly the
same words has fewer states. -/
theorem C125_minimal (ws : List (List A)) {ord ordH : SetOracle Nat} (hord : ord.Valid) (hordH : ordH.Valid)
    {ordE : Nat → SetOracle (EdgeDesc A)} (hE : ∀ t, (ordE t).Valid) :
    ∃ g g' hmax, WordsInserted ws g ∧ Returns (minimize ord ordH ordE g []) (.ok (g', hmax)) ∧
      (∀ w, g'.a.accepts w = true ↔ w ∈ ws) ∧
      (∀ w ∈ ws, (w.length : Int) ≤ hmax) ∧ ((ws = [] ∧ hmax = 0) ∨ ∃ w ∈ ws, hmax = w.length) ∧
      ∀ (b : Automaton A) (q : Nat), b.Reachable → b.initial = some q → q ∈ b.vertices → (∀ e ∈ b.edges, e.target ∈ b.vertices) →
        (∀ w, b.accepts w = true ↔ w ∈ ws) → g'.a.numVertices ≤ b.numVertices := by
  obtain ⟨g, h1, h2, h3⟩ := wordsInserted_spec ws
  have hT := h3.inv
  obtain ⟨g', hmax, hr, hred, hlang, hread, hm1, w0, hm2, hm3⟩ := dawg_spec h2 hT hord hordH hE
  have hacc : ∀ w, g'.a.Lang w ↔ w ∈ ws := fun w => by rw [hlang, ← Automaton.accepts_iff h2.wf.out, C15_language h3]
  have hreads : ∀ w, g.a.Reads w ↔ w = [] ∨ ∃ x ∈ ws, w <+: x := by
    intro w
    rw [← C15_prefixes h3]
    unfold Reads
    rw [hT.init]
    constructor
    · rintro ⟨q, r, e, x⟩; cases e; exact ⟨r, x⟩
    · rintro ⟨r, x⟩; exact ⟨0, r, rfl, x⟩
  refine ⟨g, g', hmax, h1, hr, fun w => (Automaton.accepts_iff hred.wf w).trans (hacc w),
    fun w hw => hm1 w ((hreads w).mpr (.inr ⟨w, hw, List.prefix_refl _⟩)), ?_, ?_⟩
  · rcases (hreads w0).mp hm2 with rfl | ⟨x, hx, hpre⟩
    · cases ws with
      | nil => exact .inl ⟨rfl, by simpa using hm3⟩
      | cons x ws =>
        refine .inr ⟨x, by simp, ?_⟩
        have := hm1 x ((hreads x).mpr (.inr ⟨x, by simp, List.prefix_refl _⟩))
        simp at hm3; omega
    · refine .inr ⟨x, hx, ?_⟩
      have := hm1 x ((hreads x).mpr (.inr ⟨x, hx, List.prefix_refl _⟩))
      have := hpre.length_le
      omega
  · intro b q hb hq hqv hc hl
    have hbw : AWF b := Automaton.Reachable.awf hb
    refine hred.least hbw hq hqv (fun p a r hd => hc ⟨p, r, a⟩ ((mem_edges hbw).mpr hd)) (fun w => ?_) fun w hw => ?_
    · rw [hacc, ← hl, Automaton.accepts_iff hbw]
    · rcases (hreads w).mp ((hread w).mp hw) with e | ⟨x, hx, v, rfl⟩
      · exact .inl e
      · exact .inr ⟨v, (hacc _).mpr hx⟩

/-- **C125**: the automaton obtained does not depend on the order in which the words are inserted, nor on repetitions, nor on the enumeration of
the sets: two lists with the same words give automata that differ only by the numbers of their states. -/
theorem C125_canonical {ws ws' : List (List A)} (hws : ∀ w, w ∈ ws ↔ w ∈ ws') {ord ordH ord' ordH' : SetOracle Nat} (hord : ord.Valid)
    (hordH : ordH.Valid) (hord' : ord'.Valid) (hordH' : ordH'.Valid) {ordE ordE' : Nat → SetOracle (EdgeDesc A)} (hE : ∀ t, (ordE t).Valid)
    (hE' : ∀ t, (ordE' t).Valid) :
    ∃ g1 g2 m1 m2 k f, WordsInserted ws g1 ∧ WordsInserted ws' g2 ∧ Returns (minimize ord ordH ordE g1 []) (.ok (m1, k)) ∧
      Returns (minimize ord' ordH' ordE' g2 []) (.ok (m2, k)) ∧ m1.a.IsoBy m2.a f := by
  obtain ⟨g1, a1, a2, a3⟩ := wordsInserted_spec ws
  obtain ⟨g2, b1, b2, b3⟩ := wordsInserted_spec ws'
  obtain ⟨m1, k1, r1, c1, c2, c3, c4, x1, c5, c6⟩ := dawg_spec a2 a3.inv hord hordH hE
  obtain ⟨m2, k2, r2, d1, d2, d3, d4, x2, d5, d6⟩ := dawg_spec b2 b3.inv hord' hordH' hE'
  have hread : ∀ w, g1.a.Reads w ↔ g2.a.Reads w := by
    intro w
    have e : ∀ {g : IAutomaton A} {ws : List (List A)}, Trie.Built ws g.a → (g.a.Reads w ↔ w = [] ∨ ∃ x ∈ ws, w <+: x) := by
      intro g ws h
      rw [← C15_prefixes h]
      unfold Reads
      rw [h.inv.init]
      constructor
      · rintro ⟨q, r, e, x⟩; cases e; exact ⟨r, x⟩
      · rintro ⟨r, x⟩; exact ⟨0, r, rfl, x⟩
    rw [e a3, e b3]
    refine or_congr_right (exists_congr fun x => and_congr_left fun _ => hws x)
  have hlang : ∀ w, g1.a.Lang w ↔ g2.a.Lang w := by
    intro w
    rw [← Automaton.accepts_iff a2.wf.out, C15_language a3, ← Automaton.accepts_iff b2.wf.out, C15_language b3, hws]
  obtain ⟨f, hf⟩ := c1.iso d1 (fun w => by rw [c2, d2, hlang]) fun w => by rw [c3, d3, hread]
  have hk : k1 = k2 := by
    have := d4 x1 ((hread x1).mp c5)
    have := c4 x2 ((hread x2).mpr d5)
    omega
  subst hk
  exact ⟨g1, g2, m1, m2, k1, f, a1, b1, r1, r2, hf⟩

/-- Inserting "ab", "cb" and "ab" again gives five states. -/
def dawgExample : IAutomaton Char :=
  ⟨⟨5, [(0, [('a', 1), ('c', 3)]), (1, [('b', 2)]), (2, []), (3, [('b', 4)]), (4, [])], some 0, [(2, true), (4, true)]⟩,
    [(0, []), (1, [(0, ['a'])]), (2, [(1, ['b'])]), (3, [(0, ['c'])]), (4, [(3, ['b'])])]⟩

example : WordsInserted [['a', 'b'], ['c', 'b'], ['a', 'b']] dawgExample := rfl

/-- The hypotheses on the other automaton are met: for instance by the trie itself. -/
example : ∃ g g' hmax, WordsInserted [['a', 'b'], ['c', 'b'], ['a', 'b']] g ∧
    Returns (minimize (fun _ s => s) (fun _ s => s) (fun _ _ s => s) g []) (.ok (g', hmax)) ∧ g'.a.numVertices ≤ 5 ∧ hmax = 2 := by
  obtain ⟨g, g', hmax, h1, h2, _, h3, h4, h⟩ := C125_minimal (A := Char) [['a', 'b'], ['c', 'b'], ['a', 'b']]
    (ord := fun _ s => s) (ordH := fun _ s => s) (ordE := fun _ _ s => s) (fun _ _ => .refl _) (fun _ _ => .refl _) (fun _ _ _ => .refl _)
  have hr : dawgExample.a.Reachable :=
    ⟨[.addVertex, .addVertex, .addEdge 0 1 'a', .addVertex, .addEdge 1 2 'b', .setFinal 2 true, .addVertex, .addEdge 0 3 'c', .addVertex,
      .addEdge 3 4 'b', .setFinal 4 true], rfl⟩
  refine ⟨g, g', hmax, h1, h2, h _ 0 hr rfl (by decide) (by decide) (C15_language rfl), ?_⟩
  rcases h4 with ⟨h, _⟩ | ⟨w, hw, e⟩
  · cases h
  · simp only [List.mem_cons, List.not_mem_nil, or_false] at hw
    rcases hw with rfl | rfl | rfl <;> exact e

end PyBGL
