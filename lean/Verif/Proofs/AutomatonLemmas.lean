import Verif.Spec.Language
import Verif.Proofs.PyLemmas
import Verif.Proofs.UndirectedGraph

/-!
# Lemmas on automata
-/

namespace PyBGL

/-! ## Runs -/

theorem Runs.nil {Op S : Type} {exec : S → Op → Except PyErr S} {s₀ s : S} (h : Runs exec s₀ [] s) :
    s = s₀ := by
  simp [Runs, pure, Except.pure] at h; exact h.symm

theorem Runs.invariant {Op S : Type} {exec : S → Op → Except PyErr S} {Inv : S → Prop} {s₀ s : S}
    {ops : List Op} (h0 : Inv s₀) (hstep : ∀ s op s', Inv s → exec s op = .ok s' → Inv s')
    (h : Runs exec s₀ ops s) : Inv s := by
  induction ops generalizing s₀ with
  | nil => rw [h.nil]; exact h0
  | cons op ops ih =>
    simp only [Runs, List.foldlM_cons] at h
    cases h1 : exec s₀ op with
    | error e => rw [h1] at h; cases h
    | ok s1 => rw [h1] at h; exact ih (hstep _ _ _ h0 h1) h

theorem except_bind_ok {ε α β : Type} {x : Except ε α} {f : α → Except ε β} {b : β} :
    (x >>= f) = .ok b ↔ ∃ a, x = .ok a ∧ f a = .ok b := by
  cases x <;> simp [bind, Except.bind]

/-! ## Labelled paths -/

namespace LPath
variable {Q A : Type} {T : Q → A → Q → Prop}

theorem append {q r s : Q} {u v : List A} (h1 : LPath T q u r) (h2 : LPath T r v s) :
    LPath T q (u ++ v) s := by
  induction h1 with
  | nil => exact h2
  | cons h _ ih => exact .cons h (ih h2)

theorem snoc {q r s : Q} {u : List A} {a : A} (h1 : LPath T q u r) (h2 : T r a s) :
    LPath T q (u ++ [a]) s := h1.append (.cons h2 (.nil _))

theorem nil_iff {q r : Q} : LPath T q [] r ↔ q = r :=
  ⟨fun h => by cases h; rfl, fun h => h ▸ .nil _⟩

theorem cons_iff {q r : Q} {a : A} {w : List A} :
    LPath T q (a :: w) r ↔ ∃ s, T q a s ∧ LPath T s w r :=
  ⟨fun h => by cases h with | cons h p => exact ⟨_, h, p⟩, fun ⟨_, h, p⟩ => .cons h p⟩

theorem append_iff {q r : Q} {u v : List A} :
    LPath T q (u ++ v) r ↔ ∃ s, LPath T q u s ∧ LPath T s v r := by
  induction u generalizing q with
  | nil => simp [nil_iff]
  | cons a u ih =>
    simp only [List.cons_append, cons_iff, ih]
    constructor
    · rintro ⟨s, h, t, h1, h2⟩; exact ⟨t, ⟨s, h, h1⟩, h2⟩
    · rintro ⟨t, ⟨s, h, h1⟩, h2⟩; exact ⟨s, h, t, h1, h2⟩

theorem snoc_iff {q r : Q} {u : List A} {a : A} :
    LPath T q (u ++ [a]) r ↔ ∃ s, LPath T q u s ∧ T s a r := by
  rw [append_iff]
  constructor
  · rintro ⟨s, h1, h2⟩
    obtain ⟨t, h3, h4⟩ := cons_iff.1 h2
    cases h4
    exact ⟨s, h1, h3⟩
  · rintro ⟨s, h1, h2⟩; exact ⟨s, h1, .cons h2 (.nil _)⟩

theorem mono {T' : Q → A → Q → Prop} (hT : ∀ q a r, T q a r → T' q a r) {q r : Q} {w : List A}
    (h : LPath T q w r) : LPath T' q w r := by
  induction h with
  | nil => exact .nil _
  | cons h _ ih => exact .cons (hT _ _ _ h) ih

end LPath

/-! ## Well-formed automata -/

/-- Representation invariant of `Automaton`. -/
structure AWF {A : Type} (g : Automaton A) : Prop where
  outer : Dict.NodupKeys g.adj
  inner : ∀ q d, Dict.get? g.adj q = some d → Dict.NodupKeys d
  lt : ∀ q ∈ g.vertices, q < g.lastVertexId

namespace Automaton
variable {A : Type} [DecidableEq A]

theorem delta_eq (g : Automaton A) (q : Nat) (a : A) :
    g.delta q a = (Dict.get? g.adj q).bind (fun d => Dict.get? d a) := by
  unfold delta Dict.getD; cases Dict.get? g.adj q <;> simp [Dict.get?]

theorem delta_mem_vertices {g : Automaton A} {q : Nat} {a : A} {r : Nat} (h : g.delta q a = some r) :
    q ∈ g.vertices := by
  rw [delta_eq] at h
  unfold vertices; rw [Dict.mem_keys_iff]
  cases hq : Dict.get? g.adj q with
  | none => rw [hq] at h; simp at h
  | some d => exact ⟨d, rfl⟩

theorem delta_not_mem {g : Automaton A} {q : Nat} (a : A) (h : q ∉ g.vertices) : g.delta q a = none := by
  cases h' : g.delta q a with
  | none => rfl
  | some r => exact absurd (delta_mem_vertices h') h

theorem mem_edges {g : Automaton A} (hg : AWF g) {e : EdgeDesc A} :
    e ∈ g.edges ↔ g.delta e.source e.distinguisher = some e.target := by
  obtain ⟨q, r, a⟩ := e
  simp only [edges, List.mem_flatMap, List.mem_map, Prod.exists, EdgeDesc.mk.injEq, delta_eq]
  constructor
  · rintro ⟨q', d, h1, a', r', h2, rfl, rfl, rfl⟩
    have h1' := Dict.get?_of_mem hg.outer h1
    rw [h1']
    exact Dict.get?_of_mem (hg.inner _ _ h1') h2
  · intro h
    cases hq : Dict.get? g.adj q with
    | none => rw [hq] at h; simp at h
    | some d =>
      rw [hq] at h
      exact ⟨q, d, Dict.mem_of_get? hq, a, r, Dict.mem_of_get? h, rfl, rfl, rfl⟩

theorem trans_iff {g : Automaton A} (hg : AWF g) {q r : Nat} {a : A} :
    g.Trans q a r ↔ g.delta q a = some r := mem_edges hg

theorem mem_outEdges {g : Automaton A} (hg : AWF g) {q : Nat} {e : EdgeDesc A} :
    e ∈ g.outEdges q ↔ e.source = q ∧ g.delta e.source e.distinguisher = some e.target := by
  obtain ⟨q', r, a⟩ := e
  simp only [outEdges, List.mem_map, Prod.exists, EdgeDesc.mk.injEq, delta, Dict.getD]
  constructor
  · rintro ⟨a', r', h, rfl, rfl, rfl⟩
    refine ⟨rfl, ?_⟩
    cases hq : Dict.get? g.adj q with
    | none => rw [hq] at h; simp at h
    | some d => rw [hq] at h; exact Dict.get?_of_mem (hg.inner _ _ hq) h
  · rintro ⟨rfl, h⟩
    exact ⟨a, r, Dict.mem_of_get? h, rfl, rfl, rfl⟩

theorem nodup_edges {g : Automaton A} (hg : AWF g) : g.edges.Nodup := by
  unfold edges
  rw [List.nodup_flatMap]
  constructor
  · rintro ⟨q, d⟩ h
    have := hg.inner _ _ (Dict.get?_of_mem hg.outer h)
    refine (List.Nodup.of_map _ this).map ?_
    rintro ⟨a, r⟩ ⟨a', r'⟩ h
    simp at h; simp [h]
  · have := hg.outer
    unfold Dict.NodupKeys at this
    rw [List.Nodup, List.pairwise_map] at this
    refine this.imp ?_
    intro p p' hne
    simp only [Function.onFun, List.disjoint_left, List.mem_map]
    rintro e ⟨t, _, rfl⟩ ⟨t', _, h⟩
    simp at h
    exact hne h.1.symm

/-! ### `deltaWord` -/

@[simp] theorem deltaWord_nil (g : Automaton A) (q : Option Nat) : g.deltaWord q [] = q := by
  cases q <;> rfl

@[simp] theorem deltaWord_none (g : Automaton A) (w : List A) : g.deltaWord none w = none := by
  cases w <;> rfl

theorem deltaWord_cons (g : Automaton A) (q : Option Nat) (a : A) (w : List A) :
    g.deltaWord q (a :: w) = g.deltaWord (g.deltaO q a) w := by
  cases q <;> simp [deltaWord, deltaO]

theorem deltaWord_append (g : Automaton A) (q : Option Nat) (u v : List A) :
    g.deltaWord q (u ++ v) = g.deltaWord (g.deltaWord q u) v := by
  induction u generalizing q with
  | nil => simp
  | cons a u ih => rw [List.cons_append, deltaWord_cons, ih, deltaWord_cons]

theorem deltaWord_snoc (g : Automaton A) (q : Option Nat) (u : List A) (a : A) :
    g.deltaWord q (u ++ [a]) = g.deltaO (g.deltaWord q u) a := by
  rw [deltaWord_append, deltaWord_cons, deltaWord_nil]

theorem deltaWord_iff {g : Automaton A} (hg : AWF g) {q r : Nat} {w : List A} :
    g.deltaWord (some q) w = some r ↔ LPath g.Trans q w r := by
  induction w generalizing q with
  | nil => simp [LPath.nil_iff]
  | cons a w ih =>
    rw [deltaWord_cons, LPath.cons_iff]
    simp only [deltaO, Option.bind_some]
    cases h : g.delta q a with
    | none =>
      simp only [deltaWord_none]
      constructor
      · intro h; cases h
      · rintro ⟨s, hs, _⟩; rw [trans_iff hg, h] at hs; cases hs
    | some s =>
      rw [ih]
      constructor
      · intro hp; exact ⟨s, (trans_iff hg).2 h, hp⟩
      · rintro ⟨s', hs, hp⟩
        rw [trans_iff hg, h] at hs; cases hs; exact hp

theorem accepts_iff {g : Automaton A} (hg : AWF g) (w : List A) : g.accepts w = true ↔ g.Lang w := by
  unfold accepts Lang initial
  cases hq : g.q0 with
  | none => simp
  | some q =>
    cases h : g.deltaWord (some q) w with
    | none =>
      simp only [Bool.false_eq_true, false_iff]
      rintro ⟨q', f, h1, h2, _⟩
      cases h1
      rw [← deltaWord_iff hg, h] at h2; cases h2
    | some f =>
      simp only
      constructor
      · intro hf; exact ⟨q, f, rfl, (deltaWord_iff hg).1 h, hf⟩
      · rintro ⟨q', f', h1, h2, h3⟩
        cases h1
        rw [← deltaWord_iff hg, h] at h2; cases h2; exact h3

/-! ### Operations -/

theorem AWF_empty : AWF (empty : Automaton A) :=
  ⟨Dict.nodupKeys_nil, by simp [empty], by simp [empty, vertices, Dict.keys]⟩

theorem fresh {g : Automaton A} (hg : AWF g) : g.lastVertexId ∉ g.vertices :=
  fun h => Nat.lt_irrefl _ (hg.lt _ h)

theorem AWF_addVertex {g : Automaton A} (hg : AWF g) : AWF g.addVertex.2 := by
  refine ⟨Dict.nodupKeys_set hg.outer _ _, ?_, ?_⟩
  · intro q d h
    simp only [addVertex, Dict.get?_set] at h
    split at h
    · cases h; exact Dict.nodupKeys_nil
    · exact hg.inner _ _ h
  · intro q h
    simp only [addVertex, vertices, Dict.mem_keys_set] at h ⊢
    rcases h with h | h
    · omega
    · have := hg.lt q h; omega

theorem vertices_addVertex {g : Automaton A} (hg : AWF g) :
    g.addVertex.2.vertices = g.vertices ++ [g.lastVertexId] := by
  simp only [addVertex, vertices]
  exact Dict.keys_set_of_not_mem _ _ _ (fresh hg)

theorem delta_addVertex {g : Automaton A} (hg : AWF g) (q : Nat) (a : A) :
    g.addVertex.2.delta q a = g.delta q a := by
  by_cases h : q = g.lastVertexId
  · subst h
    rw [delta_not_mem a (fresh hg)]
    simp [addVertex, delta, Dict.getD_set, Dict.get?]
  · simp [addVertex, delta, Dict.getD_set, Ne.symm h]

/-- Overwriting a transition in the dictionaries. -/
def setDelta (g : Automaton A) (q r : Nat) (a : A) : Automaton A :=
  { g with adj := g.adj.set q ((g.adj.getD q []).set a r) }

theorem addEdge_of_succ {g : Automaton A} {q r k : Nat} {a : A} (h : g.delta q a = some (k + 1)) :
    g.addEdge q r a = .ok (none, false, g) := by
  unfold addEdge; rw [h]

theorem addEdge_of_free {g : Automaton A} {q r : Nat} {a : A} (h : g.delta q a = none ∨ g.delta q a = some 0)
    (hq : q ∈ g.vertices) : g.addEdge q r a = .ok (some ⟨q, r, a⟩, true, g.setDelta q r a) := by
  unfold vertices at hq; rw [Dict.mem_keys_iff] at hq
  obtain ⟨d, hd⟩ := hq
  have hset : g.setDelta q r a = { g with adj := g.adj.set q (d.set a r) } := by
    simp [setDelta, Dict.getD, hd]
  rw [hset]
  rcases h with h | h <;> unfold addEdge <;> rw [h] <;> simp [Dict.getE_of_get? hd, bind, Except.bind]

theorem addEdge_of_not_mem {g : Automaton A} {q r : Nat} {a : A} (hq : q ∉ g.vertices) :
    g.addEdge q r a = .error .keyError := by
  unfold addEdge
  rw [delta_not_mem a hq]
  have : Dict.get? g.adj q = none := by rw [Dict.get?_eq_none_iff]; exact hq
  simp [Dict.getE, this, bind, Except.bind]

theorem AWF_setDelta {g : Automaton A} (hg : AWF g) {q : Nat} (r : Nat) (a : A) (hq : q ∈ g.vertices) :
    AWF (g.setDelta q r a) := by
  refine ⟨Dict.nodupKeys_set hg.outer _ _, ?_, ?_⟩
  · intro q' d h
    simp only [setDelta, Dict.get?_set] at h
    split at h
    · cases h
      apply Dict.nodupKeys_set
      unfold Dict.getD
      cases hd : Dict.get? g.adj q with
      | none => exact Dict.nodupKeys_nil
      | some d => exact hg.inner _ _ hd
    · exact hg.inner _ _ h
  · intro q' h
    simp only [setDelta, vertices, Dict.mem_keys_set] at h ⊢
    rcases h with h | h
    · subst h; exact hg.lt _ hq
    · exact hg.lt _ h

theorem vertices_setDelta {g : Automaton A} {q : Nat} (r : Nat) (a : A) (hq : q ∈ g.vertices) :
    (g.setDelta q r a).vertices = g.vertices := Dict.keys_set_of_mem _ _ _ hq

theorem delta_setDelta (g : Automaton A) (q r : Nat) (a : A) (q' : Nat) (a' : A) :
    (g.setDelta q r a).delta q' a' = if q = q' ∧ a = a' then some r else g.delta q' a' := by
  simp only [setDelta, delta, Dict.getD_set]
  by_cases h : q = q'
  · subst h; simp only [if_true, Dict.get?_set, true_and]
  · simp [h]

theorem removeEdge_spec {g : Automaton A} (hg : AWF g) (e : EdgeDesc A) :
    AWF (g.removeEdge e) ∧ (g.removeEdge e).vertices = g.vertices ∧
    (g.removeEdge e).lastVertexId = g.lastVertexId ∧ (g.removeEdge e).q0 = g.q0 ∧
    (g.removeEdge e).final = g.final ∧
    ∀ q a, (g.removeEdge e).delta q a =
      if e.source = q ∧ e.distinguisher = a then none else g.delta q a := by
  unfold removeEdge
  cases hd : Dict.get? g.adj e.source with
  | none =>
    refine ⟨hg, rfl, rfl, rfl, rfl, ?_⟩
    intro q a; simp only
    split
    · rename_i h; rw [← h.1, delta_eq, hd]; rfl
    · rfl
  | some d =>
    simp only
    split
    · rename_i hc
      have hmem : e.source ∈ Dict.keys g.adj := (Dict.mem_keys_iff _ _).2 ⟨d, hd⟩
      have hkeys : (Dict.set g.adj e.source (Dict.erase d e.distinguisher)).keys = g.adj.keys :=
        Dict.keys_set_of_mem _ _ _ hmem
      refine ⟨⟨Dict.nodupKeys_set hg.outer _ _, ?_, ?_⟩, hkeys, rfl, rfl, rfl, ?_⟩
      · intro q d' h
        simp only [Dict.get?_set] at h
        split at h
        · cases h; exact Dict.nodupKeys_erase (hg.inner _ _ hd) _
        · exact hg.inner _ _ h
      · intro q h
        simp only [vertices] at h
        rw [hkeys] at h
        exact hg.lt q h
      · intro q a
        simp only [delta_eq, Dict.get?_set]
        by_cases h : e.source = q
        · subst h
          simp [hd, Dict.get?_erase (hg.inner _ _ hd)]
        · simp [h]
    · rename_i hc
      refine ⟨hg, rfl, rfl, rfl, rfl, ?_⟩
      intro q a
      split
      · rename_i h
        obtain ⟨rfl, rfl⟩ := h
        rw [delta_eq, hd]
        simp only [Option.bind_some]
        rw [Dict.get?_eq_none_iff, ← Dict.contains_iff_mem]; exact hc
      · rfl

theorem foldl_removeEdge_spec {g : Automaton A} (hg : AWF g) (es : List (EdgeDesc A)) :
    AWF (es.foldl removeEdge g) ∧ (es.foldl removeEdge g).vertices = g.vertices ∧
    (es.foldl removeEdge g).lastVertexId = g.lastVertexId ∧ (es.foldl removeEdge g).q0 = g.q0 ∧
    (es.foldl removeEdge g).final = g.final ∧
    ∀ q a, (es.foldl removeEdge g).delta q a =
      if ∃ e ∈ es, e.source = q ∧ e.distinguisher = a then none else g.delta q a := by
  induction es generalizing g with
  | nil => simp [hg]
  | cons e es ih =>
    obtain ⟨h1, h2, h3, h4, h5, h6⟩ := removeEdge_spec hg e
    obtain ⟨i1, i2, i3, i4, i5, i6⟩ := ih h1
    refine ⟨i1, i2.trans h2, i3.trans h3, i4.trans h4, i5.trans h5, ?_⟩
    intro q a
    simp only [List.foldl_cons] at *
    rw [i6, h6]
    by_cases h : ∃ e ∈ es, e.source = q ∧ e.distinguisher = a
    · rw [if_pos h, if_pos]
      obtain ⟨e', h'⟩ := h; exact ⟨e', by simp [h'.1], h'.2⟩
    · rw [if_neg h]
      by_cases h' : e.source = q ∧ e.distinguisher = a
      · rw [if_pos h', if_pos ⟨e, by simp, h'⟩]
      · rw [if_neg h', if_neg]
        rintro ⟨e', hm, he⟩
        rcases List.mem_cons.1 hm with rfl | hm
        · exact h' he
        · exact h ⟨e', hm, he⟩

theorem removeVertex_spec {g : Automaton A} (hg : AWF g) {u : Nat} (hu : u ∈ g.vertices) :
    ∃ g', g.removeVertex u = .ok g' ∧ AWF g' ∧ g'.vertices = g.vertices.filter (· ≠ u) ∧
    g'.lastVertexId = g.lastVertexId ∧ g'.q0 = g.q0 ∧ g'.final = g.final ∧
    ∀ q a, g'.delta q a = if q = u ∨ g.delta q a = some u then none else g.delta q a := by
  unfold removeVertex
  obtain ⟨i1, i2, i3, i4, i5, i6⟩ := foldl_removeEdge_spec hg (g.edges.filter fun e => u = e.target)
  generalize hg1 : (g.edges.filter fun e => u = e.target).foldl removeEdge g = g1 at *
  obtain ⟨j1, j2, j3, j4, j5, j6⟩ := foldl_removeEdge_spec i1 (g1.outEdges u)
  generalize hg2 : (g1.outEdges u).foldl removeEdge g1 = g2 at *
  have hmem : u ∈ Dict.keys g2.adj := by
    have := j2.trans i2
    unfold vertices at this; rw [this]; exact hu
  have hdel : g2.adj.delE u = .ok (g2.adj.erase u) := (Dict.delE_ok_iff _ _ _).2 ⟨hmem, rfl⟩
  refine ⟨{ g2 with adj := g2.adj.erase u }, ?_, ⟨Dict.nodupKeys_erase j1.outer _, ?_, ?_⟩, ?_,
    j3.trans i3, j4.trans i4, j5.trans i5, ?_⟩
  · simp only [hg1, hg2, hdel, bind, Except.bind]
  · intro q d h
    simp only [Dict.get?_erase j1.outer] at h
    split at h
    · cases h
    · exact j1.inner _ _ h
  · intro q h
    simp only [vertices, Dict.keys_erase _ j1.outer, List.mem_filter] at h
    exact j1.lt _ h.1
  · simp only [vertices, Dict.keys_erase _ j1.outer]
    rw [show Dict.keys g2.adj = Dict.keys g.adj from j2.trans i2]
  · intro q a
    have e1 : ({ g2 with adj := g2.adj.erase u } : Automaton A).delta q a =
        if u = q then none else g2.delta q a := by
      simp only [delta_eq, Dict.get?_erase j1.outer]
      by_cases h : u = q <;> simp [h]
    rw [e1]
    by_cases hq : q = u
    · simp [hq]
    · rw [if_neg (Ne.symm hq), j6, if_neg, i6]
      · by_cases h : g.delta q a = some u
        · rw [if_pos, if_pos (Or.inr h)]
          exact ⟨⟨q, u, a⟩, by simp [mem_edges hg, h], rfl, rfl⟩
        · rw [if_neg, if_neg]
          · simp [hq, h]
          · rintro ⟨e, he, rfl, rfl⟩
            simp only [List.mem_filter, mem_edges hg, decide_eq_true_eq] at he
            rw [← he.2] at he
            exact h he.1
      · rintro ⟨e, he, h1, h2⟩
        rw [mem_outEdges i1] at he
        exact hq (h1.symm.trans he.1)

theorem removeVertex_not_mem {g : Automaton A} (hg : AWF g) {u : Nat} (hu : u ∉ g.vertices) :
    g.removeVertex u = .error .keyError := by
  unfold removeVertex
  obtain ⟨i1, i2, _⟩ := foldl_removeEdge_spec hg (g.edges.filter fun e => u = e.target)
  generalize hg1 : (g.edges.filter fun e => u = e.target).foldl removeEdge g = g1 at *
  obtain ⟨j1, j2, _⟩ := foldl_removeEdge_spec i1 (g1.outEdges u)
  generalize hg2 : (g1.outEdges u).foldl removeEdge g1 = g2 at *
  have hmem : u ∉ Dict.keys g2.adj := by
    have := j2.trans i2
    unfold vertices at this; rw [this]; exact hu
  have hdel : g2.adj.delE u = .error .keyError := by
    unfold Dict.delE
    rw [if_neg]; rwa [Dict.contains_iff_mem]
  simp only [hg1, hg2, hdel, bind, Except.bind]

theorem removeEdge_last (g : Automaton A) (n : Nat) (e : EdgeDesc A) :
    removeEdge { g with lastVertexId := n } e = { removeEdge g e with lastVertexId := n } := by
  unfold removeEdge
  simp only
  cases g.adj.get? e.source with
  | none => rfl
  | some d => simp only; split <;> rfl

theorem foldl_removeEdge_last (n : Nat) : ∀ (es : List (EdgeDesc A)) (g : Automaton A),
    es.foldl removeEdge { g with lastVertexId := n } = { es.foldl removeEdge g with lastVertexId := n }
  | [], _ => rfl
  | e :: es, g => by
    rw [List.foldl_cons, List.foldl_cons, removeEdge_last]
    exact foldl_removeEdge_last n es _

/-- `remove_vertex` does not look at the counter. -/
theorem removeVertex_last (g : Automaton A) (n u : Nat) :
    removeVertex { g with lastVertexId := n } u = (removeVertex g u).map fun g' => { g' with lastVertexId := n } := by
  have h1 := foldl_removeEdge_last n (g.edges.filter fun e => u = e.target) g
  unfold removeVertex
  simp only [show edges { g with lastVertexId := n } = g.edges from rfl]
  rw [h1]
  generalize (g.edges.filter fun e => u = e.target).foldl removeEdge g = g1
  simp only [show outEdges { g1 with lastVertexId := n } u = g1.outEdges u from rfl]
  rw [foldl_removeEdge_last n]
  generalize (g1.outEdges u).foldl removeEdge g1 = g2
  show (g2.adj.delE u >>= _) = _
  cases g2.adj.delE u <;> rfl

theorem removeVertices_last (n : Nat) : ∀ (us : List Nat) (g : Automaton A),
    us.foldlM removeVertex { g with lastVertexId := n } = (us.foldlM removeVertex g).map fun g' => { g' with lastVertexId := n }
  | [], _ => rfl
  | u :: us, g => by
    rw [List.foldlM_cons, List.foldlM_cons, removeVertex_last]
    cases g.removeVertex u with
    | error e => rfl
    | ok g1 => exact removeVertices_last n us g1

theorem removeVertices_spec : ∀ (us : List Nat) {g : Automaton A}, AWF g → us.Nodup → (∀ u ∈ us, u ∈ g.vertices) →
    ∃ g', us.foldlM removeVertex g = .ok g' ∧ AWF g' ∧ g'.q0 = g.q0 ∧ g'.final = g.final ∧ ∀ u, u ∈ g'.vertices ↔ u ∈ g.vertices ∧ u ∉ us
  | [], g, hg, _, _ => ⟨g, rfl, hg, rfl, rfl, by simp⟩
  | u :: us, g, hg, hnd, h => by
    rw [List.nodup_cons] at hnd
    obtain ⟨g1, a1, a2, a3, a4, a5, a6, a7⟩ := removeVertex_spec hg (h u (by simp))
    have hm : ∀ x, x ∈ g1.vertices ↔ x ∈ g.vertices ∧ x ≠ u := by
      intro x; rw [a3]; simp
    obtain ⟨g2, b1, b2, b3, b4, b5⟩ := removeVertices_spec us a2 hnd.2 (fun x hx => (hm x).mpr ⟨h x (by simp [hx]), fun e => hnd.1 (e ▸ hx)⟩)
    refine ⟨g2, ?_, b2, b3.trans a5, b4.trans a6, fun x => ?_⟩
    · rw [List.foldlM_cons, a1]; exact b1
    · rw [b5, hm]; simp [and_assoc]

/-- `clear` removes every state and transition and resets the counter; it keeps the initial state and the final flags. -/
theorem clear_spec {g : Automaton A} (hg : AWF g) : g.clear = .ok ⟨0, [], g.q0, g.final⟩ := by
  obtain ⟨g1, a1, a2, a3, a4, a5⟩ := removeVertices_spec g.vertices hg hg.outer (fun _ h => h)
  unfold clear
  show g.vertices.foldlM removeVertex { g with lastVertexId := 0 } = _
  rw [removeVertices_last, a1]
  have : g1.adj = [] := by
    have hk : g1.vertices = [] := List.eq_nil_iff_forall_not_mem.mpr fun x hx => ((a5 x).mp hx).2 ((a5 x).mp hx).1
    unfold vertices Dict.keys at hk
    exact List.map_eq_nil_iff.mp hk
  obtain ⟨n, adj, q0, f⟩ := g1
  simp only at this a3 a4
  subst this a3 a4
  rfl

theorem AWF_exec {g g' : Automaton A} {op : AOp A} (hg : AWF g) (h : g.exec op = .ok g') : AWF g' := by
  cases op with
  | addVertex => cases h; exact AWF_addVertex hg
  | addEdge q r a =>
    simp only [exec] at h
    by_cases hq : q ∈ g.vertices
    · rcases hd : g.delta q a with _ | _ | k
      · rw [addEdge_of_free (.inl hd) hq] at h; cases h; exact AWF_setDelta hg r a hq
      · rw [addEdge_of_free (.inr hd) hq] at h; cases h; exact AWF_setDelta hg r a hq
      · rw [addEdge_of_succ hd] at h; cases h; exact hg
    · rw [addEdge_of_not_mem hq] at h; cases h
  | removeEdge e => cases h; exact (removeEdge_spec hg e).1
  | removeVertex u =>
    simp only [exec] at h
    by_cases hu : u ∈ g.vertices
    · obtain ⟨g1, h1, h2, _⟩ := removeVertex_spec hg hu
      rw [h1] at h; cases h; exact h2
    · rw [removeVertex_not_mem hg hu] at h; cases h
  | setInitial q b =>
    cases h
    unfold setInitial; split
    · exact ⟨hg.1, hg.2, hg.3⟩
    · split
      · exact ⟨hg.1, hg.2, hg.3⟩
      · exact hg
  | setFinal q b => cases h; exact ⟨hg.1, hg.2, hg.3⟩
  | clear =>
    simp only [exec] at h
    rw [clear_spec hg] at h; cases h
    exact ⟨Dict.nodupKeys_nil, fun _ _ h => (by cases h), fun _ h => (by cases h)⟩

theorem Reachable.awf {g : Automaton A} (h : Reachable g) : AWF g := by
  obtain ⟨ops, h⟩ := h
  exact Runs.invariant (Inv := AWF) AWF_empty (fun s op s' => AWF_exec) h

end Automaton
end PyBGL
