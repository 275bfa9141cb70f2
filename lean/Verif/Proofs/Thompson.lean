import Verif.Proofs.ThompsonPaths

/-!
# Thompson's constructions
-/

namespace PyBGL
variable {A : Type} [DecidableEq A]

namespace Nfa

theorem Single.T_closed {g : Nfa A} {q0 f : Nat} (h : g.Single q0 f) (x : Nat) (a : A) (y : Nat) (hT : g.T x a y) :
    x ∈ g.vertices ∧ y ∈ g.vertices := h.closed x a y ((trans_iff h.wf x a y).2 hT)

theorem Single.lang_iff {g : Nfa A} {q0 f : Nat} (h : g.Single q0 f) (w : List A) :
    g.Lang w ↔ WPath g.T g.eps q0 w f := by
  rw [Nfa.lang_iff h.wf]
  constructor
  · rintro ⟨q, hq, x, hx, hp⟩
    rw [(h.init q).1 hq, (h.fin x).1 hx] at hp; exact hp
  · intro hp; exact ⟨q0, (h.init q0).2 rfl, f, (h.fin f).2 rfl, hp⟩

/-- Building `Single` from lookups. -/
theorem Single.mk' {g : Nfa A} {q0 f : Nat} (wf : g.WF) (lt : ∀ x ∈ g.vertices, x < g.lastVertexId)
    (closed : ∀ q a r, g.T q a r → q ∈ g.vertices ∧ r ∈ g.vertices) (init : ∀ x, x ∈ g.initials ↔ x = q0)
    (fin : ∀ x, g.isFinal x = true ↔ x = f) (q0_mem : q0 ∈ g.vertices) (f_mem : f ∈ g.vertices) : g.Single q0 f :=
  ⟨wf, lt, fun q a r h => closed q a r ((trans_iff wf q a r).1 h), init, fin, q0_mem, f_mem⟩

theorem isFinal_setFinal (g : Nfa A) (q : Nat) (b : Bool) (x : Nat) :
    (g.setFinal q b).isFinal x = if q = x then b else g.isFinal x := by
  simp only [isFinal, setFinal, Dict.getD_set]

theorem WF.setFinal {g : Nfa A} (h : WF g) (q : Nat) (b : Bool) : WF (g.setFinal q b) := ⟨h.outer, h.mid, h.inner⟩

theorem WF.setInitials {g : Nfa A} (h : WF g) (qs : List Nat) : WF (g.setInitials qs) := ⟨h.outer, h.mid, h.inner⟩

theorem vertices_addVertex' {g : Nfa A} (x : Nat) :
    x ∈ g.addVertex.2.vertices ↔ x ∈ g.vertices ∨ x = g.lastVertexId := by
  unfold vertices addVertex; simp only [Dict.mem_keys_set]; exact or_comm

theorem mem_vertices_addEdge (g : Nfa A) (q r : Nat) (a : A) (x : Nat) :
    x ∈ (g.addEdge q r a).2.vertices ↔ x ∈ g.vertices ∨ x = q := by
  unfold vertices addEdge; simp only [Dict.mem_keys_set]; exact or_comm

end Nfa

namespace Thompson
open Nfa

/-! ## `insert_automaton` -/

/-- Invariant of the first loop. -/
structure IV (g1 g2 : Nfa A) (dn : List Nat) (g : Nfa A) (m : Dict Nat Nat) : Prop where
  wf : g.WF
  lt : ∀ x ∈ g.vertices, x < g.lastVertexId
  eps : g.eps = g1.eps
  init : g.initials = g1.initials
  dom : ∀ y, y ∈ dn ↔ ∃ x, m.get? y = some x
  fresh : ∀ y x, m.get? y = some x → x ∉ g1.vertices
  inj : ∀ y y' x, m.get? y = some x → m.get? y' = some x → y = y'
  verts : ∀ x, x ∈ g.vertices ↔ x ∈ g1.vertices ∨ ∃ y, m.get? y = some x
  trans : ∀ x a y, g.T x a y ↔ g1.T x a y
  fin : ∀ x, g.isFinal x = true ↔ g1.isFinal x = true ∨ ∃ y, m.get? y = some x ∧ g2.isFinal y = true

theorem insertVertex_inv {g1 g2 : Nfa A} (hf : ∀ x, g1.isFinal x = true → x ∈ g1.vertices) {dn : List Nat} {g : Nfa A}
    {m : Dict Nat Nat} (h : IV g1 g2 dn g m) {q2 : Nat} (hq : q2 ∉ dn) :
    IV g1 g2 (dn ++ [q2]) (insertVertex g2 (g, m) q2).1 (insertVertex g2 (g, m) q2).2 := by
  have hn : m.get? q2 = none := by
    cases hm : m.get? q2 with
    | none => rfl
    | some x => exact absurd ((h.dom q2).2 ⟨x, hm⟩) hq
  have hc : m.contains q2 = false := by simp [Dict.contains, hn]
  have hfr : g.lastVertexId ∉ g.vertices := fun hv => Nat.lt_irrefl _ (h.lt _ hv)
  have e1 : insertVertex g2 (g, m) q2 =
      (if g2.isFinal q2 then g.addVertex.2.setFinal g.lastVertexId else g.addVertex.2, m.set q2 g.lastVertexId) := by
    unfold insertVertex; simp only [hc, Bool.false_eq_true, if_false]; rfl
  obtain ⟨g', hg'⟩ : ∃ x, x = (if g2.isFinal q2 then g.addVertex.2.setFinal g.lastVertexId else g.addVertex.2) := ⟨_, rfl⟩
  rw [e1, ← hg']
  have hget : ∀ y x, (m.set q2 g.lastVertexId).get? y = some x ↔ (y = q2 ∧ x = g.lastVertexId) ∨ m.get? y = some x := by
    intro y x
    rw [Dict.get?_set]
    by_cases hk : q2 = y
    · subst hk; simp [hn, eq_comm]
    · simp [hk, Ne.symm hk]
  have hv1 : ∀ x ∈ g1.vertices, x ≠ g.lastVertexId := by
    rintro x hx rfl; exact hfr ((h.verts _).2 (.inl hx))
  have hv2 : ∀ y x, m.get? y = some x → x ≠ g.lastVertexId := by
    rintro y x hx rfl; exact hfr ((h.verts _).2 (.inr ⟨y, hx⟩))
  have hV : ∀ x, x ∈ g'.vertices ↔ x ∈ g.vertices ∨ x = g.lastVertexId := by
    intro x; rw [hg']; split <;> exact vertices_addVertex' x
  have hF : ∀ x, g'.isFinal x = true ↔ g.isFinal x = true ∨ (x = g.lastVertexId ∧ g2.isFinal q2 = true) := by
    intro x; rw [hg']; split
    · rename_i h2
      rw [isFinal_setFinal]
      by_cases he : g.lastVertexId = x
      · simp [he, h2]
      · simp only [he, Ne.symm he, if_false, false_and, or_false]; rfl
    · rename_i h2
      have h2' : (g2.isFinal q2 = true) = False := eq_false h2
      rw [h2', and_false, or_false]; rfl
  refine ⟨?_, ?_, ?_, ?_, ?_, ?_, ?_, ?_, ?_, ?_⟩
  · rw [hg']; split
    · exact h.wf.addVertex.setFinal _ _
    · exact h.wf.addVertex
  · intro x hx
    have hl : g'.lastVertexId = g.lastVertexId + 1 := by rw [hg']; split <;> rfl
    rw [hl]
    rcases (hV x).1 hx with hx | rfl
    · have := h.lt x hx; omega
    · omega
  · rw [hg']; split <;> exact h.eps
  · rw [hg']; split <;> exact h.init
  · intro y
    simp only [List.mem_append, List.mem_singleton, hget, h.dom]
    constructor
    · rintro (⟨x, hx⟩ | rfl)
      · exact ⟨x, .inr hx⟩
      · exact ⟨_, .inl ⟨rfl, rfl⟩⟩
    · rintro ⟨x, ⟨e, _⟩ | hx⟩
      · exact .inr e
      · exact .inl ⟨x, hx⟩
  · intro y x hx hv
    rcases (hget y x).1 hx with ⟨_, rfl⟩ | hx
    · exact hv1 _ hv rfl
    · exact h.fresh y x hx hv
  · intro y y' x hy hy'
    rcases (hget y x).1 hy with ⟨e1, e2⟩ | h1 <;> rcases (hget y' x).1 hy' with ⟨e3, e4⟩ | h2
    · rw [e1, e3]
    · exact absurd e2 (hv2 _ _ h2)
    · exact absurd e4 (hv2 _ _ h1)
    · exact h.inj _ _ _ h1 h2
  · intro x
    rw [hV, h.verts]
    simp only [hget]
    constructor
    · rintro ((hx | ⟨y, hy⟩) | rfl)
      · exact .inl hx
      · exact .inr ⟨y, .inr hy⟩
      · exact .inr ⟨q2, .inl ⟨rfl, rfl⟩⟩
    · rintro (hx | ⟨y, ⟨_, rfl⟩ | hy⟩)
      · exact .inl (.inl hx)
      · exact .inr rfl
      · exact .inl (.inr ⟨y, hy⟩)
  · intro x a y
    rw [← h.trans, ← T_addVertex hfr x a y, hg']
    split <;> exact Iff.rfl
  · intro x
    rw [hF, h.fin]
    simp only [hget]
    constructor
    · rintro ((hx | ⟨y, hy, hf⟩) | ⟨rfl, hf⟩)
      · exact .inl hx
      · exact .inr ⟨y, .inr hy, hf⟩
      · exact .inr ⟨q2, .inl ⟨rfl, rfl⟩, hf⟩
    · rintro (hx | ⟨y, ⟨rfl, rfl⟩ | hy, hf⟩)
      · exact .inl (.inl hx)
      · exact .inr ⟨rfl, hf⟩
      · exact .inl (.inr ⟨y, hy, hf⟩)

theorem insertVertices_inv {g1 g2 : Nfa A} (hf : ∀ x, g1.isFinal x = true → x ∈ g1.vertices) (l dn : List Nat)
    (hl : (dn ++ l).Nodup) {g : Nfa A} {m : Dict Nat Nat} (h : IV g1 g2 dn g m) :
    IV g1 g2 (dn ++ l) (l.foldl (insertVertex g2) (g, m)).1 (l.foldl (insertVertex g2) (g, m)).2 := by
  induction l generalizing dn g m with
  | nil => simpa using h
  | cons q2 l ih =>
    have hq : q2 ∉ dn := by
      intro hq
      have := List.nodup_append.1 hl
      exact this.2.2 q2 hq q2 (by simp) rfl
    have h' := insertVertex_inv hf h hq
    have := ih (dn ++ [q2]) (by simpa using hl) h'
    simpa using this

theorem insertEdges_spec (m : Dict Nat Nat) (l : List (EdgeDesc (A × List Nat))) {g : Nfa A} (hwf : g.WF)
    (hm : ∀ e ∈ l, ∃ x y, m.get? e.source = some x ∧ m.get? e.target = some y)
    (hv : ∀ y x, m.get? y = some x → x ∈ g.vertices) :
    ∃ g', l.foldlM (insertEdge m) g = .ok g' ∧ g'.WF ∧ g'.lastVertexId = g.lastVertexId ∧ g'.eps = g.eps ∧
      g'.initials = g.initials ∧ g'.final = g.final ∧ (∀ x, x ∈ g'.vertices ↔ x ∈ g.vertices) ∧
      (∀ x a y, g'.T x a y ↔ g.T x a y ∨ ∃ e ∈ l, m.get? e.source = some x ∧ m.get? e.target = some y ∧
        e.distinguisher.1 = a) := by
  induction l generalizing g with
  | nil => exact ⟨g, rfl, hwf, rfl, rfl, rfl, rfl, fun _ => Iff.rfl, by simp⟩
  | cons e l ih =>
    obtain ⟨x, y, hx, hy⟩ := hm e (by simp)
    have he : insertEdge m g e = .ok (g.addEdge x y e.distinguisher.1).2 := by
      simp [insertEdge, Dict.getE_of_get? hx, Dict.getE_of_get? hy, bind, Except.bind]
    have hve : ∀ z, z ∈ (g.addEdge x y e.distinguisher.1).2.vertices ↔ z ∈ g.vertices := by
      intro z; rw [mem_vertices_addEdge]
      exact ⟨fun h => h.elim id (fun h => h ▸ hv _ _ hx), .inl⟩
    obtain ⟨g', h1, h2, h3, h4, h5, h6, h7, h8⟩ := ih (hwf.addEdge x y e.distinguisher.1)
      (fun e' he' => hm e' (by simp [he'])) (fun y' x' h => (hve x').2 (hv y' x' h))
    refine ⟨g', ?_, h2, h3, h4, h5, h6, fun z => (h7 z).trans (hve z), ?_⟩
    · rw [List.foldlM_cons, he]; exact h1
    · intro z a z'
      rw [h8, T_addEdge]
      simp only [List.mem_cons, exists_eq_or_imp, hx, hy, Option.some.injEq, or_assoc]
      constructor
      · rintro (h | ⟨rfl, rfl, rfl⟩ | h)
        · exact .inl h
        · exact .inr (.inl ⟨rfl, rfl, rfl⟩)
        · exact .inr (.inr h)
      · rintro (h | ⟨rfl, rfl, rfl⟩ | h)
        · exact .inl h
        · exact .inr (.inl ⟨rfl, rfl, rfl⟩)
        · exact .inr (.inr h)

/-- What `insert_automaton` does. -/
structure Inserted (g1 g2 g : Nfa A) (m : Dict Nat Nat) (ρ : Nat → Nat) : Prop where
  wf : g.WF
  lt : ∀ x ∈ g.vertices, x < g.lastVertexId
  eps : g.eps = g1.eps
  init : g.initials = g1.initials
  map : ∀ y ∈ g2.vertices, m.get? y = some (ρ y)
  fresh : ∀ y ∈ g2.vertices, ρ y ∉ g1.vertices
  inj : ∀ y y', y ∈ g2.vertices → y' ∈ g2.vertices → ρ y = ρ y' → y = y'
  verts : ∀ x, x ∈ g.vertices ↔ x ∈ g1.vertices ∨ ∃ y ∈ g2.vertices, x = ρ y
  trans : ∀ x a y, g.T x a y ↔ g1.T x a y ∨ TImage ρ g2.T x a y
  fin : ∀ x, g.isFinal x = true ↔ g1.isFinal x = true ∨ ∃ y ∈ g2.vertices, x = ρ y ∧ g2.isFinal y = true

theorem insertAutomaton_spec {g1 g2 : Nfa A} (w1 : g1.WF) (lt1 : ∀ x ∈ g1.vertices, x < g1.lastVertexId)
    (hf : ∀ x, g1.isFinal x = true → x ∈ g1.vertices) (w2 : g2.WF)
    (c2 : ∀ q a r, g2.T q a r → q ∈ g2.vertices ∧ r ∈ g2.vertices) :
    ∃ g m ρ, insertAutomaton g1 g2 = .ok (g, m) ∧ Inserted g1 g2 g m ρ := by
  have h0 : IV g1 g2 [] g1 [] :=
    ⟨w1, lt1, rfl, rfl, by simp, by simp, by simp, by simp, fun _ _ _ => Iff.rfl, by simp⟩
  have hnd : g2.vertices.Nodup := w2.outer
  have h := insertVertices_inv hf g2.vertices [] (by simpa using hnd) h0
  simp only [List.nil_append] at h
  unfold insertAutomaton
  simp only
  generalize g2.vertices.foldl (insertVertex g2) (g1, []) = s at h
  obtain ⟨gs, m⟩ := s
  simp only at h ⊢
  have hed : ∀ e ∈ g2.edges, g2.T e.source e.distinguisher.1 e.target := by
    intro e he
    exact (trans_iff w2 _ _ _).1 ⟨e.distinguisher.2, he⟩
  have hA : ∀ e ∈ g2.edges, ∃ x y, m.get? e.source = some x ∧ m.get? e.target = some y := by
    intro e he
    have := c2 _ _ _ (hed e he)
    obtain ⟨x, hx⟩ := (h.dom _).1 this.1
    obtain ⟨y, hy⟩ := (h.dom _).1 this.2
    exact ⟨x, y, hx, hy⟩
  have hB : ∀ y x, m.get? y = some x → x ∈ gs.vertices := by
    intro y x hx; exact (h.verts x).2 (.inr ⟨y, hx⟩)
  obtain ⟨g', k1, k2, k3, k4, k5, k6, k7, k8⟩ := insertEdges_spec m g2.edges h.wf hA hB
  · refine ⟨g', m, fun y => (m.get? y).getD 0, by rw [k1]; rfl, ?_⟩
    have hmap : ∀ y ∈ g2.vertices, m.get? y = some ((m.get? y).getD 0) := by
      intro y hy
      obtain ⟨x, hx⟩ := (h.dom y).1 hy
      rw [hx]; rfl
    have hex : ∀ x, (∃ y, m.get? y = some x) ↔ ∃ y ∈ g2.vertices, x = (m.get? y).getD 0 := by
      intro x
      constructor
      · rintro ⟨y, hy⟩; exact ⟨y, (h.dom y).2 ⟨x, hy⟩, by rw [hy]; rfl⟩
      · rintro ⟨y, hy, rfl⟩; exact ⟨y, hmap y hy⟩
    refine ⟨k2, fun x hx => by rw [k3]; exact h.lt x ((k7 x).1 hx), k4.trans h.eps, k5.trans h.init, hmap,
      fun y hy => h.fresh y _ (hmap y hy), ?_, ?_, ?_, ?_⟩
    · intro y y' hy hy' he
      exact h.inj y y' _ (hmap y hy) (by rw [hmap y' hy', ← he])
    · intro x; rw [k7, h.verts, hex]
    · intro x a y
      rw [k8, h.trans]
      refine or_congr Iff.rfl ?_
      constructor
      · rintro ⟨e, he, hx, hy, rfl⟩
        exact ⟨e.source, e.target, hed e he, by simp [hx], by simp [hy]⟩
      · rintro ⟨x', y', hT, rfl, rfl⟩
        obtain ⟨n, hn⟩ := (trans_iff w2 _ _ _).2 hT
        exact ⟨_, hn, hmap _ (c2 _ _ _ hT).1, hmap _ (c2 _ _ _ hT).2, rfl⟩
    · intro x
      have : g'.isFinal x = gs.isFinal x := by unfold Nfa.isFinal; rw [k6]
      rw [this, h.fin]
      refine or_congr Iff.rfl ?_
      constructor
      · rintro ⟨y, hy, hf⟩; exact ⟨y, (h.dom y).2 ⟨x, hy⟩, by simp [hy], hf⟩
      · rintro ⟨y, hy, rfl, hf⟩; exact ⟨y, hmap y hy, hf⟩

theorem Inserted.image_closed {g1 g2 g : Nfa A} {m : Dict Nat Nat} {ρ : Nat → Nat} (_ : Inserted g1 g2 g m ρ)
    (c2 : ∀ q a r, g2.T q a r → q ∈ g2.vertices ∧ r ∈ g2.vertices) (x : Nat) (a : A) (y : Nat)
    (h : TImage ρ g2.T x a y) : (∃ z ∈ g2.vertices, x = ρ z) ∧ ∃ z ∈ g2.vertices, y = ρ z := by
  obtain ⟨x', y', hT, rfl, rfl⟩ := h
  exact ⟨⟨x', (c2 _ _ _ hT).1, rfl⟩, ⟨y', (c2 _ _ _ hT).2, rfl⟩⟩

theorem Inserted.disjoint {g1 g2 g : Nfa A} {m : Dict Nat Nat} {ρ : Nat → Nat} (h : Inserted g1 g2 g m ρ) (x : Nat)
    (hx : x ∈ g1.vertices) : ¬ ∃ z ∈ g2.vertices, x = ρ z := by
  rintro ⟨z, hz, rfl⟩; exact h.fresh z hz hx

/-! ## Concatenation -/

/-- What `concatenation` does, at the level of transitions; the initial state of the first automaton may be unknown to it. -/
theorem concatenation_spec' {g1 g2 : Nfa A} {q1 f1 q2 f2 : Nat} (w1 : g1.WF)
    (lt1 : ∀ x ∈ g1.vertices, x < g1.lastVertexId)
    (c1 : ∀ q a r, g1.T q a r → q ∈ g1.vertices ∧ r ∈ g1.vertices) (hf1 : f1 ∈ g1.vertices)
    (hfin1 : ∀ x, g1.isFinal x = true → x = f1) (h2 : g2.Single q2 f2) :
    ∃ g ρ, concatenation (g1, q1, f1) (g2, q2, f2) = .ok (g, q1, ρ f2) ∧
      ((q1 ∈ g1.vertices ∨ ∃ y ∈ g2.vertices, q1 = ρ y) → g.Single q1 (ρ f2)) ∧ g.eps = g1.eps ∧
      (∀ y ∈ g2.vertices, ρ y ∉ g1.vertices) ∧
      (∀ y y', y ∈ g2.vertices → y' ∈ g2.vertices → ρ y = ρ y' → y = y') ∧
      g.T = TCat g1.eps g1.T (TImage ρ g2.T) f1 (ρ q2) ∧
      (∀ x, x ∈ g.vertices ↔ x ∈ g1.vertices ∨ ∃ y ∈ g2.vertices, x = ρ y) ∧
      ∃ gi m, insertAutomaton g1 g2 = .ok (gi, m) ∧ ∀ y ∈ g2.vertices, m.get? y = some (ρ y) := by
  obtain ⟨g, m, ρ, he, hi⟩ := insertAutomaton_spec (g1 := g1) w1 lt1
    (fun x hx => hfin1 x hx ▸ hf1) h2.wf h2.T_closed
  have hT : ∀ x a y, ((g.addEdge f1 (ρ q2) g.eps).2.setInitials [q1]).T x a y ↔
      TCat g1.eps g1.T (TImage ρ g2.T) f1 (ρ q2) x a y := by
    intro x a y
    have : ((g.addEdge f1 (ρ q2) g.eps).2.setInitials [q1]).T x a y ↔ (g.addEdge f1 (ρ q2) g.eps).2.T x a y := Iff.rfl
    rw [this, T_addEdge, hi.trans, hi.eps]
    unfold TCat; rw [or_assoc]
  have hV : ∀ x, x ∈ (g.addEdge f1 (ρ q2) g.eps).2.vertices ↔ x ∈ g1.vertices ∨ ∃ y ∈ g2.vertices, x = ρ y := by
    intro x; rw [mem_vertices_addEdge, hi.verts]
    exact ⟨fun h => h.elim id (fun h => .inl (h ▸ hf1)), .inl⟩
  refine ⟨((g.addEdge f1 (ρ q2) g.eps).2.setInitials [q1]).setFinal f1 false, ρ, ?_, ?_, hi.eps, hi.fresh, hi.inj, ?_, hV, g, m, he, hi.map⟩
  · unfold concatenation
    simp only [he, Dict.getE_of_get? (hi.map q2 h2.q0_mem), Dict.getE_of_get? (hi.map f2 h2.f_mem), bind, Except.bind]
  · intro hq1
    refine Single.mk' ((hi.wf.addEdge _ _ _).setInitials _ |>.setFinal _ _) ?_ ?_ ?_ ?_ ?_ ?_
    · intro x hx
      exact hi.lt x ((hi.verts x).2 ((hV x).1 hx))
    · intro x a y hxy
      have := (hT x a y).1 hxy
      constructor
      · refine (hV x).2 ?_
        rcases this with h | h | ⟨rfl, _, _⟩
        · exact .inl (c1 _ _ _ h).1
        · exact .inr (hi.image_closed h2.T_closed _ _ _ h).1
        · exact .inl hf1
      · refine (hV y).2 ?_
        rcases this with h | h | ⟨_, _, rfl⟩
        · exact .inl (c1 _ _ _ h).2
        · exact .inr (hi.image_closed h2.T_closed _ _ _ h).2
        · exact .inr ⟨q2, h2.q0_mem, rfl⟩
    · intro x
      show x ∈ mkSet [q1] ↔ _
      rw [mem_mkSet]; simp
    · intro x
      rw [isFinal_setFinal]
      have e : ((g.addEdge f1 (ρ q2) g.eps).2.setInitials [q1]).isFinal x = g.isFinal x := rfl
      rw [e]
      have hne : ρ f2 ≠ f1 := fun h => hi.fresh f2 h2.f_mem (h ▸ hf1)
      split
      · rename_i h; subst h
        simpa using hne.symm
      · rename_i h
        rw [hi.fin]
        constructor
        · rintro (hx | ⟨y, hy, rfl, hy'⟩)
          · exact absurd (hfin1 x hx).symm h
          · rw [(h2.fin y).1 hy']
        · rintro rfl; exact .inr ⟨f2, h2.f_mem, rfl, (h2.fin f2).2 rfl⟩
    · exact (hV q1).2 hq1
    · exact (hV _).2 (.inr ⟨f2, h2.f_mem, rfl⟩)
  · funext x a y; exact propext (hT x a y)

/-- What `concatenation` does, at the level of transitions. -/
theorem concatenation_spec {g1 g2 : Nfa A} {q1 f1 q2 f2 : Nat} (w1 : g1.WF)
    (lt1 : ∀ x ∈ g1.vertices, x < g1.lastVertexId)
    (c1 : ∀ q a r, g1.T q a r → q ∈ g1.vertices ∧ r ∈ g1.vertices) (hq1 : q1 ∈ g1.vertices) (hf1 : f1 ∈ g1.vertices)
    (hfin1 : ∀ x, g1.isFinal x = true → x = f1) (h2 : g2.Single q2 f2) :
    ∃ g ρ, concatenation (g1, q1, f1) (g2, q2, f2) = .ok (g, q1, ρ f2) ∧ g.Single q1 (ρ f2) ∧ g.eps = g1.eps ∧
      (∀ y ∈ g2.vertices, ρ y ∉ g1.vertices) ∧
      (∀ y y', y ∈ g2.vertices → y' ∈ g2.vertices → ρ y = ρ y' → y = y') ∧
      g.T = TCat g1.eps g1.T (TImage ρ g2.T) f1 (ρ q2) ∧
      (∀ x, x ∈ g.vertices ↔ x ∈ g1.vertices ∨ ∃ y ∈ g2.vertices, x = ρ y) := by
  obtain ⟨g, ρ, a1, a2, a3, a4, a5, a6, a7, -⟩ := concatenation_spec' (q1 := q1) w1 lt1 c1 hf1 hfin1 h2
  exact ⟨g, ρ, a1, a2 (.inl hq1), a3, a4, a5, a6, a7⟩

/-! ## Observables of the mutators -/

@[simp] theorem T_setFinal (g : Nfa A) (q : Nat) (b : Bool) (x : Nat) (a : A) (y : Nat) :
    (g.setFinal q b).T x a y ↔ g.T x a y := Iff.rfl
@[simp] theorem T_setInitials (g : Nfa A) (qs : List Nat) (x : Nat) (a : A) (y : Nat) :
    (g.setInitials qs).T x a y ↔ g.T x a y := Iff.rfl
@[simp] theorem eps_setFinal (g : Nfa A) (q : Nat) (b : Bool) : (g.setFinal q b).eps = g.eps := rfl
@[simp] theorem eps_setInitials (g : Nfa A) (qs : List Nat) : (g.setInitials qs).eps = g.eps := rfl
@[simp] theorem eps_addVertex (g : Nfa A) : g.addVertex.2.eps = g.eps := rfl
@[simp] theorem eps_addEdge (g : Nfa A) (q r : Nat) (a : A) : (g.addEdge q r a).2.eps = g.eps := rfl
@[simp] theorem isFinal_setInitials (g : Nfa A) (qs : List Nat) (x : Nat) :
    (g.setInitials qs).isFinal x = g.isFinal x := rfl
@[simp] theorem isFinal_addVertex (g : Nfa A) (x : Nat) : g.addVertex.2.isFinal x = g.isFinal x := rfl
@[simp] theorem isFinal_addEdge (g : Nfa A) (q r : Nat) (a : A) (x : Nat) :
    (g.addEdge q r a).2.isFinal x = g.isFinal x := rfl
@[simp] theorem vertices_setInitials (g : Nfa A) (qs : List Nat) : (g.setInitials qs).vertices = g.vertices := rfl
@[simp] theorem vertices_setFinal (g : Nfa A) (q : Nat) (b : Bool) : (g.setFinal q b).vertices = g.vertices := rfl
@[simp] theorem last_setInitials (g : Nfa A) (qs : List Nat) : (g.setInitials qs).lastVertexId = g.lastVertexId := rfl
@[simp] theorem last_setFinal (g : Nfa A) (q : Nat) (b : Bool) : (g.setFinal q b).lastVertexId = g.lastVertexId := rfl
@[simp] theorem last_addEdge (g : Nfa A) (q r : Nat) (a : A) : (g.addEdge q r a).2.lastVertexId = g.lastVertexId := rfl
@[simp] theorem last_addVertex (g : Nfa A) : g.addVertex.2.lastVertexId = g.lastVertexId + 1 := rfl
@[simp] theorem fst_addVertex (g : Nfa A) : g.addVertex.1 = g.lastVertexId := rfl

/-- Representation invariant with fresh identifiers. -/
structure Good (g : Nfa A) : Prop where
  wf : g.WF
  lt : ∀ x ∈ g.vertices, x < g.lastVertexId

theorem Good.fresh {g : Nfa A} (h : Good g) : g.lastVertexId ∉ g.vertices := fun hv => Nat.lt_irrefl _ (h.lt _ hv)

theorem Good.addVertex {g : Nfa A} (h : Good g) : Good g.addVertex.2 := by
  refine ⟨h.wf.addVertex, fun x hx => ?_⟩
  rw [vertices_addVertex'] at hx
  rw [last_addVertex]
  rcases hx with hx | rfl
  · have := h.lt x hx; omega
  · omega

theorem Good.addEdge {g : Nfa A} (h : Good g) {q : Nat} (hq : q ∈ g.vertices) (r : Nat) (a : A) :
    Good (g.addEdge q r a).2 := by
  refine ⟨h.wf.addEdge _ _ _, fun x hx => ?_⟩
  rw [mem_vertices_addEdge] at hx
  rcases hx with hx | rfl
  · exact h.lt x hx
  · exact h.lt x hq

theorem Good.setFinal {g : Nfa A} (h : Good g) (q : Nat) (b : Bool) : Good (g.setFinal q b) :=
  ⟨h.wf.setFinal _ _, h.lt⟩

theorem Good.setInitials {g : Nfa A} (h : Good g) (qs : List Nat) : Good (g.setInitials qs) :=
  ⟨h.wf.setInitials _, h.lt⟩

theorem Good.T_addVertex {g : Nfa A} (h : Good g) (x : Nat) (a : A) (y : Nat) :
    g.addVertex.2.T x a y ↔ g.T x a y := Nfa.T_addVertex h.fresh x a y

theorem good_init (eps : A) (qs : List Nat) (n : Nat) :
    Good (Nfa.init eps qs n) ∧ (Nfa.init eps qs n).lastVertexId = n ∧ (Nfa.init eps qs n).eps = eps ∧
      (∀ x, x ∈ (Nfa.init eps qs n).vertices ↔ x < n) ∧ (∀ x a y, ¬ (Nfa.init eps qs n).T x a y) ∧
      (∀ x, (Nfa.init eps qs n).isFinal x = false) := by
  induction n with
  | zero =>
    refine ⟨⟨WF_init _ _ _, ?_⟩, rfl, rfl, ?_, ?_, fun _ => rfl⟩
    · intro x hx; simp [Nfa.init, Nfa.vertices, Dict.keys] at hx
    · intro x; simp [Nfa.init, Nfa.vertices, Dict.keys]
    · intro x a y; simp [Nfa.init, Nfa.T, Nfa.targets, Dict.keys, Dict.getD, Dict.get?]
  | succ n ih =>
    obtain ⟨h1, h2, h3, h4, h5, h6⟩ := ih
    refine ⟨h1.addVertex, by show _ + 1 = _; rw [h2], h3, ?_, ?_, h6⟩
    · intro x
      have := vertices_addVertex' (g := Nfa.init eps qs n) x
      rw [h4, h2] at this
      rw [Nfa.init, this]; omega
    · intro x a y; rw [Nfa.init, h1.T_addVertex]; exact h5 x a y

theorem initials_init (eps : A) (n : Nat) : (Nfa.init eps [] n).initials = [0] := by
  induction n with
  | zero => rfl
  | succ n ih => exact ih

/-! ## Literals and brackets -/

theorem bracket_T (chars : List A) {g : Nfa A} (hg : Good g) (h0 : 0 ∈ g.vertices) :
    let g' := chars.foldl (fun g a => (g.addEdge 0 1 a).2) g
    Good g' ∧ g'.eps = g.eps ∧ g'.initials = g.initials ∧ g'.final = g.final ∧ (∀ x, x ∈ g'.vertices ↔ x ∈ g.vertices) ∧
      ∀ x a y, g'.T x a y ↔ g.T x a y ∨ (x = 0 ∧ a ∈ chars ∧ y = 1) := by
  induction chars generalizing g with
  | nil => exact ⟨hg, rfl, rfl, rfl, fun _ => Iff.rfl, by simp⟩
  | cons c chars ih =>
    have hv : ∀ x, x ∈ (g.addEdge 0 1 c).2.vertices ↔ x ∈ g.vertices := by
      intro x; rw [mem_vertices_addEdge]; exact ⟨fun h => h.elim id (fun h => h ▸ h0), .inl⟩
    obtain ⟨h1, h2, h3, h4, h5, h6⟩ := ih (hg.addEdge h0 1 c) ((hv 0).2 h0)
    refine ⟨h1, h2, h3, h4, fun x => (h5 x).trans (hv x), ?_⟩
    intro x a y
    show (chars.foldl (fun g a => (g.addEdge 0 1 a).2) (g.addEdge 0 1 c).2).T x a y ↔ _
    rw [h6, T_addEdge, List.mem_cons]
    constructor
    · rintro ((h | ⟨rfl, rfl, rfl⟩) | ⟨rfl, h, rfl⟩)
      · exact .inl h
      · exact .inr ⟨rfl, .inl rfl, rfl⟩
      · exact .inr ⟨rfl, .inr h, rfl⟩
    · rintro (h | ⟨rfl, rfl | h, rfl⟩)
      · exact .inl (.inl h)
      · exact .inl (.inr ⟨rfl, rfl, rfl⟩)
      · exact .inr ⟨rfl, h, rfl⟩

theorem bracket_spec (eps : A) (chars : List A) :
    (bracket eps chars).1.Single 0 1 ∧ (bracket eps chars).1.eps = eps ∧
      ∀ x a y, (bracket eps chars).1.T x a y ↔ x = 0 ∧ a ∈ chars ∧ y = 1 := by
  obtain ⟨h1, h2, h3, h4, h5, h6⟩ := good_init eps [] 2
  obtain ⟨k1, k2, k3, k4, k5, k6⟩ := bracket_T chars (h1.setFinal 1 true) ((h4 0).2 (by omega))
  have hT : ∀ x a y, (bracket eps chars).1.T x a y ↔ x = 0 ∧ a ∈ chars ∧ y = 1 := by
    intro x a y
    show (chars.foldl (fun g a => (g.addEdge 0 1 a).2) ((Nfa.init eps [] 2).setFinal 1)).T x a y ↔ _
    rw [k6, T_setFinal]; simp [h5 x a y]
  have hV : ∀ x, x ∈ (bracket eps chars).1.vertices ↔ x < 2 := fun x => (k5 x).trans (h4 x)
  refine ⟨Single.mk' k1.wf k1.lt ?_ ?_ ?_ ((hV 0).2 (by omega)) ((hV 1).2 (by omega)), k2.trans h3, hT⟩
  · intro x a y h
    obtain ⟨rfl, _, rfl⟩ := (hT x a y).1 h
    exact ⟨(hV 0).2 (by omega), (hV 1).2 (by omega)⟩
  · intro x
    have : (bracket eps chars).1.initials = [0] := k3.trans (initials_init eps 2)
    rw [this]; simp
  · intro x
    have : (bracket eps chars).1.isFinal x = ((Nfa.init eps [] 2).setFinal 1).isFinal x := by
      unfold Nfa.isFinal; rw [← k4]; rfl
    rw [this, isFinal_setFinal, h6]
    by_cases hx : 1 = x
    · simp [hx]
    · simp [hx, Ne.symm hx]

theorem literal_eq (eps a : A) : literal eps a = bracket eps [a] := rfl

theorem bracket_lang {eps : A} {chars : List A} (hc : eps ∉ chars) (w : List A) :
    WPath (bracket eps chars).1.T eps 0 w 1 ↔ ∃ a ∈ chars, w = [a] := by
  obtain ⟨_, _, hT⟩ := bracket_spec eps chars
  constructor
  · intro h
    rcases h.cases with ⟨_, h⟩ | ⟨s, hs, _⟩ | ⟨a, s, v, rfl, ha, hs, hv⟩
    · cases h
    · exact absurd ((hT _ _ _).1 hs).2.1 hc
    · obtain ⟨_, hac, rfl⟩ := (hT _ _ _).1 hs
      have : v = [] := (WPath.of_noOut (fun a x h => by have := ((hT _ _ _).1 h).1; omega) hv).2
      subst this; exact ⟨a, hac, rfl⟩
  · rintro ⟨a, ha, rfl⟩
    exact WPath.symStep (by rintro rfl; exact hc ha) ((hT _ _ _).2 ⟨rfl, ha, rfl⟩)

/-! ## Alternation -/

theorem alternation_spec' {g1 g2 : Nfa A} {q1 f1 q2 f2 : Nat} (h1 : g1.Single q1 f1) (h2 : g2.Single q2 f2) :
    ∃ g q f ρ, alternation (g1, q1, f1) (g2, q2, f2) = .ok (g, q, f) ∧ g.Single q f ∧ g.eps = g1.eps ∧
      (∀ y ∈ g2.vertices, ρ y ∉ g1.vertices) ∧
      (∀ y y', y ∈ g2.vertices → y' ∈ g2.vertices → ρ y = ρ y' → y = y') ∧
      (q ∉ g1.vertices ∧ ¬ ∃ y ∈ g2.vertices, q = ρ y) ∧ (f ∉ g1.vertices ∧ ¬ ∃ y ∈ g2.vertices, f = ρ y) ∧ q ≠ f ∧
      g.T = TAlt g1.eps g1.T (TImage ρ g2.T) q1 f1 (ρ q2) (ρ f2) q f ∧
      ∃ gi m, insertAutomaton g1 g2 = .ok (gi, m) ∧ q = gi.lastVertexId ∧ ∀ y ∈ g2.vertices, m.get? y = some (ρ y) := by
  obtain ⟨g, m, ρ, he, hi⟩ := insertAutomaton_spec (g1 := g1) h1.wf h1.lt
    (fun x hx => (h1.fin x).1 hx ▸ h1.f_mem) h2.wf h2.T_closed
  have hg : Good g := ⟨hi.wf, hi.lt⟩
  have hq1 : q1 ∈ g.vertices := (hi.verts _).2 (.inl h1.q0_mem)
  have hf1 : f1 ∈ g.vertices := (hi.verts _).2 (.inl h1.f_mem)
  have hq2 : ρ q2 ∈ g.vertices := (hi.verts _).2 (.inr ⟨q2, h2.q0_mem, rfl⟩)
  have hf2 : ρ f2 ∈ g.vertices := (hi.verts _).2 (.inr ⟨f2, h2.f_mem, rfl⟩)
  have hqn : g.lastVertexId ∉ g.vertices := hg.fresh
  have hfn : g.lastVertexId + 1 ∉ g.vertices := fun h => by have := hg.lt _ h; omega
  -- the successive automata
  have k1 : Good g.addVertex.2 := hg.addVertex
  have v1 : ∀ x, x ∈ g.addVertex.2.vertices ↔ x ∈ g.vertices ∨ x = g.lastVertexId := fun x => vertices_addVertex' x
  have k2 := k1.addEdge ((v1 g.lastVertexId).2 (.inr rfl)) q1 g1.eps
  have k3 := k2.addEdge (q := g.lastVertexId) (by rw [mem_vertices_addEdge]; exact .inr rfl) (ρ q2) g1.eps
  have k4 := (k3.setInitials [g.lastVertexId]).addVertex
  have k5 := k4.addEdge (q := f1)
    (by simp only [vertices_addVertex', vertices_setInitials, mem_vertices_addEdge]; exact .inl (.inl (.inl (.inl hf1))))
    (g.lastVertexId + 1) g1.eps
  have k6 := k5.addEdge (q := ρ f2)
    (by
      simp only [vertices_addVertex', vertices_setInitials, mem_vertices_addEdge]
      exact .inl (.inl (.inl (.inl (.inl hf2))))) (g.lastVertexId + 1) g1.eps
  have k7 := ((k6.setFinal f1 false).setFinal (ρ f2) false).setFinal (g.lastVertexId + 1) true
  have hT : ∀ x a y, (((((((((g.addVertex.2.addEdge g.lastVertexId q1 g1.eps).2.addEdge g.lastVertexId (ρ q2) g1.eps).2).setInitials
      [g.lastVertexId]).addVertex.2.addEdge f1 (g.lastVertexId + 1) g1.eps).2.addEdge (ρ f2) (g.lastVertexId + 1) g1.eps).2.setFinal
      f1 false).setFinal (ρ f2) false).setFinal (g.lastVertexId + 1) true).T x a y ↔
      TAlt g1.eps g1.T (TImage ρ g2.T) q1 f1 (ρ q2) (ρ f2) g.lastVertexId (g.lastVertexId + 1) x a y := by
    intro x a y
    simp only [T_setFinal, T_addEdge, (k3.setInitials [g.lastVertexId]).T_addVertex, T_setInitials, hg.T_addVertex, hi.trans,
      TAlt]
    tauto
  have hV : ∀ x, x ∈ (((((((((g.addVertex.2.addEdge g.lastVertexId q1 g1.eps).2.addEdge g.lastVertexId (ρ q2) g1.eps).2).setInitials
      [g.lastVertexId]).addVertex.2.addEdge f1 (g.lastVertexId + 1) g1.eps).2.addEdge (ρ f2) (g.lastVertexId + 1) g1.eps).2.setFinal
      f1 false).setFinal (ρ f2) false).setFinal (g.lastVertexId + 1) true).vertices ↔
      x ∈ g.vertices ∨ x = g.lastVertexId ∨ x = g.lastVertexId + 1 := by
    intro x
    simp only [vertices_setFinal, mem_vertices_addEdge, vertices_addVertex', vertices_setInitials, last_setInitials,
      last_addEdge, last_addVertex]
    constructor
    · rintro ((((((h | h) | h) | h) | h) | h) | h)
      · exact .inl h
      · exact .inr (.inl h)
      · exact .inr (.inl h)
      · exact .inr (.inl h)
      · exact .inr (.inr h)
      · exact .inl (h ▸ hf1)
      · exact .inl (h ▸ hf2)
    · rintro (h | h | h) <;> simp [h]
  refine ⟨_, g.lastVertexId, g.lastVertexId + 1, ρ, ?_, Single.mk' k7.wf k7.lt ?_ ?_ ?_ ?_ ?_, hi.eps, hi.fresh, hi.inj,
    ⟨fun h => hqn ((hi.verts _).2 (.inl h)), fun h => hqn ((hi.verts _).2 (.inr h))⟩,
    ⟨fun h => hfn ((hi.verts _).2 (.inl h)), fun h => hfn ((hi.verts _).2 (.inr h))⟩, by omega, ?_, g, m, he, rfl, hi.map⟩
  · unfold alternation
    simp only [he, Dict.getE_of_get? (hi.map q2 h2.q0_mem), Dict.getE_of_get? (hi.map f2 h2.f_mem), bind, Except.bind]
    rfl
  · intro x a y h
    rw [hV, hV]
    rcases (hT x a y).1 h with h | h | ⟨_, ⟨rfl, rfl⟩ | ⟨rfl, rfl⟩ | ⟨rfl, rfl⟩ | ⟨rfl, rfl⟩⟩
    · have := h1.T_closed _ _ _ h
      exact ⟨.inl ((hi.verts _).2 (.inl this.1)), .inl ((hi.verts _).2 (.inl this.2))⟩
    · have := hi.image_closed h2.T_closed _ _ _ h
      exact ⟨.inl ((hi.verts _).2 (.inr this.1)), .inl ((hi.verts _).2 (.inr this.2))⟩
    · exact ⟨.inr (.inl rfl), .inl hq1⟩
    · exact ⟨.inr (.inl rfl), .inl hq2⟩
    · exact ⟨.inl hf1, .inr (.inr rfl)⟩
    · exact ⟨.inl hf2, .inr (.inr rfl)⟩
  · intro x
    show x ∈ mkSet [g.lastVertexId] ↔ _
    rw [mem_mkSet]; simp
  · intro x
    simp only [isFinal_setFinal, isFinal_addEdge, isFinal_addVertex, isFinal_setInitials]
    by_cases e1 : g.lastVertexId + 1 = x
    · simp [e1]
    · rw [if_neg e1]
      by_cases e2 : ρ f2 = x
      · rw [if_pos e2]; simp [Ne.symm e1]
      · rw [if_neg e2]
        by_cases e3 : f1 = x
        · rw [if_pos e3]; simp [Ne.symm e1]
        · rw [if_neg e3, hi.fin]
          constructor
          · rintro (h | ⟨y, hy, rfl, hf⟩)
            · exact absurd ((h1.fin x).1 h).symm e3
            · exact absurd (by rw [(h2.fin y).1 hf]) e2
          · rintro rfl; exact absurd rfl e1
  · exact (hV _).2 (.inr (.inl rfl))
  · exact (hV _).2 (.inr (.inr rfl))
  · funext x a y; exact propext (hT x a y)

theorem alternation_spec {g1 g2 : Nfa A} {q1 f1 q2 f2 : Nat} (h1 : g1.Single q1 f1) (h2 : g2.Single q2 f2) :
    ∃ g q f ρ, alternation (g1, q1, f1) (g2, q2, f2) = .ok (g, q, f) ∧ g.Single q f ∧ g.eps = g1.eps ∧
      (∀ y ∈ g2.vertices, ρ y ∉ g1.vertices) ∧
      (∀ y y', y ∈ g2.vertices → y' ∈ g2.vertices → ρ y = ρ y' → y = y') ∧
      (q ∉ g1.vertices ∧ ¬ ∃ y ∈ g2.vertices, q = ρ y) ∧ (f ∉ g1.vertices ∧ ¬ ∃ y ∈ g2.vertices, f = ρ y) ∧ q ≠ f ∧
      g.T = TAlt g1.eps g1.T (TImage ρ g2.T) q1 f1 (ρ q2) (ρ f2) q f := by
  obtain ⟨g, q, f, ρ, a1, a2, a3, a4, a5, a6, a7, a8, a9, -⟩ := alternation_spec' h1 h2
  exact ⟨g, q, f, ρ, a1, a2, a3, a4, a5, a6, a7, a8, a9⟩

/-! ## Star, plus, optional -/

theorem zeroOrMore_spec {g : Nfa A} {q0 f : Nat} (h : g.Single q0 f) :
    ∃ g', zeroOrMore (g, q0, f) = (g', g.lastVertexId, g.lastVertexId + 1) ∧
      g'.Single g.lastVertexId (g.lastVertexId + 1) ∧ g'.eps = g.eps ∧
      g'.T = TStar g.eps g.T q0 f g.lastVertexId (g.lastVertexId + 1) := by
  have hg : Good g := ⟨h.wf, h.lt⟩
  have k1 := hg.addVertex
  have k2 := k1.addVertex
  have hv2 : ∀ x, x ∈ g.addVertex.2.addVertex.2.vertices ↔ x ∈ g.vertices ∨ x = g.lastVertexId ∨ x = g.lastVertexId + 1 := by
    intro x; simp only [vertices_addVertex', last_addVertex, or_assoc]
  have k3 := k2.addEdge (q := g.lastVertexId) ((hv2 _).2 (.inr (.inl rfl))) q0 g.eps
  have k4 := k3.addEdge (q := f) (by rw [mem_vertices_addEdge, hv2]; exact .inl (.inl h.f_mem)) (g.lastVertexId + 1) g.eps
  have k5 := k4.addEdge (q := g.lastVertexId)
    (by simp [mem_vertices_addEdge]) (g.lastVertexId + 1) g.eps
  have k6 := k5.addEdge (q := g.lastVertexId + 1)
    (by simp [mem_vertices_addEdge, hv2]) g.lastVertexId g.eps
  have k7 := ((k6.setInitials [g.lastVertexId]).setFinal f false).setFinal (g.lastVertexId + 1) true
  have hT : ∀ x a y, ((((((((g.addVertex.2.addVertex.2.addEdge g.lastVertexId q0 g.eps).2).addEdge f (g.lastVertexId + 1) g.eps).2.addEdge
      g.lastVertexId (g.lastVertexId + 1) g.eps).2.addEdge (g.lastVertexId + 1) g.lastVertexId g.eps).2.setInitials
      [g.lastVertexId]).setFinal f false).setFinal (g.lastVertexId + 1) true).T x a y ↔
      TStar g.eps g.T q0 f g.lastVertexId (g.lastVertexId + 1) x a y := by
    intro x a y
    simp only [T_setFinal, T_setInitials, T_addEdge, k1.T_addVertex, hg.T_addVertex, TStar]
    tauto
  have hV : ∀ x, x ∈ ((((((((g.addVertex.2.addVertex.2.addEdge g.lastVertexId q0 g.eps).2).addEdge f (g.lastVertexId + 1) g.eps).2.addEdge
      g.lastVertexId (g.lastVertexId + 1) g.eps).2.addEdge (g.lastVertexId + 1) g.lastVertexId g.eps).2.setInitials
      [g.lastVertexId]).setFinal f false).setFinal (g.lastVertexId + 1) true).vertices ↔
      x ∈ g.vertices ∨ x = g.lastVertexId ∨ x = g.lastVertexId + 1 := by
    intro x
    simp only [vertices_setFinal, vertices_setInitials, mem_vertices_addEdge, hv2]
    constructor
    · rintro ((((h1 | h1) | h1) | h1) | h1)
      · exact h1
      · exact .inr (.inl h1)
      · exact .inl (h1 ▸ h.f_mem)
      · exact .inr (.inl h1)
      · exact .inr (.inr h1)
    · intro h1; simp [h1]
  refine ⟨((((((((g.addVertex.2.addVertex.2.addEdge g.lastVertexId q0 g.eps).2).addEdge f (g.lastVertexId + 1) g.eps).2.addEdge
      g.lastVertexId (g.lastVertexId + 1) g.eps).2.addEdge (g.lastVertexId + 1) g.lastVertexId g.eps).2.setInitials
      [g.lastVertexId]).setFinal f false).setFinal (g.lastVertexId + 1) true), rfl, Single.mk' k7.wf k7.lt ?_ ?_ ?_ ((hV _).2 (.inr (.inl rfl))) ((hV _).2 (.inr (.inr rfl))), rfl,
    by funext x a y; exact propext (hT x a y)⟩
  · intro x a y hxy
    rw [hV, hV]
    rcases (hT x a y).1 hxy with h' | ⟨_, ⟨rfl, rfl⟩ | ⟨rfl, rfl⟩ | ⟨rfl, rfl⟩ | ⟨rfl, rfl⟩⟩
    · have := h.T_closed _ _ _ h'
      exact ⟨.inl this.1, .inl this.2⟩
    · exact ⟨.inr (.inl rfl), .inl h.q0_mem⟩
    · exact ⟨.inl h.f_mem, .inr (.inr rfl)⟩
    · exact ⟨.inr (.inl rfl), .inr (.inr rfl)⟩
    · exact ⟨.inr (.inr rfl), .inr (.inl rfl)⟩
  · intro x
    show x ∈ mkSet [g.lastVertexId] ↔ _
    rw [mem_mkSet]; simp
  · intro x
    show Nfa.isFinal (Nfa.setFinal _ (g.lastVertexId + 1) true) x = true ↔ _
    simp only [isFinal_setFinal, isFinal_addEdge, isFinal_addVertex, isFinal_setInitials]
    by_cases e1 : g.lastVertexId + 1 = x
    · simp [e1]
    · rw [if_neg e1]
      by_cases e2 : f = x
      · rw [if_pos e2]; simp [Ne.symm e1]
      · rw [if_neg e2, h.fin]; simp [Ne.symm e1, Ne.symm e2]

theorem oneOrMore_spec {g : Nfa A} {q0 f : Nat} (h : g.Single q0 f) :
    ∃ g', oneOrMore (g, q0, f) = (g', g.lastVertexId, g.lastVertexId + 1) ∧
      g'.Single g.lastVertexId (g.lastVertexId + 1) ∧ g'.eps = g.eps ∧
      g'.T = TPlus g.eps g.T q0 f g.lastVertexId (g.lastVertexId + 1) := by
  have hg : Good g := ⟨h.wf, h.lt⟩
  have k1 := hg.addVertex
  have k2 := k1.addVertex
  have hv2 : ∀ x, x ∈ g.addVertex.2.addVertex.2.vertices ↔ x ∈ g.vertices ∨ x = g.lastVertexId ∨ x = g.lastVertexId + 1 := by
    intro x; simp only [vertices_addVertex', last_addVertex, or_assoc]
  have k3 := k2.addEdge (q := g.lastVertexId) ((hv2 _).2 (.inr (.inl rfl))) q0 g.eps
  have k4 := k3.addEdge (q := f) (by rw [mem_vertices_addEdge, hv2]; exact .inl (.inl h.f_mem)) (g.lastVertexId + 1) g.eps
  have k6 := k4.addEdge (q := g.lastVertexId + 1)
    (by simp [mem_vertices_addEdge, hv2]) g.lastVertexId g.eps
  have k7 := ((k6.setInitials [g.lastVertexId]).setFinal f false).setFinal (g.lastVertexId + 1) true
  have hT : ∀ x a y, (((((((g.addVertex.2.addVertex.2.addEdge g.lastVertexId q0 g.eps).2).addEdge f (g.lastVertexId + 1) g.eps).2.addEdge
      (g.lastVertexId + 1) g.lastVertexId g.eps).2.setInitials
      [g.lastVertexId]).setFinal f false).setFinal (g.lastVertexId + 1) true).T x a y ↔
      TPlus g.eps g.T q0 f g.lastVertexId (g.lastVertexId + 1) x a y := by
    intro x a y
    simp only [T_setFinal, T_setInitials, T_addEdge, k1.T_addVertex, hg.T_addVertex, TPlus]
    tauto
  have hV : ∀ x, x ∈ (((((((g.addVertex.2.addVertex.2.addEdge g.lastVertexId q0 g.eps).2).addEdge f (g.lastVertexId + 1) g.eps).2.addEdge
      (g.lastVertexId + 1) g.lastVertexId g.eps).2.setInitials
      [g.lastVertexId]).setFinal f false).setFinal (g.lastVertexId + 1) true).vertices ↔
      x ∈ g.vertices ∨ x = g.lastVertexId ∨ x = g.lastVertexId + 1 := by
    intro x
    simp only [vertices_setFinal, vertices_setInitials, mem_vertices_addEdge, hv2]
    constructor
    · rintro (((h1 | h1) | h1) | h1)
      · exact h1
      · exact .inr (.inl h1)
      · exact .inl (h1 ▸ h.f_mem)
      · exact .inr (.inr h1)
    · intro h1; simp [h1]
  refine ⟨(((((((g.addVertex.2.addVertex.2.addEdge g.lastVertexId q0 g.eps).2).addEdge f (g.lastVertexId + 1) g.eps).2.addEdge
      (g.lastVertexId + 1) g.lastVertexId g.eps).2.setInitials
      [g.lastVertexId]).setFinal f false).setFinal (g.lastVertexId + 1) true), rfl, Single.mk' k7.wf k7.lt ?_ ?_ ?_ ((hV _).2 (.inr (.inl rfl))) ((hV _).2 (.inr (.inr rfl))), rfl,
    by funext x a y; exact propext (hT x a y)⟩
  · intro x a y hxy
    rw [hV, hV]
    rcases (hT x a y).1 hxy with h' | ⟨_, ⟨rfl, rfl⟩ | ⟨rfl, rfl⟩ | ⟨rfl, rfl⟩⟩
    · have := h.T_closed _ _ _ h'
      exact ⟨.inl this.1, .inl this.2⟩
    · exact ⟨.inr (.inl rfl), .inl h.q0_mem⟩
    · exact ⟨.inl h.f_mem, .inr (.inr rfl)⟩
    · exact ⟨.inr (.inr rfl), .inr (.inl rfl)⟩
  · intro x
    show x ∈ mkSet [g.lastVertexId] ↔ _
    rw [mem_mkSet]; simp
  · intro x
    show Nfa.isFinal (Nfa.setFinal _ (g.lastVertexId + 1) true) x = true ↔ _
    simp only [isFinal_setFinal, isFinal_addEdge, isFinal_addVertex, isFinal_setInitials]
    by_cases e1 : g.lastVertexId + 1 = x
    · simp [e1]
    · rw [if_neg e1]
      by_cases e2 : f = x
      · rw [if_pos e2]; simp [Ne.symm e1]
      · rw [if_neg e2, h.fin]; simp [Ne.symm e1, Ne.symm e2]

/-- Adding a transition between two vertices. -/
theorem single_addEdge {g : Nfa A} {q0 f : Nat} (h : g.Single q0 f) {x y : Nat} (hx : x ∈ g.vertices)
    (hy : y ∈ g.vertices) (a : A) : (g.addEdge x y a).2.Single q0 f := by
  have k := (Good.mk h.wf h.lt).addEdge hx y a
  have hV : ∀ z, z ∈ (g.addEdge x y a).2.vertices ↔ z ∈ g.vertices := by
    intro z; rw [mem_vertices_addEdge]; exact ⟨fun h => h.elim id (fun h => h ▸ hx), .inl⟩
  refine Single.mk' k.wf k.lt ?_ h.init h.fin ((hV _).2 h.q0_mem) ((hV _).2 h.f_mem)
  intro z b z' hT
  rw [hV, hV]
  rcases (T_addEdge _ _ _ _ _ _ _).1 hT with hT | ⟨rfl, _, rfl⟩
  · exact h.T_closed _ _ _ hT
  · exact ⟨hx, hy⟩

theorem zeroOrOne_spec {g : Nfa A} {q0 f : Nat} (h : g.Single q0 f) :
    ∃ g', zeroOrOne (g, q0, f) = (g', q0, f) ∧ g'.Single q0 f ∧ g'.eps = g.eps ∧ g'.T = TOpt g.eps g.T q0 f := by
  refine ⟨_, rfl, single_addEdge h h.q0_mem h.f_mem _, rfl, ?_⟩
  funext x a y
  refine propext ?_
  rw [T_addEdge]
  rfl

end Thompson
end PyBGL
