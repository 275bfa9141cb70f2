import Verif.Proofs.DirectedGraph

namespace PyBGL

theorem Dict.set_set {K V : Type} [DecidableEq K] (d : Dict K V) (k : K) (a b : V) :
    (d.set k a).set k b = d.set k b := by
  induction d with
  | nil => simp [Dict.set]
  | cons p d ih =>
    obtain ⟨k', v'⟩ := p
    by_cases h : k' = k <;> simp [Dict.set, h, ih]

theorem Dict.keys_erase {K V : Type} [DecidableEq K] (d : Dict K V) (hd : d.NodupKeys) (u : K) :
    Dict.keys (d.erase u) = (Dict.keys d).filter (· ≠ u) := by
  induction d with
  | nil => rfl
  | cons p d ih =>
    obtain ⟨k, v⟩ := p
    simp only [Dict.NodupKeys, List.map_cons, List.nodup_cons] at hd
    have ih' := ih hd.2
    by_cases hk : k = u
    · subst hk
      simp only [Dict.erase, if_true, Dict.keys, List.map_cons, ne_eq, not_true_eq_false,
        decide_false, List.filter_cons, Bool.false_eq_true, if_false]
      rw [List.filter_eq_self.2]
      intro a ha
      simp only [decide_not, Bool.not_eq_eq_eq_not, Bool.not_true, decide_eq_false_iff_not]
      rintro rfl
      exact hd.1 ha
    · have : Dict.keys ((k, v) :: Dict.erase d u) = k :: Dict.keys (Dict.erase d u) := rfl
      simp only [Dict.erase, hk, if_false, this, ih']
      simp [Dict.keys, hk]

namespace UGraph
open Graph

/-- Symmetry of the adjacencies. -/
def Sym (g : Graph) : Prop := ∀ u v n, n ∈ lk g.adj u v ↔ n ∈ lk g.adj v u

theorem edges_eq (g : Graph) : edges g = g.edges.filter fun e => e.source ≤ e.target := by
  simp only [edges, Graph.edges, List.filter_flatMap]
  congr 1; funext p; congr 1; funext q
  split
  · rename_i h; rw [List.filter_eq_self.2]; simp [h]
  · rename_i h; rw [List.filter_eq_nil_iff.2]; simp; omega

theorem mem_edges {g : Graph} (hw : AdjWF g.adj) (e : EdgeDesc Nat) :
    e ∈ edges g ↔ e.distinguisher ∈ lk g.adj e.source e.target ∧ e.source ≤ e.target := by
  rw [edges_eq, List.mem_filter, Graph.mem_edges hw]; simp

theorem nodup_edges {g : Graph} (hw : AdjWF g.adj) : (edges g).Nodup := by
  rw [edges_eq]; exact (Graph.nodup_edges hw).filter _

theorem addEdge_spec {g : Graph} (hw : AdjWF g.adj) (hsym : Sym g) (u v : Nat)
    (hu : u ∈ g.vertices) (hv : v ∈ g.vertices) :
    ∃ n g', addEdge g u v = .ok (⟨min u v, max u v, n⟩, g') ∧ AdjWF g'.adj ∧ Sym g' ∧
      n ∉ lk g.adj u v ∧
      g'.lastVertexId = g.lastVertexId ∧ g'.vertices = g.vertices ∧
      (∀ x y m, m ∈ lk g'.adj x y ↔ m ∈ lk g.adj x y ∨
        (m = n ∧ ((x = u ∧ y = v) ∨ (x = v ∧ y = u)))) := by
  have ha : min u v ∈ g.vertices := by rcases Nat.le_total u v with h | h <;> simp [h, hu, hv]
  have hb : max u v ∈ g.vertices := by rcases Nat.le_total u v with h | h <;> simp [h, hu, hv]
  have hcases : (min u v = u ∧ max u v = v) ∨ (min u v = v ∧ max u v = u) := by omega
  have hxy : ∀ x y, ((x = min u v ∧ y = max u v) ∨ (x = max u v ∧ y = min u v)) ↔
      ((x = u ∧ y = v) ∨ (x = v ∧ y = u)) := by
    intro x y
    rcases hcases with ⟨h1, h2⟩ | ⟨h1, h2⟩ <;> rw [h1, h2] <;> tauto
  have hlkn : ∀ n, n ∈ lk g.adj u v ↔ n ∈ lk g.adj (min u v) (max u v) := by
    intro n
    rcases hcases with ⟨h1, h2⟩ | ⟨h1, h2⟩ <;> rw [h1, h2]
    exact hsym u v n
  unfold addEdge
  generalize min u v = a at *
  generalize max u v = b at *
  obtain ⟨n, g1, e1, w1, n1, l1, v1, m1⟩ := Graph.addEdge_spec hw a b ha
  have hb1 : b ∈ g1.vertices := by rw [v1]; exact hb
  obtain ⟨vs, hvs⟩ := (Dict.mem_keys_iff _ _).1 hb1
  have hE := Dict.getE_of_get? hvs
  have hfin : ∀ s, lk g1.adj b a = s →
      ∃ g' : Graph, g' = { g1 with adj := g1.adj.set b (vs.set a (setAdd s n)) } ∧
      AdjWF g'.adj ∧ Sym g' ∧ g'.lastVertexId = g.lastVertexId ∧ g'.vertices = g.vertices ∧
      (∀ x y m, m ∈ lk g'.adj x y ↔ m ∈ lk g.adj x y ∨
        (m = n ∧ ((x = a ∧ y = b) ∨ (x = b ∧ y = a)))) := by
    intro s hs
    have hnd : s.Nodup := by rw [← hs]; exact w1.sets _ _
    have hm : ∀ x y m, m ∈ lk (g1.adj.set b (vs.set a (setAdd s n))) x y ↔ m ∈ lk g.adj x y ∨
        (m = n ∧ ((x = a ∧ y = b) ∨ (x = b ∧ y = a))) := by
      intro x y m
      rw [lk_set hvs]
      split
      · rename_i h; obtain ⟨rfl, rfl⟩ := h
        rw [← hs, mem_setAdd, m1]; tauto
      · rename_i h
        rw [m1]
        constructor
        · rintro (h1 | ⟨h1, h2, h3⟩)
          · exact Or.inl h1
          · exact Or.inr ⟨h3, Or.inl ⟨h1, h2⟩⟩
        · rintro (h1 | ⟨h1, ⟨h2, h3⟩ | ⟨h2, h3⟩⟩)
          · exact Or.inl h1
          · exact Or.inr ⟨h2, h3, h1⟩
          · exact absurd ⟨h2.symm, h3.symm⟩ h
    refine ⟨_, rfl, w1.set hvs _ (nodup_setAdd hnd _), ?_, l1, ?_, hm⟩
    · intro x y m
      show m ∈ lk (g1.adj.set b _) x y ↔ m ∈ lk (g1.adj.set b _) y x
      rw [hm, hm, hsym x y m]; tauto
    · show Dict.keys (g1.adj.set b _) = _
      rw [Dict.keys_set_of_mem _ _ _ hb1]; exact v1
  cases h : vs.get? a with
  | none =>
    have hs : lk g1.adj b a = [] := by simp [lk, hvs, h]
    obtain ⟨g', rfl, c1, c2, c3, c4, c5⟩ := hfin [] hs
    refine ⟨n, _, ?_, c1, c2, ?_, c3, c4, ?_⟩
    · have hc : vs.contains a = false := by simp [Dict.contains, h]
      simp [e1, bind, Except.bind, hc, Dict.getE, hvs, Dict.get?_set_self, Dict.set_set]
    · rw [hlkn]; exact n1
    · intro x y m; rw [c5, hxy]
  | some s =>
    have hs : lk g1.adj b a = s := by simp [lk, hvs, h]
    obtain ⟨g', rfl, c1, c2, c3, c4, c5⟩ := hfin s hs
    refine ⟨n, _, ?_, c1, c2, ?_, c3, c4, ?_⟩
    · have hc : vs.contains a = true := by simp [Dict.contains, h]
      simp [e1, bind, Except.bind, hc, Dict.getE, hvs, h]
    · rw [hlkn]; exact n1
    · intro x y m; rw [c5, hxy]

theorem addEdge_error {g : Graph} (hw : AdjWF g.adj) (u v : Nat)
    (h : ¬ (u ∈ g.vertices ∧ v ∈ g.vertices)) : addEdge g u v = .error .keyError := by
  have hcases : (min u v = u ∧ max u v = v) ∨ (min u v = v ∧ max u v = u) := by omega
  have h' : ¬ (min u v ∈ g.vertices ∧ max u v ∈ g.vertices) := by
    rcases hcases with ⟨h1, h2⟩ | ⟨h1, h2⟩ <;> rw [h1, h2] <;> tauto
  unfold addEdge
  generalize min u v = a at *
  generalize max u v = b at *
  by_cases ha : a ∈ g.vertices
  · obtain ⟨n, g1, e1, w1, n1, l1, v1, m1⟩ := Graph.addEdge_spec hw a b ha
    have hb : b ∉ g1.vertices := by rw [v1]; exact fun hb => h' ⟨ha, hb⟩
    have := (Dict.get?_eq_none_iff g1.adj b).2 hb
    simp [e1, bind, Except.bind, Dict.getE, this]
  · simp [Graph.addEdge_error a b ha, bind, Except.bind]

theorem removeEdge_spec {g : Graph} (hw : AdjWF g.adj) (hsym : Sym g) (e : EdgeDesc Nat)
    (he : e.distinguisher ∈ lk g.adj e.source e.target) :
    ∃ g', removeEdge g e = .ok g' ∧ AdjWF g'.adj ∧ Sym g' ∧
      g'.lastVertexId = g.lastVertexId ∧ g'.vertices = g.vertices ∧
      (∀ x y m, m ∈ lk g'.adj x y ↔ m ∈ lk g.adj x y ∧
        ¬ (m = e.distinguisher ∧ ((x = e.source ∧ y = e.target) ∨ (x = e.target ∧ y = e.source)))) := by
  obtain ⟨u, v, n⟩ := e
  obtain ⟨g1, e1, w1, l1, v1, -, m1⟩ := Graph.removeEdge_spec hw ⟨u, v, n⟩ he
  simp only at he m1 ⊢
  by_cases huv : u = v
  · subst huv
    have hm : ∀ x y m, m ∈ lk g1.adj x y ↔ m ∈ lk g.adj x y ∧
        ¬ (m = n ∧ ((x = u ∧ y = u) ∨ (x = u ∧ y = u))) := by
      intro x y m; rw [m1]; tauto
    refine ⟨g1, ?_, w1, ?_, l1, v1, hm⟩
    · simp [removeEdge, e1, bind, Except.bind]
    · intro x y m
      rw [hm, hm, hsym x y m]; tauto
  · have hvu : n ∈ lk g1.adj v u := by
      rw [m1]
      exact ⟨(hsym u v n).1 he, fun h => huv h.1.symm⟩
    obtain ⟨vs, s, h1, h2, h3, hlk⟩ := get?_some_of_lk hvu
    have hnd : s.Nodup := by rw [← hlk]; exact w1.sets _ _
    have hm : ∀ x y m, m ∈ lk (g1.adj.set v (vs.set u (setDiscard s n))) x y ↔ m ∈ lk g.adj x y ∧
        ¬ (m = n ∧ ((x = u ∧ y = v) ∨ (x = v ∧ y = u))) := by
      intro x y m
      rw [lk_set h1]
      split
      · rename_i h; obtain ⟨rfl, rfl⟩ := h
        rw [← hlk, mem_setDiscard, m1]
        constructor
        · rintro ⟨⟨a, b⟩, c⟩; exact ⟨a, fun h => c h.1⟩
        · rintro ⟨a, b⟩
          exact ⟨⟨a, fun h => huv h.1.symm⟩, fun h => b ⟨h, Or.inr ⟨rfl, rfl⟩⟩⟩
      · rename_i h
        rw [m1]
        constructor
        · rintro ⟨a, b⟩
          refine ⟨a, ?_⟩
          rintro ⟨c, ⟨d, f⟩ | ⟨d, f⟩⟩
          · exact b ⟨d, f, c⟩
          · exact h ⟨d.symm, f.symm⟩
        · rintro ⟨a, b⟩
          exact ⟨a, fun h => b ⟨h.2.2, Or.inl ⟨h.1, h.2.1⟩⟩⟩
    refine ⟨{ g1 with adj := g1.adj.set v (vs.set u (setDiscard s n)) }, ?_,
      w1.set h1 _ (nodup_setDiscard hnd _), ?_, l1, ?_, hm⟩
    · have := (setRemoveE_ok_iff s _ n).2 ⟨h3, rfl⟩
      simp [removeEdge, e1, bind, Except.bind, huv, Dict.getE, h1, h2, this]
    · intro x y m
      show m ∈ lk (g1.adj.set v _) x y ↔ m ∈ lk (g1.adj.set v _) y x
      rw [hm, hm, hsym x y m]; tauto
    · show Dict.keys (g1.adj.set v _) = _
      rw [Dict.keys_set_of_mem _ _ _ ((Dict.mem_keys_iff _ _).2 ⟨_, h1⟩)]; exact v1

theorem removeEdge_absent {g : Graph} (hsym : Sym g) (e : EdgeDesc Nat)
    (he : e.distinguisher ∉ lk g.adj e.source e.target) :
    removeEdge g e = .error .keyError ∨ removeEdge g e = .ok g := by
  obtain ⟨u, v, n⟩ := e
  rcases Graph.removeEdge_absent _ he with h | h
  · left; simp [removeEdge, h, bind, Except.bind]
  · simp only at he
    by_cases huv : u = v
    · right; simp [removeEdge, bind, Except.bind, huv]
      simp [huv] at h
      simp [h]
    · left
      rw [hsym] at he
      simp only [removeEdge, h, bind, Except.bind, huv, ne_eq, not_false_eq_true, if_true, Dict.getE]
      cases h1 : g.adj.get? v with
      | none => simp
      | some vs =>
        cases h2 : vs.get? u with
        | none => simp [h2]
        | some s =>
          have : n ∉ s := by simpa [lk, h1, h2] using he
          simp [h2, setRemoveE, this]

/-- Two descriptors denote the same undirected edge. -/
def Same (a b : EdgeDesc Nat) : Prop := b = a ∨ b = ⟨a.target, a.source, a.distinguisher⟩

theorem removeEdges_spec {g : Graph} (hw : AdjWF g.adj) (hsym : Sym g) (es : List (EdgeDesc Nat))
    (hp : es.Pairwise fun a b => ¬ Same a b)
    (hes : ∀ e ∈ es, e.distinguisher ∈ lk g.adj e.source e.target) :
    ∃ g', es.foldlM removeEdge g = .ok g' ∧ AdjWF g'.adj ∧ Sym g' ∧
      g'.lastVertexId = g.lastVertexId ∧ g'.vertices = g.vertices ∧
      ∀ e : EdgeDesc Nat, e.distinguisher ∈ lk g'.adj e.source e.target ↔
        e.distinguisher ∈ lk g.adj e.source e.target ∧ ∀ e' ∈ es, ¬ Same e' e := by
  obtain ⟨g', h1, ⟨h2, h2', h3, h4⟩, h5⟩ := foldlM_remove removeEdge
    (fun (s : Graph) (e : EdgeDesc Nat) => e.distinguisher ∈ lk s.adj e.source e.target)
    (fun s => AdjWF s.adj ∧ Sym s ∧ s.lastVertexId = g.lastVertexId ∧ s.vertices = g.vertices)
    Same
    (by
      rintro s e ⟨hI1, hI1', hI2, hI3⟩ he
      obtain ⟨s', a, b, b', c, d, f⟩ := removeEdge_spec hI1 hI1' e he
      refine ⟨s', a, ⟨b, b', c.trans hI2, d.trans hI3⟩, ?_⟩
      rintro ⟨x, y, m⟩
      rw [f]
      obtain ⟨p, q, r⟩ := e
      simp only [Same, EdgeDesc.mk.injEq]
      tauto)
    es g ⟨hw, hsym, rfl, rfl⟩ hes hp
  exact ⟨g', h1, h2, h2', h3, h4, h5⟩

theorem removeVertex_aux {g : Graph} (hw : AdjWF g.adj) (hsym : Sym g) (u : Nat) :
    ∃ g2 : Graph, (∀ adj', g2.adj.delE u = .ok adj' → removeVertex g u = .ok { g2 with adj := adj' }) ∧
      (∀ e, g2.adj.delE u = .error e → removeVertex g u = .error e) ∧
      AdjWF g2.adj ∧ Sym g2 ∧ g2.lastVertexId = g.lastVertexId ∧ g2.vertices = g.vertices ∧
      ∀ e : EdgeDesc Nat, e.distinguisher ∈ lk g2.adj e.source e.target ↔
        e.distinguisher ∈ lk g.adj e.source e.target ∧ e.source ≠ u ∧ e.target ≠ u := by
  have hp1 : ((edges g).filter fun e => u = e.target).Pairwise fun a b => ¬ Same a b := by
    have h1 : ((edges g).filter fun e => u = e.target).Nodup := (nodup_edges hw).filter _
    refine List.Pairwise.imp_of_mem ?_ h1
    intro a b ha hb hab hs
    rw [List.mem_filter, mem_edges hw] at ha hb
    rcases hs with h | h
    · exact hab h.symm
    · apply hab
      subst h
      obtain ⟨x, y, m⟩ := a
      simp only [decide_eq_true_eq] at ha hb
      simp only [EdgeDesc.mk.injEq, and_true]
      omega
  obtain ⟨g1, a1, a2, a2', a3, a4, a5⟩ := removeEdges_spec hw hsym ((edges g).filter fun e => u = e.target)
    hp1 (by
      intro e he
      rw [List.mem_filter, mem_edges hw] at he
      exact he.1.1)
  have hp2 : (outEdges g1 u).Pairwise fun a b => ¬ Same a b := by
    have h1 : (outEdges g1 u).Nodup := nodup_outEdges a2 u
    refine List.Pairwise.imp_of_mem ?_ h1
    intro a b ha hb hab hs
    simp only [outEdges] at ha hb
    rw [mem_outEdges a2] at ha hb
    rcases hs with h | h
    · exact hab h.symm
    · apply hab
      subst h
      obtain ⟨x, y, m⟩ := a
      simp only at ha hb
      simp only [EdgeDesc.mk.injEq, and_true]
      omega
  obtain ⟨g2, b1, b2, b2', b3, b4, b5⟩ := removeEdges_spec a2 a2' (outEdges g1 u) hp2 (by
      intro e he
      simp only [outEdges] at he
      rw [mem_outEdges a2] at he
      exact he.2)
  refine ⟨g2, ?_, ?_, b2, b2', b3.trans a3, b4.trans a4, ?_⟩
  · intro adj' h
    simp only [removeVertex, removeVertexWith, a1, b1, h, bind, Except.bind]
  · intro e h
    simp only [removeVertex, removeVertexWith, a1, b1, h, bind, Except.bind]
  · intro e
    rw [b5, a5]
    constructor
    · rintro ⟨⟨h1, h2⟩, h3⟩
      have hs : e.source ≠ u := by
        intro h
        refine h3 e ?_ (Or.inl rfl)
        simp only [outEdges]
        rw [mem_outEdges a2]
        exact ⟨h, (a5 e).2 ⟨h1, h2⟩⟩
      refine ⟨h1, hs, ?_⟩
      intro h
      refine h3 ⟨e.target, e.source, e.distinguisher⟩ ?_ (Or.inr rfl)
      simp only [outEdges]
      rw [mem_outEdges a2]
      exact ⟨h, (a2' _ _ _).1 ((a5 e).2 ⟨h1, h2⟩)⟩
    · rintro ⟨h1, h2, h3⟩
      refine ⟨⟨h1, ?_⟩, ?_⟩
      · intro e' he' hs
        rw [List.mem_filter] at he'
        have ht : u = e'.target := by simpa using he'.2
        rcases hs with rfl | rfl
        · exact h3 ht.symm
        · exact h2 ht.symm
      · intro e' he' hs
        simp only [outEdges] at he'
        rw [mem_outEdges a2] at he'
        rcases hs with rfl | rfl
        · exact h2 he'.1
        · exact h3 he'.1

theorem removeVertex_spec {g : Graph} (hw : AdjWF g.adj) (hsym : Sym g) (u : Nat) (hu : u ∈ g.vertices) :
    ∃ g', removeVertex g u = .ok g' ∧ AdjWF g'.adj ∧ Sym g' ∧ g'.lastVertexId = g.lastVertexId ∧
      g'.vertices = g.vertices.filter (· ≠ u) ∧
      ∀ e : EdgeDesc Nat, e.distinguisher ∈ lk g'.adj e.source e.target ↔
        e.distinguisher ∈ lk g.adj e.source e.target ∧ e.source ≠ u ∧ e.target ≠ u := by
  obtain ⟨g2, h1, -, w, sy, l, v, m⟩ := removeVertex_aux hw hsym u
  have hk : u ∈ Dict.keys g2.adj := by show u ∈ g2.vertices; rw [v]; exact hu
  have hm : ∀ e : EdgeDesc Nat, e.distinguisher ∈ lk (g2.adj.erase u) e.source e.target ↔
        e.distinguisher ∈ lk g.adj e.source e.target ∧ e.source ≠ u ∧ e.target ≠ u := by
    intro e
    rw [lk_eraseKey w]
    split
    · rename_i h; simp [h]
    · exact m e
  refine ⟨_, h1 _ ((Dict.delE_ok_iff _ _ _).2 ⟨hk, rfl⟩), w.erase u, ?_, l, ?_, hm⟩
  · intro x y n
    have a := hm ⟨x, y, n⟩
    have b := hm ⟨y, x, n⟩
    simp only at a b
    show n ∈ lk (g2.adj.erase u) x y ↔ n ∈ lk (g2.adj.erase u) y x
    rw [a, b, hsym x y n]; tauto
  · show Dict.keys (g2.adj.erase u) = _
    rw [Dict.keys_erase _ w.outer]
    have : Dict.keys g2.adj = g.vertices := v
    rw [this]

theorem removeVertex_absent {g : Graph} (hw : AdjWF g.adj) (hsym : Sym g) (u : Nat) (hu : u ∉ g.vertices) :
    removeVertex g u = .error .keyError := by
  obtain ⟨g2, -, h1, w, sy, l, v, m⟩ := removeVertex_aux hw hsym u
  have hk : u ∉ Dict.keys g2.adj := by show u ∉ g2.vertices; rw [v]; exact hu
  apply h1
  rw [← Dict.contains_iff_mem] at hk
  simp [Dict.delE, hk]

theorem removeVertices_spec : ∀ (us : List Nat) {g : Graph}, AdjWF g.adj → Sym g → us.Nodup →
    (∀ u ∈ us, u ∈ g.vertices) →
    ∃ g', us.foldlM removeVertex g = .ok g' ∧ AdjWF g'.adj ∧ Sym g' ∧ g'.lastVertexId = g.lastVertexId ∧
      ∀ u, u ∈ g'.vertices ↔ u ∈ g.vertices ∧ u ∉ us
  | [], g, hw, hs, _, _ => ⟨g, rfl, hw, hs, rfl, by simp⟩
  | u :: us, g, hw, hs, hnd, h => by
    rw [List.nodup_cons] at hnd
    obtain ⟨g1, a1, a2, a2', a3, a4, a5⟩ := removeVertex_spec hw hs u (h u (by simp))
    have hm : ∀ x, x ∈ g1.vertices ↔ x ∈ g.vertices ∧ x ≠ u := by
      intro x; rw [a4]; simp
    obtain ⟨g2, b1, b2, b2', b3, b4⟩ := removeVertices_spec us a2 a2' hnd.2 (by
      intro x hx
      rw [hm]
      exact ⟨h x (by simp [hx]), by rintro rfl; exact hnd.1 hx⟩)
    refine ⟨g2, ?_, b2, b2', b3.trans a3, ?_⟩
    · simp only [List.foldlM_cons, a1, bind, Except.bind]; exact b1
    · intro x
      rw [b4, hm]
      simp only [List.mem_cons, not_or, and_assoc]

theorem clear_spec {g : Graph} (hw : AdjWF g.adj) (hs : Sym g) : clear g = .ok ⟨0, []⟩ := by
  obtain ⟨g', a, b, b', c, d⟩ := removeVertices_spec g.vertices (g := { g with lastVertexId := 0 }) hw hs hw.outer
    (fun u hu => hu)
  have : g'.adj = [] := by
    cases h : g'.adj with
    | nil => rfl
    | cons p l =>
      have hm : p.1 ∈ g'.vertices := by simp [vertices, Dict.keys, h]
      have := (d p.1).1 hm
      exact absurd this.1 this.2
  have h2 : g' = ⟨0, []⟩ := by
    obtain ⟨l, adj⟩ := g'
    simp at c this
    simp [c, this]
  rw [← h2]
  exact a

/-- Everything the histories of an `UndirectedGraph` maintain. -/
structure HInv (g : Graph) (l : GLog) : Prop where
  wf : AdjWF g.adj
  sym : Sym g
  issued : ∀ u ∈ issuedVertices l, u < g.lastVertexId
  bound : ∀ u ∈ g.vertices, u < g.lastVertexId
  verts : ∀ u, u ∈ g.vertices ↔ u ∈ liveVertices l
  le : ∀ e ∈ liveUEdges l, e.source ≤ e.target
  eds : ∀ u v n, n ∈ lk g.adj u v ↔ (⟨u, v, n⟩ ∈ liveUEdges l ∨ ⟨v, u, n⟩ ∈ liveUEdges l)
  src : ∀ e ∈ liveUEdges l, e.source ∈ g.vertices ∧ e.target ∈ g.vertices

theorem exec_inv {g g' : Graph} {l : GLog} {op : GOp} {out : GOut} (hi : HInv g l)
    (h : exec g op = .ok (out, g')) : HInv g' ((op, out) :: l) := by
  cases op with
  | addVertex =>
    simp only [exec, Except.ok.injEq, Prod.mk.injEq] at h
    obtain ⟨rfl, rfl⟩ := h
    have hnew : g.lastVertexId ∉ g.vertices := fun h => by have := hi.bound _ h; omega
    have hz : ∀ v, lk g.adj g.lastVertexId v = [] := by
      intro v
      exact lk_of_none ((Dict.get?_eq_none_iff _ _).2 hnew) v
    have hz2 : ∀ u, lk g.adj u g.lastVertexId = [] := by
      intro u
      rw [List.eq_nil_iff_forall_not_mem]
      intro n hn
      rw [hi.sym, hz] at hn; simp at hn
    have hlk : ∀ u v, lk g.addVertex.2.adj u v = lk g.adj u v := by
      intro u v
      simp only [addVertex, lk_addKey]
      split
      · rename_i h; subst h; rw [hz]
      · rfl
    refine ⟨hi.wf.addKey _, ?_, ?_, ?_, ?_, hi.le, ?_, ?_⟩
    · intro u v n; rw [hlk, hlk]; exact hi.sym u v n
    · intro u hu
      simp only [issuedVertices, addVertex, List.mem_cons] at hu ⊢
      rcases hu with rfl | hu
      · omega
      · have := hi.issued u hu; omega
    · intro u hu
      simp only [vertices, addVertex, Dict.mem_keys_set] at hu ⊢
      rcases hu with rfl | hu
      · omega
      · have := hi.bound u hu; omega
    · intro u
      simp only [vertices, addVertex, Dict.mem_keys_set, liveVertices, List.mem_cons]
      rw [show u ∈ Dict.keys g.adj ↔ _ from hi.verts u]
    · intro u v n; rw [hlk]; exact hi.eds u v n
    · intro e he
      have := hi.src e he
      simp only [vertices, addVertex, Dict.mem_keys_set]
      exact ⟨Or.inr this.1, Or.inr this.2⟩
  | addEdge u v =>
    obtain ⟨⟨e, g1⟩, h1, h2⟩ := except_map_ok h
    simp only [Prod.mk.injEq] at h2
    obtain ⟨rfl, rfl⟩ := h2
    by_cases hu : u ∈ g.vertices ∧ v ∈ g.vertices
    · obtain ⟨n, g2, a, b, b', c, d, e', f⟩ := addEdge_spec hi.wf hi.sym u v hu.1 hu.2
      rw [a] at h1
      simp only [Except.ok.injEq, Prod.mk.injEq] at h1
      obtain ⟨rfl, rfl⟩ := h1
      have hcases : (min u v = u ∧ max u v = v) ∨ (min u v = v ∧ max u v = u) := by omega
      refine ⟨b, b', ?_, ?_, ?_, ?_, ?_, ?_⟩
      · rw [d]; exact hi.issued
      · rw [d, e']; exact hi.bound
      · rw [e']; exact hi.verts
      · intro e he
        simp only [liveUEdges, List.mem_cons] at he
        rcases he with rfl | he
        · simp only; omega
        · exact hi.le e he
      · intro x y m
        rw [f, hi.eds x y m]
        simp only [liveUEdges, List.mem_cons, EdgeDesc.mk.injEq]
        rcases hcases with ⟨h1, h2⟩ | ⟨h1, h2⟩ <;> rw [h1, h2] <;> tauto
      · intro e he
        rw [e']
        simp only [liveUEdges, List.mem_cons] at he
        rcases he with rfl | he
        · simp only
          rcases hcases with ⟨h1, h2⟩ | ⟨h1, h2⟩ <;> rw [h1, h2] <;> tauto
        · exact hi.src e he
    · rw [addEdge_error hi.wf u v hu] at h1; simp at h1
  | removeEdge e =>
    obtain ⟨g1, h1, h2⟩ := except_map_ok h
    simp only [Prod.mk.injEq] at h2
    obtain ⟨rfl, rfl⟩ := h2
    by_cases he : e.distinguisher ∈ lk g.adj e.source e.target
    · obtain ⟨g2, a, b, b', c, d, f⟩ := removeEdge_spec hi.wf hi.sym e he
      rw [a] at h1
      simp only [Except.ok.injEq] at h1
      subst h1
      refine ⟨b, b', ?_, ?_, ?_, ?_, ?_, ?_⟩
      · rw [c]; exact hi.issued
      · rw [c, d]; exact hi.bound
      · rw [d]; exact hi.verts
      · intro e he
        simp only [liveUEdges, List.mem_filter] at he
        exact hi.le e he.1
      · intro x y m
        rw [f, hi.eds x y m]
        obtain ⟨p, q, r⟩ := e
        simp only [liveUEdges, List.mem_filter, ne_eq, decide_eq_true_eq, EdgeDesc.mk.injEq]
        tauto
      · intro e he
        rw [d]
        simp only [liveUEdges, List.mem_filter] at he
        exact hi.src e he.1
    · have hle : (liveUEdges l).filter (fun x => x ≠ e ∧ x ≠ ⟨e.target, e.source, e.distinguisher⟩) = liveUEdges l := by
        rw [List.filter_eq_self]
        intro x hx
        simp only [ne_eq, decide_eq_true_eq]
        constructor
        · rintro rfl
          exact he ((hi.eds _ _ _).2 (Or.inl hx))
        · rintro rfl
          exact he ((hi.eds _ _ _).2 (Or.inr hx))
      rcases removeEdge_absent hi.sym e he with h3 | h3
      · rw [h3] at h1; simp at h1
      · rw [h3] at h1
        simp only [Except.ok.injEq] at h1
        subst h1
        refine ⟨hi.wf, hi.sym, hi.issued, hi.bound, hi.verts, ?_, ?_, ?_⟩
        · intro x; simp only [liveUEdges, hle]; exact hi.le x
        · intro x y m; simp only [liveUEdges, hle]; exact hi.eds x y m
        · intro x; simp only [liveUEdges, hle]; exact hi.src x
  | removeVertex u =>
    obtain ⟨g1, h1, h2⟩ := except_map_ok h
    simp only [Prod.mk.injEq] at h2
    obtain ⟨rfl, rfl⟩ := h2
    by_cases hu : u ∈ g.vertices
    · obtain ⟨g2, a, b, b', c, d, f⟩ := removeVertex_spec hi.wf hi.sym u hu
      rw [a] at h1
      simp only [Except.ok.injEq] at h1
      subst h1
      have hv : ∀ x, x ∈ g2.vertices ↔ x ∈ g.vertices ∧ x ≠ u := by
        intro x; rw [d]; simp
      refine ⟨b, b', ?_, ?_, ?_, ?_, ?_, ?_⟩
      · rw [c]; exact hi.issued
      · intro x hx; rw [c]; exact hi.bound x ((hv x).1 hx).1
      · intro x; rw [hv, hi.verts]; simp [liveVertices]
      · intro e he
        simp only [liveUEdges, List.mem_filter] at he
        exact hi.le e he.1
      · intro x y m
        have := f ⟨x, y, m⟩
        simp only at this
        rw [this, hi.eds x y m]
        simp only [liveUEdges, List.mem_filter, ne_eq, decide_eq_true_eq]
        tauto
      · intro e he
        simp only [liveUEdges, List.mem_filter, decide_eq_true_eq] at he
        rw [hv, hv]
        exact ⟨⟨(hi.src e he.1).1, he.2.1⟩, ⟨(hi.src e he.1).2, he.2.2⟩⟩
    · rw [removeVertex_absent hi.wf hi.sym u hu] at h1; simp at h1
  | clear =>
    obtain ⟨g1, h1, h2⟩ := except_map_ok h
    simp only [Prod.mk.injEq] at h2
    obtain ⟨rfl, rfl⟩ := h2
    rw [clear_spec hi.wf hi.sym] at h1
    simp only [Except.ok.injEq] at h1
    subst h1
    refine ⟨adjWF_nil, ?_, ?_, ?_, ?_, ?_, ?_, ?_⟩ <;>
      simp [issuedVertices, liveVertices, liveUEdges, vertices, Dict.keys, lk, Sym]

theorem history_inv {g : Graph} {l : GLog} (h : History exec .empty g l) : HInv g l := by
  induction h with
  | start =>
    refine ⟨adjWF_nil, ?_, ?_, ?_, ?_, ?_, ?_, ?_⟩ <;>
      simp [issuedVertices, liveVertices, liveUEdges, vertices, Dict.keys, lk, Sym, Graph.empty]
  | call _ he ih => exact exec_inv ih he

end UGraph
end PyBGL
