import Verif.Model.Graph
import Verif.Proofs.PyLemmas

namespace PyBGL

variable {L : Type}

/-- The set stored at `adj[u][v]`, empty when absent. -/
def lk (adj : Dict Nat (Dict Nat (List L))) (u v : Nat) : List L :=
  ((adj.get? u).bind fun vs => vs.get? v).getD []

/-- Well-formedness of a two-level dictionary of sets. -/
structure AdjWF (adj : Dict Nat (Dict Nat (List L))) : Prop where
  outer : adj.NodupKeys
  inner : ∀ u vs, adj.get? u = some vs → vs.NodupKeys
  sets : ∀ u v, (lk adj u v).Nodup

theorem lk_eq {adj : Dict Nat (Dict Nat (List L))} {u : Nat} {vs} (h : adj.get? u = some vs) (v : Nat) :
    lk adj u v = (vs.get? v).getD [] := by simp [lk, h]

theorem lk_of_none {adj : Dict Nat (Dict Nat (List L))} {u : Nat} (h : adj.get? u = none) (v : Nat) :
    lk adj u v = [] := by simp [lk, h]

theorem lk_set {adj : Dict Nat (Dict Nat (List L))} {u : Nat} {vs} (h : adj.get? u = some vs)
    (v : Nat) (s : List L) (u' v' : Nat) :
    lk (adj.set u (vs.set v s)) u' v' = if u = u' ∧ v = v' then s else lk adj u' v' := by
  by_cases hu : u = u'
  · subst hu
    simp only [lk, Dict.get?_set_self, h, Option.bind_some, Dict.get?_set, true_and]
    split <;> simp
  · simp [lk, Dict.get?_set_ne _ _ hu, hu]

theorem lk_erase {adj : Dict Nat (Dict Nat (List L))} (hw : AdjWF adj) {u : Nat} {vs}
    (h : adj.get? u = some vs) (v : Nat) (u' v' : Nat) :
    lk (adj.set u (vs.erase v)) u' v' = if u = u' ∧ v = v' then [] else lk adj u' v' := by
  by_cases hu : u = u'
  · subst hu
    simp only [lk, Dict.get?_set_self, h, Option.bind_some, Dict.get?_erase (hw.inner u vs h), true_and]
    split <;> simp
  · simp [lk, Dict.get?_set_ne _ _ hu, hu]

theorem AdjWF.set {adj : Dict Nat (Dict Nat (List L))} (hw : AdjWF adj) {u : Nat} {vs}
    (h : adj.get? u = some vs) (v : Nat) {s : List L} (hs : s.Nodup) :
    AdjWF (adj.set u (vs.set v s)) where
  outer := Dict.nodupKeys_set hw.outer _ _
  inner := by
    intro u' vs' h'
    rw [Dict.get?_set] at h'
    split at h'
    · simp at h'; subst h'; exact Dict.nodupKeys_set (hw.inner u vs h) _ _
    · exact hw.inner _ _ h'
  sets := by
    intro u' v'
    rw [lk_set h]
    split
    · exact hs
    · exact hw.sets _ _

theorem AdjWF.setErase {adj : Dict Nat (Dict Nat (List L))} (hw : AdjWF adj) {u : Nat} {vs}
    (h : adj.get? u = some vs) (v : Nat) :
    AdjWF (adj.set u (vs.erase v)) where
  outer := Dict.nodupKeys_set hw.outer _ _
  inner := by
    intro u' vs' h'
    rw [Dict.get?_set] at h'
    split at h'
    · simp at h'; subst h'; exact Dict.nodupKeys_erase (hw.inner u vs h) _
    · exact hw.inner _ _ h'
  sets := by
    intro u' v'
    rw [lk_erase hw h]
    split
    · exact List.nodup_nil
    · exact hw.sets _ _

theorem AdjWF.erase {adj : Dict Nat (Dict Nat (List L))} (hw : AdjWF adj) (u : Nat) :
    AdjWF (adj.erase u) where
  outer := Dict.nodupKeys_erase hw.outer _
  inner := by
    intro u' vs' h'
    rw [Dict.get?_erase hw.outer] at h'
    split at h'
    · simp at h'
    · exact hw.inner _ _ h'
  sets := by
    intro u' v'
    by_cases h : u = u'
    · simp [lk, Dict.get?_erase hw.outer, h]
    · have := hw.sets u' v'
      simpa [lk, Dict.get?_erase hw.outer, h] using this

theorem lk_eraseKey {adj : Dict Nat (Dict Nat (List L))} (hw : AdjWF adj) (u u' v' : Nat) :
    lk (adj.erase u) u' v' = if u = u' then [] else lk adj u' v' := by
  by_cases h : u = u' <;> simp [lk, Dict.get?_erase hw.outer, h]

theorem AdjWF.addKey {adj : Dict Nat (Dict Nat (List L))} (hw : AdjWF adj) (u : Nat) :
    AdjWF (adj.set u []) where
  outer := Dict.nodupKeys_set hw.outer _ _
  inner := by
    intro u' vs' h'
    rw [Dict.get?_set] at h'
    split at h'
    · simp at h'; subst h'; exact Dict.nodupKeys_nil
    · exact hw.inner _ _ h'
  sets := by
    intro u' v'
    by_cases h : u = u'
    · simp [lk, h]
    · have := hw.sets u' v'
      simpa [lk, Dict.get?_set, h] using this

theorem lk_addKey (adj : Dict Nat (Dict Nat (List L))) (u u' v' : Nat) :
    lk (adj.set u []) u' v' = if u = u' then [] else lk adj u' v' := by
  by_cases h : u = u' <;> simp [lk, Dict.get?_set, h]

theorem adjWF_nil : AdjWF ([] : Dict Nat (Dict Nat (List L))) := ⟨Dict.nodupKeys_nil, by simp, by simp [lk]⟩

theorem get?_some_of_lk {adj : Dict Nat (Dict Nat (List L))} {u v : Nat} {n : L} (h : n ∈ lk adj u v) :
    ∃ vs s, adj.get? u = some vs ∧ vs.get? v = some s ∧ n ∈ s ∧ lk adj u v = s := by
  unfold lk at h
  cases h1 : adj.get? u with
  | none => simp [h1] at h
  | some vs =>
    cases h2 : vs.get? v with
    | none => simp [h1, h2] at h
    | some s => exact ⟨vs, s, rfl, h2, by simpa [h1, h2] using h, by simp [lk, h1, h2]⟩

/-! ### Generic repeated removal -/

theorem foldlM_remove {S E : Type} (rm : S → E → Except PyErr S) (has : S → E → Prop) (I : S → Prop)
    (eqv : E → E → Prop)
    (h : ∀ s e, I s → has s e → ∃ s', rm s e = .ok s' ∧ I s' ∧ ∀ e', has s' e' ↔ has s e' ∧ ¬ eqv e e') :
    ∀ (es : List E) (s : S), I s → (∀ e ∈ es, has s e) → es.Pairwise (fun a b => ¬ eqv a b) →
      ∃ s', es.foldlM rm s = .ok s' ∧ I s' ∧ ∀ e', has s' e' ↔ has s e' ∧ ∀ e ∈ es, ¬ eqv e e' := by
  intro es
  induction es with
  | nil => intro s hs _ _; exact ⟨s, rfl, hs, by simp⟩
  | cons e es ih =>
    intro s hs hh hp
    obtain ⟨s1, h1, hI1, hm1⟩ := h s e hs (hh e (by simp))
    rw [List.pairwise_cons] at hp
    obtain ⟨s2, h2, hI2, hm2⟩ := ih s1 hI1 (by
      intro e' he'
      exact (hm1 e').2 ⟨hh e' (by simp [he']), hp.1 e' he'⟩) hp.2
    refine ⟨s2, ?_, hI2, ?_⟩
    · simp only [List.foldlM_cons, h1]; exact h2
    · intro e'
      rw [hm2, hm1]
      simp only [List.mem_cons, forall_eq_or_imp, and_assoc]

namespace Graph

theorem mem_edges {g : Graph} (hw : AdjWF g.adj) (e : EdgeDesc Nat) :
    e ∈ g.edges ↔ e.distinguisher ∈ lk g.adj e.source e.target := by
  obtain ⟨u, v, n⟩ := e
  simp only [edges, List.mem_flatMap, List.mem_map, EdgeDesc.mk.injEq, Prod.exists]
  constructor
  · rintro ⟨u', vs, h1, v', s, h2, n', h3, rfl, rfl, rfl⟩
    have a := Dict.get?_of_mem hw.outer h1
    have b := Dict.get?_of_mem (hw.inner _ _ a) h2
    simp [lk, a, b, h3]
  · intro h
    obtain ⟨vs, s, a, b, c, -⟩ := get?_some_of_lk h
    exact ⟨u, vs, Dict.mem_of_get? a, v, s, Dict.mem_of_get? b, n, c, rfl, rfl, rfl⟩

theorem mem_outEdges {g : Graph} (hw : AdjWF g.adj) (u : Nat) (e : EdgeDesc Nat) :
    e ∈ g.outEdges u ↔ e.source = u ∧ e.distinguisher ∈ lk g.adj e.source e.target := by
  obtain ⟨u', v, n⟩ := e
  simp only [outEdges, Dict.getD, List.mem_flatMap, List.mem_map, EdgeDesc.mk.injEq, Prod.exists]
  cases h : g.adj.get? u with
  | none =>
    simp only [Option.getD_none, List.not_mem_nil, false_and, exists_false, false_iff]
    rintro ⟨rfl, h'⟩
    simp [lk, h] at h'
  | some vs =>
    simp only [Option.getD_some]
    constructor
    · rintro ⟨v', s, h2, n', h3, rfl, rfl, rfl⟩
      have b := Dict.get?_of_mem (hw.inner _ _ h) h2
      simp [lk, h, b, h3]
    · rintro ⟨rfl, h'⟩
      obtain ⟨vs', s, a, b, c, -⟩ := get?_some_of_lk h'
      rw [h] at a
      simp at a; subst a
      exact ⟨v, s, Dict.mem_of_get? b, n, c, rfl, rfl, rfl⟩

theorem nodup_inner {u : Nat} {vs : Dict Nat (List Nat)} (h1 : vs.NodupKeys)
    (h2 : ∀ v s, vs.get? v = some s → s.Nodup) :
    (vs.flatMap fun q => q.2.map fun n => (⟨u, q.1, n⟩ : EdgeDesc Nat)).Nodup := by
  rw [List.nodup_flatMap]
  constructor
  · rintro ⟨v, s⟩ h
    exact (h2 v s (Dict.get?_of_mem h1 h)).map (by intro a b; simp)
  · have : vs.Pairwise (fun a b => a.1 ≠ b.1) := by
      simpa [Dict.NodupKeys, List.Nodup, List.pairwise_map] using h1
    refine this.imp ?_
    intro a b hab
    simp only [Function.onFun, List.disjoint_left, List.mem_map, not_exists, not_and]
    rintro e ⟨n, _, rfl⟩ m _ heq
    simp at heq
    exact hab heq.1.symm

theorem nodup_edges {g : Graph} (hw : AdjWF g.adj) : g.edges.Nodup := by
  unfold edges
  rw [List.nodup_flatMap]
  constructor
  · rintro ⟨u, vs⟩ h
    have a := Dict.get?_of_mem hw.outer h
    refine nodup_inner (hw.inner _ _ a) ?_
    intro v s b
    have := hw.sets u v
    simpa [lk, a, b] using this
  · have : g.adj.Pairwise (fun a b => a.1 ≠ b.1) := by
      simpa [Dict.NodupKeys, List.Nodup, List.pairwise_map] using hw.outer
    refine this.imp ?_
    intro a b hab
    simp only [Function.onFun, List.disjoint_left, List.mem_flatMap, List.mem_map, not_exists, not_and]
    rintro e ⟨q, _, n, _, rfl⟩ q' _ m _ heq
    simp at heq
    exact hab heq.1.symm

theorem nodup_outEdges {g : Graph} (hw : AdjWF g.adj) (u : Nat) : (g.outEdges u).Nodup := by
  unfold outEdges
  cases h : g.adj.get? u with
  | none => simp [Dict.getD, h]
  | some vs =>
    simp only [Dict.getD, h, Option.getD_some]
    refine nodup_inner (hw.inner _ _ h) ?_
    intro v s b
    have := hw.sets u v
    simpa [lk, h, b] using this

theorem nextDistinguisher_not_mem (s : List Nat) : nextDistinguisher s ∉ s := by
  have key : ∀ (s : List Nat) (a : Nat), a ≤ s.foldl max a ∧ ∀ x ∈ s, x ≤ s.foldl max a := by
    intro s
    induction s with
    | nil => intro a; simp
    | cons y s ih =>
      intro a
      have := ih (max a y)
      simp only [List.foldl_cons, List.mem_cons, forall_eq_or_imp]
      refine ⟨by omega, by omega, this.2⟩
  unfold nextDistinguisher
  split
  · rename_i h; simp at h; simp [h]
  · intro h
    have := (key s 0).2 _ h
    omega

/-- Effect of `add_edge` on a well-formed graph. -/
theorem addEdge_spec {g : Graph} (hw : AdjWF g.adj) (u v : Nat) (hu : u ∈ g.vertices) :
    ∃ n g', g.addEdge u v = .ok (⟨u, v, n⟩, g') ∧ AdjWF g'.adj ∧ n ∉ lk g.adj u v ∧
      g'.lastVertexId = g.lastVertexId ∧ g'.vertices = g.vertices ∧
      (∀ x y m, m ∈ lk g'.adj x y ↔ m ∈ lk g.adj x y ∨ (x = u ∧ y = v ∧ m = n)) := by
  obtain ⟨vs, hvs⟩ := (Dict.mem_keys_iff _ _).1 hu
  have hE := Dict.getE_of_get? hvs
  have hkeys : ∀ w, Dict.keys (g.adj.set u w) = Dict.keys g.adj := fun w =>
    Dict.keys_set_of_mem _ _ _ hu
  cases h : vs.get? v with
  | none =>
    have hlk : lk g.adj u v = [] := by simp [lk, hvs, h]
    refine ⟨0, { g with adj := g.adj.set u (vs.set v [0]) }, ?_, hw.set hvs v (by simp), by simp [hlk], rfl,
      hkeys _, ?_⟩
    · simp only [addEdge, hE, bind, Except.bind]
      simp [h]
    · intro x y m
      show m ∈ lk (g.adj.set u (vs.set v [0])) x y ↔ _
      rw [lk_set hvs]
      split
      · rename_i hh; obtain ⟨rfl, rfl⟩ := hh; simp [hlk]
      · rename_i hh
        constructor
        · exact Or.inl
        · rintro (h | ⟨rfl, rfl, rfl⟩)
          · exact h
          · simp at hh
  | some s =>
    have hlk : lk g.adj u v = s := by simp [lk, hvs, h]
    have hn : nextDistinguisher s ∉ s := nextDistinguisher_not_mem s
    have hnd : s.Nodup := by rw [← hlk]; exact hw.sets u v
    refine ⟨nextDistinguisher s, { g with adj := g.adj.set u (vs.set v (setAdd s (nextDistinguisher s))) }, ?_,
      hw.set hvs v (nodup_setAdd hnd _), by simpa [hlk] using hn, rfl, hkeys _, ?_⟩
    · simp only [addEdge, hE, bind, Except.bind]
      simp [h]
    · intro x y m
      show m ∈ lk (g.adj.set u (vs.set v _)) x y ↔ _
      rw [lk_set hvs]
      split
      · rename_i hh; obtain ⟨rfl, rfl⟩ := hh; simp [hlk]
      · rename_i hh
        constructor
        · exact Or.inl
        · rintro (h | ⟨rfl, rfl, rfl⟩)
          · exact h
          · simp at hh

theorem addEdge_error {g : Graph} (u v : Nat) (hu : u ∉ g.vertices) :
    g.addEdge u v = .error .keyError := by
  have := (Dict.get?_eq_none_iff g.adj u).2 hu
  simp [addEdge, Dict.getE, this, bind, Except.bind]

/-- Effect of `remove_edge` on an existing edge. -/
theorem removeEdge_spec {g : Graph} (hw : AdjWF g.adj) (e : EdgeDesc Nat)
    (he : e.distinguisher ∈ lk g.adj e.source e.target) :
    ∃ g', g.removeEdge e = .ok g' ∧ AdjWF g'.adj ∧
      g'.lastVertexId = g.lastVertexId ∧ g'.vertices = g.vertices ∧
      (∀ u vs, g.adj.get? u = some vs → u ≠ e.source → g'.adj.get? u = some vs) ∧
      (∀ x y m, m ∈ lk g'.adj x y ↔ m ∈ lk g.adj x y ∧ ¬ (x = e.source ∧ y = e.target ∧ m = e.distinguisher)) := by
  obtain ⟨vs, s, h1, h2, h3, hlk⟩ := get?_some_of_lk he
  have hE := Dict.getE_of_get? h1
  have hE2 := Dict.getE_of_get? h2
  have hu : e.source ∈ Dict.keys g.adj := (Dict.mem_keys_iff _ _).2 ⟨_, h1⟩
  have hkeys : ∀ w, Dict.keys (g.adj.set e.source w) = Dict.keys g.adj := fun w =>
    Dict.keys_set_of_mem _ _ _ hu
  have hnd : s.Nodup := by rw [← hlk]; exact hw.sets _ _
  by_cases hs : setDiscard s e.distinguisher = []
  · refine ⟨{ g with adj := g.adj.set e.source (vs.erase e.target) }, ?_, hw.setErase h1 _, rfl, hkeys _, ?_, ?_⟩
    · simp [removeEdge, hE, hE2, bind, Except.bind, h3, hs]
    · intro u vs' hu' hne
      show Dict.get? (g.adj.set _ _) u = _
      rw [Dict.get?_set_ne _ _ (Ne.symm hne)]; exact hu'
    · intro x y m
      show m ∈ lk (g.adj.set e.source (vs.erase e.target)) x y ↔ _
      rw [lk_erase hw h1]
      split
      · rename_i hh
        obtain ⟨rfl, rfl⟩ := hh
        rw [hlk]
        constructor
        · intro h; simp at h
        · rintro ⟨hm, hne⟩
          have : m ∈ setDiscard s e.distinguisher := by
            rw [mem_setDiscard]; exact ⟨hm, fun h => hne ⟨rfl, rfl, h⟩⟩
          rw [hs] at this; simp at this
      · rename_i hh
        constructor
        · intro h; exact ⟨h, fun hh' => hh ⟨hh'.1.symm, hh'.2.1.symm⟩⟩
        · exact And.left
  · refine ⟨{ g with adj := g.adj.set e.source (vs.set e.target (setDiscard s e.distinguisher)) }, ?_,
      hw.set h1 _ (nodup_setDiscard hnd _), rfl, hkeys _, ?_, ?_⟩
    · simp [removeEdge, hE, hE2, bind, Except.bind, h3, hs]
    · intro u vs' hu' hne
      show Dict.get? (g.adj.set _ _) u = _
      rw [Dict.get?_set_ne _ _ (Ne.symm hne)]; exact hu'
    · intro x y m
      show m ∈ lk (g.adj.set e.source (vs.set e.target _)) x y ↔ _
      rw [lk_set h1]
      split
      · rename_i hh
        obtain ⟨rfl, rfl⟩ := hh
        rw [hlk, mem_setDiscard]
        constructor
        · rintro ⟨a, b⟩; exact ⟨a, fun h => b h.2.2⟩
        · rintro ⟨a, b⟩; exact ⟨a, fun h => b ⟨rfl, rfl, h⟩⟩
      · rename_i hh
        constructor
        · intro h; exact ⟨h, fun hh' => hh ⟨hh'.1.symm, hh'.2.1.symm⟩⟩
        · exact And.left

/-- Effect of `remove_edge` on an absent edge: it raises or changes nothing. -/
theorem removeEdge_absent {g : Graph} (e : EdgeDesc Nat)
    (he : e.distinguisher ∉ lk g.adj e.source e.target) :
    g.removeEdge e = .error .keyError ∨ g.removeEdge e = .ok g := by
  unfold removeEdge
  cases h1 : g.adj.get? e.source with
  | none => simp [Dict.getE, h1, bind, Except.bind]
  | some vs =>
    cases h2 : vs.get? e.target with
    | none => simp [Dict.getE, h1, h2, bind, Except.bind]
    | some s =>
      have : e.distinguisher ∉ s := by simpa [lk, h1, h2] using he
      simp [Dict.getE, h1, h2, bind, Except.bind, this]

/-- Repeated removal of existing distinct edges. -/
theorem removeEdges_spec {g : Graph} (hw : AdjWF g.adj) (es : List (EdgeDesc Nat)) (hnd : es.Nodup)
    (hes : ∀ e ∈ es, e.distinguisher ∈ lk g.adj e.source e.target) :
    ∃ g', es.foldlM removeEdge g = .ok g' ∧ AdjWF g'.adj ∧
      g'.lastVertexId = g.lastVertexId ∧ g'.vertices = g.vertices ∧
      ∀ e : EdgeDesc Nat, e.distinguisher ∈ lk g'.adj e.source e.target ↔
        e.distinguisher ∈ lk g.adj e.source e.target ∧ e ∉ es := by
  obtain ⟨g', h1, ⟨h2, h3, h4⟩, h5⟩ := foldlM_remove removeEdge
    (fun (s : Graph) (e : EdgeDesc Nat) => e.distinguisher ∈ lk s.adj e.source e.target)
    (fun s => AdjWF s.adj ∧ s.lastVertexId = g.lastVertexId ∧ s.vertices = g.vertices)
    (fun a b => a = b)
    (by
      rintro s e ⟨hI1, hI2, hI3⟩ he
      obtain ⟨s', a, b, c, d, -, f⟩ := removeEdge_spec hI1 e he
      refine ⟨s', a, ⟨b, c.trans hI2, d.trans hI3⟩, ?_⟩
      rintro ⟨x, y, m⟩
      rw [f]
      obtain ⟨p, q, r⟩ := e
      simp only [EdgeDesc.mk.injEq]
      constructor
      · rintro ⟨a, b⟩; exact ⟨a, fun h => b ⟨h.1.symm, h.2.1.symm, h.2.2.symm⟩⟩
      · rintro ⟨a, b⟩; exact ⟨a, fun h => b ⟨h.1.symm, h.2.1.symm, h.2.2.symm⟩⟩)
    es g ⟨hw, rfl, rfl⟩ hes (by simpa [List.Nodup] using hnd)
  refine ⟨g', h1, h2, h3, h4, ?_⟩
  intro e
  rw [h5]
  constructor
  · rintro ⟨a, b⟩; exact ⟨a, fun h => b e h rfl⟩
  · rintro ⟨a, b⟩; exact ⟨a, by rintro e' he' rfl; exact b he'⟩

/-- Effect of `remove_vertex` on an existing vertex. -/
theorem removeVertex_spec {g : Graph} (hw : AdjWF g.adj) (u : Nat) (hu : u ∈ g.vertices) :
    ∃ g', g.removeVertex u = .ok g' ∧ AdjWF g'.adj ∧ g'.lastVertexId = g.lastVertexId ∧
      g'.vertices = (Dict.keys g.adj).filter (· ≠ u) ∧
      ∀ e : EdgeDesc Nat, e.distinguisher ∈ lk g'.adj e.source e.target ↔
        e.distinguisher ∈ lk g.adj e.source e.target ∧ e.source ≠ u ∧ e.target ≠ u := by
  obtain ⟨g1, a1, a2, a3, a4, a5⟩ := removeEdges_spec hw (g.edges.filter fun e => u = e.target)
    ((nodup_edges hw).filter _) (by
      intro e he
      rw [List.mem_filter, mem_edges hw] at he
      exact he.1)
  obtain ⟨g2, b1, b2, b3, b4, b5⟩ := removeEdges_spec a2 (g1.outEdges u) (nodup_outEdges a2 u) (by
      intro e he
      rw [mem_outEdges a2] at he
      exact he.2)
  have hk : u ∈ Dict.keys g2.adj := by
    have : g2.vertices = g.vertices := b4.trans a4
    show u ∈ g2.vertices
    rw [this]; exact hu
  refine ⟨{ g2 with adj := g2.adj.erase u }, ?_, b2.erase u, b3.trans a3, ?_, ?_⟩
  · have hd : Dict.delE g2.adj u = .ok (g2.adj.erase u) := (Dict.delE_ok_iff _ _ _).2 ⟨hk, rfl⟩
    simp only [removeVertex, removeVertexWith, a1, b1, hd, bind, Except.bind]
  · have h42 : Dict.keys g2.adj = Dict.keys g.adj := b4.trans a4
    show Dict.keys (g2.adj.erase u) = _
    rw [← h42]
    have : ∀ (d : Dict Nat (Dict Nat (List Nat))), d.NodupKeys →
        Dict.keys (Dict.erase d u) = (Dict.keys d).filter (· ≠ u) := by
      intro d hd
      induction d with
      | nil => rfl
      | cons p d ih =>
        obtain ⟨k, v⟩ := p
        simp only [Dict.NodupKeys, List.map_cons, List.nodup_cons] at hd
        have ih' := ih hd.2
        by_cases hk : k = u
        · subst hk
          simp only [Dict.erase, if_true, Dict.keys, List.map_cons, ne_eq, not_true_eq_false,
            decide_false, List.filter_cons, Bool.false_eq_true, if_false]
          rw [List.filter_eq_self.2]
          intro a ha
          simp only [decide_not, Bool.not_eq_eq_eq_not, Bool.not_true, decide_eq_false_iff_not]
          rintro rfl
          exact hd.1 ha
        · have : Dict.keys ((k, v) :: Dict.erase d u) = k :: Dict.keys (Dict.erase d u) := rfl
          simp only [Dict.erase, hk, if_false, this, ih']
          simp [Dict.keys, hk]
    exact this _ b2.outer
  · rintro ⟨x, y, m⟩
    show m ∈ lk (g2.adj.erase u) x y ↔ _
    rw [lk_eraseKey b2]
    by_cases hxu : u = x
    · simp [hxu]
    · simp only [hxu, if_false]
      rw [b5 ⟨x, y, m⟩, a5 ⟨x, y, m⟩, List.mem_filter, mem_edges hw, mem_outEdges a2]
      simp only [Ne.symm hxu, false_and, not_false_eq_true, and_true, decide_eq_true_eq, ne_eq, true_and]
      constructor
      · rintro ⟨h1, h2⟩; exact ⟨h1, fun h => h2 ⟨h1, h.symm⟩⟩
      · rintro ⟨h1, h2⟩; exact ⟨h1, fun h => h2 h.2.symm⟩

theorem removeVertex_absent {g : Graph} (hw : AdjWF g.adj) (u : Nat) (hu : u ∉ g.vertices) :
    g.removeVertex u = .error .keyError := by
  obtain ⟨g1, a1, a2, a3, a4, a5⟩ := removeEdges_spec hw (g.edges.filter fun e => u = e.target)
    ((nodup_edges hw).filter _) (by
      intro e he
      rw [List.mem_filter, mem_edges hw] at he
      exact he.1)
  obtain ⟨g2, b1, b2, b3, b4, b5⟩ := removeEdges_spec a2 (g1.outEdges u) (nodup_outEdges a2 u) (by
      intro e he
      rw [mem_outEdges a2] at he
      exact he.2)
  have hk : u ∉ Dict.keys g2.adj := by
    have : g2.vertices = g.vertices := b4.trans a4
    show u ∉ g2.vertices
    rw [this]; exact hu
  have hd : Dict.delE g2.adj u = .error .keyError := by
    rw [← Dict.contains_iff_mem] at hk
    simp [Dict.delE, hk]
  simp only [removeVertex, removeVertexWith, a1, b1, hd, bind, Except.bind]

theorem removeVertices_spec : ∀ (us : List Nat) {g : Graph}, AdjWF g.adj → us.Nodup →
    (∀ u ∈ us, u ∈ g.vertices) →
    ∃ g', us.foldlM removeVertex g = .ok g' ∧ AdjWF g'.adj ∧ g'.lastVertexId = g.lastVertexId ∧
      ∀ u, u ∈ g'.vertices ↔ u ∈ g.vertices ∧ u ∉ us
  | [], g, hw, _, _ => ⟨g, rfl, hw, rfl, by simp⟩
  | u :: us, g, hw, hnd, h => by
    rw [List.nodup_cons] at hnd
    obtain ⟨g1, a1, a2, a3, a4, a5⟩ := removeVertex_spec hw u (h u (by simp))
    have hm : ∀ x, x ∈ g1.vertices ↔ x ∈ g.vertices ∧ x ≠ u := by
      intro x; rw [a4]; simp [vertices]
    obtain ⟨g2, b1, b2, b3, b4⟩ := removeVertices_spec us a2 hnd.2 (by
      intro x hx
      rw [hm]
      exact ⟨h x (by simp [hx]), by rintro rfl; exact hnd.1 hx⟩)
    refine ⟨g2, ?_, b2, b3.trans a3, ?_⟩
    · simp only [List.foldlM_cons, a1, bind, Except.bind]; exact b1
    · intro x
      rw [b4, hm]
      simp only [List.mem_cons, not_or, and_assoc]

theorem clear_spec {g : Graph} (hw : AdjWF g.adj) : g.clear = .ok ⟨0, []⟩ := by
  obtain ⟨g', a, b, c, d⟩ := removeVertices_spec g.vertices (g := { g with lastVertexId := 0 }) hw hw.outer
    (fun u hu => hu)
  have : g'.adj = [] := by
    cases h : g'.adj with
    | nil => rfl
    | cons p l =>
      have hm : p.1 ∈ g'.vertices := by simp [vertices, Dict.keys, h]
      have := (d p.1).1 hm
      exact absurd this.1 this.2
  have h2 : g' = ⟨0, []⟩ := by
    obtain ⟨l, adj⟩ := g'
    simp at c this
    simp [c, this]
  rw [← h2]
  exact a

end Graph

end PyBGL
