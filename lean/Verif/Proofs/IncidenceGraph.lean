import Verif.Proofs.UndirectedGraph

namespace PyBGL.IGraph
open Graph

/-- Invariant of an `IncidenceGraph`. -/
structure WF (g : IGraph) : Prop where
  out : AdjWF g.g.adj
  inn : AdjWF g.inAdj
  keys : ∀ u, u ∈ Dict.keys g.inAdj ↔ u ∈ g.vertices
  mirror : ∀ u v n, n ∈ lk g.inAdj v u ↔ n ∈ lk g.g.adj u v

theorem mem_inEdges {g : IGraph} (hw : WF g) (v : Nat) (e : EdgeDesc Nat) :
    e ∈ g.inEdges v ↔ e.target = v ∧ e.distinguisher ∈ lk g.g.adj e.source e.target := by
  obtain ⟨u, v', n⟩ := e
  simp only [inEdges, Dict.getD, List.mem_flatMap, List.mem_map, EdgeDesc.mk.injEq, Prod.exists]
  rw [← hw.mirror]
  cases h : g.inAdj.get? v with
  | none =>
    simp only [Option.getD_none, List.not_mem_nil, false_and, exists_false, false_iff]
    rintro ⟨rfl, h'⟩
    simp [lk, h] at h'
  | some vs =>
    simp only [Option.getD_some]
    constructor
    · rintro ⟨u', s, h2, n', h3, rfl, rfl, rfl⟩
      have b := Dict.get?_of_mem (hw.inn.inner _ _ h) h2
      simp [lk, h, b, h3]
    · rintro ⟨rfl, h'⟩
      obtain ⟨vs', s, a, b, c, -⟩ := get?_some_of_lk h'
      rw [h] at a
      simp at a; subst a
      exact ⟨u, s, Dict.mem_of_get? b, n, c, rfl, rfl, rfl⟩

theorem nodup_inEdges {g : IGraph} (hw : WF g) (v : Nat) : (g.inEdges v).Nodup := by
  unfold inEdges
  cases h : g.inAdj.get? v with
  | none => simp [Dict.getD, h]
  | some us =>
    simp only [Dict.getD, h, Option.getD_some]
    rw [List.nodup_flatMap]
    constructor
    · rintro ⟨u, s⟩ hm
      have b := Dict.get?_of_mem (hw.inn.inner _ _ h) hm
      have := hw.inn.sets v u
      have hs : s.Nodup := by simpa [lk, h, b] using this
      exact hs.map (by intro a b; simp)
    · have : us.Pairwise (fun a b => a.1 ≠ b.1) := by
        have := hw.inn.inner _ _ h
        simpa [Dict.NodupKeys, List.Nodup, List.pairwise_map] using this
      refine this.imp ?_
      intro a b hab
      simp only [Function.onFun, List.disjoint_left, List.mem_map, not_exists, not_and]
      rintro e ⟨n, _, rfl⟩ m _ heq
      simp at heq
      exact hab heq.1.symm

theorem addEdge_spec {g : IGraph} (hw : WF g) (u v : Nat) (hu : u ∈ g.vertices) (hv : v ∈ g.vertices) :
    ∃ n g', g.addEdge u v = .ok (⟨u, v, n⟩, g') ∧ WF g' ∧ n ∉ lk g.g.adj u v ∧
      g'.g.lastVertexId = g.g.lastVertexId ∧ g'.vertices = g.vertices ∧
      (∀ x y m, m ∈ lk g'.g.adj x y ↔ m ∈ lk g.g.adj x y ∨ (x = u ∧ y = v ∧ m = n)) := by
  obtain ⟨n, g1, a, b, c, d, e, f⟩ := Graph.addEdge_spec hw.out u v hu
  obtain ⟨us, hus⟩ := (Dict.mem_keys_iff _ _).1 ((hw.keys v).2 hv)
  have hk : v ∈ Dict.keys g.inAdj := (hw.keys v).2 hv
  have key : ∀ s : List Nat, s.Nodup → (∀ m, m ∈ s ↔ m ∈ lk g.inAdj v u ∨ m = n) →
      WF ⟨g1, g.inAdj.set v (us.set u s)⟩ := by
    intro s hs hm
    refine ⟨b, hw.inn.set hus _ hs, ?_, ?_⟩
    · intro x
      rw [Dict.keys_set_of_mem _ _ _ hk]
      show x ∈ _ ↔ x ∈ g1.vertices
      rw [e]; exact hw.keys x
    · intro x y m
      show m ∈ lk (g.inAdj.set v (us.set u s)) y x ↔ m ∈ lk g1.adj x y
      rw [lk_set hus, f]
      split
      · rename_i h; obtain ⟨rfl, rfl⟩ := h
        rw [hm, hw.mirror]; tauto
      · rename_i h
        rw [hw.mirror]
        constructor
        · exact Or.inl
        · rintro (h1 | ⟨rfl, rfl, -⟩)
          · exact h1
          · simp at h
  cases h : us.get? u with
  | none =>
    refine ⟨n, ⟨g1, g.inAdj.set v (us.set u [n])⟩, ?_, key _ (by simp) ?_, c, d, e, f⟩
    · simp [addEdge, a, bind, Except.bind, Dict.getE, hus, h]
    · intro m; simp [lk, hus, h]
  | some s =>
    have hs : lk g.inAdj v u = s := by simp [lk, hus, h]
    have hnd : s.Nodup := by rw [← hs]; exact hw.inn.sets _ _
    refine ⟨n, ⟨g1, g.inAdj.set v (us.set u (setAdd s n))⟩, ?_, key _ (nodup_setAdd hnd n) ?_, c, d, e, f⟩
    · simp [addEdge, a, bind, Except.bind, Dict.getE, hus, h]
    · intro m; simp [hs]

theorem addEdge_error {g : IGraph} (hw : WF g) (u v : Nat) (h : ¬ (u ∈ g.vertices ∧ v ∈ g.vertices)) :
    g.addEdge u v = .error .keyError := by
  by_cases hu : u ∈ g.vertices
  · obtain ⟨n, g1, a, b, c, d, e, f⟩ := Graph.addEdge_spec hw.out u v hu
    have hv : v ∉ Dict.keys g.inAdj := by rw [hw.keys]; exact fun hv => h ⟨hu, hv⟩
    have := (Dict.get?_eq_none_iff _ _).2 hv
    simp [addEdge, a, bind, Except.bind, Dict.getE, this]
  · simp [addEdge, Graph.addEdge_error u v hu, bind, Except.bind]

theorem removeEdge_spec {g : IGraph} (hw : WF g) (e : EdgeDesc Nat)
    (he : e.distinguisher ∈ lk g.g.adj e.source e.target) :
    ∃ g', g.removeEdge e = .ok g' ∧ WF g' ∧
      g'.g.lastVertexId = g.g.lastVertexId ∧ g'.vertices = g.vertices ∧
      (∀ x y m, m ∈ lk g'.g.adj x y ↔ m ∈ lk g.g.adj x y ∧
        ¬ (x = e.source ∧ y = e.target ∧ m = e.distinguisher)) := by
  obtain ⟨g1, a, b, c, d, -, f⟩ := Graph.removeEdge_spec hw.out e he
  have he' := (hw.mirror _ _ _).2 he
  obtain ⟨us, s, h1, h2, h3, hlk⟩ := get?_some_of_lk he'
  have hk : e.target ∈ Dict.keys g.inAdj := (Dict.mem_keys_iff _ _).2 ⟨_, h1⟩
  have hnd : s.Nodup := by rw [← hlk]; exact hw.inn.sets _ _
  have hmir : ∀ (adj' : Dict Nat (Dict Nat (List Nat))),
      (∀ x y, lk adj' y x = if e.target = y ∧ e.source = x then setDiscard s e.distinguisher else lk g.inAdj y x) →
      ∀ x y m, m ∈ lk adj' y x ↔ m ∈ lk g1.adj x y := by
    intro adj' h x y m
    rw [h, f]
    split
    · rename_i hh; obtain ⟨rfl, rfl⟩ := hh
      rw [← hw.mirror, hlk, mem_setDiscard]; tauto
    · rename_i hh
      rw [hw.mirror]
      constructor
      · intro h; exact ⟨h, fun h' => hh ⟨h'.2.1.symm, h'.1.symm⟩⟩
      · exact And.left
  by_cases hs : setDiscard s e.distinguisher = []
  · refine ⟨⟨g1, g.inAdj.set e.target (us.erase e.source)⟩, ?_, ⟨b, hw.inn.setErase h1 _, ?_, ?_⟩, c, d, f⟩
    · simp [removeEdge, a, bind, Except.bind, Dict.getE, h1, h2, h3, hs]
    · intro x
      rw [Dict.keys_set_of_mem _ _ _ hk]
      show x ∈ _ ↔ x ∈ g1.vertices
      rw [d]; exact hw.keys x
    · apply fun H => fun u v n => hmir _ H u v n
      intro x y
      rw [lk_erase hw.inn h1, hs]
  · refine ⟨⟨g1, g.inAdj.set e.target (us.set e.source (setDiscard s e.distinguisher))⟩, ?_,
      ⟨b, hw.inn.set h1 _ (nodup_setDiscard hnd _), ?_, ?_⟩, c, d, f⟩
    · simp [removeEdge, a, bind, Except.bind, Dict.getE, h1, h2, h3, hs]
    · intro x
      rw [Dict.keys_set_of_mem _ _ _ hk]
      show x ∈ _ ↔ x ∈ g1.vertices
      rw [d]; exact hw.keys x
    · apply fun H => fun u v n => hmir _ H u v n
      intro x y
      rw [lk_set h1]

theorem removeEdge_absent {g : IGraph} (hw : WF g) (e : EdgeDesc Nat)
    (he : e.distinguisher ∉ lk g.g.adj e.source e.target) :
    g.removeEdge e = .error .keyError ∨ g.removeEdge e = .ok g := by
  rcases Graph.removeEdge_absent e he with h | h
  · left; simp [removeEdge, h, bind, Except.bind]
  · rw [← hw.mirror] at he
    simp only [removeEdge, h, bind, Except.bind, Dict.getE]
    cases h1 : g.inAdj.get? e.target with
    | none => simp
    | some us =>
      cases h2 : us.get? e.source with
      | none => simp [h2]
      | some s =>
        have : e.distinguisher ∉ s := by simpa [lk, h1, h2] using he
        simp [h2, this]

theorem removeEdges_spec {g : IGraph} (hw : WF g) (es : List (EdgeDesc Nat)) (hnd : es.Nodup)
    (hes : ∀ e ∈ es, e.distinguisher ∈ lk g.g.adj e.source e.target) :
    ∃ g', es.foldlM removeEdge g = .ok g' ∧ WF g' ∧
      g'.g.lastVertexId = g.g.lastVertexId ∧ g'.vertices = g.vertices ∧
      ∀ e : EdgeDesc Nat, e.distinguisher ∈ lk g'.g.adj e.source e.target ↔
        e.distinguisher ∈ lk g.g.adj e.source e.target ∧ e ∉ es := by
  obtain ⟨g', h1, ⟨h2, h3, h4⟩, h5⟩ := foldlM_remove removeEdge
    (fun (s : IGraph) (e : EdgeDesc Nat) => e.distinguisher ∈ lk s.g.adj e.source e.target)
    (fun s => WF s ∧ s.g.lastVertexId = g.g.lastVertexId ∧ s.vertices = g.vertices)
    (fun a b => a = b)
    (by
      rintro s e ⟨hI1, hI2, hI3⟩ he
      obtain ⟨s', a, b, c, d, f⟩ := removeEdge_spec hI1 e he
      refine ⟨s', a, ⟨b, c.trans hI2, d.trans hI3⟩, ?_⟩
      rintro ⟨x, y, m⟩
      rw [f]
      obtain ⟨p, q, r⟩ := e
      simp only [EdgeDesc.mk.injEq]
      constructor
      · rintro ⟨a, b⟩; exact ⟨a, fun h => b ⟨h.1.symm, h.2.1.symm, h.2.2.symm⟩⟩
      · rintro ⟨a, b⟩; exact ⟨a, fun h => b ⟨h.1.symm, h.2.1.symm, h.2.2.symm⟩⟩)
    es g ⟨hw, rfl, rfl⟩ hes (by simpa [List.Nodup] using hnd)
  refine ⟨g', h1, h2, h3, h4, ?_⟩
  intro e
  rw [h5]
  constructor
  · rintro ⟨a, b⟩; exact ⟨a, fun h => b e h rfl⟩
  · rintro ⟨a, b⟩; exact ⟨a, by rintro e' he' rfl; exact b he'⟩

theorem removeVertex_aux {g : IGraph} (hw : WF g) (u : Nat) :
    ∃ g2 : IGraph, g.removeVertex u = (do
        let adj ← g2.g.adj.delE u
        let inAdj ← g2.inAdj.delE u
        .ok ⟨{ g2.g with adj }, inAdj⟩) ∧
      WF g2 ∧ g2.g.lastVertexId = g.g.lastVertexId ∧ g2.vertices = g.vertices ∧
      ∀ e : EdgeDesc Nat, e.distinguisher ∈ lk g2.g.adj e.source e.target ↔
        e.distinguisher ∈ lk g.g.adj e.source e.target ∧ e.source ≠ u ∧ e.target ≠ u := by
  obtain ⟨g1, a1, a2, a3, a4, a5⟩ := removeEdges_spec hw (g.inEdges u) (nodup_inEdges hw u) (by
      intro e he; rw [mem_inEdges hw] at he; exact he.2)
  obtain ⟨g2, b1, b2, b3, b4, b5⟩ := removeEdges_spec a2 (g1.outEdges u) (nodup_outEdges a2.out u) (by
      intro e he; simp only [outEdges] at he; rw [mem_outEdges a2.out] at he; exact he.2)
  refine ⟨g2, ?_, b2, b3.trans a3, b4.trans a4, ?_⟩
  · simp only [removeVertex, a1, b1, bind, Except.bind]
  · intro e
    rw [b5, a5]
    simp only [outEdges]
    rw [mem_outEdges a2.out, mem_inEdges hw, a5, mem_inEdges hw]
    tauto

theorem removeVertex_spec {g : IGraph} (hw : WF g) (u : Nat) (hu : u ∈ g.vertices) :
    ∃ g', g.removeVertex u = .ok g' ∧ WF g' ∧ g'.g.lastVertexId = g.g.lastVertexId ∧
      g'.vertices = g.vertices.filter (· ≠ u) ∧
      ∀ e : EdgeDesc Nat, e.distinguisher ∈ lk g'.g.adj e.source e.target ↔
        e.distinguisher ∈ lk g.g.adj e.source e.target ∧ e.source ≠ u ∧ e.target ≠ u := by
  obtain ⟨g2, h1, w, l, v, m⟩ := removeVertex_aux hw u
  have hv2 : u ∈ g2.vertices := by rw [v]; exact hu
  have hk : u ∈ Dict.keys g2.g.adj := hv2
  have hk2 : u ∈ Dict.keys g2.inAdj := (w.keys u).2 hv2
  have d1 := (Dict.delE_ok_iff _ _ _).2 ⟨hk, rfl⟩
  have d2 := (Dict.delE_ok_iff _ _ _).2 ⟨hk2, rfl⟩
  have hm : ∀ e : EdgeDesc Nat, e.distinguisher ∈ lk (g2.g.adj.erase u) e.source e.target ↔
        e.distinguisher ∈ lk g.g.adj e.source e.target ∧ e.source ≠ u ∧ e.target ≠ u := by
    intro e
    rw [lk_eraseKey w.out]
    split
    · rename_i h; simp [h]
    · exact m e
  refine ⟨⟨{ g2.g with adj := g2.g.adj.erase u }, g2.inAdj.erase u⟩, ?_,
    ⟨w.out.erase u, w.inn.erase u, ?_, ?_⟩, l, ?_, hm⟩
  · rw [h1, d1, d2]; rfl
  · intro x
    show x ∈ Dict.keys (g2.inAdj.erase u) ↔ x ∈ Dict.keys (g2.g.adj.erase u)
    rw [Dict.keys_erase _ w.inn.outer, Dict.keys_erase _ w.out.outer, List.mem_filter, List.mem_filter, w.keys]
    rfl
  · intro x y n
    show n ∈ lk (g2.inAdj.erase u) y x ↔ n ∈ lk (g2.g.adj.erase u) x y
    have := hm ⟨x, y, n⟩
    simp only at this
    rw [this, lk_eraseKey w.inn]
    split
    · rename_i h; simp [h]
    · rename_i h
      rw [w.mirror]
      exact m ⟨x, y, n⟩
  · show Dict.keys (g2.g.adj.erase u) = _
    rw [Dict.keys_erase _ w.out.outer]
    have : Dict.keys g2.g.adj = g.vertices := v
    rw [this]

theorem removeVertex_absent {g : IGraph} (hw : WF g) (u : Nat) (hu : u ∉ g.vertices) :
    g.removeVertex u = .error .keyError := by
  obtain ⟨g2, h1, w, l, v, m⟩ := removeVertex_aux hw u
  have hk : u ∉ Dict.keys g2.g.adj := by show u ∉ g2.vertices; rw [v]; exact hu
  rw [← Dict.contains_iff_mem] at hk
  rw [h1]
  simp [Dict.delE, hk, bind, Except.bind]

theorem removeVertices_spec : ∀ (us : List Nat) {g : IGraph}, WF g → us.Nodup →
    (∀ u ∈ us, u ∈ g.vertices) →
    ∃ g', us.foldlM removeVertex g = .ok g' ∧ WF g' ∧ g'.g.lastVertexId = g.g.lastVertexId ∧
      ∀ u, u ∈ g'.vertices ↔ u ∈ g.vertices ∧ u ∉ us
  | [], g, hw, _, _ => ⟨g, rfl, hw, rfl, by simp⟩
  | u :: us, g, hw, hnd, h => by
    rw [List.nodup_cons] at hnd
    obtain ⟨g1, a1, a2, a3, a4, a5⟩ := removeVertex_spec hw u (h u (by simp))
    have hm : ∀ x, x ∈ g1.vertices ↔ x ∈ g.vertices ∧ x ≠ u := by
      intro x; rw [a4]; simp
    obtain ⟨g2, b1, b2, b3, b4⟩ := removeVertices_spec us a2 hnd.2 (by
      intro x hx
      rw [hm]
      exact ⟨h x (by simp [hx]), by rintro rfl; exact hnd.1 hx⟩)
    refine ⟨g2, ?_, b2, b3.trans a3, ?_⟩
    · simp only [List.foldlM_cons, a1, bind, Except.bind]; exact b1
    · intro x
      rw [b4, hm]
      simp only [List.mem_cons, not_or, and_assoc]

theorem clear_spec {g : IGraph} (hw : WF g) : g.clear = .ok ⟨⟨0, []⟩, []⟩ := by
  obtain ⟨g', a, b, c, d⟩ := removeVertices_spec g.vertices (g := ⟨{ g.g with lastVertexId := 0 }, g.inAdj⟩)
    ⟨hw.out, hw.inn, hw.keys, hw.mirror⟩ hw.out.outer (fun u hu => hu)
  have hv : ∀ u, u ∉ g'.vertices := fun u hu => by
    have := (d u).1 hu
    exact this.2 this.1
  have nil : ∀ dd : Dict Nat (Dict Nat (List Nat)), (∀ u, u ∉ Dict.keys dd) → dd = [] := by
    intro dd h
    cases dd with
    | nil => rfl
    | cons p l => exact absurd (show p.1 ∈ Dict.keys (p :: l) by simp [Dict.keys]) (h p.1)
  have h1 : g'.g.adj = [] := nil _ hv
  have h2 : g'.inAdj = [] := nil _ (fun u hu => hv u ((b.keys u).1 hu))
  have h3 : g' = ⟨⟨0, []⟩, []⟩ := by
    obtain ⟨⟨l, adj⟩, i⟩ := g'
    simp at c h1 h2
    simp [c, h1, h2]
  rw [← h3]
  exact a

/-- Everything the histories of an `IncidenceGraph` maintain. -/
structure HInv (g : IGraph) (l : GLog) : Prop where
  wf : WF g
  issued : ∀ u ∈ issuedVertices l, u < g.g.lastVertexId
  bound : ∀ u ∈ g.vertices, u < g.g.lastVertexId
  verts : ∀ u, u ∈ g.vertices ↔ u ∈ liveVertices l
  eds : ∀ e : EdgeDesc Nat, e.distinguisher ∈ lk g.g.adj e.source e.target ↔ e ∈ liveEdges l
  src : ∀ e ∈ liveEdges l, e.source ∈ g.vertices ∧ e.target ∈ g.vertices

theorem exec_inv {g g' : IGraph} {l : GLog} {op : GOp} {out : GOut} (hi : HInv g l)
    (h : g.exec op = .ok (out, g')) : HInv g' ((op, out) :: l) := by
  cases op with
  | addVertex =>
    simp only [exec, Except.ok.injEq, Prod.mk.injEq] at h
    obtain ⟨rfl, rfl⟩ := h
    have hd : Graph.HInv g.g l := ⟨hi.wf.out, hi.issued, hi.bound, hi.verts, hi.eds, fun e he => (hi.src e he).1⟩
    have h2 := Graph.addVertex_inv hd
    have hnew : g.g.lastVertexId ∉ g.vertices := fun h => by have := hi.bound _ h; omega
    have hnew' : g.g.lastVertexId ∉ Dict.keys g.inAdj := fun h => hnew ((hi.wf.keys _).1 h)
    refine ⟨⟨h2.wf, hi.wf.inn.addKey _, ?_, ?_⟩, h2.issued, h2.bound, h2.verts, h2.eds, ?_⟩
    · intro u
      show u ∈ Dict.keys (g.inAdj.set _ _) ↔ u ∈ Dict.keys (g.g.adj.set _ _)
      rw [Dict.mem_keys_set, Dict.mem_keys_set, hi.wf.keys]; rfl
    · intro u v n
      show n ∈ lk (g.inAdj.set _ _) v u ↔ n ∈ lk (g.g.adj.set _ _) u v
      rw [lk_addKey, lk_addKey]
      have z1 : ∀ x, lk g.inAdj g.g.lastVertexId x = [] := fun x =>
        lk_of_none ((Dict.get?_eq_none_iff _ _).2 hnew') x
      have z2 : ∀ x, lk g.g.adj g.g.lastVertexId x = [] := fun x =>
        lk_of_none ((Dict.get?_eq_none_iff _ _).2 hnew) x
      have := hi.wf.mirror u v n
      split <;> split
      · simp
      · rename_i h1 h2; subst h1; rw [z1] at this; rw [← this]
      · rename_i h1 h2; subst h2; rw [z2] at this; rw [this]
      · exact this
    · intro e he
      have := hi.src e he
      show e.source ∈ Dict.keys (g.g.adj.set _ _) ∧ e.target ∈ Dict.keys (g.g.adj.set _ _)
      rw [Dict.mem_keys_set, Dict.mem_keys_set]
      exact ⟨Or.inr this.1, Or.inr this.2⟩
  | addEdge u v =>
    obtain ⟨⟨e, g1⟩, h1, h2⟩ := except_map_ok h
    simp only [Prod.mk.injEq] at h2
    obtain ⟨rfl, rfl⟩ := h2
    by_cases hu : u ∈ g.vertices ∧ v ∈ g.vertices
    · obtain ⟨n, g2, a, b, c, d, e', f⟩ := addEdge_spec hi.wf u v hu.1 hu.2
      rw [a] at h1
      simp only [Except.ok.injEq, Prod.mk.injEq] at h1
      obtain ⟨rfl, rfl⟩ := h1
      refine ⟨b, ?_, ?_, ?_, ?_, ?_⟩
      · rw [d]; exact hi.issued
      · rw [d, e']; exact hi.bound
      · rw [e']; exact hi.verts
      · rintro ⟨x, y, m⟩
        rw [f, hi.eds ⟨x, y, m⟩]
        simp [liveEdges, or_comm]
      · intro e he
        rw [e']
        simp only [liveEdges, List.mem_cons] at he
        rcases he with rfl | he
        · exact hu
        · exact hi.src e he
    · rw [addEdge_error hi.wf u v hu] at h1; simp at h1
  | removeEdge e =>
    obtain ⟨g1, h1, h2⟩ := except_map_ok h
    simp only [Prod.mk.injEq] at h2
    obtain ⟨rfl, rfl⟩ := h2
    by_cases he : e.distinguisher ∈ lk g.g.adj e.source e.target
    · obtain ⟨g2, a, b, c, d, f⟩ := removeEdge_spec hi.wf e he
      rw [a] at h1
      simp only [Except.ok.injEq] at h1
      subst h1
      refine ⟨b, ?_, ?_, ?_, ?_, ?_⟩
      · rw [c]; exact hi.issued
      · rw [c, d]; exact hi.bound
      · rw [d]; exact hi.verts
      · rintro ⟨x, y, m⟩
        rw [f, hi.eds ⟨x, y, m⟩]
        obtain ⟨p, q, r⟩ := e
        simp only [liveEdges, List.mem_filter, ne_eq, decide_eq_true_eq, EdgeDesc.mk.injEq]
      · intro e he
        rw [d]
        simp only [liveEdges, List.mem_filter] at he
        exact hi.src e he.1
    · have hle : (liveEdges l).filter (· ≠ e) = liveEdges l := by
        rw [List.filter_eq_self]
        intro x hx
        simp only [ne_eq, decide_not, Bool.not_eq_eq_eq_not, Bool.not_true, decide_eq_false_iff_not]
        rintro rfl
        exact he ((hi.eds _).2 hx)
      rcases removeEdge_absent hi.wf e he with h3 | h3
      · rw [h3] at h1; simp at h1
      · rw [h3] at h1
        simp only [Except.ok.injEq] at h1
        subst h1
        refine ⟨hi.wf, hi.issued, hi.bound, hi.verts, ?_, ?_⟩
        · intro x; simp only [liveEdges, hle]; exact hi.eds x
        · intro x; simp only [liveEdges, hle]; exact hi.src x
  | removeVertex u =>
    obtain ⟨g1, h1, h2⟩ := except_map_ok h
    simp only [Prod.mk.injEq] at h2
    obtain ⟨rfl, rfl⟩ := h2
    by_cases hu : u ∈ g.vertices
    · obtain ⟨g2, a, b, c, d, f⟩ := removeVertex_spec hi.wf u hu
      rw [a] at h1
      simp only [Except.ok.injEq] at h1
      subst h1
      have hv : ∀ x, x ∈ g2.vertices ↔ x ∈ g.vertices ∧ x ≠ u := by
        intro x; rw [d]; simp
      refine ⟨b, ?_, ?_, ?_, ?_, ?_⟩
      · rw [c]; exact hi.issued
      · intro x hx; rw [c]; exact hi.bound x ((hv x).1 hx).1
      · intro x; rw [hv, hi.verts]; simp [liveVertices]
      · intro e
        rw [f, hi.eds e]
        simp [liveEdges]
      · intro e he
        simp only [liveEdges, List.mem_filter, decide_eq_true_eq] at he
        rw [hv, hv]
        exact ⟨⟨(hi.src e he.1).1, he.2.1⟩, ⟨(hi.src e he.1).2, he.2.2⟩⟩
    · rw [removeVertex_absent hi.wf u hu] at h1; simp at h1
  | clear =>
    obtain ⟨g1, h1, h2⟩ := except_map_ok h
    simp only [Prod.mk.injEq] at h2
    obtain ⟨rfl, rfl⟩ := h2
    rw [clear_spec hi.wf] at h1
    simp only [Except.ok.injEq] at h1
    subst h1
    refine ⟨⟨adjWF_nil, adjWF_nil, ?_, ?_⟩, ?_, ?_, ?_, ?_, ?_⟩ <;>
      simp [issuedVertices, liveVertices, liveEdges, vertices, Graph.vertices, Dict.keys, lk]

theorem history_inv {g : IGraph} {l : GLog} (h : History exec .empty g l) : HInv g l := by
  induction h with
  | start =>
    refine ⟨⟨adjWF_nil, adjWF_nil, ?_, ?_⟩, ?_, ?_, ?_, ?_, ?_⟩ <;>
      simp [issuedVertices, liveVertices, liveEdges, vertices, Graph.vertices, Dict.keys, lk, IGraph.empty, Graph.empty]
  | call _ he ih => exact exec_inv ih he

end PyBGL.IGraph
