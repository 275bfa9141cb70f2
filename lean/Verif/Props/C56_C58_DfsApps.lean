import Verif.Proofs.Dfs
import Verif.Model.DfsApps
import Verif.Proofs.GraphLemmas
import Verif.Props.C51_C54_Dfs

/-!
# C56–C58: `cut`, `graph_extract`, `graph_copy`
-/

namespace PyBGL
variable {V E : Type} [DecidableEq V] {g : GraphI V E} {p : E → Bool}

/-- `source(e)` is `u` for each `e` in `out_edges(u)`, as for all the directed graphs of the library. -/
def GraphI.SourcesOK (g : GraphI V E) : Prop := ∀ u, ∀ e ∈ g.outEdges u, g.source e = u

/-! ## Cuts -/

theorem DfsFacts.mem_examined {us : List V} {c : Dict V Color} {tr : List (DfsEvent V E)} (f : DfsFacts g p us c tr) (e : E) :
    e ∈ PyBGL.examined tr ↔ ∃ u ∈ discovered tr, e ∈ pushed g p u := by
  rw [f.examined.mem_iff, List.mem_flatMap]

theorem DfsFacts.mem_ifPush {us : List V} {c : Dict V Color} {tr : List (DfsEvent V E)} (f : DfsFacts g p us c tr) (e : E) :
    .ifPush e ∈ tr ↔ ∃ u ∈ discovered tr, e ∈ g.outEdges u := by
  constructor
  · intro h
    obtain ⟨a, b, ht⟩ := List.append_of_mem h
    obtain ⟨u, hu, he⟩ := f.ok a _ b ht
    exact ⟨u, by rw [ht]; simp [hu], he⟩
  · rintro ⟨u, hu, he⟩
    obtain ⟨a, b, ht⟩ := List.append_of_mem (mem_finished.mp (f.perm.mem_iff.mpr hu))
    have := (f.ok a _ b ht).2.2.1 e he
    rw [ht]; simp [this]

theorem DfsFacts.reach_single {s : V} {c : Dict V Color} {tr : List (DfsEvent V E)} (f : DfsFacts g p [s] c tr) (v : V) :
    v ∈ discovered tr ↔ Reach (g.through p) s v := by
  rw [f.reach]; exact ⟨fun ⟨x, hx, h'⟩ => by simp at hx; exact hx ▸ h', fun h' => ⟨s, by simp, h'⟩⟩

theorem emit_cut [DecidableEq E] (hs : g.SourcesOK) (inCut : E → Bool) {us : List V} {c : Dict V Color} {tr : List (DfsEvent V E)}
    (f : DfsFacts g p us c tr) :
    ∃ st, emit (cutVisitor g inCut) tr ([], []) = .ok st ∧
      (∀ u, u ∈ st.1 ↔ u ∈ discovered tr ∧ ∀ e ∈ examined tr, g.source e ≠ u) ∧ (∀ e, e ∈ st.2 ↔ inCut e = true ∧ .ifPush e ∈ tr) := by
  refine f.emit (vis := cutVisitor g inCut) (fun pre st => (∀ u, u ∈ st.1 ↔ u ∈ discovered pre ∧ ∀ e ∈ examined pre, g.source e ≠ u) ∧
    (∀ e, e ∈ st.2 ↔ inCut e = true ∧ .ifPush e ∈ pre)) ?_ [] tr rfl ([], []) ⟨by simp, by simp⟩
  rintro pre x rest ⟨L, C⟩ ht hok ⟨h1, h2⟩
  have hex : ∀ e ∈ examined pre, g.source e ∈ discovered pre := by
    intro e he
    obtain ⟨a1, a2, rfl⟩ := List.append_of_mem (mem_examined.mp he)
    obtain ⟨u, hu, hg⟩ := f.ok a1 (.examineEdge e) (a2 ++ x :: rest) (by simp [ht])
    rw [hs u e (List.mem_filter.mp hu).1]
    simp [(traceColor_gray.mp hg).1]
  cases x with
  | examineEdge e =>
    refine ⟨_, rfl, fun u => ?_, fun x => by rw [h2]; simp⟩
    rw [mem_setDiscard, h1]
    simp only [discovered_append, examined_append, List.mem_append]
    constructor
    · rintro ⟨⟨h3, h4⟩, h5⟩
      refine ⟨by simp [h3], ?_⟩
      rintro e' (h6 | h6)
      · exact h4 e' h6
      · simp at h6; subst h6; exact fun h => h5 h.symm
    · rintro ⟨h3, h4⟩
      exact ⟨⟨by simpa using h3, fun e' h5 => h4 e' (.inl h5)⟩, fun h => h4 e (by simp) h.symm⟩
  | discover u =>
    refine ⟨_, rfl, fun w => ?_, fun x => by rw [h2]; simp⟩
    rw [mem_setAdd, h1]
    have hu := (traceColor_white.mp hok.1).1
    simp only [discovered_append, examined_append, List.mem_append]
    constructor
    · rintro (⟨h3, h4⟩ | rfl)
      · exact ⟨.inl h3, by simpa using h4⟩
      · refine ⟨by simp, ?_⟩
        intro e he h
        have he' : e ∈ examined pre := by simpa using he
        exact hu (h ▸ hex e he')
    · rintro ⟨h3, h4⟩
      have h4' : ∀ e ∈ examined pre, g.source e ≠ w := fun e he => h4 e (by simp [he])
      rcases h3 with h3 | h3
      · exact .inl ⟨h3, h4'⟩
      · exact .inr (by simpa using h3)
  | ifPush e =>
    refine ⟨_, rfl, fun w => by rw [h1]; simp, fun x => ?_⟩
    by_cases hc : inCut e = true
    · simp only [hc, if_true, mem_setAdd, h2]
      constructor
      · rintro (⟨h3, h4⟩ | rfl)
        · exact ⟨h3, by simp [h4]⟩
        · exact ⟨hc, by simp⟩
      · rintro ⟨h3, h4⟩
        have : .ifPush x ∈ pre ∨ x = e := by simpa using h4
        tauto
    · simp only [hc, Bool.false_eq_true, if_false, h2]
      constructor
      · rintro ⟨h3, h4⟩; exact ⟨h3, by simp [h4]⟩
      · rintro ⟨h3, h4⟩
        have : .ifPush x ∈ pre ∨ x = e := by simpa using h4
        rcases this with h | rfl
        · exact ⟨h3, h⟩
        · exact absurd h3 hc
  | _ => exact ⟨_, rfl, fun w => by rw [h1]; simp, fun x => by rw [h2]; simp⟩

/-- **C56**: `cut(s, g, in_cut)` returns exactly the targets of the edges of the cut that leave a vertex reachable from `s` without crossing the cut, and the
vertices so reachable without out-edge. -/
theorem C56_cut [DecidableEq E] (hs : g.SourcesOK) (inCut : E → Bool) (s : V) (U : List V)
    (hU : ∀ v, Reach (g.through (fun e => !inCut e)) s v → v ∈ U) :
    ∃ r, Returns (cut s g inCut) (.ok r) ∧ r.Nodup ∧
      ∀ v, v ∈ r ↔ (∃ u e, Reach (g.through (fun e => !inCut e)) s u ∧ e ∈ g.outEdges u ∧ inCut e = true ∧ g.target e = v) ∨
        (Reach (g.through (fun e => !inCut e)) s v ∧ g.outEdges v = []) := by
  obtain ⟨c, tr, f, _, hr⟩ := dfs_facts hU
  obtain ⟨⟨L, C⟩, h1, h2, h3⟩ := emit_cut hs inCut f
  refine ⟨mkSet (C.map g.target ++ L.filter (fun u => u ∉ C.map g.source)), ?_, ?_, ?_⟩
  · obtain ⟨N, hN⟩ := hr _ (cutVisitor g inCut) ([], [])
    refine ⟨N, fun fuel hf => ?_⟩
    have := hN fuel hf
    unfold cut
    rw [this, h1]; rfl
  · exact nodup_mkSet _
  · intro v
    have hC : ∀ e, e ∈ C ↔ inCut e = true ∧ ∃ u, Reach (g.through (fun e => !inCut e)) s u ∧ e ∈ g.outEdges u := by
      intro e
      rw [h3, f.mem_ifPush]
      constructor
      · rintro ⟨h, u, hu, he⟩; exact ⟨h, u, (f.reach_single u).mp hu, he⟩
      · rintro ⟨h, u, hu, he⟩; exact ⟨h, u, (f.reach_single u).mpr hu, he⟩
    have hL : ∀ u, u ∈ L ↔ Reach (g.through (fun e => !inCut e)) s u ∧ ∀ e ∈ g.outEdges u, inCut e = true := by
      intro u
      rw [h2, f.reach_single]
      refine and_congr_right (fun hu => ?_)
      constructor
      · intro h e he
        by_contra hn
        refine h e ((f.mem_examined e).mpr ⟨u, (f.reach_single u).mpr hu, ?_⟩) (hs u e he)
        exact List.mem_filter.mpr ⟨he, by simpa using hn⟩
      · intro h e he hsrc
        obtain ⟨w, hw, hew⟩ := (f.mem_examined e).mp he
        obtain ⟨hew1, hew2⟩ := List.mem_filter.mp hew
        have := hs w e hew1
        rw [hsrc] at this
        subst this
        have := h e hew1
        simp [this] at hew2
    rw [mem_mkSet, List.mem_append, List.mem_map, List.mem_filter]
    simp only [hC, hL, List.mem_map, decide_eq_true_eq]
    constructor
    · rintro (⟨e, ⟨h4, u, h5, h6⟩, h7⟩ | ⟨⟨h4, h5⟩, h6⟩)
      · exact .inl ⟨u, e, h5, h6, h4, h7⟩
      · refine .inr ⟨h4, ?_⟩
        rw [List.eq_nil_iff_forall_not_mem]
        intro e he
        exact h6 ⟨e, ⟨h5 e he, v, h4, he⟩, hs v e he⟩
    · rintro (⟨u, e, h5, h6, h4, h7⟩ | ⟨h4, h5⟩)
      · exact .inl ⟨e, ⟨h4, u, h5, h6⟩, h7⟩
      · refine .inr ⟨⟨h4, by simp [h5]⟩, ?_⟩
        rintro ⟨e, ⟨_, u, _, h6⟩, h7⟩
        have := hs u e h6
        rw [h7] at this
        subst this
        rw [h5] at h6; simp at h6

/-- **C56** (cut): every path from `s` to a leaf goes through a vertex of the result. -/
theorem C56_separates [DecidableEq E] (hs : g.SourcesOK) (inCut : E → Bool) (s : V) (U : List V)
    (hU : ∀ v, Reach (g.through (fun e => !inCut e)) s v → v ∈ U) {r : List V} (hr : Returns (cut s g inCut) (.ok r))
    {es : List E} {w : V} (hp : IsPath g s es w) (hw : g.outEdges w = []) : ∃ v ∈ r, v = s ∨ ∃ e ∈ es, g.target e = v := by
  obtain ⟨r', h1, _, h2⟩ := C56_cut hs inCut s U hU
  have := returns_unique h1 hr
  simp only [Except.ok.injEq] at this
  subst this
  have key : ∀ u es, IsPath g u es w → Reach (g.through (fun e => !inCut e)) s u → ∃ v ∈ r', v = u ∨ ∃ e ∈ es, g.target e = v := by
    clear hp
    intro u es hp
    induction hp with
    | nil u => intro hu; exact ⟨u, (h2 u).mpr (.inr ⟨hu, hw⟩), .inl rfl⟩
    | @cons u v e es he hp ih =>
      intro hu
      by_cases hc : inCut e = true
      · exact ⟨g.target e, (h2 _).mpr (.inl ⟨u, e, hu, he, hc, rfl⟩), .inr ⟨e, by simp, rfl⟩⟩
      · obtain ⟨x, hx, h⟩ := ih hw (hu.step (e := e) (List.mem_filter.mpr ⟨he, by simpa using hc⟩))
        refine ⟨x, hx, .inr ?_⟩
        rcases h with rfl | ⟨e', he', h'⟩
        · exact ⟨e, by simp, rfl⟩
        · exact ⟨e', by simp [he'], h'⟩
  exact key s es hp (Reach.refl _ _)

/-! ## Extraction -/

/-- Callbacks that record the vertices and the edges they receive. -/
def recordVertex (u : V) (s : List V × List E) : Except PyErr (List V × List E) := .ok (s.1 ++ [u], s.2)
/-- See `recordVertex`. -/
def recordEdge (e : E) (s : List V × List E) : Except PyErr (List V × List E) := .ok (s.1, s.2 ++ [e])

/-- The relevant edges: `pmap_erelevant[e] and pmap_vrelevant[g.target(e)]`, where missing maps are always true. -/
def relevant (g : GraphI V E) (vrel : Option (V → Bool)) (erel : Option (E → Bool)) (e : E) : Bool :=
  (erel.getD (fun _ => true)) e && (vrel.getD (fun _ => true)) (g.target e)

/-- **C57**: `graph_extract` calls the vertex callback exactly once for each vertex reachable from `s` through relevant edges (leading to relevant
targets), and the edge callback exactly once for each relevant edge leaving such a vertex. -/
theorem C57_extract (s : V) (vrel : Option (V → Bool)) (erel : Option (E → Bool)) (U : List V)
    (hU : ∀ v, Reach (g.through (relevant g vrel erel)) s v → v ∈ U) :
    ∃ vs es, Returns (graphExtract s g vrel erel (some recordVertex) (some recordEdge) ([], [])) (.ok (vs, es)) ∧
      vs.Nodup ∧ (∀ v, v ∈ vs ↔ Reach (g.through (relevant g vrel erel)) s v) ∧
      es.Perm (vs.flatMap (g.through (relevant g vrel erel)).outEdges) := by
  obtain ⟨c, tr, f, _, hr⟩ := dfs_facts hU
  have key : ∃ st, emit (extractVisitor g (vrel.getD (fun _ => true)) (erel.getD (fun _ => true)) (some recordVertex) (some recordEdge)) tr
      ([], []) = .ok st ∧ st = (discovered tr, examined tr) := by
    refine f.emit (vis := extractVisitor g _ _ _ _) (fun pre st => st = (discovered pre, examined pre)) ?_ [] tr rfl ([], []) rfl
    rintro pre x rest st ht hok rfl
    cases x with
    | examineEdge e =>
      obtain ⟨u, hu, _⟩ := hok
      have hrel : relevant g vrel erel e = true := (List.mem_filter.mp hu).2
      refine ⟨(discovered pre, examined pre ++ [e]), ?_, by simp⟩
      exact if_pos hrel
    | discover u => exact ⟨_, rfl, by simp⟩
    | _ => exact ⟨_, rfl, by simp⟩
  obtain ⟨st, h1, rfl⟩ := key
  refine ⟨discovered tr, examined tr, ?_, f.nodup, f.reach_single, f.examined⟩
  obtain ⟨N, hN⟩ := hr _ (extractVisitor g (vrel.getD (fun _ => true)) (erel.getD (fun _ => true)) (some recordVertex) (some recordEdge)) ([], [])
  refine ⟨N, fun fuel hf => ?_⟩
  have := hN fuel hf
  unfold graphExtract
  show Option.map _ (dfs g (relevant g vrel erel) _ s [] ([], []) fuel) = _
  rw [this, h1]; rfl

/-! ## Copy -/

/-- What the copy needs to know about the method `add_edge` of the class of the copy: `ok` is an invariant of the class, `mem` tells the edges of a
graph, and `ends` how the ends of an edge are stored. -/
structure EdgeAdder (add : Graph → Nat → Nat → Except PyErr (EdgeDesc Nat × Graph)) (ok : Graph → Prop) (mem : Graph → EdgeDesc Nat → Prop)
    (ends : Nat → Nat → EdgeDesc Nat → Prop) : Prop where
  empty : ok .empty ∧ ∀ e, ¬ mem .empty e
  vertex : ∀ g : Graph, ok g → (∀ x ∈ g.vertices, x < g.lastVertexId) → ok g.addVertex.2 ∧ ∀ e, mem g.addVertex.2 e ↔ mem g e
  edge : ∀ (g : Graph) x y, ok g → x ∈ g.vertices → y ∈ g.vertices → ∃ e g', add g x y = .ok (e, g') ∧ ok g' ∧ ¬ mem g e ∧
    g'.lastVertexId = g.lastVertexId ∧ g'.vertices = g.vertices ∧ (∀ e', mem g' e' ↔ mem g e' ∨ e' = e) ∧ ends x y e

variable {add : Graph → Nat → Nat → Except PyErr (EdgeDesc Nat × Graph)} {ok : Graph → Prop} {mem : Graph → EdgeDesc Nat → Prop}
  {ends : Nat → Nat → EdgeDesc Nat → Prop}

/-- The invariant of `DepthFirstSearchCopyVisitor`. -/
structure CopyInv [DecidableEq E] (ok : Graph → Prop) (mem : Graph → EdgeDesc Nat → Prop) (ends : Nat → Nat → EdgeDesc Nat → Prop)
    (g : GraphI V E) (pre : List (DfsEvent V E)) (s : CopyState V E) : Prop where
  wf : ok s.dup
  bound : ∀ x ∈ s.dup.vertices, x < s.dup.lastVertexId
  done : ∀ v, v ∈ s.done ↔ ∃ x, s.vmap.get? v = some x
  verts : ∀ x, x ∈ s.dup.vertices ↔ ∃ v, s.vmap.get? v = some x
  inj : ∀ v w x, s.vmap.get? v = some x → s.vmap.get? w = some x → v = w
  dom : ∀ v, v ∈ s.done ↔ .start v ∈ pre ∨ ∃ e ∈ examined pre, g.target e = v
  edom : ∀ e, e ∈ examined pre ↔ ∃ e', s.emap.get? e = some e'
  eds : ∀ e', mem s.dup e' ↔ ∃ e, s.emap.get? e = some e'
  einj : ∀ e f x, s.emap.get? e = some x → s.emap.get? f = some x → e = f
  ends : ∀ e x, s.emap.get? e = some x → ∃ a b, s.vmap.get? (g.source e) = some a ∧ s.vmap.get? (g.target e) = some b ∧ ends a b x

theorem dupVertex_inv [DecidableEq E] (ha : EdgeAdder add ok mem ends) {pre pre' : List (DfsEvent V E)} {s : CopyState V E} (i : CopyInv ok mem ends g pre s) {v : V} (hv : v ∉ s.done)
    (he : examined pre' = examined pre) (hst : ∀ w, .start w ∈ pre' ↔ .start w ∈ pre ∨ w = v) :
    CopyInv ok mem ends g pre' (dupVertex s v).2 ∧ (dupVertex s v).2.vmap.get? v = some (dupVertex s v).1 := by
  have hnew : s.dup.lastVertexId ∉ s.dup.vertices := fun h => Nat.lt_irrefl _ (i.bound _ h)
  have hvn : ∀ x, s.vmap.get? v ≠ some x := fun x h => hv ((i.done v).mpr ⟨x, h⟩)
  obtain ⟨hok, hmem⟩ := ha.vertex s.dup i.wf i.bound
  have hvm : ∀ w, (dupVertex s v).2.vmap.get? w = if v = w then some s.dup.lastVertexId else s.vmap.get? w := by
    intro w; show (s.vmap.set v _).get? w = _; rw [Dict.get?_set]
  refine ⟨⟨hok, ?_, ?_, ?_, ?_, ?_, ?_, ?_, i.einj, ?_⟩, ?_⟩
  · intro x hx
    have : x = s.dup.lastVertexId ∨ x ∈ s.dup.vertices := by
      simpa [dupVertex, Graph.addVertex, Graph.vertices, Dict.mem_keys_set] using hx
    show x < s.dup.lastVertexId + 1
    rcases this with rfl | h
    · omega
    · have := i.bound x h; omega
  · intro w
    show w ∈ setAdd s.done v ↔ _
    rw [mem_setAdd, i.done, hvm]
    by_cases e : v = w
    · simp [e]
    · simp [e, Ne.symm e]
  · intro x
    have : x ∈ (dupVertex s v).2.dup.vertices ↔ x = s.dup.lastVertexId ∨ x ∈ s.dup.vertices := by
      simp [dupVertex, Graph.addVertex, Graph.vertices, Dict.mem_keys_set]
    rw [this, i.verts]
    simp only [hvm]
    constructor
    · rintro (rfl | ⟨w, hw⟩)
      · exact ⟨v, by simp⟩
      · exact ⟨w, by rw [if_neg (fun e : v = w => hvn x (e ▸ hw))]; exact hw⟩
    · rintro ⟨w, hw⟩
      split at hw
      · simp at hw; exact .inl hw.symm
      · exact .inr ⟨w, hw⟩
  · intro a b x ha hb
    rw [hvm] at ha hb
    have hx : ∀ w, s.vmap.get? w = some s.dup.lastVertexId → False := fun w h => hnew ((i.verts _).mpr ⟨w, h⟩)
    split at ha
    · split at hb
      · rename_i e1 e2; rw [← e1, ← e2]
      · simp at ha; subst ha; exact (hx b hb).elim
    · split at hb
      · simp at hb; subst hb; exact (hx a ha).elim
      · exact i.inj a b x ha hb
  · intro w
    show w ∈ setAdd s.done v ↔ _
    rw [mem_setAdd, i.dom, he, hst, or_right_comm]
  · intro e; rw [he]; exact i.edom e
  · intro e'
    show mem s.dup.addVertex.2 e' ↔ _
    rw [hmem]
    exact i.eds e'
  · intro e x hx
    obtain ⟨a, b, h1, h2, h3⟩ := i.ends e x hx
    refine ⟨a, b, ?_, ?_, h3⟩
    · rw [hvm, if_neg (fun h : v = _ => hvn _ (h ▸ h1))]; exact h1
    · rw [hvm, if_neg (fun h : v = _ => hvn _ (h ▸ h2))]; exact h2
  · rw [hvm, if_pos rfl]; rfl

/-- The invariant only depends on some of the calls. -/
theorem CopyInv.congr [DecidableEq E] {pre pre' : List (DfsEvent V E)} {s : CopyState V E} (i : CopyInv ok mem ends g pre s)
    (he : examined pre' = examined pre) (hst : ∀ w, .start w ∈ pre' ↔ .start w ∈ pre) : CopyInv ok mem ends g pre' s :=
  ⟨i.wf, i.bound, i.done, i.verts, i.inj, fun v => by rw [i.dom, he, hst], fun e => by rw [he]; exact i.edom e, i.eds, i.einj, i.ends⟩

/-- Adding the copy of an edge whose ends are copied. -/
theorem addEdge_inv [DecidableEq E] (ha : EdgeAdder add ok mem ends) {s : CopyState V E} {e : E} {x y : Nat}
    (hwf : ok s.dup) (hbound : ∀ x ∈ s.dup.vertices, x < s.dup.lastVertexId)
    (hdone : ∀ v, v ∈ s.done ↔ ∃ x, s.vmap.get? v = some x)
    (hverts : ∀ x, x ∈ s.dup.vertices ↔ ∃ v, s.vmap.get? v = some x)
    (hinj : ∀ v w x, s.vmap.get? v = some x → s.vmap.get? w = some x → v = w)
    (pre : List (DfsEvent V E)) (hdom : ∀ v, v ∈ s.done ↔ .start v ∈ pre ∨ ∃ a ∈ examined (pre ++ [.examineEdge e]), g.target a = v)
    (hedom : ∀ e, e ∈ examined pre ↔ ∃ e', s.emap.get? e = some e')
    (heds : ∀ e', mem s.dup e' ↔ ∃ e, s.emap.get? e = some e')
    (heinj : ∀ e f x, s.emap.get? e = some x → s.emap.get? f = some x → e = f)
    (hends : ∀ e x, s.emap.get? e = some x → ∃ a b, s.vmap.get? (g.source e) = some a ∧ s.vmap.get? (g.target e) = some b ∧ ends a b x)
    (hne : e ∉ examined pre) (hx : s.vmap.get? (g.source e) = some x) (hy : s.vmap.get? (g.target e) = some y) :
    ∃ e' dup, add s.dup x y = .ok (e', dup) ∧
      CopyInv ok mem ends g (pre ++ [.examineEdge e]) { s with dup := dup, emap := s.emap.set e e' } := by
  obtain ⟨n, dup, h1, h2, h3, h4, h5, h6, h7⟩ := ha.edge s.dup x y hwf ((hverts x).mpr ⟨_, hx⟩) ((hverts y).mpr ⟨_, hy⟩)
  refine ⟨_, _, h1, h2, ?_, hdone, ?_, hinj, ?_, ?_, ?_, ?_, ?_⟩
  · intro z hz
    show z < dup.lastVertexId
    rw [h4]; exact hbound z (h5 ▸ hz)
  · intro z
    show z ∈ dup.vertices ↔ _
    rw [h5]; exact hverts z
  · intro v
    show v ∈ s.done ↔ _
    rw [hdom]; simp
  · intro e'
    show _ ↔ ∃ x, (s.emap.set e _).get? e' = some x
    rw [Dict.get?_set]
    simp only [examined_append, List.mem_append, hedom]
    by_cases h : e = e'
    · simp [h]
    · simp [h, Ne.symm h]
  · intro z
    show mem dup z ↔ ∃ e', (s.emap.set e _).get? e' = some _
    rw [h6]
    simp only [Dict.get?_set]
    constructor
    · rintro (h | rfl)
      · obtain ⟨e', he'⟩ := (heds z).mp h
        refine ⟨e', ?_⟩
        rw [if_neg]
        · exact he'
        · rintro rfl; exact hne ((hedom e).mpr ⟨_, he'⟩)
      · exact ⟨e, by simp⟩
    · rintro ⟨e', he'⟩
      split at he'
      · simp at he'; exact .inr he'.symm
      · exact .inl ((heds z).mpr ⟨e', he'⟩)
  · intro a b z ha hb
    have ha : (s.emap.set e _).get? a = some z := ha
    have hb : (s.emap.set e _).get? b = some z := hb
    rw [Dict.get?_set] at ha hb
    have hx : ∀ w, s.emap.get? w = some n → False := fun w h => h3 ((heds n).mpr ⟨w, h⟩)
    split at ha
    · split at hb
      · rename_i e1 e2; rw [← e1, ← e2]
      · simp at ha; subst ha; exact (hx b hb).elim
    · split at hb
      · simp at hb; subst hb; exact (hx a ha).elim
      · exact heinj a b z ha hb
  · intro a z ha
    have ha : (s.emap.set e _).get? a = some z := ha
    rw [Dict.get?_set] at ha
    split at ha
    · rename_i e1; subst e1; simp at ha; subst ha; exact ⟨x, y, hx, hy, h7⟩
    · exact hends a z ha

theorem getE_ok {K W : Type} [DecidableEq K] {d : Dict K W} {k : K} {w : W} (h : d.get? k = some w) : d.getE k = .ok w :=
  Dict.getE_of_get? h

theorem dupEdge_inv [DecidableEq E] (ha : EdgeAdder add ok mem ends) {pre : List (DfsEvent V E)} {s : CopyState V E} (i : CopyInv ok mem ends g pre s) {e : E}
    (hne : e ∉ examined pre) (hsrc : g.source e ∈ s.done) :
    ∃ s', dupEdge add g s e = .ok s' ∧ CopyInv ok mem ends g (pre ++ [.examineEdge e]) s' := by
  obtain ⟨x, hx⟩ := (i.done _).mp hsrc
  have hE := getE_ok hx
  unfold dupEdge
  rw [hE]
  simp only
  by_cases ht : g.target e ∈ s.done
  · obtain ⟨y, hy⟩ := (i.done _).mp ht
    have hT : dupTarget s (g.target e) = .ok (y, s) := by
      unfold dupTarget; rw [if_pos ht, getE_ok hy]
    rw [hT]
    simp only
    obtain ⟨e', dup, h1, h2⟩ := addEdge_inv ha (g := g) (e := e) i.wf i.bound i.done i.verts i.inj pre (by
      intro v
      rw [i.dom]
      constructor
      · rintro (h | ⟨a, ha, h⟩)
        · exact .inl h
        · exact .inr ⟨a, by simp [ha], h⟩
      · rintro (h | ⟨a, ha, h⟩)
        · exact .inl h
        · have ha' : a ∈ examined pre ∨ a = e := by simpa using ha
          rcases ha' with ha' | rfl
          · exact .inr ⟨a, ha', h⟩
          · subst h; exact (i.dom _).mp ht) i.edom i.eds i.einj i.ends hne hx hy
    rw [h1]
    exact ⟨_, rfl, h2⟩
  · have hT : dupTarget s (g.target e) = .ok (dupVertex s (g.target e)) := by
      unfold dupTarget; rw [if_neg ht]
    rw [hT]
    simp only
    -- the state after the copy of the target, seen with a fictitious start
    obtain ⟨j, hj⟩ := dupVertex_inv ha (pre' := pre ++ [.start (g.target e)]) i ht (by simp) (by intro w; simp)
    have hx' : (dupVertex s (g.target e)).2.vmap.get? (g.source e) = some x := by
      show (s.vmap.set _ _).get? _ = _
      rw [Dict.get?_set, if_neg]
      · exact hx
      · rintro h; exact ht (h ▸ hsrc)
    obtain ⟨e', dup, h1, h2⟩ := addEdge_inv ha (g := g) (e := e) j.wf j.bound j.done j.verts j.inj pre (by
      intro v
      rw [j.dom]
      constructor
      · rintro (h | ⟨a, ha, h⟩)
        · have : .start v ∈ pre ∨ v = g.target e := by simpa using h
          rcases this with h | rfl
          · exact .inl h
          · exact .inr ⟨e, by simp, rfl⟩
        · exact .inr ⟨a, by simpa using Or.inl ha, h⟩
      · rintro (h | ⟨a, ha, h⟩)
        · exact .inl (by simp [h])
        · have ha' : a ∈ examined pre ∨ a = e := by simpa using ha
          rcases ha' with ha' | rfl
          · exact .inr ⟨a, by simpa using ha', h⟩
          · exact .inl (by simp [h])) (fun a => by rw [← j.edom]; simp) j.eds j.einj j.ends hne hx' hj
    rw [h1]
    exact ⟨_, rfl, h2⟩

theorem nodup_flatMap_pushed (hs : g.SourcesOK) (hn : ∀ u, (g.outEdges u).Nodup) {l : List V} (hl : l.Nodup) : (l.flatMap (pushed g p)).Nodup := by
  induction l with
  | nil => simp
  | cons u l ih =>
    rw [List.nodup_cons] at hl
    rw [List.flatMap_cons, List.nodup_append]
    refine ⟨(hn u).filter _, ih hl.2, ?_⟩
    intro a ha b hb hab
    subst hab
    obtain ⟨w, hw, hb⟩ := List.mem_flatMap.mp hb
    have h1 := hs u a (List.mem_filter.mp ha).1
    have h2 := hs w a (List.mem_filter.mp hb).1
    exact hl.1 (h1.symm.trans h2 ▸ hw)

/-- `graph_copy` into an empty graph whose class adds edges as described by `EdgeAdder`. -/
theorem graphCopyWith_spec [DecidableEq E] (ha : EdgeAdder add ok mem ends) (hs : g.SourcesOK) (hn : ∀ u, (g.outEdges u).Nodup) (s : V)
    (vrel : Option (V → Bool)) (erel : Option (E → Bool))
    (U : List V) (hU : ∀ v, Reach (g.through (relevant g vrel erel)) s v → v ∈ U) :
    ∃ dup vm em, Returns (graphCopyWith add s g Graph.empty vrel erel) (.ok (dup, vm, em)) ∧ ok dup ∧
      (∀ v, Reach (g.through (relevant g vrel erel)) s v ↔ ∃ x, vm.get? v = some x) ∧
      (∀ x, x ∈ dup.vertices ↔ ∃ v, vm.get? v = some x) ∧
      (∀ v w x, vm.get? v = some x → vm.get? w = some x → v = w) ∧
      (∀ e, (∃ u, Reach (g.through (relevant g vrel erel)) s u ∧ e ∈ (g.through (relevant g vrel erel)).outEdges u) ↔
        ∃ e', em.get? e = some e') ∧
      (∀ e', mem dup e' ↔ ∃ e, em.get? e = some e') ∧
      (∀ e f e', em.get? e = some e' → em.get? f = some e' → e = f) ∧
      (∀ e e', em.get? e = some e' → ∃ x y, vm.get? (g.source e) = some x ∧ vm.get? (g.target e) = some y ∧ ends x y e') := by
  obtain ⟨c, tr, f, ⟨t, htr⟩, hr⟩ := dfs_facts hU
  have hexn : (examined tr).Nodup := f.examined.nodup_iff.mpr (nodup_flatMap_pushed hs hn f.nodup)
  have i0 : CopyInv ok mem ends g [] (⟨Graph.empty, [], [], []⟩ : CopyState V E) := by
    refine ⟨ha.empty.1, by simp [Graph.empty, Graph.vertices, Dict.keys], ?_, ?_, ?_, by simp, ?_, ?_, ?_, ?_⟩
    · simp [Dict.get?]
    · simp [Dict.get?, Graph.empty, Graph.vertices, Dict.keys]
    · simp [Dict.get?]
    · simp [Dict.get?]
    · intro e'; exact ⟨fun h => absurd h (ha.empty.2 e'), fun ⟨e, h⟩ => by simp [Dict.get?] at h⟩
    · simp [Dict.get?]
    · simp [Dict.get?]
  have i1 := (dupVertex_inv ha (g := g) (pre := []) (pre' := [.start s]) (v := s) i0 (by simp) (by simp) (by intro w; simp)).1
  obtain ⟨st, h1, i⟩ := f.emit (vis := copyVisitor add g (vrel.getD (fun _ => true)) (erel.getD (fun _ => true)))
    (fun pre st => (pre = [] → st = ⟨Graph.empty, [], [], []⟩) ∧ (pre ≠ [] → CopyInv ok mem ends g pre st)) (by
      rintro pre x rest st ht hok ⟨i', i⟩
      by_cases hp : pre ≠ []
      · have i := i hp
        cases x with
        | start v =>
          have hv : v = s := by
            have := f.starts v (by rw [ht]; simp)
            simpa using this
          subst hv
          exfalso
          have hw := (traceColor_white.mp hok).1
          rw [htr] at ht
          cases pre with
          | nil => exact hp rfl
          | cons a pre =>
            cases pre with
            | nil => simp at ht
            | cons b pre =>
              simp at ht
              apply hw
              rw [← ht.2.1]; simp
        | examineEdge e =>
          obtain ⟨u, hu, hg⟩ := hok
          have hne : e ∉ examined pre := by
            rw [ht] at hexn
            simp only [examined_append, examined_cons, List.cons_append, List.nil_append] at hexn
            intro h
            exact (List.nodup_append.mp hexn).2.2 e h e (by simp) rfl
          have hsu := hs u e (List.mem_filter.mp hu).1
          have hud := (traceColor_gray.mp hg).1
          have hdone : g.source e ∈ st.done := by
            rw [hsu, i.dom]
            obtain ⟨a1, a2, rfl⟩ := List.append_of_mem (mem_discovered.mp hud)
            have h3 := (f.ok a1 (.discover u) (a2 ++ .examineEdge e :: rest) (by simp [ht])).2
            rcases h3 with h3 | ⟨e', _, h3, h4⟩
            · exact .inl (by simp [h3])
            · exact .inr ⟨e', by simp [mem_examined.mpr h3], h4⟩
          obtain ⟨s', h2, h3⟩ := dupEdge_inv ha i hne hdone
          have hrel : relevant g vrel erel e = true := (List.mem_filter.mp hu).2
          refine ⟨s', ?_, by simp, fun _ => h3⟩
          exact (if_pos hrel).trans h2
        | _ => exact ⟨_, rfl, by simp, fun _ => i.congr (by simp) (by intro w; simp)⟩
      · have hp : pre = [] := by simpa using hp
        subst hp
        rw [htr] at ht
        simp at ht
        rw [i' rfl, ← ht.1]
        exact ⟨_, rfl, by simp, fun _ => i1⟩)
    [] tr rfl _ ⟨fun _ => rfl, by simp⟩
  have i := i.2 (by rw [htr]; simp)
  refine ⟨st.dup, st.vmap, st.emap, ?_, i.wf, ?_, i.verts, i.inj, ?_, i.eds, i.einj, i.ends⟩
  · obtain ⟨N, hN⟩ := hr _ (copyVisitor add g (vrel.getD (fun _ => true)) (erel.getD (fun _ => true))) ⟨Graph.empty, [], [], []⟩
    refine ⟨N, fun fuel hf => ?_⟩
    have := hN fuel hf
    unfold graphCopyWith
    show Option.map _ (dfs g (relevant g vrel erel) _ s [] _ fuel) = _
    rw [this, h1]; rfl
  · intro v
    rw [← i.done, i.dom, ← f.reach_single]
    constructor
    · intro h
      obtain ⟨a, b, hab⟩ := List.append_of_mem (mem_discovered.mp h)
      have h3 := (f.ok a (.discover v) b hab).2
      rcases h3 with h3 | ⟨e', _, h3, h4⟩
      · exact .inl (by rw [hab]; simp [h3])
      · exact .inr ⟨e', by rw [hab]; simp [mem_examined.mpr h3], h4⟩
    · rintro (h | ⟨e, he, rfl⟩)
      · have := f.starts v h
        simp at this; subst this
        rw [htr]; simp
      · obtain ⟨u, hu, he⟩ := (f.mem_examined e).mp he
        rw [f.reach_single] at hu ⊢
        exact hu.step he
  · intro e
    rw [← i.edom, f.mem_examined]
    constructor
    · rintro ⟨u, hu, he⟩; exact ⟨u, (f.reach_single u).mpr hu, he⟩
    · rintro ⟨u, hu, he⟩; exact ⟨u, (f.reach_single u).mp hu, he⟩

/-- `DirectedGraph.add_edge` as seen by the copy. -/
theorem Graph.edgeAdder : EdgeAdder Graph.addEdge (fun g => AdjWF g.adj) (fun g e => e.distinguisher ∈ lk g.adj e.source e.target)
    (fun x y e => e.source = x ∧ e.target = y) := by
  refine ⟨⟨adjWF_nil, by simp [Graph.empty, lk, Dict.get?]⟩, ?_, ?_⟩
  · intro g hw hb
    refine ⟨hw.addKey _, fun e => ?_⟩
    show e.distinguisher ∈ lk (g.adj.set g.lastVertexId []) _ _ ↔ _
    rw [lk_addKey]
    split
    · rename_i h
      refine ⟨fun h' => absurd h' (by simp), fun h' => ?_⟩
      obtain ⟨vs, _, h1, _⟩ := get?_some_of_lk h'
      have := hb _ ((Dict.mem_keys_iff _ _).mpr ⟨vs, h1⟩)
      omega
    · rfl
  · intro g x y hw hx _
    obtain ⟨n, g', h1, h2, h3, h4, h5, h6⟩ := Graph.addEdge_spec hw x y hx
    refine ⟨_, g', h1, h2, h3, h4, h5, ?_, rfl, rfl⟩
    rintro ⟨a, b, m⟩
    simp only [EdgeDesc.mk.injEq]
    exact h6 a b m

/-- **C58**: after `graph_copy(s, g, g_dup)` on an empty `g_dup`, `pmap_vertices` is a bijection between the vertices of `g` reachable from `s` through
relevant edges and the vertices of `g_dup`, and `pmap_edges` is a bijection between the relevant edges leaving these vertices (parallel edges included) and
the edges of `g_dup`, compatible with `source` and `target`. -/
theorem C58_copy [DecidableEq E] (hs : g.SourcesOK) (hn : ∀ u, (g.outEdges u).Nodup) (s : V) (vrel : Option (V → Bool)) (erel : Option (E → Bool))
    (U : List V) (hU : ∀ v, Reach (g.through (relevant g vrel erel)) s v → v ∈ U) :
    ∃ dup vm em, Returns (graphCopy s g Graph.empty vrel erel) (.ok (dup, vm, em)) ∧
      dup.vertices.Nodup ∧ dup.edges.Nodup ∧
      (∀ v, Reach (g.through (relevant g vrel erel)) s v ↔ ∃ x, vm.get? v = some x) ∧
      (∀ x, x ∈ dup.vertices ↔ ∃ v, vm.get? v = some x) ∧
      (∀ v w x, vm.get? v = some x → vm.get? w = some x → v = w) ∧
      (∀ e, (∃ u, Reach (g.through (relevant g vrel erel)) s u ∧ e ∈ (g.through (relevant g vrel erel)).outEdges u) ↔
        ∃ e', em.get? e = some e') ∧
      (∀ e', e' ∈ dup.edges ↔ ∃ e, em.get? e = some e') ∧
      (∀ e f e', em.get? e = some e' → em.get? f = some e' → e = f) ∧
      (∀ e e', em.get? e = some e' → vm.get? (g.source e) = some e'.source ∧ vm.get? (g.target e) = some e'.target) := by
  obtain ⟨dup, vm, em, h1, h2, h3, h4, h5, h6, h7, h8, h9⟩ := graphCopyWith_spec Graph.edgeAdder hs hn s vrel erel U hU
  refine ⟨dup, vm, em, h1, h2.1, Graph.nodup_edges h2, h3, h4, h5, h6, fun e' => ?_, h8, fun e e' he => ?_⟩
  · rw [Graph.mem_edges h2]; exact h7 e'
  · obtain ⟨x, y, h10, h11, rfl, rfl⟩ := h9 e e' he
    exact ⟨h10, h11⟩

/-! ## Non-vacuity -/

theorem Graph.sourcesOK {g : Graph} (h : AdjWF g.adj) : g.toI.SourcesOK := by
  intro u e he
  exact ((Graph.mem_outEdges h u e).mp he).1

theorem triangle_sources : triangle.SourcesOK := by
  intro u e he
  by_cases h : u ≤ 2
  · have : ∀ u ≤ 2, ∀ e ∈ triangle.outEdges u, triangle.source e = u := by decide
    exact this u h e he
  · have e0 : ¬ 0 = u := by omega
    have e1 : ¬ 1 = u := by omega
    have e2 : ¬ 2 = u := by omega
    simp [triangle, Graph.toI, Graph.outEdges, Dict.getD, Dict.get?, e0, e1, e2] at he

/-- Cutting the edges into `2` in the triangle. -/
example : triangle.SourcesOK ∧ cut 0 triangle (fun e => triangle.target e == 2) 20 = some (.ok [2]) ∧
    (∀ v, Reach (triangle.through (fun e => !(triangle.target e == 2))) 0 v → v ∈ triangle.vertices) := by
  refine ⟨triangle_sources, by decide, fun v h => ?_⟩
  refine h.closed (P := fun x => x ∈ triangle.vertices) (fun u hu e he => ?_) (by decide)
  exact triangle_closed u hu e (List.mem_filter.mp he).1

example : graphExtract 0 triangle none (some (fun e => !(e == (⟨0, 2, 0⟩ : EdgeDesc Nat)))) (some recordVertex) (some recordEdge) ([], []) 20 =
    some (.ok ([0, 1, 2], [⟨0, 1, 0⟩, ⟨1, 2, 0⟩])) := by decide

example : (match graphCopy 1 triangle Graph.empty none none 20 with
    | some (.ok (dup, vm, _)) => decide (dup.edges = [⟨0, 1, 0⟩]) && decide (vm = [(1, 0), (2, 1)])
    | _ => false) = true := by decide

end PyBGL
