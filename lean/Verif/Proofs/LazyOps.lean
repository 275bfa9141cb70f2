import Verif.Spec.LazyIter
import Verif.Proofs.LazyIter
import Verif.Proofs.Failure

/-! # Calls that make a graph grow, or shrink -/

namespace PyBGL
namespace Lazy
open PyM (ebind_ok ebind_error emap_ok emap_error)

variable {S R : Type}

/-! ## Methods that preserve an invariant and a relation -/

/-- Whatever it returns or raises, the method keeps `J` and makes a change in `T`. -/
def Keeps (J : S → Prop) (T : S → S → Prop) (m : PyM S R) : Prop := ∀ s, J s → J (m s).2 ∧ T s (m s).2

section keeps
variable {J : S → Prop} {T : S → S → Prop} (hr : ∀ s, T s s) (ht : ∀ a b c, T a b → T b c → T a c)
include hr

theorem keeps_pure (r : R) : Keeps J T (PyM.pure r : PyM S R) := fun s h => ⟨h, hr s⟩
theorem keeps_lift (x : Except PyErr R) : Keeps J T (PyM.lift x : PyM S R) := fun s h => ⟨h, hr s⟩

omit hr in
include ht in
theorem keeps_bind {Q : Type} {m : PyM S R} {f : R → PyM S Q} (hm : Keeps J T m) (hf : ∀ r, Keeps J T (f r)) : Keeps J T (PyM.bind m f) := by
  intro s hs
  have h1 := hm s hs
  unfold PyM.bind
  rcases h : m s with ⟨r | r, s'⟩
  · rw [h] at h1; exact h1
  · rw [h] at h1
    have h2 := hf r s' h1.1
    exact ⟨h2.1, ht _ _ _ h1.2 h2.2⟩

include ht in
theorem keeps_each {X : Type} {body : X → PyM S Unit} (hb : ∀ x, Keeps J T (body x)) : ∀ l, Keeps J T (PyM.each body l)
  | [] => keeps_pure hr ()
  | x :: l => keeps_bind ht (hb x) fun _ => keeps_each hb l

omit hr in
/-- A method that reads the object first. -/
theorem keeps_get {f : S → PyM S R} (hf : ∀ s, J s → J (f s s).2 ∧ T s (f s s).2) : Keeps J T (PyM.bind PyM.get f) := fun s hs => hf s hs

theorem keeps_atomic {f : S → Except PyErr (R × S)} (hf : ∀ s r s', J s → f s = .ok (r, s') → J s' ∧ T s s') : Keeps J T (PyM.atomic f) := by
  intro s hs
  unfold PyM.atomic
  cases h : f s with
  | error e => exact ⟨hs, hr s⟩
  | ok p => exact hf s p.1 p.2 hs h

include ht in
theorem keeps_calls {Op Out : Type} {exec : Op → PyM S Out} : ∀ (ops : List Op), (∀ op ∈ ops, Keeps J T (exec op)) → ∀ s, J s →
    J (afterCalls exec ops s) ∧ T s (afterCalls exec ops s)
  | [], _, s, hs => ⟨hs, hr s⟩
  | op :: ops, h, s, hs => by
    have h1 := h op List.mem_cons_self s hs
    have h2 := keeps_calls ops (fun o ho => h o (List.mem_cons_of_mem _ ho)) _ h1.1
    exact ⟨h2.1, ht _ _ _ h1.2 h2.2⟩

end keeps

/-! ## Two-level dictionaries -/

theorem keys_sub_set (d : Dict Nat (List Nat)) (v : Nat) (s : List Nat) : d.keys.Sublist (d.set v s).keys := by
  by_cases h : v ∈ d.keys
  · rw [Dict.keys_set_of_mem _ _ _ h]
  · rw [Dict.keys_set_of_not_mem _ _ _ h]; exact List.sublist_append_left _ _

theorem sub_up {a : Adj} {u : Nat} {vs vs' : Dict Nat (List Nat)} (h : a.get? u = some vs) (hk : vs.keys.Sublist vs'.keys)
    (hs : ∀ v, (vs.getD v []).Sublist (vs'.getD v [])) : Sub a (a.set u vs') where
  outer := by rw [Dict.keys_set_of_mem _ _ _ ((Dict.mem_keys_iff _ _).2 ⟨_, h⟩)]
  inner w := by
    rw [Dict.getD_set]
    split
    · next e => subst e; rw [Dict.getD, h]; exact hk
    · exact .refl _
  sets w v := by
    rw [← getD_getD, ← getD_getD, Dict.getD_set]
    split
    · next e => subst e; rw [Dict.getD_eq a, h]; exact hs v
    · exact .refl _

theorem sub_down {a : Adj} {u : Nat} {vs vs' : Dict Nat (List Nat)} (h : a.get? u = some vs) (hk : vs'.keys.Sublist vs.keys)
    (hs : ∀ v, (vs'.getD v []).Sublist (vs.getD v [])) : Sub (a.set u vs') a where
  outer := by rw [Dict.keys_set_of_mem _ _ _ ((Dict.mem_keys_iff _ _).2 ⟨_, h⟩)]
  inner w := by
    rw [Dict.getD_set]
    split
    · next e => subst e; rw [Dict.getD, h]; exact hk
    · exact .refl _
  sets w v := by
    rw [← getD_getD, ← getD_getD, Dict.getD_set]
    split
    · next e => subst e; rw [Dict.getD_eq a, h]; exact hs v
    · exact .refl _

/-- One set grows. -/
theorem up_set {a : Adj} (hw : AdjWF a) {u v : Nat} {vs : Dict Nat (List Nat)} {s : List Nat} (h : a.get? u = some vs) (hn : s.Nodup)
    (hs : (vs.getD v []).Sublist s) : AdjWF (a.set u (vs.set v s)) ∧ Sub a (a.set u (vs.set v s)) := by
  refine ⟨hw.set h v hn, sub_up h (keys_sub_set _ _ _) fun w => ?_⟩
  rw [Dict.getD_set]
  split
  · next e => subst e; exact hs
  · exact .refl _

/-- One set shrinks. -/
theorem down_set {a : Adj} (hw : AdjWF a) {u v : Nat} {vs : Dict Nat (List Nat)} {s s' : List Nat} (h : a.get? u = some vs) (hv : vs.get? v = some s)
    (hs : s'.Sublist s) : AdjWF (a.set u (vs.set v s')) ∧ Sub (a.set u (vs.set v s')) a := by
  have hns : s.Nodup := by
    have := hw.sets u v
    rw [lk_eq h, hv] at this; exact this
  refine ⟨hw.set h v (hns.sublist hs), sub_down h ?_ fun w => ?_⟩
  · rw [Dict.keys_set_of_mem _ _ _ ((Dict.mem_keys_iff _ _).2 ⟨_, hv⟩)]
  · rw [Dict.getD_set]
    split
    · next e => subst e; rw [Dict.getD_eq, hv]; exact hs
    · exact .refl _

/-- One set is removed. -/
theorem down_erase {a : Adj} (hw : AdjWF a) {u : Nat} (v : Nat) {vs : Dict Nat (List Nat)} (h : a.get? u = some vs) :
    AdjWF (a.set u (vs.erase v)) ∧ Sub (a.set u (vs.erase v)) a := by
  refine ⟨hw.setErase h v, sub_down h ((Dict.erase_sublist vs v).map _) fun w => ?_⟩
  rw [Dict.getD_eq, Dict.getD_eq, Dict.get?_erase (hw.inner u vs h)]
  split
  · exact List.nil_sublist _
  · exact .refl _

/-- A vertex is removed. -/
theorem down_key {a : Adj} (hw : AdjWF a) (u : Nat) : AdjWF (a.erase u) ∧ Sub (a.erase u) a := by
  refine ⟨hw.erase u, (Dict.erase_sublist a u).map _, fun w => ?_, fun w v => ?_⟩
  · rw [Dict.getD_eq, Dict.getD_eq, Dict.get?_erase hw.outer]
    split
    · exact List.nil_sublist _
    · exact .refl _
  · rw [lk_eraseKey hw]
    split
    · exact List.nil_sublist _
    · exact .refl _

/-- A vertex is added. -/
theorem up_key {a : Adj} (hw : AdjWF a) {u : Nat} (hu : u ∉ a.keys) : AdjWF (a.set u []) ∧ Sub a (a.set u []) := by
  have hg := (Dict.get?_eq_none_iff a u).2 hu
  refine ⟨hw.addKey u, ?_, fun w => ?_, fun w v => ?_⟩
  · rw [Dict.keys_set_of_not_mem _ _ _ hu]; exact List.sublist_append_left _ _
  · rw [Dict.getD_set]
    split
    · next e => subst e; rw [Dict.getD_eq, hg]; exact .refl _
    · exact .refl _
  · rw [lk_addKey]
    split
    · next e => subst e; rw [lk_of_none hg]
    · exact .refl _

/-! ## Removals -/

/-- The invariant and the change of a method that removes. -/
abbrev KeepsDown (m : PyM Graph R) : Prop := Keeps (fun g : Graph => AdjWF g.adj) (fun g g' => Sub g'.adj g.adj) m

theorem down_refl (g : Graph) : Sub g.adj g.adj := Sub.refl _
theorem down_trans (a b c : Graph) (h : Sub b.adj a.adj) (h' : Sub c.adj b.adj) : Sub c.adj a.adj := h'.trans h

theorem removeEdge_down {adj : Adj} (hw : AdjWF adj) {u v n : Nat} {vs : Dict Nat (List Nat)} {s : List Nat} (h : adj.get? u = some vs)
    (hv : vs.get? v = some s) :
    AdjWF (adj.set u (if setDiscard s n = [] then vs.erase v else vs.set v (setDiscard s n))) ∧
      Sub (adj.set u (if setDiscard s n = [] then vs.erase v else vs.set v (setDiscard s n))) adj := by
  split
  · exact down_erase hw v h
  · exact down_set hw h hv List.filter_sublist

theorem graph_removeEdgeM (e : EdgeDesc Nat) : KeepsDown (Graph.removeEdgeM e) := by
  refine keeps_atomic down_refl fun g r g' hw heq => ?_
  cases h : g.adj.get? e.source with
  | none => simp [Graph.removeEdge, Dict.getE, h, Except.map] at heq
  | some vs =>
    cases hv : vs.get? e.target with
    | none => simp [Graph.removeEdge, Dict.getE, h, hv, Except.map] at heq
    | some s =>
      by_cases hm : e.distinguisher ∈ s
      · have := removeEdge_down (n := e.distinguisher) hw h hv
        by_cases hs : setDiscard s e.distinguisher = []
        · simp [Graph.removeEdge, Dict.getE, h, hv, hm, hs, Except.map] at heq
          rw [if_pos hs] at this; rw [← heq]; exact this
        · simp [Graph.removeEdge, Dict.getE, h, hv, hm, hs, Except.map] at heq
          rw [if_neg hs] at this; rw [← heq]; exact this
      · simp [Graph.removeEdge, Dict.getE, h, hv, hm, Except.map] at heq
        rw [← heq]; exact ⟨hw, Sub.refl _⟩

theorem graph_removeVertexM {edges : Graph → List (EdgeDesc Nat)} {outEdges : Graph → Nat → List (EdgeDesc Nat)} {rm : EdgeDesc Nat → PyM Graph Unit}
    (hrm : ∀ e, KeepsDown (rm e)) (u : Nat) : KeepsDown (Graph.removeVertexWithM edges outEdges rm u) := by
  refine keeps_get fun s hs => keeps_bind down_trans (keeps_each down_refl down_trans hrm _) (fun _ => keeps_get fun s hs =>
    keeps_bind down_trans (keeps_each down_refl down_trans hrm _) (fun _ => keeps_get fun s hs => ?_) s hs) s hs
  change AdjWF (PyM.bind (PyM.lift (s.adj.delE u)) (fun adj => PyM.put { s with adj }) s).2.adj ∧ _
  unfold Dict.delE
  split
  · exact down_key hs u
  · exact ⟨hs, Sub.refl _⟩

theorem graph_clearM {rv : Nat → PyM Graph Unit} (hrv : ∀ u, KeepsDown (rv u)) : KeepsDown (Graph.clearWithM rv) := by
  refine keeps_get fun s hs => ?_
  exact keeps_each down_refl down_trans hrv s.vertices { s with lastVertexId := 0 } hs

theorem ugraph_removeEdgeM (e : EdgeDesc Nat) : KeepsDown (UGraph.removeEdgeM e) := by
  refine keeps_bind down_trans (graph_removeEdgeM e) fun _ => ?_
  by_cases huv : e.source ≠ e.target
  · simp only [if_pos huv]
    refine keeps_get fun s hs => ?_
    unfold Dict.getE
    cases h : s.adj.get? e.target with
    | none => exact ⟨hs, Sub.refl _⟩
    | some vs =>
      cases hv : vs.get? e.source with
      | none => 
        simp only [PyM.bind, PyM.lift, hv, bind]; exact ⟨hs, Sub.refl _⟩
      | some t =>
        by_cases hm : e.distinguisher ∈ t
        · simp only [PyM.bind, PyM.lift, hv, bind, setRemoveE, if_pos hm, PyM.put]; exact down_set hs h hv List.filter_sublist
        · simp only [PyM.bind, PyM.lift, hv, bind, setRemoveE, if_neg hm]; exact ⟨hs, Sub.refl _⟩
  · simp only [if_neg huv]
    exact keeps_pure down_refl ()

theorem graph_removes {op : GOp} (h : (∃ e, op = .removeEdge e) ∨ (∃ u, op = .removeVertex u) ∨ op = .clear) : KeepsDown (Graph.execM op) := by
  rcases h with ⟨e, rfl⟩ | ⟨u, rfl⟩ | rfl
  · exact keeps_bind down_trans (graph_removeEdgeM e) fun _ => keeps_pure down_refl _
  · exact keeps_bind down_trans (graph_removeVertexM graph_removeEdgeM u) fun _ => keeps_pure down_refl _
  · exact keeps_bind down_trans (graph_clearM (graph_removeVertexM graph_removeEdgeM)) fun _ => keeps_pure down_refl _

theorem ugraph_removes {op : GOp} (h : (∃ e, op = .removeEdge e) ∨ (∃ u, op = .removeVertex u) ∨ op = .clear) : KeepsDown (UGraph.execM op) := by
  rcases h with ⟨e, rfl⟩ | ⟨u, rfl⟩ | rfl
  · exact keeps_bind down_trans (ugraph_removeEdgeM e) fun _ => keeps_pure down_refl _
  · exact keeps_bind down_trans (graph_removeVertexM ugraph_removeEdgeM u) fun _ => keeps_pure down_refl _
  · exact keeps_bind down_trans (graph_clearM (graph_removeVertexM ugraph_removeEdgeM)) fun _ => keeps_pure down_refl _

/-! ## Additions -/

/-- The vertices are those issued by the counter. -/
structure UpInv (g : Graph) : Prop where
  wf : AdjWF g.adj
  bound : ∀ u ∈ g.adj.keys, u < g.lastVertexId

/-- The invariant and the change of a method that adds. -/
abbrev KeepsUp (m : PyM Graph R) : Prop := Keeps UpInv (fun g g' => Sub g.adj g'.adj) m

theorem up_refl (g : Graph) : Sub g.adj g.adj := Sub.refl _
theorem up_trans (a b c : Graph) (h : Sub a.adj b.adj) (h' : Sub b.adj c.adj) : Sub a.adj c.adj := h.trans h'

theorem graph_addVertex {g : Graph} (h : UpInv g) : UpInv g.addVertex.2 ∧ Sub g.adj g.addVertex.2.adj := by
  have hu : g.lastVertexId ∉ g.adj.keys := fun hh => absurd (h.bound _ hh) (Nat.lt_irrefl _)
  have := up_key h.wf hu
  refine ⟨⟨this.1, fun u hm => ?_⟩, this.2⟩
  rcases (Dict.mem_keys_set _ _ _ _).1 hm with rfl | hm
  · exact Nat.lt_succ_self _
  · exact Nat.lt_succ_of_lt (h.bound u hm)

/-- One set grows, the vertices being the same. -/
theorem upInv_set {g : Graph} (h : UpInv g) {u v : Nat} {vs : Dict Nat (List Nat)} {s : List Nat} (hu : g.adj.get? u = some vs) (hn : s.Nodup)
    (hs : (vs.getD v []).Sublist s) : UpInv { g with adj := g.adj.set u (vs.set v s) } ∧ Sub g.adj (g.adj.set u (vs.set v s)) := by
  have := up_set h.wf hu hn hs
  refine ⟨⟨this.1, fun w hm => h.bound w ?_⟩, this.2⟩
  rwa [Dict.keys_set_of_mem _ _ _ ((Dict.mem_keys_iff _ _).2 ⟨_, hu⟩)] at hm

theorem setAdd_sub (s : List Nat) (n : Nat) : s.Sublist (setAdd s n) := by
  unfold setAdd; split
  · exact .refl _
  · exact List.sublist_append_left _ _

theorem nodup_getD {a : Adj} (hw : AdjWF a) {u : Nat} {vs : Dict Nat (List Nat)} (hu : a.get? u = some vs) (v : Nat) : (vs.getD v []).Nodup := by
  have := hw.sets u v
  rw [lk_eq hu] at this; exact this

theorem graph_addEdgeM (u v : Nat) : KeepsUp (Graph.addEdgeM u v) := by
  refine keeps_atomic up_refl fun g r g' h heq => ?_
  cases hu : g.adj.get? u with
  | none => simp [Graph.addEdge, Dict.getE, hu] at heq
  | some vs =>
    cases hv : vs.get? v with
    | none =>
      simp [Graph.addEdge, Dict.getE, hu, hv] at heq
      rw [← heq.2]
      exact upInv_set h hu (by simp) (by rw [Dict.getD_eq, hv]; exact List.nil_sublist _)
    | some s =>
      have hs : vs.getD v [] = s := by rw [Dict.getD_eq, hv]; rfl
      have hn := nodup_getD h.wf hu v
      rw [hs] at hn
      simp [Graph.addEdge, Dict.getE, hu, hv] at heq
      rw [← heq.2]
      exact upInv_set h hu (nodup_setAdd hn _) (by rw [hs]; exact setAdd_sub _ _)

theorem ugraph_addEdgeM (u v : Nat) : KeepsUp (UGraph.addEdgeM u v) := by
  refine keeps_bind up_trans (graph_addEdgeM (min u v) (max u v)) fun e => keeps_get fun s hs => ?_
  unfold Dict.getE
  cases h : s.adj.get? (max u v) with
  | none => exact ⟨hs, Sub.refl _⟩
  | some vs =>
    have key : ∀ t : List Nat, vs.getD (min u v) [] = t → 
        UpInv { s with adj := s.adj.set (max u v) ((if vs.contains (min u v) then vs else vs.set (min u v) []).set (min u v) (setAdd t e.distinguisher)) } ∧
        Sub s.adj (s.adj.set (max u v) ((if vs.contains (min u v) then vs else vs.set (min u v) []).set (min u v) (setAdd t e.distinguisher))) := by
      intro t ht
      have hn := nodup_getD hs.wf h (min u v)
      rw [ht] at hn
      have : (if vs.contains (min u v) then vs else vs.set (min u v) []).set (min u v) (setAdd t e.distinguisher) = vs.set (min u v) (setAdd t e.distinguisher) := by
        split
        · rfl
        · exact set_set _ _ _ _
      rw [this]
      exact upInv_set hs h (nodup_setAdd hn _) (by rw [ht]; exact setAdd_sub _ _)
    by_cases hc : vs.contains (min u v) = true
    · obtain ⟨t, ht⟩ := (Dict.contains_iff _ _).1 hc
      have := key t (by rw [Dict.getD_eq, ht]; rfl)
      simp only [PyM.bind, PyM.lift, bind, pure, if_pos hc, ht, PyM.put, PyM.pure] at this ⊢
      exact this
    · have ht : vs.get? (min u v) = none := by
        cases h' : vs.get? (min u v) with
        | none => rfl
        | some t => exact absurd ((Dict.contains_iff _ _).2 ⟨t, h'⟩) hc
      have := key [] (by rw [Dict.getD_eq, ht]; rfl)
      simp only [PyM.bind, PyM.lift, bind, pure, if_neg hc, Dict.get?_set_self, PyM.put, PyM.pure] at this ⊢
      exact this
where
  set_set (d : Dict Nat (List Nat)) (v : Nat) (s t : List Nat) : (d.set v s).set v t = d.set v t := by
    induction d with
    | nil => simp [Dict.set]
    | cons p d ih =>
      obtain ⟨k, x⟩ := p
      by_cases hk : k = v <;> simp [Dict.set, hk, ih]

theorem graph_adds {op : GOp} (h : op = .addVertex ∨ ∃ u v, op = .addEdge u v) : KeepsUp (Graph.execM op) := by
  rcases h with rfl | ⟨u, v, rfl⟩
  · exact fun g h => graph_addVertex h
  · exact keeps_bind up_trans (graph_addEdgeM u v) fun _ => keeps_pure up_refl _

theorem ugraph_adds {op : GOp} (h : op = .addVertex ∨ ∃ u v, op = .addEdge u v) : KeepsUp (UGraph.execM op) := by
  rcases h with rfl | ⟨u, v, rfl⟩
  · exact fun g h => graph_addVertex h
  · exact keeps_bind up_trans (ugraph_addEdgeM u v) fun _ => keeps_pure up_refl _

/-! ## Incidence graphs -/

/-- The invariant of both dictionaries. -/
def BothWF (g : IGraph) : Prop := AdjWF g.g.adj ∧ AdjWF g.inAdj

/-- Both dictionaries shrink. -/
def BothSub (g g' : IGraph) : Prop := Sub g.g.adj g'.g.adj ∧ Sub g.inAdj g'.inAdj

theorem both_refl (g : IGraph) : BothSub g g := ⟨Sub.refl _, Sub.refl _⟩
theorem both_trans (a b c : IGraph) (h : BothSub a b) (h' : BothSub b c) : BothSub a c := ⟨h.1.trans h'.1, h.2.trans h'.2⟩
theorem both_trans' (a b c : IGraph) (h : BothSub b a) (h' : BothSub c b) : BothSub c a := both_trans _ _ _ h' h

abbrev IKeepsDown (m : PyM IGraph R) : Prop := Keeps BothWF (fun g g' => BothSub g' g) m

theorem igraph_super {m : PyM Graph R} (h : KeepsDown m) : IKeepsDown (IGraph.super m) := by
  intro g hw
  have := h g.g hw.1
  exact ⟨⟨this.1, hw.2⟩, this.2, Sub.refl _⟩

theorem igraph_removeEdgeM (e : EdgeDesc Nat) : IKeepsDown (IGraph.removeEdgeM e) := by
  refine keeps_bind both_trans' (igraph_super (graph_removeEdgeM e)) fun _ => keeps_get fun g hw => ?_
  unfold Dict.getE
  cases h : g.inAdj.get? e.target with
  | none => exact ⟨hw, both_refl _⟩
  | some vs =>
    cases hv : vs.get? e.source with
    | none => simp only [PyM.bind, PyM.lift, hv, bind]; exact ⟨hw, both_refl _⟩
    | some s =>
      by_cases hm : e.distinguisher ∈ s
      · have := removeEdge_down (n := e.distinguisher) hw.2 h hv
        by_cases hs : setDiscard s e.distinguisher = []
        · rw [if_pos hs] at this
          simp only [PyM.bind, PyM.lift, hv, bind, if_pos hm, if_pos hs, PyM.put]
          exact ⟨⟨hw.1, this.1⟩, Sub.refl _, this.2⟩
        · rw [if_neg hs] at this
          simp only [PyM.bind, PyM.lift, hv, bind, if_pos hm, if_neg hs, PyM.put]
          exact ⟨⟨hw.1, this.1⟩, Sub.refl _, this.2⟩
      · simp only [PyM.bind, PyM.lift, hv, bind, if_neg hm]; exact ⟨hw, both_refl _⟩

theorem igraph_removeVertexM (u : Nat) : IKeepsDown (IGraph.removeVertexM u) := by
  have hE : ∀ l, IKeepsDown (PyM.each IGraph.removeEdgeM l) := keeps_each (T := fun g g' => BothSub g' g) both_refl both_trans' igraph_removeEdgeM
  refine keeps_get fun s hs => keeps_bind both_trans' (hE _) (fun _ => keeps_get fun s hs =>
    keeps_bind both_trans' (hE _) (fun _ => keeps_get fun s hs => ?_) s hs) s hs
  unfold Dict.delE
  by_cases h1 : s.g.adj.contains u = true
  · by_cases h2 : s.inAdj.contains u = true
    · simp only [PyM.bind, PyM.lift, bind, PyM.put, if_pos h1, if_pos h2]
      have a := down_key hs.1 u
      have b := down_key hs.2 u
      exact ⟨⟨a.1, b.1⟩, a.2, b.2⟩
    · simp only [PyM.bind, PyM.lift, bind, PyM.put, if_pos h1, if_neg h2]
      have a := down_key hs.1 u
      exact ⟨⟨a.1, hs.2⟩, a.2, Sub.refl _⟩
  · simp only [PyM.bind, PyM.lift, bind, if_neg h1]
    exact ⟨hs, both_refl _⟩

theorem igraph_removes {op : GOp} (h : (∃ e, op = .removeEdge e) ∨ (∃ u, op = .removeVertex u) ∨ op = .clear) : IKeepsDown (IGraph.execM op) := by
  rcases h with ⟨e, rfl⟩ | ⟨u, rfl⟩ | rfl
  · exact keeps_bind both_trans' (igraph_removeEdgeM e) fun _ => keeps_pure both_refl _
  · exact keeps_bind both_trans' (igraph_removeVertexM u) fun _ => keeps_pure both_refl _
  · refine keeps_bind both_trans' (keeps_get fun s hs => ?_) fun _ => keeps_pure both_refl _
    exact keeps_each (T := fun g g' => BothSub g' g) both_refl both_trans' igraph_removeVertexM s.vertices ⟨{ s.g with lastVertexId := 0 }, s.inAdj⟩ hs

/-- The vertices are those issued by the counter, in both dictionaries. -/
structure BothUp (g : IGraph) : Prop where
  up : UpInv g.g
  wf : AdjWF g.inAdj
  bound : ∀ u ∈ g.inAdj.keys, u < g.g.lastVertexId

abbrev IKeepsUp (m : PyM IGraph R) : Prop := Keeps BothUp BothSub m

theorem graph_addEdgeM_last (u v : Nat) (g : Graph) : (Graph.addEdgeM u v g).2.lastVertexId = g.lastVertexId := by
  unfold Graph.addEdgeM PyM.atomic
  cases hu : g.adj.get? u with
  | none => simp [Graph.addEdge, Dict.getE, hu]
  | some vs => cases hv : vs.get? v <;> simp [Graph.addEdge, Dict.getE, hu, hv]

theorem igraph_addEdgeM (u v : Nat) : IKeepsUp (IGraph.addEdgeM u v) := by
  refine keeps_bind both_trans ?_ fun e => keeps_get fun g hw => ?_
  · intro g hw
    have := graph_addEdgeM u v g.g hw.up
    refine ⟨⟨this.1, hw.wf, fun w hm => ?_⟩, this.2, Sub.refl _⟩
    change w < (Graph.addEdgeM u v g.g).2.lastVertexId
    rw [graph_addEdgeM_last]; exact hw.bound w hm
  · unfold Dict.getE
    cases h : g.inAdj.get? v with
    | none => exact ⟨hw, both_refl _⟩
    | some vs =>
      have key : ∀ s : List Nat, s.Nodup → (vs.getD u []).Sublist s →
          BothUp ⟨g.g, g.inAdj.set v (vs.set u s)⟩ ∧ BothSub g ⟨g.g, g.inAdj.set v (vs.set u s)⟩ := by
        intro s hn hs
        have := up_set hw.wf h hn hs
        refine ⟨⟨hw.up, this.1, fun w hm => hw.bound w ?_⟩, Sub.refl _, this.2⟩
        rwa [Dict.keys_set_of_mem _ _ _ ((Dict.mem_keys_iff _ _).2 ⟨_, h⟩)] at hm
      cases hv : vs.get? u with
      | none =>
        simp only [PyM.bind, PyM.lift, hv, bind, PyM.put, pure, PyM.pure]
        exact key [e.distinguisher] (by simp) (by rw [Dict.getD_eq, hv]; exact List.nil_sublist _)
      | some s =>
        simp only [PyM.bind, PyM.lift, hv, bind, PyM.put, pure, PyM.pure]
        have hs : vs.getD u [] = s := by rw [Dict.getD_eq, hv]; rfl
        have hn := nodup_getD hw.wf h u
        rw [hs] at hn
        exact key (setAdd s e.distinguisher) (nodup_setAdd hn _) (by rw [hs]; exact setAdd_sub _ _)

theorem igraph_adds {op : GOp} (h : op = .addVertex ∨ ∃ u v, op = .addEdge u v) : IKeepsUp (IGraph.execM op) := by
  rcases h with rfl | ⟨u, v, rfl⟩
  · intro g hw
    have a := graph_addVertex hw.up
    have hu : g.g.lastVertexId ∉ g.inAdj.keys := fun hh => absurd (hw.bound _ hh) (Nat.lt_irrefl _)
    have b := up_key hw.wf hu
    refine ⟨⟨a.1, b.1, fun w hm => ?_⟩, a.2, b.2⟩
    rcases (Dict.mem_keys_set _ _ _ _).1 hm with rfl | hm
    · exact Nat.lt_succ_self _
    · exact Nat.lt_succ_of_lt (hw.bound w hm)
  · exact keeps_bind both_trans (igraph_addEdgeM u v) fun _ => keeps_pure both_refl _

end Lazy
end PyBGL
