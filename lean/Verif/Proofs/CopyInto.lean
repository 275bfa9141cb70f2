import Verif.Spec.CopyInto
import Verif.Props.C56_C58_DfsApps
import Mathlib.Data.List.Induction

/-!
# Lemmas on `graph_copy` and `automaton_copy` with callbacks
-/

namespace PyBGL
variable {V E D F : Type} [DecidableEq V] [DecidableEq E]

omit [DecidableEq V] [DecidableEq E] in
@[simp] theorem vertexCalls_append (a b : List (CopyCall V E D F)) : vertexCalls (a ++ b) = vertexCalls a ++ vertexCalls b := by
  induction a with
  | nil => rfl
  | cons c a ih => cases c <;> simp [vertexCalls, ih]

omit [DecidableEq V] [DecidableEq E] in
@[simp] theorem edgeCalls_append (a b : List (CopyCall V E D F)) : edgeCalls (a ++ b) = edgeCalls a ++ edgeCalls b := by
  induction a with
  | nil => rfl
  | cons c a ih => cases c <;> simp [edgeCalls, ih]

/-- The map after some entries are written. -/
def fill {K W : Type} [DecidableEq K] (d : Dict K W) (l : List (K × W)) : Dict K W := l.foldl (fun d p => d.set p.1 p.2) d

theorem fill_append {K W : Type} [DecidableEq K] (d : Dict K W) (l : List (K × W)) (k : K) (w : W) :
    fill d (l ++ [(k, w)]) = (fill d l).set k w := by simp [fill]

theorem get?_fill_not_mem {K W : Type} [DecidableEq K] (l : List (K × W)) : ∀ (d : Dict K W) (k : K), k ∉ l.map Prod.fst →
    (fill d l).get? k = d.get? k := by
  induction l using List.reverseRecOn with
  | nil => intros; rfl
  | append_singleton l p ih =>
    intro d k hk
    obtain ⟨k', w⟩ := p
    simp only [List.map_append, List.map_cons, List.map_nil, List.mem_append, List.mem_singleton, not_or] at hk
    rw [fill_append, Dict.get?_set, if_neg (fun h => hk.2 h.symm), ih d k hk.1]

theorem get?_fill_mem {K W : Type} [DecidableEq K] (l : List (K × W)) : ∀ (d : Dict K W) (k : K) (w : W), (l.map Prod.fst).Nodup → (k, w) ∈ l →
    (fill d l).get? k = some w := by
  induction l using List.reverseRecOn with
  | nil => intro d k w _ h; simp at h
  | append_singleton l p ih =>
    intro d k w hn hk
    obtain ⟨k', w'⟩ := p
    simp only [List.map_append, List.map_cons, List.map_nil, List.nodup_append] at hn
    rw [fill_append, Dict.get?_set]
    rcases List.mem_append.mp hk with h | h
    · have : k' ≠ k := fun e => hn.2.2 k (List.mem_map.mpr ⟨_, h, rfl⟩) k' (by simp) e.symm
      rw [if_neg this, ih d k w hn.1 h]
    · simp at h; obtain ⟨rfl, rfl⟩ := h; simp

namespace CopyInto

/-- The same attributes with another state of the callbacks. -/
def State.withSt {σ τ : Type} (s : State V E D F σ) (st : τ) : State V E D F τ := ⟨s.dup, s.vmap, s.emap, s.done, st⟩

variable {T : CopyClass D F E} {g : GraphI V E} {p : E → Bool}

omit [DecidableEq E] in
theorem dupVertex_recorder (s : State V E D F (List (CopyCall V E D F))) (u : V) :
    dupVertex T recorder s u = .ok ((T.addVertex s.dup).1, ⟨(T.addVertex s.dup).2, s.vmap.set u (T.addVertex s.dup).1, s.emap, setAdd s.done u,
      s.st ++ [.vertex u (T.addVertex s.dup).1 (T.addVertex s.dup).2]⟩) := rfl

omit [DecidableEq E] in
theorem dupVertex_any {σ : Type} (cb : Visitor (CopyCall V E D F) σ) (s : State V E D F (List (CopyCall V E D F))) (u : V) (st : σ) :
    dupVertex T cb (s.withSt st) u = (emit cb [.vertex u (T.addVertex s.dup).1 (T.addVertex s.dup).2] st).map
      (fun st' => ((T.addVertex s.dup).1, (⟨(T.addVertex s.dup).2, s.vmap.set u (T.addVertex s.dup).1, s.emap, setAdd s.done u, st'⟩ : State V E D F σ))) := by
  rw [emit_singleton]
  show (match cb (.vertex u (T.addVertex s.dup).1 (T.addVertex s.dup).2) st with | .error err => _ | .ok st => _) = _
  cases cb (.vertex u (T.addVertex s.dup).1 (T.addVertex s.dup).2) st <;> rfl

omit [DecidableEq E] in
theorem dupTarget_any {s s' : State V E D F (List (CopyCall V E D F))} {v : V} {y : Nat} (h : dupTarget T recorder s v = .ok (y, s')) :
    ∃ new, s'.st = s.st ++ new ∧ ∀ {σ : Type} (cb : Visitor (CopyCall V E D F) σ) (st : σ),
      dupTarget T cb (s.withSt st) v = (emit cb new st).map (fun st' => (y, s'.withSt st')) := by
  unfold dupTarget at h
  by_cases hv : v ∈ s.done
  · rw [if_pos hv] at h
    cases hg : s.vmap.getE v with
    | error err => rw [hg] at h; simp at h
    | ok x =>
      rw [hg] at h
      simp only [Except.ok.injEq, Prod.mk.injEq] at h
      obtain ⟨rfl, rfl⟩ := h
      refine ⟨[], by simp, fun cb st => ?_⟩
      unfold dupTarget
      rw [if_pos (show v ∈ (s.withSt st).done from hv)]
      show (match s.vmap.getE v with | .error err => _ | .ok x => _) = _
      rw [hg]; rfl
  · rw [if_neg hv, dupVertex_recorder] at h
    simp only [Except.ok.injEq, Prod.mk.injEq] at h
    obtain ⟨rfl, rfl⟩ := h
    refine ⟨_, rfl, fun cb st => ?_⟩
    unfold dupTarget
    rw [if_neg (show v ∉ (s.withSt st).done from hv), dupVertex_any]
    rfl

theorem dupEdge_any {s s' : State V E D F (List (CopyCall V E D F))} {e : E} (h : dupEdge T recorder g s e = .ok s') :
    ∃ new, s'.st = s.st ++ new ∧ ∀ {σ : Type} (cb : Visitor (CopyCall V E D F) σ) (st : σ),
      dupEdge T cb g (s.withSt st) e = (emit cb new st).map s'.withSt := by
  unfold dupEdge at h
  cases hg : s.vmap.getE (g.source e) with
  | error err => rw [hg] at h; simp at h
  | ok x =>
    rw [hg] at h
    simp only at h
    cases ht : dupTarget T recorder s (g.target e) with
    | error err => rw [ht] at h; simp at h
    | ok ys =>
      obtain ⟨y, s1⟩ := ys
      rw [ht] at h
      simp only at h
      cases ha : T.addEdge s1.dup x y e with
      | error err => rw [ha] at h; simp at h
      | ok fd =>
        obtain ⟨f, dup⟩ := fd
        rw [ha] at h
        simp only [recorder, Except.ok.injEq] at h
        subst h
        obtain ⟨new, h1, h2⟩ := dupTarget_any ht
        refine ⟨new ++ [.edge e f dup], by simp [h1], fun cb st => ?_⟩
        unfold dupEdge
        show (match s.vmap.getE (g.source e) with | .error err => _ | .ok x => _) = _
        rw [hg]
        simp only
        rw [h2, emit_append]
        cases emit cb new st with
        | error err => rfl
        | ok st1 =>
          show (match T.addEdge s1.dup x y e with | .error err => _ | .ok (f, dup) => _) = _
          rw [ha]
          simp only [emit_singleton]
          show (match cb (.edge e f dup) st1 with | .error err => _ | .ok st => _) = _
          cases cb (.edge e f dup) st1 <;> rfl

theorem visitor_any {vrel : V → Bool} {erel : E → Bool} {s s' : State V E D F (List (CopyCall V E D F))} {x : DfsEvent V E}
    (h : visitor T recorder g vrel erel x s = .ok s') :
    ∃ new, s'.st = s.st ++ new ∧ ∀ {σ : Type} (cb : Visitor (CopyCall V E D F) σ) (st : σ),
      visitor T cb g vrel erel x (s.withSt st) = (emit cb new st).map s'.withSt := by
  have other : ∀ {y : DfsEvent V E}, visitor T recorder g vrel erel y s = .ok s' →
      (∀ {σ : Type} (cb : Visitor (CopyCall V E D F) σ) (s : State V E D F σ), visitor T cb g vrel erel y s = .ok s) →
      ∃ new, s'.st = s.st ++ new ∧ ∀ {σ : Type} (cb : Visitor (CopyCall V E D F) σ) (st : σ),
        visitor T cb g vrel erel y (s.withSt st) = (emit cb new st).map s'.withSt := by
    intro y h1 h2
    rw [h2] at h1
    cases h1
    exact ⟨[], by simp, fun cb st => by rw [h2]; rfl⟩
  cases x with
  | start u =>
    simp only [visitor, dupVertex_recorder, Except.map, Except.ok.injEq] at h
    subst h
    refine ⟨_, rfl, fun cb st => ?_⟩
    show (dupVertex T cb (s.withSt st) u).map (·.2) = _
    rw [dupVertex_any]
    cases emit cb [.vertex u (T.addVertex s.dup).1 (T.addVertex s.dup).2] st <;> rfl
  | examineEdge e =>
    by_cases hr : (erel e && vrel (g.target e)) = true
    · simp only [visitor, hr, if_true] at h
      obtain ⟨new, h1, h2⟩ := dupEdge_any h
      refine ⟨new, h1, fun cb st => ?_⟩
      simp only [visitor, hr, if_true]
      exact h2 cb st
    · exact other h (fun cb s => by simp only [visitor, if_neg hr])
  | discover _ => exact other h (fun _ _ => rfl)
  | ifPush _ => exact other h (fun _ _ => rfl)
  | treeEdge _ => exact other h (fun _ _ => rfl)
  | backEdge _ => exact other h (fun _ _ => rfl)
  | forwardOrCrossEdge _ => exact other h (fun _ _ => rfl)
  | finish _ => exact other h (fun _ _ => rfl)

/-- What the callbacks receive does not depend on them. -/
theorem emit_any {vrel : V → Bool} {erel : E → Bool} (tr : List (DfsEvent V E)) : ∀ {s s' : State V E D F (List (CopyCall V E D F))},
    emit (visitor T recorder g vrel erel) tr s = .ok s' →
    ∃ new, s'.st = s.st ++ new ∧ ∀ {σ : Type} (cb : Visitor (CopyCall V E D F) σ) (st : σ),
      emit (visitor T cb g vrel erel) tr (s.withSt st) = (emit cb new st).map s'.withSt := by
  induction tr with
  | nil =>
    intro s s' h
    simp only [emit_nil, Except.ok.injEq] at h
    subst h
    exact ⟨[], by simp, fun cb st => rfl⟩
  | cons x tr ih =>
    intro s s' h
    rw [emit_cons] at h
    cases h1 : visitor T recorder g vrel erel x s with
    | error err => rw [h1] at h; simp at h
    | ok s1 =>
      rw [h1] at h
      obtain ⟨n1, e1, f1⟩ := visitor_any h1
      obtain ⟨n2, e2, f2⟩ := ih h
      refine ⟨n1 ++ n2, by rw [e2, e1, List.append_assoc], fun cb st => ?_⟩
      rw [emit_cons, f1, emit_append]
      cases emit cb n1 st with
      | error err => rfl
      | ok st1 => exact f2 cb st1

/-! ## The invariant -/

/-- What the copy needs to know of the class of `g_dup`. `Clash x e f`: the edge `f` prevents a copy of `e` from being added from `x`. -/
structure Adds (T : CopyClass D F E) (ok : D → Prop) (verts : D → List Nat) (edges : D → List F) (ends : Nat → Nat → E → F → Prop)
    (Clash : Nat → E → F → Prop) (Same : E → E → Prop) : Prop where
  vertex : ∀ d, ok d → ok (T.addVertex d).2 ∧ (T.addVertex d).1 ∉ verts d ∧ (∀ x, x ∈ verts (T.addVertex d).2 ↔ x ∈ verts d ∨ x = (T.addVertex d).1) ∧
    ∀ f, f ∈ edges (T.addVertex d).2 ↔ f ∈ edges d
  edge : ∀ d x y e, ok d → x ∈ verts d → y ∈ verts d → (∀ f ∈ edges d, ¬ Clash x e f) → ∃ f d', T.addEdge d x y e = .ok (f, d') ∧ ok d' ∧
    f ∉ edges d ∧ (∀ z, z ∈ verts d' ↔ z ∈ verts d) ∧ (∀ f', f' ∈ edges d' ↔ f' ∈ edges d ∨ f' = f) ∧ ends x y e f
  clash_src : ∀ d x e f, ok d → f ∈ edges d → Clash x e f → x ∈ verts d
  clash_ends : ∀ x y x' e e' f, ends x y e f → Clash x' e' f → x = x' ∧ Same e e'

variable {ok : D → Prop} {verts : D → List Nat} {edges : D → List F} {ends : Nat → Nat → E → F → Prop} {Clash : Nat → E → F → Prop} {Same : E → E → Prop}

/-- The invariant of the copy. -/
structure Inv (ok : D → Prop) (verts : D → List Nat) (edges : D → List F) (ends : Nat → Nat → E → F → Prop) (g : GraphI V E) (d0 : D) (vm0 : Dict V Nat)
    (em0 : Dict E F) (sources : List V) (ex : List E) (s : State V E D F (List (CopyCall V E D F))) : Prop where
  ok : ok s.dup
  done : s.done = (vertexCalls s.st).map Prod.fst
  nodup : s.done.Nodup
  dom : ∀ v, v ∈ s.done ↔ v ∈ sources ∨ ∃ e ∈ ex, g.target e = v
  exam : (edgeCalls s.st).map Prod.fst = ex
  vnew : ((vertexCalls s.st).map Prod.snd).Nodup ∧ ∀ x ∈ (vertexCalls s.st).map Prod.snd, x ∉ verts d0
  enew : ((edgeCalls s.st).map Prod.snd).Nodup ∧ ∀ f ∈ (edgeCalls s.st).map Prod.snd, f ∉ edges d0
  ends : ∀ a e f d' b, s.st = a ++ .edge e f d' :: b →
    ∃ x y, (g.source e, x) ∈ vertexCalls a ∧ (g.target e, y) ∈ vertexCalls a ∧ ends x y e f
  seen : ∀ a c b, s.st = a ++ c :: b → CopyLog verts edges d0 (a ++ [c]) c.dup
  final : CopyLog verts edges d0 s.st s.dup
  vmap : s.vmap = fill vm0 (vertexCalls s.st)
  emap : s.emap = fill em0 (edgeCalls s.st)

/-- Decompositions of a list with one more element. -/
theorem append_singleton_eq {α : Type} {l a b : List α} {x c : α} (h : l ++ [x] = a ++ c :: b) :
    (b = [] ∧ c = x ∧ a = l) ∨ ∃ b', b = b' ++ [x] ∧ l = a ++ c :: b' := by
  rcases List.eq_nil_or_concat b with rfl | ⟨b', y, rfl⟩
  · have : l ++ [x] = a ++ [c] := h
    obtain ⟨h1, h2⟩ := List.append_inj' this rfl
    simp at h2
    exact .inl ⟨rfl, h2.symm, h1.symm⟩
  · rw [List.concat_eq_append] at h ⊢
    have : l ++ [x] = (a ++ c :: b') ++ [y] := by simpa using h
    obtain ⟨h1, h2⟩ := List.append_inj' this rfl
    simp at h2
    exact .inr ⟨b', by rw [h2], h1⟩

theorem Inv.vertex (ha : Adds T ok verts edges ends Clash Same) {d0 : D} {vm0 : Dict V Nat} {em0 : Dict E F} {src : List V} {ex : List E}
    {s : State V E D F (List (CopyCall V E D F))} (i : Inv ok verts edges ends g d0 vm0 em0 src ex s) {v : V} (hv : v ∉ s.done) :
    Inv ok verts edges ends g d0 vm0 em0 (v :: src) ex ⟨(T.addVertex s.dup).2, s.vmap.set v (T.addVertex s.dup).1, s.emap, setAdd s.done v,
      s.st ++ [.vertex v (T.addVertex s.dup).1 (T.addVertex s.dup).2]⟩ := by
  obtain ⟨h1, h2, h3, h4⟩ := ha.vertex s.dup i.ok
  have hfin : CopyLog verts edges d0 (s.st ++ [.vertex v (T.addVertex s.dup).1 (T.addVertex s.dup).2]) (T.addVertex s.dup).2 := by
    constructor
    · intro x
      rw [h3, i.final.vertices, or_assoc]
      simp [vertexCalls, exists_or]
    · intro f
      rw [h4, i.final.edges]
      simp [edgeCalls]
  have hdone : setAdd s.done v = s.done ++ [v] := by unfold setAdd; rw [if_neg hv]
  refine ⟨h1, ?_, ?_, ?_, ?_, ?_, ?_, ?_, ?_, hfin, ?_, ?_⟩
  · show setAdd s.done v = _
    rw [hdone, i.done]; simp [vertexCalls]
  · show (setAdd s.done v).Nodup
    rw [hdone, List.nodup_append]
    refine ⟨i.nodup, by simp, ?_⟩
    intro a ha b hb
    simp at hb; subst hb
    exact fun h => hv (h ▸ ha)
  · intro w
    show w ∈ setAdd s.done v ↔ _
    rw [hdone]
    simp only [List.mem_append, i.dom, List.mem_cons, List.not_mem_nil, or_false]
    rw [or_comm, or_assoc]
  · simp [edgeCalls, i.exam]
  · simp only [vertexCalls_append, vertexCalls, List.map_append, List.map_cons, List.map_nil]
    constructor
    · rw [List.nodup_append]
      refine ⟨i.vnew.1, by simp, ?_⟩
      intro a hm b hb hab
      simp at hb; subst hb; subst hab
      obtain ⟨⟨u, x⟩, hm, rfl⟩ := List.mem_map.mp hm
      exact h2 ((i.final.vertices _).mpr (.inr ⟨u, hm⟩))
    · intro x hx
      rcases List.mem_append.mp hx with hx | hx
      · exact i.vnew.2 x hx
      · simp at hx; subst hx
        exact fun h => h2 ((i.final.vertices _).mpr (.inl h))
  · simpa [edgeCalls] using i.enew
  · intro a e f d' b hab
    rcases append_singleton_eq hab with ⟨_, h, _⟩ | ⟨b', _, h⟩
    · simp at h
    · exact i.ends a e f d' b' h
  · intro a c b hab
    rcases append_singleton_eq hab with ⟨_, rfl, rfl⟩ | ⟨b', _, h⟩
    · exact hfin
    · exact i.seen a c b' h
  · show s.vmap.set v _ = _
    rw [vertexCalls_append, vertexCalls, vertexCalls, fill_append, i.vmap]
  · show s.emap = _
    rw [edgeCalls_append, edgeCalls, edgeCalls, List.append_nil, i.emap]

/-- A copied vertex in the map. -/
theorem Inv.get {d0 : D} {vm0 : Dict V Nat} {em0 : Dict E F} {src : List V} {ex : List E}
    {s : State V E D F (List (CopyCall V E D F))} (i : Inv ok verts edges ends g d0 vm0 em0 src ex s) {v : V} (hv : v ∈ s.done) :
    ∃ x, (v, x) ∈ vertexCalls s.st ∧ s.vmap.get? v = some x := by
  rw [i.done] at hv
  obtain ⟨⟨u, x⟩, h1, rfl⟩ := List.mem_map.mp hv
  exact ⟨x, h1, by rw [i.vmap]; exact get?_fill_mem _ _ _ _ (i.done ▸ i.nodup) h1⟩

theorem eq_of_snd {α β : Type} {l : List (α × β)} (h : (l.map Prod.snd).Nodup) {a b : α} {x : β} (ha : (a, x) ∈ l) (hb : (b, x) ∈ l) : a = b := by
  induction l with
  | nil => simp at ha
  | cons p l ih =>
    simp only [List.map_cons, List.nodup_cons] at h
    rcases List.mem_cons.mp ha with rfl | ha'
    · rcases List.mem_cons.mp hb with hb | hb
      · exact (Prod.mk.inj hb).1.symm
      · exact absurd (List.mem_map.mpr ⟨_, hb, rfl⟩) h.1
    · rcases List.mem_cons.mp hb with rfl | hb
      · exact absurd (List.mem_map.mpr ⟨(a, x), ha', rfl⟩ : x ∈ l.map Prod.snd) h.1
      · exact ih h.2 ha' hb

omit [DecidableEq V] [DecidableEq E] in
theorem split_edgeCalls {l : List (CopyCall V E D F)} {e : E} {f : F} (hf : (e, f) ∈ edgeCalls l) : ∃ a d b, l = a ++ .edge e f d :: b := by
  induction l with
  | nil => simp [edgeCalls] at hf
  | cons c l ih =>
    cases c with
    | vertex u z d =>
      obtain ⟨a, d', b, h⟩ := ih hf
      exact ⟨.vertex u z d :: a, d', b, by simp [h]⟩
    | edge e1 f1 d =>
      simp only [edgeCalls, List.mem_cons, Prod.mk.injEq] at hf
      rcases hf with ⟨rfl, rfl⟩ | hf
      · exact ⟨[], d, l, rfl⟩
      · obtain ⟨a, d', b, h⟩ := ih hf
        exact ⟨.edge e1 f1 d :: a, d', b, by simp [h]⟩

/-- Adding the copy of an edge whose ends are copied. -/
theorem Inv.edge (ha : Adds T ok verts edges ends Clash Same) {d0 : D} (h0 : ok d0) {vm0 : Dict V Nat} {em0 : Dict E F} {src : List V} {ex : List E}
    {s : State V E D F (List (CopyCall V E D F))} (i : Inv ok verts edges ends g d0 vm0 em0 src ex s) {e : E} {x y : Nat}
    (hx : (g.source e, x) ∈ vertexCalls s.st) (hy : (g.target e, y) ∈ vertexCalls s.st) (hne : e ∉ ex)
    (hsame : ∀ e' ∈ ex, g.source e' = g.source e → Same e' e → e' = e) :
    ∃ f dup, T.addEdge s.dup x y e = .ok (f, dup) ∧
      Inv ok verts edges ends g d0 vm0 em0 src (ex ++ [e]) ⟨dup, s.vmap, s.emap.set e f, s.done, s.st ++ [.edge e f dup]⟩ := by
  have hxv : x ∈ verts s.dup := (i.final.vertices x).mpr (.inr ⟨_, hx⟩)
  have hyv : y ∈ verts s.dup := (i.final.vertices y).mpr (.inr ⟨_, hy⟩)
  obtain ⟨f, dup, h1, h2, h3, h4, h5, h6⟩ := ha.edge s.dup x y e i.ok hxv hyv (by
    intro f hf hc
    rcases (i.final.edges f).mp hf with hf | ⟨e', hf⟩
    · exact i.vnew.2 x (List.mem_map.mpr ⟨_, hx, rfl⟩) (ha.clash_src d0 x e f h0 hf hc)
    · have hex : e' ∈ ex := by rw [← i.exam]; exact List.mem_map.mpr ⟨_, hf, rfl⟩
      obtain ⟨a, d', b, hab⟩ := split_edgeCalls hf
      obtain ⟨x', y', k1, _, k3⟩ := i.ends a e' f d' b hab
      obtain ⟨rfl, hs⟩ := ha.clash_ends _ _ _ _ _ _ k3 hc
      have : (g.source e', x') ∈ vertexCalls s.st := by rw [hab]; simp [k1]
      exact hne (hsame e' hex (eq_of_snd i.vnew.1 this hx) hs ▸ hex))
  have hfin : CopyLog verts edges d0 (s.st ++ [.edge e f dup]) dup := by
    constructor
    · intro z
      rw [h4, i.final.vertices]
      simp [vertexCalls]
    · intro f'
      rw [h5, i.final.edges, or_assoc]
      simp [edgeCalls, exists_or]
  refine ⟨f, dup, h1, h2, ?_, i.nodup, ?_, ?_, ?_, ?_, ?_, ?_, hfin, ?_, ?_⟩
  · show s.done = _
    rw [i.done]; simp [vertexCalls]
  · intro w
    show w ∈ s.done ↔ _
    have hyd : g.target e ∈ s.done := by rw [i.done]; exact List.mem_map.mpr ⟨_, hy, rfl⟩
    constructor
    · intro h
      rcases (i.dom w).mp h with h | ⟨e', h, h'⟩
      · exact .inl h
      · exact .inr ⟨e', by simp [h], h'⟩
    · rintro (h | ⟨e', h, rfl⟩)
      · exact (i.dom w).mpr (.inl h)
      · rcases List.mem_append.mp h with h | h
        · exact (i.dom _).mpr (.inr ⟨e', h, rfl⟩)
        · simp at h; subst h; exact hyd
  · simp [edgeCalls, i.exam]
  · simpa [vertexCalls] using i.vnew
  · simp only [edgeCalls_append, edgeCalls, List.map_append, List.map_cons, List.map_nil]
    constructor
    · rw [List.nodup_append]
      refine ⟨i.enew.1, by simp, ?_⟩
      intro a hm b hb hab
      simp at hb; subst hb; subst hab
      obtain ⟨⟨u, z⟩, hm', rfl⟩ := List.mem_map.mp hm
      exact h3 ((i.final.edges _).mpr (.inr ⟨u, hm'⟩))
    · intro f' hf
      rcases List.mem_append.mp hf with hf | hf
      · exact i.enew.2 f' hf
      · simp at hf; subst hf
        exact fun h => h3 ((i.final.edges _).mpr (.inl h))
  · intro a e' f' d' b hab
    rcases append_singleton_eq hab with ⟨_, h, rfl⟩ | ⟨b', _, h⟩
    · cases h; exact ⟨x, y, hx, hy, h6⟩
    · exact i.ends a e' f' d' b' h
  · intro a c b hab
    rcases append_singleton_eq hab with ⟨_, rfl, rfl⟩ | ⟨b', _, h⟩
    · exact hfin
    · exact i.seen a c b' h
  · show s.vmap = _
    rw [vertexCalls_append, vertexCalls, vertexCalls, List.append_nil, i.vmap]
  · show s.emap.set e f = _
    rw [edgeCalls_append, edgeCalls, edgeCalls, fill_append, i.emap]

theorem Inv.congr {d0 : D} {vm0 : Dict V Nat} {em0 : Dict E F} {src src' : List V} {ex : List E}
    {s : State V E D F (List (CopyCall V E D F))} (i : Inv ok verts edges ends g d0 vm0 em0 src ex s) (h : ∀ v, (v ∈ src' ∨ ∃ e ∈ ex, g.target e = v) ↔ (v ∈ src ∨ ∃ e ∈ ex, g.target e = v)) :
    Inv ok verts edges ends g d0 vm0 em0 src' ex s :=
  ⟨i.ok, i.done, i.nodup, fun v => by rw [i.dom, h], i.exam, i.vnew, i.enew, i.ends, i.seen, i.final, i.vmap, i.emap⟩

theorem Inv.dupEdge (ha : Adds T ok verts edges ends Clash Same) {d0 : D} (h0 : ok d0) {vm0 : Dict V Nat} {em0 : Dict E F} {src : List V} {ex : List E}
    {s : State V E D F (List (CopyCall V E D F))} (i : Inv ok verts edges ends g d0 vm0 em0 src ex s) {e : E} (hsrc : g.source e ∈ s.done) (hne : e ∉ ex)
    (hsame : ∀ e' ∈ ex, g.source e' = g.source e → Same e' e → e' = e) :
    ∃ s', CopyInto.dupEdge T recorder g s e = .ok s' ∧ Inv ok verts edges ends g d0 vm0 em0 src (ex ++ [e]) s' := by
  obtain ⟨x, hx, hx'⟩ := i.get hsrc
  unfold CopyInto.dupEdge
  rw [Dict.getE_of_get? hx']
  simp only
  by_cases ht : g.target e ∈ s.done
  · obtain ⟨y, hy, hy'⟩ := i.get ht
    have hT : dupTarget T recorder s (g.target e) = .ok (y, s) := by
      unfold dupTarget; rw [if_pos ht, Dict.getE_of_get? hy']
    rw [hT]
    simp only
    obtain ⟨f, dup, h1, h2⟩ := i.edge ha h0 hx hy hne hsame
    rw [h1]
    exact ⟨_, rfl, h2⟩
  · have hT : dupTarget T recorder s (g.target e) = dupVertex T recorder s (g.target e) := by
      unfold dupTarget; rw [if_neg ht]
    rw [hT, dupVertex_recorder]
    simp only
    have j := i.vertex ha ht
    obtain ⟨f, dup, h1, h2⟩ := j.edge ha h0 (e := e) (x := x) (y := (T.addVertex s.dup).1) (by simp [hx]) (by simp [vertexCalls]) hne hsame
    simp only at h1
    rw [h1]
    refine ⟨_, rfl, h2.congr fun v => ?_⟩
    constructor
    · rintro (h | h)
      · exact .inl (by simp [h])
      · exact .inr h
    · rintro (h | h)
      · rcases List.mem_cons.mp h with rfl | h
        · exact .inr ⟨e, by simp, rfl⟩
        · exact .inl h
      · exact .inr h

/-- `graph_copy` and `automaton_copy` copy the part reached, whatever the target, the maps and the callbacks. -/
theorem copyInto_spec (ha : Adds T ok verts edges ends Clash Same) (hs : g.SourcesOK) (hn : ∀ u, (g.outEdges u).Nodup)
    (hsame : ∀ u, ∀ e ∈ g.outEdges u, ∀ e' ∈ g.outEdges u, Same e' e → e' = e) (s : V) (vrel : Option (V → Bool)) (erel : Option (E → Bool))
    {U : List V} (hU : ∀ v, Reach (g.through (relevant g vrel erel)) s v → v ∈ U) {d0 : D} (h0 : ok d0) (vm0 : Dict V Nat) (em0 : Dict E F) :
    ∃ d vm em calls, (∀ (σ : Type) (cb : Visitor (CopyCall V E D F) σ) (st : σ),
        Returns (copyInto T cb s g d0 vrel erel vm0 em0 st) ((emit cb calls st).map fun st' => (d, vm, em, st'))) ∧ ok d ∧
      IsCopy verts edges ends g (relevant g vrel erel) s d0 vm0 em0 d vm em calls := by
  obtain ⟨c, tr, f, ⟨t, htr⟩, hr⟩ := dfs_facts hU
  have hexn : (examined tr).Nodup := f.examined.nodup_iff.mpr (nodup_flatMap_pushed hs hn f.nodup)
  have i0 : Inv ok verts edges ends g d0 vm0 em0 [] [] (⟨d0, vm0, em0, [], []⟩ : State V E D F (List (CopyCall V E D F))) := by
    refine ⟨h0, rfl, by simp, by simp, rfl, by simp [vertexCalls], by simp [edgeCalls], by simp, by simp, ⟨by simp [vertexCalls], by simp [edgeCalls]⟩,
      rfl, rfl⟩
  have i1 := i0.vertex ha (v := s) (by simp)
  obtain ⟨st, h1, i⟩ := f.emit (vis := visitor T recorder g (vrel.getD (fun _ => true)) (erel.getD (fun _ => true)))
    (fun pre st => (pre = [] → st = ⟨d0, vm0, em0, [], []⟩) ∧ (pre ≠ [] → Inv ok verts edges ends g d0 vm0 em0 [s] (examined pre) st)) (by
      rintro pre x rest st ht hok ⟨i', i⟩
      by_cases hp : pre ≠ []
      · have i := i hp
        have hstart : .start s ∈ pre := by
          rw [htr] at ht
          cases pre with
          | nil => exact absurd rfl hp
          | cons a pre => simp at ht; simp [ht.1]
        cases x with
        | start v =>
          have hv : v = s := by
            have := f.starts v (by rw [ht]; simp)
            simpa using this
          subst hv
          exfalso
          have hw := (traceColor_white.mp hok).1
          rw [htr] at ht
          cases pre with
          | nil => exact hp rfl
          | cons a pre =>
            cases pre with
            | nil => simp at ht
            | cons b pre =>
              simp at ht
              apply hw
              rw [← ht.2.1]; simp
        | examineEdge e =>
          obtain ⟨u, hu, hg⟩ := hok
          have hne : e ∉ examined pre := by
            rw [ht] at hexn
            simp only [examined_append, examined_cons, List.cons_append, List.nil_append] at hexn
            intro h
            exact (List.nodup_append.mp hexn).2.2 e h e (by simp) rfl
          have hsu := hs u e (List.mem_filter.mp hu).1
          have hud := (traceColor_gray.mp hg).1
          have hdone : g.source e ∈ st.done := by
            rw [hsu, i.dom]
            obtain ⟨a1, a2, rfl⟩ := List.append_of_mem (mem_discovered.mp hud)
            have h3 := (f.ok a1 (.discover u) (a2 ++ .examineEdge e :: rest) (by simp [ht])).2
            rcases h3 with h3 | ⟨e', _, h3, h4⟩
            · have := f.starts u (by rw [ht]; simp [h3])
              exact .inl this
            · exact .inr ⟨e', by simp [mem_examined.mpr h3], h4⟩
          obtain ⟨s', h2, h3⟩ := i.dupEdge ha h0 hdone hne (by
            intro e' he' hss hsm
            obtain ⟨u', hu', he''⟩ := (f.mem_examined e').mp (by rw [ht]; simp [he'])
            have := hs u' e' (List.mem_filter.mp he'').1
            have huu : u' = u := by rw [← this, hss, hsu]
            subst huu
            exact hsame u' e (List.mem_filter.mp hu).1 e' (List.mem_filter.mp he'').1 hsm)
          have hrel : relevant g vrel erel e = true := (List.mem_filter.mp hu).2
          refine ⟨s', ?_, by simp, fun _ => by simpa using h3⟩
          exact (if_pos hrel).trans h2
        | _ => exact ⟨_, rfl, by simp, fun _ => by simpa using i⟩
      · have hp : pre = [] := by simpa using hp
        subst hp
        rw [htr] at ht
        simp at ht
        rw [i' rfl, ← ht.1]
        exact ⟨_, rfl, by simp, fun _ => i1⟩)
    [] tr rfl _ ⟨fun _ => rfl, by simp⟩
  have i := i.2 (by rw [htr]; simp)
  obtain ⟨calls, hc, hany⟩ := emit_any tr h1
  have hc : st.st = calls := by simpa using hc
  have hvall : ∀ v, v ∈ (vertexCalls st.st).map Prod.fst ↔ Reach (g.through (relevant g vrel erel)) s v := by
    intro v
    rw [← i.done, i.dom, ← f.reach_single]
    constructor
    · rintro (h | ⟨e, he, rfl⟩)
      · simp at h; subst h
        rw [htr]; simp
      · obtain ⟨u, hu, he⟩ := (f.mem_examined e).mp he
        rw [f.reach_single] at hu ⊢
        exact hu.step he
    · intro h
      obtain ⟨a, b, hab⟩ := List.append_of_mem (mem_discovered.mp h)
      have h3 := (f.ok a (.discover v) b hab).2
      rcases h3 with h3 | ⟨e', _, h3, h4⟩
      · exact .inl (f.starts v (by rw [hab]; simp [h3]))
      · exact .inr ⟨e', by rw [hab]; simp [mem_examined.mpr h3], h4⟩
  have heall : ∀ e, e ∈ (edgeCalls st.st).map Prod.fst ↔ ∃ u, Reach (g.through (relevant g vrel erel)) s u ∧
      e ∈ (g.through (relevant g vrel erel)).outEdges u := by
    intro e
    rw [i.exam, f.mem_examined]
    constructor
    · rintro ⟨u, hu, he⟩; exact ⟨u, (f.reach_single u).mp hu, he⟩
    · rintro ⟨u, hu, he⟩; exact ⟨u, (f.reach_single u).mpr hu, he⟩
  have heone : ((edgeCalls st.st).map Prod.fst).Nodup := by rw [i.exam]; exact hexn
  refine ⟨st.dup, st.vmap, st.emap, st.st, ?_, i.ok, i.done ▸ i.nodup, hvall, i.vnew, heone, heall, i.enew, i.ends, i.seen, i.final, ?_, ?_, ?_, ?_⟩
  · intro σ cb st0
    obtain ⟨N, hN⟩ := hr _ (visitor T cb g (vrel.getD (fun _ => true)) (erel.getD (fun _ => true))) ⟨d0, vm0, em0, [], st0⟩
    refine ⟨N, fun fuel hf => ?_⟩
    have := hN fuel hf
    have h2 := hany cb st0
    unfold copyInto
    show Option.map _ (dfs g (relevant g vrel erel) _ s [] _ fuel) = _
    rw [this]
    have h3 : emit (visitor T cb g (vrel.getD (fun _ => true)) (erel.getD (fun _ => true))) tr ⟨d0, vm0, em0, [], st0⟩ = _ := h2
    rw [h3, hc]
    cases emit cb calls st0 <;> rfl
  · intro v x h; rw [i.vmap]; exact get?_fill_mem _ _ _ _ (i.done ▸ i.nodup) h
  · intro v h; rw [i.vmap]; exact get?_fill_not_mem _ _ _ (fun h' => h ((hvall v).mp h'))
  · intro e f' h; rw [i.emap]; exact get?_fill_mem _ _ _ _ heone h
  · intro e h; rw [i.emap]; exact get?_fill_not_mem _ _ _ (fun h' => h ((heall e).mp h'))

end CopyInto
end PyBGL
