import Verif.Model.ProductInto
import Verif.Props.C46_C47_Product
import Verif.Props.C115_MooreInto

/-!
# Product automata built into a given automaton
-/

namespace PyBGL
open Automaton
variable {A : Type} [DecidableEq A]

namespace Product
variable {op : Bool → Bool → Bool} {g1 g2 : Automaton A}

/-- `t` is the product `s` built after the content of `d`. -/
structure Into (op : Bool → Bool → Bool) (g1 g2 d : Automaton A) (t s : Product A) : Prop where
  map : ∀ p, t.map.get? p = (s.map.get? p).map (d.lastVertexId + ·)
  reach : t.g12.Reachable
  last : t.g12.lastVertexId = d.lastVertexId + s.g12.lastVertexId
  verts : t.g12.vertices = d.vertices ++ s.g12.vertices.map (d.lastVertexId + ·)
  delta : ∀ q a, t.g12.delta (d.lastVertexId + q) a = (s.g12.delta q a).map (d.lastVertexId + ·)
  old : ∀ q < d.lastVertexId, (∀ a, t.g12.delta q a = d.delta q a) ∧ t.g12.isFinal q = d.isFinal q
  fin : ∀ q, t.g12.isFinal (d.lastVertexId + q) = (s.g12.isFinal q || d.isFinal (d.lastVertexId + q))
  init : (t.g12.q0 = d.q0 ∧ ∀ p q, s.map.get? p = some q → op (g1.isInitialO p.1) (g2.isInitialO p.2) = false) ∨ t.g12.q0 = s.g12.q0.map (d.lastVertexId + ·)
  same : s.map = [] → t.g12 = d

theorem Into.empty {d : Automaton A} (hd : d.Reachable) : Into op g1 g2 d ⟨[], d⟩ ⟨[], .empty⟩ where
  map := fun _ => rfl
  reach := hd
  last := rfl
  verts := by simp [Automaton.empty, vertices, Dict.keys]
  delta := fun q a => by
    rw [delta_not_mem a (fun h => absurd (hd.awf.lt _ h) (by omega))]
    simp [Automaton.empty, Automaton.delta, Dict.getD]
  old := fun q _ => ⟨fun _ => rfl, rfl⟩
  fin := fun q => by simp [Automaton.empty, isFinal, Dict.getD]
  init := .inl ⟨rfl, by simp⟩
  same := fun _ => rfl

theorem Into.addVertex {d : Automaton A} {t s : Product A} (h : Into op g1 g2 d t s) (hs : PMap op g1 g2 s) (p : StatePair) :
    (t.addVertex op g1 g2 p.1 p.2).1 = d.lastVertexId + (s.addVertex op g1 g2 p.1 p.2).1 ∧
      Into op g1 g2 d (t.addVertex op g1 g2 p.1 p.2).2 (s.addVertex op g1 g2 p.1 p.2).2 := by
  have key : ∀ (bi bf : Bool), bi = op (g1.isInitialO p.1) (g2.isInitialO p.2) →
      Into op g1 g2 d
        ⟨t.map.set p t.g12.lastVertexId, let g := if bi then t.g12.addVertex.2.setInitial t.g12.lastVertexId else t.g12.addVertex.2
          if bf then g.setFinal t.g12.lastVertexId else g⟩
        ⟨s.map.set p s.g12.lastVertexId, let g := if bi then s.g12.addVertex.2.setInitial s.g12.lastVertexId else s.g12.addVertex.2
          if bf then g.setFinal s.g12.lastVertexId else g⟩ := by
    intro bi bf hbi
    have hF : ∀ (g : Automaton A) q, (let g' := if bi then g.addVertex.2.setInitial g.lastVertexId else g.addVertex.2
        if bf then g'.setFinal g.lastVertexId else g').isFinal q = if bf ∧ g.lastVertexId = q then true else g.isFinal q := by
      intro g q
      have e0 : (if bi then g.addVertex.2.setInitial g.lastVertexId else g.addVertex.2).isFinal q = g.isFinal q := by
        cases bi <;> rfl
      cases bf
      · simpa using e0
      · simp only [if_true, true_and]
        rw [Moore.isFinal_setFinal, e0]
    refine ⟨?_, ?_, ?_, ?_, ?_, ?_, ?_, ?_, ?_⟩
    · intro x
      simp only [Dict.get?_set]
      by_cases e : p = x
      · rw [if_pos e, if_pos e, h.last]; rfl
      · rw [if_neg e, if_neg e]; exact h.map x
    · have r1 := h.reach.exec (op := .addVertex) rfl
      cases bi <;> cases bf
      · exact r1
      · exact r1.exec (op := .setFinal _ true) rfl
      · exact r1.exec (op := .setInitial _ true) rfl
      · exact (r1.exec (op := .setInitial _ true) rfl).exec (op := .setFinal _ true) rfl
    · have : t.g12.lastVertexId + 1 = d.lastVertexId + (s.g12.lastVertexId + 1) := by rw [h.last]; omega
      cases bi <;> cases bf <;> exact this
    · have : t.g12.addVertex.2.vertices = d.vertices ++ s.g12.addVertex.2.vertices.map (d.lastVertexId + ·) := by
        rw [vertices_addVertex h.reach.awf, vertices_addVertex hs.wf, h.verts, h.last]; simp
      cases bi <;> cases bf <;> exact this
    · intro q a
      have : t.g12.addVertex.2.delta (d.lastVertexId + q) a = (s.g12.addVertex.2.delta q a).map (d.lastVertexId + ·) := by
        rw [delta_addVertex h.reach.awf, delta_addVertex hs.wf, h.delta]
      cases bi <;> cases bf <;> exact this
    · intro q hq
      refine ⟨fun a => ?_, ?_⟩
      · have : t.g12.addVertex.2.delta q a = d.delta q a := by rw [delta_addVertex h.reach.awf, (h.old q hq).1]
        cases bi <;> cases bf <;> exact this
      · simp only [hF]
        rw [if_neg (fun e => by have := e.2; rw [h.last] at this; omega), (h.old q hq).2]
    · intro q
      simp only [hF, h.fin]
      by_cases e : bf ∧ s.g12.lastVertexId = q
      · rw [if_pos e, if_pos ⟨e.1, by rw [h.last, e.2]⟩]; rfl
      · rw [if_neg e, if_neg (fun k => e ⟨k.1, by have := k.2; rw [h.last] at this; omega⟩)]
    · have hQ : ∀ g : Automaton A, (let g' := if bi then g.addVertex.2.setInitial g.lastVertexId else g.addVertex.2
          if bf then g'.setFinal g.lastVertexId else g').q0 = if bi then some g.lastVertexId else g.q0 := by
        intro g; cases bi <;> cases bf <;> rfl
      simp only [hQ]
      cases hb : bi
      · simp only [Bool.false_eq_true, if_false]
        refine h.init.imp (fun k => ⟨k.1, fun x q hx => ?_⟩) id
        rw [Dict.get?_set] at hx
        split at hx
        · rename_i e; rw [← e, ← hbi, hb]
        · exact k.2 x q hx
      · simp only [if_true, h.last]
        exact .inr rfl
    · intro e
      have : (s.map.set p s.g12.lastVertexId).get? p = none := by simp only at e; rw [e]; rfl
      rw [Dict.get?_set, if_pos rfl] at this
      cases this
  exact ⟨h.last, key _ _ rfl⟩

theorem Into.getOrCreate {d : Automaton A} {t s : Product A} (h : Into op g1 g2 d t s) (hs : PMap op g1 g2 s) {p : StatePair} {q : Nat} {s' : Product A}
    (hg : s.getOrCreate op g1 g2 p.1 p.2 = .ok (q, s')) :
    ∃ t', t.getOrCreate op g1 g2 p.1 p.2 = .ok (d.lastVertexId + q, t') ∧ Into op g1 g2 d t' s' := by
  unfold Product.getOrCreate at hg ⊢
  split at hg
  · cases hg
  · rename_i hb
    rw [if_neg hb]
    have hm := h.map (p.1, p.2)
    cases hp : s.map.get? (p.1, p.2) with
    | some x =>
      rw [hp] at hg hm
      cases hg
      exact ⟨t, by rw [hm]; rfl, h⟩
    | none =>
      rw [hp] at hg hm
      obtain ⟨k1, k2⟩ := h.addVertex hs p
      cases hg
      refine ⟨_, ?_, k2⟩
      rw [hm]
      show Except.ok (t.addVertex op g1 g2 p.1 p.2) = _
      exact congrArg Except.ok (Prod.ext k1 rfl)

/-- Adding a transition that is not there, or is already there with the same target. -/
theorem addEdge_same_or_free {g : Automaton A} (hg : g.Reachable) {q r : Nat} {a : A} (hq : q ∈ g.vertices) (h : ∀ z, g.delta q a = some z → z = r) :
    ∃ x b g', g.addEdge q r a = .ok (x, b, g') ∧ g'.Reachable ∧ g'.lastVertexId = g.lastVertexId ∧ g'.vertices = g.vertices ∧ g'.final = g.final ∧
      g'.q0 = g.q0 ∧ ∀ x b, g'.delta x b = if q = x ∧ a = b then some r else g.delta x b := by
  have free : g.delta q a = none ∨ g.delta q a = some 0 → ∃ x b g', g.addEdge q r a = .ok (x, b, g') ∧ g'.Reachable ∧ g'.lastVertexId = g.lastVertexId ∧
      g'.vertices = g.vertices ∧ g'.final = g.final ∧ g'.q0 = g.q0 ∧ ∀ x b, g'.delta x b = if q = x ∧ a = b then some r else g.delta x b := by
    intro hf
    have he := addEdge_of_free (r := r) hf hq
    refine ⟨_, _, _, he, hg.exec (op := .addEdge q r a) (g' := g.setDelta q r a) ?_, rfl, vertices_setDelta _ _ hq, rfl, rfl, delta_setDelta _ _ _ _⟩
    show (g.addEdge q r a).map (·.2.2) = _
    rw [he]; rfl
  cases hd : g.delta q a with
  | none => exact free (.inl hd)
  | some z =>
    cases z with
    | zero => exact free (.inr hd)
    | succ k =>
      refine ⟨_, _, _, addEdge_of_succ hd, hg, rfl, rfl, rfl, rfl, ?_⟩
      intro x b
      split
      · rename_i e; rw [← e.1, ← e.2, hd, h _ hd]
      · rfl

theorem Into.addEdge {d : Automaton A} {L : List (StatePair × A)} {t s s' : Product A} (h : Into op g1 g2 d t s) (hs : PInv op g1 g2 L s) {p : StatePair} {a : A}
    (hp : p ≠ bot) (hn : Pbfs.nxt g1 g2 p a ≠ bot) (he : s.addEdge op g1 g2 (jointEdge g1 p.1 a) (jointEdge g2 p.2 a) = .ok s') :
    ∃ t', t.addEdge op g1 g2 (jointEdge g1 p.1 a) (jointEdge g2 p.2 a) = .ok t' ∧ Into op g1 g2 d t' s' := by
  have es : (((jointEdge g1 p.1 a).map AEdge.source, (jointEdge g2 p.2 a).map AEdge.source) : StatePair) = p := by
    obtain ⟨p1, p2⟩ := p
    cases p1 <;> cases p2 <;> rfl
  have et : (((jointEdge g1 p.1 a).bind AEdge.target, (jointEdge g2 p.2 a).bind AEdge.target) : StatePair) = Pbfs.nxt g1 g2 p a := by
    obtain ⟨p1, p2⟩ := p
    cases p1 <;> cases p2 <;> rfl
  have el : productLabel (jointEdge g1 p.1 a) (jointEdge g2 p.2 a) = some a := by
    obtain ⟨p1, p2⟩ := p
    cases p1 <;> cases p2 <;> first | rfl | exact absurd rfl hp
  obtain ⟨q, s1, k0, k1, k2, k3, k4, k5, k6⟩ := getOrCreate_spec hs.toPMap hp
  obtain ⟨r, s2, l0, l1, l2, l3, l4, l5, l6⟩ := getOrCreate_spec k1 hn
  obtain ⟨t1, m0, m1⟩ := h.getOrCreate hs.toPMap k0
  obtain ⟨t2, n0, n1⟩ := m1.getOrCreate k1 l0
  have hex : ∀ (u u1 u2 : Product A) (x y : Nat), u.getOrCreate op g1 g2 p.1 p.2 = .ok (x, u1) →
      u1.getOrCreate op g1 g2 (Pbfs.nxt g1 g2 p a).1 (Pbfs.nxt g1 g2 p a).2 = .ok (y, u2) →
      u.addEdge op g1 g2 (jointEdge g1 p.1 a) (jointEdge g2 p.2 a) = match u2.g12.addEdge x y a with
        | .error e => .error e
        | .ok (_, _, g) => .ok ⟨u2.map, g⟩ := by
    intro u u1 u2 x y e1 e2
    have f1 : u.getOrCreate op g1 g2 ((jointEdge g1 p.1 a).map AEdge.source) ((jointEdge g2 p.2 a).map AEdge.source) = .ok (x, u1) := by
      have c1 := congrArg Prod.fst es
      have c2 := congrArg Prod.snd es
      simp only at c1 c2
      rw [c1, c2]; exact e1
    have f2 : u1.getOrCreate op g1 g2 ((jointEdge g1 p.1 a).bind AEdge.target) ((jointEdge g2 p.2 a).bind AEdge.target) = .ok (y, u2) := by
      have c1 := congrArg Prod.fst et
      have c2 := congrArg Prod.snd et
      simp only at c1 c2
      rw [c1, c2]; exact e2
    unfold Product.addEdge
    rw [f1]
    simp only
    rw [f2]
    simp only
    rw [el]
    simp only
    cases u2.g12.addEdge x y a <;> rfl
  have hkeep : ∀ x y, s.map.get? x = some y → s2.map.get? x = some y := by
    intro x y hx
    have h1 : s1.map.get? x = some y := by
      by_cases e : x = p
      · subst e; rw [k2, k4 y hx]
      · rw [k3 x e]; exact hx
    by_cases e : x = Pbfs.nxt g1 g2 p a
    · subst e; rw [l2, l4 y h1]
    · rw [l3 x e]; exact h1
  have hq2 : s2.map.get? p = some q := by
    by_cases e : p = Pbfs.nxt g1 g2 p a
    · rw [e, l2, l4 q (by rw [← e]; exact k2)]
    · rw [l3 p e]; exact k2
  have hqv : q ∈ s2.g12.vertices := (l1.verts q).mpr ⟨p, hq2⟩
  have hcons : ∀ z, s2.g12.delta q a = some z → z = r := by
    intro z hz
    rw [l5, k5, hs.delta] at hz
    obtain ⟨p', hp', hm1, hm2⟩ := hz
    have : p' = p := l1.inj _ _ q (hkeep _ _ hm1) hq2
    subst this
    have := hkeep _ _ hm2
    rw [l2] at this
    exact (Option.some.inj this).symm
  have hqv' : d.lastVertexId + q ∈ t2.g12.vertices := by
    rw [n1.verts]; exact List.mem_append_right _ (List.mem_map.mpr ⟨q, hqv, rfl⟩)
  have hcons' : ∀ z, t2.g12.delta (d.lastVertexId + q) a = some z → z = d.lastVertexId + r := by
    intro z hz
    rw [n1.delta] at hz
    obtain ⟨y, hy, rfl⟩ := Option.map_eq_some_iff.mp hz
    rw [hcons y hy]
  obtain ⟨x, b, g', o0, o1, o2, o3, o4, o5, o6⟩ := addEdge_same_or_free n1.reach hqv' hcons'
  have hsame : ∃ x b g', s2.g12.addEdge q r a = .ok (x, b, g') ∧ g'.lastVertexId = s2.g12.lastVertexId ∧ g'.vertices = s2.g12.vertices ∧ g'.final = s2.g12.final ∧
      g'.q0 = s2.g12.q0 ∧ ∀ x b, g'.delta x b = if q = x ∧ a = b then some r else s2.g12.delta x b := by
    cases hd : s2.g12.delta q a with
    | none => exact ⟨_, _, _, addEdge_of_free (.inl hd) hqv, rfl, vertices_setDelta _ _ hqv, rfl, rfl, delta_setDelta _ _ _ _⟩
    | some z =>
      have hz := hcons z hd
      subst hz
      cases z with
      | zero => exact ⟨_, _, _, addEdge_of_free (.inr hd) hqv, rfl, vertices_setDelta _ _ hqv, rfl, rfl, delta_setDelta _ _ _ _⟩
      | succ k =>
        refine ⟨_, _, _, addEdge_of_succ hd, rfl, rfl, rfl, rfl, ?_⟩
        intro x b
        split
        · rename_i e; rw [← e.1, ← e.2, hd]
        · rfl
  obtain ⟨x', b', g'', u0, u2, u3, u4, u5, u6⟩ := hsame
  have hs' : s' = ⟨s2.map, g''⟩ := by
    rw [hex s s1 s2 q r k0 l0, u0] at he
    cases he; rfl
  subst hs'
  refine ⟨⟨t2.map, g'⟩, by rw [hex t t1 t2 _ _ m0 n0, o0], ?_⟩
  refine ⟨n1.map, o1, ?_, ?_, ?_, ?_, ?_, ?_, ?_⟩
  · simp only; rw [o2, u2]; exact n1.last
  · simp only; rw [o3, u3]; exact n1.verts
  · intro y c
    simp only [o6, u6, n1.delta]
    by_cases e : q = y ∧ a = c
    · rw [if_pos e, if_pos ⟨by rw [e.1], e.2⟩]; rfl
    · rw [if_neg e, if_neg (fun k => e ⟨by omega, k.2⟩)]
  · intro y hy
    refine ⟨fun c => ?_, ?_⟩
    · simp only [o6]
      rw [if_neg (fun k => by omega)]
      exact (n1.old y hy).1 c
    · have : g'.isFinal y = t2.g12.isFinal y := by unfold isFinal; rw [o4]
      simp only [this]
      exact (n1.old y hy).2
  · intro y
    have e1 : g'.isFinal (d.lastVertexId + y) = t2.g12.isFinal (d.lastVertexId + y) := by unfold isFinal; rw [o4]
    have e2 : g''.isFinal y = s2.g12.isFinal y := by unfold isFinal; rw [u4]
    simp only [e1, e2]
    exact n1.fin y
  · simp only [o5, u5]; exact n1.init
  · intro e
    simp only at e
    rw [e] at hq2
    cases hq2

/-- Adding joint transitions to both. -/
theorem Into.fold {f : Option (AEdge A) → Option (AEdge A) → A → Product A → Except PyErr (Product A)} {keep : StatePair → A → Bool} {d : Automaton A}
    (E : List (Option (AEdge A) × Option (AEdge A) × A))
    (hE : ∀ e ∈ E, ∃ p a, e = Pbfs.jedge g1 g2 p a ∧ (∀ s, f (jointEdge g1 p.1 a) (jointEdge g2 p.2 a) a s =
      if keep p a then s.addEdge op g1 g2 (jointEdge g1 p.1 a) (jointEdge g2 p.2 a) else .ok s) ∧
      (keep p a = true → p ≠ bot ∧ Pbfs.nxt g1 g2 p a ≠ bot)) :
    ∀ (L : List (StatePair × A)) (t s : Product A), Into op g1 g2 d t s → PInv op g1 g2 L s →
      ∃ t' s', E.foldlM (fun s e => f e.1 e.2.1 e.2.2 s) t = .ok t' ∧ E.foldlM (fun s e => f e.1 e.2.1 e.2.2 s) s = .ok s' ∧ Into op g1 g2 d t' s' := by
  induction E with
  | nil => intro L t s h _; exact ⟨t, s, rfl, rfl, h⟩
  | cons e E ih =>
    intro L t s h hs
    obtain ⟨p, a, rfl, hf, hk⟩ := hE e (by simp)
    have ih := ih (fun e he => hE e (by simp [he]))
    simp only [List.foldlM_cons, Pbfs.jedge, hf]
    by_cases hkp : keep p a = true
    · obtain ⟨hp, hn⟩ := hk hkp
      obtain ⟨s1, k1, k2⟩ := addEdge_spec hs hp hn
      obtain ⟨t1, l1, l2⟩ := h.addEdge hs hp hn k1
      rw [if_pos hkp, if_pos hkp, k1, l1]
      exact ih _ _ _ l2 k2
    · rw [if_neg hkp, if_neg hkp]
      exact ih _ _ _ h hs

end Product
end PyBGL
