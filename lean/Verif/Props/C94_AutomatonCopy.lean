import Verif.Model.AutomatonCopy
import Verif.Props.C56_C58_DfsApps
import Verif.Proofs.AutomatonLemmas
import Mathlib.Data.List.Induction

/-!
# C94: `automaton_copy`
-/

namespace PyBGL
open Automaton
variable {A : Type} [DecidableEq A]

/-- The callback `lambda u, g, u_dup, g_dup: g_dup.set_final(u_dup, f(u))`, by which a caller copies the final states. -/
def copyFinals (f : Nat → Bool) (u x : Nat) (dup : Automaton A) : Automaton A := dup.setFinal x (f u)

/-- The relevance of a transition, as given by the arguments `pmap_vrelevant` and `pmap_erelevant`. -/
def Automaton.relevant (vrel : Option (Nat → Bool)) (erel : Option (EdgeDesc A → Bool)) (e : EdgeDesc A) : Bool :=
  (erel.getD (fun _ => true)) e && (vrel.getD (fun _ => true)) e.target

/-- The relevant transitions. -/
def Automaton.RelTrans (g : Automaton A) (vrel : Option (Nat → Bool)) (erel : Option (EdgeDesc A → Bool)) (q : Nat) (a : A) (r : Nat) : Prop :=
  (⟨q, r, a⟩ : EdgeDesc A) ∈ g.edges ∧ relevant vrel erel ⟨q, r, a⟩ = true

namespace AutomatonCopy

/-- The invariant of `AutomatonCopyVisitor`. -/
structure Inv (g : Automaton A) (fin : Option (Nat → Bool)) (pre : List (DfsEvent Nat (EdgeDesc A))) (s : State A) : Prop where
  wf : AWF s.dup
  q0 : s.dup.q0 = some 0
  hfin : ∀ x, s.dup.isFinal x = true ↔ ∃ f v, fin = some f ∧ s.vmap.get? v = some x ∧ f v = true
  done : ∀ v, v ∈ s.done ↔ ∃ x, s.vmap.get? v = some x
  verts : ∀ x, x ∈ s.dup.vertices ↔ ∃ v, s.vmap.get? v = some x
  inj : ∀ v w x, s.vmap.get? v = some x → s.vmap.get? w = some x → v = w
  dom : ∀ v, v ∈ s.done ↔ .start v ∈ pre ∨ ∃ e ∈ examined pre, e.target = v
  edom : ∀ e, e ∈ examined pre ↔ ∃ e', s.emap.get? e = some e'
  eds : ∀ x y a, s.dup.delta x a = some y ↔ ∃ e, s.emap.get? e = some (some ⟨x, y, a⟩)
  isSome : ∀ e o, s.emap.get? e = some o → ∃ e', o = some e'
  ends : ∀ e x, s.emap.get? e = some (some x) → s.vmap.get? e.source = some x.source ∧ s.vmap.get? e.target = some x.target ∧
    x.distinguisher = e.distinguisher
  edges : ∀ e ∈ examined pre, e ∈ g.edges

theorem final_lt {g : Automaton A} {fin : Option (Nat → Bool)} {pre : List (DfsEvent Nat (EdgeDesc A))} {s : State A} (i : Inv g fin pre s)
    {x : Nat} (h : s.dup.isFinal x = true) : x ∈ s.dup.vertices := by
  obtain ⟨f, v, _, h, _⟩ := (i.hfin x).mp h
  exact (i.verts x).mpr ⟨v, h⟩

/-- `g_dup` after `dup_vertex`. -/
theorem dupVertex_dup (fin : Option (Nat → Bool)) (s : State A) (v : Nat) :
    (dupVertex (fin.map copyFinals) s v).2.dup.adj = s.dup.addVertex.2.adj ∧
    (dupVertex (fin.map copyFinals) s v).2.dup.lastVertexId = s.dup.lastVertexId + 1 ∧
    (dupVertex (fin.map copyFinals) s v).2.dup.q0 = s.dup.q0 ∧
    ∀ x, (dupVertex (fin.map copyFinals) s v).2.dup.isFinal x =
      match fin with
      | none => s.dup.isFinal x
      | some f => if s.dup.lastVertexId = x then f v else s.dup.isFinal x := by
  cases fin with
  | none => exact ⟨rfl, rfl, rfl, fun x => rfl⟩
  | some f =>
    refine ⟨rfl, rfl, rfl, fun x => ?_⟩
    show (s.dup.final.set s.dup.lastVertexId (f v)).getD x false = _
    rw [Dict.getD_set]; rfl

theorem dupVertex_inv {g : Automaton A} {fin : Option (Nat → Bool)} {pre pre' : List (DfsEvent Nat (EdgeDesc A))} {s : State A}
    (i : Inv g fin pre s) {v : Nat} (hv : v ∉ s.done)
    (he : examined pre' = examined pre) (hst : ∀ w, .start w ∈ pre' ↔ .start w ∈ pre ∨ w = v) :
    Inv g fin pre' (dupVertex (fin.map copyFinals) s v).2 ∧
      (dupVertex (fin.map copyFinals) s v).2.vmap.get? v = .some (dupVertex (fin.map copyFinals) s v).1 := by
  obtain ⟨hadj, hlast, hq0, hfin⟩ := dupVertex_dup fin s v
  have hnew : s.dup.lastVertexId ∉ s.dup.vertices := fresh i.wf
  have hvn : ∀ x, s.vmap.get? v ≠ .some x := fun x h => hv ((i.done v).mpr ⟨x, h⟩)
  have hvm : ∀ w, (dupVertex (fin.map copyFinals) s v).2.vmap.get? w = if v = w then .some s.dup.lastVertexId else s.vmap.get? w := by
    intro w; show (s.vmap.set v _).get? w = _; rw [Dict.get?_set]
  have hwf := AWF_addVertex i.wf
  have hverts : (dupVertex (fin.map copyFinals) s v).2.dup.vertices = s.dup.vertices ++ [s.dup.lastVertexId] := by
    unfold vertices; rw [hadj]; exact vertices_addVertex i.wf
  refine ⟨⟨?_, hq0.trans i.q0, ?_, ?_, ?_, ?_, ?_, ?_, ?_, i.isSome, ?_, ?_⟩, ?_⟩
  · refine ⟨hadj ▸ hwf.outer, hadj ▸ hwf.inner, ?_⟩
    intro q hq
    rw [hverts] at hq
    rw [hlast]
    rcases List.mem_append.mp hq with h | h
    · have := i.wf.lt q h; omega
    · simp at h; omega
  · intro x
    rw [hfin]
    cases fin with
    | none =>
      show s.dup.isFinal x = true ↔ _
      rw [i.hfin]; simp
    | some f =>
      show (if s.dup.lastVertexId = x then f v else s.dup.isFinal x) = true ↔ _
      by_cases h : s.dup.lastVertexId = x
      · rw [if_pos h]
        constructor
        · intro hf; exact ⟨f, v, rfl, by rw [hvm, if_pos rfl, h], hf⟩
        · rintro ⟨f', w, h1, h2, h3⟩
          cases h1
          rw [hvm] at h2
          split at h2
          · rename_i e; rw [e]; exact h3
          · exact absurd ((i.verts x).mpr ⟨w, h2⟩) (h ▸ hnew)
      · rw [if_neg h, i.hfin]
        constructor
        · rintro ⟨f', w, h1, h2, h3⟩
          exact ⟨f', w, h1, by rw [hvm, if_neg (fun e : v = w => hvn x (e ▸ h2))]; exact h2, h3⟩
        · rintro ⟨f', w, h1, h2, h3⟩
          rw [hvm] at h2
          split at h2
          · exact absurd (Option.some.inj h2) h
          · exact ⟨f', w, h1, h2, h3⟩
  · intro w
    show w ∈ setAdd s.done v ↔ _
    rw [mem_setAdd, i.done, hvm]
    by_cases e : v = w
    · simp [e]
    · simp [e, Ne.symm e]
  · intro x
    rw [hverts, List.mem_append, List.mem_singleton, i.verts]
    simp only [hvm]
    constructor
    · rintro (⟨w, hw⟩ | rfl)
      · exact ⟨w, by rw [if_neg (fun e : v = w => hvn x (e ▸ hw))]; exact hw⟩
      · exact ⟨v, by simp⟩
    · rintro ⟨w, hw⟩
      split at hw
      · simp at hw; exact .inr hw.symm
      · exact .inl ⟨w, hw⟩
  · intro a b x ha hb
    rw [hvm] at ha hb
    have hx : ∀ w, s.vmap.get? w = .some s.dup.lastVertexId → False := fun w h => hnew ((i.verts _).mpr ⟨w, h⟩)
    split at ha
    · split at hb
      · rename_i e1 e2; rw [← e1, ← e2]
      · simp at ha; subst ha; exact (hx b hb).elim
    · split at hb
      · simp at hb; subst hb; exact (hx a ha).elim
      · exact i.inj a b x ha hb
  · intro w
    show w ∈ setAdd s.done v ↔ _
    rw [mem_setAdd, i.dom, he, hst, or_right_comm]
  · intro e; rw [he]; exact i.edom e
  · intro x y a
    have : (dupVertex (fin.map copyFinals) s v).2.dup.delta x a = s.dup.delta x a := by
      rw [← delta_addVertex i.wf]; unfold delta; rw [hadj]
    rw [this]
    exact i.eds x y a
  · intro e x hx
    obtain ⟨h1, h2, h3⟩ := i.ends e x hx
    refine ⟨?_, ?_, h3⟩
    · rw [hvm, if_neg (fun h : v = _ => hvn _ (h ▸ h1))]; exact h1
    · rw [hvm, if_neg (fun h : v = _ => hvn _ (h ▸ h2))]; exact h2
  · intro e h; rw [he] at h; exact i.edges e h
  · rw [hvm, if_pos rfl]; rfl

/-- The invariant only depends on some of the calls. -/
theorem Inv.congr {g : Automaton A} {fin : Option (Nat → Bool)} {pre pre' : List (DfsEvent Nat (EdgeDesc A))} {s : State A}
    (i : Inv g fin pre s)
    (he : examined pre' = examined pre) (hst : ∀ w, .start w ∈ pre' ↔ .start w ∈ pre) : Inv g fin pre' s :=
  ⟨i.wf, i.q0, i.hfin, i.done, i.verts, i.inj, fun v => by rw [i.dom, he, hst], fun e => by rw [he]; exact i.edom e, i.eds, i.isSome, i.ends,
    fun e h => i.edges e (he ▸ h)⟩

/-- Adding the copy of a transition whose ends are copied. -/
theorem addEdge_inv {g : Automaton A} (hg : AWF g) {fin : Option (Nat → Bool)} {s : State A} {e : EdgeDesc A} {x y : Nat}
    (pre pre1 : List (DfsEvent Nat (EdgeDesc A))) (i : Inv g fin pre1 s) (he1 : examined pre1 = examined pre)
    (hdom : ∀ v, v ∈ s.done ↔ .start v ∈ pre ∨ ∃ a ∈ examined (pre ++ [.examineEdge e]), a.target = v)
    (hne : e ∉ examined pre) (heg : e ∈ g.edges) (hx : s.vmap.get? e.source = some x) (hy : s.vmap.get? e.target = some y) :
    ∃ e' dup, s.dup.addEdge x y e.distinguisher = .ok (some e', true, dup) ∧
      Inv g fin (pre ++ [.examineEdge e]) { s with dup := dup, emap := s.emap.set e (some e') } := by
  have hxv : x ∈ s.dup.vertices := (i.verts x).mpr ⟨_, hx⟩
  -- the label is still free: `g` is deterministic
  have hfree : s.dup.delta x e.distinguisher = none := by
    cases hd : s.dup.delta x e.distinguisher with
    | none => rfl
    | some y' =>
      exfalso
      obtain ⟨e2, h2⟩ := (i.eds x y' _).mp hd
      obtain ⟨h3, h4, h5⟩ := i.ends e2 _ h2
      have hs2 : e2.source = e.source := i.inj _ _ _ h3 hx
      have hm2 : e2 ∈ examined pre := he1 ▸ (i.edom e2).mpr ⟨_, h2⟩
      have h6 := (mem_edges hg).mp (i.edges e2 (he1 ▸ hm2))
      have h7 := (mem_edges hg).mp heg
      simp only at h5
      rw [hs2, ← h5, h7] at h6
      have : e2 = e := by
        obtain ⟨a, b, c⟩ := e2; obtain ⟨a', b', c'⟩ := e
        simp only [EdgeDesc.mk.injEq] at *
        exact ⟨hs2, (Option.some.inj h6).symm, h5.symm⟩
      exact hne (this ▸ hm2)
  refine ⟨_, _, addEdge_of_free (.inl hfree) hxv, ?_⟩
  refine ⟨AWF_setDelta i.wf _ _ hxv, i.q0, i.hfin, i.done, ?_, i.inj, ?_, ?_, ?_, ?_, ?_, ?_⟩
  · intro z
    show z ∈ (s.dup.setDelta x y e.distinguisher).vertices ↔ _
    rw [vertices_setDelta _ _ hxv]; exact i.verts z
  · intro v
    show v ∈ s.done ↔ _
    rw [hdom]; simp
  · intro e'
    show _ ↔ ∃ x, (s.emap.set e _).get? e' = some x
    rw [Dict.get?_set]
    simp only [examined_append, List.mem_append]
    rw [← he1, i.edom]
    by_cases h : e = e'
    · simp [h]
    · simp [h, Ne.symm h]
  · intro a b m
    show (s.dup.setDelta x y e.distinguisher).delta a m = some b ↔ ∃ e', (s.emap.set e _).get? e' = some (some _)
    rw [delta_setDelta]
    simp only [Dict.get?_set]
    constructor
    · intro h
      split at h
      · rename_i h'
        obtain ⟨rfl, rfl⟩ := h'
        cases h
        exact ⟨e, by simp⟩
      · obtain ⟨e', he'⟩ := (i.eds a b m).mp h
        refine ⟨e', ?_⟩
        rw [if_neg]
        · exact he'
        · rintro rfl; exact hne (he1 ▸ (i.edom e).mpr ⟨_, he'⟩)
    · rintro ⟨e', he'⟩
      split at he'
      · simp at he'; obtain ⟨rfl, rfl, rfl⟩ := he'; simp
      · have h := (i.eds a b m).mpr ⟨e', he'⟩
        rw [if_neg]
        · exact h
        · rintro ⟨rfl, rfl⟩; rw [hfree] at h; cases h
  · intro e' o h
    have h : (s.emap.set e _).get? e' = some o := h
    rw [Dict.get?_set] at h
    split at h
    · exact ⟨_, (Option.some.inj h).symm⟩
    · exact i.isSome e' o h
  · intro a z ha
    have ha : (s.emap.set e _).get? a = some (some z) := ha
    rw [Dict.get?_set] at ha
    split at ha
    · rename_i e1; subst e1; simp at ha; subst ha; exact ⟨hx, hy, rfl⟩
    · exact i.ends a z ha
  · intro a ha
    have : a ∈ examined pre ∨ a = e := by simpa using ha
    rcases this with h | rfl
    · exact i.edges a (he1 ▸ h)
    · exact heg

theorem dupEdge_inv {g : Automaton A} (hg : AWF g) {fin : Option (Nat → Bool)} {pre : List (DfsEvent Nat (EdgeDesc A))} {s : State A}
    (i : Inv g fin pre s) {e : EdgeDesc A} (hne : e ∉ examined pre) (heg : e ∈ g.edges) (hsrc : e.source ∈ s.done) :
    ∃ s', dupEdge (fin.map copyFinals) s e = .ok s' ∧ Inv g fin (pre ++ [.examineEdge e]) s' := by
  obtain ⟨x, hx⟩ := (i.done _).mp hsrc
  have hE := getE_ok hx
  unfold dupEdge
  rw [hE]
  simp only
  by_cases ht : e.target ∈ s.done
  · obtain ⟨y, hy⟩ := (i.done _).mp ht
    have hT : dupTarget (fin.map copyFinals) s e.target = .ok (y, s) := by
      unfold dupTarget; rw [if_pos ht, getE_ok hy]
    rw [hT]
    simp only
    obtain ⟨e', dup, h1, h2⟩ := addEdge_inv hg (e := e) pre pre i rfl (by
      intro v
      rw [i.dom]
      constructor
      · rintro (h | ⟨a, ha, h⟩)
        · exact .inl h
        · exact .inr ⟨a, by simp [ha], h⟩
      · rintro (h | ⟨a, ha, h⟩)
        · exact .inl h
        · have ha' : a ∈ examined pre ∨ a = e := by simpa using ha
          rcases ha' with ha' | rfl
          · exact .inr ⟨a, ha', h⟩
          · subst h; exact (i.dom _).mp ht) hne heg hx hy
    rw [h1]
    exact ⟨_, rfl, h2⟩
  · have hT : dupTarget (fin.map copyFinals) s e.target = .ok (dupVertex (fin.map copyFinals) s e.target) := by
      unfold dupTarget; rw [if_neg ht]
    rw [hT]
    simp only
    -- the state after the copy of the target, seen with a fictitious start
    obtain ⟨j, hj⟩ := dupVertex_inv (pre' := pre ++ [.start e.target]) i ht (by simp) (by intro w; simp)
    have hx' : (dupVertex (fin.map copyFinals) s e.target).2.vmap.get? e.source = some x := by
      show (s.vmap.set _ _).get? _ = _
      rw [Dict.get?_set, if_neg]
      · exact hx
      · rintro h; exact ht (h ▸ hsrc)
    obtain ⟨e', dup, h1, h2⟩ := addEdge_inv hg (e := e) pre _ j (by simp) (by
      intro v
      rw [j.dom]
      constructor
      · rintro (h | ⟨a, ha, h⟩)
        · have : .start v ∈ pre ∨ v = e.target := by simpa using h
          rcases this with h | rfl
          · exact .inl h
          · exact .inr ⟨e, by simp, rfl⟩
        · exact .inr ⟨a, by simpa using Or.inl ha, h⟩
      · rintro (h | ⟨a, ha, h⟩)
        · exact .inl (by simp [h])
        · have ha' : a ∈ examined pre ∨ a = e := by simpa using ha
          rcases ha' with ha' | rfl
          · exact .inr ⟨a, by simpa using ha', h⟩
          · exact .inl (by simp [h])) hne heg hx' hj
    rw [h1]
    exact ⟨_, rfl, h2⟩

end AutomatonCopy

theorem Automaton.sourcesOK {g : Automaton A} (hg : AWF g) : g.toI.SourcesOK := by
  intro u e he
  exact ((mem_outEdges hg).mp he).1

theorem Automaton.nodup_outEdges {g : Automaton A} (hg : AWF g) (u : Nat) : (g.toI.outEdges u).Nodup := by
  show (g.outEdges u).Nodup
  unfold outEdges Dict.getD
  cases hd : Dict.get? g.adj u with
  | none => simp
  | some d =>
    have := hg.inner u d hd
    show (d.map _).Nodup
    apply List.Nodup.map_on
    · rintro ⟨a, r⟩ _ ⟨a', r'⟩ _ h
      simp at h; simp [h]
    · exact List.Nodup.of_map _ this

/-- A relevant transition seen through the interface. -/
theorem Automaton.mem_through {g : Automaton A} (hg : AWF g) (vrel : Option (Nat → Bool)) (erel : Option (EdgeDesc A → Bool)) (u : Nat)
    (e : EdgeDesc A) :
    e ∈ (g.toI.through (relevant vrel erel)).outEdges u ↔ e.source = u ∧ e ∈ g.edges ∧ relevant vrel erel e = true := by
  show e ∈ (g.outEdges u).filter _ ↔ _
  rw [List.mem_filter, mem_outEdges hg, mem_edges hg, and_assoc]

/-- Reachability by relevant transitions. -/
theorem Automaton.reach_iff {g : Automaton A} (hg : AWF g) (vrel : Option (Nat → Bool)) (erel : Option (EdgeDesc A → Bool)) (s v : Nat) :
    Reach (g.toI.through (relevant vrel erel)) s v ↔ ∃ w, LPath (g.RelTrans vrel erel) s w v := by
  constructor
  · intro h
    refine h.closed (P := fun v => ∃ w, LPath (g.RelTrans vrel erel) s w v) ?_ ⟨[], .nil _⟩
    rintro u ⟨w, hw⟩ e he
    obtain ⟨h1, h2, h3⟩ := (mem_through hg vrel erel _ _).mp he
    subst h1
    exact ⟨w ++ [e.distinguisher], hw.snoc ⟨h2, h3⟩⟩
  · rintro ⟨w, hw⟩
    have : ∀ w u, LPath (g.RelTrans vrel erel) s w u → Reach (g.toI.through (relevant vrel erel)) s u := by
      intro w
      induction w using List.reverseRecOn with
      | nil => intro u h; cases h; exact .refl _ _
      | append_singleton w a ih =>
        intro u h
        obtain ⟨r, h1, h2, h3⟩ := LPath.snoc_iff.mp h
        exact (ih r h1).step (e := ⟨r, u, a⟩) ((mem_through hg vrel erel _ _).mpr ⟨rfl, h2, h3⟩)
    exact this w v hw

/-- **C94**: when the caller gives `pmap_vertices` and `pmap_edges`, `automaton_copy(s, g, g_dup)` on a new `g_dup` returns; `pmap_vertices` is a
bijection between the states of `g` reachable from `s` by relevant transitions and the states of `g_dup`, and `pmap_edges` between the relevant
transitions leaving these states and the transitions of `g_dup`, compatible with the ends and the labels; the copy of `s` is the initial
state of `g_dup`, and its final states are the copies of the states that the callback of the caller makes final (none without callback). -/
theorem C94_copy_partial {g : Automaton A} (h : g.Reachable) (s : Nat) (vrel : Option (Nat → Bool)) (erel : Option (EdgeDesc A → Bool))
    (fin : Option (Nat → Bool)) :
    ∃ dup vm em, Returns (automatonCopy s g Automaton.empty vrel erel true true (fin.map copyFinals)) (.ok (dup, vm, em)) ∧
      dup.vertices.Nodup ∧ dup.edges.Nodup ∧
      dup.initial = some 0 ∧ vm.get? s = some 0 ∧
      (∀ x, dup.isFinal x = true ↔ ∃ f v, fin = some f ∧ vm.get? v = some x ∧ f v = true) ∧
      (∀ v, (∃ w, LPath (g.RelTrans vrel erel) s w v) ↔ ∃ x, vm.get? v = some x) ∧
      (∀ x, x ∈ dup.vertices ↔ ∃ v, vm.get? v = some x) ∧
      (∀ v w x, vm.get? v = some x → vm.get? w = some x → v = w) ∧
      (∀ e, ((∃ w, LPath (g.RelTrans vrel erel) s w e.source) ∧ g.RelTrans vrel erel e.source e.distinguisher e.target) ↔
        ∃ e', em.get? e = some (some e')) ∧
      (∀ e', e' ∈ dup.edges ↔ ∃ e, em.get? e = some (some e')) ∧
      (∀ e e', em.get? e = some (some e') → vm.get? e.source = some e'.source ∧ vm.get? e.target = some e'.target ∧
        e'.distinguisher = e.distinguisher) := by
  have hg := h.awf
  have hs := sourcesOK hg
  have hn := nodup_outEdges hg
  have hU : ∀ v, Reach (g.toI.through (Automaton.relevant vrel erel)) s v → v ∈ s :: g.edges.map EdgeDesc.target := by
    intro v hv
    refine hv.closed (P := fun v => v ∈ s :: g.edges.map EdgeDesc.target) ?_ (by simp)
    intro u _ e he
    obtain ⟨_, h2, _⟩ := (mem_through hg vrel erel _ _).mp he
    exact List.mem_cons_of_mem _ (List.mem_map_of_mem h2)
  obtain ⟨c, tr, f, ⟨t, htr⟩, hr⟩ := dfs_facts hU
  have hexn : (examined tr).Nodup := f.examined.nodup_iff.mpr (nodup_flatMap_pushed hs hn f.nodup)
  have i0 : AutomatonCopy.Inv g fin [] (⟨Automaton.empty, [], [], []⟩ : AutomatonCopy.State A) := by
    refine ⟨AWF_empty, rfl, ?_, ?_, ?_, ?_, by simp, ?_, ?_, ?_, ?_, ?_⟩ <;>
      simp [Dict.get?, Automaton.empty, vertices, Dict.keys, delta, Dict.getD, isFinal]
  have i1 := AutomatonCopy.dupVertex_inv (g := g) (pre := []) (pre' := [.start s]) (v := s) i0 (by simp) (by simp) (by intro w; simp)
  obtain ⟨st, h1, i⟩ := f.emit (vis := AutomatonCopy.visitor (fin.map copyFinals) (vrel.getD (fun _ => true)) (erel.getD (fun _ => true)))
    (fun pre st => (pre = [] → st = ⟨Automaton.empty, [], [], []⟩) ∧
      (pre ≠ [] → AutomatonCopy.Inv g fin pre st ∧ st.vmap.get? s = some 0)) (by
      rintro pre x rest st ht hok ⟨i', i⟩
      by_cases hp : pre ≠ []
      · obtain ⟨i, i0⟩ := i hp
        cases x with
        | start v =>
          have hv : v = s := by
            have := f.starts v (by rw [ht]; simp)
            simpa using this
          subst hv
          exfalso
          have hw := (traceColor_white.mp hok).1
          rw [htr] at ht
          cases pre with
          | nil => exact hp rfl
          | cons a pre =>
            cases pre with
            | nil => simp at ht
            | cons b pre =>
              simp at ht
              apply hw
              rw [← ht.2.1]; simp
        | examineEdge e =>
          obtain ⟨u, hu, hg'⟩ := hok
          have hne : e ∉ examined pre := by
            rw [ht] at hexn
            simp only [examined_append, examined_cons, List.cons_append, List.nil_append] at hexn
            intro h
            exact (List.nodup_append.mp hexn).2.2 e h e (by simp) rfl
          have hsu := hs u e (List.mem_filter.mp hu).1
          have hsu : e.source = u := hsu
          have hud := (traceColor_gray.mp hg').1
          have hdone : e.source ∈ st.done := by
            rw [hsu, i.dom]
            obtain ⟨a1, a2, rfl⟩ := List.append_of_mem (mem_discovered.mp hud)
            have h3 := (f.ok a1 (.discover u) (a2 ++ .examineEdge e :: rest) (by simp [ht])).2
            rcases h3 with h3 | ⟨e', _, h3, h4⟩
            · exact .inl (by simp [h3])
            · exact .inr ⟨e', by simp [mem_examined.mpr h3], h4⟩
          have heg : e ∈ g.edges := (mem_edges hg).mpr ((mem_outEdges hg).mp (List.mem_filter.mp hu).1).2
          obtain ⟨s', h2, h3⟩ := AutomatonCopy.dupEdge_inv hg i hne heg hdone
          have hrel : Automaton.relevant vrel erel e = true := (List.mem_filter.mp hu).2
          refine ⟨s', ?_, by simp, fun _ => ⟨h3, ?_⟩⟩
          · exact (if_pos hrel).trans h2
          · -- the copy of `s` never changes
            have hmono : ∀ y, st.vmap.get? s = some y → s'.vmap.get? s = some y := by
              intro y hy
              unfold AutomatonCopy.dupEdge at h2
              split at h2
              · cases h2
              · split at h2
                · cases h2
                · rename_i y' s1 hr'
                  have hs1 : s1.vmap.get? s = some y := by
                    unfold AutomatonCopy.dupTarget at hr'
                    split at hr'
                    · split at hr'
                      · cases hr'
                      · cases hr'; exact hy
                    · rename_i hnd
                      have := congrArg (fun r => r.2) (Except.ok.inj hr')
                      simp only at this
                      rw [← this]
                      show (st.vmap.set _ _).get? s = _
                      rw [Dict.get?_set, if_neg]
                      · exact hy
                      · intro hh; exact hnd (hh ▸ (i.done s).mpr ⟨y, hy⟩)
                  split at h2
                  · cases h2
                  · have := Except.ok.inj h2
                    rw [← this]; exact hs1
            exact hmono 0 i0
        | _ => exact ⟨_, rfl, by simp, fun _ => ⟨i.congr (by simp) (by intro w; simp), i0⟩⟩
      · have hp : pre = [] := by simpa using hp
        subst hp
        rw [htr] at ht
        simp at ht
        rw [i' rfl, ← ht.1]
        exact ⟨_, rfl, by simp, fun _ => ⟨i1.1, i1.2⟩⟩)
    [] tr rfl _ ⟨fun _ => rfl, by simp⟩
  obtain ⟨i, is⟩ := i.2 (by rw [htr]; simp)
  have hreach : ∀ v, v ∈ discovered tr ↔ ∃ w, LPath (g.RelTrans vrel erel) s w v := fun v =>
    (f.reach_single v).trans (reach_iff hg vrel erel s v)
  refine ⟨st.dup, st.vmap, st.emap, ?_, i.wf.outer, nodup_edges i.wf, i.q0, is, i.hfin, ?_, i.verts, i.inj, ?_, ?_, i.ends⟩
  · obtain ⟨N, hN⟩ := hr _ (AutomatonCopy.visitor (fin.map copyFinals) (vrel.getD (fun _ => true)) (erel.getD (fun _ => true)))
      ⟨Automaton.empty, [], [], []⟩
    refine ⟨N, fun fuel hf => ?_⟩
    have := hN fuel hf
    unfold automatonCopy
    show Option.map _ (dfs g.toI (Automaton.relevant vrel erel) _ s [] _ fuel) = _
    rw [this, h1]; rfl
  · intro v
    rw [← i.done, i.dom, ← hreach]
    constructor
    · intro h
      obtain ⟨a, b, hab⟩ := List.append_of_mem (mem_discovered.mp h)
      have h3 := (f.ok a (.discover v) b hab).2
      rcases h3 with h3 | ⟨e', _, h3, h4⟩
      · exact .inl (by rw [hab]; simp [h3])
      · exact .inr ⟨e', by rw [hab]; simp [mem_examined.mpr h3], h4⟩
    · rintro (h | ⟨e, he, rfl⟩)
      · have := f.starts v h
        simp at this; subst this
        rw [htr]; simp
      · obtain ⟨u, hu, he⟩ := (f.mem_examined e).mp he
        rw [f.reach_single] at hu ⊢
        exact hu.step he
  · intro e
    have : (∃ e', st.emap.get? e = some (some e')) ↔ ∃ o, st.emap.get? e = some o := by
      constructor
      · rintro ⟨e', h⟩; exact ⟨_, h⟩
      · rintro ⟨o, h⟩
        obtain ⟨e', rfl⟩ := i.isSome e o h
        exact ⟨e', h⟩
    rw [this, ← i.edom, f.mem_examined, ← hreach]
    constructor
    · rintro ⟨hu, h1, h2⟩
      exact ⟨e.source, hu, (mem_through hg vrel erel _ _).mpr ⟨rfl, h1, h2⟩⟩
    · rintro ⟨u, hu, he⟩
      obtain ⟨rfl, h1, h2⟩ := (mem_through hg vrel erel _ _).mp he
      exact ⟨hu, h1, h2⟩
  · intro e'
    rw [mem_edges i.wf]
    exact i.eds _ _ _

/-- **C94**: with the callback that copies the final states, the copy accepts exactly the words labelling a path of relevant transitions of `g`
from `s` to a final state. -/
theorem C94_language_partial {g : Automaton A} (h : g.Reachable) (s : Nat) (vrel : Option (Nat → Bool)) (erel : Option (EdgeDesc A → Bool))
    (f : Nat → Bool) :
    ∃ dup vm em, Returns (automatonCopy s g Automaton.empty vrel erel true true (some (copyFinals f))) (.ok (dup, vm, em)) ∧
      ∀ w, dup.Lang w ↔ ∃ q, LPath (g.RelTrans vrel erel) s w q ∧ f q = true := by
  obtain ⟨dup, vm, em, h1, _, _, h2, h3, h4, h5, _, h7, h8, h9, h10⟩ := C94_copy_partial h s vrel erel (some f)
  refine ⟨dup, vm, em, h1, fun w => ?_⟩
  have hpath : ∀ w x, LPath dup.Trans 0 w x ↔ ∃ v, vm.get? v = some x ∧ LPath (g.RelTrans vrel erel) s w v := by
    intro w
    induction w using List.reverseRecOn with
    | nil =>
      intro x
      simp only [LPath.nil_iff]
      constructor
      · rintro rfl; exact ⟨s, h3, rfl⟩
      · rintro ⟨v, hv, rfl⟩; rw [h3] at hv; exact Option.some.inj hv
    | append_singleton w a ih =>
      intro x
      simp only [LPath.snoc_iff]
      constructor
      · rintro ⟨y, hy, ht⟩
        obtain ⟨u, hu, hp⟩ := (ih y).mp hy
        obtain ⟨e, he⟩ := (h9 _).mp ht
        obtain ⟨h11, h12, h13⟩ := h10 e _ he
        have hu' := h7 _ _ _ h11 hu
        obtain ⟨_, h14⟩ := (h8 e).mpr ⟨_, he⟩
        simp only at h13 h12
        exact ⟨e.target, h12, u, hp, by rw [← hu', h13]; exact h14⟩
      · rintro ⟨v, hv, u, hp, ht⟩
        obtain ⟨y, hy⟩ := (h5 u).mp ⟨w, hp⟩
        obtain ⟨e', he'⟩ := (h8 ⟨u, v, a⟩).mp ⟨⟨w, hp⟩, ht⟩
        obtain ⟨h11, h12, h13⟩ := h10 _ _ he'
        simp only at h11 h12 h13
        rw [hy] at h11; rw [hv] at h12
        refine ⟨y, (ih y).mpr ⟨u, hy, hp⟩, ?_⟩
        have := (h9 e').mpr ⟨_, he'⟩
        unfold Automaton.Trans
        obtain ⟨a1, b1, c1⟩ := e'
        simp only at h11 h12 h13
        cases h11; cases h12; subst h13
        exact this
  unfold Automaton.Lang
  have h2' : dup.q0 = some 0 := h2
  constructor
  · rintro ⟨q₀, x, h0, hp, hf⟩
    rw [h2'] at h0; cases h0
    obtain ⟨v, hv, hp⟩ := (hpath w x).mp hp
    obtain ⟨f', v', h11, h12, h13⟩ := (h4 x).mp hf
    cases h11
    exact ⟨v, hp, h7 _ _ _ hv h12 ▸ h13⟩
  · rintro ⟨v, hp, hf⟩
    obtain ⟨x, hx⟩ := (h5 v).mp ⟨w, hp⟩
    exact ⟨0, x, h2', (hpath w x).mpr ⟨v, hx, hp⟩, (h4 x).mpr ⟨f, v, rfl, hx, hf⟩⟩

/-- What the documentation of `automaton_copy` promises about its optional arguments: `pmap_vertices` and `pmap_edges` may be omitted. -/
def C94_statement : Prop :=
  ∀ (g : Automaton Char), g.Reachable → ∀ s ∈ g.vertices, ∀ hasV hasE, ∃ r, Returns (automatonCopy s g Automaton.empty none none hasV hasE none) (.ok r)

/-- **C94**, counterexample: with its default arguments `automaton_copy` always raises `TypeError`. -/
theorem C94_counterexample : ¬ C94_statement := by
  intro h
  have hr : (⟨1, [(0, [])], some 0, []⟩ : Automaton Char).Reachable := ⟨[.addVertex], rfl⟩
  obtain ⟨r, N, hN⟩ := h _ hr 0 (by decide) false false
  have := hN N (Nat.le_refl _)
  simp [automatonCopy] at this

/-- **C94**: whatever the automata, omitting `pmap_vertices` or `pmap_edges` raises `TypeError`. -/
theorem C94_default_raises (s : Nat) (g dup : Automaton A) (vrel : Option (Nat → Bool)) (erel : Option (EdgeDesc A → Bool)) (hasV hasE : Bool)
    (h : hasV = false ∨ hasE = false) (cb : Option (Nat → Nat → Automaton A → Automaton A)) :
    Returns (automatonCopy s g dup vrel erel hasV hasE cb) (.error .typeError) := by
  refine ⟨0, fun fuel _ => ?_⟩
  unfold automatonCopy
  rcases h with rfl | rfl
  · rfl
  · simp

/-- Non-vacuity: an automaton with a cycle, an unreachable state and an irrelevant transition. -/
def exCopy : Automaton Char := ⟨4, [(0, [('a', 1)]), (1, [('a', 2), ('b', 1)]), (2, [('a', 1), ('c', 3)]), (3, [])], some 0, [(2, true)]⟩

example : exCopy.Reachable ∧
    (match automatonCopy 1 exCopy Automaton.empty none (some (fun e => !(e == (⟨2, 3, 'c'⟩ : EdgeDesc Char)))) true true
      (some (copyFinals exCopy.isFinal)) 40 with
    | some (.ok (dup, vm, _)) => decide (vm = [(1, 0), (2, 1)]) && decide (dup.edges.length = 3) && dup.accepts ['b', 'a'] && !dup.accepts ['b']
    | _ => false) = true :=
  ⟨⟨[.addVertex, .addVertex, .addVertex, .addVertex, .addEdge 0 1 'a', .addEdge 1 2 'a', .addEdge 1 1 'b', .addEdge 2 1 'a', .addEdge 2 3 'c',
    .setFinal 2 true], rfl⟩, by decide⟩

end PyBGL
