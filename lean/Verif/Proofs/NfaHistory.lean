import Verif.Model.NfaQueries
import Verif.Props.C80_NfaEdges

/-!
# The symbols kept by the states of an `Nfa`
-/

namespace PyBGL
variable {A : Type} [DecidableEq A]
namespace Nfa

/-- The symbols stored for a state. -/
def syms (g : Nfa A) (q : Nat) : List A := Dict.keys (g.adj.getD q [])

theorem mem_syms (g : Nfa A) (q : Nat) (a : A) : a ∈ g.syms q ↔ ∃ d e, g.adj.get? q = some d ∧ d.get? a = some e := by
  unfold syms Dict.getD
  cases h1 : Dict.get? g.adj q with
  | none => simp [Dict.keys]
  | some d => simp only [Option.getD_some, Dict.mem_keys_iff]; exact ⟨fun ⟨e, h⟩ => ⟨d, e, rfl, h⟩, fun ⟨d', e, h, h'⟩ => by cases h; exact ⟨e, h'⟩⟩

theorem syms_addVertex (g : Nfa A) (q : Nat) : g.addVertex.2.syms q = if q = g.addVertex.1 then [] else g.syms q := by
  unfold syms addVertex
  simp only [Dict.getD_set]
  by_cases h : g.lastVertexId = q
  · simp [h, Dict.keys]
  · simp [h, Ne.symm h]

theorem mem_syms_addEdge (g : Nfa A) (q r : Nat) (a : A) (p : Nat) (b : A) :
    b ∈ (g.addEdge q r a).2.syms p ↔ b ∈ g.syms p ∨ (p = q ∧ b = a) := by
  unfold syms addEdge
  simp only [Dict.getD_set]
  by_cases h : q = p
  · subst h
    simp only [if_true, Dict.mem_keys_set, true_and]
    exact or_comm
  · simp [h, Ne.symm h]

theorem syms_removeEdge {N : Type} (g : Nfa A) (e : EdgeDesc (A × N)) (q : Nat) : (g.removeEdge e).syms q = g.syms q := by
  unfold Nfa.removeEdge
  split
  · rfl
  · rename_i arn harn
    split
    · rfl
    · rename_i rn hrn
      split
      · unfold syms
        simp only [Dict.getD_set]
        split
        · rename_i h
          rw [Dict.keys_set_of_mem _ _ _ ((Dict.mem_keys_iff _ _).mpr ⟨_, hrn⟩), ← h]
          simp [Dict.getD, harn]
        · rfl
      · rfl

theorem syms_foldl_removeEdge {N : Type} : ∀ (es : List (EdgeDesc (A × N))) (g : Nfa A) (q : Nat),
    (es.foldl Nfa.removeEdge g).syms q = g.syms q
  | [], _, _ => rfl
  | e :: es, g, q => by rw [List.foldl_cons, syms_foldl_removeEdge es, syms_removeEdge]

theorem syms_removeVertex {g g' : Nfa A} (hg : WF g) {u : Nat} (h : g.removeVertex u = .ok g') (q : Nat) :
    g'.syms q = if q = u then [] else g.syms q := by
  unfold removeVertex at h
  simp only at h
  obtain ⟨adj, h1, h2⟩ := except_bind_ok.1 h
  have hw1 := hg.foldl_removeEdge (g.edges.filter fun e => u = e.target)
  have hw := hw1.foldl_removeEdge (((g.edges.filter fun e => u = e.target).foldl Nfa.removeEdge g).outEdges u)
  rw [Dict.delE_ok_iff] at h1
  obtain ⟨_, rfl⟩ := h1
  cases h2
  have h3 : ∀ g'' : Nfa A, WF g'' → syms { g'' with adj := g''.adj.erase u } q = if q = u then [] else g''.syms q := by
    intro g'' hw''
    simp only [syms, Dict.getD, Dict.get?_erase hw''.outer]
    by_cases h : u = q
    · simp [h, Dict.keys]
    · simp [h, Ne.symm h]
  rw [h3 _ hw, syms_foldl_removeEdge, syms_foldl_removeEdge]

theorem mem_alphabet_syms {g : Nfa A} (hg : WF g) (a : A) : a ∈ g.alphabet ↔ a ≠ g.eps ∧ ∃ q, a ∈ g.syms q := by
  unfold alphabet
  rw [mem_mkSet, List.mem_filter, List.mem_flatMap, and_comm, decide_eq_true_iff]
  refine and_congr_right fun _ => ?_
  constructor
  · rintro ⟨⟨q, d⟩, h, ha⟩
    obtain ⟨e, he⟩ := (Dict.mem_keys_iff _ _).1 ha
    exact ⟨q, (mem_syms g q a).2 ⟨d, e, Dict.get?_of_mem hg.outer h, he⟩⟩
  · rintro ⟨q, h⟩
    obtain ⟨d, e, h1, h2⟩ := (mem_syms g q a).1 h
    exact ⟨(q, d), Dict.mem_of_get? h1, (Dict.mem_keys_iff _ _).2 ⟨e, h2⟩⟩

theorem mem_sigma_syms (g : Nfa A) (q : Nat) (a : A) :
    a ∈ g.sigma q ↔ a ≠ g.eps ∧ ∃ p, WPath g.T g.eps q [] p ∧ a ∈ g.syms p := by
  unfold sigma
  rw [mem_mkSet, List.mem_filter, List.mem_flatMap, and_comm, decide_eq_true_iff]
  simp only [mem_deltaEpsilon, List.mem_singleton, exists_eq_left, syms]

theorem T_syms {g : Nfa A} {q r : Nat} {a : A} (h : g.T q a r) : a ∈ g.syms q := by
  obtain ⟨d, e, s, h1, h2, _⟩ := (T_iff g q a r).1 h
  exact (mem_syms g q a).2 ⟨d, e, h1, h2⟩

theorem nodup_flatMap_of {X Y Z : Type} {l : List X} {f : X → List Y} {k : X → Z} {k' : Y → Z} (hl : (l.map k).Nodup)
    (hf : ∀ x ∈ l, (f x).Nodup) (hk : ∀ x ∈ l, ∀ y ∈ f x, k' y = k x) : (l.flatMap f).Nodup := by
  induction l with
  | nil => simp
  | cons x l ih =>
    rw [List.map_cons, List.nodup_cons] at hl
    rw [List.flatMap_cons, List.nodup_append]
    refine ⟨hf x (by simp), ih hl.2 (fun y h => hf y (by simp [h])) (fun y h => hk y (by simp [h])), ?_⟩
    rintro y hy z hz rfl
    obtain ⟨x', hx', hz'⟩ := List.mem_flatMap.1 hz
    apply hl.1
    rw [← hk x (by simp) y hy, hk x' (by simp [hx']) y hz']
    exact List.mem_map.2 ⟨x', hx', rfl⟩

theorem nodup_inner {g : Nfa A} (hg : WF g) {q : Nat} {d : Dict A (Dict Nat (List Nat))} (hd : g.adj.get? q = some d) :
    (d.flatMap fun t => t.2.map fun s => (⟨q, s.1, (t.1, s.2)⟩ : EdgeDesc (A × List Nat))).Nodup := by
  refine nodup_flatMap_of (k := Prod.fst) (k' := fun e => e.distinguisher.1) (hg.mid _ _ hd) ?_ ?_
  · rintro ⟨a, rn⟩ h
    have hn := hg.inner _ _ _ _ hd (Dict.get?_of_mem (hg.mid _ _ hd) h)
    refine List.Nodup.of_map (f := fun e : EdgeDesc (A × List Nat) => e.target) ?_
    rw [List.map_map]
    exact hn
  · rintro ⟨a, rn⟩ _ y hy
    obtain ⟨s, _, rfl⟩ := List.mem_map.1 hy
    rfl

theorem nodup_outEdges {g : Nfa A} (hg : WF g) (q : Nat) : (g.outEdges q).Nodup := by
  unfold outEdges Dict.getD
  cases hd : g.adj.get? q with
  | none => simp
  | some d => exact nodup_inner hg hd

theorem nodup_edges {g : Nfa A} (hg : WF g) : g.edges.Nodup := by
  refine nodup_flatMap_of (k := Prod.fst) (k' := fun e => e.source) hg.outer ?_ ?_
  · rintro ⟨q, d⟩ h
    exact nodup_inner hg (Dict.get?_of_mem hg.outer h)
  · rintro ⟨q, d⟩ _ y hy
    simp only [List.mem_flatMap, List.mem_map] at hy
    obtain ⟨_, _, _, _, rfl⟩ := hy
    rfl

/-! ## Histories -/

/-- Spec: `u q a` says that a transition labelled `a` leaving `q` was added since `q` was last created or removed. -/
def usedStep (g : Nfa A) (u : Nat → A → Prop) : NfaOp A → Nat → A → Prop
  | .addVertex => fun q a => q ≠ g.addVertex.1 ∧ u q a
  | .addEdge q _ a => fun q' a' => u q' a' ∨ (q' = q ∧ a' = a)
  | .removeEdge _ => u
  | .removeVertex v => fun q a => q ≠ v ∧ u q a
  | .setInitial _ _ => u
  | .setInitials _ => u
  | .setFinal _ _ => u
  | .clear => fun _ _ => False

/-- Spec: `v q` says that `q` was returned by `add_vertex` or used as the source of an `add_edge`, and not removed since. -/
def stateStep (g : Nfa A) (v : Nat → Prop) : NfaOp A → Nat → Prop
  | .addVertex => fun q => v q ∨ q = g.addVertex.1
  | .addEdge q _ _ => fun q' => v q' ∨ q' = q
  | .removeEdge _ => v
  | .removeVertex u => fun q => v q ∧ q ≠ u
  | .setInitial _ _ => v
  | .setInitials _ => v
  | .setFinal _ _ => v
  | .clear => fun _ => False

/-- `g` has been obtained by calls to the public API satisfying `P`; `v` are the states and `u` the symbols recorded along the
way. -/
inductive SymHistory (P : Nfa A → NfaOp A → Prop) : Nfa A → (Nat → Prop) → (Nat → A → Prop) → Prop
  | init (eps : A) (qs : List Nat) : SymHistory P (init eps qs 0) (fun _ => False) fun _ _ => False
  | step {g g' : Nfa A} {v : Nat → Prop} {u : Nat → A → Prop} {op : NfaOp A} :
    SymHistory P g v u → P g op → g.exec op = .ok g' → SymHistory P g' (stateStep g v op) (usedStep g u op)

theorem symHistory {P : Nfa A → NfaOp A → Prop} {g : Nfa A} {v : Nat → Prop} {u : Nat → A → Prop} (h : SymHistory P g v u) :
    WF g ∧ (∀ q, q ∈ g.vertices ↔ v q) ∧ ∀ q a, a ∈ g.syms q ↔ u q a := by
  induction h with
  | init eps qs => exact ⟨WF_init eps qs 0, fun q => by simp [vertices, Nfa.init, Dict.keys], fun q a => by simp [syms, Nfa.init, Dict.keys, Dict.getD]⟩
  | @step g g' v u op h _ hop ih =>
    obtain ⟨hw, hv, hu⟩ := ih
    refine ⟨WF_exec hw hop, fun q => ?_, fun q a => ?_⟩
    · cases op with
      | addVertex => cases hop; simp only [vertices, Nfa.addVertex, stateStep, Dict.mem_keys_set]; rw [← hv, vertices]; tauto
      | addEdge p r b => cases hop; simp only [vertices, Nfa.addEdge, stateStep, Dict.mem_keys_set]; rw [← hv, vertices]; tauto
      | removeEdge e => cases hop; rw [(removeEdge_keeps g e).1]; exact hv q
      | removeVertex w =>
        have hm : w ∈ g.vertices := by
          by_contra hn
          unfold exec removeVertex at hop
          simp only at hop
          obtain ⟨adj, h1, h2⟩ := except_bind_ok.1 hop
          rw [Dict.delE_ok_iff] at h1
          have := h1.1
          have hk := (foldl_removeEdge_keeps (((g.edges.filter fun e => w = e.target).foldl Nfa.removeEdge g).outEdges w)
            ((g.edges.filter fun e => w = e.target).foldl Nfa.removeEdge g)).1
          have hk' := (foldl_removeEdge_keeps (g.edges.filter fun e => w = e.target) g).1
          exact hn (hk' ▸ hk ▸ this)
        obtain ⟨g1, h1, _, h3, _⟩ := removeVertex_keeps hw hm
        have : g' = g1 := by have := hop.symm.trans h1; cases this; rfl
        subst this
        rw [h3, List.mem_filter, hv]
        simp [stateStep]
      | setInitial _ _ => cases hop; exact hv q
      | setInitials _ => cases hop; exact hv q
      | setFinal _ _ => cases hop; exact hv q
      | clear =>
        simp only [exec] at hop
        rw [clear_spec hw] at hop; cases hop
        simp [vertices, stateStep, Dict.keys]
    · cases op with
      | addVertex =>
        cases hop
        rw [syms_addVertex, usedStep]
        split
        · rename_i h; simp [h]
        · rename_i h; rw [hu]; simp [h]
      | addEdge p r b => cases hop; rw [mem_syms_addEdge, hu]; rfl
      | removeEdge e => cases hop; rw [syms_removeEdge, hu]; rfl
      | removeVertex w =>
        rw [syms_removeVertex hw hop, usedStep]
        split
        · rename_i h; simp [h]
        · rename_i h; rw [hu]; simp [h]
      | setInitial _ _ => cases hop; exact hu q a
      | setInitials _ => cases hop; exact hu q a
      | setFinal _ _ => cases hop; exact hu q a
      | clear =>
        simp only [exec] at hop
        rw [clear_spec hw] at hop; cases hop
        simp [syms, usedStep, Dict.keys, Dict.getD]

end Nfa
end PyBGL
