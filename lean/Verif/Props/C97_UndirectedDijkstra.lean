import Verif.Props.C60_C64_Dijkstra
import Verif.Props.C96_Undirected

/-!
# C97: Dijkstra's algorithm on an `UndirectedGraph`
-/

namespace PyBGL
open Dijkstra

/-- Specification: `p` is a chain of edges of `es` from `u` to `v`, each followed in either direction. -/
inductive UPath (es : List (EdgeDesc Nat)) (u : Nat) : List (EdgeDesc Nat) → Nat → Prop
  | nil : UPath es u [] u
  | forth {p : List (EdgeDesc Nat)} {e : EdgeDesc Nat} : UPath es u p e.source → e ∈ es → UPath es u (p ++ [e]) e.target
  | back {p : List (EdgeDesc Nat)} {e : EdgeDesc Nat} : UPath es u p e.target → e ∈ es → UPath es u (p ++ [e]) e.source

/-- The edge seen from its other end. -/
def EdgeDesc.flip (e : EdgeDesc Nat) : EdgeDesc Nat := ⟨e.target, e.source, e.distinguisher⟩

namespace UGraph

theorem sums_iff {g : Graph} {l : GLog} (h : History UGraph.exec .empty g l) {weight : EdgeDesc Nat → Int}
    (hw : ∀ e ∈ liveUEdges l, weight e.flip = weight e) (s v : Nat) (d : Int) :
    (∃ p, IsPath (toI g) s p v ∧ (p.map weight).sum = d) ↔ ∃ p, UPath (liveUEdges l) s p v ∧ (p.map weight).sum = d := by
  constructor
  · rintro ⟨p, hp, rfl⟩
    induction p using List.reverseRecOn generalizing v with
    | nil => cases hp; exact ⟨[], .nil, rfl⟩
    | append_singleton p e ih =>
      obtain ⟨m, h1, h2⟩ := isPath_append_iff.1 hp
      cases h2 with
      | cons he h3 =>
        cases h3
        obtain ⟨q, h4, h5⟩ := ih m h1
        obtain ⟨h6, h7⟩ := (mem_out h _ _).1 he
        rcases h7 with h7 | h7
        · exact ⟨q ++ [e], .forth (h6 ▸ h4) h7, by simp [h5]⟩
        · have h8 : UPath (liveUEdges l) s q e.flip.target := by
            have : e.flip.target = m := h6
            rw [this]; exact h4
          refine ⟨q ++ [e.flip], .back h8 h7, ?_⟩
          have := hw _ h7
          simp [h5, ← this, EdgeDesc.flip]
  · rintro ⟨p, hp, rfl⟩
    induction hp with
    | nil => exact ⟨[], .nil _, rfl⟩
    | @forth p e _ he ih =>
      obtain ⟨q, h1, h2⟩ := ih
      exact ⟨q ++ [e], h1.snoc ((mem_out h _ _).2 ⟨rfl, Or.inl he⟩), by simp [h2]⟩
    | @back p e _ he ih =>
      obtain ⟨q, h1, h2⟩ := ih
      exact ⟨q ++ [e.flip], h1.snoc (e := e.flip) ((mem_out h _ _).2 ⟨rfl, Or.inr he⟩), by simp [h2, hw e he]⟩

end UGraph

theorem UPath.append {es : List (EdgeDesc Nat)} {u v w : Nat} {p q : List (EdgeDesc Nat)} (hp : UPath es u p v) (hq : UPath es v q w) :
    UPath es u (p ++ q) w := by
  induction hq with
  | nil => simpa using hp
  | forth _ he ih => rw [← List.append_assoc]; exact .forth ih he
  | back _ he ih => rw [← List.append_assoc]; exact .back ih he

theorem UPath.reverse {es : List (EdgeDesc Nat)} {u v : Nat} {p : List (EdgeDesc Nat)} (hp : UPath es u p v) : UPath es v p.reverse u := by
  induction hp with
  | nil => exact .nil
  | @forth p e _ he ih => rw [List.reverse_append]; exact (UPath.back (p := []) .nil he).append ih
  | @back p e _ he ih => rw [List.reverse_append]; exact (UPath.forth (p := []) .nil he).append ih

/-- **C97**, full statement: with non-negative weights given to the edges, that is to the descriptors returned by `add_edge` and listed by `edges()`,
the distance computed is the least weight of a chain of edges from `s` to `v`. -/
def C97_statement : Prop :=
  ∀ (g : Graph) (l : GLog) (s : Nat) (weight : EdgeDesc Nat → Int), History UGraph.exec .empty g l → s ∈ g.vertices →
    (∀ e ∈ liveUEdges l, 0 ≤ weight e) → (∀ e, 0 ≤ weight e) →
    ∃ st, Returns (dijkstra (argsDefault weight 0) (UGraph.toI g) s (fun _ => false) [] []) (.ok (false, st)) ∧
      ∀ v ∈ g.vertices, IsBest less INFINITY (fun d => ∃ p, UPath (liveUEdges l) s p v ∧ (p.map weight).sum = d) (st.dist.getD v 0)

/-- **C97, partial** (missing: weights given only to the descriptors listed by `edges()`): if each edge has the same non-negative weight seen from its
two ends, the distances are the least weights of the chains of edges from `s`. -/
theorem C97_distances_partial {g : Graph} {l : GLog} (h : History UGraph.exec .empty g l) {s : Nat} (hs : s ∈ g.vertices) {weight : EdgeDesc Nat → Int}
    (h0 : ∀ e ∈ liveUEdges l, 0 ≤ weight e) (hw : ∀ e ∈ liveUEdges l, weight e.flip = weight e) :
    ∃ st, Returns (dijkstra (argsDefault weight 0) (UGraph.toI g) s (fun _ => false) [] []) (.ok (false, st)) ∧
      ∀ v ∈ g.vertices, IsBest less INFINITY (fun d => ∃ p, UPath (liveUEdges l) s p v ∧ (p.map weight).sum = d) (st.dist.getD v 0) := by
  obtain ⟨st, h1, h2⟩ := C60_distances (g := UGraph.toI g) (weight := weight) (dflt := 0) (UGraph.closed h) hs (by
    intro u _ e he
    rcases ((UGraph.mem_out h _ _).1 he).2 with h1 | h1
    · exact h0 e h1
    · have := hw _ h1
      have h3 := h0 _ h1
      rw [← this] at h3
      exact h3) [] [] (fun _ => rfl)
  refine ⟨st, h1, fun v hv => ?_⟩
  have := h2 v hv
  simpa only [UGraph.sums_iff h hw] using this

/-- **C97, partial** (same hypotheses): the distances are symmetric. -/
theorem C97_symmetric_partial {g : Graph} {l : GLog} (h : History UGraph.exec .empty g l) {s t : Nat} (hs : s ∈ g.vertices) (ht : t ∈ g.vertices)
    {weight : EdgeDesc Nat → Int} (h0 : ∀ e ∈ liveUEdges l, 0 ≤ weight e) (hw : ∀ e ∈ liveUEdges l, weight e.flip = weight e) :
    ∃ st st', Returns (dijkstra (argsDefault weight 0) (UGraph.toI g) s (fun _ => false) [] []) (.ok (false, st)) ∧
      Returns (dijkstra (argsDefault weight 0) (UGraph.toI g) t (fun _ => false) [] []) (.ok (false, st')) ∧
      st.dist.getD t 0 = st'.dist.getD s 0 := by
  obtain ⟨st, h1, h2⟩ := C97_distances_partial h hs h0 hw
  obtain ⟨st', h1', h2'⟩ := C97_distances_partial h ht h0 hw
  refine ⟨st, st', h1, h1', ?_⟩
  have a := h2 t ht
  have b := h2' s hs
  have flip : ∀ x y d, (∃ p, UPath (liveUEdges l) x p y ∧ (p.map weight).sum = d) → ∃ p, UPath (liveUEdges l) y p x ∧ (p.map weight).sum = d := by
    rintro x y d ⟨p, hp, rfl⟩
    exact ⟨p.reverse, hp.reverse, by simp⟩
  simp only [IsBest, less, decide_eq_true_eq, decide_eq_false_iff_not] at a b
  rcases a with ⟨a1, a2, a3⟩ | ⟨a1, a2⟩ <;> rcases b with ⟨b1, b2, b3⟩ | ⟨b1, b2⟩
  · have := a3 _ (flip _ _ _ b1)
    have := b3 _ (flip _ _ _ a1)
    omega
  · exact absurd a2 (b2 _ (flip _ _ _ a1))
  · exact absurd b2 (a2 _ (flip _ _ _ b1))
  · omega

/-- Specification: `d` is the weight of a chain of edges of `es` from `u` to `v`, where an edge followed backwards counts for the weight of its
descriptor with the ends swapped. -/
inductive UWeight (es : List (EdgeDesc Nat)) (weight : EdgeDesc Nat → Int) (u : Nat) : Nat → Int → Prop
  | nil : UWeight es weight u u 0
  | forth {d : Int} {e : EdgeDesc Nat} : UWeight es weight u e.source d → e ∈ es → UWeight es weight u e.target (d + weight e)
  | back {d : Int} {e : EdgeDesc Nat} : UWeight es weight u e.target d → e ∈ es →
      UWeight es weight u e.source (d + weight ⟨e.target, e.source, e.distinguisher⟩)

/-- **C97, exact**: whatever the non-negative weights given to the descriptors, the distance computed is the least weight of a chain of edges from `s` to `v`,
an edge followed from its greater end to its smaller one counting for the weight of its descriptor with the ends swapped. -/
theorem C97_distances_exact {g : Graph} {l : GLog} (h : History UGraph.exec .empty g l) {s : Nat} (hs : s ∈ g.vertices) {weight : EdgeDesc Nat → Int}
    (h0 : ∀ e ∈ liveUEdges l, 0 ≤ weight e ∧ 0 ≤ weight ⟨e.target, e.source, e.distinguisher⟩) :
    ∃ st, Returns (dijkstra (argsDefault weight 0) (UGraph.toI g) s (fun _ => false) [] []) (.ok (false, st)) ∧
      ∀ v ∈ g.vertices, IsBest less INFINITY (UWeight (liveUEdges l) weight s v) (st.dist.getD v 0) := by
  obtain ⟨st, h1, h2⟩ := C60_distances (g := UGraph.toI g) (weight := weight) (dflt := 0) (UGraph.closed h) hs (by
    intro u _ e he
    rcases ((UGraph.mem_out h _ _).1 he).2 with h1 | h1
    · exact (h0 e h1).1
    · exact (h0 _ h1).2) [] [] (fun _ => rfl)
  refine ⟨st, h1, fun v hv => ?_⟩
  have key : (fun d => ∃ p, IsPath (UGraph.toI g) s p v ∧ (p.map weight).sum = d) = UWeight (liveUEdges l) weight s v := by
    funext d
    apply propext
    constructor
    · rintro ⟨p, hp, rfl⟩
      clear h2 hv
      induction p using List.reverseRecOn generalizing v with
      | nil => cases hp; exact .nil
      | append_singleton p e ih =>
        obtain ⟨m, k1, k2⟩ := isPath_append_iff.1 hp
        cases k2 with
        | cons he k3 =>
          cases k3
          have k4 := ih m k1
          obtain ⟨k6, k7⟩ := (UGraph.mem_out h _ _).1 he
          have hsum : ((p ++ [e]).map weight).sum = (p.map weight).sum + weight e := by simp
          rw [hsum]
          rcases k7 with k7 | k7
          · exact .forth (k6 ▸ k4) k7
          · obtain ⟨a, b, c⟩ := e
            subst k6
            exact UWeight.back (e := ⟨b, a, c⟩) k4 k7
    · intro hd
      clear h2 hv
      induction hd with
      | nil => exact ⟨[], .nil _, rfl⟩
      | @forth d e _ he ih =>
        obtain ⟨q, k1, k2⟩ := ih
        exact ⟨q ++ [e], k1.snoc ((UGraph.mem_out h _ _).2 ⟨rfl, Or.inl he⟩), by simp [k2]⟩
      | @back d e _ he ih =>
        obtain ⟨q, k1, k2⟩ := ih
        exact ⟨q ++ [e.flip], k1.snoc (e := e.flip) ((UGraph.mem_out h _ _).2 ⟨rfl, Or.inr he⟩), by simp [k2, EdgeDesc.flip]⟩
  rw [← key]
  exact h2 v hv

/-- A weight known only for the descriptor returned by `add_edge`, as in a `defaultdict(int)` filled with `weights[e] = 5`. -/
def exOneWay (e : EdgeDesc Nat) : Int := if e = ⟨0, 1, 0⟩ then 5 else 0

/-- **C97 is false of the code**: `out_edges(1)` yields the edge seen from its end 1, a descriptor to which no weight was given. -/
theorem C97_counterexample : ¬ C97_statement := by
  intro hst
  have h1 := History.start (exec := UGraph.exec) (s0 := .empty)
  have h2 := h1.call (op := .addVertex) rfl
  have h3 := h2.call (op := .addVertex) rfl
  have h4 := h3.call (op := .addEdge 0 1) rfl
  have hpos : ∀ e, 0 ≤ exOneWay e := by intro e; unfold exOneWay; split <;> decide
  obtain ⟨st, hr, hd⟩ := hst _ _ 1 exOneWay h4 (by decide) (fun e _ => hpos e) hpos
  obtain ⟨st', hr', hd'⟩ := C60_distances (g := UGraph.toI _) (weight := exOneWay) (dflt := 0) (UGraph.closed h4) (s := 1) (by decide)
    (fun _ _ e _ => hpos e) [] [] (fun _ => rfl)
  have he := returns_unique hr hr'
  simp only [Except.ok.injEq, Prod.mk.injEq, true_and] at he
  subst he
  have a := hd 0 (by decide)
  have b := hd' 0 (by decide)
  have hb : st.dist.getD 0 0 ≤ 0 := by
    have hp : ∃ p, IsPath (UGraph.toI _) 1 p 0 ∧ (p.map exOneWay).sum = 0 :=
      ⟨[⟨1, 0, 0⟩], .cons ((UGraph.mem_out h4 _ _).2 ⟨rfl, Or.inr (by decide)⟩) (.nil _), by decide⟩
    rcases b with ⟨-, -, b3⟩ | ⟨b1, b2⟩
    · have := b3 _ hp
      simp only [less, decide_eq_false_iff_not] at this
      omega
    · exact absurd (b2 _ hp) (by decide)
  have low : ∀ p v, UPath (liveUEdges [(GOp.addEdge 0 1, GOut.edge ⟨0, 1, 0⟩), (.addVertex, .vertex 1), (.addVertex, .vertex 0)]) 1 p v →
      (p.map exOneWay).sum = 5 * p.length ∧ (v = 0 → p ≠ []) := by
    intro p v hp
    induction hp with
    | nil => simp
    | @forth p e _ he ih =>
      simp [liveUEdges] at he
      subst he
      simp [ih.1, exOneWay]; omega
    | @back p e _ he ih =>
      simp [liveUEdges] at he
      subst he
      simp [ih.1, exOneWay]; omega
  rcases a with ⟨⟨p, a1, a2⟩, -, -⟩ | ⟨a1, a2⟩
  · obtain ⟨k1, k2⟩ := low p 0 a1
    have := List.length_pos_iff.2 (k2 rfl)
    omega
  · rw [a1] at hb
    exact absurd hb (by decide)

/-- Non-vacuity of the exact theorem: two vertices joined by an edge whose weight is given one way only. -/
example : ∃ g l, History UGraph.exec .empty g l ∧ 1 ∈ g.vertices ∧ 0 ∈ g.vertices ∧ UWeight (liveUEdges l) exOneWay 1 0 0 ∧ UWeight (liveUEdges l) exOneWay 0 1 5 ∧
    ∀ e ∈ liveUEdges l, 0 ≤ exOneWay e ∧ 0 ≤ exOneWay ⟨e.target, e.source, e.distinguisher⟩ := by
  have h1 := History.start (exec := UGraph.exec) (s0 := .empty)
  have h2 := h1.call (op := .addVertex) rfl
  have h3 := h2.call (op := .addVertex) rfl
  have h4 := h3.call (op := .addEdge 0 1) rfl
  exact ⟨_, _, h4, by decide, by decide, UWeight.back (e := ⟨0, 1, 0⟩) .nil (by decide), UWeight.forth (e := ⟨0, 1, 0⟩) .nil (by decide), by
    intro e _; unfold exOneWay; constructor <;> split <;> decide⟩

/-- Non-vacuity: two vertices joined by an edge of weight 5 seen from both ends. -/
example : ∃ g l, History UGraph.exec .empty g l ∧ 0 ∈ g.vertices ∧ 1 ∈ g.vertices ∧
    (∀ e ∈ liveUEdges l, 0 ≤ (fun _ => (5 : Int)) e) ∧ ∀ e ∈ liveUEdges l, (fun _ => (5 : Int)) e.flip = (fun _ => (5 : Int)) e := by
  have h1 := History.start (exec := UGraph.exec) (s0 := .empty)
  have h2 := h1.call (op := .addVertex) rfl
  have h3 := h2.call (op := .addVertex) rfl
  have h4 := h3.call (op := .addEdge 0 1) rfl
  exact ⟨_, _, h4, by decide, by decide, by simp, by simp⟩

end PyBGL
