import Verif.Spec.NfaObjects
import Verif.Proofs.PyLemmas
import Verif.Proofs.PyM
import Mathlib.Data.List.Forall2
import Mathlib.Order.Basic

/-! # Shared sets of numbers: the automaton with objects behaves as the automaton with values -/

set_option linter.unusedSectionVars false

namespace PyBGL

namespace Dict
variable {K V W : Type} [DecidableEq K]

/-- The values replaced by their images. -/
def mapV (f : V → W) (d : Dict K V) : Dict K W := d.map fun p => (p.1, f p.2)

theorem keys_mapV (f : V → W) (d : Dict K V) : (d.mapV f).keys = d.keys := by simp [mapV, keys]

theorem get?_mapV (f : V → W) (d : Dict K V) (k : K) : (d.mapV f).get? k = (d.get? k).map f := by
  induction d with
  | nil => rfl
  | cons p d ih =>
    obtain ⟨k', v⟩ := p
    show get? ((k', f v) :: mapV f d) k = _
    simp only [get?_cons, ih]
    split <;> rfl

theorem set_mapV (f : V → W) (d : Dict K V) (k : K) (v : V) : (d.set k v).mapV f = (d.mapV f).set k (f v) := by
  induction d with
  | nil => rfl
  | cons p d ih =>
    obtain ⟨k', v'⟩ := p
    show _ = set ((k', f v') :: mapV f d) k (f v)
    simp only [set]
    split
    · rfl
    · show (k', f v') :: mapV f (set d k v) = _
      rw [ih]

theorem erase_mapV (f : V → W) (d : Dict K V) (k : K) : (d.erase k).mapV f = (d.mapV f).erase k := by
  induction d with
  | nil => rfl
  | cons p d ih =>
    obtain ⟨k', v'⟩ := p
    show _ = erase ((k', f v') :: mapV f d) k
    simp only [erase]
    split
    · rfl
    · show (k', f v') :: mapV f (erase d k) = _
      rw [ih]

theorem contains_mapV (f : V → W) (d : Dict K V) (k : K) : (d.mapV f).contains k = d.contains k := by
  simp [contains, get?_mapV]

theorem mapV_congr {f f' : V → W} {d : Dict K V} (h : ∀ k v, (k, v) ∈ d → f v = f' v) : d.mapV f = d.mapV f' :=
  List.map_congr_left fun p hp => by rw [h p.1 p.2 hp]

/-- Changing the image of the value of one key. -/
theorem mapV_update {f f' : V → W} {d : Dict K V} (hd : NodupKeys d) {k : K} {v : V} (hk : d.get? k = some v)
    (h : ∀ k' v', k' ≠ k → d.get? k' = some v' → f' v' = f v') : d.mapV f' = (d.mapV f).set k (f' v) := by
  induction d with
  | nil => simp at hk
  | cons p d ih =>
    obtain ⟨k1, v1⟩ := p
    obtain ⟨hn, hd'⟩ := List.nodup_cons.1 hd
    show (k1, f' v1) :: mapV f' d = set ((k1, f v1) :: mapV f d) k (f' v)
    simp only [set]
    by_cases hkk : k1 = k
    · subst hkk
      simp only [get?_cons, if_true, Option.some.injEq] at hk
      subst hk
      rw [if_pos rfl]
      congr 1
      refine mapV_congr fun k' v' hm => h k' v' ?_ ?_
      · rintro rfl; exact hn (List.mem_map.2 ⟨_, hm, rfl⟩)
      · have hne : k1 ≠ k' := by rintro rfl; exact hn (List.mem_map.2 ⟨_, hm, rfl⟩)
        simp [hne, get?_of_mem hd' hm]
    · rw [if_neg hkk]
      simp only [get?_cons, if_neg hkk] at hk
      have h1 : f' v1 = f v1 := h k1 v1 hkk (by simp)
      rw [h1, ih hd' hk]
      intro k' v' hne hg
      refine h k' v' hne ?_
      have : k1 ≠ k' := by
        rintro rfl
        exact hn (List.mem_map.2 ⟨_, mem_of_get? hg, rfl⟩)
      simp [this, hg]

/-- Writing back the value that is there. -/
theorem set_get? {d : Dict K V} {k : K} {v : V} (hk : d.get? k = some v) : d.set k v = d := by
  induction d with
  | nil => simp at hk
  | cons p d ih =>
    obtain ⟨k', v'⟩ := p
    simp only [get?_cons] at hk
    simp only [set]
    split
    · next h => rw [if_pos h] at hk; cases hk; rfl
    · next h => rw [if_neg h] at hk; rw [ih hk]

end Dict

namespace ONfa
variable {A : Type}

theorem now_adj (g : ONfa A) : g.now.adj = Dict.mapV (Dict.mapV (Dict.mapV g.contents)) g.adj := rfl

theorem edges_now (g : ONfa A) : g.now.edges = g.edges.map g.shows := by
  simp only [Nfa.edges, edges, now, List.flatMap_map, List.map_flatMap, List.map_map]
  rfl

variable [DecidableEq A]

theorem outEdges_now (g : ONfa A) (q : Nat) : g.now.outEdges q = (g.outEdges q).map g.shows := by
  simp only [Nfa.outEdges, outEdges, now_adj, Dict.getD, Dict.get?_mapV]
  cases g.adj.get? q with
  | none => rfl
  | some d =>
    simp only [Option.map_some, Option.getD_some, Dict.mapV, List.flatMap_map, List.map_flatMap, List.map_map]
    rfl

/-- The reference stored for a transition. -/
def look (g : ONfa A) (q : Nat) (a : A) (r : Nat) : Option Nat := ((g.adj.get? q).bind (·.get? a)).bind (·.get? r)

/-- No key occurs twice. -/
structure Keys (g : ONfa A) : Prop where
  outer : Dict.NodupKeys g.adj
  mid : ∀ q d, g.adj.get? q = some d → Dict.NodupKeys d
  inner : ∀ q d a t, g.adj.get? q = some d → d.get? a = some t → Dict.NodupKeys t

/-- Two transitions never share a set; a set holds the numbers from 1. -/
structure Good (g : ONfa A) : Prop extends Keys g where
  inj : ∀ {q a r q' a' r' i}, g.look q a r = some i → g.look q' a' r' = some i → q = q' ∧ a = a' ∧ r = r'
  bound : ∀ {q a r i}, g.look q a r = some i → i < g.sets.length
  nums : ∀ i, i < g.sets.length → ∃ k, g.contents i = List.range' 1 (k + 1)

/-- References are only deleted. -/
structure Shrinks (g g' : ONfa A) : Prop where
  sets : g'.sets = g.sets
  look : ∀ {q a r i}, g'.look q a r = some i → g.look q a r = some i
  keys : Keys g → Keys g'

/-- What can happen to the sets. -/
structure Evolves (g g' : ONfa A) : Prop where
  length : g.sets.length ≤ g'.sets.length
  grow : ∀ i, i < g.sets.length → g.contents i <+: g'.contents i
  look : ∀ {q a r i}, g'.look q a r = some i → g.look q a r = some i ∨ g.sets.length ≤ i
  frozen : ∀ i, i < g.sets.length → (∀ q a r, g.look q a r ≠ some i) → g'.contents i = g.contents i

theorem Shrinks.refl (g : ONfa A) : Shrinks g g := ⟨rfl, id, id⟩
theorem Shrinks.trans {g g' g'' : ONfa A} (h : Shrinks g g') (h' : Shrinks g' g'') : Shrinks g g'' :=
  ⟨h'.sets.trans h.sets, fun hl => h.look (h'.look hl), fun hk => h'.keys (h.keys hk)⟩

theorem Evolves.refl (g : ONfa A) : Evolves g g := ⟨Nat.le_refl _, fun _ _ => List.prefix_rfl, fun h => .inl h, fun _ _ _ => rfl⟩

theorem Evolves.trans {g g' g'' : ONfa A} (h : Evolves g g') (h' : Evolves g' g'') : Evolves g g'' where
  length := Nat.le_trans h.length h'.length
  grow i hi := (h.grow i hi).trans (h'.grow i (Nat.lt_of_lt_of_le hi h.length))
  look hl := by
    rcases h'.look hl with h1 | h1
    · exact h.look h1
    · exact .inr (Nat.le_trans h.length h1)
  frozen i hi hn := by
    rw [h'.frozen i (Nat.lt_of_lt_of_le hi h.length), h.frozen i hi hn]
    intro q a r hl
    rcases h.look hl with h1 | h1
    · exact hn q a r h1
    · omega

theorem Shrinks.evolves {g g' : ONfa A} (h : Shrinks g g') : Evolves g g' where
  length := by rw [h.sets]; exact Nat.le_refl _
  grow i _ := by rw [contents, contents, h.sets]; exact List.prefix_rfl
  look hl := .inl (h.look hl)
  frozen i _ _ := by rw [contents, contents, h.sets]

theorem Shrinks.good {g g' : ONfa A} (h : Shrinks g g') (hg : Good g) : Good g' where
  toKeys := h.keys hg.toKeys
  inj h1 h2 := hg.inj (h.look h1) (h.look h2)
  bound h1 := by rw [h.sets]; exact hg.bound (h.look h1)
  nums i hi := by
    rw [h.sets] at hi
    rw [contents, h.sets]
    exact hg.nums i hi

/-! ## Descriptors and references -/

theorem mem_outEdges {g : ONfa A} (hg : Keys g) (q : Nat) (e : EdgeDesc (A × Nat)) :
    e ∈ g.outEdges q ↔ e.source = q ∧ g.look q e.distinguisher.1 e.target = some e.distinguisher.2 := by
  obtain ⟨q', r, a, s⟩ := e
  simp only [outEdges, List.mem_flatMap, List.mem_map, Dict.getD]
  cases hd : g.adj.get? q with
  | none => simp [look, hd]
  | some d =>
    simp only [Option.getD_some, look, hd, Option.bind_some]
    constructor
    · rintro ⟨⟨a', rn⟩, h1, ⟨r', s'⟩, h2, h3⟩
      cases h3
      have h1' := Dict.get?_of_mem (hg.mid _ _ hd) h1
      have h2' := Dict.get?_of_mem (hg.inner _ _ _ _ hd h1') h2
      exact ⟨rfl, by simp [h1', h2']⟩
    · rintro ⟨h0, h⟩
      cases h0
      cases h1 : d.get? a with
      | none => simp [h1] at h
      | some rn =>
        simp only [h1, Option.bind_some] at h
        exact ⟨(a, rn), Dict.mem_of_get? h1, (r, s), Dict.mem_of_get? h, rfl⟩

theorem mem_edges {g : ONfa A} (hg : Keys g) (e : EdgeDesc (A × Nat)) :
    e ∈ g.edges ↔ g.look e.source e.distinguisher.1 e.target = some e.distinguisher.2 := by
  obtain ⟨q, r, a, s⟩ := e
  have := mem_outEdges hg q ⟨q, r, a, s⟩
  simp only [true_and] at this
  rw [← this]
  simp only [edges, outEdges, List.mem_flatMap, List.mem_map, Dict.getD]
  constructor
  · rintro ⟨⟨q', arn⟩, h1, t, h2, x, h3, h4⟩
    cases h4
    rw [Dict.get?_of_mem hg.outer h1]
    exact ⟨t, h2, x, h3, rfl⟩
  · rintro ⟨t, h2, x, h3, h4⟩
    cases hd : g.adj.get? q with
    | none => simp [hd] at h2
    | some arn =>
      rw [hd] at h2
      exact ⟨(q, arn), Dict.mem_of_get? hd, t, h2, x, h3, h4⟩

/-! ## Updates of the dictionaries -/

theorem keys_setTriple {g : ONfa A} (hg : Keys g) (q : Nat) (a : A) {t : Dict Nat Nat} (ht : Dict.NodupKeys t) {d : Dict A (Dict Nat Nat)} (hd : Dict.NodupKeys d)
    (hin : ∀ a' t', d.get? a' = some t' → Dict.NodupKeys t') (sets : List (List Nat)) : Keys { g with adj := g.adj.set q (d.set a t), sets := sets } where
  outer := Dict.nodupKeys_set hg.outer _ _
  mid q' d' h := by
    rw [Dict.get?_set] at h
    split at h
    · cases h; exact Dict.nodupKeys_set hd _ _
    · exact hg.mid q' d' h
  inner q' d' a' t' h h' := by
    rw [Dict.get?_set] at h
    split at h
    · cases h
      rw [Dict.get?_set] at h'
      split at h'
      · cases h'; exact ht
      · exact hin a' t' h'
    · exact hg.inner q' d' a' t' h h'

theorem shrinks_removeEdge {N : Type} (e : EdgeDesc (A × N)) (g : ONfa A) (hg : Keys g) : Shrinks g (removeEdge e g).2 := by
  unfold removeEdge
  split
  · exact .refl g
  · next d hd =>
    split
    · exact .refl g
    · next t ht =>
      split
      · refine ⟨rfl, ?_, fun _ => keys_setTriple hg _ _ (Dict.nodupKeys_erase (hg.inner _ _ _ _ hd ht) _) (hg.mid _ _ hd) (fun a' t' h => hg.inner _ _ a' t' hd h) g.sets⟩
        intro q a r i hl
        simp only [look, Dict.get?_set] at hl ⊢
        by_cases hq : e.source = q
        · subst hq
          rw [if_pos rfl] at hl
          rw [hd]
          simp only [Option.bind_some, Dict.get?_set] at hl ⊢
          by_cases ha : e.distinguisher.1 = a
          · subst ha
            rw [if_pos rfl] at hl
            rw [ht]
            simp only [Option.bind_some] at hl ⊢
            rw [Dict.get?_erase (hg.inner _ _ _ _ hd ht)] at hl
            split at hl
            · cases hl
            · exact hl
          · rw [if_neg ha] at hl; exact hl
        · rw [if_neg hq] at hl; exact hl
      · exact .refl g

theorem removeEdge_ok {N : Type} (e : EdgeDesc (A × N)) (g : ONfa A) : (removeEdge e g).1 = .ok () := by
  unfold removeEdge
  repeat' split
  all_goals rfl

theorem now_removeEdge {N : Type} (e : EdgeDesc (A × N)) (g : ONfa A) : (removeEdge e g).2.now = g.now.removeEdge e := by
  unfold removeEdge Nfa.removeEdge
  rw [now_adj, Dict.get?_mapV]
  cases hd : g.adj.get? e.source with
  | none => rfl
  | some d =>
    simp only [Option.map_some, Dict.get?_mapV]
    cases ht : d.get? e.distinguisher.1 with
    | none => rfl
    | some t =>
      simp only [Option.map_some, Dict.contains_mapV]
      split
      · rw [← Dict.erase_mapV, ← Dict.set_mapV, ← Dict.set_mapV]; rfl
      · rfl

/-! ## Methods that only delete references -/

/-- The method does to the objects what `m'` does to the values, and only deletes references. -/
def Follows (m : PyM (ONfa A) Unit) (m' : PyM (Nfa A) Unit) : Prop :=
  ∀ g, Keys g → (m g).1 = (m' g.now).1 ∧ (m g).2.now = (m' g.now).2 ∧ Shrinks g (m g).2

theorem follows_removeEdge {N M : Type} (e : EdgeDesc (A × N)) (e' : EdgeDesc (A × M)) (h : e.source = e'.source ∧ e.target = e'.target ∧ e.distinguisher.1 = e'.distinguisher.1) :
    Follows (removeEdge e) (Nfa.removeEdgeM e') := by
  intro g hg
  refine ⟨removeEdge_ok e g, ?_, shrinks_removeEdge e g hg⟩
  rw [now_removeEdge]
  show _ = g.now.removeEdge e'
  unfold Nfa.removeEdge
  rw [h.1, h.2.1, h.2.2]

theorem follows_each {X Y : Type} {m : X → PyM (ONfa A) Unit} {m' : Y → PyM (Nfa A) Unit} : ∀ {l : List X} {l' : List Y},
    List.Forall₂ (fun x y => Follows (m x) (m' y)) l l' → Follows (PyM.each m l) (PyM.each m' l')
  | _, _, .nil => fun g _ => ⟨rfl, rfl, .refl g⟩
  | x :: l, y :: l', .cons h hl => by
    intro g hg
    obtain ⟨h1, h2, h3⟩ := h g hg
    show (PyM.bind (m x) _ g).1 = (PyM.bind (m' y) _ g.now).1 ∧ (PyM.bind (m x) _ g).2.now = (PyM.bind (m' y) _ g.now).2 ∧ Shrinks g (PyM.bind (m x) _ g).2
    simp only [PyM.bind]
    rcases hm : m x g with ⟨o, g1⟩
    rcases hm' : m' y g.now with ⟨o', n1⟩
    rw [hm, hm'] at h1 h2
    rw [hm] at h3
    dsimp only at h1 h2 h3
    subst h1 h2
    cases o with
    | error e => exact ⟨rfl, rfl, h3⟩
    | ok u =>
      obtain ⟨k1, k2, k3⟩ := follows_each hl g1 (h3.keys hg)
      exact ⟨k1, k2, h3.trans k3⟩

theorem follows_shows (g : ONfa A) (l : List (EdgeDesc (A × Nat))) :
    Follows (PyM.each removeEdge l) (PyM.each Nfa.removeEdgeM (l.map g.shows)) := by
  refine follows_each ?_
  rw [List.forall₂_map_right_iff]
  exact List.forall₂_same.2 fun e _ => follows_removeEdge e _ ⟨rfl, rfl, rfl⟩

theorem follows_bind {m : PyM (ONfa A) Unit} {m' : PyM (Nfa A) Unit} {f : Unit → PyM (ONfa A) Unit} {f' : Unit → PyM (Nfa A) Unit} (h : Follows m m')
    (hf : Follows (f ()) (f' ())) : Follows (m >>= f) (m' >>= f') := by
  intro g hg
  obtain ⟨h1, h2, h3⟩ := h g hg
  show (PyM.bind m _ g).1 = (PyM.bind m' _ g.now).1 ∧ (PyM.bind m _ g).2.now = (PyM.bind m' _ g.now).2 ∧ Shrinks g (PyM.bind m _ g).2
  simp only [PyM.bind]
  rcases hm : m g with ⟨o, g1⟩
  rcases hm' : m' g.now with ⟨o', n1⟩
  rw [hm, hm'] at h1 h2
  rw [hm] at h3
  dsimp only at h1 h2 h3
  subst h1 h2
  cases o with
  | error e => exact ⟨rfl, rfl, h3⟩
  | ok u =>
    obtain ⟨k1, k2, k3⟩ := hf g1 (h3.keys hg)
    exact ⟨k1, k2, h3.trans k3⟩

/-- A method that first looks at the automaton. -/
theorem follows_get {f : ONfa A → PyM (ONfa A) Unit} {f' : Nfa A → PyM (Nfa A) Unit} (h : ∀ g, Follows (f g) (f' g.now)) :
    Follows (PyM.get >>= f) (PyM.get >>= f') := fun g hg => h g g hg

theorem follows_del (u : Nat) : Follows (A := A) (do let g ← PyM.get; let adj ← PyM.lift (g.adj.delE u); PyM.put { g with adj })
    (do let g ← PyM.get; let adj ← PyM.lift (g.adj.delE u); PyM.put { g with adj }) := by
  intro g hg
  show (PyM.bind (PyM.lift (g.adj.delE u)) _ g).1 = (PyM.bind (PyM.lift (g.now.adj.delE u)) _ g.now).1 ∧
    (PyM.bind (PyM.lift (g.adj.delE u)) _ g).2.now = (PyM.bind (PyM.lift (g.now.adj.delE u)) _ g.now).2 ∧ Shrinks g (PyM.bind (PyM.lift (g.adj.delE u)) _ g).2
  simp only [PyM.bind, PyM.lift, Dict.delE, now_adj, Dict.contains_mapV]
  by_cases hc : g.adj.contains u
  · simp only [hc, if_true, PyM.put]
    refine ⟨trivial, ?_, rfl, ?_, ?_⟩
    · rw [← Dict.erase_mapV]; rfl
    · intro q a r i hl
      simp only [look, Dict.get?_erase hg.outer] at hl ⊢
      split at hl
      · cases hl
      · exact hl
    · intro _
      refine ⟨Dict.nodupKeys_erase hg.outer u, ?_, ?_⟩
      · intro q d h
        rw [Dict.get?_erase hg.outer] at h
        split at h
        · cases h
        · exact hg.mid q d h
      · intro q d a t h
        rw [Dict.get?_erase hg.outer] at h
        split at h
        · cases h
        · exact hg.inner q d a t h
  · simp only [hc]
    exact ⟨rfl, rfl, .refl g⟩

theorem follows_removeVertex (u : Nat) : Follows (removeVertex (A := A) u) (Nfa.removeVertexM u) := by
  refine follows_get fun g => follows_bind ?_ (follows_get fun g1 => follows_bind ?_ (follows_del u))
  · have : (g.now.edges.filter fun e => u = e.target) = (g.edges.filter fun e => u = e.target).map g.shows := by
      rw [edges_now, List.filter_map]; rfl
    rw [this]
    exact follows_shows g _
  · rw [outEdges_now]
    exact follows_shows g1 _

theorem follows_clear : Follows (clear (A := A)) Nfa.clearM := by
  intro g hg
  have hk : Keys { g with lastVertexId := 0 } := ⟨hg.outer, hg.mid, hg.inner⟩
  have hv : g.now.vertices = g.vertices := by
    show Dict.keys g.now.adj = _
    rw [now_adj, Dict.keys_mapV]; rfl
  obtain ⟨h1, h2, h3⟩ := follows_each (m := removeVertex (A := A)) (m' := Nfa.removeVertexM) (l := g.vertices) (l' := g.now.vertices)
    (by rw [hv]; exact List.forall₂_same.2 fun u _ => follows_removeVertex u) { g with lastVertexId := 0 } hk
  exact ⟨h1, h2, h3.sets, fun hl => h3.look hl, fun _ => h3.keys hk⟩

/-! ## `add_edge` and `add_vertex` -/

theorem look_eq (g : ONfa A) (q : Nat) (a : A) (r : Nat) : g.look q a r = ((g.adj.getD q []).getD a []).get? r := by
  simp only [look, Dict.getD]
  cases g.adj.get? q with
  | none => rfl
  | some d =>
    simp only [Option.bind_some, Option.getD_some]
    cases d.get? a <;> rfl

theorem look_some {g : ONfa A} {q : Nat} {a : A} {r i : Nat} (h : g.look q a r = some i) :
    ∃ d t, g.adj.get? q = some d ∧ d.get? a = some t ∧ t.get? r = some i := by
  unfold look at h
  cases hd : g.adj.get? q with
  | none => rw [hd] at h; cases h
  | some d =>
    rw [hd] at h
    cases ht : d.get? a with
    | none => simp [ht] at h
    | some t => exact ⟨d, t, rfl, ht, by simpa [ht] using h⟩

theorem setAdd_range (k : Nat) : setAdd (List.range' 1 k) (k + 1) = List.range' 1 (k + 1) := by
  unfold setAdd
  rw [if_neg]
  · rw [List.range'_concat]; simp [Nat.add_comm]
  · simp [List.mem_range']; omega

/-- `add_edge` of a transition that is there: its set changes, nothing else. -/
theorem addEdge_old {g : ONfa A} {q r i : Nat} {a : A} (h : g.look q a r = some i) :
    g.addEdge q r a = { g with sets := g.sets.set i (setAdd (g.contents i) ((g.contents i).length + 1)) } := by
  rw [look_eq] at h
  simp only [addEdge, h]

/-- `add_edge` of a transition that is not there: it gets a new set. -/
theorem addEdge_new {g : ONfa A} {q r : Nat} {a : A} (h : g.look q a r = none) :
    g.addEdge q r a = { g with adj := g.adj.set q ((g.adj.getD q []).set a (((g.adj.getD q []).getD a []).set r g.sets.length)), sets := g.sets ++ [[1]] } := by
  rw [look_eq] at h
  simp only [addEdge, h]
  rfl

theorem contents_set (g : ONfa A) (i j : Nat) (s : List Nat) (hi : i < g.sets.length) :
    ({ g with sets := g.sets.set i s } : ONfa A).contents j = if i = j then s else g.contents j := by
  simp only [contents, List.getD_eq_getElem?_getD, List.getElem?_set]
  split
  · next h => subst h; simp [hi]
  · rfl

theorem look_addEdge_new {g : ONfa A} {q r : Nat} {a : A} (h : g.look q a r = none) (q' : Nat) (a' : A) (r' : Nat) :
    (g.addEdge q r a).look q' a' r' = if q = q' ∧ a = a' ∧ r = r' then some g.sets.length else g.look q' a' r' := by
  rw [addEdge_new h]
  rw [look_eq, look_eq]
  simp only [Dict.getD_set]
  by_cases hq : q = q'
  · subst hq
    rw [if_pos rfl, Dict.getD_set]
    by_cases ha : a = a'
    · subst ha
      rw [if_pos rfl, Dict.get?_set]
      simp
    · simp [ha]
  · simp [hq]

theorem keys_getD {g : ONfa A} (hg : Keys g) (q : Nat) : Dict.NodupKeys (g.adj.getD q []) ∧ ∀ a t, (g.adj.getD q []).get? a = some t → Dict.NodupKeys t := by
  simp only [Dict.getD]
  cases hd : g.adj.get? q with
  | none => exact ⟨Dict.nodupKeys_nil, fun a t h => by cases h⟩
  | some d => exact ⟨hg.mid q d hd, fun a t h => hg.inner q d a t hd h⟩

theorem good_addEdge {g : ONfa A} (hg : Good g) (q r : Nat) (a : A) : Good (g.addEdge q r a) := by
  cases h : g.look q a r with
  | some i =>
    have hi := hg.bound h
    rw [addEdge_old h]
    refine ⟨⟨hg.outer, hg.mid, hg.inner⟩, fun h1 h2 => hg.inj h1 h2, fun h1 => ?_, fun j hj => ?_⟩
    · simpa using hg.bound h1
    · rw [contents_set _ _ _ _ hi]
      split
      · obtain ⟨k, hk⟩ := hg.nums i hi
        refine ⟨k + 1, ?_⟩
        rw [hk, List.length_range', setAdd_range]
      · exact hg.nums j (by simpa using hj)
  | none =>
    have hl := look_addEdge_new h
    have hs : (g.addEdge q r a).sets = g.sets ++ [[1]] := by rw [addEdge_new h]
    refine ⟨?_, ?_, ?_, ?_⟩
    · rw [addEdge_new h]
      obtain ⟨k1, k2⟩ := keys_getD hg.toKeys q
      refine keys_setTriple hg.toKeys _ _ (Dict.nodupKeys_set ?_ _ _) k1 k2 _
      rw [Dict.getD_eq]
      cases ht : (g.adj.getD q []).get? a with
      | none => exact Dict.nodupKeys_nil
      | some t => exact k2 a t ht
    · intro q1 a1 r1 q2 a2 r2 i h1 h2
      rw [hl] at h1 h2
      split at h1 <;> split at h2
      · next e1 e2 => exact ⟨e1.1.symm.trans e2.1, e1.2.1.symm.trans e2.2.1, e1.2.2.symm.trans e2.2.2⟩
      · cases h1; exact absurd (hg.bound h2) (Nat.lt_irrefl _)
      · cases h2; exact absurd (hg.bound h1) (Nat.lt_irrefl _)
      · exact hg.inj h1 h2
    · intro q1 a1 r1 i h1
      rw [hl] at h1
      rw [hs, List.length_append]
      split at h1
      · cases h1; simp
      · have := hg.bound h1; simp; omega
    · intro i hi
      rw [hs, List.length_append] at hi
      simp only [contents, hs, List.getD_eq_getElem?_getD]
      by_cases h' : i < g.sets.length
      · rw [List.getElem?_append_left h']
        have := hg.nums i h'
        simpa only [contents, List.getD_eq_getElem?_getD] using this
      · have : i = g.sets.length := by simp at hi; omega
        subst this
        exact ⟨0, by simp⟩

theorem contents_addEdge_new {g : ONfa A} {q r : Nat} {a : A} (h : g.look q a r = none) {i : Nat} (hi : i < g.sets.length) :
    (g.addEdge q r a).contents i = g.contents i := by
  rw [addEdge_new h]
  simp only [contents, List.getD_eq_getElem?_getD, List.getElem?_append_left hi]

theorem evolves_addEdge {g : ONfa A} (hg : Good g) (q r : Nat) (a : A) : Evolves g (g.addEdge q r a) := by
  cases h : g.look q a r with
  | some i =>
    have hi := hg.bound h
    rw [addEdge_old h]
    refine ⟨by simp, fun j hj => ?_, fun h1 => .inl h1, fun j hj hn => ?_⟩
    · rw [contents_set _ _ _ _ hi]
      split
      · next e =>
        subst e
        unfold setAdd
        split
        · exact List.prefix_rfl
        · exact List.prefix_append _ _
      · exact List.prefix_rfl
    · rw [contents_set _ _ _ _ hi, if_neg]
      rintro rfl
      exact hn q a r h
  | none =>
    refine ⟨by rw [addEdge_new h]; simp, fun j hj => ?_, fun h1 => ?_, fun j hj hn => contents_addEdge_new h hj⟩
    · rw [contents_addEdge_new h hj]; exact List.prefix_rfl
    · rw [look_addEdge_new h] at h1
      split at h1
      · cases h1; exact .inr (Nat.le_refl _)
      · exact .inl h1

theorem now_addEdge {g : ONfa A} (hg : Good g) (q r : Nat) (a : A) : (g.addEdge q r a).now = (g.now.addEdge q r a).2 := by
  cases h : g.look q a r with
  | some i =>
    have hi := hg.bound h
    obtain ⟨d, t, hd, ht, hr⟩ := look_some h
    rw [addEdge_old h]
    set g' : ONfa A := { g with sets := g.sets.set i (setAdd (g.contents i) ((g.contents i).length + 1)) } with hg'
    have hc : ∀ j, j ≠ i → g'.contents j = g.contents j := fun j hj => by rw [hg', contents_set _ _ _ _ hi, if_neg (Ne.symm hj)]
    have hci : g'.contents i = setAdd (g.contents i) ((g.contents i).length + 1) := by rw [hg', contents_set _ _ _ _ hi, if_pos rfl]
    have h3 : Dict.mapV g'.contents t = (Dict.mapV g.contents t).set r (g'.contents i) := by
      refine Dict.mapV_update (hg.inner _ _ _ _ hd ht) hr fun r' j hne hj => hc j ?_
      rintro rfl
      exact hne (hg.inj (show g.look q a r' = some j by simp [look, hd, ht, hj]) h).2.2
    have h2 : Dict.mapV (Dict.mapV g'.contents) d = (Dict.mapV (Dict.mapV g.contents) d).set a (Dict.mapV g'.contents t) := by
      refine Dict.mapV_update (hg.mid _ _ hd) ht fun a' t' hne ht' => Dict.mapV_congr fun r' j hj => hc j ?_
      rintro rfl
      have hj' := Dict.get?_of_mem (hg.inner _ _ _ _ hd ht') hj
      exact hne (hg.inj (show g.look q a' r' = some j by simp [look, hd, ht', hj']) h).2.1
    have h1 : Dict.mapV (Dict.mapV (Dict.mapV g'.contents)) g.adj =
        (Dict.mapV (Dict.mapV (Dict.mapV g.contents)) g.adj).set q (Dict.mapV (Dict.mapV g'.contents) d) := by
      refine Dict.mapV_update hg.outer hd fun q' d' hne hd' => Dict.mapV_congr fun a' t' ht' => Dict.mapV_congr fun r' j hj => hc j ?_
      rintro rfl
      have ht'' := Dict.get?_of_mem (hg.mid _ _ hd') ht'
      have hj' := Dict.get?_of_mem (hg.inner _ _ _ _ hd' ht'') hj
      exact hne (hg.inj (show g.look q' a' r' = some j by simp [look, hd', ht'', hj']) h).1
    have hadj : g'.now.adj = (g.now.addEdge q r a).2.adj := by
      show Dict.mapV (Dict.mapV (Dict.mapV g'.contents)) g.adj = _
      rw [h1, h2, h3, hci]
      simp only [Nfa.addEdge, now_adj, Dict.getD, Dict.get?_mapV, hd, ht, hr, Option.map_some, Option.getD_some]
    have hrest : (g.now.addEdge q r a).2 = { g.now with adj := (g.now.addEdge q r a).2.adj } := rfl
    rw [hrest, ← hadj]
    rfl
  | none =>
    have hadj : (g.addEdge q r a).now.adj = (g.now.addEdge q r a).2.adj := by
      have hcongr : Dict.mapV (Dict.mapV (Dict.mapV (g.addEdge q r a).contents)) g.adj = g.now.adj := by
        rw [now_adj]
        refine Dict.mapV_congr fun q' d' hd' => Dict.mapV_congr fun a' t' ht' => Dict.mapV_congr fun r' j hj => ?_
        have hd'' := Dict.get?_of_mem hg.outer hd'
        have ht'' := Dict.get?_of_mem (hg.mid _ _ hd'') ht'
        have hj' := Dict.get?_of_mem (hg.inner _ _ _ _ hd'' ht'') hj
        exact contents_addEdge_new h (hg.bound (show g.look q' a' r' = some j by simp [look, hd'', ht'', hj']))
      have hlen : (g.addEdge q r a).contents g.sets.length = [1] := by rw [addEdge_new h]; simp [contents]
      generalize hf : (g.addEdge q r a).contents = f at hcongr hlen
      have h0 : (g.addEdge q r a).now.adj = Dict.mapV (Dict.mapV (Dict.mapV f)) (g.addEdge q r a).adj := by rw [now_adj, hf]
      rw [h0]
      have h1 : (g.addEdge q r a).adj = g.adj.set q ((g.adj.getD q []).set a (((g.adj.getD q []).getD a []).set r g.sets.length)) := by rw [addEdge_new h]
      rw [h1, Dict.set_mapV, Dict.set_mapV, Dict.set_mapV, hcongr, hlen]
      have e1 : Dict.mapV (Dict.mapV f) (g.adj.getD q []) = g.now.adj.getD q [] := by
        rw [← hcongr, Dict.getD, Dict.getD, Dict.get?_mapV]
        cases g.adj.get? q <;> rfl
      have e2 : Dict.mapV f ((g.adj.getD q []).getD a []) = (g.now.adj.getD q []).getD a [] := by
        rw [← e1]
        generalize g.adj.getD q [] = d
        rw [Dict.getD, Dict.getD, Dict.get?_mapV]
        cases d.get? a <;> rfl
      have e3 : ((g.now.adj.getD q []).getD a []).get? r = none := by
        rw [← e2, Dict.get?_mapV, ← look_eq, h]; rfl
      rw [e1, e2]
      simp only [Nfa.addEdge]
      have e4 : Dict.getD ((g.now.adj.getD q []).getD a []) r [] = [] := by rw [Dict.getD, e3]; rfl
      rw [e4]
      rfl
    have hrest : (g.now.addEdge q r a).2 = { g.now with adj := (g.now.addEdge q r a).2.adj } := rfl
    rw [hrest, ← hadj, addEdge_new h]
    rfl

theorem look_addVertex (g : ONfa A) (q : Nat) (a : A) (r : Nat) : g.addVertex.look q a r = if g.lastVertexId = q then none else g.look q a r := by
  simp only [look, addVertex, Dict.get?_set]
  split <;> rfl

theorem shrinks_addVertex (g : ONfa A) : Shrinks g g.addVertex := by
  refine ⟨rfl, fun h => ?_, fun hg => ⟨Dict.nodupKeys_set hg.outer _ _, fun q d h => ?_, fun q d a t h h' => ?_⟩⟩
  · rw [look_addVertex] at h
    split at h
    · cases h
    · exact h
  · simp only [addVertex, Dict.get?_set] at h
    split at h
    · cases h; exact Dict.nodupKeys_nil
    · exact hg.mid q d h
  · simp only [addVertex, Dict.get?_set] at h
    split at h
    · cases h; cases h'
    · exact hg.inner q d a t h h'

theorem now_addVertex (g : ONfa A) : g.addVertex.now = g.now.addVertex.2 := by
  have : g.addVertex.now.adj = g.now.addVertex.2.adj := by
    show Dict.mapV (Dict.mapV (Dict.mapV g.contents)) (g.adj.set g.lastVertexId []) = g.now.adj.set g.lastVertexId []
    rw [Dict.set_mapV]; rfl
  have hrest : g.now.addVertex.2 = { g.now with lastVertexId := g.lastVertexId + 1, adj := g.now.addVertex.2.adj } := rfl
  rw [hrest, ← this]
  rfl

theorem good_init (eps : A) (qs : List Nat) : ∀ n, Good (init eps qs n)
  | 0 => ⟨⟨Dict.nodupKeys_nil, fun _ _ h => (nomatch h), fun _ _ _ _ h => (nomatch h)⟩, fun h => (nomatch h), fun h => (nomatch h), fun _ hi => (nomatch hi)⟩
  | n + 1 => (shrinks_addVertex _).good (good_init eps qs n)

theorem now_init (eps : A) (qs : List Nat) : ∀ n, (init eps qs n).now = Nfa.init eps qs n
  | 0 => rfl
  | n + 1 => by
    show (addVertex _).now = _
    rw [now_addVertex, now_init eps qs n]; rfl

/-- Every call does to the objects what it does to the values. -/
theorem exec_spec {g : ONfa A} (hg : Good g) (op : NfaOp A) :
    (exec op g).1 = (Nfa.execM op g.now).1 ∧ (exec op g).2.now = (Nfa.execM op g.now).2 ∧ Good (exec op g).2 ∧ Evolves g (exec op g).2 := by
  have key : ∀ {m : PyM (ONfa A) Unit} {m' : PyM (Nfa A) Unit}, Follows m m' →
      (m g).1 = (m' g.now).1 ∧ (m g).2.now = (m' g.now).2 ∧ Good (m g).2 ∧ Evolves g (m g).2 := by
    intro m m' h
    obtain ⟨h1, h2, h3⟩ := h g hg.toKeys
    exact ⟨h1, h2, h3.good hg, h3.evolves⟩
  have triv : ∀ g' : ONfa A, g'.adj = g.adj → g'.sets = g.sets → Shrinks g g' := by
    intro g' h1 h2
    refine ⟨h2, fun h => ?_, fun hk => ?_⟩
    · rw [look, h1] at h; exact h
    · refine ⟨?_, ?_, ?_⟩ <;> rw [h1]
      · exact hk.outer
      · exact hk.mid
      · exact hk.inner
  cases op with
  | addVertex => exact ⟨rfl, now_addVertex g, (shrinks_addVertex g).good hg, (shrinks_addVertex g).evolves⟩
  | addEdge q r a => exact ⟨rfl, now_addEdge hg q r a, good_addEdge hg q r a, evolves_addEdge hg q r a⟩
  | removeEdge e => exact key (follows_removeEdge e e ⟨rfl, rfl, rfl⟩)
  | removeVertex u => exact key (follows_removeVertex u)
  | setInitial q b =>
    have t := triv (exec (.setInitial q b) g).2 rfl rfl
    exact ⟨rfl, rfl, t.good hg, t.evolves⟩
  | setInitials qs =>
    have t := triv (exec (.setInitials qs) g).2 rfl rfl
    exact ⟨rfl, rfl, t.good hg, t.evolves⟩
  | setFinal q b =>
    have t := triv (exec (.setFinal q b) g).2 rfl rfl
    exact ⟨rfl, rfl, t.good hg, t.evolves⟩
  | clear => exact key follows_clear

theorem good_tried {g g' : ONfa A} (hg : Good g) {l : List (NfaOp A × Except PyErr Unit)} (h : Tried Anything exec g g' l) : Good g' ∧ Evolves g g' := by
  induction h with
  | start => exact ⟨hg, .refl g⟩
  | call op _ _ ih =>
    obtain ⟨_, _, h3, h4⟩ := exec_spec ih.1 op
    exact ⟨h3, ih.2.trans h4⟩

theorem Made.good {g : ONfa A} (h : Made g) : Good g := by
  obtain ⟨eps, qs, n, l, h⟩ := h
  exact (good_tried (good_init eps qs n) h).1

end ONfa
end PyBGL
