import Verif.Spec.Minimal
import Verif.Proofs.Hopcroft
import Verif.Proofs.MakeAutomaton
import Verif.Proofs.PbfsWords

/-!
# From the refinement to the minimised automaton
-/

namespace PyBGL.Hopcroft
open Automaton
variable {A : Type} [DecidableEq A] {g : IAutomaton A}

/-! ## Indistinguishable states -/

theorem indist_iff {g : Automaton A} (hg : AWF g) {p q : Nat} :
    g.Indist p q ↔ ∀ w, (g.deltaWord (some p) w).map g.isFinal = (g.deltaWord (some q) w).map g.isFinal := by
  unfold Indist Right
  refine forall_congr' fun w => ?_
  simp only [← deltaWord_iff hg]
  cases e1 : g.deltaWord (some p) w with
  | none =>
    cases e2 : g.deltaWord (some q) w with
    | none => simp
    | some r' => simp
  | some r =>
    cases e2 : g.deltaWord (some q) w with
    | none => simp
    | some r' =>
      simp only [Option.some.injEq, exists_eq_left', Option.map_some, exists_eq', true_and]
      cases g.isFinal r <;> cases g.isFinal r' <;> simp

theorem indist_cong (hg : g.WF) : Cong g fun p q => g.a.Indist p q ∧ p ∈ g.a.vertices ∧ q ∈ g.a.vertices := by
  rintro p q ⟨h, _, _⟩ a
  rw [indist_iff hg.out] at h
  have h1 := h [a]
  simp only [deltaWord_cons, deltaWord_nil, deltaO, Option.bind_some] at h1
  cases e1 : g.a.delta p a with
  | none =>
    cases e2 : g.a.delta q a with
    | none => exact .inl ⟨rfl, rfl⟩
    | some q' => rw [e1, e2] at h1; cases h1
  | some p' =>
    cases e2 : g.a.delta q a with
    | none => rw [e1, e2] at h1; cases h1
    | some q' =>
      refine .inr ⟨p', q', rfl, rfl, (indist_iff hg.out).mpr fun w => ?_, target_mem hg e1, target_mem hg e2⟩
      have := h (a :: w)
      simpa [deltaWord_cons, deltaO, e1, e2] using this

theorem part_init (hg : g.WF) : Part g.a.vertices (hopcroftInit g) := by
  unfold hopcroftInit
  refine ⟨nodup_mkSet _, ?_, ?_, ?_⟩
  · intro B hB
    simp only [mem_mkSet, List.mem_cons, List.not_mem_nil, or_false] at hB
    rcases hB with rfl | rfl <;> exact List.filter_sublist
  · intro q hq
    cases h : g.a.isFinal q with
    | true => exact ⟨g.a.vertices.filter fun q => g.a.isFinal q, by simp, List.mem_filter.mpr ⟨hq, h⟩⟩
    | false => exact ⟨g.a.vertices.filter fun q => !g.a.isFinal q, by simp, List.mem_filter.mpr ⟨hq, by simp [h]⟩⟩
  · intro B hB B' hB' q hq hq'
    simp only [mem_mkSet, List.mem_cons, List.not_mem_nil, or_false] at hB hB'
    rcases hB with rfl | rfl <;> rcases hB' with rfl | rfl <;> simp only [List.mem_filter] at hq hq'
    · rfl
    · exact absurd hq.2 (by simpa using hq'.2)
    · exact absurd hq'.2 (by simpa using hq.2)
    · rfl

theorem init_final {B : Block} (hB : B ∈ hopcroftInit g) {p q : Nat} (hp : p ∈ B) (hq : q ∈ B) : g.a.isFinal p = g.a.isFinal q := by
  unfold hopcroftInit at hB
  simp only [mem_mkSet, List.mem_cons, List.not_mem_nil, or_false] at hB
  rcases hB with rfl | rfl
  · rw [List.mem_filter] at hp hq; rw [hp.2, hq.2]
  · rw [List.mem_filter] at hp hq
    have h1 := hp.2; have h2 := hq.2
    simp at h1 h2
    rw [h1, h2]

/-- Some block of the initial partition is empty iff the states are all final or all non-final. -/
theorem nil_mem_init : [] ∈ hopcroftInit g ↔ (∀ q ∈ g.a.vertices, g.a.isFinal q = true) ∨ (∀ q ∈ g.a.vertices, g.a.isFinal q = false) := by
  unfold hopcroftInit
  simp only [mem_mkSet, List.mem_cons, List.not_mem_nil, or_false]
  rw [eq_comm, List.filter_eq_nil_iff, eq_comm, List.filter_eq_nil_iff, or_comm]
  simp

/-- The blocks are the classes of the indistinguishability. -/
theorem Result.mates_iff (hg : g.WF) {P : List Block} (h : Result g (hopcroftInit g) P) {p q : Nat} :
    Mates P p q ↔ p ∈ g.a.vertices ∧ q ∈ g.a.vertices ∧ g.a.Indist p q := by
  constructor
  · intro hm
    refine ⟨?_, ?_, ?_⟩
    · obtain ⟨B, hB, hp, _⟩ := hm; exact (h.part.sub B hB).subset hp
    · obtain ⟨B, hB, _, hq⟩ := hm; exact (h.part.sub B hB).subset hq
    · rw [indist_iff hg.out]
      intro w
      induction w generalizing p q with
      | nil =>
        obtain ⟨B, hB, hp, hq⟩ := hm
        obtain ⟨B0, hB0, s⟩ := h.fine B hB
        simp [init_final hB0 (s p hp) (s q hq)]
      | cons a w ih =>
        rw [deltaWord_cons, deltaWord_cons]
        simp only [deltaO, Option.bind_some]
        rcases h.stable p q a hm with ⟨e1, e2⟩ | ⟨B, hB, ⟨p', e1, hp'⟩, ⟨q', e2, hq'⟩⟩
        · rw [e1, e2]
        · rw [e1, e2]; exact ih ⟨B, hB, hp', hq'⟩
  · rintro ⟨hp, hq, hi⟩
    obtain ⟨B, hB, hpB⟩ := h.part.cover p hp
    refine ⟨B, hB, hpB, ?_⟩
    refine (h.closed _ (indist_cong hg) ?_ B hB p q ⟨hi, hp, hq⟩).mp hpB
    rintro B0 hB0 r s ⟨hrs, hr, hs⟩
    have hf : g.a.isFinal r = g.a.isFinal s := by
      have := (indist_iff hg.out).mp hrs []
      simpa using this
    unfold hopcroftInit at hB0
    simp only [mem_mkSet, List.mem_cons, List.not_mem_nil, or_false] at hB0
    rcases hB0 with rfl | rfl <;> simp [List.mem_filter, hr, hs, hf]

/-! ## The minimised automaton -/

theorem swapFirst_perm {l : List Block} {i : Nat} (h : i < l.length) : (swapFirst l i).Perm l := by
  have key : ∀ (xs : List Block) (x : Block) (j : Nat), j < xs.length → (xs.getD j [] :: xs.set j x).Perm (x :: xs) := by
    intro xs
    induction xs with
    | nil => intro x j h; simp at h
    | cons y ys ih =>
      intro x j h
      cases j with
      | zero => simpa using List.Perm.swap x y ys
      | succ k =>
        have := ih x k (by simpa using h)
        simp only [List.getD_cons_succ, List.set_cons_succ]
        exact (List.Perm.swap y _ _).trans ((this.cons y).trans (List.Perm.swap x y ys))
  cases l with
  | nil => simp at h
  | cons x xs =>
    cases i with
    | zero => simp [swapFirst]
    | succ j =>
      have := key xs x j (by simpa using h)
      simpa [swapFirst] using this

theorem swapFirst_head {l : List Block} {i : Nat} (h : i < l.length) : (swapFirst l i)[0]? = l[i]? := by
  cases l with
  | nil => simp at h
  | cons x xs =>
    cases i with
    | zero => simp [swapFirst]
    | succ j =>
      have hj : j < xs.length := by simpa using h
      simp [swapFirst, hj]

theorem iinit_spec (n : Nat) : (IAutomaton.init n : IAutomaton A).WF ∧ (IAutomaton.init n : IAutomaton A).a = Automaton.init n := by
  induction n with
  | zero => exact ⟨IAutomaton.WF_empty, rfl⟩
  | succ n ih =>
    refine ⟨IAutomaton.WF_addVertex ih.1, ?_⟩
    show (IAutomaton.init n : IAutomaton A).a.addVertex.2 = _
    rw [ih.2]; rfl

theorem AWF.congr {a b : Automaton A} (h : AWF a) (h1 : b.adj = a.adj) (h2 : b.lastVertexId = a.lastVertexId) : AWF b := by
  obtain ⟨x, y, z⟩ := h
  refine ⟨by rw [h1]; exact x, by rw [h1]; exact y, ?_⟩
  intro u hu
  rw [h2]
  refine z u ?_
  unfold vertices at hu ⊢
  rwa [h1] at hu

theorem states_spec (l : List Block) : (hopcroftStates g l).WF ∧ (hopcroftStates g l).a.vertices = List.range l.length ∧
    (∀ q a, (hopcroftStates g l).a.delta q a = none) ∧ (hopcroftStates g l).a.q0 = some 0 := by
  obtain ⟨h1, h2⟩ := iinit_spec (A := A) l.length
  obtain ⟨k1, k2, k3, k4, k5⟩ := init_spec (A := A) l.length
  refine ⟨⟨AWF.congr h1.out rfl rfl, h1.inn, h1.keys, h1.mirror⟩, ?_, ?_, rfl⟩
  · rw [← k2, ← h2]; rfl
  · intro q a; rw [← k4 q a, ← h2]; rfl

theorem states_final {l : List Block} (hl : l.Nodup) {B : Block} (hB : B ∈ l) :
    (hopcroftStates g l).a.isFinal (l.idxOf B) = B.any g.a.isFinal := by
  show Dict.getD (l.map fun qs => (l.idxOf qs, qs.any g.a.isFinal)) (l.idxOf B) false = _
  unfold Dict.getD
  rw [Dict.get?_of_mem (v := B.any g.a.isFinal)]
  · rfl
  · show ((l.map fun qs => (l.idxOf qs, qs.any g.a.isFinal)).map Prod.fst).Nodup
    rw [List.map_map]
    refine List.Nodup.map_on ?_ hl
    intro x hx y hy e
    exact (List.idxOf_inj hx).mp e
  · exact List.mem_map.mpr ⟨B, hB, rfl⟩

theorem Dict.set_self {K W : Type} [DecidableEq K] {d : Dict K W} {k : K} {v : W} (h : d.get? k = some v) : d.set k v = d := by
  induction d with
  | nil => cases h
  | cons p d ih =>
    obtain ⟨k', v'⟩ := p
    by_cases e : k' = k
    · subst e
      simp [Dict.get?] at h
      simp [Dict.set, h]
    · simp only [Dict.get?, if_neg e] at h
      simp [Dict.set, e, ih h]

/-- Adding a transition which is there already changes nothing. -/
theorem addEdge_same {m : IAutomaton A} (hw : m.WF) {i j : Nat} {a : A} (h : m.a.delta i a = some j) :
    (m.addEdge i j a).map (·.2.2) = .ok m := by
  unfold IAutomaton.addEdge
  cases j with
  | succ k => rw [addEdge_of_succ h]; rfl
  | zero =>
    rw [addEdge_of_free (.inr h) (delta_mem_vertices h)]
    have hm := (hw.mirror i 0 a).mpr h
    obtain ⟨vs, s, h1, h2, h3, _⟩ := get?_some_of_lk hm
    have hset : m.a.setDelta i 0 a = m.a := by
      rw [delta_eq] at h
      cases hd : Dict.get? m.a.adj i with
      | none => rw [hd] at h; cases h
      | some d =>
        rw [hd] at h
        have h : Dict.get? d a = some 0 := h
        unfold setDelta
        rw [show Dict.getD m.a.adj i [] = d by simp [Dict.getD, hd], Dict.set_self h, Dict.set_self hd]
    simp only [bind, Except.bind, if_true, Dict.getE_of_get? h1, h2, hset]
    rw [show setAdd s a = s by simp [setAdd, h3], Dict.set_self h2, Dict.set_self h1]
    rfl

theorem addEdge_new {m : IAutomaton A} (hw : m.WF) {i j : Nat} {a : A} (h : m.a.delta i a = none) (hi : i ∈ m.a.vertices) (hj : j ∈ m.a.vertices) :
    ∃ m', (m.addEdge i j a).map (·.2.2) = .ok m' ∧ m'.WF ∧ m'.a = m.a.setDelta i j a := by
  obtain ⟨vs, hvs⟩ := (Dict.mem_keys_iff _ _).mp ((hw.keys j).mpr hj)
  have key : ∃ e b m', m.addEdge i j a = .ok (e, b, m') ∧ m'.a = m.a.setDelta i j a := by
    unfold IAutomaton.addEdge
    rw [addEdge_of_free (.inl h) hi]
    simp only [bind, Except.bind, if_true, Dict.getE_of_get? hvs]
    cases Dict.get? vs i with
    | none => exact ⟨_, _, _, rfl, rfl⟩
    | some s => exact ⟨_, _, _, rfl, rfl⟩
  obtain ⟨e, b, m', h1, h2⟩ := key
  exact ⟨m', by rw [h1]; rfl, IAutomaton.addEdge_WF hw (by rw [h]; simp) h1, h2⟩

/-- Adding transitions which agree with each other. -/
theorem edges_spec (l : List Block) (E : List (Block × EdgeDesc A))
    (hE : ∀ x ∈ E, x.1 ∈ l ∧ blockOf l x.2.target ∈ l)
    (hfun : ∀ x ∈ E, ∀ y ∈ E, x.1 = y.1 → x.2.distinguisher = y.2.distinguisher → blockOf l x.2.target = blockOf l y.2.target) :
    ∀ {m : IAutomaton A} (D : List (Block × EdgeDesc A)), (∀ x ∈ D, x ∈ D ++ E) → m.WF → m.a.vertices = List.range l.length →
      (∀ x ∈ D, x.1 ∈ l) →
      (∀ x ∈ D, ∀ y ∈ E, x.1 = y.1 → x.2.distinguisher = y.2.distinguisher → blockOf l x.2.target = blockOf l y.2.target) →
      (∀ i a j, m.a.delta i a = some j ↔ ∃ x ∈ D, l.idxOf x.1 = i ∧ x.2.distinguisher = a ∧ l.idxOf (blockOf l x.2.target) = j) →
      ∃ m', E.foldlM (hopcroftAddEdge l) m = .ok m' ∧ m'.WF ∧ m'.a.vertices = List.range l.length ∧ m'.a.q0 = m.a.q0 ∧ m'.a.final = m.a.final ∧
        (∀ i a j, m'.a.delta i a = some j ↔ ∃ x ∈ D ++ E, l.idxOf x.1 = i ∧ x.2.distinguisher = a ∧ l.idxOf (blockOf l x.2.target) = j) := by
  induction E with
  | nil =>
    intro m D _ hw hv _ _ hd
    exact ⟨m, rfl, hw, hv, rfl, rfl, by simpa using hd⟩
  | cons y E ih =>
    intro m D _ hw hv hDl hDE hd
    obtain ⟨hy1, hy2⟩ := hE y (by simp)
    have step : ∃ m1, hopcroftAddEdge l m y = .ok m1 ∧ m1.WF ∧ m1.a.vertices = List.range l.length ∧ m1.a.q0 = m.a.q0 ∧ m1.a.final = m.a.final ∧
        (∀ i a j, m1.a.delta i a = some j ↔
          ∃ x ∈ D ++ [y], l.idxOf x.1 = i ∧ x.2.distinguisher = a ∧ l.idxOf (blockOf l x.2.target) = j) := by
      unfold hopcroftAddEdge
      cases hdel : m.a.delta (l.idxOf y.1) y.2.distinguisher with
      | some j =>
        obtain ⟨x, hx, e1, e2, e3⟩ := (hd _ _ _).mp hdel
        have e1' : x.1 = y.1 := (List.idxOf_inj (hDl x hx)).mp e1
        have hb := hDE x hx y (by simp) e1' e2
        rw [hb] at e3
        subst e3
        refine ⟨m, addEdge_same hw hdel, hw, hv, rfl, rfl, ?_⟩
        intro i a j
        rw [hd]
        constructor
        · rintro ⟨z, hz, h⟩; exact ⟨z, by simp [hz], h⟩
        · rintro ⟨z, hz, h⟩
          rw [List.mem_append, List.mem_singleton] at hz
          rcases hz with hz | rfl
          · exact ⟨z, hz, h⟩
          · exact ⟨x, hx, by rw [e1]; exact h.1, by rw [e2]; exact h.2.1, by rw [hb]; exact h.2.2⟩
      | none =>
        obtain ⟨m1, h1, h2, h3⟩ := addEdge_new hw hdel (j := l.idxOf (blockOf l y.2.target))
          (by rw [hv]; simpa using List.idxOf_lt_length_of_mem hy1) (by rw [hv]; simpa using List.idxOf_lt_length_of_mem hy2)
        have hiv : l.idxOf y.1 ∈ m.a.vertices := by rw [hv]; simpa using List.idxOf_lt_length_of_mem hy1
        refine ⟨m1, h1, h2, by rw [h3, vertices_setDelta _ _ hiv, hv], by rw [h3]; rfl, by rw [h3]; rfl, ?_⟩
        intro i a j
        rw [h3, delta_setDelta]
        by_cases hc : l.idxOf y.1 = i ∧ y.2.distinguisher = a
        · rw [if_pos hc]
          obtain ⟨rfl, rfl⟩ := hc
          constructor
          · intro e; exact ⟨y, by simp, rfl, rfl, by simpa using e⟩
          · rintro ⟨z, hz, z1, z2, z3⟩
            rw [List.mem_append, List.mem_singleton] at hz
            rcases hz with hz | rfl
            · have := (hd _ _ _).mpr ⟨z, hz, z1, z2, z3⟩
              rw [hdel] at this; cases this
            · rw [z3]
        · rw [if_neg hc, hd]
          constructor
          · rintro ⟨z, hz, h⟩; exact ⟨z, by simp [hz], h⟩
          · rintro ⟨z, hz, h⟩
            rw [List.mem_append, List.mem_singleton] at hz
            rcases hz with hz | rfl
            · exact ⟨z, hz, h⟩
            · exact absurd ⟨h.1, h.2.1⟩ hc
    obtain ⟨m1, e1, w1, v1, q1, f1, d1⟩ := step
    obtain ⟨m2, e2, w2, v2, q2, f2, d2⟩ := ih (fun x hx => hE x (by simp [hx])) (fun x hx z hz => hfun x (by simp [hx]) z (by simp [hz])) (D ++ [y])
      (fun x hx => List.mem_append_left _ hx) w1 v1
      (by
        intro x hx
        rw [List.mem_append, List.mem_singleton] at hx
        rcases hx with hx | rfl
        · exact hDl x hx
        · exact hy1)
      (by
        intro x hx z hz
        rw [List.mem_append, List.mem_singleton] at hx
        rcases hx with hx | rfl
        · exact hDE x hx z (by simp [hz])
        · exact hfun x (by simp) z (by simp [hz]))
      d1
    refine ⟨m2, by rw [List.foldlM_cons, e1]; exact e2, w2, v2, by rw [q2, q1], by rw [f2, f1], ?_⟩
    intro i a j
    rw [d2]
    simp

theorem blockOf_spec {P : List Block} (h : Part g.a.vertices P) {l : List Block} (hl : l.Perm P) {r : Nat} {B : Block} (hB : B ∈ l) (hr : r ∈ B) :
    blockOf l r = B := by
  unfold blockOf
  cases e : l.find? (fun rs => decide (r ∈ rs)) with
  | none =>
    have := List.find?_eq_none.mp e B hB
    simp [hr] at this
  | some rs =>
    have h1 := List.mem_of_find?_eq_some e
    have h2 := List.find?_some e
    simp at h2
    exact h.disj rs (hl.mem_iff.mp h1) B (hl.mem_iff.mp hB) r h2 hr

/-- The automaton built from a stable partition. -/
structure Quotient (g : IAutomaton A) (P : List Block) (m : IAutomaton A) (l : List Block) : Prop where
  perm : l.Perm P
  wf : m.WF
  verts : m.a.vertices = List.range l.length
  init : m.a.q0 = some 0
  start : ∀ q, g.a.q0 = some q → ∃ B, l[0]? = some B ∧ q ∈ B
  fin : ∀ B ∈ l, ∀ q ∈ B, m.a.isFinal (l.idxOf B) = g.a.isFinal q
  delta : ∀ B ∈ l, ∀ q ∈ B, ∀ a j, m.a.delta (l.idxOf B) a = some j ↔ ∃ r, ∃ C ∈ l, g.a.delta q a = some r ∧ r ∈ C ∧ j = l.idxOf C
  emp : ∀ a j, m.a.delta (l.idxOf []) a ≠ some j

theorem build_spec (hg : g.WF) {ord : HopcroftOrd A} (ho : ord.Valid) {P : List Block} (h : Result g (hopcroftInit g) P)
    {q0 : Nat} (hq : g.a.q0 = some q0) (hv : q0 ∈ g.a.vertices) :
    ∃ m l, hopcroftBuild ord g (ord.result 0 P) = .ok m ∧ Quotient g P m l := by
  have hp0 := ho.result 0 P
  have hinit : ∀ q, g.a.isInitial q = true ↔ q = q0 := by
    intro q; simp [isInitial, hq, eq_comm]
  obtain ⟨B0, hB0, hqB0⟩ := h.part.cover q0 hv
  unfold hopcroftBuild
  cases hf : (ord.result 0 P).findIdx? (fun qs => qs.any g.a.isInitial) with
  | none =>
    have := List.findIdx?_eq_none_iff.mp hf B0 (hp0.mem_iff.mpr hB0)
    rw [List.any_eq_false] at this
    exact absurd ((hinit q0).mpr rfl) (by simpa using this q0 hqB0)
  | some i =>
    obtain ⟨hi, hany, _⟩ := List.findIdx?_eq_some_iff_getElem.mp hf
    simp only
    generalize hl : swapFirst (ord.result 0 P) i = l
    have hperm : l.Perm P := by rw [← hl]; exact (swapFirst_perm hi).trans hp0
    have hnd : l.Nodup := hperm.nodup_iff.mpr h.part.nodup
    obtain ⟨s1, s2, s3, s4⟩ := states_spec (g := g) l
    have hmemE : ∀ x, x ∈ hopcroftEdges ord g l ↔ x.1 ∈ l ∧ x.2.source ∈ x.1 ∧ g.a.delta x.2.source x.2.distinguisher = some x.2.target := by
      rintro ⟨B, e⟩
      unfold hopcroftEdges
      simp only [List.mem_flatMap, List.mem_map, Prod.mk.injEq]
      constructor
      · rintro ⟨qs, h1, q, h2, e', h3, rfl, rfl⟩
        rw [(ho.states _ _).mem_iff] at h2
        rw [mem_outEdges hg.out] at h3
        obtain ⟨rfl, h3⟩ := h3
        exact ⟨h1, h2, h3⟩
      · rintro ⟨h1, h2, h3⟩
        refine ⟨B, h1, e.source, (ho.states _ _).mem_iff.mpr h2, e, ?_, rfl, rfl⟩
        rw [mem_outEdges hg.out]
        exact ⟨rfl, h3⟩
    have hblock : ∀ r ∈ g.a.vertices, ∃ C ∈ l, r ∈ C ∧ blockOf l r = C := by
      intro r hr
      obtain ⟨C, hC, hrC⟩ := h.part.cover r hr
      exact ⟨C, hperm.mem_iff.mpr hC, hrC, blockOf_spec h.part hperm (hperm.mem_iff.mpr hC) hrC⟩
    obtain ⟨m, e, w, v, q, f, d⟩ := edges_spec l (hopcroftEdges ord g l)
      (by
        intro x hx
        obtain ⟨x1, x2, x3⟩ := (hmemE x).mp hx
        obtain ⟨C, hC, _, eC⟩ := hblock _ (target_mem hg x3)
        exact ⟨x1, by rw [eC]; exact hC⟩)
      (by
        intro x hx y hy e1 e2
        obtain ⟨x1, x2, x3⟩ := (hmemE x).mp hx
        obtain ⟨y1, y2, y3⟩ := (hmemE y).mp hy
        rw [← e1] at y2
        rcases h.stable x.2.source y.2.source x.2.distinguisher ⟨x.1, hperm.mem_iff.mp x1, x2, y2⟩ with ⟨k1, _⟩ | ⟨C, hC, ⟨r, k1, k2⟩, ⟨r', k3, k4⟩⟩
        · rw [x3] at k1; cases k1
        · rw [x3] at k1; cases k1
          rw [e2, y3] at k3; cases k3
          rw [blockOf_spec h.part hperm (hperm.mem_iff.mpr hC) k2, blockOf_spec h.part hperm (hperm.mem_iff.mpr hC) k4])
      (m := hopcroftStates g l) [] (by simp) s1 s2 (by simp) (by simp) (by intro i a j; rw [s3]; simp)
    refine ⟨m, l, e, hperm, w, v, by rw [q, s4], ?_, ?_, ?_, ?_⟩
    · intro q' hq'
      rw [hq] at hq'; cases hq'
      refine ⟨(ord.result 0 P)[i], ?_, ?_⟩
      · rw [← hl, swapFirst_head hi]; simp [hi]
      · rw [List.any_eq_true] at hany
        obtain ⟨x, hx, hxi⟩ := hany
        rw [hinit] at hxi; subst hxi; exact hx
    · intro B hB q' hq'
      have : m.a.isFinal (l.idxOf B) = (hopcroftStates g l).a.isFinal (l.idxOf B) := by unfold isFinal; rw [f]
      rw [this, states_final hnd hB]
      cases hfq : g.a.isFinal q' with
      | true => rw [List.any_eq_true]; exact ⟨q', hq', hfq⟩
      | false =>
        rw [List.any_eq_false]
        intro x hx
        obtain ⟨C, hC, sC⟩ := h.fine B (hperm.mem_iff.mp hB)
        rw [init_final hC (sC x hx) (sC q' hq'), hfq]; simp
    · intro B hB q' hq' a j
      rw [d]
      simp only [List.nil_append]
      constructor
      · rintro ⟨x, hx, x4, rfl, rfl⟩
        obtain ⟨x1, x2, x3⟩ := (hmemE x).mp hx
        have e1 : x.1 = B := (List.idxOf_inj x1).mp x4
        rw [e1] at x2
        rcases h.stable x.2.source q' x.2.distinguisher ⟨B, hperm.mem_iff.mp hB, x2, hq'⟩ with ⟨k1, _⟩ | ⟨C, hC, ⟨r, k1, k2⟩, ⟨r', k3, k4⟩⟩
        · rw [x3] at k1; cases k1
        · rw [x3] at k1; cases k1
          exact ⟨r', C, hperm.mem_iff.mpr hC, k3, k4, by rw [blockOf_spec h.part hperm (hperm.mem_iff.mpr hC) k2]⟩
      · rintro ⟨r, C, hC, k1, k2, rfl⟩
        exact ⟨(B, ⟨q', r, a⟩), (hmemE _).mpr ⟨hB, hq', k1⟩, rfl, rfl, by rw [blockOf_spec h.part hperm hC k2]⟩
    · intro a j hj
      rw [d] at hj
      simp only [List.nil_append] at hj
      obtain ⟨x, hx, x4, _⟩ := hj
      obtain ⟨x1, x2, x3⟩ := (hmemE x).mp hx
      have e1 : x.1 = [] := (List.idxOf_inj x1).mp x4
      rw [e1] at x2; simp at x2

/-- The quotient follows the original automaton. -/
theorem Quotient.deltaWord (hg : g.WF) {P : List Block} (hP : Part g.a.vertices P) {m : IAutomaton A} {l : List Block} (h : Quotient g P m l) (w : List A) :
    ∀ {B : Block} {q : Nat}, B ∈ l → q ∈ B → ∀ j, m.a.deltaWord (some (l.idxOf B)) w = some j ↔
      ∃ r, ∃ C ∈ l, g.a.deltaWord (some q) w = some r ∧ r ∈ C ∧ j = l.idxOf C := by
  induction w with
  | nil =>
    intro B q hB hq j
    simp only [deltaWord_nil, Option.some.injEq]
    constructor
    · rintro rfl; exact ⟨q, B, hB, rfl, hq, rfl⟩
    · rintro ⟨r, C, hC, rfl, hr, rfl⟩
      rw [hP.disj B (h.perm.mem_iff.mp hB) C (h.perm.mem_iff.mp hC) q hq hr]
  | cons a w ih =>
    intro B q hB hq j
    rw [deltaWord_cons, deltaWord_cons]
    simp only [deltaO, Option.bind_some]
    cases e : g.a.delta q a with
    | none =>
      have : m.a.delta (l.idxOf B) a = none := by
        cases e' : m.a.delta (l.idxOf B) a with
        | none => rfl
        | some j' =>
          obtain ⟨r, _, _, k, _⟩ := (h.delta B hB q hq a j').mp e'
          rw [e] at k; cases k
      rw [this]; simp
    | some r =>
      obtain ⟨C, hC, hr⟩ := hP.cover r (target_mem hg e)
      have hC := h.perm.mem_iff.mpr hC
      rw [(h.delta B hB q hq a (l.idxOf C)).mpr ⟨r, C, hC, e, hr, rfl⟩]
      exact ih hC hr j

end PyBGL.Hopcroft
