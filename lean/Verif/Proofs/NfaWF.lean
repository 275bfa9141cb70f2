import Verif.Proofs.Moore

/-!
# Well-formedness of NFAs, and the language of the subset automaton
-/

namespace PyBGL
variable {A : Type} [DecidableEq A]

namespace Nfa

theorem WF.set {g : Nfa A} (hg : WF g) {adj : Dict Nat (Dict A (Dict Nat (List Nat)))} (q : Nat)
    {arn : Dict A (Dict Nat (List Nat))} (hadj : adj = g.adj.set q arn) (h1 : Dict.NodupKeys arn)
    (h2 : ∀ a e, arn.get? a = some e → Dict.NodupKeys e) {n : Nat} {i : List Nat} {f : Dict Nat Bool} {eps : A} :
    WF ⟨n, adj, i, f, eps⟩ := by
  subst hadj
  refine ⟨Dict.nodupKeys_set hg.outer _ _, ?_, ?_⟩
  · intro q' d h
    simp only [Dict.get?_set] at h
    split at h
    · cases h; exact h1
    · exact hg.mid _ _ h
  · intro q' d a e h h'
    simp only [Dict.get?_set] at h
    split at h
    · cases h; exact h2 _ _ h'
    · exact hg.inner _ _ _ _ h h'

theorem WF.addVertex {g : Nfa A} (hg : WF g) : WF g.addVertex.2 :=
  hg.set g.lastVertexId rfl Dict.nodupKeys_nil (by intro a e h; cases h)

theorem nodupKeys_getD {K V W : Type} [DecidableEq K] [DecidableEq V] {d : Dict K (Dict V W)} {k : K}
    (h : ∀ e, d.get? k = some e → Dict.NodupKeys e) : Dict.NodupKeys (d.getD k []) := by
  unfold Dict.getD
  cases hd : d.get? k with
  | none => exact Dict.nodupKeys_nil
  | some e => exact h e hd

theorem WF.getD_inner {g : Nfa A} (hg : WF g) {q : Nat} {a : A} {e : Dict Nat (List Nat)}
    (h : (g.adj.getD q []).get? a = some e) : Dict.NodupKeys e := by
  unfold Dict.getD at h
  cases hd : g.adj.get? q with
  | none => rw [hd] at h; cases h
  | some d => rw [hd] at h; exact hg.inner _ _ _ _ hd h

theorem WF.addEdge {g : Nfa A} (hg : WF g) (q r : Nat) (a : A) : WF (g.addEdge q r a).2 := by
  unfold Nfa.addEdge
  refine hg.set q rfl (Dict.nodupKeys_set (nodupKeys_getD (hg.mid q)) _ _) ?_
  intro a' e h
  rw [Dict.get?_set] at h
  split at h
  · cases h
    exact Dict.nodupKeys_set (nodupKeys_getD (fun e he => hg.getD_inner he)) _ _
  · exact hg.getD_inner h

theorem WF.removeEdge {N : Type} {g : Nfa A} (hg : WF g) (e : EdgeDesc (A × N)) : WF (g.removeEdge e) := by
  unfold Nfa.removeEdge
  split
  · exact hg
  · rename_i arn harn
    split
    · exact hg
    · rename_i rn hrn
      split
      · refine hg.set _ rfl (Dict.nodupKeys_set (hg.mid _ _ harn) _ _) ?_
        intro a' e' h
        rw [Dict.get?_set] at h
        split at h
        · cases h; exact Dict.nodupKeys_erase (hg.inner _ _ _ _ harn hrn) _
        · exact hg.inner _ _ _ _ harn h
      · exact hg

theorem WF.foldl_removeEdge {N : Type} {g : Nfa A} (hg : WF g) (es : List (EdgeDesc (A × N))) :
    WF (es.foldl Nfa.removeEdge g) := by
  induction es generalizing g with
  | nil => exact hg
  | cons e es ih => exact ih (hg.removeEdge e)

theorem WF.removeVertex {g g' : Nfa A} (hg : WF g) {u : Nat} (h : g.removeVertex u = .ok g') : WF g' := by
  unfold Nfa.removeVertex at h
  simp only at h
  obtain ⟨adj, h1, h2⟩ := except_bind_ok.1 h
  have hw := (hg.foldl_removeEdge (g.edges.filter fun e => u = e.target)).foldl_removeEdge
    (((g.edges.filter fun e => u = e.target).foldl Nfa.removeEdge g).outEdges u)
  rw [Dict.delE_ok_iff] at h1
  obtain ⟨_, rfl⟩ := h1
  cases h2
  have hge : ∀ q d, Dict.get? (Dict.erase (((((g.edges.filter fun e => u = e.target).foldl Nfa.removeEdge g).outEdges u).foldl
      Nfa.removeEdge ((g.edges.filter fun e => u = e.target).foldl Nfa.removeEdge g))).adj u) q = some d →
      Dict.get? (((((g.edges.filter fun e => u = e.target).foldl Nfa.removeEdge g).outEdges u).foldl
      Nfa.removeEdge ((g.edges.filter fun e => u = e.target).foldl Nfa.removeEdge g))).adj q = some d := by
    intro q d h
    rw [Dict.get?_erase hw.outer] at h
    split at h
    · cases h
    · exact h
  exact ⟨Dict.nodupKeys_erase hw.outer _, fun q d h => hw.mid q d (hge _ _ h),
    fun q d a e h h' => hw.inner q d a e (hge _ _ h) h'⟩

theorem removeEdge_keeps {N : Type} (g : Nfa A) (e : EdgeDesc (A × N)) :
    (g.removeEdge e).vertices = g.vertices ∧ (g.removeEdge e).lastVertexId = g.lastVertexId ∧ (g.removeEdge e).initials = g.initials ∧
      (g.removeEdge e).final = g.final ∧ (g.removeEdge e).eps = g.eps := by
  unfold Nfa.removeEdge
  split
  · exact ⟨rfl, rfl, rfl, rfl, rfl⟩
  · rename_i arn harn
    split
    · exact ⟨rfl, rfl, rfl, rfl, rfl⟩
    · split
      · exact ⟨Dict.keys_set_of_mem _ _ _ ((Dict.mem_keys_iff _ _).mpr ⟨_, harn⟩), rfl, rfl, rfl, rfl⟩
      · exact ⟨rfl, rfl, rfl, rfl, rfl⟩

theorem foldl_removeEdge_keeps {N : Type} : ∀ (es : List (EdgeDesc (A × N))) (g : Nfa A),
    (es.foldl Nfa.removeEdge g).vertices = g.vertices ∧ (es.foldl Nfa.removeEdge g).lastVertexId = g.lastVertexId ∧
      (es.foldl Nfa.removeEdge g).initials = g.initials ∧ (es.foldl Nfa.removeEdge g).final = g.final ∧ (es.foldl Nfa.removeEdge g).eps = g.eps
  | [], _ => ⟨rfl, rfl, rfl, rfl, rfl⟩
  | e :: es, g => by
    rw [List.foldl_cons]
    obtain ⟨a1, a2, a3, a4, a5⟩ := removeEdge_keeps g e
    obtain ⟨b1, b2, b3, b4, b5⟩ := foldl_removeEdge_keeps es (g.removeEdge e)
    exact ⟨b1.trans a1, b2.trans a2, b3.trans a3, b4.trans a4, b5.trans a5⟩

theorem removeVertex_keeps {g : Nfa A} (hg : WF g) {u : Nat} (hu : u ∈ g.vertices) :
    ∃ g', g.removeVertex u = .ok g' ∧ WF g' ∧ g'.vertices = g.vertices.filter (· ≠ u) ∧ g'.lastVertexId = g.lastVertexId ∧ g'.initials = g.initials ∧
      g'.final = g.final ∧ g'.eps = g.eps := by
  have hw := (hg.foldl_removeEdge (g.edges.filter fun e => u = e.target)).foldl_removeEdge
    (((g.edges.filter fun e => u = e.target).foldl Nfa.removeEdge g).outEdges u)
  obtain ⟨a1, a2, a3, a4, a5⟩ := foldl_removeEdge_keeps (g.edges.filter fun e => u = e.target) g
  obtain ⟨b1, b2, b3, b4, b5⟩ := foldl_removeEdge_keeps (((g.edges.filter fun e => u = e.target).foldl Nfa.removeEdge g).outEdges u)
    ((g.edges.filter fun e => u = e.target).foldl Nfa.removeEdge g)
  have hr : ∃ g', g.removeVertex u = .ok g' ∧ g'.vertices = g.vertices.filter (· ≠ u) ∧ g'.lastVertexId = g.lastVertexId ∧ g'.initials = g.initials ∧
      g'.final = g.final ∧ g'.eps = g.eps := by
    unfold Nfa.removeVertex
    simp only
    generalize (((g.edges.filter fun e => u = e.target).foldl Nfa.removeEdge g).outEdges u).foldl Nfa.removeEdge
      ((g.edges.filter fun e => u = e.target).foldl Nfa.removeEdge g) = g2 at *
    have hk : Dict.keys g2.adj = g.vertices := b1.trans a1
    have hd : g2.adj.delE u = .ok (g2.adj.erase u) := (Dict.delE_ok_iff _ _ _).2 ⟨by rw [hk]; exact hu, rfl⟩
    rw [hd]
    refine ⟨_, rfl, ?_, b2.trans a2, b3.trans a3, b4.trans a4, b5.trans a5⟩
    show Dict.keys (g2.adj.erase u) = _
    rw [Dict.keys_erase _ hw.outer, hk]
  obtain ⟨g', h1, h2⟩ := hr
  exact ⟨g', h1, hg.removeVertex h1, h2⟩

theorem removeVertices_keeps : ∀ (us : List Nat) {g : Nfa A}, WF g → us.Nodup → (∀ u ∈ us, u ∈ g.vertices) →
    ∃ g', us.foldlM Nfa.removeVertex g = .ok g' ∧ g'.lastVertexId = g.lastVertexId ∧ g'.initials = g.initials ∧ g'.final = g.final ∧ g'.eps = g.eps ∧
      ∀ u, u ∈ g'.vertices ↔ u ∈ g.vertices ∧ u ∉ us
  | [], g, _, _, _ => ⟨g, rfl, rfl, rfl, rfl, rfl, by simp⟩
  | u :: us, g, hg, hnd, h => by
    rw [List.nodup_cons] at hnd
    obtain ⟨g1, a1, a2, a3, a4, a5, a6, a7⟩ := removeVertex_keeps hg (h u (by simp))
    have hm : ∀ x, x ∈ g1.vertices ↔ x ∈ g.vertices ∧ x ≠ u := by
      intro x; rw [a3]; simp
    obtain ⟨g2, b1, b2, b3, b4, b5, b6⟩ := removeVertices_keeps us a2 hnd.2 (fun x hx => (hm x).mpr ⟨h x (by simp [hx]), fun e => hnd.1 (e ▸ hx)⟩)
    refine ⟨g2, ?_, b2.trans a4, b3.trans a5, b4.trans a6, b5.trans a7, fun x => ?_⟩
    · rw [List.foldlM_cons, a1]; exact b1
    · rw [b6, hm]; simp [and_assoc]

/-- `clear` removes every state and transition and resets the counter; it keeps the initial states and the final flags. -/
theorem clear_spec {g : Nfa A} (hg : WF g) : g.clear = .ok { g with lastVertexId := 0, adj := [] } := by
  obtain ⟨g1, a1, a2, a3, a4, a5, a6⟩ := removeVertices_keeps (g := { g with lastVertexId := 0 }) g.vertices ⟨hg.outer, hg.mid, hg.inner⟩ hg.outer (fun _ h => h)
  unfold Nfa.clear
  show g.vertices.foldlM Nfa.removeVertex { g with lastVertexId := 0 } = _
  rw [a1]
  have hk : g1.vertices = [] := List.eq_nil_iff_forall_not_mem.mpr fun x hx => ((a6 x).mp hx).2 ((a6 x).mp hx).1
  obtain ⟨n, adj, i, f, e⟩ := g1
  unfold Nfa.vertices Dict.keys at hk
  have hk' := List.map_eq_nil_iff.mp hk
  simp only at hk' a2 a3 a4 a5
  subst hk' a2 a3 a4 a5
  rfl

theorem WF_init (eps : A) (qs : List Nat) (n : Nat) : WF (init eps qs n) := by
  induction n with
  | zero => exact ⟨Dict.nodupKeys_nil, (fun _ _ h => nomatch h), (fun _ _ _ _ h => nomatch h)⟩
  | succ n ih => exact ih.addVertex

theorem WF_exec {g g' : Nfa A} {op : NfaOp A} (hg : WF g) (h : g.exec op = .ok g') : WF g' := by
  cases op with
  | addVertex => cases h; exact hg.addVertex
  | addEdge q r a => cases h; exact hg.addEdge q r a
  | removeEdge e => cases h; exact hg.removeEdge e
  | removeVertex q => exact hg.removeVertex h
  | setInitial q b => cases h; exact ⟨hg.outer, hg.mid, hg.inner⟩
  | setInitials q => cases h; exact ⟨hg.outer, hg.mid, hg.inner⟩
  | setFinal q b => cases h; exact ⟨hg.outer, hg.mid, hg.inner⟩
  | clear =>
    simp only [exec] at h
    rw [clear_spec hg] at h; cases h
    exact ⟨Dict.nodupKeys_nil, (fun _ _ h => nomatch h), (fun _ _ _ _ h => nomatch h)⟩

theorem Reachable.wf {g : Nfa A} (h : Reachable g) : WF g := by
  obtain ⟨eps, qs, ops, h⟩ := h
  exact Runs.invariant (Inv := WF) (WF_init eps qs 0) (fun s op s' hs h => WF_exec hs h) h

/-! ## Effect of the mutators on the transitions -/

theorem T_addVertex {g : Nfa A} (h : g.lastVertexId ∉ g.vertices) (q : Nat) (a : A) (r : Nat) :
    g.addVertex.2.T q a r ↔ g.T q a r := by
  unfold T targets addVertex
  simp only [Dict.getD_set]
  split
  · rename_i e
    subst e
    have : g.adj.get? g.lastVertexId = none := (Dict.get?_eq_none_iff _ _).2 h
    simp [Dict.getD, this]
  · rfl

theorem T_addEdge (g : Nfa A) (q r : Nat) (a : A) (q' : Nat) (a' : A) (r' : Nat) :
    (g.addEdge q r a).2.T q' a' r' ↔ g.T q' a' r' ∨ (q' = q ∧ a' = a ∧ r' = r) := by
  unfold T targets addEdge
  simp only [Dict.getD_set]
  by_cases hq : q = q'
  · subst hq
    simp only [if_true, Dict.getD_set]
    by_cases ha : a = a'
    · subst ha
      simp only [if_true, Dict.mem_keys_set, true_and]
      exact or_comm
    · simp [ha, Ne.symm ha]
  · simp [hq, Ne.symm hq]

theorem vertices_addEdge (g : Nfa A) {q : Nat} (r : Nat) (a : A) (hq : q ∈ g.vertices) :
    (g.addEdge q r a).2.vertices = g.vertices := Dict.keys_set_of_mem _ _ _ hq

end Nfa

namespace Moore

/-- The state of the DFA reached by a word is the one of the subset reached by the word. -/
theorem deltaWord_spec {nfa : Nfa A} {c : Bool} {dfa : Automaton A} {map : Dict (List Nat) Nat}
    (h : MInv nfa c (fun k a => a ∈ subsetSigma nfa c k) ⟨dfa, map, []⟩) (w : List A) {k : List Nat} {q : Nat}
    (hk : map.get? k = some q) :
    (∀ r, dfa.deltaWord (some q) w = some r ↔ ∃ k', LPath (KT nfa c) k w k' ∧ map.get? k' = some r) := by
  induction w generalizing k q with
  | nil =>
    intro r
    simp only [Automaton.deltaWord_nil, LPath.nil_iff, exists_eq_left', hk]
  | cons a w ih =>
    intro r
    rw [Automaton.deltaWord_cons]
    simp only [LPath.cons_iff]
    by_cases ha : a ∈ subsetSigma nfa c k
    · obtain ⟨r1, h1, h2⟩ := h.inst k q a hk ha
      have h2' : Automaton.deltaO dfa (some q) a = some r1 := h2
      rw [h2', ih h1 r]
      constructor
      · rintro ⟨k', h3, h4⟩; exact ⟨k', ⟨_, ⟨ha, rfl⟩, h3⟩, h4⟩
      · rintro ⟨k', ⟨k1, ⟨_, rfl⟩, h3⟩, h4⟩; exact ⟨k', h3, h4⟩
    · have h2 : Automaton.deltaO dfa (some q) a = none := h.free k q a hk ha
      rw [h2]
      simp only [Automaton.deltaWord_none]
      constructor
      · intro h; cases h
      · rintro ⟨k', ⟨k1, ⟨h3, _⟩, _⟩, _⟩; exact absurd h3 ha

/-- A word leading the NFA somewhere leads the DFA somewhere. -/
theorem kpath_exists (nfa : Nfa A) (c : Bool) (w : List A) (hw : nfa.eps ∉ w) {k : List Nat} {q x : Nat} (hq : q ∈ k)
    (h : WPath nfa.T nfa.eps q w x) : ∃ k', LPath (KT nfa c) k w k' := by
  induction w generalizing k q with
  | nil => exact ⟨k, .nil k⟩
  | cons a w ih =>
    have ha : a ≠ nfa.eps := fun e => hw (by simp [e])
    obtain ⟨s, h1, h2⟩ := (WPath.append_iff (u := [a])).1 h
    obtain ⟨k', hk'⟩ := ih (fun h => hw (by simp [h])) ((mem_subsetStep nfa k ha s).2 ⟨q, hq, h1⟩) h2
    exact ⟨k', .cons ⟨mem_subsetSigma nfa c ha hq h1, rfl⟩ hk'⟩

theorem kpath_reach {nfa : Nfa A} {c : Bool} {dfa : Automaton A} {map : Dict (List Nat) Nat}
    (h : MInv nfa c (fun k a => a ∈ subsetSigma nfa c k) ⟨dfa, map, []⟩) {w : List A} {k k' : List Nat} {q : Nat}
    (hk : map.get? k = some q) (hp : LPath (KT nfa c) k w k') : ∃ r, map.get? k' = some r := by
  induction hp generalizing q with
  | nil => exact ⟨q, hk⟩
  | cons h1 _ ih =>
    obtain ⟨ha, rfl⟩ := h1
    obtain ⟨r1, h2, _⟩ := h.inst _ q _ hk ha
    exact ih h2

theorem kpath_word {nfa : Nfa A} {c : Bool} {k k' : List Nat} {w : List A} (h : LPath (KT nfa c) k w k') :
    ∀ a ∈ w, a ∈ nfa.alphabet := by
  induction h with
  | nil => intro a h; cases h
  | cons h1 _ ih =>
    intro a ha
    rcases List.mem_cons.1 ha with rfl | ha
    · exact subsetSigma_sub h1.1
    · exact ih a ha

theorem kpath_complete {nfa : Nfa A} {k : List Nat} {w : List A} (h : ∀ a ∈ w, a ∈ nfa.alphabet) :
    ∃ k', LPath (KT nfa true) k w k' := by
  induction w generalizing k with
  | nil => exact ⟨k, .nil k⟩
  | cons a w ih =>
    obtain ⟨k', hk'⟩ := ih (k := subsetStep nfa k a) (fun b hb => h b (by simp [hb]))
    exact ⟨k', .cons ⟨by simpa [subsetSigma] using h a (by simp), rfl⟩ hk'⟩

end Moore

/-- `moore_determination` preserves the language. -/
theorem Moore.correct {g : Nfa A} (hg : g.WF) (complete : Bool) (pick : Nat → Nat)
    (order : Nat → List A → List A) (hord : ∀ t l, (order t l).Perm l) :
    ∃ dfa, Returns (Moore.run g complete pick order) (.ok dfa) ∧
      ∀ w, g.eps ∉ w → (dfa.accepts w = g.accepts w ∧ (dfa.Lang w ↔ g.Lang w)) := by
  obtain ⟨r, hr, hp⟩ := Moore.run_spec g complete pick order hord
  cases r with
  | error e => cases hp
  | ok dfa =>
    refine ⟨dfa, hr, fun w hw => ?_⟩
    obtain ⟨map, h⟩ := hp
    have key : dfa.accepts w = true ↔ g.accepts w = true := by
      rw [Nfa.accepts_iff_T g hw]
      unfold Automaton.accepts Automaton.initial
      rw [show dfa.q0 = some 0 from h.q0]
      have hdw := Moore.deltaWord_spec h w h.start
      have hfin : ∀ k r, map.get? k = some r → dfa.isFinal r = k.any g.isFinal := h.fin
      cases hd : dfa.deltaWord (some 0) w with
      | none =>
        simp only [Bool.false_eq_true, false_iff]
        rintro ⟨q, hq, f, hf, hpath⟩
        obtain ⟨k', hk'⟩ := Moore.kpath_exists g complete w hw ((Moore.mem_k0 g q).2 ⟨q, hq, .nil q⟩) hpath
        obtain ⟨r, hr⟩ := Moore.kpath_reach h h.start hk'
        have := (hdw r).2 ⟨k', hk', hr⟩
        rw [hd] at this; cases this
      | some r =>
        obtain ⟨k', hk', hr⟩ := (hdw r).1 hd
        simp only
        rw [hfin k' r hr, List.any_eq_true]
        simp only [Moore.k0path_mem hk']
        constructor
        · rintro ⟨f, ⟨q, hq, hpath⟩, hf⟩; exact ⟨q, hq, f, hf, hpath⟩
        · rintro ⟨q, hq, f, hf, hpath⟩; exact ⟨f, ⟨q, hq, hpath⟩, hf⟩
    exact ⟨Bool.eq_iff_iff.2 key, by rw [← Automaton.accepts_iff h.awf, Nfa.lang_iff hg, ← Nfa.accepts_iff_T g hw]; exact key⟩

end PyBGL
