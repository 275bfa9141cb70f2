import Verif.Spec.RevuzVisitor
import Verif.Proofs.RevuzNode
import Verif.Props.C92_RevuzNode

/-!
# Proofs about the notifications of `revuz_minimize`
-/

namespace PyBGL.RevuzG
open Automaton
open Revuz (pairwise_forall)

theorem foldlM_erase {S S' α : Type} {f : S → α → Except PyErr S} {f' : S' → α → Except PyErr S'} (π : S' → S)
    (h : ∀ s a, (f' s a).map π = f (π s) a) (l : List α) : ∀ s, (l.foldlM f' s).map π = l.foldlM f (π s) := by
  induction l with
  | nil => intro s; rfl
  | cons a l ih =>
    intro s
    rw [List.foldlM_cons, List.foldlM_cons, ← h]
    cases f' s a with
    | error e => rfl
    | ok s' => exact ih s'

variable {G B L : Type} [DecidableEq B] [DecidableEq L]

/-- What is required of `add_edge` in addition to `Laws`. -/
structure LawsV (o : OpsV G B L) (W : G → Prop) : Prop extends Laws o.toOps W where
  erase : ∀ g q r a, (o.addEdgeV g q r a).map (·.2) = o.addEdge g q r a
  newEdge : ∀ {g ga g'} {q1 : Nat} {e : EdgeDesc B} {e'}, W g → q1 ∈ (o.aut g).vertices → o.vlabel g q1 = o.vlabel g e.target →
    (o.aut g).delta e.source e.distinguisher = some e.target → o.removeEdge g e = .ok ga →
    o.addEdgeV ga e.source q1 (o.elabel g e) = .ok (e', g') → e' = some ⟨e.source, q1, e.distinguisher⟩

variable {o : OpsV G B L} {W : G → Prop}

omit [DecidableEq B] [DecidableEq L] in
theorem moveEdgeV_erase (he : ∀ g q r a, (o.addEdgeV g q r a).map (·.2) = o.addEdge g q r a) (q1 : Nat) (s : G × Log G B) (e : EdgeDesc B) :
    (moveEdgeV o q1 s e).map (·.1) = moveEdge o.toOps q1 s.1 e := by
  unfold moveEdgeV moveEdge
  cases o.removeEdge s.1 e with
  | error _ => rfl
  | ok g =>
    simp only
    rw [← he]
    cases o.addEdgeV g e.source q1 (o.elabel s.1 e) with
    | error _ => rfl
    | ok x => rfl

omit [DecidableEq B] [DecidableEq L] in
theorem mergeIntoV_erase (he : ∀ g q r a, (o.addEdgeV g q r a).map (·.2) = o.addEdge g q r a) (ordE : SetOracle (EdgeDesc B)) (q1 : Nat)
    (s : G × Log G B) (q2 : Nat) : (mergeIntoV o ordE q1 s q2).map (·.1) = mergeInto o.toOps ordE q1 s.1 q2 := by
  unfold mergeIntoV mergeInto
  have := foldlM_erase (f := moveEdge o.toOps q1) (f' := moveEdgeV o q1) (·.1) (moveEdgeV_erase he q1) (ordE q2 (o.inEdges s.1 q2))
    (s.1, s.2 ++ [(.mergingStates q1 q2, s.1)])
  simp only at this
  rw [← this]
  cases (ordE q2 (o.inEdges s.1 q2)).foldlM (moveEdgeV o q1) (s.1, s.2 ++ [(.mergingStates q1 q2, s.1)]) with
  | error _ => rfl
  | ok x =>
    simp only [Except.map]
    cases o.removeVertex x.1 q2 <;> rfl

omit [DecidableEq B] [DecidableEq L] in
theorem mergeGroupV_erase (he : ∀ g q r a, (o.addEdgeV g q r a).map (·.2) = o.addEdge g q r a) (ordE : SetOracle (EdgeDesc B))
    (s : G × Log G B) (qs : List Nat) : (mergeGroupV o ordE s qs).map (·.1) = mergeGroup o.toOps ordE s.1 qs := by
  unfold mergeGroupV mergeGroup
  cases qs.mergeSort with
  | nil => rfl
  | cons q1 rest => exact foldlM_erase (·.1) (mergeIntoV_erase he ordE q1) rest s

/-- Forget the calls to the visitor. -/
def eraseStep : Step (StateV G B) (G × Int × Log G B) → Step (State G) (G × Int)
  | .next s => .next s.s
  | .done r => .done (r.1, r.2.1)
  | .fail e => .fail e

theorem stepV_erase (he : ∀ g q r a, (o.addEdgeV g q r a).map (·.2) = o.addEdge g q r a) (ord : SetOracle Nat)
    (ordE : Nat → SetOracle (EdgeDesc B)) (pmap : Dict Nat Nat) (t : Nat) (s : StateV G B) :
    eraseStep (stepV o ord ordE pmap t s) = step o.toOps ord ordE pmap t s.s := by
  unfold stepV step
  cases ord t s.s.todo with
  | nil => rfl
  | cons x xs =>
    simp only
    have := foldlM_erase (f := fun g (p : Sig B L × List Nat) => mergeGroup o.toOps (ordE t) g p.2)
      (f' := fun x p => mergeGroupV o (ordE t) x p.2) (·.1) (fun s p => mergeGroupV_erase he (ordE t) s p.2)
      (aggregates o.toOps s.s.g (x :: xs)) (s.s.g, s.log)
    simp only at this
    rw [← this]
    cases (aggregates o.toOps s.s.g (x :: xs)).foldlM (fun x p => mergeGroupV o (ordE t) x p.2) (s.s.g, s.log) <;> rfl

theorem loopV_erase (he : ∀ g q r a, (o.addEdgeV g q r a).map (·.2) = o.addEdge g q r a) (ord : SetOracle Nat)
    (ordE : Nat → SetOracle (EdgeDesc B)) (pmap : Dict Nat Nat) (fuel : Nat) :
    ∀ t (s : StateV G B), (loop (stepV o ord ordE pmap) fuel t s).map (Except.map fun r => (r.1, r.2.1)) =
      loop (step o.toOps ord ordE pmap) fuel t s.s := by
  induction fuel with
  | zero => intro t s; rfl
  | succ n ih =>
    intro t s
    simp only [loop]
    have := stepV_erase he ord ordE pmap t s
    rw [← this]
    cases stepV o ord ordE pmap t s with
    | next s' => exact ih _ s'
    | done r => rfl
    | fail e => rfl

/-! ## One merge -/

omit [DecidableEq L] in
theorem trans_iff {g : Automaton B} (h : AWF g) (p : Nat) (a : B) (r : Nat) : g.Trans p a r ↔ g.delta p a = some r := mem_edges h

theorem movesV (H : LawsV o W) {q1 q2 : Nat} (es : List (EdgeDesc B)) (hnd : es.Nodup) {g : G} (hw : W g)
    (h1 : q1 ∈ (o.aut g).vertices) (hl : o.vlabel g q1 = o.vlabel g q2)
    (hes : ∀ e ∈ es, e.target = q2 ∧ (o.aut g).delta e.source e.distinguisher = some q2) (log : Log G B) :
    ∃ g' l, es.foldlM (moveEdgeV o q1) (g, log) = .ok (g', log ++ l) ∧ Moves o.aut q1 g es l g' := by
  induction es generalizing g log with
  | nil => exact ⟨g, [], by simp; rfl, .nil g⟩
  | cons e es ih =>
    obtain ⟨ht, hd⟩ := hes e (by simp)
    have hd' : (o.aut g).delta e.source e.distinguisher = some e.target := by rw [hd, ht]
    have hl' : o.vlabel g q1 = o.vlabel g e.target := by rw [hl, ht]
    obtain ⟨ga, i1, i2, i3, i4, i5, i5', i6⟩ := H.move hw h1 (e := e) hl' hd'
    obtain ⟨hne, hnd'⟩ := List.nodup_cons.mp hnd
    have hstep : moveEdgeV o q1 (g, log) e = .ok (ga, log ++ [(.moveTransition e (some ⟨e.source, q1, e.distinguisher⟩), ga)]) := by
      have h2 := moveEdgeV_erase H.erase q1 (g, log) e
      rw [i1] at h2
      unfold moveEdgeV at h2 ⊢
      cases h3 : o.removeEdge (g, log).1 e with
      | error err => rw [h3] at h2; cases h2
      | ok gr =>
        rw [h3] at h2
        simp only at h2 ⊢
        cases h4 : o.addEdgeV gr e.source q1 (o.elabel g e) with
        | error err => rw [h4] at h2; cases h2
        | ok x =>
          obtain ⟨e', gx⟩ := x
          rw [h4] at h2
          simp only [Except.map, Except.ok.injEq] at h2
          subst h2
          rw [H.newEdge hw h1 hl' hd' h3 h4]
    obtain ⟨gb, l, j1, j2⟩ := ih hnd' i2 (by rw [i3]; exact h1) (by rw [i5']; exact hl) (fun e' he' => by
      obtain ⟨h2, h3⟩ := hes e' (by simp [he'])
      refine ⟨h2, ?_⟩
      rw [i6, if_neg]
      · exact h3
      · rintro ⟨h4, h5⟩
        apply hne
        have : e = e' := by
          obtain ⟨s, t, d⟩ := e
          obtain ⟨s', t', d'⟩ := e'
          simp only at h4 h5 h2 ht
          subst h4 h5 h2 ht
          rfl
        rw [this]; exact he') (log ++ [(.moveTransition e (some ⟨e.source, q1, e.distinguisher⟩), ga)])
    refine ⟨gb, _, ?_, .cons ⟨i3, i4, fun v => ?_⟩ ?_ j2⟩
    · rw [List.foldlM_cons, hstep]
      exact j1.trans (by simp)
    · unfold Automaton.isFinal; rw [i5]
    · intro p a r
      rw [trans_iff (H.out i2), i6, trans_iff (H.out hw)]
      by_cases h : e.source = p ∧ e.distinguisher = a
      · rw [if_pos h, if_pos ⟨h.1.symm, h.2.symm⟩]
        simp only [Option.some.injEq]
        exact eq_comm
      · rw [if_neg h, if_neg]
        rintro ⟨h2, h3⟩
        exact h ⟨h2.symm, h3.symm⟩

theorem mergeV (H : LawsV o W) {ordE : SetOracle (EdgeDesc B)} (hE : ordE.Valid) {g : G} (hw : W g) {q1 q2 : Nat}
    (h1 : q1 ∈ (o.aut g).vertices) (h2 : q2 ∈ (o.aut g).vertices) (hne : q1 ≠ q2) (hl : o.vlabel g q1 = o.vlabel g q2) (log : Log G B) :
    ∃ g' l, mergeIntoV o ordE q1 (g, log) q2 = .ok (g', log ++ l) ∧ W g' ∧ Merge o.aut q1 q2 g l g' ∧ mergedPairs l = [(q1, q2)] ∧
      (∀ v, v ∈ (o.aut g').vertices ↔ v ∈ (o.aut g).vertices ∧ v ≠ q2) ∧ o.vlabel g' = o.vlabel g := by
  have hp := hE q2 (o.inEdges g q2)
  have hnd : (ordE q2 (o.inEdges g q2)).Nodup := hp.nodup_iff.mpr (H.nodupIn hw q2)
  have hes : ∀ e ∈ ordE q2 (o.inEdges g q2), e.target = q2 ∧ (o.aut g).delta e.source e.distinguisher = some q2 := fun e he => by
    obtain ⟨a, b⟩ := (H.inEdges hw q2 e).mp (hp.mem_iff.mp he)
    exact ⟨a, by rw [b, a]⟩
  obtain ⟨ga, l, m1, m2⟩ := movesV H _ hnd hw h1 hl hes (log ++ [(.mergingStates q1 q2, g)])
  obtain ⟨ga', i1, i2, i3, i4, i5, i5', i6⟩ := foldlM_moveEdge H.toLaws (q1 := q1) (q2 := q2) _ hnd hw h1 hl hes
  have : ga' = ga := by
    have := foldlM_erase (·.1) (moveEdgeV_erase H.erase q1) (ordE q2 (o.inEdges g q2)) (g, log ++ [(.mergingStates q1 q2, g)])
    rw [m1, i1] at this
    simp only [Except.map, Except.ok.injEq] at this
    exact this.symm
  subst this
  obtain ⟨gb, j1, j2, j3, j5, j6, j6', j7⟩ := H.remove i2 (u := q2) (by rw [i3]; exact h2)
  have hno : ∀ p a, (o.aut ga').delta p a ≠ some q2 := by
    intro p a h
    rw [i6] at h
    split at h
    · exact hne (Option.some.inj h)
    · rename_i hn
      exact hn ⟨⟨p, q2, a⟩, hp.mem_iff.mpr ((H.inEdges hw q2 _).mpr ⟨rfl, h⟩), rfl, rfl⟩
  have hmoves : mergedPairs l = [] := by
    have key : ∀ {g es l g'}, Moves o.aut q1 g es l g' → mergedPairs l = [] := by
      intro g es l g' h
      induction h with
      | nil => rfl
      | cons _ _ _ ih => simpa [mergedPairs] using ih
    exact key m2
  refine ⟨gb, (.mergingStates q1 q2, g) :: (l ++ [(.removeVertex q2, ga'), (.statesMerged q1 q2, gb)]), ?_, j2,
    ⟨h1, h2, hne, ordE q2 (o.inEdges g q2), l, ga', rfl, hnd, fun e => ?_, m2, by rw [i3]; exact h2, fun e he ht => ?_, fun v => ?_, fun p a r => ?_⟩,
    ?_, fun v => ?_, j6'.trans i5'⟩
  · unfold mergeIntoV
    simp only
    rw [m1]
    simp only
    rw [j1]
    simp
  · rw [hp.mem_iff, H.inEdges hw, mem_edges (H.out hw)]; tauto
  · have h3 := (mem_edges (H.out i2)).mp he
    rw [ht] at h3
    exact hno _ _ h3
  · rw [j3]; simp
  · rw [trans_iff (H.out j2), trans_iff (H.out i2), j7]
    by_cases hpq : p = q2
    · simp [hpq]
    · rw [if_neg (by rintro (h | h); exacts [hpq h, hno p a h])]; simp [hpq]
  · have : mergedPairs ((.mergingStates q1 q2, g) :: (l ++ [(.removeVertex q2, ga'), (.statesMerged q1 q2, gb)])) =
        mergedPairs l ++ [(q1, q2)] := by simp [mergedPairs]
    rw [this, hmoves]; rfl
  · rw [j3, i3]; simp

theorem Merges.trans {aut : G → Automaton B} {g g1 g2 : G} {l l' : Log G B} (h : Merges aut g l g1) (h' : Merges aut g1 l' g2) :
    Merges aut g (l ++ l') g2 := by
  induction h with
  | nil => exact h'
  | cons f _ ih => rw [List.append_assoc]; exact .cons f (ih h')

omit [DecidableEq B] in
theorem mergedPairs_append (l l' : Log G B) : mergedPairs (l ++ l') = mergedPairs l ++ mergedPairs l' := List.filterMap_append

/-- Merging a list of pairs. -/
theorem pairsV (H : LawsV o W) {ordE : SetOracle (EdgeDesc B)} (hE : ordE.Valid) (ps : List (Nat × Nat)) :
    ∀ {g : G} (log : Log G B), W g → (∀ p ∈ ps, p.1 ∈ (o.aut g).vertices ∧ p.2 ∈ (o.aut g).vertices ∧ o.vlabel g p.1 = o.vlabel g p.2) →
      (ps.map Prod.snd).Nodup → (∀ p ∈ ps, p.1 ∉ ps.map Prod.snd) →
      ∃ g' l, ps.foldlM (fun s p => mergeIntoV o ordE p.1 s p.2) (g, log) = .ok (g', log ++ l) ∧ W g' ∧ Merges o.aut g l g' ∧
        mergedPairs l = ps ∧ (∀ v, v ∈ (o.aut g').vertices ↔ v ∈ (o.aut g).vertices ∧ v ∉ ps.map Prod.snd) := by
  induction ps with
  | nil => intro g log hw _ _ _; exact ⟨g, [], by simp; rfl, hw, .nil g, rfl, by simp⟩
  | cons p ps ih =>
    intro g log hw hv hnd hap
    obtain ⟨h1, h2, h3⟩ := hv p (by simp)
    rw [List.map_cons, List.nodup_cons] at hnd
    have hne : p.1 ≠ p.2 := fun e => hap p (by simp) (by rw [e]; simp)
    obtain ⟨g1, l1, e1, w1, m1, p1, v1, vl1⟩ := mergeV H hE hw h1 h2 hne h3 log
    obtain ⟨g2, l2, e2, w2, m2, p2, v2⟩ := ih (log ++ l1) w1 (fun x hx => by
      obtain ⟨a, b, c⟩ := hv x (by simp [hx])
      refine ⟨(v1 _).mpr ⟨a, fun e => hap x (by simp [hx]) (by rw [e]; simp)⟩, (v1 _).mpr ⟨b, fun e => hnd.1 ?_⟩, by rw [vl1]; exact c⟩
      rw [← e]; exact List.mem_map_of_mem hx) hnd.2
      (fun x hx h => hap x (by simp [hx]) (by rw [List.map_cons]; exact List.mem_cons_of_mem _ h))
    refine ⟨g2, l1 ++ l2, ?_, w2, .cons m1 m2, by rw [mergedPairs_append, p1, p2]; rfl, fun v => ?_⟩
    · rw [List.foldlM_cons, e1]
      exact e2.trans (by simp)
    · rw [v2, v1]; simp only [List.map_cons, List.mem_cons, not_or]; tauto

/-- The pairs merged for an aggregate. -/
def groupPairs (qs : List Nat) : List (Nat × Nat) :=
  match qs.mergeSort with
  | [] => []
  | q1 :: rest => rest.map fun q => (q1, q)

omit [DecidableEq B] [DecidableEq L] in
theorem mergeGroupV_pairs (ordE : SetOracle (EdgeDesc B)) (s : G × Log G B) (qs : List Nat) :
    mergeGroupV o ordE s qs = (groupPairs qs).foldlM (fun s p => mergeIntoV o ordE p.1 s p.2) s := by
  unfold mergeGroupV groupPairs
  cases qs.mergeSort with
  | nil => rfl
  | cons q1 rest => rw [List.foldlM_map]

omit [DecidableEq B] [DecidableEq L] in
theorem groupsV_pairs (ordE : SetOracle (EdgeDesc B)) (gs : List (Sig B L × List Nat)) :
    ∀ s : G × Log G B, gs.foldlM (fun s p => mergeGroupV o ordE s p.2) s =
      (gs.flatMap fun p => groupPairs p.2).foldlM (fun s p => mergeIntoV o ordE p.1 s p.2) s := by
  induction gs with
  | nil => intro s; rfl
  | cons p gs ih =>
    intro s
    rw [List.foldlM_cons, mergeGroupV_pairs, List.flatMap_cons, List.foldlM_append]
    exact congrArg _ (funext ih)

theorem mem_groupPairs {qs : List Nat} (hnd : qs.Nodup) :
    (∀ p ∈ groupPairs qs, p.1 ∈ qs ∧ p.2 ∈ qs ∧ p.1 < p.2) ∧ ((groupPairs qs).map Prod.snd).Nodup ∧
      ∀ p ∈ groupPairs qs, p.1 ∉ (groupPairs qs).map Prod.snd := by
  have hp : (qs.mergeSort).Perm qs := List.mergeSort_perm qs _
  have hsorted := List.pairwise_mergeSort (le := fun a b : Nat => decide (a ≤ b))
    (fun a b c h1 h2 => by simp at *; omega) (fun a b => by simp; omega) qs
  unfold groupPairs
  cases h : qs.mergeSort with
  | nil => simp
  | cons q1 rest =>
    rw [h] at hp
    have hsorted' : (q1 :: rest).Pairwise (fun a b => decide (a ≤ b) = true) := h ▸ hsorted
    have hnd' := hp.nodup_iff.mpr hnd
    obtain ⟨hn1, hn2⟩ := List.nodup_cons.mp hnd'
    have hm : ((rest.map fun q => (q1, q)).map Prod.snd) = rest := by simp [List.map_map, Function.comp_def]
    rw [hm]
    refine ⟨?_, hn2, ?_⟩
    · intro p hpm
      obtain ⟨q, hq, rfl⟩ := List.mem_map.mp hpm
      refine ⟨hp.mem_iff.mp (by simp), hp.mem_iff.mp (by simp [hq]), ?_⟩
      have hle : q1 ≤ q := by simpa using (List.pairwise_cons.mp hsorted').1 q hq
      have : q1 ≠ q := fun e => hn1 (e ▸ hq)
      show q1 < q
      omega
    · intro p hpm
      obtain ⟨q, hq, rfl⟩ := List.mem_map.mp hpm
      exact hn1

/-- The pairs merged in one level. -/
theorem level_pairs {g : G} {qs : List Nat} {gs : List (Sig B L × List Nat)} (hG : Groups o.toOps g qs gs) :
    (∀ p ∈ gs.flatMap (fun p => groupPairs p.2), p.1 ∈ qs ∧ p.2 ∈ qs ∧ p.1 < p.2 ∧
        sameSig (signature o.toOps g p.1) (signature o.toOps g p.2) = true) ∧
      ((gs.flatMap fun p => groupPairs p.2).map Prod.snd).Nodup ∧
      ∀ p ∈ gs.flatMap (fun p => groupPairs p.2), p.1 ∉ (gs.flatMap fun p => groupPairs p.2).map Prod.snd := by
  have hdisj : gs.Pairwise fun p p' => ∀ q ∈ p.2, q ∉ p'.2 := by
    refine hG.apart.imp_of_mem ?_
    intro p p' hp hp' hs q hq hq'
    have := sameSig_trans (hG.mem p hp q hq).2 (sameSig_symm (hG.mem p' hp' q hq').2)
    rw [hs] at this; cases this
  refine ⟨?_, ?_, ?_⟩
  · intro p hp
    obtain ⟨x, hx, hpx⟩ := List.mem_flatMap.mp hp
    obtain ⟨a, b, c⟩ := (mem_groupPairs (hG.nodup x hx)).1 p hpx
    exact ⟨(hG.mem x hx _ a).1, (hG.mem x hx _ b).1, c, sameSig_trans (sameSig_symm (hG.mem x hx _ a).2) (hG.mem x hx _ b).2⟩
  · rw [List.map_flatMap, List.nodup_flatMap]
    refine ⟨fun x hx => (mem_groupPairs (hG.nodup x hx)).2.1, hdisj.imp_of_mem ?_⟩
    intro x y hx hy h
    rw [Function.onFun, List.disjoint_iff_ne]
    rintro a ha b hb rfl
    obtain ⟨p, hp, rfl⟩ := List.mem_map.mp ha
    obtain ⟨p', hp', e⟩ := List.mem_map.mp hb
    refine h p.2 ((mem_groupPairs (hG.nodup x hx)).1 p hp).2.1 ?_
    rw [← e]; exact ((mem_groupPairs (hG.nodup y hy)).1 p' hp').2.1
  · intro p hp hm
    obtain ⟨x, hx, hpx⟩ := List.mem_flatMap.mp hp
    obtain ⟨p', hp', e⟩ := List.mem_map.mp hm
    obtain ⟨y, hy, hpy⟩ := List.mem_flatMap.mp hp'
    have h1 := ((mem_groupPairs (hG.nodup x hx)).1 p hpx).1
    have h2 := ((mem_groupPairs (hG.nodup y hy)).1 p' hpy).2.1
    by_cases hxy : x = y
    · subst hxy
      exact (mem_groupPairs (hG.nodup x hx)).2.2 p hpx (List.mem_map.mpr ⟨p', hpy, e⟩)
    · have := pairwise_forall (R := fun p p' : Sig B L × List Nat => ∀ q ∈ p.2, q ∉ p'.2)
        (fun a b h q hq hq' => h q hq' hq) hdisj hx hy hxy
      exact this p.1 h1 (e ▸ h2)

/-! ## The loop -/

/-- The calls made so far. -/
structure LogInv (o : OpsV G B L) (g₀ : G) (ht : Nat → Nat) (s : StateV G B) : Prop where
  merges : Merges o.aut g₀ s.log s.s.g
  cover : ∀ v, v ∈ (o.aut s.s.g).vertices ↔ v ∈ (o.aut g₀).vertices ∧ v ∉ (mergedPairs s.log).map Prod.snd
  nodup : ((mergedPairs s.log).map Prod.snd).Nodup
  pairs : ∀ p ∈ mergedPairs s.log, p.1 ∈ (o.aut s.s.g).vertices ∧ p.2 ∈ (o.aut g₀).vertices ∧ p.1 < p.2 ∧ ht p.1 < s.s.h ∧
    ∀ w, out o.toOps g₀ p.1 w = out o.toOps g₀ p.2 w

theorem level_stepV (H : LawsV o W) {ord : SetOracle Nat} (hord : ord.Valid) {ordE : Nat → SetOracle (EdgeDesc B)} (hE : ∀ t, (ordE t).Valid)
    {g₀ : G} (hw₀ : W g₀) {ht : Nat → Nat} {pmap : Dict Nat Nat} (t : Nat) {s s' : StateV G B} (i : LevelInv o.toOps W g₀ ht s.s)
    (j : LogInv o g₀ ht s) (hs : stepV o ord ordE pmap t s = .next s') : LogInv o g₀ ht s' := by
  obtain ⟨ρ, q⟩ := i.quot
  have hp := hord t s.s.todo
  have hqs : ∀ v, v ∈ ord t s.s.todo ↔ v ∈ (o.aut s.s.g).vertices ∧ ht v = s.s.h := fun v => by rw [hp.mem_iff, i.todo]
  unfold stepV at hs
  cases hq : ord t s.s.todo with
  | nil => rw [hq] at hs; cases hs
  | cons x xs =>
    rw [hq] at hs
    simp only at hs
    rw [hq] at hqs
    obtain ⟨p1, p2, p3⟩ := level_pairs (o := o) (aggregates_groups o.toOps s.s.g (x :: xs))
    rw [groupsV_pairs] at hs
    generalize (aggregates o.toOps s.s.g (x :: xs)).flatMap (fun p => groupPairs p.2) = ps at hs p1 p2 p3
    have hsame : ∀ p ∈ ps, Same o.toOps s.s.g p.1 p.2 := fun p hp => (sameSig_signature H.toLaws q.wf _ _).mp (p1 p hp).2.2.2
    obtain ⟨g', l, e, w, m, mp, hv⟩ := pairsV H (hE t) ps s.log q.wf (fun p hp =>
      ⟨((hqs _).mp (p1 p hp).1).1, ((hqs _).mp (p1 p hp).2.1).1, congrArg Prod.snd (hsame p hp).1⟩) p2 p3
    rw [e] at hs
    cases hs
    refine ⟨j.merges.trans m, fun v => ?_, ?_, fun p hp => ?_⟩
    · simp only
      rw [hv, j.cover, mergedPairs_append, mp, List.map_append, List.mem_append]; tauto
    · simp only
      rw [mergedPairs_append, mp, List.map_append, List.nodup_append]
      refine ⟨j.nodup, p2, fun a ha b hb e => ?_⟩
      subst e
      obtain ⟨p, hp, rfl⟩ := List.mem_map.mp hb
      exact ((j.cover _).mp ((hqs _).mp (p1 p hp).2.1).1).2 ha
    · simp only at hp ⊢
      rw [mergedPairs_append, mp, List.mem_append] at hp
      rcases hp with hp | hp
      · obtain ⟨a, b, c, d, f⟩ := j.pairs p hp
        refine ⟨(hv _).mpr ⟨a, fun h => ?_⟩, b, c, by omega, f⟩
        obtain ⟨p', hp', e⟩ := List.mem_map.mp h
        have := ((hqs _).mp (p1 p' hp').2.1).2
        rw [e] at this; omega
      · obtain ⟨a, b, c, _⟩ := p1 p hp
        have ha := (hqs _).mp a
        have hb := (hqs _).mp b
        refine ⟨(hv _).mpr ⟨ha.1, p3 p hp⟩, q.sub _ hb.1, c, by omega, fun w => ?_⟩
        rw [← q.out_eq H.toLaws hw₀ w _ ha.1, ← q.out_eq H.toLaws hw₀ w _ hb.1]
        have hs := hsame p hp
        cases w with
        | nil => rw [out_nil, out_nil, hs.1]
        | cons a w => rw [out_cons, out_cons, hs.2]

/-- The state in which the loop starts. -/
theorem minimize_start (H : Laws o.toOps W) {g : G} (hw : W g) (hac : ¬ HasCycle (o.toI g)) {ordH : SetOracle Nat}
    (hordH : ordH.Valid) {leaves : List Nat} (hL : leaves = [] ∨ (leaves.Nodup ∧ ∀ v, v ∈ leaves ↔ v ∈ sinks (o.toI g))) :
    ∃ pmap hm, Returns (fun fuel => revuzHeight ordH (o.toI g) [] [] fuel) (.ok (pmap, hm)) ∧ Heights o.toOps g (fun v => pmap.getD v 0) ∧
      LevelInv o.toOps W g (fun v => pmap.getD v 0) ⟨g, revuzLeaves (o.toI g) leaves, 0⟩ := by
  obtain ⟨pmap, hm, hr, hp1, _, _⟩ := C41_heights (acyclicGraph H hw hac) hordH []
  have hlong : ∀ v ∈ (o.aut g).vertices, IsLongest (o.toI g) v (pmap.getD v 0) := by
    intro v hv
    obtain ⟨m, e, _, h, _⟩ := hp1 v hv
    have : pmap.getD v 0 = m := by unfold Dict.getD; rw [e]; rfl
    rw [this]; exact h
  have hh := heights_of_longest H hw hlong
  have hleaves : ∀ v, v ∈ revuzLeaves (o.toI g) leaves ↔ v ∈ sinks (o.toI g) := by
    intro v
    rcases hL with rfl | ⟨_, h⟩
    · exact revuzLeaves_nil_mem _ _
    · unfold revuzLeaves
      split
      · rename_i e; rw [← h, e, mem_mkSet]
        constructor
        · intro hv
          have : v ∈ sinks (o.toI g) := by
            unfold sinks
            rw [List.mem_filter] at hv ⊢
            exact ⟨hv.1, by simpa using hv.2⟩
          rw [← h, e] at this; exact this
        · intro hv; cases hv
      · exact h v
  have hleavesNd : (revuzLeaves (o.toI g) leaves).Nodup := by
    unfold revuzLeaves
    split
    · exact nodup_mkSet _
    · rename_i hne
      exact (hL.resolve_left hne).1
  exact ⟨pmap, hm, hr, hh, ⟨id, Quot.refl hw _⟩, fun v => (hleaves v).trans (sinks_iff_height H hw hh v), hleavesNd,
    fun _ _ _ _ _ _ h => absurd h (Nat.not_lt_zero _)⟩

theorem minimizeV_erase (he : ∀ g q r a, (o.addEdgeV g q r a).map (·.2) = o.addEdge g q r a) (ord ordH : SetOracle Nat)
    (ordE : Nat → SetOracle (EdgeDesc B)) (g : G) (leaves : List Nat) (fuel : Nat) :
    (minimizeV o ord ordH ordE g leaves fuel).map (Except.map fun r => (r.1, r.2.1)) = minimize o.toOps ord ordH ordE g leaves fuel := by
  unfold minimizeV minimize
  cases revuzHeight ordH (o.toI g) [] [] fuel with
  | none => rfl
  | some x =>
    cases x with
    | error e => rfl
    | ok x => exact loopV_erase he ord ordE x.1 fuel 0 _

/-- With a visitor, `revuz_minimize` returns the same result, and the calls are as expected. -/
theorem minimizeV_spec (H : LawsV o W) {g : G} (hw : W g) (hac : ¬ HasCycle (o.toI g)) {ord ordH : SetOracle Nat} (hord : ord.Valid)
    (hordH : ordH.Valid) {ordE : Nat → SetOracle (EdgeDesc B)} (hE : ∀ t, (ordE t).Valid) {leaves : List Nat}
    (hL : leaves = [] ∨ (leaves.Nodup ∧ ∀ v, v ∈ leaves ↔ v ∈ sinks (o.toI g))) :
    ∃ g' hmax log, Returns (minimizeV o ord ordH ordE g leaves) (.ok (g', hmax, log)) ∧
      Returns (minimize o.toOps ord ordH ordE g leaves) (.ok (g', hmax)) ∧ Merges o.aut g log g' ∧
      (∀ v, v ∈ (o.aut g').vertices ↔ v ∈ (o.aut g).vertices ∧ v ∉ (mergedPairs log).map Prod.snd) ∧
      ((mergedPairs log).map Prod.snd).Nodup ∧
      ∀ p ∈ mergedPairs log, p.1 ∈ (o.aut g').vertices ∧ p.2 ∈ (o.aut g).vertices ∧ p.1 < p.2 ∧
        ∀ w, out o.toOps g p.1 w = out o.toOps g p.2 w := by
  obtain ⟨g', hmax, hr, _⟩ := minimize_classes H.toLaws hw hac hord hordH hE hL
  obtain ⟨pmap, hm, ⟨N1, h1⟩, hh, hinv⟩ := minimize_start H.toLaws hw hac hordH hL
  obtain ⟨N2, h2⟩ := hr
  have herase := minimizeV_erase H.erase ord ordH ordE g leaves
  have key : ∀ fuel, max N1 N2 ≤ fuel → ∃ log, loop (stepV o ord ordE pmap) fuel 0 ⟨⟨g, revuzLeaves (o.toI g) leaves, 0⟩, []⟩ =
      some (.ok (g', hmax, log)) ∧ minimizeV o ord ordH ordE g leaves fuel = some (.ok (g', hmax, log)) := by
    intro fuel hf
    have e1 := h1 fuel (by omega)
    have e2 := h2 fuel (by omega)
    have e3 := herase fuel
    rw [e2] at e3
    unfold minimizeV at e3 ⊢
    dsimp only at e1
    rw [e1] at e3 ⊢
    simp only at e3 ⊢
    cases hl : loop (stepV o ord ordE pmap) fuel 0 ⟨⟨g, revuzLeaves (o.toI g) leaves, 0⟩, []⟩ with
    | none => rw [hl] at e3; cases e3
    | some x =>
      rw [hl] at e3
      cases x with
      | error e => cases e3
      | ok x =>
        obtain ⟨a, b, c⟩ := x
        simp only [Option.map_some, Except.map, Option.some.injEq, Except.ok.injEq, Prod.mk.injEq] at e3
        obtain ⟨rfl, rfl⟩ := e3
        exact ⟨c, rfl, rfl⟩
  obtain ⟨log, hlog, _⟩ := key (max N1 N2) (Nat.le_refl _)
  have hpost := loop_partial (stepV o ord ordE pmap)
    (fun s => LevelInv o.toOps W g (fun v => pmap.getD v 0) s.s ∧ LogInv o g (fun v => pmap.getD v 0) s)
    (fun r => ∃ s : StateV G B, r = .ok (s.s.g, (s.s.h : Int) - 1, s.log) ∧ LogInv o g (fun v => pmap.getD v 0) s ∨ ∃ e, r = .error e)
    (by
      intro t s s' ⟨i, j⟩ hs
      refine ⟨?_, level_stepV H hord hE hw t i j hs⟩
      have he := stepV_erase H.erase ord ordE pmap t s
      rw [hs] at he
      rcases level_step H.toLaws hord hE hw hh (pmap := pmap) (fun _ _ => rfl) t i with ⟨v, hv, hvh, s'', e, i', eh⟩ | ⟨_, e⟩
      · rw [e] at he
        cases he
        exact i'
      · rw [e] at he; cases he)
    (by
      intro t s r ⟨i, j⟩ hs
      have he := stepV_erase H.erase ord ordE pmap t s
      unfold stepV at hs
      cases hq : ord t s.s.todo with
      | nil => rw [hq] at hs; cases hs; exact ⟨s, .inl ⟨rfl, j⟩⟩
      | cons x xs =>
        rw [hq] at hs
        simp only at hs
        split at hs <;> cases hs)
    (by intro t s e _ _; exact ⟨⟨⟨g, [], 0⟩, []⟩, .inr ⟨e, rfl⟩⟩)
    (s := ⟨⟨g, revuzLeaves (o.toI g) leaves, 0⟩, []⟩)
    ⟨hinv, ⟨.nil g, by simp [mergedPairs], by simp [mergedPairs], by simp [mergedPairs]⟩⟩ hlog
  obtain ⟨s, ⟨e, j⟩ | ⟨e, h⟩⟩ := hpost
  · simp only [Except.ok.injEq, Prod.mk.injEq] at e
    obtain ⟨rfl, rfl, rfl⟩ := e
    refine ⟨s.s.g, _, s.log, ⟨max N1 N2, fun fuel hf => ?_⟩, ⟨N2, h2⟩, j.merges, j.cover, j.nodup, fun p hp => ?_⟩
    · obtain ⟨log', h3, h4⟩ := key fuel hf
      rw [h4]
      have := loop_mono _ hlog hf
      rw [h3] at this
      exact this
    · obtain ⟨a, b, c, _, d⟩ := j.pairs p hp
      exact ⟨a, b, c, d⟩
  · cases h

end PyBGL.RevuzG
