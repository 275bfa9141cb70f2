import Verif.Proofs.Dfs
import Verif.Model.DfsApps

/-!
# Tarjan's algorithm
-/

namespace PyBGL
variable {V E : Type} [DecidableEq V] {g : GraphI V E}

namespace Tarjan

theorem rootOf_set (root : Dict V V) (u v x : V) : rootOf (root.set u x) v = if u = v then x else rootOf root v := by
  unfold rootOf; rw [Dict.getD_set]

/-- `w` was discovered between the discovery and the end of `v`. -/
def Desc (pre : List (DfsEvent V E)) (v w : V) : Prop :=
  ∃ a b d, pre = a ++ .discover v :: b ++ .finish v :: d ∧ w ∈ discovered b

theorem desc_snoc {pre : List (DfsEvent V E)} {x : DfsEvent V E} {v w : V} (h : Desc (pre ++ [x]) v w) :
    Desc pre v w ∨ (x = .finish v ∧ ∃ a b, pre = a ++ .discover v :: b ∧ w ∈ discovered b) := by
  obtain ⟨a, b, d, e, hw⟩ := h
  rcases List.eq_nil_or_concat d with rfl | ⟨d', y, rfl⟩
  · right
    have e' : pre ++ [x] = (a ++ .discover v :: b) ++ [.finish v] := by simpa using e
    obtain ⟨e1, e2⟩ := List.append_inj' e' rfl
    exact ⟨by simpa using e2, a, b, e1, hw⟩
  · left
    have e' : pre ++ [x] = (a ++ .discover v :: b ++ .finish v :: d') ++ [y] := by simpa using e
    exact ⟨a, b, d', (List.append_inj' e' rfl).1, hw⟩

/-- The invariant of `TarjanVisitor` after the calls `pre`. -/
structure Inv (g : GraphI V E) (pre : List (DfsEvent V E)) (s : Tarjan V) : Prop where
  time : s.time = (discovered pre).length
  ord : ∀ a u b, pre = a ++ .discover u :: b → s.dt u = (discovered a).length
  pw : s.stack.Pairwise (fun a b => s.dt b < s.dt a)
  mem : ∀ v, v ∈ s.stack ↔ v ∈ discovered pre ∧ s.compOf v = none
  asg : ∀ v ∈ discovered pre, ∀ k, s.compOf v = some k → v ∈ finished pre ∧ k < s.total
  gray : ∀ v ∈ discovered pre, v ∉ finished pre → rootOf s.root v = v
  closed : ∀ v ∈ discovered pre, ∀ k, s.compOf v = some k → ∀ e ∈ g.outEdges v,
    g.target e ∈ discovered pre ∧ ∃ k', s.compOf (g.target e) = some k' ∧ k' ≤ k
  scc : ∀ v ∈ discovered pre, ∀ w ∈ discovered pre, s.compOf v ≠ none → s.compOf w ≠ none →
    (s.compOf v = s.compOf w ↔ Reach g v w ∧ Reach g w v)
  used : ∀ k < s.total, ∃ v ∈ discovered pre, s.compOf v = some k
  blk : ∀ v ∈ finished pre, s.compOf v = none →
    s.dt (rootOf s.root v) < s.dt v ∧ rootOf s.root v ∈ s.stack ∧ Reach g v (rootOf s.root v)
  low : ∀ v ∈ finished pre, s.compOf v = none → ∀ e ∈ g.outEdges v, s.compOf (g.target e) = none →
    s.dt (rootOf s.root v) ≤ s.dt (g.target e)
  desc : ∀ v ∈ finished pre, s.compOf v = none → ∀ w, Desc pre v w → s.compOf w = none →
    s.dt (rootOf s.root v) ≤ s.dt (rootOf s.root w)
  dfin : ∀ v w, Desc pre v w → w ∈ finished pre
  key : ∀ v ∈ discovered pre, s.comp.getD v none = s.compOf v

theorem compOf_set (s : Tarjan V) (comp : Dict V (Option Nat)) (u v : V) (x : Option Nat) :
    ({ s with comp := comp.set u x } : Tarjan V).compOf v = if u = v then x else ({ s with comp := comp } : Tarjan V).compOf v := by
  unfold compOf; rw [Dict.getD_set]

/-- Order of the discovery times. -/
theorem Inv.dt_before {pre : List (DfsEvent V E)} {s : Tarjan V} (i : Inv g pre s) {a b : List (DfsEvent V E)} {u w : V}
    (e : pre = a ++ .discover u :: b) (hw : w ∈ discovered a) : s.dt w < s.dt u := by
  obtain ⟨a1, a2, rfl⟩ := List.append_of_mem (mem_discovered.mp hw)
  rw [i.ord a1 w (a2 ++ .discover u :: b) (by simp [e]), i.ord _ u b e]
  simp

theorem Inv.dt_after {pre : List (DfsEvent V E)} {s : Tarjan V} (i : Inv g pre s) {a b : List (DfsEvent V E)} {u w : V}
    (e : pre = a ++ .discover u :: b) (hw : w ∈ discovered b) : s.dt u < s.dt w := by
  obtain ⟨b1, b2, rfl⟩ := List.append_of_mem (mem_discovered.mp hw)
  exact i.dt_before (a := a ++ .discover u :: b1) (b := b2) (by simp [e]) (by simp)

theorem Inv.dt_lt_time {pre : List (DfsEvent V E)} {s : Tarjan V} (i : Inv g pre s) {v : V} (hv : v ∈ discovered pre) :
    s.dt v < s.time := by
  obtain ⟨a, b, e⟩ := List.append_of_mem (mem_discovered.mp hv)
  rw [i.ord a v b e, i.time, e]
  simp

theorem Inv.dt_inj {pre : List (DfsEvent V E)} {s : Tarjan V} (i : Inv g pre s) {v w : V} (hv : v ∈ discovered pre)
    (hw : w ∈ discovered pre) (h : s.dt v = s.dt w) : v = w := by
  obtain ⟨a, b, e⟩ := List.append_of_mem (mem_discovered.mp hv)
  rw [e] at hw
  simp at hw
  rcases hw with h1 | h1 | h1
  · have := i.dt_before e h1; omega
  · exact h1.symm
  · have := i.dt_after e h1; omega

/-- Everything reachable from an assigned vertex is assigned. -/
theorem Inv.reach_assigned {pre : List (DfsEvent V E)} {s : Tarjan V} (i : Inv g pre s) {v w : V} (hv : v ∈ discovered pre)
    (hk : s.compOf v ≠ none) (h : Reach g v w) : w ∈ discovered pre ∧ s.compOf w ≠ none := by
  refine h.closed (P := fun x => x ∈ discovered pre ∧ s.compOf x ≠ none) ?_ ⟨hv, hk⟩
  rintro u ⟨hu, hc⟩ e he
  cases hc' : s.compOf u with
  | none => exact absurd hc' hc
  | some k =>
    obtain ⟨h1, k', h2, _⟩ := i.closed u hu k hc' e he
    exact ⟨h1, by rw [h2]; simp⟩

/-- Events other than `discover` and `finish` do not matter. -/
theorem Inv.skip {pre : List (DfsEvent V E)} {s : Tarjan V} (i : Inv g pre s) (x : DfsEvent V E)
    (h1 : discovered [x] = []) (h2 : finished [x] = []) : Inv g (pre ++ [x]) s := by
  have hd : discovered (pre ++ [x]) = discovered pre := by rw [discovered_append, h1, List.append_nil]
  have hf : finished (pre ++ [x]) = finished pre := by rw [finished_append, h2, List.append_nil]
  refine ⟨by rw [hd]; exact i.time, ?_, i.pw, by rw [hd]; exact i.mem, by rw [hd, hf]; exact i.asg,
    by rw [hd, hf]; exact i.gray, by rw [hd]; exact i.closed, by rw [hd]; exact i.scc, by rw [hd]; exact i.used,
    by rw [hf]; exact i.blk, by rw [hf]; exact i.low, ?_, ?_, by rw [hd]; exact i.key⟩
  · intro a u b e
    rcases List.eq_nil_or_concat b with rfl | ⟨b', y, rfl⟩
    · obtain ⟨e1, e2⟩ := List.append_inj' e rfl
      simp only [List.cons.injEq, and_true] at e2
      rw [e2] at h1; simp at h1
    · have e' : pre ++ [x] = (a ++ .discover u :: b') ++ [y] := by simpa using e
      exact i.ord a u b' (List.append_inj' e' rfl).1
  · rw [hf]
    intro v hv hc w hw hcw
    rcases desc_snoc hw with h | ⟨h, _⟩
    · exact i.desc v hv hc w h hcw
    · rw [h] at h2; simp at h2
  · rw [hf]
    intro v w hw
    rcases desc_snoc hw with h | ⟨h, _⟩
    · exact i.dfin v w h
    · rw [h] at h2; simp at h2

theorem Inv.discover {pre : List (DfsEvent V E)} {s : Tarjan V} (i : Inv g pre s) (hfd : ∀ v ∈ finished pre, v ∈ discovered pre)
    (u : V) (hu : u ∉ discovered pre) : Inv g (pre ++ [.discover u]) (s.onDiscover u) := by
  have hd : discovered (pre ++ [.discover u]) = discovered pre ++ [u] := by simp
  have hf : finished (pre ++ [.discover u]) = finished pre := by simp
  have hc : ∀ v, (s.onDiscover u).compOf v = if u = v then none else s.compOf v := by
    intro v; unfold onDiscover compOf; simp only [Dict.getD_set]
  have hr : ∀ v, rootOf (s.onDiscover u).root v = if u = v then u else rootOf s.root v := by
    intro v; unfold onDiscover; rw [rootOf_set]
  have ht : ∀ v, (s.onDiscover u).dt v = if u = v then s.time else s.dt v := by
    intro v; unfold onDiscover dt; simp only [Dict.getD_set]
  have hcd : ∀ v ∈ discovered pre, (s.onDiscover u).compOf v = s.compOf v := by
    intro v hv; rw [hc, if_neg (fun e : u = v => hu (e ▸ hv))]
  have hrd : ∀ v ∈ discovered pre, rootOf (s.onDiscover u).root v = rootOf s.root v := by
    intro v hv; rw [hr, if_neg (fun e : u = v => hu (e ▸ hv))]
  have htd : ∀ v ∈ discovered pre, (s.onDiscover u).dt v = s.dt v := by
    intro v hv; rw [ht, if_neg (fun e : u = v => hu (e ▸ hv))]
  have hstk : ∀ v ∈ s.stack, v ∈ discovered pre := fun v hv => ((i.mem v).mp hv).1
  constructor
  · rw [hd]; simp [onDiscover, i.time]
  · intro a v b e
    rcases List.eq_nil_or_concat b with rfl | ⟨b', y, rfl⟩
    · obtain ⟨e1, e2⟩ := List.append_inj' e rfl
      simp only [List.cons.injEq, and_true, DfsEvent.discover.injEq] at e2
      subst e2 e1
      rw [ht, if_pos rfl, i.time]
    · have e' : pre ++ [.discover u] = (a ++ .discover v :: b') ++ [y] := by simpa using e
      have e1 := (List.append_inj' e' rfl).1
      rw [htd v (by rw [e1]; simp)]
      exact i.ord a v b' e1
  · show (u :: s.stack).Pairwise _
    rw [List.pairwise_cons]
    constructor
    · intro v hv
      rw [htd v (hstk v hv), ht, if_pos rfl]
      exact i.dt_lt_time (hstk v hv)
    · refine i.pw.imp_of_mem (fun {a b} ha hb h => ?_)
      rw [htd a (hstk a ha), htd b (hstk b hb)]
      exact h
  · intro v
    rw [hd, hc]
    show v ∈ u :: s.stack ↔ _
    rw [List.mem_cons, List.mem_append, i.mem v]
    by_cases e : u = v
    · simp [e]
    · simp [e, Ne.symm e]
  · intro v hv k hk
    rw [hd] at hv; rw [hf]
    rw [hc] at hk
    split at hk
    · cases hk
    · rename_i e
      have hv' : v ∈ discovered pre := by simpa [Ne.symm e] using hv
      exact i.asg v hv' k hk
  · intro v hv hnf
    rw [hd] at hv; rw [hf] at hnf
    rw [hr]
    split
    · assumption
    · rename_i e
      have hv' : v ∈ discovered pre := by simpa [Ne.symm e] using hv
      exact i.gray v hv' hnf
  · intro v hv k hk e he
    rw [hd] at hv ⊢
    rw [hc] at hk
    split at hk
    · cases hk
    · rename_i ne
      have hv' : v ∈ discovered pre := by simpa [Ne.symm ne] using hv
      obtain ⟨h1, k', h2, h3⟩ := i.closed v hv' k hk e he
      exact ⟨by simp [h1], k', by rw [hcd _ h1]; exact h2, h3⟩
  · intro v hv w hw hv' hw'
    rw [hd] at hv hw
    rw [hc] at hv' hw'
    split at hv'
    · exact absurd rfl hv'
    · split at hw'
      · exact absurd rfl hw'
      · rename_i e1 e2
        have h1 : v ∈ discovered pre := by simpa [Ne.symm e1] using hv
        have h2 : w ∈ discovered pre := by simpa [Ne.symm e2] using hw
        rw [hcd v h1, hcd w h2]
        exact i.scc v h1 w h2 hv' hw'
  · intro k hk
    obtain ⟨v, hv, h⟩ := i.used k hk
    exact ⟨v, by rw [hd]; simp [hv], by rw [hcd v hv]; exact h⟩
  · rw [hf]
    intro v hv hcv
    have hvd := hfd v hv
    rw [hcd v hvd] at hcv
    obtain ⟨h1, h2, h3⟩ := i.blk v hv hcv
    rw [hrd v hvd, htd v hvd, htd _ (hstk _ h2)]
    exact ⟨h1, by show _ ∈ u :: s.stack; simp [h2], h3⟩
  · rw [hf]
    intro v hv hcv e he hct
    have hvd := hfd v hv
    rw [hcd v hvd] at hcv
    have h2 := (i.blk v hv hcv).2.1
    rw [hrd v hvd, htd _ (hstk _ h2)]
    rw [hc] at hct
    rw [ht]
    split
    · exact Nat.le_of_lt (i.dt_lt_time (hstk _ h2))
    · rename_i ne
      rw [if_neg ne] at hct
      exact i.low v hv hcv e he hct
  · rw [hf]
    intro v hv hcv w hw hcw
    have hvd := hfd v hv
    rw [hcd v hvd] at hcv
    have h2 := (i.blk v hv hcv).2.1
    rcases desc_snoc hw with h | ⟨h, _⟩
    · have hwd : w ∈ discovered pre := by
        obtain ⟨a, b, d, e, hm⟩ := h
        rw [e]; simp [hm]
      rw [hcd w hwd] at hcw
      have hrw : rootOf s.root w ∈ discovered pre := by
        by_cases hwf : w ∈ finished pre
        · exact hstk _ (i.blk w hwf hcw).2.1
        · rw [i.gray w hwd hwf]; exact hwd
      rw [hrd v hvd, hrd w hwd, htd _ (hstk _ h2), htd _ hrw]
      exact i.desc v hv hcv w h hcw
    · cases h
  · rw [hf]
    intro v w hw
    rcases desc_snoc hw with h | ⟨h, _⟩
    · exact i.dfin v w h
    · cases h
  · intro v hv
    rw [hd] at hv
    unfold onDiscover compOf
    simp only [Dict.getD_set]
    by_cases e : u = v
    · simp [e]
    · have hv' : v ∈ discovered pre := by simpa [Ne.symm e] using hv
      simp only [e, if_false]
      exact i.key v hv'

/-! ### End of a vertex -/

theorem updateRoot_spec (s : Tarjan V) (u : V) (es : List E) (root : Dict V V) :
    (∀ w, w ≠ u → rootOf (updateRoot g s u root es) w = rootOf root w) ∧
    s.dt (rootOf (updateRoot g s u root es) u) ≤ s.dt (rootOf root u) ∧
    (∀ e ∈ es, s.compOf (g.target e) = none → s.dt (rootOf (updateRoot g s u root es) u) ≤ s.dt (rootOf root (g.target e))) ∧
    (rootOf (updateRoot g s u root es) u = rootOf root u ∨
      ∃ e ∈ es, s.compOf (g.target e) = none ∧ rootOf (updateRoot g s u root es) u = rootOf root (g.target e)) := by
  induction es generalizing root with
  | nil => simp [updateRoot]
  | cons e es ih =>
    have hstep : updateRoot g s u root (e :: es) = updateRoot g s u (if s.compOf (g.target e) = none then
        root.set u (s.discoverMin (rootOf root u) (rootOf root (g.target e))) else root) es := rfl
    rw [hstep]
    by_cases hc : s.compOf (g.target e) = none
    · rw [if_pos hc]
      obtain ⟨h1, h2, h3, h4⟩ := ih (root.set u (s.discoverMin (rootOf root u) (rootOf root (g.target e))))
      have hmin1 : s.dt (s.discoverMin (rootOf root u) (rootOf root (g.target e))) ≤ s.dt (rootOf root u) := by
        unfold discoverMin; split <;> omega
      have hmin2 : s.dt (s.discoverMin (rootOf root u) (rootOf root (g.target e))) ≤ s.dt (rootOf root (g.target e)) := by
        unfold discoverMin; split <;> omega
      rw [rootOf_set, if_pos rfl] at h2
      refine ⟨?_, by omega, ?_, ?_⟩
      · intro w hw
        rw [h1 w hw, rootOf_set, if_neg (Ne.symm hw)]
      · intro x hx hcx
        rcases List.mem_cons.mp hx with rfl | hx
        · omega
        · have := h3 x hx hcx
          rw [rootOf_set] at this
          split at this
          · rename_i e'; rw [← e']; omega
          · exact this
      · rw [rootOf_set, if_pos rfl] at h4
        rcases h4 with h4 | ⟨x, hx, hcx, h4⟩
        · rw [h4]
          unfold discoverMin
          split
          · exact .inl rfl
          · exact .inr ⟨e, by simp, hc, rfl⟩
        · rw [rootOf_set] at h4
          split at h4
          · rw [h4]
            unfold discoverMin
            split
            · exact .inl rfl
            · exact .inr ⟨e, by simp, hc, rfl⟩
          · exact .inr ⟨x, by simp [hx], hcx, h4⟩
    · rw [if_neg hc]
      obtain ⟨h1, h2, h3, h4⟩ := ih root
      refine ⟨h1, h2, ?_, ?_⟩
      · intro x hx hcx
        rcases List.mem_cons.mp hx with rfl | hx
        · exact absurd hcx hc
        · exact h3 x hx hcx
      · rcases h4 with h4 | ⟨x, hx, hcx, h4⟩
        · exact .inl h4
        · exact .inr ⟨x, by simp [hx], hcx, h4⟩

theorem popUntil_spec (total : Nat) (u : V) (l1 l2 : List V) (hu : u ∉ l1) (comp : Dict V (Option Nat)) (root : Dict V V) :
    ∃ comp' root', popUntil total u (l1 ++ u :: l2) comp root = .ok (l2, comp', root') ∧
      (∀ v d, comp'.getD v d = if v ∈ l1 ∨ v = u then some total else comp.getD v d) ∧
      (∀ v, v ∉ l1 → v ≠ u → rootOf root' v = rootOf root v) := by
  induction l1 generalizing comp root with
  | nil =>
    refine ⟨comp.set u (some total), root.set u u, by simp [popUntil], ?_, ?_⟩
    · intro v d
      rw [Dict.getD_set]
      by_cases e : u = v
      · simp [e]
      · simp [e, Ne.symm e]
    · intro v _ hv
      rw [rootOf_set, if_neg (Ne.symm hv)]
  | cons x l1 ih =>
    have hx : u ≠ x := fun e => hu (by simp [e])
    obtain ⟨comp', root', h1, h2, h3⟩ := ih (fun h => hu (by simp [h])) (comp.set x (some total)) (root.set x u)
    refine ⟨comp', root', by rw [List.cons_append, popUntil, if_neg hx]; exact h1, ?_, ?_⟩
    · intro v d
      rw [h2, Dict.getD_set]
      by_cases e1 : v ∈ l1 ∨ v = u
      · rw [if_pos e1, if_pos (by rw [List.mem_cons]; tauto)]
      · rw [if_neg e1]
        by_cases e : x = v
        · rw [if_pos e, if_pos (by rw [List.mem_cons]; exact .inl (.inl e.symm))]
        · rw [if_neg e, if_neg (by rw [List.mem_cons]; tauto)]
    · intro v hv hne
      rw [h3 v (fun h => hv (by simp [h])) hne, rootOf_set, if_neg (fun e => hv (by simp [e]))]

theorem Inv.finish {pre : List (DfsEvent V E)} {s : Tarjan V} (i : Inv g pre s) (hfd : ∀ v ∈ finished pre, v ∈ discovered pre)
    (u : V) (hok : DfsOK g (fun _ => true) pre (.finish u)) :
    ∃ s', s.onFinish g u = .ok s' ∧ Inv g (pre ++ [.finish u]) s' := by
  obtain ⟨hg, htg, _, a, b, epre, hsame, hin, hchild⟩ := hok
  obtain ⟨hud, huf⟩ := traceColor_gray.mp hg
  have hthr : g.through (fun _ => true) = g := by unfold GraphI.through; simp
  have htd : ∀ e ∈ g.outEdges u, g.target e ∈ discovered pre := by
    intro e he
    rcases htg e (List.mem_filter.mpr ⟨he, rfl⟩) with h | ⟨h, _⟩
    · exact hfd _ (traceColor_black.mp h)
    · exact (traceColor_gray.mp h).1
  have hcu : s.compOf u = none := by
    cases h : s.compOf u with
    | none => rfl
    | some k => exact absurd (i.asg u hud k h).1 huf
  have hru : rootOf s.root u = u := i.gray u hud huf
  have hd : discovered (pre ++ [.finish u]) = discovered pre := by simp
  have hf : finished (pre ++ [.finish u]) = finished pre ++ [u] := by simp
  have hstk : ∀ v ∈ s.stack, v ∈ discovered pre ∧ s.compOf v = none := fun v hv => (i.mem v).mp hv
  have hord : ∀ a v b, pre ++ [.finish u] = a ++ .discover v :: b → s.dt v = (discovered a).length := by
    intro a v b e
    rcases List.eq_nil_or_concat b with rfl | ⟨b', y, rfl⟩
    · have := (List.append_inj' e rfl).2; simp at this
    · have e' : pre ++ [.finish u] = (a ++ .discover v :: b') ++ [y] := by simpa using e
      exact i.ord a v b' (List.append_inj' e' rfl).1
  -- the root of an unassigned vertex
  have hroot : ∀ v ∈ discovered pre, s.compOf v = none → rootOf s.root v ∈ s.stack ∧ Reach g v (rootOf s.root v) ∧
      s.dt (rootOf s.root v) ≤ s.dt v := by
    intro v hv hc
    by_cases hvf : v ∈ finished pre
    · obtain ⟨h1, h2, h3⟩ := i.blk v hvf hc
      exact ⟨h2, h3, by omega⟩
    · rw [i.gray v hv hvf]
      exact ⟨(i.mem v).mpr ⟨hv, hc⟩, Reach.refl _ _, Nat.le_refl _⟩
  obtain ⟨r1, r2, r3, r4⟩ := updateRoot_spec (g := g) s u (g.outEdges u) s.root
  rw [hru] at r2 r4
  -- the vertices discovered since u
  have hM : ∀ w ∈ discovered b, s.compOf w = none →
      s.dt (rootOf (updateRoot g s u s.root (g.outEdges u)) u) ≤ s.dt (rootOf s.root w) := by
    intro w hw hcw
    obtain ⟨e, he, hr, b1, b2, b3, eb, hcase⟩ := hchild w hw
    have he' : e ∈ g.outEdges u := (List.mem_filter.mp he).1
    rw [hthr] at hr
    have hxd := htd e he'
    have hcx : s.compOf (g.target e) = none := by
      by_contra h
      exact (i.reach_assigned hxd h hr).2 hcw
    have h1 := r3 e he' hcx
    rcases hcase with rfl | hm
    · exact h1
    · have hxf : g.target e ∈ finished pre := by rw [epre, eb]; simp
      have := i.desc (g.target e) hxf hcx w ⟨a ++ .discover u :: b1, b2, b3, by rw [epre, eb]; simp, hm⟩ hcw
      omega
  have hsince : ∀ a' b' w, pre = a' ++ .discover u :: b' → w ∈ discovered b' → w ∈ discovered b ∧ w ≠ u := by
    intro a' b' w e' hw'
    have h1 := i.dt_after e' hw'
    have hwd : w ∈ discovered pre := by rw [e']; simp [hw']
    have hne : w ≠ u := by rintro rfl; omega
    rw [epre] at hwd
    simp at hwd
    rcases hwd with h | h | h
    · have := i.dt_before epre h; omega
    · exact absurd h hne
    · exact ⟨h, hne⟩
  have hdfin : ∀ v w, Desc (pre ++ [.finish u]) v w → w ∈ finished (pre ++ [DfsEvent.finish u]) := by
    intro v w hw
    rw [hf]
    rcases desc_snoc hw with h | ⟨h, a', b', e', hw'⟩
    · simp [i.dfin v w h]
    · simp only [DfsEvent.finish.injEq] at h
      subst h
      have := (hsame w).mp (hsince a' b' w e' hw').1
      rw [epre]; simp [this]
  unfold onFinish
  by_cases hpop : rootOf (updateRoot g s u s.root (g.outEdges u)) u = u
  · -- u is the root of a component
    simp only [hpop, if_true]
    rw [hpop] at r2 r3 r4 hM
    obtain ⟨l1, l2, est⟩ := List.append_of_mem ((i.mem u).mpr ⟨hud, hcu⟩)
    have hpw := i.pw
    rw [est, List.pairwise_append, List.pairwise_cons] at hpw
    obtain ⟨_, ⟨hl2, hpw2⟩, hl1⟩ := hpw
    have hl1' : ∀ v ∈ l1, s.dt u < s.dt v := fun v hv => hl1 v hv u (by simp)
    have hul1 : u ∉ l1 := fun h => Nat.lt_irrefl _ (hl1' u h)
    obtain ⟨comp', root', hpop', hc', hr'⟩ := popUntil_spec s.total u l1 l2 hul1 s.comp (updateRoot g s u s.root (g.outEdges u))
    rw [est, hpop']
    refine ⟨_, rfl, ?_⟩
    have hT : ∀ v, (v ∈ l1 ∨ v = u) ↔ v ∈ s.stack ∧ s.dt u ≤ s.dt v := by
      intro v
      rw [est, List.mem_append, List.mem_cons]
      constructor
      · rintro (h | rfl)
        · exact ⟨.inl h, Nat.le_of_lt (hl1' v h)⟩
        · exact ⟨.inr (.inl rfl), Nat.le_refl _⟩
      · rintro ⟨h | h | h, h'⟩
        · exact .inl h
        · exact .inr h
        · have := hl2 v h; omega
    have hnew : ∀ v, comp'.getD v (some 0) = if v ∈ s.stack ∧ s.dt u ≤ s.dt v then some s.total else s.compOf v := by
      intro v
      rw [hc']
      simp only [hT]
      rfl
    -- elements of the component
    have hTb : ∀ v, v ∈ s.stack → s.dt u ≤ s.dt v → v = u ∨ v ∈ discovered b := by
      intro v hv hle
      have := (hstk v hv).1
      rw [epre] at this
      simp at this
      rcases this with h | h | h
      · have := i.dt_before epre h; omega
      · exact .inl h
      · exact .inr h
    have hTfin : ∀ v, v ∈ s.stack → s.dt u ≤ s.dt v → v ≠ u → v ∈ finished pre := by
      intro v hv hle hne
      rcases hTb v hv hle with h | h
      · exact absurd h hne
      · rw [epre]; simp [(hsame v).mp h]
    have hTroot : ∀ v, v ∈ s.stack → s.dt u ≤ s.dt v → s.dt u ≤ s.dt (rootOf s.root v) := by
      intro v hv hle
      rcases hTb v hv hle with rfl | h
      · rw [hru]; exact Nat.le_refl _
      · exact hM v h (hstk v hv).2
    have hTfrom : ∀ v, v ∈ s.stack → s.dt u ≤ s.dt v → Reach g u v := by
      intro v hv hle
      rcases hTb v hv hle with rfl | h
      · exact Reach.refl _ _
      · have := ((hin v).mp h).2
        have := this.through_mono (q := fun _ => true) (fun _ _ => rfl)
        rwa [hthr] at this
    have hTto : ∀ n v, s.dt v ≤ n → v ∈ s.stack → s.dt u ≤ s.dt v → Reach g v u := by
      intro n
      induction n with
      | zero =>
        intro v hn hv hle
        have : v = u := i.dt_inj (hstk v hv).1 hud (by omega)
        subst this; exact Reach.refl _ _
      | succ n ih =>
        intro v hn hv hle
        by_cases hvu : v = u
        · subst hvu; exact Reach.refl _ _
        · obtain ⟨h1, h2, h3⟩ := i.blk v (hTfin v hv hle hvu) (hstk v hv).2
          exact h3.trans (ih _ (by omega) h2 (hTroot v hv hle))
    -- edges leaving the component
    have hTedge : ∀ v, v ∈ s.stack → s.dt u ≤ s.dt v → ∀ e ∈ g.outEdges v, g.target e ∈ discovered pre ∧
        (s.compOf (g.target e) = none → s.dt u ≤ s.dt (g.target e)) := by
      intro v hv hle e he
      by_cases hvu : v = u
      · subst hvu
        refine ⟨htd e he, fun hc => ?_⟩
        have h1 := r3 e he hc
        have h2 := (hroot _ (htd e he) hc).2.2
        omega
      · have hvf := hTfin v hv hle hvu
        rcases hTb v hv hle with h | h
        · exact absurd h hvu
        · have hne : g.target e ∈ discovered pre := by
            by_cases hx : g.target e ∈ discovered a
            · rw [epre]; simp [hx]
            · rw [epre]
              by_cases hxu : g.target e = u
              · simp [hxu]
              · have : g.target e ∈ discovered b := by
                  refine (hin _).mpr ⟨hxu, ((hin v).mp h).2.step ?_⟩
                  exact List.mem_filter.mpr ⟨he, by simpa using hx⟩
                simp [this]
          refine ⟨hne, fun hc => ?_⟩
          have h1 := i.low v hvf (hstk v hv).2 e he hc
          have h2 := hTroot v hv hle
          omega
    have hdt : ∀ (st : List V) v, ({ s with stack := st, comp := comp', root := root', total := s.total + 1 } : Tarjan V).dt v = s.dt v :=
      fun _ _ => rfl
    have hco : ∀ (st : List V) v, ({ s with stack := st, comp := comp', root := root', total := s.total + 1 } : Tarjan V).compOf v =
        if v ∈ s.stack ∧ s.dt u ≤ s.dt v then some s.total else s.compOf v := fun _ v => hnew v
    have hmem2 : ∀ v, v ∈ l2 ↔ v ∈ s.stack ∧ ¬ s.dt u ≤ s.dt v := by
      intro v
      rw [est, List.mem_append, List.mem_cons]
      constructor
      · intro h; have := hl2 v h; exact ⟨.inr (.inr h), by omega⟩
      · rintro ⟨h | h | h, h'⟩
        · have := hl1' v h; omega
        · subst h; omega
        · exact h
    have hrt : ∀ v, ¬ (v ∈ s.stack ∧ s.dt u ≤ s.dt v) → rootOf root' v = rootOf s.root v := by
      intro v hv
      have hnm : ¬ (v ∈ l1 ∨ v = u) := fun h => hv ((hT v).mp h)
      have hvu : v ≠ u := fun h => hnm (.inr h)
      rw [hr' v (fun h => hnm (.inl h)) hvu, r1 v hvu]
    constructor
    · rw [hd]; exact i.time
    · exact hord
    · exact hpw2
    · intro v
      rw [hd, hco]
      show v ∈ l2 ↔ _
      rw [hmem2]
      constructor
      · rintro ⟨h1, h2⟩
        rw [if_neg (fun h => h2 h.2)]
        exact (i.mem v).mp h1
      · rintro ⟨h1, h2⟩
        split at h2
        · cases h2
        · rename_i hn
          have := (i.mem v).mpr ⟨h1, h2⟩
          exact ⟨this, fun h => hn ⟨this, h⟩⟩
    · intro v hv k hk
      rw [hd] at hv; rw [hf]; rw [hco] at hk
      show _ ∧ k < s.total + 1
      split at hk
      · rename_i hT'
        simp only [Option.some.injEq] at hk
        refine ⟨?_, by omega⟩
        by_cases hvu : v = u
        · simp [hvu]
        · simp [hTfin v hT'.1 hT'.2 hvu]
      · obtain ⟨h1, h2⟩ := i.asg v hv k hk
        exact ⟨by simp [h1], by omega⟩
    · intro v hv hnf
      rw [hd] at hv; rw [hf] at hnf
      simp at hnf
      have : ¬ (v ∈ s.stack ∧ s.dt u ≤ s.dt v) := fun h => hnf.1 (hTfin v h.1 h.2 hnf.2)
      rw [hrt v this]
      exact i.gray v hv hnf.1
    · intro v hv k hk e he
      rw [hd] at hv ⊢
      rw [hco] at hk
      split at hk
      · rename_i hT'
        simp only [Option.some.injEq] at hk
        obtain ⟨h1, h2⟩ := hTedge v hT'.1 hT'.2 e he
        refine ⟨h1, ?_⟩
        rw [hco]
        split
        · exact ⟨_, rfl, by omega⟩
        · rename_i hn
          cases hct : s.compOf (g.target e) with
          | none => exact absurd ⟨(i.mem _).mpr ⟨h1, hct⟩, h2 hct⟩ hn
          | some k' => exact ⟨k', rfl, by have := (i.asg _ h1 k' hct).2; omega⟩
      · obtain ⟨h1, k', h2, h3⟩ := i.closed v hv k hk e he
        refine ⟨h1, k', ?_, h3⟩
        rw [hco, if_neg]
        · exact h2
        · rintro ⟨hs, _⟩
          rw [(hstk _ hs).2] at h2; cases h2
    · intro v hv w hw hcv hcw
      rw [hd] at hv hw
      rw [hco] at hcv hcw
      rw [hco, hco]
      by_cases h1 : v ∈ s.stack ∧ s.dt u ≤ s.dt v
      · by_cases h2 : w ∈ s.stack ∧ s.dt u ≤ s.dt w
        · rw [if_pos h1, if_pos h2]
          refine ⟨fun _ => ⟨?_, ?_⟩, fun _ => rfl⟩
          · exact (hTto _ v (Nat.le_refl _) h1.1 h1.2).trans (hTfrom w h2.1 h2.2)
          · exact (hTto _ w (Nat.le_refl _) h2.1 h2.2).trans (hTfrom v h1.1 h1.2)
        · rw [if_pos h1, if_neg h2]
          rw [if_neg h2] at hcw
          constructor
          · intro h
            have := (i.asg w hw s.total h.symm).2
            omega
          · rintro ⟨_, h⟩
            exact absurd (hstk v h1.1).2 (i.reach_assigned hw hcw h).2
      · rw [if_neg h1] at hcv
        by_cases h2 : w ∈ s.stack ∧ s.dt u ≤ s.dt w
        · rw [if_neg h1, if_pos h2]
          constructor
          · intro h
            have := (i.asg v hv s.total h).2
            omega
          · rintro ⟨h, _⟩
            exact absurd (hstk w h2.1).2 (i.reach_assigned hv hcv h).2
        · rw [if_neg h1, if_neg h2]
          rw [if_neg h2] at hcw
          exact i.scc v hv w hw hcv hcw
    · intro k hk
      have hk : k < s.total + 1 := hk
      rw [hd]
      by_cases hkt : k = s.total
      · refine ⟨u, hud, ?_⟩
        rw [hco, if_pos ⟨(i.mem u).mpr ⟨hud, hcu⟩, Nat.le_refl _⟩, hkt]
      · obtain ⟨v, hv, h⟩ := i.used k (by omega)
        refine ⟨v, hv, ?_⟩
        rw [hco, if_neg]
        · exact h
        · rintro ⟨hs, _⟩
          rw [(hstk _ hs).2] at h; cases h
    · intro v hv hcv
      rw [hco] at hcv
      split at hcv
      · cases hcv
      · rename_i hn
        rw [hf] at hv
        have hv' : v ∈ finished pre := by
          rcases List.mem_append.mp hv with h | h
          · exact h
          · have : v = u := by simpa using h
            subst this
            exact absurd ⟨(i.mem v).mpr ⟨hud, hcu⟩, Nat.le_refl _⟩ hn
        obtain ⟨h1, h2, h3⟩ := i.blk v hv' hcv
        show s.dt (rootOf root' v) < s.dt v ∧ rootOf root' v ∈ l2 ∧ Reach g v (rootOf root' v)
        rw [hrt v hn]
        refine ⟨h1, ?_, h3⟩
        rw [hmem2]
        refine ⟨h2, fun hle => hn ⟨(i.mem v).mpr ⟨hfd v hv', hcv⟩, by omega⟩⟩
    · intro v hv hcv e he hct
      rw [hco] at hcv hct
      split at hcv
      · cases hcv
      · rename_i hn
        split at hct
        · cases hct
        · rw [hf] at hv
          have hv' : v ∈ finished pre := by
            rcases List.mem_append.mp hv with h | h
            · exact h
            · have : v = u := by simpa using h
              subst this
              exact absurd ⟨(i.mem v).mpr ⟨hud, hcu⟩, Nat.le_refl _⟩ hn
          show s.dt (rootOf root' v) ≤ _
          rw [hrt v hn]
          exact i.low v hv' hcv e he hct
    · intro v hv hcv w hw hcw
      rw [hco] at hcv hcw
      split at hcv
      · cases hcv
      · rename_i hn
        split at hcw
        · cases hcw
        · rename_i hnw
          rw [hf] at hv
          have hvu : v ≠ u := by
            rintro rfl
            exact absurd ⟨(i.mem v).mpr ⟨hud, hcu⟩, Nat.le_refl _⟩ hn
          have hv' : v ∈ finished pre := by
            rcases List.mem_append.mp hv with h | h
            · exact h
            · exact absurd (by simpa using h) hvu
          show s.dt (rootOf root' v) ≤ s.dt (rootOf root' w)
          rw [hrt v hn, hrt w hnw]
          rcases desc_snoc hw with h | ⟨h, _⟩
          · exact i.desc v hv' hcv w h hcw
          · simp only [DfsEvent.finish.injEq] at h; exact absurd h.symm hvu
    · exact hdfin
    · intro v hv
      rw [hd] at hv
      show comp'.getD v none = comp'.getD v (some 0)
      rw [hc', hc', show s.comp.getD v none = _ from i.key v hv]; rfl
  · simp only [hpop, if_false]
    refine ⟨_, rfl, ?_⟩
    have hrt : ∀ v, v ≠ u → rootOf (updateRoot g s u s.root (g.outEdges u)) v = rootOf s.root v := r1
    -- the new root of u
    have hnr : rootOf (updateRoot g s u s.root (g.outEdges u)) u ∈ s.stack ∧
        Reach g u (rootOf (updateRoot g s u s.root (g.outEdges u)) u) := by
      rcases r4 with h | ⟨e, he, hce, h⟩
      · exact absurd h hpop
      · obtain ⟨h1, h2, h3⟩ := hroot _ (htd e he) hce
        rw [h]
        exact ⟨h1, (Reach.edge he).trans h2⟩
    have hlt : s.dt (rootOf (updateRoot g s u s.root (g.outEdges u)) u) < s.dt u := by
      rcases Nat.lt_or_ge (s.dt (rootOf (updateRoot g s u s.root (g.outEdges u)) u)) (s.dt u) with h | h
      · exact h
      · exact absurd (i.dt_inj (hstk _ hnr.1).1 hud (by omega)) hpop
    have hwf : ∀ v, v ∈ finished (pre ++ [DfsEvent.finish u]) → v ∈ finished pre ∨ v = u := by
      intro v hv; rw [hf] at hv; simpa using hv
    constructor
    · rw [hd]; exact i.time
    · exact hord
    · exact i.pw
    · rw [hd]; exact i.mem
    · intro v hv k hk
      rw [hd] at hv; rw [hf]
      obtain ⟨h1, h2⟩ := i.asg v hv k hk
      exact ⟨by simp [h1], h2⟩
    · intro v hv hnf
      rw [hd] at hv; rw [hf] at hnf
      simp at hnf
      show rootOf (updateRoot g s u s.root (g.outEdges u)) v = v
      rw [hrt v hnf.2]
      exact i.gray v hv hnf.1
    · rw [hd]; exact i.closed
    · rw [hd]; exact i.scc
    · rw [hd]; exact i.used
    · intro v hv hcv
      show s.dt (rootOf (updateRoot g s u s.root (g.outEdges u)) v) < s.dt v ∧ _ ∈ s.stack ∧ Reach g v _
      by_cases hvu : v = u
      · subst hvu; exact ⟨hlt, hnr⟩
      · rw [hrt v hvu]
        rcases hwf v hv with h | h
        · exact i.blk v h hcv
        · exact absurd h hvu
    · intro v hv hcv e he hct
      show s.dt (rootOf (updateRoot g s u s.root (g.outEdges u)) v) ≤ _
      by_cases hvu : v = u
      · subst hvu
        exact Nat.le_trans (r3 e he hct) (hroot _ (htd e he) hct).2.2
      · rw [hrt v hvu]
        rcases hwf v hv with h | h
        · exact i.low v h hcv e he hct
        · exact absurd h hvu
    · intro v hv hcv w hw hcw
      show s.dt (rootOf (updateRoot g s u s.root (g.outEdges u)) v) ≤ s.dt (rootOf (updateRoot g s u s.root (g.outEdges u)) w)
      by_cases hvu : v = u
      · subst hvu
        rcases desc_snoc hw with ⟨a', b', d', e', _⟩ | ⟨_, a', b', e', hw'⟩
        · exact absurd (by rw [e']; simp) huf
        · have hwb := hsince a' b' w e' hw'
          rw [hrt w hwb.2]
          exact hM w hwb.1 hcw
      · have hv' : v ∈ finished pre := by
          rcases hwf v hv with h | h
          · exact h
          · exact absurd h hvu
        rw [hrt v hvu]
        rcases desc_snoc hw with h | ⟨h, _⟩
        · have hwu : w ≠ u := by
            rintro rfl
            exact huf (i.dfin v w h)
          rw [hrt w hwu]
          exact i.desc v hv' hcv w h hcw
        · simp only [DfsEvent.finish.injEq] at h; exact absurd h.symm hvu
    · exact hdfin
    · rw [hd]; exact i.key

/-- The visitor never raises on the calls of a depth-first search, and keeps its invariant. -/
theorem emit_inv {us : List V} {c : Dict V Color} {tr : List (DfsEvent V E)} (f : DfsFacts g (fun _ => true) us c tr) :
    ∀ pre rest, tr = pre ++ rest → ∀ s, Inv g pre s → ∃ s', emit (tarjanVisitor g) rest s = .ok s' ∧ Inv g tr s' := by
  intro pre rest
  induction rest generalizing pre with
  | nil => intro e s i; exact ⟨s, rfl, by simpa [e] using i⟩
  | cons x rest ih =>
    intro e s i
    have hok := f.ok pre x rest e
    have hfd : ∀ v ∈ finished pre, v ∈ discovered pre := by
      intro v hv
      obtain ⟨a1, a2, rfl⟩ := List.append_of_mem (mem_finished.mp hv)
      have := (traceColor_gray.mp (f.ok a1 (.finish v) (a2 ++ x :: rest) (by simp [e])).1).1
      simp [this]
    have key : ∃ s1, tarjanVisitor g x s = .ok s1 ∧ Inv g (pre ++ [x]) s1 := by
      cases x with
      | discover u => exact ⟨_, rfl, i.discover hfd u (traceColor_white.mp hok.1).1⟩
      | finish u => exact i.finish hfd u hok
      | _ => exact ⟨s, rfl, i.skip _ (by simp) (by simp)⟩
    obtain ⟨s1, h1, h2⟩ := key
    obtain ⟨s2, h3, h4⟩ := ih (pre ++ [x]) (by simp [e]) s1 h2
    exact ⟨s2, by rw [emit_cons, h1]; exact h3, h4⟩

/-- The initial state. -/
theorem Inv.init (comp : Dict V (Option Nat)) : Inv g [] (⟨0, comp, [], [], 0, []⟩ : Tarjan V) := by
  refine ⟨rfl, by simp, .nil, by simp, by simp, by simp, by simp, by simp, by simp, by simp, by simp, ?_, ?_, by simp⟩
  · simp
  · rintro v w ⟨a, b, d, e, _⟩; simp at e

/-- At the end of the search, every vertex is assigned. -/
theorem Inv.done {us : List V} {c : Dict V Color} {tr : List (DfsEvent V E)} (f : DfsFacts g (fun _ => true) us c tr) {s : Tarjan V}
    (i : Inv g tr s) : ∀ v ∈ discovered tr, s.compOf v ≠ none := by
  have hfd : ∀ v, v ∈ finished tr ↔ v ∈ discovered tr := fun v => f.perm.mem_iff
  have key : ∀ n v, s.dt v ≤ n → v ∈ discovered tr → s.compOf v ≠ none := by
    intro n
    induction n with
    | zero =>
      intro v hn hv hc
      have := (i.blk v ((hfd v).mpr hv) hc).1
      omega
    | succ n ih =>
      intro v hn hv hc
      obtain ⟨h1, h2, _⟩ := i.blk v ((hfd v).mpr hv) hc
      have h3 := (i.mem _).mp h2
      exact ih _ (by omega) h3.1 h3.2
  exact fun v hv => key _ v (Nat.le_refl _) hv

end Tarjan
end PyBGL
