import Verif.Spec.Trail
import Verif.Proofs.DijkstraRun

/-!
# When `make_shortest_path` ends
-/

namespace PyBGL.Dijkstra
variable {V E : Type} [DecidableEq V] [DecidableEq E] {g : GraphI V E} {s t : V} {preds : Dict V (List E)}

omit [DecidableEq V] [DecidableEq E] in
theorem Trail.trans {f : V → List E} {t u v : V} {p q : List E} (h : Trail g s f t u p) (h' : Trail g s f u v q) : Trail g s f t v (q ++ p) := by
  induction h' with
  | nil => exact h
  | cons _ h2 h3 ih => exact .cons ih h2 h3

/-- What the function has done so far. -/
def Walked (g : GraphI V E) (s : V) (preds : Dict V (List E)) (t : V) (x : V × List E) : Prop :=
  Trail g s (preds.getD · []) t x.1 x.2

theorem walked_step {ord : SetOracle E} (hord : ord.Valid) {n : Nat} {x : V × List E} (h : Walked g s preds t x) :
    (x.1 = s ∧ shortestPathStep ord g s preds n x = .done x.2) ∨
    (x.1 ≠ s ∧ preds.getD x.1 [] = [] ∧ shortestPathStep ord g s preds n x = .fail .indexError) ∨
    (x.1 ≠ s ∧ ∃ e ∈ preds.getD x.1 [], shortestPathStep ord g s preds n x = .next (g.source e, e :: x.2) ∧ Walked g s preds t (g.source e, e :: x.2)) := by
  unfold shortestPathStep
  by_cases hx : x.1 = s
  · exact .inl ⟨hx, by rw [if_pos hx]⟩
  · rw [if_neg hx]
    cases ho : ord n (preds.getD x.1 []) with
    | nil =>
      have := hord n (preds.getD x.1 [])
      rw [ho] at this
      exact .inr (.inl ⟨hx, this.nil_eq.symm, rfl⟩)
    | cons e l =>
      have he : e ∈ preds.getD x.1 [] := (hord n _).mem_iff.mp (by rw [ho]; simp)
      exact .inr (.inr ⟨hx, e, he, rfl, .cons h hx he⟩)

/-- The result, whenever the function ends. -/
theorem makePath_result {ord : SetOracle E} (hord : ord.Valid) {fuel : Nat} {r : Except PyErr (List E)} (h : makeShortestPath ord g s t preds fuel = some r) :
    (∃ p, r = .ok p ∧ Trail g s (preds.getD · []) t s p) ∨
    (r = .error .indexError ∧ ∃ u p, Trail g s (preds.getD · []) t u p ∧ u ≠ s ∧ preds.getD u [] = []) := by
  refine loop_partial (shortestPathStep ord g s preds) (Walked g s preds t)
    (fun r => (∃ p, r = .ok p ∧ Trail g s (preds.getD · []) t s p) ∨
      (r = .error .indexError ∧ ∃ u p, Trail g s (preds.getD · []) t u p ∧ u ≠ s ∧ preds.getD u [] = [])) ?_ ?_ ?_ (s := (t, [])) .nil h
  · intro n x x' hx hs
    rcases walked_step (n := n) hord hx with ⟨_, h1⟩ | ⟨_, _, h1⟩ | ⟨_, e, _, h1, h2⟩ <;> rw [h1] at hs <;> cases hs
    exact h2
  · intro n x p hx hs
    rcases walked_step (n := n) hord hx with ⟨h0, h1⟩ | ⟨_, _, h1⟩ | ⟨_, e, _, h1, h2⟩ <;> rw [h1] at hs <;> cases hs
    exact .inl ⟨_, rfl, h0 ▸ hx⟩
  · intro n x p hx hs
    rcases walked_step (n := n) hord hx with ⟨h0, h1⟩ | ⟨h0, h2, h1⟩ | ⟨_, e, _, h1, h2⟩ <;> rw [h1] at hs <;> cases hs
    exact .inr ⟨rfl, _, _, hx, h0, h2⟩

/-- Without cycle, the function ends whatever the enumeration of the sets. -/
theorem makePath_ends (hc : ¬ TrailCycle g s (preds.getD · []) t) {ord : SetOracle E} (hord : ord.Valid) :
    ∃ r, Returns (makeShortestPath ord g s t preds) r := by
  obtain ⟨r, h, _⟩ := loop_total (shortestPathStep ord g s preds)
    (fun x => Walked g s preds t x ∧ ∃ vs : List V, vs.length = x.2.length ∧ vs.Nodup ∧
      ∀ v ∈ vs, v ∈ preds.keys ∧ (∃ p, Trail g s (preds.getD · []) t v p) ∧ ∃ q, q ≠ [] ∧ Trail g s (preds.getD · []) v x.1 q)
    (fun x => preds.keys.length + 1 - x.2.length) (fun _ => True) (by
      rintro n x x' ⟨hx, vs, h1, h2, h3⟩ hs
      rcases walked_step (n := n) hord hx with ⟨_, k1⟩ | ⟨_, _, k1⟩ | ⟨k0, e, ke, k1, k2⟩ <;> rw [k1] at hs <;> cases hs
      have hkey : x.1 ∈ preds.keys := by
        cases hg : preds.get? x.1 with
        | none =>
          unfold Dict.getD at ke
          rw [hg] at ke
          cases ke
        | some l => exact (Dict.mem_keys_iff _ _).mpr ⟨l, hg⟩
      have hnew : x.1 ∉ vs := by
        intro hv
        obtain ⟨_, ⟨p, hp⟩, q, hq, hq'⟩ := h3 _ hv
        exact hc ⟨x.1, p, q, hp, hq', hq⟩
      refine ⟨⟨k2, x.1 :: vs, by simp [h1], List.nodup_cons.mpr ⟨hnew, h2⟩, ?_⟩, ?_⟩
      · intro v hv
        rcases List.mem_cons.mp hv with rfl | hv
        · exact ⟨hkey, ⟨_, hx⟩, [e], by simp, .cons .nil k0 ke⟩
        · obtain ⟨m1, m2, q, _, m3⟩ := h3 v hv
          exact ⟨m1, m2, e :: q, by simp, .cons m3 k0 ke⟩
      · have hle : (x.1 :: vs).length ≤ preds.keys.length := by
          refine (List.subperm_of_subset (List.nodup_cons.mpr ⟨hnew, h2⟩) ?_).length_le
          intro v hv
          rcases List.mem_cons.mp hv with rfl | hv
          · exact hkey
          · exact (h3 v hv).1
        rw [List.length_cons] at hle
        simp only [List.length_cons]
        omega)
    (fun _ _ _ _ _ => trivial) (fun _ _ _ _ _ => trivial) (s := (t, [])) ⟨.nil, [], rfl, by simp, by simp⟩ 0
  exact ⟨r, h⟩

/-- With a cycle, some enumeration of the sets, the same at every moment, makes the function turn for ever. -/
theorem makePath_diverges (hc : TrailCycle g s (preds.getD · []) t) :
    ∃ f : List E → List E, SetOracle.Valid (fun _ => f) ∧ Diverges (makeShortestPath (fun _ => f) g s t preds) := by
  classical
  obtain ⟨u, p, c, h1, h2, h3⟩ := hc
  -- the vertices from which one may come back to `u`
  let L : V → Prop := fun v => ∃ q, Trail g s (preds.getD · []) v u q
  have hL : ∀ v, L v → v ≠ s ∧ ∃ e ∈ preds.getD v [], L (g.source e) := by
    have key : ∀ {v w : V} {q : List E}, Trail g s (preds.getD · []) v w q → q ≠ [] →
        v ≠ s ∧ ∃ e ∈ preds.getD v [], ∃ q', Trail g s (preds.getD · []) (g.source e) w q' := by
      intro v w q h
      induction h with
      | nil => intro h; exact absurd rfl h
      | @cons x q e h hx he ih =>
        intro _
        by_cases hq : q = []
        · subst hq
          cases h
          exact ⟨hx, e, he, [], .nil⟩
        · obtain ⟨m1, e', m2, q', m3⟩ := ih hq
          exact ⟨m1, e', m2, e :: q', .cons m3 hx he⟩
    rintro v ⟨q, hq⟩
    have hq' : Trail g s (preds.getD · []) v u (c ++ q) := Trail.trans hq h2
    obtain ⟨m1, e, m2, q', m3⟩ := key hq' (by simp [h3])
    exact ⟨m1, e, m2, q', m3⟩
  let f : List E → List E := fun l => if h : ∃ e ∈ l, L (g.source e) then h.choose :: l.erase h.choose else l
  refine ⟨f, ?_, ?_⟩
  · intro _ l
    show (f l).Perm l
    by_cases h : ∃ e ∈ l, L (g.source e)
    · have : f l = h.choose :: l.erase h.choose := dif_pos h
      rw [this]
      exact (List.perm_cons_erase h.choose_spec.1).symm
    · have : f l = l := dif_neg h
      rw [this]
  · intro fuel
    unfold makeShortestPath
    have : ∀ fuel n v q, L v → loop (shortestPathStep (fun _ => f) g s preds) fuel n (v, q) = none := by
      intro fuel
      induction fuel with
      | zero => intro n v q _; rfl
      | succ fuel ih =>
        intro n v q hv
        obtain ⟨m1, m2⟩ := hL v hv
        have hf : f (preds.getD v []) = m2.choose :: (preds.getD v []).erase m2.choose := dif_pos m2
        rw [loop]
        have hs : shortestPathStep (fun _ => f) g s preds n (v, q) = .next (g.source m2.choose, m2.choose :: q) := by
          unfold shortestPathStep
          rw [if_neg m1]
          simp only
          rw [hf]
        rw [hs]
        exact ih _ _ _ m2.choose_spec.2
    exact this fuel 0 t [] ⟨p, h1⟩

end PyBGL.Dijkstra
