import Verif.Model.Revuz
import Verif.Spec.Height
import Verif.Props.C51_C54_Dfs

/-!
# Proofs about `revuz_height`
-/

namespace PyBGL
variable {V E : Type} [DecidableEq V]

theorem pathTo_zero {g : GraphI V E} {L : List V} {v : V} : PathTo g L 0 v ↔ v ∈ L := by
  constructor
  · rintro ⟨es, w, hw, hp, hl⟩
    cases hp with
    | nil => exact hw
    | cons => simp at hl
  · intro h; exact ⟨[], v, h, .nil v, rfl⟩

theorem pathTo_succ {g : GraphI V E} {L : List V} {k : Nat} {v : V} :
    PathTo g L (k + 1) v ↔ ∃ e ∈ g.outEdges v, PathTo g L k (g.target e) := by
  constructor
  · rintro ⟨es, w, hw, hp, hl⟩
    cases hp with
    | nil => simp at hl
    | cons he hp => exact ⟨_, he, _, w, hw, hp, by simpa using hl⟩
  · rintro ⟨e, he, es, w, hw, hp, hl⟩
    exact ⟨e :: es, w, hw, .cons he hp, by simp [hl]⟩

/-- The vertices of an acyclic graph can be ranked. -/
theorem acyclic_rank {g : GraphI V E} (hn : g.vertices.Nodup) (hc : g.Closed) (hac : ¬ HasCycle g) :
    ∃ rank : V → Nat, (∀ v ∈ g.vertices, rank v < g.vertices.length) ∧
      ∀ u ∈ g.vertices, ∀ e ∈ g.outEdges u, rank u < rank (g.target e) := by
  obtain ⟨l, _, hp, ho⟩ := C54_acyclic hn hc hac none
  have hnl : l.Nodup := hp.nodup_iff.mpr hn
  refine ⟨fun v => l.idxOf v, fun v hv => ?_, fun u hu e he => ?_⟩
  · rw [← hp.length_eq]
    exact List.idxOf_lt_length_of_mem (hp.mem_iff.mpr hv)
  · obtain ⟨a, b, d, h⟩ := ho u hu e he
    show l.idxOf u < l.idxOf (g.target e)
    rw [h] at hnl
    have h1 : l.idxOf u = a.length := by
      rw [h]
      have : u ∉ a := by
        intro hm
        have := List.nodup_append.mp (by simpa using hnl : (a ++ (u :: (b ++ g.target e :: d))).Nodup)
        exact this.2.2 u hm u (by simp) rfl
      simp [List.idxOf_append, this]
    have h2 : l.idxOf (g.target e) = (a ++ u :: b).length := by
      rw [h]
      have : g.target e ∉ a ++ u :: b := by
        intro hm
        have := List.nodup_append.mp hnl
        exact this.2.2 _ hm _ (by simp) rfl
      rw [List.idxOf_append, if_neg this]
      simp
    rw [h1, h2]; simp

theorem path_rank {g : GraphI V E} (hc : g.Closed) {rank : V → Nat}
    (hr : ∀ u ∈ g.vertices, ∀ e ∈ g.outEdges u, rank u < rank (g.target e)) {u w : V} {es : List E} (hp : IsPath g u es w)
    (hu : u ∈ g.vertices) : w ∈ g.vertices ∧ rank u + es.length ≤ rank w := by
  induction hp with
  | nil u => exact ⟨hu, by simp⟩
  | cons he hp ih =>
    obtain ⟨h1, h2⟩ := ih (hc _ hu _ he)
    have := hr _ hu _ he
    exact ⟨h1, by simp only [List.length_cons]; omega⟩

/-- In an acyclic graph, paths are short. -/
theorem path_short {g : GraphI V E} (hn : g.vertices.Nodup) (hc : g.Closed) (hac : ¬ HasCycle g) {u w : V} {es : List E}
    (hp : IsPath g u es w) (hu : u ∈ g.vertices) : es.length < g.vertices.length := by
  obtain ⟨rank, h1, h2⟩ := acyclic_rank hn hc hac
  obtain ⟨h3, h4⟩ := path_rank hc h2 hp hu
  have := h1 w h3
  omega

/-- In a finite acyclic graph every vertex leads to a vertex without out-edge. -/
theorem exists_sink {g : GraphI V E} (hn : g.vertices.Nodup) (hc : g.Closed) (hac : ¬ HasCycle g) {u : V} (hu : u ∈ g.vertices) :
    ∃ es w, IsPath g u es w ∧ w ∈ g.vertices ∧ g.outEdges w = [] := by
  obtain ⟨rank, h1, h2⟩ := acyclic_rank hn hc hac
  have key : ∀ n u, u ∈ g.vertices → g.vertices.length - rank u ≤ n → ∃ es w, IsPath g u es w ∧ w ∈ g.vertices ∧ g.outEdges w = [] := by
    intro n
    induction n with
    | zero => intro u hu h; have := h1 u hu; omega
    | succ n ih =>
      intro u hu h
      cases ho : g.outEdges u with
      | nil => exact ⟨[], u, .nil u, hu, ho⟩
      | cons e l =>
        have he : e ∈ g.outEdges u := by rw [ho]; simp
        have := h2 u hu e he
        obtain ⟨es, w, hp, hw⟩ := ih (g.target e) (hc u hu e he) (by omega)
        exact ⟨e :: es, w, .cons he hp, hw⟩
  exact key _ u hu (Nat.le_refl _)

theorem get?_foldl_set {W : Type} (vs : List V) (x : W) (d : Dict V W) (v : V) :
    (vs.foldl (fun d v => d.set v x) d).get? v = if v ∈ vs then some x else d.get? v := by
  induction vs generalizing d with
  | nil => simp
  | cons u vs ih =>
    rw [List.foldl_cons, ih, Dict.get?_set]
    by_cases h : v ∈ vs
    · simp [h]
    · by_cases e : u = v
      · simp [e]
      · simp [h, e, Ne.symm e]

/-- After `s.h` iterations. -/
structure HeightInv (g : GraphI V E) (L : List V) (pmap₀ : Dict V Nat) (s : HeightState V) : Prop where
  todo : ∀ v, v ∈ s.todo ↔ PathTo g L s.h v
  old : ∀ v, (∀ j < s.h, ¬ PathTo g L j v) → s.pmap.get? v = pmap₀.get? v
  new : ∀ v, (∃ j < s.h, PathTo g L j v) → ∃ m < s.h, s.pmap.get? v = some m ∧ PathTo g L m v ∧ ∀ j < s.h, PathTo g L j v → j ≤ m
  pos : ∀ j < s.h, ∃ v, PathTo g L j v

theorem heightInv_init (g : GraphI V E) (L : List V) (pmap₀ : Dict V Nat) : HeightInv g L pmap₀ ⟨pmap₀, L, 0⟩ :=
  ⟨fun _ => pathTo_zero.symm, fun _ _ => rfl, fun _ ⟨_, h, _⟩ => absurd h (Nat.not_lt_zero _), fun _ h => absurd h (Nat.not_lt_zero _)⟩

theorem heightInv_step {g : GraphI V E} (hg : g.Consistent) {L : List V} {pmap₀ : Dict V Nat} {ord : SetOracle V} (hord : ord.Valid)
    {t : Nat} {s s' : HeightState V} (i : HeightInv g L pmap₀ s) (h : heightStep ord g t s = .next s') :
    HeightInv g L pmap₀ s' ∧ s'.h = s.h + 1 ∧ ∃ v, PathTo g L s.h v := by
  unfold heightStep at h
  split at h
  · cases h
  · rename_i hne
    cases h
    have hp := hord t s.todo
    have hmem : ∀ v, v ∈ ord t s.todo ↔ PathTo g L s.h v := fun v => by rw [hp.mem_iff, i.todo]
    have hex : ∃ v, PathTo g L s.h v := by
      obtain ⟨v, hv⟩ := List.exists_mem_of_ne_nil _ (fun e => hne e)
      exact ⟨v, (hmem v).mp hv⟩
    refine ⟨⟨fun v => ?_, fun v hv => ?_, fun v hv => ?_, fun j hj => ?_⟩, rfl, hex⟩
    · simp only
      rw [mem_mkSet, List.mem_flatMap, pathTo_succ]
      constructor
      · rintro ⟨w, hw, hm⟩
        obtain ⟨e, he, rfl⟩ := List.mem_map.mp hm
        obtain ⟨h1, h2⟩ := (hg.inn w e).mp he
        exact ⟨e, (hg.out _ e).mpr ⟨h1, rfl⟩, by rw [h2]; exact (hmem w).mp hw⟩
      · rintro ⟨e, he, hp⟩
        obtain ⟨h1, h2⟩ := (hg.out v e).mp he
        exact ⟨g.target e, (hmem _).mpr hp, List.mem_map.mpr ⟨e, (hg.inn _ e).mpr ⟨h1, rfl⟩, h2⟩⟩
    · simp only at hv ⊢
      rw [get?_foldl_set, if_neg (fun hm => hv s.h (Nat.lt_succ_self _) ((hmem v).mp hm))]
      exact i.old v fun j hj => hv j (by omega)
    · simp only at hv ⊢
      rw [get?_foldl_set]
      by_cases hm : PathTo g L s.h v
      · rw [if_pos ((hmem v).mpr hm)]
        exact ⟨s.h, Nat.lt_succ_self _, rfl, hm, fun j hj _ => by omega⟩
      · rw [if_neg (fun h => hm ((hmem v).mp h))]
        obtain ⟨j, hj, hpj⟩ := hv
        have hne' : j ≠ s.h := fun e => hm (e ▸ hpj)
        obtain ⟨m, h1, h2, h3, h4⟩ := i.new v ⟨j, by omega, hpj⟩
        refine ⟨m, by omega, h2, h3, fun k hk hpk => h4 k ?_ hpk⟩
        have : k ≠ s.h := fun e => hm (e ▸ hpk)
        omega
    · simp only at hj
      rcases Nat.lt_succ_iff_lt_or_eq.mp hj with hj | rfl
      · exact i.pos j hj
      · exact hex

theorem heightInv_done {g : GraphI V E} {L : List V} {pmap₀ : Dict V Nat} {ord : SetOracle V} (hord : ord.Valid)
    {t : Nat} {s : HeightState V} {r : Dict V Nat × Int} (i : HeightInv g L pmap₀ s) (h : heightStep ord g t s = .done r) :
    r = (s.pmap, (s.h : Int) - 1) ∧ ∀ v, ¬ PathTo g L s.h v := by
  unfold heightStep at h
  split at h
  · rename_i he
    cases h
    refine ⟨rfl, fun v hv => ?_⟩
    have := (hord t s.todo).mem_iff.mpr ((i.todo v).mpr hv)
    rw [he] at this; cases this
  · cases h

theorem PathTo.lower {g : GraphI V E} {L : List V} {k j : Nat} {v : V} (h : PathTo g L k v) (hj : j ≤ k) : ∃ u, PathTo g L j u := by
  induction k generalizing v with
  | zero => exact ⟨v, by have : j = 0 := by omega
                         subst this; exact h⟩
  | succ k ih =>
    by_cases e : j = k + 1
    · subst e; exact ⟨v, h⟩
    · obtain ⟨e, _, h⟩ := pathTo_succ.mp h
      exact ih h (by omega)

/-- Total correctness of `revuz_height`, when the lengths of the paths to `L` are bounded. -/
theorem revuzHeight_spec {g : GraphI V E} (hg : g.Consistent) {L : List V} {N : Nat} (hN : ∀ k v, PathTo g L k v → k < N)
    {ord : SetOracle V} (hord : ord.Valid) (pmap₀ : Dict V Nat) (t : Nat) :
    ∃ pmap hmax, Returns (fun fuel => loop (heightStep ord g) fuel t ⟨pmap₀, L, 0⟩) (.ok (pmap, hmax)) ∧
      (∀ v, (∃ k, PathTo g L k v) → ∃ m, pmap.get? v = some m ∧ IsHeight g L v m ∧ (m : Int) ≤ hmax) ∧
      (∀ v, (∀ k, ¬ PathTo g L k v) → pmap.get? v = pmap₀.get? v) ∧
      ((L = [] ∧ hmax = -1) ∨ ∃ (v : V) (m : Nat), hmax = (m : Int) ∧ IsHeight g L v m) := by
  obtain ⟨r, hr, hpost⟩ := loop_total (heightStep ord g)
    (fun s => HeightInv g L pmap₀ s ∧ s.h ≤ N) (fun s => N - s.h)
    (fun r => ∃ pmap hmax, r = .ok (pmap, hmax) ∧
      (∀ v, (∃ k, PathTo g L k v) → ∃ m, pmap.get? v = some m ∧ IsHeight g L v m ∧ (m : Int) ≤ hmax) ∧
      (∀ v, (∀ k, ¬ PathTo g L k v) → pmap.get? v = pmap₀.get? v) ∧
      ((L = [] ∧ hmax = -1) ∨ ∃ (v : V) (m : Nat), hmax = (m : Int) ∧ IsHeight g L v m))
    (fun t s s' ⟨i, hb⟩ h => by
      obtain ⟨h1, h2, v, h3⟩ := heightInv_step hg hord i h
      have := hN _ _ h3
      exact ⟨⟨h1, by omega⟩, by omega⟩)
    (fun t s r ⟨i, _⟩ h => by
      obtain ⟨rfl, hno⟩ := heightInv_done hord i h
      have hlt : ∀ k v, PathTo g L k v → k < s.h := by
        intro k v hp
        by_contra hc
        obtain ⟨u, hu⟩ := hp.lower (j := s.h) (by omega)
        exact hno u hu
      refine ⟨_, _, rfl, fun v ⟨k, hk⟩ => ?_, fun v hv => i.old v fun j _ => hv j, ?_⟩
      · obtain ⟨m, h1, h2, h3, h4⟩ := i.new v ⟨k, hlt k v hk, hk⟩
        exact ⟨m, h2, ⟨h3, fun j hj => h4 j (hlt j v hj) hj⟩, by omega⟩
      · cases hs : s.h with
        | zero =>
          left
          refine ⟨?_, by simp⟩
          cases hL : L with
          | nil => rfl
          | cons a l => exact absurd (hlt 0 a (pathTo_zero.mpr (by rw [hL]; simp))) (by omega)
        | succ k =>
          right
          obtain ⟨v, hv⟩ := i.pos k (by omega)
          refine ⟨v, k, by simp, hv, fun j hj => ?_⟩
          have := hlt j v hj; omega)
    (fun t s e _ h => by unfold heightStep at h; split at h <;> cases h)
    (s := ⟨pmap₀, L, 0⟩) ⟨heightInv_init g L pmap₀, Nat.zero_le _⟩ t
  obtain ⟨pmap, hmax, rfl, h⟩ := hpost
  exact ⟨pmap, hmax, hr, h⟩

end PyBGL
