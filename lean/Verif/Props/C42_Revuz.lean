import Verif.Proofs.Revuz
import Verif.Props.C41_RevuzHeight
import Verif.Props.C11_C13_C24_Automaton

/-!
# C42: `revuz_minimize`
-/

namespace PyBGL
open Automaton IAutomaton Revuz
variable {A : Type} [DecidableEq A]

/-! ## Heights in an automaton -/

theorem IAutomaton.WF.acyclicGraph {g : IAutomaton A} (hw : IAutomaton.WF g) (hac : ¬ HasCycle g.toI) : AcyclicGraph g.toI where
  nodup := hw.out.outer
  consistent := ⟨fun u e => by
      show e ∈ g.a.outEdges u ↔ e ∈ g.a.edges ∧ e.source = u
      rw [mem_outEdges hw.out, mem_edges hw.out]; tauto, fun u e => by
      show e ∈ g.inEdges u ↔ e ∈ g.a.edges ∧ e.target = u
      rw [mem_inEdges hw, mem_edges hw.out]; tauto⟩
  closed := fun u _ e he => target_mem hw ((mem_outEdges hw.out).mp he).2
  source := fun e he => delta_mem_vertices ((mem_edges hw.out).mp he)
  acyclic := hac

theorem mem_out {g : IAutomaton A} (hw : IAutomaton.WF g) {v r : Nat} {a : A} (h : g.a.delta v a = some r) :
    (⟨v, r, a⟩ : EdgeDesc A) ∈ g.toI.outEdges v := (mem_outEdges hw.out).mpr ⟨rfl, h⟩

theorem heights_of_longest {g : IAutomaton A} (hw : IAutomaton.WF g) {ht : Nat → Nat}
    (h : ∀ v ∈ g.a.vertices, IsLongest g.toI v (ht v)) : Heights g ht where
  lt := by
    intro v r a hd
    obtain ⟨es, w, hp, hl⟩ := (h r (target_mem hw hd)).1
    have := (h v (delta_mem_vertices hd)).2 (⟨v, r, a⟩ :: es) w (.cons (mem_out hw hd) hp)
    simp at this; omega
  step := by
    intro v hv h0
    obtain ⟨es, w, hp, hl⟩ := (h v hv).1
    cases hp with
    | nil => simp at hl; omega
    | @cons _ _ e es he hp =>
      obtain ⟨h1, h2⟩ := (mem_outEdges hw.out).mp he
      rw [h1] at h2
      refine ⟨e.distinguisher, e.target, h2, ?_⟩
      have hr := h _ (target_mem hw h2)
      have hle := hr.2 es w hp
      obtain ⟨es', w', hp', hl'⟩ := hr.1
      have hge := (h v hv).2 (e :: es') w' (.cons he hp')
      simp at hl hge; omega

theorem sinks_iff_height {g : IAutomaton A} (hw : IAutomaton.WF g) {ht : Nat → Nat} (hh : Heights g ht) (v : Nat) :
    v ∈ sinks g.toI ↔ v ∈ g.a.vertices ∧ ht v = 0 := by
  unfold sinks
  rw [List.mem_filter]
  refine and_congr_right fun hv => ?_
  constructor
  · intro h
    by_contra h0
    obtain ⟨a, r, h1, _⟩ := hh.step v hv h0
    have := mem_out hw h1
    rw [List.isEmpty_iff.mp h] at this
    cases this
  · intro h
    rw [List.isEmpty_iff]
    apply List.eq_nil_iff_forall_not_mem.mpr
    intro e he
    obtain ⟨h1, h2⟩ := (mem_outEdges hw.out).mp he
    have := hh.lt _ _ _ h2
    rw [h1] at this; omega

/-- A word that can be read from `v` is at most as long as the height of `v`, and one is as long. -/
theorem out_height {g : IAutomaton A} {ht : Nat → Nat} (hh : Heights g ht) (w : List A) :
    ∀ v, (out g.a v w).isSome → w.length ≤ ht v := by
  induction w with
  | nil => intro v _; exact Nat.zero_le _
  | cons a w ih =>
    intro v h
    rw [out_cons] at h
    cases hd : g.a.delta v a with
    | none => rw [hd] at h; cases h
    | some r =>
      rw [hd] at h
      have := ih r h
      have := hh.lt v r a hd
      simp; omega

theorem exists_out {g : IAutomaton A} (hw : IAutomaton.WF g) {ht : Nat → Nat} (hh : Heights g ht) (k : Nat) :
    ∀ v ∈ g.a.vertices, ht v = k → ∃ w, w.length = k ∧ (out g.a v w).isSome := by
  induction k with
  | zero => intro v _ _; exact ⟨[], rfl, by rw [out_nil]; rfl⟩
  | succ k ih =>
    intro v hv hk
    obtain ⟨a, r, h1, h2⟩ := hh.step v hv (by omega)
    obtain ⟨w, hl, ho⟩ := ih r (target_mem hw h1) (by omega)
    refine ⟨a :: w, by simp [hl], ?_⟩
    rw [out_cons, h1]; exact ho

theorem height_eq_of_out {g : IAutomaton A} (hw : IAutomaton.WF g) {ht : Nat → Nat} (hh : Heights g ht) {u v : Nat} (hu : u ∈ g.a.vertices)
    (hv : v ∈ g.a.vertices) (h : ∀ w, out g.a u w = out g.a v w) : ht u = ht v := by
  obtain ⟨w, hl, ho⟩ := exists_out hw hh _ u hu rfl
  obtain ⟨w', hl', ho'⟩ := exists_out hw hh _ v hv rfl
  have h1 := out_height hh w v (by rw [← h]; exact ho)
  have h2 := out_height hh w' u (by rw [h]; exact ho')
  omega

/-! ## The result of the loop -/

theorem level_exists {g : IAutomaton A} (hw : IAutomaton.WF g) {ht : Nat → Nat} (hh : Heights g ht) (k : Nat) :
    ∀ n v, v ∈ g.a.vertices → ht v = k + n → ∃ r ∈ g.a.vertices, ht r = k := by
  intro n
  induction n with
  | zero => intro v hv h; exact ⟨v, hv, by omega⟩
  | succ n ih =>
    intro v hv h
    obtain ⟨a, r, h1, h2⟩ := hh.step v hv (by omega)
    exact ih r (target_mem hw h1) (by omega)

theorem minimize_spec {g : IAutomaton A} (hw : IAutomaton.WF g) (hac : ¬ HasCycle g.toI) {ord ordH : SetOracle Nat} (hord : ord.Valid)
    (hordH : ordH.Valid) {ordE : Nat → SetOracle (EdgeDesc A)} (hE : ∀ t, (ordE t).Valid) {leaves : List Nat}
    (hL : leaves = [] ∨ (leaves.Nodup ∧ ∀ v, v ∈ leaves ↔ v ∈ sinks g.toI)) :
    ∃ g' hmax ht ρ k, Returns (minimize ord ordH ordE g leaves) (.ok (g', hmax)) ∧ (∀ v ∈ g.a.vertices, IsLongest g.toI v (ht v)) ∧
      Heights g ht ∧ Quot g ht g' ρ k ∧ (∀ u ∈ g'.a.vertices, ∀ v ∈ g'.a.vertices, u ≠ v → ht u = ht v → ¬ Same g' u v) ∧
      (∀ v ∈ g.a.vertices, (ht v : Int) ≤ hmax) ∧ ((g.a.vertices = [] ∧ hmax = -1) ∨ ∃ v ∈ g.a.vertices, hmax = ht v) := by
  obtain ⟨pmap, hm, hr, hp1, _, _⟩ := C41_heights (hw.acyclicGraph hac) hordH []
  let ht : Nat → Nat := fun v => pmap.getD v 0
  have hlong : ∀ v ∈ g.a.vertices, IsLongest g.toI v (ht v) := by
    intro v hv
    obtain ⟨m, e, _, h, _⟩ := hp1 v hv
    have : ht v = m := by show pmap.getD v 0 = m; unfold Dict.getD; rw [e]; rfl
    rw [this]; exact h
  have hh := heights_of_longest hw hlong
  have hnd : g.a.vertices.Nodup := hw.out.outer
  have hlt : ∀ v ∈ g.a.vertices, ht v < g.a.vertices.length := by
    intro v hv
    obtain ⟨es, w, hp, hl⟩ := (hlong v hv).1
    have := path_short (g := g.toI) hnd (hw.acyclicGraph hac).closed hac hp hv
    rw [← hl]; exact this
  have hleaves : ∀ v, v ∈ revuzLeaves g.toI leaves ↔ v ∈ sinks g.toI := by
    intro v
    rcases hL with rfl | ⟨_, h⟩
    · exact revuzLeaves_nil_mem _ _
    · unfold revuzLeaves
      split
      · rename_i e; rw [← h, e, mem_mkSet]
        constructor
        · intro hv
          have : v ∈ sinks g.toI := by
            unfold sinks
            rw [List.mem_filter] at hv ⊢
            exact ⟨hv.1, by simpa using hv.2⟩
          rw [← h, e] at this; exact this
        · intro hv; cases hv
      · exact h v
  have hleavesNd : (revuzLeaves g.toI leaves).Nodup := by
    unfold revuzLeaves
    split
    · exact nodup_mkSet _
    · rename_i hne
      exact (hL.resolve_left hne).1
  obtain ⟨r, hret, hpost⟩ := loop_total (step ord ordE pmap)
    (fun s => LevelInv g ht s ∧ (s.h = 0 ∨ ∃ v ∈ g.a.vertices, ht v + 1 = s.h)) (fun s => g.a.vertices.length - s.h)
    (fun r => ∃ s : State A, r = .ok (s.g, (s.h : Int) - 1) ∧ LevelInv g ht s ∧ (s.h = 0 ∨ ∃ v ∈ g.a.vertices, ht v + 1 = s.h) ∧
      ∀ v ∈ s.g.a.vertices, ht v ≠ s.h)
    (by
      intro t s s' ⟨i, hi⟩ hs
      rcases level_step hord hE hw hh (pmap := pmap) (fun _ _ => rfl) t i with ⟨v, hv, hvh, s'', e, i', eh⟩ | ⟨_, e⟩
      · rw [e] at hs
        cases hs
        have := hlt v hv
        exact ⟨⟨i', .inr ⟨v, hv, by omega⟩⟩, by omega⟩
      · rw [e] at hs; cases hs)
    (by
      intro t s r ⟨i, hi⟩ hs
      rcases level_step hord hE hw hh (pmap := pmap) (fun _ _ => rfl) t i with ⟨v, hv, hvh, s'', e, i', eh⟩ | ⟨hn, e⟩
      · rw [e] at hs; cases hs
      · rw [e] at hs
        cases hs
        exact ⟨s, rfl, i, hi, hn⟩)
    (by
      intro t s r ⟨i, hi⟩ hs
      rcases level_step hord hE hw hh (pmap := pmap) (fun _ _ => rfl) t i with ⟨v, hv, hvh, s'', e, i', eh⟩ | ⟨hn, e⟩
      · rw [e] at hs; cases hs
      · rw [e] at hs; cases hs)
    (s := ⟨g, revuzLeaves g.toI leaves, 0⟩)
    ⟨⟨⟨id, Quot.refl hw ht⟩, fun v => (hleaves v).trans (sinks_iff_height hw hh v), hleavesNd, fun _ _ _ _ _ _ h => absurd h (Nat.not_lt_zero _)⟩,
      .inl rfl⟩ 0
  obtain ⟨s, rfl, i, hi, hn⟩ := hpost
  obtain ⟨ρ, q⟩ := i.quot
  have hall : ∀ v ∈ g.a.vertices, ht v < s.h := by
    intro v hv
    by_contra hge
    obtain ⟨r, hr1, hr2⟩ := level_exists hw hh s.h (ht v - s.h) v hv (by omega)
    exact hn (ρ r) (q.mem r hr1) ((q.hts r hr1).trans hr2)
  refine ⟨s.g, (s.h : Int) - 1, ht, ρ, s.h, ?_, hlong, hh, q, ?_, fun v hv => ?_, ?_⟩
  · obtain ⟨N1, h1⟩ := hr
    obtain ⟨N2, h2⟩ := hret
    refine ⟨max N1 N2, fun fuel hf => ?_⟩
    have e1 := h1 fuel (by omega)
    have e2 := h2 fuel (by omega)
    unfold minimize
    rw [e1]
    exact e2
  · intro u hu v hv hne e hs
    exact i.apart u hu v hv hne e (hall u (q.sub u hu)) hs
  · have := hall v hv; omega
  · rcases hi with h0 | ⟨v, hv, e⟩
    · left
      refine ⟨List.eq_nil_iff_forall_not_mem.mpr fun v hv => ?_, by omega⟩
      have := hall v hv; omega
    · exact .inr ⟨v, hv, by omega⟩

/-- Distinct states of the result are told apart by some word. -/
theorem quot_apart {g g' : IAutomaton A} (hw : IAutomaton.WF g) {ht ρ : Nat → Nat} {k : Nat} (hh : Heights g ht) (q : Quot g ht g' ρ k)
    (hap : ∀ u ∈ g'.a.vertices, ∀ v ∈ g'.a.vertices, u ≠ v → ht u = ht v → ¬ Same g' u v) (n : Nat) :
    ∀ u ∈ g'.a.vertices, ∀ v ∈ g'.a.vertices, ht u = n → (∀ w, out g'.a u w = out g'.a v w) → u = v := by
  induction n using Nat.strongRecOn with
  | _ n ih =>
    intro u hu v hv hn ho
    have he : ht u = ht v := height_eq_of_out hw hh (q.sub u hu) (q.sub v hv) fun w => by
      rw [← q.out_eq hw w u hu, ← q.out_eq hw w v hv]; exact ho w
    by_contra hne
    refine hap u hu v hv hne he ⟨?_, fun a => ?_⟩
    · have := ho []
      rw [out_nil, out_nil] at this
      exact Option.some.inj this
    · have hoa : ∀ w, (match g'.a.delta u a with | none => none | some r => out g'.a r w) =
          (match g'.a.delta v a with | none => none | some r => out g'.a r w) := fun w => by
        have := ho (a :: w)
        rw [out_cons, out_cons] at this
        exact this
      cases h1 : g'.a.delta u a with
      | none =>
        cases h2 : g'.a.delta v a with
        | none => rfl
        | some r =>
          have := hoa []
          rw [h1, h2] at this
          simp only [out_nil] at this
          cases this
      | some r =>
        cases h2 : g'.a.delta v a with
        | none =>
          have := hoa []
          rw [h1, h2] at this
          simp only [out_nil] at this
          cases this
        | some r' =>
          have hr := target_mem q.wf h1
          have hr' := target_mem q.wf h2
          have hlt : ht r < n := by
            rw [q.delta u hu] at h1
            obtain ⟨x, hx1, hx2⟩ := Option.map_eq_some_iff.mp h1
            have := hh.lt u x a hx1
            rw [← hx2, q.hts x (target_mem hw hx1)]; omega
          rw [ih (ht r) hlt r hr r' hr' rfl fun w => by
            have := hoa w
            rw [h1, h2] at this
            exact this]

/-- Where the words lead in the result, from any state which is not there any more or has never been there: nowhere. -/
theorem out_of_not_mem {g : Automaton A} {v : Nat} (hv : v ∉ g.vertices) (w : List A) :
    out g v w = if w = [] then some (g.isFinal v) else none := by
  cases w with
  | nil => rw [out_nil, if_pos rfl]
  | cons a w => rw [out_cons, Automaton.delta_not_mem a hv, if_neg (by simp)]

theorem lang_out {g : Automaton A} (hg : AWF g) {q₀ : Nat} (h0 : g.q0 = some q₀) (w : List A) : g.Lang w ↔ out g q₀ w = some true := by
  rw [out_right hg]
  unfold Lang Right
  rw [h0]
  constructor
  · rintro ⟨q, f, e, h⟩; cases e; exact ⟨f, h⟩
  · rintro ⟨f, h⟩; exact ⟨q₀, f, rfl, h⟩

/-! ## The claims -/

/-- **C42, the part that always holds**: on an acyclic automaton `revuz_minimize` returns, whatever the order in which sets are enumerated.
The states that remain are, in each class of indistinguishable states, the one with the smallest identifier; the words read from them and
accepted from them are those of before; distinct remaining states are told apart by a word, in particular do not have the same finality and
the same labelled successors; the value returned is the length of the longest path. -/
theorem C42_minimal {g : IAutomaton A} (h : IAutomaton.SafeHistory g) (hac : ¬ HasCycle g.toI) {ord ordH : SetOracle Nat} (hord : ord.Valid)
    (hordH : ordH.Valid) {ordE : Nat → SetOracle (EdgeDesc A)} (hE : ∀ t, (ordE t).Valid) {leaves : List Nat}
    (hL : leaves = [] ∨ (leaves.Nodup ∧ ∀ v, v ∈ leaves ↔ v ∈ sinks g.toI)) :
    ∃ g' hmax, Returns (minimize ord ordH ordE g leaves) (.ok (g', hmax)) ∧
      (∀ v, v ∈ g'.a.vertices ↔ v ∈ g.a.vertices ∧ ∀ u ∈ g.a.vertices, g.a.Indist u v → v ≤ u) ∧
      (∀ v ∈ g'.a.vertices, ∀ w, ((∃ r, LPath g'.a.Trans v w r) ↔ ∃ r, LPath g.a.Trans v w r) ∧ (g'.a.Right v w ↔ g.a.Right v w)) ∧
      (∀ u ∈ g'.a.vertices, ∀ v ∈ g'.a.vertices, g'.a.Indist u v → u = v) ∧
      (∀ u ∈ g'.a.vertices, ∀ v ∈ g'.a.vertices, g'.a.isFinal u = g'.a.isFinal v → (∀ a r, g'.a.Trans u a r ↔ g'.a.Trans v a r) → u = v) ∧
      (∀ v ∈ g.a.vertices, ∀ m : Nat, IsLongest g.toI v m → (m : Int) ≤ hmax) ∧
      ((g.a.vertices = [] ∧ hmax = -1) ∨ ∃ v ∈ g.a.vertices, ∃ m : Nat, IsLongest g.toI v m ∧ hmax = m) := by
  have hw := h.wf
  obtain ⟨g', hmax, ht, ρ, k, hr, hlong, hh, q, hap, hmx, hmx'⟩ := minimize_spec hw hac hord hordH hE hL
  have happ : ∀ u ∈ g'.a.vertices, ∀ v ∈ g'.a.vertices, (∀ w, out g'.a u w = out g'.a v w) → u = v := fun u hu v hv ho =>
    quot_apart hw hh q hap _ u hu v hv rfl ho
  refine ⟨g', hmax, hr, fun v => ?_, fun v hv w => ?_, fun u hu v hv hi => ?_, fun u hu v hv hf ht => ?_, fun v hv m hm => ?_, ?_⟩
  · constructor
    · intro hv
      refine ⟨q.sub v hv, fun u hu hi => ?_⟩
      have hi := (indist_iff hw.out u v).mp hi
      have : ρ u = v := happ _ (q.mem u hu) v hv fun w => by
        rw [q.out_eq hw w _ (q.mem u hu), q.out_eq hw w v hv, q.same u hu]; exact hi w
      rw [← this]; exact q.le u hu
    · rintro ⟨hv, hmin⟩
      have h1 := hmin (ρ v) (q.sub _ (q.mem v hv)) ((indist_iff hw.out _ _).mpr fun w => q.same v hv w)
      have h2 := q.le v hv
      have : ρ v = v := by omega
      rw [← this]; exact q.mem v hv
  · rw [← out_read q.wf.out, ← out_read hw.out, ← out_right q.wf.out, ← out_right hw.out, q.out_eq hw w v hv]
    exact ⟨Iff.rfl, Iff.rfl⟩
  · exact happ u hu v hv ((indist_iff q.wf.out u v).mp hi)
  · refine happ u hu v hv fun w => ?_
    cases w with
    | nil => rw [out_nil, out_nil, hf]
    | cons a w =>
      have : g'.a.delta u a = g'.a.delta v a := by
        apply Option.ext
        intro r
        have := ht a r
        unfold Automaton.Trans at this
        rw [mem_edges q.wf.out, mem_edges q.wf.out] at this
        exact this
      rw [out_cons, out_cons, this]
  · have h1 := hlong v hv
    obtain ⟨es, w, hp, hl⟩ := hm.1
    have := h1.2 es w hp
    have := hmx v hv
    omega
  · rcases hmx' with ⟨a, b⟩ | ⟨v, hv, e⟩
    · exact .inl ⟨a, b⟩
    · exact .inr ⟨v, hv, ht v, hlong v hv, e⟩

/-- **C42, full statement**: the language is unchanged. -/
def C42_statement : Prop :=
  ∀ (g g' : IAutomaton Char) (hmax : Int), IAutomaton.SafeHistory g → ¬ HasCycle g.toI →
    Returns (minimize (fun _ s => s) (fun _ s => s) (fun _ _ s => s) g []) (.ok (g', hmax)) → ∀ w, g'.a.Lang w ↔ g.a.Lang w

/-- **C42, partial** (missing: initial states that are indistinguishable from a state with a smaller identifier, for which the claim is false):
the language is unchanged. -/
theorem C42_language_partial {g : IAutomaton A} (h : IAutomaton.SafeHistory g) (hac : ¬ HasCycle g.toI) {ord ordH : SetOracle Nat}
    (hord : ord.Valid) (hordH : ordH.Valid) {ordE : Nat → SetOracle (EdgeDesc A)} (hE : ∀ t, (ordE t).Valid) {leaves : List Nat}
    (hL : leaves = [] ∨ (leaves.Nodup ∧ ∀ v, v ∈ leaves ↔ v ∈ sinks g.toI))
    (hq : ∀ q ∈ g.a.vertices, g.a.q0 = some q → ∀ u ∈ g.a.vertices, g.a.Indist u q → q ≤ u) :
    ∃ g' hmax, Returns (minimize ord ordH ordE g leaves) (.ok (g', hmax)) ∧ g'.a.q0 = g.a.q0 ∧ ∀ w, g'.a.Lang w ↔ g.a.Lang w := by
  have hw := h.wf
  obtain ⟨g', hmax, ht, ρ, k, hr, hlong, hh, q, hap, _⟩ := minimize_spec hw hac hord hordH hE hL
  refine ⟨g', hmax, hr, q.q0, fun w => ?_⟩
  cases h0 : g.a.q0 with
  | none =>
    have h0' : g'.a.q0 = none := q.q0.trans h0
    unfold Lang
    rw [h0, h0']
    simp
  | some q₀ =>
    rw [lang_out q.wf.out (q.q0.trans h0), lang_out hw.out h0]
    by_cases hv : q₀ ∈ g.a.vertices
    · have h1 := hq q₀ hv h0 (ρ q₀) (q.sub _ (q.mem _ hv)) ((indist_iff hw.out _ _).mpr fun w => q.same _ hv w)
      have h2 := q.le q₀ hv
      have : ρ q₀ = q₀ := by omega
      rw [q.out_eq hw w q₀ (this ▸ q.mem q₀ hv)]
    · rw [out_of_not_mem hv, out_of_not_mem fun h => hv (q.sub _ h), q.isFinal]

/-- Indistinguishable states of an acyclic automaton do not reach each other. -/
theorem indist_not_reach {g : IAutomaton A} (hw : IAutomaton.WF g) (hac : ¬ HasCycle g.toI) {u v : Nat} (hu : u ∈ g.a.vertices)
    (hi : g.a.Indist u v) {w : List A} (hp : LPath g.a.Trans v w u) : v = u := by
  obtain ⟨pmap, _, _, hp1, _, _⟩ := C41_heights (hw.acyclicGraph hac) (ord := fun _ s => s) (fun _ _ => .refl _) []
  let ht : Nat → Nat := fun v => pmap.getD v 0
  have hh : Heights g ht := heights_of_longest hw fun v hv => by
    obtain ⟨m, e, _, h, _⟩ := hp1 v hv
    have : ht v = m := by show pmap.getD v 0 = m; unfold Dict.getD; rw [e]; rfl
    rw [this]; exact h
  have key : ∀ {v w u}, LPath g.a.Trans v w u → v = u ∨ (v ∈ g.a.vertices ∧ ht u < ht v) := by
    intro v w u hp
    induction hp with
    | nil => exact .inl rfl
    | @cons q r s a w ht' _ ih =>
      have hd := (mem_edges hw.out).mp ht'
      have := hh.lt _ _ _ hd
      right
      refine ⟨delta_mem_vertices hd, ?_⟩
      simp only at this
      rcases ih with rfl | ⟨_, ih⟩ <;> omega
  rcases key hp with e | ⟨hv, hlt⟩
  · exact e
  · have := height_eq_of_out hw hh hu hv ((indist_iff hw.out u v).mp hi)
    omega

/-- **C42, partial**: the language is unchanged when every state can be reached from the initial state, or when the initial state is the
state 0, which are the two usual cases. -/
theorem C42_usual_partial {g : IAutomaton A} (h : IAutomaton.SafeHistory g) (hac : ¬ HasCycle g.toI) {ord ordH : SetOracle Nat}
    (hord : ord.Valid) (hordH : ordH.Valid) {ordE : Nat → SetOracle (EdgeDesc A)} (hE : ∀ t, (ordE t).Valid)
    (hq : g.a.q0 = some 0 ∨ ∃ q, g.a.q0 = some q ∧ ∀ v ∈ g.a.vertices, ∃ w, LPath g.a.Trans q w v) :
    ∃ g' hmax, Returns (minimize ord ordH ordE g []) (.ok (g', hmax)) ∧ ∀ w, g'.a.Lang w ↔ g.a.Lang w := by
  obtain ⟨g', hmax, h1, _, h3⟩ := C42_language_partial h hac hord hordH hE (.inl rfl) (fun q hqv hq0 u hu hi => by
    rcases hq with e | ⟨q', e, hreach⟩
    · rw [e] at hq0
      cases hq0
      exact Nat.zero_le _
    · rw [e] at hq0
      cases hq0
      obtain ⟨w, hp⟩ := hreach u hu
      exact Nat.le_of_eq (indist_not_reach h.wf hac hu hi hp))
  exact ⟨g', hmax, h1, h3⟩

/-- **C42, what happens otherwise**: when a state with a smaller identifier cannot be distinguished from the initial state, the initial state is
removed, `initial()` still returns it, and no non-empty word is accepted any more. -/
theorem C42_initial_lost {g : IAutomaton A} (h : IAutomaton.SafeHistory g) (hac : ¬ HasCycle g.toI) {ord ordH : SetOracle Nat}
    (hord : ord.Valid) (hordH : ordH.Valid) {ordE : Nat → SetOracle (EdgeDesc A)} (hE : ∀ t, (ordE t).Valid) {q u : Nat}
    (h0 : g.a.q0 = some q) (hu : u ∈ g.a.vertices) (hi : g.a.Indist u q) (hlt : u < q) :
    ∃ g' hmax, Returns (minimize ord ordH ordE g []) (.ok (g', hmax)) ∧ g'.a.q0 = some q ∧ q ∉ g'.a.vertices ∧
      ∀ w, g'.a.Lang w ↔ w = [] ∧ g.a.isFinal q = true := by
  have hw := h.wf
  obtain ⟨g', hmax, hr, h1, _⟩ := C42_minimal h hac hord hordH hE (.inl rfl)
  obtain ⟨g'', hmax', ht, ρ, k, hr', hlong, hh, qq, hap, _⟩ := minimize_spec hw hac hord hordH hE (leaves := []) (.inl rfl)
  have := returns_unique hr hr'
  obtain ⟨rfl, rfl⟩ : g' = g'' ∧ hmax = hmax' := by simpa using this
  have hn : q ∉ g'.a.vertices := fun hq => by
    have := ((h1 q).mp hq).2 u hu hi
    omega
  refine ⟨g', hmax, hr, qq.q0.trans h0, hn, fun w => ?_⟩
  rw [lang_out qq.wf.out (qq.q0.trans h0), out_of_not_mem hn, qq.isFinal]
  split
  · rename_i e; simp [e]
  · rename_i e; simp [e]

/-! ## Non-vacuity and counterexample -/

namespace Examples

/-- Two states, 0 and 1, with an `a`-transition to the final state 2; the initial state is 1. -/
def lostHistory : List (AOp Char) :=
  [.addVertex, .addVertex, .addVertex, .addEdge 0 2 'a', .addEdge 1 2 'a', .setFinal 2 true, .setInitial 1 true]

def lost : IAutomaton Char := ⟨⟨3, [(0, [('a', 2)]), (1, [('a', 2)]), (2, [])], some 1, [(2, true)]⟩, [(0, []), (1, []), (2, [(0, ['a']), (1, ['a'])])]⟩

theorem lost_safe : IAutomaton.SafeHistory lost := by
  refine .step (op := .setInitial 1 true) (.step (op := .setFinal 2 true) (.step (op := .addEdge 1 2 'a') (.step (op := .addEdge 0 2 'a')
    (.step (op := .addVertex) (.step (op := .addVertex) (.step (op := .addVertex) .new trivial rfl) trivial rfl) trivial rfl)
    (by simp [IAutomaton.Safe]; decide) rfl) (by simp [IAutomaton.Safe]; decide) rfl) trivial rfl) trivial rfl

theorem acyclic_of_lt {g : IAutomaton Char} (h : ∀ u, ∀ e ∈ g.a.outEdges u, u < e.target) : ¬ HasCycle g.toI := by
  have key : ∀ u es v, IsPath g.toI u es v → u + es.length ≤ v := by
    intro u es v hp
    induction hp with
    | nil => simp
    | @cons u v e es he hp ih =>
      have := h u e he
      have : g.toI.target e = e.target := rfl
      simp only [List.length_cons]
      omega
  rintro ⟨u, _, es, hne, hp⟩
  have := key _ _ _ hp
  have := List.length_pos_iff.mpr hne
  omega

theorem lost_acyclic : ¬ HasCycle lost.toI := by
  apply acyclic_of_lt
  intro u e he
  obtain ⟨h1, h2⟩ := (mem_outEdges lost_safe.wf.out).mp he
  have h3 := (mem_edges lost_safe.wf.out).mpr h2
  rw [← h1]
  have : ∀ e ∈ lost.a.edges, e.source < e.target := by decide
  exact this e h3

theorem lost_indist : lost.a.Indist 0 1 := by
  rw [indist_iff lost_safe.wf.out]
  intro w
  cases w with
  | nil => rfl
  | cons a w =>
    rw [out_cons, out_cons]
    have : lost.a.delta 0 a = lost.a.delta 1 a := by
      unfold Automaton.delta
      rfl
    rw [this]

end Examples

/-- **C42, counterexample**: the language can change. -/
theorem C42_language_counterexample : ¬ C42_statement := by
  intro h
  obtain ⟨g', hmax, hr, _, _, hl⟩ := C42_initial_lost Examples.lost_safe Examples.lost_acyclic (ord := fun _ s => s) (ordH := fun _ s => s)
    (ordE := fun _ _ s => s) (fun _ _ => .refl _) (fun _ _ => .refl _) (fun _ _ _ => .refl _) (q := 1) (u := 0) rfl (by decide)
    Examples.lost_indist (by omega)
  have := (h _ g' hmax Examples.lost_safe Examples.lost_acyclic hr ['a']).mpr
    ((Automaton.accepts_iff Examples.lost_safe.wf.out ['a']).mp (by decide))
  rw [hl] at this
  cases this.1

namespace Examples

/-- The automaton of `lost` with initial state 0: 0 and 1 are merged, the language is kept. -/
def merged : IAutomaton Char := ⟨lost.a.setInitial 0 true, lost.inAdj⟩

theorem merged_safe : IAutomaton.SafeHistory merged := .step (op := .setInitial 0 true) lost_safe trivial rfl

example : ¬ HasCycle merged.toI := lost_acyclic
example : merged.a.q0 = some 0 := rfl
example : ∃ g' hmax, Returns (minimize (fun _ s => s) (fun _ s => s) (fun _ _ s => s) merged []) (.ok (g', hmax)) ∧
    ∀ w, g'.a.Lang w ↔ merged.a.Lang w :=
  C42_usual_partial merged_safe lost_acyclic (fun _ _ => .refl _) (fun _ _ => .refl _) (fun _ _ _ => .refl _) (.inl rfl)
example : merged.a.accepts ['a'] = true := by decide
example : merged.a.Indist 0 1 := lost_indist

end Examples
end PyBGL
