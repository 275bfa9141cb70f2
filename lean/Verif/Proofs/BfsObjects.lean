import Verif.Proofs.Bfs
import Verif.Proofs.PathLemmas
import Verif.Model.BfsObjects
import Verif.Spec.BfsObjects

/-!
# Breadth-first search with visitors that are objects
-/

namespace PyBGL
variable {V E σ : Type}

section each
variable {Ev : Type} {vis : Ev → PyM σ Unit}

theorem askM_each_append (a b : List Ev) (x : σ) : askM (PyM.each vis (a ++ b)) x =
    match askM (PyM.each vis a) x with
    | .error e => .error e
    | .ok x => askM (PyM.each vis b) x := by
  induction a generalizing x with
  | nil => rfl
  | cons ev a ih =>
    simp only [askM, List.cons_append, PyM.each, PyM.bind] at ih ⊢
    rcases vis ev x with ⟨err | u, x'⟩
    · rfl
    · exact ih x'

theorem askM_each_cons (ev : Ev) (b : List Ev) (x : σ) : askM (PyM.each vis (ev :: b)) x =
    match askM (vis ev) x with
    | .error e => .error e
    | .ok x => askM (PyM.each vis b) x := by
  simp only [askM, PyM.each, PyM.bind]
  rcases vis ev x with ⟨err | u, x'⟩ <;> rfl

theorem askM_each_nil (x : σ) : askM (PyM.each vis []) x = .ok x := rfl

end each

namespace Bfs
variable [DecidableEq V]

theorem bfsEdgesM_eq (g : GraphI V E) (p : E → Bool) (vis : BfsEvent V E → PyM σ Unit) (es : List E) (c : Dict V Color) (st : σ) (q : List V) :
    bfsEdgesM g p vis es ⟨c, st, q⟩ = match askM (PyM.each vis (edgesTrace g p es c q).1) st with
      | .error err => .error err
      | .ok st' => .ok ⟨(edgesTrace g p es c q).2.1, st', (edgesTrace g p es c q).2.2⟩ := by
  induction es generalizing c st q with
  | nil => simp [bfsEdgesM, edgesTrace, askM_each_nil]
  | cons e es ih =>
    unfold bfsEdgesM edgesTrace
    by_cases hp : p e = true
    · simp only [hp, if_true]
      cases hc : colorOf c (g.target e) <;> simp only [List.cons_append, List.nil_append, askM_each_cons] <;>
        cases askM (vis (.ifPush e)) st with
        | error err => rfl
        | ok s1 =>
          simp only
          cases askM (vis (.examineEdge e)) s1 with
          | error err => rfl
          | ok s2 =>
            simp only [askM_each_nil]
            first
            | (cases askM (vis (.treeEdge e)) s2 with
              | error err => rfl
              | ok s3 =>
                simp only
                cases askM (vis (.discover (g.target e))) s3 with
                | error err => rfl
                | ok s4 => exact ih _ _ _)
            | (cases askM (vis (.nonTreeEdge e)) s2 with
              | error err => rfl
              | ok s3 =>
                simp only
                first
                | (cases askM (vis (.grayTarget e)) s3 with
                  | error err => rfl
                  | ok s4 => exact ih _ _ _)
                | (cases askM (vis (.blackTarget e)) s3 with
                  | error err => rfl
                  | ok s4 => exact ih _ _ _))
    · simp only [hp, Bool.false_eq_true, if_false, List.cons_append, List.nil_append, askM_each_cons]
      cases askM (vis (.ifPush e)) st with
      | error err => rfl
      | ok s1 => exact ih _ _ _

theorem bfsInitM_eq (vis : BfsEvent V E → PyM σ Unit) (us : List V) (c : Dict V Color) (st : σ) (q : List V) :
    bfsInitM vis us ⟨c, st, q⟩ = match askM (PyM.each vis (us.map .discover)) st with
      | .error err => .error err
      | .ok st' => .ok ⟨us.foldl (fun c u => c.set u .gray) c, st', us.reverse ++ q⟩ := by
  induction us generalizing c st q with
  | nil => rfl
  | cons u us ih =>
    unfold bfsInitM
    rw [List.map_cons, askM_each_cons]
    cases askM (vis (.discover u)) st with
    | error e => rfl
    | ok s1 =>
      simp only
      rw [ih]
      simp

/-- What the caller sees. -/
def ending (c : Dict V Color) : Except (PyErr × σ) σ → Except PyErr (Dict V Color) × σ
  | .error (err, x) => (.error err, x)
  | .ok x => (.ok c, x)

omit [DecidableEq V] in
theorem ending_askM (c : Dict V Color) (m : PyM σ Unit) (x : σ) : ending c (askM m x) = ((m x).1.map (fun _ => c), (m x).2) := by
  unfold askM
  rcases m x with ⟨err | u, x'⟩ <;> rfl

theorem bfsStepM_eq (g : GraphI V E) (p : E → Bool) (vis : BfsEvent V E → PyM σ Unit) (t : Nat) (c : Dict V Color) (x : σ) (u : V) (q : List V) :
    bfsStepM g p vis t ⟨c, x, u :: q⟩ = match askM (PyM.each vis (vertexTrace g p u c q)) x with
      | .error (err, x) => .done (.error err, x)
      | .ok x => .next ⟨(edgesTrace g p (g.outEdges u) c q).2.1.set u .black, x, (edgesTrace g p (g.outEdges u) c q).2.2⟩ := by
  unfold bfsStepM vertexTrace
  simp only [askM_each_append, List.cons_append, List.nil_append, askM_each_cons, bfsEdgesM_eq]
  cases askM (vis (.examineVertex u)) x with
  | error e => rfl
  | ok s1 =>
    simp only
    cases askM (PyM.each vis (edgesTrace g p (g.outEdges u) c q).1) s1 with
    | error e => rfl
    | ok s2 =>
      simp only [askM_each_nil]
      cases askM (vis (.finish u)) s2 <;> rfl

theorem Run.loopM {g : GraphI V E} {p : E → Bool} {c c' : Dict V Color} {q : List V} {tr : List (BfsEvent V E)} (h : Run g p c q tr c')
    (vis : BfsEvent V E → PyM σ Unit) : ∃ N, ∀ fuel ≥ N, ∀ t x, loop (bfsStepM g p vis) fuel t ⟨c, x, q⟩ = some (.ok (ending c' (askM (PyM.each vis tr) x))) := by
  induction h with
  | nil c => exact ⟨1, fun fuel hf t x => by
      obtain ⟨n, rfl⟩ : ∃ n, fuel = n + 1 := ⟨fuel - 1, by omega⟩
      rfl⟩
  | @cons c c' u q tr h ih =>
    obtain ⟨N, hN⟩ := ih
    refine ⟨N + 1, fun fuel hf t x => ?_⟩
    obtain ⟨n, rfl⟩ : ∃ n, fuel = n + 1 := ⟨fuel - 1, by omega⟩
    rw [loop, bfsStepM_eq, askM_each_append]
    cases askM (PyM.each vis (vertexTrace g p u c q)) x with
    | error e => rfl
    | ok s => exact hN n (by omega) _ _

theorem bfsGraphM_returns {g : GraphI V E} {p : E → Bool} {us : List V} {c c' : Dict V Color} {tr : List (BfsEvent V E)}
    (h : Run g p (us.foldl (fun c u => c.set u .gray) c) us.reverse tr c') (vis : BfsEvent V E → PyM σ Unit) (x : σ) :
    Returns (bfsGraphM g (some us) p vis c x) (.ok (ending c' (askM (PyM.each vis (us.map .discover ++ tr)) x))) := by
  obtain ⟨N, hN⟩ := h.loopM vis
  refine ⟨N, fun fuel hf => ?_⟩
  simp only [bfsGraphM, bfsInitM_eq, askM_each_append, List.append_nil]
  cases askM (PyM.each vis (us.map .discover)) x with
  | error e => rfl
  | ok x' => exact hN fuel hf _ _

/-! ## Tree edges -/

/-- A tree edge is followed by the discovery of its target. -/
def Followed (g : GraphI V E) (tr : List (BfsEvent V E)) : Prop :=
  ∀ a e b, tr = a ++ .treeEdge e :: b → ∃ b', b = .discover (g.target e) :: b'

variable {g : GraphI V E} {p : E → Bool}

omit [DecidableEq V] in
theorem Followed.append {x y : List (BfsEvent V E)} (hx : Followed g x) (hy : Followed g y) : Followed g (x ++ y) := by
  intro a e b h
  rcases List.append_eq_append_iff.mp h with ⟨l, h1, h2⟩ | ⟨l, h1, h2⟩
  · exact hy l e b h2
  · cases l with
    | nil => exact hy [] e b (by simpa using h2.symm)
    | cons z l =>
      cases h2
      obtain ⟨b', hb⟩ := hx a e l h1
      exact ⟨b' ++ y, by rw [hb]; rfl⟩

omit [DecidableEq V] in
theorem Followed.none {x : List (BfsEvent V E)} (h : ∀ e, .treeEdge e ∉ x) : Followed g x :=
  fun a e b h' => absurd (h' ▸ by simp) (h e)

theorem followed_edges (es : List E) (c : Dict V Color) (q : List V) : Followed g (edgesTrace g p es c q).1 := by
  induction es generalizing c q with
  | nil => exact .none (by simp [edgesTrace])
  | cons e es ih =>
    unfold edgesTrace
    by_cases hp : p e = true
    · simp only [hp, if_true]
      cases colorOf c (g.target e)
      · refine Followed.append ?_ (ih _ _)
        intro a e' b h
        rcases a with _ | ⟨x1, _ | ⟨x2, _ | ⟨x3, _ | ⟨x4, a⟩⟩⟩⟩ <;> simp at h
        obtain ⟨_, _, rfl, h⟩ := h
        exact ⟨[], h.symm⟩
      · exact Followed.append (.none (by simp)) (ih _ _)
      · exact Followed.append (.none (by simp)) (ih _ _)
    · simp only [hp, Bool.false_eq_true, if_false]
      exact Followed.append (.none (by simp)) (ih _ _)

theorem Run.followed {c c' : Dict V Color} {q : List V} {tr : List (BfsEvent V E)} (h : Run g p c q tr c') : Followed g tr := by
  induction h with
  | nil c => exact .none (by simp)
  | cons h ih =>
    refine Followed.append ?_ ih
    unfold vertexTrace
    exact Followed.append (.none (by simp)) (Followed.append (followed_edges _ _ _) (.none (by simp)))

section facts
variable {us : List V} {tr : List (BfsEvent V E)} {c : Dict V Color}

/-- Two tree edges with the same target are the same. -/
theorem Facts.tree_unique (f : Facts g p us tr c) (hf : Followed g tr) {a b : List (BfsEvent V E)} {e e' : E} (h : tr = a ++ .treeEdge e :: b)
    (he : .treeEdge e' ∈ a) : g.target e' ≠ g.target e := by
  intro ht
  obtain ⟨x, y, hxy⟩ := List.append_of_mem he
  have h1 : tr = x ++ .treeEdge e' :: (y ++ .treeEdge e :: b) := by rw [h, hxy]; simp
  obtain ⟨b', hb⟩ := hf _ _ _ h1
  have hd : BfsEvent.discover (g.target e') ∈ a := by
    rw [hxy]
    cases y with
    | nil => cases hb
    | cons z y => cases hb; simp
  exact (f.ok _ _ _ h).1 (ht ▸ mem_discovered.mpr hd)

/-- The tree edges of a shortest path to a vertex precede its discovery. -/
theorem Facts.tree_before (f : Facts g p us tr c) {dep : V → Nat} (hd : ∀ v ∈ discovered tr, HopDist (g.through p) us v (dep v))
    (hs : (discovered tr).Pairwise (fun a b => dep a ≤ dep b)) {a b : List (BfsEvent V E)} {v s : V} (h : tr = a ++ .discover v :: b) {es : List E} (hsu : s ∈ us)
    (hp : IsPath (g.through p) s es v) (hl : es.length = dep v) (ht : ∀ e ∈ es, .treeEdge e ∈ tr) : ∀ e ∈ es, .treeEdge e ∈ a := by
  intro e he
  have hm := ht e he
  rw [h] at hm
  rcases List.mem_append.mp hm with hm | hm
  · exact hm
  · exfalso
    rcases List.mem_cons.mp hm with hm | hm
    · cases hm
    · obtain ⟨x, y, hxy⟩ := List.append_of_mem hm
      have h1 : tr = (a ++ .discover v :: x) ++ .treeEdge e :: y := by rw [h, hxy]; simp
      have hn := (f.ok _ _ _ h1).1
      obtain ⟨l1, l2, hl12⟩ := List.append_of_mem he
      have hsplit : ∀ (l1 : List E) {s : V}, IsPath (g.through p) s (l1 ++ e :: l2) v → IsPath (g.through p) s (l1 ++ [e]) (g.target e) ∧ IsPath (g.through p) (g.target e) l2 v := by
        intro l1
        induction l1 with
        | nil => intro s h; cases h with | cons h1 h2 => exact ⟨.cons h1 (.nil _), h2⟩
        | cons z l1 ih => intro s h; cases h with | cons h1 h2 => exact ⟨.cons h1 (ih h2).1, (ih h2).2⟩
      rw [hl12] at hp hl
      obtain ⟨hp1, hp2⟩ := hsplit l1 hp
      have hw : g.target e ∈ discovered tr := (f.reach _).mpr ⟨s, hsu, _, hp1⟩
      have hle := (hd _ hw).2 s hsu _ hp1
      have hvw : g.target e ≠ v := by
        intro hv; apply hn; rw [hv]; simp
      have hwy : g.target e ∈ discovered y := by
        rw [h1] at hw
        rw [discovered_append, discovered_cons] at hw
        rcases List.mem_append.mp hw with hw | hw
        · exact absurd hw hn
        · simpa using hw
      have hdep : dep v ≤ dep (g.target e) := by
        rw [h1] at hs
        simp only [discovered_append, discovered_cons] at hs
        rw [List.pairwise_append] at hs
        exact hs.2.2 v (by simp) _ (by simpa using hwy)
      simp only [List.length_append, List.length_cons, List.length_nil] at hle hl
      have : l2 = [] := by
        apply List.eq_nil_of_length_eq_zero
        omega
      subst this
      cases hp2
      exact hvw rfl

end facts

end Bfs
end PyBGL
