import Verif.Model.AggregatedObjects
import Verif.Props.C163_TopologicalInPlace
import Verif.Props.C169_BfsObjects

/-!
# C170: aggregated visitors when one of the visitors raises, when a visitor is listed twice, and when the list changes
-/

namespace PyBGL
variable {Ev σ : Type} {meth : Nat → Ev → PyM σ Unit}

/-- "The visitor number `i`, which held `x`, has received exactly the calls `evs`, and holds `y`": none of these calls raised. -/
def Received (meth : Nat → Ev → PyM σ Unit) (i : Nat) (evs : List Ev) (x y : σ) : Prop := PyM.each (meth i) evs x = (.ok (), y)

/-- "The visitor number `i`, which held `x`, has received exactly the calls `evs` and then `ev`, which raised `err`; it holds `y`." -/
def Raised (meth : Nat → Ev → PyM σ Unit) (i : Nat) (evs : List Ev) (ev : Ev) (err : PyErr) (x y : σ) : Prop :=
  ∃ z, Received meth i evs x z ∧ meth i ev z = (.error err, y)

theorem Received.nil {i : Nat} {x : σ} : Received meth i [] x x := rfl

theorem Received.cons {i : Nat} {ev : Ev} {evs : List Ev} {x y z : σ} (h1 : meth i ev x = (.ok (), y)) (h2 : Received meth i evs y z) :
    Received meth i (ev :: evs) x z := by
  unfold Received at h2 ⊢
  simp only [PyM.each, PyM.bind, h1]
  exact h2

theorem Received.one {i : Nat} {ev : Ev} {x y : σ} (h : meth i ev x = (.ok (), y)) : Received meth i [ev] x y := .cons h .nil

theorem Received.append {i : Nat} {a b : List Ev} {x y z : σ} (h1 : Received meth i a x y) (h2 : Received meth i b y z) :
    Received meth i (a ++ b) x z := by
  induction a generalizing x with
  | nil => cases h1; exact h2
  | cons ev a ih =>
    unfold Received at h1
    simp only [PyM.each, PyM.bind] at h1
    rcases hv : meth i ev x with ⟨err | u, x'⟩
    · rw [hv] at h1; cases h1
    · rw [hv] at h1; exact .cons hv (ih h1)

theorem callVisitor_ok {ev : Ev} {i : Nat} {w : Shop σ} {y : σ} (h : meth i ev (w.obj i) = (.ok (), y)) :
    callVisitor meth ev i w = (.ok (), { w with obj := fun j => if j = i then y else w.obj j }) := by
  unfold callVisitor; rw [h]

theorem callVisitor_error {ev : Ev} {i : Nat} {w : Shop σ} {err : PyErr} {y : σ} (h : meth i ev (w.obj i) = (.error err, y)) :
    callVisitor meth ev i w = (.error err, { w with obj := fun j => if j = i then y else w.obj j }) := by
  unfold callVisitor; rw [h]

/-- One call. -/
theorem call_each {ev : Ev} (ids : List Nat) : ∀ (w : Shop σ), ids.Nodup →
    (∃ w', PyM.each (callVisitor meth ev) ids w = (.ok (), w') ∧ w'.lists = w.lists ∧ (∀ i ∈ ids, meth i ev (w.obj i) = (.ok (), w'.obj i)) ∧ ∀ i ∉ ids, w'.obj i = w.obj i) ∨
    (∃ w' err a k b, PyM.each (callVisitor meth ev) ids w = (.error err, w') ∧ w'.lists = w.lists ∧ ids = a ++ k :: b ∧
      (∀ i ∈ a, meth i ev (w.obj i) = (.ok (), w'.obj i)) ∧ meth k ev (w.obj k) = (.error err, w'.obj k) ∧ ∀ i, i ∉ a → i ≠ k → w'.obj i = w.obj i) := by
  induction ids with
  | nil => intro w _; exact .inl ⟨w, rfl, rfl, by simp, fun _ _ => rfl⟩
  | cons i ids ih =>
    intro w hn
    rw [List.nodup_cons] at hn
    rcases hv : meth i ev (w.obj i) with ⟨err | u, y⟩
    · refine .inr ⟨{ w with obj := fun j => if j = i then y else w.obj j }, err, [], i, ids, ?_, rfl, rfl, by simp, ?_, ?_⟩
      · simp only [PyM.each, PyM.bind]
        rw [callVisitor_error hv]
      · simp [hv]
      · intro j _ hj; simp [hj]
    · have hw : ∀ j, j ≠ i → (if j = i then y else w.obj j) = w.obj j := fun j hj => if_neg hj
      rcases ih { w with obj := fun j => if j = i then y else w.obj j } hn.2 with ⟨w', h1, h2, h3, h4⟩ | ⟨w', err, a, k, b, h1, h2, rfl, h4, h5, h6⟩
      · refine .inl ⟨w', ?_, h2, ?_, ?_⟩
        · simp only [PyM.each, PyM.bind]
          rw [callVisitor_ok hv]
          exact h1
        · intro j hj
          rcases List.mem_cons.mp hj with rfl | hj
          · rw [h4 j hn.1, hv]; simp
          · have := h3 j hj
            dsimp only at this
            rwa [hw j (fun h => hn.1 (h ▸ hj))] at this
        · intro j hj
          rw [h4 j (fun h => hj (List.mem_cons_of_mem _ h))]
          exact hw j (fun h => hj (h ▸ List.mem_cons_self))
      · have hk : k ≠ i := fun h => hn.1 (h ▸ by simp)
        have hia : i ∉ a := fun h => hn.1 (by simp [h])
        refine .inr ⟨w', err, i :: a, k, b, ?_, h2, rfl, ?_, ?_, ?_⟩
        · simp only [PyM.each, PyM.bind]
          rw [callVisitor_ok hv]
          exact h1
        · intro j hj
          rcases List.mem_cons.mp hj with rfl | hj
          · rw [h6 j hia hk.symm, hv]; simp
          · have := h4 j hj
            dsimp only at this
            rwa [hw j (fun h => hia (h ▸ hj))] at this
        · dsimp only at h5
          rwa [hw k hk] at h5
        · intro j hj hjk
          rw [h6 j (fun h => hj (List.mem_cons_of_mem _ h)) hjk]
          exact hw j (fun h => hj (h ▸ List.mem_cons_self))

/-- **C170** (calls received): each of the distinct visitors aggregated receives the calls in their order. If none of them raises, each has received all the calls. If one of them, `k`, raises, at the
call `ev`, the visitors that precede `k` in the list have received the calls up to `ev`, and those that follow have received the calls before `ev` and not `ev`. No other object changes. -/
theorem C170_received {l : Nat} (evs : List Ev) : ∀ (w : Shop σ), (w.content l).Nodup →
    (∃ w', PyM.each (callAggregated meth l) evs w = (.ok (), w') ∧ w'.lists = w.lists ∧ (∀ i ∈ w.content l, Received meth i evs (w.obj i) (w'.obj i)) ∧
      ∀ i ∉ w.content l, w'.obj i = w.obj i) ∨
    (∃ w' err pre ev rest a k b, PyM.each (callAggregated meth l) evs w = (.error err, w') ∧ w'.lists = w.lists ∧ evs = pre ++ ev :: rest ∧ w.content l = a ++ k :: b ∧
      (∀ i ∈ a, Received meth i (pre ++ [ev]) (w.obj i) (w'.obj i)) ∧ Raised meth k pre ev err (w.obj k) (w'.obj k) ∧
      (∀ i ∈ b, Received meth i pre (w.obj i) (w'.obj i)) ∧ ∀ i ∉ w.content l, w'.obj i = w.obj i) := by
  induction evs with
  | nil => intro w _; exact .inl ⟨w, rfl, rfl, fun _ _ => .nil, fun _ _ => rfl⟩
  | cons ev evs ih =>
    intro w hn
    rcases call_each (meth := meth) (ev := ev) _ w hn with ⟨w1, h1, h2, h3, h4⟩ | ⟨w1, err, a, k, b, h1, h2, h3, h4, h5, h6⟩
    · have hc : w1.content l = w.content l := by unfold Shop.content; rw [h2]
      have hstep : PyM.each (callAggregated meth l) (ev :: evs) w = PyM.each (callAggregated meth l) evs w1 := by
        simp only [PyM.each, PyM.bind, callAggregated]
        rw [h1]
      rcases ih w1 (hc ▸ hn) with ⟨w', e1, e2, e3, e4⟩ | ⟨w', err, pre, ev', rest, a, k, b, e1, e2, rfl, e4, e5, ⟨z, e6, e6'⟩, e7, e8⟩
      · refine .inl ⟨w', hstep.trans e1, e2.trans h2, fun i hi => .cons (h3 i hi) (e3 i (hc ▸ hi)), fun i hi => ?_⟩
        rw [e4 i (hc ▸ hi), h4 i hi]
      · rw [hc] at e4
        refine .inr ⟨w', err, ev :: pre, ev', rest, a, k, b, hstep.trans e1, e2.trans h2, rfl, e4, fun i hi => ?_, ?_, fun i hi => ?_, fun i hi => ?_⟩
        · exact .cons (h3 i (by rw [e4]; simp [hi])) (e5 i hi)
        · exact ⟨z, .cons (h3 k (by rw [e4]; simp)) e6, e6'⟩
        · exact .cons (h3 i (by rw [e4]; simp [hi])) (e7 i hi)
        · rw [e8 i (hc ▸ hi), h4 i hi]
    · have hn' := h3 ▸ hn
      refine .inr ⟨w1, err, [], ev, evs, a, k, b, ?_, h2, rfl, h3, fun i hi => .one (h4 i hi), ⟨_, .nil, h5⟩, fun i hi => ?_, fun i hi => ?_⟩
      · simp only [PyM.each, PyM.bind, callAggregated]
        rw [h1]
      · have h7 := List.nodup_append.mp hn'
        have hia : i ∉ a := fun h => h7.2.2 i h i (by simp [hi]) rfl
        have hik : i ≠ k := fun h => (List.nodup_cons.mp h7.2.1).1 (h ▸ hi)
        rw [h6 i hia hik]
        exact .nil
      · rw [h6 i (fun h => hi (by rw [h3]; simp [h])) (fun h => hi (by rw [h3, h]; simp))]

/-- **C170** (visitor listed several times): a visitor that occurs `n` times in the list receives each call `n` times. -/
theorem C170_repeated {l : Nat} (evs : List Ev) : ∀ (w w' : Shop σ), PyM.each (callAggregated meth l) evs w = (.ok (), w') →
    w'.lists = w.lists ∧ ∀ i, Received meth i (evs.flatMap fun ev => List.replicate ((w.content l).count i) ev) (w.obj i) (w'.obj i) := by
  have one : ∀ (ev : Ev) (ids : List Nat) (w w' : Shop σ), PyM.each (callVisitor meth ev) ids w = (.ok (), w') →
      w'.lists = w.lists ∧ ∀ i, Received meth i (List.replicate (ids.count i) ev) (w.obj i) (w'.obj i) := by
    intro ev ids
    induction ids with
    | nil => intro w w' h; cases h; exact ⟨rfl, fun _ => .nil⟩
    | cons j ids ih =>
      intro w w' h
      simp only [PyM.each, PyM.bind] at h
      rcases hv : meth j ev (w.obj j) with ⟨err | u, y⟩
      · rw [callVisitor_error hv] at h; cases h
      · rw [callVisitor_ok hv] at h
        obtain ⟨h1, h2⟩ := ih _ w' h
        refine ⟨h1, fun i => ?_⟩
        have h3 := h2 i
        dsimp only at h3
        by_cases hij : i = j
        · subst hij
          rw [if_pos rfl] at h3
          rw [List.count_cons_self, List.replicate_succ]
          exact .cons hv h3
        · rw [if_neg hij] at h3
          rwa [List.count_cons_of_ne (Ne.symm hij)]
  induction evs with
  | nil => intro w w' h; cases h; exact ⟨rfl, fun _ => .nil⟩
  | cons ev evs ih =>
    intro w w' h
    simp only [PyM.each, PyM.bind] at h
    rcases hv : callAggregated meth l ev w with ⟨err | u, w1⟩
    · rw [hv] at h; cases h
    · rw [hv] at h
      obtain ⟨h1, h2⟩ := one ev _ w w1 hv
      obtain ⟨h3, h4⟩ := ih w1 w' h
      have hc : w1.content l = w.content l := by unfold Shop.content; rw [h1]
      refine ⟨h3.trans h1, fun i => ?_⟩
      rw [List.flatMap_cons]
      have h5 := h4 i
      rw [hc] at h5
      exact (h2 i).append h5

/-! ## Searches -/

/-- "The visitors of the list `l` have received the calls `evs`, until one of them raised", with the outcome `r`: see `C170_received`. -/
def Heard (meth : Nat → Ev → PyM σ Unit) (l : Nat) (evs : List Ev) {R : Type} (r : Except PyErr R) (w w' : Shop σ) : Prop :=
  w'.lists = w.lists ∧ (∀ i ∉ w.content l, w'.obj i = w.obj i) ∧
  ((∃ x, r = .ok x) ∧ (∀ i ∈ w.content l, Received meth i evs (w.obj i) (w'.obj i)) ∨
  ∃ err pre ev rest a k b, r = .error err ∧ evs = pre ++ ev :: rest ∧ w.content l = a ++ k :: b ∧
    (∀ i ∈ a, Received meth i (pre ++ [ev]) (w.obj i) (w'.obj i)) ∧ Raised meth k pre ev err (w.obj k) (w'.obj k) ∧
    ∀ i ∈ b, Received meth i pre (w.obj i) (w'.obj i))

theorem heard_each {l : Nat} (evs : List Ev) (w : Shop σ) (hn : (w.content l).Nodup) {R : Type} (c : R) :
    Heard meth l evs ((PyM.each (callAggregated meth l) evs w).1.map fun _ => c) w (PyM.each (callAggregated meth l) evs w).2 := by
  rcases C170_received (meth := meth) evs w hn with ⟨w', h1, h2, h3, h4⟩ | ⟨w', err, pre, ev, rest, a, k, b, h1, h2, h3, h4, h5, h6, h7, h8⟩
  · rw [h1]
    exact ⟨h2, h4, .inl ⟨⟨c, rfl⟩, h3⟩⟩
  · rw [h1]
    exact ⟨h2, h8, .inr ⟨err, pre, ev, rest, a, k, b, rfl, h3, h4, h5, h6, h7⟩⟩

/-- A visitor that raises at some call, raises when it is alone. -/
theorem Raised.alone {i : Nat} {pre rest : List Ev} {ev : Ev} {err : PyErr} {x y : σ} (h : Raised meth i pre ev err x y) :
    PyM.each (meth i) (pre ++ ev :: rest) x = (.error err, y) := by
  obtain ⟨z, h1, h2⟩ := h
  induction pre generalizing x with
  | nil =>
    cases h1
    simp only [List.nil_append, PyM.each, PyM.bind, h2]
  | cons e pre ih =>
    unfold Received at h1
    simp only [List.cons_append, PyM.each, PyM.bind] at h1 ⊢
    rcases hv : meth i e x with ⟨err' | u, x'⟩
    · rw [hv] at h1; cases h1
    · rw [hv] at h1; exact ih h1

theorem each_agrees {l : Nat} {evs : List Ev} {w w' : Shop σ} {R : Type} {r : Except PyErr R} (h : Heard meth l evs r w w') :
    ((∃ x, r = .ok x) ↔ ∀ i ∈ w.content l, (PyM.each (meth i) evs (w.obj i)).1 = .ok ()) ∧
    ((∃ x, r = .ok x) → ∀ i ∈ w.content l, (PyM.each (meth i) evs (w.obj i)).2 = w'.obj i) := by
  obtain ⟨_, _, ⟨hx, h1⟩ | ⟨err, pre, ev, rest, a, k, b, rfl, rfl, h2, h3, h4, h5⟩⟩ := h
  · refine ⟨⟨fun _ i hi => ?_, fun _ => hx⟩, fun _ i hi => ?_⟩
    · have := h1 i hi; unfold Received at this; rw [this]
    · have := h1 i hi; unfold Received at this; rw [this]
  · refine ⟨⟨fun ⟨x, hx⟩ => (nomatch hx), fun hall => ?_⟩, fun ⟨x, hx⟩ => (nomatch hx)⟩
    have := hall k (by rw [h2]; simp)
    rw [h4.alone] at this
    cases this

section search
variable {V E : Type} [DecidableEq V] {g : GraphI V E} {p : E → Bool}

/-- **C170** (breadth-first search): the visitors aggregated receive the calls of the search, until one of them raises. -/
theorem C170_bfs (us : List V) (hus : us.Nodup) (U : List V) (hU : ∀ s ∈ us, ∀ v, Reach (g.through p) s v → v ∈ U) (c0 : Dict V Color)
    (hc : ∀ v, colorOf c0 v = .white) :
    ∃ c tr, Returns (bfsGraph g us p recorder c0 []) (.ok (c, tr)) ∧
      ∀ (σ : Type) (meth : Nat → BfsEvent V E → PyM σ Unit) (l : Nat) (w : Shop σ), (w.content l).Nodup →
        ∃ r w', Returns (bfsGraphM g (some us) p (callAggregated meth l) c0 w) (.ok (r, w')) ∧ Heard meth l tr r w w' := by
  obtain ⟨c, tr, h1, h2⟩ := C169_visitor us hus U hU c0 hc
  exact ⟨c, tr, h1, fun σ meth l w hn => ⟨_, _, h2 _ (callAggregated meth l) w, heard_each tr w hn c⟩⟩

/-- **C170** (depth-first search): the same. -/
theorem C170_dfs (sources U : List V) (hU : ∀ s ∈ (if sources = [] then g.vertices else sources), ∀ v, Reach (g.through p) s v → v ∈ U) :
    ∃ c tr, Returns (dfsGraph g sources p recorder [] []) (.ok (c, tr)) ∧
      ∀ (σ : Type) (meth : Nat → DfsEvent V E → PyM σ Unit) (l : Nat) (w : Shop σ), (w.content l).Nodup →
        ∃ r w', Returns (dfsGraphM g sources p (callAggregated meth l) [] w) (.ok (r, w')) ∧ Heard meth l tr r w w' := by
  obtain ⟨c, tr, h1, h2⟩ := C163_visitor g p sources U hU
  exact ⟨c, tr, h1, fun σ meth l w hn => ⟨_, _, h2 _ (callAggregated meth l) w, heard_each tr w hn c⟩⟩

/-- **C170** (each visitor alone, breadth-first search): the search with the visitors aggregated ends without an exception exactly if it does with each of them alone, and then leaves each of them as it would
be alone. -/
theorem C170_alone_bfs (us : List V) (hus : us.Nodup) (U : List V) (hU : ∀ s ∈ us, ∀ v, Reach (g.through p) s v → v ∈ U) (c0 : Dict V Color)
    (hc : ∀ v, colorOf c0 v = .white) {σ : Type} (meth : Nat → BfsEvent V E → PyM σ Unit) (l : Nat) (w : Shop σ) (hn : (w.content l).Nodup) :
    ∃ (r : Except PyErr (Dict V Color)) (w' : Shop σ) (c : Nat → Except PyErr (Dict V Color)) (x : Nat → σ), Returns (bfsGraphM g (some us) p (callAggregated meth l) c0 w) (.ok (r, w')) ∧
      (∀ i, Returns (bfsGraphM g (some us) p (meth i) c0 (w.obj i)) (.ok (c i, x i))) ∧
      ((∃ d, r = .ok d) ↔ ∀ i ∈ w.content l, ∃ d, c i = .ok d) ∧ ((∃ d, r = .ok d) → ∀ i ∈ w.content l, w'.obj i = x i) := by
  obtain ⟨c, tr, h1, h2⟩ := C169_visitor us hus U hU c0 hc
  have h3 := each_agrees (heard_each (meth := meth) tr w hn c)
  refine ⟨_, _, fun i => (PyM.each (meth i) tr (w.obj i)).1.map fun _ => c, fun i => (PyM.each (meth i) tr (w.obj i)).2, h2 _ (callAggregated meth l) w, fun i => h2 _ (meth i) (w.obj i), ?_, fun h i hi => (h3.2 h i hi).symm⟩
  rw [h3.1]
  refine ⟨fun h i hi => ⟨c, by dsimp only; rw [h i hi]; rfl⟩, fun h i hi => ?_⟩
  obtain ⟨d, hd⟩ := h i hi
  dsimp only at hd
  cases he : (PyM.each (meth i) tr (w.obj i)).1 with
  | error e => rw [he] at hd; cases hd
  | ok u => rfl

/-- **C170** (each visitor alone, depth-first search): the same. -/
theorem C170_alone_dfs (sources U : List V) (hU : ∀ s ∈ (if sources = [] then g.vertices else sources), ∀ v, Reach (g.through p) s v → v ∈ U)
    {σ : Type} (meth : Nat → DfsEvent V E → PyM σ Unit) (l : Nat) (w : Shop σ) (hn : (w.content l).Nodup) :
    ∃ (r : Except PyErr (Dict V Color)) (w' : Shop σ) (c : Nat → Except PyErr (Dict V Color)) (x : Nat → σ), Returns (dfsGraphM g sources p (callAggregated meth l) [] w) (.ok (r, w')) ∧
      (∀ i, Returns (dfsGraphM g sources p (meth i) [] (w.obj i)) (.ok (c i, x i))) ∧
      ((∃ d, r = .ok d) ↔ ∀ i ∈ w.content l, ∃ d, c i = .ok d) ∧ ((∃ d, r = .ok d) → ∀ i ∈ w.content l, w'.obj i = x i) := by
  obtain ⟨c, tr, h1, h2⟩ := C163_visitor g p sources U hU
  have h3 := each_agrees (heard_each (meth := meth) tr w hn c)
  refine ⟨_, _, fun i => (PyM.each (meth i) tr (w.obj i)).1.map fun _ => c, fun i => (PyM.each (meth i) tr (w.obj i)).2, h2 _ (callAggregated meth l) w, fun i => h2 _ (meth i) (w.obj i), ?_, fun h i hi => (h3.2 h i hi).symm⟩
  rw [h3.1]
  refine ⟨fun h i hi => ⟨c, by dsimp only; rw [h i hi]; rfl⟩, fun h i hi => ?_⟩
  obtain ⟨d, hd⟩ := h i hi
  dsimp only at hd
  cases he : (PyM.each (meth i) tr (w.obj i)).1 with
  | error e => rw [he] at hd; cases hd
  | ok u => rfl

end search

/-! ## The list of visitors -/

/-- **C170** (the list given): the aggregated visitor made from a list that is not empty uses this list itself: visitors appended to the list later are called as well, after the others. -/
theorem C170_list (w : Shop σ) (l i : Nat) (hl : l < w.lists.length) (hne : w.content l ≠ []) :
    ∃ a w1 w2, aggregated (some l) w = (.ok a, w1) ∧ appendVisitor l i w1 = (.ok (), w2) ∧ w2.content a = w.content l ++ [i] ∧
      ∀ {Ev : Type} (meth : Nat → Ev → PyM σ Unit) (ev : Ev), callAggregated meth a ev w2 = PyM.each (callVisitor meth ev) (w.content l ++ [i]) w2 := by
  have hc : ({ w with lists := w.lists.set l (w.content l ++ [i]) } : Shop σ).content l = w.content l ++ [i] := by
    simp [Shop.content, List.getD, hl]
  refine ⟨l, w, _, ?_, rfl, hc, fun meth ev => ?_⟩
  · simp [aggregated, hne]
  · unfold callAggregated; rw [hc]

/-- **C170** (no list, or an empty one): the aggregated visitor has a list of its own, which is empty: it calls no visitor, even if visitors are appended to the list given later. -/
theorem C170_own_list (w : Shop σ) (visitors : Option Nat) (hv : ∀ l, visitors = some l → l < w.lists.length ∧ w.content l = []) :
    ∃ a w1, aggregated visitors w = (.ok a, w1) ∧ visitors ≠ some a ∧ w1.obj = w.obj ∧ (∀ l < w.lists.length, w1.content l = w.content l) ∧
      ∀ (later : List (Nat × Nat)), (∀ q ∈ later, q.1 ≠ a) → ∃ w2, PyM.each (fun q => appendVisitor q.1 q.2) later w1 = (.ok (), w2) ∧ w2.content a = [] ∧
        ∀ {Ev : Type} (meth : Nat → Ev → PyM σ Unit) (ev : Ev), callAggregated meth a ev w2 = (.ok (), w2) := by
  have hag : aggregated visitors w = (.ok w.lists.length, { w with lists := w.lists ++ [[]] }) := by
    cases visitors with
    | none => rfl
    | some l => simp [aggregated, (hv l rfl).2]
  refine ⟨_, _, hag, fun h => ?_, rfl, fun l hl => ?_, fun later hlater => ?_⟩
  · exact Nat.lt_irrefl _ (hv _ h).1
  · simp [Shop.content, List.getD, List.getElem?_append_left hl]
  · have key : ∀ (later : List (Nat × Nat)) (w1 : Shop σ), (∀ q ∈ later, q.1 ≠ w.lists.length) → w1.content w.lists.length = [] →
        ∃ w2, PyM.each (fun q => appendVisitor q.1 q.2) later w1 = (.ok (), w2) ∧ w2.content w.lists.length = [] := by
      intro later
      induction later with
      | nil => intro w1 _ h; exact ⟨w1, rfl, h⟩
      | cons q later ih =>
        intro w1 hq h
        refine ih _ (fun q' h' => hq q' (List.mem_cons_of_mem _ h')) ?_
        have hne : q.1 ≠ w.lists.length := hq q List.mem_cons_self
        unfold Shop.content at h ⊢
        simp only [List.getD, List.getElem?_set_ne hne] at h ⊢
        exact h
    obtain ⟨w2, h1, h2⟩ := key later { w with lists := w.lists ++ [[]] } hlater (by simp [Shop.content, List.getD])
    refine ⟨w2, h1, h2, fun meth ev => ?_⟩
    unfold callAggregated
    rw [h2]
    rfl

/-! ## Cases that meet the hypotheses -/

section Examples

/-- Visitors that record the vertices discovered; the visitor number 1 raises when the vertex 2 is discovered. -/
def watchers : Nat → BfsEvent Nat (EdgeDesc Nat) → PyM (List Nat) Unit
  | 1, .discover 2 => fun x => (.error .runtimeError, x ++ [2])
  | _, .discover v => fun x => (.ok (), x ++ [v])
  | _, _ => PyM.pure ()

/-- The visitors 0, 1 and 2, in this order: the discovery of the vertex 2 reaches the visitor 0, and not the visitor 2. -/
example : (match bfsGraphM triangle (some [0]) (fun _ => true) (callAggregated watchers 0) [] ⟨[[0, 1, 2], []], fun _ => []⟩ 20 with
    | some (.ok (.error .runtimeError, w)) => w.obj 0 == [0, 1, 2] && w.obj 1 == [0, 1, 2] && w.obj 2 == [0, 1] && w.obj 3 == []
    | _ => false) = true := by decide +kernel

example : (⟨[[0, 1, 2], []], fun _ => []⟩ : Shop (List Nat)).content 0 = [0, 1, 2] ∧ [0, 1, 2].Nodup ∧ (⟨[[0, 1, 2], []], fun _ => []⟩ : Shop (List Nat)).content 1 = [] := by decide

/-- A visitor listed twice. -/
example : (match bfsGraphM triangle (some [0]) (fun _ => true) (callAggregated watchers 0) [] ⟨[[0, 0]], fun _ => []⟩ 20 with
    | some (.ok (.ok _, w)) => w.obj 0 == [0, 0, 1, 1, 2, 2]
    | _ => false) = true := by decide +kernel

end Examples

end PyBGL
