import Verif.Spec.Calls
import Verif.Proofs.HeapCalls
import Verif.Proofs.BKTreeCalls

/-!
# C155, C156: calls to functions given by the caller, and the exceptions they raise
-/

namespace PyBGL

/-! ## Heaps -/

section
variable {κ α S : Type} {cost : S → Nat} {c k : Nat} {preorder : κ → κ → PyM S Bool} {elementLt : α → α → PyM S Bool} {key : α → PyM S κ}

theorem costsAtMost_bind {R Q : Type} {a b : Nat} {m : PyM S R} {f : R → PyM S Q} (h1 : CostsAtMost cost a m) (h2 : ∀ r, CostsAtMost cost b (f r)) :
    CostsAtMost cost (a + b) (PyM.bind m f) := by
  intro s
  have k1 := h1 s
  unfold PyM.bind
  generalize m s = o at k1 ⊢
  obtain ⟨o, s1⟩ := o
  simp only at k1
  cases o with
  | error e => simp only; omega
  | ok r => have k2 := h2 r s1; simp only; omega

theorem costsAtMost_pure {R : Type} (a : Nat) (r : R) : CostsAtMost cost a (PyM.pure r) := fun _ => Nat.le_add_right _ _

theorem entryLtM_cost (hp : ∀ x y, CostsAtMost cost c (preorder x y)) (he : ∀ x y, CostsAtMost cost c (elementLt x y)) :
    Heapq.Costs cost (3 * c) (entryLtM preorder elementLt) := by
  intro x y
  have h1 : CostsAtMost cost (c + c) (comparableEqM preorder x.1 y.1) := by
    refine costsAtMost_bind (hp _ _) fun b => ?_
    split
    · exact hp _ _
    · exact costsAtMost_pure _ _
  have h2 : CostsAtMost cost ((c + c) + (c + 0)) (entryLtM preorder elementLt x y) := by
    refine costsAtMost_bind h1 fun b => ?_
    split
    · split
      · exact he _ _
      · exact costsAtMost_pure _ _
    · exact costsAtMost_bind (hp _ _) fun b => costsAtMost_pure _ _
  intro s
  have := h2 s
  omega

/-- **C155** (push): whatever the preorder does, and in whatever state the heap is, `push` on a heap of `n` elements calls `to_comparable` once and the preorder at most
`3 ⌊log₂ (n + 1)⌋` times. Each call to the preorder, or to the `<` of the elements, is supposed to cost at most `c`, and each call to `to_comparable` at most `k`. -/
theorem C155_push (hp : ∀ x y, CostsAtMost cost c (preorder x y)) (he : ∀ x y, CostsAtMost cost c (elementLt x y)) (hk : ∀ x, CostsAtMost cost k (key x))
    (h : Heap κ α) (x : α) (s : S) :
    cost (Heap.pushM (entryLtM preorder elementLt) key x (h, s)).2.2 ≤ cost s + k + Nat.log 2 (h.len + 1) * (3 * c) := by
  unfold Heap.pushM Heap.onWorld PyM.bind PyM.on
  simp only
  have h1 := hk x s
  generalize key x s = o at h1 ⊢
  obtain ⟨o, s1⟩ := o
  simp only at h1
  cases o with
  | error e => simp only; omega
  | ok o =>
    simp only [Heap.onData, PyM.on]
    have h2 := Heapq.heappushM_cost (entryLtM_cost hp he) (o, h.index, x) (h.data, s1)
    generalize Heapq.heappushM (entryLtM preorder elementLt) (o, h.index, x) (h.data, s1) = r at h2 ⊢
    obtain ⟨r, l, s2⟩ := r
    simp only [Heap.len] at h2 ⊢
    cases r <;> simp only <;> omega

/-- **C155** (pop): at most `6 ⌊log₂ (n - 1)⌋` calls to the preorder. -/
theorem C155_pop (hp : ∀ x y, CostsAtMost cost c (preorder x y)) (he : ∀ x y, CostsAtMost cost c (elementLt x y)) (h : Heap κ α) (s : S) :
    cost (Heap.popM (entryLtM preorder elementLt) (h, s)).2.2 ≤ cost s + 2 * Nat.log 2 (h.len - 1) * (3 * c) := by
  have h2 := Heapq.heappopM_cost (entryLtM_cost hp he) (h.data, s)
  unfold Heap.popM Heap.onData PyM.bind PyM.on
  simp only
  generalize Heapq.heappopM (entryLtM preorder elementLt) (h.data, s) = r at h2 ⊢
  obtain ⟨r, l, s2⟩ := r
  simp only [Heap.len] at h2 ⊢
  cases r <;> exact h2

theorem entriesM_cost (hk : ∀ x, CostsAtMost cost k (key x)) (l : List (α × Nat)) (s : S) :
    cost (Heap.entriesM key l s).2 ≤ cost s + l.length * k ∧ ∀ es, (Heap.entriesM key l s).1 = .ok es → es.length = l.length := by
  induction l generalizing s with
  | nil => exact ⟨by simp [Heap.entriesM, PyM.pure], fun es h => by cases h; rfl⟩
  | cons p l ih =>
    obtain ⟨x, i⟩ := p
    unfold Heap.entriesM
    simp only [PyM.bind]
    have h1 := hk x s
    generalize key x s = o at h1 ⊢
    obtain ⟨o, s1⟩ := o
    simp only at h1
    cases o with
    | error e =>
      simp only [List.length_cons, Nat.add_mul]
      exact ⟨by omega, fun es h => by cases h⟩
    | ok o =>
      simp only
      obtain ⟨h2, h3⟩ := ih s1
      generalize Heap.entriesM key l s1 = r at h2 h3 ⊢
      obtain ⟨r, s2⟩ := r
      simp only [List.length_cons, Nat.add_mul] at h2 h3 ⊢
      cases r with
      | error e => exact ⟨by simp only; omega, fun es h => by cases h⟩
      | ok es =>
        refine ⟨by simp only [PyM.pure]; omega, ?_⟩
        intro es' h
        cases h
        simp [h3 es rfl]

/-- **C155** (constructor): `Heap(elements)` on `n` elements calls `to_comparable` at most `n` times and the preorder at most `6 n` times. -/
theorem C155_make (hp : ∀ x y, CostsAtMost cost c (preorder x y)) (he : ∀ x y, CostsAtMost cost c (elementLt x y)) (hk : ∀ x, CostsAtMost cost k (key x))
    (xs : List α) (s : S) :
    cost (Heap.makeM (entryLtM preorder elementLt) key xs s).2 ≤ cost s + xs.length * k + 2 * xs.length * (3 * c) := by
  obtain ⟨h1, h2⟩ := entriesM_cost hk xs.zipIdx s
  unfold Heap.makeM PyM.bind
  generalize Heap.entriesM key xs.zipIdx s = r at h1 h2 ⊢
  obtain ⟨r, s1⟩ := r
  rw [List.length_zipIdx] at h1 h2
  simp only at h1 h2 ⊢
  cases r with
  | error e => simp only; omega
  | ok es =>
    simp only
    have hl := h2 es rfl
    have h3 := Heapq.heapifyM_cost (entryLtM_cost hp he) (es, s1)
    generalize Heapq.heapifyM (entryLtM preorder elementLt) (es, s1) = q at h3 ⊢
    obtain ⟨q, l, s2⟩ := q
    simp only [hl] at h3
    cases q <;> simp only <;> omega
end

/-! ## BK-trees -/

section
variable {X S : Type}

theorem BKTree.made_shape {t : BKTree X} (ht : t.Made) : t = .empty ∨ t.Shape := by
  induction ht with
  | empty => exact .inl rfl
  | @insert S t t' dist w u fuel s s' r _ he ih =>
    rcases ih with rfl | h
    · right
      simp only [BKTree.insertM, BKTree.empty, Option.some.injEq, Prod.mk.injEq] at he
      rw [← he.2.1]
      exact (BKTree.inv_first (dist := fun _ _ => 0) w).shape
    · right
      simp only [BKTree.insertM, h.root] at he
      by_cases hu : u.getD 0 ∈ t.a.vertices
      · obtain ⟨r', h1, _, h3⟩ := BKTree.insertFromM_spec (cost := fun _ => 0) (c := fun _ _ => 0) (dist := dist) (fun _ _ _ => Nat.le_refl _) h w 0
          t.a.lastVertexId (u.getD 0) s [] hu (by omega) List.nodup_nil (by simp) (Nat.zero_le _)
        by_cases hf : t.a.lastVertexId ≤ fuel
        · rw [h1 fuel hf] at he
          cases he
          cases r with
          | error e => simp only [BKTree.InsertLeaves] at h3; rw [h3]; exact h
          | ok v =>
            simp only [BKTree.InsertLeaves] at h3
            rcases h3 with ⟨_, h3⟩ | ⟨u', d, hu', hd, _, h3⟩
            · rw [h3]; exact h
            · rw [h3]; exact BKTree.shape_leaf h w hu' hd
        · -- the loop ended before: more fuel changes nothing
          have hmono : ∀ f u s r, BKTree.insertFromM dist t w f u s = some r → ∀ g, f ≤ g → BKTree.insertFromM dist t w g u s = some r := by
            intro f
            induction f with
            | zero => intro u s r h; cases h
            | succ f ihf =>
              intro u s r hh g hg
              obtain ⟨g, rfl⟩ : ∃ g', g = g' + 1 := ⟨g - 1, by omega⟩
              unfold BKTree.insertFromM at hh ⊢
              split at hh
              · exact hh
              · split at hh
                · exact hh
                · split at hh
                  · rename_i h0; simp only [if_pos h0]; exact hh
                  · rename_i h0
                    simp only [if_neg h0]
                    split at hh
                    · exact ihf _ _ _ hh g (by omega)
                    · exact hh
          have := hmono _ _ _ _ he t.a.lastVertexId (by omega)
          rw [h1 _ (Nat.le_refl _)] at this
          cases this
          cases r with
          | error e => simp only [BKTree.InsertLeaves] at h3; rw [h3]; exact h
          | ok v =>
            simp only [BKTree.InsertLeaves] at h3
            rcases h3 with ⟨_, h3⟩ | ⟨u', d, hu', hd, _, h3⟩
            · rw [h3]; exact h
            · rw [h3]; exact BKTree.shape_leaf h w hu' hd
      · cases fuel with
        | zero => cases he
        | succ f =>
          rw [BKTree.insertFromM_keyError dist h w hu] at he
          cases he
          exact h

/-- **C155** (insertion): in a tree made by any insertions, with any distances, `insert` ends and calls the distance at most once for each stored element. A call `dist x y` is
supposed to cost at most `c x y`. -/
theorem C155_insert {t : BKTree X} (ht : t.Made) {dist : X → X → PyM S Nat} {cost : S → Nat} {c : X → X → Nat} (hc : ∀ x y, CostsAtMost cost (c x y) (dist x y))
    (w : X) (u : Option Nat) (s : S) :
    ∃ r t' s', (∀ fuel, t.elements.length < fuel → t.insertM dist w u fuel s = some (r, t', s')) ∧ cost s' ≤ cost s + (t.elements.map fun p => c w p.2).sum := by
  rcases BKTree.made_shape ht with rfl | h
  · exact ⟨_, _, _, fun fuel _ => rfl, Nat.le_add_right _ _⟩
  · simp only [BKTree.insertM, h.root]
    by_cases hu : u.getD 0 ∈ t.a.vertices
    · obtain ⟨⟨r, t', s'⟩, h1, h2, _⟩ := BKTree.insertFromM_spec (dist := dist) hc h w (cost s) t.a.lastVertexId (u.getD 0) s [] hu (by omega) List.nodup_nil (by simp) (Nat.le_add_right _ _)
      refine ⟨r, t', s', fun fuel hf => h1 fuel ?_, h2⟩
      have := h.length
      omega
    · refine ⟨.error .keyError, t, s, ?_, Nat.le_add_right _ _⟩
      intro fuel hf
      obtain ⟨f, rfl⟩ : ∃ f, fuel = f + 1 := ⟨fuel - 1, by omega⟩
      exact BKTree.insertFromM_keyError dist h w hu f s

/-- **C155** (search): `search` ends and calls the distance at most once for each stored element. -/
theorem C155_search {t : BKTree X} (ht : t.Made) {dist : X → X → PyM S Nat} {cost : S → Nat} {c : X → X → Nat} (hc : ∀ x y, CostsAtMost cost (c x y) (dist x y))
    (w : X) (dMax : Option Nat) (u : Option Nat) (s : S) :
    ∃ r s', (∀ fuel, t.elements.length < fuel → t.searchM dist w dMax u fuel s = some (r, s')) ∧ cost s' ≤ cost s + (t.elements.map fun p => c w p.2).sum := by
  rcases BKTree.made_shape ht with rfl | h
  · exact ⟨_, _, fun fuel _ => rfl, Nat.le_add_right _ _⟩
  · simp only [BKTree.searchM, h.root]
    by_cases hu : u.getD 0 ∈ t.a.vertices
    · obtain ⟨⟨r, s'⟩, h1, h2⟩ := BKTree.searchFromM_spec (dist := dist) hc h w (cost s) (u.getD 0) (t.a.vertices.length + 1) ⟨[u.getD 0], none, dMax⟩ s [] (by simp) (by simp)
        (by intro q hq; simp only [List.nil_append, List.mem_singleton] at hq; subst hq; exact ⟨hu, Nat.le_refl _, .inl rfl⟩) (Nat.le_add_right _ _)
      refine ⟨r, s', fun fuel hf => h1 fuel ?_, h2⟩
      have := h.length
      rw [h.trie.verts, List.length_range]
      omega
    · refine ⟨.error .keyError, s, ?_, Nat.le_add_right _ _⟩
      intro fuel hf
      obtain ⟨f, rfl⟩ : ∃ f, fuel = f + 1 := ⟨fuel - 1, by omega⟩
      exact BKTree.searchFromM_keyError dist h w hu f none dMax s
end

/-! ### The bounds are met -/

/-- The order of numbers, with a counter of calls. -/
def countedLe (x y : Nat) : PyM Nat Bool := fun n => (.ok (decide (x ≤ y)), n + 1)

/-- The `<` of numbers, with the same counter. -/
def countedLt (x y : Nat) : PyM Nat Bool := fun n => (.ok (decide (x < y)), n + 1)

/-- The hypotheses of `C155_push`, `C155_pop` and `C155_make` hold of a counter. -/
example : (∀ x y, CostsAtMost id 1 (countedLe x y)) ∧ (∀ x y, CostsAtMost id 1 (countedLt x y)) ∧ ∀ x : Nat, CostsAtMost id 0 (PyM.pure x : PyM Nat Nat) :=
  ⟨fun _ _ _ => Nat.le_refl _, fun _ _ _ => Nat.le_refl _, fun _ _ => Nat.le_refl _⟩

/-- Pushing 0 on the heap `[1, 2, 3]`: 6 calls, the bound of `C155_push`. -/
example : Heap.pushM (entryLtM countedLe countedLt) PyM.pure 0 (⟨[(1, 0, 1), (2, 1, 2), (3, 2, 3)], 3⟩, 0) =
    (.ok (), ⟨[(0, 3, 0), (1, 0, 1), (3, 2, 3), (2, 1, 2)], 4⟩, 6) ∧ 0 + 0 + Nat.log 2 (3 + 1) * (3 * 1) = 6 := ⟨rfl, by decide⟩

/-- A distance with a counter. -/
def countedDist (x y : Nat) : PyM Nat Nat := fun n => (.ok (BKTree.absDiff x y), n + 1)

/-- A distance that is not one, whose answers change at each call and which raises at the fourth one. -/
def oddDist (_ _ : Nat) : PyM Nat Nat := fun n => if n = 3 then (.error .typeError, 4) else (.ok (n + 1), n + 1)

/-- Three insertions; the third one calls the distance twice, which is the number of stored elements. -/
example : ∃ t₁ t₂ t₃ : BKTree Nat, BKTree.empty.insertM countedDist 5 none 1 0 = some (.ok 0, t₁, 0) ∧ t₁.insertM countedDist 7 none 2 0 = some (.ok 1, t₂, 1) ∧
    t₂.insertM countedDist 3 none 3 1 = some (.ok 2, t₃, 3) ∧ t₃.Made := by
  refine ⟨_, _, _, rfl, rfl, rfl, ?_⟩
  exact .insert (dist := countedDist) (w := 3) (u := none) (fuel := 3) (s := 1) (s' := 3) (r := .ok 2)
    (.insert (dist := countedDist) (w := 7) (u := none) (fuel := 2) (s := 0) (s' := 1) (r := .ok 1)
      (.insert (dist := countedDist) (w := 5) (u := none) (fuel := 1) (s := 0) (s' := 0) (r := .ok 0) .empty rfl) rfl) rfl

/-! ## C156: exceptions -/

section
variable {X S : Type}

/-- **C156** (BK-trees): if the distance raises during an insertion, the tree is as before. If it does not, then either the tree is as before and an existing node is returned, or
it has exactly one more node, with the new element, and the others hold what they did. This is so in all trees made by any insertions with any distances. -/
theorem C156_insert {t : BKTree X} (ht : t.Made) (dist : X → X → PyM S Nat) (w : X) (u : Option Nat) (s : S) :
    ∃ r t' s', (∀ fuel, t.elements.length < fuel → t.insertM dist w u fuel s = some (r, t', s')) ∧
      (∀ e, r = .error e → t' = t) ∧
      ∀ v, r = .ok v → (v ∈ t.a.vertices ∧ t' = t) ∨
        (v ∉ t.a.vertices ∧ t'.a.vertices = t.a.vertices ++ [v] ∧ t'.element v = .ok w ∧ ∀ q ∈ t.a.vertices, t'.element q = t.element q) := by
  rcases BKTree.made_shape ht with rfl | h
  · refine ⟨_, _, _, fun fuel _ => rfl, ⟨fun e he => absurd he (by simp), ?_⟩⟩
    intro v hv
    injection hv with hv
    subst hv
    exact .inr ⟨List.not_mem_nil, rfl, rfl, fun q hq => absurd hq List.not_mem_nil⟩
  · simp only [BKTree.insertM, h.root]
    by_cases hu : u.getD 0 ∈ t.a.vertices
    · obtain ⟨⟨r, t', s'⟩, h1, _, h3⟩ := BKTree.insertFromM_spec (dist := dist) (cost := fun _ => 0) (c := fun _ _ => 0) (fun _ _ _ => Nat.le_refl _) h w 0
        t.a.lastVertexId (u.getD 0) s [] hu (by omega) List.nodup_nil (by simp) (Nat.zero_le _)
      refine ⟨r, t', s', fun fuel hf => h1 fuel (by have := h.length; omega), ?_, ?_⟩
      · rintro e rfl; exact h3
      · rintro v rfl
        rcases h3 with h3 | ⟨u', d, hu', hd, rfl, h3⟩
        · exact .inl h3
        · change t' = _ at h3
          refine .inr ⟨Automaton.fresh h.trie.wf, ?_, ?_, ?_⟩
          · rw [h3]; exact BKTree.withLeaf_vertices h w hu'
          · rw [h3]
            exact Dict.getE_of_get? (by simp [BKTree.withLeaf])
          · intro q hq
            obtain ⟨x, hx⟩ := (h.elems q).1 hq
            rw [h3]
            show Dict.getE _ q = Dict.getE _ q
            have hne : t.a.lastVertexId ≠ q := fun e => Automaton.fresh h.trie.wf (e ▸ hq)
            rw [Dict.getE_of_get? hx]
            exact Dict.getE_of_get? (by simp [BKTree.withLeaf, Dict.get?_set, hne, hx])
    · refine ⟨.error .keyError, t, s, ?_, fun _ _ => rfl, fun v hv => by cases hv⟩
      intro fuel hf
      obtain ⟨f, rfl⟩ : ∃ f, fuel = f + 1 := ⟨fuel - 1, by omega⟩
      exact BKTree.insertFromM_keyError dist h w hu f s

/-- **C156** (no exception, BK-trees): if the distance always answers, always the same, then `insert` and `search` do what they do in the model without side effects, of which C72, C73 and
C122 speak. -/
theorem C156_bktree_no_exception {dist : X → X → PyM S Nat} {d : X → X → Nat} (hd : ∀ x y s, (dist x y s).1 = .ok (d x y)) (t : BKTree X) (w : X) (fuel : Nat) (s : S)
    (u dMax : Option Nat) :
    (match t.insert d w u fuel with
      | none => t.insertM dist w u fuel s = none
      | some (.error e) => ∃ t' s', t.insertM dist w u fuel s = some (.error e, t', s')
      | some (.ok (v, t')) => ∃ s', t.insertM dist w u fuel s = some (.ok v, t', s')) ∧
    (match t.search d w dMax u fuel with
      | none => t.searchM dist w dMax u fuel s = none
      | some r => ∃ s', t.searchM dist w dMax u fuel s = some (r, s')) := by
  constructor
  · unfold BKTree.insert BKTree.insertM
    cases t.root with
    | none => exact ⟨s, rfl⟩
    | some root =>
      simp only
      generalize u.getD root = q
      generalize 0 = n
      induction fuel generalizing q s n with
      | zero => rfl
      | succ fuel ih =>
        unfold loop BKTree.insertStep BKTree.insertFromM
        cases t.element q with
        | error e => exact ⟨t, s, rfl⟩
        | ok wu =>
          have h1 := hd w wu s
          simp only
          generalize dist w wu s = o at h1 ⊢
          obtain ⟨o, s1⟩ := o
          simp only at h1
          subst h1
          simp only
          by_cases h0 : d w wu = 0
          · simp only [if_pos h0]; exact ⟨s1, rfl⟩
          · simp only [if_neg h0]
            cases t.a.delta q (d w wu) with
            | some v => exact ih _ _ _
            | none =>
              simp only
              cases (t.addVertex w).2.a.addEdge q (t.addVertex w).1 (d w wu) with
              | error e => exact ⟨_, s1, rfl⟩
              | ok r => exact ⟨s1, rfl⟩
  · unfold BKTree.search BKTree.searchM
    cases t.root with
    | none => exact ⟨s, rfl⟩
    | some root =>
      simp only
      generalize (⟨[u.getD root], none, dMax⟩ : BKTree.SearchState X) = st
      generalize 0 = n
      induction fuel generalizing st s n with
      | zero => rfl
      | succ fuel ih =>
        unfold loop BKTree.searchStep BKTree.searchFromM
        cases st.queue with
        | nil => exact ⟨s, rfl⟩
        | cons q rest =>
          simp only
          cases t.element q with
          | error e => exact ⟨s, rfl⟩
          | ok wu =>
            have h1 := hd w wu s
            simp only
            generalize dist w wu s = o at h1 ⊢
            obtain ⟨o, s1⟩ := o
            simp only at h1
            subst h1
            simp only
            exact ih _ _ _

/-- The distance raises at the second call; the tree is kept. -/
example : ∃ t₁ t₂ : BKTree Nat, BKTree.empty.insertM oddDist 5 none 1 0 = some (.ok 0, t₁, 0) ∧ t₁.insertM oddDist 7 none 2 2 = some (.ok 1, t₂, 3) ∧
    t₂.insertM oddDist 3 none 3 3 = some (.error .typeError, t₂, 4) := ⟨_, _, rfl, rfl, rfl⟩
end

section
variable {κ α S : Type}

/-- **C156** (`to_comparable`): if it raises, the heap is as before. -/
theorem C156_key (lt : κ × Nat × α → κ × Nat × α → PyM S Bool) {key : α → PyM S κ} {x : α} {s s' : S} {e : PyErr} (hk : key x s = (.error e, s')) (h : Heap κ α) :
    Heap.pushM lt key x (h, s) = (.error e, h, s') := by
  unfold Heap.pushM Heap.onWorld PyM.bind PyM.on
  simp only [hk]

/-- **C156**, what holds of `push` when a comparison raises: no entry is lost and the new one is in the heap, but the next entry will get the same index. Missing: that the heap is as
before, see `C156_push_counterexample`. -/
theorem C156_push_partial (lt : κ × Nat × α → κ × Nat × α → PyM S Bool) {key : α → PyM S κ} {x : α} {s s₁ : S} {kx : κ} (hk : key x s = (.ok kx, s₁)) (h : Heap κ α) :
    (Heap.pushM lt key x (h, s)).2.1.data.Perm ((kx, h.index, x) :: h.data) ∧
      ((Heap.pushM lt key x (h, s)).1 = .ok () ∧ (Heap.pushM lt key x (h, s)).2.1.index = h.index + 1 ∨
        (∃ e, (Heap.pushM lt key x (h, s)).1 = .error e) ∧ (Heap.pushM lt key x (h, s)).2.1.index = h.index) := by
  unfold Heap.pushM Heap.onWorld PyM.bind PyM.on
  simp only [hk, Heap.onData, PyM.on]
  have h1 := Heapq.heappushM_perm lt (kx, h.index, x) (h.data, s₁)
  generalize Heapq.heappushM lt (kx, h.index, x) (h.data, s₁) = r at h1 ⊢
  obtain ⟨r, l, s2⟩ := r
  cases r with
  | error e => exact ⟨h1, .inr ⟨⟨e, rfl⟩, rfl⟩⟩
  | ok r => exact ⟨h1, .inl ⟨rfl, rfl⟩⟩

/-- **C156**, what holds of `pop` when a comparison raises: the first entry is lost, and nothing else. Missing: that the heap is as before, see `C156_pop_counterexample`. -/
theorem C156_pop_partial (lt : κ × Nat × α → κ × Nat × α → PyM S Bool) (e : κ × Nat × α) (rest : List (κ × Nat × α)) (index : Nat) (s : S) :
    (Heap.popM lt (⟨e :: rest, index⟩, s)).2.1.data.Perm rest ∧ (Heap.popM lt (⟨e :: rest, index⟩, s)).2.1.index = index ∧
      ((Heap.popM lt (⟨e :: rest, index⟩, s)).1 = .ok e.2.2 ∨ ∃ err, (Heap.popM lt (⟨e :: rest, index⟩, s)).1 = .error err) := by
  have h1 := Heapq.heappopM_perm lt e rest s
  unfold Heap.popM Heap.onData PyM.bind PyM.on
  simp only
  generalize Heapq.heappopM lt (e :: rest, s) = r at h1 ⊢
  obtain ⟨r, l, s2⟩ := r
  obtain ⟨h1, h2⟩ := h1
  simp only at h1 h2
  cases r with
  | error err => exact ⟨h1, rfl, .inr ⟨err, rfl⟩⟩
  | ok v =>
    refine ⟨h1, rfl, .inl ?_⟩
    rcases h2 with h2 | ⟨_, h2⟩
    · cases h2; rfl
    · cases h2

theorem pyM_bind_ok {R Q : Type} {m : PyM S R} {g : R → PyM S Q} {r : R} {q : Q} (h1 : ∀ s, (m s).1 = .ok r) (h2 : ∀ s, (g r s).1 = .ok q) (s : S) :
    (PyM.bind m g s).1 = .ok q := by
  have := h1 s
  unfold PyM.bind
  generalize m s = o at this ⊢
  obtain ⟨o, s1⟩ := o
  simp only at this
  subst this
  exact h2 s1

theorem entriesM_eq {key : α → PyM S κ} {f : α → κ} (hk : ∀ x s, (key x s).1 = .ok (f x)) (l : List (α × Nat)) :
    ∀ s, (Heap.entriesM key l s).1 = .ok (l.map fun p => (f p.1, p.2, p.1)) := by
  induction l with
  | nil => exact fun s => rfl
  | cons p l ih => exact pyM_bind_ok (hk p.1) (pyM_bind_ok ih fun s => rfl)

/-- **C156** (no exception): if the preorder always answers, always the same, then `push`, `pop` and the constructor do what they do in the model without side effects, of which C65 and
C66 speak. -/
theorem C156_no_exception {preorder : κ → κ → PyM S Bool} {elementLt : α → α → PyM S Bool} {key : α → PyM S κ} {p : κ → κ → Bool} {f : α → κ}
    (hp : ∀ x y s, (preorder x y s).1 = .ok (p x y)) (he : ∀ x y s, (elementLt x y s).1 = .ok false) (hk : ∀ x s, (key x s).1 = .ok (f x)) (h : Heap κ α) (x : α) (xs : List α) (s : S) :
    ((Heap.pushM (entryLtM preorder elementLt) key x (h, s)).1 = .ok () ∧
      (Heap.pushM (entryLtM preorder elementLt) key x (h, s)).2.1 = h.push (.comparable p) f x) ∧
    (match h.pop (.comparable p) with
      | .ok (y, h') => (Heap.popM (entryLtM preorder elementLt) (h, s)).1 = .ok y ∧ (Heap.popM (entryLtM preorder elementLt) (h, s)).2.1 = h'
      | .error e => Heap.popM (entryLtM preorder elementLt) (h, s) = (.error e, h, s)) ∧
    (Heap.makeM (entryLtM preorder elementLt) key xs s).1 = .ok (Heap.make (.comparable p) f xs) := by
  have ha : Heapq.Answers (entryLtM preorder elementLt) (entryLt (.comparable p) : κ × Nat × α → κ × Nat × α → Bool) := by
    have heq : ∀ x y s, (comparableEqM preorder x y s).1 = .ok (p x y && p y x) := by
      intro x y
      refine pyM_bind_ok (hp x y) ?_
      intro s
      cases p x y
      · rfl
      · exact hp y x s
    intro x y
    refine pyM_bind_ok (heq x.1 y.1) ?_
    intro s
    unfold entryLt KeyOrd.comparable
    simp only
    cases (p x.1 y.1 && p y.1 x.1)
    · simp only [Bool.false_eq_true, if_false]
      exact pyM_bind_ok (hp y.1 x.1) (fun s => rfl) s
    · simp only [if_true]
      split
      · next e => rw [he]; simp [e]
      · rfl
  refine ⟨?_, ?_, ?_⟩
  · unfold Heap.pushM Heap.onWorld PyM.bind PyM.on
    have h1 := hk x s
    generalize key x s = o at h1 ⊢
    obtain ⟨o, s1⟩ := o
    simp only at h1
    subst h1
    simp only [Heap.onData, PyM.on]
    obtain ⟨h2, h3⟩ := Heapq.heappushM_eq ha (f x, h.index, x) h.data s1
    generalize Heapq.heappushM (entryLtM preorder elementLt) (f x, h.index, x) (h.data, s1) = r at h2 h3 ⊢
    obtain ⟨r, l, s2⟩ := r
    simp only at h2 h3
    subst h2 h3
    exact ⟨rfl, rfl⟩
  · have h1 := Heapq.heappopM_eq ha h.data s
    unfold Heap.pop Heap.popM Heap.onData PyM.bind PyM.on
    simp only
    generalize Heapq.heappop (entryLt (.comparable p)) h.data = o at h1 ⊢
    generalize Heapq.heappopM (entryLtM preorder elementLt) (h.data, s) = r at h1 ⊢
    cases o with
    | error e => simp only at h1; subst h1; rfl
    | ok o =>
      obtain ⟨y, l⟩ := o
      obtain ⟨r, l', s2⟩ := r
      simp only at h1
      obtain ⟨h1, h2⟩ := h1
      subst h1 h2
      exact ⟨rfl, rfl⟩
  · refine pyM_bind_ok (entriesM_eq hk xs.zipIdx) ?_ s
    intro s
    obtain ⟨h1, h2⟩ := Heapq.heapifyM_eq ha (xs.zipIdx.map fun p => (f p.1, p.2, p.1)) s
    generalize Heapq.heapifyM (entryLtM preorder elementLt) (xs.zipIdx.map fun p => (f p.1, p.2, p.1), s) = r at h1 h2 ⊢
    obtain ⟨r, l, s2⟩ := r
    simp only at h1 h2
    subst h1 h2
    rfl
end

/-- The order of numbers, which raises at the first call. -/
def raisingLe (x y : Nat) : PyM Nat Bool := fun n => if n = 0 then (.error .valueError, 1) else (.ok (decide (x ≤ y)), n + 1)

/-- **C156** fails of `push`: the element is added although `push` raised. -/
theorem C156_push_counterexample : Heap.pushM (entryLtM raisingLe countedLt) PyM.pure 1 (⟨[(2, 0, 2)], 1⟩, 0) = (.error .valueError, ⟨[(2, 0, 2), (1, 1, 1)], 1⟩, 1) := rfl

/-- **C156** fails of `pop`: the least element is lost although `pop` raised. -/
theorem C156_pop_counterexample : Heap.popM (entryLtM raisingLe countedLt) (⟨[(1, 0, 1), (2, 1, 2), (3, 2, 3)], 3⟩, 0) =
    (.error .valueError, ⟨[(2, 1, 2), (3, 2, 3)], 3⟩, 1) := rfl

/-- After an interrupted `push`, `pop` may return an element that is not the least. -/
theorem C156_order_counterexample : ∃ h : Heap Nat Nat, Heap.pushM (entryLtM raisingLe countedLt) PyM.pure 1 (⟨[(2, 0, 2)], 1⟩, 0) = (.error .valueError, h, 1) ∧
    ∃ h' n, Heap.popM (entryLtM raisingLe countedLt) (h, 1) = (.ok 2, h', n) ∧ h'.data = [(1, 1, 1)] := ⟨_, rfl, _, _, rfl, rfl⟩

/-- After an interrupted `push`, two entries may have the same index, so that the elements themselves are compared: if they have no `<`, a `push` that would have succeeded raises
`TypeError`. All the keys are equal here. -/
theorem C156_index_counterexample : ∃ h : Heap Nat Nat,
    Heap.pushM (entryLtM raisingLe fun _ _ n => (.error .typeError, n)) (fun _ => PyM.pure 0) 8 (⟨[(0, 0, 7)], 1⟩, 0) = (.error .valueError, h, 1) ∧
    ∃ h', Heap.pushM (entryLtM raisingLe fun _ _ n => (.error .typeError, n)) (fun _ => PyM.pure 0) 9 (h, 1) = (.ok (), h', 3) ∧
    ∃ h'' n, Heap.popM (entryLtM raisingLe fun _ _ n => (.error .typeError, n)) (h', 3) = (.error .typeError, h'', n) := ⟨_, rfl, _, rfl, _, _, rfl⟩

end PyBGL
