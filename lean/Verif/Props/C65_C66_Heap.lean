import Verif.Proofs.Heap
import Verif.Model.Algebra

/-!
# C65: `Heap`; C66: closed operators
-/

namespace PyBGL
variable {κ α : Type}

namespace Heap

theorem run_spec {o : KeyOrd κ} {le : κ → κ → Prop} (ht : TotalPreorder le) (ho : o.Of le) {key : α → κ} (ops : List (HeapOp α)) :
    ∀ {h : Heap κ α} {xs : List α}, Holds le key h xs →
      (NoUnderflow xs.length ops → ∃ outs h' ys, h.run o key ops = .ok (outs, h') ∧ Queue le key xs ops outs ys ∧ Holds le key h' ys) ∧
      (¬ NoUnderflow xs.length ops → h.run o key ops = .error .indexError) := by
  induction ops with
  | nil =>
    intro h xs hh
    exact ⟨fun _ => ⟨[], h, xs, rfl, .nil xs, hh⟩, fun hn => absurd trivial hn⟩
  | cons op ops ih =>
    intro h xs hh
    cases op with
    | push x =>
      obtain ⟨h1, h2⟩ := ih (holds_push ht ho hh x)
      rw [List.length_append, List.length_singleton] at h1 h2
      constructor
      · intro hn
        obtain ⟨outs, h', ys, e1, e2, e3⟩ := h1 hn
        exact ⟨outs, h', ys, e1, .push x e2, e3⟩
      · intro hn; exact h2 hn
    | pop =>
      cases xs with
      | nil =>
        refine ⟨fun hn => absurd hn.1 (by simp), fun _ => ?_⟩
        simp only [run, pop_nil hh]
      | cons x0 xs0 =>
        obtain ⟨x, h', xs', e1, e2, e3⟩ := holds_pop ht ho hh (by simp)
        have hlen : xs'.length = (x0 :: xs0).length - 1 := by
          obtain ⟨pre, post, k1, k2, _⟩ := e2
          rw [k1, k2]; simp
        obtain ⟨h1, h2⟩ := ih e3
        rw [hlen] at h1 h2
        constructor
        · intro hn
          obtain ⟨outs, h'', ys, f1, f2, f3⟩ := h1 hn.2
          exact ⟨x :: outs, h'', ys, by simp only [run, e1, f1], .pop e2 f2, f3⟩
        · intro hn
          have : ¬ NoUnderflow ((x0 :: xs0).length - 1) ops := fun h => hn ⟨by simp, h⟩
          simp only [run, e1, h2 this]

end Heap

/-- **C65** (history): a heap built from `xs` behaves as a stable priority queue under every sequence of calls of `push` and `pop`: each `pop` returns the
element that was inserted first among those of minimal key (`IndexError` on an empty heap); `len` is the number of elements, and iterating yields the
contents sorted by increasing keys, in the order of insertion for equivalent keys. -/
theorem C65_history {o : KeyOrd κ} {le : κ → κ → Prop} (ht : TotalPreorder le) (ho : o.Of le) (key : α → κ) (xs : List α) (ops : List (HeapOp α)) :
    (NoUnderflow xs.length ops → ∃ outs h ys, (Heap.make o key xs).run o key ops = .ok (outs, h) ∧ Queue le key xs ops outs ys ∧
      h.len = ys.length ∧ (h.nonempty = true ↔ ys ≠ []) ∧ StableSort le key ys (h.iter o)) ∧
    (¬ NoUnderflow xs.length ops → (Heap.make o key xs).run o key ops = .error .indexError) := by
  obtain ⟨h1, h2⟩ := Heap.run_spec ht ho ops (Heap.holds_make ht ho key xs)
  refine ⟨fun hn => ?_, h2⟩
  obtain ⟨outs, h, ys, e1, e2, e3⟩ := h1 hn
  refine ⟨outs, h, ys, e1, e2, Heap.holds_len e3, ?_, Heap.holds_iter ht ho e3⟩
  have := Heap.holds_len e3
  unfold Heap.len at this
  unfold Heap.nonempty
  cases hd : h.data with
  | nil => rw [hd] at this; simp [List.length_eq_zero_iff.mp this.symm]
  | cons a l =>
    rw [hd] at this
    simp
    rintro rfl
    simp at this

/-- **C65** (heap sort): popping all the elements of a heap yields a stable sort of them. -/
theorem C65_drain {o : KeyOrd κ} {le : κ → κ → Prop} (ht : TotalPreorder le) (ho : o.Of le) (key : α → κ) (xs : List α) :
    ∃ outs h, (Heap.make o key xs).run o key (List.replicate xs.length .pop) = .ok (outs, h) ∧ h.len = 0 ∧ StableSort le key xs outs := by
  have hn : ∀ n, NoUnderflow (α := α) n (List.replicate n .pop) := by
    intro n
    induction n with
    | zero => trivial
    | succ n ih => exact ⟨Nat.succ_pos _, ih⟩
  obtain ⟨outs, h, ys, e1, e2, e3⟩ := (Heap.run_spec ht ho (List.replicate xs.length .pop) (Heap.holds_make ht ho key xs)).1 (hn _)
  have key' : ∀ (n : Nat) (xs outs ys : List α), xs.length = n → Queue le key xs (List.replicate n .pop) outs ys →
      ys = [] ∧ StableSort le key xs outs := by
    intro n
    induction n with
    | zero =>
      intro xs outs ys hl hq
      have := List.length_eq_zero_iff.mp hl
      subst this
      cases hq
      exact ⟨rfl, .refl _, .nil, fun _ _ _ => rfl⟩
    | succ n ih =>
      intro xs outs ys hl hq
      rw [List.replicate_succ] at hq
      cases hq with
      | pop hx hq =>
        have hlen : _ := hx
        obtain ⟨pre, post, k1, k2, _⟩ := hlen
        obtain ⟨h1, h2⟩ := ih _ _ _ (by rw [k1] at hl; rw [k2]; simp at hl ⊢; omega) hq
        exact ⟨h1, Heap.stable_cons ht hx h2⟩
  obtain ⟨h1, h2⟩ := key' _ _ _ _ rfl e2
  exact ⟨outs, h, e1, by rw [Heap.holds_len e3, h1]; rfl, h2⟩

/-- `Comparable` turns every total preorder into keys on which `<` and `==` are those of this preorder, heap.py:35-72. -/
theorem C65_comparable {p : κ → κ → Bool} (h : TotalPreorder (fun x y => p x y = true)) : (KeyOrd.comparable p).Of (fun x y => p x y = true) :=
  ⟨fun x y => by simp [KeyOrd.comparable], fun x y => by simp [KeyOrd.comparable]⟩

/-- **C65** (`decrease_key`): after `decrease_key(x)`, the same entries are present; if the elements are distinct, that of `x` has the current key of
`x` and the others are unchanged; `pop` then returns an element of minimal key. This holds also if the keys are made of a strict order, as those that
`dijkstra_shortest_path` builds from `Less()` by default: then `x < y` means that the key of `x` is not greater than that of `y`. -/
theorem C65_decrease_key [DecidableEq α] {o : KeyOrd κ} {le : κ → κ → Prop} (hc : Heap.Compat o le) {key : α → κ} {x : α} {h : Heap κ α}
    (hh : Heapq.IsHeap (fun e e' => le e.1 e'.1) h.data) (hnd : (h.data.map (·.2.2)).Nodup) (hx : x ∈ h.data.map (·.2.2)) :
    ∃ y h', (h.decreaseKey o key x).pop o = .ok (y, h') ∧
      (∀ e, e ∈ (h.decreaseKey o key x).data ↔ (∃ e' ∈ h.data, e.2 = e'.2 ∧ e.1 = if e'.2.2 = x then key x else e'.1)) ∧
      (∃ e ∈ (h.decreaseKey o key x).data, e.2.2 = y ∧ ∀ e' ∈ (h.decreaseKey o key x).data, le e.1 e'.1) := by
  have hord := hc.ord (α := α)
  obtain ⟨d1, d2, d3, d4⟩ := Heap.decreaseKey_spec hord (key := key) (x := x) hh
  have d5 := Heap.decreaseKey_updates hord (key := key) (x := x) hh hnd
  have hidmap : ∀ h : Heap κ α, h.data.map (·.2.2) = (Heap.ids h).map (·.2) := by intro h; simp [Heap.ids]
  have hnd' : ((h.decreaseKey o key x).data.map (·.2.2)).Nodup := by
    rw [hidmap, (d3.map _).nodup_iff, ← hidmap]; exact hnd
  have hne : (h.decreaseKey o key x).data ≠ [] := by
    intro e
    have := d3.length_eq
    unfold Heap.ids at this
    rw [e] at this
    simp at this
    rw [List.length_eq_zero_iff.mp this.symm] at hx
    simp at hx
  obtain ⟨r, l', k1, k2, k3, k4⟩ := Heapq.heappop_spec hord d1 hne
  refine ⟨r.2.2, { h.decreaseKey o key x with data := l' }, by unfold Heap.pop; rw [k1], ?_, r, k3.mem_iff.mp (by simp), rfl, k4⟩
  intro e
  constructor
  · intro he
    by_cases hex : e.2.2 = x
    · have : e.2 ∈ Heap.ids h := d3.mem_iff.mp (List.mem_map.mpr ⟨e, he, rfl⟩)
      obtain ⟨e', he', e2⟩ := List.mem_map.mp this
      exact ⟨e', he', e2.symm, by rw [if_pos (by rw [e2]; exact hex)]; exact d5 e he hex⟩
    · rcases d4 e he with h' | h'
      · exact ⟨e, h', rfl, by rw [if_neg hex]⟩
      · exact absurd h'.1 hex
  · rintro ⟨e', he', h1, h2⟩
    have : e'.2 ∈ Heap.ids (h.decreaseKey o key x) := d3.mem_iff.mpr (List.mem_map.mpr ⟨e', he', rfl⟩)
    obtain ⟨e'', he'', e2⟩ := List.mem_map.mp this
    have : e'' = e := by
      refine Prod.ext ?_ (by rw [e2, h1])
      by_cases hex : e'.2.2 = x
      · rw [if_pos hex] at h2
        rw [h2]
        exact d5 e'' he'' (by rw [e2]; exact hex)
      · rw [if_neg hex] at h2
        rw [h2]
        rcases d4 e'' he'' with h' | h'
        · have := List.inj_on_of_nodup_map hnd h' he' (by rw [e2])
          rw [this]
        · exact absurd (by rw [← e2]; exact h'.1) hex
    rw [← this]; exact he''

/-- The strict order handed by default to `Comparable` by `dijkstra_shortest_path` is among the keys covered by `C65_decrease_key`. -/
theorem C65_strict_keys : Heap.Compat (KeyOrd.comparable less) (fun x y => x ≤ y) := by
  refine ⟨fun x => Int.le_refl x, fun x y z => Int.le_trans, ?_, ?_, ?_⟩ <;> intro x y <;> simp [KeyOrd.comparable, less] <;> omega

/-! ## Concrete cases -/

namespace Examples

/-- Keys are last digits: ties occur. -/
def lastDigit (n : Nat) : Nat := n % 10

theorem natPreorder : TotalPreorder (fun x y : Nat => x ≤ y) := ⟨Nat.le_total, fun _ _ _ => Nat.le_trans⟩

theorem natKeys : KeyOrd.nat.Of (fun x y : Nat => x ≤ y) := by
  constructor <;> intro x y <;> simp [KeyOrd.nat] <;> omega

example : ((Heap.make KeyOrd.nat lastDigit [32, 21, 12, 41, 3]).run KeyOrd.nat lastDigit [.pop, .push 11, .pop, .pop, .pop]).map (·.1) =
    .ok [21, 41, 11, 32] := by decide

example : ((Heap.make KeyOrd.nat lastDigit [2]).run KeyOrd.nat lastDigit [.pop, .pop]).map (·.1) = .error .indexError := by decide

example : NoUnderflow 5 ([.pop, .push 11, .pop, .pop, .pop] : List (HeapOp Nat)) := by simp [NoUnderflow]

/-- `Heap([...])` always meets the hypothesis of `C65_decrease_key` about the order of the entries. -/
example (key : Nat → Int) (xs : List Nat) :
    Heapq.IsHeap (fun e e' => e.1 ≤ e'.1) (Heap.make (KeyOrd.comparable less) key xs).data :=
  (Heapq.heapify_spec C65_strict_keys.ord _).1

end Examples

/-! ## C66 -/

theorem C66_commutative (b x y : Int) :
    closedPlus b x y = closedPlus b y x ∧ closedTime b x y = closedTime b y x ∧ closedMax b x y = closedMax b y x ∧ closedMin b x y = closedMin b y x := by
  unfold closedPlus closedTime closedMax closedMin closedOperator
  refine ⟨?_, ?_, ?_, ?_⟩ <;> (by_cases h : x = b ∨ y = b)
  all_goals first
    | rw [if_pos h, if_pos h.symm]
    | rw [if_neg h, if_neg fun h' => h h'.symm]
  · exact Int.add_comm x y
  · exact Int.mul_comm x y
  · exact Int.max_comm x y
  · exact Int.min_comm x y

theorem C66_absorbing (b x : Int) :
    (closedPlus b b x = b ∧ closedPlus b x b = b) ∧ (closedTime b b x = b ∧ closedTime b x b = b) ∧ (closedMax b b x = b ∧ closedMax b x b = b) ∧
      (closedMin b b x = b ∧ closedMin b x b = b) := by
  simp [closedPlus, closedTime, closedMax, closedMin, closedOperator]

theorem C66_max_min_associative (b x y z : Int) :
    closedMax b (closedMax b x y) z = closedMax b x (closedMax b y z) ∧ closedMin b (closedMin b x y) z = closedMin b x (closedMin b y z) := by
  unfold closedMax closedMin closedOperator
  by_cases hx : x = b <;> by_cases hy : y = b <;> by_cases hz : z = b <;> simp_all
  all_goals
    have h1 : max x y ≠ b := by omega
    have h2 : max y z ≠ b := by omega
    have h3 : min x y ≠ b := by omega
    have h4 : min y z ≠ b := by omega
    simp [h1, h2, h3, h4, Int.max_assoc, Int.min_assoc]

/-- Outside their absorbing element, the operators are the ordinary ones. -/
theorem C66_ordinary (b x y : Int) (hx : x ≠ b) (hy : y ≠ b) :
    closedPlus b x y = x + y ∧ closedTime b x y = x * y ∧ closedMax b x y = max x y ∧ closedMin b x y = min x y := by
  simp [closedPlus, closedTime, closedMax, closedMin, closedOperator, hx, hy]

/-- The full statement of associativity, for all four operators. -/
def C66_associative_statement : Prop :=
  ∀ b x y z, closedPlus b (closedPlus b x y) z = closedPlus b x (closedPlus b y z) ∧
    closedTime b (closedTime b x y) z = closedTime b x (closedTime b y z) ∧
    closedMax b (closedMax b x y) z = closedMax b x (closedMax b y z) ∧ closedMin b (closedMin b x y) z = closedMin b x (closedMin b y z)

/-- **C66 is false of the code** for `ClosedPlus` and `ClosedTime` with their default bound: a sum or a product which happens to be the bound absorbs what
follows. -/
theorem C66_associative_counterexample :
    (∃ x y z : Int, 0 ≤ x ∧ 0 ≤ y ∧ 0 ≤ z ∧ closedPlus INFINITY (closedPlus INFINITY x y) z ≠ closedPlus INFINITY x (closedPlus INFINITY y z)) ∧
    (∃ x y z : Int, 0 ≤ x ∧ 0 ≤ y ∧ 0 ≤ z ∧ closedTime INFINITY (closedTime INFINITY x y) z ≠ closedTime INFINITY x (closedTime INFINITY y z)) ∧
    ¬ C66_associative_statement := by
  refine ⟨⟨INFINITY - 1, 1, 1, by decide, by decide, by decide, by decide⟩, ⟨7, 1317624576693539401, 2, by decide, by decide, by decide, by decide⟩, ?_⟩
  intro h
  exact absurd (h 10 7 3 1).1 (by decide)

/-- **C66, partial** (missing: sums or products that hit the bound, for which the claim is false): when no intermediate result is the bound,
`ClosedPlus` and `ClosedTime` are associative; in particular when non-negative numbers add up to less than the bound. -/
theorem C66_associative_partial (b x y z : Int) :
    ((x + y = b → x = b ∨ y = b ∨ z = b) → (y + z = b → x = b ∨ y = b ∨ z = b) →
      closedPlus b (closedPlus b x y) z = closedPlus b x (closedPlus b y z)) ∧
    ((x * y = b → x = b ∨ y = b ∨ z = b) → (y * z = b → x = b ∨ y = b ∨ z = b) →
      closedTime b (closedTime b x y) z = closedTime b x (closedTime b y z)) := by
  unfold closedPlus closedTime closedOperator
  constructor <;> intro h1 h2 <;> by_cases hx : x = b <;> by_cases hy : y = b <;> by_cases hz : z = b <;> simp_all
  · omega
  · exact Int.mul_assoc x y z

example (x y z : Int) (hx : 0 ≤ x) (hy : 0 ≤ y) (hz : 0 ≤ z) (h : x + y + z < INFINITY) :
    closedPlus INFINITY (closedPlus INFINITY x y) z = closedPlus INFINITY x (closedPlus INFINITY y z) :=
  (C66_associative_partial INFINITY x y z).1 (fun e => by omega) (fun e => by omega)

end PyBGL
