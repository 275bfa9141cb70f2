import Mathlib.Data.List.Sort
import Verif.Proofs.Heapq
import Verif.Spec.Queue

/-!
# `Heap`
-/

namespace PyBGL.Heap
open Heapq
variable {κ α : Type}

/-- What heaps need of the keys. -/
structure Compat (o : KeyOrd κ) (le : κ → κ → Prop) : Prop where
  refl : ∀ x, le x x
  trans : ∀ x y z, le x y → le y z → le x z
  pos : ∀ x y, o.lt x y = true → le x y
  neg : ∀ x y, o.lt x y = false → le y x
  eq : ∀ x y, o.eq x y = true → le x y ∧ le y x

theorem Compat.ord {o : KeyOrd κ} {le : κ → κ → Prop} (h : Compat o le) : Heapq.Ord (entryLt (α := α) o) (fun x y => le x.1 y.1) := by
  refine ⟨fun _ => h.refl _, fun _ _ _ => h.trans _ _ _, ?_, ?_⟩
  · intro x y e
    unfold entryLt at e
    split at e
    · exact (h.eq _ _ ‹_›).1
    · exact h.pos _ _ e
  · intro x y e
    unfold entryLt at e
    split at e
    · exact (h.eq _ _ ‹_›).2
    · exact h.neg _ _ e

theorem compat_of {o : KeyOrd κ} {le : κ → κ → Prop} (ht : TotalPreorder le) (h : o.Of le) : Compat o le := by
  refine ⟨fun x => (ht.total x x).elim id id, ht.trans, ?_, ?_, fun x y e => (h.eq x y).mp e⟩
  · intro x y e
    exact (ht.total x y).resolve_right ((h.lt x y).mp e)
  · intro x y e
    by_contra hc
    rw [(h.lt x y).mpr hc] at e
    cases e

/-- The order of the tuples. -/
def Lex (le : κ → κ → Prop) (x y : κ × Nat × α) : Prop := le x.1 y.1 ∧ (le y.1 x.1 → x.2.1 ≤ y.2.1)

theorem lex_ord {o : KeyOrd κ} {le : κ → κ → Prop} (ht : TotalPreorder le) (h : o.Of le) : Heapq.Ord (entryLt (α := α) o) (Lex le) := by
  have hc := compat_of ht h
  refine ⟨fun x => ⟨hc.refl _, fun _ => Nat.le_refl _⟩, ?_, ?_, ?_⟩
  · rintro x y z ⟨h1, h2⟩ ⟨h3, h4⟩
    refine ⟨ht.trans _ _ _ h1 h3, fun h5 => ?_⟩
    have := h2 (ht.trans _ _ _ h3 h5)
    have := h4 (ht.trans _ _ _ h5 h1)
    omega
  · intro x y e
    unfold entryLt at e
    split at e
    · exact ⟨(hc.eq _ _ ‹_›).1, fun _ => by simp at e; omega⟩
    · exact ⟨hc.pos _ _ e, fun h' => absurd h' ((h.lt _ _).mp e)⟩
  · intro x y e
    unfold entryLt at e
    split at e
    · exact ⟨(hc.eq _ _ ‹_›).2, fun _ => by simpa using e⟩
    · rename_i hne
      refine ⟨hc.neg _ _ e, fun h' => ?_⟩
      exact absurd ((h.eq _ _).mpr ⟨h', hc.neg _ _ e⟩) hne

/-- The heap holds the elements `xs`, in the order of their insertion. -/
def Holds (le : κ → κ → Prop) (key : α → κ) (h : Heap κ α) (xs : List α) : Prop :=
  ∃ es : List (κ × Nat × α), es.map (·.2.2) = xs ∧ es.Pairwise (fun x y => x.2.1 < y.2.1) ∧ (∀ e ∈ es, e.2.1 < h.index ∧ e.1 = key e.2.2) ∧
    h.data.Perm es ∧ IsHeap (Lex le) h.data

theorem holds_make {o : KeyOrd κ} {le : κ → κ → Prop} (ht : TotalPreorder le) (ho : o.Of le) (key : α → κ) (xs : List α) :
    Holds le key (make o key xs) xs := by
  obtain ⟨h1, h2⟩ := heapify_spec (lex_ord ht ho) (xs.zipIdx.map fun p => (key p.1, p.2, p.1))
  refine ⟨_, ?_, ?_, ?_, h2, h1⟩
  · rw [List.map_map]
    have : ((fun x : κ × Nat × α => x.2.2) ∘ fun p : α × Nat => (key p.1, p.2, p.1)) = Prod.fst := rfl
    rw [this, List.zipIdx_map_fst]
  · rw [List.pairwise_map]
    have : (xs.zipIdx.map Prod.snd).Pairwise (· < ·) := by
      rw [List.zipIdx_map_snd]
      exact List.pairwise_lt_range'
    rw [List.pairwise_map] at this
    exact this
  · intro e he
    rw [List.mem_map] at he
    obtain ⟨p, hp, rfl⟩ := he
    refine ⟨?_, rfl⟩
    have := List.mem_zipIdx hp
    simp only [make]
    omega

theorem holds_push {o : KeyOrd κ} {le : κ → κ → Prop} (ht : TotalPreorder le) (ho : o.Of le) {key : α → κ} {h : Heap κ α} {xs : List α}
    (hh : Holds le key h xs) (x : α) : Holds le key (h.push o key x) (xs ++ [x]) := by
  obtain ⟨es, e1, e2, e3, e4, e5⟩ := hh
  obtain ⟨h1, h2⟩ := heappush_spec (lex_ord ht ho) e5 (key x, h.index, x)
  refine ⟨es ++ [(key x, h.index, x)], by simp [e1], ?_, ?_, ?_, h1⟩
  · rw [List.pairwise_append]
    refine ⟨e2, by simp, ?_⟩
    intro a ha b hb
    simp at hb; subst hb
    exact (e3 a ha).1
  · intro e he
    rw [List.mem_append, List.mem_singleton] at he
    rcases he with he | rfl
    · exact ⟨Nat.lt_succ_of_lt (e3 e he).1, (e3 e he).2⟩
    · exact ⟨Nat.lt_succ_self _, rfl⟩
  · exact h2.trans ((e4.cons _).trans (List.perm_append_singleton _ _).symm)

theorem holds_len {le : κ → κ → Prop} {key : α → κ} {h : Heap κ α} {xs : List α} (hh : Holds le key h xs) : h.len = xs.length := by
  obtain ⟨es, e1, _, _, e4, _⟩ := hh
  unfold len
  rw [e4.length_eq, ← e1, List.length_map]

theorem holds_pop {o : KeyOrd κ} {le : κ → κ → Prop} (ht : TotalPreorder le) (ho : o.Of le) {key : α → κ} {h : Heap κ α} {xs : List α}
    (hh : Holds le key h xs) (hne : xs ≠ []) : ∃ x h' xs', h.pop o = .ok (x, h') ∧ FirstMin le key xs x xs' ∧ Holds le key h' xs' := by
  have hlen := holds_len hh
  obtain ⟨es, e1, e2, e3, e4, e5⟩ := hh
  have hd : h.data ≠ [] := by
    intro e
    unfold len at hlen
    rw [e] at hlen
    exact hne (List.length_eq_zero_iff.mp hlen.symm)
  obtain ⟨r, l', k1, k2, k3, k4⟩ := heappop_spec (lex_ord ht ho) e5 hd
  have hr : r ∈ es := e4.mem_iff.mp (k3.mem_iff.mp (by simp))
  obtain ⟨pre, post, rfl⟩ := List.append_of_mem hr
  rw [List.pairwise_append, List.pairwise_cons] at e2
  obtain ⟨p1, ⟨p2, p3⟩, p4⟩ := e2
  refine ⟨r.2.2, { h with data := l' }, (pre ++ post).map (·.2.2), ?_, ?_, ?_⟩
  · unfold Heap.pop; rw [k1]
  · refine ⟨pre.map (·.2.2), post.map (·.2.2), by rw [← e1]; simp, by simp, ?_, ?_⟩
    · intro y hy
      rw [List.mem_map] at hy
      obtain ⟨e, he, rfl⟩ := hy
      have h1 := k4 e (e4.mem_iff.mpr (by simp [he]))
      have h2 := p4 e he r (by simp)
      intro hc
      rw [← (e3 e (by simp [he])).2, ← (e3 r (by simp)).2] at hc
      have := h1.2 hc
      omega
    · intro y hy
      rw [List.mem_map] at hy
      obtain ⟨e, he, rfl⟩ := hy
      have h1 := k4 e (e4.mem_iff.mpr (by simp [he]))
      rw [← (e3 e (by simp [he])).2, ← (e3 r (by simp)).2]
      exact h1.1
  · refine ⟨pre ++ post, rfl, ?_, ?_, ?_, k2⟩
    · rw [List.pairwise_append]
      exact ⟨p1, p3, fun a ha b hb => p4 a ha b (by simp [hb])⟩
    · intro e he
      refine e3 e ?_
      rw [List.mem_append] at he
      rcases he with he | he <;> simp [he]
    · have := k3.trans (e4.trans List.perm_middle)
      exact (List.perm_cons _).mp this

theorem pop_nil {o : KeyOrd κ} {le : κ → κ → Prop} {key : α → κ} {h : Heap κ α} (hh : Holds le key h []) : h.pop o = .error .indexError := by
  have hlen := holds_len hh
  unfold len at hlen
  have : h.data = [] := List.length_eq_zero_iff.mp hlen
  unfold Heap.pop
  rw [this]; rfl

theorem stable_cons {le : κ → κ → Prop} (ht : TotalPreorder le) {key : α → κ} {xs xs' ys : List α} {x : α} (h : FirstMin le key xs x xs')
    (hs : StableSort le key xs' ys) : StableSort le key xs (x :: ys) := by
  obtain ⟨pre, post, rfl, rfl, h1, h2⟩ := h
  obtain ⟨s1, s2, s3⟩ := hs
  refine ⟨(s1.cons x).trans List.perm_middle.symm, ?_, ?_⟩
  · rw [List.pairwise_cons]
    refine ⟨?_, s2⟩
    intro y hy
    have := s1.mem_iff.mp hy
    rw [List.mem_append] at this
    rcases this with h | h
    · exact (ht.total _ _).resolve_right (h1 y h)
    · exact h2 y h
  · intro k p hp
    rw [List.filter_append, List.filter_cons, List.filter_cons, s3 k p hp, List.filter_append]
    by_cases hx : p x = true
    · rw [if_pos hx, if_pos hx]
      have : pre.filter p = [] := by
        rw [List.filter_eq_nil_iff]
        intro y hy hpy
        have e1 := (hp x).mp hx
        have e2 := (hp y).mp hpy
        exact h1 y hy (ht.trans _ _ _ e2.1 e1.2)
      rw [this]; rfl
    · rw [if_neg hx, if_neg hx]

theorem holds_iter {o : KeyOrd κ} {le : κ → κ → Prop} (ht : TotalPreorder le) (ho : o.Of le) {key : α → κ} {h : Heap κ α} {xs : List α}
    (hh : Holds le key h xs) : StableSort le key xs (h.iter o) := by
  have hord := lex_ord (α := α) ht ho
  obtain ⟨es, e1, e2, e3, e4, e5⟩ := hh
  unfold iter
  generalize hm : h.data.mergeSort (fun x y => !entryLt o y x) = m
  have hperm : m.Perm es := by rw [← hm]; exact (List.mergeSort_perm _ _).trans e4
  have hiff : ∀ x y : κ × Nat × α, (!entryLt o y x) = true → Lex le x y := by
    intro x y h'
    exact hord.neg _ _ (by simpa using h')
  have hsorted : m.Pairwise (Lex le) := by
    rw [← hm]
    refine List.Pairwise.imp (hiff _ _) (List.pairwise_mergeSort ?_ ?_ _)
    · intro a b c hab hbc
      have h1 := hord.trans _ _ _ (hiff _ _ hab) (hiff _ _ hbc)
      cases hca : entryLt o c a with
      | false => rfl
      | true =>
        exfalso
        unfold entryLt at hca hab hbc
        split at hca
        · rename_i he
          have he' := (ho.eq _ _).mp he
          have := h1.2 he'.1
          simp at hca; omega
        · rename_i he
          exact (ho.lt _ _).mp hca h1.1
    · intro a b
      cases hba : entryLt o b a with
      | false => rfl
      | true =>
        cases hab : entryLt o a b with
        | false => rfl
        | true =>
          exfalso
          have h1 := hord.pos _ _ hba
          have h2 := hord.pos _ _ hab
          unfold entryLt at hab hba
          split at hab
          · split at hba
            · simp at hab hba; omega
            · exact (ho.lt _ _).mp hba h2.1
          · exact (ho.lt _ _).mp hab h1.1
  refine ⟨by rw [← e1]; exact hperm.map _, ?_, ?_⟩
  · rw [List.pairwise_map]
    refine List.Pairwise.imp_of_mem ?_ hsorted
    intro x y hx hy hxy
    rw [← (e3 x (hperm.mem_iff.mp hx)).2, ← (e3 y (hperm.mem_iff.mp hy)).2]
    exact hxy.1
  · intro k p hp
    rw [← e1, List.filter_map, List.filter_map]
    congr 1
    have hnd : es.Nodup := e2.imp (fun {a b} h e => by subst e; exact Nat.lt_irrefl _ h)
    refine List.Perm.eq_of_pairwise (le := fun x y : κ × Nat × α => x.2.1 ≤ y.2.1) ?_ ?_ ?_ (hperm.filter _)
    · intro a b ha hb hab hba
      have ha' : a ∈ es := hperm.mem_iff.mp (List.mem_of_mem_filter ha)
      have hb' : b ∈ es := List.mem_of_mem_filter hb
      by_contra hne
      have hmap : (es.map (·.2.1)).Nodup := by
        unfold List.Nodup
        rw [List.pairwise_map]
        exact e2.imp fun h => Nat.ne_of_lt h
      exact hne (List.inj_on_of_nodup_map hmap ha' hb' (by omega))
    · refine List.Pairwise.imp_of_mem ?_ (hsorted.filter _)
      intro x y hx hy hxy
      rw [List.mem_filter] at hx hy
      have e1' := (hp _).mp hx.2
      have e2' := (hp _).mp hy.2
      rw [← (e3 x (hperm.mem_iff.mp hx.1)).2] at e1'
      rw [← (e3 y (hperm.mem_iff.mp hy.1)).2] at e2'
      exact hxy.2 (ht.trans _ _ _ e2'.1 e1'.2)
    · exact (e2.imp fun h => Nat.le_of_lt h).filter _

/-! ## `decrease_key` -/

section
variable [DecidableEq α]

/-- The identities of the entries of a heap. -/
def ids (h : Heap κ α) : List (Nat × α) := h.data.map (·.2)

theorem decreaseAt_spec {o : KeyOrd κ} {leE : κ × Nat × α → κ × Nat × α → Prop} (ho : Heapq.Ord (entryLt o) leE) {key : α → κ} {x : α} {h : Heap κ α}
    (hh : IsHeap leE h.data) (i : Nat) :
    IsHeap leE (decreaseAt o key x h i).data ∧ (decreaseAt o key x h i).index = h.index ∧
    (ids (decreaseAt o key x h i)).Perm (ids h) ∧
    (∀ e ∈ (decreaseAt o key x h i).data, e ∈ h.data ∨ (e.2.2 = x ∧ e.1 = key x)) := by
  unfold decreaseAt
  cases hi : h.data[i]? with
  | none => exact ⟨hh, rfl, .refl _, fun e he => .inl he⟩
  | some e =>
    obtain ⟨k, idx, y⟩ := e
    simp only
    by_cases hxy : x = y
    · rw [if_pos hxy]
      subst hxy
      obtain ⟨h1, h2⟩ := heapify_spec ho (h.data.set i (key x, idx, x))
      refine ⟨h1, rfl, ?_, ?_⟩
      · unfold ids
        refine (h2.map _).trans ?_
        rw [List.map_set]
        have : (h.data.map (·.2)).set i (idx, x) = h.data.map (·.2) := by
          refine List.ext_getElem? fun j => ?_
          rw [List.getElem?_set]
          split
          · rename_i hj
            subst hj
            split
            · simp [hi]
            · rename_i hl
              rw [List.getElem?_eq_none (by omega)]
          · rfl
        rw [this]
      · intro e he
        have := h2.mem_iff.mp he
        rcases List.mem_or_eq_of_mem_set this with h' | rfl
        · exact .inl h'
        · exact .inr ⟨rfl, rfl⟩
    · rw [if_neg hxy]
      exact ⟨hh, rfl, .refl _, fun e he => .inl he⟩

/-- `decrease_key` keeps the heap, its entries and their indices; only the keys of the entries of `x` may change, and become the current key of `x`. -/
theorem decreaseKey_spec {o : KeyOrd κ} {leE : κ × Nat × α → κ × Nat × α → Prop} (ho : Heapq.Ord (entryLt o) leE) {key : α → κ} {x : α} {h : Heap κ α}
    (hh : IsHeap leE h.data) :
    IsHeap leE (h.decreaseKey o key x).data ∧ (h.decreaseKey o key x).index = h.index ∧ (ids (h.decreaseKey o key x)).Perm (ids h) ∧
    (∀ e ∈ (h.decreaseKey o key x).data, e ∈ h.data ∨ (e.2.2 = x ∧ e.1 = key x)) := by
  unfold decreaseKey
  have key' : ∀ (l : List Nat) (h : Heap κ α), IsHeap leE h.data →
      IsHeap leE (l.foldl (decreaseAt o key x) h).data ∧ (l.foldl (decreaseAt o key x) h).index = h.index ∧
      (ids (l.foldl (decreaseAt o key x) h)).Perm (ids h) ∧
      (∀ e ∈ (l.foldl (decreaseAt o key x) h).data, e ∈ h.data ∨ (e.2.2 = x ∧ e.1 = key x)) := by
    intro l
    induction l with
    | nil => intro h hh; exact ⟨hh, rfl, .refl _, fun e he => .inl he⟩
    | cons i l ih =>
      intro h hh
      rw [List.foldl_cons]
      obtain ⟨a1, a2, a3, a4⟩ := decreaseAt_spec ho (key := key) (x := x) hh i
      obtain ⟨b1, b2, b3, b4⟩ := ih _ a1
      refine ⟨b1, b2.trans a2, b3.trans a3, ?_⟩
      intro e he
      rcases b4 e he with h' | h'
      · exact a4 e h'
      · exact .inr h'
  exact key' _ h hh

/-- `decrease_key(x)` gives its current key to `x`, provided `x` occurs once. -/
theorem decreaseKey_updates {o : KeyOrd κ} {leE : κ × Nat × α → κ × Nat × α → Prop} (ho : Heapq.Ord (entryLt o) leE) {key : α → κ} {x : α} {h : Heap κ α}
    (hh : IsHeap leE h.data) (hnd : (h.data.map (·.2.2)).Nodup) : ∀ e ∈ (h.decreaseKey o key x).data, e.2.2 = x → e.1 = key x := by
  unfold decreaseKey
  have keep : ∀ (l : List Nat) (h : Heap κ α), IsHeap leE h.data → (∀ e ∈ h.data, e.2.2 = x → e.1 = key x) →
      ∀ e ∈ (l.foldl (decreaseAt o key x) h).data, e.2.2 = x → e.1 = key x := by
    intro l
    induction l with
    | nil => intro h _ hP; exact hP
    | cons i l ih =>
      intro h hh hP
      rw [List.foldl_cons]
      obtain ⟨a1, _, _, a4⟩ := decreaseAt_spec ho (key := key) (x := x) hh i
      refine ih _ a1 ?_
      intro e he hx
      rcases a4 e he with h' | h'
      · exact hP e h' hx
      · exact h'.2
  by_cases hx : ∃ e ∈ h.data, e.2.2 = x
  · obtain ⟨e0, he0, hx0⟩ := hx
    obtain ⟨j, hj, hje⟩ := List.getElem_of_mem he0
    have hsplit : List.range h.data.length = List.range j ++ j :: (List.range' (j + 1) (h.data.length - (j + 1))) := by
      rw [List.range_eq_range', List.range_eq_range']
      have h1 : j :: List.range' (j + 1) (h.data.length - (j + 1)) = List.range' j (h.data.length - j) := by
        rw [show h.data.length - j = (h.data.length - (j + 1)) + 1 by omega, List.range'_succ]
      rw [h1]
      have := List.range'_append (s := 0) (m := j) (n := h.data.length - j) (step := 1)
      rw [show 0 + 1 * j = j by omega, show j + (h.data.length - j) = h.data.length by omega] at this
      exact this.symm
    have huniq : ∀ i (hi : i < h.data.length), h.data[i].2.2 = x → i = j := by
      intro i hi hix
      have h1 : (h.data.map (·.2.2))[i]'(by simpa using hi) = (h.data.map (·.2.2))[j]'(by simpa using hj) := by
        simp only [List.getElem_map]; rw [hix, hje, hx0]
      exact (List.Nodup.getElem_inj_iff hnd).mp h1
    have hsame : ∀ (l : List Nat), (∀ i ∈ l, i < j) → l.foldl (decreaseAt o key x) h = h := by
      intro l
      induction l with
      | nil => intro _; rfl
      | cons i l ih =>
        intro hl
        have hij := hl i (by simp)
        have hil : i < h.data.length := by omega
        rw [List.foldl_cons]
        have : decreaseAt o key x h i = h := by
          unfold decreaseAt
          rw [List.getElem?_eq_getElem hil]
          simp only
          rw [if_neg]
          intro e
          have := huniq i hil e.symm
          omega
        rw [this]
        exact ih fun k hk => hl k (by simp [hk])
    rw [hsplit, List.foldl_append, hsame _ (fun i hi => by simpa using hi), List.foldl_cons]
    obtain ⟨a1, _⟩ := decreaseAt_spec ho (key := key) (x := x) hh j
    refine keep _ _ a1 ?_
    intro e he hex
    unfold decreaseAt at he
    rw [List.getElem?_eq_getElem hj, hje] at he
    obtain ⟨k0, i0, x0⟩ := e0
    simp only at hx0 he
    subst hx0
    rw [if_pos rfl] at he
    have hperm := (heapify_spec ho (h.data.set j (key x0, i0, x0))).2
    have he' := hperm.mem_iff.mp he
    obtain ⟨i, hi, hie⟩ := List.getElem_of_mem he'
    rw [List.getElem_set] at hie
    split at hie
    · rw [← hie]
    · rename_i hne
      rw [List.length_set] at hi
      have := huniq i hi (by rw [hie]; exact hex)
      exact absurd this.symm hne
  · refine keep _ _ hh ?_
    intro e he hex
    exact absurd ⟨e, he, hex⟩ hx

end
end PyBGL.Heap
