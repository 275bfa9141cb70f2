import Verif.Model.Helpers
import Verif.Model.Heap
import Verif.Proofs.PyLemmas
import Verif.Props.C74_C77_Misc
import Verif.Props.C35_C37_Expr

/-!
# C102–C107: `Comparable`, property maps, `reverse_dict`, `Singleton`, `AggregatedVisitor.get`, visitors of `shunting_yard_postfix`
-/

namespace PyBGL

/-! ## C102 -/

section Comparable
variable {α : Type}

/-- **C102.** With a total preorder, the objects made by `compare_to_key(preorder)` are totally preordered by Python's comparison operators: `<=` is the
preorder; exactly one of `<`, `==`, `>` holds; `<=` is `<` or `==`, `>=` is `>` or `==`, `!=` is the negation of `==`; `<` and `>` are converse of each
other, and so are `<=` and `>=`; `==` is an equivalence, `<` is transitive, also across `==`. -/
theorem C102_total (p : α → α → Bool) (ht : ∀ a b, p a b ∨ p b a) (htr : ∀ a b c, p a b → p b c → p a c) (a b c : α) :
    let x := Comparable.key p a
    let y := Comparable.key p b
    let z := Comparable.key p c
    (x.le y = p a b) ∧
    ((x.lt y ∧ !x.eq y ∧ !x.gt y) ∨ (!x.lt y ∧ x.eq y ∧ !x.gt y) ∨ (!x.lt y ∧ !x.eq y ∧ x.gt y)) ∧
    (x.le y = (x.lt y || x.eq y)) ∧ (x.ge y = (x.gt y || x.eq y)) ∧ (x.ne y = !x.eq y) ∧
    (x.lt y = y.gt x) ∧ (x.le y = y.ge x) ∧
    x.eq x ∧ (x.eq y = y.eq x) ∧ (x.eq y → y.eq z → x.eq z) ∧
    (x.lt y → y.lt z → x.lt z) ∧ (x.lt y → y.eq z → x.lt z) ∧ (x.eq y → y.lt z → x.lt z) := by
  have h1 := ht a b
  have h2 := ht a a
  have h3 := htr a b c
  have h4 := htr c b a
  have h5 := htr b c a
  have h6 := htr b a c
  have h7 := htr c a b
  have h8 := htr a c b
  have h9 := ht b c
  have h10 := ht a c
  simp only [Comparable.key, Comparable.le, Comparable.lt, Comparable.gt, Comparable.ge, Comparable.eq, Comparable.ne]
  cases hab : p a b <;> cases hba : p b a <;> cases haa : p a a <;> simp_all <;>
    cases hbc : p b c <;> cases hcb : p c b <;> cases hac : p a c <;> cases hca : p c a <;> simp_all

/-- **C102.** The hypothesis is needed: unless the relation is total, some objects are both smaller and larger than each other. -/
theorem C102_total_iff (p : α → α → Bool) :
    (∀ a b, ¬ ((Comparable.key p a).lt (Comparable.key p b) = true ∧ (Comparable.key p b).lt (Comparable.key p a) = true)) ↔
      ∀ a b, p a b ∨ p b a := by
  constructor
  · intro h a b
    have := h a b
    simp only [Comparable.key, Comparable.lt] at this
    cases h1 : p a b <;> cases h2 : p b a <;> simp_all
  · intro h a b
    simp only [Comparable.key, Comparable.lt]
    have := h a b
    cases h1 : p a b <;> cases h2 : p b a <;> simp_all

/-- **C102.** A preorder must be given. -/
theorem C102_make (a : α) (p : Option (α → α → Bool)) :
    Comparable.make a p = match p with | none => .error .assertionError | some p => .ok (Comparable.key p a) := by
  cases p <;> rfl

/-- `Heap` observes `<` and `==` of the keys as modelled in `Heap.lean`. -/
example (p : α → α → Bool) (a b : α) : (KeyOrd.comparable p).lt a b = (Comparable.key p a).lt (Comparable.key p b) ∧
    (KeyOrd.comparable p).eq a b = (Comparable.key p a).eq (Comparable.key p b) := ⟨rfl, rfl⟩

/-- Integers compared by their quotient by 10. -/
example : (∀ a b : Nat, decide (a / 10 ≤ b / 10) ∨ decide (b / 10 ≤ a / 10)) ∧
    (Comparable.key (fun a b : Nat => decide (a / 10 ≤ b / 10)) 12).eq (Comparable.key (fun a b : Nat => decide (a / 10 ≤ b / 10)) 17) = true :=
  ⟨fun a b => by simp; omega, by decide⟩

end Comparable

/-! ## C103 -/

section PropertyMaps
variable {K W : Type} [DecidableEq K]

/-- **C103.** Whatever is done with a read-only property map, reading `k` returns `f(k)`, or raises what `f(k)` raises; every write and every deletion raises
`RuntimeError`. -/
theorem C103_func (f : K → Except PyErr W) (ops : List (PMap.Op K W)) (k : K) (x : W) :
    let m := ops.foldl PMap.exec (PMap.ofFunc f)
    (m.getItem k).1 = f k ∧ (m.setItem k x).1 = .error .runtimeError ∧ (m.delItem k).1 = .error .runtimeError := by
  have : ops.foldl PMap.exec (PMap.ofFunc f) = .func f := by
    induction ops with
    | nil => rfl
    | cons op ops ih => cases op <;> exact ih
  rw [this]
  exact ⟨rfl, rfl, rfl⟩

/-- **C103.** The same for `identity_property_map()`: every key is mapped to itself. -/
theorem C103_identity (ops : List (PMap.Op K K)) (k x : K) :
    let m := ops.foldl PMap.exec PMap.identity
    (m.getItem k).1 = .ok k ∧ (m.setItem k x).1 = .error .runtimeError ∧ (m.delItem k).1 = .error .runtimeError :=
  C103_func Except.ok ops k x

/-- **C103.** The same for `make_constant_property_map(v)`. -/
theorem C103_constant (v : W) (ops : List (PMap.Op K W)) (k : K) (x : W) :
    let m := ops.foldl PMap.exec (PMap.const v)
    (m.getItem k).1 = .ok v ∧ (m.setItem k x).1 = .error .runtimeError ∧ (m.delItem k).1 = .error .runtimeError := by
  have : ops.foldl PMap.exec (PMap.const v : PMap K W) = .const v := by
    induction ops with
    | nil => rfl
    | cons op ops ih => cases op <;> exact ih
  rw [this]
  exact ⟨rfl, rfl, rfl⟩

/-- The reads and writes of a history, without the deletions. -/
def PMap.noDel : List (PMap.Op K W) → List (AssocMap.Op K W)
  | [] => []
  | .get k :: ops => .get k :: noDel ops
  | .put k x :: ops => .put k x :: noDel ops
  | .del _ :: ops => noDel ops

/-- **C103.** With `make_assoc_property_map(d)`, reading `k` returns the last value written at `k`, else the value of `k` in `d`, else the default, whatever
deletions were attempted: they raise `RuntimeError` and remove nothing. Anything else than a `defaultdict` is rejected with `TypeError`. -/
theorem C103_assoc (d : AssocMap K W) (ops : List (PMap.Op K W)) (k : K) :
    PMap.ofDict (some d) = .ok (.assoc d) ∧ PMap.ofDict (none : Option (AssocMap K W)) = .error .typeError ∧
    ((ops.foldl PMap.exec (PMap.assoc d)).getItem k).1 =
      (match ((AssocMap.lastWrite (PMap.noDel ops) k).or (d.d.get? k)).or d.factory with
      | some x => .ok x
      | none => .error .keyError) ∧
    ((ops.foldl PMap.exec (PMap.assoc d)).delItem k).1 = .error .runtimeError := by
  refine ⟨rfl, rfl, ?_, rfl⟩
  have : ∀ d : AssocMap K W, ops.foldl PMap.exec (PMap.assoc d) = .assoc ((PMap.noDel ops).foldl AssocMap.exec d) := by
    induction ops with
    | nil => intro d; rfl
    | cons op ops ih =>
      intro d
      cases op with
      | get j =>
        simp only [List.foldl_cons, PMap.noDel, PMap.exec, PMap.getItem, AssocMap.exec]
        cases d.getItem j with
        | error e => exact ih d
        | ok x => exact ih x.2
      | put j x => exact ih _
      | del j => exact ih d
  rw [this]
  refine Eq.trans ?_ (C76_read d (PMap.noDel ops) k)
  simp only [PMap.getItem]
  cases ((PMap.noDel ops).foldl AssocMap.exec d).getItem k <;> rfl

example : ((([.put 1 'a', .del 1, .put 2 'b', .get 3] : List (PMap.Op Nat Char)).foldl PMap.exec (.assoc ⟨[], some 'z'⟩)).getItem 1).1 = .ok 'a' := rfl

end PropertyMaps

/-! ## C104 -/

section ReverseDict
variable {K V : Type} [DecidableEq K] [DecidableEq V]

/-- The last key whose value is `v`, in the order of the dictionary. -/
def lastKey : Dict K V → V → Option K
  | [], _ => none
  | (k, x) :: d, v => (lastKey d v).or (if x = v then some k else none)

omit [DecidableEq K] in
theorem reverseDict_get? (d : Dict K V) (v : V) : (reverseDict d).get? v = lastKey d v := by
  have key : ∀ (d : Dict K V) (r : Dict V K), (d.foldl (fun r p => r.set p.2 p.1) r).get? v = (lastKey d v).or (r.get? v) := by
    intro d
    induction d with
    | nil => intro r; rfl
    | cons p d ih =>
      intro r
      rw [List.foldl_cons, ih, Dict.get?_set]
      obtain ⟨k, x⟩ := p
      simp only [lastKey]
      by_cases h : x = v
      · simp [h]
      · simp [h]
  rw [reverseDict, key]
  cases lastKey d v <;> rfl

omit [DecidableEq K] in
/-- **C104.** `reverse_dict(d)` maps each value of `d` to the last key that has it. -/
theorem C104_last (d : Dict K V) :
    (reverseDict d).NodupKeys ∧ (∀ v, v ∈ (reverseDict d).keys ↔ v ∈ d.values) ∧
      ∀ d₁ d₂ k v, d = d₁ ++ (k, v) :: d₂ → v ∉ Dict.values d₂ → (reverseDict d).get? v = some k := by
  have hnone : ∀ (d : Dict K V) v, lastKey d v = none ↔ v ∉ d.values := by
    intro d v
    induction d with
    | nil => simp [lastKey, Dict.values]
    | cons p d ih =>
      obtain ⟨k, x⟩ := p
      simp only [lastKey, Dict.values, List.map_cons, List.mem_cons, not_or] at ih ⊢
      rw [Option.or_eq_none_iff, ih]
      by_cases h : x = v
      · simp [h]
      · simp [h]; tauto
  refine ⟨?_, fun v => ?_, ?_⟩
  · have : ∀ (d : Dict K V) (r : Dict V K), r.NodupKeys → (d.foldl (fun r p => r.set p.2 p.1) r).NodupKeys := by
      intro d
      induction d with
      | nil => intro r h; exact h
      | cons p d ih => intro r h; exact ih _ (Dict.nodupKeys_set h _ _)
    exact this d [] Dict.nodupKeys_nil
  · rw [← not_iff_not, ← Dict.get?_eq_none_iff, reverseDict_get?, hnone]
  · rintro d₁ d₂ k v rfl hn
    rw [reverseDict_get?]
    induction d₁ with
    | nil => simp [lastKey, (hnone d₂ v).mpr hn]
    | cons p d₁ ih =>
      obtain ⟨k', x⟩ := p
      show (lastKey (d₁ ++ (k, v) :: d₂) v).or _ = _
      rw [ih]; rfl

/-- **C104.** When no two keys have the same value, `reverse_dict(d)` is the inverse of `d`, and reversing it again gives `d`. -/
theorem C104_inverse {d : Dict K V} (hk : d.NodupKeys) (hv : d.values.Nodup) :
    (∀ k v, (reverseDict d).get? v = some k ↔ d.get? k = some v) ∧ reverseDict (reverseDict d) = d := by
  have hrev : ∀ {K V : Type} [DecidableEq V] (d : Dict K V), d.values.Nodup → reverseDict d = d.map fun p => (p.2, p.1) := by
    intro K V _ d h
    have key : ∀ (d : Dict K V) (r : Dict V K), d.values.Nodup → (∀ v ∈ d.values, v ∉ r.keys) →
        d.foldl (fun r p => r.set p.2 p.1) r = r ++ d.map fun p => (p.2, p.1) := by
      intro d
      induction d with
      | nil => intro r _ _; simp
      | cons p d ih =>
        intro r hnd hr
        simp only [Dict.values, List.map_cons, List.nodup_cons] at hnd
        have h1 : p.2 ∉ r.keys := hr p.2 (by simp [Dict.values])
        rw [List.foldl_cons, Dict.set_of_not_mem _ _ _ h1, ih _ hnd.2]
        · simp
        · intro v hv hm
          simp only [Dict.keys, List.map_append, List.map_cons, List.map_nil, List.mem_append, List.mem_singleton] at hm
          rcases hm with hm | hm
          · exact hr v (by simp only [Dict.values, List.map_cons, List.mem_cons]; exact .inr hv) hm
          · subst hm; exact hnd.1 hv
    have := key d [] h (by simp [Dict.keys])
    simpa [reverseDict] using this
  have h1 := hrev d hv
  have hnd : Dict.NodupKeys (reverseDict d) := (C104_last d).1
  refine ⟨fun k v => ?_, ?_⟩
  · rw [← Dict.mem_iff hnd, ← Dict.mem_iff hk, h1]
    simp only [List.mem_map, Prod.mk.injEq, Prod.exists]
    constructor
    · rintro ⟨a, b, h, rfl, rfl⟩; exact h
    · intro h; exact ⟨k, v, h, rfl, rfl⟩
  · rw [h1, hrev]
    · simp [List.map_map, Function.comp_def]
    · simp only [Dict.values, List.map_map, Function.comp_def]
      exact hk

example : reverseDict [(1, 'a'), (2, 'b'), (3, 'a')] = [('a', 3), ('b', 2)] := rfl
example : reverseDict [(1, 'a'), (2, 'b')] = [('a', 1), ('b', 2)] := rfl

end ReverseDict

/-! ## C105 -/

section Singleton
variable {C : Type} [DecidableEq C]

/-- The results of a sequence of calls `cls(...)`. -/
def Singletons.results (s : Singletons C) : List (C × Except PyErr Unit) → List (C × Except PyErr Nat)
  | [] => []
  | (c, i) :: calls => (c, (s.call c i).1) :: (s.call c i).2.results calls

/-- The instances are distinct objects, already created. -/
def Singletons.Fresh (s : Singletons C) : Prop :=
  ∀ c x, s.instances.get? c = some x → x < s.created ∧ ∀ c', s.instances.get? c' = some x → c' = c

theorem Singletons.call_spec (s : Singletons C) (hs : s.Fresh) (c : C) (i : Except PyErr Unit) :
    (s.call c i).2.Fresh ∧ (∀ c' x, s.instances.get? c' = some x → (s.call c i).2.instances.get? c' = some x) ∧
      ∀ x, (s.call c i).1 = .ok x → (s.call c i).2.instances.get? c = some x := by
  unfold Singletons.call
  cases h : s.instances.get? c with
  | some y => exact ⟨hs, fun _ _ h => h, fun x hx => by cases hx; exact h⟩
  | none =>
    cases i with
    | error e => exact ⟨fun c' x hx => ⟨Nat.lt_succ_of_lt (hs c' x hx).1, (hs c' x hx).2⟩, fun _ _ h => h, fun x hx => by cases hx⟩
    | ok _ =>
      refine ⟨?_, ?_, ?_⟩
      · intro c' x hx
        simp only at hx ⊢
        rw [Dict.get?_set] at hx
        split at hx
        · cases hx
          rename_i e
          refine ⟨Nat.lt_succ_self _, fun c'' h'' => ?_⟩
          rw [Dict.get?_set] at h''
          split at h''
          · rename_i e'; rw [← e', ← e]
          · exact absurd (hs c'' _ h'').1 (Nat.lt_irrefl _)
        · rename_i hne
          refine ⟨Nat.lt_succ_of_lt (hs c' x hx).1, fun c'' h'' => ?_⟩
          rw [Dict.get?_set] at h''
          split at h''
          · cases h''
            exact absurd (hs c' _ hx).1 (Nat.lt_irrefl _)
          · exact (hs c' x hx).2 c'' h''
      · intro c' x hx
        simp only
        rw [Dict.get?_set, if_neg]
        · exact hx
        · rintro rfl; rw [h] at hx; cases hx
      · intro x hx
        cases hx
        simp only
        rw [Dict.get?_set, if_pos rfl]

theorem Singletons.results_later (calls : List (C × Except PyErr Unit)) : ∀ (s : Singletons C), s.Fresh → ∀ c x, s.instances.get? c = some x →
    ∀ r, (c, r) ∈ s.results calls → r = .ok x := by
  induction calls with
  | nil => intro s _ c x _ r hr; cases hr
  | cons p calls ih =>
    intro s hs c x hx r hr
    obtain ⟨c', i⟩ := p
    obtain ⟨h1, h2, _⟩ := s.call_spec hs c' i
    rcases List.mem_cons.mp hr with e | e
    · simp only [Prod.mk.injEq] at e
      obtain ⟨rfl, rfl⟩ := e
      unfold Singletons.call
      rw [hx]
    · exact ih _ h1 c x (h2 c x hx) r e

theorem Singletons.results_mem (calls : List (C × Except PyErr Unit)) : ∀ (s : Singletons C), s.Fresh →
    ∃ s' : Singletons C, s'.Fresh ∧ (∀ c x, s.instances.get? c = some x → s'.instances.get? c = some x) ∧
      ∀ c x, (c, .ok x) ∈ s.results calls → s'.instances.get? c = some x := by
  induction calls with
  | nil => intro s hs; exact ⟨s, hs, fun _ _ h => h, fun c x h => by cases h⟩
  | cons p calls ih =>
    intro s hs
    obtain ⟨c, i⟩ := p
    obtain ⟨h1, h2, h3⟩ := s.call_spec hs c i
    obtain ⟨s', j1, j2, j3⟩ := ih _ h1
    refine ⟨s', j1, fun c' x h => j2 _ _ (h2 _ _ h), fun c' x h => ?_⟩
    rcases List.mem_cons.mp h with e | e
    · simp only [Prod.mk.injEq] at e
      obtain ⟨rfl, e⟩ := e
      exact j2 _ _ (h3 x e.symm)
    · exact j3 _ _ e

/-- **C105.** In every sequence of calls to classes whose metaclass is `Singleton`, two calls that return return the same object exactly when they
are calls to the same class; and once a call has returned, all later calls to that class return, whatever their arguments. -/
theorem C105_singleton (calls : List (C × Except PyErr Unit)) :
    (∀ c c' x x', (c, .ok x) ∈ (Singletons.mk [] 0).results calls → (c', .ok x') ∈ (Singletons.mk [] 0).results calls → (x = x' ↔ c = c')) ∧
      ∀ before after c x r, (Singletons.mk [] 0).results calls = before ++ (c, .ok x) :: after → (c, r) ∈ after → r = .ok x := by
  have h0 : (Singletons.mk [] 0 : Singletons C).Fresh := fun c x h => by cases h
  constructor
  · intro c c' x x' h1 h2
    obtain ⟨s', j1, _, j3⟩ := Singletons.results_mem calls _ h0
    have a := j3 _ _ h1
    have b := j3 _ _ h2
    constructor
    · rintro rfl; exact ((j1 c x a).2 c' b).symm
    · rintro rfl; rw [a] at b; exact Option.some.inj b
  · have key : ∀ (calls : List (C × Except PyErr Unit)) (s : Singletons C), s.Fresh → ∀ before after c x r,
        s.results calls = before ++ (c, .ok x) :: after → (c, r) ∈ after → r = .ok x := by
      intro calls
      induction calls with
      | nil => intro s _ before after c x r h _; cases before <;> cases h
      | cons p calls ih =>
        intro s hs before after c x r h hr
        obtain ⟨c', i⟩ := p
        obtain ⟨h1, h2, h3⟩ := s.call_spec hs c' i
        cases before with
        | nil =>
          simp only [Singletons.results, List.nil_append, List.cons.injEq, Prod.mk.injEq] at h
          obtain ⟨⟨rfl, h4⟩, h5⟩ := h
          refine Singletons.results_later calls _ h1 c' x (h3 x h4) r ?_
          rw [h5]; exact hr
        | cons b before =>
          simp only [Singletons.results, List.cons_append, List.cons.injEq] at h
          exact ih _ h1 before after c x r h.2 hr
    exact key calls _ h0

example : (Singletons.mk [] 0).results [('a', .error .typeError), ('a', .ok ()), ('b', .ok ()), ('a', .error .typeError)] =
    [('a', .error .typeError), ('a', .ok 1), ('b', .ok 2), ('a', .ok 1)] := rfl

end Singleton

/-! ## C106 -/

theorem splitQuote_append {x : List Char} (hx : '\'' ∉ x) (y : List Char) : splitQuote (x ++ '\'' :: y) = x :: splitQuote y := by
  have hne : ∀ s, splitQuote s ≠ [] := by
    intro s
    induction s with
    | nil => simp [splitQuote]
    | cons c s ih =>
      unfold splitQuote
      cases h : splitQuote s with
      | nil => exact absurd h ih
      | cons a b => simp only; split <;> simp
  induction x with
  | nil =>
    show splitQuote ('\'' :: y) = _
    rw [splitQuote]
    cases h : splitQuote y with
    | nil => exact absurd h (hne y)
    | cons a b => simp
  | cons c x ih =>
    simp only [List.mem_cons, not_or] at hx
    show splitQuote (c :: (x ++ '\'' :: y)) = _
    rw [splitQuote, ih hx.2]
    simp [Ne.symm hx.1]

/-- **C106.** The key of a visitor is the name of its class. -/
theorem C106_key {name : List Char} (h : '\'' ∉ name) : typeToKey name = .ok name := by
  unfold typeToKey
  have e : (['<', 'c', 'l', 'a', 's', 's', ' ', '\''] ++ name ++ ['\'', '>'] : List Char) =
      ['<', 'c', 'l', 'a', 's', 's', ' '] ++ '\'' :: (name ++ '\'' :: ['>']) := by simp
  rw [e, splitQuote_append (by decide), splitQuote_append h]

/-- **C106.** `get(key)` returns the first of the visitors whose class is called `key`, and `ret_if_not_found` when there is none. -/
theorem C106_get {V : Type} (key : List Char) (notFound : V) (vs : List (List Char × V)) (h : ∀ p ∈ vs, '\'' ∉ p.1) :
    (∀ vs₁ vs₂ v, vs = vs₁ ++ (key, v) :: vs₂ → (∀ p ∈ vs₁, p.1 ≠ key) → aggregatedGet key notFound vs = .ok v) ∧
      ((∀ p ∈ vs, p.1 ≠ key) → aggregatedGet key notFound vs = .ok notFound) := by
  constructor
  · rintro vs₁ vs₂ v rfl hn
    induction vs₁ with
    | nil =>
      show aggregatedGet key notFound ((key, v) :: vs₂) = _
      simp [aggregatedGet, C106_key (h (key, v) (by simp))]
    | cons p vs₁ ih =>
      have h1 := C106_key (h p (by simp))
      have h2 := hn p (by simp)
      show aggregatedGet key notFound (p :: (vs₁ ++ (key, v) :: vs₂)) = _
      simp only [aggregatedGet, h1, if_neg h2]
      exact ih (fun x hx => h x (by simp only [List.cons_append]; exact List.mem_cons_of_mem _ hx)) (fun x hx => hn x (by simp [hx]))
  · intro hn
    induction vs with
    | nil => rfl
    | cons p vs ih =>
      have h1 := C106_key (h p (by simp))
      have h2 := hn p (by simp)
      simp only [aggregatedGet, h1, if_neg h2]
      exact ih (fun x hx => h x (by simp [hx])) (fun x hx => hn x (by simp [hx]))

example : aggregatedGet ['m', '.', 'B'] 0 [(['m', '.', 'A'], 1), (['m', '.', 'B'], 2), (['m', '.', 'B'], 3)] = .ok 2 := by decide

/-! ## C107 -/

section Yard
variable {T O : Type} [DecidableEq T]

/-- The calls to the visitor drive a stack: from the stack `s` (listed from its top) to the stack `s'`. `on_pop_operator(o)` is called when `o` is on top, and is followed by
`on_push_output(o)` unless `o` is an opening parenthesis. -/
inductive YardRun (lpar : T) : List T → List (YardEvent T) → List T → Prop where
  | nil (s : List T) : YardRun lpar s [] s
  | push {s s' : List T} {l : List (YardEvent T)} (o : T) (h : YardRun lpar (o :: s) l s') : YardRun lpar s (.pushOperator o :: l) s'
  | operand {s s' : List T} {l : List (YardEvent T)} (a : T) (h : YardRun lpar s l s') : YardRun lpar s (.pushOutput a :: l) s'
  | output {s s' : List T} {l : List (YardEvent T)} (o : T) (h : YardRun lpar s l s') :
      YardRun lpar (o :: s) (.popOperator o :: .pushOutput o :: l) s'
  | paren {s s' : List T} {l : List (YardEvent T)} (h : YardRun lpar s l s') : YardRun lpar (lpar :: s) (.popOperator lpar :: l) s'

theorem YardRun.append {lpar : T} {s s' s'' : List T} {l l' : List (YardEvent T)} (h : YardRun lpar s l s') (h' : YardRun lpar s' l' s'') :
    YardRun lpar s (l ++ l') s'' := by
  induction h with
  | nil => exact h'
  | push o _ ih => exact .push o (ih h')
  | operand a _ ih => exact .operand a (ih h')
  | output o _ ih => exact .output o (ih h')
  | paren _ ih => exact .paren (ih h')

/-- The arguments of the calls to `on_push_operator`. -/
def pushedOf (l : List (YardEvent T)) : List T := l.filterMap fun | .pushOperator o => some o | _ => none

/-- The arguments of the calls to `on_push_output`. -/
def outputOf (l : List (YardEvent T)) : List T := l.filterMap fun | .pushOutput a => some a | _ => none

namespace ShuntingYard

omit [DecidableEq T] in
theorem pushedOf_append (l l' : List (YardEvent T)) : pushedOf (l ++ l') = pushedOf l ++ pushedOf l' := List.filterMap_append
omit [DecidableEq T] in
theorem outputOf_append (l l' : List (YardEvent T)) : outputOf (l ++ l') = outputOf l ++ outputOf l' := List.filterMap_append

theorem closeParenV_spec (P : OpTable T) (sink : O → T → Except PyErr O) (ops : List T) : ∀ (out : O) (log : List (YardEvent T)) (s : List T × O),
    closeParen P sink ops out = .ok s → ∃ l, closeParenV P sink ops out log = .ok (s.1, s.2, log ++ l) ∧ YardRun P.lpar ops l s.1 ∧
      pushedOf l = [] ∧ (outputOf l).foldlM sink out = .ok s.2 ∧ (∀ a ∈ outputOf l, a ∈ ops) := by
  induction ops with
  | nil => intro out log s h; cases h
  | cons o ops ih =>
    intro out log s h
    unfold closeParen at h
    unfold closeParenV
    by_cases ho : o = P.lpar
    · rw [if_pos ho] at h ⊢
      cases h
      refine ⟨_, rfl, ?_, rfl, rfl, fun a ha => by cases ha⟩
      rw [ho]
      exact .paren (.nil _)
    · rw [if_neg ho] at h ⊢
      cases hs : sink out o with
      | error e => rw [hs] at h; cases h
      | ok out' =>
        rw [hs] at h
        obtain ⟨l, h1, h2, h3, h4, h5⟩ := ih out' (log ++ [.popOperator o, .pushOutput o]) s h
        refine ⟨.popOperator o :: .pushOutput o :: l, ?_, .output o h2, h3, ?_, ?_⟩
        · exact h1.trans (by simp)
        · show (o :: outputOf l).foldlM sink out = _
          rw [List.foldlM_cons, hs]; exact h4
        · intro a ha
          rcases List.mem_cons.mp (show a ∈ o :: outputOf l from ha) with e | e
          · simp [e]
          · exact List.mem_cons_of_mem _ (h5 a e)

theorem popPrecedingV_spec (P : OpTable T) (sink : O → T → Except PyErr O) (b : T) (ops : List T) : ∀ (out : O) (log : List (YardEvent T)) (s : List T × O),
    popPreceding P sink b ops out = .ok s → ∃ l, popPrecedingV P sink b ops out log = .ok (s.1, s.2, log ++ l) ∧ YardRun P.lpar ops l s.1 ∧
      pushedOf l = [] ∧ (outputOf l).foldlM sink out = .ok s.2 ∧ (∀ a ∈ outputOf l, a ∈ ops) := by
  induction ops with
  | nil => intro out log s h; cases h; exact ⟨[], by simp [popPrecedingV], .nil _, rfl, rfl, fun a ha => by cases ha⟩
  | cons o ops ih =>
    intro out log s h
    unfold popPreceding at h
    unfold popPrecedingV
    by_cases ho : preceeds P o b = true
    · rw [if_pos ho] at h ⊢
      cases hs : sink out o with
      | error e => rw [hs] at h; cases h
      | ok out' =>
        rw [hs] at h
        obtain ⟨l, h1, h2, h3, h4, h5⟩ := ih out' (log ++ [.popOperator o, .pushOutput o]) s h
        refine ⟨.popOperator o :: .pushOutput o :: l, ?_, .output o h2, h3, ?_, ?_⟩
        · exact h1.trans (by simp)
        · show (o :: outputOf l).foldlM sink out = _
          rw [List.foldlM_cons, hs]; exact h4
        · intro a ha
          rcases List.mem_cons.mp (show a ∈ o :: outputOf l from ha) with e | e
          · simp [e]
          · exact List.mem_cons_of_mem _ (h5 a e)
    · rw [if_neg ho] at h ⊢
      cases h
      exact ⟨[], by simp, .nil _, rfl, rfl, fun a ha => by cases ha⟩

theorem flushV_spec (lpar : T) (sink : O → T → Except PyErr O) (ops : List T) : ∀ (out : O) (log : List (YardEvent T)) (out' : O),
    ops.foldlM sink out = .ok out' → ∃ l, ops.foldlM (flushV sink) (out, log) = .ok (out', log ++ l) ∧ YardRun lpar ops l [] ∧
      pushedOf l = [] ∧ outputOf l = ops := by
  induction ops with
  | nil => intro out log out' h; cases h; exact ⟨[], by simp; rfl, .nil _, rfl, rfl⟩
  | cons o ops ih =>
    intro out log out' h
    rw [List.foldlM_cons] at h
    cases hs : sink out o with
    | error e => rw [hs] at h; cases h
    | ok out1 =>
      rw [hs] at h
      obtain ⟨l, h1, h2, h3, h4⟩ := ih out1 (log ++ [.popOperator o, .pushOutput o]) out' h
      refine ⟨.popOperator o :: .pushOutput o :: l, ?_, .output o h2, h3, ?_⟩
      · rw [List.foldlM_cons]
        have : flushV sink (out, log) o = .ok (out1, log ++ [.popOperator o, .pushOutput o]) := by
          unfold flushV; rw [hs]; rfl
        rw [this]
        exact h1.trans (by simp)
      · show o :: outputOf l = _
        rw [h4]

/-- The tokens that are neither operators nor parentheses. -/
def isOperand (P : OpTable T) (a : T) : Bool := !decide (a = P.lpar) && !decide (a = P.rpar) && !P.ops.contains a

/-- The tokens pushed to the stack. -/
def isPushed (P : OpTable T) (a : T) : Bool := decide (a = P.lpar) || (!decide (a = P.rpar) && P.ops.contains a)

/-- The invariant of the main loop, after the tokens `done`. -/
structure YardInv (P : OpTable T) (sink : O → T → Except PyErr O) (out₀ : O) (done : List T) (s : List T × O × List (YardEvent T)) : Prop where
  run : YardRun P.lpar [] s.2.2 s.1
  pushed : pushedOf s.2.2 = done.filter (isPushed P)
  output : (outputOf s.2.2).foldlM sink out₀ = .ok s.2.1
  operands : (outputOf s.2.2).filter (isOperand P) = done.filter (isOperand P)
  stack : ∀ o ∈ s.1, isPushed P o = true

theorem not_both {P : OpTable T} {a : T} (h : isPushed P a = true) : isOperand P a = false := by
  unfold isPushed at h
  unfold isOperand
  by_cases h1 : a = P.lpar
  · simp [h1]
  · simp [h1] at h
    simp [h.2]

theorem filter_of_pushed {P : OpTable T} {l : List T} (h : ∀ o ∈ l, isPushed P o = true) : l.filter (isOperand P) = [] := by
  rw [List.filter_eq_nil_iff]
  intro a ha
  rw [not_both (h a ha)]; simp

omit [DecidableEq T] in
theorem stack_subset {lpar : T} {ops ops' : List T} {l : List (YardEvent T)} (hr : YardRun lpar ops l ops') :
    pushedOf l = [] → ∀ o ∈ ops', o ∈ ops := by
  induction hr with
  | nil => intro _ o ho; exact ho
  | push o h ih => intro hp; cases hp
  | operand a h ih => intro hp o ho; exact ih hp o ho
  | output a h ih => intro hp o ho; exact List.mem_cons_of_mem _ (ih hp o ho)
  | paren h ih => intro hp o ho; exact List.mem_cons_of_mem _ (ih hp o ho)

theorem stepV_spec {P : OpTable T} {sink : O → T → Except PyErr O} {out₀ : O} {done : List T} {s : List T × O × List (YardEvent T)}
    (i : YardInv P sink out₀ done s) (a : T) {s' : List T × O} (h : step P sink (s.1, s.2.1) a = .ok s') :
    ∃ log, stepV P sink s a = .ok (s'.1, s'.2, log) ∧ YardInv P sink out₀ (done ++ [a]) (s'.1, s'.2, log) := by
  obtain ⟨ops, out, log⟩ := s
  obtain ⟨ops', out'⟩ := s'
  unfold step at h
  unfold stepV
  simp only at h ⊢
  by_cases h1 : a = P.lpar
  · rw [if_pos h1] at h ⊢
    cases h
    have hp : isPushed P a = true := by simp [isPushed, h1]
    refine ⟨_, rfl, i.run.append (.push a (.nil _)), ?_, ?_, ?_, ?_⟩
    · simp only [pushedOf_append, i.pushed, List.filter_append, List.filter_cons, hp]; rfl
    · simp only [outputOf_append]
      exact (by simpa [outputOf] using i.output)
    · simp only [outputOf_append, List.filter_append, List.filter_cons, not_both hp]
      simpa [outputOf] using i.operands
    · intro o ho
      rcases List.mem_cons.mp ho with rfl | ho
      · exact hp
      · exact i.stack o ho
  · rw [if_neg h1] at h ⊢
    by_cases h2 : a = P.rpar
    · rw [if_pos h2] at h ⊢
      have hp : isPushed P a = false := by simp only [isPushed, decide_eq_false h1, decide_eq_true h2]; rfl
      have ho : isOperand P a = false := by simp [isOperand, h2]
      obtain ⟨l, e, r, p, o, m⟩ := closeParenV_spec P sink ops out log _ h
      refine ⟨_, e, i.run.append r, ?_, ?_, ?_, fun x hx => i.stack x (stack_subset r p x hx)⟩
      · simp only [pushedOf_append, i.pushed, p, List.filter_append, List.filter_cons, hp]; simp
      · simp only [outputOf_append, List.foldlM_append]
        have := i.output
        simp only at this
        rw [this]; exact o
      · simp only [outputOf_append, List.filter_append, List.filter_cons, ho]
        have := i.operands
        simp only at this
        rw [this, filter_of_pushed fun x hx => i.stack x (m x hx)]; simp
    · rw [if_neg h2] at h ⊢
      by_cases h3 : P.ops.contains a = true
      · rw [if_pos h3] at h ⊢
        have hp : isPushed P a = true := by simp [isPushed, h2, h3]
        cases hpp : popPreceding P sink a ops out with
        | error e => rw [hpp] at h; cases h
        | ok s1 =>
          rw [hpp] at h
          cases h
          obtain ⟨l, e, r, p, o, m⟩ := popPrecedingV_spec P sink a ops out log _ hpp
          rw [e]
          refine ⟨_, rfl, (i.run.append r).append (.push a (.nil _)), ?_, ?_, ?_, fun x hx => ?_⟩
          · simp only [pushedOf_append, i.pushed, p, List.filter_append, List.filter_cons, hp]; simp [pushedOf]
          · have hi := i.output
            simp only at hi
            simp only [outputOf_append, List.foldlM_append, hi]
            show (outputOf l).foldlM sink out >>= (fun o => (outputOf [YardEvent.pushOperator a]).foldlM sink o) = _
            rw [o]; rfl
          · simp only [outputOf_append, List.filter_append, List.filter_cons, not_both hp]
            have := i.operands
            simp only at this
            rw [this, filter_of_pushed fun x hx => i.stack x (m x hx)]; simp [outputOf]
          · rcases List.mem_cons.mp hx with rfl | hx
            · exact hp
            · exact i.stack x (stack_subset r p x hx)
      · rw [if_neg h3] at h ⊢
        have hp : isPushed P a = false := by simp [isPushed, h1, h3]
        have ho : isOperand P a = true := by simp [isOperand, h1, h2, h3]
        cases hs : sink out a with
        | error e => rw [hs] at h; cases h
        | ok out1 =>
          rw [hs] at h
          cases h
          refine ⟨_, rfl, i.run.append (.operand a (.nil _)), ?_, ?_, ?_, i.stack⟩
          · simp only [pushedOf_append, i.pushed, List.filter_append, List.filter_cons, hp]; simp [pushedOf]
          · have hi := i.output
            simp only at hi
            simp only [outputOf_append, List.foldlM_append, hi]
            show [a].foldlM sink out = _
            rw [List.foldlM_cons, hs]; rfl
          · have := i.operands
            simp only at this
            simp only [outputOf_append, List.filter_append, this, List.filter_cons, ho]
            simp [outputOf, ho]

end ShuntingYard

open ShuntingYard in
/-- **C107.** A visitor changes nothing to the result of `shunting_yard_postfix`, on any sequence of tokens on which it returns. Its calls drive a stack, empty at the
beginning and at the end: each operator (or opening parenthesis) handed to `on_pop_operator` is the last one handed to `on_push_operator` and not popped yet, and it
goes to the output right after, unless it is an opening parenthesis. `on_push_operator` is called once per operator and opening parenthesis of the expression, in order;
`on_push_output` is called once per token of the output, in order, and in particular once per operand of the expression, in order. -/
theorem C107_visitor (P : OpTable T) (sink : O → T → Except PyErr O) (expression : List T) (out out' : O) (h : run P sink expression out = .ok out') :
    ∃ log, runV P sink expression out = .ok (out', log) ∧ YardRun P.lpar [] log [] ∧
      pushedOf log = expression.filter (isPushed P) ∧ (outputOf log).foldlM sink out = .ok out' ∧
      (outputOf log).filter (isOperand P) = expression.filter (isOperand P) := by
  have key : ∀ (expression done : List T) (s : List T × O × List (YardEvent T)), YardInv P sink out done s → ∀ s',
      expression.foldlM (step P sink) (s.1, s.2.1) = .ok s' →
      ∃ log, expression.foldlM (stepV P sink) s = .ok (s'.1, s'.2, log) ∧ YardInv P sink out (done ++ expression) (s'.1, s'.2, log) := by
    intro expression
    induction expression with
    | nil => intro done s i s' h; cases h; exact ⟨s.2.2, rfl, by simpa using i⟩
    | cons a expression ih =>
      intro done s i s' h
      rw [List.foldlM_cons] at h ⊢
      cases hs : step P sink (s.1, s.2.1) a with
      | error e => rw [hs] at h; cases h
      | ok s1 =>
        rw [hs] at h
        obtain ⟨log, h1, h2⟩ := stepV_spec i a hs
        obtain ⟨log', h3, h4⟩ := ih (done ++ [a]) (s1.1, s1.2, log) h2 s' h
        refine ⟨log', ?_, by simpa using h4⟩
        rw [h1]; exact h3
  unfold run at h
  cases hf : expression.foldlM (step P sink) ([], out) with
  | error e => rw [hf] at h; cases h
  | ok s =>
    rw [hf] at h
    obtain ⟨log, h1, i⟩ := key expression [] ([], out, []) ⟨.nil _, rfl, rfl, rfl, fun o ho => by cases ho⟩ s hf
    obtain ⟨l, h2, h3, h4, h5⟩ := flushV_spec P.lpar sink s.1 s.2 log out' h
    refine ⟨log ++ l, ?_, i.run.append h3, ?_, ?_, ?_⟩
    · unfold runV
      rw [h1]; exact h2
    · rw [pushedOf_append, h4, i.pushed]; simp
    · have hi := i.output
      simp only at hi
      rw [outputOf_append, List.foldlM_append, hi, h5]; exact h
    · have hi := i.operands
      simp only at hi
      rw [outputOf_append, List.filter_append, hi, h5, filter_of_pushed i.stack]; simp

open ShuntingYard in
/-- **C107.** With a visitor, `shunting_yard_postfix` returns or raises exactly what it returns or raises without one, on every sequence of tokens. -/
theorem C107_same (P : OpTable T) (sink : O → T → Except PyErr O) (expression : List T) (out : O) :
    (runV P sink expression out).map Prod.fst = run P sink expression out := by
  have hc : ∀ (ops : List T) (out : O) (log : List (YardEvent T)),
      (closeParenV P sink ops out log).map (fun s => (s.1, s.2.1)) = closeParen P sink ops out := by
    intro ops
    induction ops with
    | nil => intro out log; rfl
    | cons o ops ih =>
      intro out log
      unfold closeParenV closeParen
      split
      · rfl
      · cases sink out o with
        | error e => rfl
        | ok out1 => exact ih out1 _
  have hp : ∀ (a : T) (ops : List T) (out : O) (log : List (YardEvent T)),
      (popPrecedingV P sink a ops out log).map (fun s => (s.1, s.2.1)) = popPreceding P sink a ops out := by
    intro a ops
    induction ops with
    | nil => intro out log; rfl
    | cons o ops ih =>
      intro out log
      unfold popPrecedingV popPreceding
      split
      · cases sink out o with
        | error e => rfl
        | ok out1 => exact ih out1 _
      · rfl
  have hs : ∀ (s : List T × O × List (YardEvent T)) (a : T), (stepV P sink s a).map (fun s => (s.1, s.2.1)) = step P sink (s.1, s.2.1) a := by
    intro s a
    unfold stepV step
    by_cases h1 : a = P.lpar
    · rw [if_pos h1, if_pos h1]; rfl
    · rw [if_neg h1, if_neg h1]
      by_cases h2 : a = P.rpar
      · rw [if_pos h2, if_pos h2]; exact hc _ _ _
      · rw [if_neg h2, if_neg h2]
        by_cases h3 : P.ops.contains a = true
        · rw [if_pos h3, if_pos h3]
          have := hp a s.1 s.2.1 s.2.2
          cases e : popPrecedingV P sink a s.1 s.2.1 s.2.2 with
          | error e' => rw [e] at this; rw [← this]; rfl
          | ok t => rw [e] at this; rw [← this]; rfl
        · rw [if_neg h3, if_neg h3]
          cases sink s.2.1 a <;> rfl
  have hl : ∀ (l : List T) (s : List T × O × List (YardEvent T)),
      (l.foldlM (stepV P sink) s).map (fun s => (s.1, s.2.1)) = l.foldlM (step P sink) (s.1, s.2.1) := by
    intro l
    induction l with
    | nil => intro s; rfl
    | cons a l ih =>
      intro s
      rw [List.foldlM_cons, List.foldlM_cons, ← hs s a]
      cases stepV P sink s a with
      | error e => rfl
      | ok t => exact ih t
  have hf : ∀ (l : List T) (s : O × List (YardEvent T)), (l.foldlM (flushV sink) s).map Prod.fst = l.foldlM sink s.1 := by
    intro l
    induction l with
    | nil => intro s; rfl
    | cons a l ih =>
      intro s
      rw [List.foldlM_cons, List.foldlM_cons]
      unfold flushV
      cases sink s.1 a with
      | error e => rfl
      | ok t => exact ih (t, _)
  have := hl expression ([], out, [])
  unfold runV run
  rw [← this]
  cases expression.foldlM (stepV P sink) ([], out, []) with
  | error e => rfl
  | ok t => exact hf t.1 (t.2.1, t.2.2)

/-- On `1 )`. -/
example : ShuntingYard.runV (Alg.table (K := Nat)) ShuntingYard.plainSink [.num 1, .rpar] [] = .error .indexError := by rfl

/-- On `1 + 2 * 3`. -/
example : ShuntingYard.runV (Alg.table (K := Nat)) ShuntingYard.plainSink [.num 1, .add, .num 2, .mul, .num 3] [] =
    .ok ([.num 1, .num 2, .num 3, .mul, .add], [.pushOutput (.num 1), .pushOperator .add, .pushOutput (.num 2), .pushOperator .mul,
      .pushOutput (.num 3), .popOperator .mul, .pushOutput .mul, .popOperator .add, .pushOutput .add]) := by rfl

end Yard

end PyBGL
