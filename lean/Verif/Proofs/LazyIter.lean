import Verif.Model.LazyIter
import Verif.Proofs.GraphLemmas
import Verif.Proofs.PyM

/-! # Loops whose body changes what they iterate on -/

namespace PyBGL
namespace Lazy

variable {S E X : Type}

/-- The state after the bodies run for these items. -/
def run (leaf : E → S → S) (es : List E) (s : S) : S := es.foldl (fun s e => leaf e s) s

/-- `Q` holds of each item with the states before and after its body. -/
def AllQ (leaf : E → S → S) (Q : E → S → S → Prop) : S → List E → Prop
  | _, [] => True
  | s, e :: l => Q e s (leaf e s) ∧ AllQ leaf Q (leaf e s) l

theorem run_append (leaf : E → S → S) (a b : List E) (s : S) : run leaf (a ++ b) s = run leaf b (run leaf a s) := by simp [run]

theorem allQ_append {leaf : E → S → S} {Q : E → S → S → Prop} : ∀ {a b : List E} {s : S},
    AllQ leaf Q s (a ++ b) ↔ AllQ leaf Q s a ∧ AllQ leaf Q (run leaf a s) b
  | [], b, s => by simp [AllQ, run]
  | e :: a, b, s => by
    simp only [List.cons_append, AllQ, allQ_append (a := a), and_assoc]
    rfl

theorem allQ_and {leaf : E → S → S} {Q Q' : E → S → S → Prop} : ∀ {a : List E} {s : S},
    AllQ leaf (fun e s s' => Q e s s' ∧ Q' e s s') s a ↔ AllQ leaf Q s a ∧ AllQ leaf Q' s a
  | [], s => by simp [AllQ]
  | e :: a, s => by
    simp only [AllQ, allQ_and (a := a)]
    constructor
    · rintro ⟨⟨a, b⟩, c, d⟩; exact ⟨⟨a, c⟩, b, d⟩
    · rintro ⟨⟨a, c⟩, b, d⟩; exact ⟨⟨a, b⟩, c, d⟩

theorem allQ_congr {leaf : E → S → S} {Q Q' : E → S → S → Prop} {P : E → Prop} : ∀ {a : List E} (_ : ∀ e ∈ a, P e)
    (_ : ∀ e s s', P e → (Q e s s' ↔ Q' e s s')) (s : S), AllQ leaf Q s a ↔ AllQ leaf Q' s a
  | [], _, _, _ => Iff.rfl
  | e :: a, h, hq, s => by
    simp only [AllQ]
    rw [hq e _ _ (h e List.mem_cons_self), allQ_congr (fun x hx => h x (List.mem_cons_of_mem _ hx)) hq]

/-- The changes made by a body: always growing, or always shrinking. -/
structure Mono (leaf : E → S → S) (I : S → Prop) (Rel : S → S → Prop) (In : E → S → Prop) : Prop where
  refl : ∀ s, Rel s s
  trans : ∀ {a b c}, Rel a b → Rel b c → Rel a c
  convex : ∀ {a b c e}, Rel a b → Rel b c → In e a → In e c → In e b
  inv : ∀ {e s}, I s → I (leaf e s)
  rel : ∀ {e s}, I s → Rel s (leaf e s)

variable {leaf : E → S → S} {I : S → Prop} {Rel : S → S → Prop} {In : E → S → Prop}

theorem Mono.run_inv (h : Mono leaf I Rel In) : ∀ (es : List E) {s : S}, I s → I (run leaf es s) ∧ Rel s (run leaf es s)
  | [], s, hi => ⟨hi, h.refl s⟩
  | e :: es, s, hi => by
    obtain ⟨a, b⟩ := h.run_inv es (h.inv (e := e) hi)
    exact ⟨a, h.trans (h.rel hi) b⟩

/-- What a loop does: the items for which the body ran, each of them present at that time, no one twice; the error, and when there is none. -/
def Meets (leaf : E → S → S) (In : E → S → Prop) (P : E → Prop) (Q : E → S → S → Prop) (m : PyM S Unit) (s : S) : Prop :=
  ∃ new, (m s).2 = run leaf new s ∧ new.Nodup ∧ (∀ e ∈ new, P e) ∧ AllQ leaf (fun e s _ => In e s) s new ∧
    ((m s).1 = .ok () ∨ (m s).1 = .error .runtimeError) ∧ ((m s).1 = .ok () ↔ AllQ leaf Q s new) ∧
    ((m s).1 = .ok () → ∀ e, P e → In e s → In e (m s).2 → e ∈ new)

/-- The contents of a container that grows or shrinks. -/
structure Items (I : S → Prop) (Rel : S → S → Prop) (items : S → List X) : Prop where
  same : ∀ {a b c}, I a → Rel a b → Rel b c → (items c).length = (items a).length → items b = items a
  nodup : ∀ {s}, I s → (items s).Nodup

theorem Items.quiet (h : Mono leaf I Rel In) {items : S → List X} (hi : Items I Rel items) : ∀ (es : List E) {s : S}, I s →
    (items (run leaf es s)).length = (items s).length → AllQ leaf (fun _ s s' => items s' = items s) s es
  | [], _, _, _ => trivial
  | e :: es, s, hs, hl => by
    have h1 := h.run_inv es (h.inv (e := e) hs)
    have h2 : items (leaf e s) = items s := hi.same hs (h.rel hs) h1.2 hl
    refine ⟨h2, hi.quiet h es (h.inv hs) ?_⟩
    rw [h2]; exact hl

theorem quiet_items {items : S → List X} : ∀ (es : List E) {s : S}, AllQ leaf (fun _ s s' => items s' = items s) s es → items (run leaf es s) = items s
  | [], _, _ => rfl
  | e :: es, s, h => by
    have := quiet_items es h.2
    exact this.trans h.1

theorem forFrom_meets (h : Mono leaf I Rel In) {items : S → List X} (hi : Items I Rel items) {body : X → PyM S Unit} {P : X → E → Prop}
    {Q : E → S → S → Prop} (hkey : ∀ x y e, P x e → P y e → x = y)
    (hbody : ∀ x s, I s → x ∈ items s → Meets leaf In (P x) Q (body x) s) {s0 : S} (hs0 : I s0) :
    ∀ (k : Nat) (s : S), k ≤ (items s0).length → I s → Rel s0 s →
    ∃ new, (forFrom items body (items s0).length k s).2 = run leaf new s ∧ new.Nodup ∧
      (∀ e ∈ new, ∃ x ∈ (items s0).drop ((items s0).length - k), P x e) ∧ AllQ leaf (fun e s _ => In e s) s new ∧
      ((forFrom items body (items s0).length k s).1 = .ok () ∨ (forFrom items body (items s0).length k s).1 = .error .runtimeError) ∧
      ((forFrom items body (items s0).length k s).1 = .ok () ↔
        items s = items s0 ∧ AllQ leaf (fun e s s' => Q e s s' ∧ items s' = items s) s new) ∧
      ((forFrom items body (items s0).length k s).1 = .ok () → ∀ x ∈ (items s0).drop ((items s0).length - k), ∀ e, P x e → In e s →
        In e (forFrom items body (items s0).length k s).2 → e ∈ new)
  | 0, s, _, hs, hr => by
    by_cases hc : (items s).length = (items s0).length
    · have he := hi.same hs0 hr (h.refl s) hc
      have : forFrom items body (items s0).length 0 s = (.ok (), s) := by simp only [forFrom]; rw [if_pos hc]
      rw [this]
      exact ⟨[], rfl, List.nodup_nil, by simp, trivial, .inl rfl, by simp [he, AllQ], by simp⟩
    · have : forFrom items body (items s0).length 0 s = (.error .runtimeError, s) := by simp only [forFrom]; rw [if_neg hc]
      rw [this]
      refine ⟨[], rfl, List.nodup_nil, by simp, trivial, .inr rfl, ⟨by simp, fun hh => absurd (congrArg List.length hh.1) hc⟩, by simp⟩
  | k + 1, s, hk, hs, hr => by
    by_cases hc : (items s).length = (items s0).length
    · have he := hi.same hs0 hr (h.refl s) hc
      have hlt : (items s0).length - (k + 1) < (items s0).length := by omega
      obtain ⟨x, hx⟩ : ∃ x, (items s0)[(items s0).length - (k + 1)]? = some x := ⟨_, List.getElem?_eq_getElem hlt⟩
      have hdrop : (items s0).drop ((items s0).length - (k + 1)) = x :: (items s0).drop ((items s0).length - k) := by
        rw [List.drop_eq_getElem_cons hlt]
        rw [List.getElem?_eq_getElem hlt] at hx
        cases hx
        congr 2; omega
      have hxm : x ∈ items s := by rw [he]; exact List.mem_of_getElem? hx
      obtain ⟨n1, a1, a2, a3, a4, a5, a6, a7⟩ := hbody x s hs hxm
      have hI := h.run_inv n1 hs
      rcases a5 with ho | ho
      · have : forFrom items body (items s0).length (k + 1) s = forFrom items body (items s0).length k (run leaf n1 s) := by
          simp only [forFrom]; rw [if_pos hc, he, hx]
          simp only [PyM.bind]
          rw [show body x s = (.ok (), run leaf n1 s) from Prod.ext ho a1]
        rw [this, hdrop]
        obtain ⟨n2, b1, b2, b3, b4, b5, b6, b7⟩ := forFrom_meets h hi hkey hbody hs0 k (run leaf n1 s) (by omega) hI.1 (h.trans hr hI.2)
        have hnd : (x :: (items s0).drop ((items s0).length - k)).Nodup := by
          rw [← hdrop]; exact (hi.nodup hs0).sublist (List.drop_sublist _ _)
        refine ⟨n1 ++ n2, by rw [b1, run_append], ?_, ?_, allQ_append.2 ⟨a4, b4⟩, b5, ?_, ?_⟩
        · refine List.nodup_append.2 ⟨a2, b2, ?_⟩
          rintro e he1 e' he2 rfl
          obtain ⟨y, hy, hP⟩ := b3 e he2
          have := hkey _ _ _ (a3 e he1) hP
          subst this
          exact (List.nodup_cons.1 hnd).1 hy
        · intro e hm
          rcases List.mem_append.1 hm with hm | hm
          · exact ⟨x, List.mem_cons_self, a3 e hm⟩
          · obtain ⟨y, hy, hP⟩ := b3 e hm
            exact ⟨y, List.mem_cons_of_mem _ hy, hP⟩
        · rw [b6, allQ_append]
          constructor
          · rintro ⟨c1, c2⟩
            refine ⟨he, allQ_and.2 ⟨a6.1 ho, hi.quiet h n1 hs (by rw [c1, he])⟩, c2⟩
          · rintro ⟨-, c1, c2⟩
            exact ⟨(quiet_items n1 (allQ_and.1 c1).2).trans he, c2⟩
        · intro hok y hy e hP hin hin'
          have hmid : In e (run leaf n1 s) := by
            refine h.convex hI.2 ?_ hin hin'
            rw [b1]; exact (h.run_inv n2 hI.1).2
          rcases List.mem_cons.1 hy with rfl | hy
          · exact List.mem_append_left _ (a7 ho e hP hin (by rw [a1]; exact hmid))
          · exact List.mem_append_right _ (b7 hok y hy e hP hmid hin')
      · have : forFrom items body (items s0).length (k + 1) s = (.error .runtimeError, run leaf n1 s) := by
          simp only [forFrom]; rw [if_pos hc, he, hx]
          simp only [PyM.bind]
          rw [show body x s = (.error .runtimeError, run leaf n1 s) from Prod.ext ho a1]
        rw [this, hdrop]
        refine ⟨n1, rfl, a2, fun e hm => ⟨x, List.mem_cons_self, a3 e hm⟩, a4, .inr rfl, ⟨by simp, fun hh => ?_⟩, by simp⟩
        rw [a6.2 (allQ_and.1 hh.2).1] at ho; cases ho
    · have : forFrom items body (items s0).length (k + 1) s = (.error .runtimeError, s) := by simp only [forFrom]; rw [if_neg hc]
      rw [this]
      refine ⟨[], rfl, List.nodup_nil, by simp, trivial, .inr rfl, ⟨by simp, fun hh => absurd (congrArg List.length hh.1) hc⟩, by simp⟩

/-- A loop over a container, from what its body does. -/
theorem pyFor_meets (h : Mono leaf I Rel In) {items : S → List X} (hi : Items I Rel items) {body : X → PyM S Unit} {P : X → E → Prop}
    {Q : E → S → S → Prop} (hkey : ∀ x y e, P x e → P y e → x = y) (hcov : ∀ s x e, I s → P x e → In e s → x ∈ items s)
    (hbody : ∀ x s, I s → x ∈ items s → Meets leaf In (P x) Q (body x) s) {s : S} (hs : I s) :
    Meets leaf In (fun e => ∃ x, P x e) (fun e s s' => Q e s s' ∧ items s' = items s) (pyFor items body) s := by
  obtain ⟨new, a1, a2, a3, a4, a5, a6, a7⟩ := forFrom_meets h hi hkey hbody hs (items s).length s (Nat.le_refl _) hs (h.refl s)
  refine ⟨new, a1, a2, fun e he => ?_, a4, a5, ?_, ?_⟩
  · obtain ⟨x, -, hx⟩ := a3 e he; exact ⟨x, hx⟩
  · exact a6.trans ⟨fun hh => hh.2, fun hh => ⟨rfl, hh⟩⟩
  · rintro hok e ⟨x, hP⟩ hin hin'
    refine a7 hok x ?_ e hP hin hin'
    rw [Nat.sub_self, List.drop_zero]
    exact hcov _ _ _ hs hP hin

/-- The body of the loop. -/
theorem leaf_meets (m : PyM S Unit) (e : E) (s : S) (hm : m s = (.ok (), leaf e s)) (hin : In e s) :
    Meets leaf In (fun e' => e' = e) (fun _ _ _ => True) m s := by
  rw [Meets, hm]
  exact ⟨[e], rfl, List.nodup_singleton e, by simp, ⟨hin, trivial⟩, .inl rfl, by simp [AllQ], by simp⟩

/-- A body that is skipped. -/
theorem skip_meets (s : S) : Meets leaf In (fun _ => False) (fun _ _ _ => True) (PyM.pure () : PyM S Unit) s :=
  ⟨[], rfl, List.nodup_nil, by simp, trivial, .inl rfl, by simp [PyM.pure, AllQ], by simp⟩

/-! ## A change of the innermost set is noticed at once -/

/-- `R` holds of all items but the last one, and of the last one if the loop ends normally. -/
def Prompt (leaf : E → S → S) (R : E → S → S → Prop) (m : PyM S Unit) (s : S) : Prop :=
  ∃ new, (m s).2 = run leaf new s ∧ AllQ leaf R s new.dropLast ∧ ((m s).1 = .ok () → AllQ leaf R s new)

theorem forFrom_prompt {R : E → S → S → Prop} {items : S → List X} {body : X → PyM S Unit} (hb : ∀ x s, Prompt leaf R (body x) s) (size : Nat) :
    ∀ (k : Nat) (s : S), Prompt leaf R (forFrom items body size k) s
  | 0, s => by
    unfold Prompt
    simp only [forFrom]
    split <;> exact ⟨[], rfl, trivial, fun _ => trivial⟩
  | k + 1, s => by
    unfold Prompt
    simp only [forFrom]
    split
    · cases hx : (items s)[size - (k + 1)]? with
      | none => exact ⟨[], rfl, trivial, fun _ => trivial⟩
      | some x =>
        obtain ⟨n1, a1, a2, a3⟩ := hb x s
        rcases hbx : body x s with ⟨r | r, s1⟩
        · rw [hbx] at a1
          simp only [PyM.bind, hbx]
          exact ⟨n1, a1, a2, by simp⟩
        · rw [hbx] at a1 a3
          simp only [PyM.bind, hbx]
          obtain ⟨n2, b1, b2, b3⟩ := forFrom_prompt hb size k s1
          simp only at a1
          refine ⟨n1 ++ n2, by rw [b1, run_append, a1], ?_, fun hok => allQ_append.2 ⟨a3 rfl, by rw [← a1]; exact b3 hok⟩⟩
          rcases n2.eq_nil_or_concat with rfl | ⟨n2', y, rfl⟩
          · rw [List.append_nil]; exact a2
          · rw [List.concat_eq_append, ← List.append_assoc, List.dropLast_concat]
            rw [List.concat_eq_append, List.dropLast_concat] at b2
            exact allQ_append.2 ⟨a3 rfl, by rw [← a1]; exact b2⟩
    · exact ⟨[], rfl, trivial, by simp⟩

theorem forFrom_prompt_leaf {R : E → S → S → Prop} {items : S → List X} {body : X → PyM S Unit} {mk : X → E} (hb : ∀ x s, body x s = (.ok (), leaf (mk x) s))
    (hR : ∀ x s s', (items s').length = (items s).length → R (mk x) s s') (size : Nat) :
    ∀ (k : Nat) (s : S), ∃ new, (forFrom items body size k s).2 = run leaf new s ∧ AllQ leaf R s new.dropLast ∧
      ((forFrom items body size k s).1 = .ok () → AllQ leaf R s new) ∧ ((items s).length ≠ size → new = [])
  | 0, s => by
    simp only [forFrom]
    split <;> exact ⟨[], rfl, trivial, fun _ => trivial, fun _ => rfl⟩
  | k + 1, s => by
    simp only [forFrom]
    split
    · next hsz =>
      cases hx : (items s)[size - (k + 1)]? with
      | none => exact ⟨[], rfl, trivial, fun _ => trivial, fun _ => rfl⟩
      | some x =>
        simp only [PyM.bind, hb]
        obtain ⟨n2, b1, b2, b3, b4⟩ := forFrom_prompt_leaf hb hR size k (leaf (mk x) s)
        by_cases hs : (items (leaf (mk x) s)).length = size
        · have h1 : R (mk x) s (leaf (mk x) s) := hR x _ _ (hs.trans hsz.symm)
          refine ⟨mk x :: n2, b1, ?_, fun hok => ⟨h1, b3 hok⟩, fun h => absurd hsz h⟩
          cases n2 with
          | nil => trivial
          | cons y n2 => exact ⟨h1, b2⟩
        · have hn := b4 hs
          subst hn
          refine ⟨[mk x], b1, trivial, fun hok => ?_, fun h => absurd hsz h⟩
          exfalso
          revert hok
          cases k <;> simp [forFrom, hs]
    · exact ⟨[], rfl, trivial, by simp, fun _ => rfl⟩

/-! ## Dictionaries of dictionaries of sets -/

abbrev Adj := Dict Nat (Dict Nat (List Nat))

/-- `a` has the same contents as `b`, or less. -/
structure Sub (a b : Adj) : Prop where
  outer : a.keys.Sublist b.keys
  inner : ∀ u, (a.getD u []).keys.Sublist (b.getD u []).keys
  sets : ∀ u v, (lk a u v).Sublist (lk b u v)

theorem Sub.refl (a : Adj) : Sub a a := ⟨.refl _, fun _ => .refl _, fun _ _ => .refl _⟩
theorem Sub.trans {a b c : Adj} (h : Sub a b) (h' : Sub b c) : Sub a c :=
  ⟨h.outer.trans h'.outer, fun u => (h.inner u).trans (h'.inner u), fun u v => (h.sets u v).trans (h'.sets u v)⟩

theorem getD_getD (a : Adj) (u v : Nat) : (a.getD u []).getD v [] = lk a u v := by
  unfold lk Dict.getD
  cases a.get? u <;> rfl

theorem nodup_inner_keys {a : Adj} (h : AdjWF a) (u : Nat) : ((a.getD u []).keys).Nodup := by
  unfold Dict.getD
  cases hu : a.get? u with
  | none => exact List.nodup_nil
  | some vs => exact h.inner u vs hu

theorem mem_keys_of_lk {a : Adj} {u v n : Nat} (h : n ∈ lk a u v) : u ∈ a.keys ∧ v ∈ (a.getD u []).keys := by
  obtain ⟨vs, s, h1, h2, -, -⟩ := get?_some_of_lk h
  refine ⟨(Dict.mem_keys_iff _ _).2 ⟨_, h1⟩, ?_⟩
  rw [Dict.getD, h1]
  exact (Dict.mem_keys_iff _ _).2 ⟨_, h2⟩

/-- Growing if `up`, shrinking otherwise. -/
def Dir (up : Bool) (a b : Adj) : Prop := if up then Sub a b else Sub b a

theorem same_of_sublist {α : Type} {up : Bool} {x y z : List α} (h1 : if up then x.Sublist y else y.Sublist x)
    (h2 : if up then y.Sublist z else z.Sublist y) (hl : z.length = x.length) : y = x := by
  cases up
  · simp only [Bool.false_eq_true, if_false] at h1 h2
    exact h1.eq_of_length (Nat.le_antisymm h1.length_le (hl ▸ h2.length_le))
  · simp only [if_true] at h1 h2
    exact (h1.eq_of_length (Nat.le_antisymm h1.length_le (hl ▸ h2.length_le))).symm

section adj
variable (adj : S → Adj) (up : Bool) (keep : Nat → Nat → Bool) (mk : Nat → Nat → Nat → E)

/-- The items of the generator expression. -/
def InAdj (e : E) (s : S) : Prop := ∃ u v n, keep u v = true ∧ e = mk u v n ∧ n ∈ lk (adj s) u v

theorem mono_adj (hmk : ∀ {u v n u' v' n'}, mk u v n = mk u' v' n' → u = u' ∧ v = v' ∧ n = n') (hinv : ∀ {e s}, I s → I (leaf e s))
    (hrel : ∀ {e s}, I s → Dir up (adj s) (adj (leaf e s))) : Mono leaf I (fun s t => Dir up (adj s) (adj t)) (InAdj adj keep mk) where
  refl s := by cases up <;> exact Sub.refl _
  trans {a b c} h1 h2 := by
    cases up
    · exact Sub.trans h2 h1
    · exact Sub.trans h1 h2
  convex {a b c e} h1 h2 ha hc := by
    obtain ⟨u, v, n, k1, k2, k3⟩ := ha
    obtain ⟨u', v', n', l1, l2, l3⟩ := hc
    obtain ⟨rfl, rfl, rfl⟩ := hmk (k2.symm.trans l2)
    cases up
    · exact ⟨u, v, n, k1, k2, (Sub.sets h2 u v).mem l3⟩
    · exact ⟨u, v, n, k1, k2, (Sub.sets h1 u v).mem k3⟩
  inv := hinv
  rel := hrel

theorem items_outer (hwf : ∀ {s}, I s → AdjWF (adj s)) : Items I (fun s t => Dir up (adj s) (adj t)) (fun s => (adj s).keys) where
  same {a b c} _ h1 h2 hl := by
    refine same_of_sublist (up := up) ?_ ?_ hl <;> cases up <;> simp only [Bool.false_eq_true, if_false, if_true]
    exacts [Sub.outer h1, Sub.outer h1, Sub.outer h2, Sub.outer h2]
  nodup hs := (hwf hs).outer

theorem items_inner (hwf : ∀ {s}, I s → AdjWF (adj s)) (u : Nat) :
    Items I (fun s t => Dir up (adj s) (adj t)) (fun s => ((adj s).getD u []).keys) where
  same {a b c} _ h1 h2 hl := by
    refine same_of_sublist (up := up) ?_ ?_ hl <;> cases up <;> simp only [Bool.false_eq_true, if_false, if_true]
    exacts [Sub.inner h1 u, Sub.inner h1 u, Sub.inner h2 u, Sub.inner h2 u]
  nodup hs := nodup_inner_keys (hwf hs) u

theorem items_sets (hwf : ∀ {s}, I s → AdjWF (adj s)) (u v : Nat) :
    Items I (fun s t => Dir up (adj s) (adj t)) (fun s => ((adj s).getD u []).getD v []) where
  same {a b c} _ h1 h2 hl := by
    simp only [getD_getD] at hl ⊢
    refine same_of_sublist (up := up) ?_ ?_ hl <;> cases up <;> simp only [Bool.false_eq_true, if_false, if_true]
    exacts [Sub.sets h1 u v, Sub.sets h1 u v, Sub.sets h2 u v, Sub.sets h2 u v]
  nodup hs := by simp only [getD_getD]; exact (hwf hs).sets u v

variable {adj up keep mk}

theorem forAdj_meets (h : Mono leaf I (fun s t => Dir up (adj s) (adj t)) (InAdj adj keep mk)) (hwf : ∀ {s}, I s → AdjWF (adj s))
    (hmk : ∀ {u v n u' v' n'}, mk u v n = mk u' v' n' → u = u' ∧ v = v' ∧ n = n') {body : E → PyM S Unit} (hb : ∀ e s, body e s = (.ok (), leaf e s))
    (u : Nat) {s : S} (hs : I s) :
    Meets leaf (InAdj adj keep mk) (fun e => ∃ v n, keep u v = true ∧ e = mk u v n)
      (fun e s s' => (∀ v n, e = mk u v n → lk (adj s') u v = lk (adj s) u v) ∧ ((adj s').getD u []).keys = ((adj s).getD u []).keys)
      (forAdj adj keep mk body u) s := by
  have h1 : ∀ v s, I s → Meets leaf (InAdj adj keep mk) (fun e => ∃ n, keep u v = true ∧ e = mk u v n)
      (fun e s s' => True ∧ ((adj s').getD u []).getD v [] = ((adj s).getD u []).getD v [])
      (pyFor (fun s => ((adj s).getD u []).getD v []) fun n => if keep u v then body (mk u v n) else PyM.pure ()) s := by
    intro v s hs
    refine pyFor_meets h (items_sets adj up hwf u v) (P := fun n e => keep u v = true ∧ e = mk u v n) (Q := fun _ _ _ => True) ?_ ?_ ?_ hs
    · rintro n n' e ⟨-, rfl⟩ ⟨-, h2⟩; exact (hmk h2).2.2
    · rintro s n e - ⟨-, rfl⟩ ⟨u', v', n', -, h2, h3⟩
      obtain ⟨rfl, rfl, rfl⟩ := hmk h2
      rw [getD_getD]; exact h3
    · intro n s _ hn
      rw [getD_getD] at hn
      cases hk : keep u v with
      | true =>
        have := leaf_meets (leaf := leaf) (In := InAdj adj keep mk) (body (mk u v n)) (mk u v n) s (hb _ _) ⟨u, v, n, hk, rfl, hn⟩
        simpa using this
      | false =>
        have := skip_meets (leaf := leaf) (In := InAdj adj keep mk) s
        simpa using this
  have h2 := pyFor_meets h (items_inner adj up hwf u) (P := fun v e => ∃ n, keep u v = true ∧ e = mk u v n)
    (Q := fun e s s' => ∀ v n, e = mk u v n → lk (adj s') u v = lk (adj s) u v)
    (body := fun v => pyFor (fun s => ((adj s).getD u []).getD v []) fun n => if keep u v then body (mk u v n) else PyM.pure ()) ?_ ?_ ?_ hs
  · exact h2
  · rintro v v' e ⟨n, -, rfl⟩ ⟨n', -, h2⟩; exact (hmk h2).2.1
  · rintro s v e - ⟨n, -, rfl⟩ ⟨u', v', n', -, h2, h3⟩
    obtain ⟨rfl, rfl, rfl⟩ := hmk h2
    exact (mem_keys_of_lk h3).2
  · intro v s hs _
    obtain ⟨new, a1, a2, a3, a4, a5, a6, a7⟩ := h1 v s hs
    refine ⟨new, a1, a2, a3, a4, a5, a6.trans ?_, a7⟩
    refine allQ_congr a3 ?_ s
    rintro e s s' ⟨n, -, rfl⟩
    simp only [true_and, getD_getD]
    refine ⟨fun hh v' n' h2 => ?_, fun hh => hh v n rfl⟩
    obtain ⟨-, rfl, -⟩ := hmk h2
    exact hh

theorem forAll_meets (h : Mono leaf I (fun s t => Dir up (adj s) (adj t)) (InAdj adj keep mk)) (hwf : ∀ {s}, I s → AdjWF (adj s))
    (hmk : ∀ {u v n u' v' n'}, mk u v n = mk u' v' n' → u = u' ∧ v = v' ∧ n = n') {body : E → PyM S Unit} (hb : ∀ e s, body e s = (.ok (), leaf e s))
    {s : S} (hs : I s) :
    Meets leaf (InAdj adj keep mk) (fun e => ∃ u v n, keep u v = true ∧ e = mk u v n)
      (fun e s s' => (∀ u v n, e = mk u v n → lk (adj s') u v = lk (adj s) u v ∧ ((adj s').getD u []).keys = ((adj s).getD u []).keys) ∧
        (adj s').keys = (adj s).keys)
      (pyFor (fun s => (adj s).keys) (forAdj adj keep mk body)) s := by
  refine pyFor_meets h (items_outer adj up hwf) (P := fun u e => ∃ v n, keep u v = true ∧ e = mk u v n)
    (Q := fun e s s' => ∀ u v n, e = mk u v n → lk (adj s') u v = lk (adj s) u v ∧ ((adj s').getD u []).keys = ((adj s).getD u []).keys) ?_ ?_ ?_ hs
  · rintro u u' e ⟨v, n, -, rfl⟩ ⟨v', n', -, h2⟩; exact (hmk h2).1
  · rintro s u e - ⟨v, n, -, rfl⟩ ⟨u', v', n', -, h2, h3⟩
    obtain ⟨rfl, rfl, rfl⟩ := hmk h2
    exact (mem_keys_of_lk h3).1
  · intro u s hs _
    obtain ⟨new, a1, a2, a3, a4, a5, a6, a7⟩ := forAdj_meets h hwf hmk hb u hs
    refine ⟨new, a1, a2, a3, a4, a5, a6.trans ?_, a7⟩
    refine allQ_congr a3 ?_ s
    rintro e s s' ⟨v, n, -, rfl⟩
    refine ⟨fun hh u' v' n' h2 => ?_, fun hh => ⟨fun v' n' h2 => (hh u v' n' h2).1, (hh u v n rfl).2⟩⟩
    obtain ⟨rfl, rfl, rfl⟩ := hmk h2
    exact ⟨hh.1 _ _ rfl, hh.2⟩

theorem forAdj_prompt (hmk : ∀ {u v n u' v' n'}, mk u v n = mk u' v' n' → u = u' ∧ v = v' ∧ n = n') {body : E → PyM S Unit}
    (hb : ∀ e s, body e s = (.ok (), leaf e s)) (u : Nat) (s : S) :
    Prompt leaf (fun e s s' => ∀ u v n, e = mk u v n → (lk (adj s') u v).length = (lk (adj s) u v).length) (forAdj adj keep mk body u) s := by
  refine forFrom_prompt (fun v s => ?_) _ _ _
  cases hk : keep u v with
  | true =>
    obtain ⟨new, a1, a2, a3, -⟩ := forFrom_prompt_leaf (leaf := leaf) (items := fun s => ((adj s).getD u []).getD v []) (body := fun n => body (mk u v n))
      (mk := fun n => mk u v n) (R := fun e s s' => ∀ u v n, e = mk u v n → (lk (adj s') u v).length = (lk (adj s) u v).length) (fun n s => hb _ _)
      (fun n s s' h u' v' n' he => by obtain ⟨rfl, rfl, rfl⟩ := hmk he; simpa only [getD_getD] using h) (((adj s).getD u []).getD v []).length
      (((adj s).getD u []).getD v []).length s
    exact ⟨new, a1, a2, a3⟩
  | false =>
    exact forFrom_prompt (fun n s => ⟨[], rfl, trivial, fun _ => trivial⟩) _ _ _

theorem forAll_prompt (hmk : ∀ {u v n u' v' n'}, mk u v n = mk u' v' n' → u = u' ∧ v = v' ∧ n = n') {body : E → PyM S Unit}
    (hb : ∀ e s, body e s = (.ok (), leaf e s)) (s : S) :
    Prompt leaf (fun e s s' => ∀ u v n, e = mk u v n → (lk (adj s') u v).length = (lk (adj s) u v).length)
      (pyFor (fun s => (adj s).keys) (forAdj adj keep mk body)) s :=
  forFrom_prompt (fun u s => forAdj_prompt hmk hb u s) _ _ _

end adj

end Lazy
end PyBGL
