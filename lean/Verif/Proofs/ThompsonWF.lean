import Verif.Model.RegexText
import Verif.Proofs.Thompson

/-!
# What `thompson_compile_nfa` returns is well-formed, whatever the expression
-/

namespace PyBGL
open Nfa

/-- If the computation returns, its result satisfies `P`. -/
def OkSat {α : Type} (P : α → Prop) (x : Except PyErr α) : Prop := ∀ y, x = .ok y → P y

namespace OkSat
variable {α β : Type} {P : α → Prop} {Q : β → Prop}

theorem ok {y : α} (h : P y) : OkSat P (.ok y) := by intro z e; cases e; exact h
theorem error {e : PyErr} : OkSat P (.error e) := by intro z h; cases h

theorem bind {x : Except PyErr α} {f : α → Except PyErr β} (h : OkSat P x) (hf : ∀ y, P y → OkSat Q (f y)) : OkSat Q (x >>= f) := by
  intro z hz
  obtain ⟨y, h1, h2⟩ := except_bind_ok.mp hz
  exact hf y (h y h1) z h2

theorem any {x : Except PyErr α} : OkSat (fun _ => True) x := fun _ _ => trivial

theorem foldlM {γ : Type} {f : β → γ → Except PyErr β} (hf : ∀ b c, Q b → OkSat Q (f b c)) : ∀ (l : List γ) (b : β), Q b → OkSat Q (l.foldlM f b)
  | [], _, hb => ok hb
  | c :: l, b, hb => by rw [List.foldlM_cons]; exact bind (hf b c hb) (fun y hy => foldlM hf l y hy)

end OkSat

namespace Thompson
variable {A : Type} [DecidableEq A]

/-- The automaton of a fragment is well-formed and its ε is `eps`. -/
def FragOk (eps : A) (x : Frag A) : Prop := x.1.WF ∧ x.1.eps = eps

variable {eps : A}

theorem insertVertices_ok (g2 : Nfa A) (l : List Nat) : ∀ (s : Nfa A × Dict Nat Nat), s.1.WF ∧ s.1.eps = eps →
    (l.foldl (insertVertex g2) s).1.WF ∧ (l.foldl (insertVertex g2) s).1.eps = eps := by
  induction l with
  | nil => intro s h; exact h
  | cons q l ih =>
    intro s h
    rw [List.foldl_cons]
    refine ih _ ?_
    unfold insertVertex
    by_cases hc : s.2.contains q = true
    · rw [if_pos hc]; exact h
    · rw [if_neg hc]
      simp only
      by_cases hf : g2.isFinal q = true
      · rw [if_pos hf]; exact ⟨h.1.addVertex.setFinal _ _, h.2⟩
      · rw [if_neg hf]; exact ⟨h.1.addVertex, h.2⟩

theorem insertAutomaton_ok {g1 g2 : Nfa A} (h : g1.WF ∧ g1.eps = eps) : OkSat (fun y : Nfa A × Dict Nat Nat => y.1.WF ∧ y.1.eps = eps) (insertAutomaton g1 g2) := by
  unfold insertAutomaton
  refine OkSat.bind (P := fun g => g.WF ∧ g.eps = eps) ?_ (fun y hy => OkSat.ok hy)
  refine OkSat.foldlM ?_ _ _ (insertVertices_ok g2 _ (g1, []) h)
  intro g e hg
  unfold insertEdge
  exact OkSat.bind OkSat.any fun q1 _ => OkSat.bind OkSat.any fun r1 _ => OkSat.ok ⟨hg.1.addEdge _ _ _, hg.2⟩

theorem concatenation_ok {x1 x2 : Frag A} (h : FragOk eps x1) : OkSat (FragOk eps) (concatenation x1 x2) := by
  obtain ⟨g1, q1, f1⟩ := x1
  obtain ⟨g2, q2, f2⟩ := x2
  unfold concatenation
  refine OkSat.bind (insertAutomaton_ok h) fun y hy => ?_
  refine OkSat.bind OkSat.any fun r _ => OkSat.bind OkSat.any fun f _ => OkSat.ok ⟨?_, hy.2⟩
  exact ((hy.1.addEdge _ _ _).setInitials _).setFinal _ _

theorem alternation_ok {x1 x2 : Frag A} (h : FragOk eps x1) : OkSat (FragOk eps) (alternation x1 x2) := by
  obtain ⟨g1, q1, f1⟩ := x1
  obtain ⟨g2, q2, f2⟩ := x2
  unfold alternation
  refine OkSat.bind (insertAutomaton_ok h) fun y hy => ?_
  refine OkSat.bind OkSat.any fun r _ => OkSat.bind OkSat.any fun f _ => OkSat.ok ⟨?_, hy.2⟩
  exact ((((((((hy.1.addVertex).addEdge _ _ _).addEdge _ _ _).setInitials _).addVertex).addEdge _ _ _).addEdge _ _ _).setFinal _ _ |>.setFinal _ _ |>.setFinal _ _)

theorem zeroOrOne_ok {x : Frag A} (h : FragOk eps x) : FragOk eps (zeroOrOne x) := ⟨h.1.addEdge _ _ _, h.2⟩

theorem zeroOrMore_ok {x : Frag A} (h : FragOk eps x) : FragOk eps (zeroOrMore x) :=
  ⟨((((((h.1.addVertex).addVertex).addEdge _ _ _).addEdge _ _ _).addEdge _ _ _).addEdge _ _ _).setInitials _ |>.setFinal _ _ |>.setFinal _ _, h.2⟩

theorem oneOrMore_ok {x : Frag A} (h : FragOk eps x) : FragOk eps (oneOrMore x) :=
  ⟨(((((h.1.addVertex).addVertex).addEdge _ _ _).addEdge _ _ _).addEdge _ _ _).setInitials _ |>.setFinal _ _ |>.setFinal _ _, h.2⟩

theorem one_ok : FragOk eps ((Nfa.init eps [] 1).setFinal 0, 0, 0) := ⟨(WF_init eps [] 1).setFinal _ _, rfl⟩

theorem repetitionLoop_ok {x0 : Frag A} : ∀ (k : Nat) {x : Frag A}, FragOk eps x → OkSat (FragOk eps) (repetitionLoop x0 k x)
  | 0, _, h => OkSat.ok h
  | k + 1, (g, q, f), h => OkSat.bind (concatenation_ok (x1 := (g.setFinal f false, q, f)) ⟨h.1.setFinal _ _, h.2⟩) fun _ hy => repetitionLoop_ok k hy

theorem repetition_ok {x : Frag A} (h : FragOk eps x) (m : Nat) : OkSat (FragOk eps) (repetition eps x m) := by
  unfold repetition
  by_cases h0 : m = 0
  · rw [if_pos h0]; exact OkSat.ok one_ok
  · rw [if_neg h0]
    by_cases h1 : m > 1
    · rw [if_pos h1]; exact repetitionLoop_ok _ h
    · rw [if_neg h1]; exact OkSat.ok h

theorem rangeLoop_ok {x0 : Frag A} : ∀ (k : Nat) {x : Frag A} (fs : List Nat), FragOk eps x → OkSat (fun y : Frag A × List Nat => FragOk eps y.1) (rangeLoop x0 k x fs)
  | 0, _, _, h => OkSat.ok h
  | k + 1, _, _, h => OkSat.bind (concatenation_ok h) fun _ hy => rangeLoop_ok k _ hy

theorem rangeFinals_ok (f : Nat) (fs : List Nat) : ∀ {g : Nfa A}, g.WF ∧ g.eps = eps → (rangeFinals g f fs).WF ∧ (rangeFinals g f fs).eps = eps := by
  induction fs with
  | nil => intro g h; exact h
  | cons p fs ih =>
    intro g h
    unfold rangeFinals at ih ⊢
    rw [List.foldl_cons]
    apply ih
    by_cases hp : p ≠ f
    · rw [if_pos hp]; exact ⟨h.1.addEdge _ _ _, h.2⟩
    · rw [if_neg hp]; exact h

theorem repetitionRange_ok {x : Frag A} (h : FragOk eps x) (m : Nat) (n : Option Nat) : OkSat (FragOk eps) (repetitionRange eps x m n) := by
  cases n with
  | none =>
    simp only [repetitionRange]
    by_cases h0 : m = 0
    · rw [if_pos h0]; exact OkSat.ok (zeroOrMore_ok h)
    · rw [if_neg h0]
      by_cases h1 : m = 1
      · rw [if_pos h1]; exact OkSat.ok (oneOrMore_ok h)
      · rw [if_neg h1]; exact OkSat.bind (repetition_ok h _) fun _ hy => concatenation_ok hy
  | some n =>
    simp only [repetitionRange]
    by_cases h0 : n < m
    · rw [if_pos h0]; exact OkSat.error
    · rw [if_neg h0]
      by_cases h1 : m = 0 ∧ n = 1
      · rw [if_pos h1]; exact OkSat.ok (zeroOrOne_ok h)
      · rw [if_neg h1]
        refine OkSat.bind (repetition_ok h m) ?_
        rintro ⟨g, q, f⟩ hy
        refine OkSat.bind (rangeLoop_ok (x := (g, x.2.1, f)) _ _ hy) ?_
        rintro ⟨⟨g', q', f'⟩, fs⟩ hz
        exact OkSat.ok (rangeFinals_ok f' fs hz)

theorem bracket_ok (cs : List A) : FragOk eps (bracket eps cs) := by
  unfold bracket
  have : ∀ (cs : List A) (g : Nfa A), g.WF ∧ g.eps = eps →
      (cs.foldl (fun g a => (g.addEdge 0 1 a).2) g).WF ∧ (cs.foldl (fun g a => (g.addEdge 0 1 a).2) g).eps = eps := by
    intro cs
    induction cs with
    | nil => intro g h; exact h
    | cons a cs ih => intro g h; exact ih _ ⟨h.1.addEdge _ _ _, h.2⟩
  exact this cs _ ⟨(WF_init eps [] 2).setFinal _ _, rfl⟩

theorem onPushOutput_ok {st : List (Frag A)} (h : ∀ x ∈ st, FragOk eps x) (t : Tok A) : OkSat (fun st' => ∀ x ∈ st', FragOk eps x) (onPushOutput eps st t) := by
  have push : ∀ {x : Frag A} {st' : List (Frag A)}, FragOk eps x → (∀ y ∈ st', FragOk eps y) → ∀ y ∈ x :: st', FragOk eps y := by
    intro x st' hx hs y hy
    rcases List.mem_cons.mp hy with rfl | hy
    · exact hx
    · exact hs y hy
  cases t with
  | lit a =>
    refine OkSat.ok (push ?_ h)
    rw [literal_eq]; exact bracket_ok _
  | chars cs => exact OkSat.ok (push (bracket_ok _) h)
  | opt =>
    cases st with
    | nil => exact OkSat.error
    | cons x st => exact OkSat.ok (push (zeroOrOne_ok (h x (by simp))) (fun y hy => h y (by simp [hy])))
  | star =>
    cases st with
    | nil => exact OkSat.error
    | cons x st => exact OkSat.ok (push (zeroOrMore_ok (h x (by simp))) (fun y hy => h y (by simp [hy])))
  | plus =>
    cases st with
    | nil => exact OkSat.error
    | cons x st => exact OkSat.ok (push (oneOrMore_ok (h x (by simp))) (fun y hy => h y (by simp [hy])))
  | rep m n =>
    cases st with
    | nil => exact OkSat.error
    | cons x st =>
      exact OkSat.bind (repetitionRange_ok (h x (by simp)) m n) fun z hz => OkSat.ok (push hz (fun y hy => h y (by simp [hy])))
  | cat =>
    match st, h with
    | [], _ => exact OkSat.error
    | [_], _ => exact OkSat.error
    | x2 :: x1 :: st, h =>
      exact OkSat.bind (concatenation_ok (h x1 (by simp))) fun z hz => OkSat.ok (push hz (fun y hy => h y (by simp [hy])))
  | alt =>
    match st, h with
    | [], _ => exact OkSat.error
    | [_], _ => exact OkSat.error
    | x2 :: x1 :: st, h =>
      exact OkSat.bind (alternation_ok (h x1 (by simp))) fun z hz => OkSat.ok (push hz (fun y hy => h y (by simp [hy])))

end Thompson

namespace ShuntingYard
variable {T O : Type} [DecidableEq T] {P : OpTable T} {sink : O → T → Except PyErr O} {Q : O → Prop}

/-- What each push to the output preserves, the whole reading preserves. -/
theorem run_ok (hs : ∀ o t, Q o → OkSat Q (sink o t)) (ts : List T) {o : O} (ho : Q o) : OkSat Q (run P sink ts o) := by
  have hclose : ∀ (ops : List T) (o : O), Q o → OkSat (fun s : List T × O => Q s.2) (closeParen P sink ops o) := by
    intro ops
    induction ops with
    | nil => intro o _; exact OkSat.error
    | cons x ops ih =>
      intro o ho
      unfold closeParen
      by_cases hx : x = P.lpar
      · rw [if_pos hx]; exact OkSat.ok ho
      · rw [if_neg hx]; exact OkSat.bind (hs o x ho) fun y hy => ih y hy
  have hpop : ∀ (a : T) (ops : List T) (o : O), Q o → OkSat (fun s : List T × O => Q s.2) (popPreceding P sink a ops o) := by
    intro a ops
    induction ops with
    | nil => intro o ho; exact OkSat.ok ho
    | cons x ops ih =>
      intro o ho
      unfold popPreceding
      by_cases hx : preceeds P x a = true
      · rw [if_pos hx]; exact OkSat.bind (hs o x ho) fun y hy => ih y hy
      · rw [if_neg hx]; exact OkSat.ok ho
  unfold run
  refine OkSat.bind (P := fun s : List T × O => Q s.2) (OkSat.foldlM ?_ ts ([], o) ho) fun s hs' => OkSat.foldlM (fun b c hb => hs b c hb) _ _ hs'
  rintro ⟨ops, o⟩ a ho
  unfold step
  by_cases h1 : a = P.lpar
  · rw [if_pos h1]; exact OkSat.ok ho
  · rw [if_neg h1]
    by_cases h2 : a = P.rpar
    · rw [if_pos h2]; exact hclose _ _ ho
    · rw [if_neg h2]
      by_cases h3 : P.ops.contains a = true
      · rw [if_pos h3]; exact OkSat.bind (hpop a ops o ho) fun y hy => OkSat.ok hy
      · rw [if_neg h3]; exact OkSat.bind (hs o a ho) fun y hy => OkSat.ok hy

end ShuntingYard

namespace RegexText
open Thompson

theorem onPushText_ok {C : ReClasses} {order : List Char → List Char} {wa : List Char} {st : List (Frag Char)} (h : ∀ x ∈ st, FragOk 'ε' x) (a : List Char) :
    OkSat (fun st' => ∀ x ∈ st', FragOk 'ε' x) (onPushText C order wa st a) := by
  unfold onPushText
  by_cases h1 : a = ['.']
  · rw [if_pos h1]; exact onPushOutput_ok h _
  rw [if_neg h1]
  by_cases h1 : a = ['|']
  · rw [if_pos h1]; exact onPushOutput_ok h _
  rw [if_neg h1]
  by_cases h1 : a = ['?']
  · rw [if_pos h1]; exact onPushOutput_ok h _
  rw [if_neg h1]
  by_cases h1 : a = ['*']
  · rw [if_pos h1]; exact onPushOutput_ok h _
  rw [if_neg h1]
  by_cases h1 : a = ['+']
  · rw [if_pos h1]; exact onPushOutput_ok h _
  rw [if_neg h1]
  cases a with
  | nil => exact OkSat.error
  | cons c a =>
    simp only
    by_cases h2 : c = '{'
    · rw [if_pos h2]
      cases st with
      | nil => exact OkSat.error
      | cons x st => exact OkSat.bind OkSat.any fun y _ => onPushOutput_ok h _
    rw [if_neg h2]
    by_cases h2 : c = '['
    · rw [if_pos h2]; exact OkSat.bind OkSat.any fun y _ => onPushOutput_ok h _
    rw [if_neg h2]
    by_cases h2 : c = '\\'
    · rw [if_pos h2]; exact OkSat.bind OkSat.any fun y _ => onPushOutput_ok h _
    rw [if_neg h2]
    exact onPushOutput_ok h _

/-- Whatever the expression, the NFA returned is well-formed and its ε is the default one. -/
theorem compileText_ok (C : ReClasses) (order : List Char → List Char) (wa s : List Char) : OkSat (FragOk 'ε') (compileText C order wa s) := by
  unfold compileText
  by_cases h : s.isEmpty = true
  · rw [if_pos h]; exact OkSat.ok one_ok
  · rw [if_neg h]
    refine OkSat.bind (P := fun st : List (Frag Char) => ∀ x ∈ st, FragOk 'ε' x) (ShuntingYard.run_ok (fun o t ho => onPushText_ok ho t) _ (by simp)) ?_
    intro st hst
    match st, hst with
    | [], _ => exact OkSat.error
    | [x], hst => exact OkSat.ok (hst x (by simp))
    | _ :: _ :: _, _ => exact OkSat.error

end RegexText
end PyBGL
