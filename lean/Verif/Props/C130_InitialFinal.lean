import Verif.Proofs.Clear
import Verif.Props.C25_C28_Nfa

/-!
# C130: initial and final states after a history of calls
-/

namespace PyBGL

/-! ## Specification -/

/-- `q` was made initial by the last call `set_initial(p)` of the history, or is 0 if there is none, and no later call `set_initial(q, False)` has withdrawn it. -/
def InitialBy {Op : Type} (setInitial : Nat → Bool → Op) (ops : List Op) (q : Nat) : Prop :=
  (∃ pre post, ops = pre ++ setInitial q true :: post ∧ (∀ p, setInitial p true ∉ post) ∧ setInitial q false ∉ post) ∨
  (q = 0 ∧ (∀ p, setInitial p true ∉ ops) ∧ setInitial 0 false ∉ ops)

/-- `q` was made final by a call `set_final(q)`, and no later call `set_final(q, False)` has withdrawn it. -/
def FinalBy {Op : Type} (setFinal : Nat → Bool → Op) (ops : List Op) (q : Nat) : Prop :=
  ∃ pre post, ops = pre ++ setFinal q true :: post ∧ setFinal q false ∉ post

/-- `q` was made initial by `set_initial(q)`, by `set_initials` on a set that contains `q` or by the constructor, and neither `set_initial(q, False)` nor
`set_initials` on a set without `q` has withdrawn it. -/
def NfaInitialBy {A : Type} (initials : List Nat) (ops : List (NfaOp A)) (q : Nat) : Prop :=
  (∃ pre op post, ops = pre ++ op :: post ∧ (op = .setInitial q true ∨ ∃ qs, op = .setInitials qs ∧ q ∈ qs) ∧
    .setInitial q false ∉ post ∧ ∀ qs, q ∉ qs → .setInitials qs ∉ post) ∨
  (q ∈ initials ∧ .setInitial q false ∉ ops ∧ ∀ qs, q ∉ qs → .setInitials qs ∉ ops)

/-! ## Histories -/

theorem runs_snoc {Op S : Type} {exec : S → Op → Except PyErr S} {s₀ s : S} {ops : List Op} {op : Op} (h : Runs exec s₀ (ops ++ [op]) s) :
    ∃ s', Runs exec s₀ ops s' ∧ exec s' op = .ok s := by
  unfold Runs at h ⊢
  rw [List.foldlM_append] at h
  cases h1 : ops.foldlM exec s₀ with
  | error e => rw [h1] at h; cases h
  | ok s' =>
    rw [h1] at h
    refine ⟨s', rfl, ?_⟩
    cases h2 : exec s' op with
    | error e =>
      have h' : (exec s' op >>= fun s => pure s) = .ok s := h
      rw [h2] at h'; cases h'
    | ok t =>
      have h' : (exec s' op >>= fun s => pure s) = .ok s := h
      rw [h2] at h'
      exact h'

theorem append_cons_eq_snoc {α : Type} {l pre post : List α} {x y : α} (h : l ++ [y] = pre ++ x :: post) :
    (post = [] ∧ x = y ∧ pre = l) ∨ ∃ post', post = post' ++ [y] ∧ l = pre ++ x :: post' := by
  rcases List.eq_nil_or_concat post with rfl | ⟨post', z, rfl⟩
  · left
    have := List.append_inj' h rfl
    exact ⟨rfl, by simpa using this.2.symm, this.1.symm⟩
  · right
    rw [List.concat_eq_append, ← List.cons_append, ← List.append_assoc] at h
    have := List.append_inj' h rfl
    have hz : y = z := by simpa using this.2
    subst hz
    exact ⟨post', by simp, this.1⟩

section
variable {Op : Type} {setI : Nat → Bool → Op}

theorem initialBy_true (hinj : ∀ p b p' b', setI p b = setI p' b' → p = p' ∧ b = b') (ops : List Op) (p q : Nat) :
    InitialBy setI (ops ++ [setI p true]) q ↔ q = p := by
  constructor
  · rintro (⟨pre, post, h, h1, h2⟩ | ⟨rfl, h1, h2⟩)
    · rcases append_cons_eq_snoc h with ⟨rfl, hx, _⟩ | ⟨post', rfl, _⟩
      · exact (hinj _ _ _ _ hx).1
      · exact absurd (by simp) (h1 p)
    · exact absurd (by simp) (h1 p)
  · rintro rfl
    exact .inl ⟨ops, [], rfl, by simp, by simp⟩

theorem initialBy_false (hinj : ∀ p b p' b', setI p b = setI p' b' → p = p' ∧ b = b') (ops : List Op) (p q : Nat) :
    InitialBy setI (ops ++ [setI p false]) q ↔ InitialBy setI ops q ∧ q ≠ p := by
  have hne : ∀ p', setI p' true ≠ setI p false := fun p' h => by have := (hinj _ _ _ _ h).2; cases this
  constructor
  · rintro (⟨pre, post, h, h1, h2⟩ | ⟨rfl, h1, h2⟩)
    · rcases append_cons_eq_snoc h with ⟨rfl, hx, _⟩ | ⟨post', rfl, rfl⟩
      · exact absurd hx (hne q)
      · refine ⟨.inl ⟨pre, post', rfl, fun p' hp => h1 p' (by simp [hp]), fun hp => h2 (by simp [hp])⟩, ?_⟩
        rintro rfl; exact h2 (by simp)
    · refine ⟨.inr ⟨rfl, fun p' hp => h1 p' (by simp [hp]), fun hp => h2 (by simp [hp])⟩, ?_⟩
      rintro rfl; exact h2 (by simp)
  · rintro ⟨⟨pre, post, rfl, h1, h2⟩ | ⟨rfl, h1, h2⟩, hq⟩
    · refine .inl ⟨pre, post ++ [setI p false], by simp, ?_, ?_⟩
      · intro p' hp
        rcases List.mem_append.mp hp with hp | hp
        · exact h1 p' hp
        · exact hne p' (List.mem_singleton.mp hp)
      · intro hp
        rcases List.mem_append.mp hp with hp | hp
        · exact h2 hp
        · exact hq (hinj _ _ _ _ (List.mem_singleton.mp hp)).1
    · refine .inr ⟨rfl, ?_, ?_⟩
      · intro p' hp
        rcases List.mem_append.mp hp with hp | hp
        · exact h1 p' hp
        · exact hne p' (List.mem_singleton.mp hp)
      · intro hp
        rcases List.mem_append.mp hp with hp | hp
        · exact h2 hp
        · exact hq (hinj _ _ _ _ (List.mem_singleton.mp hp)).1

theorem initialBy_other {op : Op} (hop : ∀ p b, op ≠ setI p b) (ops : List Op) (q : Nat) : InitialBy setI (ops ++ [op]) q ↔ InitialBy setI ops q := by
  have hmem : ∀ (l : List Op) p b, setI p b ∈ l ++ [op] ↔ setI p b ∈ l := by
    intro l p b
    rw [List.mem_append, List.mem_singleton]
    exact or_iff_left fun h => hop p b h.symm
  constructor
  · rintro (⟨pre, post, h, h1, h2⟩ | ⟨rfl, h1, h2⟩)
    · rcases append_cons_eq_snoc h with ⟨_, hx, _⟩ | ⟨post', rfl, rfl⟩
      · exact absurd hx.symm (hop _ _)
      · exact .inl ⟨pre, post', rfl, fun p hp => h1 p ((hmem _ _ _).mpr hp), fun hp => h2 ((hmem _ _ _).mpr hp)⟩
    · exact .inr ⟨rfl, fun p hp => h1 p ((hmem _ _ _).mpr hp), fun hp => h2 ((hmem _ _ _).mpr hp)⟩
  · rintro (⟨pre, post, rfl, h1, h2⟩ | ⟨rfl, h1, h2⟩)
    · exact .inl ⟨pre, post ++ [op], by simp, fun p hp => h1 p ((hmem _ _ _).mp hp), fun hp => h2 ((hmem _ _ _).mp hp)⟩
    · exact .inr ⟨rfl, fun p hp => h1 p ((hmem _ _ _).mp hp), fun hp => h2 ((hmem _ _ _).mp hp)⟩

theorem finalBy_snoc (hinj : ∀ p b p' b', setI p b = setI p' b' → p = p' ∧ b = b') (ops : List Op) (p : Nat) (b : Bool) (q : Nat) :
    FinalBy setI (ops ++ [setI p b]) q ↔ if q = p then b = true else FinalBy setI ops q := by
  constructor
  · rintro ⟨pre, post, h, h1⟩
    rcases append_cons_eq_snoc h with ⟨rfl, hx, _⟩ | ⟨post', rfl, rfl⟩
    · obtain ⟨rfl, rfl⟩ := hinj _ _ _ _ hx
      simp
    · split
      · rename_i hq
        subst hq
        cases b with
        | true => rfl
        | false => exact absurd (by simp) h1
      · exact ⟨pre, post', rfl, fun hp => h1 (by simp [hp])⟩
  · intro h
    by_cases hq : q = p
    · rw [if_pos hq] at h
      subst hq; subst h
      exact ⟨ops, [], rfl, by simp⟩
    · rw [if_neg hq] at h
      obtain ⟨pre, post, rfl, h1⟩ := h
      refine ⟨pre, post ++ [setI p b], by simp, fun hp => ?_⟩
      rcases List.mem_append.mp hp with hp | hp
      · exact h1 hp
      · exact hq (hinj _ _ _ _ (List.mem_singleton.mp hp)).1

theorem finalBy_other {op : Op} (hop : ∀ p b, op ≠ setI p b) (ops : List Op) (q : Nat) : FinalBy setI (ops ++ [op]) q ↔ FinalBy setI ops q := by
  constructor
  · rintro ⟨pre, post, h, h1⟩
    rcases append_cons_eq_snoc h with ⟨_, hx, _⟩ | ⟨post', rfl, rfl⟩
    · exact absurd hx.symm (hop _ _)
    · exact ⟨pre, post', rfl, fun hp => h1 (by simp [hp])⟩
  · rintro ⟨pre, post, rfl, h1⟩
    refine ⟨pre, post ++ [op], by simp, fun hp => ?_⟩
    rcases List.mem_append.mp hp with hp | hp
    · exact h1 hp
    · exact hop _ _ (List.mem_singleton.mp hp).symm

/-- What the calls do to the initial state. -/
theorem initial_of_runs {S : Type} {exec : S → Op → Except PyErr S} {s₀ s : S} {ops : List Op} (ini : S → Option Nat)
    (hinj : ∀ p b p' b', setI p b = setI p' b' → p = p' ∧ b = b') (h0 : ini s₀ = some 0)
    (h1 : ∀ s s' p b, exec s (setI p b) = .ok s' → ini s' = if b then some p else if ini s = some p then none else ini s)
    (h2 : ∀ s s' op, (∀ p b, op ≠ setI p b) → exec s op = .ok s' → ini s' = ini s) (h : Runs exec s₀ ops s) (q : Nat) :
    ini s = some q ↔ InitialBy setI ops q := by
  induction ops using List.reverseRecOn generalizing s with
  | nil =>
    cases h
    rw [h0]
    constructor
    · intro h; cases h; exact .inr ⟨rfl, by simp, by simp⟩
    · rintro (⟨pre, post, h, _⟩ | ⟨rfl, _⟩)
      · simp at h
      · rfl
  | append_singleton ops op ih =>
    obtain ⟨s', hs', he⟩ := runs_snoc h
    by_cases hop : ∃ p b, op = setI p b
    · obtain ⟨p, b, rfl⟩ := hop
      rw [h1 _ _ _ _ he]
      cases b with
      | true =>
        rw [initialBy_true hinj, if_pos rfl]
        exact ⟨fun h => by cases h; rfl, fun h => by rw [h]⟩
      | false =>
        rw [initialBy_false hinj, ← ih hs', if_neg (by simp)]
        by_cases hp : ini s' = some p
        · rw [if_pos hp, hp]
          constructor
          · intro h; cases h
          · rintro ⟨h, hne⟩; cases h; exact absurd rfl hne
        · rw [if_neg hp]
          exact ⟨fun h => ⟨h, fun e => hp (e ▸ h)⟩, fun h => h.1⟩
    · have hop' : ∀ p b, op ≠ setI p b := fun p b e => hop ⟨p, b, e⟩
      rw [h2 _ _ _ hop' he, initialBy_other hop', ih hs']

/-- What the calls do to the final states. -/
theorem final_of_runs {S : Type} {exec : S → Op → Except PyErr S} {s₀ s : S} {ops : List Op} (fin : S → Nat → Bool)
    (hinj : ∀ p b p' b', setI p b = setI p' b' → p = p' ∧ b = b') (h0 : ∀ q, fin s₀ q = false)
    (h1 : ∀ s s' p b, exec s (setI p b) = .ok s' → ∀ q, fin s' q = if q = p then b else fin s q)
    (h2 : ∀ s s' op, (∀ p b, op ≠ setI p b) → exec s op = .ok s' → ∀ q, fin s' q = fin s q) (h : Runs exec s₀ ops s) (q : Nat) :
    fin s q = true ↔ FinalBy setI ops q := by
  induction ops using List.reverseRecOn generalizing s with
  | nil =>
    cases h
    rw [h0]
    constructor
    · intro h; cases h
    · rintro ⟨pre, post, h, _⟩; simp at h
  | append_singleton ops op ih =>
    obtain ⟨s', hs', he⟩ := runs_snoc h
    by_cases hop : ∃ p b, op = setI p b
    · obtain ⟨p, b, rfl⟩ := hop
      rw [h1 _ _ _ _ he, finalBy_snoc hinj]
      split
      · rfl
      · exact ih hs'
    · have hop' : ∀ p b, op ≠ setI p b := fun p b e => hop ⟨p, b, e⟩
      rw [h2 _ _ _ hop' he, finalBy_other hop', ih hs']

end

/-! ## The calls that leave the initial and final states unchanged -/

theorem foldl_frame {S X β : Type} {f : S → X → S} {v : S → β} (h : ∀ s x, v (f s x) = v s) : ∀ (l : List X) (s : S), v (l.foldl f s) = v s
  | [], _ => rfl
  | x :: l, s => (foldl_frame h l (f s x)).trans (h s x)

theorem foldlM_frame {S X β : Type} {f : S → X → Except PyErr S} {v : S → β} (h : ∀ s x s', f s x = .ok s' → v s' = v s) :
    ∀ (l : List X) (s s' : S), l.foldlM f s = .ok s' → v s' = v s
  | [], _, _, h' => by cases h'; rfl
  | x :: l, s, s', h' => by
    rw [List.foldlM_cons] at h'
    obtain ⟨t, h1, h2⟩ := except_bind_ok.mp h'
    exact (foldlM_frame h l t s' h2).trans (h s x t h1)

variable {A : Type} [DecidableEq A]

/-- The initial state and the map of final states. -/
def Automaton.ends (g : Automaton A) : Option Nat × Dict Nat Bool := (g.q0, g.final)

/-- The initial states and the map of final states. -/
def Nfa.ends (g : Nfa A) : List Nat × Dict Nat Bool := (g.initials, g.final)

theorem Automaton.ends_addEdge {g g' : Automaton A} {q r : Nat} {a : A} (h : (g.addEdge q r a).map (·.2.2) = .ok g') : g'.ends = g.ends := by
  unfold addEdge at h
  split at h
  · cases h; rfl
  · cases hq : g.adj.getE q with
    | error e => rw [hq] at h; cases h
    | ok d => rw [hq] at h; cases h; rfl

theorem Automaton.ends_removeEdge (g : Automaton A) (e : EdgeDesc A) : (g.removeEdge e).ends = g.ends := by
  unfold removeEdge
  split
  · rfl
  · split <;> rfl

theorem Automaton.ends_removeVertex {g g' : Automaton A} {u : Nat} (h : g.removeVertex u = .ok g') : g'.ends = g.ends := by
  unfold removeVertex at h
  simp only at h
  obtain ⟨adj, _, h2⟩ := except_bind_ok.mp h
  cases h2
  have key : ∀ l₁ l₂, (List.foldl removeEdge (List.foldl removeEdge g l₁) l₂).ends = g.ends := fun l₁ l₂ =>
    (foldl_frame (v := ends) ends_removeEdge l₂ _).trans (foldl_frame (v := ends) ends_removeEdge l₁ g)
  exact Prod.ext (congrArg Prod.fst (key _ _)) (congrArg Prod.snd (key _ _))

theorem Automaton.ends_clear {g g' : Automaton A} (h : g.clear = .ok g') : g'.ends = g.ends :=
  foldlM_frame (v := ends) (f := removeVertex) (fun _ _ _ h => ends_removeVertex h) g.vertices { g with lastVertexId := 0 } g' h

theorem Automaton.ends_exec {g g' : Automaton A} {op : AOp A} (h1 : ∀ p b, op ≠ .setInitial p b) (h2 : ∀ p b, op ≠ .setFinal p b) (h : g.exec op = .ok g') :
    g'.ends = g.ends := by
  cases op with
  | addVertex => cases h; rfl
  | addEdge q r a => exact ends_addEdge h
  | removeEdge e => cases h; exact ends_removeEdge g e
  | removeVertex q => exact ends_removeVertex h
  | setInitial q b => exact absurd rfl (h1 q b)
  | setFinal q b => exact absurd rfl (h2 q b)
  | clear => exact ends_clear h

theorem IAutomaton.ends_removeVertex {g g' : IAutomaton A} {u : Nat} (h : g.removeVertex u = .ok g') : g'.a.ends = g.a.ends := by
  unfold removeVertex at h
  have tail : ∀ (adj : Dict Nat (Dict A Nat)) (inAdj : Dict Nat (Dict Nat (List A))),
      (if adj.contains u = true then do
        let inAdj ← ({ g.a with adj }.outEdges u).foldlM (dropIn u) inAdj
        let adj ← adj.delE u
        (.ok ⟨{ g.a with adj }, inAdj⟩ : Except PyErr (IAutomaton A))
      else .ok ⟨{ g.a with adj }, inAdj⟩) = .ok g' → g'.a.ends = g.a.ends := by
    intro adj inAdj h2
    by_cases hc : adj.contains u = true
    · rw [if_pos hc] at h2
      obtain ⟨x, _, h3⟩ := except_bind_ok.mp h2
      obtain ⟨y, _, h4⟩ := except_bind_ok.mp h3
      cases h4; rfl
    · rw [if_neg hc] at h2
      cases h2; rfl
  by_cases hi : g.inAdj.contains u = true
  · rw [if_pos hi] at h
    obtain ⟨x, _, h2⟩ := except_bind_ok.mp h
    obtain ⟨y, _, h3⟩ := except_bind_ok.mp h2
    exact tail _ _ h3
  · rw [if_neg hi] at h
    exact tail _ _ h

theorem IAutomaton.ends_exec {g g' : IAutomaton A} {op : AOp A} (h1 : ∀ p b, op ≠ .setInitial p b) (h2 : ∀ p b, op ≠ .setFinal p b) (h : g.exec op = .ok g') :
    g'.a.ends = g.a.ends := by
  cases op with
  | addVertex => cases h; rfl
  | addEdge q r a =>
    have h' : (g.addEdge q r a).map (·.2.2) = .ok g' := h
    unfold addEdge at h'
    cases ha : g.a.addEdge q r a with
    | error e => rw [ha] at h'; cases h'
    | ok x =>
      obtain ⟨e, b, a'⟩ := x
      have hends : a'.ends = g.a.ends := Automaton.ends_addEdge (q := q) (r := r) (a := a) (by rw [ha]; rfl)
      rw [ha] at h'
      cases b with
      | false => cases h'; exact hends
      | true =>
        cases hr : g.inAdj.getE r with
        | error e => simp only [bind, Except.bind, hr] at h'; cases h'
        | ok d =>
          simp only [bind, Except.bind, hr] at h'
          cases hq : d.get? q with
          | none => simp only [hq] at h'; cases h'; exact hends
          | some s => simp only [hq] at h'; cases h'; exact hends
  | removeEdge e =>
    have h' : g.removeEdge e = .ok g' := h
    unfold removeEdge at h'
    simp only at h'
    obtain ⟨d, _, h3⟩ := except_bind_ok.mp h'
    obtain ⟨s, _, h4⟩ := except_bind_ok.mp h3
    have hr := Automaton.ends_removeEdge g.a e
    by_cases hc : e.distinguisher ∈ s
    · rw [if_pos hc] at h4
      by_cases hs : setDiscard s e.distinguisher = []
      · rw [if_pos hs] at h4; cases h4; exact hr
      · rw [if_neg hs] at h4; cases h4; exact hr
    · rw [if_neg hc] at h4; cases h4; exact hr
  | removeVertex q => exact ends_removeVertex h
  | setInitial q b => exact absurd rfl (h1 q b)
  | setFinal q b => exact absurd rfl (h2 q b)
  | clear => exact foldlM_frame (v := fun g : IAutomaton A => g.a.ends) (f := removeVertex) (fun _ _ _ h => ends_removeVertex h) g.a.vertices ⟨{ g.a with lastVertexId := 0 }, g.inAdj⟩ g' h

theorem NodeAutomaton.ends_addEdge {g g' : NodeAutomaton A} {q r : Nat} (h : (g.addEdge q r).map (·.2.2) = .ok g') : g'.a.ends = g.a.ends := by
  unfold addEdge at h
  cases hq : g.a.adj.getE q with
  | error e => simp only [hq] at h; cases h
  | ok d =>
    simp only [hq, bind, Except.bind] at h
    by_cases hc : d.contains (g.symbol r) = true
    · rw [if_pos hc] at h; cases h; rfl
    · rw [if_neg hc] at h; cases h; rfl

theorem NodeAutomaton.ends_removeEdge (g : NodeAutomaton A) (e : EdgeDesc (Option A)) : (g.removeEdge e).a.ends = g.a.ends := by
  unfold removeEdge
  simp only
  split
  · rfl
  · split <;> rfl

theorem NodeAutomaton.ends_exec {g g' : NodeAutomaton A} {op : NOp A} (h1 : ∀ p b, op ≠ .setInitial p b) (h2 : ∀ p b, op ≠ .setFinal p b) (h : g.exec op = .ok g') :
    g'.a.ends = g.a.ends := by
  cases op with
  | addVertex a => cases h; cases a <;> rfl
  | addEdge q r => exact ends_addEdge h
  | removeEdge e => cases h; exact ends_removeEdge g e
  | removeVertex q =>
    have h' : g.removeVertex q = .ok g' := h
    unfold removeVertex at h'
    simp only at h'
    obtain ⟨es, _, h3⟩ := except_bind_ok.mp h'
    obtain ⟨adj, _, h4⟩ := except_bind_ok.mp h3
    cases h4
    have key : ∀ l₁ l₂, (List.foldl removeEdge (List.foldl removeEdge g l₁) l₂).a.ends = g.a.ends := fun l₁ l₂ =>
      (foldl_frame (v := fun g : NodeAutomaton A => g.a.ends) ends_removeEdge l₂ _).trans
        (foldl_frame (v := fun g : NodeAutomaton A => g.a.ends) ends_removeEdge l₁ g)
    exact Prod.ext (congrArg Prod.fst (key _ _)) (congrArg Prod.snd (key _ _))
  | setInitial q b => exact absurd rfl (h1 q b)
  | setFinal q b => exact absurd rfl (h2 q b)

theorem INodeAutomaton.ends_exec {g g' : INodeAutomaton A} {op : NOp A} (h1 : ∀ p b, op ≠ .setInitial p b) (h2 : ∀ p b, op ≠ .setFinal p b) (h : g.exec op = .ok g') :
    g'.n.a.ends = g.n.a.ends := by
  cases op with
  | addVertex a => cases h; cases a <;> rfl
  | addEdge q r =>
    have h' : (g.addEdge q r).map (·.2.2) = .ok g' := h
    unfold addEdge at h'
    cases ha : g.n.addEdge q r with
    | error e => rw [ha] at h'; cases h'
    | ok x =>
      obtain ⟨e, b, n⟩ := x
      have hends : n.a.ends = g.n.a.ends := NodeAutomaton.ends_addEdge (q := q) (r := r) (by rw [ha]; rfl)
      rw [ha] at h'
      cases b <;> cases h' <;> exact hends
  | removeEdge e =>
    have h' : g.removeEdge e = .ok g' := h
    unfold removeEdge at h'
    simp only at h'
    obtain ⟨s, _, h3⟩ := except_bind_ok.mp h'
    cases h3
    exact NodeAutomaton.ends_removeEdge g.n e
  | removeVertex q =>
    obtain ⟨e1, e2⟩ := removeVertex_q0 (show g.removeVertex q = .ok g' from h)
    unfold Automaton.ends
    rw [e1, e2]
  | setInitial q b => exact absurd rfl (h1 q b)
  | setFinal q b => exact absurd rfl (h2 q b)

theorem Nfa.ends_removeEdge {N : Type} (g : Nfa A) (e : EdgeDesc (A × N)) : (g.removeEdge e).ends = g.ends := by
  unfold removeEdge
  split
  · rfl
  · split
    · rfl
    · split <;> rfl

theorem Nfa.ends_removeVertex {g g' : Nfa A} {u : Nat} (h : g.removeVertex u = .ok g') : g'.ends = g.ends := by
  unfold removeVertex at h
  simp only at h
  obtain ⟨adj, _, h2⟩ := except_bind_ok.mp h
  cases h2
  have key : ∀ l₁ l₂ : List (EdgeDesc (A × List Nat)), (List.foldl removeEdge (List.foldl removeEdge g l₁) l₂).ends = g.ends := fun l₁ l₂ =>
    (foldl_frame (v := ends) ends_removeEdge l₂ _).trans (foldl_frame (v := ends) ends_removeEdge l₁ g)
  have k := key (g.edges.filter fun e => u = e.target) (((g.edges.filter fun e => u = e.target).foldl removeEdge g).outEdges u)
  exact Prod.ext (congrArg Prod.fst k) (congrArg Prod.snd k)

theorem Nfa.ends_exec {g g' : Nfa A} {op : NfaOp A} (h1 : ∀ p b, op ≠ .setInitial p b) (h2 : ∀ p b, op ≠ .setFinal p b) (h3 : ∀ qs, op ≠ .setInitials qs)
    (h : g.exec op = .ok g') : g'.ends = g.ends := by
  cases op with
  | addVertex => cases h; rfl
  | addEdge q r a => cases h; rfl
  | removeEdge e => cases h; exact ends_removeEdge g e
  | removeVertex q => exact ends_removeVertex h
  | setInitial q b => exact absurd rfl (h1 q b)
  | setInitials qs => exact absurd rfl (h3 qs)
  | setFinal q b => exact absurd rfl (h2 q b)
  | clear => exact foldlM_frame (v := ends) (f := removeVertex) (fun _ _ _ h => ends_removeVertex h) g.vertices { g with lastVertexId := 0 } g' h

omit [DecidableEq A] in
theorem Automaton.isFinal_setFinal (g : Automaton A) (p : Nat) (b : Bool) (q : Nat) : (g.setFinal p b).isFinal q = if q = p then b else g.isFinal q := by
  unfold setFinal isFinal Dict.getD
  simp only
  rw [Dict.get?_set]
  by_cases h : p = q
  · rw [if_pos h, if_pos h.symm]; rfl
  · rw [if_neg h, if_neg (Ne.symm h)]

omit [DecidableEq A] in
theorem Automaton.isFinal_of_ends {g g' : Automaton A} (h : g'.ends = g.ends) (q : Nat) : g'.isFinal q = g.isFinal q := by
  unfold isFinal
  rw [show g'.final = g.final from congrArg Prod.snd h]

omit [DecidableEq A] in
theorem Automaton.isFinal_setInitial (g : Automaton A) (p : Nat) (b : Bool) (q : Nat) : (g.setInitial p b).isFinal q = g.isFinal q := by
  unfold setInitial
  split
  · rfl
  · split <;> rfl

omit [DecidableEq A] in
theorem Automaton.initial_setInitial (g : Automaton A) (p : Nat) (b : Bool) :
    (g.setInitial p b).initial = if b then some p else if g.initial = some p then none else g.initial := by
  unfold setInitial initial
  cases b with
  | true => rfl
  | false =>
    simp only [Bool.false_eq_true, if_false]
    split <;> rfl

/-! ## The theorems -/

/-- **C130** (`Automaton`). After any history, `initial()` is the state of the last `set_initial(q)`, or 0, unless it was withdrawn, and `is_final(q)` holds iff `q` was made final
and not withdrawn; no other call matters. -/
theorem C130_automaton {ops : List (AOp A)} {g : Automaton A} (h : Runs Automaton.exec .empty ops g) (q : Nat) :
    (g.initial = some q ↔ InitialBy .setInitial ops q) ∧ (g.isFinal q = true ↔ FinalBy .setFinal ops q) := by
  constructor
  · refine initial_of_runs Automaton.initial (fun _ _ _ _ h => by cases h; exact ⟨rfl, rfl⟩) rfl ?_ ?_ h q
    · intro s s' p b he; cases he; exact Automaton.initial_setInitial s p b
    · intro s s' op hop he
      cases op with
      | setFinal q b => cases he; rfl
      | _ => exact congrArg Prod.fst (Automaton.ends_exec hop (fun _ _ => by simp) he)
  · refine final_of_runs Automaton.isFinal (fun _ _ _ _ h => by cases h; exact ⟨rfl, rfl⟩) (fun _ => rfl) ?_ ?_ h q
    · intro s s' p b he q; cases he; exact Automaton.isFinal_setFinal s p b q
    · intro s s' op hop he q
      cases op with
      | setInitial p b => cases he; exact Automaton.isFinal_setInitial s p b q
      | _ => exact Automaton.isFinal_of_ends (Automaton.ends_exec (fun _ _ => by simp) hop he) q

/-- **C130** (`IncidenceAutomaton`). -/
theorem C130_incidence {ops : List (AOp A)} {g : IAutomaton A} (h : Runs IAutomaton.exec .empty ops g) (q : Nat) :
    (g.a.initial = some q ↔ InitialBy .setInitial ops q) ∧ (g.a.isFinal q = true ↔ FinalBy .setFinal ops q) := by
  constructor
  · refine initial_of_runs (fun g : IAutomaton A => g.a.initial) (fun _ _ _ _ h => by cases h; exact ⟨rfl, rfl⟩) rfl ?_ ?_ h q
    · intro s s' p b he; cases he; exact Automaton.initial_setInitial s.a p b
    · intro s s' op hop he
      cases op with
      | setFinal q b => cases he; rfl
      | _ => exact congrArg Prod.fst (IAutomaton.ends_exec hop (fun _ _ => by simp) he)
  · refine final_of_runs (fun g : IAutomaton A => g.a.isFinal) (fun _ _ _ _ h => by cases h; exact ⟨rfl, rfl⟩) (fun _ => rfl) ?_ ?_ h q
    · intro s s' p b he q; cases he; exact Automaton.isFinal_setFinal s.a p b q
    · intro s s' op hop he q
      cases op with
      | setInitial p b => cases he; exact Automaton.isFinal_setInitial s.a p b q
      | _ => exact Automaton.isFinal_of_ends (IAutomaton.ends_exec (fun _ _ => by simp) hop he) q

/-- **C130** (`NodeAutomaton`). -/
theorem C130_node {ops : List (NOp A)} {g : NodeAutomaton A} (h : Runs NodeAutomaton.exec .empty ops g) (q : Nat) :
    (g.a.initial = some q ↔ InitialBy .setInitial ops q) ∧ (g.a.isFinal q = true ↔ FinalBy .setFinal ops q) := by
  constructor
  · refine initial_of_runs (fun g : NodeAutomaton A => g.a.initial) (fun _ _ _ _ h => by cases h; exact ⟨rfl, rfl⟩) rfl ?_ ?_ h q
    · intro s s' p b he; cases he; exact Automaton.initial_setInitial s.a p b
    · intro s s' op hop he
      cases op with
      | setFinal q b => cases he; rfl
      | _ => exact congrArg Prod.fst (NodeAutomaton.ends_exec hop (fun _ _ => by simp) he)
  · refine final_of_runs (fun g : NodeAutomaton A => g.a.isFinal) (fun _ _ _ _ h => by cases h; exact ⟨rfl, rfl⟩) (fun _ => rfl) ?_ ?_ h q
    · intro s s' p b he q; cases he; exact Automaton.isFinal_setFinal s.a p b q
    · intro s s' op hop he q
      cases op with
      | setInitial p b => cases he; exact Automaton.isFinal_setInitial s.a p b q
      | _ => exact Automaton.isFinal_of_ends (NodeAutomaton.ends_exec (fun _ _ => by simp) hop he) q

/-- **C130** (`IncidenceNodeAutomaton`). -/
theorem C130_incidence_node {ops : List (NOp A)} {g : INodeAutomaton A} (h : Runs INodeAutomaton.exec .empty ops g) (q : Nat) :
    (g.n.a.initial = some q ↔ InitialBy .setInitial ops q) ∧ (g.n.a.isFinal q = true ↔ FinalBy .setFinal ops q) := by
  constructor
  · refine initial_of_runs (fun g : INodeAutomaton A => g.n.a.initial) (fun _ _ _ _ h => by cases h; exact ⟨rfl, rfl⟩) rfl ?_ ?_ h q
    · intro s s' p b he; cases he; exact Automaton.initial_setInitial s.n.a p b
    · intro s s' op hop he
      cases op with
      | setFinal q b => cases he; rfl
      | _ => exact congrArg Prod.fst (INodeAutomaton.ends_exec hop (fun _ _ => by simp) he)
  · refine final_of_runs (fun g : INodeAutomaton A => g.n.a.isFinal) (fun _ _ _ _ h => by cases h; exact ⟨rfl, rfl⟩) (fun _ => rfl) ?_ ?_ h q
    · intro s s' p b he q; cases he; exact Automaton.isFinal_setFinal s.n.a p b q
    · intro s s' op hop he q
      cases op with
      | setInitial p b => cases he; exact Automaton.isFinal_setInitial s.n.a p b q
      | _ => exact Automaton.isFinal_of_ends (INodeAutomaton.ends_exec (fun _ _ => by simp) hop he) q

omit [DecidableEq A] in
/-- What the calls do to the set of initial states of an `Nfa`. -/
theorem nfaInitialBy_snoc (initials : List Nat) (ops : List (NfaOp A)) (op : NfaOp A) (q : Nat) :
    NfaInitialBy initials (ops ++ [op]) q ↔
      (op = .setInitial q true ∨ ∃ qs, op = .setInitials qs ∧ q ∈ qs) ∨
      (NfaInitialBy initials ops q ∧ op ≠ .setInitial q false ∧ ∀ qs, q ∉ qs → op ≠ .setInitials qs) := by
  constructor
  · rintro (⟨pre, op', post, h, h1, h2, h3⟩ | ⟨h1, h2, h3⟩)
    · rcases append_cons_eq_snoc h with ⟨rfl, rfl, _⟩ | ⟨post', rfl, rfl⟩
      · exact .inl h1
      · refine .inr ⟨.inl ⟨pre, op', post', rfl, h1, fun hp => h2 (by simp [hp]), fun qs hq hp => h3 qs hq (by simp [hp])⟩, ?_, ?_⟩
        · rintro rfl; exact h2 (by simp)
        · rintro qs hq rfl; exact h3 qs hq (by simp)
    · refine .inr ⟨.inr ⟨h1, fun hp => h2 (by simp [hp]), fun qs hq hp => h3 qs hq (by simp [hp])⟩, ?_, ?_⟩
      · rintro rfl; exact h2 (by simp)
      · rintro qs hq rfl; exact h3 qs hq (by simp)
  · have hmem : ∀ (l : List (NfaOp A)) o, o ∈ l ++ [op] ↔ o ∈ l ∨ o = op := fun l o => by rw [List.mem_append, List.mem_singleton]
    rintro (h | ⟨⟨pre, op', post, rfl, h1, h2, h3⟩ | ⟨h1, h2, h3⟩, h4, h5⟩)
    · exact .inl ⟨ops, op, [], rfl, h, by simp, by simp⟩
    · refine .inl ⟨pre, op', post ++ [op], by simp, h1, fun hp => ?_, fun qs hq hp => ?_⟩
      · exact ((hmem _ _).mp hp).elim h2 fun e => h4 e.symm
      · exact ((hmem _ _).mp hp).elim (h3 qs hq) fun e => h5 qs hq e.symm
    · refine .inr ⟨h1, fun hp => ?_, fun qs hq hp => ?_⟩
      · exact ((hmem _ _).mp hp).elim h2 fun e => h4 e.symm
      · exact ((hmem _ _).mp hp).elim (h3 qs hq) fun e => h5 qs hq e.symm

omit [DecidableEq A] in
theorem Nfa.init_ends (eps : A) (initials : List Nat) : ∀ n, (Nfa.init eps initials n).ends = (if initials = [] then [0] else mkSet initials, [])
  | 0 => rfl
  | n + 1 => Nfa.init_ends eps initials n

/-- **C130** (`Nfa`). After any history, the initial states are those which the calls of `set_initial` and `set_initials` and the constructor have made so, and
`is_final(q)` holds iff `q` was made final and not withdrawn; no other call matters. -/
theorem C130_nfa {eps : A} {initials : List Nat} {n : Nat} {ops : List (NfaOp A)} {g : Nfa A} (h : Runs Nfa.exec (Nfa.init eps initials n) ops g) (q : Nat) :
    (q ∈ g.initials ↔ NfaInitialBy (if initials = [] then [0] else initials) ops q) ∧ (g.isFinal q = true ↔ FinalBy .setFinal ops q) := by
  constructor
  · induction ops using List.reverseRecOn generalizing g with
    | nil =>
      cases h
      rw [show (Nfa.init eps initials n).initials = _ from congrArg Prod.fst (Nfa.init_ends eps initials n)]
      have hm : (q ∈ if initials = [] then [0] else mkSet initials) ↔ q ∈ if initials = [] then [0] else initials := by
        split
        · rfl
        · exact mem_mkSet _ _
      simp only [hm]
      constructor
      · intro hq; exact .inr ⟨hq, by simp, by simp⟩
      · rintro (⟨pre, op, post, h, _⟩ | ⟨hq, _⟩)
        · simp at h
        · exact hq
    | append_singleton ops op ih =>
      obtain ⟨s', hs', he⟩ := runs_snoc h
      rw [nfaInitialBy_snoc, ← ih hs']
      cases op with
      | setInitial p b =>
        cases he
        cases b with
        | true =>
          show q ∈ setAdd s'.initials p ↔ _
          rw [mem_setAdd]
          constructor
          · rintro (hq | rfl)
            · exact .inr ⟨hq, by simp, by simp⟩
            · exact .inl (.inl rfl)
          · rintro ((hq | ⟨qs, hq, _⟩) | ⟨hq, _⟩)
            · cases hq; exact .inr rfl
            · cases hq
            · exact .inl hq
        | false =>
          show q ∈ setDiscard s'.initials p ↔ _
          rw [mem_setDiscard]
          constructor
          · rintro ⟨hq, hne⟩
            exact .inr ⟨hq, by simpa using Ne.symm hne, by simp⟩
          · rintro ((hq | ⟨qs, hq, _⟩) | ⟨hq, hne, _⟩)
            · cases hq
            · cases hq
            · exact ⟨hq, fun e => hne (by rw [e])⟩
      | setInitials qs =>
        cases he
        show q ∈ mkSet qs ↔ _
        rw [mem_mkSet]
        constructor
        · intro hq; exact .inl (.inr ⟨qs, rfl, hq⟩)
        · rintro ((hq | ⟨qs', hq, hm⟩) | ⟨_, _, hne⟩)
          · cases hq
          · cases hq; exact hm
          · by_contra hn; exact hne qs hn rfl
      | setFinal p b => cases he; simp [Nfa.setFinal]
      | _ =>
        rw [show g.initials = s'.initials from congrArg Prod.fst (Nfa.ends_exec (by simp) (by simp) (by simp) he)]
        simp
  · refine final_of_runs Nfa.isFinal (fun _ _ _ _ h => by cases h; exact ⟨rfl, rfl⟩) ?_ ?_ ?_ h q
    · intro q
      unfold Nfa.isFinal
      rw [show (Nfa.init eps initials n).final = _ from congrArg Prod.snd (Nfa.init_ends eps initials n)]
      rfl
    · intro s s' p b he q
      cases he
      unfold Nfa.setFinal Nfa.isFinal Dict.getD
      simp only
      rw [Dict.get?_set]
      by_cases h : p = q
      · rw [if_pos h, if_pos h.symm]; rfl
      · rw [if_neg h, if_neg (Ne.symm h)]
    · intro s s' op hop he q
      cases op with
      | setInitial p b => cases he; rfl
      | setInitials qs => cases he; rfl
      | setFinal p b => exact absurd rfl (hop p b)
      | _ =>
        unfold Nfa.isFinal
        rw [show s'.final = s.final from congrArg Prod.snd (Nfa.ends_exec (by simp) (by simp) (by simp) he)]

/-! ## Non-vacuity -/

/-- A history of an automaton: 1 becomes the initial state, 2 is final, 0 no longer is. -/
def c130ops : List (AOp Char) :=
  [.addVertex, .addVertex, .addVertex, .setFinal 0 true, .setInitial 1 true, .setFinal 2 true, .setInitial 0 false, .addEdge 1 2 'a', .setFinal 0 false, .removeVertex 0]

example : (c130ops.foldlM Automaton.exec Automaton.empty).toOption.map (fun g => (g.initial, g.isFinal 0, g.isFinal 2)) = some (some 1, false, true) := by decide
example : (c130ops.foldlM IAutomaton.exec IAutomaton.empty).toOption.map (fun g => (g.a.initial, g.a.isFinal 0, g.a.isFinal 2)) = some (some 1, false, true) := by decide
example : InitialBy .setInitial c130ops 1 ∧ FinalBy .setFinal c130ops 2 :=
  ⟨.inl ⟨c130ops.take 4, c130ops.drop 5, rfl, by simp [c130ops], by simp [c130ops]⟩, c130ops.take 5, c130ops.drop 6, rfl, by simp [c130ops]⟩
example : (([.addVertex (some 'a'), .addVertex none, .setInitial 0 false, .setFinal 1 true, .setFinal 7 true] : List (NOp Char)).foldlM
    NodeAutomaton.exec NodeAutomaton.empty).toOption.map (fun g => (g.a.initial, g.a.isFinal 0, g.a.isFinal 7)) = some (none, false, true) := by decide
example : (([.addVertex (some 'a'), .addVertex none, .addEdge 0 1, .setInitial 1 true, .removeVertex 1] : List (NOp Char)).foldlM
    INodeAutomaton.exec INodeAutomaton.empty).toOption.map (fun g => g.n.a.initial) = some (some 1) := by decide
example : (([.setInitial 2 true, .setInitial 0 false, .setFinal 1 true, .setInitials [1, 2], .setInitial 1 false] : List (NfaOp Char)).foldlM
    Nfa.exec (Nfa.init 'e' [] 3)).toOption.map (fun g => (g.initials, g.isFinal 1)) = some ([2], true) := by decide

end PyBGL
