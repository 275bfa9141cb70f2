import Verif.Spec.NfaLanguage
import Verif.Proofs.AutomatonLemmas
import Mathlib.Data.List.Nodup
import Mathlib.Data.List.Perm.Subperm

/-!
# NFA lemmas
-/

namespace PyBGL
variable {A : Type} [DecidableEq A]

/-! ## Paths up to ε -/

section wpath
variable {Q : Type} {T : Q → A → Q → Prop} {eps : A}

theorem WPath.nil (q : Q) : WPath T eps q [] q := ⟨[], .nil q, rfl⟩

theorem WPath.append {q r s : Q} {u v : List A} (h1 : WPath T eps q u r) (h2 : WPath T eps r v s) :
    WPath T eps q (u ++ v) s := by
  obtain ⟨x, hx, rfl⟩ := h1
  obtain ⟨y, hy, rfl⟩ := h2
  exact ⟨x ++ y, hx.append hy, by simp⟩

theorem WPath.epsStep {q r : Q} (h : T q eps r) : WPath T eps q [] r := ⟨[eps], .cons h (.nil r), by simp⟩

theorem WPath.symStep {q r : Q} {a : A} (ha : a ≠ eps) (h : T q a r) : WPath T eps q [a] r :=
  ⟨[a], .cons h (.nil r), by simp [ha]⟩

theorem WPath.mono {T' : Q → A → Q → Prop} (hT : ∀ q a r, T q a r → T' q a r) {q r : Q} {w : List A}
    (h : WPath T eps q w r) : WPath T' eps q w r := by
  obtain ⟨u, hu, rfl⟩ := h
  exact ⟨u, hu.mono hT, rfl⟩

/-- Head decomposition. -/
theorem WPath.cases {q r : Q} {w : List A} (h : WPath T eps q w r) :
    (w = [] ∧ q = r) ∨ (∃ s, T q eps s ∧ WPath T eps s w r) ∨
    (∃ a s v, w = a :: v ∧ a ≠ eps ∧ T q a s ∧ WPath T eps s v r) := by
  obtain ⟨u, hu, rfl⟩ := h
  cases hu with
  | nil => exact .inl ⟨rfl, rfl⟩
  | cons h p =>
    rename_i s a u
    by_cases ha : a = eps
    · subst ha
      exact .inr (.inl ⟨s, h, u, p, by simp⟩)
    · exact .inr (.inr ⟨a, s, _, by simp [ha], ha, h, u, p, rfl⟩)

/-- Induction principle from the head. -/
theorem WPath.induct {P : Q → List A → Q → Prop} (hnil : ∀ q, P q [] q)
    (heps : ∀ q s w r, T q eps s → WPath T eps s w r → P s w r → P q w r)
    (hsym : ∀ q a s w r, a ≠ eps → T q a s → WPath T eps s w r → P s w r → P q (a :: w) r)
    {q r : Q} {w : List A} (h : WPath T eps q w r) : P q w r := by
  obtain ⟨u, hu, rfl⟩ := h
  induction hu with
  | nil q => exact hnil q
  | cons h p ih =>
    rename_i q s r a u
    by_cases ha : a = eps
    · subst ha
      have e : (a :: u).filter (· ≠ a) = u.filter (· ≠ a) := by simp
      rw [e]; exact heps _ _ _ _ h ⟨u, p, rfl⟩ ih
    · have e : (a :: u).filter (· ≠ eps) = a :: u.filter (· ≠ eps) := by simp [ha]
      rw [e]; exact hsym _ _ _ _ _ ha h ⟨u, p, rfl⟩ ih

theorem WPath.split {q r : Q} {a : A} {w : List A} (h : WPath T eps q (a :: w) r) :
    ∃ p s, WPath T eps q [] p ∧ T p a s ∧ WPath T eps s w r := by
  generalize hv : a :: w = v at h
  revert hv
  refine WPath.induct (P := fun q v r => a :: w = v → ∃ p s, WPath T eps q [] p ∧ T p a s ∧ WPath T eps s w r)
    ?_ ?_ ?_ h
  · intro q h; cases h
  · intro q s v r hT _ ih hv
    obtain ⟨p, s', h1, h2, h3⟩ := ih hv
    exact ⟨p, s', (WPath.epsStep hT).append h1, h2, h3⟩
  · intro q b s v r hb hT hp _ hv
    cases hv
    exact ⟨q, s, .nil q, hT, hp⟩

theorem WPath.append_iff {q r : Q} {u v : List A} :
    WPath T eps q (u ++ v) r ↔ ∃ s, WPath T eps q u s ∧ WPath T eps s v r := by
  constructor
  · intro h
    induction u generalizing q with
    | nil => exact ⟨q, .nil q, h⟩
    | cons a u ih =>
      obtain ⟨p, s, h1, h2, h3⟩ := h.split
      obtain ⟨s', h4, h5⟩ := ih h3
      refine ⟨s', ?_, h5⟩
      by_cases ha : a = eps
      · exfalso
        obtain ⟨x, _, hx⟩ := h
        have : a ∈ x.filter (· ≠ eps) := by rw [hx]; simp
        simp [ha] at this
      · exact (h1.append ((WPath.symStep ha h2).append h4))
  · rintro ⟨s, h1, h2⟩; exact h1.append h2

theorem WPath.not_eps {q r : Q} {w : List A} (h : WPath T eps q w r) : eps ∉ w := by
  obtain ⟨u, _, rfl⟩ := h
  simp

end wpath

namespace Nfa

/-- `r` is a target of `q` by `a`, by dictionary lookups. -/
def T (g : Nfa A) (q : Nat) (a : A) (r : Nat) : Prop := r ∈ g.targets q a

theorem T_iff (g : Nfa A) (q : Nat) (a : A) (r : Nat) :
    g.T q a r ↔ ∃ d e s, g.adj.get? q = some d ∧ d.get? a = some e ∧ e.get? r = some s := by
  unfold T targets Dict.getD
  cases h1 : Dict.get? g.adj q with
  | none => simp [Dict.get?, Dict.keys]
  | some d =>
    simp only [Option.getD_some]
    cases h2 : Dict.get? d a with
    | none => simp [Dict.keys, h2]
    | some e =>
      simp only [Option.getD_some, Dict.mem_keys_iff]
      constructor
      · rintro ⟨s, hs⟩; exact ⟨d, e, s, rfl, h2, hs⟩
      · rintro ⟨d', e', s, h3, h4, h5⟩
        cases h3; rw [h2] at h4; cases h4; exact ⟨s, h5⟩

theorem trans_iff {g : Nfa A} (hg : WF g) (q : Nat) (a : A) (r : Nat) : g.Trans q a r ↔ g.T q a r := by
  rw [T_iff]
  unfold Trans edges
  simp only [List.mem_flatMap, List.mem_map]
  constructor
  · rintro ⟨n, ⟨q', d⟩, h1, ⟨a', e⟩, h2, ⟨r', s⟩, h3, h4⟩
    cases h4
    have e1 := Dict.get?_of_mem hg.outer h1
    have e2 := Dict.get?_of_mem (hg.mid _ _ e1) h2
    exact ⟨d, e, s, e1, e2, Dict.get?_of_mem (hg.inner _ _ _ _ e1 e2) h3⟩
  · rintro ⟨d, e, s, h1, h2, h3⟩
    exact ⟨s, (q, d), Dict.mem_of_get? h1, (a, e), Dict.mem_of_get? h2, (r, s), Dict.mem_of_get? h3, rfl⟩

theorem lang_iff {g : Nfa A} (hg : WF g) (w : List A) :
    g.Lang w ↔ ∃ q₀ ∈ g.initials, ∃ f, g.isFinal f = true ∧ WPath g.T g.eps q₀ w f := by
  have : g.Trans = g.T := by funext q a r; exact propext (trans_iff hg q a r)
  unfold Lang; rw [this]

/-! ## The one-step and ε-closure functions -/

theorem mem_foldl_setUnion {X Y : Type} [DecidableEq Y] (f : X → List Y) (l : List X) (s : List Y) (y : Y) :
    y ∈ l.foldl (fun s q => setUnion s (f q)) s ↔ y ∈ s ∨ ∃ q ∈ l, y ∈ f q := by
  induction l generalizing s with
  | nil => simp
  | cons a l ih => rw [List.foldl_cons, ih, mem_setUnion, or_assoc]; simp

theorem nodup_foldl_setUnion {X Y : Type} [DecidableEq Y] (f : X → List Y) (l : List X) {s : List Y}
    (hs : s.Nodup) : (l.foldl (fun s q => setUnion s (f q)) s).Nodup := by
  induction l generalizing s with
  | nil => exact hs
  | cons a l ih => exact ih (nodup_setUnion hs _)

theorem mem_deltaOneStep (g : Nfa A) (qs : List Nat) (a : A) (r : Nat) :
    r ∈ g.deltaOneStep qs a ↔ ∃ q ∈ qs, g.T q a r := by
  unfold deltaOneStep; rw [mem_foldl_setUnion]; simp [T]

theorem T_mentioned {g : Nfa A} {q r : Nat} {a : A} (h : g.T q a r) (qs : List Nat) : r ∈ g.mentioned qs := by
  rw [T_iff] at h
  obtain ⟨d, e, s, h1, h2, h3⟩ := h
  unfold mentioned
  rw [mem_mkSet, List.mem_append]
  right
  simp only [List.mem_flatMap]
  exact ⟨_, Dict.mem_of_get? h1, _, Dict.mem_of_get? h2, (Dict.mem_keys_iff _ _).2 ⟨s, h3⟩⟩

/-- Post-condition of `delta_epsilon`. -/
def EpsPost (g : Nfa A) (qs : List Nat) : Except PyErr (List Nat) → Prop
  | .error _ => False
  | .ok ret => ret.Nodup ∧ ∀ r, r ∈ ret ↔ ∃ q ∈ qs, WPath g.T g.eps q [] r

/-- Invariant of the loop of `delta_epsilon`. -/
structure EpsInv (g : Nfa A) (qs : List Nat) (s : List Nat × List Nat) : Prop where
  nodup : s.1.Nodup
  fresh : ∀ r ∈ s.2, r ∉ s.1
  sub : ∀ r ∈ s.2, r ∈ g.mentioned qs
  sub' : ∀ r ∈ s.1, r ∈ g.mentioned qs
  start : ∀ q ∈ qs, q ∈ s.1 ∨ q ∈ s.2
  sound : ∀ r, r ∈ s.1 ∨ r ∈ s.2 → ∃ q ∈ qs, WPath g.T g.eps q [] r
  closed : ∀ q ∈ s.1, ∀ r, g.T q g.eps r → r ∈ s.1 ∨ r ∈ s.2

theorem deltaEpsilonLoop_spec (g : Nfa A) (qs : List Nat) :
    ∃ r, g.deltaEpsilonLoop qs ((g.mentioned qs).length + 2) = some r ∧ EpsPost g qs r := by
  unfold deltaEpsilonLoop
  have hU : (g.mentioned qs).Nodup := nodup_mkSet _
  refine loop_total_fuel _ (EpsInv g qs) (fun s => (g.mentioned qs).length - s.1.length) (EpsPost g qs)
    ?_ ?_ ?_ ((g.mentioned qs).length + 1) 0 _ ?_ (by simp)
  · rintro t ⟨ret, new⟩ s' h hs
    cases new with
    | nil => simp [epsStep] at hs
    | cons x new =>
      simp only [epsStep, Step.next.injEq] at hs
      subst hs
      have hnd : (setUnion ret (x :: new)).Nodup := nodup_setUnion h.nodup _
      have hsub : ∀ r ∈ setUnion ret (x :: new), r ∈ g.mentioned qs := by
        intro r hr
        rw [mem_setUnion] at hr
        exact hr.elim (h.sub' r) (h.sub r)
      refine ⟨⟨hnd, ?_, ?_, hsub, ?_, ?_, ?_⟩, ?_⟩
      · intro r hr; simpa using (List.mem_filter.1 hr).2
      · intro r hr
        obtain ⟨q, _, hq⟩ := (mem_deltaOneStep _ _ _ _).1 (List.mem_filter.1 hr).1
        exact T_mentioned hq qs
      · intro q hq
        left; rw [mem_setUnion]; exact h.start q hq
      · rintro r (hr | hr)
        · rw [mem_setUnion] at hr; exact h.sound r hr
        · obtain ⟨q, hq, hT⟩ := (mem_deltaOneStep _ _ _ _).1 (List.mem_filter.1 hr).1
          obtain ⟨q0, h0, hp⟩ := h.sound q (.inr hq)
          exact ⟨q0, h0, by simpa using hp.append (WPath.epsStep hT)⟩
      · intro q hq r hT
        rw [mem_setUnion] at hq
        by_cases hr : r ∈ setUnion ret (x :: new)
        · exact .inl hr
        · right
          rcases hq with hq | hq
          · have := h.closed q hq r hT
            rw [mem_setUnion] at hr; exact absurd this hr
          · rw [List.mem_filter]
            exact ⟨(mem_deltaOneStep _ _ _ _).2 ⟨q, hq, hT⟩, by simpa using hr⟩
      · have h1 : (setUnion ret (x :: new)).length ≤ (g.mentioned qs).length :=
          (List.subperm_of_subset hnd hsub).length_le
        have h2 : (x :: ret).length ≤ (setUnion ret (x :: new)).length := by
          have : (x :: ret).Nodup := List.nodup_cons.2 ⟨h.fresh x (by simp), h.nodup⟩
          refine (List.subperm_of_subset this ?_).length_le
          intro r hr
          rw [mem_setUnion]
          rcases List.mem_cons.1 hr with rfl | hr
          · right; simp
          · exact .inl hr
        simp only [List.length_cons] at h2
        show (g.mentioned qs).length - (setUnion ret (x :: new)).length < (g.mentioned qs).length - ret.length
        omega
  · rintro t ⟨ret, new⟩ r h hs
    cases new with
    | cons x new => simp [epsStep] at hs
    | nil =>
      simp only [epsStep, Step.done.injEq] at hs
      subst hs
      refine ⟨h.nodup, fun r => ⟨fun hr => h.sound r (.inl hr), ?_⟩⟩
      rintro ⟨q, hq, hp⟩
      have hq' : q ∈ ret := by simpa using h.start q hq
      have : ∀ q r (w : List A), WPath g.T g.eps q w r → w = [] → q ∈ ret → r ∈ ret := by
        intro q r w hp
        refine WPath.induct (P := fun q w r => w = [] → q ∈ ret → r ∈ ret) ?_ ?_ ?_ hp
        · intro q _ h; exact h
        · intro q s w r hT _ ih hw hq
          have := h.closed q hq s hT
          exact ih hw (by simpa using this)
        · intro q a s w r _ _ _ _ hw; cases hw
      exact this q r [] hp rfl hq'
  · rintro t ⟨ret, new⟩ e h hs
    cases new <;> simp [epsStep] at hs
  · refine ⟨List.nodup_nil, by simp, ?_, by simp, ?_, ?_, by simp⟩
    · intro r hr; rw [mem_mkSet] at hr
      unfold mentioned; rw [mem_mkSet, List.mem_append]; exact .inl hr
    · intro q hq; right; exact (mem_mkSet _ _).2 hq
    · rintro r (hr | hr)
      · simp at hr
      · exact ⟨r, (mem_mkSet _ _).1 hr, .nil r⟩

theorem deltaEpsilon_loop (g : Nfa A) (qs : List Nat) :
    Returns (g.deltaEpsilonLoop qs) (.ok (g.deltaEpsilon qs)) := by
  obtain ⟨r, hr, hp⟩ := deltaEpsilonLoop_spec g qs
  refine ⟨(g.mentioned qs).length + 2, fun fuel hf => ?_⟩
  · cases r with
    | error e => cases hp
    | ok r =>
      have : g.deltaEpsilon qs = r := by unfold deltaEpsilon; rw [hr]
      rw [this]
      exact loop_mono _ hr hf

theorem mem_deltaEpsilon (g : Nfa A) (qs : List Nat) (r : Nat) :
    r ∈ g.deltaEpsilon qs ↔ ∃ q ∈ qs, WPath g.T g.eps q [] r := by
  obtain ⟨x, hx, hp⟩ := deltaEpsilonLoop_spec g qs
  cases x with
  | error e => cases hp
  | ok x =>
    have : g.deltaEpsilon qs = x := by unfold deltaEpsilon; rw [hx]
    rw [this]; exact hp.2 r

theorem nodup_deltaEpsilon (g : Nfa A) (qs : List Nat) : (g.deltaEpsilon qs).Nodup := by
  obtain ⟨x, hx, hp⟩ := deltaEpsilonLoop_spec g qs
  cases x with
  | error e => cases hp
  | ok x =>
    have : g.deltaEpsilon qs = x := by unfold deltaEpsilon; rw [hx]
    rw [this]; exact hp.1

theorem mem_delta (g : Nfa A) {q r : Nat} {a : A} (ha : a ≠ g.eps) :
    r ∈ g.delta q a ↔ WPath g.T g.eps q [a] r := by
  unfold delta
  rw [mem_deltaEpsilon]
  constructor
  · rintro ⟨s, hs, hr⟩
    obtain ⟨p, hp, hT⟩ := (mem_deltaOneStep _ _ _ _).1 hs
    rw [mem_deltaEpsilon] at hp
    obtain ⟨q', hq', hp⟩ := hp
    simp at hq'; subst hq'
    simpa using hp.append ((WPath.symStep ha hT).append hr)
  · intro h
    obtain ⟨p, s, h1, h2, h3⟩ := h.split
    refine ⟨s, (mem_deltaOneStep _ _ _ _).2 ⟨p, ?_, h2⟩, h3⟩
    rw [mem_deltaEpsilon]; exact ⟨q, by simp, h1⟩

theorem mem_deltaWordFrom (g : Nfa A) (w : List A) (hw : g.eps ∉ w) (qs : List Nat)
    (hqs : ∀ q ∈ qs, ∀ r, WPath g.T g.eps q [] r → r ∈ qs) (r : Nat) :
    r ∈ g.deltaWordFrom qs w ↔ ∃ q ∈ qs, WPath g.T g.eps q w r := by
  induction w generalizing qs with
  | nil =>
    rw [deltaWordFrom]
    exact ⟨fun h => ⟨r, h, .nil r⟩, fun ⟨q, hq, hp⟩ => hqs q hq r hp⟩
  | cons a w ih =>
    have ha : a ≠ g.eps := fun e => hw (by simp [e])
    cases qs with
    | nil => simp [deltaWordFrom]
    | cons q0 qs =>
      rw [deltaWordFrom]
      have hmem : ∀ s, s ∈ (q0 :: qs).foldl (fun s q => setUnion s (g.delta q a)) [] ↔
          ∃ q ∈ q0 :: qs, WPath g.T g.eps q [a] s := by
        intro s
        rw [mem_foldl_setUnion]
        simp only [List.not_mem_nil, false_or, mem_delta g ha]
      rw [ih (fun h => hw (by simp [h]))]
      · simp only [hmem]
        constructor
        · rintro ⟨s, ⟨q, hq, h1⟩, h2⟩; exact ⟨q, hq, h1.append h2⟩
        · rintro ⟨q, hq, h⟩
          obtain ⟨s, h1, h2⟩ := (WPath.append_iff (u := [a])).1 h
          exact ⟨s, ⟨q, hq, h1⟩, h2⟩
      · intro s hs t ht
        rw [hmem] at hs ⊢
        obtain ⟨q, hq, h⟩ := hs
        exact ⟨q, hq, by simpa using h.append ht⟩

theorem mem_deltaWord (g : Nfa A) {w : List A} (hw : g.eps ∉ w) (r : Nat) :
    r ∈ g.deltaWord w ↔ ∃ q ∈ g.initials, WPath g.T g.eps q w r := by
  unfold deltaWord
  rw [mem_deltaWordFrom g w hw]
  · simp only [mem_deltaEpsilon]
    constructor
    · rintro ⟨s, ⟨q, hq, h1⟩, h2⟩; exact ⟨q, hq, by simpa using h1.append h2⟩
    · rintro ⟨q, hq, h⟩; exact ⟨q, ⟨q, hq, .nil q⟩, h⟩
  · intro q hq s hs
    rw [mem_deltaEpsilon] at hq ⊢
    obtain ⟨q0, h0, h⟩ := hq
    exact ⟨q0, h0, by simpa using h.append hs⟩

theorem accepts_iff_T (g : Nfa A) {w : List A} (hw : g.eps ∉ w) :
    g.accepts w = true ↔ ∃ q₀ ∈ g.initials, ∃ f, g.isFinal f = true ∧ WPath g.T g.eps q₀ w f := by
  unfold accepts
  rw [List.any_eq_true]
  simp only [mem_deltaWord g hw]
  constructor
  · rintro ⟨f, ⟨q, hq, h⟩, hf⟩; exact ⟨q, hq, f, hf, h⟩
  · rintro ⟨q, hq, f, hf, h⟩; exact ⟨f, ⟨q, hq, h⟩, hf⟩

end Nfa
end PyBGL
