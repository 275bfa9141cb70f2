import Verif.Model.ProductAlias
import Verif.Model.ProductInto
import Verif.Proofs.DynSearch
import Verif.Proofs.PbfsWords

/-!
# A product whose result is one of the operands
-/

namespace PyBGL
namespace Alias
open Automaton
variable {A : Type} [DecidableEq A]

/-- `q` is not a state created by the product, if the operand is the one that is modified. -/
def Old (d : Automaton A) (x : ProductArg A) (q : Option Nat) : Prop :=
  match x with
  | .other _ => True
  | .same => ∀ n, q = some n → n < d.lastVertexId

/-- The pair of initial states. -/
def start (x1 x2 : ProductArg A) (d : Automaton A) : StatePair := ((x1.read d).initial, (x2.read d).initial)

/-- What remains true while the product is built. -/
structure PInv (x1 x2 : ProductArg A) (d : Automaton A) (s : Product A) : Prop where
  last : d.lastVertexId ≤ s.g12.lastVertexId
  adj : ∀ q < d.lastVertexId, s.g12.adj.get? q = d.adj.get? q
  fin : ∀ q < d.lastVertexId, s.g12.final.get? q = d.final.get? q
  map : ∀ p q, s.map.get? p = some q → d.lastVertexId ≤ q
  init : (s.g12.q0 = d.q0 ∧ s.map.get? (start x1 x2 d) = none) ∨
    (∃ q, s.g12.q0 = some q ∧ d.lastVertexId ≤ q ∧ s.map.get? (start x1 x2 d) ≠ none)

/-- The pairs that the search meets, and the operator. -/
structure Pairs (op : Bool → Bool → Bool) (x1 x2 : ProductArg A) (d : Automaton A) (R : StatePair → Prop) : Prop where
  old : ∀ p, R p → Old d x1 p.1 ∧ Old d x2 p.2
  init : ∀ p, R p → p ≠ start x1 x2 d → p ≠ (none, none) → op ((x1.read d).isInitialO p.1) ((x2.read d).isInitialO p.2) = false
  start : R (start x1 x2 d)
  closed : ∀ p a, R p → R (Pbfs.nxt (x1.read d) (x2.read d) p a)
  top : op true true = true
  mono : ∀ a b a' b', (a' = true → a = true) → (b' = true → b = true) → op a b = false → op a' b' = false

variable {op : Bool → Bool → Bool} {x1 x2 : ProductArg A} {d : Automaton A} {R : StatePair → Prop} {s : Product A}

omit [DecidableEq A] in
theorem adj_read (x : ProductArg A) {g : Automaton A} (h : ∀ q < d.lastVertexId, g.adj.get? q = d.adj.get? q) {n : Nat} (hq : Old d x (some n)) :
    (x.read g).adj.get? n = (x.read d).adj.get? n := by
  cases x with
  | other g => rfl
  | same => exact h n (hq n rfl)

theorem deltaO_read (x : ProductArg A) {g : Automaton A} (h : ∀ q < d.lastVertexId, g.adj.get? q = d.adj.get? q) {q : Option Nat} (hq : Old d x q) (a : A) :
    (x.read g).deltaO q a = (x.read d).deltaO q a := by
  cases q with
  | none => rfl
  | some n =>
    show (x.read g).delta n a = (x.read d).delta n a
    unfold Automaton.delta Dict.getD
    rw [adj_read x h hq]

theorem sigmaO_read (x : ProductArg A) {g : Automaton A} (h : ∀ q < d.lastVertexId, g.adj.get? q = d.adj.get? q) {q : Option Nat} (hq : Old d x q) :
    (x.read g).sigmaO q = (x.read d).sigmaO q := by
  cases q with
  | none => rfl
  | some n =>
    show (x.read g).sigma n = (x.read d).sigma n
    unfold Automaton.sigma Dict.getD
    rw [adj_read x h hq]

theorem getEdge_read (x : ProductArg A) {g : Automaton A} (h : ∀ q < d.lastVertexId, g.adj.get? q = d.adj.get? q) {q : Option Nat} (hq : Old d x q) (r : Option Nat)
    (a : A) : getEdge (x.read g) q r a = getEdge (x.read d) q r a := by
  cases q with
  | none => rfl
  | some n =>
    have := deltaO_read x h hq a
    change (x.read g).delta n a = (x.read d).delta n a at this
    unfold getEdge
    simp only [this]

omit [DecidableEq A] in
theorem isFinalO_read (x : ProductArg A) {g : Automaton A} (h : ∀ q < d.lastVertexId, g.final.get? q = d.final.get? q) {q : Option Nat} (hq : Old d x q) :
    (x.read g).isFinalO q = (x.read d).isFinalO q := by
  cases q with
  | none => rfl
  | some n =>
    cases x with
    | other g => rfl
    | same =>
      show g.isFinal n = d.isFinal n
      unfold Automaton.isFinal Dict.getD
      rw [h n (hq n rfl)]

/-- The new content of `g12`. -/
theorem addVertexA_eq (hR : Pairs op x1 x2 d R) (hs : PInv x1 x2 d s) {p : StatePair} (hp : R p) (hb : p ≠ (none, none)) (hm : s.map.get? p = none) :
    s.addVertexA op x1 x2 p.1 p.2 = s.addVertex op (x1.read d) (x2.read d) p.1 p.2 ∧
      PInv x1 x2 d (s.addVertex op (x1.read d) (x2.read d) p.1 p.2).2 ∧ d.lastVertexId ≤ (s.addVertex op (x1.read d) (x2.read d) p.1 p.2).1 := by
  obtain ⟨ho1, ho2⟩ := hR.old p hp
  have hq0 : s.g12.addVertex.2.q0 = s.g12.q0 := rfl
  have hinit : op ((x1.read s.g12.addVertex.2).isInitialO p.1) ((x2.read s.g12.addVertex.2).isInitialO p.2) =
      op ((x1.read d).isInitialO p.1) ((x2.read d).isInitialO p.2) := by
    rcases hs.init with ⟨k1, _⟩ | ⟨q, k1, k2, k3⟩
    · have : ∀ (x : ProductArg A) o, (x.read s.g12.addVertex.2).isInitialO o = (x.read d).isInitialO o := by
        intro x o
        cases x with
        | other g => rfl
        | same => unfold ProductArg.read isInitialO; simp only [hq0, k1]
      rw [this, this]
    · have hne : p ≠ start x1 x2 d := by rintro rfl; exact k3 hm
      have hf := hR.init p hp hne hb
      have hno : ∀ (x : ProductArg A) o, Old d x o → (x.read s.g12.addVertex.2).isInitialO o = true → (x.read d).isInitialO o = true := by
        intro x o ho hi
        cases x with
        | other g => exact hi
        | same =>
          exfalso
          unfold ProductArg.read isInitialO at hi
          simp only [hq0, k1, decide_eq_true_eq] at hi
          have := ho q hi.symm
          omega
      rw [hf]
      exact hR.mono _ _ _ _ (hno x1 _ ho1) (hno x2 _ ho2) hf
  have hfin : ∀ b : Bool, op ((x1.read (if b then s.g12.addVertex.2.setInitial s.g12.addVertex.1 else s.g12.addVertex.2)).isFinalO p.1)
      ((x2.read (if b then s.g12.addVertex.2.setInitial s.g12.addVertex.1 else s.g12.addVertex.2)).isFinalO p.2) =
      op ((x1.read d).isFinalO p.1) ((x2.read d).isFinalO p.2) := by
    intro b
    have hk : ∀ q < d.lastVertexId, (if b then s.g12.addVertex.2.setInitial s.g12.addVertex.1 else s.g12.addVertex.2).final.get? q = d.final.get? q := by
      intro q hq
      cases b <;> exact hs.fin q hq
    rw [isFinalO_read x1 hk ho1, isFinalO_read x2 hk ho2]
  refine ⟨?_, ?_, ?_⟩
  · unfold Product.addVertexA Product.addVertex
    simp only
    rw [hinit, hfin]
  · unfold Product.addVertex
    simp only
    have hadj : ∀ q < d.lastVertexId, s.g12.addVertex.2.adj.get? q = d.adj.get? q := by
      intro q hq
      have : s.g12.lastVertexId ≠ q := by have := hs.last; omega
      simp only [Automaton.addVertex, Dict.get?_set, this, if_false]
      exact hs.adj q hq
    have hstart : op ((x1.read d).isInitialO p.1) ((x2.read d).isInitialO p.2) = true → p = start x1 x2 d := by
      intro h
      by_contra hne
      rw [hR.init p hp hne hb] at h
      cases h
    generalize hb1 : op ((x1.read d).isInitialO p.1) ((x2.read d).isInitialO p.2) = b1 at hstart
    generalize op ((x1.read d).isFinalO p.1) ((x2.read d).isFinalO p.2) = b2
    have hl : s.g12.addVertex.1 = s.g12.lastVertexId := rfl
    refine ⟨?_, ?_, ?_, ?_, ?_⟩
    · have := hs.last
      cases b1 <;> cases b2 <;> simp [Automaton.addVertex, Automaton.setInitial, Automaton.setFinal] <;> omega
    · intro q hq
      cases b1 <;> cases b2 <;> exact hadj q hq
    · intro q hq
      have hne : s.g12.lastVertexId ≠ q := by have := hs.last; omega
      cases b1 <;> cases b2 <;>
        simp [Automaton.addVertex, Automaton.setInitial, Automaton.setFinal, Dict.get?_set, hne, hs.fin q hq]
    · intro p' q h
      simp only [Dict.get?_set] at h
      split at h
      · cases h; exact hs.last
      · exact hs.map p' q h
    · cases b1 with
      | true =>
        right
        refine ⟨s.g12.lastVertexId, ?_, hs.last, ?_⟩
        · cases b2 <;> rfl
        · rw [← hstart rfl]
          simp
      | false =>
        have hne : p ≠ start x1 x2 d := by
          rintro rfl
          have : ∀ x : ProductArg A, (x.read d).isInitialO (x.read d).initial = true := fun x => by simp [isInitialO, initial]
          unfold start at hb1
          simp only [this, hR.top] at hb1
          cases hb1
        have hg : (s.map.set (p.1, p.2) s.g12.addVertex.1).get? (start x1 x2 d) = s.map.get? (start x1 x2 d) := by
          rw [Dict.get?_set, if_neg hne]
        have hq : ∀ b : Bool, (if b then (s.g12.addVertex.2).setFinal s.g12.addVertex.1 else s.g12.addVertex.2).q0 = s.g12.q0 := by
          intro b; cases b <;> rfl
        rcases hs.init with ⟨k1, k2⟩ | ⟨q, k1, k2, k3⟩
        · exact .inl ⟨(hq b2).trans k1, hg.trans k2⟩
        · exact .inr ⟨q, (hq b2).trans k1, k2, by rw [hg]; exact k3⟩
  · exact hs.last

theorem getOrCreateA_eq (hR : Pairs op x1 x2 d R) (hs : PInv x1 x2 d s) {p : StatePair} (hp : R p) :
    s.getOrCreateA op x1 x2 p.1 p.2 = s.getOrCreate op (x1.read d) (x2.read d) p.1 p.2 ∧
      ∀ q s', s.getOrCreate op (x1.read d) (x2.read d) p.1 p.2 = .ok (q, s') → PInv x1 x2 d s' ∧ d.lastVertexId ≤ q := by
  unfold Product.getOrCreateA Product.getOrCreate
  by_cases hb : p.1 = none ∧ p.2 = none
  · simp only [hb, and_self, if_true]
    exact ⟨trivial, fun _ _ h => by cases h⟩
  · have hb' : p ≠ (none, none) := by rintro rfl; exact hb ⟨rfl, rfl⟩
    simp only [if_neg hb]
    cases hm : s.map.get? (p.1, p.2) with
    | some q =>
      refine ⟨rfl, fun q' s' h => ?_⟩
      simp only [Except.ok.injEq, Prod.mk.injEq] at h
      obtain ⟨rfl, rfl⟩ := h
      exact ⟨hs, hs.map _ _ hm⟩
    | none =>
      obtain ⟨k1, k2, k3⟩ := addVertexA_eq hR hs hp hb' hm
      refine ⟨by simp only [k1], fun q' s' h => ?_⟩
      simp only [Except.ok.injEq] at h
      rw [h] at k2 k3
      exact ⟨k2, k3⟩

theorem addEdge_inv {g g' : Automaton A} {q r : Nat} {a : A} {o : Option (EdgeDesc A) × Bool} (h : g.addEdge q r a = .ok (o.1, o.2, g')) :
    g'.lastVertexId = g.lastVertexId ∧ g'.q0 = g.q0 ∧ g'.final = g.final ∧ ∀ u, u ≠ q → g'.adj.get? u = g.adj.get? u := by
  unfold Automaton.addEdge at h
  split at h
  · simp only [Except.ok.injEq, Prod.mk.injEq] at h
    obtain ⟨_, _, rfl⟩ := h
    exact ⟨rfl, rfl, rfl, fun _ _ => rfl⟩
  · cases hg : g.adj.getE q with
    | error e => rw [hg] at h; simp [bind, Except.bind] at h
    | ok x =>
      rw [hg] at h
      simp only [bind, Except.bind, Except.ok.injEq, Prod.mk.injEq] at h
      obtain ⟨_, _, rfl⟩ := h
      exact ⟨rfl, rfl, rfl, fun u hu => by simp [Dict.get?_set, Ne.symm hu]⟩

theorem addEdgeA_eq (hR : Pairs op x1 x2 d R) (hs : PInv x1 x2 d s) {e1 e2 : Option (AEdge A)} (h1 : R (e1.map AEdge.source, e2.map AEdge.source))
    (h2 : R (e1.bind AEdge.target, e2.bind AEdge.target)) :
    s.addEdgeA op x1 x2 e1 e2 = s.addEdge op (x1.read d) (x2.read d) e1 e2 ∧ ∀ s', s.addEdge op (x1.read d) (x2.read d) e1 e2 = .ok s' → PInv x1 x2 d s' := by
  unfold Product.addEdgeA Product.addEdge
  obtain ⟨k1, k2⟩ := getOrCreateA_eq hR hs h1
  simp only at k1 k2
  rw [k1]
  cases hg : s.getOrCreate op (x1.read d) (x2.read d) (e1.map AEdge.source) (e2.map AEdge.source) with
  | error e => exact ⟨rfl, fun _ h => by cases h⟩
  | ok r =>
    obtain ⟨q12, s1⟩ := r
    obtain ⟨i1, l1⟩ := k2 _ _ hg
    obtain ⟨k3, k4⟩ := getOrCreateA_eq hR i1 h2
    simp only at k3 k4
    simp only [k3]
    cases hg2 : s1.getOrCreate op (x1.read d) (x2.read d) (e1.bind AEdge.target) (e2.bind AEdge.target) with
    | error e => exact ⟨rfl, fun _ h => by cases h⟩
    | ok r =>
      obtain ⟨r12, s2⟩ := r
      obtain ⟨i2, l2⟩ := k4 _ _ hg2
      refine ⟨rfl, fun s' h => ?_⟩
      simp only at h
      split at h
      · cases h
      · next a _ =>
        split at h
        · cases h
        · next o1 o2 g ha =>
          cases h
          obtain ⟨j1, j2, j3, j4⟩ := addEdge_inv (o := (o1, o2)) ha
          refine ⟨by rw [j1]; exact i2.last, fun q hq => ?_, fun q hq => by simp only [j3]; exact i2.fin q hq, i2.map, ?_⟩
          · simp only
            rw [j4 q (by omega)]
            exact i2.adj q hq
          · simp only [j2]
            exact i2.init

/-! ## The search -/

section search
variable {visL visS : Visitor (PEvent A) (Product A)} {push : Option (AEdge A) → Option (AEdge A) → Bool}

/-- Two visitors that agree on the pairs of `R`, and only act when an edge is examined. -/
structure Agree (x1 x2 : ProductArg A) (d : Automaton A) (R : StatePair → Prop) (visL visS : Visitor (PEvent A) (Product A)) : Prop where
  quiet : ∀ ev s, (∀ e1 e2 a, ev ≠ .examineEdge e1 e2 a) → visL ev s = .ok s ∧ visS ev s = .ok s
  edge : ∀ (e1 e2 : Option (AEdge A)) a s, PInv x1 x2 d s → R (e1.map AEdge.source, e2.map AEdge.source) → R (e1.bind AEdge.target, e2.bind AEdge.target) →
    visL (.examineEdge e1 e2 a) s = visS (.examineEdge e1 e2 a) s ∧ ∀ s', visS (.examineEdge e1 e2 a) s = .ok s' → PInv x1 x2 d s'

def SInv (x1 x2 : ProductArg A) (d : Automaton A) (R : StatePair → Prop) (s : PbfsState (Product A)) : Prop := PInv x1 x2 d s.st ∧ ∀ p ∈ s.queue, R p

omit [DecidableEq A] in
theorem classify_quiet (h : Agree x1 x2 d R visL visS) (e1 e2 : Option (AEdge A)) (a : A) (r1 r2 : Option Nat) (s : PbfsState (Product A)) (hs : SInv x1 x2 d R s)
    (hr : R (r1, r2)) : pbfsClassify push visL e1 e2 a r1 r2 s = pbfsClassify push visS e1 e2 a r1 r2 s ∧
      ∀ s', pbfsClassify push visS e1 e2 a r1 r2 s = .ok s' → SInv x1 x2 d R s' := by
  have q1 := h.quiet (.treeEdge e1 e2 a) s.st (by simp)
  have q2 := h.quiet (.discover r1 r2) s.st (by simp)
  have q3 := h.quiet (.grayTarget e1 e2 a) s.st (by simp)
  have q4 := h.quiet (.blackTarget e1 e2 a) s.st (by simp)
  unfold pbfsClassify
  simp only [emit_cons, emit_nil, q1.1, q1.2, q2.1, q2.2, q3.1, q3.2, q4.1, q4.2]
  refine ⟨trivial, fun s' hs' => ?_⟩
  split at hs'
  · cases hs'
    refine ⟨hs.1, fun p hp => ?_⟩
    simp only at hp
    split at hp
    · rcases List.mem_append.1 hp with hp | hp
      · exact hs.2 p hp
      · rw [List.mem_singleton.1 hp]; exact hr
    · exact hs.2 p hp
  · cases hs'; exact hs
  · cases hs'; exact hs

theorem getEdge_source (g : Automaton A) (q r : Option Nat) (a : A) : (getEdge g q r a).map AEdge.source = q := by
  cases q with
  | none => rfl
  | some q => unfold getEdge; simp only; split <;> rfl

theorem getEdge_target (g : Automaton A) (q : Option Nat) (a : A) : (getEdge g q (g.deltaO q a) a).bind AEdge.target = g.deltaO q a := by
  cases q with
  | none => rfl
  | some q =>
    have : g.deltaO (some q) a = g.delta q a := rfl
    unfold getEdge
    rw [this]
    simp

theorem symbolA_eq (hR : Pairs op x1 x2 d R) (h : Agree x1 x2 d R visL visS) {p : StatePair} (hp : R p) (a : A) (s : PbfsState (Product A)) (hs : SInv x1 x2 d R s) :
    pbfsSymbolA (fun s => x1.read s.g12) (fun s => x2.read s.g12) push visL p.1 p.2 a s = pbfsSymbol (fun _ => x1.read d) (x2.read d) push visS p.1 p.2 a s ∧
      ∀ s', pbfsSymbol (fun _ => x1.read d) (x2.read d) push visS p.1 p.2 a s = .ok s' → SInv x1 x2 d R s' := by
  obtain ⟨ho1, ho2⟩ := hR.old p hp
  have hq := h.quiet (.examineSymbol p.1 p.2 a) s.st (by simp)
  unfold pbfsSymbolA pbfsSymbol
  simp only [hq.1, hq.2, deltaO_read x1 hs.1.adj ho1, deltaO_read x2 hs.1.adj ho2, getEdge_read x1 hs.1.adj ho1, getEdge_read x2 hs.1.adj ho2]
  have hn := hR.closed p a hp
  have he := h.edge (getEdge (x1.read d) p.1 ((x1.read d).deltaO p.1 a) a) (getEdge (x2.read d) p.2 ((x2.read d).deltaO p.2 a) a) a s.st hs.1
    (by rw [getEdge_source, getEdge_source]; exact hp) (by rw [getEdge_target, getEdge_target]; exact hn)
  rw [he.1]
  cases hv : visS (.examineEdge (getEdge (x1.read d) p.1 ((x1.read d).deltaO p.1 a) a) (getEdge (x2.read d) p.2 ((x2.read d).deltaO p.2 a) a) a) s.st with
  | error e => exact ⟨rfl, fun _ h => by cases h⟩
  | ok st => exact classify_quiet h _ _ _ _ _ ⟨s.color, st, s.queue⟩ ⟨he.2 _ hv, hs.2⟩ hn

theorem symbolsA_eq (hR : Pairs op x1 x2 d R) (h : Agree x1 x2 d R visL visS) {p : StatePair} (hp : R p) (as : List A) : ∀ (s : PbfsState (Product A)), SInv x1 x2 d R s →
    pbfsSymbolsA (fun s => x1.read s.g12) (fun s => x2.read s.g12) push visL p.1 p.2 as s = pbfsSymbols (fun _ => x1.read d) (x2.read d) push visS p.1 p.2 as s ∧
      ∀ s', pbfsSymbols (fun _ => x1.read d) (x2.read d) push visS p.1 p.2 as s = .ok s' → SInv x1 x2 d R s' := by
  induction as with
  | nil => intro s hs; exact ⟨rfl, fun s' h => by cases h; exact hs⟩
  | cons a as ih =>
    intro s hs
    obtain ⟨k1, k2⟩ := symbolA_eq (push := push) hR h hp a s hs
    unfold pbfsSymbolsA pbfsSymbols
    rw [k1]
    cases hv : pbfsSymbol (fun _ => x1.read d) (x2.read d) push visS p.1 p.2 a s with
    | error e => exact ⟨rfl, fun _ h => by cases h⟩
    | ok s1 => exact ih s1 (k2 _ hv)

theorem stepA_eq (hR : Pairs op x1 x2 d R) (h : Agree x1 x2 d R visL visS) (ord : SetOracle A) (t : Nat) (s : PbfsState (Product A)) (hs : SInv x1 x2 d R s) :
    pbfsStepA ord (fun s => x1.read s.g12) (fun s => x2.read s.g12) push visL t s = pbfsStep ord (fun _ => x1.read d) (x2.read d) push visS t s ∧
      ∀ s', pbfsStep ord (fun _ => x1.read d) (x2.read d) push visS t s = .next s' → SInv x1 x2 d R s' := by
  obtain ⟨color, st, queue⟩ := s
  unfold pbfsStepA pbfsStep
  cases queue with
  | nil => exact ⟨rfl, fun _ h => by cases h⟩
  | cons p queue =>
    have hp := hs.2 p (List.mem_cons_self ..)
    obtain ⟨ho1, ho2⟩ := hR.old p hp
    have hq := h.quiet (.examineVertex p.1 p.2) st (by simp)
    have ha := hs.1.adj
    simp only [hq.1, hq.2]
    simp only at ha
    rw [sigmaO_read x1 ha ho1, sigmaO_read x2 ha ho2]
    obtain ⟨k1, k2⟩ := symbolsA_eq (push := push) hR h hp (ord t (setUnion ((x1.read d).sigmaO p.1) ((x2.read d).sigmaO p.2))) ⟨color, st, queue⟩
      ⟨hs.1, fun p hp => hs.2 p (List.mem_cons_of_mem _ hp)⟩
    rw [k1]
    cases hv : pbfsSymbols (fun _ => x1.read d) (x2.read d) push visS p.1 p.2 (ord t (setUnion ((x1.read d).sigmaO p.1) ((x2.read d).sigmaO p.2))) ⟨color, st, queue⟩ with
    | error e => exact ⟨rfl, fun _ h => by cases h⟩
    | ok s1 =>
      have hf := h.quiet (.finish p.1 p.2) s1.st (by simp)
      simp only [hf.1, hf.2]
      refine ⟨trivial, fun s' h => ?_⟩
      cases h
      exact ⟨(k2 _ hv).1, (k2 _ hv).2⟩

/-- Reading the operand that is modified makes no difference. -/
theorem pbfsA_eq (hR : Pairs op x1 x2 d R) (h : Agree x1 x2 d R visL visS) (ord : SetOracle A) (fuel : Nat) :
    pbfsA ord (fun s => x1.read s.g12) (fun s => x2.read s.g12) push visL ⟨[], d⟩ fuel =
      pbfs ord (fun _ => x1.read d) (x2.read d) [((x1.read d).initial, (x2.read d).initial)] push visS ⟨[], d⟩ fuel := by
  have hq := h.quiet (.start (x1.read d).initial (x2.read d).initial) ⟨[], d⟩ (by simp)
  unfold pbfsA pbfs
  simp only [List.map_cons, List.map_nil, emit_cons, emit_nil, hq.1, hq.2]
  refine loop_congr (I := SInv x1 x2 d R) (fun t s hs => (stepA_eq hR h ord t s hs).1) (fun t s s' hs hn => (stepA_eq hR h ord t s hs).2 s' hn) fuel 0 _ ?_
  refine ⟨⟨Nat.le_refl _, fun _ _ => rfl, fun _ _ => rfl, fun _ _ h => (by cases h), .inl ⟨rfl, rfl⟩⟩, ?_⟩
  intro p hp
  rw [List.mem_singleton.1 hp]
  exact hR.start

theorem agree_inter (hR : Pairs (fun a b => a && b) x1 x2 d R) : Agree x1 x2 d R (interVisitorA x1 x2) (interVisitor (x1.read d) (x2.read d)) := by
  refine ⟨?_, ?_⟩
  · intro ev s hev
    cases ev with
    | examineEdge e1 e2 a => exact absurd rfl (hev e1 e2 a)
    | _ => exact ⟨rfl, rfl⟩
  · intro e1 e2 a s hs h1 h2
    simp only [interVisitorA, interVisitor]
    cases e1 with
    | none => exact ⟨rfl, fun _ h => by cases h⟩
    | some f1 =>
      simp only
      split
      · exact ⟨rfl, fun _ h => by cases h; exact hs⟩
      · cases e2 with
        | none => exact ⟨rfl, fun _ h => by cases h⟩
        | some f2 =>
          simp only
          split
          · exact ⟨rfl, fun _ h => by cases h; exact hs⟩
          · exact addEdgeA_eq hR hs h1 h2

theorem agree_union (hR : Pairs (fun a b => a || b) x1 x2 d R) : Agree x1 x2 d R (unionVisitorA x1 x2) (unionVisitor (x1.read d) (x2.read d)) := by
  refine ⟨?_, ?_⟩
  · intro ev s hev
    cases ev with
    | examineEdge e1 e2 a => exact absurd rfl (hev e1 e2 a)
    | _ => exact ⟨rfl, rfl⟩
  · intro e1 e2 a s hs h1 h2
    exact addEdgeA_eq hR hs h1 h2

end search

/-- The states that `d` reaches are states of `d`. -/
theorem old_word (hw : AWF d) (hq : ∀ q, d.initial = some q → q ∈ d.vertices) (hc : ∀ e ∈ d.edges, e.target ∈ d.vertices) (w : List A) :
    ∀ n, d.deltaWord d.initial w = some n → n < d.lastVertexId := by
  intro n hn
  refine hw.lt n ?_
  induction w using List.reverseRecOn generalizing n with
  | nil => exact hq n hn
  | append_singleton w a ih =>
    rw [Automaton.deltaWord_snoc] at hn
    cases hm : d.deltaWord d.initial w with
    | none => rw [hm] at hn; cases hn
    | some m =>
      rw [hm] at hn
      exact hc ⟨m, n, a⟩ ((Automaton.mem_edges hw).mpr hn)

theorem pairs_of (hw : AWF d) (hq : ∀ q, d.initial = some q → q ∈ d.vertices) (hc : ∀ e ∈ d.edges, e.target ∈ d.vertices)
    (hi : ∀ w, Pbfs.pairOf (x1.read d) (x2.read d) w ≠ start x1 x2 d → Pbfs.pairOf (x1.read d) (x2.read d) w ≠ (none, none) →
      op ((x1.read d).isInitialO (Pbfs.pairOf (x1.read d) (x2.read d) w).1) ((x2.read d).isInitialO (Pbfs.pairOf (x1.read d) (x2.read d) w).2) = false)
    (ht : op true true = true) (hm : ∀ a b a' b', (a' = true → a = true) → (b' = true → b = true) → op a b = false → op a' b' = false) :
    Pairs op x1 x2 d (fun p => ∃ w, p = Pbfs.pairOf (x1.read d) (x2.read d) w) := by
  refine ⟨?_, ?_, ⟨[], rfl⟩, ?_, ht, hm⟩
  · rintro p ⟨w, rfl⟩
    constructor
    · cases x1 with
      | other g => trivial
      | same => exact old_word hw hq hc w
    · cases x2 with
      | other g => trivial
      | same => exact old_word hw hq hc w
  · rintro p ⟨w, rfl⟩ h1 h2
    exact hi w h1 h2
  · rintro p a ⟨w, rfl⟩
    exact ⟨w ++ [a], (Pbfs.pairOf_snoc w a).symm⟩

theorem inter_eq (hw : AWF d) (hq : ∀ q, d.initial = some q → q ∈ d.vertices) (hc : ∀ e ∈ d.edges, e.target ∈ d.vertices) (x1 x2 : ProductArg A) (ord : SetOracle A) :
    deterministicIntersectionA ord x1 x2 d = deterministicIntersectionInto ord (x1.read d) (x2.read d) d := by
  have hR : Pairs (fun a b => a && b) x1 x2 d (fun p => ∃ w, p = Pbfs.pairOf (x1.read d) (x2.read d) w) := by
    refine pairs_of hw hq hc ?_ rfl (by decide)
    intro w h1 _
    by_contra h
    simp only [Bool.not_eq_false, Bool.and_eq_true, isInitialO, decide_eq_true_eq] at h
    exact h1 (Prod.ext h.1.symm h.2.symm)
  funext fuel
  unfold deterministicIntersectionA deterministicIntersectionInto
  rw [pbfsA_eq hR (agree_inter hR)]

theorem union_eq (hw : AWF d) (hq : ∀ q, d.initial = some q → q ∈ d.vertices) (hc : ∀ e ∈ d.edges, e.target ∈ d.vertices) (x1 x2 : ProductArg A)
    (hz : ∀ w, Pbfs.pairOf (x1.read d) (x2.read d) w ≠ start x1 x2 d → Pbfs.pairOf (x1.read d) (x2.read d) w ≠ (none, none) →
      (Pbfs.pairOf (x1.read d) (x2.read d) w).1 ≠ (x1.read d).initial ∧ (Pbfs.pairOf (x1.read d) (x2.read d) w).2 ≠ (x2.read d).initial) (ord : SetOracle A) :
    deterministicUnionA ord x1 x2 d = deterministicUnionInto ord (x1.read d) (x2.read d) d := by
  have hR : Pairs (fun a b => a || b) x1 x2 d (fun p => ∃ w, p = Pbfs.pairOf (x1.read d) (x2.read d) w) := by
    refine pairs_of hw hq hc ?_ rfl (by decide)
    intro w h1 h2
    obtain ⟨k1, k2⟩ := hz w h1 h2
    simp only [isInitialO, Bool.or_eq_false_iff, decide_eq_false_iff_not]
    exact ⟨fun h => k1 h.symm, fun h => k2 h.symm⟩
  funext fuel
  unfold deterministicUnionA deterministicUnionInto
  rw [pbfsA_eq hR (agree_union hR)]

end Alias
end PyBGL
