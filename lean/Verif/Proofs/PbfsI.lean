import Verif.Model.PbfsI
import Verif.Proofs.PyLemmas

/-!
# Operands that agree with an automaton give the results of that automaton
-/

namespace PyBGL
variable {A σ : Type} [DecidableEq A]

/-- The object answers like the automaton `g` on the states of `V`, which contains the initial state and is closed under `delta`. -/
structure DetI.Agrees (I : DetI A) (g : Automaton A) (V : Option Nat → Prop) : Prop where
  initial : I.initial = g.initial
  bot : V none
  start : V g.initial
  closed : ∀ q a, V q → V (g.deltaO q a)
  isInitial : ∀ q, V q → I.isInitial q = g.isInitialO q
  isFinal : ∀ q, V q → I.isFinal q = g.isFinalO q
  sigma : ∀ q, V q → I.sigma q = .ok (g.sigmaO q)
  delta : ∀ q a, V q → I.delta q a = .ok (g.deltaO q a)

theorem Automaton.detI_agrees (g : Automaton A) : g.detI.Agrees g (fun _ => True) :=
  ⟨rfl, trivial, trivial, fun _ _ _ => trivial, fun _ _ => rfl, fun _ _ => rfl, fun _ _ => rfl, fun _ _ _ => rfl⟩

/-- The states that an edge mentions are in `V`. -/
def AEdge.In (V : Option Nat → Prop) (e : Option (AEdge A)) : Prop := V (e.map AEdge.source) ∧ V (e.bind AEdge.target)

/-- The states that an event mentions are in `V1` and `V2`. -/
def PEvent.In (V1 V2 : Option Nat → Prop) : PEvent A → Prop
  | .start q1 q2 => V1 q1 ∧ V2 q2
  | .examineVertex q1 q2 => V1 q1 ∧ V2 q2
  | .discover q1 q2 => V1 q1 ∧ V2 q2
  | .finish q1 q2 => V1 q1 ∧ V2 q2
  | .examineSymbol q1 q2 _ => V1 q1 ∧ V2 q2
  | .examineEdge e1 e2 _ => AEdge.In V1 e1 ∧ AEdge.In V2 e2
  | .treeEdge e1 e2 _ => AEdge.In V1 e1 ∧ AEdge.In V2 e2
  | .grayTarget e1 e2 _ => AEdge.In V1 e1 ∧ AEdge.In V2 e2
  | .blackTarget e1 e2 _ => AEdge.In V1 e1 ∧ AEdge.In V2 e2

namespace PbfsI
variable {I1 : σ → DetI A} {I2 : DetI A} {g1 : σ → Automaton A} {g2 : Automaton A} {V1 V2 : Option Nat → Prop}
  {push : Option (AEdge A) → Option (AEdge A) → Bool} {vis' vis : Visitor (PEvent A) σ}

/-- Visitors that agree on the events about `V1` and `V2`. -/
def VisEq (V1 V2 : Option Nat → Prop) (vis' vis : Visitor (PEvent A) σ) : Prop := ∀ ev st, PEvent.In V1 V2 ev → vis' ev st = vis ev st

theorem getEdge_eq {I : DetI A} {g : Automaton A} {V : Option Nat → Prop} (h : I.Agrees g V) {q r : Option Nat} {a : A} (hq : V q) (hr : V r) :
    getEdgeI I q r a = .ok (getEdge g q r a) ∧ AEdge.In V (getEdge g q r a) := by
  unfold getEdgeI getEdge
  cases q with
  | none => exact ⟨rfl, h.bot, h.bot⟩
  | some q =>
    simp only [h.delta _ _ hq]
    refine ⟨rfl, ?_⟩
    by_cases hd : r = g.delta q a
    · rw [if_pos hd]; exact ⟨hq, hr⟩
    · rw [if_neg hd]; exact ⟨hq, h.bot⟩

theorem emit_eq (hv : VisEq V1 V2 vis' vis) : ∀ (evs : List (PEvent A)) (st : σ), (∀ ev ∈ evs, PEvent.In V1 V2 ev) → emit vis' evs st = emit vis evs st
  | [], _, _ => rfl
  | ev :: evs, st, h => by
    unfold emit
    rw [List.foldlM_cons, List.foldlM_cons, hv ev st (h ev (by simp))]
    cases vis ev st with
    | error e => rfl
    | ok st => exact emit_eq hv evs st (fun ev' h' => h ev' (by simp [h']))

/-- All the pairs of the queue are about `V1` and `V2`. -/
def QIn (V1 V2 : Option Nat → Prop) (s : PbfsState σ) : Prop := ∀ p ∈ s.queue, V1 p.1 ∧ V2 p.2

theorem classify_eq (hv : VisEq V1 V2 vis' vis) {e1 e2 : Option (AEdge A)} {a : A} {r1 r2 : Option Nat} {s : PbfsState σ}
    (h1 : AEdge.In V1 e1) (h2 : AEdge.In V2 e2) (hr1 : V1 r1) (hr2 : V2 r2) (hs : QIn V1 V2 s) :
    pbfsClassify push vis' e1 e2 a r1 r2 s = pbfsClassify push vis e1 e2 a r1 r2 s ∧
      ∀ s', pbfsClassify push vis e1 e2 a r1 r2 s = .ok s' → QIn V1 V2 s' := by
  unfold pbfsClassify
  have ht : ∀ st, emit vis' [.treeEdge e1 e2 a, .discover r1 r2] st = emit vis [.treeEdge e1 e2 a, .discover r1 r2] st := by
    intro st
    refine emit_eq hv _ st ?_
    intro ev hev
    rcases List.mem_cons.mp hev with rfl | hev
    · exact ⟨h1, h2⟩
    · rw [List.mem_singleton] at hev; subst hev; exact ⟨hr1, hr2⟩
  cases colorOf s.color (r1, r2) with
  | white =>
    simp only [ht]
    refine ⟨trivial, ?_⟩
    intro s' h
    cases he : emit vis [.treeEdge e1 e2 a, .discover r1 r2] s.st with
    | error e => rw [he] at h; cases h
    | ok st =>
      rw [he] at h; cases h
      intro p hp
      by_cases hpu : push e1 e2 = true
      · simp only [hpu, if_true, List.mem_append, List.mem_singleton] at hp
        rcases hp with hp | rfl
        · exact hs p hp
        · exact ⟨hr1, hr2⟩
      · simp only [hpu, if_false] at hp
        exact hs p hp
  | gray =>
    simp only [hv (.grayTarget e1 e2 a) _ ⟨h1, h2⟩]
    refine ⟨trivial, ?_⟩
    intro s' h
    cases he : vis (.grayTarget e1 e2 a) s.st with
    | error e => rw [he] at h; cases h
    | ok st => rw [he] at h; cases h; exact hs
  | black =>
    simp only [hv (.blackTarget e1 e2 a) _ ⟨h1, h2⟩]
    refine ⟨trivial, ?_⟩
    intro s' h
    cases he : vis (.blackTarget e1 e2 a) s.st with
    | error e => rw [he] at h; cases h
    | ok st => rw [he] at h; cases h; exact hs

theorem symbol_eq (hI1 : ∀ st, (I1 st).Agrees (g1 st) V1) (hI2 : I2.Agrees g2 V2) (hv : VisEq V1 V2 vis' vis) {q1 q2 : Option Nat} (hq1 : V1 q1)
    (hq2 : V2 q2) (a : A) {s : PbfsState σ} (hs : QIn V1 V2 s) :
    pbfsSymbolI I1 I2 push vis' q1 q2 a s = pbfsSymbol g1 g2 push vis q1 q2 a s ∧
      ∀ s', pbfsSymbol g1 g2 push vis q1 q2 a s = .ok s' → QIn V1 V2 s' := by
  unfold pbfsSymbolI pbfsSymbol
  rw [(hI1 s.st).delta _ _ hq1, hI2.delta _ _ hq2]
  simp only
  rw [hv (.examineSymbol q1 q2 a) _ ⟨hq1, hq2⟩]
  have hr1 : V1 ((g1 s.st).deltaO q1 a) := (hI1 s.st).closed _ _ hq1
  have hr2 : V2 (g2.deltaO q2 a) := hI2.closed _ _ hq2
  cases vis (.examineSymbol q1 q2 a) s.st with
  | error e => exact ⟨rfl, fun _ h => by cases h⟩
  | ok st =>
    simp only
    obtain ⟨k1, l1⟩ := getEdge_eq (hI1 st) hq1 hr1 (a := a)
    obtain ⟨k2, l2⟩ := getEdge_eq hI2 hq2 hr2 (a := a)
    rw [k1, k2]
    simp only
    rw [hv (.examineEdge _ _ a) _ ⟨l1, l2⟩]
    cases vis (.examineEdge (getEdge (g1 st) q1 ((g1 s.st).deltaO q1 a) a) (getEdge g2 q2 (g2.deltaO q2 a) a) a) st with
    | error e => exact ⟨rfl, fun _ h => by cases h⟩
    | ok st' => exact classify_eq hv l1 l2 hr1 hr2 hs

theorem symbols_eq (hI1 : ∀ st, (I1 st).Agrees (g1 st) V1) (hI2 : I2.Agrees g2 V2) (hv : VisEq V1 V2 vis' vis) {q1 q2 : Option Nat} (hq1 : V1 q1)
    (hq2 : V2 q2) : ∀ (as : List A) {s : PbfsState σ}, QIn V1 V2 s →
    pbfsSymbolsI I1 I2 push vis' q1 q2 as s = pbfsSymbols g1 g2 push vis q1 q2 as s ∧
      ∀ s', pbfsSymbols g1 g2 push vis q1 q2 as s = .ok s' → QIn V1 V2 s'
  | [], s, hs => ⟨rfl, fun s' h => by cases h; exact hs⟩
  | a :: as, s, hs => by
    obtain ⟨k1, k2⟩ := symbol_eq (push := push) hI1 hI2 hv hq1 hq2 a hs
    unfold pbfsSymbolsI pbfsSymbols
    rw [k1]
    cases hk : pbfsSymbol g1 g2 push vis q1 q2 a s with
    | error e => exact ⟨rfl, fun _ h => by cases h⟩
    | ok s' => exact symbols_eq hI1 hI2 hv hq1 hq2 as (k2 _ hk)

theorem loop_eq (ord : SetOracle A) (hI1 : ∀ st, (I1 st).Agrees (g1 st) V1) (hI2 : I2.Agrees g2 V2) (hv : VisEq V1 V2 vis' vis) :
    ∀ (fuel t : Nat) {s : PbfsState σ}, QIn V1 V2 s →
    loop (pbfsStepI ord I1 I2 push vis') fuel t s = loop (pbfsStep ord g1 g2 push vis) fuel t s
  | 0, _, _, _ => rfl
  | fuel + 1, t, s, hs => by
    have hstep : pbfsStepI ord I1 I2 push vis' t s = pbfsStep ord g1 g2 push vis t s ∧
        ∀ s', pbfsStep ord g1 g2 push vis t s = .next s' → QIn V1 V2 s' := by
      unfold pbfsStepI pbfsStep
      cases hq : s.queue with
      | nil => exact ⟨rfl, fun _ h => by cases h⟩
      | cons p queue =>
        obtain ⟨q1, q2⟩ := p
        have hq1 := hs (q1, q2) (by rw [hq]; simp)
        simp only
        rw [hv (.examineVertex q1 q2) _ hq1]
        cases vis (.examineVertex q1 q2) s.st with
        | error e => exact ⟨rfl, fun _ h => by cases h⟩
        | ok st =>
          simp only
          rw [(hI1 st).sigma _ hq1.1, hI2.sigma _ hq1.2]
          simp only
          have hs' : QIn V1 V2 (⟨s.color, st, queue⟩ : PbfsState σ) := fun p hp => hs p (by rw [hq]; simp [hp])
          obtain ⟨k1, k2⟩ := symbols_eq (push := push) hI1 hI2 hv hq1.1 hq1.2 (ord t (setUnion ((g1 st).sigmaO q1) (g2.sigmaO q2))) hs'
          rw [k1]
          cases hk : pbfsSymbols g1 g2 push vis q1 q2 (ord t (setUnion ((g1 st).sigmaO q1) (g2.sigmaO q2))) ⟨s.color, st, queue⟩ with
          | error e => exact ⟨rfl, fun _ h => by cases h⟩
          | ok s' =>
            simp only
            rw [hv (.finish q1 q2) _ hq1]
            cases vis (.finish q1 q2) s'.st with
            | error e => exact ⟨rfl, fun _ h => by cases h⟩
            | ok st' =>
              refine ⟨rfl, ?_⟩
              intro s'' h
              cases h
              exact k2 s' hk
    unfold loop
    rw [hstep.1]
    cases hk : pbfsStep ord g1 g2 push vis t s with
    | next s' => exact loop_eq ord hI1 hI2 hv fuel (t + 1) (hstep.2 _ hk)
    | done r => rfl
    | fail e => rfl

/-- The search on objects that agree with automata is the search on these automata. -/
theorem pbfs_eq (ord : SetOracle A) (hI1 : ∀ st, (I1 st).Agrees (g1 st) V1) (hI2 : I2.Agrees g2 V2) (hv : VisEq V1 V2 vis' vis) (sources : List StatePair)
    (hs : ∀ p ∈ sources, V1 p.1 ∧ V2 p.2) (st : σ) (fuel : Nat) :
    pbfsI ord I1 I2 sources push vis' st fuel = pbfs ord g1 g2 sources push vis st fuel := by
  unfold pbfsI pbfs
  rw [emit_eq hv _ _ (by
    intro ev hev
    obtain ⟨p, hp, rfl⟩ := List.mem_map.mp hev
    exact hs p hp)]
  cases emit vis (sources.map fun p => PEvent.start p.1 p.2) st with
  | error e => rfl
  | ok st => exact loop_eq ord hI1 hI2 hv fuel 0 hs

end PbfsI

section
variable {I1 I2 : DetI A} {g1 g2 : Automaton A} {V1 V2 : Option Nat → Prop}

theorem sources_in (h1 : I1.Agrees g1 V1) (h2 : I2.Agrees g2 V2) : ∀ p ∈ [(g1.initial, g2.initial)], V1 p.1 ∧ V2 p.2 := by
  intro p hp
  rw [List.mem_singleton] at hp
  subst hp
  exact ⟨h1.start, h2.start⟩

theorem deterministicInclusionI_eq (h1 : I1.Agrees g1 V1) (h2 : I2.Agrees g2 V2) (ord : SetOracle A) :
    deterministicInclusionI ord I1 I2 = deterministicInclusion ord g1 g2 := by
  have hv : PbfsI.VisEq V1 V2 (inclVisitorI I1 I2) (inclVisitor g1 g2) := by
    intro ev st h
    cases ev with
    | start q1 q2 => simp only [inclVisitorI, inclVisitor, inclUpdateI, inclUpdate, h1.isFinal _ h.1, h2.isFinal _ h.2]
    | discover q1 q2 => simp only [inclVisitorI, inclVisitor, inclUpdateI, inclUpdate, h1.isFinal _ h.1, h2.isFinal _ h.2]
    | _ => rfl
  funext fuel
  unfold deterministicInclusionI deterministicInclusion
  rw [h1.initial, h2.initial, PbfsI.pbfs_eq ord (fun _ => h1) h2 hv _ (sources_in h1 h2)]
  rfl

theorem trieMatchingI_eq (h1 : I1.Agrees g1 V1) (h2 : I2.Agrees g2 V2) (ord : SetOracle A) :
    trieMatchingI ord I1 I2 = trieMatching ord g1 g2 := by
  have hv : PbfsI.VisEq V1 V2 (matchVisitorI I1 I2) (matchVisitor g1 g2) := by
    intro ev st h
    cases ev with
    | start q1 q2 => simp only [matchVisitorI, matchVisitor, matchUpdateI, matchUpdate, h1.isFinal _ h.1, h2.isFinal _ h.2]
    | discover q1 q2 => simp only [matchVisitorI, matchVisitor, matchUpdateI, matchUpdate, h1.isFinal _ h.1, h2.isFinal _ h.2]
    | _ => rfl
  funext fuel
  unfold trieMatchingI trieMatching
  rw [h1.initial, h2.initial, PbfsI.pbfs_eq ord (fun _ => h1) h2 hv _ (sources_in h1 h2)]

theorem Product.getOrCreateI_eq (h1 : I1.Agrees g1 V1) (h2 : I2.Agrees g2 V2) (op : Bool → Bool → Bool) {q1 q2 : Option Nat} (k1 : V1 q1) (k2 : V2 q2)
    (s : Product A) : s.getOrCreateI op I1 I2 q1 q2 = s.getOrCreate op g1 g2 q1 q2 := by
  unfold Product.getOrCreateI Product.getOrCreate Product.addVertexI Product.addVertex
  simp only [h1.isInitial _ k1, h1.isFinal _ k1, h2.isInitial _ k2, h2.isFinal _ k2]
  rfl

theorem Product.addEdgeI_eq (h1 : I1.Agrees g1 V1) (h2 : I2.Agrees g2 V2) (op : Bool → Bool → Bool) {e1 e2 : Option (AEdge A)} (k1 : AEdge.In V1 e1)
    (k2 : AEdge.In V2 e2) (s : Product A) : s.addEdgeI op I1 I2 e1 e2 = s.addEdge op g1 g2 e1 e2 := by
  unfold Product.addEdgeI Product.addEdge
  rw [Product.getOrCreateI_eq h1 h2 op k1.1 k2.1]
  simp only [Product.getOrCreateI_eq h1 h2 op k1.2 k2.2]
  rfl

theorem deterministicIntersectionI_eq (h1 : I1.Agrees g1 V1) (h2 : I2.Agrees g2 V2) (ord : SetOracle A) :
    deterministicIntersectionI ord I1 I2 = deterministicIntersection ord g1 g2 := by
  have hv : PbfsI.VisEq V1 V2 (interVisitorI I1 I2) (interVisitor g1 g2) := by
    intro ev st h
    cases ev with
    | examineEdge e1 e2 a => simp only [interVisitorI, interVisitor, Product.addEdgeI_eq h1 h2 _ h.1 h.2]; rfl
    | _ => rfl
  funext fuel
  unfold deterministicIntersectionI deterministicIntersection
  rw [h1.initial, h2.initial, PbfsI.pbfs_eq ord (fun _ => h1) h2 hv _ (sources_in h1 h2)]

theorem deterministicUnionI_eq (h1 : I1.Agrees g1 V1) (h2 : I2.Agrees g2 V2) (ord : SetOracle A) :
    deterministicUnionI ord I1 I2 = deterministicUnion ord g1 g2 := by
  have hv : PbfsI.VisEq V1 V2 (unionVisitorI I1 I2) (unionVisitor g1 g2) := by
    intro ev st h
    cases ev with
    | examineEdge e1 e2 a => simp only [unionVisitorI, unionVisitor, Product.addEdgeI_eq h1 h2 _ h.1 h.2]
    | _ => rfl
  funext fuel
  unfold deterministicUnionI deterministicUnion
  rw [h1.initial, h2.initial, PbfsI.pbfs_eq ord (fun _ => h1) h2 hv _ (sources_in h1 h2)]

theorem trieFusionI_eq (h2 : I2.Agrees g2 V2) (ord : SetOracle A) : trieFusionI ord g1 I2 = trieFusion ord g1 g2 := by
  have hv : PbfsI.VisEq (fun _ => True) V2 (fusionVisitorI I2) (fusionVisitor g2) := by
    intro ev st h
    cases ev with
    | start q1 q2 => simp only [fusionVisitorI, fusionVisitor, h2.isFinal _ h.2]
    | examineEdge e1 e2 a => simp only [fusionVisitorI, fusionVisitor, h2.isFinal _ h.2.2]; rfl
    | _ => rfl
  funext fuel
  unfold trieFusionI trieFusion
  rw [h2.initial, PbfsI.pbfs_eq ord (fun st => Automaton.detI_agrees (Fusion.g1 st)) h2 hv _ (sources_in (Automaton.detI_agrees g1) h2)]

end

end PyBGL
