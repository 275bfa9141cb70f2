import Verif.Proofs.Dfs
import Mathlib.Data.List.Perm.Subperm
import Verif.Spec.Traversal

/-!
# Breadth-first search: big steps, simulation, invariants
-/

namespace PyBGL
variable {V E σ : Type}

namespace Bfs

section projections

@[simp] theorem discovered_nil : discovered ([] : List (BfsEvent V E)) = [] := rfl
@[simp] theorem finished_nil : finished ([] : List (BfsEvent V E)) = [] := rfl
@[simp] theorem examined_nil : examined ([] : List (BfsEvent V E)) = [] := rfl
@[simp] theorem classified_nil : classified ([] : List (BfsEvent V E)) = [] := rfl
@[simp] theorem examinedVertices_nil : examinedVertices ([] : List (BfsEvent V E)) = [] := rfl

@[simp] theorem discovered_append (a b : List (BfsEvent V E)) : discovered (a ++ b) = discovered a ++ discovered b := by
  simp [discovered]
@[simp] theorem finished_append (a b : List (BfsEvent V E)) : finished (a ++ b) = finished a ++ finished b := by
  simp [finished]
@[simp] theorem examined_append (a b : List (BfsEvent V E)) : examined (a ++ b) = examined a ++ examined b := by
  simp [examined]
@[simp] theorem classified_append (a b : List (BfsEvent V E)) : classified (a ++ b) = classified a ++ classified b := by
  simp [classified]
@[simp] theorem examinedVertices_append (a b : List (BfsEvent V E)) :
    examinedVertices (a ++ b) = examinedVertices a ++ examinedVertices b := by
  simp [examinedVertices]

@[simp] theorem discovered_cons (x : BfsEvent V E) (a : List (BfsEvent V E)) :
    discovered (x :: a) = (match x with | .discover u => [u] | _ => []) ++ discovered a := by
  cases x <;> rfl
@[simp] theorem finished_cons (x : BfsEvent V E) (a : List (BfsEvent V E)) :
    finished (x :: a) = (match x with | .finish u => [u] | _ => []) ++ finished a := by
  cases x <;> rfl
@[simp] theorem examined_cons (x : BfsEvent V E) (a : List (BfsEvent V E)) :
    examined (x :: a) = (match x with | .examineEdge u => [u] | _ => []) ++ examined a := by
  cases x <;> rfl
@[simp] theorem classified_cons (x : BfsEvent V E) (a : List (BfsEvent V E)) :
    classified (x :: a) = (match x with | .treeEdge e => [e] | .nonTreeEdge e => [e] | _ => []) ++ classified a := by
  cases x <;> rfl
@[simp] theorem examinedVertices_cons (x : BfsEvent V E) (a : List (BfsEvent V E)) :
    examinedVertices (x :: a) = (match x with | .examineVertex u => [u] | _ => []) ++ examinedVertices a := by
  cases x <;> rfl

theorem mem_discovered {tr : List (BfsEvent V E)} {v : V} : v ∈ discovered tr ↔ .discover v ∈ tr := by
  induction tr with
  | nil => simp
  | cons x tr ih => cases x <;> simp [ih]

end projections

variable [DecidableEq V]

/-- The calls made by the loop over the edges, with the new colours and queue. -/
def edgesTrace (g : GraphI V E) (p : E → Bool) : List E → Dict V Color → List V → List (BfsEvent V E) × Dict V Color × List V
  | [], c, q => ([], c, q)
  | e :: es, c, q =>
    if p e then
      match colorOf c (g.target e) with
      | .white =>
        let r := edgesTrace g p es (c.set (g.target e) .gray) (q ++ [g.target e])
        ([.ifPush e, .examineEdge e, .treeEdge e, .discover (g.target e)] ++ r.1, r.2)
      | .gray =>
        let r := edgesTrace g p es c q
        ([.ifPush e, .examineEdge e, .nonTreeEdge e, .grayTarget e] ++ r.1, r.2)
      | .black =>
        let r := edgesTrace g p es c q
        ([.ifPush e, .examineEdge e, .nonTreeEdge e, .blackTarget e] ++ r.1, r.2)
    else
      let r := edgesTrace g p es c q
      ([.ifPush e] ++ r.1, r.2)

theorem bfsEdges_eq (g : GraphI V E) (p : E → Bool) (vis : Visitor (BfsEvent V E) σ) (es : List E) (c : Dict V Color) (st : σ) (q : List V) :
    bfsEdges g p vis es ⟨c, st, q⟩ = match emit vis (edgesTrace g p es c q).1 st with
      | .error err => .error err
      | .ok st' => .ok ⟨(edgesTrace g p es c q).2.1, st', (edgesTrace g p es c q).2.2⟩ := by
  induction es generalizing c st q with
  | nil => simp [bfsEdges, edgesTrace]
  | cons e es ih =>
    unfold bfsEdges edgesTrace
    by_cases hp : p e = true
    · simp only [hp, if_true]
      cases hc : colorOf c (g.target e) <;> simp only [List.cons_append, List.nil_append, emit_cons] <;>
        cases vis (.ifPush e) st with
        | error err => rfl
        | ok s1 =>
          simp only
          cases vis (.examineEdge e) s1 with
          | error err => rfl
          | ok s2 =>
            simp only [emit_nil]
            first
            | (cases vis (.treeEdge e) s2 with
              | error err => rfl
              | ok s3 =>
                simp only
                cases vis (.discover (g.target e)) s3 with
                | error err => rfl
                | ok s4 => exact ih _ _ _)
            | (cases vis (.nonTreeEdge e) s2 with
              | error err => rfl
              | ok s3 =>
                simp only
                first
                | (cases vis (.grayTarget e) s3 with
                  | error err => rfl
                  | ok s4 => exact ih _ _ _)
                | (cases vis (.blackTarget e) s3 with
                  | error err => rfl
                  | ok s4 => exact ih _ _ _))
    · simp only [hp, Bool.false_eq_true, if_false, List.cons_append, List.nil_append, emit_cons]
      cases vis (.ifPush e) st with
      | error err => rfl
      | ok s1 => exact ih _ _ _

/-- The calls made while treating a vertex. -/
def vertexTrace (g : GraphI V E) (p : E → Bool) (u : V) (c : Dict V Color) (q : List V) : List (BfsEvent V E) :=
  [.examineVertex u] ++ ((edgesTrace g p (g.outEdges u) c q).1 ++ [.finish u])

theorem bfsStep_sim (g : GraphI V E) (p : E → Bool) (vis : Visitor (BfsEvent V E) σ) (u : V) (c : Dict V Color) (q : List V) :
    Sim (bfsStep g p vis) (fun (a : Dict V Color × List V) st => ⟨a.1, st, a.2⟩) vis (c, u :: q) (vertexTrace g p u c q)
      ((edgesTrace g p (g.outEdges u) c q).2.1.set u .black, (edgesTrace g p (g.outEdges u) c q).2.2) := by
  apply Sim.one
  intro t st
  unfold bfsStep vertexTrace
  simp only [List.cons_append, List.nil_append, emit_cons, emit_append]
  cases vis (.examineVertex u) st with
  | error e => rfl
  | ok s1 =>
    simp only [bfsEdges_eq]
    cases emit vis (edgesTrace g p (g.outEdges u) c q).1 s1 with
    | error e => rfl
    | ok s2 =>
      simp only [emit_nil]
      cases vis (.finish u) s2 <;> rfl

/-- Big steps of breadth-first search: from the colours `c` and the queue `q`, the calls `tr` are made and the final colours are `c'`. -/
inductive Run (g : GraphI V E) (p : E → Bool) : Dict V Color → List V → List (BfsEvent V E) → Dict V Color → Prop
  | nil (c : Dict V Color) : Run g p c [] [] c
  | cons {c c' : Dict V Color} {u : V} {q : List V} {tr : List (BfsEvent V E)}
      (h : Run g p ((edgesTrace g p (g.outEdges u) c q).2.1.set u .black) (edgesTrace g p (g.outEdges u) c q).2.2 tr c') :
      Run g p c (u :: q) (vertexTrace g p u c q ++ tr) c'

theorem Run.sim {g : GraphI V E} {p : E → Bool} {c c' : Dict V Color} {q : List V} {tr : List (BfsEvent V E)} (h : Run g p c q tr c')
    (vis : Visitor (BfsEvent V E) σ) :
    Sim (bfsStep g p vis) (fun (a : Dict V Color × List V) st => ⟨a.1, st, a.2⟩) vis (c, q) tr (c', []) := by
  induction h with
  | nil c => exact Sim.refl _
  | cons h ih => exact (bfsStep_sim g p vis _ _ _).trans ih

/-- Outcome of a traversal that makes the calls `tr`. -/
def outcome (vis : Visitor (BfsEvent V E) σ) (c : Dict V Color) (tr : List (BfsEvent V E)) (st : σ) : Except PyErr (Dict V Color × σ) :=
  match emit vis tr st with
  | .error e => .error e
  | .ok st' => .ok (c, st')

theorem Run.returns {g : GraphI V E} {p : E → Bool} {c c' : Dict V Color} {q : List V} {tr : List (BfsEvent V E)} (h : Run g p c q tr c')
    (vis : Visitor (BfsEvent V E) σ) (st : σ) :
    Returns (fun fuel => loop (bfsStep g p vis) fuel 0 ⟨c, st, q⟩) (outcome vis c' tr st) := by
  obtain ⟨h1, h2⟩ := h.sim vis st
  unfold outcome
  cases he : emit vis tr st with
  | error e =>
    obtain ⟨k, hk⟩ := h2 e he
    exact ⟨k, fun fuel hf => by
      obtain ⟨n, rfl⟩ : ∃ n, fuel = n + k := ⟨fuel - k, by omega⟩
      exact hk n 0⟩
  | ok st' =>
    obtain ⟨k, hk⟩ := h1 st' he
    refine ⟨k + 1, fun fuel hf => ?_⟩
    obtain ⟨n, rfl⟩ : ∃ n, fuel = n + 1 + k := ⟨fuel - k - 1, by omega⟩
    obtain ⟨t', ht⟩ := hk (n + 1) 0
    show loop _ _ _ _ = _
    rw [ht, loop]
    rfl

theorem bfsInit_eq (vis : Visitor (BfsEvent V E) σ) (us : List V) (c : Dict V Color) (st : σ) (q : List V) :
    bfsInit vis us ⟨c, st, q⟩ = match emit vis (us.map .discover) st with
      | .error err => .error err
      | .ok st' => .ok ⟨us.foldl (fun c u => c.set u .gray) c, st', us.reverse ++ q⟩ := by
  induction us generalizing c st q with
  | nil => rfl
  | cons u us ih =>
    unfold bfsInit
    rw [List.map_cons, emit_cons]
    cases vis (.discover u) st with
    | error e => rfl
    | ok s1 =>
      simp only
      rw [ih]
      simp

theorem bfsGraph_returns {g : GraphI V E} {p : E → Bool} {us : List V} {c c' : Dict V Color} {tr : List (BfsEvent V E)}
    (h : Run g p (us.foldl (fun c u => c.set u .gray) c) us.reverse tr c') (vis : Visitor (BfsEvent V E) σ) (st : σ) :
    Returns (bfsGraph g us p vis c st) (outcome vis c' (us.map .discover ++ tr) st) := by
  unfold outcome
  rw [emit_append]
  cases he : emit vis (us.map .discover) st with
  | error e => exact ⟨0, fun fuel _ => by simp [bfsGraph, bfsInit_eq, he]⟩
  | ok st' =>
    obtain ⟨N, hN⟩ := h.returns vis st'
    refine ⟨N, fun fuel hf => ?_⟩
    have := hN fuel hf
    simp only [bfsGraph, bfsInit_eq, he, List.append_nil]
    exact this

/-! ## Invariants -/

/-- What holds at each call. -/
def OK (g : GraphI V E) (p : E → Bool) (us : List V) (pre : List (BfsEvent V E)) : BfsEvent V E → Prop
  | .initializeVertex _ => False
  | .discover v => v ∉ discovered pre ∧ (v ∈ us ∨ ∃ e pre', pre = pre' ++ [.treeEdge e] ∧ g.target e = v)
  | .examineVertex u => u ∈ discovered pre ∧ u ∉ examinedVertices pre ∧ examinedVertices pre = finished pre
  | .ifPush e => ∃ u, examinedVertices pre = finished pre ++ [u] ∧ e ∈ g.outEdges u
  | .examineEdge e => ∃ u, examinedVertices pre = finished pre ++ [u] ∧ e ∈ pushed g p u
  | .treeEdge e => g.target e ∉ discovered pre ∧ ∃ pre', pre = pre' ++ [.examineEdge e]
  | .nonTreeEdge e => g.target e ∈ discovered pre ∧ ∃ pre', pre = pre' ++ [.examineEdge e]
  | .grayTarget e => g.target e ∈ discovered pre ∧ g.target e ∉ finished pre ∧ ∃ pre', pre = pre' ++ [.nonTreeEdge e]
  | .blackTarget e => g.target e ∈ finished pre ∧ ∃ pre', pre = pre' ++ [.nonTreeEdge e]
  | .finish u => examinedVertices pre = finished pre ++ [u] ∧ ∀ e ∈ pushed g p u, .examineEdge e ∈ pre ∧ g.target e ∈ discovered pre

/-- The invariant: `cur` is the vertex being treated, if any, and `done` its relevant edges already examined. -/
structure Inv (g : GraphI V E) (p : E → Bool) (us : List V) (pre : List (BfsEvent V E)) (c : Dict V Color) (q : List V) (cur : List V)
    (done : List E) (dep : V → Nat) : Prop where
  col : ∀ v, colorOf c v = if v ∈ finished pre then .black else if v ∈ discovered pre then .gray else .white
  nodup : (discovered pre).Nodup
  fifo : examinedVertices pre ++ q = us.reverse ++ (discovered pre).drop us.length
  src : (discovered pre).take us.length = us
  src0 : ∀ s ∈ us, dep s = 0
  fin : examinedVertices pre = finished pre ++ cur
  edges : examined pre = (finished pre).flatMap (pushed g p) ++ done
  cls : classified pre = examined pre
  closed : ∀ u ∈ finished pre, ∀ e ∈ pushed g p u, g.target e ∈ discovered pre ∧ dep (g.target e) ≤ dep u + 1
  cdone : ∀ u ∈ cur, ∀ e ∈ done, .examineEdge e ∈ pre ∧ g.target e ∈ discovered pre ∧ dep (g.target e) ≤ dep u + 1
  sorted : (discovered pre).Pairwise (fun a b => dep a ≤ dep b)
  qsorted : (cur ++ q).Pairwise (fun a b => dep a ≤ dep b)
  bound : ∀ u ∈ cur ++ q, ∀ v ∈ discovered pre, dep v ≤ dep u + 1
  tree : ∀ v ∈ discovered pre, ∃ s ∈ us, ∃ es, IsPath (g.through p) s es v ∧ es.length = dep v ∧ ∀ e ∈ es, .treeEdge e ∈ pre
  ok : AllOK (OK g p us) [] pre

variable {g : GraphI V E} {p : E → Bool} {us : List V}

theorem Inv.perm {pre : List (BfsEvent V E)} {c : Dict V Color} {q cur : List V} {done : List E} {dep : V → Nat}
    (i : Inv g p us pre c q cur done dep) : (finished pre ++ cur ++ q).Perm (discovered pre) := by
  rw [← i.fin, i.fifo]
  have : (us ++ (discovered pre).drop us.length) = discovered pre := by
    conv_lhs => arg 1; rw [← i.src]
    exact List.take_append_drop _ _
  calc (us.reverse ++ (discovered pre).drop us.length).Perm (us ++ (discovered pre).drop us.length) := (List.reverse_perm us).append_right _
    _ = discovered pre := this

theorem Inv.white {pre : List (BfsEvent V E)} {c : Dict V Color} {q cur : List V} {done : List E} {dep : V → Nat}
    (i : Inv g p us pre c q cur done dep) {v : V} : colorOf c v = .white ↔ v ∉ discovered pre := by
  rw [i.col]
  have := i.perm.mem_iff (a := v)
  by_cases h1 : v ∈ finished pre
  · have h2 : v ∈ discovered pre := this.mp (by simp [h1])
    simp [h1, h2]
  · by_cases h2 : v ∈ discovered pre <;> simp [h1, h2]

theorem Inv.gray {pre : List (BfsEvent V E)} {c : Dict V Color} {q cur : List V} {done : List E} {dep : V → Nat}
    (i : Inv g p us pre c q cur done dep) {v : V} : colorOf c v = .gray ↔ v ∈ discovered pre ∧ v ∉ finished pre := by
  rw [i.col]
  by_cases h1 : v ∈ finished pre <;> by_cases h2 : v ∈ discovered pre <;> simp [h1, h2]

theorem Inv.black {pre : List (BfsEvent V E)} {c : Dict V Color} {q cur : List V} {done : List E} {dep : V → Nat}
    (i : Inv g p us pre c q cur done dep) {v : V} : colorOf c v = .black ↔ v ∈ finished pre := by
  rw [i.col]
  by_cases h1 : v ∈ finished pre <;> by_cases h2 : v ∈ discovered pre <;> simp [h1, h2]

theorem allOK_snoc {Ev : Type} {OK : List Ev → Ev → Prop} {pre : List Ev} {x : Ev} (h : AllOK OK [] pre) (hx : OK pre x) :
    AllOK OK [] (pre ++ [x]) := allOK_append.mpr ⟨h, by simpa [AllOK] using hx⟩

/-- Calls that discover and finish nothing. -/
theorem Inv.quiet {pre t : List (BfsEvent V E)} {c : Dict V Color} {q : List V} {u : V} {done dn : List E} {dep : V → Nat}
    (i : Inv g p us pre c q [u] done dep) (h1 : discovered t = []) (h2 : finished t = []) (h3 : examinedVertices t = [])
    (h4 : examined t = dn) (h5 : classified t = dn) (h6 : ∀ e ∈ dn, .examineEdge e ∈ t ∧ g.target e ∈ discovered pre)
    (ok : AllOK (OK g p us) [] (pre ++ t)) : Inv g p us (pre ++ t) c q [u] (done ++ dn) dep := by
  have k1 : discovered (pre ++ t) = discovered pre := by simp [h1]
  have k2 : finished (pre ++ t) = finished pre := by simp [h2]
  have k3 : examinedVertices (pre ++ t) = examinedVertices pre := by simp [h3]
  refine ⟨?_, ?_, ?_, ?_, ?_, ?_, ?_, ?_, ?_, ?_, ?_, i.qsorted, ?_, ?_, ok⟩
  · rw [k1, k2]; exact i.col
  · rw [k1]; exact i.nodup
  · rw [k1, k3]; exact i.fifo
  · rw [k1]; exact i.src
  · exact i.src0
  · rw [k2, k3]; exact i.fin
  · rw [examined_append, i.edges, h4, k2, List.append_assoc]
  · rw [examined_append, classified_append, i.cls, h4, h5]
  · rw [k1, k2]; exact i.closed
  · intro w hw e he
    simp only [List.mem_singleton] at hw
    subst hw
    rw [k1]
    rcases List.mem_append.mp he with he | he
    · have := i.cdone w (by simp) e he
      exact ⟨by simp [this.1], this.2⟩
    · have := h6 e he
      exact ⟨by simp [this.1], this.2, i.bound w (by simp) _ this.2⟩
  · rw [k1]; exact i.sorted
  · rw [k1]; exact i.bound
  · rw [k1]
    intro v hv
    obtain ⟨s, hs, es, h1, h2, h3⟩ := i.tree v hv
    exact ⟨s, hs, es, h1, h2, fun e he => by simp [h3 e he]⟩

theorem colorOf_set' (c : Dict V Color) (v w : V) (x : Color) : colorOf (c.set v x) w = if v = w then x else colorOf c w := by
  unfold colorOf; rw [Dict.getD_set]

/-- The discovery of a vertex. -/
theorem Inv.discover {pre : List (BfsEvent V E)} {c : Dict V Color} {q : List V} {u : V} {done : List E} {dep : V → Nat} {e : E}
    (i : Inv g p us pre c q [u] done dep) (hpu : e ∈ pushed g p u) (hw : g.target e ∉ discovered pre)
    (ok : AllOK (OK g p us) [] (pre ++ [.ifPush e, .examineEdge e, .treeEdge e, .discover (g.target e)])) :
    Inv g p us (pre ++ [.ifPush e, .examineEdge e, .treeEdge e, .discover (g.target e)]) (c.set (g.target e) .gray) (q ++ [g.target e]) [u]
      (done ++ [e]) (fun x => if x = g.target e then dep u + 1 else dep x) := by
  have k1 : discovered (pre ++ [.ifPush e, .examineEdge e, .treeEdge e, .discover (g.target e)]) = discovered pre ++ [g.target e] := by simp
  have k2 : finished (pre ++ [.ifPush e, .examineEdge e, .treeEdge e, .discover (g.target e)]) = finished pre := by simp
  have k3 : examinedVertices (pre ++ [.ifPush e, .examineEdge e, .treeEdge e, .discover (g.target e)]) = examinedVertices pre := by simp
  have hl : us.length ≤ (discovered pre).length := by
    have := congrArg List.length i.src
    simp at this; omega
  have hsame : ∀ x ∈ discovered pre, (if x = g.target e then dep u + 1 else dep x) = dep x := by
    intro x hx; rw [if_neg]; rintro rfl; exact hw hx
  have hin : ∀ x, x ∈ finished pre ++ [u] ++ q → x ∈ discovered pre := fun x h => i.perm.mem_iff.mp h
  have hfin : ∀ x ∈ finished pre, x ∈ discovered pre := fun x h => hin x (by simp [h])
  have hcur : ∀ x ∈ [u] ++ q, x ∈ discovered pre := fun x h => hin x (by
    rw [List.append_assoc]; exact List.mem_append_right _ h)
  have hu : u ∈ discovered pre := hcur u (by simp)
  refine ⟨?_, ?_, ?_, ?_, ?_, ?_, ?_, ?_, ?_, ?_, ?_, ?_, ?_, ?_, ok⟩
  · intro v
    rw [k1, k2, colorOf_set', i.col]
    by_cases hv : g.target e = v
    · subst hv
      have : g.target e ∉ finished pre := fun h => hw (hfin _ h)
      simp [this]
    · simp [hv, Ne.symm hv]
  · rw [k1, List.nodup_append]
    exact ⟨i.nodup, by simp, by rintro a ha b hb rfl; simp at hb; subst hb; exact hw ha⟩
  · rw [k1, k3, ← List.append_assoc, i.fifo, List.drop_append_of_le_length hl, List.append_assoc]
  · rw [k1, List.take_append_of_le_length hl]; exact i.src
  · intro s hs
    rw [hsame s (by rw [← i.src] at hs; exact List.mem_of_mem_take hs)]
    exact i.src0 s hs
  · rw [k2, k3]; exact i.fin
  · rw [examined_append, i.edges, k2]; simp
  · rw [examined_append, classified_append, i.cls]; simp
  · rw [k1, k2]
    intro w hw' e' he'
    have h := i.closed w hw' e' he'
    rw [hsame _ h.1, hsame _ (hfin w hw')]
    exact ⟨by simp [h.1], h.2⟩
  · intro w hw' e' he'
    simp only [List.mem_singleton] at hw'
    subst hw'
    rw [k1, hsame _ hu]
    rcases List.mem_append.mp he' with he' | he'
    · have h := i.cdone w (by simp) e' he'
      rw [hsame _ h.2.1]
      exact ⟨by simp [h.1], by simp [h.2.1], h.2.2⟩
    · simp at he'; subst he'; simp
  · rw [k1, List.pairwise_append]
    refine ⟨i.sorted.imp_of_mem (fun ha hb h => by rw [hsame _ ha, hsame _ hb]; exact h), by simp, ?_⟩
    intro a ha b hb
    simp at hb; subst hb
    rw [hsame _ ha, if_pos rfl]
    exact i.bound u (by simp) a ha
  · rw [← List.append_assoc, List.pairwise_append]
    refine ⟨i.qsorted.imp_of_mem (fun ha hb h => by rw [hsame _ (hcur _ ha), hsame _ (hcur _ hb)]; exact h), by simp, ?_⟩
    intro a ha b hb
    simp at hb; subst hb
    rw [hsame _ (hcur a ha), if_pos rfl]
    exact i.bound u (by simp) a (hcur a ha)
  · rw [k1]
    have hge : ∀ w ∈ [u] ++ q, dep u ≤ dep w := by
      intro w hw'
      have := i.qsorted
      simp only [List.cons_append, List.nil_append, List.pairwise_cons] at this
      rcases List.mem_append.mp hw' with h | h
      · simp at h; subst h; exact Nat.le_refl _
      · exact this.1 w h
    intro w hw' v hv
    rw [← List.append_assoc] at hw'
    have hb : (if v = g.target e then dep u + 1 else dep v) ≤ dep u + 1 := by
      rcases List.mem_append.mp hv with hv | hv
      · rw [hsame _ hv]; exact i.bound u (by simp) v hv
      · simp at hv; subst hv; simp
    rcases List.mem_append.mp hw' with hw' | hw'
    · rw [hsame _ (hcur w hw')]
      have := hge w hw'
      omega
    · simp only [List.mem_singleton] at hw'
      subst hw'
      rw [if_pos rfl]; omega
  · rw [k1]
    intro v hv
    rcases List.mem_append.mp hv with hv | hv
    · obtain ⟨s, hs, es, h1, h2, h3⟩ := i.tree v hv
      rw [hsame _ hv]
      exact ⟨s, hs, es, h1, h2, fun e he => by simp [h3 e he]⟩
    · simp only [List.mem_singleton] at hv
      subst hv
      obtain ⟨s, hs, es, h1, h2, h3⟩ := i.tree u hu
      refine ⟨s, hs, es ++ [e], h1.snoc hpu, by simp [h2], ?_⟩
      intro e' he'
      rcases List.mem_append.mp he' with he' | he'
      · simp [h3 e' he']
      · simp at he'; subst he'; simp

theorem Inv.edgesLoop {u : V} (es : List E) : ∀ {pre : List (BfsEvent V E)} {c : Dict V Color} {q : List V} {done : List E} {dep : V → Nat},
    Inv g p us pre c q [u] done dep → (∀ e ∈ es, e ∈ g.outEdges u) →
    ∃ dep', Inv g p us (pre ++ (edgesTrace g p es c q).1) (edgesTrace g p es c q).2.1 (edgesTrace g p es c q).2.2 [u]
      (done ++ es.filter p) dep' := by
  induction es with
  | nil => intro pre c q done dep i _; exact ⟨dep, by simpa [edgesTrace] using i⟩
  | cons e es ih =>
    intro pre c q done dep i hes
    have heu : e ∈ g.outEdges u := hes e (by simp)
    have hes' : ∀ e ∈ es, e ∈ g.outEdges u := fun e h => hes e (by simp [h])
    have ok1 : AllOK (OK g p us) [] (pre ++ [.ifPush e]) := allOK_snoc i.ok (show OK g p us _ (.ifPush e) from ⟨u, i.fin, heu⟩)
    unfold edgesTrace
    by_cases hp : p e = true
    · have hpu : e ∈ pushed g p u := List.mem_filter.mpr ⟨heu, hp⟩
      rw [List.filter_cons_of_pos hp]
      simp only [hp, if_true]
      have ok2 : AllOK (OK g p us) [] (pre ++ [.ifPush e] ++ [.examineEdge e]) :=
        allOK_snoc ok1 (show OK g p us _ (.examineEdge e) from ⟨u, by simpa using i.fin, hpu⟩)
      cases hc : colorOf c (g.target e) with
      | white =>
        have hw := i.white.mp hc
        have ok3 : AllOK (OK g p us) [] (pre ++ [.ifPush e] ++ [.examineEdge e] ++ [.treeEdge e]) :=
          allOK_snoc ok2 (show OK g p us _ (.treeEdge e) from ⟨by simpa using hw, _, rfl⟩)
        have ok4 : AllOK (OK g p us) [] (pre ++ [.ifPush e] ++ [.examineEdge e] ++ [.treeEdge e] ++ [.discover (g.target e)]) :=
          allOK_snoc ok3 (show OK g p us _ (.discover (g.target e)) from ⟨by simpa using hw, .inr ⟨e, _, rfl, rfl⟩⟩)
        obtain ⟨dep', i2⟩ := ih (i.discover hpu hw (by simpa using ok4)) hes'
        exact ⟨dep', by simpa using i2⟩
      | gray =>
        have hg := i.gray.mp hc
        have ok3 : AllOK (OK g p us) [] (pre ++ [.ifPush e] ++ [.examineEdge e] ++ [.nonTreeEdge e]) :=
          allOK_snoc ok2 (show OK g p us _ (.nonTreeEdge e) from ⟨by simpa using hg.1, _, rfl⟩)
        have ok4 : AllOK (OK g p us) [] (pre ++ [.ifPush e] ++ [.examineEdge e] ++ [.nonTreeEdge e] ++ [.grayTarget e]) :=
          allOK_snoc ok3 (show OK g p us _ (.grayTarget e) from ⟨by simpa using hg.1, by simpa using hg.2, _, rfl⟩)
        obtain ⟨dep', i2⟩ := ih (i.quiet (t := [.ifPush e, .examineEdge e, .nonTreeEdge e, .grayTarget e]) (dn := [e]) (by simp) (by simp) (by simp)
          (by simp) (by simp) (by simpa using hg.1) (by simpa using ok4)) hes'
        exact ⟨dep', by simpa using i2⟩
      | black =>
        have hb := i.black.mp hc
        have hd : g.target e ∈ discovered pre := i.perm.mem_iff.mp (by simp [hb])
        have ok3 : AllOK (OK g p us) [] (pre ++ [.ifPush e] ++ [.examineEdge e] ++ [.nonTreeEdge e]) :=
          allOK_snoc ok2 (show OK g p us _ (.nonTreeEdge e) from ⟨by simpa using hd, _, rfl⟩)
        have ok4 : AllOK (OK g p us) [] (pre ++ [.ifPush e] ++ [.examineEdge e] ++ [.nonTreeEdge e] ++ [.blackTarget e]) :=
          allOK_snoc ok3 (show OK g p us _ (.blackTarget e) from ⟨by simpa using hb, _, rfl⟩)
        obtain ⟨dep', i2⟩ := ih (i.quiet (t := [.ifPush e, .examineEdge e, .nonTreeEdge e, .blackTarget e]) (dn := [e]) (by simp) (by simp) (by simp)
          (by simp) (by simp) (by simpa using hd) (by simpa using ok4)) hes'
        exact ⟨dep', by simpa using i2⟩
    · simp only [hp, Bool.false_eq_true, if_false]
      rw [List.filter_cons_of_neg (by simpa using hp)]
      obtain ⟨dep', i2⟩ := ih (i.quiet (t := [.ifPush e]) (dn := []) (by simp) (by simp) (by simp) (by simp) (by simp) (by simp) ok1) hes'
      exact ⟨dep', by simpa using i2⟩

/-- The treatment of a vertex. -/
theorem Inv.vertex {pre : List (BfsEvent V E)} {c : Dict V Color} {q : List V} {u : V} {dep : V → Nat}
    (i : Inv g p us pre c (u :: q) [] [] dep) :
    ∃ dep', Inv g p us (pre ++ vertexTrace g p u c q) ((edgesTrace g p (g.outEdges u) c q).2.1.set u .black)
      (edgesTrace g p (g.outEdges u) c q).2.2 [] [] dep' := by
  have hperm := i.perm
  have hud : u ∈ discovered pre := hperm.mem_iff.mp (by simp)
  have hnd : (finished pre ++ [] ++ u :: q).Nodup := hperm.nodup_iff.mpr i.nodup
  have huf : u ∉ finished pre := by
    intro h
    rw [List.append_nil, List.nodup_append] at hnd
    exact hnd.2.2 u h u (by simp) rfl
  have hfin : examinedVertices pre = finished pre := by simpa using i.fin
  have i1 : Inv g p us (pre ++ [.examineVertex u]) c q [u] [] dep := by
    refine ⟨?_, ?_, ?_, ?_, i.src0, ?_, ?_, ?_, ?_, ?_, ?_, ?_, ?_, ?_, allOK_snoc i.ok (show OK g p us _ (.examineVertex u) from ⟨hud, by rw [hfin]; exact huf, hfin⟩)⟩
    · simpa using i.col
    · simpa using i.nodup
    · simpa using i.fifo
    · simpa using i.src
    · simpa using hfin
    · simpa using i.edges
    · simpa using i.cls
    · simpa using i.closed
    · simp
    · simpa using i.sorted
    · simpa using i.qsorted
    · simpa using i.bound
    · intro v hv
      obtain ⟨s, hs, es, h1, h2, h3⟩ := i.tree v (by simpa using hv)
      exact ⟨s, hs, es, h1, h2, fun e he => by simp [h3 e he]⟩
  obtain ⟨dep', j⟩ := i1.edgesLoop (g.outEdges u) (fun e he => he)
  refine ⟨dep', ?_⟩
  unfold vertexTrace
  rw [← List.append_assoc, ← List.append_assoc]
  generalize edgesTrace g p (g.outEdges u) c q = T at j ⊢
  obtain ⟨t, c', q'⟩ := T
  simp only at j ⊢
  generalize hP : pre ++ [BfsEvent.examineVertex u] ++ t = P at j ⊢
  have juf : u ∈ discovered P := j.perm.mem_iff.mp (by simp)
  refine ⟨?_, ?_, ?_, ?_, j.src0, ?_, ?_, ?_, ?_, ?_, ?_, ?_, ?_, ?_, allOK_snoc j.ok (show OK g p us _ (.finish u) from ⟨j.fin, fun e he => ?_⟩)⟩
  · intro v
    rw [colorOf_set', j.col]
    by_cases hv : u = v
    · simp [hv]
    · simp [hv, Ne.symm hv]
  · simpa using j.nodup
  · simpa using j.fifo
  · simpa using j.src
  · simpa using j.fin
  · have := j.edges
    simp only [List.nil_append] at this
    simp [this, pushed]
  · simpa using j.cls
  · intro w hw e he
    have hw' : w ∈ finished P ∨ w = u := by simpa using hw
    rcases hw' with hw' | rfl
    · simpa using j.closed w hw' e he
    · have := j.cdone w (by simp) e (by simpa [pushed] using he)
      simpa using this.2
  · simp
  · simpa using j.sorted
  · have := j.qsorted
    simp only [List.cons_append, List.nil_append, List.pairwise_cons] at this ⊢
    exact this.2
  · intro w hw v hv
    exact j.bound w (by simp at hw; simp [hw]) v (by simpa using hv)
  · intro v hv
    obtain ⟨s, hs, es, h1, h2, h3⟩ := j.tree v (by simpa using hv)
    exact ⟨s, hs, es, h1, h2, fun e he => by simp [h3 e he]⟩
  · have := j.cdone u (by simp) e (by simpa [pushed] using he)
    exact ⟨this.1, this.2.1⟩

/-- The invariant is initially true. -/
theorem Inv.init {c : Dict V Color} (hc : ∀ v, colorOf c v = .white) (hus : us.Nodup) :
    Inv g p us (us.map .discover) (us.foldl (fun c u => c.set u .gray) c) us.reverse [] [] (fun _ => 0) := by
  have d : ∀ l : List V, discovered (l.map (BfsEvent.discover (E := E))) = l := by
    intro l; induction l with
    | nil => rfl
    | cons a l ih => simp [ih]
  have f : ∀ l : List V, finished (l.map (BfsEvent.discover (E := E))) = [] ∧ examined (l.map (BfsEvent.discover (E := E))) = [] ∧
      examinedVertices (l.map (BfsEvent.discover (E := E))) = [] ∧ classified (l.map (BfsEvent.discover (E := E))) = [] := by
    intro l; induction l with
    | nil => simp
    | cons a l ih => simpa using ih
  obtain ⟨f1, f2, f3, f4⟩ := f us
  refine ⟨?_, ?_, ?_, ?_, fun _ _ => rfl, ?_, ?_, ?_, ?_, ?_, ?_, ?_, ?_, ?_, ?_⟩
  · intro v
    rw [d, f1]
    have key : ∀ (l : List V) (c : Dict V Color), colorOf (l.foldl (fun c u => c.set u .gray) c) v = if v ∈ l then .gray else colorOf c v := by
      intro l
      induction l with
      | nil => simp
      | cons a l ih =>
        intro c
        rw [List.foldl_cons, ih, colorOf_set']
        by_cases h1 : v ∈ l
        · simp [h1]
        · by_cases h2 : a = v
          · simp [h2]
          · simp [h1, h2, Ne.symm h2]
    rw [key, hc]; simp
  · rw [d]; exact hus
  · rw [d, f3]; simp
  · rw [d]; simp
  · rw [f1, f3]; rfl
  · rw [f1, f2]; rfl
  · rw [f2, f4]
  · rw [f1]; simp
  · simp
  · rw [d]; exact List.pairwise_of_forall (fun _ _ => Nat.le_refl _)
  · exact List.pairwise_of_forall (fun _ _ => Nat.le_refl _)
  · intros; omega
  · rw [d]; intro v hv; exact ⟨v, hv, [], .nil _, rfl, by simp⟩
  · have key : ∀ (l : List V) (pre : List V), (pre ++ l).Nodup → (∀ x ∈ l, x ∈ us) →
        AllOK (OK g p us) (pre.map .discover) (l.map .discover) := by
      intro l
      induction l with
      | nil => intros; trivial
      | cons a l ih =>
        intro pre hn hsub
        refine ⟨⟨?_, .inl (hsub a (by simp))⟩, ?_⟩
        · rw [d]; intro h; rw [List.nodup_append] at hn; exact hn.2.2 a h a (by simp) rfl
        · have := ih (pre ++ [a]) (by simpa using hn) (fun x hx => hsub x (by simp [hx]))
          simpa using this
    exact key us [] (by simpa using hus) (fun _ h => h)

/-- Everything known about a complete traversal from the sources `us`, with final colours `c`. -/
structure Facts (g : GraphI V E) (p : E → Bool) (us : List V) (tr : List (BfsEvent V E)) (c : Dict V Color) : Prop where
  ok : ∀ a x b, tr = a ++ x :: b → OK g p us a x
  nodup : (discovered tr).Nodup
  reach : ∀ v, v ∈ discovered tr ↔ ∃ s ∈ us, Reach (g.through p) s v
  src : us <+: discovered tr
  exam : examinedVertices tr = us.reverse ++ (discovered tr).drop us.length
  fin : finished tr = examinedVertices tr
  edges : examined tr = (examinedVertices tr).flatMap (pushed g p)
  cls : classified tr = examined tr
  color : ∀ v, colorOf c v = if v ∈ discovered tr then .black else .white
  dist : ∃ dep : V → Nat, (∀ v ∈ discovered tr, HopDist (g.through p) us v (dep v)) ∧
    (discovered tr).Pairwise (fun a b => dep a ≤ dep b) ∧
    ∀ v ∈ discovered tr, ∃ s ∈ us, ∃ es, IsPath (g.through p) s es v ∧ es.length = dep v ∧ ∀ e ∈ es, .treeEdge e ∈ tr

theorem Inv.facts {tr : List (BfsEvent V E)} {c : Dict V Color} {dep : V → Nat} (i : Inv g p us tr c [] [] [] dep) : Facts g p us tr c := by
  have hperm : (finished tr).Perm (discovered tr) := by simpa using i.perm
  have hfin : examinedVertices tr = finished tr := by simpa using i.fin
  have hpath : ∀ s ∈ us, ∀ es v, IsPath (g.through p) s es v → v ∈ discovered tr ∧ dep v ≤ dep s + es.length := by
    intro s hs es v h
    have hs' : s ∈ discovered tr := by rw [← i.src] at hs; exact List.mem_of_mem_take hs
    clear hs
    induction h with
    | nil u => exact ⟨hs', by simp⟩
    | @cons u v e es he h ih =>
      have := i.closed u (hperm.mem_iff.mpr hs') e he
      obtain ⟨h1, h2⟩ := ih this.1
      refine ⟨h1, ?_⟩
      have h3 := this.2
      have h4 : (g.through p).target e = g.target e := rfl
      rw [h4] at h2
      simp only [List.length_cons]; omega
  refine ⟨?_, i.nodup, ?_, ?_, ?_, hfin.symm, ?_, i.cls, ?_, dep, ?_, i.sorted, i.tree⟩
  · intro a x b h
    have := i.ok
    rw [h] at this
    simpa using this.split
  · intro v
    constructor
    · intro h
      obtain ⟨s, hs, es, h1, _⟩ := i.tree v h
      exact ⟨s, hs, es, h1⟩
    · rintro ⟨s, hs, es, h⟩; exact (hpath s hs es v h).1
  · rw [← i.src]
    have := List.take_prefix us.length (discovered tr)
    rw [i.src] at this ⊢
    exact this
  · simpa using i.fifo
  · rw [hfin]; simpa using i.edges
  · intro v
    rw [i.col]
    by_cases h : v ∈ discovered tr
    · simp [h, hperm.mem_iff.mpr h]
    · have : v ∉ finished tr := fun h' => h (hperm.mem_iff.mp h')
      simp [h, this]
  · intro v hv
    refine ⟨?_, ?_⟩
    · obtain ⟨s, hs, es, h1, h2, _⟩ := i.tree v hv
      exact ⟨s, hs, es, h1, h2⟩
    · intro s hs es h
      have := (hpath s hs es v h).2
      rw [i.src0 s hs] at this
      omega

/-- Breadth-first search runs to its end, and makes calls described by `Facts`. -/
theorem facts_run {c : Dict V Color} (hc : ∀ v, colorOf c v = .white) (hus : us.Nodup) {U : List V}
    (hU : ∀ s ∈ us, ∀ v, Reach (g.through p) s v → v ∈ U) :
    ∃ tr c', Facts g p us (us.map .discover ++ tr) c' ∧ Run g p (us.foldl (fun c u => c.set u .gray) c) us.reverse tr c' := by
  have key : ∀ n (pre : List (BfsEvent V E)) c q dep, Inv g p us pre c q [] [] dep → U.length - (finished pre).length ≤ n →
      ∃ tr c' dep', Run g p c q tr c' ∧ Inv g p us (pre ++ tr) c' [] [] [] dep' := by
    intro n
    induction n with
    | zero =>
      intro pre c q dep i hn
      cases q with
      | nil => exact ⟨[], c, dep, .nil c, by simpa using i⟩
      | cons u q =>
        exfalso
        have hnd : (finished pre ++ [] ++ u :: q).Nodup := i.perm.nodup_iff.mpr i.nodup
        have hsub : ∀ x ∈ finished pre ++ [] ++ u :: q, x ∈ U := by
          intro x hx
          obtain ⟨s, hs, es, h1, _⟩ := i.tree x (i.perm.mem_iff.mp hx)
          exact hU s hs x ⟨es, h1⟩
        have := (List.subperm_of_subset hnd hsub).length_le
        simp at this; omega
    | succ n ih =>
      intro pre c q dep i hn
      cases q with
      | nil => exact ⟨[], c, dep, .nil c, by simpa using i⟩
      | cons u q =>
        obtain ⟨dep1, j⟩ := i.vertex
        have hlen : (finished (pre ++ vertexTrace g p u c q)).length = (finished pre).length + 1 := by
          have h1 : finished (pre ++ vertexTrace g p u c q) = examinedVertices (pre ++ vertexTrace g p u c q) := by simpa using j.fin.symm
          have hq : examinedVertices (edgesTrace g p (g.outEdges u) c q).1 = [] := by
            have : ∀ (es : List E) c q, examinedVertices (edgesTrace g p es c q).1 = [] := by
              intro es
              induction es with
              | nil => intros; rfl
              | cons e es ih =>
                intro c q
                unfold edgesTrace
                by_cases hp : p e = true
                · simp only [hp, if_true]
                  cases colorOf c (g.target e) <;> simp [ih]
                · simp [hp, ih]
            exact this _ _ _
          have h2 : examinedVertices pre = finished pre := by simpa using i.fin
          rw [h1]
          simp [vertexTrace, hq, h2]
        obtain ⟨tr, c', dep', h1, h2⟩ := ih _ _ _ _ j (by rw [hlen]; omega)
        exact ⟨_, c', dep', .cons h1, by simpa using h2⟩
  obtain ⟨tr, c', dep', h1, h2⟩ := key _ _ _ _ _ (Inv.init (g := g) (p := p) hc hus) (Nat.le_refl _)
  exact ⟨tr, c', h2.facts, h1⟩

/-- Breadth-first search terminates and makes calls described by `Facts`, whatever the visitor. -/
theorem facts {c : Dict V Color} (hc : ∀ v, colorOf c v = .white) (hus : us.Nodup) {U : List V}
    (hU : ∀ s ∈ us, ∀ v, Reach (g.through p) s v → v ∈ U) :
    ∃ tr c', Facts g p us tr c' ∧ (∃ t, tr = us.map .discover ++ t) ∧
      ∀ {σ : Type} (vis : Visitor (BfsEvent V E) σ) (st : σ), Returns (bfsGraph g us p vis c st) (outcome vis c' tr st) := by
  obtain ⟨tr, c', h2, h1⟩ := facts_run hc hus hU
  exact ⟨_, c', h2, ⟨tr, rfl⟩, fun vis st => bfsGraph_returns h1 vis st⟩

end Bfs
end PyBGL
