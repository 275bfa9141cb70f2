import Verif.Proofs.PbfsObjects
import Verif.Props.C44_C45_Pbfs
import Verif.Props.C170_AggregatedObjects

/-!
# C172: what a visitor has received, and the colours, when an exception leaves a parallel breadth-first search
-/

namespace PyBGL
variable {A : Type} [DecidableEq A]

/-- The colours at the end of a run. -/
theorem Pbfs.Run.colors {ord : SetOracle A} {g1 g2 : Automaton A} {push : Option (AEdge A) → Option (AEdge A) → Bool} (ho : ord.Valid) {pp : StatePair → Bool}
    (hpp : ∀ p a, push (jointEdge g1 p.1 a) (jointEdge g2 p.2 a) = pp (Pbfs.nxt g1 g2 p a))
    {t : Nat} {c c' : Dict StatePair Color} {q : List StatePair} {tr : List (PEvent A)} (h : Pbfs.Run ord g1 g2 push t c q tr c') :
    ∀ v, colorOf c' v = if v ∈ Pbfs.examined tr then .black else if v ∈ Pbfs.discovered tr then .gray else colorOf c v := by
  induction h with
  | nil t c => intro v; simp
  | @cons t c c' p q tr h ih =>
    intro v
    have hf := h.facts ho hpp
    obtain ⟨tv, c1, q1, h0, h1, h2, h3, h4, h5, h6, h7, h8, h9, h10⟩ := Pbfs.symTrace_spec hpp p (ord t (Pbfs.syms g1 g2 p)) c q
    rw [h0] at ih hf
    have hv : Pbfs.vertexTrace g1 g2 push (ord t (Pbfs.syms g1 g2 p)) p c q = .examineVertex p.1 p.2 :: tv ++ [.finish p.1 p.2] := by
      unfold Pbfs.vertexTrace; rw [h0]
    rw [hv]
    have hd : Pbfs.discovered (.examineVertex p.1 p.2 :: tv ++ [.finish p.1 p.2] ++ tr) = Pbfs.discovered tv ++ Pbfs.discovered tr := by simp
    have he : Pbfs.examined (.examineVertex p.1 p.2 :: tv ++ [.finish p.1 p.2] ++ tr) = p :: Pbfs.examined tr := by simp [h1]
    have hcol : ∀ v, colorOf (c1.set p .black) v = if p = v then .black else if v ∈ Pbfs.discovered tv then .gray else colorOf c v := by
      intro v; rw [colorOf_set, h9]
    rw [hd, he, ih v]
    by_cases e1 : v ∈ Pbfs.examined tr
    · simp [e1]
    · by_cases e2 : v ∈ Pbfs.discovered tr
      · have hw := hf.white v e2
        have hne : v ≠ p := by
          rintro rfl
          simp only at hw
          rw [hcol, if_pos rfl] at hw
          cases hw
        simp [e1, e2, hne]
      · simp only [e1, e2, if_false, hcol, List.mem_cons, List.mem_append, or_false]
        by_cases e3 : p = v
        · simp [e3]
        · simp [e3, Ne.symm e3]

omit [DecidableEq A] in
theorem play_append (σ : Type) (vis : PObject A σ) (l1 l2 : List (PEvent A)) (c : Dict StatePair Color) (x : σ) :
    play vis (l1 ++ l2) c x = match play vis l1 c x with
      | (.error err, r) => (.error err, r)
      | (.ok _, c, x) => play vis l2 c x := by
  induction l1 generalizing c x with
  | nil => rfl
  | cons ev l1 ih =>
    simp only [List.cons_append, play]
    rcases vis ev (paint c ev) x with ⟨err | u, x'⟩
    · rfl
    · exact ih _ _

/-- **C172** (any `if_push`): `parallel_breadth_first_search` makes the same calls `tr` to every visitor, whatever the content of the colour map given. The visitor receives these calls one after the
other (`play`). A pair is gray when `discover_vertex` is called and black when `finish_vertex` is called, and its colour does not change otherwise; the calls agree with the colours (`Fits`). If the
visitor raises, its exception is the outcome: the visitor and the colours are as they were at that call. -/
theorem C172_visitor {ord : SetOracle A} (ho : ord.Valid) {g1 g2 : Automaton A} (h1 : g1.Reachable) (h2 : g2.Reachable) (sources : Option (List StatePair))
    (ifPush : Option (AEdge A) → Option (AEdge A) → Bool) (c0 : Dict StatePair Color) :
    ∃ tr, Fits c0 tr ∧ ∀ (σ : Type) (vis : PObject A σ) (x : σ), Returns (pbfsM ord g1 g2 sources ifPush vis c0 x) (.ok (play vis tr c0 x)) := by
  obtain ⟨tr, c, h⟩ := Pbfs.exists_run (push := ifPush) h1.awf h2.awf ho c0 (sources.getD [(g1.initial, g2.initial)])
  refine ⟨_, ?_, fun σ vis x => h.returnsM vis x⟩
  refine Fits.append ?_ (by rw [Pbfs.starts_paint]; exact h.fits.1)
  generalize sources.getD [(g1.initial, g2.initial)] = S
  induction S with
  | nil => trivial
  | cons p S ih => exact ⟨trivial, ih⟩

/-- **C172** (visitors that raise): the first call at which the visitor raises is the last one that it receives. -/
theorem C172_raises {ord : SetOracle A} (ho : ord.Valid) {g1 g2 : Automaton A} (h1 : g1.Reachable) (h2 : g2.Reachable) (sources : Option (List StatePair))
    (ifPush : Option (AEdge A) → Option (AEdge A) → Bool) (c0 : Dict StatePair Color) :
    ∃ tr, (∃ c, Returns (pbfsM ord g1 g2 sources ifPush (fun ev _ l => (.ok (), l ++ [ev])) c0 []) (.ok (.ok (), c, tr))) ∧
      ∀ (σ : Type) (vis : PObject A σ) (x y z : σ) (l1 l2 : List (PEvent A)) (ev : PEvent A) (c : Dict StatePair Color) (err : PyErr), tr = l1 ++ ev :: l2 →
        play vis l1 c0 x = (.ok (), c, y) → vis ev (paint c ev) y = (.error err, z) →
        Returns (pbfsM ord g1 g2 sources ifPush vis c0 x) (.ok (.error err, paint c ev, z)) := by
  obtain ⟨tr, _, h⟩ := C172_visitor ho h1 h2 sources ifPush c0
  refine ⟨tr, ⟨tr.foldl paint c0, ?_⟩, ?_⟩
  · have key : ∀ (tr l : List (PEvent A)) c, play (fun ev _ l => (.ok (), l ++ [ev])) tr c l = (.ok (), tr.foldl paint c, l ++ tr) := by
      intro tr
      induction tr with
      | nil => intro l c; simp [play]
      | cons ev tr ih => intro l c; simp [play, ih]
    have := h _ (fun ev _ l => (.ok (), l ++ [ev])) []
    rwa [key] at this
  · intro σ vis x y z l1 l2 ev c err htr hp hv
    have := h σ vis x
    rw [htr, play_append, hp] at this
    simp only [play, hv] at this
    exact this

/-- **C172** (the calls): with an `if_push` that depends on the targets only, such as the default one, and any colours at the start. The pairs examined are the sources and the pairs discovered that
`if_push` accepts, in that order; each is finished. Each pair is discovered at most once, and only if it is white at the start; each successor of an examined pair was not white at the start, or is
discovered or examined. Once the search has ended without an exception, the pairs examined are black, the other pairs discovered are gray, and the colours of the others have not changed. -/
theorem C172_calls {ord : SetOracle A} (ho : ord.Valid) {g1 g2 : Automaton A} (h1 : g1.Reachable) (h2 : g2.Reachable) (sources : Option (List StatePair))
    (ifPush : Option (AEdge A) → Option (AEdge A) → Bool) (pp : StatePair → Bool) (hpp : ∀ e1 e2, ifPush e1 e2 = pp (targets e1 e2)) (c0 : Dict StatePair Color) :
    ∃ c tr, Returns (pbfsM ord g1 g2 sources ifPush (fun ev _ l => (.ok (), l ++ [ev])) c0 []) (.ok (.ok (), c, tr)) ∧
      Pbfs.started tr = sources.getD [startPair g1 g2] ∧ Pbfs.examined tr = sources.getD [startPair g1 g2] ++ (Pbfs.discovered tr).filter pp ∧
      Pbfs.finished tr = Pbfs.examined tr ∧ (Pbfs.discovered tr).Nodup ∧ (∀ d ∈ Pbfs.discovered tr, colorOf c0 d = .white) ∧
      (∀ p ∈ Pbfs.examined tr, ∀ a, a ∈ g1.sigmaO p.1 ∨ a ∈ g2.sigmaO p.2 →
        colorOf c0 (g1.deltaO p.1 a, g2.deltaO p.2 a) ≠ .white ∨ (g1.deltaO p.1 a, g2.deltaO p.2 a) ∈ Pbfs.discovered tr ∨
          (g1.deltaO p.1 a, g2.deltaO p.2 a) ∈ Pbfs.examined tr) ∧
      (Pbfs.edges tr).Perm ((Pbfs.examined tr).flatMap fun p =>
        (setUnion (g1.sigmaO p.1) (g2.sigmaO p.2)).map fun a => (jointEdge g1 p.1 a, jointEdge g2 p.2 a, a)) ∧
      Pbfs.classified tr = Pbfs.edges tr ∧
      ∀ v, colorOf c v = if v ∈ Pbfs.examined tr then .black else if v ∈ Pbfs.discovered tr then .gray else colorOf c0 v := by
  have hpp' : ∀ p a, ifPush (jointEdge g1 p.1 a) (jointEdge g2 p.2 a) = pp (Pbfs.nxt g1 g2 p a) := fun p a => by rw [hpp, Pbfs.targets_joint]
  obtain ⟨tr, c, h⟩ := Pbfs.exists_run (push := ifPush) h1.awf h2.awf ho c0 (sources.getD [startPair g1 g2])
  have hf := h.facts ho hpp'
  have hc := h.colors ho hpp'
  have hr := h.returnsM (fun ev _ l => (.ok (), l ++ [ev])) []
  have key : ∀ (tr l : List (PEvent A)) c, play (fun ev _ l => (.ok (), l ++ [ev])) tr c l = (.ok (), tr.foldl paint c, l ++ tr) := by
    intro tr
    induction tr with
    | nil => intro l c; simp [play]
    | cons ev tr ih => intro l c; simp [play, ih]
  rw [key, List.foldl_append, Pbfs.starts_paint, h.fits.2, List.nil_append] at hr
  obtain ⟨s1, s2, s3, s4, s5, s6⟩ := Pbfs.starts_proj (A := A) (sources.getD [startPair g1 g2])
  refine ⟨c, _, hr, ?_⟩
  rw [Pbfs.started_append, Pbfs.examined_append, Pbfs.discovered_append, Pbfs.finished_append, Pbfs.edges_append, Pbfs.classified_append, s1, s2, s3, s4, s5, s6]
  simp only [List.nil_append]
  refine ⟨by rw [hf.noStart, List.append_nil], hf.fifo, hf.fin, hf.nodup, hf.white, fun p hp a ha => ?_, hf.edges, hf.cls, hc⟩
  exact hf.closed p hp a ((mem_setUnion _ _ a).mpr ha)

/-- **C172** (the calls of C44): with an empty colour map, the calls are those recorded in C44. -/
theorem C172_same {ord : SetOracle A} (ho : ord.Valid) {g1 g2 : Automaton A} (h1 : g1.Reachable) (h2 : g2.Reachable) (sources : List StatePair)
    (ifPush : Option (AEdge A) → Option (AEdge A) → Bool) :
    ∃ c tr, Returns (pbfs ord (fun _ => g1) g2 sources ifPush recorder []) (.ok (c, tr)) ∧
      ∀ (σ : Type) (vis : PObject A σ) (x : σ), Returns (pbfsM ord g1 g2 (some sources) ifPush vis [] x) (.ok (play vis tr [] x)) := by
  obtain ⟨tr, c, h⟩ := Pbfs.exists_run (push := ifPush) h1.awf h2.awf ho [] sources
  refine ⟨c, _, ?_, fun σ vis x => Pbfs.Run.returnsM (S := some sources) h vis x⟩
  simpa [Pbfs.outcome, emit_recorder] using h.returns recorder []

/-! ## Aggregated visitors -/

/-- The calls `tr`, each with the colours that can be read when it is made. -/
def shown : List (PEvent A) → Dict StatePair Color → List (PEvent A × Dict StatePair Color)
  | [], _ => []
  | ev :: l, c => (ev, paint c ev) :: shown l (paint c ev)

omit [DecidableEq A] in
theorem play_shown {σ : Type} (m : PEvent A × Dict StatePair Color → PyM σ Unit) (tr : List (PEvent A)) (c : Dict StatePair Color) (x : σ) :
    (play (fun ev c => m (ev, c)) tr c x).1 = (PyM.each m (shown tr c) x).1 ∧ (play (fun ev c => m (ev, c)) tr c x).2.2 = (PyM.each m (shown tr c) x).2 := by
  induction tr generalizing c x with
  | nil => exact ⟨rfl, rfl⟩
  | cons ev tr ih =>
    simp only [play, shown, PyM.each, PyM.bind]
    rcases m (ev, paint c ev) x with ⟨err | u, x'⟩
    · exact ⟨rfl, rfl⟩
    · exact ih _ _

/-- **C172** (aggregated visitors): the distinct visitors of an `AggregatedVisitor` receive the calls of the search in their order, until one of them raises (see C170). The search ends without an exception
exactly if it does with each of them alone, and then leaves each of them as it would be alone. -/
theorem C172_aggregated {ord : SetOracle A} (ho : ord.Valid) {g1 g2 : Automaton A} (h1 : g1.Reachable) (h2 : g2.Reachable) (sources : Option (List StatePair))
    (ifPush : Option (AEdge A) → Option (AEdge A) → Bool) (c0 : Dict StatePair Color) :
    ∃ tr, (∃ c, Returns (pbfsM ord g1 g2 sources ifPush (fun ev _ l => (.ok (), l ++ [ev])) c0 []) (.ok (.ok (), c, tr))) ∧
      ∀ (σ : Type) (meth : Nat → PEvent A × Dict StatePair Color → PyM σ Unit) (l : Nat) (w : Shop σ), (w.content l).Nodup →
        ∃ (r : Except PyErr Unit) (c : Dict StatePair Color) (w' : Shop σ) (r1 : Nat → Except PyErr Unit) (c1 : Nat → Dict StatePair Color) (x1 : Nat → σ),
          Returns (pbfsM ord g1 g2 sources ifPush (fun ev c => callAggregated meth l (ev, c)) c0 w) (.ok (r, c, w')) ∧ Heard meth l (shown tr c0) r w w' ∧
          (∀ i, Returns (pbfsM ord g1 g2 sources ifPush (fun ev c => meth i (ev, c)) c0 (w.obj i)) (.ok (r1 i, c1 i, x1 i))) ∧
          (r = .ok () ↔ ∀ i ∈ w.content l, r1 i = .ok ()) ∧ (r = .ok () → ∀ i ∈ w.content l, w'.obj i = x1 i) := by
  obtain ⟨tr, _, h⟩ := C172_visitor ho h1 h2 sources ifPush c0
  refine ⟨tr, ⟨tr.foldl paint c0, ?_⟩, fun σ meth l w hn => ?_⟩
  · have key : ∀ (tr l : List (PEvent A)) c, play (fun ev _ l => (.ok (), l ++ [ev])) tr c l = (.ok (), tr.foldl paint c, l ++ tr) := by
      intro tr
      induction tr with
      | nil => intro l c; simp [play]
      | cons ev tr ih => intro l c; simp [play, ih]
    have := h _ (fun ev _ l => (.ok (), l ++ [ev])) []
    rwa [key] at this
  · have hh := heard_each (meth := meth) (shown tr c0) w hn ()
    have h3 := each_agrees hh
    have hmap : ∀ r : Except PyErr Unit, r = r.map fun _ => () := fun r => by cases r <;> rfl
    have hok : ∀ {r : Except PyErr Unit}, r = .ok () ↔ ∃ y, r.map (fun _ => ()) = .ok y := by
      intro r
      cases r with
      | error e => exact ⟨fun h => (nomatch h), fun ⟨_, h⟩ => (nomatch h)⟩
      | ok u => exact ⟨fun _ => ⟨(), rfl⟩, fun _ => rfl⟩
    obtain ⟨k1, k2⟩ := play_shown (callAggregated meth l) tr c0 w
    refine ⟨(play (fun ev c => callAggregated meth l (ev, c)) tr c0 w).1, (play (fun ev c => callAggregated meth l (ev, c)) tr c0 w).2.1,
      (play (fun ev c => callAggregated meth l (ev, c)) tr c0 w).2.2, fun i => (play (fun ev c => meth i (ev, c)) tr c0 (w.obj i)).1,
      fun i => (play (fun ev c => meth i (ev, c)) tr c0 (w.obj i)).2.1, fun i => (play (fun ev c => meth i (ev, c)) tr c0 (w.obj i)).2.2,
      h _ _ w, ?_, fun i => h _ _ (w.obj i), ?_, ?_⟩
    · rw [k1, k2]
      rw [← hmap] at hh
      exact hh
    · rw [k1, hok, h3.1]
      exact forall_congr' fun i => forall_congr' fun _ => by dsimp only; rw [(play_shown (meth i) tr c0 (w.obj i)).1]
    · intro hr i hi
      rw [k1] at hr
      dsimp only
      rw [k2, ← h3.2 (hok.mp hr) i hi, (play_shown (meth i) tr c0 (w.obj i)).2]

/-! ## Cases that meet the hypotheses -/

/-- A visitor that records the pairs discovered or examined, with their colours at that call, and raises `KeyError` when `stop` is examined. -/
def pairWatcher (stop : StatePair) : PObject Char (List (StatePair × Color)) := fun ev c l =>
  match ev with
  | .examineVertex q1 q2 => (if (q1, q2) = stop then .error .keyError else .ok (), l ++ [((q1, q2), colorOf c (q1, q2))])
  | .discover q1 q2 => (.ok (), l ++ [((q1, q2), colorOf c (q1, q2))])
  | _ => (.ok (), l)

/-- `(aa)*` and `a*`: the pair of initial states is white when it is examined; the visitor raises when the second pair is examined, and this pair is then gray. With this pair black at the start, it is
not discovered. For `a*` and itself, the pair of initial states is discovered by its own loop, as it is white, and examined twice. -/
example : ∃ g1 g2, Runs Automaton.exec Automaton.empty evenHistory g1 ∧ Runs Automaton.exec Automaton.empty starHistory g2 ∧
    pbfsM (fun _ s => s) g1 g2 none pushAll (pairWatcher (some 1, some 0)) [] [] 10 =
      some (.ok (.error .keyError, [((some 1, some 0), .gray), ((some 0, some 0), .black)],
        [((some 0, some 0), .white), ((some 1, some 0), .gray), ((some 1, some 0), .gray)])) ∧
    pbfsM (fun _ s => s) g1 g2 none pushAll (pairWatcher (some 1, some 0)) [((some 1, some 0), .black)] [] 10 =
      some (.ok (.ok (), [((some 1, some 0), .black), ((some 0, some 0), .black)], [((some 0, some 0), .white)])) ∧
    pbfsM (fun _ s => s) g2 g2 none pushAll (pairWatcher (some 1, some 0)) [] [] 10 =
      some (.ok (.ok (), [((some 0, some 0), .black)], [((some 0, some 0), .white), ((some 0, some 0), .gray), ((some 0, some 0), .black)])) :=
  ⟨_, _, rfl, rfl, rfl, rfl, rfl⟩

/-- Two visitors aggregated: the second raises when the second pair is discovered; the first has received this call, and the second as well. -/
example : ∃ g1 g2, Runs Automaton.exec Automaton.empty evenHistory g1 ∧ Runs Automaton.exec Automaton.empty starHistory g2 ∧ (⟨[[0, 1]], fun _ => 0⟩ : Shop Nat).content 0 = [0, 1] ∧ [0, 1].Nodup ∧
    (match pbfsM (fun _ s => s) g1 g2 none pushAll
        (fun ev c => callAggregated (fun i (q : PEvent Char × Dict StatePair Color) n => (if i = 1 ∧ q.1 = .discover (some 1) (some 0) then .error .keyError else .ok (), n + 1)) 0 (ev, c))
        [] (⟨[[0, 1]], fun _ => 0⟩ : Shop Nat) 10 with
      | some (.ok (.error .keyError, c, w)) => decide (c = [((some 1, some 0), .gray)]) && w.obj 0 == 6 && w.obj 1 == 6
      | _ => false) = true :=
  ⟨_, _, rfl, rfl, rfl, by decide, rfl⟩

/-- The default `if_push` depends on the targets only. -/
example : ∀ e1 e2 : Option (AEdge Char), pushAll e1 e2 = (fun _ => true) (targets e1 e2) := fun _ _ => rfl

end PyBGL
