import Mathlib.Data.List.Forall2
import Verif.Model.ThompsonStore

/-!
# The construction on objects does what the construction on values does
-/

namespace PyBGL

theorem bind_ok {S R Q : Type} {m : PyM S R} {f : R → PyM S Q} {s s' : S} {r : R} (h : m s = (.ok r, s')) : PyM.bind m f s = f r s' := by
  simp only [PyM.bind, h]

theorem bind_error {S R Q : Type} {m : PyM S R} {f : R → PyM S Q} {s s' : S} {e : PyErr} (h : m s = (.error e, s')) : PyM.bind m f s = (.error e, s') := by
  simp only [PyM.bind, h]

theorem bind_lift {S R Q : Type} {f : R → PyM S Q} {s : S} {r : R} : PyM.bind (PyM.lift (.ok r)) f s = f r s := rfl

/-- A loop over a container that its body does not change is a loop over the list of its items. -/
theorem pyFor_stable {S X : Type} {items : S → List X} {body : X → PyM S Unit} {P : S → Prop} {l : List X} (hi : ∀ s, P s → items s = l)
    (hb : ∀ x s, P s → P (body x s).2) {s : S} (hs : P s) : pyFor items body s = PyM.each body l s := by
  have key : ∀ k done s, P s → l.length = done + k → forFrom items body l.length k s = PyM.each body (l.drop done) s := by
    intro k
    induction k with
    | zero =>
      intro done s hs hl
      have : l.drop done = [] := List.drop_eq_nil_of_le (by omega)
      simp only [forFrom, hi s hs, if_true, this, PyM.each, PyM.pure]
    | succ k ih =>
      intro done s hs hl
      have hlt : done < l.length := by omega
      have hd : l.drop done = l[done] :: l.drop (done + 1) := List.drop_eq_getElem_cons hlt
      simp only [forFrom, hi s hs, if_true]
      rw [show l.length - (k + 1) = done by omega, List.getElem?_eq_getElem hlt, hd]
      simp only [PyM.each, PyM.bind]
      have hp := hb l[done] s hs
      generalize body l[done] s = o at hp ⊢
      obtain ⟨o, s'⟩ := o
      cases o with
      | error e => rfl
      | ok _ => exact ih (done + 1) s' hp (by omega)
  unfold pyFor
  rw [hi s hs, key l.length 0 s hs (by omega), List.drop_zero]

namespace Thompson
variable {A : Type} [DecidableEq A]

omit [DecidableEq A] in
theorem get_set_self {st : Store A} {r : Nat} (h : r < st.length) (g : Nfa A) : (st.set r g)[r]? = some g := by simp [h]

omit [DecidableEq A] in
theorem get_set_ne {st : Store A} {r i : Nat} (h : r ≠ i) (g : Nfa A) : (st.set r g)[i]? = st[i]? := by simp [h]

omit [DecidableEq A] in
theorem update_set {st : Store A} {r : Nat} (h : r < st.length) (f : Nfa A → Nfa A) (g : Nfa A) : update r f (st.set r g) = (.ok (), st.set r (f g)) := by
  simp [update, h]

omit [DecidableEq A] in
theorem newVertex_set {st : Store A} {r : Nat} (h : r < st.length) (g : Nfa A) : newVertex r (st.set r g) = (.ok g.addVertex.1, st.set r g.addVertex.2) := by
  simp [newVertex, h]

omit [DecidableEq A] in
theorem insertVertexS_set {st : Store A} {r1 r2 : Nat} (h1 : r1 < st.length) (hne : r1 ≠ r2) {g2 : Nfa A} (h2 : st[r2]? = some g2) (q2 : Nat) (g : Nfa A) (map : Dict Nat Nat) :
    insertVertexS r1 r2 q2 (st.set r1 g, map) = (.ok (), st.set r1 (insertVertex g2 (g, map) q2).1, (insertVertex g2 (g, map) q2).2) := by
  unfold insertVertexS insertVertex
  simp only
  split
  · rfl
  · rw [get_set_self h1]
    simp only [List.set_set]
    rw [get_set_ne hne, h2]
    simp only
    split <;> rfl

omit [DecidableEq A] in
theorem each_insertVertexS {st : Store A} {r1 r2 : Nat} (h1 : r1 < st.length) (hne : r1 ≠ r2) {g2 : Nfa A} (h2 : st[r2]? = some g2) (l : List Nat) (g : Nfa A) (map : Dict Nat Nat) :
    PyM.each (insertVertexS r1 r2) l (st.set r1 g, map) = (.ok (), st.set r1 (l.foldl (insertVertex g2) (g, map)).1, (l.foldl (insertVertex g2) (g, map)).2) := by
  induction l generalizing g map with
  | nil => rfl
  | cons q l ih =>
    simp only [PyM.each]
    rw [bind_ok (insertVertexS_set h1 hne h2 q g map), ih]
    rfl

theorem insertEdgeS_set {st : Store A} {r1 : Nat} (h1 : r1 < st.length) (e : EdgeDesc (A × List Nat)) (g : Nfa A) (map : Dict Nat Nat) :
    insertEdgeS r1 e (st.set r1 g, map) =
      match insertEdge map g e with
      | .ok g' => (.ok (), st.set r1 g', map)
      | .error err => (.error err, st.set r1 g, map) := by
  unfold insertEdgeS insertEdge
  simp only
  cases map.getE e.source with
  | error err => rfl
  | ok q =>
    cases map.getE e.target with
    | error err => rfl
    | ok r =>
      simp only [update_set h1]
      rfl

theorem each_insertEdgeS {st : Store A} {r1 : Nat} (h1 : r1 < st.length) (l : List (EdgeDesc (A × List Nat))) (g : Nfa A) (map : Dict Nat Nat) :
    match l.foldlM (insertEdge map) g with
    | .ok g' => PyM.each (insertEdgeS r1) l (st.set r1 g, map) = (.ok (), st.set r1 g', map)
    | .error e => ∃ g', PyM.each (insertEdgeS r1) l (st.set r1 g, map) = (.error e, st.set r1 g', map) := by
  induction l generalizing g with
  | nil => rfl
  | cons e l ih =>
    have hs := insertEdgeS_set h1 e g map
    rw [List.foldlM_cons]
    simp only [PyM.each]
    cases he : insertEdge map g e with
    | error err =>
      rw [he] at hs
      exact ⟨g, bind_error hs⟩
    | ok g' =>
      rw [he] at hs
      have := ih g'
      rw [bind_ok hs]
      exact this

/-- What a function that modifies the object `r1` only, and computes `v` on values, does. -/
def Modifies {R V : Type} (r1 : Nat) (st : Store A) (m : Except PyErr R × Store A) (v : Except PyErr V) (val : V → R × Nfa A) : Prop :=
  match v with
  | .ok x => m = (.ok (val x).1, st.set r1 (val x).2)
  | .error e => ∃ g', m = (.error e, st.set r1 g')

theorem insertAutomatonS_eq {st : Store A} {r1 r2 : Nat} {g1 g2 : Nfa A} (h1 : st[r1]? = some g1) (h2 : st[r2]? = some g2) (hne : r1 ≠ r2) :
    Modifies r1 st (insertAutomatonS r1 r2 st) (insertAutomaton g1 g2) fun x => (x.2, x.1) := by
  obtain ⟨hlt, hg1⟩ := List.getElem?_eq_some_iff.1 h1
  have hself : st.set r1 g1 = st := by rw [← hg1]; exact List.set_getElem_self hlt
  let P : Store A × Dict Nat Nat → Prop := fun s => ∃ g map, s = (st.set r1 g, map)
  have hv : ∀ s, P s → verticesAt r2 s = g2.vertices := by
    rintro _ ⟨g, map, rfl⟩
    simp only [verticesAt, get_set_ne hne, h2]
  have he : ∀ s, P s → edgesAt r2 s = g2.edges := by
    rintro _ ⟨g, map, rfl⟩
    simp only [edgesAt, get_set_ne hne, h2]
  have e1 : pyFor (verticesAt r2) (insertVertexS r1 r2) (st, []) = PyM.each (insertVertexS r1 r2) g2.vertices (st.set r1 g1, []) := by
    rw [hself]
    refine pyFor_stable hv ?_ ⟨g1, [], by rw [hself]⟩
    rintro q _ ⟨g, map, rfl⟩
    rw [insertVertexS_set hlt hne h2]
    exact ⟨_, _, rfl⟩
  rw [each_insertVertexS hlt hne h2] at e1
  have e2 : ∀ g map, pyFor (edgesAt r2) (insertEdgeS r1) (st.set r1 g, map) = PyM.each (insertEdgeS r1) g2.edges (st.set r1 g, map) := by
    intro g map
    refine pyFor_stable he ?_ ⟨g, map, rfl⟩
    rintro q _ ⟨g, map, rfl⟩
    rw [insertEdgeS_set hlt]
    split <;> exact ⟨_, _, rfl⟩
  have e3 := each_insertEdgeS hlt g2.edges (g2.vertices.foldl (insertVertex g2) (g1, [])).1 (g2.vertices.foldl (insertVertex g2) (g1, [])).2
  unfold insertAutomatonS insertAutomaton
  rw [bind_ok e1, e2]
  cases hf : g2.edges.foldlM (insertEdge (g2.vertices.foldl (insertVertex g2) (g1, [])).2) (g2.vertices.foldl (insertVertex g2) (g1, [])).1 with
  | error e =>
    rw [hf] at e3
    obtain ⟨g', e3⟩ := e3
    rw [e3]
    simp only [hf]
    exact ⟨g', rfl⟩
  | ok g' =>
    rw [hf] at e3
    simp only at e3
    rw [e3]
    simp only [hf]
    rfl

theorem concatenation_val {g1 g2 g : Nfa A} {q01 f1 q02 f2 : Nat} {map : Dict Nat Nat} (h : insertAutomaton g1 g2 = .ok (g, map)) :
    concatenation (g1, q01, f1) (g2, q02, f2) =
      match map.getE q02 with
      | .error e => .error e
      | .ok r =>
        match map.getE f2 with
        | .error e => .error e
        | .ok f => .ok (((g.addEdge f1 r g.eps).2.setInitials [q01]).setFinal f1 false, q01, f) := by
  unfold concatenation
  simp only [h, bind, Except.bind]
  cases map.getE q02 with
  | error e => rfl
  | ok r => cases map.getE f2 <;> rfl

theorem alternation_val {g1 g2 g : Nfa A} {q01 f1 q02 f2 : Nat} {map : Dict Nat Nat} (h : insertAutomaton g1 g2 = .ok (g, map)) :
    alternation (g1, q01, f1) (g2, q02, f2) =
      match map.getE q02 with
      | .error e => .error e
      | .ok r =>
        match map.getE f2 with
        | .error e => .error e
        | .ok s =>
          let q0 := g.addVertex.1
          let g3 := ((g.addVertex.2.addEdge q0 q01 g1.eps).2.addEdge q0 r g1.eps).2.setInitials [q0]
          let f := g3.addVertex.1
          .ok ((((((g3.addVertex.2.addEdge f1 f g1.eps).2.addEdge s f g1.eps).2.setFinal f1 false).setFinal s false).setFinal f true), q0, f) := by
  unfold alternation
  simp only [h, bind, Except.bind]
  cases map.getE q02 with
  | error e => rfl
  | ok r => cases map.getE f2 <;> rfl

theorem concatenationS_eq {st : Store A} {x1 x2 : FragRef} {g1 g2 : Nfa A} (h1 : st[x1.1]? = some g1) (h2 : st[x2.1]? = some g2) (hne : x1.1 ≠ x2.1) :
    Modifies x1.1 st (concatenationS x1 x2 st) (concatenation (g1, x1.2) (g2, x2.2)) fun x => ((x1.1, x.2), x.1) := by
  obtain ⟨r1, q01, f1⟩ := x1
  obtain ⟨r2, q02, f2⟩ := x2
  simp only at h1 h2 hne ⊢
  obtain ⟨hlt, _⟩ := List.getElem?_eq_some_iff.1 h1
  have hi := insertAutomatonS_eq h1 h2 hne
  unfold concatenationS
  simp only
  cases hv : insertAutomaton g1 g2 with
  | error e =>
    rw [hv] at hi
    obtain ⟨g', hi⟩ := hi
    have : concatenation (g1, q01, f1) (g2, q02, f2) = .error e := by unfold concatenation; simp only [hv, bind, Except.bind]
    rw [this]
    exact ⟨g', bind_error hi⟩
  | ok x =>
    obtain ⟨g, map⟩ := x
    rw [hv] at hi
    simp only [Modifies] at hi
    rw [bind_ok hi, concatenation_val hv]
    cases hq : map.getE q02 with
    | error e => exact ⟨g, rfl⟩
    | ok r =>
      rw [bind_lift, bind_ok (update_set hlt _ g)]
      cases hf : map.getE f2 with
      | error e => exact ⟨_, rfl⟩
      | ok f => rfl

theorem alternationS_eq {st : Store A} {x1 x2 : FragRef} {g1 g2 : Nfa A} (h1 : st[x1.1]? = some g1) (h2 : st[x2.1]? = some g2) (hne : x1.1 ≠ x2.1) :
    Modifies x1.1 st (alternationS x1 x2 st) (alternation (g1, x1.2) (g2, x2.2)) fun x => ((x1.1, x.2), x.1) := by
  obtain ⟨r1, q01, f1⟩ := x1
  obtain ⟨r2, q02, f2⟩ := x2
  simp only at h1 h2 hne ⊢
  obtain ⟨hlt, _⟩ := List.getElem?_eq_some_iff.1 h1
  have hi := insertAutomatonS_eq h1 h2 hne
  unfold alternationS
  simp only
  rw [bind_ok (show fetch r1 st = (.ok g1, st) by simp [fetch, h1])]
  cases hv : insertAutomaton g1 g2 with
  | error e =>
    rw [hv] at hi
    obtain ⟨g', hi⟩ := hi
    have : alternation (g1, q01, f1) (g2, q02, f2) = .error e := by unfold alternation; simp only [hv, bind, Except.bind]
    rw [this]
    exact ⟨g', bind_error hi⟩
  | ok x =>
    obtain ⟨g, map⟩ := x
    rw [hv] at hi
    simp only [Modifies] at hi
    rw [bind_ok hi, bind_ok (newVertex_set hlt g), bind_ok (update_set hlt _ _), alternation_val hv]
    cases hq : map.getE q02 with
    | error e => exact ⟨_, rfl⟩
    | ok r =>
      rw [bind_lift, bind_ok (update_set hlt _ _), bind_ok (newVertex_set hlt _), bind_ok (update_set hlt _ _)]
      cases hf : map.getE f2 with
      | error e => exact ⟨_, rfl⟩
      | ok f =>
        rw [bind_lift, bind_ok (update_set hlt _ _)]
        rfl

/-! ## Repetitions -/

/-- Objects other than those of `own` are kept; new ones may have been made. -/
def Frame (own : Nat → Prop) (st st' : Store A) : Prop := st.length ≤ st'.length ∧ ∀ i, i < st.length → ¬ own i → st'[i]? = st[i]?

omit [DecidableEq A] in
theorem Frame.refl (own : Nat → Prop) (st : Store A) : Frame own st st := ⟨Nat.le_refl _, fun _ _ _ => rfl⟩

omit [DecidableEq A] in
theorem Frame.set {own : Nat → Prop} (st : Store A) {r : Nat} (h : own r) (g : Nfa A) : Frame own st (st.set r g) :=
  ⟨by simp, fun i _ hi => get_set_ne (fun e => hi (by rw [← e]; exact h)) g⟩

omit [DecidableEq A] in
theorem Frame.append {own : Nat → Prop} (st : Store A) (g : Nfa A) : Frame own st (st ++ [g]) :=
  ⟨by simp, fun i hi _ => List.getElem?_append_left hi⟩

omit [DecidableEq A] in
/-- What was made in between may be modified. -/
theorem Frame.trans {own own' : Nat → Prop} {st st' st'' : Store A} (h : Frame own st st') (h' : Frame own' st' st'') (ho : ∀ i, i < st.length → own' i → own i) :
    Frame own st st'' :=
  ⟨Nat.le_trans h.1 h'.1, fun i hi hn => (h'.2 i (Nat.lt_of_lt_of_le hi h.1) fun hc => hn (ho i hi hc)).trans (h.2 i hi hn)⟩

/-- A function on objects computes what a function on values does, on an object of `own` or a new one, and keeps the objects that are not in `own`. -/
def Computes (own : Nat → Prop) (st : Store A) (m : Except PyErr FragRef × Store A) (v : Except PyErr (Frag A)) : Prop :=
  match v with
  | .ok x => ∃ r st', m = (.ok (r, x.2), st') ∧ st'[r]? = some x.1 ∧ (own r ∨ st.length ≤ r) ∧ Frame own st st'
  | .error e => ∃ st', m = (.error e, st') ∧ Frame own st st'

omit [DecidableEq A] in
theorem Modifies.computes {own : Nat → Prop} {st : Store A} {r : Nat} {m : Except PyErr FragRef × Store A} {v : Except PyErr (Frag A)} (hr : own r) (hlt : r < st.length)
    (h : Modifies r st m v fun x => ((r, x.2), x.1)) : Computes own st m v := by
  cases v with
  | error e => obtain ⟨g, h⟩ := h; exact ⟨_, h, Frame.set st hr g⟩
  | ok x => exact ⟨r, _, h, get_set_self hlt _, .inl hr, Frame.set st hr _⟩

omit [DecidableEq A] in
theorem Computes.weaken {own own' : Nat → Prop} {st st' : Store A} {m : Except PyErr FragRef × Store A} {v : Except PyErr (Frag A)} (h : Computes own' st' m v)
    (hf : Frame own st st') (ho : ∀ i, i < st.length → own' i → own i) : Computes own st m v := by
  cases v with
  | error e => obtain ⟨s, h1, h2⟩ := h; exact ⟨s, h1, hf.trans h2 ho⟩
  | ok x =>
    obtain ⟨r, s, h1, h2, h3, h4⟩ := h
    refine ⟨r, s, h1, h2, ?_, hf.trans h4 ho⟩
    by_cases hr : r < st.length
    · rcases h3 with h3 | h3
      · exact .inl (ho r hr h3)
      · have := hf.1; omega
    · exact .inr (by omega)

theorem repetitionLoopS_eq {r ro : Nat} (hne : r ≠ ro) (xo : Nat × Nat) {go : Nfa A} (k : Nat) : ∀ (st : Store A) (g : Nfa A) (x : Nat × Nat), st[r]? = some g → st[ro]? = some go →
    Modifies r st (repetitionLoopS (ro, xo) k (r, x) st) (repetitionLoop (go, xo) k (g, x)) fun y => ((r, y.2), y.1) := by
  induction k with
  | zero =>
    intro st g x hg _
    obtain ⟨hlt, rfl⟩ := List.getElem?_eq_some_iff.1 hg
    show (_, _) = (_, _)
    rw [List.set_getElem_self hlt]
  | succ k ih =>
    intro st g x hg hgo
    obtain ⟨hlt, _⟩ := List.getElem?_eq_some_iff.1 hg
    obtain ⟨q0, f⟩ := x
    have h1 : update r (fun g => g.setFinal f false) st = (.ok (), st.set r (g.setFinal f false)) := by simp [update, hg]
    have h2 := concatenationS_eq (st := st.set r (g.setFinal f false)) (x1 := (r, q0, f)) (x2 := (ro, xo)) (get_set_self hlt _) ((get_set_ne hne _).trans hgo) hne
    simp only [repetitionLoopS]
    rw [bind_ok h1]
    unfold repetitionLoop
    simp only at h2 ⊢
    cases hc : concatenation (g.setFinal f false, q0, f) (go, xo) with
    | error e =>
      rw [hc] at h2
      obtain ⟨g', h2⟩ := h2
      rw [List.set_set] at h2
      exact ⟨g', bind_error h2⟩
    | ok y =>
      rw [hc] at h2
      simp only [Modifies] at h2
      rw [List.set_set] at h2
      rw [bind_ok h2]
      have := ih (st.set r y.1) y.1 y.2 (get_set_self hlt _) ((get_set_ne hne _).trans hgo)
      unfold Modifies at this ⊢
      simp only [List.set_set] at this
      exact this

theorem rangeLoopS_eq {r ro : Nat} (hne : r ≠ ro) (xo : Nat × Nat) {go : Nfa A} (k : Nat) : ∀ (st : Store A) (g : Nfa A) (x : Nat × Nat) (fs : List Nat),
    st[r]? = some g → st[ro]? = some go →
    Modifies r st (rangeLoopS (ro, xo) k (r, x) fs st) (rangeLoop (go, xo) k (g, x) fs) fun y => (((r, y.1.2), y.2), y.1.1) := by
  induction k with
  | zero =>
    intro st g x fs hg _
    obtain ⟨hlt, rfl⟩ := List.getElem?_eq_some_iff.1 hg
    show (_, _) = (_, _)
    rw [List.set_getElem_self hlt]
  | succ k ih =>
    intro st g x fs hg hgo
    obtain ⟨hlt, _⟩ := List.getElem?_eq_some_iff.1 hg
    have h2 := concatenationS_eq (st := st) (x1 := (r, x)) (x2 := (ro, xo)) hg hgo hne
    simp only [rangeLoopS]
    unfold rangeLoop
    simp only at h2 ⊢
    cases hc : concatenation (g, x) (go, xo) with
    | error e =>
      rw [hc] at h2
      obtain ⟨g', h2⟩ := h2
      exact ⟨g', bind_error h2⟩
    | ok y =>
      rw [hc] at h2
      simp only [Modifies] at h2
      rw [bind_ok h2]
      have := ih (st.set r y.1) y.1 y.2 (setAdd fs y.2.2) (get_set_self hlt _) ((get_set_ne hne _).trans hgo)
      unfold Modifies at this ⊢
      simp only [List.set_set] at this
      exact this

omit [DecidableEq A] in
theorem deepcopy_eq {st : Store A} {r : Nat} {g : Nfa A} (h : st[r]? = some g) : deepcopy r st = (.ok st.length, st ++ [g]) := by
  unfold deepcopy
  rw [bind_ok (show fetch r st = (.ok g, st) by simp [fetch, h])]
  rfl

theorem repetitionS_eq (eps : A) {st : Store A} {x : FragRef} {g : Nfa A} (h : st[x.1]? = some g) (m : Nat) :
    Computes (· = x.1) st (repetitionS eps x m st) (repetition eps (g, x.2) m) := by
  obtain ⟨hlt, _⟩ := List.getElem?_eq_some_iff.1 h
  unfold repetitionS repetition
  split
  · exact ⟨st.length, st ++ [(Nfa.init eps [] 1).setFinal 0], rfl, by simp, .inr (Nat.le_refl _), Frame.append st _⟩
  · split
    · rw [bind_ok (deepcopy_eq h)]
      have h1 : (st ++ [g])[x.1]? = some g := by rw [List.getElem?_append_left hlt]; exact h
      have := repetitionLoopS_eq (r := x.1) (ro := st.length) (by omega) x.2 (go := g) (m - 1) (st ++ [g]) g x.2 h1 (by simp)
      exact (this.computes (own := (· = x.1)) rfl (by simp; omega)).weaken (Frame.append st g) (fun _ _ h => h)
    · exact ⟨x.1, st, rfl, h, .inl rfl, Frame.refl _ st⟩

omit [DecidableEq A] in
theorem inPlace_eq {st : Store A} {x : FragRef} {g : Nfa A} (h : st[x.1]? = some g) (op : Frag A → Frag A) :
    inPlace op x st = (.ok (x.1, (op (g, x.2)).2), st.set x.1 (op (g, x.2)).1) := by
  simp [inPlace, h]

omit [DecidableEq A] in
theorem inPlace_computes {st : Store A} {x : FragRef} {g : Nfa A} (h : st[x.1]? = some g) (op : Frag A → Frag A) :
    Computes (· = x.1) st (inPlace op x st) (.ok (op (g, x.2))) := by
  obtain ⟨hlt, _⟩ := List.getElem?_eq_some_iff.1 h
  exact ⟨x.1, _, inPlace_eq h op, get_set_self hlt _, .inl rfl, Frame.set st (own := (· = x.1)) rfl _⟩

theorem range_error {eps : A} {x y : Frag A} {m n : Nat} (h1 : ¬ n < m) (h2 : ¬ (m = 0 ∧ n = 1)) (hy : repetition eps x m = .ok y) {e : PyErr}
    (hz : rangeLoop x (n - m) (y.1, x.2.1, y.2.2) [y.2.2] = .error e) : repetitionRange eps x m (some n) = .error e := by
  simp only [repetitionRange, if_neg h1, if_neg h2, hy, bind, Except.bind, hz]

theorem range_ok {eps : A} {x y : Frag A} {m n : Nat} (h1 : ¬ n < m) (h2 : ¬ (m = 0 ∧ n = 1)) (hy : repetition eps x m = .ok y) {z : Frag A × List Nat}
    (hz : rangeLoop x (n - m) (y.1, x.2.1, y.2.2) [y.2.2] = .ok z) : repetitionRange eps x m (some n) = .ok (rangeFinals z.1.1 z.1.2.2 z.2, z.1.2) := by
  simp only [repetitionRange, if_neg h1, if_neg h2, hy, bind, Except.bind, hz]

theorem repetitionRangeS_eq (eps : A) {st : Store A} {x : FragRef} {g : Nfa A} (h : st[x.1]? = some g) (m : Nat) (n : Option Nat) :
    Computes (· = x.1) st (repetitionRangeS eps x m n st) (repetitionRange eps (g, x.2) m n) := by
  obtain ⟨hlt, _⟩ := List.getElem?_eq_some_iff.1 h
  have hcopy : ∀ {s : Store A} {g' : Nfa A} {i : Nat}, i < s.length → (s ++ [g'])[i]? = s[i]? := fun hi => List.getElem?_append_left hi
  cases n with
  | none =>
    simp only [repetitionRangeS, repetitionRange]
    split
    · exact inPlace_computes h _
    · split
      · exact inPlace_computes h _
      · rw [bind_ok (deepcopy_eq h)]
        have h1 : (st ++ [g])[x.1]? = some g := (hcopy hlt).trans h
        have hr := repetitionS_eq eps h1 (m - 1)
        cases hv : repetition eps (g, x.2) (m - 1) with
        | error e =>
          rw [hv] at hr
          obtain ⟨st', e1, e2⟩ := hr
          rw [bind_error e1]
          exact ⟨st', rfl, (Frame.append st g).trans e2 (fun _ _ h => h)⟩
        | ok y =>
          rw [hv] at hr
          obtain ⟨r1, st', e1, e2, e3, e4⟩ := hr
          rw [bind_ok e1]
          have hori : st'[st.length]? = some g := by
            rw [e4.2 st.length (by simp) (by omega)]; simp
          obtain ⟨hl', _⟩ := List.getElem?_eq_some_iff.1 hori
          have hne : r1 ≠ st.length := by
            rcases e3 with rfl | e3
            · omega
            · simp at e3; omega
          rw [bind_ok (inPlace_eq (x := (st.length, x.2)) hori oneOrMore)]
          obtain ⟨hr1, _⟩ := List.getElem?_eq_some_iff.1 e2
          have hc := concatenationS_eq (st := st'.set st.length (oneOrMore (g, x.2)).1) (x1 := (r1, y.2)) (x2 := (st.length, (oneOrMore (g, x.2)).2))
            ((get_set_ne (Ne.symm hne) _).trans e2) (get_set_self hl' _) hne
          refine (hc.computes (own := fun i => i = x.1 ∨ st.length ≤ i) ?_ (by simpa using hr1)).weaken (st := st) ?_ ?_
          · rcases e3 with rfl | e3
            · exact .inl rfl
            · simp at e3; exact .inr (by omega)
          · exact ((Frame.append st g).trans e4 (fun _ _ h => h)).trans (Frame.set st' (own := (· = st.length)) rfl _) (fun i hi h => by omega)
          · rintro i hi (h | h)
            · exact h
            · omega
  | some n =>
    by_cases hnm : n < m
    · simp only [repetitionRangeS, repetitionRange, if_pos hnm]
      exact ⟨st, rfl, Frame.refl _ st⟩
    by_cases h01 : m = 0 ∧ n = 1
    · simp only [repetitionRangeS, repetitionRange, if_neg hnm, if_pos h01]
      exact inPlace_computes h _
    have hS : repetitionRangeS eps x m (some n) st = (PyM.bind (deepcopy x.1) fun _ =>
      PyM.bind (deepcopy x.1) fun ori =>
      PyM.bind (repetitionS eps x m) fun y =>
      PyM.bind (rangeLoopS (ori, x.2) (n - m) (y.1, x.2.1, y.2.2) [y.2.2]) fun z =>
      PyM.bind (update z.1.1 fun g => rangeFinals g z.1.2.2 z.2) fun _ => PyM.pure z.1) st := by
      simp only [repetitionRangeS, if_neg hnm, if_neg h01]
    rw [hS, bind_ok (deepcopy_eq h)]
    have h1 : (st ++ [g])[x.1]? = some g := (hcopy hlt).trans h
    rw [bind_ok (deepcopy_eq h1)]
    have h2 : (st ++ [g] ++ [g])[x.1]? = some g := (hcopy (by simp; omega)).trans h1
    have hr := repetitionS_eq eps h2 m
    have hfr : Frame (· = x.1) st (st ++ [g] ++ [g]) := (Frame.append st g).trans (Frame.append (own := (· = x.1)) _ g) (fun _ _ h => h)
    cases hv : repetition eps (g, x.2) m with
    | error e =>
      rw [hv] at hr
      obtain ⟨st', e1, e2⟩ := hr
      rw [bind_error e1]
      have hval : repetitionRange eps (g, x.2) m (some n) = .error e := by
        simp only [repetitionRange, if_neg hnm, if_neg h01, hv, bind, Except.bind]
      rw [hval]
      exact ⟨st', rfl, hfr.trans e2 (fun _ _ h => h)⟩
    | ok y =>
      rw [hv] at hr
      obtain ⟨r1, st', e1, e2, e3, e4⟩ := hr
      rw [bind_ok e1]
      have hori : st'[(st ++ [g]).length]? = some g := by
        rw [e4.2 (st ++ [g]).length (by simp) (by simp; omega)]; simp
      have hne : r1 ≠ (st ++ [g]).length := by
        rcases e3 with rfl | e3
        · simp; omega
        · simp at e3 ⊢; omega
      obtain ⟨hr1, _⟩ := List.getElem?_eq_some_iff.1 e2
      have hl := rangeLoopS_eq (r := r1) (ro := (st ++ [g]).length) hne x.2 (n - m) st' y.1 (x.2.1, y.2.2) [y.2.2] e2 hori
      have hown : ∀ i, i < st.length → (i = r1) → i = x.1 := by
        rintro i hi rfl
        rcases e3 with rfl | e3
        · rfl
        · simp at e3; omega
      have hnew : ∀ g', Frame (· = x.1) st (st'.set r1 g') := fun g' =>
        (hfr.trans e4 (fun _ _ h => h)).trans (Frame.set st' (own := (· = r1)) rfl g') hown
      cases hv2 : rangeLoop (g, x.2) (n - m) (y.1, x.2.1, y.2.2) [y.2.2] with
      | error e =>
        rw [hv2] at hl
        obtain ⟨g', hl⟩ := hl
        rw [bind_error hl, range_error hnm h01 hv hv2]
        exact ⟨_, rfl, hnew g'⟩
      | ok z =>
        rw [hv2] at hl
        simp only [Modifies] at hl
        rw [bind_ok hl, range_ok hnm h01 hv hv2]
        have hu : update r1 (fun g => rangeFinals g z.1.2.2 z.2) (st'.set r1 z.1.1) = (.ok (), st'.set r1 (rangeFinals z.1.1 z.1.2.2 z.2)) := update_set hr1 _ _
        rw [bind_ok hu]
        refine ⟨r1, _, rfl, get_set_self hr1 _, ?_, hnew _⟩
        rcases e3 with rfl | e3
        · exact .inl rfl
        · simp at e3; exact .inr (by omega)

/-! ## The stack and the compiler -/

/-- The stack of objects holds the stack of values: distinct new objects. -/
def Holds (base : Nat) (st : Store A) (refs : List FragRef) (vals : List (Frag A)) : Prop :=
  (refs.map Prod.fst).Nodup ∧ (∀ x ∈ refs, base ≤ x.1) ∧ List.Forall₂ (fun (x : FragRef) (v : Frag A) => st[x.1]? = some v.1 ∧ x.2 = v.2) refs vals

omit [DecidableEq A] in
theorem Holds.lt {base : Nat} {st : Store A} {refs : List FragRef} {vals : List (Frag A)} (h : Holds base st refs vals) : ∀ x ∈ refs, x.1 < st.length := by
  intro x hx
  have h3 := h.2.2
  clear h
  induction h3 with
  | nil => simp at hx
  | cons hc _ ih =>
    rcases List.mem_cons.1 hx with rfl | hx
    · exact (List.getElem?_eq_some_iff.1 hc.1).1
    · exact ih hx

omit [DecidableEq A] in
/-- Pushing the result of a function. -/
theorem Holds.push {base : Nat} {own : Nat → Prop} {st st' : Store A} {refs : List FragRef} {vals : List (Frag A)} (h : Holds base st refs vals) (hf : Frame own st st')
    (hd : ∀ x ∈ refs, ¬ own x.1) {r : Nat} {v : Frag A} (hv : st'[r]? = some v.1) (hr : own r ∨ st.length ≤ r) (hb : base ≤ r) : Holds base st' ((r, v.2) :: refs) (v :: vals) := by
  have hlt := h.lt
  obtain ⟨h1, h2, h3⟩ := h
  refine ⟨?_, ?_, .cons ⟨hv, rfl⟩ ?_⟩
  · rw [List.map_cons, List.nodup_cons]
    refine ⟨fun hm => ?_, h1⟩
    obtain ⟨x, hx, he⟩ := List.mem_map.1 hm
    rcases hr with hr | hr
    · exact hd x hx (by rw [he]; exact hr)
    · have := hlt x hx; simp only at he; omega
  · intro x hx
    rcases List.mem_cons.1 hx with rfl | hx
    · exact hb
    · exact h2 x hx
  · clear h1 h2
    induction h3 with
    | nil => exact .nil
    | cons hc _ ih =>
      refine .cons ⟨?_, hc.2⟩ (ih (fun x hx => hd x (List.mem_cons_of_mem _ hx)) (fun x hx => hlt x (List.mem_cons_of_mem _ hx)))
      rw [hf.2 _ (hlt _ (List.mem_cons_self ..)) (hd _ (List.mem_cons_self ..))]
      exact hc.1

/-- Functions on stacks. -/
def Pushes (base : Nat) (st : Store A) (m : Except PyErr (List FragRef) × Store A) (v : Except PyErr (List (Frag A))) : Prop :=
  match v with
  | .ok vals => ∃ refs st', m = (.ok refs, st') ∧ Holds base st' refs vals ∧ Frame (base ≤ ·) st st'
  | .error e => ∃ st', m = (.error e, st') ∧ Frame (base ≤ ·) st st'

omit [DecidableEq A] in
theorem Computes.pushes {base : Nat} {own : Nat → Prop} {st : Store A} {refs : List FragRef} {vals : List (Frag A)} (h : Holds base st refs vals) (hb : base ≤ st.length)
    (hd : ∀ x ∈ refs, ¬ own x.1) (ho : ∀ i, own i → base ≤ i) {m : PyM (Store A) FragRef} {v : Except PyErr (Frag A)} (hc : Computes own st (m st) v) :
    Pushes base st (PyM.bind m (fun x => PyM.pure (x :: refs)) st) (v.bind fun y => .ok (y :: vals)) := by
  have hsub : ∀ st', Frame own st st' → Frame (base ≤ ·) st st' := fun st' hf => ⟨hf.1, fun i hi hn => hf.2 i hi fun hc => hn (ho i hc)⟩
  cases v with
  | error e =>
    obtain ⟨st', e1, e2⟩ := hc
    exact ⟨st', bind_error e1, hsub _ e2⟩
  | ok x =>
    obtain ⟨r, st', e1, e2, e3, e4⟩ := hc
    exact ⟨(r, x.2) :: refs, st', bind_ok e1, h.push e4 hd e2 e3 (by rcases e3 with e3 | e3; exact ho r e3; omega), hsub _ e4⟩

omit [DecidableEq A] in
theorem Pushes.error {base : Nat} (st : Store A) (e : PyErr) : Pushes base st (.error e, st) (.error e) := ⟨st, rfl, Frame.refl _ st⟩

omit [DecidableEq A] in
theorem Holds.tail {base : Nat} {st : Store A} {x : FragRef} {v : Frag A} {refs : List FragRef} {vals : List (Frag A)} (h : Holds base st (x :: refs) (v :: vals)) :
    Holds base st refs vals ∧ base ≤ x.1 ∧ st[x.1]? = some v.1 ∧ x.2 = v.2 ∧ ∀ y ∈ refs, y.1 ≠ x.1 := by
  obtain ⟨h1, h2, h3⟩ := h
  rw [List.map_cons, List.nodup_cons] at h1
  cases h3 with
  | cons hc h3 =>
    refine ⟨⟨h1.2, fun x hx => h2 x (List.mem_cons_of_mem _ hx), h3⟩, h2 _ (List.mem_cons_self ..), hc.1, hc.2, fun y hy he => h1.1 ?_⟩
    rw [← he]
    exact List.mem_map_of_mem hy

omit [DecidableEq A] in
theorem Holds.lenEq {base : Nat} {st : Store A} {refs : List FragRef} {vals : List (Frag A)} (h : Holds base st refs vals) : refs.length = vals.length := h.2.2.length_eq

theorem onPushOutputS_eq (eps : A) {base : Nat} {st : Store A} (hb : base ≤ st.length) {refs : List FragRef} {vals : List (Frag A)} (h : Holds base st refs vals) (t : Tok A) :
    Pushes base st (onPushOutputS eps refs t st) (onPushOutput eps vals t) := by
  have unary : ∀ (m : FragRef → PyM (Store A) FragRef) (w : Frag A → Except PyErr (Frag A)) (x : FragRef) (rs : List FragRef) (v : Frag A) (vs : List (Frag A)),
      Holds base st (x :: rs) (v :: vs) → (∀ (x : FragRef) (g : Nfa A), st[x.1]? = some g → Computes (· = x.1) st (m x st) (w (g, x.2))) →
      Pushes base st (PyM.bind (m x) (fun x => PyM.pure (x :: rs)) st) ((w v).bind fun y => .ok (y :: vs)) := by
    intro m w x rs v vs hh hw
    obtain ⟨h1, h2, h3, h4, h5⟩ := hh.tail
    have := hw x v.1 h3
    rw [h4] at this
    exact this.pushes h1 hb h5 (by rintro i rfl; exact h2)
  have binary : ∀ (m : FragRef → FragRef → PyM (Store A) FragRef) (w : Frag A → Frag A → Except PyErr (Frag A)) (x2 x1 : FragRef) (rs : List FragRef) (v2 v1 : Frag A)
      (vs : List (Frag A)), Holds base st (x2 :: x1 :: rs) (v2 :: v1 :: vs) →
      (∀ (x1 x2 : FragRef) (g1 g2 : Nfa A), st[x1.1]? = some g1 → st[x2.1]? = some g2 → x1.1 ≠ x2.1 → Modifies x1.1 st (m x1 x2 st) (w (g1, x1.2) (g2, x2.2)) fun y => ((x1.1, y.2), y.1)) →
      Pushes base st (PyM.bind (m x1 x2) (fun x => PyM.pure (x :: rs)) st) ((w v1 v2).bind fun y => .ok (y :: vs)) := by
    intro m w x2 x1 rs v2 v1 vs hh hw
    obtain ⟨h1, h2, h3, h4, h5⟩ := hh.tail
    obtain ⟨k1, k2, k3, k4, k5⟩ := h1.tail
    have := hw x1 x2 v1.1 v2.1 k3 h3 (h5 x1 (List.mem_cons_self ..))
    rw [h4, k4] at this
    exact (this.computes (own := (· = x1.1)) rfl (List.getElem?_eq_some_iff.1 k3).1).pushes k1 hb k5 (by rintro i rfl; exact k2)
  have hlen := h.lenEq
  cases t with
  | cat =>
    match refs, vals, h, hlen with
    | [], [], _, _ => exact Pushes.error st _
    | [_], [_], _, _ => exact Pushes.error st _
    | x2 :: x1 :: rs, v2 :: v1 :: vs, h, _ => exact binary concatenationS concatenation x2 x1 rs v2 v1 vs h fun a b g1 g2 h1 h2 h3 => concatenationS_eq h1 h2 h3
  | alt =>
    match refs, vals, h, hlen with
    | [], [], _, _ => exact Pushes.error st _
    | [_], [_], _, _ => exact Pushes.error st _
    | x2 :: x1 :: rs, v2 :: v1 :: vs, h, _ => exact binary alternationS alternation x2 x1 rs v2 v1 vs h fun a b g1 g2 h1 h2 h3 => alternationS_eq h1 h2 h3
  | opt =>
    match refs, vals, h, hlen with
    | [], [], _, _ => exact Pushes.error st _
    | x :: rs, v :: vs, h, _ => exact unary (inPlace zeroOrOne) (fun v => .ok (zeroOrOne v)) x rs v vs h fun x g hg => inPlace_computes hg _
  | star =>
    match refs, vals, h, hlen with
    | [], [], _, _ => exact Pushes.error st _
    | x :: rs, v :: vs, h, _ => exact unary (inPlace zeroOrMore) (fun v => .ok (zeroOrMore v)) x rs v vs h fun x g hg => inPlace_computes hg _
  | plus =>
    match refs, vals, h, hlen with
    | [], [], _, _ => exact Pushes.error st _
    | x :: rs, v :: vs, h, _ => exact unary (inPlace oneOrMore) (fun v => .ok (oneOrMore v)) x rs v vs h fun x g hg => inPlace_computes hg _
  | rep m n =>
    match refs, vals, h, hlen with
    | [], [], _, _ => exact Pushes.error st _
    | x :: rs, v :: vs, h, _ => exact unary (fun x => repetitionRangeS eps x m n) (fun v => repetitionRange eps v m n) x rs v vs h fun x g hg => repetitionRangeS_eq eps hg m n
  | lit a =>
    have hc : Computes (fun _ => False) st (literalS eps a st) (.ok (literal eps a)) := ⟨st.length, _, rfl, by simp, .inr (Nat.le_refl _), Frame.append st _⟩
    exact hc.pushes h hb (fun _ _ h => h) (fun _ h => h.elim)
  | chars cs =>
    have hc : Computes (fun _ => False) st (bracketS eps cs st) (.ok (bracket eps cs)) := ⟨st.length, _, rfl, by simp, .inr (Nat.le_refl _), Frame.append st _⟩
    exact hc.pushes h hb (fun _ _ h => h) (fun _ h => h.elim)

theorem pushAllS_eq (eps : A) {base : Nat} (toks : List (Tok A)) : ∀ {st : Store A}, base ≤ st.length → ∀ {refs : List FragRef} {vals : List (Frag A)}, Holds base st refs vals →
    Pushes base st (pushAllS eps toks refs st) (toks.foldlM (onPushOutput eps) vals) := by
  induction toks with
  | nil => intro st _ refs vals h; exact ⟨refs, st, rfl, h, Frame.refl _ st⟩
  | cons t toks ih =>
    intro st hb refs vals h
    have h1 := onPushOutputS_eq eps hb h t
    rw [List.foldlM_cons]
    simp only [pushAllS]
    cases hv : onPushOutput eps vals t with
    | error e =>
      rw [hv] at h1
      obtain ⟨st', e1, e2⟩ := h1
      exact ⟨st', bind_error e1, e2⟩
    | ok vals' =>
      rw [hv] at h1
      obtain ⟨refs', st', e1, e2, e3⟩ := h1
      rw [bind_ok e1]
      have h2 := ih (st := st') (Nat.le_trans hb e3.1) e2
      show Pushes base st _ (toks.foldlM (onPushOutput eps) vals')
      cases hw : toks.foldlM (onPushOutput eps) vals' with
      | error e =>
        rw [hw] at h2
        obtain ⟨s, k1, k2⟩ := h2
        exact ⟨s, k1, e3.trans k2 (fun _ _ h => h)⟩
      | ok w =>
        rw [hw] at h2
        obtain ⟨r, s, k1, k2, k3⟩ := h2
        exact ⟨r, s, k1, k2, e3.trans k3 (fun _ _ h => h)⟩

theorem compileS_eq (eps : A) (toks : List (Tok A)) (st : Store A) : Computes (st.length ≤ ·) st (compileS eps toks st) (compile eps toks) := by
  cases toks with
  | nil => exact ⟨st.length, _, rfl, by simp, .inr (Nat.le_refl _), Frame.append st _⟩
  | cons t toks =>
    have h := pushAllS_eq eps (base := st.length) (t :: toks) (st := st) (Nat.le_refl _) (refs := []) (vals := []) ⟨by simp, by simp, .nil⟩
    have hval : compile eps (t :: toks) = ((t :: toks).foldlM (onPushOutput eps) []).bind fun l => match l with
      | [x] => .ok x
      | _ => .error .assertionError := rfl
    rw [hval]
    show Computes _ _ (PyM.bind (pushAllS eps (t :: toks) []) (fun stack =>
      match stack with
      | [x] => PyM.pure x
      | _ => PyM.lift (.error .assertionError)) st) _
    cases hv : (t :: toks).foldlM (onPushOutput eps) [] with
    | error e =>
      rw [hv] at h
      obtain ⟨st', e1, e2⟩ := h
      exact ⟨st', bind_error e1, e2⟩
    | ok vals =>
      rw [hv] at h
      obtain ⟨refs, st', e1, e2, e3⟩ := h
      rw [bind_ok e1]
      have hl := e2.lenEq
      match refs, vals, e2, hl with
      | [], [], _, _ => exact ⟨st', rfl, e3⟩
      | [x], [v], e2, _ =>
        obtain ⟨_, h2, h3, h4, _⟩ := e2.tail
        obtain ⟨r, q⟩ := x
        simp only at h4
        subst h4
        exact ⟨r, st', rfl, h3, .inl h2, e3⟩
      | _ :: _ :: _, _ :: _ :: _, _, _ => exact ⟨st', rfl, e3⟩

end Thompson
end PyBGL
