import Verif.Proofs.DfsSim
import Verif.Spec.Traversal

/-!
# Invariants of depth-first search
-/

namespace PyBGL
variable {V E : Type}

section projections

@[simp] theorem discovered_nil : discovered ([] : List (DfsEvent V E)) = [] := rfl
@[simp] theorem finished_nil : finished ([] : List (DfsEvent V E)) = [] := rfl
@[simp] theorem examined_nil : examined ([] : List (DfsEvent V E)) = [] := rfl
@[simp] theorem classified_nil : classified ([] : List (DfsEvent V E)) = [] := rfl

@[simp] theorem discovered_append (a b : List (DfsEvent V E)) : discovered (a ++ b) = discovered a ++ discovered b := by
  simp [discovered]
@[simp] theorem finished_append (a b : List (DfsEvent V E)) : finished (a ++ b) = finished a ++ finished b := by
  simp [finished]
@[simp] theorem examined_append (a b : List (DfsEvent V E)) : examined (a ++ b) = examined a ++ examined b := by
  simp [examined]
@[simp] theorem classified_append (a b : List (DfsEvent V E)) : classified (a ++ b) = classified a ++ classified b := by
  simp [classified]

@[simp] theorem discovered_cons (x : DfsEvent V E) (a : List (DfsEvent V E)) :
    discovered (x :: a) = (match x with | .discover u => [u] | _ => []) ++ discovered a := by
  cases x <;> rfl
@[simp] theorem finished_cons (x : DfsEvent V E) (a : List (DfsEvent V E)) :
    finished (x :: a) = (match x with | .finish u => [u] | _ => []) ++ finished a := by
  cases x <;> rfl
@[simp] theorem examined_cons (x : DfsEvent V E) (a : List (DfsEvent V E)) :
    examined (x :: a) = (match x with | .examineEdge u => [u] | _ => []) ++ examined a := by
  cases x <;> rfl
@[simp] theorem classified_cons (x : DfsEvent V E) (a : List (DfsEvent V E)) :
    classified (x :: a) =
      (match x with | .treeEdge e => [e] | .backEdge e => [e] | .forwardOrCrossEdge e => [e] | _ => []) ++ classified a := by
  cases x <;> rfl

theorem proj_pushCalls_aux (l : List E) : discovered (l.map (DfsEvent.ifPush (V := V))) = [] ∧
    finished (l.map (DfsEvent.ifPush (V := V))) = [] ∧
    examined (l.map (DfsEvent.ifPush (V := V))) = [] ∧ classified (l.map (DfsEvent.ifPush (V := V))) = [] := by
  induction l with
  | nil => simp
  | cons e l ih => simpa using ih

@[simp] theorem discovered_pushCalls (g : GraphI V E) (u : V) : discovered (pushCalls g u) = [] := (proj_pushCalls_aux _).1
@[simp] theorem finished_pushCalls (g : GraphI V E) (u : V) : finished (pushCalls g u) = [] := (proj_pushCalls_aux _).2.1
@[simp] theorem examined_pushCalls (g : GraphI V E) (u : V) : examined (pushCalls g u) = [] := (proj_pushCalls_aux _).2.2.1
@[simp] theorem classified_pushCalls (g : GraphI V E) (u : V) : classified (pushCalls g u) = [] := (proj_pushCalls_aux _).2.2.2

theorem mem_discovered {tr : List (DfsEvent V E)} {v : V} : v ∈ discovered tr ↔ .discover v ∈ tr := by
  induction tr with
  | nil => simp
  | cons x tr ih => cases x <;> simp [ih]

theorem mem_finished {tr : List (DfsEvent V E)} {v : V} : v ∈ finished tr ↔ .finish v ∈ tr := by
  induction tr with
  | nil => simp
  | cons x tr ih => cases x <;> simp [ih]

theorem mem_examined {tr : List (DfsEvent V E)} {e : E} : e ∈ examined tr ↔ .examineEdge e ∈ tr := by
  induction tr with
  | nil => simp
  | cons x tr ih => cases x <;> simp [ih]

end projections

/-! ## Conditions on each call given the previous ones -/

/-- Each call of the list satisfies `OK`, given the calls made before. -/
def AllOK {Ev : Type} (OK : List Ev → Ev → Prop) : List Ev → List Ev → Prop
  | _, [] => True
  | pre, x :: t => OK pre x ∧ AllOK OK (pre ++ [x]) t

theorem allOK_append {Ev : Type} {OK : List Ev → Ev → Prop} {pre a b : List Ev} :
    AllOK OK pre (a ++ b) ↔ AllOK OK pre a ∧ AllOK OK (pre ++ a) b := by
  induction a generalizing pre with
  | nil => simp [AllOK]
  | cons x a ih =>
    rw [List.cons_append]
    simp only [AllOK, ih, List.append_assoc, List.cons_append, List.nil_append]
    tauto

theorem AllOK.split {Ev : Type} {OK : List Ev → Ev → Prop} {pre a b : List Ev} {x : Ev}
    (h : AllOK OK pre (a ++ x :: b)) : OK (pre ++ a) x := (allOK_append.mp h).2.1

theorem AllOK.mono {Ev : Type} {OK OK' : List Ev → Ev → Prop} (h : ∀ pre x, OK pre x → OK' pre x) {pre a : List Ev}
    (ha : AllOK OK pre a) : AllOK OK' pre a := by
  induction a generalizing pre with
  | nil => trivial
  | cons x a ih => exact ⟨h _ _ ha.1, ih ha.2⟩

section
variable [DecidableEq V]

/-- The colour of a vertex, read off the calls. -/
def traceColor (pre : List (DfsEvent V E)) (v : V) : Color :=
  if v ∈ finished pre then .black else if v ∈ discovered pre then .gray else .white

/-- `w` was discovered between the discovery and the end of the target of one of the edges `es`. -/
def InChild (g : GraphI V E) (p : E → Bool) (es : List E) (b : List (DfsEvent V E)) (w : V) : Prop :=
  ∃ e ∈ es, Reach (g.through p) (g.target e) w ∧ ∃ b1 b2 b3, b = b1 ++ .discover (g.target e) :: b2 ++ .finish (g.target e) :: b3 ∧
    (w = g.target e ∨ w ∈ discovered b2)

/-- What holds at each call. -/
def DfsOK (g : GraphI V E) (p : E → Bool) (pre : List (DfsEvent V E)) : DfsEvent V E → Prop
  | .start v => traceColor pre v = .white
  | .discover v => traceColor pre v = .white ∧
      (.start v ∈ pre ∨ ∃ e, .treeEdge e ∈ pre ∧ .examineEdge e ∈ pre ∧ g.target e = v)
  | .ifPush e => ∃ u, u ∈ discovered pre ∧ e ∈ g.outEdges u
  | .examineEdge e => ∃ u, e ∈ pushed g p u ∧ traceColor pre u = .gray
  | .treeEdge e => traceColor pre (g.target e) = .white
  | .backEdge e => traceColor pre (g.target e) = .gray ∧
      ∃ u, u ∈ discovered pre ∧ e ∈ pushed g p u ∧ Reach (g.through p) (g.target e) u
  | .forwardOrCrossEdge e => traceColor pre (g.target e) = .black
  | .finish u => traceColor pre u = .gray ∧
      (∀ e ∈ pushed g p u, traceColor pre (g.target e) = .black ∨
        (traceColor pre (g.target e) = .gray ∧ .backEdge e ∈ pre)) ∧
      (∀ e ∈ g.outEdges u, .ifPush e ∈ pre) ∧
      ∃ a b, pre = a ++ .discover u :: b ∧ (∀ w, w ∈ discovered b ↔ w ∈ finished b) ∧
        (∀ w, w ∈ discovered b ↔
          w ≠ u ∧ Reach (g.through (fun e => p e && decide (g.target e ∉ discovered a))) u w) ∧
        ∀ w ∈ discovered b, InChild g p (pushed g p u) b w

variable {g : GraphI V E} {p : E → Bool}

theorem traceColor_white {pre : List (DfsEvent V E)} {v : V} :
    traceColor pre v = .white ↔ v ∉ discovered pre ∧ v ∉ finished pre := by
  unfold traceColor; split
  · simp [*]
  · split <;> simp [*]

theorem traceColor_gray {pre : List (DfsEvent V E)} {v : V} :
    traceColor pre v = .gray ↔ v ∈ discovered pre ∧ v ∉ finished pre := by
  unfold traceColor; split
  · simp [*]
  · split <;> simp [*]

theorem traceColor_black {pre : List (DfsEvent V E)} {v : V} : traceColor pre v = .black ↔ v ∈ finished pre := by
  unfold traceColor; split
  · simp [*]
  · split <;> simp [*]

theorem Reach.through_mono {p q : E → Bool} (h : ∀ e, p e = true → q e = true) {u v : V} (hr : Reach (g.through p) u v) :
    Reach (g.through q) u v := by
  refine Reach.closed (P := fun x => Reach (g.through q) u x) ?_ hr (Reach.refl _ _)
  intro x hx e he
  refine Reach.step hx (e := e) ?_
  have he' := List.mem_filter.mp he
  exact List.mem_filter.mpr ⟨he'.1, h e he'.2⟩

/-- The edges whose target is white. -/
def whiteEdge (g : GraphI V E) (p : E → Bool) (c : Dict V Color) (e : E) : Bool := p e && decide (colorOf c (g.target e) = .white)

/-- What holds after exploring the edges `es` leaving `u`. -/
structure EdgesInv (g : GraphI V E) (p : E → Bool) (pre : List (DfsEvent V E)) (c : Dict V Color) (u : V) (es : List E)
    (tr : List (DfsEvent V E)) (c' : Dict V Color) : Prop where
  agree : ∀ v, colorOf c' v = traceColor (pre ++ tr) v
  fin : ∀ v ∈ finished (pre ++ tr), v ∈ discovered (pre ++ tr)
  ok : AllOK (DfsOK g p) pre tr
  gray : ∀ v, colorOf c' v = .gray ↔ colorOf c v = .gray
  targets : ∀ e ∈ es, colorOf c' (g.target e) = .black ∨ (colorOf c' (g.target e) = .gray ∧ .backEdge e ∈ tr)
  same : ∀ w, w ∈ discovered tr ↔ w ∈ finished tr
  sound : ∀ w ∈ discovered tr, Reach (g.through (whiteEdge g p c)) u w
  black : ∀ v, colorOf c v = .black → colorOf c' v = .black
  closed : ∀ w ∈ discovered tr, ∀ e ∈ pushed g p w, colorOf c' (g.target e) ≠ .white
  fresh : ∀ w ∈ discovered tr, colorOf c w = .white
  child : ∀ w ∈ discovered tr, InChild g p es tr w

theorem allOK_pushCalls {pre : List (DfsEvent V E)} {u : V} (hu : u ∈ discovered pre) (l : List E) (hl : ∀ e ∈ l, e ∈ g.outEdges u) :
    AllOK (DfsOK g p) pre (l.map .ifPush) := by
  induction l generalizing pre with
  | nil => trivial
  | cons e l ih =>
    refine ⟨⟨u, hu, hl e (by simp)⟩, ih (by simp [hu]) (fun x hx => hl x (by simp [hx]))⟩

theorem traceColor_append_pushCalls (pre : List (DfsEvent V E)) (u v : V) :
    traceColor (pre ++ pushCalls g u) v = traceColor pre v := by
  unfold traceColor; simp

/-- What holds after the exploration of a white vertex `v`, from its discovery to its end. -/
structure NodeInv (g : GraphI V E) (p : E → Bool) (pre : List (DfsEvent V E)) (c : Dict V Color) (v : V)
    (tr : List (DfsEvent V E)) (c' : Dict V Color) : Prop where
  agree : ∀ w, colorOf c' w = traceColor (pre ++ tr) w
  fin : ∀ w ∈ finished (pre ++ tr), w ∈ discovered (pre ++ tr)
  ok : AllOK (DfsOK g p) pre tr
  gray : ∀ w, colorOf c' w = .gray ↔ colorOf c w = .gray
  same : ∀ w, w ∈ discovered tr ↔ w ∈ finished tr
  sound : ∀ w ∈ discovered tr, Reach (g.through (whiteEdge g p c)) v w
  black : ∀ w, colorOf c w = .black → colorOf c' w = .black
  closed : ∀ w ∈ discovered tr, ∀ e ∈ pushed g p w, colorOf c' (g.target e) ≠ .white
  fresh : ∀ w ∈ discovered tr, colorOf c w = .white
  self : v ∈ discovered tr

theorem colorOf_set_self (c : Dict V Color) (u : V) (x : Color) : colorOf (c.set u x) u = x := by
  rw [colorOf_set, if_pos rfl]

theorem colorOf_set_ne (c : Dict V Color) {u v : V} (x : Color) (h : u ≠ v) : colorOf (c.set u x) v = colorOf c v := by
  rw [colorOf_set, if_neg h]

theorem node_inv {pre pc t1 : List (DfsEvent V E)} {c c1 : Dict V Color} {v : V}
    (hw : colorOf c v = .white) (hagree : ∀ w, colorOf c w = traceColor pre w)
    (hpc : pc = pushCalls g v ∨ pc = pushCalls g v ++ pushCalls g v)
    (hpre : .start v ∈ pre ∨ ∃ e, .treeEdge e ∈ pre ∧ .examineEdge e ∈ pre ∧ g.target e = v)
    (h : EdgesInv g p (pre ++ .discover v :: pc) (c.set v .gray) v (pushed g p v) t1 c1) :
    NodeInv g p pre c v (.discover v :: pc ++ t1 ++ [.finish v]) (c1.set v .black) := by
  have hpc1 : discovered pc = [] := by rcases hpc with rfl | rfl <;> simp
  have hpc2 : finished pc = [] := by rcases hpc with rfl | rfl <;> simp
  have hwt := traceColor_white.mp ((hagree v).symm.trans hw)
  have hfv : v ∉ discovered t1 := fun hm => by
    have := h.fresh v hm
    rw [colorOf_set_self] at this; cases this
  have hgv : colorOf c1 v = .gray := (h.gray v).mpr (colorOf_set_self _ _ _)
  have hmono : ∀ e, whiteEdge g p (c.set v .gray) e = true → whiteEdge g p c e = true := by
    intro e he
    unfold whiteEdge at he ⊢
    simp only [Bool.and_eq_true, decide_eq_true_eq] at he ⊢
    refine ⟨he.1, ?_⟩
    have := he.2
    rw [colorOf_set] at this
    split at this
    · cases this
    · exact this
  have hnw : ∀ w, colorOf c1 w ≠ .white → w ∈ discovered pre ∨ w = v ∨ w ∈ discovered t1 := by
    intro w hw
    rw [h.agree] at hw
    have : w ∈ discovered (pre ++ .discover v :: pc ++ t1) := by
      by_cases hd : w ∈ finished (pre ++ .discover v :: pc ++ t1)
      · exact h.fin w hd
      · by_contra hn
        exact hw (traceColor_white.mpr ⟨hn, hd⟩)
    simpa [hpc1] using this
  have hne1 : ∀ w, colorOf (c1.set v .black) w ≠ .white ↔ colorOf c1 w ≠ .white := by
    intro w
    by_cases e : v = w
    · subst e; rw [colorOf_set_self, hgv]; simp
    · rw [colorOf_set_ne _ _ e]
  constructor
  · intro w
    by_cases e : v = w
    · subst e
      rw [colorOf_set_self]
      exact (traceColor_black.mpr (by simp)).symm
    · rw [colorOf_set_ne _ _ e, h.agree]
      unfold traceColor
      simp [hpc1, hpc2, Ne.symm e]
  · intro w hw'
    have : w ∈ finished (pre ++ .discover v :: pc ++ t1) ∨ w = v := by
      simp [hpc2] at hw' ⊢; tauto
    rcases this with h' | rfl
    · have := h.fin w h'
      simp [hpc1] at this ⊢; tauto
    · simp
  · have e1 : (DfsEvent.discover v :: pc ++ t1 ++ [.finish v] : List (DfsEvent V E)) = (.discover v :: pc) ++ (t1 ++ [.finish v]) := by simp
    rw [e1, allOK_append, allOK_append]
    refine ⟨⟨⟨traceColor_white.mpr hwt, hpre⟩, ?_⟩, h.ok, ?_, trivial⟩
    · have hd : v ∈ discovered (pre ++ [DfsEvent.discover v] : List (DfsEvent V E)) := by simp
      rcases hpc with rfl | rfl
      · exact allOK_pushCalls hd _ (fun _ h => h)
      · rw [allOK_append]
        exact ⟨allOK_pushCalls hd _ (fun _ h => h), allOK_pushCalls (by simp) _ (fun _ h => h)⟩
    · refine ⟨by rw [← h.agree]; exact hgv, ?_, ?_, pre, pc ++ t1, by simp, ?_, ?_, ?_⟩
      · intro e he
        rw [← h.agree]
        rcases h.targets e he with h' | ⟨h', hb⟩
        · exact .inl h'
        · exact .inr ⟨h', by simp [hb]⟩
      · intro e he
        have : DfsEvent.ifPush e ∈ pc := by
          have : (DfsEvent.ifPush e : DfsEvent V E) ∈ pushCalls g v := List.mem_map.mpr ⟨e, he, rfl⟩
          rcases hpc with rfl | rfl <;> simp [this]
        simp [this]
      · intro w; simpa [hpc1, hpc2] using h.same w
      · intro w
        simp only [discovered_append, hpc1, List.nil_append]
        have hwhite : ∀ x, colorOf c x = .white ↔ x ∉ discovered pre := by
          intro x
          rw [hagree, traceColor_white]
          refine ⟨And.left, fun h' => ⟨h', fun hf => ?_⟩⟩
          have := h.fin x (by simp [hf])
          simp [hpc1] at this
          rcases this with h1 | rfl | h1
          · exact h' h1
          · exact hwt.2 hf
          · have h2 := h.fresh x h1
            rw [colorOf_set] at h2
            split at h2
            · cases h2
            · rw [hagree] at h2; exact (traceColor_white.mp h2).2 hf
        constructor
        · intro hm
          refine ⟨fun e => hfv (e ▸ hm), (h.sound w hm).through_mono (fun e he => ?_)⟩
          have := hmono e he
          unfold whiteEdge at this
          simp only [Bool.and_eq_true, decide_eq_true_eq] at this ⊢
          exact ⟨this.1, (hwhite _).mp this.2⟩
        · rintro ⟨hne, hr⟩
          have : w = v ∨ w ∈ discovered t1 := by
            refine Reach.closed (P := fun x => x = v ∨ x ∈ discovered t1) ?_ hr (.inl rfl)
            intro x hx e he
            have he' := List.mem_filter.mp he
            simp only [Bool.and_eq_true, decide_eq_true_eq] at he'
            have hep : e ∈ pushed g p x := List.mem_filter.mpr ⟨he'.1, he'.2.1⟩
            have hcw : colorOf c1 (g.target e) ≠ .white := by
              rcases hx with rfl | hx
              · rcases h.targets e hep with h' | ⟨h', _⟩ <;> rw [h'] <;> decide
              · exact h.closed x hx e hep
            rcases hnw _ hcw with h' | h' | h'
            · exact absurd h' he'.2.2
            · exact .inl h'
            · exact .inr h'
          rcases this with h' | h'
          · exact absurd h' hne
          · exact h'
      · intro w hw'
        obtain ⟨e, he, hr, b1, b2, b3, ht, hm⟩ := h.child w (by simpa [hpc1] using hw')
        exact ⟨e, he, hr, pc ++ b1, b2, b3, by simp [ht], hm⟩
  · intro w
    by_cases e : v = w
    · subst e; rw [colorOf_set_self, hw]; simp
    · rw [colorOf_set_ne _ _ e, h.gray, colorOf_set_ne _ _ e]
  · intro w
    have := h.same w
    simp [hpc1, hpc2, this]; tauto
  · intro w hw'
    have : w = v ∨ w ∈ discovered t1 := by simpa [hpc1] using hw'
    rcases this with rfl | h'
    · exact Reach.refl _ _
    · exact (h.sound w h').through_mono hmono
  · intro w hb
    by_cases e : v = w
    · subst e; exact colorOf_set_self _ _ _
    · rw [colorOf_set_ne _ _ e]
      exact h.black w (by rw [colorOf_set_ne _ _ e]; exact hb)
  · intro w hw' e he
    rw [hne1]
    have : w = v ∨ w ∈ discovered t1 := by simpa [hpc1] using hw'
    rcases this with rfl | h'
    · rcases h.targets e he with h' | ⟨h', _⟩ <;> rw [h'] <;> decide
    · exact h.closed w h' e he
  · intro w hw'
    have : w = v ∨ w ∈ discovered t1 := by simpa [hpc1] using hw'
    rcases this with rfl | h'
    · exact hw
    · have := h.fresh w h'
      rw [colorOf_set] at this
      split at this
      · cases this
      · exact this
  · simp

theorem DfsEdges.inv {c c' : Dict V Color} {u : V} {es : List E} {tr : List (DfsEvent V E)} (h : DfsEdges g p c u es tr c') :
    ∀ pre, (∀ v, colorOf c v = traceColor pre v) → (∀ v ∈ finished pre, v ∈ discovered pre) → colorOf c u = .gray →
      (∀ e ∈ es, e ∈ pushed g p u) → (∀ v, colorOf c v = .gray → Reach (g.through p) v u) → EdgesInv g p pre c u es tr c' := by
  induction h with
  | nil c u =>
    intro pre hagree hfin hu hes hgr
    exact ⟨by simpa using hagree, by simpa using hfin, trivial, fun _ => Iff.rfl, by simp, by simp, by simp,
      fun _ h => h, by simp, by simp, by simp⟩
  | @tree c c1 c2 u e es t1 t2 hw h1 h2 ih1 ih2 =>
    intro pre hagree hfin hu hes hgr
    have hep := hes e (by simp)
    have hdu : u ∈ discovered pre := by
      have := hagree u
      rw [hu] at this
      exact (traceColor_gray.mp this.symm).1
    have hwt := traceColor_white.mp ((hagree _).symm.trans hw)
    have ha1 : ∀ w, colorOf c w = traceColor (pre ++ [.examineEdge e, .treeEdge e]) w := by
      intro w; rw [hagree]; unfold traceColor; simp
    have hne : ∀ x, (colorOf (c.set (g.target e) .gray) x = .gray ↔ x = g.target e ∨ colorOf c x = .gray) := by
      intro x
      rw [colorOf_set]
      by_cases ex : g.target e = x
      · simp [ex]
      · simp [ex, Ne.symm ex]
    have i1 := ih1 ((pre ++ [.examineEdge e, .treeEdge e]) ++ .discover (g.target e) :: pushCalls g (g.target e)) (by
        intro w
        rw [colorOf_set]
        split
        · rename_i ew; subst ew
          exact (traceColor_gray.mpr ⟨by simp, by simpa using hwt.2⟩).symm
        · rename_i ew
          rw [hagree]; unfold traceColor; simp [Ne.symm ew])
      (by
        intro w hw'
        have := hfin w (by simpa using hw')
        simp [this])
      (colorOf_set_self _ _ _) (fun _ h => h)
      (by
        intro x hx
        rcases (hne x).mp hx with rfl | hx
        · exact Reach.refl _ _
        · exact (hgr x hx).step hep)
    have n1 := node_inv hw ha1 (.inl rfl) (.inr ⟨e, by simp, by simp, rfl⟩) i1
    have hdis : discovered (pushCalls g u) = [] := by simp
    have ha2 : ∀ w, colorOf (c1.set (g.target e) .black) w = traceColor (pre ++ ([.examineEdge e, .treeEdge e] ++
        (.discover (g.target e) :: pushCalls g (g.target e) ++ t1 ++ [.finish (g.target e)]) ++ pushCalls g u)) w := by
      intro w
      rw [n1.agree]
      unfold traceColor; simp
    have i2 := ih2 (pre ++ ([.examineEdge e, .treeEdge e] ++ (.discover (g.target e) :: pushCalls g (g.target e) ++ t1 ++
        [.finish (g.target e)]) ++ pushCalls g u)) ha2
      (by
        intro w hw'
        have := n1.fin w (by simpa using hw')
        simpa using this)
      ((n1.gray u).mpr hu) (fun x hx => hes x (by simp [hx]))
      (fun x hx => hgr x ((n1.gray x).mp hx))
    have hmono : ∀ x, whiteEdge g p (c1.set (g.target e) .black) x = true → whiteEdge g p c x = true := by
      intro x hx
      unfold whiteEdge at hx ⊢
      simp only [Bool.and_eq_true, decide_eq_true_eq] at hx ⊢
      refine ⟨hx.1, ?_⟩
      have h3 := hx.2
      rw [colorOf_set] at h3
      split at h3
      · cases h3
      · have := h1.white_mono _ h3
        rw [colorOf_set] at this
        split at this
        · cases this
        · exact this
    have hwe : e ∈ (g.through (whiteEdge g p c)).outEdges u := by
      have := List.mem_filter.mp hep
      refine List.mem_filter.mpr ⟨this.1, ?_⟩
      unfold whiteEdge
      simp [this.2, hw]
    have htr : ([DfsEvent.examineEdge e, .treeEdge e] ++ (([.discover (g.target e)] ++ pushCalls g (g.target e) ++ t1 ++
        [.finish (g.target e)]) ++ (pushCalls g u ++ t2)) : List (DfsEvent V E)) = [.examineEdge e, .treeEdge e] ++
        ((.discover (g.target e) :: pushCalls g (g.target e) ++ t1 ++ [.finish (g.target e)]) ++ (pushCalls g u ++ t2)) := by simp
    rw [htr]
    have hshape : ∃ b2, (.discover (g.target e) :: pushCalls g (g.target e) ++ t1 ++ [.finish (g.target e)] : List (DfsEvent V E)) =
        .discover (g.target e) :: b2 ++ [.finish (g.target e)] ∧ ∀ w, w ∈ discovered t1 → w ∈ discovered b2 :=
      ⟨pushCalls g (g.target e) ++ t1, by simp, by simp⟩
    have hblkd : ∀ w, w ∈ discovered (.discover (g.target e) :: pushCalls g (g.target e) ++ t1 ++ [.finish (g.target e)] : List (DfsEvent V E)) →
        w = g.target e ∨ w ∈ discovered t1 := by intro w; simp
    generalize hblk : (.discover (g.target e) :: pushCalls g (g.target e) ++ t1 ++ [.finish (g.target e)] : List (DfsEvent V E)) = blk at *
    have hwhite2 : ∀ x, colorOf (c1.set (g.target e) .black) x = .white → colorOf c x = .white := by
      intro x h3
      rw [colorOf_set] at h3
      split at h3
      · cases h3
      · have := h1.white_mono _ h3
        rw [colorOf_set] at this
        split at this
        · cases this
        · exact this
    constructor
    · intro w
      rw [i2.agree]
      simp
    · intro w hw'
      have := i2.fin w (by simpa using hw')
      simpa using this
    · rw [allOK_append, allOK_append, allOK_append]
      refine ⟨⟨⟨u, hep, by rw [← hagree]; exact hu⟩, ?_, trivial⟩, n1.ok, ?_, ?_⟩
      · show traceColor (pre ++ [.examineEdge e]) (g.target e) = .white
        exact traceColor_white.mpr (by simpa using hwt)
      · exact allOK_pushCalls (by simp [hdu]) _ (fun _ h => h)
      · simpa using i2.ok
    · intro w; rw [i2.gray, n1.gray]
    · intro x hx
      rcases List.mem_cons.mp hx with rfl | hx
      · exact .inl (i2.black _ (colorOf_set_self _ _ _))
      · rcases i2.targets x hx with h' | ⟨h', hb⟩
        · exact .inl h'
        · exact .inr ⟨h', by simp [hb]⟩
    · intro w
      have e1 := n1.same w
      have e2 := i2.same w
      simp [e1, e2]
    · intro w hw'
      have : w ∈ discovered blk ∨ w ∈ discovered t2 := by simpa using hw'
      rcases this with h' | h'
      · exact (Reach.edge hwe).trans (n1.sound w h')
      · exact (i2.sound w h').through_mono hmono
    · intro w hb
      exact i2.black w (n1.black w hb)
    · intro w hw' x hx
      have : w ∈ discovered blk ∨ w ∈ discovered t2 := by simpa using hw'
      rcases this with h' | h'
      · have := n1.closed w h' x hx
        intro hcw
        exact this (h2.white_mono _ hcw)
      · exact i2.closed w h' x hx
    · intro w hw'
      have : w ∈ discovered blk ∨ w ∈ discovered t2 := by simpa using hw'
      rcases this with h' | h'
      · exact n1.fresh w h'
      · exact hwhite2 _ (i2.fresh w h')
    · intro w hw'
      have : w ∈ discovered blk ∨ w ∈ discovered t2 := by simpa using hw'
      rcases this with h' | h'
      · obtain ⟨b2, hb2, hd2⟩ := hshape
        refine ⟨e, by simp, (n1.sound w h').through_mono (fun x hx => by unfold whiteEdge at hx; simp at hx; exact hx.1),
          [.examineEdge e, .treeEdge e], b2, pushCalls g u ++ t2, by rw [hb2]; simp, ?_⟩
        rcases hblkd w h' with h3 | h3
        · exact .inl h3
        · exact .inr (hd2 w h3)
      · obtain ⟨e', he', hr, b1, b2, b3, ht, hm⟩ := i2.child w h'
        exact ⟨e', by simp [he'], hr, [.examineEdge e, .treeEdge e] ++ blk ++ pushCalls g u ++ b1, b2, b3, by simp [ht], hm⟩
  | @back c c2 u e es t hg h ih =>
    intro pre hagree hfin hu hes hgr
    have hep := hes e (by simp)
    have hcol : ∀ w, traceColor (pre ++ [.examineEdge e, .backEdge e]) w = traceColor pre w := by
      intro w; unfold traceColor; simp
    have i := ih (pre ++ [.examineEdge e, .backEdge e]) (fun v => (hagree v).trans (hcol v).symm)
      (fun v hv => by have := hfin v (by simpa using hv); simpa using this) hu (fun x hx => hes x (by simp [hx])) hgr
    constructor
    · intro w; rw [i.agree]; simp
    · intro w hw; have := i.fin w (by simpa using hw); simpa using this
    · rw [allOK_append]
      have hdu : u ∈ discovered (pre ++ [DfsEvent.examineEdge e]) := by
        have := (traceColor_gray.mp ((hagree u).symm.trans hu)).1
        simp [this]
      refine ⟨⟨⟨u, hep, by rw [← hagree]; exact hu⟩, ⟨?_, u, hdu, hep, hgr _ hg⟩, trivial⟩, i.ok⟩
      have : traceColor (pre ++ [.examineEdge e]) (g.target e) = traceColor pre (g.target e) := by unfold traceColor; simp
      rw [this, ← hagree]; exact hg
    · exact i.gray
    · intro x hx
      rcases List.mem_cons.mp hx with rfl | hx
      · exact .inr ⟨(i.gray _).mpr hg, by simp⟩
      · rcases i.targets x hx with h' | ⟨h', hb⟩
        · exact .inl h'
        · exact .inr ⟨h', by simp [hb]⟩
    · intro w; have := i.same w; simpa using this
    · intro w hw; exact i.sound w (by simpa using hw)
    · exact i.black
    · intro w hw; exact i.closed w (by simpa using hw)
    · intro w hw; exact i.fresh w (by simpa using hw)
    · intro w hw
      obtain ⟨e', he', hr, b1, b2, b3, ht, hm⟩ := i.child w (by simpa using hw)
      exact ⟨e', by simp [he'], hr, [.examineEdge e, .backEdge e] ++ b1, b2, b3, by simp [ht], hm⟩
  | @cross c c2 u e es t hb h ih =>
    intro pre hagree hfin hu hes hgr
    have hep := hes e (by simp)
    have hcol : ∀ w, traceColor (pre ++ [.examineEdge e, .forwardOrCrossEdge e]) w = traceColor pre w := by
      intro w; unfold traceColor; simp
    have i := ih (pre ++ [.examineEdge e, .forwardOrCrossEdge e]) (fun v => (hagree v).trans (hcol v).symm)
      (fun v hv => by have := hfin v (by simpa using hv); simpa using this) hu (fun x hx => hes x (by simp [hx])) hgr
    constructor
    · intro w; rw [i.agree]; simp
    · intro w hw; have := i.fin w (by simpa using hw); simpa using this
    · rw [allOK_append]
      refine ⟨⟨⟨u, hep, by rw [← hagree]; exact hu⟩, ?_, trivial⟩, i.ok⟩
      have : traceColor (pre ++ [.examineEdge e]) (g.target e) = traceColor pre (g.target e) := by unfold traceColor; simp
      show traceColor (pre ++ [.examineEdge e]) (g.target e) = .black
      rw [this, ← hagree]; exact hb
    · exact i.gray
    · intro x hx
      rcases List.mem_cons.mp hx with rfl | hx
      · exact .inl (i.black _ hb)
      · rcases i.targets x hx with h' | ⟨h', hb⟩
        · exact .inl h'
        · exact .inr ⟨h', by simp [hb]⟩
    · intro w; have := i.same w; simpa using this
    · intro w hw; exact i.sound w (by simpa using hw)
    · exact i.black
    · intro w hw; exact i.closed w (by simpa using hw)
    · intro w hw; exact i.fresh w (by simpa using hw)
    · intro w hw
      obtain ⟨e', he', hr, b1, b2, b3, ht, hm⟩ := i.child w (by simpa using hw)
      exact ⟨e', by simp [he'], hr, [.examineEdge e, .forwardOrCrossEdge e] ++ b1, b2, b3, by simp [ht], hm⟩

/-! ## Forests -/

/-- What holds after `depth_first_search_graph` on the sources `us`. -/
structure ForestInv (g : GraphI V E) (p : E → Bool) (pre : List (DfsEvent V E)) (c : Dict V Color) (us : List V)
    (tr : List (DfsEvent V E)) (c' : Dict V Color) : Prop where
  agree : ∀ w, colorOf c' w = traceColor (pre ++ tr) w
  fin : ∀ w ∈ finished (pre ++ tr), w ∈ discovered (pre ++ tr)
  ok : AllOK (DfsOK g p) pre tr
  gray : ∀ w, colorOf c' w = .gray ↔ colorOf c w = .gray
  same : ∀ w, w ∈ discovered tr ↔ w ∈ finished tr
  sound : ∀ w ∈ discovered tr, ∃ s ∈ us, Reach (g.through p) s w
  black : ∀ w, colorOf c w = .black → colorOf c' w = .black
  closed : ∀ w ∈ discovered tr, ∀ e ∈ pushed g p w, colorOf c' (g.target e) ≠ .white
  fresh : ∀ w ∈ discovered tr, colorOf c w = .white
  roots : ∀ s ∈ us, colorOf c' s ≠ .white

theorem DfsRoot.inv {c c' : Dict V Color} {s : V} {tr : List (DfsEvent V E)} (h : DfsRoot g p c s tr c')
    (pre : List (DfsEvent V E)) (hagree : ∀ v, colorOf c v = traceColor pre v) (hfin : ∀ v ∈ finished pre, v ∈ discovered pre)
    (hng : ∀ v, colorOf c v ≠ .gray) (hw : colorOf c s = .white) : ForestInv g p pre c [s] tr c' := by
  obtain ⟨t, c1, h1, rfl, rfl⟩ := h
  have hwt := traceColor_white.mp ((hagree _).symm.trans hw)
  have ha1 : ∀ w, colorOf c w = traceColor (pre ++ [.start s]) w := by
    intro w; rw [hagree]; unfold traceColor; simp
  have i1 := h1.inv ((pre ++ [.start s]) ++ .discover s :: (pushCalls g s ++ pushCalls g s)) (by
      intro w
      rw [colorOf_set]
      split
      · rename_i ew; subst ew
        exact (traceColor_gray.mpr ⟨by simp, by simpa using hwt.2⟩).symm
      · rename_i ew
        rw [hagree]; unfold traceColor; simp [Ne.symm ew])
    (by
      intro w hw'
      have := hfin w (by simpa using hw')
      simp [this])
    (colorOf_set_self _ _ _) (fun _ h => h)
    (by
      intro x hx
      rw [colorOf_set] at hx
      split at hx
      · rename_i ex; subst ex; exact Reach.refl _ _
      · exact absurd hx (hng x))
  have n1 := node_inv hw ha1 (.inr rfl) (.inl (by simp)) i1
  have htr : (([DfsEvent.start s, .discover s] ++ pushCalls g s) ++ (pushCalls g s ++ t ++ [.finish s]) : List (DfsEvent V E)) =
      [.start s] ++ (.discover s :: (pushCalls g s ++ pushCalls g s) ++ t ++ [.finish s]) := by simp
  rw [htr]
  generalize hblk : (.discover s :: (pushCalls g s ++ pushCalls g s) ++ t ++ [.finish s] : List (DfsEvent V E)) = blk at *
  have hd : discovered ([.start s] ++ blk) = discovered blk := by simp
  have hf : finished ([.start s] ++ blk) = finished blk := by simp
  refine ⟨?_, ?_, ?_, n1.gray, ?_, ?_, n1.black, ?_, ?_, ?_⟩
  · intro w; rw [n1.agree, List.append_assoc]
  · intro w hw'; rw [← List.append_assoc] at hw' ⊢; exact n1.fin w hw'
  · rw [allOK_append]; exact ⟨⟨traceColor_white.mpr hwt, trivial⟩, n1.ok⟩
  · rw [hd, hf]; exact n1.same
  · rw [hd]
    intro w hw'
    exact ⟨s, by simp, (n1.sound w hw').through_mono (fun e he => by unfold whiteEdge at he; simp at he; exact he.1)⟩
  · rw [hd]; exact n1.closed
  · rw [hd]; exact n1.fresh
  · intro x hx
    have : x = s := by simpa using hx
    subst this
    rw [colorOf_set_self]; decide

theorem DfsForest.white_mono {c c' : Dict V Color} {us : List V} {tr : List (DfsEvent V E)} (h : DfsForest g p c us tr c') :
    ∀ v, colorOf c' v = .white → colorOf c v = .white := by
  induction h with
  | nil => exact fun _ h => h
  | skip _ _ ih => exact ih
  | @visit c c1 c2 u us t1 t2 hw h1 _ ih =>
    intro v hv
    obtain ⟨t, c0, hh, rfl, rfl⟩ := h1
    have h3 := ih v hv
    rw [colorOf_set] at h3
    split at h3
    · cases h3
    · have := hh.white_mono _ h3
      rw [colorOf_set] at this
      split at this
      · cases this
      · exact this

theorem DfsForest.inv {c c' : Dict V Color} {us : List V} {tr : List (DfsEvent V E)} (h : DfsForest g p c us tr c') :
    ∀ pre, (∀ v, colorOf c v = traceColor pre v) → (∀ v ∈ finished pre, v ∈ discovered pre) → (∀ v, colorOf c v ≠ .gray) →
      ForestInv g p pre c us tr c' := by
  induction h with
  | nil c =>
    intro pre hagree hfin hng
    exact ⟨by simpa using hagree, by simpa using hfin, trivial, fun _ => Iff.rfl, by simp, by simp, fun _ h => h, by simp,
      by simp, by simp⟩
  | @skip c c' u us tr hnw h ih =>
    intro pre hagree hfin hng
    have i := ih pre hagree hfin hng
    refine ⟨i.agree, i.fin, i.ok, i.gray, i.same, ?_, i.black, i.closed, i.fresh, ?_⟩
    · intro w hw
      obtain ⟨s, hs, hr⟩ := i.sound w hw
      exact ⟨s, by simp [hs], hr⟩
    · intro s hs
      rcases List.mem_cons.mp hs with rfl | hs
      · exact fun hc => hnw (h.white_mono _ hc)
      · exact i.roots s hs
  | @visit c c1 c2 u us t1 t2 hw h1 h2 ih =>
    intro pre hagree hfin hng
    have r := h1.inv pre hagree hfin hng hw
    have i := ih (pre ++ t1) r.agree r.fin (fun v hv => hng v ((r.gray v).mp hv))
    have hwm : ∀ v, colorOf c1 v = .white → colorOf c v = .white :=
      fun v hv => (DfsForest.visit hw h1 (.nil c1) : DfsForest g p c [u] (t1 ++ []) c1).white_mono v hv
    constructor
    · intro w; rw [i.agree, List.append_assoc]
    · intro w hw'; rw [← List.append_assoc] at hw' ⊢; exact i.fin w hw'
    · rw [allOK_append]; exact ⟨r.ok, i.ok⟩
    · intro w; rw [i.gray, r.gray]
    · intro w
      have e1 := r.same w
      have e2 := i.same w
      simp [e1, e2]
    · intro w hw'
      have : w ∈ discovered t1 ∨ w ∈ discovered t2 := by simpa using hw'
      rcases this with h' | h'
      · obtain ⟨s, hs, hr⟩ := r.sound w h'
        refine ⟨s, ?_, hr⟩
        simp at hs; simp [hs]
      · obtain ⟨s, hs, hr⟩ := i.sound w h'
        exact ⟨s, by simp [hs], hr⟩
    · intro w hb; exact i.black w (r.black w hb)
    · intro w hw' e he
      have : w ∈ discovered t1 ∨ w ∈ discovered t2 := by simpa using hw'
      rcases this with h' | h'
      · exact fun hc => r.closed w h' e he (h2.white_mono _ hc)
      · exact i.closed w h' e he
    · intro w hw'
      have : w ∈ discovered t1 ∨ w ∈ discovered t2 := by simpa using hw'
      rcases this with h' | h'
      · exact r.fresh w h'
      · exact hwm w (i.fresh w h')
    · intro s hs
      rcases List.mem_cons.mp hs with rfl | hs
      · exact fun hc => r.roots s (by simp) (h2.white_mono _ hc)
      · exact i.roots s hs

/-! ## Edges are examined once -/

theorem DfsEdges.examined {c c' : Dict V Color} {u : V} {es : List E} {tr : List (DfsEvent V E)} (h : DfsEdges g p c u es tr c') :
    classified tr = PyBGL.examined tr ∧ (finished tr).Perm (discovered tr) ∧
      (PyBGL.examined tr).Perm (es ++ (discovered tr).flatMap (pushed g p)) := by
  induction h with
  | nil => simp
  | @tree c c1 c2 u e es t1 t2 hw h1 h2 ih1 ih2 =>
    obtain ⟨a1, b1, d1⟩ := ih1
    obtain ⟨a2, b2, d2⟩ := ih2
    refine ⟨by simp [a1, a2], ?_, ?_⟩
    · have : (finished t1 ++ ([g.target e] ++ finished t2)).Perm ([g.target e] ++ (discovered t1 ++ discovered t2)) := by
        refine (List.perm_append_comm_assoc _ _ _).trans (List.Perm.append_left _ ?_)
        exact b1.append b2
      simpa using this
    · have : (PyBGL.examined t1 ++ PyBGL.examined t2).Perm
          (es ++ (pushed g p (g.target e) ++ (List.flatMap (pushed g p) (discovered t1) ++ List.flatMap (pushed g p) (discovered t2)))) := by
        refine (d1.append d2).trans ?_
        rw [List.append_assoc]
        have h3 := List.perm_append_comm_assoc ((discovered t1).flatMap (pushed g p)) es ((discovered t2).flatMap (pushed g p))
        refine (List.Perm.append_left _ h3).trans ?_
        exact List.perm_append_comm_assoc _ _ _
      simpa using this
  | back _ _ ih =>
    obtain ⟨a, b, d⟩ := ih
    exact ⟨by simp [a], by simpa using b, by simpa using d⟩
  | cross _ _ ih =>
    obtain ⟨a, b, d⟩ := ih
    exact ⟨by simp [a], by simpa using b, by simpa using d⟩

theorem DfsRoot.examined {c c' : Dict V Color} {s : V} {tr : List (DfsEvent V E)} (h : DfsRoot g p c s tr c') :
    classified tr = PyBGL.examined tr ∧ (finished tr).Perm (discovered tr) ∧
      (PyBGL.examined tr).Perm ((discovered tr).flatMap (pushed g p)) := by
  obtain ⟨t, c1, h1, rfl, rfl⟩ := h
  obtain ⟨a, b, d⟩ := h1.examined
  refine ⟨by simp [a], ?_, by simpa using d⟩
  have : (finished t ++ [s]).Perm ([s] ++ discovered t) := List.perm_append_comm.trans (b.append_left _)
  simpa using this

theorem DfsForest.examined {c c' : Dict V Color} {us : List V} {tr : List (DfsEvent V E)} (h : DfsForest g p c us tr c') :
    classified tr = PyBGL.examined tr ∧ (finished tr).Perm (discovered tr) ∧
      (PyBGL.examined tr).Perm ((discovered tr).flatMap (pushed g p)) := by
  induction h with
  | nil => simp
  | skip _ _ ih => exact ih
  | visit _ h1 _ ih =>
    obtain ⟨a1, b1, d1⟩ := h1.examined
    obtain ⟨a2, b2, d2⟩ := ih
    refine ⟨by simp [a1, a2], by simpa using b1.append b2, by simpa using d1.append d2⟩

/-! ## Start events -/

theorem start_not_mem_pushCalls (v u : V) : DfsEvent.start v ∉ pushCalls g u := by
  unfold pushCalls; simp

theorem DfsEdges.no_start {c c' : Dict V Color} {u : V} {es : List E} {tr : List (DfsEvent V E)} (h : DfsEdges g p c u es tr c') (v : V) :
    .start v ∉ tr := by
  induction h with
  | nil => simp
  | tree _ _ _ ih1 ih2 => simp [start_not_mem_pushCalls, ih1, ih2]
  | back _ _ ih => simpa using ih
  | cross _ _ ih => simpa using ih

theorem DfsRoot.starts {c c' : Dict V Color} {s : V} {tr : List (DfsEvent V E)} (h : DfsRoot g p c s tr c') (v : V)
    (hv : .start v ∈ tr) : v = s := by
  obtain ⟨t, c1, h1, rfl, rfl⟩ := h
  simpa [start_not_mem_pushCalls, h1.no_start v] using hv

theorem DfsForest.starts {c c' : Dict V Color} {us : List V} {tr : List (DfsEvent V E)} (h : DfsForest g p c us tr c') (v : V)
    (hv : .start v ∈ tr) : v ∈ us := by
  induction h with
  | nil => simp at hv
  | skip _ _ ih => exact List.mem_cons_of_mem _ (ih hv)
  | visit _ h1 _ ih =>
    rcases List.mem_append.mp hv with h | h
    · rw [h1.starts v h]; simp
    · exact List.mem_cons_of_mem _ (ih h)

/-! ## Keys of the colour map -/

theorem mem_keys_color (c : Dict V Color) (u : V) (x : Color) (v : V) : v ∈ Dict.keys (c.set u x) ↔ v = u ∨ v ∈ Dict.keys c :=
  Dict.mem_keys_set _ _ _ _

theorem DfsEdges.keys {c c' : Dict V Color} {u : V} {es : List E} {tr : List (DfsEvent V E)} (h : DfsEdges g p c u es tr c') (v : V) :
    v ∈ Dict.keys c' ↔ v ∈ Dict.keys c ∨ v ∈ discovered tr := by
  induction h with
  | nil => simp
  | tree _ _ _ ih1 ih2 => rw [ih2, mem_keys_color, ih1, mem_keys_color]; simp; tauto
  | back _ _ ih => simpa using ih
  | cross _ _ ih => simpa using ih

theorem DfsRoot.keys {c c' : Dict V Color} {s : V} {tr : List (DfsEvent V E)} (h : DfsRoot g p c s tr c') (v : V) :
    v ∈ Dict.keys c' ↔ v ∈ Dict.keys c ∨ v ∈ discovered tr := by
  obtain ⟨t, c1, h1, rfl, rfl⟩ := h
  rw [mem_keys_color, h1.keys, mem_keys_color]; simp; tauto

theorem DfsForest.keys {c c' : Dict V Color} {us : List V} {tr : List (DfsEvent V E)} (h : DfsForest g p c us tr c') (v : V) :
    v ∈ Dict.keys c' ↔ v ∈ Dict.keys c ∨ v ∈ discovered tr := by
  induction h with
  | nil => simp
  | skip _ _ ih => exact ih
  | visit _ h1 _ ih => rw [ih, h1.keys]; simp; tauto

/-! ## Consequences for a search from a fresh colour map -/

theorem AllOK.discovered_nodup {pre tr : List (DfsEvent V E)} (h : AllOK (DfsOK g p) pre tr) :
    (discovered tr).Nodup ∧ ∀ v ∈ discovered tr, v ∉ discovered pre := by
  induction tr generalizing pre with
  | nil => simp
  | cons x tr ih =>
    obtain ⟨h1, h2⟩ := h
    obtain ⟨a, b⟩ := ih h2
    cases x with
    | discover v =>
      have hv := (traceColor_white.mp h1.1).1
      simp only [discovered_cons, List.cons_append, List.nil_append, List.nodup_cons, List.mem_cons]
      refine ⟨⟨fun hm => ?_, a⟩, ?_⟩
      · exact b v hm (by simp)
      · rintro w (rfl | hw)
        · exact hv
        · intro hp; exact b w hw (by simp [hp])
    | _ =>
      simp only [discovered_cons, List.nil_append]
      refine ⟨a, fun w hw hp => b w hw (by simp [hp])⟩

/-- All the facts about a search of the sources `us` with an empty colour map. -/
structure DfsFacts (g : GraphI V E) (p : E → Bool) (us : List V) (c : Dict V Color) (tr : List (DfsEvent V E)) : Prop where
  ok : ∀ a x b, tr = a ++ x :: b → DfsOK g p a x
  nodup : (discovered tr).Nodup
  perm : (finished tr).Perm (discovered tr)
  reach : ∀ v, v ∈ discovered tr ↔ ∃ s ∈ us, Reach (g.through p) s v
  examined : (examined tr).Perm ((discovered tr).flatMap (pushed g p))
  classified : classified tr = PyBGL.examined tr
  color : ∀ v, colorOf c v = if v ∈ discovered tr then .black else .white
  starts : ∀ v, .start v ∈ tr → v ∈ us
  keys : ∀ v, v ∈ Dict.keys c ↔ v ∈ discovered tr

theorem colorOf_nil (v : V) : colorOf ([] : Dict V Color) v = .white := rfl

theorem ForestInv.facts {c : Dict V Color} {us : List V} {tr : List (DfsEvent V E)} (i : ForestInv g p [] [] us tr c)
    (h : PyBGL.classified tr = PyBGL.examined tr ∧ (finished tr).Perm (discovered tr) ∧
      (PyBGL.examined tr).Perm ((discovered tr).flatMap (pushed g p))) (hst : ∀ v, .start v ∈ tr → v ∈ us)
    (hk : ∀ v, v ∈ Dict.keys c ↔ v ∈ discovered tr) : DfsFacts g p us c tr := by
  obtain ⟨h1, h2, h3⟩ := h
  have hnw : ∀ v, colorOf c v ≠ .white ↔ v ∈ discovered tr := by
    intro v
    rw [i.agree, Ne, traceColor_white]
    simp only [List.nil_append]
    rw [h2.mem_iff]; tauto
  refine ⟨?_, i.ok.discovered_nodup.1, h2, ?_, h3, h1, ?_, hst, hk⟩
  · intro a x b e
    have := i.ok
    rw [e] at this
    simpa using this.split
  · intro v
    refine ⟨i.sound v, fun ⟨s, hs, hr⟩ => ?_⟩
    refine Reach.closed (P := fun x => x ∈ discovered tr) ?_ hr ((hnw s).mp (i.roots s hs))
    intro x hx e he
    exact (hnw _).mp (i.closed x hx e he)
  · intro v
    by_cases hv : v ∈ discovered tr
    · rw [if_pos hv, i.agree, traceColor_black]
      exact h2.mem_iff.mpr hv
    · rw [if_neg hv]
      by_contra hc
      exact hv ((hnw v).mp hc)

/-- A finite set of vertices containing everything reachable from the sources contains a closed one. -/
theorem finite_closed {us : List V} {U : List V} (hU : ∀ s ∈ us, ∀ v, Reach (g.through p) s v → v ∈ U) :
    ∃ W : List V, (∀ s ∈ us, s ∈ W) ∧ (∀ u ∈ W, ∀ e ∈ pushed g p u, g.target e ∈ W) := by
  classical
  refine ⟨U.filter (fun v => ∃ s ∈ us, Reach (g.through p) s v), ?_, ?_⟩
  · intro s hs
    exact List.mem_filter.mpr ⟨hU s hs s (Reach.refl _ _), by simpa using ⟨s, hs, Reach.refl _ _⟩⟩
  · intro u hu e he
    have := (List.mem_filter.mp hu).2
    simp only [decide_eq_true_eq] at this
    obtain ⟨s, hs, hr⟩ := this
    have hr' := hr.step (e := e) he
    exact List.mem_filter.mpr ⟨hU s hs _ hr', by simpa using ⟨s, hs, hr'⟩⟩

/-- `depth_first_search_graph` on explicit sources. -/
theorem dfsSources_facts {us : List V} {U : List V} (hU : ∀ s ∈ us, ∀ v, Reach (g.through p) s v → v ∈ U) :
    ∃ c tr, DfsFacts g p us c tr ∧ ∀ (σ : Type) (vis : Visitor (DfsEvent V E) σ) (st : σ),
      Returns (fun fuel => dfsSources g p vis fuel us [] st) ((emit vis tr st).map (fun st' => (c, st'))) := by
  obtain ⟨W, h1, h2⟩ := finite_closed hU
  obtain ⟨tr, c, h⟩ := DfsForest.exists h2 us h1 []
  have i := h.inv [] (fun v => rfl) (by simp) (fun v => by rw [colorOf_nil]; decide)
  exact ⟨c, tr, i.facts h.examined h.starts (fun v => by rw [h.keys]; simp [Dict.keys]), fun σ vis st => h.returns st⟩

/-- `depth_first_search`. -/
theorem dfs_facts {s : V} {U : List V} (hU : ∀ v, Reach (g.through p) s v → v ∈ U) :
    ∃ c tr, DfsFacts g p [s] c tr ∧ (∃ t, tr = .start s :: .discover s :: t) ∧ ∀ (σ : Type) (vis : Visitor (DfsEvent V E) σ) (st : σ),
      Returns (dfs g p vis s [] st) ((emit vis tr st).map (fun st' => (c, st'))) := by
  obtain ⟨W, h1, h2⟩ := finite_closed (us := [s]) (fun x hx => by simp at hx; subst hx; exact hU)
  obtain ⟨tr, c, h⟩ := DfsRoot.exists h2 (h1 s (by simp)) []
  have i := h.inv [] (fun v => rfl) (by simp) (fun v => by rw [colorOf_nil]; decide) rfl
  refine ⟨c, tr, i.facts h.examined (fun v hv => by simp [h.starts v hv]) (fun v => by rw [h.keys]; simp [Dict.keys]), ?_,
    fun σ vis st => h.returns st⟩
  obtain ⟨t, c1, _, _, rfl⟩ := h
  exact ⟨_, rfl⟩

/-- Invariants of a visitor along a search. -/
theorem DfsFacts.emit {σ : Type} {vis : Visitor (DfsEvent V E) σ} {us : List V} {c : Dict V Color} {tr : List (DfsEvent V E)}
    (f : DfsFacts g p us c tr) (I : List (DfsEvent V E) → σ → Prop)
    (hstep : ∀ pre x rest s, tr = pre ++ x :: rest → DfsOK g p pre x → I pre s → ∃ s', vis x s = .ok s' ∧ I (pre ++ [x]) s') :
    ∀ pre rest, tr = pre ++ rest → ∀ s, I pre s → ∃ s', PyBGL.emit vis rest s = .ok s' ∧ I tr s' := by
  intro pre rest
  induction rest generalizing pre with
  | nil => intro e s i; exact ⟨s, rfl, by simpa [e] using i⟩
  | cons x rest ih =>
    intro e s i
    obtain ⟨s1, h1, h2⟩ := hstep pre x rest s e (f.ok pre x rest e) i
    obtain ⟨s2, h3, h4⟩ := ih (pre ++ [x]) (by simp [e]) s1 h2
    exact ⟨s2, by rw [emit_cons, h1]; exact h3, h4⟩

end
end PyBGL
