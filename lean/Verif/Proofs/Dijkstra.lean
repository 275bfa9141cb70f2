import Mathlib.Data.List.Induction
import Verif.Model.Dijkstra
import Verif.Proofs.Heap
import Verif.Proofs.DfsSim
import Verif.Proofs.PathLemmas
import Verif.Spec.ShortestPath

/-!
# Invariant of `dijkstra_shortest_paths`
-/

namespace PyBGL.Dijkstra
open Heapq DijkstraState
variable {V E D : Type} [DecidableEq V] [DecidableEq E] [DecidableEq D]

/-- The order of the distances. -/
def Le (a : DijkstraArgs E D) (x y : D) : Prop := a.compare y x = false

/-- The vertices examined, finished, discovered, and the edges examined, according to the calls received by the visitor. -/
def examined (tr : List (DijkstraEvent V E)) : List V := tr.filterMap fun | .examineVertex u => some u | _ => none
def finished (tr : List (DijkstraEvent V E)) : List V := tr.filterMap fun | .finishVertex u => some u | _ => none
def discovered (tr : List (DijkstraEvent V E)) : List V := tr.filterMap fun | .discoverVertex u => some u | _ => none
def examinedEdges (tr : List (DijkstraEvent V E)) : List E := tr.filterMap fun | .examineEdge e => some e | _ => none
def relaxed (tr : List (DijkstraEvent V E)) : List E := tr.filterMap fun | .edgeRelaxed e => some e | _ => none

section
variable (a : DijkstraArgs E D) (g : GraphI V E) (s : V)

/-- The hypotheses on the algebra and on the graph. -/
structure Hyp : Prop where
  alg : SelectiveAlgebra a.compare a.combine a.zero a.infty (fun w => ∃ u ∈ g.vertices, ∃ e ∈ g.outEdges u, w = a.weight e)
  ord : Heap.Compat a.ord (Le a)
  closed : g.Closed
  src : s ∈ g.vertices

/-- The vertices that are discovered and not finished. -/
def Open (st : DijkstraState V E D) (v : V) : Prop := colorOf st.color v = .gray ∨ (v = s ∧ colorOf st.color v = .white)

/-- The edges examined so far: those of the finished vertices `bs`, and those of `P` for the current vertex. -/
def Ex (bs : List V) (cur : Option V) (P : List E) (b : V) (e : E) : Prop := (b ∈ bs ∧ e ∈ g.outEdges b) ∨ (cur = some b ∧ e ∈ P)

structure Inv (bs : List V) (cur : Option V) (P : List E) (st : DijkstraState V E D) : Prop where
  black : ∀ v, colorOf st.color v = .black ↔ v ∈ bs
  nd : bs.Nodup
  sub : ∀ v ∈ bs, v ∈ g.vertices
  heapOk : IsHeap (fun x y : D × Nat × V => Le a x.1 y.1) st.heap.data
  heapKey : ∀ e ∈ st.heap.data, e.1 = st.distOf a e.2.2
  heapNd : (st.heap.data.map (·.2.2)).Nodup
  heapMem : ∀ v, v ∈ st.heap.data.map (·.2.2) ↔ some v ≠ cur ∧ Open s st v
  openV : ∀ v, Open s st v → v ∈ g.vertices
  curOk : ∀ u, cur = some u → Open s st u
  root : st.distOf a s = a.zero
  disc : ∀ v, (Open s st v ∨ v ∈ bs) → a.compare (st.distOf a v) a.infty = true ∧
    ∃ p, IsPath g s p v ∧ pathWeight a.combine a.zero a.weight p = st.distOf a v
  undisc : ∀ v ∈ g.vertices, ¬ Open s st v → v ∉ bs → st.distOf a v = a.infty
  mono : ∀ b ∈ bs, ∀ v, Open s st v → Le a (st.distOf a b) (st.distOf a v)
  curMono : ∀ u, cur = some u → ∀ v, Open s st v → Le a (st.distOf a u) (st.distOf a v)
  order : bs.Pairwise (fun x y => Le a (st.distOf a x) (st.distOf a y))
  edge : ∀ b e, Ex g bs cur P b e → Le a (st.distOf a (g.target e)) (a.combine (st.distOf a b) (a.weight e))
  preds : ∀ v e, e ∈ st.predsOf v ↔ ∃ b, Ex g bs cur P b e ∧ g.target e = v ∧ a.combine (st.distOf a b) (a.weight e) = st.distOf a v
  predsNe : ∀ v, (Open s st v ∨ v ∈ bs) → v ≠ s → st.predsOf v ≠ []
  trEx : examined st.trace = bs ++ cur.toList
  trFin : finished st.trace = bs
  trEdges : examinedEdges st.trace = bs.flatMap g.outEdges ++ P
  trDisc : (discovered st.trace).Nodup ∧ ∀ v, v ∈ discovered st.trace ↔ (Open s st v ∨ v ∈ bs) ∧ v ≠ s

end

section
variable {a : DijkstraArgs E D} {g : GraphI V E} {s : V}

theorem Hyp.leTrans (h : Hyp a g s) {x y z : D} (h1 : Le a x y) (h2 : Le a y z) : Le a x z := h.ord.trans _ _ _ h1 h2

theorem Hyp.leRefl (h : Hyp a g s) (x : D) : Le a x x := h.alg.irrefl x

theorem Hyp.lt_le_trans (h : Hyp a g s) {x y z : D} (h1 : a.compare x y = true) (h2 : Le a y z) : a.compare x z = true := by
  rcases h.alg.total y z with h3 | rfl | h3
  · exact h.alg.trans _ _ _ h1 h3
  · exact h1
  · unfold Le at h2; rw [h2] at h3; cases h3

theorem Hyp.le_lt_trans (h : Hyp a g s) {x y z : D} (h1 : Le a x y) (h2 : a.compare y z = true) : a.compare x z = true := by
  rcases h.alg.total x y with h3 | rfl | h3
  · exact h.alg.trans _ _ _ h3 h2
  · exact h2
  · unfold Le at h1; rw [h1] at h3; cases h3

theorem Hyp.lt_le (h : Hyp a g s) {x y : D} (h1 : a.compare x y = true) : Le a x y := by
  unfold Le
  cases h2 : a.compare y x with
  | false => rfl
  | true => have := h.alg.trans _ _ _ h1 h2; rw [h.alg.irrefl] at this; cases this

theorem Hyp.not_lt_of_le {x y : D} (h1 : Le a x y) : ¬ a.compare y x = true := by
  unfold Le at h1; rw [h1]; decide

theorem Hyp.antisymm (h : Hyp a g s) {x y : D} (h1 : Le a x y) (h2 : Le a y x) : x = y := by
  rcases h.alg.total x y with h3 | h3 | h3
  · exact absurd h3 (Hyp.not_lt_of_le h2)
  · exact h3
  · exact absurd h3 (Hyp.not_lt_of_le h1)

theorem pathWeight_snoc (p : List E) (e : E) :
    pathWeight a.combine a.zero a.weight (p ++ [e]) = a.combine (pathWeight a.combine a.zero a.weight p) (a.weight e) := by
  unfold pathWeight; rw [List.foldl_append]; rfl

theorem Hyp.pathV (h : Hyp a g s) {p : List E} {v : V} (hp : IsPath g s p v) : v ∈ g.vertices := by
  have : ∀ {u p v}, IsPath g u p v → u ∈ g.vertices → v ∈ g.vertices := by
    intro u p v hp
    induction hp with
    | nil => exact id
    | cons he _ ih => intro hu; exact ih (h.closed _ hu _ he)
  exact this hp h.src

/-- The last edge of a path. -/
theorem snoc_inv {p : List E} {e : E} {v : V} (hp : IsPath g s (p ++ [e]) v) : ∃ u, IsPath g s p u ∧ e ∈ g.outEdges u ∧ g.target e = v := by
  rw [isPath_append_iff] at hp
  obtain ⟨u, h1, h2⟩ := hp
  cases h2 with
  | cons he h3 => cases h3; exact ⟨u, h1, he, rfl⟩

theorem Hyp.zero_le (h : Hyp a g s) : ∀ (p : List E) (v : V), IsPath g s p v → a.compare (pathWeight a.combine a.zero a.weight p) a.infty = true →
    Le a a.zero (pathWeight a.combine a.zero a.weight p) := by
  intro p
  induction p using List.reverseRecOn with
  | nil => intro v _ _; exact h.leRefl _
  | append_singleton p e ih =>
    intro v hp hlt
    obtain ⟨u, h1, h2, h3⟩ := snoc_inv hp
    rw [pathWeight_snoc] at hlt ⊢
    have hW : ∃ u ∈ g.vertices, ∃ e' ∈ g.outEdges u, a.weight e = a.weight e' := ⟨u, h.pathV h1, e, h2, rfl⟩
    have h4 := h.alg.back _ _ hW hlt
    exact h.leTrans (ih u h1 h4) (h.alg.grow _ _ hW h4)

theorem distOf_set (st : DijkstraState V E D) (v w : V) (d : D) : (st.dist.set v d).getD w a.dflt = if v = w then d else st.distOf a w := by
  rw [Dict.getD_set]; rfl

theorem predsOf_set (st : DijkstraState V E D) (v w : V) (l : List E) : (st.preds.set v l).getD w [] = if v = w then l else st.predsOf w := by
  rw [Dict.getD_set]; rfl

theorem Inv.open_not_black {bs : List V} {cur : Option V} {P : List E} {st : DijkstraState V E D} (i : Inv a g s bs cur P st) {v : V}
    (h : Open s st v) : v ∉ bs := by
  intro hb
  have := (i.black v).mpr hb
  rcases h with h | ⟨_, h⟩ <;> rw [h] at this <;> cases this

theorem Inv.root_disc {bs : List V} {cur : Option V} {P : List E} {st : DijkstraState V E D} (i : Inv a g s bs cur P st) : Open s st s ∨ s ∈ bs := by
  cases hc : colorOf st.color s with
  | white => exact .inl (.inr ⟨rfl, hc⟩)
  | gray => exact .inl (.inl hc)
  | black => exact .inr ((i.black s).mp hc)


theorem Inv.relax_facts (h : Hyp a g s) {bs : List V} {u : V} {P : List E} {st : DijkstraState V E D} (i : Inv a g s bs (some u) P st) {e : E}
    (he : e ∈ g.outEdges u) :
    Le a (st.distOf a u) (a.combine (st.distOf a u) (a.weight e)) ∧
    (a.compare (a.combine (st.distOf a u) (a.weight e)) (st.distOf a (g.target e)) = true →
      g.target e ≠ s ∧ g.target e ≠ u ∧ g.target e ∉ bs ∧ a.compare (a.combine (st.distOf a u) (a.weight e)) a.infty = true) := by
  have hu := i.curOk u rfl
  have hW : ∃ u ∈ g.vertices, ∃ e' ∈ g.outEdges u, a.weight e = a.weight e' := ⟨u, i.openV u hu, e, he, rfl⟩
  have hgrow : Le a (st.distOf a u) (a.combine (st.distOf a u) (a.weight e)) := h.alg.grow _ _ hW (i.disc u (.inl hu)).1
  refine ⟨hgrow, fun hlt => ?_⟩
  have hv : g.target e ∈ g.vertices := h.closed _ (i.openV u hu) _ he
  refine ⟨?_, ?_, ?_, ?_⟩
  · intro heq
    rw [heq, i.root] at hlt
    obtain ⟨h1, p, h2, h3⟩ := i.disc u (.inl hu)
    have := h.zero_le p u h2 (by rw [h3]; exact h1)
    rw [h3] at this
    exact Hyp.not_lt_of_le (h.leTrans this hgrow) hlt
  · intro heq
    rw [heq] at hlt
    exact Hyp.not_lt_of_le hgrow hlt
  · intro hb
    exact Hyp.not_lt_of_le (h.leTrans (i.mono _ hb u hu) hgrow) hlt
  · by_cases ho : Open s st (g.target e) ∨ g.target e ∈ bs
    · exact h.alg.trans _ _ _ hlt (i.disc _ ho).1
    · rw [i.undisc _ hv (fun h => ho (.inl h)) (fun h => ho (.inr h))] at hlt
      exact hlt

theorem Inv.relax (h : Hyp a g s) {bs : List V} {u : V} {P : List E} {st st' : DijkstraState V E D} (i : Inv a g s bs (some u) P st) {e : E}
    (he : e ∈ g.outEdges u) (hlt : a.compare (a.combine (st.distOf a u) (a.weight e)) (st.distOf a (g.target e)) = true)
    (hd : ∀ x, st'.distOf a x = if g.target e = x then a.combine (st.distOf a u) (a.weight e) else st.distOf a x)
    (hp : ∀ x, st'.predsOf x = if g.target e = x then [e] else st.predsOf x)
    (hc : ∀ x, colorOf st'.color x = if g.target e = x then .gray else colorOf st.color x)
    (hh1 : IsHeap (fun x y : D × Nat × V => Le a x.1 y.1) st'.heap.data)
    (hh2 : ∀ e ∈ st'.heap.data, e.1 = st'.distOf a e.2.2)
    (hh3 : (st'.heap.data.map (·.2.2)).Nodup)
    (hh4 : ∀ x, x ∈ st'.heap.data.map (·.2.2) ↔ x = g.target e ∨ x ∈ st.heap.data.map (·.2.2))
    (ht1 : examined st'.trace = examined st.trace) (ht2 : finished st'.trace = finished st.trace)
    (ht3 : examinedEdges st'.trace = examinedEdges st.trace ++ [e])
    (ht4 : discovered st'.trace = discovered st.trace ++ (if colorOf st.color (g.target e) = .white then [g.target e] else [])) :
    Inv a g s bs (some u) (P ++ [e]) st' := by
  obtain ⟨hgrow, hf⟩ := i.relax_facts h he
  obtain ⟨f1, f2, f3, f4⟩ := hf hlt
  have hu := i.curOk u rfl
  generalize hv : g.target e = v at *
  generalize hw : a.combine (st.distOf a u) (a.weight e) = w at *
  have hvV : v ∈ g.vertices := hv ▸ h.closed _ (i.openV u hu) _ he
  have hopen : ∀ x, Open s st' x ↔ x = v ∨ Open s st x := by
    intro x
    unfold Open
    rw [hc]
    by_cases hx : v = x
    · subst hx; simp
    · rw [if_neg hx]
      constructor
      · exact .inr
      · rintro (rfl | h')
        · exact absurd rfl hx
        · exact h'
  have hdb : ∀ b ∈ bs, st'.distOf a b = st.distOf a b := by
    intro b hb
    rw [hd, if_neg]; rintro rfl; exact f3 hb
  have hdu : st'.distOf a u = st.distOf a u := by rw [hd, if_neg f2]
  have hdEx : ∀ b e', Ex g bs (some u) (P ++ [e]) b e' → st'.distOf a b = st.distOf a b := by
    rintro b e' (⟨hb, _⟩ | ⟨hb, _⟩)
    · exact hdb b hb
    · cases hb; exact hdu
  have hdle : ∀ x, Le a (st'.distOf a x) (st.distOf a x) := by
    intro x
    rw [hd]; split
    · rename_i hx; subst hx; exact h.lt_le hlt
    · exact h.leRefl _
  have hEx : ∀ b e', Ex g bs (some u) (P ++ [e]) b e' ↔ Ex g bs (some u) P b e' ∨ (b = u ∧ e' = e) := by
    intro b e'
    unfold Ex
    rw [List.mem_append, List.mem_singleton]
    constructor
    · rintro (h | ⟨h1, h2 | h2⟩)
      · exact .inl (.inl h)
      · exact .inl (.inr ⟨h1, h2⟩)
      · exact .inr ⟨(Option.some.inj h1).symm, h2⟩
    · rintro ((h | h) | ⟨rfl, h⟩)
      · exact .inl h
      · exact .inr ⟨h.1, .inl h.2⟩
      · exact .inr ⟨rfl, .inr h⟩
  refine ⟨?_, i.nd, i.sub, hh1, hh2, hh3, ?_, ?_, ?_, ?_, ?_, ?_, ?_, ?_, ?_, ?_, ?_, ?_, ?_, ?_, ?_, ?_⟩
  · intro x
    rw [hc]
    by_cases hx : v = x
    · subst hx; simp [f3]
    · rw [if_neg hx]; exact i.black x
  · intro x
    rw [hh4, hopen, i.heapMem]
    constructor
    · rintro (rfl | ⟨h1, h2⟩)
      · exact ⟨fun h => f2 (Option.some.inj h), .inl rfl⟩
      · exact ⟨h1, .inr h2⟩
    · rintro ⟨h1, h2 | h2⟩
      · exact .inl h2
      · exact .inr ⟨h1, h2⟩
  · intro x hx
    rcases (hopen x).mp hx with rfl | hx
    · exact hvV
    · exact i.openV x hx
  · intro x hx
    exact (hopen x).mpr (.inr (i.curOk x hx))
  · rw [hd, if_neg f1]; exact i.root
  · intro x hx
    rw [hd]
    by_cases hxv : v = x
    · subst hxv
      rw [if_pos rfl]
      refine ⟨f4, ?_⟩
      obtain ⟨_, p, h2, h3⟩ := i.disc u (.inl hu)
      refine ⟨p ++ [e], hv ▸ h2.snoc he, ?_⟩
      rw [pathWeight_snoc, h3, hw]
    · rw [if_neg hxv]
      refine i.disc x ?_
      rcases hx with hx | hx
      · rcases (hopen x).mp hx with rfl | hx
        · exact absurd rfl hxv
        · exact .inl hx
      · exact .inr hx
  · intro x hx h1 h2
    rw [hd, if_neg]
    · exact i.undisc x hx (fun h' => h1 ((hopen x).mpr (.inr h'))) h2
    · rintro rfl; exact h1 ((hopen v).mpr (.inl rfl))
  · intro b hb x hx
    rw [hdb b hb]
    rcases (hopen x).mp hx with rfl | hx
    · rw [hd, if_pos rfl]
      exact h.leTrans (i.mono b hb u hu) hgrow
    · rw [hd]; split
      · exact h.leTrans (i.mono b hb u hu) hgrow
      · exact i.mono b hb x hx
  · rintro x hx y hy
    cases hx
    rw [hdu]
    rcases (hopen y).mp hy with rfl | hy
    · rw [hd, if_pos rfl]; exact hgrow
    · rw [hd]; split
      · exact hgrow
      · exact i.curMono u rfl y hy
  · refine List.Pairwise.imp_of_mem ?_ i.order
    intro x y hx hy hxy
    rw [hdb x hx, hdb y hy]; exact hxy
  · intro b e' hbe
    rw [hdEx b e' hbe]
    rcases (hEx b e').mp hbe with h1 | ⟨rfl, rfl⟩
    · exact h.leTrans (hdle _) (i.edge b e' h1)
    · rw [hd, if_pos hv.symm, hw]; exact h.leRefl _
  · intro x e'
    rw [hp]
    by_cases hx : v = x
    · subst hx
      rw [if_pos rfl, List.mem_singleton]
      constructor
      · rintro rfl
        exact ⟨u, (hEx _ _).mpr (.inr ⟨rfl, rfl⟩), hv, by rw [hdu, hd, if_pos rfl, hw]⟩
      · rintro ⟨b, h1, h2, h3⟩
        rw [hdEx b e' h1, hd, if_pos rfl] at h3
        rcases (hEx b e').mp h1 with h4 | ⟨_, h4⟩
        · exfalso
          have := i.edge b e' h4
          rw [h2, h3] at this
          exact Hyp.not_lt_of_le this hlt
        · exact h4
    · rw [if_neg hx, i.preds]
      constructor
      · rintro ⟨b, h1, h2, h3⟩
        have h4 := (hEx b e').mpr (.inl h1)
        exact ⟨b, h4, h2, by rw [hdEx b e' h4, hd, if_neg hx]; exact h3⟩
      · rintro ⟨b, h1, h2, h3⟩
        rw [hdEx b e' h1, hd, if_neg hx] at h3
        rcases (hEx b e').mp h1 with h4 | ⟨_, rfl⟩
        · exact ⟨b, h4, h2, h3⟩
        · exact absurd (hv.symm.trans h2) hx
  · intro x hx hxs
    rw [hp]
    split
    · simp
    · rename_i hxv
      refine i.predsNe x ?_ hxs
      rcases hx with hx | hx
      · rcases (hopen x).mp hx with rfl | hx
        · exact absurd rfl hxv
        · exact .inl hx
      · exact .inr hx
  · rw [ht1, i.trEx]
  · rw [ht2, i.trFin]
  · rw [ht3, i.trEdges, List.append_assoc]
  · rw [ht4]
    by_cases hwh : colorOf st.color v = .white
    · rw [if_pos hwh]
      have hno : v ∉ discovered st.trace := by
        intro hm
        rcases ((i.trDisc.2 v).mp hm).1 with h1 | h1
        · rcases h1 with h1 | h1
          · rw [hwh] at h1; cases h1
          · exact f1 h1.1
        · exact f3 h1
      constructor
      · rw [List.nodup_append]
        refine ⟨i.trDisc.1, by simp, ?_⟩
        intro x hx y hy
        simp at hy; subst hy
        rintro rfl; exact hno hx
      · intro x
        rw [List.mem_append, List.mem_singleton, i.trDisc.2, hopen]
        constructor
        · rintro (⟨h1 | h1, h2⟩ | rfl)
          · exact ⟨.inl (.inr h1), h2⟩
          · exact ⟨.inr h1, h2⟩
          · exact ⟨.inl (.inl rfl), f1⟩
        · rintro ⟨(rfl | h1) | h1, h2⟩
          · exact .inr rfl
          · exact .inl ⟨.inl h1, h2⟩
          · exact .inl ⟨.inr h1, h2⟩
    · rw [if_neg hwh, List.append_nil]
      refine ⟨i.trDisc.1, ?_⟩
      have hov : Open s st v := by
        cases hcv : colorOf st.color v with
        | white => exact absurd hcv hwh
        | gray => exact .inl hcv
        | black => exact absurd ((i.black v).mp hcv) f3
      intro x
      rw [i.trDisc.2, hopen]
      constructor
      · rintro ⟨h1 | h1, h2⟩
        · exact ⟨.inl (.inr h1), h2⟩
        · exact ⟨.inr h1, h2⟩
      · rintro ⟨(rfl | h1) | h1, h2⟩
        · exact ⟨.inl hov, h2⟩
        · exact ⟨.inl h1, h2⟩
        · exact ⟨.inr h1, h2⟩

/-- An edge that does not improve the distance of its target. -/
theorem Inv.keep {bs : List V} {u : V} {P : List E} {st st' : DijkstraState V E D} (i : Inv a g s bs (some u) P st) {e : E}
    (hle : Le a (st.distOf a (g.target e)) (a.combine (st.distOf a u) (a.weight e)))
    (hd : st'.dist = st.dist) (hc : st'.color = st.color) (hh : st'.heap = st.heap)
    (hp : ∀ x, ∀ e', e' ∈ st'.predsOf x ↔ e' ∈ st.predsOf x ∨ (e' = e ∧ x = g.target e ∧ a.combine (st.distOf a u) (a.weight e) = st.distOf a x))
    (ht1 : examined st'.trace = examined st.trace) (ht2 : finished st'.trace = finished st.trace)
    (ht3 : examinedEdges st'.trace = examinedEdges st.trace ++ [e]) (ht4 : discovered st'.trace = discovered st.trace) :
    Inv a g s bs (some u) (P ++ [e]) st' := by
  have hdist : ∀ x, st'.distOf a x = st.distOf a x := fun x => by unfold distOf; rw [hd]
  have hopen : ∀ x, Open s st' x ↔ Open s st x := fun x => by unfold Open; rw [hc]
  have hEx : ∀ b e', Ex g bs (some u) (P ++ [e]) b e' ↔ Ex g bs (some u) P b e' ∨ (b = u ∧ e' = e) := by
    intro b e'
    unfold Ex
    rw [List.mem_append, List.mem_singleton]
    constructor
    · rintro (h | ⟨h1, h2 | h2⟩)
      · exact .inl (.inl h)
      · exact .inl (.inr ⟨h1, h2⟩)
      · exact .inr ⟨(Option.some.inj h1).symm, h2⟩
    · rintro ((h | h) | ⟨rfl, h⟩)
      · exact .inl h
      · exact .inr ⟨h.1, .inl h.2⟩
      · exact .inr ⟨rfl, .inr h⟩
  refine ⟨?_, i.nd, i.sub, ?_, ?_, ?_, ?_, ?_, ?_, ?_, ?_, ?_, ?_, ?_, ?_, ?_, ?_, ?_, ?_, ?_, ?_, ?_⟩
  · rw [hc]; exact i.black
  · rw [hh]; exact i.heapOk
  · rw [hh]; intro e he; rw [hdist]; exact i.heapKey e he
  · rw [hh]; exact i.heapNd
  · intro x; rw [hh, hopen]; exact i.heapMem x
  · intro x; rw [hopen]; exact i.openV x
  · intro x; rw [hopen]; exact i.curOk x
  · rw [hdist]; exact i.root
  · intro x; rw [hopen, hdist]; exact i.disc x
  · intro x; rw [hopen, hdist]; exact i.undisc x
  · intro b hb x; rw [hopen, hdist, hdist]; exact i.mono b hb x
  · intro b hb x; rw [hopen, hdist, hdist]; exact i.curMono b hb x
  · simp only [hdist]; exact i.order
  · intro b e' hbe
    rw [hdist, hdist]
    rcases (hEx b e').mp hbe with h1 | ⟨rfl, rfl⟩
    · exact i.edge b e' h1
    · exact hle
  · intro x e'
    rw [hp, i.preds]
    simp only [hdist]
    constructor
    · rintro (⟨b, h1, h2⟩ | ⟨rfl, rfl, h3⟩)
      · exact ⟨b, (hEx _ _).mpr (.inl h1), h2⟩
      · exact ⟨u, (hEx _ _).mpr (.inr ⟨rfl, rfl⟩), rfl, h3⟩
    · rintro ⟨b, h1, h2, h3⟩
      rcases (hEx b e').mp h1 with h4 | ⟨rfl, rfl⟩
      · exact .inl ⟨b, h4, h2, h3⟩
      · exact .inr ⟨rfl, h2.symm, h3⟩
  · intro x hx hxs hnil
    have := i.predsNe x (by simpa only [hopen] using hx) hxs
    obtain ⟨y, ys, hy⟩ := List.exists_cons_of_ne_nil this
    have := (hp x y).mpr (.inl (by rw [hy]; simp))
    rw [hnil] at this; cases this
  · rw [ht1, i.trEx]
  · rw [ht2, i.trFin]
  · rw [ht3, i.trEdges, List.append_assoc]
  · rw [ht4]
    simp only [hopen]; exact i.trDisc


theorem Inv.edgeStep (h : Hyp a g s) {bs : List V} {u : V} {P : List E} {st : DijkstraState V E D} (i : Inv a g s bs (some u) P st) {e : E}
    (he : e ∈ g.outEdges u) : Inv a g s bs (some u) (P ++ [e]) (dijkstraEdge a g (st.distOf a u) st e) := by
  unfold dijkstraEdge
  by_cases hlt : a.compare (a.combine (st.distOf a u) (a.weight e)) (st.distOf a (g.target e)) = true
  · rw [if_pos hlt]
    obtain ⟨_, hf⟩ := i.relax_facts h he
    obtain ⟨f1, f2, f3, f4⟩ := hf hlt
    unfold dijkstraQueue
    have hcol : ∀ st0 : DijkstraState V E D, colorOf ({ st0.emit (.examineEdge e) with
      dist := st0.dist.set (g.target e) (a.combine (st.distOf a u) (a.weight e)), preds := st0.preds.set (g.target e) [e] } : DijkstraState V E D).color
        (g.target e) = colorOf st0.color (g.target e) := fun _ => rfl
    rw [hcol]
    cases hc : colorOf st.color (g.target e) with
    | black => exact absurd ((i.black _).mp hc) f3
    | white =>
      have hno : g.target e ∉ st.heap.data.map (·.2.2) := by
        intro hm
        rcases ((i.heapMem _).mp hm).2 with h1 | h1
        · rw [hc] at h1; cases h1
        · exact f1 h1.1
      have key := fun x => heappush_spec h.ord.ord (α := D × Nat × V) i.heapOk x
      refine i.relax h he hlt (fun x => distOf_set st _ _ _) (fun x => predsOf_set st _ _ _) (fun x => ?_) (key _).1 ?_ ?_ ?_ ?_ ?_ ?_ ?_
      · simp only [DijkstraState.emit, colorOf_set]
      · intro x hx
        rcases List.mem_cons.mp ((key _).2.mem_iff.mp hx) with rfl | hx
        · rfl
        · rw [i.heapKey x hx]
          refine ((distOf_set st _ _ _).trans (if_neg ?_)).symm
          intro heq
          exact hno (heq ▸ List.mem_map_of_mem hx)
      · refine (((key _).2.map (·.2.2)).nodup_iff).mpr ?_
        rw [List.map_cons, List.nodup_cons]
        exact ⟨hno, i.heapNd⟩
      · intro x
        refine (((key _).2.map (·.2.2)).mem_iff).trans ?_
        rw [List.map_cons, List.mem_cons]
      · simp [DijkstraState.emit, examined]
      · simp [DijkstraState.emit, finished]
      · simp [DijkstraState.emit, examinedEdges]
      · simp [DijkstraState.emit, discovered, hc]
    | gray =>
      have hin : g.target e ∈ st.heap.data.map (·.2.2) := (i.heapMem _).mpr ⟨fun h => f2 (Option.some.inj h), .inl hc⟩
      have key := fun k : V → D => Heap.decreaseKey_spec h.ord.ord (key := k) (x := g.target e) i.heapOk
      have key' := fun k : V → D => Heap.decreaseKey_updates h.ord.ord (key := k) (x := g.target e) i.heapOk i.heapNd
      have hids : ∀ k : V → D, ((st.heap.decreaseKey a.ord k (g.target e)).data.map (·.2.2)).Perm (st.heap.data.map (·.2.2)) := by
        intro k
        have := (key k).2.2.1.map Prod.snd
        unfold Heap.ids at this
        rw [List.map_map, List.map_map] at this
        exact this
      refine i.relax h he hlt (fun x => distOf_set st _ _ _) (fun x => predsOf_set st _ _ _) (fun x => ?_) (key _).1 ?_ ?_ ?_ ?_ ?_ ?_ ?_
      · simp only [DijkstraState.emit]
        split
        · rename_i hx; rw [← hx, hc]
        · rfl
      · intro x hx
        by_cases hxe : x.2.2 = g.target e
        · rw [hxe]; exact key' _ x hx hxe
        · rcases (key _).2.2.2 x hx with h1 | h1
          · rw [i.heapKey x h1]
            exact ((distOf_set st _ _ _).trans (if_neg fun h => hxe h.symm)).symm
          · exact absurd h1.1 hxe
      · exact (hids _).nodup_iff.mpr i.heapNd
      · intro x
        refine ((hids _).mem_iff).trans ?_
        constructor
        · exact .inr
        · rintro (rfl | h')
          · exact hin
          · exact h'
      · simp [DijkstraState.emit, examined]
      · simp [DijkstraState.emit, finished]
      · simp [DijkstraState.emit, examinedEdges]
      · simp [DijkstraState.emit, discovered, hc]
  · rw [if_neg hlt]
    have hle : Le a (st.distOf a (g.target e)) (a.combine (st.distOf a u) (a.weight e)) := by
      unfold Le; simpa using hlt
    by_cases heq : a.combine (st.distOf a u) (a.weight e) = st.distOf a (g.target e)
    · rw [if_pos heq]
      refine i.keep hle rfl rfl rfl ?_ ?_ ?_ ?_ ?_
      · intro x e'
        have : ∀ l : List (DijkstraEvent V E), predsOf ({ st with trace := l, preds := st.preds.set (g.target e) (setAdd (st.predsOf (g.target e)) e) } :
            DijkstraState V E D) x = if g.target e = x then setAdd (st.predsOf (g.target e)) e else st.predsOf x := fun _ => predsOf_set st _ _ _
        simp only [DijkstraState.emit, this]
        split
        · rename_i hx
          subst hx
          rw [mem_setAdd]
          constructor
          · rintro (h1 | h1)
            · exact .inl h1
            · exact .inr ⟨h1, rfl, heq⟩
          · rintro (h1 | h1)
            · exact .inl h1
            · exact .inr h1.1
        · rename_i hx
          constructor
          · exact .inl
          · rintro (h1 | ⟨_, h1, _⟩)
            · exact h1
            · exact absurd h1.symm hx
      · simp [DijkstraState.emit, examined]
      · simp [DijkstraState.emit, finished]
      · simp [DijkstraState.emit, examinedEdges]
      · simp [DijkstraState.emit, discovered]
    · rw [if_neg heq]
      refine i.keep hle rfl rfl rfl ?_ ?_ ?_ ?_ ?_
      · intro x e'
        constructor
        · exact .inl
        · rintro (h1 | ⟨_, rfl, h1⟩)
          · exact h1
          · exact absurd h1 heq
      · simp [DijkstraState.emit, examined]
      · simp [DijkstraState.emit, finished]
      · simp [DijkstraState.emit, examinedEdges]
      · simp [DijkstraState.emit, discovered]

theorem edge_dist_cur (h : Hyp a g s) {bs : List V} {u : V} {P : List E} {st : DijkstraState V E D} (i : Inv a g s bs (some u) P st) {e : E}
    (he : e ∈ g.outEdges u) : (dijkstraEdge a g (st.distOf a u) st e).distOf a u = st.distOf a u := by
  obtain ⟨_, hf⟩ := i.relax_facts h he
  unfold dijkstraEdge
  split
  · rename_i hlt
    obtain ⟨_, f2, _⟩ := hf hlt
    have : ∀ (st0 : DijkstraState V E D), (dijkstraQueue a st0 (g.target e)).dist = st0.dist := by
      intro st0; unfold dijkstraQueue; split <;> rfl
    unfold distOf DijkstraState.emit
    simp only [this]
    exact (distOf_set st _ _ _).trans (if_neg f2)
  · split <;> rfl

theorem Inv.edges (h : Hyp a g s) {bs : List V} {u : V} (es : List E) : ∀ {P : List E} {st : DijkstraState V E D}, Inv a g s bs (some u) P st →
    (∀ e ∈ es, e ∈ g.outEdges u) → Inv a g s bs (some u) (P ++ es) (es.foldl (dijkstraEdge a g (st.distOf a u)) st) := by
  induction es with
  | nil => intro P st i _; simpa using i
  | cons e es ih =>
    intro P st i hes
    have he := hes e (by simp)
    have h1 := i.edgeStep h he
    rw [List.foldl_cons]
    have h2 := ih h1 fun e' h' => hes e' (by simp [h'])
    rw [edge_dist_cur h i he, List.append_assoc] at h2
    exact h2

/-- The vertex that is popped. -/
theorem Inv.popStep (h : Hyp a g s) {bs : List V} {st : DijkstraState V E D} (i : Inv a g s bs none [] st) (hne : st.heap.nonempty = true) :
    ∃ u heap, st.heap.pop a.ord = .ok (u, heap) ∧ Inv a g s bs (some u) [] (({ st with heap := heap }).emit (.examineVertex u)) := by
  have hd : st.heap.data ≠ [] := by
    intro e; unfold Heap.nonempty at hne; rw [e] at hne; cases hne
  obtain ⟨x, l, k1, k2, k3, k4⟩ := heappop_spec (h.ord.ord (α := V)) i.heapOk hd
  refine ⟨x.2.2, { st.heap with data := l }, by unfold Heap.pop; rw [k1], ?_⟩
  have hmem : ∀ y ∈ l, y ∈ st.heap.data := fun y hy => k3.mem_iff.mp (by simp [hy])
  have hx : x ∈ st.heap.data := k3.mem_iff.mp (by simp)
  have hperm := k3.map (·.2.2)
  have hnd : ((x :: l).map (·.2.2)).Nodup := hperm.nodup_iff.mpr i.heapNd
  rw [List.map_cons, List.nodup_cons] at hnd
  have hop : Open s st x.2.2 := ((i.heapMem _).mp (List.mem_map_of_mem hx)).2
  have hEx : ∀ b e, Ex g bs (some x.2.2) [] b e ↔ Ex g bs none [] b e := by intro b e; simp [Ex]
  refine ⟨i.black, i.nd, i.sub, k2, fun e he => i.heapKey e (hmem e he), hnd.2, ?_, i.openV, ?_, i.root, i.disc, i.undisc, i.mono, ?_, i.order, ?_, ?_,
    i.predsNe, ?_, ?_, ?_, ?_⟩
  · intro v
    have h1 : v ∈ st.heap.data.map (·.2.2) ↔ v = x.2.2 ∨ v ∈ l.map (·.2.2) := by
      rw [← hperm.mem_iff, List.map_cons, List.mem_cons]
    have h2 := i.heapMem v
    constructor
    · intro hv
      refine ⟨?_, (h2.mp (h1.mpr (.inr hv))).2⟩
      intro heq
      rw [Option.some.inj heq] at hv
      exact hnd.1 hv
    · rintro ⟨hne', ho⟩
      rcases h1.mp (h2.mpr ⟨by simp, ho⟩) with rfl | h3
      · exact absurd rfl hne'
      · exact h3
  · rintro u hu; cases hu; exact hop
  · rintro u hu v hv
    cases hu
    have : v ∈ st.heap.data.map (·.2.2) := (i.heapMem v).mpr ⟨by simp, hv⟩
    rw [List.mem_map] at this
    obtain ⟨y, hy, rfl⟩ := this
    have := k4 y hy
    rw [i.heapKey x hx, i.heapKey y hy] at this
    exact this
  · intro b e hbe; exact i.edge b e ((hEx b e).mp hbe)
  · intro v e; simp only [hEx]; exact i.preds v e
  · have := i.trEx; simp at this; simp [DijkstraState.emit, examined]; simpa [examined] using this
  · have := i.trFin; simp [DijkstraState.emit, finished]; simpa [finished] using this
  · have := i.trEdges; simp at this; simp [DijkstraState.emit, examinedEdges]; simpa [examinedEdges] using this
  · have hd : discovered (({ st with heap := { st.heap with data := l } }).emit (.examineVertex x.2.2)).trace = discovered st.trace := by
      simp [DijkstraState.emit, discovered]
    rw [hd]; exact i.trDisc

/-- The end of an iteration. -/
theorem Inv.finish {bs : List V} {u : V} {st : DijkstraState V E D} (i : Inv a g s bs (some u) (g.outEdges u) st) :
    Inv a g s (bs ++ [u]) none [] (({ st with color := st.color.set u .black }).emit (.finishVertex u)) := by
  have hu := i.curOk u rfl
  have hcol : ∀ v, colorOf (st.color.set u .black) v = if u = v then .black else colorOf st.color v := fun v => colorOf_set _ _ _ _
  have hopen : ∀ v, Open s (({ st with color := st.color.set u .black }).emit (.finishVertex u)) v ↔ v ≠ u ∧ Open s st v := by
    intro v
    unfold Open
    simp only [DijkstraState.emit, hcol]
    by_cases hv : u = v
    · subst hv; simp
    · rw [if_neg hv]
      exact ⟨fun h => ⟨fun h' => hv h'.symm, h⟩, fun h => h.2⟩
  have hdisc : ∀ v, (Open s (({ st with color := st.color.set u .black }).emit (.finishVertex u)) v ∨ v ∈ bs ++ [u]) ↔ (Open s st v ∨ v ∈ bs) := by
    intro v
    rw [hopen, List.mem_append, List.mem_singleton]
    constructor
    · rintro (h1 | h1 | rfl)
      · exact .inl h1.2
      · exact .inr h1
      · exact .inl hu
    · rintro (h1 | h1)
      · by_cases hv : v = u
        · exact .inr (.inr hv)
        · exact .inl ⟨hv, h1⟩
      · exact .inr (.inl h1)
  have hEx : ∀ b e, Ex g (bs ++ [u]) none [] b e ↔ Ex g bs (some u) (g.outEdges u) b e := by
    intro b e
    unfold Ex
    rw [List.mem_append, List.mem_singleton]
    constructor
    · rintro (⟨h1 | rfl, h2⟩ | ⟨h1, _⟩)
      · exact .inl ⟨h1, h2⟩
      · exact .inr ⟨rfl, h2⟩
      · cases h1
    · rintro (⟨h1, h2⟩ | ⟨h1, h2⟩)
      · exact .inl ⟨.inl h1, h2⟩
      · cases h1; exact .inl ⟨.inr rfl, h2⟩
  have hnot : u ∉ bs := i.open_not_black hu
  refine ⟨?_, ?_, ?_, i.heapOk, i.heapKey, i.heapNd, ?_, ?_, ?_, i.root, ?_, ?_, ?_, ?_, ?_, ?_, ?_, ?_, ?_, ?_, ?_, ?_⟩
  · intro v
    simp only [DijkstraState.emit, hcol, List.mem_append, List.mem_singleton]
    split
    · rename_i hv; simp [hv]
    · rename_i hv
      rw [i.black]
      constructor
      · exact .inl
      · rintro (h1 | h1)
        · exact h1
        · exact absurd h1.symm hv
  · rw [List.nodup_append]
    refine ⟨i.nd, by simp, ?_⟩
    intro x hx y hy
    simp at hy; subst hy
    rintro rfl; exact hnot hx
  · intro v hv
    rw [List.mem_append, List.mem_singleton] at hv
    rcases hv with hv | rfl
    · exact i.sub v hv
    · exact i.openV _ hu
  · intro v
    rw [hopen]
    refine (i.heapMem v).trans ?_
    constructor
    · rintro ⟨h1, h2⟩; exact ⟨by simp, fun h => h1 (by rw [h]), h2⟩
    · rintro ⟨_, h1, h2⟩; exact ⟨fun h => h1 (Option.some.inj h), h2⟩
  · intro v hv; exact i.openV v ((hopen v).mp hv).2
  · intro v hv; cases hv
  · intro v hv; exact i.disc v ((hdisc v).mp hv)
  · intro v hv h1 h2
    have : ¬ (Open s st v ∨ v ∈ bs) := fun h => ((hdisc v).mpr h).elim h1 h2
    exact i.undisc v hv (fun h => this (.inl h)) (fun h => this (.inr h))
  · intro b hb v hv
    have hv' := ((hopen v).mp hv).2
    rw [List.mem_append, List.mem_singleton] at hb
    rcases hb with hb | rfl
    · exact i.mono b hb v hv'
    · exact i.curMono _ rfl v hv'
  · intro x hx; cases hx
  · rw [List.pairwise_append]
    refine ⟨i.order, by simp, ?_⟩
    intro x hx y hy
    simp at hy; subst hy
    exact i.mono x hx _ hu
  · intro b e hbe; exact i.edge b e ((hEx b e).mp hbe)
  · intro v e
    simp only [hEx]; exact i.preds v e
  · intro v hv; exact i.predsNe v ((hdisc v).mp hv)
  · have := i.trEx; simp [DijkstraState.emit, examined]; simpa [examined] using this
  · have := i.trFin; simp [DijkstraState.emit, finished]; simpa [finished] using this
  · have := i.trEdges; simp [DijkstraState.emit, examinedEdges]; simpa [examinedEdges] using this
  · have := i.trDisc
    refine ⟨by have := this.1; simp only [DijkstraState.emit, discovered] at *; simpa using this, ?_⟩
    intro v
    rw [hdisc, ← this.2]
    simp [DijkstraState.emit, discovered]

theorem initFold (l : List V) : ∀ (st : DijkstraState V E D),
    (l.foldl (dijkstraInitVertex a s) st).color = st.color ∧ (l.foldl (dijkstraInitVertex a s) st).preds = st.preds ∧
    (∀ v, (l.foldl (dijkstraInitVertex a s) st).distOf a v = if v ∈ l then (if v = s then a.zero else a.infty) else st.distOf a v) ∧
    (l.foldl (dijkstraInitVertex a s) st).trace = st.trace ++ l.map .initializeVertex := by
  induction l with
  | nil => intro st; simp
  | cons u l ih =>
    intro st
    rw [List.foldl_cons]
    obtain ⟨h1, h2, h3, h4⟩ := ih (dijkstraInitVertex a s st u)
    refine ⟨h1, h2, ?_, ?_⟩
    · intro v
      rw [h3]
      have : (dijkstraInitVertex a s st u).distOf a v = if u = v then (if u = s then a.zero else a.infty) else st.distOf a v := distOf_set st _ _ _
      rw [this]
      by_cases hv : v ∈ l
      · rw [if_pos hv, if_pos (List.mem_cons_of_mem u hv)]
      · rw [if_neg hv]
        by_cases huv : u = v
        · subst huv; simp
        · rw [if_neg huv, if_neg]
          intro hm
          rcases List.mem_cons.mp hm with rfl | hm
          · exact huv rfl
          · exact hv hm
    · rw [h4]; simp [dijkstraInitVertex, DijkstraState.emit]

theorem Inv.init (h : Hyp a g s) {dist : Dict V D} {preds : Dict V (List E)} (hp : ∀ v, preds.getD v [] = []) :
    Inv a g s [] none [] (dijkstraInit a g s dist preds) := by
  obtain ⟨h1, h2, h3, h4⟩ := initFold (a := a) (s := s) g.vertices ⟨dist, preds, Dict.set [] s .white, ⟨[], 0⟩, []⟩
  unfold dijkstraInit
  simp only
  generalize hst : g.vertices.foldl (dijkstraInitVertex a s) ⟨dist, preds, Dict.set [] s .white, ⟨[], 0⟩, []⟩ = st at h1 h2 h3 h4
  have hcol : ∀ v, colorOf st.color v = .white := by
    intro v; rw [h1]; show colorOf (Dict.set [] s .white) v = _; rw [colorOf_set]; split <;> rfl
  have hopen : ∀ v, Open s { st with heap := Heap.make a.ord (st.distOf a) [s] } v ↔ v = s := by
    intro v
    unfold Open
    simp only [hcol]
    simp
  obtain ⟨k1, k2⟩ := heapify_spec (h.ord.ord (α := V)) ([s].zipIdx.map fun p => (st.distOf a p.1, p.2, p.1))
  have hroot : st.distOf a s = a.zero := by rw [h3, if_pos h.src, if_pos rfl]
  have k2' : (Heap.make a.ord (st.distOf a) [s]).data.Perm [(st.distOf a s, 0, s)] := k2
  have hEx : ∀ b (e : E), ¬ Ex g [] none [] b e := by intro b e; simp [Ex]
  refine ⟨?_, by simp, by simp, k1, ?_, ?_, ?_, ?_, by simp, hroot, ?_, ?_, by simp, by simp, by simp, ?_, ?_, ?_, ?_, ?_, ?_, ?_⟩
  · intro v; simp [hcol]
  · intro e he
    have := k2'.mem_iff.mp he
    rw [List.mem_singleton] at this
    subst this; rfl
  · have := (k2'.map (·.2.2)).nodup_iff.mpr (by simp)
    exact this
  · intro v
    rw [hopen]
    have := (k2'.map (·.2.2)).mem_iff (a := v)
    refine this.trans ?_
    simp
  · intro v hv; rw [hopen] at hv; subst hv; exact h.src
  · rintro v (hv | hv)
    · rw [hopen] at hv
      subst hv
      refine ⟨?_, [], .nil _, ?_⟩
      · show a.compare (st.distOf a v) a.infty = true
        rw [hroot]; exact h.alg.zero_lt
      · show a.zero = st.distOf a v
        rw [hroot]
    · cases hv
  · intro v hv h5 _
    rw [hopen] at h5
    show st.distOf a v = _
    rw [h3, if_pos hv, if_neg h5]
  · intro b e hbe; exact absurd hbe (hEx b e)
  · intro v e
    show e ∈ st.preds.getD v [] ↔ _
    rw [h2]
    simp only [hp]
    simp [hEx]
  · rintro v (hv | hv) hvs
    · rw [hopen] at hv; exact absurd hv hvs
    · cases hv
  · show examined st.trace = _
    rw [h4]; simp [examined, List.filterMap_map]
  · show finished st.trace = _
    rw [h4]; simp [finished, List.filterMap_map]
  · show examinedEdges st.trace = _
    rw [h4]; simp [examinedEdges, List.filterMap_map]
  · have : discovered st.trace = [] := by rw [h4]; simp [discovered, List.filterMap_map]
    show (discovered st.trace).Nodup ∧ ∀ v, v ∈ discovered st.trace ↔ _
    rw [this]
    refine ⟨by simp, ?_⟩
    intro v
    simp only [hopen]
    simp

end
end PyBGL.Dijkstra
