import Verif.Proofs.PbfsObjects
import Verif.Proofs.PbfsWords
import Verif.Spec.PairFinder

/-!
# The order in which the parallel search examines pairs
-/

namespace PyBGL
variable {A : Type} [DecidableEq A]

namespace Pbfs
variable {g1 g2 : Automaton A} {ord : SetOracle A}

/-- The pairs examined, with the lengths of the words by which the search has reached them. -/
theorem Run.layers (ho : ord.Valid) {t : Nat} {c c' : Dict StatePair Color} {q : List StatePair} {tr : List (PEvent A)}
    (h : Run ord g1 g2 pushAll t c q tr c') : ∀ lq : List (StatePair × Nat), lq.map (·.1) = q → lq.Pairwise (fun a b => a.2 ≤ b.2 ∧ b.2 ≤ a.2 + 1) →
      ∃ lX : List (StatePair × Nat), lX.map (·.1) = examined tr ∧ (∀ x ∈ lq, x ∈ lX) ∧ lX.Pairwise (fun a b => a.2 ≤ b.2) ∧ (∀ k, (∀ x ∈ lq, k ≤ x.2) → ∀ x ∈ lX, k ≤ x.2) ∧
        (∀ Q : StatePair → Nat → Prop, (∀ x ∈ lq, Q x.1 x.2) → (∀ p m, Q p m → ∀ a ∈ syms g1 g2 p, Q (nxt g1 g2 p a) (m + 1)) → ∀ x ∈ lX, Q x.1 x.2) ∧
        ∀ x ∈ lX, ∀ a ∈ syms g1 g2 x.1, colorOf c (nxt g1 g2 x.1 a) ≠ .white ∨ ∃ l ≤ x.2 + 1, (nxt g1 g2 x.1 a, l) ∈ lX := by
  induction h with
  | nil t c =>
    intro lq hq _
    have : lq = [] := by simpa using hq
    subst this
    exact ⟨[], rfl, by simp, .nil, by simp, by simp, by simp⟩
  | @cons t c c' p q tr h ih =>
    intro lq hq hs
    obtain ⟨⟨p', m⟩, lq, rfl⟩ : ∃ x l, lq = x :: l := by
      cases lq with
      | nil => cases hq
      | cons x l => exact ⟨x, l, rfl⟩
    simp only [List.map_cons, List.cons.injEq] at hq
    obtain ⟨rfl, hq⟩ := hq
    obtain ⟨hs1, hs2⟩ := List.pairwise_cons.mp hs
    obtain ⟨tv, c1, q1, h0, h1, h2, h3, h4, h5, h6, h7, h8, h9, h10⟩ :=
      symTrace_spec (g1 := g1) (g2 := g2) (push := pushAll) (pp := fun _ => true) (fun _ _ => rfl) p' (ord t (syms g1 g2 p')) c q
    have hsy : ∀ a, a ∈ ord t (syms g1 g2 p') ↔ a ∈ syms g1 g2 p' := fun a => (ho t _).mem_iff
    rw [h0] at ih
    simp only at ih
    have hv : vertexTrace g1 g2 pushAll (ord t (syms g1 g2 p')) p' c q = .examineVertex p'.1 p'.2 :: tv ++ [.finish p'.1 p'.2] := by
      unfold vertexTrace; rw [h0]
    have he : examined (.examineVertex p'.1 p'.2 :: tv ++ [.finish p'.1 p'.2] ++ tr) = p' :: examined tr := by simp [h1]
    have hcol : ∀ v, colorOf (c1.set p' .black) v = if p' = v then .black else if v ∈ discovered tv then .gray else colorOf c v := by
      intro v; rw [colorOf_set, h9]
    have hnew : ∀ x ∈ (discovered tv).map (fun v => (v, m + 1)), x.2 = m + 1 ∧ x.1 ∈ discovered tv := by
      intro x hx
      obtain ⟨v, hv, rfl⟩ := List.mem_map.mp hx
      exact ⟨rfl, hv⟩
    obtain ⟨lX, k1, k2, k3, k4, k5, k6⟩ := ih (lq ++ (discovered tv).map (fun v => (v, m + 1))) (by
        rw [h10, List.map_append, hq, List.map_map]; simp [Function.comp_def]) (by
        rw [List.pairwise_append]
        refine ⟨hs2, ?_, ?_⟩
        · rw [List.pairwise_iff_forall_sublist]
          intro a b hab
          have ha := hnew a (hab.subset (by simp))
          have hb := hnew b (hab.subset (by simp))
          omega
        · intro a ha b hb
          have := hs1 a ha
          have := hnew b hb
          simp only at *
          omega)
    have hmin : ∀ x ∈ lX, m ≤ x.2 := k4 m (by
      intro x hx
      rcases List.mem_append.mp hx with hx | hx
      · exact (hs1 x hx).1
      · have := (hnew x hx).1; omega)
    rw [hv]
    refine ⟨(p', m) :: lX, by rw [he, List.map_cons, k1], ?_, List.pairwise_cons.mpr ⟨hmin, k3⟩, ?_, ?_, ?_⟩
    · intro x hx
      rcases List.mem_cons.mp hx with rfl | hx
      · exact List.mem_cons_self
      · exact List.mem_cons_of_mem _ (k2 x (List.mem_append_left _ hx))
    · intro k hk x hx
      have hkm : k ≤ m := hk _ List.mem_cons_self
      rcases List.mem_cons.mp hx with rfl | hx
      · exact hkm
      · exact Nat.le_trans hkm (hmin x hx)
    · intro Q hQ1 hQ2 x hx
      have hp := hQ1 (p', m) List.mem_cons_self
      rcases List.mem_cons.mp hx with rfl | hx
      · exact hp
      · refine k5 Q ?_ hQ2 x hx
        intro y hy
        rcases List.mem_append.mp hy with hy | hy
        · exact hQ1 y (List.mem_cons_of_mem _ hy)
        · obtain ⟨e1, e2⟩ := hnew y hy
          obtain ⟨_, a, ha, e⟩ := h7 _ e2
          rw [e1, e]
          exact hQ2 _ _ hp a ((hsy a).mp ha)
    · intro x hx a ha
      rcases List.mem_cons.mp hx with rfl | hx
      · rcases h8 a ((hsy a).mpr ha) with h | h
        · exact .inl h
        · exact .inr ⟨m + 1, Nat.le_refl _, List.mem_cons_of_mem _ (k2 _ (List.mem_append_right _ (List.mem_map.mpr ⟨_, h, rfl⟩)))⟩
      · have hm := hmin x hx
        rcases k6 x hx a ha with h | ⟨l, hl, h⟩
        · rw [hcol] at h
          by_cases e1 : p' = nxt g1 g2 x.1 a
          · exact .inr ⟨m, by omega, e1 ▸ List.mem_cons_self⟩
          · rw [if_neg e1] at h
            by_cases e2 : nxt g1 g2 x.1 a ∈ discovered tv
            · exact .inr ⟨m + 1, by omega, List.mem_cons_of_mem _ (k2 _ (List.mem_append_right _ (List.mem_map.mpr ⟨_, e2, rfl⟩)))⟩
            · rw [if_neg e2] at h
              exact .inl h
        · exact .inr ⟨l, hl, List.mem_cons_of_mem _ h⟩

/-- The first pair examined that satisfies `P` is reached by a word than which no word that leads to such a pair is shorter. -/
theorem Run.first (ho : ord.Valid) {c' : Dict StatePair Color} {tr : List (PEvent A)} (h : Run ord g1 g2 pushAll 0 [] [(g1.initial, g2.initial)] tr c')
    {P : StatePair → Bool} {p : StatePair} (hp : (examined tr).find? P = some p) :
    ∃ w, p = pairOf g1 g2 w ∧ (w = [] ∨ p ≠ (none, none)) ∧
      ∀ w', P (pairOf g1 g2 w') = true → (w' = [] ∨ pairOf g1 g2 w' ≠ (none, none)) → w.length ≤ w'.length := by
  obtain ⟨lX, k1, k2, k3, _, k5, k6⟩ := h.layers ho [((g1.initial, g2.initial), 0)] rfl (by simp)
  obtain ⟨hP, as, bs, hsplit, has⟩ := List.find?_eq_some_iff_append.mp hp
  rw [← k1] at hsplit
  obtain ⟨l1, l2, rfl, e1, e2⟩ := List.map_eq_append_iff.mp hsplit
  obtain ⟨x, l3, rfl, e3, e4⟩ := List.map_eq_cons_iff.mp e2
  have hword := k5 (fun q n => ∃ w, q = pairOf g1 g2 w ∧ (w = [] ∨ q ≠ (none, none)) ∧ w.length = n) (by
      intro y hy
      simp only [List.mem_singleton] at hy
      subst hy
      exact ⟨[], rfl, .inl rfl, rfl⟩) (by
      rintro q n ⟨w, rfl, _, rfl⟩ a ha
      exact ⟨w ++ [a], by rw [pairOf_snoc], .inr (mem_syms.mp ha), by simp⟩) x (by simp)
  obtain ⟨w, hw1, hw2, hw3⟩ := hword
  refine ⟨w, e3 ▸ hw1, e3 ▸ hw2, fun w' hP' hw' => ?_⟩
  have hocc : ∃ l ≤ w'.length, (pairOf g1 g2 w', l) ∈ l1 ++ x :: l3 := by
    clear hP'
    induction w' using List.reverseRecOn with
    | nil => exact ⟨0, Nat.le_refl _, k2 _ (by simp [pairOf, Automaton.deltaWord])⟩
    | append_singleton w' a ih =>
      have hne : pairOf g1 g2 (w' ++ [a]) ≠ (none, none) := by
        rcases hw' with h | h
        · simp at h
        · exact h
      obtain ⟨l, hl, hm⟩ := ih (.inr (pairOf_init_ne hne))
      rw [pairOf_snoc] at hne ⊢
      rcases k6 _ hm a (mem_syms.mpr hne) with h | ⟨l', hl', h⟩
      · exact absurd rfl h
      · exact ⟨l', by simp only [List.length_append, List.length_cons, List.length_nil] at *; omega, h⟩
  obtain ⟨l, hl, hm⟩ := hocc
  rw [hw3]
  refine Nat.le_trans ?_ hl
  rcases List.mem_append.mp hm with hm | hm
  · have := has _ (e1 ▸ List.mem_map.mpr ⟨_, hm, rfl⟩)
    simp [hP'] at this
  · rcases List.mem_cons.mp hm with hm | hm
    · exact Nat.le_of_eq (by rw [← hm])
    · exact (List.pairwise_cons.mp (List.pairwise_append.mp k3).2.1).1 _ hm

end Pbfs

omit [DecidableEq A] in
theorem play_pairFinder (P : StatePair → Bool) (err : PyErr) (tr : List (PEvent A)) (c : Dict StatePair Color) :
    match (Pbfs.examined tr).find? P with
    | some p => ∃ c', play (pairFinder P err) tr c none = (.error err, c', some p)
    | none => ∃ c', play (pairFinder P err) tr c none = (.ok (), c', none) := by
  induction tr generalizing c with
  | nil => exact ⟨c, rfl⟩
  | cons ev tr ih =>
    cases ev with
    | examineVertex q1 q2 =>
      have he : Pbfs.examined (PEvent.examineVertex q1 q2 :: tr : List (PEvent A)) = (q1, q2) :: Pbfs.examined tr := rfl
      rw [he]
      cases hP : P (q1, q2) with
      | true =>
        rw [List.find?_cons_of_pos (by simpa using hP)]
        exact ⟨paint c (PEvent.examineVertex q1 q2 : PEvent A), by simp only [play, pairFinder, hP, if_true]⟩
      | false =>
        rw [List.find?_cons_of_neg (by simp [hP])]
        simp only [play, pairFinder, hP, Bool.false_eq_true, if_false]
        exact ih _
    | _ => exact ih _

end PyBGL
