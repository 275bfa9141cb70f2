import Verif.Props.C90_Graphviz

/-!
# C90: the lines that `read_graphviz` takes for statements
-/

namespace PyBGL
open Graphviz

theorem Graphviz.mem_takeWhile {p : Char → Bool} {t : Text} {c : Char} (h : c ∈ t.takeWhile p) : p c = true := by
  induction t with
  | nil => cases h
  | cons d t ih =>
    by_cases hd : p d = true
    · rw [List.takeWhile_cons_of_pos hd] at h
      rcases List.mem_cons.mp h with rfl | h
      · exact hd
      · exact ih h
    · rw [List.takeWhile_cons_of_neg hd] at h; cases h

theorem Graphviz.dropWhile_split (p : Char → Bool) (t : Text) :
    ∃ s, t = s ++ t.dropWhile p ∧ (∀ c ∈ s, p c = true) ∧ ∀ c, (t.dropWhile p).head? = some c → p c = false := by
  refine ⟨t.takeWhile p, List.takeWhile_append_dropWhile.symm, fun c hc => ?_, fun c hc => ?_⟩
  · exact mem_takeWhile hc
  · induction t with
    | nil => cases hc
    | cons d t ih =>
      by_cases hd : p d = true
      · rw [List.dropWhile_cons_of_pos hd] at hc; exact ih hc
      · rw [List.dropWhile_cons_of_neg hd] at hc
        simp only [List.head?_cons, Option.some.injEq] at hc
        rw [← hc]; simpa using hd

theorem Graphviz.dropWhile_spaces {p : Char → Bool} {s t : Text} (hs : ∀ c ∈ s, p c = true) : (s ++ t).dropWhile p = t.dropWhile p := by
  induction s with
  | nil => rfl
  | cons c s ih =>
    rw [List.cons_append, List.dropWhile_cons_of_pos (hs c (by simp))]
    exact ih fun x hx => hs x (by simp [hx])

theorem Graphviz.semi_iff (t : Text) : semi t = true ↔ ∃ s rest, (∀ c ∈ s, isSpace c = true) ∧ t = s ++ ';' :: rest := by
  unfold semi
  rw [decide_eq_true_eq]
  constructor
  · intro h
    obtain ⟨s, h1, h2, _⟩ := dropWhile_split isSpace t
    cases hd : t.dropWhile isSpace with
    | nil => rw [hd] at h; cases h
    | cons c rest =>
      rw [hd] at h h1
      simp only [List.head?_cons, Option.some.injEq] at h
      subst h
      exact ⟨s, rest, h2, h1⟩
  · rintro ⟨s, rest, h1, rfl⟩
    rw [dropWhile_spaces h1, List.dropWhile_cons_of_neg (by decide)]
    rfl

theorem Graphviz.closeOpts_sound (t : Text) : ∀ p, closeOpts t = some p → '\n' ∉ p ∧ ∃ r, t = p ++ ']' :: r ∧ semi r = true := by
  induction t with
  | nil => intro p h; cases h
  | cons c t ih =>
    intro p h
    rw [closeOpts] at h
    by_cases hc : c = '\n'
    · rw [if_pos hc] at h
      simp only [hc] at h
      cases h
    · rw [if_neg hc] at h
      cases ht : closeOpts t with
      | none =>
        rw [ht] at h
        simp only at h
        split at h
        · rename_i hb
          cases h
          simp only [Bool.and_eq_true, decide_eq_true_eq] at hb
          exact ⟨by simp, t, by simp [hb.1], hb.2⟩
        · cases h
      | some p' =>
        rw [ht] at h
        cases h
        obtain ⟨h1, r, h2, h3⟩ := ih p' ht
        refine ⟨?_, r, by rw [h2]; rfl, h3⟩
        intro hm
        rcases List.mem_cons.mp hm with e | e
        · exact hc e.symm
        · exact h1 e

theorem Graphviz.closeOpts_complete (p : Text) {r : Text} (hp : '\n' ∉ p) (hr : semi r = true) : ∃ p', closeOpts (p ++ ']' :: r) = some p' := by
  induction p with
  | nil =>
    rw [List.nil_append, closeOpts, if_neg (by decide)]
    cases closeOpts r with
    | none => simp [hr]
    | some p' => exact ⟨_, rfl⟩
  | cons c p ih =>
    obtain ⟨p', h⟩ := ih fun h => hp (by simp [h])
    rw [List.cons_append, closeOpts, if_neg (fun e => hp (by simp [e])), h]
    exact ⟨_, rfl⟩

theorem Graphviz.scanOpts_sound {t : Text} {opts : Option Text} (h : scanOpts t = some opts) : DotTail isSpace opts t := by
  obtain ⟨s, h1, h2, _⟩ := dropWhile_split isSpace t
  unfold scanOpts at h
  split at h
  · rename_i t' ht
    obtain ⟨p, hp, rfl⟩ := Option.map_eq_some_iff.mp h
    obtain ⟨h3, r, h4, h5⟩ := closeOpts_sound t' p hp
    obtain ⟨s', rest, h6, h7⟩ := (semi_iff r).mp h5
    refine ⟨s, s', rest, h2, h6, p, rfl, h3, ?_⟩
    rw [h1, ht, h4, h7]; simp
  · split at h
    · rename_i hs
      cases h
      obtain ⟨s', rest, h6, h7⟩ := (semi_iff _).mp hs
      refine ⟨s, s', rest, h2, h6, ?_⟩
      rw [h1, h7]; simp
    · cases h

theorem Graphviz.scanOpts_complete {t : Text} {opts : Option Text} (h : DotTail isSpace opts t) : ∃ o, scanOpts t = some o := by
  obtain ⟨s, s', rest, h1, h2, h3⟩ := h
  unfold scanOpts
  cases opts with
  | none =>
    simp only at h3
    rw [h3, List.append_assoc, dropWhile_spaces h1, dropWhile_spaces h2, List.dropWhile_cons_of_neg (by decide)]
    show ∃ o, (if semi (';' :: rest) then some none else none) = some o
    rw [if_pos ((semi_iff (';' :: rest)).mpr ⟨[], rest, by simp, rfl⟩)]
    exact ⟨_, rfl⟩
  | some o =>
    obtain ⟨p, rfl, hp, h3⟩ := h3
    have e : t = s ++ ('[' :: (p ++ ']' :: (s' ++ ';' :: rest))) := by rw [h3]; simp
    rw [e, dropWhile_spaces h1, List.dropWhile_cons_of_neg (by decide)]
    simp only
    obtain ⟨p', hp'⟩ := closeOpts_complete p hp ((semi_iff (s' ++ ';' :: rest)).mpr ⟨s', rest, h2, rfl⟩)
    rw [hp']
    exact ⟨_, rfl⟩

theorem Graphviz.dotId_iff (u : Text) : DotId u ↔ u ≠ [] ∧ ∀ c ∈ u, isDig c = true := by
  simp [DotId, isDig]

theorem Graphviz.scanId_iff (t u t' : Text) :
    scanId t = some (u, t') ↔ DotId u ∧ t = u ++ t' ∧ ∀ c, t'.head? = some c → isDig c = false := by
  rw [dotId_iff]
  unfold scanId
  constructor
  · intro h
    split at h
    · cases h
    · rename_i hne
      cases h
      refine ⟨⟨hne, fun c hc => mem_takeWhile hc⟩, List.takeWhile_append_dropWhile.symm, ?_⟩
      obtain ⟨_, _, _, h⟩ := dropWhile_split isDig t
      exact h
  · rintro ⟨⟨h1, h2⟩, rfl, h3⟩
    have e : ∀ l : Text, (∀ c ∈ l, isDig c = true) → (l ++ t').takeWhile isDig = l ∧ (l ++ t').dropWhile isDig = t' := by
      intro l hl
      induction l with
      | nil =>
        cases t' with
        | nil => exact ⟨rfl, rfl⟩
        | cons c t => simp [h3 c rfl]
      | cons c l ih =>
        obtain ⟨a, b⟩ := ih (fun x hx => hl x (by simp [hx]))
        simp [hl c (by simp), a, b]
    obtain ⟨a, b⟩ := e u h2
    rw [a, b, if_neg h1]

theorem Graphviz.isDig_of_isSpace {c : Char} (h : isSpace c = true) : isDig c = false := by
  cases hd : isDig c with
  | false => rfl
  | true => rw [isSpace_of_isDig hd] at h; cases h

theorem Graphviz.head_of_spaces {s : Text} {d : Char} {t : Text} (hs : ∀ c ∈ s, isSpace c = true) (hd : isDig d = false) :
    ∀ c, (s ++ d :: t).head? = some c → isDig c = false := by
  intro c hc
  cases s with
  | nil => simp at hc; rw [← hc]; exact hd
  | cons e s =>
    simp at hc
    rw [← hc]; exact isDig_of_isSpace (hs e (by simp))

theorem Graphviz.tail_head {opts : Option Text} {t : Text} (h : DotTail isSpace opts t) : ∀ c, t.head? = some c → isDig c = false := by
  obtain ⟨s, s', rest, h1, h2, h3⟩ := h
  cases opts with
  | none =>
    simp only at h3
    rw [h3]
    exact head_of_spaces (s := s ++ s') (fun c hc => (List.mem_append.mp hc).elim (h1 c) (h2 c)) (by decide)
  | some o =>
    obtain ⟨p, rfl, _, rfl⟩ := h3
    have e : s ++ ('[' :: (p ++ [']'])) ++ s' ++ ';' :: rest = s ++ '[' :: (p ++ ']' :: (s' ++ ';' :: rest)) := by simp
    rw [e]
    exact head_of_spaces h1 (by decide)

theorem Graphviz.matchVertex_sound {t u : Text} {opts : Option Text} (h : matchVertex t = some (u, opts)) : DotVertexLine isSpace u opts t := by
  unfold matchVertex at h
  cases h1 : scanId t with
  | none => rw [h1] at h; cases h
  | some x =>
    obtain ⟨u', t'⟩ := x
    rw [h1] at h
    simp only [Option.bind_eq_bind, Option.bind_some] at h
    cases h2 : scanOpts t' with
    | none => rw [h2] at h; cases h
    | some o =>
      rw [h2] at h
      cases h
      obtain ⟨h3, h4, _⟩ := (scanId_iff _ _ _).mp h1
      exact ⟨h3, t', h4, scanOpts_sound h2⟩

theorem Graphviz.matchVertex_complete {t u : Text} {opts : Option Text} (h : DotVertexLine isSpace u opts t) : ∃ o, matchVertex t = some (u, o) := by
  obtain ⟨h1, t', rfl, h2⟩ := h
  obtain ⟨o, ho⟩ := scanOpts_complete h2
  refine ⟨o, ?_⟩
  unfold matchVertex
  rw [(scanId_iff (u ++ t') u t').mpr ⟨h1, rfl, tail_head h2⟩]
  simp only [Option.bind_eq_bind, Option.bind_some, ho]

theorem Graphviz.matchEdge_sound {t u v : Text} {opts : Option Text} (h : matchEdge t = some (u, v, opts)) : DotEdgeLine isSpace u v opts t := by
  unfold matchEdge at h
  cases h1 : scanId t with
  | none => rw [h1] at h; cases h
  | some x =>
    obtain ⟨u', t'⟩ := x
    rw [h1] at h
    simp only [Option.bind_eq_bind, Option.bind_some] at h
    obtain ⟨s, hs1, hs2, _⟩ := dropWhile_split isSpace t'
    split at h
    · rename_i t2 ht2
      obtain ⟨s', hs1', hs2', _⟩ := dropWhile_split isSpace t2
      cases h2 : scanId (t2.dropWhile isSpace) with
      | none => rw [h2] at h; cases h
      | some y =>
        obtain ⟨v', t3⟩ := y
        rw [h2] at h
        simp only [Option.bind_some] at h
        cases h3 : scanOpts t3 with
        | none => rw [h3] at h; cases h
        | some o =>
          rw [h3] at h
          cases h
          obtain ⟨h4, h5, _⟩ := (scanId_iff _ _ _).mp h1
          obtain ⟨h6, h7, _⟩ := (scanId_iff _ _ _).mp h2
          refine ⟨h4, h6, s, s', t3, hs2, hs2', ?_, scanOpts_sound h3⟩
          rw [h5, hs1, ht2, hs1', h7]
          simp [dropWhile_spaces hs2', ← h7]
    · cases h

theorem Graphviz.matchEdge_complete {t u v : Text} {opts : Option Text} (h : DotEdgeLine isSpace u v opts t) : ∃ o, matchEdge t = some (u, v, o) := by
  obtain ⟨h1, h2, s, s', t', h3, h4, rfl, h5⟩ := h
  obtain ⟨o, ho⟩ := scanOpts_complete h5
  refine ⟨o, ?_⟩
  unfold matchEdge
  rw [List.append_assoc, (scanId_iff (u ++ (s ++ '-' :: '>' :: (s' ++ v ++ t'))) u _).mpr ⟨h1, rfl, head_of_spaces h3 (by decide)⟩]
  simp only [Option.bind_eq_bind, Option.bind_some]
  rw [dropWhile_spaces h3, List.dropWhile_cons_of_neg (by decide)]
  simp only
  have e : (s' ++ v ++ t').dropWhile isSpace = v ++ t' := by
    rw [List.append_assoc, dropWhile_spaces h4]
    apply dropWhile_of_head
    obtain ⟨hne, hv⟩ := (dotId_iff v).mp h2
    intro c hc
    cases v with
    | nil => exact absurd rfl hne
    | cons d v =>
      simp at hc
      rw [← hc]; exact isSpace_of_isDig (hv d (by simp))
  rw [e, (scanId_iff (v ++ t') v t').mpr ⟨h2, rfl, tail_head h5⟩]
  simp only [Option.bind_some, ho]

theorem Graphviz.strip_spec (t : Text) :
    ∃ s s', t = s ++ strip t ++ s' ∧ (∀ c ∈ s, isSpace c = true) ∧ (∀ c ∈ s', isSpace c = true) ∧
      (∀ c, (strip t).head? = some c → isSpace c = false) ∧ ∀ c, (strip t).getLast? = some c → isSpace c = false := by
  obtain ⟨s, h1, h2, h3⟩ := dropWhile_split isSpace t
  obtain ⟨s', h4, h5, h6⟩ := dropWhile_split isSpace (t.dropWhile isSpace).reverse
  have e : t.dropWhile isSpace = strip t ++ s'.reverse := by
    have := congrArg List.reverse h4
    rw [List.reverse_reverse, List.reverse_append] at this
    exact this
  refine ⟨s, s'.reverse, by rw [List.append_assoc, ← e]; exact h1, h2, fun c hc => h5 c (by simpa using hc), fun c hc => h3 c ?_, fun c hc => h6 c ?_⟩
  · rw [e]
    cases hs : strip t with
    | nil => rw [hs] at hc; cases hc
    | cons d l => rw [hs] at hc; exact hc
  · unfold strip at hc
    rw [List.getLast?_reverse] at hc
    exact hc

theorem Graphviz.isSpace_eq : isSpace = White := by
  funext c
  rw [Bool.eq_iff_iff]
  simp only [isSpace, White, whiteCodes, Bool.or_eq_true, Bool.and_eq_true, decide_eq_true_eq, List.contains_iff_mem, List.mem_cons, List.not_mem_nil, or_false]
  omega

/-- **C90** (lines): each line gives one notification, carrying the line without the white space around it; the notification is that of a vertex,
or of an edge, exactly if the line starts with such a statement, and it gives the identifiers and the attributes written there. -/
theorem C90_lines (line : Text) :
    ∃ s s' t, line = s ++ t ++ s' ∧ (∀ c ∈ s, White c = true) ∧ (∀ c ∈ s', White c = true) ∧
      (∀ c, t.head? = some c → White c = false) ∧ (∀ c, t.getLast? = some c → White c = false) ∧
      ((∃ u opts, DotVertexLine White u opts t ∧ readLine line = .vertex t u opts) ∨
       ((¬ ∃ u opts, DotVertexLine White u opts t) ∧ ∃ u v opts, DotEdgeLine White u v opts t ∧ readLine line = .edge t u v opts) ∨
       ((¬ ∃ u opts, DotVertexLine White u opts t) ∧ (¬ ∃ u v opts, DotEdgeLine White u v opts t) ∧ readLine line = .other t)) := by
  rw [← isSpace_eq]
  obtain ⟨s, s', h1, h2, h3, h4, h5⟩ := strip_spec line
  refine ⟨s, s', strip line, h1, h2, h3, h4, h5, ?_⟩
  unfold readLine
  simp only
  cases hv : matchVertex (strip line) with
  | some x =>
    obtain ⟨u, opts⟩ := x
    exact .inl ⟨u, opts, matchVertex_sound hv, rfl⟩
  | none =>
    have hnv : ¬ ∃ u opts, DotVertexLine isSpace u opts (strip line) := by
      rintro ⟨u, opts, h⟩
      obtain ⟨o, ho⟩ := matchVertex_complete h
      rw [hv] at ho; cases ho
    cases he : matchEdge (strip line) with
    | some x =>
      obtain ⟨u, v, opts⟩ := x
      exact .inr (.inl ⟨hnv, u, v, opts, matchEdge_sound he, rfl⟩)
    | none =>
      refine .inr (.inr ⟨hnv, ?_, rfl⟩)
      rintro ⟨u, v, opts, h⟩
      obtain ⟨o, ho⟩ := matchEdge_complete h
      rw [he] at ho; cases ho

theorem Graphviz.strip_white {s s' : Text} (t : Text) (hs : ∀ c ∈ s, isSpace c = true) (hs' : ∀ c ∈ s', isSpace c = true) :
    strip (s ++ t ++ s') = strip t := by
  have key : ∀ (u v : Text), (∀ c ∈ u, isSpace c = true) → (u ++ v).dropWhile isSpace = v.dropWhile isSpace := by
    intro u v hu
    induction u with
    | nil => rfl
    | cons c u ih => rw [List.cons_append, List.dropWhile_cons_of_pos (hu c (by simp)), ih (fun d hd => hu d (by simp [hd]))]
  have key2 : ∀ (v u : Text), (∀ c ∈ u, isSpace c = true) →
      ((v ++ u).dropWhile isSpace).reverse.dropWhile isSpace = (v.dropWhile isSpace).reverse.dropWhile isSpace := by
    intro v u hu
    induction v with
    | nil =>
      have : u.dropWhile isSpace = [] := by have := key u [] hu; simpa using this
      rw [List.nil_append, this]; rfl
    | cons c v ih =>
      by_cases hc : isSpace c = true
      · rw [List.cons_append, List.dropWhile_cons_of_pos hc, List.dropWhile_cons_of_pos hc, ih]
      · rw [List.cons_append, List.dropWhile_cons_of_neg hc, List.dropWhile_cons_of_neg hc, ← List.cons_append, List.reverse_append,
          key _ _ (fun d hd => hu d (List.mem_reverse.1 hd))]
  unfold strip
  rw [List.append_assoc, key _ _ hs, key2 _ _ hs']

/-- **C90** (white space): white space around a line changes nothing. -/
theorem C90_white {s s' : Text} (line : Text) (hs : ∀ c ∈ s, White c = true) (hs' : ∀ c ∈ s', White c = true) :
    readLine (s ++ line ++ s') = readLine line := by
  rw [← isSpace_eq] at hs hs'
  unfold readLine
  rw [strip_white line hs hs']

example : White '\u200a' = true ∧ White '\u200b' = false ∧ White '\t' = true := by decide

example : readLine [' ', '1', ' ', '[', 'a', ']', 'b', ']', ';', ' '] =
    .vertex ['1', ' ', '[', 'a', ']', 'b', ']', ';'] ['1'] (some ['[', 'a', ']', 'b', ']']) := by decide
example : readLine ['1', ' ', '[', 'a', ']', ' ', 'b'] = .other ['1', ' ', '[', 'a', ']', ' ', 'b'] := by decide
example : readLine ['1', '-', '>', ' ', '2', ';'] = .edge ['1', '-', '>', ' ', '2', ';'] ['1'] ['2'] none := by decide

end PyBGL
