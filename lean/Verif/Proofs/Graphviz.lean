import Verif.Model.Graphviz
import Verif.Proofs.GraphLemmas
import Verif.Proofs.PyLemmas
import Mathlib.Data.List.Nodup

/-!
# Reading back what `to_dot` writes
-/

namespace PyBGL
namespace Graphviz

theorem isDig_strNat {u : Nat} {c : Char} (h : c ∈ strNat u) : isDig c = true := by
  have := Nat.isDigit_of_mem_toDigits (by decide) (by decide) h
  simp only [Char.isDigit, Bool.and_eq_true, decide_eq_true_eq] at this
  simp only [isDig, Bool.and_eq_true, decide_eq_true_eq]
  exact ⟨this.1, this.2⟩

theorem strNat_ne_nil (u : Nat) : strNat u ≠ [] := Nat.toDigits_ne_nil

theorem strNat_inj {u v : Nat} (h : strNat u = strNat v) : u = v := by
  have h1 := Nat.ofDigitChars_toDigits (b := 10) (n := u) (by decide) (by decide)
  have h2 := Nat.ofDigitChars_toDigits (b := 10) (n := v) (by decide) (by decide)
  unfold strNat at h
  rw [h] at h1
  rw [← h1, h2]

theorem isDig_toNat {c : Char} (h : isDig c = true) : 48 ≤ c.toNat ∧ c.toNat ≤ 57 := by
  simp only [isDig, Bool.and_eq_true, decide_eq_true_eq] at h
  obtain ⟨h1, h2⟩ := h
  rw [Char.le_def, UInt32.le_iff_toNat_le] at h1 h2
  exact ⟨h1, h2⟩

theorem isSpace_of_isDig {c : Char} (h : isDig c = true) : isSpace c = false := by
  have := isDig_toNat h
  generalize hn : c.toNat = n at *
  simp only [isSpace, hn, List.mem_cons, List.not_mem_nil, or_false, Bool.or_eq_false_iff, decide_eq_false_iff_not,
    Bool.and_eq_false_iff]
  constructor
  · omega
  · omega

theorem isBreak_of_isDig {c : Char} (h : isDig c = true) : isBreak c = false := by
  have := isDig_toNat h
  generalize hn : c.toNat = n at *
  simp only [isBreak, hn, List.mem_cons, List.not_mem_nil, or_false, decide_eq_false_iff_not]
  omega

/-- No line boundary in the text. -/
def OneLine (t : Text) : Prop := ∀ c ∈ t, isBreak c = false

instance (t : Text) : Decidable (OneLine t) := inferInstanceAs (Decidable (∀ c ∈ t, isBreak c = false))

theorem OneLine.append {s t : Text} (hs : OneLine s) (ht : OneLine t) : OneLine (s ++ t) := by
  intro c hc
  rcases List.mem_append.1 hc with h | h
  · exact hs c h
  · exact ht c h

theorem OneLine.of_append {s t : Text} (h : OneLine (s ++ t)) : OneLine s ∧ OneLine t :=
  ⟨fun c hc => h c (by simp [hc]), fun c hc => h c (by simp [hc])⟩

theorem splitlinesAux_line {l : Text} (hl : OneLine l) (cur t : Text) :
    splitlinesAux cur (l ++ '\n' :: t) = (cur.reverse ++ l) :: splitlinesAux [] t := by
  induction l generalizing cur with
  | nil =>
    rw [List.nil_append, splitlinesAux]
    · simp only [show isBreak '\n' = true from by decide, if_true]
      simp
    · simp
  | cons c l ih =>
    have hc : isBreak c = false := hl c (by simp)
    rw [List.cons_append, splitlinesAux]
    · simp only [hc, Bool.false_eq_true, if_false]
      rw [ih (fun x hx => hl x (by simp [hx]))]
      simp
    · rintro _ rfl; exact absurd hc (by decide)

theorem splitlinesAux_last {l : Text} (hl : OneLine l) (cur : Text) :
    splitlinesAux cur l = if cur.reverse ++ l = [] then [] else [cur.reverse ++ l] := by
  induction l generalizing cur with
  | nil => simp [splitlinesAux]
  | cons c l ih =>
    have hc : isBreak c = false := hl c (by simp)
    rw [splitlinesAux]
    · simp only [hc, Bool.false_eq_true, if_false]
      rw [ih (fun x hx => hl x (by simp [hx]))]
      simp
    · rintro _ rfl; exact absurd hc (by decide)

theorem splitlines_join {t : Text} : ∀ (ls : List Text), (∀ l ∈ ls, OneLine l) → OneLine t → t ≠ [] →
    splitlines (ls.flatMap (fun l => l ++ ['\n']) ++ t) = ls ++ [t]
  | [], _, ht, hne => by
    unfold splitlines
    rw [List.flatMap_nil, List.nil_append, splitlinesAux_last ht]
    simp [hne]
  | l :: ls, hl, ht, hne => by
    have ih := splitlines_join ls (fun x hx => hl x (by simp [hx])) ht hne
    unfold splitlines at ih ⊢
    rw [List.flatMap_cons, List.append_assoc, List.append_assoc, List.singleton_append,
      splitlinesAux_line (hl l (by simp)), ih]
    simp

/-- The lines written by `to_dot`. -/
def line (i : Text) : Text := [' ', ' '] ++ i ++ [';']

theorem join_lines : ∀ (is : List Text), is ≠ [] →
    ['\n', ' ', ' '] ++ join [';', '\n', ' ', ' '] is ++ [';', '\n'] = '\n' :: (is.map line).flatMap (fun l => l ++ ['\n'])
  | [i], _ => by simp [join, line]
  | i :: j :: is, _ => by
    have ih := join_lines (j :: is) (by simp)
    rw [join]
    · simp only [List.map_cons, List.flatMap_cons] at ih ⊢
      have : ['\n', ' ', ' '] ++ (i ++ [';', '\n', ' ', ' '] ++ join [';', '\n', ' ', ' '] (j :: is)) ++ [';', '\n'] =
          '\n' :: (line i ++ (['\n', ' ', ' '] ++ join [';', '\n', ' ', ' '] (j :: is) ++ [';', '\n'])) := by
        simp [line]
      rw [this, ih]
      simp
    · simp

/-- The lines of the output of `to_dot`. -/
theorem splitlines_toDot {L : Type} (directed : Bool) (tags : Text → List (Nat × Nat)) (s : Style) (o : Opts)
    (dpv : List (Prop' Nat)) (dpe : List (Prop' (EdgeDesc L))) (vs : List Nat) (es : List (EdgeDesc L))
    (is : List Text) (his : headers s o ++ vs.map (vertexToGraphviz tags dpv) ++ es.map (edgeToGraphviz directed tags dpe) = is)
    (h1 : ∀ i ∈ is, OneLine i) (hne : is ≠ []) :
    splitlines (toDot directed tags s o dpv dpe vs es) =
      (gtype directed ++ [' ', 'G', ' ', '{']) :: is.map line ++ [['}']] := by
  unfold toDot
  simp only [his, if_neg hne]
  rw [join_lines is hne]
  have : gtype directed ++ [' ', 'G', ' ', '{'] ++ ('\n' :: (is.map line).flatMap (fun l => l ++ ['\n'])) ++ ['}'] =
      (((gtype directed ++ [' ', 'G', ' ', '{']) :: is.map line).flatMap (fun l => l ++ ['\n'])) ++ ['}'] := by simp
  rw [this]
  apply splitlines_join
  · intro l hl
    rcases List.mem_cons.1 hl with rfl | hl
    · cases directed <;> decide
    · obtain ⟨i, hi, rfl⟩ := List.mem_map.1 hl
      exact OneLine.append (OneLine.append (by decide) (h1 i hi)) (by decide)
  · decide
  · decide

theorem dropWhile_of_head {p : Char → Bool} {t : Text} (h : ∀ c, t.head? = some c → p c = false) : t.dropWhile p = t := by
  cases t with
  | nil => rfl
  | cons c t => rw [List.dropWhile_cons, if_neg (by simp [h c rfl])]

theorem strip_line (i : Text) : strip (line i) = i.dropWhile isSpace ++ [';'] := by
  unfold strip line
  have h1 : ([' ', ' '] ++ i ++ [';']).dropWhile isSpace = i.dropWhile isSpace ++ [';'] := by
    rw [List.append_assoc, List.cons_append, List.dropWhile_cons_of_pos (by decide), List.cons_append,
      List.dropWhile_cons_of_pos (by decide), List.nil_append]
    induction i with
    | nil => decide
    | cons c i ih =>
      rw [List.cons_append]
      by_cases hc : isSpace c = true
      · rw [List.dropWhile_cons_of_pos hc, List.dropWhile_cons_of_pos hc, ih]
      · rw [List.dropWhile_cons_of_neg hc, List.dropWhile_cons_of_neg hc, List.cons_append]
  rw [h1, List.reverse_append, List.reverse_singleton, List.singleton_append,
    List.dropWhile_cons_of_neg (by decide), List.reverse_cons, List.reverse_reverse]

theorem scanId_strNat (u : Nat) {t : Text} (h : ∀ c, t.head? = some c → isDig c = false) :
    scanId (strNat u ++ t) = some (strNat u, t) := by
  have h1 : ∀ l : Text, (∀ c ∈ l, isDig c = true) → (l ++ t).takeWhile isDig = l ∧ (l ++ t).dropWhile isDig = t := by
    intro l hl
    induction l with
    | nil =>
      cases t with
      | nil => exact ⟨rfl, rfl⟩
      | cons c t =>
        have : isDig c = false := h c rfl
        simp [this]
    | cons c l ih =>
      have hc := hl c (by simp)
      obtain ⟨a, b⟩ := ih (fun x hx => hl x (by simp [hx]))
      simp [hc, a, b]
  obtain ⟨a, b⟩ := h1 _ (fun c hc => isDig_strNat hc)
  unfold scanId
  rw [a, b, if_neg (strNat_ne_nil u)]

theorem scanId_none {t : Text} (h : ∀ c, t.head? = some c → isDig c = false) : scanId t = none := by
  unfold scanId
  cases t with
  | nil => rfl
  | cons c t => simp [h c rfl]

theorem closeOpts_spec {b : Text} (hb : OneLine b) : closeOpts (b ++ [']', ';']) = some b := by
  induction b with
  | nil => decide
  | cons c b ih =>
    have hc : c ≠ '\n' := by
      rintro rfl
      have := hb '\n' (by simp)
      exact absurd this (by decide)
    rw [List.cons_append, closeOpts, if_neg hc, ih (fun x hx => hb x (by simp [hx]))]

/-- What the reader gives as options: `None` when no property map was given. -/
def optsOf (props : Text) : Option Text := if props = [] then none else some props

theorem scanOpts_spec {X : Type} (tags : Text → List (Nat × Nat)) (x : X) (dpx : List (Prop' X))
    (h : OneLine (propertiesToStr tags x dpx)) :
    scanOpts (' ' :: propertiesToStr tags x dpx ++ [';']) = some (optsOf (propertiesToStr tags x dpx)) := by
  unfold scanOpts optsOf
  rw [List.cons_append, List.dropWhile_cons_of_pos (by decide)]
  by_cases hd : dpx = []
  · simp only [propertiesToStr, hd, if_true]
    decide
  · have he : ∃ b, propertiesToStr tags x dpx = '[' :: b ++ [']'] := by
      unfold propertiesToStr
      rw [if_neg hd]
      exact ⟨_, rfl⟩
    obtain ⟨b, hb⟩ := he
    rw [hb] at h ⊢
    have hbl : OneLine b := fun c hc => h c (by simp [hc])
    have e1 : ('[' :: b ++ [']'] ++ [';']) = '[' :: (b ++ [']', ';']) := by simp
    rw [e1, List.dropWhile_cons_of_neg (by decide)]
    simp only [closeOpts_spec hbl]
    simp

theorem dropWhile_strNat (u : Nat) (t : Text) : (strNat u ++ t).dropWhile isSpace = strNat u ++ t := by
  apply dropWhile_of_head
  intro c hc
  obtain ⟨d, l, hl⟩ := List.exists_cons_of_ne_nil (strNat_ne_nil u)
  rw [hl] at hc
  simp only [List.cons_append, List.head?_cons, Option.some.injEq] at hc
  subst hc
  exact isSpace_of_isDig (isDig_strNat (u := u) (by rw [hl]; simp))

theorem readLine_vertex (tags : Text → List (Nat × Nat)) (dpv : List (Prop' Nat)) (u : Nat)
    (h : OneLine (propertiesToStr tags u dpv)) :
    readLine (line (vertexToGraphviz tags dpv u)) =
      .vertex (vertexToGraphviz tags dpv u ++ [';']) (strNat u) (optsOf (propertiesToStr tags u dpv)) := by
  have hs : strip (line (vertexToGraphviz tags dpv u)) = vertexToGraphviz tags dpv u ++ [';'] := by
    rw [strip_line, vertexToGraphviz, join, join, List.append_assoc, dropWhile_strNat]
    simp
  have hv : vertexToGraphviz tags dpv u ++ [';'] = strNat u ++ (' ' :: propertiesToStr tags u dpv ++ [';']) := by
    simp [vertexToGraphviz, join]
  have hm : matchVertex (vertexToGraphviz tags dpv u ++ [';']) = some (strNat u, optsOf (propertiesToStr tags u dpv)) := by
    rw [hv]
    unfold matchVertex
    rw [scanId_strNat u (by intro c hc; simp at hc; subst hc; decide)]
    simp only [Option.bind_eq_bind, Option.bind_some]
    rw [scanOpts_spec tags u dpv h]
    rfl
  unfold readLine
  simp only [hs, hm]

theorem scanOpts_arc (directed : Bool) (t : Text) : scanOpts (' ' :: (arc directed ++ t)) = none := by
  have : ∃ c, arc directed = ['-', c] ∧ True := by cases directed <;> exact ⟨_, rfl, trivial⟩
  obtain ⟨c, hc, _⟩ := this
  rw [hc]
  unfold scanOpts
  rw [List.dropWhile_cons_of_pos (by decide), List.cons_append, List.dropWhile_cons_of_neg (by decide)]
  unfold semi
  split
  · rename_i h; simp at h
  · rw [List.dropWhile_cons_of_neg (by decide)]
    simp

theorem edge_text {L : Type} (directed : Bool) (tags : Text → List (Nat × Nat)) (dpe : List (Prop' (EdgeDesc L))) (e : EdgeDesc L) :
    edgeToGraphviz directed tags dpe e ++ [';'] =
      strNat e.source ++ (' ' :: (arc directed ++ (' ' :: (strNat e.target ++ (' ' :: propertiesToStr tags e dpe ++ [';']))))) := by
  simp [edgeToGraphviz, join]

theorem matchVertex_edge {L : Type} (directed : Bool) (tags : Text → List (Nat × Nat)) (dpe : List (Prop' (EdgeDesc L)))
    (e : EdgeDesc L) : matchVertex (edgeToGraphviz directed tags dpe e ++ [';']) = none := by
  rw [edge_text]
  unfold matchVertex
  rw [scanId_strNat _ (by intro c hc; simp at hc; subst hc; decide)]
  simp only [Option.bind_eq_bind, Option.bind_some, scanOpts_arc, Option.bind_none]

theorem strip_edge {L : Type} (directed : Bool) (tags : Text → List (Nat × Nat)) (dpe : List (Prop' (EdgeDesc L)))
    (e : EdgeDesc L) : strip (line (edgeToGraphviz directed tags dpe e)) = edgeToGraphviz directed tags dpe e ++ [';'] := by
  rw [strip_line, edgeToGraphviz, join, List.append_assoc, dropWhile_strNat]
  simp

theorem readLine_edge {L : Type} (tags : Text → List (Nat × Nat)) (dpe : List (Prop' (EdgeDesc L))) (e : EdgeDesc L)
    (h : OneLine (propertiesToStr tags e dpe)) :
    readLine (line (edgeToGraphviz true tags dpe e)) =
      .edge (edgeToGraphviz true tags dpe e ++ [';']) (strNat e.source) (strNat e.target)
        (optsOf (propertiesToStr tags e dpe)) := by
  have hm : matchEdge (edgeToGraphviz true tags dpe e ++ [';']) =
      some (strNat e.source, strNat e.target, optsOf (propertiesToStr tags e dpe)) := by
    rw [edge_text]
    unfold matchEdge
    rw [scanId_strNat _ (by intro c hc; simp at hc; subst hc; decide)]
    simp only [Option.bind_eq_bind, Option.bind_some]
    rw [List.dropWhile_cons_of_pos (by decide)]
    simp only [arc, if_true, List.cons_append, List.nil_append]
    rw [List.dropWhile_cons_of_neg (by decide)]
    simp only
    rw [List.dropWhile_cons_of_pos (by decide), dropWhile_strNat,
      scanId_strNat _ (by intro c hc; simp at hc; subst hc; decide)]
    simp only [Option.bind_some]
    have := scanOpts_spec tags e dpe h
    simp only [List.cons_append] at this
    rw [this]
    rfl
  unfold readLine
  simp only [strip_edge, matchVertex_edge, hm]

theorem readLine_undirected {L : Type} (tags : Text → List (Nat × Nat)) (dpe : List (Prop' (EdgeDesc L))) (e : EdgeDesc L) :
    readLine (line (edgeToGraphviz false tags dpe e)) = .other (edgeToGraphviz false tags dpe e ++ [';']) := by
  have hm : matchEdge (edgeToGraphviz false tags dpe e ++ [';']) = none := by
    rw [edge_text]
    unfold matchEdge
    rw [scanId_strNat _ (by intro c hc; simp at hc; subst hc; decide)]
    simp only [Option.bind_eq_bind, Option.bind_some]
    rw [List.dropWhile_cons_of_pos (by decide)]
    simp only [arc, Bool.false_eq_true, if_false, List.cons_append, List.nil_append]
    rw [List.dropWhile_cons_of_neg (by decide)]
    split
    · rename_i h; simp at h
    · rfl
  unfold readLine
  simp only [strip_edge, matchVertex_edge, hm]

theorem readLine_other {i : Text} (h : ∀ c, (i.dropWhile isSpace).head? = some c → isDig c = false) :
    readLine (line i) = .other (i.dropWhile isSpace ++ [';']) := by
  have h1 : scanId (i.dropWhile isSpace ++ [';']) = none := by
    apply scanId_none
    intro c hc
    cases hd : i.dropWhile isSpace with
    | nil => rw [hd] at hc; simp at hc; subst hc; decide
    | cons d l =>
      rw [hd] at hc h
      simp only [List.cons_append, List.head?_cons, Option.some.injEq] at hc
      subst hc
      exact h _ rfl
  unfold readLine matchVertex matchEdge
  simp only [strip_line, h1, Option.bind_eq_bind, Option.bind_none]

end Graphviz
end PyBGL
