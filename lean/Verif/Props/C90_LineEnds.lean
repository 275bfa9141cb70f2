import Verif.Props.C90_Graphviz

/-!
# C90: the ends of lines of the text read by `read_graphviz`
-/

namespace PyBGL
open Graphviz

/-- The characters that end a line: line feed, vertical tab, form feed, carriage return, the separators U+001C to U+001E, U+0085, U+2028 and U+2029. -/
def LineEnd (c : Char) : Prop := c.toNat ∈ [10, 11, 12, 13, 28, 29, 30, 133, 8232, 8233]

/-- `Lines t ls`: the lines of `t` are `ls`. Each of them but the last ends with a carriage return followed by a line feed, or with one character; the last one may
be ended or not. -/
inductive Lines : Text → List Text → Prop
  | nil : Lines [] []
  | last {l : Text} (hne : l ≠ []) (hl : ∀ c ∈ l, ¬ LineEnd c) : Lines l [l]
  | crlf {l t : Text} {ls : List Text} (hl : ∀ c ∈ l, ¬ LineEnd c) (h : Lines t ls) : Lines (l ++ '\r' :: '\n' :: t) (l :: ls)
  | cons {l t : Text} {c : Char} {ls : List Text} (hl : ∀ c ∈ l, ¬ LineEnd c) (hc : LineEnd c) (hr : c = '\r' → t.head? ≠ some '\n') (h : Lines t ls) :
      Lines (l ++ c :: t) (l :: ls)

namespace Graphviz

theorem isBreak_iff (c : Char) : isBreak c = true ↔ LineEnd c := by
  unfold isBreak LineEnd
  exact decide_eq_true_iff

theorem splitlinesAux_skip {l : Text} (hl : ∀ c ∈ l, ¬ LineEnd c) (cur t : Text) : splitlinesAux cur (l ++ t) = splitlinesAux (l.reverse ++ cur) t := by
  induction l generalizing cur with
  | nil => rfl
  | cons c l ih =>
    have hc : isBreak c = false := by
      cases h : isBreak c with
      | false => rfl
      | true => exact absurd ((isBreak_iff c).mp h) (hl c (by simp))
    rw [List.cons_append, splitlinesAux.eq_def]
    simp only [hc, Bool.false_eq_true, if_false]
    rw [ih fun x hx => hl x (by simp [hx])]
    simp

theorem splitlinesAux_break (cur t : Text) {c : Char} (hc : LineEnd c) (hr : c = '\r' → t.head? ≠ some '\n') :
    splitlinesAux cur (c :: t) = cur.reverse :: splitlinesAux [] t := by
  rw [splitlinesAux.eq_def]
  simp only [(isBreak_iff c).mpr hc, if_true]
  split
  · rename_i t' _
    exact absurd rfl (hr rfl)
  · rfl

theorem splitlinesAux_crlf (cur t : Text) : splitlinesAux cur ('\r' :: '\n' :: t) = cur.reverse :: splitlinesAux [] t := by
  rw [splitlinesAux.eq_def]
  simp only [show isBreak '\r' = true by decide, if_true]

theorem lines_splitlines {t : Text} {ls : List Text} (h : Lines t ls) : splitlines t = ls := by
  unfold splitlines
  induction h with
  | nil => rfl
  | @last l hne hl =>
    have := splitlinesAux_skip hl [] []
    rw [List.append_nil] at this
    rw [this, splitlinesAux]
    simp [hne]
  | crlf hl _ ih => rw [splitlinesAux_skip hl, splitlinesAux_crlf, ih]; simp
  | cons hl hc hr _ ih => rw [splitlinesAux_skip hl, splitlinesAux_break _ _ hc hr, ih]; simp

theorem first_break (t : Text) : (∀ c ∈ t, ¬ LineEnd c) ∨ ∃ l c r, t = l ++ c :: r ∧ (∀ c ∈ l, ¬ LineEnd c) ∧ LineEnd c := by
  induction t with
  | nil => exact .inl (by simp)
  | cons c t ih =>
    by_cases hc : LineEnd c
    · exact .inr ⟨[], c, t, rfl, by simp, hc⟩
    · rcases ih with h | ⟨l, d, r, rfl, h1, h2⟩
      · exact .inl fun x hx => by
          rcases List.mem_cons.mp hx with rfl | hx
          · exact hc
          · exact h x hx
      · refine .inr ⟨c :: l, d, r, rfl, fun x hx => ?_, h2⟩
        rcases List.mem_cons.mp hx with rfl | hx
        · exact hc
        · exact h1 x hx

/-- Every text is a list of lines. -/
theorem exists_lines : ∀ (n : Nat) (t : Text), t.length ≤ n → ∃ ls, Lines t ls := by
  intro n
  induction n with
  | zero =>
    intro t ht
    cases t with
    | nil => exact ⟨[], .nil⟩
    | cons c t => simp at ht
  | succ n ih =>
    intro t ht
    rcases first_break t with hl | ⟨l, c, r, hsplit, hl, hc⟩
    · by_cases hne : t = []
      · subst hne; exact ⟨[], .nil⟩
      · exact ⟨[t], .last hne hl⟩
    · have hlen := congrArg List.length hsplit
      rw [List.length_append, List.length_cons] at hlen
      by_cases hr : c = '\r' ∧ r.head? = some '\n'
      · obtain ⟨rfl, hr⟩ := hr
        cases r with
        | nil => cases hr
        | cons d r =>
          cases hr
          rw [List.length_cons] at hlen
          obtain ⟨ls, h⟩ := ih r (by omega)
          exact ⟨l :: ls, hsplit ▸ .crlf hl h⟩
      · obtain ⟨ls, h⟩ := ih r (by omega)
        exact ⟨l :: ls, hsplit ▸ .cons hl hc (fun h1 h2 => hr ⟨h1, h2⟩) h⟩

theorem splitlines_iff (t : Text) (ls : List Text) : splitlines t = ls ↔ Lines t ls := by
  refine ⟨?_, lines_splitlines⟩
  rintro rfl
  obtain ⟨ls, h⟩ := exists_lines t.length t (Nat.le_refl _)
  exact (lines_splitlines h) ▸ h

/-- The text with other ends of lines: each line feed is replaced by `eol`. -/
def withEol (eol t : Text) : Text := t.flatMap fun c => if c = '\n' then eol else [c]

theorem withEol_append (eol s t : Text) : withEol eol (s ++ t) = withEol eol s ++ withEol eol t := List.flatMap_append

theorem withEol_line (eol : Text) {l : Text} (hl : ∀ c ∈ l, ¬ LineEnd c) : withEol eol l = l := by
  induction l with
  | nil => rfl
  | cons c l ih =>
    have : c ≠ '\n' := by rintro rfl; exact hl '\n' (by simp) (by unfold LineEnd; decide)
    have h2 := ih fun x hx => hl x (by simp [hx])
    unfold withEol at *
    rw [List.flatMap_cons, h2, if_neg this]
    rfl

theorem lines_withEol {t : Text} {ls : List Text} (h : Lines t ls) (hr : '\r' ∉ t) {eol : Text} (he : eol = ['\r', '\n'] ∨ eol = ['\r']) :
    Lines (withEol eol t) ls := by
  induction h with
  | nil => exact .nil
  | last hne hl => rw [withEol_line eol hl]; exact .last hne hl
  | crlf => simp at hr
  | @cons l t c ls hl hc hcr h ih =>
    have ih := ih fun h => hr (by simp [h])
    rw [withEol_append, withEol_line eol hl]
    have hcons : withEol eol (c :: t) = (if c = '\n' then eol else [c]) ++ withEol eol t := List.flatMap_cons
    rw [hcons]
    split
    · rcases he with rfl | rfl
      · exact .crlf hl ih
      · refine .cons hl (by unfold LineEnd; decide) (fun _ => ?_) ih
        -- no line feed remains
        intro hh
        have : '\n' ∈ withEol ['\r'] t := by
          cases hw : withEol ['\r'] t with
          | nil => rw [hw] at hh; cases hh
          | cons x r => rw [hw] at hh; cases hh; simp
        obtain ⟨x, _, hx⟩ := List.mem_flatMap.mp this
        split at hx <;> simp at hx
        rename_i hne
        exact hne hx.symm
    · exact .cons hl hc (fun h => absurd h fun h => hr (by simp [h])) ih

end Graphviz

/-- **C90** (lines): `read_graphviz` is notified of the lines of the text, and of nothing else. -/
theorem C90_lines_exact (t : Text) (ls : List Text) : Lines t ls ↔ readEvents t = ls.map readLine ∧ splitlines t = ls := by
  rw [splitlines_iff]
  refine ⟨fun h => ⟨?_, h⟩, And.right⟩
  unfold readEvents
  rw [lines_splitlines h]

/-- **C90** (ends of lines): a text that has been saved with the ends of lines of another system, carriage return and line feed or carriage return alone, is read as
the original one. -/
theorem C90_line_ends (addEdge : Graph → Nat → Nat → Except PyErr (EdgeDesc Nat × Graph)) {t : Text} (ht : '\r' ∉ t) {eol : Text}
    (he : eol = ['\r', '\n'] ∨ eol = ['\r']) (g : Graph) :
    readEvents (withEol eol t) = readEvents t ∧ readGraphviz addEdge (withEol eol t) g = readGraphviz addEdge t g := by
  obtain ⟨ls, h⟩ := exists_lines t.length t (Nat.le_refl _)
  have : readEvents (withEol eol t) = readEvents t := by
    unfold readEvents
    rw [lines_splitlines h, lines_splitlines (lines_withEol h ht he)]
  exact ⟨this, by unfold readGraphviz; rw [this]⟩

example : readGraphviz Graph.addEdge ['0', ';', '\r', '\n', '1', ';', '\r', '\n', '0', ' ', '-', '>', ' ', '1', ';', '\r', '\n'] .empty =
    readGraphviz Graph.addEdge ['0', ';', '\n', '1', ';', '\n', '0', ' ', '-', '>', ' ', '1', ';', '\n'] .empty :=
  (C90_line_ends Graph.addEdge (t := ['0', ';', '\n', '1', ';', '\n', '0', ' ', '-', '>', ' ', '1', ';', '\n']) (by decide) (.inl rfl) .empty).2

example : (readGraphviz Graph.addEdge ['0', ';', '\r', '\n', '1', ';', '\r', '\n', '0', ' ', '-', '>', ' ', '1', ';', '\r', '\n'] .empty).map Graph.edges =
    .ok [⟨0, 1, 0⟩] := by decide

end PyBGL
