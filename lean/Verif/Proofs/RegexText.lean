import Verif.Proofs.ShuntingYard
import Verif.Proofs.RegexBracket

/-!
# Tokenisation and evaluation of the text of a regular expression
-/

namespace PyBGL
namespace RegexText

/-! ## Tokens -/

/-- A character outside the matches, or a match. -/
inductive Piece where
  | chr (c : Char)
  | tok (m : List Char)

/-- The pieces of a text; the first `skip` characters belong to the previous match. -/
def pieces (C : ReClasses) : List Char → Nat → List Piece
  | [], _ => []
  | _ :: cs, skip + 1 => pieces C cs skip
  | c :: cs, 0 =>
    match matchAt C (c :: cs) with
    | some (n + 1) => .tok ((c :: cs).take (n + 1)) :: pieces C cs n
    | _ => .chr c :: pieces C cs 0

def catPiece (s : CatState) : Piece → CatState
  | .chr c => catChar s c
  | .tok m => catTok s m

theorem pieces_skip (C : ReClasses) : ∀ (u v : List Char), pieces C (u ++ v) u.length = pieces C v 0
  | [], v => rfl
  | c :: u, v => by
    simp only [List.cons_append, List.length_cons, pieces]
    exact pieces_skip C u v

theorem spans_skip (C : ReClasses) : ∀ (u v : List Char) (pos : Nat),
    spans C (u ++ v) pos u.length = spans C v (pos + u.length) 0
  | [], v, pos => rfl
  | c :: u, v, pos => by
    simp only [List.cons_append, List.length_cons, spans]
    rw [spans_skip C u v]
    congr 1; omega

theorem matchAt_le {C : ReClasses} {s : List Char} {n : Nat} (h : matchAt C s = some n) : 1 ≤ n ∧ n ≤ s.length := by
  unfold matchAt at h
  split at h
  · cases h
  · rename_i c cs
    have key : ∀ p : Char → Bool, (cs.takeWhile p).length < cs.length → 1 ≤ (cs.takeWhile p).length + 2 ∧
        (cs.takeWhile p).length + 2 ≤ (c :: cs).length := by
      intro p hp; simp only [List.length_cons]; omega
    split at h
    · cases h; simp
    · split at h
      · simp only at h
        split at h
        · rename_i hb; cases h; exact key _ hb.1
        · cases h
      · split at h
        · simp only at h
          split at h
          · rename_i hb; cases h; exact key _ hb
          · cases h
        · split at h
          · split at h
            · split at h
              · cases h; simp
              · cases h
            · cases h
          · cases h

theorem foldl_unmatched (s : CatState) (u : List Char) : u.foldl catChar s = (u.map Piece.chr).foldl catPiece s := by
  induction u generalizing s with
  | nil => rfl
  | cons c u ih => simp only [List.foldl_cons, List.map_cons, ih]; rfl

/-- What the visitor gathers, piece by piece. -/
theorem foldl_events (C : ReClasses) : ∀ (n : Nat) (v p u : List Char), v.length ≤ n → ∀ st : CatState,
    (tokenizeFrom (p ++ u ++ v) p.length (spans C v (p.length + u.length) 0)).foldl catEvent st =
      (u.map Piece.chr ++ pieces C v 0).foldl catPiece st := by
  intro n
  induction n with
  | zero =>
    intro v p u hv st
    have : v = [] := List.length_eq_zero_iff.1 (by omega)
    subst this
    simp only [spans, tokenizeFrom, pieces, List.append_nil, List.drop_left]
    cases u with
    | nil => rfl
    | cons c u =>
      simp only [List.isEmpty_cons, Bool.false_eq_true, if_false, List.foldl_cons, List.foldl_nil, catEvent]
      rw [← List.foldl_cons (f := catChar), foldl_unmatched]
  | succ n ih =>
    intro v p u hv st
    cases v with
    | nil => exact ih [] p u (by simp) st
    | cons c cs =>
      cases hm : matchAt C (c :: cs) with
      | none =>
        have := ih cs p (u ++ [c]) (by simp at hv; omega) st
        simp only [List.length_append, List.length_singleton, List.append_assoc, List.singleton_append, List.map_append,
          List.map_cons, List.map_nil, ← Nat.add_assoc] at this
        simp only [spans, hm, pieces, List.append_assoc]
        exact this
      | some k =>
        obtain ⟨h1, h2⟩ := matchAt_le hm
        obtain ⟨k, rfl⟩ : ∃ j, k = j + 1 := ⟨k - 1, by omega⟩
        simp only [List.length_cons, Nat.add_le_add_iff_right] at h2
        obtain ⟨x, y, hxy, hx⟩ : ∃ x y, cs = x ++ y ∧ x.length = k := ⟨cs.take k, cs.drop k, by simp, by simp; omega⟩
        subst hxy
        subst hx
        have := ih y (p ++ u ++ c :: x) [] (by simp at hv; omega)
        simp only [List.append_nil, List.length_append, List.length_cons, List.length_nil, Nat.add_zero, List.map_nil,
          List.nil_append] at this
        have e1 : slice (p ++ u ++ c :: (x ++ y)) p.length (p.length + u.length) = u := by
          rw [slice, show p.length + u.length = (p ++ u).length by simp, List.take_left, List.drop_left]
        have e2 : slice (p ++ u ++ c :: (x ++ y)) (p.length + u.length) (p.length + u.length + x.length + 1) = c :: x := by
          rw [slice, show p ++ u ++ c :: (x ++ y) = (p ++ u ++ c :: x) ++ y by simp,
            show p.length + u.length + x.length + 1 = (p ++ u ++ c :: x).length by simp; omega, List.take_left,
            show p.length + u.length = (p ++ u).length by simp, List.drop_left]
        simp only [spans, hm, pieces, tokenizeFrom, e1, e2, List.isEmpty_cons, Bool.false_eq_true, if_false, List.foldl_append,
          List.foldl_cons, List.foldl_nil, pieces_skip, spans_skip]
        have hs : (if u.isEmpty = true then ([] : List (TokenizeEvent Char)) else
            [.unmatched u p.length (some (p.length + u.length))]).foldl catEvent st = (u.map Piece.chr).foldl catPiece st := by
          cases u with
          | nil => rfl
          | cons c u =>
            simp only [List.isEmpty_cons, Bool.false_eq_true, if_false, List.foldl_cons, List.foldl_nil, catEvent]
            rw [← List.foldl_cons (f := catChar), foldl_unmatched]
        rw [hs]
        have ht := this (catTok ((u.map Piece.chr).foldl catPiece st) (c :: x))
        rw [show (c :: (x ++ y)).take (x.length + 1) = c :: x by
          rw [← List.cons_append, show x.length + 1 = (c :: x).length by simp, List.take_left]]
        simp only [catEvent, catPiece]
        rw [← ht]
        simp only [List.append_assoc, List.cons_append]
        have e3 : p.length + u.length + (x.length + 1) = p.length + u.length + x.length + 1 := by omega
        have e4 : p.length + u.length + 1 + x.length = p.length + u.length + x.length + 1 := by omega
        rw [e3, e4]

theorem tokenizerRe_eq (C : ReClasses) (s : List Char) :
    tokenizerRe C s = ((pieces C s 0).foldl catPiece {}).expression := by
  have := foldl_events C s.length s [] [] (Nat.le_refl _) {}
  simp only [List.nil_append, List.length_nil, Nat.add_zero, List.map_nil] at this
  rw [tokenizerRe, tokenize, this]

/-! ## The text of an expression -/

/-- The expression, with the concatenation operator. -/
def toInfix : ReText → Infix (List Char)
  | .lit c => .leaf [c]
  | .esc c => .leaf ['\\', c]
  | .bracket neg items => .leaf (classText neg items)
  | .group e => .paren (toInfix e)
  | .cat l r => .bin ['.'] (toInfix l) (toInfix r)
  | .alt l r => .bin ['|'] (toInfix l) (toInfix r)
  | .opt e => .post ['?'] (toInfix e)
  | .star e => .post ['*'] (toInfix e)
  | .plus e => .post ['+'] (toInfix e)
  | .rep f e => .imm f.text (toInfix e)

theorem pieces_match {C : ReClasses} {c : Char} {u v : List Char} (h : matchAt C (c :: (u ++ v)) = some (u.length + 1)) :
    pieces C (c :: (u ++ v)) 0 = .tok (c :: u) :: pieces C v 0 := by
  rw [pieces, h]
  simp only [pieces_skip]
  rw [show (c :: (u ++ v)).take (u.length + 1) = c :: u by
    rw [← List.cons_append, show u.length + 1 = (c :: u).length by simp, List.take_left]]

theorem pieces_single {C : ReClasses} {c : Char} {v : List Char} (h : c ∈ singles) :
    pieces C (c :: v) 0 = .tok [c] :: pieces C v 0 :=
  pieces_match (u := []) (by simp [matchAt, h])

theorem pieces_lit {C : ReClasses} {c : Char} {v : List Char} (h : c ∉ ['*', '+', '?', '.', '|', '(', ')', '[', '{', '\\']) :
    pieces C (c :: v) 0 = .chr c :: pieces C v 0 := by
  have : matchAt C (c :: v) = none := by
    simp only [List.mem_cons, List.not_mem_nil, or_false, not_or] at h
    simp [matchAt, singles, h]
  rw [pieces, this]

theorem takeWhile_until {d : Char} {body v : List Char} (h : d ∉ body) :
    (body ++ d :: v).takeWhile (· ≠ d) = body :=
  (takeWhile_stop (p := fun x => decide (x ≠ d)) (v := d :: v)
    (List.all_eq_true.2 fun x hx => by simp; rintro rfl; exact h hx) (by simp)).1

theorem pieces_class {C : ReClasses} {body v : List Char} (h : ']' ∉ body) :
    pieces C ('[' :: (body ++ [']'] ++ v)) 0 = .tok ('[' :: (body ++ [']'])) :: pieces C v 0 := by
  apply pieces_match
  have := takeWhile_until (v := v) h
  simp only [List.append_assoc, List.singleton_append, matchAt, this]
  simp [singles]

theorem pieces_rep {C : ReClasses} {body v : List Char} (hb : repContent C body = true) (h : '}' ∉ body) :
    pieces C ('{' :: (body ++ ['}'] ++ v)) 0 = .tok ('{' :: (body ++ ['}'])) :: pieces C v 0 := by
  apply pieces_match
  have := takeWhile_until (v := v) h
  simp only [List.append_assoc, List.singleton_append, matchAt, this, hb]
  simp [singles]

theorem pieces_esc {C : ReClasses} {c : Char} {v : List Char} (h : c ∈ escapes) :
    pieces C ('\\' :: c :: v) 0 = .tok ['\\', c] :: pieces C v 0 := by
  apply pieces_match (u := [c])
  have h' : c ∈ escapable := by revert c; simp only [escapes, escapable]; simp
  simp [matchAt, singles, h']

theorem not_mem_items : ∀ (items : List ReItem) (hat first : Bool), ItemsWF hat first items →
    ']' ∉ (items.map ReItem.text).flatten
  | [], _, _, _ => by simp
  | i :: is, hat, first, h => by
    have := not_mem_items is hat false h.2
    have hi := h.1
    simp only [List.map_cons, List.flatten_cons, List.mem_append, not_or]
    refine ⟨?_, this⟩
    cases i with
    | one c => simpa [ReItem.text] using fun h' : ']' = c => hi.1 h'.symm
    | range a b => simpa [ReItem.text] using ⟨fun h' : ']' = a => hi.1 h'.symm, fun h' : ']' = b => hi.2.2.2.2.1 h'.symm⟩
    | esc c => simpa [ReItem.text] using fun h' : ']' = c => hi.2 h'.symm

/-- The state after the text of an expression. -/
theorem foldl_text {C : ReClasses} (hC : C.Sound) : ∀ (e : ReText), e.WF C → ∀ (rest : List Char) (st : CatState),
    (pieces C (e.text ++ rest) 0).foldl catPiece st = (pieces C rest 0).foldl catPiece
      ⟨st.expression ++ (if st.needsCat then [['.']] else []) ++ (toInfix e).text reTable, true⟩ := by
  intro e
  induction e with
  | lit c =>
    intro h rest st
    simp only [ReText.text, List.singleton_append, pieces_lit h, List.foldl_cons]
    rfl
  | esc c =>
    intro h rest st
    simp only [ReText.text, List.cons_append, List.nil_append, pieces_esc h, List.foldl_cons]
    simp [catPiece, catTok, toInfix, Infix.text]
  | bracket neg items =>
    intro h rest st
    have hm : ']' ∉ (if neg then ['^'] else []) ++ (items.map ReItem.text).flatten := by
      have := not_mem_items items _ _ h.1
      cases neg <;> simp [this] <;> simpa using this
    have := pieces_class (C := C) (v := rest) hm
    simp only [ReText.text, List.cons_append, List.append_assoc] at this ⊢
    rw [this]
    simp [catPiece, catTok, toInfix, Infix.text, classText]
  | group e ih =>
    intro h rest st
    simp only [ReText.text, List.cons_append, List.append_assoc, List.singleton_append]
    rw [pieces_single (by simp [singles]), List.foldl_cons, ih h, List.nil_append, pieces_single (by simp [singles]), List.foldl_cons]
    simp [catPiece, catTok, toInfix, Infix.text, reTable]
  | cat l r ihl ihr =>
    intro h rest st
    simp only [ReText.text, List.append_assoc]
    rw [ihl h.1, ihr h.2]
    simp [toInfix, Infix.text]
  | alt l r ihl ihr =>
    intro h rest st
    simp only [ReText.text, List.append_assoc, List.cons_append]
    rw [ihl h.1, pieces_single (by simp [singles]), List.foldl_cons, ihr h.2]
    simp [catPiece, catTok, toInfix, Infix.text]
  | opt e ih =>
    intro h rest st
    simp only [ReText.text, List.append_assoc, List.cons_append, List.nil_append]
    rw [ih h, pieces_single (by simp [singles]), List.foldl_cons]
    simp [catPiece, catTok, toInfix, Infix.text]
  | star e ih =>
    intro h rest st
    simp only [ReText.text, List.append_assoc, List.cons_append, List.nil_append]
    rw [ih h, pieces_single (by simp [singles]), List.foldl_cons]
    simp [catPiece, catTok, toInfix, Infix.text]
  | plus e ih =>
    intro h rest st
    simp only [ReText.text, List.append_assoc, List.cons_append, List.nil_append]
    rw [ih h, pieces_single (by simp [singles]), List.foldl_cons]
    simp [catPiece, catTok, toInfix, Infix.text]
  | rep f e ih =>
    intro h rest st
    obtain ⟨body, h1, h2, h3⟩ := repContent_spec hC h.1
    have := pieces_rep (v := rest) h2 h3
    simp only [List.append_assoc] at this
    simp only [ReText.text, List.append_assoc, toInfix, Infix.text, h1, List.cons_append, List.nil_append]
    rw [ih h.2]
    simp only [List.singleton_append] at this
    rw [this]
    simp [catPiece, catTok]

/-- `tokenizer_re` yields the tokens of the expression, with the concatenation operators. -/
theorem tokenizerRe_text {C : ReClasses} (hC : C.Sound) {e : ReText} (h : e.WF C) :
    tokenizerRe C e.text = (toInfix e).text reTable := by
  have := foldl_text hC e h [] {}
  rw [List.append_nil] at this
  rw [tokenizerRe_eq, this]
  simp [pieces]

theorem infix_tokens (e : ReText) : (toInfix e).text reTable = e.tokens := by
  induction e with
  | lit c => rfl
  | esc c => rfl
  | bracket neg items => rfl
  | group e ih => simp [toInfix, Infix.text, ReText.tokens, ih]; exact ⟨rfl, rfl⟩
  | cat l r ihl ihr => simp [toInfix, Infix.text, ReText.tokens, ihl, ihr]
  | alt l r ihl ihr => simp [toInfix, Infix.text, ReText.tokens, ihl, ihr]
  | opt e ih => simp [toInfix, Infix.text, ReText.tokens, ih]
  | star e ih => simp [toInfix, Infix.text, ReText.tokens, ih]
  | plus e ih => simp [toInfix, Infix.text, ReText.tokens, ih]
  | rep f e ih => simp [toInfix, Infix.text, ReText.tokens, ih]

/-! ## No character is lost -/

/-- The text of a piece. -/
def Piece.text : Piece → List Char
  | .chr c => [c]
  | .tok m => m

theorem pieces_flatten (C : ReClasses) : ∀ (s : List Char) (skip : Nat),
    ((pieces C s skip).map Piece.text).flatten = s.drop skip
  | [], skip => by simp [pieces]
  | c :: cs, skip + 1 => by simp only [pieces, List.drop_succ_cons]; exact pieces_flatten C cs skip
  | c :: cs, 0 => by
    simp only [pieces]
    split
    · rename_i n h
      simp only [List.map_cons, List.flatten_cons, pieces_flatten C cs, Piece.text, List.take_succ_cons, List.cons_append,
        List.take_append_drop, List.drop_zero]
    · simp only [List.map_cons, List.flatten_cons, pieces_flatten C cs, Piece.text]; rfl

theorem pieces_ne (C : ReClasses) : ∀ (s : List Char) (skip : Nat), ∀ p ∈ pieces C s skip, p.text ≠ []
  | [], skip, p, h => by simp [pieces] at h
  | c :: cs, skip + 1, p, h => pieces_ne C cs skip p h
  | c :: cs, 0, p, h => by
    simp only [pieces] at h
    split at h
    · rcases List.mem_cons.1 h with rfl | h
      · simp [Piece.text]
      · exact pieces_ne C cs _ p h
    · rcases List.mem_cons.1 h with rfl | h
      · simp [Piece.text]
      · exact pieces_ne C cs _ p h

theorem catified_append {ts us : List (List Char)} {s u : List Char} (h : Catified ts s) (h' : Catified us u) :
    Catified (ts ++ us) (s ++ u) := by
  induction h with
  | nil => exact h'
  | keep t hne h ih => rw [List.cons_append, List.append_assoc]; exact .keep t hne ih
  | insert h ih => exact .insert ih

theorem catified_pieces : ∀ (ps : List Piece), (∀ p ∈ ps, p.text ≠ []) → ∀ (st : CatState) (s : List Char),
    Catified st.expression s → Catified (ps.foldl catPiece st).expression (s ++ (ps.map Piece.text).flatten)
  | [], _, st, s, h => by simpa using h
  | p :: ps, hne, st, s, h => by
    have : Catified (catPiece st p).expression (s ++ p.text) := by
      have hp := hne p List.mem_cons_self
      cases p with
      | chr c =>
        simp only [catPiece, catChar, List.append_assoc]
        refine catified_append h ?_
        split
        · exact .insert (.keep _ hp .nil)
        · exact .keep _ hp .nil
      | tok m =>
        have hm : Catified [m] m := by simpa using Catified.keep m hp .nil
        simp only [catPiece, catTok, List.append_assoc]
        refine catified_append h ?_
        split
        · exact .insert hm
        · exact hm
    have := catified_pieces ps (fun p hp => hne p (List.mem_cons_of_mem _ hp)) _ _ this
    simpa using this

/-! ## Precedences -/

theorem sane : reTable.Sane := ⟨by decide, by decide, by decide⟩

/-- A token which is neither an operator nor a parenthesis. -/
theorem not_op {t : List Char} (h : t.length ≠ 1) : reTable.ops.get? t = none ∧ t ≠ reTable.lpar ∧ t ≠ reTable.rpar := by
  refine ⟨?_, ?_, ?_⟩
  · have : ∀ c : Char, t ≠ [c] := by rintro c rfl; exact h rfl
    have this' : ∀ c : Char, [c] ≠ t := fun c h => this c h.symm
    simp [reTable, Dict.get?, this']
  · rintro rfl; exact h rfl
  · rintro rfl; exact h rfl

theorem toks {C : ReClasses} : ∀ (e : ReText), e.WF C → (toInfix e).Toks reTable := by
  intro e
  induction e with
  | lit c =>
    intro h
    simp only [ReText.WF, List.mem_cons, List.not_mem_nil, or_false, not_or] at h
    have h' : ∀ d : Char, (c ≠ d) = ¬ d = c := fun d => propext ⟨fun h e => h e.symm, fun h e => h e.symm⟩
    simp only [← ne_eq, h'] at h
    simp [toInfix, Infix.Toks, reTable, Dict.get?, h, eq_comm (a := c)]
  | esc c => intro h; exact not_op (by simp)
  | bracket neg items => intro h; exact not_op (by simp [classText])
  | group e ih => intro h; exact ih h
  | cat l r ihl ihr => intro h; exact ⟨by decide, ihl h.1, ihr h.2⟩
  | alt l r ihl ihr => intro h; exact ⟨by decide, ihl h.1, ihr h.2⟩
  | opt e ih => intro h; exact ⟨by decide, ih h⟩
  | star e ih => intro h; exact ⟨by decide, ih h⟩
  | plus e ih => intro h; exact ⟨by decide, ih h⟩
  | rep f e ih => intro h; exact ⟨not_op (by cases f <;> simp [RepForm.text] <;> omega), ih h.2⟩

/-- The main operators, by level. -/
theorem head_level : ∀ (e : ReText),
    (e.level = 0 ∧ (toInfix e).head? = some ['|']) ∨ (e.level = 1 ∧ (toInfix e).head? = some ['.']) ∨
    (e.level = 2 ∧ (toInfix e).head? = some ['?']) ∨ (e.level = 3 ∧ (toInfix e).head? = some ['*']) ∨
    (e.level = 3 ∧ (toInfix e).head? = some ['+']) ∨ (e.level = 4 ∧ (toInfix e).head? = none) := by
  intro e
  cases e <;> simp [ReText.level, toInfix, Infix.head?]

theorem enough : ∀ (e : ReText), e.Parens → (toInfix e).Enough reTable := by
  intro e
  induction e with
  | lit c => intro h; trivial
  | esc c => intro h; trivial
  | bracket neg items => intro h; trivial
  | group e ih => intro h; exact ih h
  | cat l r ihl ihr =>
    rintro ⟨h1, h2, h3, h4⟩
    refine ⟨ihl h1, ihr h2, fun o ho => ?_, fun o ho => ?_⟩
    · rcases head_level l with ⟨h, k⟩ | ⟨h, k⟩ | ⟨h, k⟩ | ⟨h, k⟩ | ⟨h, k⟩ | ⟨h, k⟩ <;> rw [k] at ho <;>
        first | omega | (cases ho; done) | (obtain rfl := Option.some.inj ho; decide)
    · rcases head_level r with ⟨h, k⟩ | ⟨h, k⟩ | ⟨h, k⟩ | ⟨h, k⟩ | ⟨h, k⟩ | ⟨h, k⟩ <;> rw [k] at ho <;>
        first | omega | (cases ho; done) | (obtain rfl := Option.some.inj ho; decide)
  | alt l r ihl ihr =>
    rintro ⟨h1, h2, h3⟩
    refine ⟨ihl h1, ihr h2, fun o ho => ?_, fun o ho => ?_⟩
    · rcases head_level l with ⟨h, k⟩ | ⟨h, k⟩ | ⟨h, k⟩ | ⟨h, k⟩ | ⟨h, k⟩ | ⟨h, k⟩ <;> rw [k] at ho <;>
        first | (cases ho; done) | (obtain rfl := Option.some.inj ho; decide)
    · rcases head_level r with ⟨h, k⟩ | ⟨h, k⟩ | ⟨h, k⟩ | ⟨h, k⟩ | ⟨h, k⟩ | ⟨h, k⟩ <;> rw [k] at ho <;>
        first | omega | (cases ho; done) | (obtain rfl := Option.some.inj ho; decide)
  | opt e ih =>
    rintro ⟨h1, h2⟩
    refine ⟨ih h1, fun o ho => ?_⟩
    rcases head_level e with ⟨h, k⟩ | ⟨h, k⟩ | ⟨h, k⟩ | ⟨h, k⟩ | ⟨h, k⟩ | ⟨h, k⟩ <;> rw [k] at ho <;>
        first | omega | (cases ho; done) | (obtain rfl := Option.some.inj ho; decide)
  | star e ih =>
    rintro ⟨h1, h2⟩
    refine ⟨ih h1, fun o ho => ?_⟩
    rcases head_level e with ⟨h, k⟩ | ⟨h, k⟩ | ⟨h, k⟩ | ⟨h, k⟩ | ⟨h, k⟩ | ⟨h, k⟩ <;> rw [k] at ho <;>
        first | omega | (cases ho; done) | (obtain rfl := Option.some.inj ho; decide)
  | plus e ih =>
    rintro ⟨h1, h2⟩
    refine ⟨ih h1, fun o ho => ?_⟩
    rcases head_level e with ⟨h, k⟩ | ⟨h, k⟩ | ⟨h, k⟩ | ⟨h, k⟩ | ⟨h, k⟩ | ⟨h, k⟩ <;> rw [k] at ho <;>
        first | omega | (cases ho; done) | (obtain rfl := Option.some.inj ho; decide)
  | rep f e ih =>
    rintro ⟨h1, h2⟩
    refine ⟨ih h1, ?_, (not_op (by cases f <;> simp [RepForm.text] <;> omega)).1⟩
    rcases head_level e with ⟨h, k⟩ | ⟨h, k⟩ | ⟨h, k⟩ | ⟨h, k⟩ | ⟨h, k⟩ | ⟨h, k⟩ <;> first | omega | exact k

/-! ## Evaluation -/

/-- The structure of a regular expression. -/
def erase : Regex Char → Regex Unit
  | .sym _ => .sym ()
  | .chars _ => .sym ()
  | .cat l r => .cat (erase l) (erase r)
  | .alt l r => .alt (erase l) (erase r)
  | .opt e => .opt (erase e)
  | .star e => .star (erase e)
  | .plus e => .plus (erase e)
  | .rep m n e => .rep m n (erase e)

theorem erase_preds : ∀ r : Regex Char, ((erase r).CleanStart ↔ r.CleanStart) ∧ ((erase r).CleanEnd ↔ r.CleanEnd) ∧
    ((erase r).StartsAtZero ↔ r.StartsAtZero) ∧ ((erase r).Skippable ↔ r.Skippable) ∧ ((erase r).Safe ↔ r.Safe) := by
  intro r
  induction r with
  | sym _ => simp [erase, Regex.CleanStart, Regex.CleanEnd, Regex.StartsAtZero, Regex.Skippable, Regex.Safe]
  | chars _ => simp [erase, Regex.CleanStart, Regex.CleanEnd, Regex.StartsAtZero, Regex.Skippable, Regex.Safe]
  | cat l r ihl ihr =>
    simp [erase, Regex.CleanStart, Regex.CleanEnd, Regex.StartsAtZero, Regex.Skippable, Regex.Safe, ihl, ihr]
  | alt l r ihl ihr =>
    simp [erase, Regex.CleanStart, Regex.CleanEnd, Regex.StartsAtZero, Regex.Skippable, Regex.Safe, ihl, ihr]
  | opt e ih => simp [erase, Regex.CleanStart, Regex.CleanEnd, Regex.StartsAtZero, Regex.Skippable, Regex.Safe, ih]
  | star e ih => simp [erase, Regex.CleanStart, Regex.CleanEnd, Regex.StartsAtZero, Regex.Skippable, Regex.Safe, ih]
  | plus e ih => simp [erase, Regex.CleanStart, Regex.CleanEnd, Regex.StartsAtZero, Regex.Skippable, Regex.Safe, ih]
  | rep m n e ih =>
    cases n <;> simp [erase, Regex.CleanStart, Regex.CleanEnd, Regex.StartsAtZero, Regex.Skippable, Regex.Safe, ih]

theorem pow_congr {L L' : List Char → Prop} (h : ∀ w, L w ↔ L' w) (k : Nat) (w : List Char) : Pow L k w ↔ Pow L' k w := by
  have : L = L' := funext fun w => propext (h w)
  rw [this]

/-- Each token is evaluated as in the postfix form of an abstract regular expression. -/
theorem evaluate {C : ReClasses} (hC : C.Sound) {order : List Char → List Char} (hord : ∀ l, (order l).Perm l)
    {wa S : List Char} (hS : S = alphabetOr wa) : ∀ (e : ReText), e.WF C → (S = defaultAlphabet ∨ e.NoNegEsc) →
    ∃ r : Regex Char, (∀ st, (toInfix e).expr.rpn.foldlM (onPushText C order wa) st =
      r.toPostfix.foldlM (Thompson.onPushOutput 'ε') st) ∧ (∀ w, r.Lang w ↔ e.Lang C S w) ∧ r.Ordered ∧ (¬ e.Symbol S 'ε' → r.Valid 'ε') ∧
      erase r = e.shape C ∧ r.toPostfix ≠ [] := by
  intro e
  induction e with
  | lit c =>
    intro h _
    simp only [ReText.WF, List.mem_cons, List.not_mem_nil, or_false, not_or] at h
    refine ⟨.sym c, fun st => ?_, fun w => Iff.rfl, trivial, fun hε hc => hε hc.symm, rfl, by simp [Regex.toPostfix]⟩
    simp only [toInfix, Infix.expr, Expr.rpn, Regex.toPostfix, List.foldlM_cons, List.foldlM_nil]
    simp [onPushText, h]
  | esc c =>
    intro h _
    obtain ⟨cs, h1, h2⟩ := parseEscaped_spec wa h
    refine ⟨.chars (order cs), fun st => ?_, fun w => ?_, trivial, fun hε => ?_, rfl, by simp [Regex.toPostfix]⟩
    · simp only [toInfix, Infix.expr, Expr.rpn, Regex.toPostfix, List.foldlM_cons, List.foldlM_nil]
      simp [onPushText, h1, ShuntingYard.ok_bind']
    · simp only [Regex.Lang, ReText.Lang, (hord cs).mem_iff, h2, hS]
    · simp only [Regex.Valid, (hord cs).mem_iff, h2, ← hS]; exact hε
  | bracket neg items =>
    intro h hn
    obtain ⟨cs, h1, h2⟩ := parseBracket_spec (wa := wa) hS h.1 h.2 hn
    refine ⟨.chars (order cs), fun st => ?_, fun w => ?_, trivial, fun hε => ?_, rfl, by simp [Regex.toPostfix]⟩
    · simp only [toInfix, Infix.expr, Expr.rpn, Regex.toPostfix, List.foldlM_cons, List.foldlM_nil]
      rw [classText] at h1
      simp [onPushText, classText, h1, ShuntingYard.ok_bind']
      simp at h1
      simp [h1, ShuntingYard.ok_bind']
    · cases neg <;> simp only [Regex.Lang, ReText.Lang, (hord cs).mem_iff, h2, ItemsMem] <;> simp
    · cases neg <;> simp only [Regex.Valid, (hord cs).mem_iff, h2] <;> simpa [ItemsMem, ReText.Symbol] using hε
  | group e ih => intro h hn; exact ih h hn
  | cat l r ihl ihr =>
    intro h hn
    obtain ⟨r₁, a1, a2, a0, a3, a4, a5⟩ := ihl h.1 (hn.imp id (·.1))
    obtain ⟨r₂, b1, b2, b0, b3, b4, b5⟩ := ihr h.2 (hn.imp id (·.2))
    refine ⟨.cat r₁ r₂, fun st => ?_, fun w => ?_, ⟨a0, b0⟩, fun hε => ⟨a3 (fun h => hε (Or.inl h)), b3 (fun h => hε (Or.inr h))⟩, by simp [erase, ReText.shape, a4, b4], by simp [Regex.toPostfix]⟩
    · simp only [toInfix, Infix.expr, Expr.rpn, Regex.toPostfix, List.foldlM_append, List.foldlM_cons, List.foldlM_nil, a1, b1]
      rfl
    · simp only [Regex.Lang, ReText.Lang, a2, b2]
  | alt l r ihl ihr =>
    intro h hn
    obtain ⟨r₁, a1, a2, a0, a3, a4, a5⟩ := ihl h.1 (hn.imp id (·.1))
    obtain ⟨r₂, b1, b2, b0, b3, b4, b5⟩ := ihr h.2 (hn.imp id (·.2))
    refine ⟨.alt r₁ r₂, fun st => ?_, fun w => ?_, ⟨a0, b0⟩, fun hε => ⟨a3 (fun h => hε (Or.inl h)), b3 (fun h => hε (Or.inr h))⟩, by simp [erase, ReText.shape, a4, b4], by simp [Regex.toPostfix]⟩
    · simp only [toInfix, Infix.expr, Expr.rpn, Regex.toPostfix, List.foldlM_append, List.foldlM_cons, List.foldlM_nil, a1, b1]
      rfl
    · simp only [Regex.Lang, ReText.Lang, a2, b2]
  | opt e ih =>
    intro h hn
    obtain ⟨r₁, a1, a2, a0, a3, a4, a5⟩ := ih h hn
    refine ⟨.opt r₁, fun st => ?_, fun w => ?_, a0, a3, by simp [erase, ReText.shape, a4], by simp [Regex.toPostfix]⟩
    · simp only [toInfix, Infix.expr, Expr.rpn, Regex.toPostfix, List.foldlM_append, List.foldlM_cons, List.foldlM_nil, a1]
      rfl
    · simp only [Regex.Lang, ReText.Lang, a2]
  | star e ih =>
    intro h hn
    obtain ⟨r₁, a1, a2, a0, a3, a4, a5⟩ := ih h hn
    refine ⟨.star r₁, fun st => ?_, fun w => ?_, a0, a3, by simp [erase, ReText.shape, a4], by simp [Regex.toPostfix]⟩
    · simp only [toInfix, Infix.expr, Expr.rpn, Regex.toPostfix, List.foldlM_append, List.foldlM_cons, List.foldlM_nil, a1]
      rfl
    · simp only [Regex.Lang, ReText.Lang, pow_congr a2]
  | plus e ih =>
    intro h hn
    obtain ⟨r₁, a1, a2, a0, a3, a4, a5⟩ := ih h hn
    refine ⟨.plus r₁, fun st => ?_, fun w => ?_, a0, a3, by simp [erase, ReText.shape, a4], by simp [Regex.toPostfix]⟩
    · simp only [toInfix, Infix.expr, Expr.rpn, Regex.toPostfix, List.foldlM_append, List.foldlM_cons, List.foldlM_nil, a1]
      rfl
    · simp only [Regex.Lang, ReText.Lang, pow_congr a2]
  | rep f e ih =>
    intro h hn
    obtain ⟨r₁, a1, a2, a0, a3, a4, a5⟩ := ih h.2 hn
    have hp := parseRepetition_spec hC h.1
    have hle : ∀ n, f.hi C = some n → f.lo C ≤ n := by
      intro n hh
      cases f with
      | exact s₁ d s₂ => simp only [RepForm.hi, Option.some.injEq] at hh; subst hh; exact Nat.le_refl _
      | range s₁ d s₂ s₃ d' s₄ =>
        simp only [RepForm.hi] at hh
        split at hh
        · cases hh
        · rename_i hd
          simp only [Option.some.injEq] at hh; subst hh
          rcases h.1.2.2.2.2.2.2.2 with h | h
          · exact absurd h hd
          · exact h
    refine ⟨.rep (f.lo C) (f.hi C) r₁, fun st => ?_, fun w => ?_, ?_, fun hε => ?_, by simp [erase, ReText.shape, a4], by simp [Regex.toPostfix]⟩
    · simp only [toInfix, Infix.expr, Expr.rpn, Regex.toPostfix, List.foldlM_append, List.foldlM_cons, List.foldlM_nil, a1]
      have : ∀ st, onPushText C order wa st f.text = Thompson.onPushOutput 'ε' st (.rep (f.lo C) (f.hi C)) := by
        intro st
        obtain ⟨body, hb⟩ : ∃ body, f.text = '{' :: body := by
          cases f <;> exact ⟨_, rfl⟩
        rw [hb] at hp
        cases st with
        | nil => simp [onPushText, hb, Thompson.onPushOutput]
        | cons x st => simp [onPushText, hb, hp, ShuntingYard.ok_bind']
      simp only [this]
    · simp only [ReText.Lang]
      cases hh : f.hi C with
      | none => simp only [Regex.Lang, pow_congr a2]; simp
      | some n => simp only [Regex.Lang, pow_congr a2]; simp
    · cases hh : f.hi C with
      | none => exact a0
      | some n => exact ⟨hle n hh, a0⟩
    · cases hh : f.hi C with
      | none => exact a3 hε
      | some n => exact ⟨hle n hh, a3 hε⟩

theorem text_ne (e : ReText) : e.text ≠ [] := by
  induction e with
  | lit c => simp [ReText.text]
  | cat l r ihl ihr => simp [ReText.text, ihl]
  | rep f e ih => simp [ReText.text, ih]
  | _ => simp [ReText.text]

/-- `thompson_compile_nfa` evaluates the postfix form of an abstract regular expression with the same language. -/
theorem compileText_ordered {C : ReClasses} (hC : C.Sound) {order : List Char → List Char} (hord : ∀ l, (order l).Perm l)
    {wa S : List Char} (hS : S = alphabetOr wa) {e : ReText} (hwf : e.WF C) (hp : e.Parens)
    (hn : S = defaultAlphabet ∨ e.NoNegEsc) :
    ∃ r : Regex Char, compileText C order wa e.text = Thompson.compile 'ε' r.toPostfix ∧ (∀ w, r.Lang w ↔ e.Lang C S w) ∧
      r.Ordered ∧ (¬ e.Symbol S 'ε' → r.Valid 'ε') ∧ erase r = e.shape C := by
  obtain ⟨r, h1, h2, h0, h3, h4, h5⟩ := evaluate hC hord hS e hwf hn
  refine ⟨r, ?_, h2, h0, h3, h4⟩
  have hne : e.text.isEmpty = false := by simpa using text_ne e
  rw [compileText, if_neg (by simp [hne]), tokenizerRe_text hC hwf, ShuntingYard.run_toks sane (toks e hwf) (enough e hp), h1]
  cases hr : r.toPostfix with
  | nil => exact absurd hr h5
  | cons t ts =>
    simp only [Thompson.compile]
    cases (t :: ts).foldlM (Thompson.onPushOutput 'ε') [] with
    | error e => rfl
    | ok l =>
      rcases l with _ | ⟨x, _ | ⟨y, l⟩⟩ <;> rfl

/-- `thompson_compile_nfa` evaluates the postfix form of an abstract regular expression with the same language, in which `ε` does not occur if it does not in the text. -/
theorem compileText_eq {C : ReClasses} (hC : C.Sound) {order : List Char → List Char} (hord : ∀ l, (order l).Perm l)
    {wa S : List Char} (hS : S = alphabetOr wa) {e : ReText} (hwf : e.WF C) (hp : e.Parens)
    (hn : S = defaultAlphabet ∨ e.NoNegEsc) (hε : ¬ e.Symbol S 'ε') :
    ∃ r : Regex Char, compileText C order wa e.text = Thompson.compile 'ε' r.toPostfix ∧ (∀ w, r.Lang w ↔ e.Lang C S w) ∧
      r.Valid 'ε' ∧ erase r = e.shape C := by
  obtain ⟨r, h1, h2, -, h3, h4⟩ := compileText_ordered hC hord hS hwf hp hn
  exact ⟨r, h1, h2, h3 hε, h4⟩

end RegexText
end PyBGL
