import Verif.Spec.Json
import Mathlib.Data.List.Basic

/-!
# A JSON text denotes at most one value

A parser is defined for the proof: it finds the value of every text of the grammar.
-/

namespace PyBGL
namespace Json

def skip (t : List Char) : List Char := t.dropWhile isWs

def isDigit (c : Char) : Bool := c.isDigit

inductive Tag where
  | value | items | members

def Kind.tag : Kind → Tag
  | .value _ => .value
  | .items _ => .items
  | .members _ => .members

/-- A parser, used only in proofs. -/
def parse : Nat → Tag → List Char → Option (Kind × List Char)
  | 0, _, _ => none
  | _ + 1, .value, [] => none
  | n + 1, .value, c :: r =>
    if c = '"' then
      match r.dropWhile isPlain with
      | '"' :: r' => some (.value (.str (r.takeWhile isPlain)), r')
      | _ => none
    else if c = '[' then
      if (skip r).head? = some ']' then some (.value (.arr []), (skip r).tail)
      else match parse n .items r with
        | some (.items l, ']' :: r') => some (.value (.arr l), r')
        | _ => none
    else if c = '{' then
      if (skip r).head? = some '}' then some (.value (.obj []), (skip r).tail)
      else match parse n .members r with
        | some (.members l, '}' :: r') => some (.value (.obj l), r')
        | _ => none
    else if isDigit c then
      some (.value (.num (Nat.ofDigitChars 10 ((c :: r).takeWhile isDigit) 0)), (c :: r).dropWhile isDigit)
    else none
  | n + 1, .items, t =>
    match parse n .value (skip t) with
    | some (.value v, r) =>
      if (skip r).head? = some ',' then
        match parse n .items (skip r).tail with
        | some (.items l, r') => some (.items (v :: l), r')
        | _ => none
      else some (.items [v], skip r)
    | _ => none
  | n + 1, .members, t =>
    match (skip t).tail.dropWhile isPlain with
    | '"' :: r =>
      match parse n .value (skip (skip r).tail) with
      | some (.value v, r) =>
        if (skip r).head? = some ',' then
          match parse n .members (skip r).tail with
          | some (.members l, r') => some (.members (((skip t).tail.takeWhile isPlain, v) :: l), r')
          | _ => none
        else some (.members [((skip t).tail.takeWhile isPlain, v)], skip r)
      | _ => none
    | _ => none

/-- What may follow a piece of text. -/
def Ok : Kind → List Char → Prop
  | .value _, t => ∀ c, t.head? = some c → isDigit c = false
  | .items _, t => ∃ r, t = ']' :: r
  | .members _, t => ∃ r, t = '}' :: r

theorem span_append {p : Char → Bool} {a t : List Char} (ha : ∀ c ∈ a, p c = true) (ht : ∀ c, t.head? = some c → p c = false) :
    (a ++ t).takeWhile p = a ∧ (a ++ t).dropWhile p = t := by
  induction a with
  | nil =>
    cases t with
    | nil => exact ⟨rfl, rfl⟩
    | cons c t => have : p c = false := ht c rfl; simp [this]
  | cons c a ih =>
    have hc := ha c (by simp)
    obtain ⟨a, b⟩ := ih (fun x hx => ha x (by simp [hx]))
    simp [hc, a, b]

theorem skip_append {w t : List Char} (hw : Ws w) (ht : ∀ c, t.head? = some c → isWs c = false) : skip (w ++ t) = t :=
  (span_append hw ht).2

theorem digit_range {c : Char} (h : isDigit c = true) : 48 ≤ c.toNat ∧ c.toNat ≤ 57 := by
  unfold isDigit at h
  simp only [Char.isDigit, Bool.and_eq_true, decide_eq_true_eq, ge_iff_le] at h
  obtain ⟨h1, h2⟩ := h
  rw [UInt32.le_iff_toNat_le] at h1 h2
  exact ⟨h1, h2⟩

theorem ws_cases {c : Char} (h : isWs c = true) : c = ' ' ∨ c = '\n' ∨ c = '\t' ∨ c = '\r' := by
  simpa [isWs, or_assoc] using h

theorem not_digit_of_ws {c : Char} (h : isWs c = true) : isDigit c = false := by
  rcases ws_cases h with rfl | rfl | rfl | rfl <;> decide

/-- The first character of a value. -/
theorem value_head {k : Kind} {t : List Char} (h : Gram k t) :
    ∀ v, k = .value v → ∃ c r, t = c :: r ∧ isWs c = false ∧ c ≠ ']' ∧ c ≠ '}' ∧ c ≠ ',' := by
  intro v hv
  cases h with
  | num n =>
    obtain ⟨c, r, hr⟩ := List.exists_cons_of_ne_nil (Nat.toDigits_ne_nil (b := 10) (n := n))
    have hd : c.isDigit = true := Nat.isDigit_of_mem_toDigits (b := 10) (n := n) (by decide) (by decide) (by rw [hr]; simp)
    refine ⟨c, r, hr, ?_, ?_, ?_, ?_⟩
    · cases hw : isWs c with
      | false => rfl
      | true => have := not_digit_of_ws hw; unfold isDigit at this; rw [hd] at this; cases this
    all_goals rintro rfl; exact absurd hd (by decide)
  | str h => exact ⟨'"', _, rfl, by decide, by decide, by decide, by decide⟩
  | arrNil h => exact ⟨'[', _, rfl, by decide, by decide, by decide, by decide⟩
  | arr h => exact ⟨'[', _, rfl, by decide, by decide, by decide, by decide⟩
  | objNil h => exact ⟨'{', _, rfl, by decide, by decide, by decide, by decide⟩
  | obj h => exact ⟨'{', _, rfl, by decide, by decide, by decide, by decide⟩
  | item => cases hv
  | items => cases hv
  | member => cases hv
  | members => cases hv

theorem skip_value {v : JVal} {w t rest : List Char} (hw : Ws w) (h : Gram (.value v) t) : skip (w ++ (t ++ rest)) = t ++ rest := by
  obtain ⟨c, r, rfl, hc, -⟩ := value_head h v rfl
  refine skip_append hw ?_
  intro d hd
  cases hd; exact hc

theorem head_items {k : Kind} {t : List Char} (h : Gram k t) :
    ∀ l, k = .items l → ∀ rest, (skip (t ++ rest)).head? ≠ some ']' := by
  intro l hl rest
  cases h with
  | item hw hv _ =>
    rw [List.append_assoc, List.append_assoc, skip_value hw hv]
    obtain ⟨c, r, rfl, _, hc, _⟩ := value_head hv _ rfl
    simpa using hc
  | items hw hv _ _ =>
    rw [List.append_assoc, List.append_assoc, skip_value hw hv]
    obtain ⟨c, r, rfl, _, hc, _⟩ := value_head hv _ rfl
    simpa using hc
  | _ => cases hl

theorem head_members {k : Kind} {t : List Char} (h : Gram k t) :
    ∀ l, k = .members l → ∀ rest, (skip (t ++ rest)).head? ≠ some '}' := by
  intro l hl rest
  have key : ∀ (w s r : List Char), Ws w → skip (w ++ (quote s ++ r) ++ rest) = '"' :: (s ++ ('"' :: (r ++ rest))) := by
    intro w s r hw
    have : w ++ (quote s ++ r) ++ rest = w ++ ('"' :: (s ++ ('"' :: (r ++ rest)))) := by simp [quote]
    rw [this]
    refine skip_append hw ?_
    intro d hd; cases hd; decide
  cases h with
  | member hw _ _ _ _ _ => rw [key _ _ _ hw]; simp
  | members hw _ _ _ _ _ _ => rw [key _ _ _ hw]; simp
  | _ => cases hl

theorem dropWhile_quote {s r : List Char} (hs : Plain s) :
    (s ++ '"' :: r).takeWhile isPlain = s ∧ (s ++ '"' :: r).dropWhile isPlain = '"' :: r := by
  refine span_append hs ?_
  intro d hd; cases hd; decide

theorem ok_ws {w r : List Char} {c : Char} (hw : Ws w) (hc : isDigit c = false) : ∀ d, (w ++ c :: r).head? = some d → isDigit d = false := by
  intro d hd
  cases w with
  | nil => cases hd; exact hc
  | cons x w => cases hd; exact not_digit_of_ws (hw _ (by simp))

theorem skip_ws {w r : List Char} {c : Char} (hw : Ws w) (hc : isWs c = false) : skip (w ++ c :: r) = c :: r := by
  refine skip_append hw ?_
  intro d hd; cases hd; exact hc

theorem gram_parse {k : Kind} {t : List Char} (h : Gram k t) :
    ∃ N, ∀ n, N ≤ n → ∀ rest, Ok k rest → parse n k.tag (t ++ rest) = some (k, rest) := by
  induction h with
  | num m =>
    refine ⟨1, fun n hn rest hr => ?_⟩
    obtain ⟨n, rfl⟩ : ∃ j, n = j + 1 := ⟨n - 1, by omega⟩
    have hd : ∀ c ∈ Nat.toDigits 10 m, isDigit c = true := fun c hc => Nat.isDigit_of_mem_toDigits (by decide) (by decide) hc
    obtain ⟨h1, h2⟩ := span_append hd hr
    obtain ⟨c, r, hcr⟩ := List.exists_cons_of_ne_nil (Nat.toDigits_ne_nil (b := 10) (n := m))
    have hc : isDigit c = true := hd c (by rw [hcr]; simp)
    have e : Nat.ofDigitChars 10 (Nat.toDigits 10 m) 0 = m := Nat.ofDigitChars_toDigits (by decide) (by decide)
    rw [← h1] at e
    have hne : ∀ d, isDigit d = false → c ≠ d := by rintro d hd rfl; rw [hc] at hd; cases hd
    rw [hcr] at h2 e ⊢
    rw [List.cons_append] at h2 e ⊢
    show parse (n + 1) Tag.value _ = _
    rw [parse, if_neg (hne _ (by decide)), if_neg (hne _ (by decide)), if_neg (hne _ (by decide)), if_pos hc, h2, e]
  | str hs =>
    refine ⟨1, fun n hn rest hr => ?_⟩
    obtain ⟨n, rfl⟩ : ∃ j, n = j + 1 := ⟨n - 1, by omega⟩
    show parse (n + 1) Tag.value _ = _
    simp only [quote, List.cons_append, List.append_assoc, List.nil_append]
    rw [parse, if_pos rfl]
    obtain ⟨h1, h2⟩ := dropWhile_quote (r := rest) hs
    simp only [h1, h2]
  | arrNil hw =>
    refine ⟨1, fun n hn rest hr => ?_⟩
    obtain ⟨n, rfl⟩ : ∃ j, n = j + 1 := ⟨n - 1, by omega⟩
    show parse (n + 1) Tag.value _ = _
    simp only [List.cons_append, List.append_assoc, List.nil_append]
    rw [parse, if_neg (by decide), if_pos rfl, skip_ws hw (by decide), List.head?_cons, if_pos rfl, List.tail_cons]
  | @arr l t hg ih =>
    obtain ⟨N, hN⟩ := ih
    refine ⟨N + 1, fun n hn rest hr => ?_⟩
    obtain ⟨n, rfl⟩ : ∃ j, n = j + 1 := ⟨n - 1, by omega⟩
    show parse (n + 1) Tag.value _ = _
    simp only [List.cons_append, List.append_assoc, List.nil_append]
    have := hN n (by omega) (']' :: rest) ⟨rest, rfl⟩
    simp only [Kind.tag] at this
    rw [parse, if_neg (by decide), if_pos rfl, if_neg (head_items hg _ rfl _), this]
    rfl
  | objNil hw =>
    refine ⟨1, fun n hn rest hr => ?_⟩
    obtain ⟨n, rfl⟩ : ∃ j, n = j + 1 := ⟨n - 1, by omega⟩
    show parse (n + 1) Tag.value _ = _
    simp only [List.cons_append, List.append_assoc, List.nil_append]
    rw [parse, if_neg (by decide), if_neg (by decide), if_pos rfl, skip_ws hw (by decide), List.head?_cons, if_pos rfl, List.tail_cons]
  | @obj l t hg ih =>
    obtain ⟨N, hN⟩ := ih
    refine ⟨N + 1, fun n hn rest hr => ?_⟩
    obtain ⟨n, rfl⟩ : ∃ j, n = j + 1 := ⟨n - 1, by omega⟩
    show parse (n + 1) Tag.value _ = _
    simp only [List.cons_append, List.append_assoc, List.nil_append]
    have := hN n (by omega) ('}' :: rest) ⟨rest, rfl⟩
    simp only [Kind.tag] at this
    rw [parse, if_neg (by decide), if_neg (by decide), if_pos rfl, if_neg (head_members hg _ rfl _), this]
    rfl
  | @item v w t w' hw hv hw' ih =>
    obtain ⟨N, hN⟩ := ih
    refine ⟨N + 1, fun n hn rest hr => ?_⟩
    obtain ⟨n, rfl⟩ : ∃ j, n = j + 1 := ⟨n - 1, by omega⟩
    obtain ⟨r, rfl⟩ := hr
    show parse (n + 1) Tag.items _ = _
    simp only [List.append_assoc]
    have := hN n (by omega) (w' ++ ']' :: r) (ok_ws hw' (by decide))
    simp only [Kind.tag] at this
    rw [parse, skip_value hw hv, this]
    simp only [skip_ws hw' (show isWs ']' = false by decide)]
    rfl
  | @items v l w t w' t' hw hv hw' hl ih1 ih2 =>
    obtain ⟨N, hN⟩ := ih1
    obtain ⟨M, hM⟩ := ih2
    refine ⟨N + M + 1, fun n hn rest hr => ?_⟩
    obtain ⟨n, rfl⟩ : ∃ j, n = j + 1 := ⟨n - 1, by omega⟩
    show parse (n + 1) Tag.items _ = _
    simp only [List.append_assoc, List.cons_append]
    have := hN n (by omega) (w' ++ ',' :: (t' ++ rest)) (ok_ws hw' (by decide))
    simp only [Kind.tag] at this
    have h2 := hM n (by omega) rest hr
    simp only [Kind.tag] at h2
    rw [parse, skip_value hw hv, this]
    simp only [skip_ws hw' (show isWs ',' = false by decide), List.head?_cons, if_true, List.tail_cons, h2]
  | @member k v w w1 w2 t w' hw hk hw1 hw2 hv hw' ih =>
    obtain ⟨N, hN⟩ := ih
    refine ⟨N + 1, fun n hn rest hr => ?_⟩
    obtain ⟨n, rfl⟩ : ∃ j, n = j + 1 := ⟨n - 1, by omega⟩
    obtain ⟨r, rfl⟩ := hr
    show parse (n + 1) Tag.members _ = _
    simp only [List.append_assoc, List.cons_append, quote, List.nil_append]
    have := hN n (by omega) (w' ++ '}' :: r) (ok_ws hw' (by decide))
    simp only [Kind.tag] at this
    obtain ⟨h1, h2⟩ := dropWhile_quote (r := w1 ++ ':' :: (w2 ++ (t ++ (w' ++ '}' :: r)))) hk
    rw [parse]
    simp only [skip_ws hw (show isWs '"' = false by decide), List.tail_cons, h1, h2, skip_ws hw1 (show isWs ':' = false by decide),
      skip_value hw2 hv, this, skip_ws hw' (show isWs '}' = false by decide)]
    rfl
  | @members k v l w w1 w2 t w' t' hw hk hw1 hw2 hv hw' hl ih1 ih2 =>
    obtain ⟨N, hN⟩ := ih1
    obtain ⟨M, hM⟩ := ih2
    refine ⟨N + M + 1, fun n hn rest hr => ?_⟩
    obtain ⟨n, rfl⟩ : ∃ j, n = j + 1 := ⟨n - 1, by omega⟩
    show parse (n + 1) Tag.members _ = _
    simp only [List.append_assoc, List.cons_append, quote, List.nil_append]
    have := hN n (by omega) (w' ++ ',' :: (t' ++ rest)) (ok_ws hw' (by decide))
    simp only [Kind.tag] at this
    have h3 := hM n (by omega) rest hr
    simp only [Kind.tag] at h3
    obtain ⟨h1, h2⟩ := dropWhile_quote (r := w1 ++ ':' :: (w2 ++ (t ++ (w' ++ ',' :: (t' ++ rest))))) hk
    rw [parse]
    simp only [skip_ws hw (show isWs '"' = false by decide), List.tail_cons, h1, h2, skip_ws hw1 (show isWs ':' = false by decide),
      skip_value hw2 hv, this, skip_ws hw' (show isWs ',' = false by decide), List.head?_cons, if_true, h3]

/-- A document denotes at most one value. -/
theorem Doc.unique {v v' : JVal} {t : List Char} (h : Doc v t) (h' : Doc v' t) : v = v' := by
  obtain ⟨w1, t1, w2, h1, h2, h3, h4⟩ := h
  obtain ⟨w1', t1', w2', h1', h2', h3', h4'⟩ := h'
  have ok : ∀ w v, Ws w → Ok (.value v) w := by
    intro w v hw c hc
    cases w with
    | nil => cases hc
    | cons d w => cases hc; exact not_digit_of_ws (hw _ (by simp))
  obtain ⟨N, hN⟩ := gram_parse h2
  obtain ⟨M, hM⟩ := gram_parse h2'
  have e1 := hN (N + M) (by omega) w2 (ok _ _ h3)
  have e2 := hM (N + M) (by omega) w2' (ok _ _ h3')
  have s1 : skip t = t1 ++ w2 := by rw [h4, skip_value h1 h2]
  have s2 : skip t = t1' ++ w2' := by rw [h4', skip_value h1' h2']
  rw [← s1] at e1
  rw [← s2] at e2
  simp only [Kind.tag] at e1 e2
  rw [e1] at e2
  simp only [Option.some.injEq, Prod.mk.injEq, Kind.value.injEq] at e2
  exact e2.1

end Json
end PyBGL
