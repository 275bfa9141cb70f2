import Verif.Proofs.PyLemmas
import Verif.Spec.RegexText

/-!
# The parsers of classes, escape sequences and repetitions
-/

namespace PyBGL
namespace RegexText

theorem toNat_ofNat_valid {n : Nat} (h : n.isValidChar) : (Char.ofNat n).toNat = n := by
  simp only [Char.ofNat, h, dif_pos, Char.ofNatAux, Char.toNat]
  rfl

theorem mem_charRange {a b x : Char} : x ∈ charRange a b ↔ a ≤ x ∧ x ≤ b := by
  have hle : ∀ c d : Char, c ≤ d ↔ c.toNat ≤ d.toNat := fun _ _ => Iff.rfl
  simp only [charRange, List.mem_filterMap, List.mem_range'_1]
  constructor
  · rintro ⟨n, ⟨h1, h2⟩, h⟩
    split at h
    · rename_i hv
      simp only [Option.some.injEq] at h
      subst h
      rw [hle, hle, toNat_ofNat_valid hv]
      omega
    · simp at h
  · rintro ⟨h1, h2⟩
    rw [hle] at h1 h2
    refine ⟨x.toNat, by omega, ?_⟩
    have hv : x.toNat.isValidChar := x.valid
    simp only [hv, if_true, Char.ofNat_toNat]

theorem mem_foldl_setAdd {α : Type} [DecidableEq α] (cs acc : List α) (x : α) :
    x ∈ cs.foldl setAdd acc ↔ x ∈ acc ∨ x ∈ cs := by
  induction cs generalizing acc with
  | nil => simp
  | cons c cs ih =>
    simp only [List.foldl_cons, ih, mem_setAdd, List.mem_cons]
    tauto

/-- The characters of the items of a class. -/
def ItemsMem (S : List Char) (items : List ReItem) (x : Char) : Prop := ∃ i ∈ items, i.Mem S x

theorem itemsMem_cons {S : List Char} {i : ReItem} {is : List ReItem} {x : Char} :
    ItemsMem S (i :: is) x ↔ i.Mem S x ∨ ItemsMem S is x := by simp [ItemsMem]

theorem flat_ne (is : List ReItem) {rest : List Char} (h : rest ≠ []) :
    ∃ b tl, (is.map ReItem.text).flatten ++ rest = b :: tl := by
  cases hb : (is.map ReItem.text).flatten ++ rest with
  | nil => exact absurd (List.append_eq_nil_iff.1 hb).2 h
  | cons b tl => exact ⟨b, tl, rfl⟩

/-- The loop of `parse_bracket` on items followed by `rest`. -/
theorem bracketLoop_items {esc : List Char → Except PyErr (List Char)} {S : List Char} {hat : Bool} {rest : List Char}
    (hrest : rest ≠ []) :
    ∀ (items : List ReItem) (first : Bool) (last : Option Char) (acc : List Char), ItemsWF hat first items →
    (first = true → last = none) →
    (∀ c, ReItem.esc c ∈ items → ∃ cs, esc ['\\', c] = .ok cs ∧ ∀ x, x ∈ cs ↔ EscMem S c x) →
    ∃ acc' last', bracketLoop esc ((items.map ReItem.text).flatten ++ rest) last acc = bracketLoop esc rest last' acc' ∧
      (∀ x, x ∈ acc' ↔ x ∈ acc ∨ ItemsMem S items x) ∧ (items = [] → last' = last) := by
  intro items
  induction items with
  | nil => intro first last acc _ _ _; exact ⟨acc, last, by simp, by simp [ItemsMem], fun _ => rfl⟩
  | cons i is ih =>
    intro first last acc hwf hfl hesc
    obtain ⟨b, tl, hbt⟩ := flat_ne is hrest
    obtain ⟨hi, his⟩ := hwf
    have hesc' : ∀ c, ReItem.esc c ∈ is → ∃ cs, esc ['\\', c] = .ok cs ∧ ∀ x, x ∈ cs ↔ EscMem S c x :=
      fun c hc => hesc c (List.mem_cons_of_mem _ hc)
    cases i with
    | one c =>
      obtain ⟨h1, h2, h3, h4⟩ := hi
      obtain ⟨acc', last', k1, k2, _⟩ := ih false (some c) (setAdd acc c) his (by simp) hesc'
      refine ⟨acc', last', ?_, ?_, by simp⟩
      · rw [hbt] at k1
        simp only [List.map_cons, ReItem.text, List.flatten_cons, List.cons_append, List.nil_append, hbt, bracketLoop]
        rw [if_neg, if_neg h2]
        · exact k1
        · rintro ⟨hc, hl⟩
          rw [hfl (h3 hc)] at hl; simp at hl
      · intro x
        rw [k2, mem_setAdd, itemsMem_cons]; simp only [ReItem.Mem]; tauto
    | range a b' =>
      obtain ⟨h1, h2, h3, h4, h5, h6⟩ := hi
      obtain ⟨acc', last', k1, k2, _⟩ :=
        ih false (some '-') ((charRange a b').foldl setAdd (setAdd acc a)) his (by simp) hesc'
      refine ⟨acc', last', ?_, ?_, by simp⟩
      · simp only [List.map_cons, ReItem.text, List.flatten_cons, List.cons_append, List.nil_append, bracketLoop]
        rw [if_neg, if_neg h2]
        · have : ¬ a.toNat > b'.toNat := Nat.not_lt.2 h6
          simp only [Option.isSome_some, and_self, if_true, Option.getD_some, this, if_false]
          exact k1
        · rintro ⟨hc, hl⟩
          rw [hfl (h3 hc)] at hl; simp at hl
      · intro x
        rw [k2, mem_foldl_setAdd, mem_setAdd, mem_charRange, itemsMem_cons]; simp only [ReItem.Mem]
        constructor
        · rintro (((h | rfl) | h) | h)
          · exact Or.inl h
          · exact Or.inr (Or.inl ⟨Char.le_refl _, h6⟩)
          · exact Or.inr (Or.inl h)
          · exact Or.inr (Or.inr h)
        · rintro (h | h | h)
          · exact Or.inl (Or.inl (Or.inl h))
          · exact Or.inl (Or.inr h)
          · exact Or.inr h
    | esc c =>
      obtain ⟨cs, e1, e2⟩ := hesc c List.mem_cons_self
      obtain ⟨acc', last', k1, k2, _⟩ := ih false (some '\\') (cs.foldl setAdd acc) his (by simp) hesc'
      refine ⟨acc', last', ?_, ?_, by simp⟩
      · simp only [List.map_cons, ReItem.text, List.flatten_cons, List.cons_append, List.nil_append, bracketLoop]
        rw [if_neg (by simp)]
        simp only [if_true, e1]
        exact k1
      · intro x
        rw [k2, mem_foldl_setAdd, e2, itemsMem_cons]; simp only [ReItem.Mem]; tauto

theorem bracketLoop_spec {esc : List Char → Except PyErr (List Char)} {S : List Char} {hat : Bool}
    (items : List ReItem) (first : Bool) (last : Option Char) (acc : List Char) (hwf : ItemsWF hat first items)
    (hfl : first = true → last = none)
    (hesc : ∀ c, ReItem.esc c ∈ items → ∃ cs, esc ['\\', c] = .ok cs ∧ ∀ x, x ∈ cs ↔ EscMem S c x) :
    ∃ acc', bracketLoop esc ((items.map ReItem.text).flatten ++ [']']) last acc = .ok acc' ∧
      ∀ x, x ∈ acc' ↔ x ∈ acc ∨ ItemsMem S items x := by
  obtain ⟨acc', last', h1, h2, _⟩ := bracketLoop_items (rest := [']']) (by simp) items first last acc hwf hfl hesc
  exact ⟨acc', h1, h2⟩

/-- A range whose bounds are in the wrong order. -/
theorem bracketLoop_reversed {esc : List Char → Except PyErr (List Char)} {S : List Char} {hat : Bool} {a b : Char}
    {tl : List Char} (hab : b < a) (ha : a ≠ '-') (ha' : a ≠ '\\')
    (items : List ReItem) (hwf : ItemsWF hat true items)
    (hesc : ∀ c, ReItem.esc c ∈ items → ∃ cs, esc ['\\', c] = .ok cs ∧ ∀ x, x ∈ cs ↔ EscMem S c x) :
    bracketLoop esc ((items.map ReItem.text).flatten ++ a :: '-' :: b :: tl) none [] = .error .valueError := by
  obtain ⟨acc', last', h1, h2, _⟩ :=
    bracketLoop_items (rest := a :: '-' :: b :: tl) (by simp) items true none [] hwf (fun _ => rfl) hesc
  rw [h1]
  have : a.toNat > b.toNat := hab
  simp [bracketLoop, ha, ha', this]

/-- The text of a class. -/
def classText (neg : Bool) (items : List ReItem) : List Char :=
  '[' :: (if neg then ['^'] else []) ++ (items.map ReItem.text).flatten ++ [']']

theorem parseBracketWith_spec {esc : List Char → Except PyErr (List Char)} {S wa : List Char} {neg : Bool}
    {items : List ReItem} (hwf : ItemsWF neg true items) (hne : neg = true ∨ items ≠ [])
    (hesc : ∀ c, ReItem.esc c ∈ items → ∃ cs, esc ['\\', c] = .ok cs ∧ ∀ x, x ∈ cs ↔ EscMem S c x) :
    ∃ cs, parseBracketWith esc wa (classText neg items) = .ok cs ∧
      ∀ x, x ∈ cs ↔ (if neg then x ∈ alphabetOr wa ∧ ¬ ItemsMem S items x else ItemsMem S items x) := by
  obtain ⟨acc, h1, h2⟩ := bracketLoop_spec items true none [] hwf (fun _ => rfl) hesc
  have hlast : ∀ u : List Char, ('[' :: u ++ (items.map ReItem.text).flatten ++ [']']).getLast? = some ']' := by
    intro u; rw [List.getLast?_append]; simp
  cases neg with
  | true =>
    refine ⟨((alphabetOr wa).foldl setAdd []).filter (· ∉ acc), ?_, ?_⟩
    · simp only [classText, if_true]
      have hl := hlast ['^']
      simp only [List.cons_append, List.nil_append] at hl ⊢
      simp only [parseBracketWith, hl, and_self, not_true, if_false, List.head?_cons, if_true, List.tail_cons, h1]
      rw [if_neg (by simp)]
      rfl
    · intro x
      simp [mem_foldl_setAdd, h2]
  | false =>
    refine ⟨acc, ?_, fun x => by simp [h2]⟩
    simp only [classText]
    have hl := hlast []
    simp only [List.cons_append, List.nil_append, Bool.false_eq_true, if_false] at hl ⊢
    simp only [parseBracketWith, hl, and_self, not_true, if_false]
    have hne : items ≠ [] := by simpa using hne
    cases items with
    | nil => exact absurd rfl hne
    | cons i is =>
      have hlen : ¬ ('[' :: (((i :: is).map ReItem.text).flatten ++ [']'])).length < 3 := by
        cases i <;> simp [ReItem.text]
      have hhat : (((i :: is).map ReItem.text).flatten ++ [']']).head? ≠ some '^' := by
        have := hwf.1
        cases i <;> simp [ReItem.text, ReItem.WF] at this ⊢ <;> tauto
      rw [if_neg hlen, if_neg hhat, h1]

theorem escMem_inv {S : List Char} {c x : Char} (h : EscMem S c x) :
    (c ∈ escapedSelf ∧ x = c) ∨ (c = 'a' ∧ x = '\x07') ∨ (c = 'b' ∧ x = '\x08') ∨ (c = 'f' ∧ x = '\x0c') ∨
    (c = 'n' ∧ x = '\n') ∨ (c = 'r' ∧ x = '\r') ∨ (c = 't' ∧ x = '\t') ∨ (c = 'v' ∧ x = '\x0b') ∨
    (c = 'd' ∧ '0' ≤ x ∧ x ≤ '9') ∨ (c = 'D' ∧ x ∈ S ∧ ¬ ('0' ≤ x ∧ x ≤ '9')) ∨
    (c = 's' ∧ (x = ' ' ∨ x = '\t')) ∨ (c = 'S' ∧ x ∈ S ∧ ¬ (x = ' ' ∨ x = '\t')) ∨
    (c = 'w' ∧ (('0' ≤ x ∧ x ≤ '9') ∨ ('A' ≤ x ∧ x ≤ 'Z') ∨ ('a' ≤ x ∧ x ≤ 'z'))) ∨
    (c = 'W' ∧ x ∈ S ∧ ¬ (('0' ≤ x ∧ x ≤ '9') ∨ ('A' ≤ x ∧ x ≤ 'Z') ∨ ('a' ≤ x ∧ x ≤ 'z'))) := by
  cases h with
  | self h => exact Or.inl ⟨h, rfl⟩
  | a => right; left; exact ⟨rfl, rfl⟩
  | b => iterate 2 right
         left; exact ⟨rfl, rfl⟩
  | f => iterate 3 right
         left; exact ⟨rfl, rfl⟩
  | n => iterate 4 right
         left; exact ⟨rfl, rfl⟩
  | r => iterate 5 right
         left; exact ⟨rfl, rfl⟩
  | t => iterate 6 right
         left; exact ⟨rfl, rfl⟩
  | v => iterate 7 right
         left; exact ⟨rfl, rfl⟩
  | d h h' => iterate 8 right
              left; exact ⟨rfl, h, h'⟩
  | D h h' => iterate 9 right
              left; exact ⟨rfl, h, h'⟩
  | s h => iterate 10 right
           left; exact ⟨rfl, h⟩
  | S h h' => iterate 11 right
              left; exact ⟨rfl, h, h'⟩
  | w h => iterate 12 right
           left; exact ⟨rfl, h⟩
  | W h h' => iterate 13 right
              exact ⟨rfl, h, h'⟩

/-- `parse_escaped` on the escape sequences of the library. -/
theorem parseEscaped_spec (wa : List Char) {c : Char} (hc : c ∈ escapes) :
    ∃ cs, parseEscaped wa ['\\', c] = .ok cs ∧ ∀ x, x ∈ cs ↔ EscMem (alphabetOr wa) c x := by
  have key : ∀ (neg : Bool) (items : List ReItem), ItemsWF neg true items → items ≠ [] →
      (∀ c, ReItem.esc c ∉ items) → _ := fun neg items h1 h2 h3 =>
    parseBracketWith_spec (esc := fun _ => .error .runtimeError) (S := alphabetOr wa) (wa := wa) h1 (Or.inr h2)
      (fun c hc => absurd hc (h3 c))
  have hd : ∀ neg, ItemsWF neg true [.range '0' '9'] := by
    intro neg; simp [ItemsWF, ReItem.WF]
  have hb : ∀ neg, ItemsWF neg true [.one ' ', .one '\t'] := by
    intro neg; simp [ItemsWF, ReItem.WF]
  have hw : ∀ neg, ItemsWF neg true [.range '0' '9', .range 'A' 'Z', .range 'a' 'z'] := by
    intro neg; simp [ItemsWF, ReItem.WF]
  have hself : ∀ c, c ∈ escapedSelf → ∃ cs, parseEscaped wa ['\\', c] = .ok cs ∧
      ∀ x, x ∈ cs ↔ EscMem (alphabetOr wa) c x := by
    intro c hc
    refine ⟨[c], by simp [parseEscaped, hc], fun x => ?_⟩
    simp only [List.mem_singleton]
    constructor
    · rintro rfl; exact .self hc
    · intro h
      rcases escMem_inv h with h | h | h | h | h | h | h | h | h | h | h | h | h | h
      · exact h.2
      all_goals (obtain ⟨rfl, _⟩ := h; simp [escapedSelf] at hc)
  have hspec : ∀ c a, escapedSpecial c = some a → c ∉ escapedSelf → c ∉ ['A', 'B', 'Z'] →
      (∀ x, x = a ↔ EscMem (alphabetOr wa) c x) → ∃ cs, parseEscaped wa ['\\', c] = .ok cs ∧
      ∀ x, x ∈ cs ↔ EscMem (alphabetOr wa) c x := by
    intro c a h1 h2 h3 h4
    refine ⟨[a], by simp only [parseEscaped, if_neg h2, if_neg h3, h1], fun x => by simpa using h4 x⟩
  have hcls : ∀ c neg items, escapedBracket c = some (classText neg items) → ItemsWF neg true items → items ≠ [] →
      (∀ c, ReItem.esc c ∉ items) → escapedSpecial c = none → c ∉ escapedSelf → c ∉ ['A', 'B', 'Z'] →
      (∀ x, (if neg then x ∈ alphabetOr wa ∧ ¬ ItemsMem (alphabetOr wa) items x else ItemsMem (alphabetOr wa) items x) ↔
        EscMem (alphabetOr wa) c x) → ∃ cs, parseEscaped wa ['\\', c] = .ok cs ∧
      ∀ x, x ∈ cs ↔ EscMem (alphabetOr wa) c x := by
    intro c neg items h1 h2 h3 h4 h5 h6 h7 h8
    obtain ⟨cs, k1, k2⟩ := key neg items h2 h3 h4
    exact ⟨cs, by simp only [parseEscaped, if_neg h6, if_neg h7, h5, h1, k1], fun x => (k2 x).trans (h8 x)⟩
  have hsplit : c ∈ escapedSelf ∨ c = 'a' ∨ c = 'b' ∨ c = 'f' ∨ c = 'n' ∨ c = 'r' ∨ c = 't' ∨ c = 'v' ∨ c = 'd' ∨
      c = 'D' ∨ c = 's' ∨ c = 'S' ∨ c = 'w' ∨ c = 'W' := by
    simp [escapes] at hc
    simp [escapedSelf]
    tauto
  rcases hsplit with h | rfl | rfl | rfl | rfl | rfl | rfl | rfl | rfl | rfl | rfl | rfl | rfl | rfl
  · exact hself c h
  · exact hspec _ '\x07' rfl (by decide) (by decide)
      fun x => ⟨fun h => h ▸ .a, fun h => by simpa [escapedSelf] using escMem_inv h⟩
  · exact hspec _ '\x08' rfl (by decide) (by decide)
      fun x => ⟨fun h => h ▸ .b, fun h => by simpa [escapedSelf] using escMem_inv h⟩
  · exact hspec _ '\x0c' rfl (by decide) (by decide)
      fun x => ⟨fun h => h ▸ .f, fun h => by simpa [escapedSelf] using escMem_inv h⟩
  · exact hspec _ '\n' rfl (by decide) (by decide)
      fun x => ⟨fun h => h ▸ .n, fun h => by simpa [escapedSelf] using escMem_inv h⟩
  · exact hspec _ '\r' rfl (by decide) (by decide)
      fun x => ⟨fun h => h ▸ .r, fun h => by simpa [escapedSelf] using escMem_inv h⟩
  · exact hspec _ '\t' rfl (by decide) (by decide)
      fun x => ⟨fun h => h ▸ .t, fun h => by simpa [escapedSelf] using escMem_inv h⟩
  · exact hspec _ '\x0b' rfl (by decide) (by decide)
      fun x => ⟨fun h => h ▸ .v, fun h => by simpa [escapedSelf] using escMem_inv h⟩
  · refine hcls _ false [.range '0' '9'] rfl (hd _) (by simp) (by simp) rfl (by decide) (by decide) fun x => ⟨fun h => ?_, fun h => ?_⟩
    · simp [ItemsMem, ReItem.Mem] at h; exact .d h.1 h.2
    · simpa [escapedSelf, ItemsMem, ReItem.Mem] using escMem_inv h
  · refine hcls _ true [.range '0' '9'] rfl (hd _) (by simp) (by simp) rfl (by decide) (by decide) fun x => ⟨fun h => ?_, fun h => ?_⟩
    · simp only [ItemsMem, ReItem.Mem, List.mem_singleton, exists_eq_left, if_true] at h; exact .D h.1 h.2
    · simpa [escapedSelf, ItemsMem, ReItem.Mem] using escMem_inv h
  · refine hcls _ false [.one ' ', .one '\t'] rfl (hb _) (by simp) (by simp) rfl (by decide) (by decide) fun x => ⟨fun h => ?_, fun h => ?_⟩
    · simp [ItemsMem, ReItem.Mem] at h; exact .s h
    · simpa [escapedSelf, ItemsMem, ReItem.Mem] using escMem_inv h
  · refine hcls _ true [.one ' ', .one '\t'] rfl (hb _) (by simp) (by simp) rfl (by decide) (by decide) fun x => ⟨fun h => ?_, fun h => ?_⟩
    · simp [ItemsMem, ReItem.Mem] at h; exact .S h.1 (by tauto)
    · have := escMem_inv h
      simp [escapedSelf] at this
      simp [ItemsMem, ReItem.Mem]; tauto
  · refine hcls _ false [.range '0' '9', .range 'A' 'Z', .range 'a' 'z'] rfl (hw _) (by simp) (by simp) rfl (by decide) (by decide) fun x => ⟨fun h => ?_, fun h => ?_⟩
    · simp [ItemsMem, ReItem.Mem] at h; exact .w h
    · simpa [escapedSelf, ItemsMem, ReItem.Mem] using escMem_inv h
  · refine hcls _ true [.range '0' '9', .range 'A' 'Z', .range 'a' 'z'] rfl (hw _) (by simp) (by simp) rfl (by decide) (by decide) fun x => ⟨fun h => ?_, fun h => ?_⟩
    · simp only [ItemsMem, ReItem.Mem, List.mem_cons, List.not_mem_nil, or_false, exists_eq_or_imp, exists_eq_left, if_true] at h
      exact .W h.1 h.2
    · have := escMem_inv h
      simp only [escapedSelf] at this
      simp only [ItemsMem, ReItem.Mem, List.mem_cons, List.not_mem_nil, or_false, exists_eq_or_imp, exists_eq_left, if_true]
      simpa using this

/-- The escape sequences other than `\D`, `\S`, `\W` do not depend on the alphabet. -/
theorem escMem_congr {S S' : List Char} {c x : Char} (hn : c ∉ ['D', 'S', 'W']) : EscMem S c x ↔ EscMem S' c x := by
  have : ∀ S S' : List Char, EscMem S c x → EscMem S' c x := by
    intro S S' hm
    cases hm with
    | self h => exact .self h
    | a => exact .a
    | b => exact .b
    | f => exact .f
    | n => exact .n
    | r => exact .r
    | t => exact .t
    | v => exact .v
    | d h h' => exact .d h h'
    | D h h' => simp at hn
    | s h => exact .s h
    | S h h' => simp at hn
    | w h => exact .w h
    | W h h' => simp at hn
  exact ⟨this _ _, this _ _⟩

theorem itemsWF_esc {c : Char} : ∀ (is : List ReItem) (hat first : Bool), ItemsWF hat first is → ReItem.esc c ∈ is →
    c ∈ escapes := by
  intro is
  induction is with
  | nil => intro _ _ _ h; simp at h
  | cons i is ih =>
    intro hat first h hm
    rcases List.mem_cons.1 hm with rfl | hm
    · exact h.1.1
    · exact ih _ _ h.2 hm

/-- `parse_bracket` on the text of a class. -/
theorem parseBracket_spec {S wa : List Char} {neg : Bool} {items : List ReItem} (hS : S = alphabetOr wa)
    (hwf : ItemsWF neg true items) (hne : neg = true ∨ items ≠ [])
    (hneg : S = defaultAlphabet ∨ ∀ c ∈ ['D', 'S', 'W'], ReItem.esc c ∉ items) :
    ∃ cs, parseBracket wa (classText neg items) = .ok cs ∧
      ∀ x, x ∈ cs ↔ (if neg then x ∈ S ∧ ¬ ItemsMem S items x else ItemsMem S items x) := by
  subst hS
  refine parseBracketWith_spec hwf hne fun c hc => ?_
  have hc' : c ∈ escapes := itemsWF_esc items _ _ hwf hc
  obtain ⟨cs, h1, h2⟩ := parseEscaped_spec [] hc'
  refine ⟨cs, h1, fun x => (h2 x).trans ?_⟩
  rcases hneg with h | h
  · rw [h]; rfl
  · exact escMem_congr fun hc'' => h c hc'' hc

/-! ## Repetitions -/

theorem takeWhile_stop {p : Char → Bool} {u v : List Char} (hu : u.all p = true)
    (hv : ∀ c, v.head? = some c → p c = false) : (u ++ v).takeWhile p = u ∧ (u ++ v).dropWhile p = v := by
  have h : ∀ a ∈ u, p a = true := List.all_eq_true.1 hu
  rw [List.takeWhile_append_of_pos h, List.dropWhile_append_of_pos h]
  cases v with
  | nil => simp
  | cons c v => simp [hv c rfl]

theorem head_digit {C : ReClasses} (hC : C.Sound) {d v : List Char} (hd : d.all C.digit = true) (hne : d ≠ []) :
    ∀ c, (d ++ v).head? = some c → C.space c = false := by
  cases d with
  | nil => exact absurd rfl hne
  | cons x d =>
    intro c hc
    simp only [List.cons_append, List.head?_cons, Option.some.injEq] at hc
    subst hc
    exact hC.disjoint _ (by simp at hd; exact hd.1)

/-- A space is not a digit. -/
theorem space_not_digit {C : ReClasses} (hC : C.Sound) {c : Char} (h : C.space c = true) : C.digit c = false := by
  cases hd : C.digit c with
  | false => rfl
  | true => rw [hC.disjoint c hd] at h; cases h

theorem head_space {C : ReClasses} (hC : C.Sound) {s v : List Char} (hs : s.all C.space = true)
    (hv : ∀ c, v.head? = some c → C.digit c = false) : ∀ c, (s ++ v).head? = some c → C.digit c = false := by
  cases s with
  | nil => exact hv
  | cons x d =>
    intro c hc
    simp only [List.cons_append, List.head?_cons, Option.some.injEq] at hc
    subst hc
    exact space_not_digit hC (by simp at hs; exact hs.1)

/-- The spaces, the number and the spaces. -/
theorem read_number {C : ReClasses} (hC : C.Sound) {s₁ d s₂ v : List Char} (h1 : s₁.all C.space = true)
    (h2 : d.all C.digit = true) (h3 : s₂.all C.space = true) (hne : d ≠ [])
    (hv : ∀ c, v.head? = some c → C.space c = false ∧ C.digit c = false) :
    (s₁ ++ (d ++ (s₂ ++ v))).dropWhile C.space = d ++ (s₂ ++ v) ∧ (d ++ (s₂ ++ v)).takeWhile C.digit = d ∧
      ((d ++ (s₂ ++ v)).dropWhile C.digit).dropWhile C.space = v := by
  have k1 := takeWhile_stop (p := C.space) h1 (head_digit hC h2 hne (v := s₂ ++ v))
  have k2 := takeWhile_stop (p := C.digit) h2 (head_space hC h3 (fun c hc => (hv c hc).2))
  have k3 := takeWhile_stop (p := C.space) h3 (fun c hc => (hv c hc).1)
  exact ⟨k1.2, k2.1, by rw [k2.2, k3.2]⟩

/-- The same for a number which may be missing. -/
theorem read_number' {C : ReClasses} (hC : C.Sound) {s₁ d s₂ v : List Char} (h1 : s₁.all C.space = true)
    (h2 : d.all C.digit = true) (h3 : s₂.all C.space = true)
    (hv : ∀ c, v.head? = some c → C.space c = false ∧ C.digit c = false) :
    ((s₁ ++ (d ++ (s₂ ++ v))).dropWhile C.space).takeWhile C.digit = d ∧
      (((s₁ ++ (d ++ (s₂ ++ v))).dropWhile C.space).dropWhile C.digit).dropWhile C.space = v := by
  by_cases hne : d = []
  · subst hne
    have : (s₁ ++ s₂).all C.space = true := by simp only [List.all_append, h1, h3, Bool.and_self]
    have k1 := takeWhile_stop (p := C.space) this (fun c hc => (hv c hc).1)
    have k2 := takeWhile_stop (p := C.digit) (u := []) (v := v) rfl (fun c hc => (hv c hc).2)
    have k3 := takeWhile_stop (p := C.space) (u := []) (v := v) rfl (fun c hc => (hv c hc).1)
    simp only [List.nil_append, List.append_assoc] at k1 k2 k3 ⊢
    rw [k1.2, k2.1, k2.2, k3.2]
    exact ⟨rfl, rfl⟩
  · obtain ⟨k1, k2, k3⟩ := read_number hC h1 h2 h3 hne hv
    rw [k1, k2, k3]
    exact ⟨rfl, rfl⟩

/-- `parse_repetition` on the text of a repetition. -/
theorem parseRepetition_spec {C : ReClasses} (hC : C.Sound) {f : RepForm} (hf : f.WF C) :
    parseRepetition C f.text = .ok (f.lo C, f.hi C) := by
  cases f with
  | exact s₁ d s₂ =>
    obtain ⟨h1, h2, h3, h4⟩ := hf
    obtain ⟨k1, k2, k3⟩ := read_number hC (v := ['}']) h1 h2 h3 h4
      (fun c hc => by simp at hc; subst hc; exact hC.brace)
    have : d.isEmpty = false := by simpa using h4
    simp only [RepForm.text, List.cons_append, List.append_assoc, parseRepetition, k1, k2, k3, this, RepForm.lo, RepForm.hi]
    rfl
  | range s₁ d s₂ s₃ d' s₄ =>
    obtain ⟨h1, h2, h3, h4, h5, h6, h7, h8⟩ := hf
    obtain ⟨k1, k2, k3⟩ := read_number hC (v := ',' :: (s₃ ++ (d' ++ (s₄ ++ ['}'])))) h1 h2 h3 h4
      (fun c hc => by simp at hc; subst hc; exact hC.comma)
    obtain ⟨j1, j2⟩ := read_number' hC (v := ['}']) h5 h6 h7
      (fun c hc => by simp at hc; subst hc; exact hC.brace)
    have hd : d.isEmpty = false := by simpa using h4
    simp only [RepForm.text, List.cons_append, List.append_assoc, parseRepetition, k1, k2, k3, j1, j2, hd, RepForm.lo,
      RepForm.hi, List.isEmpty_iff]
    by_cases hd' : d' = []
    · simp [hd']
    · have : ¬ toInt C d' < toInt C d := by
        rcases h8 with h | h
        · exact absurd h hd'
        · omega
      simp [hd', this]

/-- Bounds in the wrong order. -/
theorem parseRepetition_bad {C : ReClasses} (hC : C.Sound) {s₁ d s₂ s₃ d' s₄ : List Char} (h1 : s₁.all C.space = true)
    (h2 : d.all C.digit = true) (h3 : s₂.all C.space = true) (h4 : d ≠ []) (h5 : s₃.all C.space = true)
    (h6 : d'.all C.digit = true) (h7 : s₄.all C.space = true) (hd' : d' ≠ []) (hlt : toInt C d' < toInt C d) :
    parseRepetition C ('{' :: (s₁ ++ (d ++ (s₂ ++ ',' :: (s₃ ++ (d' ++ (s₄ ++ ['}']))))))) = .error .valueError := by
  obtain ⟨k1, k2, k3⟩ := read_number hC (v := ',' :: (s₃ ++ (d' ++ (s₄ ++ ['}'])))) h1 h2 h3 h4
    (fun c hc => by simp at hc; subst hc; exact hC.comma)
  obtain ⟨j1, j2⟩ := read_number' hC (v := ['}']) h5 h6 h7
    (fun c hc => by simp at hc; subst hc; exact hC.brace)
  have hd : d.isEmpty = false := by simpa using h4
  simp only [parseRepetition, k1, k2, k3, j1, j2, hd, List.isEmpty_iff]
  simp [hd', hlt]

/-- The content of a repetition is recognised. -/
theorem repContent_spec {C : ReClasses} (hC : C.Sound) {f : RepForm} (hf : f.WF C) :
    ∃ body, f.text = '{' :: body ++ ['}'] ∧ repContent C body = true ∧ '}' ∉ body := by
  have hsp : ∀ {s : List Char}, s.all C.space = true → '}' ∉ s := by
    intro s hs hm
    have := List.all_eq_true.1 hs _ hm
    rw [hC.brace.1] at this; cases this
  have hdg : ∀ {s : List Char}, s.all C.digit = true → '}' ∉ s := by
    intro s hs hm
    have := List.all_eq_true.1 hs _ hm
    rw [hC.brace.2] at this; cases this
  cases f with
  | exact s₁ d s₂ =>
    obtain ⟨h1, h2, h3, h4⟩ := hf
    refine ⟨s₁ ++ (d ++ (s₂ ++ [])), by simp [RepForm.text], ?_, by simp [hsp h1, hsp h3, hdg h2]⟩
    obtain ⟨k1, k2, k3⟩ := read_number hC (v := []) h1 h2 h3 h4 (by simp)
    have : d.isEmpty = false := by simpa using h4
    simp only [repContent, k1, k2, k3, this]
    rfl
  | range s₁ d s₂ s₃ d' s₄ =>
    obtain ⟨h1, h2, h3, h4, h5, h6, h7, h8⟩ := hf
    refine ⟨s₁ ++ (d ++ (s₂ ++ ',' :: (s₃ ++ (d' ++ (s₄ ++ []))))), by simp [RepForm.text], ?_,
      by simp [hsp h1, hsp h3, hsp h5, hsp h7, hdg h2, hdg h6]⟩
    obtain ⟨k1, k2, k3⟩ := read_number hC (v := ',' :: (s₃ ++ (d' ++ (s₄ ++ [])))) h1 h2 h3 h4
      (fun c hc => by simp at hc; subst hc; exact hC.comma)
    obtain ⟨j1, j2⟩ := read_number' hC (v := []) h5 h6 h7 (by simp)
    have : d.isEmpty = false := by simpa using h4
    simp only [repContent, k1, k2, k3, j2, this]
    rfl

theorem digitChar_of_isDigit {c : Char} (h : c.isDigit = true) :
    c.toNat - '0'.toNat < 10 ∧ Nat.digitChar (c.toNat - '0'.toNat) = c := by
  have h' : 48 ≤ c.toNat ∧ c.toNat ≤ 57 := by
    simp only [Char.isDigit, ge_iff_le, Bool.and_eq_true, decide_eq_true_eq] at h
    exact h
  have h0 : '0'.toNat = 48 := rfl
  rw [h0]
  refine ⟨by omega, ?_⟩
  have hc : Char.ofNat c.toNat = c := Char.ofNat_toNat c
  rw [← hc]
  generalize c.toNat = n at h' hc
  have hn : n = 48 ∨ n = 49 ∨ n = 50 ∨ n = 51 ∨ n = 52 ∨ n = 53 ∨ n = 54 ∨ n = 55 ∨ n = 56 ∨ n = 57 := by omega
  rcases hn with rfl | rfl | rfl | rfl | rfl | rfl | rfl | rfl | rfl | rfl <;> rfl

/-- `int` reads the decimal notation. -/
theorem toInt_toDigits {C : ReClasses} (hC : C.Decimal) (n : Nat) :
    toInt C (Nat.toDigits 10 n) = n ∧ (Nat.toDigits 10 n).all C.digit = true := by
  have hd : ∀ c ∈ Nat.toDigits 10 n, C.digit c = true ∧ C.val c = c.toNat - '0'.toNat := by
    intro c hc
    obtain ⟨h1, h2⟩ := digitChar_of_isDigit (Nat.isDigit_of_mem_toDigits (by decide) (by decide) hc)
    have := hC _ h1
    rwa [h2] at this
  refine ⟨?_, List.all_eq_true.2 fun c hc => (hd c hc).1⟩
  have h := Nat.ofDigitChars_toDigits (b := 10) (n := n) (by decide) (by decide)
  rw [Nat.ofDigitChars] at h
  rw [toInt]
  refine Eq.trans ?_ h
  clear h
  generalize 0 = k
  revert hd k
  generalize Nat.toDigits 10 n = l
  induction l with
  | nil => intro _ k; rfl
  | cons c l ih =>
    intro hd k
    simp only [List.foldl_cons]
    rw [(hd c List.mem_cons_self).2]
    exact ih (fun c hc => hd c (List.mem_cons_of_mem _ hc)) _

end RegexText
end PyBGL
