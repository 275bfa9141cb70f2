import Verif.Model.Color
import Verif.Props.C74_C77_Misc
import Verif.Props.C90_GraphvizLines

/-!
# C127: `html_color_to_graphviz`
-/

namespace PyBGL
open Graphviz

/-! ## Specification -/

/-- The value of decimal digits. -/
def decimalValue (ds : List Char) : Nat := ds.foldl (fun n c => 10 * n + (c.toNat - 48)) 0

/-- The texts that Python reads as an integer: digits, possibly in groups separated by `_`, after an optional sign, with white space around. -/
def IntText (x : Text) (n : Int) : Prop :=
  ∃ (l sgn ds : Text) (gs : List Text) (r : Text), x = l ++ sgn ++ ds ++ gs.flatMap (fun g => '_' :: g) ++ r ∧ (∀ c ∈ l, isSpace c = true) ∧ (∀ c ∈ r, isSpace c = true) ∧
    (∀ g ∈ ds :: gs, g ≠ [] ∧ ∀ c ∈ g, '0' ≤ c ∧ c ≤ '9') ∧
    ((sgn = [] ∨ sgn = ['+']) ∧ n = decimalValue (ds ++ gs.flatten) ∨ sgn = ['-'] ∧ n = -decimalValue (ds ++ gs.flatten))

/-- The HSL colour `(h, s, l)` and the HSV colour `(h', s', v)` are the same: same hue, and the largest and the smallest of the components red, green
and blue are the same. For HSL their mean is `l` and their difference is `s` times the largest possible one for this mean; for HSV the largest
is `v` and their difference is `s' v`. -/
def SameColor {K : Type} [Field K] [LinearOrder K] (h s l h' s' v : K) : Prop :=
  h = h' ∧ ∃ M m : K, (M + m) / 2 = l ∧ M - m = s * (if l ≤ 1 / 2 then 2 * l else 2 * (1 - l)) ∧ M = v ∧ M - m = s' * v

/-! ## Reading integers -/

namespace Graphviz

theorem isDig_iff (c : Char) : isDig c = true ↔ '0' ≤ c ∧ c ≤ '9' := by simp [isDig]

theorem intDigits_iff (t : Text) : ∀ (acc n : Nat), intDigits acc t = some n ↔
    ∃ (ds : Text) (gs : List Text), t = ds ++ gs.flatMap (fun g => '_' :: g) ∧ (∀ c ∈ ds, isDig c = true) ∧ (∀ g ∈ gs, g ≠ [] ∧ ∀ c ∈ g, isDig c = true) ∧
      n = (ds ++ gs.flatten).foldl (fun n c => 10 * n + (c.toNat - 48)) acc := by
  induction t using Nat.strongRecMeasure List.length with
  | ind t ih =>
    intro acc n
    cases t with
    | nil =>
      rw [intDigits]
      constructor
      · intro h
        simp at h
        exact ⟨[], [], by simp [h]⟩
      · rintro ⟨ds, gs, h1, _, _, h4⟩
        have h1 := h1.symm
        rw [List.append_eq_nil_iff] at h1
        obtain ⟨rfl, h1⟩ := h1
        cases gs with
        | nil => simpa using h4.symm
        | cons g gs => simp at h1
    | cons c t =>
      rw [intDigits.eq_def]
      simp only
      by_cases hc : isDig c = true
      · rw [if_pos hc, ih t (by simp)]
        constructor
        · rintro ⟨ds, gs, h1, h2, h3, h4⟩
          exact ⟨c :: ds, gs, by simp [h1], by simpa [hc] using h2, h3, by simpa using h4⟩
        · rintro ⟨ds, gs, h1, h2, h3, h4⟩
          cases ds with
          | nil =>
            cases gs with
            | nil => simp at h1
            | cons g gs => simp at h1; rw [h1.1] at hc; exact absurd hc (by decide)
          | cons d ds =>
            simp at h1
            obtain ⟨rfl, rfl⟩ := h1
            exact ⟨ds, gs, rfl, fun c hc => h2 c (by simp [hc]), h3, by simpa using h4⟩
      · rw [if_neg hc]
        by_cases hu : c = '_'
        · subst hu
          rw [if_pos rfl]
          cases t with
          | nil =>
            simp only
            constructor
            · intro h; cases h
            · rintro ⟨ds, gs, h1, h2, h3, h4⟩
              cases ds with
              | nil =>
                cases gs with
                | nil => simp at h1
                | cons g gs =>
                  simp at h1
                  exact absurd h1.1 (h3 g (by simp)).1
              | cons d ds => simp at h1; exact absurd (h2 d (by simp)) (by rw [← h1.1]; exact hc)
          | cons d t =>
            simp only
            by_cases hd : isDig d = true
            · rw [if_pos hd, ih t (by simp; omega)]
              constructor
              · rintro ⟨ds, gs, h1, h2, h3, h4⟩
                refine ⟨[], (d :: ds) :: gs, by simp [h1], by simp, ?_, by simpa using h4⟩
                intro g hg
                rcases List.mem_cons.mp hg with rfl | hg
                · exact ⟨by simp, by simpa [hd] using h2⟩
                · exact h3 g hg
              · rintro ⟨ds, gs, h1, h2, h3, h4⟩
                cases ds with
                | nil =>
                  cases gs with
                  | nil => simp at h1
                  | cons g gs =>
                    obtain ⟨hg, hg'⟩ := h3 g (by simp)
                    cases g with
                    | nil => exact absurd rfl hg
                    | cons x g =>
                      simp at h1
                      obtain ⟨rfl, rfl⟩ := h1
                      exact ⟨g, gs, rfl, fun c hc => hg' c (by simp [hc]), fun g hg => h3 g (by simp [hg]), by simpa using h4⟩
                | cons x ds => simp at h1; exact absurd (h2 x (by simp)) (by rw [← h1.1]; exact hc)
            · rw [if_neg hd]
              constructor
              · intro h; cases h
              · rintro ⟨ds, gs, h1, h2, h3, h4⟩
                cases ds with
                | nil =>
                  cases gs with
                  | nil => simp at h1
                  | cons g gs =>
                    obtain ⟨hg, hg'⟩ := h3 g (by simp)
                    cases g with
                    | nil => exact absurd rfl hg
                    | cons x g =>
                      simp at h1
                      exact absurd (hg' x (by simp)) (by rw [← h1.1]; exact hd)
                | cons x ds => simp at h1; exact absurd (h2 x (by simp)) (by rw [← h1.1]; exact hc)
        · rw [if_neg hu]
          constructor
          · intro h; cases h
          · rintro ⟨ds, gs, h1, h2, h3, h4⟩
            cases ds with
            | nil =>
              cases gs with
              | nil => simp at h1
              | cons g gs => simp at h1; exact absurd h1.1 hu
            | cons d ds => simp at h1; exact absurd (h2 d (by simp)) (by rw [← h1.1]; exact hc)

/-- The texts that `intNat` reads. -/
def Digits (t : Text) (n : Nat) : Prop :=
  ∃ (ds : Text) (gs : List Text), t = ds ++ gs.flatMap (fun g => '_' :: g) ∧ (∀ g ∈ ds :: gs, g ≠ [] ∧ ∀ c ∈ g, isDig c = true) ∧ n = decimalValue (ds ++ gs.flatten)

theorem intNat_iff (t : Text) (n : Nat) : intNat t = some n ↔ Digits t n := by
  cases t with
  | nil =>
    rw [intNat]
    constructor
    · intro h; cases h
    · rintro ⟨ds, gs, h1, h2, _⟩
      have h1 := h1.symm
      rw [List.append_eq_nil_iff] at h1
      exact absurd h1.1 (h2 ds (by simp)).1
  | cons c t =>
    rw [intNat]
    by_cases hc : isDig c = true
    · rw [if_pos hc, intDigits_iff]
      constructor
      · rintro ⟨ds, gs, h1, h2, h3, h4⟩
        refine ⟨c :: ds, gs, by simp [h1], ?_, by simpa [decimalValue] using h4⟩
        intro g hg
        rcases List.mem_cons.mp hg with rfl | hg
        · exact ⟨by simp, by simpa [hc] using h2⟩
        · exact h3 g hg
      · rintro ⟨ds, gs, h1, h2, h3⟩
        obtain ⟨hne, hds⟩ := h2 ds (by simp)
        cases ds with
        | nil => exact absurd rfl hne
        | cons d ds =>
          simp at h1
          obtain ⟨rfl, rfl⟩ := h1
          exact ⟨ds, gs, rfl, fun c hc => hds c (by simp [hc]), fun g hg => h2 g (by simp [hg]), by simpa [decimalValue] using h3⟩
    · rw [if_neg hc]
      constructor
      · intro h; cases h
      · rintro ⟨ds, gs, h1, h2, h3⟩
        obtain ⟨hne, hds⟩ := h2 ds (by simp)
        cases ds with
        | nil => exact absurd rfl hne
        | cons d ds => simp at h1; exact absurd (hds d (by simp)) (by rw [← h1.1]; exact hc)

theorem isSpace_dig {c : Char} (h : isDig c = true) : isSpace c = false := isSpace_of_isDig h

theorem strip_of {l t r : Text} (hl : ∀ c ∈ l, isSpace c = true) (hr : ∀ c ∈ r, isSpace c = true)
    (h1 : ∀ c, t.head? = some c → isSpace c = false) (h2 : ∀ c, t.getLast? = some c → isSpace c = false) (hne : t ≠ []) :
    strip (l ++ t ++ r) = t := by
  have e1 : (l ++ t ++ r).dropWhile isSpace = t ++ r := by
    rw [List.append_assoc, List.dropWhile_append_of_pos hl]
    apply dropWhile_of_head
    intro c hc
    cases t with
    | nil => exact absurd rfl hne
    | cons d t => exact h1 c (by simpa using hc)
  unfold strip
  rw [e1, List.reverse_append, List.dropWhile_append_of_pos (fun c hc => hr c (by simpa using hc)), dropWhile_of_head, List.reverse_reverse]
  intro c hc
  rw [List.head?_reverse] at hc
  exact h2 c hc

theorem Digits.ends {t : Text} {n : Nat} (h : Digits t n) :
    t ≠ [] ∧ (∀ c, t.head? = some c → isDig c = true) ∧ ∀ c, t.getLast? = some c → isDig c = true := by
  obtain ⟨ds, gs, rfl, h2, _⟩ := h
  obtain ⟨hne, hds⟩ := h2 ds (by simp)
  refine ⟨by simp [hne], ?_, ?_⟩
  · intro c hc
    cases ds with
    | nil => exact absurd rfl hne
    | cons d ds => simp at hc; exact hc ▸ hds d (by simp)
  · intro c hc
    rcases List.eq_nil_or_concat gs with rfl | ⟨gs', g, rfl⟩
    · simp at hc
      exact hds c (List.mem_of_getLast? hc)
    · obtain ⟨hg, hg'⟩ := h2 g (by simp)
      obtain ⟨g', x, rfl⟩ := (List.eq_nil_or_concat g).resolve_left hg
      have : c = x := by
        have e : ds ++ (gs' ++ [g' ++ [x]]).flatMap (fun g => '_' :: g) = (ds ++ gs'.flatMap (fun g => '_' :: g) ++ '_' :: g') ++ [x] := by simp
        rw [List.concat_eq_append, List.concat_eq_append, e, List.getLast?_concat] at hc
        simpa using hc.symm
      rw [this]; exact hg' x (by simp)

theorem pyInt_ok (x : Text) (n : Int) : pyInt x = .ok n ↔
    ∃ m, (Digits (strip x) m ∧ n = m) ∨ ∃ t, (strip x = '+' :: t ∧ Digits t m ∧ n = m) ∨ (strip x = '-' :: t ∧ Digits t m ∧ n = -m) := by
  have hdig : ∀ {c : Char} {t : Text} {m : Nat}, isDig c = false → ¬ Digits (c :: t) m := fun hc h => by
    have := h.ends.2.1 _ rfl
    rw [hc] at this; cases this
  unfold pyInt
  split
  · rename_i t ht
    rw [ht]
    cases hi : intNat t with
    | none =>
      constructor
      · intro h; cases h
      · rintro ⟨m, ⟨h, _⟩ | ⟨t', ⟨h, _⟩ | ⟨h, h', _⟩⟩⟩
        · exact absurd h (hdig (by decide))
        · cases h
        · cases h
          rw [← intNat_iff, hi] at h'; cases h'
    | some k =>
      constructor
      · intro h; cases h
        exact ⟨k, .inr ⟨t, .inr ⟨rfl, (intNat_iff t k).mp hi, rfl⟩⟩⟩
      · rintro ⟨m, ⟨h, _⟩ | ⟨t', ⟨h, _⟩ | ⟨h, h', rfl⟩⟩⟩
        · exact absurd h (hdig (by decide))
        · cases h
        · cases h
          rw [← intNat_iff, hi] at h'; cases h'; rfl
  · rename_i t ht
    rw [ht]
    cases hi : intNat t with
    | none =>
      constructor
      · intro h; cases h
      · rintro ⟨m, ⟨h, _⟩ | ⟨t', ⟨h, h', _⟩ | ⟨h, _⟩⟩⟩
        · exact absurd h (hdig (by decide))
        · cases h
          rw [← intNat_iff, hi] at h'; cases h'
        · cases h
    | some k =>
      constructor
      · intro h; cases h
        exact ⟨k, .inr ⟨t, .inl ⟨rfl, (intNat_iff t k).mp hi, rfl⟩⟩⟩
      · rintro ⟨m, ⟨h, _⟩ | ⟨t', ⟨h, h', rfl⟩ | ⟨h, _⟩⟩⟩
        · exact absurd h (hdig (by decide))
        · cases h
          rw [← intNat_iff, hi] at h'; cases h'; rfl
        · cases h
  · rename_i t hm hp
    cases hi : intNat (strip x) with
    | none =>
      constructor
      · intro h; cases h
      · rintro ⟨m, ⟨h, _⟩ | ⟨t', ⟨h, _⟩ | ⟨h, _⟩⟩⟩
        · rw [← intNat_iff, hi] at h; cases h
        · exact absurd h (hp _)
        · exact absurd h (hm _)
    | some k =>
      constructor
      · intro h; cases h
        exact ⟨k, .inl ⟨(intNat_iff _ k).mp hi, rfl⟩⟩
      · rintro ⟨m, ⟨h, rfl⟩ | ⟨t', ⟨h, _⟩ | ⟨h, _⟩⟩⟩
        · rw [← intNat_iff, hi] at h; cases h; rfl
        · exact absurd h (hp _)
        · exact absurd h (hm _)

theorem pyInt_error {x : Text} {e : PyErr} (h : pyInt x = .error e) : e = .valueError := by
  unfold pyInt at h
  split at h <;> split at h <;> cases h <;> rfl

end Graphviz

/-- **C127** (`int`): the components read are the texts of integers, with their value; otherwise `ValueError`. -/
theorem C127_int (x : Text) :
    (∀ n, pyInt x = .ok n ↔ IntText x n) ∧ ((¬ ∃ n, IntText x n) → pyInt x = .error .valueError) := by
  have key : ∀ n, pyInt x = .ok n ↔ IntText x n := by
    intro n
    rw [pyInt_ok]
    constructor
    · obtain ⟨l, r, h1, h2, h3, _, _⟩ := strip_spec x
      rintro ⟨m, ⟨⟨ds, gs, e1, e2, e3⟩, rfl⟩ | ⟨t, ⟨e, ⟨ds, gs, e1, e2, e3⟩, rfl⟩ | ⟨e, ⟨ds, gs, e1, e2, e3⟩, rfl⟩⟩⟩
      · exact ⟨l, [], ds, gs, r, by rw [e1] at h1; simpa using h1, h2, h3, fun g hg => ⟨(e2 g hg).1, fun c hc => (isDig_iff c).mp ((e2 g hg).2 c hc)⟩,
          .inl ⟨.inl rfl, by rw [e3]⟩⟩
      · exact ⟨l, ['+'], ds, gs, r, by rw [e, e1] at h1; simpa using h1, h2, h3,
          fun g hg => ⟨(e2 g hg).1, fun c hc => (isDig_iff c).mp ((e2 g hg).2 c hc)⟩, .inl ⟨.inr rfl, by rw [e3]⟩⟩
      · exact ⟨l, ['-'], ds, gs, r, by rw [e, e1] at h1; simpa using h1, h2, h3,
          fun g hg => ⟨(e2 g hg).1, fun c hc => (isDig_iff c).mp ((e2 g hg).2 c hc)⟩, .inr ⟨rfl, by rw [e3]⟩⟩
    · rintro ⟨l, sgn, ds, gs, r, rfl, h2, h3, h4, h5⟩
      have hd : Digits (ds ++ gs.flatMap (fun g => '_' :: g)) (decimalValue (ds ++ gs.flatten)) :=
        ⟨ds, gs, rfl, fun g hg => ⟨(h4 g hg).1, fun c hc => (isDig_iff c).mpr ((h4 g hg).2 c hc)⟩, rfl⟩
      obtain ⟨hne, hh, ht⟩ := hd.ends
      have hs : ∀ s : Char, isSpace s = false → strip (l ++ [s] ++ ds ++ gs.flatMap (fun g => '_' :: g) ++ r) =
          s :: (ds ++ gs.flatMap (fun g => '_' :: g)) := by
        intro s hs
        have := strip_of (l := l) (t := s :: (ds ++ gs.flatMap (fun g => '_' :: g))) (r := r) h2 h3 (by simp [hs]) (fun c hc => by
          rw [List.getLast?_cons_of_ne_nil hne] at hc
          exact isSpace_dig (ht c hc)) (by simp)
        simpa using this
      rcases h5 with ⟨rfl | rfl, rfl⟩ | ⟨rfl, rfl⟩
      · refine ⟨_, .inl ⟨?_, rfl⟩⟩
        have := strip_of (l := l) (r := r) h2 h3 (fun c hc => isSpace_dig (hh c hc)) (fun c hc => isSpace_dig (ht c hc)) hne
        rw [List.append_nil, List.append_assoc l, this]
        exact hd
      · exact ⟨_, .inr ⟨_, .inl ⟨hs '+' (by decide), hd, rfl⟩⟩⟩
      · exact ⟨_, .inr ⟨_, .inr ⟨hs '-' (by decide), hd, rfl⟩⟩⟩
  refine ⟨key, fun h => ?_⟩
  cases hx : pyInt x with
  | ok n => exact absurd ⟨n, (key n).mp hx⟩ h
  | error e => rw [pyInt_error hx]

namespace Graphviz

theorem splitOn_join (c : Char) : ∀ (xs : List Text) (cur x : Text), (∀ y ∈ x :: xs, c ∉ y) →
    splitOn c cur (join [c] (x :: xs)) = (cur.reverse ++ x) :: xs := by
  have h0 : ∀ (x t cur : Text), c ∉ x → splitOn c cur (x ++ t) = splitOn c (x.reverse ++ cur) t := by
    intro x
    induction x with
    | nil => intro t cur _; rfl
    | cons d x ih =>
      intro t cur h
      simp only [List.mem_cons, not_or] at h
      rw [List.cons_append, splitOn, if_neg (fun e => h.1 e.symm), ih _ _ h.2]
      simp
  intro xs
  induction xs with
  | nil =>
    intro cur x h
    rw [join, ← List.append_nil x, h0 _ _ _ (h x (by simp)), splitOn]
    simp
  | cons y xs ih =>
    intro cur x h
    rw [join, List.append_assoc, h0 _ _ _ (h x (by simp)), List.singleton_append, splitOn, if_pos rfl, ih [] y (fun z hz => h z (by simp [hz]))]
    · simp
    · simp

theorem betweenParens_eq {name body suffix : Text} (hn : '(' ∉ name) (hs : ')' ∉ suffix) :
    betweenParens (name ++ '(' :: body ++ ')' :: suffix) = body := by
  have e1 : (name ++ '(' :: body ++ ')' :: suffix).findIdx? (· = '(') = some name.length := by
    rw [List.append_assoc, List.findIdx?_append]
    have : name.findIdx? (· = '(') = none := by
      rw [List.findIdx?_eq_none_iff]
      intro x hx; simp; rintro rfl; exact hn hx
    rw [this]
    simp [List.findIdx?_cons]
  have e2 : (name ++ '(' :: body ++ ')' :: suffix).reverse.findIdx? (· = ')') = some suffix.length := by
    have : (name ++ '(' :: body ++ ')' :: suffix).reverse = suffix.reverse ++ ')' :: (name ++ '(' :: body).reverse := by simp
    rw [this, List.findIdx?_append]
    have : suffix.reverse.findIdx? (· = ')') = none := by
      rw [List.findIdx?_eq_none_iff]
      intro x hx; simp; rintro rfl; exact hs (by simpa using hx)
    rw [this]
    simp [List.findIdx?_cons]
  unfold betweenParens
  rw [e1, e2]
  simp only
  have : (name ++ '(' :: body ++ ')' :: suffix).length - 1 - suffix.length = (name ++ '(' :: body).length := by simp; omega
  rw [this, List.take_left]
  have : name ++ '(' :: body = (name ++ ['(']) ++ body := by simp
  rw [this]
  apply List.drop_left'
  simp

theorem mapM_ok_cons {A B : Type} (f : A → Except PyErr B) (x : A) (xs : List A) :
    (x :: xs).mapM f = (do let y ← f x; let ys ← xs.mapM f; pure (y :: ys)) := by simp

end Graphviz

section
variable {K : Type} [Field K] [LinearOrder K] [IsStrictOrderedRing K]

omit [IsStrictOrderedRing K] in
/-- **C127**: a colour which does not start with `hsl` is returned unchanged. -/
theorem C127_other (str : K → Text) {color : Text} (h : ¬ ['h', 's', 'l'] <+: color) : htmlColorToGraphviz str color = .ok color := by
  unfold htmlColorToGraphviz
  rw [if_neg]
  rwa [List.isPrefixOf_iff_prefix]

/-- **C127**: `hsl(h, s%, l%)` is read as three integers; the text returned has the three components, in `[0, 1]` if `s` and `l` are between 0 and 100
and `h` between 0 and 360, of the HSV colour which is the same as the HSL colour `(h / 360, s / 100, l / 100)`. -/
theorem C127_hsl (str : K → Text) {name suffix x1 x2 x3 : Text} {h s l : Int} (hn : '(' ∉ name) (hs : ')' ∉ suffix)
    (hx1 : ',' ∉ x1) (hx2 : ',' ∉ x2) (hx3 : ',' ∉ x3) (h1 : IntText (x1.filter (· ≠ '%')) h) (h2 : IntText (x2.filter (· ≠ '%')) s)
    (h3 : IntText (x3.filter (· ≠ '%')) l) (hs0 : 0 ≤ s) (hs1 : s ≤ 100) (hl0 : 0 ≤ l) (hl1 : l ≤ 100) :
    ∃ hue saturation value : K,
      htmlColorToGraphviz str (['h', 's', 'l'] ++ name ++ ['('] ++ x1 ++ [','] ++ x2 ++ [','] ++ x3 ++ [')'] ++ suffix) =
        .ok (str hue ++ [',', ' '] ++ str saturation ++ [',', ' '] ++ str value) ∧
      SameColor ((h : K) / 360) ((s : K) / 100) ((l : K) / 100) hue saturation value ∧
      0 ≤ saturation ∧ saturation ≤ 1 ∧ 0 ≤ value ∧ value ≤ 1 ∧ (0 ≤ h → h ≤ 360 → 0 ≤ hue ∧ hue ≤ 1) := by
  have es : (['h', 's', 'l'] ++ name ++ ['('] ++ x1 ++ [','] ++ x2 ++ [','] ++ x3 ++ [')'] ++ suffix : Text) =
      (['h', 's', 'l'] ++ name) ++ '(' :: join [','] [x1, x2, x3] ++ ')' :: suffix := by simp [join]
  have ebody := betweenParens_eq (name := ['h', 's', 'l'] ++ name) (body := join [','] [x1, x2, x3]) (suffix := suffix) (by simp [hn]) hs
  have esplit := splitOn_join ',' [x2, x3] [] x1 (by simp [hx1, hx2, hx3])
  have k1 := ((C127_int _).1 _).mpr h1
  have k2 := ((C127_int _).1 _).mpr h2
  have k3 := ((C127_int _).1 _).mpr h3
  have hS0 : (0 : K) ≤ (s : K) / 100 := div_nonneg (by exact_mod_cast hs0) (by norm_num)
  have hS1 : (s : K) / 100 ≤ 1 := by rw [div_le_one (by norm_num)]; exact_mod_cast hs1
  have hL0 : (0 : K) ≤ (l : K) / 100 := div_nonneg (by exact_mod_cast hl0) (by norm_num)
  have hL1 : (l : K) / 100 ≤ 1 := by rw [div_le_one (by norm_num)]; exact_mod_cast hl1
  obtain ⟨s', v, e, r1, r2, r3, r4⟩ := C74_hsv_range ((h : K) / 360) hL0 hL1 hS0 hS1
  refine ⟨(h : K) / 360, s', v, ?_, ?_, r1, r2, r3, r4, ?_⟩
  · rw [es]
    unfold htmlColorToGraphviz
    rw [if_pos (by simp [List.isPrefixOf]), ebody, esplit]
    simp only [List.reverse_nil, List.nil_append, List.mapM_cons, List.mapM_nil, k1, k2, k3]
    simp only [normalizeColorTuple, e, bind, Except.bind, pure, Except.pure]
    simp [join]
  · unfold hslToHsv at e
    simp only [Prod.mk.injEq, true_and] at e
    obtain ⟨e1, e2⟩ := e
    generalize hS : (s : K) / 100 = S at *
    generalize hL : (l : K) / 100 = L at *
    rw [e2] at e1
    refine ⟨rfl, v, 2 * L - v, by ring, ?_, rfl, ?_⟩
    · split
      · rename_i hle
        rw [min_eq_left (by linarith)] at e2
        linarith
      · rename_i hle
        rw [min_eq_right (by linarith)] at e2
        linarith
    · by_cases hv : v = 0
      · rw [if_pos hv] at e1
        have : L = 0 := by
          have : 0 ≤ S * min L (1 - L) := mul_nonneg hS0 (le_min hL0 (by linarith))
          linarith
        rw [this, hv]; ring
      · rw [if_neg hv] at e1
        rw [← e1]; field_simp; ring
  · intro a b
    exact ⟨div_nonneg (by exact_mod_cast a) (by norm_num), by rw [div_le_one (by norm_num)]; exact_mod_cast b⟩

omit [IsStrictOrderedRing K] in
/-- **C127**: if the text between the parentheses is not made of exactly three integers separated by commas, `ValueError` is raised. -/
theorem C127_value_error (str : K → Text) {name suffix x : Text} {xs : List Text} (hn : '(' ∉ name) (hs : ')' ∉ suffix)
    (hx : ∀ y ∈ x :: xs, ',' ∉ y) (h : (x :: xs).length ≠ 3 ∨ ∃ y ∈ x :: xs, ¬ ∃ n, IntText (y.filter (· ≠ '%')) n) :
    htmlColorToGraphviz str (['h', 's', 'l'] ++ name ++ ['('] ++ join [','] (x :: xs) ++ [')'] ++ suffix) = .error .valueError := by
  have es : (['h', 's', 'l'] ++ name ++ ['('] ++ join [','] (x :: xs) ++ [')'] ++ suffix : Text) =
      (['h', 's', 'l'] ++ name) ++ '(' :: join [','] (x :: xs) ++ ')' :: suffix := by simp
  rw [es]
  unfold htmlColorToGraphviz
  rw [if_pos (by simp [List.isPrefixOf]), betweenParens_eq (by simp [hn]) hs, splitOn_join ',' xs [] x hx]
  simp only [List.reverse_nil, List.nil_append]
  have hm : ∀ ys : List Text, (∃ ns, ys.mapM (fun x => pyInt (x.filter (· ≠ '%'))) = .ok ns ∧ ns.length = ys.length ∧
        ∀ y ∈ ys, ∃ n, IntText (y.filter (· ≠ '%')) n) ∨ ys.mapM (fun x => pyInt (x.filter (· ≠ '%'))) = .error .valueError := by
    intro ys
    induction ys with
    | nil => exact .inl ⟨[], by simp [pure, Except.pure]⟩
    | cons y ys ih =>
      rw [mapM_ok_cons]
      cases hy : pyInt (y.filter (· ≠ '%')) with
      | error e => rw [pyInt_error hy]; exact .inr rfl
      | ok n =>
        rcases ih with ⟨ns, e1, e2, e3⟩ | e
        · rw [e1]
          refine .inl ⟨n :: ns, rfl, by simp [e2], ?_⟩
          intro z hz
          rcases List.mem_cons.mp hz with rfl | hz
          · exact ⟨n, ((C127_int _).1 n).mp hy⟩
          · exact e3 z hz
        · rw [e]; exact .inr rfl
  rcases hm (x :: xs) with ⟨ns, e1, e2, e3⟩ | e
  · rw [e1]
    rcases h with h | ⟨y, hy, h⟩
    · rw [← e2] at h
      match ns, h with
      | [], _ => rfl
      | [_], _ => rfl
      | [_, _], _ => rfl
      | [_, _, _], h => exact absurd rfl h
      | _ :: _ :: _ :: _ :: _, _ => rfl
    · exact absurd (e3 y hy) h
  · rw [e]; rfl

omit [IsStrictOrderedRing K] in
/-- **C127**: if the closing parenthesis is missing, the last character, whatever it is, is taken for it: `hsl(10, 20, 304` is `hsl(10, 20, 30)`. -/
theorem C127_unclosed (str : K → Text) {name body : Text} (c : Char) (hn : '(' ∉ name) (hn' : ')' ∉ name) (hb : ')' ∉ body) (hc : c ≠ ')') :
    htmlColorToGraphviz str (['h', 's', 'l'] ++ name ++ ['('] ++ body ++ [c]) =
      htmlColorToGraphviz str (['h', 's', 'l'] ++ name ++ ['('] ++ body ++ [')']) := by
  have e2 : betweenParens (['h', 's', 'l'] ++ name ++ ['('] ++ body ++ [')']) = body := by
    have := betweenParens_eq (name := ['h', 's', 'l'] ++ name) (body := body) (suffix := []) (by simp [hn]) (by simp)
    simpa using this
  have e1 : betweenParens (['h', 's', 'l'] ++ name ++ ['('] ++ body ++ [c]) = body := by
    have f1 : (['h', 's', 'l'] ++ name ++ ['('] ++ body ++ [c]).findIdx? (· = '(') = some (['h', 's', 'l'] ++ name).length := by
      rw [List.append_assoc, List.append_assoc, List.findIdx?_append]
      have : (['h', 's', 'l'] ++ name).findIdx? (· = '(') = none := by
        rw [List.findIdx?_eq_none_iff]
        intro x hx; simp; rintro rfl; simp [hn] at hx
      rw [this]
      simp [List.findIdx?_cons]
    have f2 : (['h', 's', 'l'] ++ name ++ ['('] ++ body ++ [c]).reverse.findIdx? (· = ')') = none := by
      rw [List.findIdx?_eq_none_iff]
      intro x hx; simp; rintro rfl
      simp [hn', hb] at hx
      exact hc hx.symm
    unfold betweenParens
    rw [f1, f2]
    simp only
    have : (['h', 's', 'l'] ++ name ++ ['('] ++ body ++ [c]).length - 1 = (['h', 's', 'l'] ++ name ++ ['('] ++ body).length := by simp; omega
    rw [this, List.take_left]
    exact List.drop_left' (by simp)
  unfold htmlColorToGraphviz
  rw [if_pos (by simp [List.isPrefixOf]), if_pos (by simp [List.isPrefixOf]), e1, e2]

example : '(' ∉ ([] : Text) ∧ ')' ∉ ([] : Text) ∧ ')' ∉ ['1', ',', '2', ',', '3'] ∧ '4' ≠ ')' := by decide

omit [IsStrictOrderedRing K] in
/-- **C127**: if there is no opening parenthesis, `ValueError` is raised: the name of the colour space itself is read as a number. -/
theorem C127_unopened (str : K → Text) {rest : Text} (hr : '(' ∉ rest) :
    htmlColorToGraphviz str (['h', 's', 'l'] ++ rest) = .error .valueError := by
  have f1 : (['h', 's', 'l'] ++ rest).findIdx? (· = '(') = none := by
    rw [List.findIdx?_eq_none_iff]
    intro x hx; simp; rintro rfl; simp [hr] at hx
  obtain ⟨t, ht⟩ : ∃ t, betweenParens (['h', 's', 'l'] ++ rest) = 'h' :: t := by
    unfold betweenParens
    rw [f1]
    simp only [List.drop_zero]
    obtain ⟨n, hn⟩ : ∃ n, (match (['h', 's', 'l'] ++ rest).reverse.findIdx? (· = ')') with
        | some k => (['h', 's', 'l'] ++ rest).length - 1 - k
        | none => (['h', 's', 'l'] ++ rest).length - 1) = n + 1 := by
      cases hf : (['h', 's', 'l'] ++ rest).reverse.findIdx? (· = ')') with
      | none => exact ⟨rest.length + 1, by simp⟩
      | some k =>
        have hk : k < rest.length := by
          rw [List.reverse_append, List.findIdx?_append] at hf
          cases h1 : rest.reverse.findIdx? (· = ')') with
          | some k' =>
            rw [h1] at hf
            have := List.findIdx?_eq_some_iff_findIdx_eq.mp h1
            simp at hf this
            omega
          | none => rw [h1] at hf; simp [List.findIdx?_cons] at hf
        exact ⟨rest.length + 1 - k, by simp; omega⟩
    exact ⟨_, (congrArg (fun k => List.take k (['h', 's', 'l'] ++ rest)) hn).trans rfl⟩
  have hsp : ∀ (t cur : Text), ∃ w ys, splitOn ',' cur t = (cur.reverse ++ w) :: ys := by
    intro t
    induction t with
    | nil => intro cur; exact ⟨[], [], by simp [splitOn]⟩
    | cons d t ih =>
      intro cur
      unfold splitOn
      split
      · exact ⟨[], _, by simp; rfl⟩
      · obtain ⟨w, ys, e⟩ := ih (d :: cur)
        exact ⟨d :: w, ys, by rw [e]; simp⟩
  obtain ⟨w, ys, hw⟩ := hsp t ['h']
  have hi : pyInt ((['h'] ++ w : Text).filter (· ≠ '%')) = .error .valueError := by
    refine (C127_int _).2 ?_
    rintro ⟨n, l, sgn, ds, gs, r, e, h1, h2, h3, h4⟩
    have hd : ∀ g ∈ ds :: gs, 'h' ∉ g := fun g hg hh => absurd ((h3 g hg).2 'h' hh).2 (by decide)
    have : 'h' ∈ l ++ sgn ++ ds ++ gs.flatMap (fun g => '_' :: g) ++ r := by rw [← e]; simp
    simp only [List.mem_append, List.mem_flatMap, List.mem_cons] at this
    rcases this with (((h | h) | h) | ⟨g, hg, h | h⟩) | h
    · exact absurd (h1 _ h) (by decide)
    · rcases h4 with ⟨rfl | rfl, _⟩ | ⟨rfl, _⟩ <;> simp at h
    · exact hd ds (by simp) h
    · cases h
    · exact hd g (by simp [hg]) h
    · exact absurd (h2 _ h) (by decide)
  unfold htmlColorToGraphviz
  rw [if_pos (by simp [List.isPrefixOf]), ht]
  have : splitOn ',' [] ('h' :: t) = (['h'] ++ w) :: ys := by
    rw [splitOn, if_neg (by decide), hw]; simp
  rw [this, mapM_ok_cons, hi]
  rfl

example : '(' ∉ [' ', '1', ',', '2'] := by decide

omit [IsStrictOrderedRing K] in
/-- **C127**: no other exception is raised. -/
theorem C127_only_value_error (str : K → Text) (color : Text) {e : PyErr} (h : htmlColorToGraphviz str color = .error e) : e = .valueError := by
  have hm : ∀ (ys : List Text) (e : PyErr), ys.mapM (fun x => pyInt (x.filter (· ≠ '%'))) = .error e → e = .valueError := by
    intro ys
    induction ys with
    | nil => intro e h; cases h
    | cons y ys ih =>
      intro e h
      rw [mapM_ok_cons] at h
      cases hy : pyInt (y.filter (· ≠ '%')) with
      | error e' => rw [hy] at h; cases h; exact pyInt_error hy
      | ok n =>
        rw [hy] at h
        cases ht : ys.mapM (fun x => pyInt (x.filter (· ≠ '%'))) with
        | error e' =>
          have : (Except.error e' : Except PyErr (List Int)) = .error e := by rw [← h]; show _ = Except.bind (Except.ok n) _; simp only [Except.bind, bind, ht]
          cases this; exact ih _ ht
        | ok ns =>
          have : (Except.ok (n :: ns) : Except PyErr (List Int)) = .error e := by rw [← h]; show _ = Except.bind (Except.ok n) _; simp only [Except.bind, bind, ht, pure, Except.pure]
          cases this
  unfold htmlColorToGraphviz at h
  split at h
  · cases hl : (splitOn ',' [] (betweenParens color)).mapM fun x => pyInt (x.filter (· ≠ '%')) with
    | error e' =>
      rw [hl] at h
      cases h
      exact hm _ _ hl
    | ok ns =>
      rw [hl] at h
      simp only [bind, Except.bind] at h
      split at h
      · cases h
      · cases h; rfl
  · cases h

end

example : IntText ("173".toList) 173 ∧ IntText (" 71%".toList.filter (· ≠ '%')) 71 ∧ ¬ (∃ n, IntText ("173.5".toList.filter (· ≠ '%')) n) := by
  refine ⟨((C127_int _).1 _).mp (by decide), ((C127_int _).1 _).mp (by decide), ?_⟩
  rintro ⟨n, h⟩
  have := ((C127_int _).1 _).mpr h
  have e : pyInt ("173.5".toList.filter (· ≠ '%')) = .error .valueError := by decide
  rw [e] at this; cases this

example : htmlColorToGraphviz (K := ℚ) (fun x => (toString x).toList) "turquoise".toList = .ok "turquoise".toList :=
  C127_other _ (by decide)

example : ∃ hue saturation value : ℚ, htmlColorToGraphviz (K := ℚ) (fun _ => ['x']) "hsl(173, 71%, 56%)".toList = .ok "x, x, x".toList ∧
    SameColor (173 / 360) (71 / 100) (56 / 100) hue saturation value := by
  obtain ⟨a, b, c, h1, h2, _⟩ := C127_hsl (K := ℚ) (fun _ => ['x']) (name := []) (suffix := []) (x1 := "173".toList) (x2 := " 71%".toList)
    (x3 := " 56%".toList) (h := 173) (s := 71) (l := 56) (by decide) (by decide) (by decide) (by decide) (by decide)
    (((C127_int _).1 _).mp (by decide)) (((C127_int _).1 _).mp (by decide)) (((C127_int _).1 _).mp (by decide)) (by decide) (by decide) (by decide) (by decide)
  exact ⟨a, b, c, h1, by simpa using h2⟩

end PyBGL
