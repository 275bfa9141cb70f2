import Verif.Model.Misc
import Verif.Props.C48_C50_Bfs
import Verif.Props.C51_C54_Dfs
import Verif.Props.C35_C37_Expr
import Mathlib.Data.List.Induction
import Mathlib.Tactic.FieldSimp
import Mathlib.Tactic.Ring
import Mathlib.Tactic.Linarith
import Mathlib.Algebra.Order.Field.Rat

/-!
# C74–C77: colours, Graphviz escapes, property maps, aggregated visitors
-/

namespace PyBGL

/-! ## C74 -/

section Colour
variable {K : Type} [Field K] [LinearOrder K] [IsStrictOrderedRing K]

/-- **C74.** -/
theorem C74_hsv_hsl_hsv (h : K) {s v : K} (hv : 0 < v) (hv1 : v ≤ 1) (hs : 0 ≤ s) (hs1 : s ≤ 1) :
    ∃ s' l, hsvToHsl h s v = (h, s', l) ∧ hslToHsv h s' l = (h, s, v) := by
  have hl0 : 0 < v * (1 - s / 2) := by
    apply mul_pos hv; linarith
  have hl1 : v * (1 - s / 2) ≤ v := by nlinarith
  refine ⟨_, _, rfl, ?_⟩
  generalize hle : v * (1 - s / 2) = l at *
  unfold hslToHsv
  by_cases hl : l = 1
  · have hv' : v = 1 := le_antisymm hv1 (hl ▸ hl1)
    subst hv'
    have : s = 0 := by linarith
    subst this
    simp [hl]
  · have hlt : l < 1 := lt_of_le_of_ne (le_trans hl1 hv1) hl
    have hm : 0 < min l (1 - l) := lt_min hl0 (by linarith)
    have hn : ¬ (l = 0 ∨ l = 1) := by rintro (h | h); exacts [hl0.ne' h, hl h]
    simp only [if_neg hn]
    have e1 : l + (v - l) / min l (1 - l) * min l (1 - l) = v := by
      rw [div_mul_cancel₀ _ hm.ne']; ring
    simp only [e1, if_neg hv.ne']
    have e2 : l / v = 1 - s / 2 := by rw [← hle, mul_div_cancel_left₀ _ hv.ne']
    rw [e2]
    congr 2
    ring

/-- **C74.** -/
theorem C74_hsl_hsv_hsl (h : K) {s l : K} (hl : 0 < l) (hl1 : l < 1) (hs : 0 ≤ s) :
    ∃ s' v, hslToHsv h s l = (h, s', v) ∧ hsvToHsl h s' v = (h, s, l) := by
  have hm : 0 < min l (1 - l) := lt_min hl (by linarith)
  have hv : 0 < l + s * min l (1 - l) := by nlinarith
  refine ⟨_, _, rfl, ?_⟩
  generalize hve : l + s * min l (1 - l) = v at *
  unfold hsvToHsl
  simp only [if_neg hv.ne']
  have e1 : v * (1 - 2 * (1 - l / v) / 2) = l := by
    field_simp; ring
  simp only [e1]
  have hn : ¬ (l = 0 ∨ l = 1) := by rintro (h | h); exacts [hl.ne' h, hl1.ne h]
  rw [if_neg hn, ← hve, add_sub_cancel_left, mul_div_cancel_right₀ _ hm.ne']

/-- **C74.** Colours of the unit cube are mapped to colours of the unit cube. -/
theorem C74_hsl_range (h : K) {s v : K} (hv : 0 ≤ v) (hv1 : v ≤ 1) (hs : 0 ≤ s) (hs1 : s ≤ 1) :
    ∃ s' l, hsvToHsl h s v = (h, s', l) ∧ 0 ≤ s' ∧ s' ≤ 1 ∧ 0 ≤ l ∧ l ≤ 1 := by
  have hl0 : 0 ≤ v * (1 - s / 2) := mul_nonneg hv (by linarith)
  have hl1 : v * (1 - s / 2) ≤ v := by nlinarith
  refine ⟨_, _, rfl, ?_, ?_, hl0, le_trans hl1 hv1⟩
  · split
    · exact le_refl _
    · exact div_nonneg (by linarith) (le_min hl0 (by linarith))
  · split
    · exact zero_le_one
    · rename_i hne
      have hpos : 0 < min (v * (1 - s / 2)) (1 - v * (1 - s / 2)) :=
        lt_min (lt_of_le_of_ne hl0 (fun e => hne (.inl e.symm))) (by
          have := lt_of_le_of_ne (le_trans hl1 hv1) (fun e => hne (.inr e)); linarith)
      rw [div_le_one hpos]
      apply le_min
      · nlinarith
      · nlinarith

/-- **C74.** -/
theorem C74_hsv_range (h : K) {s l : K} (hl : 0 ≤ l) (hl1 : l ≤ 1) (hs : 0 ≤ s) (hs1 : s ≤ 1) :
    ∃ s' v, hslToHsv h s l = (h, s', v) ∧ 0 ≤ s' ∧ s' ≤ 1 ∧ 0 ≤ v ∧ v ≤ 1 := by
  have hm : 0 ≤ min l (1 - l) := le_min hl (by linarith)
  have hm1 : min l (1 - l) ≤ l := min_le_left _ _
  have hm2 : min l (1 - l) ≤ 1 - l := min_le_right _ _
  have hv : l ≤ l + s * min l (1 - l) := by nlinarith
  have hv2 : s * min l (1 - l) ≤ min l (1 - l) := by nlinarith
  refine ⟨_, _, rfl, ?_, ?_, le_trans hl hv, by linarith⟩
  · split
    · exact le_refl _
    · rename_i hne
      have hpos : 0 < l + s * min l (1 - l) := lt_of_le_of_ne (le_trans hl hv) (fun e => hne e.symm)
      have : l / (l + s * min l (1 - l)) ≤ 1 := by rw [div_le_one hpos]; exact hv
      linarith
  · split
    · exact zero_le_one
    · rename_i hne
      have hpos : 0 < l + s * min l (1 - l) := lt_of_le_of_ne (le_trans hl hv) (fun e => hne e.symm)
      have : (1 : K) / 2 ≤ l / (l + s * min l (1 - l)) := by
        rw [div_le_div_iff₀ (by norm_num) hpos]; linarith
      linarith

end Colour

example : hsvToHsl (1/3 : ℚ) (1/2) (4/5) = (1/3, 1/2, 3/5) := by
  norm_num [hsvToHsl]
example : hslToHsv (1/3 : ℚ) (1/2) (3/5) = (1/3, 1/2, 4/5) := by
  norm_num [hslToHsv]

/-! ## C75 -/

/-- The characters that `graphviz` cannot take in a label, and the control characters. -/
def Reserved (c : Char) : Prop := c ∈ ['<', '>', '[', ']', '{', '}'] ∨ c.toNat < 32

instance (c : Char) : Decidable (Reserved c) := by unfold Reserved; infer_instance

/-- The characters that `graphviz_escape_char` replaces. -/
def escapedChars : List Char := ['&', '<', '>', '[', ']', '{', '}'] ++ (List.range 32).map Char.ofNat

theorem mem_escapedChars_of_lt {c : Char} (h : c.toNat < 32) : c ∈ escapedChars := by
  refine List.mem_append_right _ (List.mem_map.mpr ⟨c.toNat, List.mem_range.mpr h, ?_⟩)
  exact Char.ofNat_toNat c

theorem escapeChar_of_not_mem {c : Char} (h : c ∉ escapedChars) : graphvizEscapeChar c = [c] := by
  have h32 : ¬ c.toNat < 32 := fun hc => h (mem_escapedChars_of_lt hc)
  have : graphvizMapCharEscaped.get? c = none := by
    rw [Dict.get?_eq_none_iff]
    intro hm
    apply h
    have : ∀ x ∈ graphvizMapCharEscaped.keys, x ∈ escapedChars := by decide
    exact this c hm
  unfold graphvizEscapeChar
  rw [this, if_neg h32]

theorem escapeChar_two {c : Char} (h : c ∈ escapedChars) : 2 ≤ (graphvizEscapeChar c).length := by
  have : ∀ c ∈ escapedChars, 2 ≤ (graphvizEscapeChar c).length := by decide
  exact this c h

theorem escapeChar_safe (c : Char) : ∀ x ∈ graphvizEscapeChar c, ¬ Reserved x := by
  by_cases h : c ∈ escapedChars
  · have : ∀ c ∈ escapedChars, ∀ x ∈ graphvizEscapeChar c, ¬ Reserved x := by decide
    exact this c h
  · rw [escapeChar_of_not_mem h]
    intro x hx hr
    rw [List.mem_singleton] at hx
    subst hx
    rcases hr with hr | hr
    · refine h (List.mem_append_left _ ?_)
      revert hr
      simp only [List.mem_cons]
      tauto
    · exact h (mem_escapedChars_of_lt hr)

/-- **C75.** Distinct characters have distinct escapes. -/
theorem C75_injective {a b : Char} (h : graphvizEscapeChar a = graphvizEscapeChar b) : a = b := by
  by_cases ha : a ∈ escapedChars
  · by_cases hb : b ∈ escapedChars
    · have hnd : (escapedChars.map graphvizEscapeChar).Nodup := by decide
      exact List.inj_on_of_nodup_map hnd ha hb h
    · have := escapeChar_two ha
      rw [h, escapeChar_of_not_mem hb] at this
      simp at this
  · by_cases hb : b ∈ escapedChars
    · have := escapeChar_two hb
      rw [← h, escapeChar_of_not_mem ha] at this
      simp at this
    · rw [escapeChar_of_not_mem ha, escapeChar_of_not_mem hb] at h
      simpa using h

/-- The characters written as the entity of their code, in decimal. -/
def entityChars : List Char := ['&', '<', '>', '[', ']', '{', '}']

/-- The number written by hexadecimal digits. -/
def ofHex (t : List Char) : Nat := t.foldl (fun n c => 16 * n + (if c.toNat < 58 then c.toNat - 48 else c.toNat - 87)) 0

/-- **C75.** What a character becomes: the entity of its code, an escape sequence with a letter, its code on two hexadecimal digits between `\\x` and `;`, or itself. -/
theorem C75_escape (a : Char) :
    (a ∈ entityChars → graphvizEscapeChar a = ['&', '#'] ++ Nat.toDigits 10 a.toNat ++ [';']) ∧
    (a = '\n' → graphvizEscapeChar a = ['\\', 'n']) ∧ (a = '\t' → graphvizEscapeChar a = ['\\', 't']) ∧
    (a = '\r' → graphvizEscapeChar a = ['\\', 'r']) ∧
    (a.toNat < 32 → a ∉ ['\n', '\t', '\r'] → ∃ d d', graphvizEscapeChar a = ['\\', 'x', d, d', ';'] ∧ ofHex [d, d'] = a.toNat) ∧
    (32 ≤ a.toNat → a ∉ entityChars → graphvizEscapeChar a = [a]) := by
  refine ⟨?_, ?_, ?_, ?_, ?_, ?_⟩
  · have : ∀ a ∈ entityChars, graphvizEscapeChar a = ['&', '#'] ++ Nat.toDigits 10 a.toNat ++ [';'] := by decide
    exact this a
  · rintro rfl; decide
  · rintro rfl; decide
  · rintro rfl; decide
  · intro h1 h2
    have h3 : a ∈ escapedChars := mem_escapedChars_of_lt h1
    have : ∀ a ∈ escapedChars, a.toNat < 32 → a ∉ ['\n', '\t', '\r'] →
        (graphvizEscapeChar a).take 2 = ['\\', 'x'] ∧ (graphvizEscapeChar a).drop 4 = [';'] ∧ ofHex (((graphvizEscapeChar a).drop 2).take 2) = a.toNat ∧ (graphvizEscapeChar a).length = 5 := by decide
    obtain ⟨e1, e2, e3, e4⟩ := this a h3 h1 h2
    generalize graphvizEscapeChar a = t at e1 e2 e3 e4
    match t, e4 with
    | [c1, c2, d, d', c5], _ =>
      simp only [List.take_succ_cons, List.take_zero, List.drop_succ_cons, List.drop_zero, List.cons.injEq, and_true] at e1 e2 e3
      exact ⟨d, d', by rw [e1.1, e1.2, e2], e3⟩
  · intro h1 h2
    apply escapeChar_of_not_mem
    intro h3
    have : ∀ a ∈ escapedChars, 32 ≤ a.toNat → a ∈ entityChars := by decide
    exact h2 (this a h3 h1)

/-- **C75.** A reserved character of the escaped label belongs to a recognised HTML tag of `s`, which is one of the `spans`. -/
theorem C75_reserved_only_in_tags (s : List Char) (spans : List (Nat × Nat)) (h : SpansFrom s.length 0 spans) {c : Char}
    (hc : c ∈ graphvizEscapeHtml s spans) (hr : Reserved c) : ∃ p ∈ spans, c ∈ (s.take p.2).drop p.1 := by
  obtain ⟨ev, hev, hce⟩ := List.mem_flatMap.mp hc
  cases ev with
  | unmatched ch i j =>
    obtain ⟨x, _, hx⟩ := List.mem_flatMap.mp hce
    exact absurd hr (escapeChar_safe x c hx)
  | matched ch i j =>
    have h1 := (C37_chunks s spans _ hev).2
    have h2 : (i, j) ∈ (tokenize s spans).filterMap TokenizeEvent.span? := List.mem_filterMap.mpr ⟨_, hev, rfl⟩
    rw [C37_matched s h] at h2
    refine ⟨(i, j), (List.mem_filter.mp h2).1, ?_⟩
    have h3 : c ∈ ch := hce
    simp only at h1
    rw [h1] at h3
    exact h3

/-- **C75.** Without recognised tag, no reserved character is left. -/
theorem C75_no_tag (s : List Char) : ∀ c ∈ graphvizEscapeHtml s [], ¬ Reserved c := by
  intro c hc hr
  obtain ⟨p, hp, _⟩ := C75_reserved_only_in_tags s [] (Nat.zero_le _) hc hr
  cases hp

/-- **C75.** Recognised tags are kept as they are, and between them each character is replaced by its escape. -/
theorem C75_tags_kept {pre tag post : List Char} :
    graphvizEscapeHtml (pre ++ tag ++ post) [(pre.length, pre.length + tag.length)] =
      pre.flatMap graphvizEscapeChar ++ tag ++ post.flatMap graphvizEscapeChar := by
  have e1 : slice (pre ++ tag ++ post) 0 pre.length = pre := by simp [slice]
  have e2 : slice (pre ++ tag ++ post) pre.length (pre.length + tag.length) = tag := by
    simp [slice, List.take_append]
  have e3 : (pre ++ tag ++ post).drop (pre.length + tag.length) = post := by
    rw [← List.length_append, List.drop_left]
  unfold graphvizEscapeHtml tokenize
  simp only [tokenizeFrom, e1, e2, e3]
  cases pre <;> cases tag <;> cases post <;> simp [escapeChunk]

/-- **C75.** Text without reserved character and without `&` is unchanged. -/
theorem C75_harmless {s : List Char} (h : ∀ c ∈ s, ¬ Reserved c ∧ c ≠ '&') : graphvizEscapeHtml s [] = s := by
  have h1 : ∀ c ∈ s, graphvizEscapeChar c = [c] := by
    intro c hc
    apply escapeChar_of_not_mem
    intro hm
    have : ∀ c ∈ escapedChars, Reserved c ∨ c = '&' := by decide
    rcases this c hm with hr | hr
    · exact (h c hc).1 hr
    · exact (h c hc).2 hr
  have h2 : s.flatMap graphvizEscapeChar = s := by
    clear h
    induction s with
    | nil => rfl
    | cons a s ih =>
      rw [List.flatMap_cons, h1 a (by simp), ih (fun c hc => h1 c (by simp [hc]))]
      rfl
  unfold graphvizEscapeHtml tokenize
  simp only [tokenizeFrom, List.drop_zero]
  cases s with
  | nil => rfl
  | cons a s => simpa [escapeChunk] using h2

/-- Escapes are not injective on strings: a newline and the two characters `\\n` give the same label. -/
theorem C75_strings_ambiguous : graphvizEscapeHtml "\n".toList [] = graphvizEscapeHtml "\\n".toList [] := by decide

example : graphvizEscapeHtml "a<b><i>x[0]</i>".toList [(4, 7), (11, 15)] = "a&#60;b&#62;<i>x&#91;0&#93;</i>".toList := by decide
example : graphvizEscapeChar (Char.ofNat 11) = "\\x0b;".toList := by decide
example : SpansFrom 15 0 [(4, 7), (11, 15)] := by simp [SpansFrom]

/-! ## C76 -/

namespace AssocMap
variable {K W : Type} [DecidableEq K]

/-- The last value written at `k` by a history of operations. -/
def lastWrite : List (Op K W) → K → Option W
  | [], _ => none
  | .get _ :: ops, k => lastWrite ops k
  | .put k' x :: ops, k => (lastWrite ops k).or (if k' = k then some x else none)

theorem lastWrite_snoc (ops : List (Op K W)) (op : Op K W) (k : K) :
    lastWrite (ops ++ [op]) k = match op with
      | .get _ => lastWrite ops k
      | .put k' x => if k' = k then some x else lastWrite ops k := by
  induction ops with
  | nil => cases op <;> simp [lastWrite]
  | cons o ops ih =>
    cases o with
    | get j => simpa [lastWrite] using ih
    | put j y =>
      simp only [List.cons_append, lastWrite, ih]
      cases op with
      | get i => rfl
      | put i x =>
        simp only
        split <;> simp

theorem exec_factory (m : AssocMap K W) (op : Op K W) : (m.exec op).factory = m.factory := by
  cases op with
  | put k x => rfl
  | get k =>
    simp only [exec, getItem]
    cases hd : m.d.get? k with
    | some x => rfl
    | none => cases hf : m.factory <;> simp [hf]

theorem history (m : AssocMap K W) (ops : List (Op K W)) (k : K) :
    (ops.foldl exec m).factory = m.factory ∧
    (((ops.foldl exec m).d.get? k = (lastWrite ops k).or (m.d.get? k)) ∨
      ((lastWrite ops k).or (m.d.get? k) = none ∧ ∃ x, m.factory = some x ∧ (ops.foldl exec m).d.get? k = some x)) := by
  induction ops using List.reverseRecOn with
  | nil => exact ⟨rfl, .inl (by simp [lastWrite])⟩
  | append_singleton ops op ih =>
    rw [List.foldl_append]
    obtain ⟨hf, hd⟩ := ih
    generalize ops.foldl exec m = m' at hf hd ⊢
    refine ⟨by simpa [exec_factory] using hf, ?_⟩
    simp only [List.foldl_cons, List.foldl_nil]
    rw [lastWrite_snoc]
    cases op with
    | put j x =>
      simp only [exec, setItem, Dict.get?_set]
      by_cases e : j = k
      · simp [e]
      · simpa [e] using hd
    | get j =>
      simp only [exec, getItem]
      cases hj : m'.d.get? j with
      | some y => exact hd
      | none =>
        cases hfy : m'.factory with
        | none => exact hd
        | some y =>
          simp only [Dict.get?_set]
          by_cases e : j = k
          · subst e
            rw [if_pos rfl]
            rcases hd with hd | ⟨_, x, _, hx⟩
            · rw [hj] at hd
              exact .inr ⟨hd.symm, y, by rw [← hf, hfy], rfl⟩
            · rw [hj] at hx; cases hx
          · rw [if_neg e]; exact hd

end AssocMap

/-- **C76.** After any history of reads and writes, reading `k` returns the last value written at `k`, else the value `k` had
in the `defaultdict` handed to the constructor, else the default; it raises `KeyError` if there is no default. -/
theorem C76_read {K W : Type} [DecidableEq K] (m : AssocMap K W) (ops : List (AssocMap.Op K W)) (k : K) :
    ((ops.foldl AssocMap.exec m).getItem k).map Prod.fst =
      match ((AssocMap.lastWrite ops k).or (m.d.get? k)).or m.factory with
      | some x => .ok x
      | none => .error .keyError := by
  obtain ⟨hf, hd⟩ := AssocMap.history m ops k
  unfold AssocMap.getItem
  rcases hd with hd | ⟨hn, x, hx, hd⟩
  · rw [hd]
    cases h : (AssocMap.lastWrite ops k).or (m.d.get? k) with
    | some y => rfl
    | none =>
      rw [hf]
      cases m.factory <;> rfl
  · rw [hd, hn, hx]; rfl

/-- **C76.** The usual case: an empty `defaultdict` whose factory makes `x₀`. -/
theorem C76_total {K W : Type} [DecidableEq K] (x₀ : W) (ops : List (AssocMap.Op K W)) (k : K) :
    ((ops.foldl AssocMap.exec ⟨[], some x₀⟩).getItem k).map Prod.fst = .ok ((AssocMap.lastWrite ops k).getD x₀) := by
  rw [C76_read]
  cases AssocMap.lastWrite ops k <;> rfl

/-- **C76.** Writes to other keys, and reads, do not matter. -/
theorem C76_last_write {K W : Type} [DecidableEq K] (m : AssocMap K W) (ops ops' : List (AssocMap.Op K W)) (k : K) (x : W)
    (h : ∀ op ∈ ops', ∀ k' y, op = .put k' y → k' ≠ k) :
    (((ops ++ .put k x :: ops').foldl AssocMap.exec m).getItem k).map Prod.fst = .ok x := by
  rw [C76_read]
  have : AssocMap.lastWrite (ops ++ .put k x :: ops') k = some x := by
    induction ops' using List.reverseRecOn with
    | nil => rw [AssocMap.lastWrite_snoc]; simp
    | append_singleton ops' op ih =>
      rw [← List.cons_append, ← List.append_assoc, AssocMap.lastWrite_snoc]
      have h' := h op (by simp)
      have ih' := ih (fun o ho => h o (by simp [ho]))
      cases op with
      | get j => exact ih'
      | put j y => simp only; rw [if_neg (h' j y rfl)]; exact ih'
  rw [this]; rfl

example : (([.put 1 'a', .get 2, .put 2 'b', .put 1 'c', .get 1] : List (AssocMap.Op Nat Char)).foldl AssocMap.exec ⟨[], some 'z'⟩).d =
    [(1, 'c'), (2, 'b')] := by decide

/-! ## C77 -/

section Aggregated
variable {Ev : Type}

/-- **C77.** Each call reaches the visitors in the order of the list, and the calls are handed over in their order. -/
theorem C77_order {σ : Type} (vs : List (Visitor Ev σ)) (evs : List Ev) (s : σ) :
    emit (aggregate vs) evs s = (evs.flatMap fun e => vs.map fun v => v e).foldlM (fun s f => f s) s := by
  induction evs generalizing s with
  | nil => rfl
  | cons e evs ih =>
    have h1 : emit (aggregate vs) (e :: evs) s = (aggregate vs e s) >>= fun s => emit (aggregate vs) evs s := rfl
    rw [h1, List.flatMap_cons, List.foldlM_append, List.foldlM_map]
    congr 1
    funext s'
    exact ih s'

variable {n : Nat} {σ : Fin n → Type}

theorem ownState_ok (i : Fin n) (v : Visitor Ev (σ i)) (e : Ev) (w w' : (j : Fin n) → σ j) :
    ownState i v e w = .ok w' ↔ v e (w i) = .ok (w' i) ∧ ∀ j, j ≠ i → w' j = w j := by
  unfold ownState
  cases h : v e (w i) with
  | error err => simp
  | ok s =>
    simp only [Except.ok.injEq]
    constructor
    · rintro rfl
      exact ⟨by simp, fun j hj => by simp [Ne.symm hj]⟩
    · rintro ⟨h1, h2⟩
      funext j
      by_cases hj : i = j
      · subst hj; simpa using h1
      · simp [hj, h2 j (Ne.symm hj)]

theorem foldlM_own (vs : (i : Fin n) → Visitor Ev (σ i)) (e : Ev) (l : List (Fin n)) (hl : l.Nodup) (w w' : (j : Fin n) → σ j) :
    (l.map fun i => ownState i (vs i)).foldlM (fun s v => v e s) w = .ok w' ↔
      (∀ i ∈ l, vs i e (w i) = .ok (w' i)) ∧ ∀ i ∉ l, w' i = w i := by
  induction l generalizing w with
  | nil =>
    constructor
    · intro h
      have : w = w' := by simpa [pure, Except.pure] using h
      subst this
      simp
    · rintro ⟨_, h⟩
      have : w = w' := by funext i; exact (h i (by simp)).symm
      subst this
      rfl
  | cons i l ih =>
    rw [List.map_cons, List.foldlM_cons]
    obtain ⟨hi, hl'⟩ := List.nodup_cons.mp hl
    cases h : ownState i (vs i) e w with
    | error err =>
      constructor
      · intro h'; cases h'
      · rintro ⟨h1, h2⟩
        have h3 := h1 i (by simp)
        unfold ownState at h
        rw [h3] at h
        cases h
    | ok w1 =>
      have hw1 := (ownState_ok i (vs i) e w w1).mp h
      have hb : (Except.ok w1 >>= fun w => (l.map fun i => ownState i (vs i)).foldlM (fun s v => v e s) w) =
        ((l.map fun i => ownState i (vs i)).foldlM (fun s v => v e s) w1 : Except PyErr _) := rfl
      rw [hb, ih hl']
      constructor
      · rintro ⟨h1, h2⟩
        refine ⟨fun j hj => ?_, fun j hj => ?_⟩
        · rcases List.mem_cons.mp hj with rfl | hj
          · rw [hw1.1, h2 _ hi]
          · have hne : j ≠ i := fun e => hi (e ▸ hj)
            rw [← h1 j hj, hw1.2 j hne]
        · simp only [List.mem_cons, not_or] at hj
          rw [h2 j hj.2, hw1.2 j hj.1]
      · rintro ⟨h1, h2⟩
        refine ⟨fun j hj => ?_, fun j hj => ?_⟩
        · have hne : j ≠ i := fun e => hi (e ▸ hj)
          rw [hw1.2 j hne]; exact h1 j (by simp [hj])
        · by_cases e : j = i
          · subst e
            have h3 := h1 j (by simp)
            rw [hw1.1] at h3
            exact (Except.ok.inj h3).symm
          · rw [hw1.2 j e]; exact h2 j (by simp [e, hj])

/-- `AggregatedVisitor([v_0, ..., v_{n-1}])`, for visitors with attributes of their own. -/
def aggregateOwn (vs : (i : Fin n) → Visitor Ev (σ i)) : Visitor Ev ((j : Fin n) → σ j) :=
  aggregate ((List.finRange n).map fun i => ownState i (vs i))

/-- **C77.** A sequence of calls leaves each visitor in the state it would have after receiving the whole sequence alone; it raises an
exception only if one of the visitors alone would. -/
theorem C77_events (vs : (i : Fin n) → Visitor Ev (σ i)) (evs : List Ev) (w w' : (j : Fin n) → σ j) :
    emit (aggregateOwn vs) evs w = .ok w' ↔ ∀ i, emit (vs i) evs (w i) = .ok (w' i) := by
  induction evs generalizing w with
  | nil =>
    constructor
    · intro h i
      have : w = w' := by simpa [emit, pure, Except.pure] using h
      subst this; rfl
    · intro h
      have : w = w' := by
        funext i
        have := h i
        simpa [emit, pure, Except.pure] using this
      subst this; rfl
  | cons e evs ih =>
    have hc : ∀ {τ : Type} (v : Visitor Ev τ) (s : τ), emit v (e :: evs) s = (v e s) >>= fun s => emit v evs s := fun _ _ => rfl
    constructor
    · intro h i
      rw [hc] at h ⊢
      cases h1 : aggregateOwn vs e w with
      | error err => rw [h1] at h; cases h
      | ok w1 =>
        rw [h1] at h
        have h2 := (foldlM_own vs e _ (List.nodup_finRange n) w w1).mp h1
        rw [h2.1 i (List.mem_finRange i)]
        exact (ih w1).mp h i
    · intro h
      have h1 : ∀ i, ∃ s, vs i e (w i) = .ok s ∧ emit (vs i) evs s = .ok (w' i) := by
        intro i
        have := h i
        rw [hc] at this
        cases h2 : vs i e (w i) with
        | error err => rw [h2] at this; cases this
        | ok s => rw [h2] at this; exact ⟨s, rfl, this⟩
      let w1 : (j : Fin n) → σ j := fun i => (h1 i).choose
      have h2 : aggregateOwn vs e w = .ok w1 :=
        (foldlM_own vs e _ (List.nodup_finRange n) w w1).mpr
          ⟨fun i _ => (h1 i).choose_spec.1, fun i hi => absurd (List.mem_finRange i) hi⟩
      rw [hc, h2]
      exact (ih w1).mpr fun i => (h1 i).choose_spec.2

variable {V E : Type} [DecidableEq V]

/-- **C77.** Depth-first search with an aggregated visitor. -/
theorem C77_dfs {σ : Fin n → Type} (g : GraphI V E) (p : E → Bool) (vs : (i : Fin n) → Visitor (DfsEvent V E) (σ i)) (s : V) (U : List V)
    (hU : ∀ v, Reach (g.through p) s v → v ∈ U) (w : (j : Fin n) → σ j) (hn : n ≠ 0) (c : Dict V Color) (w' : (j : Fin n) → σ j) :
    Returns (dfs g p (aggregateOwn vs) s [] w) (.ok (c, w')) ↔ ∀ i, Returns (dfs g p (vs i) s [] (w i)) (.ok (c, w' i)) := by
  obtain ⟨c0, tr, h0, _, hr⟩ := dfs_facts hU
  have key : ∀ {τ : Type} (v : Visitor (DfsEvent V E) τ) (t t' : τ) (c : Dict V Color),
      Returns (dfs g p v s [] t) (.ok (c, t')) ↔ c0 = c ∧ emit v tr t = .ok t' := by
    intro τ v t t' c
    have h1 := hr τ v t
    constructor
    · intro h2
      have := returns_unique h1 h2
      cases h3 : emit v tr t with
      | error e => rw [h3] at this; cases this
      | ok x => rw [h3] at this; cases this; exact ⟨rfl, rfl⟩
    · rintro ⟨rfl, h2⟩
      rw [h2] at h1
      exact h1
  simp only [key, C77_events]
  constructor
  · rintro ⟨h1, h2⟩ i; exact ⟨h1, h2 i⟩
  · intro h; exact ⟨(h ⟨0, by omega⟩).1, fun i => (h i).2⟩

/-- **C77.** Breadth-first search with an aggregated visitor. -/
theorem C77_bfs {σ : Fin n → Type} (g : GraphI V E) (p : E → Bool) (vs : (i : Fin n) → Visitor (BfsEvent V E) (σ i)) (us U : List V)
    (hus : us.Nodup) (hU : ∀ s ∈ us, ∀ v, Reach (g.through p) s v → v ∈ U) (w : (j : Fin n) → σ j) (hn : n ≠ 0) (c : Dict V Color)
    (w' : (j : Fin n) → σ j) :
    Returns (bfsGraph g us p (aggregateOwn vs) [] w) (.ok (c, w')) ↔ ∀ i, Returns (bfsGraph g us p (vs i) [] (w i)) (.ok (c, w' i)) := by
  obtain ⟨tr, c0, f, _, hr⟩ := Bfs.facts (c := []) (fun _ => rfl) hus hU
  have key : ∀ {τ : Type} (v : Visitor (BfsEvent V E) τ) (t t' : τ) (c : Dict V Color),
      Returns (bfsGraph g us p v [] t) (.ok (c, t')) ↔ c0 = c ∧ emit v tr t = .ok t' := by
    intro τ v t t' c
    have h1 := hr v t
    unfold Bfs.outcome at h1
    constructor
    · intro h2
      have := returns_unique h1 h2
      cases h3 : emit v tr t with
      | error e => rw [h3] at this; cases this
      | ok x => rw [h3] at this; cases this; exact ⟨rfl, rfl⟩
    · rintro ⟨rfl, h2⟩
      rw [h2] at h1
      exact h1
  simp only [key, C77_events]
  constructor
  · rintro ⟨h1, h2⟩ i; exact ⟨h1, h2 i⟩
  · intro h; exact ⟨(h ⟨0, by omega⟩).1, fun i => (h i).2⟩

end Aggregated

/-- Two visitors: one counts the calls, the other records them. -/
example : emit (aggregate [fun (e : Nat) (s : Nat × List Nat) => .ok (s.1 + 1, s.2), fun e s => .ok (s.1, s.2 ++ [e])]) [5, 6, 7] (0, []) =
    .ok (3, [5, 6, 7]) := by decide

end PyBGL
