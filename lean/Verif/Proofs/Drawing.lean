import Verif.Model.Drawing
import Verif.Proofs.Graphviz
import Verif.Props.C74_C77_Misc

/-!
# What can be read off the text written by `to_dot`
-/

namespace PyBGL
namespace Graphviz

/-- The text before the first `a`, and the text after it. -/
theorem split_first {C : Type} {a : C} : ∀ {x y s t : List C}, a ∉ x → a ∉ y → x ++ a :: s = y ++ a :: t → x = y ∧ s = t
  | [], [], _, _, _, _, h => by simpa using h
  | [], b :: y, _, _, _, hy, h => by
    rw [List.nil_append, List.cons_append, List.cons.injEq] at h
    exact absurd (by simp [h.1]) hy
  | b :: x, [], _, _, hx, _, h => by
    rw [List.nil_append, List.cons_append, List.cons.injEq] at h
    exact absurd (by simp [h.1]) hx
  | b :: x, c :: y, _, _, hx, hy, h => by
    rw [List.cons_append, List.cons_append, List.cons.injEq] at h
    have ih := split_first (fun m => hx (List.mem_cons_of_mem _ m)) (fun m => hy (List.mem_cons_of_mem _ m)) h.2
    exact ⟨by rw [h.1, ih.1], ih.2⟩

theorem lines_inj : ∀ {is js : List Text}, (∀ i ∈ is, '\n' ∉ i) → (∀ j ∈ js, '\n' ∉ j) →
    (is.map line).flatMap (fun l => l ++ ['\n']) = (js.map line).flatMap (fun l => l ++ ['\n']) → is = js
  | [], [], _, _, _ => rfl
  | [], j :: js, _, _, h => by simp [line] at h
  | i :: is, [], _, _, h => by simp [line] at h
  | i :: is, j :: js, hi, hj, h => by
    have hl : ∀ t : Text, '\n' ∉ t → '\n' ∉ line t := by intro t ht; simp [line, ht]
    simp only [List.map_cons, List.flatMap_cons, List.append_assoc, List.singleton_append] at h
    obtain ⟨h1, h2⟩ := split_first (hl i (hi i (by simp))) (hl j (hj j (by simp))) h
    have h3 : i = j := by simpa [line] using h1
    rw [h3, lines_inj (fun x hx => hi x (List.mem_cons_of_mem _ hx)) (fun x hx => hj x (List.mem_cons_of_mem _ hx)) h2]

/-- Equal texts have equal instructions. -/
theorem toDot_instructions {L L' : Type} {directed : Bool} {tags : Text → List (Nat × Nat)} {s : Style} {o : Opts}
    {dpv dpv' : List (Prop' Nat)} {dpe : List (Prop' (EdgeDesc L))} {dpe' : List (Prop' (EdgeDesc L'))} {vs vs' : List Nat}
    {es : List (EdgeDesc L)} {es' : List (EdgeDesc L')}
    (h1 : ∀ i ∈ vs.map (vertexToGraphviz tags dpv) ++ es.map (edgeToGraphviz directed tags dpe), '\n' ∉ i)
    (h2 : ∀ i ∈ vs'.map (vertexToGraphviz tags dpv') ++ es'.map (edgeToGraphviz directed tags dpe'), '\n' ∉ i)
    (h : toDot directed tags s o dpv dpe vs es = toDot directed tags s o dpv' dpe' vs' es') :
    vs.map (vertexToGraphviz tags dpv) ++ es.map (edgeToGraphviz directed tags dpe) =
      vs'.map (vertexToGraphviz tags dpv') ++ es'.map (edgeToGraphviz directed tags dpe') := by
  unfold toDot at h
  simp only [List.append_assoc, List.append_cancel_left_eq, List.append_cancel_right_eq] at h
  generalize vs.map (vertexToGraphviz tags dpv) ++ es.map (edgeToGraphviz directed tags dpe) = is at *
  generalize vs'.map (vertexToGraphviz tags dpv') ++ es'.map (edgeToGraphviz directed tags dpe') = js at *
  have key : ∀ ks : List Text, (if ks = [] then ([] : Text) else ['\n', ' ', ' '] ++ (join [';', '\n', ' ', ' '] ks ++ [';', '\n'])) =
      if ks = [] then [] else '\n' :: (ks.map line).flatMap (fun l => l ++ ['\n']) := by
    intro ks
    by_cases hk : ks = []
    · rw [if_pos hk, if_pos hk]
    · rw [if_neg hk, if_neg hk, ← join_lines ks hk, List.append_assoc]
  rw [key, key] at h
  by_cases e1 : headers s o ++ is = []
  · rw [if_pos e1] at h
    by_cases e2 : headers s o ++ js = []
    · simp only [List.append_eq_nil_iff] at e1 e2
      rw [e1.2, e2.2]
    · rw [if_neg e2] at h; cases h
  · rw [if_neg e1] at h
    by_cases e2 : headers s o ++ js = []
    · rw [if_pos e2] at h; cases h
    · rw [if_neg e2] at h
      simp only [List.map_append, List.flatMap_append, List.cons.injEq, true_and, List.append_cancel_left_eq] at h
      exact lines_inj h1 h2 h

theorem append_sep {C : Type} {P : C → Prop} : ∀ {a a' b b' : List C}, (∀ x ∈ a, P x) → (∀ x ∈ a', P x) → (∀ x ∈ b, ¬ P x) → (∀ x ∈ b', ¬ P x) →
    a ++ b = a' ++ b' → a = a' ∧ b = b'
  | [], [], _, _, _, _, _, _, h => ⟨rfl, by simpa using h⟩
  | [], y :: a', b, b', _, ha', hb, _, h => by
    rw [List.nil_append] at h
    exact absurd (ha' y (by simp)) (hb y (by rw [h]; simp))
  | x :: a, [], b, b', ha, _, _, hb', h => by
    rw [List.nil_append] at h
    exact absurd (ha x (by simp)) (hb' x (by rw [← h]; simp))
  | x :: a, y :: a', b, b', ha, ha', hb, hb', h => by
    rw [List.cons_append, List.cons_append, List.cons.injEq] at h
    have ih := append_sep (fun z hz => ha z (List.mem_cons_of_mem _ hz)) (fun z hz => ha' z (List.mem_cons_of_mem _ hz)) hb hb' h.2
    exact ⟨by rw [h.1, ih.1], ih.2⟩

theorem space_not_mem_strNat (u : Nat) : ' ' ∉ strNat u := fun h => by have := isDig_strNat h; revert this; decide

theorem newline_not_mem_strNat (u : Nat) : '\n' ∉ strNat u := fun h => by have := isDig_strNat h; revert this; decide

theorem propertiesToStr_head {X : Type} (tags : Text → List (Nat × Nat)) (x : X) (dpx : List (Prop' X)) :
    propertiesToStr tags x dpx = [] ∨ ∃ t, propertiesToStr tags x dpx = '[' :: t := by
  unfold propertiesToStr
  by_cases h : dpx = []
  · rw [if_pos h]; exact .inl rfl
  · rw [if_neg h]; exact .inr ⟨_, rfl⟩

theorem vertex_inj {tags : Text → List (Nat × Nat)} {dpv dpv' : List (Prop' Nat)} {u u' : Nat}
    (h : vertexToGraphviz tags dpv u = vertexToGraphviz tags dpv' u') :
    u = u' ∧ propertiesToStr tags u dpv = propertiesToStr tags u' dpv' := by
  simp only [vertexToGraphviz, join, List.append_assoc, List.singleton_append] at h
  obtain ⟨h1, h2⟩ := split_first (space_not_mem_strNat u) (space_not_mem_strNat u') h
  exact ⟨strNat_inj h1, h2⟩

theorem edge_inj {L L' : Type} {directed : Bool} {tags : Text → List (Nat × Nat)} {dpe : List (Prop' (EdgeDesc L))} {dpe' : List (Prop' (EdgeDesc L'))}
    {e : EdgeDesc L} {e' : EdgeDesc L'} (h : edgeToGraphviz directed tags dpe e = edgeToGraphviz directed tags dpe' e') :
    e.source = e'.source ∧ e.target = e'.target ∧ propertiesToStr tags e dpe = propertiesToStr tags e' dpe' := by
  simp only [edgeToGraphviz, join, List.append_assoc, List.singleton_append] at h
  obtain ⟨h1, h2⟩ := split_first (space_not_mem_strNat e.source) (space_not_mem_strNat e'.source) h
  simp only [List.append_cancel_left_eq, List.cons.injEq, true_and] at h2
  obtain ⟨h3, h4⟩ := split_first (space_not_mem_strNat e.target) (space_not_mem_strNat e'.target) h2
  exact ⟨strNat_inj h1, strNat_inj h3, h4⟩

theorem vertex_ne_edge {L : Type} {directed : Bool} {tags : Text → List (Nat × Nat)} {dpv : List (Prop' Nat)} {dpe : List (Prop' (EdgeDesc L))}
    {u : Nat} {e : EdgeDesc L} : vertexToGraphviz tags dpv u ≠ edgeToGraphviz directed tags dpe e := by
  intro h
  simp only [vertexToGraphviz, edgeToGraphviz, join, List.append_assoc, List.singleton_append] at h
  obtain ⟨_, h2⟩ := split_first (space_not_mem_strNat u) (space_not_mem_strNat e.source) h
  rcases propertiesToStr_head tags u dpv with hp | ⟨t, hp⟩ <;> rw [hp] at h2 <;> cases directed <;> simp [arc] at h2

/-- Equal texts show the same vertices and the same edges, in the same order and with the same attributes. -/
theorem toDot_inj {L L' : Type} {directed : Bool} {tags : Text → List (Nat × Nat)} {s : Style} {o : Opts}
    {dpv dpv' : List (Prop' Nat)} {dpe : List (Prop' (EdgeDesc L))} {dpe' : List (Prop' (EdgeDesc L'))} {vs vs' : List Nat}
    {es : List (EdgeDesc L)} {es' : List (EdgeDesc L')}
    (v1 : ∀ u ∈ vs, '\n' ∉ propertiesToStr tags u dpv) (e1 : ∀ e ∈ es, '\n' ∉ propertiesToStr tags e dpe)
    (v2 : ∀ u ∈ vs', '\n' ∉ propertiesToStr tags u dpv') (e2 : ∀ e ∈ es', '\n' ∉ propertiesToStr tags e dpe')
    (h : toDot directed tags s o dpv dpe vs es = toDot directed tags s o dpv' dpe' vs' es') :
    (vs.map fun u => (u, propertiesToStr tags u dpv)) = (vs'.map fun u => (u, propertiesToStr tags u dpv')) ∧
    (es.map fun e => (e.source, e.target, propertiesToStr tags e dpe)) = (es'.map fun e => (e.source, e.target, propertiesToStr tags e dpe')) := by
  have hv : ∀ (dpv : List (Prop' Nat)) u, '\n' ∉ propertiesToStr tags u dpv → '\n' ∉ vertexToGraphviz tags dpv u := by
    intro dpv u hu
    simp [vertexToGraphviz, join, newline_not_mem_strNat, hu]
  have he : ∀ {L : Type} (dpe : List (Prop' (EdgeDesc L))) e, '\n' ∉ propertiesToStr tags e dpe → '\n' ∉ edgeToGraphviz directed tags dpe e := by
    intro L dpe e hu
    cases directed <;> simp [edgeToGraphviz, join, newline_not_mem_strNat, hu, arc]
  have hi := toDot_instructions (by
      intro i hi
      rcases List.mem_append.mp hi with hi | hi
      · obtain ⟨u, hu, rfl⟩ := List.mem_map.mp hi; exact hv _ u (v1 u hu)
      · obtain ⟨e, hu, rfl⟩ := List.mem_map.mp hi; exact he _ e (e1 e hu)) (by
      intro i hi
      rcases List.mem_append.mp hi with hi | hi
      · obtain ⟨u, hu, rfl⟩ := List.mem_map.mp hi; exact hv _ u (v2 u hu)
      · obtain ⟨e, hu, rfl⟩ := List.mem_map.mp hi; exact he _ e (e2 e hu)) h
  obtain ⟨h1, h2⟩ := append_sep (P := fun t => ∃ dpv u, t = vertexToGraphviz tags dpv u)
    (by intro i hi; obtain ⟨u, _, rfl⟩ := List.mem_map.mp hi; exact ⟨_, _, rfl⟩)
    (by intro i hi; obtain ⟨u, _, rfl⟩ := List.mem_map.mp hi; exact ⟨_, _, rfl⟩)
    (by rintro i hi ⟨dpv, u, hu⟩; obtain ⟨e, _, rfl⟩ := List.mem_map.mp hi; exact vertex_ne_edge hu.symm)
    (by rintro i hi ⟨dpv, u, hu⟩; obtain ⟨e, _, rfl⟩ := List.mem_map.mp hi; exact vertex_ne_edge hu.symm) hi
  have gen : ∀ {X Y Z : Type} {f : X → Text} {f' : Y → Text} {k : X → Z} {k' : Y → Z}, (∀ x y, f x = f' y → k x = k' y) →
      ∀ (l : List X) (l' : List Y), l.map f = l'.map f' → l.map k = l'.map k' := by
    intro X Y Z f f' k k' hk l
    induction l with
    | nil => intro l' hl; cases l' with
      | nil => rfl
      | cons => cases hl
    | cons x l ih => intro l' hl; cases l' with
      | nil => cases hl
      | cons y l' =>
        simp only [List.map_cons, List.cons.injEq] at hl ⊢
        exact ⟨hk x y hl.1, ih l' hl.2⟩
  refine ⟨gen (fun u u' hu => ?_) _ _ h1, gen (fun e e' hu => ?_) _ _ h2⟩
  · have := vertex_inj hu
    exact Prod.ext this.1 this.2
  · have := edge_inj hu
    exact Prod.ext this.1 (Prod.ext this.2.1 this.2.2)

end Graphviz

/-! ## Labels -/

theorem escapeHtml_nil (s : List Char) : graphvizEscapeHtml s [] = s.flatMap graphvizEscapeChar := by
  simp [graphvizEscapeHtml, tokenize, tokenizeFrom, escapeChunk]
  cases s <;> simp [escapeChunk, tokenizeFrom]

theorem escapeHtml_char (c : Char) : graphvizEscapeHtml [c] [] = graphvizEscapeChar c := by
  rw [escapeHtml_nil]; simp

theorem escapeChar_head {c : Char} (h : c ∈ escapedChars) : ∃ x t, graphvizEscapeChar c = x :: t ∧ (x = '&' ∨ x = '\\') := by
  have : ∀ c ∈ escapedChars, (graphvizEscapeChar c).head? = some '&' ∨ (graphvizEscapeChar c).head? = some '\\' := by decide
  have := this c h
  cases he : graphvizEscapeChar c with
  | nil => rw [he] at this; simp at this
  | cons x t => rw [he] at this; exact ⟨x, t, rfl, by simpa using this⟩

set_option maxRecDepth 100000 in
theorem escapeChar_prefix : ∀ c ∈ escapedChars, ∀ d ∈ escapedChars, (graphvizEscapeChar c).isPrefixOf (graphvizEscapeChar d) = true → c = d := by
  decide +kernel

theorem escapeChar_cancel {c d : Char} {x y : List Char} (hc : c ≠ '\\') (hd : d ≠ '\\')
    (h : graphvizEscapeChar c ++ x = graphvizEscapeChar d ++ y) : c = d := by
  have amp : ∀ {c : Char}, c ∉ escapedChars → c ≠ '&' := by rintro c h rfl; exact h (by decide)
  by_cases h1 : c ∈ escapedChars
  · by_cases h2 : d ∈ escapedChars
    · rcases List.prefix_or_prefix_of_prefix (List.prefix_append _ x) (h ▸ List.prefix_append _ y) with hp | hp
      · exact escapeChar_prefix c h1 d h2 (List.isPrefixOf_iff_prefix.mpr hp)
      · exact (escapeChar_prefix d h2 c h1 (List.isPrefixOf_iff_prefix.mpr hp)).symm
    · obtain ⟨z, t, hz, hz'⟩ := escapeChar_head h1
      rw [hz, escapeChar_of_not_mem h2] at h
      simp only [List.cons_append, List.nil_append, List.cons.injEq] at h
      rw [h.1] at hz'
      exact absurd hz' (by simp [amp h2, hd])
  · by_cases h2 : d ∈ escapedChars
    · obtain ⟨z, t, hz, hz'⟩ := escapeChar_head h2
      rw [hz, escapeChar_of_not_mem h1] at h
      simp only [List.cons_append, List.nil_append, List.cons.injEq] at h
      rw [← h.1] at hz'
      exact absurd hz' (by simp [amp h1, hc])
    · rw [escapeChar_of_not_mem h1, escapeChar_of_not_mem h2] at h
      simp only [List.cons_append, List.nil_append, List.cons.injEq] at h
      exact h.1

theorem escapeChar_ne_nil (c : Char) : graphvizEscapeChar c ≠ [] := by
  by_cases h : c ∈ escapedChars
  · obtain ⟨x, t, hx, _⟩ := escapeChar_head h; rw [hx]; simp
  · rw [escapeChar_of_not_mem h]; simp

theorem escape_inj : ∀ {s t : List Char}, '\\' ∉ s → '\\' ∉ t → s.flatMap graphvizEscapeChar = t.flatMap graphvizEscapeChar → s = t
  | [], [], _, _, _ => rfl
  | [], d :: t, _, _, h => by simp [escapeChar_ne_nil] at h
  | c :: s, [], _, _, h => by simp [escapeChar_ne_nil] at h
  | c :: s, d :: t, hs, ht, h => by
    simp only [List.mem_cons, not_or] at hs ht
    rw [List.flatMap_cons, List.flatMap_cons] at h
    obtain rfl := escapeChar_cancel (Ne.symm hs.1) (Ne.symm ht.1) h
    rw [List.append_cancel_left_eq] at h
    rw [escape_inj hs.2 ht.2 h]

theorem escape_safe {s : List Char} {x : Char} (h : x ∈ s.flatMap graphvizEscapeChar) : ¬ Reserved x := by
  obtain ⟨c, _, hx⟩ := List.mem_flatMap.mp h
  exact escapeChar_safe c x hx

end PyBGL
