import Verif.Model.GraphvizIO
import Verif.Proofs.PyLemmas
import Verif.Props.C90_Graphviz

/-!
# C109: images written by Graphviz; C110: styles; C111: displays
-/

namespace PyBGL
open Graphviz

/-! ## C109 -/

/-- **C109, the full statement**: if `dot` succeeds and produces an image, `write_graphviz` returns `True` and the file contains the image; otherwise, it returns `False` or raises
an exception and the file is as it was. -/
def C109_statement : Prop :=
  ∀ (W : World) (fs : Files) (f s_dot : Text) (engine : Option Text) (format : Text),
    (∀ out err t, W.dot format (engine.getD kwDot) s_dot = (0, out, err) → out ≠ [] → W.decode out = .ok t →
      (writeGraphviz W fs (.path f) s_dot engine format).1 = .ok true ∧ (writeGraphviz W fs (.path f) s_dot engine format).2.get? f = some (t ++ ['\n'])) ∧
    ((writeGraphviz W fs (.path f) s_dot engine format).1 ≠ .ok true → (writeGraphviz W fs (.path f) s_dot engine format).2.get? f = fs.get? f)

theorem writeImpl_true {W : World} {fs : Files} {f s_dot : Text} {engine : Option Text} {format : Text} (h : (writeImpl W fs f s_dot engine format).1 = .ok true) :
    ∃ out t, runGraphviz W s_dot engine format = .ok (.bytes out) ∧ out ≠ [] ∧ W.decode out = .ok t ∧
      (writeImpl W fs f s_dot engine format).2 = fs.set f (fs.getD f [] ++ t ++ ['\n']) := by
  unfold writeImpl at h ⊢
  cases hr : runGraphviz W s_dot engine format with
  | error e => rw [hr] at h; cases h
  | ok im =>
    rw [hr] at h
    cases im with
    | str t => cases t <;> cases h
    | bytes b =>
      cases b with
      | nil => cases h
      | cons b bs =>
        simp only at h ⊢
        cases hd : W.decode (b :: bs) with
        | error e => rw [hd] at h; cases h
        | ok t => exact ⟨_, t, rfl, by simp, hd, rfl⟩

theorem writeImpl_not_true {W : World} {fs : Files} {f s_dot : Text} {engine : Option Text} {format : Text} (h : (writeImpl W fs f s_dot engine format).1 ≠ .ok true) :
    (writeImpl W fs f s_dot engine format).2 = fs := by
  unfold writeImpl at h ⊢
  cases hr : runGraphviz W s_dot engine format with
  | error e => rfl
  | ok im =>
    rw [hr] at h
    cases im with
    | str t => cases t <;> rfl
    | bytes b =>
      cases b with
      | nil => rfl
      | cons b bs =>
        simp only at h ⊢
        cases hd : W.decode (b :: bs) with
        | error e => rfl
        | ok t => rw [hd] at h; exact absurd rfl h

/-- `run_graphviz` returns `bytes` only when `dot` succeeds, for another format than `svg`. -/
theorem run_bytes {W : World} {s_dot : Text} {engine : Option Text} {format : Text} {b : Bytes}
    (h : runGraphviz W s_dot engine format = .ok (.bytes b)) : format ≠ kwSvg ∧ ∃ err, W.dot format (engine.getD kwDot) s_dot = (0, b, err) := by
  obtain ⟨⟨status, out, err⟩, hd⟩ : ∃ r, W.dot format (engine.getD kwDot) s_dot = r := ⟨_, rfl⟩
  unfold runGraphviz at h
  simp only [hd] at h ⊢
  by_cases h0 : status = 0
  · rw [if_pos h0] at h
    by_cases hf : format = kwSvg
    · rw [if_pos hf] at h
      cases ht : W.decode out <;> rw [ht] at h <;> cases h
    · rw [if_neg hf] at h
      cases h
      exact ⟨hf, err, by rw [h0]⟩
  · rw [if_neg h0] at h
    cases ht : W.decode err <;> rw [ht] at h <;> cases h

/-- **C109** (when `True` is returned): `dot` succeeded, the format is not the default one, and the file contains the decoded output of `dot`, followed by a newline; an open file is
written at its end. -/
theorem C109_true {W : World} {fs : Files} {target : Target} {s_dot : Text} {engine : Option Text} {format : Text}
    (h : (writeGraphviz W fs target s_dot engine format).1 = .ok true) :
    format ≠ kwSvg ∧ ∃ out err t, W.dot format (engine.getD kwDot) s_dot = (0, out, err) ∧ out ≠ [] ∧ W.decode out = .ok t ∧
      (writeGraphviz W fs target s_dot engine format).2.get? target.name =
        some ((match target with | .path _ => [] | .file f => fs.getD f []) ++ t ++ ['\n']) := by
  cases target with
  | path f =>
    obtain ⟨out, t, h1, h2, h3, h4⟩ := writeImpl_true h
    obtain ⟨h5, err, h6⟩ := run_bytes h1
    refine ⟨h5, out, err, t, h6, h2, h3, ?_⟩
    show (writeImpl W _ f s_dot engine format).2.get? f = _
    rw [h4, Dict.get?_set, if_pos rfl]
    simp [Dict.getD, Dict.get?_set]
  | file f =>
    obtain ⟨out, t, h1, h2, h3, h4⟩ := writeImpl_true h
    obtain ⟨h5, err, h6⟩ := run_bytes h1
    refine ⟨h5, out, err, t, h6, h2, h3, ?_⟩
    show (writeImpl W _ f s_dot engine format).2.get? f = _
    rw [h4, Dict.get?_set, if_pos rfl]

/-- **C109** (other formats): if `dot` succeeds and produces a text in UTF-8, `True` is returned and the file holds this text. -/
theorem C109_write_partial {W : World} {fs : Files} {f s_dot : Text} {engine : Option Text} {format : Text} {out err : Bytes} {t : Text}
    (hf : format ≠ kwSvg) (hd : W.dot format (engine.getD kwDot) s_dot = (0, out, err)) (hne : out ≠ []) (ht : W.decode out = .ok t) :
    (writeGraphviz W fs (.path f) s_dot engine format).1 = .ok true ∧
    (writeGraphviz W fs (.path f) s_dot engine format).2.get? f = some (t ++ ['\n']) := by
  have hr : runGraphviz W s_dot engine format = .ok (.bytes out) := by
    unfold runGraphviz
    simp only [hd, if_true, if_neg hf]
  have h1 : (writeGraphviz W fs (.path f) s_dot engine format).1 = .ok true := by
    unfold writeGraphviz writeImpl
    simp only [hr]
    cases out with
    | nil => exact absurd rfl hne
    | cons b bs => simp only [ht]
  refine ⟨h1, ?_⟩
  obtain ⟨_, out', err', t', k1, _, k2, k3⟩ := C109_true h1
  rw [hd] at k1
  cases k1
  rw [ht] at k2
  cases k2
  exact k3

/-- **C109** (the default format): with the format `svg`, `write_graphviz` never returns `True`; if `dot` succeeds and writes something, it raises `AttributeError`. -/
theorem C109_svg {W : World} {fs : Files} {target : Target} {s_dot : Text} {engine : Option Text} :
    (writeGraphviz W fs target s_dot engine kwSvg).1 ≠ .ok true ∧
    ∀ out err t, W.dot kwSvg (engine.getD kwDot) s_dot = (0, out, err) → W.decode out = .ok t → t ≠ [] →
      (writeGraphviz W fs target s_dot engine kwSvg).1 = .error .attributeError := by
  refine ⟨fun h => (C109_true h).1 rfl, ?_⟩
  intro out err t hd ht hne
  have hr : runGraphviz W s_dot engine kwSvg = .ok (.str t) := by
    unfold runGraphviz
    simp only [hd, if_true, ht]
    rfl
  cases t with
  | nil => exact absurd rfl hne
  | cons c t => cases target <;> simp only [writeGraphviz, writeImpl, hr]

/-- **C109** (failures): if `True` is not returned, whatever the reason, the file which was named is left empty, its former contents being lost; a file that was already open is
left as it was. -/
theorem C109_failure {W : World} {fs : Files} {s_dot : Text} {engine : Option Text} {format : Text} (f : Text) :
    ((writeGraphviz W fs (.path f) s_dot engine format).1 ≠ .ok true → (writeGraphviz W fs (.path f) s_dot engine format).2.get? f = some []) ∧
    ((writeGraphviz W fs (.file f) s_dot engine format).1 ≠ .ok true → (writeGraphviz W fs (.file f) s_dot engine format).2 = fs) := by
  constructor
  · intro h
    show (writeImpl W _ f s_dot engine format).2.get? f = _
    rw [writeImpl_not_true h, Dict.get?_set, if_pos rfl]
  · exact writeImpl_not_true

/-- **C109** (other files): no other file is modified. -/
theorem C109_others {W : World} {fs : Files} {target : Target} {s_dot : Text} {engine : Option Text} {format : Text} {f : Text} (hf : f ≠ target.name) :
    (writeGraphviz W fs target s_dot engine format).2.get? f = fs.get? f := by
  have key : ∀ (fs : Files) (n : Text), f ≠ n → (writeImpl W fs n s_dot engine format).2.get? f = fs.get? f := by
    intro fs n hn
    by_cases h : (writeImpl W fs n s_dot engine format).1 = .ok true
    · obtain ⟨_, t, _, _, _, h4⟩ := writeImpl_true h
      rw [h4, Dict.get?_set, if_neg (Ne.symm hn)]
    · rw [writeImpl_not_true h]
  cases target with
  | path n =>
    show (writeImpl W _ n s_dot engine format).2.get? f = _
    have hf' : f ≠ n := hf
    rw [key _ n hf', Dict.get?_set, if_neg (Ne.symm hf')]
  | file n => exact key fs n hf

/-- A `dot` which writes `<svg/>`, whatever its input. -/
def sampleWorld : World where
  dot _ _ _ := (0, [60, 115, 118, 103, 47, 62], [])
  decode b := .ok (b.map fun x => Char.ofNat x.toNat)

/-- **C109 is false of the code**: with the default format, the image is not written, and the file is emptied. -/
theorem C109_counterexample : ¬ C109_statement := by
  intro h
  have := ((h sampleWorld [(['f'], ['x'])] ['f'] [] none kwSvg).2 (by
    have := (C109_svg (W := sampleWorld) (fs := [(['f'], ['x'])]) (target := .path ['f']) (s_dot := []) (engine := none)).1
    exact this))
  revert this
  decide

theorem findSvg_some : ∀ {t : Text} {i : Nat}, findSvg t = some i →
    (∃ r, t.drop i = '<' :: 's' :: 'v' :: 'g' :: r) ∧ ∀ j < i, ∀ r, t.drop j ≠ '<' :: 's' :: 'v' :: 'g' :: r
  | [], _, h => by cases h
  | c :: t, i, h => by
    rw [findSvg] at h
    by_cases hp : ['<', 's', 'v', 'g'].isPrefixOf (c :: t) = true
    · rw [if_pos hp] at h
      cases h
      obtain ⟨r, hr⟩ := List.isPrefixOf_iff_prefix.mp hp
      exact ⟨⟨r, hr.symm⟩, fun j hj => absurd hj (Nat.not_lt_zero j)⟩
    · rw [if_neg hp] at h
      obtain ⟨k, hk, rfl⟩ := Option.map_eq_some_iff.mp h
      obtain ⟨h1, h2⟩ := findSvg_some hk
      refine ⟨h1, ?_⟩
      intro j hj r hr
      cases j with
      | zero =>
        apply hp
        rw [List.isPrefixOf_iff_prefix]
        exact ⟨r, hr.symm⟩
      | succ j => exact h2 j (by omega) r hr

theorem findSvg_none : ∀ {t : Text}, findSvg t = none → ∀ j r, t.drop j ≠ '<' :: 's' :: 'v' :: 'g' :: r
  | [], _, j, r => by simp
  | c :: t, h, j, r => by
    rw [findSvg] at h
    by_cases hp : ['<', 's', 'v', 'g'].isPrefixOf (c :: t) = true
    · rw [if_pos hp] at h; cases h
    · rw [if_neg hp] at h
      cases j with
      | zero =>
        intro hr
        apply hp
        rw [List.isPrefixOf_iff_prefix]
        exact ⟨r, hr.symm⟩
      | succ j => exact findSvg_none (by simpa using h) j r

/-- **C109** (`dot_to_svg`): when `dot` succeeds, the text returned is what `dot` wrote, from the first `<svg`; if there is none, it is the last
character. -/
theorem C109_dot_to_svg {W : World} {s_dot : Text} {engine : Option Text} {out err : Bytes} {t : Text}
    (hd : W.dot kwSvg (engine.getD kwDot) s_dot = (0, out, err)) (ht : W.decode out = .ok t) :
    (∀ pre post, t = pre ++ '<' :: 's' :: 'v' :: 'g' :: post →
      ∃ pre' post', t = pre' ++ '<' :: 's' :: 'v' :: 'g' :: post' ∧ pre'.length ≤ pre.length ∧ dotToSvg W s_dot engine kwSvg = .ok ('<' :: 's' :: 'v' :: 'g' :: post') ∧
        ∀ x y, t = x ++ '<' :: 's' :: 'v' :: 'g' :: y → pre'.length ≤ x.length) ∧
    ((¬ ∃ pre post, t = pre ++ '<' :: 's' :: 'v' :: 'g' :: post) → dotToSvg W s_dot engine kwSvg = .ok (t.drop (t.length - 1))) := by
  have hr : dotToSvg W s_dot engine kwSvg = .ok (fromSvg t) := by
    unfold dotToSvg runGraphviz
    simp only [hd, if_true, ht]
    rfl
  rw [hr]
  have occ : ∀ x y, t = x ++ '<' :: 's' :: 'v' :: 'g' :: y → t.drop x.length = '<' :: 's' :: 'v' :: 'g' :: y := by
    intro x y h; rw [h]; simp
  constructor
  · intro pre post hpp
    cases hf : findSvg t with
    | none => exact absurd (occ pre post hpp) (findSvg_none hf _ _)
    | some i =>
      obtain ⟨⟨r, h1⟩, h2⟩ := findSvg_some hf
      have hmin : ∀ x y, t = x ++ '<' :: 's' :: 'v' :: 'g' :: y → i ≤ x.length := by
        intro x y h
        by_contra hc
        exact h2 x.length (by omega) y (occ x y h)
      have hi : i ≤ t.length := by
        have := hmin pre post hpp
        rw [hpp, List.length_append]
        omega
      have hl : (t.take i).length = i := by rw [List.length_take]; omega
      refine ⟨t.take i, r, ?_, ?_, ?_, ?_⟩
      · rw [← h1, List.take_append_drop]
      · rw [hl]; exact hmin pre post hpp
      · rw [fromSvg, hf]; simp only [h1]
      · intro x y h; rw [hl]; exact hmin x y h
  · intro hno
    cases hf : findSvg t with
    | none => rw [fromSvg, hf]
    | some i =>
      obtain ⟨⟨r, h1⟩, _⟩ := findSvg_some hf
      exact absurd ⟨t.take i, r, by rw [← h1, List.take_append_drop]⟩ hno

/-- **C109** (`dotstr_to_html`): when `dot` succeeds, the text returned is the whole of what it wrote; when it fails, `RuntimeError` is raised, unless its error
output is not in UTF-8. -/
theorem C109_dotstr {W : World} {s_dot : Text} {engine : Option Text} {status : Int} {out err : Bytes}
    (hd : W.dot kwSvg (engine.getD kwDot) s_dot = (status, out, err)) :
    (status = 0 → dotstrToHtml W s_dot engine = W.decode out) ∧
    (status ≠ 0 → dotstrToHtml W s_dot engine = (match W.decode err with | .ok _ => .error .runtimeError | .error e => .error e)) := by
  constructor
  · intro h
    unfold dotstrToHtml runGraphviz
    simp only [hd, if_pos h, if_true]
    cases W.decode out <;> rfl
  · intro h
    unfold dotstrToHtml runGraphviz
    simp only [hd, if_neg h]
    cases W.decode err <;> rfl

/-- The hypotheses are met: a `dot` that succeeds, for the format `svg` and for another one. -/
example : (writeGraphviz sampleWorld [] (.path ['f']) [] none ['x']).1 = .ok true ∧
    (writeGraphviz sampleWorld [] (.path ['f']) [] none ['x']).2 = [(['f'], "<svg/>\n".toList)] ∧
    dotToSvg sampleWorld [] none kwSvg = .ok "<svg/>".toList := ⟨rfl, by decide, by decide⟩

/-! ## C110 -/

/-- The colour given by the last call that sets the foreground. -/
def lastFg : List StyleOp → Option Text
  | [] => none
  | .fg c :: ops => (lastFg ops).or (some c)
  | .bg _ :: ops => lastFg ops

/-- The colour given by the last call that sets the background. -/
def lastBg : List StyleOp → Option Text
  | [] => none
  | .bg c :: ops => (lastBg ops).or (some c)
  | .fg _ :: ops => lastBg ops

/-- **C110** (styles). After any sequence of calls to `set_fg_color` and `set_bg_color`, the colours of the graph, of its vertices and of its edges are those of the last calls, and
the other attributes are unchanged. -/
theorem C110_style (ops : List StyleOp) (s : Style) (k : Text) :
    let s' := ops.foldl Style.exec s
    Dict.get? s'.graph k = (if k = kFontcolor then lastFg ops else if k = kBgcolor then lastBg ops else none).or (Dict.get? s.graph k) ∧
    Dict.get? s'.node k = (if k = kFontcolor ∨ k = kColor then lastFg ops else none).or (Dict.get? s.node k) ∧
    Dict.get? s'.edge k = (if k = kFontcolor ∨ k = kColor then lastFg ops else none).or (Dict.get? s.edge k) ∧
    s'.extra = s.extra := by
  induction ops generalizing s with
  | nil => simp [lastFg, lastBg]
  | cons op ops ih =>
    have d1 : kFontcolor ≠ kBgcolor := by decide
    have d2 : kFontcolor ≠ kColor := by decide
    obtain ⟨i1, i2, i3, i4⟩ := ih (s.exec op)
    simp only [List.foldl_cons]
    refine ⟨?_, ?_, ?_, ?_⟩
    · rw [i1]
      cases op with
      | fg c =>
        simp only [Style.exec, Style.setFg, setAttr, Dict.get?_set, lastFg, lastBg]
        by_cases h1 : k = kFontcolor
        · subst h1; cases lastFg ops <;> simp
        · rw [if_neg h1, if_neg h1, if_neg (Ne.symm h1)]
      | bg c =>
        simp only [Style.exec, Style.setBg, setAttr, Dict.get?_set, lastFg, lastBg]
        by_cases h1 : k = kFontcolor
        · subst h1; rw [if_pos rfl, if_pos rfl, if_neg (Ne.symm d1)]
        · rw [if_neg h1, if_neg h1]
          by_cases h2 : k = kBgcolor
          · subst h2; cases lastBg ops <;> simp
          · rw [if_neg h2, if_neg h2, if_neg (Ne.symm h2)]
    · rw [i2]
      cases op with
      | fg c =>
        simp only [Style.exec, Style.setFg, setAttr, Dict.get?_set, lastFg]
        by_cases h1 : k = kFontcolor
        · subst h1; cases lastFg ops <;> simp
        · by_cases h2 : k = kColor
          · subst h2; cases lastFg ops <;> simp [d2]
          · simp [h1, h2, Ne.symm h1, Ne.symm h2]
      | bg c => simp only [Style.exec, Style.setBg, lastFg]
    · rw [i3]
      cases op with
      | fg c =>
        simp only [Style.exec, Style.setFg, setAttr, Dict.get?_set, lastFg]
        by_cases h1 : k = kFontcolor
        · subst h1; cases lastFg ops <;> simp
        · by_cases h2 : k = kColor
          · subst h2; cases lastFg ops <;> simp [d2]
          · simp [h1, h2, Ne.symm h1, Ne.symm h2]
      | bg c => simp only [Style.exec, Style.setBg, lastFg]
    · rw [i4]; cases op <;> rfl

/-- **C110** (`GraphDp`). The attributes of a `GraphDp` are those it was given, or those of the style in force when it was made: later changes of the style have no effect on
them. -/
theorem C110_snapshot {L : Type} (s s' : Style) (dpv : List (Prop' Nat)) (dpe : List (Prop' (EdgeDesc L))) (dg dv de : List (Text × Text)) (extra : List Text) :
    let G := GraphDp.new s dpv dpe dg dv de extra
    G.dg.read s' = (if dg = [] then s.graph else dg) ∧ G.dv.read s' = (if dv = [] then s.node else dv) ∧ G.de.read s' = (if de = [] then s.edge else de) := by
  have : ∀ (d : List (Text × Text)) (get : Style → List (Text × Text)), (orCopy s d get).read s' = if d = [] then get s else d := by
    intro d get
    unfold orCopy
    by_cases h : d = [] <;> simp [h, AttrRef.copy, AttrRef.read]
  exact ⟨this _ _, this _ _, this _ _⟩

theorem get?_enrichAttrs (default d : List (Text × Text)) (k : Text) :
    Dict.get? (enrichAttrs default d) k = (Dict.get? d k).or (Dict.get? default k) := get?_enrich default d k

/-- The property map given for an attribute, if any. -/
def propMap {X : Type} : List (Prop' X) → Text → Option (X → Option Text)
  | [], _ => none
  | p :: l, k => if p.key = k then some p.val else propMap l k

theorem propMap_eq {X : Type} : ∀ (l : List (Prop' X)) (k : Text), propMap l k = Dict.get? (l.map fun p => (p.key, p.val)) k
  | [], _ => rfl
  | p :: l, k => by
    show (if p.key = k then some p.val else propMap l k) = (if p.key = k then some p.val else Dict.get? (l.map fun p => (p.key, p.val)) k)
    rw [propMap_eq l k]

theorem propMap_enrichProps {X : Type} (default d : List (Prop' X)) (k : Text) : propMap (enrichProps default d) k = (propMap d k).or (propMap default k) := by
  rw [propMap_eq, propMap_eq, propMap_eq, ← get?_enrich]
  unfold enrichProps
  rw [List.map_map]
  congr 1
  exact List.map_id' _

/-- **C110** (`GraphDp.to_dot`). Without extra style, the text is the one `to_dot` writes with the attributes and the property maps of the call, then those of the `GraphDp`: what is
given in the call wins, and nothing else is written. With an extra style, given to the constructor or found in the global style, `AttributeError` is raised. -/
theorem C110_to_dot {L : Type} (s s' : Style) (dpv : List (Prop' Nat)) (dpe : List (Prop' (EdgeDesc L))) (dg dv de : List (Text × Text)) (extra : List Text)
    (directed : Bool) (tags : Text → List (Nat × Nat)) (o : Opts) (cv : List (Prop' Nat)) (ce : List (Prop' (EdgeDesc L))) (vs : List Nat) (es : List (EdgeDesc L)) :
    ((extra ≠ [] ∨ s.extra ≠ []) → (GraphDp.new s dpv dpe dg dv de extra).toDot s' directed tags o cv ce vs es = .error .attributeError) ∧
    (extra = [] → s.extra = [] → ∃ (dg' dv' de' : List (Text × Text)) (dpv' : List (Prop' Nat)) (dpe' : List (Prop' (EdgeDesc L))),
      (GraphDp.new s dpv dpe dg dv de extra).toDot s' directed tags o cv ce vs es =
        .ok (Graphviz.toDot directed tags s' { o with dg := dg', dv := dv', de := de' } dpv' dpe' vs es) ∧
      (∀ k, propMap dpv' k = (propMap cv k).or (propMap dpv k)) ∧
      (∀ k, propMap dpe' k = (propMap ce k).or (propMap dpe k)) ∧
      (∀ k, Dict.get? dg' k = (Dict.get? o.dg k).or (Dict.get? (if dg = [] then s.graph else dg) k)) ∧
      (∀ k, Dict.get? dv' k = (Dict.get? o.dv k).or (Dict.get? (if dv = [] then s.node else dv) k)) ∧
      (∀ k, Dict.get? de' k = (Dict.get? o.de k).or (Dict.get? (if de = [] then s.edge else de) k))) := by
  obtain ⟨r1, r2, r3⟩ := C110_snapshot s s' dpv dpe dg dv de extra
  have hx : (GraphDp.new s dpv dpe dg dv de extra).extra = if extra = [] then s.extra else extra := rfl
  constructor
  · intro h
    unfold GraphDp.toDot
    simp only
    rw [if_pos]
    rw [hx]
    by_cases he : extra = []
    · rw [if_pos he]; exact h.resolve_left (fun h => h he)
    · rw [if_neg he]; exact he
  · intro h1 h2
    refine ⟨enrichAttrs (if dg = [] then s.graph else dg) o.dg, enrichAttrs (if dv = [] then s.node else dv) o.dv,
      enrichAttrs (if de = [] then s.edge else de) o.de, enrichProps dpv cv, enrichProps dpe ce, ?_,
      fun k => propMap_enrichProps _ _ k, fun k => propMap_enrichProps _ _ k,
      fun k => get?_enrichAttrs _ _ k, fun k => get?_enrichAttrs _ _ k, fun k => get?_enrichAttrs _ _ k⟩
    unfold GraphDp.toDot
    simp only
    rw [if_neg (by rw [hx, if_pos h1]; simpa using h2), r1, r2, r3]
    rfl

example : Dict.get? ([StyleOp.fg ['r'], .bg ['b'], .fg ['g']].foldl Style.exec Style.default).node kColor = some ['g'] ∧
    Dict.get? ([StyleOp.fg ['r'], .bg ['b'], .fg ['g']].foldl Style.exec Style.default).graph kBgcolor = some ['b'] := by decide

example : ((GraphDp.new Style.default [] [] [] [] [] [] : GraphDp Nat).toDot (Style.default.setFg ['r']) true (fun _ => []) {} [] [] [0] []).toOption.isSome = true ∧
    ((GraphDp.new Style.default [] [] [] [] [] [['x']] : GraphDp Nat).toDot Style.default true (fun _ => []) {} [] [] [0] []).toOption.isSome = false := by decide

/-! ## C111 -/

/-- The text put before the body, for a background colour. -/
def divOpen (color : Text) : Text :=
  ['<', 'd', 'i', 'v', ' ', 's', 't', 'y', 'l', 'e', '=', '\'', 'b', 'a', 'c', 'k', 'g', 'r', 'o', 'u', 'n', 'd', '-', 'c', 'o', 'l', 'o', 'r', ':'] ++ color ++ ['\'', '>']

/-- The text put after the body. -/
def divClose : Text := ['<', '/', 'd', 'i', 'v', '>']

/-- **C111, the full statement**: the body is displayed as it is, in a block with the background colour, if one is given. -/
def C111_statement : Prop :=
  ∀ color svg : Text, displayed color svg = .ok (if color = [] then svg else divOpen color ++ svg ++ divClose)

theorem pyFormat_plain {f : Text} (h : '%' ∉ f) (g : Text) (args : List Text) : pyFormat (f ++ g) args = (pyFormat g args).map (f ++ ·) := by
  induction f with
  | nil => rw [List.nil_append]; cases pyFormat g args <;> rfl
  | cons c f ih =>
    simp only [List.mem_cons, not_or] at h
    rw [List.cons_append, pyFormat]
    · rw [ih h.2]; cases pyFormat g args <;> rfl
    all_goals (intros; exact h.1 (Eq.symm ‹c = '%'›))

theorem backgroundTemplate_eq {color : Text} (h : color ≠ []) : backgroundTemplate color = .ok (divOpen color ++ ['%', 's'] ++ divClose) := by
  unfold backgroundTemplate
  rw [if_neg h]
  simp [divTemplate, pyFormat, divOpen, divClose, bind, Except.bind]

/-- **C111** (colours without `%`): the body is displayed as it is, whatever characters it contains, `%` included. -/
theorem C111_display_partial {color : Text} (h : '%' ∉ color) (svg : Text) :
    displayed color svg = .ok (if color = [] then svg else divOpen color ++ svg ++ divClose) := by
  by_cases hc : color = []
  · subst hc
    show pyFormat ['%', 's'] [svg] = _
    show (.ok (svg ++ []) : Except PyErr Text) = _
    simp
  · unfold displayed
    rw [backgroundTemplate_eq hc, if_neg hc]
    show pyFormat _ [svg] = _
    rw [List.append_assoc, pyFormat_plain (by simp [divOpen, h])]
    show (Except.ok (svg ++ divClose) : Except PyErr Text).map _ = _
    simp [Except.map]

/-- **C111 is false of the code**: a colour such as `hsl(0, 50%, 50%)` contains `%`, which is taken for a conversion. -/
theorem C111_counterexample : ¬ C111_statement := by
  intro h
  have := h "hsl(0,50%,50%)".toList ['x']
  revert this
  decide

/-- **C111** (colours with `%`): `%s` in the colour takes the place of the body, and `TypeError` is raised since no argument remains for the body;
`%%` is displayed as `%`. -/
theorem C111_percent_partial {a b : Text} (ha : '%' ∉ a) (hb : '%' ∉ b) (svg : Text) :
    displayed (a ++ ['%', 's'] ++ b) svg = .error .typeError ∧
    displayed (a ++ ['%', '%'] ++ b) svg = .ok (divOpen (a ++ ['%'] ++ b) ++ svg ++ divClose) := by
  obtain ⟨o, ho, hop⟩ : ∃ o : Text, '%' ∉ o ∧ ∀ c, divOpen c = o ++ c ++ ['\'', '>'] := ⟨_, by decide, fun c => rfl⟩
  have e : ∀ m : Text, displayed (a ++ ['%'] ++ m ++ b) svg = pyFormat ((o ++ a) ++ ('%' :: (m ++ (b ++ ['\'', '>']) ++ ('%' :: 's' :: divClose)))) [svg] := by
    intro m
    unfold displayed
    rw [backgroundTemplate_eq (by simp)]
    show pyFormat _ [svg] = _
    congr 1
    simp [hop]
  constructor
  · have := e ['s']
    rw [pyFormat_plain (by simp [ho, ha])] at this
    simp only [List.append_assoc, List.cons_append, List.nil_append] at this ⊢
    rw [this, pyFormat, pyFormat_plain hb]
    rfl
  · have := e ['%']
    rw [pyFormat_plain (by simp [ho, ha])] at this
    simp only [List.append_assoc, List.cons_append, List.nil_append] at this ⊢
    rw [this, pyFormat, pyFormat_plain hb]
    show (Except.ok _ : Except PyErr Text) = _
    simp [hop, divClose]

example : displayed "a%sb".toList ['x'] = .error .typeError := by decide

/-- **C111** (`display_svg`, `display_body`): the file receives the body followed by a newline, even if the display fails; no other file is modified. -/
theorem C111_file (fs : Files) (svg filename color : Text) (f : Text) :
    (displaySvg fs svg filename color).2.1.get? f = if f = filename then some (svg ++ ['\n']) else fs.get? f := by
  have : (displaySvg fs svg filename color).2.1 = fs.set filename (svg ++ ['\n']) := by
    unfold displaySvg
    cases displayed color svg <;> rfl
  rw [this, Dict.get?_set]
  by_cases h : filename = f
  · rw [if_pos h, if_pos h.symm]
  · rw [if_neg h, if_neg (Ne.symm h)]

/-- **C111** (`display_svg`): a link to the file is displayed, then the body, if the colour allows it. -/
theorem C111_texts (fs : Files) (svg filename color : Text) :
    let link := "<a href='".toList ++ filename ++ "' target='_blank'>View</a>".toList
    (∀ t, displayed color svg = .ok t → (displaySvg fs svg filename color).1 = .ok () ∧ (displaySvg fs svg filename color).2.2 = [link, t]) ∧
    (∀ e, displayed color svg = .error e → (displaySvg fs svg filename color).1 = .error e ∧ (displaySvg fs svg filename color).2.2 = [link]) := by
  constructor
  · intro t h
    unfold displaySvg
    rw [h]
    exact ⟨rfl, rfl⟩
  · intro e h
    unfold displaySvg
    rw [h]
    exact ⟨rfl, rfl⟩

/-- **C111** (`display_body`): the page written in the file contains the body as it is. -/
theorem C111_body (fs : Files) (body filename color : Text) :
    (displayBody fs body filename color).2.1.get? filename =
      some ("<html> <head>  <meta charset='UTF-8'> </head> <body>".toList ++ body ++ "</body></html>\n".toList) := by
  have : pyFormat pageTemplate [body] = .ok ("<html> <head>  <meta charset='UTF-8'> </head> <body>".toList ++ body ++ "</body></html>".toList) := rfl
  unfold displayBody
  rw [this]
  simp only
  rw [C111_file, if_pos rfl, List.append_assoc _ "</body></html>".toList]
  rfl

example : displayed "white".toList "100% <svg/>".toList = .ok "<div style='background-color:white'>100% <svg/></div>".toList := by decide

end PyBGL
