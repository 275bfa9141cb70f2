import Verif.Spec.RegexText

/-!
# How stacked suffix operators are read

The library gives `?` a lower precedence than `*` and `+`, and `{…}` a higher one than all of them, whatever the order in
which they are written. `ReText.readAs` makes that reading explicit with parentheses.
-/

namespace PyBGL

/-- One of the operators `*` and `+`. -/
inductive Suffix where
  | star
  | plus
  deriving DecidableEq, Repr

/-- An operand followed by its suffix operators, as they are read: `*` or `+`, if any, then `?`, if any, are still to be
applied to the operand. -/
structure ReReading where
  operand : ReText
  times : Option Suffix
  opt : Bool
  deriving Repr

namespace ReText

/-- The expression, in parentheses unless it needs none. -/
def atomic (e : ReText) : ReText := if e.level = 4 then e else .group e

end ReText

namespace ReReading

/-- The operand with its `*` or `+`. -/
def repeated (r : ReReading) : ReText :=
  match r.times with
  | none => r.operand
  | some .star => .star r.operand
  | some .plus => .plus r.operand

/-- The operand with all its suffix operators. -/
def all (r : ReReading) : ReText := if r.opt then .opt r.repeated else r.repeated

end ReReading

namespace ReText

/-- How an expression is read. A `?` applies to all that precedes. A `*` or a `+` applies to what precedes but the `?`, which
is applied afterwards. A repetition `{…}` applies to the operand alone. -/
def read : ReText → ReReading
  | .opt e => ⟨e.read.all.atomic, none, true⟩
  | .star e => ⟨e.read.repeated.atomic, some .star, e.read.opt⟩
  | .plus e => ⟨e.read.repeated.atomic, some .plus, e.read.opt⟩
  | .rep f e => ⟨.rep f e.read.operand, e.read.times, e.read.opt⟩
  | .group e => ⟨.group e.read.all, none, false⟩
  | .cat l r => ⟨.cat l.read.all r.read.all, none, false⟩
  | .alt l r => ⟨.alt l.read.all r.read.all, none, false⟩
  | .lit c => ⟨.lit c, none, false⟩
  | .esc c => ⟨.esc c, none, false⟩
  | .bracket neg items => ⟨.bracket neg items, none, false⟩

/-- The expression with the parentheses of its reading. -/
def readAs (e : ReText) : ReText := e.read.all

/-- No repetition `{…}` follows a `*`, a `+` or a `?`. -/
def RepsOnAtoms : ReText → Prop
  | .lit _ => True
  | .esc _ => True
  | .bracket _ _ => True
  | .group e => e.RepsOnAtoms
  | .cat l r => l.RepsOnAtoms ∧ r.RepsOnAtoms
  | .alt l r => l.RepsOnAtoms ∧ r.RepsOnAtoms
  | .opt e => e.RepsOnAtoms
  | .star e => e.RepsOnAtoms
  | .plus e => e.RepsOnAtoms
  | .rep _ e => e.RepsOnAtoms ∧ e.level = 4

end ReText
end PyBGL
