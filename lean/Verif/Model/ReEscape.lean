import Verif.Model.RegexText

/-!
# Model of `re_escape`
-/

namespace PyBGL
namespace RegexText

/-- The characters that `re_escape` escapes (shunting_yard_postfix.py:46). -/
def reEscaped : List Char := ['|', '[', ']', '{', '}', '.', '+', '*', '?', '(', ')', '^', '$', '\\']

/-- `re_escape` (shunting_yard_postfix.py:30-49). -/
def reEscape (s : List Char) : List Char := s.flatMap fun a => if a ∉ reEscaped then [a] else ['\\', a]

end RegexText
end PyBGL
