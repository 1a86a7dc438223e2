import Verif.Spec.Grammar

/-!
# Specification: sources that are printed back as they are

`Verbatim s`: `s` is made of texts, free scopes in curly braces, symbol commands, and letter commands with arguments
that contain no bracket of their own kind, with no backslash before a blank or an opening bracket that follows a
letter command. No comment, and no backslash at the end.
-/

namespace LatexAst.Ast1
open Spec

/-- Arguments one after the other, blanks before each of them; no (unescaped) bracket of the same kind inside. -/
inductive PlainArgs : Str → List Str → Prop
  | none : PlainArgs [] []
  | arg {g a w contents} {v : ScopeVariant} : Blank g → NoDangling a → Balanced v 0 a → dropBrackets v a = a →
      PlainArgs w contents → PlainArgs (g ++ v.opening :: (a ++ v.closing :: w)) (a :: contents)

/-- After a letter command, whose arguments are `w`, and blanks `g`, the source goes on with `t`, which belongs to none
of them and is not a closing bracket right after the command. -/
def FollowsCommand (w g t : Str) : Prop :=
  (∃ c r, t = '\\' :: c :: r ∧ isWhitespace c = false ∧ c ∉ ['{', '[', '(']) ∨
  (∃ c r, t = c :: r ∧ c ≠ '\\' ∧ isWhitespace c = false ∧ c ∉ ['{', '[', '('] ∧ (g = [] → w ≠ [] ∧ c ∉ ['}', ']', ')']))

/-- See above. -/
inductive Verbatim : Str → Prop
  | nil : Verbatim []
  | text {t r} : t ≠ [] → (∀ x ∈ t, x ∉ ['\\', '%', '{', '[', '(']) → TextEnds r → Verbatim r → Verbatim (t ++ r)
  | scope {a r} : NoDangling a → Balanced .curly 0 a → Verbatim a → Verbatim r → Verbatim ('{' :: (a ++ '}' :: r))
  | symbol {c r} : isAsciiAlphabetic c = false → Verbatim r → Verbatim ('\\' :: c :: r)
  | command {name w g t contents} : LetterName name → PlainArgs w contents → (∀ a ∈ contents, Verbatim a) → Blank g →
      FollowsCommand w g t → Verbatim (g ++ t) → Verbatim ('\\' :: (name ++ (w ++ (g ++ t))))
  | lastCommand {name w g contents} : LetterName name → PlainArgs w contents → (∀ a ∈ contents, Verbatim a) → Blank g →
      Verbatim ('\\' :: (name ++ (w ++ g)))

end LatexAst.Ast1
