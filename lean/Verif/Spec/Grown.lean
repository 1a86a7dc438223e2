import Verif.Spec.WellFormed
import Verif.Model.Ast2

/-!
# Specification: typing on

How what is read of the beginning of a source relates to what is read of the whole source.
-/

namespace LatexAst.Spec

/-- The name of a letter command. -/
def StartsWithLetter (name : Str) : Prop := ∃ c r, name = c :: r ∧ isAsciiAlphabetic c = true

end LatexAst.Spec

namespace LatexAst.Ast1
open Spec

/-- `Grown ds dt`: the document `dt` is the document `ds`, of which at most the last text or the last command (with the blanks
after it) has grown, with more chunks after it. Everything else stays as it is and where it is. -/
inductive Grown : List Chunk → List Chunk → Prop
  /-- nothing has grown -/
  | kept {cs more} : Grown cs (cs ++ more)
  /-- the text at the end has become longer -/
  | text {cs l a b more} : Grown (cs ++ [.mk l (.text a)]) (cs ++ .mk l (.text (a ++ b)) :: more)
  /-- the command at the end has got more arguments -/
  | command {cs l name args extra more} :
      Grown (cs ++ [.mk l (.command (.mk name args))]) (cs ++ .mk l (.command (.mk name (args ++ extra))) :: more)
  /-- the letter command at the end, without arguments so far, has got a longer name -/
  | name {cs l name suffix args more} : StartsWithLetter name →
      Grown (cs ++ [.mk l (.command (.mk name []))]) (cs ++ .mk l (.command (.mk (name ++ suffix) args)) :: more)
  /-- the blanks after the command at the end have become a longer text -/
  | blanks {cs c l k l' b more} : (∀ x ∈ k, isWhitespace x = true) →
      Grown (cs ++ [c, .mk l (.text k)]) (cs ++ c :: .mk l' (.text (k ++ b)) :: more)
  /-- the blanks after the command at the end have become blanks before a further argument -/
  | argument {cs l name args l' k b sc extra more} : (∀ x ∈ k, isWhitespace x = true) →
      Grown (cs ++ [.mk l (.command (.mk name args)), .mk l' (.text k)])
        (cs ++ .mk l (.command (.mk name (args ++ (k ++ b, sc) :: extra))) :: more)

end LatexAst.Ast1

namespace LatexAst.Ast2
open Spec

/-- The same for stage 2, where a command at the end may also turn out to be the beginning of `\begin`. -/
inductive Grown : List Chunk → List Chunk → Prop
  /-- nothing has grown -/
  | kept {cs more} : Grown cs (cs ++ more)
  /-- the text at the end has become longer -/
  | text {cs l a b more} : Grown (cs ++ [.mk l (.text a)]) (cs ++ .mk l (.text (a ++ b)) :: more)
  /-- the command at the end has got more arguments -/
  | command {cs l name args extra more} :
      Grown (cs ++ [.mk l (.command (.mk name args))]) (cs ++ .mk l (.command (.mk name (args ++ extra))) :: more)
  /-- the letter command at the end, without arguments so far, has got a longer name -/
  | name {cs l name suffix args more} : StartsWithLetter name →
      Grown (cs ++ [.mk l (.command (.mk name []))]) (cs ++ .mk l (.command (.mk (name ++ suffix) args)) :: more)
  /-- the command at the end, without arguments so far, has become `\begin` -/
  | begun {cs l name suffix l' env more} : StartsWithLetter name → name ++ suffix = chars!"begin" → suffix ≠ [] →
      Grown (cs ++ [.mk l (.command (.mk name []))]) (cs ++ .mk l' (.environment env) :: more)
  /-- the blanks at the end (after a command) have become a longer text -/
  | blanks {cs l k l' b more} : (∀ x ∈ k, isWhitespace x = true) →
      Grown (cs ++ [.mk l (.text k)]) (cs ++ .mk l' (.text (k ++ b)) :: more)
  /-- the blanks after the command at the end have become blanks before a further argument -/
  | argument {cs l name args l' k b sc extra more} : (∀ x ∈ k, isWhitespace x = true) →
      Grown (cs ++ [.mk l (.command (.mk name args)), .mk l' (.text k)])
        (cs ++ .mk l (.command (.mk name (args ++ (k ++ b, sc) :: extra))) :: more)

/-- The errors of stage 2 that more source may repair. -/
def Repairable (t : ErrorType) : Prop :=
  t = .noEnvironmentLabel ∨ (∃ v, t = .unclosedScope v ∨ t = .unclosedArgument v) ∨ ∃ lab, t = .unclosedEnvironment lab

end LatexAst.Ast2

namespace LatexAst.Ast3
open Spec

/-- The errors of stage 3 that more source may repair. -/
def Repairable (t : ErrorType) : Prop := Ast2.Repairable t ∨ t = .unclosedMaths ∨ t = .doubleDocumentClass

end LatexAst.Ast3
