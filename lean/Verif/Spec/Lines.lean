import Verif.Spec.Nesting
import Verif.Spec.Source

/-!
# Specification: the sequences of a stage-2 document, and which chunks are numbered late

`Sequence e inEnv lv`: `lv` is one of the chunk sequences of `e` (the document itself, the content of a scope, of an
argument, or of an environment); `inEnv` tells whether it is the content of an environment.
-/

namespace LatexAst.Ast2
open Spec

/-- The chunk sequences of a document, at any depth. -/
inductive Sequence (e : List Chunk) : Bool → List Chunk → Prop
  | top : Sequence e false e
  | scope {b cs l inner sv} : Sequence e b cs → Chunk.mk l (.scope (.mk inner sv)) ∈ cs → Sequence e false inner
  | arg {b cs l label args prec inner sv} : Sequence e b cs → Chunk.mk l (.command (.mk label args)) ∈ cs →
      (prec, Scope.mk inner sv) ∈ args → Sequence e false inner
  | envArg {b cs l label args content pb pe prec inner sv} : Sequence e b cs →
      Chunk.mk l (.environment (.mk label args content pb pe)) ∈ cs → (prec, Scope.mk inner sv) ∈ args →
      Sequence e false inner
  | envContent {b cs l label args content pb pe} : Sequence e b cs →
      Chunk.mk l (.environment (.mk label args content pb pe)) ∈ cs → Sequence e true content

/-- The last chunk is a command whose name starts with a letter, or an environment (which ends with the command
`\end`). -/
def EndsWithCommand (cs : List Chunk) : Prop :=
  ∃ init l v, cs = init ++ [.mk l v] ∧
    ((∃ c r args, v = .command (.mk (c :: r) args) ∧ isAsciiAlphabetic c = true) ∨ ∃ x, v = .environment x)

end LatexAst.Ast2
