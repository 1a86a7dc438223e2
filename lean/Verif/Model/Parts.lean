import Verif.Model.Back

/-!
# Conversions of parts

The public conversions of single scopes, commands, environments, chunks and maths blocks, which a user can call
without a document, and `push_into_unchecked`, which builds a document from anything that turns into chunks.
-/

namespace LatexAst.Ast2

/-- `TryFrom<ast1::Scope> for ast2::Scope`, src/ast2/scope.rs:105-115. -/
def Scope.tryFrom (sc : Ast1.Scope) : Res Scope := convScope Ast2.tryFrom sc

/-- `TryFrom<ast1::Command> for ast2::Command`, src/ast2/command.rs:79-93. Unlike `Document::try_from` it does not
look at the label. -/
def Command.tryFrom (c : Ast1.Command) : Res Command := convCommand Ast2.tryFrom c

/-- `<ast2::Chunk as ast1::IntoChunks>::into_chunks`, src/ast2/chunk.rs:30-101. -/
def Chunk.intoChunks (c : Chunk) : Res (List Ast1.Chunk) := intoVariant c.lineNo c.variant

end LatexAst.Ast2

namespace LatexAst.Ast1

/-- `From<ast2::Scope> for ast1::Scope`, src/ast1/scope.rs:91-102, and `ast2::Scope::to_ast1_scope`,
src/ast2/scope.rs:38-49, which has the same body. -/
def Scope.ofAst2 (sc : Ast2.Scope) : Res Scope := Ast2.intoScope sc

/-- `From<ast2::Command> for ast1::Command`, src/ast1/command.rs:113-124. -/
def Command.ofAst2 (c : Ast2.Command) : Res Command := Ast2.intoCommand c

/-- `push_into_unchecked` for a value whose `into_chunks()` has the outcome `r`, src/ast1/document.rs:97-103. The
chunks are made before the first is pushed, so a panic leaves the document as it was. -/
def Document.pushIntoUnchecked (d : Document) (r : Res (List Chunk)) : Res Document :=
  match r with
  | .error f => .error f
  | .ok cs => .ok (cs.foldl Document.pushChunkUnchecked d)

end LatexAst.Ast1

namespace LatexAst.Ast3

/-- `TryFrom<ast2::Scope> for ast3::Scope`, src/ast3/scope.rs:57-68. -/
def Scope.tryFrom (sc : Ast2.Scope) : Res Scope := tryScope mathsFromChunks sc

/-- `TryFrom<ast2::Command> for ast3::Command`, src/ast3/command.rs:64-78. -/
def Command.tryFrom (c : Ast2.Command) : Res Command := tryCommand mathsFromChunks c

/-- `TryFrom<ast2::Environment> for ast3::Environment`, src/ast3/environment.rs:85-105. -/
def Environment.tryFrom (e : Ast2.Environment) : Res Environment := tryEnvironment mathsFromChunks e

/-- `<ast3::Chunk as ast2::IntoChunks>::into_chunks`, src/ast3/chunk.rs:74-109. -/
def Chunk.intoChunks (c : Chunk) : Res (List Ast2.Chunk) := intoVariant c.lineNo c.variant

/-- `<MathsBlock as ast2::IntoChunks>::into_chunks`, src/ast3/mathsblock.rs:315-400. -/
def MathsBlock.intoChunks (m : MathsBlock) : Res (List Ast2.Chunk) := intoMaths m

end LatexAst.Ast3

namespace LatexAst.Ast2

/-- `From<ast3::Scope> for ast2::Scope`, src/ast2/scope.rs:117-128. -/
def Scope.ofAst3 (sc : Ast3.Scope) : Res Scope := Ast3.intoScope sc

/-- `From<ast3::Command> for ast2::Command`, src/ast2/command.rs:135-146. -/
def Command.ofAst3 (c : Ast3.Command) : Res Command := Ast3.intoCommand c

/-- `From<ast3::Environment> for ast2::Environment`, src/ast2/environment.rs:160-178. -/
def Environment.ofAst3 (e : Ast3.Environment) : Res Environment := Ast3.intoEnvironment e

end LatexAst.Ast2
