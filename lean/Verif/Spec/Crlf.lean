import Verif.Model.Ast3
import Verif.Spec.Source

/-!
# Specification: Windows line ends

`toCrlf s` is the source `s` with every newline written as carriage return and newline. On syntax trees of stages 1 and 2,
`toCrlf` is applied to every text, name, label and blank before an argument. `dropCr` removes all carriage returns; on
stage-3 trees it is applied to every text, and texts of which nothing is left are dropped.
-/

namespace LatexAst.Spec

/-- Write every newline as `\r\n`. -/
def toCrlf : Str → Str
  | [] => []
  | c :: s => if c = '\n' then '\r' :: '\n' :: toCrlf s else c :: toCrlf s

/-- Remove all carriage returns. -/
def dropCr (s : Str) : Str := s.filter fun c => c != '\r'

/-- No backslash escapes a newline. -/
def NoEscapedNewline : Str → Prop
  | [] => True
  | '\\' :: c :: r => c ≠ '\n' ∧ NoEscapedNewline r
  | _ :: r => NoEscapedNewline r

/-- The labels in an error, with Windows line ends. -/
def crlfFail : Fail → Fail
  | .err ⟨line, .unexpectedEnd label⟩ => .err ⟨line, .unexpectedEnd (toCrlf label)⟩
  | .err ⟨line, .unclosedEnvironment label⟩ => .err ⟨line, .unclosedEnvironment (toCrlf label)⟩
  | e => e

/-- The labels in an error, without carriage returns. -/
def eraseCrFail : Fail → Fail
  | .err ⟨line, .unexpectedEnd label⟩ => .err ⟨line, .unexpectedEnd (dropCr label)⟩
  | .err ⟨line, .unclosedEnvironment label⟩ => .err ⟨line, .unclosedEnvironment (dropCr label)⟩
  | e => e

/-- A result with Windows line ends: `g` changes the value. -/
def crlfRes {α β : Type} (g : α → β) : Res α → Res β
  | .ok a => .ok (g a)
  | .error e => .error (crlfFail e)

/-- A result without carriage returns. -/
def eraseCrRes {α β : Type} (g : α → β) : Res α → Res β
  | .ok a => .ok (g a)
  | .error e => .error (eraseCrFail e)

end LatexAst.Spec

namespace LatexAst.Ast1
open Spec
mutual
def Chunk.crlf : Chunk → Chunk
  | .mk l v => .mk l v.crlf
def ChunkVariant.crlf : ChunkVariant → ChunkVariant
  | .text s => .text (toCrlf s)
  | .command c => .command c.crlf
  | .scope s => .scope s.crlf
def Command.crlf : Command → Command
  | .mk label args => .mk (toCrlf label) (crlfArgs args)
def Scope.crlf : Scope → Scope
  | .mk cs v => .mk (crlfChunks cs) v
def crlfChunks : List Chunk → List Chunk
  | [] => []
  | c :: cs => c.crlf :: crlfChunks cs
def crlfArgs : List (Str × Scope) → List (Str × Scope)
  | [] => []
  | (p, s) :: r => (toCrlf p, s.crlf) :: crlfArgs r
end
end LatexAst.Ast1

namespace LatexAst.Ast2
open Spec
mutual
def Chunk.crlf : Chunk → Chunk
  | .mk l v => .mk l v.crlf
def ChunkVariant.crlf : ChunkVariant → ChunkVariant
  | .text s => .text (toCrlf s)
  | .command c => .command c.crlf
  | .scope s => .scope s.crlf
  | .environment e => .environment e.crlf
def Command.crlf : Command → Command
  | .mk label args => .mk (toCrlf label) (crlfArgs args)
def Scope.crlf : Scope → Scope
  | .mk cs v => .mk (crlfChunks cs) v
def Environment.crlf : Environment → Environment
  | .mk label args content b e => .mk (toCrlf label) (crlfArgs args) (crlfChunks content) (toCrlf b) (toCrlf e)
def crlfChunks : List Chunk → List Chunk
  | [] => []
  | c :: cs => c.crlf :: crlfChunks cs
def crlfArgs : List (Str × Scope) → List (Str × Scope)
  | [] => []
  | (p, s) :: r => (toCrlf p, s.crlf) :: crlfArgs r
end
end LatexAst.Ast2

namespace LatexAst.Ast3
open Spec
/-- A text of nothing but carriage returns. -/
def Chunk.onlyCr : Chunk → Bool
  | .mk _ (.text s) => (dropCr s).isEmpty
  | _ => false

mutual
def Chunk.eraseCr : Chunk → Chunk
  | .mk l v => .mk l v.eraseCr
def ChunkVariant.eraseCr : ChunkVariant → ChunkVariant
  | .text s => .text (dropCr s)
  | .paragraphBreak s => .paragraphBreak (dropCr s)
  | .mathsBlock m => .mathsBlock m.eraseCr
  | .command c => .command c.eraseCr
  | .scope s => .scope s.eraseCr
  | .environment e => .environment e.eraseCr
def Command.eraseCr : Command → Command
  | .mk label args => .mk (dropCr label) (eraseCrArgs args)
def Scope.eraseCr : Scope → Scope
  | .mk cs v => .mk (eraseCrs cs) v
def Environment.eraseCr : Environment → Environment
  | .mk label args content b e => .mk (dropCr label) (eraseCrArgs args) (eraseCrs content) (dropCr b) (dropCr e)
def MathsBlock.eraseCr : MathsBlock → MathsBlock
  | .mk v t content => .mk v t (eraseCrs content)
/-- Texts of which nothing is left are dropped. -/
def eraseCrs : List Chunk → List Chunk
  | [] => []
  | c :: cs => if c.onlyCr then eraseCrs cs else c.eraseCr :: eraseCrs cs
def eraseCrArgs : List (Str × Scope) → List (Str × Scope)
  | [] => []
  | (p, s) :: r => (dropCr p, s.eraseCr) :: eraseCrArgs r
end

def DocOption.eraseCr : DocOption → DocOption
  | (prec, key, val, post) =>
    (dropCr prec, dropCr key, val.map fun (a, b, c) => (dropCr a, dropCr b, dropCr c), dropCr post)

def Document.eraseCr (d : Document) : Document where
  documentclass := d.documentclass.map dropCr
  documentoptions := d.documentoptions.map DocOption.eraseCr
  preamable := eraseCrs d.preamable
  body := eraseCrs d.body
  bodyArgs := eraseCrArgs d.bodyArgs
  bodyBeginPrec := dropCr d.bodyBeginPrec
  bodyEndPrec := dropCr d.bodyEndPrec
  trailing := eraseCrs d.trailing
end LatexAst.Ast3
