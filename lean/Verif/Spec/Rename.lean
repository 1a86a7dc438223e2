import Verif.Model.Ast3

/-!
# Specification: renaming characters

`f : Char → Char` replaces every character of a text, of a command name, of an environment label and of the blanks before
an argument. A stage treats alike the characters that a `Renaming` of that stage may exchange.
-/

namespace LatexAst.Spec

/-- `f` changes none of these characters, and changes no other character into one of them. -/
def Keeps (f : Char → Char) (l : List Char) : Prop := ∀ x ∈ l, ∀ c, f c = x ↔ c = x

/-- Stage 1 distinguishes newlines, `%`, backslashes and brackets; of the other characters only whether they are
whitespace and whether they are ASCII letters. -/
structure Renaming1 (f : Char → Char) : Prop where
  keeps : Keeps f ['\n', '%', '\\', '{', '}', '[', ']', '(', ')']
  blank : ∀ c, isWhitespace (f c) = isWhitespace c
  letter : ∀ c, isAsciiAlphabetic (f c) = isAsciiAlphabetic c

/-- Stage 2 moreover compares labels, with each other and with `begin` and `end`. -/
structure Renaming2 (f : Char → Char) : Prop extends Renaming1 f where
  injective : ∀ a b, f a = f b → a = b
  words : ∀ c ∈ ['b', 'e', 'g', 'i', 'n', 'd'], f c = c

/-- Stage 3 moreover distinguishes `$`, and `,` and `=` in options, and compares labels with `document` and
`documentclass`. -/
structure Renaming3 (f : Char → Char) : Prop extends Renaming2 f where
  symbols : ∀ c ∈ ['$', ',', '=', 'o', 'c', 'u', 'm', 't', 'l', 'a', 's'], f c = c

/-- The labels in an error are renamed. -/
def renameFail (f : Char → Char) : Fail → Fail
  | .err ⟨line, .unexpectedEnd label⟩ => .err ⟨line, .unexpectedEnd (label.map f)⟩
  | .err ⟨line, .unclosedEnvironment label⟩ => .err ⟨line, .unclosedEnvironment (label.map f)⟩
  | e => e

/-- A result, renamed: `g` renames the value. -/
def renameRes {α β : Type} (f : Char → Char) (g : α → β) : Res α → Res β
  | .ok a => .ok (g a)
  | .error e => .error (renameFail f e)

end LatexAst.Spec

namespace LatexAst.Ast1
mutual
def Chunk.rename (f : Char → Char) : Chunk → Chunk
  | .mk l v => .mk l (v.rename f)
def ChunkVariant.rename (f : Char → Char) : ChunkVariant → ChunkVariant
  | .text s => .text (s.map f)
  | .command c => .command (c.rename f)
  | .scope s => .scope (s.rename f)
def Command.rename (f : Char → Char) : Command → Command
  | .mk label args => .mk (label.map f) (renameArgs f args)
def Scope.rename (f : Char → Char) : Scope → Scope
  | .mk cs v => .mk (renameChunks f cs) v
def renameChunks (f : Char → Char) : List Chunk → List Chunk
  | [] => []
  | c :: cs => c.rename f :: renameChunks f cs
def renameArgs (f : Char → Char) : List (Str × Scope) → List (Str × Scope)
  | [] => []
  | (p, s) :: r => (p.map f, s.rename f) :: renameArgs f r
end
end LatexAst.Ast1

namespace LatexAst.Ast2
mutual
def Chunk.rename (f : Char → Char) : Chunk → Chunk
  | .mk l v => .mk l (v.rename f)
def ChunkVariant.rename (f : Char → Char) : ChunkVariant → ChunkVariant
  | .text s => .text (s.map f)
  | .command c => .command (c.rename f)
  | .scope s => .scope (s.rename f)
  | .environment e => .environment (e.rename f)
def Command.rename (f : Char → Char) : Command → Command
  | .mk label args => .mk (label.map f) (renameArgs f args)
def Scope.rename (f : Char → Char) : Scope → Scope
  | .mk cs v => .mk (renameChunks f cs) v
def Environment.rename (f : Char → Char) : Environment → Environment
  | .mk label args content b e => .mk (label.map f) (renameArgs f args) (renameChunks f content) (b.map f) (e.map f)
def renameChunks (f : Char → Char) : List Chunk → List Chunk
  | [] => []
  | c :: cs => c.rename f :: renameChunks f cs
def renameArgs (f : Char → Char) : List (Str × Scope) → List (Str × Scope)
  | [] => []
  | (p, s) :: r => (p.map f, s.rename f) :: renameArgs f r
end
end LatexAst.Ast2

namespace LatexAst.Ast3
mutual
def Chunk.rename (f : Char → Char) : Chunk → Chunk
  | .mk l v => .mk l (v.rename f)
def ChunkVariant.rename (f : Char → Char) : ChunkVariant → ChunkVariant
  | .text s => .text (s.map f)
  | .paragraphBreak s => .paragraphBreak (s.map f)
  | .mathsBlock m => .mathsBlock (m.rename f)
  | .command c => .command (c.rename f)
  | .scope s => .scope (s.rename f)
  | .environment e => .environment (e.rename f)
def Command.rename (f : Char → Char) : Command → Command
  | .mk label args => .mk (label.map f) (renameArgs f args)
def Scope.rename (f : Char → Char) : Scope → Scope
  | .mk cs v => .mk (renameChunks f cs) v
def Environment.rename (f : Char → Char) : Environment → Environment
  | .mk label args content b e => .mk (label.map f) (renameArgs f args) (renameChunks f content) (b.map f) (e.map f)
def MathsBlock.rename (f : Char → Char) : MathsBlock → MathsBlock
  | .mk v t content => .mk v t (renameChunks f content)
def renameChunks (f : Char → Char) : List Chunk → List Chunk
  | [] => []
  | c :: cs => c.rename f :: renameChunks f cs
def renameArgs (f : Char → Char) : List (Str × Scope) → List (Str × Scope)
  | [] => []
  | (p, s) :: r => (p.map f, s.rename f) :: renameArgs f r
end

def DocOption.rename (f : Char → Char) : DocOption → DocOption
  | (prec, key, val, post) =>
    (prec.map f, key.map f, val.map fun (a, b, c) => (a.map f, b.map f, c.map f), post.map f)

def Document.rename (f : Char → Char) (d : Document) : Document where
  documentclass := d.documentclass.map (List.map f)
  documentoptions := d.documentoptions.map (DocOption.rename f)
  preamable := renameChunks f d.preamable
  body := renameChunks f d.body
  bodyArgs := renameArgs f d.bodyArgs
  bodyBeginPrec := d.bodyBeginPrec.map f
  bodyEndPrec := d.bodyEndPrec.map f
  trailing := renameChunks f d.trailing
end LatexAst.Ast3
