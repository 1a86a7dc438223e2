import Verif.Spec.Retext
import Verif.Spec.Atoms
import Verif.Spec.Paragraph
import Verif.Spec.BackRule

/-!
# Specification: stage-3 documents that survive saving and loading
-/

namespace LatexAst.Ast3
open Spec

mutual
/-- A node with all line numbers in it forgotten. -/
def ChunkVariant.noLines : ChunkVariant → ChunkVariant
  | .text t => .text t
  | .paragraphBreak t => .paragraphBreak t
  | .mathsBlock m => .mathsBlock m.noLines
  | .command c => .command c.noLines
  | .scope s => .scope s.noLines
  | .environment e => .environment e.noLines
/-- A formula. -/
def MathsBlock.noLines : MathsBlock → MathsBlock
  | .mk v t content => .mk v t (noLines content)
/-- A command. -/
def Command.noLines : Command → Command
  | .mk label args => .mk label (noLinesArgs args)
/-- A scope. -/
def Scope.noLines : Scope → Scope
  | .mk inner v => .mk (noLines inner) v
/-- An environment. -/
def Environment.noLines : Environment → Environment
  | .mk label args content pb pe => .mk label (noLinesArgs args) (noLines content) pb pe
/-- Arguments. -/
def noLinesArgs : List (Str × Scope) → List (Str × Scope)
  | [] => []
  | (p, s) :: r => (p, s.noLines) :: noLinesArgs r
/-- A sequence of chunks. -/
def noLines : List Chunk → List Chunk
  | [] => []
  | .mk _ v :: cs => .mk 0 v.noLines :: noLines cs
end

/-- The document with all line numbers forgotten. -/
def Document.noLines (f : Document) : Document :=
  { f with preamable := Ast3.noLines f.preamable, bodyArgs := noLinesArgs f.bodyArgs, body := Ast3.noLines f.body,
           trailing := Ast3.noLines f.trailing }

/-- The document survives saving (printing) and loading (parsing): it comes back, apart from line numbers. -/
def Survives (f : Document) : Prop := ∃ f', fromStr f.display = .ok f' ∧ f'.noLines = f.noLines

/-! ### the document at stage 2 -/

/-- The text in front of the chunks, put together with the first chunk if that is a text. -/
def addText (t : Str) : List Ast2.Chunk → List Ast2.Chunk
  | .mk l (.text t') :: r => .mk l (.text (t ++ t')) :: r
  | r => if t = [] then r else .mk 0 (.text t) :: r

mutual
/-- What a node is at stage 2, in front of the chunks `tail`: a formula is its content between its delimiters, and what comes to stand
next to each other as texts is one text. Lines are not numbered. -/
def ChunkVariant.spell : ChunkVariant → List Ast2.Chunk → List Ast2.Chunk
  | .text t, tail => addText t tail
  | .paragraphBreak t, tail => addText t tail
  | .mathsBlock m, tail => m.spell tail
  | .command c, tail => .mk 0 (.command c.spell) :: tail
  | .scope s, tail => .mk 0 (.scope s.spell) :: tail
  | .environment e, tail => .mk 0 (.environment e.spell) :: tail
/-- A formula. -/
def MathsBlock.spell : MathsBlock → List Ast2.Chunk → List Ast2.Chunk
  | .mk .dollars t content, tail => addText (dollarsOf t) (spellOnto content (addText (dollarsOf t) tail))
  | .mk .brackets t content, tail =>
    .mk 0 (.command (.mk (openLabel t) [])) :: spellOnto content (.mk 0 (.command (.mk (closeLabel t) [])) :: tail)
/-- A command. -/
def Command.spell : Command → Ast2.Command
  | .mk label args => .mk label (spellArgs args)
/-- A scope. -/
def Scope.spell : Scope → Ast2.Scope
  | .mk inner v => .mk (spellOnto inner []) v
/-- An environment. -/
def Environment.spell : Environment → Ast2.Environment
  | .mk label args content pb pe => .mk label (spellArgs args) (spellOnto content []) pb pe
/-- Arguments. -/
def spellArgs : List (Str × Scope) → List (Str × Ast2.Scope)
  | [] => []
  | (p, s) :: r => (p, s.spell) :: spellArgs r
/-- A sequence of chunks. -/
def spellOnto : List Chunk → List Ast2.Chunk → List Ast2.Chunk
  | [], tail => tail
  | .mk _ v :: cs, tail => v.spell (spellOnto cs tail)
end

/-- A section at stage 2. -/
def spelled (cs : List Chunk) : List Ast2.Chunk := spellOnto cs []

/-- The document at stage 2. -/
def Document.spelled (f : Document) : Ast2.Document :=
  Ast3.spelled f.preamable ++
    .mk 0 (.environment (.mk chars!"document" (spellArgs f.bodyArgs) (Ast3.spelled f.body) f.bodyBeginPrec f.bodyEndPrec)) ::
    Ast3.spelled f.trailing

/-! ### what can be recognised -/

/-- The sequence begins with a text or a paragraph break. -/
def BeginsWithText (cs : List Chunk) : Prop :=
  ∃ l v r, cs = .mk l v :: r ∧ ((∃ t, v = .text t) ∨ ∃ t, v = .paragraphBreak t)

/-- No delimiter of kind `k` directly in the chunks. -/
def NoDelimiter (k : MathsType) (cs : List Ast2.Chunk) : Prop := ∀ c ∈ cs, NotOfKind k c

/-- The chunks can be recognised when they are at stage 2:

* texts and breaks next to each other are as one text is cut up, and have no dollar sign;
* no command is a delimiter of maths;
* in a formula in brackets there are no brackets of its own kind, at stage 2;
* a formula in dollar signs has, at stage 2, no text in it except at its end, and that has no dollar sign; and `$..$` is not empty;

and the same holds inside. -/
inductive Recognisable : List Chunk → Prop
  | nil : Recognisable []
  | run {pieces rest} : Cut false (pieces.map Chunk.variant) → '$' ∉ displayChunks pieces → ¬ BeginsWithText rest →
      Recognisable rest → Recognisable (pieces ++ rest)
  | command {l label args rest} : ¬ IsDelimiter label → (∀ x ∈ args, Recognisable x.2.chunks) → Recognisable rest →
      Recognisable (.mk l (.command (.mk label args)) :: rest)
  | scope {l inner sv rest} : Recognisable inner → Recognisable rest → Recognisable (.mk l (.scope (.mk inner sv)) :: rest)
  | environment {l label args content pb pe rest} : (∀ x ∈ args, Recognisable x.2.chunks) → Recognisable content → Recognisable rest →
      Recognisable (.mk l (.environment (.mk label args content pb pe)) :: rest)
  | brackets {l k content rest} : NoDelimiter k (spelled content) → Recognisable content → Recognisable rest →
      Recognisable (.mk l (.mathsBlock (.mk .brackets k content)) :: rest)
  | dollars {l k content rest ms t} : spelled content = ms ++ textIf2 0 t → (∀ m ∈ ms, NotText m) → '$' ∉ t →
      (k = .inline → content ≠ []) → Recognisable content → Recognisable rest →
      Recognisable (.mk l (.mathsBlock (.mk .dollars k content)) :: rest)

/-- What a document must be like to survive saving and loading:

* the same string follows `\begin` and `\end`;
* at stage 2 it survives saving and loading (see C108 for when it does);
* its formulas and paragraphs can be recognised;
* there is no other document environment, at stage 2;
* its class and options are those of the `\documentclass` commands in the preamble. -/
structure Loadable (f : Document) : Prop where
  blanks : f.bodyBeginPrec = f.bodyEndPrec
  stage2 : Ast2.Survives f.spelled
  preamble : Recognisable f.preamable
  bodyArgs : ∀ x ∈ f.bodyArgs, Recognisable x.2.chunks
  body : Recognisable f.body
  trailing : Recognisable f.trailing
  one : ∀ c, c ∈ spelled f.preamable ∨ c ∈ spelled f.trailing → isBody c = false
  classes : ClassesOk (spelled f.preamable)
  documentclass : f.documentclass = (classNames (classArgs (spelled f.preamable))).head?
  options : ReadsLists (optionLists (classArgs (spelled f.preamable))) f.documentoptions

end LatexAst.Ast3
