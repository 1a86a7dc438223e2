import Verif.Spec.Maths

/-!
# Specification: the parts of a LaTeX document

`preambleOf`: what precedes the first `document` environment. `classArgs`: the arguments of the
`\documentclass` commands at the top level of a sequence.
-/

namespace LatexAst.Ast3

/-- `Level d cs`: `cs` is `d` itself or one of the chunk sequences nested in it. -/
inductive Level (d : List Chunk) : List Chunk → Prop
  | top : Level d d
  | scope {cs l inner sv} : Level d cs → Chunk.mk l (.scope (.mk inner sv)) ∈ cs → Level d inner
  | arg {cs l label args prec inner sv} : Level d cs →
      Chunk.mk l (.command (.mk label args)) ∈ cs → (prec, Scope.mk inner sv) ∈ args → Level d inner
  | envArg {cs l label args content pb pe prec inner sv} : Level d cs →
      Chunk.mk l (.environment (.mk label args content pb pe)) ∈ cs → (prec, Scope.mk inner sv) ∈ args →
      Level d inner
  | envContent {cs l label args content pb pe} : Level d cs →
      Chunk.mk l (.environment (.mk label args content pb pe)) ∈ cs → Level d content
  | maths {cs l v t content} : Level d cs → Chunk.mk l (.mathsBlock (.mk v t content)) ∈ cs → Level d content

/-- No maths block, at any depth, is on line 0. -/
def MathsPositive (d : List Chunk) : Prop := ∀ cs, Level d cs → ∀ l m, .mk l (.mathsBlock m) ∈ cs → 1 ≤ l

/-- No maths block of the document is on line 0. -/
def Document.MathsPositive (d : Document) : Prop :=
  Ast3.MathsPositive d.preamable ∧
  (∀ prec inner sv, (prec, Scope.mk inner sv) ∈ d.bodyArgs → Ast3.MathsPositive inner) ∧
  Ast3.MathsPositive d.body ∧ Ast3.MathsPositive d.trailing

/-- The document as it should be written: preamble, `document` environment, what follows. -/
def Document.written (d : Document) : Str :=
  displayChunks d.preamable ++ (chars!"\\begin" ++ d.bodyBeginPrec ++ chars!"{document}" ++ displayArgs d.bodyArgs ++
    displayChunks d.body ++ chars!"\\end" ++ d.bodyEndPrec ++ chars!"{document}") ++ displayChunks d.trailing

/-- The chunk is a `document` environment. -/
def isBody : Ast2.Chunk → Bool
  | .mk _ (.environment (.mk label _ _ _ _)) => label == chars!"document"
  | _ => false

/-- What precedes the first `document` environment (everything, if there is none). -/
def preambleOf (e : List Ast2.Chunk) : List Ast2.Chunk := e.takeWhile fun c => !isBody c

/-- The arguments of the `\documentclass` commands of a sequence. -/
def classArgs : List Ast2.Chunk → List (Str × Ast2.Scope)
  | [] => []
  | .mk _ (.command (.mk label args)) :: cs => if label = chars!"documentclass" then args ++ classArgs cs else classArgs cs
  | _ :: cs => classArgs cs

/-- What the arguments in curly braces contain, as written. -/
def classNames : List (Str × Ast2.Scope) → List Str
  | [] => []
  | (_, .mk cs .curly) :: r => Ast2.displayChunks cs :: classNames r
  | _ :: r => classNames r

/-- What the other arguments contain, as written. -/
def optionLists : List (Str × Ast2.Scope) → List Str
  | [] => []
  | (_, .mk _ .curly) :: r => optionLists r
  | (_, .mk cs _) :: r => Ast2.displayChunks cs :: optionLists r

/-- The `\documentclass` commands name at most one class, and none follows the one that names it. -/
def ClassesOk (cs : List Ast2.Chunk) : Prop :=
  ∀ a l args b, cs = a ++ .mk l (.command (.mk chars!"documentclass" args)) :: b →
    classNames (classArgs a) = [] ∧ (classNames args).length ≤ 1

/-- One option as it should be read: blanks, key, blanks before and after the equality sign and value if there
is one, blanks. -/
def DocOption.source : DocOption → Str
  | (prec, key, none, post) => prec ++ key ++ post
  | (prec, key, some (before, after, val), post) => prec ++ key ++ before ++ ['='] ++ after ++ val ++ post

end LatexAst.Ast3
