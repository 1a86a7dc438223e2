import Verif.Spec.Tree

/-!
# Specification: reading LaTeX source

Comments, escapes and nesting levels, stated without reference to the parser.
-/

namespace LatexAst.Spec

mutual
/-- The source without its comments: a comment is an unescaped `%` and the rest of its line, its
newline excluded. A backslash escapes the next character (so `\%` starts no comment). -/
def stripComments : Str → Str
  | [] => []
  | '%' :: cs => skipComment cs
  | '\\' :: c :: cs => '\\' :: c :: stripComments cs
  | c :: cs => c :: stripComments cs
/-- Inside a comment: resume at the end of the line. -/
def skipComment : Str → Str
  | [] => []
  | '\n' :: cs => '\n' :: stripComments cs
  | _ :: cs => skipComment cs
end

mutual
/-- No comment of the source contains a backslash. -/
def NoBackslashInComments : Str → Prop
  | [] => True
  | '%' :: cs => NoBackslashInComment cs
  | '\\' :: _ :: cs => NoBackslashInComments cs
  | _ :: cs => NoBackslashInComments cs
/-- Inside a comment. -/
def NoBackslashInComment : Str → Prop
  | [] => True
  | '\n' :: cs => NoBackslashInComments cs
  | c :: cs => c ≠ '\\' ∧ NoBackslashInComment cs
end

mutual
/-- The source with every comment replaced by its first backslash (by nothing if it has none). -/
def keepBackslashes : Str → Str
  | [] => []
  | '%' :: cs => keepFirstBackslash cs
  | '\\' :: c :: cs => '\\' :: c :: keepBackslashes cs
  | c :: cs => c :: keepBackslashes cs
/-- Inside a comment, no backslash seen yet. -/
def keepFirstBackslash : Str → Str
  | [] => []
  | '\n' :: cs => '\n' :: keepBackslashes cs
  | '\\' :: cs => '\\' :: dropRestOfLine cs
  | _ :: cs => keepFirstBackslash cs
/-- Inside a comment, after its first backslash. -/
def dropRestOfLine : Str → Str
  | [] => []
  | '\n' :: cs => '\n' :: keepBackslashes cs
  | _ :: cs => dropRestOfLine cs
end

/-- Every backslash of the source escapes some character (no dangling backslash at the end). -/
def NoDangling : Str → Prop
  | [] => True
  | ['\\'] => False
  | '\\' :: _ :: cs => NoDangling cs
  | _ :: cs => NoDangling cs

/-- The characters of a (comment-free) source that are not escaped and do not escape. -/
def unescaped : Str → Str
  | [] => []
  | '\\' :: _ :: cs => unescaped cs
  | c :: cs => c :: unescaped cs

/-- The six bracket characters. -/
def Bracket (c : Char) : Prop := c ∈ ['{', '}', '[', ']', '(', ')']

instance (c : Char) : Decidable (Bracket c) := by unfold Bracket; infer_instance

/-- The characters other than brackets and backslashes. -/
def visible (s : Str) : Str := s.filter fun c => decide (¬ Bracket c ∧ c ≠ '\\')

/-- Forget the kind of a bracket. -/
def anyBracket (c : Char) : Char :=
  if c ∈ ['{', '[', '('] then '{' else if c ∈ ['}', ']', ')'] then '}' else c

/-- No comment, and every backslash escapes something. -/
def SelfContained (s : Str) : Prop := stripComments s = s ∧ NoDangling s

/-- With `n` brackets of kind `v` open, the (unescaped) brackets of kind `v` of the source match. -/
def Balanced (v : ScopeVariant) : Nat → Str → Prop
  | n, [] => n = 0
  | n, '\\' :: _ :: r => Balanced v n r
  | n, c :: r =>
    if c = v.opening then Balanced v (n + 1) r
    else if c = v.closing then 0 < n ∧ Balanced v (n - 1) r
    else Balanced v n r

/-- The source without its (unescaped) brackets of kind `v`. -/
def dropBrackets (v : ScopeVariant) : Str → Str
  | [] => []
  | '\\' :: c :: r => '\\' :: c :: dropBrackets v r
  | c :: r => if c = v.opening ∨ c = v.closing then dropBrackets v r else c :: dropBrackets v r

/-- Number of lines of a source text. -/
def lineCount (s : Str) : Nat := s.count '\n' + 1

end LatexAst.Spec

namespace LatexAst.Ast1
/-- `cs` is one of the chunk sequences of `d`: the document itself, or the content of a scope or
of a command argument, at any depth. -/
inductive Level (d : List Chunk) : List Chunk → Prop
  | top : Level d d
  | scope {cs l inner sv} : Level d cs → Chunk.mk l (.scope (.mk inner sv)) ∈ cs → Level d inner
  | arg {cs l label args prec inner sv} : Level d cs →
      Chunk.mk l (.command (.mk label args)) ∈ cs → (prec, Scope.mk inner sv) ∈ args →
      Level d inner
/-- The sequence ends with a command whose label starts with a letter. -/
def EndsWithLetterCommand (cs : List Chunk) : Prop :=
  ∃ init l c r args, cs = init ++ [.mk l (.command (.mk (c :: r) args))] ∧ isAsciiAlphabetic c = true

end LatexAst.Ast1
