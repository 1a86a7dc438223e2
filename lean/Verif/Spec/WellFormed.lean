import Verif.Spec.Valid
import Verif.Spec.Source

/-!
# Specification: canonical stage-1 documents

The abstract syntax trees that have exactly one reading as source text. `Fitting` says which chunk may
follow which (`\foo` directly followed by the text `bar` would read `\foobar`, followed by a scope the
scope would read as an argument, ...).
-/

namespace LatexAst.Ast1
open Spec

/-- What the text printed so far ends with. -/
inductive After where
  /-- nothing, a scope or a symbol command -/
  | plain
  /-- a text -/
  | text
  /-- a letter command without arguments -/
  | bare
  /-- a letter command with arguments -/
  | withArgs
  /-- a letter command followed by a blank text -/
  | blank
deriving DecidableEq

/-- The name of a letter command: a letter, then neither whitespace nor special characters. -/
def LetterName (label : Str) : Prop :=
  ∃ c r, label = c :: r ∧ isAsciiAlphabetic c = true ∧ ∀ x ∈ r, isWhitespace x = false ∧ ¬ Special x

/-- `c` can be read as a symbol command right after a letter command (and blanks). -/
def SymbolAfterCommand (c : Char) : Prop := isWhitespace c = false ∧ c ∉ ['{', '[', '(']

/-- The chunk may come after what has been printed. -/
def Fits : After → ChunkVariant → Prop
  | .plain, .text _ => True
  | .text, .text _ | .blank, .text _ => False
  | .bare, .text t => ∃ c r, t = c :: r ∧ isWhitespace c = true
  | .withArgs, .text t => ∀ c r, t = c :: r → c ∉ ['}', ']', ')']
  | a, .scope _ => a = .plain ∨ a = .text
  | a, .command (.mk label _) => LetterName label ∨ a = .plain ∨ a = .text ∨
      ∀ c ∈ label, SymbolAfterCommand c

open Classical in
/-- What is printed last after printing the chunk. -/
noncomputable def After.next (a : After) : ChunkVariant → After
  | .text t => if (a = .bare ∨ a = .withArgs) ∧ Blank t then .blank else .text
  | .scope _ => .plain
  | .command (.mk label args) =>
    if LetterName label then (if args = [] then .bare else .withArgs) else .plain

/-- Each chunk of the sequence may follow what precedes it. -/
def Fitting : After → List Chunk → Prop
  | _, [] => True
  | a, .mk _ v :: cs => Fits a v ∧ Fitting (a.next v) cs

/-- No text of the sequence, at any depth, contains the closing bracket of kind `k`. -/
def NoCloserOf (k : ScopeVariant) (cs : List Chunk) : Prop := ∀ t, Within cs (.text t) → k.closing ∉ t

/-- No scope or argument of kind `k` occurs in the sequence, at any depth. -/
def NoGroupOf (k : ScopeVariant) (cs : List Chunk) : Prop :=
  (∀ inner sv, Within cs (.scope (.mk inner sv)) → sv ≠ k) ∧
  ∀ label args prec inner sv, Within cs (.command (.mk label args)) → (prec, Scope.mk inner sv) ∈ args →
    sv ≠ k

/-- A canonical node: texts are not empty and have no backslash, percent sign or opening bracket; free
scopes are curly, without unmatched closing bracket inside; a command is a letter command with blanks
before its arguments and no bracket of the same kind inside an argument, or a one-character symbol
command without arguments. -/
def NodeCanon : ChunkVariant → Prop
  | .text t => t ≠ [] ∧ ∀ x ∈ t, x ∉ ['\\', '%', '{', '[', '(']
  | .scope (.mk inner sv) => sv = .curly ∧ NoCloserOf .curly inner
  | .command (.mk label args) =>
    (LetterName label ∧ ∀ prec inner sv, (prec, Scope.mk inner sv) ∈ args →
      Blank prec ∧ NoGroupOf sv inner ∧ NoCloserOf sv inner) ∨
    (∃ c, label = [c] ∧ isAsciiAlphabetic c = false ∧ args = [])

open Classical in
/-- By how much the parser numbers a chunk too late (C06). -/
noncomputable def lateBy (pre : List Chunk) (v : ChunkVariant) (post : List Chunk) : Nat :=
  if ∃ args, v = .command (.mk ['\n'] args) then 1
  else match v with
    | .text t => if post = [] ∧ Blank t ∧ EndsWithLetterCommand pre then t.count '\n' else 0
    | _ => 0

/-- The chunks are numbered by the lines on which they are printed, as the parser does (C06). -/
def NumberedAsParsed (lv : List Chunk) : Prop :=
  ∀ pre l v post, lv = pre ++ .mk l v :: post →
    l = 1 + (displayChunks pre).count '\n' + lateBy pre v post

/-- The sequence can be printed unambiguously. -/
def Printable (lv : List Chunk) : Prop := Fitting .plain lv ∧ ∀ l v, .mk l v ∈ lv → NodeCanon v

/-- No free scope inside a curly argument, at any depth. -/
def NoScopeInCurlyArgument (d : Document) : Prop :=
  ∀ label args p inner, Within d (.command (.mk label args)) → (p, Scope.mk inner .curly) ∈ args →
    ∀ sc, ¬ Within inner (.scope sc)

/-- No unmatched `}` in the texts of a free scope. -/
def NoCloserInScope (d : Document) : Prop :=
  ∀ inner sv, Within d (.scope (.mk inner sv)) → NoCloserOf .curly inner

/-- A canonical document. -/
def Canonical (d : Document) : Prop := ∀ lv, Level d lv → Printable lv ∧ NumberedAsParsed lv

end LatexAst.Ast1
