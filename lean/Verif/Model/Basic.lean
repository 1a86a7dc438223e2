/-!
# Strings, characters, errors and outcomes

Rust `String`/`&str` is modelled by `List Char` (its sequence of Unicode scalar values, which is
what every loop of the crate iterates over via `.chars()`).
`u32` line numbers and depths are modelled by `Nat`; a subtraction that the Rust code performs on
`u32` and that could go below zero is modelled by `checkedSub`, whose failure is the explicit
`Fail.panic` outcome (Rust: "attempt to subtract with overflow").
Additions are unbounded (assumption recorded in DESIGN.md: fewer than 2^32 lines).
-/

namespace LatexAst

/-- Rust `String` / `&str`, as its sequence of `char`s. -/
abbrev Str := List Char

/-- `chars!"abc"` is the list literal `['a','b','c']` (avoids `String` in kernel computation). -/
macro:max "chars!" s:str : term => do
  let cs := s.getString.toList.toArray.map fun c => Lean.Syntax.mkCharLit c
  `(([$cs,*] : List Char))

/-- `char::is_whitespace` (Rust standard library: the Unicode `White_Space` property),
used at src/ast1/document.rs:418, src/ast3/paragraph.rs:42-43, src/ast3/chunkvariant.rs:46,55,
src/ast3/document.rs:343-400. -/
def isWhitespace (c : Char) : Bool :=
  let n := c.toNat
  (9 ≤ n && n ≤ 13) || n == 0x20 || n == 0x85 || n == 0xA0 || n == 0x1680 ||
  (0x2000 ≤ n && n ≤ 0x200A) || n == 0x2028 || n == 0x2029 || n == 0x202F || n == 0x205F ||
  n == 0x3000

/-- `char::is_ascii_alphabetic` (Rust standard library), used at src/ast1/document.rs:378,439. -/
def isAsciiAlphabetic (c : Char) : Bool :=
  let n := c.toNat
  (65 ≤ n && n ≤ 90) || (97 ≤ n && n ≤ 122)

/-- `s.chars().filter(|c| c == &'\n').count()`, used throughout (e.g. src/ast1/chunkvariant.rs:54). -/
def newlines (s : Str) : Nat := (s.filter (fun c => c == '\n')).length

/-- `String::len`: number of UTF-8 bytes, used at src/ast1/command.rs:81, src/ast2/command.rs:103,
src/ast3/command.rs:88. -/
def byteLen (s : Str) : Nat := (s.map Char.utf8Size).sum

/-- src/ast1/scopevariant.rs:5-12. -/
inductive ScopeVariant where
  | curly
  | round
  | square
deriving DecidableEq, Repr

namespace ScopeVariant

/-- src/ast1/scopevariant.rs:27-33. -/
def opening : ScopeVariant → Char
  | .curly => '{'
  | .round => '('
  | .square => '['

/-- src/ast1/scopevariant.rs:37-43. -/
def closing : ScopeVariant → Char
  | .curly => '}'
  | .round => ')'
  | .square => ']'

/-- src/ast1/scopevariant.rs:46-48. -/
def isOpening (c : Char) : Bool := c == '{' || c == '[' || c == '('

/-- src/ast1/scopevariant.rs:51-53. -/
def isClosing (c : Char) : Bool := c == '}' || c == ']' || c == ')'

/-- src/ast1/scopevariant.rs:56-63; the `unreachable!` arm is `none`. -/
def fromOpening (c : Char) : Option ScopeVariant :=
  if c = '{' then some .curly else if c = '[' then some .square
  else if c = '(' then some .round else none

/-- src/ast1/scopevariant.rs:66-73; the `unreachable!` arm is `none`. -/
def fromClosing (c : Char) : Option ScopeVariant :=
  if c = '}' then some .curly else if c = ']' then some .square
  else if c = ')' then some .round else none

end ScopeVariant

/-- src/internal_error.rs:6-21. -/
inductive InternalError where
  | unsanitisedCharInString (c : Char)
  | incorrectChunkLineNumber (expected got : Nat)
  | paragraphBreakTooShort
  | paragraphBreakNonwhitespace
  | beginCommand
  | endCommand
  | unbrokenParagraph
deriving DecidableEq, Repr

/-- src/error.rs:26-51. -/
inductive ErrorType where
  | unexpectedClosing (v : ScopeVariant)
  | unclosedArgument (v : ScopeVariant)
  | unclosedScope (v : ScopeVariant)
  | noEnvironmentLabel
  | unexpectedEnd (label : Str)
  | unclosedEnvironment (label : Str)
  | tooManyArgsEnd
  | tooManyArgsDocumentClass
  | doubleDocumentClass
  | unexpectedMathsEnd
  | unclosedMaths
  | internal (e : InternalError)
deriving DecidableEq, Repr

/-- src/error.rs:10-13. -/
structure Error where
  line : Nat
  type : ErrorType
deriving DecidableEq, Repr

/-- How a modelled call can fail to return `Ok`.
* `err e`: the Rust function returns `Err(e)`.
* `panic`: the Rust function panics (failed `unwrap`, `unreachable!`, `u32` subtraction overflow).
* `fuel`: artefact of the model only (recursion budget exhausted); proved unreachable. -/
inductive Fail where
  | err (e : Error)
  | panic
  | fuel
deriving DecidableEq, Repr

/-- Outcome of a modelled Rust call returning `Result<α, crate::Error>`. -/
abbrev Res (α : Type) := Except Fail α

/-- `Err(crate::Error::new(line, type))`, src/error.rs:16-18. -/
def fail {α : Type} (line : Nat) (t : ErrorType) : Res α := .error (.err ⟨line, t⟩)

/-- A Rust panic. -/
def panicked {α : Type} : Res α := .error .panic

/-- `u32` subtraction `a - b`, panicking on overflow. -/
def checkedSub (a b : Nat) : Res Nat := if b ≤ a then .ok (a - b) else panicked

/-- `x.map_err(|mut e| { e.line += k; e })`. -/
def addLine {α : Type} (k : Nat) : Res α → Res α
  | .ok a => .ok a
  | .error (.err e) => .error (.err ⟨e.line + k, e.type⟩)
  | .error .panic => .error .panic
  | .error .fuel => .error .fuel

deriving instance DecidableEq for Except

end LatexAst
