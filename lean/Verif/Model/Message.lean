import Verif.Model.Basic

/-!
# Error messages

`Display` of `Error` (src/error.rs:52-56) and of `InternalError` (src/internal_error.rs:24-28) both write
`{self:?}`, the derived `Debug` (src/error.rs:8, 22, src/internal_error.rs:4, src/ast1/scopevariant.rs:4) without
the alternate flag. What that prints is fixed by the standard library: names of constructors and fields,
decimal numbers, and characters and strings in quotes with escapes. `plain c` stands for the library's table
of characters that are printed as they are (printable and not a grapheme extender); the properties hold for
every table.
-/

namespace LatexAst

/-- `{:?}` of a `u32`. -/
def decimal (n : Nat) : Str := Nat.toDigits 10 n

/-- `char::escape_unicode`: `\u{..}` with hexadecimal digits. -/
def escapeUnicode (c : Char) : Str := chars!"\\u{" ++ Nat.toDigits 16 c.toNat ++ chars!"}"

/-- `char::escape_debug_ext`, with the quote that is to be escaped. -/
def escapeChar (plain : Char → Bool) (quote c : Char) : Str :=
  if c = '\x00' then chars!"\\0"
  else if c = '\t' then chars!"\\t"
  else if c = '\r' then chars!"\\r"
  else if c = '\n' then chars!"\\n"
  else if c = '\\' then chars!"\\\\"
  else if c = quote then ['\\', quote]
  else if plain c then [c]
  else escapeUnicode c

/-- `{:?}` of a `char`. -/
def debugChar (plain : Char → Bool) (c : Char) : Str := chars!"'" ++ escapeChar plain '\'' c ++ chars!"'"

/-- The escaped characters of a string. -/
def escapeStr (plain : Char → Bool) : Str → Str
  | [] => []
  | c :: s => escapeChar plain '"' c ++ escapeStr plain s

/-- `{:?}` of a `String`. -/
def debugStr (plain : Char → Bool) (s : Str) : Str := chars!"\"" ++ escapeStr plain s ++ chars!"\""

/-- `derive(Debug)`, src/ast1/scopevariant.rs:4-12. -/
def ScopeVariant.debug : ScopeVariant → Str
  | .curly => chars!"Curly"
  | .round => chars!"Round"
  | .square => chars!"Square"

/-- `derive(Debug)` and `Display`, src/internal_error.rs:4-28 (with the spelling of the source). -/
def InternalError.message (plain : Char → Bool) : InternalError → Str
  | .unsanitisedCharInString c => chars!"UnsanitisedCharInString(" ++ debugChar plain c ++ chars!")"
  | .incorrectChunkLineNumber expected got =>
    chars!"IncorrectChunkLineNumber { expected: " ++ decimal expected ++ chars!", got: " ++ decimal got ++ chars!" }"
  | .paragraphBreakTooShort => chars!"ParagraphBreakTooShort"
  | .paragraphBreakNonwhitespace => chars!"ParagraghBreakNonwhitespace"
  | .beginCommand => chars!"BeginCommand"
  | .endCommand => chars!"EndCommand"
  | .unbrokenParagraph => chars!"UnbrokenParagraph"

/-- `derive(Debug)`, src/error.rs:22-50. -/
def ErrorType.debug (plain : Char → Bool) : ErrorType → Str
  | .unexpectedClosing v => chars!"UnexpectedClosing(" ++ v.debug ++ chars!")"
  | .unclosedArgument v => chars!"UnclosedArgument(" ++ v.debug ++ chars!")"
  | .unclosedScope v => chars!"UnclosedScope(" ++ v.debug ++ chars!")"
  | .noEnvironmentLabel => chars!"NoEnvironmentLabel"
  | .unexpectedEnd s => chars!"UnexpectedEnd(" ++ debugStr plain s ++ chars!")"
  | .unclosedEnvironment s => chars!"UnclosedEnvironment(" ++ debugStr plain s ++ chars!")"
  | .tooManyArgsEnd => chars!"TooManyArgsEnd"
  | .tooManyArgsDocumentClass => chars!"TooManyArgsDocumentClass"
  | .doubleDocumentClass => chars!"DoubleDocumentClass"
  | .unexpectedMathsEnd => chars!"UnexpectedMathsEnd"
  | .unclosedMaths => chars!"UnclosedMaths"
  | .internal e => chars!"Internal(" ++ e.message plain ++ chars!")"

/-- `Display` of `Error`, src/error.rs:8-13, 52-56. The field `r#type` is printed as `type`. -/
def Error.message (plain : Char → Bool) (e : Error) : Str :=
  chars!"Error { line: " ++ decimal e.line ++ chars!", type: " ++ e.type.debug plain ++ chars!" }"

end LatexAst
