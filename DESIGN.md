# Formal model of latex-ast in Lean 4 — design

## 1. Layout

* `lean/Verif/Model/*` — the model, function by function, each definition citing `/repo` lines.
  `Basic` (strings, errors, outcomes), `Ast1` + `Parser1` (stage 1), `Ast2` + `Conv2` (stage 2),
  `Ast3` + `Conv3` (stage 3: maths, paragraphs, documents), `Back` (stage 2→1 and 3→2),
  `Parts` (conversions of single scopes, commands, ..), `Message` (`Display` of errors),
  `Eq1`–`Eq3` (derived equality), `Fidelity` (the repository's own unit tests replayed on the model;
  these are tests of the reading, not proofs).
* `lean/Verif/Spec/*` — small declarative specifications the properties are stated with. They do not
  use the model's control flow (no buffers, no modes, no stacks): `Source` (comment-free source, marked
  characters), `WellFormed` (canonical stage-1 trees), `Tree` (nodes of a tree at any depth), `Valid`
  (what `validate` is documented to check), `Nesting` (proper nesting of `\begin`/`\end`), `Maths`,
  `Document`, `Chars`, `Back`; and six *rules*, inductive relations that say completely what each
  translation does: `Grammar` (text → stage 1), `Conversion` (1 → 2), `MathsRule` (2 → 3),
  `Paragraph` (paragraph splitting), `DocumentRule` (sections, document class), `BackRule` (2 → 1, 3 → 2).
* `lean/Verif/Proofs/*` — helper lemmas.
* `lean/Verif/Props/*` — one theorem per property (or several), named after the property, each beside
  an `example` showing that its hypotheses are met by a concrete non-trivial case, and, where the code
  violates the property, a `_false` theorem with the concrete witness.

## 2. Trusted base

* Lean 4.33.0's kernel. `decide +kernel` is used for closed evaluations (kernel reduction, no
  compiled code). No `native_decide`, no `bv_decide`, no axioms added. The theorems depend on at most
  `propext`, `Classical.choice`, `Quot.sound`.
* The reading of the Rust code: the code is not executed here.
* Standard library behaviour modelled by hand: `str::chars` (a string is its list of `char`s),
  `char::is_whitespace` (the Unicode `White_Space` table), `char::is_ascii_alphabetic`, `String::len`
  (UTF-8 bytes), `str::split(',')`, `split_once('=')`, `Vec`/`String` operations, derived `PartialEq`.
* Integers: `u32` line numbers and depths are `Nat`. Subtractions that can underflow are explicit
  panics (`checkedSub`); additions and `as u32` casts are assumed not to overflow (fewer than 2^32
  lines). Overflow checks are those of a debug build (in a release build an underflow would wrap
  instead of panicking). For the parsers this is not an assumption: `C66` proves that the same
  loops over `u32` (and, for consecutive newlines in stage 3, `i32`), overflowing in any way, agree
  with them on every source of fewer than 2^32 - 1 characters (2^31 in stage 3, there only where
  the model does not panic unless the build is a debug build). For `lines()`, `validate`,
  pushing and the conversions back see `C69`.
* Memory is not modelled. Recursion is bounded by a fuel argument in the model; it is proved that fuel
  never runs out (`C08`, `C28`, `C42`), and exactly how many nested calls an input needs (`C67`). A stack
  overflow is therefore not an outcome of the model.

### Modelled
`src/ast1/*`, `src/ast2/*`, `src/ast3/*` except getters/setters (`*_mut`, `decompose`), which are
projections (editing through them is `C70`); `src/error.rs`, `src/internal_error.rs` (types and messages), `src/traits/*`. The three identical
`ScopeVariant` enums and the conversions between them are one type and the identity.

### Not modelled
`src/ast4/*` (all bodies are `todo!()`), `Debug`/`Clone`-style derives except `Debug` of the errors (it is their
`Display`; the table of characters the standard library prints unescaped is a parameter), `*_mut` accessors (a user can break any invariant with them).

## 3. Outcomes

`Res α = Except Fail α`, `Fail = err e | panic | fuel`. A Rust `Err(e)` is `.error (.err e)`; a panic
is `.error .panic`, so "never panics" is a statement one can prove or refute.

## 4. Where code and property disagree

Several properties a user relies on are violated by the code. For those the theorem `Cnn_false…`
exhibits the smallest witness we know (kernel-evaluated), and `Cnn_…_partial` proves what does hold,
with the exact excluded points. Disagreements found while modelling:

1. `\foo{a{b}c}` parses to `\foo{abc}`: brackets of the same kind nested in a command argument are
   counted but not kept (document.rs:458-459). So `\textbf{a \emph{b}}` loses its inner braces.
2. A free-standing `(a)` or `[a]` is stored, and printed, as `{a}` (document.rs:307).
3. An escaped opening bracket or an escaped whitespace right after a letter command loses its backslash
   (`\foo\(x\)`; `\foo\ bar`), since the guards at 415/418 precede the `escaped` guard at 419.
4. A backslash at the end of the input is dropped.
5. A backslash inside a comment escapes the newline that ends the comment.
6. Whitespace after a letter command at the end of a document/scope is numbered with the last line, not
   the line where it starts (478-494); `\`+newline is numbered one line late. So a parsed
   document may fail its own `validate()`.
7. A stray closing bracket is accepted as text, so a parsed document may fail `validate()`.
8. Stage 2: error lines inside scopes/environments are shifted by `line_no` instead of `line_no - 1`;
   errors in arguments are not shifted; the line of an environment with multi-line arguments is that of the
   end of the arguments, not of the `\begin`.
9. Stage 2→1: the line of the `\end` counts the newlines of the arguments twice; an environment label
   that does not parse makes it panic.
10. Stage 3: text before a non-text chunk inside `$..$` is moved in front of the block
    (`$a\alpha b$` prints `a$\alpha b$`); nested `\(` are dropped; a rebasing subtraction can
    panic; `$` blocks report line 0 when unclosed; `Display` of the document uses the string before
    `{document}` of `\begin` also for `\end`, and always prints a document environment; document options
    lose their first character and their value; conversion back to stage 2 panics for a
    one-line document without preamble; paragraph breaks of three or more newlines are
    numbered late.

## 5. Plan per property

| Id | Model | Proof |
|----|-------|-------|
| C01 | `Ast1.fromStr`, `displayChunks` | false as stated (witnesses 1–4); `_partial`: the printed text, brackets identified, is a subsequence of the comment-free source (all inputs); exact for canonical sources via C03; `C01_exact_partial`: iff the comment-free source is `Verbatim` (`Spec/Verbatim`, syntactic), by induction over the grammar of C51 |
| C02 | `Ast1.fromStr` | false for comments containing a backslash; universal: every comment acts like nothing, or like one backslash; partial: comment without backslash ⇒ no effect. Lexer/parser factorisation |
| C03 | `Ast1.fromStr`, canonical ASTs in `Spec/WellFormed` | structural induction over the AST, run-append lemmas; converse (`C03_exact`) by induction over the grammar, counting unescaped braces |
| C04 | `Ast1.fromStr` | invariant over the loop, induction on recursion depth |
| C05 | same | corollary of C04 (newline is neither bracket nor backslash) + C20 |
| C06 | same | false at two points; `_partial`: exact numbering except those two, with their exact value; invariant |
| C07 | same | invariant on `lineNo`/`bufferLine`, induction on depth |
| C08 | same | invariant (depth ≠ 0 → scopes ≠ [], line bounds), measure on buffered length |
| C09 | same | invariant |
| C10 | same | false; partial: arguments carry their kind, free scopes are always curly |
| C11 | same + `validate` | false; partial under C06's condition and no stray closers |
| C12 | same + token count spec | invariant relating buffer contents and counts |
| C13 | same | induction on the string |
| C14 | same | false; partial for canonical; exact conditions from the converse of C03 and from `Verbatim` |
| C15,C16,C17,C48 | push functions of the three stages | case analysis, induction over histories |
| C18 | `validate` | mutual structural induction against declarative predicate |
| C19 | same | false; partial for canonical; exact: iff the printed form is `Verbatim` |
| C20 | `lines` | mutual structural induction |
| C21,C22,C29 | `Ast2.tryFrom` | loop invariant + induction on depth |
| C23,C24 | `Ast2.tryFrom` vs `Spec/Nesting` | stack-machine invariant |
| C25 | same; `Spec/Fault.lean` says where the first problem is | false (off by one); exact line proved in every case (iff), by induction on `Converts` and on the fault |
| C26,C30 | both directions | false; partial without newlines in arguments |
| C27 | `Ast2.toAst1` | mutual induction; labels must reparse |
| C28 | `Ast2.fromStr` | monotone line numbers of parsed documents |
| C31–C34 | `paragraphs` | invariant over the character loop |
| C35 | `Ast3.tryFrom` | false; exact condition `KeepsText` (`Spec/KeepsText.lean`), by induction on the rules of `Spec/MathsRule.lean` and comparison of lengths |
| C36 | `mathsFromChunks` on one text | induction over segments |
| C37 | `mathsFromChunks` without dollars | stack/mode invariant |
| C38, C45 | `Ast3.tryFrom` | induction over the chunk loop |
| C39 | `parseOption` | false; partial: whitespace split |
| C40 | `Ast3.intoChunks` | mutual induction |
| C41 | `Ast3.toAst2` | false (panic); partial |
| C42 | `Ast3.fromStr` | false (panic); partial: fuel never runs out, no panic without dollars; `C42_exact_partial`: exactly which sources make it panic (`Spec/Trouble.lean`) |
| C43 | pushes | false; partial: everything except merged texts |
| C44 | `Ast3.tryFrom` | invariant |
| C46 | `Ast3.fromStr` | false (line 0); `C46_exact_partial`: exactly which error is reported for which sources (`Spec/Trouble.lean`) |
| C47 | conversions | structural induction |
| C49 | `Ast1.fromStr` | invariant on the reader's failures |
| C50 | `Ast3.fromStr` | invariant: texts come from stage-1 texts, which are clean |
| C51, C52 | `Ast1.fromStr` vs `Spec/Grammar` | the reader and the grammar relation agree: soundness by loop invariant, completeness by induction on the derivation, uniqueness of derivations |
| C53, C54 | `Ast2.tryFrom` vs `Spec/Conversion` | same, plus the exact error and its line |
| C55 | `mathsFromChunks` vs `Spec/MathsRule` | same |
| C56 | `paragraphs` vs `Spec/Paragraph` | same |
| C57 | `Ast3.tryFrom` vs `Spec/DocumentRule` | same |
| C58 | `Ast3.fromStr` | composition of C51, C53, C55–C57 |
| C59 | `isWhitespace`, `isAsciiAlphabetic` | finite tables against the listed code points, all characters |
| C60, C61 | `Ast2.toAst1`, `Ast3.toAst2` vs `Spec/BackRule` | mutual induction; exact panic condition |

| C62 | `Model/Parts` | from the rules of C53, C55, C60, C61 for the contents |
| C63 | `pushIntoUnchecked` | induction over the pushed chunks |
| C64 | `Model/Message` | unique decodability of escapes and digits |
| C65 | `Model/Back` | a predicate on trees (labels readable, no environment above line 1) carried through `Yields` and `Unfolds` |
| C66 | `Model/Machine`, `Model/Machine2`, `Model/Machine3` | the loops with u32 arithmetic as a parameter, simulated step by step against the loops over `Nat`; invariant: every counter is at most the characters read so far |
| C67 | `parseFuel`, `convFuel`, `mathsFuel` (the parsers with a bound on nested calls) | monotone in the bound; an answer of depth k uses k + 1 calls and no fewer (simulation of two runs that differ in the recursive call); bracket counts decrease in every recursive call |
| C68 | `fromStrN` (Model/Cost1.lean): the stage-1 parser once more with a counter of calls and loop iterations | erasing the counter gives the parser; potential argument (characters waiting in the buffer for a recursive call) gives n·(length+1) steps with n nested calls; then C67; the exact count on nested braces by induction. Stage 2 (`Model/Cost2`) likewise. Stage 3 (`Model/Cost3`): linear; each kind of maths delimiter, once it has opened a block, does not occur at the top level of its content, so a level is read again at most three times |
| C69 | `Model/MachineLines`, `Model/MachineBack`: `lines()`, the line of a pushed chunk and both conversions back with u32 arithmetic as a parameter | mutual induction over documents: every intermediate sum is at most a final one (`lines`), or at most the line numbers of the result (2→1, bounded for parsed sources through `Displaced`, C26), or at most (depth + 1)·M + length (3→2) |
| C70 | `displayChunks`, `lines`, `validate` of all stages; `Spec/Edit` (one node replaced, inductively) | induction over the position; numbering lemmas |
| C71 | `Ast2.fromStr`, `displayChunks`; `Spec/Written` (environments written out; canonical stage-2 documents) | induction over `Converts` one way, over the size of the tree the other; C03, C53 |
| C72 | `Ast3.fromStr`, `Document.display`; `KeepsText`, stage-2 `Canonical` | C71 and C35, exactly; false without conditions (`C72_false`) |
| C73 | `mathsFromChunks`, `paragraphs`, `Ast3.tryFrom`, `Ast3.fromStr` on concatenated and moved chunks; `Spec/Moved` | induction over the rules of C55, then C57 and C54 for documents and sources |
| C74 | `fromStr` of the three stages; `Spec/Size` counts nodes | texts are not empty (C09, C50), so nodes are bounded by the printed length, which is bounded by the source (C01, C21, C35) |
| C75 | `ScopeVariant` | case analysis |
| C76 | `Ast1.fromStr`, `display`; `Spec/Verbatim` | C01; induction over the grammar of verbatim sources, both ways |
| C77 | `Ast1.fromStr`; `Spec/Source` | simulation of the run on the source by the run on the stripped source (C02) |
| C78 | `Ast1.fromStr` at any depth; `Spec/Tree` | invariant of the parser loop (C06, C07) |
| C79 | `Ast1.validate` after `Ast1.fromStr` | C18 gives what validation checks, C09 and C22 rule out all but two faults |
| C80 | `Ast1.display` then `fromStr` | C03; canonical trees (`Spec/WellFormed`) are exactly those read back |
| C81 | `Ast2.fromStr`; `Spec/Fault` | induction over the conversion rule (C53): first fault, and the shift its path causes |
| C82 | `Ast2.tryFrom`, `Ast2.toAst1` | induction over `Converts` (C26) |
| C83 | `Ast2.toAst1`; `Spec/Verbatim` for labels | C60 for the text; `Props/Returns.lean`: the result exists iff every label parses and every subtraction of line numbers is defined |
| C84 | `Ast2.fromStr` at any depth | C30 through `Converts` |
| C85 | `paragraphs` | C55/C54 (`Spec/Paragraph`) |
| C86 | `Ast3.fromStr`, `Document.display` | printing at stage 1 keeps every character or drops it or makes a bracket curly (`Proofs/Near.lean`), stage 3 keeps the number of every character but delimiters; counting `%`, `d`, blanks, lengths and brackets then leaves only one possibility |
| C87 | `mathsFromChunks` without dollars; `Spec/Maths` | C37, C55 |
| C88 | `Ast3.toAst2`; `Spec/BackRule` | C41, C61 |
| C89 | `Ast3.fromStr`; `Spec/Trouble` | C42, C46: the first problem decides the outcome |
| C90 | sections of `Ast3.tryFrom`; `Spec/DocumentRule` | C45, C57 |
| C91 | pushes, `Ast3.validate` | invariant over the history of pushes (C43, C18) |
| C92 | `Ast3.toAst2` then `Ast2.toAst1` | C65 |
| C93 | `Ast3.Document.lines` | C20 |
| C94 | `Ast2.validate` after `Ast2.fromStr`; `Spec/Lines` | exact line numbers of stage 2 (`Proofs/ExactLines2.lean`, by `Shape` induction over the conversion), C18, C22, C09 |
| C95 | `Ast3.validate` after `Ast3.fromStr` | C18, C50, labels carried through both conversions |
| C96 | `validate` of all nodes, checked constructors, `push*`; `Spec/FirstFault` | `validate` is the first error of the list of nodes (structural induction, `Proofs/FirstFault.lean`); per-node iff |
| C97 | all parsers, converters, printers, counters, validators; `Spec/Rename` | step-by-step simulation of each state machine and structural induction (`Proofs/Rename1`–`Rename4`); exchange of two characters as instance |
| C98 | all parsers and converters up to stage 3; `Spec/Crlf` | stage 1 by induction on the independent reading relation, stages 2, 3 by simulation of the state machines, exact for stage 2 and up to carriage returns for stage 3 (`Proofs/Crlf1`–`Crlf4`) |
| C99 | stage-1 parser; `Spec/Complete` | acceptability is extracted from the independent reading relation as a relation on sources; every cut of an acceptable source is completed by induction on it, keeping track of bracket depths for enclosing arguments (`Proofs/Complete1`, `Complete2`) |
| C100 | all three stages; `Spec/Grown` | the tokens of a beginning are a prefix of the tokens of the whole; the parser state after the beginning is compared with what the rest can still change of it (`Proofs/Grown1`), then the conversions on both documents (`Grown2`, `Grown3`) |
| C101 | stage-1 and stage-2 parser and printer; `Spec/Settle` | induction on the grammar `Reads`: each construct is printed as it is or lighter (`Proofs/Settle`), then well-founded descent on the weight |
| C102 | parsers of all stages; `Spec/FinalBlanks` | the normal form of the source commutes with appending, each buffer of the token machine absorbs blanks (`Proofs/FinalBlanks1`), then the last chunk only in the loops of stages 2 and 3 (`Proofs/FinalBlanks2`, `3`) |
| C103 | parsers of all stages; `Spec/LeadingBlanks` | the stage-1 machine started behind the blanks simulates the machine started at the top, with lines shifted (`Proofs/LeadingBlanks1`); the loops of stages 2 and 3 on shifted chunks with a longer first text (`Proofs/LeadingBlanks2`, `3`) |
| C104 | parsers of all stages; `Spec/Enclosed` | a derivation of the grammar of C51 for s can be continued by `\end{x}` and begun by `\begin{x}` (`Proofs/Enclosed1`), the derivation of C53 for an environment around it, and C102, C103 for the line ends |
| C105 | parsers of all stages; `Spec/Bracketed` | one rule of the grammar of C51 around the derivation for the source, and C62 for stages 2 and 3 |
| C106 | parsers and printers of stages 1 and 2; `Spec/Retext` | surviving documents are canonical up to line numbers (C03_exact); canonicity is kept by replacing texts; stage 2 pulls the replacement back along the conversion (C53); exactness by four documents built around the text |
| C107 | conversion 2→3, paragraphs, document sections; `Spec/Lines3` | induction on the maths that keeps its text (C86), with the rules of C55 and C56; C84 for the lines of stage 2 |
| C108 | display and parser of stages 1 and 2; `Spec/Paste` | canonical documents (C03) can be printed level by level; what may follow what is decided by the last one or two chunks before and the first two after |
| C109 | maths and document conversion, conversion back; `Spec/Atoms` | a document as a sequence of characters and nodes (`atoms`) is a homomorphism; induction over `KeepsText`, and over the rule of C61 |
| C110 | all of stages 1-3; `Spec/Load3` | documents without empty or neighbouring texts are determined by their atoms; induction over `Recognisable` (the rule of C55 finds each piece again) and over `KeepsText`; document level by C35, C57 and C108; panics (`Spec/Calm`): parsed lines follow C84, so the rebasing of each dollar formula underflows exactly if it is not calm |
| C111 | all of stages 1-3; `Spec/Retext3` | the edit of a document is an edit of its spelled-out form at stage 2 (so C106 applies), keeps `Recognisable` (induction) and the number of classes, and with no more newlines keeps `Calm`; then C110 |
| C112 | all of stages 1-3; `Spec/Join3` | C110 reduces survival to `Recognisable`, stage-2 survival of the spelled-out chunks and `Calm`; each of the three is shown to split over append, the second by C108 at stage 2 once texts at the seam are merged |
| C113 | all of stages 1-3; `Spec/Build3` | C110 and C112 give soundness of sequences; each constructor by inversion of `Recognisable`, C108 of stage 2 for the spelled-out node, and `Calm`; "can stand in a document" is survival of the body `\,` + chunks |
| C114 | `toAst1`, `tryFrom`; `Spec/Atoms`, `Spec/ForthBack`, `Spec/AnyConversion` | the rule of C60 (stage 2 to 1) is put together with `Meets`, the rule of C53 extended to documents numbered in any way (panics included), by induction; necessity from C22 (no \begin/\end command is left) and C83 |
| C115 | `intoChunks`, `mathsFromChunks`; `Spec/Again3`, `Spec/MathsRule`, `Spec/BackRule` | an inductive rule `Resettles` says what becomes of each chunk; what the conversion returns is shown to have the shape the rule asks for, the rules of C55 and of going back are put together by induction; panics by following line numbers through both rules |
| C116 | `tryFrom`, `toAst2`; `Spec/Again4`, `Spec/Again5`, `Spec/Again3`, `Spec/DocumentRule` | C115 for each section; the document environment and the classes are found by following which commands and environments there are (`atoms`) through both conversions; what follows the environment is where texts are joined, and has a rule of its own (`Rejoins`, `Tidy`; `Firm` for panics) |
| C117 | `mathsFromChunks`, `tryFrom`; `Spec/Slides` | induction on the rule for formulas (`Yields`): each formula slides out what is left behind; a measure (`weight`, then the positions of the dollar signs) shows that it comes to an end |
| C118 | `mathsFromChunks`, `tryFrom`; `Spec/Skeleton` | induction on the rule for formulas (`Yields`), with the rule for what a formula takes from the chunks before it; paragraphs only split text. `Spec/Forward`: what a formula leaves behind passes the chunks it has kept, so characters move forward (`Forward`), at every depth |
| C119 | `fromStr` of all stages, `Document.display` | C04 (the visible characters are those of the source), C21, and the counting invariant of `mathsFromChunks` (`MathsCount`) for each section of the rule C57 |
| C120 | `mathsFromChunks`, `tryFrom` of stage 3 | induction on the conversion rule `Yields`, generalised over the marks of the formulas directly around and over which marks the input lacks at its own level (`Spec/Nested`, `Proofs/Nested`) |
| C121 | `mathsFromChunks`, `tryFrom` of stage 3 | induction on the conversion rule `Yields` and on `ToDollar`, `Formula`, `Inside` (`Spec/DollarCount`, `Proofs/DollarCount`); sections by the rule C57 |
| C122 | `mathsFromChunks`, `tryFrom` of stage 3 | induction on the conversion rule `Yields`: the chunks kept in a dollar formula are no texts, apart from the last one (`Spec/DollarForm`, `Proofs/DollarForm`) |
| C123 | `mathsFromChunks`, `mathsFuel`, `tryFrom` of stage 3 | induction on the conversion rule `Yields`, with the set of marks around: each formula uses up one of three, scopes and environments free them again but use up one level of the input (`Proofs/NestedDepth`); exactness by a family of inputs (`towers`) |
| C124 | `mathsFromChunks`, `mathsFuel` | induction on the conversion rule `Yields`: every chunk that is no text or delimiter is found again, in a formula or outside (`Spec/PlainDelims`, `Proofs/NestedLeast`) |
| C125 | `tryFrom`, `convFuel` of stage 2 | the family `boxes n`, by induction with the conversion rule of C53; calls by C67 (`Props/Boxes`) |

C76–C93 state exactly what holds where the simpler properties C01–C72 are false of the code; they are collected in
`Props/Sharp.lean` under names of their own.

C51–C61 together are a complete functional specification of the public translations: for every input they
say which result, which error with which line, or that it panics; the relations are proved to relate
each input to at most one outcome, so a change of behaviour of any of those functions falsifies them.

## 6. Tests of the theorems against wrong programs

`seeded/LOG.jsonl` has one line per attempt: the definition edited, the edit, the claim it breaks and the
theorems that failed. The first run is of hand-written realistic bugs, the later ones are mechanical
(boundary, constant, swapped constructor, dropped update) over every model definition. Edits which leave the
program's behaviour unchanged (the recursion bounds, dead stores) are marked as equivalent.
