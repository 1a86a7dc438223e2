import Verif.Spec.DocumentRule

/-!
# Specification: where the first problem of a stage-3 conversion is

A sequence of chunks is read from the left: `Passes` says what remains when some of it has been read without a problem,
`Stuck` what can go wrong then, and `Enters` which nested sequence is read next. `First cs fr` leads from a sequence to the
nested sequence in which its first problem is.
-/

namespace LatexAst.Ast3

/-- The sequence is converted without a problem. -/
def Fine (cs : List Ast2.Chunk) : Prop := ∃ out, Yields 0 cs (.ok out)

/-- `Passes b cs b' rest`: reading `cs`, `rest` remains, and there was no problem so far; `b` and `b'` are the lines of the
last bracket maths read before. -/
inductive Passes : Nat → List Ast2.Chunk → Nat → List Ast2.Chunk → Prop
  | refl {b cs} : Passes b cs b cs
  | text {b l t cs b' rest} : '$' ∉ t → Passes b cs b' rest → Passes b (.mk l (.text t) :: cs) b' rest
  | formula {b l q r cs lost type content p b' rest} : '$' ∉ q →
      Formula ⟨l + q.count '\n', [], r, cs⟩ lost type content p → Countable p.line content →
      Fine (content.map (countFrom p.line)) →
      Passes b (.mk (p.line + p.pending.count '\n') (.text p.text) :: p.rest) b' rest →
      Passes b (.mk l (.text (q ++ '$' :: r)) :: cs) b' rest
  | brackets {b k l args body inner l' args' cs b' rest} : Inside k body inner → Fine inner → Passes l cs b' rest →
      Passes b (.mk l (.command (.mk (openLabel k) args)) :: (body ++ .mk l' (.command (.mk (closeLabel k) args')) :: cs)) b' rest
  | scope {b l inner sv cs b' rest} : Fine inner → Passes b cs b' rest →
      Passes b (.mk l (.scope (.mk inner sv)) :: cs) b' rest
  | command {b l label args cs b' rest} : ¬ IsDelimiter label → (∀ x ∈ args, Fine x.2.chunks) → Passes b cs b' rest →
      Passes b (.mk l (.command (.mk label args)) :: cs) b' rest
  | environment {b l label args body pb pe cs b' rest} : (∀ x ∈ args, Fine x.2.chunks) → Fine body →
      Passes b cs b' rest → Passes b (.mk l (.environment (.mk label args body pb pe)) :: cs) b' rest

/-- The text at the front opens a dollar formula whose lines cannot be counted: the next thing to come is a panic. -/
def Overflows (rest : List Ast2.Chunk) : Prop :=
  ∃ l q r cs lost type content p, rest = .mk l (.text (q ++ '$' :: r)) :: cs ∧ '$' ∉ q ∧
    Formula ⟨l + q.count '\n', [], r, cs⟩ lost type content p ∧ ¬ Countable p.line content

/-- `Stuck b rest e`: at the front of `rest` is the problem `e`. -/
inductive Stuck (b : Nat) : List Ast2.Chunk → Error → Prop
  /-- a dollar formula that is not closed: reported on the line of the last bracket maths before it, or 0 -/
  | unfinished {l q r cs} : '$' ∉ q → Unfinished ⟨l + q.count '\n', [], r, cs⟩ →
      Stuck b (.mk l (.text (q ++ '$' :: r)) :: cs) ⟨b, .unclosedMaths⟩
  /-- `\(` or `\[` that is not closed: reported on its line -/
  | unclosed {k l args body} : Unclosed k body →
      Stuck b (.mk l (.command (.mk (openLabel k) args)) :: body) ⟨l, .unclosedMaths⟩
  /-- `\)` or `\]` outside maths: reported on its line -/
  | unexpected {k l args cs} : Stuck b (.mk l (.command (.mk (closeLabel k) args)) :: cs) ⟨l, .unexpectedMathsEnd⟩

/-- `Enters rest inner`: what is at the front of `rest` contains the sequence `inner`, and there is no problem in what is
converted before it. -/
inductive Enters : List Ast2.Chunk → List Ast2.Chunk → Prop
  | formula {l q r cs lost type content p} : '$' ∉ q →
      Formula ⟨l + q.count '\n', [], r, cs⟩ lost type content p → Countable p.line content →
      Enters (.mk l (.text (q ++ '$' :: r)) :: cs) (content.map (countFrom p.line))
  | brackets {k l args body inner l' args' cs} : Inside k body inner →
      Enters (.mk l (.command (.mk (openLabel k) args)) :: (body ++ .mk l' (.command (.mk (closeLabel k) args')) :: cs)) inner
  | scope {l inner sv cs} : Enters (.mk l (.scope (.mk inner sv)) :: cs) inner
  | arg {l label a1 p inner sv a2 cs} : ¬ IsDelimiter label → (∀ x ∈ a1, Fine x.2.chunks) →
      Enters (.mk l (.command (.mk label (a1 ++ (p, .mk inner sv) :: a2))) :: cs) inner
  | envArg {l label a1 p inner sv a2 body pb pe cs} : (∀ x ∈ a1, Fine x.2.chunks) →
      Enters (.mk l (.environment (.mk label (a1 ++ (p, .mk inner sv) :: a2) body pb pe)) :: cs) inner
  | envContent {l label args body pb pe cs} : (∀ x ∈ args, Fine x.2.chunks) →
      Enters (.mk l (.environment (.mk label args body pb pe)) :: cs) body

/-- `First cs fr`: everything read before `fr`, which is `cs` or nested in it, is without a problem. -/
inductive First : List Ast2.Chunk → List Ast2.Chunk → Prop
  | here {cs} : First cs cs
  | nested {cs b rest inner fr} : Passes 0 cs b rest → Enters rest inner → First inner fr → First cs fr

/-- The parts of a document, in the order in which they are converted: `part` is converted if the `\documentclass`
commands are in order and there was no problem in the parts before it. -/
inductive Attempted (e : List Ast2.Chunk) : List Ast2.Chunk → Prop
  | body {a c b} : ClassesOk (preambleOf e) → bodiesOf e = a ++ c :: b → (∀ x ∈ a, Fine [x]) → Attempted e [c]
  | preamble : ClassesOk (preambleOf e) → (∀ x ∈ bodiesOf e, Fine [x]) → Attempted e (preambleOf e)
  | trailing : ClassesOk (preambleOf e) → (∀ x ∈ bodiesOf e, Fine [x]) → Fine (preambleOf e) → Attempted e (trailingOf e)

/-- A problem with the `\documentclass` commands. -/
inductive BadClass (e : List Ast2.Chunk) : Error → Prop
  | double {a l args b} : preambleOf e = a ++ .mk l (.command (.mk chars!"documentclass" args)) :: b → ClassesOk a →
      classNames (classArgs a) ≠ [] → BadClass e ⟨l, .doubleDocumentClass⟩
  | tooMany {a l args b} : preambleOf e = a ++ .mk l (.command (.mk chars!"documentclass" args)) :: b → ClassesOk a →
      classNames (classArgs a) = [] → 2 ≤ (classNames args).length → BadClass e ⟨l, .tooManyArgsDocumentClass⟩

end LatexAst.Ast3
