import Verif.Spec.Nesting

/-!
# Specification: how a stage-1 document becomes a stage-2 document

`Converts d o`: the chunks `d` convert with outcome `o` (the stage-2 chunks, or the error reported). The
relation cuts the sequence at its first `\begin`, finds the matching `\end` by the nesting grammar of
`Spec/Nesting.lean`, and converts what is in between on its own. It has no stack and no buffer.
-/

namespace LatexAst.Ast2
open Ast1 (Opened Matched)

/-- What converting gives. -/
abbrev Outcome := Except Error (List Chunk)

/-- The outcome of a chunk converted before the rest. -/
def Outcome.after (c : Chunk) : Outcome → Outcome
  | .ok cs => .ok (c :: cs)
  | .error e => .error e

/-- The error, with its line counted from line `l` (where it starts with line 1, not 0). -/
def offBy (l : Nat) (e : Error) : Error := ⟨e.line + l, e.type⟩

/-- Arguments, from the outcomes of their contents; the first error counts. -/
def argOutcome : List ((Str × Ast1.Scope) × Outcome) → Except Error (List (Str × Scope))
  | [] => .ok []
  | ((p, sc), o) :: r =>
    match o with
    | .error e => .error e
    | .ok inner =>
      match argOutcome r with
      | .error e => .error e
      | .ok args => .ok ((p, .mk inner sc.variant) :: args)

/-- A scope on line `l` before the rest; an error inside it is counted from line `l` (one too many). -/
def scopeOutcome (l : Nat) (sv : ScopeVariant) (inner rest : Outcome) : Outcome :=
  match inner with
  | .error e => .error (offBy l e)
  | .ok cs => rest.after (.mk l (.scope (.mk cs sv)))

/-- A command before the rest; an error inside an argument keeps its line. -/
def commandOutcome (l : Nat) (label : Str) (items : List ((Str × Ast1.Scope) × Outcome)) (rest : Outcome) :
    Outcome :=
  match argOutcome items with
  | .error e => .error e
  | .ok args => rest.after (.mk l (.command (.mk label args)))

/-- An environment before the rest; `start` is the line on which its content starts. -/
def environmentOutcome (start : Nat) (label pb pe : Str) (items : List ((Str × Ast1.Scope) × Outcome))
    (content rest : Outcome) : Outcome :=
  match argOutcome items with
  | .error e => .error e
  | .ok args =>
    match content with
    | .error e => .error (offBy start e)
    | .ok cs => rest.after (.mk start (.environment (.mk label args cs pb pe)))

/-- With the environments `open_` open (innermost first), the chunk `c` cannot come next, and why. -/
inductive BadDelimiter (open_ : List (List Ast1.Chunk)) (c : Ast1.Chunk) : ErrorType → Prop
  /-- a `\begin` or `\end` without a first argument in curly braces -/
  | noLabel {label args} : c.variant = .command (.mk label args) →
      label = chars!"begin" ∨ label = chars!"end" →
      (∀ p lab r, args ≠ (p, .mk lab .curly) :: r) → BadDelimiter open_ c .noEnvironmentLabel
  /-- an `\end` for something else than the innermost open environment -/
  | unexpectedEnd {p lab r} : c.variant = .command (.mk chars!"end" ((p, .mk lab .curly) :: r)) →
      open_.head? ≠ some lab → BadDelimiter open_ c (.unexpectedEnd (Ast1.displayChunks lab))
  /-- an `\end` with more than one argument -/
  | tooManyArgs {p lab x r} : c.variant = .command (.mk chars!"end" ((p, .mk lab .curly) :: x :: r)) →
      open_.head? = some lab → BadDelimiter open_ c .tooManyArgsEnd

/-- The chunk, numbered from `start` instead of 1. -/
def renumber (start : Nat) : Ast1.Chunk → Ast1.Chunk
  | .mk l v => .mk (l - start + 1) v

/-- The line on which a `\begin` on line `l` with these arguments ends. -/
def endOfBegin (l : Nat) (args : List (Str × Ast1.Scope)) : Nat := l + (Ast1.displayArgs args).count '\n'

/-- The conversion from stage 1 to stage 2. -/
inductive Converts : List Ast1.Chunk → Outcome → Prop
  | nil : Converts [] (.ok [])
  | text {l t cs o} : Converts cs o → Converts (.mk l (.text t) :: cs) (o.after (.mk l (.text t)))
  | scope {l inner sv cs i o} : Converts inner i → Converts cs o →
      Converts (.mk l (.scope (.mk inner sv)) :: cs) (scopeOutcome l sv i o)
  /-- A command other than `\begin` and `\end`. -/
  | command {l label cs o} {items : List ((Str × Ast1.Scope) × Outcome)} : label ≠ chars!"begin" →
      label ≠ chars!"end" → (∀ x ∈ items, Converts x.1.2.chunks x.2) → Converts cs o →
      Converts (.mk l (.command (.mk label (items.map (·.1)))) :: cs) (commandOutcome l label items o)
  /-- An environment: `\begin{lab}..`, a body in which environments match, `\end{lab}`. The body is
  converted on its own, numbered from the end of the `\begin`. -/
  | environment {l p lab body l' pe cs i o} {items : List ((Str × Ast1.Scope) × Outcome)} : Matched body →
      (∀ x ∈ items, Converts x.1.2.chunks x.2) →
      Converts (body.map (renumber (endOfBegin l ((p, .mk lab .curly) :: items.map (·.1))))) i →
      Converts cs o →
      Converts (.mk l (.command (.mk chars!"begin" ((p, .mk lab .curly) :: items.map (·.1)))) ::
          (body ++ .mk l' (.command (.mk chars!"end" [(pe, .mk lab .curly)])) :: cs))
        (environmentOutcome (endOfBegin l ((p, .mk lab .curly) :: items.map (·.1))) (Ast1.displayChunks lab) p pe
          items i o)
  /-- A `\begin` or `\end` that cannot come here. -/
  | bad {c cs t} : BadDelimiter [] c t → Converts (c :: cs) (.error ⟨c.lineNo, t⟩)
  /-- A `\begin` or `\end` that cannot come inside the environment opened first. -/
  | badInside {l p lab args body st c cs t} : Opened body st → BadDelimiter (st ++ [lab]) c t →
      Converts (.mk l (.command (.mk chars!"begin" ((p, .mk lab .curly) :: args))) :: (body ++ c :: cs))
        (.error ⟨c.lineNo, t⟩)
  /-- An environment that is still open at the end; the outermost one is reported. -/
  | unclosed {l p lab args body st} : Opened body st →
      Converts (.mk l (.command (.mk chars!"begin" ((p, .mk lab .curly) :: args))) :: body)
        (.error ⟨endOfBegin l ((p, .mk lab .curly) :: args), .unclosedEnvironment (Ast1.displayChunks lab)⟩)

end LatexAst.Ast2
