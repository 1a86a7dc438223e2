import Verif.Model.Cost1
import Verif.Model.Conv2
import Verif.Spec.Size

/-!
# The stage-2 conversion with a step counter

The conversion of `Model/Conv2.lean` once more, arm by arm, with a counter: every call of `Document::try_from` counts
one, every iteration of its loop over chunks counts one, and for a `\begin` or `\end` the size of its arguments as well:
they are printed, compared with what is on the stack, and searched for newlines. (This is generous: an inner `\begin` is
only compared. All that is left out is moving a chunk to where it belongs.) `Props/Cost2.lean` proves that the
answers are those of `Model/Conv2.lean`.
-/

namespace LatexAst.Ast2

/-- The size of arguments: nodes and printed characters. -/
def argSize (args : List (Str × Ast1.Scope)) : Nat := Ast1.argNodes args + (Ast1.displayArgs args).length

/-- src/ast2/scope.rs:105-115. -/
def convScopeN (rec : List Ast1.Chunk → Counted (List Chunk)) : Ast1.Scope → Counted Scope
  | .mk chunks v => (rec chunks).andThen fun cs => free (.ok (.mk cs v))

/-- The loops of src/ast2/command.rs:87-89 and src/ast2/document.rs:334-336. -/
def convArgsN (rec : List Ast1.Chunk → Counted (List Chunk)) :
    List (Str × Ast1.Scope) → Counted (List (Str × Scope))
  | [] => free (.ok [])
  | (prec, sc) :: r =>
    (convScopeN rec sc).andThen fun s => (convArgsN rec r).andThen fun args => free (.ok ((prec, s) :: args))

/-- src/ast2/command.rs:79-93. -/
def convCommandN (rec : List Ast1.Chunk → Counted (List Chunk)) : Ast1.Command → Counted Command
  | .mk label args => (convArgsN rec args).andThen fun args => free (.ok (.mk label args))

/-- `map_err`: the error with another line, the same steps. -/
def addLineN {α : Type} (k : Nat) (x : Counted α) : Counted α := (addLine k x.1, x.2)

/-- The two `"end"` arms, src/ast2/document.rs:304-355. -/
def stepEndN (rec : List Ast1.Chunk → Counted (List Chunk)) (s : State) (lineNo : Nat)
    (first : Str × Ast1.Scope) (rest : List (Str × Ast1.Scope)) : Counted State :=
  if topIs s.stack first.2.chunks = false then
    free (fail lineNo (.unexpectedEnd (Ast1.displayChunks first.2.chunks)))
  else if (first :: rest).length > 1 then free (fail lineNo .tooManyArgsEnd)
  else
    let s := { s with stack := s.stack.dropLast }
    if s.stack.isEmpty then
      (convArgsN rec s.envArgs).andThen fun args =>
        (addLineN s.bufferStart (rec s.buffer)).andThen fun content =>
          free (.ok { s with
            chunks := s.chunks ++ [.mk s.bufferStart (.environment
              (.mk (Ast1.displayChunks first.2.chunks) args content s.precBegin first.1))]
            envArgs := []
            buffer := []
            precBegin := [] })
    else free (State.pushBuffer s lineNo (.command (.mk chars!"end" (first :: rest))))

/-- The steps of an iteration: one, and the size of the arguments of a `\begin` or `\end`. -/
def iteration : Ast1.Chunk → Nat
  | .mk _ (.command (.mk label args)) => if label = chars!"begin" ∨ label = chars!"end" then 1 + argSize args else 1
  | _ => 1

/-- One iteration of the loop, src/ast2/document.rs:209-360, without counting itself. -/
def stepN (rec : List Ast1.Chunk → Counted (List Chunk)) (s : State) : Ast1.Chunk → Counted State
  | .mk lineNo v =>
    match v with
    | .text str =>
      if s.stack.isEmpty then free (.ok (s.pushChunks lineNo (.text str)))
      else free (s.pushBuffer lineNo (.text str))
    | .scope sc =>
      if s.stack.isEmpty then
        (addLineN lineNo (convScopeN rec sc)).andThen fun sc => free (.ok (s.pushChunks lineNo (.scope sc)))
      else free (s.pushBuffer lineNo (.scope sc))
    | .command c =>
      if ¬ (c.label = chars!"begin" ∨ c.label = chars!"end") then
        if s.stack.isEmpty then
          (convCommandN rec c).andThen fun c => free (.ok (s.pushChunks lineNo (.command c)))
        else free (s.pushBuffer lineNo (.command c))
      else
        match c.arguments with
        | [] => free (fail lineNo .noEnvironmentLabel)
        | first :: rest =>
          if first.2.variant ≠ .curly then free (fail lineNo .noEnvironmentLabel)
          else if c.label = chars!"begin" then free (stepBegin s lineNo first rest)
          else stepEndN rec s lineNo first rest

/-- The whole loop. -/
def runN (rec : List Ast1.Chunk → Counted (List Chunk)) : List Ast1.Chunk → State → Counted State
  | [], s => free (.ok s)
  | c :: cs, s =>
    let r := (stepN rec s c).andThen fun s => runN rec cs s
    (r.1, iteration c + r.2)

/-- `Document::try_from` with an explicit bound on the recursion depth; every call counts one. -/
def convFuelN : Nat → List Ast1.Chunk → Counted (List Chunk)
  | 0, _ => free (.error .fuel)
  | n + 1, cs =>
    let r := (runN (convFuelN n) cs State.init).andThen fun s => free (finish s)
    (r.1, 1 + r.2)

/-- `TryFrom<ast1::Document> for ast2::Document`, src/ast2/document.rs:197-373, with the number of its steps. -/
def tryFromN (d : Ast1.Document) : Counted Document := convFuelN (sizeChunks d + 1) d

/-- `<ast2::Document as FromStr>::from_str`, src/ast2/document.rs:95-101, with the number of its steps. -/
def fromStrN (s : Str) : Counted Document := (Ast1.fromStrN s).andThen tryFromN

end LatexAst.Ast2
