import Verif.Model.Cost2
import Verif.Model.Conv3

/-!
# The stage-3 conversion with a step counter

The conversion of `Model/Conv3.lean` once more, arm by arm, with a counter. Every call of `MathsBlock::from_chunks` and of
`Paragraph::from_chunks` counts one, and so does every iteration of their loops over chunks and over the characters of
texts, and every chunk whose line number is changed. For the document, every iteration counts one, and an argument of
`\documentclass` four times its printed length (printing, splitting, and at most three loops over each option). `Props/Cost3.lean` proves
that the answers are those of `Model/Conv3.lean`.
-/

namespace LatexAst.Ast3

/-- The steps of `Paragraph::from_chunks`, src/ast3/paragraph.rs:8-106: every chunk, and every character of a text. -/
def parSteps : List Chunk → Nat
  | [] => 0
  | .mk _ (.text t) :: cs => 1 + t.length + parSteps cs
  | _ :: cs => 1 + parSteps cs

/-- `Paragraph::from_chunks`, with its steps. -/
def paragraphsN (cs : List Chunk) : Counted (List Chunk) := (.ok (paragraphs cs), 1 + parSteps cs)

/-- src/ast3/scope.rs:57-68; `rec` is `MathsBlock::from_chunks`. -/
def tryScopeN (rec : List Ast2.Chunk → Counted (List Chunk)) : Ast2.Scope → Counted Scope
  | .mk chunks v => (rec chunks).andThen fun cs => (paragraphsN cs).andThen fun cs => free (.ok (.mk cs v))

/-- The argument loops of src/ast3/command.rs:72-74 and src/ast3/environment.rs:93-95. -/
def tryArgsN (rec : List Ast2.Chunk → Counted (List Chunk)) :
    List (Str × Ast2.Scope) → Counted (List (Str × Scope))
  | [] => free (.ok [])
  | (prec, sc) :: r =>
    (tryScopeN rec sc).andThen fun s => (tryArgsN rec r).andThen fun args => free (.ok ((prec, s) :: args))

/-- src/ast3/command.rs:64-78. -/
def tryCommandN (rec : List Ast2.Chunk → Counted (List Chunk)) : Ast2.Command → Counted Command
  | .mk label args => (tryArgsN rec args).andThen fun args => free (.ok (.mk label args))

/-- src/ast3/environment.rs:85-105. -/
def tryEnvironmentN (rec : List Ast2.Chunk → Counted (List Chunk)) : Ast2.Environment → Counted Environment
  | .mk label args content precBegin precEnd =>
    (tryArgsN rec args).andThen fun args => (rec content).andThen fun content =>
      (paragraphsN content).andThen fun content => free (.ok (.mk label args content precBegin precEnd))

/-- src/ast3/mathsblock.rs:244-248 and 276-280; every chunk counts one. -/
def rebaseN (line : Nat) (cs : List Ast2.Chunk) : Counted (List Ast2.Chunk) := (rebase line cs, cs.length)

/-- Closing a dollar block, src/ast3/mathsblock.rs:225-254 and 257-286. -/
def closeDollarsN (rec : List Ast2.Chunk → Counted (List Chunk)) (t : TState) (type : MathsType) :
    Counted TState :=
  let buffer := if t.textBuffer.isEmpty then t.m.buffer
                else t.m.buffer ++ [.mk t.textBufferLine (.text t.textBuffer)]
  (rebaseN t.textBufferLine buffer).andThen fun buffer => (rec buffer).andThen fun content =>
    free (.ok { t with
        m := { t.m with
          mode := .none
          buffer := []
          out := t.m.out ++ [.mk t.textBufferLine (.mathsBlock (.mk .dollars type content))] }
        textBuffer := []
        textBufferLine := t.cursorLine })

/-- The `'$'` arm, src/ast3/mathsblock.rs:209-290. -/
def stepDollarN (rec : List Ast2.Chunk → Counted (List Chunk)) (t : TState) : Counted TState :=
  match t.m.mode with
  | .none =>
    let t := t.pushStr
    free (.ok { t with m := { t.m with mode := .singleDollar .dollars }, textBufferLine := t.cursorLine })
  | .singleDollar .dollars =>
    if t.textBuffer.isEmpty = true ∧ t.m.buffer.isEmpty = true then
      free (.ok { t with m := { t.m with mode := .doubleDollar .dollars } })
    else closeDollarsN rec t .inline
  | .doubleDollar .dollars => free (.ok { t with m := { t.m with mode := .doubleClosing } })
  | .doubleClosing => closeDollarsN rec t .outline
  | .singleDollar .brackets => free (.ok t)
  | .doubleDollar .brackets => free (.ok t)

/-- One iteration of `for c in s.chars()`, src/ast3/mathsblock.rs:204-294, without counting itself. -/
def stepCharN (rec : List Ast2.Chunk → Counted (List Chunk)) (t : TState) (c : Char) : Counted TState :=
  let t := if c = '\n' then { t with cursorLine := t.cursorLine + 1 } else t
  if c = '$' then stepDollarN rec t
  else free (.ok { t with textBuffer := t.textBuffer ++ [c] })

/-- The character loop; every iteration counts one. -/
def runTextN (rec : List Ast2.Chunk → Counted (List Chunk)) : Str → TState → Counted TState
  | [], t => free (.ok t)
  | c :: cs, t =>
    let r := (stepCharN rec t c).andThen fun t => runTextN rec cs t
    (r.1, 1 + r.2)

/-- The `Text` arm, src/ast3/mathsblock.rs:182-297. -/
def stepMathsTextN (rec : List Ast2.Chunk → Counted (List Chunk)) (s : MState) (line : Nat) (str : Str) :
    Counted MState :=
  (runTextN rec str ⟨s, line, [], line⟩).andThen fun t => free (.ok t.pushStr.m)

/-- Closing a bracket block, src/ast3/mathsblock.rs:125-134 and 141-150. -/
def closeBracketsN (rec : List Ast2.Chunk → Counted (List Chunk)) (s : MState) (type : MathsType) :
    Counted MState :=
  (rec s.buffer).andThen fun content =>
    free (.ok { s with
      mode := .none
      depth := 0
      buffer := []
      out := s.out ++ [.mk s.bufferLine (.mathsBlock (.mk .brackets type content))] })

/-- The `Command` arms, src/ast3/mathsblock.rs:86-163, 176-181 and 298, guards in source order. -/
def stepMathsCommandN (rec : List Ast2.Chunk → Counted (List Chunk)) (s : MState) (line : Nat)
    (cmd : Ast2.Command) : Counted MState :=
  if s.mode = .none ∧ (cmd.label = chars!")" ∨ cmd.label = chars!"]") then               -- 86
    free (fail line .unexpectedMathsEnd)
  else if cmd.label = chars!"(" ∧ s.mode = .none then                                    -- 94
    free (.ok { s with mode := .singleDollar .brackets, bufferLine := line, depth := 1 })
  else if cmd.label = chars!"[" ∧ s.mode = .none then                                    -- 101
    free (.ok { s with mode := .doubleDollar .brackets, bufferLine := line, depth := 1 })
  else if cmd.label = chars!"(" ∧ s.mode = .singleDollar .brackets then                  -- 108
    free (.ok { s with depth := s.depth + 1 })
  else if cmd.label = chars!"[" ∧ s.mode = .doubleDollar .brackets then                  -- 114
    free (.ok { s with depth := s.depth + 1 })
  else if cmd.label = chars!")" ∧ s.mode = .singleDollar .brackets ∧ s.depth = 1 then    -- 120
    closeBracketsN rec s .inline
  else if cmd.label = chars!"]" ∧ s.mode = .doubleDollar .brackets ∧ s.depth = 1 then    -- 136
    closeBracketsN rec s .outline
  else if cmd.label = chars!")" ∧ s.mode = .singleDollar .brackets then                  -- 152
    (free (checkedSub s.depth 1)).andThen fun d => free (.ok { s with depth := d })
  else if cmd.label = chars!"]" ∧ s.mode = .doubleDollar .brackets then                  -- 158
    (free (checkedSub s.depth 1)).andThen fun d => free (.ok { s with depth := d })
  else if s.mode = .none then                                                            -- 176
    (tryCommandN rec cmd).andThen fun c => free (.ok { s with out := s.out ++ [.mk line (.command c)] })
  else free (.ok (s.pushBuffer line (.command cmd)))                                     -- 298

/-- One iteration of the chunk loop, src/ast3/mathsblock.rs:82-300, without counting itself. -/
def stepMathsN (rec : List Ast2.Chunk → Counted (List Chunk)) (s : MState) : Ast2.Chunk → Counted MState
  | .mk line v =>
    match v with
    | .command cmd => stepMathsCommandN rec s line cmd
    | .scope sc =>
      if s.mode = .none then                                                             -- 164
        (tryScopeN rec sc).andThen fun sc => free (.ok { s with out := s.out ++ [.mk line (.scope sc)] })
      else free (.ok (s.pushBuffer line (.scope sc)))
    | .environment e =>
      if s.mode = .none then                                                             -- 170
        (tryEnvironmentN rec e).andThen fun e => free (.ok { s with out := s.out ++ [.mk line (.environment e)] })
      else free (.ok (s.pushBuffer line (.environment e)))
    | .text str =>
      if s.mode = .singleDollar .brackets ∨ s.mode = .doubleDollar .brackets then        -- 182
        free (.ok (s.pushBuffer line (.text str)))
      else stepMathsTextN rec s line str

/-- The chunk loop; every iteration counts one. -/
def runMathsN (rec : List Ast2.Chunk → Counted (List Chunk)) : List Ast2.Chunk → MState → Counted MState
  | [], s => free (.ok s)
  | c :: cs, s =>
    let r := (stepMathsN rec s c).andThen fun s => runMathsN rec cs s
    (r.1, 1 + r.2)

/-- After the loop, src/ast3/mathsblock.rs:302-311. -/
def finishMathsN (s : MState) : Counted (List Chunk) :=
  if s.mode ≠ .none then free (fail s.bufferLine .unclosedMaths)
  else paragraphsN s.out

/-- `MathsBlock::from_chunks` with an explicit bound on the recursion depth; every call counts one. -/
def mathsFuelN : Nat → List Ast2.Chunk → Counted (List Chunk)
  | 0, _ => free (.error .fuel)
  | n + 1, cs =>
    let r := (runMathsN (mathsFuelN n) cs MState.init).andThen finishMathsN
    (r.1, 1 + r.2)

/-- `MathsBlock::from_chunks`, src/ast3/mathsblock.rs:66-312, with its steps. -/
def mathsFromChunksN (cs : List Ast2.Chunk) : Counted (List Chunk) := mathsFuelN (sizeChunks cs + 1) cs

/-- The steps for the arguments of a `\documentclass`. -/
def classSteps : List (Str × Ast2.Scope) → Nat
  | [] => 0
  | (_, .mk chunks _) :: r => 1 + 4 * (Ast2.displayChunks chunks).length + classSteps r

/-- One iteration of src/ast3/document.rs:288-431, without counting itself. -/
def stepDocumentN (s : DState) : Ast2.Chunk → Counted DState
  | .mk line v =>
    match v with
    | .environment e =>
      if e.label = chars!"document" then                                                 -- 292
        (tryEnvironmentN mathsFromChunksN e).andThen fun e =>
          match e with
          | .mk _ args content begin «end» =>
            free (.ok { s with
              construct := { s.construct with
                bodyArgs := args, body := content, bodyBeginPrec := begin, bodyEndPrec := «end» }
              inPreamable := false })
      else free (.ok (s.push line v))
    | .command cmd =>
      if cmd.label = chars!"documentclass" ∧ s.inPreamable = true then                   -- 300
        if s.construct.documentclass.isSome then free (fail line .doubleDocumentClass)
        else
          Counted.andThen (docClassArgs line cmd.arguments s.construct, classSteps cmd.arguments) fun d =>
            free (.ok (DState.push { s with construct := d } line v))
      else free (.ok (s.push line v))
    | v => free (.ok (s.push line v))

/-- The loop; every iteration counts one. -/
def runDocumentN : List Ast2.Chunk → DState → Counted DState
  | [], s => free (.ok s)
  | c :: cs, s =>
    let r := (stepDocumentN s c).andThen fun s => runDocumentN cs s
    (r.1, 1 + r.2)

/-- `TryFrom<ast2::Document> for ast3::Document`, src/ast3/document.rs:271-438, with its steps. -/
def tryFromN (d : Ast2.Document) : Counted Document :=
  (runDocumentN d DState.init).andThen fun s =>
    (mathsFromChunksN s.preamable).andThen fun pre => (paragraphsN pre).andThen fun pre =>
      (mathsFromChunksN s.trailing).andThen fun tr => (paragraphsN tr).andThen fun tr =>
        free (.ok { s.construct with preamable := pre, trailing := tr })

/-- `<ast3::Document as FromStr>::from_str`, src/ast3/document.rs:440-446, with its steps. -/
def fromStrN (s : Str) : Counted Document := (Ast2.fromStrN s).andThen tryFromN

end LatexAst.Ast3
