import Verif.Model.Machine2
import Verif.Model.Conv3

/-!
# Stage 3 with machine integers

`Model/Conv3.lean` with the arithmetic as a parameter, as in `Model/Machine.lean`. `consec_newlines`
(src/ast3/paragraph.rs:17) has no annotation and is an `i32`; everything else is a `u32`. What does not compute with
numbers (`TState.pushStr`, `MState.pushBuffer`, `docClassArgs`, ...) is shared.
-/

namespace LatexAst.Ast3

/-- One iteration of the character loop, src/ast3/paragraph.rs:21-71. -/
def parStepA (A : Arith) (s : ParState) (c : Char) : Res ParState :=
  if c = '\n' ∧ s.consec = 1 then                                                        -- 22-34
    match A.addI s.consec 1 with
    | .error p => .error p
    | .ok consec =>
      match A.add s.lineNo 1 with
      | .error p => .error p
      | .ok lineNo =>
        .ok { s with
          consec := consec
          lineNo := lineNo
          out := if s.textBuffer.isEmpty then s.out
                 else s.out ++ [.mk s.textBufferLine (.text s.textBuffer)]
          textBuffer := []
          buffer := s.buffer ++ [c] }
  else if c = '\n' then                                                                  -- 35-41
    match A.addI s.consec 1 with
    | .error p => .error p
    | .ok consec =>
      match A.add s.lineNo 1 with
      | .error p => .error p
      | .ok lineNo =>
        .ok { s with
          bufferLine := s.lineNo
          consec := consec
          lineNo := lineNo
          buffer := s.buffer ++ [c] }
  else .ok (parStep s c)                                                                 -- no arithmetic

/-- The character loop. -/
def parRunA (A : Arith) : Str → ParState → Res ParState
  | [], s => .ok s
  | c :: cs, s =>
    match parStepA A s c with
    | .error f => .error f
    | .ok s => parRunA A cs s

/-- After the loop, src/ast3/paragraph.rs:74-99; the comparison is one of `i32`s. -/
def parFinishA (s : ParState) : List Chunk :=
  if s.buffer.isEmpty = false then
    if s.consec > 1 ∧ s.consec < i32Size then s.out ++ [.mk s.bufferLine (.paragraphBreak s.buffer)]
    else
      let t := s.textBuffer ++ s.buffer
      if t.isEmpty then s.out else s.out ++ [.mk s.textBufferLine (.text t)]
  else if s.textBuffer.isEmpty = false then
    let t := s.textBuffer ++ s.buffer
    if t.isEmpty then s.out else s.out ++ [.mk s.textBufferLine (.text t)]
  else s.out

/-- What one chunk contributes to `new`, src/ast3/paragraph.rs:11-103. -/
def paragraphChunkA (A : Arith) : Chunk → Res (List Chunk)
  | .mk line v =>
    match v with
    | .text s =>
      match parRunA A s (ParState.init line) with
      | .error f => .error f
      | .ok s => .ok (parFinishA s)
    | v => .ok [.mk line v]

/-- `Paragraph::from_chunks`, src/ast3/paragraph.rs:8-106. -/
def paragraphsA (A : Arith) : List Chunk → Res (List Chunk)
  | [] => .ok []
  | c :: cs =>
    match paragraphChunkA A c with
    | .error f => .error f
    | .ok a =>
      match paragraphsA A cs with
      | .error f => .error f
      | .ok b => .ok (a ++ b)

/-- src/ast3/scope.rs:57-68. -/
def tryScopeA (A : Arith) (rec : List Ast2.Chunk → Res (List Chunk)) : Ast2.Scope → Res Scope
  | .mk chunks v =>
    match rec chunks with
    | .error f => .error f
    | .ok cs =>
      match paragraphsA A cs with
      | .error f => .error f
      | .ok cs => .ok (.mk cs v)

/-- src/ast3/command.rs:72-74 and src/ast3/environment.rs:93-95. -/
def tryArgsA (A : Arith) (rec : List Ast2.Chunk → Res (List Chunk)) :
    List (Str × Ast2.Scope) → Res (List (Str × Scope))
  | [] => .ok []
  | (prec, sc) :: r =>
    match tryScopeA A rec sc with
    | .error f => .error f
    | .ok s =>
      match tryArgsA A rec r with
      | .error f => .error f
      | .ok args => .ok ((prec, s) :: args)

/-- src/ast3/command.rs:64-78. -/
def tryCommandA (A : Arith) (rec : List Ast2.Chunk → Res (List Chunk)) : Ast2.Command → Res Command
  | .mk label args =>
    match tryArgsA A rec args with
    | .error f => .error f
    | .ok args => .ok (.mk label args)

/-- src/ast3/environment.rs:85-105. -/
def tryEnvironmentA (A : Arith) (rec : List Ast2.Chunk → Res (List Chunk)) : Ast2.Environment → Res Environment
  | .mk label args content precBegin precEnd =>
    match tryArgsA A rec args with
    | .error f => .error f
    | .ok args =>
      match rec content with
      | .error f => .error f
      | .ok content =>
        match paragraphsA A content with
        | .error f => .error f
        | .ok content => .ok (.mk label args content precBegin precEnd)

/-- src/ast3/mathsblock.rs:244-248 and 276-280. -/
def rebaseA (A : Arith) (textBufferLine : Nat) : List Ast2.Chunk → Res (List Ast2.Chunk)
  | [] => .ok []
  | .mk l v :: cs =>
    match A.sub textBufferLine 1 with
    | .error p => .error p
    | .ok k =>
      match A.sub l k with
      | .error p => .error p
      | .ok l' =>
        match rebaseA A textBufferLine cs with
        | .error p => .error p
        | .ok cs => .ok (.mk l' v :: cs)

/-- Closing a dollar block, src/ast3/mathsblock.rs:225-254 and 257-286. -/
def closeDollarsA (A : Arith) (rec : List Ast2.Chunk → Res (List Chunk)) (t : TState) (type : MathsType) :
    Res TState :=
  let buffer := if t.textBuffer.isEmpty then t.m.buffer
                else t.m.buffer ++ [.mk t.textBufferLine (.text t.textBuffer)]
  match rebaseA A t.textBufferLine buffer with
  | .error f => .error f
  | .ok buffer =>
    match rec buffer with
    | .error f => .error f
    | .ok content =>
      .ok { t with
        m := { t.m with
          mode := .none
          buffer := []
          out := t.m.out ++ [.mk t.textBufferLine (.mathsBlock (.mk .dollars type content))] }
        textBuffer := []
        textBufferLine := t.cursorLine }

/-- The `'$'` arm, src/ast3/mathsblock.rs:209-290. -/
def stepDollarA (A : Arith) (rec : List Ast2.Chunk → Res (List Chunk)) (t : TState) : Res TState :=
  match t.m.mode with
  | .none =>
    let t := t.pushStr
    .ok { t with m := { t.m with mode := .singleDollar .dollars }, textBufferLine := t.cursorLine }
  | .singleDollar .dollars =>
    if t.textBuffer.isEmpty = true ∧ t.m.buffer.isEmpty = true then
      .ok { t with m := { t.m with mode := .doubleDollar .dollars } }
    else closeDollarsA A rec t .inline
  | .doubleDollar .dollars => .ok { t with m := { t.m with mode := .doubleClosing } }
  | .doubleClosing => closeDollarsA A rec t .outline
  | .singleDollar .brackets => .ok t
  | .doubleDollar .brackets => .ok t

/-- One iteration of `for c in s.chars()`, src/ast3/mathsblock.rs:204-294. -/
def stepCharA (A : Arith) (rec : List Ast2.Chunk → Res (List Chunk)) (t : TState) (c : Char) : Res TState :=
  if c = '\n' then
    match A.add t.cursorLine 1 with
    | .error p => .error p
    | .ok l => .ok { t with cursorLine := l, textBuffer := t.textBuffer ++ [c] }
  else if c = '$' then stepDollarA A rec t
  else .ok { t with textBuffer := t.textBuffer ++ [c] }

/-- The character loop. -/
def runTextA (A : Arith) (rec : List Ast2.Chunk → Res (List Chunk)) : Str → TState → Res TState
  | [], t => .ok t
  | c :: cs, t =>
    match stepCharA A rec t c with
    | .error f => .error f
    | .ok t => runTextA A rec cs t

/-- The `Text` arm, src/ast3/mathsblock.rs:182-297. -/
def stepMathsTextA (A : Arith) (rec : List Ast2.Chunk → Res (List Chunk)) (s : MState) (line : Nat) (str : Str) :
    Res MState :=
  match runTextA A rec str ⟨s, line, [], line⟩ with
  | .error f => .error f
  | .ok t => .ok t.pushStr.m

/-- The `Command` arms, src/ast3/mathsblock.rs:86-163, 176-181 and 298. -/
def stepMathsCommandA (A : Arith) (rec : List Ast2.Chunk → Res (List Chunk)) (s : MState) (line : Nat)
    (cmd : Ast2.Command) : Res MState :=
  if s.mode = .none ∧ (cmd.label = chars!")" ∨ cmd.label = chars!"]") then               -- 86
    fail line .unexpectedMathsEnd
  else if cmd.label = chars!"(" ∧ s.mode = .none then                                    -- 94
    .ok { s with mode := .singleDollar .brackets, bufferLine := line, depth := 1 }
  else if cmd.label = chars!"[" ∧ s.mode = .none then                                    -- 101
    .ok { s with mode := .doubleDollar .brackets, bufferLine := line, depth := 1 }
  else if cmd.label = chars!"(" ∧ s.mode = .singleDollar .brackets then                  -- 108
    match A.add s.depth 1 with
    | .error p => .error p
    | .ok d => .ok { s with depth := d }
  else if cmd.label = chars!"[" ∧ s.mode = .doubleDollar .brackets then                  -- 114
    match A.add s.depth 1 with
    | .error p => .error p
    | .ok d => .ok { s with depth := d }
  else if cmd.label = chars!")" ∧ s.mode = .singleDollar .brackets ∧ s.depth = 1 then    -- 120
    closeBrackets rec s .inline
  else if cmd.label = chars!"]" ∧ s.mode = .doubleDollar .brackets ∧ s.depth = 1 then    -- 136
    closeBrackets rec s .outline
  else if cmd.label = chars!")" ∧ s.mode = .singleDollar .brackets then                  -- 152
    match A.sub s.depth 1 with
    | .error p => .error p
    | .ok d => .ok { s with depth := d }
  else if cmd.label = chars!"]" ∧ s.mode = .doubleDollar .brackets then                  -- 158
    match A.sub s.depth 1 with
    | .error p => .error p
    | .ok d => .ok { s with depth := d }
  else if s.mode = .none then                                                            -- 176
    match tryCommandA A rec cmd with
    | .error f => .error f
    | .ok c => .ok { s with out := s.out ++ [.mk line (.command c)] }
  else .ok (s.pushBuffer line (.command cmd))                                            -- 298

/-- One iteration of the chunk loop, src/ast3/mathsblock.rs:82-300. -/
def stepMathsA (A : Arith) (rec : List Ast2.Chunk → Res (List Chunk)) (s : MState) : Ast2.Chunk → Res MState
  | .mk line v =>
    match v with
    | .command cmd => stepMathsCommandA A rec s line cmd
    | .scope sc =>
      if s.mode = .none then
        match tryScopeA A rec sc with
        | .error f => .error f
        | .ok sc => .ok { s with out := s.out ++ [.mk line (.scope sc)] }
      else .ok (s.pushBuffer line (.scope sc))
    | .environment e =>
      if s.mode = .none then
        match tryEnvironmentA A rec e with
        | .error f => .error f
        | .ok e => .ok { s with out := s.out ++ [.mk line (.environment e)] }
      else .ok (s.pushBuffer line (.environment e))
    | .text str =>
      if s.mode = .singleDollar .brackets ∨ s.mode = .doubleDollar .brackets then
        .ok (s.pushBuffer line (.text str))
      else stepMathsTextA A rec s line str

/-- The chunk loop. -/
def runMathsA (A : Arith) (rec : List Ast2.Chunk → Res (List Chunk)) : List Ast2.Chunk → MState → Res MState
  | [], s => .ok s
  | c :: cs, s =>
    match stepMathsA A rec s c with
    | .error f => .error f
    | .ok s => runMathsA A rec cs s

/-- After the loop, src/ast3/mathsblock.rs:302-311. -/
def finishMathsA (A : Arith) (s : MState) : Res (List Chunk) :=
  if s.mode ≠ .none then fail s.bufferLine .unclosedMaths
  else paragraphsA A s.out

/-- `MathsBlock::from_chunks` with an explicit bound on the recursion depth. -/
def mathsFuelA (A : Arith) : Nat → List Ast2.Chunk → Res (List Chunk)
  | 0, _ => .error .fuel
  | n + 1, cs =>
    match runMathsA A (mathsFuelA A n) cs MState.init with
    | .error f => .error f
    | .ok s => finishMathsA A s

/-- `MathsBlock::from_chunks`, src/ast3/mathsblock.rs:66-312. -/
def mathsFromChunksA (A : Arith) (cs : List Ast2.Chunk) : Res (List Chunk) := mathsFuelA A (sizeChunks cs + 1) cs

/-- One iteration of src/ast3/document.rs:288-431. -/
def stepDocumentA (A : Arith) (s : DState) : Ast2.Chunk → Res DState
  | .mk line v =>
    match v with
    | .environment e =>
      if e.label = chars!"document" then
        match tryEnvironmentA A (mathsFromChunksA A) e with
        | .error f => .error f
        | .ok (.mk _ args content begin «end») =>
          .ok { s with
            construct := { s.construct with
              bodyArgs := args, body := content, bodyBeginPrec := begin, bodyEndPrec := «end» }
            inPreamable := false }
      else .ok (s.push line v)
    | .command cmd =>
      if cmd.label = chars!"documentclass" ∧ s.inPreamable = true then
        if s.construct.documentclass.isSome then fail line .doubleDocumentClass
        else
          match docClassArgs line cmd.arguments s.construct with
          | .error f => .error f
          | .ok d => .ok (DState.push { s with construct := d } line v)
      else .ok (s.push line v)
    | v => .ok (s.push line v)

/-- The loop. -/
def runDocumentA (A : Arith) : List Ast2.Chunk → DState → Res DState
  | [], s => .ok s
  | c :: cs, s =>
    match stepDocumentA A s c with
    | .error f => .error f
    | .ok s => runDocumentA A cs s

/-- `TryFrom<ast2::Document> for ast3::Document`, src/ast3/document.rs:271-438. -/
def tryFromA (A : Arith) (d : Ast2.Document) : Res Document :=
  match runDocumentA A d DState.init with
  | .error f => .error f
  | .ok s =>
    match mathsFromChunksA A s.preamable with                                            -- 433
    | .error f => .error f
    | .ok pre =>
      match paragraphsA A pre with
      | .error f => .error f
      | .ok pre =>
        match mathsFromChunksA A s.trailing with                                         -- 434
        | .error f => .error f
        | .ok tr =>
          match paragraphsA A tr with
          | .error f => .error f
          | .ok tr => .ok { s.construct with preamable := pre, trailing := tr }

/-- `<ast3::Document as FromStr>::from_str`, src/ast3/document.rs:440-446, with machine integers. -/
def fromStrA (A : Arith) (s : Str) : Res Document :=
  match Ast2.fromStrA A s with
  | .error f => .error f
  | .ok d => tryFromA A d

end LatexAst.Ast3
