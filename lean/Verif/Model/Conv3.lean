import Verif.Model.Ast3

/-!
# Stage 2 → stage 3

Models src/ast3/paragraph.rs, src/ast3/mathsblock.rs:64-313, src/ast3/scope.rs:57-68,
src/ast3/command.rs:64-78, src/ast3/environment.rs:85-105 and src/ast3/document.rs:271-446.
-/

namespace LatexAst.Ast3

/-! ## `Paragraph::from_chunks` -/

/-- The per-chunk loop variables of src/ast3/paragraph.rs:12-17, with the part of `new` produced by
this chunk in `out`. -/
structure ParState where
  out : List Chunk
  lineNo : Nat
  textBuffer : Str
  textBufferLine : Nat
  buffer : Str
  bufferLine : Nat
  consec : Nat

/-- src/ast3/paragraph.rs:12-17. -/
def ParState.init (line : Nat) : ParState := ⟨[], line, [], line, [], line, 0⟩

/-- One iteration of the character loop, src/ast3/paragraph.rs:21-71, arms in source order. -/
def parStep (s : ParState) (c : Char) : ParState :=
  if c = '\n' ∧ s.consec = 1 then                                                        -- 22-34
    { s with
      consec := s.consec + 1
      lineNo := s.lineNo + 1
      out := if s.textBuffer.isEmpty then s.out
             else s.out ++ [.mk s.textBufferLine (.text s.textBuffer)]
      textBuffer := []
      buffer := s.buffer ++ [c] }
  else if c = '\n' then                                                                  -- 35-41
    { s with
      bufferLine := s.lineNo
      consec := s.consec + 1
      lineNo := s.lineNo + 1
      buffer := s.buffer ++ [c] }
  else if isWhitespace c = true ∧ s.consec = 0 then                                      -- 42
    { s with textBuffer := s.textBuffer ++ [c] }
  else if isWhitespace c = true then                                                     -- 43
    { s with buffer := s.buffer ++ [c] }
  else if s.consec = 0 then                                                              -- 44-50
    { s with
      textBufferLine := if s.textBuffer.isEmpty then s.lineNo else s.textBufferLine
      textBuffer := s.textBuffer ++ [c] }
  else if s.consec = 1 then                                                              -- 51-59
    { s with
      textBufferLine := if s.textBuffer.isEmpty then s.bufferLine else s.textBufferLine
      textBuffer := s.textBuffer ++ s.buffer ++ [c]
      buffer := []
      consec := 0 }
  else                                                                                   -- 60-70
    { s with
      out := s.out ++ [.mk s.bufferLine (.paragraphBreak s.buffer)]
      buffer := []
      textBufferLine := s.lineNo
      consec := 0
      textBuffer := s.textBuffer ++ [c] }

/-- The character loop. -/
def parRun : Str → ParState → ParState
  | [], s => s
  | c :: cs, s => parRun cs (parStep s c)

/-- After the loop, src/ast3/paragraph.rs:74-99. -/
def parFinish (s : ParState) : List Chunk :=
  if s.buffer.isEmpty = false then
    if s.consec > 1 then s.out ++ [.mk s.bufferLine (.paragraphBreak s.buffer)]
    else
      let t := s.textBuffer ++ s.buffer
      if t.isEmpty then s.out else s.out ++ [.mk s.textBufferLine (.text t)]
  else if s.textBuffer.isEmpty = false then
    let t := s.textBuffer ++ s.buffer
    if t.isEmpty then s.out else s.out ++ [.mk s.textBufferLine (.text t)]
  else s.out

/-- What one chunk contributes to `new`, src/ast3/paragraph.rs:11-103. -/
def paragraphChunk : Chunk → List Chunk
  | .mk line v =>
    match v with
    | .text s => parFinish (parRun s (ParState.init line))
    | v => [.mk line v]

/-- `Paragraph::from_chunks`, src/ast3/paragraph.rs:8-106. -/
def paragraphs : List Chunk → List Chunk
  | [] => []
  | c :: cs => paragraphChunk c ++ paragraphs cs

/-! ## `MathsBlock::from_chunks` -/

/-- src/ast3/mathsblock.rs:67-73. -/
inductive MathsMode where
  | singleDollar (v : MathsVariant)
  | doubleDollar (v : MathsVariant)
  | doubleClosing
  | none
deriving DecidableEq, Repr

/-- src/ast3/scope.rs:57-68; `rec` is `MathsBlock::from_chunks`. -/
def tryScope (rec : List Ast2.Chunk → Res (List Chunk)) : Ast2.Scope → Res Scope
  | .mk chunks v =>
    match rec chunks with
    | .error f => .error f
    | .ok cs => .ok (.mk (paragraphs cs) v)

/-- The argument loops of src/ast3/command.rs:72-74 and src/ast3/environment.rs:93-95. -/
def tryArgs (rec : List Ast2.Chunk → Res (List Chunk)) :
    List (Str × Ast2.Scope) → Res (List (Str × Scope))
  | [] => .ok []
  | (prec, sc) :: r =>
    match tryScope rec sc with
    | .error f => .error f
    | .ok s =>
      match tryArgs rec r with
      | .error f => .error f
      | .ok args => .ok ((prec, s) :: args)

/-- src/ast3/command.rs:64-78. -/
def tryCommand (rec : List Ast2.Chunk → Res (List Chunk)) : Ast2.Command → Res Command
  | .mk label args =>
    match tryArgs rec args with
    | .error f => .error f
    | .ok args => .ok (.mk label args)

/-- src/ast3/environment.rs:85-105. -/
def tryEnvironment (rec : List Ast2.Chunk → Res (List Chunk)) : Ast2.Environment → Res Environment
  | .mk label args content precBegin precEnd =>
    match tryArgs rec args with
    | .error f => .error f
    | .ok args =>
      match rec content with
      | .error f => .error f
      | .ok content => .ok (.mk label args (paragraphs content) precBegin precEnd)

/-- Loop variables of `from_chunks`, src/ast3/mathsblock.rs:75-80. -/
structure MState where
  out : List Chunk
  mode : MathsMode
  depth : Nat
  buffer : List Ast2.Chunk
  bufferLine : Nat

/-- src/ast3/mathsblock.rs:75-80. -/
def MState.init : MState := ⟨[], .none, 0, [], 0⟩

/-- Loop variables of the text loop, src/ast3/mathsblock.rs:189-191, on top of `MState`. -/
structure TState where
  m : MState
  cursorLine : Nat
  textBuffer : Str
  textBufferLine : Nat

/-- `push_str!`, src/ast3/mathsblock.rs:193-202. -/
def TState.pushStr (t : TState) : TState :=
  if t.textBuffer.isEmpty then t
  else { t with
    m := { t.m with out := t.m.out ++ [.mk t.textBufferLine (.text t.textBuffer)] }
    textBuffer := [] }

/-- `.map(|mut chunk| { *chunk.line_no_mut() -= text_buffer_line - 1; chunk })`,
src/ast3/mathsblock.rs:244-248 and 276-280; both subtractions panic on underflow. -/
def rebase (textBufferLine : Nat) : List Ast2.Chunk → Res (List Ast2.Chunk)
  | [] => .ok []
  | .mk l v :: cs =>
    match checkedSub textBufferLine 1 with
    | .error p => .error p
    | .ok k =>
      match checkedSub l k with
      | .error p => .error p
      | .ok l' =>
        match rebase textBufferLine cs with
        | .error p => .error p
        | .ok cs => .ok (.mk l' v :: cs)

/-- Closing a dollar block, src/ast3/mathsblock.rs:225-254 and 257-286. -/
def closeDollars (rec : List Ast2.Chunk → Res (List Chunk)) (t : TState) (type : MathsType) :
    Res TState :=
  let buffer := if t.textBuffer.isEmpty then t.m.buffer
                else t.m.buffer ++ [.mk t.textBufferLine (.text t.textBuffer)]
  match rebase t.textBufferLine buffer with
  | .error f => .error f
  | .ok buffer =>
    match rec buffer with
    | .error f => .error f
    | .ok content =>
      .ok { t with
        m := { t.m with
          mode := .none
          buffer := []
          out := t.m.out ++ [.mk t.textBufferLine (.mathsBlock (.mk .dollars type content))] }
        textBuffer := []
        textBufferLine := t.cursorLine }

/-- The `'$'` arm, src/ast3/mathsblock.rs:209-290. -/
def stepDollar (rec : List Ast2.Chunk → Res (List Chunk)) (t : TState) : Res TState :=
  match t.m.mode with
  | .none =>
    let t := t.pushStr
    .ok { t with m := { t.m with mode := .singleDollar .dollars }, textBufferLine := t.cursorLine }
  | .singleDollar .dollars =>
    if t.textBuffer.isEmpty = true ∧ t.m.buffer.isEmpty = true then
      .ok { t with m := { t.m with mode := .doubleDollar .dollars } }
    else closeDollars rec t .inline
  | .doubleDollar .dollars => .ok { t with m := { t.m with mode := .doubleClosing } }
  | .doubleClosing => closeDollars rec t .outline
  | .singleDollar .brackets => .ok t
  | .doubleDollar .brackets => .ok t

/-- One iteration of `for c in s.chars()`, src/ast3/mathsblock.rs:204-294. -/
def stepChar (rec : List Ast2.Chunk → Res (List Chunk)) (t : TState) (c : Char) : Res TState :=
  let t := if c = '\n' then { t with cursorLine := t.cursorLine + 1 } else t
  if c = '$' then stepDollar rec t
  else .ok { t with textBuffer := t.textBuffer ++ [c] }

/-- The character loop. -/
def runText (rec : List Ast2.Chunk → Res (List Chunk)) : Str → TState → Res TState
  | [], t => .ok t
  | c :: cs, t =>
    match stepChar rec t c with
    | .error f => .error f
    | .ok t => runText rec cs t

/-- The `Text` arm, src/ast3/mathsblock.rs:182-297. -/
def stepMathsText (rec : List Ast2.Chunk → Res (List Chunk)) (s : MState) (line : Nat) (str : Str) :
    Res MState :=
  match runText rec str ⟨s, line, [], line⟩ with
  | .error f => .error f
  | .ok t => .ok t.pushStr.m

/-- `buffer.push(ast2::Chunk::new_unchecked(line_no, variant))`, src/ast3/mathsblock.rs:298. -/
def MState.pushBuffer (s : MState) (line : Nat) (v : Ast2.ChunkVariant) : MState :=
  { s with buffer := s.buffer ++ [.mk line v] }

/-- Closing a bracket block, src/ast3/mathsblock.rs:125-134 and 141-150. -/
def closeBrackets (rec : List Ast2.Chunk → Res (List Chunk)) (s : MState) (type : MathsType) :
    Res MState :=
  match rec s.buffer with
  | .error f => .error f
  | .ok content =>
    .ok { s with
      mode := .none
      depth := 0
      buffer := []
      out := s.out ++ [.mk s.bufferLine (.mathsBlock (.mk .brackets type content))] }

/-- The `Command` arms, src/ast3/mathsblock.rs:86-163, 176-181 and 298, guards in source order. -/
def stepMathsCommand (rec : List Ast2.Chunk → Res (List Chunk)) (s : MState) (line : Nat)
    (cmd : Ast2.Command) : Res MState :=
  if s.mode = .none ∧ (cmd.label = chars!")" ∨ cmd.label = chars!"]") then               -- 86
    fail line .unexpectedMathsEnd
  else if cmd.label = chars!"(" ∧ s.mode = .none then                                    -- 94
    .ok { s with mode := .singleDollar .brackets, bufferLine := line, depth := 1 }
  else if cmd.label = chars!"[" ∧ s.mode = .none then                                    -- 101
    .ok { s with mode := .doubleDollar .brackets, bufferLine := line, depth := 1 }
  else if cmd.label = chars!"(" ∧ s.mode = .singleDollar .brackets then                  -- 108
    .ok { s with depth := s.depth + 1 }
  else if cmd.label = chars!"[" ∧ s.mode = .doubleDollar .brackets then                  -- 114
    .ok { s with depth := s.depth + 1 }
  else if cmd.label = chars!")" ∧ s.mode = .singleDollar .brackets ∧ s.depth = 1 then    -- 120
    closeBrackets rec s .inline
  else if cmd.label = chars!"]" ∧ s.mode = .doubleDollar .brackets ∧ s.depth = 1 then    -- 136
    closeBrackets rec s .outline
  else if cmd.label = chars!")" ∧ s.mode = .singleDollar .brackets then                  -- 152
    match checkedSub s.depth 1 with
    | .error p => .error p
    | .ok d => .ok { s with depth := d }
  else if cmd.label = chars!"]" ∧ s.mode = .doubleDollar .brackets then                  -- 158
    match checkedSub s.depth 1 with
    | .error p => .error p
    | .ok d => .ok { s with depth := d }
  else if s.mode = .none then                                                            -- 176
    match tryCommand rec cmd with
    | .error f => .error f
    | .ok c => .ok { s with out := s.out ++ [.mk line (.command c)] }
  else .ok (s.pushBuffer line (.command cmd))                                            -- 298

/-- One iteration of the chunk loop, src/ast3/mathsblock.rs:82-300. -/
def stepMaths (rec : List Ast2.Chunk → Res (List Chunk)) (s : MState) : Ast2.Chunk → Res MState
  | .mk line v =>
    match v with
    | .command cmd => stepMathsCommand rec s line cmd
    | .scope sc =>
      if s.mode = .none then                                                             -- 164
        match tryScope rec sc with
        | .error f => .error f
        | .ok sc => .ok { s with out := s.out ++ [.mk line (.scope sc)] }
      else .ok (s.pushBuffer line (.scope sc))
    | .environment e =>
      if s.mode = .none then                                                             -- 170
        match tryEnvironment rec e with
        | .error f => .error f
        | .ok e => .ok { s with out := s.out ++ [.mk line (.environment e)] }
      else .ok (s.pushBuffer line (.environment e))
    | .text str =>
      if s.mode = .singleDollar .brackets ∨ s.mode = .doubleDollar .brackets then        -- 182
        .ok (s.pushBuffer line (.text str))
      else stepMathsText rec s line str

/-- The chunk loop. -/
def runMaths (rec : List Ast2.Chunk → Res (List Chunk)) : List Ast2.Chunk → MState → Res MState
  | [], s => .ok s
  | c :: cs, s =>
    match stepMaths rec s c with
    | .error f => .error f
    | .ok s => runMaths rec cs s

/-- After the loop, src/ast3/mathsblock.rs:302-311. -/
def finishMaths (s : MState) : Res (List Chunk) :=
  if s.mode ≠ .none then fail s.bufferLine .unclosedMaths
  else .ok (paragraphs s.out)

/-- `MathsBlock::from_chunks` with an explicit bound on the recursion depth. -/
def mathsFuel : Nat → List Ast2.Chunk → Res (List Chunk)
  | 0, _ => .error .fuel
  | n + 1, cs =>
    match runMaths (mathsFuel n) cs MState.init with
    | .error f => .error f
    | .ok s => finishMaths s

mutual
/-- Node and character count, used only as the recursion bound. -/
def sizeChunk : Ast2.Chunk → Nat
  | .mk _ v => sizeVariant v + 1
/-- Node and character count. -/
def sizeVariant : Ast2.ChunkVariant → Nat
  | .text s => s.length + 1
  | .command c => sizeCommand c + 1
  | .scope sc => sizeScope sc + 1
  | .environment e => sizeEnvironment e + 1
/-- Node and character count. -/
def sizeCommand : Ast2.Command → Nat
  | .mk _ args => sizeArgs args + 1
/-- Node and character count. -/
def sizeScope : Ast2.Scope → Nat
  | .mk cs _ => sizeChunks cs + 1
/-- Node and character count. -/
def sizeEnvironment : Ast2.Environment → Nat
  | .mk _ args content _ _ => sizeArgs args + sizeChunks content + 1
/-- Node and character count. -/
def sizeChunks : List Ast2.Chunk → Nat
  | [] => 0
  | c :: cs => sizeChunk c + sizeChunks cs
/-- Node and character count. -/
def sizeArgs : List (Str × Ast2.Scope) → Nat
  | [] => 0
  | (_, sc) :: r => sizeScope sc + sizeArgs r
end

/-- `MathsBlock::from_chunks`, src/ast3/mathsblock.rs:66-312. -/
def mathsFromChunks (cs : List Ast2.Chunk) : Res (List Chunk) := mathsFuel (sizeChunks cs + 1) cs

/-! ## `TryFrom<ast2::Document> for ast3::Document` -/

/-- `str::split(',')`: the (always at least one) pieces between commas; src/ast3/document.rs:326. -/
def splitComma : Str → List Str
  | [] => [[]]
  | c :: cs =>
    if c = ',' then [] :: splitComma cs
    else match splitComma cs with
      | [] => [[c]]
      | p :: ps => (c :: p) :: ps

/-- src/ast3/document.rs:332-336. -/
inductive BufferMode where
  | prec
  | arg
  | potentialPost
deriving DecidableEq, Repr

/-- Loop variables of src/ast3/document.rs:328-339. -/
structure OptState where
  prec : Str
  arg : Str
  buffer : Str
  mode : BufferMode

/-- One iteration of src/ast3/document.rs:341-364. Note lines 344-348: the first non-whitespace
character is not pushed anywhere. -/
def optStep (s : OptState) (c : Char) : OptState :=
  match s.mode with
  | .prec =>
    if isWhitespace c then { s with buffer := s.buffer ++ [c] }
    else { s with prec := s.prec ++ s.buffer, buffer := [], mode := .arg }
  | .arg =>
    if isWhitespace c = false then { s with arg := s.arg ++ [c] }
    else { s with buffer := s.buffer ++ [c], mode := .potentialPost }
  | .potentialPost =>
    if isWhitespace c then { s with buffer := s.buffer ++ [c] }
    else { s with arg := s.arg ++ s.buffer ++ [c], buffer := [], mode := .arg }

/-- The loop of src/ast3/document.rs:341-364. -/
def optRun : Str → OptState → OptState
  | [], s => s
  | c :: cs, s => optRun cs (optStep s c)

/-- `arg.split_once('=')`, src/ast3/document.rs:370. -/
def splitOnceEq : Str → Option (Str × Str)
  | [] => none
  | c :: cs =>
    if c = '=' then some ([], cs)
    else match splitOnceEq cs with
      | none => none
      | some (k, v) => some (c :: k, v)

/-- The key loop, src/ast3/document.rs:377-393: (key, equal_prec). -/
def optKey : Str → Str × Str → Str × Str
  | [], s => s
  | c :: cs, (key, buffer) =>
    if isWhitespace c then optKey cs (key, buffer ++ [c])
    else optKey cs (key ++ buffer ++ [c], [])

/-- The value loop, src/ast3/document.rs:397-409: (val_started, equal_post, val). It runs over `k`
(line 399), and line 403-405 never sets `val_started`. -/
def optVal : Str → Bool × Str × Str → Bool × Str × Str
  | [], s => s
  | c :: cs, (started, post, val) =>
    if isWhitespace c = true ∧ started = false then optVal cs (started, post ++ [c], val)
    else optVal cs (if started then true else started, post, val ++ [c])

/-- One document option, src/ast3/document.rs:328-419. -/
def parseOption (opt : Str) : DocOption :=
  let s := optRun opt ⟨[], [], [], .prec⟩
  match splitOnceEq s.arg with
  | some (k, _) =>
    let (key, equalPrec) := optKey k ([], [])
    let (_, equalPost, val) := optVal k (false, [], [])
    (s.prec, key, some (equalPrec, equalPost, val), s.buffer)
  | none => (s.prec, s.arg, none, s.buffer)

/-- The argument loop of a `\documentclass`, src/ast3/document.rs:310-423. -/
def docClassArgs (line : Nat) : List (Str × Ast2.Scope) → Document → Res Document
  | [], d => .ok d
  | (_, sc) :: r, d =>
    match sc with
    | .mk chunks .curly =>
      if d.documentclass.isSome then fail line .tooManyArgsDocumentClass
      else docClassArgs line r { d with documentclass := some (Ast2.displayChunks chunks) }
    | .mk chunks _ =>
      docClassArgs line r
        { d with documentoptions :=
            d.documentoptions ++ (splitComma (Ast2.displayChunks chunks)).map parseOption }

/-- Loop variables of src/ast3/document.rs:275-286; `inPreamable` is `cursor == Preamable`. -/
structure DState where
  construct : Document
  preamable : List Ast2.Chunk
  trailing : List Ast2.Chunk
  inPreamable : Bool

/-- src/ast3/document.rs:275-286. -/
def DState.init : DState := ⟨Document.default, [], [], true⟩

/-- Lines 426-429: append to the preamable or to the trailing chunks. -/
def DState.push (s : DState) (line : Nat) (v : Ast2.ChunkVariant) : DState :=
  if s.inPreamable then { s with preamable := s.preamable ++ [.mk line v] }
  else { s with trailing := s.trailing ++ [.mk line v] }

/-- One iteration of src/ast3/document.rs:288-431. -/
def stepDocument (s : DState) : Ast2.Chunk → Res DState
  | .mk line v =>
    match v with
    | .environment e =>
      if e.label = chars!"document" then                                                 -- 292
        match tryEnvironment mathsFromChunks e with
        | .error f => .error f
        | .ok (.mk _ args content begin «end») =>
          .ok { s with
            construct := { s.construct with
              bodyArgs := args, body := content, bodyBeginPrec := begin, bodyEndPrec := «end» }
            inPreamable := false }
      else .ok (s.push line v)
    | .command cmd =>
      if cmd.label = chars!"documentclass" ∧ s.inPreamable = true then                   -- 300
        if s.construct.documentclass.isSome then fail line .doubleDocumentClass
        else
          match docClassArgs line cmd.arguments s.construct with
          | .error f => .error f
          | .ok d => .ok (DState.push { s with construct := d } line v)
      else .ok (s.push line v)
    | v => .ok (s.push line v)

/-- The loop. -/
def runDocument : List Ast2.Chunk → DState → Res DState
  | [], s => .ok s
  | c :: cs, s =>
    match stepDocument s c with
    | .error f => .error f
    | .ok s => runDocument cs s

/-- `TryFrom<ast2::Document> for ast3::Document`, src/ast3/document.rs:271-438. -/
def tryFrom (d : Ast2.Document) : Res Document :=
  match runDocument d DState.init with
  | .error f => .error f
  | .ok s =>
    match mathsFromChunks s.preamable with                                               -- 433
    | .error f => .error f
    | .ok pre =>
      match mathsFromChunks s.trailing with                                              -- 434
      | .error f => .error f
      | .ok tr => .ok { s.construct with preamable := paragraphs pre, trailing := paragraphs tr }

/-- `<ast3::Document as FromStr>::from_str`, src/ast3/document.rs:440-446. -/
def fromStr (s : Str) : Res Document :=
  match Ast2.fromStr s with
  | .error f => .error f
  | .ok d => tryFrom d

end LatexAst.Ast3
