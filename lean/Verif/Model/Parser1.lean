import Verif.Model.Ast1

/-!
# Stage 1 parser: `<ast1::Document as FromStr>::from_str`

Models src/ast1/document.rs:155-496, arm by arm and in the order of the Rust `match` arms.
`rec` is the recursive call `Document::from_str` (src/ast1/document.rs:285).
-/

namespace LatexAst.Ast1

/-- `scopes: Vec<(String, ScopeVariant, String)>`: content, variant, preceding string;
src/ast1/document.rs:172. -/
abbrev ScopeBuf := Str × ScopeVariant × Str

/-- src/ast1/document.rs:157-179. -/
inductive Buffer where
  | scope (content : Str) (variant : ScopeVariant) (depth : Nat)
  | command (label : Str) (scopes : List ScopeBuf) (depth : Nat) (trailing : Str)
  | text (content : Str)
deriving DecidableEq, Repr

/-- src/ast1/document.rs:191-197. -/
def Buffer.newScope (v : ScopeVariant) : Buffer := .scope [] v 1
/-- src/ast1/document.rs:200-207. -/
def Buffer.newCommand : Buffer := .command [] [] 0 []
/-- src/ast1/document.rs:210-214. -/
def Buffer.newText : Buffer := .text []

/-- `scopes.last_mut().unwrap().0.push_str(s)`; src/ast1/document.rs:221,231.
On the empty vector the Rust code would panic; the only callers test `scopes.is_empty()` first. -/
def pushLastContent (scopes : List ScopeBuf) (s : Str) : List ScopeBuf :=
  match scopes with
  | [] => []
  | [(content, v, prec)] => [(content ++ s, v, prec)]
  | x :: y :: r => x :: pushLastContent (y :: r) s

/-- src/ast1/document.rs:227-234. -/
def Buffer.pushStr (b : Buffer) (s : Str) : Buffer :=
  match b with
  | .scope content v d => .scope (content ++ s) v d
  | .command label scopes d tr =>
    if scopes.isEmpty then .command (label ++ s) scopes d tr
    else .command label (pushLastContent scopes s) d tr
  | .text content => .text (content ++ s)

/-- src/ast1/document.rs:217-224. -/
def Buffer.push (b : Buffer) (c : Char) : Buffer := b.pushStr [c]

/-- src/ast1/document.rs:237-253, on a command buffer (the only caller, line 416, is in the
`Buffer::Command` arm). `trailing` is moved into the new scope's preceding string (when it is empty
the preceding string is the empty one anyway). -/
def Buffer.pushScope (label : Str) (scopes : List ScopeBuf) (trailing : Str) (v : ScopeVariant) :
    Buffer :=
  .command label (scopes ++ [([], v, trailing)]) 1 []

/-- The argument loop of src/ast1/document.rs:317-324. -/
def evalArgs (rec : Str → Res (List Chunk)) : List ScopeBuf → Res (List (Str × Scope))
  | [] => .ok []
  | (content, variant, preceding) :: r =>
    match rec content with
    | .error f => .error f
    | .ok chunks =>
      match evalArgs rec r with
      | .error f => .error f
      | .ok args => .ok ((preceding, .mk chunks variant) :: args)

/-- `fn flush`, src/ast1/document.rs:278-337. Returns the extended `chunks`; the buffer itself is
always overwritten by the callers before it is read again, so its emptied value is not returned.
Note line 307: the scope variant stored is always `Curly`. -/
def flush (rec : Str → Res (List Chunk)) (buffer : Buffer) (bufferLine : Nat)
    (chunks : List Chunk) : Res (List Chunk) :=
  match buffer with
  | .text content =>
    if content.isEmpty then .ok chunks
    else .ok (chunks ++ [.mk bufferLine (.text content)])
  | .scope content variant depth =>
    if depth ≠ 0 then fail 1 (.unclosedScope variant)
    else
      match rec content with
      | .error f => .error f
      | .ok inner => .ok (chunks ++ [.mk bufferLine (.scope (.mk inner .curly))])
  | .command label scopes depth _ =>
    if depth ≠ 0 then
      match scopes.getLast? with
      | some (_, v, _) => fail 1 (.unclosedArgument v)
      | none => panicked
    else
      match evalArgs rec scopes with
      | .error f => .error f
      | .ok args => .ok (chunks ++ [.mk bufferLine (.command (.mk label args))])

/-- Loop variables of `from_str`, src/ast1/document.rs:260-275. -/
structure State where
  chunks : List Chunk
  lineNo : Nat
  escaped : Bool
  comment : Bool
  bufferLine : Nat
  buffer : Buffer

/-- Initial values, src/ast1/document.rs:260-275. -/
def State.init : State := ⟨[], 1, false, false, 1, .text []⟩

/-- The `flush!` macro, src/ast1/document.rs:340-351: flush, shifting error lines by
`buffer_line_no - 1`, then `buffer_line_no = line_no`. -/
def flushM (rec : Str → Res (List Chunk)) (s : State) : Res State :=
  match flush rec s.buffer s.bufferLine s.chunks with
  | .ok chunks => .ok { s with chunks := chunks, bufferLine := s.lineNo }
  | .error f =>
    match checkedSub s.bufferLine 1 with
    | .error p => .error p
    | .ok k => addLine k (.error f)

/-- `buffer = Buffer::command(); buffer.push(c); if !c.is_ascii_alphabetic() { flush!(); buffer =
Buffer::text(); }`, src/ast1/document.rs:375-381 and 437-442. -/
def startCommand (rec : Str → Res (List Chunk)) (s : State) (c : Char) : Res State :=
  let s := { s with buffer := Buffer.newCommand.push c }
  if isAsciiAlphabetic c then .ok s
  else
    match flushM rec s with
    | .error f => .error f
    | .ok s => .ok { s with buffer := Buffer.newText }

/-- The `Buffer::Text` arm, src/ast1/document.rs:372-388. -/
def stepText (rec : Str → Res (List Chunk)) (s : State) (c : Char) : Res State :=
  if s.escaped then
    match flushM rec s with
    | .error f => .error f
    | .ok s => startCommand rec s c
  else
    match ScopeVariant.fromOpening c with
    | some v =>
      match flushM rec s with
      | .error f => .error f
      | .ok s => .ok { s with buffer := Buffer.newScope v }
    | none => .ok { s with buffer := s.buffer.push c }

/-- The `Buffer::Scope` arm, src/ast1/document.rs:389-408. -/
def stepScope (rec : Str → Res (List Chunk)) (s : State) (content : Str) (variant : ScopeVariant)
    (depth : Nat) (c : Char) : Res State :=
  if depth ≠ 0 ∧ s.escaped = true then
    .ok { s with buffer := (s.buffer.push '\\').push c }
  else if variant.opening = c then
    .ok { s with buffer := (Buffer.scope content variant (depth + 1)).push c }
  else if variant.closing = c then
    match checkedSub depth 1 with
    | .error p => .error p
    | .ok d =>
      if d = 0 then
        match flushM rec { s with buffer := .scope content variant d } with
        | .error f => .error f
        | .ok s => .ok { s with buffer := Buffer.newText }
      else .ok { s with buffer := (Buffer.scope content variant d).push c }
  else .ok { s with buffer := s.buffer.push c }

/-- The `Buffer::Command` arm, src/ast1/document.rs:409-472, guards in source order. -/
def stepCommand (rec : Str → Res (List Chunk)) (s : State) (label : Str) (scopes : List ScopeBuf)
    (depth : Nat) (trailing : Str) (c : Char) : Res State :=
  if depth = 0 ∧ ScopeVariant.isOpening c = true then                                   -- 415
    match ScopeVariant.fromOpening c with
    | some v => .ok { s with buffer := Buffer.pushScope label scopes trailing v }
    | none => panicked
  else if depth = 0 ∧ isWhitespace c = true then                                        -- 418
    .ok { s with buffer := .command label scopes depth (trailing ++ [c]) }
  else if depth = 0 ∧ s.escaped = true then                                             -- 419
    match flushM rec s with
    | .error f => .error f
    | .ok s =>
      let pushed : Res State :=
        if trailing.isEmpty then .ok s
        else
          match checkedSub s.bufferLine (newlines trailing) with
          | .error p => .error p
          | .ok line =>
            match flush rec (Buffer.newText.pushStr trailing) line s.chunks with
            | .error f => .error f
            | .ok chunks => .ok { s with chunks := chunks }
      match pushed with
      | .error f => .error f
      | .ok s => startCommand rec { s with bufferLine := s.lineNo } c
  else if depth ≠ 0 ∧ s.escaped = true then                                             -- 444
    .ok { s with buffer := (s.buffer.push '\\').push c }
  else if depth = 0 ∧ trailing.isEmpty = false then                                     -- 448
    match flushM rec s with
    | .error f => .error f
    | .ok s =>
      match checkedSub s.lineNo (newlines trailing) with
      | .error p => .error p
      | .ok line =>
        .ok { s with buffer := (Buffer.newText.pushStr trailing).push c, bufferLine := line }
  else
    match (if depth ≠ 0 then scopes.getLast? else none) with
    | some (_, v, _) =>
      if v.opening = c then                                                             -- 458
        .ok { s with buffer := .command label scopes (depth + 1) trailing }
      else if v.closing = c then                                                        -- 459
        .ok { s with buffer := .command label scopes (depth - 1) trailing }
      else .ok { s with buffer := s.buffer.push c }                                     -- 471
    | none =>
      if depth ≠ 0 then panicked                                                        -- 458 unwrap
      else
        match ScopeVariant.fromClosing c with
        | some v => fail s.lineNo (.unexpectedClosing v)                                -- 460
        | none =>
          if scopes.isEmpty then .ok { s with buffer := s.buffer.push c }               -- 471
          else                                                                          -- 466
            match flushM rec s with
            | .error f => .error f
            | .ok s => .ok { s with buffer := Buffer.newText.push c }

/-- `match &mut buffer { .. }` and `escaped = false`, src/ast1/document.rs:371-475. -/
def stepBuffer (rec : Str → Res (List Chunk)) (s : State) (c : Char) : Res State :=
  let r :=
    match s.buffer with
    | .text _ => stepText rec s c
    | .scope content variant depth => stepScope rec s content variant depth c
    | .command label scopes depth trailing => stepCommand rec s label scopes depth trailing c
  match r with
  | .error f => .error f
  | .ok s => .ok { s with escaped := false }

/-- One iteration of `for c in s.chars()`, src/ast1/document.rs:353-476; the first `match c`
(lines 354-369) decides between falling through to the buffer and `continue`. -/
def step (rec : Str → Res (List Chunk)) (s : State) (c : Char) : Res State :=
  if c = '\n' then
    stepBuffer rec { s with comment := false, lineNo := s.lineNo + 1 } c
  else if c = '%' ∧ s.escaped = false then .ok { s with comment := true }
  else if c = '\\' ∧ s.escaped = false then .ok { s with escaped := true }
  else if s.comment then .ok s
  else stepBuffer rec s c

/-- The whole `for` loop. -/
def run (rec : Str → Res (List Chunk)) : Str → State → Res State
  | [], s => .ok s
  | c :: cs, s =>
    match step rec s c with
    | .error f => .error f
    | .ok s => run rec cs s

/-- After the loop, src/ast1/document.rs:478-494. -/
def finish (rec : Str → Res (List Chunk)) (s : State) : Res (List Chunk) :=
  match s.buffer with
  | .command _ _ _ trailing =>
    if trailing.isEmpty then
      match flushM rec s with
      | .error f => .error f
      | .ok s => .ok s.chunks
    else
      match flushM rec s with
      | .error f => .error f
      | .ok s =>
        match flushM rec { s with buffer := Buffer.newText.pushStr trailing } with
        | .error f => .error f
        | .ok s => .ok s.chunks
  | _ =>
    match flushM rec s with
    | .error f => .error f
    | .ok s => .ok s.chunks

/-- `from_str` with an explicit bound on the recursion depth. -/
def parseFuel : Nat → Str → Res (List Chunk)
  | 0, _ => .error .fuel
  | n + 1, s =>
    match run (parseFuel n) s State.init with
    | .error f => .error f
    | .ok st => finish (parseFuel n) st

/-- `<ast1::Document as FromStr>::from_str`, src/ast1/document.rs:256-496. The recursion depth is
bounded by the length of the input (every recursive call is on a strictly shorter string);
`Verif.Props` proves that the bound is never the reason for failing. -/
def fromStr (s : Str) : Res Document := parseFuel (s.length + 1) s

end LatexAst.Ast1
