import Verif.Model.Parser1

/-!
# The stage-1 parser with a step counter

The parser of `Model/Parser1.lean` once more, arm by arm, with a counter: every call of `from_str` counts one, and
so does every iteration of its loop over characters. `Props/Cost.lean` proves that the answers are those of
`Model/Parser1.lean`. (Everything else the code does in an iteration is pushing a character, moving a buffer into the
result, or, once per buffer, counting the newlines of what follows a command; all of it is proportional to
the characters read since the last such event.)
-/

namespace LatexAst

/-- A result and a number of steps. -/
abbrev Counted (α : Type) := Res α × Nat

/-- `?`: on an error stop, with the steps so far; otherwise go on and add the steps. -/
def Counted.andThen {α β : Type} (x : Counted α) (f : α → Counted β) : Counted β :=
  match x with
  | (.error e, k) => (.error e, k)
  | (.ok a, k) => ((f a).1, k + (f a).2)

/-- No steps. -/
def free {α : Type} (r : Res α) : Counted α := (r, 0)

namespace Ast1

/-- The argument loop of src/ast1/document.rs:317-324. -/
def evalArgsN (rec : Str → Counted (List Chunk)) : List ScopeBuf → Counted (List (Str × Scope))
  | [] => free (.ok [])
  | (content, variant, preceding) :: r =>
    (rec content).andThen fun chunks => (evalArgsN rec r).andThen fun args =>
      free (.ok ((preceding, .mk chunks variant) :: args))

/-- `fn flush`, src/ast1/document.rs:278-337. -/
def flushN (rec : Str → Counted (List Chunk)) (buffer : Buffer) (bufferLine : Nat)
    (chunks : List Chunk) : Counted (List Chunk) :=
  match buffer with
  | .text content =>
    if content.isEmpty then free (.ok chunks)
    else free (.ok (chunks ++ [.mk bufferLine (.text content)]))
  | .scope content variant depth =>
    if depth ≠ 0 then free (fail 1 (.unclosedScope variant))
    else (rec content).andThen fun inner => free (.ok (chunks ++ [.mk bufferLine (.scope (.mk inner .curly))]))
  | .command label scopes depth _ =>
    if depth ≠ 0 then
      match scopes.getLast? with
      | some (_, v, _) => free (fail 1 (.unclosedArgument v))
      | none => free panicked
    else (evalArgsN rec scopes).andThen fun args => free (.ok (chunks ++ [.mk bufferLine (.command (.mk label args))]))

/-- The `flush!` macro, src/ast1/document.rs:340-351. -/
def flushMN (rec : Str → Counted (List Chunk)) (s : State) : Counted State :=
  match flushN rec s.buffer s.bufferLine s.chunks with
  | (.ok chunks, k) => (.ok { s with chunks := chunks, bufferLine := s.lineNo }, k)
  | (.error f, k) =>
    match checkedSub s.bufferLine 1 with
    | .error p => (.error p, k)
    | .ok j => (addLine j (.error f), k)

/-- src/ast1/document.rs:375-381 and 437-442. -/
def startCommandN (rec : Str → Counted (List Chunk)) (s : State) (c : Char) : Counted State :=
  let s := { s with buffer := Buffer.newCommand.push c }
  if isAsciiAlphabetic c then free (.ok s)
  else (flushMN rec s).andThen fun s => free (.ok { s with buffer := Buffer.newText })

/-- The `Buffer::Text` arm, src/ast1/document.rs:372-388. -/
def stepTextN (rec : Str → Counted (List Chunk)) (s : State) (c : Char) : Counted State :=
  if s.escaped then (flushMN rec s).andThen fun s => startCommandN rec s c
  else
    match ScopeVariant.fromOpening c with
    | some v => (flushMN rec s).andThen fun s => free (.ok { s with buffer := Buffer.newScope v })
    | none => free (.ok { s with buffer := s.buffer.push c })

/-- The `Buffer::Scope` arm, src/ast1/document.rs:389-408. -/
def stepScopeN (rec : Str → Counted (List Chunk)) (s : State) (content : Str) (variant : ScopeVariant)
    (depth : Nat) (c : Char) : Counted State :=
  if depth ≠ 0 ∧ s.escaped = true then
    free (.ok { s with buffer := (s.buffer.push '\\').push c })
  else if variant.opening = c then
    free (.ok { s with buffer := (Buffer.scope content variant (depth + 1)).push c })
  else if variant.closing = c then
    (free (checkedSub depth 1)).andThen fun d =>
      if d = 0 then
        (flushMN rec { s with buffer := .scope content variant d }).andThen fun s =>
          free (.ok { s with buffer := Buffer.newText })
      else free (.ok { s with buffer := (Buffer.scope content variant d).push c })
  else free (.ok { s with buffer := s.buffer.push c })

/-- The `Buffer::Command` arm, src/ast1/document.rs:409-472, guards in source order. -/
def stepCommandN (rec : Str → Counted (List Chunk)) (s : State) (label : Str) (scopes : List ScopeBuf)
    (depth : Nat) (trailing : Str) (c : Char) : Counted State :=
  if depth = 0 ∧ ScopeVariant.isOpening c = true then                                   -- 415
    match ScopeVariant.fromOpening c with
    | some v => free (.ok { s with buffer := Buffer.pushScope label scopes trailing v })
    | none => free panicked
  else if depth = 0 ∧ isWhitespace c = true then                                        -- 418
    free (.ok { s with buffer := .command label scopes depth (trailing ++ [c]) })
  else if depth = 0 ∧ s.escaped = true then                                             -- 419
    (flushMN rec s).andThen fun s =>
      (if trailing.isEmpty then free (.ok s)
        else (free (checkedSub s.bufferLine (newlines trailing))).andThen fun line =>
          (flushN rec (Buffer.newText.pushStr trailing) line s.chunks).andThen fun chunks =>
            free (.ok { s with chunks := chunks })).andThen fun s =>
      startCommandN rec { s with bufferLine := s.lineNo } c
  else if depth ≠ 0 ∧ s.escaped = true then                                             -- 444
    free (.ok { s with buffer := (s.buffer.push '\\').push c })
  else if depth = 0 ∧ trailing.isEmpty = false then                                     -- 448
    (flushMN rec s).andThen fun s =>
      (free (checkedSub s.lineNo (newlines trailing))).andThen fun line =>
        free (.ok { s with buffer := (Buffer.newText.pushStr trailing).push c, bufferLine := line })
  else
    match (if depth ≠ 0 then scopes.getLast? else none) with
    | some (_, v, _) =>
      if v.opening = c then                                                             -- 458
        free (.ok { s with buffer := .command label scopes (depth + 1) trailing })
      else if v.closing = c then                                                        -- 459
        free (.ok { s with buffer := .command label scopes (depth - 1) trailing })
      else free (.ok { s with buffer := s.buffer.push c })                              -- 471
    | none =>
      if depth ≠ 0 then free panicked                                                   -- 458 unwrap
      else
        match ScopeVariant.fromClosing c with
        | some v => free (fail s.lineNo (.unexpectedClosing v))                         -- 460
        | none =>
          if scopes.isEmpty then free (.ok { s with buffer := s.buffer.push c })        -- 471
          else                                                                          -- 466
            (flushMN rec s).andThen fun s => free (.ok { s with buffer := Buffer.newText.push c })

/-- src/ast1/document.rs:371-475. -/
def stepBufferN (rec : Str → Counted (List Chunk)) (s : State) (c : Char) : Counted State :=
  (match s.buffer with
    | .text _ => stepTextN rec s c
    | .scope content variant depth => stepScopeN rec s content variant depth c
    | .command label scopes depth trailing => stepCommandN rec s label scopes depth trailing c).andThen fun s =>
  free (.ok { s with escaped := false })

/-- One iteration of `for c in s.chars()`, src/ast1/document.rs:353-476, without counting itself. -/
def stepN (rec : Str → Counted (List Chunk)) (s : State) (c : Char) : Counted State :=
  if c = '\n' then
    stepBufferN rec { s with comment := false, lineNo := s.lineNo + 1 } c
  else if c = '%' ∧ s.escaped = false then free (.ok { s with comment := true })
  else if c = '\\' ∧ s.escaped = false then free (.ok { s with escaped := true })
  else if s.comment then free (.ok s)
  else stepBufferN rec s c

/-- The whole `for` loop; every iteration counts one. -/
def runN (rec : Str → Counted (List Chunk)) : Str → State → Counted State
  | [], s => free (.ok s)
  | c :: cs, s =>
    let r := (stepN rec s c).andThen fun s => runN rec cs s
    (r.1, 1 + r.2)

/-- After the loop, src/ast1/document.rs:478-494. -/
def finishN (rec : Str → Counted (List Chunk)) (s : State) : Counted (List Chunk) :=
  match s.buffer with
  | .command _ _ _ trailing =>
    if trailing.isEmpty then (flushMN rec s).andThen fun s => free (.ok s.chunks)
    else
      (flushMN rec s).andThen fun s =>
        (flushMN rec { s with buffer := Buffer.newText.pushStr trailing }).andThen fun s => free (.ok s.chunks)
  | _ => (flushMN rec s).andThen fun s => free (.ok s.chunks)

/-- `from_str` with an explicit bound on the recursion depth; every call counts one. -/
def parseFuelN : Nat → Str → Counted (List Chunk)
  | 0, _ => free (.error .fuel)
  | n + 1, s =>
    let r := (runN (parseFuelN n) s State.init).andThen fun st => finishN (parseFuelN n) st
    (r.1, 1 + r.2)

/-- `<ast1::Document as FromStr>::from_str`, src/ast1/document.rs:256-496, with the number of its steps. -/
def fromStrN (s : Str) : Counted Document := parseFuelN (s.length + 1) s

end Ast1
end LatexAst
