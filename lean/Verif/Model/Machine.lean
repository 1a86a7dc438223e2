import Verif.Model.Parser1

/-!
# The stage-1 parser with machine integers

`Model/Parser1.lean` computes line numbers and depths as natural numbers, and treats a subtraction below zero as a
panic. The Rust code computes with `u32`: an overflow panics in a debug build and wraps around in a release build.
This is the same parser with the arithmetic as a parameter. `Props/Machine.lean` proves that it makes no difference
for sources of less than 2^32 - 1 characters.
-/

namespace LatexAst

/-- `u32::MAX + 1`. -/
def u32Size : Nat := 4294967296

/-- `i32::MAX + 1`. -/
def i32Size : Nat := 2147483648

/-- How `u32` additions and subtractions and `i32` additions behave; they are exact if the result is a `u32`, a
non-negative `i32`. A negative `i32` is represented by its bit pattern. -/
structure Arith where
  add : Nat → Nat → Res Nat
  sub : Nat → Nat → Res Nat
  addI : Nat → Nat → Res Nat
  add_exact : ∀ a b, a + b < u32Size → add a b = .ok (a + b)
  sub_exact : ∀ a b, b ≤ a → a < u32Size → sub a b = .ok (a - b)
  addI_exact : ∀ a b, a + b < i32Size → addI a b = .ok (a + b)

/-- A debug build: overflow panics. -/
def Arith.debug : Arith where
  add a b := if a + b < u32Size then .ok (a + b) else panicked
  sub a b := if b ≤ a then .ok (a - b) else panicked
  addI a b := if a + b < i32Size then .ok (a + b) else panicked
  add_exact a b h := by simp [h]
  sub_exact a b h _ := by simp [h]
  addI_exact a b h := by simp [h]

/-- A release build: overflow wraps around. -/
def Arith.release : Arith where
  add a b := .ok ((a + b) % u32Size)
  sub a b := .ok ((a + (u32Size - b % u32Size)) % u32Size)
  addI a b := .ok ((a + b) % u32Size)
  add_exact a b h := by simp [Nat.mod_eq_of_lt h]
  sub_exact a b h h' := by
    have hb : b % u32Size = b := Nat.mod_eq_of_lt (by omega)
    rw [hb, show a + (u32Size - b) = (a - b) + u32Size by omega, Nat.add_mod_right, Nat.mod_eq_of_lt (by omega)]
  addI_exact a b h := by
    rw [Nat.mod_eq_of_lt (by simp only [i32Size] at h; simp only [u32Size]; omega)]

/-- `n as u32` for a `usize`. -/
def asU32 (n : Nat) : Nat := n % u32Size

/-- `x.map_err(|mut e| { e.line += k; e })`. -/
def addLineA (A : Arith) {α : Type} (k : Nat) : Res α → Res α
  | .ok a => .ok a
  | .error (.err e) =>
    match A.add e.line k with
    | .error f => .error f
    | .ok l => .error (.err ⟨l, e.type⟩)
  | .error .panic => .error .panic
  | .error .fuel => .error .fuel

namespace Ast1

/-- The `flush!` macro, src/ast1/document.rs:340-351. -/
def flushMA (A : Arith) (rec : Str → Res (List Chunk)) (s : State) : Res State :=
  match flush rec s.buffer s.bufferLine s.chunks with
  | .ok chunks => .ok { s with chunks := chunks, bufferLine := s.lineNo }
  | .error f =>
    match A.sub s.bufferLine 1 with
    | .error p => .error p
    | .ok k => addLineA A k (.error f)

/-- src/ast1/document.rs:375-381 and 437-442. -/
def startCommandA (A : Arith) (rec : Str → Res (List Chunk)) (s : State) (c : Char) : Res State :=
  let s := { s with buffer := Buffer.newCommand.push c }
  if isAsciiAlphabetic c then .ok s
  else
    match flushMA A rec s with
    | .error f => .error f
    | .ok s => .ok { s with buffer := Buffer.newText }

/-- src/ast1/document.rs:372-388. -/
def stepTextA (A : Arith) (rec : Str → Res (List Chunk)) (s : State) (c : Char) : Res State :=
  if s.escaped then
    match flushMA A rec s with
    | .error f => .error f
    | .ok s => startCommandA A rec s c
  else
    match ScopeVariant.fromOpening c with
    | some v =>
      match flushMA A rec s with
      | .error f => .error f
      | .ok s => .ok { s with buffer := Buffer.newScope v }
    | none => .ok { s with buffer := s.buffer.push c }

/-- src/ast1/document.rs:389-408. -/
def stepScopeA (A : Arith) (rec : Str → Res (List Chunk)) (s : State) (content : Str) (variant : ScopeVariant)
    (depth : Nat) (c : Char) : Res State :=
  if depth ≠ 0 ∧ s.escaped = true then
    .ok { s with buffer := (s.buffer.push '\\').push c }
  else if variant.opening = c then
    match A.add depth 1 with
    | .error p => .error p
    | .ok d => .ok { s with buffer := (Buffer.scope content variant d).push c }
  else if variant.closing = c then
    match A.sub depth 1 with
    | .error p => .error p
    | .ok d =>
      if d = 0 then
        match flushMA A rec { s with buffer := .scope content variant d } with
        | .error f => .error f
        | .ok s => .ok { s with buffer := Buffer.newText }
      else .ok { s with buffer := (Buffer.scope content variant d).push c }
  else .ok { s with buffer := s.buffer.push c }

/-- src/ast1/document.rs:409-472. -/
def stepCommandA (A : Arith) (rec : Str → Res (List Chunk)) (s : State) (label : Str) (scopes : List ScopeBuf)
    (depth : Nat) (trailing : Str) (c : Char) : Res State :=
  if depth = 0 ∧ ScopeVariant.isOpening c = true then                                   -- 415
    match ScopeVariant.fromOpening c with
    | some v => .ok { s with buffer := Buffer.pushScope label scopes trailing v }
    | none => panicked
  else if depth = 0 ∧ isWhitespace c = true then                                        -- 418
    .ok { s with buffer := .command label scopes depth (trailing ++ [c]) }
  else if depth = 0 ∧ s.escaped = true then                                             -- 419
    match flushMA A rec s with
    | .error f => .error f
    | .ok s =>
      let pushed : Res State :=
        if trailing.isEmpty then .ok s
        else
          match A.sub s.bufferLine (asU32 (newlines trailing)) with
          | .error p => .error p
          | .ok line =>
            match flush rec (Buffer.newText.pushStr trailing) line s.chunks with
            | .error f => .error f
            | .ok chunks => .ok { s with chunks := chunks }
      match pushed with
      | .error f => .error f
      | .ok s => startCommandA A rec { s with bufferLine := s.lineNo } c
  else if depth ≠ 0 ∧ s.escaped = true then                                             -- 444
    .ok { s with buffer := (s.buffer.push '\\').push c }
  else if depth = 0 ∧ trailing.isEmpty = false then                                     -- 448
    match flushMA A rec s with
    | .error f => .error f
    | .ok s =>
      match A.sub s.lineNo (asU32 (newlines trailing)) with
      | .error p => .error p
      | .ok line =>
        .ok { s with buffer := (Buffer.newText.pushStr trailing).push c, bufferLine := line }
  else
    match (if depth ≠ 0 then scopes.getLast? else none) with
    | some (_, v, _) =>
      if v.opening = c then                                                             -- 458
        match A.add depth 1 with
        | .error p => .error p
        | .ok d => .ok { s with buffer := .command label scopes d trailing }
      else if v.closing = c then                                                        -- 459
        match A.sub depth 1 with
        | .error p => .error p
        | .ok d => .ok { s with buffer := .command label scopes d trailing }
      else .ok { s with buffer := s.buffer.push c }                                     -- 471
    | none =>
      if depth ≠ 0 then panicked                                                        -- 458 unwrap
      else
        match ScopeVariant.fromClosing c with
        | some v => fail s.lineNo (.unexpectedClosing v)                                -- 460
        | none =>
          if scopes.isEmpty then .ok { s with buffer := s.buffer.push c }               -- 471
          else                                                                          -- 466
            match flushMA A rec s with
            | .error f => .error f
            | .ok s => .ok { s with buffer := Buffer.newText.push c }

/-- src/ast1/document.rs:371-475. -/
def stepBufferA (A : Arith) (rec : Str → Res (List Chunk)) (s : State) (c : Char) : Res State :=
  let r :=
    match s.buffer with
    | .text _ => stepTextA A rec s c
    | .scope content variant depth => stepScopeA A rec s content variant depth c
    | .command label scopes depth trailing => stepCommandA A rec s label scopes depth trailing c
  match r with
  | .error f => .error f
  | .ok s => .ok { s with escaped := false }

/-- src/ast1/document.rs:353-476. -/
def stepA (A : Arith) (rec : Str → Res (List Chunk)) (s : State) (c : Char) : Res State :=
  if c = '\n' then
    match A.add s.lineNo 1 with
    | .error p => .error p
    | .ok n => stepBufferA A rec { s with comment := false, lineNo := n } c
  else if c = '%' ∧ s.escaped = false then .ok { s with comment := true }
  else if c = '\\' ∧ s.escaped = false then .ok { s with escaped := true }
  else if s.comment then .ok s
  else stepBufferA A rec s c

/-- The whole `for` loop. -/
def runA (A : Arith) (rec : Str → Res (List Chunk)) : Str → State → Res State
  | [], s => .ok s
  | c :: cs, s =>
    match stepA A rec s c with
    | .error f => .error f
    | .ok s => runA A rec cs s

/-- src/ast1/document.rs:478-494. -/
def finishA (A : Arith) (rec : Str → Res (List Chunk)) (s : State) : Res (List Chunk) :=
  match s.buffer with
  | .command _ _ _ trailing =>
    if trailing.isEmpty then
      match flushMA A rec s with
      | .error f => .error f
      | .ok s => .ok s.chunks
    else
      match flushMA A rec s with
      | .error f => .error f
      | .ok s =>
        match flushMA A rec { s with buffer := Buffer.newText.pushStr trailing } with
        | .error f => .error f
        | .ok s => .ok s.chunks
  | _ =>
    match flushMA A rec s with
    | .error f => .error f
    | .ok s => .ok s.chunks

/-- `from_str` with an explicit bound on the recursion depth. -/
def parseFuelA (A : Arith) : Nat → Str → Res (List Chunk)
  | 0, _ => .error .fuel
  | n + 1, s =>
    match runA A (parseFuelA A n) s State.init with
    | .error f => .error f
    | .ok st => finishA A (parseFuelA A n) st

/-- `<ast1::Document as FromStr>::from_str`, src/ast1/document.rs:256-496, with machine integers. -/
def fromStrA (A : Arith) (s : Str) : Res Document := parseFuelA A (s.length + 1) s

end Ast1
end LatexAst
