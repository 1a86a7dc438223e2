import Verif.Model.Machine
import Verif.Model.Conv2

/-!
# Stage 2 with machine integers

`Model/Conv2.lean` with the `u32` arithmetic as a parameter, as in `Model/Machine.lean`. What does not compute with
line numbers (`convScope`, `convArgs`, `convCommand`, `topIs`, `finish`) is shared.
-/

namespace LatexAst.Ast2

/-- `push_buffer!`, src/ast2/document.rs:218-222: `line_no - buffer_start + 1`. -/
def State.pushBufferA (A : Arith) (s : State) (lineNo : Nat) (v : Ast1.ChunkVariant) : Res State :=
  match A.sub lineNo s.bufferStart with
  | .error p => .error p
  | .ok k =>
    match A.add k 1 with
    | .error p => .error p
    | .ok l => .ok { s with buffer := s.buffer ++ [.mk l v] }

/-- The `"begin"` arm, src/ast2/document.rs:279-303; the sum is a `usize` converted with `as u32`. -/
def stepBeginA (A : Arith) (s : State) (lineNo : Nat) (first : Str × Ast1.Scope)
    (rest : List (Str × Ast1.Scope)) : Res State :=
  let stack := s.stack ++ [first.2.chunks]
  if stack.length = 1 then
    match A.add lineNo (asU32 (argNewlines (first :: rest))) with
    | .error p => .error p
    | .ok start =>
      .ok { s with
        stack := stack
        bufferStart := start
        precBegin := first.1
        envArgs := rest }
  else
    State.pushBufferA A { s with stack := stack } lineNo (.command (.mk chars!"begin" (first :: rest)))

/-- The two `"end"` arms, src/ast2/document.rs:304-355. -/
def stepEndA (A : Arith) (rec : List Ast1.Chunk → Res (List Chunk)) (s : State) (lineNo : Nat)
    (first : Str × Ast1.Scope) (rest : List (Str × Ast1.Scope)) : Res State :=
  if topIs s.stack first.2.chunks = false then
    fail lineNo (.unexpectedEnd (Ast1.displayChunks first.2.chunks))
  else if (first :: rest).length > 1 then fail lineNo .tooManyArgsEnd
  else
    let s := { s with stack := s.stack.dropLast }
    if s.stack.isEmpty then
      match convArgs rec s.envArgs with
      | .error f => .error f
      | .ok args =>
        match addLineA A s.bufferStart (rec s.buffer) with
        | .error f => .error f
        | .ok content =>
          .ok { s with
            chunks := s.chunks ++ [.mk s.bufferStart (.environment
              (.mk (Ast1.displayChunks first.2.chunks) args content s.precBegin first.1))]
            envArgs := []
            buffer := []
            precBegin := [] }
    else State.pushBufferA A s lineNo (.command (.mk chars!"end" (first :: rest)))

/-- One iteration of the loop, src/ast2/document.rs:209-360. -/
def stepA (A : Arith) (rec : List Ast1.Chunk → Res (List Chunk)) (s : State) : Ast1.Chunk → Res State
  | .mk lineNo v =>
    match v with
    | .text str =>
      if s.stack.isEmpty then .ok (s.pushChunks lineNo (.text str))
      else s.pushBufferA A lineNo (.text str)
    | .scope sc =>
      if s.stack.isEmpty then
        match addLineA A lineNo (convScope rec sc) with
        | .error f => .error f
        | .ok sc => .ok (s.pushChunks lineNo (.scope sc))
      else s.pushBufferA A lineNo (.scope sc)
    | .command c =>
      if ¬ (c.label = chars!"begin" ∨ c.label = chars!"end") then
        if s.stack.isEmpty then
          match convCommand rec c with
          | .error f => .error f
          | .ok c => .ok (s.pushChunks lineNo (.command c))
        else s.pushBufferA A lineNo (.command c)
      else
        match c.arguments with
        | [] => fail lineNo .noEnvironmentLabel
        | first :: rest =>
          if first.2.variant ≠ .curly then fail lineNo .noEnvironmentLabel
          else if c.label = chars!"begin" then stepBeginA A s lineNo first rest
          else stepEndA A rec s lineNo first rest

/-- The whole loop. -/
def runA (A : Arith) (rec : List Ast1.Chunk → Res (List Chunk)) : List Ast1.Chunk → State → Res State
  | [], s => .ok s
  | c :: cs, s =>
    match stepA A rec s c with
    | .error f => .error f
    | .ok s => runA A rec cs s

/-- `Document::try_from` with an explicit bound on the recursion depth. -/
def convFuelA (A : Arith) : Nat → List Ast1.Chunk → Res (List Chunk)
  | 0, _ => .error .fuel
  | n + 1, cs =>
    match runA A (convFuelA A n) cs State.init with
    | .error f => .error f
    | .ok s => finish s

/-- `TryFrom<ast1::Document> for ast2::Document`, src/ast2/document.rs:197-373, with machine integers. -/
def tryFromA (A : Arith) (d : Ast1.Document) : Res Document := convFuelA A (sizeChunks d + 1) d

/-- `<ast2::Document as FromStr>::from_str`, src/ast2/document.rs:95-101, with machine integers. -/
def fromStrA (A : Arith) (s : Str) : Res Document :=
  match Ast1.fromStrA A s with
  | .error f => .error f
  | .ok d => tryFromA A d

end LatexAst.Ast2
