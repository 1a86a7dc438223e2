import Verif.Model.Ast2

/-!
# Stage 1 → stage 2: `TryFrom<ast1::Document> for ast2::Document`

Models src/ast2/document.rs:95-101, 197-373, src/ast2/scope.rs:105-115, src/ast2/command.rs:79-93.
`rec` is the recursive call of `Document::try_from` on a chunk vector.
-/

namespace LatexAst.Ast2

/-- src/ast2/scope.rs:105-115. -/
def convScope (rec : List Ast1.Chunk → Res (List Chunk)) : Ast1.Scope → Res Scope
  | .mk chunks v =>
    match rec chunks with
    | .error f => .error f
    | .ok cs => .ok (.mk cs v)

/-- The loops of src/ast2/command.rs:87-89 and src/ast2/document.rs:334-336. -/
def convArgs (rec : List Ast1.Chunk → Res (List Chunk)) :
    List (Str × Ast1.Scope) → Res (List (Str × Scope))
  | [] => .ok []
  | (prec, sc) :: r =>
    match convScope rec sc with
    | .error f => .error f
    | .ok s =>
      match convArgs rec r with
      | .error f => .error f
      | .ok args => .ok ((prec, s) :: args)

/-- src/ast2/command.rs:79-93. -/
def convCommand (rec : List Ast1.Chunk → Res (List Chunk)) : Ast1.Command → Res Command
  | .mk label args =>
    match convArgs rec args with
    | .error f => .error f
    | .ok args => .ok (.mk label args)

/-- Loop variables, src/ast2/document.rs:201-207. `stack` is `buffer_stack` (top = last). -/
structure State where
  chunks : List Chunk
  stack : List (List Ast1.Chunk)
  bufferStart : Nat
  envArgs : List (Str × Ast1.Scope)
  buffer : List Ast1.Chunk
  precBegin : Str

/-- src/ast2/document.rs:201-207. -/
def State.init : State := ⟨[], [], 0, [], [], []⟩

/-- `push_chunks!`, src/ast2/document.rs:212-216. -/
def State.pushChunks (s : State) (lineNo : Nat) (v : ChunkVariant) : State :=
  { s with chunks := s.chunks ++ [.mk lineNo v] }

/-- `push_buffer!`, src/ast2/document.rs:218-222: `line_no - buffer_start + 1` (panics on
underflow). -/
def State.pushBuffer (s : State) (lineNo : Nat) (v : Ast1.ChunkVariant) : Res State :=
  match checkedSub lineNo s.bufferStart with
  | .error p => .error p
  | .ok k => .ok { s with buffer := s.buffer ++ [.mk (k + 1) v] }

/-- `c.arguments().iter().map(|(prec, arg)| lines(prec) + lines(&arg.to_string())).sum()`,
src/ast2/document.rs:292-296. -/
def argNewlines : List (Str × Ast1.Scope) → Nat
  | [] => 0
  | (prec, arg) :: r => (newlines prec + newlines arg.display) + argNewlines r

/-- The `"begin"` arm, src/ast2/document.rs:279-303 (`first` = `c.arguments().first().unwrap()`,
`rest` = the arguments after it). -/
def stepBegin (s : State) (lineNo : Nat) (first : Str × Ast1.Scope)
    (rest : List (Str × Ast1.Scope)) : Res State :=
  let stack := s.stack ++ [first.2.chunks]
  if stack.length = 1 then
    .ok { s with
      stack := stack
      bufferStart := lineNo + argNewlines (first :: rest)
      precBegin := first.1
      envArgs := rest }
  else
    State.pushBuffer { s with stack := stack } lineNo (.command (.mk chars!"begin" (first :: rest)))

/-- `buffer_stack.last() == Some(label)`, the guard of src/ast2/document.rs:304-306. -/
def topIs (stack : List (List Ast1.Chunk)) (label : List Ast1.Chunk) : Bool :=
  match stack.getLast? with
  | some top => Ast1.beqChunks top label
  | none => false

/-- The two `"end"` arms, src/ast2/document.rs:304-355. -/
def stepEnd (rec : List Ast1.Chunk → Res (List Chunk)) (s : State) (lineNo : Nat)
    (first : Str × Ast1.Scope) (rest : List (Str × Ast1.Scope)) : Res State :=
  if topIs s.stack first.2.chunks = false then                                          -- 304-317
    fail lineNo (.unexpectedEnd (Ast1.displayChunks first.2.chunks))
  else if (first :: rest).length > 1 then fail lineNo .tooManyArgsEnd                   -- 319-324
  else
    let s := { s with stack := s.stack.dropLast }
    if s.stack.isEmpty then
      match convArgs rec s.envArgs with                                                 -- 334-336
      | .error f => .error f
      | .ok args =>
        match addLine s.bufferStart (rec s.buffer) with                                 -- 344-346
        | .error f => .error f
        | .ok content =>
          .ok { s with
            chunks := s.chunks ++ [.mk s.bufferStart (.environment
              (.mk (Ast1.displayChunks first.2.chunks) args content s.precBegin first.1))]
            envArgs := []
            buffer := []
            precBegin := [] }
    else State.pushBuffer s lineNo (.command (.mk chars!"end" (first :: rest)))

/-- One iteration of the loop, src/ast2/document.rs:209-360. -/
def step (rec : List Ast1.Chunk → Res (List Chunk)) (s : State) : Ast1.Chunk → Res State
  | .mk lineNo v =>
    match v with
    | .text str =>
      if s.stack.isEmpty then .ok (s.pushChunks lineNo (.text str))
      else s.pushBuffer lineNo (.text str)
    | .scope sc =>
      if s.stack.isEmpty then
        match addLine lineNo (convScope rec sc) with
        | .error f => .error f
        | .ok sc => .ok (s.pushChunks lineNo (.scope sc))
      else s.pushBuffer lineNo (.scope sc)
    | .command c =>
      if ¬ (c.label = chars!"begin" ∨ c.label = chars!"end") then                       -- 258-265
        if s.stack.isEmpty then
          match convCommand rec c with
          | .error f => .error f
          | .ok c => .ok (s.pushChunks lineNo (.command c))
        else s.pushBuffer lineNo (.command c)
      else
        match c.arguments with
        | [] => fail lineNo .noEnvironmentLabel                                         -- 267-276
        | first :: rest =>
          if first.2.variant ≠ .curly then fail lineNo .noEnvironmentLabel
          else if c.label = chars!"begin" then stepBegin s lineNo first rest
          else stepEnd rec s lineNo first rest

/-- The whole loop. -/
def run (rec : List Ast1.Chunk → Res (List Chunk)) : List Ast1.Chunk → State → Res State
  | [], s => .ok s
  | c :: cs, s =>
    match step rec s c with
    | .error f => .error f
    | .ok s => run rec cs s

/-- After the loop, src/ast2/document.rs:362-371. -/
def finish (s : State) : Res (List Chunk) :=
  match s.stack with
  | label :: _ => fail s.bufferStart (.unclosedEnvironment (Ast1.displayChunks label))
  | [] => .ok s.chunks

/-- `Document::try_from` with an explicit bound on the recursion depth. -/
def convFuel : Nat → List Ast1.Chunk → Res (List Chunk)
  | 0, _ => .error .fuel
  | n + 1, cs =>
    match run (convFuel n) cs State.init with
    | .error f => .error f
    | .ok s => finish s

mutual
/-- Node count, used only as the recursion bound. -/
def sizeChunk : Ast1.Chunk → Nat
  | .mk _ v => sizeVariant v + 1
/-- Node count. -/
def sizeVariant : Ast1.ChunkVariant → Nat
  | .text _ => 1
  | .command c => sizeCommand c + 1
  | .scope sc => sizeScope sc + 1
/-- Node count. -/
def sizeCommand : Ast1.Command → Nat
  | .mk _ args => sizeArgs args + 1
/-- Node count. -/
def sizeScope : Ast1.Scope → Nat
  | .mk cs _ => sizeChunks cs + 1
/-- Node count. -/
def sizeChunks : List Ast1.Chunk → Nat
  | [] => 0
  | c :: cs => sizeChunk c + sizeChunks cs
/-- Node count. -/
def sizeArgs : List (Str × Ast1.Scope) → Nat
  | [] => 0
  | (_, sc) :: r => sizeScope sc + sizeArgs r
end

/-- `TryFrom<ast1::Document> for ast2::Document`, src/ast2/document.rs:197-373. -/
def tryFrom (d : Ast1.Document) : Res Document := convFuel (sizeChunks d + 1) d

/-- `<ast2::Document as FromStr>::from_str`, src/ast2/document.rs:95-101. -/
def fromStr (s : Str) : Res Document :=
  match Ast1.fromStr s with
  | .error f => .error f
  | .ok d => tryFrom d

end LatexAst.Ast2
