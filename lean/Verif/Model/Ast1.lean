import Verif.Model.Basic

/-!
# Stage 1 data types: display, line counts, validation, pushing

Models src/ast1/{chunk,chunkvariant,command,scope,document}.rs, except `FromStr`
(see `Verif.Model.Parser1`) and the conversions from stage 2 (see `Verif.Model.Back`).
A Rust `&mut self` method becomes a function returning the new value.
Getters, `decompose`, `*_owned` and `new_unchecked` are the constructors/projections themselves.
-/

namespace LatexAst.Ast1

mutual
/-- src/ast1/chunk.rs:17-20. -/
inductive Chunk where
  | mk (lineNo : Nat) (variant : ChunkVariant)
/-- src/ast1/chunkvariant.rs:11-18. -/
inductive ChunkVariant where
  | text (s : Str)
  | command (c : Command)
  | scope (sc : Scope)
/-- src/ast1/command.rs:16-23. -/
inductive Command where
  | mk (label : Str) (arguments : List (Str × Scope))
/-- src/ast1/scope.rs:17-20. -/
inductive Scope where
  | mk (chunks : List Chunk) (variant : ScopeVariant)
end

/-- src/ast1/document.rs:20: `Document(Vec<Chunk>)`. -/
abbrev Document := List Chunk

/-- src/ast1/chunk.rs:36-38. -/
def Chunk.lineNo : Chunk → Nat
  | .mk l _ => l
/-- src/ast1/chunk.rs:41-43. -/
def Chunk.variant : Chunk → ChunkVariant
  | .mk _ v => v
/-- src/ast1/command.rs:39-41. -/
def Command.label : Command → Str
  | .mk l _ => l
/-- src/ast1/command.rs:44-46. -/
def Command.arguments : Command → List (Str × Scope)
  | .mk _ a => a
/-- src/ast1/scope.rs:36-38. -/
def Scope.chunks : Scope → List Chunk
  | .mk c _ => c
/-- src/ast1/scope.rs:46-48. -/
def Scope.variant : Scope → ScopeVariant
  | .mk _ v => v

/-! ## Display -/

mutual
/-- src/ast1/chunk.rs:61-65. -/
def Chunk.display : Chunk → Str
  | .mk _ v => v.display
/-- src/ast1/chunkvariant.rs:20-28. -/
def ChunkVariant.display : ChunkVariant → Str
  | .text s => s
  | .scope sc => sc.display
  | .command c => c.display
/-- src/ast1/command.rs:64-77. -/
def Command.display : Command → Str
  | .mk label args => '\\' :: (label ++ displayArgs args)
/-- src/ast1/scope.rs:56-69. -/
def Scope.display : Scope → Str
  | .mk chunks v => v.opening :: (displayChunks chunks ++ [v.closing])
/-- `chunks.iter().map(ToString::to_string).collect::<String>()`, src/ast1/scope.rs:61-65 and
src/ast1/document.rs:106-110 (`Display for Document`). -/
def displayChunks : List Chunk → Str
  | [] => []
  | c :: cs => c.display ++ displayChunks cs
/-- the fold in src/ast1/command.rs:69-74. -/
def displayArgs : List (Str × Scope) → Str
  | [] => []
  | (prec, sc) :: r => prec ++ (sc.display ++ displayArgs r)
end

/-! ## Lines -/

mutual
/-- src/ast1/chunk.rs:73-77. -/
def Chunk.lines : Chunk → Nat
  | .mk _ v => v.lines
/-- src/ast1/chunkvariant.rs:51-59. -/
def ChunkVariant.lines : ChunkVariant → Nat
  | .text s => newlines s + 1
  | .command c => c.lines
  | .scope sc => sc.lines
/-- src/ast1/command.rs:100-111. -/
def Command.lines : Command → Nat
  | .mk label args => newlines label + linesArgs args + 1
/-- src/ast1/scope.rs:81-89. -/
def Scope.lines : Scope → Nat
  | .mk chunks _ => linesSum chunks + 1
/-- `.iter().map(|chunk| chunk.lines() - 1).sum::<u32>()`. The natural subtraction cannot
underflow: `lines` is always a successor (see `Chunk.lines_pos`). -/
def linesSum : List Chunk → Nat
  | [] => 0
  | c :: cs => (c.lines - 1) + linesSum cs
/-- the loop src/ast1/command.rs:104-107. -/
def linesArgs : List (Str × Scope) → Nat
  | [] => 0
  | (prec, sc) :: r => newlines prec + (sc.lines - 1) + linesArgs r
end

/-- src/ast1/document.rs:133-141. -/
def Document.lines (d : Document) : Nat := linesSum d + 1

/-! ## Validate -/

/-- The per-character check `matches!(c, '\\' | '%') || is_opening(c) || is_closing(c)`,
src/ast1/chunkvariant.rs:35-37 (also ast1/command.rs:83-85, ast2 and ast3). -/
def isSpecial (c : Char) : Bool :=
  (c == '\\' || c == '%') || ScopeVariant.isOpening c || ScopeVariant.isClosing c

/-- `for c in s.chars() { if special(c) { return Err(UnsanitisedCharInString(c)) } }`,
src/ast1/chunkvariant.rs:34-41. -/
def checkSanitised : Str → Except InternalError Unit
  | [] => .ok ()
  | c :: cs => if isSpecial c then .error (.unsanitisedCharInString c) else checkSanitised cs

mutual
/-- src/ast1/chunk.rs:67-71. -/
def Chunk.validate : Chunk → Except InternalError Unit
  | .mk _ v => v.validate
/-- src/ast1/chunkvariant.rs:30-49. -/
def ChunkVariant.validate : ChunkVariant → Except InternalError Unit
  | .text s => checkSanitised s
  | .command c => c.validate
  | .scope sc => sc.validate
/-- src/ast1/command.rs:79-98. -/
def Command.validate : Command → Except InternalError Unit
  | .mk label args =>
    match (if byteLen label ≠ 1 then checkSanitised label else .ok ()) with
    | .error e => .error e
    | .ok () => validateArgs args
/-- src/ast1/scope.rs:71-79. -/
def Scope.validate : Scope → Except InternalError Unit
  | .mk chunks _ => validateChunks chunks
/-- `for chunk in self.chunks.iter() { chunk.validate()? }`. -/
def validateChunks : List Chunk → Except InternalError Unit
  | [] => .ok ()
  | c :: cs =>
    match c.validate with
    | .error e => .error e
    | .ok () => validateChunks cs
/-- `for (_, arg) in self.arguments.iter() { arg.validate()? }`. -/
def validateArgs : List (Str × Scope) → Except InternalError Unit
  | [] => .ok ()
  | (_, sc) :: r =>
    match sc.validate with
    | .error e => .error e
    | .ok () => validateArgs r
end

/-- The loop of src/ast1/document.rs:113-130, from a given `expected_line`. -/
def Document.validateFrom : Nat → List Chunk → Except InternalError Unit
  | _, [] => .ok ()
  | expected, c :: cs =>
    if c.lineNo ≠ expected then .error (.incorrectChunkLineNumber expected c.lineNo)
    else match c.validate with
      | .error e => .error e
      | .ok () => Document.validateFrom (expected + (c.lines - 1)) cs

/-- src/ast1/document.rs:112-131. -/
def Document.validate (d : Document) : Except InternalError Unit := Document.validateFrom 1 d

/-! ## Checked constructors -/

/-- src/ast1/chunk.rs:24-28. -/
def Chunk.new (lineNo : Nat) (v : ChunkVariant) : Except InternalError Chunk :=
  match v.validate with
  | .error e => .error e
  | .ok () => .ok (.mk lineNo v)
/-- src/ast1/command.rs:27-31. -/
def Command.new (label : Str) (args : List (Str × Scope)) : Except InternalError Command :=
  match (Command.mk label args).validate with
  | .error e => .error e
  | .ok () => .ok (.mk label args)
/-- src/ast1/scope.rs:24-28. -/
def Scope.new (chunks : List Chunk) (v : ScopeVariant) : Except InternalError Scope :=
  match (Scope.mk chunks v).validate with
  | .error e => .error e
  | .ok () => .ok (.mk chunks v)
/-- src/ast1/document.rs:34-38. -/
def Document.new (chunks : List Chunk) : Except InternalError Document :=
  match Document.validate chunks with
  | .error e => .error e
  | .ok () => .ok chunks

/-! ## Pushing -/

/-- `self.chunks().last().map(|last| last.line_no() + last.lines() - 1).unwrap_or(1)`,
src/ast1/document.rs:54-58 and 66-70. -/
def Document.nextLine (d : Document) : Nat :=
  match d.getLast? with
  | some last => last.lineNo + last.lines - 1
  | none => 1

/-- src/ast1/document.rs:84-95: merge a text chunk into a preceding text chunk, else append. -/
def Document.pushChunkUnchecked (d : Document) (chunk : Chunk) : Document :=
  match chunk.variant with
  | .text s =>
    match d.getLast? with
    | some (.mk l (.text lastS)) => d.dropLast ++ [.mk l (.text (lastS ++ s))]
    | _ => d ++ [chunk]
  | _ => d ++ [chunk]

/-- src/ast1/document.rs:53-60. -/
def Document.pushUnchecked (d : Document) (v : ChunkVariant) : Document :=
  Document.pushChunkUnchecked d (.mk (Document.nextLine d) v)

/-- src/ast1/document.rs:46-50. The pair is (returned `Result`, document afterwards). -/
def Document.push (d : Document) (v : ChunkVariant) : Except InternalError Unit × Document :=
  match v.validate with
  | .error e => (.error e, d)
  | .ok () => (.ok (), Document.pushUnchecked d v)

/-- src/ast1/document.rs:63-81. -/
def Document.pushChunk (d : Document) (chunk : Chunk) : Except InternalError Unit × Document :=
  match chunk.validate with
  | .error e => (.error e, d)
  | .ok () =>
    if Document.nextLine d ≠ chunk.lineNo then
      (.error (.incorrectChunkLineNumber (Document.nextLine d) chunk.lineNo), d)
    else (.ok (), Document.pushChunkUnchecked d chunk)

/-! ## Derived equality (`#[derive(PartialEq)]`) -/

mutual
/-- src/ast1/chunk.rs:16 (`derive(PartialEq)`). -/
def Chunk.beq : Chunk → Chunk → Bool
  | .mk l v, .mk l' v' => l == l' && v.beq v'
/-- src/ast1/chunkvariant.rs:10 (`derive(PartialEq)`). -/
def ChunkVariant.beq : ChunkVariant → ChunkVariant → Bool
  | .text s, .text s' => s == s'
  | .command c, .command c' => c.beq c'
  | .scope s, .scope s' => s.beq s'
  | _, _ => false
/-- src/ast1/command.rs:15 (`derive(PartialEq)`). -/
def Command.beq : Command → Command → Bool
  | .mk l a, .mk l' a' => l == l' && beqArgs a a'
/-- src/ast1/scope.rs:15 (`derive(PartialEq)`). -/
def Scope.beq : Scope → Scope → Bool
  | .mk c v, .mk c' v' => beqChunks c c' && v == v'
/-- `Vec<Chunk>` equality. -/
def beqChunks : List Chunk → List Chunk → Bool
  | [], [] => true
  | c :: cs, c' :: cs' => c.beq c' && beqChunks cs cs'
  | _, _ => false
/-- `Vec<(String, Scope)>` equality. -/
def beqArgs : List (Str × Scope) → List (Str × Scope) → Bool
  | [], [] => true
  | (p, s) :: r, (p', s') :: r' => p == p' && (s.beq s' && beqArgs r r')
  | _, _ => false
end

end LatexAst.Ast1
