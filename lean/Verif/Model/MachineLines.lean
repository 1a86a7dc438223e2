import Verif.Model.Machine
import Verif.Model.Ast3

/-!
# `lines()` with machine integers

The line counts of `Model/Ast1.lean`, `Model/Ast2.lean` and `Model/Ast3.lean` with the `u32` arithmetic as a parameter,
as in `Model/Machine.lean`, in the order the code adds.
-/

namespace LatexAst.Ast1

mutual
/-- src/ast1/chunk.rs:73-77. -/
def Chunk.linesA (A : Arith) : Chunk → Res Nat
  | .mk _ v => v.linesA A
/-- src/ast1/chunkvariant.rs:51-59. -/
def ChunkVariant.linesA (A : Arith) : ChunkVariant → Res Nat
  | .text s => A.add (asU32 (newlines s)) 1
  | .command c => c.linesA A
  | .scope sc => sc.linesA A
/-- src/ast1/command.rs:100-111. -/
def Command.linesA (A : Arith) : Command → Res Nat
  | .mk label args =>
    match linesArgsA A (asU32 (newlines label)) args with
    | .error f => .error f
    | .ok total => A.add total 1
/-- src/ast1/scope.rs:81-89. -/
def Scope.linesA (A : Arith) : Scope → Res Nat
  | .mk chunks _ =>
    match linesSumA A 0 chunks with
    | .error f => .error f
    | .ok total => A.add total 1
/-- `.map(|chunk| chunk.lines() - 1).sum::<u32>()`, and `for chunk in .. { lines += chunk.lines() - 1 }`, from `acc`. -/
def linesSumA (A : Arith) (acc : Nat) : List Chunk → Res Nat
  | [] => .ok acc
  | c :: cs =>
    match c.linesA A with
    | .error f => .error f
    | .ok l =>
      match A.sub l 1 with
      | .error f => .error f
      | .ok l1 =>
        match A.add acc l1 with
        | .error f => .error f
        | .ok acc => linesSumA A acc cs
/-- The loops over arguments: `total += lines of prec; total += arg.lines() - 1`, from `acc`. -/
def linesArgsA (A : Arith) (acc : Nat) : List (Str × Scope) → Res Nat
  | [] => .ok acc
  | (prec, sc) :: r =>
    match A.add acc (asU32 (newlines prec)) with
    | .error f => .error f
    | .ok acc =>
      match sc.linesA A with
      | .error f => .error f
      | .ok l =>
        match A.sub l 1 with
        | .error f => .error f
        | .ok l1 =>
          match A.add acc l1 with
          | .error f => .error f
          | .ok acc => linesArgsA A acc r
end

/-- src/ast1/document.rs:54-58 and 66-70: `last.line_no() + last.lines() - 1`. -/
def nextLineA (A : Arith) (d : List Chunk) : Res Nat :=
  match d.getLast? with
  | some last =>
    match last.linesA A with
    | .error f => .error f
    | .ok n =>
      match A.add last.lineNo n with
      | .error f => .error f
      | .ok k => A.sub k 1
  | none => .ok 1

/-- src/ast1/document.rs:133-141. -/
def Document.linesA (A : Arith) (d : Document) : Res Nat :=
  match linesSumA A 0 d with
  | .error f => .error f
  | .ok total => A.add total 1

/-- The loop of src/ast1/document.rs:113-130; the outer result says whether the arithmetic panicked. -/
def validateFromA (A : Arith) : Nat → List Chunk → Res (Except InternalError Unit)
  | _, [] => .ok (.ok ())
  | expected, c :: cs =>
    if c.lineNo ≠ expected then .ok (.error (.incorrectChunkLineNumber expected c.lineNo))
    else match c.validate with
      | .error e => .ok (.error e)
      | .ok () =>
        match c.linesA A with
        | .error f => .error f
        | .ok l =>
          match A.sub l 1 with
          | .error f => .error f
          | .ok l1 =>
            match A.add expected l1 with
            | .error f => .error f
            | .ok expected => validateFromA A expected cs

/-- src/ast1/document.rs:112-131. -/
def Document.validateA (A : Arith) (d : Document) : Res (Except InternalError Unit) := validateFromA A 1 d

end LatexAst.Ast1

namespace LatexAst.Ast2

mutual
/-- src/ast2/chunk.rs:109-113. -/
def Chunk.linesA (A : Arith) : Chunk → Res Nat
  | .mk _ v => v.linesA A
/-- src/ast2/chunkvariant.rs:58-67. -/
def ChunkVariant.linesA (A : Arith) : ChunkVariant → Res Nat
  | .text s => A.add (asU32 (newlines s)) 1
  | .command c => c.linesA A
  | .scope sc => sc.linesA A
  | .environment e => e.linesA A
/-- src/ast2/command.rs:122-133. -/
def Command.linesA (A : Arith) : Command → Res Nat
  | .mk label args =>
    match linesArgsA A (asU32 (newlines label)) args with
    | .error f => .error f
    | .ok total => A.add total 1
/-- src/ast2/scope.rs:61-69. -/
def Scope.linesA (A : Arith) : Scope → Res Nat
  | .mk chunks _ =>
    match linesSumA A 0 chunks with
    | .error f => .error f
    | .ok total => A.add total 1
/-- src/ast2/environment.rs:119-140 (`n * 2` overflows exactly when `n + n` does, with the same result). -/
def Environment.linesA (A : Arith) : Environment → Res Nat
  | .mk label args content precBegin precEnd =>
    match A.add (asU32 (newlines label)) (asU32 (newlines label)) with
    | .error f => .error f
    | .ok l2 =>
      match A.add l2 (asU32 (newlines (precBegin ++ precEnd))) with
      | .error f => .error f
      | .ok l3 =>
        match linesArgsA A l3 args with
        | .error f => .error f
        | .ok l4 =>
          match linesSumA A l4 content with
          | .error f => .error f
          | .ok l5 => A.add l5 1
/-- `.map(|chunk| chunk.lines() - 1).sum::<u32>()`, and `for chunk in .. { lines += chunk.lines() - 1 }`, from `acc`. -/
def linesSumA (A : Arith) (acc : Nat) : List Chunk → Res Nat
  | [] => .ok acc
  | c :: cs =>
    match c.linesA A with
    | .error f => .error f
    | .ok l =>
      match A.sub l 1 with
      | .error f => .error f
      | .ok l1 =>
        match A.add acc l1 with
        | .error f => .error f
        | .ok acc => linesSumA A acc cs
/-- The loops over arguments: `total += lines of prec; total += arg.lines() - 1`, from `acc`. -/
def linesArgsA (A : Arith) (acc : Nat) : List (Str × Scope) → Res Nat
  | [] => .ok acc
  | (prec, sc) :: r =>
    match A.add acc (asU32 (newlines prec)) with
    | .error f => .error f
    | .ok acc =>
      match sc.linesA A with
      | .error f => .error f
      | .ok l =>
        match A.sub l 1 with
        | .error f => .error f
        | .ok l1 =>
          match A.add acc l1 with
          | .error f => .error f
          | .ok acc => linesArgsA A acc r
end

/-- src/ast2/document.rs:51-55 and 63-67: `last.line_no() + last.lines() - 1`. -/
def nextLineA (A : Arith) (d : List Chunk) : Res Nat :=
  match d.getLast? with
  | some last =>
    match last.linesA A with
    | .error f => .error f
    | .ok n =>
      match A.add last.lineNo n with
      | .error f => .error f
      | .ok k => A.sub k 1
  | none => .ok 1

/-- src/ast2/document.rs:130-138. -/
def Document.linesA (A : Arith) (d : Document) : Res Nat :=
  match linesSumA A 0 d with
  | .error f => .error f
  | .ok total => A.add total 1

/-- The loop of src/ast2/document.rs:109-128; the outer result says whether the arithmetic panicked. -/
def validateFromA (A : Arith) : Nat → List Chunk → Res (Except InternalError Unit)
  | _, [] => .ok (.ok ())
  | expected, c :: cs =>
    if c.lineNo ≠ expected then .ok (.error (.incorrectChunkLineNumber expected c.lineNo))
    else match c.validate with
      | .error e => .ok (.error e)
      | .ok () =>
        match c.linesA A with
        | .error f => .error f
        | .ok l =>
          match A.sub l 1 with
          | .error f => .error f
          | .ok l1 =>
            match A.add expected l1 with
            | .error f => .error f
            | .ok expected => validateFromA A expected cs

/-- src/ast2/document.rs:109-128. -/
def Document.validateA (A : Arith) (d : Document) : Res (Except InternalError Unit) := validateFromA A 1 d

end LatexAst.Ast2

namespace LatexAst.Ast3

mutual
/-- src/ast3/chunk.rs:68-72. -/
def Chunk.linesA (A : Arith) : Chunk → Res Nat
  | .mk _ v => v.linesA A
/-- src/ast3/chunkvariant.rs:78-90. -/
def ChunkVariant.linesA (A : Arith) : ChunkVariant → Res Nat
  | .text s => A.add (asU32 (newlines s)) 1
  | .paragraphBreak s => A.add (asU32 (newlines s)) 1
  | .command c => c.linesA A
  | .scope sc => sc.linesA A
  | .environment e => e.linesA A
  | .mathsBlock m => m.linesA A
/-- src/ast3/command.rs:107-118. -/
def Command.linesA (A : Arith) : Command → Res Nat
  | .mk label args =>
    match linesArgsA A (asU32 (newlines label)) args with
    | .error f => .error f
    | .ok total => A.add total 1
/-- src/ast3/scope.rs:80-88. -/
def Scope.linesA (A : Arith) : Scope → Res Nat
  | .mk chunks _ =>
    match linesSumA A 0 chunks with
    | .error f => .error f
    | .ok total => A.add total 1
/-- src/ast3/environment.rs:130-151 (`n * 2` overflows exactly when `n + n` does, with the same result). -/
def Environment.linesA (A : Arith) : Environment → Res Nat
  | .mk label args content precBegin precEnd =>
    match A.add (asU32 (newlines label)) (asU32 (newlines label)) with
    | .error f => .error f
    | .ok l2 =>
      match A.add l2 (asU32 (newlines (precBegin ++ precEnd))) with
      | .error f => .error f
      | .ok l3 =>
        match linesArgsA A l3 args with
        | .error f => .error f
        | .ok l4 =>
          match linesSumA A l4 content with
          | .error f => .error f
          | .ok l5 => A.add l5 1
/-- src/ast3/mathsblock.rs:54-62. -/
def MathsBlock.linesA (A : Arith) : MathsBlock → Res Nat
  | .mk _ _ content =>
    match linesSumA A 0 content with
    | .error f => .error f
    | .ok total => A.add total 1
/-- `.map(|chunk| chunk.lines() - 1).sum::<u32>()`, and `for chunk in .. { lines += chunk.lines() - 1 }`, from `acc`. -/
def linesSumA (A : Arith) (acc : Nat) : List Chunk → Res Nat
  | [] => .ok acc
  | c :: cs =>
    match c.linesA A with
    | .error f => .error f
    | .ok l =>
      match A.sub l 1 with
      | .error f => .error f
      | .ok l1 =>
        match A.add acc l1 with
        | .error f => .error f
        | .ok acc => linesSumA A acc cs
/-- The loops over arguments: `total += lines of prec; total += arg.lines() - 1`, from `acc`. -/
def linesArgsA (A : Arith) (acc : Nat) : List (Str × Scope) → Res Nat
  | [] => .ok acc
  | (prec, sc) :: r =>
    match A.add acc (asU32 (newlines prec)) with
    | .error f => .error f
    | .ok acc =>
      match sc.linesA A with
      | .error f => .error f
      | .ok l =>
        match A.sub l 1 with
        | .error f => .error f
        | .ok l1 =>
          match A.add acc l1 with
          | .error f => .error f
          | .ok acc => linesArgsA A acc r
end

/-- src/ast3/document.rs:152-155 and 170-173: `last.line_no() + last.lines() - 1`. -/
def nextLineA (A : Arith) (d : List Chunk) : Res Nat :=
  match d.getLast? with
  | some last =>
    match last.linesA A with
    | .error f => .error f
    | .ok n =>
      match A.add last.lineNo n with
      | .error f => .error f
      | .ok k => A.sub k 1
  | none => .ok 1

/-- src/ast3/document.rs:56-66. -/
def Document.linesA (A : Arith) (d : Document) : Res Nat :=
  match linesSumA A 0 (d.preamable ++ (d.body ++ d.trailing)) with
  | .error f => .error f
  | .ok total => A.add total 1

/-- The inner loop of src/ast3/document.rs:38-49; the outer result says whether the arithmetic panicked. -/
def validateFromA (A : Arith) : Nat → List Chunk → Res (Except InternalError Unit)
  | _, [] => .ok (.ok ())
  | expected, c :: cs =>
    if c.lineNo ≠ expected then .ok (.error (.incorrectChunkLineNumber expected c.lineNo))
    else match c.validate with
      | .error e => .ok (.error e)
      | .ok () =>
        match c.linesA A with
        | .error f => .error f
        | .ok l =>
          match A.sub l 1 with
          | .error f => .error f
          | .ok l1 =>
            match A.add expected l1 with
            | .error f => .error f
            | .ok expected => validateFromA A expected cs

/-- src/ast3/document.rs:33-54. (The `i32` counter of newlines in a paragraph break, src/ast3/chunkvariant.rs:51-67, is
kept a natural number.) -/
def Document.validateA (A : Arith) (d : Document) : Res (Except InternalError Unit) :=
  match validateFromA A 1 d.preamable with
  | .error f => .error f
  | .ok (.error e) => .ok (.error e)
  | .ok (.ok ()) =>
    match validateFromA A 1 d.body with
    | .error f => .error f
    | .ok (.error e) => .ok (.error e)
    | .ok (.ok ()) => validateFromA A 1 d.trailing

end LatexAst.Ast3
