import Verif.Model.MachineLines
import Verif.Model.Back

/-!
# The conversions back with machine integers

`Model/Back.lean` with the `u32` arithmetic as a parameter, as in `Model/Machine.lean`, in the order the code computes.
-/

namespace LatexAst.Ast2

mutual
/-- src/ast2/chunk.rs:30-101 for a chunk with line number `line` and the given variant. -/
def intoVariantA (A : Arith) (line : Nat) : ChunkVariant → Res (List Ast1.Chunk)
  | .text s => .ok [.mk line (.text s)]
  | .scope sc =>
    match intoScopeA A sc with
    | .error f => .error f
    | .ok sc => .ok [.mk line (.scope sc)]
  | .command c =>
    match intoCommandA A c with
    | .error f => .error f
    | .ok c => .ok [.mk line (.command c)]
  | .environment e => intoEnvironmentA A line e
/-- src/ast1/command.rs:113-124. -/
def intoCommandA (A : Arith) : Command → Res Ast1.Command
  | .mk label args =>
    match intoArgsA A args with
    | .error f => .error f
    | .ok args => .ok (.mk label args)
/-- src/ast2/scope.rs:38-49. -/
def intoScopeA (A : Arith) : Scope → Res Ast1.Scope
  | .mk chunks v =>
    match intoChunksA A none chunks with
    | .error f => .error f
    | .ok cs => .ok (.mk cs v)
/-- The environment arm, src/ast2/chunk.rs:38-97; the newlines are added as `usize` and converted with `as u32`. -/
def intoEnvironmentA (A : Arith) (line : Nat) : Environment → Res (List Ast1.Chunk)
  | .mk label args content precBegin precEnd =>
    match A.add line (asU32 (newlines precBegin + newlines label + newlines (displayChunks content) +
        argNewlines2 args)) with
    | .error f => .error f
    | .ok endLine =>
      match Ast1.fromStrA A label with
      | .error .fuel => .error .fuel
      | .error _ => panicked
      | .ok labelChunks =>
        match intoArgsA A args with
        | .error f => .error f
        | .ok args' =>
          match intoChunksA A (some line) content with
          | .error f => .error f
          | .ok content' =>
            .ok ([.mk line (.command (.mk chars!"begin" ((precBegin, .mk labelChunks .curly) :: args')))] ++
                 (content' ++ [.mk endLine (.command (.mk chars!"end" [(precEnd, .mk labelChunks .curly)]))]))
/-- `.flat_map(Chunk::into_chunks)` for `none`, and for `some line`
`.flat_map(|mut chunk| { chunk.line_no += line - 1; chunk.into_chunks() })`. -/
def intoChunksA (A : Arith) (base : Option Nat) : List Chunk → Res (List Ast1.Chunk)
  | [] => .ok []
  | .mk l v :: cs =>
    match (match base with
      | none => .ok l
      | some line =>
        match A.sub line 1 with
        | .error f => .error f
        | .ok k => A.add l k : Res Nat) with
    | .error f => .error f
    | .ok l' =>
      match intoVariantA A l' v with
      | .error f => .error f
      | .ok xs =>
        match intoChunksA A base cs with
        | .error f => .error f
        | .ok ys => .ok (xs ++ ys)
/-- `.map(|(s, sc)| (s, sc.to_ast1_scope()))`. -/
def intoArgsA (A : Arith) : List (Str × Scope) → Res (List (Str × Ast1.Scope))
  | [] => .ok []
  | (prec, sc) :: r =>
    match intoScopeA A sc with
    | .error f => .error f
    | .ok s =>
      match intoArgsA A r with
      | .error f => .error f
      | .ok args => .ok ((prec, s) :: args)
end

/-- The loop of `From<ast2::Document> for ast1::Document`, src/ast1/document.rs:147-149. -/
def toAst1LoopA (A : Arith) : List Chunk → Ast1.Document → Res Ast1.Document
  | [], out => .ok out
  | .mk l v :: cs, out =>
    match intoVariantA A l v with
    | .error f => .error f
    | .ok xs => toAst1LoopA A cs (xs.foldl Ast1.Document.pushChunkUnchecked out)

/-- `From<ast2::Document> for ast1::Document`, src/ast1/document.rs:143-153. -/
def toAst1A (A : Arith) (d : Document) : Res Ast1.Document := toAst1LoopA A d []

end LatexAst.Ast2

namespace LatexAst.Ast3

/-- `.map(|mut chunk| { *chunk.line_no_mut() += k; chunk })`, where `k` is computed anew for every chunk;
src/ast3/chunk.rs:91-98, src/ast2/document.rs:159-166 and 184-191. -/
def shiftChunksA (A : Arith) (k : Res Nat) : List Ast2.Chunk → Res (List Ast2.Chunk)
  | [] => .ok []
  | .mk l v :: cs =>
    match k with
    | .error f => .error f
    | .ok k' =>
      match A.add l k' with
      | .error f => .error f
      | .ok l' =>
        match shiftChunksA A k cs with
        | .error f => .error f
        | .ok cs => .ok (.mk l' v :: cs)

mutual
/-- src/ast3/chunk.rs:74-109 for a chunk with line number `line`. -/
def intoVariantA (A : Arith) (line : Nat) : ChunkVariant → Res (List Ast2.Chunk)
  | .text s => .ok [.mk line (.text s)]
  | .paragraphBreak s => .ok [.mk line (.text s)]
  | .scope sc =>
    match intoScopeA A sc with
    | .error f => .error f
    | .ok sc => .ok [.mk line (.scope sc)]
  | .command c =>
    match intoCommandA A c with
    | .error f => .error f
    | .ok c => .ok [.mk line (.command c)]
  | .environment e =>
    match intoEnvironmentA A e with
    | .error f => .error f
    | .ok e => .ok [.mk line (.environment e)]
  | .mathsBlock m =>
    match intoMathsA A m with
    | .error f => .error f
    | .ok cs => shiftChunksA A (A.sub line 1) cs
/-- src/ast2/command.rs:135-146. -/
def intoCommandA (A : Arith) : Command → Res Ast2.Command
  | .mk label args =>
    match intoArgsA A args with
    | .error f => .error f
    | .ok args => .ok (.mk label args)
/-- src/ast2/scope.rs:117-128. -/
def intoScopeA (A : Arith) : Scope → Res Ast2.Scope
  | .mk chunks v =>
    match intoChunksA A chunks with
    | .error f => .error f
    | .ok cs => .ok (.mk cs v)
/-- src/ast2/environment.rs:160-178. -/
def intoEnvironmentA (A : Arith) : Environment → Res Ast2.Environment
  | .mk label args content precBegin precEnd =>
    match intoArgsA A args with
    | .error f => .error f
    | .ok args =>
      match intoChunksA A content with
      | .error f => .error f
      | .ok content => .ok (.mk label args content precBegin precEnd)
/-- src/ast3/mathsblock.rs:315-400; `let lines = self.lines()` comes first. -/
def intoMathsA (A : Arith) : MathsBlock → Res (List Ast2.Chunk)
  | .mk v t content =>
    match (MathsBlock.mk v t content).linesA A with
    | .error f => .error f
    | .ok lines =>
      match intoChunksA A content with
      | .error f => .error f
      | .ok cs => .ok (wrapMaths v t lines cs)
/-- `.flat_map(Chunk::into_chunks)`. -/
def intoChunksA (A : Arith) : List Chunk → Res (List Ast2.Chunk)
  | [] => .ok []
  | .mk l v :: cs =>
    match intoVariantA A l v with
    | .error f => .error f
    | .ok xs =>
      match intoChunksA A cs with
      | .error f => .error f
      | .ok ys => .ok (xs ++ ys)
/-- `.map(|(s, sc)| (s, sc.into()))`. -/
def intoArgsA (A : Arith) : List (Str × Scope) → Res (List (Str × Ast2.Scope))
  | [] => .ok []
  | (prec, sc) :: r =>
    match intoScopeA A sc with
    | .error f => .error f
    | .ok s =>
      match intoArgsA A r with
      | .error f => .error f
      | .ok args => .ok ((prec, s) :: args)
end

/-- `body_args.iter().map(|(s, arg)| s.chars().filter(..).count() as u32 + arg.lines() - 1).sum::<u32>()`, from `acc`;
src/ast2/document.rs:153-156. -/
def bodyArgLinesA (A : Arith) (acc : Nat) : List (Str × Scope) → Res Nat
  | [] => .ok acc
  | (prec, sc) :: r =>
    match sc.linesA A with
    | .error f => .error f
    | .ok l =>
      match A.add (asU32 (newlines prec)) l with
      | .error f => .error f
      | .ok k =>
        match A.sub k 1 with
        | .error f => .error f
        | .ok k =>
          match A.add acc k with
          | .error f => .error f
          | .ok acc => bodyArgLinesA A acc r

/-- `From<ast3::Document> for ast2::Document`, src/ast2/document.rs:140-195. -/
def toAst2A (A : Arith) (d : Document) : Res Ast2.Document :=
  match intoChunksA A d.preamable with
  | .error f => .error f
  | .ok preamable =>
    match Ast2.linesSumA A 0 preamable with
    | .error f => .error f
    | .ok premLines =>
      match bodyArgLinesA A 0 d.bodyArgs with
      | .error f => .error f
      | .ok argLines =>
        match A.add argLines (asU32 (newlines d.bodyBeginPrec)) with
        | .error f => .error f
        | .ok bodyOffset =>
          match intoChunksA A d.body with
          | .error f => .error f
          | .ok body =>
            match shiftChunksA A (.ok bodyOffset) body with
            | .error f => .error f
            | .ok body =>
              match intoArgsA A d.bodyArgs with
              | .error f => .error f
              | .ok bodyArgs =>
                let bodyChunk : Ast2.Chunk := .mk premLines (.environment
                  (.mk chars!"document" bodyArgs body d.bodyBeginPrec d.bodyEndPrec))
                match bodyChunk.linesA A with
                | .error f => .error f
                | .ok bodyLines =>
                  match A.add bodyLines premLines with
                  | .error f => .error f
                  | .ok sum =>
                    match A.sub sum 2 with
                    | .error f => .error f
                    | .ok trailingOffset =>
                      match intoChunksA A d.trailing with
                      | .error f => .error f
                      | .ok trailing =>
                        match shiftChunksA A (.ok trailingOffset) trailing with
                        | .error f => .error f
                        | .ok trailing =>
                          .ok (trailing.foldl Ast2.Document.pushChunkUnchecked
                            (Ast2.Document.pushChunkUnchecked preamable bodyChunk))

end LatexAst.Ast3
