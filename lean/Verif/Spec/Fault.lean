import Verif.Spec.Conversion

/-!
# Specification: where the first environment problem of a stage-1 document is

`Fault d q k n t`: the first problem of `d` is of type `t`. The text `q` is printed before it (for an unclosed
environment: up to the end of its `\begin`). It lies inside `k` scopes and environments. `n` counts the line
breaks that the reported line leaves out: for every command argument around the problem, those between the start
of the scope or environment (or document) around the command, and the start of the argument.

The relation looks at no line number.
-/

namespace LatexAst.Ast2
open Ast1 (Opened Matched Checked)

/-- At every level, the `\begin`s and `\end`s match. -/
def InOrder (cs : List Ast1.Chunk) : Prop := ∀ lv, Checked cs lv → Matched lv

/-- The first problem of a document. -/
inductive Fault : List Ast1.Chunk → Str → Nat → Nat → ErrorType → Prop
  /-- A `\begin` or `\end` that cannot come here. -/
  | bad {a c post t} : InOrder a → BadDelimiter [] c t → Fault (a ++ c :: post) (Ast1.displayChunks a) 0 0 t
  /-- A `\begin` or `\end` that cannot come inside the environments that are open. -/
  | badInside {a l p lab args body st c post t} : InOrder a → Opened body st → BadDelimiter (st ++ [lab]) c t →
      Fault (a ++ .mk l (.command (.mk chars!"begin" ((p, .mk lab .curly) :: args))) :: (body ++ c :: post))
        (Ast1.displayChunks (a ++ .mk l (.command (.mk chars!"begin" ((p, .mk lab .curly) :: args))) :: body)) 0 0 t
  /-- An environment that is still open at the end. -/
  | unclosed {a l p lab args body st} : InOrder a → Opened body st →
      Fault (a ++ .mk l (.command (.mk chars!"begin" ((p, .mk lab .curly) :: args))) :: body)
        (Ast1.displayChunks (a ++ [.mk l (.command (.mk chars!"begin" ((p, .mk lab .curly) :: args)))])) 0 0
        (.unclosedEnvironment (Ast1.displayChunks lab))
  /-- A problem in a scope. -/
  | scope {a l inner sv post q k n t} : InOrder a → Fault inner q k n t →
      Fault (a ++ .mk l (.scope (.mk inner sv)) :: post) (Ast1.displayChunks a ++ sv.opening :: q) (k + 1) n t
  /-- A problem in an argument of a command. -/
  | arg {a l label a1 p inner sv a2 post q k n t} : InOrder a → label ≠ chars!"begin" → label ≠ chars!"end" →
      (∀ x ∈ a1, InOrder x.2.chunks) → Fault inner q k n t →
      Fault (a ++ .mk l (.command (.mk label (a1 ++ (p, .mk inner sv) :: a2))) :: post)
        (Ast1.displayChunks a ++ '\\' :: (label ++ Ast1.displayArgs a1 ++ p ++ sv.opening :: q)) k
        (n + (Ast1.displayChunks a ++ '\\' :: (label ++ Ast1.displayArgs a1 ++ p)).count '\n') t
  /-- A problem in an argument of a `\begin` that has its `\end`. -/
  | beginArg {a l p0 lab a1 p inner sv a2 body l' pe post q k n t} : InOrder a → Matched body →
      (∀ x ∈ a1, InOrder x.2.chunks) → Fault inner q k n t →
      Fault (a ++ .mk l (.command (.mk chars!"begin" ((p0, .mk lab .curly) :: (a1 ++ (p, .mk inner sv) :: a2)))) ::
          (body ++ .mk l' (.command (.mk chars!"end" [(pe, .mk lab .curly)])) :: post))
        (Ast1.displayChunks a ++ '\\' :: (chars!"begin" ++ Ast1.displayArgs ((p0, .mk lab .curly) :: a1) ++ p ++ sv.opening :: q)) k
        (n + (Ast1.displayChunks a ++ '\\' :: (chars!"begin" ++ Ast1.displayArgs ((p0, .mk lab .curly) :: a1) ++ p)).count '\n') t
  /-- A problem in the body of an environment (in a scope or argument: the environments of the body match). -/
  | environment {a l p lab args body l' pe post q k n t} : InOrder a → Matched body →
      (∀ x ∈ args, InOrder x.2.chunks) → Fault body q k n t →
      Fault (a ++ .mk l (.command (.mk chars!"begin" ((p, .mk lab .curly) :: args))) ::
          (body ++ .mk l' (.command (.mk chars!"end" [(pe, .mk lab .curly)])) :: post))
        (Ast1.displayChunks (a ++ [.mk l (.command (.mk chars!"begin" ((p, .mk lab .curly) :: args)))]) ++ q) (k + 1) n t

end LatexAst.Ast2
