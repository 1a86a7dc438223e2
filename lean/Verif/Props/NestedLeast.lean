import Verif.Proofs.NestedLeast
import Verif.Props.NestedDepth

/-!
# Stage 3 does not nest less than stage 2 (C124)
-/

namespace LatexAst.Ast3
open Spec

/-- C124: what stage 3 makes of chunks is nested at least as deep as they are, if no maths delimiter has arguments. -/
theorem C124 (cs : List Ast2.Chunk) (out : List Chunk) (h : mathsFromChunks cs = .ok out) (hp : Ast2.PlainDelims cs) (n : Nat)
    (hn : NestedAtMost n out) : Ast2.NestedAtMost n cs :=
  maths_deepens h hp hn

/-- No maths delimiter has arguments in what is read from a source. -/
theorem C124_read (s : Str) (e : Ast2.Document) (h : Ast2.fromStr s = .ok e) : Ast2.PlainDelims e :=
  Ast2.plain_of_all (Ast2.bareDelims_parsed h)

/-- So for chunks that are not nested at most `n` deep, `n + 1` nested calls are not enough, whatever is in them: with C123_calls,
the calls that stage 3 needs are at least `n + 2` and at most `4 * n + 8` for chunks nested exactly `n + 1` deep. -/
theorem C124_calls (cs : List Ast2.Chunk) (out : List Chunk) (h : mathsFromChunks cs = .ok out) (hp : Ast2.PlainDelims cs) (n : Nat)
    (hn : ¬ Ast2.NestedAtMost n cs) : mathsFuel (n + 1) cs = .error .fuel :=
  (C67 cs out h n).2 fun hd => hn (C124 cs out h hp n hd)

/-- The arguments of a delimiter built through the API are lost, with what is nested in them: `\({{a}}\)`, with the braces as an argument
of `\(`, is nested two deep, and becomes an empty formula. -/
theorem C124_lost : ∃ out, mathsFromChunks [.mk 1 (.command (.mk chars!"(" [([], .mk [.mk 1 (.scope (.mk [.mk 1 (.text chars!"a")] .curly))] .curly)])),
      .mk 1 (.command (.mk chars!")" []))] = .ok out ∧ NestedAtMost 1 out ∧
    ¬ Ast2.NestedAtMost 1 [.mk 1 (.command (.mk chars!"(" [([], .mk [.mk 1 (.scope (.mk [.mk 1 (.text chars!"a")] .curly))] .curly)])),
      .mk 1 (.command (.mk chars!")" []))] := by
  refine ⟨[.mk 1 (.mathsBlock (.mk .brackets .inline []))], by rfl, ?_, fun h => ?_⟩
  · intro k lv hl
    cases k with
    | zero => omega
    | succ k =>
      obtain ⟨i, h1, h2⟩ := levelAt_head hl
      cases child3_maths h2
      cases k with
      | zero => omega
      | succ k => obtain ⟨i, _, h3⟩ := levelAt_head h1; obtain ⟨c, hc, _⟩ := child3_one h3; cases hc
  · have := h 2 _ (Ast2.levelAt_child (.arg (.head _) (.head _)) (Ast2.levelAt_child (.scope (.head _)) .top))
    omega

/-- `{$a$}` is read as a scope nested one deep and becomes one nested two deep, so the hypotheses of C124, C124_read and C124_calls are
met. -/
theorem C124_example : Ast2.fromStr chars!"{$a$}" = .ok [.mk 1 (.scope (.mk [.mk 1 (.text chars!"$a$")] .curly))] ∧
    mathsFromChunks [.mk 1 (.scope (.mk [.mk 1 (.text chars!"$a$")] .curly))] =
      .ok [.mk 1 (.scope (.mk [.mk 1 (.mathsBlock (.mk .dollars .inline [.mk 1 (.text chars!"a")]))] .curly))] ∧
    ¬ Ast2.NestedAtMost 0 [.mk 1 (.scope (.mk [.mk 1 (.text chars!"$a$")] .curly))] := by
  refine ⟨by decide +kernel, by decide +kernel, fun h => ?_⟩
  have := h 1 _ (Ast2.levelAt_child (.scope (.head _)) .top)
  omega

end LatexAst.Ast3
