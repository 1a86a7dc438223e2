import Verif.Proofs.Skeleton
import Verif.Props.SlidesAll

/-!
# C118: stage 3 keeps the texts and the nodes of every level, each in order
-/

namespace LatexAst.Ast3
open Spec

/-- Whatever chunks are converted: the texts of each level, put together, are the same up to dollar signs, and the nodes of
each level are the same, in the same order and with the same labels, arguments, brackets and blanks, up to `\(`, `\)`, `\[`
and `\]`. -/
theorem C118 (cs : List Ast2.Chunk) (out : List Chunk) (h : mathsFromChunks cs = .ok out) :
    plain out = Ast2.plain cs ∧ outline out = Ast2.outline cs := maths_skeleton h

/-- So for whatever has been read: before, after and in the document environment that counts (the last one). -/
theorem C118_document (s : Str) (e : Ast2.Document) (f : Document) (hs : Ast2.fromStr s = .ok e) (h : fromStr s = .ok f) :
    plain f.preamable = Ast2.plain (preambleOf e) ∧ outline f.preamable = Ast2.outline (preambleOf e) ∧
      plain f.trailing = Ast2.plain (trailingOf e) ∧ outline f.trailing = Ast2.outline (trailingOf e) ∧
      (∀ c, (bodiesOf e).getLast? = some c →
        [Node.environment chars!"document" (outlineArgs f.bodyArgs) (plain f.body) (outline f.body) f.bodyBeginPrec f.bodyEndPrec]
          = Ast2.outline [c]) ∧
      (bodiesOf e = [] → outline f.body = [] ∧ plain f.body = [] ∧ outlineArgs f.bodyArgs = []) := by
  have h' : tryFrom e = .ok f := by simpa [fromStr, hs] using h
  cases (C57 _ _).1 h' with
  | @document fpre fpost fargs fcontent fpb fpe fopts _ _ hpre htr hbd _ =>
    obtain ⟨a1, a2⟩ := maths_skeleton (becomes_iff.1 hpre)
    obtain ⟨b1, b2⟩ := maths_skeleton (becomes_iff.1 htr)
    refine ⟨a1, a2, b1, b2, ?_, ?_⟩
    · intro c hcl
      cases hbd with
      | none hn => rw [hn] at hcl; cases hcl
      | @last x c' l env hl hc =>
        rw [hl] at hcl
        simp only [List.getLast?_append, List.getLast?_singleton, Option.some_or, Option.some.injEq] at hcl
        subst hcl
        obtain ⟨_, k⟩ := maths_skeleton (becomes_iff.1 hc)
        rw [← k]
        have hm : c' ∈ e ∧ isBody c' = true := by
          have : c' ∈ bodiesOf e := by rw [hl]; simp
          simpa [bodiesOf] using this
        obtain ⟨l, args, content, pb, pe, rfl⟩ := isBody_iff.1 hm.2
        obtain ⟨args', cs, g1, g2, g3⟩ := maths_environment_ok (becomes_iff.1 hc)
        cases g3
        simp [outline, ChunkVariant.outline, Environment.outline]
    · intro hn
      cases hbd with
      | none _ => exact ⟨by simp [outline], by simp [plain], by simp [outlineArgs]⟩
      | @last x c' l env hl hc => rw [hn] at hl; simp at hl

/-- Here the text `a` slips out of the formula, but the text is still `ab` and the nodes are still a scope and `\alpha`;
the hypothesis of C118 is met. -/
theorem C118_example :
    mathsFromChunks [.mk 1 (.text chars!"$a"), .mk 1 (.scope (.mk [.mk 1 (.text chars!"c")] .curly)), .mk 1 (.command (.mk chars!"alpha" [])),
      .mk 1 (.text chars!"b$")] =
      .ok [.mk 1 (.text chars!"a"), .mk 1 (.mathsBlock (.mk .dollars .inline
        [.mk 1 (.scope (.mk [.mk 1 (.text chars!"c")] .curly)), .mk 1 (.command (.mk chars!"alpha" [])), .mk 1 (.text chars!"b")]))] ∧
    Ast2.plain [.mk 1 (.text chars!"$a"), .mk 1 (.scope (.mk [.mk 1 (.text chars!"c")] .curly)), .mk 1 (.command (.mk chars!"alpha" [])),
      .mk 1 (.text chars!"b$")] = chars!"ab" ∧
    Ast2.outline [.mk 1 (.text chars!"$a"), .mk 1 (.scope (.mk [.mk 1 (.text chars!"c")] .curly)), .mk 1 (.command (.mk chars!"alpha" [])),
      .mk 1 (.text chars!"b$")] = [.scope .curly chars!"c" [], .command chars!"alpha" []] := by
  refine ⟨by decide +kernel, rfl, rfl⟩

end LatexAst.Ast3
