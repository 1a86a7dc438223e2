import Verif.Proofs.Forward
import Verif.Props.SlidesAll

/-!
# C118: stage 3 only moves texts forward
-/

namespace LatexAst.Ast3
open Spec

/-- Whatever chunks are converted: the result has the same characters, scopes, commands and environments, at every depth, up
to dollar signs and `\(`, `\)`, `\[` and `\]`, except that characters may have moved to before scopes, commands and
environments they came after. -/
theorem C118_forward (cs : List Ast2.Chunk) (out : List Chunk) (h : mathsFromChunks cs = .ok out) :
    Forward (Ast2.words cs) (words out) := maths_forward h

/-- In particular, what was before the k-th scope, command or environment of the level is still there, before anything that
has been added. -/
theorem C118_before (cs : List Ast2.Chunk) (out : List Chunk) (h : mathsFromChunks cs = .ok out) (k : Nat) :
    textBefore k (Ast2.words cs) <+: textBefore k (words out) := (maths_forward h).prefix k

/-- So for whatever has been read: before, after and in the document environment that counts (the last one). -/
theorem C118_forward_document (s : Str) (e : Ast2.Document) (f : Document) (hs : Ast2.fromStr s = .ok e) (h : fromStr s = .ok f) :
    Forward (Ast2.words (preambleOf e)) (words f.preamable) ∧ Forward (Ast2.words (trailingOf e)) (words f.trailing) ∧
      ∀ c, (bodiesOf e).getLast? = some c →
        Forward (Ast2.words [c])
          [.environment chars!"document" (argWords f.bodyArgs) (words f.body) f.bodyBeginPrec f.bodyEndPrec] := by
  have h' : tryFrom e = .ok f := by simpa [fromStr, hs] using h
  cases (C57 _ _).1 h' with
  | @document fpre fpost fargs fcontent fpb fpe fopts _ _ hpre htr hbd _ =>
    refine ⟨maths_forward (becomes_iff.1 hpre), maths_forward (becomes_iff.1 htr), ?_⟩
    intro c hcl
    cases hbd with
    | none hn => rw [hn] at hcl; cases hcl
    | @last x c' l env hl hc =>
      rw [hl] at hcl
      simp only [List.getLast?_append, List.getLast?_singleton, Option.some_or, Option.some.injEq] at hcl
      subst hcl
      have k := maths_forward (becomes_iff.1 hc)
      have hm : c' ∈ e ∧ isBody c' = true := by
        have : c' ∈ bodiesOf e := by rw [hl]; simp
        simpa [bodiesOf] using this
      obtain ⟨l, args, content, pb, pe, rfl⟩ := isBody_iff.1 hm.2
      obtain ⟨args', cs, g1, g2, g3⟩ := maths_environment_ok (becomes_iff.1 hc)
      cases g3
      simpa [words, ChunkVariant.words, Environment.words] using k

/-- The text `a` was after the scope, and is before it now; so it is not merely the same order. -/
theorem C118_moved :
    mathsFromChunks [.mk 1 (.text chars!"$"), .mk 1 (.scope (.mk [] .curly)), .mk 1 (.text chars!"a"),
      .mk 1 (.command (.mk chars!"alpha" [])), .mk 1 (.text chars!"$")] =
      .ok [.mk 1 (.text chars!"a"), .mk 1 (.mathsBlock (.mk .dollars .inline
        [.mk 1 (.scope (.mk [] .curly)), .mk 1 (.command (.mk chars!"alpha" []))]))] ∧
    Ast2.words [.mk 1 (.text chars!"$"), .mk 1 (.scope (.mk [] .curly)), .mk 1 (.text chars!"a"),
      .mk 1 (.command (.mk chars!"alpha" [])), .mk 1 (.text chars!"$")] = [.scope .curly [], .char 'a', .command chars!"alpha" []] ∧
    words [.mk 1 (.text chars!"a"), .mk 1 (.mathsBlock (.mk .dollars .inline
        [.mk 1 (.scope (.mk [] .curly)), .mk 1 (.command (.mk chars!"alpha" []))]))] = [.char 'a', .scope .curly [], .command chars!"alpha" []] := by
  refine ⟨by decide +kernel, rfl, rfl⟩

/-- And it cannot be the other way round. -/
theorem C118_one_way : ¬ Forward [.char 'a', .scope .curly []] [.scope .curly [], .char 'a'] := by
  intro h
  simpa [textBefore] using h.prefix 0

end LatexAst.Ast3
