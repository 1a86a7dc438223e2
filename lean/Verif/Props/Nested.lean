import Verif.Proofs.Nested
import Verif.Props.Skeleton

/-!
# C120: formulas directly within formulas
-/

namespace LatexAst.Ast3
open Spec

/-- Whatever chunks are converted: nowhere in the result is a formula within another one with the same mark unless there is a
scope, a command or an environment in between. -/
theorem C120 (cs : List Ast2.Chunk) (out : List Chunk) (h : mathsFromChunks cs = .ok out) : fresh [] out := maths_fresh h

/-- So formulas are nowhere more than three deep directly within each other. -/
theorem C120_depth (cs : List Ast2.Chunk) (out : List Chunk) (h : mathsFromChunks cs = .ok out) : shallow 3 out :=
  fresh_shallow _ _ .nil (maths_fresh h)

/-- So for whatever is read or converted, in every part of the document. -/
theorem C120_document (e : Ast2.Document) (f : Document) (h : tryFrom e = .ok f) :
    (fresh [] f.preamable ∧ fresh [] f.body ∧ fresh [] f.trailing ∧ freshArgs f.bodyArgs) ∧
      shallow 3 f.preamable ∧ shallow 3 f.body ∧ shallow 3 f.trailing ∧ shallowArgs 3 f.bodyArgs := by
  have key : fresh [] f.preamable ∧ fresh [] f.body ∧ fresh [] f.trailing ∧ freshArgs f.bodyArgs := by
    cases (C57 _ _).1 h with
    | @document fpre fpost fargs fcontent fpb fpe fopts _ _ hpre htr hbd _ =>
      refine ⟨maths_fresh (becomes_iff.1 hpre), ?_, maths_fresh (becomes_iff.1 htr), ?_⟩
      · cases hbd with
        | none hn => simp [fresh]
        | @last x c' l env hl hc => 
          have := maths_fresh (becomes_iff.1 hc)
          simp only [fresh, ChunkVariant.fresh, Environment.fresh] at this
          exact this.1.2
      · cases hbd with
        | none hn => simp [freshArgs]
        | @last x c' l env hl hc => 
          have := maths_fresh (becomes_iff.1 hc)
          simp only [fresh, ChunkVariant.fresh, Environment.fresh] at this
          exact this.1.1
  obtain ⟨h1, h2, h3, h4⟩ := key
  exact ⟨⟨h1, h2, h3, h4⟩, fresh_shallow _ _ .nil h1, fresh_shallow _ _ .nil h2, fresh_shallow _ _ .nil h3, fresh_shallowA _ h4⟩

/-- So a document built with a formula directly within one with the same mark is never what a source is read as: it does not survive
saving and loading, whatever it is printed as. -/
theorem C120_unsaved (d : Document) (h : ¬ (fresh [] d.preamable ∧ fresh [] d.body ∧ fresh [] d.trailing ∧ freshArgs d.bodyArgs)) (s : Str) :
    fromStr s ≠ .ok d := by
  intro hs
  simp only [fromStr] at hs
  split at hs
  · cases hs
  · exact h (C120_document _ _ hs).1

/-- `\(\(a\)\)`, built through the API, meets the hypothesis of C120_unsaved. -/
theorem C120_unsaved_example : ¬ (fresh [] [.mk 1 (.mathsBlock (.mk .brackets .inline [.mk 1 (.mathsBlock (.mk .brackets .inline [.mk 1 (.text chars!"a")]))]))]) := by
  simp [fresh, ChunkVariant.fresh, MathsBlock.fresh, markFor]

/-- Each of the six orders of three marks does occur, and with a scope in between a formula can be within one with the same mark;
so the hypotheses of C120, of C120_depth and of C120_document are met, and 3 is the best bound. -/
theorem C120_orders :
    (∀ s ∈ [chars!"\\(\\[$a$\\]\\)", chars!"\\[\\($a$\\)\\]", chars!"\\($\\[a\\]$\\)", chars!"\\[$\\(a\\)$\\]",
      chars!"$\\(\\[a\\]\\)$", chars!"$\\[\\(a\\)\\]$"],
        (fromStr s).toOption.map (fun f => directDepth f.preamable) = some 3) ∧
    (fromStr chars!"\\({\\(a\\)}\\)").toOption.map (·.preamable) = some [.mk 1 (.mathsBlock (.mk .brackets .inline
      [.mk 1 (.scope (.mk [.mk 1 (.mathsBlock (.mk .brackets .inline [.mk 1 (.text chars!"a")]))] .curly))]))] := by
  decide +kernel

end LatexAst.Ast3
