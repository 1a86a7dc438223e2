import Verif.Proofs.DollarForm
import Verif.Props.Skeleton

/-!
# C122: what dollar formulas look like
-/

namespace LatexAst.Ast3
open Spec

/-- Whatever chunks are converted: in every dollar formula of the result, at any depth, texts and paragraph breaks come last, the
formulas directly in it have no texts at all, and it is not empty if it is inline. -/
theorem C122 (cs : List Ast2.Chunk) (out : List Chunk) (h : mathsFromChunks cs = .ok out) : formed out := maths_formed h

/-- So in every part of a document. -/
theorem C122_document (e : Ast2.Document) (f : Document) (h : tryFrom e = .ok f) :
    formed f.preamable ∧ formed f.body ∧ formed f.trailing ∧ formedArgs f.bodyArgs := by
  cases (C57 _ _).1 h with
  | @document fpre fpost fargs fcontent fpb fpe fopts _ _ hpre htr hbd _ =>
    refine ⟨maths_formed (becomes_iff.1 hpre), ?_, maths_formed (becomes_iff.1 htr), ?_⟩
    · cases hbd with
      | none hn => simp [formed]
      | @last x c' l env hl hc =>
        have := maths_formed (becomes_iff.1 hc)
        simp only [formed, ChunkVariant.formed, Environment.formed] at this
        exact this.1.2
    · cases hbd with
      | none hn => simp [formedArgs]
      | @last x c' l env hl hc =>
        have := maths_formed (becomes_iff.1 hc)
        simp only [formed, ChunkVariant.formed, Environment.formed] at this
        exact this.1.1

/-- So a document built with another dollar formula is never what a source is read as. -/
theorem C122_unsaved (d : Document) (h : ¬ (formed d.preamable ∧ formed d.body ∧ formed d.trailing ∧ formedArgs d.bodyArgs)) (s : Str) :
    fromStr s ≠ .ok d := by
  intro hs
  simp only [fromStr] at hs
  split at hs
  · cases hs
  · exact h (C122_document _ _ hs)

/-- The text in the bracket formula within the dollar formula moves out, before both; the last one stays. So the hypothesis of
C122 is met. -/
theorem C122_example :
    (fromStr chars!"$\\(a\\)b$").toOption.map (·.preamable) = some
      [.mk 1 (.text chars!"a"), .mk 1 (.mathsBlock (.mk .dollars .inline
        [.mk 1 (.mathsBlock (.mk .brackets .inline [])), .mk 1 (.text chars!"b")]))] := by
  decide +kernel

/-- `$a\alpha$`, built through the API, and the empty `$$` meet the hypothesis of C122_unsaved. -/
theorem C122_unsaved_example :
    ¬ formed [.mk 1 (.mathsBlock (.mk .dollars .inline [.mk 1 (.text chars!"a"), .mk 1 (.command (.mk chars!"alpha" []))]))] ∧
    ¬ formed [.mk 1 (.mathsBlock (.mk .dollars .inline []))] := by
  constructor
  · intro h
    obtain ⟨⟨⟨⟨xs, ys, h1, h2, h3⟩, _⟩, _⟩, _⟩ := h
    cases xs with
    | cons x xs =>
      have h1' := (List.cons.inj h1).1
      subst h1'
      exact h2.1
    | nil =>
      simp only [List.nil_append] at h1
      subst h1
      rcases h3 _ (.tail _ (.head _)) with ⟨t, ht⟩ | ⟨t, ht⟩ <;> cases ht
  · intro h
    exact h.1.1.2 rfl

end LatexAst.Ast3
