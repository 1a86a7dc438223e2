import Verif.Props.PrintsBack3
import Verif.Props.Parsing
import Verif.Props.Environments
import Verif.Props.Slides

/-!
# C119: which characters get lost or added on the way to stage 3
-/

namespace LatexAst.Spec

theorem count_visible (s : Str) (a : Char) (h : ¬ Bracket a) (hb : a ≠ '\\') : (visible s).count a = s.count a := by
  unfold visible
  rw [List.count_filter]
  simp [h, hb]

end LatexAst.Spec

namespace LatexAst.Ast2
open Spec

/-- Reading to stage 2 and printing keeps how often each character occurs outside comments, brackets and backslashes apart. -/
theorem C119_stage2 (s : Str) (e : Document) (h : fromStr s = .ok e) (a : Char) (ha : ¬ Bracket a) (hb : a ≠ '\\') :
    (displayChunks e).count a = (stripComments s).count a := by
  obtain ⟨d, h1, h2⟩ := C21_source s e h
  rw [h2, ← count_visible _ a ha hb, Ast1.C04 s d h1, count_visible _ a ha hb]

end LatexAst.Ast2

namespace LatexAst.Ast3
open Spec

/-- Whatever source is read to stage 3 and printed, and whatever character that is no bracket and no backslash: it occurs as often
as in the source outside comments, apart from the document environments that have been overwritten by a later one (their
characters are lost), the blanks after the `\end` of the last (which become those after its `\begin`), and the empty document
environment that is added if there is none. -/
theorem C119 (s : Str) (e : Ast2.Document) (f : Document) (hs : Ast2.fromStr s = .ok e) (h : fromStr s = .ok f) (a : Char)
    (ha : ¬ Bracket a) (hb : a ≠ '\\') :
    (bodiesOf e = [] ∧ f.display.count a = (stripComments s).count a + (chars!"\\begin{document}\\end{document}").count a) ∨
    ∃ lost l args content pb pe, bodiesOf e = lost ++ [.mk l (.environment (.mk chars!"document" args content pb pe))] ∧
      Blank pb ∧ Blank pe ∧
      f.display.count a + (Ast2.displayChunks lost).count a + pe.count a = (stripComments s).count a + pb.count a := by
  have hf : tryFrom e = .ok f := by simpa [fromStr, hs] using h
  have hd : a ∉ ['\\', '(', ')', '[', ']'] := by
    intro hm
    simp only [List.mem_cons, List.not_mem_nil, or_false] at hm
    rcases hm with rfl | rfl | rfl | rfl | rfl
    · exact hb rfl
    all_goals exact ha (by decide)
  rw [← Ast2.C119_stage2 s e hs a ha hb]
  rcases display_counts hs hf a with ⟨h1, h2⟩ | ⟨x, l, args, content, pb, pe, h1, h2, h3, h4⟩
  · exact .inl ⟨h1, h2.2 hd⟩
  · exact .inr ⟨x, l, args, content, pb, pe, h1, h2, h3, h4.2 hd⟩

/-- So with exactly one document environment no visible character is lost, added or repeated. -/
theorem C119_one (s : Str) (e : Ast2.Document) (f : Document) (hs : Ast2.fromStr s = .ok e) (h : fromStr s = .ok f)
    (hone : (bodiesOf e).length = 1) (a : Char) (ha : ¬ Bracket a) (hb : a ≠ '\\') (hw : isWhitespace a = false) :
    f.display.count a = (stripComments s).count a := by
  rcases C119 s e f hs h a ha hb with ⟨h1, _⟩ | ⟨lost, l, args, content, pb, pe, h1, h2, h3, h4⟩
  · rw [h1] at hone; cases hone
  · have hl : lost = [] := by
      rw [h1] at hone
      simp at hone
      exact hone
    have g1 : pb.count a = 0 := List.count_eq_zero.2 fun hm => by have := h2 a hm; rw [hw] at this; cases this
    have g2 : pe.count a = 0 := List.count_eq_zero.2 fun hm => by have := h3 a hm; rw [hw] at this; cases this
    rw [hl] at h4
    simp [Ast2.displayChunks, g1, g2] at h4
    exact h4

/-- The lines: as many as the source has, comments or not, with the same three exceptions. -/
theorem C119_lines (s : Str) (e : Ast2.Document) (f : Document) (hs : Ast2.fromStr s = .ok e) (h : fromStr s = .ok f) :
    (bodiesOf e = [] → f.display.count '\n' = s.count '\n') ∧
    ∀ lost l args content pb pe, bodiesOf e = lost ++ [.mk l (.environment (.mk chars!"document" args content pb pe))] →
      f.display.count '\n' + (Ast2.displayChunks lost).count '\n' + pe.count '\n' = s.count '\n' + pb.count '\n' := by
  have h0 : (stripComments s).count '\n' = s.count '\n' := by
    obtain ⟨d, h1, h2⟩ := Ast2.C21_source s e hs
    rw [← Ast2.C119_stage2 s e hs '\n' (by decide) (by decide), h2, ← newlines_eq_count, ← newlines_eq_count]
    exact Ast1.newlines_fromStr h1
  have h1 := C119 s e f hs h '\n' (by decide) (by decide)
  rw [h0] at h1
  constructor
  · intro hn
    rcases h1 with ⟨_, h2⟩ | ⟨lost, l, args, content, pb, pe, h2, _⟩
    · simpa using h2
    · rw [hn] at h2; simp at h2
  · intro lost l args content pb pe hb
    rcases h1 with ⟨h2, _⟩ | ⟨lost', l', args', content', pb', pe', h2, _, _, h3⟩
    · rw [h2] at hb; simp at hb
    · rw [hb] at h2
      obtain ⟨rfl, h4⟩ := List.append_inj' h2 rfl
      simp only [List.cons.injEq, Ast2.Chunk.mk.injEq, Ast2.ChunkVariant.environment.injEq, Ast2.Environment.mk.injEq, and_true, true_and] at h4
      obtain ⟨_, _, _, rfl, rfl⟩ := h4
      exact h3

/-- Sources that meet the hypotheses: one with a comment, one document environment and a text that moves, and one with two document
environments, of which the first is lost. -/
theorem C119_example :
    (∃ e f, Ast2.fromStr chars!"x%z\n\\begin {document}$a\\alpha b$\\end{document}" = .ok e ∧
      fromStr chars!"x%z\n\\begin {document}$a\\alpha b$\\end{document}" = .ok f ∧ (bodiesOf e).length = 1 ∧
      f.display = chars!"x\n\\begin {document}a$\\alpha b$\\end {document}") ∧
    ∃ e f, Ast2.fromStr chars!"\\begin{document}x\\end{document}\\begin{document}y\\end{document}" = .ok e ∧
      fromStr chars!"\\begin{document}x\\end{document}\\begin{document}y\\end{document}" = .ok f ∧ (bodiesOf e).length = 2 ∧
      f.display = chars!"\\begin{document}y\\end{document}" := by
  have key : ∀ s t e, Ast2.fromStr s = .ok e → tidy s = some t → ∀ n, (bodiesOf e).length = n →
      ∃ e f, Ast2.fromStr s = .ok e ∧ fromStr s = .ok f ∧ (bodiesOf e).length = n ∧ f.display = t := by
    intro s t e h1 h2 n h3
    unfold tidy at h2
    split at h2
    · rename_i f hf
      injection h2 with h2
      exact ⟨e, f, h1, hf, h3, h2⟩
    · cases h2
  constructor
  · refine key _ _ [.mk 1 (.text chars!"x\n"), .mk 2 (.environment (.mk chars!"document" [] [.mk 1 (.text chars!"$a"),
      .mk 1 (.command (.mk chars!"alpha" [])), .mk 1 (.text chars!" b$")] chars!" " []))] (by decide +kernel) (tidy_of (by decide +kernel)) _ (by decide +kernel)
  · refine key _ _ [.mk 1 (.environment (.mk chars!"document" [] [.mk 1 (.text chars!"x")] [] [])),
      .mk 1 (.environment (.mk chars!"document" [] [.mk 1 (.text chars!"y")] [] []))] (by decide +kernel) (tidy_of (by decide +kernel)) _ (by decide +kernel)

end LatexAst.Ast3
