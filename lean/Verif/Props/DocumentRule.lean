import Verif.Proofs.DocumentRule
import Verif.Props.Conversion
import Verif.Props.Grammar
import Verif.Model.Eq3

/-!
# Stage 3: the document conversion computes the declarative one (C57); the whole pipeline (C58)
-/

namespace LatexAst.Ast3
open Spec

/-! ### C57 -/

/-- C57: what converting a stage-2 document gives (a document, the first error, or a panic) is what the rules of
`Spec/DocumentRule.lean` give. -/
theorem C57 (e : Ast2.Document) (r : Res Document) : tryFrom e = r ↔ Reads e r := reads_iff

/-- C57, unambiguity. -/
theorem C57_unique (e : Ast2.Document) : ∃ r, Reads e r ∧ ∀ r', Reads e r' → r' = r :=
  ⟨tryFrom e, reads_iff.1 rfl, fun _ h => (reads_iff.2 h).symm⟩

/-- C57, options: each is read as `ReadsOption` says, in exactly one way. -/
theorem C57_option (s : Str) (o : DocOption) : parseOption s = o ↔ ReadsOption s o :=
  ⟨fun h => h ▸ readsOption_total s, readsOption_sound⟩

/-- Two document environments: the preamble, the second body, and everything else after the first, without the code. -/
example : Reads [.mk 1 (.text chars!"p"), .mk 1 (.environment (.mk chars!"document" [] [.mk 1 (.text chars!"a")] [] [])),
      .mk 1 (.text chars!"x"), .mk 1 (.environment (.mk chars!"document" [] [.mk 1 (.text chars!"b")] [] chars!" ")),
      .mk 1 (.text chars!"y")]
    (.ok { documentclass := none, documentoptions := [], preamable := [.mk 1 (.text chars!"p")], bodyArgs := [],
           body := [.mk 1 (.text chars!"b")], bodyBeginPrec := [], bodyEndPrec := chars!" ",
           trailing := [.mk 1 (.text chars!"x"), .mk 1 (.text chars!"y")] }) := by
  have ht : ∀ l c cs o, c ≠ '$' → Yields 0 cs o → Yields 0 (.mk l (.text [c]) :: cs) (before [.mk l (.text [c])] o) := by
    intro l c cs o h hy
    exact Yields.text (by simpa using Ne.symm h) hy
  have hb : ∀ c pe, c ≠ '$' → Yields 0 [.mk 1 (.environment (.mk chars!"document" [] [.mk 1 (.text [c])] [] pe))]
      (.ok [.mk 1 (.environment (.mk chars!"document" [] (paragraphs [.mk 1 (.text [c])]) [] pe))]) := by
    intro c pe h
    exact Yields.environment (items := []) (i := .ok [.mk 1 (.text [c])]) (o := .ok []) (by simp) (ht 1 c [] (.ok []) h .nil) .nil
  refine Reads.document (e := _) (pre := [.mk 1 (.text chars!"p")]) (post := [.mk 1 (.text chars!"x"), .mk 1 (.text chars!"y")])
    (args := []) (content := [.mk 1 (.text chars!"b")]) (pb := []) (pe := chars!" ") (options := []) ?_ ?_ ?_ ?_ ?_ .nil
  · intro a l args b h
    have : Ast2.Chunk.mk l (.command (.mk chars!"documentclass" args)) ∈ [Ast2.Chunk.mk 1 (.text chars!"p")] := by
      have h' : preambleOf _ = _ := h
      rw [show preambleOf _ = [Ast2.Chunk.mk 1 (.text chars!"p")] from rfl] at h'
      rw [h']; simp
    simp at this
  · intro x hx
    have hx' : x ∈ [Ast2.Chunk.mk 1 (.environment (.mk chars!"document" [] [.mk 1 (.text chars!"a")] [] [])),
      Ast2.Chunk.mk 1 (.environment (.mk chars!"document" [] [.mk 1 (.text chars!"b")] [] chars!" "))] := hx
    simp only [List.mem_cons, List.not_mem_nil, or_false] at hx'
    rcases hx' with rfl | rfl
    · exact ⟨_, _, hb 'a' [] (by decide), rfl⟩
    · exact ⟨_, _, hb 'b' chars!" " (by decide), rfl⟩
  · exact ⟨_, ht 1 'p' [] (.ok []) (by decide) .nil, by rfl⟩
  · exact ⟨_, ht 1 'x' _ _ (by decide) (ht 1 'y' [] (.ok []) (by decide) .nil), by rfl⟩
  · refine Body.last (a := [_]) (c := .mk 1 (.environment (.mk chars!"document" [] [.mk 1 (.text chars!"b")] [] chars!" "))) (l := 1) rfl ?_
    exact ⟨_, hb 'b' chars!" " (by decide), by rfl⟩

/-- A panic in the body comes before an error in the preamble. -/
example : fromStr chars!"\\)\\begin{document}\\foo[$\\foo{a\n\nb}x$]\\end{document}" = .error .panic ∧
    fromStr chars!"\\)\\begin{document}\\foo[$\\foo{a}x$]\\end{document}" = .error (.err ⟨1, .unexpectedMathsEnd⟩) := by
  decide +kernel

/-! ### C58 -/

/-- C58: what parsing a source as a document gives is what it means, for every source. -/
theorem C58 (s : Str) (r : Res Document) : fromStr s = r ↔ Means s r := by
  have sound : ∀ r, Means s r → fromStr s = r := by
    intro r h
    obtain ⟨_, hok, herr⟩ := Ast1.C51_any s
    cases h with
    | «syntax» h => simp only [fromStr, Ast2.fromStr, (herr _).2 h]
    | environments h1 h2 =>
      have hd := (hok _).2 h1
      simp only [fromStr, ((Ast2.C53_parsed s _ hd).2 _).2 h2]
    | document h1 h2 h3 =>
      have hd := (hok _).2 h1
      simp only [fromStr, ((Ast2.C53_parsed s _ hd).1 _).2 h2]
      exact (C57 _ _).2 h3
  constructor
  · rintro rfl
    obtain ⟨hself, hok, herr⟩ := Ast1.C51_any s
    obtain ⟨o, ho, _⟩ := Ast1.C51_unique _ hself
    suffices h : ∃ r, Means s r by
      obtain ⟨r, h⟩ := h
      rw [sound r h]; exact h
    cases o with
    | error e => exact ⟨_, .syntax ho⟩
    | ok d =>
      have hd := (hok _).2 ho
      obtain ⟨o, ho2, _⟩ := Ast2.C53_unique d (Ast1.sane_numbered (Ast1.sane_parsed hd))
      cases o with
      | error e => exact ⟨_, .environments ho ho2⟩
      | ok e =>
        obtain ⟨r, hr, _⟩ := C57_unique e
        exact ⟨r, .document ho ho2 hr⟩
  · exact sound r

/-- C58, unambiguity: every source means exactly one thing. -/
theorem C58_unique (s : Str) : ∃ r, Means s r ∧ ∀ r', Means s r' → r' = r :=
  ⟨fromStr s, (C58 s _).1 rfl, fun _ h => ((C58 s _).2 h).symm⟩

/-- All three cases occur. -/
example : Means chars!"a{" (.error (.err ⟨1, .unclosedScope .curly⟩)) ∧
    Means chars!"\\begin{a}" (.error (.err ⟨1, .unclosedEnvironment chars!"a"⟩)) ∧
    (∃ f, Means Fidelity.basicSrc3 (.ok f)) := by
  refine ⟨(C58 _ _).1 (by decide +kernel), (C58 _ _).1 (by decide +kernel), ?_⟩
  have h : (fromStr Fidelity.basicSrc3).map Document.display = .ok Fidelity.basicSrc3 := by decide +kernel
  cases hf : fromStr Fidelity.basicSrc3 with
  | error x => rw [hf] at h; cases h
  | ok f => exact ⟨f, (C58 _ _).1 hf⟩

end LatexAst.Ast3
