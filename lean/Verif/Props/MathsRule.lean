import Verif.Proofs.MathsRule
import Verif.Model.Eq3

/-!
# Stage 3: the maths conversion computes the declarative one, on every input (C55)
-/

namespace LatexAst.Ast3

/-- C55: what converting a sequence of chunks gives (chunks, an error or a panic) is what the rules of
`Spec/MathsRule.lean` give. -/
theorem C55 (cs : List Ast2.Chunk) (r : Outcome) :
    mathsFromChunks cs = r ↔ ∃ o, Yields 0 cs o ∧ r = inParagraphs o := yields_iff

/-- C55, success. -/
theorem C55_ok (cs : List Ast2.Chunk) (out : List Chunk) :
    mathsFromChunks cs = .ok out ↔ ∃ raw, Yields 0 cs (.ok raw) ∧ out = paragraphs raw := by
  rw [C55]
  constructor
  · rintro ⟨o, h, he⟩
    cases o with
    | ok raw => exact ⟨raw, h, by simpa [inParagraphs] using he⟩
    | error f => simp [inParagraphs] at he
  · rintro ⟨raw, h, rfl⟩
    exact ⟨_, h, rfl⟩

/-- C55, failure: the first problem, on its line, or a panic. -/
theorem C55_error (cs : List Ast2.Chunk) (f : Fail) :
    mathsFromChunks cs = .error f ↔ Yields 0 cs (.error f) := by
  rw [C55]
  constructor
  · rintro ⟨o, h, he⟩
    cases o with
    | ok raw => simp [inParagraphs] at he
    | error f => simp [inParagraphs] at he; subst he; exact h
  · intro h
    exact ⟨_, h, rfl⟩

/-- C55, unambiguity: every sequence of chunks converts in exactly one way. -/
theorem C55_unique (b : Nat) (cs : List Ast2.Chunk) : ∃ o, Yields b cs o ∧ ∀ o', Yields b cs o' → o' = o := by
  obtain ⟨o, h⟩ := yields_total b cs
  exact ⟨o, h, fun o' h' => yields_unique h' h⟩

/-- A derivation without the code: in `$a\alpha b$` the `a` is left behind. -/
example : Yields 0 [.mk 1 (.text chars!"$a"), .mk 1 (.command (.mk chars!"alpha" [])), .mk 1 (.text chars!" b$c")]
    (.ok [.mk 1 (.text chars!"a"),
      .mk 1 (.mathsBlock (.mk .dollars .inline [.mk 1 (.command (.mk chars!"alpha" [])), .mk 1 (.text chars!" b")])),
      .mk 1 (.text chars!"c")]) :=
  Yields.formula (l := 1) (q := []) (r := chars!"a") (lost := [.mk 1 (.text chars!"a")]) (type := .inline)
    (content := [.mk 1 (.command (.mk chars!"alpha" [])), .mk 1 (.text chars!" b")])
    (p := ⟨1, chars!" b", chars!"c", []⟩)
    (i := .ok [.mk 1 (.command (.mk chars!"alpha" [])), .mk 1 (.text chars!" b")])
    (o := .ok [.mk 1 (.text chars!"c")]) (by decide)
    (.inline (p := ⟨1, [], chars!"a", _⟩) (kept := [.mk 1 (.command (.mk chars!"alpha" []))])
      (.later (x := chars!"a") (ms := [.mk 1 (.command (.mk chars!"alpha" []))]) (by decide)
        (by intro m hm; simp only [List.mem_singleton] at hm; subst hm; intro t h; cases h)
        (.here (x := chars!" b") (by decide))) (by simp))
    (.inr ⟨Nat.le_refl _, by intro c hc; simp only [List.mem_cons, List.not_mem_nil, or_false] at hc; rcases hc with rfl | rfl <;> decide⟩)
    (.command (items := []) (by decide) (by simp) (.text (by decide) .nil))
    (.text (by decide) .nil)

/-- A formula that is not closed, and what the code returns. -/
example : Yields 0 [.mk 1 (.text chars!"a$b"), .mk 1 (.command (.mk chars!"alpha" [])), .mk 2 (.text chars!"c")]
      (.error (.err ⟨0, .unclosedMaths⟩)) ∧
    mathsFromChunks [.mk 1 (.text chars!"a$b"), .mk 1 (.command (.mk chars!"alpha" [])), .mk 2 (.text chars!"c")] =
      .error (.err ⟨0, .unclosedMaths⟩) := by
  have h : Yields 0 [.mk 1 (.text chars!"a$b"), .mk 1 (.command (.mk chars!"alpha" [])), .mk 2 (.text chars!"c")]
      (.error (.err ⟨0, .unclosedMaths⟩)) := by
    refine Yields.unfinished (q := chars!"a") (r := chars!"b") (by decide) (.single ⟨by decide, ?_⟩)
    intro l t ht
    simp only [List.mem_cons, List.not_mem_nil, or_false] at ht
    rcases ht with ht | ht
    · cases ht
    · injection ht with _ ht
      injection ht with ht
      subst ht
      decide
  exact ⟨h, (C55_error _ _).2 h⟩

/-- A formula over a command of three lines panics. -/
example : mathsFromChunks [.mk 1 (.text chars!"$"),
      .mk 1 (.command (.mk chars!"foo" [([], .mk [.mk 1 (.text chars!"a\n\nb")] .curly)])), .mk 3 (.text chars!"x$")] =
    .error .panic :=
  (C55_error _ _).2 (Yields.uncountable (q := []) (r := []) (lost := []) (type := .inline)
    (content := [.mk 1 (.command (.mk chars!"foo" [([], .mk [.mk 1 (.text chars!"a\n\nb")] .curly)])), .mk 3 (.text chars!"x")])
    (p := ⟨3, chars!"x", [], []⟩) (by decide)
    (.inline (p := ⟨1, [], [], _⟩) (kept := [.mk 1 (.command (.mk chars!"foo" [([], .mk [.mk 1 (.text chars!"a\n\nb")] .curly)]))])
      (.later (x := []) (ms := [.mk 1 (.command (.mk chars!"foo" [([], .mk [.mk 1 (.text chars!"a\n\nb")] .curly)]))]) (by decide)
        (by intro m hm; simp only [List.mem_singleton] at hm; subst hm; intro t h; cases h)
        (.here (x := chars!"x") (by decide))) (by simp))
    (by
      rintro (h | ⟨_, h⟩)
      · cases h
      · have := h _ (List.mem_cons_self ..)
        simp [Ast2.Chunk.lineNo] at this))

end LatexAst.Ast3
