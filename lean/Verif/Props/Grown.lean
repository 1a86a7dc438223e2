import Verif.Proofs.Grown3
import Verif.Props.Complete
import Verif.Props.Environments
import Verif.Model.Eq2
import Verif.Model.Eq3

/-!
# Typing on (C100)
-/

namespace LatexAst
open Spec

namespace Ast1

/-- What has been read of a beginning is kept when more is written: only the last text or the last command (with the blanks after
it) may grow, and further chunks follow. -/
theorem C100 (s t : Str) (ds dt : Document) (hs : fromStr s = .ok ds) (ht : fromStr (s ++ t) = .ok dt) : Grown ds dt :=
  fromStr_grown hs ht

/-- In particular all chunks but the last two are found again, in the same place, with the same line. -/
theorem C100_kept (s t : Str) (ds dt : Document) (hs : fromStr s = .ok ds) (ht : fromStr (s ++ t) = .ok dt) (i : Nat)
    (hi : i + 2 < ds.length) : dt[i]? = ds[i]? := by
  have h := fromStr_grown hs ht
  cases h with
  | kept => rw [List.getElem?_append_left (by omega)]
  | text => simp only [List.length_append, List.length_cons, List.length_nil] at hi
            rw [List.getElem?_append_left (by omega), List.getElem?_append_left (by omega)]
  | command => simp only [List.length_append, List.length_cons, List.length_nil] at hi
               rw [List.getElem?_append_left (by omega), List.getElem?_append_left (by omega)]
  | name => simp only [List.length_append, List.length_cons, List.length_nil] at hi
            rw [List.getElem?_append_left (by omega), List.getElem?_append_left (by omega)]
  | blanks => simp only [List.length_append, List.length_cons, List.length_nil] at hi
              rw [List.getElem?_append_left (by omega), List.getElem?_append_left (by omega)]
  | argument => simp only [List.length_append, List.length_cons, List.length_nil] at hi
                rw [List.getElem?_append_left (by omega), List.getElem?_append_left (by omega)]

theorem C100_example :
    fromStr chars!"a\n\\b x \\c" = .ok [.mk 1 (.text chars!"a\n"), .mk 2 (.command (.mk chars!"b" [])), .mk 2 (.text chars!" x "),
      .mk 2 (.command (.mk chars!"c" []))] ∧
    fromStr (chars!"a\n\\b x \\c" ++ chars!"d{e} f") = .ok [.mk 1 (.text chars!"a\n"), .mk 2 (.command (.mk chars!"b" [])), .mk 2 (.text chars!" x "),
      .mk 2 (.command (.mk chars!"cd" [([], .mk [.mk 1 (.text chars!"e")] .curly)])), .mk 2 (.text chars!" f")] := by decide +kernel

end Ast1

namespace Ast2

/-- The same at stage 2. -/
theorem C100 (s t : Str) (es et : Document) (hs : fromStr s = .ok es) (ht : fromStr (s ++ t) = .ok et) : Grown es et := by
  unfold fromStr at hs ht
  cases h1 : Ast1.fromStr s with
  | error f => rw [h1] at hs; cases hs
  | ok ds =>
    cases h2 : Ast1.fromStr (s ++ t) with
    | error f => rw [h2] at ht; cases ht
    | ok dt =>
      rw [h1] at hs; rw [h2] at ht
      simp only at hs ht
      rcases grown_begins (Ast1.fromStr_grown h1 h2) ht with ⟨h3, _⟩ | ⟨h3, h4⟩
      · rw [h3] at hs; cases hs
      · rw [h3] at hs; injection hs with hs; subst hs; exact h4

/-- The beginning of a source that stage 2 accepts is accepted, or refused because it is not finished: a scope, an argument or an
environment is open, or `\begin` has no label. -/
theorem C100_prefix (s t : Str) (et : Document) (ht : fromStr (s ++ t) = .ok et) :
    (∃ es, fromStr s = .ok es) ∨ ∃ e, fromStr s = .error (.err e) ∧ Repairable e.type := by
  have tot := C28 s
  unfold fromStr at ht tot ⊢
  cases h2 : Ast1.fromStr (s ++ t) with
  | error f => rw [h2] at ht; cases ht
  | ok dt =>
    rw [h2] at ht
    simp only at ht
    rcases Ast1.C99_prefix s t dt h2 with ⟨ds, h1⟩ | ⟨e, v, h1, hv⟩
    · rw [h1] at tot ⊢
      simp only at tot ⊢
      rcases grown_begins (Ast1.fromStr_grown h1 h2) ht with ⟨h3, h4⟩ | ⟨h3, _⟩
      · rw [h3] at tot ⊢
        rcases h4 with rfl | ⟨e, rfl, h5⟩
        · rcases tot with ⟨_, h⟩ | ⟨_, h⟩ <;> cases h
        · exact .inr ⟨e, rfl, h5.elim .inl fun h => .inr (.inr h)⟩
      · exact .inl ⟨_, h3⟩
    · exact .inr ⟨e, by rw [h1], .inr (.inl ⟨v, hv⟩)⟩

/-- Every other error is final: whatever is written after it, the source is refused. -/
theorem C100_final (s : Str) (e : Error) (he : fromStr s = .error (.err e)) (hr : ¬ Repairable e.type) (t : Str) :
    ∃ f, fromStr (s ++ t) = .error f := by
  rcases h : fromStr (s ++ t) with f | et
  · exact ⟨f, rfl⟩
  · rcases C100_prefix s t et h with ⟨es, h1⟩ | ⟨e', h1, h2⟩
    · rw [he] at h1; cases h1
    · rw [he] at h1; cases h1; exact absurd h2 hr

/-- Each of the errors left can be repaired by writing on. -/
theorem C100_repaired :
    fromStr chars!"\\begin" = .error (.err ⟨1, .noEnvironmentLabel⟩) ∧ (∃ d, fromStr (chars!"\\begin" ++ chars!"s") = .ok d) ∧
    fromStr chars!"\\begin{a}" = .error (.err ⟨1, .unclosedEnvironment chars!"a"⟩) ∧
      (∃ d, fromStr (chars!"\\begin{a}" ++ chars!"\\end{a}") = .ok d) ∧
    fromStr chars!"{" = .error (.err ⟨1, .unclosedScope .curly⟩) ∧ (∃ d, fromStr (chars!"{" ++ chars!"}") = .ok d) ∧
    fromStr chars!"\\a{" = .error (.err ⟨1, .unclosedArgument .curly⟩) ∧ (∃ d, fromStr (chars!"\\a{" ++ chars!"}") = .ok d) := by
  refine ⟨by decide +kernel, ⟨[.mk 1 (.command (.mk chars!"begins" []))], by decide +kernel⟩, by decide +kernel,
    ⟨[.mk 1 (.environment (.mk chars!"a" [] [] [] []))], by decide +kernel⟩, by decide +kernel,
    ⟨[.mk 1 (.scope (.mk [] .curly))], by decide +kernel⟩, by decide +kernel,
    ⟨[.mk 1 (.command (.mk chars!"a" [([], .mk [] .curly)]))], by decide +kernel⟩⟩

end Ast2

namespace Ast3

/-- The beginning of a source that stage 3 accepts is accepted, or refused because it is not finished: as at stage 2, or because
maths is open, or because of a second `\documentclass` whose name may still become longer. In particular it never panics. -/
theorem C100_prefix (s t : Str) (dt : Document) (ht : fromStr (s ++ t) = .ok dt) :
    (∃ ds, fromStr s = .ok ds) ∨ ∃ e, fromStr s = .error (.err e) ∧ Repairable e.type := by
  unfold fromStr at ht ⊢
  cases h2 : Ast2.fromStr (s ++ t) with
  | error f => rw [h2] at ht; cases ht
  | ok et =>
    rw [h2] at ht
    simp only at ht
    rcases Ast2.C100_prefix s t et h2 with ⟨es, h1⟩ | ⟨e, h1, h3⟩
    · rw [h1]
      simp only
      rcases grown_unfinished (Ast2.C100 s t es et h1 h2) ht with ⟨x, h3⟩ | ⟨l, h3 | h3⟩
      · exact .inl ⟨x, h3⟩
      · exact .inr ⟨_, h3, .inr (.inl rfl)⟩
      · exact .inr ⟨_, h3, .inr (.inr rfl)⟩
    · rw [h1]; exact .inr ⟨e, rfl, .inl h3⟩

/-- Every other error is final. -/
theorem C100_final (s : Str) (e : Error) (he : fromStr s = .error (.err e)) (hr : ¬ Repairable e.type) (t : Str) :
    ∃ f, fromStr (s ++ t) = .error f := by
  rcases h : fromStr (s ++ t) with f | et
  · exact ⟨f, rfl⟩
  · rcases C100_prefix s t et h with ⟨es, h1⟩ | ⟨e', h1, h2⟩
    · rw [he] at h1; cases h1
    · rw [he] at h1; cases h1; exact absurd h2 hr

/-- A panic is final too. -/
theorem C100_panic (s : Str) (he : fromStr s = .error .panic) (t : Str) : ∃ f, fromStr (s ++ t) = .error f := by
  rcases h : fromStr (s ++ t) with f | et
  · exact ⟨f, rfl⟩
  · rcases C100_prefix s t et h with ⟨es, h1⟩ | ⟨e', h1, h2⟩
    · rw [he] at h1; cases h1
    · rw [he] at h1; cases h1

/-- The two errors added here can be repaired by writing on. -/
theorem C100_repaired :
    fromStr chars!"$x" = .error (.err ⟨0, .unclosedMaths⟩) ∧
      (fromStr (chars!"$x" ++ chars!"$")).map Document.display = .ok chars!"$x$\\begin{document}\\end{document}" ∧
    fromStr chars!"\\documentclass{a}\\documentclass" = .error (.err ⟨1, .doubleDocumentClass⟩) ∧
      (fromStr (chars!"\\documentclass{a}\\documentclass" ++ chars!"es")).map Document.display =
        .ok chars!"\\documentclass{a}\\documentclasses\\begin{document}\\end{document}" := by
  refine ⟨by decide +kernel, by decide +kernel, by decide +kernel, by decide +kernel⟩

/-- Errors that are final: nothing written after them makes the source acceptable. -/
theorem C100_example :
    fromStr chars!"a\\)" = .error (.err ⟨1, .unexpectedMathsEnd⟩) ∧ ¬ Repairable .unexpectedMathsEnd ∧
    fromStr chars!"\\documentclass{a}{b}" = .error (.err ⟨1, .tooManyArgsDocumentClass⟩) ∧ ¬ Repairable .tooManyArgsDocumentClass := by
  refine ⟨by decide +kernel, ?_, by decide +kernel, ?_⟩ <;> simp [Repairable, Ast2.Repairable]

end Ast3
end LatexAst
