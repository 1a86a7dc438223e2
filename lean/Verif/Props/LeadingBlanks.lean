import Verif.Proofs.LeadingBlanks3
import Verif.Props.Environments
import Verif.Model.Eq1
import Verif.Model.Eq2
import Verif.Model.Eq3

/-!
# C103: blanks at the beginning of a source
-/

namespace LatexAst.Ast1
open Spec

/-- C103, stage 1: blanks before the source move errors down by their line ends, and in the document they only add to the text at the
beginning and move the rest down. -/
theorem C103 (s w : Str) (hw : Blank w) (hne : w ≠ []) :
    (∀ e, fromStr s = .error (.err e) → fromStr (w ++ s) = .error (.err ⟨e.line + w.count '\n', e.type⟩)) ∧
    (∀ d, fromStr s = .ok d → ∃ d', fromStr (w ++ s) = .ok d' ∧ Led w d d') := by
  rcases fromStr_led (s := s) hw hne with ⟨e, h1, h2⟩ | ⟨d, d', h1, h2, h3⟩
  · refine ⟨fun e' he => ?_, fun d hd => ?_⟩
    · rw [h1] at he; injection he with he; injection he with he; subst he; exact h2
    · rw [h1] at hd; cases hd
  · refine ⟨fun e' he => ?_, fun d0 hd => ?_⟩
    · rw [h1] at he; cases he
    · rw [h1] at hd; injection hd with hd; subst hd; exact ⟨d', h2, h3⟩

/-- C103 before a text, before a command and before an error. -/
theorem C103_example :
    fromStr chars!"a\\b" = .ok [.mk 1 (.text chars!"a"), .mk 1 (.command (.mk chars!"b" []))] ∧
    fromStr chars!"\n \na\\b" = .ok [.mk 1 (.text chars!"\n \na"), .mk 3 (.command (.mk chars!"b" []))] ∧
    fromStr chars!"\\b" = .ok [.mk 1 (.command (.mk chars!"b" []))] ∧
    fromStr chars!"\n\\b" = .ok [.mk 1 (.text chars!"\n"), .mk 2 (.command (.mk chars!"b" []))] ∧
    fromStr chars!"\\b{(}" = fail 1 (.unclosedScope .round) ∧ fromStr chars!"\n\\b{(}" = fail 2 (.unclosedScope .round) :=
  ⟨by decide +kernel, by decide +kernel, by decide +kernel, by decide +kernel, by decide +kernel, by decide +kernel⟩

end LatexAst.Ast1

namespace LatexAst.Ast2
open Spec

theorem shape_nil {R d} (h : Shape R d []) : d = [] := by
  generalize he : ([] : List Chunk) = e at h
  cases h <;> simp_all

theorem shape_first {R d e} (h : Shape R d e) : ∀ {l t r}, e = .mk l (.text t) :: r → ∃ l' t' r', d = .mk l' (.text t') :: r' := by
  have key : ∀ {d e : _} {x : List Ast1.Chunk} {y : Chunk}, Shape R d e →
      (∀ {l t r}, e = .mk l (.text t) :: r → ∃ l' t' r', d = .mk l' (.text t') :: r') →
      ∀ {l t r}, e ++ [y] = .mk l (.text t) :: r → (y = .mk l (.text t) → ∃ l' t' r', x = .mk l' (.text t') :: r') →
      ∃ l' t' r', d ++ x = .mk l' (.text t') :: r' := by
    intro d e x y hs ih l t r he hx
    cases e with
    | nil =>
      have := shape_nil hs
      subst this
      simp only [List.nil_append, List.cons.injEq] at he
      simpa using hx he.1
    | cons c e =>
      simp only [List.cons_append, List.cons.injEq] at he
      obtain ⟨l', t', r', rfl⟩ := ih (l := l) (t := t) (r := e) (by rw [he.1])
      exact ⟨l', t', r' ++ x, rfl⟩
  induction h with
  | nil => intro l t r he; cases he
  | text hs ih => intro l t r he; exact key hs ih he fun _ => ⟨_, _, _, rfl⟩
  | scope hs _ ih => intro l t r he; exact key hs ih he fun h => by simp at h
  | command hs _ _ _ ih => intro l t r he; exact key hs ih he fun h => by simp at h
  | env hs _ _ _ _ ih => intro l t r he; exact key hs ih he fun h => by simp at h

theorem fromStr_led {s w : Str} (hw : Blank w) (hne : w ≠ []) : DownRes (w.count '\n') (LedC w) (fromStr s) (fromStr (w ++ s)) := by
  unfold fromStr
  rcases Ast1.fromStr_led (s := s) hw hne with ⟨e, h1, h2⟩ | ⟨d, d', h1, h2, h3⟩
  · rw [h1, h2]; exact .error .down
  · rw [h1, h2]; exact tryFrom_led h3

/-- C103, stage 2. -/
theorem C103 (s w : Str) (hw : Blank w) (hne : w ≠ []) :
    (∀ f, fromStr s = .error f → ∃ f', fromStr (w ++ s) = .error f' ∧ SameOrDown (w.count '\n') f f') ∧
    (∀ e, fromStr s = .ok e → ∃ e', fromStr (w ++ s) = .ok e' ∧ Led w e e') := by
  refine ⟨fun f hf => ?_, fun e he => ?_⟩
  · have h := fromStr_led (s := s) hw hne
    rw [hf] at h
    cases hy : fromStr (w ++ s) with
    | error f' => rw [hy] at h; cases h with | error h => exact ⟨f', rfl, h⟩
    | ok e' => rw [hy] at h; cases h
  · unfold fromStr at he ⊢
    cases hd : Ast1.fromStr s with
    | error f => rw [hd] at he; cases he
    | ok d =>
      rw [hd] at he
      obtain ⟨d', hd', hl⟩ := (Ast1.C103 s w hw hne).2 d hd
      rw [hd']
      simp only at he ⊢
      have h := tryFrom_led hl
      rw [he] at h
      cases hy : tryFrom d' with
      | error f' => rw [hy] at h; cases h
      | ok e' =>
        rw [hy] at h
        refine ⟨e', rfl, ?_⟩
        cases hl with
        | @longer t cs =>
          have h := tryFrom_longer w t cs
          rw [he, hy] at h
          cases h with
          | ok h => obtain ⟨y, rfl, rfl⟩ := h; exact .longer
        | added hn =>
          cases h with
          | ok h =>
            have hnt : ∀ l t r, e ≠ .mk l (.text t) :: r := by
              intro l t r hh
              obtain ⟨l', t', r', h1⟩ := shape_first (tryFrom_shape he) hh
              exact hn _ _ _ h1
            cases h with
            | longer => exact absurd rfl (hnt _ _ _)
            | added => exact .added hnt

/-- C103 before an environment and before errors: a problem at top level or in a scope moves down, one in an argument does not. -/
theorem C103_example :
    fromStr chars!"\\begin{a}b\\end{a}" = .ok [.mk 1 (.environment (.mk chars!"a" [] [.mk 1 (.text chars!"b")] [] []))] ∧
    fromStr chars!"\n\\begin{a}b\\end{a}" =
      .ok [.mk 1 (.text chars!"\n"), .mk 2 (.environment (.mk chars!"a" [] [.mk 1 (.text chars!"b")] [] []))] ∧
    fromStr chars!"\\begin{a}b" = fail 1 (.unclosedEnvironment chars!"a") ∧
    fromStr chars!"\n\\begin{a}b" = fail 2 (.unclosedEnvironment chars!"a") ∧
    fromStr chars!"\\b[\\begin{a}]" = fail 1 (.unclosedEnvironment chars!"a") ∧
    fromStr chars!"\n\\b[\\begin{a}]" = fail 1 (.unclosedEnvironment chars!"a") :=
  ⟨by decide +kernel, by decide +kernel, by decide +kernel, by decide +kernel, by decide +kernel, by decide +kernel⟩

end LatexAst.Ast2

namespace LatexAst.Ast3
open Spec
open Ast2 (DownRes)

/-- C103, stage 3. -/
theorem C103 (s w : Str) (hw : Blank w) (hne : w ≠ []) :
    (∀ f, fromStr s = .error f → ∃ f', fromStr (w ++ s) = .error f' ∧ SameOrDown (w.count '\n') f f') ∧
    (∀ d, fromStr s = .ok d → ∃ d', fromStr (w ++ s) = .ok d' ∧ Led w d d') := by
  have h : DownRes (w.count '\n') (Led w) (fromStr s) (fromStr (w ++ s)) := by
    have h := Ast2.fromStr_led (s := s) hw hne
    unfold fromStr
    cases h1 : Ast2.fromStr s with
    | error f =>
      cases h2 : Ast2.fromStr (w ++ s) with
      | error f' => rw [h1, h2] at h; cases h with | error h => exact .error h
      | ok d' => rw [h1, h2] at h; cases h
    | ok d =>
      cases h2 : Ast2.fromStr (w ++ s) with
      | error f' => rw [h1, h2] at h; cases h
      | ok d' =>
        rw [h1, h2] at h
        cases h with
        | ok h => exact tryFrom_led hw h fun c hc => (Ast2.level_lines h1 .top hc).1
  refine ⟨fun f hf => ?_, fun d hd => ?_⟩
  · rw [hf] at h
    cases hy : fromStr (w ++ s) with
    | error f' => rw [hy] at h; cases h with | error h => exact ⟨f', rfl, h⟩
    | ok e' => rw [hy] at h; cases h
  · rw [hd] at h
    cases hy : fromStr (w ++ s) with
    | error f' => rw [hy] at h; cases h
    | ok e' => rw [hy] at h; cases h with | ok h => exact ⟨_, rfl, h⟩

/-- C103: in particular, a source is accepted with blanks before it if and only if it is accepted without. -/
theorem C103_accepted (s w : Str) (hw : Blank w) : (∃ d, fromStr (w ++ s) = .ok d) ↔ ∃ d, fromStr s = .ok d := by
  by_cases hne : w = []
  · subst hne; exact Iff.rfl
  · obtain ⟨h1, h2⟩ := C103 s w hw hne
    constructor
    · rintro ⟨d, hd⟩
      cases hs : fromStr s with
      | ok d => exact ⟨d, rfl⟩
      | error f =>
        obtain ⟨f', hf, _⟩ := h1 f hs
        rw [hf] at hd; cases hd
    · rintro ⟨d, hd⟩
      obtain ⟨d', hd', _⟩ := h2 d hd
      exact ⟨d', hd'⟩

/-- C103 with maths in the first text; a blank line before it becomes a paragraph break. -/
theorem C103_example :
    fromStr chars!"a$b$" = .ok { Document.default with preamable := [.mk 1 (.text chars!"a"),
      .mk 1 (.mathsBlock (.mk .dollars .inline [.mk 1 (.text chars!"b")]))] } ∧
    fromStr chars!"\n\na$b$" = .ok { Document.default with preamable := [.mk 1 (.paragraphBreak chars!"\n\n"), .mk 3 (.text chars!"a"),
      .mk 3 (.mathsBlock (.mk .dollars .inline [.mk 1 (.text chars!"b")]))] } ∧
    fromStr chars!"\\)" = fail 1 .unexpectedMathsEnd ∧ fromStr chars!"\n\\)" = fail 2 .unexpectedMathsEnd ∧
    fromStr chars!"$" = fail 0 .unclosedMaths ∧ fromStr chars!"\n$" = fail 0 .unclosedMaths :=
  ⟨by decide +kernel, by decide +kernel, by decide +kernel, by decide +kernel, by decide +kernel, by decide +kernel⟩

end LatexAst.Ast3
