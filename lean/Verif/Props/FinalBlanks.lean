import Verif.Proofs.FinalBlanks3
import Verif.Props.Environments
import Verif.Model.Eq1
import Verif.Model.Eq2
import Verif.Model.Eq3

/-!
# C102: blanks at the end of a source
-/

namespace LatexAst.Spec

theorem FinalBlanks.blank {w} (h : FinalBlanks w) : Blank w := by
  obtain ⟨r, rfl, hr⟩ := h
  intro c hc
  rcases List.mem_cons.1 hc with rfl | hc
  · decide
  · exact hr c hc

end LatexAst.Spec

namespace LatexAst.Ast1
open Spec

theorem Ends.blanked {w d d'} (hn : ∀ pre post l l' t t', d' ≠ pre ++ .mk l (.text t) :: .mk l' (.text t') :: post)
    (h : Ends w (.ok d) (.ok d')) : Blanked w d d' := by
  cases h with
  | @added _ l => exact .added fun init l' t e => hn init [] l' l t w (by rw [e]; simp)
  | longer => exact .longer
  | blanks hk => exact .blanks hk

/-- C102, stage 1: a line end and blanks after the source do not change an error (not even its line), and in the document they only
add to the text at the end. -/
theorem C102 (s w : Str) (hs : EndsClosed s) (hw : FinalBlanks w) :
    (∀ f, fromStr (s ++ w) = .error f ↔ fromStr s = .error f) ∧
    (∀ d, fromStr s = .ok d → ∃ d', fromStr (s ++ w) = .ok d' ∧ Blanked w d d') := by
  have h := fromStr_ends hs hw
  refine ⟨fun f => ?_, fun d hd => ?_⟩
  · revert h
    generalize fromStr s = x
    generalize fromStr (s ++ w) = y
    intro h
    cases h <;> simp
  · cases hd' : fromStr (s ++ w) with
    | error f => rw [hd, hd'] at h; cases h
    | ok d' =>
      rw [hd, hd'] at h
      exact ⟨d', rfl, h.blanked (C09 _ _ hd' d' .top).2.1⟩

/-- C102 on a paragraph, after a command and after an error. -/
theorem C102_example :
    EndsClosed chars!"a \\b" ∧ FinalBlanks chars!"\n \n" ∧
    fromStr chars!"a \\b" = .ok [.mk 1 (.text chars!"a "), .mk 1 (.command (.mk chars!"b" []))] ∧
    fromStr chars!"a \\b\n \n" = .ok [.mk 1 (.text chars!"a "), .mk 1 (.command (.mk chars!"b" [])), .mk 3 (.text chars!"\n \n")] ∧
    fromStr chars!"a\n" = .ok [.mk 1 (.text chars!"a\n")] ∧
    fromStr chars!"\na{b" = fail 2 (.unclosedScope .curly) ∧ fromStr chars!"\na{b\n \n" = fail 2 (.unclosedScope .curly) :=
  ⟨trivial, ⟨chars!" \n", rfl, by unfold Blank; decide⟩, by decide +kernel, by decide +kernel, by decide +kernel, by decide +kernel, by decide +kernel⟩

/-- The condition is needed: a line end after a last backslash is a command. -/
theorem C102_needed : ¬ EndsClosed chars!"a\\" ∧ fromStr chars!"a\\" = .ok [.mk 1 (.text chars!"a")] ∧
    fromStr chars!"a\\\n" = .ok [.mk 1 (.text chars!"a"), .mk 2 (.command (.mk chars!"\n" []))] :=
  ⟨fun h => h, by decide +kernel, by decide +kernel⟩

end LatexAst.Ast1

namespace LatexAst.Ast2
open Spec

theorem fromStr_ends {s w : Str} (hs : EndsClosed s) (hw : FinalBlanks w) : Ends w (fromStr s) (fromStr (s ++ w)) := by
  have h := Ast1.fromStr_ends hs hw
  unfold fromStr
  cases h1 : Ast1.fromStr s with
  | error f =>
    cases h2 : Ast1.fromStr (s ++ w) with
    | error f' => rw [h1, h2] at h; cases h; exact .error
    | ok d' => rw [h1, h2] at h; cases h
  | ok d =>
    cases h2 : Ast1.fromStr (s ++ w) with
    | error f' => rw [h1, h2] at h; cases h
    | ok d' =>
      rw [h1, h2] at h
      exact tryFrom_ends h (tryFrom_no_panic (Ast1.sane_numbered (Ast1.sane_parsed h1))) (tryFrom_no_panic (Ast1.sane_numbered (Ast1.sane_parsed h2)))

/-- C102, stage 2. -/
theorem C102 (s w : Str) (hs : EndsClosed s) (hw : FinalBlanks w) :
    (∀ f, fromStr (s ++ w) = .error f ↔ fromStr s = .error f) ∧
    (∀ e, fromStr s = .ok e → ∃ e', fromStr (s ++ w) = .ok e' ∧ Blanked w e e') := by
  have h := fromStr_ends hs hw
  refine ⟨fun f => ?_, fun e he => ?_⟩
  · revert h
    generalize fromStr s = x
    generalize fromStr (s ++ w) = y
    intro h
    cases h <;> simp
  · cases he' : fromStr (s ++ w) with
    | error f => rw [he, he'] at h; cases h
    | ok e' =>
      rw [he, he'] at h
      refine ⟨e', rfl, ?_⟩
      cases h with
      | longer => exact .longer
      | blanks hk => exact .blanks hk
      | @added _ l =>
        refine .added fun init l' t e1 => ?_
        -- the stage-1 documents end with a text, too, and only the second with one more
        have h1 := Ast1.C102 s w hs hw
        unfold fromStr at he he'
        cases hd : Ast1.fromStr s with
        | error f => rw [hd] at he; cases he
        | ok d =>
          obtain ⟨d', hd', hb⟩ := h1.2 d hd
          rw [hd] at he; rw [hd'] at he'
          simp only at he he'
          rw [e1] at he he'
          obtain ⟨i1, l1, t1, e2⟩ := text_last he
          have two : ∀ {cs : List Ast1.Chunk} {l0 t0 x}, tryFrom (cs ++ [.mk l0 (.text t0)]) = .ok x →
              ∃ y, tryFrom cs = .ok y ∧ x = y ++ [.mk l0 (.text t0)] := by
            intro cs l0 t0 x hx
            have hp : tryFrom (cs ++ [.mk l0 (.text t0)]) ≠ .error .panic := by rw [hx]; simp
            cases hr : run tryFrom cs State.init with
            | error f => rw [last_error hr] at hx; cases hx
            | ok s0 =>
              rw [last_text hp hr] at hx
              by_cases hs0 : s0.stack = []
              · rw [if_pos hs0] at hx
                exact ⟨s0.chunks, tryFrom_run hr hs0, by injection hx with hx; exact hx.symm⟩
              · rw [if_neg hs0] at hx
                obtain ⟨f, hf, _⟩ := finish_open hs0
                rw [hf] at hx; cases hx
          have len : ∀ {x y : List Chunk} {a b : Chunk} {c : Chunk}, x ++ [a] = y → y ++ [b] = x ++ [c] → False := by
            intro x y a b c k1 k2
            have := congrArg List.length k2
            rw [← k1] at this; simp at this
          cases hb with
          | added hb => exact hb _ _ _ e2
          | longer =>
            obtain ⟨y, k1, k2⟩ := two he
            obtain ⟨y', k3, k4⟩ := two he'
            rw [k1] at k3; injection k3 with k3; subst k3
            exact len k2.symm k4
          | blanks _ =>
            obtain ⟨y, k1, k2⟩ := two he
            obtain ⟨y', k3, k4⟩ := two he'
            rw [k1] at k3; injection k3 with k3; subst k3
            exact len k2.symm k4

/-- C102 after an environment and in an open one. -/
theorem C102_example :
    fromStr chars!"\\begin{a}b\\end{a}" = .ok [.mk 1 (.environment (.mk chars!"a" [] [.mk 1 (.text chars!"b")] [] []))] ∧
    fromStr chars!"\\begin{a}b\\end{a}\n" =
      .ok [.mk 1 (.environment (.mk chars!"a" [] [.mk 1 (.text chars!"b")] [] [])), .mk 2 (.text chars!"\n")] ∧
    fromStr chars!"\\begin{a}b" = fail 1 (.unclosedEnvironment chars!"a") ∧
    fromStr chars!"\\begin{a}b\n" = fail 1 (.unclosedEnvironment chars!"a") :=
  ⟨by decide +kernel, by decide +kernel, by decide +kernel, by decide +kernel⟩

end LatexAst.Ast2

namespace LatexAst.Ast3
open Spec

/-- C102, stage 3. -/
theorem C102 (s w : Str) (hs : EndsClosed s) (hw : FinalBlanks w) :
    (∀ f, fromStr (s ++ w) = .error f ↔ fromStr s = .error f) ∧
    (∀ d, fromStr s = .ok d → ∃ d', fromStr (s ++ w) = .ok d' ∧ Blanked w d d') := by
  have h : Ends w (fromStr s) (fromStr (s ++ w)) := by
    have h := Ast2.fromStr_ends hs hw
    unfold fromStr
    cases h1 : Ast2.fromStr s with
    | error f =>
      cases h2 : Ast2.fromStr (s ++ w) with
      | error f' => rw [h1, h2] at h; cases h; exact .error
      | ok d' => rw [h1, h2] at h; cases h
    | ok d =>
      cases h2 : Ast2.fromStr (s ++ w) with
      | error f' => rw [h1, h2] at h; cases h
      | ok d' => rw [h1, h2] at h; exact tryFrom_ends hw.blank (endsC_of h)
  refine ⟨fun f => ?_, fun e he => ?_⟩
  · revert h
    generalize fromStr s = x
    generalize fromStr (s ++ w) = y
    intro h
    cases h <;> simp
  · cases he' : fromStr (s ++ w) with
    | error f => rw [he, he'] at h; cases h
    | ok e' =>
      rw [he, he'] at h
      cases h with
      | ok hb => exact ⟨_, rfl, hb⟩

/-- C102 in a preamble, after the document environment, and after unclosed maths. -/
theorem C102_example :
    fromStr chars!"a\n" = .ok { Document.default with preamable := [.mk 1 (.text chars!"a\n")] } ∧
    fromStr chars!"\\begin{document}\\end{document}" = .ok Document.default ∧
    fromStr chars!"\\begin{document}\\end{document}\n" = .ok { Document.default with trailing := [.mk 2 (.text chars!"\n")] } ∧
    fromStr chars!"\n\\(a" = fail 2 .unclosedMaths ∧ fromStr chars!"\n\\(a\n" = fail 2 .unclosedMaths :=
  ⟨by decide +kernel, by decide +kernel, by decide +kernel, by decide +kernel, by decide +kernel⟩

end LatexAst.Ast3
