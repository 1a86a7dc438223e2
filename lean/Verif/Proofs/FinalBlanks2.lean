import Verif.Proofs.FinalBlanks1
import Verif.Proofs.Grown2

/-!
# Blanks at the end of a source, stage 2
-/

namespace LatexAst.Ast2
open Spec

variable {rec : List Ast1.Chunk → Res (List Chunk)}

/-- Blanks at the end, stage 2. -/
inductive Ends (w : Str) : Res (List Chunk) → Res (List Chunk) → Prop
  | error {f} : Ends w (.error f) (.error f)
  | added {cs l} : Ends w (.ok cs) (.ok (cs ++ [.mk l (.text w)]))
  | longer {cs l t} : Ends w (.ok (cs ++ [.mk l (.text t)])) (.ok (cs ++ [.mk l (.text (t ++ w))]))
  | blanks {cs l k l'} : Blank k → Ends w (.ok (cs ++ [.mk l (.text k)])) (.ok (cs ++ [.mk l' (.text (k ++ w))]))

/-- A last text. -/
theorem last_text {cs : List Ast1.Chunk} {l t} (hp : tryFrom (cs ++ [.mk l (.text t)]) ≠ .error .panic) {s : State}
    (h : run tryFrom cs State.init = .ok s) :
    tryFrom (cs ++ [.mk l (.text t)]) = if s.stack = [] then .ok (s.chunks ++ [.mk l (.text t)]) else finish s := by
  rw [tryFrom_eq, convWith, run_append, h] at hp ⊢
  by_cases hs : s.stack = []
  · simp [run, step, hs, finish, State.pushChunks]
  · have he : s.stack.isEmpty = false := by simpa using hs
    simp only [run, step, he, Bool.false_eq_true, if_false, hs] at hp ⊢
    unfold State.pushBuffer at hp ⊢
    unfold checkedSub panicked at hp ⊢
    by_cases hl : s.bufferStart ≤ l
    · rw [if_pos hl]
      rfl
    · exact absurd (by rw [if_neg hl]) hp

theorem last_error {cs b : List Ast1.Chunk} {f} (h : run tryFrom cs State.init = .error f) : tryFrom (cs ++ b) = .error f := by
  rw [tryFrom_eq, convWith, run_append, h]

theorem tryFrom_ends {w d d'} (h : Ast1.Ends w (.ok d) (.ok d')) (hp : tryFrom d ≠ .error .panic) (hp' : tryFrom d' ≠ .error .panic) :
    Ends w (tryFrom d) (tryFrom d') := by
  have key : ∀ {cs l t l' t'}, tryFrom (cs ++ [.mk l (.text t)]) ≠ .error .panic → tryFrom (cs ++ [.mk l' (.text t')]) ≠ .error .panic →
      (∀ e, Ends w (.ok (e ++ [.mk l (.text t)])) (.ok (e ++ [.mk l' (.text t')]))) →
      Ends w (tryFrom (cs ++ [.mk l (.text t)])) (tryFrom (cs ++ [.mk l' (.text t')])) := by
    intro cs l t l' t' h1 h2 h3
    cases hr : run tryFrom cs State.init with
    | error f => rw [last_error hr, last_error hr]; exact .error
    | ok s =>
      rw [last_text h1 hr, last_text h2 hr]
      by_cases hs : s.stack = []
      · rw [if_pos hs, if_pos hs]; exact h3 _
      · rw [if_neg hs, if_neg hs]
        obtain ⟨f, hf, _⟩ := finish_open hs
        rw [hf]; exact .error
  cases h with
  | added =>
    cases hr : run tryFrom d State.init with
    | error f =>
      rw [last_error hr]
      have := last_error (b := []) hr
      rw [List.append_nil] at this
      rw [this]; exact .error
    | ok s =>
      rw [last_text hp' hr, tryFrom_eq, convWith, hr]
      by_cases hs : s.stack = []
      · rw [if_pos hs]; simp only [finish, hs]; exact .added
      · rw [if_neg hs]
        obtain ⟨f, hf, _⟩ := finish_open hs
        simp only [hf]; exact .error
  | longer => exact key hp hp' fun e => .longer
  | blanks hk => exact key hp hp' fun e => .blanks hk

/-- A converted sequence ends with a text only if the sequence did. -/
theorem text_last {d e0 l t} (h : tryFrom d = .ok (e0 ++ [.mk l (.text t)])) : ∃ init l' t', d = init ++ [.mk l' (.text t')] := by
  rcases List.eq_nil_or_concat d with rfl | ⟨init, c, rfl⟩
  · rw [tryFrom_eq] at h; simp [convWith, run, finish, State.init] at h
  · rw [List.concat_eq_append] at h ⊢
    rw [tryFrom_eq, convWith, run_append] at h
    cases hr : run tryFrom init State.init with
    | error f => rw [hr] at h; cases h
    | ok s =>
      rw [hr] at h
      simp only [run] at h
      obtain ⟨lc, v⟩ := c
      have last : ∀ {a b : List Chunk} {x y}, a ++ [x] = b ++ [y] → x = y := fun e => (List.append_inj' e rfl).2 |> fun e => by simpa using e
      have open_ : ∀ {s' : State}, s'.stack ≠ [] → finish s' ≠ .ok (e0 ++ [.mk l (.text t)]) := by
        intro s' hs hh
        obtain ⟨f, hf, _⟩ := finish_open hs
        rw [hf] at hh; cases hh
      have buf : ∀ {s0 : State} {v s'}, s0.stack ≠ [] → s0.pushBuffer lc v = .ok s' → finish s' ≠ .ok (e0 ++ [.mk l (.text t)]) := by
        intro s0 v s' hs hp
        apply open_
        rw [(pushBuffer_inv hp).1]; exact hs
      cases v with
      | text t' => exact ⟨_, _, _, rfl⟩
      | scope sc =>
        exfalso
        cases hstep : step tryFrom s (.mk lc (.scope sc)) with
        | error f => rw [hstep] at h; cases h
        | ok s' =>
          rw [hstep] at h; simp only at h
          simp only [step] at hstep
          by_cases hs : s.stack = []
          · rw [hs] at hstep
            simp only [List.isEmpty_nil, if_true] at hstep
            rcases hc : addLine lc (convScope tryFrom sc) with f | sc'
            · rw [hc] at hstep; cases hstep
            · rw [hc] at hstep; simp only [Except.ok.injEq] at hstep; subst hstep
              simp only [finish, State.pushChunks, hs, Except.ok.injEq] at h
              have := last h; simp at this
          · have he : s.stack.isEmpty = false := by simpa using hs
            simp only [he, Bool.false_eq_true, if_false] at hstep
            exact buf hs hstep h
      | command cmd =>
        exfalso
        cases hstep : step tryFrom s (.mk lc (.command cmd)) with
        | error f => rw [hstep] at h; cases h
        | ok s' =>
          rw [hstep] at h; simp only at h
          simp only [step] at hstep
          by_cases hb : cmd.label = chars!"begin" ∨ cmd.label = chars!"end"
          · rw [if_neg (fun k => k hb)] at hstep
            cases ha : cmd.arguments with
            | nil => rw [ha] at hstep; cases hstep
            | cons first rest =>
              rw [ha] at hstep; simp only at hstep
              split at hstep
              · cases hstep
              split at hstep
              · simp only [stepBegin] at hstep
                split at hstep
                · injection hstep with hstep; subst hstep
                  exact open_ (by simp) h
                · exact buf (by simp) hstep h
              · simp only [stepEnd] at hstep
                split at hstep
                · cases hstep
                split at hstep
                · cases hstep
                split at hstep
                · rename_i hs
                  rcases hc : convArgs tryFrom s.envArgs with f | args
                  · rw [hc] at hstep; cases hstep
                  · rw [hc] at hstep; simp only at hstep
                    rcases hc2 : addLine s.bufferStart (tryFrom s.buffer) with f | content
                    · rw [hc2] at hstep; cases hstep
                    · rw [hc2] at hstep; simp only [Except.ok.injEq] at hstep; subst hstep
                      have hs' : s.stack.dropLast = [] := by simpa using hs
                      simp only [finish, hs', Except.ok.injEq] at h
                      have := last h; simp at this
                · rename_i hs
                  exact buf (by simpa using hs) hstep h
          · rw [if_pos hb] at hstep
            by_cases hs : s.stack = []
            · rw [hs] at hstep
              simp only [List.isEmpty_nil, if_true] at hstep
              rcases hc : convCommand tryFrom cmd with f | sc'
              · rw [hc] at hstep; cases hstep
              · rw [hc] at hstep; simp only [Except.ok.injEq] at hstep; subst hstep
                simp only [finish, State.pushChunks, hs, Except.ok.injEq] at h
                have := last h; simp at this
            · have he : s.stack.isEmpty = false := by simpa using hs
              simp only [he, Bool.false_eq_true, if_false] at hstep
              exact buf hs hstep h

end LatexAst.Ast2
