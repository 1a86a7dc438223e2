import Verif.Proofs.LeadingBlanks1
import Verif.Proofs.Grown2

/-!
# Blanks at the beginning of a source, stage 2
-/

namespace LatexAst.Ast2
open Spec

/-- The loop variables, `k` lines further down, with another beginning of the output. -/
structure Down (k : Nat) (A A' : List Chunk) (s s' : State) : Prop where
  chunks : ∃ y, s.chunks = A ++ y ∧ s'.chunks = A' ++ y.map (Chunk.shift k)
  stack : s'.stack = s.stack
  start : s.stack ≠ [] → s'.bufferStart = s.bufferStart + k
  args : s'.envArgs = s.envArgs
  buffer : s'.buffer = s.buffer
  prec : s'.precBegin = s.precBegin

/-- The results agree. -/
inductive DownRes {α : Type} (k : Nat) (P : α → α → Prop) : Res α → Res α → Prop
  | error {f f'} : SameOrDown k f f' → DownRes k P (.error f) (.error f')
  | ok {a b} : P a b → DownRes k P (.ok a) (.ok b)

variable {rec : List Ast1.Chunk → Res (List Chunk)}

theorem addLine_down {α : Type} {k l : Nat} {r : Res α} {f} (h : addLine l r = .error f) : ∃ f', addLine (l + k) r = .error f' ∧ SameOrDown k f f' := by
  cases r with
  | ok a => cases h
  | error g =>
    cases g with
    | err e =>
      simp only [addLine] at h
      injection h with h; subst h
      refine ⟨_, rfl, ?_⟩
      rw [show e.line + (l + k) = e.line + l + k by omega]
      exact .down
    | panic => injection h with h; subst h; exact ⟨_, rfl, .same⟩
    | fuel => injection h with h; subst h; exact ⟨_, rfl, .same⟩

theorem addLine_any {α : Type} {l l' : Nat} {r : Res α} {a} (h : addLine l r = .ok a) : addLine l' r = .ok a := by
  cases r with
  | ok b => exact h
  | error f => cases f <;> cases h

theorem pushBuffer_down {k A A' s s'} (h : Down k A A' s s') (hs : s.stack ≠ []) (l v) :
    DownRes k (Down k A A') (s.pushBuffer l v) (s'.pushBuffer (l + k) v) := by
  have hb := h.start hs
  unfold State.pushBuffer checkedSub panicked
  by_cases hl : s.bufferStart ≤ l
  · rw [if_pos hl, if_pos (by omega)]
    refine .ok ⟨h.chunks, h.stack, h.start, h.args, ?_, h.prec⟩
    simp only [h.buffer, hb]
    rw [show l + k - (s.bufferStart + k) = l - s.bufferStart by omega]
  · rw [if_neg hl, if_neg (by omega)]
    exact .error .same

theorem pushChunks_down {k A A' s s'} (h : Down k A A' s s') (l v) :
    Down k A A' (s.pushChunks l v) (s'.pushChunks (l + k) v) := by
  obtain ⟨y, h1, h2⟩ := h.chunks
  exact ⟨⟨y ++ [.mk l v], by simp [State.pushChunks, h1], by simp [State.pushChunks, h2, Chunk.shift]⟩, h.stack, h.start, h.args, h.buffer, h.prec⟩

theorem begin_down {k A A' s s'} (h : Down k A A' s s') (l first rest) :
    DownRes k (Down k A A') (stepBegin s l first rest) (stepBegin s' (l + k) first rest) := by
  unfold stepBegin
  simp only [h.stack]
  by_cases hs : (s.stack ++ [first.2.chunks]).length = 1
  · rw [if_pos hs, if_pos hs]
    exact .ok ⟨h.chunks, rfl, fun _ => by simp only; omega, rfl, h.buffer, rfl⟩
  · rw [if_neg hs, if_neg hs]
    have hs' : s.stack ≠ [] := by intro e; rw [e] at hs; simp at hs
    exact pushBuffer_down (s := { s with stack := s.stack ++ [first.2.chunks] }) (s' := { s' with stack := s.stack ++ [first.2.chunks] })
      ⟨h.chunks, rfl, fun _ => h.start hs', h.args, h.buffer, h.prec⟩ (by simp) _ _

theorem end_down {k A A' s s'} (h : Down k A A' s s') (l first rest) :
    DownRes k (Down k A A') (stepEnd rec s l first rest) (stepEnd rec s' (l + k) first rest) := by
  unfold stepEnd
  simp only [h.stack]
  by_cases h1 : topIs s.stack first.2.chunks = false
  · rw [if_pos h1, if_pos h1]; exact .error .down
  rw [if_neg h1, if_neg h1]
  by_cases h2 : (first :: rest).length > 1
  · rw [if_pos h2, if_pos h2]; exact .error .down
  rw [if_neg h2, if_neg h2]
  have hs : s.stack ≠ [] := by rintro e; rw [e] at h1; exact h1 rfl
  have hb := h.start hs
  by_cases h3 : s.stack.dropLast.isEmpty = true
  · rw [if_pos h3, if_pos h3]
    rw [h.args, h.buffer, h.prec, hb]
    cases convArgs rec s.envArgs with
    | error f => exact .error .same
    | ok args =>
      simp only
      cases hc : addLine s.bufferStart (rec s.buffer) with
      | error f =>
        obtain ⟨f', e, hf⟩ := addLine_down (k := k) hc
        simp only [e]; exact .error hf
      | ok content =>
        simp only [addLine_any (l' := s.bufferStart + k) hc]
        obtain ⟨y, c1, c2⟩ := h.chunks
        refine .ok ⟨⟨y ++ [.mk s.bufferStart (.environment (.mk (Ast1.displayChunks first.2.chunks) args content s.precBegin first.1))], ?_, ?_⟩,
          rfl, fun _ => rfl, rfl, rfl, rfl⟩
        · simp [c1]
        · simp [c2, Chunk.shift]
  · rw [if_neg h3, if_neg h3]
    exact pushBuffer_down (s := { s with stack := s.stack.dropLast }) (s' := { s' with stack := s.stack.dropLast })
      ⟨h.chunks, rfl, fun _ => hb, h.args, h.buffer, h.prec⟩ (by simpa using h3) _ _

theorem step_down {k A A' s s'} (h : Down k A A' s s') (c : Ast1.Chunk) :
    DownRes k (Down k A A') (step rec s c) (step rec s' (c.shift k)) := by
  obtain ⟨l, v⟩ := c
  simp only [Ast1.Chunk.shift]
  cases v with
  | text t =>
    simp only [step, h.stack]
    by_cases hs : s.stack = []
    · simp only [hs, List.isEmpty_nil, if_true]; exact .ok (pushChunks_down h _ _)
    · have he : s.stack.isEmpty = false := by simpa using hs
      simp only [he, Bool.false_eq_true, if_false]; exact pushBuffer_down h hs _ _
  | scope sc =>
    simp only [step, h.stack]
    by_cases hs : s.stack = []
    · simp only [hs, List.isEmpty_nil, if_true]
      cases hc : addLine l (convScope rec sc) with
      | error f =>
        obtain ⟨f', e, hf⟩ := addLine_down (k := k) hc
        simp only [e]; exact .error hf
      | ok sc' => simp only [addLine_any (l' := l + k) hc]; exact .ok (pushChunks_down h _ _)
    · have he : s.stack.isEmpty = false := by simpa using hs
      simp only [he, Bool.false_eq_true, if_false]; exact pushBuffer_down h hs _ _
  | command cmd =>
    simp only [step, h.stack]
    by_cases hb : cmd.label = chars!"begin" ∨ cmd.label = chars!"end"
    · rw [if_neg (fun k => k hb), if_neg (fun k => k hb)]
      cases cmd.arguments with
      | nil => exact .error .down
      | cons first rest =>
        simp only
        by_cases h1 : first.2.variant ≠ .curly
        · rw [if_pos h1, if_pos h1]; exact .error .down
        rw [if_neg h1, if_neg h1]
        by_cases h2 : cmd.label = chars!"begin"
        · rw [if_pos h2, if_pos h2]; exact begin_down h _ _ _
        · rw [if_neg h2, if_neg h2]; exact end_down h _ _ _
    · rw [if_pos hb, if_pos hb]
      by_cases hs : s.stack = []
      · simp only [hs, List.isEmpty_nil, if_true]
        cases hc : convCommand rec cmd with
        | error f => exact .error .same
        | ok cmd' => exact .ok (pushChunks_down h _ _)
      · have he : s.stack.isEmpty = false := by simpa using hs
        simp only [he, Bool.false_eq_true, if_false]; exact pushBuffer_down h hs _ _

theorem run_down {k A A'} (cs : List Ast1.Chunk) : ∀ {s s'}, Down k A A' s s' →
    DownRes k (Down k A A') (run rec cs s) (run rec (cs.map (Ast1.Chunk.shift k)) s') := by
  induction cs with
  | nil => intro s s' h; exact .ok h
  | cons c cs ih =>
    intro s s' h
    have := step_down (rec := rec) h c
    simp only [List.map_cons, run]
    revert this
    generalize step rec s c = x
    generalize step rec s' (c.shift k) = y
    intro this
    cases this with
    | error hf => exact .error hf
    | ok h => exact ih h

theorem finish_down {k A A' s s'} (h : Down k A A' s s') :
    DownRes k (fun a b => ∃ y, a = A ++ y ∧ b = A' ++ y.map (Chunk.shift k)) (finish s) (finish s') := by
  unfold finish
  rw [h.stack]
  cases hs : s.stack with
  | nil => exact .ok h.chunks
  | cons lab st =>
    simp only
    rw [h.start (by simp [hs])]
    exact .error .down

theorem tryFrom_text_cons (l t) (cs : List Ast1.Chunk) : tryFrom (.mk l (.text t) :: cs) =
    runOut cs ⟨[.mk l (.text t)], [], 0, [], [], []⟩ := by
  rw [tryFrom_runOut, runOut_step (s' := ⟨[.mk l (.text t)], [], 0, [], [], []⟩)]
  simp [step, State.init, State.pushChunks]

theorem both_down {k A A' : _} {s s' : State} (h : Down k A A' s s') (cs : List Ast1.Chunk) :
    DownRes k (fun a b => ∃ y, a = A ++ y ∧ b = A' ++ y.map (Chunk.shift k)) (runOut cs s) (runOut (cs.map (Ast1.Chunk.shift k)) s') := by
  have := run_down (rec := tryFrom) cs h
  unfold runOut
  revert this
  generalize run tryFrom cs s = x
  generalize run tryFrom (cs.map (Ast1.Chunk.shift k)) s' = y
  intro this
  cases this with
  | error hf => exact .error hf
  | ok h => exact finish_down h

theorem DownRes.mono {α : Type} {k} {P Q : α → α → Prop} {r r'} (h : DownRes k P r r') (hi : ∀ a b, P a b → Q a b) : DownRes k Q r r' := by
  cases h with
  | error hf => exact .error hf
  | ok h => exact .ok (hi _ _ h)

/-- What stage 2 makes of blanks at the beginning. -/
inductive LedC (w : Str) : List Chunk → List Chunk → Prop
  | added {cs} : LedC w cs (.mk 1 (.text w) :: cs.map (Chunk.shift (w.count '\n')))
  | longer {t cs} : LedC w (.mk 1 (.text t) :: cs) (.mk 1 (.text (w ++ t)) :: cs.map (Chunk.shift (w.count '\n')))

theorem tryFrom_longer (w t : Str) (cs : List Ast1.Chunk) :
    DownRes (w.count '\n') (fun a b => ∃ y, a = .mk 1 (.text t) :: y ∧ b = .mk 1 (.text (w ++ t)) :: y.map (Chunk.shift (w.count '\n')))
      (tryFrom (.mk 1 (.text t) :: cs)) (tryFrom (.mk 1 (.text (w ++ t)) :: cs.map (Ast1.Chunk.shift (w.count '\n')))) := by
  rw [tryFrom_text_cons, tryFrom_text_cons]
  have hd : Down (w.count '\n') [.mk 1 (.text t)] [.mk 1 (.text (w ++ t))] ⟨[.mk 1 (.text t)], [], 0, [], [], []⟩
      ⟨[.mk 1 (.text (w ++ t))], [], 0, [], [], []⟩ :=
    ⟨⟨[], rfl, rfl⟩, rfl, fun h => absurd rfl h, rfl, rfl, rfl⟩
  exact both_down hd cs

theorem tryFrom_led {w d d'} (h : Ast1.Led w d d') : DownRes (w.count '\n') (LedC w) (tryFrom d) (tryFrom d') := by
  cases h with
  | added =>
    rw [tryFrom_text_cons, tryFrom_runOut d]
    have hd : Down (w.count '\n') [] [.mk 1 (.text w)] State.init ⟨[.mk 1 (.text w)], [], 0, [], [], []⟩ :=
      ⟨⟨[], rfl, rfl⟩, rfl, fun h => absurd rfl h, rfl, rfl, rfl⟩
    refine (both_down hd d).mono ?_
    rintro a b ⟨y, rfl, rfl⟩
    exact .added
  | @longer t cs =>
    refine (tryFrom_longer w t cs).mono ?_
    rintro a b ⟨y, rfl, rfl⟩
    exact .longer

end LatexAst.Ast2
