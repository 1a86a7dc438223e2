import Verif.Proofs.Grown1
import Verif.Proofs.Conversion3

/-!
# Typing on, stage 2
-/

namespace LatexAst.Ast2
open Spec

variable {rec : List Ast1.Chunk → Res (List Chunk)}

/-- Failures that more source may repair (a panic never happens on parsed documents). -/
def Early (f : Fail) : Prop :=
  f = .panic ∨ ∃ e, f = .err e ∧ (e.type = .noEnvironmentLabel ∨ ∃ lab, e.type = .unclosedEnvironment lab)

theorem convArgs_split {a b : List (Str × Ast1.Scope)} {y} (h : convArgs rec (a ++ b) = .ok y) :
    ∃ y1 y2, y = y1 ++ y2 ∧ convArgs rec a = .ok y1 ∧ convArgs rec b = .ok y2 := by
  induction a generalizing y with
  | nil => exact ⟨[], y, rfl, rfl, h⟩
  | cons x a ih =>
    obtain ⟨p, sc⟩ := x
    simp only [List.cons_append, convArgs] at h ⊢
    rcases h1 : convScope rec sc with f | s
    · rw [h1] at h; cases h
    · rw [h1] at h; simp only at h
      rcases h2 : convArgs rec (a ++ b) with f | as
      · rw [h2] at h; cases h
      · rw [h2] at h; simp only at h; injection h with h; subst h
        obtain ⟨y1, y2, rfl, h3, h4⟩ := ih h2
        exact ⟨(p, s) :: y1, y2, rfl, by simp [h3], h4⟩

theorem pushBuffer_early {s : State} {l v} : (∃ s', s.pushBuffer l v = .ok s' ∧ s'.stack = s.stack) ∨ s.pushBuffer l v = .error .panic := by
  unfold State.pushBuffer checkedSub
  by_cases h : s.bufferStart ≤ l
  · simp [h]
  · simp [h, panicked]

/-- A text while an environment is open. -/
theorem step_text_open {s : State} {l t} (h : s.stack ≠ []) :
    (∃ s', step rec s (.mk l (.text t)) = .ok s' ∧ s'.stack ≠ []) ∨ step rec s (.mk l (.text t)) = .error .panic := by
  have : s.stack.isEmpty = false := by simpa using h
  simp only [step, this]
  rcases pushBuffer_early (s := s) (l := l) (v := .text t) with ⟨s', h1, h2⟩ | h1
  · exact .inl ⟨s', by simpa using h1, h2 ▸ h⟩
  · exact .inr (by simpa using h1)

theorem finish_open {s : State} (h : s.stack ≠ []) : ∃ f, finish s = .error f ∧ Early f := by
  unfold finish
  cases hs : s.stack with
  | nil => exact absurd hs h
  | cons lab r => exact ⟨_, rfl, .inr ⟨_, rfl, .inr ⟨_, rfl⟩⟩⟩

/-- Blanks after a command. -/
def blanksC (l : Nat) (k : Option Str) : List Ast1.Chunk :=
  match k with
  | none => []
  | some k => [.mk l (.text k)]

theorem open_end {s : State} (h : s.stack ≠ []) (l k) :
    ∃ f, (match run rec (blanksC l k) s with | .error f => .error f | .ok s => finish s : Res (List Chunk)) = .error f ∧ Early f := by
  cases k with
  | none => exact finish_open h
  | some k =>
    simp only [blanksC, run]
    rcases step_text_open (rec := rec) (l := l) (t := k) h with ⟨s', h1, h2⟩ | h1
    · rw [h1]; exact finish_open h2
    · rw [h1]; exact ⟨_, rfl, .inl rfl⟩

theorem step_delim {s : State} {l name args} (h : name = chars!"begin" ∨ name = chars!"end") :
    step rec s (.mk l (.command (.mk name args))) = match args with
        | [] => fail l .noEnvironmentLabel
        | first :: rest =>
          if first.2.variant ≠ .curly then fail l .noEnvironmentLabel
          else if name = chars!"begin" then stepBegin s l first rest
          else stepEnd rec s l first rest := by
  exact if_neg (not_not_intro h)

theorem step_plain {s : State} {l name args} (h : ¬ (name = chars!"begin" ∨ name = chars!"end")) :
    step rec s (.mk l (.command (.mk name args))) = if s.stack.isEmpty then
          match convCommand rec (.mk name args) with
          | .error f => .error f
          | .ok c => .ok (s.pushChunks l (.command c))
        else s.pushBuffer l (.command (.mk name args)) := by
  exact if_pos h

/-- A command that gets more arguments. -/
theorem step_command_early {s s2 : State} {l name args extra} (h : step rec s (.mk l (.command (.mk name (args ++ extra)))) = .ok s2) :
    (∃ f, step rec s (.mk l (.command (.mk name args))) = .error f ∧ Early f) ∨ extra = [] ∨
    (∃ s1, step rec s (.mk l (.command (.mk name args))) = .ok s1 ∧ s1.stack ≠ []) ∨
    (s.stack = [] ∧ name ≠ chars!"begin" ∧ name ≠ chars!"end") := by
  by_cases hd : name = chars!"begin" ∨ name = chars!"end"
  · rw [step_delim hd] at h ⊢
    cases args with
    | nil => exact .inl ⟨.err ⟨l, .noEnvironmentLabel⟩, rfl, .inr ⟨_, rfl, .inl rfl⟩⟩
    | cons first rest =>
      simp only [List.cons_append] at h ⊢
      by_cases hc : first.2.variant ≠ .curly
      · simp only [if_pos hc] at h; cases h
      · simp only [if_neg hc] at h ⊢
        by_cases hb : name = chars!"begin"
        · simp only [if_pos hb] at h ⊢
          unfold stepBegin at h ⊢
          simp only at h ⊢
          by_cases hl : (s.stack ++ [first.2.chunks]).length = 1
          · simp only [if_pos hl] at h ⊢
            exact .inr (.inr (.inl ⟨_, rfl, by simp⟩))
          · simp only [if_neg hl] at h ⊢
            rcases pushBuffer_early (s := { s with stack := s.stack ++ [first.2.chunks] }) (l := l)
              (v := .command (.mk chars!"begin" (first :: rest))) with ⟨s', h1, h2⟩ | h1
            · exact .inr (.inr (.inl ⟨s', h1, by rw [h2]; simp⟩))
            · exact .inl ⟨_, h1, .inl rfl⟩
        · simp only [if_neg hb] at h ⊢
          unfold stepEnd at h
          by_cases ht : topIs s.stack first.2.chunks = false
          · simp only [if_pos ht] at h; cases h
          · simp only [if_neg ht] at h
            by_cases hl : (first :: (rest ++ extra)).length > 1
            · simp only [if_pos hl] at h; cases h
            · simp at hl
              exact .inr (.inl hl.2)
  · rw [step_plain hd] at h ⊢
    by_cases hs : s.stack = []
    · exact .inr (.inr (.inr ⟨hs, fun e => hd (.inl e), fun e => hd (.inr e)⟩))
    · have hs' : s.stack.isEmpty = false := by simpa using hs
      simp only [hs'] at h ⊢
      rcases pushBuffer_early (s := s) (l := l) (v := .command (.mk name args)) with ⟨s', h1, h2⟩ | h1
      · exact .inr (.inr (.inl ⟨s', by simpa using h1, h2 ▸ hs⟩))
      · exact .inl ⟨_, by simpa using h1, .inl rfl⟩

/-- A command without arguments. -/
theorem step_bare_early (s : State) (l : Nat) (name : Str) :
    (∃ f, step rec s (.mk l (.command (.mk name []))) = .error f ∧ Early f) ∨
    (∃ s1, step rec s (.mk l (.command (.mk name []))) = .ok s1 ∧ s1.stack ≠ []) ∨
    (s.stack = [] ∧ name ≠ chars!"begin" ∧ name ≠ chars!"end") := by
  by_cases hd : name = chars!"begin" ∨ name = chars!"end"
  · rw [step_delim hd]
    exact .inl ⟨.err ⟨l, .noEnvironmentLabel⟩, rfl, .inr ⟨_, rfl, .inl rfl⟩⟩
  · rw [step_plain hd]
    by_cases hs : s.stack = []
    · exact .inr (.inr ⟨hs, fun e => hd (.inl e), fun e => hd (.inr e)⟩)
    · have hs' : s.stack.isEmpty = false := by simpa using hs
      simp only [hs']
      rcases pushBuffer_early (s := s) (l := l) (v := .command (.mk name [])) with ⟨s', h1, h2⟩ | h1
      · exact .inr (.inl ⟨s', by simpa using h1, h2 ▸ hs⟩)
      · exact .inl ⟨_, by simpa using h1, .inl rfl⟩

/-- What a beginning converts to. -/
inductive Begins (r : Res (List Chunk)) (e : List Chunk) : Prop
  | early {f} : r = .error f → Early f → Begins r e
  | ok {e'} : r = .ok e' → Grown e' e → Begins r e

theorem tryFrom_run {cs s} (h : run tryFrom cs State.init = .ok s) (hs : s.stack = []) : tryFrom cs = .ok s.chunks := by
  rw [tryFrom_eq, convWith, h]; simp [finish, hs]

theorem run_open_early {cs s l c k} (h : run tryFrom cs State.init = .ok s)
    (hc : (∃ f, step tryFrom s c = .error f ∧ Early f) ∨ (∃ s1, step tryFrom s c = .ok s1 ∧ s1.stack ≠ [])) :
    ∃ f, tryFrom (cs ++ c :: blanksC l k) = .error f ∧ Early f := by
  rw [tryFrom_eq, convWith, run_append, h]
  simp only [run]
  rcases hc with ⟨f, h1, h2⟩ | ⟨s1, h1, h2⟩
  · rw [h1]; exact ⟨f, rfl, h2⟩
  · rw [h1]; exact open_end h2 _ _

theorem tryFrom_command {l name args cs} (h1 : name ≠ chars!"begin") (h2 : name ≠ chars!"end") :
    tryFrom (.mk l (.command (.mk name args)) :: cs) =
      match convArgs tryFrom args with
      | .error f => .error f
      | .ok y => match tryFrom cs with
        | .error f => .error f
        | .ok z => .ok (.mk l (.command (.mk name y)) :: z) := by
  have one : tryFrom [.mk l (.command (.mk name args))] = match convArgs tryFrom args with
      | .error f => .error f
      | .ok y => .ok [.mk l (.command (.mk name y))] := by
    rw [tryFrom_eq, convWith]
    simp only [run]
    rw [step_plain (fun h => h.elim h1 h2)]
    simp only [State.init, convCommand, List.isEmpty_nil, if_true]
    cases convArgs tryFrom args <;> simp [State.pushChunks, finish]
  cases hc : convArgs tryFrom args with
  | error f =>
    rw [hc] at one
    simp only at one ⊢
    rw [tryFrom_eq, convWith] at one ⊢
    simp only [run] at one ⊢
    cases hs : step tryFrom State.init (.mk l (.command (.mk name args))) with
    | error f' => rw [hs] at one; exact one
    | ok s =>
      exfalso
      rw [step_plain (fun h => h.elim h1 h2)] at hs
      simp [convCommand, hc, State.init] at hs
  | ok y =>
    rw [hc] at one
    simp only at one ⊢
    have := tryFrom_append one cs
    simp only [List.cons_append, List.nil_append] at this
    rw [this]
    cases tryFrom cs <;> rfl

theorem tryFrom_text {l t cs} :
    tryFrom (.mk l (.text t) :: cs) = match tryFrom cs with
        | .error f => .error f
        | .ok z => .ok (.mk l (.text t) :: z) := by
  have one : tryFrom [.mk l (.text t)] = .ok [.mk l (.text t)] := by
    rw [tryFrom_eq, convWith]
    simp [run, step, State.init, State.pushChunks, finish]
  have := tryFrom_append one cs
  simp only [List.cons_append, List.nil_append] at this
  rw [this]
  cases tryFrom cs <;> rfl


theorem pushBuffer_inv {s s' : State} {l v} (h : s.pushBuffer l v = .ok s') : s'.stack = s.stack ∧ s'.chunks = s.chunks := by
  unfold State.pushBuffer checkedSub at h
  by_cases hl : s.bufferStart ≤ l
  · simp [hl] at h; subst h; exact ⟨rfl, rfl⟩
  · simp [hl, panicked] at h

/-- A step while an environment is open. -/
theorem step_open {s s1 : State} {c} (h : step rec s c = .ok s1) (hs : s.stack ≠ []) :
    (s1.stack ≠ [] ∧ s1.chunks = s.chunks) ∨ ∃ l env, s1.chunks = s.chunks ++ [.mk l (.environment env)] := by
  have hs' : s.stack.isEmpty = false := by simpa using hs
  have buf : ∀ {s0 l v}, State.pushBuffer s0 l v = .ok s1 → s0.stack ≠ [] → s0.chunks = s.chunks →
      (s1.stack ≠ [] ∧ s1.chunks = s.chunks) ∨ ∃ l env, s1.chunks = s.chunks ++ [.mk l (.environment env)] := by
    intro s0 l v h h0 hc
    obtain ⟨h1, h2⟩ := pushBuffer_inv h
    exact .inl ⟨h1 ▸ h0, h2.trans hc⟩
  obtain ⟨l, v⟩ := c
  rcases v with t | ⟨name, args⟩ | sc
  · simp only [step, hs'] at h; exact buf (by simpa using h) hs rfl
  · by_cases hd : name = chars!"begin" ∨ name = chars!"end"
    · rw [step_delim hd] at h
      cases args with
      | nil => cases h
      | cons first rest =>
        simp only at h
        by_cases hc : first.2.variant ≠ .curly
        · rw [if_pos hc] at h; cases h
        · rw [if_neg hc] at h
          by_cases hb : name = chars!"begin"
          · rw [if_pos hb] at h
            unfold stepBegin at h
            simp only at h
            rw [if_neg (by cases hq : s.stack <;> simp_all)] at h
            exact buf h (by simp) rfl
          · rw [if_neg hb] at h
            unfold stepEnd at h
            split at h
            · cases h
            · split at h
              · cases h
              · simp only at h
                split at h
                · split at h
                  · cases h
                  · split at h
                    · cases h
                    · injection h with h; subst h; exact .inr ⟨_, _, rfl⟩
                · rename_i hne
                  exact buf h (by simpa using hne) rfl
    · rw [step_plain hd] at h
      simp only [hs'] at h; exact buf (by simpa using h) hs rfl
  · simp only [step, hs'] at h; exact buf (by simpa using h) hs rfl

/-- Chunks are only added. -/
theorem step_mono {s s1 : State} {c} (h : step rec s c = .ok s1) : ∃ more, s1.chunks = s.chunks ++ more := by
  by_cases hs : s.stack = []
  · have hs' : s.stack.isEmpty = true := by simpa using hs
    obtain ⟨l, v⟩ := c
    rcases v with t | ⟨name, args⟩ | sc
    · simp only [step, hs'] at h; simp at h; subst h; exact ⟨_, rfl⟩
    · by_cases hd : name = chars!"begin" ∨ name = chars!"end"
      · rw [step_delim hd] at h
        cases args with
        | nil => cases h
        | cons first rest =>
          simp only at h
          by_cases hc : first.2.variant ≠ .curly
          · rw [if_pos hc] at h; cases h
          · rw [if_neg hc] at h
            by_cases hb : name = chars!"begin"
            · rw [if_pos hb] at h
              unfold stepBegin at h
              simp only at h
              rw [if_pos (by simp [hs])] at h
              injection h with h; subst h; exact ⟨[], by simp⟩
            · rw [if_neg hb] at h
              unfold stepEnd at h
              rw [if_pos (by simp [hs, topIs])] at h
              cases h
      · rw [step_plain hd] at h
        simp only [hs', if_true] at h
        split at h
        · cases h
        · injection h with h; subst h; exact ⟨_, rfl⟩
    · simp only [step, hs', if_true] at h
      split at h
      · cases h
      · injection h with h; subst h; exact ⟨_, rfl⟩
  · rcases step_open h hs with ⟨_, h1⟩ | ⟨l, env, h1⟩
    · exact ⟨[], by simp [h1]⟩
    · exact ⟨_, h1⟩

theorem run_mono : ∀ {cs} {s s1 : State}, run rec cs s = .ok s1 → ∃ more, s1.chunks = s.chunks ++ more := by
  intro cs
  induction cs with
  | nil => intro s s1 h; simp only [run] at h; injection h with h; subst h; exact ⟨[], by simp⟩
  | cons c cs ih =>
    intro s s1 h
    simp only [run] at h
    rcases hc : step rec s c with f | s2
    · rw [hc] at h; cases h
    · rw [hc] at h
      obtain ⟨m1, h1⟩ := step_mono hc
      obtain ⟨m2, h2⟩ := ih h
      exact ⟨m1 ++ m2, by rw [h2, h1, List.append_assoc]⟩

/-- While an environment is open, and until it is closed. -/
theorem run_environment : ∀ {cs s s'}, run rec cs s = .ok s' → s.stack ≠ [] → s'.stack = [] →
    ∃ l env more, s'.chunks = s.chunks ++ .mk l (.environment env) :: more := by
  intro cs
  induction cs with
  | nil => intro s s' h h1 h2; simp only [run] at h; injection h with h; subst h; exact absurd h2 h1
  | cons c cs ih =>
    intro s s' h h1 h2
    simp only [run] at h
    rcases hc : step rec s c with f | s1
    · rw [hc] at h; cases h
    · rw [hc] at h; simp only at h
      rcases step_open hc h1 with ⟨h3, h4⟩ | ⟨l, env, h3⟩
      · obtain ⟨l, env, more, h5⟩ := ih h h3 h2
        exact ⟨l, env, more, by rw [h5, h4]⟩
      · obtain ⟨more, h5⟩ := run_mono h
        exact ⟨l, env, more, by rw [h5, h3]; simp⟩

theorem start_ok {cs r e} (h : tryFrom (cs ++ r) = .ok e) : ∃ s, run tryFrom cs State.init = .ok s := by
  rw [tryFrom_eq, convWith, run_append] at h
  cases hr : run tryFrom cs State.init with
  | error f => rw [hr] at h; cases h
  | ok s => exact ⟨s, rfl⟩

theorem append_ok {cs r x e} (h : tryFrom (cs ++ r) = .ok e) (hx : tryFrom cs = .ok x) : ∃ y, tryFrom r = .ok y ∧ e = x ++ y := by
  rw [tryFrom_append hx] at h
  cases hr : tryFrom r with
  | error f => rw [hr] at h; cases h
  | ok y => rw [hr] at h; injection h with h; exact ⟨y, rfl, h.symm⟩

theorem begins_kept {ds more e} (h : tryFrom (ds ++ more) = .ok e) : Begins (tryFrom ds) e := by
  obtain ⟨s, hs⟩ := start_ok h
  by_cases hst : s.stack = []
  · have hx := tryFrom_run hs hst
    obtain ⟨y, _, rfl⟩ := append_ok h hx
    exact .ok hx .kept
  · obtain ⟨f, h1, h2⟩ := finish_open hst
    refine .early (f := f) ?_ h2
    rw [tryFrom_eq, convWith, hs]; exact h1

theorem begins_command {cs l name args extra more e l' k} (h : tryFrom (cs ++ .mk l (.command (.mk name (args ++ extra))) :: more) = .ok e) :
    (∃ f, tryFrom (cs ++ .mk l (.command (.mk name args)) :: blanksC l' k) = .error f ∧ Early f) ∨ extra = [] ∨
    ∃ x y1 y2 z, tryFrom (cs ++ .mk l (.command (.mk name args)) :: blanksC l' k) =
        .ok (x ++ .mk l (.command (.mk name y1)) :: (match k with | none => [] | some k => [.mk l' (.text k)])) ∧
      convArgs tryFrom extra = .ok y2 ∧ e = x ++ .mk l (.command (.mk name (y1 ++ y2))) :: z := by
  obtain ⟨s, hs⟩ := start_ok h
  have h' := h
  rw [tryFrom_eq, convWith, run_append, hs] at h'
  simp only [run] at h'
  cases hc : step tryFrom s (.mk l (.command (.mk name (args ++ extra)))) with
  | error f => rw [hc] at h'; cases h'
  | ok s2 =>
    rcases step_command_early hc with h1 | h1 | h1 | ⟨h1, h2, h3⟩
    · exact .inl (run_open_early hs (.inl h1))
    · exact .inr (.inl h1)
    · exact .inl (run_open_early hs (.inr h1))
    · refine .inr (.inr ?_)
      have hx := tryFrom_run hs h1
      obtain ⟨y, hy, rfl⟩ := append_ok h hx
      rw [tryFrom_command h2 h3] at hy
      cases ha : convArgs tryFrom (args ++ extra) with
      | error f => rw [ha] at hy; cases hy
      | ok w =>
        rw [ha] at hy
        obtain ⟨y1, y2, rfl, h4, h5⟩ := convArgs_split ha
        simp only at hy
        cases hz : tryFrom more with
        | error f => rw [hz] at hy; cases hy
        | ok z =>
          rw [hz] at hy; injection hy with hy; subst hy
          refine ⟨s.chunks, y1, y2, z, ?_, h5, rfl⟩
          rw [tryFrom_append hx, tryFrom_command h2 h3, h4]
          have hb : tryFrom (blanksC l' k) = .ok (match k with | none => [] | some k => [.mk l' (.text k)]) := by
            cases k with
            | none => rfl
            | some k => rw [blanksC, tryFrom_text]; rfl
          rw [hb]

theorem begins_text {cs l l' a b more e} (h : tryFrom (cs ++ .mk l' (.text (a ++ b)) :: more) = .ok e) :
    (∃ f, tryFrom (cs ++ [.mk l (.text a)]) = .error f ∧ Early f) ∨
    ∃ x z, tryFrom (cs ++ [.mk l (.text a)]) = .ok (x ++ [.mk l (.text a)]) ∧ e = x ++ .mk l' (.text (a ++ b)) :: z := by
  obtain ⟨s, hs⟩ := start_ok h
  by_cases hst : s.stack = []
  · refine .inr ?_
    have hx := tryFrom_run hs hst
    obtain ⟨y, hy, rfl⟩ := append_ok h hx
    rw [tryFrom_text] at hy
    cases hz : tryFrom more with
    | error f => rw [hz] at hy; cases hy
    | ok z =>
      rw [hz] at hy; injection hy with hy; subst hy
      exact ⟨s.chunks, z, by rw [tryFrom_append hx, tryFrom_text]; rfl, rfl⟩
  · refine .inl (run_open_early (l := 0) (k := none) hs ?_)
    rcases step_text_open (rec := tryFrom) (l := l) (t := a) hst with h1 | h1
    · exact .inr h1
    · exact .inl ⟨_, h1, .inl rfl⟩

theorem grown_begins {ds dt : List Ast1.Chunk} (hg : Ast1.Grown ds dt) {e} (h : tryFrom dt = .ok e) : Begins (tryFrom ds) e := by
  cases hg with
  | kept => exact begins_kept h
  | text =>
    rcases begins_text h with ⟨f, h1, h2⟩ | ⟨x, z, h1, rfl⟩
    · exact .early h1 h2
    · exact .ok h1 .text
  | @command cs l name args extra more =>
    rcases begins_command (l' := 0) (k := none) h with ⟨f, h1, h2⟩ | h1 | ⟨x, y1, y2, z, h1, h2, rfl⟩
    · exact .early h1 h2
    · subst h1
      rw [List.append_nil, List.append_cons] at h
      exact begins_kept h
    · exact .ok h1 .command
  | @name cs l name suffix args more hn =>
    obtain ⟨s, hs⟩ := start_ok h
    rcases step_bare_early (rec := tryFrom) s l name with h1 | h1 | ⟨h1, h2, h3⟩
    · obtain ⟨f, h3, h4⟩ := run_open_early (l := 0) (k := none) hs (.inl h1)
      exact .early h3 h4
    · obtain ⟨f, h3, h4⟩ := run_open_early (l := 0) (k := none) hs (.inr h1)
      exact .early h3 h4
    · have hx := tryFrom_run hs h1
      have hd : tryFrom (cs ++ [.mk l (.command (.mk name []))]) = .ok (s.chunks ++ [.mk l (.command (.mk name []))]) := by
        rw [tryFrom_append hx, tryFrom_command h2 h3]; rfl
      refine .ok hd ?_
      by_cases hb : name ++ suffix = chars!"begin"
      · have hsuf : suffix ≠ [] := by rintro rfl; exact h2 (by simpa using hb)
        rw [tryFrom_eq, convWith, run_append, hs] at h
        simp only [run] at h
        cases hc : step tryFrom s (.mk l (.command (.mk (name ++ suffix) args))) with
        | error f => rw [hc] at h; cases h
        | ok s1 =>
          rw [hc] at h
          simp only at h
          have hs1 : s1.stack ≠ [] ∧ s1.chunks = s.chunks := by
            rw [step_delim (.inl hb)] at hc
            cases args with
            | nil => cases hc
            | cons first rest =>
              simp only at hc
              by_cases hv : first.2.variant ≠ .curly
              · rw [if_pos hv] at hc; cases hc
              · rw [if_neg hv, if_pos hb] at hc
                unfold stepBegin at hc
                simp only at hc
                rw [if_pos (by simp [h1])] at hc
                injection hc with hc; subst hc; exact ⟨by simp, rfl⟩
          cases hr : run tryFrom more s1 with
          | error f => rw [hr] at h; cases h
          | ok s2 =>
            rw [hr] at h
            simp only at h
            have hs2 : s2.stack = [] ∧ s2.chunks = e := by
              unfold finish at h
              cases hq : s2.stack with
              | nil => rw [hq] at h; injection h with h; exact ⟨rfl, h⟩
              | cons a b => rw [hq] at h; cases h
            obtain ⟨l', env, more', hm⟩ := run_environment hr hs1.1 hs2.1
            rw [hs2.2, hs1.2] at hm
            subst hm
            exact .begun hn hb hsuf
      · by_cases he : name ++ suffix = chars!"end"
        · exfalso
          rw [tryFrom_eq, convWith, run_append, hs] at h
          simp only [run] at h
          rw [step_delim (.inr he)] at h
          cases args with
          | nil => cases h
          | cons first rest =>
            simp only at h
            by_cases hv : first.2.variant ≠ .curly
            · rw [if_pos hv] at h; cases h
            · rw [if_neg hv, if_neg hb] at h
              unfold stepEnd at h
              rw [if_pos (by simp [h1, topIs])] at h
              cases h
        · obtain ⟨y, hy, rfl⟩ := append_ok h hx
          rw [tryFrom_command hb he] at hy
          cases ha : convArgs tryFrom args with
          | error f => rw [ha] at hy; cases hy
          | ok w =>
            rw [ha] at hy; simp only at hy
            cases hz : tryFrom more with
            | error f => rw [hz] at hy; cases hy
            | ok z => rw [hz] at hy; injection hy with hy; subst hy; exact .name hn
  | @blanks cs c l k l' b more hk =>
    rw [List.append_cons] at h
    rcases begins_text (l := l) h with ⟨f, h1, h2⟩ | ⟨x, z, h1, rfl⟩
    · exact .early (by simpa using h1) h2
    · exact .ok (by simpa using h1) (.blanks hk)
  | @argument cs l name args l' k b sc extra more hk =>
    rcases begins_command (l' := l') (k := some k) h with ⟨f, h1, h2⟩ | h1 | ⟨x, y1, y2, z, h1, h2, rfl⟩
    · exact .early h1 h2
    · cases h1
    · refine .ok h1 ?_
      simp only [convArgs] at h2
      cases hc : convScope tryFrom sc with
      | error f => rw [hc] at h2; cases h2
      | ok s' =>
        rw [hc] at h2; simp only at h2
        cases hr : convArgs tryFrom extra with
        | error f => rw [hr] at h2; cases h2
        | ok r => rw [hr] at h2; injection h2 with h2; subst h2; exact .argument hk

end LatexAst.Ast2
