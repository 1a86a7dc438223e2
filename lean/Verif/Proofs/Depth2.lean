import Verif.Proofs.Depth1
import Verif.Proofs.Conversion2
import Verif.Proofs.Back2

/-! The depth of recursive calls of the stage-2 conversion. -/

namespace LatexAst.Ast2
open Ast1 (Refines)

variable {rec rec' : List Ast1.Chunk → Res (List Chunk)}

theorem convScope_refines (hr : Refines rec rec') {sc} (h : convScope rec sc ≠ .error .fuel) : convScope rec' sc = convScope rec sc := by
  obtain ⟨inner, sv⟩ := sc
  simp only [convScope] at h ⊢
  rw [hr inner (by intro he; rw [he] at h; exact h rfl)]

theorem convArgs_refines (hr : Refines rec rec') {args} (h : convArgs rec args ≠ .error .fuel) : convArgs rec' args = convArgs rec args := by
  induction args with
  | nil => rfl
  | cons x r ih =>
    obtain ⟨p, sc⟩ := x
    simp only [convArgs] at h ⊢
    rw [convScope_refines hr (by intro he; rw [he] at h; exact h rfl)]
    cases hx : convScope rec sc with
    | error f => rfl
    | ok s =>
      rw [hx] at h
      simp only at h ⊢
      rw [ih (by intro he; rw [he] at h; exact h rfl)]

theorem addLine_not_fuel {α : Type} {k : Nat} {r : Res α} (h : addLine k r ≠ .error .fuel) : r ≠ .error .fuel := by
  intro he; rw [he] at h; exact h rfl

theorem stepEnd_refines (hr : Refines rec rec') {s l first rest} (h : stepEnd rec s l first rest ≠ .error .fuel) :
    stepEnd rec' s l first rest = stepEnd rec s l first rest := by
  unfold stepEnd at h ⊢
  by_cases h1 : topIs s.stack first.2.chunks = false
  · rw [if_pos h1, if_pos h1]
  · rw [if_neg h1] at h; rw [if_neg h1, if_neg h1]
    by_cases h2 : (first :: rest).length > 1
    · rw [if_pos h2, if_pos h2]
    · rw [if_neg h2] at h; rw [if_neg h2, if_neg h2]
      simp only at h ⊢
      by_cases h3 : s.stack.dropLast.isEmpty = true
      · rw [if_pos h3] at h; rw [if_pos h3, if_pos h3]
        rw [convArgs_refines hr (by intro he; rw [he] at h; exact h rfl)]
        cases hx : convArgs rec s.envArgs with
        | error f => rfl
        | ok args =>
          rw [hx] at h
          simp only at h ⊢
          rw [hr s.buffer (addLine_not_fuel (k := s.bufferStart) (by intro he; rw [he] at h; exact h rfl))]
      · rw [if_neg h3, if_neg h3]

theorem step_refines (hr : Refines rec rec') {s c} (h : step rec s c ≠ .error .fuel) : step rec' s c = step rec s c := by
  obtain ⟨l, v⟩ := c
  cases v with
  | text t => rfl
  | scope sc =>
    simp only [step] at h ⊢
    by_cases h1 : s.stack.isEmpty = true
    · rw [if_pos h1] at h; rw [if_pos h1, if_pos h1]
      rw [convScope_refines hr (addLine_not_fuel (k := l) (by intro he; rw [he] at h; exact h rfl))]
    · rw [if_neg h1, if_neg h1]
  | command c =>
    obtain ⟨label, args⟩ := c
    simp only [step, convCommand, Ast1.Command.label, Ast1.Command.arguments] at h ⊢
    by_cases h1 : label = chars!"begin" ∨ label = chars!"end"
    rotate_left
    · simp only [h1, not_false_eq_true, if_true] at h ⊢
      by_cases h2 : s.stack.isEmpty = true
      · rw [if_pos h2] at h; rw [if_pos h2, if_pos h2]
        rw [convArgs_refines hr (by intro he; rw [he] at h; exact h rfl)]
      · rw [if_neg h2, if_neg h2]
    · simp only [h1, not_true_eq_false, if_false] at h ⊢
      cases args with
      | nil => rfl
      | cons first rest =>
        simp only at h ⊢
        by_cases h3 : first.2.variant ≠ .curly
        · rw [if_pos h3, if_pos h3]
        · rw [if_neg h3] at h; rw [if_neg h3, if_neg h3]
          by_cases h4 : label = chars!"begin"
          · simp only [h4, if_true]
          · simp only [h4, if_false] at h ⊢
            exact stepEnd_refines hr h

theorem run_refines (hr : Refines rec rec') {cs s} (h : run rec cs s ≠ .error .fuel) : run rec' cs s = run rec cs s := by
  induction cs generalizing s with
  | nil => rfl
  | cons c cs ih =>
    simp only [run] at h ⊢
    rw [step_refines hr (by intro he; rw [he] at h; exact h rfl)]
    cases hx : step rec s c with
    | error f => rfl
    | ok s' => rw [hx] at h; exact ih h

theorem convWith_refines (hr : Refines rec rec') {d} (h : convWith rec d ≠ .error .fuel) : convWith rec' d = convWith rec d := by
  unfold convWith at h ⊢
  rw [run_refines hr (by intro he; rw [he] at h; exact h rfl)]

theorem convFuel_refines (n : Nat) : Refines (convFuel n) (convFuel (n + 1)) := by
  induction n with
  | zero => intro s h; exact absurd rfl h
  | succ n ih => intro d h; exact convWith_refines ih h

theorem convFuel_mono {n m : Nat} (h : n ≤ m) : Refines (convFuel n) (convFuel m) := by
  induction h with
  | refl => intro s _; rfl
  | step _ ih =>
    intro s hs
    have := ih s hs
    rw [convFuel_refines _ s (by rw [this]; exact hs), this]

/-- If the calls suffice, the answer is the answer. -/
theorem convFuel_tryFrom {n d} (h : convFuel n d ≠ .error .fuel) : convFuel n d = tryFrom d := by
  have h1 := convFuel_mono (Nat.le_add_right n (sizeChunks d + 1)) d h
  rw [← h1]
  exact convFuel_adequate _ _ _ (by omega) (by omega)

/-! ### accepted documents -/

theorem levelAt_head {d k lv} (h : LevelAt d (k + 1) lv) : ∃ inner, LevelAt inner k lv ∧ Child2 d inner := by
  have key : ∀ {j lv}, LevelAt d j lv → ∀ k, j = k + 1 → ∃ inner, LevelAt inner k lv ∧ Child2 d inner := by
    intro j lv h
    induction h with
    | top => intro k hk; omega
    | @scope j cs l inner sv hl hm ih =>
      intro k hk
      obtain rfl : j = k := by omega
      cases j with
      | zero => cases hl; exact ⟨inner, .top, .scope hm⟩
      | succ j => obtain ⟨i, h1, h2⟩ := ih j rfl; exact ⟨i, .scope h1 hm, h2⟩
    | @arg j cs l label args prec inner sv hl hm ha ih =>
      intro k hk
      obtain rfl : j = k := by omega
      cases j with
      | zero => cases hl; exact ⟨inner, .top, .arg hm ha⟩
      | succ j => obtain ⟨i, h1, h2⟩ := ih j rfl; exact ⟨i, .arg h1 hm ha, h2⟩
    | @envArg j cs l label args content pb pe prec inner sv hl hm ha ih =>
      intro k hk
      obtain rfl : j = k := by omega
      cases j with
      | zero => cases hl; exact ⟨inner, .top, .envArg hm ha⟩
      | succ j => obtain ⟨i, h1, h2⟩ := ih j rfl; exact ⟨i, .envArg h1 hm ha, h2⟩
    | @envContent j cs l label args content pb pe hl hm ih =>
      intro k hk
      obtain rfl : j = k := by omega
      cases j with
      | zero => cases hl; exact ⟨content, .top, .envContent hm⟩
      | succ j => obtain ⟨i, h1, h2⟩ := ih j rfl; exact ⟨i, .envContent h1 hm, h2⟩
  exact key h k rfl

theorem levelAt_child {d inner k lv} (hc : Child2 d inner) (h : LevelAt inner k lv) : LevelAt d (k + 1) lv := by
  induction h with
  | top =>
    cases hc with
    | scope hm => exact .scope .top hm
    | arg hm ha => exact .arg .top hm ha
    | envArg hm ha => exact .envArg .top hm ha
    | envContent hm => exact .envContent .top hm
  | scope _ hm ih => exact .scope ih hm
  | arg _ hm ha ih => exact .arg ih hm ha
  | envArg _ hm ha ih => exact .envArg ih hm ha
  | envContent _ hm ih => exact .envContent ih hm

theorem convFuel_depth {n d e} (h : convFuel n d = .ok e) {k lv} (hl : LevelAt e k lv) : k < n := by
  induction n generalizing d e k lv with
  | zero => cases h
  | succ n ih =>
    cases k with
    | zero => omega
    | succ k =>
      obtain ⟨inner, h1, hc⟩ := levelAt_head hl
      obtain ⟨x, hx, _⟩ := (convWith_ok (rec := convFuel n) h).child2 hc
      have := ih hx h1
      omega

/-- `rec` answers as `rec'` does on what ends up in `e`. -/
def Answers (rec rec' : List Ast1.Chunk → Res (List Chunk)) (e : List Chunk) : Prop :=
  ∀ a inner, rec' a = .ok inner → Child2 e inner → rec a = .ok inner

theorem Answers.sub {d d'} (h : Answers rec rec' d) (hs : ∀ c ∈ d', c ∈ d) : Answers rec rec' d' :=
  fun a inner h1 h2 => h a inner h1 (h2.mono hs)

theorem convArgs_answers {args args'} (h : convArgs rec' args = .ok args')
    (hr : ∀ a inner prec sv, rec' a = .ok inner → (prec, Scope.mk inner sv) ∈ args' → rec a = .ok inner) :
    convArgs rec args = .ok args' := by
  induction args generalizing args' with
  | nil => exact h
  | cons x r ih =>
    obtain ⟨p, ⟨a, v⟩⟩ := x
    simp only [convArgs, convScope] at h ⊢
    cases hx : rec' a with
    | error f => rw [hx] at h; cases h
    | ok cs =>
      rw [hx] at h
      simp only at h
      cases hy : convArgs rec' r with
      | error f => rw [hy] at h; cases h
      | ok as =>
        rw [hy] at h
        cases h
        rw [hr a cs p v hx (by simp)]
        simp only
        rw [ih hy (fun a inner prec sv h1 h2 => hr a inner prec sv h1 (List.mem_cons_of_mem _ h2))]

theorem pushBuffer_chunks {s : State} {l v s'} (h : s.pushBuffer l v = .ok s') : s'.chunks = s.chunks := by
  unfold State.pushBuffer at h
  split at h <;> cases h
  rfl

theorem step_answers {s c s'} (h : step rec' s c = .ok s') (hr : Answers rec rec' s'.chunks) :
    step rec s c = .ok s' ∧ ∀ x ∈ s.chunks, x ∈ s'.chunks := by
  obtain ⟨l, v⟩ := c
  cases v with
  | text t =>
    refine ⟨h, ?_⟩
    simp only [step] at h
    split at h
    · cases h; exact fun x hx => List.mem_append_left _ hx
    · rw [pushBuffer_chunks h]; exact fun x hx => hx
  | scope sc =>
    obtain ⟨inner, sv⟩ := sc
    simp only [step] at h ⊢
    by_cases h1 : s.stack.isEmpty = true
    · rw [if_pos h1] at h ⊢
      cases hx : rec' inner with
      | error f => simp only [convScope, hx] at h; cases f <;> cases h
      | ok cs =>
        simp only [convScope, hx, addLine] at h
        cases h
        have := hr inner cs hx (.scope (l := l) (sv := sv) (List.mem_append_right _ (by simp)))
        simp only [convScope, this, addLine]
        exact ⟨trivial, fun x hx => List.mem_append_left _ hx⟩
    · rw [if_neg h1] at h ⊢; exact ⟨h, by rw [pushBuffer_chunks h]; exact fun x hx => hx⟩
  | command c =>
    obtain ⟨label, args⟩ := c
    simp only [step, convCommand, Ast1.Command.label, Ast1.Command.arguments] at h ⊢
    by_cases h1 : label = chars!"begin" ∨ label = chars!"end"
    rotate_left
    · simp only [h1, not_false_eq_true, if_true] at h ⊢
      by_cases h2 : s.stack.isEmpty = true
      · rw [if_pos h2] at h ⊢
        cases hx : convArgs rec' args with
        | error f => rw [hx] at h; cases h
        | ok as =>
          rw [hx] at h
          cases h
          rw [convArgs_answers hx (fun a inner prec sv g1 g2 => hr a inner g1 (.arg (List.mem_append_right _ (List.mem_singleton.2 rfl)) g2))]
          exact ⟨rfl, fun x hx => List.mem_append_left _ hx⟩
      · rw [if_neg h2] at h ⊢; exact ⟨h, by rw [pushBuffer_chunks h]; exact fun x hx => hx⟩
    · simp only [h1, not_true_eq_false, if_false] at h ⊢
      cases args with
      | nil => cases h
      | cons first rest =>
        simp only at h ⊢
        by_cases h3 : first.2.variant ≠ .curly
        · rw [if_pos h3] at h; cases h
        · rw [if_neg h3] at h ⊢
          by_cases h4 : label = chars!"begin"
          · simp only [h4, if_true] at h ⊢
            refine ⟨h, ?_⟩
            unfold stepBegin at h
            simp only at h
            split at h
            · cases h; exact fun x hx => hx
            · rw [pushBuffer_chunks h]; exact fun x hx => hx
          · simp only [h4, if_false] at h ⊢
            unfold stepEnd at h ⊢
            by_cases h1 : topIs s.stack first.2.chunks = false
            · rw [if_pos h1] at h; cases h
            · rw [if_neg h1] at h ⊢
              by_cases h2 : (first :: rest).length > 1
              · rw [if_pos h2] at h; cases h
              · rw [if_neg h2] at h ⊢
                simp only at h ⊢
                by_cases h3 : s.stack.dropLast.isEmpty = true
                · rw [if_pos h3] at h ⊢
                  cases hx : convArgs rec' s.envArgs with
                  | error f => rw [hx] at h; cases h
                  | ok args =>
                    rw [hx] at h
                    simp only at h
                    cases hy : rec' s.buffer with
                    | error f => rw [hy] at h; cases f <;> cases h
                    | ok content =>
                      rw [hy] at h
                      simp only [addLine] at h
                      cases h
                      rw [convArgs_answers hx (fun a inner prec sv g1 g2 => hr a inner g1 (.envArg (List.mem_append_right _ (List.mem_singleton.2 rfl)) g2))]
                      rw [hr s.buffer content hy (.envContent (List.mem_append_right _ (List.mem_singleton.2 rfl)))]
                      exact ⟨rfl, fun x hx => List.mem_append_left _ hx⟩
                · rw [if_neg h3] at h ⊢; exact ⟨h, by rw [pushBuffer_chunks h]; exact fun x hx => hx⟩

theorem run_answers {cs s s'} (h : run rec' cs s = .ok s') (hr : Answers rec rec' s'.chunks) :
    run rec cs s = .ok s' ∧ ∀ x ∈ s.chunks, x ∈ s'.chunks := by
  induction cs generalizing s with
  | nil => cases h; exact ⟨rfl, fun x hx => hx⟩
  | cons c cs ih =>
    simp only [run] at h ⊢
    cases hx : step rec' s c with
    | error f => rw [hx] at h; cases h
    | ok s1 =>
      rw [hx] at h
      obtain ⟨h1, h2⟩ := ih h
      obtain ⟨h3, h4⟩ := step_answers hx (hr.sub h2)
      rw [h3]
      exact ⟨h1, fun x hx => h2 x (h4 x hx)⟩

theorem convWith_answers {d e} (h : convWith rec' d = .ok e) (hr : Answers rec rec' e) : convWith rec d = .ok e := by
  unfold convWith at h ⊢
  cases hx : run rec' d State.init with
  | error f => rw [hx] at h; cases h
  | ok s =>
    rw [hx] at h
    simp only [finish] at h
    have he : s.chunks = e := by
      split at h
      · cases h
      · cases h; rfl
    rw [(run_answers hx (by rw [he]; exact hr)).1]
    exact h

theorem convFuel_of_depth {n d e} (h : tryFrom d = .ok e) (hd : ∀ k lv, LevelAt e k lv → k < n) : convFuel n d = .ok e := by
  induction n generalizing d e with
  | zero => exact absurd (hd 0 e .top) (by omega)
  | succ n ih =>
    rw [tryFrom_eq] at h
    refine convWith_answers (rec := convFuel n) h (fun a inner h1 h2 => ih h1 ?_)
    intro k lv hl
    have := hd _ _ (levelAt_child h2 hl)
    omega

/-! ### every document -/

/-- Opening brackets of the printed document. -/
def opens (d : List Ast1.Chunk) : Nat := openers (Ast1.displayChunks d)

theorem opens_append (a b) : opens (a ++ b) = opens a + opens b := by
  unfold opens; rw [Ast1.displayChunks_append, openers_append]

theorem opens_rebase (k : Nat) (a : List Ast1.Chunk) : opens (a.map (rebase1 k)) = opens a := by
  have : Ast1.displayChunks (a.map (rebase1 k)) = Ast1.displayChunks a := by
    induction a with
    | nil => rfl
    | cons c a ih => obtain ⟨l, v⟩ := c; simp [Ast1.displayChunks, ih, rebase1, Ast1.Chunk.display]
  rw [opens, this, opens]

theorem opens_scope {l inner sv} : opens inner < opens [.mk l (.scope (.mk inner sv))] := by
  simp only [opens, Ast1.displayChunks, Ast1.Chunk.display, Ast1.ChunkVariant.display, Ast1.Scope.display, openers_append]
  have : openers (sv.opening :: (Ast1.displayChunks inner ++ [sv.closing])) = openers [sv.opening] + openers (Ast1.displayChunks inner ++ [sv.closing]) := by
    rw [← openers_append]; rfl
  rw [this, openers_append, Ast1.openers_opening]
  omega

theorem opens_args {args : List (Str × Ast1.Scope)} {p inner sv} (h : (p, Ast1.Scope.mk inner sv) ∈ args) :
    opens inner < openers (Ast1.displayArgs args) := by
  induction args with
  | nil => cases h
  | cons x r ih =>
    obtain ⟨p', s⟩ := x
    simp only [Ast1.displayArgs, openers_append]
    rcases List.mem_cons.1 h with h | h
    · cases h
      have := opens_scope (l := 0) (inner := inner) (sv := sv)
      simp only [opens, Ast1.displayChunks, Ast1.Chunk.display, Ast1.ChunkVariant.display, openers_append] at this ⊢
      have h0 : openers ([] : Str) = 0 := rfl
      omega
    · have := ih h; omega

theorem opens_command (l : Nat) (label : Str) (args : List (Str × Ast1.Scope)) :
    openers (Ast1.displayArgs args) ≤ opens [.mk l (.command (.mk label args))] := by
  simp only [opens, Ast1.displayChunks, Ast1.Chunk.display, Ast1.ChunkVariant.display, Ast1.Command.display, openers_append]
  have := openers_le_cons '\\' (label ++ Ast1.displayArgs args)
  rw [openers_append] at this
  omega

theorem step_congr_open {pre s} (h : Inv rec pre s) (c : Ast1.Chunk)
    (hc : ∀ x, opens x < opens (pre ++ [c]) → rec x = rec' x) : step rec s c = step rec' s c := by
  obtain ⟨l, v⟩ := c
  cases v with
  | text t => rfl
  | scope sc =>
    obtain ⟨inner, sv⟩ := sc
    simp only [step, convScope]
    rw [hc inner (by have := opens_scope (l := l) (inner := inner) (sv := sv); rw [opens_append]; omega)]
  | command c =>
    obtain ⟨label, args⟩ := c
    simp only [step, convCommand, Ast1.Command.label, Ast1.Command.arguments]
    rw [convArgs_congr (rec := rec) (rec' := rec') (args := args) fun p i sv hm => hc i (by
      have := opens_args hm
      have := opens_command l label args
      rw [opens_append]; omega)]
    by_cases hl : label = chars!"begin" ∨ label = chars!"end"
    · simp only [hl, not_true_eq_false, if_false]
      cases args with
      | nil => rfl
      | cons first rest =>
        simp only
        congr 2
        unfold stepEnd
        by_cases h1 : topIs s.stack first.2.chunks = false
        · simp only [h1, if_true]
        · simp only [h1]
          cases h with
          | outside h => simp [topIs] at h1
          | @inside d e l0 p lab eargs body st hp _ h2 h3 =>
            subst hp
            simp only
            have hb := opens_command l0 chars!"begin" ((p, .mk lab .curly) :: eargs)
            have hs : ∀ x, x < openers (Ast1.displayArgs ((p, .mk lab .curly) :: eargs)) + opens body →
                x < opens (d ++ beginC l0 p lab eargs :: body ++ [.mk l (.command (.mk label (first :: rest)))]) := by
              intro x hx
              rw [show d ++ beginC l0 p lab eargs :: body = d ++ ([beginC l0 p lab eargs] ++ body) from rfl]
              simp only [opens_append, beginC] at hb ⊢
              omega
            rw [convArgs_congr (rec := rec) (rec' := rec') fun p i sv hm => hc i (hs _ (by
                have := opens_args hm
                simp only [Ast1.displayArgs, openers_append]; omega)),
              hc _ (hs _ (by
                rw [opens_rebase]
                have := opens_args (args := (p, .mk lab .curly) :: eargs) (List.mem_cons_self (a := (p, Ast1.Scope.mk lab .curly)))
                omega))]
    · simp only [hl]
      rfl

theorem run_congr_open {pre s} (h : Inv rec pre s) (cs : List Ast1.Chunk)
    (hc : ∀ x, opens x < opens (pre ++ cs) → rec x = rec' x) : run rec cs s = run rec' cs s := by
  induction cs generalizing pre s with
  | nil => rfl
  | cons c cs ih =>
    simp only [run]
    rw [← step_congr_open h c fun x hx => hc x (by
      rw [show pre ++ c :: cs = (pre ++ [c]) ++ cs by simp, opens_append]; omega)]
    have := step_spec h c
    cases hs : step rec s c with
    | error f => rfl
    | ok s' =>
      rw [hs] at this
      exact ih this fun x hx => hc x (by simpa using hx)

theorem convFuel_open (n : Nat) (d : List Ast1.Chunk) (hn : opens d < n) : convFuel n d = tryFrom d := by
  induction n generalizing d with
  | zero => omega
  | succ n ih =>
    rw [tryFrom_eq]
    show convWith _ _ = convWith _ _
    unfold convWith
    rw [run_congr_open (inv_init _) d (fun x hx => ih x (by simp at hx; omega))]

end LatexAst.Ast2
