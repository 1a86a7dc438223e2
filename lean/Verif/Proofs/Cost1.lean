import Verif.Model.Cost1
import Verif.Proofs.Depth1

/-! The stage-1 parser with a step counter: its answers and its number of steps. -/

namespace LatexAst

theorem andThen_fst {α β : Type} (x : Counted α) (f : α → Counted β) :
    (x.andThen f).1 = match x.1 with | .error e => .error e | .ok a => (f a).1 := by
  obtain ⟨r, k⟩ := x; cases r <;> rfl

theorem free_fst {α : Type} (r : Res α) : (free r).1 = r := rfl

namespace Ast1

variable {rec : Str → Counted (List Chunk)}

theorem evalArgsN_fst (sc) : (evalArgsN rec sc).1 = evalArgs (fun a => (rec a).1) sc := by
  induction sc with
  | nil => rfl
  | cons x r ih =>
    obtain ⟨a, v, p⟩ := x
    simp only [evalArgsN, evalArgs, andThen_fst, ih, free_fst]
    cases (rec a).1 with
    | error f => rfl
    | ok cs => simp only; cases evalArgs (fun a => (rec a).1) r <;> rfl

theorem flushN_fst (b bl cs) : (flushN rec b bl cs).1 = flush (fun a => (rec a).1) b bl cs := by
  unfold flushN flush
  cases b with
  | text t => by_cases h : t.isEmpty = true <;> simp [h, free_fst]
  | scope a v d =>
    by_cases h : d = 0
    · simp only [h, ne_eq, not_true_eq_false, if_false, andThen_fst, free_fst]
      cases (rec a).1 <;> rfl
    · simp only [h, ne_eq, not_false_eq_true, if_true, free_fst]
  | command l sc d t =>
    by_cases h : d = 0
    · simp only [h, ne_eq, not_true_eq_false, if_false, andThen_fst, free_fst, evalArgsN_fst]
      cases evalArgs (fun a => (rec a).1) sc <;> rfl
    · simp only [h, ne_eq, not_false_eq_true, if_true]
      cases sc.getLast? <;> rfl

theorem flushMN_fst (s) : (flushMN rec s).1 = flushM (fun a => (rec a).1) s := by
  unfold flushMN flushM
  rw [← flushN_fst]
  obtain ⟨r, k⟩ := flushN rec s.buffer s.bufferLine s.chunks
  cases r with
  | ok c => rfl
  | error f => simp only; cases checkedSub s.bufferLine 1 <;> rfl

theorem startCommandN_fst (s c) : (startCommandN rec s c).1 = startCommand (fun a => (rec a).1) s c := by
  unfold startCommandN startCommand
  simp only
  by_cases h : isAsciiAlphabetic c = true
  · simp [h, free_fst]
  · simp only [h, Bool.false_eq_true, if_false, andThen_fst, flushMN_fst, free_fst]
    cases flushM (fun a => (rec a).1) { s with buffer := Buffer.newCommand.push c } <;> rfl

theorem stepTextN_fst (s c) : (stepTextN rec s c).1 = stepText (fun a => (rec a).1) s c := by
  unfold stepTextN stepText
  by_cases h : s.escaped = true
  · simp only [h, if_true, andThen_fst, flushMN_fst, startCommandN_fst]
    cases flushM (fun a => (rec a).1) s <;> rfl
  · simp only [h, Bool.false_eq_true, if_false]
    cases ScopeVariant.fromOpening c with
    | none => rfl
    | some v => simp only [andThen_fst, flushMN_fst, free_fst]; cases flushM (fun a => (rec a).1) s <;> rfl

theorem stepScopeN_fst (s a v d c) : (stepScopeN rec s a v d c).1 = stepScope (fun a => (rec a).1) s a v d c := by
  unfold stepScopeN stepScope
  by_cases h1 : d ≠ 0 ∧ s.escaped = true
  · rw [if_pos h1, if_pos h1]; rfl
  · rw [if_neg h1, if_neg h1]
    by_cases h2 : v.opening = c
    · rw [if_pos h2, if_pos h2]; rfl
    · rw [if_neg h2, if_neg h2]
      by_cases h3 : v.closing = c
      · rw [if_pos h3, if_pos h3, andThen_fst]
        simp only [free_fst]
        cases checkedSub d 1 with
        | error f => rfl
        | ok k =>
          simp only
          by_cases h4 : k = 0
          · rw [if_pos h4, if_pos h4]; simp only [andThen_fst, flushMN_fst, free_fst]
            cases flushM (fun a => (rec a).1) { s with buffer := .scope a v k } <;> rfl
          · rw [if_neg h4, if_neg h4]; rfl
      · rw [if_neg h3, if_neg h3]; rfl

theorem stepCommandN_fst (s l sc d t c) : (stepCommandN rec s l sc d t c).1 = stepCommand (fun a => (rec a).1) s l sc d t c := by
  unfold stepCommandN stepCommand
  by_cases h1 : d = 0 ∧ ScopeVariant.isOpening c = true
  · rw [if_pos h1, if_pos h1]; cases ScopeVariant.fromOpening c <;> rfl
  · rw [if_neg h1, if_neg h1]
    by_cases h2 : d = 0 ∧ isWhitespace c = true
    · rw [if_pos h2, if_pos h2]; rfl
    · rw [if_neg h2, if_neg h2]
      by_cases h3 : d = 0 ∧ s.escaped = true
      · rw [if_pos h3, if_pos h3]
        simp only [andThen_fst, flushMN_fst]
        cases flushM (fun a => (rec a).1) s with
        | error f => rfl
        | ok s' =>
          simp only
          by_cases h4 : t.isEmpty = true
          · simp only [h4, if_true, free_fst, startCommandN_fst]
          · simp only [h4, Bool.false_eq_true, if_false, andThen_fst, free_fst, flushN_fst]
            cases checkedSub s'.bufferLine (newlines t) with
            | error f => rfl
            | ok line =>
              simp only
              cases flush (fun a => (rec a).1) (Buffer.newText.pushStr t) line s'.chunks with
              | error f => rfl
              | ok cs => simp only [startCommandN_fst]
      · rw [if_neg h3, if_neg h3]
        by_cases h4 : d ≠ 0 ∧ s.escaped = true
        · rw [if_pos h4, if_pos h4]; rfl
        · rw [if_neg h4, if_neg h4]
          by_cases h5 : d = 0 ∧ t.isEmpty = false
          · rw [if_pos h5, if_pos h5]
            simp only [andThen_fst, flushMN_fst, free_fst]
            cases flushM (fun a => (rec a).1) s with
            | error f => rfl
            | ok s' => simp only; cases checkedSub s'.lineNo (newlines t) <;> rfl
          · rw [if_neg h5, if_neg h5]
            cases (if d ≠ 0 then sc.getLast? else none) with
            | some x =>
              obtain ⟨a, v, p⟩ := x
              simp only
              by_cases h6 : v.opening = c
              · rw [if_pos h6, if_pos h6]; rfl
              · rw [if_neg h6, if_neg h6]
                by_cases h7 : v.closing = c
                · rw [if_pos h7, if_pos h7]; rfl
                · rw [if_neg h7, if_neg h7]; rfl
            | none =>
              simp only
              by_cases h6 : d ≠ 0
              · rw [if_pos h6, if_pos h6]; rfl
              · rw [if_neg h6, if_neg h6]
                cases ScopeVariant.fromClosing c with
                | some v => rfl
                | none =>
                  simp only
                  by_cases h7 : sc.isEmpty = true
                  · rw [if_pos h7, if_pos h7]; rfl
                  · rw [if_neg h7, if_neg h7]; simp only [andThen_fst, flushMN_fst, free_fst]
                    cases flushM (fun a => (rec a).1) s <;> rfl

theorem stepBufferN_fst (s c) : (stepBufferN rec s c).1 = stepBuffer (fun a => (rec a).1) s c := by
  unfold stepBufferN stepBuffer
  simp only [andThen_fst, free_fst]
  cases s.buffer with
  | text t => simp only [stepTextN_fst]; cases stepText (fun a => (rec a).1) s c <;> rfl
  | scope a v d => simp only [stepScopeN_fst]; cases stepScope (fun a => (rec a).1) s a v d c <;> rfl
  | command l sc d t => simp only [stepCommandN_fst]; cases stepCommand (fun a => (rec a).1) s l sc d t c <;> rfl

theorem stepN_fst (s c) : (stepN rec s c).1 = step (fun a => (rec a).1) s c := by
  unfold stepN step
  by_cases h1 : c = '\n'
  · rw [if_pos h1, if_pos h1, stepBufferN_fst]
  · rw [if_neg h1, if_neg h1]
    by_cases h2 : c = '%' ∧ s.escaped = false
    · rw [if_pos h2, if_pos h2]; rfl
    · rw [if_neg h2, if_neg h2]
      by_cases h3 : c = '\\' ∧ s.escaped = false
      · rw [if_pos h3, if_pos h3]; rfl
      · rw [if_neg h3, if_neg h3]
        by_cases h4 : s.comment = true
        · rw [if_pos h4, if_pos h4]; rfl
        · rw [if_neg h4, if_neg h4, stepBufferN_fst]

theorem runN_fst (cs s) : (runN rec cs s).1 = run (fun a => (rec a).1) cs s := by
  induction cs generalizing s with
  | nil => rfl
  | cons c cs ih =>
    simp only [runN, run, andThen_fst, stepN_fst]
    cases step (fun a => (rec a).1) s c with
    | error f => rfl
    | ok s' => exact ih s'

theorem finishN_fst (s) : (finishN rec s).1 = finish (fun a => (rec a).1) s := by
  unfold finishN finish
  cases s.buffer with
  | text t => simp only [andThen_fst, flushMN_fst, free_fst]; cases flushM (fun a => (rec a).1) s <;> rfl
  | scope a v d => simp only [andThen_fst, flushMN_fst, free_fst]; cases flushM (fun a => (rec a).1) s <;> rfl
  | command l sc d t =>
    simp only
    by_cases h : t.isEmpty = true
    · simp only [h, if_true, andThen_fst, flushMN_fst, free_fst]; cases flushM (fun a => (rec a).1) s <;> rfl
    · simp only [h, Bool.false_eq_true, if_false, andThen_fst, flushMN_fst, free_fst]
      cases flushM (fun a => (rec a).1) s with
      | error f => rfl
      | ok s' =>
        simp only
        cases flushM (fun a => (rec a).1) { s' with buffer := Buffer.newText.pushStr t } <;> rfl

theorem parseFuelN_fst (n s) : (parseFuelN n s).1 = parseFuel n s := by
  induction n generalizing s with
  | zero => rfl
  | succ n ih =>
    have hr : (fun a => (parseFuelN n a).1) = parseFuel n := funext ih
    simp only [parseFuelN, parseFuel, andThen_fst, runN_fst, finishN_fst, hr]
    cases run (parseFuel n) s State.init <;> rfl

end Ast1
end LatexAst
