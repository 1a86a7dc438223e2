import Verif.Proofs.LeadingBlanks2
import Verif.Proofs.FinalBlanks3
import Verif.Proofs.Compose3
import Verif.Proofs.Errors3

/-!
# Blanks at the beginning of a source, stage 3
-/

namespace LatexAst.Ast3
open Spec
open Ast2 (DownRes)

/-- Every chunk is on line 1 or below. -/
def FromOne (cs : List Ast2.Chunk) : Prop := ∀ c ∈ cs, 1 ≤ c.lineNo

/-- The loop variables, `k` lines further down, with another beginning of the output. -/
structure MDown (k : Nat) (A A' : List Chunk) (s s' : MState) : Prop where
  out : ∃ y, s.out = A ++ y ∧ s'.out = A' ++ moved k y
  mode : s'.mode = s.mode
  depth : s'.depth = s.depth
  buffer : s'.buffer = s.buffer.map (Ast2.Chunk.shift k)
  line : s'.bufferLine = s.bufferLine ∨ s'.bufferLine = s.bufferLine + k
  fromOne : FromOne s.buffer
  bracket : s.mode = .singleDollar .brackets ∨ s.mode = .doubleDollar .brackets → s'.bufferLine = s.bufferLine + k

/-- The variables of the text loop. -/
structure TDown (k : Nat) (A A' : List Chunk) (t t' : TState) : Prop where
  m : MDown k A A' t.m t'.m
  cursor : t'.cursorLine = t.cursorLine + k
  text : t'.textBuffer = t.textBuffer
  start : t'.textBufferLine = t.textBufferLine + k
  cursor1 : 1 ≤ t.cursorLine
  start1 : 1 ≤ t.textBufferLine

variable {rec : List Ast2.Chunk → Res (List Chunk)} {k : Nat} {A A' : List Chunk}

/-- What the recursive call does. -/
def RecDown (k : Nat) (rec : List Ast2.Chunk → Res (List Chunk)) : Prop :=
  ∀ cs, FromOne cs → DownRes k (fun a b => b = moved k a) (rec cs) (rec (cs.map (Ast2.Chunk.shift k)))

theorem MDown.push {s s'} (h : MDown k A A' s s') (l : Nat) (v : ChunkVariant) :
    MDown k A A' { s with out := s.out ++ [.mk l v] } { s' with out := s'.out ++ [.mk (l + k) (v.moved k)] } := by
  obtain ⟨y, h1, h2⟩ := h.out
  exact ⟨⟨y ++ [.mk l v], by simp [h1], by simp [h2, moved_append, moved, Chunk.moved]⟩, h.mode, h.depth, h.buffer, h.line, h.fromOne, h.bracket⟩

theorem rebase_down {l : Nat} (hl : 1 ≤ l) (k : Nat) (cs : List Ast2.Chunk) : rebase (l + k) (cs.map (Ast2.Chunk.shift k)) = rebase l cs := by
  induction cs with
  | nil => rfl
  | cons c cs ih =>
    obtain ⟨n, v⟩ := c
    simp only [List.map_cons, Ast2.Chunk.shift, rebase, ih, checkedSub, panicked]
    rw [if_pos (by omega), if_pos hl]
    simp only
    by_cases h : l - 1 ≤ n
    · rw [if_pos h, if_pos (by omega)]
      rw [show n + k - (l + k - 1) = n - (l - 1) by omega]
    · rw [if_neg h, if_neg (by omega)]

theorem pushStr_down {t t'} (h : TDown k A A' t t') : TDown k A A' t.pushStr t'.pushStr := by
  unfold TState.pushStr
  rw [h.text]
  by_cases he : t.textBuffer.isEmpty = true
  · rw [if_pos he, if_pos he]; exact h
  · rw [if_neg he, if_neg he]
    refine ⟨?_, h.cursor, rfl, h.start, h.cursor1, h.start1⟩
    have := h.m.push t.textBufferLine (.text t.textBuffer)
    simp only [h.start, h.text]
    exact this

theorem closeDollars_down {t t'} (h : TDown k A A' t t') (type : MathsType) :
    DownRes k (TDown k A A') (closeDollars rec t type) (closeDollars rec t' type) := by
  unfold closeDollars
  have hb : (if t'.textBuffer.isEmpty then t'.m.buffer else t'.m.buffer ++ [.mk (t.textBufferLine + k) (.text t'.textBuffer)]) =
      (if t.textBuffer.isEmpty then t.m.buffer else t.m.buffer ++ [.mk t.textBufferLine (.text t.textBuffer)]).map (Ast2.Chunk.shift k) := by
    rw [h.text, h.m.buffer]
    split <;> simp [Ast2.Chunk.shift]
  simp only [h.start]
  simp only [hb, rebase_down h.start1]
  cases rebase t.textBufferLine _ with
  | error f => exact .error .same
  | ok buffer =>
    simp only
    cases rec buffer with
    | error f => exact .error .same
    | ok content =>
      simp only
      obtain ⟨y, h1, h2⟩ := h.m.out
      refine .ok ⟨⟨⟨y ++ [.mk t.textBufferLine (.mathsBlock (.mk .dollars type content))], ?_, ?_⟩, rfl, h.m.depth, rfl, h.m.line, ?_, ?_⟩, h.cursor, rfl, h.cursor,
        h.cursor1, h.cursor1⟩
      · simp [h1]
      · simp [h2, moved_append, moved, Chunk.moved, ChunkVariant.moved, MathsBlock.moved]
      · intro c hc; cases hc
      · intro hm; rcases hm with hm | hm <;> cases hm

theorem MDown.withMode {s s'} (h : MDown k A A' s s') (m : MathsMode) (hm : m ≠ .singleDollar .brackets ∧ m ≠ .doubleDollar .brackets) :
    MDown k A A' { s with mode := m } { s' with mode := m } :=
  ⟨h.out, rfl, h.depth, h.buffer, h.line, h.fromOne, fun h => (h.elim hm.1 hm.2).elim⟩

theorem stepDollar_down {t t'} (h : TDown k A A' t t') : DownRes k (TDown k A A') (stepDollar rec t) (stepDollar rec t') := by
  unfold stepDollar
  rw [h.m.mode]
  cases hm : t.m.mode with
  | none =>
    have hp := pushStr_down h
    exact .ok ⟨hp.m.withMode _ (by simp), hp.cursor, hp.text, hp.cursor, hp.cursor1, hp.cursor1⟩
  | doubleClosing => exact closeDollars_down h _
  | singleDollar v =>
    cases v with
    | brackets => exact .ok h
    | dollars =>
      simp only
      have he : t'.m.buffer.isEmpty = t.m.buffer.isEmpty := by rw [h.m.buffer]; simp
      rw [he]
      rw [show t'.textBuffer.isEmpty = t.textBuffer.isEmpty by rw [h.text]]
      by_cases hc : t.textBuffer.isEmpty = true ∧ t.m.buffer.isEmpty = true
      · rw [if_pos hc, if_pos hc]
        exact .ok ⟨h.m.withMode _ (by simp), h.cursor, h.text, h.start, h.cursor1, h.start1⟩
      · rw [if_neg hc, if_neg hc]; exact closeDollars_down h _
  | doubleDollar v =>
    cases v with
    | brackets => exact .ok h
    | dollars => exact .ok ⟨h.m.withMode _ (by simp), h.cursor, h.text, h.start, h.cursor1, h.start1⟩

theorem stepChar_down {t t'} (h : TDown k A A' t t') (c : Char) : DownRes k (TDown k A A') (stepChar rec t c) (stepChar rec t' c) := by
  unfold stepChar
  have h' : TDown k A A' (if c = '\n' then { t with cursorLine := t.cursorLine + 1 } else t)
      (if c = '\n' then { t' with cursorLine := t'.cursorLine + 1 } else t') := by
    by_cases hc : c = '\n'
    · rw [if_pos hc, if_pos hc]
      exact ⟨h.m, by simp only [h.cursor]; omega, h.text, h.start, by simp, h.start1⟩
    · rw [if_neg hc, if_neg hc]; exact h
  simp only
  by_cases hd : c = '$'
  · rw [if_pos hd, if_pos hd]; exact stepDollar_down h'
  · rw [if_neg hd, if_neg hd]
    exact .ok ⟨h'.m, h'.cursor, by simp only [h'.text], h'.start, h'.cursor1, h'.start1⟩

theorem runText_down (x : Str) : ∀ {t t'}, TDown k A A' t t' → DownRes k (TDown k A A') (runText rec x t) (runText rec x t') := by
  induction x with
  | nil => intro t t' h; exact .ok h
  | cons c x ih =>
    intro t t' h
    have := stepChar_down (rec := rec) h c
    simp only [runText]
    revert this
    generalize stepChar rec t c = a
    generalize stepChar rec t' c = b
    intro this
    cases this with
    | error hf => exact .error hf
    | ok h => exact ih h

theorem stepMathsText_down {s s'} (h : MDown k A A' s s') {l : Nat} (hl : 1 ≤ l) (x : Str) :
    DownRes k (MDown k A A') (stepMathsText rec s l x) (stepMathsText rec s' (l + k) x) := by
  unfold stepMathsText
  have := runText_down (rec := rec) x (t := ⟨s, l, [], l⟩) (t' := ⟨s', l + k, [], l + k⟩) ⟨h, rfl, rfl, rfl, hl, hl⟩
  revert this
  generalize runText rec x ⟨s, l, [], l⟩ = a
  generalize runText rec x ⟨s', l + k, [], l + k⟩ = b
  intro this
  cases this with
  | error hf => exact .error hf
  | ok h => exact .ok (pushStr_down h).m

theorem pushBuffer_down {s s'} (h : MDown k A A' s s') {l : Nat} (hl : 1 ≤ l) (v : Ast2.ChunkVariant) :
    MDown k A A' (s.pushBuffer l v) (s'.pushBuffer (l + k) v) := by
  refine ⟨h.out, h.mode, h.depth, ?_, h.line, ?_, h.bracket⟩
  · simp [MState.pushBuffer, h.buffer, Ast2.Chunk.shift]
  · intro c hc
    rcases List.mem_append.1 hc with hc | hc
    · exact h.fromOne c hc
    · rw [List.mem_singleton] at hc; subst hc; exact hl

theorem closeBrackets_down (hr : RecDown k rec) {s s'} (h : MDown k A A' s s') (hl : s'.bufferLine = s.bufferLine + k) (type : MathsType) :
    DownRes k (MDown k A A') (closeBrackets rec s type) (closeBrackets rec s' type) := by
  unfold closeBrackets
  have := hr s.buffer h.fromOne
  rw [h.buffer, hl]
  revert this
  generalize rec s.buffer = a
  generalize rec (s.buffer.map (Ast2.Chunk.shift k)) = b
  intro this
  cases this with
  | error hf => exact .error hf
  | @ok content _ he =>
    subst he
    obtain ⟨y, h1, h2⟩ := h.out
    refine .ok ⟨⟨y ++ [.mk s.bufferLine (.mathsBlock (.mk .brackets type content))], ?_, ?_⟩, rfl, rfl, rfl, .inr rfl, ?_, ?_⟩
    · simp [h1]
    · simp [h2, moved_append, moved, Chunk.moved, ChunkVariant.moved, MathsBlock.moved]
    · intro c hc; cases hc
    · intro hm; rcases hm with hm | hm <;> cases hm

theorem MDown.withDepth {s s'} (h : MDown k A A' s s') (d : Nat) : MDown k A A' { s with depth := d } { s' with depth := d } :=
  ⟨h.out, h.mode, rfl, h.buffer, h.line, h.fromOne, h.bracket⟩

theorem MDown.opened {s s'} (h : MDown k A A' s s') (m : MathsMode) (l d : Nat) :
    MDown k A A' { s with mode := m, bufferLine := l, depth := d } { s' with mode := m, bufferLine := l + k, depth := d } :=
  ⟨h.out, rfl, rfl, h.buffer, .inr rfl, h.fromOne, fun _ => rfl⟩

theorem stepMathsCommand_down (hr : RecDown k rec) {s s'} (h : MDown k A A' s s') {l : Nat} (hl : 1 ≤ l) (cmd : Ast2.Command) :
    DownRes k (MDown k A A') (stepMathsCommand rec s l cmd) (stepMathsCommand rec s' (l + k) cmd) := by
  obtain ⟨o1, m1, d1, b1, l1⟩ := s
  obtain ⟨o2, m2, d2, b2, l2⟩ := s'
  obtain rfl : m2 = m1 := h.mode
  obtain rfl : d2 = d1 := h.depth
  unfold stepMathsCommand
  simp only
  have dec : DownRes k (MDown k A A') (match checkedSub d2 1 with | .error p => .error p | .ok d => .ok { (⟨o1, m2, d2, b1, l1⟩ : MState) with depth := d })
      (match checkedSub d2 1 with | .error p => .error p | .ok d => .ok { (⟨o2, m2, d2, b2, l2⟩ : MState) with depth := d }) := by
    cases checkedSub d2 1 with
    | error f => exact .error .same
    | ok d => exact .ok (h.withDepth d)
  by_cases c1 : m2 = .none ∧ (cmd.label = chars!")" ∨ cmd.label = chars!"]")
  · rw [if_pos c1, if_pos c1]; exact .error .down
  rw [if_neg c1, if_neg c1]
  by_cases c2 : cmd.label = chars!"(" ∧ m2 = .none
  · rw [if_pos c2, if_pos c2]; exact .ok (h.opened _ _ _)
  rw [if_neg c2, if_neg c2]
  by_cases c3 : cmd.label = chars!"[" ∧ m2 = .none
  · rw [if_pos c3, if_pos c3]; exact .ok (h.opened _ _ _)
  rw [if_neg c3, if_neg c3]
  by_cases c4 : cmd.label = chars!"(" ∧ m2 = .singleDollar .brackets
  · rw [if_pos c4, if_pos c4]; exact .ok (h.withDepth _)
  rw [if_neg c4, if_neg c4]
  by_cases c5 : cmd.label = chars!"[" ∧ m2 = .doubleDollar .brackets
  · rw [if_pos c5, if_pos c5]; exact .ok (h.withDepth _)
  rw [if_neg c5, if_neg c5]
  by_cases c6 : cmd.label = chars!")" ∧ m2 = .singleDollar .brackets ∧ d2 = 1
  · rw [if_pos c6, if_pos c6]; exact closeBrackets_down hr h (h.bracket (.inl c6.2.1)) _
  rw [if_neg c6, if_neg c6]
  by_cases c7 : cmd.label = chars!"]" ∧ m2 = .doubleDollar .brackets ∧ d2 = 1
  · rw [if_pos c7, if_pos c7]; exact closeBrackets_down hr h (h.bracket (.inr c7.2.1)) _
  rw [if_neg c7, if_neg c7]
  by_cases c8 : cmd.label = chars!")" ∧ m2 = .singleDollar .brackets
  · rw [if_pos c8, if_pos c8]; exact dec
  rw [if_neg c8, if_neg c8]
  by_cases c9 : cmd.label = chars!"]" ∧ m2 = .doubleDollar .brackets
  · rw [if_pos c9, if_pos c9]; exact dec
  rw [if_neg c9, if_neg c9]
  by_cases c10 : m2 = .none
  · rw [if_pos c10, if_pos c10]
    cases tryCommand rec cmd with
    | error f => exact .error .same
    | ok c => exact .ok (h.push l (.command c))
  · rw [if_neg c10, if_neg c10]; exact .ok (pushBuffer_down h hl _)

theorem stepMaths_down (hr : RecDown k rec) {s s'} (h : MDown k A A' s s') (c : Ast2.Chunk) (hl : 1 ≤ c.lineNo) :
    DownRes k (MDown k A A') (stepMaths rec s c) (stepMaths rec s' (c.shift k)) := by
  obtain ⟨l, v⟩ := c
  simp only [Ast2.Chunk.lineNo] at hl
  simp only [Ast2.Chunk.shift]
  obtain ⟨o1, m1, d1, b1, l1⟩ := s
  obtain ⟨o2, m2, d2, b2, l2⟩ := s'
  obtain rfl : m2 = m1 := h.mode
  obtain rfl : d2 = d1 := h.depth
  cases v with
  | command cmd => exact stepMathsCommand_down hr h hl cmd
  | scope sc =>
    simp only [stepMaths]
    by_cases hm : m2 = .none
    · rw [if_pos hm, if_pos hm]
      cases tryScope rec sc with
      | error f => exact .error .same
      | ok c => exact .ok (h.push l (.scope c))
    · rw [if_neg hm, if_neg hm]; exact .ok (pushBuffer_down h hl _)
  | environment e =>
    simp only [stepMaths]
    by_cases hm : m2 = .none
    · rw [if_pos hm, if_pos hm]
      cases tryEnvironment rec e with
      | error f => exact .error .same
      | ok c => exact .ok (h.push l (.environment c))
    · rw [if_neg hm, if_neg hm]; exact .ok (pushBuffer_down h hl _)
  | text x =>
    simp only [stepMaths]
    by_cases hm : m2 = .singleDollar .brackets ∨ m2 = .doubleDollar .brackets
    · rw [if_pos hm, if_pos hm]; exact .ok (pushBuffer_down h hl _)
    · rw [if_neg hm, if_neg hm]; exact stepMathsText_down h hl x

theorem runMaths_down (hr : RecDown k rec) (cs : List Ast2.Chunk) (hl : FromOne cs) : ∀ {s s'}, MDown k A A' s s' →
    DownRes k (MDown k A A') (runMaths rec cs s) (runMaths rec (cs.map (Ast2.Chunk.shift k)) s') := by
  induction cs with
  | nil => intro s s' h; exact .ok h
  | cons c cs ih =>
    intro s s' h
    have := stepMaths_down (rec := rec) hr h c (hl c (.head _))
    simp only [List.map_cons, runMaths]
    revert this
    generalize stepMaths rec s c = x
    generalize stepMaths rec s' (c.shift k) = y
    intro this
    cases this with
    | error hf => exact .error hf
    | ok h => exact ih (fun c hc => hl c (.tail _ hc)) h

theorem paragraphs_app (a b : List Chunk) : paragraphs (a ++ b) = paragraphs a ++ paragraphs b := by
  induction a with
  | nil => rfl
  | cons c a ih => simp [paragraphs, ih]

theorem finishMaths_down {s s'} (h : MDown k A A' s s') :
    DownRes k (fun a b => ∃ y, a = paragraphs A ++ y ∧ b = paragraphs A' ++ moved k y) (finishMaths s) (finishMaths s') := by
  unfold finishMaths
  rw [h.mode]
  by_cases hm : s.mode = .none
  · rw [if_neg (by simp [hm]), if_neg (by simp [hm])]
    obtain ⟨y, h1, h2⟩ := h.out
    exact .ok ⟨paragraphs y, by rw [h1, paragraphs_app], by rw [h2, paragraphs_app, paragraphs_moved]⟩
  · rw [if_pos hm, if_pos hm]
    rcases h.line with e | e <;> rw [e]
    · exact .error .same
    · exact .error .down

/-- Run and finish. -/
def mathsOutFrom (rec : List Ast2.Chunk → Res (List Chunk)) (cs : List Ast2.Chunk) (s : MState) : Res (List Chunk) :=
  match runMaths rec cs s with
  | .error f => .error f
  | .ok s => finishMaths s

theorem outFrom_down (hr : RecDown k rec) (cs : List Ast2.Chunk) (hl : FromOne cs) {s s'} (h : MDown k A A' s s') :
    DownRes k (fun a b => ∃ y, a = paragraphs A ++ y ∧ b = paragraphs A' ++ moved k y) (mathsOutFrom rec cs s)
      (mathsOutFrom rec (cs.map (Ast2.Chunk.shift k)) s') := by
  have := runMaths_down hr cs hl h
  unfold mathsOutFrom
  revert this
  generalize runMaths rec cs s = x
  generalize runMaths rec (cs.map (Ast2.Chunk.shift k)) s' = y
  intro this
  cases this with
  | error hf => exact .error hf
  | ok h => exact finishMaths_down h

theorem mdown_init : MDown k [] [] MState.init MState.init :=
  ⟨⟨[], rfl, rfl⟩, rfl, rfl, rfl, .inl rfl, (fun _ h => by cases h), (fun h => by rcases h with h | h <;> cases h)⟩

theorem mathsFuel_down (k n : Nat) : RecDown k (mathsFuel n) := by
  induction n with
  | zero => intro cs _; exact .error .same
  | succ n ih =>
    intro cs hl
    refine (outFrom_down ih cs hl mdown_init).mono ?_
    rintro a b ⟨y, rfl, rfl⟩
    rfl

theorem maths_down (k : Nat) : RecDown k mathsFromChunks := by
  intro cs hl
  have h1 := mathsFuel_down k (max (sizeChunks cs) (sizeChunks (cs.map (Ast2.Chunk.shift k))) + 1) cs hl
  have en : ∀ {n cs}, sizeChunks cs < n → mathsFuel n cs ≠ .error .fuel := by
    intro n cs h e
    have := mathsFuel_enough n cs h
    rw [e] at this; exact this rfl
  rwa [mathsFuel_eq (en (by omega)), mathsFuel_eq (en (by omega))] at h1

/-! ### the first text -/

theorem onlyText_nil : OnlyText [] := fun _ _ h => by cases h

theorem onlyText_append {a b} (ha : OnlyText a) (hb : OnlyText b) : OnlyText (a ++ b) := by
  intro l v h
  rcases List.mem_append.1 h with h | h
  · exact ha l v h
  · exact hb l v h

theorem onlyText_text (l t) : OnlyText [.mk l (.text t)] := by
  intro l' v h; rw [List.mem_singleton] at h; injection h with h1 h2; exact .inl ⟨t, h2⟩

theorem onlyText_break (l t) : OnlyText [.mk l (.paragraphBreak t)] := by
  intro l' v h; rw [List.mem_singleton] at h; injection h with h1 h2; exact .inr ⟨t, h2⟩

theorem onlyText_parStep {s : ParState} (h : OnlyText s.out) (c : Char) : OnlyText (parStep s c).out := by
  unfold parStep
  split
  · simp only; split
    · exact h
    · exact onlyText_append h (onlyText_text _ _)
  split
  · exact h
  split
  · exact h
  split
  · exact h
  split
  · exact h
  split
  · exact h
  · exact onlyText_append h (onlyText_break _ _)

theorem onlyText_parRun (x : Str) : ∀ {s : ParState}, OnlyText s.out → OnlyText (parRun x s).out := by
  induction x with
  | nil => intro s h; exact h
  | cons c x ih => intro s h; exact ih (onlyText_parStep h c)

theorem onlyText_parFinish {s : ParState} (h : OnlyText s.out) : OnlyText (parFinish s) := by
  unfold parFinish
  split
  · split
    · exact onlyText_append h (onlyText_break _ _)
    · simp only; split
      · exact h
      · exact onlyText_append h (onlyText_text _ _)
  split
  · simp only; split
    · exact h
    · exact onlyText_append h (onlyText_text _ _)
  · exact h

theorem onlyText_paragraphs (l t) : OnlyText (paragraphs (textIf l t)) := by
  unfold textIf
  split
  · exact onlyText_nil
  · simp only [paragraphs, paragraphChunk, List.append_nil]
    exact onlyText_parFinish (onlyText_parRun _ onlyText_nil)

/-- The state after a first text. -/
def firstText (t : Str) : MState := { MState.init with out := textIf 1 t }

theorem mdown_first (k : Nat) (t t' : Str) : MDown k (textIf 1 t) (textIf 1 t') (firstText t) (firstText t') :=
  ⟨⟨[], by simp [firstText], by simp [firstText, moved]⟩, rfl, rfl, rfl, .inl rfl, (fun _ h => by cases h), (fun h => by rcases h with h | h <;> cases h)⟩

theorem step_first {p : Str} (hp : '$' ∉ p) : stepMaths rec MState.init (.mk 1 (.text p)) = .ok (firstText p) := by
  simp only [stepMaths]
  rw [if_neg (by simp [MState.init])]
  simp only [stepMathsText, runText_plain hp, TState.pushStr, List.nil_append, firstText, textIf, MState.init]
  by_cases h : p = []
  · subst h; simp
  · simp [h]

theorem count_append_one (w p : Str) : 1 + (w ++ p).count '\n' = 1 + p.count '\n' + w.count '\n' := by
  rw [List.count_append]; omega

theorem step_first_down {w : Str} (hw : Blank w) (t : Str) : ∃ p, DownRes (w.count '\n') (MDown (w.count '\n') (textIf 1 p) (textIf 1 (w ++ p)))
    (stepMaths rec MState.init (.mk 1 (.text t))) (stepMaths rec MState.init (.mk 1 (.text (w ++ t)))) := by
  by_cases ht : '$' ∈ t
  · obtain ⟨p, q, rfl, hp⟩ : ∃ p q, t = p ++ '$' :: q ∧ '$' ∉ p := by
      clear hw
      induction t with
      | nil => cases ht
      | cons c t ih =>
        by_cases hc : c = '$'
        · exact ⟨[], t, by simp [hc], by simp⟩
        · have : '$' ∈ t := by
            rcases List.mem_cons.1 ht with h | h
            · exact absurd h.symm hc
            · exact h
          obtain ⟨p, q, rfl, h⟩ := ih this
          exact ⟨c :: p, q, rfl, by simp [h, Ne.symm hc]⟩
    refine ⟨p, ?_⟩
    have hwp : '$' ∉ w ++ p := by simp [blank_dollar hw, hp]
    simp only [stepMaths]
    rw [if_neg (by simp [MState.init]), if_neg (by simp [MState.init])]
    simp only [stepMathsText]
    rw [← List.append_assoc, runText_open hp rfl, runText_open hwp rfl]
    have h0 : MDown (w.count '\n') (textIf 1 p) (textIf 1 (w ++ p)) (opened MState.init 1 p (.singleDollar .dollars))
        (opened MState.init 1 (w ++ p) (.singleDollar .dollars)) :=
      ⟨⟨[], by simp [opened, MState.init], by simp [opened, MState.init, moved]⟩, rfl, rfl, rfl, .inl rfl, (fun _ h => by cases h),
        (fun h => by rcases h with h | h <;> cases h)⟩
    have := runText_down (rec := rec) q (t := ⟨opened MState.init 1 p (.singleDollar .dollars), 1 + p.count '\n', [], 1 + p.count '\n'⟩)
      (t' := ⟨opened MState.init 1 (w ++ p) (.singleDollar .dollars), 1 + (w ++ p).count '\n', [], 1 + (w ++ p).count '\n'⟩)
      ⟨h0, count_append_one w p, rfl, count_append_one w p, by simp only; omega, by simp only; omega⟩
    revert this
    generalize runText rec q _ = a
    generalize runText rec q _ = b
    intro this
    cases this with
    | error hf => exact .error hf
    | ok h => exact .ok (pushStr_down h).m
  · refine ⟨t, ?_⟩
    rw [step_first ht, step_first (by simp [blank_dollar hw, ht])]
    exact .ok (mdown_first _ _ _)

/-- The sections agree. -/
def LedS (w : Str) (x y : List Chunk) : Prop :=
  ∃ p p' r, OnlyText p ∧ OnlyText p' ∧ displayChunks p' = w ++ displayChunks p ∧ x = p ++ r ∧ y = p' ++ moved (w.count '\n') r

theorem led_end {w : Str} {p : Str} {x y} (h : ∃ r, x = paragraphs (textIf 1 p) ++ r ∧ y = paragraphs (textIf 1 (w ++ p)) ++ moved (w.count '\n') r) :
    LedS w x y := by
  obtain ⟨r, rfl, rfl⟩ := h
  exact ⟨_, _, r, onlyText_paragraphs _ _, onlyText_paragraphs _ _, by simp [display_paragraphs, display_textIf], rfl, rfl⟩

theorem outFrom_cons (c cs s) : mathsOutFrom rec (c :: cs) s = match stepMaths rec s c with
    | .error f => .error f
    | .ok s => mathsOutFrom rec cs s := by
  simp only [mathsOutFrom, runMaths]
  cases stepMaths rec s c <;> rfl

theorem led_maths {w a a'} (hw : Blank w) (h : Ast2.LedC w a a') (hl : FromOne a) :
    DownRes (w.count '\n') (LedS w) (mathsFromChunks a) (mathsFromChunks a') := by
  have e : ∀ cs, mathsFromChunks cs = mathsOutFrom mathsFromChunks cs MState.init := mathsFromChunks_eq
  rw [e a, e a']
  cases h with
  | added =>
    rw [outFrom_cons, step_first (blank_dollar hw)]
    refine (outFrom_down (maths_down _) a hl (mdown_first _ [] w)).mono ?_
    intro x y h
    exact led_end (p := []) (by simpa using h)
  | @longer t cs =>
    rw [outFrom_cons, outFrom_cons]
    obtain ⟨p, hp⟩ := step_first_down (rec := mathsFromChunks) hw t
    revert hp
    generalize stepMaths mathsFromChunks MState.init (.mk 1 (.text t)) = x
    generalize stepMaths mathsFromChunks MState.init (.mk 1 (.text (w ++ t))) = y
    intro hp
    cases hp with
    | error hf => exact .error hf
    | ok h =>
      refine (outFrom_down (maths_down _) cs (fun c hc => hl c (.tail _ hc)) h).mono ?_
      intro x y h
      exact led_end h

/-! ### documents -/

/-- The loop variables of the document loop. -/
structure DDown (w : Str) (s s' : DState) : Prop where
  construct : s'.construct = s.construct
  cursor : s'.inPreamable = s.inPreamable
  pre : Ast2.LedC w s.preamable s'.preamable
  trail : s'.trailing = s.trailing.map (Ast2.Chunk.shift (w.count '\n'))
  pre1 : FromOne s.preamable
  trail1 : FromOne s.trailing

theorem ledC_snoc {w a a'} (h : Ast2.LedC w a a') (l v) : Ast2.LedC w (a ++ [.mk l v]) (a' ++ [.mk (l + w.count '\n') v]) := by
  cases h with
  | added =>
    have := Ast2.LedC.added (w := w) (cs := a ++ [.mk l v])
    simpa [Ast2.Chunk.shift] using this
  | @longer t cs =>
    have := Ast2.LedC.longer (w := w) (t := t) (cs := cs ++ [.mk l v])
    simpa [Ast2.Chunk.shift] using this

theorem fromOne_snoc {a : List Ast2.Chunk} (h : FromOne a) {l} (hl : 1 ≤ l) (v) : FromOne (a ++ [.mk l v]) := by
  intro c hc
  rcases List.mem_append.1 hc with hc | hc
  · exact h c hc
  · rw [List.mem_singleton] at hc; subst hc; exact hl

theorem push_down {w s s'} (h : DDown w s s') {l} (hl : 1 ≤ l) (v) : DDown w (s.push l v) (s'.push (l + w.count '\n') v) := by
  unfold DState.push
  rw [h.cursor]
  by_cases hp : s.inPreamable = true
  · rw [if_pos hp, if_pos hp]
    exact ⟨h.construct, rfl, ledC_snoc h.pre _ _, h.trail, fromOne_snoc h.pre1 hl _, h.trail1⟩
  · rw [if_neg hp, if_neg hp]
    exact ⟨h.construct, rfl, h.pre, by simp [h.trail, Ast2.Chunk.shift], h.pre1, fromOne_snoc h.trail1 hl _⟩

theorem docClassArgs_down (k l : Nat) (args : List (Str × Ast2.Scope)) : ∀ d,
    DownRes k Eq (docClassArgs l args d) (docClassArgs (l + k) args d) := by
  induction args with
  | nil => intro d; exact .ok rfl
  | cons x args ih =>
    intro d
    obtain ⟨p, ⟨chunks, v⟩⟩ := x
    cases v with
    | curly =>
      simp only [docClassArgs]
      by_cases hc : d.documentclass.isSome = true
      · rw [if_pos hc, if_pos hc]; exact .error .down
      · rw [if_neg hc, if_neg hc]; exact ih _
    | round => exact ih _
    | square => exact ih _

theorem stepDocument_down {w s s'} (h : DDown w s s') (c : Ast2.Chunk) (hl : 1 ≤ c.lineNo) :
    DownRes (w.count '\n') (DDown w) (stepDocument s c) (stepDocument s' (c.shift (w.count '\n'))) := by
  obtain ⟨l, v⟩ := c
  simp only [Ast2.Chunk.lineNo] at hl
  simp only [Ast2.Chunk.shift]
  cases v with
  | text t => exact .ok (push_down h hl _)
  | scope sc => exact .ok (push_down h hl _)
  | environment e =>
    simp only [stepDocument]
    by_cases he : e.label = chars!"document"
    · rw [if_pos he, if_pos he]
      cases tryEnvironment mathsFromChunks e with
      | error f => exact .error .same
      | ok e' =>
        obtain ⟨_, args, content, b, n⟩ := e'
        refine .ok ⟨?_, rfl, h.pre, h.trail, h.pre1, h.trail1⟩
        simp only [h.construct]
    · rw [if_neg he, if_neg he]; exact .ok (push_down h hl _)
  | command cmd =>
    simp only [stepDocument, h.cursor]
    by_cases hc : cmd.label = chars!"documentclass" ∧ s.inPreamable = true
    · rw [if_pos hc, if_pos hc, h.construct]
      by_cases hd : s.construct.documentclass.isSome = true
      · rw [if_pos hd, if_pos hd]; exact .error .down
      · rw [if_neg hd, if_neg hd]
        have := docClassArgs_down (w.count '\n') l cmd.arguments s.construct
        revert this
        generalize docClassArgs l cmd.arguments s.construct = x
        generalize docClassArgs (l + w.count '\n') cmd.arguments s.construct = y
        intro this
        cases this with
        | error hf => exact .error hf
        | ok he =>
          subst he
          rename_i d
          have h' : DDown w { s with construct := d } { s' with construct := d } :=
            ⟨rfl, h.cursor, h.pre, h.trail, h.pre1, h.trail1⟩
          exact .ok (by have := push_down h' hl (.command cmd); simpa [h.cursor] using this)
    · rw [if_neg hc, if_neg hc]; exact .ok (push_down h hl _)

theorem runDocument_down {w} (cs : List Ast2.Chunk) (hl : FromOne cs) : ∀ {s s'}, DDown w s s' →
    DownRes (w.count '\n') (DDown w) (runDocument cs s) (runDocument (cs.map (Ast2.Chunk.shift (w.count '\n'))) s') := by
  induction cs with
  | nil => intro s s' h; exact .ok h
  | cons c cs ih =>
    intro s s' h
    have := stepDocument_down h c (hl c (.head _))
    simp only [List.map_cons, runDocument]
    revert this
    generalize stepDocument s c = x
    generalize stepDocument s' (c.shift _) = y
    intro this
    cases this with
    | error hf => exact .error hf
    | ok h => exact ih (fun c hc => hl c (.tail _ hc)) h

theorem onlyText_paras {p} (h : OnlyText p) : OnlyText (paragraphs p) := by
  induction p with
  | nil => exact onlyText_nil
  | cons c p ih =>
    obtain ⟨l, v⟩ := c
    refine onlyText_append ?_ (ih fun l v hm => h l v (.tail _ hm))
    rcases h l v (.head _) with ⟨t, rfl⟩ | ⟨t, rfl⟩
    · exact onlyText_parFinish (onlyText_parRun _ onlyText_nil)
    · exact onlyText_break _ _

theorem ledS_paragraphs {w x y} (h : LedS w x y) : LedS w (paragraphs x) (paragraphs y) := by
  obtain ⟨p, p', r, h1, h2, h3, rfl, rfl⟩ := h
  refine ⟨paragraphs p, paragraphs p', paragraphs r, ?_, ?_, by rw [display_paragraphs, display_paragraphs, h3],
    paragraphs_app _ _, by rw [paragraphs_app, paragraphs_moved]⟩
  · exact onlyText_paras h1
  · exact onlyText_paras h2

theorem sections_down {w s s'} (hw : Blank w) (h : DDown w s s') : DownRes (w.count '\n') (Led w) (sections s) (sections s') := by
  unfold sections
  have h1 := led_maths hw h.pre h.pre1
  have h2 := maths_down (w.count '\n') s.trailing h.trail1
  rw [← h.trail] at h2
  rw [h.construct]
  revert h1 h2
  generalize mathsFromChunks s.preamable = x
  generalize mathsFromChunks s'.preamable = y
  generalize mathsFromChunks s.trailing = z
  generalize mathsFromChunks s'.trailing = z'
  intro h1 h2
  cases h1 with
  | error hf => exact .error hf
  | ok h1 =>
    cases h2 with
    | error hf => exact .error hf
    | ok h2 =>
      subst h2
      obtain ⟨p, p', r, k1, k2, k3, k4, k5⟩ := ledS_paragraphs h1
      refine .ok ⟨p, p', r, k1, k2, k3, k4, ?_⟩
      simp only [k5, paragraphs_moved]

theorem tryFrom_led {w e e'} (hw : Blank w) (h : Ast2.LedC w e e') (hl : FromOne e) : DownRes (w.count '\n') (Led w) (tryFrom e) (tryFrom e') := by
  have key : ∀ {cs s s'}, FromOne cs → DDown w s s' → DownRes (w.count '\n') (Led w)
      (match runDocument cs s with | .error f => .error f | .ok s => sections s)
      (match runDocument (cs.map (Ast2.Chunk.shift (w.count '\n'))) s' with | .error f => .error f | .ok s => sections s) := by
    intro cs s s' hl hd
    have := runDocument_down cs hl hd
    revert this
    generalize runDocument cs s = x
    generalize runDocument (cs.map _) s' = y
    intro this
    cases this with
    | error hf => exact .error hf
    | ok h => exact sections_down hw h
  have first : ∀ t cs, runDocument (.mk 1 (.text t) :: cs) DState.init = runDocument cs { DState.init with preamable := [.mk 1 (.text t)] } := fun t cs => by
    simp [runDocument, stepDocument, DState.push, DState.init]
  rw [tryFrom_sections, tryFrom_sections]
  cases h with
  | added =>
    rw [first]
    exact key hl ⟨rfl, rfl, .added, rfl, (fun _ h => by cases h), (fun _ h => by cases h)⟩
  | @longer t cs =>
    rw [first, first]
    refine key (fun c hc => hl c (.tail _ hc)) ⟨rfl, rfl, .longer, rfl, ?_, (fun _ h => by cases h)⟩
    intro c hc
    rw [List.mem_singleton] at hc; subst hc; exact Nat.le_refl _

end LatexAst.Ast3
