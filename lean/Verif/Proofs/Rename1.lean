import Verif.Spec.Rename

/-! # Renaming characters: stage 1 -/

namespace LatexAst
open Spec

theorem Keeps.fix {f l x} (h : Keeps f l) (hx : x ∈ l) : f x = x := (h x hx x).2 rfl

theorem renameRes_ok {α β : Type} (f : Char → Char) (g : α → β) (a : α) : renameRes f g (.ok a) = .ok (g a) := rfl
theorem renameRes_error {α β : Type} (f : Char → Char) (g : α → β) (e : Fail) :
    renameRes f g (.error e : Res α) = .error (renameFail f e) := rfl

theorem renameRes_checkedSub {f : Char → Char} {a b : Nat} : renameRes f id (checkedSub a b) = checkedSub a b := by
  simp only [checkedSub]; split <;> rfl

theorem checkedSub_error {a b : Nat} {e : Fail} (h : checkedSub a b = .error e) : e = .panic := by
  simp only [checkedSub] at h; split at h <;> cases h; rfl

theorem renameRes_addLine {α β : Type} (f : Char → Char) (g : α → β) (k : Nat) (x : Res α) :
    renameRes f g (addLine k x) = addLine k (renameRes f g x) := by
  rcases x with e | a
  · rcases e with ⟨l, t⟩ | _ | _
    · cases t <;> rfl
    · rfl
    · rfl
  · rfl

theorem renameFail_addLine {α : Type} (f : Char → Char) (k : Nat) (e : Fail) :
    addLine k (.error (renameFail f e) : Res α) = renameRes f id (addLine k (.error e)) := by
  rw [renameRes_addLine]; rfl

section
variable {f : Char → Char} (R : Renaming1 f)
include R

theorem ren_nl (c : Char) : (f c = '\n') = (c = '\n') := propext (R.keeps _ (by simp) c)
theorem ren_pc (c : Char) : (f c = '%') = (c = '%') := propext (R.keeps _ (by simp) c)
theorem ren_bs (c : Char) : (f c = '\\') = (c = '\\') := propext (R.keeps _ (by simp) c)
theorem ren_opening (v : ScopeVariant) (c : Char) : (v.opening = f c) = (v.opening = c) := by
  refine propext ?_
  rw [eq_comm, R.keeps v.opening (by cases v <;> simp [ScopeVariant.opening]) c, eq_comm]
theorem ren_closing (v : ScopeVariant) (c : Char) : (v.closing = f c) = (v.closing = c) := by
  refine propext ?_
  rw [eq_comm, R.keeps v.closing (by cases v <;> simp [ScopeVariant.closing]) c, eq_comm]
theorem ren_fromOpening (c : Char) : ScopeVariant.fromOpening (f c) = ScopeVariant.fromOpening c := by
  simp only [ScopeVariant.fromOpening, R.keeps '{' (by simp) c, R.keeps '[' (by simp) c, R.keeps '(' (by simp) c]
theorem ren_fromClosing (c : Char) : ScopeVariant.fromClosing (f c) = ScopeVariant.fromClosing c := by
  simp only [ScopeVariant.fromClosing, R.keeps '}' (by simp) c, R.keeps ']' (by simp) c, R.keeps ')' (by simp) c]
theorem ren_isOpening (c : Char) : ScopeVariant.isOpening (f c) = ScopeVariant.isOpening c := by
  rw [Bool.eq_iff_iff]
  simp only [ScopeVariant.isOpening, Bool.or_eq_true, beq_iff_eq, R.keeps '{' (by simp) c, R.keeps '[' (by simp) c,
    R.keeps '(' (by simp) c]
theorem ren_fix_bs : f '\\' = '\\' := Keeps.fix R.keeps (by simp)
theorem ren_fix_opening (v : ScopeVariant) : f v.opening = v.opening :=
  Keeps.fix R.keeps (by cases v <;> simp [ScopeVariant.opening])
theorem ren_fix_closing (v : ScopeVariant) : f v.closing = v.closing :=
  Keeps.fix R.keeps (by cases v <;> simp [ScopeVariant.closing])
theorem ren_newlines (s : Str) : newlines (s.map f) = newlines s := by
  induction s with
  | nil => rfl
  | cons c s ih =>
    have h : (f c == '\n') = (c == '\n') := by
      rw [Bool.eq_iff_iff, beq_iff_eq, beq_iff_eq, ren_nl R]
    simp only [newlines, List.map_cons, List.filter_cons, h] at ih ⊢
    split <;> simp [ih]
end

namespace Ast1

theorem renameChunks_append (f : Char → Char) (a b : List Chunk) :
    renameChunks f (a ++ b) = renameChunks f a ++ renameChunks f b := by
  induction a with
  | nil => rfl
  | cons c a ih => simp [renameChunks, ih]

theorem renameArgs_append (f : Char → Char) (a b : List (Str × Scope)) :
    renameArgs f (a ++ b) = renameArgs f a ++ renameArgs f b := by
  induction a with
  | nil => rfl
  | cons c a ih => obtain ⟨p, s⟩ := c; simp [renameArgs, ih]

def renBuf (f : Char → Char) : ScopeBuf → ScopeBuf
  | (c, v, p) => (c.map f, v, p.map f)

def Buffer.rename (f : Char → Char) : Buffer → Buffer
  | .scope c v d => .scope (c.map f) v d
  | .command l s d t => .command (l.map f) (s.map (renBuf f)) d (t.map f)
  | .text c => .text (c.map f)

def State.rename (f : Char → Char) (s : State) : State :=
  ⟨renameChunks f s.chunks, s.lineNo, s.escaped, s.comment, s.bufferLine, s.buffer.rename f⟩

theorem pushLastContent_rename (f : Char → Char) (b : List ScopeBuf) (s : Str) :
    pushLastContent (b.map (renBuf f)) (s.map f) = (pushLastContent b s).map (renBuf f) := by
  induction b with
  | nil => rfl
  | cons x b ih =>
    obtain ⟨c, v, p⟩ := x
    cases b with
    | nil => simp [pushLastContent, renBuf]
    | cons y b => simp only [List.map_cons, pushLastContent] at ih ⊢; rw [ih]

theorem Buffer.pushStr_rename (f : Char → Char) (b : Buffer) (s : Str) :
    (b.rename f).pushStr (s.map f) = (b.pushStr s).rename f := by
  cases b with
  | text c => simp [Buffer.rename, Buffer.pushStr]
  | scope c v d => simp [Buffer.rename, Buffer.pushStr]
  | command l sc d t =>
    simp only [Buffer.rename, Buffer.pushStr, List.isEmpty_map]
    split
    · simp [Buffer.rename]
    · simp [Buffer.rename, pushLastContent_rename]

theorem Buffer.push_rename (f : Char → Char) (b : Buffer) (c : Char) : (b.rename f).push (f c) = (b.push c).rename f :=
  Buffer.pushStr_rename f b [c]

theorem State.eta_eq (s : State) : s = ⟨s.chunks, s.lineNo, s.escaped, s.comment, s.bufferLine, s.buffer⟩ := rfl

section
variable {f : Char → Char} (R : Renaming1 f) {rec : Str → Res (List Chunk)}
  (hrec : ∀ s, rec (s.map f) = renameRes f (renameChunks f) (rec s))
include R hrec

theorem evalArgs_rename (b : List ScopeBuf) :
    evalArgs rec (b.map (renBuf f)) = renameRes f (renameArgs f) (evalArgs rec b) := by
  induction b with
  | nil => rfl
  | cons x b ih =>
    obtain ⟨c, v, p⟩ := x
    simp only [List.map_cons, renBuf, evalArgs, hrec]
    rcases rec c with e | a
    · rfl
    · simp only [renameRes_ok, ih]
      rcases evalArgs rec b with e | x <;> simp [renameRes, renameArgs, Scope.rename]

theorem flush_rename (b : Buffer) (n : Nat) (cs : List Chunk) :
    flush rec (b.rename f) n (renameChunks f cs) = renameRes f (renameChunks f) (flush rec b n cs) := by
  cases b with
  | text c =>
    simp only [Buffer.rename, flush, List.isEmpty_map]
    split <;> simp [renameRes, renameChunks_append, renameChunks, Chunk.rename, ChunkVariant.rename]
  | scope c v d =>
    simp only [Buffer.rename, flush, hrec]
    split
    · rfl
    · rcases rec c with e | x <;> simp [renameRes, renameChunks_append, renameChunks, Chunk.rename, ChunkVariant.rename, Scope.rename]
  | command l sc d t =>
    simp only [Buffer.rename, flush, evalArgs_rename R hrec, List.getLast?_map]
    split
    · rcases sc.getLast? with _ | ⟨a, v, p⟩ <;> rfl
    · rcases evalArgs rec sc with e | x <;>
        simp [renameRes, renameChunks_append, renameChunks, Chunk.rename, ChunkVariant.rename, Command.rename]

theorem flushM_rename (s : State) : flushM rec (s.rename f) = renameRes f (State.rename f) (flushM rec s) := by
  simp only [flushM, State.rename, flush_rename R hrec]
  rcases flush rec s.buffer s.bufferLine s.chunks with e | x
  · simp only [renameRes_error]
    rcases h : checkedSub s.bufferLine 1 with p | k
    · simp [renameRes, checkedSub_error h, renameFail]
    · simp only [renameRes_addLine]; rfl
  · rfl

theorem startCommand_rename (s : State) (c : Char) :
    startCommand rec (s.rename f) (f c) = renameRes f (State.rename f) (startCommand rec s c) := by
  have h := flushM_rename R hrec { s with buffer := Buffer.newCommand.push c }
  have hb : Buffer.newCommand.push (f c) = (Buffer.newCommand.push c).rename f := Buffer.push_rename f Buffer.newCommand c
  simp only [startCommand, R.letter, hb]
  split
  · rfl
  · simp only [State.rename] at h ⊢
    rw [h]
    rcases flushM rec _ with e | x <;> simp [renameRes, State.rename, Buffer.newText, Buffer.rename]

theorem stepText_rename (s : State) (c : Char) :
    stepText rec (s.rename f) (f c) = renameRes f (State.rename f) (stepText rec s c) := by
  simp only [stepText, flushM_rename R hrec, ren_fromOpening R]
  have h1 : (s.rename f).escaped = s.escaped := rfl
  rw [h1]
  split
  · rcases flushM rec s with e | x
    · rfl
    · exact startCommand_rename R hrec x c
  · rcases ScopeVariant.fromOpening c with _ | v
    · simp only [renameRes_ok, State.rename, Buffer.push_rename]
    · simp only []
      rcases flushM rec s with e | x <;> simp [renameRes, State.rename, Buffer.newScope, Buffer.rename]

theorem stepScope_rename (s : State) (content : Str) (v : ScopeVariant) (d : Nat) (c : Char) :
    stepScope rec (s.rename f) (content.map f) v d (f c) =
      renameRes f (State.rename f) (stepScope rec s content v d c) := by
  have h1 : (s.rename f).escaped = s.escaped := rfl
  have h2 : (s.rename f).buffer = s.buffer.rename f := rfl
  have hb : ∀ d, Buffer.push (.scope (content.map f) v d) (f c) = (Buffer.push (.scope content v d) c).rename f :=
    fun d => Buffer.push_rename f (.scope content v d) c
  have h3 : Buffer.push (s.buffer.rename f) '\\' = (s.buffer.push '\\').rename f := by
    have := Buffer.push_rename f s.buffer '\\'
    rwa [ren_fix_bs R] at this
  simp only [stepScope, h1, h2, ren_opening R, ren_closing R, hb, h3, Buffer.push_rename]
  split
  · rfl
  · split
    · rfl
    · split
      · rcases h : checkedSub d 1 with p | k
        · simp [renameRes, checkedSub_error h, renameFail]
        · simp only []
          split
          · have h := flushM_rename R hrec { s with buffer := .scope content v k }
            simp only [State.rename, Buffer.rename] at h ⊢
            rw [h]
            rcases flushM rec _ with e | x <;> simp [renameRes, State.rename, Buffer.newText, Buffer.rename]
          · rfl
      · rfl

theorem stepCommand_rename (s : State) (label : Str) (scopes : List ScopeBuf) (d : Nat) (tr : Str) (c : Char) :
    stepCommand rec (s.rename f) (label.map f) (scopes.map (renBuf f)) d (tr.map f) (f c) =
      renameRes f (State.rename f) (stepCommand rec s label scopes d tr c) := by
  have h1 : (s.rename f).escaped = s.escaped := rfl
  have h2 : (s.rename f).buffer = s.buffer.rename f := rfl
  have h3 : Buffer.push (s.buffer.rename f) '\\' = (s.buffer.push '\\').rename f := by
    have := Buffer.push_rename f s.buffer '\\'
    rwa [ren_fix_bs R] at this
  have h4 : (s.rename f).lineNo = s.lineNo := rfl
  have h5 : Buffer.newText.pushStr (tr.map f) = (Buffer.newText.pushStr tr).rename f :=
    Buffer.pushStr_rename f Buffer.newText tr
  have h6 : Buffer.newText.push (f c) = (Buffer.newText.push c).rename f := Buffer.push_rename f Buffer.newText c
  simp only [stepCommand, h1, h2, ren_isOpening R, ren_fromOpening R, ren_fromClosing R, ren_opening R, ren_closing R, h3,
    h5, h6, Buffer.push_rename, R.blank, List.isEmpty_map, flushM_rename R hrec, ren_newlines R, List.getLast?_map, h4]
  split
  · rcases ScopeVariant.fromOpening c with _ | v
    · rfl
    · simp [renameRes, State.rename, Buffer.pushScope, Buffer.rename, renBuf]
  split
  · simp [renameRes, State.rename, Buffer.rename]
  split
  · rcases flushM rec s with e | x
    · rfl
    · simp only [renameRes_ok]
      by_cases ht : List.isEmpty tr = true
      · simp only [ht, if_true]
        exact startCommand_rename R hrec { x with bufferLine := x.lineNo } c
      · simp only [ht]
        have e1 : (x.rename f).bufferLine = x.bufferLine := rfl
        have e2 : (x.rename f).chunks = renameChunks f x.chunks := rfl
        simp only [e1, e2, flush_rename R hrec, Bool.false_eq_true, if_false]
        rcases h : checkedSub x.bufferLine (newlines tr) with p | k
        · simp [renameRes, checkedSub_error h, renameFail]
        · simp only []
          rcases flush rec (Buffer.newText.pushStr tr) k x.chunks with e | cs
          · rfl
          · exact startCommand_rename R hrec { x with chunks := cs, bufferLine := x.lineNo } c
  split
  · rfl
  split
  · rcases flushM rec s with e | x
    · rfl
    · simp only [renameRes_ok]
      have e1 : (x.rename f).lineNo = x.lineNo := rfl
      rw [e1]
      rcases h : checkedSub x.lineNo (newlines tr) with p | k
      · simp [renameRes, checkedSub_error h, renameFail]
      · simp only [renameRes_ok, State.rename, Buffer.push_rename]
  by_cases hd : d = 0
  · subst hd
    simp only [ne_eq, not_true_eq_false, if_false]
    rcases ScopeVariant.fromClosing c with _ | v
    · simp only []
      split
      · rfl
      · rcases flushM rec s with e | x <;> rfl
    · rfl
  · simp only [ne_eq, hd, not_false_eq_true, if_true]
    rcases scopes.getLast? with _ | ⟨a, v, p⟩
    · rfl
    · simp only [Option.map_some, renBuf]
      split
      · simp [renameRes, State.rename, Buffer.rename]
      · split
        · simp [renameRes, State.rename, Buffer.rename]
        · rfl

theorem stepBuffer_rename (s : State) (c : Char) :
    stepBuffer rec (s.rename f) (f c) = renameRes f (State.rename f) (stepBuffer rec s c) := by
  have h2 : (s.rename f).buffer = s.buffer.rename f := rfl
  simp only [stepBuffer, h2]
  rcases h : s.buffer with ⟨content, v, d⟩ | ⟨label, scopes, d, tr⟩ | content
  · simp only [Buffer.rename, stepScope_rename R hrec]
    rcases stepScope rec s content v d c with e | x <;> rfl
  · simp only [Buffer.rename, stepCommand_rename R hrec]
    rcases stepCommand rec s label scopes d tr c with e | x <;> rfl
  · simp only [Buffer.rename, stepText_rename R hrec]
    rcases stepText rec s c with e | x <;> rfl

theorem step_rename (s : State) (c : Char) :
    step rec (s.rename f) (f c) = renameRes f (State.rename f) (step rec s c) := by
  have h1 : (s.rename f).escaped = s.escaped := rfl
  have h2 : (s.rename f).comment = s.comment := rfl
  simp only [step, ren_nl R, ren_pc R, ren_bs R, h1, h2]
  split
  · exact stepBuffer_rename R hrec { s with comment := false, lineNo := s.lineNo + 1 } c
  split
  · rfl
  split
  · rfl
  split
  · rfl
  · exact stepBuffer_rename R hrec s c

theorem run_rename (x : Str) (s : State) :
    run rec (x.map f) (s.rename f) = renameRes f (State.rename f) (run rec x s) := by
  induction x generalizing s with
  | nil => rfl
  | cons c x ih =>
    simp only [List.map_cons, run, step_rename R hrec]
    rcases step rec s c with e | t
    · rfl
    · exact ih t

theorem finish_rename (s : State) : finish rec (s.rename f) = renameRes f (renameChunks f) (finish rec s) := by
  have h2 : (s.rename f).buffer = s.buffer.rename f := rfl
  simp only [finish, h2, flushM_rename R hrec]
  rcases h : s.buffer with ⟨content, v, d⟩ | ⟨label, scopes, d, tr⟩ | content
  · simp only [Buffer.rename]
    rcases flushM rec s with e | x <;> rfl
  · simp only [Buffer.rename, List.isEmpty_map]
    split
    · rcases flushM rec s with e | x <;> rfl
    · rcases flushM rec s with e | x
      · rfl
      · simp only [renameRes_ok]
        have := flushM_rename R hrec { x with buffer := Buffer.newText.pushStr tr }
        have h5 : Buffer.newText.pushStr (tr.map f) = (Buffer.newText.pushStr tr).rename f :=
          Buffer.pushStr_rename f Buffer.newText tr
        rw [h5]
        simp only [State.rename] at this ⊢
        rw [this]
        rcases flushM rec _ with e | x <;> rfl
  · simp only [Buffer.rename]
    rcases flushM rec s with e | x <;> rfl
end

theorem parseFuel_rename {f : Char → Char} (R : Renaming1 f) (n : Nat) (s : Str) :
    parseFuel n (s.map f) = renameRes f (renameChunks f) (parseFuel n s) := by
  induction n generalizing s with
  | zero => rfl
  | succ n ih =>
    simp only [parseFuel]
    rw [show State.init = State.init.rename f from rfl, run_rename R ih]
    rw [show State.init.rename f = State.init from rfl]
    rcases run (parseFuel n) s State.init with e | x
    · rfl
    · exact finish_rename R ih x

theorem fromStr_rename {f : Char → Char} (R : Renaming1 f) (s : Str) :
    fromStr (s.map f) = renameRes f (renameChunks f) (fromStr s) := by
  simp only [fromStr, List.length_map, parseFuel_rename R]

end Ast1
end LatexAst
