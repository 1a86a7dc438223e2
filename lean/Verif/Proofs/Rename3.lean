import Verif.Proofs.Rename2
import Verif.Model.Conv3

/-! # Renaming characters: stage 3 -/

namespace LatexAst
open Spec

namespace Ast2
section
variable {f : Char → Char} (R : Renaming2 f)
include R
theorem rbegin : chars!"\\begin".map f = chars!"\\begin" :=
  map_fixed fun c hc => by
    simp only [List.mem_cons, List.not_mem_nil, or_false] at hc
    rcases hc with rfl | hc
    · exact ren_fix_bs R.toRenaming1
    · exact R.words c (by simp; grind)
theorem rend : chars!"\\end".map f = chars!"\\end" :=
  map_fixed fun c hc => by
    simp only [List.mem_cons, List.not_mem_nil, or_false] at hc
    rcases hc with rfl | hc
    · exact ren_fix_bs R.toRenaming1
    · exact R.words c (by simp; grind)
theorem rcurly : f '{' = '{' ∧ f '}' = '}' :=
  ⟨ren_fix_opening R.toRenaming1 .curly, ren_fix_closing R.toRenaming1 .curly⟩

mutual
theorem Chunk.display_rename : ∀ c : Chunk, (c.rename f).display = c.display.map f
  | .mk _ (.text s) => by simp [Chunk.rename, ChunkVariant.rename, Chunk.display, ChunkVariant.display]
  | .mk _ (.command (.mk l a)) => by
    simp [Chunk.rename, ChunkVariant.rename, Chunk.display, ChunkVariant.display, Command.rename, Command.display,
      displayArgs_rename a, ren_fix_bs R.toRenaming1]
  | .mk _ (.scope (.mk cs v)) => by
    simp [Chunk.rename, ChunkVariant.rename, Chunk.display, ChunkVariant.display, Scope.rename, Scope.display,
      displayChunks_rename cs, ren_fix_opening R.toRenaming1, ren_fix_closing R.toRenaming1]
  | .mk _ (.environment (.mk l a c x y)) => by
    simp only [Chunk.rename, ChunkVariant.rename, Chunk.display, ChunkVariant.display, Environment.rename,
      Environment.display, displayArgs_rename a, displayChunks_rename c, List.map_append, rbegin R, rend R, List.map_cons,
      rcurly R, List.map_nil]
theorem displayChunks_rename : ∀ cs : List Chunk, displayChunks (renameChunks f cs) = (displayChunks cs).map f
  | [] => rfl
  | c :: cs => by simp [renameChunks, displayChunks, Chunk.display_rename c, displayChunks_rename cs]
theorem displayArgs_rename : ∀ a : List (Str × Scope), displayArgs (renameArgs f a) = (displayArgs a).map f
  | [] => rfl
  | (p, .mk cs v) :: r => by
    simp [renameArgs, displayArgs, Scope.rename, Scope.display, displayChunks_rename cs, displayArgs_rename r,
      ren_fix_opening R.toRenaming1, ren_fix_closing R.toRenaming1]
end
end
end Ast2

namespace Ast3

theorem renameChunks_append (f : Char → Char) (a b : List Chunk) :
    renameChunks f (a ++ b) = renameChunks f a ++ renameChunks f b := by
  induction a with
  | nil => rfl
  | cons c a ih => simp [renameChunks, ih]

mutual
theorem sizeChunk_rename (f : Char → Char) : ∀ c : Ast2.Chunk, sizeChunk (c.rename f) = sizeChunk c
  | .mk _ (.text s) => by simp [Ast2.Chunk.rename, Ast2.ChunkVariant.rename, sizeChunk, sizeVariant]
  | .mk _ (.command (.mk l a)) => by
    simp [Ast2.Chunk.rename, Ast2.ChunkVariant.rename, Ast2.Command.rename, sizeChunk, sizeVariant, sizeCommand,
      sizeArgs_rename f a]
  | .mk _ (.scope (.mk cs v)) => by
    simp [Ast2.Chunk.rename, Ast2.ChunkVariant.rename, Ast2.Scope.rename, sizeChunk, sizeVariant, sizeScope,
      sizeChunks_rename f cs]
  | .mk _ (.environment (.mk l a c x y)) => by
    simp [Ast2.Chunk.rename, Ast2.ChunkVariant.rename, Ast2.Environment.rename, sizeChunk, sizeVariant, sizeEnvironment,
      sizeChunks_rename f c, sizeArgs_rename f a]
theorem sizeChunks_rename (f : Char → Char) : ∀ cs : List Ast2.Chunk, sizeChunks (Ast2.renameChunks f cs) = sizeChunks cs
  | [] => rfl
  | c :: cs => by simp [Ast2.renameChunks, sizeChunks, sizeChunk_rename f c, sizeChunks_rename f cs]
theorem sizeArgs_rename (f : Char → Char) : ∀ a : List (Str × Ast2.Scope), sizeArgs (Ast2.renameArgs f a) = sizeArgs a
  | [] => rfl
  | (_, .mk cs v) :: r => by
    simp [Ast2.renameArgs, Ast2.Scope.rename, sizeArgs, sizeScope, sizeChunks_rename f cs, sizeArgs_rename f r]
end

/-! ### Paragraphs -/

def ParState.rename (f : Char → Char) (s : ParState) : ParState :=
  ⟨renameChunks f s.out, s.lineNo, s.textBuffer.map f, s.textBufferLine, s.buffer.map f, s.bufferLine, s.consec⟩

section
variable {f : Char → Char} (R : Renaming1 f)
include R
theorem parStep_rename (s : ParState) (c : Char) : parStep (s.rename f) (f c) = (parStep s c).rename f := by
  obtain ⟨out, l, tb, tbl, b, bl, k⟩ := s
  simp only [parStep, ParState.rename, ren_nl R, R.blank, List.isEmpty_map]
  by_cases h1 : c = '\n' ∧ k = 1
  · simp only [h1, and_self, if_true]
    split <;> simp [renameChunks_append, renameChunks, Chunk.rename, ChunkVariant.rename]
  rw [if_neg h1, if_neg h1]
  by_cases h2 : c = '\n'
  · rw [if_pos h2, if_pos h2]; simp
  rw [if_neg h2, if_neg h2]
  by_cases h3 : isWhitespace c = true ∧ k = 0
  · rw [if_pos h3, if_pos h3]; simp
  rw [if_neg h3, if_neg h3]
  by_cases h4 : isWhitespace c = true
  · rw [if_pos h4, if_pos h4]; simp
  rw [if_neg h4, if_neg h4]
  by_cases h5 : k = 0
  · rw [if_pos h5, if_pos h5]; simp
  rw [if_neg h5, if_neg h5]
  by_cases h6 : k = 1
  · rw [if_pos h6, if_pos h6]; simp
  rw [if_neg h6, if_neg h6]
  simp [renameChunks_append, renameChunks, Chunk.rename, ChunkVariant.rename]

theorem parRun_rename (x : Str) (s : ParState) : parRun (x.map f) (s.rename f) = (parRun x s).rename f := by
  induction x generalizing s with
  | nil => rfl
  | cons c x ih => simp only [List.map_cons, parRun, parStep_rename R, ih]

omit R in
theorem parFinish_rename (s : ParState) : parFinish (s.rename f) = renameChunks f (parFinish s) := by
  obtain ⟨out, l, tb, tbl, b, bl, k⟩ := s
  simp only [parFinish, ParState.rename, List.isEmpty_map, ← List.map_append]
  repeat' split
  all_goals simp [renameChunks_append, renameChunks, Chunk.rename, ChunkVariant.rename]

theorem paragraphChunk_rename (c : Chunk) : paragraphChunk (c.rename f) = renameChunks f (paragraphChunk c) := by
  obtain ⟨l, v⟩ := c
  cases v with
  | text s =>
    simp only [Chunk.rename, ChunkVariant.rename, paragraphChunk]
    rw [show ParState.init l = (ParState.init l).rename f from rfl, parRun_rename R, parFinish_rename]
    rfl
  | _ => rfl

theorem paragraphs_rename (cs : List Chunk) : paragraphs (renameChunks f cs) = renameChunks f (paragraphs cs) := by
  induction cs with
  | nil => rfl
  | cons c cs ih => simp [renameChunks, paragraphs, paragraphChunk_rename R, ih, renameChunks_append]
end

/-! ### Maths -/

def MState.rename (f : Char → Char) (s : MState) : MState :=
  ⟨renameChunks f s.out, s.mode, s.depth, Ast2.renameChunks f s.buffer, s.bufferLine⟩

def TState.rename (f : Char → Char) (t : TState) : TState :=
  ⟨t.m.rename f, t.cursorLine, t.textBuffer.map f, t.textBufferLine⟩

theorem TState.pushStr_rename (f : Char → Char) (t : TState) : (t.rename f).pushStr = t.pushStr.rename f := by
  obtain ⟨m, c, tb, tl⟩ := t
  simp only [TState.pushStr, TState.rename, MState.rename, List.isEmpty_map]
  split <;> simp [renameChunks_append, renameChunks, Chunk.rename, ChunkVariant.rename]

theorem rebase_rename (f : Char → Char) (k : Nat) (cs : List Ast2.Chunk) :
    rebase k (Ast2.renameChunks f cs) = renameRes f (Ast2.renameChunks f) (rebase k cs) := by
  induction cs with
  | nil => rfl
  | cons c cs ih =>
    obtain ⟨l, v⟩ := c
    simp only [Ast2.renameChunks, Ast2.Chunk.rename, rebase, ih]
    rcases h : checkedSub k 1 with p | a
    · simp [renameRes, checkedSub_error h, renameFail]
    · simp only []
      rcases h : checkedSub l a with p | b
      · simp [renameRes, checkedSub_error h, renameFail]
      · simp only []
        rcases rebase k cs with e | x <;> rfl

theorem Ast2_isEmpty_rename (f : Char → Char) (cs : List Ast2.Chunk) :
    (Ast2.renameChunks f cs).isEmpty = cs.isEmpty := by cases cs <;> rfl

section
variable {f : Char → Char} (R : Renaming3 f) {rec : List Ast2.Chunk → Res (List Chunk)}
  (hrec : ∀ s, rec (Ast2.renameChunks f s) = renameRes f (renameChunks f) (rec s))
include R hrec

theorem tryScope_rename (s : Ast2.Scope) :
    tryScope rec (s.rename f) = renameRes f (Scope.rename f) (tryScope rec s) := by
  obtain ⟨cs, v⟩ := s
  simp only [Ast2.Scope.rename, tryScope, hrec]
  rcases rec cs with e | x
  · rfl
  · simp [renameRes, paragraphs_rename R.toRenaming1, Scope.rename]

theorem tryArgs_rename (a : List (Str × Ast2.Scope)) :
    tryArgs rec (Ast2.renameArgs f a) = renameRes f (renameArgs f) (tryArgs rec a) := by
  induction a with
  | nil => rfl
  | cons x a ih =>
    obtain ⟨p, s⟩ := x
    simp only [Ast2.renameArgs, tryArgs, tryScope_rename R hrec, ih]
    rcases tryScope rec s with e | x
    · rfl
    · simp only [renameRes_ok]
      rcases tryArgs rec a with e | y <;> rfl

theorem tryCommand_rename (c : Ast2.Command) :
    tryCommand rec (c.rename f) = renameRes f (Command.rename f) (tryCommand rec c) := by
  obtain ⟨l, a⟩ := c
  simp only [Ast2.Command.rename, tryCommand, tryArgs_rename R hrec]
  rcases tryArgs rec a with e | x <;> rfl

theorem tryEnvironment_rename (c : Ast2.Environment) :
    tryEnvironment rec (c.rename f) = renameRes f (Environment.rename f) (tryEnvironment rec c) := by
  obtain ⟨l, a, c, x, y⟩ := c
  simp only [Ast2.Environment.rename, tryEnvironment, tryArgs_rename R hrec, hrec]
  rcases tryArgs rec a with e | z
  · rfl
  · simp only [renameRes_ok]
    rcases rec c with e | w
    · rfl
    · simp [renameRes, paragraphs_rename R.toRenaming1, Environment.rename]

omit R in
theorem closeDollars_rename (t : TState) (ty : MathsType) :
    closeDollars rec (t.rename f) ty = renameRes f (TState.rename f) (closeDollars rec t ty) := by
  obtain ⟨⟨out, mode, d, b, bl⟩, c, tb, tl⟩ := t
  simp only [closeDollars, TState.rename, MState.rename, List.isEmpty_map]
  rw [show (if List.isEmpty tb = true then Ast2.renameChunks f b else Ast2.renameChunks f b ++ [Ast2.Chunk.mk tl (.text (tb.map f))])
      = Ast2.renameChunks f (if List.isEmpty tb = true then b else b ++ [Ast2.Chunk.mk tl (.text tb)]) by
    split
    · rfl
    · simp [Ast2.renameChunks_append, Ast2.renameChunks, Ast2.Chunk.rename, Ast2.ChunkVariant.rename]]
  rw [rebase_rename]
  rcases rebase tl _ with e | x
  · rfl
  · simp only [renameRes_ok, hrec]
    rcases rec x with e | y
    · rfl
    · simp [renameRes, TState.rename, MState.rename, renameChunks_append, renameChunks, Chunk.rename, ChunkVariant.rename,
        MathsBlock.rename, Ast2.renameChunks]

omit R in
theorem stepDollar_rename (t : TState) : stepDollar rec (t.rename f) = renameRes f (TState.rename f) (stepDollar rec t) := by
  have hm : (t.rename f).m.mode = t.m.mode := rfl
  have h1 : (t.rename f).textBuffer.isEmpty = t.textBuffer.isEmpty := by simp [TState.rename]
  have h2 : (t.rename f).m.buffer.isEmpty = t.m.buffer.isEmpty := by
    simp only [TState.rename, MState.rename, Ast2_isEmpty_rename]
  simp only [stepDollar, hm, h1, h2, TState.pushStr_rename, closeDollars_rename hrec]
  split
  · rfl
  · split <;> rfl
  all_goals rfl

theorem stepChar_rename (t : TState) (c : Char) :
    stepChar rec (t.rename f) (f c) = renameRes f (TState.rename f) (stepChar rec t c) := by
  have hd : (f c = '$') = (c = '$') := propext
    ⟨fun h => R.injective _ _ (by rw [h, R.symbols '$' (by simp)]), fun h => by rw [h, R.symbols '$' (by simp)]⟩
  simp only [stepChar, ren_nl R.toRenaming1, hd]
  rw [show (if c = '\n' then { t.rename f with cursorLine := (t.rename f).cursorLine + 1 } else t.rename f) =
      (if c = '\n' then { t with cursorLine := t.cursorLine + 1 } else t).rename f by split <;> rfl]
  split
  · exact stepDollar_rename hrec _
  · simp [renameRes, TState.rename]

theorem runText_rename (x : Str) (t : TState) :
    runText rec (x.map f) (t.rename f) = renameRes f (TState.rename f) (runText rec x t) := by
  induction x generalizing t with
  | nil => rfl
  | cons c x ih =>
    simp only [List.map_cons, runText, stepChar_rename R hrec]
    rcases stepChar rec t c with e | t
    · rfl
    · exact ih t

theorem stepMathsText_rename (s : MState) (n : Nat) (x : Str) :
    stepMathsText rec (s.rename f) n (x.map f) = renameRes f (MState.rename f) (stepMathsText rec s n x) := by
  have := runText_rename R hrec x ⟨s, n, [], n⟩
  simp only [TState.rename, List.map_nil] at this
  simp only [stepMathsText, this]
  rcases runText rec x ⟨s, n, [], n⟩ with e | t
  · rfl
  · exact congrArg (fun t : TState => (Except.ok t.m : Res MState)) (TState.pushStr_rename f t)

omit R hrec in
theorem MState.pushBuffer_rename (s : MState) (n : Nat) (v : Ast2.ChunkVariant) :
    (s.rename f).pushBuffer n (v.rename f) = (s.pushBuffer n v).rename f := by
  simp [MState.pushBuffer, MState.rename, Ast2.renameChunks_append, Ast2.renameChunks, Ast2.Chunk.rename]

omit R in
theorem closeBrackets_rename (s : MState) (ty : MathsType) :
    closeBrackets rec (s.rename f) ty = renameRes f (MState.rename f) (closeBrackets rec s ty) := by
  simp only [closeBrackets, MState.rename, hrec]
  rcases rec s.buffer with e | x
  · rfl
  · simp [renameRes, MState.rename, renameChunks_append, renameChunks, Chunk.rename, ChunkVariant.rename,
      MathsBlock.rename, Ast2.renameChunks]

omit hrec in
theorem bracket_rename (s : Str) (x : Char) (hx : x ∈ ['\n', '%', '\\', '{', '}', '[', ']', '(', ')']) :
    (s.map f = [x]) = (s = [x]) :=
  map_eq_word R.injective (fun c hc => by simp at hc; subst hc; exact Keeps.fix R.keeps hx) s

theorem stepMathsCommand_rename (s : MState) (n : Nat) (c : Ast2.Command) :
    stepMathsCommand rec (s.rename f) n (c.rename f) = renameRes f (MState.rename f) (stepMathsCommand rec s n c) := by
  have hl : (c.rename f).label = c.label.map f := by cases c; rfl
  have hb := MState.pushBuffer_rename (f := f) s n (.command c)
  simp only [Ast2.ChunkVariant.rename] at hb
  have hm : (s.rename f).mode = s.mode := rfl
  have hd : (s.rename f).depth = s.depth := rfl
  have b1 : ((c.rename f).label = [')']) = (c.label = [')']) := by rw [hl, bracket_rename R _ ')' (by simp)]
  have b2 : ((c.rename f).label = [']']) = (c.label = [']']) := by rw [hl, bracket_rename R _ ']' (by simp)]
  have b3 : ((c.rename f).label = ['(']) = (c.label = ['(']) := by rw [hl, bracket_rename R _ '(' (by simp)]
  have b4 : ((c.rename f).label = ['[']) = (c.label = ['[']) := by rw [hl, bracket_rename R _ '[' (by simp)]
  have hc : ∀ ty, closeBrackets rec (s.rename f) ty = renameRes f (MState.rename f) (closeBrackets rec s ty) :=
    closeBrackets_rename hrec s
  have hsub : ∀ x : Res Nat, (∀ e, x = .error e → e = .panic) →
      (match x with
        | .error p => (.error p : Res MState)
        | .ok d => .ok { s.rename f with depth := d }) =
      renameRes f (MState.rename f) (match x with
        | .error p => .error p
        | .ok d => .ok { s with depth := d }) := by
    rintro (e | d) h
    · cases h e rfl; rfl
    · rfl
  have ht := tryCommand_rename R hrec c
  unfold stepMathsCommand
  by_cases h1 : s.mode = .none ∧ (c.label = [')'] ∨ c.label = [']'])
  · rw [if_pos h1, if_pos (by rw [hm, b1, b2]; exact h1)]; rfl
  rw [if_neg h1, if_neg (by rw [hm, b1, b2]; exact h1)]
  by_cases h1 : c.label = ['('] ∧ s.mode = .none
  · rw [if_pos h1, if_pos (by rw [hm, b3]; exact h1)]; rfl
  rw [if_neg h1, if_neg (by rw [hm, b3]; exact h1)]
  by_cases h1 : c.label = ['['] ∧ s.mode = .none
  · rw [if_pos h1, if_pos (by rw [hm, b4]; exact h1)]; rfl
  rw [if_neg h1, if_neg (by rw [hm, b4]; exact h1)]
  by_cases h1 : c.label = ['('] ∧ s.mode = .singleDollar .brackets
  · rw [if_pos h1, if_pos (by rw [hm, b3]; exact h1)]; rfl
  rw [if_neg h1, if_neg (by rw [hm, b3]; exact h1)]
  by_cases h1 : c.label = ['['] ∧ s.mode = .doubleDollar .brackets
  · rw [if_pos h1, if_pos (by rw [hm, b4]; exact h1)]; rfl
  rw [if_neg h1, if_neg (by rw [hm, b4]; exact h1)]
  by_cases h1 : c.label = [')'] ∧ s.mode = .singleDollar .brackets ∧ s.depth = 1
  · rw [if_pos h1, if_pos (by rw [hm, b1, hd]; exact h1)]; exact hc _
  rw [if_neg h1, if_neg (by rw [hm, b1, hd]; exact h1)]
  by_cases h1 : c.label = [']'] ∧ s.mode = .doubleDollar .brackets ∧ s.depth = 1
  · rw [if_pos h1, if_pos (by rw [hm, b2, hd]; exact h1)]; exact hc _
  rw [if_neg h1, if_neg (by rw [hm, b2, hd]; exact h1)]
  by_cases h1 : c.label = [')'] ∧ s.mode = .singleDollar .brackets
  · rw [if_pos h1, if_pos (by rw [hm, b1]; exact h1)]; exact hsub _ fun e h => checkedSub_error h
  rw [if_neg h1, if_neg (by rw [hm, b1]; exact h1)]
  by_cases h1 : c.label = [']'] ∧ s.mode = .doubleDollar .brackets
  · rw [if_pos h1, if_pos (by rw [hm, b2]; exact h1)]; exact hsub _ fun e h => checkedSub_error h
  rw [if_neg h1, if_neg (by rw [hm, b2]; exact h1)]
  by_cases h1 : s.mode = .none
  · rw [if_pos h1, if_pos (by rw [hm]; exact h1), ht]
    rcases tryCommand rec c with e | x
    · rfl
    · simp [renameRes, MState.rename, renameChunks_append, renameChunks, Chunk.rename, ChunkVariant.rename]
  · rw [if_neg h1, if_neg (by rw [hm]; exact h1), hb]; rfl

theorem stepMaths_rename (s : MState) (c : Ast2.Chunk) :
    stepMaths rec (s.rename f) (c.rename f) = renameRes f (MState.rename f) (stepMaths rec s c) := by
  obtain ⟨n, v⟩ := c
  have hm : (s.rename f).mode = s.mode := rfl
  have hb := MState.pushBuffer_rename (f := f) s n v
  cases v with
  | command c => exact stepMathsCommand_rename R hrec s n c
  | text x =>
    simp only [Ast2.ChunkVariant.rename] at hb
    simp only [Ast2.Chunk.rename, Ast2.ChunkVariant.rename, stepMaths, hm, hb, stepMathsText_rename R hrec]
    split <;> rfl
  | scope x =>
    simp only [Ast2.ChunkVariant.rename] at hb
    simp only [Ast2.Chunk.rename, Ast2.ChunkVariant.rename, stepMaths, hm, hb, tryScope_rename R hrec]
    split
    · rcases tryScope rec x with e | x
      · rfl
      · simp [renameRes, MState.rename, renameChunks_append, renameChunks, Chunk.rename, ChunkVariant.rename]
    · rfl
  | environment x =>
    simp only [Ast2.ChunkVariant.rename] at hb
    simp only [Ast2.Chunk.rename, Ast2.ChunkVariant.rename, stepMaths, hm, hb, tryEnvironment_rename R hrec]
    split
    · rcases tryEnvironment rec x with e | x
      · rfl
      · simp [renameRes, MState.rename, renameChunks_append, renameChunks, Chunk.rename, ChunkVariant.rename]
    · rfl

theorem runMaths_rename (x : List Ast2.Chunk) (s : MState) :
    runMaths rec (Ast2.renameChunks f x) (s.rename f) = renameRes f (MState.rename f) (runMaths rec x s) := by
  induction x generalizing s with
  | nil => rfl
  | cons c x ih =>
    simp only [Ast2.renameChunks, runMaths, stepMaths_rename R hrec]
    rcases stepMaths rec s c with e | t
    · rfl
    · exact ih t
end

theorem finishMaths_rename {f : Char → Char} (R : Renaming1 f) (s : MState) :
    finishMaths (s.rename f) = renameRes f (renameChunks f) (finishMaths s) := by
  have hm : (s.rename f).mode = s.mode := rfl
  simp only [finishMaths, hm]
  split
  · rfl
  · simp [renameRes, MState.rename, paragraphs_rename R]

theorem mathsFuel_rename {f : Char → Char} (R : Renaming3 f) (n : Nat) (s : List Ast2.Chunk) :
    mathsFuel n (Ast2.renameChunks f s) = renameRes f (renameChunks f) (mathsFuel n s) := by
  induction n generalizing s with
  | zero => rfl
  | succ n ih =>
    simp only [mathsFuel]
    have := runMaths_rename R ih s MState.init
    rw [show MState.init.rename f = MState.init from rfl] at this
    rw [this]
    rcases runMaths (mathsFuel n) s MState.init with e | x
    · rfl
    · exact finishMaths_rename R.toRenaming1 x

theorem mathsFromChunks_rename {f : Char → Char} (R : Renaming3 f) (s : List Ast2.Chunk) :
    mathsFromChunks (Ast2.renameChunks f s) = renameRes f (renameChunks f) (mathsFromChunks s) := by
  simp only [mathsFromChunks, sizeChunks_rename, mathsFuel_rename R]

/-! ### Options -/

section
variable {f : Char → Char} (R : Renaming3 f)
include R

theorem sym_rename (c x : Char) (hx : x ∈ ['$', ',', '=', 'o', 'c', 'u', 'm', 't', 'l', 'a', 's']) : (f c = x) = (c = x) :=
  propext ⟨fun h => R.injective _ _ (by rw [h, R.symbols x hx]), fun h => by rw [h, R.symbols x hx]⟩

theorem splitComma_rename (s : Str) : splitComma (s.map f) = (splitComma s).map (List.map f) := by
  induction s with
  | nil => rfl
  | cons c s ih =>
    simp only [List.map_cons, splitComma, sym_rename R c ',' (by simp), ih]
    split
    · simp
    · rcases splitComma s with _ | ⟨p, ps⟩ <;> simp

def OptState.rename (f : Char → Char) (s : OptState) : OptState := ⟨s.prec.map f, s.arg.map f, s.buffer.map f, s.mode⟩

theorem optStep_rename (s : OptState) (c : Char) : optStep (s.rename f) (f c) = (optStep s c).rename f := by
  obtain ⟨p, a, b, m⟩ := s
  cases m <;> simp only [optStep, OptState.rename, R.blank] <;> split <;> simp

theorem optRun_rename (x : Str) (s : OptState) : optRun (x.map f) (s.rename f) = (optRun x s).rename f := by
  induction x generalizing s with
  | nil => rfl
  | cons c x ih => simp only [List.map_cons, optRun, optStep_rename R, ih]

theorem splitOnceEq_rename (s : Str) :
    splitOnceEq (s.map f) = (splitOnceEq s).map fun (a, b) => (a.map f, b.map f) := by
  induction s with
  | nil => rfl
  | cons c s ih =>
    simp only [List.map_cons, splitOnceEq, sym_rename R c '=' (by simp), ih]
    split
    · simp
    · rcases splitOnceEq s with _ | ⟨p, ps⟩ <;> simp

theorem optKey_rename (s : Str) (a b : Str) :
    optKey (s.map f) (a.map f, b.map f) = ((optKey s (a, b)).1.map f, (optKey s (a, b)).2.map f) := by
  induction s generalizing a b with
  | nil => rfl
  | cons c s ih =>
    simp only [List.map_cons, optKey, R.blank]
    split
    · have := ih a (b ++ [c]); simpa using this
    · have := ih (a ++ b ++ [c]) []; simpa using this

theorem optVal_rename (s : Str) (k : Bool) (a b : Str) :
    optVal (s.map f) (k, a.map f, b.map f) =
      ((optVal s (k, a, b)).1, (optVal s (k, a, b)).2.1.map f, (optVal s (k, a, b)).2.2.map f) := by
  induction s generalizing k a b with
  | nil => rfl
  | cons c s ih =>
    simp only [List.map_cons, optVal, R.blank]
    split
    · have := ih k (a ++ [c]) b; simpa using this
    · have := ih (if k then true else k) a (b ++ [c]); simpa using this

theorem parseOption_rename (s : Str) : parseOption (s.map f) = (parseOption s).rename f := by
  have h := optRun_rename R s ⟨[], [], [], .prec⟩
  simp only [OptState.rename, List.map_nil] at h
  simp only [parseOption, h, splitOnceEq_rename R]
  rcases splitOnceEq (optRun s ⟨[], [], [], .prec⟩).arg with _ | ⟨k, w⟩
  · simp [DocOption.rename]
  · have h1 := optKey_rename R k [] []
    have h2 := optVal_rename R k false [] []
    simp only [List.map_nil] at h1 h2
    simp [DocOption.rename, h1, h2]

theorem docClassArgs_rename (n : Nat) (a : List (Str × Ast2.Scope)) (d : Document) :
    docClassArgs n (Ast2.renameArgs f a) (d.rename f) = renameRes f (Document.rename f) (docClassArgs n a d) := by
  induction a generalizing d with
  | nil => rfl
  | cons x a ih =>
    obtain ⟨p, cs, v⟩ := x
    have hs : (d.rename f).documentclass.isSome = d.documentclass.isSome := by simp [Document.rename]
    cases v with
    | curly =>
      simp only [Ast2.renameArgs, Ast2.Scope.rename, docClassArgs, hs]
      split
      · rfl
      · have := ih { d with documentclass := some (Ast2.displayChunks cs) }
        rw [← this]
        simp [Document.rename, Ast2.displayChunks_rename R.toRenaming2]
    | round =>
      simp only [Ast2.renameArgs, Ast2.Scope.rename, docClassArgs]
      rw [← ih]
      simp [Document.rename, Ast2.displayChunks_rename R.toRenaming2, splitComma_rename R, Function.comp_def, parseOption_rename R]
    | square =>
      simp only [Ast2.renameArgs, Ast2.Scope.rename, docClassArgs]
      rw [← ih]
      simp [Document.rename, Ast2.displayChunks_rename R.toRenaming2, splitComma_rename R, Function.comp_def, parseOption_rename R]

def DState.rename (f : Char → Char) (s : DState) : DState :=
  ⟨s.construct.rename f, Ast2.renameChunks f s.preamable, Ast2.renameChunks f s.trailing, s.inPreamable⟩

omit R in
theorem DState.push_rename (s : DState) (n : Nat) (v : Ast2.ChunkVariant) :
    (s.rename f).push n (v.rename f) = (s.push n v).rename f := by
  have h : (s.rename f).inPreamable = s.inPreamable := rfl
  simp only [DState.push, h]
  split <;> simp [DState.rename, Ast2.renameChunks_append, Ast2.renameChunks, Ast2.Chunk.rename]

theorem fixed3 {c : Char} (h : c ∈ ['b', 'e', 'g', 'i', 'n', 'd'] ∨
    c ∈ ['$', ',', '=', 'o', 'c', 'u', 'm', 't', 'l', 'a', 's']) : f c = c :=
  h.elim (R.words c) (R.symbols c)
theorem document_fixed : ∀ c ∈ chars!"document", f c = c := fun c hc => fixed3 R (by
  simp only [List.mem_cons, List.not_mem_nil, or_false] at hc ⊢; grind)
theorem documentclass_fixed : ∀ c ∈ chars!"documentclass", f c = c := fun c hc => fixed3 R (by
  simp only [List.mem_cons, List.not_mem_nil, or_false] at hc ⊢; grind)

theorem stepDocument_rename (s : DState) (c : Ast2.Chunk) :
    stepDocument (s.rename f) (c.rename f) = renameRes f (DState.rename f) (stepDocument s c) := by
  obtain ⟨n, v⟩ := c
  have hp := DState.push_rename (f := f) s n v
  cases v with
  | text x => exact congrArg Except.ok hp
  | scope x => exact congrArg Except.ok hp
  | environment e =>
    have hl : (e.rename f).label = e.label.map f := by cases e; rfl
    simp only [Ast2.ChunkVariant.rename] at hp
    simp only [Ast2.Chunk.rename, Ast2.ChunkVariant.rename, stepDocument, hl,
      map_eq_word R.injective (document_fixed R), tryEnvironment_rename R (mathsFromChunks_rename R), hp]
    split
    · rcases tryEnvironment mathsFromChunks e with x | ⟨l, a, c, b, e⟩
      · rfl
      · simp [renameRes, DState.rename, Document.rename, Environment.rename]
    · rfl
  | command c =>
    obtain ⟨l, a⟩ := c
    have hs : (s.rename f).construct.documentclass.isSome = s.construct.documentclass.isSome := by
      simp [DState.rename, Document.rename]
    have hi : (s.rename f).inPreamable = s.inPreamable := rfl
    simp only [Ast2.ChunkVariant.rename, Ast2.Command.rename] at hp
    simp only [Ast2.Chunk.rename, Ast2.ChunkVariant.rename, Ast2.Command.rename, stepDocument, hp]
    simp only [Ast2.Command.arguments, hs, hi]
    have hl : (Ast2.Command.mk (l.map f) (Ast2.renameArgs f a)).label = chars!"documentclass" ↔
        (Ast2.Command.mk l a).label = chars!"documentclass" := by
      show l.map f = _ ↔ l = _
      rw [map_eq_word R.injective (documentclass_fixed R)]
    by_cases h1 : (Ast2.Command.mk l a).label = chars!"documentclass" ∧ s.inPreamable = true
    · rw [if_pos h1, if_pos ⟨hl.2 h1.1, h1.2⟩]
      split
      · rfl
      · have := docClassArgs_rename R n a s.construct
        rw [show (s.rename f).construct = s.construct.rename f from rfl, this]
        rcases docClassArgs n a s.construct with e | d
        · rfl
        · have := DState.push_rename (f := f) { s with construct := d } n (.command (.mk l a))
          exact congrArg Except.ok this
    · rw [if_neg h1, if_neg (fun h => h1 ⟨hl.1 h.1, h.2⟩)]
      rfl

theorem runDocument_rename (x : List Ast2.Chunk) (s : DState) :
    runDocument (Ast2.renameChunks f x) (s.rename f) = renameRes f (DState.rename f) (runDocument x s) := by
  induction x generalizing s with
  | nil => rfl
  | cons c x ih =>
    simp only [Ast2.renameChunks, runDocument, stepDocument_rename R]
    rcases stepDocument s c with e | t
    · rfl
    · exact ih t

theorem tryFrom_rename (d : Ast2.Document) :
    tryFrom (Ast2.renameChunks f d) = renameRes f (Document.rename f) (tryFrom d) := by
  have h := runDocument_rename R d DState.init
  rw [show DState.init.rename f = DState.init from rfl] at h
  simp only [tryFrom, h]
  rcases runDocument d DState.init with e | s
  · rfl
  · simp only [renameRes_ok, DState.rename, mathsFromChunks_rename R]
    rcases mathsFromChunks s.preamable with e | pre
    · rfl
    · simp only [renameRes_ok]
      rcases mathsFromChunks s.trailing with e | tr
      · rfl
      · simp [renameRes, Document.rename, paragraphs_rename R.toRenaming1]

theorem fromStr_rename (s : Str) : fromStr (s.map f) = renameRes f (Document.rename f) (fromStr s) := by
  simp only [fromStr, Ast2.fromStr_rename R.toRenaming2]
  rcases Ast2.fromStr s with e | d
  · rfl
  · exact tryFrom_rename R d
end

end Ast3
end LatexAst
