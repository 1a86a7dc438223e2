import Verif.Model.Back

/-! Helper lemmas: newline counts, `lines` versus `display` in all three stages. -/

namespace LatexAst

theorem newlines_eq_count (s : Str) : newlines s = s.count '\n' := by
  simp [newlines, List.count, List.countP_eq_length_filter]

@[simp] theorem newlines_nil : newlines [] = 0 := rfl
@[simp] theorem newlines_append (a b : Str) : newlines (a ++ b) = newlines a + newlines b := by
  simp [newlines]
theorem newlines_cons (c : Char) (s : Str) :
    newlines (c :: s) = (if c = '\n' then 1 else 0) + newlines s := by
  simp only [newlines, List.filter_cons, beq_iff_eq]
  split <;> simp <;> omega
@[simp] theorem newlines_opening (v : ScopeVariant) (s : Str) :
    newlines (v.opening :: s) = newlines s := by
  rw [newlines_cons]; cases v <;> simp [ScopeVariant.opening]
@[simp] theorem newlines_closing (v : ScopeVariant) (s : Str) :
    newlines (v.closing :: s) = newlines s := by
  rw [newlines_cons]; cases v <;> simp [ScopeVariant.closing]
theorem newlines_cons_of_ne {c : Char} (h : c ≠ '\n') (s : Str) : newlines (c :: s) = newlines s := by
  simp [newlines_cons, h]

namespace Ast1
mutual
theorem Chunk.lines_eq : ∀ c : Chunk, c.lines = newlines c.display + 1
  | .mk _ v => by simpa [Chunk.lines, Chunk.display] using ChunkVariant.lines_eq v
theorem ChunkVariant.lines_eq : ∀ v : ChunkVariant, v.lines = newlines v.display + 1
  | .text s => rfl
  | .command c => by simpa [ChunkVariant.lines, ChunkVariant.display] using Command.lines_eq c
  | .scope s => by simpa [ChunkVariant.lines, ChunkVariant.display] using Scope.lines_eq s
theorem Command.lines_eq : ∀ c : Command, c.lines = newlines c.display + 1
  | .mk l a => by
    have h := linesArgs_eq a
    rw [Command.lines, Command.display, newlines_cons_of_ne (by decide), newlines_append, h]
theorem Scope.lines_eq : ∀ s : Scope, s.lines = newlines s.display + 1
  | .mk cs v => by
    have h := linesSum_eq cs
    simp [Scope.lines, Scope.display, h]
theorem linesSum_eq : ∀ cs : List Chunk, linesSum cs = newlines (displayChunks cs)
  | [] => rfl
  | c :: cs => by
    have h := linesSum_eq cs
    have h' := Chunk.lines_eq c
    simp [linesSum, displayChunks, h, h']
theorem linesArgs_eq : ∀ a : List (Str × Scope), linesArgs a = newlines (displayArgs a)
  | [] => rfl
  | (p, s) :: r => by
    have h := linesArgs_eq r
    have h' := Scope.lines_eq s
    simp [linesArgs, displayArgs, h, h']; omega
end

@[simp] theorem displayChunks_append (a b : List Chunk) :
    displayChunks (a ++ b) = displayChunks a ++ displayChunks b := by
  induction a with
  | nil => rfl
  | cons c cs ih => simp [displayChunks, ih]
@[simp] theorem displayArgs_append (a b : List (Str × Scope)) :
    displayArgs (a ++ b) = displayArgs a ++ displayArgs b := by
  induction a with
  | nil => rfl
  | cons c cs ih => obtain ⟨p, s⟩ := c; simp [displayArgs, ih]
@[simp] theorem displayChunks_nil : displayChunks [] = [] := rfl
theorem displayChunks_cons (c : Chunk) (cs : List Chunk) :
    displayChunks (c :: cs) = c.display ++ displayChunks cs := rfl
@[simp] theorem displayArgs_nil : displayArgs [] = [] := rfl
@[simp] theorem linesSum_append (a b : List Chunk) : linesSum (a ++ b) = linesSum a + linesSum b := by
  simp [linesSum_eq]
theorem Chunk.display_mk (l : Nat) (v : ChunkVariant) : (Chunk.mk l v).display = v.display := rfl
end Ast1

namespace Ast2
mutual
theorem Chunk.lines_eq : ∀ c : Chunk, c.lines = newlines c.display + 1
  | .mk _ v => by simpa [Chunk.lines, Chunk.display] using ChunkVariant.lines_eq v
theorem ChunkVariant.lines_eq : ∀ v : ChunkVariant, v.lines = newlines v.display + 1
  | .text s => rfl
  | .command c => by simpa [ChunkVariant.lines, ChunkVariant.display] using Command.lines_eq c
  | .scope s => by simpa [ChunkVariant.lines, ChunkVariant.display] using Scope.lines_eq s
  | .environment e => by
    simpa [ChunkVariant.lines, ChunkVariant.display] using Environment.lines_eq e
theorem Command.lines_eq : ∀ c : Command, c.lines = newlines c.display + 1
  | .mk l a => by
    have h := linesArgs_eq a
    rw [Command.lines, Command.display, newlines_cons_of_ne (by decide), newlines_append, h]
theorem Scope.lines_eq : ∀ s : Scope, s.lines = newlines s.display + 1
  | .mk cs v => by
    have h := linesSum_eq cs
    simp [Scope.lines, Scope.display, h]
theorem Environment.lines_eq : ∀ e : Environment, e.lines = newlines e.display + 1
  | .mk l a c x y => by
    have h := linesArgs_eq a
    have h' := linesSum_eq c
    simp [Environment.lines, Environment.display, h, h', newlines_cons]; omega
theorem linesSum_eq : ∀ cs : List Chunk, linesSum cs = newlines (displayChunks cs)
  | [] => rfl
  | c :: cs => by
    have h := linesSum_eq cs
    have h' := Chunk.lines_eq c
    simp [linesSum, displayChunks, h, h']
theorem linesArgs_eq : ∀ a : List (Str × Scope), linesArgs a = newlines (displayArgs a)
  | [] => rfl
  | (p, s) :: r => by
    have h := linesArgs_eq r
    have h' := Scope.lines_eq s
    simp [linesArgs, displayArgs, h, h']; omega
end

@[simp] theorem displayChunks_append (a b : List Chunk) :
    displayChunks (a ++ b) = displayChunks a ++ displayChunks b := by
  induction a with
  | nil => rfl
  | cons c cs ih => simp [displayChunks, ih]
@[simp] theorem displayArgs_append (a b : List (Str × Scope)) :
    displayArgs (a ++ b) = displayArgs a ++ displayArgs b := by
  induction a with
  | nil => rfl
  | cons c cs ih => obtain ⟨p, s⟩ := c; simp [displayArgs, ih]
@[simp] theorem displayChunks_nil : displayChunks [] = [] := rfl
theorem displayChunks_cons (c : Chunk) (cs : List Chunk) :
    displayChunks (c :: cs) = c.display ++ displayChunks cs := rfl
@[simp] theorem displayArgs_nil : displayArgs [] = [] := rfl
@[simp] theorem linesSum_append (a b : List Chunk) : linesSum (a ++ b) = linesSum a + linesSum b := by
  simp [linesSum_eq]
end Ast2

namespace Ast3
mutual
theorem Chunk.lines_eq : ∀ c : Chunk, c.lines = newlines c.display + 1
  | .mk _ v => by simpa [Chunk.lines, Chunk.display] using ChunkVariant.lines_eq v
theorem ChunkVariant.lines_eq : ∀ v : ChunkVariant, v.lines = newlines v.display + 1
  | .text s => rfl
  | .paragraphBreak s => rfl
  | .command c => by simpa [ChunkVariant.lines, ChunkVariant.display] using Command.lines_eq c
  | .scope s => by simpa [ChunkVariant.lines, ChunkVariant.display] using Scope.lines_eq s
  | .environment e => by
    simpa [ChunkVariant.lines, ChunkVariant.display] using Environment.lines_eq e
  | .mathsBlock m => by
    simpa [ChunkVariant.lines, ChunkVariant.display] using MathsBlock.lines_eq m
theorem Command.lines_eq : ∀ c : Command, c.lines = newlines c.display + 1
  | .mk l a => by
    have h := linesArgs_eq a
    rw [Command.lines, Command.display, newlines_cons_of_ne (by decide), newlines_append, h]
theorem Scope.lines_eq : ∀ s : Scope, s.lines = newlines s.display + 1
  | .mk cs v => by
    have h := linesSum_eq cs
    simp [Scope.lines, Scope.display, h]
theorem Environment.lines_eq : ∀ e : Environment, e.lines = newlines e.display + 1
  | .mk l a c x y => by
    have h := linesArgs_eq a
    have h' := linesSum_eq c
    simp [Environment.lines, Environment.display, h, h', newlines_cons]; omega
theorem MathsBlock.lines_eq : ∀ m : MathsBlock, m.lines = newlines m.display + 1
  | .mk v t c => by
    have h := linesSum_eq c
    cases v <;> cases t <;> simp [MathsBlock.lines, MathsBlock.display, delimiters, h, newlines_cons]
theorem linesSum_eq : ∀ cs : List Chunk, linesSum cs = newlines (displayChunks cs)
  | [] => rfl
  | c :: cs => by
    have h := linesSum_eq cs
    have h' := Chunk.lines_eq c
    simp [linesSum, displayChunks, h, h']
theorem linesArgs_eq : ∀ a : List (Str × Scope), linesArgs a = newlines (displayArgs a)
  | [] => rfl
  | (p, s) :: r => by
    have h := linesArgs_eq r
    have h' := Scope.lines_eq s
    simp [linesArgs, displayArgs, h, h']; omega
end

@[simp] theorem displayChunks_append (a b : List Chunk) :
    displayChunks (a ++ b) = displayChunks a ++ displayChunks b := by
  induction a with
  | nil => rfl
  | cons c cs ih => simp [displayChunks, ih]
@[simp] theorem displayArgs_append (a b : List (Str × Scope)) :
    displayArgs (a ++ b) = displayArgs a ++ displayArgs b := by
  induction a with
  | nil => rfl
  | cons c cs ih => obtain ⟨p, s⟩ := c; simp [displayArgs, ih]
@[simp] theorem displayChunks_nil : displayChunks [] = [] := rfl
theorem displayChunks_cons (c : Chunk) (cs : List Chunk) :
    displayChunks (c :: cs) = c.display ++ displayChunks cs := rfl
@[simp] theorem displayArgs_nil : displayArgs [] = [] := rfl
@[simp] theorem linesSum_append (a b : List Chunk) : linesSum (a ++ b) = linesSum a + linesSum b := by
  simp [linesSum_eq]
end Ast3

end LatexAst
