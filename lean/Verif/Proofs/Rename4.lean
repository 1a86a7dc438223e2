import Verif.Proofs.Rename3
import Verif.Model.Back

/-! # Renaming characters: printing, counting lines, validating, converting back -/

namespace LatexAst
open Spec
open Ast1 (checkSanitised isSpecial)
open Ast2 (checkLabel)

section
variable {f : Char → Char} (R : Renaming1 f)
include R
theorem ren_isSpecial (c : Char) : isSpecial (f c) = isSpecial c := by
  rw [Bool.eq_iff_iff]
  simp only [isSpecial, ScopeVariant.isOpening, ScopeVariant.isClosing, Bool.or_eq_true, beq_iff_eq, R.keeps '{' (by simp) c,
    R.keeps '[' (by simp) c, R.keeps '(' (by simp) c, R.keeps '}' (by simp) c, R.keeps ']' (by simp) c,
    R.keeps ')' (by simp) c, R.keeps '\\' (by simp) c, R.keeps '%' (by simp) c]
theorem ren_special {c : Char} (h : isSpecial c = true) : f c = c := by
  refine Keeps.fix R.keeps ?_
  simp only [isSpecial, ScopeVariant.isOpening, ScopeVariant.isClosing, Bool.or_eq_true, beq_iff_eq] at h
  simp; grind
theorem checkSanitised_rename (s : Str) : checkSanitised (s.map f) = checkSanitised s := by
  induction s with
  | nil => rfl
  | cons c s ih =>
    simp only [List.map_cons, checkSanitised, ren_isSpecial R, ih]
    by_cases h : isSpecial c = true
    · simp only [h, if_true, ren_special R h]
    · simp only [h]; rfl
omit R in
theorem utf8Size_ge (c : Char) : 1 ≤ c.utf8Size := Char.utf8Size_pos c

theorem checkName_rename (l : Str) : (if byteLen (l.map f) ≠ 1 then checkSanitised (l.map f) else .ok ()) =
    (if byteLen l ≠ 1 then checkSanitised l else .ok ()) := by
  rw [checkSanitised_rename R]
  match l with
  | [] => rfl
  | [c] =>
    by_cases h : isSpecial c = true
    · rw [List.map_cons, ren_special R h]; rfl
    · have : checkSanitised [c] = .ok () := by simp [checkSanitised, h]
      rw [this]; simp
  | a :: b :: r =>
    have h1 : byteLen (a :: b :: r) ≠ 1 := by
      have := utf8Size_ge a; have := utf8Size_ge b
      simp [byteLen]; omega
    have h2 : byteLen ((a :: b :: r).map f) ≠ 1 := by
      have := utf8Size_ge (f a); have := utf8Size_ge (f b)
      simp [byteLen]; omega
    rw [if_pos h1, if_pos h2]
end

namespace Ast1
section
variable {f : Char → Char} (R : Renaming1 f)
include R

mutual
theorem Chunk.lines_rename : ∀ c : Chunk, (c.rename f).lines = c.lines
  | .mk _ (.text s) => by simp [Chunk.rename, ChunkVariant.rename, Chunk.lines, ChunkVariant.lines, ren_newlines R]
  | .mk _ (.command (.mk l a)) => by
    simp [Chunk.rename, ChunkVariant.rename, Chunk.lines, ChunkVariant.lines, Command.rename, Command.lines,
      linesArgs_rename a, ren_newlines R]
  | .mk _ (.scope (.mk cs v)) => by
    simp [Chunk.rename, ChunkVariant.rename, Chunk.lines, ChunkVariant.lines, Scope.rename, Scope.lines,
      linesSum_rename cs]
theorem linesSum_rename : ∀ cs : List Chunk, linesSum (renameChunks f cs) = linesSum cs
  | [] => rfl
  | c :: cs => by simp [renameChunks, linesSum, Chunk.lines_rename c, linesSum_rename cs]
theorem linesArgs_rename : ∀ a : List (Str × Scope), linesArgs (renameArgs f a) = linesArgs a
  | [] => rfl
  | (p, .mk cs v) :: r => by
    simp [renameArgs, linesArgs, Scope.rename, Scope.lines, linesSum_rename cs, linesArgs_rename r, ren_newlines R]
end

mutual
theorem Chunk.validate_rename : ∀ c : Chunk, (c.rename f).validate = c.validate
  | .mk _ (.text s) => by
    simp only [Chunk.rename, ChunkVariant.rename, Chunk.validate, ChunkVariant.validate, checkSanitised_rename R]
  | .mk _ (.command (.mk l a)) => by
    simp only [Chunk.rename, ChunkVariant.rename, Chunk.validate, ChunkVariant.validate, Command.rename, Command.validate,
      validateArgs_rename a, checkName_rename R l]
  | .mk _ (.scope (.mk cs v)) => by
    simp only [Chunk.rename, ChunkVariant.rename, Chunk.validate, ChunkVariant.validate, Scope.rename, Scope.validate,
      validateChunks_rename cs]
theorem validateChunks_rename : ∀ cs : List Chunk, validateChunks (renameChunks f cs) = validateChunks cs
  | [] => rfl
  | c :: cs => by simp only [renameChunks, validateChunks, Chunk.validate_rename c, validateChunks_rename cs]
theorem validateArgs_rename : ∀ a : List (Str × Scope), validateArgs (renameArgs f a) = validateArgs a
  | [] => rfl
  | (p, .mk cs v) :: r => by
    simp only [renameArgs, validateArgs, Scope.rename, Scope.validate, validateChunks_rename cs, validateArgs_rename r]
end

theorem validateFrom_rename (k : Nat) (d : List Chunk) : Document.validateFrom k (renameChunks f d) = Document.validateFrom k d := by
  induction d generalizing k with
  | nil => rfl
  | cons c d ih =>
    have h : (c.rename f).lineNo = c.lineNo := by cases c; rfl
    simp only [renameChunks, Document.validateFrom, h, Chunk.validate_rename R, Chunk.lines_rename R, ih]

end
end Ast1

namespace Ast2
section
variable {f : Char → Char} (R : Renaming2 f)
include R

mutual
theorem Chunk.lines_rename : ∀ c : Chunk, (c.rename f).lines = c.lines
  | .mk _ (.text s) => by simp [Chunk.rename, ChunkVariant.rename, Chunk.lines, ChunkVariant.lines, ren_newlines R.toRenaming1]
  | .mk _ (.command (.mk l a)) => by
    simp [Chunk.rename, ChunkVariant.rename, Chunk.lines, ChunkVariant.lines, Command.rename, Command.lines,
      linesArgs_rename a, ren_newlines R.toRenaming1]
  | .mk _ (.scope (.mk cs v)) => by
    simp [Chunk.rename, ChunkVariant.rename, Chunk.lines, ChunkVariant.lines, Scope.rename, Scope.lines,
      linesSum_rename cs]
  | .mk _ (.environment (.mk l a c x y)) => by
    simp only [Chunk.rename, ChunkVariant.rename, Chunk.lines, ChunkVariant.lines, Environment.rename, Environment.lines,
      linesSum_rename c, linesArgs_rename a, ren_newlines R.toRenaming1, ← List.map_append]
theorem linesSum_rename : ∀ cs : List Chunk, linesSum (renameChunks f cs) = linesSum cs
  | [] => rfl
  | c :: cs => by simp [renameChunks, linesSum, Chunk.lines_rename c, linesSum_rename cs]
theorem linesArgs_rename : ∀ a : List (Str × Scope), linesArgs (renameArgs f a) = linesArgs a
  | [] => rfl
  | (p, .mk cs v) :: r => by
    simp [renameArgs, linesArgs, Scope.rename, Scope.lines, linesSum_rename cs, linesArgs_rename r, ren_newlines R.toRenaming1]
end

theorem checkLabel_rename (l : Str) : checkLabel (l.map f) = checkLabel l := by
  have h := checkName_rename R.toRenaming1 l
  simp only [checkLabel, begin_rename R, end_rename R]
  by_cases h1 : l = chars!"begin"
  · simp only [h1, if_true]
  by_cases h2 : l = chars!"end"
  · simp only [h2, if_true]
  simp only [h1, h2, if_false]
  exact h

mutual
theorem Chunk.validate_rename : ∀ c : Chunk, (c.rename f).validate = c.validate
  | .mk _ (.text s) => by
    simp only [Chunk.rename, ChunkVariant.rename, Chunk.validate, ChunkVariant.validate, checkSanitised_rename R.toRenaming1]
  | .mk _ (.command (.mk l a)) => by
    simp only [Chunk.rename, ChunkVariant.rename, Chunk.validate, ChunkVariant.validate, Command.rename, Command.validate,
      validateArgs_rename a, checkLabel_rename R l]
  | .mk _ (.scope (.mk cs v)) => by
    simp only [Chunk.rename, ChunkVariant.rename, Chunk.validate, ChunkVariant.validate, Scope.rename, Scope.validate,
      validateChunks_rename cs]
  | .mk _ (.environment (.mk l a c x y)) => by
    simp only [Chunk.rename, ChunkVariant.rename, Chunk.validate, ChunkVariant.validate, Environment.rename,
      Environment.validate, validateChunks_rename c, validateArgs_rename a, checkSanitised_rename R.toRenaming1]
theorem validateChunks_rename : ∀ cs : List Chunk, validateChunks (renameChunks f cs) = validateChunks cs
  | [] => rfl
  | c :: cs => by simp only [renameChunks, validateChunks, Chunk.validate_rename c, validateChunks_rename cs]
theorem validateArgs_rename : ∀ a : List (Str × Scope), validateArgs (renameArgs f a) = validateArgs a
  | [] => rfl
  | (p, .mk cs v) :: r => by
    simp only [renameArgs, validateArgs, Scope.rename, Scope.validate, validateChunks_rename cs, validateArgs_rename r]
end

theorem validateFrom_rename (k : Nat) (d : List Chunk) : Document.validateFrom k (renameChunks f d) = Document.validateFrom k d := by
  induction d generalizing k with
  | nil => rfl
  | cons c d ih =>
    have h : (c.rename f).lineNo = c.lineNo := by cases c; rfl
    simp only [renameChunks, Document.validateFrom, h, Chunk.validate_rename R, Chunk.lines_rename R, ih]

end
end Ast2

namespace Ast3
section
variable {f : Char → Char} (R : Renaming3 f)
include R

theorem delimiters_rename (v : MathsVariant) (t : MathsType) :
    (delimiters v t).1.map f = (delimiters v t).1 ∧ (delimiters v t).2.map f = (delimiters v t).2 := by
  have h1 := ren_fix_bs R.toRenaming1
  have h2 : f '[' = '[' := ren_fix_opening R.toRenaming1 .square
  have h3 : f ']' = ']' := ren_fix_closing R.toRenaming1 .square
  have h4 : f '(' = '(' := ren_fix_opening R.toRenaming1 .round
  have h5 : f ')' = ')' := ren_fix_closing R.toRenaming1 .round
  have h6 : f '$' = '$' := R.symbols _ (by simp)
  cases v <;> cases t <;> simp [delimiters, h1, h2, h3, h4, h5, h6]

mutual
theorem Chunk.display_rename : ∀ c : Chunk, (c.rename f).display = c.display.map f
  | .mk _ (.text s) => by simp [Chunk.rename, ChunkVariant.rename, Chunk.display, ChunkVariant.display]
  | .mk _ (.paragraphBreak s) => by simp [Chunk.rename, ChunkVariant.rename, Chunk.display, ChunkVariant.display]
  | .mk _ (.mathsBlock (.mk v t c)) => by
    simp [Chunk.rename, ChunkVariant.rename, Chunk.display, ChunkVariant.display, MathsBlock.rename, MathsBlock.display,
      displayChunks_rename c, delimiters_rename R v t]
  | .mk _ (.command (.mk l a)) => by
    simp [Chunk.rename, ChunkVariant.rename, Chunk.display, ChunkVariant.display, Command.rename, Command.display,
      displayArgs_rename a, ren_fix_bs R.toRenaming1]
  | .mk _ (.scope (.mk cs v)) => by
    simp [Chunk.rename, ChunkVariant.rename, Chunk.display, ChunkVariant.display, Scope.rename, Scope.display,
      displayChunks_rename cs, ren_fix_opening R.toRenaming1, ren_fix_closing R.toRenaming1]
  | .mk _ (.environment (.mk l a c x y)) => by
    simp only [Chunk.rename, ChunkVariant.rename, Chunk.display, ChunkVariant.display, Environment.rename,
      Environment.display, displayArgs_rename a, displayChunks_rename c, List.map_append, Ast2.rbegin R.toRenaming2,
      Ast2.rend R.toRenaming2, List.map_cons, Ast2.rcurly R.toRenaming2, List.map_nil]
theorem displayChunks_rename : ∀ cs : List Chunk, displayChunks (renameChunks f cs) = (displayChunks cs).map f
  | [] => rfl
  | c :: cs => by simp [renameChunks, displayChunks, Chunk.display_rename c, displayChunks_rename cs]
theorem displayArgs_rename : ∀ a : List (Str × Scope), displayArgs (renameArgs f a) = (displayArgs a).map f
  | [] => rfl
  | (p, .mk cs v) :: r => by
    simp [renameArgs, displayArgs, Scope.rename, Scope.display, displayChunks_rename cs, displayArgs_rename r,
      ren_fix_opening R.toRenaming1, ren_fix_closing R.toRenaming1]
end

theorem documentScope_rename : documentScope.rename f = documentScope := by
  simp only [documentScope, Scope.rename, renameChunks, Chunk.rename, ChunkVariant.rename, map_fixed (document_fixed R)]

theorem Document.display_rename (d : Document) : (d.rename f).display = d.display.map f := by
  have hb : chars!"begin".map f = chars!"begin" := (Ast2.begin_rename R.toRenaming2 _).mpr rfl
  have he : chars!"end".map f = chars!"end" := (Ast2.end_rename R.toRenaming2 _).mpr rfl
  simp only [Document.display, ← displayChunks_rename R, renameChunks_append, renameChunks, Chunk.rename,
    ChunkVariant.rename, Command.rename, renameArgs, hb, he, documentScope_rename R, Document.rename]

mutual
theorem Chunk.lines_rename : ∀ c : Chunk, (c.rename f).lines = c.lines
  | .mk _ (.text s) => by simp [Chunk.rename, ChunkVariant.rename, Chunk.lines, ChunkVariant.lines, ren_newlines R.toRenaming1]
  | .mk _ (.paragraphBreak s) => by
    simp [Chunk.rename, ChunkVariant.rename, Chunk.lines, ChunkVariant.lines, ren_newlines R.toRenaming1]
  | .mk _ (.mathsBlock (.mk v t c)) => by
    simp [Chunk.rename, ChunkVariant.rename, Chunk.lines, ChunkVariant.lines, MathsBlock.rename, MathsBlock.lines,
      linesSum_rename c]
  | .mk _ (.command (.mk l a)) => by
    simp [Chunk.rename, ChunkVariant.rename, Chunk.lines, ChunkVariant.lines, Command.rename, Command.lines,
      linesArgs_rename a, ren_newlines R.toRenaming1]
  | .mk _ (.scope (.mk cs v)) => by
    simp [Chunk.rename, ChunkVariant.rename, Chunk.lines, ChunkVariant.lines, Scope.rename, Scope.lines,
      linesSum_rename cs]
  | .mk _ (.environment (.mk l a c x y)) => by
    simp only [Chunk.rename, ChunkVariant.rename, Chunk.lines, ChunkVariant.lines, Environment.rename, Environment.lines,
      linesSum_rename c, linesArgs_rename a, ren_newlines R.toRenaming1, ← List.map_append]
theorem linesSum_rename : ∀ cs : List Chunk, linesSum (renameChunks f cs) = linesSum cs
  | [] => rfl
  | c :: cs => by simp [renameChunks, linesSum, Chunk.lines_rename c, linesSum_rename cs]
theorem linesArgs_rename : ∀ a : List (Str × Scope), linesArgs (renameArgs f a) = linesArgs a
  | [] => rfl
  | (p, .mk cs v) :: r => by
    simp [renameArgs, linesArgs, Scope.rename, Scope.lines, linesSum_rename cs, linesArgs_rename r, ren_newlines R.toRenaming1]
end

theorem checkText_rename (k : Bool) (s : Str) : checkText k (s.map f) = checkText k s := by
  induction s generalizing k with
  | nil => rfl
  | cons c s ih =>
    simp only [List.map_cons, checkText, ren_isSpecial R.toRenaming1, ren_nl R.toRenaming1, R.blank, ih]
    by_cases h : isSpecial c = true
    · simp only [h, if_true, ren_special R.toRenaming1 h]
    · simp only [h, Bool.false_eq_true, if_false]

theorem checkBreak_rename (k : Nat) (s : Str) : checkBreak k (s.map f) = checkBreak k s := by
  induction s generalizing k with
  | nil => rfl
  | cons c s ih => simp only [List.map_cons, checkBreak, ren_nl R.toRenaming1, R.blank, ih]


mutual
theorem Chunk.validate_rename : ∀ c : Chunk, (c.rename f).validate = c.validate
  | .mk _ (.text s) => by
    simp only [Chunk.rename, ChunkVariant.rename, Chunk.validate, ChunkVariant.validate, checkText_rename R]
  | .mk _ (.paragraphBreak s) => by
    simp only [Chunk.rename, ChunkVariant.rename, Chunk.validate, ChunkVariant.validate, checkBreak_rename R]
  | .mk _ (.mathsBlock (.mk v t c)) => by
    simp only [Chunk.rename, ChunkVariant.rename, Chunk.validate, ChunkVariant.validate, MathsBlock.rename, MathsBlock.validate,
      validateChunks_rename c]
  | .mk _ (.command (.mk l a)) => by
    simp only [Chunk.rename, ChunkVariant.rename, Chunk.validate, ChunkVariant.validate, Command.rename, Command.validate,
      validateArgs_rename a, Ast2.checkLabel_rename R.toRenaming2 l]
  | .mk _ (.scope (.mk cs v)) => by
    simp only [Chunk.rename, ChunkVariant.rename, Chunk.validate, ChunkVariant.validate, Scope.rename, Scope.validate,
      validateChunks_rename cs]
  | .mk _ (.environment (.mk l a c x y)) => by
    simp only [Chunk.rename, ChunkVariant.rename, Chunk.validate, ChunkVariant.validate, Environment.rename,
      Environment.validate, validateChunks_rename c, validateArgs_rename a, checkSanitised_rename R.toRenaming1]
theorem validateChunks_rename : ∀ cs : List Chunk, validateChunks (renameChunks f cs) = validateChunks cs
  | [] => rfl
  | c :: cs => by simp only [renameChunks, validateChunks, Chunk.validate_rename c, validateChunks_rename cs]
theorem validateArgs_rename : ∀ a : List (Str × Scope), validateArgs (renameArgs f a) = validateArgs a
  | [] => rfl
  | (p, .mk cs v) :: r => by
    simp only [renameArgs, validateArgs, Scope.rename, Scope.validate, validateChunks_rename cs, validateArgs_rename r]
end

theorem validateFrom_rename (k : Nat) (d : List Chunk) : validateFrom k (renameChunks f d) = validateFrom k d := by
  induction d generalizing k with
  | nil => rfl
  | cons c d ih =>
    have h : (c.rename f).lineNo = c.lineNo := by cases c; rfl
    simp only [renameChunks, validateFrom, h, Chunk.validate_rename R, Chunk.lines_rename R, ih]

theorem Document.validate_rename (d : Document) : (d.rename f).validate = d.validate := by
  simp only [Document.validate, Document.rename, validateFrom_rename R]
theorem Document.lines_rename (d : Document) : (d.rename f).lines = d.lines := by
  simp only [Document.lines, Document.rename, ← renameChunks_append, linesSum_rename R]

end
end Ast3

namespace Ast1
theorem pushChunkUnchecked_rename (f : Char → Char) (d : Document) (c : Chunk) :
    Document.pushChunkUnchecked (renameChunks f d) (c.rename f) = renameChunks f (Document.pushChunkUnchecked d c) := by
  obtain ⟨l, v⟩ := c
  have hl : (renameChunks f d).getLast? = d.getLast?.map (Chunk.rename f) := by
    rw [renameChunks_eq_map, List.getLast?_map]
  have hd : (renameChunks f d).dropLast = renameChunks f d.dropLast := by
    rw [renameChunks_eq_map, renameChunks_eq_map, List.map_dropLast]
  cases v with
  | text s =>
    simp only [Document.pushChunkUnchecked, Chunk.rename, ChunkVariant.rename, Chunk.variant, hl, hd]
    rcases d.getLast? with _ | ⟨k, v⟩
    · simp [renameChunks_append, renameChunks, Chunk.rename, ChunkVariant.rename]
    · cases v <;> simp [renameChunks_append, renameChunks, Chunk.rename, ChunkVariant.rename]
  | command c => simp [Document.pushChunkUnchecked, renameChunks_append, renameChunks, Chunk.rename, ChunkVariant.rename, Chunk.variant]
  | scope c => simp [Document.pushChunkUnchecked, renameChunks_append, renameChunks, Chunk.rename, ChunkVariant.rename, Chunk.variant]

theorem pushAll_rename (f : Char → Char) (xs : List Chunk) (d : Document) :
    (renameChunks f xs).foldl Document.pushChunkUnchecked (renameChunks f d) =
      renameChunks f (xs.foldl Document.pushChunkUnchecked d) := by
  induction xs generalizing d with
  | nil => rfl
  | cons c xs ih => simp only [renameChunks, List.foldl_cons, pushChunkUnchecked_rename, ih]
end Ast1

namespace Ast2
theorem renameChunks_eq_map (f : Char → Char) (cs : List Chunk) : renameChunks f cs = cs.map (Chunk.rename f) := by
  induction cs with
  | nil => rfl
  | cons c cs ih => simp [renameChunks, ih]

theorem pushChunkUnchecked_rename (f : Char → Char) (d : Document) (c : Chunk) :
    Document.pushChunkUnchecked (renameChunks f d) (c.rename f) = renameChunks f (Document.pushChunkUnchecked d c) := by
  obtain ⟨l, v⟩ := c
  have hl : (renameChunks f d).getLast? = d.getLast?.map (Chunk.rename f) := by
    rw [renameChunks_eq_map, List.getLast?_map]
  have hd : (renameChunks f d).dropLast = renameChunks f d.dropLast := by
    rw [renameChunks_eq_map, renameChunks_eq_map, List.map_dropLast]
  cases v with
  | text s =>
    simp only [Document.pushChunkUnchecked, Chunk.rename, ChunkVariant.rename, Chunk.variant, hl, hd]
    rcases d.getLast? with _ | ⟨k, v⟩
    · simp [renameChunks_append, renameChunks, Chunk.rename, ChunkVariant.rename]
    · cases v <;> simp [renameChunks_append, renameChunks, Chunk.rename, ChunkVariant.rename]
  | command c => simp [Document.pushChunkUnchecked, renameChunks_append, renameChunks, Chunk.rename, ChunkVariant.rename, Chunk.variant]
  | scope c => simp [Document.pushChunkUnchecked, renameChunks_append, renameChunks, Chunk.rename, ChunkVariant.rename, Chunk.variant]
  | environment c => simp [Document.pushChunkUnchecked, renameChunks_append, renameChunks, Chunk.rename, ChunkVariant.rename, Chunk.variant]

theorem pushAll_rename (f : Char → Char) (xs : List Chunk) (d : Document) :
    (renameChunks f xs).foldl Document.pushChunkUnchecked (renameChunks f d) =
      renameChunks f (xs.foldl Document.pushChunkUnchecked d) := by
  induction xs generalizing d with
  | nil => rfl
  | cons c xs ih => simp only [renameChunks, List.foldl_cons, pushChunkUnchecked_rename, ih]

section
variable {f : Char → Char} (R : Renaming2 f)
include R

theorem argNewlines2_rename (a : List (Str × Scope)) : argNewlines2 (renameArgs f a) = argNewlines2 a := by
  induction a with
  | nil => rfl
  | cons x a ih =>
    obtain ⟨p, cs, v⟩ := x
    have : (Scope.rename f (.mk cs v)).display = (Scope.mk cs v).display.map f := by
      simp [Scope.rename, Scope.display, displayChunks_rename R cs, ren_fix_opening R.toRenaming1, ren_fix_closing R.toRenaming1]
    simp [renameArgs, argNewlines2, ih, this, ren_newlines R.toRenaming1]

theorem isEmpty_rename (cs : List Chunk) : (renameChunks f cs).isEmpty = cs.isEmpty := by cases cs <;> rfl

mutual
theorem intoVariant_rename (n : Nat) : ∀ v : ChunkVariant,
    intoVariant n (v.rename f) = renameRes f (Ast1.renameChunks f) (intoVariant n v)
  | .text s => rfl
  | .scope (.mk cs v) => by
    simp only [ChunkVariant.rename, Scope.rename, intoVariant, intoScope, intoChunks_rename 0 cs]
    rcases intoChunks 0 cs with e | x <;> rfl
  | .command (.mk l a) => by
    simp only [ChunkVariant.rename, Command.rename, intoVariant, intoCommand, intoArgs_rename a]
    rcases intoArgs a with e | x <;> rfl
  | .environment (.mk l a c x y) => by
    have hb : chars!"begin".map f = chars!"begin" := (begin_rename R _).mpr rfl
    have he : chars!"end".map f = chars!"end" := (end_rename R _).mpr rfl
    simp only [ChunkVariant.rename, Environment.rename, intoVariant, intoEnvironment, Ast1.fromStr_rename R.toRenaming1,
      intoArgs_rename a, isEmpty_rename R, intoChunks_rename (n - 1) c, ren_newlines R.toRenaming1, displayChunks_rename R,
      argNewlines2_rename R]
    rcases Ast1.fromStr l with e | lc
    · rcases e with ⟨k, t⟩ | _ | _
      · cases t <;> rfl
      · rfl
      · rfl
    · simp only [renameRes_ok]
      rcases intoArgs a with e | args
      · rfl
      · simp only [renameRes_ok]
        split
        · rfl
        · rcases intoChunks (n - 1) c with e | cs
          · rfl
          · simp [renameRes, Ast1.renameChunks_append, Ast1.renameChunks, Ast1.Chunk.rename, Ast1.ChunkVariant.rename,
              Ast1.Command.rename, Ast1.renameArgs, Ast1.Scope.rename, hb, he]
theorem intoChunks_rename (k : Nat) : ∀ cs : List Chunk,
    intoChunks k (renameChunks f cs) = renameRes f (Ast1.renameChunks f) (intoChunks k cs)
  | [] => rfl
  | .mk l v :: cs => by
    simp only [renameChunks, Chunk.rename, intoChunks, intoVariant_rename (l + k) v, intoChunks_rename k cs]
    rcases intoVariant (l + k) v with e | x
    · rfl
    · simp only [renameRes_ok]
      rcases intoChunks k cs with e | y
      · rfl
      · simp [renameRes, Ast1.renameChunks_append]
theorem intoArgs_rename : ∀ a : List (Str × Scope),
    intoArgs (renameArgs f a) = renameRes f (Ast1.renameArgs f) (intoArgs a)
  | [] => rfl
  | (p, .mk cs v) :: r => by
    simp only [renameArgs, Scope.rename, intoArgs, intoScope, intoChunks_rename 0 cs, intoArgs_rename r]
    rcases intoChunks 0 cs with e | x
    · rfl
    · simp only [renameRes_ok]
      rcases intoArgs r with e | y <;> rfl
end

theorem toAst1_rename (d : Document) : toAst1 (renameChunks f d) = renameRes f (Ast1.renameChunks f) (toAst1 d) := by
  have key : ∀ (d : Document) (out : Ast1.Document), toAst1Loop (renameChunks f d) (Ast1.renameChunks f out) =
      renameRes f (Ast1.renameChunks f) (toAst1Loop d out) := by
    intro d
    induction d with
    | nil => intro out; rfl
    | cons c d ih =>
      intro out
      obtain ⟨l, v⟩ := c
      simp only [renameChunks, Chunk.rename, toAst1Loop, intoVariant_rename R]
      rcases intoVariant l v with e | x
      · rfl
      · simp only [renameRes_ok, Ast1.pushAll_rename, ih]
  exact key d []
end
end Ast2

namespace Ast3
theorem shift_rename (f : Char → Char) (k : Nat) (cs : List Ast2.Chunk) :
    (Ast2.renameChunks f cs).map (Ast2.Chunk.shift k) = Ast2.renameChunks f (cs.map (Ast2.Chunk.shift k)) := by
  induction cs with
  | nil => rfl
  | cons c cs ih => obtain ⟨l, v⟩ := c; simp [Ast2.renameChunks, Ast2.Chunk.rename, Ast2.Chunk.shift, ih]

section
variable {f : Char → Char} (R : Renaming3 f)
include R

theorem dollars_rename (t : MathsType) : (dollars t).map f = dollars t := by
  have h6 : f '$' = '$' := R.symbols _ (by simp)
  cases t <;> simp [dollars, h6]

theorem prependDollars_rename (t : MathsType) (cs : List Ast2.Chunk) :
    prependDollars (dollars t) (Ast2.renameChunks f cs) = Ast2.renameChunks f (prependDollars (dollars t) cs) := by
  have h := dollars_rename R t
  rcases cs with _ | ⟨⟨l, v⟩, cs⟩
  · simp [prependDollars, Ast2.renameChunks, Ast2.Chunk.rename, Ast2.ChunkVariant.rename, h]
  · cases v <;> simp [prependDollars, Ast2.renameChunks, Ast2.Chunk.rename, Ast2.ChunkVariant.rename, h]

theorem appendDollars_rename (t : MathsType) (n : Nat) (cs : List Ast2.Chunk) :
    appendDollars (dollars t) n (Ast2.renameChunks f cs) = Ast2.renameChunks f (appendDollars (dollars t) n cs) := by
  have h := dollars_rename R t
  have hl : (Ast2.renameChunks f cs).getLast? = cs.getLast?.map (Ast2.Chunk.rename f) := by
    rw [Ast2.renameChunks_eq_map, List.getLast?_map]
  have hd : (Ast2.renameChunks f cs).dropLast = Ast2.renameChunks f cs.dropLast := by
    rw [Ast2.renameChunks_eq_map, Ast2.renameChunks_eq_map, List.map_dropLast]
  simp only [appendDollars, hl, hd]
  rcases cs.getLast? with _ | ⟨k, v⟩
  · simp [Ast2.renameChunks_append, Ast2.renameChunks, Ast2.Chunk.rename, Ast2.ChunkVariant.rename, h]
  · cases v <;> simp [Ast2.renameChunks_append, Ast2.renameChunks, Ast2.Chunk.rename, Ast2.ChunkVariant.rename, h]

theorem wrapMaths_rename (v : MathsVariant) (t : MathsType) (n : Nat) (cs : List Ast2.Chunk) :
    wrapMaths v t n (Ast2.renameChunks f cs) = Ast2.renameChunks f (wrapMaths v t n cs) := by
  have h := dollars_rename R t
  have h2 : f '[' = '[' := ren_fix_opening R.toRenaming1 .square
  have h3 : f ']' = ']' := ren_fix_closing R.toRenaming1 .square
  have h4 : f '(' = '(' := ren_fix_opening R.toRenaming1 .round
  have h5 : f ')' = ')' := ren_fix_closing R.toRenaming1 .round
  cases v with
  | brackets =>
    cases t <;> simp [wrapMaths, Ast2.renameChunks_append, Ast2.renameChunks, Ast2.Chunk.rename, Ast2.ChunkVariant.rename,
      Ast2.Command.rename, Ast2.renameArgs, h2, h3, h4, h5]
  | dollars =>
    simp only [wrapMaths, Ast2_isEmpty_rename, prependDollars_rename R, appendDollars_rename R]
    split
    · simp [Ast2.renameChunks, Ast2.Chunk.rename, Ast2.ChunkVariant.rename, h]
    · rfl

mutual
theorem intoVariant_rename (n : Nat) : ∀ v : ChunkVariant,
    intoVariant n (v.rename f) = renameRes f (Ast2.renameChunks f) (intoVariant n v)
  | .text s => rfl
  | .paragraphBreak s => rfl
  | .scope (.mk cs v) => by
    simp only [ChunkVariant.rename, Scope.rename, intoVariant, intoScope, intoChunks_rename cs]
    rcases intoChunks cs with e | x <;> rfl
  | .command (.mk l a) => by
    simp only [ChunkVariant.rename, Command.rename, intoVariant, intoCommand, intoArgs_rename a]
    rcases intoArgs a with e | x <;> rfl
  | .environment (.mk l a c x y) => by
    simp only [ChunkVariant.rename, Environment.rename, intoVariant, intoEnvironment, intoArgs_rename a, intoChunks_rename c]
    rcases intoArgs a with e | x
    · rfl
    · simp only [renameRes_ok]
      rcases intoChunks c with e | x <;> rfl
  | .mathsBlock (.mk v t c) => by
    simp only [ChunkVariant.rename, MathsBlock.rename, intoVariant, intoMaths, intoChunks_rename c, linesSum_rename R]
    rcases intoChunks c with e | x
    · rfl
    · simp only [renameRes_ok, wrapMaths_rename R]
      split
      · rfl
      · simp [renameRes, shift_rename]
theorem intoChunks_rename : ∀ cs : List Chunk,
    intoChunks (renameChunks f cs) = renameRes f (Ast2.renameChunks f) (intoChunks cs)
  | [] => rfl
  | .mk l v :: cs => by
    simp only [renameChunks, Chunk.rename, intoChunks, intoVariant_rename l v, intoChunks_rename cs]
    rcases intoVariant l v with e | x
    · rfl
    · simp only [renameRes_ok]
      rcases intoChunks cs with e | y
      · rfl
      · simp [renameRes, Ast2.renameChunks_append]
theorem intoArgs_rename : ∀ a : List (Str × Scope),
    intoArgs (renameArgs f a) = renameRes f (Ast2.renameArgs f) (intoArgs a)
  | [] => rfl
  | (p, .mk cs v) :: r => by
    simp only [renameArgs, Scope.rename, intoArgs, intoScope, intoChunks_rename cs, intoArgs_rename r]
    rcases intoChunks cs with e | x
    · rfl
    · simp only [renameRes_ok]
      rcases intoArgs r with e | y <;> rfl
end

theorem toAst2_rename (d : Document) : toAst2 (d.rename f) = renameRes f (Ast2.renameChunks f) (toAst2 d) := by
  have hdoc : chars!"document".map f = chars!"document" := map_fixed (document_fixed R)
  simp only [toAst2, Document.rename, intoChunks_rename R, intoArgs_rename R, linesArgs_rename R, ren_newlines R.toRenaming1]
  rcases intoChunks d.preamable with e | pre
  · rfl
  simp only [renameRes_ok, Ast2.linesSum_rename R.toRenaming2]
  rcases intoChunks d.body with e | body
  · rfl
  simp only [renameRes_ok]
  rcases intoArgs d.bodyArgs with e | args
  · rfl
  simp only [renameRes_ok, shift_rename]
  generalize hk : linesArgs d.bodyArgs + newlines d.bodyBeginPrec = k
  have hc : Ast2.Chunk.mk (Ast2.linesSum pre) (.environment (.mk chars!"document" (Ast2.renameArgs f args)
      (Ast2.renameChunks f (body.map (Ast2.Chunk.shift k))) (d.bodyBeginPrec.map f) (d.bodyEndPrec.map f))) =
    (Ast2.Chunk.mk (Ast2.linesSum pre) (.environment (.mk chars!"document" args (body.map (Ast2.Chunk.shift k))
      d.bodyBeginPrec d.bodyEndPrec))).rename f := by
    simp only [Ast2.Chunk.rename, Ast2.ChunkVariant.rename, Ast2.Environment.rename, hdoc]
  rw [hc, Ast2.Chunk.lines_rename R.toRenaming2]
  rcases h : checkedSub _ 2 with p | off
  · simp [renameRes, checkedSub_error h, renameFail]
  simp only []
  rcases intoChunks d.trailing with e | tr
  · rfl
  simp only [renameRes_ok, shift_rename, Ast2.pushChunkUnchecked_rename, Ast2.pushAll_rename]
end
end Ast3

end LatexAst
