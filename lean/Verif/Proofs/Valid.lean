import Verif.Spec.Valid
import Verif.Proofs.Tree
import Verif.Proofs.Lines

/-! Validation functions decide the declarative predicates. -/

namespace LatexAst
open Ast1 (checkSanitised isSpecial)

theorem isSpecial_iff (c : Char) : isSpecial c = true ↔ Spec.Special c := by
  simp only [isSpecial, ScopeVariant.isOpening, ScopeVariant.isClosing, Spec.Special,
    Bool.or_eq_true, beq_iff_eq, List.mem_cons, List.not_mem_nil, or_false]
  grind

theorem checkSanitised_ok_iff (s : Str) : checkSanitised s = .ok () ↔ Spec.Sanitised s := by
  induction s with
  | nil => simp [checkSanitised, Spec.Sanitised]
  | cons c cs ih =>
    simp only [checkSanitised]
    by_cases h : isSpecial c
    · simp only [h, if_true, reduceCtorEq, false_iff]
      intro hs
      exact hs c (by simp) ((isSpecial_iff c).1 h)
    · simp only [h, Bool.false_eq_true, if_false, ih]
      have : ¬ Spec.Special c := fun hc => h ((isSpecial_iff c).2 hc)
      simp [Spec.Sanitised, this]

theorem checkSanitised_error {s e} (h : checkSanitised s = .error e) :
    ∃ a c b, s = a ++ c :: b ∧ Spec.Special c ∧ Spec.Sanitised a ∧ e = .unsanitisedCharInString c := by
  induction s with
  | nil => simp [checkSanitised] at h
  | cons c cs ih =>
    simp only [checkSanitised] at h
    by_cases hc : isSpecial c
    · simp only [hc, if_true] at h
      injection h with h
      exact ⟨[], c, cs, rfl, (isSpecial_iff c).1 hc, by simp [Spec.Sanitised], h.symm⟩
    · simp only [hc] at h
      obtain ⟨a, d, b, h1, h2, h3, h4⟩ := ih h
      refine ⟨c :: a, d, b, by simp [h1], h2, ?_, h4⟩
      intro x hx
      rcases List.mem_cons.1 hx with rfl | hx
      · exact fun hs => hc ((isSpecial_iff x).2 hs)
      · exact h3 x hx

theorem Except.ok_or_error {ε α} (x : Except ε α) : (∃ e, x = .error e) ∨ ∃ a, x = .ok a := by
  cases x <;> simp

namespace Ast1
mutual
theorem Chunk.validate_iff : ∀ c : Chunk, c.validate = .ok () ↔ c.All NodeOk
  | .mk _ v => by simpa [Chunk.validate, Chunk.All] using ChunkVariant.validate_iff v
theorem ChunkVariant.validate_iff : ∀ v : ChunkVariant, v.validate = .ok () ↔ v.All NodeOk
  | .text s => by simp [ChunkVariant.validate, ChunkVariant.All, NodeOk, checkSanitised_ok_iff]
  | .command c => by simpa [ChunkVariant.validate, ChunkVariant.All] using Command.validate_iff c
  | .scope s => by
    simpa [ChunkVariant.validate, ChunkVariant.All, NodeOk] using Scope.validate_iff s
theorem Command.validate_iff : ∀ c : Command,
    c.validate = .ok () ↔ NodeOk (.command c) ∧ c.All NodeOk
  | .mk l a => by
    have h := validateArgs_iff a
    simp only [Command.validate, Command.All, NodeOk, ← h]
    have hb : Spec.utf8Length l = byteLen l := rfl
    rw [hb]
    by_cases h1 : byteLen l = 1
    · simp [h1]
    · have := checkSanitised_ok_iff l
      rcases hx : checkSanitised l with e | u
      · simp [h1, ← this, hx]
      · simp [h1, ← this, hx]
theorem Scope.validate_iff : ∀ s : Scope, s.validate = .ok () ↔ s.All NodeOk
  | .mk cs v => by simpa [Scope.validate, Scope.All] using validateChunks_iff cs
theorem validateChunks_iff : ∀ cs : List Chunk, validateChunks cs = .ok () ↔ AllChunks NodeOk cs
  | [] => by simp [validateChunks, AllChunks]
  | c :: cs => by
    have h := validateChunks_iff cs
    have h' := Chunk.validate_iff c
    simp only [validateChunks, AllChunks, ← h, ← h']
    rcases hx : c.validate with e | u <;> simp
theorem validateArgs_iff : ∀ a : List (Str × Scope), validateArgs a = .ok () ↔ AllArgs NodeOk a
  | [] => by simp [validateArgs, AllArgs]
  | (p, s) :: r => by
    have h := validateArgs_iff r
    have h' := Scope.validate_iff s
    simp only [validateArgs, AllArgs, ← h, ← h']
    rcases hx : s.validate with e | u <;> simp
end

theorem numberedFrom_nil (n : Nat) : NumberedFrom n [] := by
  intro pre c post h; simp at h
theorem numberedFrom_cons (n : Nat) (c : Chunk) (cs : List Chunk) :
    NumberedFrom n (c :: cs) ↔ c.lineNo = n ∧ NumberedFrom (n + (c.lines - 1)) cs := by
  have hl : c.lines - 1 = c.display.count '\n' := by
    rw [Chunk.lines_eq, newlines_eq_count]; simp
  constructor
  · intro h
    refine ⟨by simpa using h [] c cs rfl, ?_⟩
    intro pre d post hd
    have := h (c :: pre) d post (by simp [hd])
    rw [this, displayChunks_cons, List.count_append, hl]; omega
  · rintro ⟨h1, h2⟩ pre d post hd
    cases pre with
    | nil => simp at hd; simp [← hd.1, h1]
    | cons x pre =>
      simp only [List.cons_append, List.cons.injEq] at hd
      obtain ⟨rfl, hd⟩ := hd
      rw [h2 pre d post hd, displayChunks_cons, List.count_append, hl]; omega

theorem numberedFrom_append (n : Nat) (a b : List Chunk) :
    NumberedFrom n (a ++ b) ↔ NumberedFrom n a ∧ NumberedFrom (n + newlines (displayChunks a)) b := by
  induction a generalizing n with
  | nil => simp [numberedFrom_nil]
  | cons c cs ih =>
    simp only [List.cons_append, numberedFrom_cons, ih, displayChunks_cons, newlines_append,
      Chunk.lines_eq, and_assoc, Nat.add_sub_cancel, Nat.add_assoc]

theorem validateFrom_iff (n : Nat) (d : List Chunk) :
    Document.validateFrom n d = .ok () ↔ NumberedFrom n d ∧ AllChunks NodeOk d := by
  induction d generalizing n with
  | nil => simp [Document.validateFrom, numberedFrom_nil, AllChunks]
  | cons c cs ih =>
    simp only [Document.validateFrom, numberedFrom_cons, AllChunks]
    by_cases h : c.lineNo = n
    · have h' := Chunk.validate_iff c
      rcases hx : c.validate with e | u
      · simp [h, ← h', hx]
      · simp [h, ← h', hx, ih]
    · simp [h]

theorem validate_iff (d : Document) : d.validate = .ok () ↔ Valid d := by
  rw [Document.validate, validateFrom_iff, Valid, allChunks_iff]
end Ast1

theorem checkLabel_ok_iff (l : Str) : Ast2.checkLabel l = .ok () ↔
    l ≠ chars!"begin" ∧ l ≠ chars!"end" ∧ (Spec.utf8Length l ≠ 1 → Spec.Sanitised l) := by
  have hb : Spec.utf8Length l = byteLen l := rfl
  rw [hb]
  simp only [Ast2.checkLabel]
  by_cases h1 : l = chars!"begin"
  · simp [h1]
  by_cases h2 : l = chars!"end"
  · simp [h2]
  by_cases h3 : byteLen l = 1
  · simp [h1, h2, h3]
  · simp [h1, h2, h3, checkSanitised_ok_iff]

namespace Ast2
mutual
theorem Chunk.validate_iff : ∀ c : Chunk, c.validate = .ok () ↔ c.All NodeOk
  | .mk _ v => by simpa [Chunk.validate, Chunk.All] using ChunkVariant.validate_iff v
theorem ChunkVariant.validate_iff : ∀ v : ChunkVariant, v.validate = .ok () ↔ v.All NodeOk
  | .text s => by simp [ChunkVariant.validate, ChunkVariant.All, NodeOk, checkSanitised_ok_iff]
  | .command c => by simpa [ChunkVariant.validate, ChunkVariant.All] using Command.validate_iff c
  | .scope s => by
    simpa [ChunkVariant.validate, ChunkVariant.All, NodeOk] using Scope.validate_iff s
  | .environment e => by
    simpa [ChunkVariant.validate, ChunkVariant.All] using Environment.validate_iff e
theorem Command.validate_iff : ∀ c : Command,
    c.validate = .ok () ↔ NodeOk (.command c) ∧ c.All NodeOk
  | .mk l a => by
    have h := validateArgs_iff a
    have h2 := checkLabel_ok_iff l
    simp only [Command.validate, Command.All, NodeOk, ← h, ← h2]
    rcases hx : checkLabel l with e | u <;> simp
theorem Scope.validate_iff : ∀ s : Scope, s.validate = .ok () ↔ s.All NodeOk
  | .mk cs v => by simpa [Scope.validate, Scope.All] using validateChunks_iff cs
theorem Environment.validate_iff : ∀ e : Environment,
    e.validate = .ok () ↔ NodeOk (.environment e) ∧ e.All NodeOk
  | .mk l a c x y => by
    have h := validateArgs_iff a
    have h1 := validateChunks_iff c
    have h2 := checkSanitised_ok_iff l
    simp only [Environment.validate, Environment.All, NodeOk, ← h, ← h1, ← h2]
    rcases hx : checkSanitised l with e | u
    · simp
    · rcases hy : validateArgs a with e | u <;> simp
theorem validateChunks_iff : ∀ cs : List Chunk, validateChunks cs = .ok () ↔ AllChunks NodeOk cs
  | [] => by simp [validateChunks, AllChunks]
  | c :: cs => by
    have h := validateChunks_iff cs
    have h' := Chunk.validate_iff c
    simp only [validateChunks, AllChunks, ← h, ← h']
    rcases hx : c.validate with e | u <;> simp
theorem validateArgs_iff : ∀ a : List (Str × Scope), validateArgs a = .ok () ↔ AllArgs NodeOk a
  | [] => by simp [validateArgs, AllArgs]
  | (p, s) :: r => by
    have h := validateArgs_iff r
    have h' := Scope.validate_iff s
    simp only [validateArgs, AllArgs, ← h, ← h']
    rcases hx : s.validate with e | u <;> simp
end

theorem numberedFrom_nil (n : Nat) : NumberedFrom n [] := by
  intro pre c post h; simp at h
theorem numberedFrom_cons (n : Nat) (c : Chunk) (cs : List Chunk) :
    NumberedFrom n (c :: cs) ↔ c.lineNo = n ∧ NumberedFrom (n + (c.lines - 1)) cs := by
  have hl : c.lines - 1 = c.display.count '\n' := by
    rw [Chunk.lines_eq, newlines_eq_count]; simp
  constructor
  · intro h
    refine ⟨by simpa using h [] c cs rfl, ?_⟩
    intro pre d post hd
    have := h (c :: pre) d post (by simp [hd])
    rw [this, displayChunks_cons, List.count_append, hl]; omega
  · rintro ⟨h1, h2⟩ pre d post hd
    cases pre with
    | nil => simp at hd; simp [← hd.1, h1]
    | cons x pre =>
      simp only [List.cons_append, List.cons.injEq] at hd
      obtain ⟨rfl, hd⟩ := hd
      rw [h2 pre d post hd, displayChunks_cons, List.count_append, hl]; omega

theorem numberedFrom_append (n : Nat) (a b : List Chunk) :
    NumberedFrom n (a ++ b) ↔ NumberedFrom n a ∧ NumberedFrom (n + newlines (displayChunks a)) b := by
  induction a generalizing n with
  | nil => simp [numberedFrom_nil]
  | cons c cs ih =>
    simp only [List.cons_append, numberedFrom_cons, ih, displayChunks_cons, newlines_append,
      Chunk.lines_eq, and_assoc, Nat.add_sub_cancel, Nat.add_assoc]

theorem validateFrom_iff (n : Nat) (d : List Chunk) :
    Document.validateFrom n d = .ok () ↔ NumberedFrom n d ∧ AllChunks NodeOk d := by
  induction d generalizing n with
  | nil => simp [Document.validateFrom, numberedFrom_nil, AllChunks]
  | cons c cs ih =>
    simp only [Document.validateFrom, numberedFrom_cons, AllChunks]
    by_cases h : c.lineNo = n
    · have h' := Chunk.validate_iff c
      rcases hx : c.validate with e | u
      · simp [h, ← h', hx]
      · simp [h, ← h', hx, ih]
    · simp [h]

theorem validate_iff (d : Document) : d.validate = .ok () ↔ Valid d := by
  rw [Document.validate, validateFrom_iff, Valid, allChunks_iff]
end Ast2

namespace Ast3

theorem gap_nil : ¬ Spec.ParagraphGap [] := by
  rintro ⟨a, w, b, h, _⟩; cases a <;> simp at h

theorem gap_cons_of_ne {c : Char} (hc : c ≠ '\n') (s : Str) :
    Spec.ParagraphGap (c :: s) ↔ Spec.ParagraphGap s := by
  constructor
  · rintro ⟨a, w, b, h, hw⟩
    cases a with
    | nil => simp at h; exact absurd h.1 hc
    | cons x a => simp at h; exact ⟨a, w, b, h.2, hw⟩
  · rintro ⟨a, w, b, h, hw⟩
    exact ⟨c :: a, w, b, by simp [h], hw⟩

theorem gap_cons {c : Char} {s : Str} (h : Spec.ParagraphGap s) : Spec.ParagraphGap (c :: s) := by
  obtain ⟨a, w, b, h, hw⟩ := h
  exact ⟨c :: a, w, b, by simp [h], hw⟩

theorem gap_nl_nl (s : Str) : Spec.ParagraphGap ('\n' :: '\n' :: s) :=
  ⟨[], [], s, rfl, by simp [Spec.Blank]⟩

theorem gap_nl_ws {c : Char} (hc : isWhitespace c = true) (hn : c ≠ '\n') (s : Str) :
    Spec.ParagraphGap ('\n' :: c :: s) ↔ Spec.ParagraphGap ('\n' :: s) := by
  constructor
  · rintro ⟨a, w, b, h, hw⟩
    cases a with
    | nil =>
      cases w with
      | nil => simp at h; exact absurd h.1 hn
      | cons x w => 
        simp at h
        exact ⟨[], w, b, by simp [h.2], fun y hy => hw y (by simp [hy])⟩
    | cons x a =>
      cases a with
      | nil => simp at h; exact absurd h.2.1 hn
      | cons y a => simp at h; exact ⟨'\n' :: a, w, b, by simp [h.2.2], hw⟩
  · rintro ⟨a, w, b, h, hw⟩
    cases a with
    | nil =>
      simp at h
      refine ⟨[], c :: w, b, by simp [h], ?_⟩
      intro y hy
      rcases List.mem_cons.1 hy with rfl | hy
      · exact hc
      · exact hw y hy
    | cons x a => simp at h; exact ⟨'\n' :: c :: a, w, b, by simp [h], hw⟩

theorem gap_nl_other {c : Char} (hc : isWhitespace c = false) (s : Str) :
    Spec.ParagraphGap ('\n' :: c :: s) ↔ Spec.ParagraphGap s := by
  have hn : c ≠ '\n' := by rintro rfl; revert hc; decide
  constructor
  · rintro ⟨a, w, b, h, hw⟩
    cases a with
    | nil =>
      cases w with
      | nil => simp at h; exact absurd h.1 hn
      | cons x w =>
        simp at h
        have := hw x (by simp)
        rw [← h.1, hc] at this; exact absurd this (by decide)
    | cons x a =>
      cases a with
      | nil => simp at h; exact absurd h.2.1 hn
      | cons y a => simp at h; exact ⟨a, w, b, h.2.2, hw⟩
  · exact fun h => gap_cons (gap_cons h)

theorem sanitised_cons (c : Char) (s : Str) :
    Spec.Sanitised (c :: s) ↔ ¬ Spec.Special c ∧ Spec.Sanitised s := by
  simp [Spec.Sanitised]

theorem checkText_ok_iff (consec : Bool) (s : Str) : checkText consec s = .ok () ↔
    Spec.Sanitised s ∧ ¬ Spec.ParagraphGap (if consec then '\n' :: s else s) := by
  induction s generalizing consec with
  | nil =>
    cases consec
    · simp [checkText, Spec.Sanitised, gap_nil]
    · simp only [checkText, Spec.Sanitised, if_true, true_iff]
      refine ⟨by simp, ?_⟩
      rintro ⟨a, w, b, h, _⟩
      cases a with
      | nil => simp at h
      | cons x a => simp at h
  | cons c cs ih =>
    rw [sanitised_cons]
    simp only [checkText]
    by_cases hs : isSpecial c
    · have := (isSpecial_iff c).1 hs
      simp [hs, this]
    · have hns : ¬ Spec.Special c := fun h => hs ((isSpecial_iff c).2 h)
      by_cases hn : c = '\n'
      · subst hn
        cases consec
        · simp [hs, hns, ih]
        · simp [hs, gap_nl_nl]
      · by_cases hw : isWhitespace c
        · cases consec
          · simp [hs, hns, hn, hw, ih, gap_cons_of_ne hn]
          · simp [hs, hns, hn, hw, ih, gap_nl_ws hw hn]
        · cases consec
          · simp [hs, hns, hn, hw, ih, gap_cons_of_ne hn]
          · simp [hs, hns, hn, hw, ih, gap_nl_other (by simpa using hw)]

theorem checkBreak_ok_iff (n : Nat) (s : Str) : checkBreak n s = .ok () ↔
    Spec.Blank s ∧ 2 ≤ n + s.count '\n' := by
  induction s generalizing n with
  | nil => 
    simp only [checkBreak, Spec.Blank]
    by_cases h : n < 2
    · simp [h]
    · simp [h]; omega
  | cons c cs ih =>
    simp only [checkBreak]
    have hb : Spec.Blank (c :: cs) ↔ isWhitespace c = true ∧ Spec.Blank cs := by
      simp [Spec.Blank]
    rw [hb]
    by_cases hw : isWhitespace c
    · by_cases hn : c = '\n'
      · subst hn
        simp [hw, ih, Nat.add_comm, Nat.add_left_comm]
      · simp [hw, hn, ih]
    · simp [hw]

mutual
theorem Chunk.validate_iff : ∀ c : Chunk, c.validate = .ok () ↔ c.All NodeOk
  | .mk _ v => by simpa [Chunk.validate, Chunk.All] using ChunkVariant.validate_iff v
theorem ChunkVariant.validate_iff : ∀ v : ChunkVariant, v.validate = .ok () ↔ v.All NodeOk
  | .text s => by simp [ChunkVariant.validate, ChunkVariant.All, NodeOk, checkText_ok_iff]
  | .paragraphBreak s => by
    simp [ChunkVariant.validate, ChunkVariant.All, NodeOk, checkBreak_ok_iff]
  | .command c => by simpa [ChunkVariant.validate, ChunkVariant.All] using Command.validate_iff c
  | .scope s => by
    simpa [ChunkVariant.validate, ChunkVariant.All, NodeOk] using Scope.validate_iff s
  | .environment e => by
    simpa [ChunkVariant.validate, ChunkVariant.All] using Environment.validate_iff e
  | .mathsBlock (.mk v t c) => by
    simpa [ChunkVariant.validate, ChunkVariant.All, NodeOk, MathsBlock.validate, MathsBlock.All]
      using validateChunks_iff c
theorem Command.validate_iff : ∀ c : Command,
    c.validate = .ok () ↔ NodeOk (.command c) ∧ c.All NodeOk
  | .mk l a => by
    have h := validateArgs_iff a
    have h2 := checkLabel_ok_iff l
    simp only [Command.validate, Command.All, NodeOk, ← h, ← h2]
    rcases hx : Ast2.checkLabel l with e | u <;> simp
theorem Scope.validate_iff : ∀ s : Scope, s.validate = .ok () ↔ s.All NodeOk
  | .mk cs v => by simpa [Scope.validate, Scope.All] using validateChunks_iff cs
theorem Environment.validate_iff : ∀ e : Environment,
    e.validate = .ok () ↔ NodeOk (.environment e) ∧ e.All NodeOk
  | .mk l a c x y => by
    have h := validateArgs_iff a
    have h1 := validateChunks_iff c
    have h2 := checkSanitised_ok_iff l
    simp only [Environment.validate, Environment.All, NodeOk, ← h, ← h1, ← h2]
    rcases hx : checkSanitised l with e | u
    · simp
    · rcases hy : validateArgs a with e | u <;> simp
theorem validateChunks_iff : ∀ cs : List Chunk, validateChunks cs = .ok () ↔ AllChunks NodeOk cs
  | [] => by simp [validateChunks, AllChunks]
  | c :: cs => by
    have h := validateChunks_iff cs
    have h' := Chunk.validate_iff c
    simp only [validateChunks, AllChunks, ← h, ← h']
    rcases hx : c.validate with e | u <;> simp
theorem validateArgs_iff : ∀ a : List (Str × Scope), validateArgs a = .ok () ↔ AllArgs NodeOk a
  | [] => by simp [validateArgs, AllArgs]
  | (p, s) :: r => by
    have h := validateArgs_iff r
    have h' := Scope.validate_iff s
    simp only [validateArgs, AllArgs, ← h, ← h']
    rcases hx : s.validate with e | u <;> simp
end

theorem numberedFrom_nil (n : Nat) : NumberedFrom n [] := by
  intro pre c post h; simp at h
theorem numberedFrom_cons (n : Nat) (c : Chunk) (cs : List Chunk) :
    NumberedFrom n (c :: cs) ↔ c.lineNo = n ∧ NumberedFrom (n + (c.lines - 1)) cs := by
  have hl : c.lines - 1 = c.display.count '\n' := by
    rw [Chunk.lines_eq, newlines_eq_count]; simp
  constructor
  · intro h
    refine ⟨by simpa using h [] c cs rfl, ?_⟩
    intro pre d post hd
    have := h (c :: pre) d post (by simp [hd])
    rw [this, displayChunks_cons, List.count_append, hl]; omega
  · rintro ⟨h1, h2⟩ pre d post hd
    cases pre with
    | nil => simp at hd; simp [← hd.1, h1]
    | cons x pre =>
      simp only [List.cons_append, List.cons.injEq] at hd
      obtain ⟨rfl, hd⟩ := hd
      rw [h2 pre d post hd, displayChunks_cons, List.count_append, hl]; omega

theorem numberedFrom_append (n : Nat) (a b : List Chunk) :
    NumberedFrom n (a ++ b) ↔ NumberedFrom n a ∧ NumberedFrom (n + newlines (displayChunks a)) b := by
  induction a generalizing n with
  | nil => simp [numberedFrom_nil]
  | cons c cs ih =>
    simp only [List.cons_append, numberedFrom_cons, ih, displayChunks_cons, newlines_append,
      Chunk.lines_eq, and_assoc, Nat.add_sub_cancel, Nat.add_assoc]

theorem validateFrom_iff (n : Nat) (d : List Chunk) :
    validateFrom n d = .ok () ↔ NumberedFrom n d ∧ AllChunks NodeOk d := by
  induction d generalizing n with
  | nil => simp [validateFrom, numberedFrom_nil, AllChunks]
  | cons c cs ih =>
    simp only [validateFrom, numberedFrom_cons, AllChunks]
    by_cases h : c.lineNo = n
    · have h' := Chunk.validate_iff c
      rcases hx : c.validate with e | u
      · simp [h, ← h', hx]
      · simp [h, ← h', hx, ih]
    · simp [h]

theorem validateSection_iff (d : List Chunk) : validateFrom 1 d = .ok () ↔ ValidSection d := by
  rw [validateFrom_iff, ValidSection, allChunks_iff]

theorem validate_iff (d : Document) : d.validate = .ok () ↔
    ValidSection d.preamable ∧ ValidSection d.body ∧ ValidSection d.trailing := by
  simp only [← validateSection_iff, Document.validate]
  rcases validateFrom 1 d.preamable with e | u
  · simp
  · rcases validateFrom 1 d.body with e | u <;> simp
end Ast3

end LatexAst
