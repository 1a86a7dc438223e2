import Verif.Spec.Chars
import Verif.Props.Parsing
import Verif.Props.Grammar
import Verif.Props.ParagraphRule

/-! # C59: which characters form command names, and which are blank -/

namespace LatexAst
open Spec

theorem char_eq_iff (a b : Char) : a = b ↔ a.toNat = b.toNat := by
  constructor
  · rintro rfl; rfl
  · intro h; exact Char.ext (UInt32.toNat_inj.1 h)

/-- C59: the letters are the 52 of the list. -/
theorem C59_letter (c : Char) : isAsciiAlphabetic c = true ↔ c ∈ letters := by
  simp only [letters, List.mem_cons, List.not_mem_nil, or_false, char_eq_iff, Char.reduceToNat]
  simp only [isAsciiAlphabetic, Bool.or_eq_true, Bool.and_eq_true, decide_eq_true_eq]
  omega

/-- C59: the blanks are the 25 of the list. -/
theorem C59_blank (c : Char) : isWhitespace c = true ↔ c ∈ blanks := by
  simp only [blanks, List.mem_cons, List.not_mem_nil, or_false, char_eq_iff, Char.reduceToNat]
  simp only [isWhitespace, Bool.or_eq_true, Bool.and_eq_true, decide_eq_true_eq, beq_iff_eq]
  omega

end LatexAst

namespace LatexAst.Ast1
open Spec

/-- C59: a backslash and two characters or more read as one command of that name exactly if the first is a letter
and the others are neither blank nor special. -/
theorem C59_name (c : Char) (s : Str) (hs : s ≠ []) :
    fromStr ('\\' :: c :: s) = .ok [.mk 1 (.command (.mk (c :: s) []))] ↔
      c ∈ letters ∧ ∀ x ∈ s, x ∉ blanks ∧ x ∉ ['\\', '%', '{', '[', '(', '}', ']', ')'] := by
  have hsp : ∀ x : Char, ¬ Special x ↔ x ∉ ['\\', '%', '{', '[', '(', '}', ']', ')'] := by
    intro x
    simp only [Special, List.mem_cons, List.not_mem_nil, or_false]
    grind
  simp only [← C59_letter, ← C59_blank, ← hsp, Bool.not_eq_true]
  constructor
  · intro h
    rcases (C09 _ _ h _ .top).2.2.1 1 (c :: s) [] (by simp) with ⟨⟨c', r, he, h1, h2⟩, _⟩ | ⟨c', he, _⟩
    · cases he; exact ⟨h1, h2⟩
    · simp at he; exact absurd he.2 hs
  · rintro ⟨h1, h2⟩
    have hself : SelfContained ('\\' :: c :: s) := by
      refine ⟨?_, ?_⟩
      · simp only [stripComments]
        rw [strip_of (fun h => (h2 _ h).2 (by simp [Special])) (fun h => (h2 _ h).2 (by simp [Special]))]
      · simp only [NoDangling]
        exact nodangling_of fun h => (h2 _ h).2 (by simp [Special])
    refine (C51 _ hself _).2 ?_
    have := Reads.lastCommand (l := 1) (name := c :: s) (w := []) (g := []) (k := []) (items := [])
      ⟨c, s, rfl, h1, h2⟩ .none .nil (by simp)
    simpa [commandOutcome, argOutcome, Outcome.after] using this
where
  strip_of {s : Str} (h : '%' ∉ s) (h' : '\\' ∉ s) : stripComments s = s := by
    induction s with
    | nil => simp [stripComments]
    | cons c s ih =>
      simp only [List.mem_cons, not_or] at h h'
      have := ih h.2 h'.2
      unfold stripComments
      split <;> simp_all
  nodangling_of {s : Str} (h : '\\' ∉ s) : NoDangling s := by
    induction s with
    | nil => simp [NoDangling]
    | cons c s ih =>
      simp only [List.mem_cons, not_or] at h
      have := ih h.2
      unfold NoDangling
      split <;> simp_all

/-- Both sides hold of `\\x1`, neither of `\\1x`. -/
example : fromStr chars!"\\x1" = .ok [.mk 1 (.command (.mk chars!"x1" []))] ∧
    fromStr chars!"\\1x" ≠ .ok [.mk 1 (.command (.mk chars!"1x" []))] :=
  ⟨(C59_name 'x' ['1'] (by simp)).2 (by decide), fun h => absurd ((C59_name '1' ['x'] (by simp)).1 h).1 (by decide)⟩

end LatexAst.Ast1

namespace LatexAst.Ast3
open Spec

/-- C59: a text is broken into paragraphs exactly if somewhere in it there are two newlines with only blanks of the
list between them. -/
theorem C59_break (n : Nat) (t : Str) : (∃ l b, .mk l (.paragraphBreak b) ∈ paragraphs [.mk n (.text t)]) ↔
    ∃ x w y, t = x ++ '\n' :: (w ++ '\n' :: y) ∧ ∀ c ∈ w, c ∈ blanks := by
  have hd : displayChunks (paragraphs [.mk n (.text t)]) = t := by
    rw [C31]; simp [displayChunks, Chunk.display, ChunkVariant.display]
  have hg : (∃ x w y, t = x ++ '\n' :: (w ++ '\n' :: y) ∧ ∀ c ∈ w, c ∈ blanks) ↔ ParagraphGap t := by
    simp only [← C59_blank]; rfl
  rw [hg]
  constructor
  · rintro ⟨l, b, hm⟩
    rcases (C32 _).2 l b hm with h | h
    · obtain ⟨p, q, he⟩ := List.append_of_mem hm
      rw [he, displayChunks_append, displayChunks_cons] at hd
      rw [← hd]
      exact gap_append_right (gap_append_left (isBreak_gap h))
    · simp at h
  · intro h
    have hc := C32_cut n t
    generalize paragraphs [.mk n (.text t)] = out at *
    have hv : ∀ s, ChunkVariant.paragraphBreak s ∈ out.map Chunk.variant → ∃ l b, Chunk.mk l (.paragraphBreak b) ∈ out := by
      intro s hs
      obtain ⟨⟨l, v⟩, h1, rfl⟩ := List.mem_map.1 hs
      exact ⟨l, _, h1⟩
    generalize hg : out.map Chunk.variant = vs at *
    cases hc with
    | nil =>
      simp at hg; subst hg; subst hd
      obtain ⟨x, w, y, he, _⟩ := h
      simp [displayChunks] at he
    | last h1 h2 =>
      obtain ⟨⟨l, v⟩, r, rfl, rfl, hr⟩ := List.map_eq_cons_iff.1 hg
      simp at hr; subst hr
      rw [← hd] at h
      rename_i h' _
      simp [displayChunks, Chunk.display, ChunkVariant.display] at h
      exact absurd h h1.2
    | text => exact hv _ (.tail _ (.head _))
    | «break» => exact hv _ (.head _)

/-- A no-break space between the newlines counts as blank. -/
example : ∃ l b, .mk l (.paragraphBreak b) ∈ paragraphs [.mk 1 (.text ['a', '\n', '\u00a0', '\n', 'b'])] :=
  (C59_break 1 _).2 ⟨['a'], ['\u00a0'], ['b'], rfl, by decide⟩

end LatexAst.Ast3
