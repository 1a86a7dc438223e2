import Verif.Spec.Paragraph
import Verif.Proofs.Lines
import Verif.Proofs.Tree
import Verif.Proofs.Valid
import Verif.Model.Conv3

/-!
# `Paragraph::from_chunks`: invariant of the character loop
-/

namespace LatexAst.Ast3
open Spec

theorem blank_append {a b : Str} : Blank (a ++ b) ↔ Blank a ∧ Blank b := by
  simp only [Blank, List.mem_append]
  constructor
  · intro h; exact ⟨fun c hc => h c (.inl hc), fun c hc => h c (.inr hc)⟩
  · rintro ⟨h1, h2⟩ c (hc | hc); exact h1 c hc; exact h2 c hc

theorem newlines_newline : newlines ['\n'] = 1 := rfl

theorem ws_newline : isWhitespace '\n' = true := by decide

theorem gap_append_left {a b : Str} (h : ParagraphGap a) : ParagraphGap (a ++ b) := by
  obtain ⟨x, w, y, rfl, hw⟩ := h
  exact ⟨x, w, y ++ b, by simp, hw⟩

theorem gap_append_right {a b : Str} (h : ParagraphGap b) : ParagraphGap (a ++ b) := by
  obtain ⟨x, w, y, rfl, hw⟩ := h
  exact ⟨a ++ x, w, y, by simp, hw⟩

theorem isBreak_gap {b : Str} (h : IsBreak b) : ParagraphGap b := by
  obtain ⟨⟨r, rfl⟩, h2, h3⟩ := h
  have : '\n' ∈ r := by
    have : 1 ≤ r.count '\n' := by simpa using h3
    exact List.count_pos_iff.1 this
  obtain ⟨w, y, rfl⟩ := List.append_of_mem this
  refine ⟨[], w, y, rfl, ?_⟩
  intro c hc; exact h2 c (by simp [hc])

/-- Adding one character. -/
theorem gap_snoc {a : Str} {c : Char} : ParagraphGap (a ++ [c]) ↔ ParagraphGap a ∨ (c = '\n' ∧ EndsInNewline a) := by
  constructor
  · rintro ⟨x, w, y, he, hw⟩
    rcases List.eq_nil_or_concat y with rfl | ⟨y', z, rfl⟩
    · have he' : a ++ [c] = (x ++ '\n' :: w) ++ ['\n'] := by rw [he]; simp
      have := List.append_inj' he' rfl
      right
      exact ⟨by simpa using this.2, x, w, this.1, hw⟩
    · have he' : a ++ [c] = (x ++ '\n' :: (w ++ '\n' :: y')) ++ [z] := by rw [he]; simp
      have := List.append_inj' he' rfl
      left; exact ⟨x, w, y', this.1, hw⟩
  · rintro (h | ⟨rfl, x, w, rfl, hw⟩)
    · exact gap_append_left h
    · exact ⟨x, w, [], by simp, hw⟩

theorem ends_snoc {a : Str} {c : Char} : EndsInNewline (a ++ [c]) ↔ c = '\n' ∨ (isWhitespace c = true ∧ EndsInNewline a) := by
  constructor
  · rintro ⟨x, w, he, hw⟩
    rcases List.eq_nil_or_concat w with rfl | ⟨w', z, rfl⟩
    · have := List.append_inj' he rfl
      left; simpa using this.2
    · have he' : a ++ [c] = (x ++ '\n' :: w') ++ [z] := by rw [he]; simp
      have := List.append_inj' he' rfl
      have hz : c = z := by simpa using this.2
      right
      refine ⟨hw c (by simp [hz]), x, w', this.1, fun d hd => hw d (by simp [hd])⟩
  · rintro (rfl | ⟨hc, x, w, rfl, hw⟩)
    · exact ⟨a, [], rfl, by intro c hc; cases hc⟩
    · refine ⟨x, w ++ [c], by simp, ?_⟩
      rw [blank_append]; exact ⟨hw, by intro d hd; simp at hd; subst hd; exact hc⟩

/-- By how much the break is numbered too late. -/
def breakLate (b : Str) : Nat := if 3 ≤ newlines b then newlines b - 1 else 0

/-- What is known about a chunk produced after `pre`, from a text on line `n`. -/
def Piece (n : Nat) (pre : List Chunk) : Chunk → Prop
  | .mk l (.text t) => l = n + newlines (displayChunks pre) ∧ IsParagraph t ∧
      ((∃ i l b, pre = i ++ [.mk l (.paragraphBreak b)]) ∧ StartsDark t ∨ pre = [])
  | .mk l (.paragraphBreak b) => l = n + newlines (displayChunks pre) + breakLate b ∧ IsBreak b ∧
      (pre = [] ∨ ∃ i l t, pre = i ++ [.mk l (.text t)] ∧ ¬ EndsInNewline t)
  | _ => False

inductive Pieces (n : Nat) : List Chunk → Prop
  | nil : Pieces n []
  | snoc {pre c} : Pieces n pre → Piece n pre c → Pieces n (pre ++ [c])

structure PInv (n : Nat) (p : Str) (s : ParState) : Prop where
  disp : displayChunks s.out ++ (s.textBuffer ++ s.buffer) = p
  line : s.lineNo = n + newlines p
  pieces : Pieces n s.out
  bnil : s.consec = 0 → s.buffer = []
  bcons : s.consec ≠ 0 → ∃ r, s.buffer = '\n' :: r
  bblank : Blank s.buffer
  bnl : newlines s.buffer = s.consec
  tnil : 2 ≤ s.consec → s.textBuffer = [] ∧ (s.out = [] ∨ ∃ i l t, s.out = i ++ [.mk l (.text t)] ∧ ¬ EndsInNewline t)
  tgap : ¬ ParagraphGap s.textBuffer
  tend : ¬ EndsInNewline s.textBuffer
  tline : s.consec ≤ 1 → s.textBufferLine = n + newlines (displayChunks s.out)
  tprev : s.consec ≤ 1 → s.out = [] ∨ ((∃ i l b, s.out = i ++ [.mk l (.paragraphBreak b)]) ∧ StartsDark s.textBuffer)
  bline : s.consec ≠ 0 → s.bufferLine = n + newlines (displayChunks s.out ++ s.textBuffer) + breakLate s.buffer

theorem ends_nil : ¬ EndsInNewline [] := by rintro ⟨a, w, h, _⟩; simp at h

theorem pinv_init (n : Nat) : PInv n [] (ParState.init n) := by
  constructor <;> simp [ParState.init, displayChunks, newlines, Pieces.nil, Blank, gap_nil, ends_nil]

theorem starts_append {t u : Str} (h : StartsDark t) : StartsDark (t ++ u) := by
  obtain ⟨c, r, rfl, h⟩ := h; exact ⟨c, r ++ u, by simp, h⟩

theorem ends_dark {a : Str} {c : Char} (h : isWhitespace c = false) : ¬ EndsInNewline (a ++ [c]) := by
  rw [ends_snoc]
  rintro (rfl | ⟨h', _⟩)
  · revert h; decide
  · rw [h] at h'; cases h'

theorem snoc_induction {α : Type} {P : List α → Prop} (h0 : P []) (h1 : ∀ l a, P l → P (l ++ [a])) (l : List α) : P l := by
  have : ∀ n, ∀ l : List α, l.length = n → P l := by
    intro n
    induction n with
    | zero => intro l hl; rw [List.length_eq_zero_iff.1 hl]; exact h0
    | succ n ih =>
      intro l hl
      rcases List.eq_nil_or_concat l with rfl | ⟨l', a, rfl⟩
      · exact h0
      · rw [List.concat_eq_append] at *
        exact h1 _ _ (ih l' (by simpa using hl))
  exact this _ l rfl

/-- A text that does not end in a newline, followed by one newline and blanks. -/
theorem gap_tail {t b : Str} (ht : ¬ ParagraphGap t) (he : ¬ EndsInNewline t) :
    newlines b ≤ 1 → Blank b → ¬ ParagraphGap (t ++ b) ∧ (newlines b = 0 → ¬ EndsInNewline (t ++ b)) := by
  refine snoc_induction (P := fun b => newlines b ≤ 1 → Blank b → ¬ ParagraphGap (t ++ b) ∧ (newlines b = 0 → ¬ EndsInNewline (t ++ b))) ?_ ?_ b
  · intro _ _; rw [List.append_nil]; exact ⟨ht, fun _ => he⟩
  · intro b c ih hb hbl
    rw [newlines_append] at hb
    rw [blank_append] at hbl
    obtain ⟨h1, h2⟩ := ih (by omega) hbl.1
    rw [← List.append_assoc, gap_snoc, ends_snoc, newlines_append]
    by_cases hc : c = '\n'
    · subst hc
      simp only [newlines_newline] at hb ⊢
      refine ⟨?_, by omega⟩
      rintro (h | ⟨_, h⟩)
      · exact h1 h
      · exact h2 (by omega) h
    · refine ⟨?_, ?_⟩
      · rintro (h | ⟨h, _⟩); exact h1 h; exact hc h
      · rintro h (h' | ⟨_, h'⟩)
        · exact hc h'
        · exact h2 (by omega) h'

theorem newlines_single {c : Char} (h : c ≠ '\n') : newlines [c] = 0 := by simp [newlines, h]

theorem blank_snoc {b : Str} {c : Char} (h : Blank b) (hc : isWhitespace c = true) : Blank (b ++ [c]) := by
  rw [blank_append]; exact ⟨h, by intro d hd; simp at hd; subst hd; exact hc⟩

theorem parStep_inv {n p s} (c : Char) (h : PInv n p s) : PInv n (p ++ [c]) (parStep s c) := by
  have hd := h.disp
  unfold parStep
  split
  · -- second newline
    rename_i hc
    obtain ⟨rfl, h1⟩ := hc
    have hout : Pieces n (if s.textBuffer.isEmpty then s.out else s.out ++ [.mk s.textBufferLine (.text s.textBuffer)]) ∧
        displayChunks (if s.textBuffer.isEmpty then s.out else s.out ++ [.mk s.textBufferLine (.text s.textBuffer)]) =
          displayChunks s.out ++ s.textBuffer ∧
        ((if s.textBuffer.isEmpty then s.out else s.out ++ [.mk s.textBufferLine (.text s.textBuffer)]) = [] ∨
          ∃ i l t, (if s.textBuffer.isEmpty then s.out else s.out ++ [.mk s.textBufferLine (.text s.textBuffer)]) =
            i ++ [.mk l (.text t)] ∧ ¬ EndsInNewline t) := by
      split
      · rename_i he
        have he' : s.textBuffer = [] := by simpa using he
        refine ⟨h.pieces, by simp [he'], ?_⟩
        rcases h.tprev (by omega) with h' | ⟨_, c, r, h', _⟩
        · exact .inl h'
        · rw [he'] at h'; cases h'
      · rename_i he
        have he' : s.textBuffer ≠ [] := by simpa using he
        refine ⟨.snoc h.pieces ⟨h.tline (by omega), ⟨he', h.tgap⟩, ?_⟩, ?_, .inr ⟨_, _, _, rfl, h.tend⟩⟩
        · rcases h.tprev (by omega) with h' | h'
          · exact .inr h'
          · exact .inl h'
        · simp [displayChunks_append, displayChunks, Chunk.display, ChunkVariant.display]
    obtain ⟨ho1, ho2, ho3⟩ := hout
    obtain ⟨r, hr⟩ := h.bcons (by omega)
    constructor
    · simp only [ho2]; rw [← hd]; simp
    · simp only [h.line, newlines_append, newlines_newline]; omega
    · exact ho1
    · intro h'; simp at h'
    · intro _; exact ⟨r ++ ['\n'], by simp [hr]⟩
    · exact blank_snoc h.bblank ws_newline
    · simp only [newlines_append, h.bnl, newlines_newline]
    · intro _; exact ⟨rfl, ho3⟩
    · exact gap_nil
    · exact ends_nil
    · intro h'; simp only at h'; omega
    · intro h'; simp only at h'; omega
    · intro _
      have := h.bline (by omega)
      have hb := h.bnl
      simp only [ho2]
      rw [this]
      have e1 : breakLate s.buffer = 0 := by simp [breakLate]; omega
      have e2 : breakLate (s.buffer ++ ['\n']) = 0 := by
        simp only [breakLate, newlines_append, newlines_newline]; split <;> omega
      rw [e1, e2]; simp
  · rename_i hn1
    split
    · -- another newline
      rename_i hc
      subst hc
      have hn : s.consec ≠ 1 := fun h => hn1 ⟨rfl, h⟩
      constructor
      · simp only; rw [← hd]; simp
      · simp only [h.line, newlines_append, newlines_newline]; omega
      · exact h.pieces
      · intro h'; simp at h'
      · intro _
        by_cases h0 : s.consec = 0
        · exact ⟨[], by simp [h.bnil h0]⟩
        · obtain ⟨r, hr⟩ := h.bcons h0; exact ⟨r ++ ['\n'], by simp [hr]⟩
      · exact blank_snoc h.bblank ws_newline
      · simp only [newlines_append, h.bnl, newlines_newline]
      · intro h'; simp only at h'; exact h.tnil (by omega)
      · exact h.tgap
      · exact h.tend
      · intro h'; simp only at h'; exact h.tline (by omega)
      · intro h'; simp only at h'; exact h.tprev (by omega)
      · intro _
        simp only [h.line]
        have hb := h.bnl
        have hp : newlines p = newlines (displayChunks s.out) + (newlines s.textBuffer + newlines s.buffer) := by
          rw [← hd]; simp
        rw [hp, newlines_append]
        simp only [breakLate, newlines_append, newlines_newline, hb]
        split <;> omega
    · rename_i hc
      have hnl : newlines [c] = 0 := newlines_single hc
      split
      · -- whitespace in a text
        rename_i hw
        obtain ⟨hw, h0⟩ := hw
        have hb := h.bnil h0
        constructor
        · simp only; rw [← hd, hb]; simp
        · simp only [h.line, newlines_append, hnl]; omega
        · exact h.pieces
        · exact fun _ => hb
        · exact fun h' => absurd h0 h'
        · exact h.bblank
        · exact h.bnl
        · intro h'; simp only at h'; omega
        · simp only [gap_snoc]; rintro (h' | ⟨h', _⟩); exact h.tgap h'; exact hc h'
        · simp only [ends_snoc]; rintro (h' | ⟨_, h'⟩); exact hc h'; exact h.tend h'
        · exact h.tline
        · intro h'; rcases h.tprev h' with h'' | ⟨h1, h2⟩
          · exact .inl h''
          · exact .inr ⟨h1, starts_append h2⟩
        · exact fun h' => absurd h0 h'
      · rename_i hw0
        split
        · -- whitespace after a newline
          rename_i hw
          have h0 : s.consec ≠ 0 := fun h => hw0 ⟨hw, h⟩
          obtain ⟨r, hr⟩ := h.bcons h0
          constructor
          · simp only; rw [← hd]; simp
          · simp only [h.line, newlines_append, hnl]; omega
          · exact h.pieces
          · exact fun h' => absurd h' h0
          · exact fun _ => ⟨r ++ [c], by simp [hr]⟩
          · exact blank_snoc h.bblank hw
          · simp only [newlines_append, hnl, h.bnl]; omega
          · exact h.tnil
          · exact h.tgap
          · exact h.tend
          · exact h.tline
          · exact h.tprev
          · intro h'
            have := h.bline h'
            simpa [breakLate, hnl] using this
        · rename_i hw
          have hdark : isWhitespace c = false := by simpa using hw
          split
          · -- a character in a text
            rename_i h0
            have hb := h.bnil h0
            constructor
            · simp only; rw [← hd, hb]; simp
            · simp only [h.line, newlines_append, hnl]; omega
            · exact h.pieces
            · exact fun _ => hb
            · exact fun h' => absurd h0 h'
            · exact h.bblank
            · exact h.bnl
            · intro h'; simp only at h'; omega
            · simp only [gap_snoc]; rintro (h' | ⟨h', _⟩); exact h.tgap h'; exact hc h'
            · exact ends_dark hdark
            · intro _
              simp only
              split
              · rename_i he
                have he' : s.textBuffer = [] := by simpa using he
                rw [h.line, ← hd, he', hb]; simp
              · exact h.tline (by omega)
            · intro h'; rcases h.tprev h' with h'' | ⟨h1, h2⟩
              · exact .inl h''
              · exact .inr ⟨h1, starts_append h2⟩
            · exact fun h' => absurd h0 h'
          · rename_i h0
            split
            · -- one newline before
              rename_i h1
              obtain ⟨hg, _⟩ := gap_tail h.tgap h.tend (b := s.buffer) (by rw [h.bnl]; omega) h.bblank
              constructor
              · simp only; rw [← hd]; simp
              · simp only [h.line, newlines_append, hnl]; omega
              · exact h.pieces
              · exact fun _ => rfl
              · exact fun h' => absurd rfl h'
              · intro c hc; cases hc
              · rfl
              · intro h'; simp only at h'; omega
              · simp only [gap_snoc]; rintro (h' | ⟨h', _⟩); exact hg h'; exact hc h'
              · exact ends_dark hdark
              · intro _
                simp only
                split
                · rename_i he
                  have he' : s.textBuffer = [] := by simpa using he
                  rw [h.bline h0, he']
                  have : breakLate s.buffer = 0 := by simp [breakLate, h.bnl, h1]
                  simp [this]
                · exact h.tline (by omega)
              · intro _
                rcases h.tprev (by omega) with h'' | ⟨h1, h2⟩
                · exact .inl h''
                · refine .inr ⟨h1, ?_⟩
                  simp only [List.append_assoc]
                  exact starts_append h2
              · exact fun h' => absurd rfl h'
            · -- a break before
              rename_i h1
              obtain ⟨ht, hp⟩ := h.tnil (by omega)
              have hp' : Piece n s.out (.mk s.bufferLine (.paragraphBreak s.buffer)) := by
                refine ⟨?_, ⟨h.bcons h0, h.bblank, ?_⟩, hp⟩
                · have := h.bline h0; rw [ht] at this; simpa using this
                · rw [← newlines_eq_count, h.bnl]; omega
              constructor
              · simp only; rw [← hd]; simp [ht, displayChunks_append, displayChunks, Chunk.display, ChunkVariant.display]
              · simp only [h.line, newlines_append, hnl]; omega
              · exact .snoc h.pieces hp'
              · exact fun _ => rfl
              · exact fun h' => absurd rfl h'
              · intro c hc; cases hc
              · rfl
              · intro h'; simp only at h'; omega
              · simp only [gap_snoc, ht]; rintro (h' | ⟨h', _⟩); exact gap_nil h'; exact hc h'
              · exact ends_dark hdark
              · intro _
                simp only [h.line]
                rw [← hd, ht]; simp [displayChunks_append, displayChunks, Chunk.display, ChunkVariant.display]
              · intro _
                exact .inr ⟨⟨_, _, _, rfl⟩, by rw [ht]; exact ⟨c, [], rfl, hdark⟩⟩
              · exact fun h' => absurd rfl h'

theorem parRun_inv {n : Nat} (t : Str) {p s} (h : PInv n p s) : PInv n (p ++ t) (parRun t s) := by
  induction t generalizing p s with
  | nil => simpa [parRun] using h
  | cons c t ih =>
    have := ih (parStep_inv c h)
    simpa [parRun] using this

/-- What is known about the pieces of one text. -/
theorem parFinish_spec {n p s} (h : PInv n p s) : Pieces n (parFinish s) ∧ displayChunks (parFinish s) = p := by
  have hd := h.disp
  have text : s.consec ≤ 1 → s.textBuffer ++ s.buffer ≠ [] →
      Piece n s.out (.mk s.textBufferLine (.text (s.textBuffer ++ s.buffer))) := by
    intro h1 h2
    obtain ⟨hg, _⟩ := gap_tail h.tgap h.tend (b := s.buffer) (by rw [h.bnl]; omega) h.bblank
    refine ⟨h.tline h1, ⟨h2, hg⟩, ?_⟩
    rcases h.tprev h1 with h' | ⟨h3, h4⟩
    · exact .inr h'
    · exact .inl ⟨h3, starts_append h4⟩
  unfold parFinish
  by_cases hb : s.buffer = []
  · have h0 : s.consec = 0 := by rw [← h.bnl, hb]; rfl
    by_cases ht : s.textBuffer = []
    · simp [hb, ht, h.pieces]
      rw [← hd, hb, ht]; simp
    · have := text (by omega) (by simp [ht])
      rw [hb] at this
      simp only [hb, ht, List.isEmpty_nil, Bool.true_eq_false, if_false, List.isEmpty_iff, List.append_nil]
      rw [if_pos (by simpa using ht)]
      refine ⟨.snoc h.pieces (by simpa using this), ?_⟩
      rw [← hd, hb]; simp [displayChunks_append, displayChunks, Chunk.display, ChunkVariant.display]
  · rw [if_pos (by simpa using hb)]
    split
    · rename_i hc
      obtain ⟨ht, hp⟩ := h.tnil hc
      have h0 : s.consec ≠ 0 := by omega
      refine ⟨.snoc h.pieces ⟨?_, ⟨h.bcons h0, h.bblank, ?_⟩, hp⟩, ?_⟩
      · have := h.bline h0; rw [ht] at this; simpa using this
      · rw [← newlines_eq_count, h.bnl]; omega
      · rw [← hd, ht]; simp [displayChunks_append, displayChunks, Chunk.display, ChunkVariant.display]
    · rename_i hc
      have := text (by omega) (by simp [hb])
      simp only
      rw [if_neg (by simp [hb])]
      refine ⟨.snoc h.pieces this, ?_⟩
      rw [← hd]; simp [displayChunks_append, displayChunks, Chunk.display, ChunkVariant.display]

theorem paragraphChunk_text (l : Nat) (t : Str) :
    Pieces l (paragraphChunk (.mk l (.text t))) ∧ displayChunks (paragraphChunk (.mk l (.text t))) = t := by
  have := parFinish_spec (parRun_inv t (pinv_init l))
  simpa [paragraphChunk] using this

theorem pieces_iff {n cs} : Pieces n cs ↔ ∀ pre c post, cs = pre ++ c :: post → Piece n pre c := by
  constructor
  · intro h
    induction h with
    | nil => intro pre c post he; simp at he
    | @snoc p x h1 h2 ih =>
      intro pre c post he
      rcases List.eq_nil_or_concat post with rfl | ⟨post', z, rfl⟩
      · have := List.append_inj' he rfl
        obtain ⟨rfl, h3⟩ := this
        simp at h3; subst h3; exact h2
      · rw [List.concat_eq_append] at he
        have he' : p ++ [x] = (pre ++ c :: post') ++ [z] := by rw [he]; simp
        exact ih pre c post' (List.append_inj' he' rfl).1
  · intro h
    revert h
    refine snoc_induction (P := fun cs => (∀ pre c post, cs = pre ++ c :: post → Piece n pre c) → Pieces n cs) ?_ ?_ cs
    · intro _; exact .nil
    · intro l a ih h
      exact .snoc (ih fun pre c post he => h pre c (post ++ [a]) (by simp [he])) (h l a [] rfl)

/-- A paragraph is not split. -/
theorem paragraphChunk_paragraph {l : Nat} {t : Str} (h : IsParagraph t) :
    paragraphChunk (.mk l (.text t)) = [.mk l (.text t)] := by
  obtain ⟨h1, h2⟩ := paragraphChunk_text l t
  rw [pieces_iff] at h1
  generalize paragraphChunk (.mk l (.text t)) = cs at *
  cases cs with
  | nil => simp [displayChunks] at h2; exact absurd h2 h.1
  | cons c cs =>
    have hc := h1 [] c cs rfl
    obtain ⟨l', v⟩ := c
    have nobreak : ∀ a l b r, .mk l' v :: cs = a ++ .mk l (.paragraphBreak b) :: r → False := by
      intro a l0 b r he
      have hp := (h1 a _ r he).2.1
      apply h.2
      rw [← h2, he]
      rw [displayChunks_append, displayChunks]
      exact gap_append_right (gap_append_left (isBreak_gap hp))
    cases v with
    | text t' =>
      cases cs with
      | nil =>
        simp only [displayChunks, Chunk.display, ChunkVariant.display, List.append_nil] at h2
        subst h2
        have := hc.1
        simp [displayChunks, newlines] at this
        rw [this]
      | cons c2 cs =>
        exfalso
        obtain ⟨l2, v2⟩ := c2
        cases v2 with
        | text t2 =>
          have := (h1 [.mk l' (.text t')] _ cs rfl).2.2
          rcases this with ⟨⟨i, x, b, he⟩, _⟩ | he
          · have := List.append_inj' (show [] ++ [Chunk.mk l' (.text t')] = i ++ [.mk x (.paragraphBreak b)] from he) rfl
            simp at this
          · cases he
        | paragraphBreak b => exact nobreak [.mk l' (.text t')] l2 b cs rfl
        | _ => exact (h1 [.mk l' (.text t')] _ cs rfl)
    | paragraphBreak b => exact (nobreak [] l' b cs rfl).elim
    | _ => exact hc.elim

/-- Splitting what is already split. -/
theorem paragraphs_id {cs : List Chunk} (h : ∀ l t, .mk l (.text t) ∈ cs → IsParagraph t) : paragraphs cs = cs := by
  induction cs with
  | nil => rfl
  | cons c cs ih =>
    rw [paragraphs, ih fun l t hm => h l t (by simp [hm])]
    obtain ⟨l, v⟩ := c
    cases v with
    | text t => rw [paragraphChunk_paragraph (h l t (by simp))]; rfl
    | _ => rfl

theorem paragraphs_mem {cs : List Chunk} {c} (h : c ∈ paragraphs cs) : ∃ c0 ∈ cs, c ∈ paragraphChunk c0 := by
  induction cs with
  | nil => cases h
  | cons x cs ih =>
    rw [paragraphs, List.mem_append] at h
    rcases h with h | h
    · exact ⟨x, by simp, h⟩
    · obtain ⟨c0, h1, h2⟩ := ih h; exact ⟨c0, by simp [h1], h2⟩

theorem paragraphChunk_mem {c c0 : Chunk} (h : c ∈ paragraphChunk c0) :
    (c = c0 ∧ ∀ t, c0.variant ≠ .text t) ∨
    ∃ l t, c0 = .mk l (.text t) ∧ ((∃ l' t', c = .mk l' (.text t') ∧ IsParagraph t') ∨
      (∃ l' b, c = .mk l' (.paragraphBreak b) ∧ IsBreak b)) := by
  obtain ⟨l, v⟩ := c0
  cases v with
  | text t =>
    right
    refine ⟨l, t, rfl, ?_⟩
    obtain ⟨pre, post, he⟩ := List.append_of_mem h
    have := pieces_iff.1 (paragraphChunk_text l t).1 pre c post he
    obtain ⟨l', v⟩ := c
    cases v with
    | text t' => exact .inl ⟨l', t', rfl, this.2.1⟩
    | paragraphBreak b => exact .inr ⟨l', b, rfl, this.2.1⟩
    | _ => exact this.elim
  | _ => left; simp only [paragraphChunk, List.mem_singleton] at h; exact ⟨h, by simp [Chunk.variant]⟩

theorem paragraphs_append (a b : List Chunk) : paragraphs (a ++ b) = paragraphs a ++ paragraphs b := by
  induction a with
  | nil => rfl
  | cons c a ih => simp [paragraphs, ih]

theorem paragraphs_text_ok {cs : List Chunk} {l t} (h : .mk l (.text t) ∈ paragraphs cs) : IsParagraph t := by
  obtain ⟨c0, _, h2⟩ := paragraphs_mem h
  rcases paragraphChunk_mem h2 with ⟨rfl, h3⟩ | ⟨_, _, _, ⟨l', t', he, ht⟩ | ⟨l', b, he, _⟩⟩
  · exact absurd rfl (h3 t)
  · cases he; exact ht
  · cases he

theorem paragraphs_idem (cs : List Chunk) : paragraphs (paragraphs cs) = paragraphs cs :=
  paragraphs_id fun _ _ h => paragraphs_text_ok h

theorem display_paragraphs (cs : List Chunk) : displayChunks (paragraphs cs) = displayChunks cs := by
  induction cs with
  | nil => rfl
  | cons c cs ih =>
    rw [paragraphs, displayChunks_append, ih, displayChunks]
    congr 1
    obtain ⟨l, v⟩ := c
    cases v with
    | text t => rw [(paragraphChunk_text l t).2]; rfl
    | _ => simp [paragraphChunk, displayChunks]

end LatexAst.Ast3
