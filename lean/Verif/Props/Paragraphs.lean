import Verif.Proofs.Paragraph
import Verif.Model.Eq3
import Verif.Model.Fidelity

/-!
# Stage 3: paragraphs (C31–C34)

`paragraphs` is `Paragraph::from_chunks`. Stated with `Verif.Spec.Paragraph` and `Verif.Spec.Valid`.
-/

namespace LatexAst.Ast3
open Spec

/-- A text with paragraphs. -/
def exampleText : Str := chars!"a \n b\n \n\n c\n\nd\n"

/-- C31: splitting prints the same. -/
theorem C31 (cs : List Chunk) : displayChunks (paragraphs cs) = displayChunks cs := display_paragraphs cs

/-- C31: each text is replaced by texts and paragraph breaks that print as it did, every other chunk stays
as it is, in the same order. -/
theorem C31_chunks (cs : List Chunk) : ∃ f : Chunk → List Chunk, paragraphs cs = cs.flatMap f ∧
    (∀ l v, (∀ t, v ≠ .text t) → f (.mk l v) = [.mk l v]) ∧
    (∀ l t, displayChunks (f (.mk l (.text t))) = t ∧
      ∀ c ∈ f (.mk l (.text t)), (∃ t', c.variant = .text t') ∨ ∃ b, c.variant = .paragraphBreak b) := by
  refine ⟨paragraphChunk, ?_, ?_, ?_⟩
  · induction cs with
    | nil => rfl
    | cons c cs ih => rw [paragraphs, ih, List.flatMap_cons]
  · intro l v hv
    cases v with
    | text t => exact absurd rfl (hv t)
    | _ => rfl
  · intro l t
    refine ⟨(paragraphChunk_text l t).2, ?_⟩
    intro c hc
    rcases paragraphChunk_mem hc with ⟨rfl, h⟩ | ⟨_, _, _, ⟨l', t', rfl, _⟩ | ⟨l', b, rfl, _⟩⟩
    · exact .inl ⟨t, rfl⟩
    · exact .inl ⟨t', rfl⟩
    · exact .inr ⟨b, rfl⟩

example : paragraphs [.mk 1 (.text exampleText), .mk 8 (.command (.mk chars!"x" []))] =
    [.mk 1 (.text chars!"a \n b"), .mk 4 (.paragraphBreak chars!"\n \n\n "), .mk 5 (.text chars!"c"),
     .mk 5 (.paragraphBreak chars!"\n\n"), .mk 7 (.text chars!"d\n"), .mk 8 (.command (.mk chars!"x" []))] := by
  decide +kernel

/-- C32: the texts of the result are not empty and contain no two newlines with only whitespace between them;
breaks are blank, contain two newlines or more and start at a newline (breaks that were there before are left
as they are). -/
theorem C32 (cs : List Chunk) :
    (∀ l t, .mk l (.text t) ∈ paragraphs cs → t ≠ [] ∧ ¬ ParagraphGap t) ∧
    (∀ l b, .mk l (.paragraphBreak b) ∈ paragraphs cs →
      ((∃ r, b = '\n' :: r) ∧ Blank b ∧ 2 ≤ b.count '\n') ∨ .mk l (.paragraphBreak b) ∈ cs) := by
  refine ⟨fun l t h => paragraphs_text_ok h, ?_⟩
  intro l b h
  obtain ⟨c0, h1, h2⟩ := paragraphs_mem h
  rcases paragraphChunk_mem h2 with ⟨rfl, h3⟩ | ⟨_, _, _, ⟨l', t', he, ht⟩ | ⟨l', b', he, hb⟩⟩
  · exact .inr h1
  · cases he
  · cases he; exact .inl hb

theorem pieces_cut {n cs} (h : Pieces n cs) : Cut false (cs.map Chunk.variant) := by
  -- the pieces after a given prefix
  have key : ∀ post pre, (∀ p c q, pre ++ post = p ++ c :: q → Piece n p c) →
      ((pre = [] → Cut false (post.map Chunk.variant)) ∧
       ((∃ i l b, pre = i ++ [.mk l (.paragraphBreak b)]) → Cut true (post.map Chunk.variant)) ∧
       ((∃ i l t, pre = i ++ [.mk l (.text t)]) → post = [] ∨ ∃ l b r, post = .mk l (.paragraphBreak b) :: r ∧
          IsBreak b ∧ (∀ i l t, pre = i ++ [.mk l (.text t)] → ¬ EndsInNewline t) ∧ Cut true (r.map Chunk.variant))) := by
    intro post
    induction post with
    | nil => intro pre _; exact ⟨fun _ => .nil, fun _ => .nil, fun _ => .inl rfl⟩
    | cons c post ih =>
      intro pre hp
      obtain ⟨l, v⟩ := c
      have h1 := hp pre _ post rfl
      have h2 := ih (pre ++ [.mk l v]) (by intro p c q he; exact hp p c q (by rw [← he]; simp))
      cases v with
      | text t =>
        obtain ⟨hl, ht, hprev⟩ := h1
        have hcut : ∀ b, (b = true → StartsDark t) → Cut b ((Chunk.mk l (.text t) :: post).map Chunk.variant) := by
          intro b hb
          rcases h2.2.2 ⟨pre, l, t, rfl⟩ with rfl | ⟨l', b', r, rfl, h3, h4, h5⟩
          · exact .last ht hb
          · exact .text ht hb (h4 pre l t rfl) h3 h5
        refine ⟨fun _ => hcut false (by simp), ?_, ?_⟩
        · rintro ⟨i, l', b, rfl⟩
          rcases hprev with ⟨_, hd⟩ | h'
          · exact hcut true fun _ => hd
          · simp at h'
        · rintro ⟨i, l', t', rfl⟩
          exfalso
          rcases hprev with ⟨⟨i', l'', b, he⟩, _⟩ | h'
          · have := List.append_inj' he rfl; simp at this
          · simp at h'
      | paragraphBreak b =>
        obtain ⟨hl, hb, hprev⟩ := h1
        have hr := h2.2.1 ⟨pre, l, b, rfl⟩
        refine ⟨fun _ => .break hb hr, ?_, ?_⟩
        · rintro ⟨i, l', b', rfl⟩
          exfalso
          rcases hprev with h' | ⟨i', l'', t, he, _⟩
          · simp at h'
          · have := List.append_inj' he rfl; simp at this
        · rintro ⟨i, l', t', rfl⟩
          right
          refine ⟨l, b, post, rfl, hb, ?_, hr⟩
          intro i2 l2 t2 he
          rcases hprev with h' | ⟨i', l'', t, he', ht⟩
          · simp at h'
          · have e1 := (List.append_inj' he rfl).2
            have e2 := (List.append_inj' he' rfl).2
            simp at e1 e2
            obtain ⟨_, rfl⟩ := e2
            rw [← e1.2]; exact ht
      | _ => exact h1.elim
  exact (key cs [] (pieces_iff.1 h)).1 rfl

/-- C32: one text is cut into alternating paragraphs and breaks, the breaks as long as they can be. -/
theorem C32_cut (l : Nat) (t : Str) : Cut false ((paragraphs [.mk l (.text t)]).map Chunk.variant) := by
  have := pieces_cut (paragraphChunk_text l t).1
  simpa [paragraphs] using this

/-- The text of a sequence of variants. -/
def textOf : List ChunkVariant → Str
  | [] => []
  | v :: vs => v.display ++ textOf vs

theorem append_cases {a b c d : Str} (h : a ++ b = c ++ d) :
    (a = c ∧ b = d) ∨ (∃ u, u ≠ [] ∧ c = a ++ u ∧ b = u ++ d) ∨ ∃ u, u ≠ [] ∧ a = c ++ u ∧ d = u ++ b := by
  rcases List.append_eq_append_iff.1 h with ⟨u, h1, h2⟩ | ⟨u, h1, h2⟩
  · cases u with
    | nil => left; simp at h1 h2; exact ⟨h1.symm, h2⟩
    | cons x u => exact .inr (.inl ⟨x :: u, by simp, h1, h2⟩)
  · cases u with
    | nil => left; simp at h1 h2; exact ⟨h1, h2.symm⟩
    | cons x u => exact .inr (.inr ⟨x :: u, by simp, h1, h2⟩)

/-- A proper, non-empty prefix of a break ends in a newline and blanks. -/
theorem break_prefix {a u v : Str} (hu : u ≠ []) (h : IsBreak (u ++ v)) : EndsInNewline (a ++ u) := by
  obtain ⟨⟨r, hr⟩, hb, _⟩ := h
  cases u with
  | nil => exact absurd rfl hu
  | cons x u =>
    simp at hr
    rw [hr.1]
    exact ⟨a, u, rfl, fun c hc => hb c (by simp [hc])⟩

theorem dark_cut {r} (h : Cut true r) : r = [] ∨ StartsDark (textOf r) := by
  cases h with
  | nil => exact .inl rfl
  | last _ h => exact .inr (by simpa [textOf, ChunkVariant.display] using h rfl)
  | text _ h => exact .inr (by simpa [textOf, ChunkVariant.display] using starts_append (h rfl))

/-- Two breaks followed by what can follow a break. -/
theorem break_unique {s s' : Str} {r r' : List ChunkVariant} (hs : IsBreak s) (hs' : IsBreak s') (hr : Cut true r) (hr' : Cut true r')
    (h : s ++ textOf r = s' ++ textOf r') : s = s' ∧ textOf r = textOf r' := by
  have no : ∀ {s s' u : Str} {r : List ChunkVariant} {x : Str}, IsBreak s' → Cut true r → u ≠ [] → s' = s ++ u → textOf r = u ++ x → False := by
    intro s s' u r x hs' hr hu h1 h2
    cases u with
    | nil => exact hu rfl
    | cons c u =>
      rcases dark_cut hr with rfl | ⟨d, q, hd, hw⟩
      · simp [textOf] at h2
      · rw [h2] at hd
        simp at hd
        have := hs'.2.1 c (by simp [h1])
        rw [hd.1, hw] at this
        cases this
  rcases append_cases h with h | ⟨u, h1, h2, h3⟩ | ⟨u, h1, h2, h3⟩
  · exact h
  · exact (no hs' hr h1 h2 h3).elim
  · exact (no hs hr' h1 h2 h3).elim

/-- C32: the cut of a text is unique, so `C32_cut` determines the result (up to line numbers, see C34). -/
theorem C32_unique {b : Bool} {xs ys : List ChunkVariant} (hx : Cut b xs) (hy : Cut b ys)
    (h : textOf xs = textOf ys) : xs = ys := by
  have lastText : ∀ {t t' s' : Str} {x : Str}, IsParagraph t → IsBreak s' → t = t' ++ (s' ++ x) → False := by
    intro t t' s' x ht hs he
    exact ht.2 (by rw [he]; exact gap_append_right (gap_append_left (isBreak_gap hs)))
  have textText : ∀ {t t' s u : Str} {x y : Str}, IsParagraph t' → ¬ EndsInNewline t' → IsBreak s → u ≠ [] → t' = t ++ u →
      s ++ x = u ++ y → False := by
    intro t t' s u x y ht he hs hu h1 h2
    rcases append_cases h2 with ⟨h3, _⟩ | ⟨v, _, h3, _⟩ | ⟨v, _, h3, _⟩
    · exact lastText (t' := t) ht hs (x := []) (by rw [h1, h3]; simp)
    · exact lastText ht hs (x := v) (by rw [h1, h3])
    · exact he (by rw [h1]; exact break_prefix hu (h3 ▸ hs))
  have textBreak : ∀ {t s x y : Str}, IsParagraph t → ¬ EndsInNewline t → IsBreak s → t ++ x = s ++ y → False := by
    intro t s x y ht he hs h
    rcases append_cases h with ⟨h3, _⟩ | ⟨v, _, h3, _⟩ | ⟨v, _, h3, _⟩
    · exact lastText ht hs (t' := []) (x := []) (by simpa using h3)
    · exact he (by have := break_prefix (a := []) ht.1 (h3 ▸ hs); simpa using this)
    · exact lastText ht hs (t' := []) (x := v) (by simpa using h3)
  induction hx generalizing ys with
  | nil =>
    cases hy with
    | nil => rfl
    | last ht => simp [textOf, ChunkVariant.display] at h; exact absurd h ht.1
    | text ht => simp [textOf, ChunkVariant.display] at h; exact absurd h.1 ht.1
    | «break» hs => simp [textOf, ChunkVariant.display] at h; obtain ⟨⟨r, hr⟩, _⟩ := hs; simp [hr] at h
  | @last b t ht _ =>
    cases hy with
    | nil => simp [textOf, ChunkVariant.display] at h; exact absurd h ht.1
    | last => simp [textOf, ChunkVariant.display] at h; rw [h]
    | text ht' _ _ hs => simp only [textOf, ChunkVariant.display, List.append_nil] at h; exact (lastText ht hs h).elim
    | «break» hs => simp only [textOf, ChunkVariant.display, List.append_nil] at h; exact (lastText ht hs (t' := []) h).elim
  | @text b t s r ht _ he hs hr ih =>
    cases hy with
    | nil => simp [textOf, ChunkVariant.display] at h; exact absurd h.1 ht.1
    | last ht' => simp only [textOf, ChunkVariant.display, List.append_nil] at h; exact (lastText ht' hs h.symm).elim
    | @text _ t' s' r' ht' _ he' hs' hr' =>
      simp only [textOf, ChunkVariant.display] at h
      rcases append_cases h with ⟨rfl, h'⟩ | ⟨u, h1, h2, h3⟩ | ⟨u, h1, h2, h3⟩
      · obtain ⟨rfl, h''⟩ := break_unique hs hs' hr hr' h'
        rw [ih hr' h'']
      · exact (textText ht' he' hs h1 h2 h3).elim
      · exact (textText ht he hs' h1 h2 h3).elim
    | «break» hs' => simp only [textOf, ChunkVariant.display] at h; exact (textBreak ht he hs' h).elim
  | @«break» s r hs hr ih =>
    cases hy with
    | nil => simp [textOf, ChunkVariant.display] at h; obtain ⟨⟨r, hr⟩, _⟩ := hs; simp [hr] at h
    | last ht' => simp only [textOf, ChunkVariant.display, List.append_nil] at h; exact (lastText ht' hs (t' := []) h.symm).elim
    | text ht' _ he' => simp only [textOf, ChunkVariant.display] at h; exact (textBreak ht' he' hs h.symm).elim
    | «break» hs' hr' =>
      simp only [textOf, ChunkVariant.display] at h
      obtain ⟨rfl, h'⟩ := break_unique hs hs' hr hr' h
      rw [ih hr' h']

/-- C32: a text without special characters yields texts and breaks that validate. -/
theorem C32_validate (l : Nat) (t : Str) (h : Sanitised t) :
    ∀ c ∈ paragraphs [.mk l (.text t)], c.validate = .ok () := by
  intro c hc
  have hd : displayChunks (paragraphs [.mk l (.text t)]) = t := by
    rw [C31]; simp [displayChunks, Chunk.display, ChunkVariant.display]
  have hs : ∀ x ∈ c.display, ¬ Special x := by
    intro x hx
    refine h x ?_
    rw [← hd]
    obtain ⟨a, b, he⟩ := List.append_of_mem hc
    rw [he, displayChunks_append, displayChunks]
    simp [hx]
  obtain ⟨c0, h1, h2⟩ := paragraphs_mem hc
  rw [List.mem_singleton] at h1
  subst h1
  rcases paragraphChunk_mem h2 with ⟨rfl, h3⟩ | ⟨_, _, _, ⟨l', t', rfl, ht⟩ | ⟨l', b, rfl, hb⟩⟩
  · exact absurd rfl (h3 t)
  · rw [Chunk.validate, ChunkVariant.validate]
    exact (checkText_ok_iff false t').2 ⟨hs, ht.2⟩
  · rw [Chunk.validate, ChunkVariant.validate]
    exact (checkBreak_ok_iff 0 b).2 ⟨hb.2.1, by simpa using hb.2.2⟩

example : Sanitised exampleText := by simp [exampleText, Sanitised, Special]

/-- C33: splitting again changes nothing, not even line numbers. -/
theorem C33 (cs : List Chunk) : paragraphs (paragraphs cs) = paragraphs cs := paragraphs_idem cs

/-- C33: what is already split is left alone. -/
theorem C33_split (cs : List Chunk) (h : ∀ l t, .mk l (.text t) ∈ cs → t ≠ [] ∧ ¬ ParagraphGap t) :
    paragraphs cs = cs := paragraphs_id h

example : paragraphs [.mk 3 (.text chars!"x\ny")] = [.mk 3 (.text chars!"x\ny")] := by decide +kernel

/-- C34: the pieces of a text on line `n` are numbered `n` plus the newlines before them, except that a break
with three newlines or more is numbered late by one less than its number of newlines. Missing: these breaks; the
property fails there, see `C34_false`. -/
theorem C34_partial (n : Nat) (t : Str) (pre post : List Chunk) (c : Chunk)
    (h : paragraphs [.mk n (.text t)] = pre ++ c :: post) :
    c.lineNo = n + (displayChunks pre).count '\n' +
      (match c.variant with
        | .paragraphBreak b => if 3 ≤ b.count '\n' then b.count '\n' - 1 else 0
        | _ => 0) := by
  have hp := pieces_iff.1 (paragraphChunk_text n t).1 pre c post (by simpa [paragraphs] using h)
  obtain ⟨l, v⟩ := c
  cases v with
  | text t => have := hp.1; simpa [Chunk.lineNo, Chunk.variant, newlines_eq_count] using this
  | paragraphBreak b =>
    have := hp.1
    simpa [Chunk.lineNo, Chunk.variant, newlines_eq_count, breakLate] using this
  | _ => exact hp.elim

/-- C34 is false of the code: the break starts on line 1. -/
theorem C34_false : paragraphs [.mk 1 (.text chars!"a\n\n\nb")] =
    [.mk 1 (.text chars!"a"), .mk 3 (.paragraphBreak chars!"\n\n\n"), .mk 4 (.text chars!"b")] := by decide +kernel

end LatexAst.Ast3
