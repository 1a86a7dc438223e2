import Verif.Props.Paragraphs

/-!
# Stage 3: splitting into paragraphs computes the declarative split (C56)
-/

namespace LatexAst.Ast3

theorem textOf_variants (cs : List Chunk) : textOf (cs.map Chunk.variant) = displayChunks cs := by
  induction cs with
  | nil => rfl
  | cons c cs ih =>
    obtain ⟨l, v⟩ := c
    simp only [List.map_cons, textOf, displayChunks, ih, Chunk.display, Chunk.variant]

theorem displayChunks_append' (a b : List Chunk) : displayChunks (a ++ b) = displayChunks a ++ displayChunks b := by
  induction a with
  | nil => rfl
  | cons c a ih => simp [displayChunks, ih]

theorem cut_kinds {b vs} (h : Cut b vs) : ∀ v ∈ vs, (∃ t, v = .text t) ∨ ∃ s, v = .paragraphBreak s := by
  induction h with
  | nil => simp
  | last => intro v hv; simp at hv; exact .inl ⟨_, hv⟩
  | text _ _ _ _ _ ih =>
    intro v hv
    simp only [List.mem_cons] at hv
    rcases hv with rfl | rfl | hv
    · exact .inl ⟨_, rfl⟩
    · exact .inr ⟨_, rfl⟩
    · exact ih v hv
  | «break» _ _ ih =>
    intro v hv
    simp only [List.mem_cons] at hv
    rcases hv with rfl | hv
    · exact .inr ⟨_, rfl⟩
    · exact ih v hv

/-- The line numbers of C34 are those of `PiecesFrom`. -/
theorem piecesFrom_of {n : Nat} : ∀ (post pre : List Chunk),
    (∀ v ∈ post.map Chunk.variant, (∃ t, v = .text t) ∨ ∃ s, v = .paragraphBreak s) →
    (∀ p c q, pre ++ post = p ++ c :: q → c.lineNo = n + (displayChunks p).count '\n' +
      (match c.variant with
        | .paragraphBreak b => if 3 ≤ b.count '\n' then b.count '\n' - 1 else 0
        | _ => 0)) →
    PiecesFrom (n + (displayChunks pre).count '\n') post := by
  intro post
  induction post with
  | nil => intro _ _ _; exact .nil
  | cons c post ih =>
    intro pre hk h
    have h1 := h pre c post rfl
    have h2 := ih (pre ++ [c]) (fun v hv => hk v (by simp at hv ⊢; exact .inr hv)) (fun p d q he => h p d q (by rw [← he]; simp))
    rw [displayChunks_append'] at h2
    obtain ⟨l, v⟩ := c
    simp only [Chunk.lineNo, Chunk.variant] at h1
    have h3 := hk v (by simp [Chunk.variant])
    have h4 : displayChunks [Chunk.mk l v] = v.display := by simp [displayChunks, Chunk.display]
    rw [h4, List.count_append, ← Nat.add_assoc] at h2
    rcases h3 with ⟨t, rfl⟩ | ⟨s, rfl⟩
    · simp only [Nat.add_zero] at h1
      rw [h1]
      exact .text (by simpa [ChunkVariant.display] using h2)
    · rw [h1]
      exact .break (by simpa [ChunkVariant.display] using h2)

theorem piecesFrom_unique {n a b} (ha : PiecesFrom n a) (hb : PiecesFrom n b) (h : a.map Chunk.variant = b.map Chunk.variant) : a = b := by
  induction ha generalizing b with
  | nil =>
    cases hb with
    | nil => rfl
    | text => simp at h
    | «break» => simp at h
  | text _ ih =>
    cases hb with
    | nil => simp at h
    | text hb =>
      simp [Chunk.variant] at h
      obtain ⟨rfl, h⟩ := h
      rw [ih hb (by simpa using h)]
    | «break» => simp [Chunk.variant] at h
  | «break» _ ih =>
    cases hb with
    | nil => simp at h
    | text => simp [Chunk.variant] at h
    | «break» hb =>
      simp [Chunk.variant] at h
      obtain ⟨rfl, h⟩ := h
      rw [ih hb (by simpa using h)]

/-- C56 for one text: the result is the one list of texts and breaks that is cut properly, prints as the text, and
is numbered properly. -/
theorem C56_text (n : Nat) (t : Str) (out : List Chunk) : paragraphs [.mk n (.text t)] = out ↔
    Cut false (out.map Chunk.variant) ∧ displayChunks out = t ∧ PiecesFrom n out := by
  have hc := C32_cut n t
  have hd : displayChunks (paragraphs [.mk n (.text t)]) = t := by
    rw [C31]; simp [displayChunks, Chunk.display, ChunkVariant.display]
  have hp : PiecesFrom n (paragraphs [.mk n (.text t)]) := by
    have := piecesFrom_of (n := n) (paragraphs [.mk n (.text t)]) [] (cut_kinds hc) (fun p c q he => C34_partial n t p q c he)
    simpa [displayChunks] using this
  constructor
  · rintro rfl
    exact ⟨hc, hd, hp⟩
  · rintro ⟨h1, h2, h3⟩
    exact piecesFrom_unique hp h3 (C32_unique hc h1 (by rw [textOf_variants, textOf_variants, hd, h2]))

theorem split_sound {cs out} (h : Split cs out) : paragraphs cs = out := by
  induction h with
  | nil => rfl
  | text h1 h2 h3 _ ih =>
    have := (C56_text _ _ _).2 ⟨h1, h2, h3⟩
    simp only [paragraphs, List.append_nil] at this ⊢
    rw [this, ih]
  | @other c _ _ h1 _ ih =>
    obtain ⟨l, v⟩ := c
    rw [paragraphs, ih]
    cases v <;> first | rfl | exact absurd rfl (h1 _)

theorem split_total (cs : List Chunk) : Split cs (paragraphs cs) := by
  induction cs with
  | nil => exact .nil
  | cons c cs ih =>
    by_cases h : ∃ t, c.variant = .text t
    · obtain ⟨l, v⟩ := c
      obtain ⟨t, rfl⟩ := h
      have h1 := (C56_text l t _).1 rfl
      have h2 : paragraphs (.mk l (.text t) :: cs) = paragraphs [.mk l (.text t)] ++ paragraphs cs := by
        simp [paragraphs]
      rw [h2]
      exact .text h1.1 h1.2.1 h1.2.2 ih
    · have h1 : ∀ t, c.variant ≠ .text t := fun t ht => h ⟨t, ht⟩
      have h2 : paragraphs (c :: cs) = c :: paragraphs cs := by
        obtain ⟨l, v⟩ := c
        rw [paragraphs]
        cases v <;> first | rfl | exact absurd rfl (h1 _)
      rw [h2]
      exact .other h1 ih

/-- C56: splitting into paragraphs gives `out` exactly when the declarative split does. -/
theorem C56 (cs out : List Chunk) : paragraphs cs = out ↔ Split cs out :=
  ⟨fun h => h ▸ split_total cs, split_sound⟩

/-- A derivation without the code: a text, a break of two newlines, a text; then a command, kept as it is. -/
example : Split [.mk 2 (.text chars!"a\n \nb"), .mk 4 (.command (.mk chars!"x" []))]
    [.mk 2 (.text chars!"a"), .mk 2 (.paragraphBreak chars!"\n \n"), .mk 4 (.text chars!"b"), .mk 4 (.command (.mk chars!"x" []))] := by
  refine Split.text (pieces := [.mk 2 (.text chars!"a"), .mk 2 (.paragraphBreak chars!"\n \n"), .mk 4 (.text chars!"b")])
    ?_ (by decide) (.text (.break (n := 2) (b := chars!"\n \n") (.text .nil))) (.other (by intro t h; cases h) .nil)
  have dark : ∀ c : Char, isWhitespace c = false → IsParagraph [c] := by
    intro c hc
    refine ⟨by simp, ?_⟩
    rintro ⟨a, w, b, h, hw⟩
    have := congrArg List.length h
    simp at this
    omega
  refine .text (dark 'a' (by decide)) (by simp) ?_ ⟨⟨_, rfl⟩, by unfold Spec.Blank; decide, by decide⟩ (.last (dark 'b' (by decide)) ?_)
  · rintro ⟨a, w, h, _⟩
    have := congrArg List.length h
    simp at this
    cases a <;> simp_all
  · intro _
    exact ⟨'b', [], rfl, by decide⟩

end LatexAst.Ast3
