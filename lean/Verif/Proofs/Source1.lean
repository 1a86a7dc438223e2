import Verif.Proofs.Filter1

/-!
# The token stream and the source-level specification
-/

namespace LatexAst
open Spec

namespace Spec
theorem strip_bs (c : Char) (s : Str) : stripComments ('\\' :: c :: s) = '\\' :: c :: stripComments s := by
  rw [stripComments]
theorem strip_pct (s : Str) : stripComments ('%' :: s) = skipComment s := by
  rw [stripComments]
theorem strip_cons {c : Char} (h1 : c ≠ '%') (h2 : c ≠ '\\') (s : Str) :
    stripComments (c :: s) = c :: stripComments s := by
  rw [stripComments] <;> simp_all
theorem strip_one {c : Char} (h1 : c ≠ '%') : stripComments [c] = [c] := by
  by_cases h : c = '\\'
  · subst h; rfl
  · rw [strip_cons h1 h]; rfl
theorem skip_nl (s : Str) : skipComment ('\n' :: s) = '\n' :: stripComments s := by
  rw [skipComment]
theorem skip_cons {c : Char} (h : c ≠ '\n') (s : Str) : skipComment (c :: s) = skipComment s := by
  rw [skipComment]; simpa using h
theorem noBs_bs (c : Char) (s : Str) :
    NoBackslashInComments ('\\' :: c :: s) ↔ NoBackslashInComments s := by
  rw [NoBackslashInComments]
theorem noBs_pct (s : Str) : NoBackslashInComments ('%' :: s) ↔ NoBackslashInComment s := by
  rw [NoBackslashInComments]
theorem noBs_cons {c : Char} (h1 : c ≠ '%') (h2 : c ≠ '\\') (s : Str) :
    NoBackslashInComments (c :: s) ↔ NoBackslashInComments s := by
  rw [NoBackslashInComments] <;> simp_all
theorem noBs1_nl (s : Str) : NoBackslashInComment ('\n' :: s) ↔ NoBackslashInComments s := by
  rw [NoBackslashInComment]
theorem noBs1_cons {c : Char} (h : c ≠ '\n') (s : Str) :
    NoBackslashInComment (c :: s) ↔ c ≠ '\\' ∧ NoBackslashInComment s := by
  rw [NoBackslashInComment]; simpa using h
theorem unesc_bs (c : Char) (s : Str) : unescaped ('\\' :: c :: s) = unescaped s := by
  rw [unescaped]
theorem unesc_cons {c : Char} (h2 : c ≠ '\\') (s : Str) : unescaped (c :: s) = c :: unescaped s := by
  rw [unescaped]; simp_all
end Spec

namespace Ast1

theorem lex_nl (e cm : Bool) (s : Str) : lex e cm ('\n' :: s) = (e, '\n') :: lex false false s := by
  simp [lex]
theorem lex_pct (cm : Bool) (s : Str) : lex false cm ('%' :: s) = lex false true s := by
  simp [lex]
theorem lex_bs (cm : Bool) (s : Str) : lex false cm ('\\' :: s) = lex true cm s := by
  simp [lex]
theorem lex_esc (c : Char) (s : Str) : lex true false (c :: s) = (true, c) :: lex false false s := by
  by_cases h : c = '\n' <;> simp [lex, h]
theorem lex_char {c : Char} (h1 : c ≠ '%') (h2 : c ≠ '\\') (s : Str) :
    lex false false (c :: s) = (false, c) :: lex false false s := by
  by_cases h : c = '\n' <;> simp [lex, h, h1, h2]
theorem lex_comment {c : Char} (h : c ≠ '\n') (h2 : c ≠ '\\') (e : Bool) (s : Str) :
    lex e true (c :: s) = lex e true s := by
  by_cases h1 : c = '%' <;> cases e <;> simp [lex, h, h1, h2]
theorem lex_comment' {c : Char} (h : c ≠ '\n') (s : Str) :
    lex true true (c :: s) = lex true true s := by
  simp [lex, h]

/-- An induction principle following the states of the tokeniser. -/
theorem lex_induction {P : Bool → Bool → Str → Prop}
    (nil : ∀ e cm, P e cm [])
    (nl : ∀ e cm s, P false false s → P e cm ('\n' :: s))
    (pct : ∀ cm s, P false true s → P false cm ('%' :: s))
    (bs : ∀ cm s, P true cm s → P false cm ('\\' :: s))
    (esc : ∀ c s, c ≠ '\n' → P false false s → P true false (c :: s))
    (char : ∀ c s, c ≠ '\n' → c ≠ '%' → c ≠ '\\' → P false false s → P false false (c :: s))
    (com : ∀ e c s, c ≠ '\n' → (e = false → c ≠ '%' ∧ c ≠ '\\') → P e true s → P e true (c :: s)) :
    ∀ s e cm, P e cm s := by
  intro s
  induction s with
  | nil => intro e cm; exact nil e cm
  | cons c s ih =>
    intro e cm
    by_cases hn : c = '\n'
    · subst hn; exact nl _ _ _ (ih _ _)
    · cases cm
      · cases e
        · by_cases hp : c = '%'
          · subst hp; exact pct _ _ (ih _ _)
          · by_cases hb : c = '\\'
            · subst hb; exact bs _ _ (ih _ _)
            · exact char _ _ hn hp hb (ih _ _)
        · exact esc _ _ hn (ih _ _)
      · cases e
        · by_cases hp : c = '%'
          · subst hp; exact pct _ _ (ih _ _)
          · by_cases hb : c = '\\'
            · subst hb; exact bs _ _ (ih _ _)
            · exact com _ _ _ hn (fun _ => ⟨hp, hb⟩) (ih _ _)
        · exact com _ _ _ hn (fun h => by cases h) (ih _ _)

/-- The source-level reading of each tokeniser state. -/
def srcOf : Bool → Bool → Str → Str
  | false, false, s => stripComments s
  | _, true, s => skipComment s
  | true, false, s => stripComments ('\\' :: s)

theorem filter_lex {p : Char → Bool} (hp : Vis p) :
    ∀ s e cm, ((lex e cm s).map (·.2)).filter p = (srcOf e cm s).filter p := by
  have hpct : True := trivial
  refine lex_induction ?_ ?_ ?_ ?_ ?_ ?_ ?_
  · intro e cm; cases e <;> cases cm <;> simp [lex, srcOf, stripComments, skipComment, hp.bs]
  · intro e cm s ih
    rw [lex_nl]
    cases cm
    · cases e
      · simp only [srcOf, strip_cons (c := '\n') (by decide) (by decide)] at ih ⊢
        simp [List.filter_cons, ih]
      · simp only [srcOf, strip_bs] at ih ⊢
        simp [List.filter_cons, ih, hp.bs]
    · have : srcOf e true ('\n' :: s) = '\n' :: stripComments s := by cases e <;> exact skip_nl s
      rw [this]
      simp only [srcOf] at ih
      simp [List.filter_cons, ih]
  · intro cm s ih
    rw [lex_pct, ih]
    cases cm
    · simp [srcOf, strip_pct]
    · simp [srcOf, skip_cons]
  · intro cm s ih
    rw [lex_bs, ih]
    cases cm
    · rfl
    · simp [srcOf, skip_cons]
  · intro c s hn ih
    rw [lex_esc]
    simp only [srcOf, strip_bs] at ih ⊢
    simp [List.filter_cons, ih, hp.bs]
  · intro c s hn h1 h2 ih
    rw [lex_char h1 h2]
    simp only [srcOf, strip_cons h1 h2] at ih ⊢
    simp [List.filter_cons, ih]
  · intro e c s hn h ih
    have : lex e true (c :: s) = lex e true s := by
      cases e
      · exact lex_comment hn (h rfl).2 _ _
      · exact lex_comment' hn _
    rw [this, ih]
    cases e <;> simp [srcOf, skip_cons hn]

theorem filter_parseFuel {p : Char → Bool} (hp : Vis p) (n : Nat) {s d}
    (h : parseFuel n s = .ok d) :
    (displayChunks d).filter p = ((lex false false s).map (·.2)).filter p := by
  induction n generalizing s d with
  | zero => simp [parseFuel] at h
  | succ n ih =>
    have hr := parseFuel_ok h
    have := hr.filter hp (fun a cs hc ha => by rw [ih ha, filter_lex_clean hp.bs hc])
      (lex_ok _ _ _) (by intro a ha; cases ha)
    rw [this]; rfl

/-- Characters other than brackets and backslashes: exactly those of the source without comments. -/
theorem filter_fromStr {p : Char → Bool} (hp : Vis p) {s d} (h : fromStr s = .ok d) :
    (displayChunks d).filter p = (stripComments s).filter p := by
  rw [filter_parseFuel hp _ h, filter_lex hp]; rfl

theorem vis_newline : Vis (fun c => c == '\n') :=
  ⟨rfl, fun v => by cases v <;> rfl, fun v => by cases v <;> rfl⟩

theorem vis_visible : Vis (fun c => decide (¬ Bracket c ∧ c ≠ '\\')) :=
  ⟨by decide, fun v => by cases v <;> decide, fun v => by cases v <;> decide⟩

theorem newlines_lex (s : Str) (e cm : Bool) :
    newlines ((lex e cm s).map (·.2)) = newlines s := by
  revert s e cm
  refine lex_induction ?_ ?_ ?_ ?_ ?_ ?_ ?_
  · intro e cm; simp [lex]
  · intro e cm s ih; rw [lex_nl]; simp only [List.map_cons]; rw [newlines_cons, newlines_cons, ih]
  · intro cm s ih; rw [lex_pct, ih, newlines_cons_of_ne (by decide)]
  · intro cm s ih; rw [lex_bs, ih, newlines_cons_of_ne (by decide)]
  · intro c s hn ih
    rw [lex_esc]; simp only [List.map_cons]; rw [newlines_cons, newlines_cons, ih]
  · intro c s hn h1 h2 ih
    rw [lex_char h1 h2]; simp only [List.map_cons]; rw [newlines_cons, newlines_cons, ih]
  · intro e c s hn h ih
    have : lex e true (c :: s) = lex e true s := by
      cases e
      · exact lex_comment hn (h rfl).2 _ _
      · exact lex_comment' hn _
    rw [this, ih, newlines_cons_of_ne hn]

theorem newlines_parseFuel {n s d} (h : parseFuel n s = .ok d) :
    newlines (displayChunks d) = newlines s := by
  have := filter_parseFuel vis_newline n h
  have h2 := newlines_lex s false false
  simp only [newlines] at h2 ⊢
  rw [this, h2]

theorem newlines_fromStr {s d} (h : fromStr s = .ok d) : newlines (displayChunks d) = newlines s :=
  newlines_parseFuel h

/-- Comments without backslashes are invisible to the parser. -/
theorem lex_strip : ∀ s e cm,
    (cm = false → e = false → NoBackslashInComments s → lex false false (stripComments s) = lex false false s) ∧
    (cm = true → e = false → NoBackslashInComment s → lex false false (skipComment s) = lex false true s) ∧
    (cm = false → e = true → NoBackslashInComments ('\\' :: s) →
      lex false false (stripComments ('\\' :: s)) = lex true false s) := by
  refine lex_induction ?_ ?_ ?_ ?_ ?_ ?_ ?_
  · intro e cm
    refine ⟨?_, ?_, ?_⟩ <;> intros <;> simp [stripComments, skipComment, lex]
  · intro e cm s ih
    refine ⟨?_, ?_, ?_⟩
    · rintro rfl rfl h
      rw [strip_cons (by decide) (by decide), lex_nl, lex_nl]
      rw [noBs_cons (by decide) (by decide)] at h
      rw [ih.1 rfl rfl h]
    · rintro rfl rfl h
      rw [skip_nl, lex_nl, lex_nl]
      rw [noBs1_nl] at h
      rw [ih.1 rfl rfl h]
    · rintro rfl rfl h
      rw [strip_bs, lex_bs, lex_nl, lex_nl]
      rw [noBs_bs] at h
      rw [ih.1 rfl rfl h]
  · intro cm s ih
    refine ⟨?_, ?_, ?_⟩
    · rintro rfl _ h
      rw [strip_pct, lex_pct]
      rw [noBs_pct] at h
      exact ih.2.1 rfl rfl h
    · rintro rfl _ h
      rw [skip_cons (by decide), lex_pct]
      rw [noBs1_cons (by decide)] at h
      exact ih.2.1 rfl rfl h.2
    · intro _ h; cases h
  · intro cm s ih
    refine ⟨?_, ?_, ?_⟩
    · rintro rfl _ h
      rw [lex_bs]
      exact ih.2.2 rfl rfl h
    · rintro rfl _ h
      rw [noBs1_cons (by decide)] at h
      exact absurd rfl h.1
    · intro _ h; cases h
  · intro c s hn ih
    refine ⟨?_, ?_, ?_⟩
    · intro _ h; cases h
    · intro h; cases h
    · rintro _ _ h
      rw [strip_bs, lex_bs, lex_esc, lex_esc]
      rw [noBs_bs] at h
      rw [ih.1 rfl rfl h]
  · intro c s hn h1 h2 ih
    refine ⟨?_, ?_, ?_⟩
    · rintro _ _ h
      rw [strip_cons h1 h2, lex_char h1 h2, lex_char h1 h2]
      rw [noBs_cons h1 h2] at h
      rw [ih.1 rfl rfl h]
    · intro h; cases h
    · intro _ h; cases h
  · intro e c s hn hc ih
    refine ⟨?_, ?_, ?_⟩
    · intro h; cases h
    · rintro _ rfl h
      have := hc rfl
      rw [skip_cons hn, lex_comment hn this.2]
      rw [noBs1_cons hn] at h
      exact ih.2.1 rfl rfl h.2
    · intro h; cases h

theorem lex_keep : ∀ s e cm,
    (cm = false → e = false → lex false false (keepBackslashes s) = lex false false s) ∧
    (cm = true → e = false → lex false false (keepFirstBackslash s) = lex false true s) ∧
    (cm = false → e = true → lex false false (keepBackslashes ('\\' :: s)) = lex true false s) ∧
    (cm = true → e = true → lex true false (dropRestOfLine s) = lex true true s) := by
  refine lex_induction ?_ ?_ ?_ ?_ ?_ ?_ ?_
  · intro e cm
    refine ⟨?_, ?_, ?_, ?_⟩ <;> intros <;>
      simp [keepBackslashes, keepFirstBackslash, dropRestOfLine, lex]
  · intro e cm s ih
    refine ⟨?_, ?_, ?_, ?_⟩
    · rintro rfl rfl
      rw [keepBackslashes, lex_nl, lex_nl, ih.1 rfl rfl] <;> simp
    · rintro rfl rfl
      rw [keepFirstBackslash, lex_nl, lex_nl, ih.1 rfl rfl]
    · rintro rfl rfl
      rw [keepBackslashes, lex_bs, lex_nl, lex_nl, ih.1 rfl rfl]
    · rintro rfl rfl
      rw [dropRestOfLine, lex_nl, lex_nl, ih.1 rfl rfl]
  · intro cm s ih
    refine ⟨?_, ?_, ?_, ?_⟩
    · rintro rfl _
      rw [keepBackslashes, lex_pct]
      exact ih.2.1 rfl rfl
    · rintro rfl _
      rw [keepFirstBackslash, lex_pct]
      · exact ih.2.1 rfl rfl
      · simp
      · simp
    · intro _ h; cases h
    · intro _ h; cases h
  · intro cm s ih
    refine ⟨?_, ?_, ?_, ?_⟩
    · rintro rfl _
      rw [lex_bs]
      exact ih.2.2.1 rfl rfl
    · rintro rfl _
      rw [keepFirstBackslash, lex_bs, lex_bs]
      exact ih.2.2.2 rfl rfl
    · intro _ h; cases h
    · intro _ h; cases h
  · intro c s hn ih
    refine ⟨?_, ?_, ?_, ?_⟩
    · intro _ h; cases h
    · intro h; cases h
    · rintro _ _
      rw [keepBackslashes, lex_bs, lex_esc, lex_esc]
      rw [ih.1 rfl rfl]
    · intro h; cases h
  · intro c s hn h1 h2 ih
    refine ⟨?_, ?_, ?_, ?_⟩
    · rintro _ _
      rw [keepBackslashes, lex_char h1 h2, lex_char h1 h2, ih.1 rfl rfl] <;> simp_all
    · intro h; cases h
    · intro _ h; cases h
    · intro h; cases h
  · intro e c s hn hc ih
    refine ⟨?_, ?_, ?_, ?_⟩
    · intro h; cases h
    · rintro _ rfl
      have := hc rfl
      rw [keepFirstBackslash, lex_comment hn this.2]
      · exact ih.2.1 rfl rfl
      · simpa using hn
      · simpa using this.2
    · intro h; cases h
    · rintro _ rfl
      rw [dropRestOfLine, lex_comment' hn]
      · exact ih.2.2.2 rfl rfl
      · simpa using hn

theorem fromStr_of_lex {s s' : Str} (h : lex false false s = lex false false s') :
    fromStr s = fromStr s' := by
  rw [fromStr_eq, fromStr_eq, h]

end Ast1
end LatexAst
