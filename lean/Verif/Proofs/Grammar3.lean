import Verif.Proofs.Grammar2

/-!
# The stage-1 parser computes the grammar: every source has a reading
-/

namespace LatexAst.Ast1
open Spec

theorem gap_split (s : Str) (h : Clean s) : ∃ g k t, s = g ++ t ∧ Gap g k ∧
    (t = [] ∨ (∃ c r, t = '\\' :: c :: r ∧ isWhitespace c = false) ∨
      (∃ c r, t = c :: r ∧ c ≠ '\\' ∧ isWhitespace c = false)) := by
  refine clean_induction (P := fun s => ∃ g k t, s = g ++ t ∧ Gap g k ∧
    (t = [] ∨ (∃ c r, t = '\\' :: c :: r ∧ isWhitespace c = false) ∨
      (∃ c r, t = c :: r ∧ c ≠ '\\' ∧ isWhitespace c = false))) ?_ ?_ ?_ s h
  · exact ⟨[], [], [], rfl, .nil, .inl rfl⟩
  · rintro c r _ ⟨g, k, t, rfl, hg, ht⟩
    cases hw : isWhitespace c
    · exact ⟨[], [], _, rfl, .nil, .inr (.inl ⟨c, _, rfl, hw⟩)⟩
    · exact ⟨'\\' :: c :: g, c :: k, t, rfl, .escaped hw hg, ht⟩
  · rintro c r h1 h2 _ ⟨g, k, t, rfl, hg, ht⟩
    cases hw : isWhitespace c
    · exact ⟨[], [], _, rfl, .nil, .inr (.inr ⟨c, _, rfl, h2, hw⟩)⟩
    · exact ⟨c :: g, c :: k, t, rfl, .plain hw hg, ht⟩

theorem opening_or (c : Char) : c ∉ ['{', '[', '('] ∨ ∃ v : ScopeVariant, c = v.opening := by
  by_cases h : c ∈ ['{', '[', '(']
  · right
    simp at h
    rcases h with rfl | rfl | rfl
    · exact ⟨.curly, rfl⟩
    · exact ⟨.square, rfl⟩
    · exact ⟨.round, rfl⟩
  · exact .inl h

/-- What can follow the arguments. -/
def Stop (t : Str) : Prop :=
  t = [] ∨ (∃ b v a, (b = [] ∨ b = ['\\']) ∧ t = b ++ ScopeVariant.opening v :: a ∧ NeverClosed v a) ∨
  (∃ c r, t = '\\' :: c :: r ∧ isWhitespace c = false ∧ c ∉ ['{', '[', '(']) ∨
  (∃ c r, t = c :: r ∧ c ≠ '\\' ∧ isWhitespace c = false ∧ c ∉ ['{', '[', '('])

theorem args_split (r : Str) (hc : Clean r) : ∃ w args g k t, r = w ++ (g ++ t) ∧ Written w args ∧ Gap g k ∧
    Stop t := by
  generalize hn : r.length = n
  induction n using Nat.strongRecOn generalizing r with
  | _ n ih =>
    subst hn
    obtain ⟨g, k, t, rfl, hg, ht⟩ := gap_split r hc
    have hct := clean_of_append_left hg.clean hc
    have opened : ∀ b v a, (b = [] ∨ b = ['\\']) → t = b ++ ScopeVariant.opening v :: a →
        ∃ w args g' k t', g ++ t = w ++ (g' ++ t') ∧ Written w args ∧ Gap g' k ∧ Stop t' := by
      intro b v a hb ht
      by_cases hnc : NeverClosed v a
      · exact ⟨[], [], g, k, t, by simp, .none, hg, .inr (.inl ⟨b, v, a, hb, ht, hnc⟩)⟩
      · obtain ⟨a', r', rfl, hd, hbal⟩ := Classical.not_not.1 hnc
        subst ht
        rw [clean_optbs hb, clean_append_iff hd, clean_closing] at hct
        obtain ⟨w, args, g2, k2, t2, rfl, hw, hg2, hs⟩ := ih r'.length (by
          simp; omega) r' hct.2 rfl
        exact ⟨g ++ b ++ v.opening :: (a' ++ v.closing :: w), _, g2, k2, t2, by simp, .arg hg hb hd hbal hw,
          hg2, hs⟩
    rcases ht with rfl | ⟨c, r, rfl, hw⟩ | ⟨c, r, rfl, hb, hw⟩
    · exact ⟨[], [], g, k, [], by simp, .none, hg, .inl rfl⟩
    · rcases opening_or c with ho | ⟨v, rfl⟩
      · exact ⟨[], [], g, k, _, by simp, .none, hg, .inr (.inr (.inl ⟨c, r, rfl, hw, ho⟩))⟩
      · exact opened ['\\'] v r (.inr rfl) rfl
    · rcases opening_or c with ho | ⟨v, rfl⟩
      · exact ⟨[], [], g, k, _, by simp, .none, hg, .inr (.inr (.inr ⟨c, r, rfl, hb, hw, ho⟩))⟩
      · exact opened [] v r (.inl rfl) rfl

theorem name_split (s : Str) : ∃ nm r, s = nm ++ r ∧ (∀ x ∈ nm, isWhitespace x = false ∧ ¬ Special x) ∧
    ∀ c r', r = c :: r' → isWhitespace c = true ∨ Special c := by
  induction s with
  | nil => exact ⟨[], [], rfl, by simp, by simp⟩
  | cons c s ih =>
    by_cases h : isWhitespace c = true ∨ Special c
    · refine ⟨[], c :: s, rfl, by simp, ?_⟩
      intro c' r' he; injection he with h1 _; subst h1; exact h
    · obtain ⟨nm, r, rfl, h1, h2⟩ := ih
      refine ⟨c :: nm, r, rfl, ?_, h2⟩
      intro x hx
      rw [List.mem_cons] at hx
      rcases hx with rfl | hx
      · simp only [not_or] at h; exact ⟨by simpa using h.1, h.2⟩
      · exact h1 x hx

theorem text_split (s : Str) (h : Clean s) : ∃ t r, s = t ++ r ∧ (∀ x ∈ t, x ∉ ['\\', '%', '{', '[', '(']) ∧
    TextEnds r := by
  refine clean_induction (P := fun s => ∃ t r, s = t ++ r ∧ (∀ x ∈ t, x ∉ ['\\', '%', '{', '[', '(']) ∧
    TextEnds r) ?_ ?_ ?_ s h
  · exact ⟨[], [], rfl, by simp, by simp [TextEnds]⟩
  · intro c r _ _
    refine ⟨[], _, rfl, by simp, ?_⟩
    intro c' r' he; injection he with h1 _; subst h1; simp
  · rintro c r h1 h2 _ ⟨t, r', rfl, ht, hr⟩
    rcases opening_or c with ho | ⟨v, rfl⟩
    · refine ⟨c :: t, r', rfl, ?_, hr⟩
      intro x hx
      rw [List.mem_cons] at hx
      rcases hx with rfl | hx
      · simp only [List.mem_cons, List.not_mem_nil, or_false, not_or] at ho ⊢
        exact ⟨h2, h1, ho⟩
      · exact ht x hx
    · refine ⟨[], _, rfl, by simp, ?_⟩
      intro c' r'' he; injection he with h1 _; subst h1; cases v <;> simp [ScopeVariant.opening]

theorem Written.length_lt {w args} (h : Written w args) : ∀ a ∈ args, a.content.length < w.length := by
  induction h with
  | none => simp
  | arg _ _ _ _ _ ih =>
    intro x hx
    rw [List.mem_cons] at hx
    rcases hx with rfl | hx
    · simp; omega
    · have := ih x hx; simp; omega

theorem Written.nil_of_nil {w args} (h : Written w args) (ha : args = []) : w = [] := by
  cases h with
  | none => rfl
  | arg => cases ha

theorem choose_items {args : List WrittenArg}
    (h : ∀ a ∈ args, ∃ o, Reads 1 (dropBrackets a.kind a.content) o) :
    ∃ items : List (WrittenArg × Outcome), items.map (·.1) = args ∧
      ∀ x ∈ items, Reads 1 (dropBrackets x.1.kind x.1.content) x.2 := by
  induction args with
  | nil => exact ⟨[], rfl, by simp⟩
  | cons a args ih =>
    obtain ⟨o, ho⟩ := h a (by simp)
    obtain ⟨items, hi, hr⟩ := ih (fun x hx => h x (by simp [hx]))
    refine ⟨(a, o) :: items, by simp [hi], ?_⟩
    intro x hx
    rw [List.mem_cons] at hx
    rcases hx with rfl | hx
    · exact ho
    · exact hr x hx

theorem closing_or (c : Char) : c ∉ ['}', ']', ')'] ∨ ∃ v : ScopeVariant, c = v.closing := by
  by_cases h : c ∈ ['}', ']', ')']
  · right
    simp at h
    rcases h with rfl | rfl | rfl
    · exact ⟨.curly, rfl⟩
    · exact ⟨.square, rfl⟩
    · exact ⟨.round, rfl⟩
  · exact .inl h

/-- Every clean source has a reading. -/
theorem reads_total (s : Str) (hc : Clean s) : ∀ l, ∃ o, Reads l s o := by
  generalize hn : s.length = n
  induction n using Nat.strongRecOn generalizing s with
  | _ n ih =>
    subst hn
    intro l
    have escCase : ∀ c r, s = '\\' :: c :: r → ∃ o, Reads l s o := by
      intro c r hs
      subst hs
      have hr := clean_esc_iff.1 hc
      cases ha : isAsciiAlphabetic c with
      | false =>
        obtain ⟨o, ho⟩ := ih r.length (by simp; omega) r hr rfl (l + [c].count '\n')
        exact ⟨_, .symbol ha ho⟩
      | true =>
        obtain ⟨nm, r1, rfl, hnm, hr1⟩ := name_split r
        have hname : LetterName (c :: nm) := ⟨c, nm, rfl, ha, hnm⟩
        have hcnm : Clean nm := clean_sanitised (fun x hx => (hnm x hx).2)
        have hc1 := clean_of_append_left hcnm hr
        obtain ⟨w, args, g, k, t, rfl, hw, hg, hs⟩ := args_split r1 hc1
        obtain ⟨hca, hcr⟩ := (hw.clean_iff _).1 hc1
        have hct := clean_of_append_left hg.clean hcr
        have hkt : Clean (k ++ t) := (clean_text (blank_text hg.blank)).append hct
        have hargs : ∀ a ∈ args, ∃ o, Reads 1 (dropBrackets a.kind a.content) o := by
          intro a hm
          have h1 := hw.length_lt a hm
          have h2 := length_dropBrackets (v := a.kind) _ (hca a hm)
          exact ih (dropBrackets a.kind a.content).length (by simp; omega) _ (clean_dropBrackets _ (hca a hm)) rfl 1
        obtain ⟨items, rfl, hitems⟩ := choose_items hargs
        have hrest := ih (k ++ t).length (by have := hg.length; simp; omega) (k ++ t) hkt rfl (l + w.count '\n')
        rcases hs with rfl | ⟨b, v, a, hb, rfl, hnc⟩ | ⟨d, r, rfl, hws, ho⟩ | ⟨d, r, rfl, hb, hws, ho⟩
        · rw [List.append_nil]
          exact ⟨_, .lastCommand (name := c :: nm) hname hw hg hitems⟩
        · exact ⟨_, .openArgument (name := c :: nm) hname hw hg hb hnc⟩
        · obtain ⟨o, hrest⟩ := hrest
          exact ⟨_, .command (name := c :: nm) hname hw hg (.inl ⟨d, r, rfl, hws, ho⟩) hitems hrest⟩
        · by_cases hg0 : g = []
          · subst hg0
            rcases closing_or d with hcl | ⟨v, rfl⟩
            · by_cases ha0 : items.map (·.1) = []
              · exfalso
                have hw0 := hw.nil_of_nil ha0
                subst hw0
                rcases hr1 d r rfl with h | h
                · rw [hws] at h; cases h
                · have := (clean_char_iff hb).1 hct
                  unfold Special at h
                  simp only [List.mem_cons, List.not_mem_nil, or_false, not_or] at h ho hcl
                  grind
              · obtain ⟨o, hrest⟩ := hrest
                exact ⟨_, .command (name := c :: nm) hname hw hg
                  (.inr ⟨d, r, rfl, hb, hws, ho, fun _ => ⟨ha0, hcl⟩⟩) hitems hrest⟩
            · rw [List.nil_append]
              exact ⟨_, .closing (name := c :: nm) hname hw⟩
          · obtain ⟨o, hrest⟩ := hrest
            exact ⟨_, .command (name := c :: nm) hname hw hg
              (.inr ⟨d, r, rfl, hb, hws, ho, fun h => absurd h hg0⟩) hitems hrest⟩
    cases s with
    | nil => exact ⟨_, .nil⟩
    | cons c r =>
      by_cases hb : c = '\\'
      · subst hb
        cases r with
        | nil => exact absurd hc not_clean_bs
        | cons c r => exact escCase c r rfl
      · rcases opening_or c with ho | ⟨v, rfl⟩
        · obtain ⟨t, r', he, ht, hr⟩ := text_split (c :: r) hc
          have hne : t ≠ [] := by
            rintro rfl
            have := hr c r (by simpa using he.symm)
            simp only [List.mem_cons, List.not_mem_nil, or_false, not_or] at this ho
            grind
          have hc' : Clean r' := clean_of_append_left (clean_text ht) (he ▸ hc)
          have hlen : r'.length < (c :: r).length := by
            rw [he]; cases t with
            | nil => exact absurd rfl hne
            | cons => simp; omega
          obtain ⟨o, ho⟩ := ih r'.length hlen r' hc' rfl (l + t.count '\n')
          rw [he]
          exact ⟨_, .text hne ht hr ho⟩
        · by_cases hnc : NeverClosed v r
          · exact ⟨_, .openScope hnc⟩
          · obtain ⟨a, r', rfl, hd, hbal⟩ := Classical.not_not.1 hnc
            rw [clean_opening, clean_append_iff hd, clean_closing] at hc
            obtain ⟨i, hi⟩ := ih a.length (by simp; omega) a hc.1 rfl 1
            obtain ⟨o, ho⟩ := ih r'.length (by simp; omega) r' hc.2 rfl (l + a.count '\n')
            exact ⟨_, .scope hd hbal hi ho⟩

theorem toRes_inj {o o' : Outcome} (h : o.toRes = o'.toRes) : o = o' := by
  cases o <;> cases o' <;> simp_all [Outcome.toRes]

/-- A clean source has exactly one reading: what the parser computes. -/
theorem reads_iff {s : Str} (hc : Clean s) (o : Outcome) : Reads 1 s o ↔ fromStr s = o.toRes := by
  rw [fromStr_eq]
  constructor
  · intro h; exact h.sound hc
  · intro h
    obtain ⟨o', ho'⟩ := reads_total s hc 1
    have := ho'.sound hc
    rw [h] at this
    rwa [toRes_inj this]

/-! ## Arbitrary sources -/

theorem keep_clean : ∀ s, Clean (dropDangling (keepBackslashes s)) ∧
    Clean (dropDangling (keepFirstBackslash s)) ∧ Clean (dropDangling ('\\' :: dropRestOfLine s)) := by
  intro s
  generalize hn : s.length = n
  induction n using Nat.strongRecOn generalizing s with
  | _ n ih =>
    subst hn
    cases s with
    | nil => simp [keepBackslashes, keepFirstBackslash, dropRestOfLine, dropDangling, Clean.nil]
    | cons c s =>
      obtain ⟨i1, i2, i3⟩ := ih s.length (by simp) s rfl
      refine ⟨?_, ?_, ?_⟩
      · by_cases h1 : c = '%'
        · subst h1; simpa [keepBackslashes] using i2
        · by_cases h2 : c = '\\'
          · subst h2
            cases s with
            | nil => simp [keepBackslashes, dropDangling, Clean.nil]
            | cons d s =>
              obtain ⟨j1, _, _⟩ := ih s.length (by simp; omega) s rfl
              simp only [keepBackslashes, dropDangling]
              exact clean_esc_iff.2 j1
          · have e : keepBackslashes (c :: s) = c :: keepBackslashes s := by
              simp [keepBackslashes, h1, h2]
            rw [e]
            have e2 : dropDangling (c :: keepBackslashes s) = c :: dropDangling (keepBackslashes s) := by
              cases keepBackslashes s <;> simp [dropDangling, h2]
            rw [e2]
            exact (clean_char_iff h2).2 ⟨h1, i1⟩
      · by_cases h1 : c = '\n'
        · subst h1
          simp only [keepFirstBackslash]
          have e2 : dropDangling ('\n' :: keepBackslashes s) = '\n' :: dropDangling (keepBackslashes s) := by
            cases keepBackslashes s <;> simp [dropDangling]
          rw [e2]
          exact (clean_char_iff (by decide)).2 ⟨by decide, i1⟩
        · by_cases h2 : c = '\\'
          · subst h2; simpa [keepFirstBackslash] using i3
          · simpa [keepFirstBackslash, h1, h2] using i2
      · by_cases h1 : c = '\n'
        · subst h1
          simp only [dropRestOfLine, dropDangling]
          exact clean_esc_iff.2 i1
        · simpa [dropRestOfLine, h1] using i3

theorem lex_dropDangling (s : Str) (h : Clean (dropDangling s)) :
    lex false false (dropDangling s) = lex false false s := by
  generalize hn : s.length = n
  induction n using Nat.strongRecOn generalizing s with
  | _ n ih =>
    subst hn
    match s, h with
    | [], _ => rfl
    | ['\\'], _ => simp [dropDangling, lex]
    | '\\' :: c :: r, h =>
      simp only [dropDangling] at h ⊢
      rw [lex_clean_cons_esc, lex_clean_cons_esc, ih r.length (by simp; omega) r (clean_esc_iff.1 h) rfl]
    | c :: r, h =>
      by_cases hb : c = '\\'
      · subst hb
        cases r with
        | nil => simp [dropDangling, lex]
        | cons c r =>
          simp only [dropDangling] at h ⊢
          rw [lex_clean_cons_esc, lex_clean_cons_esc, ih r.length (by simp; omega) r (clean_esc_iff.1 h) rfl]
      · have e : dropDangling (c :: r) = c :: dropDangling r := by cases r <;> simp [dropDangling, hb]
        rw [e] at h ⊢
        have := (clean_char_iff hb).1 h
        rw [lex_char this.1 hb, lex_char this.1 hb, ih r.length (by simp) r this.2 rfl]

theorem fromStr_normal (s : Str) : fromStr s = fromStr (dropDangling (keepBackslashes s)) := by
  refine fromStr_of_lex ?_
  rw [lex_dropDangling _ (keep_clean s).1]
  exact ((lex_keep s false false).1 rfl rfl).symm

theorem reads_any (s : Str) (o : Outcome) :
    Reads 1 (dropDangling (keepBackslashes s)) o ↔ fromStr s = o.toRes := by
  rw [fromStr_normal]; exact reads_iff (keep_clean s).1 o

theorem normal_self {s : Str} (h : SelfContained s) : dropDangling (keepBackslashes s) = s := by
  refine self_induction (P := fun s => dropDangling (keepBackslashes s) = s) ?_ ?_ ?_ s h
  · simp [keepBackslashes, dropDangling]
  · intro c r _ ih; simp [keepBackslashes, dropDangling, ih]
  · intro c r h1 h2 _ ih
    have e : keepBackslashes (c :: r) = c :: keepBackslashes r := by simp [keepBackslashes, h1, h2]
    rw [e]
    have e2 : dropDangling (c :: keepBackslashes r) = c :: dropDangling (keepBackslashes r) := by
      cases keepBackslashes r <;> simp [dropDangling, h2]
    rw [e2, ih]

end LatexAst.Ast1
