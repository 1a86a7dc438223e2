import Verif.Proofs.Grammar1

/-!
# The stage-1 parser computes the grammar: soundness
-/

namespace LatexAst.Ast1
open Spec

theorem trun_text_flush {rec t bl ln r} (hc : Clean r) (h : TextEnds r) :
    trun rec (lex false false r) (.text t) bl ln =
      prep (textC t bl) (trun rec (lex false false r) (.text []) ln ln) := by
  cases r with
  | nil => simp [lex, trun, tfinish, prep, textC]
  | cons c r =>
    have h := h c r rfl
    by_cases hb : c = '\\'
    · subst hb
      cases r with
      | nil => exact absurd hc not_clean_bs
      | cons c r =>
        rw [lex_clean_cons_esc]
        simp only [trun, tstep, if_true]
        have : textC [] ln = [] := rfl
        simp only [this, List.nil_append]
        cases trun rec (lex false false r) (startB c) _ _ <;> simp [prep]
    · have hv : ∃ v : ScopeVariant, c = v.opening := by
        simp [hb] at h
        rcases h with rfl | rfl | rfl
        · exact ⟨.curly, rfl⟩
        · exact ⟨.square, rfl⟩
        · exact ⟨.round, rfl⟩
      obtain ⟨v, rfl⟩ := hv
      rw [lex_char (opening_clean v).1 (opening_clean v).2]
      simp only [trun, tstep, fromOpening_some_iff.2 rfl]
      have : textC [] ln = [] := rfl
      simp only [this, List.nil_append, Bool.false_eq_true, if_false]
      rw [lnAfter_ne (opening_ne_nl v)]
      cases trun rec (lex false false r) (.scope [] v 1) _ _ <;> simp [prep]

/-- Reading a text, then the rest afresh. -/
theorem trun_text {rec t r l} (ht : ∀ x ∈ t, x ∉ ['\\', '%', '{', '[', '(']) (hc : Clean r) (h : TextEnds r) :
    trun rec (lex false false (t ++ r)) (.text []) l l =
      prep (textC t l) (trun rec (lex false false r) (.text []) (l + newlines t) (l + newlines t)) := by
  rw [lex_clean_append (clean_text ht), (steps_text (rec := rec) ht [] l l).trun_eq, prep_nil,
    trun_text_flush hc h]
  rfl

/-- Flushing a command, then a result. -/
def flushThen (rec : Str → Res (List Chunk)) (l : Str) (sc : List ScopeBuf) (bl : Nat) (r : Res (List Chunk)) :
    Res (List Chunk) :=
  match flushC rec l sc bl with
  | .error f => .error f
  | .ok cs => prep cs r

theorem blank_text {k : Str} (h : Blank k) : ∀ x ∈ k, x ∉ ['\\', '%', '{', '[', '('] := by
  intro x hx hm
  have := ws_not_special (h x hx)
  apply this
  simp only [List.mem_cons, List.not_mem_nil, or_false] at hm
  rcases hm with rfl | rfl | rfl | rfl | rfl <;> decide

theorem fromOpening_none_iff {c : Char} : ScopeVariant.fromOpening c = none ↔ c ∉ ['{', '[', '('] := by
  unfold ScopeVariant.fromOpening
  simp only [List.mem_cons, List.not_mem_nil, or_false, not_or]
  grind

theorem fromClosing_none_iff {c : Char} : ScopeVariant.fromClosing c = none ↔ c ∉ ['}', ']', ')'] := by
  unfold ScopeVariant.fromClosing
  simp only [List.mem_cons, List.not_mem_nil, or_false, not_or]
  grind

/-- A command followed by something else. -/
theorem trun_goesOn {rec l args g k t bl ln} (hg : Gap g k) (ht : GoesOn args g t) (hc : Clean t) :
    trun rec (lex false false (g ++ t)) (.command l (bufs args) 0 []) bl ln =
      flushThen rec l (bufs args) bl (trun rec (lex false false (k ++ t)) (.text []) ln ln) := by
  have hk := blank_text hg.blank
  rw [lex_clean_append hg.clean, (hg.steps (rec := rec) l _ [] bl ln).trun_eq, prep_nil, List.nil_append,
    hg.newlines, lex_clean_append (clean_text hk), (steps_text (rec := rec) hk [] ln ln).trun_eq, prep_nil,
    List.nil_append]
  rcases ht with ⟨c, r, rfl, hw, ho⟩ | ⟨c, r, rfl, hb, hw, ho, hg0⟩
  · have h3 := fromOpening_none_iff.2 ho
    rw [lex_clean_cons_esc]
    have l1 : lnAfter (ln + newlines k) (true, c) = ln + newlines k := lnAfter_ne (nonws_ne_nl hw)
    simp only [trun, l1, tstep, h3, hw, Bool.false_eq_true, if_false, if_true, flushThen]
    cases flushC rec l (bufs args) bl with
    | error f => rfl
    | ok cs =>
      rw [show ln + newlines k - newlines k = ln by omega]
      simp only []
      cases trun rec (lex false false r) (startB c) _ _ <;> simp [prep]
  · have h3 := fromOpening_none_iff.2 ho
    have h1 := ((clean_char_iff hb).1 hc).1
    rw [lex_char h1 hb]
    have l1 : lnAfter (ln + newlines k) (false, c) = ln + newlines k := lnAfter_ne (nonws_ne_nl hw)
    simp only [trun, l1, tstep, h3, hw, Bool.false_eq_true, if_false, flushThen]
    by_cases hk0 : k = []
    · subst hk0
      obtain ⟨ha, hcl⟩ := hg0 (hg.nil_iff.2 rfl)
      have h4 := fromClosing_none_iff.2 hcl
      have hsc : bufs args ≠ [] := by simpa [bufs] using ha
      simp only [h4, hsc, if_false, ne_eq, not_true_eq_false]
      cases flushC rec l (bufs args) bl with
      | error f => rfl
      | ok cs =>
        simp only [newlines_nil, Nat.add_zero, List.nil_append]
        cases trun rec (lex false false r) (.text [c]) _ _ <;> simp [prep]
    · simp only [ne_eq, hk0, not_false_eq_true, if_true]
      cases flushC rec l (bufs args) bl with
      | error f => rfl
      | ok cs =>
        rw [show ln + newlines k - newlines k = ln by omega]
        simp only []
        cases trun rec (lex false false r) (.text (k ++ [c])) _ _ <;> simp [prep]

/-- A letter command and its arguments. -/
theorem trun_command {rec name w args r l} (hn : LetterName name) (hw : Written w args)
    (hc : Clean (w ++ r)) :
    trun rec (lex false false ('\\' :: (name ++ (w ++ r)))) (.text []) l l =
      trun rec (lex false false r) (.command name (bufs args) 0 []) l (l + newlines w) := by
  obtain ⟨c, rn, rfl, ha, hr, hws⟩ := letterName_split hn
  obtain ⟨hca, hcr⟩ := (hw.clean_iff r).1 hc
  have hcw : Clean w := by
    have := (hw.clean_iff []).2 ⟨hca, .nil⟩
    simpa using this
  rw [List.cons_append, lex_clean_cons_esc, lex_clean_append (clean_sanitised hr), lex_clean_append hcw]
  have l0 : lnAfter l (true, c) = l := lnAfter_ne (alpha_ne_nl ha)
  have s0 := Steps.one (rec := rec) (t := (true, c)) (b := .text []) (bl := l) (ln := l)
    (new := []) (b' := .command [c] [] 0 []) (bl' := l) (by rw [l0]; simp [tstep, textC, startC, startB, ha])
  rw [l0] at s0
  have s1 := steps_label (rec := rec) hr hws [c] l l
  have s2 := hw.steps (rec := rec) ([c] ++ rn) [] l l hca
  have := (s0.append (s1.append s2)).trun_eq (lex false false r)
  simp only [List.nil_append, prep_nil, List.append_assoc, List.cons_append] at this
  exact this

theorem evalArgs_items {rec : Str → Res (List Chunk)} {items : List (WrittenArg × Outcome)}
    (h : ∀ x ∈ items, rec (dropBrackets x.1.kind x.1.content) = x.2.toRes) :
    evalArgs rec (bufs (items.map (·.1))) =
      (match argOutcome items with | .ok a => .ok a | .error e => .error (.err e)) := by
  induction items with
  | nil => rfl
  | cons x items ih =>
    obtain ⟨a, o⟩ := x
    have h0 := h (a, o) (by simp)
    have h1 := ih (fun x hx => h x (by simp [hx]))
    simp only [bufs, List.map_cons, List.map_map] at h1 ⊢
    simp only [evalArgs, argOutcome]
    simp only at h0
    rw [h0]
    cases o with
    | error e => rfl
    | ok inner =>
      simp only [Outcome.toRes]
      rw [h1]
      cases argOutcome items <;> rfl

theorem flushThen_items {rec : Str → Res (List Chunk)} {items : List (WrittenArg × Outcome)} {l name o}
    (h : ∀ x ∈ items, rec (dropBrackets x.1.kind x.1.content) = x.2.toRes) :
    flushThen rec name (bufs (items.map (·.1))) l o.toRes = (commandOutcome l name items o).toRes := by
  unfold flushThen flushC commandOutcome
  rw [evalArgs_items h]
  cases argOutcome items with
  | error e => rfl
  | ok args => simp only [toRes_after]

theorem newlines_single_count (c : Char) : [c].count '\n' = newlines [c] := (newlines_eq_count _).symm

theorem toRes_scope (l : Nat) (i o : Outcome) : (scopeOutcome l i o).toRes =
    match i.toRes with
    | .error f => addLine (l - 1) (.error f)
    | .ok inner => prep [.mk l (.scope (.mk inner .curly))] o.toRes := by
  unfold scopeOutcome
  cases i with
  | error e => rfl
  | ok cs => exact toRes_after _ _

/-- Soundness: what the grammar says is what the parser does. -/
theorem Reads.sound {l s o} (h : Reads l s o) : Clean s →
    trun fromStr (lex false false s) (.text []) l l = o.toRes := by
  induction h with
  | nil => intro _; simp [lex, trun, tfinish, textC, Outcome.toRes]
  | @text l t r o hne ht he _ ih =>
    intro hc
    have hr := clean_of_append_left (clean_text ht) hc
    rw [trun_text ht hr he, newlines_eq_count, ih hr, toRes_after]
    simp [textC, hne]
  | @scope l v a r i o hd hb _ _ ih1 ih2 =>
    intro hc
    rw [clean_opening, clean_append_iff hd, clean_closing] at hc
    obtain ⟨hca, hcr⟩ := hc
    have s1 := Steps.one (rec := fromStr) (t := (false, v.opening)) (b := .text []) (bl := l) (ln := l)
      (new := []) (b' := .scope [] v 1) (bl' := l)
      (by rw [lnAfter_ne (opening_ne_nl v)]; simp [tstep, fromOpening_some_iff.2 rfl, textC])
    rw [lnAfter_ne (opening_ne_nl v)] at s1
    have s2 := steps_balanced_scope (rec := fromStr) a (clean_iff_self.1 hca) 0 [] l l hb
    have := (s1.append s2).trun_eq (lex false false (v.closing :: r))
    rw [lex_char (opening_clean v).1 (opening_clean v).2, lex_clean_append hca]
    simp only [List.append_assoc, List.cons_append, List.nil_append, prep_nil] at this
    rw [this, lex_char (closing_clean v).1 (closing_clean v).2]
    have hne := opening_ne_closing v v
    simp only [trun, tstep, Bool.false_eq_true, if_false, hne, if_true, lnAfter_ne (closing_ne_nl v)]
    have h1 := ih1 hca
    rw [← fromStr_eq] at h1
    rw [h1, toRes_scope, ← ih2 hcr, newlines_eq_count]
    cases i with
    | error e => rfl
    | ok inner =>
      simp only [Outcome.toRes]
      cases trun fromStr (lex false false r) (.text []) _ _ <;> rfl
  | @openScope l v a hn =>
    intro hc
    rw [clean_opening] at hc
    rw [lex_char (opening_clean v).1 (opening_clean v).2]
    simp only [trun, tstep, fromOpening_some_iff.2 rfl, Bool.false_eq_true, if_false,
      lnAfter_ne (opening_ne_nl v)]
    rw [trun_unclosed_scope a hc 0 [] l l hn]
    rfl
  | @symbol l c r o ha _ ih =>
    intro hc
    have hr := clean_esc_iff.1 hc
    rw [lex_clean_cons_esc]
    simp only [trun, tstep, if_true, startC, startB, ha, Bool.false_eq_true, if_false]
    rw [toRes_after, ← ih hr, newlines_single_count, lnAfter_char]
    simp only [textC, if_true, List.nil_append]
    cases trun fromStr (lex false false r) (.text []) _ _ <;> rfl
  | @command l name w g k t o items hn hw hg ht _ _ ih1 ih2 =>
    intro hc
    obtain ⟨c0, rn, rfl, ha, hr, hws⟩ := letterName_split hn
    have hc1 : Clean (w ++ (g ++ t)) := by
      rw [List.cons_append, clean_esc_iff] at hc
      exact clean_of_append_left (clean_sanitised hr) hc
    obtain ⟨hca, hcr⟩ := (hw.clean_iff _).1 hc1
    have hct := clean_of_append_left hg.clean hcr
    have hkt : Clean (k ++ t) := (clean_text (blank_text hg.blank)).append hct
    rw [trun_command hn hw hc1, trun_goesOn hg ht hct, newlines_eq_count, ih2 hkt]
    refine flushThen_items fun x hx => ?_
    have := ih1 x hx (clean_dropBrackets _ (hca _ (List.mem_map_of_mem hx)))
    rwa [← fromStr_eq] at this
  | @lastCommand l name w g k items hn hw hg _ ih1 =>
    intro hc
    obtain ⟨c0, rn, rfl, ha, hr, hws⟩ := letterName_split hn
    have hc1 : Clean (w ++ g) := by
      rw [List.cons_append, clean_esc_iff] at hc
      exact clean_of_append_left (clean_sanitised hr) hc
    obtain ⟨hca, hcr⟩ := (hw.clean_iff _).1 hc1
    rw [trun_command hn hw hc1]
    have := (hg.steps (rec := fromStr) (c0 :: rn) (bufs (items.map (·.1))) [] l (l + newlines w)).trun_eq []
    rw [List.append_nil, prep_nil] at this
    rw [this, ← flushThen_items (rec := fromStr)]
    · simp only [trun, tfinish, flushThen, List.nil_append, hg.newlines, newlines_eq_count]
      cases flushC fromStr (c0 :: rn) (bufs (items.map (·.1))) l with
      | error f => rfl
      | ok cs => simp only [prep, Outcome.toRes, textC]
    · intro x hx
      have := ih1 x hx (clean_dropBrackets _ (hca _ (List.mem_map_of_mem hx)))
      rwa [← fromStr_eq] at this
  | @openArgument l name w args g k b v a hn hw hg hb hnc =>
    intro hc
    obtain ⟨c0, rn, rfl, ha, hr, hws⟩ := letterName_split hn
    have hc1 : Clean (w ++ (g ++ (b ++ v.opening :: a))) := by
      rw [List.cons_append, clean_esc_iff] at hc
      exact clean_of_append_left (clean_sanitised hr) hc
    obtain ⟨hca, hcr⟩ := (hw.clean_iff _).1 hc1
    have hct := (clean_optbs hb).1 (clean_of_append_left hg.clean hcr)
    rw [trun_command hn hw hc1, lex_clean_append hg.clean]
    have s1 := hg.steps (rec := fromStr) (c0 :: rn) (bufs args) [] l (l + newlines w)
    obtain ⟨e, he, s2⟩ := steps_open (rec := fromStr) (v := v) hb (c0 :: rn) (bufs args) ([] ++ k) l
      (l + newlines w + newlines g) a
    rw [he]
    have := (s1.append s2).trun_eq (lex false false a)
    simp only [List.append_assoc, List.cons_append, List.nil_append, prep_nil] at this
    rw [this, trun_unclosed_arg a hct 0 _ _ _ _ _ _ hnc]
    rfl
  | @closing l name w args v r hn hw =>
    intro hc
    obtain ⟨c0, rn, rfl, ha, hr, hws⟩ := letterName_split hn
    have hc1 : Clean (w ++ v.closing :: r) := by
      rw [List.cons_append, clean_esc_iff] at hc
      exact clean_of_append_left (clean_sanitised hr) hc
    rw [trun_command hn hw hc1, lex_char (closing_clean v).1 (closing_clean v).2]
    have h3 : ScopeVariant.fromOpening v.closing = none := by cases v <;> rfl
    have h4 : isWhitespace v.closing = false := by cases v <;> rfl
    simp only [trun, tstep, h3, h4, fromClosing_some_iff.2 rfl, Bool.false_eq_true, if_false, ne_eq,
      not_true_eq_false, lnAfter_ne (closing_ne_nl v), newlines_eq_count]
    rfl

end LatexAst.Ast1
