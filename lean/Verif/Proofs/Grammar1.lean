import Verif.Proofs.Renum1
import Verif.Spec.Grammar

/-!
# The stage-1 parser computes the grammar
-/

namespace LatexAst.Ast1
open Spec

/-- Outcomes as results of the model. -/
def Outcome.toRes : Outcome → Res (List Chunk)
  | .ok cs => .ok cs
  | .error e => .error (.err e)

/-- Chunks produced before a result. -/
def prep (new : List Chunk) : Res (List Chunk) → Res (List Chunk)
  | .ok cs => .ok (new ++ cs)
  | .error f => .error f

theorem prep_nil (r : Res (List Chunk)) : prep [] r = r := by cases r <;> rfl
theorem prep_prep (a b : List Chunk) (r : Res (List Chunk)) : prep a (prep b r) = prep (a ++ b) r := by
  cases r <;> simp [prep]

theorem toRes_after (c : Chunk) (o : Outcome) : (o.after c).toRes = prep [c] o.toRes := by
  cases o <;> rfl

theorem Steps.trun_eq {rec ts b bl ln new b' bl' ln'} (h : Steps rec ts b bl ln new b' bl' ln')
    (us : List Tok) : Ast1.trun rec (ts ++ us) b bl ln = prep new (Ast1.trun rec us b' bl' ln') := by
  induction h with
  | nil => simp [prep_nil]
  | cons h hs ih =>
    simp only [List.cons_append, Ast1.trun, h, ih]
    cases Ast1.trun rec us _ _ _ <;> simp [prep]

/-! ## Clean strings, from the left -/

theorem clean_iff_self {s : Str} : Clean s ↔ SelfContained s := by
  refine ⟨fun h => ?_, self_clean s⟩
  have strip_app : ∀ {a : Str}, Clean a → ∀ b, stripComments (a ++ b) = a ++ stripComments b ∧
      (NoDangling (a ++ b) ↔ NoDangling b) := by
    intro a ha
    induction ha with
    | nil => intro b; simp
    | esc c _ ih =>
      intro b
      rw [List.append_assoc]
      refine ⟨?_, ?_⟩
      · rw [(ih _).1]; simp [strip_bs]
      · rw [(ih _).2]; simp [NoDangling]
    | char c _ h1 h2 ih =>
      intro b
      rw [List.append_assoc]
      refine ⟨?_, ?_⟩
      · rw [(ih _).1]; simp [strip_cons h1 h2]
      · rw [(ih _).2]
        cases b with
        | nil => simp [NoDangling, h2]
        | cons d b => simp [NoDangling, h2]
  have h1 := strip_app h []
  simp [stripComments, NoDangling] at h1
  exact h1

theorem clean_esc_iff {c : Char} {r : Str} : Clean ('\\' :: c :: r) ↔ Clean r := by
  rw [clean_iff_self, clean_iff_self]
  unfold SelfContained
  rw [strip_bs]
  simp [NoDangling]

theorem clean_char_iff {c : Char} {r : Str} (h : c ≠ '\\') : Clean (c :: r) ↔ c ≠ '%' ∧ Clean r := by
  constructor
  · intro hc
    have hs := clean_iff_self.1 hc
    refine self_induction (P := fun s => ∀ c r, s = c :: r → c ≠ '\\' → c ≠ '%' ∧ Clean r) ?_ ?_ ?_ _ hs c r rfl h
    · intro c r h; cases h
    · intro c r _ _ c' r' he hne; injection he with h1 _; exact absurd h1.symm hne
    · intro c r h1 h2 hr _ c' r' he _
      injection he with e1 e2; subst e1; subst e2
      exact ⟨h1, self_clean _ hr⟩
  · rintro ⟨h1, h2⟩
    exact (clean_char h1 h).append h2

theorem not_clean_bs : ¬ Clean ['\\'] := by
  rw [clean_iff_self]; rintro ⟨_, h⟩; simp [NoDangling] at h

theorem clean_induction {P : Str → Prop} (nil : P [])
    (esc : ∀ c r, Clean r → P r → P ('\\' :: c :: r))
    (char : ∀ c r, c ≠ '%' → c ≠ '\\' → Clean r → P r → P (c :: r)) : ∀ s, Clean s → P s := fun s hs =>
  self_induction nil (fun c r hr => esc c r (self_clean _ hr)) (fun c r h1 h2 hr => char c r h1 h2 (self_clean _ hr))
    s (clean_iff_self.1 hs)

theorem noDangling_cons {c : Char} {r : Str} (h : c ≠ '\\') : NoDangling (c :: r) ↔ NoDangling r := by
  cases r <;> simp [NoDangling, h]

theorem clean_append_iff : ∀ {a b : Str}, NoDangling a → (Clean (a ++ b) ↔ Clean a ∧ Clean b) := by
  intro a
  generalize hn : a.length = n
  induction n using Nat.strongRecOn generalizing a with
  | _ n ih =>
    subst hn
    intro b hd
    match a, hd with
    | [], _ => simp [Clean.nil]
    | ['\\'], hd => simp [NoDangling] at hd
    | '\\' :: c :: a, hd =>
      have hd' : NoDangling a := by simpa [NoDangling] using hd
      simp only [List.cons_append, clean_esc_iff]
      exact ih a.length (by simp; omega) rfl hd'
    | c :: a, hd =>
      by_cases hc : c = '\\'
      · subst hc
        cases a with
        | nil => simp [NoDangling] at hd
        | cons c a =>
          have hd' : NoDangling a := by simpa [NoDangling] using hd
          simp only [List.cons_append, clean_esc_iff]
          exact ih a.length (by simp; omega) rfl hd'
      · have hd' := (noDangling_cons hc).1 hd
        simp only [List.cons_append, clean_char_iff hc, ih a.length (by simp) rfl hd', and_assoc]

theorem clean_noDangling {a : Str} (h : Clean a) : NoDangling a := (clean_iff_self.1 h).2

theorem clean_of_append_left {a b : Str} (ha : Clean a) (h : Clean (a ++ b)) : Clean b :=
  ((clean_append_iff (clean_noDangling ha)).1 h).2

theorem clean_dropBrackets {v : ScopeVariant} (s : Str) (h : Clean s) : Clean (dropBrackets v s) := by
  refine clean_induction (P := fun s => Clean (dropBrackets v s)) ?_ ?_ ?_ s h
  · simp [dropBrackets, Clean.nil]
  · intro c r _ ih; rw [drop_esc]; exact clean_esc_iff.2 ih
  · intro c r h1 h2 _ ih
    rw [drop_char h2]
    split
    · exact ih
    · exact (clean_char_iff h2).2 ⟨h1, ih⟩

theorem length_dropBrackets {v : ScopeVariant} (s : Str) (h : Clean s) : (dropBrackets v s).length ≤ s.length := by
  refine clean_induction (P := fun s => (dropBrackets v s).length ≤ s.length) ?_ ?_ ?_ s h
  · simp [dropBrackets]
  · intro c r _ ih; rw [drop_esc]; simpa using ih
  · intro c r h1 h2 _ ih
    rw [drop_char h2]
    split <;> simp <;> omega

/-! ## Gaps -/

theorem Gap.clean {g k : Str} (h : Gap g k) : Clean g := by
  induction h with
  | nil => exact .nil
  | plain hc _ ih =>
    have := not_special (ws_not_special hc)
    exact (clean_char_iff this.2.1).2 ⟨this.1, ih⟩
  | escaped _ _ ih => exact clean_esc_iff.2 ih

theorem Gap.blank {g k : Str} (h : Gap g k) : Blank k := by
  induction h with
  | nil => simp [Blank]
  | plain hc _ ih =>
    intro x hx; rw [List.mem_cons] at hx; rcases hx with rfl | hx
    · exact hc
    · exact ih x hx
  | escaped hc _ ih =>
    intro x hx; rw [List.mem_cons] at hx; rcases hx with rfl | hx
    · exact hc
    · exact ih x hx

theorem Gap.newlines {g k : Str} (h : Gap g k) : newlines g = newlines k := by
  induction h with
  | nil => rfl
  | plain hc _ ih => simp [newlines_cons, ih]
  | escaped hc _ ih => rw [newlines_cons_of_ne (by decide)]; simp [newlines_cons, ih]

theorem Gap.nil_iff {g k : Str} (h : Gap g k) : g = [] ↔ k = [] := by
  cases h <;> simp

theorem Gap.length {g k : Str} (h : Gap g k) : k.length ≤ g.length := by
  induction h with
  | nil => simp
  | plain _ _ ih => simpa using ih
  | escaped _ _ ih => simp; omega

theorem Gap.steps {rec g k} (h : Gap g k) (l : Str) (sc tr) (bl ln : Nat) :
    Steps rec (lex false false g) (.command l sc 0 tr) bl ln [] (.command l sc 0 (tr ++ k)) bl
      (ln + LatexAst.newlines g) := by
  induction h generalizing tr ln with
  | nil => simpa [lex, newlines_nil] using Steps.nil
  | @plain c g k hc _ ih =>
    obtain ⟨h1, h2, h3, _⟩ := not_special (ws_not_special hc)
    rw [lex_char h1 h2]
    have := ih (tr ++ [c]) (lnAfter ln (false, c))
    have hn : ln + LatexAst.newlines (c :: g) = lnAfter ln (false, c) + LatexAst.newlines g := by
      rw [lnAfter_char, show c :: g = [c] ++ g from rfl, newlines_append]; omega
    rw [hn, show tr ++ c :: k = tr ++ [c] ++ k by simp]
    exact Steps.cons (new := []) (by simp [tstep, h3, hc]) this
  | @escaped c g k hc _ ih =>
    obtain ⟨h1, h2, h3, _⟩ := not_special (ws_not_special hc)
    rw [lex_clean_cons_esc]
    have := ih (tr ++ [c]) (lnAfter ln (true, c))
    have hn : ln + LatexAst.newlines ('\\' :: c :: g) = lnAfter ln (true, c) + LatexAst.newlines g := by
      rw [lnAfter_char, newlines_cons_of_ne (by decide), show c :: g = [c] ++ g from rfl, newlines_append]; omega
    rw [hn, show tr ++ c :: k = tr ++ [c] ++ k by simp]
    exact Steps.cons (new := []) (by simp [tstep, h3, hc]) this

/-! ## Arguments as written -/

/-- The parser's buffers for arguments. -/
def bufs (args : List WrittenArg) : List ScopeBuf :=
  args.map fun a => (dropBrackets a.kind a.content, a.kind, a.prec)

theorem clean_opening {v : ScopeVariant} {r : Str} : Clean (v.opening :: r) ↔ Clean r := by
  rw [clean_char_iff (opening_clean v).2]; simp [(opening_clean v).1]
theorem clean_closing {v : ScopeVariant} {r : Str} : Clean (v.closing :: r) ↔ Clean r := by
  rw [clean_char_iff (closing_clean v).2]; simp [(closing_clean v).1]

theorem clean_optbs {b : Str} {v : ScopeVariant} {r : Str} (hb : b = [] ∨ b = ['\\']) :
    Clean (b ++ v.opening :: r) ↔ Clean r := by
  rcases hb with rfl | rfl
  · exact clean_opening
  · exact clean_esc_iff

theorem Written.clean_iff {w args} (h : Written w args) (r : Str) : Clean (w ++ r) ↔
    (∀ a ∈ args, Clean a.content) ∧ Clean r := by
  induction h generalizing r with
  | none => simp
  | @arg g p b v a w args hg hb hd hbal _ ih =>
    have e : g ++ b ++ v.opening :: (a ++ v.closing :: w) ++ r
        = g ++ (b ++ v.opening :: (a ++ (v.closing :: (w ++ r)))) := by simp
    rw [e, clean_append_iff (clean_noDangling hg.clean), clean_optbs hb, clean_append_iff hd, clean_closing, ih]
    simp [hg.clean, and_assoc]

theorem newlines_opening {v : ScopeVariant} (s : Str) : newlines (v.opening :: s) = newlines s :=
  newlines_cons_of_ne (by cases v <;> decide) s
theorem newlines_closing {v : ScopeVariant} (s : Str) : newlines (v.closing :: s) = newlines s :=
  newlines_cons_of_ne (by cases v <;> decide) s
theorem newlines_optbs {b : Str} (hb : b = [] ∨ b = ['\\']) (s : Str) : newlines (b ++ s) = newlines s := by
  rcases hb with rfl | rfl
  · rfl
  · exact newlines_cons_of_ne (by decide) s

theorem lnAfter_ne {ln : Nat} {e : Bool} {c : Char} (h : c ≠ '\n') : lnAfter ln (e, c) = ln := by
  simp [lnAfter, h]

theorem opening_ne_nl (v : ScopeVariant) : v.opening ≠ '\n' := by cases v <;> decide
theorem closing_ne_nl (v : ScopeVariant) : v.closing ≠ '\n' := by cases v <;> decide

/-- Opening an argument. -/
theorem steps_open {rec b} {v : ScopeVariant} (hb : b = [] ∨ b = ['\\']) (l : Str) (sc tr) (bl ln : Nat) (r : Str) :
    ∃ e, lex false false (b ++ v.opening :: r) = (e, v.opening) :: lex false false r ∧
    Steps rec [(e, v.opening)] (.command l sc 0 tr) bl ln [] (.command l (sc ++ [([], v, tr)]) 1 []) bl ln := by
  have key : ∀ e, Steps rec [(e, v.opening)] (.command l sc 0 tr) bl ln []
      (.command l (sc ++ [([], v, tr)]) 1 []) bl ln := by
    intro e
    have := Steps.one (rec := rec) (t := (e, v.opening)) (b := .command l sc 0 tr) (bl := bl)
      (ln := ln) (new := []) (b' := .command l (sc ++ [([], v, tr)]) 1 []) (bl' := bl)
      (by simp [tstep, fromOpening_some_iff.2 rfl])
    rwa [lnAfter_ne (opening_ne_nl v)] at this
  rcases hb with rfl | rfl
  · exact ⟨false, lex_char (opening_clean v).1 (opening_clean v).2 r, key _⟩
  · exact ⟨true, lex_clean_cons_esc _ r, key _⟩

theorem Written.steps {rec w args} (h : Written w args) : ∀ (l : Str) (sc) (bl ln : Nat)
    (_hc : ∀ a ∈ args, Clean a.content),
    Steps rec (lex false false w) (.command l sc 0 []) bl ln [] (.command l (sc ++ bufs args) 0 []) bl
      (ln + newlines w) := by
  induction h with
  | none => intro l sc bl ln _; simpa [lex, bufs, newlines_nil] using Steps.nil
  | @arg g p b v a w args hg hb hd hbal hw ih =>
    intro l sc bl ln hc
    have hca : Clean a := hc ⟨p, v, a⟩ (by simp)
    have s1 := hg.steps (rec := rec) l sc [] bl ln
    obtain ⟨e, he, s2⟩ := steps_open (rec := rec) (v := v) hb l sc ([] ++ p) bl (ln + newlines g) (a ++ v.closing :: w)
    have s3 := steps_balanced_arg (rec := rec) a (clean_iff_self.1 hca) 0 l sc [] ([] ++ p) bl (ln + newlines g) hbal
    have hne := opening_ne_closing v v
    have s4 := Steps.one (rec := rec) (t := (false, v.closing))
      (b := .command l (sc ++ [([] ++ dropBrackets v a, v, [] ++ p)]) 1 []) (bl := bl)
      (ln := ln + newlines g + newlines a) (new := [])
      (b' := .command l (sc ++ [([] ++ dropBrackets v a, v, [] ++ p)]) 0 []) (bl' := bl) (by simp [tstep, hne])
    rw [lnAfter_ne (closing_ne_nl v)] at s4
    have s5 := ih l (sc ++ [([] ++ dropBrackets v a, v, [] ++ p)]) bl (ln + newlines g + newlines a)
      (fun x hx => hc x (by simp [hx]))
    have := s1.append (s2.append (s3.append (s4.append s5)))
    have hl : lex false false (g ++ b ++ v.opening :: (a ++ v.closing :: w)) =
        lex false false g ++ ([(e, v.opening)] ++ (lex false false a ++ ([(false, v.closing)] ++ lex false false w))) := by
      rw [List.append_assoc, lex_clean_append hg.clean, he, lex_clean_append hca,
        lex_char (closing_clean v).1 (closing_clean v).2]
      simp
    rw [hl]
    have hn : ln + newlines (g ++ b ++ v.opening :: (a ++ v.closing :: w))
        = ln + newlines g + newlines a + newlines w := by
      rw [List.append_assoc, newlines_append, newlines_optbs hb, newlines_opening, newlines_append, newlines_closing]
      omega
    rw [hn]
    simpa [bufs] using this

/-! ## Unclosed brackets -/

theorem trun_unclosed_scope {rec v} (s : Str) (hs : Clean s) : ∀ n x bl ln,
    (¬ ∃ a r, s = a ++ v.closing :: r ∧ NoDangling a ∧ Balanced v n a) →
    trun rec (lex false false s) (.scope x v (n + 1)) bl ln = fail bl (.unclosedScope v) := by
  refine clean_induction (P := fun s => ∀ n x bl ln,
    (¬ ∃ a r, s = a ++ v.closing :: r ∧ NoDangling a ∧ Balanced v n a) →
    trun rec (lex false false s) (.scope x v (n + 1)) bl ln = fail bl (.unclosedScope v)) ?_ ?_ ?_ s hs
  · intro n x bl ln _; simp [lex, trun, tfinish]
  · intro c r _ ih n x bl ln h
    rw [lex_clean_cons_esc]
    simp only [trun, tstep, if_true]
    rw [ih n]
    · rfl
    · rintro ⟨a, r', rfl, h1, h2⟩
      exact h ⟨'\\' :: c :: a, r', rfl, by simpa [NoDangling] using h1, balanced_esc.2 h2⟩
  · intro c r h1 h2 _ ih n x bl ln h
    rw [lex_char h1 h2]
    have hne := opening_ne_closing v v
    by_cases ho : c = v.opening
    · subst ho
      simp only [trun, tstep]
      simp only [Bool.false_eq_true, if_false, if_true]
      rw [ih (n + 1)]
      · rfl
      · rintro ⟨a, r', rfl, h3, h4⟩
        refine h ⟨v.opening :: a, r', rfl, (noDangling_cons h2).2 h3, ?_⟩
        rw [balanced_char h2, if_pos rfl]; exact h4
    · by_cases hc : c = v.closing
      · subst hc
        cases n with
        | zero => exact absurd ⟨[], r, rfl, by simp [NoDangling], by simp [Balanced]⟩ h
        | succ n =>
          simp only [trun, tstep]
          simp only [Bool.false_eq_true, if_false, hne, if_true]
          rw [if_neg (by omega)]
          simp only []
          rw [show n + 1 + 1 - 1 = n + 1 from rfl, ih n]
          · rfl
          · rintro ⟨a, r', rfl, h3, h4⟩
            refine h ⟨v.closing :: a, r', rfl, (noDangling_cons h2).2 h3, ?_⟩
            rw [balanced_char h2, if_neg (Ne.symm hne), if_pos rfl]; exact ⟨by omega, h4⟩
      · simp only [trun, tstep]
        simp only [Bool.false_eq_true, if_false, Ne.symm ho, Ne.symm hc]
        rw [ih n]
        · rfl
        · rintro ⟨a, r', rfl, h3, h4⟩
          refine h ⟨c :: a, r', rfl, (noDangling_cons h2).2 h3, ?_⟩
          rw [balanced_char h2, if_neg ho, if_neg hc]; exact h4

theorem trun_unclosed_arg {rec v} (s : Str) (hs : Clean s) : ∀ n l sc x p bl ln,
    (¬ ∃ a r, s = a ++ v.closing :: r ∧ NoDangling a ∧ Balanced v n a) →
    trun rec (lex false false s) (.command l (sc ++ [(x, v, p)]) (n + 1) []) bl ln
      = fail bl (.unclosedArgument v) := by
  refine clean_induction (P := fun s => ∀ n l sc x p bl ln,
    (¬ ∃ a r, s = a ++ v.closing :: r ∧ NoDangling a ∧ Balanced v n a) →
    trun rec (lex false false s) (.command l (sc ++ [(x, v, p)]) (n + 1) []) bl ln
      = fail bl (.unclosedArgument v)) ?_ ?_ ?_ s hs
  · intro n l sc x p bl ln _; simp [lex, trun, tfinish]
  · intro c r _ ih n l sc x p bl ln h
    rw [lex_clean_cons_esc]
    simp only [trun, tstep, if_true, List.getLast?_append, List.getLast?_singleton, Option.some_or,
      pushLastContent_snoc]
    rw [ih n]
    · rfl
    · rintro ⟨a, r', rfl, h1, h2⟩
      exact h ⟨'\\' :: c :: a, r', rfl, by simpa [NoDangling] using h1, balanced_esc.2 h2⟩
  · intro c r h1 h2 _ ih n l sc x p bl ln h
    rw [lex_char h1 h2]
    have hne := opening_ne_closing v v
    simp only [trun, tstep, List.getLast?_append, List.getLast?_singleton, Option.some_or,
      pushLastContent_snoc, Bool.false_eq_true, if_false]
    by_cases ho : c = v.opening
    · subst ho
      simp only [if_true]
      rw [ih (n + 1)]
      · rfl
      · rintro ⟨a, r', rfl, h3, h4⟩
        refine h ⟨v.opening :: a, r', rfl, (noDangling_cons h2).2 h3, ?_⟩
        rw [balanced_char h2, if_pos rfl]; exact h4
    · by_cases hc : c = v.closing
      · subst hc
        cases n with
        | zero => exact absurd ⟨[], r, rfl, by simp [NoDangling], by simp [Balanced]⟩ h
        | succ n =>
          simp only [hne, if_true, if_false]
          rw [ih n]
          · rfl
          · rintro ⟨a, r', rfl, h3, h4⟩
            refine h ⟨v.closing :: a, r', rfl, (noDangling_cons h2).2 h3, ?_⟩
            rw [balanced_char h2, if_neg (Ne.symm hne), if_pos rfl]; exact ⟨by omega, h4⟩
      · simp only [Ne.symm ho, Ne.symm hc, if_false]
        rw [ih n]
        · rfl
        · rintro ⟨a, r', rfl, h3, h4⟩
          refine h ⟨c :: a, r', rfl, (noDangling_cons h2).2 h3, ?_⟩
          rw [balanced_char h2, if_neg ho, if_neg hc]; exact h4

end LatexAst.Ast1
