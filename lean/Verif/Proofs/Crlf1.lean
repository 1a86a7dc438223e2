import Verif.Spec.Crlf
import Verif.Proofs.Grammar4
import Verif.Props.Parsing

/-! # Windows line ends: stage 1 -/

namespace LatexAst
open Spec

theorem pair_induction {P : Str → Prop} (nil : P []) (bs : P ['\\']) (esc : ∀ c r, P r → P ('\\' :: c :: r))
    (char : ∀ c r, c ≠ '\\' → P r → P (c :: r)) : ∀ s, P s := by
  intro s
  generalize hn : s.length = n
  induction n using Nat.strongRecOn generalizing s with
  | _ n ih =>
    subst hn
    rcases s with _ | ⟨c, s⟩
    · exact nil
    · by_cases hc : c = '\\'
      · subst hc
        rcases s with _ | ⟨d, s⟩
        · exact bs
        · exact esc d s (ih s.length (by simp; omega) s rfl)
      · exact char c s hc (ih s.length (by simp) s rfl)

theorem toCrlf_cons {c : Char} (h : c ≠ '\n') (s : Str) : toCrlf (c :: s) = c :: toCrlf s := by simp [toCrlf, h]
theorem toCrlf_nl (s : Str) : toCrlf ('\n' :: s) = '\r' :: '\n' :: toCrlf s := by simp [toCrlf]
theorem toCrlf_append (a b : Str) : toCrlf (a ++ b) = toCrlf a ++ toCrlf b := by
  induction a with
  | nil => rfl
  | cons c a ih => simp only [List.cons_append, toCrlf]; split <;> simp [ih]
theorem toCrlf_self {s : Str} (h : '\n' ∉ s) : toCrlf s = s := by
  induction s with
  | nil => rfl
  | cons c s ih =>
    simp at h
    rw [toCrlf_cons (fun e => h.1 e.symm), ih h.2]
theorem toCrlf_count (s : Str) : (toCrlf s).count '\n' = s.count '\n' := by
  induction s with
  | nil => rfl
  | cons c s ih =>
    by_cases h : c = '\n'
    · subst h; simp [toCrlf_nl, ih]
    · simp [toCrlf_cons h, List.count_cons, ih]
theorem toCrlf_eq_nil {s : Str} : toCrlf s = [] ↔ s = [] := by
  cases s with
  | nil => simp [toCrlf]
  | cons c s => simp only [toCrlf]; split <;> simp
theorem toCrlf_isEmpty (s : Str) : (toCrlf s).isEmpty = s.isEmpty := by
  rw [Bool.eq_iff_iff, List.isEmpty_iff, List.isEmpty_iff, toCrlf_eq_nil]
theorem toCrlf_mem {x : Char} (h : x ≠ '\r') {s : Str} (hx : x ∈ toCrlf s) : x ∈ s := by
  induction s with
  | nil => exact hx
  | cons c s ih =>
    simp only [toCrlf] at hx
    split at hx
    · rename_i hc; simp [h] at hx
      rcases hx with rfl | hx
      · simp [hc]
      · simp [ih hx]
    · simp at hx
      rcases hx with rfl | hx
      · simp
      · simp [ih hx]
theorem toCrlf_newlines (s : Str) : newlines (toCrlf s) = newlines s := by
  rw [newlines_eq_count, newlines_eq_count, toCrlf_count]

theorem toCrlf_head {s r : Str} (h : toCrlf s = '\n' :: r) : False := by
  cases s with
  | nil => cases h
  | cons c s =>
    simp only [toCrlf] at h
    split at h
    · simp at h
    · rename_i hc; simp at h; exact hc h.1

theorem toCrlf_inj : ∀ {s t : Str}, toCrlf s = toCrlf t → s = t
  | [], t, h => by rw [eq_comm, show toCrlf [] = [] from rfl, toCrlf_eq_nil] at h; exact h.symm
  | c :: s, [], h => by rw [show toCrlf [] = [] from rfl, toCrlf_eq_nil] at h; exact h
  | c :: s, d :: t, h => by
    by_cases hc : c = '\n' <;> by_cases hd : d = '\n'
    · subst hc hd; simp only [toCrlf_nl, List.cons.injEq, true_and] at h; rw [toCrlf_inj h]
    · subst hc; simp only [toCrlf_nl, toCrlf_cons hd, List.cons.injEq] at h
      exact (toCrlf_head h.2.symm).elim
    · subst hd; simp only [toCrlf_nl, toCrlf_cons hc, List.cons.injEq] at h
      exact (toCrlf_head h.2).elim
    · simp only [toCrlf_cons hc, toCrlf_cons hd, List.cons.injEq] at h; rw [h.1, toCrlf_inj h.2]

theorem noEsc_esc {c : Char} {r : Str} : NoEscapedNewline ('\\' :: c :: r) ↔ c ≠ '\n' ∧ NoEscapedNewline r := by
  simp [NoEscapedNewline]
theorem noEsc_cons {c : Char} (h : c ≠ '\\') {r : Str} : NoEscapedNewline (c :: r) ↔ NoEscapedNewline r := by
  cases r <;> simp [NoEscapedNewline, h]
theorem noDangling_esc {c : Char} {r : Str} : NoDangling ('\\' :: c :: r) ↔ NoDangling r := by simp [NoDangling]

theorem noEsc_append {b : Str} : ∀ a, NoDangling a → (NoEscapedNewline (a ++ b) ↔ NoEscapedNewline a ∧ NoEscapedNewline b) := by
  refine pair_induction ?_ ?_ ?_ ?_
  · intro _; simp [NoEscapedNewline]
  · intro h; simp [NoDangling] at h
  · intro c r ih h
    simp only [List.cons_append, noEsc_esc, ih (noDangling_esc.1 h), and_assoc]
  · intro c r hc ih h
    simp only [List.cons_append, noEsc_cons hc, ih ((Ast1.noDangling_cons hc).1 h)]

theorem noEsc_noBs {s : Str} (h : '\\' ∉ s) : NoEscapedNewline s := by
  induction s with
  | nil => simp [NoEscapedNewline]
  | cons c s ih => simp at h; exact (noEsc_cons (fun e => h.1 e.symm)).2 (ih h.2)
theorem noDangling_noBs {s : Str} (h : '\\' ∉ s) : NoDangling s := by
  induction s with
  | nil => simp [NoDangling]
  | cons c s ih => simp at h; exact (Ast1.noDangling_cons (fun e => h.1 e.symm)).2 (ih h.2)

theorem noDangling_crlf : ∀ s, NoDangling (toCrlf s) ↔ NoDangling s := by
  refine pair_induction ?_ ?_ ?_ ?_
  · rfl
  · rfl
  · intro c r ih
    by_cases h : c = '\n'
    · subst h
      rw [toCrlf_cons (by decide), toCrlf_nl, noDangling_esc, noDangling_esc, Ast1.noDangling_cons (by decide), ih]
    · rw [toCrlf_cons (by decide), toCrlf_cons h, noDangling_esc, noDangling_esc, ih]
  · intro c r hc ih
    by_cases h : c = '\n'
    · subst h
      rw [toCrlf_nl, Ast1.noDangling_cons (by decide), Ast1.noDangling_cons (by decide), Ast1.noDangling_cons hc, ih]
    · rw [toCrlf_cons h, Ast1.noDangling_cons hc, Ast1.noDangling_cons hc, ih]

theorem balanced_esc {v : ScopeVariant} {n c r} : Balanced v n ('\\' :: c :: r) ↔ Balanced v n r := by simp [Balanced]
theorem balanced_other {v : ScopeVariant} {n : Nat} {c : Char} {r} (h : c ≠ '\\') (h1 : c ≠ v.opening) (h2 : c ≠ v.closing) :
    Balanced v n (c :: r) ↔ Balanced v n r := by
  cases r <;> simp [Balanced, h, h1, h2]

theorem balanced_crlf {v : ScopeVariant} : ∀ s, NoEscapedNewline s → ∀ n, (Balanced v n (toCrlf s) ↔ Balanced v n s) := by
  have o1 : '\n' ≠ v.opening ∧ '\n' ≠ v.closing ∧ '\r' ≠ v.opening ∧ '\r' ≠ v.closing := by
    cases v <;> simp [ScopeVariant.opening, ScopeVariant.closing]
  refine pair_induction ?_ ?_ ?_ ?_
  · intro _ n; rfl
  · intro _ n; rfl
  · intro c r ih h n
    rw [noEsc_esc] at h
    rw [toCrlf_cons (by decide), toCrlf_cons h.1, balanced_esc, balanced_esc, ih h.2]
  · intro c r hc ih h n
    rw [noEsc_cons hc] at h
    by_cases hn : c = '\n'
    · subst hn
      rw [toCrlf_nl, balanced_other (by decide) o1.2.2.1 o1.2.2.2, balanced_other (by decide) o1.1 o1.2.1,
        balanced_other (by decide) o1.1 o1.2.1, ih h]
    · rw [toCrlf_cons hn]
      have e : ∀ r, Balanced v n (c :: r) ↔ if c = v.opening then Balanced v (n + 1) r
          else if c = v.closing then 0 < n ∧ Balanced v (n - 1) r else Balanced v n r := by
        intro r; cases r <;> simp [Balanced, hc]
      rw [e, e]
      simp only [ih h]

theorem drop_nil_bs (v : ScopeVariant) : dropBrackets v ['\\'] = ['\\'] := by cases v <;> rfl
theorem drop_cons {v : ScopeVariant} {c : Char} (h : c ≠ '\\') (r : Str) :
    dropBrackets v (c :: r) = if c = v.opening ∨ c = v.closing then dropBrackets v r else c :: dropBrackets v r := by
  cases r <;> simp [dropBrackets, h]
theorem drop_pair {v : ScopeVariant} {c : Char} (r : Str) : dropBrackets v ('\\' :: c :: r) = '\\' :: c :: dropBrackets v r := by
  simp [dropBrackets]

theorem dropBrackets_crlf {v : ScopeVariant} : ∀ s, NoEscapedNewline s →
    dropBrackets v (toCrlf s) = toCrlf (dropBrackets v s) := by
  have o1 : ¬('\n' = v.opening ∨ '\n' = v.closing) ∧ ¬('\r' = v.opening ∨ '\r' = v.closing) := by
    cases v <;> simp [ScopeVariant.opening, ScopeVariant.closing]
  refine pair_induction ?_ ?_ ?_ ?_
  · intro _; rfl
  · intro _; rw [toCrlf_self (by decide), drop_nil_bs]; rfl
  · intro c r ih h
    rw [noEsc_esc] at h
    rw [toCrlf_cons (by decide), toCrlf_cons h.1, drop_pair, drop_pair, ih h.2, toCrlf_cons (by decide), toCrlf_cons h.1]
  · intro c r hc ih h
    rw [noEsc_cons hc] at h
    by_cases hn : c = '\n'
    · subst hn
      rw [toCrlf_nl, drop_cons (by decide), drop_cons (by decide), drop_cons (by decide)]
      rw [if_neg o1.1, if_neg o1.2, if_neg o1.1, toCrlf_nl, ih h]
    · rw [toCrlf_cons hn, drop_cons hc, drop_cons hc]
      split
      · exact ih h
      · rw [toCrlf_cons hn, ih h]

theorem noEsc_dropBrackets {v : ScopeVariant} : ∀ s, NoEscapedNewline s → NoEscapedNewline (dropBrackets v s) := by
  refine pair_induction ?_ ?_ ?_ ?_
  · exact id
  · intro h; rw [drop_nil_bs]; exact h
  · intro c r ih h; rw [noEsc_esc] at h; rw [drop_pair, noEsc_esc]; exact ⟨h.1, ih h.2⟩
  · intro c r hc ih h
    rw [noEsc_cons hc] at h
    rw [drop_cons hc]
    split
    · exact ih h
    · exact (noEsc_cons hc).2 (ih h)

theorem toCrlf_split {c : Char} (h1 : c ≠ '\n') (h2 : c ≠ '\r') {r : Str} : ∀ {a x : Str}, toCrlf a = x ++ c :: r →
    ∃ x' r', a = x' ++ c :: r' ∧ toCrlf x' = x
  | [], x, h => by simp [toCrlf] at h
  | d :: a, x, h => by
    by_cases hd : d = '\n'
    · subst hd
      rw [toCrlf_nl] at h
      rcases x with _ | ⟨y, _ | ⟨z, x⟩⟩
      · simp at h; exact absurd h.1.symm h2
      · simp at h; exact absurd h.2.1.symm h1
      · simp only [List.cons_append, List.cons.injEq] at h
        obtain ⟨x', r', e, e'⟩ := toCrlf_split h1 h2 h.2.2
        exact ⟨'\n' :: x', r', by rw [e]; rfl, by rw [toCrlf_nl, e', h.1, h.2.1]⟩
    · rw [toCrlf_cons hd] at h
      rcases x with _ | ⟨y, x⟩
      · simp only [List.nil_append, List.cons.injEq] at h
        exact ⟨[], a, by rw [h.1]; rfl, rfl⟩
      · simp only [List.cons_append, List.cons.injEq] at h
        obtain ⟨x', r', e, e'⟩ := toCrlf_split h1 h2 h.2
        exact ⟨d :: x', r', by rw [e]; rfl, by rw [toCrlf_cons hd, e', h.1]⟩

namespace Ast1

theorem neverClosed_crlf {v : ScopeVariant} {a : Str} (hn : NoEscapedNewline a) (h : NeverClosed v a) :
    NeverClosed v (toCrlf a) := by
  rintro ⟨x, r, e, hd, hb⟩
  obtain ⟨x', r', e1, e2⟩ := toCrlf_split (by cases v <;> decide) (by cases v <;> decide) e
  subst e1 e2
  have hd' := (noDangling_crlf x').1 hd
  exact h ⟨x', r', rfl, hd', (balanced_crlf x' ((noEsc_append x' hd').1 hn).1 0).1 hb⟩

theorem Gap.crlf {g k : Str} (h : Gap g k) : Gap (toCrlf g) (toCrlf k) := by
  have wr : isWhitespace '\r' = true := by decide
  have wn : isWhitespace '\n' = true := by decide
  induction h with
  | nil => exact .nil
  | @plain c g k hc _ ih =>
    by_cases h : c = '\n'
    · subst h; rw [toCrlf_nl, toCrlf_nl]; exact .plain wr (.plain wn ih)
    · rw [toCrlf_cons h, toCrlf_cons h]; exact .plain hc ih
  | @escaped c g k hc _ ih =>
    rw [toCrlf_cons (by decide)]
    by_cases h : c = '\n'
    · subst h; rw [toCrlf_nl, toCrlf_nl]; exact .escaped wr (.plain wn ih)
    · rw [toCrlf_cons h, toCrlf_cons h]; exact .escaped hc ih

def WrittenArg.crlf (a : WrittenArg) : WrittenArg := ⟨toCrlf a.prec, a.kind, toCrlf a.content⟩

theorem toCrlf_opening (v : ScopeVariant) (s : Str) : toCrlf (v.opening :: s) = v.opening :: toCrlf s :=
  toCrlf_cons (by cases v <;> decide) s
theorem toCrlf_closing (v : ScopeVariant) (s : Str) : toCrlf (v.closing :: s) = v.closing :: toCrlf s :=
  toCrlf_cons (by cases v <;> decide) s
theorem toCrlf_optbs {b : Str} (h : b = [] ∨ b = ['\\']) : toCrlf b = b := by rcases h with rfl | rfl <;> rfl
theorem noEsc_opening {v : ScopeVariant} {s : Str} : NoEscapedNewline (v.opening :: s) ↔ NoEscapedNewline s :=
  noEsc_cons (by cases v <;> decide)
theorem noEsc_closing {v : ScopeVariant} {s : Str} : NoEscapedNewline (v.closing :: s) ↔ NoEscapedNewline s :=
  noEsc_cons (by cases v <;> decide)
theorem noEsc_optbs {b : Str} (h : b = [] ∨ b = ['\\']) {v : ScopeVariant} {s : Str} :
    NoEscapedNewline (b ++ v.opening :: s) ↔ NoEscapedNewline s := by
  rcases h with rfl | rfl
  · exact noEsc_opening
  · rw [List.singleton_append, noEsc_esc]; exact ⟨And.right, fun h => ⟨by cases v <;> decide, h⟩⟩

theorem Written.noEsc {w args} (h : Written w args) : ∀ r, NoEscapedNewline (w ++ r) →
    (∀ a ∈ args, NoEscapedNewline a.content) ∧ NoEscapedNewline r := by
  induction h with
  | none => intro r h; simpa using h
  | @arg g p b v a w args hg hb hd hbal _ ih =>
    intro r h
    have e : g ++ b ++ v.opening :: (a ++ v.closing :: w) ++ r
        = g ++ (b ++ v.opening :: (a ++ (v.closing :: (w ++ r)))) := by simp
    rw [e, noEsc_append g (clean_noDangling hg.clean), noEsc_optbs hb, noEsc_append a hd, noEsc_closing] at h
    have := ih r h.2.2
    exact ⟨by simpa using ⟨h.2.1, this.1⟩, this.2⟩

theorem Written.crlf {w args} (h : Written w args) : (∀ a ∈ args, NoEscapedNewline a.content) →
    Written (toCrlf w) (args.map WrittenArg.crlf) := by
  induction h with
  | none => intro _; exact .none
  | @arg g p b v a w args hg hb hd hbal _ ih =>
    intro h
    simp only [List.mem_cons, forall_eq_or_imp] at h
    rw [toCrlf_append, toCrlf_append, toCrlf_optbs hb, toCrlf_opening, toCrlf_append, toCrlf_closing]
    exact .arg hg.crlf hb ((noDangling_crlf a).2 hd) ((balanced_crlf a h.1 0).2 hbal) (ih h.2)

def Outcome.crlf : Outcome → Outcome
  | .ok cs => .ok (crlfChunks cs)
  | .error e => .error e

theorem Outcome.crlf_after (c : Chunk) (o : Outcome) : (o.after c).crlf = o.crlf.after c.crlf := by cases o <;> rfl

theorem scopeOutcome_crlf (l : Nat) (i o : Outcome) : (scopeOutcome l i o).crlf = scopeOutcome l i.crlf o.crlf := by
  cases i with
  | error e => rfl
  | ok a => exact Outcome.crlf_after _ o

def itemCrlf (x : WrittenArg × Outcome) : WrittenArg × Outcome := (x.1.crlf, x.2.crlf)

theorem argOutcome_crlf (items : List (WrittenArg × Outcome)) :
    argOutcome (items.map itemCrlf) = (argOutcome items).map crlfArgs := by
  induction items with
  | nil => rfl
  | cons x items ih =>
    obtain ⟨a, o⟩ := x
    simp only [List.map_cons, itemCrlf, argOutcome]
    cases o with
    | error e => rfl
    | ok cs =>
      simp only [Outcome.crlf]
      rw [ih]
      rcases argOutcome items with e | b <;> rfl

theorem commandOutcome_crlf (l : Nat) (name : Str) (items : List (WrittenArg × Outcome)) (o : Outcome) :
    (commandOutcome l name items o).crlf = commandOutcome l (toCrlf name) (items.map itemCrlf) o.crlf := by
  simp only [commandOutcome, argOutcome_crlf]
  rcases argOutcome items with e | b
  · rfl
  · exact Outcome.crlf_after _ o

theorem letterName_noNl {name : Str} (h : LetterName name) : '\n' ∉ name ∧ '\\' ∉ name := by
  obtain ⟨c, r, rfl, hc, hr⟩ := h
  constructor
  · intro hm
    simp at hm
    rcases hm with rfl | hm
    · exact absurd hc (by decide)
    · exact absurd (hr _ hm).1 (by decide)
  · intro hm
    simp at hm
    rcases hm with rfl | hm
    · exact absurd hc (by decide)
    · exact (hr _ hm).2 (by simp [Special])

theorem noEsc_command {name r : Str} (h : LetterName name) : NoEscapedNewline ('\\' :: (name ++ r)) → NoEscapedNewline r := by
  have hb := letterName_noNl h
  obtain ⟨c, nm, rfl, hc, hr⟩ := h
  intro h
  rw [List.cons_append, noEsc_esc] at h
  simp at hb
  exact ((noEsc_append nm (noDangling_noBs hb.2.2)).1 h.2).2

theorem map_items (items : List (WrittenArg × Outcome)) :
    (items.map itemCrlf).map (·.1) = (items.map (·.1)).map WrittenArg.crlf := by
  simp [itemCrlf, Function.comp_def]

theorem Reads.crlf {l s o} (h : Reads l s o) : NoEscapedNewline s → Reads l (toCrlf s) o.crlf := by
  induction h with
  | nil => intro _; exact .nil
  | @text l t r o hne ht he _ ih =>
    intro hn
    have hb : '\\' ∉ t := fun hm => ht _ hm (by simp)
    rw [noEsc_append t (noDangling_noBs hb)] at hn
    rw [Outcome.crlf_after, toCrlf_append]
    refine .text (t := toCrlf t) (fun e => hne (toCrlf_eq_nil.1 e)) (fun x hx => ?_) (fun c r' e => ?_) ?_
    · by_cases h : x = '\r'
      · subst h; decide
      · exact ht x (toCrlf_mem h hx)
    · cases r with
      | nil => cases e
      | cons d r =>
        have hd := he d r rfl
        rw [toCrlf_cons (by rintro rfl; simp at hd)] at e
        simp at e; rw [← e.1]; exact hd
    · rw [toCrlf_count]; exact ih hn.2
  | @scope l v a r i o hd hb h1 _ ih1 ih2 =>
    intro hn
    rw [noEsc_opening, noEsc_append a hd, noEsc_closing] at hn
    rw [scopeOutcome_crlf, toCrlf_opening, toCrlf_append, toCrlf_closing]
    refine .scope ((noDangling_crlf a).2 hd) ((balanced_crlf a hn.1 0).2 hb) (ih1 hn.1) ?_
    rw [toCrlf_count]; exact ih2 hn.2
  | @openScope l v a h =>
    intro hn
    rw [noEsc_opening] at hn
    rw [toCrlf_opening]
    exact .openScope (neverClosed_crlf hn h)
  | @symbol l c r o ha _ ih =>
    intro hn
    rw [noEsc_esc] at hn
    rw [Outcome.crlf_after, toCrlf_cons (by decide), toCrlf_cons hn.1]
    have e : Chunk.crlf (.mk (l + [c].count '\n') (.command (.mk [c] []))) = .mk (l + [c].count '\n') (.command (.mk [c] [])) := by
      simp [Chunk.crlf, ChunkVariant.crlf, Command.crlf, crlfArgs, toCrlf, hn.1]
    rw [e]
    exact .symbol ha (ih hn.2)
  | @command l name w g k t o items hn hw hg ht h1 _ ih1 ih2 =>
    intro h
    have h := hw.noEsc _ (noEsc_command hn h)
    have hgt := (noEsc_append g (clean_noDangling hg.clean)).1 h.2
    have en := letterName_noNl hn
    rw [commandOutcome_crlf, toCrlf_cons (by decide), toCrlf_append, toCrlf_append, toCrlf_append, toCrlf_self en.1]
    refine .command (k := toCrlf k) hn ?_ hg.crlf ?_ ?_ ?_
    · rw [map_items]; exact hw.crlf h.1
    · rw [map_items]
      rcases ht with ⟨c, r, rfl, hc, hm⟩ | ⟨c, r, rfl, hc1, hc, hm, hx⟩
      · refine .inl ⟨c, toCrlf r, ?_, hc, hm⟩
        rw [toCrlf_cons (by decide), toCrlf_cons (by rintro rfl; exact absurd hc (by decide))]
      · refine .inr ⟨c, toCrlf r, ?_, hc1, hc, hm, fun e => ?_⟩
        · rw [toCrlf_cons (by rintro rfl; exact absurd hc (by decide))]
        · obtain ⟨p, q⟩ := hx (toCrlf_eq_nil.1 e)
          exact ⟨by simpa using p, q⟩
    · intro x hx
      obtain ⟨y, hy, rfl⟩ := List.mem_map.1 hx
      have hc := h.1 y.1 (List.mem_map.2 ⟨y, hy, rfl⟩)
      have := ih1 y hy (noEsc_dropBrackets _ hc)
      simpa [itemCrlf, WrittenArg.crlf, dropBrackets_crlf _ hc] using this
    · rw [toCrlf_count, ← toCrlf_append]
      refine ih2 ?_
      rw [noEsc_append k (noDangling_noBs ?_)]
      · exact ⟨noEsc_noBs (fun hm => absurd (blank_text hg.blank _ hm) (by decide)), hgt.2⟩
      · exact fun hm => absurd (blank_text hg.blank _ hm) (by decide)
  | @lastCommand l name w g k items hn hw hg h1 ih1 =>
    intro h
    have h := hw.noEsc _ (noEsc_command hn h)
    have en := letterName_noNl hn
    rw [commandOutcome_crlf, toCrlf_cons (by decide), toCrlf_append, toCrlf_append, toCrlf_self en.1]
    have := Reads.lastCommand (l := l) (k := toCrlf k) (items := items.map itemCrlf) hn
      (by rw [map_items]; exact hw.crlf h.1) hg.crlf (by
        intro x hx
        obtain ⟨y, hy, rfl⟩ := List.mem_map.1 hx
        have hc := h.1 y.1 (List.mem_map.2 ⟨y, hy, rfl⟩)
        have := ih1 y hy (noEsc_dropBrackets _ hc)
        simpa [itemCrlf, WrittenArg.crlf, dropBrackets_crlf _ hc] using this)
    simp only [toCrlf_eq_nil, toCrlf_count] at this
    have e : Outcome.crlf (.ok (if k = [] then [] else [.mk (l + w.count '\n' + k.count '\n') (.text k)])) =
        .ok (if k = [] then [] else [.mk (l + w.count '\n' + k.count '\n') (.text (toCrlf k))]) := by
      simp only [Outcome.crlf]
      split <;> rfl
    rw [e]
    exact this
  | @openArgument l name w args g k b v a hn hw hg hb hnc =>
    intro h
    have h := hw.noEsc _ (noEsc_command hn h)
    have hgt := (noEsc_append g (clean_noDangling hg.clean)).1 h.2
    rw [noEsc_optbs hb] at hgt
    have en := letterName_noNl hn
    rw [toCrlf_cons (by decide), toCrlf_append, toCrlf_append, toCrlf_append, toCrlf_append, toCrlf_self en.1, toCrlf_optbs hb,
      toCrlf_opening]
    exact .openArgument hn (hw.crlf h.1) hg.crlf hb (neverClosed_crlf hgt.2 hnc)
  | @closing l name w args v r hn hw =>
    intro h
    have h := hw.noEsc _ (noEsc_command hn h)
    have en := letterName_noNl hn
    rw [toCrlf_cons (by decide), toCrlf_append, toCrlf_append, toCrlf_closing, toCrlf_self en.1, ← toCrlf_count w]
    exact .closing hn (hw.crlf h.1)

theorem clean_crlf {s : Str} (h : Clean s) : NoEscapedNewline s → Clean (toCrlf s) := by
  refine clean_induction (P := fun s => NoEscapedNewline s → Clean (toCrlf s)) ?_ ?_ ?_ s h
  · intro _; exact .nil
  · intro c r _ ih h
    rw [noEsc_esc] at h
    rw [toCrlf_cons (by decide), toCrlf_cons h.1, clean_esc_iff]; exact ih h.2
  · intro c r h1 h2 _ ih h
    rw [noEsc_cons h2] at h
    by_cases hn : c = '\n'
    · subst hn
      rw [toCrlf_nl, clean_char_iff (by decide), clean_char_iff (by decide)]
      exact ⟨by decide, by decide, ih h⟩
    · rw [toCrlf_cons hn, clean_char_iff h2]; exact ⟨h1, ih h⟩

theorem fromStr_crlf (s : Str) (h : SelfContained s) (hn : NoEscapedNewline s) :
    fromStr (toCrlf s) = crlfRes crlfChunks (fromStr s) := by
  have hc := clean_iff_self.2 h
  obtain ⟨o, ho⟩ := reads_total s hc 1
  rw [(reads_iff hc o).1 ho, (reads_iff (clean_crlf hc hn) o.crlf).1 (ho.crlf hn)]
  cases o with
  | ok a => rfl
  | error e =>
    obtain ⟨v, h | h | h⟩ := C49 s e ((reads_iff hc _).1 ho) <;> obtain ⟨n, t⟩ := e <;> simp only at h <;> subst h <;> rfl

end Ast1
end LatexAst
