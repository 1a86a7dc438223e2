import Verif.Proofs.Grammar3

/-!
# Reading is compositional
-/

namespace LatexAst.Ast1
open Spec

theorem Outcome.shift_after (k : Nat) (c : Chunk) (o : Outcome) :
    (o.after c).shift k = (o.shift k).after (c.shift k) := by cases o <;> rfl

theorem argOutcome_error_or (items) : (∃ e, argOutcome items = .error e) ∨ ∃ a, argOutcome items = .ok a := by
  cases argOutcome items with
  | error e => exact .inl ⟨e, rfl⟩
  | ok a => exact .inr ⟨a, rfl⟩

theorem commandOutcome_shift {l k : Nat} (hl : 1 ≤ l) (name items) (o : Outcome) :
    (commandOutcome l name items o).shift k = commandOutcome (l + k) name items (o.shift k) := by
  unfold commandOutcome
  cases argOutcome items with
  | error e => simp only [Outcome.shift, shifted]; congr 2; omega
  | ok a => simp only [Outcome.shift_after, Chunk.shift]

theorem scopeOutcome_shift {l k : Nat} (hl : 1 ≤ l) (i o : Outcome) :
    (scopeOutcome l i o).shift k = scopeOutcome (l + k) i (o.shift k) := by
  unfold scopeOutcome
  cases i with
  | error e => simp only [Outcome.shift, shifted]; congr 2; omega
  | ok a => simp only [Outcome.shift_after, Chunk.shift]

/-- Starting `k` lines later shifts the line numbers by `k`. -/
theorem Reads.shift {l s o} (h : Reads l s o) (k : Nat) : 1 ≤ l → Reads (l + k) s (o.shift k) := by
  induction h with
  | nil => intro _; exact .nil
  | @text l t r o hne ht he _ ih =>
    intro hl
    rw [Outcome.shift_after]
    have := ih (by omega)
    rw [show l + t.count '\n' + k = l + k + t.count '\n' by omega] at this
    exact .text hne ht he this
  | @scope l v a r i o hd hb h1 _ ih1 ih2 =>
    intro hl
    rw [scopeOutcome_shift hl]
    have := ih2 (by omega)
    rw [show l + a.count '\n' + k = l + k + a.count '\n' by omega] at this
    exact .scope hd hb h1 this
  | openScope h => intro _; exact .openScope h
  | @symbol l c r o ha _ ih =>
    intro hl
    rw [Outcome.shift_after]
    have := ih (by omega)
    rw [show l + [c].count '\n' + k = l + k + [c].count '\n' by omega] at this
    have := Reads.symbol ha this
    rw [show l + k + [c].count '\n' = l + [c].count '\n' + k by omega] at this
    exact this
  | @command l name w g k' t o items hn hw hg ht h1 _ ih1 ih2 =>
    intro hl
    rw [commandOutcome_shift hl]
    have := ih2 (by omega)
    rw [show l + w.count '\n' + k = l + k + w.count '\n' by omega] at this
    exact .command hn hw hg ht h1 this
  | @lastCommand l name w g k' items hn hw hg h1 ih1 =>
    intro hl
    rw [commandOutcome_shift hl]
    have := Reads.lastCommand (l := l + k) hn hw hg h1
    have e : Outcome.shift k (.ok (if k' = [] then [] else
        [.mk (l + w.count '\n' + k'.count '\n') (.text k')])) =
        .ok (if k' = [] then [] else [.mk (l + k + w.count '\n' + k'.count '\n') (.text k')]) := by
      simp only [Outcome.shift]
      split
      · rfl
      · simp only [List.map_cons, List.map_nil, Chunk.shift]
        rw [show l + w.count '\n' + k'.count '\n' + k = l + k + w.count '\n' + k'.count '\n' by omega]
    rw [e]
    exact this
  | openArgument hn hw hg hb hnc => intro _; exact .openArgument hn hw hg hb hnc
  | @closing l name w args v r hn hw =>
    intro _
    have := Reads.closing (l := l + k) (v := v) (r := r) hn hw
    rw [show l + k + w.count '\n' = l + w.count '\n' + k by omega] at this
    exact this

theorem Complete.tail {c : Chunk} {cs : List Chunk} (h : Complete (c :: cs)) : Complete cs := by
  refine ⟨?_, ?_⟩
  · rintro ⟨init, l, c', r, args, rfl, ha⟩
    exact h.1 ⟨c :: init, l, c', r, args, rfl, ha⟩
  · rintro ⟨init, l, t, rfl, hb, i2, l', c', r, args, rfl, ha⟩
    exact h.2 ⟨c :: (i2 ++ [.mk l' (.command (.mk (c' :: r) args))]), l, t, rfl, hb, c :: i2, l', c', r, args, rfl, ha⟩

/-- The chunks `d`, then the outcome of the rest. -/
def Outcome.before (d : List Chunk) : Outcome → Outcome
  | .ok cs => .ok (d ++ cs)
  | .error e => .error e

theorem after_ok {c : Chunk} {o : Outcome} {d} (h : o.after c = .ok d) : ∃ d', o = .ok d' ∧ d = c :: d' := by
  cases o with
  | error e => cases h
  | ok d' => injection h with h; exact ⟨d', rfl, h.symm⟩

theorem before_cons (c : Chunk) (d) (o : Outcome) : Outcome.before (c :: d) o = (Outcome.before d o).after c := by
  cases o <;> rfl

theorem Reads.append {l a o} (h : Reads l a o) : ∀ {d b o'}, o = .ok d → Complete d → TextEnds b →
    Reads (l + a.count '\n') b o' → Reads l (a ++ b) (o'.before d) := by
  induction h with
  | nil =>
    intro d b o' he _ _ hr
    injection he with he; subst he
    cases o' <;> simpa [Outcome.before] using hr
  | @text l t r o hne ht he _ ih =>
    intro d b o' ho hd hb hr
    obtain ⟨d', rfl, rfl⟩ := after_ok ho
    rw [before_cons, List.append_assoc]
    refine .text hne ht ?_ (ih rfl hd.tail hb ?_)
    · cases r with
      | nil => simpa using hb
      | cons c r => intro c' r' he'; injection he' with e1 _; subst e1; exact he c r rfl
    · rwa [Nat.add_assoc, ← List.count_append]
  | @scope l v a r i o hdn hbal h1 _ ih1 ih2 =>
    intro d b o' ho hd hb hr
    cases i with
    | error e => cases ho
    | ok inner =>
      obtain ⟨d', rfl, rfl⟩ := after_ok ho
      rw [before_cons]
      have e : v.opening :: (a ++ v.closing :: r) ++ b = v.opening :: (a ++ v.closing :: (r ++ b)) := by simp
      rw [e]
      have := Reads.scope (l := l) hdn hbal h1 (ih2 rfl hd.tail hb (by
        have e2 : l + (v.opening :: (a ++ v.closing :: r)).count '\n' = l + a.count '\n' + r.count '\n' := by
          rw [List.count_cons_of_ne (opening_ne_nl v), List.count_append,
            List.count_cons_of_ne (closing_ne_nl v)]
          omega
        rwa [e2] at hr))
      exact this
  | openScope => intro _ _ _ ho; cases ho
  | @symbol l c r o ha _ ih =>
    intro d b o' ho hd hb hr
    obtain ⟨d', rfl, rfl⟩ := after_ok ho
    rw [before_cons]
    refine .symbol ha (ih rfl hd.tail hb ?_)
    have e2 : l + ('\\' :: c :: r).count '\n' = l + [c].count '\n' + r.count '\n' := by
      rw [List.count_cons_of_ne (by decide), show c :: r = [c] ++ r from rfl, List.count_append]
      omega
    rwa [e2] at hr
  | @command l name w g k t o items hn hw hg ht h1 _ ih1 ih2 =>
    intro d b o' ho hd hb hr
    unfold commandOutcome at ho
    rcases argOutcome_error_or items with ⟨e, he⟩ | ⟨args, he⟩
    · rw [he] at ho; cases ho
    · rw [he] at ho
      obtain ⟨d', rfl, rfl⟩ := after_ok ho
      rw [before_cons]
      have e : '\\' :: (name ++ (w ++ (g ++ t))) ++ b = '\\' :: (name ++ (w ++ (g ++ (t ++ b)))) := by simp
      rw [e]
      have ht' : GoesOn (items.map (·.1)) g (t ++ b) := by
        rcases ht with ⟨c, r, rfl, h⟩ | ⟨c, r, rfl, h⟩
        · exact .inl ⟨c, r ++ b, rfl, h⟩
        · exact .inr ⟨c, r ++ b, rfl, h⟩
      have hrest := ih2 rfl hd.tail hb (o' := o') (by
        have e2 : l + ('\\' :: (name ++ (w ++ (g ++ t)))).count '\n' = l + w.count '\n' + (k ++ t).count '\n' := by
          rw [List.count_cons_of_ne (by decide)]
          simp only [List.count_append]
          have h3 := newlines_label hn
          rw [newlines_eq_count] at h3
          have h4 := hg.newlines
          rw [newlines_eq_count, newlines_eq_count] at h4
          omega
        rwa [e2] at hr)
      rw [List.append_assoc] at hrest
      have := Reads.command (l := l) hn hw hg ht' h1 hrest
      unfold commandOutcome at this
      rw [he] at this
      exact this
  | @lastCommand l name w g k items hn hw hg h1 ih1 =>
    intro d b o' ho hd hb hr
    exfalso
    unfold commandOutcome at ho
    obtain ⟨c, r, rfl, ha, _⟩ := hn
    rcases argOutcome_error_or items with ⟨e, he⟩ | ⟨args, he⟩
    · rw [he] at ho; cases ho
    · rw [he] at ho
      simp only [Outcome.after] at ho
      injection ho with ho
      by_cases hk : k = []
      · rw [if_pos hk] at ho
        exact hd.1 ⟨[], l, c, r, args, ho.symm, ha⟩
      · rw [if_neg hk] at ho
        refine hd.2 ⟨[.mk l (.command (.mk (c :: r) args))], _, k, ho.symm, hg.blank, [], l, c, r, args, rfl, ha⟩
  | openArgument => intro _ _ _ ho; cases ho
  | closing => intro _ _ _ ho; cases ho

theorem keep_append {a : Str} (h : Clean a) (b : Str) :
    dropDangling (keepBackslashes (a ++ b)) = a ++ dropDangling (keepBackslashes b) := by
  refine clean_induction (P := fun a => dropDangling (keepBackslashes (a ++ b)) =
    a ++ dropDangling (keepBackslashes b)) rfl ?_ ?_ a h
  · intro c r _ ih; simp [keepBackslashes, dropDangling, ih]
  · intro c r h1 h2 _ ih
    have e : keepBackslashes (c :: (r ++ b)) = c :: keepBackslashes (r ++ b) := by simp [keepBackslashes, h2]
    rw [List.cons_append, e]
    have e2 : dropDangling (c :: keepBackslashes (r ++ b)) = c :: dropDangling (keepBackslashes (r ++ b)) := by
      cases keepBackslashes (r ++ b) <;> simp [dropDangling, h2]
    rw [e2, ih]; rfl

theorem textEnds_normal {b : Str} (h : TextEnds b) : TextEnds (dropDangling (keepBackslashes b)) := by
  intro c r he
  cases b with
  | nil => simp [keepBackslashes, dropDangling] at he
  | cons x b =>
    have hx := h x b rfl
    have hp : x ≠ '%' := by rintro rfl; simp at hx
    by_cases h2 : x = '\\'
    · subst h2
      cases b with
      | nil => simp [keepBackslashes, dropDangling] at he
      | cons y b => simp [keepBackslashes, dropDangling] at he; rw [← he.1]; simp
    · have e : keepBackslashes (x :: b) = x :: keepBackslashes b := by simp [keepBackslashes, hp, h2]
      rw [e] at he
      have e2 : dropDangling (x :: keepBackslashes b) = x :: dropDangling (keepBackslashes b) := by
        cases keepBackslashes b <;> simp [dropDangling, h2]
      rw [e2] at he
      injection he with e1 _; subst e1; exact hx

theorem fromStr_append {a b : Str} {d : List Chunk} (ha : SelfContained a) (hb : TextEnds b)
    (hd : fromStr a = .ok d) (hc : Complete d) (o : Outcome) (ho : fromStr b = o.toRes) :
    fromStr (a ++ b) = ((o.shift (a.count '\n')).before d).toRes := by
  rw [← reads_any, keep_append (self_clean a ha)]
  have h1 := (reads_iff (self_clean a ha) (.ok d)).2 hd
  have h2 := ((reads_any b o).2 ho).shift (a.count '\n') (by omega)
  exact h1.append rfl hc (textEnds_normal hb) h2

end LatexAst.Ast1
