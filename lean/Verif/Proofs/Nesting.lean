import Verif.Proofs.Conv2

/-! Open environments, levels, and what an accepted / rejected conversion says about them. -/

namespace LatexAst.Ast1

theorem Chunk.Begins.delim {c : Chunk} {lab} (h : c.Begins lab) : c.IsDelimiter := by
  obtain ⟨p, a, h⟩ := h; exact ⟨_, _, h, .inl rfl⟩
theorem Chunk.Ends.delim {c : Chunk} {lab} (h : c.Ends lab) : c.IsDelimiter := by
  obtain ⟨p, h⟩ := h; exact ⟨_, _, h, .inr rfl⟩
theorem Chunk.Begins.unique {c : Chunk} {lab lab'} (h : c.Begins lab) (h' : c.Begins lab') : lab = lab' := by
  obtain ⟨p, a, h⟩ := h; obtain ⟨p', a', h'⟩ := h'
  rw [h] at h'; simp at h'; exact h'.1.2
theorem Chunk.Ends.unique {c : Chunk} {lab lab'} (h : c.Ends lab) (h' : c.Ends lab') : lab = lab' := by
  obtain ⟨p, h⟩ := h; obtain ⟨p', h'⟩ := h'
  rw [h] at h'; simp at h'; exact h'.2
theorem Chunk.Begins.not_ends {c : Chunk} {lab lab'} (h : c.Begins lab) (h' : c.Ends lab') : False := by
  obtain ⟨p, a, h⟩ := h; obtain ⟨p', h'⟩ := h'
  rw [h] at h'; simp at h'

theorem Opened.snoc {a c st} (h : Opened (a ++ [c]) st) :
    (Opened a st ∧ ¬ c.IsDelimiter) ∨ (∃ lab r, st = lab :: r ∧ Opened a r ∧ c.Begins lab) ∨
    (∃ lab, Opened a (lab :: st) ∧ c.Ends lab) := by
  generalize hx : a ++ [c] = x at h
  cases h with
  | nil => simp at hx
  | other h1 h2 =>
    have := List.append_inj' hx rfl; simp at this; obtain ⟨rfl, rfl⟩ := this
    exact .inl ⟨h1, h2⟩
  | opens h1 h2 =>
    have := List.append_inj' hx rfl; simp at this; obtain ⟨rfl, rfl⟩ := this
    exact .inr (.inl ⟨_, _, rfl, h1, h2⟩)
  | closes h1 h2 =>
    have := List.append_inj' hx rfl; simp at this; obtain ⟨rfl, rfl⟩ := this
    exact .inr (.inr ⟨_, h1, h2⟩)

theorem Opened.unique {a st st'} (h : Opened a st) (h' : Opened a st') : st = st' := by
  induction h generalizing st' with
  | nil =>
    generalize hx : ([] : List Chunk) = x at h'
    cases h' <;> simp at hx; rfl
  | other h1 h2 ih =>
    rcases h'.snoc with ⟨h3, _⟩ | ⟨_, _, _, _, hb⟩ | ⟨_, _, he⟩
    · exact ih h3
    · exact absurd hb.delim h2
    · exact absurd he.delim h2
  | opens h1 h2 ih =>
    rcases h'.snoc with ⟨_, hn⟩ | ⟨_, _, rfl, h3, hb⟩ | ⟨_, _, he⟩
    · exact absurd h2.delim hn
    · rw [ih h3, h2.unique hb]
    · exact (h2.not_ends he).elim
  | closes h1 h2 ih =>
    rcases h'.snoc with ⟨_, hn⟩ | ⟨_, _, rfl, h3, hb⟩ | ⟨_, h3, he⟩
    · exact absurd h2.delim hn
    · exact (hb.not_ends h2).elim
    · have := ih h3; rw [List.cons.injEq] at this; exact this.2

theorem Opened.prefix {a b st} (h : Opened (a ++ b) st) : ∃ st', Opened a st' := by
  generalize hx : a ++ b = x at h
  induction h generalizing b with
  | nil => have : a = [] := by simp at hx; exact hx.1
           subst this; exact ⟨_, .nil⟩
  | other h1 h2 ih =>
    rcases List.eq_nil_or_concat b with rfl | ⟨b', c, rfl⟩
    · simp at hx; subst hx; exact ⟨_, .other h1 h2⟩
    · rw [List.concat_eq_append, ← List.append_assoc] at hx
      exact ih (List.append_inj' hx rfl).1
  | opens h1 h2 ih =>
    rcases List.eq_nil_or_concat b with rfl | ⟨b', c, rfl⟩
    · simp at hx; subst hx; exact ⟨_, .opens h1 h2⟩
    · rw [List.concat_eq_append, ← List.append_assoc] at hx
      exact ih (List.append_inj' hx rfl).1
  | closes h1 h2 ih =>
    rcases List.eq_nil_or_concat b with rfl | ⟨b', c, rfl⟩
    · simp at hx; subst hx; exact ⟨_, .closes h1 h2⟩
    · rw [List.concat_eq_append, ← List.append_assoc] at hx
      exact ih (List.append_inj' hx rfl).1

/-- Every delimiter of a well-opened sequence is in order. -/
theorem Opened.at {pre c post st} (h : Opened (pre ++ c :: post) st) :
    ∃ st0, Opened pre st0 ∧ (¬ c.IsDelimiter ∨ (∃ lab, c.Begins lab) ∨ ∃ lab r, st0 = lab :: r ∧ c.Ends lab) := by
  have : Opened ((pre ++ [c]) ++ post) st := by simpa using h
  obtain ⟨st', h'⟩ := this.prefix
  rcases h'.snoc with ⟨h3, hn⟩ | ⟨_, _, rfl, h3, hb⟩ | ⟨_, h3, he⟩
  · exact ⟨_, h3, .inl hn⟩
  · exact ⟨_, h3, .inr (.inl ⟨_, hb⟩)⟩
  · exact ⟨_, h3, .inr (.inr ⟨_, _, rfl, he⟩)⟩

theorem Opened.single_other {c : Chunk} (h : ¬ c.IsDelimiter) : Opened [c] [] := .other .nil h

theorem Matched.opened {cs} (h : Matched cs) : Opened cs [] := by
  induction h with
  | nil => exact .nil
  | other h1 _ ih => exact Opened.append ih (Opened.single_other h1)
  | @env b body e rest lab h1 _ h2 _ ih1 ih2 =>
    have h3 : Opened [b] [lab] := .opens (pre := []) .nil h1
    have h4 : Opened ([b] ++ body ++ [e]) [] := .closes (Opened.append ih1 h3) h2
    simpa using Opened.append ih2 h4

theorem Matched.append {a b} (ha : Matched a) (hb : Matched b) : Matched (a ++ b) := by
  induction ha with
  | nil => exact hb
  | other h1 _ ih => exact .other h1 ih
  | env h1 h2 h3 _ _ ih2 =>
    have := Matched.env h1 h2 h3 ih2
    simpa using this

/-- `a` is matched pieces separated by the open `\begin`s with labels `st`. -/
inductive Partly : List Chunk → List (List Chunk) → Prop
  | nil {a} : Matched a → Partly a []
  | cons {a st c lab b} : Partly a st → c.Begins lab → Matched b → Partly (a ++ c :: b) (lab :: st)

theorem Partly.append {a st b} (h : Partly a st) (hb : Matched b) : Partly (a ++ b) st := by
  cases h with
  | nil h => exact .nil (h.append hb)
  | cons h1 h2 h3 =>
    have := Partly.cons h1 h2 (h3.append hb)
    simpa using this

theorem Opened.partly {a st} (h : Opened a st) : Partly a st := by
  induction h with
  | nil => exact .nil .nil
  | other _ h2 ih => exact ih.append (.other h2 .nil)
  | opens _ h2 ih => exact .cons ih h2 .nil
  | closes _ h2 ih =>
    cases ih with
    | cons h3 h4 h5 =>
      have := h3.append (.env h4 h5 h2 .nil)
      simpa using this

theorem opened_iff_matched (cs : List Chunk) : Opened cs [] ↔ Matched cs := by
  constructor
  · intro h
    cases h.partly with
    | nil h => exact h
  · exact Matched.opened

/-- `inner` is the content of a scope or (non-label) argument of a chunk of `cs`. -/
inductive Child (cs : List Chunk) : List Chunk → Prop
  | scope {l inner sv} : Chunk.mk l (.scope (.mk inner sv)) ∈ cs → Child cs inner
  | arg {l label args prec inner sv} :
      Chunk.mk l (.command (.mk label args)) ∈ cs → label ≠ chars!"begin" → label ≠ chars!"end" →
      (prec, Scope.mk inner sv) ∈ args → Child cs inner
  | beginArg {l first args prec inner sv} :
      Chunk.mk l (.command (.mk chars!"begin" (first :: args))) ∈ cs →
      (prec, Scope.mk inner sv) ∈ args → Child cs inner

theorem Checked.child {d cs inner} (h : Checked d cs) (hc : Child cs inner) : Checked d inner := by
  cases hc with
  | scope h1 => exact .scope h h1
  | arg h1 h2 h3 h4 => exact .arg h h1 h2 h3 h4
  | beginArg h1 h2 => exact .beginArg h h1 h2

theorem Checked.cases_child {d lv} (h : Checked d lv) : lv = d ∨ ∃ cs, Checked d cs ∧ Child cs lv := by
  cases h with
  | top => exact .inl rfl
  | scope h h1 => exact .inr ⟨_, h, .scope h1⟩
  | arg h h1 h2 h3 h4 => exact .inr ⟨_, h, .arg h1 h2 h3 h4⟩
  | beginArg h h1 h2 => exact .inr ⟨_, h, .beginArg h1 h2⟩

theorem Checked.trans {a b c} (h : Checked a b) (h' : Checked b c) : Checked a c := by
  induction h' with
  | top => exact h
  | scope _ h1 ih => exact .scope ih h1
  | arg _ h1 h2 h3 h4 ih => exact .arg ih h1 h2 h3 h4
  | beginArg _ h1 h2 ih => exact .beginArg ih h1 h2

/-- Descend from the top instead. -/
theorem Checked.head {d lv} (h : Checked d lv) : lv = d ∨ ∃ inner, Child d inner ∧ Checked inner lv := by
  have key : ∀ lv, Checked d lv → ∀ inner, Child lv inner →
      (lv = d ∨ ∃ i, Child d i ∧ Checked i lv) → ∃ i, Child d i ∧ Checked i inner := by
    rintro lv _ inner hc (rfl | ⟨i, h1, h2⟩)
    · exact ⟨inner, hc, .top⟩
    · exact ⟨i, h1, h2.child hc⟩
  induction h with
  | top => exact .inl rfl
  | scope h h1 ih => exact .inr (key _ h _ (.scope h1) ih)
  | arg h h1 h2 h3 h4 ih => exact .inr (key _ h _ (.arg h1 h2 h3 h4) ih)
  | beginArg h h1 h2 ih => exact .inr (key _ h _ (.beginArg h1 h2) ih)

theorem Checked.level {d lv} (h : Checked d lv) : Level d lv := by
  induction h with
  | top => exact .top
  | scope _ h1 ih => exact .scope ih h1
  | arg _ h1 _ _ h4 ih => exact .arg ih h1 h4
  | beginArg _ h1 h2 ih => exact .arg ih h1 (List.mem_cons_of_mem _ h2)

theorem Child.mono {a b inner} (h : Child a inner) (hs : ∀ c ∈ a, c ∈ b) : Child b inner := by
  cases h with
  | scope h1 => exact .scope (hs _ h1)
  | arg h1 h2 h3 h4 => exact .arg (hs _ h1) h2 h3 h4
  | beginArg h1 h2 => exact .beginArg (hs _ h1) h2

theorem Child.of_variant {a b inner} (h : Child a inner)
    (hs : ∀ l v, Chunk.mk l v ∈ a → ∃ l', Chunk.mk l' v ∈ b) : Child b inner := by
  cases h with
  | scope h1 => obtain ⟨l', h⟩ := hs _ _ h1; exact .scope h
  | arg h1 h2 h3 h4 => obtain ⟨l', h⟩ := hs _ _ h1; exact .arg h h2 h3 h4
  | beginArg h1 h2 => obtain ⟨l', h⟩ := hs _ _ h1; exact .beginArg h h2

end LatexAst.Ast1

namespace LatexAst.Ast2
open LatexAst.Ast1 (Opened Matched Checked Child)

theorem delim_rebase (k : Nat) (c : Ast1.Chunk) : (rebase1 k c).IsDelimiter ↔ c.IsDelimiter := by
  obtain ⟨l, v⟩ := c; rfl
theorem begins_rebase (k : Nat) (c : Ast1.Chunk) (lab) : (rebase1 k c).Begins lab ↔ c.Begins lab := by
  obtain ⟨l, v⟩ := c; rfl
theorem ends_rebase (k : Nat) (c : Ast1.Chunk) (lab) : (rebase1 k c).Ends lab ↔ c.Ends lab := by
  obtain ⟨l, v⟩ := c; rfl

theorem opened_rebase {k a st} (h : Opened a st) : Opened (a.map (rebase1 k)) st := by
  induction h with
  | nil => exact .nil
  | other _ h2 ih => rw [List.map_append]; exact .other ih (by rwa [delim_rebase])
  | opens _ h2 ih => rw [List.map_append]; exact .opens ih ((begins_rebase ..).2 h2)
  | closes _ h2 ih => rw [List.map_append]; exact .closes ih ((ends_rebase ..).2 h2)

theorem mem_rebase {k : Nat} {a : List Ast1.Chunk} {l v} (h : .mk l v ∈ a.map (rebase1 k)) : ∃ l', .mk l' v ∈ a := by
  obtain ⟨⟨l', v'⟩, hm, he⟩ := List.mem_map.1 h
  simp [rebase1] at he
  exact ⟨l', he.2 ▸ hm⟩

theorem child_rebase {k a inner} (h : Child (a.map (rebase1 k)) inner) : Child a inner :=
  h.of_variant fun _ _ h => mem_rebase h
theorem child_rebase' {k a inner} (h : Child a inner) : Child (a.map (rebase1 k)) inner :=
  h.of_variant fun l _ h => ⟨l - k + 1, List.mem_map.2 ⟨_, h, rfl⟩⟩

theorem argsRel_mem {R a b} (h : ArgsRel R a b) {p inner sv} (hm : (p, Ast1.Scope.mk inner sv) ∈ a) :
    ∃ inner', R inner inner' := by
  induction h with
  | nil => cases hm
  | cons h1 _ ih =>
    rcases List.mem_cons.1 hm with hm | hm
    · cases hm; exact ⟨_, h1⟩
    · exact ih hm

/-- A child of the input is converted, or is a child of the content of an environment, which is. -/
theorem Shape.child {R d e} (h : Shape R d e) {inner} (hc : Child d inner) :
    (∃ inner', R inner inner') ∨ ∃ body k content, R (body.map (rebase1 k)) content ∧ Child body inner := by
  have split : ∀ {a b : List Ast1.Chunk} {inner}, Child (a ++ b) inner → Child a inner ∨ Child b inner := by
    intro a b inner h
    cases h with
    | scope h1 => rcases List.mem_append.1 h1 with h | h; exact .inl (.scope h); exact .inr (.scope h)
    | arg h1 h2 h3 h4 =>
      rcases List.mem_append.1 h1 with h | h
      exact .inl (.arg h h2 h3 h4); exact .inr (.arg h h2 h3 h4)
    | beginArg h1 h2 =>
      rcases List.mem_append.1 h1 with h | h
      exact .inl (.beginArg h h2); exact .inr (.beginArg h h2)
  induction h with
  | nil => cases hc <;> contradiction
  | text _ ih =>
    rcases split hc with hc | hc
    · exact ih hc
    · cases hc <;> simp_all
  | scope _ hr ih =>
    rcases split hc with hc | hc
    · exact ih hc
    · cases hc with
      | scope h => simp at h; obtain ⟨_, rfl, _⟩ := h; exact .inl ⟨_, hr⟩
      | arg h => simp at h
      | beginArg h => simp at h
  | command _ h1 h2 h3 ih =>
    rcases split hc with hc | hc
    · exact ih hc
    · cases hc with
      | scope h => simp at h
      | arg h _ _ hm => simp at h; obtain ⟨_, rfl, rfl⟩ := h; exact .inl (argsRel_mem h3 hm)
      | beginArg h => simp at h; exact absurd h.2.1.symm h1
  | @env d e l p lab args args' body l' p' content _ h1 h2 h3 h4 ih =>
    rcases split hc with hc | hc
    · exact ih hc
    · rw [← List.singleton_append] at hc
      rcases split hc with hc | hc
      · cases hc with
        | scope h => simp at h
        | arg h hb => simp at h; exact absurd h.2.1 hb
        | beginArg h hm => simp at h; obtain ⟨_, _, rfl⟩ := h; exact .inl (argsRel_mem h1 hm)
      · rcases split hc with hc | hc
        · exact .inr ⟨_, _, _, h4, hc⟩
        · cases hc with
          | scope h => simp at h
          | arg h hb he => simp at h; exact absurd h.2.1 he
          | beginArg h => simp at h

/-- Accepted documents are well nested at every checked level. -/
theorem ok_opened {d e} (h : tryFrom d = .ok e) : ∀ lv, Checked d lv → Opened lv [] := by
  refine conv_induction (P := fun d _ => ∀ lv, Checked d lv → Opened lv []) ?_ h
  intro d e hs lv hl
  rcases hl.head with rfl | ⟨inner, hc, hl⟩
  · exact hs.opened
  · rcases hs.child hc with ⟨_, hr⟩ | ⟨body, k, content, hr, hcb⟩
    · exact hr lv hl
    · exact hr lv (Checked.trans (.child .top (child_rebase' hcb)) hl)

theorem Misnested.not_opened {cs t} (h : Ast1.Misnested cs t) : ¬ Opened cs [] := by
  intro ho
  cases h with
  | unclosed h1 h2 => have := ho.unique h1; subst this; simp at h2
  | unexpectedEnd h1 h2 h3 h4 =>
    subst h1
    obtain ⟨st0, h5, h6⟩ := ho.at
    have := h5.unique h2; subst this
    rcases h6 with h6 | ⟨lab, h6⟩ | ⟨lab, r, rfl, h6⟩
    · exact h6 ⟨_, _, h3, .inr rfl⟩
    · obtain ⟨_, _, h6⟩ := h6; rw [h3] at h6; simp at h6
    · obtain ⟨_, h6⟩ := h6; rw [h3] at h6; simp at h6; exact h4 (by simp [h6.1.2])
  | tooManyArgs h1 h2 h3 =>
    subst h1
    obtain ⟨st0, h5, h6⟩ := ho.at
    rcases h6 with h6 | ⟨lab, h6⟩ | ⟨lab, r, rfl, h6⟩
    · exact h6 ⟨_, _, h3, .inr rfl⟩
    · obtain ⟨_, _, h6⟩ := h6; rw [h3] at h6; simp at h6
    · obtain ⟨_, h6⟩ := h6; rw [h3] at h6; simp at h6
  | noLabel h1 h2 h3 h4 h5 =>
    subst h1
    obtain ⟨st0, _, h6⟩ := ho.at
    rcases h6 with h6 | ⟨lab, h6⟩ | ⟨lab, r, rfl, h6⟩
    · exact h6 ⟨_, _, h3, h4⟩
    · obtain ⟨_, _, h6⟩ := h6; rw [h3] at h6; simp at h6; exact h5 _ _ _ h6.2
    · obtain ⟨_, h6⟩ := h6; rw [h3] at h6; simp at h6; exact h5 _ _ _ h6.2

theorem addLine_err {α} {k : Nat} {f : Fail} {e : Error} (h : addLine (α := α) k (.error f) = .error (.err e)) :
    ∃ e', f = .err e' ∧ e.line = e'.line + k ∧ e.type = e'.type := by
  cases f with
  | err e' => simp [addLine] at h; subst h; exact ⟨_, rfl, rfl, rfl⟩
  | panic => simp [addLine] at h
  | fuel => simp [addLine] at h

theorem addLine_panic {α} {k : Nat} {f : Fail} (h : addLine (α := α) k (.error f) = .error .panic) :
    f = .panic := by
  cases f <;> simp [addLine] at h ⊢

theorem addLine_fuel {α} {k : Nat} {f : Fail} (h : addLine (α := α) k (.error f) = .error .fuel) :
    f = .fuel := by
  cases f <;> simp [addLine] at h ⊢

theorem child_scope {pre post : List Ast1.Chunk} {l inner sv} :
    Child (pre ++ .mk l (.scope (.mk inner sv)) :: post) inner := .scope (l := l) (sv := sv) (by simp)

theorem child_command {pre post : List Ast1.Chunk} {l label args p inner sv} (h1 : label ≠ chars!"begin")
    (h2 : label ≠ chars!"end") (hm : (p, Ast1.Scope.mk inner sv) ∈ args) :
    Child (pre ++ .mk l (.command (.mk label args)) :: post) inner := .arg (l := l) (by simp) h1 h2 hm

theorem child_env {pre body post : List Ast1.Chunk} {l p lab args p' inner sv}
    (hm : (p', Ast1.Scope.mk inner sv) ∈ args) :
    Child (pre ++ beginC l p lab args :: body ++ post) inner :=
  .beginArg (l := l) (first := (p, .mk lab .curly)) (by simp) hm

/-- Rejected documents are misnested at some checked level, as the error type says. -/
theorem error_misnested {d e} (h : tryFrom d = .error (.err e)) :
    ∃ lv, Checked d lv ∧ Ast1.Misnested lv e.type := by
  refine fail_induction (P := fun d f => ∀ e, f = .err e → ∃ lv, Checked d lv ∧ Ast1.Misnested lv e.type) ?_ h e rfl
  intro d f hf e he
  subst he
  cases hf with
  | @unclosed d0 e l p lab args body st h1 h2 h3 =>
    subst h1
    have := Ast1.Opened.append h3 (.opens h2.opened (begins_beginC l p lab args))
    exact ⟨_, .top, .unclosed (by simpa using this) (by simp)⟩
  | @stop pre c post f hd hs =>
    subst hd
    have sub : ∀ {inner}, Child (pre ++ c :: post) inner → (∃ lv, Checked inner lv ∧ Ast1.Misnested lv e.type) →
        ∃ lv, Checked (pre ++ c :: post) lv ∧ Ast1.Misnested lv e.type := by
      rintro inner hc ⟨lv, h1, h2⟩
      exact ⟨lv, Checked.trans (.child .top hc) h1, h2⟩
    cases hs with
    | scope h1 h2 h3 f' h4 =>
      subst h2
      obtain ⟨e', rfl, _, ht⟩ := addLine_err h4
      rw [ht] at sub ⊢
      exact sub child_scope (h3 _ rfl)
    | command h1 h2 h3 h4 h5 h6 =>
      subst h4
      exact sub (child_command h2 h3 h5) (h6 _ rfl)
    | envArg h1 h2 h3 h4 h5 h6 =>
      subst h1
      exact sub (child_env h5) (h6 _ rfl)
    | content h1 h2 h3 h4 h5 h6 f' h7 =>
      subst h1
      obtain ⟨e', rfl, _, ht⟩ := addLine_err h7
      obtain ⟨lv, hl, hm⟩ := h6 _ rfl
      rw [ht]
      rcases hl.head with rfl | ⟨inner, hc, hl⟩
      · exact absurd (opened_rebase h3) (Misnested.not_opened hm)
      · refine ⟨lv, Checked.trans (.child .top ((child_rebase hc).mono ?_)) hl, hm⟩
        intro c hc; simp [hc]
    | noLabel h1 h2 h3 h4 => subst h2; exact ⟨_, .top, .noLabel rfl h1 rfl h3 h4⟩
    | unexpectedEnd h1 h2 h3 => subst h2; exact ⟨_, .top, .unexpectedEnd rfl h1 rfl h3⟩
    | tooMany h1 h2 => subst h2; exact ⟨_, .top, .tooManyArgs rfl h1 rfl⟩

/-- The recursion bound is never hit. -/
theorem tryFrom_fuel (d : Ast1.Document) : tryFrom d ≠ .error .fuel := by
  intro h
  refine fail_induction (P := fun d f => f ≠ .fuel) ?_ h rfl
  rintro d f hf rfl
  cases hf with
  | stop hd hs =>
    cases hs with
    | scope h1 h2 h3 f' h4 => exact h3 (addLine_fuel h4)
    | command h1 h2 h3 h4 h5 h6 => exact h6 rfl
    | envArg h1 h2 h3 h4 h5 h6 => exact h6 rfl
    | content h1 h2 h3 h4 h5 h6 f' h7 => exact h6 (addLine_fuel h7)

theorem newlines_beginC (l p lab args) :
    startL l p lab args = l + (Ast1.displayArgs ((p, .mk lab .curly) :: args)).count '\n' := by
  rw [startL, argNewlines_eq, newlines_eq_count]

theorem numbered_child {d inner} (h : Ast1.NumberedInOrder d) (hc : Child d inner) : Ast1.NumberedInOrder inner :=
  fun lv hl => h lv (Checked.trans (.child .top hc) hl)

theorem map_eq_append_cons {α β} {f : α → β} {a : List α} {x y z} (h : a.map f = x ++ y :: z) :
    ∃ x' y' z', a = x' ++ y' :: z' ∧ x'.map f = x ∧ f y' = y ∧ z'.map f = z := by
  obtain ⟨x', r, rfl, h1, h2⟩ := List.map_eq_append_iff.1 h
  obtain ⟨y', z', rfl, h3, h4⟩ := List.map_eq_cons_iff.1 h2
  exact ⟨x', y', z', rfl, h1, h3, h4⟩

theorem numbered_body {d0 c0 body rest : List Ast1.Chunk} {k : Nat}
    (h : Ast1.NumberedInOrder (d0 ++ (c0 ++ (body ++ rest)))) (hk : ∀ c ∈ body, k ≤ c.lineNo) :
    Ast1.NumberedInOrder (body.map (rebase1 k)) := by
  intro lv hl pre l args mid c post he
  rcases hl.head with rfl | ⟨inner, hc, hl⟩
  · obtain ⟨pre', ⟨l', v'⟩, r', rfl, rfl, h1, h2⟩ := map_eq_append_cons he
    obtain ⟨mid', ⟨lc, vc⟩, post', rfl, rfl, h3, rfl⟩ := map_eq_append_cons h2
    simp only [rebase1, Ast1.Chunk.mk.injEq] at h1 h3
    obtain ⟨rfl, rfl⟩ := h1
    subst h3
    have := h _ .top (d0 ++ (c0 ++ pre')) l' args mid' (.mk lc vc) (post' ++ rest) (by simp)
    have h4 := hk (.mk l' (.command (.mk chars!"begin" args))) (by simp)
    have h5 := hk (.mk lc vc) (by simp)
    simp only [Ast1.Chunk.lineNo, rebase1] at *
    omega
  · refine h lv (Checked.trans (.child .top ((child_rebase hc).mono ?_)) hl) pre l args mid c post he
    intro c hc; simp [hc]

/-- With line numbers in order there is no panic. -/
theorem tryFrom_no_panic {d} (hn : Ast1.NumberedInOrder d) : tryFrom d ≠ .error .panic := by
  intro h
  refine fail_induction (P := fun d f => Ast1.NumberedInOrder d → f ≠ .panic) ?_ h hn rfl
  rintro d f hf hn rfl
  cases hf with
  | @stop pre c post f hd hs =>
    subst hd
    cases hs with
    | scope h1 h2 h3 f' h4 => subst h2; exact h3 (numbered_child hn child_scope) (addLine_panic h4)
    | command h1 h2 h3 h4 h5 h6 =>
      subst h4
      exact h6 (numbered_child hn (child_command h2 h3 h5)) rfl
    | envArg h1 h2 h3 h4 h5 h6 => subst h1; exact h6 (numbered_child hn (child_env h5)) rfl
    | content h1 h2 h3 h4 h5 h6 f' h7 =>
      subst h1
      refine h6 (numbered_body (d0 := _) (c0 := [_]) (rest := c :: post) (by simpa using hn) h4) (addLine_panic h7)
    | @underflow d l p lab args body h1 h2 =>
      subst h1
      have := hn _ .top d l ((p, .mk lab .curly) :: args) body c post (by simp)
      rw [newlines_beginC] at h2
      omega

end LatexAst.Ast2
