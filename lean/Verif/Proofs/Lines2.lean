import Verif.Proofs.Conv2Facts

/-! Line numbers of stage-2 errors and environments. -/

namespace LatexAst.Ast2
open LatexAst.Ast1 (Opened Matched Checked Child Sane SaneAll)
open Spec

/-- Number of opening brackets. -/
def openers (s : Str) : Nat := s.countP (fun c => c == '{' || c == '[' || c == '(')

@[simp] theorem openers_append (a b : Str) : openers (a ++ b) = openers a + openers b := by simp [openers]
@[simp] theorem openers_opening (v : ScopeVariant) (s : Str) : openers (v.opening :: s) = openers s + 1 := by
  cases v <;> simp [openers, ScopeVariant.opening]

theorem display_scope_parts {l inner sv} :
    newlines (Ast1.Chunk.mk l (.scope (.mk inner sv))).display = newlines (Ast1.displayChunks inner) ∧
    openers (Ast1.displayChunks inner) + 1 ≤ openers (Ast1.Chunk.mk l (.scope (.mk inner sv))).display := by
  simp [Ast1.Chunk.display, Ast1.ChunkVariant.display, Ast1.Scope.display]

theorem display_arg_le {args : List (Str × Ast1.Scope)} {p inner sv} (hm : (p, Ast1.Scope.mk inner sv) ∈ args) :
    newlines (Ast1.displayChunks inner) ≤ newlines (Ast1.displayArgs args) ∧
    openers (Ast1.displayChunks inner) ≤ openers (Ast1.displayArgs args) := by
  induction args with
  | nil => cases hm
  | cons x r ih =>
    obtain ⟨p', s⟩ := x
    rcases List.mem_cons.1 hm with h | h
    · cases h
      simp [Ast1.displayArgs, Ast1.Scope.display]; omega
    · have := ih h
      simp [Ast1.displayArgs]; omega

theorem openers_le_cons (c : Char) (s : Str) : openers s ≤ openers (c :: s) := by
  simp only [openers, List.countP_cons]; omega

theorem display_command_le {l label} {args : List (Str × Ast1.Scope)} {p inner sv}
    (hm : (p, Ast1.Scope.mk inner sv) ∈ args) :
    newlines (Ast1.displayChunks inner) ≤ newlines (Ast1.Chunk.mk l (.command (.mk label args))).display ∧
    openers (Ast1.displayChunks inner) ≤ openers (Ast1.Chunk.mk l (.command (.mk label args))).display := by
  have := display_arg_le hm
  have h2 := openers_le_cons '\\' (label ++ Ast1.displayArgs args)
  simp [Ast1.Chunk.display, Ast1.ChunkVariant.display, Ast1.Command.display, newlines_cons] at *
  omega

theorem openers_beginC (l p lab args) : 1 ≤ openers (beginC l p lab args).display := by
  simp [beginC, Ast1.Chunk.display, Ast1.ChunkVariant.display, Ast1.Command.display, Ast1.displayArgs,
    Ast1.Scope.display, openers, ScopeVariant.opening, List.countP_append, List.countP_cons]
  omega

/-- Lines of stage-2 errors. -/
theorem error_line {d e} (h : tryFrom d = .error (.err e)) (hs : SaneAll d) :
    1 ≤ e.line ∧ e.line ≤ 1 + newlines (Ast1.displayChunks d) + openers (Ast1.displayChunks d) := by
  refine fail_induction (P := fun d f => ∀ e, f = .err e → SaneAll d → 1 ≤ e.line ∧
    e.line ≤ 1 + newlines (Ast1.displayChunks d) + openers (Ast1.displayChunks d)) ?_ h e rfl hs
  intro d f hf e he hs
  subst he
  cases hf with
  | @unclosed d0 e l p lab args body st h1 h2 h3 =>
    subst h1
    have := (hs _ .top).begin_exact rfl
    simp only [Ast1.displayChunks_append, Ast1.displayChunks_cons, newlines_append, display_beginC, startL]
    omega
  | @stop pre c post f hd hst =>
    subst hd
    obtain ⟨g1, g2, g3⟩ := hs _ .top pre c post rfl
    simp only [Ast1.displayChunks_append, Ast1.displayChunks_cons, newlines_append, openers_append]
    cases hst with
    | @scope _ l inner sv _ h1 h2 h3 f' h4 =>
      subst h2
      obtain ⟨e', rfl, hl, _⟩ := addLine_err h4
      have := h3 e' rfl (Ast1.saneAll_child hs child_scope)
      have h5 := display_scope_parts (l := l) (inner := inner) (sv := sv)
      have h6 := g3 (by simp [Ast1.Chunk.variant]) (by simp [Ast1.Chunk.variant])
      simp only [Ast1.Chunk.lineNo] at h6
      omega
    | @command _ l label args p inner sv f h1 h2 h3 h4 h5 h6 =>
      subst h4
      have := h6 e rfl (Ast1.saneAll_child hs (child_command h2 h3 h5))
      have h7 := display_command_le (l := l) (label := label) h5
      omega
    | @envArg d e' l p lab args body l' p' p'' inner sv f h1 h2 h3 h4 h5 h6 =>
      subst h1
      have := h6 e rfl (Ast1.saneAll_child hs (child_env h5))
      have h7 : newlines (Ast1.displayChunks inner) ≤ newlines (beginC l p lab args).display ∧
          openers (Ast1.displayChunks inner) ≤ openers (beginC l p lab args).display :=
        display_command_le (l := l) (label := chars!"begin") (List.mem_cons_of_mem (p, .mk lab .curly) h5)
      simp only [Ast1.displayChunks_append, Ast1.displayChunks_cons, newlines_append, openers_append] at *
      omega
    | @content d e' l p lab args body l' p' f h1 h2 h3 h4 h5 h6 f' h7 =>
      subst h1
      obtain ⟨e', rfl, hl, _⟩ := addLine_err h7
      have := h6 e' rfl (sane_body (rest := c :: post) (by simpa using hs))
      have hb := (hs _ .top).begin_exact (post := body ++ c :: post) (pre := d) (l := l)
        (args := (p, .mk lab .curly) :: args) (by simp)
      have h8 := openers_beginC l p lab args
      rw [display_rebase] at this
      simp only [Ast1.displayChunks_append, Ast1.displayChunks_cons, newlines_append, openers_append, display_beginC,
        startL] at *
      omega
    | noLabel h1 h2 h3 h4 => subst h2; simp only [Ast1.Chunk.lineNo] at *; omega
    | unexpectedEnd h1 h2 h3 => subst h2; simp only [Ast1.Chunk.lineNo] at *; omega
    | tooMany h1 h2 => subst h2; simp only [Ast1.Chunk.lineNo] at *; omega

theorem size_child {d inner} (h : Child d inner) : sizeChunks inner < sizeChunks d := by
  have mem : ∀ {c : Ast1.Chunk} {d : List Ast1.Chunk}, c ∈ d → sizeChunk c ≤ sizeChunks d := by
    intro c d h
    induction d with
    | nil => cases h
    | cons x d ih =>
      rcases List.mem_cons.1 h with h | h
      · subst h; simp [sizeChunks]
      · have := ih h; simp [sizeChunks]; omega
  cases h with
  | scope h1 => have := mem h1; simp [sizeChunk, sizeVariant, sizeScope] at this; omega
  | arg h1 h2 h3 h4 =>
    have := mem h1; have := sizeArgs_mem h4; simp [sizeChunk, sizeVariant, sizeCommand] at *; omega
  | beginArg h1 h2 =>
    have := mem h1; have := sizeArgs_mem h2
    simp [sizeChunk, sizeVariant, sizeCommand, sizeArgs] at *; omega

theorem size_checked {d lv} (h : Checked d lv) : lv = d ∨ sizeChunks lv < sizeChunks d := by
  have key : ∀ {cs lv}, (cs = d ∨ sizeChunks cs < sizeChunks d) → Child cs lv → lv = d ∨ sizeChunks lv < sizeChunks d := by
    rintro cs lv h hc
    have := size_child hc
    rcases h with rfl | h
    · exact .inr this
    · exact .inr (by omega)
  induction h with
  | top => exact .inl rfl
  | scope h h1 ih => exact key ih (.scope h1)
  | arg h h1 h2 h3 h4 ih => exact key ih (.arg h1 h2 h3 h4)
  | beginArg h h1 h2 ih => exact key ih (.beginArg h1 h2)

/-- When only the top level is misnested, the error is about a chunk of the top level. -/
theorem error_top {d e} (h : tryFrom d = .error (.err e))
    (hd : ∀ lv, Checked d lv → lv ≠ d → Matched lv) :
    ∃ pre l label args post, d = pre ++ .mk l (.command (.mk label args)) :: post ∧
      ((∃ lab, e.type = .unclosedEnvironment lab ∧ label = chars!"begin" ∧
          e.line = l + newlines (Ast1.displayArgs args)) ∨
       ((∀ lab, e.type ≠ .unclosedEnvironment lab) ∧ (label = chars!"begin" ∨ label = chars!"end") ∧ e.line = l)) := by
  have no : ∀ {inner e'}, Child d inner → tryFrom inner = .error (.err e') → False := by
    intro inner e' hc he
    obtain ⟨lv, h1, h2⟩ := error_misnested he
    have hck : Checked d lv := Checked.trans (.child .top hc) h1
    refine Misnested.not_opened h2 ((Ast1.opened_iff_matched _).2 (hd lv hck ?_))
    rintro rfl
    have := size_child hc
    rcases size_checked h1 with rfl | h
    · omega
    · omega
  cases tryFrom_failed h with
  | @unclosed d0 e l p lab args body st h1 h2 h3 =>
    refine ⟨_, _, _, _, _, h1, .inl ⟨_, rfl, rfl, ?_⟩⟩
    simp [startL, argNewlines_eq]
  | @stop pre c post f hd hst =>
    subst hd
    cases hst with
    | scope h1 h2 h3 f' h4 =>
      subst h2
      obtain ⟨e', rfl, _, _⟩ := addLine_err h4
      exact (no child_scope h3).elim
    | command h1 h2 h3 h4 h5 h6 => subst h4; exact (no (child_command h2 h3 h5) h6).elim
    | envArg h1 h2 h3 h4 h5 h6 => subst h1; exact (no (child_env h5) h6).elim
    | @content d e' l p lab args body l' p' f h1 h2 h3 h4 h5 h6 f' h7 =>
      subst h1
      obtain ⟨e', rfl, _, _⟩ := addLine_err h7
      obtain ⟨lv, hl, hm⟩ := error_misnested h6
      rcases hl.head with rfl | ⟨inner, hc, hl⟩
      · exact absurd (opened_rebase h3) (Misnested.not_opened hm)
      · exfalso
        have hc' := (child_rebase hc).mono (b := d ++ beginC l p lab args :: body ++ c :: post) (by intro c hc; simp [hc])
        have hck : Checked _ lv := Checked.trans (.child .top hc') hl
        refine Misnested.not_opened hm ((Ast1.opened_iff_matched _).2 (hd lv hck ?_))
        rintro rfl
        have := size_child hc'
        rcases size_checked hl with rfl | h
        · omega
        · omega
    | noLabel h1 h2 h3 h4 => subst h2; exact ⟨_, _, _, _, _, rfl, .inr ⟨by simp, h3, rfl⟩⟩
    | unexpectedEnd h1 h2 h3 => subst h2; exact ⟨_, _, _, _, _, rfl, .inr ⟨by simp, .inr rfl, rfl⟩⟩
    | tooMany h1 h2 => subst h2; exact ⟨_, _, _, _, _, rfl, .inr ⟨by simp, .inr rfl, rfl⟩⟩

/-! ### environment lines -/

inductive Child2 (cs : List Chunk) : List Chunk → Prop
  | scope {l inner sv} : Chunk.mk l (.scope (.mk inner sv)) ∈ cs → Child2 cs inner
  | arg {l label args prec inner sv} :
      Chunk.mk l (.command (.mk label args)) ∈ cs → (prec, Scope.mk inner sv) ∈ args → Child2 cs inner
  | envArg {l label args content pb pe prec inner sv} :
      Chunk.mk l (.environment (.mk label args content pb pe)) ∈ cs → (prec, Scope.mk inner sv) ∈ args →
      Child2 cs inner
  | envContent {l label args content pb pe} :
      Chunk.mk l (.environment (.mk label args content pb pe)) ∈ cs → Child2 cs content

theorem Level.child {d cs inner} (h : Level d cs) (hc : Child2 cs inner) : Level d inner := by
  cases hc with
  | scope h1 => exact .scope h h1
  | arg h1 h2 => exact .arg h h1 h2
  | envArg h1 h2 => exact .envArg h h1 h2
  | envContent h1 => exact .envContent h h1

theorem Level.head {d lv} (h : Level d lv) : lv = d ∨ ∃ inner, Child2 d inner ∧ Level inner lv := by
  have key : ∀ lv, ∀ inner, Child2 lv inner →
      (lv = d ∨ ∃ i, Child2 d i ∧ Level i lv) → ∃ i, Child2 d i ∧ Level i inner := by
    rintro lv inner hc (rfl | ⟨i, h1, h2⟩)
    · exact ⟨inner, hc, .top⟩
    · exact ⟨i, h1, h2.child hc⟩
  induction h with
  | top => exact .inl rfl
  | scope h h1 ih => exact .inr (key _ _ (.scope h1) ih)
  | arg h h1 h2 ih => exact .inr (key _ _ (.arg h1 h2) ih)
  | envArg h h1 h2 ih => exact .inr (key _ _ (.envArg h1 h2) ih)
  | envContent h h1 ih => exact .inr (key _ _ (.envContent h1) ih)

theorem child2_append {a b : List Chunk} {inner} (h : Child2 (a ++ b) inner) : Child2 a inner ∨ Child2 b inner := by
  cases h with
  | scope h1 => rcases List.mem_append.1 h1 with h | h; exact .inl (.scope h); exact .inr (.scope h)
  | arg h1 h2 => rcases List.mem_append.1 h1 with h | h; exact .inl (.arg h h2); exact .inr (.arg h h2)
  | envArg h1 h2 => rcases List.mem_append.1 h1 with h | h; exact .inl (.envArg h h2); exact .inr (.envArg h h2)
  | envContent h1 => rcases List.mem_append.1 h1 with h | h; exact .inl (.envContent h); exact .inr (.envContent h)

theorem argsRel_mem' {R a b} (h : ArgsRel R a b) {p inner' sv} (hm : (p, Scope.mk inner' sv) ∈ b) :
    ∃ inner, (p, Ast1.Scope.mk inner sv) ∈ a ∧ R inner inner' := by
  induction h with
  | nil => cases hm
  | cons h1 _ ih =>
    rcases List.mem_cons.1 hm with hm | hm
    · cases hm; exact ⟨_, by simp, h1⟩
    · obtain ⟨i, h2, h3⟩ := ih hm; exact ⟨i, by simp [h2], h3⟩

/-- Where the children of the result come from. -/
theorem Shape.child2 {R d e} (h : Shape R d e) {inner'} (hc : Child2 e inner') :
    ∃ inner, R inner inner' ∧ (Child d inner ∨ ∃ d0 l p lab args body rest,
      d = d0 ++ beginC l p lab args :: (body ++ rest) ∧ inner = body.map (rebase1 (startL l p lab args))) := by
  have lift : ∀ {d : List Ast1.Chunk} (x : List Ast1.Chunk) {inner'}, (∃ inner, R inner inner' ∧ (Child d inner ∨ ∃ d0 l p lab args body rest,
      d = d0 ++ beginC l p lab args :: (body ++ rest) ∧ inner = body.map (rebase1 (startL l p lab args)))) →
      ∃ inner, R inner inner' ∧ (Child (d ++ x) inner ∨ ∃ d0 l p lab args body rest,
      d ++ x = d0 ++ beginC l p lab args :: (body ++ rest) ∧ inner = body.map (rebase1 (startL l p lab args))) := by
    rintro d x inner' ⟨i, hr, hc | ⟨d0, l, p, lab, args, body, rest, rfl, rfl⟩⟩
    · exact ⟨i, hr, .inl (hc.mono (by intro c hc; simp [hc]))⟩
    · exact ⟨_, hr, .inr ⟨d0, l, p, lab, args, body, rest ++ x, by simp, rfl⟩⟩
  induction h with
  | nil => cases hc <;> contradiction
  | text _ ih =>
    rcases child2_append hc with hc | hc
    · exact lift _ (ih hc)
    · cases hc <;> simp_all
  | scope _ hr ih =>
    rcases child2_append hc with hc | hc
    · exact lift _ (ih hc)
    · cases hc with
      | scope h => simp at h; obtain ⟨_, rfl, rfl⟩ := h; exact ⟨_, hr, .inl child_scope⟩
      | arg h => simp at h
      | envArg h => simp at h
      | envContent h => simp at h
  | command _ h1 h2 h3 ih =>
    rcases child2_append hc with hc | hc
    · exact lift _ (ih hc)
    · cases hc with
      | scope h => simp at h
      | arg h hm =>
        simp at h; obtain ⟨_, rfl, rfl⟩ := h
        obtain ⟨i, hm', hr⟩ := argsRel_mem' h3 hm
        exact ⟨i, hr, .inl (child_command h1 h2 hm')⟩
      | envArg h => simp at h
      | envContent h => simp at h
  | @env d e l p lab args args' body l' p' content _ h1 h2 h3 h4 ih =>
    rcases child2_append hc with hc | hc
    · exact lift _ (ih hc)
    · cases hc with
      | scope h => simp at h
      | arg h => simp at h
      | envArg h hm =>
        simp at h; obtain ⟨_, _, rfl, _⟩ := h
        obtain ⟨i, hm', hr⟩ := argsRel_mem' h1 hm
        exact ⟨i, hr, .inl (by simpa using child_env (pre := d) (l := l) (p := p) (lab := lab) (body := body) (post := [endC l' p' lab]) hm')⟩
      | envContent h =>
        simp at h; obtain ⟨_, _, _, rfl, _⟩ := h
        exact ⟨_, h4, .inr ⟨d, l, p, lab, args, body, [endC l' p' lab], rfl, rfl⟩⟩

/-- Line numbers of one sequence of the result. -/
def Sane2 (lv : List Chunk) : Prop :=
  ∀ pre c post, lv = pre ++ c :: post →
    1 + newlines (displayChunks pre) ≤ c.lineNo ∧
    c.lineNo ≤ 1 + newlines (displayChunks pre) + newlines c.display ∧
    (∀ label args content pb pe, c.variant = .environment (.mk label args content pb pe) →
      c.lineNo = 1 + newlines (displayChunks pre) + newlines (pb ++ label ++ displayArgs args)) ∧
    ((∀ t, c.variant ≠ .text t) → (∀ args, c.variant ≠ .command (.mk ['\n'] args)) →
      (∀ e, c.variant ≠ .environment e) → c.lineNo = 1 + newlines (displayChunks pre))

theorem sane2_snoc {e x} (h : Sane2 e) (hx : 
    1 + newlines (displayChunks e) ≤ x.lineNo ∧
    x.lineNo ≤ 1 + newlines (displayChunks e) + newlines x.display ∧
    (∀ label args content pb pe, x.variant = .environment (.mk label args content pb pe) →
      x.lineNo = 1 + newlines (displayChunks e) + newlines (pb ++ label ++ displayArgs args)) ∧
    ((∀ t, x.variant ≠ .text t) → (∀ args, x.variant ≠ .command (.mk ['\n'] args)) →
      (∀ e, x.variant ≠ .environment e) → x.lineNo = 1 + newlines (displayChunks e))) : Sane2 (e ++ [x]) := by
  intro pre c post he
  rcases List.eq_nil_or_concat post with rfl | ⟨post', y, rfl⟩
  · have := List.append_inj' he rfl
    simp at this
    obtain ⟨rfl, rfl⟩ := this
    exact hx
  · rw [List.concat_eq_append, ← List.cons_append, ← List.append_assoc] at he
    have := List.append_inj' he rfl
    exact h _ _ _ this.1

theorem sane_prefix {a b} (h : Sane (a ++ b)) : Sane a := by
  rintro pre c post rfl
  exact h pre c (post ++ b) (by simp)

theorem sane2_shape {d e} (h : Shape (fun a b => displayChunks b = Ast1.displayChunks a) d e) (hs : Sane d) : Sane2 e := by
  induction h with
  | nil => intro pre c post he; simp at he
  | @text d e l t h ih =>
    have hd := display_shape h
    refine sane2_snoc (ih (sane_prefix hs)) ?_
    have := hs d _ [] rfl
    simp only [Chunk.lineNo, Chunk.variant, Chunk.display, ChunkVariant.display, hd, Ast1.Chunk.lineNo, Ast1.Chunk.display, Ast1.ChunkVariant.display] at *
    exact ⟨this.1, this.2.1, by simp, by simp⟩
  | @scope d e l inner inner' sv h hr ih =>
    have hd := display_shape h
    refine sane2_snoc (ih (sane_prefix hs)) ?_
    have := (hs d _ [] rfl).2.2 (by simp [Ast1.Chunk.variant]) (by simp [Ast1.Chunk.variant])
    simp only [Chunk.lineNo, Chunk.variant, hd, Ast1.Chunk.lineNo] at *
    exact ⟨by omega, by omega, by simp, fun _ _ _ => this⟩
  | @command d e l label args args' h h1 h2 h3 ih =>
    have hd := display_shape h
    refine sane2_snoc (ih (sane_prefix hs)) ?_
    have := (hs d _ [] rfl)
    simp only [Chunk.lineNo, Chunk.variant, hd, Ast1.Chunk.lineNo, Ast1.Chunk.variant, Chunk.display, ChunkVariant.display, Command.display, Ast1.Chunk.display, Ast1.ChunkVariant.display, Ast1.Command.display, displayArgs_rel h3] at *
    refine ⟨this.1, this.2.1, by simp, fun _ h4 _ => this.2.2 (by simp) fun a => ?_⟩
    have := h4 args'
    intro hh
    simp at hh
    exact this (by simp [hh.1])
  | @env d e l p lab args args' body l' p' content h h1 h2 h3 h4 ih =>
    have hd := display_shape h
    refine sane2_snoc (ih (sane_prefix hs)) ?_
    have := hs.begin_exact (pre := d) (l := l) (args := (p, .mk lab .curly) :: args) rfl
    have ha : argNewlines ((p, .mk lab .curly) :: args) = newlines (p ++ Ast1.displayChunks lab ++ Ast1.displayArgs args) := by
      rw [argNewlines_eq]
      simp [Ast1.displayArgs, Ast1.Scope.display]
    simp only [Chunk.lineNo, Chunk.variant, hd, Chunk.display, ChunkVariant.display, startL, ha, Environment.display,
      displayArgs_rel h1, newlines_append, newlines_cons] at *
    refine ⟨by omega, by simp; omega, ?_, by simp⟩
    intro label a c pb pe hh
    simp at hh
    obtain ⟨rfl, rfl, rfl, rfl, rfl⟩ := hh
    rw [displayArgs_rel h1]
    omega

theorem sane2_tryFrom {d e} (h : tryFrom d = .ok e) (hs : SaneAll d) : ∀ lv, Level e lv → Sane2 lv := by
  refine conv_induction' (P := fun d e => SaneAll d → ∀ lv, Level e lv → Sane2 lv) ?_ h hs
  intro d e hsh hs lv hl
  rcases hl.head with rfl | ⟨inner', hc, hl⟩
  · exact sane2_shape (hsh.mono fun a b h => display_tryFrom h.1) (hs _ .top)
  · obtain ⟨inner, ⟨_, hP⟩, hc | ⟨d0, l, p, lab, args, body, rest, rfl, rfl⟩⟩ := hsh.child2 hc
    · exact hP (Ast1.saneAll_child hs hc) lv hl
    · exact hP (sane_body hs) lv hl

end LatexAst.Ast2
