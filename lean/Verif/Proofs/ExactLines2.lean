import Verif.Proofs.Lines2
import Verif.Spec.Lines

/-! # The line number of every chunk of a parsed stage-2 document -/

namespace LatexAst.Ast1
open Spec

/-- Exact line numbers of one sequence; `b`: something follows it. -/
def Exact1 (b : Bool) (lv : List Chunk) : Prop :=
  ∀ pre c post, lv = pre ++ c :: post →
    ((∃ args, c.variant = .command (.mk ['\n'] args)) → c.lineNo = 1 + newlines (displayChunks pre) + 1) ∧
    (∀ t, c.variant = .text t → b = false → post = [] → Blank t → EndsWithLetterCommand pre →
      c.lineNo = 1 + newlines (displayChunks pre) + newlines t) ∧
    ((¬ ∃ args, c.variant = .command (.mk ['\n'] args)) →
      (¬ ∃ t, c.variant = .text t ∧ b = false ∧ post = [] ∧ Blank t ∧ EndsWithLetterCommand pre) →
      c.lineNo = 1 + newlines (displayChunks pre))

theorem exact1_parsed {s d} (h : fromStr s = .ok d) : ∀ lv, Checked d lv → Exact1 false lv := by
  intro lv hl pre c post he
  obtain ⟨h1, h2, h3⟩ := C06_partial s d h lv hl.level pre post c he
  simp only [newlines_eq_count]
  refine ⟨h1, fun t a _ b c d => h2 t a b c d, fun h4 h5 => h3 h4 ?_⟩
  rintro ⟨t, a, b, c, d⟩
  exact h5 ⟨t, a, by trivial, b, c, d⟩

theorem Exact1.prefix {b x y} (h : Exact1 b (x ++ y)) (hy : y ≠ []) : Exact1 true x := by
  rintro pre c post rfl
  obtain ⟨h1, h2, h3⟩ := h pre c (post ++ y) (by simp)
  refine ⟨h1, by simp, fun h4 _ => h3 h4 ?_⟩
  rintro ⟨t, _, _, h, _⟩
  simp at h
  exact hy h.2

theorem Exact1.begin_exact {b lv pre l args post} (h : Exact1 b lv)
    (he : lv = pre ++ .mk l (.command (.mk chars!"begin" args)) :: post) :
    l = 1 + newlines (displayChunks pre) :=
  (h _ _ _ he).2.2 (by simp [Chunk.variant]) (by simp [Chunk.variant])

end LatexAst.Ast1

namespace LatexAst.Ast2
open Spec
open LatexAst.Ast1 (Opened Matched Checked Child Exact1 EndsWithLetterCommand)

theorem exact_body {b} {d0 body rest : List Ast1.Chunk} {l p lab args}
    (h : Exact1 b (d0 ++ beginC l p lab args :: (body ++ rest))) (hr : rest ≠ []) :
    Exact1 true (body.map (rebase1 (startL l p lab args))) := by
  intro pre c post he
  obtain ⟨pre', ⟨l', v'⟩, post', rfl, rfl, h1, rfl⟩ := map_eq_append_cons he
  subst h1
  have hb := h.begin_exact rfl
  have := h (d0 ++ beginC l p lab args :: pre') (.mk l' v') (post' ++ rest) (by simp)
  simp only [Ast1.displayChunks_append, Ast1.displayChunks_cons, newlines_append, display_beginC] at this
  simp only [display_rebase]
  simp only [rebase1, Ast1.Chunk.lineNo, Ast1.Chunk.variant, Ast1.Chunk.display, startL] at *
  refine ⟨fun h1 => ?_, by simp, fun h1 _ => ?_⟩
  · have := this.1 h1; omega
  · have := this.2.2 h1 (by rintro ⟨t, _, _, h, _⟩; simp at h; exact hr h.2)
    omega

/-- Exact line numbers of one sequence of the result. -/
def Exact2 (b : Bool) (lv : List Chunk) : Prop :=
  ∀ pre c post, lv = pre ++ c :: post →
    ((∃ args, c.variant = .command (.mk ['\n'] args)) → c.lineNo = 1 + newlines (displayChunks pre) + 1) ∧
    (∀ label args content pb pe, c.variant = .environment (.mk label args content pb pe) →
      c.lineNo = 1 + newlines (displayChunks pre) + newlines (pb ++ label ++ displayArgs args)) ∧
    (∀ t, c.variant = .text t → b = false → post = [] → Blank t → EndsWithCommand pre →
      c.lineNo = 1 + newlines (displayChunks pre) + newlines t) ∧
    ((¬ ∃ args, c.variant = .command (.mk ['\n'] args)) → (¬ ∃ x, c.variant = .environment x) →
      (¬ ∃ t, c.variant = .text t ∧ b = false ∧ post = [] ∧ Blank t ∧ EndsWithCommand pre) →
      c.lineNo = 1 + newlines (displayChunks pre))

theorem ends1_snoc {d l v} : EndsWithLetterCommand (d ++ [.mk l v]) ↔
    ∃ c r args, v = .command (.mk (c :: r) args) ∧ isAsciiAlphabetic c = true := by
  constructor
  · rintro ⟨init, l', c, r, args, h, hc⟩
    have := List.append_inj' h rfl
    simp at this
    exact ⟨c, r, args, this.2.2, hc⟩
  · rintro ⟨c, r, args, rfl, hc⟩; exact ⟨d, l, c, r, args, rfl, hc⟩

theorem ends2_snoc {e l v} : EndsWithCommand (e ++ [.mk l v]) ↔
    ((∃ c r args, v = .command (.mk (c :: r) args) ∧ isAsciiAlphabetic c = true) ∨ ∃ x, v = .environment x) := by
  constructor
  · rintro ⟨init, l', v', h, hc⟩
    have := List.append_inj' h rfl
    simp at this
    obtain ⟨_, _, rfl⟩ := this
    exact hc
  · intro h; exact ⟨e, l, v, rfl, h⟩

theorem shape_ends {R d e} (h : Shape R d e) : EndsWithLetterCommand d ↔ EndsWithCommand e := by
  cases h with
  | nil => simp [EndsWithLetterCommand, EndsWithCommand]
  | text => rw [ends1_snoc, ends2_snoc]; simp
  | scope => rw [ends1_snoc, ends2_snoc]; simp
  | command =>
    rw [ends1_snoc, ends2_snoc]
    simp
  | @env d e l p lab args args' body l' p' content =>
    rw [ends2_snoc]
    simp only [ChunkVariant.environment.injEq, exists_eq', or_true, iff_true]
    have : d ++ (beginC l p lab args :: (body ++ [endC l' p' lab])) =
      (d ++ (beginC l p lab args :: body)) ++ [endC l' p' lab] := by simp
    rw [this]
    exact ends1_snoc.2 ⟨_, _, _, rfl, by decide⟩

theorem exact2_snoc {b e x} (h : Exact2 true e) (hx :
    ((∃ args, x.variant = .command (.mk ['\n'] args)) → x.lineNo = 1 + newlines (displayChunks e) + 1) ∧
    (∀ label args content pb pe, x.variant = .environment (.mk label args content pb pe) →
      x.lineNo = 1 + newlines (displayChunks e) + newlines (pb ++ label ++ displayArgs args)) ∧
    (∀ t, x.variant = .text t → b = false → Blank t → EndsWithCommand e →
      x.lineNo = 1 + newlines (displayChunks e) + newlines t) ∧
    ((¬ ∃ args, x.variant = .command (.mk ['\n'] args)) → (¬ ∃ x', x.variant = .environment x') →
      (¬ ∃ t, x.variant = .text t ∧ b = false ∧ Blank t ∧ EndsWithCommand e) →
      x.lineNo = 1 + newlines (displayChunks e))) : Exact2 b (e ++ [x]) := by
  intro pre c post he
  rcases List.eq_nil_or_concat post with rfl | ⟨post', y, rfl⟩
  · have := List.append_inj' he rfl
    simp at this
    obtain ⟨rfl, rfl⟩ := this
    simpa using hx
  · rw [List.concat_eq_append, ← List.cons_append, ← List.append_assoc] at he
    have := List.append_inj' he rfl
    obtain ⟨h1, h2, h3, h4⟩ := h _ _ _ this.1
    refine ⟨h1, h2, by simp, fun h5 h6 _ => h4 h5 h6 (by simp)⟩

theorem exact2_shape {b d e} (h : Shape (fun a b => displayChunks b = Ast1.displayChunks a) d e) (hs : Exact1 b d) :
    Exact2 b e := by
  induction h generalizing b with
  | nil => intro pre c post he; simp at he
  | @text d e l t h ih =>
    have hd := display_shape h
    refine exact2_snoc (ih (hs.prefix (by simp))) ?_
    obtain ⟨h1, h2, h3⟩ := hs d _ [] rfl
    simp only [Chunk.lineNo, Chunk.variant, hd, Ast1.Chunk.lineNo, Ast1.Chunk.variant] at *
    refine ⟨by simp, by simp, ?_, ?_⟩
    · rintro t' hh hb hbl he
      simp only [ChunkVariant.text.injEq] at hh
      subst hh
      exact h2 _ rfl hb trivial hbl ((shape_ends h).2 he)
    · intro _ _ h6
      refine h3 (by simp) ?_
      rintro ⟨t', hh, hb, _, hbl, he⟩
      simp only [Ast1.ChunkVariant.text.injEq] at hh
      subst hh
      exact h6 ⟨_, rfl, hb, hbl, (shape_ends h).1 he⟩
  | @scope d e l inner inner' sv h hr ih =>
    have hd := display_shape h
    refine exact2_snoc (ih (hs.prefix (by simp))) ?_
    have := (hs d _ [] rfl).2.2 (by simp [Ast1.Chunk.variant]) (by simp [Ast1.Chunk.variant])
    simp only [Chunk.lineNo, Chunk.variant, hd, Ast1.Chunk.lineNo] at *
    exact ⟨by simp, by simp, by simp, fun _ _ _ => this⟩
  | @command d e l label args args' h h1 h2 h3 ih =>
    have hd := display_shape h
    refine exact2_snoc (ih (hs.prefix (by simp))) ?_
    obtain ⟨g1, g2, g3⟩ := (hs d _ [] rfl)
    simp only [Chunk.lineNo, Chunk.variant, hd, Ast1.Chunk.lineNo, Ast1.Chunk.variant] at *
    refine ⟨?_, by simp, by simp, fun h4 _ _ => g3 ?_ (by simp)⟩
    · rintro ⟨a, hh⟩; simp at hh; exact g1 ⟨args, by simp [hh.1]⟩
    · rintro ⟨a, hh⟩; simp at hh; exact h4 ⟨args', by simp [hh.1]⟩
  | @env d e l p lab args args' body l' p' content h h1 h2 h3 h4 ih =>
    have hd := display_shape h
    refine exact2_snoc (ih (hs.prefix (by simp))) ?_
    have := hs.begin_exact (pre := d) (l := l) (args := (p, .mk lab .curly) :: args) rfl
    have ha : argNewlines ((p, .mk lab .curly) :: args) = newlines (p ++ Ast1.displayChunks lab ++ Ast1.displayArgs args) := by
      rw [argNewlines_eq]
      simp [Ast1.displayArgs, Ast1.Scope.display]
    simp only [Chunk.lineNo, Chunk.variant, hd, startL, ha] at *
    refine ⟨by simp, ?_, by simp, by simp⟩
    intro label a c pb pe hh
    simp at hh
    obtain ⟨rfl, rfl, rfl, rfl, rfl⟩ := hh
    rw [displayArgs_rel h1]
    omega

/-- The children of a sequence; `true` for the content of an environment. -/
inductive ChildF (cs : List Chunk) : Bool → List Chunk → Prop
  | scope {l inner sv} : Chunk.mk l (.scope (.mk inner sv)) ∈ cs → ChildF cs false inner
  | arg {l label args prec inner sv} :
      Chunk.mk l (.command (.mk label args)) ∈ cs → (prec, Scope.mk inner sv) ∈ args → ChildF cs false inner
  | envArg {l label args content pb pe prec inner sv} :
      Chunk.mk l (.environment (.mk label args content pb pe)) ∈ cs → (prec, Scope.mk inner sv) ∈ args →
      ChildF cs false inner
  | envContent {l label args content pb pe} :
      Chunk.mk l (.environment (.mk label args content pb pe)) ∈ cs → ChildF cs true content

/-- Sequences below a sequence. -/
inductive From (b0 : Bool) (e : List Chunk) : Bool → List Chunk → Prop
  | top : From b0 e b0 e
  | child {b cs b' inner} : From b0 e b cs → ChildF cs b' inner → From b0 e b' inner

theorem Sequence.from {e b lv} (h : Sequence e b lv) : From false e b lv := by
  induction h with
  | top => exact .top
  | scope _ h1 ih => exact .child ih (.scope h1)
  | arg _ h1 h2 ih => exact .child ih (.arg h1 h2)
  | envArg _ h1 h2 ih => exact .child ih (.envArg h1 h2)
  | envContent _ h1 ih => exact .child ih (.envContent h1)

theorem From.head {b0 e b lv} (h : From b0 e b lv) :
    (lv = e ∧ b = b0) ∨ ∃ b' inner, ChildF e b' inner ∧ From b' inner b lv := by
  induction h with
  | top => exact .inl ⟨rfl, rfl⟩
  | child _ hc ih =>
    rcases ih with ⟨rfl, rfl⟩ | ⟨b', i, h1, h2⟩
    · exact .inr ⟨_, _, hc, .top⟩
    · exact .inr ⟨_, _, h1, h2.child hc⟩

theorem childF_append {a b : List Chunk} {f inner} (h : ChildF (a ++ b) f inner) : ChildF a f inner ∨ ChildF b f inner := by
  cases h with
  | scope h1 => rcases List.mem_append.1 h1 with h | h; exact .inl (.scope h); exact .inr (.scope h)
  | arg h1 h2 => rcases List.mem_append.1 h1 with h | h; exact .inl (.arg h h2); exact .inr (.arg h h2)
  | envArg h1 h2 => rcases List.mem_append.1 h1 with h | h; exact .inl (.envArg h h2); exact .inr (.envArg h h2)
  | envContent h1 => rcases List.mem_append.1 h1 with h | h; exact .inl (.envContent h); exact .inr (.envContent h)

/-- Where the children of the result come from. -/
theorem Shape.childF {R d e} (h : Shape R d e) {f inner'} (hc : ChildF e f inner') :
    ∃ inner, R inner inner' ∧ ((f = false ∧ Child d inner) ∨ (f = true ∧ ∃ d0 l p lab args body rest,
      d = d0 ++ beginC l p lab args :: (body ++ rest) ∧ rest ≠ [] ∧ inner = body.map (rebase1 (startL l p lab args)))) := by
  have lift : ∀ {d : List Ast1.Chunk} (x : List Ast1.Chunk) {inner'}, (∃ inner, R inner inner' ∧ ((f = false ∧ Child d inner) ∨ (f = true ∧ ∃ d0 l p lab args body rest,
      d = d0 ++ beginC l p lab args :: (body ++ rest) ∧ rest ≠ [] ∧ inner = body.map (rebase1 (startL l p lab args))))) →
      ∃ inner, R inner inner' ∧ ((f = false ∧ Child (d ++ x) inner) ∨ (f = true ∧ ∃ d0 l p lab args body rest,
      d ++ x = d0 ++ beginC l p lab args :: (body ++ rest) ∧ rest ≠ [] ∧ inner = body.map (rebase1 (startL l p lab args)))) := by
    rintro d x inner' ⟨i, hr, ⟨hf, hc⟩ | ⟨hf, d0, l, p, lab, args, body, rest, rfl, hne, rfl⟩⟩
    · exact ⟨i, hr, .inl ⟨hf, hc.mono (by intro c hc; simp [hc])⟩⟩
    · exact ⟨_, hr, .inr ⟨hf, d0, l, p, lab, args, body, rest ++ x, by simp, by simp [hne], rfl⟩⟩
  induction h with
  | nil => cases hc <;> contradiction
  | text _ ih =>
    rcases childF_append hc with hc | hc
    · exact lift _ (ih hc)
    · cases hc <;> simp_all
  | scope _ hr ih =>
    rcases childF_append hc with hc | hc
    · exact lift _ (ih hc)
    · cases hc with
      | scope h => simp at h; obtain ⟨_, rfl, rfl⟩ := h; exact ⟨_, hr, .inl ⟨rfl, child_scope⟩⟩
      | arg h => simp at h
      | envArg h => simp at h
      | envContent h => simp at h
  | command _ h1 h2 h3 ih =>
    rcases childF_append hc with hc | hc
    · exact lift _ (ih hc)
    · cases hc with
      | scope h => simp at h
      | arg h hm =>
        simp at h; obtain ⟨_, rfl, rfl⟩ := h
        obtain ⟨i, hm', hr⟩ := argsRel_mem' h3 hm
        exact ⟨i, hr, .inl ⟨rfl, child_command h1 h2 hm'⟩⟩
      | envArg h => simp at h
      | envContent h => simp at h
  | @env d e l p lab args args' body l' p' content _ h1 h2 h3 h4 ih =>
    rcases childF_append hc with hc | hc
    · exact lift _ (ih hc)
    · cases hc with
      | scope h => simp at h
      | arg h => simp at h
      | envArg h hm =>
        simp at h; obtain ⟨_, _, rfl, _⟩ := h
        obtain ⟨i, hm', hr⟩ := argsRel_mem' h1 hm
        exact ⟨i, hr, .inl ⟨rfl, by simpa using child_env (pre := d) (l := l) (p := p) (lab := lab) (body := body) (post := [endC l' p' lab]) hm'⟩⟩
      | envContent h =>
        simp at h; obtain ⟨_, _, _, rfl, _⟩ := h
        exact ⟨_, h4, .inr ⟨rfl, d, l, p, lab, args, body, [endC l' p' lab], rfl, by simp, rfl⟩⟩

theorem exact2_tryFrom {d e} (h : tryFrom d = .ok e) (hs : ∀ lv, Checked d lv → Exact1 false lv) :
    ∀ b lv, Sequence e b lv → Exact2 b lv := by
  suffices hP : ∀ b0, Exact1 b0 d → (∀ inner, Child d inner → ∀ lv, Checked inner lv → Exact1 false lv) →
      ∀ b lv, From b0 e b lv → Exact2 b lv from
    fun b lv hl => hP false (hs _ .top) (fun inner hc lv hl => hs lv (Checked.trans (.child .top hc) hl)) b lv hl.from
  refine conv_induction' (P := fun d e => ∀ b0, Exact1 b0 d → (∀ inner, Child d inner → ∀ lv, Checked inner lv → Exact1 false lv) →
      ∀ b lv, From b0 e b lv → Exact2 b lv) ?_ h
  intro d e hsh b0 h0 hin b lv hl
  rcases hl.head with ⟨rfl, rfl⟩ | ⟨b', inner', hc, hl⟩
  · exact exact2_shape (hsh.mono fun a b h => display_tryFrom h.1) h0
  · obtain ⟨inner, ⟨_, hP⟩, ⟨rfl, hc1⟩ | ⟨rfl, d0, l, p, lab, args, body, rest, rfl, hr, rfl⟩⟩ := hsh.childF hc
    · exact hP false (hin _ hc1 _ .top) (fun i hc' lv hl => hin _ hc1 lv (Checked.trans (.child .top hc') hl)) b lv hl
    · refine hP true (exact_body h0 hr) (fun i hc' lv hl => hin i ((child_rebase hc').mono ?_) lv hl) b lv hl
      intro c hc; simp [hc]

end LatexAst.Ast2
