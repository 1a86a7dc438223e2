import Verif.Proofs.Back2
import Verif.Spec.Back

/-! Stage 1 → 2 → 1: exact lines. -/

namespace LatexAst.Ast2
open LatexAst.Ast1 (Opened Matched Checked Child Sane SaneAll Displaced withInner)
open Spec

/-- One sequence: sane lines, labels that read back. -/
def ReadyHere (lv : List Ast1.Chunk) : Prop :=
  Sane lv ∧ ∀ l p lab args, beginC l p lab args ∈ lv → Ast1.fromStr (Ast1.displayChunks lab) = .ok lab

def ReadyAll (d : List Ast1.Chunk) : Prop := ∀ lv, Checked d lv → ReadyHere lv

theorem readyAll_child {d inner} (h : ReadyAll d) (hc : Child d inner) : ReadyAll inner :=
  fun lv hl => h lv (Checked.trans (.child .top hc) hl)

theorem readyAll_sane {d} (h : ReadyAll d) : SaneAll d := fun lv hl => (h lv hl).1

theorem readyAll_prefix {a b} (h : ReadyAll (a ++ b)) : ReadyAll a := by
  intro lv hl
  rcases hl.head with rfl | ⟨inner, hc, hl⟩
  · obtain ⟨h1, h2⟩ := h _ .top
    exact ⟨sane_prefix h1, fun l p lab args hm => h2 l p lab args (by simp [hm])⟩
  · exact readyAll_child h (hc.mono (by intro c hc; simp [hc])) lv hl

theorem readyAll_body {d0 body rest : List Ast1.Chunk} {l p lab args}
    (h : ReadyAll (d0 ++ beginC l p lab args :: (body ++ rest))) :
    ReadyAll (body.map (rebase1 (startL l p lab args))) := by
  intro lv hl
  refine ⟨sane_body (readyAll_sane h) lv hl, ?_⟩
  rcases hl.head with rfl | ⟨inner, hc, hl⟩
  · intro l' p' lab' args' hm
    obtain ⟨l'', hm⟩ := mem_rebase hm
    exact (h _ .top).2 l'' p' lab' args' (by simp [hm])
  · refine (h lv (Checked.trans (.child .top ((child_rebase hc).mono ?_)) hl)).2
    intro c hc; simp [hc]

theorem displaced_append {a a' b b'} (ha : Displaced a a') (hb : Displaced b b') : Displaced (a ++ b) (a' ++ b') := by
  induction ha with
  | nil => exact hb
  | text _ ih => exact .text ih
  | scope h1 _ _ ih => exact .scope h1 ih
  | command h1 h2 h3 _ _ ih => exact .command h1 h2 h3 ih
  | environment h1 h2 h3 _ h5 _ _ ih =>
    simp only [List.cons_append, List.append_assoc]
    exact .environment h1 h2 h3 ih h5

theorem matched_shift1 {a} (k : Nat) (h : Matched a) : Matched (a.map (shift1 k)) := by
  induction h with
  | nil => exact .nil
  | @other c rest h1 _ ih =>
    obtain ⟨l, v⟩ := c
    exact .other h1 ih
  | @env b body e rest lab h1 _ h3 _ ih1 ih2 =>
    obtain ⟨l, v⟩ := b
    obtain ⟨l', v'⟩ := e
    simp only [List.map_cons, List.map_append]
    exact .env (lab := lab) h1 ih1 h3 ih2

theorem displaced_shift {a a'} (m : Nat) (ha : Displaced a a') : Displaced (a.map (shift1 m)) (a'.map (shift1 m)) := by
  induction ha with
  | nil => exact .nil
  | text _ ih => exact .text ih
  | scope h1 _ _ ih => exact .scope h1 ih
  | command h1 h2 h3 _ _ ih => exact .command h1 h2 h3 ih
  | @environment l p lab body body' l' pe cs ds k items h1 h2 h3 _ h5 _ ih1 ih2 =>
    simp only [List.map_cons, List.map_append, shift1]
    have := Displaced.environment (l := l + m) (l' := l' + m) (pe := pe) (matched_shift1 m h1) h2 ih1 ih2 h5
    rw [Nat.add_right_comm l, Nat.add_right_comm l']
    exact this

theorem ready_args {args args'} (h : ArgsRel (fun a b => ReadyAll a → ∃ a', Displaced a a' ∧ ∀ k, intoChunks k b = .ok (a'.map (shift1 k))) args args')
    (hb : ∀ p inner sv, (p, Ast1.Scope.mk inner sv) ∈ args → ReadyAll inner) :
    ∃ items : List ((Str × Ast1.Scope) × List Ast1.Chunk), args = items.map (·.1) ∧ (∀ x ∈ items, Displaced x.1.2.chunks x.2) ∧
      intoArgs args' = .ok (withInner items) := by
  induction h with
  | nil => exact ⟨[], rfl, by simp, rfl⟩
  | @cons p i i' sv r r' h1 _ ih =>
    obtain ⟨a', h2, h3⟩ := h1 (hb p i sv (by simp))
    have h3 := h3 0
    rw [map_shift_zero] at h3
    obtain ⟨items, h4, h5, h6⟩ := ih fun p i s hm => hb p i s (by simp [hm])
    refine ⟨((p, .mk i sv), a') :: items, by simp [h4], ?_, ?_⟩
    · intro x hx
      rcases List.mem_cons.1 hx with rfl | hx
      · exact h2
      · exact h5 x hx
    · simp only [intoArgs, intoScope, h3, h6, withInner, Ast1.Scope.variant]

theorem ready_shape {d e} (h : Shape (fun a b => tryFrom a = .ok b ∧
      (ReadyAll a → ∃ a', Displaced a a' ∧ ∀ k, intoChunks k b = .ok (a'.map (shift1 k)))) d e)
    (hb : ReadyAll d) : ∃ d', Displaced d d' ∧ ∀ k, intoChunks k e = .ok (d'.map (shift1 k)) := by
  induction h with
  | nil => exact ⟨[], .nil, fun _ => rfl⟩
  | @text d e l t _ ih =>
    obtain ⟨d', h1, h2⟩ := ih (readyAll_prefix hb)
    refine ⟨d' ++ [.mk l (.text t)], displaced_append h1 (.text .nil), fun k => ?_⟩
    rw [List.map_append]
    exact intoChunks_append (h2 k) (intoChunks_single (by simp [intoVariant, shift1]))
  | @scope d e l inner inner' sv h hr ih =>
    obtain ⟨d', h1, h2⟩ := ih (readyAll_prefix hb)
    obtain ⟨i', h3, h4⟩ := hr.2 (readyAll_child hb child_scope)
    have h4 := h4 0
    rw [map_shift_zero] at h4
    refine ⟨d' ++ [.mk l (.scope (.mk i' sv))], displaced_append h1 (.scope h3 .nil), fun k => ?_⟩
    rw [List.map_append]
    refine intoChunks_append (h2 k) (intoChunks_single ?_)
    simp [intoVariant, shift1, intoScope, h4]
  | @command d e l label args args' h h1 h2 h3 ih =>
    obtain ⟨d', h4, h5⟩ := ih (readyAll_prefix hb)
    obtain ⟨items, rfl, h6, h7⟩ := ready_args (h3.mono fun a b h => h.2) fun p i s hm => readyAll_child hb (child_command h1 h2 hm)
    refine ⟨d' ++ [.mk l (.command (.mk label (withInner items)))], displaced_append h4 (.command h1 h2 h6 .nil), fun k => ?_⟩
    rw [List.map_append]
    refine intoChunks_append (h5 k) (intoChunks_single ?_)
    simp [intoVariant, shift1, intoCommand, h7]
  | @env d e l p lab args args' body l' p' content h h1 h2 h3 h4 ih =>
    obtain ⟨d', g1, g2⟩ := ih (readyAll_prefix hb)
    obtain ⟨items, hi, h6, h7⟩ := ready_args (h1.mono fun a b h => h.2) fun _ i s hm => readyAll_child hb (by
      simpa using child_env (pre := d) (l := l) (p := p) (lab := lab) (body := body) (post := [endC l' p' lab]) hm)
    obtain ⟨hs, hlab⟩ := hb _ .top
    have hlab := hlab l p lab args (by simp)
    have hl : l = 1 + newlines (Ast1.displayChunks d) := hs.begin_exact rfl
    have hl' : l' = 1 + newlines (Ast1.displayChunks (d ++ beginC l p lab args :: body)) :=
      (hs (d ++ beginC l p lab args :: body) (endC l' p' lab) [] (by simp)).2.2 (by simp [Ast1.Chunk.variant]) (by simp [Ast1.Chunk.variant])
    simp only [Ast1.displayChunks_append, Ast1.displayChunks_cons, newlines_append, display_beginC] at hl'
    obtain ⟨b', hb1, hb2⟩ := h4.2 (readyAll_body hb)
    have hd := display_tryFrom h4.1
    rw [display_rebase] at hd
    have hbody : (body.map (rebase1 (startL l p lab args))).map (shift1 (startL l p lab args - 1)) = body := by
      rw [List.map_map]
      conv => rhs; rw [← List.map_id body]
      apply List.map_congr_left
      rintro ⟨lc, vc⟩ hm
      have := h3 _ hm
      simp only [Ast1.Chunk.lineNo] at this
      simp only [Function.comp, rebase1, shift1, id]
      have : 1 ≤ startL l p lab args := by simp only [startL]; omega
      congr 1
      omega
    have hdis := displaced_shift (startL l p lab args - 1) hb1
    rw [hbody] at hdis
    have hn : argNewlines ((p, .mk lab .curly) :: args) = newlines p + newlines (Ast1.displayChunks lab) + argNewlines args := by
      simp [argNewlines, Ast1.Scope.display]
    have ha : argNewlines2 args' = argNewlines args := by
      rw [argNewlines2_eq, argNewlines_eq, displayArgs_rel (h1.mono fun a b h => display_tryFrom h.1)]
    have hk : argNewlines ((p, .mk lab .curly) :: args) = (Ast1.displayArgs ((p, .mk lab .curly) :: args)).count '\n' := by
      rw [argNewlines_eq, newlines_eq_count]
    have hst : startL l p lab args = l + argNewlines ((p, .mk lab .curly) :: args) := rfl
    have henv := Displaced.environment (l := l) (p := p) (lab := lab) (l' := l') (pe := p')
      ((Ast1.opened_iff_matched _).1 h2) h6 hdis .nil rfl
    rw [← hi] at henv
    refine ⟨_, displaced_append g1 henv, fun k => ?_⟩
    rw [List.map_append]
    refine intoChunks_append (g2 k) (intoChunks_single ?_)
    rw [← hk]
    have hc := hb2 (startL l p lab args + k - 1)
    have hb'' : (b'.map (shift1 (startL l p lab args - 1))).map (shift1 k) = b'.map (shift1 (startL l p lab args + k - 1)) := by
      rw [List.map_map]
      apply List.map_congr_left
      rintro ⟨lc, vc⟩ hm
      simp only [Function.comp, shift1]
      congr 1
      have : 1 ≤ startL l p lab args := by simp only [startL]; omega
      omega
    simp only [intoVariant, intoEnvironment, hlab, h7, hc, hd, ha]
    rw [if_neg (by omega)]
    rw [hst] at hb''
    simp only [List.map_cons, List.map_append, shift1, List.map_nil, List.singleton_append, List.nil_append, hst,
      List.cons_append] at hb'' ⊢
    rw [hb'', show l + argNewlines ((p, .mk lab .curly) :: args) + k + (newlines p + newlines (Ast1.displayChunks lab) +
      newlines (Ast1.displayChunks body) + argNewlines args) = l' + argNewlines ((p, .mk lab .curly) :: args) + k from by omega]

theorem back_lines {d e} (h : tryFrom d = .ok e) (hb : ReadyAll d) :
    ∃ d', Displaced d d' ∧ ∀ k, intoChunks k e = .ok (d'.map (shift1 k)) :=
  conv_induction' (P := fun d e => ReadyAll d → ∃ d', Displaced d d' ∧ ∀ k, intoChunks k e = .ok (d'.map (shift1 k)))
    (fun _ _ h hb => ready_shape h hb) h hb

def textOf1 : Ast1.Chunk → Option Str
  | .mk _ (.text t) => some t
  | _ => none

/-- Texts stay where they are, and nothing becomes a text. -/
theorem displaced_texts {d d'} (h : Displaced d d') : d'.map textOf1 = d.map textOf1 := by
  induction h with
  | nil => rfl
  | text _ ih => simp [ih, textOf1]
  | scope _ _ _ ih => simp [ih, textOf1]
  | command _ _ _ _ _ ih => simp [ih, textOf1]
  | environment _ _ _ _ _ _ ih1 ih2 => simp [ih1, ih2, textOf1]

theorem displaced_nomerge {d d'} (h : Displaced d d')
    (hd : ∀ pre post l l' t t', d ≠ pre ++ .mk l (.text t) :: .mk l' (.text t') :: post) :
    ∀ pre post l l' t t', d' ≠ pre ++ .mk l (.text t) :: .mk l' (.text t') :: post := by
  intro pre post l l' t t' he
  have hm := displaced_texts h
  rw [he] at hm
  simp only [List.map_append, List.map_cons, textOf1] at hm
  obtain ⟨a, b, rfl, _, hb⟩ := List.map_eq_append_iff.1 hm.symm
  obtain ⟨x, b, rfl, hx, hb⟩ := List.map_eq_cons_iff.1 hb
  obtain ⟨y, b, rfl, hy, hb⟩ := List.map_eq_cons_iff.1 hb
  obtain ⟨lx, vx⟩ := x
  obtain ⟨ly, vy⟩ := y
  cases vx <;> simp [textOf1] at hx
  cases vy <;> simp [textOf1] at hy
  exact hd a b lx ly _ _ rfl

end LatexAst.Ast2
