import Verif.Spec.LeadingBlanks
import Verif.Proofs.Grammar4
import Verif.Proofs.FinalBlanks1

/-!
# Blanks at the beginning of a source, stage 1
-/

namespace LatexAst.Ast1
open Spec

/-- What does not begin with a text in the source does not begin with a text. -/
theorem Reads.no_text {l s o} (h : Reads l s o) (hs : TextEnds s) : ∀ l' t r, o ≠ .ok (.mk l' (.text t) :: r) := by
  intro l' t r he
  have cmd : ∀ {l name items o}, commandOutcome l name items o ≠ .ok (.mk l' (.text t) :: r) := by
    intro l name items o
    unfold commandOutcome
    cases argOutcome items with
    | error e => simp
    | ok a => cases o <;> simp [Outcome.after]
  cases h with
  | nil => simp at he
  | text h1 h2 h3 h4 =>
    rename_i t' r' o'
    cases t' with
    | nil => exact h1 rfl
    | cons c t' =>
      have := hs c _ rfl
      have h2 := h2 c (.head _)
      simp only [List.mem_cons, List.not_mem_nil, or_false] at this h2
      grind
  | scope h1 h2 h3 h4 =>
    rename_i v a r i o'
    unfold scopeOutcome at he
    cases i with
    | error e => simp at he
    | ok a => cases o' <;> simp [Outcome.after] at he
  | openScope => simp at he
  | symbol h1 h2 => rename_i o'; cases o' <;> simp [Outcome.after] at he
  | command => exact cmd he
  | lastCommand => exact cmd he
  | openArgument => simp at he
  | closing => simp at he

/-- Blanks at the beginning, outcomes. -/
def LedO (w : Str) (o o' : Outcome) : Prop :=
  (∃ e, o = .error e ∧ o' = .error ⟨e.line + w.count '\n', e.type⟩) ∨ ∃ d d', o = .ok d ∧ o' = .ok d' ∧ Led w d d'

theorem reads_led {w s : Str} {o} (hw : Blank w) (hne : w ≠ []) (h : Reads 1 s o) : ∃ o', Reads 1 (w ++ s) o' ∧ LedO w o o' := by
  by_cases hs : TextEnds s
  · refine ⟨_, .text hne (blank_text hw) hs (h.shift (w.count '\n') (Nat.le_refl _)), ?_⟩
    have hn := h.no_text hs
    cases o with
    | error e => exact .inl ⟨e, rfl, rfl⟩
    | ok d => exact .inr ⟨d, _, rfl, rfl, .added fun l t r e => hn l t r (by rw [e])⟩
  · have special : ∀ {c r}, c ∈ ['\\', '{', '[', '('] → TextEnds (c :: r) := by
      intro c r hc c' r' e; injection e with e _; subst e; exact hc
    have open_ : ∀ {v : ScopeVariant} {r}, TextEnds (v.opening :: r) := by
      intro v r; exact special (by cases v <;> simp [ScopeVariant.opening])
    cases h with
    | nil => exact absurd (fun c r e => by cases e) hs
    | @text _ t r o1 h1 h2 h3 h4 =>
      have h5 := h4.shift (w.count '\n') (by omega)
      have h6 : Reads 1 ((w ++ t) ++ r) ((o1.shift (w.count '\n')).after (.mk 1 (.text (w ++ t)))) := by
        refine .text (by simp [hne]) (fun x hx => ?_) h3 ?_
        · rcases List.mem_append.1 hx with hx | hx
          · exact blank_text hw x hx
          · exact h2 x hx
        · rw [show 1 + (w ++ t).count '\n' = 1 + t.count '\n' + w.count '\n' by rw [List.count_append]; omega]
          exact h5
      rw [List.append_assoc] at h6
      refine ⟨_, h6, ?_⟩
      cases o1 with
      | error e => exact .inl ⟨e, rfl, rfl⟩
      | ok d => exact .inr ⟨_, _, rfl, rfl, .longer⟩
    | scope => exact absurd open_ hs
    | openScope => exact absurd open_ hs
    | _ => exact absurd (special (by simp)) hs

theorem blank_clean {w : Str} (h : Blank w) : Clean w := by
  have := (keep_clean w).1
  rwa [keep_blank h, dropDangling_self (noDangling_plain fun x hx => (blank_facts (h x hx)).2.1)] at this

/-- Blanks at the beginning of a source. -/
theorem fromStr_led {s w : Str} (hw : Blank w) (hne : w ≠ []) :
    (∃ e, fromStr s = .error (.err e) ∧ fromStr (w ++ s) = .error (.err ⟨e.line + w.count '\n', e.type⟩)) ∨
    ∃ d d', fromStr s = .ok d ∧ fromStr (w ++ s) = .ok d' ∧ Led w d d' := by
  obtain ⟨o, ho⟩ := reads_total _ (keep_clean s).1 1
  obtain ⟨o', ho', hl⟩ := reads_led hw hne ho
  rw [← keep_append (blank_clean hw)] at ho'
  have h1 := (reads_any s o).1 ho
  have h2 := (reads_any (w ++ s) o').1 ho'
  rcases hl with ⟨e, rfl, rfl⟩ | ⟨d, d', rfl, rfl, hl⟩
  · exact .inl ⟨e, h1, h2⟩
  · exact .inr ⟨d, d', h1, h2, hl⟩

end LatexAst.Ast1
