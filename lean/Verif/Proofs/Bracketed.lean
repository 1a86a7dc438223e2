import Verif.Spec.Bracketed
import Verif.Proofs.Grammar3
import Verif.Proofs.Verbatim

/-! # Lemmas for C105 -/

namespace LatexAst.Ast1
open Spec

theorem WithoutBrackets.balanced {v : ScopeVariant} : ∀ {s : Str}, WithoutBrackets v s → Balanced v 0 s
  | [], _ => by simp [Balanced]
  | [c], h => by
    unfold WithoutBrackets at h
    by_cases hc : c = '\\'
    · subst hc
      cases v <;> simp [Balanced, ScopeVariant.opening, ScopeVariant.closing]
    · rw [dropBrackets] at h
      · by_cases hb : c = v.opening ∨ c = v.closing
        · rw [if_pos hb] at h; simp [dropBrackets] at h
        · simp only [not_or] at hb
          simp [Balanced, hb.1, hb.2]
      · intro _ _ h; exact absurd h hc
  | c :: d :: r, h => by
    unfold WithoutBrackets at h
    by_cases hc : c = '\\'
    · subst hc
      simp only [dropBrackets, List.cons.injEq, true_and] at h
      simp only [Balanced]
      exact WithoutBrackets.balanced (s := r) h
    · rw [dropBrackets] at h
      · by_cases hb : c = v.opening ∨ c = v.closing
        · rw [if_pos hb] at h
          have := dropBrackets_length v (d :: r)
          rw [h] at this
          simp only [List.length_cons] at this
          omega
        · rw [if_neg hb] at h
          injection h with _ h
          simp only [not_or] at hb
          rw [Balanced]
          · rw [if_neg hb.1, if_neg hb.2]
            exact WithoutBrackets.balanced (s := d :: r) h
          · intro _ _ h; exact absurd h hc
      · intro _ _ h; exact absurd h hc

theorem withoutBrackets_of {v : ScopeVariant} : ∀ {s : Str}, v.opening ∉ s → v.closing ∉ s → WithoutBrackets v s
  | [], _, _ => rfl
  | [c], h1, h2 => by
    simp only [List.mem_cons, List.not_mem_nil, or_false] at h1 h2
    unfold WithoutBrackets
    by_cases hc : c = '\\'
    · subst hc; cases v <;> simp [dropBrackets, ScopeVariant.opening, ScopeVariant.closing]
    · rw [dropBrackets]
      · rw [if_neg (by simp [Ne.symm h1, Ne.symm h2]), dropBrackets]
      · intro _ _ h; exact absurd h hc
  | c :: d :: r, h1, h2 => by
    simp only [List.mem_cons, not_or] at h1 h2
    have k1 := withoutBrackets_of h1.2.2 h2.2.2
    have k2 := withoutBrackets_of (v := v) (s := d :: r) (by simp [h1]) (by simp [h2])
    unfold WithoutBrackets at *
    by_cases hc : c = '\\'
    · subst hc; simp only [dropBrackets, k1]
    · rw [dropBrackets]
      · rw [if_neg (by simp [Ne.symm h1.1, Ne.symm h2.1]), k2]
      · intro _ _ h; exact absurd h hc

theorem clean_inBrackets {v : ScopeVariant} {s : Str} (h : Clean s) : Clean (inBrackets v s) :=
  clean_opening.2 (h.append (clean_closing.2 .nil))

theorem clean_name {name : Str} (h : LetterName name) : Clean ('\\' :: name) := by
  obtain ⟨c, r, rfl, h1, h2⟩ := h
  rw [clean_esc_iff]
  exact clean_sanitised fun x hx => (h2 x hx).2

theorem clean_withArguments {name : Str} (h : LetterName name) : ∀ {args : List (ScopeVariant × Str)}, (∀ x ∈ args, Clean x.2) →
    Clean (withArguments name args) := by
  intro args ha
  unfold withArguments
  rw [← List.cons_append]
  refine (clean_name h).append ?_
  induction args with
  | nil => exact .nil
  | cons x args ih =>
    rw [List.flatMap_cons]
    exact (clean_inBrackets (ha x (.head _))).append (ih fun y hy => ha y (.tail _ hy))

/-- A source in brackets is read on its own. -/
theorem reads_inBrackets {v : ScopeVariant} {s : Str} {o : Outcome} (hd : NoDangling s) (hb : Balanced v 0 s) (h : Reads 1 s o) :
    Reads 1 (inBrackets v s) (scopeOutcome 1 o (.ok [])) := .scope hd hb h .nil

theorem written_arguments : ∀ {args : List (ScopeVariant × Str)}, (∀ x ∈ args, NoDangling x.2 ∧ WithoutBrackets x.1 x.2) →
    Written (args.flatMap fun x => inBrackets x.1 x.2) (args.map fun x => ⟨[], x.1, x.2⟩) := by
  intro args
  induction args with
  | nil => intro _; exact .none
  | cons x args ih =>
    intro h
    obtain ⟨h1, h2⟩ := h x (.head _)
    have := Written.arg (g := []) (p := []) (b := []) .nil (.inl rfl) h1 (WithoutBrackets.balanced h2) (ih fun y hy => h y (.tail _ hy))
    simpa [inBrackets] using this

end LatexAst.Ast1
