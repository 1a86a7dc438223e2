import Verif.Proofs.BackRule2
import Verif.Proofs.Back3
import Verif.Proofs.Join

/-! Stage 3 → stage 2 is the rule of `Spec/BackRule.lean`. -/

namespace LatexAst.Ast3
open Spec

theorem unfolds_append {a a' b b'} (ha : Unfolds a a') (hb : Unfolds b b') : Unfolds (a ++ b) (a' ++ b') := by
  induction ha with
  | nil => exact hb
  | text _ ih => exact .text ih
  | «break» _ ih => exact .break ih
  | scope h1 _ _ ih => exact .scope h1 ih
  | command h1 _ _ ih => exact .command h1 ih
  | environment h1 h2 _ _ _ ih => exact .environment h1 h2 ih
  | maths h1 h2 h3 _ _ ih =>
    simp only [List.cons_append, List.append_assoc]
    exact .maths h1 h2 h3 ih

theorem opens_iff (δ : Str) (cs ds : List Ast2.Chunk) : OpensWith δ cs ds ↔ prependDollars δ cs = ds := by
  constructor
  · intro h
    cases h with
    | text => rfl
    | other h =>
      unfold prependDollars
      split
      · exact absurd rfl (h _ _ _)
      · rfl
  · rintro rfl
    unfold prependDollars
    split
    · exact .text
    · rename_i h
      exact .other fun l t r he => h l t r he

theorem closes_iff (δ : Str) (n : Nat) (cs ds : List Ast2.Chunk) : ClosesWith δ n cs ds ↔ appendDollars δ n cs = ds := by
  constructor
  · intro h
    cases h with
    | text => simp [appendDollars]
    | other h =>
      unfold appendDollars
      split
      · rename_i l t he
        exact absurd (eq_dropLast_append he) (h _ _ _)
      · rfl
  · rintro rfl
    unfold appendDollars
    split
    · rename_i l t he
      conv => enter [3]; rw [eq_dropLast_append he]
      exact .text
    · rename_i h
      refine .other fun l t r he => h l t ?_
      simp [he]

theorem delimited_iff (v : MathsVariant) (t : MathsType) (n : Nat) (cs ds : List Ast2.Chunk) :
    Delimited v t n cs ds ↔ wrapMaths v t n cs = ds := by
  constructor
  · intro h
    cases h with
    | round => rfl
    | square => rfl
    | emptyDollar => rfl
    | emptyDollars => rfl
    | dollar h1 h2 h3 =>
      rw [opens_iff] at h2
      rw [closes_iff] at h3
      subst h2; subst h3
      cases cs with
      | nil => exact absurd rfl h1
      | cons c cs => rfl
    | dollars h1 h2 h3 =>
      rw [opens_iff] at h2
      rw [closes_iff] at h3
      subst h2; subst h3
      cases cs with
      | nil => exact absurd rfl h1
      | cons c cs => rfl
  · rintro rfl
    cases v <;> cases t
    · exact .round
    · exact .square
    · cases cs with
      | nil => exact .emptyDollar
      | cons c cs => exact Delimited.dollar (cs := c :: cs) (List.cons_ne_nil _ _) ((opens_iff _ _ _).2 rfl) ((closes_iff _ _ _ _).2 rfl)
    · cases cs with
      | nil => exact .emptyDollars
      | cons c cs => exact Delimited.dollars (cs := c :: cs) (List.cons_ne_nil _ _) ((opens_iff _ _ _).2 rfl) ((closes_iff _ _ _ _).2 rfl)

theorem intoArgs_items : ∀ items : List ((Str × Scope) × List Ast2.Chunk), (∀ x ∈ items, intoChunks x.1.2.chunks = .ok x.2) →
    intoArgs (items.map (·.1)) = .ok (withInner2 items) := by
  intro items
  induction items with
  | nil => intro _; rfl
  | cons x r ih =>
    obtain ⟨⟨p, ⟨inner, sv⟩⟩, cs⟩ := x
    intro h
    have h1 := h _ (.head _)
    have h2 := ih fun x hx => h x (.tail _ hx)
    simp only [Scope.chunks] at h1
    simp [intoArgs, intoScope, h1, h2, withInner2, Scope.variant]

theorem unfolds_into {cs out} (h : Unfolds cs out) : intoChunks cs = .ok out := by
  induction h with
  | nil => rfl
  | text _ ih => simp [intoChunks, intoVariant, ih]
  | «break» _ ih => simp [intoChunks, intoVariant, ih]
  | scope _ _ ih1 ih2 => simp [intoChunks, intoVariant, intoScope, ih1, ih2]
  | command _ _ ih1 ih2 => simp [intoChunks, intoVariant, intoCommand, intoArgs_items _ ih1, ih2]
  | environment _ _ _ ih1 ih2 ih3 => simp [intoChunks, intoVariant, intoEnvironment, intoArgs_items _ ih1, ih2, ih3]
  | @maths l v t content content' block cs ds h1 _ h3 _ ih1 ih2 =>
    rw [delimited_iff, ← newlines_eq_count, ← linesSum_eq, Nat.add_comm] at h3
    simp only [intoChunks, intoVariant, intoMaths, ih1, ih2, h3]
    rw [if_neg (by omega)]

mutual
theorem Chunk.rule3 : ∀ c : Chunk, ∀ out, intoChunks [c] = .ok out → Unfolds [c] out
  | .mk l (.text s), out, h => by
    simp [intoChunks, intoVariant] at h; subst h; exact .text .nil
  | .mk l (.paragraphBreak s), out, h => by
    simp [intoChunks, intoVariant] at h; subst h; exact .break .nil
  | .mk l (.scope (.mk inner sv)), out, h => by
    cases hi : intoChunks inner with
    | error f => simp [intoChunks, intoVariant, intoScope, hi] at h
    | ok xs =>
      simp [intoChunks, intoVariant, intoScope, hi] at h; subst h
      exact .scope (rule3 inner xs hi) .nil
  | .mk l (.command (.mk label args)), out, h => by
    cases ha : intoArgs args with
    | error f => simp [intoChunks, intoVariant, intoCommand, ha] at h
    | ok xs =>
      simp [intoChunks, intoVariant, intoCommand, ha] at h; subst h
      obtain ⟨items, h1, h2, h3⟩ := rule_args3 args xs ha
      subst h1; subst h2
      exact .command h3 .nil
  | .mk l (.environment (.mk label args content pb pe)), out, h => by
    cases ha : intoArgs args with
    | error f => simp [intoChunks, intoVariant, intoEnvironment, ha] at h
    | ok xs =>
      cases hi : intoChunks content with
      | error f => simp [intoChunks, intoVariant, intoEnvironment, ha, hi] at h
      | ok ys =>
        simp [intoChunks, intoVariant, intoEnvironment, ha, hi] at h; subst h
        obtain ⟨items, h1, h2, h3⟩ := rule_args3 args xs ha
        subst h1; subst h2
        exact .environment h3 (rule3 content ys hi) .nil
  | .mk l (.mathsBlock (.mk v t content)), out, h => by
    cases hi : intoChunks content with
    | error f => simp [intoChunks, intoVariant, intoMaths, hi] at h
    | ok xs =>
      by_cases hl : l = 0
      · simp [intoChunks, intoVariant, intoMaths, hi, hl, panicked] at h
      · have := Unfolds.maths (l := l) (v := v) (t := t) (by omega) (rule3 content xs hi) ((delimited_iff _ _ _ _ _).2 rfl) .nil
        have h2 := unfolds_into this
        rw [h] at h2
        cases h2
        exact this
theorem rule3 : ∀ cs : List Chunk, ∀ out, intoChunks cs = .ok out → Unfolds cs out
  | [], out, h => by simp [intoChunks] at h; subst h; exact .nil
  | .mk l v :: cs, out, h => by
    have hc := Chunk.rule3 (.mk l v)
    have g := rule3 cs
    simp only [intoChunks] at h hc
    cases hv : intoVariant l v with
    | error f => simp [hv] at h
    | ok xs =>
      cases hr : intoChunks cs with
      | error f => simp [hv, hr] at h
      | ok ys =>
        simp [hv, hr] at h; subst h
        have := hc xs (by simp [hv])
        exact unfolds_append this (g ys hr)
theorem rule_args3 : ∀ args : List (Str × Scope), ∀ out, intoArgs args = .ok out →
    ∃ items, out = withInner2 items ∧ args = items.map (·.1) ∧ ∀ x ∈ items, Unfolds x.1.2.chunks x.2
  | [], out, h => by simp [intoArgs] at h; subst h; exact ⟨[], rfl, rfl, by simp⟩
  | (p, .mk inner sv) :: r, out, h => by
    cases hi : intoChunks inner with
    | error f => simp [intoArgs, intoScope, hi] at h
    | ok xs =>
      cases hr : intoArgs r with
      | error f => simp [intoArgs, intoScope, hi, hr] at h
      | ok ys =>
        simp [intoArgs, intoScope, hi, hr] at h; subst h
        obtain ⟨items, h1, h2, h3⟩ := rule_args3 r ys hr
        refine ⟨((p, .mk inner sv), xs) :: items, by simp [withInner2, h1, Scope.variant], by simp [h2], ?_⟩
        intro x hx
        rcases List.mem_cons.1 hx with rfl | hx
        · exact rule3 inner xs hi
        · exact h3 x hx
end

end LatexAst.Ast3
