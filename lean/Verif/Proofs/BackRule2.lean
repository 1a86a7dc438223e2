import Verif.Spec.BackRule
import Verif.Proofs.Back2
import Verif.Proofs.Parse1

/-! Stage 2 → stage 1 is the rule of `Spec/BackRule.lean`. -/

namespace LatexAst.Ast2
open Spec

theorem intoChunks_shifted (k : Nat) (e : List Chunk) : intoChunks 0 (e.map (Chunk.shift k)) = intoChunks k e := by
  induction e with
  | nil => rfl
  | cons c e ih =>
    obtain ⟨l, v⟩ := c
    simp [List.map_cons, Chunk.shift, intoChunks, ih]

theorem map_shift2_zero (d : List Chunk) : d.map (Chunk.shift 0) = d := by
  conv => rhs; rw [← List.map_id d]
  apply List.map_congr_left
  rintro ⟨l, v⟩ _
  rfl

/-- The chunks, converted; or a panic. -/
def Rule2 (cs : List Chunk) : Prop :=
  (∃ out, intoChunks 0 cs = .ok out ∧ Unfolds cs out) ∨ intoChunks 0 cs = .error .panic

def RuleArgs2 (args : List (Str × Scope)) : Prop :=
  (∃ items, intoArgs args = .ok (withInner1 items) ∧ args = items.map (·.1) ∧ ∀ x ∈ items, Unfolds x.1.2.chunks x.2) ∨
  intoArgs args = .error .panic

theorem unfolds_append {a a' b b'} (ha : Unfolds a a') (hb : Unfolds b b') : Unfolds (a ++ b) (a' ++ b') := by
  induction ha with
  | nil => exact hb
  | text _ ih => exact .text ih
  | scope h1 _ _ ih => exact .scope h1 ih
  | command h1 _ _ ih => exact .command h1 ih
  | environment h1 h2 h3 h4 _ h6 _ _ ih =>
    simp only [List.cons_append, List.append_assoc]
    exact .environment h1 h2 h3 h4 ih h6

theorem unfolds_into {cs out} (h : Unfolds cs out) : intoChunks 0 cs = .ok out := by
  have args : ∀ items : List ((Str × Scope) × List Ast1.Chunk), (∀ x ∈ items, intoChunks 0 x.1.2.chunks = .ok x.2) →
      intoArgs (items.map (·.1)) = .ok (withInner1 items) := by
    intro items
    induction items with
    | nil => intro _; rfl
    | cons x r ih =>
      obtain ⟨⟨p, ⟨inner, sv⟩⟩, cs⟩ := x
      intro h
      have h1 := h _ (.head _)
      have h2 := ih fun x hx => h x (.tail _ hx)
      simp only [Scope.chunks] at h1
      simp [intoArgs, intoScope, h1, h2, withInner1, Scope.variant]
  induction h with
  | nil => rfl
  | text _ ih => simp [intoChunks, intoVariant, ih]
  | scope _ _ ih1 ih2 => simp [intoChunks, intoVariant, intoScope, ih1, ih2]
  | command _ _ ih1 ih2 => simp [intoChunks, intoVariant, intoCommand, args _ ih1, ih2]
  | @environment l label lab content content' pb pe cs ds k items h1 _ h3 _ _ h6 ih1 ih2 ih3 =>
    rw [intoChunks_shifted] at ih2
    simp only [intoChunks, intoVariant, intoEnvironment, h1, args _ ih1, Nat.add_zero, ih2, ih3]
    rw [if_neg]
    · simp only [argNewlines2_eq, h6, ← newlines_eq_count, newlines_append, List.append_assoc, List.cons_append, List.nil_append]
      congr 5
      omega
    · rintro ⟨a, b⟩
      have := h3 (by intro h; simp [h] at a)
      omega

theorem label_cases (label : Str) : (∃ lab, Ast1.fromStr label = .ok lab) ∨ ∃ e, Ast1.fromStr label = .error (.err e) := by
  have h := Ast1.fromStr_total label
  rcases hs : Ast1.fromStr label with f | d
  · rw [hs] at h
    rcases f with e | _ | _
    · exact .inr ⟨e, rfl⟩
    · exact absurd rfl h.1
    · exact absurd rfl h.2
  · exact .inl ⟨d, rfl⟩

mutual
theorem Chunk.rule2 (k : Nat) : ∀ c : Chunk, Rule2 [c.shift k]
  | .mk l (.text s) => .inl ⟨[.mk (l + k) (.text s)], by simp [Chunk.shift, intoChunks, intoVariant], .text .nil⟩
  | .mk l (.scope (.mk inner sv)) => by
    rcases rule2 0 inner with ⟨out, h1, h2⟩ | h1
    · rw [map_shift2_zero] at h1 h2
      exact .inl ⟨[.mk (l + k) (.scope (.mk out sv))], by simp [Chunk.shift, intoChunks, intoVariant, intoScope, h1], .scope h2 .nil⟩
    · rw [map_shift2_zero] at h1
      exact .inr (by simp [Chunk.shift, intoChunks, intoVariant, intoScope, h1])
  | .mk l (.command (.mk label args)) => by
    rcases rule_args2 args with ⟨items, h1, h2, h3⟩ | h1
    · refine .inl ⟨[.mk (l + k) (.command (.mk label (withInner1 items)))], by simp [Chunk.shift, intoChunks, intoVariant, intoCommand, h1], ?_⟩
      subst h2
      exact .command h3 .nil
    · exact .inr (by simp [Chunk.shift, intoChunks, intoVariant, intoCommand, h1])
  | .mk l (.environment (.mk label args content pb pe)) => by
    rcases label_cases label with ⟨lab, hlab⟩ | ⟨e, he⟩
    · rcases rule_args2 args with ⟨items, h1, h2, h3⟩ | h1
      · by_cases hl : content.isEmpty = false ∧ l + k = 0
        · exact .inr (by simp [Chunk.shift, intoChunks, intoVariant, intoEnvironment, hlab, h1, hl, panicked])
        · rcases rule2 (l + k - 1) content with ⟨out, g1, g2⟩ | g1
          · rw [intoChunks_shifted] at g1
            have hu := Unfolds.environment (l := l + k) (pb := pb) (pe := pe) hlab h3 (fun hne => by
              cases content with
              | nil => exact absurd rfl hne
              | cons c cs => simp at hl; omega) g2 .nil rfl
            rw [← h2] at hu
            exact .inl ⟨_, unfolds_into hu, hu⟩
          · rw [intoChunks_shifted] at g1
            refine .inr ?_
            simp only [Chunk.shift, intoChunks, intoVariant, intoEnvironment, hlab, h1, Nat.add_zero, g1]
            rw [if_neg (by exact hl)]
      · exact .inr (by simp [Chunk.shift, intoChunks, intoVariant, intoEnvironment, hlab, h1])
    · exact .inr (by simp [Chunk.shift, intoChunks, intoVariant, intoEnvironment, he, panicked])
theorem rule2 (k : Nat) : ∀ cs : List Chunk, Rule2 (cs.map (Chunk.shift k))
  | [] => .inl ⟨[], rfl, .nil⟩
  | c :: cs => by
    have h := Chunk.rule2 k c
    have g := rule2 k cs
    have key : ∀ (c : Chunk) cs, intoChunks 0 (c :: cs) = (match intoChunks 0 [c] with
        | .error f => .error f
        | .ok xs => match intoChunks 0 cs with
          | .error f => .error f
          | .ok ys => .ok (xs ++ ys)) := by
      rintro ⟨l, v⟩ cs
      simp only [intoChunks, Nat.add_zero]
      cases intoVariant l v <;> cases intoChunks 0 cs <;> simp
    rw [List.map_cons]
    unfold Rule2 at h g ⊢
    rw [key]
    rcases h with ⟨out, h1, h2⟩ | h1
    · rcases g with ⟨out', g1, g2⟩ | g1
      · exact .inl ⟨out ++ out', by simp [h1, g1], unfolds_append h2 g2⟩
      · exact .inr (by simp [h1, g1])
    · exact .inr (by simp [h1])
theorem rule_args2 : ∀ args : List (Str × Scope), RuleArgs2 args
  | [] => .inl ⟨[], rfl, rfl, by simp⟩
  | (p, .mk inner sv) :: r => by
    rcases rule2 0 inner with ⟨out, h1, h2⟩ | h1
    · rw [map_shift2_zero] at h1 h2
      rcases rule_args2 r with ⟨items, g1, g2, g3⟩ | g1
      · refine .inl ⟨((p, .mk inner sv), out) :: items, by simp [intoArgs, intoScope, h1, g1, withInner1, Scope.variant], by simp [g2], ?_⟩
        intro x hx
        rcases List.mem_cons.1 hx with rfl | hx
        · exact h2
        · exact g3 x hx
      · exact .inr (by simp [intoArgs, intoScope, h1, g1])
    · rw [map_shift2_zero] at h1
      exact .inr (by simp [intoArgs, intoScope, h1])
end

end LatexAst.Ast2
