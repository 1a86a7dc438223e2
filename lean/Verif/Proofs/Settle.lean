import Verif.Spec.Settle
import Verif.Proofs.Verbatim

/-!
# Printing and reading again, repeatedly
-/

namespace LatexAst.Ast1
open Spec

theorem weight_append (a b : Str) : weight (a ++ b) = weight a + weight b := by
  simp only [weight, List.length_append, List.countP_append]; omega

theorem weight_cons (c : Char) (a : Str) : weight (c :: a) = weight [c] + weight a := weight_append [c] a

theorem weight_nil : weight [] = 0 := rfl

theorem weight_length (s : Str) : s.length ≤ weight s ∧ weight s ≤ 2 * s.length := by
  have := List.countP_le_length (p := fun c : Char => decide (c ∈ ['(', ')', '[', ']'])) (l := s)
  unfold weight; omega

/-- `x` is `s`, or lighter. -/
def Lighter (x s : Str) : Prop := weight x ≤ weight s ∧ (weight x = weight s → x = s)

theorem Lighter.refl (s) : Lighter s s := ⟨Nat.le_refl _, fun _ => rfl⟩

theorem Lighter.append {x y s t} (h1 : Lighter x s) (h2 : Lighter y t) : Lighter (x ++ y) (s ++ t) := by
  have a1 := h1.1; have a2 := h2.1
  refine ⟨by rw [weight_append, weight_append]; omega, fun h => ?_⟩
  rw [weight_append, weight_append] at h
  rw [h1.2 (by omega), h2.2 (by omega)]

theorem Lighter.cons {x s} (c : Char) (h : Lighter x s) : Lighter (c :: x) (c :: s) := (Lighter.refl [c]).append h

theorem Lighter.trans {x y s} (h1 : Lighter x y) (h2 : Lighter y s) : Lighter x s := by
  have a1 := h1.1; have a2 := h2.1
  refine ⟨by omega, fun h => ?_⟩
  rw [h1.2 (by omega), h2.2 (by omega)]

theorem lighter_sublist {x s : Str} (h : x.Sublist s) : Lighter x s := by
  have h1 := h.length_le
  have h2 := h.countP_le (p := fun c : Char => decide (c ∈ ['(', ')', '[', ']']))
  refine ⟨by unfold weight; omega, fun e => h.eq_of_length ?_⟩
  unfold weight at e
  omega

theorem gap_sublist {g k} (h : Gap g k) : k.Sublist g := by
  induction h with
  | nil => exact .slnil
  | plain _ _ ih => exact ih.cons₂ _
  | escaped _ _ ih => exact (ih.cons₂ _).cons _

theorem lighter_opening (v : ScopeVariant) : Lighter ['{'] [v.opening] := by cases v <;> (unfold Lighter; decide)

theorem lighter_closing (v : ScopeVariant) : Lighter ['}'] [v.closing] := by cases v <;> (unfold Lighter; decide)

theorem written_lighter {w ws} (h : Written w ws) : ∀ (items : List (WrittenArg × Outcome)) (args : List (Str × Scope)),
    items.map (·.1) = ws → argOutcome items = .ok args →
    (∀ x ∈ items, ∀ d, x.2 = .ok d → Lighter (displayChunks d) (dropBrackets x.1.kind x.1.content)) → Lighter (displayArgs args) w := by
  induction h with
  | none =>
    intro items args he ho hf
    cases items with
    | cons x items => cases he
    | nil => cases ho; exact .refl _
  | @arg g p b v a w ws hg hb hd hbal _ ih =>
    intro items args he ho hf
    cases items with
    | nil => cases he
    | cons x items =>
      obtain ⟨x, o⟩ := x
      simp only [List.map_cons, List.cons.injEq] at he
      obtain ⟨rfl, he⟩ := he
      simp only [argOutcome] at ho
      cases o with
      | error e => cases ho
      | ok inner =>
        simp only at ho
        cases hr : argOutcome items with
        | error e => rw [hr] at ho; cases ho
        | ok as =>
          rw [hr] at ho
          cases ho
          have i := ih items as he hr fun x hx => hf x (.tail _ hx)
          have f := hf _ (.head _) inner rfl
          simp only at f
          have hdis : displayArgs ((p, Scope.mk inner v) :: as) = (p ++ []) ++ v.opening :: (displayChunks inner ++ v.closing :: displayArgs as) := by
            simp [displayArgs, Scope.display]
          rw [hdis]
          exact (((lighter_sublist (gap_sublist hg)).append (lighter_sublist (List.nil_sublist b)))).append
            (((f.trans (lighter_sublist (dropBrackets_sublist v a))).append (i.cons _)).cons _)

theorem reads_lighter {l s o} (h : Reads l s o) : ∀ d, o = .ok d → Lighter (displayChunks d) s := by
  induction h with
  | nil => intro d hd; cases hd; exact .refl _
  | @text l t r o ht hx he _ ih =>
    intro d hd
    obtain ⟨cs, ho, rfl⟩ := outcome_after hd
    have hdis : displayChunks (.mk l (.text t) :: cs) = t ++ displayChunks cs := by simp [displayChunks, Chunk.display, ChunkVariant.display]
    rw [hdis]
    exact (Lighter.refl t).append (ih cs ho)
  | @scope l v a r i o hd hb _ _ ih1 ih2 =>
    intro d hdd
    unfold scopeOutcome at hdd
    cases i with
    | error e => cases hdd
    | ok inner =>
      obtain ⟨cs, ho, rfl⟩ := outcome_after hdd
      have hdis : displayChunks (.mk l (.scope (.mk inner .curly)) :: cs) = ['{'] ++ (displayChunks inner ++ (['}'] ++ displayChunks cs)) := by
        simp [displayChunks, Chunk.display, ChunkVariant.display, Scope.display, ScopeVariant.opening, ScopeVariant.closing]
      rw [hdis]
      exact (lighter_opening v).append ((ih1 inner rfl).append ((lighter_closing v).append (ih2 cs ho)))
  | @symbol l c r o hc _ ih =>
    intro d hd
    obtain ⟨cs, ho, rfl⟩ := outcome_after hd
    have hdis : displayChunks (.mk (l + [c].count '\n') (.command (.mk [c] [])) :: cs) = '\\' :: c :: displayChunks cs := by
      simp [displayChunks, Chunk.display, ChunkVariant.display, Command.display, displayArgs]
    rw [hdis]
    exact ((ih cs ho).cons c).cons _
  | @command l name w g k t o items hn hw hg hgo _ _ ih1 ih2 =>
    intro d hd
    obtain ⟨args, cs, ha, ho, rfl⟩ := command_ok hd
    have hdis : displayChunks (.mk l (.command (.mk name args)) :: cs) = '\\' :: (name ++ (displayArgs args ++ displayChunks cs)) := by
      simp [displayChunks, Chunk.display, ChunkVariant.display, Command.display]
    rw [hdis]
    exact ((Lighter.refl name).append ((written_lighter hw items args rfl ha ih1).append
      ((ih2 cs ho).trans ((lighter_sublist (gap_sublist hg)).append (.refl t))))).cons _
  | @lastCommand l name w g k items hn hw hg _ ih1 =>
    intro d hd
    obtain ⟨args, cs, ha, ho, rfl⟩ := command_ok hd
    have hdis : displayChunks (.mk l (.command (.mk name args)) :: cs) = '\\' :: (name ++ (displayArgs args ++ displayChunks cs)) := by
      simp [displayChunks, Chunk.display, ChunkVariant.display, Command.display]
    rw [hdis]
    have hk : displayChunks cs = k := by
      cases ho
      split
      · simp_all [displayChunks]
      · simp [displayChunks, Chunk.display, ChunkVariant.display]
    rw [hk]
    exact ((Lighter.refl name).append ((written_lighter hw items args rfl ha ih1).append (lighter_sublist (gap_sublist hg)))).cons _
  | openScope _ => intro d hd; cases hd
  | openArgument => intro d hd; cases hd
  | closing => intro d hd; cases hd

theorem parsed_lighter {s d} (h : fromStr s = .ok d) : Lighter (displayChunks d) s :=
  (reads_lighter ((reads_any s (.ok d)).2 h) d rfl).trans
    ((lighter_sublist (dropDangling_sublist _)).trans (lighter_sublist (keep_sublist s).1))

theorem tidy_lighter {s x} (h : tidy s = some x) : Lighter x s := by
  unfold tidy at h
  split at h
  · rename_i d hd; injection h with h; subst h; exact parsed_lighter hd
  · cases h

theorem repeated_succ (f : Str → Option Str) (n : Nat) (s : Str) : repeated f (n + 1) s = (f s).bind (repeated f n) := by
  induction n with
  | zero =>
    show f s = (f s).bind some
    cases f s <;> rfl
  | succ n ih =>
    rw [repeated, ih]
    cases f s with
    | none => rfl
    | some x => rfl

theorem repeated_settles {f : Str → Option Str} (hf : ∀ s x, f s = some x → Lighter x s) : ∀ (n : Nat) (s : Str), weight s ≤ n →
    ∃ k, k ≤ weight s ∧ (repeated f (k + 1) s = none ∨ ∃ x, repeated f k s = some x ∧ f x = some x) := by
  intro n
  induction n with
  | zero =>
    intro s h
    have : s = [] := List.length_eq_zero_iff.1 (by have := (weight_length s).1; omega)
    subst this
    refine ⟨0, Nat.le_refl _, ?_⟩
    cases hx : f [] with
    | none => exact .inl (by rw [repeated_succ, hx]; rfl)
    | some x =>
      have h1 := (hf _ _ hx).1
      rw [weight_nil] at h1
      have : x = [] := (hf _ _ hx).2 (by rw [weight_nil]; omega)
      subst this
      exact .inr ⟨[], rfl, hx⟩
  | succ n ih =>
    intro s h
    cases ht : f s with
    | none => exact ⟨0, by omega, .inl (by rw [repeated_succ, ht]; rfl)⟩
    | some x =>
      have hx := hf _ _ ht
      by_cases e : x = s
      · subst e; exact ⟨0, by omega, .inr ⟨x, rfl, ht⟩⟩
      · have hlt : weight x < weight s := Nat.lt_of_le_of_ne hx.1 fun h => e (hx.2 h)
        obtain ⟨k, hk, hr⟩ := ih x (by omega)
        refine ⟨k + 1, by omega, ?_⟩
        rcases hr with hr | ⟨y, h1, h2⟩
        · exact .inl (by rw [repeated_succ, ht]; exact hr)
        · exact .inr ⟨y, by rw [repeated_succ, ht]; exact h1, h2⟩

end LatexAst.Ast1
