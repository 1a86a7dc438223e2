import Verif.Spec.Complete
import Verif.Proofs.Crlf1
import Verif.Proofs.Verbatim

/-! # Unfinished sources: bracket depths -/

namespace LatexAst
open Spec

namespace Ast1

/-- The number of brackets of kind `v` open after `s`, if `n` are open before it. -/
def bd (v : ScopeVariant) : Nat → Str → Option Nat
  | n, [] => some n
  | n, '\\' :: _ :: r => bd v n r
  | n, c :: r =>
    if c = v.opening then bd v (n + 1) r
    else if c = v.closing then (if n = 0 then none else bd v (n - 1) r)
    else bd v n r

theorem opening_bs (v : ScopeVariant) : v.opening ≠ '\\' := by cases v <;> decide
theorem closing_bs (v : ScopeVariant) : v.closing ≠ '\\' := by cases v <;> decide
theorem opening_closing (v u : ScopeVariant) : v.opening ≠ u.closing := by cases v <;> cases u <;> decide
theorem opening_eq_iff {v u : ScopeVariant} : v.opening = u.opening ↔ v = u := by cases v <;> cases u <;> decide
theorem closing_eq_iff {v u : ScopeVariant} : v.closing = u.closing ↔ v = u := by cases v <;> cases u <;> decide

theorem bd_nil {v n} : bd v n [] = some n := by simp [bd]
theorem bd_bs {v n} : bd v n ['\\'] = some n := by cases v <;> simp [bd, ScopeVariant.opening, ScopeVariant.closing]
theorem bd_esc {v n c r} : bd v n ('\\' :: c :: r) = bd v n r := by simp [bd]
theorem bd_cons {v n c r} (h : c ≠ '\\') : bd v n (c :: r) = if c = v.opening then bd v (n + 1) r
    else if c = v.closing then (if n = 0 then none else bd v (n - 1) r) else bd v n r := by
  cases r <;> simp [bd, h]
theorem bd_open {v n r} : bd v n (v.opening :: r) = bd v (n + 1) r := by rw [bd_cons (opening_bs v), if_pos rfl]
theorem bd_open_ne {u v : ScopeVariant} {n r} (h : u ≠ v) : bd u n (v.opening :: r) = bd u n r := by
  rw [bd_cons (opening_bs v), if_neg (fun e => h (opening_eq_iff.1 e).symm), if_neg (opening_closing v u)]
theorem bd_close {v n r} : bd v (n + 1) (v.closing :: r) = bd v n r := by
  rw [bd_cons (closing_bs v), if_neg (opening_closing v v).symm, if_pos rfl, if_neg (by omega)]; simp
theorem bd_close_zero {v r} : bd v 0 (v.closing :: r) = none := by
  rw [bd_cons (closing_bs v), if_neg (opening_closing v v).symm, if_pos rfl, if_pos rfl]
theorem bd_close_ne {u v : ScopeVariant} {n r} (h : u ≠ v) : bd u n (v.closing :: r) = bd u n r := by
  rw [bd_cons (closing_bs v), if_neg (opening_closing u v).symm, if_neg (fun e => h (closing_eq_iff.1 e).symm)]
theorem bd_other {v : ScopeVariant} {n c r} (h : c ≠ '\\') (h1 : c ≠ v.opening) (h2 : c ≠ v.closing) : bd v n (c :: r) = bd v n r := by
  rw [bd_cons h, if_neg h1, if_neg h2]

theorem balanced_bd {v : ScopeVariant} : ∀ s n, Balanced v n s ↔ bd v n s = some 0 := by
  refine pair_induction (P := fun s => ∀ n, Balanced v n s ↔ bd v n s = some 0) ?_ ?_ ?_ ?_
  · intro n; simp [Balanced, bd]
  · intro n; rw [bd_bs]; cases v <;> simp [Balanced, ScopeVariant.opening, ScopeVariant.closing]
  · intro c r ih n; rw [bd_esc, ← ih, balanced_esc]
  · intro c r hc ih n
    rw [bd_cons hc, balanced_char hc]
    split
    · exact ih _
    · split
      · split
        · simp; omega
        · rw [ih]; simp; omega
      · exact ih _

theorem bd_append {v : ScopeVariant} (b : Str) : ∀ a, NoDangling a → ∀ n, bd v n (a ++ b) = (bd v n a).bind fun m => bd v m b := by
  refine pair_induction (P := fun a => NoDangling a → ∀ n, bd v n (a ++ b) = (bd v n a).bind fun m => bd v m b) ?_ ?_ ?_ ?_
  · intro _ n; simp [bd_nil]
  · intro h; simp [NoDangling] at h
  · intro c r ih h n
    rw [List.cons_append, List.cons_append, bd_esc, bd_esc]
    exact ih (noDangling_esc.1 h) n
  · intro c r hc ih h n
    have ih := ih ((noDangling_cons hc).1 h)
    rw [List.cons_append, bd_cons hc, bd_cons hc]
    split
    · exact ih _
    · split
      · split
        · rfl
        · exact ih _
      · exact ih _

theorem bd_mono {v : ScopeVariant} (k : Nat) : ∀ s n m, bd v n s = some m → bd v (n + k) s = some (m + k) := by
  refine pair_induction (P := fun s => ∀ n m, bd v n s = some m → bd v (n + k) s = some (m + k)) ?_ ?_ ?_ ?_
  · intro n m h; simp [bd_nil] at h ⊢; omega
  · intro n m h; simp [bd_bs] at h ⊢; omega
  · intro c r ih n m h; rw [bd_esc] at h ⊢; exact ih n m h
  · intro c r hc ih n m h
    rw [bd_cons hc] at h ⊢
    split at h
    · rename_i h1; rw [if_pos h1]; have := ih _ _ h; rwa [show n + k + 1 = n + 1 + k by omega]
    · rename_i h1; rw [if_neg h1]
      split at h
      · rename_i h2; rw [if_pos h2]
        split at h
        · cases h
        · rename_i h3; rw [if_neg (by omega)]; have := ih _ _ h; rwa [show n + k - 1 = n - 1 + k by omega]
      · rename_i h2; rw [if_neg h2]; exact ih _ _ h

/-- Nothing of kind `v` in it. -/
theorem bd_none {v : ScopeVariant} : ∀ s : Str, v.opening ∉ s → v.closing ∉ s → ∀ n, bd v n s = some n := by
  refine pair_induction (P := fun s => v.opening ∉ s → v.closing ∉ s → ∀ n, bd v n s = some n) ?_ ?_ ?_ ?_
  · intro _ _ n; exact bd_nil
  · intro _ _ n; exact bd_bs
  · intro c r ih h1 h2 n; rw [bd_esc]; simp at h1 h2; exact ih h1.2.2 h2.2.2 n
  · intro c r hc ih h1 h2 n
    simp only [List.mem_cons, not_or] at h1 h2
    rw [bd_other hc (Ne.symm h1.1) (Ne.symm h2.1)]
    exact ih h1.2 h2.2 n

theorem drop_append {v : ScopeVariant} (b : Str) : ∀ a, NoDangling a → dropBrackets v (a ++ b) = dropBrackets v a ++ dropBrackets v b := by
  refine pair_induction (P := fun a => NoDangling a → dropBrackets v (a ++ b) = dropBrackets v a ++ dropBrackets v b) ?_ ?_ ?_ ?_
  · intro _; simp [dropBrackets]
  · intro h; simp [NoDangling] at h
  · intro c r ih h
    rw [List.cons_append, List.cons_append, drop_pair, drop_pair, ih (noDangling_esc.1 h)]; rfl
  · intro c r hc ih h
    have ih := ih ((noDangling_cons hc).1 h)
    rw [List.cons_append, drop_cons hc, drop_cons hc, ih]
    split <;> rfl

theorem noDangling_drop {v : ScopeVariant} : ∀ a, NoDangling a → NoDangling (dropBrackets v a) := by
  refine pair_induction (P := fun a => NoDangling a → NoDangling (dropBrackets v a)) ?_ ?_ ?_ ?_
  · intro h; simpa [dropBrackets] using h
  · intro h; simp [NoDangling] at h
  · intro c r ih h; rw [drop_pair, noDangling_esc]; exact ih (noDangling_esc.1 h)
  · intro c r hc ih h
    have ih := ih ((noDangling_cons hc).1 h)
    rw [drop_cons hc]
    split
    · exact ih
    · exact (noDangling_cons hc).2 ih

theorem bd_drop {u v : ScopeVariant} (huv : u ≠ v) : ∀ a n, bd u n (dropBrackets v a) = bd u n a := by
  refine pair_induction (P := fun a => ∀ n, bd u n (dropBrackets v a) = bd u n a) ?_ ?_ ?_ ?_
  · intro n; simp [dropBrackets]
  · intro n; rw [drop_nil_bs]
  · intro c r ih n; rw [drop_pair, bd_esc, bd_esc, ih]
  · intro c r hc ih n
    rw [drop_cons hc]
    split
    · rename_i h
      rcases h with rfl | rfl
      · rw [bd_open_ne huv, ih]
      · rw [bd_close_ne huv, ih]
    · rw [bd_cons hc, bd_cons hc, ih, ih, ih]

theorem bd_drop_self {v : ScopeVariant} : ∀ a n, bd v n (dropBrackets v a) = some n := by
  refine pair_induction (P := fun a => ∀ n, bd v n (dropBrackets v a) = some n) ?_ ?_ ?_ ?_
  · intro n; simp [dropBrackets, bd_nil]
  · intro n; rw [drop_nil_bs, bd_bs]
  · intro c r ih n; rw [drop_pair, bd_esc, ih]
  · intro c r hc ih n
    rw [drop_cons hc]
    split
    · exact ih n
    · rename_i h
      simp only [not_or] at h
      rw [bd_other hc h.1 h.2, ih]

theorem drop_absent {v : ScopeVariant} {s : Str} (h0 : '\\' ∉ s) (h1 : v.opening ∉ s) (h2 : v.closing ∉ s) : dropBrackets v s = s := by
  induction s with
  | nil => simp [dropBrackets]
  | cons c s ih =>
    simp only [List.mem_cons, not_or] at h0 h1 h2
    rw [drop_cons (Ne.symm h0.1), if_neg (by simp only [not_or]; exact ⟨Ne.symm h1.1, Ne.symm h2.1⟩), ih h0.2 h1.2 h2.2]

/-! ### Closing brackets only -/

theorem opening_mem (v : ScopeVariant) : v.opening ∈ ['{', '[', '('] := by cases v <;> decide
theorem closing_mem (v : ScopeVariant) : v.closing ∈ closers := by cases v <;> decide

theorem closers_bs {w : Str} (h : ∀ c ∈ w, c ∈ closers) : '\\' ∉ w := fun hm => absurd (h _ hm) (by decide)
theorem closers_open {w : Str} (h : ∀ c ∈ w, c ∈ closers) (v : ScopeVariant) : v.opening ∉ w := fun hm =>
  absurd (h _ hm) (by cases v <;> decide)

theorem closers_zero {v : ScopeVariant} {w : Str} (h : ∀ c ∈ w, c ∈ closers) (hb : bd v 0 w = some 0) : v.closing ∉ w := by
  induction w with
  | nil => simp
  | cons c w ih =>
    have hc : c ≠ '\\' := fun e => closers_bs h (e ▸ .head _)
    have ho : c ≠ v.opening := fun e => closers_open h v (e ▸ .head _)
    rw [bd_cons hc, if_neg ho] at hb
    split at hb
    · simp at hb
    · rename_i h1
      intro hm
      rcases List.mem_cons.1 hm with e | hm
      · exact h1 e.symm
      · exact ih (fun c hc => h c (.tail _ hc)) hb hm

theorem bd_replicate {v : ScopeVariant} (n k : Nat) : bd v (n + k) (List.replicate k v.closing) = some n := by
  induction k with
  | zero => simp [bd_nil]
  | succ k ih => rw [List.replicate_succ, ← Nat.add_assoc, bd_close, ih]

theorem drop_replicate {v : ScopeVariant} (k : Nat) : dropBrackets v (List.replicate k v.closing) = [] := by
  induction k with
  | zero => simp [dropBrackets]
  | succ k ih => rw [List.replicate_succ, drop_cons (closing_bs v), if_pos (.inr rfl), ih]

theorem openers_append (a b : Str) : openers (a ++ b) = openers a + openers b := by simp [openers]
theorem openers_cons (c : Char) (b : Str) : openers b ≤ openers (c :: b) := by
  simp only [openers, List.countP_cons]; omega
theorem openers_open (v : ScopeVariant) (b : Str) : openers (v.opening :: b) = openers b + 1 := by
  simp only [openers, List.countP_cons, opening_mem, decide_true, if_true]

theorem drop_openers {v : ScopeVariant} : ∀ a n m, bd v n a = some m → openers (dropBrackets v a) + m ≤ openers a + n := by
  refine pair_induction (P := fun a => ∀ n m, bd v n a = some m → openers (dropBrackets v a) + m ≤ openers a + n) ?_ ?_ ?_ ?_
  · intro n m h; simp [bd_nil] at h; simp [dropBrackets, h]
  · intro n m h; simp [bd_bs] at h; simp [drop_nil_bs, h]
  · intro c r ih n m h
    rw [bd_esc] at h
    rw [drop_pair]
    have := ih n m h
    simp only [openers, List.countP_cons] at this ⊢
    omega
  · intro c r hc ih n m h
    by_cases h1 : c = v.opening
    · subst h1
      rw [bd_open] at h
      rw [drop_cons hc, if_pos (.inl rfl), openers_open]
      have := ih _ _ h
      omega
    · by_cases h2 : c = v.closing
      · subst h2
        rw [drop_cons hc, if_pos (.inr rfl)]
        have := openers_cons v.closing r
        cases n with
        | zero => rw [bd_close_zero] at h; cases h
        | succ n =>
          rw [bd_close] at h
          have := ih _ _ h
          omega
      · rw [bd_other hc h1 h2] at h
        rw [drop_cons hc, if_neg (by simp [h1, h2])]
        have := ih _ _ h
        simp only [openers, List.countP_cons] at this ⊢
        omega

/-! ### Sinking parts: all opening brackets are closed -/

/-- No more brackets are open after it than before it. -/
def Sinks (p : Str) : Prop := ∀ (v : ScopeVariant) n m, bd v n p = some m → m ≤ n

theorem Sinks.append {a b : Str} (hd : NoDangling a) (ha : Sinks a) (hb : Sinks b) : Sinks (a ++ b) := by
  intro v n m h
  rw [bd_append b a hd] at h
  rcases he : bd v n a with _ | k
  · rw [he] at h; cases h
  · rw [he] at h
    have h1 := ha v n k he
    have h2 := hb v k m h
    omega

theorem Sinks.split {p r : Str} {v : ScopeVariant} (hd : NoDangling p) (hp : Sinks p) (h : Balanced v 0 (p ++ r)) :
    Balanced v 0 p ∧ Balanced v 0 r := by
  rw [balanced_bd, bd_append r p hd] at h
  rcases he : bd v 0 p with _ | k
  · rw [he] at h; cases h
  · have := hp v 0 k he
    have : k = 0 := by omega
    subst this
    rw [he] at h
    exact ⟨(balanced_bd _ _).2 he, (balanced_bd _ _).2 h⟩

theorem balanced_append {p r : Str} {v : ScopeVariant} (hd : NoDangling p) (h1 : Balanced v 0 p) (h2 : Balanced v 0 r) :
    Balanced v 0 (p ++ r) := by
  rw [balanced_bd] at h1 h2 ⊢
  rw [bd_append r p hd, h1]; exact h2

theorem sinks_closers {t : Str} (h : ∀ x ∈ t, x ∉ ['\\', '{', '[', '(']) : Sinks t := by
  intro v
  induction t with
  | nil => intro n m e; simp [bd_nil] at e; omega
  | cons c t ih =>
    intro n m e
    have ih := ih (fun x hx => h x (.tail _ hx))
    have hc := h c (.head _)
    have h1 : c ≠ '\\' := by rintro rfl; simp at hc
    have h2 : c ≠ v.opening := by
      rintro rfl
      have := opening_mem v
      simp at hc this
      grind
    rw [bd_cons h1, if_neg h2] at e
    split at e
    · split at e
      · cases e
      · have := ih _ _ e; omega
    · exact ih _ _ e

theorem sinks_scope {v : ScopeVariant} {a : Str} (hd : NoDangling a) (hb : Balanced v 0 a) (ha : Sinks a) :
    Sinks (v.opening :: (a ++ [v.closing])) := by
  intro u n m h
  by_cases e : u = v
  · subst e
    rw [bd_open, bd_append _ a hd] at h
    have := bd_mono (n + 1) a 0 0 ((balanced_bd _ _).1 hb)
    simp only [Nat.zero_add] at this
    rw [this] at h
    simp [bd_close, bd_nil] at h
    omega
  · rw [bd_open_ne e, bd_append _ a hd] at h
    rcases he : bd u n a with _ | k
    · rw [he] at h; cases h
    · rw [he] at h
      simp [bd_close_ne e, bd_nil] at h
      have := ha u n k he
      omega

theorem neverClosed_prefix {v : ScopeVariant} {a b : Str} (h : Balanced v 0 (a ++ b)) : NeverClosed v a := by
  rintro ⟨x, r, rfl, hd, hb⟩
  rw [balanced_bd, List.append_assoc, bd_append _ x hd, (balanced_bd _ _).1 hb] at h
  simp [bd_close_zero] at h

end Ast1
end LatexAst
