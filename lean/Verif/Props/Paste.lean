import Verif.Proofs.Paste1
import Verif.Props.Retext

/-!
# C108: cutting, pasting and building documents that survive saving and loading
-/

namespace LatexAst.Ast1
open Spec

/-- C108, stage 1: two sequences of chunks, one after the other, survive saving and loading exactly if each of them does and they may be
joined. -/
theorem C108 (a b : Document) : Survives (a ++ b) ↔ Survives a ∧ Survives b ∧ Joins a b := by
  rw [survives_good, survives_good, survives_good, good_append]

/-- C108: the empty document survives. -/
theorem C108_nil : Survives [] := by
  rw [survives_good, good_iff]
  exact ⟨⟨trivial, fun _ _ h => by cases h⟩, (fun _ _ _ h => by cases h), fun _ _ _ _ _ _ h => by cases h⟩

/-- C108: which texts survive on their own. -/
theorem C108_text (l : Nat) (t : Str) : Survives [.mk l (.text t)] ↔ t ≠ [] ∧ ∀ x ∈ t, x ∉ ['\\', '%', '{', '[', '('] := by
  rw [survives_good, good_iff]
  constructor
  · intro h; exact h.1.2 l _ (List.mem_singleton.2 rfl)
  · intro h
    refine ⟨⟨⟨trivial, trivial⟩, fun l' v hm => ?_⟩, (fun _ _ _ hm => by simp at hm), fun _ _ _ _ _ _ hm => by simp at hm⟩
    rw [List.mem_singleton] at hm; injection hm with _ hm; subst hm; exact h

/-- C108: which scopes survive on their own. -/
theorem C108_scope (l : Nat) (inner : Document) (sv : ScopeVariant) :
    Survives [.mk l (.scope (.mk inner sv))] ↔ sv = .curly ∧ Survives inner ∧ ∀ t, Within inner (.text t) → '}' ∉ t := by
  rw [survives_good, survives_good, good_iff]
  constructor
  · intro h
    have h1 := h.1.2 l _ (List.mem_singleton.2 rfl)
    exact ⟨h1.1, h.2.1 l inner sv (by simp), h1.2⟩
  · rintro ⟨h1, h2, h3⟩
    refine ⟨⟨⟨.inl rfl, trivial⟩, fun l' v hm => ?_⟩, fun l' i sv' hm => ?_, fun _ _ _ _ _ _ hm => by simp at hm⟩
    · rw [List.mem_singleton] at hm; injection hm with _ hm; subst hm; exact ⟨h1, h3⟩
    · rw [List.mem_singleton] at hm; injection hm with _ hm; injection hm with hm; injection hm with hm _; subst hm; exact h2

/-- C108: which commands survive on their own: letter commands with only blanks before the arguments, each of which survives and has no
bracket of its own kind inside, and commands that are one character and have no arguments. -/
theorem C108_command (l : Nat) (label : Str) (args : List (Str × Scope)) :
    Survives [.mk l (.command (.mk label args))] ↔
      (LetterName label ∧ ∀ prec inner sv, (prec, Scope.mk inner sv) ∈ args → Blank prec ∧ Survives inner ∧ NoGroupOf sv inner ∧ NoCloserOf sv inner) ∨
      ∃ c, label = [c] ∧ isAsciiAlphabetic c = false ∧ args = [] := by
  simp only [survives_good]
  rw [good_iff]
  constructor
  · intro h
    rcases h.1.2 l _ (List.mem_singleton.2 rfl) with ⟨h1, h2⟩ | h1
    · refine .inl ⟨h1, fun prec inner sv hm => ?_⟩
      obtain ⟨h3, h4, h5⟩ := h2 prec inner sv hm
      exact ⟨h3, h.2.2 l label args prec inner sv (by simp) hm, h4, h5⟩
    · exact .inr h1
  · intro h
    refine ⟨⟨⟨.inr (.inl rfl), trivial⟩, fun l' v hm => ?_⟩, (fun _ _ _ hm => by simp at hm), fun l' la ar prec inner sv hm ha => ?_⟩
    · rw [List.mem_singleton] at hm; injection hm with _ hm; subst hm
      rcases h with ⟨h1, h2⟩ | h1
      · refine .inl ⟨h1, fun prec inner sv ha => ?_⟩
        obtain ⟨h3, _, h4, h5⟩ := h2 prec inner sv ha
        exact ⟨h3, h4, h5⟩
      · exact .inr h1
    · rw [List.mem_singleton] at hm; injection hm with _ hm; injection hm with hm; injection hm with h1 h2; subst h1; subst h2
      rcases h with ⟨_, h2⟩ | ⟨_, _, _, rfl⟩
      · exact (h2 prec inner sv ha).2.1
      · cases ha

/-- C108: a part of a document is cut out and another is pasted in its place. -/
theorem C108_replace (a m m' b : Document) (h : Survives (a ++ m ++ b)) (hm : Survives m') (h1 : Joins a m') (h2 : Joins (a ++ m') b) :
    Survives (a ++ m' ++ b) := by
  rw [C108] at h ⊢
  rw [C108] at h ⊢
  exact ⟨⟨h.1.1, hm, h1⟩, h.2.1, h2⟩

/-- Both sides of the rule for sequences are met, and each of the three conditions of joining is needed. -/
theorem C108_example :
    Survives ([.mk 1 (.text chars!"x"), .mk 1 (.command (.mk chars!"a" []))] ++ [.mk 1 (.text chars!" y"), .mk 1 (.scope (.mk [] .curly))]) ∧
    Survives [.mk 1 (.text chars!"x")] ∧ ¬ Survives ([.mk 1 (.text chars!"x")] ++ [.mk 1 (.text chars!"x")]) ∧
    Survives [.mk 1 (.command (.mk chars!"a" []))] ∧ ¬ Survives ([.mk 1 (.command (.mk chars!"a" []))] ++ [.mk 1 (.text chars!"x")]) ∧
    Survives [.mk 1 (.scope (.mk [] .curly))] ∧ ¬ Survives ([.mk 1 (.command (.mk chars!"a" []))] ++ [.mk 1 (.scope (.mk [] .curly))]) := by
  have ht : Survives [.mk 1 (.text chars!"x")] := (C108_text _ _).2 ⟨by simp, by simp⟩
  have hs : Survives [.mk 1 (.scope (.mk [] .curly))] := (C108_scope _ _ _).2 ⟨rfl, C108_nil, fun _ h => by cases h <;> contradiction⟩
  have hc : Survives [.mk 1 (.command (.mk chars!"a" []))] := (C108_command _ _ _).2 (.inl ⟨⟨'a', [], rfl, by decide, by simp⟩, fun _ _ _ h => by cases h⟩)
  refine ⟨⟨_, by decide +kernel, retexted_refl (R := fun t t' => t' = t) (fun _ => rfl) _⟩, ht, fun h => ?_, hc, fun h => ?_, hs, fun h => ?_⟩
  · exact ((C108 _ _).1 h).2.2.1 [] _ _ _ _ _ rfl rfl
  · obtain ⟨y, z, h1, h2⟩ := (((C108 _ _).1 h).2.2.2.1 [] _ _ _ _ _ _ _ rfl (by decide) rfl).1 rfl
    cases h1; exact absurd h2 (by decide)
  · exact (((C108 _ _).1 h).2.2.2.2 [.mk 1 (.command (.mk chars!"a" []))] [] [] _ _ _ rfl rfl ⟨[], _, _, _, _, rfl, by decide⟩ (.inl rfl)).1 _ rfl

end LatexAst.Ast1
