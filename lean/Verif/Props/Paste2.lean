import Verif.Proofs.Paste5

/-!
# C108: cutting, pasting and building documents of stage 2
-/

namespace LatexAst.Ast2
open Spec

/-- C108, stage 2: two sequences of chunks, one after the other, survive saving and loading exactly if each of them does and they may be
joined. -/
theorem C108 (a b : Document) : Survives (a ++ b) ↔ Survives a ∧ Survives b ∧ Joins a b := survives_append

/-- C108: the empty document survives. -/
theorem C108_nil : Survives [] := survives_spelt.2 ⟨[], Ast1.survives_good.1 Ast1.C108_nil, rfl⟩

/-- C108: which texts survive on their own. -/
theorem C108_text (l : Nat) (t : Str) : Survives [.mk l (.text t)] ↔ t ≠ [] ∧ ∀ x ∈ t, x ∉ ['\\', '%', '{', '[', '('] := by
  rw [survives_single]
  constructor
  · rintro ⟨d, hd, hs⟩
    simp only [SpeltV] at hs
    obtain ⟨l', rfl⟩ := single_variant hs
    exact (Ast1.C108_text l' t).1 hd
  · intro h; exact ⟨[.mk 1 (.text t)], (Ast1.C108_text 1 t).2 h, by simp [SpeltV, Ast1.Chunk.variant]⟩

/-- C108: which scopes survive on their own. -/
theorem C108_scope (l : Nat) (inner : Document) (sv : ScopeVariant) :
    Survives [.mk l (.scope (.mk inner sv))] ↔ sv = .curly ∧ Survives inner ∧ ∀ t, Within inner (.text t) → '}' ∉ t := by
  rw [survives_single]
  constructor
  · rintro ⟨d, hd, hs⟩
    simp only [SpeltV] at hs
    obtain ⟨ds, hs, h⟩ := hs
    obtain ⟨l', rfl⟩ := single_variant hs
    obtain ⟨h1, h2, h3⟩ := (Ast1.C108_scope l' ds sv).1 hd
    have hg := Ast1.survives_good.1 h2
    exact ⟨h1, survives_spelt.2 ⟨ds, hg, h⟩, (closers_spelt h hg).2 h3⟩
  · rintro ⟨h1, h2, h3⟩
    obtain ⟨ds, hg, h⟩ := survives_spelt.1 h2
    refine ⟨[.mk 1 (.scope (.mk ds sv))], (Ast1.C108_scope 1 ds sv).2 ⟨h1, Ast1.survives_good.2 hg, (closers_spelt h hg).1 h3⟩, ?_⟩
    simp only [SpeltV]
    exact ⟨ds, rfl, h⟩

/-- C108: which commands survive on their own. -/
theorem C108_command (l : Nat) (label : Str) (args : List (Str × Scope)) :
    Survives [.mk l (.command (.mk label args))] ↔ label ≠ chars!"begin" ∧ label ≠ chars!"end" ∧
      ((Ast1.LetterName label ∧ ∀ prec inner sv, (prec, Scope.mk inner sv) ∈ args → Blank prec ∧ Survives inner ∧ NoBracketOf sv inner) ∨
      ∃ c, label = [c] ∧ isAsciiAlphabetic c = false ∧ args = []) := by
  rw [survives_single, args_spelt]
  constructor
  · rintro ⟨d, hd, hs⟩
    simp only [SpeltV] at hs
    obtain ⟨hb, he, args', hs, h⟩ := hs
    obtain ⟨l', rfl⟩ := single_variant hs
    refine ⟨hb, he, ?_⟩
    rcases (Ast1.C108_command l' label args').1 hd with ⟨h1, h2⟩ | ⟨c, h1, h2, rfl⟩
    · exact .inl ⟨h1, args', h, h2⟩
    · refine .inr ⟨c, h1, h2, ?_⟩
      match args, h with
      | [], _ => rfl
      | (_, .mk ..) :: _, h => simp [SpeltArgs] at h
  · rintro ⟨hb, he, ⟨h1, args', h, h2⟩ | ⟨c, h1, h2, rfl⟩⟩
    · exact ⟨[.mk 1 (.command (.mk label args'))], (Ast1.C108_command 1 label args').2 (.inl ⟨h1, h2⟩), by simp only [SpeltV]; exact ⟨hb, he, args', rfl, h⟩⟩
    · exact ⟨[.mk 1 (.command (.mk label []))], (Ast1.C108_command 1 label []).2 (.inr ⟨c, h1, h2, rfl⟩),
        by simp only [SpeltV]; exact ⟨hb, he, [], rfl, by simp [SpeltArgs]⟩⟩

/-- C108: which environments survive on their own: there are only blanks before the names; the name, read as a document and printed, is the
name, without curly brackets; the arguments are as those of a command; the content survives, and may be put after a letter command with
an argument. -/
theorem C108_environment (l : Nat) (label : Str) (args : List (Str × Scope)) (content : Document) (pb pe : Str) :
    Survives [.mk l (.environment (.mk label args content pb pe))] ↔
      Blank pb ∧ Blank pe ∧
      (∃ lab, Ast1.fromStr label = .ok lab ∧ Ast1.displayChunks lab = label ∧ Ast1.NoGroupOf .curly lab ∧ Ast1.NoCloserOf .curly lab) ∧
      (∀ prec inner sv, (prec, Scope.mk inner sv) ∈ args → Blank prec ∧ Survives inner ∧ NoBracketOf sv inner) ∧
      Survives content ∧ Joins [.mk 1 (.command (.mk ['x'] [([], .mk [] .curly)]))] content := survives_environment

/-- C108: a part of a document is cut out and another is pasted in its place. -/
theorem C108_replace (a m m' b : Document) (h : Survives (a ++ m ++ b)) (hm : Survives m') (h1 : Joins a m') (h2 : Joins (a ++ m') b) :
    Survives (a ++ m' ++ b) := by
  rw [C108] at h ⊢
  rw [C108] at h ⊢
  exact ⟨⟨h.1.1, hm, h1⟩, h.2.1, h2⟩

/-- Documents as in the rules: an environment with an argument and a content, followed by a text; a scope right after an environment would
be read as its argument. -/
theorem C108_example :
    Survives ([.mk 1 (.environment (.mk chars!"it" [([], .mk [.mk 1 (.text chars!"x")] .round)] [.mk 1 (.text chars!"a")] [] []))] ++ [.mk 1 (.text chars!"b")]) ∧
    Survives [.mk 1 (.environment (.mk chars!"it" [] [] [] []))] ∧ Survives [.mk 1 (.scope (.mk [] .curly))] ∧
    ¬ Survives ([.mk 1 (.environment (.mk chars!"it" [] [] [] []))] ++ [.mk 1 (.scope (.mk [] .curly))]) ∧
    ¬ Survives [.mk 1 (.environment (.mk chars!"it" [] [.mk 1 (.scope (.mk [] .curly))] [] []))] := by
  refine ⟨⟨_, by decide +kernel, same_refl _⟩, ⟨_, by decide +kernel, same_refl _⟩, ⟨_, by decide +kernel, same_refl _⟩, fun h => ?_, fun h => ?_⟩
  · exact (((C108 _ _).1 h).2.2.2.2.2 [.mk 1 (.environment (.mk chars!"it" [] [] [] []))] [] [] _ _ _ rfl rfl ⟨[], _, _, rfl, .inr ⟨_, rfl⟩⟩ (.inl rfl)).1 _ rfl
  · exact (((C108_environment _ _ _ _ _ _).1 h).2.2.2.2.2.2.2.2 [.mk 1 (.command (.mk ['x'] [([], .mk [] .curly)]))] [] [] _ _ _ rfl rfl ⟨[], _, _, rfl, .inl ⟨_, _, _, rfl, by decide⟩⟩ (.inl rfl)).1 _ rfl

end LatexAst.Ast2
