import Verif.Proofs.DollarCount
import Verif.Props.Skeleton
import Verif.Props.Counts

/-!
# C121: every dollar sign marks a formula
-/

namespace LatexAst.Ast2
open Spec

mutual
theorem noBackslash_even : ∀ cs : List Chunk, '\\' ∉ displayChunks cs → evenWithin cs →
    ((displayChunks cs).count '$') % 2 = ownDollars cs % 2
  | [], _, _ => by simp [displayChunks, ownDollars]
  | .mk l (.text t) :: r, h, he => by
    simp only [displayChunks, Chunk.display, ChunkVariant.display, List.mem_append, not_or] at h
    have := noBackslash_even r h.2 he.2
    simp only [displayChunks, Chunk.display, ChunkVariant.display, List.count_append, ownDollars]
    omega
  | .mk l (.scope (.mk cs v)) :: r, h, he => by
    simp only [displayChunks, Chunk.display, ChunkVariant.display, List.mem_append, not_or] at h
    simp only [evenWithin, ChunkVariant.evenWithin] at he
    have h1 := noBackslash_even r h.2 he.2
    have h2 := noBackslash_scope (.mk cs v) h.1 he.1
    simp only [displayChunks, Chunk.display, ChunkVariant.display, List.count_append, ownDollars]
    omega
  | .mk l (.command (.mk label args)) :: r, h, he => by
    simp [displayChunks, Chunk.display, ChunkVariant.display, Command.display] at h
  | .mk l (.environment (.mk label args cs pb pe)) :: r, h, he => by
    simp [displayChunks, Chunk.display, ChunkVariant.display, Environment.display] at h
theorem noBackslash_scope : ∀ s : Scope, '\\' ∉ s.display → s.evenLevels → s.display.count '$' % 2 = 0
  | .mk cs v, h, he => by
    simp only [Scope.evenLevels] at he
    have h1 := noBackslash_even cs (fun hc => h (by simp [Scope.display, hc])) he.2
    have h2 : (Scope.mk cs v).display.count '$' = (displayChunks cs).count '$' := by
      cases v <;> simp [Scope.display, ScopeVariant.opening, ScopeVariant.closing, List.count_append, List.count_cons]
    rw [h2, h1]
    omega
end

theorem noBackslash_display {s : Str} {e : Document} (h : fromStr s = .ok e) (hb : '\\' ∉ s) : '\\' ∉ displayChunks e := by
  obtain ⟨d, h1, h2⟩ := C21_source s e h
  rw [h2]
  intro hm
  have := (Ast1.C01_partial s d h1).1.subset (List.mem_map_of_mem (f := anyBracket) hm)
  obtain ⟨c, hc, he⟩ := List.mem_map.1 this
  refine hb ?_
  have : c = '\\' := by
    have h0 : anyBracket '\\' = '\\' := by decide
    rw [h0] at he
    simp only [anyBracket] at he
    split at he
    · cases he
    · split at he
      · cases he
      · exact he
  exact this ▸ hc

end LatexAst.Ast2

namespace LatexAst.Ast3
open Spec

/-- Whatever chunks are converted: the dollar signs in the texts of the sequence are exactly those that mark the formulas of the
result, two for each `$..$` and four for each `$$..$$`. -/
theorem C121 (cs : List Ast2.Chunk) (out : List Chunk) (h : mathsFromChunks cs = .ok out) : Ast2.ownDollars cs = markDollars out :=
  (maths_spends h).1

/-- So every level has an even number of dollar signs: the sequence itself, and each scope, argument and environment at any depth. -/
theorem C121_even (cs : List Ast2.Chunk) (out : List Chunk) (h : mathsFromChunks cs = .ok out) : Ast2.evenLevels cs :=
  (maths_spends h).levels

/-- So a document with an odd number of dollar signs at any level is not accepted, whatever is at the other levels; and those outside
the document environments mark the formulas of the preamble and of what follows the body. -/
theorem C121_document (e : Ast2.Document) (f : Document) (h : tryFrom e = .ok f) :
    Ast2.evenLevels e ∧ Ast2.ownDollars e = markDollars f.preamable + markDollars f.trailing := by
  cases (C57 _ _).1 h with
  | @document fpre fpost fargs fcontent fpb fpe fopts _ hb hpre htr hbd _ =>
    have h1 := maths_spends (becomes_iff.1 hpre)
    have h2 := maths_spends (becomes_iff.1 htr)
    have h3 : Ast2.ownDollars e = markDollars fpre + markDollars fpost := by rw [ownDollars_sections, h1.1, h2.1]
    refine ⟨⟨h3 ▸ Nat.dvd_add (even_marks _) (even_marks _), ?_⟩, h3⟩
    rw [Ast2.evenWithin_iff]
    intro c hc
    rcases mem_sections hc with hc | hc | hc
    · exact (Ast2.evenWithin_iff _).1 h1.2 c hc
    · obtain ⟨out, ho⟩ := hb c hc
      exact (Ast2.evenWithin_iff _).1 (maths_spends (becomes_iff.1 ho)).2 c (.head _)
    · exact (Ast2.evenWithin_iff _).1 h2.2 c hc

/-- So for sources. -/
theorem C121_source (s : Str) (e : Ast2.Document) (hs : Ast2.fromStr s = .ok e) (hodd : ¬ Ast2.evenLevels e) (f : Document) :
    fromStr s ≠ .ok f := by
  intro h
  simp only [fromStr, hs] at h
  exact hodd (C121_document e f h).1

/-- In particular a source without backslashes that has an odd number of dollar signs outside comments is not accepted. -/
theorem C121_odd (s : Str) (hb : '\\' ∉ s) (hodd : ¬ 2 ∣ (stripComments s).count '$') (f : Document) : fromStr s ≠ .ok f := by
  intro h
  cases he : Ast2.fromStr s with
  | error x => simp [fromStr, he] at h
  | ok e =>
    have h1 : tryFrom e = .ok f := by simpa [fromStr, he] using h
    obtain ⟨⟨h2, h3⟩, _⟩ := C121_document e f h1
    have h4 := Ast2.noBackslash_even e (Ast2.noBackslash_display he hb) h3
    rw [Ast2.C119_stage2 s e he '$' (by simp [Bracket]) (by decide)] at h4
    omega

/-- `a$b%$` meets the hypotheses of C121_odd; with a backslash it is not so: `\$` is accepted. -/
theorem C121_odd_example : ('\\' ∉ chars!"a$b%$" ∧ ¬ 2 ∣ (stripComments chars!"a$b%$").count '$') ∧
    (fromStr chars!"\\$").isOk = true := by
  refine ⟨⟨by decide, by decide⟩, by decide +kernel⟩

/-- Six dollar signs outside the scope, and two within, are two formulas and one. The hypotheses of C121 and C121_even are met. -/
theorem C121_example :
    mathsFromChunks [.mk 1 (.text chars!"a$x$"), .mk 1 (.scope (.mk [.mk 1 (.text chars!"$y$")] .curly)), .mk 1 (.text chars!"$$z$$")] =
      .ok [.mk 1 (.text chars!"a"), .mk 1 (.mathsBlock (.mk .dollars .inline [.mk 1 (.text chars!"x")])),
        .mk 1 (.scope (.mk [.mk 1 (.mathsBlock (.mk .dollars .inline [.mk 1 (.text chars!"y")]))] .curly)),
        .mk 1 (.mathsBlock (.mk .dollars .outline [.mk 1 (.text chars!"z")]))] ∧
    Ast2.ownDollars [.mk 1 (.text chars!"a$x$"), .mk 1 (.scope (.mk [.mk 1 (.text chars!"$y$")] .curly)), .mk 1 (.text chars!"$$z$$")] = 6 := by
  exact ⟨by decide +kernel, rfl⟩

/-- `{$}{$}` has two dollar signs, but an odd number at two levels: the hypotheses of C121_source are met. -/
theorem C121_source_example :
    Ast2.fromStr chars!"{$}{$}" = .ok [.mk 1 (.scope (.mk [.mk 1 (.text chars!"$")] .curly)), .mk 1 (.scope (.mk [.mk 1 (.text chars!"$")] .curly))] ∧
    ¬ Ast2.evenLevels [.mk 1 (.scope (.mk [.mk 1 (.text chars!"$")] .curly)), .mk 1 (.scope (.mk [.mk 1 (.text chars!"$")] .curly))] := by
  refine ⟨by decide +kernel, ?_⟩
  simp [Ast2.evenLevels, Ast2.ownDollars, Ast2.evenWithin, Ast2.ChunkVariant.evenWithin, Ast2.Scope.evenLevels]

end LatexAst.Ast3
