import Verif.Proofs.Size
import Verif.Props.Environments
import Verif.Props.Documents
import Verif.Props.Conversion
import Verif.Model.Eq3

/-!
# C74: syntax trees are no larger than the source
-/

namespace LatexAst.Ast1

/-- C74, stage 1: the syntax tree has at most as many nodes as the source has characters. -/
theorem C74 (s : Str) (d : Document) (h : fromStr s = .ok d) : nodes d ≤ s.length := by
  have h1 := nodes_le d (nonEmpty_parsed h)
  have h2 := (C01_partial s d h).1.length_le
  simp only [List.length_map] at h2
  omega

/-- The bound is reached by a text of one character.
-/
example : (fromStr chars!"x").map nodes = .ok 1 ∧ (fromStr chars!"{}{}{\\%}").map nodes = .ok 4 := by decide +kernel

end LatexAst.Ast1

namespace LatexAst.Ast2

/-- C74, stage 2. -/
theorem C74 (s : Str) (e : Document) (h : fromStr s = .ok e) : nodes e ≤ s.length := by
  obtain ⟨d, hd, he⟩ := fromStr_parts h
  have h1 := nodes_le e (nonEmpty_parsed hd he)
  have h2 := (Ast1.C01_partial s d hd).1.length_le
  rw [C21 d e he] at h1
  simp only [List.length_map] at h2
  omega

example : (fromStr chars!"\\begin{a}[x]{y}z\\end{a}").map nodes = .ok 6 := by decide +kernel

end LatexAst.Ast2

namespace LatexAst.Ast3

theorem nonEmpty_section {s f} (h : fromStr s = .ok f) (cs : List Chunk)
    (hcs : cs = f.preamable ∨ cs = f.body ∨ cs = f.trailing ∨ ∃ p sv, (p, Scope.mk cs sv) ∈ f.bodyArgs) :
    AllChunks NonEmptyText cs := by
  obtain ⟨h1, h2⟩ := C50 s f h cs hcs
  rw [allChunks_iff]
  rintro v hw
  refine ⟨?_, ?_⟩
  · rintro t rfl; exact (h1 t hw).1
  · rintro b rfl
    obtain ⟨⟨r, hr⟩, _⟩ := h2 b hw
    simp [hr]

/-- C74, stage 3: the sections of a document have together at most as many nodes as the source has characters, however
many paragraphs and formulas its texts are cut into. There are at most as many options. -/
theorem C74 (s : Str) (f : Document) (h : fromStr s = .ok f) :
    f.nodes ≤ s.length ∧ f.documentoptions.length ≤ s.length := by
  obtain ⟨d, e, h1, h2, _, h3⟩ := fromStr_ok h
  have hd := (Ast1.C01_partial s d h1).1.length_le
  rw [← Ast2.C21 d e h2] at hd
  simp only [List.length_map] at hd
  have hsec := sections_length e
  have n1 := nodes_le _ (nonEmpty_section h f.preamable (.inl rfl))
  have n2 := nodes_le _ (nonEmpty_section h f.body (.inr (.inl rfl)))
  have n3 := nodes_le _ (nonEmpty_section h f.trailing (.inr (.inr (.inl rfl))))
  have n4 := argNodes_le f.bodyArgs ((allArgs_iff_forall _).2 fun x hx => by
    obtain ⟨p, ⟨inner, sv⟩⟩ := x
    exact nonEmpty_section h inner (.inr (.inr (.inr ⟨p, sv, hx⟩))))
  have hr := reads_iff.1 h3
  cases hr with
  | @document pre post args content pb pe options _ _ hp ht hb ho =>
    have l1 := becomes_le hp
    have l2 := becomes_le ht
    have l3 := body_le hb
    have l4 := readsLists_length ho
    have l5 := optionLists_length (classArgs (preambleOf e))
    have l6 := classArgs_length (preambleOf e)
    simp only [Document.nodes] at *
    simp only [len2] at *
    constructor <;> omega

example : (fromStr chars!"\\documentclass[a,b]{c}\\begin{document}$x$\n\ny\\end{document}").map
    (fun f => (f.nodes, f.documentoptions.length)) = .ok (9, 2) := by decide +kernel

end LatexAst.Ast3
