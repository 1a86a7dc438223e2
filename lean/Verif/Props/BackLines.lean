import Verif.Proofs.BackLines
import Verif.Props.Environments
import Verif.Model.Eq1
import Verif.Model.Eq2

/-! # C26: what going to stage 2 and back does, exactly -/

namespace LatexAst.Ast2
open LatexAst.Ast1 (Displaced)

/-- C26, for every parsed document: going to stage 2 and back always succeeds, and gives the same document except
that every `\begin` and its `\end` have moved down by the newlines in the arguments of the `\begin`. Missing for the
full property: that they have not moved, which is false of the code, see `C26_false`. -/
theorem C26_displaced_partial (s : Str) (d : Ast1.Document) (e : Document) (hd : Ast1.fromStr s = .ok d)
    (he : tryFrom d = .ok e) : ∃ d', toAst1 e = .ok d' ∧ Displaced d d' := by
  have hr : ReadyAll d := by
    intro lv hl
    refine ⟨Ast1.sane_parsed hd lv hl, ?_⟩
    intro l p lab args hm
    exact label_reads hd hl.level hm (.head _)
  obtain ⟨d', h1, h2⟩ := back_lines he hr
  have := h2 0
  rw [map_shift_zero] at this
  refine ⟨d', ?_, h1⟩
  rw [toAst1_eq this, foldl_push_nomerge]
  exact displaced_nomerge h1 (Ast1.C09 s d hd d .top).2.1

/-- Two displaced environments, in a scope. -/
example : ∃ d e d', Ast1.fromStr chars!"x{\\begin\n{a}y\\begin{b}\n[u]\\end{b}\\end{a}}" = .ok d ∧
    tryFrom d = .ok e ∧ toAst1 e = .ok d' ∧ Displaced d d' ∧ d ≠ d' := by
  have h : (match Ast1.fromStr chars!"x{\\begin\n{a}y\\begin{b}\n[u]\\end{b}\\end{a}}" with
      | .ok d => match tryFrom d with
        | .ok e => match toAst1 e with
          | .ok d' => !decide (d = d')
          | _ => false
        | _ => false
      | _ => false) = true := by decide +kernel
  split at h
  · rename_i d h1
    split at h
    · rename_i e h2
      split at h
      · rename_i d' h3
        obtain ⟨d'', h5, h6⟩ := C26_displaced_partial _ _ _ h1 h2
        rw [h3] at h5
        cases h5
        exact ⟨d, e, d', h1, h2, h3, h6, by simpa using h⟩
      · cases h
    · cases h
  · cases h

end LatexAst.Ast2
