import Verif.Proofs.Cost3
import Verif.Props.Cost2
import Verif.Model.Eq3

/-!
# How long the stage-3 conversion takes (C68)

`mathsFromChunksN` and `tryFromN` are the conversion with a counter (`Model/Cost3.lean`). Unlike the first two stages,
this one is linear, however deep the nesting.
-/

namespace LatexAst.Ast3
open Spec

/-- The counting conversion of a sequence is the conversion. -/
theorem C68_answer_maths (cs : List Ast2.Chunk) : (mathsFromChunksN cs).1 = mathsFromChunks cs := mathsFromChunksN_fst cs

/-- The counting conversion of a document is the conversion. -/
theorem C68_answer (d : Ast2.Document) : (tryFromN d).1 = tryFrom d := tryFromN_fst d

/-- The counting parser is the parser. -/
theorem C68_answer_source (s : Str) : (fromStrN s).1 = fromStr s := by
  simp only [fromStrN, andThen_fst, Ast2.C68_answer_source, fromStr]
  cases Ast2.fromStr s with
  | error f => rfl
  | ok d => exact C68_answer d

/-- C68, maths and paragraphs, every sequence, accepted or not and however deep: at most twelve steps for every node and
twenty-four for every printed character. -/
theorem C68_maths (cs : List Ast2.Chunk) :
    (mathsFromChunksN cs).2 ≤ 12 * (Ast2.nodes cs + 2 * (Ast2.displayChunks cs).length + 1) := mathsFromChunksN_steps cs

/-- C68, stage 3, every document, accepted or not: linear. -/
theorem C68 (d : Ast2.Document) : (tryFromN d).2 ≤ 15 * (Ast2.nodes d + 2 * (Ast2.displayChunks d).length + 2) := tryFromN_steps d

/-- C68, from the source to stage 3, for every source: the third stage adds a linear part to the time of the others. -/
theorem C68_source (s : Str) : (fromStrN s).2 ≤ (openings s + 1) * (3 * s.length + 2) + 15 * (3 * s.length + 2) := by
  have h1 := Ast2.C68_source s
  have ha := Ast2.C68_answer_source s
  simp only [fromStrN]
  cases hs : Ast2.fromStrN s with
  | mk r k =>
    rw [hs] at h1 ha
    cases r with
    | error f =>
      simp only [Counted.andThen] at h1 ⊢
      omega
    | ok e =>
      have he : Ast2.fromStr s = .ok e := ha.symm
      have h2 := C68 e
      have h3 := Ast2.C74 s e he
      have h4 : (Ast2.displayChunks e).length ≤ s.length := by
        cases hd : Ast1.fromStr s with
        | error f => simp [Ast2.fromStr, hd] at he
        | ok d =>
          have hc : Ast2.tryFrom d = .ok e := by simpa [Ast2.fromStr, hd] using he
          rw [Ast2.C21 d e hc]
          have h6 := (Ast1.C01_partial s d hd).1.length_le
          simpa using h6
      simp only [Counted.andThen] at h1 ⊢
      omega

theorem runTextN_plain (rec : List Ast2.Chunk → Counted (List Chunk)) (t : Str) (h : '$' ∉ t) : ∀ st : TState, ∃ l,
    runTextN rec t st = (.ok { st with cursorLine := l, textBuffer := st.textBuffer ++ t }, t.length) := by
  induction t with
  | nil => intro st; exact ⟨st.cursorLine, by simp [runTextN, free]⟩
  | cons c t ih =>
    intro st
    simp only [List.mem_cons, not_or] at h
    have hc : stepCharN rec st c = free (.ok { st with
        cursorLine := if c = '\n' then st.cursorLine + 1 else st.cursorLine, textBuffer := st.textBuffer ++ [c] }) := by
      simp only [stepCharN, if_neg (Ne.symm h.1)]
      split <;> rfl
    obtain ⟨l, hl⟩ := ih h.2 { st with cursorLine := if c = '\n' then st.cursorLine + 1 else st.cursorLine, textBuffer := st.textBuffer ++ [c] }
    refine ⟨l, ?_⟩
    simp only [runTextN, hc, free, Counted.andThen, hl, List.append_assoc, List.singleton_append, List.length_cons, Nat.zero_add, Nat.add_comm]

/-- C68: exactly how long a text without maths takes. -/
theorem C68_text (l : Nat) (t : Str) (h1 : t ≠ []) (h2 : '$' ∉ t) :
    (mathsFromChunksN [.mk l (.text t)]).2 = 2 * t.length + 4 := by
  have key : ∀ n, (mathsFuelN (n + 1) [.mk l (.text t)]).2 = 2 * t.length + 4 := by
    intro n
    obtain ⟨l', h⟩ := runTextN_plain (mathsFuelN n) t h2 ⟨MState.init, l, [], l⟩
    have hm : MState.init.mode = .none := rfl
    have ht : t.isEmpty = false := by cases t <;> simp at h1 ⊢
    simp only [mathsFuelN, runMathsN, stepMathsN, stepMathsTextN, h, hm, Counted.andThen, free, reduceCtorEq, or_self, if_false,
      TState.pushStr, List.nil_append, ht, Bool.false_eq_true, finishMathsN, paragraphsN]
    simp [MState.init, parSteps]
    omega
  exact key _

/-- `n` scopes in each other. -/
def scopes : Nat → List Ast2.Chunk
  | 0 => []
  | n + 1 => [.mk 1 (.scope (.mk (scopes n) .curly))]

/-- C68: deep nesting takes no more than its length, in contrast to the first two stages. -/
theorem C68_scopes (n : Nat) : (mathsFromChunksN (scopes (n + 1))).2 = 6 * n + 7 := by
  have key : ∀ n m, n + 1 < m → ∃ v, mathsFuelN m (scopes (n + 1)) = (.ok [.mk 1 (.scope v)], 6 * n + 7) := by
    intro n
    induction n with
    | zero =>
      intro m hm
      obtain ⟨m, rfl⟩ : ∃ k, m = k + 2 := ⟨m - 2, by omega⟩
      exact ⟨.mk [] .curly, rfl⟩
    | succ n ih =>
      intro m hm
      obtain ⟨m, rfl⟩ : ∃ k, m = k + 1 := ⟨m - 1, by omega⟩
      obtain ⟨v, hv⟩ := ih m (by omega)
      refine ⟨.mk [.mk 1 (.scope v)] .curly, ?_⟩
      have hm : MState.init.mode = .none := rfl
      rw [scopes, mathsFuelN]
      simp only [runMathsN, stepMathsN, tryScopeN, hv, hm, Counted.andThen, free, paragraphsN, if_true, paragraphs, paragraphChunk, finishMathsN]
      simp [MState.init, parSteps, paragraphs, paragraphChunk]
      omega
  have hs : ∀ n, n ≤ sizeChunks (scopes n) := by
    intro n
    induction n with
    | zero => exact Nat.zero_le _
    | succ n ih => simp only [scopes, sizeChunks, sizeChunk, sizeVariant, sizeScope]; omega
  have := hs (n + 1)
  obtain ⟨v, hv⟩ := key n (sizeChunks (scopes (n + 1)) + 1) (by omega)
  rw [mathsFromChunksN, hv]

/-- Texts with maths are in the range of `C68_maths`, and so are whole documents. -/
example : (mathsFromChunksN [.mk 1 (.command (.mk chars!"(" [])), .mk 1 (.text chars!"$abcdefghij$"), .mk 1 (.command (.mk chars!")" []))]).2 = 47 ∧
    (fromStrN chars!"\\documentclass{a}\\begin{document}$x$\n\n\\[y\\]\\end{document}").2 = 175 := by decide +kernel

end LatexAst.Ast3
