import Verif.Proofs.Depth3b
import Verif.Props.Grammar
import Verif.Model.Eq2
import Verif.Model.Eq3

/-!
# How deep the recursion goes (C67)

`parseFuel n`, `convFuel n` and `mathsFuel n` are `ast1::Document::from_str`, `ast2::Document::try_from` and
`MathsBlock::from_chunks` stopped as soon as more than `n` calls are nested in each other (they then answer
`.error .fuel`; the unrestricted functions never do, C03).
-/

namespace LatexAst.Ast1
open Spec

/-- C67, stage 1: a source that is accepted needs as many nested calls as the document read from it is deep, plus
one, and no fewer. -/
theorem C67 (s : Str) (d : Document) (h : fromStr s = .ok d) (n : Nat) :
    (NestedAtMost n d → parseFuel (n + 1) s = .ok d) ∧ (¬ NestedAtMost n d → parseFuel (n + 1) s = .error .fuel) := by
  refine ⟨fun hd => parseFuel_of_depth h fun k lv hl => Nat.lt_succ_of_le (hd k lv hl), fun hd => ?_⟩
  refine Classical.byContradiction fun hf => hd fun k lv hl => ?_
  rw [← parseFuel_fromStr hf] at h
  have := parseFuel_depth h hl
  omega

/-- C67, stage 1, every source: the calls nested in each other are at most one more than the opening brackets. -/
theorem C67_bound (s : Str) (n : Nat) (h : openings s ≤ n) : parseFuel (n + 1) s = fromStr s :=
  parseFuel_open _ _ (Nat.lt_succ_of_le h)

/-- `{{{...}}}` -/
def nest (n : Nat) : Str := List.replicate n '{' ++ List.replicate n '}'

theorem nest_succ (n : Nat) : nest (n + 1) = '{' :: (nest n ++ '}' :: []) := by
  simp [nest, List.replicate_succ, ← List.replicate_succ']

theorem nest_clean (n : Nat) : SelfContained (nest n) := by
  have key : ∀ s : Str, (∀ c ∈ s, c ≠ '\\' ∧ c ≠ '%') → SelfContained s := by
    intro s hs
    induction s with
    | nil => exact ⟨rfl, trivial⟩
    | cons c s ih =>
      have hc := hs c (.head _)
      have := ih fun x hx => hs x (.tail _ hx)
      refine ⟨?_, (noDangling_cons hc.1).2 this.2⟩
      rw [stripComments, this.1]
      · exact hc.2
      · intro a b he; exact absurd he hc.1
  refine key _ fun c hc => ?_
  simp only [nest, List.mem_append, List.mem_replicate] at hc
  rcases hc with ⟨_, rfl⟩ | ⟨_, rfl⟩ <;> decide

theorem nest_balanced (n : Nat) : Balanced .curly 0 (nest n) := by
  have h2 : ∀ k, Balanced .curly k (List.replicate k '}') := by
    intro k
    induction k with
    | zero => rfl
    | succ k ih =>
      rw [List.replicate_succ, Balanced]
      · simp [ScopeVariant.opening, ScopeVariant.closing]
        exact ih
      · intro a b he; cases he
  have h1 : ∀ j k, Balanced .curly k (List.replicate j '{' ++ List.replicate (j + k) '}') := by
    intro j
    induction j with
    | zero => intro k; simpa using h2 k
    | succ j ih =>
      intro k
      rw [List.replicate_succ, List.cons_append, Balanced]
      · have := ih (k + 1)
        simpa [ScopeVariant.opening, ScopeVariant.closing, Nat.add_assoc, Nat.add_comm 1 k] using this
      · intro a b he; cases he
  simpa [nest] using h1 n 0

/-- What `nest n` is read as. -/
def nested : Nat → List Chunk
  | 0 => []
  | n + 1 => [.mk 1 (.scope (.mk (nested n) .curly))]

theorem nest_reads (n : Nat) : Reads 1 (nest n) (.ok (nested n)) := by
  induction n with
  | zero => exact .nil
  | succ n ih =>
    rw [nest_succ]
    exact Reads.scope (v := .curly) (o := .ok []) (nest_clean n).2 (nest_balanced n) ih .nil

/-- C67: the recursion is not bounded: `n` opening and `n` closing braces are accepted, but not with `n` nested
calls. -/
theorem C67_deep (n : Nat) : ∃ d, fromStr (nest n) = .ok d ∧ parseFuel n (nest n) = .error .fuel := by
  refine ⟨nested n, (C51 _ (nest_clean n) _).2 (nest_reads n), ?_⟩
  cases n with
  | zero => rfl
  | succ n =>
    refine (C67 _ _ ((C51 _ (nest_clean _) _).2 (nest_reads _)) n).2 fun h => ?_
    have key : ∀ n, LevelAt (nested n) n [] := by
      intro n
      induction n with
      | zero => exact .top
      | succ n ih => exact levelAt_scope (l := 1) (sv := .curly) (.head _) ih
    have := h _ _ (key (n + 1))
    omega

/-- Non-vacuity: a document of depth two, its three nested calls, and a source with more brackets than depth. -/
example : parseFuel 3 chars!"\\foo[a{b}]{c}" = fromStr chars!"\\foo[a{b}]{c}" ∧
    parseFuel 2 chars!"\\foo[a{b}]{c}" = .error .fuel ∧ openings chars!"\\foo[a{b}]{c}" = 3 := by decide +kernel

example : nest 3 = chars!"{{{}}}" := rfl

end LatexAst.Ast1

namespace LatexAst.Ast2
open Spec

/-- C67, stage 2: a document that is accepted needs as many nested calls as its conversion is deep, plus one, and no
fewer. -/
theorem C67 (d : Ast1.Document) (e : Document) (h : tryFrom d = .ok e) (n : Nat) :
    (NestedAtMost n e → convFuel (n + 1) d = .ok e) ∧ (¬ NestedAtMost n e → convFuel (n + 1) d = .error .fuel) := by
  refine ⟨fun hd => convFuel_of_depth h fun k lv hl => Nat.lt_succ_of_le (hd k lv hl), fun hd => ?_⟩
  refine Classical.byContradiction fun hf => hd fun k lv hl => ?_
  rw [← convFuel_tryFrom hf] at h
  have := convFuel_depth h hl
  omega

/-- C67, stage 2, every document: at most one more than the opening brackets of the printed document. -/
theorem C67_bound (d : Ast1.Document) (n : Nat) (h : openings (Ast1.displayChunks d) ≤ n) :
    convFuel (n + 1) d = tryFrom d := convFuel_open _ _ (Nat.lt_succ_of_le h)

/-- C67: the recursion of stage 2 is not bounded either. -/
theorem C67_deep (n : Nat) : ∃ s d e, Ast1.fromStr s = .ok d ∧ tryFrom d = .ok e ∧ convFuel n d = .error .fuel := by
  have h1 : ∀ n, ∃ e, tryFrom (Ast1.nested n) = .ok e ∧ LevelAt e n [] := by
    intro n
    induction n with
    | zero => exact ⟨[], rfl, .top⟩
    | succ n ih =>
      obtain ⟨e, h1, h2⟩ := ih
      refine ⟨[.mk 1 (.scope (.mk e .curly))], ?_, levelAt_child (.scope (.head _)) h2⟩
      rw [tryFrom_eq, Ast1.nested]
      simp [convWith, run, step, State.init, convScope, h1, addLine, State.pushChunks, finish]
  obtain ⟨e, h2, h3⟩ := h1 n
  refine ⟨Ast1.nest n, Ast1.nested n, e, (Ast1.C51 _ (Ast1.nest_clean n) _).2 (Ast1.nest_reads n), h2, ?_⟩
  cases n with
  | zero => rfl
  | succ n =>
    refine (C67 _ _ h2 n).2 fun h => ?_
    have := h _ _ h3
    omega

/-- Non-vacuity: an environment inside an environment. -/
example : ∃ d, Ast1.fromStr chars!"\\begin{a}\\begin{b}x\\end{b} y\\end{a}" = .ok d ∧
    tryFrom d = .ok [.mk 1 (.environment (.mk chars!"a" [] [.mk 1 (.environment (.mk chars!"b" [] [.mk 1 (.text chars!"x")] [] [])),
      .mk 1 (.text chars!" y")] [] []))] ∧ convFuel 3 d = tryFrom d ∧ convFuel 2 d = .error .fuel := by
  refine ⟨_, rfl, ?_, ?_, ?_⟩ <;> decide +kernel

end LatexAst.Ast2

namespace LatexAst.Ast3
open Spec

/-- C67, maths and paragraphs: a sequence of chunks that is accepted needs as many nested calls as the result is
deep, plus one, and no fewer. -/
theorem C67 (cs : List Ast2.Chunk) (out : List Chunk) (h : mathsFromChunks cs = .ok out) (n : Nat) :
    (NestedAtMost n out → mathsFuel (n + 1) cs = .ok out) ∧ (¬ NestedAtMost n out → mathsFuel (n + 1) cs = .error .fuel) := by
  refine ⟨fun hd => mathsFuel_of_depth h fun k lv hl => Nat.lt_succ_of_le (hd k lv hl), fun hd => ?_⟩
  refine Classical.byContradiction fun hf => hd fun k lv hl => ?_
  rw [← mathsFuel_eq hf] at h
  have := mathsFuel_depth_ok h k lv hl
  omega

/-- C67, maths and paragraphs, every sequence of chunks: at most one more than the opening brackets and dollars of
the printed chunks. -/
theorem C67_bound (cs : List Ast2.Chunk) (n : Nat) (h : mathsOpenings (Ast2.displayChunks cs) ≤ n) :
    mathsFuel (n + 1) cs = mathsFromChunks cs := mathsFuel_open (Nat.lt_succ_of_le h)

/-- C67: the recursion of stage 3 is not bounded either. -/
theorem C67_deep (n : Nat) : ∃ s d e out, Ast1.fromStr s = .ok d ∧ Ast2.tryFrom d = .ok e ∧ mathsFromChunks e = .ok out ∧
    mathsFuel n e = .error .fuel := by
  have h1 : ∀ n, ∃ e out, Ast2.tryFrom (Ast1.nested n) = .ok e ∧ mathsFromChunks e = .ok out ∧ LevelAt out n [] := by
    intro n
    induction n with
    | zero => exact ⟨[], [], rfl, rfl, .top⟩
    | succ n ih =>
      obtain ⟨e, out, h1, h2, h3⟩ := ih
      refine ⟨[.mk 1 (.scope (.mk e .curly))], [.mk 1 (.scope (.mk (paragraphs out) .curly))], ?_, ?_, ?_⟩
      · rw [Ast2.tryFrom_eq, Ast1.nested]
        simp [Ast2.convWith, Ast2.run, Ast2.step, Ast2.State.init, Ast2.convScope, h1, addLine, Ast2.State.pushChunks, Ast2.finish]
      · rw [mathsFromChunks_eq]
        simp [mathsLevel, runMaths, stepMaths, MState.init, tryScope, h2, finishMaths, paragraphs, paragraphChunk]
      · have hp : paragraphs out = out := by
          rw [mathsFromChunks_eq] at h2
          unfold mathsLevel at h2
          split at h2
          · cases h2
          · rename_i s _
            unfold finishMaths at h2
            split at h2
            · cases h2
            · injection h2 with h2
              rw [← h2, paragraphs_idem]
        rw [hp]
        exact levelAt_child (.scope (.head _)) h3
  obtain ⟨e, out, h2, h3, h4⟩ := h1 n
  refine ⟨Ast1.nest n, Ast1.nested n, e, out, (Ast1.C51 _ (Ast1.nest_clean n) _).2 (Ast1.nest_reads n), h2, h3, ?_⟩
  cases n with
  | zero => rfl
  | succ n =>
    refine (C67 _ _ h3 n).2 fun h => ?_
    have := h _ _ h4
    omega

/-- Non-vacuity: maths in a scope. -/
example : mathsFuel 3 [.mk 1 (.scope (.mk [.mk 1 (.text chars!"a$b$")] .curly))] =
      .ok [.mk 1 (.scope (.mk [.mk 1 (.text chars!"a"), .mk 1 (.mathsBlock (.mk .dollars .inline [.mk 1 (.text chars!"b")]))] .curly))] ∧
    mathsFuel 2 [.mk 1 (.scope (.mk [.mk 1 (.text chars!"a$b$")] .curly))] = .error .fuel := by decide +kernel

end LatexAst.Ast3
