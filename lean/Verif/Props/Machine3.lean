import Verif.Proofs.Machine3
import Verif.Props.Machine
import Verif.Model.Eq3

/-!
# C66: machine integers, stage 3

The third stage counts consecutive newlines in an `i32`, so its bound is `i32::MAX` characters; and it subtracts line
numbers without a guarantee that the result is not negative, in which case a debug build panics (this is the `.panic`
of `Model/Conv3.lean`) and a release build goes on with a line number of about four billion.
-/

namespace LatexAst.Ast3

/-- C66, stage 3. For sources of at most `i32::MAX` characters that the model does not panic on, the parser computes
what the model computes, whatever an overflow does. -/
theorem C66_maths (A : Arith) (s : Str) (h : s.length < 2 ^ 31) (hp : fromStr s ≠ .error .panic) : fromStrA A s = fromStr s := by
  unfold fromStr at hp ⊢
  unfold fromStrA
  rw [Ast2.C66_environments A s (by omega)]
  cases hd : Ast2.fromStr s with
  | error f => rfl
  | ok d =>
    rw [hd] at hp
    exact tryFromA_eq (K := s.length) (B := 2 * s.length + 1) (by simp only [i32Size]; omega) (by simp only [u32Size]; omega)
      (low_parsed hd) (fun h => absurd h hp)

/-- C66, stage 3, debug builds: also when the model panics. -/
theorem C66_maths_debug (s : Str) (h : s.length < 2 ^ 31) : fromStrA .debug s = fromStr s := by
  unfold fromStr fromStrA
  rw [Ast2.C66_environments .debug s (by omega)]
  cases hd : Ast2.fromStr s with
  | error f => rfl
  | ok d =>
    exact tryFromA_eq (K := s.length) (B := 2 * s.length + 1) (by simp only [i32Size]; omega) (by simp only [u32Size]; omega)
      (low_parsed hd) (fun _ a b hab => by simp only [Arith.debug]; rw [if_neg (by omega)])

/-- So the two builds agree exactly on what the debug build does not panic on. -/
theorem C66_maths_builds (s : Str) (h : s.length < 2 ^ 31) (hp : fromStrA .debug s ≠ .error .panic) :
    fromStrA .release s = fromStrA .debug s := by
  rw [C66_maths_debug s h] at hp ⊢
  exact C66_maths .release s h hp

/-! ### the bound -/

theorem debug_breaks (k : Nat) (s : ParState) (hc : s.consec < i32Size) (hk : i32Size ≤ s.consec + k) :
    parRunA .debug (List.replicate k '\n') s = .error .panic := by
  induction k generalizing s with
  | zero => omega
  | succ k ih =>
    simp only [List.replicate_succ, parRunA]
    by_cases h1 : s.consec + 1 < i32Size
    · by_cases h2 : s.lineNo + 1 < u32Size
      · have : ∃ s', parStepA .debug s '\n' = .ok s' ∧ s'.consec = s.consec + 1 := by
          refine ⟨parStep s '\n', ?_, ?_⟩
          · simp only [parStepA, parStep, Arith.debug, h1, h2, if_true]
            split
            · rfl
            · rfl
          · by_cases h3 : s.consec = 1 <;> simp [parStep, h3]
        obtain ⟨s', e, hs'⟩ := this
        rw [e]
        exact ih s' (by omega) (by omega)
      · have : parStepA .debug s '\n' = .error .panic := by
          by_cases h3 : s.consec = 1
          · simp only [parStepA, Arith.debug, h1, h2, if_true, if_false, panicked]
            split <;> rfl
          · simp [parStepA, Arith.debug, h3, h1, h2, panicked]
        rw [this]
    · have : parStepA .debug s '\n' = .error .panic := by
        simp only [parStepA, Arith.debug, h1, if_true, if_false, panicked]
        split <;> rfl
      rw [this]

theorem run_newlines3 (rec : List Ast2.Chunk → Res (List Chunk)) (k : Nat) (t : TState) :
    runText rec (List.replicate k '\n') t =
      .ok { t with cursorLine := t.cursorLine + k, textBuffer := t.textBuffer ++ List.replicate k '\n' } := by
  induction k generalizing t with
  | zero => simp [runText]
  | succ k ih =>
    simp only [List.replicate_succ, runText, stepChar]
    simp [ih]
    omega

theorem run_newlinesA (A : Arith) (rec : List Ast2.Chunk → Res (List Chunk)) (k : Nat) (t : TState) (h : t.cursorLine + k < u32Size) :
    runTextA A rec (List.replicate k '\n') t =
      .ok { t with cursorLine := t.cursorLine + k, textBuffer := t.textBuffer ++ List.replicate k '\n' } := by
  induction k generalizing t with
  | zero => simp [runTextA]
  | succ k ih =>
    simp only [List.replicate_succ, runTextA, stepCharA, if_true]
    rw [A.add_exact _ _ (by omega)]
    simp only
    rw [ih _ (by simp only; omega)]
    simp
    omega

theorem newlines_parse1 (k : Nat) (hk : 0 < k) : Ast1.fromStr (List.replicate k '\n') = .ok [.mk 1 (.text (List.replicate k '\n'))] := by
  have key : ∀ (rec : Str → Res (List Ast1.Chunk)) (k : Nat) (s : Ast1.State) (a : Str), s.buffer = .text a → s.escaped = false → s.comment = false →
      Ast1.run rec (List.replicate k '\n') s = .ok { s with lineNo := s.lineNo + k, buffer := .text (a ++ List.replicate k '\n') } := by
    intro rec k
    induction k with
    | zero => intro s a hb _ _; simp [Ast1.run, ← hb]
    | succ k ih =>
      intro s a hb he hc
      have : Ast1.step rec s '\n' = .ok { s with lineNo := s.lineNo + 1, buffer := .text (a ++ ['\n']) } := by
        simp [Ast1.step, Ast1.stepBuffer, hb, Ast1.stepText, he, hc, ScopeVariant.fromOpening, Ast1.Buffer.push, Ast1.Buffer.pushStr]
      simp only [List.replicate_succ, Ast1.run, this]
      rw [ih { s with lineNo := s.lineNo + 1, buffer := .text (a ++ ['\n']) } (a ++ ['\n']) rfl he hc]
      simp
      omega
  unfold Ast1.fromStr Ast1.parseFuel
  rw [key _ k Ast1.State.init [] rfl rfl rfl]
  cases k with
  | zero => omega
  | succ k => simp [Ast1.finish, Ast1.State.init, Ast1.flushM, Ast1.flush, List.replicate_succ]

theorem newlines_parse2 (k : Nat) (hk : 0 < k) : Ast2.fromStr (List.replicate k '\n') = .ok [.mk 1 (.text (List.replicate k '\n'))] := by
  unfold Ast2.fromStr
  rw [newlines_parse1 k hk]
  rfl

theorem newlines_maths (k : Nat) (hk : 0 < k) :
    runMaths (mathsFuel (sizeChunks [.mk 1 (.text (List.replicate k '\n'))])) [.mk 1 (.text (List.replicate k '\n'))] MState.init =
      .ok { MState.init with out := [.mk 1 (.text (List.replicate k '\n'))] } := by
  simp only [runMaths, stepMaths, MState.init, stepMathsText, run_newlines3]
  cases k with
  | zero => omega
  | succ k => simp [TState.pushStr, List.replicate_succ]

theorem newlines_mathsA (A : Arith) (k : Nat) (hk : 0 < k) (h : k + 1 < u32Size) :
    runMathsA A (mathsFuelA A (sizeChunks [.mk 1 (.text (List.replicate k '\n'))])) [.mk 1 (.text (List.replicate k '\n'))] MState.init =
      .ok { MState.init with out := [.mk 1 (.text (List.replicate k '\n'))] } := by
  simp only [runMathsA, stepMathsA, MState.init, stepMathsTextA]
  rw [run_newlinesA A _ k _ (by simp only; omega)]
  cases k with
  | zero => omega
  | succ k => simp [TState.pushStr, List.replicate_succ]

theorem newlines_parse3 (k : Nat) (hk : 0 < k) : ∃ d, fromStr (List.replicate k '\n') = .ok d := by
  unfold fromStr
  rw [newlines_parse2 k hk]
  simp only [tryFrom, runDocument, stepDocument, DState.push, DState.init, if_true, List.nil_append]
  rw [mathsFromChunks, mathsFuel, newlines_maths k hk]
  exact ⟨_, rfl⟩

theorem newlines_debug3 (k : Nat) (hk : i32Size ≤ k) (h : k + 1 < u32Size) : fromStrA .debug (List.replicate k '\n') = .error .panic := by
  have hk0 : 0 < k := by simp only [i32Size] at hk; omega
  unfold fromStrA
  rw [Ast2.C66_environments .debug _ (by simp only [List.length_replicate, u32Size] at h ⊢; omega), newlines_parse2 k hk0]
  simp only [tryFromA, runDocumentA, stepDocumentA, DState.push, DState.init, if_true, List.nil_append]
  rw [mathsFromChunksA, mathsFuelA, newlines_mathsA _ k hk0 h]
  simp only [finishMathsA, MState.init, paragraphsA, paragraphChunkA]
  rw [debug_breaks k (ParState.init 1) (by simp [ParState.init, i32Size]) (by simp only [ParState.init]; omega)]
  rfl

/-- The bound is sharp: a debug build panics on 2^31 newlines, because it counts consecutive newlines in an `i32`. -/
theorem C66_maths_sharp : ∃ s : Str, s.length = 2 ^ 31 ∧ fromStrA .debug s = .error .panic ∧ ∃ d, fromStr s = .ok d := by
  have h1 : i32Size ≤ 2 ^ 31 := by simp [i32Size]
  have h2 : 2 ^ 31 + 1 < u32Size := by simp [u32Size]
  generalize 2 ^ 31 = k at h1 h2 ⊢
  exact ⟨List.replicate k '\n', List.length_replicate, newlines_debug3 k h1 h2, newlines_parse3 k (by simp only [i32Size] at h1; omega)⟩

/-- The hypothesis of `C66_maths` is needed: this source makes a debug build panic, and a release build wrap a line
number around. -/
theorem C66_maths_wraps : fromStr (chars!"$\\foo{a\n\nb}x$") = .error .panic ∧
    fromStrA .debug (chars!"$\\foo{a\n\nb}x$") = .error .panic ∧
    fromStrA .release (chars!"$\\foo{a\n\nb}x$") = .ok
      { Document.default with
        preamable := [.mk 3 (.mathsBlock (.mk .dollars .inline
          [.mk (2 ^ 32 - 1) (.command (.mk chars!"foo" [([], .mk
              [.mk 1 (.text chars!"a"), .mk 1 (.paragraphBreak chars!"\n\n"), .mk 3 (.text chars!"b")] .curly)])),
            .mk 1 (.text chars!"x")]))] } := by
  decide +kernel

/-- Formulas, a document environment and paragraphs. -/
example : (chars!"a\n\\begin{document}[\n]b\n\n\n$x$ \\(y\n\\)\\end{document}$$z$$\n\n").length < 2 ^ 31 ∧
    fromStrA .release (chars!"a\n\\begin{document}[\n]b\n\n\n$x$ \\(y\n\\)\\end{document}$$z$$\n\n") =
      fromStr (chars!"a\n\\begin{document}[\n]b\n\n\n$x$ \\(y\n\\)\\end{document}$$z$$\n\n") ∧
    fromStr (chars!"a\n\\begin{document}[\n]b\n\n\n$x$ \\(y\n\\)\\end{document}$$z$$\n\n") ≠ .error .panic := by
  decide +kernel

end LatexAst.Ast3
