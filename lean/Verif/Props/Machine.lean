import Verif.Proofs.Machine2
import Verif.Props.Environments

/-!
# C66: machine integers

`Model/Machine.lean` is the stage-1 parser with `u32` line numbers and depths; what happens on overflow is a parameter
`A` (`Arith.debug` panics, `Arith.release` wraps around).
-/

namespace LatexAst.Ast1

/-- C66. For sources of less than `u32::MAX` characters the parser computes what the model with natural numbers
computes, whatever an overflow does: so it never overflows. -/
theorem C66 (A : Arith) (s : Str) (h : s.length < 2 ^ 32 - 1) : fromStrA A s = fromStr s :=
  fromStrA_eq A (by simp only [u32Size]; omega)

/-- Debug and release builds give the same answer, and it is not a panic. -/
theorem C66_builds (s : Str) (h : s.length < 2 ^ 32 - 1) :
    fromStrA .debug s = fromStrA .release s ∧ fromStrA .debug s ≠ .error .panic := by
  rw [C66 _ s h, C66 _ s h]
  exact ⟨rfl, (fromStr_total s).1⟩

/-- Every line number in an error is then a `u32`. -/
theorem C66_error (A : Arith) (s : Str) (h : s.length < 2 ^ 32 - 1) {e} (he : fromStrA A s = .error (.err e)) :
    1 ≤ e.line ∧ e.line ≤ newlines s + 1 ∧ e.line < 2 ^ 32 := by
  rw [C66 A s h] at he
  have := fromStr_error_line he
  have : newlines s ≤ s.length := List.length_filter_le _ _
  omega

/-- Newlines run the line counter over. -/
theorem debug_newlines (rec : Str → Res (List Chunk)) (k : Nat) (s : State) {a : Str} (hb : s.buffer = .text a)
    (he : s.escaped = false) (hl : s.lineNo < u32Size) (h : u32Size ≤ s.lineNo + k) :
    runA .debug rec (List.replicate k '\n') s = .error .panic := by
  induction k generalizing s a with
  | zero => omega
  | succ k ih =>
    simp only [List.replicate_succ, runA]
    by_cases hx : s.lineNo + 1 < u32Size
    · have : stepA .debug rec s '\n' = .ok { s with comment := false, lineNo := s.lineNo + 1, buffer := .text (a ++ ['\n']) } := by
        simp [stepA, Arith.debug, hx, stepBufferA, hb, stepTextA, he, ScopeVariant.fromOpening, Buffer.push, Buffer.pushStr]
      rw [this]
      exact ih _ rfl he hx (by simp only; omega)
    · have : stepA .debug rec s '\n' = .error .panic := by
        simp [stepA, Arith.debug, hx, panicked]
      rw [this]

theorem debug_panics (k : Nat) (h : u32Size ≤ k + 1) : fromStrA .debug (List.replicate k '\n') = .error .panic := by
  unfold fromStrA parseFuelA
  rw [debug_newlines _ k State.init (a := []) rfl rfl (by simp [State.init, u32Size]) (by simp only [State.init]; omega)]

theorem run_newlines (rec : Str → Res (List Chunk)) (k : Nat) (s : State) {a : Str} (hb : s.buffer = .text a)
    (he : s.escaped = false) : ∃ s' b, run rec (List.replicate k '\n') s = .ok s' ∧ s'.buffer = .text b := by
  induction k generalizing s a with
  | zero => exact ⟨s, a, rfl, hb⟩
  | succ k ih =>
    have : step rec s '\n' = .ok { s with comment := false, lineNo := s.lineNo + 1, buffer := .text (a ++ ['\n']) } := by
      simp [step, stepBuffer, hb, stepText, he, ScopeVariant.fromOpening, Buffer.push, Buffer.pushStr]
    simp only [List.replicate_succ, run, this]
    exact ih _ rfl he

theorem newlines_parse (k : Nat) : ∃ d, fromStr (List.replicate k '\n') = .ok d := by
  unfold fromStr parseFuel
  obtain ⟨s', b, h, hb⟩ := run_newlines (parseFuel (List.replicate k '\n').length) k State.init (a := []) rfl rfl
  rw [h]
  simp only [finish, hb, flushM]
  cases hf : flush (parseFuel (List.replicate k '\n').length) (.text b) s'.bufferLine s'.chunks with
  | ok cs => exact ⟨_, rfl⟩
  | error f =>
    simp only [flush] at hf
    split at hf <;> cases hf

/-- The bound is sharp: a debug build panics on `u32::MAX` newlines. -/
theorem C66_sharp : ∃ s : Str, s.length = 2 ^ 32 - 1 ∧ fromStrA .debug s = .error .panic ∧ ∃ d, fromStr s = .ok d := by
  have h : u32Size ≤ (2 ^ 32 - 1) + 1 := by simp [u32Size]
  generalize 2 ^ 32 - 1 = k at h ⊢
  exact ⟨List.replicate k '\n', List.length_replicate, debug_panics k h, newlines_parse k⟩

/-- A document with nested commands, and a line number in an error. -/
example : (chars!"a\n\\foo{\\bar[x\ny]}{z}\n(").length < 2 ^ 32 - 1 ∧
    fromStrA .release (chars!"a\n\\foo{\\bar[x\ny]}{z}\n") = fromStr (chars!"a\n\\foo{\\bar[x\ny]}{z}\n") := by
  decide +kernel

/-- An error three lines down, inside an argument. -/
example : fromStrA .release (chars!"a\n\\foo{b\n\\bar[x]]}") = .error (.err ⟨3, .unexpectedClosing .square⟩) := by
  decide +kernel

end LatexAst.Ast1

namespace LatexAst.Ast2

/-- C66, stage 2: the same for the conversion, although its error lines can exceed the number of lines (C25). -/
theorem C66_environments (A : Arith) (s : Str) (h : s.length < 2 ^ 32 - 1) : fromStrA A s = fromStr s := by
  unfold fromStrA fromStr
  rw [Ast1.C66 A s h]
  cases hd : Ast1.fromStr s with
  | error f => rfl
  | ok d =>
    have := weight_parsed hd (openers_le hd)
    exact tryFromA_eq A (Ast1.sane_parsed hd) (by simp only [u32Size]; omega)

/-- Debug and release builds give the same answer, and it is not a panic. -/
theorem C66_environments_builds (s : Str) (h : s.length < 2 ^ 32 - 1) :
    fromStrA .debug s = fromStrA .release s ∧ fromStrA .debug s ≠ .error .panic := by
  rw [C66_environments _ s h, C66_environments _ s h]
  refine ⟨rfl, ?_⟩
  intro hp
  obtain ⟨d, hd⟩ | ⟨e, he⟩ := C28 s
  · rw [hd] at hp; cases hp
  · rw [he] at hp; cases hp

example : fromStrA .release (chars!"a\n\\begin{x}[\n]b\n\\begin{y}\nc\\end{y}\\end{x}") =
    fromStr (chars!"a\n\\begin{x}[\n]b\n\\begin{y}\nc\\end{y}\\end{x}") ∧
    fromStrA .debug (chars!"a\n{\\begin{x}}") = .error (.err ⟨3, .unclosedEnvironment (chars!"x")⟩) := by
  decide +kernel

end LatexAst.Ast2
