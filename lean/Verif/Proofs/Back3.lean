import Verif.Proofs.MathsClosed
import Verif.Proofs.Back2
import Verif.Proofs.Document3Facts
import Verif.Model.Back

/-! Stage 3 back to stage 2. -/

namespace LatexAst.Ast3
open Spec

/-! ### Displays -/

theorem display2_shift (k : Nat) (cs : List Ast2.Chunk) : Ast2.displayChunks (cs.map (Ast2.Chunk.shift k)) = Ast2.displayChunks cs := by
  induction cs with
  | nil => rfl
  | cons c cs ih => obtain ⟨l, v⟩ := c; simp [Ast2.displayChunks, ih, Ast2.Chunk.shift, Ast2.Chunk.display]

theorem prependDollars_display (d : Str) (cs : List Ast2.Chunk) : Ast2.displayChunks (prependDollars d cs) = d ++ Ast2.displayChunks cs := by
  unfold prependDollars
  split <;> simp [Ast2.displayChunks, Ast2.Chunk.display, Ast2.ChunkVariant.display]

theorem appendDollars_display (d : Str) (n : Nat) (cs : List Ast2.Chunk) : Ast2.displayChunks (appendDollars d n cs) = Ast2.displayChunks cs ++ d := by
  unfold appendDollars
  split
  · rename_i l s h
    have hne : cs ≠ [] := by rintro rfl; simp at h
    have h2 : cs = cs.dropLast ++ [.mk l (.text s)] := by
      have := List.dropLast_concat_getLast hne
      rw [List.getLast?_eq_some_getLast hne] at h
      simp at h
      rw [h] at this; exact this.symm
    rw [display2_append]
    conv => rhs; rw [h2]
    rw [display2_append]
    simp [Ast2.displayChunks, Ast2.Chunk.display, Ast2.ChunkVariant.display]
  · simp [display2_append, Ast2.displayChunks, Ast2.Chunk.display, Ast2.ChunkVariant.display]

theorem wrapMaths_display (v t n cs) : Ast2.displayChunks (wrapMaths v t n cs) =
    (delimiters v t).1 ++ (Ast2.displayChunks cs ++ (delimiters v t).2) := by
  cases v with
  | brackets => cases t <;> simp [wrapMaths, display2_append, Ast2.displayChunks, Ast2.Chunk.display, Ast2.ChunkVariant.display, Ast2.Command.display, Ast2.displayArgs, delimiters]
  | dollars =>
    simp only [wrapMaths]
    split
    · rename_i h
      simp at h; subst h
      cases t <;> simp [Ast2.displayChunks, Ast2.Chunk.display, Ast2.ChunkVariant.display, dollars, delimiters]
    · rw [appendDollars_display, prependDollars_display]
      cases t <;> simp [dollars, delimiters]

/-! ### Positivity, structurally -/

theorem positive_cons {c cs} : MathsPositive (c :: cs) ↔ MathsPositive [c] ∧ MathsPositive cs := by
  constructor
  · intro h
    exact ⟨h.mono (by simp), h.mono (by intro c hc; simp [hc])⟩
  · rintro ⟨h1, h2⟩
    exact positive_append (a := [c]) h1 h2

theorem positive_scope_iff {l sv content} : MathsPositive [.mk l (.scope (.mk content sv))] ↔ MathsPositive content :=
  ⟨fun h => (positive_iff.1 h).2 _ (.scope (.head _)), positive_scope⟩

/-- All arguments are positive. -/
def ArgsPositive (args : List (Str × Scope)) : Prop := ∀ p inner sv, (p, Scope.mk inner sv) ∈ args → MathsPositive inner

theorem positive_command_iff {l label args} : MathsPositive [.mk l (.command (.mk label args))] ↔ ArgsPositive args :=
  ⟨fun h _ _ _ hm => (positive_iff.1 h).2 _ (.arg (.head _) hm), positive_command⟩

theorem positive_environment_iff {l label args content pb pe} :
    MathsPositive [.mk l (.environment (.mk label args content pb pe))] ↔ ArgsPositive args ∧ MathsPositive content :=
  ⟨fun h => ⟨fun _ _ _ hm => (positive_iff.1 h).2 _ (.envArg (.head _) hm), (positive_iff.1 h).2 _ (.envContent (.head _))⟩,
   fun h => positive_environment h.1 h.2⟩

theorem positive_maths_iff {l v t content} : MathsPositive [.mk l (.mathsBlock (.mk v t content))] ↔ 1 ≤ l ∧ MathsPositive content :=
  ⟨fun h => ⟨(positive_iff.1 h).1 _ _ (.head _), (positive_iff.1 h).2 _ (.maths (.head _))⟩, fun h => positive_maths h.1 h.2⟩

theorem argsPositive_cons {p inner sv r} : ArgsPositive ((p, Scope.mk inner sv) :: r) ↔ MathsPositive inner ∧ ArgsPositive r := by
  constructor
  · intro h
    exact ⟨h p inner sv (.head _), fun q i v hm => h q i v (.tail _ hm)⟩
  · rintro ⟨h1, h2⟩ q i v hm
    rcases List.mem_cons.1 hm with h | h
    · cases h; exact h1
    · exact h2 q i v h

/-- What converting back does. -/
def IntoSpec (cs : List Chunk) : Prop :=
  (MathsPositive cs ∧ ∃ out, intoChunks cs = .ok out ∧ Ast2.displayChunks out = displayChunks cs) ∨
  (¬ MathsPositive cs ∧ intoChunks cs = .error .panic)

def IntoArgsSpec (args : List (Str × Scope)) : Prop :=
  (ArgsPositive args ∧ ∃ out, intoArgs args = .ok out ∧ Ast2.displayArgs out = displayArgs args) ∨
  (¬ ArgsPositive args ∧ intoArgs args = .error .panic)

mutual
theorem Chunk.into_spec : ∀ c : Chunk, IntoSpec [c]
  | .mk l (.text s) => .inl ⟨positive_texts (by simp [Chunk.variant]), by
      simp [intoChunks, intoVariant, Ast2.displayChunks, displayChunks, Ast2.Chunk.display, Ast2.ChunkVariant.display, Chunk.display, ChunkVariant.display]⟩
  | .mk l (.paragraphBreak s) => .inl ⟨positive_texts (by simp [Chunk.variant]), by
      simp [intoChunks, intoVariant, Ast2.displayChunks, displayChunks, Ast2.Chunk.display, Ast2.ChunkVariant.display, Chunk.display, ChunkVariant.display]⟩
  | .mk l (.scope (.mk inner sv)) => by
    unfold IntoSpec
    rw [positive_scope_iff]
    rcases into_spec inner with ⟨h1, out, h2, h3⟩ | ⟨h1, h2⟩
    · refine .inl ⟨h1, ?_⟩
      simp [intoChunks, intoVariant, intoScope, h2, Ast2.displayChunks, displayChunks, Ast2.Chunk.display, Ast2.ChunkVariant.display,
        Chunk.display, ChunkVariant.display, Scope.display, Ast2.Scope.display, h3]
    · exact .inr ⟨h1, by simp [intoChunks, intoVariant, intoScope, h2]⟩
  | .mk l (.command (.mk label args)) => by
    unfold IntoSpec
    rw [positive_command_iff]
    rcases into_args_spec args with ⟨h1, out, h2, h3⟩ | ⟨h1, h2⟩
    · refine .inl ⟨h1, ?_⟩
      simp [intoChunks, intoVariant, intoCommand, h2, Ast2.displayChunks, displayChunks, Ast2.Chunk.display, Ast2.ChunkVariant.display,
        Chunk.display, ChunkVariant.display, Command.display, Ast2.Command.display, h3]
    · exact .inr ⟨h1, by simp [intoChunks, intoVariant, intoCommand, h2]⟩
  | .mk l (.environment (.mk label args content pb pe)) => by
    unfold IntoSpec
    rw [positive_environment_iff]
    rcases into_args_spec args with ⟨h1, out, h2, h3⟩ | ⟨h1, h2⟩
    · rcases into_spec content with ⟨g1, out', g2, g3⟩ | ⟨g1, g2⟩
      · refine .inl ⟨⟨h1, g1⟩, ?_⟩
        simp [intoChunks, intoVariant, intoEnvironment, h2, g2, Ast2.displayChunks, displayChunks, Ast2.Chunk.display, Ast2.ChunkVariant.display,
          Chunk.display, ChunkVariant.display, Environment.display, Ast2.Environment.display, h3, g3]
      · exact .inr ⟨fun h => g1 h.2, by simp [intoChunks, intoVariant, intoEnvironment, h2, g2]⟩
    · exact .inr ⟨fun h => h1 h.1, by simp [intoChunks, intoVariant, intoEnvironment, h2]⟩
  | .mk l (.mathsBlock (.mk v t content)) => by
    unfold IntoSpec
    rw [positive_maths_iff]
    rcases into_spec content with ⟨h1, out, h2, h3⟩ | ⟨h1, h2⟩
    · by_cases hl : l = 0
      · exact .inr ⟨fun h => by omega, by simp [intoChunks, intoVariant, intoMaths, h2, hl, panicked]⟩
      · refine .inl ⟨⟨by omega, h1⟩, ?_⟩
        simp [intoChunks, intoVariant, intoMaths, h2, hl, display2_shift, wrapMaths_display, h3, displayChunks, Chunk.display,
          ChunkVariant.display, MathsBlock.display]
    · exact .inr ⟨fun h => h1 h.2, by simp [intoChunks, intoVariant, intoMaths, h2]⟩
theorem into_spec : ∀ cs : List Chunk, IntoSpec cs
  | [] => .inl ⟨positive_nil, [], by simp [intoChunks], rfl⟩
  | .mk l v :: cs => by
    have h := Chunk.into_spec (.mk l v)
    have g := into_spec cs
    unfold IntoSpec at h g ⊢
    rw [positive_cons]
    simp only [intoChunks] at h ⊢
    rcases h with ⟨h1, out, h2, h3⟩ | ⟨h1, h2⟩
    · cases hv : intoVariant l v with
      | error f => simp [hv] at h2
      | ok xs =>
        simp [hv] at h2; subst h2
        rcases g with ⟨g1, out', g2, g3⟩ | ⟨g1, g2⟩
        · refine .inl ⟨⟨h1, g1⟩, ?_⟩
          simp [g2, display2_append, h3, g3, displayChunks]
        · exact .inr ⟨fun h => g1 h.2, by simp [g2]⟩
    · cases hv : intoVariant l v with
      | error f => simp [hv] at h2; subst h2; exact .inr ⟨fun h => h1 h.1, rfl⟩
      | ok xs => simp [hv] at h2
theorem into_args_spec : ∀ args : List (Str × Scope), IntoArgsSpec args
  | [] => .inl ⟨by simp [ArgsPositive], [], by simp [intoArgs], rfl⟩
  | (p, .mk inner sv) :: r => by
    unfold IntoArgsSpec
    rw [argsPositive_cons]
    rcases into_spec inner with ⟨h1, out, h2, h3⟩ | ⟨h1, h2⟩
    · rcases into_args_spec r with ⟨g1, out', g2, g3⟩ | ⟨g1, g2⟩
      · refine .inl ⟨⟨h1, g1⟩, ?_⟩
        simp [intoArgs, intoScope, h2, g2, Ast2.displayArgs, displayArgs, Ast2.Scope.display, Scope.display, h3, g3]
      · exact .inr ⟨fun h => g1 h.2, by simp [intoArgs, intoScope, h2, g2]⟩
    · exact .inr ⟨fun h => h1 h.1, by simp [intoArgs, intoScope, h2]⟩
end

/-! ### Documents -/

theorem foldl_push2_display (xs a : List Ast2.Chunk) :
    Ast2.displayChunks (xs.foldl Ast2.Document.pushChunkUnchecked a) = Ast2.displayChunks a ++ Ast2.displayChunks xs := by
  induction xs generalizing a with
  | nil => simp [Ast2.displayChunks]
  | cons c xs ih => simp [ih, Ast2.Document.pushChunkUnchecked_display, Ast2.displayChunks]

/-- All sections of the document are positive. -/
theorem toAst2_spec (f : Document) :
    (f.MathsPositive ∧ '\n' ∈ ({ f with trailing := [] } : Document).written ∧
      ∃ e, toAst2 f = .ok e ∧ Ast2.displayChunks e = f.written) ∨
    (¬ (f.MathsPositive ∧ '\n' ∈ ({ f with trailing := [] } : Document).written) ∧ toAst2 f = .error .panic) := by
  unfold Document.MathsPositive toAst2
  have key : ∀ t : Str, '\n' ∈ t ↔ 1 ≤ newlines t := by
    intro t; simp [newlines, Nat.one_le_iff_ne_zero]
  rcases into_spec f.preamable with ⟨h1, pre, h2, h3⟩ | ⟨h1, h2⟩
  · rcases into_spec f.body with ⟨b1, body, b2, b3⟩ | ⟨b1, b2⟩
    · rcases into_args_spec f.bodyArgs with ⟨a1, args, a2, a3⟩ | ⟨a1, a2⟩
      · simp only [h2, b2, a2]
        have hlines : ∀ bo, (Ast2.Chunk.mk (Ast2.linesSum pre) (.environment (.mk chars!"document" args
              (body.map (Ast2.Chunk.shift bo)) f.bodyBeginPrec f.bodyEndPrec))).lines + Ast2.linesSum pre =
            newlines ({ f with trailing := [] } : Document).written + 1 := by
          intro bo
          have h0 := Ast2.Chunk.lines_eq (.mk (Ast2.linesSum pre) (.environment (.mk chars!"document" args
              (body.map (Ast2.Chunk.shift bo)) f.bodyBeginPrec f.bodyEndPrec)))
          have h1 := Ast2.linesSum_eq pre
          have e0 : ({ f with trailing := [] } : Document).written = Ast2.displayChunks pre ++
              (Ast2.Chunk.mk (Ast2.linesSum pre) (.environment (.mk chars!"document" args
              (body.map (Ast2.Chunk.shift bo)) f.bodyBeginPrec f.bodyEndPrec))).display := by
            rw [display_body2, display2_shift, h3, b3, a3]
            simp [Document.written, displayChunks]
          rw [e0, newlines_append]
          omega
        rw [hlines]
        rw [key]
        by_cases hn : 1 ≤ newlines ({ f with trailing := [] } : Document).written
        · have : checkedSub (newlines ({ f with trailing := [] } : Document).written + 1) 2 =
              .ok (newlines ({ f with trailing := [] } : Document).written + 1 - 2) := by simp [checkedSub]; omega
          simp only [this]
          rcases into_spec f.trailing with ⟨t1, tr, t2, t3⟩ | ⟨t1, t2⟩
          · refine .inl ⟨⟨h1, a1, b1, t1⟩, hn, ?_⟩
            simp only [t2]
            refine ⟨_, rfl, ?_⟩
            rw [foldl_push2_display, Ast2.Document.pushChunkUnchecked_display, display2_shift, display_body2, display2_shift, h3, b3, a3, t3]
            simp [Document.written]
          · exact .inr ⟨fun h => t1 h.1.2.2.2, by simp [t2]⟩
        · have : checkedSub (newlines ({ f with trailing := [] } : Document).written + 1) 2 = .error .panic := by
            simp [checkedSub, panicked]; omega
          exact .inr ⟨fun h => hn h.2, by simp [this]⟩
      · exact .inr ⟨fun h => a1 h.1.2.1, by simp [h2, b2, a2]⟩
    · exact .inr ⟨fun h => b1 h.1.2.2.1, by simp [h2, b2]⟩
  · exact .inr ⟨fun h => h1 h.1.1, by simp [h2]⟩

end LatexAst.Ast3
