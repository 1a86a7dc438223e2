import Verif.Proofs.Rename1
import Verif.Model.Eq1
import Verif.Model.Conv2

/-! # Renaming characters: stage 2 -/

namespace LatexAst
open Spec

namespace Ast1
section
variable {f : Char → Char} (R : Renaming1 f)
include R
mutual
theorem Chunk.display_rename : ∀ c : Chunk, (c.rename f).display = c.display.map f
  | .mk _ (.text s) => by simp [Chunk.rename, ChunkVariant.rename, Chunk.display, ChunkVariant.display]
  | .mk _ (.command (.mk l a)) => by
    simp [Chunk.rename, ChunkVariant.rename, Chunk.display, ChunkVariant.display, Command.rename, Command.display,
      displayArgs_rename a, ren_fix_bs R]
  | .mk _ (.scope (.mk cs v)) => by
    simp [Chunk.rename, ChunkVariant.rename, Chunk.display, ChunkVariant.display, Scope.rename, Scope.display,
      displayChunks_rename cs, ren_fix_opening R, ren_fix_closing R]
theorem displayChunks_rename : ∀ cs : List Chunk, displayChunks (renameChunks f cs) = (displayChunks cs).map f
  | [] => rfl
  | c :: cs => by simp [renameChunks, displayChunks, Chunk.display_rename c, displayChunks_rename cs]
theorem displayArgs_rename : ∀ a : List (Str × Scope), displayArgs (renameArgs f a) = (displayArgs a).map f
  | [] => rfl
  | (p, .mk cs v) :: r => by
    simp [renameArgs, displayArgs, Scope.rename, Scope.display, displayChunks_rename cs, displayArgs_rename r,
      ren_fix_opening R, ren_fix_closing R]
end
theorem Scope.display_rename (s : Scope) : (s.rename f).display = s.display.map f := by
  obtain ⟨cs, v⟩ := s
  simp [Scope.rename, Scope.display, displayChunks_rename R cs, ren_fix_opening R, ren_fix_closing R]
end

theorem map_inj' {f : Char → Char} (h : ∀ a b, f a = f b → a = b) : ∀ {s t : Str}, s.map f = t.map f → s = t
  | [], [], _ => rfl
  | [], _ :: _, e => by simp at e
  | _ :: _, [], e => by simp at e
  | a :: s, b :: t, e => by
    simp only [List.map_cons, List.cons.injEq] at e
    rw [h a b e.1, map_inj' h e.2]

mutual
theorem Chunk.rename_inj {f : Char → Char} (h : ∀ a b, f a = f b → a = b) : ∀ {c d : Chunk}, c.rename f = d.rename f → c = d
  | .mk l (.text s), .mk l' (.text t), e => by
    simp only [Chunk.rename, ChunkVariant.rename, Chunk.mk.injEq, ChunkVariant.text.injEq] at e
    rw [e.1, map_inj' h e.2]
  | .mk l (.command (.mk a x)), .mk l' (.command (.mk b y)), e => by
    simp only [Chunk.rename, ChunkVariant.rename, Command.rename, Chunk.mk.injEq, ChunkVariant.command.injEq, Command.mk.injEq] at e
    rw [e.1, map_inj' h e.2.1, renameArgs_inj h e.2.2]
  | .mk l (.scope (.mk a x)), .mk l' (.scope (.mk b y)), e => by
    simp only [Chunk.rename, ChunkVariant.rename, Scope.rename, Chunk.mk.injEq, ChunkVariant.scope.injEq, Scope.mk.injEq] at e
    rw [e.1, renameChunks_inj h e.2.1, e.2.2]
  | .mk _ (.text _), .mk _ (.command _), e => by simp [Chunk.rename, ChunkVariant.rename] at e
  | .mk _ (.text _), .mk _ (.scope _), e => by simp [Chunk.rename, ChunkVariant.rename] at e
  | .mk _ (.command _), .mk _ (.text _), e => by simp [Chunk.rename, ChunkVariant.rename] at e
  | .mk _ (.command _), .mk _ (.scope _), e => by simp [Chunk.rename, ChunkVariant.rename] at e
  | .mk _ (.scope _), .mk _ (.command _), e => by simp [Chunk.rename, ChunkVariant.rename] at e
  | .mk _ (.scope _), .mk _ (.text _), e => by simp [Chunk.rename, ChunkVariant.rename] at e
theorem renameChunks_inj {f : Char → Char} (h : ∀ a b, f a = f b → a = b) :
    ∀ {c d : List Chunk}, renameChunks f c = renameChunks f d → c = d
  | [], [], _ => rfl
  | [], _ :: _, e => by simp [renameChunks] at e
  | _ :: _, [], e => by simp [renameChunks] at e
  | a :: s, b :: t, e => by
    simp only [renameChunks, List.cons.injEq] at e
    rw [Chunk.rename_inj h e.1, renameChunks_inj h e.2]
theorem renameArgs_inj {f : Char → Char} (h : ∀ a b, f a = f b → a = b) :
    ∀ {c d : List (Str × Scope)}, renameArgs f c = renameArgs f d → c = d
  | [], [], _ => rfl
  | [], _ :: _, e => by simp [renameArgs] at e
  | _ :: _, [], e => by simp [renameArgs] at e
  | (p, .mk s v) :: r, (q, .mk t w) :: r', e => by
    simp only [renameArgs, Scope.rename, List.cons.injEq, Prod.mk.injEq, Scope.mk.injEq] at e
    rw [map_inj' h e.1.1, renameChunks_inj h e.1.2.1, e.1.2.2, renameArgs_inj h e.2]
end

theorem beqChunks_rename {f : Char → Char} (h : ∀ a b, f a = f b → a = b) (c d : List Chunk) :
    beqChunks (renameChunks f c) (renameChunks f d) = beqChunks c d := by
  rw [Bool.eq_iff_iff, beqChunks_iff, beqChunks_iff]
  exact ⟨renameChunks_inj h, fun e => by rw [e]⟩

theorem renameChunks_eq_map (f : Char → Char) (cs : List Chunk) : renameChunks f cs = cs.map (Chunk.rename f) := by
  induction cs with
  | nil => rfl
  | cons c cs ih => simp [renameChunks, ih]
end Ast1

theorem map_fixed {f : Char → Char} {w : Str} (h : ∀ c ∈ w, f c = c) : w.map f = w := by
  induction w with
  | nil => rfl
  | cons c w ih => simp [h c (by simp), ih fun x hx => h x (by simp [hx])]

theorem map_eq_word {f : Char → Char} (hi : ∀ a b, f a = f b → a = b) {w : Str} (h : ∀ c ∈ w, f c = c) (s : Str) :
    (s.map f = w) = (s = w) := by
  refine propext ⟨fun e => Ast1.map_inj' hi (by rw [e, map_fixed h]), fun e => by rw [e, map_fixed h]⟩

namespace Ast2

theorem renameChunks_append (f : Char → Char) (a b : List Chunk) :
    renameChunks f (a ++ b) = renameChunks f a ++ renameChunks f b := by
  induction a with
  | nil => rfl
  | cons c a ih => simp [renameChunks, ih]

mutual
theorem sizeChunk_rename (f : Char → Char) : ∀ c : Ast1.Chunk, sizeChunk (c.rename f) = sizeChunk c
  | .mk _ (.text s) => rfl
  | .mk _ (.command (.mk l a)) => by
    simp [Ast1.Chunk.rename, Ast1.ChunkVariant.rename, Ast1.Command.rename, sizeChunk, sizeVariant, sizeCommand,
      sizeArgs_rename f a]
  | .mk _ (.scope (.mk cs v)) => by
    simp [Ast1.Chunk.rename, Ast1.ChunkVariant.rename, Ast1.Scope.rename, sizeChunk, sizeVariant, sizeScope,
      sizeChunks_rename f cs]
theorem sizeChunks_rename (f : Char → Char) : ∀ cs : List Ast1.Chunk, sizeChunks (Ast1.renameChunks f cs) = sizeChunks cs
  | [] => rfl
  | c :: cs => by simp [Ast1.renameChunks, sizeChunks, sizeChunk_rename f c, sizeChunks_rename f cs]
theorem sizeArgs_rename (f : Char → Char) : ∀ a : List (Str × Ast1.Scope), sizeArgs (Ast1.renameArgs f a) = sizeArgs a
  | [] => rfl
  | (_, .mk cs v) :: r => by
    simp [Ast1.renameArgs, Ast1.Scope.rename, sizeArgs, sizeScope, sizeChunks_rename f cs, sizeArgs_rename f r]
end

def State.rename (f : Char → Char) (s : State) : State :=
  ⟨renameChunks f s.chunks, s.stack.map (Ast1.renameChunks f), s.bufferStart, Ast1.renameArgs f s.envArgs,
    Ast1.renameChunks f s.buffer, s.precBegin.map f⟩

theorem State.pushChunks_rename (f : Char → Char) (s : State) (n : Nat) (v : ChunkVariant) :
    (s.rename f).pushChunks n (v.rename f) = (s.pushChunks n v).rename f := by
  simp [State.rename, State.pushChunks, renameChunks_append, renameChunks, Chunk.rename]

theorem State.pushBuffer_rename (f : Char → Char) (s : State) (n : Nat) (v : Ast1.ChunkVariant) :
    (s.rename f).pushBuffer n (v.rename f) = renameRes f (State.rename f) (s.pushBuffer n v) := by
  simp only [State.rename, State.pushBuffer]
  rcases h : checkedSub n s.bufferStart with p | k
  · simp [renameRes, checkedSub_error h, renameFail]
  · simp [renameRes, State.rename, Ast1.renameChunks_append, Ast1.renameChunks, Ast1.Chunk.rename]

theorem argNewlines_rename {f : Char → Char} (R : Renaming1 f) (a : List (Str × Ast1.Scope)) :
    argNewlines (Ast1.renameArgs f a) = argNewlines a := by
  induction a with
  | nil => rfl
  | cons x a ih =>
    obtain ⟨p, s⟩ := x
    simp [Ast1.renameArgs, argNewlines, ih, Ast1.Scope.display_rename R, ren_newlines R]

section
variable {f : Char → Char} (R : Renaming2 f) {rec : List Ast1.Chunk → Res (List Chunk)}
  (hrec : ∀ s, rec (Ast1.renameChunks f s) = renameRes f (renameChunks f) (rec s))
include R hrec

omit R in
theorem convScope_rename (s : Ast1.Scope) :
    convScope rec (s.rename f) = renameRes f (Scope.rename f) (convScope rec s) := by
  obtain ⟨cs, v⟩ := s
  simp only [Ast1.Scope.rename, convScope, hrec]
  rcases rec cs with e | x <;> rfl

omit R in
theorem convArgs_rename (a : List (Str × Ast1.Scope)) :
    convArgs rec (Ast1.renameArgs f a) = renameRes f (renameArgs f) (convArgs rec a) := by
  induction a with
  | nil => rfl
  | cons x a ih =>
    obtain ⟨p, s⟩ := x
    simp only [Ast1.renameArgs, convArgs, convScope_rename hrec, ih]
    rcases convScope rec s with e | x
    · rfl
    · simp only [renameRes_ok]
      rcases convArgs rec a with e | y <;> rfl

omit R in
theorem convCommand_rename (c : Ast1.Command) :
    convCommand rec (c.rename f) = renameRes f (Command.rename f) (convCommand rec c) := by
  obtain ⟨l, a⟩ := c
  simp only [Ast1.Command.rename, convCommand, convArgs_rename hrec]
  rcases convArgs rec a with e | x <;> rfl

omit hrec in
theorem begin_rename (s : Str) : (s.map f = chars!"begin") = (s = chars!"begin") :=
  map_eq_word R.injective (fun c hc => R.words c (by simp at hc ⊢; grind)) s
omit hrec in
theorem end_rename (s : Str) : (s.map f = chars!"end") = (s = chars!"end") :=
  map_eq_word R.injective (fun c hc => R.words c (by simp at hc ⊢; grind)) s

omit hrec in
theorem stepBegin_rename (s : State) (n : Nat) (a : Str × Ast1.Scope) (r : List (Str × Ast1.Scope)) :
    stepBegin (s.rename f) n (a.1.map f, a.2.rename f) (Ast1.renameArgs f r) =
      renameRes f (State.rename f) (stepBegin s n a r) := by
  obtain ⟨p, cs, v⟩ := a
  have hb : chars!"begin".map f = chars!"begin" := (begin_rename R _).mpr rfl
  have h := argNewlines_rename R.toRenaming1 ((p, .mk cs v) :: r)
  simp only [Ast1.renameArgs] at h
  have hp := State.pushBuffer_rename f { s with stack := s.stack ++ [cs] } n (.command (.mk chars!"begin" ((p, .mk cs v) :: r)))
  simp only [Ast1.ChunkVariant.rename, Ast1.Command.rename, hb, Ast1.renameArgs] at hp
  simp only [stepBegin, h]
  simp only [Ast1.Scope.rename, Ast1.Scope.chunks, State.rename, List.length_append, List.length_map, List.length_cons,
    List.length_nil] at hp ⊢
  split
  · simp [renameRes, State.rename]
  · rw [← hp]; simp

omit hrec in
theorem topIs_rename (st : List (List Ast1.Chunk)) (l : List Ast1.Chunk) :
    topIs (st.map (Ast1.renameChunks f)) (Ast1.renameChunks f l) = topIs st l := by
  simp only [topIs, List.getLast?_map]
  rcases st.getLast? with _ | x
  · rfl
  · exact Ast1.beqChunks_rename R.injective x l

theorem stepEnd_rename (s : State) (n : Nat) (a : Str × Ast1.Scope) (r : List (Str × Ast1.Scope)) :
    stepEnd rec (s.rename f) n (a.1.map f, a.2.rename f) (Ast1.renameArgs f r) =
      renameRes f (State.rename f) (stepEnd rec s n a r) := by
  obtain ⟨p, cs, v⟩ := a
  have hl : ((p.map f, Ast1.Scope.rename f (.mk cs v)) :: Ast1.renameArgs f r).length = ((p, Ast1.Scope.mk cs v) :: r).length := by
    simp only [List.length_cons]
    congr 1
    induction r with
    | nil => rfl
    | cons x r ih => obtain ⟨q, t⟩ := x; simp [Ast1.renameArgs, ih]
  have hb : chars!"end".map f = chars!"end" := (end_rename R _).mpr rfl
  have hp := State.pushBuffer_rename f { s with stack := s.stack.dropLast } n (.command (.mk chars!"end" ((p, .mk cs v) :: r)))
  simp only [Ast1.ChunkVariant.rename, Ast1.Command.rename, hb, Ast1.renameArgs] at hp
  simp only [stepEnd, hl]
  simp only [Ast1.Scope.rename, Ast1.Scope.chunks, State.rename, topIs_rename R, Ast1.displayChunks_rename R.toRenaming1,
    convArgs_rename hrec, hrec] at hp ⊢
  rw [List.map_dropLast] at hp
  by_cases h1 : topIs s.stack cs = false
  · simp only [h1, if_true, not_true_eq_false, not_false_eq_true]; rfl
  simp only [h1, if_false, Bool.false_eq_true]
  by_cases h2 : ((p, Ast1.Scope.mk cs v) :: r).length > 1
  · simp only [h2, if_true, not_true_eq_false, not_false_eq_true]; rfl
  simp only [h2, if_false, Bool.false_eq_true]
  rw [show ((s.stack.map (Ast1.renameChunks f)).dropLast).isEmpty = s.stack.dropLast.isEmpty by
    rw [← List.map_dropLast, List.isEmpty_map]]
  by_cases h3 : s.stack.dropLast.isEmpty = true
  · simp only [h3, if_true, not_true_eq_false, not_false_eq_true]
    rcases convArgs rec s.envArgs with e | args
    · rfl
    · simp only [renameRes_ok, ← renameRes_addLine]
      rcases addLine s.bufferStart (rec s.buffer) with e | content
      · rfl
      · simp [renameRes, State.rename, renameChunks_append, renameChunks, Chunk.rename, ChunkVariant.rename,
          Environment.rename, Ast1.renameArgs, Ast1.renameChunks, List.map_dropLast]
  · simp only [h3, if_false, Bool.false_eq_true, reduceCtorEq]; rw [← hp]

theorem step_rename (s : State) (c : Ast1.Chunk) :
    step rec (s.rename f) (c.rename f) = renameRes f (State.rename f) (step rec s c) := by
  obtain ⟨n, v⟩ := c
  have hs : (s.rename f).stack.isEmpty = s.stack.isEmpty := by simp [State.rename]
  cases v with
  | text t =>
    have h1 := State.pushBuffer_rename f s n (.text t)
    have h2 := State.pushChunks_rename f s n (.text t)
    simp only [Ast1.ChunkVariant.rename, ChunkVariant.rename] at h1 h2
    simp only [Ast1.Chunk.rename, Ast1.ChunkVariant.rename, step, hs, h1, h2]
    split <;> rfl
  | scope sc =>
    have h1 := State.pushBuffer_rename f s n (.scope sc)
    simp only [Ast1.ChunkVariant.rename] at h1
    simp only [Ast1.Chunk.rename, Ast1.ChunkVariant.rename, step, hs, h1, convScope_rename hrec, ← renameRes_addLine]
    split
    · rcases addLine n (convScope rec sc) with e | x
      · rfl
      · exact congrArg Except.ok (State.pushChunks_rename f s n (.scope x))
    · rfl
  | command c =>
    have h1 := State.pushBuffer_rename f s n (.command c)
    have h2 := convCommand_rename hrec c
    obtain ⟨l, a⟩ := c
    simp only [Ast1.ChunkVariant.rename] at h1
    simp only [Ast1.Chunk.rename, Ast1.ChunkVariant.rename, step, hs, h1, h2]
    simp only [Ast1.Command.rename, Ast1.Command.label, Ast1.Command.arguments, begin_rename R, end_rename R]
    by_cases hbe : ¬(l = chars!"begin" ∨ l = chars!"end")
    · simp only [hbe, if_true, not_true_eq_false, not_false_eq_true]
      split
      · rcases convCommand rec (.mk l a) with e | x
        · rfl
        · exact congrArg Except.ok (State.pushChunks_rename f s n (.command x))
      · rfl
    · simp only [hbe, if_false, Bool.false_eq_true]
      cases a with
      | nil => rfl
      | cons x r =>
        obtain ⟨p, cs, v⟩ := x
        simp only [Ast1.renameArgs]
        have e1 : (Ast1.Scope.rename f (.mk cs v)).variant = (Ast1.Scope.mk cs v).variant := rfl
        simp only [e1]
        split
        · rfl
        · by_cases hb : l = chars!"begin"
          · simp only [hb, if_true, not_true_eq_false, not_false_eq_true]; exact stepBegin_rename R s n (p, .mk cs v) r
          · simp only [hb, if_false, Bool.false_eq_true]; exact stepEnd_rename R hrec s n (p, .mk cs v) r

theorem run_rename (x : List Ast1.Chunk) (s : State) :
    run rec (Ast1.renameChunks f x) (s.rename f) = renameRes f (State.rename f) (run rec x s) := by
  induction x generalizing s with
  | nil => rfl
  | cons c x ih =>
    simp only [Ast1.renameChunks, run, step_rename R hrec]
    rcases step rec s c with e | t
    · rfl
    · exact ih t
end

theorem finish_rename {f : Char → Char} (R : Renaming1 f) (s : State) :
    finish (s.rename f) = renameRes f (renameChunks f) (finish s) := by
  simp only [finish, State.rename]
  rcases s.stack with _ | ⟨l, st⟩
  · rfl
  · simp [Ast1.displayChunks_rename R, renameRes, fail, renameFail]

theorem convFuel_rename {f : Char → Char} (R : Renaming2 f) (n : Nat) (s : List Ast1.Chunk) :
    convFuel n (Ast1.renameChunks f s) = renameRes f (renameChunks f) (convFuel n s) := by
  induction n generalizing s with
  | zero => rfl
  | succ n ih =>
    simp only [convFuel]
    have := run_rename R ih s State.init
    rw [show State.init.rename f = State.init from rfl] at this
    rw [this]
    rcases run (convFuel n) s State.init with e | x
    · rfl
    · exact finish_rename R.toRenaming1 x

theorem tryFrom_rename {f : Char → Char} (R : Renaming2 f) (d : Ast1.Document) :
    tryFrom (Ast1.renameChunks f d) = renameRes f (renameChunks f) (tryFrom d) := by
  simp only [tryFrom, sizeChunks_rename, convFuel_rename R]

theorem fromStr_rename {f : Char → Char} (R : Renaming2 f) (s : Str) :
    fromStr (s.map f) = renameRes f (renameChunks f) (fromStr s) := by
  simp only [fromStr, Ast1.fromStr_rename R.toRenaming1]
  rcases Ast1.fromStr s with e | d
  · rfl
  · exact tryFrom_rename R d

end Ast2
end LatexAst
