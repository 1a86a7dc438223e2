import Verif.Proofs.Crlf1
import Verif.Proofs.Rename1
import Verif.Model.Eq1
import Verif.Model.Conv2

/-! # Renaming characters: stage 2 -/

namespace LatexAst
open Spec

theorem toCrlf_nil : toCrlf [] = [] := rfl
theorem toCrlf_bs (s : Str) : toCrlf ('\\' :: s) = '\\' :: toCrlf s := toCrlf_cons (by decide) s

namespace Ast1
theorem crlfChunks_append (a b : List Chunk) : crlfChunks (a ++ b) = crlfChunks a ++ crlfChunks b := by
  induction a with
  | nil => rfl
  | cons c a ih => simp [crlfChunks, ih]

section
mutual
theorem Chunk.display_crlf : ∀ c : Chunk, c.crlf.display = toCrlf c.display
  | .mk _ (.text s) => by simp [Chunk.crlf, ChunkVariant.crlf, Chunk.display, ChunkVariant.display]
  | .mk _ (.command (.mk l a)) => by
    simp [Chunk.crlf, ChunkVariant.crlf, Chunk.display, ChunkVariant.display, Command.crlf, Command.display,
      displayArgs_crlf a, toCrlf_append, toCrlf_bs]
  | .mk _ (.scope (.mk cs v)) => by
    simp [Chunk.crlf, ChunkVariant.crlf, Chunk.display, ChunkVariant.display, Scope.crlf, Scope.display,
      displayChunks_crlf cs, toCrlf_append, toCrlf_opening, toCrlf_closing, toCrlf_nil]
theorem displayChunks_crlf : ∀ cs : List Chunk, displayChunks (crlfChunks cs) = toCrlf (displayChunks cs)
  | [] => rfl
  | c :: cs => by simp [crlfChunks, displayChunks, Chunk.display_crlf c, displayChunks_crlf cs, toCrlf_append]
theorem displayArgs_crlf : ∀ a : List (Str × Scope), displayArgs (crlfArgs a) = toCrlf (displayArgs a)
  | [] => rfl
  | (p, .mk cs v) :: r => by
    simp [crlfArgs, displayArgs, Scope.crlf, Scope.display, displayChunks_crlf cs, displayArgs_crlf r,
      toCrlf_append, toCrlf_opening, toCrlf_closing, toCrlf_nil]
end
theorem Scope.display_crlf (s : Scope) : s.crlf.display = toCrlf s.display := by
  obtain ⟨cs, v⟩ := s
  simp [Scope.crlf, Scope.display, displayChunks_crlf cs, toCrlf_append, toCrlf_opening, toCrlf_closing, toCrlf_nil]
end

mutual
theorem Chunk.crlf_inj : ∀ {c d : Chunk}, c.crlf = d.crlf → c = d
  | .mk l (.text s), .mk l' (.text t), e => by
    simp only [Chunk.crlf, ChunkVariant.crlf, Chunk.mk.injEq, ChunkVariant.text.injEq] at e
    rw [e.1, toCrlf_inj e.2]
  | .mk l (.command (.mk a x)), .mk l' (.command (.mk b y)), e => by
    simp only [Chunk.crlf, ChunkVariant.crlf, Command.crlf, Chunk.mk.injEq, ChunkVariant.command.injEq, Command.mk.injEq] at e
    rw [e.1, toCrlf_inj e.2.1, crlfArgs_inj e.2.2]
  | .mk l (.scope (.mk a x)), .mk l' (.scope (.mk b y)), e => by
    simp only [Chunk.crlf, ChunkVariant.crlf, Scope.crlf, Chunk.mk.injEq, ChunkVariant.scope.injEq, Scope.mk.injEq] at e
    rw [e.1, crlfChunks_inj e.2.1, e.2.2]
  | .mk _ (.text _), .mk _ (.command _), e => by simp [Chunk.crlf, ChunkVariant.crlf] at e
  | .mk _ (.text _), .mk _ (.scope _), e => by simp [Chunk.crlf, ChunkVariant.crlf] at e
  | .mk _ (.command _), .mk _ (.text _), e => by simp [Chunk.crlf, ChunkVariant.crlf] at e
  | .mk _ (.command _), .mk _ (.scope _), e => by simp [Chunk.crlf, ChunkVariant.crlf] at e
  | .mk _ (.scope _), .mk _ (.command _), e => by simp [Chunk.crlf, ChunkVariant.crlf] at e
  | .mk _ (.scope _), .mk _ (.text _), e => by simp [Chunk.crlf, ChunkVariant.crlf] at e
theorem crlfChunks_inj :
    ∀ {c d : List Chunk}, crlfChunks c = crlfChunks d → c = d
  | [], [], _ => rfl
  | [], _ :: _, e => by simp [crlfChunks] at e
  | _ :: _, [], e => by simp [crlfChunks] at e
  | a :: s, b :: t, e => by
    simp only [crlfChunks, List.cons.injEq] at e
    rw [Chunk.crlf_inj e.1, crlfChunks_inj e.2]
theorem crlfArgs_inj :
    ∀ {c d : List (Str × Scope)}, crlfArgs c = crlfArgs d → c = d
  | [], [], _ => rfl
  | [], _ :: _, e => by simp [crlfArgs] at e
  | _ :: _, [], e => by simp [crlfArgs] at e
  | (p, .mk s v) :: r, (q, .mk t w) :: r', e => by
    simp only [crlfArgs, Scope.crlf, List.cons.injEq, Prod.mk.injEq, Scope.mk.injEq] at e
    rw [toCrlf_inj e.1.1, crlfChunks_inj e.1.2.1, e.1.2.2, crlfArgs_inj e.2]
end

theorem beqChunks_crlf (c d : List Chunk) :
    beqChunks (crlfChunks c) (crlfChunks d) = beqChunks c d := by
  rw [Bool.eq_iff_iff, beqChunks_iff, beqChunks_iff]
  exact ⟨crlfChunks_inj, fun e => by rw [e]⟩

end Ast1

theorem toCrlf_eq_word {w : Str} (h : '\n' ∉ w) (s : Str) : (toCrlf s = w) = (s = w) :=
  propext ⟨fun e => toCrlf_inj (by rw [e, toCrlf_self h]), fun e => by rw [e, toCrlf_self h]⟩

theorem crlfRes_ok {α β : Type} (g : α → β) (a : α) : crlfRes g (.ok a) = .ok (g a) := rfl
theorem crlfRes_addLine {α β : Type} (g : α → β) (k : Nat) (x : Res α) :
    crlfRes g (addLine k x) = addLine k (crlfRes g x) := by
  rcases x with e | a
  · rcases e with ⟨l, t⟩ | _ | _
    · cases t <;> rfl
    · rfl
    · rfl
  · rfl

namespace Ast2

theorem crlfChunks_append (a b : List Chunk) :
    crlfChunks (a ++ b) = crlfChunks a ++ crlfChunks b := by
  induction a with
  | nil => rfl
  | cons c a ih => simp [crlfChunks, ih]

mutual
theorem sizeChunk_crlf : ∀ c : Ast1.Chunk, sizeChunk c.crlf = sizeChunk c
  | .mk _ (.text s) => rfl
  | .mk _ (.command (.mk l a)) => by
    simp [Ast1.Chunk.crlf, Ast1.ChunkVariant.crlf, Ast1.Command.crlf, sizeChunk, sizeVariant, sizeCommand,
      sizeArgs_crlf a]
  | .mk _ (.scope (.mk cs v)) => by
    simp [Ast1.Chunk.crlf, Ast1.ChunkVariant.crlf, Ast1.Scope.crlf, sizeChunk, sizeVariant, sizeScope,
      sizeChunks_crlf cs]
theorem sizeChunks_crlf : ∀ cs : List Ast1.Chunk, sizeChunks (Ast1.crlfChunks cs) = sizeChunks cs
  | [] => rfl
  | c :: cs => by simp [Ast1.crlfChunks, sizeChunks, sizeChunk_crlf c, sizeChunks_crlf cs]
theorem sizeArgs_crlf : ∀ a : List (Str × Ast1.Scope), sizeArgs (Ast1.crlfArgs a) = sizeArgs a
  | [] => rfl
  | (_, .mk cs v) :: r => by
    simp [Ast1.crlfArgs, Ast1.Scope.crlf, sizeArgs, sizeScope, sizeChunks_crlf cs, sizeArgs_crlf r]
end

def State.crlf (s : State) : State :=
  ⟨crlfChunks s.chunks, s.stack.map Ast1.crlfChunks, s.bufferStart, Ast1.crlfArgs s.envArgs,
    Ast1.crlfChunks s.buffer, toCrlf s.precBegin⟩

theorem State.pushChunks_crlf (s : State) (n : Nat) (v : ChunkVariant) :
    s.crlf.pushChunks n v.crlf = (s.pushChunks n v).crlf := by
  simp [State.crlf, State.pushChunks, crlfChunks_append, crlfChunks, Chunk.crlf]

theorem State.pushBuffer_crlf (s : State) (n : Nat) (v : Ast1.ChunkVariant) :
    s.crlf.pushBuffer n v.crlf = crlfRes State.crlf (s.pushBuffer n v) := by
  simp only [State.crlf, State.pushBuffer]
  rcases h : checkedSub n s.bufferStart with p | k
  · simp [crlfRes, checkedSub_error h, crlfFail]
  · simp [crlfRes, State.crlf, Ast1.crlfChunks_append, Ast1.crlfChunks, Ast1.Chunk.crlf]

theorem argNewlines_crlf (a : List (Str × Ast1.Scope)) :
    argNewlines (Ast1.crlfArgs a) = argNewlines a := by
  induction a with
  | nil => rfl
  | cons x a ih =>
    obtain ⟨p, s⟩ := x
    simp [Ast1.crlfArgs, argNewlines, ih, Ast1.Scope.display_crlf, toCrlf_newlines]

section
variable {rec : List Ast1.Chunk → Res (List Chunk)}
  (hrec : ∀ s, rec (Ast1.crlfChunks s) = crlfRes (crlfChunks) (rec s))
include hrec

theorem convScope_crlf (s : Ast1.Scope) :
    convScope rec s.crlf = crlfRes Scope.crlf (convScope rec s) := by
  obtain ⟨cs, v⟩ := s
  simp only [Ast1.Scope.crlf, convScope, hrec]
  rcases rec cs with e | x <;> rfl

theorem convArgs_crlf (a : List (Str × Ast1.Scope)) :
    convArgs rec (Ast1.crlfArgs a) = crlfRes (crlfArgs) (convArgs rec a) := by
  induction a with
  | nil => rfl
  | cons x a ih =>
    obtain ⟨p, s⟩ := x
    simp only [Ast1.crlfArgs, convArgs, convScope_crlf hrec, ih]
    rcases convScope rec s with e | x
    · rfl
    · simp only [crlfRes_ok]
      rcases convArgs rec a with e | y <;> rfl

theorem convCommand_crlf (c : Ast1.Command) :
    convCommand rec c.crlf = crlfRes Command.crlf (convCommand rec c) := by
  obtain ⟨l, a⟩ := c
  simp only [Ast1.Command.crlf, convCommand, convArgs_crlf hrec]
  rcases convArgs rec a with e | x <;> rfl

omit hrec in
theorem begin_crlf (s : Str) : (toCrlf s = chars!"begin") = (s = chars!"begin") :=
  toCrlf_eq_word (by decide) s
omit hrec in
theorem end_crlf (s : Str) : (toCrlf s = chars!"end") = (s = chars!"end") :=
  toCrlf_eq_word (by decide) s

omit hrec in
theorem stepBegin_crlf (s : State) (n : Nat) (a : Str × Ast1.Scope) (r : List (Str × Ast1.Scope)) :
    stepBegin s.crlf n (toCrlf a.1, a.2.crlf) (Ast1.crlfArgs r) =
      crlfRes State.crlf (stepBegin s n a r) := by
  obtain ⟨p, cs, v⟩ := a
  have hb : toCrlf chars!"begin" = chars!"begin" := (begin_crlf _).mpr rfl
  have h := argNewlines_crlf ((p, .mk cs v) :: r)
  simp only [Ast1.crlfArgs] at h
  have hp := State.pushBuffer_crlf { s with stack := s.stack ++ [cs] } n (.command (.mk chars!"begin" ((p, .mk cs v) :: r)))
  simp only [Ast1.ChunkVariant.crlf, Ast1.Command.crlf, hb, Ast1.crlfArgs] at hp
  simp only [stepBegin, h]
  simp only [Ast1.Scope.crlf, Ast1.Scope.chunks, State.crlf, List.length_append, List.length_map, List.length_cons,
    List.length_nil] at hp ⊢
  split
  · simp [crlfRes, State.crlf]
  · rw [← hp]; simp

omit hrec in
theorem topIs_crlf (st : List (List Ast1.Chunk)) (l : List Ast1.Chunk) :
    topIs (st.map Ast1.crlfChunks) (Ast1.crlfChunks l) = topIs st l := by
  simp only [topIs, List.getLast?_map]
  rcases st.getLast? with _ | x
  · rfl
  · exact Ast1.beqChunks_crlf x l

theorem stepEnd_crlf (s : State) (n : Nat) (a : Str × Ast1.Scope) (r : List (Str × Ast1.Scope)) :
    stepEnd rec s.crlf n (toCrlf a.1, a.2.crlf) (Ast1.crlfArgs r) =
      crlfRes State.crlf (stepEnd rec s n a r) := by
  obtain ⟨p, cs, v⟩ := a
  have hl : ((toCrlf p, Ast1.Scope.crlf (.mk cs v)) :: Ast1.crlfArgs r).length = ((p, Ast1.Scope.mk cs v) :: r).length := by
    simp only [List.length_cons]
    congr 1
    induction r with
    | nil => rfl
    | cons x r ih => obtain ⟨q, t⟩ := x; simp [Ast1.crlfArgs, ih]
  have hb : toCrlf chars!"end" = chars!"end" := (end_crlf _).mpr rfl
  have hp := State.pushBuffer_crlf { s with stack := s.stack.dropLast } n (.command (.mk chars!"end" ((p, .mk cs v) :: r)))
  simp only [Ast1.ChunkVariant.crlf, Ast1.Command.crlf, hb, Ast1.crlfArgs] at hp
  simp only [stepEnd, hl]
  simp only [Ast1.Scope.crlf, Ast1.Scope.chunks, State.crlf, topIs_crlf, Ast1.displayChunks_crlf,
    convArgs_crlf hrec, hrec] at hp ⊢
  rw [List.map_dropLast] at hp
  by_cases h1 : topIs s.stack cs = false
  · simp only [h1, if_true, not_true_eq_false, not_false_eq_true]; rfl
  simp only [h1, if_false, Bool.false_eq_true]
  by_cases h2 : ((p, Ast1.Scope.mk cs v) :: r).length > 1
  · simp only [h2, if_true, not_true_eq_false, not_false_eq_true]; rfl
  simp only [h2, if_false, Bool.false_eq_true]
  rw [show ((s.stack.map Ast1.crlfChunks).dropLast).isEmpty = s.stack.dropLast.isEmpty by
    rw [← List.map_dropLast, List.isEmpty_map]]
  by_cases h3 : s.stack.dropLast.isEmpty = true
  · simp only [h3, if_true, not_true_eq_false, not_false_eq_true]
    rcases convArgs rec s.envArgs with e | args
    · rfl
    · simp only [crlfRes_ok, ← crlfRes_addLine]
      rcases addLine s.bufferStart (rec s.buffer) with e | content
      · rfl
      · simp [crlfRes, State.crlf, crlfChunks_append, crlfChunks, Chunk.crlf, ChunkVariant.crlf,
          Environment.crlf, Ast1.crlfArgs, Ast1.crlfChunks, List.map_dropLast, toCrlf_nil]
  · simp only [h3, if_false, Bool.false_eq_true, reduceCtorEq]; rw [← hp]

theorem step_crlf (s : State) (c : Ast1.Chunk) :
    step rec s.crlf c.crlf = crlfRes State.crlf (step rec s c) := by
  obtain ⟨n, v⟩ := c
  have hs : s.crlf.stack.isEmpty = s.stack.isEmpty := by simp [State.crlf]
  cases v with
  | text t =>
    have h1 := State.pushBuffer_crlf s n (.text t)
    have h2 := State.pushChunks_crlf s n (.text t)
    simp only [Ast1.ChunkVariant.crlf, ChunkVariant.crlf] at h1 h2
    simp only [Ast1.Chunk.crlf, Ast1.ChunkVariant.crlf, step, hs, h1, h2]
    split <;> rfl
  | scope sc =>
    have h1 := State.pushBuffer_crlf s n (.scope sc)
    simp only [Ast1.ChunkVariant.crlf] at h1
    simp only [Ast1.Chunk.crlf, Ast1.ChunkVariant.crlf, step, hs, h1, convScope_crlf hrec, ← crlfRes_addLine]
    split
    · rcases addLine n (convScope rec sc) with e | x
      · rfl
      · exact congrArg Except.ok (State.pushChunks_crlf s n (.scope x))
    · rfl
  | command c =>
    have h1 := State.pushBuffer_crlf s n (.command c)
    have h2 := convCommand_crlf hrec c
    obtain ⟨l, a⟩ := c
    simp only [Ast1.ChunkVariant.crlf] at h1
    simp only [Ast1.Chunk.crlf, Ast1.ChunkVariant.crlf, step, hs, h1, h2]
    simp only [Ast1.Command.crlf, Ast1.Command.label, Ast1.Command.arguments, begin_crlf, end_crlf]
    by_cases hbe : ¬(l = chars!"begin" ∨ l = chars!"end")
    · simp only [hbe, if_true, not_true_eq_false, not_false_eq_true]
      split
      · rcases convCommand rec (.mk l a) with e | x
        · rfl
        · exact congrArg Except.ok (State.pushChunks_crlf s n (.command x))
      · rfl
    · simp only [hbe, if_false, Bool.false_eq_true]
      cases a with
      | nil => rfl
      | cons x r =>
        obtain ⟨p, cs, v⟩ := x
        simp only [Ast1.crlfArgs]
        have e1 : (Ast1.Scope.crlf (.mk cs v)).variant = (Ast1.Scope.mk cs v).variant := rfl
        simp only [e1]
        split
        · rfl
        · by_cases hb : l = chars!"begin"
          · simp only [hb, if_true, not_true_eq_false, not_false_eq_true]; exact stepBegin_crlf s n (p, .mk cs v) r
          · simp only [hb, if_false, Bool.false_eq_true]; exact stepEnd_crlf hrec s n (p, .mk cs v) r

theorem run_crlf (x : List Ast1.Chunk) (s : State) :
    run rec (Ast1.crlfChunks x) s.crlf = crlfRes State.crlf (run rec x s) := by
  induction x generalizing s with
  | nil => rfl
  | cons c x ih =>
    simp only [Ast1.crlfChunks, run, step_crlf hrec]
    rcases step rec s c with e | t
    · rfl
    · exact ih t
end

theorem finish_crlf (s : State) :
    finish s.crlf = crlfRes (crlfChunks) (finish s) := by
  simp only [finish, State.crlf]
  rcases s.stack with _ | ⟨l, st⟩
  · rfl
  · simp [Ast1.displayChunks_crlf, crlfRes, fail, crlfFail]

theorem convFuel_crlf (n : Nat) (s : List Ast1.Chunk) :
    convFuel n (Ast1.crlfChunks s) = crlfRes (crlfChunks) (convFuel n s) := by
  induction n generalizing s with
  | zero => rfl
  | succ n ih =>
    simp only [convFuel]
    have := run_crlf ih s State.init
    rw [show State.init.crlf = State.init from rfl] at this
    rw [this]
    rcases run (convFuel n) s State.init with e | x
    · rfl
    · exact finish_crlf x

theorem tryFrom_crlf (d : Ast1.Document) :
    tryFrom (Ast1.crlfChunks d) = crlfRes (crlfChunks) (tryFrom d) := by
  simp only [tryFrom, sizeChunks_crlf, convFuel_crlf]

theorem fromStr_crlf (s : Str) (h : SelfContained s) (hn : NoEscapedNewline s) :
    fromStr (toCrlf s) = crlfRes crlfChunks (fromStr s) := by
  simp only [fromStr, Ast1.fromStr_crlf s h hn]
  rcases Ast1.fromStr s with e | d
  · rfl
  · exact tryFrom_crlf d

end Ast2
end LatexAst
