import Verif.Proofs.Crlf3
import Verif.Proofs.MathsFuel

/-! # Windows line ends: maths and documents -/

namespace LatexAst
open Spec

namespace Ast2
mutual
theorem Chunk.display_crlf : ∀ c : Chunk, c.crlf.display = toCrlf c.display
  | .mk _ (.text s) => by simp [Chunk.crlf, ChunkVariant.crlf, Chunk.display, ChunkVariant.display]
  | .mk _ (.command (.mk l a)) => by
    simp [Chunk.crlf, ChunkVariant.crlf, Chunk.display, ChunkVariant.display, Command.crlf, Command.display,
      displayArgs_crlf a, toCrlf_append, toCrlf_bs]
  | .mk _ (.scope (.mk cs v)) => by
    simp [Chunk.crlf, ChunkVariant.crlf, Chunk.display, ChunkVariant.display, Scope.crlf, Scope.display,
      displayChunks_crlf cs, toCrlf_append, Ast1.toCrlf_opening, Ast1.toCrlf_closing, toCrlf_nil]
  | .mk _ (.environment (.mk l a c x y)) => by
    simp only [Chunk.crlf, ChunkVariant.crlf, Chunk.display, ChunkVariant.display, Environment.crlf,
      Environment.display, displayArgs_crlf a, displayChunks_crlf c, toCrlf_append,
      toCrlf_self (show '\n' ∉ chars!"\\begin" by decide), toCrlf_self (show '\n' ∉ chars!"\\end" by decide),
      toCrlf_cons (show '{' ≠ '\n' by decide), toCrlf_cons (show '}' ≠ '\n' by decide), toCrlf_nil]
theorem displayChunks_crlf : ∀ cs : List Chunk, displayChunks (crlfChunks cs) = toCrlf (displayChunks cs)
  | [] => rfl
  | c :: cs => by simp [crlfChunks, displayChunks, Chunk.display_crlf c, displayChunks_crlf cs, toCrlf_append]
theorem displayArgs_crlf : ∀ a : List (Str × Scope), displayArgs (crlfArgs a) = toCrlf (displayArgs a)
  | [] => rfl
  | (p, .mk cs v) :: r => by
    simp [crlfArgs, displayArgs, Scope.crlf, Scope.display, displayChunks_crlf cs, displayArgs_crlf r,
      toCrlf_append, Ast1.toCrlf_opening, Ast1.toCrlf_closing]
end
theorem isEmpty_crlf (cs : List Chunk) : (crlfChunks cs).isEmpty = cs.isEmpty := by cases cs <;> rfl
end Ast2

namespace Ast3

theorem toCrlf_length (s : Str) : s.length ≤ (toCrlf s).length := by
  induction s with
  | nil => exact Nat.le_refl _
  | cons c s ih => simp only [toCrlf]; split <;> simp <;> omega

mutual
theorem sizeChunk_crlf : ∀ c : Ast2.Chunk, sizeChunk c ≤ sizeChunk c.crlf
  | .mk _ (.text s) => by
    have := toCrlf_length s
    simp [Ast2.Chunk.crlf, Ast2.ChunkVariant.crlf, sizeChunk, sizeVariant]; omega
  | .mk _ (.command (.mk l a)) => by
    have := sizeArgs_crlf a
    simp [Ast2.Chunk.crlf, Ast2.ChunkVariant.crlf, Ast2.Command.crlf, sizeChunk, sizeVariant, sizeCommand]; omega
  | .mk _ (.scope (.mk cs v)) => by
    have := sizeChunks_crlf cs
    simp [Ast2.Chunk.crlf, Ast2.ChunkVariant.crlf, Ast2.Scope.crlf, sizeChunk, sizeVariant, sizeScope]; omega
  | .mk _ (.environment (.mk l a c x y)) => by
    have := sizeArgs_crlf a
    have := sizeChunks_crlf c
    simp [Ast2.Chunk.crlf, Ast2.ChunkVariant.crlf, Ast2.Environment.crlf, sizeChunk, sizeVariant, sizeEnvironment]; omega
theorem sizeChunks_crlf : ∀ cs : List Ast2.Chunk, sizeChunks cs ≤ sizeChunks (Ast2.crlfChunks cs)
  | [] => Nat.le_refl _
  | c :: cs => by
    have := sizeChunk_crlf c
    have := sizeChunks_crlf cs
    simp only [Ast2.crlfChunks, sizeChunks]; omega
theorem sizeArgs_crlf : ∀ a : List (Str × Ast2.Scope), sizeArgs a ≤ sizeArgs (Ast2.crlfArgs a)
  | [] => Nat.le_refl _
  | (_, .mk cs v) :: r => by
    have := sizeChunks_crlf cs
    have := sizeArgs_crlf r
    simp only [Ast2.crlfArgs, Ast2.Scope.crlf, sizeArgs, sizeScope]; omega
end

/-- Both succeed with related values, or both fail with the same error up to carriage returns. -/
inductive ERel {α : Type} (R : α → α → Prop) : Res α → Res α → Prop
  | ok {a' a} : R a' a → ERel R (.ok a') (.ok a)
  | error {e' e} : eraseCrFail e' = eraseCrFail e → ERel R (.error e') (.error e)

theorem ERel.or {α : Type} {R : α → α → Prop} {x' x : Res α} (h : ERel R x' x) :
    (∃ e' e, x' = .error e' ∧ x = .error e ∧ eraseCrFail e' = eraseCrFail e) ∨
    (∃ a' a, x' = .ok a' ∧ x = .ok a ∧ R a' a) := by
  cases h with
  | ok h => exact .inr ⟨_, _, rfl, rfl, h⟩
  | error h => exact .inl ⟨_, _, rfl, rfl, h⟩

theorem ERel.eq {α β : Type} {g : α → β} {x' x : Res α} (h : ERel (fun a' a => g a' = g a) x' x) :
    eraseCrRes g x' = eraseCrRes g x := by
  cases h with
  | ok h => simp [eraseCrRes, h]
  | error h => simp [eraseCrRes, h]

structure MRel (s' s : MState) : Prop where
  out : parE s'.out = parE s.out
  mode : s'.mode = s.mode
  depth : s'.depth = s.depth
  buffer : s'.buffer = Ast2.crlfChunks s.buffer
  bufferLine : s'.bufferLine = s.bufferLine

structure TRel (t' t : TState) : Prop where
  m : MRel t'.m t.m
  cursorLine : t'.cursorLine = t.cursorLine
  textBuffer : t'.textBuffer = toCrlf t.textBuffer
  textBufferLine : t'.textBufferLine = t.textBufferLine

theorem TRel.pushStr {t' t : TState} (h : TRel t' t) : TRel t'.pushStr t.pushStr := by
  obtain ⟨⟨out', mode', d', b', bl'⟩, c', tb', tl'⟩ := t'
  obtain ⟨⟨out, mode, d, b, bl⟩, c, tb, tl⟩ := t
  obtain ⟨⟨h1, h2, h3, h4, h5⟩, h6, h7, h8⟩ := h
  simp only at *
  subst h2 h3 h4 h5 h6 h7 h8
  simp only [TState.pushStr, toCrlf_isEmpty]
  split
  · exact ⟨⟨h1, rfl, rfl, rfl, rfl⟩, rfl, rfl, rfl⟩
  · refine ⟨⟨?_, rfl, rfl, rfl, rfl⟩, rfl, rfl, rfl⟩
    simp only [parE_append, h1, parE_crlf]

theorem checkedSub_panic {a b : Nat} {p : Fail} (h : checkedSub a b = .error p) : p = .panic := by
  unfold checkedSub at h
  split at h
  · cases h
  · cases h; rfl

theorem rebase_crlf (k : Nat) (cs : List Ast2.Chunk) :
    rebase k (Ast2.crlfChunks cs) = crlfRes Ast2.crlfChunks (rebase k cs) := by
  induction cs with
  | nil => rfl
  | cons c cs ih =>
    obtain ⟨l, v⟩ := c
    simp only [Ast2.crlfChunks, Ast2.Chunk.crlf, rebase, ih]
    rcases h : checkedSub k 1 with p | a
    · have : p = .panic := checkedSub_panic h
      simp [crlfRes, this, crlfFail]
    · simp only []
      rcases h : checkedSub l a with p | b
      · have : p = .panic := checkedSub_panic h
        simp [crlfRes, this, crlfFail]
      · simp only []
        rcases rebase k cs with e | x <;> rfl

theorem eraseCr_crlfFail (e : Fail) : eraseCrFail (crlfFail e) = eraseCrFail e := by
  unfold crlfFail
  split <;> simp [eraseCrFail, dropCr_toCrlf]

section
variable {rec : List Ast2.Chunk → Res (List Chunk)}
  (hrec : ∀ s, ERel (fun a' a => eraseCrs a' = eraseCrs a) (rec (Ast2.crlfChunks s)) (rec s))
include hrec

theorem tryScope_crlf (s : Ast2.Scope) : ERel (fun a' a => a'.eraseCr = a.eraseCr) (tryScope rec s.crlf) (tryScope rec s) := by
  obtain ⟨cs, v⟩ := s
  simp only [Ast2.Scope.crlf, tryScope]
  rcases (hrec cs).or with ⟨_, _, q1, q2, h⟩ | ⟨a', a, q1, q2, h⟩ <;> rw [q1, q2]
  · exact .error h
  · exact .ok (by simp only [Scope.eraseCr]; congr 1; exact parE_congr h)

theorem tryArgs_crlf (a : List (Str × Ast2.Scope)) :
    ERel (fun a' a => eraseCrArgs a' = eraseCrArgs a) (tryArgs rec (Ast2.crlfArgs a)) (tryArgs rec a) := by
  induction a with
  | nil => exact .ok rfl
  | cons x a ih =>
    obtain ⟨p, s⟩ := x
    simp only [Ast2.crlfArgs, tryArgs]
    rcases (tryScope_crlf hrec s).or with ⟨_, _, q1, q2, h⟩ | ⟨a', a, q1, q2, h⟩ <;> rw [q1, q2]
    · exact .error h
    ·
      simp only []
      rcases (ih).or with ⟨_, _, q1, q2, h⟩ | ⟨a', a, q1, q2, h2⟩ <;> rw [q1, q2]
      · exact .error h
      · exact .ok (by simp only [eraseCrArgs, h, h2, dropCr_toCrlf])

theorem tryCommand_crlf (c : Ast2.Command) :
    ERel (fun a' a => a'.eraseCr = a.eraseCr) (tryCommand rec c.crlf) (tryCommand rec c) := by
  obtain ⟨l, a⟩ := c
  simp only [Ast2.Command.crlf, tryCommand]
  rcases (tryArgs_crlf hrec a).or with ⟨_, _, q1, q2, h⟩ | ⟨a', a, q1, q2, h⟩ <;> rw [q1, q2]
  · exact .error h
  · exact .ok (by simp only [Command.eraseCr, h, dropCr_toCrlf])

theorem tryEnvironment_crlf (c : Ast2.Environment) :
    ERel (fun a' a => a'.eraseCr = a.eraseCr) (tryEnvironment rec c.crlf) (tryEnvironment rec c) := by
  obtain ⟨l, a, c, x, y⟩ := c
  simp only [Ast2.Environment.crlf, tryEnvironment]
  rcases (tryArgs_crlf hrec a).or with ⟨_, _, q1, q2, h⟩ | ⟨a', a, q1, q2, h⟩ <;> rw [q1, q2]
  · exact .error h
  ·
    simp only []
    rcases (hrec c).or with ⟨_, _, q1, q2, h⟩ | ⟨a', a, q1, q2, h2⟩ <;> rw [q1, q2]
    · exact .error h
    ·
      refine .ok ?_
      have := parE_congr h2
      simp only [parE] at this
      simp only [Environment.eraseCr, h, dropCr_toCrlf, this]

theorem closeDollars_crlf {t' t : TState} (h : TRel t' t) (ty : MathsType) :
    ERel TRel (closeDollars rec t' ty) (closeDollars rec t ty) := by
  obtain ⟨⟨out', mode', d', b', bl'⟩, c', tb', tl'⟩ := t'
  obtain ⟨⟨out, mode, d, b, bl⟩, c, tb, tl⟩ := t
  obtain ⟨⟨h1, h2, h3, h4, h5⟩, h6, h7, h8⟩ := h
  simp only at *
  subst h2 h3 h4 h5 h6 h7 h8
  simp only [closeDollars, toCrlf_isEmpty]
  rw [show (if List.isEmpty tb = true then Ast2.crlfChunks b else Ast2.crlfChunks b ++ [Ast2.Chunk.mk tl' (.text (toCrlf tb))])
      = Ast2.crlfChunks (if List.isEmpty tb = true then b else b ++ [Ast2.Chunk.mk tl' (.text tb)]) by
    split
    · rfl
    · simp [Ast2.crlfChunks_append, Ast2.crlfChunks, Ast2.Chunk.crlf, Ast2.ChunkVariant.crlf]]
  rw [rebase_crlf]
  rcases rebase tl' _ with e | x
  · exact .error (eraseCr_crlfFail e)
  · simp only [crlfRes_ok]
    rcases (hrec x).or with ⟨_, _, q1, q2, h⟩ | ⟨a', a, q1, q2, h⟩ <;> rw [q1, q2]
    · exact .error h
    ·
      refine .ok ⟨⟨?_, rfl, rfl, rfl, rfl⟩, rfl, rfl, rfl⟩
      simp only [parE_append, h1]
      rw [parE_other (by simp), parE_other (by simp)]
      simp only [ChunkVariant.eraseCr, MathsBlock.eraseCr, h]

theorem stepDollar_crlf {t' t : TState} (h : TRel t' t) : ERel TRel (stepDollar rec t') (stepDollar rec t) := by
  have hm := h.m.mode
  have h1 : t'.textBuffer.isEmpty = t.textBuffer.isEmpty := by rw [h.textBuffer, toCrlf_isEmpty]
  have h2 : t'.m.buffer.isEmpty = t.m.buffer.isEmpty := by rw [h.m.buffer, Ast2.isEmpty_crlf]
  have hp := h.pushStr
  have hc := closeDollars_crlf hrec h
  simp only [stepDollar, hm, h1, h2]
  obtain ⟨hmm, hcl, htb, htl⟩ := h
  split
  · obtain ⟨⟨p1, p2, p3, p4, p5⟩, p6, p7, p8⟩ := hp
    exact .ok ⟨⟨p1, rfl, p3, p4, p5⟩, p6, p7, p6⟩
  · split
    · exact .ok ⟨⟨hmm.1, rfl, hmm.3, hmm.4, hmm.5⟩, hcl, htb, htl⟩
    · exact hc _
  · exact .ok ⟨⟨hmm.1, rfl, hmm.3, hmm.4, hmm.5⟩, hcl, htb, htl⟩
  · exact hc _
  · exact .ok ⟨hmm, hcl, htb, htl⟩
  · exact .ok ⟨hmm, hcl, htb, htl⟩

theorem stepChar_crlf {t' t : TState} (h : TRel t' t) {c : Char} (hc : c ≠ '\n') :
    ERel TRel (stepChar rec t' c) (stepChar rec t c) := by
  simp only [stepChar, if_neg hc]
  split
  · exact stepDollar_crlf hrec h
  · exact .ok ⟨h.m, h.cursorLine, by simp [h.textBuffer, toCrlf_append, toCrlf_cons hc, toCrlf_nil], h.textBufferLine⟩

theorem runText_crlf (x : Str) {t' t : TState} (h : TRel t' t) : ERel TRel (runText rec (toCrlf x) t') (runText rec x t) := by
  induction x generalizing t' t with
  | nil => exact .ok h
  | cons c x ih =>
    by_cases hc : c = '\n'
    · subst hc
      have e : ∀ y u, runText rec ('\n' :: y) u =
          runText rec y { u with cursorLine := u.cursorLine + 1, textBuffer := u.textBuffer ++ ['\n'] } := fun y u => rfl
      have e' : ∀ y u, runText rec ('\r' :: y) u =
          runText rec y { u with textBuffer := u.textBuffer ++ ['\r'] } := fun y u => rfl
      rw [toCrlf_nl, e', e, e]
      refine ih ⟨h.m, ?_, ?_, h.textBufferLine⟩
      · simp [h.cursorLine]
      · simp [h.textBuffer, toCrlf_append, toCrlf_nl, toCrlf_nil]
    · rw [toCrlf_cons hc]
      simp only [runText]
      rcases (stepChar_crlf hrec h hc).or with ⟨_, _, q1, q2, h⟩ | ⟨a', a, q1, q2, h⟩ <;> rw [q1, q2]
      · exact .error h
      · exact ih h

theorem stepMathsText_crlf {s' s : MState} (h : MRel s' s) (n : Nat) (x : Str) :
    ERel MRel (stepMathsText rec s' n (toCrlf x)) (stepMathsText rec s n x) := by
  simp only [stepMathsText]
  have : TRel ⟨s', n, [], n⟩ ⟨s, n, [], n⟩ := ⟨h, rfl, rfl, rfl⟩
  rcases (runText_crlf hrec x this).or with ⟨_, _, q1, q2, h⟩ | ⟨a', a, q1, q2, h⟩ <;> rw [q1, q2]
  · exact .error h
  · exact .ok h.pushStr.m

omit hrec in
theorem MRel.pushBuffer {s' s : MState} (h : MRel s' s) (n : Nat) (v : Ast2.ChunkVariant) :
    MRel (s'.pushBuffer n v.crlf) (s.pushBuffer n v) := by
  refine ⟨h.out, h.mode, h.depth, ?_, h.bufferLine⟩
  simp [MState.pushBuffer, h.buffer, Ast2.crlfChunks_append, Ast2.crlfChunks, Ast2.Chunk.crlf]

omit hrec in
theorem MRel.pushOut {s' s : MState} (h : MRel s' s) (n : Nat) {v' v : ChunkVariant} (hv' : ∀ t, v' ≠ .text t)
    (hv : ∀ t, v ≠ .text t) (e : v'.eraseCr = v.eraseCr) :
    MRel { s' with out := s'.out ++ [.mk n v'] } { s with out := s.out ++ [.mk n v] } := by
  refine ⟨?_, h.mode, h.depth, h.buffer, h.bufferLine⟩
  simp only [parE_append, h.out, parE_other hv, parE_other hv', e]

theorem closeBrackets_crlf {s' s : MState} (h : MRel s' s) (ty : MathsType) :
    ERel MRel (closeBrackets rec s' ty) (closeBrackets rec s ty) := by
  simp only [closeBrackets, h.buffer, h.bufferLine]
  rcases (hrec s.buffer).or with ⟨_, _, q1, q2, h⟩ | ⟨a', a, q1, q2, h2⟩ <;> rw [q1, q2]
  · exact .error h
  ·
    refine .ok ⟨?_, rfl, rfl, rfl, rfl⟩
    simp only [parE_append, h.out]
    rw [parE_other (by simp), parE_other (by simp)]
    simp only [ChunkVariant.eraseCr, MathsBlock.eraseCr, h2]

theorem stepMathsCommand_crlf {s' s : MState} (h : MRel s' s) (n : Nat) (c : Ast2.Command) :
    ERel MRel (stepMathsCommand rec s' n c.crlf) (stepMathsCommand rec s n c) := by
  have hl : c.crlf.label = toCrlf c.label := by cases c; rfl
  have hb := h.pushBuffer n (.command c)
  simp only [Ast2.ChunkVariant.crlf] at hb
  have hm := h.mode
  have hd := h.depth
  have b1 : (c.crlf.label = [')']) = (c.label = [')']) := by rw [hl, toCrlf_eq_word (by decide)]
  have b2 : (c.crlf.label = [']']) = (c.label = [']']) := by rw [hl, toCrlf_eq_word (by decide)]
  have b3 : (c.crlf.label = ['(']) = (c.label = ['(']) := by rw [hl, toCrlf_eq_word (by decide)]
  have b4 : (c.crlf.label = ['[']) = (c.label = ['[']) := by rw [hl, toCrlf_eq_word (by decide)]
  have hc := closeBrackets_crlf hrec h
  have hsub : ∀ x : Res Nat,
      ERel MRel (match x with
        | .error p => (.error p : Res MState)
        | .ok d => .ok { s' with depth := d })
       (match x with
        | .error p => .error p
        | .ok d => .ok { s with depth := d }) := by
    rintro (e | d)
    · exact .error rfl
    · exact .ok ⟨h.1, h.2, rfl, h.4, h.5⟩
  have ht := tryCommand_crlf hrec c
  have hopen : ∀ m : MathsMode, ERel MRel (.ok { s' with mode := m, bufferLine := n, depth := 1 })
      (.ok { s with mode := m, bufferLine := n, depth := 1 }) := fun m => .ok ⟨h.1, rfl, rfl, h.4, rfl⟩
  have hdeep : ERel MRel (.ok { s' with depth := s'.depth + 1 })
      (.ok { s with depth := s.depth + 1 }) := .ok ⟨h.1, h.2, by simp [hd], h.4, h.5⟩
  unfold stepMathsCommand
  by_cases h1 : s.mode = .none ∧ (c.label = [')'] ∨ c.label = [']'])
  · rw [if_pos h1, if_pos (by rw [hm, b1, b2]; exact h1)]; exact .error rfl
  rw [if_neg h1, if_neg (by rw [hm, b1, b2]; exact h1)]
  by_cases h1 : c.label = ['('] ∧ s.mode = .none
  · rw [if_pos h1, if_pos (by rw [hm, b3]; exact h1)]; exact hopen _
  rw [if_neg h1, if_neg (by rw [hm, b3]; exact h1)]
  by_cases h1 : c.label = ['['] ∧ s.mode = .none
  · rw [if_pos h1, if_pos (by rw [hm, b4]; exact h1)]; exact hopen _
  rw [if_neg h1, if_neg (by rw [hm, b4]; exact h1)]
  by_cases h1 : c.label = ['('] ∧ s.mode = .singleDollar .brackets
  · rw [if_pos h1, if_pos (by rw [hm, b3]; exact h1)]; exact hdeep
  rw [if_neg h1, if_neg (by rw [hm, b3]; exact h1)]
  by_cases h1 : c.label = ['['] ∧ s.mode = .doubleDollar .brackets
  · rw [if_pos h1, if_pos (by rw [hm, b4]; exact h1)]; exact hdeep
  rw [if_neg h1, if_neg (by rw [hm, b4]; exact h1)]
  by_cases h1 : c.label = [')'] ∧ s.mode = .singleDollar .brackets ∧ s.depth = 1
  · rw [if_pos h1, if_pos (by rw [hm, b1, hd]; exact h1)]; exact hc _
  rw [if_neg h1, if_neg (by rw [hm, b1, hd]; exact h1)]
  by_cases h1 : c.label = [']'] ∧ s.mode = .doubleDollar .brackets ∧ s.depth = 1
  · rw [if_pos h1, if_pos (by rw [hm, b2, hd]; exact h1)]; exact hc _
  rw [if_neg h1, if_neg (by rw [hm, b2, hd]; exact h1)]
  by_cases h1 : c.label = [')'] ∧ s.mode = .singleDollar .brackets
  · rw [if_pos h1, if_pos (by rw [hm, b1]; exact h1), hd]; exact hsub _
  rw [if_neg h1, if_neg (by rw [hm, b1]; exact h1)]
  by_cases h1 : c.label = [']'] ∧ s.mode = .doubleDollar .brackets
  · rw [if_pos h1, if_pos (by rw [hm, b2]; exact h1), hd]; exact hsub _
  rw [if_neg h1, if_neg (by rw [hm, b2]; exact h1)]
  by_cases h1 : s.mode = .none
  · rw [if_pos h1, if_pos (by rw [hm]; exact h1)]
    rcases (ht).or with ⟨_, _, q1, q2, h⟩ | ⟨a', a, q1, q2, h2⟩ <;> rw [q1, q2]
    · exact .error h
    · exact .ok (h.pushOut n (by simp) (by simp) (by simp only [ChunkVariant.eraseCr, h2]))
  · rw [if_neg h1, if_neg (by rw [hm]; exact h1)]; exact .ok hb

theorem stepMaths_crlf {s' s : MState} (h : MRel s' s) (c : Ast2.Chunk) :
    ERel MRel (stepMaths rec s' c.crlf) (stepMaths rec s c) := by
  obtain ⟨n, v⟩ := c
  have hm := h.mode
  have hb := h.pushBuffer n v
  cases v with
  | command c => exact stepMathsCommand_crlf hrec h n c
  | text x =>
    simp only [Ast2.ChunkVariant.crlf] at hb
    simp only [Ast2.Chunk.crlf, Ast2.ChunkVariant.crlf, stepMaths, hm]
    split
    · exact .ok hb
    · exact stepMathsText_crlf hrec h n x
  | scope x =>
    simp only [Ast2.ChunkVariant.crlf] at hb
    simp only [Ast2.Chunk.crlf, Ast2.ChunkVariant.crlf, stepMaths, hm]
    split
    · rcases (tryScope_crlf hrec x).or with ⟨_, _, q1, q2, h⟩ | ⟨a', a, q1, q2, h2⟩ <;> rw [q1, q2]
      · exact .error h
      · have := (h.pushOut n (v' := .scope a') (v := .scope a) (by simp) (by simp) (by simp only [ChunkVariant.eraseCr, h2]))
        rw [hm] at this; exact .ok this
    · exact .ok hb
  | environment x =>
    simp only [Ast2.ChunkVariant.crlf] at hb
    simp only [Ast2.Chunk.crlf, Ast2.ChunkVariant.crlf, stepMaths, hm]
    split
    · rcases (tryEnvironment_crlf hrec x).or with ⟨_, _, q1, q2, h⟩ | ⟨a', a, q1, q2, h2⟩ <;> rw [q1, q2]
      · exact .error h
      · have := (h.pushOut n (v' := .environment a') (v := .environment a) (by simp) (by simp) (by simp only [ChunkVariant.eraseCr, h2]))
        rw [hm] at this; exact .ok this
    · exact .ok hb

theorem runMaths_crlf (x : List Ast2.Chunk) {s' s : MState} (h : MRel s' s) :
    ERel MRel (runMaths rec (Ast2.crlfChunks x) s') (runMaths rec x s) := by
  induction x generalizing s' s with
  | nil => exact .ok h
  | cons c x ih =>
    simp only [Ast2.crlfChunks, runMaths]
    rcases (stepMaths_crlf hrec h c).or with ⟨_, _, q1, q2, h⟩ | ⟨a', a, q1, q2, h⟩ <;> rw [q1, q2]
    · exact .error h
    · exact ih h
end

theorem finishMaths_crlf {s' s : MState} (h : MRel s' s) :
    ERel (fun a' a => eraseCrs a' = eraseCrs a) (finishMaths s') (finishMaths s) := by
  simp only [finishMaths, h.mode, h.bufferLine]
  split
  · exact .error rfl
  · exact .ok h.out

theorem mathsFuel_crlf (n : Nat) (s : List Ast2.Chunk) :
    ERel (fun a' a => eraseCrs a' = eraseCrs a) (mathsFuel n (Ast2.crlfChunks s)) (mathsFuel n s) := by
  induction n generalizing s with
  | zero => exact .error rfl
  | succ n ih =>
    simp only [mathsFuel]
    have : MRel MState.init MState.init := ⟨rfl, rfl, rfl, rfl, rfl⟩
    rcases (runMaths_crlf ih s this).or with ⟨_, _, q1, q2, h⟩ | ⟨a', a, q1, q2, h⟩ <;> rw [q1, q2]
    · exact .error h
    · exact finishMaths_crlf h

theorem mathsFromChunks_crlf (s : List Ast2.Chunk) :
    ERel (fun a' a => eraseCrs a' = eraseCrs a) (mathsFromChunks (Ast2.crlfChunks s)) (mathsFromChunks s) := by
  have h := mathsFuel_crlf (sizeChunks (Ast2.crlfChunks s) + 1) s
  have hb : mathsFuel (sizeChunks (Ast2.crlfChunks s) + 1) s = mathsFromChunks s :=
    mathsFuel_le (by have := sizeChunks_crlf s; omega) s (mathsFromChunks_no_fuel s)
  rw [hb] at h
  exact h

/-! ### Options -/

theorem splitComma_crlf (s : Str) : splitComma (toCrlf s) = (splitComma s).map toCrlf := by
  have h : ∀ s, splitComma s ≠ [] := by
    intro s
    cases s with
    | nil => simp [splitComma]
    | cons c s =>
      simp only [splitComma]
      repeat' split
      all_goals simp
  induction s with
  | nil => rfl
  | cons c s ih =>
    by_cases hc : c = '\n'
    · subst hc
      rw [toCrlf_nl]
      simp only [splitComma, ih, show ('\n' = ',') = False by decide, show ('\r' = ',') = False by decide, if_false]
      rcases hs : splitComma s with _ | ⟨p, ps⟩
      · exact absurd hs (h s)
      · simp [toCrlf_nl]
    · rw [toCrlf_cons hc]
      simp only [splitComma, ih]
      split
      · simp [toCrlf_nil]
      · rcases hs : splitComma s with _ | ⟨p, ps⟩ <;> simp [toCrlf_cons hc, toCrlf_nil]

def OptState.crlf (s : OptState) : OptState := ⟨toCrlf s.prec, toCrlf s.arg, toCrlf s.buffer, s.mode⟩

theorem ws_cr : isWhitespace '\r' = true := by decide
theorem ws_nl : isWhitespace '\n' = true := by decide
theorem toCrlf_snoc_nl (s : Str) : toCrlf (s ++ ['\n']) = toCrlf s ++ ['\r'] ++ ['\n'] := by
  rw [toCrlf_append]; simp [toCrlf]
theorem toCrlf_snoc {c : Char} (h : c ≠ '\n') (s : Str) : toCrlf (s ++ [c]) = toCrlf s ++ [c] := by
  rw [toCrlf_append, toCrlf_cons h]; rfl

theorem optStep_crlf (s : OptState) {c : Char} (hc : c ≠ '\n') : optStep s.crlf c = (optStep s c).crlf := by
  obtain ⟨p, a, b, m⟩ := s
  cases m <;> simp only [optStep, OptState.crlf] <;> split <;>
    simp [toCrlf_snoc hc, toCrlf_append, toCrlf_nil, toCrlf_cons hc]

theorem optStep_nl (s : OptState) : optStep (optStep s.crlf '\r') '\n' = (optStep s '\n').crlf := by
  obtain ⟨p, a, b, m⟩ := s
  cases m <;> simp [optStep, OptState.crlf, ws_cr, ws_nl, toCrlf_snoc_nl]

theorem optRun_crlf (x : Str) (s : OptState) : optRun (toCrlf x) s.crlf = (optRun x s).crlf := by
  induction x generalizing s with
  | nil => rfl
  | cons c x ih =>
    by_cases hc : c = '\n'
    · subst hc; rw [toCrlf_nl]; simp only [optRun, optStep_nl, ih]
    · rw [toCrlf_cons hc]; simp only [optRun, optStep_crlf s hc, ih]

theorem splitOnceEq_crlf (s : Str) :
    splitOnceEq (toCrlf s) = (splitOnceEq s).map fun (a, b) => (toCrlf a, toCrlf b) := by
  induction s with
  | nil => rfl
  | cons c s ih =>
    by_cases hc : c = '\n'
    · subst hc
      rw [toCrlf_nl]
      simp only [splitOnceEq, ih, show ('\n' = '=') = False by decide, show ('\r' = '=') = False by decide, if_false]
      rcases splitOnceEq s with _ | ⟨p, ps⟩ <;> simp [toCrlf_nl]
    · rw [toCrlf_cons hc]
      simp only [splitOnceEq, ih]
      split
      · simp [toCrlf_nil]
      · rcases splitOnceEq s with _ | ⟨p, ps⟩ <;> simp [toCrlf_cons hc]

theorem optKey_crlf (s : Str) (a b : Str) :
    optKey (toCrlf s) (toCrlf a, toCrlf b) = (toCrlf (optKey s (a, b)).1, toCrlf (optKey s (a, b)).2) := by
  induction s generalizing a b with
  | nil => rfl
  | cons c s ih =>
    by_cases hc : c = '\n'
    · subst hc
      rw [toCrlf_nl]
      simp only [optKey, ws_cr, ws_nl, if_true]
      have := ih a (b ++ ['\n'])
      rw [toCrlf_snoc_nl] at this
      exact this
    · rw [toCrlf_cons hc]
      simp only [optKey]
      split
      · have := ih a (b ++ [c]); rw [toCrlf_snoc hc] at this; exact this
      · have := ih (a ++ b ++ [c]) []; rw [toCrlf_snoc hc, toCrlf_append] at this; exact this

theorem optVal_crlf (s : Str) (a b : Str) :
    optVal (toCrlf s) (false, toCrlf a, toCrlf b) =
      ((optVal s (false, a, b)).1, toCrlf (optVal s (false, a, b)).2.1, toCrlf (optVal s (false, a, b)).2.2) := by
  induction s generalizing a b with
  | nil => rfl
  | cons c s ih =>
    by_cases hc : c = '\n'
    · subst hc
      rw [toCrlf_nl]
      simp only [optVal, ws_cr, ws_nl, and_self, if_true]
      have := ih (a ++ ['\n']) b
      rw [toCrlf_snoc_nl] at this
      exact this
    · rw [toCrlf_cons hc]
      simp only [optVal]
      split
      · have := ih (a ++ [c]) b; rw [toCrlf_snoc hc] at this; exact this
      · have := ih a (b ++ [c]); rw [toCrlf_snoc hc] at this; exact this

theorem parseOption_crlf (s : Str) : (parseOption (toCrlf s)).eraseCr = (parseOption s).eraseCr := by
  have h := optRun_crlf s ⟨[], [], [], .prec⟩
  simp only [OptState.crlf, toCrlf_nil] at h
  simp only [parseOption, h, splitOnceEq_crlf]
  rcases splitOnceEq (optRun s ⟨[], [], [], .prec⟩).arg with _ | ⟨k, w⟩
  · simp [DocOption.eraseCr, dropCr_toCrlf]
  · have h1 := optKey_crlf k [] []
    have h2 := optVal_crlf k [] []
    simp only [toCrlf_nil] at h1 h2
    simp [DocOption.eraseCr, h1, h2, dropCr_toCrlf]

/-! ### Documents -/

theorem erase_isSome {d' d : Document} (h : d'.eraseCr = d.eraseCr) : d'.documentclass.isSome = d.documentclass.isSome := by
  have := congrArg (fun d => d.documentclass.isSome) h
  simpa [Document.eraseCr] using this

theorem docClassArgs_crlf (n : Nat) (a : List (Str × Ast2.Scope)) {d' d : Document} (h : d'.eraseCr = d.eraseCr) :
    ERel (fun a' a => a'.eraseCr = a.eraseCr) (docClassArgs n (Ast2.crlfArgs a) d') (docClassArgs n a d) := by
  induction a generalizing d' d with
  | nil => exact .ok h
  | cons x a ih =>
    obtain ⟨p, cs, v⟩ := x
    have hs := erase_isSome h
    have hopt : Document.eraseCr { d' with documentoptions := d'.documentoptions ++
          (splitComma (Ast2.displayChunks (Ast2.crlfChunks cs))).map parseOption } =
        Document.eraseCr { d with documentoptions := d.documentoptions ++
          (splitComma (Ast2.displayChunks cs)).map parseOption } := by
      simp only [Document.eraseCr, Document.mk.injEq] at h ⊢
      refine ⟨h.1, ?_, h.2.2⟩
      simp [Ast2.displayChunks_crlf, splitComma_crlf, Function.comp_def, parseOption_crlf, h.2.1]
    cases v with
    | curly =>
      simp only [Ast2.crlfArgs, Ast2.Scope.crlf, docClassArgs, hs]
      split
      · exact .error rfl
      · refine ih ?_
        simp only [Document.eraseCr, Document.mk.injEq] at h ⊢
        exact ⟨by simp [Ast2.displayChunks_crlf, dropCr_toCrlf], h.2⟩
    | round =>
      simp only [Ast2.crlfArgs, Ast2.Scope.crlf, docClassArgs]
      exact ih hopt
    | square =>
      simp only [Ast2.crlfArgs, Ast2.Scope.crlf, docClassArgs]
      exact ih hopt

structure DRel (s' s : DState) : Prop where
  construct : s'.construct.eraseCr = s.construct.eraseCr
  preamable : s'.preamable = Ast2.crlfChunks s.preamable
  trailing : s'.trailing = Ast2.crlfChunks s.trailing
  inPreamable : s'.inPreamable = s.inPreamable

theorem DRel.push {s' s : DState} (h : DRel s' s) (n : Nat) (v : Ast2.ChunkVariant) : DRel (s'.push n v.crlf) (s.push n v) := by
  obtain ⟨h1, h2, h3, h4⟩ := h
  simp only [DState.push, h4]
  split
  · exact ⟨h1, by simp [h2, Ast2.crlfChunks_append, Ast2.crlfChunks, Ast2.Chunk.crlf], h3, rfl⟩
  · exact ⟨h1, h2, by simp [h3, Ast2.crlfChunks_append, Ast2.crlfChunks, Ast2.Chunk.crlf], rfl⟩

theorem stepDocument_crlf {s' s : DState} (h : DRel s' s) (c : Ast2.Chunk) :
    ERel DRel (stepDocument s' c.crlf) (stepDocument s c) := by
  obtain ⟨n, v⟩ := c
  have hp := h.push n v
  cases v with
  | text x => exact .ok hp
  | scope x => exact .ok hp
  | environment e =>
    have hl : e.crlf.label = toCrlf e.label := by cases e; rfl
    simp only [Ast2.ChunkVariant.crlf] at hp
    simp only [Ast2.Chunk.crlf, Ast2.ChunkVariant.crlf, stepDocument, hl,
      toCrlf_eq_word (show '\n' ∉ chars!"document" by decide)]
    split
    · have ht := tryEnvironment_crlf mathsFromChunks_crlf e
      revert ht
      rcases tryEnvironment mathsFromChunks e.crlf with x | ⟨l, a, c, b, e⟩ <;>
        rcases tryEnvironment mathsFromChunks _ with y | ⟨l2, a2, c2, b2, e2⟩ <;> intro ht <;> cases ht
      · rename_i h; exact .error h
      · rename_i h2
        obtain ⟨h1, h2', h3, h4⟩ := h
        refine .ok ⟨?_, h2', h3, rfl⟩
        simp only [Document.eraseCr, Document.mk.injEq] at h1 ⊢
        simp only [Environment.eraseCr, Environment.mk.injEq] at h2
        grind
    · exact .ok hp
  | command c =>
    obtain ⟨l, a⟩ := c
    have hs := erase_isSome h.construct
    have hi := h.inPreamable
    simp only [Ast2.ChunkVariant.crlf, Ast2.Command.crlf] at hp
    simp only [Ast2.Chunk.crlf, Ast2.ChunkVariant.crlf, Ast2.Command.crlf, stepDocument]
    simp only [Ast2.Command.arguments, hs, hi]
    have hl : (Ast2.Command.mk (toCrlf l) (Ast2.crlfArgs a)).label = chars!"documentclass" ↔
        (Ast2.Command.mk l a).label = chars!"documentclass" := by
      show toCrlf l = _ ↔ l = _
      rw [toCrlf_eq_word (show '\n' ∉ chars!"documentclass" by decide)]
    by_cases h1 : (Ast2.Command.mk l a).label = chars!"documentclass" ∧ s.inPreamable = true
    · rw [if_pos h1, if_pos ⟨hl.2 h1.1, h1.2⟩]
      split
      · exact .error rfl
      · rcases (docClassArgs_crlf n a h.construct).or with ⟨_, _, q1, q2, h⟩ | ⟨d', d, q1, q2, h2⟩ <;> rw [q1, q2]
        · exact .error h
        ·
          refine .ok ?_
          have := DRel.push (s' := { s' with construct := d' }) (s := { s with construct := d }) ⟨h2, h.preamable, h.trailing, h.inPreamable⟩ n (.command (.mk l a))
          rw [hi] at this; exact this
    · rw [if_neg h1, if_neg (fun h => h1 ⟨hl.1 h.1, h.2⟩)]
      exact .ok hp

theorem runDocument_crlf (x : List Ast2.Chunk) {s' s : DState} (h : DRel s' s) :
    ERel DRel (runDocument (Ast2.crlfChunks x) s') (runDocument x s) := by
  induction x generalizing s' s with
  | nil => exact .ok h
  | cons c x ih =>
    simp only [Ast2.crlfChunks, runDocument]
    rcases (stepDocument_crlf h c).or with ⟨_, _, q1, q2, h⟩ | ⟨a', a, q1, q2, h⟩ <;> rw [q1, q2]
    · exact .error h
    · exact ih h

theorem tryFrom_crlf (d : Ast2.Document) :
    eraseCrRes Document.eraseCr (tryFrom (Ast2.crlfChunks d)) = eraseCrRes Document.eraseCr (tryFrom d) := by
  apply ERel.eq
  simp only [tryFrom]
  have : DRel DState.init DState.init := ⟨rfl, rfl, rfl, rfl⟩
  rcases (runDocument_crlf d this).or with ⟨_, _, q1, q2, h⟩ | ⟨s', s, q1, q2, h⟩ <;> rw [q1, q2]
  · exact .error h
  · simp only [h.preamable, h.trailing]
    rcases (mathsFromChunks_crlf s.preamable).or with ⟨_, _, q1, q2, h⟩ | ⟨a', a, q1, q2, hp⟩ <;> rw [q1, q2]
    · exact .error h
    ·
      simp only []
      rcases (mathsFromChunks_crlf s.trailing).or with ⟨_, _, q1, q2, h⟩ | ⟨a', a, q1, q2, ht⟩ <;> rw [q1, q2]
      · exact .error h
      ·
        refine .ok ?_
        have h1 := h.construct
        have hp := parE_congr hp
        have ht := parE_congr ht
        simp only [parE] at hp ht
        simp only [Document.eraseCr, Document.mk.injEq] at h1 ⊢
        grind

theorem fromStr_crlf (s : Str) (h : SelfContained s) (hn : NoEscapedNewline s) :
    eraseCrRes Document.eraseCr (fromStr (toCrlf s)) = eraseCrRes Document.eraseCr (fromStr s) := by
  simp only [fromStr, Ast2.fromStr_crlf s h hn]
  rcases Ast2.fromStr s with e | d
  · simp only [crlfRes, eraseCrRes, eraseCr_crlfFail]
  · exact tryFrom_crlf d

end Ast3
end LatexAst
