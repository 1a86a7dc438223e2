import Verif.Proofs.Crlf2
import Verif.Model.Conv3

/-! # Windows line ends: paragraphs -/

namespace LatexAst
open Spec

theorem dropCr_append (a b : Str) : dropCr (a ++ b) = dropCr a ++ dropCr b := by simp [dropCr]
theorem dropCr_idem (s : Str) : dropCr (dropCr s) = dropCr s := by simp [dropCr]
theorem dropCr_cons {c : Char} (h : c ≠ '\r') (s : Str) : dropCr (c :: s) = c :: dropCr s := by simp [dropCr, h]
theorem dropCr_cr (s : Str) : dropCr ('\r' :: s) = dropCr s := by simp [dropCr]
theorem dropCr_nil : dropCr [] = [] := rfl
theorem dropCr_toCrlf (s : Str) : dropCr (toCrlf s) = dropCr s := by
  induction s with
  | nil => rfl
  | cons c s ih =>
    by_cases h : c = '\n'
    · subst h; rw [toCrlf_nl, dropCr_cr, dropCr_cons (by decide), dropCr_cons (by decide), ih]
    · rw [toCrlf_cons h]
      by_cases h : c = '\r'
      · subst h; rw [dropCr_cr, dropCr_cr, ih]
      · rw [dropCr_cons h, dropCr_cons h, ih]

namespace Ast3

theorem eraseCrs_append (a b : List Chunk) : eraseCrs (a ++ b) = eraseCrs a ++ eraseCrs b := by
  induction a with
  | nil => rfl
  | cons c a ih => simp only [List.cons_append, eraseCrs]; split <;> simp [ih]

theorem paragraphs_append (a b : List Chunk) : paragraphs (a ++ b) = paragraphs a ++ paragraphs b := by
  induction a with
  | nil => rfl
  | cons c a ih => simp [paragraphs, ih]

mutual
theorem Chunk.eraseCr_idem : ∀ c : Chunk, c.eraseCr.eraseCr = c.eraseCr
  | .mk _ (.text s) => by simp [Chunk.eraseCr, ChunkVariant.eraseCr, dropCr_idem]
  | .mk _ (.paragraphBreak s) => by simp [Chunk.eraseCr, ChunkVariant.eraseCr, dropCr_idem]
  | .mk _ (.mathsBlock (.mk v t cs)) => by
    simp [Chunk.eraseCr, ChunkVariant.eraseCr, MathsBlock.eraseCr, eraseCrs_idem cs]
  | .mk _ (.command (.mk l a)) => by
    simp [Chunk.eraseCr, ChunkVariant.eraseCr, Command.eraseCr, dropCr_idem, eraseCrArgs_idem a]
  | .mk _ (.scope (.mk cs v)) => by simp [Chunk.eraseCr, ChunkVariant.eraseCr, Scope.eraseCr, eraseCrs_idem cs]
  | .mk _ (.environment (.mk l a c x y)) => by
    simp [Chunk.eraseCr, ChunkVariant.eraseCr, Environment.eraseCr, dropCr_idem, eraseCrArgs_idem a, eraseCrs_idem c]
theorem eraseCrs_idem : ∀ cs : List Chunk, eraseCrs (eraseCrs cs) = eraseCrs cs
  | [] => rfl
  | c :: cs => by
    simp only [eraseCrs]
    by_cases h : c.onlyCr = true
    · rw [if_pos h, eraseCrs_idem cs]
    · have : c.eraseCr.onlyCr = c.onlyCr := by
        obtain ⟨l, v⟩ := c
        cases v <;> simp [Chunk.eraseCr, ChunkVariant.eraseCr, Chunk.onlyCr, dropCr_idem]
      rw [if_neg h]
      simp only [eraseCrs, this]
      rw [if_neg h, Chunk.eraseCr_idem c, eraseCrs_idem cs]
theorem eraseCrArgs_idem : ∀ a : List (Str × Scope), eraseCrArgs (eraseCrArgs a) = eraseCrArgs a
  | [] => rfl
  | (p, .mk cs v) :: r => by simp [eraseCrArgs, Scope.eraseCr, dropCr_idem, eraseCrs_idem cs, eraseCrArgs_idem r]
end

/-- The state `s'` of splitting a text, and the state `s` of splitting it without its carriage returns. -/
structure ParRel (s' s : ParState) : Prop where
  out : eraseCrs s'.out = eraseCrs s.out
  lineNo : s'.lineNo = s.lineNo
  bufferLine : s'.bufferLine = s.bufferLine
  textLine : s'.textBufferLine = s.textBufferLine
  consec : s'.consec = s.consec
  text : s.textBuffer = dropCr s'.textBuffer
  buffer : s.buffer = dropCr s'.buffer
  empty' : s'.buffer = [] ↔ s.consec = 0
  empty : s.buffer = [] ↔ s.consec = 0
  zero : s.textBuffer = [] → s.consec = 0 → s.textBufferLine = s.lineNo
  one : s.textBuffer = [] → s.consec = 1 → s.textBufferLine = s.bufferLine

theorem eraseCrs_text (l : Nat) (s : Str) : eraseCrs [.mk l (.text s)] = if dropCr s = [] then [] else [.mk l (.text (dropCr s))] := by
  by_cases h : dropCr s = [] <;> simp [eraseCrs, Chunk.onlyCr, Chunk.eraseCr, ChunkVariant.eraseCr, h]
theorem eraseCrs_break (l : Nat) (s : Str) : eraseCrs [.mk l (.paragraphBreak s)] = [.mk l (.paragraphBreak (dropCr s))] := by
  simp [eraseCrs, Chunk.onlyCr, Chunk.eraseCr, ChunkVariant.eraseCr]

theorem eraseCrs_emit (l : Nat) (s : Str) (out : List Chunk) :
    eraseCrs (if s.isEmpty then out else out ++ [.mk l (.text s)]) = eraseCrs out ++ eraseCrs [.mk l (.text s)] := by
  cases s with
  | nil => simp [eraseCrs_text, dropCr_nil]
  | cons c s => simp [eraseCrs_append]

theorem parStep_cr {s' s : ParState} (h : ParRel s' s) : ParRel (parStep s' '\r') s := by
  obtain ⟨out', l', tb', tbl', b', bl', k'⟩ := s'
  obtain ⟨out, l, tb, tbl, b, bl, k⟩ := s
  obtain ⟨h1, h2, h3, h4, h5, h6, h7, h8, h9, h10, h11⟩ := h
  simp only at *
  have w : isWhitespace '\r' = true := by decide
  by_cases hk : k' = 0
  · simp only [parStep]
    rw [if_neg (by simp), if_neg (by decide), if_pos ⟨w, hk⟩]
    refine ⟨h1, h2, h3, h4, by omega, ?_, h7, h8, h9, h10, h11⟩
    simp [dropCr_append, h6, dropCr_cr, dropCr_nil]
  · simp only [parStep]
    rw [if_neg (by simp), if_neg (by decide), if_neg (fun h => hk h.2), if_pos w]
    refine ⟨h1, h2, h3, h4, h5, h6, ?_, ?_, h9, h10, h11⟩
    · simp [dropCr_append, h7, dropCr_cr, dropCr_nil]
    · simp; omega

theorem parStep_same {s' s : ParState} (h : ParRel s' s) {c : Char} (hc : c ≠ '\r') : ParRel (parStep s' c) (parStep s c) := by
  obtain ⟨out', l', tb', tbl', b', bl', k'⟩ := s'
  obtain ⟨out, l, tb, tbl, b, bl, k⟩ := s
  obtain ⟨h1, h2, h3, h4, h5, h6, h7, h8, h9, h10, h11⟩ := h
  simp only at *
  have e : ∀ x : Str, dropCr (x ++ [c]) = dropCr x ++ [c] := fun x => by rw [dropCr_append, dropCr_cons hc]; rfl
  subst h2 h3 h4 h5 h6 h7
  simp only [parStep]
  by_cases c1 : c = '\n' ∧ k' = 1
  · rw [if_pos c1, if_pos c1]
    refine ⟨?_, rfl, rfl, rfl, rfl, rfl, (e _).symm, ?_, ?_, ?_, ?_⟩ <;> simp only
    · rw [eraseCrs_emit, eraseCrs_emit, h1, eraseCrs_text, eraseCrs_text, dropCr_idem]
    · simp
    · simp
    · intro _ h; omega
    · intro _ h; omega
  rw [if_neg c1, if_neg c1]
  by_cases c2 : c = '\n'
  · rw [if_pos c2, if_pos c2]
    refine ⟨h1, rfl, rfl, rfl, rfl, rfl, (e _).symm, ?_, ?_, ?_, ?_⟩ <;> simp only
    · simp
    · simp
    · intro _ h; omega
    · intro ht hk; exact h10 ht (by omega)
  rw [if_neg c2, if_neg c2]
  by_cases c3 : isWhitespace c = true ∧ k' = 0
  · rw [if_pos c3, if_pos c3]
    exact ⟨h1, rfl, rfl, rfl, rfl, (e _).symm, rfl, h8, h9, by simp, by simp⟩
  rw [if_neg c3, if_neg c3]
  by_cases c4 : isWhitespace c = true
  · rw [if_pos c4, if_pos c4]
    have hk : k' ≠ 0 := fun h => c3 ⟨c4, h⟩
    exact ⟨h1, rfl, rfl, rfl, rfl, rfl, (e _).symm, by simpa using hk, by simpa using hk, h10, h11⟩
  rw [if_neg c4, if_neg c4]
  by_cases c5 : k' = 0
  · rw [if_pos c5, if_pos c5]
    refine ⟨h1, rfl, rfl, ?_, rfl, (e _).symm, rfl, h8, h9, by simp, by simp⟩
    simp only
    by_cases hd : dropCr tb' = []
    · have := h10 hd c5
      rw [hd]; simp only [List.isEmpty_nil, if_true]
      split <;> simp [this]
    · have : tb' ≠ [] := fun e => hd (by rw [e]; rfl)
      simp [hd, this]
  rw [if_neg c5, if_neg c5]
  by_cases c6 : k' = 1
  · rw [if_pos c6, if_pos c6]
    refine ⟨h1, rfl, rfl, ?_, rfl, ?_, rfl, by simp, by simp [dropCr_nil], by simp, by simp⟩ <;> simp only
    · by_cases hd : dropCr tb' = []
      · have := h11 hd c6
        rw [hd]; simp only [List.isEmpty_nil, if_true]
        split <;> simp [this]
      · have : tb' ≠ [] := fun e => hd (by rw [e]; rfl)
        simp [hd, this]
    · rw [e, dropCr_append]
  rw [if_neg c6, if_neg c6]
  refine ⟨?_, rfl, rfl, rfl, rfl, (e _).symm, rfl, by simp, by simp [dropCr_nil], by simp, by simp⟩
  simp only [eraseCrs_append, h1, eraseCrs_break, dropCr_idem]

theorem parRun_dropCr {t : Str} : ∀ {s' s : ParState}, ParRel s' s → ParRel (parRun t s') (parRun (dropCr t) s) := by
  induction t with
  | nil => exact id
  | cons c t ih =>
    intro s' s h
    by_cases hc : c = '\r'
    · subst hc; rw [dropCr_cr]; exact ih (parStep_cr h)
    · rw [dropCr_cons hc]; exact ih (parStep_same h hc)

theorem parFinish_dropCr {s' s : ParState} (h : ParRel s' s) : eraseCrs (parFinish s') = eraseCrs (parFinish s) := by
  obtain ⟨out', l', tb', tbl', b', bl', k'⟩ := s'
  obtain ⟨out, l, tb, tbl, b, bl, k⟩ := s
  obtain ⟨h1, h2, h3, h4, h5, h6, h7, h8, h9, h10, h11⟩ := h
  simp only at *
  subst h2 h3 h4 h5 h6 h7
  have eb : (List.isEmpty b' = false) ↔ (List.isEmpty (dropCr b') = false) := by
    simp only [List.isEmpty_eq_false_iff, ne_eq, h8, h9]
  simp only [parFinish]
  by_cases c1 : b'.isEmpty = false
  · rw [if_pos c1, if_pos (eb.1 c1)]
    split
    · simp only [eraseCrs_append, h1, eraseCrs_break, dropCr_idem]
    · rw [eraseCrs_emit, eraseCrs_emit, h1, eraseCrs_text, eraseCrs_text]; simp [dropCr_append, dropCr_idem]
  · rw [if_neg c1, if_neg (fun h => c1 (eb.2 h))]
    have eb' : b' = [] := by simpa using c1
    subst eb'
    have e : ∀ (x y : Str) (o : List Chunk), y = [] → eraseCrs (if x.isEmpty = false then
        (if (x ++ y).isEmpty then o else o ++ [.mk tbl' (.text (x ++ y))]) else o) =
        eraseCrs o ++ eraseCrs [.mk tbl' (.text x)] := by
      intro x y o hy
      subst hy
      cases x with
      | nil => simp [eraseCrs_text, dropCr_nil]
      | cons c x => simp [eraseCrs_append]
    refine (e tb' [] out' rfl).trans (Eq.trans ?_ (e (dropCr tb') (dropCr []) out rfl).symm)
    rw [h1, eraseCrs_text, eraseCrs_text, dropCr_idem]

theorem parRel_init (l : Nat) : ParRel (ParState.init l) (ParState.init l) := by
  refine ⟨rfl, rfl, rfl, rfl, rfl, rfl, rfl, ?_, ?_, ?_, ?_⟩ <;> simp [ParState.init]

theorem paragraph_dropCr (l : Nat) (t : Str) :
    eraseCrs (paragraphChunk (.mk l (.text t))) = eraseCrs (paragraphChunk (.mk l (.text (dropCr t)))) :=
  parFinish_dropCr (parRun_dropCr (parRel_init l))

/-- Splitting into paragraphs, up to carriage returns. -/
def parE (cs : List Chunk) : List Chunk := eraseCrs (paragraphs cs)

theorem parE_append (a b : List Chunk) : parE (a ++ b) = parE a ++ parE b := by
  rw [parE, paragraphs_append, eraseCrs_append]; rfl

theorem parE_text (l : Nat) (t : Str) : parE [.mk l (.text t)] = parE [.mk l (.text (dropCr t))] := by
  simpa [parE, paragraphs] using paragraph_dropCr l t

theorem parE_crlf (l : Nat) (t : Str) : parE [.mk l (.text (toCrlf t))] = parE [.mk l (.text t)] := by
  rw [parE_text, dropCr_toCrlf, ← parE_text]

theorem parE_other {l : Nat} {v : ChunkVariant} (h : ∀ t, v ≠ .text t) : parE [.mk l v] = [.mk l v.eraseCr] := by
  cases v <;> first | exact absurd rfl (h _) | simp [parE, paragraphs, paragraphChunk, eraseCrs, Chunk.onlyCr, Chunk.eraseCr]

theorem parE_erase (cs : List Chunk) : parE (eraseCrs cs) = parE cs := by
  induction cs with
  | nil => rfl
  | cons c cs ih =>
    have e : c :: cs = [c] ++ cs := rfl
    rw [e, eraseCrs_append, parE_append, parE_append, ih]
    congr 1
    obtain ⟨l, v⟩ := c
    by_cases hv : ∃ t, v = .text t
    · obtain ⟨t, rfl⟩ := hv
      rw [eraseCrs_text, parE_text l t]
      split
      · rename_i h; rw [h]; rfl
      · rfl
    · have hv : ∀ t, v ≠ .text t := fun t e => hv ⟨t, e⟩
      have : eraseCrs [.mk l v] = [.mk l v.eraseCr] := by
        cases v <;> first | exact absurd rfl (hv _) | simp [eraseCrs, Chunk.onlyCr, Chunk.eraseCr]
      rw [this, parE_other hv, parE_other]
      · have := Chunk.eraseCr_idem (.mk l v)
        simp only [Chunk.eraseCr] at this
        rw [this]
      · intro t
        cases v <;> simp [ChunkVariant.eraseCr] at hv ⊢

theorem parE_congr {a b : List Chunk} (h : eraseCrs a = eraseCrs b) : parE a = parE b := by
  rw [← parE_erase a, h, parE_erase]

end Ast3
end LatexAst
