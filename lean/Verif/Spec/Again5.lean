import Verif.Spec.Again4

/-!
# Specification: what follows the document environment, going from stage 3 to stage 2 and back

There, and only there, going to stage 2 puts texts together that come to stand next to each other. So they are cut up anew on the way
back, and a formula in dollar signs keeps all of its text.
-/

namespace LatexAst.Ast3
open Spec

/-- The chunks `ps` are the text `t`, cut up into paragraphs. -/
def CutsTo (t : Str) (ps : List Chunk) : Prop := Cut false (ps.map Chunk.variant) ∧ displayChunks ps = t

/-- `Rejoins p cs out`: the chunks `cs`, after the text `p`, become `out` (apart from line numbers) if they go to stage 2, texts that
stand next to each other there are put together, and they come back. -/
inductive Rejoins : Str → List Chunk → List Chunk → Prop
  | nil {p ps} : CutsTo p ps → Rejoins p [] ps
  | piece {p c rest out} : IsPiece c → Rejoins (p ++ c.variant.display) rest out → Rejoins p (c :: rest) out
  /-- in commands, scopes and environments nothing is put together -/
  | other {p ps c c' rest out} : CutsTo p ps → (∀ t, c.variant ≠ .text t) → (∀ t, c.variant ≠ .paragraphBreak t) →
      (∀ m, c.variant ≠ .mathsBlock m) → Resettles [c] [c'] → Rejoins [] rest out → Rejoins p (c :: rest) (ps ++ c' :: out)
  | brackets {p ps l k content content' rest out} : CutsTo p ps → Without k content → (∃ x, Resettles content x) → Rejoins [] content content' →
      Rejoins [] rest out →
      Rejoins p (.mk l (.mathsBlock (.mk .brackets k content)) :: rest) (ps ++ .mk l (.mathsBlock (.mk .brackets k content')) :: out)
  /-- in a formula in dollar signs what is not text comes first, and its text is put together -/
  | dollars {p ps l k ms ms' pieces qs rest out} : CutsTo p ps → Textless ms → Resettles ms ms' → (∀ c ∈ pieces, IsPiece c) →
      (k = .inline → ms ++ pieces ≠ []) → CutsTo (displayChunks pieces) qs → Rejoins [] rest out →
      Rejoins p (.mk l (.mathsBlock (.mk .dollars k (ms ++ pieces))) :: rest) (ps ++ .mk l (.mathsBlock (.mk .dollars k (ms' ++ qs))) :: out)

/-- Every run of texts and breaks between paragraphs that is not part of a longer one is one text, cut up. -/
def Runs (cs : List Chunk) : Prop :=
  ∀ a run b, cs = a ++ run ++ b → (∀ c ∈ run, c.IsText) → (∀ a' c, a = a' ++ [c] → ¬ c.IsText) → (∀ c b', b = c :: b' → ¬ c.IsText) →
    Cut false (run.map Chunk.variant)

/-- Chunks that come back the same if texts are put together at stage 2: runs of texts are cut up as one text, also in formulas;
elsewhere it is as in C115. -/
inductive Tidy : List Chunk → Prop
  | mk {cs} : Runs cs → (∀ c ∈ cs, (∀ m, c.variant ≠ .mathsBlock m) → OnePiece [c]) →
      (∀ l k content, .mk l (.mathsBlock (.mk .brackets k content)) ∈ cs → Tidy content) →
      (∀ l k content, .mk l (.mathsBlock (.mk .dollars k content)) ∈ cs → Runs content ∧ OnePiece content) → Tidy cs

/-! ### when it panics -/

/-- The line of the first text or break between paragraphs. -/
def firstTextLine : List Chunk → Option Nat
  | [] => none
  | .mk l (.text _) :: _ => some l
  | .mk l (.paragraphBreak _) :: _ => some l
  | _ :: r => firstTextLine r

/-- The line, in a formula in dollar signs with this content, to which its closing goes if its texts are put together: that of the first
text; without one, it is counted from line 1. -/
def closeLineJoined (content : List Chunk) : Nat := (firstTextLine content).getD (1 + (displayChunks content).count '\n')

/-- Something in the formula that is not text is, at stage 2, numbered more than one line above the closing, texts being put together. -/
def StraysJoined (content : List Chunk) : Prop :=
  ∃ xs x, Unfolds content xs ∧ x ∈ xs ∧ NotText x ∧ x.lineNo + 1 < closeLineJoined content

/-- Nothing strays: among these chunks, and in formulas in brackets, texts are put together; elsewhere it is as in C115. -/
inductive Firm : List Chunk → Prop
  | mk {cs} : (∀ c ∈ cs, (∀ m, c.variant ≠ .mathsBlock m) → EveryDollars (¬ Strays ·) [c]) →
      (∀ l k content, .mk l (.mathsBlock (.mk .brackets k content)) ∈ cs → Firm content) →
      (∀ l k content, .mk l (.mathsBlock (.mk .dollars k content)) ∈ cs → ¬ StraysJoined content ∧ EveryDollars (¬ Strays ·) content) → Firm cs

end LatexAst.Ast3
