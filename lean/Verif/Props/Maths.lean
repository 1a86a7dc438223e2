import Verif.Proofs.MathsText
import Verif.Proofs.Document3Facts
import Verif.Model.Eq3

/-!
# Stage 3: maths (C36, C37)

`mathsFromChunks` is `MathsBlock::from_chunks`. Stated with `Verif.Spec.Maths`: `segmentsSource`/`segmentsChunks`
(texts made of dollar-free pieces and `$x$`, `$$x$$`), `OpenDollar`, `Converts` and `Rejected`.
-/

namespace LatexAst.Ast3
open Spec

/-! ### C36 -/

/-- C36: a text made of dollar-free pieces and `$x$`, `$$x$$` becomes these pieces and these maths blocks, in order,
each on the line where it starts, split into paragraphs. -/
theorem C36 (l : Nat) (p : Str) (segs : List (Segment × Str)) (hl : 1 ≤ l) (hp : '$' ∉ p)
    (hs : ∀ s q, (s, q) ∈ segs → Segment.Ok s ∧ '$' ∉ q) :
    mathsFromChunks [.mk l (.text (segmentsSource p segs))] = .ok (paragraphs (segmentsChunks l p segs)) :=
  mathsFromChunks_converts (strict := true) (converts_segments hl hp hs)

/-- C36: likewise between other chunks that are well formed. -/
theorem C36_context (l : Nat) (p : Str) (segs : List (Segment × Str)) (hl : 1 ≤ l) (hp : '$' ∉ p)
    (hs : ∀ s q, (s, q) ∈ segs → Segment.Ok s ∧ '$' ∉ q) (pre post : List Ast2.Chunk) (a b : List Chunk)
    (ha : Converts false pre a) (hb : Converts false post b) :
    mathsFromChunks (pre ++ [.mk l (.text (segmentsSource p segs))] ++ post) =
      .ok (paragraphs (a ++ segmentsChunks l p segs ++ b)) :=
  mathsFromChunks_converts (converts_append (converts_append ha (converts_segments hl hp hs)) hb)

theorem fromStr_plain {s : Str} (hs : Sanitised s) : fromStr s = tryFrom (if s = [] then [] else [.mk 1 (.text s)]) := by
  unfold fromStr Ast2.fromStr
  rw [(Ast1.C13 s hs).1]
  by_cases h : s = []
  · subst h; rfl
  · rw [if_neg h, if_neg h]; rfl

theorem fromStr_plain' {s : Str} (hs : Sanitised s) : fromStr s =
    (match mathsFromChunks (if s = [] then [] else [.mk 1 (.text s)]) with
      | .error f => .error f
      | .ok pre => .ok { Document.default with preamable := pre }) := by
  rw [fromStr_plain hs]
  by_cases h : s = []
  · subst h; rfl
  · rw [if_neg h]
    rw [tryFrom_no_body (e := [.mk 1 (.text s)]) (by intro c hc; simp at hc; subst hc; rfl)
      (by intro a l args b h; rcases a with _ | ⟨x, a⟩ <;> simp at h)]
    rfl

/-- C36: from the source. -/
theorem C36_source (p : Str) (segs : List (Segment × Str)) (hp : '$' ∉ p)
    (hs : ∀ s q, (s, q) ∈ segs → Segment.Ok s ∧ '$' ∉ q) (hsan : Sanitised (segmentsSource p segs)) :
    fromStr (segmentsSource p segs) =
      .ok { Document.default with preamable := paragraphs (segmentsChunks 1 p segs) } := by
  rw [fromStr_plain' hsan]
  by_cases h : segmentsSource p segs = []
  · have hseg : segs = [] := by
      rcases segs with _ | ⟨⟨s, q⟩, r⟩
      · rfl
      · simp [segmentsSource, Segment.source] at h
        rcases s with ⟨t, x⟩
        cases t <;> simp [dollarsOf] at h
    subst hseg
    have : p = [] := by simpa [segmentsSource] using h
    subst this
    rfl
  · rw [if_neg h, C36 1 p segs (Nat.le_refl 1) hp hs]

/-- C36: a text with an odd number of dollar signs is rejected. -/
theorem C36_odd (l : Nat) (t : Str) (hl : 1 ≤ l) (h : t.count '$' % 2 = 1) :
    mathsFromChunks [.mk l (.text t)] = .error (.err ⟨0, .unclosedMaths⟩) := by
  rcases text_total t.length t l (Nat.le_refl _) hl with ⟨out, ho⟩ | ho
  · have := odd_dollars (mathsFromChunks_converts ho)
    simp [dollarCount] at this
    omega
  · exact openDollar_error hl ho

/-- C36: likewise from the source. -/
theorem C36_odd_source (t : Str) (hs : Sanitised t) (h : t.count '$' % 2 = 1) :
    fromStr t = .error (.err ⟨0, .unclosedMaths⟩) := by
  have hne : t ≠ [] := by intro h0; subst h0; simp at h
  rw [fromStr_plain' hs, if_neg hne, C36_odd 1 t (Nat.le_refl 1) h]

/-- C36: a sequence of chunks whose texts contain an odd number of dollar signs is never accepted. -/
theorem C36_odd_chunks (cs : List Ast2.Chunk) (h : dollarCount cs % 2 = 1) :
    ¬ ∃ out, mathsFromChunks cs = .ok out := by
  rintro ⟨out, ho⟩
  have := odd_dollars ho
  omega

/-- C36: every text is accepted, with the blocks `Converts` says, or has an unclosed dollar and is rejected. -/
theorem C36_total (l : Nat) (t : Str) (hl : 1 ≤ l) :
    (∃ out, Converts false [.mk l (.text t)] out ∧ mathsFromChunks [.mk l (.text t)] = .ok (paragraphs out)) ∨
    (OpenDollar t ∧ mathsFromChunks [.mk l (.text t)] = .error (.err ⟨0, .unclosedMaths⟩)) := by
  rcases text_total t.length t l (Nat.le_refl _) hl with ⟨out, ho⟩ | ho
  · exact .inl ⟨out, ho, mathsFromChunks_converts ho⟩
  · exact .inr ⟨ho, openDollar_error hl ho⟩

/-- `a$x\ny$b$$z$$` -/
example : segmentsSource chars!"a" [(⟨.inline, chars!"x\ny"⟩, chars!"b"), (⟨.outline, chars!"z"⟩, [])] = chars!"a$x\ny$b$$z$$" ∧
    (∀ s q, (s, q) ∈ [(Segment.mk .inline chars!"x\ny", chars!"b"), (Segment.mk .outline chars!"z", [])] → Segment.Ok s ∧ '$' ∉ q) ∧
    segmentsChunks 1 chars!"a" [(⟨.inline, chars!"x\ny"⟩, chars!"b"), (⟨.outline, chars!"z"⟩, [])] =
      [.mk 1 (.text chars!"a"), .mk 1 (.mathsBlock (.mk .dollars .inline [.mk 1 (.text chars!"x\ny")])),
       .mk 2 (.text chars!"b"), .mk 2 (.mathsBlock (.mk .dollars .outline [.mk 1 (.text chars!"z")]))] := by
  refine ⟨by decide, ?_, by decide +kernel⟩
  intro s q h
  simp at h
  rcases h with ⟨rfl, rfl⟩ | ⟨rfl, rfl⟩ <;> simp [Segment.Ok]

example : Sanitised chars!"a$x" ∧ (chars!"a$x").count '$' % 2 = 1 := by
  constructor
  · simp [Sanitised, Special]
  · decide

/-! ### C37 -/

/-- C37, what is proved: a dollar-free sequence is accepted exactly when its brackets match (`Converts false`), and the
result is then the one described there: what stands between `\(` and `\)` becomes the content of one inline block,
what stands between `\[` and `\]` of one display block, except that nested delimiters of the same kind are dropped
(`Inside`); it is rejected exactly when they do not match, with the first problem. Missing: the nested delimiters are
not part of the content (`C37_false`). -/
theorem C37_partial (cs : List Ast2.Chunk) (h : DollarFree cs) :
    (∀ r, mathsFromChunks cs = .ok r ↔ ∃ out, Converts false cs out ∧ r = paragraphs out) ∧
    (∀ e, mathsFromChunks cs = .error (.err e) ↔ Rejected cs e) ∧
    ((∃ r, mathsFromChunks cs = .ok r) ∨ ∃ e, mathsFromChunks cs = .error (.err e)) := by
  rcases dollarFree_total (sizeChunks cs) cs (Nat.le_refl _) h with ⟨out, ho⟩ | ⟨e, he⟩
  · have hm := mathsFromChunks_converts ho
    refine ⟨fun r => ⟨?_, ?_⟩, fun e => ⟨?_, ?_⟩, .inl ⟨_, hm⟩⟩
    · intro hr
      rw [hm] at hr
      cases hr
      exact ⟨out, ho, rfl⟩
    · rintro ⟨o, ho', rfl⟩
      exact mathsFromChunks_converts ho'
    · intro hr; rw [hm] at hr; cases hr
    · intro hr; rw [mathsFromChunks_rejected hr] at hm; cases hm
  · have hm := mathsFromChunks_rejected he
    refine ⟨fun r => ⟨?_, ?_⟩, fun e => ⟨?_, ?_⟩, .inr ⟨_, hm⟩⟩
    · intro hr; rw [hm] at hr; cases hr
    · rintro ⟨o, ho', rfl⟩
      rw [mathsFromChunks_converts ho'] at hm; cases hm
    · intro hr
      rw [hm] at hr
      cases hr
      exact he
    · exact mathsFromChunks_rejected

/-- C37, when bracket maths contains no brackets of its own kind: the whole body is the content of one block of the
right type, on the line of the opening command. -/
theorem C37_block_partial (k : MathsType) (l l' : Nat) (body : List Ast2.Chunk) (content : List Chunk)
    (hk : ∀ c ∈ body, NotOfKind k c) (h : Converts false body content) (pre post : List Ast2.Chunk) (a b : List Chunk)
    (ha : Converts false pre a) (hb : Converts false post b) :
    mathsFromChunks (pre ++ .mk l (.command (.mk (openLabel k) [])) :: (body ++ .mk l' (.command (.mk (closeLabel k) [])) :: post)) =
      .ok (paragraphs (a ++ .mk l (.mathsBlock (.mk .brackets k (paragraphs content))) :: b)) := by
  have hi : ∀ body : List Ast2.Chunk, (∀ c ∈ body, NotOfKind k c) → Inside k body body := by
    intro body
    induction body with
    | nil => intro _; exact .nil
    | cons c cs ih => intro h; exact .other (h c (by simp)) (ih fun c hc => h c (by simp [hc]))
  exact mathsFromChunks_converts (converts_append ha (.brackets (hi body hk) (by simp) h hb))

/-- C37 as stated is false of the code: the delimiters of nested maths of the same kind disappear. -/
theorem C37_false : (fromStr chars!"\\(a\\(b\\)c\\)").map (fun d => d.preamable) =
    .ok [.mk 1 (.mathsBlock (.mk .brackets .inline [.mk 1 (.text chars!"a"), .mk 1 (.text chars!"b"), .mk 1 (.text chars!"c")]))] := by
  decide +kernel

/-- `a\(b\[c\]\)` is accepted, `a\(b\]` and `\)` are not. -/
example : (∃ e, Ast2.fromStr chars!"a\\(b\\[c\\]\\)" = .ok e ∧ DollarFree e ∧ ∃ r, mathsFromChunks e = .ok r) ∧
    fromStr chars!"a\\(b\\]" = .error (.err ⟨1, .unclosedMaths⟩) ∧
    fromStr chars!"a\n\\)" = .error (.err ⟨2, .unexpectedMathsEnd⟩) := by
  refine ⟨⟨[.mk 1 (.text ['a']), .mk 1 (.command (.mk ['('] [])), .mk 1 (.text ['b']), .mk 1 (.command (.mk ['['] [])),
    .mk 1 (.text ['c']), .mk 1 (.command (.mk [']'] [])), .mk 1 (.command (.mk [')'] []))], by decide +kernel, ?_,
    [.mk 1 (.text ['a']), .mk 1 (.mathsBlock (.mk .brackets .inline [.mk 1 (.text ['b']),
      .mk 1 (.mathsBlock (.mk .brackets .outline [.mk 1 (.text ['c'])]))]))], by decide +kernel⟩, by decide +kernel, by decide +kernel⟩
  intro t ht
  cases ht with
  | here h => simp at h; rcases h with ⟨_, rfl⟩ | ⟨_, rfl⟩ | ⟨_, rfl⟩ <;> simp
  | scope h => simp at h
  | arg h ha => simp at h; rcases h with ⟨_, _, rfl⟩ | ⟨_, _, rfl⟩ | ⟨_, _, rfl⟩ | ⟨_, _, rfl⟩ <;> simp at ha
  | envArg h => simp at h
  | envContent h => simp at h

end LatexAst.Ast3
