import Verif.Proofs.Source1

/-!
# Shape and line numbers of parsed stage-1 documents
-/

namespace LatexAst.Ast1
open Spec

/-- What precedes a chunk in its sequence. -/
inductive Prev where
  | none
  | text
  | letter
  | other
deriving DecidableEq

/-- Label of a letter command: an ASCII letter, then neither whitespace nor special characters. -/
def LetterLabel (l : Str) : Prop :=
  ∃ c r, l = c :: r ∧ isAsciiAlphabetic c = true ∧ ∀ x ∈ r, isWhitespace x = false ∧ ¬ Special x

def TextChar (x : Char) : Prop := x ∉ ['\\', '%', '{', '[', '(']

def kind : Chunk → Prev
  | .mk _ (.text _) => .text
  | .mk _ (.scope _) => .other
  | .mk _ (.command (.mk l _)) => if (match l with | c :: _ => isAsciiAlphabetic c | [] => false) then .letter else .other

def NodeShape : Chunk → Prop
  | .mk _ (.text s) => s ≠ [] ∧ ∀ x ∈ s, TextChar x
  | .mk _ (.scope (.mk _ sv)) => sv = .curly
  | .mk _ (.command (.mk l args)) =>
    (LetterLabel l ∧ ∀ p s, (p, s) ∈ args → Blank p) ∨
    (∃ c, l = [c] ∧ isAsciiAlphabetic c = false ∧ args = [])

/-- Error of a chunk's line number. -/
def offset (prev : Prev) (c : Chunk) (last : Bool) : Nat :=
  match c with
  | .mk _ (.text s) => if prev = .letter ∧ last = true ∧ s.all isWhitespace = true then newlines s else 0
  | .mk _ (.command (.mk l _)) => if l = ['\n'] then 1 else 0
  | .mk _ (.scope _) => 0

def GoodR : Prev → Nat → List Chunk → Prop
  | _, _, [] => True
  | prev, n, c :: cs =>
    c.lineNo = n + offset prev c cs.isEmpty ∧ NodeShape c ∧ (kind c = .text → prev ≠ .text) ∧
    GoodR (kind c) (n + newlines c.display) cs

/-- Shape invariant of the buffer. -/
def Buffer.Shape (prev : Prev) : Buffer → Prop
  | .text a => (∀ x ∈ a, TextChar x) ∧ prev ≠ .text ∧ (prev = .letter → a.all isWhitespace = false)
  | .scope _ _ _ => True
  | .command l sc _ tr => LetterLabel l ∧ Blank tr ∧ ∀ a v p, (a, v, p) ∈ sc → Blank p

theorem isWhitespace_textChar {c : Char} (h : isWhitespace c = true) : TextChar c := by
  simp only [TextChar, List.mem_cons, List.not_mem_nil, or_false]
  rintro (rfl | rfl | rfl | rfl | rfl) <;> revert h <;> decide

theorem not_special_of {c : Char} (h1 : ScopeVariant.fromOpening c = none)
    (h2 : ScopeVariant.fromClosing c = none) (h3 : c ≠ '%') (h4 : c ≠ '\\') : ¬ Special c := by
  simp only [ScopeVariant.fromOpening, ScopeVariant.fromClosing] at h1 h2
  simp only [Special, List.mem_cons, List.not_mem_nil, or_false]
  grind

theorem textChar_of {c : Char} (h1 : ScopeVariant.fromOpening c = none)
    (h3 : c ≠ '%') (h4 : c ≠ '\\') : TextChar c := by
  simp only [ScopeVariant.fromOpening] at h1
  simp only [TextChar, List.mem_cons, List.not_mem_nil, or_false]
  grind

theorem evalArgs_blank {rec sc args} (h : evalArgs rec sc = .ok args)
    (hb : ∀ a v p, (a, v, p) ∈ sc → Blank p) : ∀ p s, (p, s) ∈ args → Blank p := by
  intro p s hm
  obtain ⟨a, v, cs, h1, _, _⟩ := evalArgs_ok h hm
  exact hb a v p h1

/-- Line bookkeeping: the buffer starts on line `bl` and the parser is on line `ln`. -/
def J (b : Buffer) (bl ln : Nat) : Prop := bl + newlines b.raw = ln

theorem alpha_ne_nl {c : Char} (h : isAsciiAlphabetic c = true) : c ≠ '\n' := by
  rintro rfl; revert h; decide
theorem nonws_ne_nl {c : Char} (h : isWhitespace c = false) : c ≠ '\n' := by
  rintro rfl; revert h; decide

theorem J_start (c : Char) (ln : Nat) : J (startB c) ln ln := by
  unfold J startB
  split
  · rename_i h
    have := alpha_ne_nl h
    simp [Buffer.raw, rawScopes, newlines, this]
  · simp [Buffer.raw, newlines]

theorem newlines_nil : newlines [] = 0 := rfl
theorem newlines_single (c : Char) : newlines [c] = if c = '\n' then 1 else 0 := by
  by_cases h : c = '\n' <;> simp [newlines, h]
theorem newlines_esc (c : Char) : newlines ['\\', c] = if c = '\n' then 1 else 0 := by
  by_cases h : c = '\n' <;> simp [newlines, h]

theorem TStep.J {rec b bl ln t new b' bl'} (hJ : J b bl ln)
    (h : TStep rec bl (lnAfter ln t) b t new b' bl') : J b' bl' (lnAfter ln t) := by
  have hop : ∀ v : ScopeVariant, v.opening ≠ '\n' := fun v => by cases v <;> decide
  have hcl : ∀ v : ScopeVariant, v.closing ≠ '\n' := fun v => by cases v <;> decide
  cases h
  case tEsc => exact J_start _ _
  case cEsc => exact J_start _ _
  case cTrail l sc tr c args h hw ht ha =>
    have := nonws_ne_nl hw
    simp only [Ast1.J, Buffer.raw, lnAfter, newlines_append, newlines_single, this, if_false] at hJ ⊢
    omega
  case cNext l sc c args h hw hc hs ha =>
    have := nonws_ne_nl hw
    simp only [Ast1.J, Buffer.raw, lnAfter, newlines_append, newlines_single, this, if_false] at hJ ⊢
    omega
  all_goals
    simp only [Ast1.J, Buffer.raw, lnAfter, newlines_append, newlines_single, newlines_nil, hop, hcl,
      if_false, rawScopes, rawScopes_append, newlines_esc] at hJ ⊢
  all_goals
    try split
  all_goals omega

theorem lnAfter_eq (ln : Nat) (t : Tok) : lnAfter ln t = ln + newlines [t.2] := by
  rw [newlines_single]; unfold lnAfter; split <;> rfl

def RecLines (rec : Str → Res (List Chunk)) : Prop :=
  ∀ a cs, Clean a → rec a = .ok cs → newlines (displayChunks cs) = newlines a

theorem recLines_filter {rec} (h : RecLines rec) : ∀ a cs, Clean a → rec a = .ok cs →
    (displayChunks cs).filter (fun c => c == '\n') = a.filter (fun c => c == '\n') := by
  intro a cs ha hr
  have := h a cs ha hr
  have rep : ∀ s : Str, s.filter (fun c => c == '\n') = List.replicate (newlines s) '\n' := by
    intro s
    rw [List.eq_replicate_iff]
    refine ⟨rfl, ?_⟩
    intro b hb; simp at hb; exact hb.2
  rw [rep, rep, this]

theorem newlines_filter (s : Str) : newlines s = (s.filter (fun c => c == '\n')).length := rfl

theorem TStep.newlines {rec b bl ln t new b' bl'} (hrec : RecLines rec) (hb : b.CleanContents)
    (h : TStep rec bl ln b t new b' bl') :
    newlines (displayChunks new) + newlines b'.raw = newlines b.raw + newlines [t.2] := by
  have := congrArg List.length (h.filter vis_newline (recLines_filter hrec) hb)
  simpa [Ast1.newlines_filter, List.length_append, newlines_filter] using this

theorem TStep.bl {rec b bl ln t new b' bl'} (hrec : RecLines rec) (hb : b.CleanContents)
    (hJ : Ast1.J b bl ln) (h : TStep rec bl (lnAfter ln t) b t new b' bl') :
    bl' = bl + LatexAst.newlines (displayChunks new) := by
  have h1 := h.newlines hrec hb
  have h2 := h.J hJ
  rw [lnAfter_eq] at h2
  unfold Ast1.J at h2 hJ
  omega

theorem newlines_args {rec sc args} (hrec : RecLines rec) (hcl : ∀ a v p, (a, v, p) ∈ sc → Clean a)
    (h : evalArgs rec sc = .ok args) :
    newlines (displayArgs args) = newlines (rawScopes sc) := by
  have := congrArg List.length (filter_args vis_newline (recLines_filter hrec) hcl h)
  simpa [newlines_filter] using this

/-! Commands always come out. -/

theorem TRun.command_ne_nil {rec ts b bl ln cs} (h : TRun rec ts b bl ln cs) :
    (∃ l sc d tr, b = .command l sc d tr) → cs ≠ [] := by
  induction h with
  | nil hi h =>
    rintro ⟨l, sc, d, tr, rfl⟩
    cases h; simp
  | cons hi h hr ih =>
    rintro ⟨l, sc, d, tr, rfl⟩
    cases h
    case cEsc => simp
    case cTrail => simp
    case cNext => simp
    all_goals
      simp only [List.nil_append]
      exact ih ⟨_, _, _, _, rfl⟩

theorem kind_letter {n l args} (h : LetterLabel l) : kind (.mk n (.command (.mk l args))) = .letter := by
  obtain ⟨c, r, rfl, ha, _⟩ := h
  simp [kind, ha]

theorem letter_ne_nl {l} (h : LetterLabel l) : l ≠ ['\n'] := by
  rintro rfl
  obtain ⟨c, r, h1, ha, _⟩ := h
  simp at h1; obtain ⟨rfl, _⟩ := h1; revert ha; decide

theorem goodR_textC {prev n a cs} (ha : ∀ x ∈ a, TextChar x) (hp : prev ≠ .text)
    (hl : prev = .letter → a.all isWhitespace = false ∨ cs ≠ [])
    (h0 : a = [] → GoodR prev n cs)
    (h : a ≠ [] → GoodR .text (n + newlines a) cs) : GoodR prev n (textC a n ++ cs) := by
  unfold textC
  split
  · exact h0 ‹_›
  · rename_i hne
    simp only [List.cons_append, List.nil_append, GoodR]
    refine ⟨?_, ⟨hne, ha⟩, fun _ => hp, ?_⟩
    · simp only [Chunk.lineNo, offset]
      split
      · rename_i hc
        rcases hl hc.1 with h | h
        · rw [h] at hc; cases hc.2.2
        · cases cs
          · exact absurd rfl h
          · cases hc.2.1
      · rfl
    · simpa [kind, Chunk.display, ChunkVariant.display] using h hne

/-- After `\c`: the started command, in the output or in the buffer. -/
theorem goodR_start {prev n ln c rest} (hn : ln = n + newlines [c])
    (hal : isAsciiAlphabetic c = true → GoodR prev ln rest)
    (hsym : isAsciiAlphabetic c = false → GoodR .other ln rest) :
    GoodR prev n (startC c ln ++ rest) := by
  unfold startC
  split
  · rename_i h
    have hc := alpha_ne_nl h
    rw [newlines_single, if_neg hc] at hn
    subst hn; exact hal h
  · rename_i h
    have h' : isAsciiAlphabetic c = false := by simpa using h
    simp only [List.cons_append, List.nil_append, GoodR]
    refine ⟨?_, .inr ⟨c, rfl, h', rfl⟩, ?_, ?_⟩
    · simp only [Chunk.lineNo, offset, hn, newlines_single, List.cons.injEq, and_true]
    · simp [kind, h']
    · have : newlines (Chunk.display (.mk ln (.command (.mk [c] [])))) = newlines [c] := by
        simp [Chunk.display, ChunkVariant.display, Command.display, displayArgs, newlines_single,
          newlines_esc]
      rw [this, ← hn]
      simpa [kind, h'] using hsym h'

theorem goodR_command {prev n l args rest} (hl : LetterLabel l)
    (hb : ∀ p s, (p, s) ∈ args → Blank p)
    (h : GoodR .letter (n + newlines l + newlines (displayArgs args)) rest) :
    GoodR prev n ([.mk n (.command (.mk l args))] ++ rest) := by
  simp only [List.cons_append, List.nil_append, GoodR]
  refine ⟨?_, .inl ⟨hl, hb⟩, ?_, ?_⟩
  · simp [Chunk.lineNo, offset, letter_ne_nl hl]
  · rw [kind_letter hl]; simp
  · rw [kind_letter hl]
    have : newlines (Chunk.display (.mk n (.command (.mk l args)))) =
        newlines l + newlines (displayArgs args) := by
      simp [Chunk.display, ChunkVariant.display, Command.display, newlines_append,
        newlines_cons_of_ne (c := '\\') (by decide)]
    rw [this, ← Nat.add_assoc]; exact h

theorem all_ws_blank {s : Str} : s.all isWhitespace = true ↔ Blank s := by
  simp [Blank]

theorem letterLabel_single {c : Char} (h : isAsciiAlphabetic c = true) : LetterLabel [c] :=
  ⟨c, [], rfl, h, by simp⟩

theorem shape_startB_alpha {c : Char} {prev} (h : isAsciiAlphabetic c = true) :
    (startB c).Shape prev := by
  simp only [startB, h, if_true, Buffer.Shape]
  exact ⟨letterLabel_single h, by simp [Blank], by simp⟩

theorem shape_startB_sym {c : Char} (h : isAsciiAlphabetic c = false) :
    (startB c).Shape .other := by
  simp [startB, h, Buffer.Shape]

theorem TRun.good {rec ts b bl ln cs} (hrec : RecLines rec) (h : TRun rec ts b bl ln cs) :
    ∀ prev, (∀ t ∈ ts, Tok.Ok t) → b.CleanContents → J b bl ln → b.Shape prev → GoodR prev bl cs := by
  induction h with
  | @nil b bl ln cs hi h =>
    intro prev _ hb hJ hs
    cases h with
    | text a =>
      have := goodR_textC (prev := prev) (n := bl) (a := a) (cs := []) hs.1 hs.2.1
        (fun hp => .inl (hs.2.2 hp)) (fun _ => trivial) (fun _ => trivial)
      simpa using this
    | command l sc tr args ha =>
      have hcl : ∀ a v p, (a, v, p) ∈ sc → Clean a := fun a v p hm =>
        hb a (by simp only [Buffer.contents, List.mem_map]; exact ⟨_, hm, rfl⟩)
      refine goodR_command hs.1 (evalArgs_blank ha hs.2.2) ?_
      unfold textC
      split
      · trivial
      · rename_i hne
        simp only [GoodR]
        refine ⟨?_, ⟨hne, fun x hx => isWhitespace_textChar (hs.2.1 x hx)⟩, by simp, trivial⟩
        have := all_ws_blank.2 hs.2.1
        simp only [Chunk.lineNo, offset, this, and_self, List.isEmpty_nil, if_true]
        simp only [J, Buffer.raw, newlines_append] at hJ
        rw [newlines_args hrec hcl ha]
        omega
  | @cons t ts b bl ln new b' bl' rest hi h hr ih =>
    intro prev hts hb hJ hs
    have hb' := h.clean (hts t (by simp)) hb
    have hJ' := h.J hJ
    have hbl := h.bl hrec hb hJ
    have htk := hts t (by simp)
    replace ih := fun prev' => ih prev' (fun t ht => hts t (by simp [ht])) hb' hJ'
    have hln := lnAfter_eq ln t
    have hcl : ∀ {l sc d tr}, b = .command l sc d tr → ∀ a v p, (a, v, p) ∈ sc → Clean a := by
      intro l sc d tr he a v p hm
      exact hb a (by subst he; simp only [Buffer.contents, List.mem_map]; exact ⟨_, hm, rfl⟩)
    have hne := hr.command_ne_nil
    cases h
    case tEsc a c =>
      simp only [Buffer.Shape] at hs
      have hend : lnAfter ln (true, c) = bl + newlines a + newlines [c] := by
        simp only [J, Buffer.raw] at hJ; rw [hln]; simp only; omega
      have key : ∀ q, q ≠ Prev.text ∨ a ≠ [] →
          GoodR q (bl + newlines a) (startC c (lnAfter ln (true, c)) ++ rest) := by
        intro q _
        exact goodR_start hend
          (fun hal => ih _ (shape_startB_alpha hal)) (fun hsym => ih _ (shape_startB_sym hsym))
      rw [List.append_assoc]
      refine goodR_textC hs.1 hs.2.1 (fun hp => .inl (hs.2.2 hp)) (fun h0 => ?_) (fun h0 => key _ (.inr h0))
      have := key prev (.inl hs.2.1)
      rw [h0] at this; simpa [newlines_nil] using this
    case tOpen a v =>
      simp only [Buffer.Shape] at hs
      have h1 : lnAfter ln (false, v.opening) = bl + newlines a := by
        rw [hbl, display_textC]
      refine goodR_textC hs.1 hs.2.1 (fun hp => .inl (hs.2.2 hp)) (fun h0 => ?_) (fun h0 => ?_)
      · have := ih prev trivial
        rw [h1, h0] at this; simpa [newlines_nil] using this
      · have := ih .text trivial
        rw [h1] at this; exact this
    case tChar a c h =>
      simp only [Buffer.Shape] at hs
      have h2 := htk rfl
      refine ih prev ⟨?_, hs.2.1, ?_⟩
      · intro x hx
        rw [List.mem_append, List.mem_singleton] at hx
        rcases hx with hx | rfl
        · exact hs.1 x hx
        · exact textChar_of h h2.1 h2.2
      · intro hp
        have := hs.2.2 hp
        rw [List.all_append, this]; rfl
    case sEnd a v inner h =>
      simp only [List.cons_append, List.nil_append, GoodR]
      refine ⟨by simp [Chunk.lineNo, offset], by simp [NodeShape], by simp [kind], ?_⟩
      have := ih .other (by simp [Buffer.Shape])
      rw [hbl] at this
      simpa [displayChunks_cons, displayChunks_nil, kind] using this
    case sEsc => exact ih prev trivial
    case sOpen => exact ih prev trivial
    case sClose => exact ih prev trivial
    case sChar => exact ih prev trivial
    case cOpen l sc tr e v =>
      simp only [Buffer.Shape] at hs
      refine ih prev ⟨hs.1, by simp [Blank], ?_⟩
      intro a v p hm
      rw [List.mem_append, List.mem_singleton] at hm
      rcases hm with hm | hm
      · exact hs.2.2 a v p hm
      · cases hm; exact hs.2.1
    case cWs l sc tr e c h hw =>
      simp only [Buffer.Shape] at hs
      refine ih prev ⟨hs.1, ?_, hs.2.2⟩
      intro x hx
      rw [List.mem_append, List.mem_singleton] at hx
      rcases hx with hx | rfl
      · exact hs.2.1 x hx
      · exact hw
    case cEsc l sc tr c args h hw ha =>
      simp only [Buffer.Shape] at hs
      rw [List.append_assoc, List.append_assoc]
      refine goodR_command hs.1 (evalArgs_blank ha hs.2.2) ?_
      rw [newlines_args hrec (hcl rfl) ha]
      have hnl := nonws_ne_nl hw
      have h0 : newlines [c] = 0 := by rw [newlines_single, if_neg hnl]
      have hJ2 : bl + (newlines l + (newlines (rawScopes sc) + newlines tr)) = ln := by
        simpa [J, Buffer.raw, newlines_append] using hJ
      have hln' : lnAfter ln (true, c) = ln := by rw [hln]; simp only [h0]; omega
      have e1 : lnAfter ln (true, c) - newlines tr = bl + newlines l + newlines (rawScopes sc) := by
        omega
      have hrest : startC c (lnAfter ln (true, c)) ++ rest ≠ [] := by
        unfold startC
        split
        · rename_i hal
          simp only [List.nil_append]
          exact hne ⟨[c], [], 0, [], by simp [startB, hal]⟩
        · simp
      have key : ∀ q, GoodR q (bl + newlines l + newlines (rawScopes sc) + newlines tr)
          (startC c (lnAfter ln (true, c)) ++ rest) := by
        intro q
        exact goodR_start (by omega)
          (fun hal => ih _ (shape_startB_alpha hal)) (fun hsym => ih _ (shape_startB_sym hsym))
      rw [e1]
      refine goodR_textC (fun x hx => isWhitespace_textChar (hs.2.1 x hx)) (by simp)
        (fun _ => .inr hrest) (fun ht => ?_) (fun _ => key _)
      have := key .letter
      rw [ht] at this; simpa [newlines_nil] using this
    case cTrail l sc tr c args h hw ht ha =>
      simp only [Buffer.Shape] at hs
      refine goodR_command hs.1 (evalArgs_blank ha hs.2.2) ?_
      have h2 := htk rfl
      have := ih .letter ⟨by
          intro x hx
          rw [List.mem_append, List.mem_singleton] at hx
          rcases hx with hx | rfl
          · exact isWhitespace_textChar (hs.2.1 x hx)
          · exact textChar_of h h2.1 h2.2, by simp, by
          intro _; simp [hw]⟩
      rw [hbl] at this
      simp only [displayChunks_cons, displayChunks_nil, Chunk.display, ChunkVariant.display,
        Command.display, List.append_nil, newlines_append,
        newlines_cons_of_ne (c := '\\') (by decide)] at this
      rw [Nat.add_assoc]; exact this
    case cLabel l c h hw hc =>
      simp only [Buffer.Shape] at hs
      have h2 := htk rfl
      refine ih prev ⟨?_, hs.2.1, hs.2.2⟩
      obtain ⟨c0, r, rfl, h3, h4⟩ := hs.1
      refine ⟨c0, r ++ [c], rfl, h3, ?_⟩
      intro x hx
      rw [List.mem_append, List.mem_singleton] at hx
      rcases hx with hx | rfl
      · exact h4 x hx
      · exact ⟨hw, not_special_of h hc h2.1 h2.2⟩
    case cNext l sc c args h hw hc hs' ha =>
      simp only [Buffer.Shape] at hs
      have h2 := htk rfl
      refine goodR_command hs.1 (evalArgs_blank ha hs.2.2) ?_
      have := ih .letter ⟨by
          intro x hx
          rw [List.mem_singleton] at hx; subst hx
          exact textChar_of h h2.1 h2.2, by simp, by
          intro _; simp [hw]⟩
      rw [hbl] at this
      simp only [displayChunks_cons, displayChunks_nil, Chunk.display, ChunkVariant.display,
        Command.display, List.append_nil, newlines_append,
        newlines_cons_of_ne (c := '\\') (by decide)] at this
      rw [Nat.add_assoc]; exact this
    case aEsc l sc a v p d c =>
      simp only [Buffer.Shape] at hs
      refine ih prev ⟨hs.1, hs.2.1, ?_⟩
      intro a' v' p' hm
      rw [List.mem_append, List.mem_singleton] at hm
      rcases hm with hm | hm
      · exact hs.2.2 a' v' p' (by simp [hm])
      · cases hm; exact hs.2.2 a v p (by simp)
    case aOpen => exact ih prev hs
    case aClose => exact ih prev hs
    case aChar l sc a v p d c ho hc =>
      simp only [Buffer.Shape] at hs
      refine ih prev ⟨hs.1, hs.2.1, ?_⟩
      intro a' v' p' hm
      rw [List.mem_append, List.mem_singleton] at hm
      rcases hm with hm | hm
      · exact hs.2.2 a' v' p' (by simp [hm])
      · cases hm; exact hs.2.2 a v p (by simp)

theorem fromStr_good {s d} (h : fromStr s = .ok d) : GoodR .none 1 d := by
  refine (fromStr_run h).good (fun a cs _ hr => newlines_fromStr hr) .none (lex_ok _ _ _) ?_ ?_ ?_
  · intro a ha; cases ha
  · rfl
  · simp [Buffer.Shape]

/-- The same, read off positions. -/
theorem goodR_iff {prev n cs} : GoodR prev n cs ↔ ∀ pre c post, cs = pre ++ c :: post →
    c.lineNo = n + newlines (displayChunks pre) +
      offset ((pre.getLast?.map kind).getD prev) c post.isEmpty ∧ NodeShape c ∧
      (kind c = .text → (pre.getLast?.map kind).getD prev ≠ .text) := by
  induction cs generalizing prev n with
  | nil => simp [GoodR]
  | cons x xs ih =>
    simp only [GoodR]
    constructor
    · rintro ⟨h1, h2, h3, h4⟩ pre c post he
      cases pre with
      | nil =>
        simp only [List.nil_append, List.cons.injEq] at he
        obtain ⟨rfl, rfl⟩ := he
        exact ⟨by simpa [displayChunks_nil, newlines_nil] using h1, h2, by simpa using h3⟩
      | cons y pre =>
        simp only [List.cons_append, List.cons.injEq] at he
        obtain ⟨rfl, he⟩ := he
        have := ih.1 h4 pre c post he
        have hk : (pre.getLast?.map kind).getD (kind x) = ((x :: pre).getLast?.map kind).getD prev := by
          rw [List.getLast?_cons]
          cases pre.getLast? <;> rfl
        rw [hk] at this
        refine ⟨?_, this.2⟩
        rw [this.1, displayChunks_cons, newlines_append]; omega
    · intro h
      have h0 := h [] x xs rfl
      refine ⟨by simpa [displayChunks_nil, newlines_nil] using h0.1, h0.2.1, by simpa using h0.2.2, ?_⟩
      rw [ih]
      intro pre c post he
      have := h (x :: pre) c post (by rw [he]; rfl)
      have hk : (pre.getLast?.map kind).getD (kind x) = ((x :: pre).getLast?.map kind).getD prev := by
        rw [List.getLast?_cons]
        cases pre.getLast? <;> rfl
      rw [← hk] at this
      refine ⟨?_, this.2⟩
      rw [this.1, displayChunks_cons, newlines_append]; omega

theorem prev_letter_iff (pre : List Chunk) :
    (pre.getLast?.map kind).getD .none = .letter ↔ EndsWithLetterCommand pre := by
  constructor
  · intro h
    rcases hg : pre.getLast? with _ | c
    · rw [hg] at h; simp at h
    · rw [hg] at h
      have he := eq_dropLast_append hg
      obtain ⟨l, v⟩ := c
      cases v with
      | text s => simp [kind] at h
      | scope s => simp [kind] at h
      | command c =>
        obtain ⟨lab, args⟩ := c
        cases lab with
        | nil => simp [kind] at h
        | cons x r =>
          simp only [Option.map_some, Option.getD_some, kind] at h
          split at h
          · exact ⟨_, l, x, r, args, he, ‹_›⟩
          · cases h
  · rintro ⟨init, l, x, r, args, rfl, ha⟩
    simp [kind, ha]

/-! ## Errors point into the source -/

theorem mem_contents_newlines {b : Buffer} {a : Str} (h : a ∈ b.contents) :
    newlines a ≤ newlines b.raw := by
  cases b with
  | text => cases h
  | scope a' v d => simp [Buffer.contents] at h; subst h; exact Nat.le_refl _
  | command l sc d tr =>
    simp only [Buffer.contents, List.mem_map] at h
    obtain ⟨⟨a', v, p⟩, hm, rfl⟩ := h
    simp only [Buffer.raw, newlines_append]
    have : newlines a' ≤ newlines (rawScopes sc) := by
      induction sc with
      | nil => cases hm
      | cons x sc ih =>
        obtain ⟨u, v', w⟩ := x
        simp only [rawScopes, newlines_append]
        cases hm with
        | head => omega
        | tail _ hm => have := ih hm; omega
    show newlines a' ≤ _
    omega

theorem trun_error_line {rec : Str → Res (List Chunk)} {ts b bl ln e}
    (hrec : ∀ a e, rec a = .error (.err e) → 1 ≤ e.line ∧ e.line ≤ newlines a + 1)
    (hi : Inv b bl ln) (hJ : J b bl ln) (h : trun rec ts b bl ln = .error (.err e)) :
    1 ≤ e.line ∧ e.line ≤ ln + newlines (ts.map (·.2)) := by
  have key : ∀ {b bl ln}, 1 ≤ bl → J b bl ln → FromRec rec b bl (.err e) →
      1 ≤ e.line ∧ e.line ≤ ln := by
    intro b bl ln hbl hJ hf
    obtain ⟨a, g, hm, hr, ha⟩ := hf
    have := mem_contents_newlines hm
    rcases g with e' | _ | _
    · simp only [addLine] at ha; injection ha with ha; injection ha with ha; subst ha
      have := hrec a e' hr
      unfold J at hJ
      simp only; omega
    · simp [addLine] at ha
    · simp [addLine] at ha
  induction ts generalizing b bl ln with
  | nil =>
    simp only [trun] at h
    have hbl := hi.hbl
    simp only [List.map_nil, newlines_nil, Nat.add_zero]
    rcases tfinish_error hi.ctl h with ⟨v, d, a, rfl, hf⟩ | ⟨v, l, sc, d, tr, rfl, hf⟩ | hf
    · injection hf with hf; subst hf; unfold J at hJ; simp only; omega
    · injection hf with hf; subst hf; unfold J at hJ; simp only; omega
    · exact key hbl hJ hf
  | cons t ts ih =>
    simp only [trun] at h
    simp only [List.map_cons]
    have hln := lnAfter_eq ln t
    rw [newlines_cons]
    rw [newlines_single] at hln
    rcases ht : tstep rec b bl (lnAfter ln t) t with g | ⟨new, b', bl'⟩
    · rw [ht] at h; injection h with h; subst h
      rcases tstep_error hi.ctl ht with ⟨v, hf⟩ | hf
      · injection hf with hf; subst hf
        have := hi.hln
        simp only
        by_cases hc : t.2 = '\n' <;> simp [hc] at hln ⊢ <;> omega
      · have := key hi.hbl hJ hf
        omega
    · rw [ht] at h; simp only at h
      have hs := tstep_ok hi.ctl ht
      rcases hr : trun rec ts b' bl' (lnAfter ln t) with g | rest
      · rw [hr] at h; injection h with h; subst h
        have := ih (hs.inv hi) (hs.J hJ) hr
        by_cases hc : t.2 = '\n' <;> simp [hc] at hln ⊢ <;> omega
      · rw [hr] at h; cases h

theorem fromStr_error_line {s e} (h : fromStr s = .error (.err e)) :
    1 ≤ e.line ∧ e.line ≤ newlines s + 1 := by
  unfold fromStr at h
  generalize s.length + 1 = n at h
  induction n generalizing s e with
  | zero => simp [parseFuel] at h
  | succ n ih =>
    rw [parseFuel_succ] at h
    have := trun_error_line (fun a e hr => ih hr) inv_init (by rfl) h
    rw [newlines_lex] at this
    omega

end LatexAst.Ast1
