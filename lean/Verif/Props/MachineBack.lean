import Verif.Proofs.MachineBack4

/-!
# C69: machine integers in `lines()`, in pushing and in the conversions back

`Model/MachineLines.lean` and `Model/MachineBack.lean` are `lines()`, the line number of a pushed chunk and the
conversions to the previous stage with `u32` line numbers; what happens on overflow is a parameter `A` (`Arith.debug`
panics, `Arith.release` wraps around).
-/

namespace LatexAst.Ast1

/-- C69, `lines()`: exact as long as the text it counts has less than `u32::MAX` newlines. -/
theorem C69_lines (A : Arith) (d : Document) (h : (displayChunks d).count '\n' < 2 ^ 32 - 1) :
    Document.linesA A d = .ok ((displayChunks d).count '\n' + 1) := by
  have h1 := linesSum_eq d
  rw [newlines_eq_count] at h1
  unfold Document.linesA
  rw [linesSumA_eq A d 0 (by simp only [u32Size]; omega)]
  simp only [Nat.zero_add]
  rw [A.add_exact _ _ (by simp only [u32Size]; omega), h1]

/-- The bound is sharp, for both kinds of builds. -/
theorem lines_sharp (k : Nat) (h : k + 1 = u32Size) : ∃ d : Document, (displayChunks d).count '\n' = k ∧
    Document.linesA .debug d = .error .panic ∧ ∃ l, Document.linesA .release d = .ok l ∧ l < u32Size := by
  have h0 : k < u32Size := by omega
  have hn : newlines (List.replicate k '\n') = k := by simp [newlines]
  refine ⟨[.mk 1 (.text (List.replicate k '\n'))], ?_, ?_, ?_⟩
  · simp [displayChunks, Chunk.display, ChunkVariant.display]
  · simp only [Document.linesA, linesSumA, Chunk.linesA, ChunkVariant.linesA, hn, asU32_small h0, Arith.debug]
    rw [if_neg (by omega)]
    rfl
  · simp only [Document.linesA, linesSumA, Chunk.linesA, ChunkVariant.linesA, hn, asU32_small h0, Arith.release]
    exact ⟨_, rfl, Nat.mod_lt _ (by omega)⟩

theorem C69_lines_sharp : ∃ d : Document, (displayChunks d).count '\n' + 1 = 2 ^ 32 ∧
    Document.linesA .debug d = .error .panic ∧ ∃ l, Document.linesA .release d = .ok l ∧ l < 2 ^ 32 := by
  have hr : (2 ^ 32) = u32Size := by simp [u32Size]
  rw [hr]
  obtain ⟨k, hk⟩ : ∃ k, k + 1 = u32Size := ⟨u32Size - 1, by simp [u32Size]⟩
  obtain ⟨d, h1, h2⟩ := lines_sharp k hk
  exact ⟨d, by omega, h2⟩

/-- C69, pushing: the line number given to a pushed chunk is exact as long as it is a `u32`, with one to spare. -/
theorem C69_push (A : Arith) (d : Document) (h : ∀ c, d.getLast? = some c → c.lineNo + c.display.count '\n' < 2 ^ 32 - 1) :
    nextLineA A d = .ok (Document.nextLine d) := by
  refine nextLineA_eq A d fun c hc => ?_
  have h1 := h c hc
  have h2 := c.lines_eq
  rw [newlines_eq_count] at h2
  simp only [u32Size]
  omega

/-- C69, `validate`: the expected line numbers are exact as long as the document has less than 2^32 - 2 newlines. -/
theorem C69_validate (A : Arith) (d : Document) (h : (displayChunks d).count '\n' < 2 ^ 32 - 2) :
    Document.validateA A d = .ok (Document.validate d) := by
  have h1 := linesSum_eq d
  rw [newlines_eq_count] at h1
  exact validateFromA_eq A d 1 (by simp only [u32Size]; omega)

end LatexAst.Ast1

namespace LatexAst.Ast2

theorem C69_lines (A : Arith) (d : Document) (h : (displayChunks d).count '\n' < 2 ^ 32 - 1) :
    Document.linesA A d = .ok ((displayChunks d).count '\n' + 1) := by
  have h1 := linesSum_eq d
  rw [newlines_eq_count] at h1
  unfold Document.linesA
  rw [linesSumA_eq A d 0 (by simp only [u32Size]; omega)]
  simp only [Nat.zero_add]
  rw [A.add_exact _ _ (by simp only [u32Size]; omega), h1]

theorem C69_push (A : Arith) (d : Document) (h : ∀ c, d.getLast? = some c → c.lineNo + c.display.count '\n' < 2 ^ 32 - 1) :
    nextLineA A d = .ok (Document.nextLine d) := by
  refine nextLineA_eq A d fun c hc => ?_
  have h1 := h c hc
  have h2 := c.lines_eq
  rw [newlines_eq_count] at h2
  simp only [u32Size]
  omega

/-- C69, stage 2 to stage 1: if no line number in the result needs more than 32 bits and the document is shorter than
`u32::MAX` characters, the conversion computes what the model computes, whatever an overflow does. -/
theorem C69_back (A : Arith) (d : Document) (r : List Ast1.Chunk) (h : intoChunks 0 d = .ok r) (hr : Ast1.LinesBelow (2 ^ 32) r)
    (hd : (displayChunks d).length < 2 ^ 32 - 1) : toAst1A A d = toAst1 d :=
  toAst1LoopA_eq A d r h (by simpa only [u32Size] using hr) (by simp only [u32Size]; omega) []

/-- C69, stage 2 to stage 1, every parsed source of less than 2^31 - 1 characters: going back succeeds, and debug and
release builds give the same document. -/
theorem C69_back_parsed (A : Arith) (s : Str) (e : Document) (h : fromStr s = .ok e) (hs : s.length < 2 ^ 31 - 1) :
    ∃ d', toAst1 e = .ok d' ∧ toAst1A A e = .ok d' := by
  have h0 := h
  unfold fromStr at h
  cases hd : Ast1.fromStr s with
  | error f => rw [hd] at h; cases h
  | ok d =>
    rw [hd] at h
    have hr : ReadyAll d := by
      intro lv hl
      refine ⟨Ast1.sane_parsed hd lv hl, ?_⟩
      intro l p lab args hm
      exact label_reads hd hl.level hm (.head _)
    obtain ⟨d', h1, h2⟩ := back_lines h hr
    have h3 := h2 0
    rw [map_shift_zero] at h3
    have hl1 : (Ast1.displayChunks d).length ≤ s.length := by
      have := (Ast1.C01_partial s d hd).1.length_le
      simpa using this
    have hl2 : (displayChunks e).length ≤ s.length := by rw [C21 d e h]; exact hl1
    obtain ⟨d'', h4, _⟩ := C26_displaced_partial s d e hd h
    refine ⟨d'', h4, ?_⟩
    rw [C69_back A e d' h3 ((h1.linesBelow (Ast1.below_parsed hd) hl1).mono (by omega)) (by omega), h4]

example : ∃ e d', fromStr chars!"x{\\begin\n{a}y\\begin{b}\n[u]\\end{b}\\end{a}}" = .ok e ∧ toAst1A .release e = .ok d' ∧ toAst1A .debug e = .ok d' := by
  have h : (fromStr chars!"x{\\begin\n{a}y\\begin{b}\n[u]\\end{b}\\end{a}}").toOption.isSome = true := by decide +kernel
  have hlen : (chars!"x{\\begin\n{a}y\\begin{b}\n[u]\\end{b}\\end{a}}").length ≤ 99 := by decide
  generalize chars!"x{\\begin\n{a}y\\begin{b}\n[u]\\end{b}\\end{a}}" = s at h hlen
  cases he : fromStr s with
  | error f => rw [he] at h; cases h
  | ok e =>
    obtain ⟨d', h1, h2⟩ := C69_back_parsed .release _ e he (by omega)
    obtain ⟨d2, h3, h4⟩ := C69_back_parsed .debug _ e he (by omega)
    rw [h1] at h3
    cases h3
    exact ⟨e, d', rfl, h2, h4⟩

/-- C69, `validate`: the expected line numbers are exact as long as the document has less than 2^32 - 2 newlines. -/
theorem C69_validate (A : Arith) (d : Document) (h : (displayChunks d).count '\n' < 2 ^ 32 - 2) :
    Document.validateA A d = .ok (Document.validate d) := by
  have h1 := linesSum_eq d
  rw [newlines_eq_count] at h1
  exact validateFromA_eq A d 1 (by simp only [u32Size]; omega)

end LatexAst.Ast2

namespace LatexAst.Ast3

/-- C69, stage 3: `lines()` of a sequence of chunks (a section of the document). -/
theorem C69_lines (A : Arith) (d : Document)
    (h : (displayChunks d.preamable ++ displayChunks d.body ++ displayChunks d.trailing).count '\n' < 2 ^ 32 - 1) :
    Document.linesA A d = .ok ((displayChunks d.preamable ++ displayChunks d.body ++ displayChunks d.trailing).count '\n' + 1) := by
  have h1 := linesSum_eq (d.preamable ++ (d.body ++ d.trailing))
  rw [newlines_eq_count, displayChunks_append, displayChunks_append] at h1
  rw [List.append_assoc] at h ⊢
  unfold Document.linesA
  rw [linesSumA_eq A _ 0 (by simp only [u32Size]; omega)]
  simp only [Nat.zero_add]
  rw [A.add_exact _ _ (by simp only [u32Size]; omega), h1]

theorem C69_push (A : Arith) (d : List Chunk) (h : ∀ c, d.getLast? = some c → c.lineNo + c.display.count '\n' < 2 ^ 32 - 1) :
    nextLineA A d = .ok (nextLine d) := by
  refine nextLineA_eq A d fun c hc => ?_
  have h1 := h c hc
  have h2 := c.lines_eq
  rw [newlines_eq_count] at h2
  simp only [u32Size]
  omega

/-- C69, `validate`: as in the other stages. -/
theorem C69_validate (A : Arith) (d : Document)
    (h : (displayChunks d.preamable ++ displayChunks d.body ++ displayChunks d.trailing).count '\n' < 2 ^ 32 - 2) :
    Document.validateA A d = .ok (Document.validate d) := by
  have h1 := linesSum_eq d.preamable
  have h2 := linesSum_eq d.body
  have h3 := linesSum_eq d.trailing
  rw [newlines_eq_count] at h1 h2 h3
  rw [List.count_append, List.count_append] at h
  unfold Document.validateA Document.validate
  rw [validateFromA_eq A d.preamable 1 (by simp only [u32Size]; omega), validateFromA_eq A d.body 1 (by simp only [u32Size]; omega),
    validateFromA_eq A d.trailing 1 (by simp only [u32Size]; omega)]
  cases validateFrom 1 d.preamable with
  | error e => rfl
  | ok u => cases validateFrom 1 d.body <;> rfl

/-- C69, stage 3 to stage 2: let all line numbers be at most `M`, nothing nested deeper than `n` and the document
shorter than `L` characters. If `(n + 2) * M + 2 * L < 2^32` and the conversion does not panic in the model, it computes
what the model computes, whatever an overflow does. -/
theorem C69_back (A : Arith) (f : Document) (n M : Nat)
    (hl : LinesBelow (M + 1) f.preamable ∧ LinesBelow (M + 1) f.body ∧ LinesBelow (M + 1) f.trailing ∧
      ∀ p inner sv, (p, Scope.mk inner sv) ∈ f.bodyArgs → LinesBelow (M + 1) inner)
    (hn : NestedAtMost n f.preamable ∧ NestedAtMost n f.body ∧ NestedAtMost n f.trailing ∧
      ∀ p inner sv, (p, Scope.mk inner sv) ∈ f.bodyArgs → NestedAtMost n inner)
    (hb : (n + 2) * M + 2 * f.written.length + 2 < 2 ^ 32) (h : toAst2 f ≠ .error .panic) : toAst2A A f = toAst2 f := by
  rcases toAst2_spec f with ⟨_, _, e, he, _⟩ | ⟨_, hp⟩
  case inr => exact absurd hp h
  rw [he]
  have hw' : f.written = displayChunks f.preamable ++ (chars!"\\begin" ++ f.bodyBeginPrec ++ chars!"{document}" ++ displayArgs f.bodyArgs ++
      displayChunks f.body ++ chars!"\\end" ++ f.bodyEndPrec ++ chars!"{document}") ++ displayChunks f.trailing := by
    simp [Document.written]
  have hlen := congrArg List.length hw'
  simp only [List.length_append] at hlen
  obtain ⟨l1, l2, l3, l4⟩ := hl
  obtain ⟨n1, n2, n3, n4⟩ := hn
  have hM : M + 1 ≤ u32Size := by
    simp only [Nat.add_mul] at hb
    simp only [u32Size]; omega
  have hw : ∀ {d}, LinesBelow (M + 1) d → LinesBelow u32Size d :=
    fun h k lv hk l v hm => Nat.lt_of_lt_of_le (h k lv hk l v hm) hM
  have hfar : far n M f.written.length ≤ u32Size - f.written.length := by
    simp only [far, u32Size]
    simp only [Nat.add_mul] at hb ⊢
    omega
  have hfar' : far (n + 1) M f.written.length ≤ u32Size := by
    simp only [far, u32Size]
    simp only [Nat.add_mul] at hb ⊢
    omega
  refine toAst2A_eq A f e he (hw l1) (hw l2) (hw l3) (fun p inner sv hm => hw (l4 p inner sv hm)) ?_ ?_ ?_ ?_ (by simp only [u32Size]; omega)
  · exact fun r hr => (intoChunks_far _ n r hr l1 n1 (by omega : _ ≤ f.written.length)).mono (by omega)
  · exact fun r hr => (intoChunks_far _ n r hr l2 n2 (by omega : _ ≤ f.written.length)).mono hfar
  · exact fun r hr => (intoChunks_far _ n r hr l3 n3 (by omega : _ ≤ f.written.length)).mono hfar
  · intro r hr p inner sv hm
    exact (intoArgs_far _ (n + 1) r hr l4 (fun p inner sv hm => ⟨n, rfl, n4 p inner sv hm⟩) (by omega : _ ≤ f.written.length) p inner sv hm).mono hfar'

/-- A maths block in a maths block, on line 2 of the body. -/
def sample : Document :=
  { documentclass := none, documentoptions := [], preamable := [.mk 1 (.text chars!"x\n")], bodyArgs := [], bodyBeginPrec := [], bodyEndPrec := [],
    body := [.mk 1 (.text chars!"\n"), .mk 2 (.mathsBlock (.mk .brackets .inline [.mk 1 (.mathsBlock (.mk .dollars .inline [.mk 1 (.text chars!"a")]))]))],
    trailing := [.mk 1 (.text chars!"\n")] }

theorem one_text {l t} : (∀ B, l < B → LinesBelow B [.mk l (.text t)]) ∧ NestedAtMost 0 [.mk l (.text t)] := by
  have hc : ∀ inner, ¬ Child3 [.mk l (.text t)] inner := by intro inner h; cases h <;> simp_all
  refine ⟨fun B hB => .of_children (fun l' v' hm => by simp only [List.mem_singleton, Chunk.mk.injEq] at hm; omega)
    fun inner h => (hc inner h).elim, fun k lv hl => ?_⟩
  cases k with
  | zero => omega
  | succ k => obtain ⟨inner, _, h⟩ := levelAt_head hl; exact (hc inner h).elim

/-- `C69_back` applies to it. -/
example : toAst2A .release sample = toAst2 sample ∧ toAst2A .debug sample = toAst2 sample := by
  have key : ∀ A, toAst2A A sample = toAst2 sample := by
    intro A
    have hin : ∀ inner, Child3 [.mk 1 (.mathsBlock (.mk .dollars .inline [.mk 1 (.text chars!"a")]))] inner → inner = [.mk 1 (.text chars!"a")] := by
      intro inner h; cases h <;> simp_all
    have hout : ∀ inner, Child3 sample.body inner → inner = [.mk 1 (.mathsBlock (.mk .dollars .inline [.mk 1 (.text chars!"a")]))] := by
      intro inner h; unfold sample at h; cases h <;> simp_all
    refine C69_back A sample 2 2 ⟨one_text.1 3 (by omega), ?_, one_text.1 3 (by omega), by intro _ _ _ h; cases h⟩
      ⟨one_text.2.mono (by omega), ?_, one_text.2.mono (by omega), by intro _ _ _ h; cases h⟩ (by decide) (by decide +kernel)
    · refine .of_children (fun l v hm => by simp only [sample, List.mem_cons, Chunk.mk.injEq, List.not_mem_nil, or_false] at hm; grind) fun inner h => ?_
      rw [hout inner h]
      refine .of_children (fun l v hm => by simp only [List.mem_cons, Chunk.mk.injEq, List.not_mem_nil, or_false] at hm; grind) fun inner h => ?_
      rw [hin inner h]
      exact one_text.1 3 (by omega)
    · intro k lv hl
      match k with
      | 0 => omega
      | 1 => omega
      | k + 2 =>
        obtain ⟨inner, h1, h2⟩ := levelAt_head hl
        rw [hout inner h2] at h1
        obtain ⟨inner, h1, h2⟩ := levelAt_head h1
        rw [hin inner h2] at h1
        have := one_text.2 k lv h1
        omega
  exact ⟨key _, key _⟩

/-- What a panic of the model is: a maths block on line 0 (see C42). A debug build panics, a release build goes on and
numbers the chunk with line 0 again. -/
theorem C69_back_wraps : ∃ f : Document, toAst2 f = .error .panic ∧ toAst2A .debug f = .error .panic ∧
    ∃ e, toAst2A .release f = .ok (.mk 0 (.text chars!"$a\n$") :: e) := by
  refine ⟨{ sample with preamable := [.mk 0 (.mathsBlock (.mk .dollars .inline [.mk 1 (.text chars!"a\n")]))] }, ?_, ?_, ?_⟩
  · rfl
  · rfl
  · exact ⟨_, rfl⟩

end LatexAst.Ast3
