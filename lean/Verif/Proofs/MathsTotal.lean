import Verif.Proofs.MathsConv

/-!
# Well-formed maths: displays, rejections, totality
-/

namespace LatexAst.Ast3
open Spec

/-! ### Display -/

theorem display_textIf (l t) : displayChunks (textIf l t) = t := by
  unfold textIf
  split
  · rename_i h; simp [h]
  · simp [displayChunks, Chunk.display, ChunkVariant.display]

theorem display_textIf2 (l t) : Ast2.displayChunks (textIf2 l t) = t := by
  unfold textIf2
  split
  · rename_i h; simp [h, Ast2.displayChunks]
  · simp [Ast2.displayChunks, Ast2.Chunk.display, Ast2.ChunkVariant.display]

theorem display_shift (k ms) : Ast2.displayChunks (ms.map (Ast2.Chunk.shift k)) = Ast2.displayChunks ms := by
  induction ms with
  | nil => rfl
  | cons c ms ih => obtain ⟨l, v⟩ := c; simp [Ast2.displayChunks, Ast2.Chunk.shift, Ast2.Chunk.display, ih]

theorem display_withContents {args : List (Str × Ast2.Scope)} {contents : List (List Chunk)} (hl : contents.length = args.length)
    (h : ∀ p inner sv content, ((p, Ast2.Scope.mk inner sv), content) ∈ args.zip contents →
      displayChunks content = Ast2.displayChunks inner) :
    displayArgs (withContents args contents) = Ast2.displayArgs args := by
  induction args generalizing contents with
  | nil => cases contents with
    | nil => rfl
    | cons => simp at hl
  | cons x r ih =>
    cases contents with
    | nil => simp at hl
    | cons c cs =>
      obtain ⟨p, inner, sv⟩ := x
      have h1 := h p inner sv c (by simp)
      have h2 := ih (contents := cs) (by simpa using hl) (fun p i sv c hm => h p i sv c (by simp [hm]))
      simp [withContents, displayArgs, Ast2.displayArgs, Scope.display, Ast2.Scope.display, display_paragraphs, h1, h2]

theorem display_converts {cs out} (h : Converts true cs out) : displayChunks out = Ast2.displayChunks cs := by
  induction h with
  | nil => rfl
  | text _ _ ih =>
    rw [displayChunks_append, display_textIf, ih]
    simp [Ast2.displayChunks, Ast2.Chunk.display, Ast2.ChunkVariant.display]
  | inline _ _ _ _ _ ih =>
    rw [displayChunks_append, display_textIf, displayChunks, ih]
    simp [Ast2.displayChunks, Ast2.Chunk.display, Ast2.ChunkVariant.display, Chunk.display, ChunkVariant.display,
      MathsBlock.display, delimiters, display_paragraphs, displayChunks]
  | display _ _ _ _ ih =>
    rw [displayChunks_append, display_textIf, displayChunks, ih]
    simp [Ast2.displayChunks, Ast2.Chunk.display, Ast2.ChunkVariant.display, Chunk.display, ChunkVariant.display,
      MathsBlock.display, delimiters, display_paragraphs, display_textIf]
  | sloppy h => cases h
  | inlineSpan _ _ _ _ _ _ _ ih1 ih2 =>
    rw [display2_append, display_textIf2] at ih1
    rw [displayChunks_append, display_textIf, displayChunks, ih2]
    simp [Ast2.displayChunks, Ast2.Chunk.display, Ast2.ChunkVariant.display, Chunk.display, ChunkVariant.display,
      MathsBlock.display, delimiters, display_paragraphs, ih1, display2_append, display_shift]
  | displaySpan _ _ _ _ _ _ ih1 ih2 =>
    rw [display2_append, display_textIf2] at ih1
    rw [displayChunks_append, display_textIf, displayChunks, ih2]
    simp [Ast2.displayChunks, Ast2.Chunk.display, Ast2.ChunkVariant.display, Chunk.display, ChunkVariant.display,
      MathsBlock.display, delimiters, display_paragraphs, ih1, display2_append, display_shift]
  | @brackets k _ _ _ _ _ _ _ _ _ _ hs _ _ ih1 ih2 =>
    obtain ⟨rfl, rfl, rfl⟩ := hs rfl
    simp only [displayChunks, Ast2.displayChunks, display2_append]
    simp [Ast2.Chunk.display, Ast2.ChunkVariant.display, Ast2.Command.display, Chunk.display, ChunkVariant.display,
      MathsBlock.display, display_paragraphs, ih1, ih2, delimiters_bracket, Ast2.displayArgs]
  | scope _ _ ih1 ih2 =>
    simp [displayChunks, Ast2.displayChunks, Ast2.Chunk.display, Ast2.ChunkVariant.display, Ast2.Scope.display, Chunk.display, ChunkVariant.display,
      Scope.display, display_paragraphs, ih1, ih2]
  | command _ hl _ _ ih1 ih2 =>
    simp [displayChunks, Ast2.displayChunks, Ast2.Chunk.display, Ast2.ChunkVariant.display, Ast2.Command.display, Chunk.display, ChunkVariant.display,
      Command.display, ih2, display_withContents hl ih1]
  | environment hl _ _ _ ih1 ih2 ih3 =>
    simp [displayChunks, Ast2.displayChunks, Ast2.Chunk.display, Ast2.ChunkVariant.display, Ast2.Environment.display, Chunk.display, ChunkVariant.display,
      Environment.display, ih2, ih3, display_withContents hl ih1, display_paragraphs]

/-! ### Rejections -/

theorem runMaths_append {rec} (a b : List Ast2.Chunk) (s : MState) : runMaths rec (a ++ b) s =
    (match runMaths rec a s with | .error f => .error f | .ok s => runMaths rec b s) := by
  induction a generalizing s with
  | nil => rfl
  | cons c a ih =>
    simp only [List.cons_append, runMaths]
    cases stepMaths rec s c with
    | error f => rfl
    | ok s => exact ih s

/-- After a well-formed prefix. -/
theorem maths_after {strict pre out post} {r : Res (List Chunk)} (h : Converts strict pre out)
    (hp : ∀ s, Idle s → (match runMaths mathsFromChunks post s with | .error f => .error f | .ok s => finishMaths s) = r) :
    mathsFromChunks (pre ++ post) = r := by
  rw [mathsFromChunks_eq, mathsLevel, runMaths_append]
  obtain ⟨s', h1, h2, h3⟩ := runMaths_converts h MState.init ⟨rfl, rfl⟩
  rw [h1]
  exact hp s' h2

theorem step_open {rec : List Ast2.Chunk → Res (List Chunk)} {s : MState} (hs : Idle s) (k l args) :
    stepMaths rec s (.mk l (.command (.mk (openLabel k) args))) = .ok { s with mode := bracketMode k, bufferLine := l, depth := 1 } := by
  cases k <;> simp [stepMaths, stepMathsCommand, hs.1, bracketMode, Ast2.Command.label, openLabel]

theorem runMaths_unclosed {rec : List Ast2.Chunk → Res (List Chunk)} {k body} (h : Unclosed k body) :
    ∀ s : MState, s.mode = bracketMode k → 1 ≤ s.depth →
      ∃ s', runMaths rec body s = .ok s' ∧ s'.mode = bracketMode k ∧ s'.bufferLine = s.bufferLine := by
  induction h with
  | @done b i hi =>
    intro s hm hd
    have := runMaths_inside (rec := rec) hi s [] hm hd
    rw [List.append_nil] at this
    exact ⟨_, this, hm, rfl⟩
  | @more b i l args b' hi _ ih =>
    intro s hm hd
    rw [runMaths_inside hi _ _ hm hd]
    have hopen : stepMaths rec { s with buffer := s.buffer ++ i } (.mk l (.command (.mk (openLabel k) args))) =
        .ok { s with buffer := s.buffer ++ i, depth := s.depth + 1 } := by
      cases k <;> simp [stepMaths, stepMathsCommand, hm, bracketMode, Ast2.Command.label, openLabel]
    simp only [runMaths, hopen]
    obtain ⟨s', h1, h2, h3⟩ := ih { s with buffer := s.buffer ++ i, depth := s.depth + 1 } hm (by simp)
    exact ⟨s', h1, h2, h3⟩

theorem tryArgs_error {rec : List Ast2.Chunk → Res (List Chunk)} {before p inner sv after f}
    (h1 : ∀ q c v, (q, Ast2.Scope.mk c v) ∈ before → ∃ x, rec c = .ok x) (h2 : rec inner = .error f) :
    tryArgs rec (before ++ (p, .mk inner sv) :: after) = .error f := by
  induction before with
  | nil => simp [tryArgs, tryScope, h2]
  | cons x r ih =>
    obtain ⟨q, c, v⟩ := x
    obtain ⟨y, hy⟩ := h1 q c v (by simp)
    have := ih (fun q c v hm => h1 q c v (by simp [hm]))
    simp [tryArgs, tryScope, hy, this]

theorem tryArgs_all {rec : List Ast2.Chunk → Res (List Chunk)} {args}
    (h1 : ∀ q c v, (q, Ast2.Scope.mk c v) ∈ args → ∃ x, rec c = .ok x) :
    ∃ r, tryArgs rec args = .ok r := by
  induction args with
  | nil => exact ⟨_, rfl⟩
  | cons x r ih =>
    obtain ⟨q, c, v⟩ := x
    obtain ⟨y, hy⟩ := h1 q c v (by simp)
    obtain ⟨z, hz⟩ := ih (fun q c v hm => h1 q c v (by simp [hm]))
    exact ⟨(q, .mk (paragraphs y) v) :: z, by simp only [tryArgs, tryScope, hy, hz]⟩

theorem mathsFromChunks_rejected {cs e} (h : Rejected cs e) : mathsFromChunks cs = .error (.err e) := by
  have conv : ∀ {args : List (Str × Ast2.Scope)}, (∀ q c v, (q, Ast2.Scope.mk c v) ∈ args → ∃ content, Converts false c content) →
      ∀ q c v, (q, Ast2.Scope.mk c v) ∈ args → ∃ x, mathsFromChunks c = .ok x := by
    intro args h q c v hm
    obtain ⟨x, hx⟩ := h q c v hm
    exact ⟨_, mathsFromChunks_converts hx⟩
  induction h with
  | @unexpected pre out k l args post hpre =>
    refine maths_after hpre ?_
    intro s hs
    have : stepMaths mathsFromChunks s (.mk l (.command (.mk (closeLabel k) args))) = fail l .unexpectedMathsEnd := by
      cases k <;> simp [stepMaths, stepMathsCommand, hs.1, Ast2.Command.label, closeLabel]
    simp only [runMaths, this]
    rfl
  | @unclosed pre out k l args body hpre hu =>
    refine maths_after hpre ?_
    intro s hs
    simp only [runMaths, step_open hs]
    obtain ⟨s', h1, h2, h3⟩ := runMaths_unclosed (rec := mathsFromChunks) hu
      { s with mode := bracketMode k, bufferLine := l, depth := 1 } rfl (Nat.le_refl 1)
    simp only [h1, finishMaths, h2, h3]
    simp [bracketMode_ne_none, fail]
  | @brackets pre out k l args body inner l' args' post e hpre hi _ ih =>
    refine maths_after hpre ?_
    intro s hs
    simp only [runMaths, step_open hs]
    rw [runMaths_inside hi _ _ rfl (Nat.le_refl 1)]
    have hb : s.buffer ++ inner = inner := by rw [hs.2]; rfl
    simp only [hb]
    have hclose : stepMaths mathsFromChunks { s with mode := bracketMode k, bufferLine := l, depth := 1, buffer := inner }
        (.mk l' (.command (.mk (closeLabel k) args'))) = .error (.err e) := by
      cases k <;> simp [stepMaths, stepMathsCommand, bracketMode, Ast2.Command.label, closeLabel, closeBrackets, ih]
    simp only [runMaths, hclose]
  | @scope pre out l inner sv post e hpre _ ih =>
    refine maths_after hpre ?_
    intro s hs
    simp [runMaths, stepMaths, hs.1, tryScope, ih]
  | @arg pre out l label before p inner sv after post e hpre hl hb _ ih =>
    refine maths_after hpre ?_
    intro s hs
    have := tryArgs_error (rec := mathsFromChunks) (p := p) (sv := sv) (after := after) (conv hb) ih
    simp [IsDelimiter] at hl
    simp [runMaths, stepMaths, stepMathsCommand, hs.1, Ast2.Command.label, hl, tryCommand, this]
  | @envArg pre out l label before p inner sv after body pb pe post e hpre hb _ ih =>
    refine maths_after hpre ?_
    intro s hs
    have := tryArgs_error (rec := mathsFromChunks) (p := p) (sv := sv) (after := after) (conv hb) ih
    simp [runMaths, stepMaths, hs.1, tryEnvironment, this]
  | @envContent pre out l label args body pb pe post e hpre ha _ ih =>
    refine maths_after hpre ?_
    intro s hs
    obtain ⟨x, hx⟩ := tryArgs_all (conv ha)
    simp [runMaths, stepMaths, hs.1, tryEnvironment, hx, ih]

/-! ### Totality without dollars -/

theorem inside_append {k a i b j} (h : Inside k a i) (h' : Inside k b j) : Inside k (a ++ b) (i ++ j) := by
  induction h with
  | nil => exact h'
  | other hc _ ih => exact .other hc ih
  | @nested l args b1 i1 l' args' b2 i2 h1 _ _ ih2 =>
    have := Inside.nested (l := l) (args := args) (l' := l') (args' := args') h1 ih2
    simpa using this

theorem unclosed_prefix {k a i b} (h : Inside k a i) (h' : Unclosed k b) : Unclosed k (a ++ b) := by
  cases h' with
  | done h1 => exact .done (inside_append h h1)
  | @more b0 i0 l args b' h1 h2 =>
    have := Unclosed.more (l := l) (args := args) (inside_append h h1) h2
    simpa using this

/-- A chunk is an opening bracket of the kind, a closing one, or neither. -/
theorem kind_cases (k : MathsType) (c : Ast2.Chunk) :
    (∃ l args, c = .mk l (.command (.mk (openLabel k) args))) ∨ (∃ l args, c = .mk l (.command (.mk (closeLabel k) args))) ∨
      NotOfKind k c := by
  by_cases h : NotOfKind k c
  · exact .inr (.inr h)
  · obtain ⟨l, v⟩ := c
    simp only [NotOfKind, Ast2.Chunk.variant, Classical.not_forall, not_and, Classical.not_not] at h
    obtain ⟨args, h⟩ := h
    by_cases h' : v = .command (.mk (openLabel k) args)
    · exact .inl ⟨l, args, by rw [h']⟩
    · exact .inr (.inl ⟨l, args, by rw [h h']⟩)

theorem split_inside (k : MathsType) : ∀ n (rest : List Ast2.Chunk), rest.length ≤ n →
    (∃ body inner l args post, rest = body ++ .mk l (.command (.mk (closeLabel k) args)) :: post ∧ Inside k body inner) ∨
      Unclosed k rest := by
  intro n
  induction n with
  | zero =>
    intro rest h
    have : rest = [] := List.length_eq_zero_iff.1 (by omega)
    subst this
    exact .inr (.done .nil)
  | succ n ih =>
    intro rest h
    cases rest with
    | nil => exact .inr (.done .nil)
    | cons c r =>
      simp at h
      rcases kind_cases k c with ⟨l, args, rfl⟩ | ⟨l, args, rfl⟩ | hc
      · rcases ih r h with ⟨b1, i1, l', args', r', rfl, h1⟩ | h1
        · rcases ih r' (by simp at h; omega) with ⟨b2, i2, l2, args2, r2, rfl, h2⟩ | h2
          · refine .inl ⟨_, _, l2, args2, r2, ?_, .nested (l := l) (args := args) (l' := l') (args' := args') h1 h2⟩
            simp
          · have := unclosed_prefix (.nested (l := l) (args := args) (l' := l') (args' := args') h1 .nil) h2
            exact .inr (by simpa using this)
        · have := Unclosed.more (l := l) (args := args) (b' := r) .nil h1
          exact .inr (by simpa using this)
      · exact .inl ⟨[], [], l, args, r, rfl, .nil⟩
      · rcases ih r h with ⟨b, i, l', args', r', rfl, h1⟩ | h1
        · exact .inl ⟨c :: b, c :: i, l', args', r', rfl, .other hc h1⟩
        · have := unclosed_prefix (.other hc .nil) h1
          exact .inr (by simpa using this)

theorem inside_mem {k body inner} (h : Inside k body inner) : ∀ c ∈ inner, c ∈ body := by
  induction h with
  | nil => simp
  | other _ _ ih => intro c hc; simp at hc ⊢; rcases hc with h | h; exact .inl h; exact .inr (ih c h)
  | nested _ _ ih1 ih2 => intro c hc; simp at hc ⊢; rcases hc with h | h; exact .inr (.inl (ih1 c h)); exact .inr (.inr (.inr (ih2 c h)))

theorem inside_size {k body inner} (h : Inside k body inner) : sizeChunks inner ≤ sizeChunks body := by
  induction h with
  | nil => simp
  | other _ _ ih => simp [sizeChunks]; omega
  | nested _ _ ih1 ih2 => simp [sizeChunks, sizeChunks_append]; omega

theorem converts_append {strict a x b y} (h : Converts strict a x) (h' : Converts strict b y) : Converts strict (a ++ b) (x ++ y) := by
  induction h with
  | nil => exact h'
  | text h1 _ ih => rw [List.append_assoc]; exact .text h1 ih
  | inline h1 h2 h3 h4 _ ih => rw [List.append_assoc]; exact .inline h1 h2 h3 h4 ih
  | display h1 h2 h3 _ ih => rw [List.append_assoc]; exact .display h1 h2 h3 ih
  | sloppy h0 h1 h2 h3 h4 h5 _ ih => rw [List.append_assoc]; exact .sloppy h0 h1 h2 h3 h4 h5 ih
  | @inlineSpan l p ms l' x r rest content out h1 h2 h3 h4 h5 h6 _ _ ih =>
    rw [List.append_assoc]
    have := Converts.inlineSpan (l := l) h1 h2 h3 h4 h5 h6 ih
    simpa using this
  | @displaySpan l p ms l' x r rest content out h1 h2 h3 h4 h5 _ _ ih =>
    rw [List.append_assoc]
    have := Converts.displaySpan (l := l) h1 h2 h3 h4 h5 ih
    simpa using this
  | @brackets k l args body inner l' args' rest content out h1 h2 h3 _ _ ih =>
    have := Converts.brackets (l := l) (args := args) (l' := l') (args' := args') h1 h2 h3 ih
    simpa using this
  | scope h1 _ _ ih => exact .scope h1 ih
  | command h1 h2 h3 _ _ ih => exact .command h1 h2 h3 ih
  | environment h1 h2 h3 _ _ _ ih => exact .environment h1 h2 h3 ih

theorem rejected_prefix {a x cs e} (h : Converts false a x) (h' : Rejected cs e) : Rejected (a ++ cs) e := by
  cases h' with
  | unexpected hp => rw [← List.append_assoc]; exact .unexpected (converts_append h hp)
  | unclosed hp hu => rw [← List.append_assoc]; exact .unclosed (converts_append h hp) hu
  | brackets hp hi hr => rw [← List.append_assoc]; exact .brackets (converts_append h hp) hi hr
  | scope hp hr => rw [← List.append_assoc]; exact .scope (converts_append h hp) hr
  | arg hp hl hb hr => rw [← List.append_assoc]; exact .arg (converts_append h hp) hl hb hr
  | envArg hp hb hr => rw [← List.append_assoc]; exact .envArg (converts_append h hp) hb hr
  | envContent hp hb hr => rw [← List.append_assoc]; exact .envContent (converts_append h hp) hb hr

/-- The arguments all convert, or there is a first one that does not. -/
theorem args_total {args : List (Str × Ast2.Scope)}
    (h : ∀ p inner sv, (p, Ast2.Scope.mk inner sv) ∈ args → (∃ out, Converts false inner out) ∨ ∃ e, Rejected inner e) :
    (∃ contents : List (List Chunk), contents.length = args.length ∧
      ∀ p inner sv content, ((p, Ast2.Scope.mk inner sv), content) ∈ args.zip contents → Converts false inner content) ∨
    (∃ before p inner sv after e, args = before ++ (p, .mk inner sv) :: after ∧
      (∀ q c v, (q, Ast2.Scope.mk c v) ∈ before → ∃ content, Converts false c content) ∧ Rejected inner e) := by
  induction args with
  | nil => exact .inl ⟨[], rfl, by simp⟩
  | cons x r ih =>
    obtain ⟨p, inner, sv⟩ := x
    rcases h p inner sv (.head _) with ⟨out, ho⟩ | ⟨e, he⟩
    · rcases ih (fun q c v hm => h q c v (.tail _ hm)) with ⟨cs, h1, h2⟩ | ⟨b, q, c, v, a, e, rfl, h2, h3⟩
      · refine .inl ⟨out :: cs, by simp [h1], ?_⟩
        intro q c v content hm
        simp at hm
        rcases hm with ⟨⟨rfl, rfl, rfl⟩, rfl⟩ | hm
        · exact ho
        · exact h2 q c v content hm
      · refine .inr ⟨(p, .mk inner sv) :: b, q, c, v, a, e, rfl, ?_, h3⟩
        intro q' c' v' hm
        simp at hm
        rcases hm with ⟨rfl, rfl, rfl⟩ | hm
        · exact ⟨out, ho⟩
        · exact h2 q' c' v' hm
    · exact .inr ⟨[], p, inner, sv, r, e, rfl, by simp, he⟩

theorem zip_mem_left {args : List (Str × Ast2.Scope)} {contents : List (List Chunk)} (hl : contents.length = args.length)
    {x} (h : x ∈ args) : ∃ c, (x, c) ∈ args.zip contents := by
  obtain ⟨i, hi, rfl⟩ := List.mem_iff_getElem.1 h
  exact ⟨contents[i]'(by omega), by
    rw [List.mem_iff_getElem]
    exact ⟨i, by simp; omega, by simp⟩⟩

theorem dollarFree_child {cs inner} (h : DollarFree cs) (hc : Ast2.Child2 cs inner) : DollarFree inner := by
  intro t ht
  cases hc with
  | scope h1 => exact h t (.scope h1 ht)
  | arg h1 h2 => exact h t (.arg h1 h2 ht)
  | envArg h1 h2 => exact h t (.envArg h1 h2 ht)
  | envContent h1 => exact h t (.envContent h1 ht)

theorem dollarFree_mono {cs cs'} (h : DollarFree cs') (hs : ∀ c ∈ cs, c ∈ cs') : DollarFree cs := fun t ht => h t (ht.mono hs)

/-- Without dollars, a sequence is well formed or rejected. -/
theorem dollarFree_total : ∀ n cs, sizeChunks cs ≤ n → DollarFree cs →
    (∃ out, Converts false cs out) ∨ ∃ e, Rejected cs e := by
  intro n
  induction n with
  | zero =>
    intro cs hn hd
    cases cs with
    | nil => exact .inl ⟨_, .nil⟩
    | cons c cs => obtain ⟨l, v⟩ := c; simp [sizeChunks, sizeChunk] at hn
  | succ n ih =>
    intro cs hn hd
    cases cs with
    | nil => exact .inl ⟨_, .nil⟩
    | cons c rest =>
      have hrest : sizeChunks rest ≤ n := by
        obtain ⟨l, v⟩ := c; simp [sizeChunks, sizeChunk] at hn; omega
      have hdr : DollarFree rest := dollarFree_mono hd (by intro c hc; simp [hc])
      have hsub : ∀ inner, Ast2.Child2 (c :: rest) inner → (∃ out, Converts false inner out) ∨ ∃ e, Rejected inner e := by
        intro inner hc
        exact ih inner (by have := child_size hc; omega) (dollarFree_child hd hc)
      have cont : ∀ x, (∀ out, Converts false rest out → Converts false (c :: rest) (x ++ out)) → Converts false [c] x →
          (∃ out, Converts false (c :: rest) out) ∨ ∃ e, Rejected (c :: rest) e := by
        intro x h1 h2
        rcases ih rest hrest hdr with ⟨out, ho⟩ | ⟨e, he⟩
        · exact .inl ⟨_, h1 out ho⟩
        · exact .inr ⟨e, rejected_prefix h2 he⟩
      obtain ⟨l, v⟩ := c
      cases v with
      | text t =>
        have ht : '$' ∉ t := hd t (.here (.head _))
        exact cont (textIf l t) (fun out h => .text ht h) (by simpa using Converts.text (strict := false) (l := l) ht .nil)
      | scope sc =>
        obtain ⟨inner, sv⟩ := sc
        rcases hsub inner (.scope (.head _)) with ⟨x, hx⟩ | ⟨e, he⟩
        · exact cont [.mk l (.scope (.mk (paragraphs x) sv))] (fun out h => .scope hx h) (.scope hx .nil)
        · exact .inr ⟨e, .scope .nil he⟩
      | environment env =>
        obtain ⟨label, args, body, pb, pe⟩ := env
        rcases args_total (fun p inner sv hm => hsub inner (.envArg (.head _) hm)) with ⟨contents, h1, h2⟩ | ⟨b, p, inner, sv, a, e, rfl, h2, h3⟩
        · rcases hsub body (.envContent (.head _)) with ⟨x, hx⟩ | ⟨e, he⟩
          · exact cont _ (fun out h => .environment h1 h2 hx h) (.environment h1 h2 hx .nil)
          · refine .inr ⟨e, .envContent .nil ?_ he⟩
            intro q c v hm
            obtain ⟨x, hx⟩ := zip_mem_left h1 hm
            exact ⟨x, h2 _ _ _ _ hx⟩
        · exact .inr ⟨e, .envArg .nil h2 h3⟩
      | command cmd =>
        obtain ⟨label, args⟩ := cmd
        by_cases hl : IsDelimiter label
        · obtain ⟨k, rfl | rfl⟩ := isMathsLabel_iff'.2 hl
          · rcases split_inside k _ rest (Nat.le_refl _) with ⟨body, inner, l', args', post, rfl, hi⟩ | hu
            · have hin : sizeChunks inner ≤ n := by
                have := inside_size hi
                simp [sizeChunks_append] at hrest; omega
              rcases ih inner hin (dollarFree_mono hdr (by intro c hc; simp [inside_mem hi c hc])) with ⟨x, hx⟩ | ⟨e, he⟩
              · rcases ih post (by simp [sizeChunks_append, sizeChunks] at hrest; omega)
                  (dollarFree_mono hdr (by intro c hc; simp [hc])) with ⟨y, hy⟩ | ⟨e, he⟩
                · exact .inl ⟨_, .brackets hi (by simp) hx hy⟩
                · have := rejected_prefix (.brackets (l := l) (args := args) (l' := l') (args' := args') hi (by simp) hx .nil) he
                  exact .inr ⟨e, by simpa using this⟩
              · exact .inr ⟨e, .brackets .nil hi he⟩
            · exact .inr ⟨_, .unclosed .nil hu⟩
          · exact .inr ⟨_, .unexpected .nil⟩
        · rcases args_total (fun p inner sv hm => hsub inner (.arg (.head _) hm)) with ⟨contents, h1, h2⟩ | ⟨b, p, inner, sv, a, e, rfl, h2, h3⟩
          · exact cont _ (fun out h => .command hl h1 h2 h) (.command hl h1 h2 .nil)
          · exact .inr ⟨e, .arg .nil hl h2 h3⟩

end LatexAst.Ast3
