import Verif.Proofs.MachineBack2
import Verif.Proofs.Depth2
import Verif.Proofs.Depth3
import Verif.Proofs.Back3

/-! Stage 3 back to stage 2 with machine integers. -/

namespace LatexAst.Ast2

theorem LinesBelow.child {B d inner} (h : LinesBelow B d) (hc : Child2 d inner) : LinesBelow B inner :=
  fun k lv hl => h (k + 1) lv (levelAt_child hc hl)

theorem LinesBelow.of_children {B d} (h : ∀ l v, Chunk.mk l v ∈ d → l < B) (hc : ∀ inner, Child2 d inner → LinesBelow B inner) :
    LinesBelow B d := by
  intro k lv hl
  cases k with
  | zero => cases hl; exact h
  | succ k =>
    obtain ⟨inner, h1, h2⟩ := levelAt_head hl
    exact hc inner h2 k lv h1

/-- Every chunk of `a` is in `b`, its text or its line number (not less in `b`) apart. -/
def Like (a b : List Chunk) : Prop := ∀ l v, Chunk.mk l v ∈ a → ∃ l' v', Chunk.mk l' v' ∈ b ∧ l ≤ l' ∧ (v' = v ∨ ∃ t t', v = .text t ∧ v' = .text t')

theorem Like.child {a b inner} (hs : Like a b) (hc : Child2 a inner) : Child2 b inner := by
  cases hc with
  | scope hm =>
    obtain ⟨l', v', h1, _, rfl | ⟨t, t', h2, _⟩⟩ := hs _ _ hm
    · exact .scope h1
    · cases h2
  | arg hm ha =>
    obtain ⟨l', v', h1, _, rfl | ⟨t, t', h2, _⟩⟩ := hs _ _ hm
    · exact .arg h1 ha
    · cases h2
  | envArg hm ha =>
    obtain ⟨l', v', h1, _, rfl | ⟨t, t', h2, _⟩⟩ := hs _ _ hm
    · exact .envArg h1 ha
    · cases h2
  | envContent hm =>
    obtain ⟨l', v', h1, _, rfl | ⟨t, t', h2, _⟩⟩ := hs _ _ hm
    · exact .envContent h1
    · cases h2

theorem LinesBelow.like {B a b} (h : LinesBelow B b) (hs : Like a b) : LinesBelow B a := by
  refine .of_children ?_ fun inner hc => h.child (hs.child hc)
  intro l v hm
  obtain ⟨l', v', h1, h2, _⟩ := hs l v hm
  exact Nat.lt_of_le_of_lt h2 (h 0 _ .top _ _ h1)

theorem like_sub {a b : List Chunk} (h : ∀ c ∈ a, c ∈ b) : Like a b := fun l v hm => ⟨l, v, h _ hm, Nat.le_refl _, .inl rfl⟩

theorem like_shift (k : Nat) (a : List Chunk) : Like a (a.map (Chunk.shift k)) := fun l v hm =>
  ⟨l + k, v, List.mem_map.2 ⟨_, hm, rfl⟩, Nat.le_add_right _ _, .inl rfl⟩

theorem Like.trans {a b c} (h : Like a b) (h' : Like b c) : Like a c := by
  intro l v hm
  obtain ⟨l1, v1, h1, h2, h3⟩ := h l v hm
  obtain ⟨l2, v2, g1, g2, g3⟩ := h' l1 v1 h1
  refine ⟨l2, v2, g1, Nat.le_trans h2 g2, ?_⟩
  rcases h3 with rfl | ⟨t, t', rfl, rfl⟩
  · exact g3
  · rcases g3 with rfl | ⟨s, s', _, rfl⟩
    · exact .inr ⟨_, _, rfl, rfl⟩
    · exact .inr ⟨_, _, rfl, rfl⟩

/-- All line numbers in the arguments are less than `B`. -/
def ArgsBelow (B : Nat) (args : List (Str × Scope)) : Prop := ∀ p inner sv, (p, Scope.mk inner sv) ∈ args → LinesBelow B inner

end LatexAst.Ast2

namespace LatexAst.Ast3
open Ast2 (Like)

theorem LinesBelow.child {B d inner} (h : LinesBelow B d) (hc : Child3 d inner) : LinesBelow B inner :=
  fun k lv hl => h (k + 1) lv (levelAt_child hc hl)

theorem LinesBelow.of_children {B d} (h : ∀ l v, Chunk.mk l v ∈ d → l < B) (hc : ∀ inner, Child3 d inner → LinesBelow B inner) :
    LinesBelow B d := by
  intro k lv hl
  cases k with
  | zero => cases hl; exact h
  | succ k =>
    obtain ⟨inner, h1, h2⟩ := levelAt_head hl
    exact hc inner h2 k lv h1

theorem LinesBelow.sub {B a b} (h : LinesBelow B b) (hs : ∀ c ∈ a, c ∈ b) : LinesBelow B a :=
  .of_children (fun l v hm => h 0 _ .top l v (hs _ hm)) fun inner hc => h.child (child3_sub hc hs)

/-- All line numbers in the arguments are less than `B`. -/
def ArgsBelow (B : Nat) (args : List (Str × Scope)) : Prop := ∀ p inner sv, (p, Scope.mk inner sv) ∈ args → LinesBelow B inner

theorem like_prepend (d : Str) (cs : List Ast2.Chunk) : Like cs (prependDollars d cs) := by
  unfold prependDollars
  split
  next l s cs =>
    intro l' v hm
    rcases List.mem_cons.1 hm with h | h
    · cases h; exact ⟨_, _, .head _, Nat.le_refl _, .inr ⟨_, _, rfl, rfl⟩⟩
    · exact ⟨_, _, .tail _ h, Nat.le_refl _, .inl rfl⟩
  · exact Ast2.like_sub fun c hc => .tail _ hc

theorem like_append (d : Str) (n : Nat) (cs : List Ast2.Chunk) : Like cs (appendDollars d n cs) := by
  unfold appendDollars
  split
  next l s hg =>
    have hs : cs = cs.dropLast ++ [Ast2.Chunk.mk l (.text s)] := by
      obtain ⟨ys, rfl⟩ := List.getLast?_eq_some_iff.1 hg
      rw [List.dropLast_concat]
    intro l' v hm
    rw [hs] at hm
    rcases List.mem_append.1 hm with h | h
    · exact ⟨_, _, List.mem_append_left _ h, Nat.le_refl _, .inl rfl⟩
    · simp only [List.mem_singleton, Ast2.Chunk.mk.injEq] at h
      obtain ⟨rfl, rfl⟩ := h
      exact ⟨_, _, List.mem_append_right _ (.head _), Nat.le_refl _, .inr ⟨_, _, rfl, rfl⟩⟩
  · exact Ast2.like_sub fun c hc => List.mem_append_left _ hc

theorem like_wrap (v t n cs) : Like cs (wrapMaths v t n cs) := by
  cases v with
  | brackets =>
    cases t <;> exact Ast2.like_sub fun c hc => List.mem_append_right _ (List.mem_append_left _ hc)
  | dollars =>
    simp only [wrapMaths]
    split
    next h =>
      have : cs = [] := by cases cs with
        | nil => rfl
        | cons a b => cases h
      subst this
      intro l v hm; cases hm
    · exact (like_prepend _ cs).trans (like_append _ _ _)

variable (A : Arith)

theorem shiftChunksA_eq (k : Nat) (cs : List Ast2.Chunk) (h : ∀ l v, Ast2.Chunk.mk l v ∈ cs → l + k < u32Size) :
    shiftChunksA A (.ok k) cs = .ok (cs.map (Ast2.Chunk.shift k)) := by
  induction cs with
  | nil => rfl
  | cons c cs ih =>
    obtain ⟨l, v⟩ := c
    rw [shiftChunksA]
    rw [A.add_exact _ _ (h l v (.head _))]
    simp only
    rw [ih fun l v hm => h l v (.tail _ hm)]
    rfl

mutual
theorem intoVariantA_eq : ∀ (v : ChunkVariant) (line : Nat) (r : List Ast2.Chunk), intoVariant line v = .ok r →
    Ast2.LinesBelow u32Size r → LinesBelow u32Size [.mk line v] → v.display.length + 1 < u32Size → intoVariantA A line v = .ok r
  | .text s, line, r, h, hl, hi, hd => by rw [intoVariant] at h; rw [intoVariantA, ← h]
  | .paragraphBreak s, line, r, h, hl, hi, hd => by rw [intoVariant] at h; rw [intoVariantA, ← h]
  | .scope sc, line, r, h, hl, hi, hd => by
    rw [intoVariant] at h
    cases hx : intoScope sc with
    | error f => rw [hx] at h; cases h
    | ok y =>
      rw [hx] at h
      cases h
      rw [intoVariantA, intoScopeA_eq sc y hx (fun inner sv he => by subst he; exact hl.child (.scope (.head _)))
        (fun inner sv he => by subst he; exact hi.child (.scope (.head _))) (by simpa [ChunkVariant.display] using hd)]
  | .command c, line, r, h, hl, hi, hd => by
    rw [intoVariant] at h
    cases hx : intoCommand c with
    | error f => rw [hx] at h; cases h
    | ok y =>
      rw [hx] at h
      cases h
      rw [intoVariantA, intoCommandA_eq c y hx (fun label args he => by subst he; exact fun p inner sv hm => hl.child (.arg (.head _) hm))
        (fun label args he => by subst he; exact fun p inner sv hm => hi.child (.arg (.head _) hm)) (by simpa [ChunkVariant.display] using hd)]
  | .environment e, line, r, h, hl, hi, hd => by
    rw [intoVariant] at h
    cases hx : intoEnvironment e with
    | error f => rw [hx] at h; cases h
    | ok y =>
      rw [hx] at h
      cases h
      rw [intoVariantA, intoEnvironmentA_eq e y hx hl hi (by simpa [ChunkVariant.display] using hd)]
  | .mathsBlock m, line, r, h, hl, hi, hd => by
    rw [intoVariant] at h
    cases hx : intoMaths m with
    | error f => rw [hx] at h; cases h
    | ok cs =>
      rw [hx] at h
      simp only at h
      split at h
      · cases h
      next hz =>
        cases h
        have hline := hi 0 _ .top _ _ (.head _)
        rw [intoVariantA, intoMathsA_eq m cs hx (hl.like (Ast2.like_shift _ _))
          (fun v t content he => by subst he; exact hi.child (.maths (.head _))) (by simpa [ChunkVariant.display] using hd)]
        simp only
        rw [A.sub_exact _ _ (by omega) hline]
        exact shiftChunksA_eq A _ cs fun l v hm => hl 0 _ .top _ _ (List.mem_map.2 ⟨_, hm, rfl⟩)
theorem intoCommandA_eq : ∀ (c : Command) (r : Ast2.Command), intoCommand c = .ok r →
    (∀ label args, r = .mk label args → Ast2.ArgsBelow u32Size args) → (∀ label args, c = .mk label args → ArgsBelow u32Size args) →
    c.display.length + 1 < u32Size → intoCommandA A c = .ok r
  | .mk label args, r, h, hl, hi, hd => by
    rw [intoCommand] at h
    cases hx : intoArgs args with
    | error f => rw [hx] at h; cases h
    | ok y =>
      rw [hx] at h
      cases h
      simp only [Command.display, List.length_cons, List.length_append] at hd
      rw [intoCommandA, intoArgsA_eq args y hx (hl _ _ rfl) (hi _ _ rfl) (by omega)]
theorem intoScopeA_eq : ∀ (sc : Scope) (r : Ast2.Scope), intoScope sc = .ok r →
    (∀ inner sv, r = .mk inner sv → Ast2.LinesBelow u32Size inner) → (∀ inner sv, sc = .mk inner sv → LinesBelow u32Size inner) →
    sc.display.length + 1 < u32Size → intoScopeA A sc = .ok r
  | .mk chunks sv, r, h, hl, hi, hd => by
    rw [intoScope] at h
    cases hx : intoChunks chunks with
    | error f => rw [hx] at h; cases h
    | ok y =>
      rw [hx] at h
      cases h
      simp only [Scope.display, List.length_cons, List.length_append] at hd
      rw [intoScopeA, intoChunksA_eq chunks y hx (hl _ _ rfl) (hi _ _ rfl) (by omega)]
theorem intoEnvironmentA_eq : ∀ (e : Environment) {line : Nat} (r : Ast2.Environment), intoEnvironment e = .ok r →
    Ast2.LinesBelow u32Size [.mk line (.environment r)] → LinesBelow u32Size [.mk line (.environment e)] →
    e.display.length + 1 < u32Size → intoEnvironmentA A e = .ok r
  | .mk label args content pb pe, line, r, h, hl, hi, hd => by
    rw [intoEnvironment] at h
    simp only [Environment.display, List.length_append, List.length_cons] at hd
    rw [intoEnvironmentA]
    cases ha : intoArgs args with
    | error f => rw [ha] at h; cases h
    | ok args' =>
      rw [ha] at h
      simp only at h
      cases hc : intoChunks content with
      | error f => rw [hc] at h; cases h
      | ok content' =>
        rw [hc] at h
        cases h
        rw [intoArgsA_eq args args' ha (fun p inner sv hm => hl.child (.envArg (.head _) hm))
          (fun p inner sv hm => hi.child (.envArg (.head _) hm)) (by omega)]
        simp only
        rw [intoChunksA_eq content content' hc (hl.child (.envContent (.head _))) (hi.child (.envContent (.head _))) (by omega)]
theorem intoMathsA_eq : ∀ (m : MathsBlock) (r : List Ast2.Chunk), intoMaths m = .ok r →
    Ast2.LinesBelow u32Size r → (∀ v t content, m = .mk v t content → LinesBelow u32Size content) →
    m.display.length + 1 < u32Size → intoMathsA A m = .ok r
  | .mk v t content, r, h, hl, hi, hd => by
    rw [intoMaths] at h
    cases hx : intoChunks content with
    | error f => rw [hx] at h; cases h
    | ok cs =>
      rw [hx] at h
      cases h
      have hn := Ast2.newlines_le (displayChunks content)
      have hs := linesSum_eq content
      simp only [MathsBlock.display, List.length_append] at hd
      rw [intoMathsA, MathsBlock.linesA_eq A _ (by simp only [MathsBlock.lines]; omega)]
      simp only
      rw [intoChunksA_eq content cs hx (hl.like (like_wrap _ _ _ _)) (hi _ _ _ rfl) (by omega)]
      rfl
theorem intoChunksA_eq : ∀ (cs : List Chunk) (r : List Ast2.Chunk), intoChunks cs = .ok r →
    Ast2.LinesBelow u32Size r → LinesBelow u32Size cs → (displayChunks cs).length + 1 < u32Size → intoChunksA A cs = .ok r
  | [], r, h, hl, hi, hd => by rw [intoChunks] at h; rw [intoChunksA, ← h]
  | .mk l v :: cs, r, h, hl, hi, hd => by
    rw [intoChunks] at h
    simp only [displayChunks, Chunk.display, List.length_append] at hd
    cases hx : intoVariant l v with
    | error f => rw [hx] at h; cases h
    | ok xs =>
      rw [hx] at h
      simp only at h
      cases hy : intoChunks cs with
      | error f => rw [hy] at h; cases h
      | ok ys =>
        rw [hy] at h
        cases h
        rw [intoChunksA, intoVariantA_eq v l xs hx (hl.like (Ast2.like_sub fun c hc => List.mem_append_left _ hc))
          (hi.sub fun c hc => by cases hc with | head => exact .head _ | tail _ h => cases h) (by omega)]
        simp only
        rw [intoChunksA_eq cs ys hy (hl.like (Ast2.like_sub fun c hc => List.mem_append_right _ hc))
          (hi.sub fun c hc => .tail _ hc) (by omega)]
theorem intoArgsA_eq : ∀ (args : List (Str × Scope)) (r : List (Str × Ast2.Scope)), intoArgs args = .ok r →
    Ast2.ArgsBelow u32Size r → ArgsBelow u32Size args → (displayArgs args).length + 1 < u32Size → intoArgsA A args = .ok r
  | [], r, h, hl, hi, hd => by rw [intoArgs] at h; rw [intoArgsA, ← h]
  | (prec, sc) :: args, r, h, hl, hi, hd => by
    rw [intoArgs] at h
    simp only [displayArgs, List.length_append] at hd
    cases hx : intoScope sc with
    | error f => rw [hx] at h; cases h
    | ok s =>
      rw [hx] at h
      simp only at h
      cases hy : intoArgs args with
      | error f => rw [hy] at h; cases h
      | ok ys =>
        rw [hy] at h
        cases h
        rw [intoArgsA, intoScopeA_eq sc s hx (fun inner sv he => by subst he; exact hl _ _ _ (.head _))
          (fun inner sv he => by subst he; exact hi _ _ _ (.head _)) (by omega)]
        simp only
        rw [intoArgsA_eq args ys hy (fun p inner sv hm => hl p inner sv (.tail _ hm))
          (fun p inner sv hm => hi p inner sv (.tail _ hm)) (by omega)]
end

theorem bodyArgLinesA_eq : ∀ (args : List (Str × Scope)) (acc : Nat), acc + linesArgs args + 1 < u32Size →
    bodyArgLinesA A acc args = .ok (acc + linesArgs args)
  | [], acc, _ => rfl
  | (prec, sc) :: r, acc, h => by
    simp only [linesArgs] at h
    have hp : 1 ≤ sc.lines := by rw [Scope.lines_eq]; omega
    simp only [bodyArgLinesA, linesArgs]
    rw [sc.linesA_eq A (by omega)]
    simp only
    rw [asU32_small (by omega), A.add_exact _ _ (by omega)]
    simp only
    rw [A.sub_exact _ _ (by omega) (by omega)]
    simp only
    rw [A.add_exact _ _ (by omega)]
    simp only
    rw [bodyArgLinesA_eq r _ (by omega)]
    congr 1
    omega

theorem toAst2A_eq (f : Document) (e : Ast2.Document) (h : toAst2 f = .ok e)
    (hp : LinesBelow u32Size f.preamable) (hb : LinesBelow u32Size f.body) (ht : LinesBelow u32Size f.trailing) (ha : ArgsBelow u32Size f.bodyArgs)
    (cp : ∀ r, intoChunks f.preamable = .ok r → Ast2.LinesBelow u32Size r)
    (cb : ∀ r, intoChunks f.body = .ok r → Ast2.LinesBelow (u32Size - f.written.length) r)
    (ct : ∀ r, intoChunks f.trailing = .ok r → Ast2.LinesBelow (u32Size - f.written.length) r)
    (ca : ∀ r, intoArgs f.bodyArgs = .ok r → Ast2.ArgsBelow u32Size r)
    (hw : f.written.length + 1 < u32Size) : toAst2A A f = .ok e := by
  have hw' : f.written = displayChunks f.preamable ++ (chars!"\\begin" ++ f.bodyBeginPrec ++ chars!"{document}" ++ displayArgs f.bodyArgs ++
      displayChunks f.body ++ chars!"\\end" ++ f.bodyEndPrec ++ chars!"{document}") ++ displayChunks f.trailing := by
    simp [Document.written]
  have hlen := congrArg List.length hw'
  simp only [List.length_append] at hlen
  generalize f.written.length = w at *
  unfold toAst2 at h
  unfold toAst2A
  rcases into_spec f.preamable with ⟨_, pre, h2, h3⟩ | ⟨_, h2⟩
  case inr => rw [h2] at h; cases h
  rw [h2] at h
  rw [intoChunksA_eq A _ _ h2 (cp _ h2) hp (by omega)]
  simp only at h ⊢
  have n1 := Ast2.newlines_le (displayChunks f.preamable)
  have e1 := Ast2.linesSum_eq pre
  rw [h3] at e1
  rw [Ast2.linesSumA_eq A pre 0 (by omega)]
  simp only [Nat.zero_add]
  have n2 := Ast2.newlines_le (displayArgs f.bodyArgs)
  have e2 := linesArgs_eq f.bodyArgs
  rw [bodyArgLinesA_eq A _ 0 (by omega)]
  simp only [Nat.zero_add]
  have n3 := Ast2.newlines_le f.bodyBeginPrec
  rw [asU32_small (by omega), A.add_exact _ _ (by omega)]
  simp only
  rcases into_spec f.body with ⟨_, body, b2, b3⟩ | ⟨_, b2⟩
  case inr => rw [b2] at h; cases h
  rw [b2] at h
  rw [intoChunksA_eq A _ _ b2 (fun k lv hk l v hm => by have := cb _ b2 k lv hk l v hm; omega) hb (by omega)]
  simp only at h ⊢
  rw [shiftChunksA_eq A _ body (fun l v hm => by have := cb _ b2 0 _ .top l v hm; omega)]
  simp only
  cases hx : intoArgs f.bodyArgs with
  | error g => rw [hx] at h; cases h
  | ok args =>
    rw [hx] at h
    rw [intoArgsA_eq A _ _ hx (ca _ hx) ha (by omega)]
    simp only at h ⊢
    have a3 : Ast2.displayArgs args = displayArgs f.bodyArgs := by
      rcases into_args_spec f.bodyArgs with ⟨_, args', a2, a3⟩ | ⟨_, a2⟩
      · rw [a2] at hx; cases hx; exact a3
      · rw [a2] at hx; cases hx
    generalize hbc : Ast2.Chunk.mk (Ast2.linesSum pre) (.environment (.mk chars!"document" args
        (body.map (Ast2.Chunk.shift (linesArgs f.bodyArgs + newlines f.bodyBeginPrec))) f.bodyBeginPrec f.bodyEndPrec)) = bc at h ⊢
    have hbd : bc.display.length + (displayChunks f.preamable).length + (displayChunks f.trailing).length = w := by
      rw [← hbc, display_body2, display2_shift, b3, a3]
      simp only [List.length_append]
      omega
    have n4 := Ast2.newlines_le bc.display
    have e4 := Ast2.Chunk.lines_eq bc
    rw [Ast2.Chunk.linesA_eq A bc (by omega)]
    simp only
    rw [A.add_exact _ _ (by omega)]
    simp only
    by_cases hz : bc.lines + Ast2.linesSum pre < 2
    · rw [show checkedSub (bc.lines + Ast2.linesSum pre) 2 = .error .panic by simp [checkedSub, panicked, hz]] at h
      cases h
    · rw [show checkedSub (bc.lines + Ast2.linesSum pre) 2 = .ok (bc.lines + Ast2.linesSum pre - 2) by simp [checkedSub, hz]] at h
      rw [A.sub_exact _ _ (by omega) (by omega)]
      simp only at h ⊢
      rcases into_spec f.trailing with ⟨_, tr, t2, t3⟩ | ⟨_, t2⟩
      case inr => rw [t2] at h; cases h
      rw [t2] at h
      rw [intoChunksA_eq A _ _ t2 (fun k lv hk l v hm => by have := ct _ t2 k lv hk l v hm; omega) ht (by omega)]
      simp only at h ⊢
      rw [shiftChunksA_eq A _ tr (fun l v hm => by have := ct _ t2 0 _ .top l v hm; omega)]
      exact h

end LatexAst.Ast3
