import Verif.Model.Cost3
import Verif.Proofs.Cost2
import Verif.Proofs.Depth3b
import Verif.Proofs.Size

/-! The stage-3 conversion with a step counter: its answers and its number of steps. -/

namespace LatexAst.Ast3

section
variable {rec : List Ast2.Chunk → Counted (List Chunk)}

theorem tryScopeN_fst (sc) : (tryScopeN rec sc).1 = tryScope (fun a => (rec a).1) sc := by
  obtain ⟨cs, v⟩ := sc
  simp only [tryScopeN, tryScope, andThen_fst, free_fst, paragraphsN]
  cases (rec cs).1 <;> rfl

theorem tryArgsN_fst (args) : (tryArgsN rec args).1 = tryArgs (fun a => (rec a).1) args := by
  induction args with
  | nil => rfl
  | cons x r ih =>
    obtain ⟨p, sc⟩ := x
    simp only [tryArgsN, tryArgs, andThen_fst, tryScopeN_fst, ih, free_fst]
    cases tryScope (fun a => (rec a).1) sc with
    | error f => rfl
    | ok s => simp only; cases tryArgs (fun a => (rec a).1) r <;> rfl

theorem tryCommandN_fst (c) : (tryCommandN rec c).1 = tryCommand (fun a => (rec a).1) c := by
  obtain ⟨l, args⟩ := c
  simp only [tryCommandN, tryCommand, andThen_fst, tryArgsN_fst, free_fst]
  cases tryArgs (fun a => (rec a).1) args <;> rfl

theorem tryEnvironmentN_fst (c) : (tryEnvironmentN rec c).1 = tryEnvironment (fun a => (rec a).1) c := by
  obtain ⟨l, args, content, pb, pe⟩ := c
  simp only [tryEnvironmentN, tryEnvironment, andThen_fst, tryArgsN_fst, free_fst, paragraphsN]
  cases tryArgs (fun a => (rec a).1) args with
  | error f => rfl
  | ok s => simp only; cases (rec content).1 <;> rfl

theorem closeDollarsN_fst (t type) : (closeDollarsN rec t type).1 = closeDollars (fun a => (rec a).1) t type := by
  simp only [closeDollarsN, closeDollars, andThen_fst, rebaseN, free_fst]
  generalize rebase t.textBufferLine _ = x
  cases x with
  | error f => rfl
  | ok b => simp only; cases (rec b).1 <;> rfl

theorem stepDollarN_fst (t) : (stepDollarN rec t).1 = stepDollar (fun a => (rec a).1) t := by
  simp only [stepDollarN, stepDollar]
  generalize t.m.mode = m
  cases m with
  | singleDollar v =>
    cases v
    · rfl
    · simp only; split
      · rfl
      · exact closeDollarsN_fst _ _
  | doubleDollar v => cases v <;> rfl
  | doubleClosing => exact closeDollarsN_fst _ _
  | none => rfl

theorem stepCharN_fst (t c) : (stepCharN rec t c).1 = stepChar (fun a => (rec a).1) t c := by
  simp only [stepCharN, stepChar]
  generalize (if c = '\n' then _ else t : TState) = t'
  split
  · exact stepDollarN_fst _
  · rfl

theorem runTextN_fst (str) : ∀ t, (runTextN rec str t).1 = runText (fun a => (rec a).1) str t := by
  induction str with
  | nil => intro t; rfl
  | cons c cs ih =>
    intro t
    simp only [runTextN, runText, andThen_fst, stepCharN_fst]
    cases stepChar (fun a => (rec a).1) t c with
    | error f => rfl
    | ok t => exact ih t

theorem stepMathsTextN_fst (s l str) : (stepMathsTextN rec s l str).1 = stepMathsText (fun a => (rec a).1) s l str := by
  simp only [stepMathsTextN, stepMathsText, andThen_fst, runTextN_fst, free_fst]
  cases runText (fun a => (rec a).1) str ⟨s, l, [], l⟩ <;> rfl

theorem closeBracketsN_fst (s type) : (closeBracketsN rec s type).1 = closeBrackets (fun a => (rec a).1) s type := by
  simp only [closeBracketsN, closeBrackets, andThen_fst, free_fst]
  cases (rec s.buffer).1 <;> rfl

theorem ite_fst {α : Type} {c : Prop} [Decidable c] {a b : Counted α} {a' b' : Res α} (ha : a.1 = a') (hb : b.1 = b') :
    (if c then a else b).1 = if c then a' else b' := by split <;> assumption

theorem stepMathsCommandN_fst (s l cmd) : (stepMathsCommandN rec s l cmd).1 = stepMathsCommand (fun a => (rec a).1) s l cmd := by
  unfold stepMathsCommandN stepMathsCommand
  refine ite_fst rfl (ite_fst rfl (ite_fst rfl (ite_fst rfl (ite_fst rfl (ite_fst (closeBracketsN_fst _ _)
    (ite_fst (closeBracketsN_fst _ _) (ite_fst ?_ (ite_fst ?_ (ite_fst ?_ rfl)))))))))
  · rw [andThen_fst, free_fst]; cases checkedSub s.depth 1 <;> rfl
  · rw [andThen_fst, free_fst]; cases checkedSub s.depth 1 <;> rfl
  · rw [andThen_fst, tryCommandN_fst]; cases tryCommand (fun a => (rec a).1) cmd <;> rfl

theorem stepMathsN_fst (s c) : (stepMathsN rec s c).1 = stepMaths (fun a => (rec a).1) s c := by
  obtain ⟨l, v⟩ := c
  cases v with
  | text t => exact ite_fst rfl (stepMathsTextN_fst _ _ _)
  | command c => exact stepMathsCommandN_fst _ _ _
  | scope sc =>
    refine ite_fst ?_ rfl
    rw [andThen_fst, tryScopeN_fst]; cases tryScope (fun a => (rec a).1) sc <;> rfl
  | environment e =>
    refine ite_fst ?_ rfl
    rw [andThen_fst, tryEnvironmentN_fst]; cases tryEnvironment (fun a => (rec a).1) e <;> rfl

theorem runMathsN_fst (cs) : ∀ s, (runMathsN rec cs s).1 = runMaths (fun a => (rec a).1) cs s := by
  induction cs with
  | nil => intro s; rfl
  | cons c cs ih =>
    intro s
    simp only [runMathsN, runMaths, andThen_fst, stepMathsN_fst]
    cases stepMaths (fun a => (rec a).1) s c with
    | error f => rfl
    | ok t => exact ih t

theorem finishMathsN_fst (s) : (finishMathsN s).1 = finishMaths s := ite_fst rfl rfl

theorem mathsFuelN_fst (n) : ∀ cs, (mathsFuelN n cs).1 = mathsFuel n cs := by
  induction n with
  | zero => intro cs; rfl
  | succ n ih =>
    intro cs
    have hr : (fun a => (mathsFuelN n a).1) = mathsFuel n := funext ih
    simp only [mathsFuelN, mathsFuel, andThen_fst, runMathsN_fst, hr]
    cases runMaths (mathsFuel n) cs MState.init with
    | error f => rfl
    | ok s => exact finishMathsN_fst s

theorem mathsFromChunksN_fst (cs) : (mathsFromChunksN cs).1 = mathsFromChunks cs := mathsFuelN_fst _ _

theorem stepDocumentN_fst (s c) : (stepDocumentN s c).1 = stepDocument s c := by
  have hr : (fun a => (mathsFromChunksN a).1) = mathsFromChunks := funext mathsFromChunksN_fst
  obtain ⟨l, v⟩ := c
  cases v with
  | text t => rfl
  | scope sc => rfl
  | environment e =>
    refine ite_fst ?_ rfl
    rw [andThen_fst, tryEnvironmentN_fst, hr]
    cases tryEnvironment mathsFromChunks e with
    | error f => rfl
    | ok e => obtain ⟨a, b, c, d, e⟩ := e; rfl
  | command c =>
    refine ite_fst (ite_fst rfl ?_) rfl
    rw [andThen_fst]
    simp only
    cases docClassArgs l c.arguments s.construct <;> rfl

theorem runDocumentN_fst (cs) : ∀ s, (runDocumentN cs s).1 = runDocument cs s := by
  induction cs with
  | nil => intro s; rfl
  | cons c cs ih =>
    intro s
    simp only [runDocumentN, runDocument, andThen_fst, stepDocumentN_fst]
    cases stepDocument s c with
    | error f => rfl
    | ok t => exact ih t

theorem tryFromN_fst (d) : (tryFromN d).1 = tryFrom d := by
  simp only [tryFromN, tryFrom, andThen_fst, runDocumentN_fst, mathsFromChunksN_fst, paragraphsN, free_fst]
  cases runDocument d DState.init with
  | error f => rfl
  | ok s =>
    simp only
    cases mathsFromChunks s.preamable with
    | error f => rfl
    | ok p => simp only; cases mathsFromChunks s.trailing <;> rfl

/-! ### the number of steps -/

/-- The size of a sequence: its nodes, and its printed characters twice. -/
def big (cs : List Ast2.Chunk) : Nat := Ast2.nodes cs + 2 * (Ast2.displayChunks cs).length

theorem big_cons (c cs) : big (c :: cs) = big [c] + big cs := by
  simp only [big, Ast2.nodes, Ast2.displayChunks, List.length_append, List.length_nil, Nat.add_zero]; omega

theorem big_append (a b) : big (a ++ b) = big a + big b := by
  induction a with
  | nil => simp [big, Ast2.nodes, Ast2.displayChunks]
  | cons x a ih => rw [List.cons_append, big_cons, ih, big_cons x a]; omega

theorem big_nil : big [] = 0 := rfl

theorem big_line (l l' v) : big [.mk l v] = big [.mk l' v] := by
  cases v with
  | text t => rfl
  | scope sc => obtain ⟨cs, v⟩ := sc; rfl
  | command c => obtain ⟨a, b⟩ := c; rfl
  | environment e => obtain ⟨a, b, c, d, e⟩ := e; rfl

theorem big_text (l t) : big [.mk l (.text t)] = 1 + 2 * t.length := by
  simp [big, Ast2.nodes, Ast2.Chunk.nodes, Ast2.displayChunks, Ast2.Chunk.display, Ast2.ChunkVariant.display]

theorem big_rebase {line cs cs'} (h : rebase line cs = .ok cs') : big cs' = big cs := by
  induction cs generalizing cs' with
  | nil => cases h; rfl
  | cons c cs ih =>
    obtain ⟨l, v⟩ := c
    simp only [rebase] at h
    cases h1 : checkedSub line 1 with
    | error p => rw [h1] at h; cases h
    | ok k =>
      rw [h1] at h
      simp only at h
      cases h2 : checkedSub l k with
      | error p => rw [h2] at h; cases h
      | ok l' =>
        rw [h2] at h
        simp only at h
        cases h3 : rebase line cs with
        | error p => rw [h3] at h; cases h
        | ok r =>
          rw [h3] at h
          cases h
          rw [big_cons, ih h3, big_cons (.mk l v), big_line l' l v]

/-- What the arguments cost. -/
def bigArgs : List (Str × Ast2.Scope) → Nat
  | [] => 0
  | (_, .mk cs _) :: r => big cs + 1 + bigArgs r

theorem bigArgs_le (args) : bigArgs args ≤ Ast2.argNodes args + 2 * (Ast2.displayArgs args).length := by
  induction args with
  | nil => exact Nat.zero_le _
  | cons x r ih =>
    obtain ⟨p, ⟨cs, v⟩⟩ := x
    simp only [bigArgs, big, Ast2.argNodes, Ast2.displayArgs, Ast2.Scope.display, List.length_append, List.length_cons,
      List.length_nil] at ih ⊢
    omega

theorem big_scope (l cs v) : big [.mk l (.scope (.mk cs v))] = big cs + 5 := by
  simp only [big, Ast2.nodes, Ast2.Chunk.nodes, Ast2.displayChunks, Ast2.Chunk.display, Ast2.ChunkVariant.display,
    Ast2.Scope.display, List.length_append, List.length_cons, List.length_nil]
  omega

theorem big_command (l label args) : bigArgs args + 3 ≤ big [.mk l (.command (.mk label args))] := by
  have := bigArgs_le args
  simp only [big, Ast2.nodes, Ast2.Chunk.nodes, Ast2.displayChunks, Ast2.Chunk.display, Ast2.ChunkVariant.display,
    Ast2.Command.display, List.length_append, List.length_cons, List.length_nil]
  omega

theorem big_environment (l label args content pb pe) :
    bigArgs args + big content + 3 ≤ big [.mk l (.environment (.mk label args content pb pe))] := by
  have := bigArgs_le args
  simp only [big, Ast2.nodes, Ast2.Chunk.nodes, Ast2.displayChunks, Ast2.Chunk.display, Ast2.ChunkVariant.display,
    Ast2.Environment.display, List.length_append, List.length_cons, List.length_nil]
  omega

theorem big_pos (c) : 1 ≤ big [c] := by
  obtain ⟨l, v⟩ := c
  cases v with
  | text t => rw [big_text]; omega
  | scope sc => obtain ⟨cs, v⟩ := sc; rw [big_scope]; omega
  | command c => obtain ⟨a, b⟩ := c; have := big_command l a b; omega
  | environment e => obtain ⟨a, b, c, d, e⟩ := e; have := big_environment l a b c d e; omega

/-! Splitting into paragraphs. -/

theorem parSteps_append (a b) : parSteps (a ++ b) = parSteps a + parSteps b := by
  induction a with
  | nil => simp [parSteps]
  | cons c a ih =>
    obtain ⟨l, v⟩ := c
    cases v <;> simp only [List.cons_append, parSteps, ih] <;> omega

/-- A bound on the steps of splitting a sequence which is already split, in terms of the sequence before the first split. -/
def again : List Chunk → Nat
  | [] => 0
  | .mk _ (.text t) :: cs => 2 * t.length + again cs
  | _ :: cs => 1 + again cs

theorem again_append (a b) : again (a ++ b) = again a + again b := by
  induction a with
  | nil => simp [again]
  | cons c a ih =>
    obtain ⟨l, v⟩ := c
    cases v <;> simp only [List.cons_append, again, ih] <;> omega

/-- The invariant of the character loop. -/
def ParPaid (k : Nat) (s : ParState) : Prop :=
  s.consec ≤ s.buffer.length ∧ parSteps s.out + 2 * s.textBuffer.length + 2 * s.buffer.length ≤ 2 * k

theorem parStep_paid {k s} (h : ParPaid k s) (c) : ParPaid (k + 1) (parStep s c) := by
  obtain ⟨h1, h2⟩ := h
  have h3 : ∀ t : Str, ¬ t.isEmpty = true → 1 ≤ t.length := by
    intro t; cases t <;> simp
  simp only [parStep]
  split
  · refine ⟨by simp; omega, ?_⟩
    simp only [List.length_append, List.length_cons, List.length_nil]
    split
    · omega
    · next h => have := h3 _ h; simp only [parSteps_append, parSteps]; omega
  · split
    · exact ⟨by simp; omega, by simp only [List.length_append, List.length_cons, List.length_nil]; omega⟩
    · split
      · exact ⟨h1, by simp only [List.length_append, List.length_cons, List.length_nil]; omega⟩
      · split
        · exact ⟨by simp; omega, by simp only [List.length_append, List.length_cons, List.length_nil]; omega⟩
        · split
          · exact ⟨h1, by simp only [List.length_append, List.length_cons, List.length_nil]; omega⟩
          · split
            · exact ⟨by simp, by simp only [List.length_append, List.length_cons, List.length_nil]; omega⟩
            · exact ⟨by simp, by simp only [List.length_append, List.length_cons, List.length_nil, parSteps_append, parSteps]; omega⟩

theorem parRun_paid (t : Str) : ∀ {k s}, ParPaid k s → ParPaid (k + t.length) (parRun t s) := by
  induction t with
  | nil => intro k s h; exact h
  | cons c t ih =>
    intro k s h
    have := ih (parStep_paid h c)
    rwa [show k + 1 + t.length = k + (c :: t).length by simp; omega] at this

theorem parFinish_paid {k s} (h : ParPaid k s) : parSteps (parFinish s) ≤ 2 * k := by
  obtain ⟨h1, h2⟩ := h
  have h3 : ∀ t : Str, ¬ t.isEmpty = true → 1 ≤ t.length := by
    intro t; cases t <;> simp
  simp only [parFinish]
  split
  next hb =>
    have hb' := h3 s.buffer (by simp [hb])
    split
    · simp only [parSteps_append, parSteps]; omega
    · split
      · omega
      · simp only [parSteps_append, parSteps, List.length_append]; omega
  · split
    next hb =>
      have hb' := h3 s.textBuffer (by simp [hb])
      split
      · omega
      · simp only [parSteps_append, parSteps, List.length_append]; omega
    · omega

theorem parSteps_paragraphs (cs) : parSteps (paragraphs cs) ≤ again cs := by
  induction cs with
  | nil => exact Nat.zero_le _
  | cons c cs ih =>
    obtain ⟨l, v⟩ := c
    rw [paragraphs, parSteps_append]
    cases v with
    | text t =>
      have := parFinish_paid (parRun_paid t (k := 0) (s := ParState.init l) ⟨Nat.le_refl _, Nat.le_refl _⟩)
      rw [Nat.zero_add] at this
      simp only [paragraphChunk, again]
      omega
    | _ => simp only [paragraphChunk, again, parSteps]; omega

/-! ### what a call costs -/

/-- The cost of a computation: its steps, and what its result has to keep for later; and a property of its result. -/
def Costs {α : Type} (x : Counted α) (w : Nat) (W : α → Nat) (I : α → Prop) : Prop :=
  match x with
  | (.ok a, k) => k + W a ≤ w ∧ I a
  | (.error _, k) => k ≤ w

namespace Costs
variable {α β : Type} {w : Nat} {W : α → Nat} {I : α → Prop}

theorem ok {a : α} (h : W a ≤ w) (hi : I a) : Costs (free (.ok a)) w W I := ⟨by simpa using h, hi⟩

theorem error {f : Fail} : Costs (free (.error f)) w W I := Nat.zero_le _

theorem bind {x : Counted α} {f : α → Counted β} {W' : β → Nat} {I' : β → Prop} (hx : Costs x w W I)
    (hf : ∀ a, I a → Costs (f a) (W a) W' I') : Costs (x.andThen f) w W' I' := by
  obtain ⟨r, k⟩ := x
  cases r with
  | error e => exact hx
  | ok a =>
    obtain ⟨h1, hi⟩ := hx
    have h2 := hf a hi
    simp only [Counted.andThen]
    cases hr : f a with
    | mk r j =>
      rw [hr] at h2
      cases r with
      | error e => have h2 : j ≤ W a := h2; show k + j ≤ w; omega
      | ok b => obtain ⟨h2, h3⟩ := h2; exact ⟨by omega, h3⟩

theorem more {x : Counted α} (h : Costs x w W I) (k : Nat) : Costs x (w + k) (fun a => W a + k) I := by
  obtain ⟨r, j⟩ := x
  cases r with
  | error e => have h : j ≤ w := h; show j ≤ w + k; omega
  | ok a => obtain ⟨h1, h2⟩ := h; exact ⟨by simp only; omega, h2⟩

theorem le {x : Counted α} (h : Costs x w W I) {w' : Nat} (hw : w ≤ w') : Costs x w' W I := by
  obtain ⟨r, j⟩ := x
  cases r with
  | error e => exact Nat.le_trans h hw
  | ok a => exact ⟨Nat.le_trans h.1 hw, h.2⟩

theorem ite {c : Prop} [Decidable c] {a b : Counted α} (ha : c → Costs a w W I) (hb : ¬ c → Costs b w W I) :
    Costs (if c then a else b) w W I := by
  split
  · exact ha ‹_›
  · exact hb ‹_›

theorem tick {x : Counted α} (h : Costs x w W I) : Costs (x.1, 1 + x.2) (w + 1) W I := by
  obtain ⟨r, j⟩ := x
  cases r with
  | error e => have h : j ≤ w := h; show 1 + j ≤ w + 1; omega
  | ok a => obtain ⟨h1, h2⟩ := h; exact ⟨by omega, h2⟩

end Costs

/-- The cost of a sequence at its own level. -/
def own : List Ast2.Chunk → Nat
  | [] => 0
  | .mk _ (.text t) :: cs => 1 + 2 * t.length + own cs
  | _ :: cs => 1 + own cs

theorem own_append (a b) : own (a ++ b) = own a + own b := by
  induction a with
  | nil => simp [own]
  | cons c a ih =>
    obtain ⟨l, v⟩ := c
    cases v <;> simp only [List.cons_append, own, ih] <;> omega

/-- The size of what is inside the chunks of a sequence. -/
def inner : List Ast2.Chunk → Nat
  | [] => 0
  | .mk _ (.text _) :: cs => inner cs
  | .mk _ (.command (.mk _ args)) :: cs => bigArgs args + inner cs
  | .mk _ (.scope (.mk a _)) :: cs => big a + 1 + inner cs
  | .mk _ (.environment (.mk _ args content _ _)) :: cs => bigArgs args + (big content + 1) + inner cs

theorem inner_cons (c cs) : inner (c :: cs) = inner [c] + inner cs := by
  obtain ⟨l, v⟩ := c
  cases v with
  | text t => simp [inner]
  | scope sc => obtain ⟨cs, v⟩ := sc; rfl
  | command c => obtain ⟨a, b⟩ := c; rfl
  | environment e => obtain ⟨a, b, c, d, e⟩ := e; rfl

theorem inner_append (a b) : inner (a ++ b) = inner a + inner b := by
  induction a with
  | nil => simp [inner]
  | cons c a ih => rw [List.cons_append, inner_cons, ih, inner_cons c a]; omega

theorem own_inner (cs) : own cs + inner cs ≤ big cs := by
  induction cs with
  | nil => exact Nat.le_refl _
  | cons c cs ih =>
    rw [big_cons]
    obtain ⟨l, v⟩ := c
    cases v with
    | text t => rw [big_text]; simp only [own, inner]; omega
    | scope sc => obtain ⟨a, v⟩ := sc; rw [big_scope]; simp only [own, inner]; omega
    | command c => obtain ⟨a, b⟩ := c; have := big_command l a b; simp only [own, inner]; omega
    | environment e => obtain ⟨a, b, c, d, e⟩ := e; have := big_environment l a b c d e; simp only [own, inner]; omega

/-- Which delimiters of maths a chunk may have at its own level: round ones, square ones, dollars. -/
def FreeC (p q r : Bool) : Ast2.Chunk → Prop
  | .mk _ (.text t) => r = false → '$' ∉ t
  | .mk _ (.command (.mk label _)) =>
    (p = false → label ≠ chars!"(" ∧ label ≠ chars!")") ∧ (q = false → label ≠ chars!"[" ∧ label ≠ chars!"]")
  | _ => True

/-- Which delimiters of maths a sequence may have at its own level. -/
def Free (p q r : Bool) (cs : List Ast2.Chunk) : Prop := ∀ c ∈ cs, FreeC p q r c

theorem free_all (cs) : Free true true true cs := by
  rintro ⟨l, v⟩ _
  cases v with
  | command c => obtain ⟨a, b⟩ := c; exact ⟨fun h => Bool.noConfusion h, fun h => Bool.noConfusion h⟩
  | text t => exact fun h => Bool.noConfusion h
  | _ => trivial

theorem FreeC.line {p q r l l' v} (h : FreeC p q r (.mk l v)) : FreeC p q r (.mk l' v) := by
  cases v with
  | command c => obtain ⟨a, b⟩ := c; exact h
  | _ => exact h

theorem rebase_same {line cs cs'} (h : rebase line cs = .ok cs') : own cs' = own cs ∧ inner cs' = inner cs ∧
    ∀ p q r, Free p q r cs → Free p q r cs' := by
  induction cs generalizing cs' with
  | nil => cases h; exact ⟨rfl, rfl, fun _ _ _ h => h⟩
  | cons c cs ih =>
    obtain ⟨l, v⟩ := c
    simp only [rebase] at h
    cases h1 : checkedSub line 1 with
    | error p => rw [h1] at h; cases h
    | ok k =>
      rw [h1] at h
      simp only at h
      cases h2 : checkedSub l k with
      | error p => rw [h2] at h; cases h
      | ok l' =>
        rw [h2] at h
        simp only at h
        cases h3 : rebase line cs with
        | error p => rw [h3] at h; cases h
        | ok rs =>
          rw [h3] at h
          cases h
          obtain ⟨i1, i2, i3⟩ := ih h3
          refine ⟨?_, ?_, ?_⟩
          · cases v <;> simp only [own, i1]
          · rw [inner_cons, i2, inner_cons (.mk l v)]
            cases v with
            | text t => rfl
            | scope sc => obtain ⟨cs, v⟩ := sc; rfl
            | command c => obtain ⟨a, b⟩ := c; rfl
            | environment e => obtain ⟨a, b, c, d, e⟩ := e; rfl
          · intro p q r hf c hc
            rcases List.mem_cons.1 hc with rfl | hc
            · exact (hf _ (List.mem_cons_self ..)).line
            · exact i3 p q r (fun c hc => hf c (List.mem_cons_of_mem _ hc)) c hc

/-- The kinds of delimiters. -/
def kinds (p q r : Bool) : Nat := p.toNat + q.toNat + r.toNat

/-- What a call costs, with the split of its result: linear at its own level, with a factor that grows with the kinds of
delimiters of maths that occur there, and linear inside. -/
def Affordable (rec : List Ast2.Chunk → Counted (List Chunk)) : Prop :=
  ∀ p q r a, Free p q r a →
    Costs (rec a) (3 * (kinds p q r + 1) * (own a + 1) + 12 * inner a) (fun out => parSteps out + 1) (fun _ => True)

theorem Affordable.any (hr : Affordable rec) (a) : Costs (rec a) (12 * (big a + 1)) (fun out => parSteps out + 1) (fun _ => True) := by
  refine (hr true true true a (free_all a)).le ?_
  have := own_inner a
  simp only [kinds, Bool.toNat_true]
  omega

theorem paragraphsN_costs (cs) : Costs (paragraphsN cs) (parSteps cs + 1) (fun _ => 0) (fun _ => True) :=
  ⟨by simp only; omega, trivial⟩

theorem tryScopeN_costs (hr : Affordable rec) (cs v) :
    Costs (tryScopeN rec (.mk cs v)) (12 * (big cs + 1)) (fun _ => 0) (fun _ => True) :=
  .bind (hr.any cs) fun r _ => .bind (paragraphsN_costs r) fun _ _ => .ok (Nat.le_refl _) trivial

theorem tryArgsN_costs (hr : Affordable rec) (args) :
    Costs (tryArgsN rec args) (12 * bigArgs args) (fun _ => 0) (fun _ => True) := by
  induction args with
  | nil => exact .ok (Nat.zero_le _) trivial
  | cons x r ih =>
    obtain ⟨p, ⟨cs, v⟩⟩ := x
    have h1 := (tryScopeN_costs hr cs v).more (12 * bigArgs r)
    rw [← Nat.mul_add] at h1
    exact .bind h1 fun _ _ => .bind (ih.le (by omega)) fun _ _ => .ok (Nat.le_refl _) trivial

theorem tryCommandN_costs (hr : Affordable rec) (l args) :
    Costs (tryCommandN rec (.mk l args)) (12 * bigArgs args) (fun _ => 0) (fun _ => True) :=
  .bind (tryArgsN_costs hr args) fun _ _ => .ok (Nat.le_refl _) trivial

theorem tryEnvironmentN_costs (hr : Affordable rec) (l args content pb pe) :
    Costs (tryEnvironmentN rec (.mk l args content pb pe)) (12 * (bigArgs args + (big content + 1))) (fun _ => 0) (fun _ => True) := by
  have h1 := (tryArgsN_costs hr args).more (12 * (big content + 1))
  rw [← Nat.mul_add] at h1
  exact .bind h1 fun _ _ => .bind ((hr.any content).le (by omega)) fun r _ => .bind (paragraphsN_costs r) fun _ _ =>
    .ok (Nat.le_refl _) trivial

/-! ### the potential -/

/-- The steps still to be paid for the output: splitting it, and splitting it again. -/
def owed (out : List Chunk) : Nat := parSteps out + again out

theorem owed_append (a b) : owed (a ++ b) = owed a + owed b := by
  simp only [owed, parSteps_append, again_append]; omega

section
variable (p q r : Bool)

/-- The price of a unit. -/
def price : Nat := 3 * kinds p q r

/-- The steps a state in the chunk loop has to keep for later. -/
def MState.keep (s : MState) : Nat :=
  price p q r * own s.buffer + 12 * inner s.buffer + s.buffer.length + (if s.mode = .none then 0 else price p q r + 2) + owed s.out

/-- The steps a state in the character loop has to keep for later. -/
def TState.keep (t : TState) : Nat := t.m.keep p q r + (2 * price p q r + 4) * t.textBuffer.length

/-- The delimiter that opened the maths does not occur in the buffer. -/
def MState.Inv (s : MState) : Prop :=
  match s.mode with
  | .none => s.buffer = []
  | .singleDollar .brackets => p = true ∧ Free false q r s.buffer
  | .doubleDollar .brackets => q = true ∧ Free p false r s.buffer
  | _ => r = true ∧ Free p q false s.buffer

/-- The text read so far has no dollar. -/
def TState.Inv (t : TState) : Prop := t.m.Inv p q r ∧ '$' ∉ t.textBuffer

end

variable {p q r : Bool}

theorem Free.snoc {p q r cs c} (h : Free p q r cs) (hc : FreeC p q r c) : Free p q r (cs ++ [c]) := by
  intro x hx
  rcases List.mem_append.1 hx with hx | hx
  · exact h x hx
  · cases List.mem_singleton.1 hx; exact hc

theorem closeDollarsN_costs (hr : Affordable rec) (t type) (hm : t.m.mode ≠ .none) (h1 : r = true) (h2 : Free p q false t.m.buffer)
    (h3 : '$' ∉ t.textBuffer) :
    Costs (closeDollarsN rec t type) (t.keep p q r + 2 * price p q r + 5) (TState.keep p q r) (TState.Inv p q r) := by
  subst h1
  simp only [closeDollarsN]
  have hN : 3 * (kinds p q false + 1) = price p q true := by simp [price, kinds]
  generalize hP : price p q true = N at hN
  have hb : N * (own (if t.textBuffer.isEmpty then t.m.buffer else t.m.buffer ++ [.mk t.textBufferLine (.text t.textBuffer)]) + 1) +
      12 * inner (if t.textBuffer.isEmpty then t.m.buffer else t.m.buffer ++ [.mk t.textBufferLine (.text t.textBuffer)]) +
      (if t.textBuffer.isEmpty then t.m.buffer else t.m.buffer ++ [.mk t.textBufferLine (.text t.textBuffer)]).length + owed t.m.out + 2
        ≤ t.keep p q true + 2 * N + 5 := by
    simp only [TState.keep, MState.keep, if_neg hm, hP]
    split
    · simp only [Nat.mul_add]; omega
    · simp only [own_append, inner_append, own, inner, List.length_append, List.length_cons, List.length_nil, Nat.mul_add, Nat.add_mul, Nat.mul_one]
      have : N * (2 * t.textBuffer.length) = 2 * N * t.textBuffer.length := by grind
      omega
  have hf : Free p q false (if t.textBuffer.isEmpty then t.m.buffer else t.m.buffer ++ [.mk t.textBufferLine (.text t.textBuffer)]) := by
    split
    · exact h2
    · exact h2.snoc fun _ => h3
  generalize (if t.textBuffer.isEmpty then t.m.buffer else t.m.buffer ++ [.mk t.textBufferLine (.text t.textBuffer)]) = b at hb hf
  have h1 : Costs (rebaseN t.textBufferLine b) (b.length + (N * (own b + 1) + 12 * inner b + (owed t.m.out + 2)))
      (fun b => N * (own b + 1) + 12 * inner b + (owed t.m.out + 2)) (Free p q false) := by
    simp only [Costs, rebaseN]
    cases h : rebase t.textBufferLine b with
    | error f => simp only; omega
    | ok b' =>
      obtain ⟨i1, i2, i3⟩ := rebase_same h
      refine ⟨?_, i3 _ _ _ hf⟩
      rw [i1, i2]
      exact Nat.le_refl _
  refine Costs.le (.bind h1 fun b' hb' => .bind ((hr p q false b' hb').more (owed t.m.out + 2) |>.le (by rw [hN]; omega)) fun out _ => .ok ?_ ?_) (by omega)
  · simp only [TState.keep, MState.keep, own, inner, owed_append, if_true, List.length_nil, Nat.mul_zero]
    simp only [owed, parSteps, again]
    omega
  · exact ⟨rfl, by simp⟩

theorem pushStr_keep (t : TState) : t.pushStr.keep p q r ≤ t.keep p q r ∧ t.pushStr.textBuffer = [] ∧ t.pushStr.m.mode = t.m.mode ∧
    t.pushStr.m.buffer = t.m.buffer := by
  simp only [TState.pushStr]
  split
  next h => exact ⟨Nat.le_refl _, by simpa using h, rfl, rfl⟩
  next h =>
    have : 1 ≤ t.textBuffer.length := by cases ht : t.textBuffer <;> simp [ht] at h ⊢
    refine ⟨?_, rfl, rfl, rfl⟩
    simp only [TState.keep, MState.keep, owed_append, List.length_nil, Nat.mul_zero, Nat.add_mul]
    simp only [owed, parSteps, again]
    omega

theorem stepDollarN_costs (hr : Affordable rec) (t) (hi : t.Inv p q r) (hd : r = true) :
    Costs (stepDollarN rec t) (t.keep p q r + 2 * price p q r + 5) (TState.keep p q r) (TState.Inv p q r) := by
  obtain ⟨hi, ht⟩ := hi
  simp only [stepDollarN]
  split
  next h =>
    obtain ⟨h1, h2, h3, h4⟩ := pushStr_keep (p := p) (q := q) (r := r) t
    refine .ok ?_ ?_
    · rw [h] at h3
      simp only [TState.keep, MState.keep, h2, h3, if_true, List.length_nil, Nat.mul_zero] at h1 ⊢
      simp only [reduceCtorEq, if_false] at h1 ⊢
      omega
    · have hb : t.m.buffer = [] := by simpa [MState.Inv, h] using hi
      refine ⟨⟨hd, ?_⟩, ?_⟩
      · simp only [h4, hb]; intro c hc; cases hc
      · simp [h2]
  next h =>
    have hi' : r = true ∧ Free p q false t.m.buffer := by simpa [MState.Inv, h] using hi
    split
    · refine .ok ?_ ⟨hi', ht⟩
      simp only [TState.keep, MState.keep, h, reduceCtorEq, if_false]
      omega
    · exact closeDollarsN_costs hr t _ (by rw [h]; simp) hi'.1 hi'.2 ht
  next h =>
    have hi' : r = true ∧ Free p q false t.m.buffer := by simpa [MState.Inv, h] using hi
    refine .ok ?_ ⟨hi', ht⟩
    simp only [TState.keep, MState.keep, h, reduceCtorEq, if_false]
    omega
  next h =>
    have hi' : r = true ∧ Free p q false t.m.buffer := by simpa [MState.Inv, h] using hi
    exact closeDollarsN_costs hr t _ (by rw [h]; simp) hi'.1 hi'.2 ht
  · exact .ok (by omega) ⟨hi, ht⟩
  · exact .ok (by omega) ⟨hi, ht⟩

theorem stepCharN_costs (hr : Affordable rec) (t c) (hi : t.Inv p q r) (hc : c = '$' → r = true) :
    Costs (stepCharN rec t c) (t.keep p q r + 2 * price p q r + 5) (TState.keep p q r) (TState.Inv p q r) := by
  simp only [stepCharN]
  have h : (if c = '\n' then { t with cursorLine := t.cursorLine + 1 } else t : TState).keep p q r = t.keep p q r := by split <;> rfl
  have hi' : (if c = '\n' then { t with cursorLine := t.cursorLine + 1 } else t : TState).Inv p q r := by split <;> exact hi
  generalize (if c = '\n' then { t with cursorLine := t.cursorLine + 1 } else t : TState) = t' at h hi'
  rw [← h]
  refine .ite (fun hd => stepDollarN_costs hr t' hi' (hc hd)) fun hd => .ok ?_ ⟨hi'.1, ?_⟩
  · simp only [TState.keep, List.length_append, List.length_cons, List.length_nil, Nat.mul_add]
    omega
  · have := hi'.2
    simp only [List.mem_append, List.mem_singleton, not_or]
    exact ⟨this, fun h => hd h.symm⟩

theorem runTextN_costs (hr : Affordable rec) (str) : ∀ t : TState, t.Inv p q r → (r = false → '$' ∉ str) →
    Costs (runTextN rec str t) (t.keep p q r + (2 * price p q r + 6) * str.length) (TState.keep p q r) (TState.Inv p q r) := by
  induction str with
  | nil => intro t hi _; exact .ok (by simp) hi
  | cons c cs ih =>
    intro t hi hd
    have h1 := (stepCharN_costs hr t c hi (fun hc => by
      cases r
      · have := hd rfl; simp [hc] at this
      · rfl)).more ((2 * price p q r + 6) * cs.length)
    refine (Costs.tick (.bind h1 fun t' hi' => ih t' hi' fun h => ?_)).le ?_
    · have := hd h; simp only [List.mem_cons, not_or] at this; exact this.2
    · simp only [List.length_cons, Nat.mul_add]
      omega

theorem stepMathsTextN_costs (hr : Affordable rec) (s l str) (hi : s.Inv p q r) (hd : r = false → '$' ∉ str) :
    Costs (stepMathsTextN rec s l str) (s.keep p q r + (2 * price p q r + 6) * str.length) (MState.keep p q r) (MState.Inv p q r) := by
  have h1 := runTextN_costs hr str ⟨s, l, [], l⟩ ⟨hi, by simp⟩ hd
  have h0 : TState.keep p q r ⟨s, l, [], l⟩ = s.keep p q r := by simp [TState.keep]
  rw [h0] at h1
  refine .bind h1 fun t hi => .ok ?_ ?_
  · obtain ⟨h1, h2, h3⟩ := pushStr_keep (p := p) (q := q) (r := r) t
    simp only [TState.keep, h2, List.length_nil, Nat.mul_zero] at h1 ⊢
    omega
  · obtain ⟨h1, h2, h3, h4⟩ := pushStr_keep (p := p) (q := q) (r := r) t
    have := hi.1
    simp only [MState.Inv, h3, h4] at this ⊢
    exact this

theorem closeBracketsN_costs (hr : Affordable rec) (s type) (hm : s.mode ≠ .none) {p' q'} (hk : kinds p' q' r + 1 = kinds p q r)
    (hf : Free p' q' r s.buffer) :
    Costs (closeBracketsN rec s type) (s.keep p q r) (MState.keep p q r) (MState.Inv p q r) := by
  simp only [closeBracketsN]
  have h1 := ((hr p' q' r s.buffer hf).more (owed s.out + 2)).le (w' := s.keep p q r) (by
    rw [hk]
    simp only [MState.keep, if_neg hm, Nat.mul_add, Nat.mul_one, price]; omega)
  refine .bind h1 fun out _ => .ok ?_ ?_
  · simp only [MState.keep, own, inner, owed_append, if_true, List.length_nil, Nat.mul_zero]
    simp only [owed, parSteps, again]
    omega
  · rfl

theorem pushBuffer_keep (s : MState) (l v) :
    (s.pushBuffer l v).keep p q r = s.keep p q r + price p q r * own [.mk l v] + 12 * inner [.mk l v] + 1 := by
  obtain ⟨o, m, d, b, bl⟩ := s
  show price p q r * own (b ++ [.mk l v]) + 12 * inner (b ++ [.mk l v]) + (b ++ [Ast2.Chunk.mk l v]).length + (if m = .none then 0 else price p q r + 2) + owed o =
    price p q r * own b + 12 * inner b + b.length + (if m = .none then 0 else price p q r + 2) + owed o + price p q r * own [.mk l v] + 12 * inner [.mk l v] + 1
  simp only [own_append, inner_append, List.length_append, List.length_cons, List.length_nil, Nat.mul_add]
  omega

theorem out_keep (s : MState) (c : Chunk) (h : ∀ l t, c ≠ .mk l (.text t)) :
    MState.keep p q r { s with out := s.out ++ [c] } = s.keep p q r + 2 := by
  obtain ⟨l, v⟩ := c
  simp only [MState.keep, owed_append]
  have : owed [.mk l v] = 2 := by
    cases v with
    | text t => exact absurd rfl (h l t)
    | _ => rfl
  omega

/-- What may be put in the buffer. -/
theorem pushBuffer_inv {s : MState} (hi : s.Inv p q r) (hm : s.mode ≠ .none) {l v} (hf : FreeC p q r (.mk l v))
    (h1 : s.mode = .singleDollar .brackets → ∀ a, v = .command a → a.label ≠ chars!"(" ∧ a.label ≠ chars!")")
    (h2 : s.mode = .doubleDollar .brackets → ∀ a, v = .command a → a.label ≠ chars!"[" ∧ a.label ≠ chars!"]")
    (h3 : ∀ t, v = .text t → s.mode = .singleDollar .brackets ∨ s.mode = .doubleDollar .brackets) :
    (s.pushBuffer l v).Inv p q r := by
  obtain ⟨o, m, d, b, bl⟩ := s
  simp only [MState.Inv, MState.pushBuffer] at hi hm h1 h2 h3 ⊢
  split at hi
  · exact absurd rfl hm
  · refine ⟨hi.1, hi.2.snoc ?_⟩
    cases v with
    | text t => exact hf
    | command c => obtain ⟨a, b⟩ := c; exact ⟨fun _ => h1 rfl _ rfl, hf.2⟩
    | _ => trivial
  · refine ⟨hi.1, hi.2.snoc ?_⟩
    cases v with
    | text t => exact hf
    | command c => obtain ⟨a, b⟩ := c; exact ⟨hf.1, fun _ => h2 rfl _ rfl⟩
    | _ => trivial
  next h4 h5 h6 =>
    refine ⟨hi.1, hi.2.snoc ?_⟩
    cases v with
    | text t => rcases h3 t rfl with h | h <;> simp_all
    | command c => obtain ⟨a, b⟩ := c; exact hf
    | _ => trivial

theorem stepMathsCommandN_costs (hr : Affordable rec) (s l label args) (hi : s.Inv p q r) (hf : FreeC p q r (.mk l (.command (.mk label args)))) :
    Costs (stepMathsCommandN rec s l (.mk label args)) (s.keep p q r + price p q r + 12 * bigArgs args + 2) (MState.keep p q r) (MState.Inv p q r) := by
  have sub : Costs ((free (checkedSub s.depth 1)).andThen fun d => free (.ok { s with depth := d }))
      (s.keep p q r + price p q r + 12 * bigArgs args + 2) (MState.keep p q r) (MState.Inv p q r) := by
    cases checkedSub s.depth 1 with
    | error f => exact .error
    | ok d => exact .bind (W := fun _ => s.keep p q r) (I := fun _ => True) (.ok (by omega) trivial) fun d _ => .ok (Nat.le_refl _) hi
  unfold stepMathsCommandN
  refine .ite (fun _ => .error) fun n1 => .ite (fun h => .ok ?_ ?_) fun n2 => .ite (fun h => .ok ?_ ?_) fun n3 =>
    .ite (fun h => .ok ?_ hi) fun n4 => .ite (fun h => .ok ?_ hi) fun n5 => .ite (fun h => ?_) fun n6 => .ite (fun h => ?_) fun n7 =>
    .ite (fun h => sub) fun n8 => .ite (fun h => sub) fun n9 => .ite (fun h => ?_) fun n10 => .ok ?_ ?_
  · simp only [MState.keep, h.2, reduceCtorEq, if_false, if_true]; omega
  · have hb : s.buffer = [] := by simpa [MState.Inv, h.2] using hi
    refine ⟨?_, ?_⟩
    · cases p with
      | true => rfl
      | false => exact absurd h.1 (hf.1 rfl).1
    · simp only [hb]; intro c hc; cases hc
  · simp only [MState.keep, h.2, reduceCtorEq, if_false, if_true]; omega
  · have hb : s.buffer = [] := by simpa [MState.Inv, h.2] using hi
    refine ⟨?_, ?_⟩
    · cases q with
      | true => rfl
      | false => exact absurd h.1 (hf.2 rfl).1
    · simp only [hb]; intro c hc; cases hc
  · have : MState.keep p q r { s with depth := s.depth + 1 } = s.keep p q r := rfl
    omega
  · have : MState.keep p q r { s with depth := s.depth + 1 } = s.keep p q r := rfl
    omega
  · have hi' : p = true ∧ Free false q r s.buffer := by simpa [MState.Inv, h.2.1] using hi
    exact (closeBracketsN_costs hr s _ (by rw [h.2.1]; simp) (by simp [kinds, hi'.1]; omega) hi'.2).le (by omega)
  · have hi' : q = true ∧ Free p false r s.buffer := by simpa [MState.Inv, h.2.1] using hi
    exact (closeBracketsN_costs hr s _ (by rw [h.2.1]; simp) (by simp [kinds, hi'.1]; omega) hi'.2).le (by omega)
  · have h1 := ((tryCommandN_costs hr label args).more (s.keep p q r + 2)).le (w' := s.keep p q r + price p q r + 12 * bigArgs args + 2) (by omega)
    refine .bind h1 fun c _ => .ok ?_ ?_
    · rw [out_keep s _ (by intro l t; simp)]; omega
    · exact hi
  · rw [pushBuffer_keep]; simp only [own, inner]; omega
  · refine pushBuffer_inv hi n10 hf (fun hm a ha => ?_) (fun hm a ha => ?_) (fun t ht => by cases ht)
    · cases ha
      exact ⟨fun h => n4 ⟨h, hm⟩, fun h => n8 ⟨h, hm⟩⟩
    · cases ha
      exact ⟨fun h => n5 ⟨h, hm⟩, fun h => n9 ⟨h, hm⟩⟩

theorem stepMathsN_costs (hr : Affordable rec) (s c) (hi : s.Inv p q r) (hf : FreeC p q r c) :
    Costs (stepMathsN rec s c) (s.keep p q r + (price p q r + 3) * own [c] + 12 * inner [c] - 1) (MState.keep p q r) (MState.Inv p q r) := by
  obtain ⟨l, v⟩ := c
  cases v with
  | text t =>
    simp only [own, inner]
    refine .ite (fun h => .ok ?_ ?_) fun h => (stepMathsTextN_costs hr s l t hi hf).le ?_
    · rw [pushBuffer_keep]; simp only [own, inner, Nat.add_mul]; omega
    · exact pushBuffer_inv hi (by rcases h with h | h <;> rw [h] <;> simp) hf (fun _ _ h => by cases h) (fun _ _ h => by cases h) (fun _ _ => h)
    · simp only [Nat.mul_add, Nat.add_mul, Nat.mul_one]
      have : price p q r * (2 * t.length) = 2 * price p q r * t.length := by grind
      omega
  | command c =>
    obtain ⟨label, args⟩ := c
    refine (stepMathsCommandN_costs hr s l label args hi hf).le ?_
    simp only [own, inner]; omega
  | scope sc =>
    obtain ⟨cs, v⟩ := sc
    simp only [own, inner]
    refine .ite (fun h => ?_) fun h => .ok ?_ ?_
    · have h1 := ((tryScopeN_costs hr cs v).more (s.keep p q r + 2)).le (w' := s.keep p q r + (price p q r + 3) * (1 + 0) + 12 * (big cs + 1 + 0) - 1) (by omega)
      refine .bind h1 fun c _ => .ok ?_ ?_
      · rw [out_keep s _ (by intro l t; simp)]; omega
      · exact hi
    · rw [pushBuffer_keep]; simp only [own, inner]; omega
    · exact pushBuffer_inv hi h hf (fun _ _ h => by cases h) (fun _ _ h => by cases h) (fun _ h => by cases h)
  | environment e =>
    obtain ⟨label, args, content, pb, pe⟩ := e
    simp only [own, inner]
    refine .ite (fun h => ?_) fun h => .ok ?_ ?_
    · have h1 := ((tryEnvironmentN_costs hr label args content pb pe).more (s.keep p q r + 2)).le
        (w' := s.keep p q r + (price p q r + 3) * (1 + 0) + 12 * (bigArgs args + (big content + 1) + 0) - 1) (by omega)
      refine .bind h1 fun c _ => .ok ?_ ?_
      · rw [out_keep s _ (by intro l t; simp)]; omega
      · exact hi
    · rw [pushBuffer_keep]; simp only [own, inner]; omega
    · exact pushBuffer_inv hi h hf (fun _ _ h => by cases h) (fun _ _ h => by cases h) (fun _ h => by cases h)

theorem runMathsN_costs (hr : Affordable rec) (cs) : ∀ s : MState, s.Inv p q r → Free p q r cs →
    Costs (runMathsN rec cs s) (s.keep p q r + (price p q r + 3) * own cs + 12 * inner cs) (MState.keep p q r) (fun _ => True) := by
  induction cs with
  | nil => intro s _ _; exact .ok (by simp [own, inner]) trivial
  | cons c cs ih =>
    intro s hi hf
    have h1 := (stepMathsN_costs hr s c hi (hf c (List.mem_cons_self ..))).more ((price p q r + 3) * own cs + 12 * inner cs)
    refine (Costs.tick (.bind h1 fun t' hi' => (ih t' hi' fun c hc => hf c (List.mem_cons_of_mem _ hc)).le (by omega))).le ?_
    have ho : own (c :: cs) = own [c] + own cs := own_append [c] cs
    have hp : 1 ≤ own [c] := by obtain ⟨l, v⟩ := c; cases v <;> simp only [own] <;> omega
    rw [ho, inner_cons c cs]
    simp only [Nat.mul_add, Nat.add_mul]
    omega

theorem finishMathsN_costs (s : MState) : Costs (finishMathsN s) (s.keep p q r + 2) (fun r => parSteps r + 1) (fun _ => True) := by
  refine .ite (fun h => .error) fun h => ?_
  have := parSteps_paragraphs s.out
  refine ⟨?_, trivial⟩
  simp only [MState.keep, owed]
  omega

/-- The steps of a call, however many nested calls are allowed, with the steps of splitting the result. -/
theorem mathsFuelN_costs (n) : Affordable (mathsFuelN n) := by
  induction n with
  | zero => intro p q r a _; exact .error
  | succ n ih =>
    intro p q r a hf
    have h0 : MState.init.keep p q r = 0 := rfl
    have h1 := (runMathsN_costs (p := p) (q := q) (r := r) ih a MState.init rfl hf).more 2
    rw [h0] at h1
    refine (Costs.tick (.bind h1 fun s _ => finishMathsN_costs s)).le ?_
    rw [show 3 * (kinds p q r + 1) = price p q r + 3 by simp only [price]; omega, Nat.mul_add]
    omega

theorem mathsFromChunksN_affordable : Affordable mathsFromChunksN := fun p q r a => mathsFuelN_costs _ p q r a

theorem mathsFromChunksN_steps (cs) : (mathsFromChunksN cs).2 ≤ 12 * (big cs + 1) := by
  have := mathsFromChunksN_affordable.any cs
  cases h : mathsFromChunksN cs with
  | mk x k =>
    rw [h] at this
    cases x with
    | error f => exact this
    | ok a => have := this.1; simp only; omega

/-! ### the document -/

/-- What a state of the document loop keeps for later. -/
def DState.keep (s : DState) : Nat := 12 * (big s.preamable + big s.trailing)

theorem push_keep (s : DState) (l v) : (s.push l v).keep = s.keep + 12 * big [.mk l v] := by
  simp only [DState.push]
  split <;> simp only [DState.keep, big_append] <;> omega

theorem classSteps_le (args) : classSteps args ≤ 2 * (Ast2.argNodes args + 2 * (Ast2.displayArgs args).length) := by
  induction args with
  | nil => exact Nat.zero_le _
  | cons x rs ih =>
    obtain ⟨p, ⟨cs, v⟩⟩ := x
    simp only [classSteps, Ast2.argNodes, Ast2.displayArgs, Ast2.Scope.display, List.length_append, List.length_cons, List.length_nil]
    omega

theorem stepDocumentN_costs (s : DState) (c) : Costs (stepDocumentN s c) (s.keep + 14 * big [c]) DState.keep (fun _ => True) := by
  obtain ⟨l, v⟩ := c
  have push : ∀ v, Costs (free (.ok (s.push l v))) (s.keep + 14 * big [.mk l v]) DState.keep (fun _ => True) := by
    intro v
    exact .ok (by rw [push_keep]; omega) trivial
  cases v with
  | text t => exact push _
  | scope sc => exact push _
  | environment e =>
    obtain ⟨label, args, content, pb, pe⟩ := e
    refine .ite (fun h => ?_) fun h => push _
    have hb := big_environment l label args content pb pe
    have h1 := ((tryEnvironmentN_costs mathsFromChunksN_affordable label args content pb pe).more s.keep).le
      (w' := s.keep + 14 * big [.mk l (.environment (.mk label args content pb pe))]) (by omega)
    refine .bind h1 fun e _ => ?_
    obtain ⟨a, b, c, d, e⟩ := e
    exact .ok (by simp [DState.keep]) trivial
  | command c =>
    obtain ⟨label, args⟩ := c
    refine .ite (fun h => .ite (fun h => .error) fun h => ?_) fun h => push _
    have h1 := classSteps_le args
    have h2 : Ast2.argNodes args + 2 * (Ast2.displayArgs args).length ≤ big [.mk l (.command (.mk label args))] := by
      simp only [big, Ast2.nodes, Ast2.Chunk.nodes, Ast2.displayChunks, Ast2.Chunk.display, Ast2.ChunkVariant.display,
        Ast2.Command.display, List.length_append, List.length_cons, List.length_nil]
      omega
    refine .bind (W := fun _ => s.keep + 12 * big [.mk l (.command (.mk label args))]) (I := fun _ => True) ?_ fun d _ => .ok ?_ trivial
    · simp only [Ast2.Command.arguments]
      cases docClassArgs l args s.construct with
      | error f => show classSteps args ≤ _; omega
      | ok d => exact ⟨by simp only; omega, trivial⟩
    · rw [push_keep]; exact Nat.le_refl _

theorem runDocumentN_costs (cs) : ∀ s : DState, Costs (runDocumentN cs s) (s.keep + 15 * big cs) DState.keep (fun _ => True) := by
  induction cs with
  | nil => intro s; exact .ok (Nat.le_add_right _ _) trivial
  | cons c cs ih =>
    intro s
    have h1 := (stepDocumentN_costs s c).more (15 * big cs)
    refine (Costs.tick (.bind h1 fun t' _ => ih t')).le ?_
    rw [big_cons c cs]
    have := big_pos c
    omega

theorem tryFromN_steps (d) : (tryFromN d).2 ≤ 15 * (big d + 2) := by
  have h0 : DState.init.keep = 0 := rfl
  have h1 := (runDocumentN_costs d DState.init).more 24
  rw [h0] at h1
  have : Costs (tryFromN d) (0 + 15 * big d + 24) (fun _ => 0) (fun _ => True) := by
    refine .bind h1 fun s _ => ?_
    have h2 := ((mathsFromChunksN_affordable.any s.preamable).more (12 * (big s.trailing + 1))).le (w' := s.keep + 24) (by
      simp only [DState.keep]; omega)
    refine .bind h2 fun pre _ => ?_
    refine .bind (W := fun _ => 12 * (big s.trailing + 1)) (I := fun _ => True) ⟨by simp only; omega, trivial⟩ fun pre _ => ?_
    exact .bind (mathsFromChunksN_affordable.any _) fun tr _ => .bind (paragraphsN_costs tr) fun _ _ => .ok (Nat.le_refl _) trivial
  cases h : tryFromN d with
  | mk x k =>
    rw [h] at this
    cases x with
    | error f => have : k ≤ 0 + 15 * big d + 24 := this; simp only; omega
    | ok a => have := this.1; simp only; omega

end
end LatexAst.Ast3
