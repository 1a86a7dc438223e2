import Verif.Model.Machine3
import Verif.Proofs.Machine2
import Verif.Proofs.Errors3

/-! Machine integers in stage 3. -/

namespace LatexAst.Ast3

variable {A : Arith} {K B : Nat}

/-! ### paragraphs -/

/-- The texts at the top level are short, and end on small lines. -/
def Low3 (K B : Nat) (cs : List Chunk) : Prop := ∀ l t, Chunk.mk l (.text t) ∈ cs → l + newlines t ≤ B ∧ newlines t ≤ K

/-- The loop invariant; `n` newlines to come, `m` newlines so far. -/
structure ParLow (K B n m : Nat) (s : ParState) : Prop where
  out : Low3 K B s.out
  line : s.lineNo + n ≤ B
  consec : s.consec ≤ newlines s.buffer
  text : s.consec = 0 ∨ s.consec = 1 → s.textBufferLine + newlines s.textBuffer + newlines s.buffer ≤ s.lineNo
  empty : s.consec = 0 → s.buffer = []
  one : s.consec = 1 → s.bufferLine + newlines s.buffer ≤ s.lineNo
  flushed : 1 < s.consec → s.textBuffer = []
  count : newlines s.textBuffer + newlines s.buffer ≤ m
  total : n + m ≤ K

theorem low3_append {a b} (ha : Low3 K B a) (hb : Low3 K B b) : Low3 K B (a ++ b) := by
  intro l t h
  rcases List.mem_append.1 h with h | h
  · exact ha l t h
  · exact hb l t h

theorem low3_other {l v} (hv : ∀ t, v ≠ .text t) : Low3 K B [.mk l v] := by
  intro l' t h
  simp only [List.mem_singleton, Chunk.mk.injEq] at h
  exact absurd h.2.symm (hv t)

theorem low3_text {l t} (h : l + newlines t ≤ B) (h' : newlines t ≤ K) : Low3 K B [.mk l (.text t)] := by
  intro l' t' h
  simp only [List.mem_singleton, Chunk.mk.injEq, ChunkVariant.text.injEq] at h
  obtain ⟨rfl, rfl⟩ := h
  exact ⟨by assumption, by assumption⟩

theorem newlines_snoc (a : Str) (c : Char) : newlines (a ++ [c]) = newlines a + (if c = '\n' then 1 else 0) := by
  rw [newlines_append, newlines_cons]
  simp [newlines]

theorem newlines_one (c : Char) : newlines [c] = if c = '\n' then 1 else 0 := by
  rw [newlines_cons]; simp [newlines]

theorem newlines_none : newlines [] = 0 := rfl

theorem parStep_low {n m s c} (h : ParLow K B (n + if c = '\n' then 1 else 0) m s) :
    ParLow K B n (m + if c = '\n' then 1 else 0) (parStep s c) := by
  obtain ⟨h1, h2, h3, h4, h5, h6, h7, h8, h9⟩ := h
  unfold parStep
  by_cases hc : c = '\n'
  · subst hc
    simp only [if_true] at h2 h9
    rw [if_pos rfl]
    by_cases hk : s.consec = 1
    · rw [if_pos ⟨rfl, hk⟩]
      have h4 := h4 (.inr hk)
      refine ⟨?_, by simp only; omega, by simp only [newlines_snoc, if_true]; omega, by simp only; omega, by simp only; omega,
        by simp only; omega, by simp, by simp only [newlines_snoc, if_true, newlines_none]; omega, by omega⟩
      simp only
      split
      · exact h1
      · exact low3_append h1 (low3_text (by omega) (by omega))
    · rw [if_neg fun h => hk h.2, if_pos rfl]
      refine ⟨h1, by simp only; omega, by simp only [newlines_snoc, if_true]; omega, ?_, by simp only; omega, ?_, ?_,
        by simp only [newlines_snoc, if_true]; omega, by omega⟩
      · simp only [newlines_snoc, if_true]
        intro hh
        have := h4 (.inl (by omega))
        omega
      · simp only [newlines_snoc, if_true]
        intro hh
        have := h5 (by omega)
        rw [this]
        simp [newlines]
      · simp only
        intro hh
        exact h7 (by omega)
  · simp only [if_neg hc, Nat.add_zero] at h2 h9 ⊢
    simp only [hc, false_and, if_false]
    split
    · rename_i hw
      have h4 := h4 (.inl hw.2)
      refine ⟨h1, h2, h3, by simp only [newlines_snoc, if_neg hc]; omega, h5, h6, by simp only; omega,
        by simp only [newlines_snoc, if_neg hc]; omega, h9⟩
    · split
      · refine ⟨h1, h2, by simp only [newlines_snoc, if_neg hc]; omega, by simp only [newlines_snoc, if_neg hc]; exact h4, ?_, ?_, h7,
          by simp only [newlines_snoc, if_neg hc]; omega, h9⟩
        · rename_i hw hw'
          intro hk
          exact absurd ⟨hw', hk⟩ hw
        · simp only [newlines_snoc, if_neg hc]; exact h6
      · split
        · rename_i hk
          have h5' := h5 hk
          refine ⟨h1, h2, h3, ?_, h5, h6, by simp only; omega, by simp only [newlines_snoc, if_neg hc]; omega, h9⟩
          simp only [newlines_snoc, if_neg hc]
          have := h4 (.inl hk)
          intro _
          split
          · rename_i he
            simp only [List.isEmpty_iff] at he
            simp [he, h5', newlines]
          · omega
        · split
          · rename_i hk
            have h6' := h6 hk
            have h4' := h4 (.inr hk)
            refine ⟨h1, h2, by simp [newlines], ?_, by simp, by simp, by simp, ?_, h9⟩
            · simp only [newlines_append, newlines_one, if_neg hc, newlines_none]
              intro _
              split
              · rename_i he
                simp only [List.isEmpty_iff] at he
                simp only [he, newlines_none]
                omega
              · omega
            · simp only [newlines_append, newlines_one, if_neg hc, newlines_none]
              omega
          · rename_i hk0 hk1
            have h7' := h7 (by omega)
            refine ⟨low3_append h1 (low3_other (by simp)), h2, by simp [newlines], ?_, by simp, by simp, by simp, ?_, h9⟩
            · simp only [newlines_snoc, if_neg hc, h7']
              simp [newlines]
            · simp only [newlines_snoc, if_neg hc, h7']
              simp [newlines]

theorem parStepA_eq {n m s c} (hK : K < i32Size) (hB : B < u32Size) (h : ParLow K B (n + if c = '\n' then 1 else 0) m s) :
    parStepA A s c = .ok (parStep s c) := by
  obtain ⟨h1, h2, h3, h4, h5, h6, h7, h8, h9⟩ := h
  unfold parStepA
  by_cases hc : c = '\n'
  · subst hc
    simp only [if_true] at h2 h9
    rw [A.addI_exact _ _ (by omega), A.add_exact _ _ (by omega)]
    unfold parStep
    by_cases hk : s.consec = 1
    · simp only [hk, and_self, if_true]
    · simp only [hk, and_false, if_true, if_false]
  · simp [hc]

theorem parRunA_eq {m} (hK : K < i32Size) (hB : B < u32Size) (str : Str) {s : ParState} (h : ParLow K B (newlines str) m s) :
    parRunA A str s = .ok (parRun str s) ∧ ∃ m, ParLow K B 0 m (parRun str s) := by
  induction str generalizing s m with
  | nil => exact ⟨rfl, m, by simpa [newlines, parRun] using h⟩
  | cons c cs ih =>
    have h' : ParLow K B (newlines cs + if c = '\n' then 1 else 0) m s := by
      rw [newlines_cons] at h
      rw [Nat.add_comm]
      exact h
    simp only [parRunA, parRun]
    rw [parStepA_eq hK hB h']
    exact ih (parStep_low h')

theorem parFinishA_eq {m s} (hK : K < i32Size) (h : ParLow K B 0 m s) : parFinishA s = parFinish s := by
  have h3 := h.consec
  have h8 := h.count
  have h9 := h.total
  unfold parFinishA parFinish
  have : (s.consec > 1 ∧ s.consec < i32Size) ↔ s.consec > 1 := ⟨fun h => h.1, fun h => ⟨h, by omega⟩⟩
  simp only [this]

theorem parFinish_low {m s} (h : ParLow K B 0 m s) : Low3 K B (parFinish s) := by
  obtain ⟨h1, h2, h3, h4, h5, h6, h7, h8, h9⟩ := h
  have fin : s.consec ≤ 1 → Low3 K B (if (s.textBuffer ++ s.buffer).isEmpty then s.out else s.out ++ [.mk s.textBufferLine (.text (s.textBuffer ++ s.buffer))]) := by
    intro hk
    split
    · exact h1
    · have := h4 (by omega)
      exact low3_append h1 (low3_text (by rw [newlines_append]; omega) (by rw [newlines_append]; omega))
  unfold parFinish
  split
  · split
    · exact low3_append h1 (low3_other (by simp))
    · exact fin (by omega)
  · rename_i hb
    split
    · rename_i ht
      refine fin ?_
      apply Classical.byContradiction
      intro hk
      rw [h7 (by omega)] at ht
      cases ht
    · exact h1

theorem parInit_low {l t} (h : l + newlines t ≤ B) (h' : newlines t ≤ K) : ParLow K B (newlines t) 0 (ParState.init l) :=
  ⟨(by intro l t h; cases h), h, by simp [ParState.init, newlines], by simp [ParState.init, newlines], by simp [ParState.init],
    by simp [ParState.init], by simp [ParState.init], by simp [ParState.init, newlines], by omega⟩

theorem paragraphsA_eq (hK : K < i32Size) (hB : B < u32Size) {cs : List Chunk} (h : Low3 K B cs) :
    paragraphsA A cs = .ok (paragraphs cs) ∧ Low3 K B (paragraphs cs) := by
  induction cs with
  | nil => exact ⟨rfl, by intro l t h; cases h⟩
  | cons c cs ih =>
    obtain ⟨i1, i2⟩ := ih (fun l t ht => h l t (List.mem_cons_of_mem _ ht))
    obtain ⟨l, v⟩ := c
    have hc : paragraphChunkA A (.mk l v) = .ok (paragraphChunk (.mk l v)) ∧ Low3 K B (paragraphChunk (.mk l v)) := by
      cases v with
      | text t =>
        obtain ⟨g1, g2⟩ := h l t List.mem_cons_self
        obtain ⟨e, m, hm⟩ := parRunA_eq (A := A) hK hB t (parInit_low g1 g2)
        simp only [paragraphChunkA, paragraphChunk, e]
        exact ⟨by rw [parFinishA_eq hK hm], parFinish_low hm⟩
      | _ => exact ⟨rfl, low3_other (by simp)⟩
    simp only [paragraphsA, paragraphs, hc.1, i1]
    exact ⟨trivial, low3_append hc.2 i2⟩

/-! ### maths -/

open LatexAst.Ast2 (Child2)

/-- Commands at the top level. -/
def commands (d : List Ast2.Chunk) : Nat := d.countP fun | .mk _ (.command _) => true | _ => false

/-- Small line numbers, short texts and few commands, at every level. -/
inductive Low (K B : Nat) : List Ast2.Chunk → Prop
  | mk {d} : (∀ c ∈ d, c.lineNo ≤ B) → (∀ l t, Ast2.Chunk.mk l (.text t) ∈ d → l + newlines t ≤ B ∧ newlines t ≤ K) →
      commands d ≤ K → (∀ inner, Child2 d inner → Low K B inner) → Low K B d

theorem Low.line {d} (h : Low K B d) {c} (hc : c ∈ d) : c.lineNo ≤ B := by cases h with | mk h _ _ _ => exact h c hc
theorem Low.text {d} (h : Low K B d) {l t} (hc : Ast2.Chunk.mk l (.text t) ∈ d) : l + newlines t ≤ B ∧ newlines t ≤ K := by
  cases h with | mk _ h _ _ => exact h l t hc
theorem Low.commands {d} (h : Low K B d) : commands d ≤ K := by cases h with | mk _ _ h _ => exact h
theorem Low.child {d} (h : Low K B d) {inner} (hc : Child2 d inner) : Low K B inner := by
  cases h with | mk _ _ _ h => exact h inner hc

/-- As in a debug build, subtractions below zero panic. -/
def _root_.LatexAst.Arith.Strict (A : Arith) : Prop := ∀ a b, a < b → A.sub a b = panicked

theorem strict_sub {a b : Nat} {f : Fail} (h : A.Strict) (hc : checkedSub a b = .error f) : A.sub a b = .error f := by
  unfold checkedSub at hc
  split at hc
  · cases hc
  · rw [h a b (by omega)]; exact hc

/-- The recursive calls agree, and give small documents. -/
def Good (A : Arith) (K B : Nat) (rec rec' : List Ast2.Chunk → Res (List Chunk)) : Prop :=
  ∀ x, Low K B x → ((rec' x = .error .panic → A.Strict) → rec x = rec' x) ∧ ∀ cs, rec' x = .ok cs → Low3 K B cs

variable {rec rec' : List Ast2.Chunk → Res (List Chunk)}

theorem Good.err (hg : Good A K B rec rec') {x} (hx : Low K B x) {f : Fail} (h : rec' x = .error f) (hf : f = .panic → A.Strict) :
    rec x = .error f := by
  rw [(hg x hx).1 (by rw [h]; simpa using hf), h]

theorem Good.ok (hg : Good A K B rec rec') {x} (hx : Low K B x) {cs} (h : rec' x = .ok cs) : rec x = .ok cs := by
  rw [(hg x hx).1 (by rw [h]; simp), h]

theorem not_panic {α : Type} {f : Fail} (h : (.error f : Res α) = .error .panic → A.Strict) : f = .panic → A.Strict := fun hf => h (by rw [hf])

theorem tryScopeA_eq (hK : K < i32Size) (hB : B < u32Size) (hg : Good A K B rec rec') {inner v} (hl : Low K B inner)
    (h : tryScope rec' (.mk inner v) = .error .panic → A.Strict) : tryScopeA A rec (.mk inner v) = tryScope rec' (.mk inner v) := by
  simp only [tryScope, tryScopeA] at h ⊢
  cases hx : rec' inner with
  | error f => rw [hx] at h; rw [hg.err hl hx (not_panic h)]
  | ok cs =>
    rw [hg.ok hl hx]
    simp only
    rw [(paragraphsA_eq hK hB ((hg _ hl).2 _ hx)).1]

theorem tryArgsA_eq (hK : K < i32Size) (hB : B < u32Size) (hg : Good A K B rec rec') {args : List (Str × Ast2.Scope)}
    (hl : ∀ p inner sv, (p, Ast2.Scope.mk inner sv) ∈ args → Low K B inner)
    (h : tryArgs rec' args = .error .panic → A.Strict) : tryArgsA A rec args = tryArgs rec' args := by
  induction args with
  | nil => rfl
  | cons x r ih =>
    obtain ⟨p, ⟨inner, sv⟩⟩ := x
    simp only [tryArgs, tryArgsA] at h ⊢
    have hs : tryScope rec' (.mk inner sv) = .error .panic → A.Strict := by
      intro hp; rw [hp] at h; exact h rfl
    rw [tryScopeA_eq hK hB hg (hl p inner sv List.mem_cons_self) hs]
    cases hx : tryScope rec' (.mk inner sv) with
    | error f => rfl
    | ok s =>
      rw [hx] at h
      simp only at h ⊢
      rw [ih (fun p i v hm => hl p i v (List.mem_cons_of_mem _ hm)) (by intro hp; rw [hp] at h; exact h rfl)]
      rfl

theorem tryCommandA_eq (hK : K < i32Size) (hB : B < u32Size) (hg : Good A K B rec rec') {label} {args : List (Str × Ast2.Scope)}
    (hl : ∀ p inner sv, (p, Ast2.Scope.mk inner sv) ∈ args → Low K B inner)
    (h : tryCommand rec' (.mk label args) = .error .panic → A.Strict) : tryCommandA A rec (.mk label args) = tryCommand rec' (.mk label args) := by
  simp only [tryCommand, tryCommandA] at h ⊢
  rw [tryArgsA_eq hK hB hg hl (by intro hp; rw [hp] at h; exact h rfl)]
  rfl

theorem tryEnvironmentA_eq (hK : K < i32Size) (hB : B < u32Size) (hg : Good A K B rec rec') {label pb pe content} {args : List (Str × Ast2.Scope)}
    (hl : ∀ p inner sv, (p, Ast2.Scope.mk inner sv) ∈ args → Low K B inner) (hc : Low K B content)
    (h : tryEnvironment rec' (.mk label args content pb pe) = .error .panic → A.Strict) :
    tryEnvironmentA A rec (.mk label args content pb pe) = tryEnvironment rec' (.mk label args content pb pe) := by
  simp only [tryEnvironment, tryEnvironmentA] at h ⊢
  rw [tryArgsA_eq hK hB hg hl (by intro hp; rw [hp] at h; exact h rfl)]
  cases hx : tryArgs rec' args with
  | error f => rfl
  | ok a =>
    rw [hx] at h
    simp only at h ⊢
    cases hy : rec' content with
    | error f => rw [hy] at h; rw [hg.err hc hy (not_panic h)]
    | ok cs =>
      rw [hg.ok hc hy]
      simp only
      rw [(paragraphsA_eq hK hB ((hg _ hc).2 _ hy)).1]

/-- The state after `j` commands. -/
structure MLow (K B j : Nat) (s : MState) : Prop where
  out : Low3 K B s.out
  buffer : ∀ c ∈ s.buffer, c.lineNo ≤ B
  text : ∀ l t, Ast2.Chunk.mk l (.text t) ∈ s.buffer → l + newlines t ≤ B ∧ newlines t ≤ K
  commands : commands s.buffer ≤ j
  child : ∀ inner, Child2 s.buffer inner → Low K B inner
  depth : s.depth ≤ j

theorem MLow.low {j s} (h : MLow K B j s) (hj : j ≤ K) : Low K B s.buffer :=
  .mk h.buffer h.text (Nat.le_trans h.commands hj) h.child

/-- `n` newlines to come in the text, `m` newlines so far. -/
structure TLow (K B j n m : Nat) (t : TState) : Prop where
  state : MLow K B j t.m
  cursor : t.cursorLine + n ≤ B
  line : t.textBufferLine + newlines t.textBuffer ≤ t.cursorLine
  count : newlines t.textBuffer ≤ m
  total : n + m ≤ K

theorem TLow.pushStr {j n m t} (h : TLow K B j n m t) : TLow K B j n m t.pushStr := by
  unfold TState.pushStr
  split
  · exact h
  · have := h.cursor
    have := h.line
    have := h.count
    have := h.total
    exact ⟨⟨low3_append h.state.out (low3_text (by omega) (by omega)), h.state.buffer, h.state.text, h.state.commands, h.state.child, h.state.depth⟩,
      by simp only; omega, by simp only [newlines_none]; omega, by simp only [newlines_none]; omega, by omega⟩

theorem rebaseA_eq {k : Nat} (hk : k < u32Size) {cs : List Ast2.Chunk} (hl : ∀ c ∈ cs, c.lineNo < u32Size)
    (h : rebase k cs = .error .panic → A.Strict) : rebaseA A k cs = rebase k cs := by
  induction cs with
  | nil => rfl
  | cons c cs ih =>
    obtain ⟨l, v⟩ := c
    simp only [rebase, rebaseA] at h ⊢
    cases h1 : checkedSub k 1 with
    | error f => rw [h1] at h; rw [sub_panic h1] at h; rw [strict_sub (h rfl) h1]
    | ok k' =>
      rw [h1] at h
      rw [sub_eq A hk h1]
      simp only at h ⊢
      cases h2 : checkedSub l k' with
      | error f => rw [h2] at h; rw [sub_panic h2] at h; rw [strict_sub (h rfl) h2]
      | ok l' =>
        rw [h2] at h
        rw [sub_eq A (show l < u32Size from hl (.mk l v) List.mem_cons_self) h2]
        simp only at h ⊢
        rw [ih (fun c hc => hl c (List.mem_cons_of_mem _ hc)) (by intro hp; rw [hp] at h; exact h rfl)]
        rfl

theorem rebase_low {k : Nat} {cs cs' : List Ast2.Chunk} (h : rebase k cs = .ok cs') :
    (∀ c' ∈ cs', ∃ c ∈ cs, c'.lineNo ≤ c.lineNo ∧ c'.variant = c.variant) ∧ commands cs' = commands cs := by
  induction cs generalizing cs' with
  | nil => cases h; exact ⟨by simp, rfl⟩
  | cons c cs ih =>
    obtain ⟨l, v⟩ := c
    simp only [rebase] at h
    split at h
    · cases h
    · split at h
      · cases h
      · rename_i l' hl
        split at h
        · cases h
        · rename_i r hr
          cases h
          obtain ⟨i1, i2⟩ := ih hr
          have hle : l' ≤ l := by
            unfold checkedSub at hl
            split at hl <;> cases hl
            omega
          refine ⟨?_, ?_⟩
          · intro c' hc'
            rcases List.mem_cons.1 hc' with rfl | hc'
            · exact ⟨.mk l v, List.mem_cons_self, hle, rfl⟩
            · obtain ⟨c, hc, h1⟩ := i1 c' hc'
              exact ⟨c, List.mem_cons_of_mem _ hc, h1⟩
          · simp only [commands, List.countP_cons] at i2 ⊢
            rw [i2]
            cases v <;> rfl

theorem child_of {a b : List Ast2.Chunk} (h : ∀ c' ∈ a, ∃ c ∈ b, c'.variant = c.variant) {inner} (hc : Child2 a inner) : Child2 b inner := by
  have key : ∀ {l v}, Ast2.Chunk.mk l v ∈ a → ∃ l', Ast2.Chunk.mk l' v ∈ b := by
    intro l v hm
    obtain ⟨⟨l', v'⟩, h1, h2⟩ := h _ hm
    simp only [Ast2.Chunk.variant] at h2
    subst h2
    exact ⟨l', h1⟩
  cases hc with
  | scope hm => obtain ⟨_, hm⟩ := key hm; exact .scope hm
  | arg hm ha => obtain ⟨_, hm⟩ := key hm; exact .arg hm ha
  | envArg hm ha => obtain ⟨_, hm⟩ := key hm; exact .envArg hm ha
  | envContent hm => obtain ⟨_, hm⟩ := key hm; exact .envContent hm

theorem Low.rebase {k : Nat} {cs cs' : List Ast2.Chunk} (hl : Low K B cs) (h : rebase k cs = .ok cs') : Low K B cs' := by
  obtain ⟨h1, h2⟩ := rebase_low h
  refine .mk ?_ ?_ (by rw [h2]; exact hl.commands) fun inner hc => hl.child (child_of (fun c' hc' => ?_) hc)
  · intro c' hc'
    obtain ⟨c, hc, h3, _⟩ := h1 c' hc'
    exact Nat.le_trans h3 (hl.line hc)
  · intro l t hm
    obtain ⟨⟨l', v⟩, hc, h3, h4⟩ := h1 _ hm
    simp only [Ast2.Chunk.lineNo, Ast2.Chunk.variant] at h3 h4
    subst h4
    have := hl.text hc
    omega
  · obtain ⟨c, hc, _, h4⟩ := h1 c' hc'
    exact ⟨c, hc, h4⟩

/-- Pushing a chunk that has no commands inside, on top of it. -/
theorem child_snoc {a : List Ast2.Chunk} {c inner} (h : Child2 (a ++ [c]) inner) : Child2 a inner ∨ Child2 [c] inner := by
  cases h with
  | scope hm => rcases List.mem_append.1 hm with hm | hm; exact .inl (.scope hm); exact .inr (.scope hm)
  | arg hm ha => rcases List.mem_append.1 hm with hm | hm; exact .inl (.arg hm ha); exact .inr (.arg hm ha)
  | envArg hm ha => rcases List.mem_append.1 hm with hm | hm; exact .inl (.envArg hm ha); exact .inr (.envArg hm ha)
  | envContent hm => rcases List.mem_append.1 hm with hm | hm; exact .inl (.envContent hm); exact .inr (.envContent hm)

theorem child_text {l t inner} (h : Child2 [.mk l (.text t)] inner) : False := by
  cases h <;> simp at *

theorem commands_snoc_text (a : List Ast2.Chunk) (l t) : commands (a ++ [.mk l (.text t)]) = commands a := by
  simp [commands, List.countP_append]

/-- The buffer of a dollar formula. -/
theorem TLow.buffer {j n m t} (h : TLow K B j n m t) (hj : j ≤ K) :
    Low K B (if t.textBuffer.isEmpty then t.m.buffer else t.m.buffer ++ [.mk t.textBufferLine (.text t.textBuffer)]) := by
  have h0 := h.state
  have h1 := h.cursor
  have h2 := h.line
  have h3 := h.count
  have h4 := h.total
  split
  · exact h0.low hj
  · refine .mk ?_ ?_ ?_ ?_
    · intro c hc
      rcases List.mem_append.1 hc with hc | hc
      · exact h0.buffer c hc
      · rw [List.mem_singleton] at hc
        subst hc
        simp only [Ast2.Chunk.lineNo]
        omega
    · intro l s hm
      rcases List.mem_append.1 hm with hm | hm
      · exact h0.text l s hm
      · simp only [List.mem_singleton, Ast2.Chunk.mk.injEq, Ast2.ChunkVariant.text.injEq] at hm
        obtain ⟨rfl, rfl⟩ := hm
        omega
    · rw [commands_snoc_text]
      exact Nat.le_trans h0.commands hj
    · intro inner hc
      rcases child_snoc hc with hc | hc
      · exact h0.child inner hc
      · exact (child_text hc).elim

theorem closeDollarsA_eq {j n m t type} (hB : B < u32Size) (hg : Good A K B rec rec') (hj : j ≤ K) (ht : TLow K B j n m t)
    (h : closeDollars rec' t type = .error .panic → A.Strict) :
    closeDollarsA A rec t type = closeDollars rec' t type ∧ ∀ t', closeDollars rec' t type = .ok t' → TLow K B j n 0 t' := by
  have hb := ht.buffer hj
  have h1 := ht.cursor
  have h2 := ht.line
  have h4 := ht.total
  unfold closeDollars at h ⊢
  unfold closeDollarsA
  generalize (if t.textBuffer.isEmpty then t.m.buffer else t.m.buffer ++ [.mk t.textBufferLine (.text t.textBuffer)]) = buf at *
  simp only at h ⊢
  rw [rebaseA_eq (by omega) (fun c hc => by have := hb.line hc; omega) (by intro hp; rw [hp] at h; exact h rfl)]
  cases hx : rebase t.textBufferLine buf with
  | error f => exact ⟨rfl, by simp⟩
  | ok buf' =>
    rw [hx] at h
    simp only at h ⊢
    have hb' := hb.rebase hx
    cases hy : rec' buf' with
    | error f => rw [hy] at h; rw [hg.err hb' hy (not_panic h)]; exact ⟨rfl, by simp⟩
    | ok content =>
      rw [hg.ok hb' hy]
      refine ⟨rfl, fun t' ht' => ?_⟩
      cases ht'
      have := ht.state
      exact ⟨⟨low3_append this.out (low3_other (by simp)), by simp, by simp, by simp [commands], fun inner hc => (by cases hc <;> simp at *), this.depth⟩,
        h1, by simp [newlines_none], by simp [newlines_none], by omega⟩

theorem stepDollarA_eq {j n m t} (hB : B < u32Size) (hg : Good A K B rec rec') (hj : j ≤ K) (ht : TLow K B j n m t)
    (h : stepDollar rec' t = .error .panic → A.Strict) :
    stepDollarA A rec t = stepDollar rec' t ∧ ∀ t', stepDollar rec' t = .ok t' → TLow K B j n m t' := by
  have more : ∀ {t}, TLow K B j n 0 t → TLow K B j n m t := fun h =>
    ⟨h.state, h.cursor, h.line, Nat.le_trans h.count (Nat.zero_le _), ht.total⟩
  have same : ∀ mode, TLow K B j n m { t with m := { t.m with mode := mode } } := fun mode =>
    ⟨⟨ht.state.out, ht.state.buffer, ht.state.text, ht.state.commands, ht.state.child, ht.state.depth⟩, ht.cursor, ht.line, ht.count, ht.total⟩
  unfold stepDollar at h ⊢
  unfold stepDollarA
  cases hm : t.m.mode with
  | none =>
    refine ⟨rfl, fun t' ht' => ?_⟩
    cases ht'
    have hp := ht.pushStr
    have hempty : t.pushStr.textBuffer = [] := by
      unfold TState.pushStr
      split
      · rename_i he; simpa using he
      · rfl
    exact ⟨⟨hp.state.out, hp.state.buffer, hp.state.text, hp.state.commands, hp.state.child, hp.state.depth⟩, hp.cursor,
      by simp only [hempty, newlines_none]; omega, hp.count, hp.total⟩
  | singleDollar v =>
    cases v with
    | brackets => exact ⟨rfl, fun t' ht' => by cases ht'; exact ht⟩
    | dollars =>
      rw [hm] at h
      simp only at h ⊢
      by_cases hc : t.textBuffer.isEmpty = true ∧ t.m.buffer.isEmpty = true
      · rw [if_pos hc, if_pos hc]
        exact ⟨rfl, fun t' ht' => by cases ht'; exact same _⟩
      · rw [if_neg hc] at h
        rw [if_neg hc, if_neg hc]
        obtain ⟨e, hh⟩ := closeDollarsA_eq (A := A) hB hg hj ht h
        exact ⟨e, fun t' ht' => more (hh t' ht')⟩
  | doubleDollar v =>
    cases v with
    | brackets => exact ⟨rfl, fun t' ht' => by cases ht'; exact ht⟩
    | dollars => exact ⟨rfl, fun t' ht' => by cases ht'; exact same _⟩
  | doubleClosing =>
    rw [hm] at h
    obtain ⟨e, hh⟩ := closeDollarsA_eq (A := A) hB hg hj ht h
    exact ⟨e, fun t' ht' => more (hh t' ht')⟩

theorem stepCharA_eq {j n m t c} (hB : B < u32Size) (hg : Good A K B rec rec') (hj : j ≤ K)
    (ht : TLow K B j (n + if c = '\n' then 1 else 0) m t) (h : stepChar rec' t c = .error .panic → A.Strict) :
    stepCharA A rec t c = stepChar rec' t c ∧ ∀ t', stepChar rec' t c = .ok t' → TLow K B j n (m + if c = '\n' then 1 else 0) t' := by
  have h0 := ht.state
  have h1 := ht.cursor
  have h2 := ht.line
  have h3 := ht.count
  have h4 := ht.total
  unfold stepChar at h ⊢
  unfold stepCharA
  by_cases hc : c = '\n'
  · subst hc
    simp only [if_true] at h1 h4
    have hd : ¬ '\n' = '$' := by decide
    simp only [if_true, if_neg hd]
    rw [A.add_exact _ _ (by omega)]
    refine ⟨rfl, fun t' ht' => ?_⟩
    cases ht'
    exact ⟨h0, by simp only; omega, by simp only [newlines_snoc, if_true]; omega, by simp only [newlines_snoc, if_true]; omega, by omega⟩
  · simp only [if_neg hc, Nat.add_zero] at h h1 h4 ⊢
    have ht0 : TLow K B j n m t := ⟨h0, h1, h2, h3, h4⟩
    split
    · rename_i hd
      rw [if_pos hd] at h
      exact stepDollarA_eq hB hg hj ht0 h
    · refine ⟨rfl, fun t' ht' => ?_⟩
      cases ht'
      exact ⟨h0, h1, by simp only [newlines_snoc, if_neg hc]; omega, by simp only [newlines_snoc, if_neg hc]; omega, h4⟩

theorem runTextA_eq {j} (hB : B < u32Size) (hg : Good A K B rec rec') (hj : j ≤ K) (str : Str) {m t}
    (ht : TLow K B j (newlines str) m t) (h : runText rec' str t = .error .panic → A.Strict) :
    runTextA A rec str t = runText rec' str t ∧ ∀ t', runText rec' str t = .ok t' → ∃ m, TLow K B j 0 m t' := by
  induction str generalizing t m with
  | nil => exact ⟨rfl, fun t' ht' => by cases ht'; exact ⟨m, ht⟩⟩
  | cons c cs ih =>
    have ht' : TLow K B j (newlines cs + if c = '\n' then 1 else 0) m t := by
      rw [newlines_cons] at ht
      rw [Nat.add_comm]
      exact ht
    simp only [runText, runTextA] at h ⊢
    obtain ⟨e, hh⟩ := stepCharA_eq (A := A) hB hg hj ht' (by intro hp; rw [hp] at h; exact h rfl)
    rw [e]
    cases hx : stepChar rec' t c with
    | error f => exact ⟨rfl, by simp⟩
    | ok u =>
      rw [hx] at h
      exact ih (hh u hx) h

theorem stepMathsTextA_eq {j s line str} (hB : B < u32Size) (hg : Good A K B rec rec') (hj : j ≤ K) (hs : MLow K B j s)
    (h1 : line + newlines str ≤ B) (h2 : newlines str ≤ K) (h : stepMathsText rec' s line str = .error .panic → A.Strict) :
    stepMathsTextA A rec s line str = stepMathsText rec' s line str ∧ ∀ s', stepMathsText rec' s line str = .ok s' → MLow K B j s' := by
  have ht : TLow K B j (newlines str) 0 ⟨s, line, [], line⟩ := ⟨hs, h1, by simp [newlines_none], by simp [newlines_none], by omega⟩
  unfold stepMathsText at h ⊢
  unfold stepMathsTextA
  obtain ⟨e, hh⟩ := runTextA_eq (A := A) hB hg hj str ht (by intro hp; rw [hp] at h; exact h rfl)
  rw [e]
  cases hx : runText rec' str ⟨s, line, [], line⟩ with
  | error f => exact ⟨rfl, by simp⟩
  | ok t =>
    obtain ⟨m, hm⟩ := hh t hx
    refine ⟨rfl, fun s' hs' => ?_⟩
    cases hs'
    exact hm.pushStr.state

theorem mlow_push {j s line v k} (hs : MLow K B j s) (hk : commands [.mk line v] ≤ k) (h1 : line ≤ B)
    (h2 : ∀ t, v = .text t → line + newlines t ≤ B ∧ newlines t ≤ K) (h3 : ∀ inner, Child2 [.mk line v] inner → Low K B inner) :
    MLow K B (j + k) (s.pushBuffer line v) := by
  obtain ⟨g1, g2, g3, g4, g5, g6⟩ := hs
  refine ⟨g1, ?_, ?_, ?_, ?_, by simp only [MState.pushBuffer]; omega⟩
  · intro c hc
    simp only [MState.pushBuffer, List.mem_append, List.mem_singleton] at hc
    rcases hc with hc | rfl
    · exact g2 c hc
    · exact h1
  · intro l t hm
    simp only [MState.pushBuffer, List.mem_append, List.mem_singleton, Ast2.Chunk.mk.injEq] at hm
    rcases hm with hm | ⟨rfl, rfl⟩
    · exact g3 l t hm
    · exact h2 t rfl
  · simp only [MState.pushBuffer, commands, List.countP_append] at g4 hk ⊢
    omega
  · intro inner hc
    rcases child_snoc hc with hc | hc
    · exact g5 inner hc
    · exact h3 inner hc

theorem closeBracketsA_eq {j s type} (hg : Good A K B rec rec') (hj : j ≤ K) (hs : MLow K B j s)
    (h : closeBrackets rec' s type = .error .panic → A.Strict) :
    closeBrackets rec s type = closeBrackets rec' s type ∧ ∀ s', closeBrackets rec' s type = .ok s' → MLow K B j s' := by
  unfold closeBrackets at h ⊢
  have hb := hs.low hj
  cases hy : rec' s.buffer with
  | error f => rw [hy] at h; rw [hg.err hb hy (not_panic h)]; exact ⟨rfl, by simp⟩
  | ok content =>
    rw [hg.ok hb hy]
    refine ⟨rfl, fun t' ht' => ?_⟩
    cases ht'
    exact ⟨low3_append hs.out (low3_other (by simp)), by simp, by simp, by simp [commands], fun inner hc => (by cases hc <;> simp at *), by simp⟩

theorem MLow.mono {j k s} (h : MLow K B j s) (hk : j ≤ k) : MLow K B k s :=
  ⟨h.out, h.buffer, h.text, Nat.le_trans h.commands hk, h.child, Nat.le_trans h.depth hk⟩

theorem ite_both {α} {c : Prop} [Decidable c] {a a' b b' : Res α} {Q : α → Prop} (h : (if c then a' else b') = .error .panic → A.Strict)
    (ha : c → (a' = .error .panic → A.Strict) → a = a' ∧ ∀ s, a' = .ok s → Q s) (hb : ¬ c → (b' = .error .panic → A.Strict) → b = b' ∧ ∀ s, b' = .ok s → Q s) :
    (if c then a else b) = (if c then a' else b') ∧ ∀ s, (if c then a' else b') = .ok s → Q s := by
  by_cases hc : c
  · simp only [if_pos hc] at h ⊢; exact ha hc h
  · simp only [if_neg hc] at h ⊢; exact hb hc h

theorem stepMathsCommandA_eq {j s line label args} (hK : K < i32Size) (hB : B < u32Size) (hg : Good A K B rec rec') (hj : j + 1 ≤ K)
    (hs : MLow K B j s) (hline : line ≤ B) (hl : ∀ p inner sv, (p, Ast2.Scope.mk inner sv) ∈ args → Low K B inner)
    (h : stepMathsCommand rec' s line (.mk label args) = .error .panic → A.Strict) :
    stepMathsCommandA A rec s line (.mk label args) = stepMathsCommand rec' s line (.mk label args) ∧
      ∀ s', stepMathsCommand rec' s line (.mk label args) = .ok s' → MLow K B (j + 1) s' := by
  have hd := hs.depth
  have hKu : K < u32Size := by simp only [i32Size, u32Size] at *; omega
  have up := hs.mono (Nat.le_succ j)
  have sub : ∀ s1 : MState, s1 = s → ((match checkedSub s.depth 1 with
      | .error p => .error p
      | .ok d => .ok { s with depth := d } : Res MState) = .error .panic → A.Strict) → (match A.sub s.depth 1 with
      | .error p => .error p
      | .ok d => .ok { s with depth := d } : Res MState) = (match checkedSub s.depth 1 with
      | .error p => .error p
      | .ok d => .ok { s with depth := d } : Res MState) ∧ ∀ s', (match checkedSub s.depth 1 with
      | .error p => .error p
      | .ok d => .ok { s with depth := d } : Res MState) = .ok s' → MLow K B (j + 1) s' := by
    intro _ _ h
    cases hc : checkedSub s.depth 1 with
    | error f => rw [hc] at h; rw [sub_panic hc] at h; rw [strict_sub (h rfl) hc]; exact ⟨rfl, by simp⟩
    | ok d =>
      rw [sub_eq A (by omega) hc]
      refine ⟨rfl, fun s' hs' => ?_⟩
      cases hs'
      have : d ≤ s.depth := by
        unfold checkedSub at hc
        split at hc <;> cases hc
        omega
      exact ⟨up.out, up.buffer, up.text, up.commands, up.child, by simp only; omega⟩
  unfold stepMathsCommand at h ⊢
  unfold stepMathsCommandA
  simp only [Ast2.Command.label] at h ⊢
  refine ite_both h (fun _ _ => ⟨rfl, by simp [fail]⟩) (fun _ h => ?_)
  refine ite_both h (fun _ _ => ⟨rfl, fun s' hs' => ?_⟩) (fun _ h => ?_)
  · cases hs'
    exact ⟨up.out, up.buffer, up.text, up.commands, up.child, by simp⟩
  refine ite_both h (fun _ _ => ⟨rfl, fun s' hs' => ?_⟩) (fun _ h => ?_)
  · cases hs'
    exact ⟨up.out, up.buffer, up.text, up.commands, up.child, by simp⟩
  refine ite_both h (fun _ _ => ?_) (fun _ h => ?_)
  · rw [A.add_exact _ _ (by omega)]
    refine ⟨rfl, fun s' hs' => ?_⟩
    cases hs'
    exact ⟨up.out, up.buffer, up.text, up.commands, up.child, by simp only; omega⟩
  refine ite_both h (fun _ _ => ?_) (fun _ h => ?_)
  · rw [A.add_exact _ _ (by omega)]
    refine ⟨rfl, fun s' hs' => ?_⟩
    cases hs'
    exact ⟨up.out, up.buffer, up.text, up.commands, up.child, by simp only; omega⟩
  refine ite_both h (fun _ h => ?_) (fun _ h => ?_)
  · obtain ⟨e, hh⟩ := closeBracketsA_eq hg (by omega) hs h
    exact ⟨e, fun s' hs' => (hh s' hs').mono (Nat.le_succ j)⟩
  refine ite_both h (fun _ h => ?_) (fun _ h => ?_)
  · obtain ⟨e, hh⟩ := closeBracketsA_eq hg (by omega) hs h
    exact ⟨e, fun s' hs' => (hh s' hs').mono (Nat.le_succ j)⟩
  refine ite_both h (fun _ h => sub s rfl h) (fun _ h => ?_)
  refine ite_both h (fun _ h => sub s rfl h) (fun _ h => ?_)
  refine ite_both h (fun _ h => ?_) (fun _ h => ⟨rfl, fun s' hs' => ?_⟩)
  · rw [tryCommandA_eq hK hB hg hl (by intro hp; rw [hp] at h; exact h rfl)]
    refine ⟨rfl, fun s' hs' => ?_⟩
    cases hx : tryCommand rec' (.mk label args) with
    | error f => rw [hx] at hs'; cases hs'
    | ok c =>
      rw [hx] at hs'
      cases hs'
      exact ⟨low3_append up.out (low3_other (by simp)), up.buffer, up.text, up.commands, up.child, up.depth⟩
  · cases hs'
    refine mlow_push hs (by simp [commands]) hline (by simp) ?_
    intro inner hc
    cases hc with
    | scope hm => simp at hm
    | envArg hm => simp at hm
    | envContent hm => simp at hm
    | arg hm ha =>
      simp only [List.mem_singleton, Ast2.Chunk.mk.injEq, Ast2.ChunkVariant.command.injEq, Ast2.Command.mk.injEq] at hm
      obtain ⟨_, _, rfl⟩ := hm
      exact hl _ _ _ ha

theorem stepMathsA_eq {j s c d} (hK : K < i32Size) (hB : B < u32Size) (hg : Good A K B rec rec') (hd : Low K B d) (hc : c ∈ d)
    (hj : j + commands [c] ≤ K) (hs : MLow K B j s) (h : stepMaths rec' s c = .error .panic → A.Strict) :
    stepMathsA A rec s c = stepMaths rec' s c ∧ ∀ s', stepMaths rec' s c = .ok s' → MLow K B (j + commands [c]) s' := by
  obtain ⟨line, v⟩ := c
  have hline : line ≤ B := hd.line hc
  have one : ∀ inner, Child2 [.mk line v] inner → Low K B inner := fun inner hi =>
    hd.child (child_of (fun c' hc' => ⟨.mk line v, hc, by rw [List.mem_singleton] at hc'; rw [hc']⟩) hi)
  cases v with
  | command cmd =>
    obtain ⟨label, args⟩ := cmd
    have e1 : commands [.mk line (.command (.mk label args))] = 1 := by simp [commands]
    rw [e1] at hj ⊢
    simp only [stepMaths, stepMathsA] at h ⊢
    exact stepMathsCommandA_eq hK hB hg hj hs hline (fun p inner sv hm => hd.child (.arg hc hm)) h
  | scope sc =>
    obtain ⟨inner, sv⟩ := sc
    have hp := mlow_push hs (k := commands [.mk line (.scope (.mk inner sv))]) (Nat.le_refl _) hline (by simp) one
    simp only [stepMaths, stepMathsA] at h ⊢
    split
    · rename_i hm
      rw [if_pos hm] at h
      rw [tryScopeA_eq hK hB hg (hd.child (.scope hc)) (by intro hp; rw [hp] at h; exact h rfl)]
      refine ⟨rfl, fun s' hs' => ?_⟩
      cases hx : tryScope rec' (.mk inner sv) with
      | error f => rw [hx] at hs'; cases hs'
      | ok c =>
        rw [hx] at hs'
        cases hs'
        have up := hs.mono (Nat.le_add_right j (commands [.mk line (.scope (.mk inner sv))]))
        exact ⟨low3_append up.out (low3_other (by simp)), up.buffer, up.text, up.commands, up.child, up.depth⟩
    · exact ⟨rfl, fun s' hs' => by cases hs'; exact hp⟩
  | environment e =>
    obtain ⟨label, args, content, pb, pe⟩ := e
    have hp := mlow_push hs (k := commands [.mk line (.environment (.mk label args content pb pe))]) (Nat.le_refl _) hline (by simp) one
    simp only [stepMaths, stepMathsA] at h ⊢
    split
    · rename_i hm
      rw [if_pos hm] at h
      rw [tryEnvironmentA_eq hK hB hg (fun p inner sv hm => hd.child (.envArg hc hm)) (hd.child (.envContent hc))
        (by intro hp; rw [hp] at h; exact h rfl)]
      refine ⟨rfl, fun s' hs' => ?_⟩
      cases hx : tryEnvironment rec' (.mk label args content pb pe) with
      | error f => rw [hx] at hs'; cases hs'
      | ok c =>
        rw [hx] at hs'
        cases hs'
        have up := hs.mono (Nat.le_add_right j (commands [.mk line (.environment (.mk label args content pb pe))]))
        exact ⟨low3_append up.out (low3_other (by simp)), up.buffer, up.text, up.commands, up.child, up.depth⟩
    · exact ⟨rfl, fun s' hs' => by cases hs'; exact hp⟩
  | text str =>
    have ht := hd.text hc
    have hp := mlow_push hs (k := commands [.mk line (.text str)]) (Nat.le_refl _) hline
      (by intro t h; cases h; exact ht) one
    simp only [stepMaths, stepMathsA] at h ⊢
    split
    · exact ⟨rfl, fun s' hs' => by cases hs'; exact hp⟩
    · rename_i hm
      rw [if_neg hm] at h
      obtain ⟨e, hh⟩ := stepMathsTextA_eq (A := A) hB hg (by omega) hs ht.1 ht.2 h
      exact ⟨e, fun s' hs' => (hh s' hs').mono (Nat.le_add_right _ _)⟩

theorem runMathsA_eq {d} (hK : K < i32Size) (hB : B < u32Size) (hg : Good A K B rec rec') (hd : Low K B d) (cs : List Ast2.Chunk)
    (hsub : ∀ c ∈ cs, c ∈ d) {j s} (hj : j + commands cs ≤ K) (hs : MLow K B j s) (h : runMaths rec' cs s = .error .panic → A.Strict) :
    runMathsA A rec cs s = runMaths rec' cs s ∧ ∀ s', runMaths rec' cs s = .ok s' → Low3 K B s'.out := by
  induction cs generalizing j s with
  | nil => exact ⟨rfl, fun s' hs' => by cases hs'; exact hs.out⟩
  | cons c cs ih =>
    have hcc : commands (c :: cs) = commands [c] + commands cs := by
      simp only [commands]
      rw [← List.countP_append]
      rfl
    simp only [runMaths, runMathsA] at h ⊢
    obtain ⟨e, hh⟩ := stepMathsA_eq (A := A) hK hB hg hd (hsub c List.mem_cons_self) (by omega) hs (by intro hp; rw [hp] at h; exact h rfl)
    rw [e]
    cases hx : stepMaths rec' s c with
    | error f => exact ⟨rfl, by simp⟩
    | ok s' =>
      rw [hx] at h
      exact ih (fun c hc => hsub c (List.mem_cons_of_mem _ hc)) (by omega) (hh s' hx) h

theorem mlow_init : MLow K B 0 MState.init :=
  ⟨(by intro l t h; cases h), by simp [MState.init], by simp [MState.init], by simp [MState.init, commands],
    fun inner hc => (by cases hc <;> simp [MState.init] at *), by simp [MState.init]⟩

theorem good_fuel (A : Arith) (hK : K < i32Size) (hB : B < u32Size) (n : Nat) : Good A K B (mathsFuelA A n) (mathsFuel n) := by
  induction n with
  | zero => exact fun x hx => ⟨fun _ => rfl, fun cs h => by cases h⟩
  | succ n ih =>
    intro d hd
    by_cases hp : runMaths (mathsFuel n) d MState.init = .error .panic → A.Strict
    rotate_left
    · obtain ⟨hp, hs⟩ := Classical.not_imp.1 hp
      refine ⟨fun h => absurd (h ?_) hs, fun cs h => ?_⟩
      · simp only [mathsFuel, hp]
      · simp only [mathsFuel, hp] at h; cases h
    · obtain ⟨e, hh⟩ := runMathsA_eq (A := A) hK hB ih hd d (fun c hc => hc) (by simpa using hd.commands) mlow_init hp
      simp only [mathsFuel, mathsFuelA, e]
      cases hx : runMaths (mathsFuel n) d MState.init with
      | error f => exact ⟨fun _ => rfl, fun cs h => by cases h⟩
      | ok s =>
        obtain ⟨p1, p2⟩ := paragraphsA_eq (A := A) hK hB (hh s hx)
        simp only [finishMaths, finishMathsA, p1]
        refine ⟨fun _ => by trivial, fun cs h => ?_⟩
        split at h
        · cases h
        · cases h; exact p2

theorem good_maths (A : Arith) (hK : K < i32Size) (hB : B < u32Size) : Good A K B (mathsFromChunksA A) mathsFromChunks :=
  fun x hx => good_fuel A hK hB _ x hx

/-! ### documents -/

theorem low_sublist {d d' : List Ast2.Chunk} (h : Low K B d) (hs : d'.Sublist d) : Low K B d' := by
  refine .mk (fun c hc => h.line (hs.subset hc)) (fun l t hc => h.text (hs.subset hc)) ?_ (fun inner hc => h.child (hc.mono fun c hc => hs.subset hc))
  exact Nat.le_trans hs.countP_le h.commands

/-- The sections are lists of chunks seen so far. -/
def Sections (p : List Ast2.Chunk) (s : DState) : Prop := s.preamable.Sublist p ∧ s.trailing.Sublist p

theorem Sections.weaken {p s c} (h : Sections p s) : Sections (p ++ [c]) s :=
  ⟨h.1.trans (List.sublist_append_left _ _), h.2.trans (List.sublist_append_left _ _)⟩

theorem Sections.push {p s line v} (h : Sections p s) : Sections (p ++ [.mk line v]) (s.push line v) := by
  unfold DState.push
  split
  · exact ⟨h.1.append (List.Sublist.refl _), h.weaken.2⟩
  · exact ⟨h.weaken.1, h.2.append (List.Sublist.refl _)⟩

theorem sections_step {p s c s'} (h : Sections p s) (hx : stepDocument s c = .ok s') : Sections (p ++ [c]) s' := by
  obtain ⟨line, v⟩ := c
  cases v with
  | environment e =>
    simp only [stepDocument] at hx
    split at hx
    · split at hx <;> cases hx
      exact h.weaken
    · cases hx; exact h.push
  | command cmd =>
    simp only [stepDocument] at hx
    split at hx
    · split at hx
      · cases hx
      · split at hx <;> cases hx
        exact Sections.push (s := { s with construct := _ }) h
    · cases hx; exact h.push
  | text t => cases hx; exact h.push
  | scope sc => cases hx; exact h.push

theorem stepDocumentA_eq {s c d} (hK : K < i32Size) (hB : B < u32Size) (hd : Low K B d) (hc : c ∈ d)
    (h : stepDocument s c = .error .panic → A.Strict) : stepDocumentA A s c = stepDocument s c := by
  obtain ⟨line, v⟩ := c
  cases v with
  | environment e =>
    obtain ⟨label, args, content, pb, pe⟩ := e
    simp only [stepDocument, stepDocumentA] at h ⊢
    by_cases hl : (Ast2.Environment.mk label args content pb pe).label = chars!"document"
    · rw [if_pos hl] at h
      rw [if_pos hl, if_pos hl]
      rw [tryEnvironmentA_eq hK hB (good_maths A hK hB) (fun p inner sv hm => hd.child (.envArg hc hm)) (hd.child (.envContent hc))
        (by intro hp; rw [hp] at h; exact h rfl)]
      rfl
    · rw [if_neg hl, if_neg hl]
  | command cmd => rfl
  | text t => rfl
  | scope sc => rfl

theorem runDocumentA_eq {d} (hK : K < i32Size) (hB : B < u32Size) (hd : Low K B d) (p cs : List Ast2.Chunk) {s}
    (he : d = p ++ cs) (hs : Sections p s) (h : runDocument cs s = .error .panic → A.Strict) :
    runDocumentA A cs s = runDocument cs s ∧ ∀ s', runDocument cs s = .ok s' → Sections d s' := by
  induction cs generalizing p s with
  | nil => exact ⟨rfl, fun s' hs' => by cases hs'; rw [he, List.append_nil]; exact hs⟩
  | cons c cs ih =>
    simp only [runDocument, runDocumentA] at h ⊢
    rw [stepDocumentA_eq hK hB hd (by rw [he]; simp) (by intro hp; rw [hp] at h; exact h rfl)]
    cases hx : stepDocument s c with
    | error f => exact ⟨rfl, by simp⟩
    | ok s' =>
      rw [hx] at h
      exact ih (p ++ [c]) (by rw [he]; simp) (sections_step hs hx) h

theorem mathsA_eq {d} (hK : K < i32Size) (hB : B < u32Size) (hd : Low K B d) (h : mathsFromChunks d = .error .panic → A.Strict) :
    mathsFromChunksA A d = mathsFromChunks d := (good_maths A hK hB d hd).1 h

theorem tryFromA_eq {d} (hK : K < i32Size) (hB : B < u32Size) (hd : Low K B d) (h : tryFrom d = .error .panic → A.Strict) :
    tryFromA A d = tryFrom d := by
  unfold tryFrom at h ⊢
  unfold tryFromA
  obtain ⟨e, hh⟩ := runDocumentA_eq (A := A) hK hB hd [] d rfl (s := DState.init) ⟨by simp [DState.init], by simp [DState.init]⟩
    (by intro hp; rw [hp] at h; exact h rfl)
  rw [e]
  cases hx : runDocument d DState.init with
  | error f => rfl
  | ok s =>
    rw [hx] at h
    obtain ⟨h1, h2⟩ := hh s hx
    simp only at h ⊢
    have l1 := low_sublist hd h1
    have l2 := low_sublist hd h2
    rw [mathsA_eq hK hB l1 (by intro hp; rw [hp] at h; exact h rfl)]
    cases hy : mathsFromChunks s.preamable with
    | error f => rfl
    | ok pre =>
      rw [hy] at h
      simp only at h ⊢
      rw [(paragraphsA_eq (A := A) hK hB ((good_maths A hK hB _ l1).2 pre hy)).1]
      simp only
      rw [mathsA_eq hK hB l2 (by intro hp; rw [hp] at h; exact h rfl)]
      cases hz : mathsFromChunks s.trailing with
      | error f => rfl
      | ok tr =>
        simp only
        rw [(paragraphsA_eq (A := A) hK hB ((good_maths A hK hB _ l2).2 tr hz)).1]

/-! ### parsed documents -/

theorem commands_display (d : List Ast2.Chunk) : commands d ≤ (Ast2.displayChunks d).length := by
  induction d with
  | nil => simp [commands]
  | cons c d ih =>
    obtain ⟨l, v⟩ := c
    simp only [commands, List.countP_cons, Ast2.displayChunks, List.length_append] at ih ⊢
    cases v with
    | command cmd =>
      obtain ⟨label, args⟩ := cmd
      simp only [Ast2.Chunk.display, Ast2.ChunkVariant.display, Ast2.Command.display, List.length_cons]
      simp
      omega
    | text t => simp; omega
    | scope t => simp; omega
    | environment t => simp; omega

theorem low_levels (n : Nat) {d : List Ast2.Chunk} (hn : sizeChunks d < n)
    (h1 : ∀ lv, Ast2.Level d lv → ∀ c ∈ lv, c.lineNo ≤ B)
    (h2 : ∀ lv, Ast2.Level d lv → ∀ l t, Ast2.Chunk.mk l (.text t) ∈ lv → l + newlines t ≤ B ∧ newlines t ≤ K)
    (h3 : ∀ lv, Ast2.Level d lv → commands lv ≤ K) : Low K B d := by
  induction n generalizing d with
  | zero => omega
  | succ n ih =>
    refine .mk (h1 _ .top) (h2 _ .top) (h3 _ .top) (fun inner hc => ih ?_ ?_ ?_ ?_)
    · have := child_size hc; omega
    · exact fun lv hl => h1 lv (Ast2.Level.trans (Ast2.Level.child .top hc) hl)
    · exact fun lv hl => h2 lv (Ast2.Level.trans (Ast2.Level.child .top hc) hl)
    · exact fun lv hl => h3 lv (Ast2.Level.trans (Ast2.Level.child .top hc) hl)

theorem low_parsed {s e} (h : Ast2.fromStr s = .ok e) : Low s.length (2 * s.length + 1) e := by
  have h0 := h
  unfold Ast2.fromStr at h
  cases hd : Ast1.fromStr s with
  | error f => rw [hd] at h; cases h
  | ok d =>
    rw [hd] at h
    have hlen : (Ast2.displayChunks e).length ≤ s.length := by
      rw [Ast2.C21 d e h]
      have := (Ast1.C01_partial s d hd).1.length_le
      simpa using this
    have hnl : newlines s ≤ s.length := List.length_filter_le _ _
    refine low_levels _ (Nat.lt_succ_self _) ?_ ?_ ?_
    · intro lv hl c hc
      have := (Ast2.level_lines h0 hl hc).2
      rw [Spec.lineCount, ← newlines_eq_count] at this
      omega
    · intro lv hl l t hm
      have hs := Ast2.sane2_tryFrom h (Ast1.sane_parsed hd) lv hl
      obtain ⟨pre, post, he⟩ := List.append_of_mem hm
      obtain ⟨_, g, _⟩ := hs pre _ post he
      have h3 := (Ast2.display_level hl).length_le
      have h5 : newlines (Ast2.displayChunks lv) = newlines (Ast2.displayChunks pre) + (newlines t + newlines (Ast2.displayChunks post)) := by
        rw [he, Ast2.displayChunks_append]; simp [Ast2.displayChunks, Ast2.Chunk.display, Ast2.ChunkVariant.display]
      have h6 : newlines (Ast2.displayChunks lv) ≤ (Ast2.displayChunks lv).length := List.length_filter_le _ _
      simp only [Ast2.Chunk.lineNo, Ast2.Chunk.display, Ast2.ChunkVariant.display] at g
      omega
    · intro lv hl
      have := commands_display lv
      have h3 := (Ast2.display_level hl).length_le
      omega

end LatexAst.Ast3
