import Verif.Proofs.Depth2
import Verif.Proofs.MathsFuel
import Verif.Proofs.MathsClosed

/-! The depth of recursive calls of `MathsBlock::from_chunks`. -/

namespace LatexAst.Ast3

theorem levelAt_child {d inner k lv} (hc : Child3 d inner) (h : LevelAt inner k lv) : LevelAt d (k + 1) lv := by
  induction h with
  | top =>
    cases hc with
    | scope hm => exact .scope .top hm
    | arg hm ha => exact .arg .top hm ha
    | envArg hm ha => exact .envArg .top hm ha
    | envContent hm => exact .envContent .top hm
    | maths hm => exact .maths .top hm
  | scope _ hm ih => exact .scope ih hm
  | arg _ hm ha ih => exact .arg ih hm ha
  | envArg _ hm ha ih => exact .envArg ih hm ha
  | envContent _ hm ih => exact .envContent ih hm
  | maths _ hm ih => exact .maths ih hm

theorem levelAt_under {d k lv inner} (h : LevelAt d k lv) (hc : Child3 lv inner) : LevelAt d (k + 1) inner := by
  cases hc with
  | scope hm => exact .scope h hm
  | arg hm ha => exact .arg h hm ha
  | envArg hm ha => exact .envArg h hm ha
  | envContent hm => exact .envContent h hm
  | maths hm => exact .maths h hm

theorem levelAt_head {d k lv} (h : LevelAt d (k + 1) lv) : ∃ inner, LevelAt inner k lv ∧ Child3 d inner := by
  have key : ∀ {j lv}, LevelAt d j lv → (∀ k, j = k + 1 → ∃ inner, LevelAt inner k lv ∧ Child3 d inner) →
      ∀ inner, Child3 lv inner → ∀ k, j + 1 = k + 1 → ∃ i, LevelAt i k inner ∧ Child3 d i := by
    intro j lv h ih inner hc k hk
    obtain rfl : j = k := by omega
    cases j with
    | zero => cases h; exact ⟨inner, .top, hc⟩
    | succ j => obtain ⟨i, h1, h2⟩ := ih j rfl; exact ⟨i, levelAt_under h1 hc, h2⟩
  have main : ∀ {j lv}, LevelAt d j lv → ∀ k, j = k + 1 → ∃ inner, LevelAt inner k lv ∧ Child3 d inner := by
    intro j lv h
    induction h with
    | top => intro k hk; omega
    | scope hl hm ih => exact key hl ih _ (.scope hm)
    | arg hl hm ha ih => exact key hl ih _ (.arg hm ha)
    | envArg hl hm ha ih => exact key hl ih _ (.envArg hm ha)
    | envContent hl hm ih => exact key hl ih _ (.envContent hm)
    | maths hl hm ih => exact key hl ih _ (.maths hm)
  exact main h k rfl

/-- Nothing is nested inside `n` or more. -/
def DepthLt (n : Nat) (d : List Chunk) : Prop := ∀ k lv, LevelAt d k lv → k < n

theorem depthLt_zero {d} (h : DepthLt 0 d) : False := absurd (h 0 d .top) (by omega)

theorem depthLt_succ {n d} : DepthLt (n + 1) d ↔ ∀ inner, Child3 d inner → DepthLt n inner := by
  constructor
  · intro h inner hc k lv hl
    have := h _ _ (levelAt_child hc hl); omega
  · intro h k lv hl
    cases k with
    | zero => omega
    | succ k => obtain ⟨i, h1, h2⟩ := levelAt_head hl; have := h i h2 _ _ h1; omega

theorem child3_paragraphs {d inner} : Child3 (paragraphs d) inner ↔ Child3 d inner := by
  constructor
  · intro h
    refine h.mono ?_
    intro c hc
    obtain ⟨c0, h1, h2⟩ := paragraphs_mem hc
    rcases paragraphChunk_mem h2 with ⟨rfl, _⟩ | ⟨_, _, _, ⟨l', t', rfl, _⟩ | ⟨l', b, rfl, _⟩⟩
    · exact .inl h1
    · exact .inr ⟨t', .inl rfl⟩
    · exact .inr ⟨b, .inr rfl⟩
  · intro h
    refine h.mono ?_
    intro c hc
    obtain ⟨l, v⟩ := c
    have key : ∀ w, (∀ t, w ≠ .text t) → Chunk.mk l w ∈ d → Chunk.mk l w ∈ paragraphs d := by
      intro w hw hm
      obtain ⟨a, b, rfl⟩ := List.append_of_mem hm
      have : ∀ x y : List Chunk, paragraphs (x ++ y) = paragraphs x ++ paragraphs y := by
        intro x y
        induction x with
        | nil => rfl
        | cons c x ih => simp [paragraphs, ih]
      rw [this]
      refine List.mem_append_right _ ?_
      simp only [paragraphs]
      refine List.mem_append_left _ ?_
      cases w <;> simp_all [paragraphChunk]
    cases v with
    | text t => exact .inr ⟨t, .inl rfl⟩
    | command c => exact .inl (key _ (by simp) hc)
    | scope c => exact .inl (key _ (by simp) hc)
    | environment c => exact .inl (key _ (by simp) hc)
    | mathsBlock c => exact .inl (key _ (by simp) hc)
    | paragraphBreak t => exact .inr ⟨t, .inr rfl⟩

theorem depthLt_paragraphs {n d} : DepthLt n (paragraphs d) ↔ DepthLt n d := by
  cases n with
  | zero => exact ⟨fun h => (depthLt_zero h).elim, fun h => (depthLt_zero h).elim⟩
  | succ n => simp only [depthLt_succ, child3_paragraphs]

/-! ### accepted documents -/

/-- `rec` answers as `rec'` does on what ends up in `e`. -/
def Answers (rec rec' : List Ast2.Chunk → Res (List Chunk)) (e : List Chunk) : Prop :=
  ∀ a inner, rec' a = .ok inner → (Child3 e inner ∨ Child3 e (paragraphs inner)) → rec a = .ok inner

variable {rec rec' : List Ast2.Chunk → Res (List Chunk)}

theorem child3_sub {a b inner} (h : Child3 a inner) (hs : ∀ c ∈ a, c ∈ b) : Child3 b inner := h.mono fun c hc => .inl (hs c hc)

theorem Answers.sub {d d'} (h : Answers rec rec' d) (hs : ∀ c ∈ d', c ∈ d) : Answers rec rec' d' :=
  fun a inner h1 h2 => h a inner h1 (h2.imp (child3_sub · hs) (child3_sub · hs))

theorem tryArgs_answers {args args'} (h : tryArgs rec' args = .ok args')
    (hr : ∀ a inner prec sv, rec' a = .ok inner → (prec, Scope.mk (paragraphs inner) sv) ∈ args' → rec a = .ok inner) :
    tryArgs rec args = .ok args' := by
  induction args generalizing args' with
  | nil => exact h
  | cons x r ih =>
    obtain ⟨p, ⟨a, v⟩⟩ := x
    simp only [tryArgs, tryScope] at h ⊢
    cases hx : rec' a with
    | error f => rw [hx] at h; cases h
    | ok cs =>
      rw [hx] at h
      simp only at h
      cases hy : tryArgs rec' r with
      | error f => rw [hy] at h; cases h
      | ok as =>
        rw [hy] at h
        cases h
        rw [hr a cs p v hx (by simp)]
        simp only
        rw [ih hy (fun a inner prec sv h1 h2 => hr a inner prec sv h1 (List.mem_cons_of_mem _ h2))]

theorem closeDollars_answers {t type t'} (h : closeDollars rec' t type = .ok t') (hr : Answers rec rec' t'.m.out) :
    closeDollars rec t type = .ok t' ∧ ∀ x ∈ t.m.out, x ∈ t'.m.out := by
  unfold closeDollars at h ⊢
  simp only at h ⊢
  cases hb : rebase t.textBufferLine (if t.textBuffer.isEmpty = true then t.m.buffer
      else t.m.buffer ++ [.mk t.textBufferLine (.text t.textBuffer)]) with
  | error f => rw [hb] at h; cases h
  | ok b =>
    rw [hb] at h
    simp only at h ⊢
    cases hx : rec' b with
    | error f => rw [hx] at h; cases h
    | ok c =>
      rw [hx] at h
      cases h
      rw [hr b c hx (.inl (.maths (List.mem_append_right _ (List.mem_singleton.2 rfl))))]
      exact ⟨rfl, fun x hx => List.mem_append_left _ hx⟩

theorem pushStr_sub (t : TState) : ∀ x ∈ t.m.out, x ∈ t.pushStr.m.out := by
  intro x hx
  unfold TState.pushStr
  split
  · exact hx
  · exact List.mem_append_left _ hx

theorem stepDollar_answers {t t'} (h : stepDollar rec' t = .ok t') (hr : Answers rec rec' t'.m.out) :
    stepDollar rec t = .ok t' ∧ ∀ x ∈ t.m.out, x ∈ t'.m.out := by
  unfold stepDollar at h ⊢
  cases hm : t.m.mode with
  | none =>
    simp only [hm] at h ⊢
    cases h
    exact ⟨rfl, pushStr_sub t⟩
  | doubleClosing => simp only [hm] at h ⊢; exact closeDollars_answers h hr
  | singleDollar v =>
    cases v with
    | brackets => simp only [hm] at h ⊢; cases h; exact ⟨rfl, fun x hx => hx⟩
    | dollars =>
      simp only [hm] at h ⊢
      by_cases hc : t.textBuffer.isEmpty = true ∧ t.m.buffer.isEmpty = true
      · rw [if_pos hc] at h ⊢; cases h; exact ⟨rfl, fun x hx => hx⟩
      · rw [if_neg hc] at h ⊢; exact closeDollars_answers h hr
  | doubleDollar v =>
    cases v with
    | brackets => simp only [hm] at h ⊢; cases h; exact ⟨rfl, fun x hx => hx⟩
    | dollars => simp only [hm] at h ⊢; cases h; exact ⟨rfl, fun x hx => hx⟩

theorem stepChar_answers {t c t'} (h : stepChar rec' t c = .ok t') (hr : Answers rec rec' t'.m.out) :
    stepChar rec t c = .ok t' ∧ ∀ x ∈ t.m.out, x ∈ t'.m.out := by
  unfold stepChar at h ⊢
  simp only at h ⊢
  generalize ht : (if c = '\n' then { t with cursorLine := t.cursorLine + 1 } else t : TState) = u at h ⊢
  have hu : u.m = t.m := by subst ht; split <;> rfl
  rw [← hu]
  by_cases hc : c = '$'
  · rw [if_pos hc] at h ⊢; exact stepDollar_answers h hr
  · rw [if_neg hc] at h ⊢; cases h; exact ⟨rfl, fun x hx => hx⟩

theorem runText_answers {str t t'} (h : runText rec' str t = .ok t') (hr : Answers rec rec' t'.m.out) :
    runText rec str t = .ok t' ∧ ∀ x ∈ t.m.out, x ∈ t'.m.out := by
  induction str generalizing t with
  | nil => cases h; exact ⟨rfl, fun x hx => hx⟩
  | cons c cs ih =>
    simp only [runText] at h ⊢
    cases hx : stepChar rec' t c with
    | error f => rw [hx] at h; cases h
    | ok u =>
      rw [hx] at h
      obtain ⟨h1, h2⟩ := ih h
      obtain ⟨h3, h4⟩ := stepChar_answers hx (hr.sub h2)
      rw [h3]
      exact ⟨h1, fun x hx => h2 x (h4 x hx)⟩

theorem stepMathsText_answers {s line str s'} (h : stepMathsText rec' s line str = .ok s') (hr : Answers rec rec' s'.out) :
    stepMathsText rec s line str = .ok s' ∧ ∀ x ∈ s.out, x ∈ s'.out := by
  unfold stepMathsText at h ⊢
  cases hx : runText rec' str ⟨s, line, [], line⟩ with
  | error f => rw [hx] at h; cases h
  | ok t =>
    rw [hx] at h
    cases h
    obtain ⟨h1, h2⟩ := runText_answers hx (hr.sub (pushStr_sub t))
    rw [h1]
    exact ⟨rfl, fun x hx => pushStr_sub t x (h2 x hx)⟩

theorem closeBrackets_answers {s type s'} (h : closeBrackets rec' s type = .ok s') (hr : Answers rec rec' s'.out) :
    closeBrackets rec s type = .ok s' ∧ ∀ x ∈ s.out, x ∈ s'.out := by
  unfold closeBrackets at h ⊢
  cases hx : rec' s.buffer with
  | error f => rw [hx] at h; cases h
  | ok c =>
    rw [hx] at h
    cases h
    rw [hr _ c hx (.inl (.maths (List.mem_append_right _ (List.mem_singleton.2 rfl))))]
    exact ⟨rfl, fun x hx => List.mem_append_left _ hx⟩

theorem answers_ite {c : Prop} [Decidable c] {a b a' b' : Res MState} {s s' : MState}
    (h1 : c → a' = .ok s' → a = .ok s' ∧ ∀ x ∈ s.out, x ∈ s'.out)
    (h2 : ¬ c → b' = .ok s' → b = .ok s' ∧ ∀ x ∈ s.out, x ∈ s'.out) :
    (if c then a' else b') = .ok s' → (if c then a else b) = .ok s' ∧ ∀ x ∈ s.out, x ∈ s'.out := by
  by_cases hc : c
  · simp only [if_pos hc]; exact h1 hc
  · simp only [if_neg hc]; exact h2 hc

theorem stepCommand_answers {s line cmd s'} (hr : Answers rec rec' s'.out) : stepMathsCommand rec' s line cmd = .ok s' →
    stepMathsCommand rec s line cmd = .ok s' ∧ ∀ x ∈ s.out, x ∈ s'.out := by
  have same : ∀ {o : MState}, o.out = s.out → (Except.ok o : Res MState) = .ok s' → (Except.ok o : Res MState) = .ok s' ∧ ∀ x ∈ s.out, x ∈ s'.out := by
    intro o ho h; cases h; exact ⟨rfl, by rw [ho]; exact fun x hx => hx⟩
  have sub : (match checkedSub s.depth 1 with
      | .error p => .error p
      | .ok d => .ok { s with depth := d } : Res MState) = .ok s' → (match checkedSub s.depth 1 with
      | .error p => .error p
      | .ok d => .ok { s with depth := d } : Res MState) = .ok s' ∧ ∀ x ∈ s.out, x ∈ s'.out := by
    intro h
    refine ⟨h, ?_⟩
    split at h
    · cases h
    · cases h; exact fun x hx => hx
  unfold stepMathsCommand
  refine answers_ite (fun _ h => by cases h) fun _ => ?_
  refine answers_ite (fun _ => same rfl) fun _ => ?_
  refine answers_ite (fun _ => same rfl) fun _ => ?_
  refine answers_ite (fun _ => same rfl) fun _ => ?_
  refine answers_ite (fun _ => same rfl) fun _ => ?_
  refine answers_ite (fun _ h => closeBrackets_answers h hr) fun _ => ?_
  refine answers_ite (fun _ h => closeBrackets_answers h hr) fun _ => ?_
  refine answers_ite (fun _ => sub) fun _ => ?_
  refine answers_ite (fun _ => sub) fun _ => ?_
  refine answers_ite (fun _ h => ?_) fun _ => same rfl
  obtain ⟨label, args⟩ := cmd
  simp only [tryCommand] at h ⊢
  cases hx : tryArgs rec' args with
  | error f => rw [hx] at h; cases h
  | ok as =>
    rw [hx] at h
    cases h
    rw [tryArgs_answers hx fun a inner prec sv g1 g2 => hr a inner g1 (.inr (.arg (List.mem_append_right _ (List.mem_singleton.2 rfl)) g2))]
    exact ⟨rfl, fun x hx => List.mem_append_left _ hx⟩

theorem stepMaths_answers {s c s'} (h : stepMaths rec' s c = .ok s') (hr : Answers rec rec' s'.out) :
    stepMaths rec s c = .ok s' ∧ ∀ x ∈ s.out, x ∈ s'.out := by
  obtain ⟨l, v⟩ := c
  cases v with
  | command cmd => exact stepCommand_answers hr h
  | scope sc =>
    obtain ⟨inner, sv⟩ := sc
    simp only [stepMaths, tryScope] at h ⊢
    by_cases h1 : s.mode = .none
    · rw [if_pos h1] at h ⊢
      cases hx : rec' inner with
      | error f => rw [hx] at h; cases h
      | ok cs =>
        rw [hx] at h
        cases h
        rw [hr _ cs hx (.inr (.scope (List.mem_append_right _ (List.mem_singleton.2 rfl))))]
        exact ⟨rfl, fun x hx => List.mem_append_left _ hx⟩
    · rw [if_neg h1] at h ⊢; cases h; exact ⟨rfl, fun x hx => hx⟩
  | environment e =>
    obtain ⟨label, args, content, pb, pe⟩ := e
    simp only [stepMaths, tryEnvironment] at h ⊢
    by_cases h1 : s.mode = .none
    · rw [if_pos h1] at h ⊢
      cases hx : tryArgs rec' args with
      | error f => rw [hx] at h; cases h
      | ok as =>
        rw [hx] at h
        simp only at h
        cases hy : rec' content with
        | error f => rw [hy] at h; cases h
        | ok cs =>
          rw [hy] at h
          cases h
          rw [tryArgs_answers hx fun a inner prec sv g1 g2 => hr a inner g1 (.inr (.envArg (List.mem_append_right _ (List.mem_singleton.2 rfl)) g2))]
          simp only
          rw [hr _ cs hy (.inr (.envContent (List.mem_append_right _ (List.mem_singleton.2 rfl))))]
          exact ⟨rfl, fun x hx => List.mem_append_left _ hx⟩
    · rw [if_neg h1] at h ⊢; cases h; exact ⟨rfl, fun x hx => hx⟩
  | text str =>
    simp only [stepMaths] at h ⊢
    by_cases h1 : s.mode = .singleDollar .brackets ∨ s.mode = .doubleDollar .brackets
    · rw [if_pos h1] at h ⊢; cases h; exact ⟨rfl, fun x hx => hx⟩
    · rw [if_neg h1] at h ⊢; exact stepMathsText_answers h hr

theorem runMaths_answers {cs s s'} (h : runMaths rec' cs s = .ok s') (hr : Answers rec rec' s'.out) :
    runMaths rec cs s = .ok s' ∧ ∀ x ∈ s.out, x ∈ s'.out := by
  induction cs generalizing s with
  | nil => cases h; exact ⟨rfl, fun x hx => hx⟩
  | cons c cs ih =>
    simp only [runMaths] at h ⊢
    cases hx : stepMaths rec' s c with
    | error f => rw [hx] at h; cases h
    | ok s1 =>
      rw [hx] at h
      obtain ⟨h1, h2⟩ := ih h
      obtain ⟨h3, h4⟩ := stepMaths_answers hx (hr.sub h2)
      rw [h3]
      exact ⟨h1, fun x hx => h2 x (h4 x hx)⟩

theorem mathsLevel_answers {cs e} (h : mathsLevel rec' cs = .ok e) (hr : Answers rec rec' e) : mathsLevel rec cs = .ok e := by
  unfold mathsLevel at h ⊢
  cases hx : runMaths rec' cs MState.init with
  | error f => rw [hx] at h; cases h
  | ok s =>
    rw [hx] at h
    have he : e = paragraphs s.out := by
      simp only [finishMaths] at h
      split at h
      · cases h
      · cases h; rfl
    subst he
    rw [(runMaths_answers hx (fun a inner h1 h2 => hr a inner h1 (by simpa only [child3_paragraphs] using h2))).1]
    exact h

theorem mathsFuel_of_depth {n cs e} (h : mathsFromChunks cs = .ok e) (hd : DepthLt n e) : mathsFuel n cs = .ok e := by
  induction n generalizing cs e with
  | zero => exact (depthLt_zero hd).elim
  | succ n ih =>
    rw [mathsFromChunks_eq] at h
    rw [mathsFuel_succ]
    refine mathsLevel_answers h (fun a inner h1 h2 => ih h1 ?_)
    rw [depthLt_succ] at hd
    exact h2.elim (hd inner) (fun h => depthLt_paragraphs.1 (hd _ h))

/-- The answer is not nested deeper than the calls. -/
theorem mathsFuel_depth (n cs) : Post (mathsFuel n cs) (DepthLt n) (fun _ => True) := by
  induction n generalizing cs with
  | zero => trivial
  | succ n ih =>
    let P : List Chunk → Prop := DepthLt (n + 1)
    have hadd : ∀ {a b : List Chunk}, P a → P b → P (a ++ b) := by
      intro a b ha hb
      refine depthLt_succ.2 fun i hc => ?_
      have ha := depthLt_succ.1 ha i
      have hb := depthLt_succ.1 hb i
      cases hc with
      | scope hm => exact (List.mem_append.1 hm).elim (fun h => ha (.scope h)) (fun h => hb (.scope h))
      | arg hm hx => exact (List.mem_append.1 hm).elim (fun h => ha (.arg h hx)) (fun h => hb (.arg h hx))
      | envArg hm hx => exact (List.mem_append.1 hm).elim (fun h => ha (.envArg h hx)) (fun h => hb (.envArg h hx))
      | envContent hm => exact (List.mem_append.1 hm).elim (fun h => ha (.envContent h)) (fun h => hb (.envContent h))
      | maths hm => exact (List.mem_append.1 hm).elim (fun h => ha (.maths h)) (fun h => hb (.maths h))
    have htext : ∀ l t, P [.mk l (.text t)] := by
      intro l t
      refine depthLt_succ.2 fun i hc => ?_
      cases hc <;> simp_all
    have hmaths : ∀ l v t content, DepthLt n content → P [.mk l (.mathsBlock (.mk v t content))] := by
      intro l v t content h
      refine depthLt_succ.2 fun i hc => ?_
      cases hc with
      | maths hm => simp at hm; obtain ⟨rfl, rfl, rfl, rfl⟩ := hm; exact h
      | scope h => simp at h
      | arg h => simp at h
      | envArg h => simp at h
      | envContent h => simp at h
    refine post_maths (fun _ s => P s.out) ?_ ?_ (fun s h _ => depthLt_paragraphs.2 h) (fun _ _ _ => trivial)
    · refine depthLt_succ.2 fun i hc => ?_
      cases hc <;> simp_all [MState.init]
    · intro pre l v post s he hi
      refine post_step ?_ ?_ ?_ ?_ ?_
      · rintro ⟨label, args⟩ rfl
        refine post_command (fun _ _ _ => trivial) (fun _ _ _ => hi) (fun _ _ _ => hi) ?_ (fun _ _ _ _ => trivial) (fun _ _ _ _ _ _ => hi) ?_ (fun _ _ => hi)
        · intro k hm hl hd
          exact (ih s.buffer).mono (fun content hc => hadd hi (hmaths _ _ _ _ hc)) fun _ h => h
        · intro hm hl
          refine post_tryCommand ?_
          refine (post_args (Q := fun _ a => ∀ p i sv, (p, Scope.mk i sv) ∈ a → DepthLt n i) (E := fun _ => True) (by simp) ?_).mono ?_ fun _ h => h
          · intro p inner sv r hmem
            refine (ih inner).mono ?_ fun _ h => h
            intro out ho r' hr p' i' sv' hm'
            rcases List.mem_cons.1 hm' with h | h
            · cases h; exact depthLt_paragraphs.2 ho
            · exact hr _ _ _ h
          · intro a ha
            refine hadd hi (depthLt_succ.2 fun i hc => ?_)
            cases hc with
            | arg hm hx => simp at hm; obtain ⟨rfl, rfl, rfl⟩ := hm; exact ha _ _ _ hx
            | scope h => simp at h
            | maths h => simp at h
            | envArg h => simp at h
            | envContent h => simp at h
      · rintro ⟨inner, sv⟩ rfl hm
        refine post_tryScope ?_
        refine (ih inner).mono ?_ fun _ h => h
        intro out ho
        refine hadd hi (depthLt_succ.2 fun i hc => ?_)
        cases hc with
        | scope hm => simp at hm; obtain ⟨rfl, rfl, rfl⟩ := hm; exact depthLt_paragraphs.2 ho
        | arg h => simp at h
        | maths h => simp at h
        | envArg h => simp at h
        | envContent h => simp at h
      · rintro ⟨label, args, content, pb, pe⟩ rfl hm
        refine post_tryEnvironment ?_
        refine (post_args (Q := fun _ a => ∀ p i sv, (p, Scope.mk i sv) ∈ a → DepthLt n i) (E := fun _ => True) (by simp) ?_).mono ?_ fun _ h => h
        · intro p inner sv r hmem
          refine (ih inner).mono ?_ fun _ h => h
          intro out ho r' hr p' i' sv' hm'
          rcases List.mem_cons.1 hm' with h | h
          · cases h; exact depthLt_paragraphs.2 ho
          · exact hr _ _ _ h
        · intro a ha
          refine (ih content).mono ?_ fun _ h => h
          intro out ho
          refine hadd hi (depthLt_succ.2 fun i hc => ?_)
          cases hc with
          | envArg hm hx => simp at hm; obtain ⟨rfl, rfl, rfl, rfl, rfl, rfl⟩ := hm; exact ha _ _ _ hx
          | envContent hm => simp at hm; obtain ⟨rfl, rfl, rfl, rfl, rfl, rfl⟩ := hm; exact depthLt_paragraphs.2 ho
          | scope h => simp at h
          | maths h => simp at h
          | arg h => simp at h
      · intro _ _ _; exact hi
      · rintro str rfl _
        have hpush : ∀ t : TState, P t.m.out → P t.pushStr.m.out := by
          intro t h
          unfold TState.pushStr
          split
          · exact h
          · exact hadd h (htext _ _)
        refine post_text (fun _ t => P t.m.out) hi ?_ (fun t => hpush t)
        intro p c q t _ ht
        unfold stepChar
        simp only
        generalize ht' : (if c = '\n' then { t with cursorLine := t.cursorLine + 1 } else t : TState) = u
        have hu : P u.m.out := by subst ht'; split <;> exact ht
        have hclose : ∀ type, Post (closeDollars (mathsFuel n) u type) (fun t => P t.m.out) (fun _ => True) := by
          intro type
          refine post_closeDollars ?_
          refine post_rebase (fun _ => trivial) ?_
          intro buf _ _
          exact (ih buf).mono (fun content hc => hadd hu (hmaths _ _ _ _ hc)) fun _ h => h
        split
        · exact post_dollar (fun _ => hpush u hu) (fun _ _ _ => hu) (fun _ _ => hclose _) (fun _ => hu) (fun _ => hclose _) (fun _ _ => hu)
        · exact hu

theorem mathsFuel_depth_ok {n cs e} (h : mathsFuel n cs = .ok e) : DepthLt n e := by
  have := mathsFuel_depth n cs; rw [h] at this; exact this

end LatexAst.Ast3
