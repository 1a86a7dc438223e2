import Verif.Proofs.MathsFail

/-!
# The recursion bound of the model of `MathsBlock::from_chunks` is never reached
-/

namespace LatexAst.Ast3

theorem sizeChunks_append (a b : List Ast2.Chunk) : sizeChunks (a ++ b) = sizeChunks a + sizeChunks b := by
  induction a with
  | nil => simp [sizeChunks]
  | cons c a ih => simp [sizeChunks, ih]; omega

theorem sizeChunks_congr {a b : List Ast2.Chunk} (h : a.map Ast2.Chunk.variant = b.map Ast2.Chunk.variant) :
    sizeChunks a = sizeChunks b := by
  induction a generalizing b with
  | nil => cases b with
    | nil => rfl
    | cons => simp at h
  | cons c a ih =>
    cases b with
    | nil => simp at h
    | cons c' b =>
      simp at h
      obtain ⟨l, v⟩ := c
      obtain ⟨l', v'⟩ := c'
      simp [Ast2.Chunk.variant] at h
      simp [sizeChunks, sizeChunk, h.1, ih h.2]

theorem sizeArgs_mem {args : List (Str × Ast2.Scope)} {p inner sv} (h : (p, Ast2.Scope.mk inner sv) ∈ args) :
    sizeChunks inner < sizeArgs args := by
  induction args with
  | nil => cases h
  | cons x r ih =>
    obtain ⟨p', sc⟩ := x
    rcases List.mem_cons.1 h with h | h
    · cases h; simp [sizeArgs, sizeScope]; omega
    · have := ih h; simp [sizeArgs]; omega

theorem sizeChunks_pos {l v} : 2 ≤ sizeChunks [.mk l v] := by
  cases v <;> simp [sizeChunks, sizeChunk, sizeVariant]

theorem child_size {cs inner} (h : Ast2.Child2 cs inner) : sizeChunks inner < sizeChunks cs := by
  have mem : ∀ {c : Ast2.Chunk}, c ∈ cs → sizeChunk c ≤ sizeChunks cs := by
    intro c hc
    obtain ⟨a, b, rfl⟩ := List.append_of_mem hc
    simp [sizeChunks_append, sizeChunks]; omega
  cases h with
  | scope h1 => have := mem h1; simp [sizeChunk, sizeVariant, sizeScope] at this; omega
  | arg h1 h2 => have := mem h1; have := sizeArgs_mem h2; simp [sizeChunk, sizeVariant, sizeCommand] at *; omega
  | envArg h1 h2 => have := mem h1; have := sizeArgs_mem h2; simp [sizeChunk, sizeVariant, sizeEnvironment] at *; omega
  | envContent h1 => have := mem h1; simp [sizeChunk, sizeVariant, sizeEnvironment] at *; omega

/-- Buffers are smaller than what was read. -/
structure SInv (n : Nat) (s : MState) : Prop where
  none : s.mode = .none → s.buffer = []
  some : s.mode ≠ .none → sizeChunks s.buffer < n

theorem SInv.mono {n n' s} (h : SInv n s) (hn : n ≤ n') : SInv n' s :=
  ⟨h.none, fun hm => Nat.lt_of_lt_of_le (h.some hm) hn⟩

theorem mathsFuel_enough : ∀ n cs, sizeChunks cs < n →
    Post (mathsFuel n cs) (fun _ => True) (fun f => f ≠ .fuel) := by
  intro n
  induction n with
  | zero => intro cs h; omega
  | succ n ih =>
    intro cs hn
    refine post_maths (fun pre s => SInv (sizeChunks pre) s) ?_ ?_ (fun _ _ _ => trivial) ?_
    · exact ⟨fun _ => rfl, fun h => absurd rfl h⟩
    · intro pre l v post s he hi
      have hc : Ast2.Chunk.mk l v ∈ cs := by simp [he]
      have hsz : sizeChunks pre + sizeChunk (.mk l v) + sizeChunks post = sizeChunks cs := by
        rw [he, sizeChunks_append, sizeChunks]; omega
      have hpre : sizeChunks (pre ++ [.mk l v]) = sizeChunks pre + sizeChunk (.mk l v) := by
        rw [sizeChunks_append, sizeChunks]; rfl
      have hge : 2 ≤ sizeChunk (.mk l v) := by
        have := @sizeChunks_pos l v; simpa [sizeChunks] using this
      rw [hpre]
      have hbuf : s.mode ≠ .none → SInv (sizeChunks pre + sizeChunk (.mk l v)) (s.pushBuffer l v) := by
        intro hm
        refine ⟨fun h => absurd h hm, fun _ => ?_⟩
        have := hi.some hm
        simp [MState.pushBuffer, sizeChunks_append, sizeChunks]; omega
      have hsub : ∀ inner, Ast2.Child2 cs inner → sizeChunks inner < n := by
        intro inner h; have := child_size h; omega
      have hnone : ∀ o, s.mode = .none → SInv (sizeChunks pre + sizeChunk (.mk l v)) { s with out := o } := by
        intro o hm; exact ⟨fun _ => hi.none hm, fun h => absurd hm h⟩
      refine post_step ?_ ?_ ?_ ?_ ?_
      · rintro ⟨label, args⟩ rfl
        refine post_command ?_ ?_ ?_ ?_ ?_ ?_ ?_ ?_
        · intro k _ hl; simp
        · intro k hm hl
          refine ⟨fun h => absurd h (bracketMode_ne_none k), fun _ => ?_⟩
          simp [hi.none hm, sizeChunks]; omega
        · intro k hm hl
          exact SInv.mono ⟨hi.none, hi.some⟩ (by omega)
        · intro k hm hl hd
          have hm' : s.mode ≠ .none := hm ▸ bracketMode_ne_none k
          have := hi.some hm'
          refine (ih s.buffer (by omega)).mono ?_ fun _ h => h
          intro content _
          exact ⟨fun _ => rfl, fun h => absurd rfl h⟩
        · intro k hm hl hd; simp
        · intro k d hm hl hd hd0
          exact SInv.mono ⟨hi.none, hi.some⟩ (by omega)
        · intro hm hl
          refine post_tryCommand ?_
          refine (post_args (Q := fun _ _ => True) (E := fun f => f ≠ .fuel) trivial ?_).mono ?_ fun _ h => h
          · intro p inner sv r hmem
            exact (ih inner (hsub _ (.arg hc hmem))).mono (fun _ _ _ _ => trivial) fun _ h => h
          · intro a _; exact hnone _ hm
        · intro hm _; exact hbuf hm
      · rintro ⟨inner, sv⟩ rfl hm
        refine post_tryScope ?_
        refine (ih inner (hsub _ (.scope hc))).mono ?_ fun _ h => h
        intro _ _; exact hnone _ hm
      · rintro ⟨label, args, content, pb, pe⟩ rfl hm
        refine post_tryEnvironment ?_
        refine (post_args (Q := fun _ _ => True) (E := fun f => f ≠ .fuel) trivial ?_).mono ?_ fun _ h => h
        · intro p inner sv r hmem
          exact (ih inner (hsub _ (.envArg hc hmem))).mono (fun _ _ _ _ => trivial) fun _ h => h
        · intro a _
          refine (ih content (hsub _ (.envContent hc))).mono ?_ fun _ h => h
          intro _ _; exact hnone _ hm
      · intro _ hm _; exact hbuf hm
      · rintro str rfl hbr
        have hstr : sizeChunk (.mk l (.text str)) = str.length + 2 := by simp [sizeChunk, sizeVariant]
        refine post_text (fun p t => (t.m.mode = .none → t.m.buffer = []) ∧
            (t.m.mode ≠ .none → sizeChunks t.m.buffer + t.textBuffer.length < sizeChunks pre + p.length)) ?_ ?_ ?_
        · exact ⟨hi.none, fun h => by have := hi.some h; simpa using this⟩
        · rintro p c q t hstr' ⟨ht1, ht2⟩
          have hlen : p.length + q.length + 1 = str.length := by rw [hstr']; simp; omega
          unfold stepChar
          generalize ht' : (if c = '\n' then { t with cursorLine := t.cursorLine + 1 } else t : TState) = t'
          have hm' : t'.m = t.m := by subst ht'; split <;> rfl
          have hb' : t'.textBuffer = t.textBuffer := by subst ht'; split <;> rfl
          rw [← hm'] at ht1 ht2
          rw [← hb'] at ht2
          simp only
          split
          · have hclose : ∀ type, t'.m.mode ≠ .none → Post (closeDollars (mathsFuel n) t' type)
                (fun t => (t.m.mode = .none → t.m.buffer = []) ∧
            (t.m.mode ≠ .none → sizeChunks t.m.buffer + t.textBuffer.length < sizeChunks pre + (p ++ [c]).length)) (fun f => f ≠ .fuel) := by
              intro type hmode
              have h2 := ht2 hmode
              refine post_closeDollars ?_
              refine post_rebase (fun _ => by simp) ?_
              intro buf' h1 _
              refine (ih buf' ?_).mono ?_ fun _ h => h
              · rw [sizeChunks_congr h1]
                split
                · omega
                · simp [sizeChunks_append, sizeChunks, sizeChunk, sizeVariant]; omega
              · intro _ _; exact ⟨fun _ => rfl, fun h => absurd rfl h⟩
            refine post_dollar ?_ ?_ ?_ ?_ ?_ ?_
            · intro hm
              obtain ⟨e1, e2, e3, e4, e5, e6⟩ := pushStr_m t'
              refine ⟨fun h => by simp at h, fun _ => ?_⟩
              simp [e3, e6, ht1 hm, sizeChunks]; omega
            · intro hm _ _
              refine ⟨fun h => by simp at h, fun _ => ?_⟩
              have := ht2 (by simp [hm]); simp; omega
            · intro hm _; exact hclose _ (by simp [hm])
            · intro hm
              refine ⟨fun h => by simp at h, fun _ => ?_⟩
              have := ht2 (by simp [hm]); simp; omega
            · intro hm; exact hclose _ (by simp [hm])
            · intro k h
              refine ⟨ht1, fun h => ?_⟩
              have := ht2 h; simp; omega
          · refine ⟨ht1, fun h => ?_⟩
            have := ht2 h; simp; omega
        · rintro t ⟨ht1, ht2⟩
          obtain ⟨e1, e2, e3, e4, e5, e6⟩ := pushStr_m t
          refine ⟨by rw [e1, e3]; exact ht1, ?_⟩
          rw [e1, e3]
          intro h; have := ht2 h; omega
    · intro s hi hm; simp

/-! ### Independence of the bound -/

/-- `f` is defined whenever `g` is, and then they agree. -/
def Below {α β : Type} (g f : α → Res β) : Prop := ∀ x, g x ≠ .error .fuel → f x = g x

theorem below_scope {g f} (h : Below g f) : Below (tryScope g) (tryScope f) := by
  rintro ⟨cs, v⟩ hx
  simp only [tryScope] at hx ⊢
  have := h cs
  cases hg : g cs with
  | error e => rw [hg] at hx this; rw [this (by simpa using hx)]
  | ok a => rw [hg] at this; rw [this (by simp)]

theorem below_args {g f} (h : Below g f) : Below (tryArgs g) (tryArgs f) := by
  intro a
  induction a with
  | nil => intro _; rfl
  | cons x r ih =>
    obtain ⟨p, sc⟩ := x
    intro hx
    simp only [tryArgs] at hx ⊢
    have hs := below_scope h sc
    cases hg : tryScope g sc with
    | error e => rw [hg] at hx hs; rw [hs (by simpa using hx)]
    | ok a =>
      rw [hg] at hx hs
      rw [hs (by simp)]
      simp only at hx ⊢
      cases hr : tryArgs g r with
      | error e => rw [hr] at hx ih; rw [ih (by simpa using hx)]
      | ok b => rw [hr] at ih; rw [ih (by simp)]

theorem below_command {g f} (h : Below g f) : Below (tryCommand g) (tryCommand f) := by
  rintro ⟨label, args⟩ hx
  simp only [tryCommand] at hx ⊢
  have := below_args h args
  cases hg : tryArgs g args with
  | error e => rw [hg] at hx this; rw [this (by simpa using hx)]
  | ok a => rw [hg] at this; rw [this (by simp)]

theorem below_environment {g f} (h : Below g f) : Below (tryEnvironment g) (tryEnvironment f) := by
  rintro ⟨label, args, content, pb, pe⟩ hx
  simp only [tryEnvironment] at hx ⊢
  have := below_args h args
  cases hg : tryArgs g args with
  | error e => rw [hg] at hx this; rw [this (by simpa using hx)]
  | ok a =>
    rw [hg] at hx this
    rw [this (by simp)]
    simp only at hx ⊢
    have hc := h content
    cases hr : g content with
    | error e => rw [hr] at hx hc; rw [hc (by simpa using hx)]
    | ok b => rw [hr] at hc; rw [hc (by simp)]

theorem below_closeDollars {g f} (h : Below g f) (t type) (hx : closeDollars g t type ≠ .error .fuel) :
    closeDollars f t type = closeDollars g t type := by
  unfold closeDollars at hx ⊢
  simp only at hx ⊢
  split
  · rfl
  · rename_i b hb
    rw [hb] at hx
    simp only at hx
    have hc := h b
    cases hr : g b with
    | error e => rw [hr] at hx hc; rw [hc (by simpa using hx)]
    | ok c => rw [hr] at hc; rw [hc (by simp)]

theorem below_stepChar {g f} (h : Below g f) (t c) (hx : stepChar g t c ≠ .error .fuel) :
    stepChar f t c = stepChar g t c := by
  unfold stepChar at hx ⊢
  generalize ht' : (if c = '\n' then { t with cursorLine := t.cursorLine + 1 } else t : TState) = t' at hx ⊢
  simp only at hx ⊢
  split
  · rename_i hc
    rw [if_pos hc] at hx
    unfold stepDollar at hx ⊢
    split
    · rfl
    · rename_i hm
      simp only [hm] at hx
      split
      · rfl
      · rename_i hcond
        rw [if_neg hcond] at hx
        exact below_closeDollars h _ _ hx
    · rfl
    · rename_i hm
      simp only [hm] at hx
      exact below_closeDollars h _ _ hx
    · rfl
    · rfl
  · rfl

theorem below_runText {g f} (h : Below g f) (str) : ∀ t, runText g str t ≠ .error .fuel → runText f str t = runText g str t := by
  induction str with
  | nil => intro t _; rfl
  | cons c cs ih =>
    intro t hx
    simp only [runText] at hx ⊢
    have hc := below_stepChar h t c
    cases hr : stepChar g t c with
    | error e => rw [hr] at hx hc; rw [hc (by simpa using hx)]
    | ok t' => rw [hr] at hx hc; rw [hc (by simp)]; exact ih t' hx

theorem below_text {g f} (h : Below g f) (s line str) (hx : stepMathsText g s line str ≠ .error .fuel) :
    stepMathsText f s line str = stepMathsText g s line str := by
  unfold stepMathsText at hx ⊢
  have hc := below_runText h str ⟨s, line, [], line⟩
  cases hr : runText g str ⟨s, line, [], line⟩ with
  | error e => rw [hr] at hx hc; rw [hc (by simpa using hx)]
  | ok t' => rw [hr] at hc; rw [hc (by simp)]

theorem below_closeBrackets {g f} (h : Below g f) (s type) (hx : closeBrackets g s type ≠ .error .fuel) :
    closeBrackets f s type = closeBrackets g s type := by
  unfold closeBrackets at hx ⊢
  have hc := h s.buffer
  cases hr : g s.buffer with
  | error e => rw [hr] at hx hc; rw [hc (by simpa using hx)]
  | ok t' => rw [hr] at hc; rw [hc (by simp)]

theorem below_ite {α : Type} {c : Prop} [Decidable c] {a b a' b' : Res α}
    (h1 : c → a ≠ .error .fuel → a' = a) (h2 : ¬ c → b ≠ .error .fuel → b' = b) :
    (if c then a else b) ≠ .error .fuel → (if c then a' else b') = (if c then a else b) := by
  by_cases hc : c
  · rw [if_pos hc, if_pos hc]; exact h1 hc
  · rw [if_neg hc, if_neg hc]; exact h2 hc

theorem below_stepCommand {g f} (h : Below g f) (s line cmd) : stepMathsCommand g s line cmd ≠ .error .fuel →
    stepMathsCommand f s line cmd = stepMathsCommand g s line cmd := by
  unfold stepMathsCommand
  refine below_ite (fun _ _ => rfl) fun _ => ?_
  refine below_ite (fun _ _ => rfl) fun _ => ?_
  refine below_ite (fun _ _ => rfl) fun _ => ?_
  refine below_ite (fun _ _ => rfl) fun _ => ?_
  refine below_ite (fun _ _ => rfl) fun _ => ?_
  refine below_ite (fun _ => below_closeBrackets h _ _) fun _ => ?_
  refine below_ite (fun _ => below_closeBrackets h _ _) fun _ => ?_
  refine below_ite (fun _ _ => rfl) fun _ => ?_
  refine below_ite (fun _ _ => rfl) fun _ => ?_
  refine below_ite (fun _ hx => ?_) fun _ _ => rfl
  have hc := below_command h cmd
  cases hr : tryCommand g cmd with
  | error e => rw [hr] at hx hc; rw [hc (by simpa using hx)]
  | ok t' => rw [hr] at hc; rw [hc (by simp)]

theorem below_step {g f} (h : Below g f) (s c) (hx : stepMaths g s c ≠ .error .fuel) :
    stepMaths f s c = stepMaths g s c := by
  obtain ⟨line, v⟩ := c
  unfold stepMaths at hx ⊢
  cases v with
  | command cmd => exact below_stepCommand h _ _ _ hx
  | scope sc =>
    simp only at hx ⊢
    split
    · rename_i hm; rw [if_pos hm] at hx
      have hc := below_scope h sc
      cases hr : tryScope g sc with
      | error e => rw [hr] at hx hc; rw [hc (by simpa using hx)]
      | ok t' => rw [hr] at hc; rw [hc (by simp)]
    · rfl
  | environment e =>
    simp only at hx ⊢
    split
    · rename_i hm; rw [if_pos hm] at hx
      have hc := below_environment h e
      cases hr : tryEnvironment g e with
      | error e => rw [hr] at hx hc; rw [hc (by simpa using hx)]
      | ok t' => rw [hr] at hc; rw [hc (by simp)]
    · rfl
  | text str =>
    simp only at hx ⊢
    split
    · rfl
    · rename_i hm; rw [if_neg hm] at hx
      exact below_text h _ _ _ hx

theorem below_run {g f} (h : Below g f) (cs) : ∀ s, runMaths g cs s ≠ .error .fuel → runMaths f cs s = runMaths g cs s := by
  induction cs with
  | nil => intro t _; rfl
  | cons c cs ih =>
    intro t hx
    simp only [runMaths] at hx ⊢
    have hc := below_step h t c
    cases hr : stepMaths g t c with
    | error e => rw [hr] at hx hc; rw [hc (by simpa using hx)]
    | ok t' => rw [hr] at hx hc; rw [hc (by simp)]; exact ih t' hx

/-- One level, given the recursive call. -/
def mathsLevel (rec : List Ast2.Chunk → Res (List Chunk)) (cs : List Ast2.Chunk) : Res (List Chunk) :=
  match runMaths rec cs MState.init with
  | .error f => .error f
  | .ok s => finishMaths s

theorem mathsFuel_succ (n cs) : mathsFuel (n + 1) cs = mathsLevel (mathsFuel n) cs := rfl

theorem below_level {g f} (h : Below g f) : Below (mathsLevel g) (mathsLevel f) := by
  intro cs hx
  unfold mathsLevel at hx ⊢
  have hc := below_run h cs MState.init
  cases hr : runMaths g cs MState.init with
  | error e => rw [hr] at hx hc; rw [hc (by simpa using hx)]
  | ok t' => rw [hr] at hc; rw [hc (by simp)]

theorem mathsFuel_mono (n) : Below (mathsFuel n) (mathsFuel (n + 1)) := by
  induction n with
  | zero => intro cs h; exact absurd rfl h
  | succ n ih =>
    intro cs h
    rw [mathsFuel_succ n] at h
    rw [mathsFuel_succ (n + 1), mathsFuel_succ n]
    exact below_level ih cs h

theorem mathsFuel_le {n m} (h : n ≤ m) : Below (mathsFuel n) (mathsFuel m) := by
  induction h with
  | refl => intro _ _; rfl
  | step _ ih =>
    intro cs hx
    have h1 := ih cs hx
    rw [← h1] at hx
    rw [mathsFuel_mono _ cs hx, h1]

theorem mathsFromChunks_no_fuel (cs) : mathsFromChunks cs ≠ .error .fuel := by
  have := mathsFuel_enough (sizeChunks cs + 1) cs (by omega)
  intro h
  rw [← mathsFromChunks, h] at this
  exact this rfl

theorem mathsFuel_eq {n cs} (h : mathsFuel n cs ≠ .error .fuel) : mathsFuel n cs = mathsFromChunks cs := by
  have h2 := mathsFromChunks_no_fuel cs
  unfold mathsFromChunks at h2 ⊢
  have h1 := mathsFuel_le (Nat.le_max_left n (sizeChunks cs + 1)) cs h
  have h2 := mathsFuel_le (Nat.le_max_right n (sizeChunks cs + 1)) cs h2
  rw [← h1, h2]

/-- The recursive equation of `from_chunks`. -/
theorem mathsFromChunks_eq (cs) : mathsFromChunks cs = mathsLevel mathsFromChunks cs := by
  have h := mathsFromChunks_no_fuel cs
  unfold mathsFromChunks at h
  have hb : Below (mathsFuel (sizeChunks cs)) mathsFromChunks := fun x hx => (mathsFuel_eq hx).symm
  rw [mathsFuel_succ] at h
  rw [below_level hb cs h, mathsFromChunks, mathsFuel_succ]

/-- Postconditions established for every bound. -/
theorem post_fromChunks {cs P E} (h : ∀ n, Post (mathsFuel n cs) P (fun f => f = .fuel ∨ E f)) :
    Post (mathsFromChunks cs) P E := by
  have h1 := h (sizeChunks cs + 1)
  have h2 := mathsFromChunks_no_fuel cs
  rw [← mathsFromChunks] at h1
  cases hr : mathsFromChunks cs with
  | ok a => rw [hr] at h1; exact h1
  | error f =>
    rw [hr] at h1 h2
    rcases h1 with rfl | h1
    · exact absurd rfl h2
    · exact h1

end LatexAst.Ast3
