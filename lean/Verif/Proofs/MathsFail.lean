import Verif.Proofs.Maths
import Verif.Proofs.Lines2

/-!
# How `MathsBlock::from_chunks` can fail
-/

namespace LatexAst.Ast2

/-- `Q` holds of every chunk, at any depth. -/
def Everywhere (Q : Chunk → Prop) (cs : List Chunk) : Prop := ∀ lv, Level cs lv → ∀ c ∈ lv, Q c

theorem child2_mono {a b : List Chunk} {inner} (h : Child2 a inner) (hs : ∀ c ∈ a, c ∈ b) : Child2 b inner := by
  cases h with
  | scope h1 => exact .scope (hs _ h1)
  | arg h1 h2 => exact .arg (hs _ h1) h2
  | envArg h1 h2 => exact .envArg (hs _ h1) h2
  | envContent h1 => exact .envContent (hs _ h1)

theorem everywhere_iff {Q cs} : Everywhere Q cs ↔
    (∀ c ∈ cs, Q c) ∧ ∀ inner, Child2 cs inner → Everywhere Q inner := by
  constructor
  · intro h
    refine ⟨h cs .top, ?_⟩
    intro inner hc lv hl
    have lift : ∀ lv, Level inner lv → Level cs lv := by
      intro lv hl
      induction hl with
      | top => exact Level.child .top hc
      | scope _ h1 ih => exact .scope ih h1
      | arg _ h1 h2 ih => exact .arg ih h1 h2
      | envArg _ h1 h2 ih => exact .envArg ih h1 h2
      | envContent _ h1 ih => exact .envContent ih h1
    exact h lv (lift lv hl)
  · rintro ⟨h1, h2⟩ lv hl
    rcases hl.head with rfl | ⟨i, hc, hl⟩
    · exact h1
    · exact h2 i hc lv hl

theorem Everywhere.mono {Q cs cs'} (h : Everywhere Q cs') (hs : ∀ c ∈ cs, c ∈ cs') : Everywhere Q cs := by
  rw [everywhere_iff] at h ⊢
  exact ⟨fun c hc => h.1 c (hs c hc), fun i hc => h.2 i (child2_mono hc hs)⟩

theorem everywhere_nil {Q} : Everywhere Q [] := by
  rw [everywhere_iff]
  refine ⟨by simp, ?_⟩
  intro i hc
  cases hc <;> contradiction

theorem everywhere_append {Q a b} (h1 : Everywhere Q a) (h2 : Everywhere Q b) : Everywhere Q (a ++ b) := by
  rw [everywhere_iff] at *
  refine ⟨?_, ?_⟩
  · intro c hc
    rcases List.mem_append.1 hc with h | h
    · exact h1.1 c h
    · exact h2.1 c h
  · intro i hc
    rcases child2_append hc with h | h
    · exact h1.2 i h
    · exact h2.2 i h

theorem everywhere_text {Q l t} (h : Q (.mk l (.text t))) : Everywhere Q [.mk l (.text t)] := by
  rw [everywhere_iff]
  refine ⟨by simpa using h, ?_⟩
  intro i hc
  cases hc <;> simp_all

/-- Changing line numbers does not change the children. -/
theorem everywhere_relabel {Q a b} (h : Everywhere Q a)
    (hb : ∀ c ∈ b, ∃ c' ∈ a, c'.variant = c.variant ∧ (Q c' → Q c)) : Everywhere Q b := by
  rw [everywhere_iff] at *
  refine ⟨?_, ?_⟩
  · intro c hc
    obtain ⟨c', h1, _, h3⟩ := hb c hc
    exact h3 (h.1 c' h1)
  · intro i hc
    refine h.2 i ?_
    cases hc with
    | scope h1 => obtain ⟨⟨l', v⟩, h1, h2, _⟩ := hb _ h1; simp [Chunk.variant] at h2; subst h2; exact .scope h1
    | arg h1 h2 => obtain ⟨⟨l', v⟩, h1, h3, _⟩ := hb _ h1; simp [Chunk.variant] at h3; subst h3; exact .arg h1 h2
    | envArg h1 h2 => obtain ⟨⟨l', v⟩, h1, h3, _⟩ := hb _ h1; simp [Chunk.variant] at h3; subst h3; exact .envArg h1 h2
    | envContent h1 => obtain ⟨⟨l', v⟩, h1, h3, _⟩ := hb _ h1; simp [Chunk.variant] at h3; subst h3; exact .envContent h1

end LatexAst.Ast2

namespace LatexAst.Ast3
open Ast2 (Everywhere everywhere_iff everywhere_append everywhere_nil everywhere_text everywhere_relabel)

/-- What rebasing gives. -/
theorem post_rebase {k buf} {P : List Ast2.Chunk → Prop} {E : Fail → Prop} (hp : buf ≠ [] → E .panic)
    (h : ∀ buf', buf'.map Ast2.Chunk.variant = buf.map Ast2.Chunk.variant →
      (∀ i (h : i < buf'.length) (h' : i < buf.length), buf'[i].lineNo + (k - 1) = buf[i].lineNo) → P buf') :
    Post (rebase k buf) P E := by
  induction buf generalizing P with
  | nil => exact h [] rfl (by simp)
  | cons c cs ih =>
    obtain ⟨l, v⟩ := c
    have hp := hp (by simp)
    simp only [rebase, checkedSub]
    split
    · rename_i f hf
      split at hf
      · cases hf
      · cases hf; exact hp
    · rename_i k' hk
      split at hk
      · injection hk with hk
        subst hk
        split
        · rename_i f hf
          split at hf
          · cases hf
          · cases hf; exact hp
        · rename_i l' hl
          split at hl
          · injection hl with hl
            subst hl
            have := ih (P := fun cs' => P (.mk (l - (k - 1)) v :: cs')) (fun _ => hp) (by
              intro buf' h1 h2
              refine h _ (by simp [h1, Ast2.Chunk.variant]) ?_
              intro i hi hi'
              cases i with
              | zero => simp [Ast2.Chunk.lineNo]; omega
              | succ i => simpa using h2 i (by simpa using hi) (by simpa using hi'))
            cases hr : rebase k cs with
            | error f => rw [hr] at this; exact this
            | ok cs' => rw [hr] at this; exact this
          · cases hl
      · cases hk

/-- The members of a rebased list. -/
theorem rebased_mem {k : Nat} {buf buf' : List Ast2.Chunk} (h1 : buf'.map Ast2.Chunk.variant = buf.map Ast2.Chunk.variant)
    (h2 : ∀ i (h : i < buf'.length) (h' : i < buf.length), buf'[i].lineNo + (k - 1) = buf[i].lineNo) :
    ∀ c ∈ buf', ∃ c' ∈ buf, c'.variant = c.variant ∧ c.lineNo ≤ c'.lineNo := by
  intro c hc
  obtain ⟨i, hi, rfl⟩ := List.mem_iff_getElem.1 hc
  have hlen : buf'.length = buf.length := by simpa using congrArg List.length h1
  have hi' : i < buf.length := hlen ▸ hi
  refine ⟨buf[i], List.getElem_mem _, ?_, ?_⟩
  · have := congrArg (fun x => x[i]?) h1
    simp [hi, hi'] at this
    exact this.symm
  · have := h2 i hi hi'; omega

/-- What the failures are, given properties of the chunks. -/
structure FailSpec (Q : Ast2.Chunk → Prop) (E : Fail → Prop) : Prop where
  close : ∀ k l args, Q (.mk l (.command (.mk (closeLabel k) args))) → E (.err ⟨l, .unexpectedMathsEnd⟩)
  «open» : ∀ k l args, Q (.mk l (.command (.mk (openLabel k) args))) → E (.err ⟨l, .unclosedMaths⟩)
  dollars : (∀ l t, Q (.mk l (.text t)) → '$' ∉ t) ∨
    (E (.err ⟨0, .unclosedMaths⟩) ∧ E .panic ∧ (∀ l t, Q (.mk l (.text t))) ∧
      ∀ l l' v, Q (.mk l v) → l' ≤ l → Q (.mk l' v))

/-- The invariant of the chunk loop. -/
structure FInv (Q : Ast2.Chunk → Prop) (E : Fail → Prop) (s : MState) : Prop where
  line : s.bufferLine = 0 ∨ E (.err ⟨s.bufferLine, .unclosedMaths⟩)
  buffer : Everywhere Q s.buffer
  depth : ∀ k, s.mode = bracketMode k → 1 ≤ s.depth ∧ E (.err ⟨s.bufferLine, .unclosedMaths⟩)
  mode : (∀ k, s.mode ≠ bracketMode k) → s.mode ≠ .none → E (.err ⟨0, .unclosedMaths⟩) ∧ E .panic ∧ (∀ l t, Q (.mk l (.text t))) ∧
      ∀ l l' v, Q (.mk l v) → l' ≤ l → Q (.mk l' v)

theorem pushStr_m (t : TState) : t.pushStr.m.mode = t.m.mode ∧ t.pushStr.m.depth = t.m.depth ∧
    t.pushStr.m.buffer = t.m.buffer ∧ t.pushStr.m.bufferLine = t.m.bufferLine ∧ t.pushStr.cursorLine = t.cursorLine ∧
    t.pushStr.textBuffer = [] := by
  unfold TState.pushStr
  split
  · rename_i h; simp at h; simp [h]
  · simp

theorem FInv.congr {Q E s s'} (h : FInv Q E s) (h1 : s'.mode = s.mode) (h2 : s'.depth = s.depth)
    (h3 : s'.buffer = s.buffer) (h4 : s'.bufferLine = s.bufferLine) : FInv Q E s' := by
  obtain ⟨a, b, c, d⟩ := h
  exact ⟨h4 ▸ a, h3 ▸ b, by rw [h1, h2, h4]; exact c, by rw [h1]; exact d⟩

theorem mathsFail {Q : Ast2.Chunk → Prop} {E : Fail → Prop} (spec : FailSpec Q E) :
    ∀ n cs, Everywhere Q cs → Post (mathsFuel n cs) (fun _ => True) (fun f => f = .fuel ∨ E f) := by
  intro n
  induction n with
  | zero => intro cs _; exact .inl rfl
  | succ n ih =>
    intro cs hcs
    refine post_maths (fun _ => FInv Q E) ?_ ?_ (fun _ _ _ => trivial) ?_
    · exact ⟨.inl rfl, everywhere_nil, fun k h => absurd h.symm (bracketMode_ne_none k), fun _ h => absurd rfl h⟩
    · intro pre l v post s he hi
      have hc : Ast2.Chunk.mk l v ∈ cs := by simp [he]
      have hq := (everywhere_iff.1 hcs).1 (.mk l v) hc
      have hone : Everywhere Q [.mk l v] := hcs.mono (by simp [he])
      have hbuf : s.mode ≠ .none → FInv Q E (s.pushBuffer l v) := fun _ =>
        ⟨hi.line, everywhere_append hi.buffer hone, hi.depth, hi.mode⟩
      refine post_step ?_ ?_ ?_ ?_ ?_
      · rintro ⟨label, args⟩ rfl
        refine post_command ?_ ?_ ?_ ?_ ?_ ?_ ?_ ?_
        · intro k _ hl; simp [Ast2.Command.label] at hl; subst hl; exact .inr (spec.close k l args hq)
        · intro k hm hl
          simp [Ast2.Command.label] at hl; subst hl
          have := spec.open k l args hq
          exact ⟨.inr this, hi.buffer, fun _ _ => ⟨Nat.le_refl _, this⟩, fun h => absurd rfl (h k)⟩
        · intro k hm hl
          exact ⟨hi.line, hi.buffer, fun k' h => ⟨by simp, (hi.depth k' h).2⟩, hi.mode⟩
        · intro k hm hl hd
          refine (ih s.buffer hi.buffer).mono ?_ fun _ h => h
          intro content _
          exact ⟨hi.line, everywhere_nil, fun k h => absurd h.symm (bracketMode_ne_none k), fun _ h => absurd rfl h⟩
        · intro k hm hl hd
          have := (hi.depth k hm).1; omega
        · intro k d hm hl hd hd0
          exact ⟨hi.line, hi.buffer, fun k' h => ⟨Nat.one_le_iff_ne_zero.2 hd0, (hi.depth k' h).2⟩, hi.mode⟩
        · intro hm hl
          refine post_tryCommand ?_
          refine (post_args (Q := fun _ _ => True) (E := fun f => f = .fuel ∨ E f) trivial ?_).mono ?_ fun _ h => h
          · intro p inner sv r hmem
            refine (ih inner ((everywhere_iff.1 hcs).2 _ (.arg hc hmem))).mono (fun _ _ _ _ => trivial) fun _ h => h
          · intro a _
            exact hi.congr rfl rfl rfl rfl
        · intro hm _; exact hbuf hm
      · rintro ⟨inner, sv⟩ rfl hm
        refine post_tryScope ?_
        refine (ih inner ((everywhere_iff.1 hcs).2 _ (.scope hc))).mono ?_ fun _ h => h
        intro _ _; exact hi.congr rfl rfl rfl rfl
      · rintro ⟨label, args, content, pb, pe⟩ rfl hm
        refine post_tryEnvironment ?_
        refine (post_args (Q := fun _ _ => True) (E := fun f => f = .fuel ∨ E f) trivial ?_).mono ?_ fun _ h => h
        · intro p inner sv r hmem
          refine (ih inner ((everywhere_iff.1 hcs).2 _ (.envArg hc hmem))).mono (fun _ _ _ _ => trivial) fun _ h => h
        · intro a _
          refine (ih content ((everywhere_iff.1 hcs).2 _ (.envContent hc))).mono ?_ fun _ h => h
          intro _ _
          exact hi.congr rfl rfl rfl rfl
      · intro _ hm _; exact hbuf hm
      · rintro str rfl hbr
        refine post_text (fun _ t => FInv Q E t.m ∧ ∀ k, t.m.mode ≠ bracketMode k) ⟨hi, hbr⟩ ?_ ?_
        · rintro p c q t hstr ⟨ht, htb⟩
          unfold stepChar
          generalize ht' : (if c = '\n' then { t with cursorLine := t.cursorLine + 1 } else t : TState) = t'
          have hm' : t'.m = t.m := by subst ht'; split <;> rfl
          rw [← hm'] at ht htb
          simp only
          split
          · rename_i hc
            subst hc
            have hdol := spec.dollars.resolve_left (by
              intro h; exact absurd (h l str hq) (by simp [hstr]))
            have hclose : ∀ type, Post (closeDollars (mathsFuel n) t' type)
                (fun t => FInv Q E t.m ∧ ∀ k, t.m.mode ≠ bracketMode k) (fun f => f = .fuel ∨ E f) := by
              intro type
              refine post_closeDollars ?_
              refine post_rebase (fun _ => .inr hdol.2.1) ?_
              intro buf' h1 h2
              refine (ih buf' ?_).mono ?_ fun _ h => h
              · have hb : Everywhere Q (if t'.textBuffer.isEmpty then t'.m.buffer
                    else t'.m.buffer ++ [.mk t'.textBufferLine (.text t'.textBuffer)]) := by
                  split
                  · exact ht.buffer
                  · exact everywhere_append ht.buffer (everywhere_text (hdol.2.2.1 _ _))
                refine everywhere_relabel hb ?_
                intro c hc
                obtain ⟨⟨l1, v1⟩, h3, h4, h5⟩ := rebased_mem h1 h2 c hc
                obtain ⟨l2, v2⟩ := c
                simp [Ast2.Chunk.variant] at h4; subst h4
                exact ⟨_, h3, rfl, fun h => hdol.2.2.2 _ _ _ h h5⟩
              · intro content _
                exact ⟨⟨ht.line, everywhere_nil, fun k h => absurd h.symm (bracketMode_ne_none k), fun _ h => absurd rfl h⟩,
                  fun k h => absurd h.symm (bracketMode_ne_none k)⟩
            refine post_dollar ?_ ?_ ?_ ?_ ?_ ?_
            · intro hm
              obtain ⟨e1, e2, e3, e4, e5, e6⟩ := pushStr_m t'
              exact ⟨⟨by rw [e4]; exact ht.line, by rw [e3]; exact ht.buffer,
                fun k h => by cases k <;> simp [bracketMode] at h, fun _ _ => hdol⟩,
                fun k h => by cases k <;> simp [bracketMode] at h⟩
            · intro hm _ _
              exact ⟨⟨ht.line, ht.buffer, fun k h => by cases k <;> simp [bracketMode] at h, fun _ _ => hdol⟩,
                fun k h => by cases k <;> simp [bracketMode] at h⟩
            · intro _ _; exact hclose _
            · intro hm
              exact ⟨⟨ht.line, ht.buffer, fun k h => by cases k <;> simp [bracketMode] at h, fun _ _ => hdol⟩,
                fun k h => by cases k <;> simp [bracketMode] at h⟩
            · intro _; exact hclose _
            · intro k h; exact absurd h (htb k)
          · exact ⟨ht, htb⟩
        · rintro t ⟨ht, _⟩
          obtain ⟨e1, e2, e3, e4, e5, e6⟩ := pushStr_m t
          exact ht.congr e1 e2 e3 e4
    · intro s hi hm
      by_cases hbr : ∃ k, s.mode = bracketMode k
      · obtain ⟨k, hk⟩ := hbr; exact .inr (hi.depth k hk).2
      · rcases hi.line with h | h
        · rw [h]; exact .inr (hi.mode (fun k hk => hbr ⟨k, hk⟩) hm).1
        · exact .inr h

end LatexAst.Ast3
