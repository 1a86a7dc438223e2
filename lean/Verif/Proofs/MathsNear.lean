import Verif.Proofs.Sections3

/-! When the maths conversion panics. -/

namespace LatexAst.Ast3
open Ast2 (Everywhere everywhere_iff)

theorem closeDollars_state {rec t type t'} (h : closeDollars rec t type = .ok t') :
    t'.m.mode = .none ∧ t'.m.buffer = [] ∧ t'.textBuffer = [] ∧ t'.textBufferLine = t.cursorLine ∧ t'.cursorLine = t.cursorLine := by
  simp only [closeDollars] at h
  split at h
  · cases h
  · split at h
    · cases h
    · cases h; simp

theorem dollar_split (t : Str) : '$' ∉ t ∨ ∃ p q, t = p ++ '$' :: q ∧ '$' ∉ p := by
  by_cases h : '$' ∈ t
  · obtain ⟨p, q, h1, h2⟩ := List.eq_append_cons_of_mem h
    exact .inr ⟨p, q, h1, h2⟩
  · exact .inl h

/-- A text that closes its dollars leaves no formula open. -/
theorem runText_closed {rec} : ∀ n (t : Str), t.length ≤ n → ∀ (s : MState) l t', Idle s → runText rec t ⟨s, l, [], l⟩ = .ok t' →
    ¬ OpenDollar t → t'.m.mode = .none ∧ t'.m.buffer = [] := by
  intro n
  induction n with
  | zero =>
    intro t hn s l t' hs h _
    have : t = [] := List.length_eq_zero_iff.1 (by omega)
    subst this
    simp [runText] at h; subst h; exact hs
  | succ n ih =>
    intro t hn s l t' hs h ho
    rcases dollar_split t with hd | ⟨p, q, rfl, hp⟩
    · rw [runText_plain hd] at h; cases h; exact hs
    · rw [runText_open hp hs.1] at h
      have close : ∀ (type : MathsType) (st : TState) (r : Str), r.length ≤ n → ¬ OpenDollar r →
          (match closeDollars rec st type with | .error f => (.error f : Res TState) | .ok t => runText rec r t) = .ok t' →
          t'.m.mode = .none ∧ t'.m.buffer = [] := by
        intro type st r hr hor h
        cases hc : closeDollars rec st type with
        | error f => rw [hc] at h; cases h
        | ok u =>
          rw [hc] at h
          obtain ⟨h1, h2, h3, h4, h5⟩ := closeDollars_state hc
          obtain ⟨um, uc, ut, ul⟩ := u
          simp only at h1 h2 h3 h4 h5
          subst h3 h4 h5
          exact ih r hr um _ t' ⟨h1, h2⟩ h hor
      rcases dollar_split q with hd | ⟨x, r, rfl, hx⟩
      · exact absurd (OpenDollar.single hp hd) ho
      · have hidle : (opened s l p (.singleDollar .dollars)).buffer = [] := by simp [opened, hs.2]
        by_cases hx0 : x = []
        · subst hx0
          simp only [List.nil_append] at h ho hn ⊢
          rw [runText_double rfl hidle] at h
          rcases dollar_split r with hd | ⟨x, r', rfl, hx⟩
          · exact absurd (OpenDollar.double hp hd) ho
          · rw [runText_append, runText_plain hx] at h
            simp only at h
            rw [runText_closing rfl] at h
            rcases dollar_split r' with hd | ⟨y, r'', rfl, hy⟩
            · exact absurd (OpenDollar.half hp hx hd) ho
            · rw [runText_append, runText_plain hy] at h
              simp only [runText, stepChar, show ¬ ('$' = '\n') by decide, if_false, if_true, stepDollar] at h
              refine close .outline _ r'' (by simp at hn; omega) ?_ h
              intro hr
              by_cases hy0 : y = []
              · subst hy0; exact ho (OpenDollar.display hp hx hr)
              · exact ho (OpenDollar.sloppy hp hx hy hy0 hr)
        · rw [runText_append, runText_plain hx] at h
          simp only [runText, stepChar, show ¬ ('$' = '\n') by decide, if_false, if_true, stepDollar] at h
          have hne : ¬ (x = [] ∧ s.buffer = []) := by simp [hx0]
          simp [opened, hne] at h
          refine close .inline _ r (by simp at hn; omega) ?_ h
          exact fun hr => ho (OpenDollar.inline hp hx hx0 hr)

/-- No formula that goes on for too long, at any level, and dollars only on positive lines. -/
def NearAll (cs : List Ast2.Chunk) : Prop :=
  ∀ lv, Ast2.Level cs lv → (∀ l t, .mk l (.text t) ∈ lv → '$' ∈ t → 1 ≤ l) ∧ ¬ LongFormula lv

theorem nearAll_child {cs inner} (h : NearAll cs) (hc : Ast2.Child2 cs inner) : NearAll inner :=
  fun lv hl => h lv (Ast2.Level.trans (Ast2.Level.child .top hc) hl)

theorem nearAll_iff {cs} : NearAll cs ↔ ((∀ l t, .mk l (.text t) ∈ cs → '$' ∈ t → 1 ≤ l) ∧ ¬ LongFormula cs) ∧
    ∀ inner, Ast2.Child2 cs inner → NearAll inner := by
  constructor
  · intro h; exact ⟨h cs .top, fun _ hc => nearAll_child h hc⟩
  · rintro ⟨h1, h2⟩ lv hl
    rcases hl.head with rfl | ⟨inner, hc, hl⟩
    · exact h1
    · exact h2 inner hc lv hl

theorem nearAll_sublist {a b} (h : NearAll b) (hs : a.Sublist b) : NearAll a := by
  obtain ⟨⟨h1, h2⟩, h3⟩ := nearAll_iff.1 h
  refine nearAll_iff.2 ⟨⟨fun l t hm => h1 l t (hs.subset hm), ?_⟩, fun inner hc => h3 inner (hc.mono fun c hc => hs.subset hc)⟩
  rintro ⟨l1, t1, c, l2, t2, h4, h5⟩
  exact h2 ⟨l1, t1, c, l2, t2, h4.trans hs, h5⟩

/-- In a dollar formula, the buffer holds what follows a text that leaves a formula open. -/
structure NearInv (pre : List Ast2.Chunk) (s : MState) : Prop where
  idle : s.mode = .none → s.buffer = []
  brackets : ∀ k, s.mode = bracketMode k → s.buffer.Sublist pre ∧ 1 ≤ s.depth
  dollars : (∀ k, s.mode ≠ bracketMode k) → s.mode ≠ .none → ∃ l t, OpenDollar t ∧ .mk l (.text t) ∈ pre ∧
    ∀ c ∈ s.buffer, (∀ t, c.variant ≠ .text t) ∧ [.mk l (.text t), c].Sublist pre

theorem NearInv.snoc {pre s x} (h : NearInv pre s) {s' : MState} (h1 : s'.mode = s.mode) (h2 : s'.depth = s.depth)
    (h3 : s'.buffer = s.buffer) : NearInv (pre ++ [x]) s' := by
  obtain ⟨a, b, c⟩ := h
  refine ⟨by rw [h1, h3]; exact a, ?_, ?_⟩
  · rw [h1, h2, h3]
    exact fun k hk => ⟨(b k hk).1.trans (List.sublist_append_left _ _), (b k hk).2⟩
  · rw [h1, h3]
    intro h4 h5
    obtain ⟨l, t, h6, h7, h8⟩ := c h4 h5
    exact ⟨l, t, h6, by simp [h7], fun c hc => ⟨(h8 c hc).1, (h8 c hc).2.trans (List.sublist_append_left _ _)⟩⟩

theorem rebase_ok {k : Nat} {buf : List Ast2.Chunk} (hk : 1 ≤ k) (h : ∀ c ∈ buf, k ≤ c.lineNo + 1) : ∃ buf', rebase k buf = .ok buf' := by
  induction buf with
  | nil => exact ⟨[], rfl⟩
  | cons c cs ih =>
    obtain ⟨l, v⟩ := c
    obtain ⟨buf', hb⟩ := ih fun c hc => h c (.tail _ hc)
    have := h (.mk l v) (.head _)
    simp only [Ast2.Chunk.lineNo] at this
    exact ⟨.mk (l - (k - 1)) v :: buf', by simp [rebase, checkedSub, hk, show k - 1 ≤ l by omega, hb]⟩

/-- Rebasing keeps the variants. -/
theorem rebase_mem {k buf buf'} (h : rebase k buf = .ok buf') : ∀ c ∈ buf', ∃ c' ∈ buf, c'.variant = c.variant := by
  have := post_rebase (k := k) (buf := buf) (P := fun b => ∀ c ∈ b, ∃ c' ∈ buf, c'.variant = c.variant) (E := fun _ => True) (fun _ => trivial)
    (fun b h1 h2 c hc => by obtain ⟨c', h3, h4, _⟩ := rebased_mem h1 h2 c hc; exact ⟨c', h3, h4⟩)
  rw [h] at this
  exact this

theorem post_text_run {rec s line str} {P : MState → Prop} {E : Fail → Prop} (I : Str → TState → Prop)
    (h0 : I [] ⟨s, line, [], line⟩)
    (hstep : ∀ pre c post t, str = pre ++ c :: post → I pre t → Post (stepChar rec t c) (I (pre ++ [c])) E)
    (hend : ∀ t, runText rec str ⟨s, line, [], line⟩ = .ok t → I str t → P t.pushStr.m) :
    Post (stepMathsText rec s line str) P E := by
  have := post_runText hstep str [] _ rfl h0
  unfold stepMathsText
  cases hr : runText rec str ⟨s, line, [], line⟩ with
  | error f => rw [hr] at this; exact this
  | ok t => rw [hr] at this; exact hend t hr this

theorem child2_relabel {a b : List Ast2.Chunk} {inner} (h : Ast2.Child2 b inner)
    (hb : ∀ c ∈ b, (∃ c' ∈ a, c'.variant = c.variant) ∨ ∃ t, c.variant = .text t) : Ast2.Child2 a inner := by
  have key : ∀ {l v}, Ast2.Chunk.mk l v ∈ b → (∀ t, v ≠ .text t) → ∃ l', Ast2.Chunk.mk l' v ∈ a := by
    intro l v hm hv
    rcases hb _ hm with ⟨⟨l', v'⟩, h1, h2⟩ | ⟨t, ht⟩
    · simp [Ast2.Chunk.variant] at h2; subst h2; exact ⟨l', h1⟩
    · exact absurd ht (hv t)
  cases h with
  | scope h1 => obtain ⟨l', h⟩ := key h1 (by simp); exact .scope h
  | arg h1 h2 => obtain ⟨l', h⟩ := key h1 (by simp); exact .arg h h2
  | envArg h1 h2 => obtain ⟨l', h⟩ := key h1 (by simp); exact .envArg h h2
  | envContent h1 => obtain ⟨l', h⟩ := key h1 (by simp); exact .envContent h

/-- The state while reading the text at line `l` after the chunks `pre`. -/
structure NearText (pre : List Ast2.Chunk) (l : Nat) (str : Str) (t : TState) : Prop where
  mode : ∀ k, t.m.mode ≠ bracketMode k
  buffer : t.m.buffer ≠ [] → t.m.mode ≠ .none ∧ t.textBufferLine = l ∧
    ∃ l₁ t₁, OpenDollar t₁ ∧ .mk l₁ (.text t₁) ∈ pre ∧ ∀ c ∈ t.m.buffer, (∀ t, c.variant ≠ .text t) ∧ [.mk l₁ (.text t₁), c].Sublist pre
  line : '$' ∈ str → 1 ≤ t.textBufferLine
  cursor : l ≤ t.cursorLine
  text : '$' ∉ t.textBuffer

theorem mathsNear : ∀ n cs, NearAll cs → Post (mathsFuel n cs) (fun _ => True) (fun f => f = .fuel ∨ f ≠ .panic) := by
  intro n
  induction n with
  | zero => intro cs _; exact .inl rfl
  | succ n ih =>
    intro cs hcs
    obtain ⟨⟨hpos, hlong⟩, hch⟩ := nearAll_iff.1 hcs
    refine post_maths NearInv ?_ ?_ (fun _ _ _ => trivial) (fun _ _ _ => .inr (by simp))
    · exact ⟨fun _ => rfl, fun k h => absurd h.symm (bracketMode_ne_none k), fun _ h => absurd rfl h⟩
    · intro pre l v post s he hi
      have hc : Ast2.Chunk.mk l v ∈ cs := by simp [he]
      have hpre : pre.Sublist cs := by rw [he]; exact List.sublist_append_left _ _
      have hpre1 : (pre ++ [Ast2.Chunk.mk l v]).Sublist cs := by
        rw [he]
        have : pre ++ Ast2.Chunk.mk l v :: post = (pre ++ [.mk l v]) ++ post := by simp
        rw [this]; exact List.sublist_append_left _ _
      have hbuf : s.mode ≠ .none → ((∃ t, v = .text t) → ∃ k, s.mode = bracketMode k) → NearInv (pre ++ [.mk l v]) (s.pushBuffer l v) := by
        intro hm hv
        refine ⟨fun h => absurd h hm, ?_, ?_⟩
        · intro k hk
          exact ⟨(hi.brackets k hk).1.append (List.Sublist.refl _), (hi.brackets k hk).2⟩
        · intro h1 h2
          obtain ⟨l1, t1, h3, h4, h5⟩ := hi.dollars h1 h2
          refine ⟨l1, t1, h3, by simp [h4], ?_⟩
          intro c hc
          rcases List.mem_append.1 hc with hc | hc
          · exact ⟨(h5 c hc).1, (h5 c hc).2.trans (List.sublist_append_left _ _)⟩
          · simp at hc; subst hc
            refine ⟨?_, ?_⟩
            · intro t ht
              obtain ⟨k, hk⟩ := hv ⟨t, ht⟩
              exact h1 k hk
            · exact (List.singleton_sublist.2 h4).append (List.Sublist.refl [Ast2.Chunk.mk l v])
      refine post_step ?_ ?_ ?_ ?_ ?_
      · rintro ⟨label, args⟩ rfl
        refine post_command ?_ ?_ ?_ ?_ ?_ ?_ ?_ ?_
        · intro k _ hl; exact .inr (by simp)
        · intro k hm hl
          refine ⟨fun h => absurd h (bracketMode_ne_none k), ?_, fun h => absurd rfl (h k)⟩
          intro k' _
          simp [hi.idle hm]
        · intro k hm hl
          exact ⟨fun h => absurd (hm ▸ h) (bracketMode_ne_none k),
            fun k' h => ⟨(hi.brackets k' h).1.trans (List.sublist_append_left _ _), by simp⟩, fun h => absurd hm (h k)⟩
        · intro k hm hl hd
          refine (ih s.buffer (nearAll_sublist hcs ((hi.brackets k hm).1.trans hpre))).mono ?_ fun _ h => h
          intro content _
          exact ⟨fun _ => rfl, fun k h => absurd h.symm (bracketMode_ne_none k), fun _ h => absurd rfl h⟩
        · intro k hm hl hd
          have := (hi.brackets k hm).2; omega
        · intro k d hm hl hd hd0
          exact ⟨fun h => absurd (hm ▸ h) (bracketMode_ne_none k),
            fun k' h => ⟨(hi.brackets k' h).1.trans (List.sublist_append_left _ _), Nat.one_le_iff_ne_zero.2 hd0⟩, fun h => absurd hm (h k)⟩
        · intro hm hl
          refine post_tryCommand ?_
          refine (post_args (Q := fun _ _ => True) (E := fun f => f = .fuel ∨ f ≠ .panic) trivial ?_).mono ?_ fun _ h => h
          · intro p inner sv r hmem
            refine (ih inner (hch _ (.arg hc hmem))).mono (fun _ _ _ _ => trivial) fun _ h => h
          · intro a _
            exact hi.snoc rfl rfl rfl
        · intro hm _; exact hbuf hm (by simp)
      · rintro ⟨inner, sv⟩ rfl hm
        refine post_tryScope ?_
        refine (ih inner (hch _ (.scope hc))).mono ?_ fun _ h => h
        intro _ _; exact hi.snoc rfl rfl rfl
      · rintro ⟨label, args, content, pb, pe⟩ rfl hm
        refine post_tryEnvironment ?_
        refine (post_args (Q := fun _ _ => True) (E := fun f => f = .fuel ∨ f ≠ .panic) trivial ?_).mono ?_ fun _ h => h
        · intro p inner sv r hmem
          refine (ih inner (hch _ (.envArg hc hmem))).mono (fun _ _ _ _ => trivial) fun _ h => h
        · intro a _
          refine (ih content (hch _ (.envContent hc))).mono ?_ fun _ h => h
          intro _ _
          exact hi.snoc rfl rfl rfl
      · intro _ hm h; exact hbuf hm (fun ⟨t, ht⟩ => h t ht)
      · rintro str rfl hbr
        refine post_text_run (fun _ t => NearText pre l str t) ?_ ?_ ?_
        · refine ⟨hbr, ?_, fun h => hpos l str hc h, Nat.le_refl _, by simp⟩
          intro hb
          have hm : s.mode ≠ .none := fun h => hb (hi.idle h)
          exact ⟨hm, rfl, hi.dollars hbr hm⟩
        · rintro p c q t hstr ht
          unfold stepChar
          generalize ht' : (if c = '\n' then { t with cursorLine := t.cursorLine + 1 } else t : TState) = t'
          have ht : NearText pre l str t' := by
            subst ht'
            split
            · exact ⟨ht.mode, ht.buffer, ht.line, Nat.le_succ_of_le ht.cursor, ht.text⟩
            · exact ht
          simp only
          split
          · rename_i hd
            subst hd
            have hstrd : '$' ∈ str := by simp [hstr]
            have hl1 : 1 ≤ l := hpos l str hc hstrd
            have hclose : ∀ type, Post (closeDollars (mathsFuel n) t' type)
                (fun t => NearText pre l str t) (fun f => f = .fuel ∨ f ≠ .panic) := by
              intro type
              refine post_closeDollars ?_
              have hmem : ∀ c ∈ (if t'.textBuffer.isEmpty then t'.m.buffer
                  else t'.m.buffer ++ [.mk t'.textBufferLine (.text t'.textBuffer)]),
                  c ∈ t'.m.buffer ∨ c = .mk t'.textBufferLine (.text t'.textBuffer) := by
                intro c hc
                split at hc
                · exact .inl hc
                · simpa using hc
              obtain ⟨buf', hb'⟩ := rebase_ok (k := t'.textBufferLine) (buf := if t'.textBuffer.isEmpty then t'.m.buffer
                  else t'.m.buffer ++ [.mk t'.textBufferLine (.text t'.textBuffer)]) (ht.line hstrd) (by
                intro c hc
                rcases hmem c hc with hc | rfl
                · obtain ⟨_, h1, l1, t1, h2, _, h3⟩ := ht.buffer (by intro h; rw [h] at hc; simp at hc)
                  rw [h1]
                  obtain ⟨h4, h5⟩ := h3 c hc
                  by_cases hle : l ≤ c.lineNo + 1
                  · exact hle
                  · refine absurd ⟨l1, t1, c, l, str, ?_, h2, hstrd, h4, by omega⟩ hlong
                    exact (h5.append (List.Sublist.refl [Ast2.Chunk.mk l (.text str)])).trans hpre1
                · simp [Ast2.Chunk.lineNo])
              rw [hb']
              have hvar : ∀ c ∈ buf', (∃ c' ∈ t'.m.buffer, c'.variant = c.variant ∧ ∀ t, c.variant ≠ .text t) ∨ c.variant = .text t'.textBuffer := by
                intro c hc
                obtain ⟨c', h1, h2⟩ := rebase_mem hb' c hc
                rcases hmem c' h1 with h | rfl
                · obtain ⟨_, _, _, _, _, _, h3⟩ := ht.buffer (by intro h'; rw [h'] at h; simp at h)
                  exact .inl ⟨c', h, h2, h2 ▸ (h3 c' h).1⟩
                · exact .inr h2.symm
              change Post (mathsFuel n buf') _ _
              refine Post.mono (ih buf' (nearAll_iff.2 ⟨⟨?_, ?_⟩, ?_⟩)) ?_ fun _ h => h
              · intro l2 t2 hm hd
                rcases hvar _ hm with ⟨_, _, _, h⟩ | h
                · exact absurd rfl (h t2)
                · simp [Ast2.Chunk.variant] at h; subst h; exact absurd hd ht.text
              · rintro ⟨l1, t1, c, l2, t2, h1, h2, _⟩
                rcases hvar _ (h1.subset (.head _)) with ⟨_, _, _, h⟩ | h
                · exact absurd rfl (h t1)
                · simp [Ast2.Chunk.variant] at h; subst h; exact absurd (openDollar_dollar h2) ht.text
              · intro inner hci
                refine hch inner ((child2_relabel (a := t'.m.buffer) hci ?_).mono ?_)
                · intro c hc
                  rcases hvar c hc with ⟨c', h1, h2, _⟩ | h
                  · exact .inl ⟨c', h1, h2⟩
                  · exact .inr ⟨_, h⟩
                · intro c hc
                  obtain ⟨_, _, _, _, _, _, h3⟩ := ht.buffer (by intro h'; rw [h'] at hc; simp at hc)
                  exact hpre.subset ((h3 c hc).2.subset (by simp))
              · intro content _
                exact ⟨fun k h => absurd h.symm (bracketMode_ne_none k), by simp, fun _ => Nat.le_trans hl1 ht.cursor, ht.cursor, by simp⟩
            refine post_dollar ?_ ?_ ?_ ?_ ?_ ?_
            · intro hm
              obtain ⟨e1, e2, e3, e4, e5, e6⟩ := pushStr_m t'
              refine ⟨fun k h => by cases k <;> simp [bracketMode] at h, ?_, fun _ => ?_, ?_, ?_⟩
              · intro hb
                simp only [e3] at hb
                exact absurd hm (ht.buffer hb).1
              · simp only [e5]; exact Nat.le_trans hl1 ht.cursor
              · simp only [e5]; exact ht.cursor
              · simp only [e6]; simp
            · intro hm hb1 hb2
              exact ⟨fun k h => by cases k <;> simp [bracketMode] at h, by simp [hb2], ht.line, ht.cursor, ht.text⟩
            · intro _ _; exact hclose _
            · intro hm
              exact ⟨fun k h => by cases k <;> simp [bracketMode] at h,
                fun hb => ⟨by simp, (ht.buffer hb).2⟩, ht.line, ht.cursor, ht.text⟩
            · intro _; exact hclose _
            · intro k h; exact absurd h (ht.mode k)
          · rename_i hd
            refine ⟨ht.mode, ht.buffer, ht.line, ht.cursor, ?_⟩
            intro h
            rcases List.mem_append.1 h with h | h
            · exact ht.text h
            · simp at h; exact hd h.symm
        · intro t hrun ht
          obtain ⟨e1, e2, e3, e4, e5, e6⟩ := pushStr_m t
          refine ⟨?_, ?_, ?_⟩
          · rw [e1, e3]
            intro hm
            by_cases hb : t.m.buffer = []
            · exact hb
            · exact absurd hm (ht.buffer hb).1
          · rw [e1]; intro k hk; exact absurd hk (ht.mode k)
          · rw [e1, e3]
            intro _ hm
            by_cases hb : t.m.buffer = []
            · rw [hb]
              by_cases hs : s.mode = .none
              · by_cases ho : OpenDollar str
                · exact ⟨l, str, ho, by simp, by simp⟩
                · exact absurd (runText_closed _ str (Nat.le_refl _) s l t ⟨hs, hi.idle hs⟩ hrun ho).1 hm
              · obtain ⟨l1, t1, h1, h2, _⟩ := hi.dollars hbr hs
                exact ⟨l1, t1, h1, by simp [h2], by simp⟩
            · obtain ⟨_, _, l1, t1, h2, h3, h4⟩ := ht.buffer hb
              exact ⟨l1, t1, h2, by simp [h3], fun c hc => ⟨(h4 c hc).1, (h4 c hc).2.trans (List.sublist_append_left _ _)⟩⟩

theorem near_no_panic {cs} (h : NearAll cs) : mathsFromChunks cs ≠ .error .panic := by
  have := post_fromChunks (E := fun f => f ≠ .panic) fun n => mathsNear n cs h
  intro hp
  rw [hp] at this
  exact this rfl

end LatexAst.Ast3
