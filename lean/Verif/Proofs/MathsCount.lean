import Verif.Proofs.MathsNodes

/-!
# Which characters `MathsBlock::from_chunks` keeps
-/

namespace LatexAst.Ast3
open Spec

/-- The characters of `\(`, `\)`, `\[`, `\]`. -/
def DelimChar (c : Char) : Prop := c ∈ ['\\', '(', ')', '[', ']']

instance (c : Char) : Decidable (DelimChar c) := by unfold DelimChar; infer_instance

/-- Maths delimiters have no arguments. -/
def BareDelims (v : Ast2.ChunkVariant) : Prop :=
  ∀ label args, v = .command (.mk label args) → IsMathsLabel label → args = []

/-- What has been read of the delimiters of the open maths block. -/
def modeOpen : MathsMode → Str
  | .none => []
  | .singleDollar .brackets => chars!"\\("
  | .doubleDollar .brackets => chars!"\\["
  | .singleDollar .dollars => chars!"$"
  | .doubleDollar .dollars => chars!"$$"
  | .doubleClosing => chars!"$$$"

theorem modeOpen_bracket (k) : modeOpen (bracketMode k) = '\\' :: openLabel k := by cases k <;> rfl
theorem delimiters_bracket (k) : delimiters .brackets k = ('\\' :: openLabel k, '\\' :: closeLabel k) := by cases k <;> rfl
theorem opener_delim (k) : ∀ c ∈ '\\' :: openLabel k, DelimChar c := by cases k <;> simp [openLabel, DelimChar]
theorem closer_delim (k) : ∀ c ∈ '\\' :: closeLabel k, DelimChar c := by cases k <;> simp [closeLabel, DelimChar]

theorem display2_append (a b : List Ast2.Chunk) : Ast2.displayChunks (a ++ b) = Ast2.displayChunks a ++ Ast2.displayChunks b := by
  induction a with
  | nil => rfl
  | cons c a ih => simp [Ast2.displayChunks, ih]

theorem display2_congr {a b : List Ast2.Chunk} (h : a.map Ast2.Chunk.variant = b.map Ast2.Chunk.variant) :
    Ast2.displayChunks a = Ast2.displayChunks b := by
  induction a generalizing b with
  | nil => cases b with
    | nil => rfl
    | cons => simp at h
  | cons c a ih =>
    cases b with
    | nil => simp at h
    | cons c' b =>
      simp at h
      obtain ⟨l, v⟩ := c
      obtain ⟨l', v'⟩ := c'
      simp [Ast2.Chunk.variant] at h
      simp [Ast2.displayChunks, Ast2.Chunk.display, h.1, ih h.2]

/-- Nothing is added, and only characters of delimiters can be lost. -/
def Kept (a : Char) (new old : Nat) : Prop := new ≤ old ∧ (¬ DelimChar a → new = old)

/-- The number of characters `a` in what the state stands for. -/
def total (a : Char) (s : MState) : Nat :=
  (displayChunks s.out).count a + (modeOpen s.mode).count a + (Ast2.displayChunks s.buffer).count a

theorem total_pushStr (a : Char) (t : TState) : total a t.pushStr.m = total a t.m + t.textBuffer.count a := by
  unfold TState.pushStr
  split
  · rename_i h; simp at h; simp [h]
  · simp [total, displayChunks_append, displayChunks, Chunk.display, ChunkVariant.display]; omega

theorem kept_delim {a : Char} {n m : Nat} {s : Str} (hs : ∀ c ∈ s, DelimChar c) (h : Kept a n m) : Kept a n (m + s.count a) := by
  refine ⟨by have := h.1; omega, fun ha => ?_⟩
  have h0 : s.count a = 0 := List.count_eq_zero.2 fun hm => ha (hs a hm)
  rw [h.2 ha, h0, Nat.add_zero]

theorem mathsCount (a : Char) : ∀ n cs, Ast2.AllChunks BareDelims cs →
    Post (mathsFuel n cs) (fun out => Kept a ((displayChunks out).count a) ((Ast2.displayChunks cs).count a)) (fun _ => True) := by
  intro n
  induction n with
  | zero => intro cs _; trivial
  | succ n ih =>
    intro cs hcs
    refine post_maths (fun pre s => Ast2.AllChunks BareDelims s.buffer ∧ (s.mode = .none → s.buffer = []) ∧
      Kept a (total a s) ((Ast2.displayChunks pre).count a)) ?_ ?_ ?_ (fun _ _ _ => trivial)
    · exact ⟨trivial, fun _ => rfl, by simp [Kept, total, MState.init, displayChunks, Ast2.displayChunks, modeOpen]⟩
    · intro pre l v post s he ⟨hb, hnb, hk⟩
      have hv : v.All BareDelims := by
        rw [he, Ast2.allChunks_append] at hcs
        exact hcs.2.1
      have hpre : (Ast2.displayChunks (pre ++ [.mk l v])).count a = (Ast2.displayChunks pre).count a + v.display.count a := by
        simp [display2_append, Ast2.displayChunks, Ast2.Chunk.display]
      rw [hpre]
      have hbuf : s.mode ≠ .none → Ast2.AllChunks BareDelims (s.pushBuffer l v).buffer ∧
          ((s.pushBuffer l v).mode = .none → (s.pushBuffer l v).buffer = []) ∧
          Kept a (total a (s.pushBuffer l v)) ((Ast2.displayChunks pre).count a + v.display.count a) := by
        intro hm
        refine ⟨?_, fun h => absurd h hm, ?_⟩
        · rw [MState.pushBuffer, Ast2.allChunks_append]; exact ⟨hb, hv, trivial⟩
        · have : total a (s.pushBuffer l v) = total a s + v.display.count a := by
            simp [total, MState.pushBuffer, display2_append, Ast2.displayChunks, Ast2.Chunk.display]; omega
          rw [this]
          exact ⟨by have := hk.1; omega, fun h => by rw [hk.2 h]⟩
      have hout : ∀ x : ChunkVariant, s.mode = .none → Kept a (x.display.count a) (v.display.count a) →
          (Ast2.AllChunks BareDelims s.buffer ∧ (s.mode = .none → s.buffer = []) ∧
          Kept a (total a { s with out := s.out ++ [.mk l x] }) ((Ast2.displayChunks pre).count a + v.display.count a)) := by
        intro x hm hx
        refine ⟨hb, hnb, ?_⟩
        have : total a { s with out := s.out ++ [.mk l x] } = total a s + x.display.count a := by
          simp [total, displayChunks_append, displayChunks, Chunk.display]; omega
        rw [this]
        exact ⟨by have := hk.1; have := hx.1; omega, fun h => by rw [hk.2 h, hx.2 h]⟩
      have hargs : ∀ args, Ast2.AllArgs BareDelims args →
          Post (tryArgs (mathsFuel n) args) (fun x => Kept a ((displayArgs x).count a) ((Ast2.displayArgs args).count a)) (fun _ => True) := by
        intro args ha
        refine post_args (Q := fun y x => Kept a ((displayArgs x).count a) ((Ast2.displayArgs y).count a)) ?_ ?_
        · simp [Kept, displayArgs, Ast2.displayArgs]
        intro p inner sv r hmem
        have := (Ast2.allArgs_iff_forall _).1 ha _ hmem
        refine (ih inner this).mono ?_ fun _ h => h
        rintro out h1 r' hr
        have e1 : (displayArgs ((p, .mk (paragraphs out) sv) :: r')).count a =
            p.count a + [sv.opening].count a + (displayChunks out).count a + [sv.closing].count a + (displayArgs r').count a := by
          simp [displayArgs, Scope.display, display_paragraphs, List.count_cons]; omega
        have e2 : (Ast2.displayArgs ((p, .mk inner sv) :: r)).count a =
            p.count a + [sv.opening].count a + (Ast2.displayChunks inner).count a + [sv.closing].count a + (Ast2.displayArgs r).count a := by
          simp [Ast2.displayArgs, Ast2.Scope.display, List.count_cons]; omega
        rw [e1, e2]
        exact ⟨by have := h1.1; have := hr.1; omega, fun h => by rw [h1.2 h, hr.2 h]⟩
      refine post_step ?_ ?_ ?_ ?_ ?_
      · rintro ⟨label, args⟩ rfl
        have hbare : IsMathsLabel label → (Ast2.ChunkVariant.command (.mk label args)).display = '\\' :: label := by
          intro hl
          have := hv.1 label args rfl hl
          simp [Ast2.ChunkVariant.display, Ast2.Command.display, this, Ast2.displayArgs]
        refine post_command ?_ ?_ ?_ ?_ ?_ ?_ ?_ ?_
        · intros; trivial
        · intro k hm hl
          simp [Ast2.Command.label] at hl; subst hl
          refine ⟨hb, fun h => absurd h (bracketMode_ne_none k), ?_⟩
          rw [hbare ⟨k, .inl rfl⟩]
          have : total a { s with mode := bracketMode k, bufferLine := l, depth := 1 } = total a s + ('\\' :: openLabel k).count a := by
            simp only [total, modeOpen_bracket, hm]
            simp [modeOpen]; omega
          rw [this]
          exact ⟨by have := hk.1; omega, fun h => by rw [hk.2 h]⟩
        · intro k hm hl
          simp [Ast2.Command.label] at hl; subst hl
          refine ⟨hb, hnb, ?_⟩
          rw [hbare ⟨k, .inl rfl⟩]
          exact kept_delim (opener_delim k) hk
        · intro k hm hl hd
          simp [Ast2.Command.label] at hl; subst hl
          refine (ih s.buffer hb).mono ?_ fun _ h => h
          intro content h1
          refine ⟨trivial, fun _ => rfl, ?_⟩
          rw [hbare ⟨k, .inr rfl⟩]
          have e1 : total a { s with mode := .none, depth := 0, buffer := [], out := s.out ++ [.mk s.bufferLine (.mathsBlock (.mk .brackets k content))] }
              = (displayChunks s.out).count a + ('\\' :: openLabel k).count a + (displayChunks content).count a + ('\\' :: closeLabel k).count a := by
            simp [total, modeOpen, displayChunks_append, displayChunks, Chunk.display, ChunkVariant.display, MathsBlock.display,
              delimiters_bracket, Ast2.displayChunks, List.count_cons]; omega
          have e2 : total a s = (displayChunks s.out).count a + ('\\' :: openLabel k).count a + (Ast2.displayChunks s.buffer).count a := by
            simp [total, hm, modeOpen_bracket]
          rw [e1]
          rw [e2] at hk
          exact ⟨by have := hk.1; have := h1.1; omega, fun h => by have := hk.2 h; have := h1.2 h; omega⟩
        · intros; trivial
        · intro k d hm hl hd hd0
          simp [Ast2.Command.label] at hl; subst hl
          refine ⟨hb, hnb, ?_⟩
          rw [hbare ⟨k, .inr rfl⟩]
          exact kept_delim (closer_delim k) hk
        · intro hm hl
          refine post_tryCommand ?_
          refine (hargs args hv.2).mono ?_ fun _ h => h
          intro x hx
          refine hout _ hm ?_
          simp only [ChunkVariant.display, Command.display, Ast2.ChunkVariant.display, Ast2.Command.display, List.count_cons, List.count_append]
          exact ⟨by have := hx.1; omega, fun h => by rw [hx.2 h]⟩
        · intro hm _; exact hbuf hm
      · rintro ⟨inner, sv⟩ rfl hm
        refine post_tryScope ?_
        refine (ih inner hv.2).mono ?_ fun _ h => h
        intro out h1
        refine hout _ hm ?_
        simp only [ChunkVariant.display, Scope.display, Ast2.ChunkVariant.display, Ast2.Scope.display, List.count_cons, List.count_append, display_paragraphs]
        exact ⟨by have := h1.1; omega, fun h => by rw [h1.2 h]⟩
      · rintro ⟨label, args, content, pb, pe⟩ rfl hm
        refine post_tryEnvironment ?_
        refine (hargs args hv.2.1).mono ?_ fun _ h => h
        intro x hx
        refine (ih content hv.2.2).mono ?_ fun _ h => h
        intro out h1
        refine hout _ hm ?_
        simp only [ChunkVariant.display, Environment.display, Ast2.ChunkVariant.display, Ast2.Environment.display, List.count_cons, List.count_append, display_paragraphs]
        exact ⟨by have := h1.1; have := hx.1; omega, fun h => by rw [h1.2 h, hx.2 h]⟩
      · intro _ hm _; exact hbuf hm
      · rintro str rfl hbr
        refine post_text (fun p t => Ast2.AllChunks BareDelims t.m.buffer ∧ (t.m.mode = .none → t.m.buffer = []) ∧ (∀ k, t.m.mode ≠ bracketMode k) ∧
          Kept a (total a t.m + t.textBuffer.count a) ((Ast2.displayChunks pre).count a + p.count a)) ⟨hb, hnb, hbr, by simpa using hk⟩ ?_ ?_
        · rintro p c q t hstr' ⟨ht1, ht2, ht3, ht4⟩
          unfold stepChar
          generalize ht' : (if c = '\n' then { t with cursorLine := t.cursorLine + 1 } else t : TState) = t'
          have hm' : t'.m = t.m := by subst ht'; split <;> rfl
          have hb' : t'.textBuffer = t.textBuffer := by subst ht'; split <;> rfl
          rw [← hm'] at ht1 ht2 ht3 ht4
          rw [← hb'] at ht4
          simp only
          split
          · rename_i hc
            subst hc
            have step : ∀ n m, Kept a n ((Ast2.displayChunks pre).count a + p.count a) → m = n + ['$'].count a →
                Kept a m ((Ast2.displayChunks pre).count a + (p ++ ['$']).count a) := by
              rintro n m h rfl
              rw [List.count_append]
              exact ⟨by have := h.1; omega, fun h' => by have := h.2 h'; omega⟩
            have hclose : ∀ type, modeOpen t'.m.mode ++ ['$'] = (delimiters .dollars type).1 ++ (delimiters .dollars type).2 →
                Post (closeDollars (mathsFuel n) t' type)
                (fun t => Ast2.AllChunks BareDelims t.m.buffer ∧ (t.m.mode = .none → t.m.buffer = []) ∧ (∀ k, t.m.mode ≠ bracketMode k) ∧
          Kept a (total a t.m + t.textBuffer.count a) ((Ast2.displayChunks pre).count a + (p ++ ['$']).count a)) (fun _ => True) := by
              intro type hty
              refine post_closeDollars ?_
              refine post_rebase (fun _ => trivial) ?_
              intro buf' h1 _
              have hb2 : Ast2.AllChunks BareDelims buf' := by
                refine allChunks2_congr h1 ?_
                split
                · exact ht1
                · rw [Ast2.allChunks_append]
                  exact ⟨ht1, by intro _ _ h; simp at h, trivial⟩
              have hd : (Ast2.displayChunks buf').count a = (Ast2.displayChunks t'.m.buffer).count a + t'.textBuffer.count a := by
                rw [display2_congr h1]
                split
                · rename_i h; simp at h; simp [h]
                · simp [display2_append, Ast2.displayChunks, Ast2.Chunk.display, Ast2.ChunkVariant.display]
              refine (ih buf' hb2).mono ?_ fun _ h => h
              intro content h2
              refine ⟨trivial, fun _ => rfl, fun k h => absurd h.symm (bracketMode_ne_none k), ?_⟩
              rw [hd] at h2
              have hty := congrArg (List.count a) hty
              rw [List.count_append, List.count_append] at hty
              rw [List.count_append]
              have e1 : ∀ x, total a { t'.m with mode := .none, buffer := [], out := t'.m.out ++ [.mk x (.mathsBlock (.mk .dollars type content))] }
                  = (displayChunks t'.m.out).count a + (delimiters .dollars type).1.count a + (displayChunks content).count a + (delimiters .dollars type).2.count a := by
                intro x
                simp [total, modeOpen, displayChunks_append, displayChunks, Chunk.display, ChunkVariant.display, MathsBlock.display,
                  Ast2.displayChunks]; omega
              have e2 : total a t'.m = (displayChunks t'.m.out).count a + (modeOpen t'.m.mode).count a + (Ast2.displayChunks t'.m.buffer).count a := rfl
              rw [e1, List.count_nil]
              rw [e2] at ht4
              exact ⟨by have := ht4.1; have := h2.1; omega, fun h => by have := ht4.2 h; have := h2.2 h; omega⟩
            refine post_dollar ?_ ?_ ?_ ?_ ?_ ?_
            · intro hm
              obtain ⟨e1, e2, e3, e4, e5, e6⟩ := pushStr_m t'
              refine ⟨by rw [e3]; exact ht1, fun h => by simp at h, fun k h => by cases k <;> simp [bracketMode] at h, ?_⟩
              refine step _ _ ht4 ?_
              rw [← total_pushStr a t']
              have h1 : total a t'.pushStr.m = (displayChunks t'.pushStr.m.out).count a + (Ast2.displayChunks t'.pushStr.m.buffer).count a := by
                simp only [total, e1, hm, modeOpen, List.count_nil]; omega
              rw [h1]
              simp only [total, e6, modeOpen, List.count_nil]
              omega
            · intro hm _ _
              refine ⟨ht1, fun h => by simp at h, fun k h => by cases k <;> simp [bracketMode] at h, ?_⟩
              refine step _ _ ht4 ?_
              simp [total, hm, modeOpen, List.count_cons]; omega
            · intro hm _; exact hclose .inline (by rw [hm]; rfl)
            · intro hm
              refine ⟨ht1, fun h => by simp at h, fun k h => by cases k <;> simp [bracketMode] at h, ?_⟩
              refine step _ _ ht4 ?_
              simp [total, hm, modeOpen, List.count_cons]; omega
            · intro hm; exact hclose .outline (by rw [hm]; rfl)
            · intro k h; exact absurd h (ht3 k)
          · refine ⟨ht1, ht2, ht3, ?_⟩
            rw [List.count_append, List.count_append, ← Nat.add_assoc, ← Nat.add_assoc]
            change Kept a (total a t'.m + _ + _) _
            exact ⟨by have := ht4.1; omega, fun h => by rw [ht4.2 h]⟩
        · rintro t ⟨ht1, ht2, ht3, ht4⟩
          obtain ⟨e1, e2, e3, e4, e5, e6⟩ := pushStr_m t
          refine ⟨by rw [e3]; exact ht1, by rw [e1, e3]; exact ht2, ?_⟩
          rw [total_pushStr]; exact ht4
    · rintro s ⟨_, h2, hk⟩ hm
      rw [display_paragraphs]
      have : total a s = (displayChunks s.out).count a := by
        simp [total, hm, modeOpen, h2 hm, Ast2.displayChunks]
      rw [← this]; exact hk

end LatexAst.Ast3
