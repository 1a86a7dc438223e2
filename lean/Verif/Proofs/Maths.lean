import Verif.Proofs.Paragraph
import Verif.Spec.Maths

/-!
# The steps of `MathsBlock::from_chunks`, as rules

Each lemma reduces a postcondition of one step to one obligation per case of the code.
-/

namespace LatexAst.Ast3

/-- Postconditions of a call: `P` for the value, `E` for the failure. -/
def Post {α : Type} (r : Res α) (P : α → Prop) (E : Fail → Prop) : Prop :=
  match r with
  | .ok a => P a
  | .error f => E f

theorem Post.mono {α : Type} {r : Res α} {P P' : α → Prop} {E E' : Fail → Prop} (h : Post r P E)
    (hp : ∀ a, P a → P' a) (he : ∀ f, E f → E' f) : Post r P' E' := by
  cases r with
  | ok a => exact hp a h
  | error f => exact he f h

/-- The mode inside bracket maths. -/
def bracketMode : MathsType → MathsMode
  | .inline => .singleDollar .brackets
  | .outline => .doubleDollar .brackets

theorem opener_ne_closer (k k' : MathsType) : openLabel k ≠ closeLabel k' := by cases k <;> cases k' <;> decide
theorem opener_inj {k k' : MathsType} (h : openLabel k = openLabel k') : k = k' := by
  cases k <;> cases k' <;> first | rfl | (exact absurd h (by decide))
theorem closer_inj {k k' : MathsType} (h : closeLabel k = closeLabel k') : k = k' := by
  cases k <;> cases k' <;> first | rfl | (exact absurd h (by decide))
theorem bracketMode_inj {k k' : MathsType} (h : bracketMode k = bracketMode k') : k = k' := by
  cases k <;> cases k' <;> first | rfl | (exact absurd h (by decide))
theorem bracketMode_ne_none (k : MathsType) : bracketMode k ≠ .none := by cases k <;> decide

/-- A label that is one of the four delimiters. -/
def IsMathsLabel (l : Str) : Prop := ∃ k, l = openLabel k ∨ l = closeLabel k

theorem isMathsLabel_iff {l : Str} : IsMathsLabel l ↔
    l = chars!"(" ∨ l = chars!")" ∨ l = chars!"[" ∨ l = chars!"]" := by
  constructor
  · rintro ⟨k, h | h⟩ <;> cases k <;> simp [openLabel, closeLabel] at h <;> simp [h]
  · rintro (h | h | h | h)
    · exact ⟨.inline, .inl h⟩
    · exact ⟨.inline, .inr h⟩
    · exact ⟨.outline, .inl h⟩
    · exact ⟨.outline, .inr h⟩

theorem isMathsLabel_iff' {l : Str} : IsMathsLabel l ↔ IsDelimiter l := by
  simp [isMathsLabel_iff, IsDelimiter]

theorem eq_inline_of {k : MathsType} (h : bracketMode k = .singleDollar .brackets) : k = .inline := by
  cases k; rfl; simp [bracketMode] at h
theorem eq_outline_of {k : MathsType} (h : bracketMode k = .doubleDollar .brackets) : k = .outline := by
  cases k; simp [bracketMode] at h; rfl

/-- The command step. -/
theorem post_command {rec s line cmd} {P : MState → Prop} {E : Fail → Prop}
    (hend : ∀ k, s.mode = .none → cmd.label = closeLabel k → E (.err ⟨line, .unexpectedMathsEnd⟩))
    (hopen : ∀ k, s.mode = .none → cmd.label = openLabel k →
      P { s with mode := bracketMode k, bufferLine := line, depth := 1 })
    (hnest : ∀ k, s.mode = bracketMode k → cmd.label = openLabel k → P { s with depth := s.depth + 1 })
    (hclose : ∀ k, s.mode = bracketMode k → cmd.label = closeLabel k → s.depth = 1 →
      Post (rec s.buffer) (fun content => P { s with
        mode := .none, depth := 0, buffer := [],
        out := s.out ++ [.mk s.bufferLine (.mathsBlock (.mk .brackets k content))] }) E)
    (hunder : ∀ k, s.mode = bracketMode k → cmd.label = closeLabel k → s.depth = 0 → E .panic)
    (hunnest : ∀ k d, s.mode = bracketMode k → cmd.label = closeLabel k → s.depth = d + 1 → d ≠ 0 →
      P { s with depth := d })
    (hout : s.mode = .none → ¬ IsMathsLabel cmd.label →
      Post (tryCommand rec cmd) (fun c => P { s with out := s.out ++ [.mk line (.command c)] }) E)
    (hbuf : s.mode ≠ .none →
      (∀ k, s.mode = bracketMode k → cmd.label ≠ openLabel k ∧ cmd.label ≠ closeLabel k) →
      P (s.pushBuffer line (.command cmd))) :
    Post (stepMathsCommand rec s line cmd) P E := by
  have under : ∀ k, s.mode = bracketMode k → cmd.label = closeLabel k → s.depth ≠ 1 →
      Post (match checkedSub s.depth 1 with
        | .error p => .error p
        | .ok d => .ok { s with depth := d }) P E := by
    intro k h1 h2 h3
    rcases Nat.lt_or_ge s.depth 1 with h | h
    · have h0 : s.depth = 0 := by omega
      simp only [checkedSub, h0]
      exact hunder k h1 h2 h0
    · have h0 : s.depth = (s.depth - 1) + 1 := by omega
      have : checkedSub s.depth 1 = .ok (s.depth - 1) := by simp [checkedSub, h]
      rw [this]
      exact hunnest k _ h1 h2 h0 (by omega)
  have closes : ∀ k, s.mode = bracketMode k → cmd.label = closeLabel k → s.depth = 1 →
      Post (closeBrackets rec s k) P E := by
    intro k h1 h2 h3
    have := hclose k h1 h2 h3
    unfold closeBrackets
    cases hr : rec s.buffer with
    | ok c => rw [hr] at this; exact this
    | error f => rw [hr] at this; exact this
  unfold stepMathsCommand
  split
  · rename_i h; rcases h with ⟨hm, h | h⟩
    · exact hend .inline hm h
    · exact hend .outline hm h
  rename_i h1
  split
  · rename_i h; exact hopen .inline h.2 h.1
  rename_i h2
  split
  · rename_i h; exact hopen .outline h.2 h.1
  rename_i h3
  split
  · rename_i h; exact hnest .inline h.2 h.1
  rename_i h4
  split
  · rename_i h; exact hnest .outline h.2 h.1
  rename_i h5
  split
  · rename_i h; exact closes .inline h.2.1 h.1 h.2.2
  rename_i h6
  split
  · rename_i h; exact closes .outline h.2.1 h.1 h.2.2
  rename_i h7
  split
  · rename_i h
    exact under .inline h.2 h.1 (fun hd => h6 ⟨h.1, h.2, hd⟩)
  rename_i h8
  split
  · rename_i h
    exact under .outline h.2 h.1 (fun hd => h7 ⟨h.1, h.2, hd⟩)
  rename_i h9
  split
  · rename_i hm
    have hl : ¬ IsMathsLabel cmd.label := by
      rw [isMathsLabel_iff]
      rintro (h | h | h | h)
      · exact h2 ⟨h, hm⟩
      · exact h1 ⟨hm, .inl h⟩
      · exact h3 ⟨h, hm⟩
      · exact h1 ⟨hm, .inr h⟩
    have := hout hm hl
    cases hr : tryCommand rec cmd with
    | ok c => rw [hr] at this; exact this
    | error f => rw [hr] at this; exact this
  · rename_i hm
    refine hbuf hm ?_
    intro k hk
    cases k with
    | inline => exact ⟨fun h => h4 ⟨h, hk⟩, fun h => h8 ⟨h, hk⟩⟩
    | outline => exact ⟨fun h => h5 ⟨h, hk⟩, fun h => h9 ⟨h, hk⟩⟩

/-- The closing of dollar maths. -/
theorem post_closeDollars {rec t type} {P : TState → Prop} {E : Fail → Prop}
    (h : Post (rebase t.textBufferLine (if t.textBuffer.isEmpty then t.m.buffer
                else t.m.buffer ++ [.mk t.textBufferLine (.text t.textBuffer)]))
      (fun buffer => Post (rec buffer) (fun content => P { t with
        m := { t.m with
          mode := .none
          buffer := []
          out := t.m.out ++ [.mk t.textBufferLine (.mathsBlock (.mk .dollars type content))] }
        textBuffer := []
        textBufferLine := t.cursorLine }) E) E) :
    Post (closeDollars rec t type) P E := by
  unfold closeDollars
  simp only
  cases hr : rebase t.textBufferLine (if t.textBuffer.isEmpty then t.m.buffer
                else t.m.buffer ++ [.mk t.textBufferLine (.text t.textBuffer)]) with
  | error f => rw [hr] at h; exact h
  | ok b =>
    rw [hr] at h
    simp only
    change Post (rec b) _ _ at h
    cases hb : rec b with
    | error f => rw [hb] at h; exact h
    | ok c => rw [hb] at h; exact h

/-- The dollar step. -/
theorem post_dollar {rec t} {P : TState → Prop} {E : Fail → Prop}
    (hopen : t.m.mode = .none →
      P { t.pushStr with m := { t.pushStr.m with mode := .singleDollar .dollars }, textBufferLine := t.pushStr.cursorLine })
    (hdouble : t.m.mode = .singleDollar .dollars → t.textBuffer = [] → t.m.buffer = [] →
      P { t with m := { t.m with mode := .doubleDollar .dollars } })
    (hinline : t.m.mode = .singleDollar .dollars → ¬ (t.textBuffer = [] ∧ t.m.buffer = []) →
      Post (closeDollars rec t .inline) P E)
    (hclosing : t.m.mode = .doubleDollar .dollars → P { t with m := { t.m with mode := .doubleClosing } })
    (houtline : t.m.mode = .doubleClosing → Post (closeDollars rec t .outline) P E)
    (hbr : ∀ k, t.m.mode = bracketMode k → P t) :
    Post (stepDollar rec t) P E := by
  unfold stepDollar
  split
  · rename_i h; exact hopen h
  · rename_i h
    split
    · rename_i h'; exact hdouble h (by simpa using h'.1) (by simpa using h'.2)
    · rename_i h'; exact hinline h (by simpa using h')
  · rename_i h; exact hclosing h
  · rename_i h; exact houtline h
  · rename_i h; exact hbr .inline h
  · rename_i h; exact hbr .outline h

/-- The character loop. -/
theorem post_runText {rec} {I : Str → TState → Prop} {E : Fail → Prop} {str : Str}
    (hstep : ∀ pre c post t, str = pre ++ c :: post → I pre t → Post (stepChar rec t c) (I (pre ++ [c])) E) :
    ∀ post pre t, str = pre ++ post → I pre t → Post (runText rec post t) (I str) E := by
  intro post
  induction post with
  | nil => intro pre t h hi; simp at h; subst h; exact hi
  | cons c post ih =>
    intro pre t h hi
    have := hstep pre c post t h hi
    unfold runText
    cases hr : stepChar rec t c with
    | error f => rw [hr] at this; exact this
    | ok t' => rw [hr] at this; exact ih (pre ++ [c]) t' (by simp [h]) this

/-- The text step, with an invariant of the character loop. -/
theorem post_text {rec s line str} {P : MState → Prop} {E : Fail → Prop} (I : Str → TState → Prop)
    (h0 : I [] ⟨s, line, [], line⟩)
    (hstep : ∀ pre c post t, str = pre ++ c :: post → I pre t → Post (stepChar rec t c) (I (pre ++ [c])) E)
    (hend : ∀ t, I str t → P t.pushStr.m) :
    Post (stepMathsText rec s line str) P E := by
  have := post_runText hstep str [] _ rfl h0
  unfold stepMathsText
  cases hr : runText rec str ⟨s, line, [], line⟩ with
  | error f => rw [hr] at this; exact this
  | ok t' => rw [hr] at this; exact hend _ this

/-- The chunk step. -/
theorem post_step {rec s line v} {P : MState → Prop} {E : Fail → Prop}
    (hcmd : ∀ cmd, v = .command cmd → Post (stepMathsCommand rec s line cmd) P E)
    (hscope : ∀ sc, v = .scope sc → s.mode = .none →
      Post (tryScope rec sc) (fun x => P { s with out := s.out ++ [.mk line (.scope x)] }) E)
    (henv : ∀ e, v = .environment e → s.mode = .none →
      Post (tryEnvironment rec e) (fun x => P { s with out := s.out ++ [.mk line (.environment x)] }) E)
    (hbuf : (∀ cmd, v ≠ .command cmd) → s.mode ≠ .none →
      (∀ t, v = .text t → ∃ k, s.mode = bracketMode k) → P (s.pushBuffer line v))
    (htext : ∀ t, v = .text t → (∀ k, s.mode ≠ bracketMode k) → Post (stepMathsText rec s line t) P E) :
    Post (stepMaths rec s (.mk line v)) P E := by
  unfold stepMaths
  cases v with
  | command cmd => exact hcmd cmd rfl
  | scope sc =>
    simp only
    split
    · rename_i h
      have := hscope sc rfl h
      cases hr : tryScope rec sc with
      | ok c => rw [hr] at this; exact this
      | error f => rw [hr] at this; exact this
    · rename_i h; exact hbuf (by simp) h (by simp)
  | environment e =>
    simp only
    split
    · rename_i h
      have := henv e rfl h
      cases hr : tryEnvironment rec e with
      | ok c => rw [hr] at this; exact this
      | error f => rw [hr] at this; exact this
    · rename_i h; exact hbuf (by simp) h (by simp)
  | text t =>
    simp only
    split
    · rename_i h
      have hk : ∃ k, s.mode = bracketMode k := h.elim (fun h => ⟨.inline, h⟩) fun h => ⟨.outline, h⟩
      refine hbuf (by simp) ?_ (fun _ _ => hk)
      obtain ⟨k, hk⟩ := hk
      rw [hk]; exact bracketMode_ne_none k
    · rename_i h
      exact htext t rfl (by
        intro k hk
        cases k with
        | inline => exact h (.inl hk)
        | outline => exact h (.inr hk))

/-- The chunk loop. -/
theorem post_runMaths {rec} {cs : List Ast2.Chunk} {I : List Ast2.Chunk → MState → Prop} {E : Fail → Prop}
    (hstep : ∀ pre l v post s, cs = pre ++ .mk l v :: post → I pre s →
      Post (stepMaths rec s (.mk l v)) (I (pre ++ [.mk l v])) E) :
    ∀ post pre s, cs = pre ++ post → I pre s → Post (runMaths rec post s) (I cs) E := by
  intro post
  induction post with
  | nil => intro pre t h hi; simp at h; subst h; exact hi
  | cons c post ih =>
    intro pre t h hi
    obtain ⟨l, v⟩ := c
    have := hstep pre l v post t h hi
    unfold runMaths
    cases hr : stepMaths rec t (.mk l v) with
    | error f => rw [hr] at this; exact this
    | ok t' => rw [hr] at this; exact ih (pre ++ [Ast2.Chunk.mk l v]) t' (by simp [h]) this

/-- One level of `from_chunks`. -/
theorem post_maths {n cs} {P : List Chunk → Prop} {E : Fail → Prop} (I : List Ast2.Chunk → MState → Prop)
    (h0 : I [] MState.init)
    (hstep : ∀ pre l v post s, cs = pre ++ .mk l v :: post → I pre s →
      Post (stepMaths (mathsFuel n) s (.mk l v)) (I (pre ++ [.mk l v])) E)
    (hend : ∀ s, I cs s → s.mode = .none → P (paragraphs s.out))
    (hunclosed : ∀ s, I cs s → s.mode ≠ .none → E (.err ⟨s.bufferLine, .unclosedMaths⟩)) :
    Post (mathsFuel (n + 1) cs) P E := by
  have := post_runMaths hstep cs [] _ rfl h0
  unfold mathsFuel
  cases hr : runMaths (mathsFuel n) cs MState.init with
  | error f => rw [hr] at this; exact this
  | ok s =>
    rw [hr] at this
    simp only [finishMaths]
    split
    · rename_i h; exact hunclosed s this h
    · rename_i h; exact hend s this (by simpa using h)

/-- Conversion of the arguments, one at a time. -/
theorem post_args {rec} {args : List (Str × Ast2.Scope)} {Q : List (Str × Ast2.Scope) → List (Str × Scope) → Prop} {E : Fail → Prop}
    (hnil : Q [] [])
    (hcons : ∀ p inner sv r, (p, .mk inner sv) ∈ args → Post (rec inner)
      (fun out => ∀ r', Q r r' → Q ((p, .mk inner sv) :: r) ((p, .mk (paragraphs out) sv) :: r')) E) :
    Post (tryArgs rec args) (Q args) E := by
  suffices h : ∀ a, (∀ x ∈ a, x ∈ args) → Post (tryArgs rec a) (Q a) E from h args fun _ h => h
  intro a
  induction a with
  | nil => intro _; exact hnil
  | cons x r ih =>
    intro hx
    obtain ⟨p, inner, sv⟩ := x
    have h1 := hcons p inner sv r (hx _ (.head _))
    have h2 := ih fun y hy => hx y (.tail _ hy)
    cases hr : rec inner with
    | error f => rw [hr] at h1; simp only [tryArgs, tryScope, hr]; exact h1
    | ok out =>
      rw [hr] at h1
      cases hr2 : tryArgs rec r with
      | error f => rw [hr2] at h2; simp only [tryArgs, tryScope, hr, hr2]; exact h2
      | ok r' => rw [hr2] at h2; simp only [tryArgs, tryScope, hr, hr2]; exact h1 r' h2

theorem post_tryScope {rec inner sv} {P : Scope → Prop} {E : Fail → Prop}
    (h : Post (rec inner) (fun out => P (.mk (paragraphs out) sv)) E) :
    Post (tryScope rec (.mk inner sv)) P E := by
  cases hr : rec inner <;> rw [hr] at h <;> simp only [tryScope, hr] <;> exact h

theorem post_tryCommand {rec label args} {P : Command → Prop} {E : Fail → Prop}
    (h : Post (tryArgs rec args) (fun a => P (.mk label a)) E) :
    Post (tryCommand rec (.mk label args)) P E := by
  cases hr : tryArgs rec args <;> rw [hr] at h <;> simp only [tryCommand, hr] <;> exact h

theorem post_tryEnvironment {rec label args content pb pe} {P : Environment → Prop} {E : Fail → Prop}
    (h : Post (tryArgs rec args) (fun a => Post (rec content)
      (fun c => P (.mk label a (paragraphs c) pb pe)) E) E) :
    Post (tryEnvironment rec (.mk label args content pb pe)) P E := by
  cases hr : tryArgs rec args with
  | error f => rw [hr] at h; simp only [tryEnvironment, hr]; exact h
  | ok a =>
    rw [hr] at h
    change Post (rec content) _ _ at h
    cases hr2 : rec content <;> rw [hr2] at h <;> simp only [tryEnvironment, hr, hr2] <;> exact h

end LatexAst.Ast3
