import Verif.Proofs.MathsCount

/-!
# Well-formed maths is converted as specified
-/

namespace LatexAst.Ast3
open Spec

variable {rec : List Ast2.Chunk → Res (List Chunk)}

/-! ### The character loop -/

theorem runText_append (a b : Str) (t : TState) : runText rec (a ++ b) t =
    (match runText rec a t with | .error f => .error f | .ok t => runText rec b t) := by
  induction a generalizing t with
  | nil => rfl
  | cons c a ih =>
    simp only [List.cons_append, runText]
    cases stepChar rec t c with
    | error f => rfl
    | ok t' => exact ih t'

theorem runText_plain {p : Str} (hp : '$' ∉ p) (m : MState) (cur : Nat) (tb : Str) (tbl : Nat) :
    runText rec p ⟨m, cur, tb, tbl⟩ = .ok ⟨m, cur + p.count '\n', tb ++ p, tbl⟩ := by
  induction p generalizing cur tb with
  | nil => simp [runText]
  | cons c p ih =>
    have hc : c ≠ '$' := by rintro rfl; simp at hp
    have hp' : '$' ∉ p := fun h => hp (List.mem_cons_of_mem _ h)
    simp only [runText, stepChar, if_neg hc]
    by_cases hn : c = '\n'
    · subst hn
      simp only [if_pos]
      rw [ih hp']
      simp [List.count_cons]; omega
    · simp only [if_neg hn]
      rw [ih hp']
      simp [List.count_cons, hn]

/-- The state after opening. -/
def opened (s : MState) (l : Nat) (p : Str) (m : MathsMode) : MState := { s with out := s.out ++ textIf l p, mode := m }

theorem runText_open {p : Str} (hp : '$' ∉ p) {s : MState} (hs : s.mode = .none) (l : Nat) (q : Str) :
    runText rec (p ++ '$' :: q) ⟨s, l, [], l⟩ =
      runText rec q ⟨opened s l p (.singleDollar .dollars), l + p.count '\n', [], l + p.count '\n'⟩ := by
  rw [runText_append, runText_plain hp]
  simp only [runText, stepChar, List.nil_append]
  simp only [show ¬ ('$' = '\n') by decide, if_false, if_true]
  simp only [stepDollar, hs, TState.pushStr]
  by_cases h : p = []
  · subst h; simp [opened, textIf]
  · have : p.isEmpty = false := by simpa using h
    simp [this, opened, textIf, h]

theorem runText_double {s : MState} (hs : s.mode = .singleDollar .dollars) (hb : s.buffer = []) (l : Nat) (q : Str) :
    runText rec ('$' :: q) ⟨s, l, [], l⟩ = runText rec q ⟨{ s with mode := .doubleDollar .dollars }, l, [], l⟩ := by
  simp only [runText, stepChar]
  simp only [show ¬ ('$' = '\n') by decide, if_false, if_true]
  simp [stepDollar, hs, hb]

theorem runText_closing {s : MState} (hs : s.mode = .doubleDollar .dollars) (l : Nat) (tb : Str) (k : Nat) (q : Str) :
    runText rec ('$' :: q) ⟨s, l, tb, k⟩ = runText rec q ⟨{ s with mode := .doubleClosing }, l, tb, k⟩ := by
  simp only [runText, stepChar]
  simp only [show ¬ ('$' = '\n') by decide, if_false, if_true]
  simp [stepDollar, hs]

/-- Rebasing what was shifted. -/
theorem rebase_shift {k : Nat} (hk : 1 ≤ k) (ms : List Ast2.Chunk) :
    rebase k (ms.map (Ast2.Chunk.shift (k - 1))) = .ok ms := by
  induction ms with
  | nil => rfl
  | cons c ms ih =>
    obtain ⟨l, v⟩ := c
    simp [rebase, Ast2.Chunk.shift, checkedSub, hk, ih]

theorem shift_textIf2 {k : Nat} (hk : 1 ≤ k) (x : Str) : textIf2 k x = (textIf2 1 x).map (Ast2.Chunk.shift (k - 1)) := by
  unfold textIf2
  split
  · rfl
  · simp [Ast2.Chunk.shift]; omega

/-- The state after closing. -/
def closed (s : MState) (l : Nat) (v : MathsVariant) (type : MathsType) (content : List Chunk) : MState :=
  { s with mode := .none, buffer := [], out := s.out ++ [.mk l (.mathsBlock (.mk v type content))] }

theorem closeDollars_ok {s : MState} {l k : Nat} {x : Str} {type ms content} (hk : 1 ≤ k)
    (hb : s.buffer = ms.map (Ast2.Chunk.shift (k - 1))) (hrec : rec (ms ++ textIf2 1 x) = .ok content) :
    closeDollars rec ⟨s, l, x, k⟩ type = .ok ⟨closed s k .dollars type content, l, [], l⟩ := by
  have h1 : (if x.isEmpty then s.buffer else s.buffer ++ [.mk k (.text x)]) =
      (ms ++ textIf2 1 x).map (Ast2.Chunk.shift (k - 1)) := by
    rw [List.map_append, ← shift_textIf2 hk, hb]
    by_cases h : x = []
    · subst h; simp [textIf2]
    · have : x.isEmpty = false := by simpa using h
      simp [this, textIf2, h]
  simp only [closeDollars]
  rw [h1, rebase_shift hk]
  simp only [hrec]
  rfl

theorem runText_close_inline {s : MState} (hs : s.mode = .singleDollar .dollars) {l k : Nat} {x : Str} {ms content}
    (hne : ¬ (x = [] ∧ ms = [])) (hk : 1 ≤ k)
    (hb : s.buffer = ms.map (Ast2.Chunk.shift (k - 1))) (hrec : rec (ms ++ textIf2 1 x) = .ok content) (q : Str) :
    runText rec ('$' :: q) ⟨s, l, x, k⟩ = runText rec q ⟨closed s k .dollars .inline content, l, [], l⟩ := by
  have hne' : ¬ (x.isEmpty = true ∧ s.buffer.isEmpty = true) := by simpa [hb] using hne
  simp only [runText, stepChar]
  simp only [show ¬ ('$' = '\n') by decide, if_false, if_true]
  simp only [stepDollar, hs, if_neg hne']
  rw [closeDollars_ok hk hb hrec]

theorem runText_close_outline {s : MState} (hs : s.mode = .doubleClosing) {l k : Nat} {x : Str} {ms content} (hk : 1 ≤ k)
    (hb : s.buffer = ms.map (Ast2.Chunk.shift (k - 1))) (hrec : rec (ms ++ textIf2 1 x) = .ok content) (q : Str) :
    runText rec ('$' :: q) ⟨s, l, x, k⟩ = runText rec q ⟨closed s k .dollars .outline content, l, [], l⟩ := by
  simp only [runText, stepChar]
  simp only [show ¬ ('$' = '\n') by decide, if_false, if_true]
  simp only [stepDollar, hs]
  rw [closeDollars_ok hk hb hrec]

/-! ### The chunk loop -/

/-- Between chunks, outside maths. -/
def Idle (s : MState) : Prop := s.mode = .none ∧ s.buffer = []

theorem idle_closed (s l v type content) : Idle (closed s l v type content) := ⟨rfl, rfl⟩

theorem runMaths_text {s : MState} (hs : ∀ k, s.mode ≠ bracketMode k) (l : Nat) (t : Str) (rest : List Ast2.Chunk) :
    runMaths rec (.mk l (.text t) :: rest) s =
      (match runText rec t ⟨s, l, [], l⟩ with
        | .error f => .error f
        | .ok t => runMaths rec rest t.pushStr.m) := by
  have : ¬ (s.mode = .singleDollar .brackets ∨ s.mode = .doubleDollar .brackets) := by
    rintro (h | h)
    · exact hs .inline h
    · exact hs .outline h
  simp only [runMaths, stepMaths, if_neg this, stepMathsText]
  cases runText rec t ⟨s, l, [], l⟩ <;> rfl

/-- A text that was partly read is as good as the rest of it. -/
theorem runMaths_rest {s s' : MState} (hs : ∀ k, s.mode ≠ bracketMode k) (hs' : Idle s') {l l' : Nat} {t r : Str}
    (h : runText rec t ⟨s, l, [], l⟩ = runText rec r ⟨s', l', [], l'⟩) (rest : List Ast2.Chunk) :
    runMaths rec (.mk l (.text t) :: rest) s = runMaths rec (.mk l' (.text r) :: rest) s' := by
  rw [runMaths_text hs, runMaths_text (by rw [hs'.1]; exact fun k h => bracketMode_ne_none k h.symm), h]

theorem none_not_bracket {s : MState} (h : s.mode = .none) : ∀ k, s.mode ≠ bracketMode k := by
  rw [h]; exact fun k h => bracketMode_ne_none k h.symm

/-- In dollar maths everything but text is kept for later. -/
theorem runMaths_keep {s : MState} (h1 : s.mode = .singleDollar .dollars ∨ s.mode = .doubleDollar .dollars)
    {ms : List Ast2.Chunk} (hms : ∀ c ∈ ms, ∀ t, c.variant ≠ .text t) (rest : List Ast2.Chunk) :
    runMaths rec (ms ++ rest) s = runMaths rec rest { s with buffer := s.buffer ++ ms } := by
  induction ms generalizing s with
  | nil => simp
  | cons c ms ih =>
    obtain ⟨l, v⟩ := c
    have hv := hms _ (.head _)
    have hstep : stepMaths rec s (.mk l v) = .ok (s.pushBuffer l v) := by
      cases v with
      | text t => exact absurd rfl (hv t)
      | command c =>
        simp only [stepMaths, stepMathsCommand]
        rcases h1 with h | h <;> simp [h]
      | scope sc => rcases h1 with h | h <;> simp [stepMaths, h]
      | environment e => rcases h1 with h | h <;> simp [stepMaths, h]
    simp only [List.cons_append, runMaths, hstep]
    have ih := ih (s := s.pushBuffer l v) h1 (fun c hc => hms c (.tail _ hc))
    rw [ih]
    simp [MState.pushBuffer]

theorem label_ne {k : MathsType} {label : Str} {l : Nat} {args : List (Str × Ast2.Scope)}
    (h : NotOfKind k (.mk l (.command (.mk label args)))) : label ≠ openLabel k ∧ label ≠ closeLabel k := by
  have := h args
  simp [Ast2.Chunk.variant] at this
  exact this

/-- Inside brackets. -/
theorem runMaths_inside {k body inner} (h : Inside k body inner) :
    ∀ (s : MState) (rest : List Ast2.Chunk), s.mode = bracketMode k → 1 ≤ s.depth →
    runMaths rec (body ++ rest) s = runMaths rec rest { s with buffer := s.buffer ++ inner } := by
  induction h with
  | nil => intro s rest _ _; simp
  | @other c body inner hc _ ih =>
    intro s rest hm hd
    obtain ⟨l, v⟩ := c
    have hstep : stepMaths rec s (.mk l v) = .ok (s.pushBuffer l v) := by
      cases v with
      | text t => cases k <;> simp [stepMaths, hm, bracketMode]
      | command c =>
        obtain ⟨label, args⟩ := c
        obtain ⟨h1, h2⟩ := label_ne hc
        cases k <;> simp only [openLabel, closeLabel] at h1 h2 <;>
          simp [stepMaths, stepMathsCommand, hm, bracketMode, Ast2.Command.label, h1, h2]
      | scope sc => cases k <;> simp [stepMaths, hm, bracketMode]
      | environment e => cases k <;> simp [stepMaths, hm, bracketMode]
    simp only [List.cons_append, runMaths, hstep]
    rw [ih (s.pushBuffer l v) rest hm hd]
    simp [MState.pushBuffer]
  | @nested l args b1 i1 l' args' b2 i2 _ _ ih1 ih2 =>
    intro s rest hm hd
    have hopen : stepMaths rec s (.mk l (.command (.mk (openLabel k) args))) = .ok { s with depth := s.depth + 1 } := by
      cases k <;> simp [stepMaths, stepMathsCommand, hm, bracketMode, Ast2.Command.label, openLabel]
    have hclose : ∀ b, stepMaths rec { s with depth := s.depth + 1, buffer := b } (.mk l' (.command (.mk (closeLabel k) args'))) =
        .ok { s with buffer := b } := by
      intro b
      have : s.depth ≠ 0 := by omega
      cases k <;> simp [stepMaths, stepMathsCommand, hm, bracketMode, Ast2.Command.label, closeLabel, checkedSub, this]
    simp only [List.cons_append, List.append_assoc, runMaths, hopen]
    have h1 := ih1 { s with depth := s.depth + 1 } (.mk l' (.command (.mk (closeLabel k) args')) :: (b2 ++ rest)) hm (by simp)
    rw [h1]
    simp only [runMaths, hclose]
    rw [ih2 { s with buffer := s.buffer ++ i1 } rest hm hd]
    simp

theorem tryArgs_contents {args : List (Str × Ast2.Scope)} {contents : List (List Chunk)} (hl : contents.length = args.length)
    (h : ∀ p inner sv content, ((p, Ast2.Scope.mk inner sv), content) ∈ args.zip contents → rec inner = .ok (paragraphs content)) :
    tryArgs rec args = .ok (withContents args contents) := by
  induction args generalizing contents with
  | nil => cases contents with
    | nil => rfl
    | cons => simp at hl
  | cons x r ih =>
    cases contents with
    | nil => simp at hl
    | cons c cs =>
      obtain ⟨p, inner, sv⟩ := x
      have h1 := h p inner sv c (by simp)
      have h2 := ih (contents := cs) (by simpa using hl) (fun p i sv c hm => h p i sv c (by simp [hm]))
      simp [tryArgs, tryScope, h1, h2, withContents, paragraphs_idem]

theorem maths_ok {cs out} (h : ∀ s, Idle s → ∃ s', runMaths mathsFromChunks cs s = .ok s' ∧ Idle s' ∧ s'.out = s.out ++ out) :
    mathsFromChunks cs = .ok (paragraphs out) := by
  rw [mathsFromChunks_eq, mathsLevel]
  obtain ⟨s', h1, h2, h3⟩ := h MState.init ⟨rfl, rfl⟩
  rw [h1]
  simp [finishMaths, h2.1, h3, MState.init]

/-- What a well-formed sequence does to the state. -/
theorem runMaths_converts {strict cs out} (h : Converts strict cs out) :
    ∀ s, Idle s → ∃ s', runMaths mathsFromChunks cs s = .ok s' ∧ Idle s' ∧ s'.out = s.out ++ out := by
  have plain : ∀ {x : Str}, '$' ∉ x → mathsFromChunks (textIf2 1 x) = .ok (paragraphs (textIf 1 x)) := by
    intro x hx
    apply maths_ok
    intro s hs
    by_cases h : x = []
    · subst h; exact ⟨s, by simp [textIf2, runMaths], hs, by simp [textIf]⟩
    · have : x.isEmpty = false := by simpa using h
      simp only [textIf2, textIf, if_neg h]
      rw [runMaths_text (none_not_bracket hs.1), runText_plain hx]
      exact ⟨_, rfl, by simpa [TState.pushStr, this, Idle] using hs, by simp [TState.pushStr, this]⟩
  induction h with
  | nil => intro s hs; exact ⟨s, rfl, hs, by simp⟩
  | @text l t rest out ht _ ih =>
    intro s hs
    rw [runMaths_text (none_not_bracket hs.1), runText_plain ht]
    by_cases h : t = []
    · subst h
      obtain ⟨s', h1, h2, h3⟩ := ih s hs
      exact ⟨s', by simpa [TState.pushStr] using h1, h2, by simpa [textIf] using h3⟩
    · have : t.isEmpty = false := by simpa using h
      obtain ⟨s', h1, h2, h3⟩ := ih { s with out := s.out ++ [.mk l (.text t)] } hs
      exact ⟨s', by simpa [TState.pushStr, this] using h1, h2, by simpa [textIf, h] using h3⟩
  | @inline l p x r rest out hp hx hne hl _ ih =>
    intro s hs
    have hp1 := plain hx
    simp only [textIf, if_neg hne] at hp1
    have e : runText mathsFromChunks (p ++ '$' :: (x ++ '$' :: r)) ⟨s, l, [], l⟩ =
        runText mathsFromChunks r ⟨closed (opened s l p (.singleDollar .dollars)) (l + p.count '\n') .dollars .inline (paragraphs [.mk 1 (.text x)]),
          l + p.count '\n' + x.count '\n', [], l + p.count '\n' + x.count '\n'⟩ := by
      rw [runText_open hp hs.1, runText_append, runText_plain hx]
      simp only [List.nil_append]
      exact runText_close_inline (ms := []) rfl (by simp [hne]) (by omega) (by simp [opened, hs.2]) (by simpa using hp1) r
    rw [runMaths_rest (none_not_bracket hs.1) (idle_closed ..) e]
    obtain ⟨s', h1, h2, h3⟩ := ih _ (idle_closed ..)
    exact ⟨s', h1, h2, by rw [h3]; simp [closed, opened]⟩
  | @display l p x r rest out hp hx hl _ ih =>
    intro s hs
    have hp1 := plain hx
    have e : runText mathsFromChunks (p ++ '$' :: '$' :: (x ++ '$' :: '$' :: r)) ⟨s, l, [], l⟩ =
        runText mathsFromChunks r ⟨closed (opened s l p .doubleClosing) (l + p.count '\n') .dollars .outline (paragraphs (textIf 1 x)),
          l + p.count '\n' + x.count '\n', [], l + p.count '\n' + x.count '\n'⟩ := by
      rw [runText_open hp hs.1, runText_double rfl (by simp [opened, hs.2]), runText_append, runText_plain hx]
      simp only [List.nil_append]
      rw [runText_closing rfl]
      exact runText_close_outline (ms := []) rfl (by omega) (by simp [opened, hs.2]) (by simpa using hp1) r
    rw [runMaths_rest (none_not_bracket hs.1) (idle_closed ..) e]
    obtain ⟨s', h1, h2, h3⟩ := ih _ (idle_closed ..)
    exact ⟨s', h1, h2, by rw [h3]; simp [closed, opened]⟩
  | @sloppy l p x y r rest out _ hp hx hy hne hl _ ih =>
    intro s hs
    have hxy : '$' ∉ x ++ y := by simp [hx, hy]
    have hne' : x ++ y ≠ [] := by simp [hne]
    have hp1 := plain hxy
    simp only [textIf, if_neg hne'] at hp1
    have e : runText mathsFromChunks (p ++ '$' :: '$' :: (x ++ '$' :: (y ++ '$' :: r))) ⟨s, l, [], l⟩ =
        runText mathsFromChunks r ⟨closed (opened s l p .doubleClosing) (l + p.count '\n') .dollars .outline (paragraphs [.mk 1 (.text (x ++ y))]),
          l + p.count '\n' + (x ++ y).count '\n', [], l + p.count '\n' + (x ++ y).count '\n'⟩ := by
      rw [runText_open hp hs.1, runText_double rfl (by simp [opened, hs.2]), runText_append, runText_plain hx]
      simp only [List.nil_append]
      rw [runText_closing rfl, runText_append, runText_plain hy]
      simp only [List.count_append, ← Nat.add_assoc]
      exact runText_close_outline (ms := []) rfl (by omega) (by simp [opened, hs.2]) (by simpa using hp1) r
    rw [runMaths_rest (none_not_bracket hs.1) (idle_closed ..) e]
    obtain ⟨s', h1, h2, h3⟩ := ih _ (idle_closed ..)
    exact ⟨s', h1, h2, by rw [h3]; simp [closed, opened]⟩
  | @inlineSpan l p ms l' x r rest content out hp hx hl hne hms _ _ ih1 ih2 =>
    intro s hs
    have hc := maths_ok ih1
    rw [runMaths_text (none_not_bracket hs.1), runText_open hp hs.1]
    simp only [runText, TState.pushStr, List.isEmpty_nil, if_true]
    have hms' : ∀ c ∈ ms.map (Ast2.Chunk.shift (l' - 1)), ∀ t, c.variant ≠ .text t := by
      intro c hc t
      obtain ⟨⟨l0, v⟩, h1, rfl⟩ := List.mem_map.1 hc
      exact hms _ h1 t
    rw [runMaths_keep (.inl rfl) hms']
    have e : runText mathsFromChunks (x ++ '$' :: r) ⟨{ opened s l p (.singleDollar .dollars) with
          buffer := (opened s l p (.singleDollar .dollars)).buffer ++ ms.map (Ast2.Chunk.shift (l' - 1)) }, l', [], l'⟩ =
        runText mathsFromChunks r ⟨closed { opened s l p (.singleDollar .dollars) with
          buffer := (opened s l p (.singleDollar .dollars)).buffer ++ ms.map (Ast2.Chunk.shift (l' - 1)) } l' .dollars .inline (paragraphs content),
          l' + x.count '\n', [], l' + x.count '\n'⟩ := by
      rw [runText_append, runText_plain hx]
      simp only [List.nil_append]
      exact runText_close_inline (ms := ms) rfl (by simp [hne]) hl (by simp [opened, hs.2]) hc r
    rw [runMaths_rest (by intro k h; cases k <;> simp [bracketMode, opened] at h) (idle_closed ..) e]
    obtain ⟨s', h1, h2, h3⟩ := ih2 _ (idle_closed ..)
    exact ⟨s', h1, h2, by rw [h3]; simp [closed, opened]⟩
  | @displaySpan l p ms l' x r rest content out hp hx hl hms _ _ ih1 ih2 =>
    intro s hs
    have hc := maths_ok ih1
    rw [runMaths_text (none_not_bracket hs.1), runText_open hp hs.1, runText_double rfl (by simp [opened, hs.2])]
    simp only [runText, TState.pushStr, List.isEmpty_nil, if_true]
    have hms' : ∀ c ∈ ms.map (Ast2.Chunk.shift (l' - 1)), ∀ t, c.variant ≠ .text t := by
      intro c hc t
      obtain ⟨⟨l0, v⟩, h1, rfl⟩ := List.mem_map.1 hc
      exact hms _ h1 t
    rw [runMaths_keep (.inr rfl) hms']
    have e : runText mathsFromChunks (x ++ '$' :: '$' :: r) ⟨{ opened s l p (.doubleDollar .dollars) with
          buffer := (opened s l p (.singleDollar .dollars)).buffer ++ ms.map (Ast2.Chunk.shift (l' - 1)) }, l', [], l'⟩ =
        runText mathsFromChunks r ⟨closed { opened s l p .doubleClosing with
          buffer := (opened s l p (.singleDollar .dollars)).buffer ++ ms.map (Ast2.Chunk.shift (l' - 1)) } l' .dollars .outline (paragraphs content),
          l' + x.count '\n', [], l' + x.count '\n'⟩ := by
      rw [runText_append, runText_plain hx]
      simp only [List.nil_append]
      rw [runText_closing rfl]
      exact runText_close_outline (ms := ms) rfl hl (by simp [opened, hs.2]) hc r
    have := runMaths_rest (by intro k h; cases k <;> simp [bracketMode, opened] at h) (idle_closed ..) e rest
    obtain ⟨s', h1, h2, h3⟩ := ih2 _ (idle_closed ..)
    exact ⟨s', this.trans h1, h2, by rw [h3]; simp [closed, opened]⟩
  | @brackets k l args body inner l' args' rest content out hin _ _ _ ih1 ih2 =>
    intro s hs
    have hc := maths_ok ih1
    have hopen : stepMaths mathsFromChunks s (.mk l (.command (.mk (openLabel k) args))) =
        .ok { s with mode := bracketMode k, bufferLine := l, depth := 1 } := by
      cases k <;> simp [stepMaths, stepMathsCommand, hs.1, bracketMode, Ast2.Command.label, openLabel]
    simp only [runMaths, hopen]
    rw [runMaths_inside hin _ _ rfl (Nat.le_refl 1)]
    have hb : s.buffer ++ inner = inner := by rw [hs.2]; rfl
    simp only [hb]
    have hclose : stepMaths mathsFromChunks { s with mode := bracketMode k, bufferLine := l, depth := 1, buffer := inner }
        (.mk l' (.command (.mk (closeLabel k) args'))) =
        .ok { s with mode := .none, bufferLine := l, depth := 0, buffer := [], out := s.out ++ [.mk l (.mathsBlock (.mk .brackets k (paragraphs content)))] } := by
      cases k <;> simp [stepMaths, stepMathsCommand, bracketMode, Ast2.Command.label, closeLabel, closeBrackets, hc]
    simp only [runMaths, hclose]
    obtain ⟨s', h1, h2, h3⟩ := ih2 { s with mode := .none, bufferLine := l, depth := 0, buffer := [], out := s.out ++ [.mk l (.mathsBlock (.mk .brackets k (paragraphs content)))] } ⟨rfl, rfl⟩
    exact ⟨s', h1, h2, by rw [h3]; simp⟩
  | @scope l inner sv rest content out _ _ ih1 ih2 =>
    intro s hs
    have hc := maths_ok ih1
    obtain ⟨s', h1, h2, h3⟩ := ih2 { s with out := s.out ++ [.mk l (.scope (.mk (paragraphs content) sv))] } hs
    refine ⟨s', ?_, h2, by rw [h3]; simp⟩
    simp only [runMaths, stepMaths, hs.1, if_true, tryScope, hc, paragraphs_idem]
    simpa only [hs.1] using h1
  | @command l label args contents rest out hl hlen _ _ ih1 ih2 =>
    intro s hs
    have ha := tryArgs_contents (rec := mathsFromChunks) hlen (fun p i sv c hm => maths_ok (ih1 p i sv c hm))
    obtain ⟨s', h1, h2, h3⟩ := ih2 { s with out := s.out ++ [.mk l (.command (.mk label (withContents args contents)))] } hs
    refine ⟨s', ?_, h2, by rw [h3]; simp⟩
    simp [IsDelimiter] at hl
    rw [hs.1] at h1
    simp [runMaths, stepMaths, stepMathsCommand, hs.1, Ast2.Command.label, hl, tryCommand, ha, h1]
  | @environment l label args contents body content pb pe rest out hlen _ _ _ ih1 ih2 ih3 =>
    intro s hs
    have hc := maths_ok ih2
    have ha := tryArgs_contents (rec := mathsFromChunks) hlen (fun p i sv c hm => maths_ok (ih1 p i sv c hm))
    obtain ⟨s', h1, h2, h3⟩ := ih3 { s with out := s.out ++ [.mk l (.environment (.mk label (withContents args contents) (paragraphs content) pb pe))] } hs
    refine ⟨s', ?_, h2, by rw [h3]; simp⟩
    simp only [runMaths, stepMaths, hs.1, if_true, tryEnvironment, hc, paragraphs_idem, ha]
    simpa only [hs.1] using h1

theorem mathsFromChunks_converts {strict cs out} (h : Converts strict cs out) :
    mathsFromChunks cs = .ok (paragraphs out) := maths_ok (runMaths_converts h)

end LatexAst.Ast3
