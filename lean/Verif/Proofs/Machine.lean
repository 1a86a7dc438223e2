import Verif.Model.Machine
import Verif.Proofs.Shape1

/-! Machine integers do not matter for short sources. -/

namespace LatexAst

/-- Neither a panic nor an error line that is too big. -/
def Fine {α : Type} (r : Res α) : Prop := r ≠ .error .panic ∧ ∀ e, r = .error (.err e) → e.line < u32Size

theorem fine_error {α β : Type} {f : Fail} (h : Fine (.error f : Res α)) : Fine (.error f : Res β) :=
  ⟨fun h' => h.1 (by cases h'; rfl), fun e he => h.2 e (by cases he; rfl)⟩

theorem addLineA_eq (A : Arith) {α : Type} {k : Nat} {r : Res α} (h : Fine (addLine k r)) : addLineA A k r = addLine k r := by
  cases r with
  | ok a => rfl
  | error f =>
    cases f with
    | err e =>
      have := h.2 _ rfl
      simp only [addLineA, addLine]
      rw [A.add_exact _ _ this]
    | panic => rfl
    | fuel => rfl

theorem sub_eq (A : Arith) {a b : Nat} (ha : a < u32Size) {k} (h : checkedSub a b = .ok k) : A.sub a b = .ok k := by
  unfold checkedSub at h
  split at h
  · cases h; exact A.sub_exact _ _ ‹_› ha
  · cases h

theorem sub_panic {a b : Nat} {f : Fail} (h : checkedSub a b = .error f) : f = .panic := by
  unfold checkedSub at h
  split at h
  · cases h
  · cases h; rfl

namespace Ast1

theorem flush_congr {rec rec' : Str → Res (List Chunk)} {b : Buffer} (h : ∀ a ∈ b.contents, rec a = rec' a) (l cs) :
    flush rec b l cs = flush rec' b l cs := by
  cases b with
  | text a => rfl
  | scope a v d => simp only [flush, h a (by simp [Buffer.contents])]
  | command l sc d tr =>
    simp only [flush]
    rw [evalArgs_congr fun a v p hm => h a (by simp only [Buffer.contents, List.mem_map]; exact ⟨_, hm, rfl⟩)]

/-- The recursive calls agree on what is in the buffer. -/
def Agree (rec rec' : Str → Res (List Chunk)) (b : Buffer) : Prop := ∀ a ∈ b.contents, rec a = rec' a

/-- The depth of a buffer. -/
def Buffer.depth : Buffer → Nat
  | .text _ => 0
  | .scope _ _ d => d
  | .command _ _ d _ => d

/-- The newlines a buffer waits to print. -/
def Buffer.trail : Buffer → Str
  | .command _ _ _ tr => tr
  | _ => []

/-- After `n` characters. -/
structure Small (n : Nat) (s : State) : Prop where
  line : s.lineNo ≤ n + 1
  buffer : s.bufferLine ≤ s.lineNo
  depth : s.buffer.depth ≤ n
  size : s.buffer.size + (if s.escaped then 1 else 0) ≤ n
  trail : s.buffer.trail.length ≤ n

variable {A : Arith} {rec rec' : Str → Res (List Chunk)} {s : State}

theorem flushMA_eq (hr : Agree rec rec' s.buffer) (hl : s.bufferLine < u32Size) (h : Fine (flushM rec' s)) :
    flushMA A rec s = flushM rec' s := by
  unfold flushM at h ⊢
  unfold flushMA
  rw [flush_congr hr]
  cases hf : flush rec' s.buffer s.bufferLine s.chunks with
  | ok cs => rfl
  | error f =>
    rw [hf] at h
    simp only at h ⊢
    cases hs : checkedSub s.bufferLine 1 with
    | error p => rw [hs] at h; rw [sub_panic hs] at h; exact absurd rfl h.1
    | ok k =>
      rw [hs] at h
      rw [sub_eq A hl hs]
      exact addLineA_eq A h

theorem flushM_ok {s' : State} (h : flushM rec s = .ok s') : s'.bufferLine = s.lineNo ∧ s'.lineNo = s.lineNo ∧ s'.buffer = s.buffer := by
  unfold flushM at h
  split at h
  · cases h; exact ⟨rfl, rfl, rfl⟩
  · split at h
    · cases h
    · rename_i f _ _ _ _
      cases f <;> cases h

theorem flushMA_err {f : Fail} (hr : Agree rec rec' s.buffer) (hl : s.bufferLine < u32Size) (hx : flushM rec' s = .error f)
    (h : Fine (.error f : Res State)) : flushMA A rec s = .error f := by
  rw [flushMA_eq hr hl (by rw [hx]; exact h), hx]

theorem flushMA_ok {s' : State} (hr : Agree rec rec' s.buffer) (hl : s.bufferLine < u32Size) (hx : flushM rec' s = .ok s') :
    flushMA A rec s = .ok s' := by
  rw [flushMA_eq hr hl (by rw [hx]; exact ⟨by simp, by simp⟩), hx]

theorem sub_of_fine {α : Type} {a b : Nat} {f : Fail} (h : Fine (.error f : Res α)) : checkedSub a b ≠ .error f := by
  intro hc
  rw [sub_panic hc] at h
  exact h.1 rfl

theorem startCommandA_eq {c} (hl : s.bufferLine < u32Size) (h : Fine (startCommand rec' s c)) :
    startCommandA A rec s c = startCommand rec' s c := by
  unfold startCommand at h ⊢
  unfold startCommandA
  split
  · rfl
  · rename_i hc
    rw [if_neg hc] at h
    have hr : Agree rec rec' ({ s with buffer := Buffer.newCommand.push c } : State).buffer := by
      intro a ha
      simp [Buffer.newCommand, Buffer.push, Buffer.pushStr, Buffer.contents] at ha
    simp only
    cases hx : flushM rec' { s with buffer := Buffer.newCommand.push c } with
    | error f => rw [hx] at h; rw [flushMA_err hr hl hx (fine_error h)]
    | ok s' => rw [flushMA_ok hr hl hx]

theorem stepTextA_eq {n c} (hs : Small n s) (hn : n + 1 < u32Size) (hr : Agree rec rec' s.buffer) (h : Fine (stepText rec' s c)) :
    stepTextA A rec s c = stepText rec' s c := by
  have hb := hs.buffer
  have hl := hs.line
  unfold stepText at h ⊢
  unfold stepTextA
  split
  · rename_i he
    rw [if_pos he] at h
    cases hx : flushM rec' s with
    | error f => rw [hx] at h; rw [flushMA_err hr (by omega) hx (fine_error h)]
    | ok s' =>
      rw [hx] at h; rw [flushMA_ok hr (by omega) hx]
      obtain ⟨e1, e2, e3⟩ := flushM_ok hx
      exact startCommandA_eq (by omega) h
  · rename_i he
    rw [if_neg he] at h
    cases hv : ScopeVariant.fromOpening c with
    | none => rfl
    | some v =>
      rw [hv] at h
      simp only at h ⊢
      cases hx : flushM rec' s with
      | error f => rw [hx] at h; rw [flushMA_err hr (by omega) hx (fine_error h)]
      | ok s' => rw [flushMA_ok hr (by omega) hx]

theorem stepScopeA_eq {n c content variant depth} (hb : s.buffer = .scope content variant depth) (hs : Small n s)
    (hn : n + 1 < u32Size) (hr : Agree rec rec' s.buffer) (h : Fine (stepScope rec' s content variant depth c)) :
    stepScopeA A rec s content variant depth c = stepScope rec' s content variant depth c := by
  have hbl := hs.buffer
  have hl := hs.line
  have hd := hs.depth
  rw [hb] at hd hr
  simp only [Buffer.depth] at hd
  unfold stepScope at h ⊢
  unfold stepScopeA
  split
  · rfl
  · rename_i h1
    rw [if_neg h1] at h
    split
    · rw [A.add_exact _ _ (by omega)]
    · rename_i h2
      rw [if_neg h2] at h
      split
      · rename_i h3
        rw [if_pos h3] at h
        cases hc : checkedSub depth 1 with
        | error f => rw [hc] at h; exact absurd hc (sub_of_fine h)
        | ok d =>
          rw [hc] at h
          rw [sub_eq A (by omega) hc]
          simp only at h ⊢
          split
          · rename_i h4
            rw [if_pos h4] at h
            cases hx : flushM rec' { s with buffer := .scope content variant d } with
            | error f => rw [hx] at h; rw [flushMA_err (s := { s with buffer := .scope content variant d }) hr (by simp only; omega) hx (fine_error h)]
            | ok s' => rw [flushMA_ok (s := { s with buffer := .scope content variant d }) hr (by simp only; omega) hx]
          · rfl
      · rfl

theorem asU32_eq {t : Str} {n : Nat} (h : t.length ≤ n) (hn : n + 1 < u32Size) : asU32 (newlines t) = newlines t := by
  have : newlines t ≤ t.length := List.length_filter_le _ _
  exact Nat.mod_eq_of_lt (by omega)

theorem stepCommandA_eq {n c label scopes depth trailing} (hb : s.buffer = .command label scopes depth trailing) (hs : Small n s)
    (hn : n + 1 < u32Size) (hr : Agree rec rec' s.buffer) (h : Fine (stepCommand rec' s label scopes depth trailing c)) :
    stepCommandA A rec s label scopes depth trailing c = stepCommand rec' s label scopes depth trailing c := by
  have hbl := hs.buffer
  have hl := hs.line
  have hd := hs.depth
  have ht := hs.trail
  rw [hb] at hd ht
  simp only [Buffer.depth, Buffer.trail] at hd ht
  unfold stepCommand at h ⊢
  unfold stepCommandA
  rw [asU32_eq ht hn]
  split
  · rfl
  · rename_i h1
    rw [if_neg h1] at h
    split
    · rfl
    · rename_i h2
      rw [if_neg h2] at h
      split
      · rename_i h3
        rw [if_pos h3] at h
        cases hx : flushM rec' s with
        | error f => rw [hx] at h; rw [flushMA_err hr (by omega) hx (fine_error h)]
        | ok s' =>
          rw [hx] at h; rw [flushMA_ok hr (by omega) hx]
          obtain ⟨e1, e2, e3⟩ := flushM_ok hx
          simp only at h ⊢
          by_cases h4 : trailing.isEmpty = true
          · simp only [h4, if_true] at h ⊢
            exact startCommandA_eq (by simp only; omega) h
          · simp only [if_neg h4] at h ⊢
            cases hc : checkedSub s'.bufferLine (newlines trailing) with
            | error f => rw [hc] at h; exact absurd hc (sub_of_fine h)
            | ok k =>
              rw [hc] at h
              rw [sub_eq A (by omega) hc]
              simp only at h ⊢
              rw [flush_congr (rec := rec) (rec' := rec') (by simp [Buffer.newText, Buffer.pushStr, Buffer.contents])]
              cases hy : flush rec' (Buffer.newText.pushStr trailing) k s'.chunks with
              | error f => rfl
              | ok cs =>
                rw [hy] at h
                exact startCommandA_eq (by simp only; omega) h
      · rename_i h3
        rw [if_neg h3] at h
        split
        · rfl
        · rename_i h4
          rw [if_neg h4] at h
          split
          · rename_i h5
            rw [if_pos h5] at h
            cases hx : flushM rec' s with
            | error f => rw [hx] at h; rw [flushMA_err hr (by omega) hx (fine_error h)]
            | ok s' =>
              rw [hx] at h; rw [flushMA_ok hr (by omega) hx]
              obtain ⟨e1, e2, e3⟩ := flushM_ok hx
              simp only at h ⊢
              cases hc : checkedSub s'.lineNo (newlines trailing) with
              | error f => rw [hc] at h; exact absurd hc (sub_of_fine h)
              | ok k => rw [sub_eq A (by omega) hc]
          · rename_i h5
            rw [if_neg h5] at h
            by_cases hd0 : depth = 0
            · subst hd0
              simp only [ne_eq, not_true_eq_false, if_false] at h ⊢
              cases hcl : ScopeVariant.fromClosing c with
              | some v => rfl
              | none =>
                rw [hcl] at h
                simp only at h ⊢
                split
                · rfl
                · rename_i h7
                  rw [if_neg h7] at h
                  cases hx : flushM rec' s with
                  | error f => rw [hx] at h; rw [flushMA_err hr (by omega) hx (fine_error h)]
                  | ok s' => rw [flushMA_ok hr (by omega) hx]
            · simp only [ne_eq, hd0, not_false_eq_true, if_true] at h ⊢
              cases hg : scopes.getLast? with
              | none => rfl
              | some x =>
                obtain ⟨a, v, p⟩ := x
                simp only
                split
                · rw [A.add_exact _ _ (by omega)]
                · split
                  · rw [A.sub_exact _ _ (by omega) (by omega)]
                  · rfl

theorem stepBufferA_eq {n c} (hs : Small n s) (hn : n + 1 < u32Size) (hr : Agree rec rec' s.buffer) (h : Fine (stepBuffer rec' s c)) :
    stepBufferA A rec s c = stepBuffer rec' s c := by
  have fine : ∀ {r : Res State}, Fine (match r with
      | .error f => .error f
      | .ok s => .ok { s with escaped := false } : Res State) → Fine r := by
    intro r h
    cases r with
    | ok a => exact ⟨by simp, by simp⟩
    | error f => exact h
  unfold stepBuffer at h ⊢
  unfold stepBufferA
  cases hb : s.buffer with
  | text a => rw [hb] at h; simp only at h ⊢; rw [stepTextA_eq hs hn hr (fine h)]; rfl
  | scope a v d => rw [hb] at h; simp only at h ⊢; rw [stepScopeA_eq hb hs hn hr (fine h)]; rfl
  | command l sc d tr => rw [hb] at h; simp only at h ⊢; rw [stepCommandA_eq hb hs hn hr (fine h)]; rfl

theorem pushLast_len (sc : List ScopeBuf) (a : Str) (h : sc.isEmpty = false) : scLen (pushLastContent sc a) = scLen sc + a.length := by
  induction sc with
  | nil => cases h
  | cons x sc ih =>
    obtain ⟨u, v, w⟩ := x
    cases sc with
    | nil => simp [pushLastContent, scLen]; omega
    | cons y r => simp only [pushLastContent, scLen, ih rfl]; omega

theorem size_pushStr (b : Buffer) (a : Str) : (b.pushStr a).size ≤ b.size + a.length := by
  cases b with
  | text x => simp [Buffer.pushStr, Buffer.size]
  | scope x v d => simp [Buffer.pushStr, Buffer.size]; omega
  | command l sc d tr =>
    simp only [Buffer.pushStr]
    split
    · simp [Buffer.size]
    · rename_i h
      simp [Buffer.size, pushLast_len sc a (by simpa using h)]

theorem size_push (b : Buffer) (c : Char) : (b.push c).size ≤ b.size + 1 := by
  have := size_pushStr b [c]
  simpa [Buffer.push] using this

theorem depth_pushStr (b : Buffer) (a : Str) : (b.pushStr a).depth = b.depth := by
  cases b with
  | text x => rfl
  | scope x v d => rfl
  | command l sc d tr => simp only [Buffer.pushStr]; split <;> rfl

theorem trail_pushStr (b : Buffer) (a : Str) : (b.pushStr a).trail = b.trail := by
  cases b with
  | text x => rfl
  | scope x v d => rfl
  | command l sc d tr => simp only [Buffer.pushStr]; split <;> rfl

theorem depth_push (b : Buffer) (c : Char) : (b.push c).depth = b.depth := depth_pushStr b _
theorem trail_push (b : Buffer) (c : Char) : (b.push c).trail = b.trail := trail_pushStr b _

/-- What a step leaves behind. -/
structure StepGrown (n : Nat) (s s' : State) : Prop where
  line : s'.lineNo = s.lineNo
  buffer : s'.bufferLine ≤ s'.lineNo
  depth : s'.buffer.depth ≤ n + 1
  size : s'.buffer.size ≤ n + 1
  trail : s'.buffer.trail.length ≤ n + 1

theorem startCommand_after {n c s'} (hb : s.bufferLine ≤ s.lineNo) (h : startCommand rec s c = .ok s') : StepGrown n s s' := by
  unfold startCommand at h
  simp only at h
  split at h
  · cases h; exact ⟨rfl, hb, by simp [Buffer.newCommand, Buffer.push, Buffer.pushStr, Buffer.depth],
      by simp [Buffer.newCommand, Buffer.push, Buffer.pushStr, Buffer.size, scLen],
      by simp [Buffer.newCommand, Buffer.push, Buffer.pushStr, Buffer.trail]⟩
  · split at h
    · cases h
    · rename_i hx
      obtain ⟨e1, e2, e3⟩ := flushM_ok hx
      cases h
      exact ⟨e2, by simp only at e1 e2 ⊢; omega, by simp [Buffer.newText, Buffer.depth], by simp [Buffer.newText, Buffer.size], by simp [Buffer.newText, Buffer.trail]⟩

theorem stepText_after {n c s'} (hs : s.bufferLine ≤ s.lineNo ∧ s.buffer.depth ≤ n ∧ s.buffer.size + (if s.escaped then 1 else 0) ≤ n ∧ s.buffer.trail.length ≤ n)
    (h : stepText rec s c = .ok s') : StepGrown n s s' := by
  unfold stepText at h
  split at h
  · split at h
    · cases h
    · rename_i hx
      obtain ⟨e1, e2, e3⟩ := flushM_ok hx
      have := startCommand_after (n := n) (by omega) h
      exact ⟨by rw [this.line, e2], this.buffer, this.depth, this.size, this.trail⟩
  · split at h
    · split at h
      · cases h
      · rename_i hx
        obtain ⟨e1, e2, e3⟩ := flushM_ok hx
        cases h
        exact ⟨e2, by simp only; omega, by simp [Buffer.newScope, Buffer.depth], by simp [Buffer.newScope, Buffer.size], by simp [Buffer.newScope, Buffer.trail]⟩
    · cases h
      have := size_push s.buffer c
      exact ⟨rfl, hs.1, by simp only [depth_push]; omega, by simp only; omega, by simp only [trail_push]; omega⟩

theorem stepScope_after {n c content variant depth s'} (hb : s.buffer = .scope content variant depth)
    (hs : s.bufferLine ≤ s.lineNo ∧ s.buffer.depth ≤ n ∧ s.buffer.size + (if s.escaped then 1 else 0) ≤ n ∧ s.buffer.trail.length ≤ n)
    (h : stepScope rec s content variant depth c = .ok s') : StepGrown n s s' := by
  obtain ⟨h1, h2, h3, h4⟩ := hs
  unfold stepScope at h
  split at h
  · rename_i he
    cases h
    rw [if_pos he.2] at h3
    have := size_push s.buffer '\\'
    have := size_push (s.buffer.push '\\') c
    exact ⟨rfl, h1, by simp only [depth_push]; omega, by simp only; omega, by simp only [trail_push]; omega⟩
  · rw [hb] at h2 h3 h4
    simp only [Buffer.depth, Buffer.size, Buffer.trail] at h2 h3 h4
    split at h
    · cases h
      exact ⟨rfl, h1, by simp [Buffer.push, Buffer.pushStr, Buffer.depth]; omega, by simp [Buffer.push, Buffer.pushStr, Buffer.size]; omega, by simp [Buffer.push, Buffer.pushStr, Buffer.trail]⟩
    · split at h
      · split at h
        · cases h
        · rename_i d hd
          have hd' : d ≤ depth := by
            unfold checkedSub at hd
            split at hd <;> cases hd
            omega
          split at h
          · split at h
            · cases h
            · rename_i hx
              obtain ⟨e1, e2, e3⟩ := flushM_ok hx
              cases h
              simp only at e1 e2
              exact ⟨e2, by simp only; omega, by simp [Buffer.newText, Buffer.depth], by simp [Buffer.newText, Buffer.size], by simp [Buffer.newText, Buffer.trail]⟩
          · cases h
            exact ⟨rfl, h1, by simp [Buffer.push, Buffer.pushStr, Buffer.depth]; omega, by simp [Buffer.push, Buffer.pushStr, Buffer.size]; omega, by simp [Buffer.push, Buffer.pushStr, Buffer.trail]⟩
      · cases h
        have := size_push s.buffer c
        have e : s.buffer.size = List.length content + 1 := by rw [hb]; rfl
        have e' : s.buffer.depth = depth := by rw [hb]; rfl
        have e'' : s.buffer.trail = [] := by rw [hb]; rfl
        exact ⟨rfl, h1, by simp only [depth_push]; omega, by simp only; omega, by simp only [trail_push, e'']; simp⟩

theorem stepCommand_after {n c label scopes depth trailing s'} (hb : s.buffer = .command label scopes depth trailing)
    (hs : s.bufferLine ≤ s.lineNo ∧ s.buffer.depth ≤ n ∧ s.buffer.size + (if s.escaped then 1 else 0) ≤ n ∧ s.buffer.trail.length ≤ n)
    (h : stepCommand rec s label scopes depth trailing c = .ok s') : StepGrown n s s' := by
  obtain ⟨h1, h2, h3, h4⟩ := hs
  have p1 := size_push s.buffer c
  have p2 := size_push s.buffer '\\'
  have p3 := size_push (s.buffer.push '\\') c
  have i2 := h2
  have i3 := h3
  have i4 := h4
  rw [hb] at h2 h3 h4
  simp only [Buffer.depth, Buffer.size, Buffer.trail] at h2 h3 h4
  have push : StepGrown n s { s with buffer := s.buffer.push c } :=
    ⟨rfl, h1, by simp only [depth_push]; omega, by simp only; omega, by simp only [trail_push]; omega⟩
  unfold stepCommand at h
  split at h
  · split at h
    · cases h
      exact ⟨rfl, h1, by simp [Buffer.pushScope, Buffer.depth], by simp [Buffer.pushScope, Buffer.size, scLen_append, scLen]; omega,
        by simp [Buffer.pushScope, Buffer.trail]⟩
    · cases h
  · split at h
    · cases h
      exact ⟨rfl, h1, by simp only [Buffer.depth]; omega, by simp only [Buffer.size]; omega, by simp [Buffer.trail]; omega⟩
    · split at h
      · split at h
        · cases h
        · rename_i hx
          obtain ⟨e1, e2, e3⟩ := flushM_ok hx
          simp only at h
          split at h
          · cases h
          · rename_i t ht
            have ht' : t.lineNo = s.lineNo := by
              split at ht
              · cases ht; exact e2
              · split at ht
                · cases ht
                · split at ht
                  · cases ht
                  · cases ht; exact e2
            have := startCommand_after (n := n) (s := { t with bufferLine := t.lineNo }) (Nat.le_refl _) h
            exact ⟨by rw [this.line]; exact ht', this.buffer, this.depth, this.size, this.trail⟩
      · split at h
        · rename_i he
          cases h
          rw [if_pos he.2] at h3 i3
          exact ⟨rfl, h1, by simp only [depth_push]; omega, by simp only; omega, by simp only [trail_push]; omega⟩
        · split at h
          · split at h
            · cases h
            · rename_i hx
              obtain ⟨e1, e2, e3⟩ := flushM_ok hx
              split at h
              · cases h
              · rename_i k hk
                have hk' : k ≤ s.lineNo := by
                  unfold checkedSub at hk
                  split at hk <;> cases hk
                  omega
                cases h
                exact ⟨e2, by simp only; omega, by simp [Buffer.newText, Buffer.push, Buffer.pushStr, Buffer.depth],
                  by simp [Buffer.newText, Buffer.push, Buffer.pushStr, Buffer.size],
                  by simp [Buffer.newText, Buffer.push, Buffer.pushStr, Buffer.trail]⟩
          · split at h
            · split at h
              · cases h
                exact ⟨rfl, h1, by simp only [Buffer.depth]; omega, by simp only [Buffer.size]; omega, by simp only [Buffer.trail]; omega⟩
              · split at h
                · cases h
                  exact ⟨rfl, h1, by simp only [Buffer.depth]; omega, by simp only [Buffer.size]; omega, by simp only [Buffer.trail]; omega⟩
                · cases h; exact push
            · split at h
              · cases h
              · split at h
                · cases h
                · split at h
                  · cases h; exact push
                  · split at h
                    · cases h
                    · rename_i hx
                      obtain ⟨e1, e2, e3⟩ := flushM_ok hx
                      cases h
                      exact ⟨e2, by simp only; omega, by simp [Buffer.newText, Buffer.push, Buffer.pushStr, Buffer.depth],
                        by simp [Buffer.newText, Buffer.push, Buffer.pushStr, Buffer.size],
                        by simp [Buffer.newText, Buffer.push, Buffer.pushStr, Buffer.trail]⟩

theorem stepBuffer_small {n c s'} (hl : s.lineNo ≤ n + 2)
    (hs : s.bufferLine ≤ s.lineNo ∧ s.buffer.depth ≤ n ∧ s.buffer.size + (if s.escaped then 1 else 0) ≤ n ∧ s.buffer.trail.length ≤ n)
    (h : stepBuffer rec s c = .ok s') : Small (n + 1) s' := by
  have fin : ∀ {t : State}, StepGrown n s t → Small (n + 1) { t with escaped := false } := by
    intro t ht
    exact ⟨by simp only [ht.line]; omega, ht.buffer, ht.depth, by simpa using ht.size, ht.trail⟩
  unfold stepBuffer at h
  cases hb : s.buffer with
  | text a =>
    rw [hb] at h
    simp only at h
    split at h
    · cases h
    · rename_i t ht
      cases h
      exact fin (stepText_after hs ht)
  | scope a v d =>
    rw [hb] at h
    simp only at h
    split at h
    · cases h
    · rename_i t ht
      cases h
      exact fin (stepScope_after hb hs ht)
  | command l sc d tr =>
    rw [hb] at h
    simp only at h
    split at h
    · cases h
    · rename_i t ht
      cases h
      exact fin (stepCommand_after hb hs ht)

theorem step_small {n c s'} (hs : Small n s) (h : step rec s c = .ok s') : Small (n + 1) s' := by
  have h1 := hs.line
  have h2 := hs.buffer
  have h3 := hs.depth
  have h4 := hs.size
  have h5 := hs.trail
  unfold step at h
  split at h
  · exact stepBuffer_small (s := { s with comment := false, lineNo := s.lineNo + 1 }) (by simp only; omega)
      ⟨by simp only; omega, h3, h4, h5⟩ h
  · split at h
    · cases h; exact ⟨by simp only; omega, h2, by simp only; omega, by simp only; omega, by simp only; omega⟩
    · split at h
      · rename_i he
        cases h
        rw [if_neg (by simp [he.2])] at h4
        exact ⟨by simp only; omega, h2, by simp only; omega, by simp; omega, by simp only; omega⟩
      · split at h
        · cases h; exact ⟨by omega, h2, by omega, by omega, by omega⟩
        · exact stepBuffer_small (by omega) ⟨h2, h3, h4, h5⟩ h

theorem stepA_eq {n c} (hs : Small n s) (hn : n + 2 < u32Size) (hr : Agree rec rec' s.buffer) (h : Fine (step rec' s c)) :
    stepA A rec s c = step rec' s c := by
  have h1 := hs.line
  have h2 := hs.buffer
  have h3 := hs.depth
  have h4 := hs.size
  have h5 := hs.trail
  unfold step at h ⊢
  unfold stepA
  split
  · rename_i hc
    rw [if_pos hc] at h
    rw [A.add_exact _ _ (by omega)]
    exact stepBufferA_eq (n := n + 1) (s := { s with comment := false, lineNo := s.lineNo + 1 })
      ⟨by simp only; omega, by simp only; omega, by simp only; omega, by simp only; omega, by simp only; omega⟩ hn hr h
  · rename_i hc
    rw [if_neg hc] at h
    split
    · rfl
    · rename_i hc
      rw [if_neg hc] at h
      split
      · rfl
      · rename_i hc
        rw [if_neg hc] at h
        split
        · rfl
        · rename_i hc
          rw [if_neg hc] at h
          exact stepBufferA_eq hs (by omega) hr h

/-- The loop and what follows it. -/
theorem runA_eq {N : Nat} (hN : N + 1 < u32Size) (hr : ∀ a : Str, a.length < N → rec a = rec' a) (cs : Str) {n : Nat} {s : State} (hs : Small n s)
    (hl : n + cs.length ≤ N) (h : Fine (match run rec' cs s with
      | .error f => .error f
      | .ok st => finish rec' st)) :
    (match runA A rec cs s with
      | .error f => .error f
      | .ok st => finishA A rec st : Res (List Chunk)) = (match run rec' cs s with
      | .error f => .error f
      | .ok st => finish rec' st) := by
  have ag : ∀ {t : State} {m}, Small m t → m ≤ N → Agree rec rec' t.buffer := by
    intro t m ht hm a ha
    have := ht.size
    have := contents_lt ha
    exact hr a (by omega)
  induction cs generalizing n s with
  | nil =>
    simp only [run, runA] at h ⊢
    have h1 := hs.line
    have h2 := hs.buffer
    simp only [List.length_nil] at hl
    unfold finish at h ⊢
    unfold finishA
    have key : Fine (match flushM rec' s with
        | .error f => .error f
        | .ok s => .ok s.chunks : Res (List Chunk)) → (match flushMA A rec s with
        | .error f => .error f
        | .ok s => .ok s.chunks : Res (List Chunk)) = (match flushM rec' s with
        | .error f => .error f
        | .ok s => .ok s.chunks : Res (List Chunk)) := by
      intro h
      cases hx : flushM rec' s with
      | error f => rw [hx] at h; rw [flushMA_err (ag hs (by omega)) (by omega) hx (fine_error h)]
      | ok t => rw [flushMA_ok (ag hs (by omega)) (by omega) hx]
    cases hb : s.buffer with
    | text a => rw [hb] at h; exact key h
    | scope a v d => rw [hb] at h; exact key h
    | command l sc d tr =>
      rw [hb] at h
      simp only at h ⊢
      split
      · rename_i he
        rw [if_pos he] at h
        exact key h
      · rename_i he
        rw [if_neg he] at h
        cases hx : flushM rec' s with
        | error f => rw [hx] at h; rw [flushMA_err (ag hs (by omega)) (by omega) hx (fine_error h)]
        | ok t =>
          rw [hx] at h
          rw [flushMA_ok (ag hs (by omega)) (by omega) hx]
          obtain ⟨e1, e2, e3⟩ := flushM_ok hx
          simp only at h ⊢
          have hag : Agree rec rec' ({ t with buffer := Buffer.newText.pushStr tr } : State).buffer := by
            intro a ha
            simp [Buffer.newText, Buffer.pushStr, Buffer.contents] at ha
          cases hy : flushM rec' { t with buffer := Buffer.newText.pushStr tr } with
          | error f => rw [hy] at h; rw [flushMA_err hag (by simp only; omega) hy (fine_error h)]
          | ok u => rw [flushMA_ok hag (by simp only; omega) hy]
  | cons c cs ih =>
    simp only [List.length_cons] at hl
    simp only [run, runA] at h ⊢
    cases hx : step rec' s c with
    | error f =>
      rw [hx] at h
      rw [stepA_eq hs (by omega) (ag hs (by omega)) (by rw [hx]; exact fine_error h), hx]
    | ok t =>
      rw [hx] at h
      rw [stepA_eq hs (by omega) (ag hs (by omega)) (by rw [hx]; exact ⟨by simp, by simp⟩), hx]
      exact ih (step_small hs hx) (by omega) h

theorem fromStr_fine {s : Str} (h : s.length + 1 < u32Size) : Fine (fromStr s) := by
  refine ⟨(fromStr_total s).1, fun e he => ?_⟩
  have := fromStr_error_line he
  have : newlines s ≤ s.length := List.length_filter_le _ _
  omega

theorem parseFuelA_eq (A : Arith) (n : Nat) (s : Str) (hn : s.length < n) (h : s.length + 1 < u32Size) :
    parseFuelA A n s = parseFuel n s := by
  induction n generalizing s with
  | zero => omega
  | succ n ih =>
    have hf := fromStr_fine h
    rw [fromStr, parseFuel_adequate _ (n + 1) s (by omega) hn] at hf
    simp only [parseFuel] at hf ⊢
    simp only [parseFuelA]
    exact runA_eq h (fun a ha => ih a (by omega) (by omega)) s (n := 0)
      ⟨by simp [State.init], by simp [State.init], by simp [State.init, Buffer.depth], by simp [State.init, Buffer.size], by simp [State.init, Buffer.trail]⟩
      (by omega) hf

theorem fromStrA_eq (A : Arith) {s : Str} (h : s.length + 1 < u32Size) : fromStrA A s = fromStr s :=
  parseFuelA_eq A _ s (by omega) h

end Ast1
end LatexAst
