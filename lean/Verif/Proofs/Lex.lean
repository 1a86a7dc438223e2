import Verif.Model.Parser1
import Verif.Proofs.Push

/-!
# A panic-free, accumulator-free form of the stage-1 parser

`lex` computes the characters the parser's buffer sees, with their `escaped` flag; `trun` is the parser on
tokens, returning only the chunks produced from here on. `parseFuel_succ` shows that the model's parser
is `trun ∘ lex`. All properties of stage 1 are then proved about `trun`.
-/

namespace LatexAst.Ast1

/-- A character reaching the buffer, with the value of `escaped` when it does. -/
abbrev Tok := Bool × Char

/-- The tokens of a string, from given values of `escaped` and `comment`. -/
def lex : Bool → Bool → Str → List Tok
  | _, _, [] => []
  | e, cm, c :: cs =>
    if c = '\n' then (e, c) :: lex false false cs
    else if c = '%' ∧ e = false then lex e true cs
    else if c = '\\' ∧ e = false then lex true cm cs
    else if cm then lex e cm cs
    else (e, c) :: lex false false cs

/-- A flushed text buffer. -/
def textC (a : Str) (bl : Nat) : List Chunk := if a = [] then [] else [.mk bl (.text a)]

/-- A flushed command buffer. -/
def flushC (rec : Str → Res (List Chunk)) (l : Str) (sc : List ScopeBuf) (bl : Nat) :
    Res (List Chunk) :=
  match evalArgs rec sc with
  | .error f => addLine (bl - 1) (.error f)
  | .ok args => .ok [.mk bl (.command (.mk l args))]

/-- Chunks emitted when `\c` starts. -/
def startC (c : Char) (ln : Nat) : List Chunk :=
  if isAsciiAlphabetic c then [] else [.mk ln (.command (.mk [c] []))]
/-- Buffer after `\c` starts. -/
def startB (c : Char) : Buffer :=
  if isAsciiAlphabetic c then .command [c] [] 0 [] else .text []

/-- Chunks emitted, new buffer, new buffer line. -/
abbrev TOut := List Chunk × Buffer × Nat

/-- One token (`ln` is the line number after counting the token). -/
def tstep (rec : Str → Res (List Chunk)) (b : Buffer) (bl ln : Nat) (t : Tok) : Res TOut :=
  match b with
  | .text a =>
    if t.1 then .ok (textC a bl ++ startC t.2 ln, startB t.2, ln)
    else match ScopeVariant.fromOpening t.2 with
      | some v => .ok (textC a bl, .scope [] v 1, ln)
      | none => .ok ([], .text (a ++ [t.2]), bl)
  | .scope a v d =>
    if t.1 then .ok ([], .scope (a ++ ['\\', t.2]) v d, bl)
    else if v.opening = t.2 then .ok ([], .scope (a ++ [t.2]) v (d + 1), bl)
    else if v.closing = t.2 then
      if d = 1 then
        match rec a with
        | .error f => addLine (bl - 1) (.error f)
        | .ok inner => .ok ([.mk bl (.scope (.mk inner .curly))], .text [], ln)
      else .ok ([], .scope (a ++ [t.2]) v (d - 1), bl)
    else .ok ([], .scope (a ++ [t.2]) v d, bl)
  | .command l sc 0 tr =>
    match ScopeVariant.fromOpening t.2 with
    | some v => .ok ([], .command l (sc ++ [([], v, tr)]) 1 [], bl)
    | none =>
      if isWhitespace t.2 then .ok ([], .command l sc 0 (tr ++ [t.2]), bl)
      else if t.1 then
        match flushC rec l sc bl with
        | .error f => .error f
        | .ok cs => .ok (cs ++ textC tr (ln - newlines tr) ++ startC t.2 ln, startB t.2, ln)
      else if tr ≠ [] then
        match flushC rec l sc bl with
        | .error f => .error f
        | .ok cs => .ok (cs, .text (tr ++ [t.2]), ln - newlines tr)
      else
        match ScopeVariant.fromClosing t.2 with
        | some v => fail ln (.unexpectedClosing v)
        | none =>
          if sc = [] then .ok ([], .command (l ++ [t.2]) [] 0 [], bl)
          else
            match flushC rec l sc bl with
            | .error f => .error f
            | .ok cs => .ok (cs, .text [t.2], ln)
  | .command l sc (d + 1) tr =>
    match sc.getLast? with
    | none => panicked
    | some (_, v, _) =>
      if t.1 then .ok ([], .command l (pushLastContent sc ['\\', t.2]) (d + 1) tr, bl)
      else if v.opening = t.2 then .ok ([], .command l sc (d + 2) tr, bl)
      else if v.closing = t.2 then .ok ([], .command l sc d tr, bl)
      else .ok ([], .command l (pushLastContent sc [t.2]) (d + 1) tr, bl)

/-- End of input. -/
def tfinish (rec : Str → Res (List Chunk)) (b : Buffer) (bl ln : Nat) : Res (List Chunk) :=
  match b with
  | .text a => .ok (textC a bl)
  | .scope _ v _ => fail bl (.unclosedScope v)
  | .command l sc 0 tr =>
    match flushC rec l sc bl with
    | .error f => .error f
    | .ok cs => .ok (cs ++ textC tr ln)
  | .command _ sc (_ + 1) _ =>
    match sc.getLast? with
    | none => panicked
    | some (_, v, _) => fail bl (.unclosedArgument v)

/-- The line after a token. -/
def lnAfter (ln : Nat) (t : Tok) : Nat := if t.2 = '\n' then ln + 1 else ln

/-- The parser on tokens. -/
def trun (rec : Str → Res (List Chunk)) : List Tok → Buffer → Nat → Nat → Res (List Chunk)
  | [], b, bl, ln => tfinish rec b bl ln
  | t :: ts, b, bl, ln =>
    match tstep rec b bl (lnAfter ln t) t with
    | .error f => .error f
    | .ok (new, b', bl') =>
      match trun rec ts b' bl' (lnAfter ln t) with
      | .error f => .error f
      | .ok rest => .ok (new ++ rest)

/-- The characters held by a buffer. -/
def rawScopes : List ScopeBuf → Str
  | [] => []
  | (a, _, p) :: r => p ++ (a ++ rawScopes r)
def Buffer.raw : Buffer → Str
  | .text a => a
  | .scope a _ _ => a
  | .command l sc _ tr => l ++ (rawScopes sc ++ tr)

/-- The parser's control invariant: what keeps the `unwrap`s and subtractions safe. -/
def Buffer.Ctl : Buffer → Prop
  | .text _ => True
  | .scope _ _ d => 1 ≤ d
  | .command l sc d tr => l ≠ [] ∧ (d ≠ 0 → sc ≠ [] ∧ tr = [])

theorem rawScopes_append (a b : List ScopeBuf) : rawScopes (a ++ b) = rawScopes a ++ rawScopes b := by
  induction a with
  | nil => rfl
  | cons x a ih => obtain ⟨u, v, w⟩ := x; simp [rawScopes, ih]

theorem pushLastContent_snoc (init : List ScopeBuf) (a : Str) (v : ScopeVariant) (p s : Str) :
    pushLastContent (init ++ [(a, v, p)]) s = init ++ [(a ++ s, v, p)] := by
  induction init with
  | nil => rfl
  | cons x init ih =>
    cases init with
    | nil => rfl
    | cons y init => 
      simp only [List.cons_append] at ih ⊢
      rw [pushLastContent, ih]

theorem checkedSub_ok {a b : Nat} (h : b ≤ a) : checkedSub a b = .ok (a - b) := by
  simp [checkedSub, h]

theorem fromOpening_some_iff {c : Char} {v : ScopeVariant} :
    ScopeVariant.fromOpening c = some v ↔ c = v.opening := by
  unfold ScopeVariant.fromOpening ScopeVariant.opening
  cases v <;> simp <;> grind
theorem fromClosing_some_iff {c : Char} {v : ScopeVariant} :
    ScopeVariant.fromClosing c = some v ↔ c = v.closing := by
  unfold ScopeVariant.fromClosing ScopeVariant.closing
  cases v <;> simp <;> grind
theorem isOpening_iff (c : Char) :
    ScopeVariant.isOpening c = true ↔ (ScopeVariant.fromOpening c).isSome = true := by
  unfold ScopeVariant.isOpening ScopeVariant.fromOpening
  simp only [Bool.or_eq_true, beq_iff_eq]
  grind

/-- Lift a token result to the parser's state. -/
def lift (s : State) : Res TOut → Res State
  | .error f => .error f
  | .ok (new, b, bl) => .ok ⟨s.chunks ++ new, s.lineNo, false, s.comment, bl, b⟩

theorem flush_text (rec : Str → Res (List Chunk)) (a : Str) (bl : Nat) (cs : List Chunk) :
    flush rec (.text a) bl cs = .ok (cs ++ textC a bl) := by
  cases a <;> simp [flush, textC]

theorem flush_command0 (rec : Str → Res (List Chunk)) (l : Str) (sc tr) (bl : Nat) (cs : List Chunk) :
    flush rec (.command l sc 0 tr) bl cs =
      (match evalArgs rec sc with
       | .error f => .error f
       | .ok args => .ok (cs ++ [.mk bl (.command (.mk l args))])) := by
  simp only [flush, ne_eq, not_true_eq_false, if_false]
  rcases evalArgs rec sc with f | args <;> rfl

theorem stepBuffer_eq (rec : Str → Res (List Chunk)) (s : State) (c : Char)
    (hb : s.buffer.Ctl) (hl : 1 ≤ s.bufferLine)
    (hn : ∀ l sc tr, s.buffer = .command l sc 0 tr → newlines tr ≤ s.lineNo) :
    stepBuffer rec s c = lift s (tstep rec s.buffer s.bufferLine s.lineNo (s.escaped, c)) := by
  obtain ⟨chunks, ln, esc, cm, bl, b⟩ := s
  simp only at hb hl hn
  have hstart : ∀ (cs : List Chunk), startCommand rec ⟨cs, ln, esc, cm, ln, b⟩ c = 
      .ok ⟨cs ++ startC c ln, ln, esc, cm, ln, startB c⟩ := by
    intro cs
    simp only [startCommand, startC, startB]
    by_cases h : isAsciiAlphabetic c
    · simp [h, Buffer.newCommand, Buffer.push, Buffer.pushStr]
    · simp [h, Buffer.newCommand, Buffer.push, Buffer.pushStr, flushM, flush_command0, evalArgs,
        Buffer.newText]
  rcases b with ⟨a, v, d⟩ | ⟨l, sc, d, tr⟩ | ⟨a⟩
  · simp only [Buffer.Ctl] at hb
    have hd : d ≠ 0 := by omega
    simp only [stepBuffer, stepScope, tstep]
    by_cases he : esc = true
    · simp [he, hd, lift, Buffer.push, Buffer.pushStr]
    · obtain rfl : esc = false := by simpa using he
      simp only [Bool.false_eq_true, and_false, if_false]
      by_cases ho : v.opening = c
      · simp [ho, lift, Buffer.push, Buffer.pushStr]
      · simp only [ho, if_false]
        by_cases hc : v.closing = c
        · simp only [hc, if_true, checkedSub_ok hb]
          by_cases h1 : d = 1
          · subst h1
            simp only [Nat.sub_self, if_true, flushM, flush, ne_eq, not_true_eq_false, if_false]
            rcases rec a with f | inner
            · simp only [checkedSub_ok hl]
              rcases f with e | _ | _ <;> simp [addLine, lift]
            · simp [lift, Buffer.newText]
          · have : ¬ d - 1 = 0 := by omega
            simp [h1, this, lift, Buffer.push, Buffer.pushStr]
        · simp [hc, lift, Buffer.push, Buffer.pushStr]
  · simp only [Buffer.Ctl] at hb
    simp only [stepBuffer, stepCommand]
    cases d with
    | zero =>
      simp only [true_and, not_true_eq_false, false_and, if_false, tstep, ne_eq]
      rcases ho : ScopeVariant.fromOpening c with _ | v
      · have : ¬ ScopeVariant.isOpening c = true := by rw [isOpening_iff, ho]; simp
        simp only [this, if_false]
        by_cases hw : isWhitespace c = true
        · simp [hw, lift]
        · have hf : flushM rec ⟨chunks, ln, esc, cm, bl, .command l sc 0 tr⟩ =
              (match flushC rec l sc bl with
               | .error f => .error f
               | .ok cs => .ok ⟨chunks ++ cs, ln, esc, cm, ln, .command l sc 0 tr⟩) := by
            simp only [flushM, flush_command0, flushC]
            rcases evalArgs rec sc with f | args
            · simp only [checkedSub_ok hl]
              rcases f with e | _ | _ <;> rfl
            · rfl
          simp only [hw, if_false, hf]
          have hnl := hn l sc tr rfl
          by_cases he : esc = true
          · subst he
            simp only [if_true]
            rcases flushC rec l sc bl with f | cs
            · rfl
            · simp only
              cases tr with
              | nil =>
                simp only [List.isEmpty_nil, if_true, hstart]
                simp [lift, textC]
              | cons x tr =>
                simp only [List.isEmpty_cons, Bool.false_eq_true, if_false]
                simp only [checkedSub_ok hnl, Buffer.newText, Buffer.pushStr, List.nil_append,
                  flush_text, hstart]
                simp [lift]
          · obtain rfl : esc = false := by simpa using he
            simp only [Bool.false_eq_true, if_false]
            cases tr with
            | cons x tr =>
              simp only [List.isEmpty_cons, if_true, not_false_eq_true, reduceCtorEq]
              rcases flushC rec l sc bl with f | cs
              · rfl
              · simp only [checkedSub_ok hnl]
                simp [lift, Buffer.newText, Buffer.pushStr, Buffer.push]
            | nil =>
              simp only [List.isEmpty_nil, Bool.true_eq_false, if_false, not_true_eq_false]
              rcases ScopeVariant.fromClosing c with _ | v
              · cases sc with
                | nil => simp [lift, Buffer.pushStr, Buffer.push]
                | cons y sc =>
                  simp only [List.isEmpty_cons, Bool.false_eq_true, if_false, reduceCtorEq]
                  rcases flushC rec l (y :: sc) bl with f | cs
                  · rfl
                  · simp [lift, Buffer.newText, Buffer.pushStr, Buffer.push]
              · simp [lift, fail]
      · have : ScopeVariant.isOpening c = true := by rw [isOpening_iff, ho]; simp
        simp [this, lift, Buffer.pushScope]
    | succ d =>
      have hd : (d + 1 ≠ 0) := by omega
      obtain ⟨hs, ht⟩ := hb.2 hd
      rcases hg : sc.getLast? with _ | ⟨a, v, p⟩
      · simp at hg; exact absurd hg hs
      · have hemp : sc.isEmpty = false := by cases sc <;> simp_all
        have hne : ∀ s : Str, (pushLastContent sc s).isEmpty = false := by
          intro s
          rw [eq_dropLast_append hg, pushLastContent_snoc]; simp
        simp only [tstep, hg]
        by_cases he : esc = true
        · simp [he, lift, Buffer.pushStr, Buffer.push, hemp, hne]
          rw [eq_dropLast_append hg, pushLastContent_snoc, pushLastContent_snoc, pushLastContent_snoc]
          simp
        · by_cases ho : v.opening = c
          · simp [he, ho, lift]
          · by_cases hc : v.closing = c
            · simp [he, ho, hc, lift]
            · simp [he, ho, hc, lift, Buffer.pushStr, Buffer.push, hemp]
  · simp only [stepBuffer, stepText, tstep]
    have hf : flushM rec ⟨chunks, ln, esc, cm, bl, .text a⟩ =
        .ok ⟨chunks ++ textC a bl, ln, esc, cm, ln, .text a⟩ := by
      simp [flushM, flush_text]
    by_cases he : esc = true
    · subst he
      simp only [if_true, hf, hstart]
      simp [lift]
    · obtain rfl : esc = false := by simpa using he
      simp only [Bool.false_eq_true, if_false]
      rcases ScopeVariant.fromOpening c with _ | v
      · simp [lift, Buffer.pushStr, Buffer.push]
      · simp [hf, lift, Buffer.newScope]

/-! ## Successful and failing steps as relations -/

/-- A successful token step; the constructors are the branches of the Rust `match`. -/
inductive TStep (rec : Str → Res (List Chunk)) (bl ln : Nat) :
    Buffer → Tok → List Chunk → Buffer → Nat → Prop
  | tEsc (a c) : TStep rec bl ln (.text a) (true, c) (textC a bl ++ startC c ln) (startB c) ln
  | tOpen (a) (v : ScopeVariant) :
      TStep rec bl ln (.text a) (false, v.opening) (textC a bl) (.scope [] v 1) ln
  | tChar (a c) (h : ScopeVariant.fromOpening c = none) :
      TStep rec bl ln (.text a) (false, c) [] (.text (a ++ [c])) bl
  | sEsc (a v d c) : TStep rec bl ln (.scope a v d) (true, c) [] (.scope (a ++ ['\\', c]) v d) bl
  | sOpen (a) (v : ScopeVariant) (d) :
      TStep rec bl ln (.scope a v d) (false, v.opening) [] (.scope (a ++ [v.opening]) v (d + 1)) bl
  | sEnd (a) (v : ScopeVariant) (inner) (h : rec a = .ok inner) :
      TStep rec bl ln (.scope a v 1) (false, v.closing) [.mk bl (.scope (.mk inner .curly))]
        (.text []) ln
  | sClose (a) (v : ScopeVariant) (d) (hd : 2 ≤ d) :
      TStep rec bl ln (.scope a v d) (false, v.closing) [] (.scope (a ++ [v.closing]) v (d - 1)) bl
  | sChar (a v d c) (ho : ScopeVariant.opening v ≠ c) (hc : ScopeVariant.closing v ≠ c) :
      TStep rec bl ln (.scope a v d) (false, c) [] (.scope (a ++ [c]) v d) bl
  | cOpen (l sc tr e) (v : ScopeVariant) :
      TStep rec bl ln (.command l sc 0 tr) (e, v.opening) []
        (.command l (sc ++ [([], v, tr)]) 1 []) bl
  | cWs (l sc tr e c) (h : ScopeVariant.fromOpening c = none) (hw : isWhitespace c = true) :
      TStep rec bl ln (.command l sc 0 tr) (e, c) [] (.command l sc 0 (tr ++ [c])) bl
  | cEsc (l sc tr c args) (h : ScopeVariant.fromOpening c = none) (hw : isWhitespace c = false)
      (ha : evalArgs rec sc = .ok args) :
      TStep rec bl ln (.command l sc 0 tr) (true, c)
        ([.mk bl (.command (.mk l args))] ++ textC tr (ln - newlines tr) ++ startC c ln) (startB c) ln
  | cTrail (l sc tr c args) (h : ScopeVariant.fromOpening c = none) (hw : isWhitespace c = false)
      (ht : tr ≠ []) (ha : evalArgs rec sc = .ok args) :
      TStep rec bl ln (.command l sc 0 tr) (false, c) [.mk bl (.command (.mk l args))]
        (.text (tr ++ [c])) (ln - newlines tr)
  | cLabel (l c) (h : ScopeVariant.fromOpening c = none) (hw : isWhitespace c = false)
      (hc : ScopeVariant.fromClosing c = none) :
      TStep rec bl ln (.command l [] 0 []) (false, c) [] (.command (l ++ [c]) [] 0 []) bl
  | cNext (l sc c args) (h : ScopeVariant.fromOpening c = none) (hw : isWhitespace c = false)
      (hc : ScopeVariant.fromClosing c = none) (hs : sc ≠ []) (ha : evalArgs rec sc = .ok args) :
      TStep rec bl ln (.command l sc 0 []) (false, c) [.mk bl (.command (.mk l args))] (.text [c]) ln
  | aEsc (l sc a v p d c) :
      TStep rec bl ln (.command l (sc ++ [(a, v, p)]) (d + 1) []) (true, c) []
        (.command l (sc ++ [(a ++ ['\\', c], v, p)]) (d + 1) []) bl
  | aOpen (l sc a) (v : ScopeVariant) (p d) :
      TStep rec bl ln (.command l (sc ++ [(a, v, p)]) (d + 1) []) (false, v.opening) []
        (.command l (sc ++ [(a, v, p)]) (d + 2) []) bl
  | aClose (l sc a) (v : ScopeVariant) (p d) :
      TStep rec bl ln (.command l (sc ++ [(a, v, p)]) (d + 1) []) (false, v.closing) []
        (.command l (sc ++ [(a, v, p)]) d []) bl
  | aChar (l sc a v p d c) (ho : ScopeVariant.opening v ≠ c) (hc : ScopeVariant.closing v ≠ c) :
      TStep rec bl ln (.command l (sc ++ [(a, v, p)]) (d + 1) []) (false, c) []
        (.command l (sc ++ [(a ++ [c], v, p)]) (d + 1) []) bl

theorem flushC_ok {rec l sc bl cs} (h : flushC rec l sc bl = .ok cs) :
    ∃ args, evalArgs rec sc = .ok args ∧ cs = [.mk bl (.command (.mk l args))] := by
  unfold flushC at h
  rcases he : evalArgs rec sc with f | args
  · rw [he] at h; rcases f with e | _ | _ <;> simp [addLine] at h
  · rw [he] at h; simp at h; exact ⟨args, rfl, h.symm⟩

theorem tstep_ok {rec b bl ln t new b' bl'} (hb : Buffer.Ctl b)
    (h : tstep rec b bl ln t = .ok (new, b', bl')) : TStep rec bl ln b t new b' bl' := by
  obtain ⟨e, c⟩ := t
  rcases b with ⟨a, v, d⟩ | ⟨l, sc, d, tr⟩ | ⟨a⟩
  · simp only [tstep] at h
    simp only [Buffer.Ctl] at hb
    cases e
    · simp only [Bool.false_eq_true, if_false] at h
      by_cases ho : v.opening = c
      · simp only [ho, if_true] at h
        injection h with h; simp only [Prod.mk.injEq] at h; obtain ⟨rfl, rfl, rfl⟩ := h
        subst ho; exact .sOpen ..
      · simp only [ho, if_false] at h
        by_cases hc : v.closing = c
        · simp only [hc, if_true] at h
          by_cases hd : d = 1
          · simp only [hd, if_true] at h
            rcases hr : rec a with f | inner
            · rw [hr] at h; rcases f with e | _ | _ <;> simp [addLine] at h
            · rw [hr] at h
              injection h with h; simp only [Prod.mk.injEq] at h; obtain ⟨rfl, rfl, rfl⟩ := h
              subst hc hd; exact .sEnd _ _ _ hr
          · simp only [hd, if_false] at h
            injection h with h; simp only [Prod.mk.injEq] at h; obtain ⟨rfl, rfl, rfl⟩ := h
            subst hc; exact .sClose _ _ _ (by omega)
        · simp only [hc, if_false] at h
          injection h with h; simp only [Prod.mk.injEq] at h; obtain ⟨rfl, rfl, rfl⟩ := h
          exact .sChar _ _ _ _ ho hc
    · simp only [if_true] at h
      injection h with h; simp only [Prod.mk.injEq] at h; obtain ⟨rfl, rfl, rfl⟩ := h
      exact .sEsc ..
  · simp only [Buffer.Ctl] at hb
    cases d with
    | zero =>
      simp only [tstep] at h
      rcases ho : ScopeVariant.fromOpening c with _ | v
      · rw [ho] at h; simp only at h
        by_cases hw : isWhitespace c = true
        · simp only [hw, if_true] at h
          injection h with h; simp only [Prod.mk.injEq] at h; obtain ⟨rfl, rfl, rfl⟩ := h
          exact .cWs _ _ _ _ _ ho hw
        · simp only [hw, if_false] at h
          simp only [Bool.not_eq_true] at hw
          cases e
          · simp only [Bool.false_eq_true, if_false] at h
            by_cases ht : tr = []
            · subst ht
              simp only [ne_eq, not_true_eq_false, if_false] at h
              rcases hc : ScopeVariant.fromClosing c with _ | v
              · rw [hc] at h; simp only at h
                by_cases hs : sc = []
                · subst hs
                  simp only [if_true] at h
                  injection h with h; simp only [Prod.mk.injEq] at h; obtain ⟨rfl, rfl, rfl⟩ := h
                  exact .cLabel _ _ ho hw hc
                · simp only [hs, if_false] at h
                  rcases hf : flushC rec l sc bl with f | cs
                  · rw [hf] at h; cases h
                  · rw [hf] at h
                    obtain ⟨args, ha, rfl⟩ := flushC_ok hf
                    injection h with h; simp only [Prod.mk.injEq] at h; obtain ⟨rfl, rfl, rfl⟩ := h
                    exact .cNext _ _ _ _ ho hw hc hs ha
              · rw [hc] at h; simp [fail] at h
            · simp only [ne_eq, ht, not_false_eq_true, if_true] at h
              rcases hf : flushC rec l sc bl with f | cs
              · rw [hf] at h; cases h
              · rw [hf] at h
                obtain ⟨args, ha, rfl⟩ := flushC_ok hf
                injection h with h; simp only [Prod.mk.injEq] at h; obtain ⟨rfl, rfl, rfl⟩ := h
                exact .cTrail _ _ _ _ _ ho hw ht ha
          · simp only [if_true] at h
            rcases hf : flushC rec l sc bl with f | cs
            · rw [hf] at h; cases h
            · rw [hf] at h
              obtain ⟨args, ha, rfl⟩ := flushC_ok hf
              injection h with h; simp only [Prod.mk.injEq] at h; obtain ⟨rfl, rfl, rfl⟩ := h
              exact .cEsc _ _ _ _ _ ho hw ha
      · rw [ho] at h; simp only at h
        injection h with h; simp only [Prod.mk.injEq] at h; obtain ⟨rfl, rfl, rfl⟩ := h
        rw [fromOpening_some_iff] at ho
        subst ho; exact .cOpen ..
    | succ d =>
      simp only [tstep] at h
      rcases hg : sc.getLast? with _ | ⟨a, v, p⟩
      · rw [hg] at h; simp [panicked] at h
      · rw [hg] at h; simp only at h
        have hs := eq_dropLast_append hg
        generalize sc.dropLast = init at hs
        subst hs
        obtain rfl : tr = [] := (hb.2 (by omega)).2
        cases e
        · simp only [Bool.false_eq_true, if_false] at h
          by_cases ho : v.opening = c
          · simp only [ho, if_true] at h
            injection h with h; simp only [Prod.mk.injEq] at h; obtain ⟨rfl, rfl, rfl⟩ := h
            subst ho; exact .aOpen ..
          · simp only [ho, if_false] at h
            by_cases hc : v.closing = c
            · simp only [hc, if_true] at h
              injection h with h; simp only [Prod.mk.injEq] at h; obtain ⟨rfl, rfl, rfl⟩ := h
              subst hc; exact .aClose ..
            · simp only [hc, if_false, pushLastContent_snoc] at h
              injection h with h; simp only [Prod.mk.injEq] at h; obtain ⟨rfl, rfl, rfl⟩ := h
              exact .aChar _ _ _ _ _ _ _ ho hc
        · simp only [if_true, pushLastContent_snoc] at h
          injection h with h; simp only [Prod.mk.injEq] at h; obtain ⟨rfl, rfl, rfl⟩ := h
          exact .aEsc ..
  · simp only [tstep] at h
    cases e
    · simp only [Bool.false_eq_true, if_false] at h
      rcases ho : ScopeVariant.fromOpening c with _ | v
      · rw [ho] at h; simp only at h
        injection h with h; simp only [Prod.mk.injEq] at h; obtain ⟨rfl, rfl, rfl⟩ := h
        exact .tChar _ _ ho
      · rw [ho] at h; simp only at h
        injection h with h; simp only [Prod.mk.injEq] at h; obtain ⟨rfl, rfl, rfl⟩ := h
        rw [fromOpening_some_iff] at ho
        subst ho; exact .tOpen ..
    · simp only [if_true] at h
      injection h with h; simp only [Prod.mk.injEq] at h; obtain ⟨rfl, rfl, rfl⟩ := h
      exact .tEsc ..

/-- Invariant of the loop: control, and the line arithmetic never underflows. -/
structure Inv (b : Buffer) (bl ln : Nat) : Prop where
  ctl : b.Ctl
  hbl : 1 ≤ bl
  hln : 1 ≤ ln
  htr : ∀ l sc d tr, b = .command l sc d tr → newlines tr < ln

theorem le_lnAfter (ln : Nat) (t : Tok) : ln ≤ lnAfter ln t := by
  unfold lnAfter; split <;> omega

theorem newlines_snoc (s : Str) (c : Char) :
    newlines (s ++ [c]) = newlines s + (if c = '\n' then 1 else 0) := by
  rw [newlines_append]
  by_cases h : c = '\n' <;> simp [newlines, h]

theorem inv_start (c : Char) (ln : Nat) (h : 1 ≤ ln) : Inv (startB c) ln ln := by
  unfold startB
  split
  · exact ⟨by simp [Buffer.Ctl], h, h, by intro l sc d tr he; cases he; simp [newlines]; omega⟩
  · exact ⟨by simp [Buffer.Ctl], h, h, by intro l sc d tr he; cases he⟩

theorem TStep.inv {rec b bl ln t new b' bl'} (hi : Inv b bl ln)
    (h : TStep rec bl (lnAfter ln t) b t new b' bl') : Inv b' bl' (lnAfter ln t) := by
  have h1 := hi.hln
  have hle := le_lnAfter ln t
  have h2 : 1 ≤ lnAfter ln t := by omega
  have hc := hi.ctl
  have hbl := hi.hbl
  have htr := hi.htr
  cases h
  case tEsc => exact inv_start _ _ h2
  case cEsc => exact inv_start _ _ h2
  case cWs l sc tr e c h hw =>
    refine ⟨?_, hbl, h2, ?_⟩
    · simp [Buffer.Ctl] at hc ⊢; exact hc
    · intro l' sc' d' tr' he; cases he
      have := htr _ _ _ _ rfl
      rw [newlines_snoc]
      unfold lnAfter at *
      by_cases hn : c = '\n'
      · simp [hn] at *; omega
      · simp [hn] at *; omega
  case cTrail l sc tr c args h hw ht ha =>
    have := htr _ _ _ _ rfl
    refine ⟨by simp [Buffer.Ctl], by omega, h2, ?_⟩
    intro l' sc' d' tr' he; cases he
  case aClose l sc a v p d =>
    refine ⟨?_, hbl, h2, ?_⟩
    · simp [Buffer.Ctl] at hc ⊢; exact hc
    · intro l' sc' d' tr' he; cases he
      have := htr _ _ _ _ rfl; omega
  all_goals
    refine ⟨?_, by first | exact h2 | exact hbl, h2, ?_⟩
    · simp [Buffer.Ctl] at hc ⊢
      try grind
    · intro l' sc' d' tr' he
      first
        | (cases he; done)
        | (cases he; simp [newlines]; omega)
        | (cases he; have := htr _ _ _ _ rfl; omega)

/-- The model's loop, from any state, is the token parser. -/
theorem run_finish (rec : Str → Res (List Chunk)) (s : Str) (st : State)
    (hi : Inv st.buffer st.bufferLine st.lineNo) :
    (match run rec s st with
      | .error f => .error f
      | .ok st => finish rec st : Res (List Chunk)) =
    (match trun rec (lex st.escaped st.comment s) st.buffer st.bufferLine st.lineNo with
      | .error f => .error f
      | .ok cs => .ok (st.chunks ++ cs)) := by
  induction s generalizing st with
  | nil =>
    obtain ⟨chunks, ln, esc, cm, bl, b⟩ := st
    have hbl := hi.hbl
    have hc := hi.ctl
    simp only [run, lex, trun] at hbl hc ⊢
    rcases b with ⟨a, v, d⟩ | ⟨l, sc, d, tr⟩ | ⟨a⟩
    · simp only [Buffer.Ctl] at hc
      have hd : d ≠ 0 := by omega
      simp [finish, flushM, flush, hd, fail, checkedSub_ok hbl, addLine, tfinish]
      omega
    · cases d with
      | zero =>
        simp only [finish, flushM, flush_command0, tfinish, flushC, checkedSub_ok hbl]
        rcases evalArgs rec sc with f | args
        · simp only
          rcases f with e | _ | _ <;> simp [addLine]
        · cases tr <;> simp [textC, Buffer.newText, Buffer.pushStr, flush]
      | succ d =>
        obtain ⟨hs, ht⟩ := hc.2 (by omega)
        subst ht
        rcases hg : sc.getLast? with _ | ⟨a, v, p⟩
        · simp at hg; exact absurd hg hs
        · simp [finish, flushM, flush, tfinish, hg, fail, checkedSub_ok hbl, addLine]
          omega
    · cases a <;> simp [finish, flushM, flush, tfinish, textC]
  | cons c s ih =>
    have key : ∀ (st' : State), st'.chunks = st.chunks → st'.buffer = st.buffer →
        st'.bufferLine = st.bufferLine → st'.escaped = st.escaped →
        (st'.lineNo = lnAfter st.lineNo (st.escaped, c)) →
        st'.comment = false →
        (match (match stepBuffer rec st' c with
          | .error f => .error f
          | .ok s' => run rec s s' : Res State) with
          | .error f => .error f
          | .ok st => finish rec st : Res (List Chunk)) =
        (match trun rec ((st.escaped, c) :: lex false false s) st.buffer st.bufferLine st.lineNo with
          | .error f => .error f
          | .ok cs => .ok (st.chunks ++ cs)) := by
      intro st' h1 h2 h3 h4 h5 h6
      obtain ⟨chunks', ln', esc', cm', bl', b'⟩ := st'
      simp only at h1 h2 h3 h4 h5 h6
      subst h1 h2 h3 h4 h5 h6
      rw [stepBuffer_eq rec
        ⟨st.chunks, lnAfter st.lineNo (st.escaped, c), st.escaped, false, st.bufferLine, st.buffer⟩
        c hi.ctl hi.hbl]
      · simp only [trun]
        rcases ht : tstep rec st.buffer st.bufferLine (lnAfter st.lineNo (st.escaped, c))
          (st.escaped, c) with f | ⟨new, b', bl'⟩
        · simp [lift]
        · simp only [lift]
          have hi' := TStep.inv hi (tstep_ok hi.ctl ht)
          rw [ih ⟨st.chunks ++ new, lnAfter st.lineNo (st.escaped, c), false, false, bl', b'⟩ hi']
          simp only
          rcases trun rec (lex false false s) b' bl' (lnAfter st.lineNo (st.escaped, c)) with f | cs
          · rfl
          · simp
      · intro l sc tr hb
        have := hi.htr l sc 0 tr hb
        have := le_lnAfter st.lineNo (st.escaped, c)
        simp only
        omega
    obtain ⟨chunks, ln, esc, cm, bl, b⟩ := st
    simp only at key hi ⊢
    unfold run step lex
    by_cases hn : c = '\n'
    · simp only [hn, if_true]
      subst hn
      exact key ⟨chunks, ln + 1, esc, false, bl, b⟩ rfl rfl rfl rfl (by simp [lnAfter]) rfl
    · simp only [hn, if_false]
      by_cases hp : c = '%' ∧ esc = false
      · simp only [hp, and_self, if_true]
        exact ih ⟨chunks, ln, false, true, bl, b⟩ hi
      · simp only [hp, if_false]
        by_cases hbs : c = '\\' ∧ esc = false
        · simp only [hbs, and_self, if_true]
          exact ih ⟨chunks, ln, true, cm, bl, b⟩ hi
        · simp only [hbs, if_false]
          cases cm
          · simp only [Bool.false_eq_true, if_false]
            exact key ⟨chunks, ln, esc, false, bl, b⟩ rfl rfl rfl rfl (by simp [lnAfter, hn]) rfl
          · simp only [if_true]
            exact ih ⟨chunks, ln, esc, true, bl, b⟩ hi

theorem inv_init : Inv (.text []) 1 1 :=
  ⟨trivial, Nat.le_refl _, Nat.le_refl _, by intro l sc d tr he; cases he⟩

theorem parseFuel_succ (n : Nat) (s : Str) :
    parseFuel (n + 1) s = trun (parseFuel n) (lex false false s) (.text []) 1 1 := by
  have := run_finish (parseFuel n) s State.init inv_init
  simp only [State.init, List.nil_append] at this
  rw [parseFuel]
  refine Eq.trans this ?_
  rcases trun (parseFuel n) (lex false false s) (.text []) 1 1 with f | cs <;> rfl

/-- A successful end of input. -/
inductive TFin (rec : Str → Res (List Chunk)) (bl ln : Nat) : Buffer → List Chunk → Prop
  | text (a) : TFin rec bl ln (.text a) (textC a bl)
  | command (l sc tr args) (ha : evalArgs rec sc = .ok args) :
      TFin rec bl ln (.command l sc 0 tr) ([.mk bl (.command (.mk l args))] ++ textC tr ln)

theorem tfinish_ok {rec b bl ln cs} (h : tfinish rec b bl ln = .ok cs) : TFin rec bl ln b cs := by
  rcases b with ⟨a, v, d⟩ | ⟨l, sc, d, tr⟩ | ⟨a⟩
  · simp [tfinish, fail] at h
  · cases d with
    | zero =>
      simp only [tfinish] at h
      rcases hf : flushC rec l sc bl with f | cs
      · rw [hf] at h; cases h
      · rw [hf] at h
        obtain ⟨args, ha, rfl⟩ := flushC_ok hf
        injection h with h; subst h
        exact .command _ _ _ _ ha
    | succ d =>
      simp only [tfinish] at h
      rcases hg : sc.getLast? with _ | ⟨a, v, p⟩
      · rw [hg] at h; simp [panicked] at h
      · rw [hg] at h; simp [fail] at h
  · simp only [tfinish] at h
    injection h with h; subst h
    exact .text _

/-- A successful run. -/
inductive TRun (rec : Str → Res (List Chunk)) : List Tok → Buffer → Nat → Nat → List Chunk → Prop
  | nil {b bl ln cs} (hi : Inv b bl ln) (h : TFin rec bl ln b cs) : TRun rec [] b bl ln cs
  | cons {t ts b bl ln new b' bl' rest} (hi : Inv b bl ln)
      (h : TStep rec bl (lnAfter ln t) b t new b' bl')
      (hr : TRun rec ts b' bl' (lnAfter ln t) rest) : TRun rec (t :: ts) b bl ln (new ++ rest)

theorem trun_ok {rec ts b bl ln cs} (hi : Inv b bl ln) (h : trun rec ts b bl ln = .ok cs) :
    TRun rec ts b bl ln cs := by
  induction ts generalizing b bl ln cs with
  | nil => exact .nil hi (tfinish_ok h)
  | cons t ts ih =>
    simp only [trun] at h
    rcases ht : tstep rec b bl (lnAfter ln t) t with f | ⟨new, b', bl'⟩
    · rw [ht] at h; cases h
    · rw [ht] at h
      simp only at h
      have hs := tstep_ok hi.ctl ht
      rcases hr : trun rec ts b' bl' (lnAfter ln t) with f | rest
      · rw [hr] at h; cases h
      · rw [hr] at h
        injection h with h; subst h
        exact .cons hi hs (ih (TStep.inv hi hs) hr)

theorem parseFuel_ok {n : Nat} {s : Str} {cs} (h : parseFuel (n + 1) s = .ok cs) :
    TRun (parseFuel n) (lex false false s) (.text []) 1 1 cs := by
  rw [parseFuel_succ] at h
  exact trun_ok inv_init h

end LatexAst.Ast1
