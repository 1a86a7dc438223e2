import Verif.Spec.MathsRule
import Verif.Proofs.MathsTotal
import Verif.Proofs.MathsText

/-!
# The rule of `Spec/MathsRule.lean` describes the code
-/

namespace LatexAst.Ast3

/-- read, before paragraphs -/
def mathsOut (cs : List Ast2.Chunk) (s : MState) : Outcome :=
  match runMaths mathsFromChunks cs s with
  | .error f => .error f
  | .ok s => if s.mode ≠ .none then fail s.bufferLine .unclosedMaths else .ok s.out

theorem mathsFromChunks_out (cs) : mathsFromChunks cs = inParagraphs (mathsOut cs MState.init) := by
  rw [mathsFromChunks_eq, mathsLevel, mathsOut]
  cases runMaths mathsFromChunks cs MState.init with
  | error f => rfl
  | ok s =>
    simp only [finishMaths]
    split <;> rfl

theorem mathsOut_congr {cs cs' s s'} (h : runMaths mathsFromChunks cs s = runMaths mathsFromChunks cs' s') :
    mathsOut cs s = mathsOut cs' s' := by
  simp only [mathsOut, h]

theorem before_before (a b o) : before a (before b o) = before (a ++ b) o := by
  cases o <;> simp [before]

theorem before_nil (o) : before [] o = o := by cases o <;> rfl

/-! ### dollars -/

/-- a dollar mode -/
def IsDollar (m : MathsMode) : Prop :=
  m = .singleDollar .dollars ∨ m = .doubleDollar .dollars ∨ m = .doubleClosing

theorem IsDollar.not_bracket {m} (h : IsDollar m) (k) : m ≠ bracketMode k := by
  rcases h with rfl | rfl | rfl <;> cases k <;> simp [bracketMode]

theorem runMaths_keep' {rec : List Ast2.Chunk → Res (List Chunk)} {s : MState} (h1 : IsDollar s.mode)
    {ms : List Ast2.Chunk} (hms : ∀ c ∈ ms, NotText c) (rest : List Ast2.Chunk) :
    runMaths rec (ms ++ rest) s = runMaths rec rest { s with buffer := s.buffer ++ ms } := by
  induction ms generalizing s with
  | nil => simp
  | cons c ms ih =>
    obtain ⟨l, v⟩ := c
    have hv := hms _ (.head _)
    have hstep : stepMaths rec s (.mk l v) = .ok (s.pushBuffer l v) := by
      cases v with
      | text t => exact absurd rfl (hv t)
      | command c =>
        simp only [stepMaths, stepMathsCommand]
        rcases h1 with h | h | h <;> simp [h]
      | scope sc => rcases h1 with h | h | h <;> simp [stepMaths, h]
      | environment e => rcases h1 with h | h | h <;> simp [stepMaths, h]
    simp only [List.cons_append, runMaths, hstep]
    have ih := ih (s := s.pushBuffer l v) h1 (fun c hc => hms c (.tail _ hc))
    rw [ih]
    simp [MState.pushBuffer]

/-- go on with a text and then the rest -/
def goOn (rec : List Ast2.Chunk → Res (List Chunk)) (text : Str) (rest : List Ast2.Chunk) (t : TState) : Res MState :=
  match runText rec text t with
  | .error f => .error f
  | .ok t => runMaths rec rest t.pushStr.m

/-- at a place in a formula -/
def atPlace (rec : List Ast2.Chunk → Res (List Chunk)) (m : MState) (p : Place) : Res MState :=
  goOn rec p.text p.rest ⟨m, p.line + p.pending.count '\n', p.pending, p.line⟩

/-- right before the dollar before a place in a formula -/
def atDollar (rec : List Ast2.Chunk → Res (List Chunk)) (m : MState) (p : Place) : Res MState :=
  match stepDollar rec ⟨m, p.line + p.pending.count '\n', p.pending, p.line⟩ with
  | .error f => .error f
  | .ok t => goOn rec p.text p.rest t

theorem pushStr_text (m : MState) (c l : Nat) (x : Str) :
    (TState.pushStr ⟨m, c, x, l⟩).m = { m with out := m.out ++ textIf l x } := by
  unfold TState.pushStr textIf
  by_cases h : x = []
  · simp [h]
  · simp [h]

theorem goOn_dollar (rec) (text rest t) : goOn rec ('$' :: text) rest t =
    (match stepDollar rec t with
      | .error f => .error f
      | .ok t => goOn rec text rest t) := by
  simp only [goOn, runText, stepChar]
  simp only [show ¬ ('$' = '\n') by decide, if_false, if_true]
  cases stepDollar rec t <;> rfl

theorem toDollar_run {rec p lost kept p'} (h : ToDollar p lost kept p') :
    ∀ m : MState, IsDollar m.mode →
      atPlace rec m p = atDollar rec { m with out := m.out ++ lost, buffer := m.buffer ++ kept } p' := by
  induction h with
  | @here l q x r rest hx =>
    intro m _
    simp only [atPlace, atDollar, List.append_nil]
    rw [← goOn_dollar, goOn, runText_append, runText_plain hx]
    simp [goOn, Nat.add_assoc]
  | @later l q x ms l' t rest lost kept p hx hms _ ih =>
    intro m hm
    have h1 : atPlace rec m ⟨l, q, x, ms ++ .mk l' (.text t) :: rest⟩ =
        runMaths rec (ms ++ .mk l' (.text t) :: rest) { m with out := m.out ++ textIf l (q ++ x) } := by
      simp only [atPlace, goOn, runText_plain hx, pushStr_text]
    rw [h1, runMaths_keep' (s := { m with out := m.out ++ textIf l (q ++ x) }) hm hms,
      runMaths_text (fun k => by exact hm.not_bracket k)]
    have := ih { m with out := m.out ++ textIf l (q ++ x), buffer := m.buffer ++ ms } hm
    simp only [List.append_assoc] at this
    rw [← this]
    rfl

theorem noDollar_rest {rec : List Ast2.Chunk → Res (List Chunk)} {rest : List Ast2.Chunk}
    (h : ∀ l t, .mk l (.text t) ∈ rest → '$' ∉ t) :
    ∀ m : MState, IsDollar m.mode → ∃ s, runMaths rec rest m = .ok s ∧ s.mode = m.mode ∧ s.bufferLine = m.bufferLine := by
  induction rest with
  | nil => intro m _; exact ⟨m, rfl, rfl, rfl⟩
  | cons c rest ih =>
    intro m hm
    have ih := ih fun l t ht => h l t (.tail _ ht)
    obtain ⟨l, v⟩ := c
    by_cases hv : ∃ t, v = .text t
    · obtain ⟨t, rfl⟩ := hv
      rw [runMaths_text (fun k => hm.not_bracket k), runText_plain (h l t (.head _))]
      simp only [pushStr_text]
      exact ih { m with out := m.out ++ textIf l ([] ++ t) } hm
    · have := runMaths_keep' (rec := rec) (ms := [.mk l v]) hm (by
        intro c hc t ht; simp at hc; subst hc; exact hv ⟨t, ht⟩) rest
      simp only [List.singleton_append] at this
      rw [this]
      exact ih { m with buffer := m.buffer ++ [.mk l v] } hm

theorem noDollar_run {rec p} (h : NoDollar p) :
    ∀ m : MState, IsDollar m.mode → ∃ s, atPlace rec m p = .ok s ∧ s.mode = m.mode ∧ s.bufferLine = m.bufferLine := by
  intro m hm
  simp only [atPlace, goOn, runText_plain h.1, pushStr_text]
  exact noDollar_rest h.2 { m with out := m.out ++ textIf p.line (p.pending ++ p.text) } hm

/-! ### closing -/

theorem rebase_countable {l content} (h : Countable l content) : rebase l content = .ok (content.map (countFrom l)) := by
  rcases h with rfl | ⟨hl, h⟩
  · rfl
  · induction content with
    | nil => rfl
    | cons c cs ih =>
      obtain ⟨lc, v⟩ := c
      have h1 := h _ (.head _)
      have ih := ih fun c hc => h c (.tail _ hc)
      simp only [Ast2.Chunk.lineNo] at h1
      simp [rebase, checkedSub, hl, ih, countFrom, show l - 1 ≤ lc by omega]

theorem rebase_panic {l content} (h : ¬ Countable l content) : rebase l content = .error .panic := by
  induction content with
  | nil => exact absurd (.inl rfl) h
  | cons c cs ih =>
    obtain ⟨lc, v⟩ := c
    by_cases hl : 1 ≤ l
    · by_cases h1 : l ≤ lc + 1
      · have ih := ih (by
          rintro (rfl | ⟨_, h2⟩)
          · exact h (.inr ⟨hl, by simpa [Ast2.Chunk.lineNo] using h1⟩)
          · refine h (.inr ⟨hl, ?_⟩)
            intro c hc
            rcases List.mem_cons.1 hc with rfl | hc
            · exact h1
            · exact h2 c hc)
        simp [rebase, checkedSub, hl, ih, show l - 1 ≤ lc by omega]
      · simp [rebase, checkedSub, hl, show ¬ l - 1 ≤ lc by omega, panicked]
    · simp [rebase, checkedSub, hl, panicked]

theorem close_buffer (m : MState) (l : Nat) (x : Str) :
    (if x.isEmpty then m.buffer else m.buffer ++ [.mk l (.text x)]) = m.buffer ++ textIf2 l x := by
  unfold textIf2
  by_cases h : x = [] <;> simp [h]

/-- after closing -/
theorem closeDollars_run {m : MState} {p : Place} {type : MathsType} (h : Countable p.line (m.buffer ++ textIf2 p.line p.pending)) :
    (match closeDollars mathsFromChunks ⟨m, p.line + p.pending.count '\n', p.pending, p.line⟩ type with
      | .error f => .error f
      | .ok t => goOn mathsFromChunks p.text p.rest t : Res MState) =
    match mathsFromChunks ((m.buffer ++ textIf2 p.line p.pending).map (countFrom p.line)) with
    | .error f => .error f
    | .ok content => runMaths mathsFromChunks (.mk (p.line + p.pending.count '\n') (.text p.text) :: p.rest)
        { m with mode := .none, buffer := [], out := m.out ++ [.mk p.line (.mathsBlock (.mk .dollars type content))] } := by
  simp only [closeDollars, close_buffer, rebase_countable h]
  cases mathsFromChunks ((m.buffer ++ textIf2 p.line p.pending).map (countFrom p.line)) with
  | error f => rfl
  | ok content =>
    simp only
    rw [runMaths_text (none_not_bracket rfl)]
    rfl

theorem closeDollars_panic {m : MState} {p : Place} {type : MathsType} (h : ¬ Countable p.line (m.buffer ++ textIf2 p.line p.pending)) :
    closeDollars mathsFromChunks ⟨m, p.line + p.pending.count '\n', p.pending, p.line⟩ type = .error .panic := by
  simp only [closeDollars, close_buffer, rebase_panic h]

/-- the outcome of a formula -/
def formulaEnd (m : MState) (lost : List Chunk) (type : MathsType) (content : List Ast2.Chunk) (p : Place) : Res MState :=
  match rebase p.line content with
  | .error f => .error f
  | .ok c =>
    match mathsFromChunks c with
    | .error f => .error f
    | .ok content => runMaths mathsFromChunks (.mk (p.line + p.pending.count '\n') (.text p.text) :: p.rest)
        { m with mode := .none, buffer := [],
                 out := m.out ++ lost ++ [.mk p.line (.mathsBlock (.mk .dollars type content))] }

theorem close_eq {m : MState} {p : Place} {type : MathsType} {lost kept} :
    (match closeDollars mathsFromChunks ⟨{ m with out := m.out ++ lost, buffer := kept },
        p.line + p.pending.count '\n', p.pending, p.line⟩ type with
      | .error f => .error f
      | .ok t => goOn mathsFromChunks p.text p.rest t : Res MState) =
    formulaEnd m lost type (kept ++ textIf2 p.line p.pending) p := by
  by_cases h : Countable p.line (kept ++ textIf2 p.line p.pending)
  · rw [closeDollars_run (m := { m with out := m.out ++ lost, buffer := kept }) h]
    simp only [formulaEnd, rebase_countable h]
  · rw [closeDollars_panic (m := { m with out := m.out ++ lost, buffer := kept }) h]
    simp only [formulaEnd, rebase_panic h]

theorem atDollar_double {rec m p} (hm : m.mode = .singleDollar .dollars) (hb : m.buffer = []) (hp : p.pending = []) :
    atDollar rec m p = atPlace rec { m with mode := .doubleDollar .dollars } p := by
  simp [atDollar, stepDollar, hm, hb, hp, atPlace]

theorem atDollar_half {rec m p} (hm : m.mode = .doubleDollar .dollars) :
    atDollar rec m p = atPlace rec { m with mode := .doubleClosing } p := by
  simp [atDollar, stepDollar, hm, atPlace]

theorem formula_run {p lost type content p'} (h : Formula p lost type content p') (m : MState)
    (hm : m.mode = .singleDollar .dollars) (hb : m.buffer = []) :
    atPlace mathsFromChunks m p = formulaEnd m lost type content p' := by
  cases h with
  | @inline _ kept _ h hne =>
    rw [toDollar_run h m (.inl hm), hb, List.nil_append]
    have : ¬ (p'.pending.isEmpty = true ∧ kept.isEmpty = true) := by
      rintro ⟨h1, h2⟩
      rcases hne with h | h
      · exact h (by simpa using h2)
      · exact h (by simpa using h1)
    rw [atDollar]
    simp only [stepDollar, hm, if_neg this]
    have := close_eq (m := m) (p := p') (type := .inline) (lost := lost) (kept := kept)
    rw [hm] at this
    exact this
  | @display lost₁ p₁ lost₂ kept₂ p₂ lost₃ kept₃ _ h1 hp h2 h3 =>
    rw [toDollar_run h1 m (.inl hm), hb, List.nil_append, atDollar_double (by exact hm) (by rfl) hp]
    rw [toDollar_run h2 _ (by exact .inr (.inl rfl)), atDollar_half (by rfl)]
    rw [toDollar_run h3 _ (by exact .inr (.inr rfl))]
    simp only [List.nil_append, List.append_assoc]
    rw [atDollar]
    simp only [stepDollar]
    have := close_eq (m := { m with mode := .doubleClosing }) (p := p') (type := .outline)
      (lost := lost₁ ++ (lost₂ ++ lost₃)) (kept := kept₂ ++ kept₃)
    simp only [List.append_assoc] at this
    rw [this]
    simp only [formulaEnd, List.append_assoc]

theorem unfinished_run {rec p} (h : Unfinished p) (m : MState) (hm : m.mode = .singleDollar .dollars) (hb : m.buffer = []) :
    ∃ s, atPlace rec m p = .ok s ∧ s.mode ≠ .none ∧ s.bufferLine = m.bufferLine := by
  cases h with
  | single h =>
    obtain ⟨s, h1, h2, h3⟩ := noDollar_run (rec := rec) h m (.inl hm)
    exact ⟨s, h1, by rw [h2, hm]; simp, h3⟩
  | @double lost p₁ h1 hp h =>
    rw [toDollar_run h1 m (.inl hm), hb, List.nil_append, atDollar_double (by exact hm) (by rfl) hp]
    obtain ⟨s, h1, h2, h3⟩ := noDollar_run (rec := rec) h
      { m with out := m.out ++ lost, buffer := [], mode := .doubleDollar .dollars } (.inr (.inl rfl))
    exact ⟨s, h1, by rw [h2]; simp, h3⟩
  | @half lost p₁ lost₂ kept₂ p₂ h1 hp h2 h =>
    rw [toDollar_run h1 m (.inl hm), hb, List.nil_append, atDollar_double (by exact hm) (by rfl) hp]
    rw [toDollar_run h2 _ (by exact .inr (.inl rfl)), atDollar_half (by rfl)]
    obtain ⟨s, h1, h2, h3⟩ := noDollar_run (rec := rec) h
      { m with out := m.out ++ lost ++ lost₂, buffer := [] ++ kept₂, mode := .doubleClosing } (.inr (.inr rfl))
    exact ⟨s, h1, by rw [h2]; simp, h3⟩

theorem run_open {s : MState} (hs : Idle s) {l q r cs} (hq : '$' ∉ q) :
    runMaths mathsFromChunks (.mk l (.text (q ++ '$' :: r)) :: cs) s =
      atPlace mathsFromChunks { s with out := s.out ++ textIf l q, mode := .singleDollar .dollars }
        ⟨l + q.count '\n', [], r, cs⟩ := by
  rw [runMaths_text (none_not_bracket hs.1), runText_open hq hs.1]
  simp only [atPlace, goOn, opened, List.count_nil, Nat.add_zero]
  rfl

/-! ### soundness -/

theorem tryArgs_items {items : List ((Str × Ast2.Scope) × Outcome)}
    (h : ∀ x ∈ items, mathsFromChunks x.1.2.chunks = inParagraphs x.2) :
    tryArgs mathsFromChunks (items.map (·.1)) = argOutcome items := by
  induction items with
  | nil => rfl
  | cons x r ih =>
    obtain ⟨⟨p, ⟨inner, sv⟩⟩, o⟩ := x
    have h1 := h _ (List.mem_cons_self ..)
    have h2 := ih fun y hy => h y (List.mem_cons_of_mem _ hy)
    simp only [Ast2.Scope.chunks] at h1
    simp only [List.map_cons, tryArgs, tryScope, h1, h2, argOutcome, Ast2.Scope.variant]
    cases o with
    | error e => rfl
    | ok a =>
      simp only [inParagraphs, paragraphs_idem]
      cases argOutcome r <;> rfl

theorem mathsOut_step {c cs s s'} (h : stepMaths mathsFromChunks s c = .ok s') : mathsOut (c :: cs) s = mathsOut cs s' := by
  simp [mathsOut, runMaths, h]
theorem mathsOut_fail {c cs s f} (h : stepMaths mathsFromChunks s c = .error f) : mathsOut (c :: cs) s = .error f := by
  simp [mathsOut, runMaths, h]

theorem not_delim_labels {label : Str} (h : ¬ IsDelimiter label) :
    label ≠ chars!"(" ∧ label ≠ chars!")" ∧ label ≠ chars!"[" ∧ label ≠ chars!"]" := by
  simpa [IsDelimiter] using h

theorem Yields.sound' {b cs o} (h : Yields b cs o) :
    ∀ s, Idle s → s.bufferLine = b → mathsOut cs s = before s.out o := by
  induction h with
  | nil => intro s hs _; simp [mathsOut, runMaths, hs.1, before]
  | @text b l t cs o ht _ ih =>
    intro s hs hb
    rw [mathsOut_congr (cs' := cs) (s' := { s with out := s.out ++ textIf l t }), ih { s with out := s.out ++ _ } hs hb, before_before]
    rw [runMaths_text (none_not_bracket hs.1), runText_plain ht]
    simp [pushStr_text]
  | @formula b l q r cs lost type content p i o hq hf hc _ _ ih1 ih2 =>
    intro s hs hb
    have hi : mathsFromChunks (content.map (countFrom p.line)) = inParagraphs i := by
      rw [mathsFromChunks_out, ih1 MState.init ⟨rfl, rfl⟩ rfl]
      simp [MState.init, before_nil]
    rw [mathsOut, run_open hs hq, formula_run hf _ (by rfl) (by exact hs.2), formulaEnd, rebase_countable hc]
    simp only [hi]
    cases i with
    | error f => rfl
    | ok a =>
      have := ih2 { s with out := s.out ++ textIf l q ++ lost ++ [.mk p.line (.mathsBlock (.mk .dollars type (paragraphs a)))],
                           mode := .none, buffer := [] } ⟨rfl, rfl⟩ hb
      simp only [blockOutcome, before_before]
      simp only [List.append_assoc] at this ⊢
      rw [← this]
      rfl
  | @uncountable b l q r cs lost type content p hq hf hc =>
    intro s hs hb
    rw [mathsOut, run_open hs hq, formula_run hf _ (by rfl) (by exact hs.2), formulaEnd, rebase_panic hc]
    rfl
  | @unfinished b l q r cs hq hu =>
    intro s hs hb
    obtain ⟨s', h1, h2, h3⟩ := unfinished_run (rec := mathsFromChunks) hu
      { s with out := s.out ++ textIf l q, mode := .singleDollar .dollars } rfl hs.2
    rw [mathsOut, run_open hs hq, h1]
    simp only [h2, ne_eq, not_false_eq_true, if_true, h3, hb]
    rfl
  | @brackets b k l args body inner l' args' cs i o hin _ _ ih1 ih2 =>
    intro s hs hb
    have hi : mathsFromChunks inner = inParagraphs i := by
      rw [mathsFromChunks_out, ih1 MState.init ⟨rfl, rfl⟩ rfl]
      simp [MState.init, before_nil]
    rw [mathsOut_step (step_open hs k l args)]
    have hr := runMaths_inside (rec := mathsFromChunks) hin { s with mode := bracketMode k, bufferLine := l, depth := 1 }
      (.mk l' (.command (.mk (closeLabel k) args')) :: cs) rfl (by simp)
    rw [mathsOut_congr hr]
    have hclose : stepMaths mathsFromChunks { s with mode := bracketMode k, bufferLine := l, depth := 1, buffer := s.buffer ++ inner }
        (.mk l' (.command (.mk (closeLabel k) args'))) =
        closeBrackets mathsFromChunks { s with mode := bracketMode k, bufferLine := l, depth := 1, buffer := s.buffer ++ inner } k := by
      cases k <;> simp [stepMaths, stepMathsCommand, bracketMode, Ast2.Command.label, closeLabel]
    simp only [hs.2, List.nil_append, closeBrackets, hi] at hclose ⊢
    cases i with
    | error f => rw [mathsOut_fail hclose]; rfl
    | ok a =>
      rw [mathsOut_step hclose, ih2 _ ⟨rfl, rfl⟩ rfl]
      simp only [blockOutcome, before_before, List.nil_append]
  | @unclosed b k l args body hu =>
    intro s hs hb
    rw [mathsOut_step (step_open hs k l args)]
    obtain ⟨s', h1, h2, h3⟩ := runMaths_unclosed (rec := mathsFromChunks) hu
      { s with mode := bracketMode k, bufferLine := l, depth := 1 } rfl (by simp)
    rw [mathsOut, h1]
    simp only [h2, bracketMode_ne_none, ne_eq, not_false_eq_true, if_true, h3]
    rfl
  | @unexpected b k l args cs =>
    intro s hs hb
    rw [mathsOut_fail (f := .err ⟨l, .unexpectedMathsEnd⟩)]
    · rfl
    · cases k <;> simp [stepMaths, stepMathsCommand, hs.1, Ast2.Command.label, closeLabel, fail]
  | @scope b l inner sv cs i o _ _ ih1 ih2 =>
    intro s hs hb
    have hi : mathsFromChunks inner = inParagraphs i := by
      rw [mathsFromChunks_out, ih1 MState.init ⟨rfl, rfl⟩ rfl]
      simp [MState.init, before_nil]
    cases i with
    | error f => rw [mathsOut_fail (f := f) (by simp [stepMaths, hs.1, tryScope, hi, inParagraphs])]; rfl
    | ok a =>
      rw [mathsOut_step (s' := { s with out := s.out ++ [.mk l (.scope (.mk (paragraphs a) sv))] })
        (by simp [stepMaths, hs.1, tryScope, hi, inParagraphs, paragraphs_idem]), ih2 { s with out := s.out ++ _ } hs hb]
      simp only [scopeOutcome, before_before]
  | @command b l label cs o items hl _ _ ih1 ih2 =>
    intro s hs hb
    have hi := tryArgs_items (items := items) fun x hx => by
      rw [mathsFromChunks_out, ih1 x hx MState.init ⟨rfl, rfl⟩ rfl]
      simp [MState.init, before_nil]
    obtain ⟨h1, h2, h3, h4⟩ := not_delim_labels hl
    cases ha : argOutcome items with
    | error f =>
      rw [ha] at hi
      rw [mathsOut_fail (f := f) (by
        simp [stepMaths, stepMathsCommand, hs.1, Ast2.Command.label, tryCommand, hi, h1, h2, h3, h4])]
      simp [commandOutcome, ha, before]
    | ok a =>
      rw [ha] at hi
      rw [mathsOut_step (s' := { s with out := s.out ++ [.mk l (.command (.mk label a))] }) (by
        simp [stepMaths, stepMathsCommand, hs.1, Ast2.Command.label, tryCommand, hi, h1, h2, h3, h4]),
        ih2 { s with out := s.out ++ _ } hs hb]
      simp only [commandOutcome, ha, before_before]
  | @environment b l label body pb pe cs i o items _ _ _ ih1 ih2 ih3 =>
    intro s hs hb
    have hi := tryArgs_items (items := items) fun x hx => by
      rw [mathsFromChunks_out, ih1 x hx MState.init ⟨rfl, rfl⟩ rfl]
      simp [MState.init, before_nil]
    have hc : mathsFromChunks body = inParagraphs i := by
      rw [mathsFromChunks_out, ih2 MState.init ⟨rfl, rfl⟩ rfl]
      simp [MState.init, before_nil]
    cases ha : argOutcome items with
    | error f =>
      rw [ha] at hi
      rw [mathsOut_fail (f := f) (by simp [stepMaths, hs.1, tryEnvironment, hi])]
      simp [environmentOutcome, ha, before]
    | ok a =>
      rw [ha] at hi
      cases i with
      | error f =>
        rw [mathsOut_fail (f := f) (by simp [stepMaths, hs.1, tryEnvironment, hi, hc, inParagraphs])]
        simp [environmentOutcome, ha, before]
      | ok c =>
        rw [mathsOut_step (s' := { s with out := s.out ++ [.mk l (.environment (.mk label a (paragraphs c) pb pe))] }) (by
          simp [stepMaths, hs.1, tryEnvironment, hi, hc, inParagraphs, paragraphs_idem]), ih3 { s with out := s.out ++ _ } hs hb]
        simp only [environmentOutcome, ha, before_before]

theorem Yields.sound {cs o} (h : Yields 0 cs o) : mathsFromChunks cs = inParagraphs o := by
  rw [mathsFromChunks_out, h.sound' MState.init ⟨rfl, rfl⟩ rfl]
  simp [MState.init, before_nil]

/-! ### totality -/

theorem text_cases (ms : List Ast2.Chunk) : (∀ m ∈ ms, NotText m) ∨
    ∃ a l t r, ms = a ++ .mk l (.text t) :: r ∧ ∀ m ∈ a, NotText m := by
  induction ms with
  | nil => exact .inl (by simp)
  | cons c ms ih =>
    obtain ⟨l, v⟩ := c
    by_cases hv : ∃ t, v = .text t
    · obtain ⟨t, rfl⟩ := hv
      exact .inr ⟨[], l, t, ms, rfl, by simp⟩
    · have hc : NotText (.mk l v) := fun t ht => hv ⟨t, ht⟩
      rcases ih with h | ⟨a, l', t, r, rfl, h⟩
      · exact .inl fun m hm => by rcases List.mem_cons.1 hm with rfl | hm; exact hc; exact h m hm
      · exact .inr ⟨.mk l v :: a, l', t, r, rfl, fun m hm => by
          rcases List.mem_cons.1 hm with rfl | hm; exact hc; exact h m hm⟩

/-- size of what is ahead -/
def Place.size (p : Place) : Nat := p.pending.length + p.text.length + 2 + sizeChunks p.rest

theorem toDollar_size {p lost kept p'} (h : ToDollar p lost kept p') : sizeChunks kept + p'.size < p.size := by
  induction h with
  | here => simp [Place.size, sizeChunks]; omega
  | later _ _ _ ih =>
    simp [Place.size, sizeChunks_append, sizeChunks, sizeChunk, sizeVariant] at ih ⊢; omega

theorem toDollar_total : ∀ n (p : Place), p.rest.length ≤ n → NoDollar p ∨ ∃ lost kept p', ToDollar p lost kept p' := by
  intro n
  induction n with
  | zero =>
    rintro ⟨l, q, t, rest⟩ hn
    rcases split_dollar t with h | ⟨x, r, rfl, h⟩
    · have : rest = [] := List.length_eq_zero_iff.1 (Nat.le_zero.1 hn)
      subst this
      exact .inl ⟨h, by simp⟩
    · exact .inr ⟨_, _, _, .here h⟩
  | succ n ih =>
    rintro ⟨l, q, t, rest⟩ hn
    rcases split_dollar t with h | ⟨x, r, rfl, h⟩
    · rcases text_cases rest with hr | ⟨a, l', t', r, rfl, ha⟩
      · exact .inl ⟨h, fun l t hm => absurd rfl (hr _ hm t)⟩
      · rcases ih ⟨l', [], t', r⟩ (by simp at hn ⊢; omega) with h1 | ⟨lost, kept, p', h1⟩
        · refine .inl ⟨h, ?_⟩
          intro l2 t2 hm
          rcases List.mem_append.1 hm with hm | hm
          · exact absurd rfl (ha _ hm t2)
          · rcases List.mem_cons.1 hm with hm | hm
            · cases hm; exact h1.1
            · exact h1.2 l2 t2 hm
        · exact .inr ⟨_, _, _, .later h ha h1⟩
    · exact .inr ⟨_, _, _, .here h⟩

theorem toDollar_or (p : Place) : NoDollar p ∨ ∃ lost kept p', ToDollar p lost kept p' := toDollar_total _ p (Nat.le_refl _)

theorem formula_total (p : Place) (hp : p.pending = []) : Unfinished p ∨
    ∃ lost type content p', Formula p lost type content p' := by
  rcases toDollar_or p with h | ⟨lost, kept, p', h⟩
  · exact .inl (.single h)
  · by_cases hk : kept ≠ [] ∨ p'.pending ≠ []
    · exact .inr ⟨_, _, _, _, .inline h hk⟩
    · simp only [not_or, Classical.not_not] at hk
      obtain ⟨rfl, hk⟩ := hk
      rcases toDollar_or p' with h2 | ⟨lost2, kept2, p2, h2⟩
      · exact .inl (.double h hk h2)
      · rcases toDollar_or p2 with h3 | ⟨lost3, kept3, p3, h3⟩
        · exact .inl (.half h hk h2 h3)
        · exact .inr ⟨_, _, _, _, .display h hk h2 h3⟩

theorem textIf2_size (l : Nat) (x : Str) : sizeChunks (textIf2 l x) ≤ x.length + 2 := by
  unfold textIf2
  split <;> simp [sizeChunks, sizeChunk, sizeVariant]

theorem formula_size {p lost type content p'} (h : Formula p lost type content p') :
    sizeChunks content < p.size ∧ p'.text.length + 2 + sizeChunks p'.rest < p.size := by
  cases h with
  | inline h _ =>
    have h1 := toDollar_size h
    have h2 := textIf2_size p'.line p'.pending
    simp only [Place.size, sizeChunks_append] at *
    omega
  | display h _ h2 h3 =>
    have h1 := toDollar_size h
    have h2 := toDollar_size h2
    have h3 := toDollar_size h3
    have h4 := textIf2_size p'.line p'.pending
    simp only [Place.size, sizeChunks_append] at *
    omega

theorem sizeChunks_count (l : Nat) (cs : List Ast2.Chunk) : sizeChunks (cs.map (countFrom l)) = sizeChunks cs := by
  apply sizeChunks_congr
  rw [List.map_map]
  apply List.map_congr_left
  rintro ⟨l, v⟩ _
  rfl

theorem yield_items {args : List (Str × Ast2.Scope)} (h : ∀ x ∈ args, ∃ o, Yields 0 x.2.chunks o) :
    ∃ items : List ((Str × Ast2.Scope) × Outcome), items.map (·.1) = args ∧ ∀ x ∈ items, Yields 0 x.1.2.chunks x.2 := by
  induction args with
  | nil => exact ⟨[], rfl, by simp⟩
  | cons x r ih =>
    obtain ⟨o, ho⟩ := h x (by simp)
    obtain ⟨items, rfl, hi⟩ := ih fun y hy => h y (by simp [hy])
    exact ⟨(x, o) :: items, rfl, by
      intro y hy
      rcases List.mem_cons.1 hy with rfl | hy
      · exact ho
      · exact hi y hy⟩

theorem size_arg {x : Str × Ast2.Scope} {args} (h : x ∈ args) : sizeChunks x.2.chunks < sizeArgs args := by
  obtain ⟨p, ⟨inner, sv⟩⟩ := x
  exact sizeArgs_mem h

theorem delimiter_cases {label : Str} (h : IsDelimiter label) : ∃ k, label = openLabel k ∨ label = closeLabel k :=
  isMathsLabel_iff'.2 h

theorem yields_total (b : Nat) (cs : List Ast2.Chunk) : ∃ o, Yields b cs o := by
  have key : ∀ n b cs, sizeChunks cs < n → ∃ o, Yields b cs o := by
    intro n
    induction n with
    | zero => intros; omega
    | succ n ih =>
      intro b cs hc
      cases cs with
      | nil => exact ⟨_, .nil⟩
      | cons c cs =>
        have hrest : ∀ b, ∃ o, Yields b cs o := by
          intro b
          apply ih
          obtain ⟨l, v⟩ := c
          simp [sizeChunks, sizeChunk] at hc; omega
        obtain ⟨l, v⟩ := c
        cases v with
        | text t =>
          rcases split_dollar t with ht | ⟨q, r, rfl, hq⟩
          · obtain ⟨o, ho⟩ := hrest b
            exact ⟨_, .text ht ho⟩
          · rcases formula_total ⟨l + q.count '\n', [], r, cs⟩ rfl with hu | ⟨lost, type, content, p, hf⟩
            · exact ⟨_, .unfinished hq hu⟩
            · by_cases hcn : Countable p.line content
              · have hsz := formula_size hf
                simp only [Place.size, List.length_nil, Nat.zero_add] at hsz
                simp [sizeChunks, sizeChunk, sizeVariant] at hc
                obtain ⟨i, hi⟩ := ih 0 (content.map (countFrom p.line)) (by rw [sizeChunks_count]; omega)
                obtain ⟨o, ho⟩ := ih b (.mk (p.line + p.pending.count '\n') (.text p.text) :: p.rest) (by
                  simp [sizeChunks, sizeChunk, sizeVariant]; omega)
                exact ⟨_, .formula hq hf hcn hi ho⟩
              · exact ⟨_, .uncountable hq hf hcn⟩
        | scope sc =>
          obtain ⟨inner, sv⟩ := sc
          obtain ⟨o, ho⟩ := hrest b
          obtain ⟨i, hi⟩ := ih 0 inner (by simp [sizeChunks, sizeChunk, sizeVariant, sizeScope] at hc; omega)
          exact ⟨_, .scope hi ho⟩
        | environment e =>
          obtain ⟨label, args, body, pb, pe⟩ := e
          obtain ⟨o, ho⟩ := hrest b
          obtain ⟨items, rfl, hi⟩ := yield_items (args := args) fun x hx => ih 0 _ (by
            have := size_arg hx
            simp [sizeChunks, sizeChunk, sizeVariant, sizeEnvironment] at hc; omega)
          obtain ⟨i, hi'⟩ := ih 0 body (by simp [sizeChunks, sizeChunk, sizeVariant, sizeEnvironment] at hc; omega)
          exact ⟨_, .environment hi hi' ho⟩
        | command cm =>
          obtain ⟨label, args⟩ := cm
          by_cases hl : IsDelimiter label
          · obtain ⟨k, rfl | rfl⟩ := delimiter_cases hl
            · rcases split_inside k _ cs (Nat.le_refl _) with ⟨body, inner, l', args', post, rfl, h1⟩ | h1
              · have h2 := inside_size h1
                simp [sizeChunks, sizeChunk, sizeVariant, sizeCommand, sizeChunks_append] at hc
                obtain ⟨i, hi⟩ := ih 0 inner (by omega)
                obtain ⟨o, ho⟩ := ih l post (by omega)
                exact ⟨_, .brackets h1 hi ho⟩
              · exact ⟨_, .unclosed h1⟩
            · exact ⟨_, .unexpected⟩
          · obtain ⟨o, ho⟩ := hrest b
            obtain ⟨items, rfl, hi⟩ := yield_items (args := args) fun x hx => ih 0 _ (by
              have := size_arg hx
              simp [sizeChunks, sizeChunk, sizeVariant, sizeCommand] at hc; omega)
            exact ⟨_, .command hl hi ho⟩
  exact key _ b cs (Nat.lt_succ_self _)

theorem yields_unique {b cs o o'} (h : Yields b cs o) (h' : Yields b cs o') : o = o' := by
  have h1 := h.sound' ⟨[], .none, 0, [], b⟩ ⟨rfl, rfl⟩ rfl
  have h2 := h'.sound' ⟨[], .none, 0, [], b⟩ ⟨rfl, rfl⟩ rfl
  rw [before_nil] at h1 h2
  exact h1.symm.trans h2

theorem yields_iff {cs r} : mathsFromChunks cs = r ↔ ∃ o, Yields 0 cs o ∧ r = inParagraphs o := by
  constructor
  · rintro rfl
    obtain ⟨o, ho⟩ := yields_total 0 cs
    exact ⟨o, ho, ho.sound⟩
  · rintro ⟨o, ho, rfl⟩
    exact ho.sound

end LatexAst.Ast3
