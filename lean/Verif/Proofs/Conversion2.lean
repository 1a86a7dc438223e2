import Verif.Spec.Conversion
import Verif.Proofs.Conv2Facts

/-!
# The conversion relation of `Spec/Conversion.lean` describes the code
-/

namespace LatexAst.Ast2
open LatexAst.Ast1 (Opened Matched Checked Child NumberedInOrder)

theorem renumber_eq (k : Nat) : renumber k = rebase1 k := by
  funext c; cases c; rfl

theorem endOfBegin_eq (l p lab args) : endOfBegin l ((p, .mk lab .curly) :: args) = startL l p lab args :=
  (newlines_beginC l p lab args).symm

def Outcome.toRes {α : Type} : Except Error α → Res α
  | .ok a => .ok a
  | .error e => .error (.err e)

theorem convArgs_items {items : List ((Str × Ast1.Scope) × Outcome)}
    (h : ∀ x ∈ items, tryFrom x.1.2.chunks = Outcome.toRes x.2) :
    convArgs tryFrom (items.map (·.1)) = Outcome.toRes (argOutcome items) := by
  induction items with
  | nil => rfl
  | cons x r ih =>
    obtain ⟨⟨p, ⟨inner, sv⟩⟩, o⟩ := x
    have h1 := h _ (List.mem_cons_self ..)
    have h2 := ih fun y hy => h y (List.mem_cons_of_mem _ hy)
    simp only [Ast1.Scope.chunks] at h1
    simp only [List.map_cons, convArgs, convScope, h1, h2, argOutcome, Ast1.Scope.variant]
    cases o with
    | error e => rfl
    | ok a => cases argOutcome r <;> rfl

/-- run, then finish -/
def runOut (cs : List Ast1.Chunk) (s : State) : Res (List Chunk) :=
  match run tryFrom cs s with
  | .error f => .error f
  | .ok s => finish s

theorem runOut_step {c cs s s'} (h : step tryFrom s c = .ok s') : runOut (c :: cs) s = runOut cs s' := by
  simp [runOut, run, h]
theorem runOut_fail {c cs s f} (h : step tryFrom s c = .error f) : runOut (c :: cs) s = .error f := by
  simp [runOut, run, h]
theorem tryFrom_runOut (cs : List Ast1.Chunk) : tryFrom cs = runOut cs State.init := by
  rw [tryFrom_eq]; rfl

theorem pushBuffer_ok {e stack start args buf p l} (v : Ast1.ChunkVariant) (h : start ≤ l) :
    State.pushBuffer ⟨e, stack, start, args, buf, p⟩ l v
      = .ok ⟨e, stack, start, args, buf ++ [rebase1 start (.mk l v)], p⟩ := by
  simp [State.pushBuffer, checkedSub, h, rebase1]

theorem step_other {e lab st start args buf p} {c : Ast1.Chunk} (hn : ¬ c.IsDelimiter) (h : start ≤ c.lineNo) :
    step tryFrom ⟨e, lab :: st, start, args, buf, p⟩ c
      = .ok ⟨e, lab :: st, start, args, buf ++ [rebase1 start c], p⟩ := by
  obtain ⟨l, v⟩ := c
  cases v with
  | text t => simp [step]; exact pushBuffer_ok _ h
  | scope sc => simp [step]; exact pushBuffer_ok _ h
  | command cm =>
    obtain ⟨label, as⟩ := cm
    have : ¬ (label = chars!"begin" ∨ label = chars!"end") := fun hl => hn ⟨label, as, rfl, hl⟩
    simp only [step]
    rw [if_pos (by exact this)]
    simp; exact pushBuffer_ok _ h

theorem step_opens {e lab st start args buf p} {c : Ast1.Chunk} {lab'} (hb : c.Begins lab') (h : start ≤ c.lineNo) :
    step tryFrom ⟨e, lab :: st, start, args, buf, p⟩ c
      = .ok ⟨e, lab :: (st ++ [lab']), start, args, buf ++ [rebase1 start c], p⟩ := by
  obtain ⟨l, v⟩ := c
  obtain ⟨p', as, hv⟩ := hb
  simp only [Ast1.Chunk.variant] at hv
  subst hv
  simp [step, Ast1.Command.label, Ast1.Command.arguments, stepBegin, Ast1.Scope.variant, Ast1.Scope.chunks]
  exact pushBuffer_ok _ h

theorem step_closes {e lab st start args buf p} {c : Ast1.Chunk} {lab'} (hb : c.Ends lab') (h : start ≤ c.lineNo) :
    step tryFrom ⟨e, lab :: (st ++ [lab']), start, args, buf, p⟩ c
      = .ok ⟨e, lab :: st, start, args, buf ++ [rebase1 start c], p⟩ := by
  obtain ⟨l, v⟩ := c
  obtain ⟨p', hv⟩ := hb
  simp only [Ast1.Chunk.variant] at hv
  subst hv
  have ht : ¬ topIs (lab :: (st ++ [lab'])) lab' = false := by
    rw [top_iff, ← List.cons_append, List.getLast?_concat]; simp
  have hd : (lab :: (st ++ [lab'])).dropLast = lab :: st := by
    rw [show lab :: (st ++ [lab']) = (lab :: st) ++ [lab'] from rfl, List.dropLast_concat]
  simp only [step, Ast1.Command.label, Ast1.Command.arguments, stepEnd, Ast1.Scope.variant, Ast1.Scope.chunks]
  simp only [if_neg ht, hd]
  simp
  exact pushBuffer_ok _ h

theorem runOut_opened {body st tail e lab start args p} (h : Opened body st) (hl : ∀ c ∈ body, start ≤ c.lineNo) :
    runOut (body ++ tail) ⟨e, [lab], start, args, [], p⟩
      = runOut tail ⟨e, lab :: st.reverse, start, args, body.map (rebase1 start), p⟩ := by
  induction h generalizing tail with
  | nil => rfl
  | @other pre st c _ h1 ih =>
    rw [List.append_assoc, ih fun c hc => hl c (List.mem_append_left _ hc)]
    rw [List.singleton_append, runOut_step (step_other h1 (hl c (by simp)))]
    simp
  | @opens pre st c lab _ h1 ih =>
    rw [List.append_assoc, ih fun c hc => hl c (List.mem_append_left _ hc)]
    rw [List.singleton_append, runOut_step (step_opens h1 (hl c (by simp)))]
    simp
  | @closes pre st c lab _ h1 ih =>
    rw [List.append_assoc, ih fun c hc => hl c (List.mem_append_left _ hc)]
    simp only [List.reverse_cons]
    rw [List.singleton_append, runOut_step (step_closes h1 (hl c (by simp)))]
    simp

theorem step_bad {s : State} {c : Ast1.Chunk} {t} (h : BadDelimiter s.stack.reverse c t) :
    step tryFrom s c = .error (.err ⟨c.lineNo, t⟩) := by
  obtain ⟨l, v⟩ := c
  cases h with
  | @noLabel label args hv hl hn =>
    simp only [Ast1.Chunk.variant] at hv
    subst hv
    simp only [step]
    rw [if_neg (by exact fun h => h hl)]
    cases args with
    | nil => rfl
    | cons x r =>
      obtain ⟨p, ⟨lab, sv⟩⟩ := x
      have : sv ≠ .curly := fun hs => hn p lab r (by rw [hs])
      simp only [Ast1.Command.arguments]
      rw [if_pos (by exact this)]; rfl
  | @unexpectedEnd p lab r hv hn =>
    simp only [Ast1.Chunk.variant] at hv
    subst hv
    have ht : topIs s.stack lab = false := by
      rw [top_iff]; simpa using hn
    simp [step, Ast1.Command.label, Ast1.Command.arguments, stepEnd, Ast1.Scope.variant, Ast1.Scope.chunks, ht]
    rfl
  | @tooManyArgs p lab x r hv hn =>
    simp only [Ast1.Chunk.variant] at hv
    subst hv
    have ht : topIs s.stack lab = true := by
      cases hb : topIs s.stack lab with
      | true => rfl
      | false => exact absurd (by simpa using hn) ((top_iff _ _).1 hb)
    simp [step, Ast1.Command.label, Ast1.Command.arguments, stepEnd, Ast1.Scope.variant, Ast1.Scope.chunks, ht]
    rfl

/-- a chunk list read before the outcome -/
def afterAll (e : List Chunk) : Outcome → Res (List Chunk)
  | .ok cs => .ok (e ++ cs)
  | .error f => .error (.err f)

theorem afterAll_after (e c o) : afterAll e (Outcome.after c o) = afterAll (e ++ [c]) o := by
  cases o <;> simp [afterAll, Outcome.after]

theorem afterAll_nil (o) : afterAll [] o = Outcome.toRes o := by cases o <;> rfl

theorem runOut_begin {e bs l p lab args cs} :
    runOut (beginC l p lab args :: cs) ⟨e, [], bs, [], [], []⟩
      = runOut cs ⟨e, [lab], startL l p lab args, args, [], p⟩ := by
  rw [runOut_step]
  simp [step, Ast1.Command.label, Ast1.Command.arguments, stepBegin, Ast1.Scope.variant, Ast1.Scope.chunks]

theorem numbered_tail {c cs} (h : NumberedInOrder (c :: cs)) : NumberedInOrder cs := by
  intro lv hl pre l args mid x post he
  rcases hl.head with rfl | ⟨inner, hc, hl⟩
  · exact h _ .top (c :: pre) l args mid x post (by simp [he])
  · exact h lv (Checked.trans (.child .top (hc.mono fun x hx => List.mem_cons_of_mem _ hx)) hl) pre l args mid x post he

theorem numbered_suffix {a cs} (h : NumberedInOrder (a ++ cs)) : NumberedInOrder cs := by
  induction a with
  | nil => exact h
  | cons c a ih => exact ih (numbered_tail h)

theorem numbered_start {l p lab args body rest} (h : NumberedInOrder (beginC l p lab args :: (body ++ rest))) :
    ∀ c ∈ body, startL l p lab args ≤ c.lineNo := by
  intro c hc
  obtain ⟨a, b, rfl⟩ := List.append_of_mem hc
  rw [newlines_beginC]
  exact h _ .top [] l _ a c (b ++ rest) (by simp)

theorem item_child {l label cs x} {items : List ((Str × Ast1.Scope) × Outcome)} (h1 : label ≠ chars!"begin")
    (h2 : label ≠ chars!"end") (hx : x ∈ items) :
    Child (.mk l (.command (.mk label (items.map (·.1)))) :: cs) x.1.2.chunks := by
  obtain ⟨⟨p, ⟨inner, sv⟩⟩, o⟩ := x
  exact .arg (List.mem_cons_self ..) h1 h2 (List.mem_map.2 ⟨_, hx, rfl⟩)

theorem item_child' {l p lab cs x} {items : List ((Str × Ast1.Scope) × Outcome)} (hx : x ∈ items) :
    Child (beginC l p lab (items.map (·.1)) :: cs) x.1.2.chunks := by
  obtain ⟨⟨p, ⟨inner, sv⟩⟩, o⟩ := x
  exact .beginArg (List.mem_cons_self ..) (List.mem_map.2 ⟨_, hx, rfl⟩)

theorem Converts.sound' {cs o} (h : Converts cs o) (hn : NumberedInOrder cs) :
    ∀ e bs, runOut cs ⟨e, [], bs, [], [], []⟩ = afterAll e o := by
  induction h with
  | nil => intro e bs; simp [runOut, run, finish, afterAll]
  | @text l t cs o _ ih =>
    intro e bs
    rw [runOut_step (s' := ⟨e ++ [.mk l (.text t)], [], bs, [], [], []⟩) (by simp [step, State.pushChunks]),
      ih (numbered_tail hn), afterAll_after]
  | @scope l inner sv cs i o _ _ ih1 ih2 =>
    intro e bs
    have hi := ih1 (numbered_child hn (.scope (List.mem_cons_self ..))) [] 0
    rw [afterAll_nil] at hi
    have hi' : tryFrom inner = Outcome.toRes i := (tryFrom_runOut inner).trans hi
    cases i with
    | error f =>
      rw [runOut_fail (f := .err (offBy l f)) (by simp [step, convScope, hi', Outcome.toRes, addLine, offBy])]
      rfl
    | ok a =>
      rw [runOut_step (s' := ⟨e ++ [.mk l (.scope (.mk a sv))], [], bs, [], [], []⟩)
        (by simp [step, convScope, hi', Outcome.toRes, addLine, State.pushChunks]), ih2 (numbered_tail hn)]
      simp only [scopeOutcome, afterAll_after]
  | @command l label cs o items h1 h2 _ _ ih1 ih2 =>
    intro e bs
    have hi := convArgs_items (items := items) fun x hx =>
      (tryFrom_runOut _).trans ((ih1 x hx (numbered_child hn (item_child h1 h2 hx)) [] 0).trans (afterAll_nil _))
    have hl : ¬ (label = chars!"begin" ∨ label = chars!"end") := by simp [h1, h2]
    cases ha : argOutcome items with
    | error f =>
      rw [ha] at hi
      rw [runOut_fail (f := .err f)]
      · simp [commandOutcome, ha, afterAll]
      · simp only [step]
        rw [if_pos (by exact hl)]
        simp [convCommand, hi, Outcome.toRes]
    | ok a =>
      rw [ha] at hi
      rw [runOut_step (s' := ⟨e ++ [.mk l (.command (.mk label a))], [], bs, [], [], []⟩), ih2 (numbered_tail hn)]
      · simp [commandOutcome, ha, afterAll_after]
      · simp only [step]
        rw [if_pos (by exact hl)]
        simp [convCommand, hi, Outcome.toRes, State.pushChunks]
  | @environment l p lab body l' pe cs i o items hm _ _ _ ih1 ih2 ih3 =>
    intro e bs
    have hargs := convArgs_items (items := items) fun x hx =>
      (tryFrom_runOut _).trans ((ih1 x hx (numbered_child hn (item_child' hx)) [] 0).trans (afterAll_nil _))
    have hk := numbered_start hn
    rw [renumber_eq, endOfBegin_eq] at ih2
    have hb := ih2 (numbered_body (d0 := []) (c0 := [_]) hn hk) [] 0
    rw [afterAll_nil] at hb
    have hb' := (tryFrom_runOut _).trans hb
    have ht : ¬ topIs [lab] lab = false := by rw [top_iff]; simp
    rw [runOut_begin, runOut_opened hm.opened hk, endOfBegin_eq]
    simp only [List.reverse_nil]
    cases ha : argOutcome items with
    | error f =>
      rw [ha] at hargs
      rw [runOut_fail (f := .err f)]
      · simp [environmentOutcome, ha, afterAll]
      · simp [step, Ast1.Command.label, Ast1.Command.arguments, stepEnd, Ast1.Scope.variant, Ast1.Scope.chunks, ht,
          hargs, Outcome.toRes]
    | ok a =>
      rw [ha] at hargs
      cases i with
      | error f =>
        rw [runOut_fail (f := .err (offBy (startL l p lab (items.map (·.1))) f))]
        · simp [environmentOutcome, ha, afterAll]
        · simp [step, Ast1.Command.label, Ast1.Command.arguments, stepEnd, Ast1.Scope.variant, Ast1.Scope.chunks, ht,
            hargs, Outcome.toRes, hb', addLine, offBy]
      | ok b =>
        rw [runOut_step (s' := ⟨e ++ [.mk (startL l p lab (items.map (·.1)))
          (.environment (.mk (Ast1.displayChunks lab) a b p pe))], [], startL l p lab (items.map (·.1)), [], [], []⟩),
          ih3 (numbered_suffix (a := [_] ++ body ++ [_]) (by simpa using hn))]
        · simp [environmentOutcome, ha, afterAll_after]
        · simp [step, Ast1.Command.label, Ast1.Command.arguments, stepEnd, Ast1.Scope.variant, Ast1.Scope.chunks, ht,
            hargs, Outcome.toRes, hb', addLine]
  | @bad c cs t hb =>
    intro e bs
    rw [runOut_fail (step_bad (by simpa using hb))]; rfl
  | @badInside l p lab args body st c cs t ho hb =>
    intro e bs
    rw [runOut_begin, runOut_opened ho (numbered_start hn), runOut_fail (step_bad (by simpa using hb))]; rfl
  | @unclosed l p lab args body st ho =>
    intro e bs
    rw [runOut_begin]
    have := runOut_opened (tail := []) (e := e) (lab := lab) (args := args) (p := p) ho
      (numbered_start (l := l) (p := p) (lab := lab) (args := args) (rest := []) (by simpa using hn))
    rw [List.append_nil] at this
    rw [this, endOfBegin_eq]
    simp [runOut, run, finish, fail, afterAll]

theorem Converts.sound {cs o} (h : Converts cs o) (hn : NumberedInOrder cs) : tryFrom cs = Outcome.toRes o := by
  rw [tryFrom_runOut, ← afterAll_nil]; exact h.sound' hn [] 0

/-! ### totality -/

/-- How a sequence of chunks goes on after a `\begin`. -/
theorem scan (lab : List Ast1.Chunk) (cs : List Ast1.Chunk) :
    (∃ body l' pe rest, cs = body ++ endC l' pe lab :: rest ∧ Matched body) ∨
    (∃ body st c rest t, cs = body ++ c :: rest ∧ Opened body st ∧ BadDelimiter (st ++ [lab]) c t) ∨
    (∃ st, Opened cs st) := by
  have key : ∀ cs pre st, Opened pre st →
      (∃ body l' pe rest, pre ++ cs = body ++ endC l' pe lab :: rest ∧ Matched body) ∨
      (∃ body st c rest t, pre ++ cs = body ++ c :: rest ∧ Opened body st ∧ BadDelimiter (st ++ [lab]) c t) ∨
      (∃ st, Opened (pre ++ cs) st) := by
    intro cs
    induction cs with
    | nil => intro pre st h; exact .inr (.inr ⟨st, by simpa using h⟩)
    | cons c cs ih =>
      intro pre st h
      have go : ∀ st', Opened (pre ++ [c]) st' → _ := fun st' h' => ih (pre ++ [c]) st' h'
      simp only [List.append_assoc, List.singleton_append] at go
      by_cases hd : c.IsDelimiter
      · obtain ⟨label, args, hv, hl⟩ := hd
        by_cases hl' : ∃ p lab r, args = (p, .mk lab .curly) :: r
        · obtain ⟨p, lab', r, rfl⟩ := hl'
          rcases hl with rfl | rfl
          · exact go _ (.opens h ⟨p, r, hv⟩)
          · by_cases ht : (st ++ [lab]).head? = some lab'
            · cases r with
              | nil =>
                cases st with
                | nil =>
                  simp at ht
                  subst ht
                  obtain ⟨l, v⟩ := c
                  simp only [Ast1.Chunk.variant] at hv
                  subst hv
                  exact .inl ⟨pre, l, p, cs, rfl, (Ast1.opened_iff_matched _).1 h⟩
                | cons x st =>
                  simp at ht
                  subst ht
                  exact go _ (.closes h ⟨p, hv⟩)
              | cons y r => exact .inr (.inl ⟨pre, st, c, cs, _, rfl, h, .tooManyArgs hv ht⟩)
            · exact .inr (.inl ⟨pre, st, c, cs, _, rfl, h, .unexpectedEnd hv ht⟩)
        · exact .inr (.inl ⟨pre, st, c, cs, _, rfl, h, .noLabel hv hl (fun p lab r he => hl' ⟨p, lab, r, he⟩)⟩)
      · exact go _ (.other h hd)
  exact key cs [] [] .nil

theorem items_total {args : List (Str × Ast1.Scope)} (h : ∀ x ∈ args, ∃ o, Converts x.2.chunks o) :
    ∃ items : List ((Str × Ast1.Scope) × Outcome), items.map (·.1) = args ∧ ∀ x ∈ items, Converts x.1.2.chunks x.2 := by
  induction args with
  | nil => exact ⟨[], rfl, by simp⟩
  | cons x r ih =>
    obtain ⟨o, ho⟩ := h x (by simp)
    obtain ⟨items, rfl, hi⟩ := ih fun y hy => h y (by simp [hy])
    exact ⟨(x, o) :: items, rfl, by
      intro y hy
      rcases List.mem_cons.1 hy with rfl | hy
      · exact ho
      · exact hi y hy⟩

theorem size_arg {x : Str × Ast1.Scope} {args} (h : x ∈ args) : sizeChunks x.2.chunks < sizeArgs args := by
  obtain ⟨p, ⟨inner, sv⟩⟩ := x
  exact sizeArgs_mem h

theorem converts_total (cs : List Ast1.Chunk) : ∃ o, Converts cs o := by
  have key : ∀ n cs, sizeChunks cs < n → ∃ o, Converts cs o := by
    intro n
    induction n with
    | zero => intros; omega
    | succ n ih =>
      intro cs hc
      cases cs with
      | nil => exact ⟨_, .nil⟩
      | cons c cs =>
        have hrest : ∃ o, Converts cs o := by
          apply ih
          obtain ⟨l, v⟩ := c
          simp [sizeChunks, sizeChunk] at hc; omega
        obtain ⟨o, ho⟩ := hrest
        obtain ⟨l, v⟩ := c
        cases v with
        | text t => exact ⟨_, .text ho⟩
        | scope sc =>
          obtain ⟨inner, sv⟩ := sc
          obtain ⟨i, hi⟩ := ih inner (by simp [sizeChunks, sizeChunk, sizeVariant, sizeScope] at hc; omega)
          exact ⟨_, .scope hi ho⟩
        | command cm =>
          obtain ⟨label, args⟩ := cm
          by_cases hl : label = chars!"begin" ∨ label = chars!"end"
          · by_cases hl' : ∃ p lab r, args = (p, .mk lab .curly) :: r
            · obtain ⟨p, lab, r, rfl⟩ := hl'
              rcases hl with rfl | rfl
              · rcases scan lab cs with ⟨body, l', pe, rest, rfl, hm⟩ | ⟨body, st, c, rest, t, rfl, h1, h2⟩ | ⟨st, h⟩
                · have hsz : sizeArgs r < n ∧ sizeChunks body < n ∧ sizeChunks rest < n := by
                    simp [sizeChunks, sizeChunk, sizeVariant, sizeCommand, sizeArgs, sizeChunks_append] at hc; omega
                  obtain ⟨items, rfl, hi⟩ := items_total (args := r) fun x hx => ih _ (by have := size_arg hx; omega)
                  obtain ⟨i, hi'⟩ := ih (body.map (renumber (endOfBegin l ((p, .mk lab .curly) :: items.map (·.1)))))
                    (by rw [renumber_eq, sizeChunks_rebase]; omega)
                  obtain ⟨o', ho'⟩ := ih rest hsz.2.2
                  exact ⟨_, .environment hm hi hi' ho'⟩
                · exact ⟨_, .badInside h1 h2⟩
                · exact ⟨_, .unclosed h⟩
              · exact ⟨_, .bad (.unexpectedEnd rfl (by simp))⟩
            · exact ⟨_, .bad (.noLabel rfl hl (fun p lab r he => hl' ⟨p, lab, r, he⟩))⟩
          · obtain ⟨items, rfl, hi⟩ := items_total (args := args) fun x hx => ih _ (by
              have := size_arg hx
              simp [sizeChunks, sizeChunk, sizeVariant, sizeCommand] at hc; omega)
            exact ⟨_, .command (fun h => hl (.inl h)) (fun h => hl (.inr h)) hi ho⟩
  exact key _ cs (Nat.lt_succ_self _)

theorem toRes_inj {o o' : Outcome} (h : Outcome.toRes o = Outcome.toRes o') : o = o' := by
  cases o <;> cases o' <;> simp [Outcome.toRes] at h <;> simp [h]

theorem converts_iff {cs} (hn : NumberedInOrder cs) (o : Outcome) : Converts cs o ↔ tryFrom cs = Outcome.toRes o := by
  refine ⟨fun h => h.sound hn, fun h => ?_⟩
  obtain ⟨o', ho'⟩ := converts_total cs
  have := toRes_inj (h.symm.trans (ho'.sound hn))
  rwa [this]

end LatexAst.Ast2
