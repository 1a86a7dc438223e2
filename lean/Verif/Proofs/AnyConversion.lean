import Verif.Spec.AnyConversion
import Verif.Proofs.Conversion2

namespace LatexAst.Ast2
open Ast1 (Opened Matched)

theorem argsEnding_items {items : List ((Str × Ast1.Scope) × Ending)} (h : ∀ x ∈ items, tryFrom x.1.2.chunks = x.2) :
    convArgs tryFrom (items.map (·.1)) = argEnding items := by
  induction items with
  | nil => rfl
  | cons x r ih =>
    obtain ⟨⟨p, ⟨inner, sv⟩⟩, o⟩ := x
    have h1 := h _ (List.mem_cons_self ..)
    simp only [Ast1.Scope.chunks] at h1
    have h2 := ih fun x hx => h x (List.mem_cons_of_mem _ hx)
    simp only [List.map_cons, convArgs, convScope, h1, argEnding, h2]
    cases o with
    | error f => rfl
    | ok a => cases argEnding r <;> rfl

/-- a chunk list read before the ending -/
def afterSome (e : List Chunk) : Ending → Ending
  | .ok cs => .ok (e ++ cs)
  | .error f => .error f

theorem afterSome_after (e c o) : afterSome e (Ending.after c o) = afterSome (e ++ [c]) o := by
  cases o <;> simp [afterSome, Ending.after]

theorem afterSome_nil (o) : afterSome [] o = o := by cases o <;> rfl

theorem addLine_failIn {k : Nat} {f : Fail} : addLine (α := α) k (.error f) = .error (failIn k f) := by
  cases f <;> rfl

theorem pushBuffer_panic {e stack start args buf p l} (v : Ast1.ChunkVariant) (h : l < start) :
    State.pushBuffer ⟨e, stack, start, args, buf, p⟩ l v = .error .panic := by
  have : ¬ start ≤ l := by omega
  simp [State.pushBuffer, checkedSub, this, panicked]

theorem step_above {e lab start args buf p} {body : List Ast1.Chunk} {c : Ast1.Chunk} {st st'} (h0 : Opened body st)
    (h1 : Opened (body ++ [c]) st') (h : c.lineNo < start) :
    step tryFrom ⟨e, lab :: st.reverse, start, args, buf, p⟩ c = .error .panic := by
  generalize hx : body ++ [c] = x at h1
  obtain ⟨l, v⟩ := c
  have hu : ∀ {st2}, Opened body st2 → st2 = st := fun h2 => h2.unique h0
  cases h1 with
  | nil => simp at hx
  | @other pre _ c' h1 h2 =>
    obtain ⟨rfl, hc⟩ := List.append_inj' hx rfl
    cases hc
    cases v with
    | text t => simp [step]; exact pushBuffer_panic _ h
    | scope sc => simp [step]; exact pushBuffer_panic _ h
    | command cm =>
      obtain ⟨label, as⟩ := cm
      have : ¬ (label = chars!"begin" ∨ label = chars!"end") := fun hl => h2 ⟨label, as, rfl, hl⟩
      simp only [step]
      rw [if_pos (by exact this)]
      simp; exact pushBuffer_panic _ h
  | @opens pre _ c' lab' h1 h2 =>
    obtain ⟨rfl, hc⟩ := List.append_inj' hx rfl
    cases hc
    obtain ⟨p', as, hv⟩ := h2
    simp only [Ast1.Chunk.variant] at hv
    subst hv
    simp [step, Ast1.Command.label, Ast1.Command.arguments, stepBegin, Ast1.Scope.variant, Ast1.Scope.chunks]
    exact pushBuffer_panic _ h
  | @closes pre _ c' lab' h1 h2 =>
    obtain ⟨rfl, hc⟩ := List.append_inj' hx rfl
    cases hc
    have := hu h1
    subst this
    obtain ⟨p', hv⟩ := h2
    simp only [Ast1.Chunk.variant] at hv
    subst hv
    have ht : ¬ topIs (lab :: (st'.reverse ++ [lab'])) lab' = false := by
      rw [top_iff, ← List.cons_append, List.getLast?_concat]; simp
    have hd : (lab :: (st'.reverse ++ [lab'])).dropLast = lab :: st'.reverse := by
      rw [show lab :: (st'.reverse ++ [lab']) = (lab :: st'.reverse) ++ [lab'] from rfl, List.dropLast_concat]
    simp only [step, Ast1.Command.label, Ast1.Command.arguments, stepEnd, Ast1.Scope.variant, Ast1.Scope.chunks, List.reverse_cons]
    simp only [if_neg ht, hd]
    simp
    exact pushBuffer_panic _ h

theorem Meets.sound' {cs o} (h : Meets cs o) : ∀ e bs, runOut cs ⟨e, [], bs, [], [], []⟩ = afterSome e o := by
  induction h with
  | nil => intro e bs; simp [runOut, run, finish, afterSome]
  | @text l t cs o _ ih =>
    intro e bs
    rw [runOut_step (s' := ⟨e ++ [.mk l (.text t)], [], bs, [], [], []⟩) (by simp [step, State.pushChunks]),
      ih, afterSome_after]
  | @scope l inner sv cs i o _ _ ih1 ih2 =>
    intro e bs
    have hi := ih1 [] 0
    rw [afterSome_nil] at hi
    have hi' : tryFrom inner = i := (tryFrom_runOut inner).trans hi
    cases i with
    | error f =>
      rw [runOut_fail (f := failIn l f) (by simp [step, convScope, hi', addLine_failIn])]
      rfl
    | ok a =>
      rw [runOut_step (s' := ⟨e ++ [.mk l (.scope (.mk a sv))], [], bs, [], [], []⟩)
        (by simp [step, convScope, hi', addLine, State.pushChunks]), ih2]
      simp only [scopeEnding, afterSome_after]
  | @command l label cs o items h1 h2 _ _ ih1 ih2 =>
    intro e bs
    have hi := argsEnding_items (items := items) fun x hx => (tryFrom_runOut _).trans ((ih1 x hx [] 0).trans (afterSome_nil _))
    have hl : ¬ (label = chars!"begin" ∨ label = chars!"end") := by simp [h1, h2]
    cases ha : argEnding items with
    | error f =>
      rw [ha] at hi
      rw [runOut_fail (f := f)]
      · simp [commandEnding, ha, afterSome]
      · simp only [step]
        rw [if_pos (by exact hl)]
        simp [convCommand, hi]
    | ok a =>
      rw [ha] at hi
      rw [runOut_step (s' := ⟨e ++ [.mk l (.command (.mk label a))], [], bs, [], [], []⟩), ih2]
      · simp [commandEnding, ha, afterSome_after]
      · simp only [step]
        rw [if_pos (by exact hl)]
        simp [convCommand, hi, State.pushChunks]
  | @environment l p lab body l' pe cs i o items hm hk _ _ _ ih1 ih2 ih3 =>
    intro e bs
    have hargs := argsEnding_items (items := items) fun x hx => (tryFrom_runOut _).trans ((ih1 x hx [] 0).trans (afterSome_nil _))
    rw [endOfBegin_eq] at hk
    rw [renumber_eq, endOfBegin_eq] at ih2
    have hb := ih2 [] 0
    rw [afterSome_nil] at hb
    have hb' := (tryFrom_runOut _).trans hb
    have ht : ¬ topIs [lab] lab = false := by rw [top_iff]; simp
    rw [runOut_begin, runOut_opened hm.opened hk, endOfBegin_eq]
    simp only [List.reverse_nil]
    cases ha : argEnding items with
    | error f =>
      rw [ha] at hargs
      rw [runOut_fail (f := f)]
      · simp [environmentEnding, ha, afterSome]
      · simp [step, Ast1.Command.label, Ast1.Command.arguments, stepEnd, Ast1.Scope.variant, Ast1.Scope.chunks, ht, hargs]
    | ok a =>
      rw [ha] at hargs
      cases i with
      | error f =>
        rw [runOut_fail (f := failIn (startL l p lab (items.map (·.1))) f)]
        · simp [environmentEnding, ha, afterSome]
        · simp [step, Ast1.Command.label, Ast1.Command.arguments, stepEnd, Ast1.Scope.variant, Ast1.Scope.chunks, ht,
            hargs, hb', addLine_failIn]
      | ok b =>
        rw [runOut_step (s' := ⟨e ++ [.mk (startL l p lab (items.map (·.1)))
          (.environment (.mk (Ast1.displayChunks lab) a b p pe))], [], startL l p lab (items.map (·.1)), [], [], []⟩),
          ih3]
        · simp [environmentEnding, ha, afterSome_after]
        · simp [step, Ast1.Command.label, Ast1.Command.arguments, stepEnd, Ast1.Scope.variant, Ast1.Scope.chunks, ht,
            hargs, hb', addLine]
  | @above l p lab args body c st cs ho hk hc =>
    intro e bs
    rw [endOfBegin_eq] at hk hc
    obtain ⟨st0, h0⟩ := ho.prefix
    rw [runOut_begin, runOut_opened h0 hk, runOut_fail (step_above h0 ho hc)]; rfl
  | @bad c cs t hb =>
    intro e bs
    rw [runOut_fail (step_bad (by simpa using hb))]; rfl
  | @badInside l p lab args body st c cs t ho hk hb =>
    intro e bs
    rw [endOfBegin_eq] at hk
    rw [runOut_begin, runOut_opened ho hk, runOut_fail (step_bad (by simpa using hb))]; rfl
  | @unclosed l p lab args body st ho hk =>
    intro e bs
    rw [endOfBegin_eq] at hk
    rw [runOut_begin]
    have := runOut_opened (tail := []) (e := e) (lab := lab) (args := args) (p := p) ho hk
    rw [List.append_nil] at this
    rw [this, endOfBegin_eq]
    simp [runOut, run, finish, fail, afterSome]

theorem Meets.sound {cs r} (h : Meets cs r) : tryFrom cs = r := by
  rw [tryFrom_runOut, ← afterSome_nil r]; exact h.sound' [] 0

/-- Either all of the chunks are from line `n` on, or there is a first that is not. -/
theorem from_or (n : Nat) (cs : List Ast1.Chunk) : NotAbove n cs ∨ ∃ a c b, cs = a ++ c :: b ∧ NotAbove n a ∧ c.lineNo < n := by
  induction cs with
  | nil => exact .inl (by simp [NotAbove])
  | cons c cs ih =>
    by_cases hc : n ≤ c.lineNo
    · rcases ih with ih | ⟨a, c', b, rfl, h1, h2⟩
      · refine .inl fun x hx => ?_
        rcases List.mem_cons.1 hx with rfl | hx
        · exact hc
        · exact ih x hx
      · refine .inr ⟨c :: a, c', b, rfl, fun x hx => ?_, h2⟩
        rcases List.mem_cons.1 hx with rfl | hx
        · exact hc
        · exact h1 x hx
    · exact .inr ⟨[], c, cs, rfl, by simp [NotAbove], by omega⟩

theorem meets_items_total {args : List (Str × Ast1.Scope)} (h : ∀ x ∈ args, ∃ o, Meets x.2.chunks o) :
    ∃ items : List ((Str × Ast1.Scope) × Ending), items.map (·.1) = args ∧ ∀ x ∈ items, Meets x.1.2.chunks x.2 := by
  induction args with
  | nil => exact ⟨[], rfl, by simp⟩
  | cons x r ih =>
    obtain ⟨o, ho⟩ := h x (by simp)
    obtain ⟨items, rfl, hi⟩ := ih fun y hy => h y (by simp [hy])
    exact ⟨(x, o) :: items, rfl, by
      intro y hy
      rcases List.mem_cons.1 hy with rfl | hy
      · exact ho
      · exact hi y hy⟩

theorem meets_total (cs : List Ast1.Chunk) : ∃ o, Meets cs o := by
  have key : ∀ n cs, sizeChunks cs < n → ∃ o, Meets cs o := by
    intro n
    induction n with
    | zero => intros; omega
    | succ n ih =>
      intro cs hc
      cases cs with
      | nil => exact ⟨_, .nil⟩
      | cons c cs =>
        have hrest : ∃ o, Meets cs o := by
          apply ih
          obtain ⟨l, v⟩ := c
          simp [sizeChunks, sizeChunk] at hc; omega
        obtain ⟨o, ho⟩ := hrest
        obtain ⟨l, v⟩ := c
        cases v with
        | text t => exact ⟨_, .text ho⟩
        | scope sc =>
          obtain ⟨inner, sv⟩ := sc
          obtain ⟨i, hi⟩ := ih inner (by simp [sizeChunks, sizeChunk, sizeVariant, sizeScope] at hc; omega)
          exact ⟨_, .scope hi ho⟩
        | command cm =>
          obtain ⟨label, args⟩ := cm
          by_cases hl : label = chars!"begin" ∨ label = chars!"end"
          · by_cases hl' : ∃ p lab r, args = (p, .mk lab .curly) :: r
            · obtain ⟨p, lab, r, rfl⟩ := hl'
              rcases hl with rfl | rfl
              · have early : ∀ body st rest, cs = body ++ rest → Opened body st →
                    NotAbove (endOfBegin l ((p, .mk lab .curly) :: r)) body ∨ ∃ o, Meets (.mk l (.command (.mk chars!"begin" ((p, .mk lab .curly) :: r))) :: cs) o := by
                  rintro body st rest rfl h
                  rcases from_or (endOfBegin l ((p, .mk lab .curly) :: r)) body with hk | ⟨a, c, b, rfl, h1, h2⟩
                  · exact .inl hk
                  · refine .inr ⟨.error .panic, ?_⟩
                    rw [show a ++ c :: b ++ rest = a ++ c :: (b ++ rest) by simp]
                    obtain ⟨st', h'⟩ := Opened.prefix (a := a ++ [c]) (b := b) (by simpa using h)
                    exact .above h' h1 h2
                rcases scan lab cs with ⟨body, l', pe, rest, rfl, hm⟩ | ⟨body, st, c, rest, t, rfl, h1, h2⟩ | ⟨st, h⟩
                · rcases early body [] _ rfl hm.opened with hk | hk
                  · have hsz : sizeArgs r < n ∧ sizeChunks body < n ∧ sizeChunks rest < n := by
                      simp [sizeChunks, sizeChunk, sizeVariant, sizeCommand, sizeArgs, sizeChunks_append] at hc; omega
                    obtain ⟨items, rfl, hi⟩ := meets_items_total (args := r) fun x hx => ih _ (by have := size_arg hx; omega)
                    obtain ⟨i, hi'⟩ := ih (body.map (renumber (endOfBegin l ((p, .mk lab .curly) :: items.map (·.1)))))
                      (by rw [renumber_eq, sizeChunks_rebase]; omega)
                    obtain ⟨o', ho'⟩ := ih rest hsz.2.2
                    exact ⟨_, .environment hm hk hi hi' ho'⟩
                  · exact hk
                · rcases early body st _ rfl h1 with hk | hk
                  · exact ⟨_, .badInside h1 hk h2⟩
                  · exact hk
                · rcases early cs st [] (by simp) h with hk | hk
                  · exact ⟨_, .unclosed h hk⟩
                  · exact hk
              · exact ⟨_, .bad (.unexpectedEnd rfl (by simp))⟩
            · exact ⟨_, .bad (.noLabel rfl hl (fun p lab r he => hl' ⟨p, lab, r, he⟩))⟩
          · obtain ⟨items, rfl, hi⟩ := meets_items_total (args := args) fun x hx => ih _ (by
              have := size_arg hx
              simp [sizeChunks, sizeChunk, sizeVariant, sizeCommand] at hc; omega)
            exact ⟨_, .command (fun h => hl (.inl h)) (fun h => hl (.inr h)) hi ho⟩
  exact key _ cs (Nat.lt_succ_self _)

theorem meets_iff (cs : List Ast1.Chunk) (r : Ending) : tryFrom cs = r ↔ Meets cs r := by
  refine ⟨fun h => ?_, fun h => h.sound⟩
  obtain ⟨o, ho⟩ := meets_total cs
  rw [← h, ho.sound]
  exact ho

end LatexAst.Ast2
