import Verif.Proofs.Conversion2
import Verif.Proofs.Grammar4

/-!
# Stage-2 conversion of two parts, and of a part further down
-/

namespace LatexAst.Ast2
open LatexAst.Ast1 (Opened Matched Checked Child NumberedInOrder)

/-! ### one after the other -/

/-- same state, with `x` before it -/
def Before (x : List Chunk) (s s' : State) : Prop :=
  s'.chunks = x ++ s.chunks ∧ s'.stack = s.stack ∧ s'.envArgs = s.envArgs ∧ s'.buffer = s.buffer ∧
    s'.precBegin = s.precBegin ∧ (s.stack ≠ [] → s'.bufferStart = s.bufferStart)

def BeforeRes (x : List Chunk) : Res State → Res State → Prop
  | .ok s, .ok s' => Before x s s'
  | .error f, .error f' => f = f'
  | _, _ => False

theorem before_pushBuffer {x s s' l v} (h : Before x s s') (hs : s.stack ≠ []) :
    BeforeRes x (s.pushBuffer l v) (s'.pushBuffer l v) := by
  obtain ⟨h1, h2, h3, h4, h5, h6⟩ := h
  simp only [State.pushBuffer, h6 hs, checkedSub]
  split <;> rename_i hh
  · split at hh
    · cases hh
    · simp [BeforeRes]
  · split at hh
    · exact ⟨h1, h2, h3, by simp [h4], h5, fun _ => rfl⟩
    · cases hh

theorem before_step {rec x s s'} (h : Before x s s') (c : Ast1.Chunk) :
    BeforeRes x (step rec s c) (step rec s' c) := by
  obtain ⟨l, v⟩ := c
  have h' := h
  obtain ⟨h1, h2, h3, h4, h5, h6⟩ := h
  have hpush : ∀ v, s.stack.isEmpty = true → BeforeRes x (.ok (s.pushChunks l v)) (.ok (s'.pushChunks l v)) := by
    intro v hs
    simp only [BeforeRes, Before, State.pushChunks]
    exact ⟨by simp [h1], h2, h3, h4, h5, h6⟩
  cases v with
  | text t =>
    simp only [step, h2]
    split
    · rename_i hs; exact hpush _ hs
    · rename_i hs; exact before_pushBuffer h' (by simpa using hs)
  | scope sc =>
    simp only [step, h2]
    split
    · rename_i hs
      cases addLine l (convScope rec sc) with
      | error f => rfl
      | ok a => exact hpush _ hs
    · rename_i hs; exact before_pushBuffer h' (by simpa using hs)
  | command cm =>
    simp only [step, h2]
    split
    · split
      · rename_i hs
        cases convCommand rec cm with
        | error f => rfl
        | ok a => exact hpush _ hs
      · rename_i hs; exact before_pushBuffer h' (by simpa using hs)
    · cases cm.arguments with
      | nil => rfl
      | cons first rest =>
        simp only
        split
        · rfl
        · split
          · simp only [stepBegin, h2]
            split
            · exact ⟨h1, rfl, rfl, h4, rfl, fun _ => rfl⟩
            · rename_i hs
              refine before_pushBuffer ⟨h1, rfl, h3, h4, h5, fun _ => h6 ?_⟩ (by simp)
              intro he; simp [he] at hs
          · simp only [stepEnd, h2]
            split
            · rfl
            · split
              · rfl
              · rename_i ht _
                have hne : s.stack ≠ [] := by
                  intro he; rw [he] at ht; exact ht rfl
                split
                · rw [h3, h4, h6 hne]
                  cases convArgs rec s.envArgs with
                  | error f => rfl
                  | ok as =>
                    simp only
                    cases addLine s.bufferStart (rec s.buffer) with
                    | error f => rfl
                    | ok content =>
                      exact ⟨by simp [h1, h5], rfl, rfl, rfl, rfl, fun _ => rfl⟩
                · rename_i hd
                  exact before_pushBuffer ⟨h1, rfl, h3, h4, h5, fun _ => h6 hne⟩ (by simpa using hd)

theorem before_run {rec x s s'} (h : Before x s s') (cs : List Ast1.Chunk) :
    BeforeRes x (run rec cs s) (run rec cs s') := by
  induction cs generalizing s s' with
  | nil => exact h
  | cons c cs ih =>
    have := before_step (rec := rec) h c
    simp only [run]
    cases h1 : step rec s c with
    | error f =>
      rw [h1] at this
      cases h2 : step rec s' c with
      | error f' => rw [h2] at this; exact this
      | ok a => rw [h2] at this; exact this.elim
    | ok a =>
      rw [h1] at this
      cases h2 : step rec s' c with
      | error f' => rw [h2] at this; exact this.elim
      | ok a => rw [h2] at this; exact ih this

theorem run_append (rec) (a b : List Ast1.Chunk) (s : State) : run rec (a ++ b) s =
    match run rec a s with
    | .error f => .error f
    | .ok s => run rec b s := by
  induction a generalizing s with
  | nil => rfl
  | cons c a ih =>
    simp only [List.cons_append, run]
    cases step rec s c with
    | error f => rfl
    | ok s => exact ih s

theorem tryFrom_append {a x} (h : tryFrom a = .ok x) (b : List Ast1.Chunk) : tryFrom (a ++ b) =
    match tryFrom b with
    | .ok y => .ok (x ++ y)
    | .error f => .error f := by
  rw [tryFrom_eq] at h
  rw [tryFrom_eq (a ++ b), tryFrom_eq b]
  unfold convWith at *
  rw [run_append]
  cases ha : run tryFrom a State.init with
  | error f => rw [ha] at h; cases h
  | ok s =>
    rw [ha] at h
    have hinv := run_spec (inv_init tryFrom) a
    rw [ha] at hinv
    simp only at h hinv
    have hs : Before x State.init s := by
      cases hinv with
      | outside h1 =>
        simp only [finish] at h
        cases h
        exact ⟨by simp [State.init], rfl, rfl, rfl, rfl, fun hh => absurd rfl hh⟩
      | inside => simp [finish, fail] at h
    have := before_run (rec := tryFrom) hs b
    simp only
    cases h1 : run tryFrom b State.init with
    | error f =>
      rw [h1] at this
      cases h2 : run tryFrom b s with
      | error f' => rw [h2] at this; simp only [BeforeRes] at this; subst this; rfl
      | ok a => rw [h2] at this; exact this.elim
    | ok t =>
      rw [h1] at this
      cases h2 : run tryFrom b s with
      | error f' => rw [h2] at this; exact this.elim
      | ok t' =>
        rw [h2] at this
        obtain ⟨e1, e2, e3, e4, e5, e6⟩ := this
        simp only [finish, e2]
        cases hst : t.stack with
        | nil => simp [e1]
        | cons lab st => simp [fail, e6 (by simp [hst])]

/-! ### further down -/

theorem shift1_variant (k : Nat) (c : Ast1.Chunk) : (c.shift k).variant = c.variant := by cases c; rfl
theorem delim_shift (k : Nat) (c : Ast1.Chunk) : (c.shift k).IsDelimiter ↔ c.IsDelimiter := by
  simp only [Ast1.Chunk.IsDelimiter, shift1_variant]
theorem begins_shift (k : Nat) (c : Ast1.Chunk) (lab) : (c.shift k).Begins lab ↔ c.Begins lab := by
  simp only [Ast1.Chunk.Begins, shift1_variant]
theorem ends_shift (k : Nat) (c : Ast1.Chunk) (lab) : (c.shift k).Ends lab ↔ c.Ends lab := by
  simp only [Ast1.Chunk.Ends, shift1_variant]

theorem opened_shift {k a st} (h : Opened a st) : Opened (a.map (Ast1.Chunk.shift k)) st := by
  induction h with
  | nil => exact .nil
  | other _ h2 ih => rw [List.map_append]; exact .other ih (by rwa [delim_shift])
  | opens _ h2 ih => rw [List.map_append]; exact .opens ih ((begins_shift ..).2 h2)
  | closes _ h2 ih => rw [List.map_append]; exact .closes ih ((ends_shift ..).2 h2)

theorem matched_shift {k a} (h : Matched a) : Matched (a.map (Ast1.Chunk.shift k)) :=
  (Ast1.opened_iff_matched _).1 (opened_shift h.opened)

theorem child_shift {k a inner} (h : Child (a.map (Ast1.Chunk.shift k)) inner) : Child a inner :=
  h.of_variant fun _ _ h => by
    obtain ⟨⟨l', v'⟩, hm, he⟩ := List.mem_map.1 h
    simp [Ast1.Chunk.shift] at he
    exact ⟨l', he.2 ▸ hm⟩

theorem numbered_shift {d : List Ast1.Chunk} {k : Nat} (h : NumberedInOrder d) :
    NumberedInOrder (d.map (Ast1.Chunk.shift k)) := by
  intro lv hl pre l args mid c post he
  rcases hl.head with rfl | ⟨inner, hc, hl⟩
  · obtain ⟨pre', ⟨l', v'⟩, r', rfl, rfl, h1, h2⟩ := map_eq_append_cons he
    obtain ⟨mid', ⟨lc, vc⟩, post', rfl, rfl, h3, rfl⟩ := map_eq_append_cons h2
    simp only [Ast1.Chunk.shift, Ast1.Chunk.mk.injEq] at h1 h3
    obtain ⟨rfl, rfl⟩ := h1
    subst h3
    have := h _ .top pre' l' args mid' (.mk lc vc) post' rfl
    simp only [Ast1.Chunk.lineNo] at *
    omega
  · exact h lv (Checked.trans (.child .top (child_shift hc)) hl) pre l args mid c post he

theorem renumber_shift (k s : Nat) (body : List Ast1.Chunk) :
    (body.map (Ast1.Chunk.shift k)).map (renumber (s + k)) = body.map (renumber s) := by
  rw [List.map_map]
  apply List.map_congr_left
  intro c _
  obtain ⟨l, v⟩ := c
  simp [Ast1.Chunk.shift, renumber, Nat.add_sub_add_right]

theorem after_ok {c o e} (h : Outcome.after c o = .ok e) : ∃ r, o = .ok r ∧ e = c :: r := by
  cases o with
  | error f => cases h
  | ok r => cases h; exact ⟨r, rfl, rfl⟩

theorem endOfBegin_shift (l k args) : endOfBegin (l + k) args = endOfBegin l args + k := by
  simp [endOfBegin]; omega

theorem Converts.shift {d o} (k : Nat) (h : Converts d o) :
    ∀ e, o = .ok e → Converts (d.map (Ast1.Chunk.shift k)) (.ok (e.map (Chunk.shift k))) := by
  induction h with
  | nil => intro e he; cases he; exact .nil
  | @text l t cs o _ ih =>
    intro e he
    obtain ⟨r, rfl, rfl⟩ := after_ok he
    exact .text (ih r rfl)
  | @scope l inner sv cs i o hi _ _ ih =>
    intro e he
    cases i with
    | error f => cases he
    | ok a =>
      obtain ⟨r, rfl, rfl⟩ := after_ok he
      exact .scope hi (ih r rfl)
  | @command l label cs o items h1 h2 hi _ _ ih =>
    intro e he
    unfold commandOutcome at he
    cases ha : argOutcome items with
    | error f => rw [ha] at he; cases he
    | ok a =>
      rw [ha] at he
      obtain ⟨r, rfl, rfl⟩ := after_ok he
      have := Converts.command (l := l + k) h1 h2 hi (ih r rfl)
      simp only [commandOutcome, ha] at this
      exact this
  | @environment l p lab body l' pe cs i o items hm hi hb _ _ _ ih =>
    intro e he
    unfold environmentOutcome at he
    cases ha : argOutcome items with
    | error f => rw [ha] at he; cases he
    | ok a =>
      rw [ha] at he
      cases i with
      | error f => cases he
      | ok c =>
        obtain ⟨r, rfl, rfl⟩ := after_ok he
        have := Converts.environment (l := l + k) (l' := l' + k) (p := p) (lab := lab) (pe := pe)
          (matched_shift (k := k) hm) hi (i := .ok c) (by
            rw [endOfBegin_shift, renumber_shift]; exact hb) (ih r rfl)
        simp only [environmentOutcome, ha, endOfBegin_shift] at this
        simpa [Outcome.after, Ast1.Chunk.shift, Chunk.shift] using this
  | bad => intro e he; cases he
  | badInside => intro e he; cases he
  | unclosed => intro e he; cases he

theorem tryFrom_shift {d e} (k : Nat) (hn : NumberedInOrder d) (h : tryFrom d = .ok e) :
    tryFrom (d.map (Ast1.Chunk.shift k)) = .ok (e.map (Chunk.shift k)) :=
  (((converts_iff hn (.ok e)).2 h).shift k e rfl).sound (numbered_shift hn)

theorem fromStr_parts {s x} (h : fromStr s = .ok x) : ∃ d, Ast1.fromStr s = .ok d ∧ tryFrom d = .ok x := by
  unfold fromStr at h
  cases hd : Ast1.fromStr s with
  | error f => rw [hd] at h; cases h
  | ok d => rw [hd] at h; exact ⟨d, rfl, h⟩

end LatexAst.Ast2
