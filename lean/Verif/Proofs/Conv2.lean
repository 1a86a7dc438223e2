import Verif.Spec.Nesting
import Verif.Model.Conv2
import Verif.Model.Eq1
import Verif.Model.Eq2
import Verif.Proofs.Lines

/-!
# The stage-2 conversion as a relation

`tryFrom_eq` removes the recursion bound; `tryFrom_shape` / `tryFrom_error` say what an `Ok` / failing
run looks like, one level at a time; `conv_induction` is the induction principle.
-/

namespace LatexAst.Ast1
theorem Opened.append {a b st st'} (h : Opened b st') (ha : Opened a st) : Opened (a ++ b) (st' ++ st) := by
  induction h with
  | nil => simpa using ha
  | other _ h1 ih => rw [← List.append_assoc]; exact .other ih h1
  | opens _ h1 ih => rw [← List.append_assoc]; exact .opens ih h1
  | closes _ h1 ih => rw [← List.append_assoc]; exact .closes ih h1
end LatexAst.Ast1

namespace LatexAst.Ast2
open LatexAst.Ast1 (Opened)

/-- Chunk renumbered relative to the start of the environment content. -/
def rebase1 (k : Nat) : Ast1.Chunk → Ast1.Chunk
  | .mk l v => .mk (l - k + 1) v

inductive ArgsRel (R : List Ast1.Chunk → List Chunk → Prop) :
    List (Str × Ast1.Scope) → List (Str × Scope) → Prop
  | nil : ArgsRel R [] []
  | cons {p inner inner' sv r r'} : R inner inner' → ArgsRel R r r' →
      ArgsRel R ((p, .mk inner sv) :: r) ((p, .mk inner' sv) :: r')

abbrev beginC (l : Nat) (p : Str) (lab : List Ast1.Chunk) (args : List (Str × Ast1.Scope)) : Ast1.Chunk :=
  .mk l (.command (.mk chars!"begin" ((p, .mk lab .curly) :: args)))
abbrev endC (l : Nat) (p : Str) (lab : List Ast1.Chunk) : Ast1.Chunk :=
  .mk l (.command (.mk chars!"end" [(p, .mk lab .curly)]))
/-- first line of the content -/
abbrev startL (l : Nat) (p : Str) (lab : List Ast1.Chunk) (args : List (Str × Ast1.Scope)) : Nat :=
  l + argNewlines ((p, .mk lab .curly) :: args)

inductive Shape (R : List Ast1.Chunk → List Chunk → Prop) : List Ast1.Chunk → List Chunk → Prop
  | nil : Shape R [] []
  | text {d e l t} : Shape R d e → Shape R (d ++ [.mk l (.text t)]) (e ++ [.mk l (.text t)])
  | scope {d e l inner inner' sv} : Shape R d e → R inner inner' →
      Shape R (d ++ [.mk l (.scope (.mk inner sv))]) (e ++ [.mk l (.scope (.mk inner' sv))])
  | command {d e l label args args'} : Shape R d e → label ≠ chars!"begin" → label ≠ chars!"end" →
      ArgsRel R args args' →
      Shape R (d ++ [.mk l (.command (.mk label args))]) (e ++ [.mk l (.command (.mk label args'))])
  | env {d e l p lab args args' body l' p' content} : Shape R d e → ArgsRel R args args' →
      Opened body [] → (∀ c ∈ body, startL l p lab args ≤ c.lineNo) →
      R (body.map (rebase1 (startL l p lab args))) content →
      Shape R (d ++ (beginC l p lab args :: (body ++ [endC l' p' lab])))
        (e ++ [.mk (startL l p lab args) (.environment (.mk (Ast1.displayChunks lab) args' content p p'))])

theorem ArgsRel.mono {R R'} (h : ∀ a b, R a b → R' a b) {a b} (ha : ArgsRel R a b) : ArgsRel R' a b := by
  induction ha with
  | nil => exact .nil
  | cons h1 _ ih => exact .cons (h _ _ h1) ih

theorem ArgsRel.mono' {R R'} {a b} (ha : ArgsRel R a b)
    (h : ∀ p inner sv b, (p, Ast1.Scope.mk inner sv) ∈ a → R inner b → R' inner b) : ArgsRel R' a b := by
  induction ha with
  | nil => exact .nil
  | @cons p i i' sv _ _ h1 _ ih =>
    exact .cons (h p i sv _ (by simp) h1) (ih fun p i s b hm => h p i s b (by simp [hm]))

theorem Shape.mono {R R'} (h : ∀ a b, R a b → R' a b) {a b} (ha : Shape R a b) : Shape R' a b := by
  induction ha with
  | nil => exact .nil
  | text _ ih => exact .text ih
  | scope _ h1 ih => exact .scope ih (h _ _ h1)
  | command _ h1 h2 h3 ih => exact .command ih h1 h2 (h3.mono h)
  | env _ h1 h2 h3 h4 ih => exact .env ih (h1.mono h) h2 h3 (h _ _ h4)

/-! ### sizes -/

theorem sizeChunks_append (a b : List Ast1.Chunk) : sizeChunks (a ++ b) = sizeChunks a + sizeChunks b := by
  induction a with
  | nil => simp [sizeChunks]
  | cons c a ih => simp [sizeChunks, ih]; omega

theorem sizeChunks_rebase (k : Nat) (a : List Ast1.Chunk) : sizeChunks (a.map (rebase1 k)) = sizeChunks a := by
  induction a with
  | nil => rfl
  | cons c a ih => obtain ⟨l, v⟩ := c; simp [sizeChunks, ih, rebase1, sizeChunk]

theorem sizeArgs_mem {args : List (Str × Ast1.Scope)} {p inner sv} (h : (p, Ast1.Scope.mk inner sv) ∈ args) :
    sizeChunks inner < sizeArgs args := by
  induction args with
  | nil => cases h
  | cons x r ih =>
    obtain ⟨p', s⟩ := x
    rcases List.mem_cons.1 h with h | h
    · cases h; simp [sizeArgs, sizeScope]; omega
    · simp [sizeArgs]; have := ih h; omega

theorem Shape.size {R a b} (h : Shape R a b) : Shape (fun x y => R x y ∧ sizeChunks x < sizeChunks a) a b := by
  induction h with
  | nil => exact .nil
  | text _ ih => exact .text (ih.mono fun x y ⟨h1, h2⟩ => ⟨h1, by rw [sizeChunks_append]; omega⟩)
  | scope _ h1 ih =>
    refine .scope (ih.mono fun x y ⟨h1, h2⟩ => ⟨h1, by rw [sizeChunks_append]; omega⟩) ⟨h1, ?_⟩
    simp [sizeChunks_append, sizeChunks, sizeChunk, sizeVariant, sizeScope]; omega
  | command _ h1 h2 h3 ih =>
    refine .command (ih.mono fun x y ⟨h1, h2⟩ => ⟨h1, by rw [sizeChunks_append]; omega⟩) h1 h2 ?_
    refine h3.mono' fun p i s b hm hr => ⟨hr, ?_⟩
    have := sizeArgs_mem hm
    simp [sizeChunks_append, sizeChunks, sizeChunk, sizeVariant, sizeCommand]; omega
  | env _ h1 h2 h3 h4 ih =>
    refine .env (ih.mono fun x y ⟨h1, h2⟩ => ⟨h1, by rw [sizeChunks_append]; omega⟩) ?_ h2 h3 ⟨h4, ?_⟩
    · refine h1.mono' fun p i s b hm hr => ⟨hr, ?_⟩
      have := sizeArgs_mem hm
      simp [sizeChunks_append, sizeChunks, sizeChunk, sizeVariant, sizeCommand, sizeArgs]; omega
    · simp [sizeChunks_append, sizeChunks, sizeChunk, sizeVariant, sizeCommand, sizeArgs, sizeChunks_rebase]; omega

/-! ### one level of a run -/

theorem convArgs_ok {rec args args'} (h : convArgs rec args = .ok args') :
    ArgsRel (fun a b => rec a = .ok b) args args' := by
  induction args generalizing args' with
  | nil => simp [convArgs] at h; subst h; exact .nil
  | cons x r ih =>
    obtain ⟨p, ⟨inner, sv⟩⟩ := x
    simp only [convArgs, convScope] at h
    split at h
    · cases h
    · rename_i s hs
      split at h
      · cases h
      · rename_i a ha
        cases h
        split at hs
        · cases hs
        · rename_i hr; cases hs; exact .cons hr (ih ha)

theorem convArgs_error {rec args f} (h : convArgs rec args = .error f) :
    ∃ p inner sv, (p, Ast1.Scope.mk inner sv) ∈ args ∧ rec inner = .error f := by
  induction args with
  | nil => simp [convArgs] at h
  | cons x r ih =>
    obtain ⟨p, ⟨inner, sv⟩⟩ := x
    simp only [convArgs, convScope] at h
    split at h
    · rename_i hs
      split at hs
      · rename_i hr; cases hs; cases h; exact ⟨p, inner, sv, by simp, hr⟩
      · cases hs
    · rename_i s hs
      split at h
      · rename_i ha; cases h
        obtain ⟨p', i', s', hm, hr⟩ := ih ha
        exact ⟨p', i', s', by simp [hm], hr⟩
      · cases h

theorem convArgs_of {rec args args'} (h : ArgsRel (fun a b => rec a = .ok b) args args') :
    convArgs rec args = .ok args' := by
  induction h with
  | nil => rfl
  | cons h1 _ ih => simp [convArgs, convScope, h1, ih]

theorem argNewlines_eq (args : List (Str × Ast1.Scope)) : argNewlines args = newlines (Ast1.displayArgs args) := by
  induction args with
  | nil => rfl
  | cons x r ih => obtain ⟨p, s⟩ := x; simp [argNewlines, Ast1.displayArgs, ih]; omega

/-- The state reached after reading `pre`. -/
inductive Inv (rec : List Ast1.Chunk → Res (List Chunk)) (pre : List Ast1.Chunk) : State → Prop
  | outside {e bs} : Shape (fun a b => rec a = .ok b) pre e → Inv rec pre ⟨e, [], bs, [], [], []⟩
  | inside {d e l p lab args body st} : pre = d ++ beginC l p lab args :: body →
      Shape (fun a b => rec a = .ok b) d e → Opened body st →
      (∀ c ∈ body, startL l p lab args ≤ c.lineNo) →
      Inv rec pre ⟨e, lab :: st.reverse, startL l p lab args, args,
        body.map (rebase1 (startL l p lab args)), p⟩

/-- Why a run stops at chunk `c` after reading `pre`. -/
inductive Stop (R : List Ast1.Chunk → List Chunk → Prop) (E : List Ast1.Chunk → Fail → Prop)
    (pre : List Ast1.Chunk) (c : Ast1.Chunk) : Fail → Prop
  | scope {e l inner sv f} : Shape R pre e → c = .mk l (.scope (.mk inner sv)) →
      E inner f → ∀ f', addLine (α := Unit) l (.error f) = .error f' → Stop R E pre c f'
  | command {e l label args p inner sv f} : Shape R pre e →
      label ≠ chars!"begin" → label ≠ chars!"end" → c = .mk l (.command (.mk label args)) →
      (p, Ast1.Scope.mk inner sv) ∈ args → E inner f → Stop R E pre c f
  | envArg {d e l p lab args body l' p' p'' inner sv f} : pre = d ++ beginC l p lab args :: body →
      Shape R d e → Opened body [] → c = endC l' p' lab →
      (p'', Ast1.Scope.mk inner sv) ∈ args → E inner f → Stop R E pre c f
  | content {d e l p lab args body l' p' f} : pre = d ++ beginC l p lab args :: body →
      Shape R d e → Opened body [] →
      (∀ c ∈ body, startL l p lab args ≤ c.lineNo) → c = endC l' p' lab →
      E (body.map (rebase1 (startL l p lab args))) f →
      ∀ f', addLine (α := Unit) (startL l p lab args) (.error f) = .error f' → Stop R E pre c f'
  | noLabel {st l label args} : Opened pre st → c = .mk l (.command (.mk label args)) →
      label = chars!"begin" ∨ label = chars!"end" →
      (∀ p lab r, args ≠ (p, .mk lab .curly) :: r) → Stop R E pre c (.err ⟨l, .noEnvironmentLabel⟩)
  | unexpectedEnd {st l p lab r} : Opened pre st → c = .mk l (.command (.mk chars!"end" ((p, .mk lab .curly) :: r))) →
      st.head? ≠ some lab → Stop R E pre c (.err ⟨l, .unexpectedEnd (Ast1.displayChunks lab)⟩)
  | tooMany {st l p lab x r} : Opened pre (lab :: st) →
      c = .mk l (.command (.mk chars!"end" ((p, .mk lab .curly) :: x :: r))) →
      Stop R E pre c (.err ⟨l, .tooManyArgsEnd⟩)
  | underflow {d l p lab args body} : pre = d ++ beginC l p lab args :: body →
      c.lineNo < startL l p lab args → Stop R E pre c .panic

theorem begins_beginC (l p lab args) : (beginC l p lab args).Begins lab := ⟨p, args, rfl⟩
theorem ends_endC (l p lab) : (endC l p lab).Ends lab := ⟨p, rfl⟩

theorem Shape.opened {R a b} (h : Shape R a b) : Opened a [] := by
  induction h with
  | nil => exact .nil
  | text _ ih => exact .other ih (by rintro ⟨_, _, h, _⟩; cases h)
  | scope _ h1 ih => exact .other ih (by rintro ⟨_, _, h, _⟩; cases h)
  | command _ h1 h2 _ ih => 
    refine .other ih ?_
    rintro ⟨_, _, h, h'⟩; cases h
    rcases h' with h' | h' <;> contradiction
  | @env d e l p lab args args' body l' p' content _ _ h2 _ _ ih =>
    have h : Opened (d ++ [beginC l p lab args]) [lab] := .opens ih (begins_beginC ..)
    have := (Ast1.Opened.append h2 h)
    have := Opened.closes (c := endC l' p' lab) this (ends_endC ..)
    simpa using this

theorem Inv.opened {rec pre s} (h : Inv rec pre s) : Opened pre s.stack.reverse := by
  cases h with
  | outside h => exact h.opened
  | @inside d e l p lab args body st hp h1 h2 h3 =>
    subst hp
    have := Ast1.Opened.append h2 (.opens h1.opened (begins_beginC l p lab args))
    simpa using this

theorem inv_pushBuffer {rec d e l p lab args body st c} {stack : List (List Ast1.Chunk)}
    (hp : Shape (fun a b => rec a = .ok b) d e)
    (hb : ∀ c ∈ body, startL l p lab args ≤ c.lineNo) (ho : Opened (body ++ [c]) st)
    (hs : stack = lab :: st.reverse) :
    match State.pushBuffer ⟨e, stack, startL l p lab args, args,
        body.map (rebase1 (startL l p lab args)), p⟩ c.lineNo c.variant with
    | .ok s' => Inv rec ((d ++ beginC l p lab args :: body) ++ [c]) s'
    | .error f => Stop (fun a b => rec a = .ok b) (fun a f => rec a = .error f) (d ++ beginC l p lab args :: body) c f := by
  subst hs
  simp only [State.pushBuffer, checkedSub]
  by_cases hl : startL l p lab args ≤ c.lineNo
  · rw [if_pos hl]
    simp only
    have := Inv.inside (rec := rec) (pre := (d ++ beginC l p lab args :: body) ++ [c])
      (d := d) (e := e) (l := l) (p := p) (lab := lab)
      (args := args) (body := body ++ [c]) (st := st) (by simp) hp ho
      (by simp only [List.mem_append, List.mem_singleton]; rintro c' (h | rfl); exact hb _ h; exact hl)
    obtain ⟨l', v⟩ := c
    simpa [rebase1, Ast1.Chunk.lineNo, Ast1.Chunk.variant] using this
  · rw [if_neg hl]
    simp only [panicked]
    exact .underflow rfl (by omega)

theorem addLine_error {α β : Type} {k : Nat} {x : Res α} {f : Fail} (h : addLine k x = .error f) :
    ∃ g, x = .error g ∧ addLine (α := β) k (.error g) = .error f := by
  match x, h with
  | .error (.err e), h => exact ⟨_, rfl, by simpa [addLine] using h⟩
  | .error .panic, h => exact ⟨_, rfl, by simpa [addLine] using h⟩
  | .error .fuel, h => exact ⟨_, rfl, by simpa [addLine] using h⟩

theorem addLine_ok {α : Type} {k : Nat} {x : Res α} {a : α} (h : addLine k x = .ok a) : x = .ok a := by
  match x, h with
  | .ok a, h => simpa [addLine] using h

theorem top_iff (stack : List (List Ast1.Chunk)) (flab : List Ast1.Chunk) :
    topIs stack flab = false ↔ stack.getLast? ≠ some flab := by
  unfold topIs
  cases h : stack.getLast? with
  | none => simp
  | some t =>
    have := Ast1.beqChunks_iff t flab
    simp only [ne_eq, Option.some.injEq]
    rw [← this]; simp

theorem stepEnd_spec {rec pre s} (h : Inv rec pre s) (lineNo : Nat) (fp : Str) (flab : List Ast1.Chunk)
    (rest : List (Str × Ast1.Scope)) :
    match stepEnd rec s lineNo (fp, .mk flab .curly) rest with
    | .ok s' => Inv rec (pre ++ [.mk lineNo (.command (.mk chars!"end" ((fp, .mk flab .curly) :: rest)))]) s'
    | .error f => Stop (fun a b => rec a = .ok b) (fun a f => rec a = .error f) pre (.mk lineNo (.command (.mk chars!"end" ((fp, .mk flab .curly) :: rest)))) f := by
  have hop := h.opened
  unfold stepEnd
  by_cases htop : s.stack.getLast? = some flab
  · rw [if_neg ((not_congr (top_iff s.stack (fp, Ast1.Scope.mk flab .curly).2.chunks)).2 (by simpa [Ast1.Scope.chunks] using htop))]
    dsimp only [Ast1.Scope.chunks]
    cases rest with
    | cons x r =>
      simp only [List.length_cons, gt_iff_lt, Nat.lt_add_left_iff_pos, Nat.zero_lt_succ, if_true]
      have : ∃ st, s.stack.reverse = flab :: st := by
        cases hs : s.stack.reverse with
        | nil => rw [← List.head?_reverse, hs] at htop; simp at htop
        | cons a b =>
          rw [← List.head?_reverse, hs] at htop
          simp at htop; exact ⟨b, by rw [htop]⟩
      obtain ⟨st, hst⟩ := this
      rw [hst] at hop
      exact .tooMany hop rfl
    | nil =>
      simp only [List.length_singleton, gt_iff_lt, Nat.lt_irrefl, if_false]
      cases h with
      | outside h => simp at htop
      | @inside d e l p lab args body st hp h1 h2 h3 =>
        subst hp
        cases st with
        | nil =>
          have : lab = flab := by simpa using htop
          subst this
          simp only [List.reverse_nil, List.dropLast_singleton, List.isEmpty_nil, if_true]
          cases ha : convArgs rec args with
          | error f =>
            obtain ⟨p'', inner, sv, hm', hr⟩ := convArgs_error ha
            exact .envArg rfl h1 h2 rfl hm' hr
          | ok args' =>
            simp only
            cases hc : addLine (startL l p lab args) (rec (body.map (rebase1 (startL l p lab args)))) with
            | error f =>
              obtain ⟨g, hg, hf⟩ := addLine_error (β := Unit) hc
              exact .content rfl h1 h2 h3 rfl hg _ hf
            | ok content =>
              have := Inv.outside (bs := startL l p lab args) (Shape.env (l' := lineNo) (p' := fp) h1 (convArgs_ok ha) h2 h3 (addLine_ok hc))
              simpa using this
        | cons top st =>
          have : top = flab := by
            simpa [List.getLast?_cons, List.getLast?_append] using htop
          subst this
          have hne : (lab :: (top :: st).reverse).dropLast = lab :: st.reverse := by
            rw [List.reverse_cons, ← List.cons_append, List.dropLast_concat]
          simp only [hne, List.isEmpty_cons, Bool.false_eq_true, if_false]
          exact inv_pushBuffer (c := endC lineNo fp top) h1 h3 (.closes h2 (ends_endC ..)) rfl
  · rw [if_pos ((top_iff s.stack (fp, Ast1.Scope.mk flab .curly).2.chunks).2 (by simpa [Ast1.Scope.chunks] using htop))]
    refine .unexpectedEnd hop rfl ?_
    rwa [List.head?_reverse]

theorem step_spec {rec pre s} (h : Inv rec pre s) (c : Ast1.Chunk) :
    match step rec s c with
    | .ok s' => Inv rec (pre ++ [c]) s'
    | .error f => Stop (fun a b => rec a = .ok b) (fun a f => rec a = .error f) pre c f := by
  have hop := h.opened
  obtain ⟨lineNo, v⟩ := c
  cases v with
  | text t =>
    cases h with
    | outside h => simpa [step, State.pushChunks] using Inv.outside (.text h)
    | inside hp h1 h2 h3 =>
      subst hp
      have := inv_pushBuffer (c := .mk lineNo (.text t)) h1 h3 (.other h2 (by rintro ⟨_, _, h, _⟩; cases h)) rfl
      simpa [step, Ast1.Chunk.lineNo, Ast1.Chunk.variant] using this
  | scope sc =>
    obtain ⟨inner, sv⟩ := sc
    cases h with
    | outside h =>
      simp only [step, List.isEmpty_nil, if_true]
      cases hr : addLine lineNo (convScope rec (Ast1.Scope.mk inner sv)) with
      | error f =>
        simp only
        obtain ⟨g, hg, hf⟩ := addLine_error (β := Unit) hr
        simp only [convScope] at hg
        split at hg
        · rename_i hi; cases hg; exact .scope h rfl hi f hf
        · cases hg
      | ok s' =>
        simp only [State.pushChunks]
        have := addLine_ok hr
        simp only [convScope] at this
        split at this
        · cases this
        · rename_i hi; cases this; exact .outside (.scope h hi)
    | inside hp h1 h2 h3 =>
      subst hp
      have := inv_pushBuffer (c := .mk lineNo (.scope (.mk inner sv))) h1 h3 (.other h2 (by rintro ⟨_, _, h, _⟩; cases h)) rfl
      simpa [step, Ast1.Chunk.lineNo, Ast1.Chunk.variant] using this
  | command c =>
    obtain ⟨label, args⟩ := c
    by_cases hl : label = chars!"begin" ∨ label = chars!"end"
    · simp only [step, Ast1.Command.label, hl, not_true_eq_false, if_false, Ast1.Command.arguments]
      cases args with
      | nil => exact .noLabel hop rfl hl (by intros; simp)
      | cons first rest =>
        obtain ⟨fp, ⟨flab, fv⟩⟩ := first
        simp only [Ast1.Scope.variant]
        by_cases hv : fv = .curly
        · subst hv
          simp only [ne_eq, not_true_eq_false, if_false]
          by_cases hb : label = chars!"begin"
          · subst hb
            simp only [if_true, stepBegin, Ast1.Scope.chunks]
            cases h with
            | outside h =>
              simpa using Inv.inside (l := lineNo) (p := fp) (lab := flab) (args := rest) (body := []) (st := []) rfl h .nil (by simp)
            | inside hp h1 h2 h3 =>
              subst hp
              have := inv_pushBuffer (c := beginC lineNo fp flab rest) h1 h3 (.opens h2 (begins_beginC ..)) rfl
              simpa [Ast1.Chunk.lineNo, Ast1.Chunk.variant] using this
          · have he : label = chars!"end" := by simpa [hb] using hl
            subst he
            simp only [hb, if_false]
            exact stepEnd_spec h lineNo fp flab rest
        · simp only [ne_eq, hv, not_false_eq_true, if_true]
          refine .noLabel hop rfl hl ?_
          intro p lab r he
          cases he
          exact hv rfl
    · have hb : label ≠ chars!"begin" := fun h => hl (.inl h)
      have he : label ≠ chars!"end" := fun h => hl (.inr h)
      simp only [step, Ast1.Command.label, hl, not_false_eq_true, if_true]
      cases h with
      | outside h =>
        simp only [List.isEmpty_nil, if_true, convCommand]
        cases ha : convArgs rec args with
        | error f =>
          simp only
          obtain ⟨p'', inner, sv, hm', hr⟩ := convArgs_error ha
          exact .command h hb he rfl hm' hr
        | ok args' => exact .outside (.command h hb he (convArgs_ok ha))
      | inside hp h1 h2 h3 =>
        subst hp
        have := inv_pushBuffer (c := .mk lineNo (.command (.mk label args))) h1 h3
          (.other h2 (by rintro ⟨_, _, h, h'⟩; cases h; exact hl h')) rfl
        simpa [Ast1.Chunk.lineNo, Ast1.Chunk.variant] using this

theorem run_spec {rec pre s} (h : Inv rec pre s) (cs : List Ast1.Chunk) :
    match run rec cs s with
    | .ok s' => Inv rec (pre ++ cs) s'
    | .error f => ∃ p c q, cs = p ++ c :: q ∧ Stop (fun a b => rec a = .ok b) (fun a f => rec a = .error f) (pre ++ p) c f := by
  induction cs generalizing pre s with
  | nil => simpa [run] using h
  | cons c cs ih =>
    have hs := step_spec h c
    simp only [run]
    cases hstep : step rec s c with
    | error f =>
      rw [hstep] at hs
      exact ⟨[], c, cs, rfl, by simpa using hs⟩
    | ok s' =>
      rw [hstep] at hs
      have := ih hs
      simp only
      cases hr : run rec cs s' with
      | error f =>
        rw [hr] at this
        obtain ⟨p, c', q, rfl, h⟩ := this
        exact ⟨c :: p, c', q, rfl, by simpa using h⟩
      | ok s'' =>
        rw [hr] at this
        simpa using this

/-- One level of the conversion. -/
def convWith (rec : List Ast1.Chunk → Res (List Chunk)) (cs : List Ast1.Chunk) : Res (List Chunk) :=
  match run rec cs State.init with
  | .error f => .error f
  | .ok s => finish s

theorem inv_init (rec) : Inv rec [] State.init := .outside .nil

/-- Why a conversion fails. -/
inductive Failed (R : List Ast1.Chunk → List Chunk → Prop) (E : List Ast1.Chunk → Fail → Prop)
    (d : List Ast1.Chunk) : Fail → Prop
  | stop {pre c post f} : d = pre ++ c :: post → Stop R E pre c f → Failed R E d f
  | unclosed {d0 e l p lab args body st} : d = d0 ++ beginC l p lab args :: body →
      Shape R d0 e → Opened body st → 
      Failed R E d (.err ⟨startL l p lab args, .unclosedEnvironment (Ast1.displayChunks lab)⟩)

theorem convWith_ok {rec d e} (h : convWith rec d = .ok e) : Shape (fun a b => rec a = .ok b) d e := by
  have := run_spec (inv_init rec) d
  unfold convWith at h
  cases hr : run rec d State.init with
  | error f => simp [hr] at h
  | ok s =>
    rw [hr] at this h
    simp only [List.nil_append] at this
    cases this with
    | outside h' => simp only [finish] at h; cases h; exact h'
    | inside => simp [finish, fail] at h

theorem convWith_error {rec d f} (h : convWith rec d = .error f) : Failed (fun a b => rec a = .ok b) (fun a f => rec a = .error f) d f := by
  have := run_spec (inv_init rec) d
  unfold convWith at h
  cases hr : run rec d State.init with
  | error f =>
    rw [hr] at this h
    simp only [List.nil_append] at this
    cases h
    obtain ⟨p, c, q, rfl, h⟩ := this
    exact .stop rfl h
  | ok s =>
    rw [hr] at this h
    simp only [List.nil_append] at this
    cases this with
    | outside h' => simp [finish] at h
    | inside h1 h2 h3 h4 => simp only [finish, fail] at h; cases h; exact .unclosed h1 h2 h3

/-! ### the recursion bound -/

theorem convArgs_congr {rec rec' : List Ast1.Chunk → Res (List Chunk)} {args}
    (h : ∀ p inner sv, (p, Ast1.Scope.mk inner sv) ∈ args → rec inner = rec' inner) :
    convArgs rec args = convArgs rec' args := by
  induction args with
  | nil => rfl
  | cons x r ih =>
    obtain ⟨p, ⟨inner, sv⟩⟩ := x
    simp only [convArgs, convScope]
    rw [h p inner sv (by simp), ih fun p i s hm => h p i s (by simp [hm])]

theorem step_congr {rec rec' pre s} (h : Inv rec pre s) (c : Ast1.Chunk)
    (hc : ∀ x, sizeChunks x < sizeChunks (pre ++ [c]) → rec x = rec' x) :
    step rec s c = step rec' s c := by
  obtain ⟨l, v⟩ := c
  cases v with
  | text t => rfl
  | scope sc =>
    obtain ⟨inner, sv⟩ := sc
    simp only [step, convScope]
    rw [hc inner (by simp [sizeChunks_append, sizeChunks, sizeChunk, sizeVariant, sizeScope]; omega)]
  | command c =>
    obtain ⟨label, args⟩ := c
    simp only [step, convCommand, Ast1.Command.label, Ast1.Command.arguments]
    rw [convArgs_congr (rec := rec) (rec' := rec') (args := args) fun p i sv hm => hc i (by
      have := sizeArgs_mem hm
      simp [sizeChunks_append, sizeChunks, sizeChunk, sizeVariant, sizeCommand]; omega)]
    by_cases hl : label = chars!"begin" ∨ label = chars!"end"
    · simp only [hl, not_true_eq_false, if_false]
      cases args with
      | nil => rfl
      | cons first rest =>
        simp only
        congr 2
        unfold stepEnd
        by_cases h1 : topIs s.stack first.2.chunks = false
        · simp only [h1, if_true]
        · simp only [h1]
          cases h with
          | outside h => simp [topIs] at h1
          | inside hp _ h2 h3 =>
            subst hp
            simp only
            rw [convArgs_congr (rec := rec) (rec' := rec') fun p i sv hm => hc i (by
                have := sizeArgs_mem hm
                simp [sizeChunks_append, sizeChunks, sizeChunk, sizeVariant, sizeCommand, sizeArgs]; omega),
              hc _ (by
                simp [sizeChunks_append, sizeChunks, sizeChunk, sizeVariant, sizeCommand, sizeArgs, sizeChunks_rebase]; omega)]
    · simp only [hl]
      rfl

theorem run_congr {rec rec' pre s} (h : Inv rec pre s) (cs : List Ast1.Chunk)
    (hc : ∀ x, sizeChunks x < sizeChunks (pre ++ cs) → rec x = rec' x) :
    run rec cs s = run rec' cs s := by
  induction cs generalizing pre s with
  | nil => rfl
  | cons c cs ih =>
    simp only [run]
    rw [← step_congr h c fun x hx => hc x (by simp [sizeChunks_append, sizeChunks] at *; omega)]
    have := step_spec h c
    cases hs : step rec s c with
    | error f => rfl
    | ok s' =>
      rw [hs] at this
      exact ih this fun x hx => hc x (by simpa using hx)

theorem convWith_congr {rec rec' : List Ast1.Chunk → Res (List Chunk)} {cs}
    (hc : ∀ x, sizeChunks x < sizeChunks cs → rec x = rec' x) : convWith rec cs = convWith rec' cs := by
  unfold convWith
  rw [run_congr (inv_init rec) cs (by simpa using hc)]

theorem convFuel_adequate (n m : Nat) (cs : List Ast1.Chunk) (hn : sizeChunks cs < n) (hm : sizeChunks cs < m) :
    convFuel n cs = convFuel m cs := by
  induction n generalizing m cs with
  | zero => omega
  | succ n ih =>
    cases m with
    | zero => omega
    | succ m =>
      show convWith _ _ = convWith _ _
      exact convWith_congr fun x hx => ih m x (by omega) (by omega)

/-- The recursion bound is irrelevant: `try_from` is the fixed point of one level. -/
theorem tryFrom_eq (d : Ast1.Document) : tryFrom d = convWith tryFrom d := by
  show convWith (convFuel (sizeChunks d)) d = _
  exact convWith_congr fun x hx => convFuel_adequate _ _ x hx (by omega)

theorem tryFrom_shape {d e} (h : tryFrom d = .ok e) :
    Shape (fun a b => tryFrom a = .ok b ∧ sizeChunks a < sizeChunks d) d e := by
  rw [tryFrom_eq] at h
  exact (convWith_ok h).size

theorem tryFrom_failed {d f} (h : tryFrom d = .error f) : Failed (fun a b => tryFrom a = .ok b) (fun a f => tryFrom a = .error f) d f := by
  rw [tryFrom_eq] at h
  exact convWith_error h

/-- Induction over a successful conversion. -/
theorem conv_induction {P : List Ast1.Chunk → List Chunk → Prop} (step : ∀ d e, Shape P d e → P d e)
    {d e} (h : tryFrom d = .ok e) : P d e := by
  have key : ∀ n d e, sizeChunks d < n → tryFrom d = .ok e → P d e := by
    intro n
    induction n with
    | zero => intros; omega
    | succ n ih =>
      intro d e hn h
      exact step _ _ ((tryFrom_shape h).mono fun a b ⟨h1, h2⟩ => ih a b (by omega) h1)
  exact key _ d e (Nat.lt_succ_self _) h

theorem conv_induction' {P : List Ast1.Chunk → List Chunk → Prop}
    (step : ∀ d e, Shape (fun a b => tryFrom a = .ok b ∧ P a b) d e → P d e)
    {d e} (h : tryFrom d = .ok e) : P d e := by
  have key : ∀ n d e, sizeChunks d < n → tryFrom d = .ok e → P d e := by
    intro n
    induction n with
    | zero => intros; omega
    | succ n ih =>
      intro d e hn h
      exact step _ _ ((tryFrom_shape h).mono fun a b ⟨h1, h2⟩ => ⟨h1, ih a b (by omega) h1⟩)
  exact key _ d e (Nat.lt_succ_self _) h

theorem Stop.mono {R R' E E' pre c f} (h : Stop R E pre c f) (hR : ∀ a b, R a b → R' a b)
    (hE : ∀ a f, sizeChunks a < sizeChunks (pre ++ [c]) → E a f → E' a f) : Stop R' E' pre c f := by
  cases h with
  | scope h1 h2 h3 f' h4 =>
    subst h2
    exact .scope (h1.mono hR) rfl (hE _ _ (by
      simp [sizeChunks_append, sizeChunks, sizeChunk, sizeVariant, sizeScope]; omega) h3) _ h4
  | command h1 h2 h3 h4 h5 h6 =>
    subst h4
    refine .command (h1.mono hR) h2 h3 rfl h5 (hE _ _ ?_ h6)
    have := sizeArgs_mem h5
    simp [sizeChunks_append, sizeChunks, sizeChunk, sizeVariant, sizeCommand]; omega
  | envArg h1 h2 h3 h4 h5 h6 =>
    subst h1
    refine .envArg rfl (h2.mono hR) h3 h4 h5 (hE _ _ ?_ h6)
    have := sizeArgs_mem h5
    simp [sizeChunks_append, sizeChunks, sizeChunk, sizeVariant, sizeCommand, sizeArgs]; omega
  | content h1 h2 h3 h4 h5 h6 f' h7 =>
    subst h1
    refine .content rfl (h2.mono hR) h3 h4 h5 (hE _ _ ?_ h6) _ h7
    simp [sizeChunks_append, sizeChunks, sizeChunk, sizeVariant, sizeCommand, sizeArgs, sizeChunks_rebase]; omega
  | noLabel h1 h2 h3 h4 => exact .noLabel h1 h2 h3 h4
  | unexpectedEnd h1 h2 h3 => exact .unexpectedEnd h1 h2 h3
  | tooMany h1 h2 => exact .tooMany h1 h2
  | underflow h1 h2 => exact .underflow h1 h2

/-- Induction over a failing conversion. -/
theorem fail_induction {P : List Ast1.Chunk → Fail → Prop}
    (step : ∀ d f, Failed (fun a b => tryFrom a = .ok b) P d f → P d f)
    {d f} (h : tryFrom d = .error f) : P d f := by
  have key : ∀ n d f, sizeChunks d < n → tryFrom d = .error f → P d f := by
    intro n
    induction n with
    | zero => intros; omega
    | succ n ih =>
      intro d f hn h
      apply step
      cases tryFrom_failed h with
      | stop h1 h2 =>
        subst h1
        refine .stop rfl (h2.mono (fun _ _ h => h) fun a g hs hg => ih a g ?_ hg)
        simp [sizeChunks_append, sizeChunks] at *; omega
      | unclosed h1 h2 h3 => exact .unclosed h1 h2 h3
  exact key _ d f (Nat.lt_succ_self _) h

end LatexAst.Ast2
