import Verif.Model.Machine2
import Verif.Proofs.Machine
import Verif.Proofs.Lines2

/-! Machine integers in stage 2. -/

namespace LatexAst.Ast2
open LatexAst.Ast1 (Opened Matched Checked Child Sane SaneAll)

/-- Newlines and opening brackets: the bound of `error_line`. -/
def weight (d : List Ast1.Chunk) : Nat := newlines (Ast1.displayChunks d) + openers (Ast1.displayChunks d)

theorem pushBufferA_eq {A : Arith} {s : State} {l v} (h1 : 1 ≤ s.bufferStart) (hl : l < u32Size)
    (h : Fine (s.pushBuffer l v)) : s.pushBufferA A l v = s.pushBuffer l v := by
  unfold State.pushBuffer at h ⊢
  unfold State.pushBufferA
  cases hc : checkedSub l s.bufferStart with
  | error f => rw [hc] at h; exact absurd hc (Ast1.sub_of_fine h)
  | ok k =>
    rw [sub_eq A hl hc]
    have : k + 1 ≤ l := by
      unfold checkedSub at hc
      split at hc <;> cases hc
      omega
    simp only
    rw [A.add_exact _ _ (by omega)]

theorem stepA_eq {A : Arith} {rec : List Ast1.Chunk → Res (List Chunk)} {pre s c post d} (hi : Inv tryFrom pre s)
    (hd : d = pre ++ c :: post) (hs : SaneAll d) (hw : weight d + 1 < u32Size)
    (hr : ∀ x, sizeChunks x < sizeChunks d → SaneAll x → weight x ≤ weight d → rec x = tryFrom x)
    (h : Fine (step tryFrom s c)) : stepA A rec s c = step tryFrom s c := by
  obtain ⟨l, v⟩ := c
  obtain ⟨g1, g2, g3⟩ := hs _ .top pre _ post hd
  have hwd : weight d = newlines (Ast1.displayChunks pre) + newlines (Ast1.Chunk.mk l v).display + newlines (Ast1.displayChunks post) +
      (openers (Ast1.displayChunks pre) + openers (Ast1.Chunk.mk l v).display + openers (Ast1.displayChunks post)) := by
    subst hd
    simp [weight, Ast1.displayChunks_append, Ast1.displayChunks_cons]
    omega
  have hsz : sizeChunks d = sizeChunks pre + sizeChunk (.mk l v) + sizeChunks post := by
    subst hd
    simp [sizeChunks_append, sizeChunks]
    omega
  simp only [Ast1.Chunk.lineNo] at g1 g2
  have hl : l < u32Size := by omega
  have child : ∀ {inner}, Child d inner → weight inner ≤ weight d → rec inner = tryFrom inner := fun hc hwt =>
    hr _ (size_child hc) (Ast1.saneAll_child hs hc) hwt
  -- inside an environment
  have start : s.stack ≠ [] → 1 ≤ s.bufferStart := by
    cases hi with
    | outside h => intro h; exact absurd rfl h
    | @inside d0 e l0 p lab args body st hp h1 h2 h3 =>
      intro _
      subst hp
      have := (hs _ .top).begin_exact (pre := d0) (l := l0) (args := (p, .mk lab .curly) :: args) (post := body ++ .mk l v :: post) (by rw [hd]; simp)
      simp only [startL]
      omega
  have buf : ∀ v', s.stack.isEmpty = false → Fine (s.pushBuffer l v') → s.pushBufferA A l v' = s.pushBuffer l v' := by
    intro v' he hf
    exact pushBufferA_eq (start (by rintro h; rw [h] at he; cases he)) hl hf
  cases v with
  | text t =>
    simp only [step, stepA] at h ⊢
    cases he : s.stack.isEmpty with
    | true => simp
    | false =>
      rw [he] at h
      exact buf _ he h
  | scope sc =>
    obtain ⟨inner, sv⟩ := sc
    simp only [step, stepA] at h ⊢
    cases he : s.stack.isEmpty with
    | false =>
      rw [he] at h
      exact buf _ he h
    | true =>
      simp only [he, if_true] at h ⊢
      have hp := display_scope_parts (l := l) (inner := inner) (sv := sv)
      have hrec : rec inner = tryFrom inner := child (by rw [hd]; exact child_scope) (by simp only [weight] at hwd ⊢; omega)
      have hcs : convScope rec (.mk inner sv) = convScope tryFrom (.mk inner sv) := by simp only [convScope, hrec]
      rw [hcs]
      cases hx : addLine l (convScope tryFrom (.mk inner sv)) with
      | error f => rw [hx] at h; rw [addLineA_eq A (by rw [hx]; exact fine_error h), hx]
      | ok a => rw [addLineA_eq A (by rw [hx]; exact ⟨by simp, by simp⟩), hx]
  | command cm =>
    obtain ⟨label, args⟩ := cm
    by_cases hb : label = chars!"begin" ∨ label = chars!"end"
    · simp only [step, stepA, Ast1.Command.label, Ast1.Command.arguments, hb, not_true_eq_false, if_false] at h ⊢
      cases args with
      | nil => rfl
      | cons first rest =>
        obtain ⟨fp, ⟨flab, fv⟩⟩ := first
        simp only [Ast1.Scope.variant] at h ⊢
        by_cases hv : fv = .curly
        · subst hv
          simp only [ne_eq, not_true_eq_false, if_false] at h ⊢
          by_cases hbb : label = chars!"begin"
          · subst hbb
            simp only [if_true] at h ⊢
            unfold stepBegin at h ⊢
            unfold stepBeginA
            simp only at h ⊢
            split
            · have hb' := (hs _ .top).begin_exact hd
              have hn := display_beginC l fp flab rest
              simp only [beginC] at hn
              have ha := argNewlines_eq ((fp, .mk flab .curly) :: rest)
              have hm : asU32 (argNewlines ((fp, .mk flab .curly) :: rest)) = argNewlines ((fp, .mk flab .curly) :: rest) :=
                Nat.mod_eq_of_lt (by omega)
              rw [hm, A.add_exact _ _ (by omega)]
            · rename_i h0
              rw [if_neg h0] at h
              refine pushBufferA_eq (start ?_) hl h
              rintro h1
              rw [h1] at h0
              exact h0 rfl
          · have he : label = chars!"end" := by simpa [hbb] using hb
            subst he
            simp only [hbb, if_false] at h ⊢
            unfold stepEnd at h ⊢
            unfold stepEndA
            split
            · rfl
            · rename_i h0
              rw [if_neg h0] at h
              split
              · rfl
              · rename_i h1
                rw [if_neg h1] at h
                cases hi with
                | outside hi => simp [topIs] at h0
                | @inside d0 e l0 p lab args body st hp i1 i2 i3 =>
                  subst hp
                  have hd' : d = d0 ++ beginC l0 p lab args :: (body ++ .mk l (.command (.mk chars!"end" ((fp, .mk flab .curly) :: rest))) :: post) := by
                    rw [hd]; simp
                  have hwd' : weight d = newlines (Ast1.displayChunks d0) + newlines (beginC l0 p lab args).display + newlines (Ast1.displayChunks body) +
                      newlines (Ast1.displayChunks (.mk l (.command (.mk chars!"end" ((fp, .mk flab .curly) :: rest))) :: post)) +
                      (openers (Ast1.displayChunks d0) + openers (beginC l0 p lab args).display + openers (Ast1.displayChunks body) +
                        openers (Ast1.displayChunks (.mk l (.command (.mk chars!"end" ((fp, .mk flab .curly) :: rest))) :: post))) := by
                    rw [hd']
                    simp [weight, Ast1.displayChunks_append, Ast1.displayChunks_cons]
                    omega
                  simp only at h ⊢
                  by_cases hem : (lab :: st.reverse).dropLast.isEmpty = true
                  · rw [if_pos hem] at h
                    rw [if_pos hem, if_pos hem]
                    have hcong : convArgs rec args = convArgs tryFrom args := by
                      refine convArgs_congr fun q inner sv hm => child (inner := inner) ?_ ?_
                      · rw [hd']; exact .beginArg (List.mem_append_right _ (List.mem_cons_self ..)) hm
                      · have h7 := display_command_le (l := l0) (label := chars!"begin") (List.mem_cons_of_mem (p, .mk lab .curly) hm)
                        simp only [weight] at hwd' ⊢
                        simp only [beginC] at hwd'
                        omega
                    have hbody : rec (body.map (rebase1 (startL l0 p lab args))) = tryFrom (body.map (rebase1 (startL l0 p lab args))) := by
                      refine hr _ ?_ ?_ ?_
                      · rw [hd']
                        simp [sizeChunks_append, sizeChunks, sizeChunk, sizeVariant, sizeCommand, sizeArgs, sizeChunks_rebase]
                        omega
                      · exact sane_body (by rw [← hd']; exact hs)
                      · simp only [weight, display_rebase] at hwd' ⊢
                        omega
                    rw [hcong, hbody]
                    cases ha : convArgs tryFrom args with
                    | error f => rfl
                    | ok args' =>
                      rw [ha] at h
                      simp only at h ⊢
                      cases hx : addLine (startL l0 p lab args) (tryFrom (body.map (rebase1 (startL l0 p lab args)))) with
                      | error f => rw [hx] at h; rw [addLineA_eq A (by rw [hx]; exact fine_error h), hx]
                      | ok a => rw [addLineA_eq A (by rw [hx]; exact ⟨by simp, by simp⟩), hx]
                  · rw [if_neg hem] at h
                    rw [if_neg hem, if_neg hem]
                    exact pushBufferA_eq (by simpa using start (by simp)) hl h
        · simp only [ne_eq, hv, not_false_eq_true, if_true]
    · have hb1 : label ≠ chars!"begin" := fun h => hb (.inl h)
      have hb2 : label ≠ chars!"end" := fun h => hb (.inr h)
      simp only [step, stepA, Ast1.Command.label, hb, not_false_eq_true, if_true] at h ⊢
      cases he : s.stack.isEmpty with
      | false =>
        rw [he] at h
        exact buf _ he h
      | true =>
        simp only [if_true]
        have hcong : convArgs rec args = convArgs tryFrom args := by
          refine convArgs_congr fun q inner sv hm => child (inner := inner) ?_ ?_
          · rw [hd]; exact child_command hb1 hb2 hm
          · have h7 := display_command_le (l := l) (label := label) hm
            simp only [weight] at hwd ⊢
            omega
        simp only [convCommand, hcong]
        rfl

theorem runA_eq {A : Arith} {rec : List Ast1.Chunk → Res (List Chunk)} {d} (hs : SaneAll d) (hw : weight d + 1 < u32Size)
    (hr : ∀ x, sizeChunks x < sizeChunks d → SaneAll x → weight x ≤ weight d → rec x = tryFrom x) (cs : List Ast1.Chunk)
    {pre s} (hi : Inv tryFrom pre s) (hd : d = pre ++ cs) (h : Fine (match run tryFrom cs s with
      | .error f => .error f
      | .ok s => finish s)) :
    runA A rec cs s = run tryFrom cs s := by
  induction cs generalizing pre s with
  | nil => rfl
  | cons c cs ih =>
    simp only [run, runA] at h ⊢
    have hsp := step_spec hi c
    cases hx : step tryFrom s c with
    | error f =>
      rw [hx] at h
      rw [stepA_eq hi hd hs hw hr (by rw [hx]; exact fine_error h), hx]
    | ok t =>
      rw [hx] at h hsp
      rw [stepA_eq hi hd hs hw hr (by rw [hx]; exact ⟨by simp, by simp⟩), hx]
      exact ih hsp (by simpa using hd) h

theorem tryFrom_fine {d} (hs : SaneAll d) (hw : weight d + 1 < u32Size) : Fine (tryFrom d) := by
  refine ⟨tryFrom_no_panic (Ast1.sane_numbered hs), fun e he => ?_⟩
  have := error_line he hs
  simp only [weight] at hw
  omega

theorem convFuelA_eq (A : Arith) (n : Nat) (d : List Ast1.Chunk) (hn : sizeChunks d < n) (hs : SaneAll d) (hw : weight d + 1 < u32Size) :
    convFuelA A n d = tryFrom d := by
  induction n generalizing d with
  | zero => omega
  | succ n ih =>
    have hf := tryFrom_fine hs hw
    rw [tryFrom_eq] at hf ⊢
    unfold convWith at hf ⊢
    simp only [convFuelA]
    rw [runA_eq hs hw (fun x h1 h2 h3 => ih x (by omega) h2 (by omega)) d (inv_init _) (by simp) hf]
    rfl

theorem tryFromA_eq (A : Arith) {d : Ast1.Document} (hs : SaneAll d) (hw : weight d + 1 < u32Size) : tryFromA A d = tryFrom d :=
  convFuelA_eq A _ d (by omega) hs hw

theorem weight_parsed {s : Str} {d : Ast1.Document} (h : Ast1.fromStr s = .ok d) (ho : openers (Ast1.displayChunks d) ≤ openers s) :
    weight d ≤ s.length := by
  have h3 := Ast1.newlines_fromStr h
  simp only [weight, h3]
  have key : ∀ s : Str, newlines s + openers s ≤ s.length := by
    intro s
    induction s with
    | nil => simp [newlines, openers]
    | cons c s ih =>
      simp only [newlines_cons, openers, List.countP_cons, List.length_cons] at ih ⊢
      by_cases hc : c = '\n'
      · subst hc; simp; omega
      · rw [if_neg hc]; split <;> omega
  have := key s
  omega

end LatexAst.Ast2
