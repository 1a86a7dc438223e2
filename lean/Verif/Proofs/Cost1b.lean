import Verif.Proofs.Cost1

/-! The number of steps of the stage-1 parser. -/

namespace LatexAst

/-- The steps of `x`, and `n` for every unit of weight of its result, are at most `n` for every unit of `w`. -/
def Pays {α : Type} (n : Nat) (x : Counted α) (w : Nat) (W : α → Nat) : Prop :=
  x.2 + n * (match x.1 with | .ok a => W a | .error _ => 0) ≤ n * w

namespace Pays
variable {α β : Type} {n : Nat}

theorem ok {a : α} {w : Nat} {W : α → Nat} (h : W a ≤ w) : Pays n (free (.ok a)) w W := by
  show 0 + n * W a ≤ n * w
  rw [Nat.zero_add]; exact Nat.mul_le_mul_left _ h

theorem error {f : Fail} {w : Nat} {W : α → Nat} : Pays n (free (.error f)) w W := by
  show 0 + n * 0 ≤ n * w
  omega

theorem res {r : Res α} {w : Nat} {W : α → Nat} (h : ∀ a, r = .ok a → W a ≤ w) : Pays n (free r) w W := by
  cases r with
  | error f => exact error
  | ok a => exact ok (h a rfl)

theorem bind {x : Counted α} {f : α → Counted β} {w : Nat} {W : α → Nat} {W' : β → Nat} (hx : Pays n x w W)
    (hf : ∀ a, x.1 = .ok a → Pays n (f a) (W a) W') : Pays n (x.andThen f) w W' := by
  obtain ⟨r, k⟩ := x
  cases r with
  | error e => exact hx
  | ok a =>
    have h1 : k + n * W a ≤ n * w := hx
    have h2 := hf a rfl
    simp only [Pays] at h2
    simp only [Pays, Counted.andThen]
    omega

theorem more {x : Counted α} {w k : Nat} {W : α → Nat} (h : Pays n x w W) : Pays n x (w + k) (fun a => W a + k) := by
  obtain ⟨r, j⟩ := x
  cases r with
  | error e =>
    simp only [Pays] at h ⊢
    rw [Nat.mul_add]; omega
  | ok a =>
    simp only [Pays, Nat.mul_add] at h ⊢
    omega

theorem le {x : Counted α} {w w' : Nat} {W : α → Nat} (h : Pays n x w W) (hw : w ≤ w') : Pays n x w' W :=
  Nat.le_trans h (Nat.mul_le_mul_left _ hw)

end Pays

namespace Ast1

/-- What waits in an argument list for a recursive call. -/
def scWait : List ScopeBuf → Nat
  | [] => 0
  | (a, _, _) :: r => a.length + 1 + scWait r

/-- What waits in a buffer for a recursive call. -/
def Buffer.wait : Buffer → Nat
  | .scope a _ _ => a.length + 1
  | .command _ sc _ _ => scWait sc
  | .text _ => 0

theorem scWait_append (a b : List ScopeBuf) : scWait (a ++ b) = scWait a + scWait b := by
  induction a with
  | nil => simp [scWait]
  | cons x a ih => obtain ⟨y, v, p⟩ := x; simp only [List.cons_append, scWait, ih]; omega

theorem pushLast_wait (sc : List ScopeBuf) (t : Str) : scWait (pushLastContent sc t) ≤ scWait sc + t.length := by
  fun_induction pushLastContent sc t with
  | case1 => simp [scWait]
  | case2 => simp [scWait]; omega
  | case3 x y r ih => obtain ⟨a, v, p⟩ := x; simp only [scWait] at ih ⊢; omega

theorem wait_pushStr (b : Buffer) (t : Str) : (b.pushStr t).wait ≤ b.wait + t.length := by
  cases b with
  | scope a v d => simp [Buffer.pushStr, Buffer.wait]; omega
  | text a => simp [Buffer.pushStr, Buffer.wait]
  | command l sc d tr =>
    simp only [Buffer.pushStr]
    split
    · simp [Buffer.wait]
    · exact pushLast_wait sc t

theorem wait_push (b : Buffer) (c : Char) : (b.push c).wait ≤ b.wait + 1 := wait_pushStr b [c]

theorem wait_push2 (b : Buffer) (c c' : Char) : ((b.push c).push c').wait ≤ b.wait + 2 := by
  have := wait_push (b.push c) c'
  have := wait_push b c
  omega

/-- What waits, an escape character that has been read included. -/
def State.wait (s : State) : Nat := s.buffer.wait + if s.escaped then 1 else 0

variable {rec : Str → Counted (List Chunk)} {n : Nat}

theorem evalArgsN_within (hr : ∀ a, (rec a).2 ≤ n * (a.length + 1)) (sc) :
    Pays n (evalArgsN rec sc) (scWait sc) (fun _ => 0) := by
  induction sc with
  | nil => exact .ok (Nat.le_refl _)
  | cons x r ih =>
    obtain ⟨a, v, p⟩ := x
    have h0 : Pays n (rec a) (a.length + 1) (fun _ => 0) := by
      have := hr a
      simp only [Pays]
      cases (rec a).1 <;> exact this
    exact .bind (h0.more (k := scWait r)) fun cs _ => .bind (ih.le (by omega)) fun args _ => .ok (Nat.le_refl _)

theorem flushN_within (hr : ∀ a, (rec a).2 ≤ n * (a.length + 1)) (b bl cs) :
    Pays n (flushN rec b bl cs) b.wait (fun _ => 0) := by
  cases b with
  | text t => simp only [flushN]; split <;> exact .ok (Nat.zero_le _)
  | scope a v d =>
    simp only [flushN]
    split
    · exact .error
    · have h0 : Pays n (rec a) (a.length + 1) (fun _ => 0) := by
        have := hr a
        simp only [Pays]
        cases (rec a).1 <;> exact this
      exact .bind h0 fun _ _ => .ok (Nat.le_refl _)
  | command l sc d t =>
    simp only [flushN]
    split
    · split <;> exact .error
    · exact .bind (evalArgsN_within hr sc) fun _ _ => .ok (Nat.le_refl _)

theorem flushMN_within (hr : ∀ a, (rec a).2 ≤ n * (a.length + 1)) (s) :
    Pays n (flushMN rec s) s.buffer.wait (fun _ => 0) := by
  have h := flushN_within hr s.buffer s.bufferLine s.chunks
  simp only [flushMN]
  cases hf : flushN rec s.buffer s.bufferLine s.chunks with
  | mk r k =>
    rw [hf] at h
    cases r with
    | ok c => exact h
    | error f =>
      simp only
      cases checkedSub s.bufferLine 1 with
      | error p => exact h
      | ok j =>
        have h' : k ≤ n * s.buffer.wait := by simpa [Pays] using h
        simp only [Pays]
        cases addLine j (Except.error f : Res State) <;> simpa using h'

/-- The weight of a state in the middle of an iteration. -/
abbrev bw (s : State) : Nat := s.buffer.wait

theorem startCommandN_within (hr : ∀ a, (rec a).2 ≤ n * (a.length + 1)) (s c) :
    Pays n (startCommandN rec s c) 0 bw := by
  simp only [startCommandN]
  split
  · exact .ok (Nat.le_refl _)
  · exact .bind (flushMN_within hr _) fun s _ => .ok (Nat.le_refl _)

theorem stepTextN_within (hr : ∀ a, (rec a).2 ≤ n * (a.length + 1)) (s c) :
    Pays n (stepTextN rec s c) (s.wait + 1) bw := by
  have h0 : s.buffer.wait ≤ s.wait := Nat.le_add_right _ _
  simp only [stepTextN]
  split
  · exact (Pays.bind (flushMN_within hr s) fun s _ => startCommandN_within hr s c).le (by omega)
  · split
    · exact .bind (((flushMN_within hr s).more (k := 1)).le (by omega)) fun s _ => .ok (Nat.le_refl 1)
    · have := wait_push s.buffer c
      exact .ok (by simp only [bw]; omega)

theorem stepScopeN_within (hr : ∀ a, (rec a).2 ≤ n * (a.length + 1)) (s a v d c) (hs : s.buffer = .scope a v d) :
    Pays n (stepScopeN rec s a v d c) (s.wait + 1) bw := by
  have h0 : s.wait = a.length + 1 + if s.escaped then 1 else 0 := by simp only [State.wait, hs, Buffer.wait]
  simp only [stepScopeN]
  split
  next h =>
    have := wait_push2 s.buffer '\\' c
    refine .ok ?_
    simp only [bw, State.wait, h.2, if_true]
    omega
  next h =>
    split
    · have := wait_push (Buffer.scope a v (d + 1)) c
      refine .ok ?_
      simp only [bw, Buffer.wait] at this ⊢
      omega
    · split
      · refine .bind (W := fun _ => a.length + 2) (.res fun _ _ => by omega) fun k _ => ?_
        split
        · refine .bind (W := fun _ => 0) ((flushMN_within hr _).le ?_) fun s _ => .ok (Nat.le_refl 0)
          simp only [Buffer.wait]; omega
        · have := wait_push (Buffer.scope a v k) c
          refine .ok ?_
          simp only [bw, Buffer.wait] at this ⊢
          omega
      · have := wait_push s.buffer c
        refine .ok ?_
        simp only [bw, State.wait]
        omega

theorem stepCommandN_within (hr : ∀ a, (rec a).2 ≤ n * (a.length + 1)) (s l sc d t c) (hs : s.buffer = .command l sc d t) :
    Pays n (stepCommandN rec s l sc d t c) (s.wait + 1) bw := by
  have h0 : s.wait = scWait sc + if s.escaped then 1 else 0 := by simp only [State.wait, hs, Buffer.wait]
  have h1 : s.buffer.wait = scWait sc := by rw [hs]; rfl
  have hp := wait_push s.buffer c
  have hp2 := wait_push2 s.buffer '\\' c
  have hfl : Pays n (flushMN rec s) (s.wait + 1) (fun _ => 0) := (flushMN_within hr s).le (by omega)
  simp only [stepCommandN]
  split
  · split
    · refine .ok ?_
      simp only [bw, Buffer.pushScope, Buffer.wait, scWait_append, scWait, List.length_nil]
      omega
    · exact .error
  · split
    · exact .ok (by simp only [bw, Buffer.wait]; omega)
    · split
      · refine .bind hfl fun s _ => ?_
        refine .bind (W := fun _ => 0) ?_ fun s _ => startCommandN_within hr _ c
        split
        · exact .ok (Nat.le_refl _)
        · exact .bind (W := fun _ => 0) (.res fun _ _ => Nat.le_refl _) fun line _ =>
            .bind (flushN_within hr _ _ _) fun _ _ => .ok (Nat.le_refl _)
      · split
        next h =>
          refine .ok ?_
          simp only [bw, h0, h.2, if_true]
          omega
        next =>
          split
          · refine .bind hfl fun s _ => ?_
            exact .bind (W := fun _ => 0) (.res fun _ _ => Nat.le_refl _) fun line _ => .ok (Nat.le_refl _)
          · split
            · split
              · exact .ok (by simp only [bw, Buffer.wait]; omega)
              · split
                · exact .ok (by simp only [bw, Buffer.wait]; omega)
                · exact .ok (by simp only [bw]; omega)
            · split
              · exact .error
              · split
                · exact .error
                · split
                  · exact .ok (by simp only [bw]; omega)
                  · exact .bind hfl fun s _ => .ok (Nat.le_refl _)

theorem stepBufferN_within (hr : ∀ a, (rec a).2 ≤ n * (a.length + 1)) (s c) :
    Pays n (stepBufferN rec s c) (s.wait + 1) State.wait := by
  simp only [stepBufferN]
  refine .bind (W := bw) ?_ fun s _ => .ok (Nat.le_refl _)
  cases hs : s.buffer with
  | text t => exact stepTextN_within hr s c
  | scope a v d => exact stepScopeN_within hr s a v d c hs
  | command l sc d t => exact stepCommandN_within hr s l sc d t c hs

theorem stepN_within (hr : ∀ a, (rec a).2 ≤ n * (a.length + 1)) (s c) :
    Pays n (stepN rec s c) (s.wait + 1) State.wait := by
  simp only [stepN]
  split
  · exact stepBufferN_within hr { s with comment := false, lineNo := s.lineNo + 1 } c
  · split
    · exact .ok (Nat.le_add_right _ _)
    · split
      · exact .ok (by simp only [State.wait, if_true]; omega)
      · split
        · exact .ok (Nat.le_add_right _ _)
        · exact stepBufferN_within hr s c

theorem runN_within (hr : ∀ a, (rec a).2 ≤ n * (a.length + 1)) (cs : Str) (s) :
    (runN rec cs s).2 + n * (match (runN rec cs s).1 with | .ok s => s.wait | .error _ => 0) ≤
      n * s.wait + (n + 1) * cs.length := by
  induction cs generalizing s with
  | nil => simp [runN, free]
  | cons c cs ih =>
    have h1 := stepN_within hr s c
    simp only [runN]
    cases hs : stepN rec s c with
    | mk r k =>
      rw [hs] at h1
      cases r with
      | error f =>
        simp only [Pays, Counted.andThen] at h1 ⊢
        simp only [List.length_cons, Nat.mul_add, Nat.add_mul] at h1 ⊢
        omega
      | ok s' =>
        simp only [Pays, Counted.andThen] at h1 ⊢
        have h2 := ih s'
        simp only [List.length_cons, Nat.mul_add, Nat.add_mul] at h1 h2 ⊢
        omega

theorem finishN_within (hr : ∀ a, (rec a).2 ≤ n * (a.length + 1)) (s) :
    (finishN rec s).2 ≤ n * s.wait := by
  have hf : Pays n (flushMN rec s) s.wait (fun _ => 0) := (flushMN_within hr s).le (Nat.le_add_right _ _)
  have h : Pays n (finishN rec s) s.wait (fun _ => 0) := by
    simp only [finishN]
    split
    · split
      · exact .bind hf fun _ _ => .ok (Nat.le_refl _)
      · exact .bind hf fun _ _ => .bind (flushMN_within hr _) fun _ _ => .ok (Nat.le_refl _)
    · exact .bind hf fun _ _ => .ok (Nat.le_refl _)
  simp only [Pays] at h
  omega

/-- The steps taken with at most `n` nested calls. -/
theorem parseFuelN_steps (n s) : (parseFuelN n s).2 ≤ n * (s.length + 1) := by
  induction n generalizing s with
  | zero => simp [parseFuelN, free]
  | succ n ih =>
    have h1 := runN_within ih s State.init
    have h0 : State.init.wait = 0 := rfl
    simp only [parseFuelN]
    cases hs : runN (parseFuelN n) s State.init with
    | mk r k =>
      rw [hs] at h1
      cases r with
      | error f =>
        simp only [Counted.andThen] at h1 ⊢
        simp only [h0, Nat.mul_add, Nat.add_mul] at h1 ⊢
        omega
      | ok st =>
        have h2 := finishN_within ih st
        simp only [Counted.andThen] at h1 ⊢
        simp only [h0, Nat.mul_add, Nat.add_mul] at h1 ⊢
        omega

/-! ### more calls do not change the steps -/

end Ast1

/-- `y` is `x`, if `x` did not run out of calls. -/
def Same {α : Type} (x y : Counted α) : Prop := x.1 ≠ .error .fuel → y = x

namespace Same
variable {α β : Type}

theorem refl (x : Counted α) : Same x x := fun _ => rfl

theorem bind {x y : Counted α} {f g : α → Counted β} (h : Same x y) (hf : ∀ a, Same (f a) (g a)) :
    Same (x.andThen f) (y.andThen g) := by
  intro hn
  obtain ⟨r, k⟩ := x
  have hx : y = (r, k) := h (by intro he; rw [show r = .error .fuel from he] at hn; exact hn rfl)
  subst hx
  cases r with
  | error e => rfl
  | ok a => simp only [Counted.andThen] at hn ⊢; rw [hf a hn]

end Same

namespace Ast1
variable {rec rec' : Str → Counted (List Chunk)}

theorem evalArgsN_same (hr : ∀ a, Same (rec a) (rec' a)) (sc) : Same (evalArgsN rec sc) (evalArgsN rec' sc) := by
  induction sc with
  | nil => exact .refl _
  | cons x r ih =>
    obtain ⟨a, v, p⟩ := x
    exact .bind (hr a) fun _ => .bind ih fun _ => .refl _

theorem flushN_same (hr : ∀ a, Same (rec a) (rec' a)) (b bl cs) : Same (flushN rec b bl cs) (flushN rec' b bl cs) := by
  cases b with
  | text t => exact .refl _
  | scope a v d =>
    simp only [flushN]
    split
    · exact .refl _
    · exact .bind (hr a) fun _ => .refl _
  | command l sc d t =>
    simp only [flushN]
    split
    · exact .refl _
    · exact .bind (evalArgsN_same hr sc) fun _ => .refl _

theorem flushMN_same (hr : ∀ a, Same (rec a) (rec' a)) (s : State) (hb : 1 ≤ s.bufferLine) :
    Same (flushMN rec s) (flushMN rec' s) := by
  have h := flushN_same hr s.buffer s.bufferLine s.chunks
  intro hn
  simp only [flushMN, checkedSub_ok hb] at hn ⊢
  cases hf : flushN rec s.buffer s.bufferLine s.chunks with
  | mk r k =>
    rw [hf] at h hn
    by_cases he : r = .error .fuel
    · subst he; exact absurd rfl hn
    · rw [h he]

theorem startCommandN_same (s c) : startCommandN rec s c = startCommandN rec' s c := rfl

theorem stepTextN_same (hr : ∀ a, Same (rec a) (rec' a)) (s c) (hb : 1 ≤ s.bufferLine) :
    Same (stepTextN rec s c) (stepTextN rec' s c) := by
  simp only [stepTextN]
  split
  · exact .bind (flushMN_same hr s hb) fun _ => .refl _
  · split
    · exact .bind (flushMN_same hr s hb) fun _ => .refl _
    · exact .refl _

theorem stepScopeN_same (hr : ∀ a, Same (rec a) (rec' a)) (s a v d c) (hb : 1 ≤ s.bufferLine) :
    Same (stepScopeN rec s a v d c) (stepScopeN rec' s a v d c) := by
  simp only [stepScopeN]
  split
  · exact .refl _
  · split
    · exact .refl _
    · split
      · refine .bind (.refl _) fun k => ?_
        split
        · exact .bind (flushMN_same hr _ hb) fun _ => .refl _
        · exact .refl _
      · exact .refl _

theorem stepCommandN_same (hr : ∀ a, Same (rec a) (rec' a)) (s l sc d t c) (hb : 1 ≤ s.bufferLine) :
    Same (stepCommandN rec s l sc d t c) (stepCommandN rec' s l sc d t c) := by
  have hf := flushMN_same hr s hb
  simp only [stepCommandN]
  split
  · exact .refl _
  · split
    · exact .refl _
    · split
      · exact .bind hf fun _ => .refl _
      · split
        · exact .refl _
        · split
          · exact .bind hf fun _ => .refl _
          · split
            · exact .refl _
            · split
              · exact .refl _
              · split
                · exact .refl _
                · split
                  · exact .refl _
                  · exact .bind hf fun _ => .refl _

theorem stepBufferN_same (hr : ∀ a, Same (rec a) (rec' a)) (s c) (hb : 1 ≤ s.bufferLine) :
    Same (stepBufferN rec s c) (stepBufferN rec' s c) := by
  simp only [stepBufferN]
  refine .bind ?_ fun _ => .refl _
  cases s.buffer with
  | text t => exact stepTextN_same hr s c hb
  | scope a v d => exact stepScopeN_same hr s a v d c hb
  | command l sc d t => exact stepCommandN_same hr s l sc d t c hb

theorem stepN_same (hr : ∀ a, Same (rec a) (rec' a)) (s c) (hb : 1 ≤ s.bufferLine) :
    Same (stepN rec s c) (stepN rec' s c) := by
  simp only [stepN]
  split
  · exact stepBufferN_same hr { s with comment := false, lineNo := s.lineNo + 1 } c hb
  · split
    · exact .refl _
    · split
      · exact .refl _
      · split
        · exact .refl _
        · exact stepBufferN_same hr s c hb

theorem step_inv {rec : Str → Res (List Chunk)} {s s' : State} {c : Char}
    (hi : Inv s.buffer s.bufferLine s.lineNo) (h : step rec s c = .ok s') : Inv s'.buffer s'.bufferLine s'.lineNo := by
  have key : ∀ st : State, st.buffer = s.buffer → st.bufferLine = s.bufferLine → st.escaped = s.escaped →
      st.lineNo = lnAfter s.lineNo (s.escaped, c) → stepBuffer rec st c = .ok s' →
      Inv s'.buffer s'.bufferLine s'.lineNo := by
    intro st h1 h2 h3 h4 h5
    rw [stepBuffer_eq rec st c (by rw [h1]; exact hi.ctl) (by rw [h2]; exact hi.hbl)] at h5
    · rw [h1, h2, h3, h4] at h5
      cases ht : tstep rec s.buffer s.bufferLine (lnAfter s.lineNo (s.escaped, c)) (s.escaped, c) with
      | error f => rw [ht] at h5; cases h5
      | ok o =>
        obtain ⟨new, b', bl'⟩ := o
        rw [ht] at h5
        simp only [lift, Except.ok.injEq] at h5
        subst h5
        simp only [h4]
        exact TStep.inv hi (tstep_ok hi.ctl ht)
    · intro l sc tr hb
      have := hi.htr l sc 0 tr (by rw [← h1]; exact hb)
      have := le_lnAfter s.lineNo (s.escaped, c)
      omega
  simp only [step] at h
  split at h
  next hc => exact key { s with comment := false, lineNo := s.lineNo + 1 } rfl rfl rfl (by simp [lnAfter, hc]) h
  next hc =>
    split at h
    · cases h; exact hi
    · split at h
      · cases h; exact hi
      · split at h
        · cases h; exact hi
        · exact key s rfl rfl rfl (by simp [lnAfter, hc]) h

theorem runN_same (hr : ∀ a, Same (rec a) (rec' a)) (cs : Str) (s) (hi : Inv s.buffer s.bufferLine s.lineNo) :
    Same (runN rec cs s) (runN rec' cs s) := by
  induction cs generalizing s with
  | nil => exact .refl _
  | cons c cs ih =>
    have h1 := stepN_same hr s c hi.hbl
    have h2 : (stepN rec s c).1 = step (fun a => (rec a).1) s c := stepN_fst s c
    intro hn
    simp only [runN] at hn ⊢
    cases hs : stepN rec s c with
    | mk r k =>
      rw [hs] at h1 hn h2
      cases r with
      | error f =>
        rw [h1 (by exact hn)]; rfl
      | ok s' =>
        rw [h1 (by simp)]
        simp only [Counted.andThen] at hn ⊢
        rw [ih s' (step_inv hi h2.symm) hn]

theorem runN_inv {rec : Str → Counted (List Chunk)} {cs : Str} {s s' : State} (hi : Inv s.buffer s.bufferLine s.lineNo)
    (h : (runN rec cs s).1 = .ok s') : Inv s'.buffer s'.bufferLine s'.lineNo := by
  rw [runN_fst] at h
  induction cs generalizing s with
  | nil => simp only [run] at h; cases h; exact hi
  | cons c cs ih =>
    simp only [run] at h
    cases hs : step (fun a => (rec a).1) s c with
    | error f => rw [hs] at h; cases h
    | ok s1 => rw [hs] at h; exact ih (step_inv hi hs) h

theorem finishN_same (hr : ∀ a, Same (rec a) (rec' a)) (s) (hb : 1 ≤ s.bufferLine) :
    Same (finishN rec s) (finishN rec' s) := by
  have hf := flushMN_same hr s hb
  simp only [finishN]
  split
  · split
    · exact .bind hf fun _ => .refl _
    · exact .bind hf fun _ => .refl _
  · exact .bind hf fun _ => .refl _

theorem parseFuelN_next (n s) : Same (parseFuelN n s) (parseFuelN (n + 1) s) := by
  induction n generalizing s with
  | zero => intro h; exact absurd rfl h
  | succ n ih =>
    intro hn
    rw [parseFuelN] at hn
    rw [parseFuelN, parseFuelN]
    have h1 := runN_same ih s State.init inv_init
    cases hs : runN (parseFuelN n) s State.init with
    | mk r k =>
      rw [hs] at h1 hn
      cases r with
      | error f => rw [h1 (fun he => hn (by rw [show f = Fail.fuel by cases he; rfl]; rfl))]; rfl
      | ok st =>
        rw [h1 (by simp)]
        simp only [Counted.andThen] at hn ⊢
        rw [finishN_same ih st (runN_inv inv_init (by rw [hs])).hbl hn]

/-- With enough nested calls, the steps do not depend on how many are allowed. -/
theorem parseFuelN_le {n m : Nat} (h : n ≤ m) (s) : Same (parseFuelN n s) (parseFuelN m s) := by
  induction h with
  | refl => exact .refl _
  | step _ ih =>
    intro hs
    have h1 := ih hs
    have h2 := parseFuelN_next _ s (by rw [h1]; exact hs)
    rw [← h1, ← h2]

theorem parseFuelN_fromStrN {n s} (h : parseFuel n s ≠ .error .fuel) : parseFuelN n s = fromStrN s := by
  have h1 := parseFuelN_le (Nat.le_add_right n (s.length + 1)) s (by rw [parseFuelN_fst]; exact h)
  have h2 := parseFuelN_le (Nat.le_add_left (s.length + 1) n) s (by
    rw [parseFuelN_fst, ← fromStr, ← parseFuel_fromStr h]; exact h)
  rw [fromStrN, ← h1, ← h2]

end Ast1
end LatexAst
