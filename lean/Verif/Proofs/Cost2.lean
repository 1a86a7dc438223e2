import Verif.Model.Cost2
import Verif.Proofs.Cost1b
import Verif.Proofs.Depth2

/-! The stage-2 conversion with a step counter: its answers and its number of steps. -/

namespace LatexAst.Ast2

variable {rec : List Ast1.Chunk → Counted (List Chunk)}

theorem convScopeN_fst (sc) : (convScopeN rec sc).1 = convScope (fun a => (rec a).1) sc := by
  obtain ⟨cs, v⟩ := sc
  simp only [convScopeN, convScope, andThen_fst, free_fst]
  cases (rec cs).1 <;> rfl

theorem convArgsN_fst (args) : (convArgsN rec args).1 = convArgs (fun a => (rec a).1) args := by
  induction args with
  | nil => rfl
  | cons x r ih =>
    obtain ⟨p, sc⟩ := x
    simp only [convArgsN, convArgs, andThen_fst, convScopeN_fst, ih, free_fst]
    cases convScope (fun a => (rec a).1) sc with
    | error f => rfl
    | ok s => simp only; cases convArgs (fun a => (rec a).1) r <;> rfl

theorem convCommandN_fst (c) : (convCommandN rec c).1 = convCommand (fun a => (rec a).1) c := by
  obtain ⟨l, args⟩ := c
  simp only [convCommandN, convCommand, andThen_fst, convArgsN_fst, free_fst]
  cases convArgs (fun a => (rec a).1) args <;> rfl

theorem stepEndN_fst (s l first rest) : (stepEndN rec s l first rest).1 = stepEnd (fun a => (rec a).1) s l first rest := by
  unfold stepEndN stepEnd
  by_cases h1 : topIs s.stack first.2.chunks = false
  · rw [if_pos h1, if_pos h1]; rfl
  · rw [if_neg h1, if_neg h1]
    by_cases h2 : (first :: rest).length > 1
    · rw [if_pos h2, if_pos h2]; rfl
    · rw [if_neg h2, if_neg h2]
      simp only
      by_cases h3 : s.stack.dropLast.isEmpty = true
      · rw [if_pos h3, if_pos h3, andThen_fst, convArgsN_fst]
        cases convArgs (fun a => (rec a).1) s.envArgs with
        | error f => rfl
        | ok args =>
          simp only [andThen_fst, addLineN, free_fst]
          cases addLine s.bufferStart (rec s.buffer).1 <;> rfl
      · rw [if_neg h3, if_neg h3]; rfl

theorem stepN_fst (s c) : (stepN rec s c).1 = step (fun a => (rec a).1) s c := by
  obtain ⟨l, v⟩ := c
  unfold stepN step
  cases v with
  | text t => simp only; by_cases h : s.stack.isEmpty = true <;> simp [h, free_fst]
  | scope sc =>
    simp only
    by_cases h : s.stack.isEmpty = true
    · rw [if_pos h, if_pos h, andThen_fst]
      simp only [addLineN, convScopeN_fst, free_fst]
      cases addLine l (convScope (fun a => (rec a).1) sc) <;> rfl
    · rw [if_neg h, if_neg h]; rfl
  | command c =>
    simp only
    by_cases h : ¬ (c.label = chars!"begin" ∨ c.label = chars!"end")
    · rw [if_pos h, if_pos h]
      by_cases h : s.stack.isEmpty = true
      · rw [if_pos h, if_pos h, andThen_fst, convCommandN_fst]
        cases convCommand (fun a => (rec a).1) c <;> rfl
      · rw [if_neg h, if_neg h]; rfl
    · rw [if_neg h, if_neg h]
      cases c.arguments with
      | nil => rfl
      | cons first rest =>
        simp only
        by_cases h1 : first.2.variant ≠ .curly
        · rw [if_pos h1, if_pos h1]; rfl
        · rw [if_neg h1, if_neg h1]
          by_cases h2 : c.label = chars!"begin"
          · rw [if_pos h2, if_pos h2]; rfl
          · rw [if_neg h2, if_neg h2, stepEndN_fst]

theorem runN_fst (cs s) : (runN rec cs s).1 = run (fun a => (rec a).1) cs s := by
  induction cs generalizing s with
  | nil => rfl
  | cons c cs ih =>
    simp only [runN, run, andThen_fst, stepN_fst]
    cases step (fun a => (rec a).1) s c with
    | error f => rfl
    | ok s' => exact ih s'

theorem convFuelN_fst (n cs) : (convFuelN n cs).1 = convFuel n cs := by
  induction n generalizing cs with
  | zero => rfl
  | succ n ih =>
    have hr : (fun a => (convFuelN n a).1) = convFuel n := funext ih
    simp only [convFuelN, convFuel, andThen_fst, runN_fst, hr, free_fst]
    cases run (convFuel n) cs State.init <;> rfl

/-! ### the number of steps -/

/-- The size of a sequence: nodes and printed characters. -/
def size (cs : List Ast1.Chunk) : Nat := Ast1.nodes cs + (Ast1.displayChunks cs).length

theorem size_cons (c cs) : size (c :: cs) = size [c] + size cs := by
  simp only [size, Ast1.nodes, Ast1.displayChunks, List.length_append, List.length_nil, Nat.add_zero]; omega

theorem size_append (a b) : size (a ++ b) = size a + size b := by
  induction a with
  | nil => simp [size, Ast1.nodes, Ast1.displayChunks]
  | cons x a ih => rw [List.cons_append, size_cons, ih, size_cons x a]; omega

theorem size_line (l l' v) : size [.mk l v] = size [.mk l' v] := by
  cases v with
  | text t => rfl
  | scope sc => obtain ⟨cs, v⟩ := sc; rfl
  | command c => obtain ⟨a, b⟩ := c; rfl

/-- What waits in arguments for a recursive call. -/
def argWait : List (Str × Ast1.Scope) → Nat
  | [] => 0
  | (_, .mk cs _) :: r => size cs + 1 + argWait r

theorem argWait_le (args) : argWait args ≤ argSize args := by
  induction args with
  | nil => exact Nat.zero_le _
  | cons x r ih =>
    obtain ⟨p, ⟨cs, v⟩⟩ := x
    simp only [argWait, argSize, size, Ast1.argNodes, Ast1.displayArgs, Ast1.Scope.display, List.length_append,
      List.length_cons, List.length_nil] at ih ⊢
    omega

theorem size_command (l label args) : size [.mk l (.command (.mk label args))] = 2 + label.length + argSize args := by
  simp only [size, argSize, Ast1.nodes, Ast1.Chunk.nodes, Ast1.displayChunks, Ast1.Chunk.display, Ast1.ChunkVariant.display,
    Ast1.Command.display, List.length_append, List.length_cons, List.length_nil]
  omega

theorem size_scope (l cs v) : size [.mk l (.scope (.mk cs v))] = size cs + 3 := by
  simp only [size, Ast1.nodes, Ast1.Chunk.nodes, Ast1.displayChunks, Ast1.Chunk.display, Ast1.ChunkVariant.display,
    Ast1.Scope.display, List.length_append, List.length_cons, List.length_nil]
  omega

theorem isEmpty_snoc {α : Type} (a : List α) (x : α) : (a ++ [x]).isEmpty = false := by cases a <;> rfl

theorem iteration_le (c) : iteration c ≤ size [c] := by
  obtain ⟨l, v⟩ := c
  cases v with
  | text t => simp [iteration, size, Ast1.nodes, Ast1.Chunk.nodes]
  | scope sc => obtain ⟨cs, v⟩ := sc; rw [size_scope]; simp [iteration]
  | command c =>
    obtain ⟨label, args⟩ := c
    rw [size_command]
    simp only [iteration]
    split <;> omega

/-- What waits for a recursive call. -/
def State.wait (s : State) : Nat := argWait s.envArgs + size s.buffer + if s.stack.isEmpty then 0 else 1

variable {n : Nat}

theorem rec_pays (hr : ∀ a, (rec a).2 ≤ n * (size a + 1)) (a) : Pays n (rec a) (size a + 1) (fun _ => 0) := by
  have := hr a
  simp only [Pays]
  cases (rec a).1 <;> exact this

theorem addLineN_pays {α : Type} {x : Counted α} {w k} (h : Pays n x w (fun _ => 0)) : Pays n (addLineN k x) w (fun _ => 0) := by
  simp only [Pays, addLineN] at h ⊢
  have : x.2 ≤ n * w := by omega
  cases addLine k x.1 <;> simpa using this

theorem convScopeN_pays (hr : ∀ a, (rec a).2 ≤ n * (size a + 1)) (cs v) :
    Pays n (convScopeN rec (.mk cs v)) (size cs + 1) (fun _ => 0) :=
  .bind (rec_pays hr cs) fun _ _ => .ok (Nat.le_refl _)

theorem convArgsN_pays (hr : ∀ a, (rec a).2 ≤ n * (size a + 1)) (args) :
    Pays n (convArgsN rec args) (argWait args) (fun _ => 0) := by
  induction args with
  | nil => exact .ok (Nat.le_refl _)
  | cons x r ih =>
    obtain ⟨p, ⟨cs, v⟩⟩ := x
    exact .bind ((convScopeN_pays hr cs v).more (k := argWait r)) fun _ _ => .bind (ih.le (by omega)) fun _ _ => .ok (Nat.le_refl _)

theorem pushBuffer_wait {s : State} {l v s'} (h : s.pushBuffer l v = .ok s') : s'.wait = s.wait + size [.mk l v] := by
  simp only [State.pushBuffer] at h
  cases hc : checkedSub l s.bufferStart with
  | error p => rw [hc] at h; cases h
  | ok k =>
    rw [hc] at h
    cases h
    simp only [State.wait, size_append, size_line (k + 1) l]
    omega

theorem stepEndN_pays (hr : ∀ a, (rec a).2 ≤ n * (size a + 1)) (s : State) (l first rest) :
    Pays n (stepEndN rec s l first rest) (s.wait + size [.mk l (.command (.mk chars!"end" (first :: rest)))]) State.wait := by
  simp only [stepEndN]
  split
  · exact .error
  next h1 =>
    split
    · exact .error
    next h2 =>
      have hs : s.stack.isEmpty = false := by
        cases hst : s.stack with
        | nil => simp [topIs, hst] at h1
        | cons => rfl
      have hw : s.wait = argWait s.envArgs + (size s.buffer + 1) := by simp only [State.wait, hs, Bool.false_eq_true, if_false]; omega
      split
      next h3 =>
        rw [hw]
        have h4 : Pays n (convArgsN rec s.envArgs) (argWait s.envArgs + (size s.buffer + 1)) (fun _ => 0 + (size s.buffer + 1)) :=
          (convArgsN_pays hr s.envArgs).more
        rw [Nat.zero_add] at h4
        refine .bind (h4.le (Nat.le_add_right _ _)) fun args _ => ?_
        · refine .bind (addLineN_pays (rec_pays hr s.buffer)) fun c _ => .ok ?_
          simp only [State.wait, argWait, h3, if_true]
          simp [size, Ast1.nodes, Ast1.displayChunks]
      next h3 =>
        refine .res fun s' h => ?_
        have := pushBuffer_wait h
        rw [this]
        simp only [State.wait, hs, h3, Bool.false_eq_true, if_false]
        omega

theorem stepN_pays (hr : ∀ a, (rec a).2 ≤ n * (size a + 1)) (s : State) (c) :
    Pays n (stepN rec s c) (s.wait + size [c]) State.wait := by
  obtain ⟨l, v⟩ := c
  have push : ∀ v, Pays n (free (s.pushBuffer l v)) (s.wait + size [.mk l v]) State.wait := by
    intro v
    exact .res fun s' h => Nat.le_of_eq (pushBuffer_wait h)
  cases v with
  | text t =>
    simp only [stepN]
    split
    · exact .ok (Nat.le_add_right _ _)
    · exact push _
  | scope sc =>
    obtain ⟨cs, v⟩ := sc
    simp only [stepN]
    split
    · refine .bind (W := fun _ => s.wait) ?_ fun sc _ => .ok (Nat.le_refl _)
      have := ((addLineN_pays (k := l) (convScopeN_pays hr cs v)).more (k := s.wait)).le (w' := s.wait + size [.mk l (.scope (.mk cs v))]) (by
        rw [size_scope]; omega)
      simpa using this
    · exact push _
  | command c =>
    obtain ⟨label, args⟩ := c
    simp only [stepN]
    split
    · split
      · refine .bind (W := fun _ => s.wait) ?_ fun sc _ => .ok (Nat.le_refl _)
        have h : Pays n (convCommandN rec (.mk label args)) (argWait args) (fun _ => 0) :=
          .bind (convArgsN_pays hr args) fun _ _ => .ok (Nat.le_refl _)
        have := (h.more (k := s.wait)).le (w' := s.wait + size [.mk l (.command (.mk label args))]) (by
          rw [size_command]; have := argWait_le args; omega)
        simpa using this
      · exact push _
    next hl =>
      cases args with
      | nil => exact .error
      | cons first rest =>
        simp only [Ast1.Command.arguments] at hl ⊢
        split
        · exact .error
        · by_cases hb : (Ast1.Command.mk label (first :: rest)).label = chars!"begin"
          · rw [if_pos hb]
            have hb' : label = chars!"begin" := hb
            subst hb'
            simp only [stepBegin]
            split
            · refine .ok ?_
              have h1 := argWait_le (first :: rest)
              obtain ⟨p, ⟨cs, v⟩⟩ := first
              rw [size_command]
              simp only [State.wait, argWait, isEmpty_snoc, Bool.false_eq_true, if_false] at h1 ⊢
              omega
            · refine .res fun s' h => ?_
              have := pushBuffer_wait h
              rw [this]
              simp only [State.wait]
              simp only [isEmpty_snoc, Bool.false_eq_true, if_false]
              next hlen =>
              have : s.stack.isEmpty = false := by
                cases hs : s.stack with
                | nil => simp [hs] at hlen
                | cons => rfl
              simp only [this, Bool.false_eq_true, if_false]
              omega
          · rw [if_neg hb]
            have hb' : label = chars!"end" := by
              rcases Classical.not_not.1 hl with h | h
              · exact absurd h hb
              · exact h
            subst hb'
            exact stepEndN_pays hr s l first rest

theorem runN_pays (hr : ∀ a, (rec a).2 ≤ n * (size a + 1)) (cs) (s : State) :
    (runN rec cs s).2 + n * (match (runN rec cs s).1 with | .ok s => s.wait | .error _ => 0) ≤
      n * s.wait + (n + 1) * size cs := by
  induction cs generalizing s with
  | nil => simp [runN, free]
  | cons c cs ih =>
    have h1 := stepN_pays hr s c
    have h3 := iteration_le c
    simp only [runN]
    rw [size_cons c cs]
    cases hs : stepN rec s c with
    | mk r k =>
      rw [hs] at h1
      cases r with
      | error f =>
        simp only [Pays, Counted.andThen] at h1 ⊢
        simp only [Nat.mul_add, Nat.add_mul] at h1 ⊢
        omega
      | ok s' =>
        simp only [Pays, Counted.andThen] at h1 ⊢
        have h2 := ih s'
        simp only [Nat.mul_add, Nat.add_mul] at h1 h2 ⊢
        omega

/-- The steps taken with at most `n` nested calls. -/
theorem convFuelN_steps (n cs) : (convFuelN n cs).2 ≤ n * (size cs + 1) := by
  induction n generalizing cs with
  | zero => simp [convFuelN, free]
  | succ n ih =>
    have h1 := runN_pays ih cs State.init
    have h0 : State.init.wait = 0 := rfl
    simp only [convFuelN]
    cases hs : runN (convFuelN n) cs State.init with
    | mk r k =>
      rw [hs] at h1
      cases r with
      | error f =>
        simp only [Counted.andThen] at h1 ⊢
        simp only [h0, Nat.mul_add, Nat.add_mul] at h1 ⊢
        omega
      | ok st =>
        simp only [Counted.andThen, free] at h1 ⊢
        simp only [h0, Nat.mul_add, Nat.add_mul] at h1 ⊢
        omega

/-! ### more calls do not change the steps -/

variable {rec' : List Ast1.Chunk → Counted (List Chunk)}

theorem convScopeN_same (hr : ∀ a, Same (rec a) (rec' a)) (sc) : Same (convScopeN rec sc) (convScopeN rec' sc) := by
  obtain ⟨cs, v⟩ := sc
  exact .bind (hr cs) fun _ => .refl _

theorem convArgsN_same (hr : ∀ a, Same (rec a) (rec' a)) (args) : Same (convArgsN rec args) (convArgsN rec' args) := by
  induction args with
  | nil => exact .refl _
  | cons x r ih =>
    obtain ⟨p, sc⟩ := x
    exact .bind (convScopeN_same hr sc) fun _ => .bind ih fun _ => .refl _

theorem addLineN_same {α : Type} {x y : Counted α} (h : Same x y) (k) : Same (addLineN k x) (addLineN k y) := by
  intro hn
  have : x.1 ≠ .error .fuel := by
    intro he; apply hn; simp only [addLineN, he]; rfl
  rw [h this]

theorem stepEndN_same (hr : ∀ a, Same (rec a) (rec' a)) (s l first rest) :
    Same (stepEndN rec s l first rest) (stepEndN rec' s l first rest) := by
  simp only [stepEndN]
  split
  · exact .refl _
  · split
    · exact .refl _
    · split
      · exact .bind (convArgsN_same hr _) fun _ => .bind (addLineN_same (hr _) _) fun _ => .refl _
      · exact .refl _

theorem stepN_same (hr : ∀ a, Same (rec a) (rec' a)) (s c) : Same (stepN rec s c) (stepN rec' s c) := by
  obtain ⟨l, v⟩ := c
  cases v with
  | text t => exact .refl _
  | scope sc =>
    simp only [stepN]
    split
    · exact .bind (addLineN_same (convScopeN_same hr sc) l) fun _ => .refl _
    · exact .refl _
  | command c =>
    obtain ⟨label, args⟩ := c
    simp only [stepN]
    split
    · split
      · exact .bind (.bind (convArgsN_same hr args) fun _ => .refl _) fun _ => .refl _
      · exact .refl _
    · split
      · exact .refl _
      · split
        · exact .refl _
        · split
          · exact .refl _
          · exact stepEndN_same hr _ _ _ _

theorem tick_same {α : Type} {x y : Counted α} (h : Same x y) (k : Nat) : Same (x.1, k + x.2) (y.1, k + y.2) := by
  intro hn
  rw [h hn]

theorem runN_same (hr : ∀ a, Same (rec a) (rec' a)) (cs s) : Same (runN rec cs s) (runN rec' cs s) := by
  induction cs generalizing s with
  | nil => exact .refl _
  | cons c cs ih =>
    simp only [runN]
    exact tick_same (.bind (stepN_same hr s c) fun s => ih s) _

theorem convFuelN_next (n cs) : Same (convFuelN n cs) (convFuelN (n + 1) cs) := by
  induction n generalizing cs with
  | zero => intro h; exact absurd rfl h
  | succ n ih =>
    rw [convFuelN, convFuelN]
    exact tick_same (.bind (runN_same ih cs _) fun _ => .refl _) _

/-- With enough nested calls, the steps do not depend on how many are allowed. -/
theorem convFuelN_le {n m : Nat} (h : n ≤ m) (cs) : Same (convFuelN n cs) (convFuelN m cs) := by
  induction h with
  | refl => exact .refl _
  | step _ ih =>
    intro hs
    have h1 := ih hs
    have h2 := convFuelN_next _ cs (by rw [h1]; exact hs)
    rw [← h1, ← h2]

theorem convFuelN_tryFromN {n d} (h : convFuel n d ≠ .error .fuel) : convFuelN n d = tryFromN d := by
  have h1 := convFuelN_le (Nat.le_add_right n (sizeChunks d + 1)) d (by rw [convFuelN_fst]; exact h)
  have h2 := convFuelN_le (Nat.le_add_left (sizeChunks d + 1) n) d (by
    rw [convFuelN_fst, ← tryFrom, ← convFuel_tryFrom h]; exact h)
  rw [tryFromN, ← h1, ← h2]

end LatexAst.Ast2
