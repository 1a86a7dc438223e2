import Verif.Proofs.Depth3

/-! Opening brackets and dollars bound the calls of `MathsBlock::from_chunks`. -/

namespace LatexAst.Ast3
open Spec (mathsOpenings)

theorem mo_append (a b : Str) : mathsOpenings (a ++ b) = mathsOpenings a + mathsOpenings b := by simp [mathsOpenings]
theorem mo_cons (c : Char) (s : Str) : mathsOpenings (c :: s) = mathsOpenings [c] + mathsOpenings s := mo_append [c] s
theorem mo_nil : mathsOpenings [] = 0 := rfl
theorem mo_opening (v : ScopeVariant) : mathsOpenings [v.opening] = 1 := by cases v <;> decide

/-- Opening brackets and dollars of the printed document. -/
def weight (cs : List Ast2.Chunk) : Nat := mathsOpenings (Ast2.displayChunks cs)

/-- The same for one chunk. -/
def w1 (c : Ast2.Chunk) : Nat := mathsOpenings c.display

theorem weight_cons (c cs) : weight (c :: cs) = w1 c + weight cs := by
  unfold weight w1; rw [Ast2.displayChunks, mo_append]

theorem weight_append (a b : List Ast2.Chunk) : weight (a ++ b) = weight a + weight b := by
  unfold weight; rw [Ast2.displayChunks_append, mo_append]

theorem weight_nil : weight [] = 0 := rfl

theorem weight_congr {a b : List Ast2.Chunk} (h : a.map Ast2.Chunk.variant = b.map Ast2.Chunk.variant) :
    weight a = weight b := by
  have : Ast2.displayChunks a = Ast2.displayChunks b := by
    induction a generalizing b with
    | nil => cases b with
      | nil => rfl
      | cons => simp at h
    | cons c a ih =>
      cases b with
      | nil => simp at h
      | cons c' b =>
        simp at h
        obtain ⟨l, v⟩ := c
        obtain ⟨l', v'⟩ := c'
        simp [Ast2.Chunk.variant] at h
        simp [Ast2.displayChunks, Ast2.Chunk.display, h.1, ih h.2]
  unfold weight; rw [this]

theorem mo_le_cons (c : Char) (s : Str) : mathsOpenings s ≤ mathsOpenings (c :: s) := by rw [mo_cons]; omega
theorem mo_le_left (a b : Str) : mathsOpenings a ≤ mathsOpenings (a ++ b) := by rw [mo_append]; omega
theorem mo_le_right (a b : Str) : mathsOpenings b ≤ mathsOpenings (a ++ b) := by rw [mo_append]; omega

theorem weight_scope (inner sv) : weight inner < mathsOpenings (Ast2.Scope.mk inner sv).display := by
  rw [Ast2.Scope.display, mo_cons, mo_append, mo_opening, weight]; omega

theorem weight_args {args : List (Str × Ast2.Scope)} {p inner sv} (h : (p, Ast2.Scope.mk inner sv) ∈ args) :
    weight inner < mathsOpenings (Ast2.displayArgs args) := by
  induction args with
  | nil => cases h
  | cons x r ih =>
    obtain ⟨p', sc⟩ := x
    rw [Ast2.displayArgs, mo_append, mo_append]
    rcases List.mem_cons.1 h with h | h
    · cases h
      have := weight_scope inner sv
      omega
    · have := ih h; omega

theorem child_weight {cs inner} (h : Ast2.Child2 cs inner) : weight inner < weight cs := by
  have mem : ∀ {c : Ast2.Chunk}, c ∈ cs → w1 c ≤ weight cs := by
    intro c hc
    obtain ⟨a, b, rfl⟩ := List.append_of_mem hc
    rw [weight_append, weight_cons]; omega
  cases h with
  | @scope l i sv h1 =>
    have h2 := mem h1
    have := weight_scope inner sv
    rw [w1, Ast2.Chunk.display, Ast2.ChunkVariant.display] at h2
    omega
  | @arg l label args _ _ _ h1 h2 =>
    have h3 := mem h1; have := weight_args h2
    rw [w1, Ast2.Chunk.display, Ast2.ChunkVariant.display, Ast2.Command.display, mo_cons, mo_append] at h3
    omega
  | @envArg l label args content pb pe _ _ _ h1 h2 =>
    have h3 := mem h1; have := weight_args h2
    rw [w1, Ast2.Chunk.display, Ast2.ChunkVariant.display, Ast2.Environment.display, mo_append, mo_append, mo_cons '{', mo_append, mo_cons '}', mo_append] at h3
    omega
  | @envContent l label args _ pb pe h1 =>
    have h3 := mem h1
    have h0 : mathsOpenings ['{'] = 1 := rfl
    rw [w1, Ast2.Chunk.display, Ast2.ChunkVariant.display, Ast2.Environment.display, mo_append, mo_append, mo_cons '{', mo_append, mo_cons '}', mo_append, mo_append] at h3
    unfold weight at *; omega

/-- Buffers are smaller than what was read. -/
structure WInv (n : Nat) (s : MState) : Prop where
  none : s.mode = .none → s.buffer = []
  some : s.mode ≠ .none → weight s.buffer < n

theorem WInv.mono {n n' s} (h : WInv n s) (hn : n ≤ n') : WInv n' s :=
  ⟨h.none, fun hm => Nat.lt_of_lt_of_le (h.some hm) hn⟩

theorem mathsFuel_weight : ∀ n cs, weight cs < n →
    Post (mathsFuel n cs) (fun _ => True) (fun f => f ≠ .fuel) := by
  intro n
  induction n with
  | zero => intro cs h; omega
  | succ n ih =>
    intro cs hn
    refine post_maths (fun pre s => WInv (weight pre) s) ?_ ?_ (fun _ _ _ => trivial) ?_
    · exact ⟨fun _ => rfl, fun h => absurd rfl h⟩
    · intro pre l v post s he hi
      have hc : Ast2.Chunk.mk l v ∈ cs := by simp [he]
      have hsz : weight pre + w1 (.mk l v) + weight post = weight cs := by
        rw [he, weight_append, weight_cons]; omega
      have hpre : weight (pre ++ [.mk l v]) = weight pre + w1 (.mk l v) := by
        rw [weight_append, weight_cons, weight_nil]; rfl
      rw [hpre]
      have hbuf : s.mode ≠ .none → WInv (weight pre + w1 (.mk l v)) (s.pushBuffer l v) := by
        intro hm
        refine ⟨fun h => absurd h hm, fun _ => ?_⟩
        have := hi.some hm
        simp only [MState.pushBuffer, weight_append, weight_cons, weight_nil]; omega
      have hsub : ∀ inner, Ast2.Child2 cs inner → weight inner < n := by
        intro inner h; have := child_weight h; omega
      have hnone : ∀ o, s.mode = .none → WInv (weight pre + w1 (.mk l v)) { s with out := o } := by
        intro o hm; exact ⟨fun _ => hi.none hm, fun h => absurd hm h⟩
      refine post_step ?_ ?_ ?_ ?_ ?_
      · rintro ⟨label, args⟩ rfl
        refine post_command ?_ ?_ ?_ ?_ ?_ ?_ ?_ ?_
        · intro k _ hl; simp
        · intro k hm hl
          refine ⟨fun h => absurd h (bracketMode_ne_none k), fun _ => ?_⟩
          show weight s.buffer < _
          rw [hi.none hm, weight_nil]
          have : 1 ≤ w1 (.mk l (.command (.mk label args))) := by
            rw [w1, Ast2.Chunk.display, Ast2.ChunkVariant.display, Ast2.Command.display, mo_cons, mo_append]
            have h0 : mathsOpenings label = 1 := by rw [show label = openLabel k from hl]; cases k <;> decide
            omega
          omega
        · intro k hm hl
          exact WInv.mono ⟨hi.none, hi.some⟩ (by omega)
        · intro k hm hl hd
          have hm' : s.mode ≠ .none := hm ▸ bracketMode_ne_none k
          have := hi.some hm'
          refine (ih s.buffer (by omega)).mono ?_ fun _ h => h
          intro content _
          exact ⟨fun _ => rfl, fun h => absurd rfl h⟩
        · intro k hm hl hd; simp
        · intro k d hm hl hd hd0
          exact WInv.mono ⟨hi.none, hi.some⟩ (by omega)
        · intro hm hl
          refine post_tryCommand ?_
          refine (post_args (Q := fun _ _ => True) (E := fun f => f ≠ .fuel) trivial ?_).mono ?_ fun _ h => h
          · intro p inner sv r hmem
            exact (ih inner (hsub _ (.arg hc hmem))).mono (fun _ _ _ _ => trivial) fun _ h => h
          · intro a _; exact hnone _ hm
        · intro hm _; exact hbuf hm
      · rintro ⟨inner, sv⟩ rfl hm
        refine post_tryScope ?_
        refine (ih inner (hsub _ (.scope hc))).mono ?_ fun _ h => h
        intro _ _; exact hnone _ hm
      · rintro ⟨label, args, content, pb, pe⟩ rfl hm
        refine post_tryEnvironment ?_
        refine (post_args (Q := fun _ _ => True) (E := fun f => f ≠ .fuel) trivial ?_).mono ?_ fun _ h => h
        · intro p inner sv r hmem
          exact (ih inner (hsub _ (.envArg hc hmem))).mono (fun _ _ _ _ => trivial) fun _ h => h
        · intro a _
          refine (ih content (hsub _ (.envContent hc))).mono ?_ fun _ h => h
          intro _ _; exact hnone _ hm
      · intro _ hm _; exact hbuf hm
      · rintro str rfl hbr
        have hstr : w1 (.mk l (.text str)) = mathsOpenings str := rfl
        refine post_text (fun p t => (t.m.mode = .none → t.m.buffer = []) ∧
            (t.m.mode ≠ .none → weight t.m.buffer + mathsOpenings t.textBuffer < weight pre + mathsOpenings p)) ?_ ?_ ?_
        · exact ⟨hi.none, fun h => by have := hi.some h; simpa using this⟩
        · rintro p c q t hstr' ⟨ht1, ht2⟩
          have hlen : mathsOpenings (p ++ [c]) = mathsOpenings p + mathsOpenings [c] := mo_append _ _
          rw [hlen]
          unfold stepChar
          generalize ht' : (if c = '\n' then { t with cursorLine := t.cursorLine + 1 } else t : TState) = t'
          have hm' : t'.m = t.m := by subst ht'; split <;> rfl
          have hb' : t'.textBuffer = t.textBuffer := by subst ht'; split <;> rfl
          rw [← hm'] at ht1 ht2
          rw [← hb'] at ht2
          simp only
          have hpc : mathsOpenings p + mathsOpenings [c] ≤ mathsOpenings str := by
            rw [hstr', mo_append, mo_cons c q]; omega
          split
          · rename_i hdollar
            have hd1 : mathsOpenings [c] = 1 := by rw [hdollar]; rfl
            have hclose : ∀ type, t'.m.mode ≠ .none → Post (closeDollars (mathsFuel n) t' type)
                (fun t => (t.m.mode = .none → t.m.buffer = []) ∧
            (t.m.mode ≠ .none → weight t.m.buffer + mathsOpenings t.textBuffer < weight pre + (mathsOpenings p + mathsOpenings [c]))) (fun f => f ≠ .fuel) := by
              intro type hmode
              have h2 := ht2 hmode
              refine post_closeDollars ?_
              refine post_rebase (fun _ => by simp) ?_
              intro buf' h1 _
              refine (ih buf' ?_).mono ?_ fun _ h => h
              · rw [weight_congr h1]
                split
                · omega
                · rw [weight_append, weight_cons, weight_nil, w1, Ast2.Chunk.display, Ast2.ChunkVariant.display]; omega
              · intro _ _; exact ⟨fun _ => rfl, fun h => absurd rfl h⟩
            refine post_dollar ?_ ?_ ?_ ?_ ?_ ?_
            · intro hm
              obtain ⟨e1, e2, e3, e4, e5, e6⟩ := pushStr_m t'
              refine ⟨fun h => by simp at h, fun _ => ?_⟩
              simp only [e3, e6, ht1 hm, weight_nil, mo_nil]; omega
            · intro hm _ _
              refine ⟨fun h => by simp at h, fun _ => ?_⟩
              have := ht2 (by simp [hm]); simp; omega
            · intro hm _; exact hclose _ (by simp [hm])
            · intro hm
              refine ⟨fun h => by simp at h, fun _ => ?_⟩
              have := ht2 (by simp [hm]); simp; omega
            · intro hm; exact hclose _ (by simp [hm])
            · intro k h
              refine ⟨ht1, fun h => ?_⟩
              have := ht2 h; simp; omega
          · refine ⟨ht1, fun h => ?_⟩
            have := ht2 h; simp only [mo_append]; omega
        · rintro t ⟨ht1, ht2⟩
          obtain ⟨e1, e2, e3, e4, e5, e6⟩ := pushStr_m t
          refine ⟨by rw [e1, e3]; exact ht1, ?_⟩
          rw [e1, e3]
          intro h; have := ht2 h; omega
    · intro s hi hm; simp

/-- Enough calls for the opening brackets and dollars are enough. -/
theorem mathsFuel_open {n cs} (h : weight cs < n) : mathsFuel n cs = mathsFromChunks cs := by
  refine mathsFuel_eq fun he => ?_
  have := mathsFuel_weight n cs h
  rw [he] at this
  exact this rfl

end LatexAst.Ast3
