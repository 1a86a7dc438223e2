import Verif.Spec.Fault
import Verif.Proofs.Conversion3
import Verif.Proofs.Conv2Facts
import Verif.Props.Environments

/-! # Where stage-2 errors are: proofs for C25 -/

namespace LatexAst.Ast2
open LatexAst.Ast1 (Opened Matched Checked Child Sane SaneAll NumberedInOrder)

abbrev SameV (a b : List Ast1.Chunk) : Prop := a.map Ast1.Chunk.variant = b.map Ast1.Chunk.variant

theorem sameV_rebase (k : Nat) (a : List Ast1.Chunk) : SameV (a.map (rebase1 k)) a := by
  induction a with
  | nil => rfl
  | cons c cs ih =>
    obtain ⟨l, v⟩ := c
    simp only [SameV, List.map_cons, rebase1, Ast1.Chunk.variant] at *
    rw [ih]

theorem SameV.child {a b inner} (h : SameV a b) (hc : Child a inner) : Child b inner := by
  refine hc.of_variant fun l v hm => ?_
  have : v ∈ b.map Ast1.Chunk.variant := h ▸ List.mem_map.2 ⟨_, hm, rfl⟩
  obtain ⟨⟨l', v'⟩, h1, h2⟩ := List.mem_map.1 this
  simp only [Ast1.Chunk.variant] at h2
  exact ⟨l', h2 ▸ h1⟩

theorem delim_variant {c c' : Ast1.Chunk} (h : c.variant = c'.variant) : c.IsDelimiter ↔ c'.IsDelimiter := by
  simp only [Ast1.Chunk.IsDelimiter, h]
theorem begins_variant {c c' : Ast1.Chunk} (h : c.variant = c'.variant) (lab) : c.Begins lab ↔ c'.Begins lab := by
  simp only [Ast1.Chunk.Begins, h]
theorem ends_variant {c c' : Ast1.Chunk} (h : c.variant = c'.variant) (lab) : c.Ends lab ↔ c'.Ends lab := by
  simp only [Ast1.Chunk.Ends, h]

theorem same_split {b : List Ast1.Chunk} {a c post} (h : SameV b (a ++ c :: post)) :
    ∃ a' c' post', b = a' ++ c' :: post' ∧ SameV a' a ∧ c'.variant = c.variant ∧ SameV post' post := by
  have h' : b.map Ast1.Chunk.variant = a.map Ast1.Chunk.variant ++ c.variant :: post.map Ast1.Chunk.variant := by
    simpa [SameV] using h
  obtain ⟨x, y, z, rfl, h1, h2, h3⟩ := map_eq_append_cons h'
  exact ⟨x, y, z, rfl, h1, h2, h3⟩

theorem SameV.opened {a st} (h : Opened a st) : ∀ {b}, SameV b a → Opened b st := by
  induction h with
  | nil => intro b hb; simp [SameV] at hb; subst hb; exact .nil
  | other _ h2 ih =>
    intro b hb
    obtain ⟨a', c', p', rfl, h3, h4, h5⟩ := same_split hb
    simp [SameV] at h5; subst h5
    exact .other (ih h3) (by rwa [delim_variant h4])
  | opens _ h2 ih =>
    intro b hb
    obtain ⟨a', c', p', rfl, h3, h4, h5⟩ := same_split hb
    simp [SameV] at h5; subst h5
    exact .opens (ih h3) ((begins_variant h4 _).2 h2)
  | closes _ h2 ih =>
    intro b hb
    obtain ⟨a', c', p', rfl, h3, h4, h5⟩ := same_split hb
    simp [SameV] at h5; subst h5
    exact .closes (ih h3) ((ends_variant h4 _).2 h2)

theorem SameV.matched {a b} (h : SameV b a) (hm : Matched a) : Matched b :=
  (Ast1.opened_iff_matched b).1 (SameV.opened hm.opened h)

theorem SameV.display {a b : List Ast1.Chunk} (h : SameV a b) : Ast1.displayChunks a = Ast1.displayChunks b := by
  induction a generalizing b with
  | nil => cases b with | nil => rfl | cons => simp [SameV] at h
  | cons c cs ih =>
    cases b with
    | nil => simp [SameV] at h
    | cons c' cs' =>
      obtain ⟨l, v⟩ := c
      obtain ⟨l', v'⟩ := c'
      simp only [SameV, List.map_cons, List.cons.injEq, Ast1.Chunk.variant] at h
      rw [Ast1.displayChunks_cons, Ast1.displayChunks_cons, ih h.2]
      simp [Ast1.Chunk.display, h.1]

theorem inOrder_iff {cs} : InOrder cs ↔ Matched cs ∧ ∀ inner, Child cs inner → InOrder inner := by
  constructor
  · intro h
    exact ⟨h _ .top, fun inner hc lv hl => h lv (Checked.trans (.child .top hc) hl)⟩
  · rintro ⟨h1, h2⟩ lv hl
    rcases hl.head with rfl | ⟨inner, hc, hl⟩
    · exact h1
    · exact h2 _ hc lv hl

theorem inOrder_same {a b} (h : SameV b a) (ha : InOrder a) : InOrder b := by
  rw [inOrder_iff] at ha ⊢
  exact ⟨h.matched ha.1, fun inner hc => ha.2 inner (h.child hc)⟩

theorem child_append {a b inner} (h : Child (a ++ b) inner) : Child a inner ∨ Child b inner := by
  cases h with
  | scope h1 => exact (List.mem_append.1 h1).elim (fun h => .inl (.scope h)) (fun h => .inr (.scope h))
  | arg h1 h2 h3 h4 => exact (List.mem_append.1 h1).elim (fun h => .inl (.arg h h2 h3 h4)) (fun h => .inr (.arg h h2 h3 h4))
  | beginArg h1 h2 => exact (List.mem_append.1 h1).elim (fun h => .inl (.beginArg h h2)) (fun h => .inr (.beginArg h h2))

theorem inOrder_append {a b} (ha : InOrder a) (hb : InOrder b) : InOrder (a ++ b) := by
  rw [inOrder_iff] at *
  exact ⟨ha.1.append hb.1, fun inner hc => (child_append hc).elim (ha.2 _) (hb.2 _)⟩

theorem badDelimiter_variant {st c c' t} (h : c'.variant = c.variant) (hb : BadDelimiter st c t) : BadDelimiter st c' t := by
  cases hb with
  | noLabel h1 h2 h3 => exact .noLabel (h.trans h1) h2 h3
  | unexpectedEnd h1 h2 => exact .unexpectedEnd (h.trans h1) h2
  | tooManyArgs h1 h2 => exact .tooManyArgs (h.trans h1) h2

theorem chunk_of_variant {c : Ast1.Chunk} {v} (h : c.variant = v) : ∃ l, c = .mk l v := by
  obtain ⟨l, v'⟩ := c
  exact ⟨l, by simp only [Ast1.Chunk.variant] at h; rw [h]⟩

/-- `Fault` looks at no line number. -/
theorem fault_same {cs q k n t} (h : Fault cs q k n t) : ∀ {b}, SameV b cs → Fault b q k n t := by
  induction h with
  | @bad a c post t h1 h2 =>
    intro b hb
    obtain ⟨a', c', p', rfl, h3, h4, h5⟩ := same_split hb
    rw [← h3.display]
    exact .bad (inOrder_same h3 h1) (badDelimiter_variant h4 h2)
  | @badInside a l p lab args body st c post t h1 h2 h6 =>
    intro b hb
    obtain ⟨a', c', p', rfl, h3, h4, h5⟩ := same_split hb
    obtain ⟨b', c'', p'', rfl, h7, h8, h9⟩ := same_split h5
    obtain ⟨l', rfl⟩ := chunk_of_variant h4
    have := Fault.badInside (l := l') (p := p) (args := args) (c := c'') (post := p'') (inOrder_same h3 h1) (SameV.opened h2 h7) (badDelimiter_variant h8 h6)
    have e : SameV (a' ++ .mk l' (.command (.mk chars!"begin" ((p, .mk lab .curly) :: args))) :: b') (a ++ .mk l (.command (.mk chars!"begin" ((p, .mk lab .curly) :: args))) :: body) := by
      simp only [SameV, List.map_append, List.map_cons] at *
      simp [h3, h7, Ast1.Chunk.variant]
    rw [← e.display]
    exact this
  | @unclosed a l p lab args body st h1 h2 =>
    intro b hb
    obtain ⟨a', c', p', rfl, h3, h4, h5⟩ := same_split hb
    obtain ⟨l', rfl⟩ := chunk_of_variant h4
    have := Fault.unclosed (l := l') (p := p) (args := args) (lab := lab) (inOrder_same h3 h1) (SameV.opened h2 h5)
    have e : SameV (a' ++ [.mk l' (.command (.mk chars!"begin" ((p, .mk lab .curly) :: args)))]) (a ++ [.mk l (.command (.mk chars!"begin" ((p, .mk lab .curly) :: args)))]) := by
      simp only [SameV, List.map_append, List.map_cons] at *
      simp [h3, Ast1.Chunk.variant]
    rw [← e.display]
    exact this
  | @scope a l inner sv post q k n t h1 h2 _ =>
    intro b hb
    obtain ⟨a', c', p', rfl, h3, h4, h5⟩ := same_split hb
    obtain ⟨l', rfl⟩ := chunk_of_variant h4
    rw [← h3.display]
    exact .scope (inOrder_same h3 h1) h2
  | @arg a l label a1 p inner sv a2 post q k n t h1 h2 h6 h7 h8 _ =>
    intro b hb
    obtain ⟨a', c', p', rfl, h3, h4, h5⟩ := same_split hb
    obtain ⟨l', rfl⟩ := chunk_of_variant h4
    rw [← h3.display]
    exact .arg (inOrder_same h3 h1) h2 h6 h7 h8
  | @beginArg a l p0 lab a1 p inner sv a2 body l' pe post q k n t h1 h2 h6 h7 _ =>
    intro b hb
    obtain ⟨a', c', p', rfl, h3, h4, h5⟩ := same_split hb
    obtain ⟨b', c'', p'', rfl, h8, h9, h10⟩ := same_split h5
    obtain ⟨l'', rfl⟩ := chunk_of_variant h4
    obtain ⟨l''', rfl⟩ := chunk_of_variant h9
    rw [← h3.display]
    exact .beginArg (inOrder_same h3 h1) (h8.matched h2) h6 h7
  | @environment a l p lab args body l' pe post q k n t h1 h2 h6 h7 ih =>
    intro b hb
    obtain ⟨a', c', p', rfl, h3, h4, h5⟩ := same_split hb
    obtain ⟨b', c'', p'', rfl, h8, h9, h10⟩ := same_split h5
    obtain ⟨l'', rfl⟩ := chunk_of_variant h4
    obtain ⟨l''', rfl⟩ := chunk_of_variant h9
    have e : SameV (a' ++ [.mk l'' (.command (.mk chars!"begin" ((p, .mk lab .curly) :: args)))]) (a ++ [.mk l (.command (.mk chars!"begin" ((p, .mk lab .curly) :: args)))]) := by
      simp only [SameV, List.map_append, List.map_cons] at *
      simp [h3, Ast1.Chunk.variant]
    rw [← e.display]
    exact .environment (inOrder_same h3 h1) (h8.matched h2) h6 (ih h8)

/-! ### from the outcome to the fault -/

theorem inOrder_converts {cs x} (h : Converts cs (.ok x)) (hn : NumberedInOrder cs) : InOrder cs :=
  fun lv hl => C23_matched cs x (h.sound hn) lv hl

theorem items_split {items : List ((Str × Ast1.Scope) × Outcome)} {e : Error} (h : argOutcome items = .error e) :
    ∃ i1 x i2, items = i1 ++ x :: i2 ∧ x.2 = .error e ∧ ∀ y ∈ i1, ∃ c, y.2 = .ok c := by
  induction items with
  | nil => cases h
  | cons x r ih =>
    obtain ⟨⟨p, sc⟩, o⟩ := x
    cases o with
    | error f =>
      simp only [argOutcome, Except.error.injEq] at h
      subst h
      exact ⟨[], _, r, rfl, rfl, by simp⟩
    | ok c =>
      cases hr : argOutcome r with
      | ok a => simp [argOutcome, hr] at h
      | error f =>
        simp only [argOutcome, hr, Except.error.injEq] at h
        subst h
        obtain ⟨i1, x, i2, rfl, h1, h2⟩ := ih hr
        refine ⟨_ :: i1, x, i2, rfl, h1, ?_⟩
        intro y hy
        rcases List.mem_cons.1 hy with rfl | hy
        · exact ⟨c, rfl⟩
        · exact h2 y hy

theorem items_ok {items : List ((Str × Ast1.Scope) × Outcome)} {a} (h : argOutcome items = .ok a) :
    ∀ y ∈ items, ∃ c, y.2 = .ok c := by
  induction items generalizing a with
  | nil => simp
  | cons x r ih =>
    obtain ⟨⟨p, sc⟩, o⟩ := x
    cases o with
    | error f => simp [argOutcome] at h
    | ok c =>
      cases hr : argOutcome r with
      | error f => simp [argOutcome, hr] at h
      | ok a' =>
        intro y hy
        rcases List.mem_cons.1 hy with rfl | hy
        · exact ⟨c, rfl⟩
        · exact ih hr y hy

theorem sane_exact {a c post} (h : SaneAll (a ++ c :: post)) (h1 : ∀ t, c.variant ≠ .text t)
    (h2 : ∀ args, c.variant ≠ .command (.mk ['\n'] args)) : c.lineNo = 1 + newlines (Ast1.displayChunks a) :=
  (h _ .top a c post rfl).2.2 h1 h2

theorem bad_exact {st a c post t} (hb : BadDelimiter st c t) (h : SaneAll (a ++ c :: post)) :
    c.lineNo = 1 + newlines (Ast1.displayChunks a) := by
  cases hb with
  | noLabel h1 h2 h3 =>
    refine sane_exact h (by rw [h1]; simp) ?_
    rw [h1]
    intro args ha
    simp only [Ast1.ChunkVariant.command.injEq, Ast1.Command.mk.injEq] at ha
    rw [ha.1] at h2
    revert h2; decide
  | unexpectedEnd h1 h2 => exact sane_exact h (by rw [h1]; simp) (by rw [h1]; simp)
  | tooManyArgs h1 h2 => exact sane_exact h (by rw [h1]; simp) (by rw [h1]; simp)

theorem inOrder_single {c} (h1 : ¬ c.IsDelimiter) (h2 : ∀ inner, Child [c] inner → InOrder inner) : InOrder [c] :=
  inOrder_iff.2 ⟨.other h1 .nil, h2⟩

theorem child_scope_single {l sc inner} (h : Child [.mk l (.scope sc)] inner) : inner = sc.chunks := by
  cases h with
  | scope h => simp at h; rw [← h.2]; rfl
  | arg h => simp at h
  | beginArg h => simp at h

theorem child_command_single {l label args inner} (h : Child [.mk l (.command (.mk label args))] inner) :
    ∃ x ∈ args, inner = x.2.chunks := by
  cases h with
  | scope h => simp at h
  | arg h _ _ hm => simp at h; rw [h.2.2] at hm; exact ⟨_, hm, rfl⟩
  | beginArg h hm => simp at h; rw [← h.2.2]; exact ⟨_, .tail _ hm, rfl⟩

theorem child_begin_single {l label x args inner} (h : Child [.mk l (.command (.mk label (x :: args)))] inner)
    (hl : label = chars!"begin") : ∃ x ∈ args, inner = x.2.chunks := by
  cases h with
  | scope h => simp at h
  | arg h h1 _ hm => simp at h; rw [h.2.1] at h1; exact absurd hl h1
  | beginArg h hm => simp at h; rw [h.2.2.2] at hm; exact ⟨_, hm, rfl⟩

theorem sane_append_comm {a b c : List Ast1.Chunk} (h : SaneAll (a ++ (b ++ c))) : SaneAll ((a ++ b) ++ c) := by
  rwa [List.append_assoc]

theorem fault_of_converts {cs o} (h : Converts cs o) : ∀ a, InOrder a → SaneAll (a ++ cs) → ∀ e, o = .error e →
    ∃ q k n, Fault (a ++ cs) q k n e.type ∧ e.line + n = 1 + newlines q + k := by
  induction h with
  | nil => intro a ha hs e he; cases he
  | @text l t cs o _ ih =>
    intro a ha hs e he
    have hc : InOrder [Ast1.Chunk.mk l (.text t)] := inOrder_single (by rintro ⟨_, _, h, _⟩; cases h) (by
      intro inner h
      cases h with
      | scope h => simp at h
      | arg h => simp at h
      | beginArg h => simp at h)
    cases o with
    | ok => cases he
    | error f =>
      have := ih _ (inOrder_append ha hc) (by simpa using hs) e he
      simpa using this
  | @scope l inner sv cs i o hi _ ih1 ih2 =>
    intro a ha hs e he
    have hch : Child (a ++ .mk l (.scope (.mk inner sv)) :: cs) inner := .scope (l := l) (sv := sv) (by simp)
    have hsi := Ast1.saneAll_child hs hch
    cases i with
    | error f =>
      simp only [scopeOutcome, Except.error.injEq] at he
      subst he
      obtain ⟨q, k, n, hf, hl⟩ := ih1 [] (inOrder_iff.2 ⟨.nil, by
        intro inner h
        cases h with
        | scope h => simp at h
        | arg h => simp at h
        | beginArg h => simp at h⟩) (by simpa using hsi) f rfl
      refine ⟨_, _, _, .scope ha (by simpa [offBy] using hf), ?_⟩
      have hx := sane_exact hs (by simp [Ast1.Chunk.variant]) (by simp [Ast1.Chunk.variant])
      have : newlines (sv.opening :: q) = newlines q := by cases sv <;> simp [newlines_eq_count, ScopeVariant.opening, List.count_cons]
      rw [newlines_append, this]
      simp only [offBy, Ast1.Chunk.lineNo] at *
      omega
    | ok x =>
      have hin := inOrder_converts hi (Ast1.sane_numbered hsi)
      have hc : InOrder [Ast1.Chunk.mk l (.scope (.mk inner sv))] :=
        inOrder_single (by rintro ⟨_, _, h, _⟩; cases h) fun i h => by rw [child_scope_single h]; exact hin
      cases o with
      | ok => simp [scopeOutcome, Outcome.after] at he
      | error f =>
        have := ih2 _ (inOrder_append ha hc) (by simpa using hs) e (by simpa [scopeOutcome, Outcome.after] using he)
        simpa using this
  | @command l label cs o items h1 h2 hit _ ih1 ih2 =>
    intro a ha hs e he
    have hsx : ∀ x ∈ items, SaneAll x.1.2.chunks := by
      intro x hx
      obtain ⟨⟨p, ⟨inner, sv⟩⟩, o⟩ := x
      exact Ast1.saneAll_child hs (Child.arg (prec := p) (sv := sv) (List.mem_append_right _ (List.mem_cons_self ..)) h1 h2
        (List.mem_map.2 ⟨_, hx, rfl⟩))
    have hok : ∀ x ∈ items, (∃ c, x.2 = .ok c) → InOrder x.1.2.chunks := by
      rintro x hx ⟨c, hc⟩
      have := hit x hx
      rw [hc] at this
      exact inOrder_converts this (Ast1.sane_numbered (hsx x hx))
    cases hr : argOutcome items with
    | error f =>
      simp only [commandOutcome, hr, Except.error.injEq] at he
      subst he
      obtain ⟨i1, x, i2, rfl, hx, hi1⟩ := items_split hr
      obtain ⟨q, k, n, hf, hl⟩ := ih1 x (by simp) [] (inOrder_iff.2 ⟨.nil, by
        intro inner h
        cases h with
        | scope h => simp at h
        | arg h => simp at h
        | beginArg h => simp at h⟩) (by simpa using hsx x (by simp)) f hx
      obtain ⟨⟨p, ⟨inner, sv⟩⟩, ox⟩ := x
      simp only [Ast1.Scope.chunks, List.nil_append] at hf
      have := Fault.arg (l := l) (label := label) (a1 := i1.map (·.1)) (p := p) (sv := sv) (a2 := i2.map (·.1)) (post := cs)
        ha h1 h2 (by
          intro y hy
          obtain ⟨z, hz, rfl⟩ := List.mem_map.1 hy
          exact hok z (by simp [hz]) (hi1 z hz)) hf
      rw [List.map_append, List.map_cons]
      refine ⟨_, _, _, this, ?_⟩
      have : newlines (sv.opening :: q) = newlines q := by cases sv <;> simp [newlines_eq_count, ScopeVariant.opening, List.count_cons]
      simp only [← newlines_eq_count]
      simp only [newlines_append, newlines_cons, this]
      simp only [newlines_append, newlines_cons] at *
      omega
    | ok args =>
      have hc : InOrder [Ast1.Chunk.mk l (.command (.mk label (items.map (·.1))))] :=
        inOrder_single (by rintro ⟨_, _, h, hh⟩; cases h; simp [h1, h2] at hh) fun i h => by
          obtain ⟨y, hy, rfl⟩ := child_command_single h
          obtain ⟨z, hz, rfl⟩ := List.mem_map.1 hy
          exact hok z hz (items_ok hr z hz)
      cases o with
      | ok => simp [commandOutcome, hr, Outcome.after] at he
      | error f =>
        have := ih2 _ (inOrder_append ha hc) (by simpa using hs) e (by simpa [commandOutcome, hr, Outcome.after] using he)
        simpa using this
  | @environment l p lab body l' pe cs i o items hm hit hbody _ ih1 ih2 ih3 =>
    intro a ha hs e he
    have hsx : ∀ x ∈ items, SaneAll x.1.2.chunks := by
      intro x hx
      obtain ⟨⟨p', ⟨inner, sv⟩⟩, o⟩ := x
      exact Ast1.saneAll_child hs (Child.beginArg (prec := p') (sv := sv) (List.mem_append_right _ (List.mem_cons_self ..))
        (List.mem_map.2 ⟨_, hx, rfl⟩))
    have hok : ∀ x ∈ items, (∃ c, x.2 = .ok c) → InOrder x.1.2.chunks := by
      rintro x hx ⟨c, hc⟩
      have := hit x hx
      rw [hc] at this
      exact inOrder_converts this (Ast1.sane_numbered (hsx x hx))
    have hsb := sane_body (d0 := a) (body := body) (rest := _ :: cs) hs
    rw [renumber_eq, endOfBegin_eq] at hbody ih2
    have hx := (hs _ .top).begin_exact rfl
    have hnil : InOrder [] := inOrder_iff.2 ⟨.nil, by
        intro inner h
        cases h with
        | scope h => simp at h
        | arg h => simp at h
        | beginArg h => simp at h⟩
    cases hr : argOutcome items with
    | error f =>
      simp only [environmentOutcome, hr, Except.error.injEq] at he
      subst he
      obtain ⟨i1, x, i2, rfl, hx, hi1⟩ := items_split hr
      obtain ⟨q, k, n, hf, hl⟩ := ih1 x (by simp) [] hnil (by simpa using hsx x (by simp)) f hx
      obtain ⟨⟨p', ⟨inner, sv⟩⟩, ox⟩ := x
      simp only [Ast1.Scope.chunks, List.nil_append] at hf
      have := Fault.beginArg (l := l) (p0 := p) (lab := lab) (a1 := i1.map (·.1)) (p := p') (sv := sv) (a2 := i2.map (·.1))
        (l' := l') (pe := pe) (post := cs) ha hm (by
          intro y hy
          obtain ⟨z, hz, rfl⟩ := List.mem_map.1 hy
          exact hok z (by simp [hz]) (hi1 z hz)) hf
      rw [List.map_append, List.map_cons]
      refine ⟨_, _, _, this, ?_⟩
      have : newlines (sv.opening :: q) = newlines q := by cases sv <;> simp [newlines_eq_count, ScopeVariant.opening, List.count_cons]
      simp only [← newlines_eq_count]
      simp only [newlines_append, newlines_cons, this]
      simp only [newlines_append, newlines_cons] at *
      omega
    | ok args =>
      have hargs : ∀ y ∈ items.map (·.1), InOrder y.2.chunks := by
        intro y hy
        obtain ⟨z, hz, rfl⟩ := List.mem_map.1 hy
        exact hok z hz (items_ok hr z hz)
      cases i with
      | error f =>
        simp only [environmentOutcome, hr, Except.error.injEq] at he
        subst he
        obtain ⟨q, k, n, hf, hl⟩ := ih2 [] hnil (by simpa using hsb) f rfl
        have := Fault.environment (l := l) (p := p) (lab := lab) (l' := l') (pe := pe) (post := cs) ha hm hargs
          (fault_same hf (sameV_rebase _ body).symm)
        refine ⟨_, _, _, this, ?_⟩
        rw [newlines_append, Ast1.displayChunks_append, newlines_append, Ast1.displayChunks_cons]
        have := display_beginC l p lab (items.map (·.1))
        simp only [beginC] at this
        simp only [offBy, endOfBegin_eq, startL, newlines_append, this, Ast1.displayChunks_nil] at *
        simp
        omega
      | ok x =>
        have hin := inOrder_converts hbody (Ast1.sane_numbered hsb)
        have hin := inOrder_same (sameV_rebase _ body).symm hin
        have hc : InOrder (.mk l (.command (.mk chars!"begin" ((p, .mk lab .curly) :: items.map (·.1)))) ::
            (body ++ [Ast1.Chunk.mk l' (.command (.mk chars!"end" [(pe, .mk lab .curly)]))])) := by
          rw [inOrder_iff] at hin ⊢
          refine ⟨.env ⟨_, _, rfl⟩ hm ⟨_, rfl⟩ .nil, ?_⟩
          intro inner h
          rcases child_append (a := [_]) h with h | h
          · obtain ⟨y, hy, rfl⟩ := child_begin_single h rfl
            exact hargs y hy
          · rcases child_append h with h | h
            · exact hin.2 _ h
            · cases h with
              | scope h => simp at h
              | arg h _ h2 => simp at h; exact absurd h.2.1 h2
              | beginArg h => simp at h
        cases o with
        | ok => simp [environmentOutcome, hr, Outcome.after] at he
        | error f =>
          have := ih3 _ (inOrder_append ha hc) (by simpa using hs) e (by simpa [environmentOutcome, hr, Outcome.after] using he)
          simpa using this
  | @bad c cs t hb =>
    intro a ha hs e he
    cases he
    refine ⟨_, 0, 0, .bad ha hb, ?_⟩
    have := bad_exact hb hs
    simp only; omega
  | @badInside l p lab args body st c cs t ho hb =>
    intro a ha hs e he
    cases he
    refine ⟨_, 0, 0, .badInside ha ho hb, ?_⟩
    have := bad_exact (a := a ++ Ast1.Chunk.mk l (.command (.mk chars!"begin" ((p, .mk lab .curly) :: args))) :: body) hb (by simpa using hs)
    simp only; omega
  | @unclosed l p lab args body st ho =>
    intro a ha hs e he
    cases he
    refine ⟨_, 0, 0, .unclosed ha ho, ?_⟩
    have hx := (hs _ .top).begin_exact rfl
    have := display_beginC l p lab args
    simp only [beginC] at this
    rw [Ast1.displayChunks_append, newlines_append, Ast1.displayChunks_cons, newlines_append, this]
    simp only [endOfBegin_eq, startL]
    simp [newlines_eq_count, Ast1.displayChunks_nil] at *
    omega

/-! ### from the fault to the outcome -/

theorem numbered_prefix {a b} (h : NumberedInOrder (a ++ b)) : NumberedInOrder a := by
  intro lv hl pre l args mid c post he
  rcases hl.head with rfl | ⟨inner, hc, hl⟩
  · exact h _ .top pre l args mid c (post ++ b) (by simp [he])
  · exact h lv (Checked.trans (.child .top (hc.mono fun c hc => List.mem_append_left _ hc)) hl) pre l args mid c post he

theorem tryFrom_after {a b f} (ha : InOrder a) (hn : NumberedInOrder (a ++ b)) (h : Converts b (.error f)) :
    tryFrom (a ++ b) = .error (.err f) := by
  obtain ⟨x, hx⟩ := (C23 a (numbered_prefix hn)).2 ha
  rw [tryFrom_append hx, h.sound (numbered_suffix hn)]
  rfl

theorem converts_ok {cs} (h : InOrder cs) (hn : NumberedInOrder cs) : ∃ x, Converts cs (.ok x) := by
  obtain ⟨x, hx⟩ := (C23 cs hn).2 h
  exact ⟨x, (converts_iff hn (.ok x)).2 hx⟩

theorem items_of_ok {args : List (Str × Ast1.Scope)} (h : ∀ x ∈ args, ∃ c, Converts x.2.chunks (.ok c)) :
    ∃ items : List ((Str × Ast1.Scope) × Outcome), items.map (·.1) = args ∧
      (∀ x ∈ items, Converts x.1.2.chunks x.2) ∧ ∃ b, argOutcome items = .ok b := by
  induction args with
  | nil => exact ⟨[], rfl, by simp, [], rfl⟩
  | cons x r ih =>
    obtain ⟨items, h1, h2, b, h3⟩ := ih fun y hy => h y (.tail _ hy)
    obtain ⟨c, hc⟩ := h x (.head _)
    obtain ⟨p, sc⟩ := x
    refine ⟨((p, sc), .ok c) :: items, by simp [h1], ?_, (p, .mk c sc.variant) :: b, by simp [argOutcome, h3]⟩
    intro y hy
    rcases List.mem_cons.1 hy with rfl | hy
    · exact hc
    · exact h2 y hy

theorem argOutcome_append {i1 : List ((Str × Ast1.Scope) × Outcome)} {b x r} (h : argOutcome i1 = .ok b) (e : Error)
    (hx : x.2 = .error e) : argOutcome (i1 ++ x :: r) = .error e := by
  induction i1 generalizing b with
  | nil => obtain ⟨⟨p, sc⟩, o⟩ := x; simp only at hx; subst hx; simp [argOutcome]
  | cons y i1 ih =>
    obtain ⟨⟨p, sc⟩, o⟩ := y
    cases o with
    | error f => simp [argOutcome] at h
    | ok c =>
      cases hr : argOutcome i1 with
      | error f => simp [argOutcome, hr] at h
      | ok a => simp [argOutcome, ih hr]

/-- The items of arguments of which the first problem is in the middle. -/
theorem items_of_error {a1 a2 : List (Str × Ast1.Scope)} {p inner sv e}
    (h : ∀ x ∈ a1, ∃ c, Converts x.2.chunks (.ok c)) (he : Converts inner (.error e)) :
    ∃ items : List ((Str × Ast1.Scope) × Outcome), items.map (·.1) = a1 ++ (p, .mk inner sv) :: a2 ∧
      (∀ x ∈ items, Converts x.1.2.chunks x.2) ∧ argOutcome items = .error e := by
  obtain ⟨i1, h1, h2, b, h3⟩ := items_of_ok h
  obtain ⟨i2, h4, h5⟩ := items_total (args := a2) fun x _ => converts_total x.2.chunks
  refine ⟨i1 ++ ((p, .mk inner sv), .error e) :: i2, by simp [h1, h4], ?_, argOutcome_append h3 e rfl⟩
  intro x hx
  rcases List.mem_append.1 hx with hx | hx
  · exact h2 x hx
  · rcases List.mem_cons.1 hx with rfl | hx
    · exact he
    · exact h5 x hx

theorem converts_of_fault : ∀ (m : Nat) {cs q k n t}, sizeChunks cs < m → Fault cs q k n t → SaneAll cs →
    ∃ L, tryFrom cs = .error (.err ⟨L, t⟩) ∧ L + n = 1 + newlines q + k := by
  intro m
  induction m with
  | zero => intro cs q k n t hm; omega
  | succ m ih =>
    intro cs q k n t hm hf hs
    have hn := Ast1.sane_numbered hs
    have sub : ∀ {inner q k n}, Child cs inner → Fault inner q k n t →
        ∃ L, Converts inner (.error ⟨L, t⟩) ∧ L + n = 1 + newlines q + k := by
      intro inner q k n hc hf
      have hsi := Ast1.saneAll_child hs hc
      obtain ⟨L, h1, h2⟩ := ih (by have := size_child hc; omega) hf hsi
      exact ⟨L, (converts_iff (Ast1.sane_numbered hsi) (.error ⟨L, t⟩)).2 h1, h2⟩
    have subok : ∀ {inner}, Child cs inner → InOrder inner → ∃ x, Converts inner (.ok x) := fun hc h =>
      converts_ok h (Ast1.sane_numbered (Ast1.saneAll_child hs hc))
    have hop : ∀ (sv : ScopeVariant) (q : Str), newlines (sv.opening :: q) = newlines q := by
      intro sv q; cases sv <;> simp [newlines_eq_count, ScopeVariant.opening, List.count_cons]
    cases hf with
    | @bad a c post _ h1 h2 =>
      refine ⟨_, tryFrom_after h1 hn (.bad h2), ?_⟩
      have := bad_exact h2 hs
      omega
    | @badInside a l p lab args body st c post _ h1 h2 h3 =>
      refine ⟨_, tryFrom_after h1 hn (.badInside h2 h3), ?_⟩
      have := bad_exact (a := a ++ Ast1.Chunk.mk l (.command (.mk chars!"begin" ((p, .mk lab .curly) :: args))) :: body) h3 (by simpa using hs)
      omega
    | @unclosed a l p lab args body st h1 h2 =>
      refine ⟨_, tryFrom_after h1 hn (.unclosed h2), ?_⟩
      have hx := (hs _ .top).begin_exact rfl
      have := display_beginC l p lab args
      simp only [beginC] at this
      rw [Ast1.displayChunks_append, newlines_append, Ast1.displayChunks_cons, newlines_append, this]
      simp only [endOfBegin_eq, startL]
      simp [newlines_eq_count, Ast1.displayChunks_nil] at *
      omega
    | @scope a l inner sv post q k n _ h1 h2 =>
      obtain ⟨L, hc, hL⟩ := sub (.scope (l := l) (sv := sv) (List.mem_append_right _ (List.mem_cons_self ..))) h2
      obtain ⟨o, ho⟩ := converts_total post
      have hx := sane_exact hs (by simp [Ast1.Chunk.variant]) (by simp [Ast1.Chunk.variant])
      refine ⟨_, tryFrom_after h1 hn (.scope hc ho), ?_⟩
      rw [newlines_append, hop]
      simp only [Ast1.Chunk.lineNo] at *
      omega
    | @arg a l label a1 p inner sv a2 post q k n _ h1 h2 h3 h4 h5 =>
      have hmem : Ast1.Chunk.mk l (.command (.mk label (a1 ++ (p, .mk inner sv) :: a2))) ∈
        a ++ Ast1.Chunk.mk l (.command (.mk label (a1 ++ (p, .mk inner sv) :: a2))) :: post := List.mem_append_right _ (List.mem_cons_self ..)
      obtain ⟨L, hc, hL⟩ := sub (.arg (prec := p) (sv := sv) hmem h2 h3 (by simp)) h5
      obtain ⟨o, ho⟩ := converts_total post
      obtain ⟨items, hi1, hi2, hi3⟩ := items_of_error (p := p) (sv := sv) (a1 := a1) (a2 := a2) (fun x hx => by
        obtain ⟨p', ⟨i', sv'⟩⟩ := x
        exact subok (.arg (prec := p') (sv := sv') hmem h2 h3 (List.mem_append_left _ hx)) (h4 _ hx)) hc
      have := Converts.command (l := l) h2 h3 hi2 ho
      rw [hi1] at this
      simp only [commandOutcome, hi3] at this
      refine ⟨_, tryFrom_after h1 hn this, ?_⟩
      simp only [← newlines_eq_count]
      simp only [newlines_append, newlines_cons, hop]
      simp only [newlines_append, newlines_cons] at *
      omega
    | @beginArg a l p0 lab a1 p inner sv a2 body l' pe post q k n _ h1 h2 h3 h4 =>
      have hmem : Ast1.Chunk.mk l (.command (.mk chars!"begin" ((p0, .mk lab .curly) :: (a1 ++ (p, .mk inner sv) :: a2)))) ∈
        a ++ Ast1.Chunk.mk l (.command (.mk chars!"begin" ((p0, .mk lab .curly) :: (a1 ++ (p, .mk inner sv) :: a2)))) ::
          (body ++ .mk l' (.command (.mk chars!"end" [(pe, .mk lab .curly)])) :: post) := List.mem_append_right _ (List.mem_cons_self ..)
      obtain ⟨L, hc, hL⟩ := sub (.beginArg (prec := p) (sv := sv) hmem (by simp)) h4
      obtain ⟨o, ho⟩ := converts_total post
      obtain ⟨items, hi1, hi2, hi3⟩ := items_of_error (p := p) (sv := sv) (a1 := a1) (a2 := a2) (fun x hx => by
        obtain ⟨p', ⟨i', sv'⟩⟩ := x
        exact subok (.beginArg (prec := p') (sv := sv') hmem (List.mem_append_left _ hx)) (h3 _ hx)) hc
      obtain ⟨i, hi⟩ := converts_total (body.map (renumber (endOfBegin l ((p0, .mk lab .curly) :: items.map (·.1)))))
      have := Converts.environment (l := l) (p := p0) (l' := l') (pe := pe) h2 hi2 hi ho
      rw [hi1] at this
      simp only [environmentOutcome, hi3] at this
      refine ⟨_, tryFrom_after h1 hn this, ?_⟩
      simp only [← newlines_eq_count]
      simp only [newlines_append, newlines_cons, hop]
      simp only [newlines_append, newlines_cons] at *
      omega
    | @environment a l p lab args body l' pe post q k n _ h1 h2 h3 h4 =>
      have hmem : Ast1.Chunk.mk l (.command (.mk chars!"begin" ((p, .mk lab .curly) :: args))) ∈
        a ++ Ast1.Chunk.mk l (.command (.mk chars!"begin" ((p, .mk lab .curly) :: args))) ::
          (body ++ .mk l' (.command (.mk chars!"end" [(pe, .mk lab .curly)])) :: post) := List.mem_append_right _ (List.mem_cons_self ..)
      have hsb := sane_body (d0 := a) (body := body) (rest := _ :: post) hs
      have hsz : sizeChunks body < m := by
        have e : ∀ x y : List Ast1.Chunk, sizeChunks (x ++ y) = sizeChunks x + sizeChunks y := sizeChunks_append
        simp only [e, sizeChunks, sizeChunk] at hm
        omega
      obtain ⟨L, hc, hL⟩ := ih (by rw [sizeChunks_rebase]; exact hsz) (fault_same h4 (sameV_rebase (startL l p lab args) body)) hsb
      have hc := (converts_iff (Ast1.sane_numbered hsb) (.error ⟨L, t⟩)).2 hc
      obtain ⟨o, ho⟩ := converts_total post
      obtain ⟨items, hi1, hi2, b, hi3⟩ := items_of_ok (args := args) (fun x hx => by
        obtain ⟨p', ⟨i', sv'⟩⟩ := x
        exact subok (.beginArg (prec := p') (sv := sv') hmem hx) (h3 _ hx))
      subst hi1
      rw [← endOfBegin_eq, ← renumber_eq] at hc
      have := Converts.environment (l := l) (p := p) (l' := l') (pe := pe) h2 hi2 hc ho
      simp only [environmentOutcome, hi3] at this
      refine ⟨_, tryFrom_after h1 hn this, ?_⟩
      have hx := (hs _ .top).begin_exact rfl
      have := display_beginC l p lab (items.map (·.1))
      simp only [beginC] at this
      rw [newlines_append, Ast1.displayChunks_append, newlines_append, Ast1.displayChunks_cons, newlines_append, this]
      simp only [endOfBegin_eq, startL]
      simp only [Ast1.displayChunks_nil, show newlines [] = 0 from rfl] at *
      omega

theorem fault_prefix {cs q k n t} (h : Fault cs q k n t) : q <+: Ast1.displayChunks cs ∧ n ≤ newlines q := by
  induction h with
  | bad => exact ⟨by rw [Ast1.displayChunks_append]; exact List.prefix_append .., Nat.zero_le _⟩
  | badInside =>
    refine ⟨?_, Nat.zero_le _⟩
    simp only [Ast1.displayChunks_append, Ast1.displayChunks_cons]
    simp only [← List.append_assoc]
    exact ⟨_, (List.append_assoc ..).symm⟩
  | unclosed =>
    refine ⟨?_, Nat.zero_le _⟩
    simp only [Ast1.displayChunks_append, Ast1.displayChunks_cons]
    simp [← List.append_assoc]
  | @scope a l inner sv post q k n t h1 h2 ih =>
    obtain ⟨⟨r, hr⟩, h3⟩ := ih
    refine ⟨⟨r ++ sv.closing :: Ast1.displayChunks post, ?_⟩, ?_⟩
    · simp [Ast1.displayChunks_append, Ast1.displayChunks_cons, Ast1.Chunk.display, Ast1.ChunkVariant.display,
        Ast1.Scope.display, ← hr]
    · rw [newlines_append, newlines_cons]; omega
  | @arg a l label a1 p inner sv a2 post q k n t h1 h2 h6 h7 h8 ih =>
    obtain ⟨⟨r, hr⟩, h3⟩ := ih
    refine ⟨⟨r ++ sv.closing :: (Ast1.displayArgs a2 ++ Ast1.displayChunks post), ?_⟩, ?_⟩
    · simp [Ast1.displayChunks_append, Ast1.displayChunks_cons, Ast1.Chunk.display, Ast1.ChunkVariant.display,
        Ast1.Command.display, Ast1.displayArgs_append, Ast1.displayArgs, Ast1.Scope.display, ← hr]
    · simp only [← newlines_eq_count, newlines_append, newlines_cons]; omega
  | @beginArg a l p0 lab a1 p inner sv a2 body l' pe post q k n t h1 h2 h6 h7 ih =>
    obtain ⟨⟨r, hr⟩, h3⟩ := ih
    refine ⟨⟨r ++ sv.closing :: (Ast1.displayArgs a2 ++ Ast1.displayChunks (body ++ .mk l' (.command (.mk chars!"end" [(pe, .mk lab .curly)])) :: post)), ?_⟩, ?_⟩
    · simp only [Ast1.displayChunks_append a, Ast1.displayChunks_cons, Ast1.Chunk.display, Ast1.ChunkVariant.display,
        Ast1.Command.display, Ast1.displayArgs_append, Ast1.displayArgs, Ast1.Scope.display, ← hr]
      simp
    · simp only [← newlines_eq_count, newlines_append, newlines_cons]; omega
  | @environment a l p lab args body l' pe post q k n t h1 h2 h6 h7 ih =>
    obtain ⟨⟨r, hr⟩, h3⟩ := ih
    refine ⟨⟨r ++ Ast1.displayChunks (.mk l' (.command (.mk chars!"end" [(pe, .mk lab .curly)])) :: post), ?_⟩, ?_⟩
    · simp only [Ast1.displayChunks_append, Ast1.displayChunks_cons, ← hr]
      simp
    · rw [newlines_append]; omega

end LatexAst.Ast2
