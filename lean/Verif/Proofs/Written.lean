import Verif.Spec.Written
import Verif.Props.Conversion
import Verif.Props.Environments
import Verif.Props.Verbatim
import Verif.Proofs.MathsFuel

namespace LatexAst.Ast2
open Ast1 (Opened Matched)

/-! ### from a conversion to what is written out -/

/-- Numbered from `n`, `\begin` and `\end` exactly. -/
def WN (n : Nat) (d : List Ast1.Chunk) : Prop :=
  ∀ pre l v post, d = pre ++ .mk l v :: post →
    n + (Ast1.displayChunks pre).count '\n' ≤ l ∧
    (∀ label args, v = .command (.mk label args) → label = chars!"begin" ∨ label = chars!"end" →
      l = n + (Ast1.displayChunks pre).count '\n')

/-- The contents of scopes and arguments are canonical. -/
def SubV (v : Ast1.ChunkVariant) : Prop :=
  (∀ inner sv, v = .scope (.mk inner sv) → Ast1.Canonical inner) ∧
  (∀ label args p inner sv, v = .command (.mk label args) → (p, Ast1.Scope.mk inner sv) ∈ args → Ast1.Canonical inner)

def SubC (d : List Ast1.Chunk) : Prop := ∀ l v, .mk l v ∈ d → SubV v

theorem wn_of_canonical {d} (h : Ast1.Canonical d) : WN 1 d := by
  intro pre l v post he
  have := (h d .top).2 pre l v post he
  refine ⟨by omega, fun label args hv hl => ?_⟩
  have hz : Ast1.lateBy pre v post = 0 := by
    subst hv
    unfold Ast1.lateBy
    have : ¬ ∃ args', Ast1.ChunkVariant.command (.mk label args) = .command (.mk ['\n'] args') := by
      rintro ⟨a, ha⟩
      injection ha with ha
      injection ha with ha
      subst ha
      rcases hl with hl | hl <;> exact absurd hl (by decide)
    rw [if_neg this]
  omega

theorem subC_of_canonical {d} (h : Ast1.Canonical d) : SubC d := by
  intro l v hm
  refine ⟨fun inner sv hv => ?_, fun label args p inner sv hv ha => ?_⟩
  · subst hv; exact h.level (.scope .top hm)
  · subst hv; exact h.level (.arg .top hm ha)

theorem WN.tail {n l v cs} (h : WN n (.mk l v :: cs)) : WN (n + v.display.count '\n') cs := by
  intro pre l' v' post he
  subst he
  have := h (.mk l v :: pre) l' v' post (by simp)
  simp only [Ast1.displayChunks_cons, Ast1.Chunk.display, List.count_append] at this
  refine ⟨by omega, fun label args hv hl => ?_⟩
  have := this.2 label args hv hl
  omega

theorem WN.drop {n a b} (h : WN n (a ++ b)) : WN (n + (Ast1.displayChunks a).count '\n') b := by
  induction a generalizing n with
  | nil => simpa [Ast1.displayChunks] using h
  | cons c a ih =>
    obtain ⟨l, v⟩ := c
    have := ih (WN.tail h)
    rw [Nat.add_assoc] at this
    simpa [Ast1.displayChunks_cons, Ast1.Chunk.display, List.count_append] using this

theorem WN.take {n a b} (h : WN n (a ++ b)) : WN n a := by
  intro pre l v post he
  exact h pre l v (post ++ b) (by simp [he])

theorem SubC.append {a b} : SubC (a ++ b) ↔ SubC a ∧ SubC b := by
  unfold SubC
  constructor
  · intro h
    exact ⟨fun l v hm => h l v (List.mem_append_left _ hm), fun l v hm => h l v (List.mem_append_right _ hm)⟩
  · rintro ⟨h1, h2⟩ l v hm
    rcases List.mem_append.1 hm with hm | hm
    · exact h1 l v hm
    · exact h2 l v hm

theorem SubC.cons {c : Ast1.Chunk} {b} : SubC (c :: b) ↔ SubV c.variant ∧ SubC b := by
  obtain ⟨l, v⟩ := c
  unfold SubC
  constructor
  · intro h
    exact ⟨h l v (by simp), fun l v hm => h l v (by simp [hm])⟩
  · rintro ⟨h1, h2⟩ l' v' hm
    rcases List.mem_cons.1 hm with hm | hm
    · cases hm; exact h1
    · exact h2 l' v' hm

theorem display_map_renumber (k : Nat) (b : List Ast1.Chunk) :
    Ast1.displayChunks (b.map (renumber k)) = Ast1.displayChunks b := by
  induction b with
  | nil => rfl
  | cons c b ih => obtain ⟨l, v⟩ := c; simp [Ast1.displayChunks_cons, renumber, Ast1.Chunk.display, ih]

theorem display_map_later (k : Nat) (b : List Ast1.Chunk) :
    Ast1.displayChunks (b.map (later k)) = Ast1.displayChunks b := by
  induction b with
  | nil => rfl
  | cons c b ih => obtain ⟨l, v⟩ := c; simp [Ast1.displayChunks_cons, later, Ast1.Chunk.display, ih]

theorem map_split {α β} {f : α → β} {b : List α} {pre x post} (h : b.map f = pre ++ x :: post) :
    ∃ pre' x' post', b = pre' ++ x' :: post' ∧ pre = pre'.map f ∧ x = f x' := by
  obtain ⟨pre', r, rfl, h1, h2⟩ := List.map_eq_append_iff.1 h
  obtain ⟨x', post', rfl, h3, h4⟩ := List.map_eq_cons_iff.1 h2
  exact ⟨pre', x', post', rfl, h1.symm, h3.symm⟩

theorem WN.renumber {k b} (h : WN k b) : WN 1 (b.map (renumber k)) := by
  intro pre l v post he
  obtain ⟨pre', ⟨l', v'⟩, post', rfl, rfl, hx⟩ := map_split he
  have := h pre' l' v' post' rfl
  simp only [Ast2.renumber] at hx
  injection hx with hl hv
  subst hl; subst hv
  rw [display_map_renumber]
  refine ⟨by omega, fun label args hv hl => ?_⟩
  have := this.2 label args hv hl
  omega

theorem later_renumber {k b} (hk : 1 ≤ k) (h : WN k b) : (b.map (renumber k)).map (later (k - 1)) = b := by
  rw [List.map_map]
  conv => rhs; rw [← List.map_id b]
  refine List.map_congr_left fun c hc => ?_
  obtain ⟨pre, post, rfl⟩ := List.append_of_mem hc
  obtain ⟨l, v⟩ := c
  have := h pre l v post rfl
  simp only [Function.comp, renumber, later, id]
  congr 1
  omega

theorem SubC.renumber {k b} (h : SubC b) : SubC (b.map (Ast2.renumber k)) := by
  intro l v hm
  obtain ⟨⟨l', v'⟩, hm', he⟩ := List.mem_map.1 hm
  simp only [Ast2.renumber] at he
  injection he with _ he
  subst he
  exact h _ _ hm'

theorem readLabel_canonical {lab} (h : Ast1.Canonical lab) : readLabel (Ast1.displayChunks lab) = lab := by
  simp [readLabel, Ast1.C03 lab h]

/-- The label of an environment is readable. -/
def LabelV : ChunkVariant → Prop
  | .environment (.mk label _ _ _ _) => ReadableLabel label
  | _ => True

/-- What `from_converts` shows of an outcome. -/
def WrOk (d : List Ast1.Chunk) (o : Outcome) : Prop := ∀ e, o = .ok e →
  writtenOut e = d ∧ AllChunks LabelV e ∧ displayChunks e = Ast1.displayChunks d

theorem argOutcome_written {items : List ((Str × Ast1.Scope) × Outcome)} {args}
    (h : ∀ x ∈ items, WrOk x.1.2.chunks x.2) (ho : argOutcome items = .ok args) :
    writtenOutArgs args = items.map (·.1) ∧ AllArgs LabelV args ∧
      displayArgs args = Ast1.displayArgs (items.map (·.1)) := by
  induction items generalizing args with
  | nil => simp only [argOutcome] at ho; cases ho; exact ⟨rfl, trivial, rfl⟩
  | cons x items ih =>
    obtain ⟨⟨p, ⟨cs, sv⟩⟩, o⟩ := x
    cases o with
    | error e => simp [argOutcome] at ho
    | ok inner =>
      simp only [argOutcome] at ho
      cases hr : argOutcome items with
      | error e => rw [hr] at ho; cases ho
      | ok args' =>
        rw [hr] at ho
        cases ho
        obtain ⟨h1, h2, h3⟩ := ih (fun x hx => h x (by simp [hx])) hr
        obtain ⟨g1, g2, g3⟩ := h _ (List.mem_cons_self ..) inner rfl
        simp only [Ast1.Scope.chunks] at g1 g2 g3
        refine ⟨?_, ⟨g2, h2⟩, ?_⟩
        · simp [writtenOutArgs, Scope.writtenOut, g1, h1, Ast1.Scope.variant]
        · simp [displayArgs, Ast1.displayArgs, Scope.display, Ast1.Scope.display, g3, h3, Ast1.Scope.variant]

theorem from_converts {d o} (h : Converts d o) : ∀ n, 1 ≤ n → WN n d → SubC d → WrOk d o := by
  induction h with
  | nil => intro n _ _ _ e he; cases he; exact ⟨rfl, trivial, rfl⟩
  | text _ ih =>
    intro n hn hw hs e he
    obtain ⟨cs, rfl, rfl⟩ := after_ok he
    obtain ⟨h1, h2, h3⟩ := ih _ (Nat.le_add_right_of_le hn) hw.tail (SubC.cons.1 hs).2 cs rfl
    refine ⟨?_, ⟨trivial, h2⟩, ?_⟩
    · simp [writtenOut, Chunk.writtenOut, ChunkVariant.writtenOut, h1]
    · simp [displayChunks_cons, Ast1.displayChunks_cons, h3, Chunk.display, ChunkVariant.display, Ast1.Chunk.display, Ast1.ChunkVariant.display]
  | scope _ _ ihi ih =>
    rename_i l inner sv cs i o _ _
    intro n hn hw hs e he
    cases i with
    | error => cases he
    | ok ins =>
      obtain ⟨cs', rfl, rfl⟩ := after_ok he
      have hc : Ast1.Canonical inner := (SubC.cons.1 hs).1.1 inner sv rfl
      obtain ⟨g1, g2, g3⟩ := ihi 1 (Nat.le_refl _) (wn_of_canonical hc) (subC_of_canonical hc) ins rfl
      obtain ⟨h1, h2, h3⟩ := ih _ (Nat.le_add_right_of_le hn) hw.tail (SubC.cons.1 hs).2 cs' rfl
      refine ⟨?_, ⟨⟨trivial, g2⟩, h2⟩, ?_⟩
      · simp [writtenOut, Chunk.writtenOut, ChunkVariant.writtenOut, Scope.writtenOut, h1, g1]
      · simp [displayChunks_cons, Ast1.displayChunks_cons, h3, Chunk.display, ChunkVariant.display, Ast1.Chunk.display, Ast1.ChunkVariant.display, Scope.display, Ast1.Scope.display, g3]
  | command hb he' hit _ ihi ih =>
    rename_i l label cs o items _
    intro n hn hw hs e he
    simp only [commandOutcome] at he
    cases ha : argOutcome items with
    | error => rw [ha] at he; cases he
    | ok args =>
      rw [ha] at he
      obtain ⟨cs', rfl, rfl⟩ := after_ok he
      obtain ⟨h1, h2, h3⟩ := ih _ (Nat.le_add_right_of_le hn) hw.tail (SubC.cons.1 hs).2 cs' rfl
      have hc : ∀ x ∈ items, Ast1.Canonical x.1.2.chunks := by
        intro x hx
        obtain ⟨⟨p, ⟨ics, sv⟩⟩, o⟩ := x
        exact (SubC.cons.1 hs).1.2 label _ p ics sv rfl (List.mem_map.2 ⟨_, hx, rfl⟩)
      obtain ⟨g1, g2, g3⟩ := argOutcome_written
        (fun x hx => ihi x hx 1 (Nat.le_refl _) (wn_of_canonical (hc x hx)) (subC_of_canonical (hc x hx))) ha
      refine ⟨?_, ⟨⟨trivial, g2⟩, h2⟩, ?_⟩
      · simp [writtenOut, Chunk.writtenOut, ChunkVariant.writtenOut, Command.writtenOut, h1, g1]
      · simp [displayChunks_cons, Ast1.displayChunks_cons, h3, Chunk.display, ChunkVariant.display, Ast1.Chunk.display, Ast1.ChunkVariant.display, Command.display, Ast1.Command.display, g3]
  | environment hm hit _ _ ihi ihb ih =>
    rename_i l p lab body l' pe cs i o items _ _
    intro n hn hw hs e he
    simp only [environmentOutcome] at he
    cases ha : argOutcome items with
    | error => rw [ha] at he; cases he
    | ok args =>
      rw [ha] at he
      cases i with
      | error => cases he
      | ok content =>
        obtain ⟨cs', rfl, rfl⟩ := after_ok he
        have hs1 := SubC.cons.1 hs
        have hs2 := SubC.append.1 hs1.2
        have hs3 := SubC.cons.1 hs2.2
        have hlab : Ast1.Canonical lab := hs1.1.2 _ _ p lab .curly rfl (by simp)
        have hl : l = n := by
          have := (hw [] l _ _ rfl).2 _ _ rfl (.inl rfl)
          simpa [Ast1.displayChunks] using this
        subst hl
        have hc : ∀ x ∈ items, Ast1.Canonical x.1.2.chunks := by
          intro x hx
          obtain ⟨⟨p, ⟨ics, sv⟩⟩, o⟩ := x
          exact hs1.1.2 _ _ p ics sv rfl (List.mem_cons_of_mem _ (List.mem_map.2 ⟨_, hx, rfl⟩))
        obtain ⟨g1, g2, g3⟩ := argOutcome_written
          (fun x hx => ihi x hx 1 (Nat.le_refl _) (wn_of_canonical (hc x hx)) (subC_of_canonical (hc x hx))) ha
        have hw1 := hw.tail
        have hcnt : (Ast1.ChunkVariant.display (.command (.mk chars!"begin" ((p, .mk lab .curly) :: items.map (·.1))))).count '\n' =
            (Ast1.displayArgs ((p, .mk lab .curly) :: items.map (·.1))).count '\n' := by
          simp [Ast1.ChunkVariant.display, Ast1.Command.display]
        rw [hcnt] at hw1
        have hstart : l + (Ast1.displayArgs ((p, .mk lab .curly) :: items.map (·.1))).count '\n' =
          endOfBegin l ((p, .mk lab .curly) :: items.map (·.1)) := rfl
        rw [hstart] at hw1
        have hcnt2 : (Ast1.displayArgs ((p, .mk lab .curly) :: items.map (·.1))).count '\n' =
            (p ++ Ast1.displayChunks lab ++ displayArgs args).count '\n' := by
          simp [Ast1.displayArgs, Ast1.Scope.display, g3, List.count_append, ScopeVariant.opening, ScopeVariant.closing]
        have hbody := hw1.take
        have hend := hw1.drop
        generalize hst : endOfBegin l ((p, .mk lab .curly) :: items.map (·.1)) = st at *
        have hst1 : 1 ≤ st := by rw [← hst]; exact Nat.le_add_right_of_le hn
        obtain ⟨b1, b2, b3⟩ := ihb 1 (Nat.le_refl _) hbody.renumber hs2.1.renumber content rfl
        rw [display_map_renumber] at b3
        have hl' : l' = st + (Ast1.displayChunks body).count '\n' := by
          have := (hend [] l' _ _ rfl).2 _ _ rfl (.inr rfl)
          simpa [Ast1.displayChunks] using this
        have htail := hend.tail
        obtain ⟨h1, h2, h3⟩ := ih _ (by omega) htail hs3.2 cs' rfl
        refine ⟨?_, ⟨⟨⟨lab, Ast1.C03 lab hlab, rfl⟩, g2, b2⟩, h2⟩, ?_⟩
        · have hll : st - (p ++ Ast1.displayChunks lab ++ displayArgs args).count '\n' = l := by
            rw [← hcnt2, ← hst]; unfold endOfBegin; omega
          simp only [writtenOut, Chunk.writtenOut, ChunkVariant.writtenOut, Environment.writtenOut, hll,
            readLabel_canonical hlab, g1, b1, later_renumber hst1 hbody, b3, ← hl', h1]
          simp
        · simp [displayChunks_cons, Ast1.displayChunks_cons, h3, Chunk.display, ChunkVariant.display, Ast1.Chunk.display, Ast1.ChunkVariant.display, Environment.display, Ast1.Command.display, g3, b3, Ast1.displayArgs, Ast1.Scope.display, ScopeVariant.opening, ScopeVariant.closing]
  | bad => intro n _ _ _ e he; cases he
  | badInside => intro n _ _ _ e he; cases he
  | unclosed => intro n _ _ _ e he; cases he

/-! ### from what is written out to a conversion -/

/-- The arguments with the outcomes of their contents. -/
def argItems (args : List (Str × Scope)) : List ((Str × Ast1.Scope) × Outcome) :=
  args.map fun x => ((x.1, x.2.writtenOut), .ok x.2.chunks)

theorem argItems_fst (args : List (Str × Scope)) : (argItems args).map (·.1) = writtenOutArgs args := by
  induction args with
  | nil => rfl
  | cons x r ih => obtain ⟨p, sc⟩ := x; simp only [argItems, List.map_cons, writtenOutArgs] at ih ⊢; rw [ih]

theorem argItems_ok (args : List (Str × Scope)) : argOutcome (argItems args) = .ok args := by
  induction args with
  | nil => rfl
  | cons x r ih =>
    obtain ⟨p, ⟨inner, sv⟩⟩ := x
    simp only [argItems] at ih
    simp only [argItems, List.map_cons, argOutcome, ih, Scope.writtenOut, Ast1.Scope.variant]
    rfl

theorem matched_later {k b} (h : Matched b) : Matched (b.map (later k)) := by
  have hd : ∀ c : Ast1.Chunk, (later k c).variant = c.variant := fun ⟨_, _⟩ => rfl
  induction h with
  | nil => exact .nil
  | other h1 _ ih => exact .other (by simpa [Ast1.Chunk.IsDelimiter, hd] using h1) ih
  | env h1 _ h2 _ ih1 ih2 =>
    rw [List.map_cons, List.map_append, List.map_cons]
    exact .env (by simpa [Ast1.Chunk.Begins, hd] using h1) ih1 (by simpa [Ast1.Chunk.Ends, hd] using h2) ih2

theorem renumber_later {k} {b : List Ast1.Chunk} (hk : 1 ≤ k) (h : WN k (b.map (later (k - 1)))) :
    (b.map (later (k - 1))).map (renumber k) = b := by
  rw [List.map_map]
  conv => rhs; rw [← List.map_id b]
  refine List.map_congr_left fun c hc => ?_
  obtain ⟨pre, post, rfl⟩ := List.append_of_mem hc
  obtain ⟨l, v⟩ := c
  have := (h (pre.map (later (k - 1))) (l + (k - 1)) v (post.map (later (k - 1))) (by simp [later])).1
  simp only [Function.comp, renumber, later, id]
  congr 1
  omega

/-- What `to_converts` shows. -/
def WrBack (e : List Chunk) : Prop :=
  Ast1.displayChunks (writtenOut e) = displayChunks e ∧ Matched (writtenOut e) ∧
  ∀ n, 1 ≤ n → WN n (writtenOut e) → SubC (writtenOut e) → Converts (writtenOut e) (.ok e)

theorem displayArgs_written {args : List (Str × Scope)}
    (h : ∀ p inner sv, (p, Scope.mk inner sv) ∈ args → WrBack inner) :
    Ast1.displayArgs (writtenOutArgs args) = displayArgs args := by
  induction args with
  | nil => rfl
  | cons x r ih =>
    obtain ⟨p, ⟨inner, sv⟩⟩ := x
    have := (h p inner sv (by simp)).1
    simp [writtenOutArgs, Ast1.displayArgs, displayArgs, Scope.writtenOut, Ast1.Scope.display, Scope.display, this,
      ih fun p' i' s' hm => h p' i' s' (by simp [hm])]

theorem mem_writtenOutArgs {args : List (Str × Scope)} {p inner sv} (h : (p, Scope.mk inner sv) ∈ args) :
    (p, Ast1.Scope.mk (writtenOut inner) sv) ∈ writtenOutArgs args := by
  rw [← argItems_fst]
  refine List.mem_map.2 ⟨_, List.mem_map.2 ⟨_, h, rfl⟩, rfl⟩

theorem items_convert {args : List (Str × Scope)}
    (h : ∀ p inner sv, (p, Scope.mk inner sv) ∈ args → WrBack inner)
    (hc : ∀ p inner sv, (p, Scope.mk inner sv) ∈ args → Ast1.Canonical (writtenOut inner)) :
    ∀ x ∈ argItems args, Converts x.1.2.chunks x.2 := by
  intro x hx
  obtain ⟨⟨p, ⟨inner, sv⟩⟩, hm, rfl⟩ := List.mem_map.1 hx
  have hcc := hc p inner sv hm
  exact (h p inner sv hm).2.2 1 (Nat.le_refl _) (wn_of_canonical hcc) (subC_of_canonical hcc)

theorem to_converts : ∀ (n : Nat) (e : List Chunk), Ast3.sizeChunks e ≤ n → AllChunks NotDelim e →
    AllChunks LabelV e → WrBack e := by
  intro n
  induction n with
  | zero =>
    intro e hn _ _
    cases e with
    | nil => exact ⟨rfl, .nil, fun _ _ _ _ => .nil⟩
    | cons c e =>
      obtain ⟨l, v⟩ := c
      have := @Ast3.sizeChunks_pos l v
      simp only [Ast3.sizeChunks] at hn this
      omega
  | succ n ih =>
    intro e hn hd hl
    cases e with
    | nil => exact ⟨rfl, .nil, fun _ _ _ _ => .nil⟩
    | cons c e =>
      obtain ⟨l, v⟩ := c
      obtain ⟨hd1, hd2⟩ := hd
      obtain ⟨hl1, hl2⟩ := hl
      have hpos := @Ast3.sizeChunks_pos l v
      simp only [Ast3.sizeChunks] at hn hpos
      obtain ⟨r1, r2, r3⟩ := ih e (by omega) hd2 hl2
      cases v with
      | text t =>
        refine ⟨?_, ?_, fun m hm hw hs => ?_⟩
        · simp [writtenOut, Chunk.writtenOut, ChunkVariant.writtenOut, displayChunks_cons, Ast1.displayChunks_cons, r1, Chunk.display, ChunkVariant.display, Ast1.Chunk.display, Ast1.ChunkVariant.display]
        · refine .other ?_ r2
          rintro ⟨_, _, h, _⟩; cases h
        · exact .text (o := .ok e) (r3 _ (Nat.le_add_right_of_le hm) (WN.tail hw) (SubC.cons.1 hs).2)
      | scope sc =>
        obtain ⟨inner, sv⟩ := sc
        simp only [Ast3.sizeChunk, Ast3.sizeVariant, Ast3.sizeScope] at hn
        have hi := ih inner (by omega) hd1.2 hl1.2
        refine ⟨?_, ?_, fun m hm hw hs => ?_⟩
        · simp [writtenOut, Chunk.writtenOut, ChunkVariant.writtenOut, displayChunks_cons, Ast1.displayChunks_cons, r1, Chunk.display, ChunkVariant.display, Ast1.Chunk.display, Ast1.ChunkVariant.display, Scope.writtenOut, Ast1.Scope.display, Scope.display, hi.1]
        · refine .other ?_ r2
          rintro ⟨_, _, h, _⟩; cases h
        · have hc : Ast1.Canonical (writtenOut inner) := (SubC.cons.1 hs).1.1 _ sv rfl
          exact .scope (i := .ok inner) (o := .ok e)
            (hi.2.2 1 (Nat.le_refl _) (wn_of_canonical hc) (subC_of_canonical hc))
            (r3 _ (Nat.le_add_right_of_le hm) (WN.tail hw) (SubC.cons.1 hs).2)
      | command c =>
        obtain ⟨label, args⟩ := c
        simp only [Ast3.sizeChunk, Ast3.sizeVariant, Ast3.sizeCommand] at hn
        have hargs : ∀ p inner sv, (p, Scope.mk inner sv) ∈ args → WrBack inner := by
          intro p inner sv hm
          have := Ast3.sizeArgs_mem hm
          exact ih inner (by omega) ((allArgs_iff_forall _).1 hd1.2 _ hm) ((allArgs_iff_forall _).1 hl1.2 _ hm)
        refine ⟨?_, ?_, fun m hm hw hs => ?_⟩
        · simp [writtenOut, Chunk.writtenOut, ChunkVariant.writtenOut, displayChunks_cons, Ast1.displayChunks_cons, r1, Chunk.display, ChunkVariant.display, Ast1.Chunk.display, Ast1.ChunkVariant.display, Command.writtenOut, Ast1.Command.display, Command.display, displayArgs_written hargs]
        · refine .other ?_ r2
          rintro ⟨_, _, h, h'⟩
          cases h
          rcases h' with h' | h'
          · exact hd1.1.1 h'
          · exact hd1.1.2 h'
        · have hit := items_convert hargs (fun p inner sv hm' =>
            (SubC.cons.1 hs).1.2 label _ p _ sv rfl (mem_writtenOutArgs hm'))
          have := Converts.command (l := l) hd1.1.1 hd1.1.2 hit
            (r3 _ (Nat.le_add_right_of_le hm) (WN.tail hw) (SubC.cons.1 hs).2)
          simp only [argItems_fst, commandOutcome, argItems_ok, Outcome.after] at this
          exact this
      | environment env =>
        obtain ⟨label, args, content, pb, pe⟩ := env
        simp only [Ast3.sizeChunk, Ast3.sizeVariant, Ast3.sizeEnvironment] at hn
        have hargs : ∀ p inner sv, (p, Scope.mk inner sv) ∈ args → WrBack inner := by
          intro p inner sv hm
          have := Ast3.sizeArgs_mem hm
          exact ih inner (by omega) ((allArgs_iff_forall _).1 hd1.2.1 _ hm) ((allArgs_iff_forall _).1 hl1.2.1 _ hm)
        obtain ⟨b1, b2, b3⟩ := ih content (by omega) hd1.2.2 hl1.2.2
        obtain ⟨lab, hlab, hlab'⟩ := hl1.1
        have hrl : readLabel label = lab := by simp [readLabel, hlab]
        have hda := displayArgs_written hargs
        refine ⟨?_, ?_, fun m hm hw hs => ?_⟩
        · simp [writtenOut, Chunk.writtenOut, ChunkVariant.writtenOut, displayChunks_cons, Ast1.displayChunks_cons, r1, Chunk.display, ChunkVariant.display, Ast1.Chunk.display, Ast1.ChunkVariant.display, Environment.writtenOut, Ast1.Command.display, Environment.display, hda, display_map_later, b1, hrl, hlab', Ast1.displayArgs, Ast1.Scope.display, ScopeVariant.opening, ScopeVariant.closing]
        · have : Matched (_ :: (_ ++ _ :: _)) := Matched.env (lab := lab)
            (b := .mk (l - (pb ++ label ++ displayArgs args).count '\n')
              (.command (.mk chars!"begin" ((pb, .mk (readLabel label) .curly) :: writtenOutArgs args))))
            (e := .mk (l + (displayChunks content).count '\n') (.command (.mk chars!"end" [(pe, .mk (readLabel label) .curly)])))
            (rest := writtenOut e)
            ⟨pb, writtenOutArgs args, by rw [hrl]; rfl⟩ (matched_later (k := l - 1) b2) ⟨pe, by rw [hrl]; rfl⟩ r2
          simpa [writtenOut, Chunk.writtenOut, ChunkVariant.writtenOut, Environment.writtenOut] using this
        · have heq : writtenOut (.mk l (.environment (.mk label args content pb pe)) :: e) =
              .mk (l - (pb ++ label ++ displayArgs args).count '\n')
                (.command (.mk chars!"begin" ((pb, .mk lab .curly) :: (argItems args).map (·.1)))) ::
              ((writtenOut content).map (later (l - 1)) ++
                .mk (l + (displayChunks content).count '\n') (.command (.mk chars!"end" [(pe, .mk lab .curly)])) ::
                writtenOut e) := by
            simp [writtenOut, Chunk.writtenOut, ChunkVariant.writtenOut, Environment.writtenOut, hrl, argItems_fst]
          rw [heq] at hw hs ⊢
          have hs1 := SubC.cons.1 hs
          have hs2 := SubC.append.1 hs1.2
          have hs3 := SubC.cons.1 hs2.2
          have hit := items_convert hargs (fun p inner sv hm' =>
            hs1.1.2 _ _ p _ sv rfl (by rw [argItems_fst]; exact List.mem_cons_of_mem _ (mem_writtenOutArgs hm')))
          have hcnt : (Ast1.displayArgs ((pb, .mk lab .curly) :: (argItems args).map (·.1))).count '\n' =
              (pb ++ label ++ displayArgs args).count '\n' := by
            simp [argItems_fst, Ast1.displayArgs, Ast1.Scope.display, hlab', hda, List.count_append, ScopeVariant.opening, ScopeVariant.closing]
          have hl0 : m = l - (pb ++ label ++ displayArgs args).count '\n' := by
            have := (hw [] _ _ _ rfl).2 _ _ rfl (.inl rfl)
            simpa [Ast1.displayChunks] using this.symm
          have hle : endOfBegin (l - (pb ++ label ++ displayArgs args).count '\n')
              ((pb, .mk lab .curly) :: (argItems args).map (·.1)) = l := by
            unfold endOfBegin; rw [hcnt]; omega
          have hw1 := hw.tail
          have hcnt2 : (Ast1.ChunkVariant.display (.command (.mk chars!"begin" ((pb, .mk lab .curly) :: (argItems args).map (·.1))))).count '\n' =
              (Ast1.displayArgs ((pb, .mk lab .curly) :: (argItems args).map (·.1))).count '\n' := by
            simp [Ast1.ChunkVariant.display, Ast1.Command.display]
          rw [hcnt2, hcnt, show m + (pb ++ label ++ displayArgs args).count '\n' = l by omega] at hw1
          have hbody := hw1.take
          have hre := renumber_later (k := l) (by omega) hbody
          have hwc : WN 1 (writtenOut content) := by rw [← hre]; exact hbody.renumber
          have hsc : SubC (writtenOut content) := by rw [← hre]; exact hs2.1.renumber
          have hcc := b3 1 (Nat.le_refl _) hwc hsc
          rw [← hre] at hcc
          have := Converts.environment (l := l - (pb ++ label ++ displayArgs args).count '\n') (p := pb) (lab := lab)
            (l' := l + (displayChunks content).count '\n') (pe := pe)
            (matched_later (k := l - 1) b2) hit (by rw [hle]; exact hcc)
            (r3 _ (by omega) (hw1.drop).tail hs3.2)
          simpa only [hle, environmentOutcome, argItems_ok, Outcome.after, hlab'] using this

theorem canonical_iff (e : Document) : Canonical e ↔ ∃ d, Ast1.Canonical d ∧ Converts d (.ok e) := by
  constructor
  · rintro ⟨h1, h2, h3⟩
    have hd : AllChunks NotDelim e := (allChunks_iff _).2 fun v hv => by
      cases v with
      | command c => obtain ⟨label, args⟩ := c; exact h1 _ _ hv
      | text | scope | environment => trivial
    have hl : AllChunks LabelV e := (allChunks_iff _).2 fun v hv => by
      cases v with
      | environment c => obtain ⟨label, args, content, pb, pe⟩ := c; exact h2 _ _ _ _ _ hv
      | text | scope | command => trivial
    exact ⟨_, h3, (to_converts _ e (Nat.le_refl _) hd hl).2.2 1 (Nat.le_refl _) (wn_of_canonical h3) (subC_of_canonical h3)⟩
  · rintro ⟨d, hd, hc⟩
    obtain ⟨h1, h2, h3⟩ := from_converts hc 1 (Nat.le_refl _) (wn_of_canonical hd) (subC_of_canonical hd) e rfl
    have hp := Ast1.C03 d hd
    have := (C53_parsed _ d hp).1 e |>.2 hc
    obtain ⟨d', hd', ht⟩ := fromStr_parts this
    refine ⟨fun label args hw => C22 d' e ht label args hw, fun label args content pb pe hw => ?_, by rw [h1]; exact hd⟩
    exact (allChunks_iff _).1 h2 _ hw

end LatexAst.Ast2
