import Verif.Proofs.MachineBack3
import Verif.Proofs.BackLines
import Verif.Proofs.Errors3
import Verif.Proofs.Machine3
import Verif.Props.BackLines

/-! How large the line numbers get in the conversions back. -/

namespace LatexAst.Ast1

theorem LinesBelow.nil {B} : LinesBelow B [] := by
  intro k lv hl l v hm
  cases k with
  | zero => cases hl; cases hm
  | succ k =>
    obtain ⟨inner, _, h2⟩ := levelAt_head hl
    rcases h2 with ⟨_, _, h⟩ | ⟨_, _, _, _, _, h, _⟩ <;> cases h

theorem LinesBelow.append {B a b} (ha : LinesBelow B a) (hb : LinesBelow B b) : LinesBelow B (a ++ b) := by
  intro k lv hl l v hm
  cases k with
  | zero =>
    cases hl
    rcases List.mem_append.1 hm with h | h
    · exact ha 0 _ .top l v h
    · exact hb 0 _ .top l v h
  | succ k =>
    obtain ⟨inner, h1, h2⟩ := levelAt_head hl
    rcases h2 with ⟨l', sv, h2⟩ | ⟨l', lab, args, p, sv, h2, h3⟩
    · rcases List.mem_append.1 h2 with h | h
      · exact ha _ _ (levelAt_scope h h1) l v hm
      · exact hb _ _ (levelAt_scope h h1) l v hm
    · rcases List.mem_append.1 h2 with h | h
      · exact ha _ _ (levelAt_arg h h3 h1) l v hm
      · exact hb _ _ (levelAt_arg h h3 h1) l v hm

theorem LinesBelow.one {B l v} (hl : l < B) (hs : ∀ inner sv, v = .scope (.mk inner sv) → LinesBelow B inner)
    (ha : ∀ label args, v = .command (.mk label args) → ArgsBelow B args) : LinesBelow B [.mk l v] := by
  intro k lv h l' v' hm
  cases k with
  | zero =>
    cases h
    cases hm with
    | head => exact hl
    | tail _ h => cases h
  | succ k =>
    obtain ⟨inner, h1, h2⟩ := levelAt_head h
    rcases h2 with ⟨l2, sv, h2⟩ | ⟨l2, lab, args, p, sv, h2, h3⟩
    · simp only [List.mem_singleton, Chunk.mk.injEq] at h2
      exact hs _ _ h2.2.symm _ _ h1 _ _ hm
    · simp only [List.mem_singleton, Chunk.mk.injEq] at h2
      exact ha _ _ h2.2.symm _ _ _ h3 _ _ h1 _ _ hm

theorem LinesBelow.mono {B B' d} (h : LinesBelow B d) (hb : B ≤ B') : LinesBelow B' d :=
  fun k lv hl l v hm => Nat.lt_of_lt_of_le (h k lv hl l v hm) hb

theorem argsBelow_withInner {B : Nat} {items : List ((Str × Scope) × List Chunk)} (h : ∀ x ∈ items, LinesBelow B x.2) :
    ArgsBelow B (withInner items) := by
  induction items with
  | nil => intro p inner sv hm; cases hm
  | cons x items ih =>
    obtain ⟨⟨p, sc⟩, cs⟩ := x
    intro p' inner sv hm
    simp only [withInner] at hm
    rcases List.mem_cons.1 hm with h' | h'
    · cases h'; exact h _ (.head _)
    · exact ih (fun x hx => h x (.tail _ hx)) _ _ _ h'

theorem display_item {items : List ((Str × Scope) × List Chunk)} {x} (hx : x ∈ items) :
    (displayChunks x.1.2.chunks).length ≤ (displayArgs (items.map (·.1))).length := by
  induction items with
  | nil => cases hx
  | cons y items ih =>
    obtain ⟨⟨p, ⟨cs, sv⟩⟩, c⟩ := y
    simp only [List.map_cons, displayArgs, List.length_append]
    cases hx with
    | head => simp only [Scope.chunks, Scope.display, List.length_cons, List.length_append]; omega
    | tail _ h => have := ih h; omega

theorem Displaced.linesBelow {B K : Nat} {d d'} (h : Displaced d d') (hb : LinesBelow B d) (hk : (displayChunks d).length ≤ K) :
    LinesBelow (B + K) d' := by
  induction h with
  | nil => exact .nil
  | @text l t cs ds _ ih =>
    have := hb 0 _ .top _ _ (.head _)
    refine LinesBelow.append (a := [_]) (.one (by omega) (by intro _ _ h; cases h) (by intro _ _ h; cases h)) (ih (hb.right (a := [_])) ?_)
    simp only [displayChunks, List.length_append] at hk; omega
  | @scope l inner inner' sv cs ds _ _ ih1 ih2 =>
    have := hb 0 _ .top _ _ (.head _)
    simp only [displayChunks, Chunk.display, ChunkVariant.display, Scope.display, List.length_append, List.length_cons] at hk
    refine LinesBelow.append (a := [_]) (.one (by omega) ?_ (by intro _ _ h; cases h)) (ih2 (hb.right (a := [_])) (by omega))
    intro i s h; cases h
    exact ih1 (hb.scope (.head _)) (by omega)
  | @command l label cs ds items h1 h2 _ _ ih1 ih2 =>
    have := hb 0 _ .top _ _ (.head _)
    simp only [displayChunks, Chunk.display, ChunkVariant.display, Command.display, List.length_append, List.length_cons] at hk
    refine LinesBelow.append (a := [_]) (.one (by omega) (by intro _ _ h; cases h) ?_) (ih2 (hb.right (a := [_])) (by omega))
    intro lab args h; cases h
    refine argsBelow_withInner fun x hx => ih1 x hx ?_ ?_
    · obtain ⟨⟨p, ⟨cs, sv⟩⟩, c⟩ := x
      exact hb.args (.head _) p cs sv (List.mem_map.2 ⟨_, hx, rfl⟩)
    · have := display_item hx; omega
  | @environment l p lab body body' l' pe cs ds k items h1 _ _ _ hk' ih1 ih2 ih3 =>
    have g1 := hb 0 _ .top _ _ (.head _)
    have g2 := hb 0 _ .top l' _ (.tail _ (List.mem_append_right _ (.head _)))
    have hkk : k ≤ (displayArgs ((p, .mk lab .curly) :: items.map (·.1))).length := by rw [hk']; exact List.count_le_length
    simp only [displayChunks, displayChunks_append, Chunk.display, ChunkVariant.display, Command.display, List.length_append, List.length_cons] at hk
    have hlab : LinesBelow (B + K) lab := (hb.args (.head _) p lab .curly (.head _)).mono (by omega)
    have hitems : ∀ x ∈ items, LinesBelow (B + K) x.2 := by
      intro x hx
      refine ih1 x hx ?_ ?_
      · obtain ⟨⟨p', ⟨cs, sv⟩⟩, c⟩ := x
        exact hb.args (.head _) p' cs sv (.tail _ (List.mem_map.2 ⟨_, hx, rfl⟩))
      · have := display_item hx
        simp only [displayArgs, List.length_append] at hk
        omega
    refine LinesBelow.append (a := [_]) (.one (by omega) (by intro _ _ h; cases h) ?_)
      (.append (ih2 (hb.sub fun c hc => .tail _ (List.mem_append_left _ hc)) (by omega))
        (LinesBelow.append (a := [_]) (.one (by omega) (by intro _ _ h; cases h) ?_)
          (ih3 (hb.sub fun c hc => .tail _ (List.mem_append_right _ (.tail _ hc))) (by omega))))
    · intro label args h; cases h
      intro p' inner sv hm
      rcases List.mem_cons.1 hm with h | h
      · cases h; exact hlab
      · exact argsBelow_withInner hitems _ _ _ h
    · intro label args h; cases h
      intro p' inner sv hm
      simp only [List.mem_singleton, Prod.mk.injEq, Scope.mk.injEq] at hm
      obtain ⟨_, rfl, _⟩ := hm
      exact hlab

end LatexAst.Ast1

namespace LatexAst.Ast1

theorem LevelAt.level {d k lv} (h : LevelAt d k lv) : Level d lv := by
  induction h with
  | top => exact .top
  | scope _ hm ih => exact .scope ih hm
  | arg _ hm ha ih => exact .arg ih hm ha

theorem newlines_mem {cs : List Chunk} {c} (h : c ∈ cs) : newlines c.display ≤ newlines (displayChunks cs) := by
  induction cs with
  | nil => cases h
  | cons a cs ih =>
    simp only [displayChunks, newlines_append]
    cases h with
    | head => omega
    | tail _ h => have := ih h; omega

theorem newlines_arg {args : List (Str × Scope)} {p sc} (h : (p, sc) ∈ args) : newlines sc.display ≤ newlines (displayArgs args) := by
  induction args with
  | nil => cases h
  | cons a args ih =>
    obtain ⟨q, sc'⟩ := a
    simp only [displayArgs, newlines_append]
    rcases List.mem_cons.1 h with h | h
    · cases h; omega
    · have := ih h; omega

theorem newlines_cons_le (c : Char) (s : Str) : newlines s ≤ newlines (c :: s) := by
  rw [show c :: s = [c] ++ s from rfl, newlines_append]; omega

theorem newlines_inner (inner sv) : newlines (displayChunks inner) ≤ newlines (Scope.mk inner sv).display := by
  simp only [Scope.display, newlines, List.filter_append, List.filter_cons, List.length_append]
  split <;> simp <;> omega

theorem newlines_level {d k lv} (h : LevelAt d k lv) : newlines (displayChunks lv) ≤ newlines (displayChunks d) := by
  induction h with
  | top => exact Nat.le_refl _
  | @scope k cs l inner sv _ hm ih =>
    have h1 := newlines_mem hm
    simp only [Chunk.display, ChunkVariant.display] at h1
    have h2 := newlines_inner inner sv
    omega
  | @arg k cs l label args p inner sv _ hm ha ih =>
    have h1 := newlines_mem hm
    have h0 := newlines_arg ha
    simp only [Chunk.display, ChunkVariant.display, Command.display] at h1
    have h2 := newlines_inner inner sv
    have h4 := newlines_cons_le '\\' (label ++ displayArgs args)
    have h5 : newlines (displayArgs args) ≤ newlines (label ++ displayArgs args) := by rw [newlines_append]; omega
    omega

/-- Line numbers of a parsed document. -/
theorem below_parsed {s d} (h : fromStr s = .ok d) : LinesBelow (s.length + 2) d := by
  intro k lv hl l v hm
  obtain ⟨pre, post, he⟩ := List.append_of_mem hm
  obtain ⟨h1, h2, h3⟩ := C06_partial s d h lv hl.level pre post _ he
  have h4 := newlines_level hl
  have h5 : newlines (displayChunks lv) = newlines (displayChunks pre) + (newlines (Chunk.mk l v).display + newlines (displayChunks post)) := by
    rw [he, displayChunks_append]; simp [displayChunks]
  have h6 := newlines_fromStr h
  have h7 : newlines s ≤ s.length := List.length_filter_le _ _
  simp only [← newlines_eq_count, Chunk.lineNo, Chunk.variant] at h1 h2 h3
  by_cases hc : ∃ args, v = .command (.mk ['\n'] args)
  · have := h1 hc
    obtain ⟨args, rfl⟩ := hc
    have h8 : 1 ≤ newlines (Chunk.mk l (.command (.mk ['\n'] args))).display := by
      simp only [Chunk.display, ChunkVariant.display, Command.display]
      simp [newlines, List.filter_cons]
    omega
  · by_cases ht : ∃ t, v = .text t ∧ post = [] ∧ Spec.Blank t ∧ EndsWithLetterCommand pre
    · obtain ⟨t, rfl, hp, hb, hlc⟩ := ht
      have := h2 t rfl hp hb hlc
      simp only [Chunk.display, ChunkVariant.display] at h5
      omega
    · have := h3 hc ht
      omega

end LatexAst.Ast1

namespace LatexAst.Ast2

theorem LinesBelow.mono {B B' d} (h : LinesBelow B d) (hb : B ≤ B') : LinesBelow B' d :=
  fun k lv hl l v hm => Nat.lt_of_lt_of_le (h k lv hl l v hm) hb

theorem LinesBelow.append {B a b} (ha : LinesBelow B a) (hb : LinesBelow B b) : LinesBelow B (a ++ b) := by
  refine .of_children (fun l v hm => ?_) fun inner hc => ?_
  · rcases List.mem_append.1 hm with h | h
    · exact ha 0 _ .top l v h
    · exact hb 0 _ .top l v h
  · cases hc with
    | scope hm => rcases List.mem_append.1 hm with h | h; exact ha.child (.scope h); exact hb.child (.scope h)
    | arg hm h' => rcases List.mem_append.1 hm with h | h; exact ha.child (.arg h h'); exact hb.child (.arg h h')
    | envArg hm h' => rcases List.mem_append.1 hm with h | h; exact ha.child (.envArg h h'); exact hb.child (.envArg h h')
    | envContent hm => rcases List.mem_append.1 hm with h | h; exact ha.child (.envContent h); exact hb.child (.envContent h)

/-- Shifted, wrapped: the lines at the top are anything less than `B`, the children are those of another list. -/
theorem LinesBelow.children {B a b} (ht : ∀ l v, Chunk.mk l v ∈ a → l < B) (hc : ∀ inner, Child2 a inner → Child2 b inner)
    (hb : LinesBelow B b) : LinesBelow B a := .of_children ht fun inner h => hb.child (hc inner h)

end LatexAst.Ast2

namespace LatexAst.Ast3
open Ast2 (Child2)

theorem NestedAtMost.child {n d inner} (h : NestedAtMost n d) (hc : Child3 d inner) : ∃ m, n = m + 1 ∧ NestedAtMost m inner := by
  have := h 1 inner (levelAt_child hc .top)
  obtain ⟨m, rfl⟩ : ∃ m, n = m + 1 := ⟨n - 1, by omega⟩
  refine ⟨m, rfl, fun k lv hl => ?_⟩
  have := h (k + 1) lv (levelAt_child hc hl)
  omega

theorem NestedAtMost.sub {n a b} (h : NestedAtMost n b) (hs : ∀ c ∈ a, c ∈ b) : NestedAtMost n a := by
  intro k lv hl
  cases k with
  | zero => omega
  | succ k =>
    obtain ⟨inner, h1, h2⟩ := levelAt_head hl
    exact h _ _ (levelAt_child (child3_sub h2 hs) h1)

theorem NestedAtMost.mono {n m d} (h : NestedAtMost n d) (hm : n ≤ m) : NestedAtMost m d := fun k lv hl => Nat.le_trans (h k lv hl) hm

/-- The chunks of the result: those of the content, text possibly replaced, and chunks without children at small lines. -/
theorem wrap_mem (v t n cs) {l w} (h : Ast2.Chunk.mk l w ∈ wrapMaths v t n cs) :
    (∃ w', Ast2.Chunk.mk l w' ∈ cs ∧ (w' = w ∨ ∃ x, w = .text x)) ∨ (l ≤ max 1 n ∧ ((∃ x, w = .text x) ∨ ∃ lab, w = .command (.mk lab []))) := by
  cases v with
  | brackets =>
    cases t <;>
    · simp only [wrapMaths, List.cons_append, List.nil_append, List.mem_cons, List.mem_append, List.not_mem_nil, or_false,
        Ast2.Chunk.mk.injEq] at h
      rcases h with ⟨rfl, rfl⟩ | h | ⟨rfl, rfl⟩
      · exact .inr ⟨by omega, .inr ⟨_, rfl⟩⟩
      · exact .inl ⟨_, h, .inl rfl⟩
      · exact .inr ⟨by omega, .inr ⟨_, rfl⟩⟩
  | dollars =>
    simp only [wrapMaths] at h
    split at h
    · simp only [List.mem_singleton, Ast2.Chunk.mk.injEq] at h
      obtain ⟨rfl, rfl⟩ := h
      exact .inr ⟨by omega, .inl ⟨_, rfl⟩⟩
    · have hp : ∀ l w, Ast2.Chunk.mk l w ∈ prependDollars (dollars t) cs →
          (∃ w', Ast2.Chunk.mk l w' ∈ cs ∧ (w' = w ∨ ∃ x, w = .text x)) ∨ (l ≤ max 1 n ∧ ((∃ x, w = .text x) ∨ ∃ lab, w = .command (.mk lab []))) := by
        intro l w h
        unfold prependDollars at h
        split at h
        · rcases List.mem_cons.1 h with h | h
          · cases h; exact .inl ⟨_, .head _, .inr ⟨_, rfl⟩⟩
          · exact .inl ⟨_, .tail _ h, .inl rfl⟩
        · rcases List.mem_cons.1 h with h | h
          · cases h; exact .inr ⟨by omega, .inl ⟨_, rfl⟩⟩
          · exact .inl ⟨_, h, .inl rfl⟩
      unfold appendDollars at h
      split at h
      next l' s' hg =>
        obtain ⟨ys, hys⟩ := List.getLast?_eq_some_iff.1 hg
        rw [hys, List.dropLast_concat] at h
        rw [hys] at hp
        rcases List.mem_append.1 h with h | h
        · exact hp _ _ (List.mem_append_left _ h)
        · simp only [List.mem_singleton, Ast2.Chunk.mk.injEq] at h
          obtain ⟨rfl, rfl⟩ := h
          rcases hp l (.text s') (List.mem_append_right _ (.head _)) with ⟨w', h1, h2⟩ | ⟨h1, _⟩
          · exact .inl ⟨w', h1, .inr ⟨_, rfl⟩⟩
          · exact .inr ⟨h1, .inl ⟨_, rfl⟩⟩
      · rcases List.mem_append.1 h with h | h
        · exact hp _ _ h
        · simp only [List.mem_singleton, Ast2.Chunk.mk.injEq] at h
          obtain ⟨rfl, rfl⟩ := h
          exact .inr ⟨by omega, .inl ⟨_, rfl⟩⟩

theorem wrap_child {v t n cs k inner} (h : Child2 ((wrapMaths v t n cs).map (Ast2.Chunk.shift k)) inner) : Child2 cs inner := by
  have key : ∀ {l w}, Ast2.Chunk.mk l w ∈ (wrapMaths v t n cs).map (Ast2.Chunk.shift k) → (∀ x, w ≠ .text x) →
      (∀ lab, w ≠ .command (.mk lab [])) → ∃ l', Ast2.Chunk.mk l' w ∈ cs := by
    intro l w hm h1 h2
    obtain ⟨⟨l', w'⟩, hm', he⟩ := List.mem_map.1 hm
    simp only [Ast2.Chunk.shift, Ast2.Chunk.mk.injEq] at he
    obtain ⟨_, rfl⟩ := he
    rcases wrap_mem _ _ _ _ hm' with ⟨w2, h3, rfl | ⟨x, h4⟩⟩ | ⟨_, ⟨x, h4⟩ | ⟨x, h4⟩⟩
    · exact ⟨l', h3⟩
    · exact absurd h4 (h1 x)
    · exact absurd h4 (h1 x)
    · exact absurd h4 (h2 x)
  cases h with
  | scope hm => obtain ⟨l', h⟩ := key hm (by intro _ h; cases h) (by intro _ h; cases h); exact .scope h
  | arg hm ha =>
    obtain ⟨l', h⟩ := key hm (by intro _ h; cases h) (by intro _ h; cases h; cases ha)
    exact .arg h ha
  | envArg hm ha => obtain ⟨l', h⟩ := key hm (by intro _ h; cases h) (by intro _ h; cases h); exact .envArg h ha
  | envContent hm => obtain ⟨l', h⟩ := key hm (by intro _ h; cases h) (by intro _ h; cases h); exact .envContent h

end LatexAst.Ast3

namespace LatexAst.Ast3
open Ast2 (Child2)

/-- The bound: every level adds at most the largest line number. -/
def far (n M L : Nat) : Nat := (n + 1) * M + L + 2

theorem far_succ (n M L : Nat) : far (n + 1) M L = far n M L + M := by
  simp only [far, Nat.add_mul, Nat.one_mul]; omega

theorem far_top {n M L l : Nat} (h : l ≤ M) : l < far n M L := by
  simp only [far, Nat.add_mul, Nat.one_mul]; omega

theorem linesBelow_one {B l v} (hl : l < B) (hc : ∀ inner, Child2 [.mk l v] inner → Ast2.LinesBelow B inner) : Ast2.LinesBelow B [.mk l v] := by
  refine .of_children (fun l' v' hm => ?_) hc
  simp only [List.mem_singleton, Ast2.Chunk.mk.injEq] at hm
  omega

variable {M L : Nat}

mutual
theorem intoVariant_far : ∀ (v : ChunkVariant) (line n : Nat) (r : List Ast2.Chunk), intoVariant line v = .ok r →
    LinesBelow (M + 1) [.mk line v] → NestedAtMost n [.mk line v] → v.display.length ≤ L → Ast2.LinesBelow (far n M L) r
  | .text s, line, n, r, h, hi, hn, hd => by
    rw [intoVariant] at h; cases h
    have hline := hi 0 _ .top _ _ (.head _)
    exact linesBelow_one (far_top (by omega)) fun inner hc => (child_text hc).elim
  | .paragraphBreak s, line, n, r, h, hi, hn, hd => by
    rw [intoVariant] at h; cases h
    have hline := hi 0 _ .top _ _ (.head _)
    exact linesBelow_one (far_top (by omega)) fun inner hc => (child_text hc).elim
  | .scope (.mk chunks sv), line, n, r, h, hi, hn, hd => by
    rw [intoVariant, intoScope] at h
    have hline := hi 0 _ .top _ _ (.head _)
    cases hx : intoChunks chunks with
    | error f => rw [hx] at h; cases h
    | ok y =>
      rw [hx] at h
      cases h
      obtain ⟨m, rfl, hm⟩ := hn.child (.scope (.head _))
      refine linesBelow_one (far_top (by omega)) fun inner hc => ?_
      simp only [ChunkVariant.display, Scope.display, List.length_cons, List.length_append] at hd
      have h1 := intoChunks_far chunks m y hx (hi.child (.scope (.head _))) hm (by omega)
      cases hc with
      | scope hm =>
        simp only [List.mem_singleton, Ast2.Chunk.mk.injEq, Ast2.ChunkVariant.scope.injEq, Ast2.Scope.mk.injEq] at hm
        rw [hm.2.1]
        exact h1.mono (by rw [far_succ]; omega)
      | arg hm _ => simp at hm
      | envArg hm _ => simp at hm
      | envContent hm => simp at hm
  | .command (.mk label args), line, n, r, h, hi, hn, hd => by
    rw [intoVariant, intoCommand] at h
    have hline := hi 0 _ .top _ _ (.head _)
    cases hx : intoArgs args with
    | error f => rw [hx] at h; cases h
    | ok y =>
      rw [hx] at h
      cases h
      refine linesBelow_one (far_top (by omega)) fun inner hc => ?_
      simp only [ChunkVariant.display, Command.display, List.length_cons, List.length_append] at hd
      have h1 := intoArgs_far args n y hx (fun p inner sv hm => hi.child (.arg (.head _) hm))
        (fun p inner sv hm => hn.child (.arg (.head _) hm)) (by omega)
      cases hc with
      | arg hm ha =>
        simp only [List.mem_singleton, Ast2.Chunk.mk.injEq, Ast2.ChunkVariant.command.injEq, Ast2.Command.mk.injEq] at hm
        rw [hm.2.2] at ha
        exact h1 _ _ _ ha
      | scope hm => simp at hm
      | envArg hm _ => simp at hm
      | envContent hm => simp at hm
  | .environment (.mk label args content pb pe), line, n, r, h, hi, hn, hd => by
    rw [intoVariant, intoEnvironment] at h
    have hline := hi 0 _ .top _ _ (.head _)
    cases hx : intoArgs args with
    | error f => rw [hx] at h; cases h
    | ok y =>
      rw [hx] at h
      cases hy : intoChunks content with
      | error f => rw [hy] at h; cases h
      | ok z =>
        rw [hy] at h
        cases h
        refine linesBelow_one (far_top (by omega)) fun inner hc => ?_
        simp only [ChunkVariant.display, Environment.display, List.length_cons, List.length_append] at hd
        have h1 := intoArgs_far args n y hx (fun p inner sv hm => hi.child (.envArg (.head _) hm))
          (fun p inner sv hm => hn.child (.envArg (.head _) hm)) (by omega)
        obtain ⟨m, rfl, hm⟩ := hn.child (.envContent (.head _))
        have h2 := intoChunks_far content m z hy (hi.child (.envContent (.head _))) hm (by omega)
        cases hc with
        | envArg hm ha =>
          simp only [List.mem_singleton, Ast2.Chunk.mk.injEq, Ast2.ChunkVariant.environment.injEq, Ast2.Environment.mk.injEq] at hm
          rw [hm.2.2.1] at ha
          exact h1 _ _ _ ha
        | envContent hm =>
          simp only [List.mem_singleton, Ast2.Chunk.mk.injEq, Ast2.ChunkVariant.environment.injEq, Ast2.Environment.mk.injEq] at hm
          rw [hm.2.2.2.1]
          exact h2.mono (by rw [far_succ]; omega)
        | scope hm => simp at hm
        | arg hm _ => simp at hm
  | .mathsBlock (.mk v t content), line, n, r, h, hi, hn, hd => by
    rw [intoVariant, intoMaths] at h
    have hline := hi 0 _ .top _ _ (.head _)
    cases hx : intoChunks content with
    | error f => rw [hx] at h; cases h
    | ok cs =>
      rw [hx] at h
      simp only at h
      split at h
      · cases h
      next hz =>
        cases h
        obtain ⟨m, rfl, hm⟩ := hn.child (.maths (.head _))
        have hnl := Ast2.newlines_le (displayChunks content)
        have hs := linesSum_eq content
        simp only [ChunkVariant.display, MathsBlock.display, List.length_append] at hd
        have h1 := intoChunks_far content m cs hx (hi.child (.maths (.head _))) hm (by omega)
        refine .of_children ?_ fun inner hc => (h1.child (wrap_child hc)).mono (by rw [far_succ]; omega)
        intro l w hmem
        obtain ⟨⟨l', w'⟩, hm', he⟩ := List.mem_map.1 hmem
        simp only [Ast2.Chunk.shift, Ast2.Chunk.mk.injEq] at he
        obtain ⟨rfl, rfl⟩ := he
        rw [far_succ]
        rcases wrap_mem _ _ _ _ hm' with ⟨w2, h3, _⟩ | ⟨h3, _⟩
        · have := h1 0 _ .top _ _ h3
          omega
        · simp only [far]
          omega
theorem intoChunks_far : ∀ (cs : List Chunk) (n : Nat) (r : List Ast2.Chunk), intoChunks cs = .ok r →
    LinesBelow (M + 1) cs → NestedAtMost n cs → (displayChunks cs).length ≤ L → Ast2.LinesBelow (far n M L) r
  | [], n, r, h, hi, hn, hd => by
    rw [intoChunks] at h; cases h
    refine .of_children (fun l v hm => by cases hm) fun inner hc => ?_
    cases hc <;> contradiction
  | .mk l v :: cs, n, r, h, hi, hn, hd => by
    rw [intoChunks] at h
    simp only [displayChunks, Chunk.display, List.length_append] at hd
    cases hx : intoVariant l v with
    | error f => rw [hx] at h; cases h
    | ok xs =>
      rw [hx] at h
      simp only at h
      cases hy : intoChunks cs with
      | error f => rw [hy] at h; cases h
      | ok ys =>
        rw [hy] at h
        cases h
        have hsub : ∀ c ∈ [Chunk.mk l v], c ∈ Chunk.mk l v :: cs := fun c hc => by
          cases hc with | head => exact .head _ | tail _ h => cases h
        exact .append (intoVariant_far v l n xs hx (hi.sub hsub) (hn.sub hsub) (by omega))
          (intoChunks_far cs n ys hy (hi.sub fun c hc => .tail _ hc) (hn.sub fun c hc => .tail _ hc) (by omega))
theorem intoArgs_far : ∀ (args : List (Str × Scope)) (n : Nat) (r : List (Str × Ast2.Scope)), intoArgs args = .ok r →
    ArgsBelow (M + 1) args → (∀ p inner sv, (p, Scope.mk inner sv) ∈ args → ∃ m, n = m + 1 ∧ NestedAtMost m inner) →
    (displayArgs args).length ≤ L → Ast2.ArgsBelow (far n M L) r
  | [], n, r, h, hi, hn, hd => by rw [intoArgs] at h; cases h; intro p inner sv hm; cases hm
  | (prec, .mk chunks sv) :: args, n, r, h, hi, hn, hd => by
    rw [intoArgs, intoScope] at h
    simp only [displayArgs, Scope.display, List.length_append, List.length_cons] at hd
    cases hx : intoChunks chunks with
    | error f => rw [hx] at h; cases h
    | ok s =>
      rw [hx] at h
      simp only at h
      cases hy : intoArgs args with
      | error f => rw [hy] at h; cases h
      | ok ys =>
        rw [hy] at h
        cases h
        obtain ⟨m, hm, hm'⟩ := hn _ _ _ (.head _)
        have h1 := intoChunks_far chunks m s hx (hi _ _ _ (.head _)) hm' (by omega)
        have h2 := intoArgs_far args n ys hy (fun p inner sv hm => hi p inner sv (.tail _ hm)) (fun p inner sv hm => hn p inner sv (.tail _ hm)) (by omega)
        intro p inner sv' hmem
        rcases List.mem_cons.1 hmem with h | h
        · cases h
          exact h1.mono (by rw [hm, far_succ]; omega)
        · exact h2 _ _ _ h
end

end LatexAst.Ast3
