import Verif.Proofs.ForthBack2
import Verif.Props.Exact

/-! When going to stage 1 and back to stage 2 panics. -/

namespace LatexAst.Ast2
open Ast1 (Opened Matched)

/-- The content of an environment is below the end of its `\begin`. -/
def LowV : ChunkVariant → Prop
  | .environment (.mk label args content pb _) => ∀ c ∈ content, (pb ++ label ++ displayArgs args).count '\n' < c.lineNo
  | _ => True

def Finishes (e : List Chunk) (d : List Ast1.Chunk) : Prop :=
  Matched d ∧ ∃ r, Meets d r ∧ ((AllChunks LowV e ∧ ∃ e', r = .ok e') ∨ (¬ AllChunks LowV e ∧ r = .error .panic))

theorem finishes_text {l t e d} (h : Finishes e d) (m : Nat) : Finishes (.mk l (.text t) :: e) (.mk m (.text t) :: d) := by
  obtain ⟨h1, r, h2, h3⟩ := h
  refine ⟨.other (by rintro ⟨_, _, h, _⟩; cases h) h1, _, .text h2, ?_⟩
  simp only [AllChunks, Chunk.All, ChunkVariant.All, LowV, true_and]
  rcases h3 with ⟨h3, e', rfl⟩ | ⟨h3, rfl⟩
  · exact .inl ⟨h3, _, rfl⟩
  · exact .inr ⟨h3, rfl⟩

theorem finishes_scope {l inner sv e m inner' d} (h : Finishes inner inner') (h' : Finishes e d) :
    Finishes (.mk l (.scope (.mk inner sv)) :: e) (.mk m (.scope (.mk inner' sv)) :: d) := by
  obtain ⟨h1, r, h2, h3⟩ := h
  obtain ⟨h1', r', h2', h3'⟩ := h'
  refine ⟨.other (by rintro ⟨_, _, h, _⟩; cases h) h1', _, .scope h2 h2', ?_⟩
  simp only [AllChunks, Chunk.All, ChunkVariant.All, LowV, Scope.All, true_and]
  rcases h3 with ⟨h3, e1, rfl⟩ | ⟨h3, rfl⟩
  · rcases h3' with ⟨h3', e2, rfl⟩ | ⟨h3', rfl⟩
    · exact .inl ⟨⟨h3, h3'⟩, _, rfl⟩
    · exact .inr ⟨fun h => h3' h.2, rfl⟩
  · exact .inr ⟨fun h => h3 h.1, rfl⟩

theorem finishes_args {items : List ((Str × Scope) × List Ast1.Chunk)} (h : ∀ x ∈ items, Finishes x.1.2.chunks x.2) :
    ∃ items' : List ((Str × Ast1.Scope) × Ending), items'.map (·.1) = withInner1 items ∧ (∀ x ∈ items', Meets x.1.2.chunks x.2) ∧
      ((AllArgs LowV (items.map (·.1)) ∧ ∃ args, argEnding items' = .ok args) ∨ (¬ AllArgs LowV (items.map (·.1)) ∧ argEnding items' = .error .panic)) := by
  induction items with
  | nil => exact ⟨[], rfl, by simp, .inl ⟨by simp [AllArgs], [], rfl⟩⟩
  | cons x items ih =>
    obtain ⟨items', h1, h2, h3⟩ := ih fun x hx => h x (.tail _ hx)
    obtain ⟨⟨p, ⟨inner, sv⟩⟩, d⟩ := x
    obtain ⟨_, r, hr, hc⟩ := h _ (.head _)
    refine ⟨((p, .mk d sv), r) :: items', by simp [h1, withInner1, Scope.variant], ?_, ?_⟩
    · intro x hx
      rcases List.mem_cons.1 hx with rfl | hx
      · exact hr
      · exact h2 x hx
    · simp only [List.map_cons, AllArgs, Scope.All]
      rcases hc with ⟨g, e', rfl⟩ | ⟨g, rfl⟩
      · rcases h3 with ⟨g', args', h3⟩ | ⟨g', h3⟩
        · exact .inl ⟨⟨g, g'⟩, _, by simp only [argEnding, h3]; rfl⟩
        · exact .inr ⟨fun h => g' h.2, by simp only [argEnding, h3]⟩
      · exact .inr ⟨fun h => g h.1, rfl⟩

theorem finishes_command {l label e m d} {items : List ((Str × Scope) × List Ast1.Chunk)} (hl : label ≠ chars!"begin" ∧ label ≠ chars!"end")
    (h : ∀ x ∈ items, Finishes x.1.2.chunks x.2) (h' : Finishes e d) :
    Finishes (.mk l (.command (.mk label (items.map (·.1)))) :: e) (.mk m (.command (.mk label (withInner1 items))) :: d) := by
  obtain ⟨items', g1, g2, g3⟩ := finishes_args h
  obtain ⟨h1', r', h2', h3'⟩ := h'
  rw [← g1]
  refine ⟨.other ?_ h1', _, .command hl.1 hl.2 g2 h2', ?_⟩
  · rintro ⟨_, _, h, h'⟩
    cases h
    rcases h' with h' | h'
    · exact hl.1 h'
    · exact hl.2 h'
  · simp only [AllChunks, Chunk.All, ChunkVariant.All, LowV, Command.All, true_and]
    rcases g3 with ⟨g3, args', g4⟩ | ⟨g3, g4⟩
    · simp only [commandEnding, g4]
      rcases h3' with ⟨h3', e2, rfl⟩ | ⟨h3', rfl⟩
      · exact .inl ⟨⟨g3, h3'⟩, _, rfl⟩
      · exact .inr ⟨fun h => h3' h.2, rfl⟩
    · exact .inr ⟨fun h => g3 h.1, by simp [commandEnding, g4]⟩

theorem finishes_environment {l label lab content pb pe e m m' B d} {items : List ((Str × Scope) × List Ast1.Chunk)}
    (h : ∀ x ∈ items, Finishes x.1.2.chunks x.2) (hB : ∀ k, NotAbove k B → Finishes content (B.map (renumber k))) (hM : Matched B)
    (hk : NotAbove (endOfBegin m ((pb, .mk lab .curly) :: withInner1 items)) B →
      ∀ c ∈ content, (pb ++ label ++ displayArgs (items.map (·.1))).count '\n' < c.lineNo)
    (hk' : (∀ c ∈ content, (pb ++ label ++ displayArgs (items.map (·.1))).count '\n' < c.lineNo) → AllChunks LowV content →
      NotAbove (endOfBegin m ((pb, .mk lab .curly) :: withInner1 items)) B)
    (h' : Finishes e d) :
    Finishes (.mk l (.environment (.mk label (items.map (·.1)) content pb pe)) :: e)
      (.mk m (.command (.mk chars!"begin" ((pb, .mk lab .curly) :: withInner1 items))) ::
        (B ++ .mk m' (.command (.mk chars!"end" [(pe, .mk lab .curly)])) :: d)) := by
  obtain ⟨items', g1, g2, g3⟩ := finishes_args h
  obtain ⟨h1', r', h2', h3'⟩ := h'
  rw [← g1] at hk hk' ⊢
  refine ⟨.env (lab := lab) ⟨_, _, rfl⟩ hM ⟨_, rfl⟩ h1', ?_⟩
  simp only [AllChunks, Chunk.All, ChunkVariant.All, LowV, Environment.All]
  rcases from_or (endOfBegin m ((pb, .mk lab .curly) :: items'.map (·.1))) B with hn | ⟨a, c, b, rfl, k1, k2⟩
  · obtain ⟨_, i, hi, hi'⟩ := hB _ hn
    refine ⟨_, .environment hM hn g2 hi h2', ?_⟩
    rcases g3 with ⟨g3, args', g4⟩ | ⟨g3, g4⟩
    · simp only [environmentEnding, g4]
      rcases hi' with ⟨h3, e1, rfl⟩ | ⟨h3, rfl⟩
      · rcases h3' with ⟨h3', e2, rfl⟩ | ⟨h3', rfl⟩
        · exact .inl ⟨⟨⟨hk hn, g3, h3⟩, h3'⟩, _, rfl⟩
        · exact .inr ⟨fun h => h3' h.2, rfl⟩
      · exact .inr ⟨fun h => h3 h.1.2.2, rfl⟩
    · exact .inr ⟨fun h => g3 h.1.2.1, by simp [environmentEnding, g4]⟩
  · refine ⟨.error .panic, ?_, .inr ⟨fun h => ?_, rfl⟩⟩
    · obtain ⟨st', h'⟩ := Opened.prefix (a := a ++ [c]) (b := b) (by simpa using hM.opened)
      have := Meets.above (l := m) (p := pb) (lab := lab) (args := items'.map (·.1)) (cs := b ++ .mk m' (.command (.mk chars!"end" [(pe, .mk lab .curly)])) :: d) h' k1 k2
      simpa using this
    · have := hk' h.1.1 h.1.2.2 c (by simp)
      omega

theorem Unfolds.lowest {e xs} (h : Unfolds e xs) : AllChunks LowV e → ∀ n, (∀ c ∈ e, n ≤ c.lineNo) → ∀ c ∈ xs, n ≤ c.lineNo := by
  induction h with
  | nil => intro _ n _ c hc; cases hc
  | text _ ih | scope _ _ _ ih | command _ _ _ ih =>
    intro hl n hn c hc
    rcases List.mem_cons.1 hc with rfl | hc
    · exact hn _ (.head _)
    · exact ih hl.2 n (fun c hc => hn c (.tail _ hc)) c hc
  | @environment l label lab content content' pb pe cs ds k items hlab _ h1 _ _ hk ih1 ih2 ih3 =>
    intro hl n hn c hc
    have hl0 : n ≤ l := hn _ (.head _)
    rcases List.mem_cons.1 hc with rfl | hc
    · exact hl0
    · rcases List.mem_append.1 hc with hc | hc
      · refine ih2 ?_ n ?_ c hc
        · have hv : content.map Chunk.variant = (content.map (Chunk.shift (l - 1))).map Chunk.variant := by
            rw [List.map_map]
            exact List.map_congr_left fun c _ => by cases c; rfl
          exact Ast3.allChunks2_congr hv.symm hl.1.2.2
        · intro c hc
          obtain ⟨c0, h0, rfl⟩ := List.mem_map.1 hc
          have g1 := h1 (List.ne_nil_of_mem h0)
          have g2 := hl.1.1 c0 h0
          obtain ⟨l0, v0⟩ := c0
          simp only [Chunk.shift, Chunk.lineNo] at g2 ⊢
          omega
      · rcases List.mem_cons.1 hc with rfl | hc
        · simp only [Ast1.Chunk.lineNo]; omega
        · exact ih3 hl.2 n (fun c hc => hn c (.tail _ hc)) c hc

theorem Unfolds.firsts {e xs} (h : Unfolds e xs) : ∀ c ∈ e, ∃ c' ∈ xs, c'.lineNo = c.lineNo := by
  induction h with
  | nil => intro c hc; cases hc
  | text _ ih | scope _ _ _ ih | command _ _ _ ih =>
    intro c hc
    rcases List.mem_cons.1 hc with rfl | hc
    · exact ⟨_, .head _, rfl⟩
    · obtain ⟨c', h1, h2⟩ := ih c hc
      exact ⟨c', .tail _ h1, h2⟩
  | environment _ _ _ _ _ _ _ _ ih =>
    intro c hc
    rcases List.mem_cons.1 hc with rfl | hc
    · exact ⟨_, .head _, rfl⟩
    · obtain ⟨c', h1, h2⟩ := ih c hc
      exact ⟨c', .tail _ (List.mem_append_right _ (.tail _ h1)), h2⟩

/-- The same chunks, all of them on lines that differ by the same amount. -/
def OffsetBy (a b : Nat) (x xs : List Ast1.Chunk) : Prop := x.map (shift1 a) = xs.map (shift1 b)

theorem OffsetBy.cons {a b x l v xs} (h : OffsetBy a b x (.mk l v :: xs)) : ∃ m x', x = .mk m v :: x' ∧ m + a = l + b ∧ OffsetBy a b x' xs := by
  cases x with
  | nil => simp [OffsetBy] at h
  | cons c x =>
    obtain ⟨m, w⟩ := c
    simp [OffsetBy, shift1] at h
    exact ⟨m, x, by rw [h.1.2], h.1.1, h.2⟩

theorem OffsetBy.append {a b x xs ys} (h : OffsetBy a b x (xs ++ ys)) : ∃ x1 x2, x = x1 ++ x2 ∧ OffsetBy a b x1 xs ∧ OffsetBy a b x2 ys := by
  simp only [OffsetBy, List.map_append] at h
  obtain ⟨x1, x2, rfl, h1, h2⟩ := List.map_eq_append_iff.1 h
  exact ⟨x1, x2, rfl, h1, h2⟩

theorem OffsetBy.mem {a b x xs} (h : OffsetBy a b x xs) {c} (hc : c ∈ xs) : ∃ c' ∈ x, c'.lineNo + a = c.lineNo + b := by
  have : shift1 b c ∈ x.map (shift1 a) := by rw [h]; exact List.mem_map.2 ⟨c, hc, rfl⟩
  obtain ⟨c', h1, h2⟩ := List.mem_map.1 this
  refine ⟨c', h1, ?_⟩
  obtain ⟨l, v⟩ := c
  obtain ⟨l', v'⟩ := c'
  simp only [shift1, Ast1.Chunk.mk.injEq] at h2
  exact h2.1

theorem OffsetBy.renumber {a b x xs k} (h : OffsetBy a b x xs) (hk : NotAbove k x) : OffsetBy (a + k) (b + 1) (x.map (renumber k)) xs := by
  unfold OffsetBy at *
  have e1 : (x.map (Ast2.renumber k)).map (shift1 (a + k)) = (x.map (shift1 a)).map (shift1 1) := by
    rw [List.map_map, List.map_map]
    refine List.map_congr_left fun c hc => ?_
    have := hk c hc
    obtain ⟨l, v⟩ := c
    simp only [Ast1.Chunk.lineNo] at this
    simp only [Function.comp, Ast2.renumber, shift1, Ast1.Chunk.mk.injEq, and_true]
    omega
  rw [e1, h, List.map_map]
  exact List.map_congr_left fun c _ => by cases c; simp [shift1, Nat.add_assoc]

theorem OffsetBy.symm {a b x xs} (h : OffsetBy a b x xs) : OffsetBy b a xs x := Eq.symm h

theorem Matched.congr {x xs} (h : Matched xs) (hx : SameVariants x xs) : Matched x := by
  induction h generalizing x with
  | nil => cases x with
    | nil => exact .nil
    | cons c x => simp [SameVariants] at hx
  | @other c rest h1 h2 ih =>
    obtain ⟨l, v⟩ := c
    obtain ⟨m, x', rfl, hx'⟩ := sameVariants_cons hx
    exact .other h1 (ih hx')
  | @env b body e rest lab h1 h2 h3 h4 ih1 ih2 =>
    obtain ⟨l, v⟩ := b
    obtain ⟨m, x', rfl, hx'⟩ := sameVariants_cons hx
    obtain ⟨x1, x2, rfl, g1, g2⟩ := sameVariants_append hx'
    obtain ⟨l', v'⟩ := e
    obtain ⟨m', x3, rfl, g3⟩ := sameVariants_cons g2
    exact .env (lab := lab) h1 (ih1 g1) h3 (ih2 g3)

theorem OffsetBy.same {a b x xs} (h : OffsetBy a b x xs) : SameVariants x xs := by
  have := congrArg (List.map Ast1.Chunk.variant) h
  simp only [List.map_map] at this
  unfold SameVariants
  have e : ∀ k, (Ast1.Chunk.variant ∘ shift1 k) = Ast1.Chunk.variant := fun k => by funext c; cases c; rfl
  rwa [e, e] at this

theorem labels_display {items : List ((Str × Scope) × List Ast1.Chunk)} (h : ∀ x ∈ items, Unfolds x.1.2.chunks x.2)
    (hl : AllArgs LabelV (items.map (·.1))) : Ast1.displayArgs (withInner1 items) = displayArgs (items.map (·.1)) :=
  (labelsKept_args fun x hx => unfolds_labels (h x hx)).2.2 hl

theorem Unfolds.finishes {e xs} (h : Unfolds e xs) : AllChunks NotDelim e → AllChunks LabelV e → ∀ a b x, OffsetBy a b x xs → Finishes e x := by
  induction h with
  | nil =>
    intro _ _ a b x hx
    cases x with
    | nil => exact ⟨.nil, _, .nil, .inl ⟨by simp [AllChunks], _, rfl⟩⟩
    | cons c x => simp [OffsetBy] at hx
  | text _ ih =>
    intro hn hl a b x hx
    obtain ⟨m, x', rfl, _, hx'⟩ := hx.cons
    exact finishes_text (ih hn.2 hl.2 a b x' hx') m
  | scope _ _ ih1 ih2 =>
    intro hn hl a b x hx
    obtain ⟨m, x', rfl, _, hx'⟩ := hx.cons
    exact finishes_scope (ih1 hn.1.2 hl.1.2 0 0 _ rfl) (ih2 hn.2 hl.2 a b x' hx')
  | @command l label cs ds items _ _ ih1 ih2 =>
    intro hn hl a b x hx
    obtain ⟨m, x', rfl, _, hx'⟩ := hx.cons
    have hi : ∀ x ∈ items, Finishes x.1.2.chunks x.2 := fun x hx => by
      have hm := (allArgs_iff_forall _).1 hn.1.2 _ (List.mem_map.2 ⟨x, hx, rfl⟩)
      have hm' := (allArgs_iff_forall _).1 hl.1.2 _ (List.mem_map.2 ⟨x, hx, rfl⟩)
      refine ih1 x hx ?_ ?_ 0 0 _ rfl
      · obtain ⟨⟨p, ⟨inner, sv⟩⟩, y⟩ := x; exact hm
      · obtain ⟨⟨p, ⟨inner, sv⟩⟩, y⟩ := x; exact hm'
    exact finishes_command hn.1.1 hi (ih2 hn.2 hl.2 a b x' hx')
  | @environment l label lab content content' pb pe cs ds k items hlab hu h1 hc _ hk ih1 ih2 ih3 =>
    intro hn hl a b x hx
    obtain ⟨m, x', rfl, hm, hx'⟩ := hx.cons
    obtain ⟨B, R, rfl, hB, hR⟩ := hx'.append
    obtain ⟨m', d, rfl, _, hd⟩ := hR.cons
    have hi : ∀ x ∈ items, Finishes x.1.2.chunks x.2 := fun x hx => by
      have hm := (allArgs_iff_forall _).1 hn.1.2.1 _ (List.mem_map.2 ⟨x, hx, rfl⟩)
      have hm' := (allArgs_iff_forall _).1 hl.1.2.1 _ (List.mem_map.2 ⟨x, hx, rfl⟩)
      refine ih1 x hx ?_ ?_ 0 0 _ rfl
      · obtain ⟨⟨p, ⟨inner, sv⟩⟩, y⟩ := x; exact hm
      · obtain ⟨⟨p, ⟨inner, sv⟩⟩, y⟩ := x; exact hm'
    have hv : content.map Chunk.variant = (content.map (Chunk.shift (l - 1))).map Chunk.variant := by
      rw [List.map_map]
      exact List.map_congr_left fun c _ => by cases c; rfl
    have hcn : AllChunks NotDelim (content.map (Chunk.shift (l - 1))) := Ast3.allChunks2_congr hv.symm hn.1.2.2
    have hcl : AllChunks LabelV (content.map (Chunk.shift (l - 1))) := Ast3.allChunks2_congr hv.symm hl.1.2.2
    have hlow : AllChunks LowV (content.map (Chunk.shift (l - 1))) ↔ AllChunks LowV content :=
      ⟨fun h => Ast3.allChunks2_congr hv h, fun h => Ast3.allChunks2_congr hv.symm h⟩
    have key : ∀ y, Finishes (content.map (Chunk.shift (l - 1))) y → Finishes content y := by
      rintro y ⟨k1, r, k2, k3⟩
      exact ⟨k1, r, k2, by rw [← hlow]; exact k3⟩
    have hend : endOfBegin m ((pb, .mk lab .curly) :: withInner1 items) = m + (pb ++ label ++ displayArgs (items.map (·.1))).count '\n' := by
      obtain ⟨lab', q1, q2⟩ : ReadableLabel label := hl.1.1
      rw [hlab] at q1
      cases q1
      simp only [endOfBegin, Ast1.displayArgs, labels_display hu hl.1.2.1, Ast1.Scope.display, q2]
      simp [ScopeVariant.opening, ScopeVariant.closing, List.count_append, List.count_cons]
    refine finishes_environment hi (fun k hk => key _ (ih2 hcn hcl _ _ _ (hB.renumber hk))) ?_ ?_ ?_ (ih3 hn.2 hl.2 a b d hd)
    · have := (ih2 hcn hcl 0 0 _ rfl).1
      exact Matched.congr this hB.same
    · rw [hend]
      intro hna c hcm
      obtain ⟨c', k1, k2⟩ := hc.firsts (Chunk.shift (l - 1) c) (List.mem_map.2 ⟨c, hcm, rfl⟩)
      obtain ⟨c2, k3, k4⟩ := hB.mem k1
      have k5 := hna c2 k3
      have k6 := h1 (List.ne_nil_of_mem hcm)
      obtain ⟨l0, v0⟩ := c
      simp only [Chunk.shift, Chunk.lineNo] at k2 ⊢
      omega
    · rw [hend]
      intro hlo hall c hcm
      obtain ⟨c', k1, k2⟩ := hB.symm.mem hcm
      have k3 := hc.lowest (hlow.2 hall) (l + (pb ++ label ++ displayArgs (items.map (·.1))).count '\n') (by
        intro c hc
        obtain ⟨c0, h0, rfl⟩ := List.mem_map.1 hc
        have g1 := h1 (List.ne_nil_of_mem h0)
        have g2 := hlo c0 h0
        obtain ⟨l0, v0⟩ := c0
        simp only [Chunk.shift, Chunk.lineNo] at g2 ⊢
        omega) c' k1
      omega

end LatexAst.Ast2
