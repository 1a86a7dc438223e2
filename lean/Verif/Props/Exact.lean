import Verif.Props.BackLines
import Verif.Props.BackRule
import Verif.Props.Building
import Verif.Props.Total3
import Verif.Spec.Written

/-!
# Exact conditions for C20, C26, C27, C41, C43

These properties are false of the code in general; here is when exactly they hold.
-/

namespace LatexAst.Ast1

theorem displaced_length {d d'} (h : Displaced d d') : d'.length = d.length := by
  induction h with
  | nil => rfl
  | text _ ih => simp [ih]
  | scope _ _ _ ih => simp [ih]
  | command _ _ _ _ _ ih => simp [ih]
  | environment _ _ _ _ _ _ ih1 ih2 => simp [ih1, ih2]

theorem withInner_same {items : List ((Str × Scope) × List Chunk)} (h : items.map (·.1) = withInner items) :
    ∀ x ∈ items, x.1.2.chunks = x.2 := by
  induction items with
  | nil => simp
  | cons x r ih =>
    obtain ⟨⟨p, ⟨cs, sv⟩⟩, ds⟩ := x
    simp only [List.map_cons, withInner, List.cons.injEq, Prod.mk.injEq, Scope.mk.injEq, true_and] at h
    intro y hy
    rcases List.mem_cons.1 hy with rfl | hy
    · exact h.1.1
    · exact ih h.2 y hy

/-- No `\begin` of the sequence spans lines. -/
def FlatHere (lv : List Chunk) : Prop :=
  ∀ l args, .mk l (.command (.mk chars!"begin" args)) ∈ lv → '\n' ∉ displayArgs args

def FlatAll (d : List Chunk) : Prop := ∀ lv, Checked d lv → FlatHere lv

theorem flatAll_of {d} (h : FlatHere d) (hc : ∀ inner, Child d inner → FlatAll inner) : FlatAll d := by
  intro lv hl
  rcases hl.head with rfl | ⟨i, h1, h2⟩
  · exact h
  · exact hc i h1 lv h2

theorem child_cons {c : Chunk} {cs inner} (h : Child (c :: cs) inner) : Child [c] inner ∨ Child cs inner := by
  cases h with
  | scope h1 =>
    rcases List.mem_cons.1 h1 with h1 | h1
    · exact .inl (.scope (List.mem_singleton.2 h1))
    · exact .inr (.scope h1)
  | arg h1 h2 h3 h4 =>
    rcases List.mem_cons.1 h1 with h1 | h1
    · exact .inl (.arg (List.mem_singleton.2 h1) h2 h3 h4)
    · exact .inr (.arg h1 h2 h3 h4)
  | beginArg h1 h2 =>
    rcases List.mem_cons.1 h1 with h1 | h1
    · exact .inl (.beginArg (List.mem_singleton.2 h1) h2)
    · exact .inr (.beginArg h1 h2)

theorem FlatAll.child {d inner} (h : FlatAll d) (hc : Child d inner) : FlatAll inner :=
  fun lv hl => h lv (Checked.trans (.child .top hc) hl)

theorem FlatAll.cons {c : Chunk} {cs} (h1 : FlatHere [c]) (h2 : ∀ inner, Child [c] inner → FlatAll inner) (h3 : FlatAll cs) :
    FlatAll (c :: cs) := by
  refine flatAll_of ?_ ?_
  · intro l args hm
    rcases List.mem_cons.1 hm with hm | hm
    · exact h1 l args (List.mem_singleton.2 hm)
    · exact h3 cs .top l args hm
  · intro inner hc
    rcases child_cons hc with hc | hc
    · exact h2 inner hc
    · exact h3.child hc

theorem FlatAll.append {a b} (h1 : FlatAll a) (h2 : FlatAll b) : FlatAll (a ++ b) := by
  induction a with
  | nil => exact h2
  | cons c a ih =>
    have hs : ∀ x ∈ a, x ∈ c :: a := fun x hx => List.mem_cons_of_mem _ hx
    refine FlatAll.cons ?_ ?_ (ih ?_)
    · intro l args hm
      exact h1 _ .top l args (by rw [List.mem_singleton.1 hm]; simp)
    · intro inner hc
      exact h1.child (hc.mono (by simp))
    · exact flatAll_of (fun l args hm => h1 _ .top l args (hs _ hm)) fun inner hc => h1.child (hc.mono hs)

theorem flat_of_displaced {d d'} (h : Displaced d d') : d = d' → FlatAll d := by
  induction h with
  | nil =>
    intro _
    exact flatAll_of (fun l args hm => by cases hm) fun inner hc => by
      cases hc with
      | scope h => cases h
      | arg h => cases h
      | beginArg h => cases h
  | text _ ih =>
    intro he
    injection he with _ he
    refine FlatAll.cons (fun l args hm => ?_) (fun inner hc => ?_) (ih he)
    · simp at hm
    · cases hc with
      | scope h => simp at h
      | arg h => simp at h
      | beginArg h => simp at h
  | scope _ _ ih1 ih2 =>
    intro he
    injection he with he1 he2
    injection he1 with _ he1
    injection he1 with he1
    injection he1 with he1
    refine FlatAll.cons (fun l args hm => ?_) (fun inner hc => ?_) (ih2 he2)
    · simp at hm
    · cases hc with
      | scope h => simp at h; obtain ⟨_, rfl, _⟩ := h; exact ih1 he1
      | arg h => simp at h
      | beginArg h => simp at h
  | command h1 h2 _ _ ih1 ih2 =>
    intro he
    injection he with he1 he2
    injection he1 with _ he1
    injection he1 with he1
    injection he1 with _ he1
    have hw := withInner_same he1
    refine FlatAll.cons (fun l args hm => ?_) (fun inner hc => ?_) (ih2 he2)
    · simp at hm; exact absurd hm.2.1.symm h1
    · cases hc with
      | scope h => simp at h
      | arg h _ _ h4 =>
        simp at h
        obtain ⟨_, rfl, rfl⟩ := h
        obtain ⟨x, hx, hx'⟩ := List.mem_map.1 h4
        have := ih1 x hx (hw x hx)
        rw [hx'] at this
        exact this
      | beginArg h => simp at h; exact absurd h.2.1.symm h1
  | environment hm hi hb _ hk ih1 ih2 ih3 =>
    rename_i l p lab body body' l' pe cs ds k items _
    intro he
    injection he with he1 he2
    injection he1 with hl he1
    injection he1 with he1
    injection he1 with _ he1
    injection he1 with _ he1
    have hw := withInner_same he1
    have hk0 : k = 0 := by omega
    obtain ⟨e1, e2⟩ := List.append_inj he2 (displaced_length hb).symm
    injection e2 with e3 e4
    rw [hk0] at hk
    refine FlatAll.cons (fun l args hm => ?_) (fun inner hc => ?_) ((ih2 e1).append (FlatAll.cons ?_ ?_ (ih3 e4)))
    · simp only [List.mem_singleton, Chunk.mk.injEq, ChunkVariant.command.injEq, Command.mk.injEq, true_and] at hm
      rw [hm.2]
      exact List.count_eq_zero.1 hk.symm
    · cases hc with
      | scope h => simp at h
      | arg h h1 => simp at h; exact absurd h.2.1 h1
      | beginArg h h4 =>
        simp only [List.mem_singleton, Chunk.mk.injEq, ChunkVariant.command.injEq, Command.mk.injEq, true_and, List.cons.injEq] at h
        obtain ⟨_, _, rfl⟩ := h
        obtain ⟨x, hx, hx'⟩ := List.mem_map.1 h4
        have := ih1 x hx (hw x hx)
        rw [hx'] at this
        exact this
    · intro l args hm
      simp at hm
    · intro inner hc
      cases hc with
      | scope h => simp at h
      | arg h _ h2 => simp at h; exact absurd h.2.1 h2
      | beginArg h => simp at h

end LatexAst.Ast1

namespace LatexAst.Ast2
open Ast1 (Checked)

/-- C26, exactly: going to stage 2 and back gives the same document if and only if no `\begin` outside the labels has a
newline in or before its arguments. -/
theorem C26_exact_partial (s : Str) (d : Ast1.Document) (e : Document) (hd : Ast1.fromStr s = .ok d) (he : tryFrom d = .ok e) :
    toAst1 e = .ok d ↔ ∀ lv l args, Checked d lv → .mk l (.command (.mk chars!"begin" args)) ∈ lv →
      '\n' ∉ Ast1.displayArgs args := by
  constructor
  · intro h lv l args hl hm
    obtain ⟨d', h1, h2⟩ := C26_displaced_partial s d e hd he
    rw [h] at h1
    cases h1
    exact Ast1.flat_of_displaced h2 rfl lv hl l args hm
  · intro hb
    have hback : BackAll d := by
      intro lv hl
      refine ⟨Ast1.sane_parsed hd lv hl, ?_⟩
      intro l p lab args hm
      refine ⟨?_, label_reads hd hl.level hm (.head _)⟩
      rw [argNewlines_eq, newlines_eq_count]
      exact List.count_eq_zero.2 (hb _ _ _ hl hm)
    have := back_tryFrom he hback 0
    rw [map_shift_zero] at this
    rw [toAst1_eq this, foldl_push_nomerge]
    exact (Ast1.C09 s d hd d .top).2.1

/-! ### C27 -/

theorem display_join1 (xs : List Ast1.Chunk) : Ast1.displayChunks (Ast1.joinTexts xs) = Ast1.displayChunks xs := by
  have := (Ast1.foldl_push_join xs).2 [] (by simp)
  have h2 := foldl_push_display xs []
  rw [this] at h2
  simpa [Ast1.displayChunks] using h2

theorem within_shift {k : Nat} {cs : List Chunk} {v} : Within (cs.map (Chunk.shift k)) v ↔ Within cs v := by
  have hm : ∀ l v, .mk l v ∈ cs.map (Chunk.shift k) → ∃ l', .mk l' v ∈ cs := by
    intro l v h
    obtain ⟨⟨l', v'⟩, h1, h2⟩ := List.mem_map.1 h
    simp only [Chunk.shift] at h2
    injection h2 with _ h2
    subst h2
    exact ⟨l', h1⟩
  have hm' : ∀ l v, .mk l v ∈ cs → .mk (l + k) v ∈ cs.map (Chunk.shift k) := fun l v h => List.mem_map.2 ⟨_, h, rfl⟩
  constructor
  · intro h
    cases h with
    | here h => obtain ⟨_, h⟩ := hm _ _ h; exact .here h
    | scope h h1 => obtain ⟨_, h⟩ := hm _ _ h; exact .scope h h1
    | arg h h1 h2 => obtain ⟨_, h⟩ := hm _ _ h; exact .arg h h1 h2
    | envArg h h1 h2 => obtain ⟨_, h⟩ := hm _ _ h; exact .envArg h h1 h2
    | envContent h h1 => obtain ⟨_, h⟩ := hm _ _ h; exact .envContent h h1
  · intro h
    cases h with
    | here h => exact .here (hm' _ _ h)
    | scope h h1 => exact .scope (hm' _ _ h) h1
    | arg h h1 h2 => exact .arg (hm' _ _ h) h1 h2
    | envArg h h1 h2 => exact .envArg (hm' _ _ h) h1 h2
    | envContent h h1 => exact .envContent (hm' _ _ h) h1

theorem display_shift2 (k : Nat) (cs : List Chunk) : displayChunks (cs.map (Chunk.shift k)) = displayChunks cs := by
  induction cs with
  | nil => rfl
  | cons c cs ih => obtain ⟨l, v⟩ := c; simp [displayChunks_cons, Chunk.shift, Chunk.display, ih]

/-- Prints as, exactly if the labels do; never longer. -/
def LabelsKept (e : List Chunk) (xs : List Ast1.Chunk) : Prop :=
  (Ast1.displayChunks xs).length ≤ (displayChunks e).length ∧
  (Ast1.displayChunks xs = displayChunks e ↔ AllChunks (fun v => match v with
    | .environment (.mk label _ _ _ _) => ReadableLabel label
    | _ => True) e)

theorem labelsKept_args {items : List ((Str × Scope) × List Ast1.Chunk)} (h : ∀ x ∈ items, LabelsKept x.1.2.chunks x.2) :
    (Ast1.displayArgs (withInner1 items)).length ≤ (displayArgs (items.map (·.1))).length ∧
    (Ast1.displayArgs (withInner1 items) = displayArgs (items.map (·.1)) ↔ AllArgs (fun v => match v with
      | .environment (.mk label _ _ _ _) => ReadableLabel label
      | _ => True) (items.map (·.1))) := by
  induction items with
  | nil => simp [withInner1, Ast1.displayArgs, displayArgs, AllArgs]
  | cons x r ih =>
    obtain ⟨⟨p, ⟨cs, sv⟩⟩, ds⟩ := x
    have h1 := h _ (List.mem_cons_self ..)
    have h2 := ih fun x hx => h x (List.mem_cons_of_mem _ hx)
    simp only [Scope.chunks] at h1
    simp only [withInner1, Ast1.displayArgs, displayArgs, AllArgs, List.map_cons, Ast1.Scope.display, Scope.display, Scope.All, Scope.variant]
    refine ⟨?_, ?_⟩
    · have := h1.1; have := h2.1; simp; omega
    · rw [← h1.2, ← h2.2]
      constructor
      · intro he
        simp only [List.append_cancel_left_eq, List.cons_append, List.cons.injEq, true_and, List.append_assoc] at he
        have hl := congrArg List.length he
        simp at hl
        have := h1.1; have := h2.1
        have he := List.append_inj he (by omega)
        refine ⟨he.1, ?_⟩
        have := he.2
        simpa using this
      · rintro ⟨h3, h4⟩; rw [h3, h4]

theorem unfolds_labels {e xs} (h : Unfolds e xs) : LabelsKept e xs := by
  induction h with
  | nil => simp [LabelsKept, Ast1.displayChunks, displayChunks, AllChunks]
  | text _ ih =>
    refine ⟨?_, ?_⟩
    · have := ih.1
      simpa [displayChunks_cons, Ast1.displayChunks_cons, Chunk.display, ChunkVariant.display, Ast1.Chunk.display, Ast1.ChunkVariant.display] using this
    · have := ih.2
      simpa [displayChunks_cons, Ast1.displayChunks_cons, Chunk.display, ChunkVariant.display, Ast1.Chunk.display, Ast1.ChunkVariant.display, AllChunks, Chunk.All, ChunkVariant.All] using this
  | scope _ _ ih1 ih2 =>
    have l1 := ih1.1; have l2 := ih2.1
    refine ⟨?_, ?_⟩
    · simp [displayChunks_cons, Ast1.displayChunks_cons, Chunk.display, ChunkVariant.display, Ast1.Chunk.display, Ast1.ChunkVariant.display, Scope.display, Ast1.Scope.display]
      omega
    · simp only [AllChunks, Chunk.All, ChunkVariant.All, Scope.All, true_and]
      rw [← ih1.2, ← ih2.2]
      simp only [displayChunks_cons, Ast1.displayChunks_cons, Chunk.display, ChunkVariant.display, Ast1.Chunk.display, Ast1.ChunkVariant.display, Scope.display, Ast1.Scope.display]
      constructor
      · intro he
        simp only [List.cons_append, List.cons.injEq, true_and, List.append_assoc] at he
        have hl := congrArg List.length he
        simp at hl
        have he := List.append_inj he (by omega)
        refine ⟨he.1, ?_⟩
        have := he.2
        simpa using this
      · rintro ⟨h3, h4⟩; rw [h3, h4]
  | command _ _ ih1 ih2 =>
    have l2 := ih2.1
    have ha := labelsKept_args ih1
    have l1 := ha.1
    refine ⟨?_, ?_⟩
    · simp only [displayChunks_cons, Ast1.displayChunks_cons, Chunk.display, ChunkVariant.display, Ast1.Chunk.display, Ast1.ChunkVariant.display, Command.display, Ast1.Command.display, List.length_append, List.length_cons]
      omega
    · simp only [AllChunks, Chunk.All, ChunkVariant.All, Command.All, true_and]
      rw [← ha.2, ← ih2.2]
      simp only [displayChunks_cons, Ast1.displayChunks_cons, Chunk.display, ChunkVariant.display, Ast1.Chunk.display, Ast1.ChunkVariant.display, Command.display, Ast1.Command.display]
      constructor
      · intro he
        simp only [List.cons_append, List.cons.injEq, true_and, List.append_assoc, List.append_cancel_left_eq] at he
        have hl := congrArg List.length he
        simp only [List.length_append] at hl
        exact List.append_inj he (by omega)
      · rintro ⟨h3, h4⟩; rw [h3, h4]
  | environment hlab _ _ _ _ _ ih1 ih2 ih3 =>
    rename_i l label lab content content' pb pe cs ds k items _ _ _ _ _
    have l2 := ih2.1
    have l3 := ih3.1
    have ha := labelsKept_args ih1
    have l1 := ha.1
    have l4 : (Ast1.displayChunks lab).length ≤ label.length := by
      have := (Ast1.C01_partial label lab hlab).1.length_le
      simpa using this
    have hread : ReadableLabel label ↔ Ast1.displayChunks lab = label := by
      constructor
      · rintro ⟨lab', h1, h2⟩; rw [hlab] at h1; cases h1; exact h2
      · exact fun h => ⟨lab, hlab, h⟩
    have hc2 := ih2.2
    rw [display_shift2] at l2 hc2
    have hall : AllChunks (fun v => match v with
        | .environment (.mk label _ _ _ _) => ReadableLabel label
        | _ => True) (content.map (Chunk.shift (l - 1))) ↔ AllChunks (fun v => match v with
        | .environment (.mk label _ _ _ _) => ReadableLabel label
        | _ => True) content := by
      rw [allChunks_iff, allChunks_iff]
      exact ⟨fun h v hv => h v (within_shift.2 hv), fun h v hv => h v (within_shift.1 hv)⟩
    rw [hall] at hc2
    have e1 : Ast1.displayChunks (.mk l (.command (.mk chars!"begin" ((pb, .mk lab .curly) :: withInner1 items))) ::
          (content' ++ .mk (l + k) (.command (.mk chars!"end" [(pe, .mk lab .curly)])) :: ds)) =
        chars!"\\begin" ++ (pb ++ ('{' :: (Ast1.displayChunks lab ++ ('}' :: (Ast1.displayArgs (withInner1 items) ++
          (Ast1.displayChunks content' ++ (chars!"\\end" ++ (pe ++ ('{' :: (Ast1.displayChunks lab ++ ('}' :: Ast1.displayChunks ds))))))))))) := by
      simp [Ast1.displayChunks_cons, Ast1.Chunk.display, Ast1.ChunkVariant.display, Ast1.Command.display, Ast1.displayArgs, Ast1.Scope.display, ScopeVariant.opening, ScopeVariant.closing]
    have e2 : displayChunks (.mk l (.environment (.mk label (items.map (·.1)) content pb pe)) :: cs) =
        chars!"\\begin" ++ (pb ++ ('{' :: (label ++ ('}' :: (displayArgs (items.map (·.1)) ++
          (displayChunks content ++ (chars!"\\end" ++ (pe ++ ('{' :: (label ++ ('}' :: displayChunks cs))))))))))) := by
      simp [displayChunks_cons, Chunk.display, ChunkVariant.display, Environment.display]
    refine ⟨?_, ?_⟩
    · rw [e1, e2]
      simp only [List.length_append, List.length_cons]
      omega
    · simp only [AllChunks, Chunk.All, ChunkVariant.All, Environment.All]
      rw [← ha.2, ← ih3.2, ← hc2, hread, e1, e2]
      constructor
      · intro he
        have hl := congrArg List.length he
        simp only [List.length_append, List.length_cons] at hl
        have he := List.append_cancel_left (List.append_cancel_left he)
        injection he with _ he
        have h1 := List.append_inj he (by omega)
        have he := h1.2
        injection he with _ he
        have h2 := List.append_inj he (by omega)
        have h3 := List.append_inj h2.2 (by omega)
        have he := List.append_cancel_left (List.append_cancel_left h3.2)
        injection he with _ he
        have h4 := List.append_inj he (by omega)
        have he := h4.2
        injection he with _ he
        exact ⟨⟨h1.1, h2.1, h3.1⟩, he⟩
      · rintro ⟨⟨h3, h4, h5⟩, h6⟩; rw [h3, h4, h5, h6]

/-- C27, exactly: when the conversion to stage 1 returns, it keeps the text if and only if the label of every environment,
at any depth, reads as itself. -/
theorem C27_exact_partial (e : Document) (d : Ast1.Document) (h : toAst1 e = .ok d) :
    Ast1.displayChunks d = displayChunks e ↔
      ∀ label args content pb pe, Within e (.environment (.mk label args content pb pe)) → ReadableLabel label := by
  obtain ⟨xs, h1, rfl⟩ := (C60 e d).1 h
  rw [display_join1, (unfolds_labels h1).2, allChunks_iff]
  constructor
  · intro h label args content pb pe hw
    exact h _ hw
  · intro h v hw
    split
    · exact h _ _ _ _ _ hw
    · trivial

/-- C27: the text never gets longer. -/
theorem C27_length_partial (e : Document) (d : Ast1.Document) (h : toAst1 e = .ok d) :
    (Ast1.displayChunks d).length ≤ (displayChunks e).length := by
  obtain ⟨xs, h1, rfl⟩ := (C60 e d).1 h
  rw [display_join1]
  exact (unfolds_labels h1).1

/-- An environment whose label is cut at a percent sign: returned, and shorter. -/
example : ∃ e d, toAst1 e = .ok d ∧ ¬ ReadableLabel chars!"a%" ∧ Ast1.displayChunks d ≠ displayChunks e := by
  have hd : toAst1 [.mk 1 (.environment (.mk chars!"a%" [] [] [] []))] = .ok
    [.mk 1 (.command (.mk chars!"begin" [([], .mk [.mk 1 (.text chars!"a")] .curly)])),
     .mk 1 (.command (.mk chars!"end" [([], .mk [.mk 1 (.text chars!"a")] .curly)]))] := by decide +kernel
  have hn : ¬ ReadableLabel chars!"a%" := by
    rintro ⟨lab, h1, h2⟩
    have : Ast1.fromStr chars!"a%" = .ok [.mk 1 (.text chars!"a")] := by decide +kernel
    rw [this] at h1
    cases h1
    exact absurd h2 (by decide +kernel)
  refine ⟨_, _, hd, hn, fun h => hn ?_⟩
  exact (C27_exact_partial _ _ hd).1 h _ _ _ _ _ (.here (List.mem_singleton.2 rfl))

end LatexAst.Ast2

namespace LatexAst.Ast3

/-- C20 for stage-3 documents, exactly: `lines()` counts the printed lines if and only if there is no newline in the
arguments of the document environment nor before its label. -/
theorem C20_document_iff_partial (d : Document) :
    d.lines = d.display.count '\n' + 1 ↔ '\n' ∉ displayArgs d.bodyArgs ∧ '\n' ∉ d.bodyBeginPrec := by
  have h := C20_document_partial d
  rw [← List.count_eq_zero, ← List.count_eq_zero]
  omega

/-- C41, exactly: a converted document prints as the stage-3 document if and only if the same string follows `\begin` and
`\end` of the document environment. -/
theorem C41_exact_partial (f : Document) (e : Ast2.Document) (h : toAst2 f = .ok e) :
    Ast2.displayChunks e = f.display ↔ f.bodyBeginPrec = f.bodyEndPrec := by
  refine ⟨fun he => ?_, (C41_partial f e h).2⟩
  rw [(C41_partial f e h).1, display_document, Document.written] at he
  simp at he
  exact he.symm

/-- C43, exactly: after any history of checked calls the document validates if and only if no top-level text of a section
contains a paragraph gap. -/
theorem C43_exact_partial (history : List Op) :
    Document.validate (history.foldl Op.apply Document.default) = .ok () ↔
      ∀ (sec : Section) l s, .mk l (.text s) ∈ sec.get (history.foldl Op.apply Document.default) → ¬ Spec.ParagraphGap s := by
  rw [validate_iff]
  generalize hd : history.foldl Op.apply Document.default = d
  have hs : ∀ sec : Section, ValidUpToGaps (sec.get d) := fun sec => hd ▸ C43_partial history sec
  have key : ∀ sec : Section, ValidSection (sec.get d) ↔ ∀ l s, .mk l (.text s) ∈ sec.get d → ¬ Spec.ParagraphGap s := by
    intro sec
    constructor
    · intro h l s hm
      exact (h.2 _ (.here hm)).2
    · intro h
      refine ⟨(hs sec).1, (allChunks_iff _).1 ((allChunks_iff_forall _).2 fun c hc => ?_)⟩
      rcases (hs sec).2 c hc with ⟨l, s, rfl, hss⟩ | hv
      · exact ⟨hss, h l s hc⟩
      · have := (allChunks_iff _).2 hv
        exact this.1
  constructor
  · rintro ⟨h1, h2, h3⟩ sec
    cases sec
    · exact (key .preamable).1 h1
    · exact (key .body).1 h2
    · exact (key .trailing).1 h3
  · intro h
    exact ⟨(key .preamable).2 (h .preamable), (key .body).2 (h .body), (key .trailing).2 (h .trailing)⟩

end LatexAst.Ast3
