import Verif.Proofs.Again4a
import Verif.Spec.Again4
import Verif.Props.Again3
import Verif.Props.DocumentRule

/-! A stage-3 document going to stage 2 and back: section by section. -/

namespace LatexAst.Ast3
open Spec

/-- What going to stage 2 and back does to the chunks `cs`, which are `D` at stage 2. -/
structure Trip (cs : List Chunk) (D : List Ast2.Chunk) : Prop where
  outcome : mathsFromChunks D = .error .panic ∨ ∃ out, mathsFromChunks D = .ok out ∧ (noLines out = noLines cs ↔ OnePiece cs)
  returns : (∃ out, mathsFromChunks D = .ok out) ↔ EveryDollars (¬ Strays ·) cs
  settles : ∀ out, mathsFromChunks D = .ok out → OnePiece out

/-- Chunks as the conversion makes them. -/
def Ready (cs : List Chunk) : Prop := (∃ out', Resettles cs out') ∧ ClosedBelow cs

theorem ready_made {ds cs} (h : mathsFromChunks ds = .ok cs) : Ready cs := by
  refine ⟨C115_made h, ?_⟩
  obtain ⟨raw, h1, rfl⟩ := (C55_ok _ _).1 h
  exact yields_closed h1 raw rfl

theorem ready_nil : Ready [] := ⟨⟨[], .nil⟩, everyDollars_nil⟩

theorem Ready.trip {cs ds} (h : Ready cs) (hu : Unfolds cs ds) (s : Nat) : Trip cs (ds.map (Ast2.Chunk.shift s)) := by
  obtain ⟨⟨out', hr⟩, hc⟩ := h
  have this : mathsFromChunks (ds.map (Ast2.Chunk.shift s)) = .error .panic ∨
      ∃ out, mathsFromChunks (ds.map (Ast2.Chunk.shift s)) = .ok out ∧ noLines out = noLines out' :=
    gives_maths fun _ hy => hr.resettled.alone hu (variants_shift _ _) hy
  refine ⟨?_, ?_, ?_⟩
  rotate_left 2
  · intro out ho
    rcases this with h1 | ⟨out2, h1, h2⟩
    · rw [ho] at h1; cases h1
    · rw [ho] at h1
      cases h1
      exact onePiece_same h2.symm hr.onePiece
  · rcases this with h1 | ⟨out, h1, h2⟩
    · exact .inl h1
    · exact .inr ⟨out, h1, by rw [h2]; exact hr.same.2⟩
  · rw [goes_maths]
    obtain ⟨o, ho⟩ := yields_total 0 (ds.map (Ast2.Chunk.shift s))
    have := (hr.rests hc).alone hu (.inl ⟨s, rfl⟩) ho
    constructor
    · intro hg; exact this.1 (hg o ho)
    · intro hs o' ho'
      rw [yields_unique ho' ho]
      exact this.2 hs

theorem Ready.trip0 {cs ds} (h : Ready cs) (hu : Unfolds cs ds) : Trip cs ds := by
  have := h.trip hu 0
  rwa [shift_map_zero] at this

/-! ### arguments -/

theorem trip_args : ∀ {items : List ((Str × Scope) × List Ast2.Chunk)}, (∀ x ∈ items, Trip x.1.2.chunks x.2) →
    (tryArgs mathsFromChunks (withInner2 items) = .error .panic ∨ ∃ args, tryArgs mathsFromChunks (withInner2 items) = .ok args ∧
      (noLinesArgs args = noLinesArgs (items.map (·.1)) ↔ ∀ x ∈ items.map (·.1), OnePiece x.2.chunks)) ∧
    ((∃ args, tryArgs mathsFromChunks (withInner2 items) = .ok args) ↔ ∀ x ∈ items.map (·.1), EveryDollars (¬ Strays ·) x.2.chunks)
  | [], _ => by simp [withInner2, tryArgs, noLinesArgs]
  | ((p, .mk inner sv), D) :: items, h => by
    obtain ⟨h1, h2⟩ := trip_args fun x hx => h x (.tail _ hx)
    obtain ⟨t1, t2, _⟩ := h _ (.head _)
    have e1 : (Scope.mk inner sv).chunks = inner := rfl
    rw [e1] at t1 t2
    simp only [withInner2, tryArgs, tryScope, List.map_cons, List.forall_mem_cons, e1, Scope.variant]
    rw [← t2, ← h2]
    rcases t1 with t1 | ⟨out, t1, t3⟩
    · rw [t1]; simp
    · have hp := mathsFromChunks_split t1
      rw [t1]
      rcases h1 with h1 | ⟨args, h1, h3⟩
      · rw [h1]; simp
      · rw [h1]
        simp only [hp, noLinesArgs, Scope.noLines, List.cons.injEq, Prod.mk.injEq, true_and, and_true, Scope.mk.injEq, reduceCtorEq, Except.ok.injEq, false_or,
          exists_eq', exists_eq_left', iff_self]
        rw [t3, h3]

theorem settles_args : ∀ {items : List ((Str × Scope) × List Ast2.Chunk)}, (∀ x ∈ items, Trip x.1.2.chunks x.2) →
    ∀ args, tryArgs mathsFromChunks (withInner2 items) = .ok args → ∀ x ∈ args, OnePiece x.2.chunks
  | [], _, args, h => by simp [withInner2, tryArgs] at h; subst h; simp
  | ((p, .mk inner sv), D) :: items, h, args, ha => by
    simp only [withInner2, tryArgs, tryScope] at ha
    cases h1 : mathsFromChunks D with
    | error f => simp [h1] at ha
    | ok out =>
      cases h2 : tryArgs mathsFromChunks (withInner2 items) with
      | error f => simp [h1, h2] at ha
      | ok as =>
        simp only [h1, h2] at ha
        cases ha
        intro x hx
        rcases List.mem_cons.1 hx with rfl | hx
        · show OnePiece (paragraphs out)
          rw [mathsFromChunks_split h1]
          exact (h _ (.head _)).settles out h1
        · exact settles_args (fun x hx => h x (.tail _ hx)) as h2 x hx

/-! ### what follows -/

theorem join_apart2 : ∀ {xs : List Ast2.Chunk}, Apart xs → Ast2.joinTexts xs = xs
  | [], _ => rfl
  | c :: r, h => by
    have ih : Ast2.joinTexts r = r := join_apart2 fun a l t l' t' b he => h (c :: a) l t l' t' b (by rw [he]; rfl)
    by_cases hc : ∃ l t, c = .mk l (.text t)
    · obtain ⟨l, t, rfl⟩ := hc
      cases r with
      | nil => rfl
      | cons d r =>
        rw [Ast2.joinTexts_text_other l t d r, ih]
        rintro l' t' rfl
        exact h [] l t l' t' r rfl
    · rw [Ast2.joinTexts_other, ih]
      intro l t he; exact hc ⟨l, t, he⟩

theorem apart_shift {xs : List Ast2.Chunk} {n : Nat} (h : Apart xs) : Apart (xs.map (Ast2.Chunk.shift n)) := by
  intro a l t l' t' b he
  obtain ⟨x, y, rfl, _, hy⟩ := List.map_eq_append_iff.1 he
  obtain ⟨c, y2, rfl, hc, hy2⟩ := List.map_eq_cons_iff.1 hy
  obtain ⟨d, z, rfl, hd, hz⟩ := List.map_eq_cons_iff.1 hy2
  obtain ⟨l1, v⟩ := c
  obtain ⟨l2, w⟩ := d
  simp only [Ast2.Chunk.shift, Ast2.Chunk.mk.injEq] at hc hd
  obtain ⟨_, rfl⟩ := hc
  obtain ⟨_, rfl⟩ := hd
  exact h x l1 t l2 t' z rfl

/-- Texts put together. -/
theorem join_texts : ∀ {xs : List Ast2.Chunk}, (∀ c ∈ xs, ∃ l t, c = .mk l (.text t)) → xs ≠ [] →
    ∃ l, Ast2.joinTexts xs = [.mk l (.text (Ast2.displayChunks xs))]
  | [], _, h => absurd rfl h
  | c :: r, h, _ => by
    obtain ⟨l, t, rfl⟩ := h _ (.head _)
    cases r with
    | nil => exact ⟨l, by simp [Ast2.joinTexts, Ast2.displayChunks, Ast2.Chunk.display, Ast2.ChunkVariant.display]⟩
    | cons d r =>
      obtain ⟨l', t', rfl⟩ := h d (by simp)
      obtain ⟨m, hm⟩ := join_texts (xs := .mk l' (.text t') :: r) (fun c hc => h c (.tail _ hc)) (by simp)
      refine ⟨l, ?_⟩
      rw [Ast2.joinTexts, hm]
      simp [Ast2.displayChunks, Ast2.Chunk.display, Ast2.ChunkVariant.display]

theorem cut_isText {cs : List Chunk} (h : Cut false (cs.map Chunk.variant)) : ∀ c ∈ cs, TextLike c.variant :=
  fun c hc => cut_textLike h _ (List.mem_map_of_mem hc)

theorem unfolds_texts {cs ds} (h : ∀ c ∈ cs, TextLike c.variant) (hu : Unfolds cs ds) : (∀ c ∈ ds, ∃ l t, c = .mk l (.text t)) ∧ (ds = [] → cs = []) := by
  induction hu with
  | nil => simp
  | text _ ih =>
    obtain ⟨h1, _⟩ := ih fun c hc => h c (.tail _ hc)
    exact ⟨fun c hc => (List.mem_cons.1 hc).elim (fun e => ⟨_, _, e⟩) (h1 c), by simp⟩
  | «break» _ ih =>
    obtain ⟨h1, _⟩ := ih fun c hc => h c (.tail _ hc)
    exact ⟨fun c hc => (List.mem_cons.1 hc).elim (fun e => ⟨_, _, e⟩) (h1 c), by simp⟩
  | scope => have := h _ (.head _); rcases this with ⟨t, h⟩ | ⟨t, h⟩ <;> cases h
  | command => have := h _ (.head _); rcases this with ⟨t, h⟩ | ⟨t, h⟩ <;> cases h
  | environment => have := h _ (.head _); rcases this with ⟨t, h⟩ | ⟨t, h⟩ <;> cases h
  | maths => have := h _ (.head _); rcases this with ⟨t, h⟩ | ⟨t, h⟩ <;> cases h

theorem trip_cut {cs : List Chunk} {D : List Ast2.Chunk} (hc : Cut false (cs.map Chunk.variant)) (hd : '$' ∉ displayChunks cs)
    (hD : (∃ l, D = [.mk l (.text (displayChunks cs))]) ∨ (cs = [] ∧ D = [])) : Trip cs D := by
  have hn : ∀ Q, EveryDollars Q cs := fun Q => everyDollars_text fun v hv => cut_textLike hc v hv
  have key : ∃ out, mathsFromChunks D = .ok out ∧ noLines out = noLines cs := by
    rcases hD with ⟨l, rfl⟩ | ⟨rfl, rfl⟩
    · have hy : Yields 0 [.mk l (.text (displayChunks cs))] (.ok (textIf l (displayChunks cs))) := by
        have := Yields.text (b := 0) (l := l) hd Yields.nil
        simpa [before] using this
      exact ⟨_, (C55_ok _ _).2 ⟨_, hy, rfl⟩, paragraphs_text hc rfl⟩
    · exact ⟨[], mathsFromChunks_nil, rfl⟩
  obtain ⟨out, h1, h2⟩ := key
  refine ⟨.inr ⟨out, h1, iff_of_true h2 (hn _)⟩, iff_of_true ⟨out, h1⟩ (hn _), ?_⟩
  intro out2 ho
  rw [h1] at ho
  cases ho
  exact onePiece_same h2.symm (hn _)

theorem trip_trailing {f : Document} {tr : List Ast2.Chunk} (n : Nat) (hr : Ready f.trailing) (ht : f.Trails) (hu : Unfolds f.trailing tr) :
    Trip f.trailing (Ast2.joinTexts (tr.map (Ast2.Chunk.shift n))) := by
  rcases ht with ⟨h1, h2⟩ | h
  · apply trip_cut h1 h2
    obtain ⟨h3, h4⟩ := unfolds_texts (cut_isText h1) hu
    by_cases he : tr = []
    · subst he
      exact .inr ⟨h4 rfl, rfl⟩
    · left
      obtain ⟨l, hl⟩ := join_texts (xs := tr.map (Ast2.Chunk.shift n)) (by
        intro c hc
        obtain ⟨d, hd, rfl⟩ := List.mem_map.1 hc
        obtain ⟨l, t, rfl⟩ := h3 d hd
        exact ⟨_, _, rfl⟩) (by simpa using he)
      refine ⟨l, hl.trans ?_⟩
      rw [← Ast2.print_atoms, Ast2.atoms_shift, atoms_unfolds hu, print_atoms3]
  · rw [join_apart2 (apart_shift (h tr hu))]
    exact hr.trip hu n

/-! ### documents that were converted -/

theorem becomes_ok {cs out} : Becomes cs (.ok out) ↔ mathsFromChunks cs = .ok out := by
  rw [C55_ok]
  constructor
  · rintro ⟨o, h1, h2⟩
    cases o with
    | error f => cases h2
    | ok raw => cases h2; exact ⟨raw, h1, rfl⟩
  · rintro ⟨raw, h1, rfl⟩
    exact ⟨_, h1, rfl⟩

theorem ready_environment {l label content pb pe} {args : List (Str × Scope)} (h : Ready [.mk l (.environment (.mk label args content pb pe))]) :
    (∀ x ∈ args, Ready x.2.chunks) ∧ Ready content := by
  obtain ⟨⟨out', hr⟩, hc⟩ := h
  cases hr with
  | piece h _ => cases h
  | environment h1 h2 _ =>
    obtain ⟨hc1, hc2, _⟩ := everyDollars_environment.1 hc
    refine ⟨?_, ⟨_, h2⟩, hc2⟩
    intro x hx
    obtain ⟨y, hy, rfl⟩ := List.mem_map.1 hx
    exact ⟨⟨_, h1 y hy⟩, hc1 _ hx⟩

/-- What is known of a document that was converted from stage 2. -/
structure Loaded (f : Document) : Prop where
  ready : f.Sections Ready
  pre : ∀ xs, Unfolds f.preamable xs → (∀ c ∈ xs, isBody c = false) ∧ ClassesOk xs
  post : ∀ xs, Unfolds f.trailing xs → ∀ c ∈ xs, isBody c = false

theorem loaded {d f} (h : tryFrom d = .ok f) : Loaded f := by
  have h := (C57 d _).1 h
  cases h with
  | document h1 h2 h3 h4 h5 h6 =>
    rename_i pre post args content pb pe options
    rw [becomes_ok] at h3 h4
    have hb : (∀ x ∈ args, Ready x.2.chunks) ∧ Ready content := by
      cases h5 with
      | none => exact ⟨by simp, ready_nil⟩
      | last _ hb => exact ready_environment (ready_made (becomes_ok.1 hb))
    refine ⟨⟨ready_made h3, hb.1, hb.2, ready_made h4⟩, ?_, ?_⟩
    · intro xs hx
      have hm := marks_back h3 hx
      constructor
      · rw [isBody_marks, hm, ← isBody_marks]
        exact (preambleOf_spec d).1
      · rw [classesOk_marks, hm, ← classesOk_marks]
        exact h1
    · intro xs hx
      rw [isBody_marks, marks_back h4 hx, ← isBody_marks]
      intro c hc
      have := (List.mem_filter.1 hc).2
      simpa using this

end LatexAst.Ast3
