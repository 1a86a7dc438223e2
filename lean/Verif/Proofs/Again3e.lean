import Verif.Proofs.Again3d

/-! When going from stage 3 to stage 2 and back panics. -/

namespace LatexAst.Ast3
open Spec

theorem shift_map_zero (D : List Ast2.Chunk) : D.map (Ast2.Chunk.shift 0) = D := by
  induction D with
  | nil => rfl
  | cons c D ih => obtain ⟨l, v⟩ := c; rw [List.map_cons, ih]; rfl

theorem shift_map_shift (a b : Nat) (D : List Ast2.Chunk) : (D.map (Ast2.Chunk.shift a)).map (Ast2.Chunk.shift b) = D.map (Ast2.Chunk.shift (a + b)) := by
  induction D with
  | nil => rfl
  | cons c D ih => obtain ⟨l, v⟩ := c; simp only [List.map_cons, ih, Ast2.Chunk.shift, Nat.add_assoc]

theorem map_prepend (δ : Str) (s : Nat) (A : List Ast2.Chunk) :
    ∃ l x R, (prependDollars δ A).map (Ast2.Chunk.shift s) = .mk l (.text (δ ++ x)) :: R ∧
      ((∃ m, A = .mk m (.text x) :: (A.drop 1) ∧ l = m + s ∧ R = (A.drop 1).map (Ast2.Chunk.shift s)) ∨
       ((∀ m t r, A ≠ .mk m (.text t) :: r) ∧ x = [] ∧ R = A.map (Ast2.Chunk.shift s))) := by
  cases A with
  | nil => exact ⟨1 + s, [], [], by simp [prependDollars, Ast2.Chunk.shift], .inr ⟨by simp, rfl, rfl⟩⟩
  | cons c A =>
    obtain ⟨m, v⟩ := c
    cases v with
    | text t => exact ⟨m + s, t, A.map (Ast2.Chunk.shift s), by simp [prependDollars, Ast2.Chunk.shift], .inl ⟨m, rfl, rfl, rfl⟩⟩
    | _ => exact ⟨1 + s, [], (_ :: A).map (Ast2.Chunk.shift s), by simp [prependDollars, Ast2.Chunk.shift], .inr ⟨by simp, rfl, rfl⟩⟩

theorem closing_lines {δ : Str} {n : Nat} {A : List Ast2.Chunk} {m : Nat} {t : Str} :
    appendDollars δ n (prependDollars δ (A ++ [.mk m (.text t)])) = prependDollars δ (A ++ [.mk m (.text (t ++ δ))]) := by
  cases A with
  | nil => simp [prependDollars, appendDollars]
  | cons c A =>
    obtain ⟨l, v⟩ := c
    have key : ∀ X : List Ast2.Chunk, appendDollars δ n (X ++ [.mk m (.text t)]) = X ++ [.mk m (.text (t ++ δ))] := by
      intro X; simp [appendDollars]
    cases v with
    | text s =>
      simp only [List.cons_append, prependDollars]
      rw [← List.cons_append, key, List.cons_append]
    | _ =>
      simp only [List.cons_append, prependDollars]
      rw [← List.cons_append, ← List.cons_append, key]
      simp

theorem block_text_lines {k n A m t block} (h : Delimited .dollars k n (A ++ [.mk m (.text t)]) block) :
    block = prependDollars (dollarsOf k) (A ++ [.mk m (.text (t ++ dollarsOf k))]) := by
  rw [delimited_iff] at h
  subst h
  cases k <;> simp only [wrapMaths] <;> rw [if_neg (by simp)] <;> exact closing_lines

theorem block_plain_lines {k n A block} (h : Delimited .dollars k n A block) (hA : ∀ c ∈ A, NotText c) (hn : A = [] → n = 1) :
    block = prependDollars (dollarsOf k) (A ++ [.mk n (.text ([] ++ dollarsOf k))]) := by
  rw [delimited_iff] at h
  subst h
  have hd : dollars k = dollarsOf k := by cases k <;> rfl
  cases hA' : A.reverse with
  | nil =>
    rw [List.reverse_eq_nil_iff] at hA'
    subst hA'
    rw [hn rfl]
    cases k <;> rfl
  | cons c R =>
    obtain ⟨l, v⟩ := c
    have hA2 : A = R.reverse ++ [.mk l v] := by rw [← List.reverse_reverse A, hA']; simp
    have hv : ∀ t, v ≠ .text t := hA (.mk l v) (by rw [hA2]; simp)
    have h1 : ∀ B, prependDollars (dollarsOf k) (A ++ B) = .mk 1 (.text (dollarsOf k)) :: (A ++ B) := by
      intro B
      cases A with
      | nil => simp at hA2
      | cons c A =>
        obtain ⟨l', v'⟩ := c
        have := hA _ (.head _)
        cases v' with
        | text t => exact absurd rfl (this t)
        | _ => rfl
    have h3 : A ≠ [] := by rw [hA2]; simp
    have h4 : appendDollars (dollarsOf k) n (.mk 1 (.text (dollarsOf k)) :: A) =
        .mk 1 (.text (dollarsOf k)) :: A ++ [.mk n (.text (dollarsOf k))] := by
      unfold appendDollars
      rw [hA2, ← List.cons_append, List.getLast?_concat]
      split
      · rename_i h
        simp only [Option.some.injEq, Ast2.Chunk.mk.injEq] at h
        exact absurd h.2 (hv _)
      · rfl
    have h5 := h1 []
    rw [List.append_nil] at h5
    rw [h1]
    cases k <;> simp only [wrapMaths] <;> rw [if_neg (by simpa using h3), hd, h5, h4] <;> simp

/-- From right after the opening dollar signs to the first closing one, with lines. -/
theorem reach_lines {δ t r : Str} {left : List Chunk} {Ms L : List Ast2.Chunk} {m s : Nat} (hm : ∀ c ∈ Ms, NotText c) (ht : '$' ∉ t)
    (hc : ∀ c ∈ left, IsPiece c) (hL : L.map Ast2.Chunk.variant = left.map (fun c => .text c.variant.display)) :
    ∃ l x R, (prependDollars δ (Ms ++ L ++ [.mk m (.text (t ++ '$' :: r))])).map (Ast2.Chunk.shift s) = .mk l (.text (δ ++ x)) :: R ∧
      ∀ X, ∃ lost, ToDollar ⟨l, [], x, R ++ X⟩ lost (Ms.map (Ast2.Chunk.shift s)) ⟨m + s, t, r, X⟩ := by
  obtain ⟨l, x, R, h1, h2⟩ := map_prepend δ s (Ms ++ L ++ [.mk m (.text (t ++ '$' :: r))])
  refine ⟨l, x, R, h1, fun X => ?_⟩
  clear h1
  have hL' : (L.map (Ast2.Chunk.shift s)).map Ast2.Chunk.variant = left.map (fun c => .text c.variant.display) := (variants_shift _ _).trans hL
  have hn := variants_notText (variants_shift s Ms) hm
  cases Ms with
  | nil =>
    cases left with
    | nil =>
      have := variants_nil hL; subst this
      simp only [List.nil_append, List.drop_succ_cons, List.drop_zero, List.cons.injEq, Ast2.Chunk.mk.injEq, Ast2.ChunkVariant.text.injEq] at h2
      rcases h2 with ⟨m', ⟨⟨rfl, rfl⟩, _⟩, rfl, rfl⟩ | ⟨h2, _⟩
      · exact ⟨[], .here ht⟩
      · exact (h2 _ _ _ rfl).elim
    | cons c left =>
      obtain ⟨l2, L2, rfl, hL2⟩ := variants_cons hL
      simp only [List.nil_append, List.cons_append, List.drop_succ_cons, List.drop_zero, List.cons.injEq, Ast2.Chunk.mk.injEq,
        Ast2.ChunkVariant.text.injEq] at h2
      rcases h2 with ⟨m', ⟨⟨rfl, rfl⟩, _⟩, rfl, rfl⟩ | ⟨h2, _⟩
      · obtain ⟨lost, h3, _⟩ := walk (t := t) (r := r) (m := m + s) (X := X) ht (l := l2 + s) (L := L2.map (Ast2.Chunk.shift s))
          (fun c h => hc c (.tail _ h)) ((variants_shift _ _).trans hL2) (piece_no_dollar (hc c (.head _)))
        exact ⟨_, by simpa [Ast2.Chunk.shift] using h3⟩
      · exact (h2 _ _ _ rfl).elim
  | cons c Ms =>
    have hx : x = [] ∧ R = (c :: Ms ++ L ++ [Ast2.Chunk.mk m (.text (t ++ '$' :: r))]).map (Ast2.Chunk.shift s) := by
      rcases h2 with ⟨m', h2, _⟩ | ⟨_, h2⟩
      · simp only [List.cons_append, List.cons.injEq] at h2
        exact absurd (by rw [h2.1]; rfl) (hm c (.head _) x)
      · exact h2
    obtain ⟨rfl, rfl⟩ := hx
    cases left with
    | nil =>
      have := variants_nil hL; subst this
      refine ⟨[], ?_⟩
      have := ToDollar.later (l := l) (q := []) (x := []) (by simp) hn (.here (l := m + s) (q := []) (r := r) (rest := X) ht)
      simpa [textIf, Ast2.Chunk.shift] using this
    | cons d left =>
      obtain ⟨l2, L2, rfl, hL2⟩ := variants_cons hL
      obtain ⟨lost, h3, _⟩ := walk (t := t) (r := r) (m := m + s) (X := X) ht (l := l2 + s) (L := L2.map (Ast2.Chunk.shift s))
        (fun c h => hc c (.tail _ h)) ((variants_shift _ _).trans hL2) (piece_no_dollar (hc d (.head _)))
      refine ⟨textIf (l2 + s) d.variant.display ++ lost, ?_⟩
      have := ToDollar.later (l := l) (q := []) (x := []) (by simp) hn h3
      simpa [textIf, Ast2.Chunk.shift] using this

/-- The formula found in the block, with lines. -/
theorem found_lines {k : MathsType} {t : Str} {left : List Chunk} {Ms L : List Ast2.Chunk} {m s : Nat} (hm : ∀ c ∈ Ms, NotText c) (ht : '$' ∉ t)
    (hc : ∀ c ∈ left, IsPiece c) (hL : L.map Ast2.Chunk.variant = left.map (fun c => .text c.variant.display))
    (hne : k = .inline → Ms ≠ [] ∨ t ≠ []) :
    ∃ l x R, (prependDollars (dollarsOf k) (Ms ++ L ++ [.mk m (.text (t ++ dollarsOf k))])).map (Ast2.Chunk.shift s) = .mk l (.text ('$' :: x)) :: R ∧
      ∀ X, ∃ lost, Formula ⟨l, [], x, R ++ X⟩ lost k (Ms.map (Ast2.Chunk.shift s) ++ textIf2 (m + s) t) ⟨m + s, t, [], X⟩ := by
  cases k with
  | inline =>
    obtain ⟨l, x, R, h1, h2⟩ := reach_lines (δ := chars!"$") (r := []) (m := m) (s := s) hm ht hc hL
    refine ⟨l, x, R, h1, fun X => ?_⟩
    obtain ⟨lost, h3⟩ := h2 X
    exact ⟨lost, .inline h3 ((hne rfl).imp (by simp) id)⟩
  | outline =>
    obtain ⟨l, x, R, h1, h2⟩ := reach_lines (δ := chars!"$$") (r := chars!"$") (m := m) (s := s) hm ht hc hL
    refine ⟨l, '$' :: x, R, h1, fun X => ?_⟩
    obtain ⟨lost, h3⟩ := h2 X
    refine ⟨lost, ?_⟩
    have := Formula.display (p := ⟨l, [], '$' :: x, R ++ X⟩) (.here (x := []) (by simp)) rfl h3 (.here (x := []) (q := t) (r := []) (by simp))
    simpa using this

/-- `D` are the chunks `ds`, to which `cs` unfold, numbered from another line; without text the lines do not matter. -/
def Relined (cs : List Chunk) (ds D : List Ast2.Chunk) : Prop :=
  (∃ s, D = ds.map (Ast2.Chunk.shift s)) ∨ (Textless cs ∧ D.map Ast2.Chunk.variant = ds.map Ast2.Chunk.variant)

/-- What is proved: there is no failure exactly if no formula strays, and there is none in what follows. -/
def Rests (cs : List Chunk) : Prop := ∀ ds D X b o (G : Prop), Unfolds cs ds → Relined cs ds D → Yields b (D ++ X) o →
  (∀ b' o', Yields b' X o' → (Goes o' ↔ G)) → (Goes o ↔ EveryDollars (¬ Strays ·) cs ∧ G)

theorem goes_nil {b o} (h : Yields b [] o) : Goes o := by
  rw [yields_unique h .nil]; exact ⟨[], rfl⟩

theorem Rests.alone {cs ds D b o} (h : Rests cs) (hu : Unfolds cs ds) (hv : Relined cs ds D) (hy : Yields b D o) :
    Goes o ↔ EveryDollars (¬ Strays ·) cs := by
  have := h ds D [] b o True hu hv (by simpa using hy) fun b' o' h => iff_of_true (goes_nil h) trivial
  simpa using this

theorem relined_refl (cs : List Chunk) (ds : List Ast2.Chunk) : Relined cs ds ds := .inl ⟨0, (shift_map_zero ds).symm⟩

theorem Relined.cons {c d cs ds D} (hd : Textless (c :: cs) → Textless cs) (h : Relined (c :: cs) (d :: ds) D) :
    ∃ l D', D = .mk l d.variant :: D' ∧ Relined cs ds D' := by
  rcases h with ⟨s, rfl⟩ | ⟨h1, h2⟩
  · obtain ⟨l, v⟩ := d
    exact ⟨l + s, _, rfl, .inl ⟨s, rfl⟩⟩
  · obtain ⟨l, D', rfl, h3⟩ := variants_cons h2
    exact ⟨l, D', rfl, .inr ⟨hd h1, h3⟩⟩

theorem goes_arg {ys : List ((Str × Ast2.Scope) × Outcome)} : (∃ a, argOutcome ys = .ok a) ↔ ∀ y ∈ ys, Goes y.2 := by
  induction ys with
  | nil => simp [argOutcome]
  | cons y ys ih =>
    obtain ⟨⟨p, sc⟩, o⟩ := y
    rw [List.forall_mem_cons, ← ih]
    cases o with
    | error f => simp [argOutcome, Goes]
    | ok raw =>
      cases ha : argOutcome ys with
      | error f => simp [argOutcome, ha]
      | ok a => simp [argOutcome, ha, Goes]

theorem Rests.args : ∀ {items : List ((Str × Scope) × List Chunk)} {us : List ((Str × Scope) × List Ast2.Chunk)}
    {ys : List ((Str × Ast2.Scope) × Outcome)}, (∀ x ∈ items, Rests x.1.2.chunks) → items.map (·.1) = us.map (·.1) →
    (∀ x ∈ us, Unfolds x.1.2.chunks x.2) → withInner2 us = ys.map (·.1) → (∀ x ∈ ys, Yields 0 x.1.2.chunks x.2) →
    ((∀ y ∈ ys, Goes y.2) ↔ ∀ x ∈ us.map (·.1), EveryDollars (¬ Strays ·) x.2.chunks) := by
  intro items
  induction items with
  | nil =>
    intro us ys _ h1 _ h2 _
    have : us = [] := by simpa using h1.symm
    subst this
    have : ys = [] := by simpa [withInner2] using h2.symm
    subst this
    simp
  | cons x items ih =>
    obtain ⟨⟨p, ⟨inner, sv⟩⟩, cs⟩ := x
    intro us ys h0 h1 hu h2 hy
    cases us with
    | nil => simp at h1
    | cons u us =>
      obtain ⟨⟨p', sc⟩, ds⟩ := u
      simp only [List.map_cons, List.cons.injEq, Prod.mk.injEq] at h1
      obtain ⟨⟨rfl, rfl⟩, h1⟩ := h1
      cases ys with
      | nil => simp [withInner2] at h2
      | cons y ys =>
        obtain ⟨⟨p2, sc2⟩, o⟩ := y
        simp only [withInner2, List.map_cons, List.cons.injEq, Prod.mk.injEq, Scope.variant] at h2
        obtain ⟨⟨rfl, rfl⟩, h2⟩ := h2
        have g1 := (h0 _ (.head _)).alone (hu _ (.head _)) (relined_refl _ _) (hy _ (.head _))
        have g2 := ih (fun x hx => h0 x (.tail _ hx)) h1 (fun x hx => hu x (.tail _ hx)) h2 (fun x hx => hy x (.tail _ hx))
        rw [List.map_cons, List.forall_mem_cons, List.forall_mem_cons, g2]
        exact and_congr g1 Iff.rfl

theorem closeLine_text {A : List Chunk} {c : Chunk} (h : IsPiece c) : closeLine (A ++ [c]) = c.lineNo := by
  cases h <;> simp [closeLine] <;> rfl

theorem closeLine_plain {ms : List Chunk} (h : Textless ms) : closeLine ms = 1 + (displayChunks ms).count '\n' := by
  have hn := textless_not_text h
  unfold closeLine
  rcases List.eq_nil_or_concat ms with rfl | ⟨A, c, rfl⟩
  · rfl
  · obtain ⟨l, v⟩ := c
    have := hn (.mk l v) (by simp)
    rw [List.concat_eq_append, List.getLast?_concat]
    cases v with
    | text t => exact absurd (.inl ⟨t, rfl⟩) this
    | paragraphBreak t => exact absurd (.inr ⟨t, rfl⟩) this
    | _ => rfl

/-- A formula in dollar signs, with lines. -/
theorem rests_formula {k} {ms left : List Chunk} {Ms L X : List Ast2.Chunk} {b o} {t : Str} {m s : Nat} {G : Prop} (hms : Rests ms) (hM : Unfolds ms Ms) (htl : Textless ms)
    (ht : '$' ∉ t) (hc : ∀ c ∈ left, IsPiece c) (hL : L.map Ast2.Chunk.variant = left.map (fun c => .text c.variant.display))
    (hne : k = .inline → Ms ≠ [] ∨ t ≠ []) (hm0 : Ms ≠ [] ∨ t ≠ [] → 1 ≤ m)
    (hy : Yields b ((prependDollars (dollarsOf k) (Ms ++ L ++ [.mk m (.text (t ++ dollarsOf k))])).map (Ast2.Chunk.shift s) ++ X) o)
    (hX : ∀ b' o', Yields b' X o' → (Goes o' ↔ G)) :
    Goes o ↔ ((∀ c ∈ Ms, m ≤ c.lineNo + 1) ∧ EveryDollars (¬ Strays ·) ms) ∧ G := by
  have hm := unfolds_textless htl hM
  obtain ⟨l, x, R, h1, h2⟩ := found_lines (m := m) (s := s) hm ht hc hL hne
  obtain ⟨lost, hf⟩ := h2 X
  rw [h1] at hy
  have hcount : Countable (m + s) (Ms.map (Ast2.Chunk.shift s) ++ textIf2 (m + s) t) ↔ ∀ c ∈ Ms, m ≤ c.lineNo + 1 := by
    constructor
    · rintro (h | ⟨_, h⟩) c hc
      · have := (List.append_eq_nil_iff.1 h).1
        rw [List.map_eq_nil_iff] at this
        subst this
        cases hc
      · obtain ⟨l, v⟩ := c
        have := h (.mk (l + s) v) (List.mem_append_left _ (List.mem_map.2 ⟨_, hc, rfl⟩))
        simp only [Ast2.Chunk.lineNo] at this ⊢
        omega
    · intro h
      by_cases hn : Ms = [] ∧ t = []
      · obtain ⟨rfl, rfl⟩ := hn
        exact .inl rfl
      · refine .inr ⟨?_, ?_⟩
        · have := hm0 (by
            by_cases hM : Ms = []
            · exact .inr fun ht => hn ⟨hM, ht⟩
            · exact .inl hM)
          omega
        · intro c hc
          rcases List.mem_append.1 hc with hc | hc
          · obtain ⟨⟨l, v⟩, hc', rfl⟩ := List.mem_map.1 hc
            have := h _ hc'
            simp only [Ast2.Chunk.lineNo, Ast2.Chunk.shift] at this ⊢
            omega
          · unfold textIf2 at hc
            split at hc
            · cases hc
            · simp only [List.mem_singleton] at hc
              subst hc
              exact Nat.le_succ _
  rw [← hcount]
  have hq : '$' ∉ ([] : Str) := by simp
  by_cases hcn : Countable (m + s) (Ms.map (Ast2.Chunk.shift s) ++ textIf2 (m + s) t)
  · obtain ⟨i, hi⟩ := yields_total 0 ((Ms.map (Ast2.Chunk.shift s) ++ textIf2 (m + s) t).map (countFrom (m + s)))
    obtain ⟨o', ho'⟩ := yields_total b (.mk (m + s + t.count '\n') (.text []) :: X)
    rw [yields_unique hy (.formula (q := []) hq hf hcn hi ho'), goes_block]
    refine and_congr ?_ (hX b o' (yields_empty.1 ho'))
    rw [List.map_append] at hi
    have g := hms Ms _ _ 0 i True hM (.inr ⟨htl, (variants_count _ _).trans (variants_shift _ _)⟩) hi (by
      intro b' o' h
      refine iff_of_true ?_ trivial
      unfold textIf2 at h
      split at h
      · exact goes_nil h
      · rw [yields_unique h (.text ht .nil)]
        exact ⟨_, rfl⟩)
    rw [g]
    simp [hcn]
  · rw [yields_unique hy (.uncountable (q := []) hq hf hcn)]
    simp [hcn, Goes]

theorem strays_iff {content : List Chunk} {xs : List Ast2.Chunk} (h : Unfolds content xs) :
    ¬ Strays content ↔ ∀ x ∈ xs, NotText x → closeLine content ≤ x.lineNo + 1 := by
  constructor
  · intro hs x hx hn
    rcases Nat.lt_or_ge (x.lineNo + 1) (closeLine content) with hl | hl
    · exact absurd ⟨xs, x, h, hx, hn, hl⟩ hs
    · exact hl
  · rintro hs ⟨ys, x, h1, hx, hn, hl⟩
    have := (unfolds_into h).symm.trans (unfolds_into h1)
    cases this
    have := hs x hx hn
    omega

/-- The rule for panics. -/
theorem Resettles.rests {cs out'} (h : Resettles cs out') : ClosedBelow cs → Rests cs := by
  unfold ClosedBelow
  induction h with
  | nil =>
    intro _ ds D X b o G hu hv hy hX
    cases hu
    have : D = [] := by rcases hv with ⟨s, rfl⟩ | ⟨_, h⟩; exact rfl; exact variants_nil h
    subst this
    rw [hX b o hy]
    exact ⟨fun h => ⟨everyDollars_nil, h⟩, fun h => h.2⟩
  | @piece c rest rest' hp _ ih =>
    intro hcb ds D X b o G hu hv hy hX
    rw [everyDollars_cons] at hcb ⊢
    obtain ⟨d1, d2, rfl, h1, h2⟩ := unfolds_cons hu
    rw [unfolds_piece hp h1] at hv
    obtain ⟨l, D2, rfl, hv2⟩ := hv.cons (by intro h; cases hp <;> cases h)
    obtain ⟨o', ho'⟩ := yields_total b (D2 ++ X)
    rw [yields_unique hy (.text (piece_no_dollar hp) ho'), goes_before, ih hcb.2 d2 D2 X b o' G h2 hv2 ho' hX]
    exact and_congr ⟨fun h => ⟨everyDollars_pieces (by simpa using hp), h⟩, fun h => h.2⟩ Iff.rfl
  | @command l label rest rest' items hl _ _ ih1 ih2 =>
    intro hcb ds D X b o G hu hv hy hX
    rw [everyDollars_command] at hcb ⊢
    have hcb1 : ∀ x ∈ items, Rests x.1.2.chunks := fun x hx => ih1 x hx (hcb.1 x.1 (List.mem_map.2 ⟨x, hx, rfl⟩))
    generalize hargs : items.map (·.1) = args at hu hv ⊢
    cases hu with
    | @command _ _ _ ds' us h1 h2 =>
      obtain ⟨l', D2, rfl, hv2⟩ := hv.cons (by intro h; cases h; assumption)
      simp only [Ast2.Chunk.variant] at hy
      generalize hin : withInner2 us = args2 at hy
      obtain ⟨ys, rfl, hi⟩ := yield_items (args := args2) fun x _ => yields_total 0 x.2.chunks
      obtain ⟨o', ho'⟩ := yields_total b (D2 ++ X)
      rw [yields_unique hy (.command hl hi ho'), goes_command, goes_arg, Rests.args hcb1 hargs h1 hin hi,
        ih2 hcb.2 ds' D2 X b o' G h2 hv2 ho' hX, and_assoc]
  | @scope l inner inner' sv rest rest' _ _ ih1 ih2 =>
    intro hcb ds D X b o G hu hv hy hX
    rw [everyDollars_scope] at hcb ⊢
    cases hu with
    | scope h1 h2 =>
      obtain ⟨l', D2, rfl, hv2⟩ := hv.cons (by intro h; cases h; assumption)
      simp only [Ast2.Chunk.variant] at hy
      obtain ⟨i, hi⟩ := yields_total 0 _
      obtain ⟨o', ho'⟩ := yields_total b (D2 ++ X)
      rw [yields_unique hy (.scope hi ho'), goes_scope, (ih1 hcb.1).alone h1 (relined_refl _ _) hi, ih2 hcb.2 _ D2 X b o' G h2 hv2 ho' hX, and_assoc]
  | @environment l label content content' pb pe rest rest' items _ _ _ ih1 ih3 ih2 =>
    intro hcb ds D X b o G hu hv hy hX
    rw [everyDollars_environment] at hcb ⊢
    have hcb1 : ∀ x ∈ items, Rests x.1.2.chunks := fun x hx => ih1 x hx (hcb.1 x.1 (List.mem_map.2 ⟨x, hx, rfl⟩))
    generalize hargs : items.map (·.1) = args at hu hv ⊢
    cases hu with
    | @environment _ _ _ _ _ _ _ ds' us h1 h3 h2 =>
      obtain ⟨l', D2, rfl, hv2⟩ := hv.cons (by intro h; cases h; assumption)
      simp only [Ast2.Chunk.variant] at hy
      generalize hin : withInner2 us = args2 at hy
      obtain ⟨ys, rfl, hi⟩ := yield_items (args := args2) fun x _ => yields_total 0 x.2.chunks
      obtain ⟨i, hi'⟩ := yields_total 0 _
      obtain ⟨o', ho'⟩ := yields_total b (D2 ++ X)
      rw [yields_unique hy (.environment hi hi' ho'), goes_environment, goes_arg, Rests.args hcb1 hargs h1 hin hi,
        (ih3 hcb.2.1).alone h3 (relined_refl _ _) hi', ih2 hcb.2.2 ds' D2 X b o' G h2 hv2 ho' hX]
      simp only [and_assoc]
  | @brackets l k content content' rest rest' hw hcont _ ih1 ih2 =>
    intro hcb ds D X b o G hu hv hy hX
    rw [everyDollars_maths] at hcb ⊢
    cases hu with
    | @maths _ _ _ _ cds block _ ds' hl h1 h2 h3 =>
      have hblock : ∃ l1 l2, block = .mk l1 (.command (.mk (openLabel k) [])) :: (cds ++ [.mk l2 (.command (.mk (closeLabel k) []))]) := by
        cases h2
        · exact ⟨1, _, rfl⟩
        · exact ⟨1, _, rfl⟩
      obtain ⟨l1, l2, rfl⟩ := hblock
      have hD : ∃ l3 l4 D4 D3, D = .mk l3 (.command (.mk (openLabel k) [])) :: (D4 ++ .mk l4 (.command (.mk (closeLabel k) [])) :: D3) ∧
          Relined content cds D4 ∧ Relined rest ds' D3 := by
        rcases hv with ⟨s, rfl⟩ | ⟨ht, hv⟩
        · refine ⟨l1 + (l - 1) + s, l2 + (l - 1) + s, cds.map (Ast2.Chunk.shift (l - 1 + s)), ds'.map (Ast2.Chunk.shift s), ?_, .inl ⟨_, rfl⟩, .inl ⟨_, rfl⟩⟩
          simp only [List.map_append, List.map_cons, List.map_nil, shift_map_shift, List.cons_append, List.append_assoc, List.nil_append, Ast2.Chunk.shift]
        · rw [List.map_append, variants_shift, List.map_cons, List.map_append, List.cons_append, List.append_assoc] at hv
          obtain ⟨l3, D1, rfl, hv1⟩ := variants_cons hv
          obtain ⟨D4, D2, rfl, hv4, hv2⟩ := variants_append hv1
          obtain ⟨D5, D3, rfl, hv5, hv3⟩ := variants_append hv2
          obtain ⟨l4, D6, rfl, hv6⟩ := variants_cons hv5
          rw [variants_nil hv6]
          cases ht with
          | brackets ht1 ht2 => exact ⟨l3, l4, D4, D3, by simp [Ast2.Chunk.variant], .inr ⟨ht1, hv4⟩, .inr ⟨ht2, hv3⟩⟩
      obtain ⟨l3, l4, D4, D3, rfl, r1, r2⟩ := hD
      have hv4 : D4.map Ast2.Chunk.variant = cds.map Ast2.Chunk.variant := by
        rcases r1 with ⟨s, rfl⟩ | ⟨_, h⟩
        · exact variants_shift _ _
        · exact h
      have hno : ∀ c ∈ D4, NotOfKind k c := by
        intro c hc
        have : c.variant ∈ cds.map Ast2.Chunk.variant := by rw [← hv4]; exact List.mem_map.2 ⟨c, hc, rfl⟩
        obtain ⟨d, hd, he⟩ := List.mem_map.1 this
        have := resettles_without hcont hw h1 d hd
        intro args
        rw [← he]
        exact this args
      obtain ⟨i, hi⟩ := yields_total 0 D4
      obtain ⟨o', ho'⟩ := yields_total l3 (D3 ++ X)
      simp only [List.cons_append, List.append_assoc, List.nil_append] at hy
      rw [yields_unique hy (.brackets (notOfKind_inside hno) hi ho'), goes_block, (ih1 hcb.1.2).alone h1 r1 hi, ih2 hcb.2 _ D3 X l3 o' G h3 r2 ho' hX,
        and_assoc, and_assoc]
      exact ⟨fun h => ⟨(by intro h; cases h), h⟩, fun h => h.2⟩
  | @plain l k ms ms' rest rest' hne ht hms _ ih1 ih2 =>
    intro hcb ds D X b o G hu hv hy hX
    rw [everyDollars_maths] at hcb ⊢
    cases hu with
    | @maths _ _ _ _ Ms block _ ds' hl h1 h2 h3 =>
      have hm := unfolds_textless ht h1
      have hb := block_plain_lines h2 hm (by
        intro h
        rw [textless_nil ht (h ▸ h1)]
        rfl)
      rcases hv with ⟨s, rfl⟩ | ⟨hv, _⟩
      · rw [List.map_append, shift_map_shift, hb, List.append_assoc] at hy
        have := rests_formula (left := []) (L := []) (t := []) (G := EveryDollars (¬ Strays ·) rest ∧ G) (ih1 hcb.1.2) h1 ht (by simp) (by simp) rfl
          (fun hk => .inl fun h => hne hk (textless_nil ht (h ▸ h1))) (fun _ => Nat.le_add_right _ _) (by simpa using hy)
          (fun b' o' h => ih2 hcb.2 ds' _ X b' o' G h3 (.inl ⟨s, rfl⟩) h hX)
        rw [this, strays_iff h1, closeLine_plain ht, ← and_assoc]
        refine and_congr (and_congr (and_congr ⟨fun h _ x hx _ => h x hx, fun h x hx => h rfl x hx (hm x hx)⟩ Iff.rfl) Iff.rfl) Iff.rfl
      · cases hv
  | @dollars l k ms ms' left last rest rest' ht hms hp hq _ ih1 ih2 =>
    intro hcb ds D X b o G hu hv hy hX
    rw [everyDollars_maths] at hcb ⊢
    cases hu with
    | @maths _ _ _ _ cds block _ ds' hl h1 h2 h3 =>
      have h1' := h1
      obtain ⟨d1, d2, rfl, h4, h5⟩ := unfolds_split h1
      obtain ⟨Ms, L, rfl, h6, h7⟩ := unfolds_split h4
      have hd2 := unfolds_piece hq h5
      subst hd2
      have hb := block_text_lines h2
      rcases hv with ⟨s, rfl⟩ | ⟨hv, _⟩
      · rw [List.map_append, shift_map_shift, hb, List.append_assoc] at hy
        have hLv := unfolds_pieces hp h7
        have hcb2 : EveryDollars _ ms ∧ _ := everyDollars_append.1 (by rw [← List.append_assoc]; exact hcb.1.2)
        have := rests_formula (G := EveryDollars (¬ Strays ·) rest ∧ G) (ih1 hcb2.1) h6 ht (piece_no_dollar hq) hp hLv
          (fun _ => .inr (piece_ne hq)) (fun _ => hcb.1.1 rfl _ _ rfl (piece_textLike hq)) hy
          (fun b' o' h => ih2 hcb.2 ds' _ X b' o' G h3 (.inl ⟨s, rfl⟩) h hX)
        have hsp : EveryDollars (¬ Strays ·) (ms ++ left ++ [last]) ↔ EveryDollars (¬ Strays ·) ms := by
          rw [everyDollars_append, everyDollars_append, and_assoc]
          exact ⟨fun h => h.1, fun h => ⟨h, everyDollars_pieces hp, everyDollars_pieces (by simpa using hq)⟩⟩
        rw [this, strays_iff h1', closeLine_text hq, ← and_assoc, hsp]
        refine and_congr (and_congr (and_congr ⟨fun h _ x hx hn => ?_, fun h x hx => h rfl x (by simp [hx]) (unfolds_textless ht h6 x hx)⟩ Iff.rfl) Iff.rfl) Iff.rfl
        rcases List.mem_append.1 hx with hx | hx
        · rcases List.mem_append.1 hx with hx | hx
          · exact h x hx
          · exfalso
            have : x.variant ∈ L.map Ast2.Chunk.variant := List.mem_map.2 ⟨x, hx, rfl⟩
            rw [hLv] at this
            obtain ⟨c, _, hc⟩ := List.mem_map.1 this
            exact hn _ hc.symm
        · simp only [List.mem_singleton] at hx
          subst hx
          exact absurd rfl (hn _)
      · cases hv

end LatexAst.Ast3
