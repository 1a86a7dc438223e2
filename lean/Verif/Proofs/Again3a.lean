import Verif.Spec.Again3
import Verif.Proofs.Load3d
import Verif.Proofs.BackRule3

/-! Going from stage 3 to stage 2 and back: walking over the texts of a formula. -/

namespace LatexAst.Ast3
open Spec

theorem variants_cons {D : List Ast2.Chunk} {v vs} (h : D.map Ast2.Chunk.variant = v :: vs) :
    ∃ l R, D = .mk l v :: R ∧ R.map Ast2.Chunk.variant = vs := by
  cases D with
  | nil => simp at h
  | cons c R =>
    obtain ⟨l, v'⟩ := c
    simp only [List.map_cons, List.cons.injEq, Ast2.Chunk.variant] at h
    obtain ⟨rfl, h⟩ := h
    exact ⟨l, R, rfl, h⟩

theorem variants_append {D : List Ast2.Chunk} {vs ws} (h : D.map Ast2.Chunk.variant = vs ++ ws) :
    ∃ A B, D = A ++ B ∧ A.map Ast2.Chunk.variant = vs ∧ B.map Ast2.Chunk.variant = ws := by
  obtain ⟨A, B, rfl, h1, h2⟩ := List.map_eq_append_iff.1 h
  exact ⟨A, B, rfl, h1, h2⟩

theorem variants_nil {D : List Ast2.Chunk} (h : D.map Ast2.Chunk.variant = []) : D = [] := by simpa using h

theorem variants_shift (k : Nat) (D : List Ast2.Chunk) : (D.map (Ast2.Chunk.shift k)).map Ast2.Chunk.variant = D.map Ast2.Chunk.variant := by
  induction D with
  | nil => rfl
  | cons c D ih => obtain ⟨l, v⟩ := c; simp only [List.map_cons, ih]; rfl

theorem variants_count (k : Nat) (D : List Ast2.Chunk) : (D.map (countFrom k)).map Ast2.Chunk.variant = D.map Ast2.Chunk.variant := by
  induction D with
  | nil => rfl
  | cons c D ih => obtain ⟨l, v⟩ := c; simp only [List.map_cons, ih]; rfl

theorem variants_notText {D E : List Ast2.Chunk} (h : D.map Ast2.Chunk.variant = E.map Ast2.Chunk.variant) (hE : ∀ c ∈ E, NotText c) :
    ∀ c ∈ D, NotText c := by
  intro c hc t ht
  have : Ast2.ChunkVariant.text t ∈ E.map Ast2.Chunk.variant := by
    rw [← h, ← ht]; exact List.mem_map.2 ⟨c, hc, rfl⟩
  obtain ⟨e, he, h2⟩ := List.mem_map.1 this
  exact hE e he t h2

theorem variants_prepend {δ : Str} {C E : List Ast2.Chunk} (h : C.map Ast2.Chunk.variant = E.map Ast2.Chunk.variant) :
    (prependDollars δ C).map Ast2.Chunk.variant = (prependDollars δ E).map Ast2.Chunk.variant := by
  cases C with
  | nil => rw [variants_nil h.symm]
  | cons c C =>
    obtain ⟨l, v⟩ := c
    obtain ⟨l', E', rfl, h'⟩ := variants_cons (h.symm.trans (List.map_cons ..))
    cases v <;> simp [prependDollars, h', Ast2.Chunk.variant]

/-! ### unfolding sequences -/

theorem unfolds_split {a b ds} (h : Unfolds (a ++ b) ds) : ∃ da db, ds = da ++ db ∧ Unfolds a da ∧ Unfolds b db := by
  have h1 := unfolds_into h
  induction a generalizing ds with
  | nil => exact ⟨[], ds, rfl, .nil, h⟩
  | cons c a ih =>
    obtain ⟨l, v⟩ := c
    simp only [List.cons_append, intoChunks] at h1
    cases hv : intoVariant l v with
    | error f => simp [hv] at h1
    | ok xs =>
      cases hr : intoChunks (a ++ b) with
      | error f => simp [hv, hr] at h1
      | ok ys =>
        simp [hv, hr] at h1
        obtain ⟨da, db, rfl, h2, h3⟩ := ih (rule3 _ _ hr) hr
        refine ⟨xs ++ da, db, by simp [← h1], ?_, h3⟩
        exact unfolds_append (rule3 [.mk l v] xs (by simp [intoChunks, hv])) h2

theorem unfolds_cons {c a ds} (h : Unfolds (c :: a) ds) : ∃ dc da, ds = dc ++ da ∧ Unfolds [c] dc ∧ Unfolds a da :=
  unfolds_split (a := [c]) h

/-- Pieces of text become texts. -/
theorem unfolds_piece {c ds} (hc : IsPiece c) (h : Unfolds [c] ds) : ds = [.mk c.lineNo (.text c.variant.display)] := by
  cases hc with
  | text h1 h2 => cases h with | text h => cases h; rfl
  | «break» h1 => cases h with | «break» h => cases h; rfl

theorem piece_no_dollar {c} (h : IsPiece c) : '$' ∉ c.variant.display := by
  cases h with
  | text h1 h2 => exact h2
  | «break» h1 =>
    intro hc
    have := h1.2.1 '$' hc
    exact absurd this (by decide)

theorem piece_ne {c} (h : IsPiece c) : c.variant.display ≠ [] := by
  cases h with
  | text h1 h2 => exact h1.1
  | «break» h1 => obtain ⟨⟨r, rfl⟩, _⟩ := h1; exact List.cons_ne_nil _ _

theorem piece_paragraphs {c} (h : IsPiece c) (l : Nat) : noLines (paragraphs (textIf l c.variant.display)) = noLines [c] := by
  refine paragraphs_text ?_ (by obtain ⟨l, v⟩ := c; simp [displayChunks, Chunk.variant, Chunk.display])
  cases h with
  | text h1 h2 => exact .last h1 (by simp)
  | «break» h1 => exact .break h1 .nil

theorem unfolds_pieces {left ds} (hc : ∀ c ∈ left, IsPiece c) (h : Unfolds left ds) :
    ds.map Ast2.Chunk.variant = left.map (fun c => .text c.variant.display) := by
  induction left generalizing ds with
  | nil => cases h; rfl
  | cons c left ih =>
    obtain ⟨dc, da, rfl, h1, h2⟩ := unfolds_cons h
    rw [unfolds_piece (hc c (.head _)) h1]
    simp only [List.singleton_append, List.map_cons, ih (fun c h => hc c (.tail _ h)) h2]
    rfl

theorem unfolds_textless {ms} (h : Textless ms) : ∀ {ds}, Unfolds ms ds → ∀ c ∈ ds, NotText c := by
  induction h with
  | nil => intro ds h; cases h; simp
  | command _ ih =>
    intro ds h
    cases h with
    | command h1 h2 =>
      intro c hc
      rcases List.mem_cons.1 hc with rfl | hc
      · intro t h; cases h
      · exact ih h2 c hc
  | scope _ ih =>
    intro ds h
    cases h with
    | scope h1 h2 =>
      intro c hc
      rcases List.mem_cons.1 hc with rfl | hc
      · intro t h; cases h
      · exact ih h2 c hc
  | environment _ ih =>
    intro ds h
    cases h with
    | environment h1 h3 h2 =>
      intro c hc
      rcases List.mem_cons.1 hc with rfl | hc
      · intro t h; cases h
      · exact ih h2 c hc
  | brackets _ _ ih1 ih2 =>
    intro ds h
    cases h with
    | @maths _ _ _ _ content' block _ ds' hl h1 h2 h3 =>
      intro c hc
      rcases List.mem_append.1 hc with hc | hc
      · have : ∀ c ∈ block, NotText c := by
          cases h2 with
          | round =>
            intro c hc
            simp only [List.mem_cons, List.mem_append, List.not_mem_nil, or_false] at hc
            rcases hc with rfl | hc | rfl
            · intro t h; cases h
            · exact ih1 h1 c hc
            · intro t h; cases h
          | square =>
            intro c hc
            simp only [List.mem_cons, List.mem_append, List.not_mem_nil, or_false] at hc
            rcases hc with rfl | hc | rfl
            · intro t h; cases h
            · exact ih1 h1 c hc
            · intro t h; cases h
        exact variants_notText (variants_shift _ _) this c hc
      · exact ih2 h3 c hc

/-- Nodes do not vanish. -/
theorem textless_nil {ms} (h : Textless ms) (hu : Unfolds ms []) : ms = [] := by
  generalize hd : ([] : List Ast2.Chunk) = ds at hu
  cases h with
  | nil => rfl
  | command => cases hu; cases hd
  | scope => cases hu; cases hd
  | environment => cases hu; cases hd
  | brackets =>
    cases hu with
    | maths _ _ h2 _ => cases h2 <;> simp at hd

/-! ### the formula -/

theorem closing {δ : Str} {n : Nat} {A : List Ast2.Chunk} {m : Nat} {t : Str} :
    (appendDollars δ n (prependDollars δ (A ++ [.mk m (.text t)]))).map Ast2.Chunk.variant =
      (prependDollars δ (A ++ [.mk m (.text (t ++ δ))])).map Ast2.Chunk.variant := by
  cases A with
  | nil => simp [prependDollars, appendDollars, Ast2.Chunk.variant]
  | cons c A =>
    obtain ⟨l, v⟩ := c
    have key : ∀ X : List Ast2.Chunk, appendDollars δ n (X ++ [.mk m (.text t)]) = X ++ [.mk m (.text (t ++ δ))] := by
      intro X; simp [appendDollars]
    cases v with
    | text s =>
      simp only [List.cons_append, prependDollars]
      rw [← List.cons_append, key, List.cons_append]
    | _ =>
      simp only [List.cons_append, prependDollars]
      rw [← List.cons_append, ← List.cons_append, key]
      simp

/-- The block of a formula in dollar signs that ends in a text. -/
theorem block_text {k n A m t block} (h : Delimited .dollars k n (A ++ [.mk m (.text t)]) block) :
    block.map Ast2.Chunk.variant = (prependDollars (dollarsOf k) (A ++ [.mk m (.text (t ++ dollarsOf k))])).map Ast2.Chunk.variant := by
  rw [delimited_iff] at h
  subst h
  cases k <;> simp only [wrapMaths] <;> rw [if_neg (by simp)] <;> exact closing

/-- The block of a formula in dollar signs without text. -/
theorem block_plain {k n A block} (h : Delimited .dollars k n A block) (hA : ∀ c ∈ A, NotText c) :
    block.map Ast2.Chunk.variant = (prependDollars (dollarsOf k) (A ++ [.mk 1 (.text ([] ++ dollarsOf k))])).map Ast2.Chunk.variant := by
  rw [delimited_iff] at h
  subst h
  have hd : dollars k = dollarsOf k := by cases k <;> rfl
  cases hA' : A.reverse with
  | nil =>
    rw [List.reverse_eq_nil_iff] at hA'
    subst hA'
    cases k <;> rfl
  | cons c R =>
    obtain ⟨l, v⟩ := c
    have hA2 : A = R.reverse ++ [.mk l v] := by rw [← List.reverse_reverse A, hA']; simp
    have hv : ∀ t, v ≠ .text t := hA (.mk l v) (by rw [hA2]; simp)
    have h1 : prependDollars (dollarsOf k) A = .mk 1 (.text (dollarsOf k)) :: A := by
      cases A with
      | nil => simp at hA2
      | cons c A =>
        obtain ⟨l', v'⟩ := c
        have := hA _ (.head _)
        cases v' with
        | text t => exact absurd rfl (this t)
        | _ => rfl
    have h2 : prependDollars (dollarsOf k) (A ++ [.mk 1 (.text ([] ++ dollarsOf k))]) =
        .mk 1 (.text (dollarsOf k)) :: (A ++ [.mk 1 (.text ([] ++ dollarsOf k))]) := by
      cases A with
      | nil => simp at hA2
      | cons c A =>
        obtain ⟨l', v'⟩ := c
        have := hA _ (.head _)
        cases v' with
        | text t => exact absurd rfl (this t)
        | _ => rfl
    have h3 : A ≠ [] := by rw [hA2]; simp
    have h4 : appendDollars (dollarsOf k) n (.mk 1 (.text (dollarsOf k)) :: A) =
        .mk 1 (.text (dollarsOf k)) :: A ++ [.mk n (.text (dollarsOf k))] := by
      unfold appendDollars
      rw [hA2, ← List.cons_append, List.getLast?_concat]
      split
      · rename_i h
        simp only [Option.some.injEq, Ast2.Chunk.mk.injEq] at h
        exact absurd h.2 (hv _)
      · rfl
    rw [h2]
    cases k <;> simp only [wrapMaths] <;> rw [if_neg (by simpa using h3), hd, h1, h4] <;> simp [Ast2.Chunk.variant]

/-- The texts that are left behind. -/
theorem walk {t r : Str} {m : Nat} {X : List Ast2.Chunk} (ht : '$' ∉ t) : ∀ {left : List Chunk} {L : List Ast2.Chunk} {l : Nat} {x : Str},
    (∀ c ∈ left, IsPiece c) → L.map Ast2.Chunk.variant = left.map (fun c => .text c.variant.display) → '$' ∉ x →
    ∃ lost, ToDollar ⟨l, [], x, L ++ .mk m (.text (t ++ '$' :: r)) :: X⟩ (textIf l x ++ lost) [] ⟨m, t, r, X⟩ ∧
      noLines (paragraphs lost) = noLines left := by
  intro left
  induction left with
  | nil =>
    intro L l x _ h hx
    rw [variants_nil h]
    have := ToDollar.later (l := l) (q := []) (x := x) (ms := []) (l' := m) hx (by simp) (.here (l := m) (q := []) (r := r) (rest := X) ht)
    exact ⟨[], by simpa using this, rfl⟩
  | cons c left ih =>
    intro L l x hc h hx
    obtain ⟨l', L', rfl, h'⟩ := variants_cons h
    have hp := hc c (.head _)
    obtain ⟨lost, h1, h2⟩ := ih (l := l') (fun c h => hc c (.tail _ h)) h' (piece_no_dollar hp)
    have := ToDollar.later (l := l) (q := []) (x := x) (ms := []) hx (by simp) h1
    refine ⟨textIf l' c.variant.display ++ lost, by simpa using this, ?_⟩
    rw [paragraphs_append, noLines_append, piece_paragraphs hp, h2]
    rw [← noLines_append]; rfl

/-- From right after the opening dollar signs to the first closing one. -/
theorem reach {δ t r : Str} {left : List Chunk} {Ms L D : List Ast2.Chunk} {m : Nat} (hm : ∀ c ∈ Ms, NotText c) (ht : '$' ∉ t)
    (hc : ∀ c ∈ left, IsPiece c) (hL : L.map Ast2.Chunk.variant = left.map (fun c => .text c.variant.display))
    (hD : D.map Ast2.Chunk.variant = (prependDollars δ (Ms ++ L ++ [.mk m (.text (t ++ '$' :: r))])).map Ast2.Chunk.variant) :
    ∃ l x R Ms', D = .mk l (.text (δ ++ x)) :: R ∧ Ms'.map Ast2.Chunk.variant = Ms.map Ast2.Chunk.variant ∧
      ∀ l' X, ∃ lost m', ToDollar ⟨l', [], x, R ++ X⟩ lost Ms' ⟨m', t, r, X⟩ ∧ noLines (paragraphs lost) = noLines left := by
  cases Ms with
  | cons c Ms =>
    obtain ⟨l, v⟩ := c
    have hp : prependDollars δ (.mk l v :: Ms ++ L ++ [.mk m (.text (t ++ '$' :: r))]) =
        .mk 1 (.text δ) :: (.mk l v :: Ms ++ L ++ [.mk m (.text (t ++ '$' :: r))]) := by
      cases v with
      | text s => exact absurd rfl (hm _ (.head _) s)
      | _ => rfl
    rw [hp, List.map_cons] at hD
    obtain ⟨l1, R, rfl, hR⟩ := variants_cons hD
    rw [List.map_append, List.map_append] at hR
    obtain ⟨R1, R2, rfl, hR1, hR2⟩ := variants_append hR
    obtain ⟨Ms', L', rfl, hM, hL'⟩ := variants_append hR1
    obtain ⟨m', R3, rfl, h3⟩ := variants_cons hR2
    rw [variants_nil h3]
    refine ⟨l1, [], Ms' ++ L' ++ [.mk m' (.text (t ++ '$' :: r))], Ms', by simp [Ast2.Chunk.variant], hM, ?_⟩
    intro l' X
    rw [hL] at hL'
    have hn := variants_notText hM hm
    cases left with
    | nil =>
      rw [variants_nil hL']
      refine ⟨[], m', ?_, rfl⟩
      have := ToDollar.later (l := l') (q := []) (x := []) (by simp) hn (.here (l := m') (q := []) (r := r) (rest := X) ht)
      simpa [textIf] using this
    | cons c left =>
      obtain ⟨l2, L2, rfl, hL2⟩ := variants_cons hL'
      have hp := hc c (.head _)
      obtain ⟨lost, h1, h2⟩ := walk (t := t) (r := r) (m := m') (X := X) ht (l := l2) (fun c h => hc c (.tail _ h)) hL2 (piece_no_dollar hp)
      refine ⟨textIf l2 c.variant.display ++ lost, m', ?_, ?_⟩
      · have := ToDollar.later (l := l') (q := []) (x := []) (by simp) hn h1
        simpa [textIf] using this
      · rw [paragraphs_append, noLines_append, piece_paragraphs hp, h2]
        rw [← noLines_append]; rfl
  | nil =>
    rw [List.nil_append] at hD
    cases left with
    | nil =>
      rw [variants_nil (D := L) hL] at hD
      obtain ⟨l1, R, rfl, hR⟩ := variants_cons (D := D) hD
      rw [variants_nil hR]
      exact ⟨l1, t ++ '$' :: r, [], [], rfl, rfl, fun l' X => ⟨[], l', .here ht, rfl⟩⟩
    | cons c left =>
      obtain ⟨l2, L2, rfl, hL2⟩ := variants_cons hL
      obtain ⟨l1, R, rfl, hR⟩ := variants_cons (D := D) hD
      rw [List.append_eq, List.map_append] at hR
      obtain ⟨L3, R2, rfl, hL3, hR2⟩ := variants_append hR
      obtain ⟨m', R3, rfl, h3⟩ := variants_cons hR2
      rw [variants_nil h3]
      refine ⟨l1, c.variant.display, L3 ++ [.mk m' (.text (t ++ '$' :: r))], [], rfl, rfl, ?_⟩
      intro l' X
      have hp := hc c (.head _)
      obtain ⟨lost, h1, h2⟩ := walk (t := t) (r := r) (m := m') (X := X) ht (l := l') (fun c h => hc c (.tail _ h)) (hL3.trans hL2) (piece_no_dollar hp)
      refine ⟨textIf l' c.variant.display ++ lost, m', by simpa using h1, ?_⟩
      rw [paragraphs_append, noLines_append, piece_paragraphs hp, h2]
      rw [← noLines_append]; rfl

/-- The formula found in the block. -/
theorem found_again {k : MathsType} {t : Str} {left : List Chunk} {Ms L D : List Ast2.Chunk} {m : Nat} (hm : ∀ c ∈ Ms, NotText c) (ht : '$' ∉ t)
    (hc : ∀ c ∈ left, IsPiece c) (hL : L.map Ast2.Chunk.variant = left.map (fun c => .text c.variant.display))
    (hne : k = .inline → Ms ≠ [] ∨ t ≠ [])
    (hD : D.map Ast2.Chunk.variant = (prependDollars (dollarsOf k) (Ms ++ L ++ [.mk m (.text (t ++ dollarsOf k))])).map Ast2.Chunk.variant) :
    ∃ l x R Ms', D = .mk l (.text ('$' :: x)) :: R ∧ Ms'.map Ast2.Chunk.variant = Ms.map Ast2.Chunk.variant ∧
      ∀ l' X, ∃ lost m', Formula ⟨l', [], x, R ++ X⟩ lost k (Ms' ++ textIf2 m' t) ⟨m', t, [], X⟩ ∧ noLines (paragraphs lost) = noLines left := by
  cases k with
  | inline =>
    obtain ⟨l, x, R, Ms', rfl, h1, h2⟩ := reach (r := []) hm ht hc hL hD
    refine ⟨l, x, R, Ms', rfl, h1, ?_⟩
    intro l' X
    obtain ⟨lost, m', h3, h4⟩ := h2 l' X
    refine ⟨lost, m', .inline h3 ?_, h4⟩
    refine (hne rfl).imp (fun h h' => h ?_) id
    subst h'
    exact variants_nil h1.symm
  | outline =>
    obtain ⟨l, x, R, Ms', rfl, h1, h2⟩ := reach (r := chars!"$") hm ht hc hL hD
    refine ⟨l, '$' :: x, R, Ms', rfl, h1, ?_⟩
    intro l' X
    obtain ⟨lost, m', h3, h4⟩ := h2 l' X
    refine ⟨lost, m', ?_, h4⟩
    have := Formula.display (p := ⟨l', [], '$' :: x, R ++ X⟩) (.here (x := []) (by simp)) rfl h3 (.here (x := []) (q := t) (r := []) (by simp))
    simpa using this

end LatexAst.Ast3
