import Verif.Proofs.Again5c

/-! What follows the document environment, going to stage 2 and back: when it panics, exactly. -/

namespace LatexAst.Ast3
open Spec

/-! ### texts put together, with lines -/

theorem jt_head (X : List Ast2.Chunk) : ∃ r R, ∀ l p, Ast2.joinTexts (.mk l (.text p) :: X) = .mk l (.text (p ++ r)) :: R := by
  cases hj : Ast2.joinTexts X with
  | nil => exact ⟨[], [], fun l p => by simp [Ast2.joinTexts, hj]⟩
  | cons c R =>
    obtain ⟨m, v⟩ := c
    cases v with
    | text t => exact ⟨t, R, fun l p => by simp [Ast2.joinTexts, hj]⟩
    | command c => exact ⟨[], .mk m (.command c) :: R, fun l p => by simp [Ast2.joinTexts, hj]⟩
    | scope c => exact ⟨[], .mk m (.scope c) :: R, fun l p => by simp [Ast2.joinTexts, hj]⟩
    | environment c => exact ⟨[], .mk m (.environment c) :: R, fun l p => by simp [Ast2.joinTexts, hj]⟩

theorem jt_other {c : Ast2.Chunk} (r) (h : NotText c) : Ast2.joinTexts (c :: r) = c :: Ast2.joinTexts r :=
  Ast2.joinTexts_other c r (by rintro l t rfl; exact h t rfl)

theorem jt_others {ms : List Ast2.Chunk} (h : ∀ c ∈ ms, NotText c) (r) : Ast2.joinTexts (ms ++ r) = ms ++ Ast2.joinTexts r := by
  induction ms with
  | nil => rfl
  | cons v ms ih => rw [List.cons_append, jt_other _ (h v (.head _)), ih fun w hw => h w (.tail _ hw)]; rfl

theorem jt_text_other {c : Ast2.Chunk} (l p r) (h : NotText c) : Ast2.joinTexts (.mk l (.text p) :: c :: r) = .mk l (.text p) :: c :: Ast2.joinTexts r := by
  rw [Ast2.joinTexts_text_other l p c r (by rintro l t rfl; exact h t rfl), jt_other r h]

theorem jt_split {c : Ast2.Chunk} (h : NotText c) (a b : List Ast2.Chunk) : Ast2.joinTexts (a ++ c :: b) = Ast2.joinTexts a ++ c :: Ast2.joinTexts b := by
  induction a with
  | nil => exact jt_other b h
  | cons v a ih =>
    obtain ⟨l, v⟩ := v
    cases v with
    | text t =>
      simp only [List.cons_append, Ast2.joinTexts, ih]
      cases hj : Ast2.joinTexts a with
      | nil =>
        obtain ⟨m, w⟩ := c
        cases w with
        | text t' => exact absurd rfl (h t')
        | _ => rfl
      | cons w R => obtain ⟨m, w⟩ := w; cases w <;> rfl
    | _ => simp only [List.cons_append, Ast2.joinTexts, ih]

theorem jt_texts : ∀ {T : List Ast2.Chunk}, (∀ c ∈ T, ∃ l t, c = .mk l (.text t)) → ∀ l p X,
    Ast2.joinTexts (.mk l (.text p) :: (T ++ X)) = Ast2.joinTexts (.mk l (.text (p ++ Ast2.displayChunks T)) :: X)
  | [], _, l, p, X => by simp [Ast2.displayChunks]
  | c :: T, h, l, p, X => by
    obtain ⟨m, t, rfl⟩ := h c (.head _)
    rw [List.cons_append, Ast2.joinTexts_text_text, jt_texts fun c hc => h c (.tail _ hc)]
    simp [Ast2.displayChunks, Ast2.Chunk.display, Ast2.ChunkVariant.display]

/-- A text first comes from a text first. -/
theorem jt_first {X : List Ast2.Chunk} {m t R} (h : Ast2.joinTexts X = .mk m (.text t) :: R) : ∃ t' X', X = .mk m (.text t') :: X' := by
  cases X with
  | nil => cases h
  | cons c X =>
    obtain ⟨l, v⟩ := c
    cases v with
    | text t' =>
      obtain ⟨r, R', hr⟩ := jt_head X
      rw [hr] at h
      cases h
      exact ⟨t', X, rfl⟩
    | _ => simp only [Ast2.joinTexts] at h; cases h

/-- Starting without a text. -/
theorem goes_start {X : List Ast2.Chunk} {G : Prop} (hX : TextsFrom1 X)
    (h : ∀ l b o, 1 ≤ l → Yields b (Ast2.joinTexts (.mk l (.text []) :: X)) o → (Goes o ↔ G)) :
    ∀ b o, Yields b (Ast2.joinTexts X) o → (Goes o ↔ G) := by
  intro b o hy
  by_cases ht : ∃ m t R, Ast2.joinTexts X = .mk m (.text t) :: R
  · obtain ⟨m, t, R, hj⟩ := ht
    obtain ⟨t', X', rfl⟩ := jt_first hj
    refine h m b o (hX m t' (.head _)) ?_
    rw [Ast2.joinTexts_text_text, List.nil_append]
    exact hy
  · refine h 1 b o (Nat.le_refl _) ?_
    have : Ast2.joinTexts (.mk 1 (.text []) :: X) = .mk 1 (.text []) :: Ast2.joinTexts X := by
      simp only [Ast2.joinTexts]
      split
      · rename_i m t R hj
        exact absurd ⟨m, t, R, hj⟩ ht
      · rfl
    rw [this]
    exact yields_empty.2 hy

theorem textsFrom1_shift {X : List Ast2.Chunk} (h : TextsFrom1 X) (s : Nat) : TextsFrom1 (X.map (Ast2.Chunk.shift s)) := by
  intro l t hm
  obtain ⟨⟨m, v⟩, hm, he⟩ := List.mem_map.1 hm
  simp only [Ast2.Chunk.shift, Ast2.Chunk.mk.injEq] at he
  obtain ⟨rfl, rfl⟩ := he
  have := h m t hm
  omega

/-! ### a formula in dollar signs -/

theorem firstTextLine_others {ms P : List Chunk} (h : ∀ c ∈ ms, ¬ c.IsText) : firstTextLine (ms ++ P) = firstTextLine P := by
  induction ms with
  | nil => rfl
  | cons c ms ih =>
    obtain ⟨l, v⟩ := c
    have := h _ (.head _)
    have ih := ih fun c hc => h c (.tail _ hc)
    cases v with
    | text t => exact absurd (.inl ⟨t, rfl⟩) this
    | paragraphBreak t => exact absurd (.inr ⟨t, rfl⟩) this
    | _ => exact ih

theorem firstTextLine_piece {c : Chunk} {r} (h : c.IsText) : firstTextLine (c :: r) = some c.lineNo := by
  obtain ⟨l, v⟩ := c
  rcases h with ⟨t, h⟩ | ⟨t, h⟩ <;> (simp only [Chunk.variant] at h; subst h; rfl)

/-- The block: what is not text, and then texts, of which the first has the line that counts. -/
theorem block_joined {k ms pieces content block} (ht : Textless ms) (hp : ∀ c ∈ pieces, IsPiece c) (hu : Unfolds (ms ++ pieces) content)
    (hb : Delimited .dollars k (1 + (displayChunks (ms ++ pieces)).count '\n') content block) :
    ∃ Ms t T, Unfolds ms Ms ∧ block = prependDollars (dollarsOf k) (Ms ++ .mk (closeLineJoined (ms ++ pieces)) (.text t) :: T) ∧
      (∀ c ∈ T, ∃ l t, c = .mk l (.text t)) ∧ t ++ Ast2.displayChunks T = displayChunks pieces ++ dollarsOf k := by
  obtain ⟨Ms, L, rfl, h1, h2⟩ := unfolds_split hu
  have hm := unfolds_textless ht h1
  have hf := firstTextLine_others (P := pieces) (textless_not_text ht)
  rcases List.eq_nil_or_concat pieces with rfl | ⟨left, last, rfl⟩
  · cases h2
    simp only [List.append_nil] at hb hf ⊢
    refine ⟨Ms, dollarsOf k, [], h1, ?_, by simp, by simp [displayChunks, Ast2.displayChunks]⟩
    have := block_plain_lines hb hm (by
      rintro rfl
      rw [textless_nil ht h1]
      rfl)
    rw [this, closeLineJoined, hf]
    rfl
  · rw [List.concat_eq_append] at *
    obtain ⟨L1, L2, rfl, h3, h4⟩ := unfolds_split h2
    have hq := hp last (by simp)
    rw [unfolds_piece hq h4, ← List.append_assoc Ms] at hb
    have hb2 := block_text_lines hb
    clear hb
    cases left with
    | nil =>
      cases h3
      refine ⟨Ms, last.variant.display ++ dollarsOf k, [], h1, ?_, by simp, ?_⟩
      rotate_left
      · have : displayChunks ([] ++ [last]) = last.variant.display := by
          obtain ⟨l, v⟩ := last
          simp [displayChunks, Chunk.display, Chunk.variant]
        rw [this]; simp [Ast2.displayChunks]
      · rw [hb2, closeLineJoined, hf, List.nil_append, firstTextLine_piece (piece_textLike hq)]
        simp
    | cons c left =>
      have hc := hp c (by simp)
      obtain ⟨d1, d2, rfl, h5, h6⟩ := unfolds_cons h3
      rw [unfolds_piece hc h5] at hb2
      have hd2 := unfolds_pieces (fun c hc => hp c (by simp [hc])) h6
      refine ⟨Ms, c.variant.display, d2 ++ [.mk last.lineNo (.text (last.variant.display ++ dollarsOf k))], h1, ?_, ?_, ?_⟩
      · rw [hb2, closeLineJoined, hf, show c :: left ++ [last] = c :: (left ++ [last]) from rfl, firstTextLine_piece (piece_textLike hc)]
        simp
      · intro x hx
        rcases List.mem_append.1 hx with hx | hx
        · have : x.variant ∈ d2.map Ast2.Chunk.variant := List.mem_map.2 ⟨x, hx, rfl⟩
          rw [hd2] at this
          obtain ⟨y, _, hy⟩ := List.mem_map.1 this
          obtain ⟨l, v⟩ := x
          exact ⟨l, y.variant.display, by simp only [Ast2.Chunk.variant] at hy; rw [hy]⟩
        · exact ⟨_, _, List.mem_singleton.1 hx⟩
      · have e : Ast2.displayChunks d2 = displayChunks left := by
          rw [← Ast2.print_atoms, atoms_unfolds h6, print_atoms3]
        obtain ⟨l, v⟩ := last
        obtain ⟨l2, v2⟩ := c
        rw [display2_append, e]
        simp [Ast2.displayChunks, Ast2.Chunk.display, Ast2.ChunkVariant.display, displayChunks, Chunk.display, Chunk.variant]

theorem shift_notText {Ms : List Ast2.Chunk} {s} (h : ∀ c ∈ Ms, NotText c) : ∀ c ∈ Ms.map (Ast2.Chunk.shift s), NotText c :=
  variants_notText (variants_shift s Ms) h

/-- The formula found in the texts put together, with lines. -/
theorem found_joined_lines {k : MathsType} {l s f : Nat} {p t U : Str} {Ms T X : List Ast2.Chunk} (hm : ∀ c ∈ Ms, NotText c) (hU : '$' ∉ U)
    (hT : ∀ c ∈ T, ∃ l t, c = .mk l (.text t)) (ht : t ++ Ast2.displayChunks T = U ++ dollarsOf k) (hne : k = .inline → Ms ≠ [] ∨ U ≠ []) :
    ∃ y Y m, Ast2.joinTexts (.mk l (.text p) :: ((prependDollars (dollarsOf k) (Ms ++ .mk f (.text t) :: T)).map (Ast2.Chunk.shift s) ++ X)) =
        .mk l (.text (p ++ '$' :: y)) :: Y ∧
      (Ms = [] → m = l + p.count '\n') ∧ (Ms ≠ [] → m = f + s) ∧
      ∃ r R, (∀ l', Ast2.joinTexts (.mk l' (.text []) :: X) = .mk l' (.text r) :: R) ∧
        Formula ⟨l + p.count '\n', [], y, Y⟩ [] k (Ms.map (Ast2.Chunk.shift s) ++ textIf2 m U) ⟨m, U, r, R⟩ := by
  obtain ⟨r, R, hr⟩ := jt_head X
  have hT' : ∀ c ∈ T.map (Ast2.Chunk.shift s), ∃ l t, c = .mk l (.text t) := by
    intro c hc
    obtain ⟨d, hd, rfl⟩ := List.mem_map.1 hc
    obtain ⟨l, t, rfl⟩ := hT d hd
    exact ⟨_, _, rfl⟩
  have hTd : Ast2.displayChunks (T.map (Ast2.Chunk.shift s)) = Ast2.displayChunks T := by
    rw [← Ast2.print_atoms, Ast2.atoms_shift, Ast2.print_atoms]
  have step : ∃ y Y m, Ast2.joinTexts (.mk l (.text p) :: ((prependDollars (dollarsOf k) (Ms ++ .mk f (.text t) :: T)).map (Ast2.Chunk.shift s) ++ X)) =
        .mk l (.text (p ++ dollarsOf k ++ y)) :: Y ∧ (Ms = [] → m = l + p.count '\n') ∧ (Ms ≠ [] → m = f + s) ∧
      ∀ z, dollarsOf k = '$' :: z → ToDollar ⟨l + p.count '\n', [], y, Y⟩ [] (Ms.map (Ast2.Chunk.shift s)) ⟨m, U, z ++ r, R⟩ := by
    cases Ms with
    | nil =>
      refine ⟨U ++ dollarsOf k ++ r, R, l + p.count '\n', ?_, fun _ => rfl, fun h => absurd rfl h, ?_⟩
      · simp only [List.nil_append, prependDollars, List.map_cons, Ast2.Chunk.shift, List.cons_append]
        rw [Ast2.joinTexts_text_text]
        have := jt_texts hT' l (p ++ (dollarsOf k ++ t)) X
        rw [this, hr, hTd]
        simp only [List.append_assoc]
        rw [← List.append_assoc t, ht]
        simp only [List.append_assoc]
      · intro z hz
        have := ToDollar.here (l := l + p.count '\n') (q := []) (r := z ++ r) (rest := R) hU
        rw [hz]
        simpa using this
    | cons c Ms =>
      have hc : NotText c := hm c (.head _)
      have e : prependDollars (dollarsOf k) (c :: Ms ++ .mk f (.text t) :: T) = .mk 1 (.text (dollarsOf k)) :: (c :: Ms ++ .mk f (.text t) :: T) := by
        obtain ⟨m, v⟩ := c
        cases v with
        | text t => exact absurd rfl (hc t)
        | _ => rfl
      refine ⟨[], (c :: Ms).map (Ast2.Chunk.shift s) ++ .mk (f + s) (.text (U ++ dollarsOf k ++ r)) :: R, f + s, ?_, (fun h => by cases h), fun _ => rfl, ?_⟩
      · rw [e, List.map_cons, List.map_append, List.map_cons, List.map_cons, List.cons_append, List.append_assoc, List.cons_append]
        have e1 : Ast2.Chunk.shift s (.mk 1 (.text (dollarsOf k))) = .mk (1 + s) (.text (dollarsOf k)) := rfl
        have e2 : Ast2.Chunk.shift s (.mk f (.text t)) = .mk (f + s) (.text t) := rfl
        rw [e1, e2]
        have hn := shift_notText (s := s) hm
        rw [List.map_cons] at hn
        rw [Ast2.joinTexts_text_text]
        simp only [List.cons_append]
        rw [jt_text_other _ _ _ (hn _ (.head _)), jt_others fun c hc => hn c (.tail _ hc)]
        have := jt_texts hT' (f + s) t X
        rw [this, hr, hTd, ht]
        simp
      · intro z hz
        have hn := shift_notText (s := s) hm
        have := ToDollar.later (l := l + p.count '\n') (q := []) (x := []) (by simp) hn (ToDollar.here (l := f + s) (q := []) (r := z ++ r) (rest := R) hU)
        rw [hz]
        simpa [textIf] using this
  obtain ⟨y, Y, m, h1, h2, h3, h4⟩ := step
  have hne' : k = .inline → Ms.map (Ast2.Chunk.shift s) ≠ [] ∨ U ≠ [] := fun hk => (hne hk).imp (by simp) id
  cases k with
  | inline =>
    refine ⟨y, Y, m, by rw [h1]; simp [dollarsOf], h2, h3, r, R, fun l' => by rw [hr]; rfl, ?_⟩
    have h5 := h4 [] rfl
    exact .inline h5 (hne' rfl)
  | outline =>
    refine ⟨'$' :: y, Y, m, by rw [h1]; simp [dollarsOf], h2, h3, r, R, fun l' => by rw [hr]; rfl, ?_⟩
    have h5 := h4 ['$'] rfl
    have := Formula.display (p := ⟨l + p.count '\n', [], '$' :: y, Y⟩) (.here (x := []) (by simp)) rfl h5 (.here (x := []) (q := U) (r := r) (by simp))
    simpa using this

/-! ### the rule -/

/-- What `Firm` asks of a chunk. -/
def FirmChunk (c : Chunk) : Prop := ((∀ m, c.variant ≠ .mathsBlock m) → EveryDollars (¬ Strays ·) [c]) ∧
  (∀ l k content, c = .mk l (.mathsBlock (.mk .brackets k content)) → Firm content) ∧
  ∀ l k content, c = .mk l (.mathsBlock (.mk .dollars k content)) → ¬ StraysJoined content ∧ EveryDollars (¬ Strays ·) content

theorem firm_iff {cs : List Chunk} : Firm cs ↔ ∀ c ∈ cs, FirmChunk c := by
  constructor
  · intro h
    cases h with
    | mk h2 h3 h4 => exact fun c hc => ⟨h2 c hc, by rintro l k content rfl; exact h3 l k content hc, by rintro l k content rfl; exact h4 l k content hc⟩
  · intro h2
    exact .mk (fun c hc => (h2 c hc).1) (fun l k content hc => (h2 _ hc).2.1 l k content rfl) fun l k content hc => (h2 _ hc).2.2 l k content rfl

theorem firm_nil : Firm [] := firm_iff.2 (by simp)

theorem firm_cons {c : Chunk} {cs} : Firm (c :: cs) ↔ FirmChunk c ∧ Firm cs := by
  rw [firm_iff, firm_iff, List.forall_mem_cons]

theorem firmChunk_other {c : Chunk} (h : ∀ m, c.variant ≠ .mathsBlock m) : FirmChunk c ↔ EveryDollars (¬ Strays ·) [c] := by
  constructor
  · intro hc; exact hc.1 h
  · intro hc
    exact ⟨fun _ => hc, by rintro l k content rfl; exact absurd rfl (h _), by rintro l k content rfl; exact absurd rfl (h _)⟩

theorem firmChunk_text {c : Chunk} (h : IsPiece c) : FirmChunk c := by
  refine (firmChunk_other ?_).2 (everyDollars_pieces (by simpa using h))
  intro m hm
  cases h <;> cases hm

theorem firmChunk_brackets {l k content} : FirmChunk (.mk l (.mathsBlock (.mk .brackets k content))) ↔ Firm content := by
  constructor
  · intro hc; exact hc.2.1 _ _ _ rfl
  · intro hc
    refine ⟨fun h => absurd rfl (h _), ?_, ?_⟩
    · intro l k c he; cases he; exact hc
    · intro l k c he; cases he

theorem firmChunk_dollars {l k content} : FirmChunk (.mk l (.mathsBlock (.mk .dollars k content))) ↔
    ¬ StraysJoined content ∧ EveryDollars (¬ Strays ·) content := by
  constructor
  · intro hc; exact hc.2.2 _ _ _ rfl
  · intro hc
    refine ⟨fun h => absurd rfl (h _), ?_, ?_⟩
    · intro l k c he; cases he
    · intro l k c he; cases he; exact hc

theorem straysJoined_iff {content : List Chunk} {xs : List Ast2.Chunk} (h : Unfolds content xs) :
    ¬ StraysJoined content ↔ ∀ x ∈ xs, NotText x → closeLineJoined content ≤ x.lineNo + 1 := by
  constructor
  · intro hs x hx hn
    rcases Nat.lt_or_ge (x.lineNo + 1) (closeLineJoined content) with hl | hl
    · exact absurd ⟨xs, x, h, hx, hn, hl⟩ hs
    · exact hl
  · rintro hs ⟨ys, x, h1, hx, hn, hl⟩
    have := (unfolds_into h).symm.trans (unfolds_into h1)
    cases this
    have := hs x hx hn
    omega

/-- What is proved: there is no failure exactly if nothing strays. -/
def Firmly (cs : List Chunk) : Prop := ∀ {p l s ds b o}, '$' ∉ p → 1 ≤ l → Unfolds cs ds →
  Yields b (Ast2.joinTexts (.mk l (.text p) :: ds.map (Ast2.Chunk.shift s))) o → (Goes o ↔ Firm cs)

theorem Firmly.start {cs ds s} (h : Firmly cs) (hn : Numbered cs) (hu : Unfolds cs ds) :
    ∀ b o, Yields b (Ast2.joinTexts (ds.map (Ast2.Chunk.shift s))) o → (Goes o ↔ Firm cs) :=
  goes_start (textsFrom1_shift (unfolds_from1 hu hn) s) fun _ _ _ hl hy => h (by simp) hl hu hy

theorem goes_front {l b p X o} {G : Prop} (hp : '$' ∉ p) (hy : Yields b (.mk l (.text p) :: X) o) (hX : ∀ o', Yields b X o' → (Goes o' ↔ G)) :
    Goes o ↔ G := by
  obtain ⟨o', ho'⟩ := yields_total b X
  rw [yields_unique hy (.text hp ho'), goes_before]
  exact hX o' ho'

theorem firmly_other {c rest} (hr : Rests [c]) (n1 : ¬ c.IsText) (n2 : ∀ m, c.variant ≠ .mathsBlock m) (hn : Numbered rest) (ih : Firmly rest) : Firmly (c :: rest) := by
  intro p l s ds b o hp hl hu hy
  obtain ⟨d1, d2, rfl, h1, h2⟩ := unfolds_cons hu
  have hd : ∃ d, d1 = [d] ∧ NotText d := by
    obtain ⟨l, v⟩ := c
    cases h1 with
    | text => exact absurd (.inl ⟨_, rfl⟩) n1
    | «break» => exact absurd (.inr ⟨_, rfl⟩) n1
    | scope _ h => cases h; exact ⟨_, rfl, by intro t h; cases h⟩
    | command _ h => cases h; exact ⟨_, rfl, by intro t h; cases h⟩
    | environment _ _ h => cases h; exact ⟨_, rfl, by intro t h; cases h⟩
    | maths => exact absurd rfl (n2 _)
  obtain ⟨d, rfl, hd⟩ := hd
  have hd' : NotText (Ast2.Chunk.shift s d) := by obtain ⟨m, v⟩ := d; exact hd
  rw [List.singleton_append, List.map_cons, jt_text_other _ _ _ hd'] at hy
  refine goes_front hp hy fun o' ho' => ?_
  have := hr [d] [Ast2.Chunk.shift s d] _ b o' (Firm rest) h1 (.inl ⟨s, rfl⟩) (by simpa using ho') (ih.start hn h2)
  rw [this, firm_cons, firmChunk_other n2]

theorem firmly_dollars {l0 k ms pieces rest x} (ht : Textless ms) (hr : Resettles ms x) (hcb : ClosedBelow ms) (hp : ∀ c ∈ pieces, IsPiece c)
    (hne : k = .inline → ms ++ pieces ≠ []) (hn1 : Numbered (ms ++ pieces)) (ih : Firmly rest) :
    Firmly (.mk l0 (.mathsBlock (.mk .dollars k (ms ++ pieces))) :: rest) := by
  intro p l s ds b o hq hl hu hy
  cases hu with
  | @maths _ _ _ _ cds block _ ds' hl0 h1 h2 h3 =>
    obtain ⟨Ms, t, T, hM, rfl, hT, htT⟩ := block_joined ht hp h1 h2
    have hm := unfolds_textless ht hM
    have hU := pieces_no_dollar hp
    have hne' : k = .inline → Ms ≠ [] ∨ displayChunks pieces ≠ [] := by
      intro hk
      by_cases h : ms = []
      · right
        intro h'
        subst h
        have := hne hk
        cases pieces with
        | nil => exact this rfl
        | cons c r =>
          obtain ⟨l, v⟩ := c
          simp only [displayChunks, Chunk.display, List.append_eq_nil_iff] at h'
          exact piece_ne (hp _ (.head _)) h'.1
      · left
        rintro rfl
        exact h (textless_nil ht hM)
    rw [List.map_append, shift_map_shift] at hy
    obtain ⟨y, Y, m, e, m1, m2, r, R, hR, hF⟩ := found_joined_lines (l := l) (s := l0 - 1 + s) (f := closeLineJoined (ms ++ pieces)) (p := p)
      (X := ds'.map (Ast2.Chunk.shift s)) hm hU hT htT hne'
    rw [e] at hy
    have hcl : 1 ≤ closeLineJoined (ms ++ pieces) := by
      unfold closeLineJoined
      rw [firstTextLine_others (textless_not_text ht)]
      cases pieces with
      | nil => exact Nat.le_add_right _ _
      | cons c pieces =>
        rw [firstTextLine_piece (piece_textLike (hp c (.head _)))]
        have := (numbered_append.1 hn1).2
        cases this with
        | mk h _ => exact h c (.head _) (piece_textLike (hp c (.head _)))
    have hm1 : 1 ≤ m := by
      by_cases h : Ms = []
      · rw [m1 h]; omega
      · rw [m2 h]; omega
    have hcount : Countable m (Ms.map (Ast2.Chunk.shift (l0 - 1 + s)) ++ textIf2 m (displayChunks pieces)) ↔ ¬ StraysJoined (ms ++ pieces) := by
      rw [straysJoined_iff h1]
      obtain ⟨Ms2, L, e2, h4, h5⟩ := unfolds_split h1
      have := (unfolds_into hM).symm.trans (unfolds_into h4)
      cases this
      subst e2
      constructor
      · intro hc x hx hnt
        rcases List.mem_append.1 hx with hx | hx
        · have hMs : Ms ≠ [] := by rintro rfl; cases hx
          rcases hc with hc | ⟨_, hc⟩
          · have := (List.append_eq_nil_iff.1 hc).1
            rw [List.map_eq_nil_iff] at this
            exact absurd this hMs
          · obtain ⟨l, v⟩ := x
            have := hc (.mk (l + (l0 - 1 + s)) v) (List.mem_append_left _ (List.mem_map.2 ⟨_, hx, rfl⟩))
            rw [m2 hMs] at this
            simp only [Ast2.Chunk.lineNo] at this ⊢
            omega
        · have : x.variant ∈ L.map Ast2.Chunk.variant := List.mem_map.2 ⟨x, hx, rfl⟩
          rw [unfolds_pieces hp h5] at this
          obtain ⟨c, _, hc⟩ := List.mem_map.1 this
          exact absurd hc.symm (hnt _)
      · intro hs
        refine .inr ⟨hm1, ?_⟩
        intro c hc
        rcases List.mem_append.1 hc with hc | hc
        · obtain ⟨⟨l, v⟩, hc', rfl⟩ := List.mem_map.1 hc
          have hMs : Ms ≠ [] := by rintro rfl; cases hc'
          have := hs (.mk l v) (List.mem_append_left _ hc') (hm _ hc')
          rw [m2 hMs]
          simp only [Ast2.Chunk.lineNo, Ast2.Chunk.shift] at this ⊢
          omega
        · unfold textIf2 at hc
          split at hc
          · cases hc
          · simp only [List.mem_singleton] at hc
            subst hc
            exact Nat.le_succ _
    rw [firm_cons, firmChunk_dollars, ← hcount]
    by_cases hcn : Countable m (Ms.map (Ast2.Chunk.shift (l0 - 1 + s)) ++ textIf2 m (displayChunks pieces))
    · obtain ⟨i, hi⟩ := yields_total 0 ((Ms.map (Ast2.Chunk.shift (l0 - 1 + s)) ++ textIf2 m (displayChunks pieces)).map (countFrom m))
      obtain ⟨o', ho'⟩ := yields_total b (.mk (m + (displayChunks pieces).count '\n') (.text r) :: R)
      rw [yields_unique hy (.formula hq hF hcn hi ho'), goes_block]
      refine and_congr ?_ ?_
      · rw [List.map_append] at hi
        have g := (hr.rests hcb) Ms _ _ 0 i True hM (.inr ⟨ht, (variants_count _ _).trans (variants_shift _ _)⟩) hi (by
          intro b' o' h
          refine iff_of_true ?_ trivial
          unfold textIf2 at h
          split at h
          · exact goes_nil h
          · rw [yields_unique h (.text hU .nil)]
            exact ⟨_, rfl⟩)
        rw [g, everyDollars_append]
        have := everyDollars_pieces (Q := (¬ Strays ·)) hp
        simp [hcn, this]
      · rw [← hR] at ho'
        exact ih (by simp) (by omega) h3 ho'
    · rw [yields_unique hy (.uncountable hq hF hcn)]
      simp [hcn, Goes]

theorem Resettles.firmly {cs x} (h : Resettles cs x) : ClosedBelow cs → Numbered cs → Firmly cs := by
  unfold ClosedBelow
  induction h with
  | nil =>
    intro _ _ p l s ds b o hp _ hu hy
    cases hu
    have hy : Yields b [.mk l (.text p)] o := hy
    rw [yields_unique hy (.text hp .nil)]
    exact iff_of_true ⟨_, rfl⟩ firm_nil
  | @piece c rest rest' hc _ ih =>
    intro hcb hn p l s ds b o hp hl hu hy
    rw [everyDollars_cons] at hcb
    rw [numbered_cons] at hn
    obtain ⟨d1, d2, rfl, h1, h2⟩ := unfolds_cons hu
    rw [unfolds_piece hc h1, List.singleton_append, List.map_cons] at hy
    simp only [Ast2.Chunk.shift] at hy
    rw [Ast2.joinTexts_text_text] at hy
    rw [firm_cons, ih hcb.2 hn.2 (by
      intro h
      rcases List.mem_append.1 h with h | h
      · exact hp h
      · exact piece_no_dollar hc h) hl h2 hy]
    exact ⟨fun h => ⟨firmChunk_text hc, h⟩, fun h => h.2⟩
  | @command l label rest rest' items hl h1 _ _ ih2 =>
    intro hcb hn
    rw [everyDollars_cons] at hcb
    rw [numbered_cons] at hn
    exact firmly_other ((Resettles.command hl h1 .nil).rests hcb.1) (by rintro (⟨t, h⟩ | ⟨t, h⟩) <;> cases h) (by intro m h; cases h) hn.2 (ih2 hcb.2 hn.2)
  | scope h1 _ _ ih2 =>
    intro hcb hn
    rw [everyDollars_cons] at hcb
    rw [numbered_cons] at hn
    exact firmly_other ((Resettles.scope h1 .nil).rests hcb.1) (by rintro (⟨t, h⟩ | ⟨t, h⟩) <;> cases h) (by intro m h; cases h) hn.2 (ih2 hcb.2 hn.2)
  | environment h1 h2 _ _ _ ih2 =>
    intro hcb hn
    rw [everyDollars_cons] at hcb
    rw [numbered_cons] at hn
    exact firmly_other ((Resettles.environment h1 h2 .nil).rests hcb.1) (by rintro (⟨t, h⟩ | ⟨t, h⟩) <;> cases h) (by intro m h; cases h) hn.2 (ih2 hcb.2 hn.2)
  | @brackets l0 k content content' rest rest' hw hcont _ ih1 ih2 =>
    intro hcb hn p l s ds b o hp hl hu hy
    rw [everyDollars_maths] at hcb
    rw [numbered_cons, numbered_maths] at hn
    cases hu with
    | @maths _ _ _ _ cds block _ ds' hl0 h1 h2 h3 =>
      have hblock : ∃ l1 l2, block = .mk l1 (.command (.mk (openLabel k) [])) :: (cds ++ [.mk l2 (.command (.mk (closeLabel k) []))]) := by
        cases h2
        · exact ⟨1, _, rfl⟩
        · exact ⟨1, _, rfl⟩
      obtain ⟨l1, l2, rfl⟩ := hblock
      have n : ∀ l c, NotText (.mk l (.command c)) := by intro l c t h; cases h
      simp only [List.map_append, List.map_cons, List.map_nil, shift_map_shift, List.cons_append, List.append_assoc, List.nil_append, Ast2.Chunk.shift] at hy
      rw [jt_text_other _ _ _ (n _ _), jt_split (n _ _)] at hy
      refine goes_front hp hy fun o1 ho1 => ?_
      have hno : ∀ c ∈ Ast2.joinTexts (cds.map (Ast2.Chunk.shift (l0 - 1 + s))), NotOfKind k c := by
        intro c hc args
        by_cases ht : VText c.variant
        · obtain ⟨t, ht⟩ := ht
          rw [ht]
          exact ⟨(by intro h; cases h), by intro h; cases h⟩
        · obtain ⟨⟨m, v⟩, hd, rfl⟩ := List.mem_map.1 (mem_join_other ht hc)
          exact resettles_without hcont hw h1 _ hd args
      obtain ⟨i, hi⟩ := yields_total 0 (Ast2.joinTexts (cds.map (Ast2.Chunk.shift (l0 - 1 + s))))
      obtain ⟨o', ho'⟩ := yields_total (l1 + (l0 - 1) + s) (Ast2.joinTexts (ds'.map (Ast2.Chunk.shift s)))
      rw [yields_unique ho1 (.brackets (notOfKind_inside hno) hi ho'), goes_block, firm_cons, firmChunk_brackets,
        Firmly.start (ih1 hcb.1.2 hn.1) hn.1 h1 _ _ hi, Firmly.start (ih2 hcb.2 hn.2) hn.2 h3 _ _ ho']
  | @plain l k ms ms' rest rest' hne ht hms _ ih1 ih2 =>
    intro hcb hn
    rw [everyDollars_maths] at hcb
    rw [numbered_cons, numbered_maths] at hn
    have : @Firmly (.mk l (.mathsBlock (.mk .dollars k (ms ++ []))) :: rest) := @firmly_dollars l k ms [] rest ms' ht hms hcb.1.2 (by simp) (by simpa using hne) (by simpa using hn.1) (ih2 hcb.2 hn.2)
    rwa [List.append_nil] at this
  | @dollars l k ms ms' left last rest rest' ht hms hp hq _ ih1 ih2 =>
    intro hcb hn
    rw [everyDollars_maths] at hcb
    rw [numbered_cons, numbered_maths] at hn
    have hcb2 := (everyDollars_append.1 (everyDollars_append.1 hcb.1.2).1).1
    have : @Firmly (.mk l (.mathsBlock (.mk .dollars k (ms ++ (left ++ [last])))) :: rest) := @firmly_dollars l k ms (left ++ [last]) rest ms' ht hms hcb2 (by
      intro c hc
      rcases List.mem_append.1 hc with hc | hc
      · exact hp c hc
      · rw [List.mem_singleton.1 hc]; exact hq) (by simp) (by simpa using hn.1) (ih2 hcb.2 hn.2)
    rwa [← List.append_assoc] at this

end LatexAst.Ast3
